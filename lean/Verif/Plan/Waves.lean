import Verif.Plan.Spec

/-!
# The waves of a graph of steps
-/

namespace Verif.Plan

/-- The edges to `n` that are not from the root and not from steps in `P`. -/
def pendingEdges (g : Graph) (root : Nat) (P : List Nat) (n : Nat) : List (Nat × Nat) :=
  g.edges.filter fun e => e.2 = n ∧ e.1 ≠ root ∧ e.1 ∉ P

theorem pending_zero (g : Graph) (root : Nat) (P : List Nat) (n : Nat) :
    (pendingEdges g root P n).length = 0 ↔ ∀ u, (u, n) ∈ g.edges → u ≠ root → u ∈ P := by
  rw [List.length_eq_zero_iff, pendingEdges, List.filter_eq_nil_iff]
  constructor
  · intro h u hu hr
    have := h (u, n) hu
    simp only [true_and, decide_eq_true_eq] at this
    exact Classical.not_not.1 fun hn => this ⟨hr, hn⟩
  · intro h e he hc
    simp only [decide_eq_true_eq] at hc
    obtain ⟨a, b⟩ := e
    obtain ⟨rfl, h2, h3⟩ := hc
    exact h3 (h a he h2)

theorem filter_length_remove {α : Type} [DecidableEq α] (l : List α) (hl : l.Nodup) (p q : α → Bool) (a : α)
    (ha : a ∈ l) (hp : p a = true) (hq : ∀ x, q x = (p x && decide (x ≠ a))) :
    (l.filter p).length = (l.filter q).length + 1 := by
  induction l with
  | nil => cases ha
  | cons x xs ih =>
    rw [List.nodup_cons] at hl
    rcases List.mem_cons.1 ha with rfl | ha
    · have : xs.filter p = xs.filter q := by
        apply List.filter_congr
        intro y hy
        rw [hq]
        have : y ≠ a := fun h => hl.1 (h ▸ hy)
        simp [this]
      simp [hp, hq, this]
    · have := ih hl.2 ha
      have hne : x ≠ a := fun h => hl.1 (h ▸ ha)
      rw [List.filter_cons, List.filter_cons]
      have : q x = p x := by rw [hq]; simp [hne]
      rw [this]
      split
      · simp only [List.length_cons]; omega
      · omega

theorem length_le_of_nodup {α : Type} [DecidableEq α] (l : List α) : ∀ (m : List α), l.Nodup →
    (∀ x ∈ l, x ∈ m) → l.length ≤ m.length := by
  induction l with
  | nil => intro m _ _; simp
  | cons a l ih =>
    intro m hn hs
    rw [List.nodup_cons] at hn
    have ha : a ∈ m := hs a (by simp)
    have := ih (m.erase a) hn.2 (by
      intro x hx
      have hne : x ≠ a := fun h => hn.1 (h ▸ hx)
      exact (List.mem_erase_of_ne hne).2 (hs x (by simp [hx])))
    rw [List.length_erase_of_mem ha] at this
    have : 0 < m.length := List.length_pos_of_mem ha
    simp only [List.length_cons]
    omega

theorem children_nodup (g : Graph) (h : g.WF) (n : Nat) : (g.children n).Nodup := by
  unfold Graph.children
  have := h.edges.filter (fun e => decide (e.1 = n))
  unfold List.Nodup at this ⊢
  rw [List.pairwise_map]
  refine List.Pairwise.imp_of_mem ?_ this
  intro a b ha hb hab hc
  have ha' := (List.mem_filter.1 ha).2
  have hb' := (List.mem_filter.1 hb).2
  simp only [decide_eq_true_eq] at ha' hb'
  exact hab (Prod.ext (ha'.trans hb'.symm) hc)

theorem mem_children (g : Graph) (n c : Nat) : c ∈ g.children n ↔ (n, c) ∈ g.edges := by
  simp [Graph.children]

/-- The state: the numbers of edges that are still pending. -/
def StOk (g : Graph) (root : Nat) (P : List Nat) (st : Nat → Nat) : Prop :=
  ∀ n, st n = (pendingEdges g root P n).length

theorem markAll_ok (cs : List Nat) : ∀ (st : Nat → Nat), cs.Nodup → (∀ c ∈ cs, st c ≠ 0) →
    ∃ st', markAll cs st = .ok st' ∧ ∀ m, st' m = if m ∈ cs then st m - 1 else st m := by
  induction cs with
  | nil => intro st _ _; exact ⟨st, rfl, by simp⟩
  | cons c cs ih =>
    intro st hn hz
    rw [List.nodup_cons] at hn
    rw [markAll, if_neg (hz c (by simp))]
    obtain ⟨st', h1, h2⟩ := ih (fun m => if m = c then st c - 1 else st m) hn.2 (by
      intro x hx
      have : x ≠ c := fun h => hn.1 (h ▸ hx)
      simp only [this, if_false]
      exact hz x (by simp [hx]))
    refine ⟨st', h1, fun m => ?_⟩
    rw [h2]
    by_cases hm : m = c
    · subst hm
      simp [hn.1]
    · simp [hm]

theorem pending_process (g : Graph) (h : g.WF) (root : Nat) (P : List Nat) (n m : Nat) (hr : n ≠ root)
    (hP : n ∉ P) :
    (pendingEdges g root P m).length =
      (pendingEdges g root (P ++ [n]) m).length + if m ∈ g.children n then 1 else 0 := by
  by_cases hm : m ∈ g.children n
  · rw [if_pos hm]
    rw [mem_children] at hm
    unfold pendingEdges
    refine filter_length_remove g.edges h.edges _ _ (n, m) hm (by simp [hr, hP]) ?_
    rintro ⟨a, b⟩
    simp only [List.mem_append, List.mem_singleton, not_or, ne_eq, Prod.mk.injEq, not_and,
      ← Bool.decide_and]
    apply decide_eq_decide.2
    constructor
    · rintro ⟨h1, h2, h3, h4⟩; exact ⟨⟨h1, h2, h3⟩, fun h => absurd h h4⟩
    · rintro ⟨⟨h1, h2, h3⟩, h4⟩; exact ⟨h1, h2, h3, fun h => h4 h h1⟩
  · rw [if_neg hm, Nat.add_zero]
    rw [mem_children] at hm
    unfold pendingEdges
    congr 1
    apply List.filter_congr
    rintro ⟨a, b⟩ he
    apply decide_eq_decide.2
    simp only [List.mem_append, List.mem_singleton, not_or]
    constructor
    · rintro ⟨h1, h2, h3⟩
      refine ⟨h1, h2, h3, fun h => hm ?_⟩
      rw [← h, ← h1]; exact he
    · rintro ⟨h1, h2, h3, h4⟩; exact ⟨h1, h2, h3⟩

theorem pushes_ok (root : Nat) (st : Nat → Nat) (cs : List Nat) (h : ∀ c ∈ cs, c ≠ root) :
    pushes root st cs = .ok (cs.filter (fun c => decide (st c = 0))) := by
  induction cs with
  | nil => rfl
  | cons c cs ih =>
    rw [pushes, if_neg (h c (by simp)), ih (fun x hx => h x (by simp [hx]))]
    simp only [List.filter_cons, decide_eq_true_eq]
    rfl

theorem pushes_err (root : Nat) (st : Nat → Nat) (cs : List Nat) (l : List Nat)
    (h : pushes root st cs = .ok l) : ∀ c ∈ cs, c ≠ root := by
  induction cs generalizing l with
  | nil => simp
  | cons c cs ih =>
    rw [pushes] at h
    split at h
    · cases h
    · rename_i hc
      cases hp : pushes root st cs with
      | error e => rw [hp] at h; cases h
      | ok l' =>
        intro x hx
        rcases List.mem_cons.1 hx with rfl | hx
        · exact hc
        · exact ih l' hp x hx

/-- What holds of the processed steps `P` and the queue `Q`. -/
structure WInv (g : Graph) (root : Nat) (P Q : List Nat) (st : Nat → Nat) : Prop where
  sts : StOk g root P st
  nodup : (P ++ Q).Nodup
  ready : ∀ n, n ∈ P ++ Q ↔ n ≠ root ∧ st n = 0 ∧ ∃ u, (u, n) ∈ g.edges

theorem WInv.parents {g : Graph} {root : Nat} {P Q : List Nat} {st : Nat → Nat} (h : WInv g root P Q st)
    (n : Nat) (hn : n ∈ P ++ Q) (u : Nat) (hu : (u, n) ∈ g.edges) (hr : u ≠ root) : u ∈ P := by
  have h0 := ((h.ready n).1 hn).2.1
  rw [h.sts] at h0
  exact (pending_zero g root P n).1 h0 u hu hr

/-- One step of a wave. -/
theorem inv_step (g : Graph) (hg : g.WF) (root : Nat) (P Q : List Nat) (n : Nat) (st : Nat → Nat)
    (h : WInv g root P (n :: Q) st) (hroot : ∀ c ∈ g.children n, c ≠ root) :
    ∃ st' new, markAll (g.children n) st = .ok st' ∧ pushes root st' (g.children n) = .ok new ∧
      WInv g root (P ++ [n]) (Q ++ new) st' := by
  have hn : n ∈ P ++ n :: Q := by simp
  have hnr : n ≠ root := ((h.ready n).1 hn).1
  have hnP : n ∉ P := by
    have := h.nodup
    rw [List.nodup_append] at this
    exact fun hp => this.2.2 n hp n (by simp) rfl
  have hpos : ∀ c ∈ g.children n, st c ≠ 0 := by
    intro c hc h0
    rw [h.sts] at h0
    exact hnP ((pending_zero g root P c).1 h0 n ((mem_children g n c).1 hc) hnr)
  obtain ⟨st', h1, h2⟩ := markAll_ok (g.children n) st (children_nodup g hg n) hpos
  have hst' : StOk g root (P ++ [n]) st' := by
    intro m
    rw [h2, h.sts, pending_process g hg root P n m hnr hnP]
    split <;> simp
  refine ⟨st', _, h1, pushes_ok root st' _ hroot, hst', ?_, ?_⟩
  · have hnd := h.nodup
    have hnew : ∀ x ∈ (g.children n).filter (fun c => decide (st' c = 0)), x ∉ P ++ n :: Q := by
      intro x hx hxm
      exact hpos x (List.mem_filter.1 hx).1 ((h.ready x).1 hxm).2.1
    have : P ++ [n] ++ (Q ++ (g.children n).filter (fun c => decide (st' c = 0))) =
        (P ++ n :: Q) ++ (g.children n).filter (fun c => decide (st' c = 0)) := by simp
    rw [this, List.nodup_append]
    refine ⟨hnd, (children_nodup g hg n).filter _, ?_⟩
    intro a ha b hb hab
    exact hnew b hb (hab ▸ ha)
  · intro m
    have : m ∈ P ++ [n] ++ (Q ++ (g.children n).filter (fun c => decide (st' c = 0))) ↔
        m ∈ P ++ n :: Q ∨ m ∈ (g.children n).filter (fun c => decide (st' c = 0)) := by
      simp only [List.mem_append, List.mem_cons, List.mem_filter, List.not_mem_nil, or_false]
      constructor
      · rintro ((h | h) | h | h)
        · exact .inl (.inl h)
        · exact .inl (.inr (.inl h))
        · exact .inl (.inr (.inr h))
        · exact .inr h
      · rintro ((h | h | h) | h)
        · exact .inl (.inl h)
        · exact .inl (.inr h)
        · exact .inr (.inl h)
        · exact .inr (.inr h)
    rw [this, h.ready, List.mem_filter]
    have hle : st m = 0 → st' m = 0 := by
      intro h0
      rw [h2, h0]
      split <;> rfl
    constructor
    · rintro (⟨h3, h4, h5⟩ | ⟨h3, h4⟩)
      · exact ⟨h3, hle h4, h5⟩
      · exact ⟨hroot m h3, by simpa using h4, n, (mem_children g n m).1 h3⟩
    · rintro ⟨h3, h4, h5⟩
      by_cases hm : m ∈ g.children n
      · exact .inr ⟨hm, by simpa using h4⟩
      · rw [h2, if_neg hm] at h4
        exact .inl ⟨h3, h4, h5⟩

/-- A whole wave. -/
theorem inv_wave (g : Graph) (hg : g.WF) (root : Nat) (W : List Nat) :
    ∀ (P N : List Nat) (st : Nat → Nat), WInv g root P (W ++ N) st →
      (∀ n ∈ W, ∀ c ∈ g.children n, c ≠ root) →
      ∃ st' next, runWave g root W st = .ok (st', next) ∧ WInv g root (P ++ W) (N ++ next) st' := by
  induction W with
  | nil => intro P N st h _; exact ⟨st, [], rfl, by simpa using h⟩
  | cons n W ih =>
    intro P N st h hroot
    obtain ⟨st1, new, h1, h2, h3⟩ := inv_step g hg root P (W ++ N) n st (by simpa using h)
      (hroot n (by simp))
    obtain ⟨st2, next, h4, h5⟩ := ih (P ++ [n]) (N ++ new) st1 (by simpa using h3)
      (fun m hm => hroot m (by simp [hm]))
    refine ⟨st2, new ++ next, ?_, by simpa using h5⟩
    simp only [runWave, h1, h2, h4, bind, Except.bind, pure, Except.pure]

theorem runWave_root (g : Graph) (root : Nat) (W : List Nat) : ∀ (st : Nat → Nat) r,
    runWave g root W st = .ok r → ∀ n ∈ W, ∀ c ∈ g.children n, c ≠ root := by
  induction W with
  | nil => intro st r h; simp
  | cons n W ih =>
    intro st r h
    simp only [runWave, bind, Except.bind] at h
    cases h1 : markAll (g.children n) st with
    | error e => rw [h1] at h; cases h
    | ok st1 =>
      rw [h1] at h
      simp only at h
      cases h2 : pushes root st1 (g.children n) with
      | error e => rw [h2] at h; cases h
      | ok new =>
        rw [h2] at h
        simp only at h
        cases h3 : runWave g root W st1 with
        | error e => rw [h3] at h; cases h
        | ok r' =>
          intro m hm
          rcases List.mem_cons.1 hm with rfl | hm
          · exact pushes_err root st1 _ new h2
          · exact ih st1 r' h3 m hm

/-- Each step of a wave has its parents in earlier waves. -/
def Layered (g : Graph) (root : Nat) (P : List Nat) : List (List Nat) → Prop
  | [] => True
  | W :: ws => (∀ v ∈ W, ∀ u, (u, v) ∈ g.edges → u ≠ root → u ∈ P) ∧ Layered g root (P ++ W) ws

/-- All waves: if they end, the invariant holds at the end with an empty queue. -/
theorem inv_waves (g : Graph) (hg : g.WF) (root : Nat) (fuel : Nat) :
    ∀ (P Q : List Nat) (st : Nat → Nat) (ws : List (List Nat)), WInv g root P Q st →
      runWaves g root fuel Q st = .ok ws →
      (∃ st', WInv g root (P ++ ws.flatten) [] st') ∧ Layered g root P ws ∧
        (∀ n ∈ ws.flatten, ∀ c ∈ g.children n, c ≠ root) ∧ ∀ w ∈ ws, w ≠ [] := by
  induction fuel with
  | zero =>
    intro P Q st ws h hr
    cases Q with
    | nil => cases hr; exact ⟨⟨st, by simpa using h⟩, trivial, by simp, by simp⟩
    | cons n Q => cases hr
  | succ fuel ih =>
    intro P Q st ws h hr
    cases Q with
    | nil => cases hr; exact ⟨⟨st, by simpa using h⟩, trivial, by simp, by simp⟩
    | cons n Q =>
      simp only [runWaves, bind, Except.bind] at hr
      cases h1 : runWave g root (n :: Q) st with
      | error e => rw [h1] at hr; cases hr
      | ok r =>
        obtain ⟨st1, next⟩ := r
        rw [h1] at hr
        simp only at hr
        cases h2 : runWaves g root fuel next st1 with
        | error e => rw [h2] at hr; cases hr
        | ok ws' =>
          rw [h2] at hr
          cases hr
          have hroot := runWave_root g root _ st _ h1
          obtain ⟨st2, next2, h3, h4⟩ := inv_wave g hg root (n :: Q) P [] st (by simpa using h) hroot
          rw [h1] at h3
          cases h3
          obtain ⟨⟨st', h5⟩, h6, h7, h8⟩ := ih _ _ _ _ (by simpa using h4) h2
          refine ⟨⟨st', by simpa using h5⟩, ⟨?_, h6⟩, ?_, ?_⟩
          · intro v hv u hu hne
            exact h.parents v (List.mem_append_right _ hv) u hu hne
          · intro m hm
            rw [List.flatten_cons, List.mem_append] at hm
            rcases hm with hm | hm
            · exact hroot m hm
            · exact h7 m hm
          · intro w hw
            rcases List.mem_cons.1 hw with rfl | hw
            · simp
            · exact h8 w hw

theorem firstWave_ok (g : Graph) (root : Nat) (cs : List Nat) (l : List Nat)
    (h : firstWave g root cs = .ok l) : l = cs ∧ ∀ c ∈ cs, g.degree root c = 0 := by
  induction cs generalizing l with
  | nil => cases h; simp
  | cons c cs ih =>
    rw [firstWave] at h
    split at h
    · rename_i hc
      simp only [bind, Except.bind] at h
      cases h1 : firstWave g root cs with
      | error e => rw [h1] at h; cases h
      | ok l' =>
        rw [h1] at h
        cases h
        obtain ⟨rfl, h2⟩ := ih l' h1
        refine ⟨rfl, ?_⟩
        intro x hx
        rcases List.mem_cons.1 hx with rfl | hx
        · exact hc
        · exact h2 x hx
    · cases h

theorem degree_eq (g : Graph) (root n : Nat) : g.degree root n = (pendingEdges g root [] n).length := by
  unfold Graph.degree pendingEdges
  congr 1
  apply List.filter_congr
  intro e _
  simp

/-- The invariant at first. -/
theorem inv_init (g : Graph) (hg : g.WF) (root : Nat) (hr : (root, root) ∉ g.edges)
    (h : ∀ c ∈ g.children root, g.degree root c = 0) :
    WInv g root [] (g.children root) (g.degree root) := by
  refine ⟨fun n => degree_eq g root n, by simpa using children_nodup g hg root, fun n => ?_⟩
  simp only [List.nil_append]
  constructor
  · intro hn
    have := (mem_children g root n).1 hn
    exact ⟨fun he => hr (he ▸ this), h n hn, root, this⟩
  · rintro ⟨h1, h2, u, hu⟩
    rw [degree_eq, pending_zero] at h2
    by_cases hur : u = root
    · exact (mem_children g root n).2 (hur ▸ hu)
    · exact absurd (h2 u hu hur) (by simp)

/-- The number of waves is bounded by the number of steps. -/
theorem fuel_enough (g : Graph) (hg : g.WF) (root : Nat) (fuel : Nat) :
    ∀ (P Q : List Nat) (st : Nat → Nat), WInv g root P Q st → root ∈ g.nodes →
      g.nodes.length ≤ P.length + 1 + fuel → runWaves g root fuel Q st ≠ .error .outOfFuel ∧
        runWaves g root fuel Q st ≠ .error .inDegreeZero := by
  have hlen : ∀ P Q st, WInv g root P Q st → root ∈ g.nodes → (P ++ Q).length + 1 ≤ g.nodes.length := by
    intro P Q st h hr
    have hsub : (root :: (P ++ Q)).length ≤ g.nodes.length := by
      apply length_le_of_nodup
      · rw [List.nodup_cons]
        exact ⟨fun hm => ((h.ready root).1 hm).1 rfl, h.nodup⟩
      · intro x hx
        rcases List.mem_cons.1 hx with rfl | hx
        · exact hr
        · obtain ⟨_, _, u, hu⟩ := (h.ready x).1 hx
          exact (hg.ends _ hu).2
    simpa using hsub
  induction fuel with
  | zero =>
    intro P Q st h hr hf
    cases Q with
    | nil => simp [runWaves]
    | cons n Q =>
      have := hlen P (n :: Q) st h hr
      simp only [List.length_append, List.length_cons] at this
      omega
  | succ fuel ih =>
    intro P Q st h hr hf
    cases Q with
    | nil => simp [runWaves]
    | cons n Q =>
      by_cases hroot : ∀ m ∈ n :: Q, ∀ c ∈ g.children m, c ≠ root
      · obtain ⟨st1, next, h1, h2⟩ := inv_wave g hg root (n :: Q) P [] st (by simpa using h) hroot
        have := ih (P ++ n :: Q) next st1 (by simpa using h2) hr (by
          simp only [List.length_append, List.length_cons]; omega)
        simp only [runWaves, h1, bind, Except.bind]
        cases hw : runWaves g root fuel next st1 with
        | error e => rw [hw] at this; simpa using this
        | ok ws => simp [pure, Except.pure]
      · have herr : ∀ (W P N : List Nat) (st : Nat → Nat), WInv g root P (W ++ N) st →
            (¬ ∀ m ∈ W, ∀ c ∈ g.children m, c ≠ root) → runWave g root W st = .error .rootVisited := by
          intro W
          induction W with
          | nil => intro P N st _ h; exact absurd (by simp) h
          | cons m W ihW =>
            intro P N st h hn
            by_cases hm : ∀ c ∈ g.children m, c ≠ root
            · obtain ⟨st1, new, h1, h2, h3⟩ := inv_step g hg root P (W ++ N) m st (by simpa using h) hm
              have := ihW (P ++ [m]) (N ++ new) st1 (by simpa using h3) (by
                intro hall
                apply hn
                intro x hx
                rcases List.mem_cons.1 hx with rfl | hx
                · exact hm
                · exact hall x hx)
              simp [runWave, h1, h2, this, bind, Except.bind]
            · have hmm : m ∈ P ++ m :: (W ++ N) := by simp
              have h' : WInv g root P (m :: (W ++ N)) st := by simpa using h
              have hnr : m ≠ root := ((h'.ready m).1 hmm).1
              have hnP : m ∉ P := by
                have := h'.nodup
                rw [List.nodup_append] at this
                exact fun hp => this.2.2 m hp m (by simp) rfl
              have hpos : ∀ c ∈ g.children m, st c ≠ 0 := by
                intro c hc h0
                rw [h'.sts] at h0
                exact hnP ((pending_zero g root P c).1 h0 m ((mem_children g m c).1 hc) hnr)
              obtain ⟨st', h1, _⟩ := markAll_ok (g.children m) st (children_nodup g hg m) hpos
              have hp : pushes root st' (g.children m) = .error .rootVisited := by
                clear h1 hpos
                revert hm
                generalize g.children m = cs
                intro hm
                induction cs with
                | nil => exact absurd (by simp) hm
                | cons c cs ih =>
                  rw [pushes]
                  split
                  · rfl
                  · rename_i hc
                    rw [ih (by
                      intro hall
                      apply hm
                      intro x hx
                      rcases List.mem_cons.1 hx with rfl | hx
                      · exact hc
                      · exact hall x hx)]
                    rfl
              simp [runWave, h1, hp, bind, Except.bind]
        have := herr (n :: Q) P [] st (by simpa using h) hroot
        simp [runWaves, this, bind, Except.bind]

theorem layered_split (g : Graph) (root : Nat) (ws : List (List Nat)) : ∀ (P : List Nat),
    Layered g root P ws → ∀ pre W post, ws = pre ++ W :: post → ∀ v ∈ W, ∀ u, (u, v) ∈ g.edges →
      u ≠ root → u ∈ P ++ pre.flatten := by
  induction ws with
  | nil => intro P _ pre W post h; simp at h
  | cons w ws ih =>
    intro P h pre W post he v hv u hu hr
    cases pre with
    | nil =>
      cases he
      simpa using h.1 v hv u hu hr
    | cons p pre =>
      simp only [List.cons_append, List.cons.injEq] at he
      obtain ⟨rfl, he⟩ := he
      have := ih _ h.2 pre W post he v hv u hu hr
      simpa using this

/-- What is known of the waves that `Graph.waves` makes. -/
structure WavesOk (g : Graph) (root : Nat) (ws : List (List Nat)) : Prop where
  perm : ws.flatten.Perm (g.nodes.filter (· ≠ root))
  layered : Layered g root [] ws
  noRoot : ∀ u, (u, root) ∉ g.edges
  parent : ∀ n ∈ ws.flatten, ∃ u, (u, n) ∈ g.edges
  nonempty : ∀ w ∈ ws, w ≠ []

theorem waves_ok (g : Graph) (hg : g.WF) (root : Nat) (hr : g.root = some root) (ws : List (List Nat))
    (h : g.waves = .ok ws) : WavesOk g root ws := by
  unfold Graph.waves at h
  rw [hr] at h
  simp only [bind, Except.bind] at h
  cases h1 : firstWave g root (g.children root) with
  | error e => rw [h1] at h; cases h
  | ok first =>
    rw [h1] at h
    simp only at h
    obtain ⟨rfl, hd⟩ := firstWave_ok g root _ _ h1
    cases h2 : runWaves g root g.nodes.length (g.children root) (g.degree root) with
    | error e => rw [h2] at h; cases h
    | ok ws' =>
      rw [h2] at h
      simp only at h
      split at h
      · rename_i hlen
        cases h
        have hrr : (root, root) ∉ g.edges := by
          intro hrr
          have hm : root ∈ g.children root := (mem_children g root root).2 hrr
          cases hc : g.children root with
          | nil => rw [hc] at hm; cases hm
          | cons c cs =>
            cases hl : g.nodes.length with
            | zero =>
              have := (hg.ends _ hrr).1
              rw [List.length_eq_zero_iff.1 hl] at this
              cases this
            | succ k =>
              rw [hc, hl] at h2
              simp only [runWaves, bind, Except.bind] at h2
              cases h3 : runWave g root (c :: cs) (g.degree root) with
              | error e => rw [h3] at h2; cases h2
              | ok r => exact runWave_root g root _ _ _ h3 root (hc ▸ hm) root hm rfl
        obtain ⟨⟨st', hinv⟩, hlay, hroot, hne⟩ := inv_waves g hg root _ [] _ _ _
          (inv_init g hg root hrr hd) h2
        simp only [List.nil_append, List.append_nil] at hinv
        have hinv' : ∀ n, n ∈ ws.flatten ↔ n ≠ root ∧ st' n = 0 ∧ ∃ u, (u, n) ∈ g.edges := by
          intro n
          simpa using hinv.ready n
        have hnd : ws.flatten.Nodup := by simpa using hinv.nodup
        have hsub : ∀ x ∈ ws.flatten, x ∈ g.nodes.filter (· ≠ root) := by
          intro x hx
          obtain ⟨h1, _, u, hu⟩ := (hinv' x).1 hx
          simpa [h1] using (hg.ends _ hu).2
        have hall : ∀ x ∈ g.nodes.filter (· ≠ root), x ∈ ws.flatten := by
          intro x hx
          apply Classical.byContradiction
          intro hn
          have := length_le_of_nodup (x :: ws.flatten) (g.nodes.filter (· ≠ root))
            (List.nodup_cons.2 ⟨hn, hnd⟩) (by
              intro y hy
              rcases List.mem_cons.1 hy with rfl | hy
              · exact hx
              · exact hsub y hy)
          rw [List.length_cons, ← hlen] at this
          omega
        refine ⟨(List.perm_ext_iff_of_nodup hnd (hg.nodes.filter _)).2 fun x => ⟨hsub x, hall x⟩, hlay, ?_,
          fun n hn => ((hinv' n).1 hn).2.2, hne⟩
        intro u hu
        by_cases hur : u = root
        · exact hrr (hur ▸ hu)
        · exact hroot u (hall u (by simpa [hur] using (hg.ends _ hu).1)) root
            ((mem_children g u root).2 hu) rfl
      · cases h

theorem WavesOk.nodup {g : Graph} {root : Nat} {ws : List (List Nat)} (h : WavesOk g root ws)
    (hg : g.WF) : ws.flatten.Nodup := h.perm.nodup_iff.2 (hg.nodes.filter _)

theorem mem_flatten_split (ws : List (List Nat)) (n : Nat) (h : n ∈ ws.flatten) :
    ∃ pre W post, ws = pre ++ W :: post ∧ n ∈ W := by
  obtain ⟨W, hW, hn⟩ := List.mem_flatten.1 h
  obtain ⟨pre, post, rfl⟩ := List.append_of_mem hW
  exact ⟨pre, W, post, rfl, hn⟩

/-- Steps come in later waves than all they depend on. -/
theorem WavesOk.depends {g : Graph} {root : Nat} {ws : List (List Nat)} (h : WavesOk g root ws)
    (hg : g.WF) (u v : Nat) (hd : g.Depends root u v) : ∀ pre W post, ws = pre ++ W :: post → v ∈ W →
    u ∈ pre.flatten := by
  induction hd with
  | edge v he hr =>
    intro pre W post hw hv
    simpa using layered_split g root ws [] h.layered pre W post hw v hv u he hr
  | step v w hd he ih =>
    intro pre W post hw hv
    have hvr : v ≠ root := by
      intro hvr
      cases hd with
      | edge v he' _ => exact h.noRoot _ (hvr ▸ he')
      | step x v _ he' => exact h.noRoot _ (hvr ▸ he')
    have hvp : v ∈ pre.flatten := by
      simpa using layered_split g root ws [] h.layered pre W post hw w hv v he hvr
    obtain ⟨pre1, W1, pre2, rfl, hv1⟩ := mem_flatten_split pre v hvp
    have := ih pre1 W1 (pre2 ++ W :: post) (by simp [hw]) hv1
    simp [this]

theorem depends_end (g : Graph) (root u v : Nat) (h : g.Depends root u v) : ∃ w, (w, v) ∈ g.edges := by
  cases h with
  | edge _ he _ => exact ⟨_, he⟩
  | step w _ _ he => exact ⟨w, he⟩

theorem depends_start (g : Graph) (root u v : Nat) (h : g.Depends root u v) :
    u ≠ root ∧ ∃ w, (u, w) ∈ g.edges := by
  induction h with
  | edge _ he hr => exact ⟨hr, _, he⟩
  | step w _ _ he ih => exact ih

theorem WavesOk.mem {g : Graph} {root : Nat} {ws : List (List Nat)} (h : WavesOk g root ws) (n : Nat) :
    n ∈ ws.flatten ↔ n ∈ g.nodes ∧ n ≠ root := by
  rw [h.perm.mem_iff]
  simp

theorem WavesOk.acyclic {g : Graph} {root : Nat} {ws : List (List Nat)} (h : WavesOk g root ws)
    (hg : g.WF) (n : Nat) : ¬ g.Depends root n n := by
  intro hd
  obtain ⟨hr, w, hw⟩ := depends_start g root n n hd
  have hm : n ∈ ws.flatten := (h.mem n).2 ⟨(hg.ends _ hw).1, hr⟩
  obtain ⟨pre, W, post, rfl, hn⟩ := mem_flatten_split ws n hm
  have h1 := h.depends hg n n hd pre W post rfl hn
  have h2 := h.nodup hg
  rw [List.flatten_append, List.nodup_append] at h2
  exact h2.2.2 n h1 n (by simp [hn]) rfl

theorem WavesOk.reachable {g : Graph} {root : Nat} {ws : List (List Nat)} (h : WavesOk g root ws) :
    ∀ n ∈ ws.flatten, g.Reachable root n := by
  have : ∀ k, ∀ pre W post, ws = pre ++ W :: post → pre.length = k → ∀ n ∈ W, g.Reachable root n := by
    intro k
    induction k using Nat.strongRecOn with
    | ind k ih =>
      intro pre W post hw hk n hn
      obtain ⟨u, hu⟩ := h.parent n (by rw [hw]; simp [hn])
      by_cases hur : u = root
      · exact .child n (hur ▸ hu)
      · have hup : u ∈ pre.flatten := by
          simpa using layered_split g root ws [] h.layered pre W post hw n hn u hu hur
        obtain ⟨pre1, W1, pre2, rfl, hu1⟩ := mem_flatten_split pre u hup
        refine .step u n (ih pre1.length ?_ pre1 W1 (pre2 ++ W :: post) (by simp [hw]) rfl u hu1) hu
        rw [← hk]
        simp
  intro n hn
  obtain ⟨pre, W, post, hw, hn⟩ := mem_flatten_split ws n hn
  exact this pre.length pre W post hw rfl n hn

theorem depends_trans (g : Graph) (root u v w : Nat) (h1 : g.Depends root u v) (h2 : g.Depends root v w) :
    g.Depends root u w := by
  induction h2 with
  | edge _ he _ => exact .step _ _ _ h1 he
  | step _ _ _ he ih => exact .step _ _ _ ih he

/-- In a finite set in which each element has a predecessor, there is a cycle. -/
theorem cycle_of_pred (g : Graph) (root : Nat) : ∀ (k : Nat) (S : List Nat), S.length ≤ k → S ≠ [] →
    (∀ n ∈ S, ∃ u ∈ S, g.Depends root u n) → ∃ n, g.Depends root n n := by
  intro k
  induction k with
  | zero =>
    intro S hk hne _
    exact absurd (List.length_eq_zero_iff.1 (Nat.le_zero.1 hk)) hne
  | succ k ih =>
    intro S hk hne hp
    apply Classical.byContradiction
    intro hno
    obtain ⟨s, hs⟩ := List.exists_mem_of_ne_nil S hne
    haveI : DecidablePred fun x => g.Depends root x s := fun x => Classical.propDecidable _
    have hlt : (S.filter fun x => decide (g.Depends root x s)).length < S.length := by
      apply Nat.lt_of_le_of_ne (List.length_filter_le _ _)
      intro he
      have := List.length_filter_eq_length_iff.1 he s hs
      exact hno ⟨s, by simpa using this⟩
    apply hno
    apply ih (S.filter fun x => decide (g.Depends root x s)) (by omega)
    · obtain ⟨u, hu, hd⟩ := hp s hs
      intro he
      have : u ∈ S.filter fun x => decide (g.Depends root x s) := by simp [hu, hd]
      rw [he] at this
      cases this
    · intro n hn
      rw [List.mem_filter] at hn
      obtain ⟨u, hu, hd⟩ := hp n hn.1
      exact ⟨u, by simp [hu, depends_trans g root u n s hd (by simpa using hn.2)], hd⟩

/-- Planning works: without cycles, with all steps reachable and a root that is one. -/
theorem waves_succeed (g : Graph) (hg : g.WF) (root : Nat) (hr : g.root = some root)
    (hno : ∀ u, (u, root) ∉ g.edges) (hch : ∀ c u, (root, c) ∈ g.edges → (u, c) ∈ g.edges → u = root)
    (hac : ∀ n, ¬ g.Depends root n n) (hre : ∀ n ∈ g.nodes, n ≠ root → g.Reachable root n) :
    ∃ ws, g.waves = .ok ws := by
  have hd : ∀ c ∈ g.children root, g.degree root c = 0 := by
    intro c hc
    rw [degree_eq, pending_zero]
    intro u hu hur
    exact absurd (hch c u ((mem_children g root c).1 hc) hu) hur
  have hf : ∀ cs, (∀ c ∈ cs, g.degree root c = 0) → firstWave g root cs = .ok cs := by
    intro cs
    induction cs with
    | nil => intro _; rfl
    | cons c cs ih =>
      intro h
      rw [firstWave, if_pos (h c (by simp)), ih fun x hx => h x (by simp [hx])]
      rfl
  have hinit := inv_init g hg root (hno root) hd
  have hmem := hg.root root hr
  have hrun : ∀ fuel P Q st, WInv g root P Q st → g.nodes.length ≤ P.length + 1 + fuel →
      ∃ ws, runWaves g root fuel Q st = .ok ws := by
    intro fuel
    induction fuel with
    | zero =>
      intro P Q st h hf
      cases Q with
      | nil => exact ⟨[], rfl⟩
      | cons n Q =>
        have := fuel_enough g hg root 0 P (n :: Q) st h hmem hf
        exact absurd rfl this.1
    | succ fuel ih =>
      intro P Q st h hf
      cases Q with
      | nil => exact ⟨[], rfl⟩
      | cons n Q =>
        obtain ⟨st1, next, h1, h2⟩ := inv_wave g hg root (n :: Q) P [] st (by simpa using h) (by
          intro m _ c hc he
          exact hno m (he ▸ (mem_children g m c).1 hc))
        obtain ⟨ws, hws⟩ := ih (P ++ n :: Q) next st1 (by simpa using h2) (by
          simp only [List.length_append, List.length_cons]; omega)
        exact ⟨(n :: Q) :: ws, by simp [runWaves, h1, hws, bind, Except.bind, pure, Except.pure]⟩
  obtain ⟨ws, hws⟩ := hrun g.nodes.length [] _ _ hinit (by simp)
  obtain ⟨⟨st', hinv⟩, _, _, _⟩ := inv_waves g hg root _ [] _ _ _ hinit hws
  simp only [List.nil_append, List.append_nil] at hinv
  have hready : ∀ n, n ∈ ws.flatten ↔ n ≠ root ∧ st' n = 0 ∧ ∃ u, (u, n) ∈ g.edges := by
    intro n
    simpa using hinv.ready n
  have hnd : ws.flatten.Nodup := by simpa using hinv.nodup
  have hall : ∀ n ∈ g.nodes, n ≠ root → n ∈ ws.flatten := by
    apply Classical.byContradiction
    intro hn
    have hS : ∃ n ∈ g.nodes, n ≠ root ∧ n ∉ ws.flatten := by
      apply Classical.byContradiction
      intro h
      apply hn
      intro n h1 h2
      apply Classical.byContradiction
      intro h3
      exact h ⟨n, h1, h2, h3⟩
    obtain ⟨n, h1, h2, h3⟩ := hS
    obtain ⟨c, hc⟩ := cycle_of_pred g root _ (g.nodes.filter fun x => decide (x ≠ root ∧ x ∉ ws.flatten))
      (Nat.le_refl _) (by
        intro he
        have : n ∈ g.nodes.filter fun x => decide (x ≠ root ∧ x ∉ ws.flatten) := by
          rw [List.mem_filter]; exact ⟨h1, by simpa using ⟨h2, by simpa using h3⟩⟩
        rw [he] at this
        cases this) (by
        intro m hm
        rw [List.mem_filter, decide_eq_true_eq] at hm
        obtain ⟨hm1, hm2, hm3⟩ := hm
        have hpar : ∃ u, (u, m) ∈ g.edges := by
          cases hre m hm1 hm2 with
          | child _ he => exact ⟨_, he⟩
          | step u _ _ he => exact ⟨u, he⟩
        have hst : st' m ≠ 0 := fun h0 => hm3 ((hready m).2 ⟨hm2, h0, hpar⟩)
        rw [hinv.sts m] at hst
        have : ∃ u, (u, m) ∈ g.edges ∧ u ≠ root ∧ u ∉ ws.flatten := by
          apply Classical.byContradiction
          intro h
          apply hst
          rw [pending_zero]
          intro u hu hur
          apply Classical.byContradiction
          intro h'
          exact h ⟨u, hu, hur, h'⟩
        obtain ⟨u, hu1, hu2, hu3⟩ := this
        refine ⟨u, ?_, .edge u m hu1 hu2⟩
        rw [List.mem_filter, decide_eq_true_eq]
        exact ⟨(hg.ends _ hu1).1, hu2, hu3⟩)
    exact hac c hc
  have hlen : ws.flatten.length = (g.nodes.filter (· ≠ root)).length := by
    apply List.Perm.length_eq
    rw [List.perm_ext_iff_of_nodup hnd (hg.nodes.filter _)]
    intro x
    constructor
    · intro hx
      obtain ⟨h1, _, u, hu⟩ := (hready x).1 hx
      simpa [h1] using (hg.ends _ hu).2
    · intro hx
      rw [List.mem_filter] at hx
      exact hall x hx.1 (by simpa using hx.2)
  refine ⟨ws, ?_⟩
  unfold Graph.waves
  rw [hr]
  simp only [bind, Except.bind, hf _ hd, hws, hlen, if_true, pure, Except.pure]

/-- The `panic!` is not reached and the fuel is enough. -/
theorem waves_no_panic (g : Graph) (hg : g.WF) (hself : ∀ r, g.root = some r → (r, r) ∉ g.edges) :
    g.waves ≠ .error .inDegreeZero ∧ g.waves ≠ .error .outOfFuel := by
  unfold Graph.waves
  cases hr : g.root with
  | none => simp
  | some root =>
    simp only [bind, Except.bind]
    have hfe : ∀ cs, firstWave g root cs = .error .rootChild ∨ ∃ l, firstWave g root cs = .ok l := by
      intro cs
      induction cs with
      | nil => exact .inr ⟨[], rfl⟩
      | cons c cs ih =>
        rw [firstWave]
        split
        · rcases ih with h | ⟨l, h⟩
          · left; rw [h]; rfl
          · right; exact ⟨c :: l, by rw [h]; rfl⟩
        · exact .inl rfl
    rcases hfe (g.children root) with h1 | ⟨first, h1⟩
    · rw [h1]; simp
    · rw [h1]
      simp only
      obtain ⟨rfl, hd⟩ := firstWave_ok g root _ _ h1
      have := fuel_enough g hg root g.nodes.length [] _ _ (inv_init g hg root (hself root hr) hd)
        (hg.root root hr) (by simp)
      cases h2 : runWaves g root g.nodes.length (g.children root) (g.degree root) with
      | error e =>
        rw [h2] at this
        simp only [ne_eq, Except.error.injEq] at this ⊢
        exact ⟨this.2, this.1⟩
      | ok ws =>
        simp only [pure, Except.pure]
        split <;> simp

end Verif.Plan
