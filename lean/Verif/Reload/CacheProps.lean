import Verif.Reload.Cache

/-!
# Reloading the supergraph: C113
-/

namespace Verif.Reload.Cache

/-! ## The right runtime -/

structure Inv (ids : Nat → Nat) (s : St) : Prop where
  nodup : (s.entries.map Prod.fst).Nodup
  len : s.entries.length ≤ room
  own : ∃ f : Nat → Nat, (∀ e ∈ s.entries, f e.2 = e.1 ∧ e.2 < s.fresh) ∧
    (∀ i c ms, (s.calls i).2 = .holds c ms → f c = (s.calls i).1 ∧ c < s.fresh) ∧
    (∀ c r, s.cells c = some r → f c = r.id ∧ c < s.fresh)
  wants : ∀ i, (s.calls i).1 = ids i
  done : ∀ i r, (s.calls i).2 = .done r → r.id = ids i

theorem remains_sublist (es : List (Nat × Nat)) : (remains es).Sublist es := by
  unfold remains
  split
  · exact List.tail_sublist es
  · exact List.Sublist.refl _

theorem remains_length (es : List (Nat × Nat)) (h : es.length ≤ room) : (remains es).length + 1 ≤ room := by
  unfold remains
  split
  · rename_i h'
    rw [List.length_tail]
    have : 0 < room := by decide
    omega
  · omega

/-- A call goes on and everything else stays. -/
theorem calls_update {ids : Nat → Nat} {s : St} {i : Nat} {pc : Pc} {f : Nat → Nat} {n : Nat}
    (h1 : ∀ i c ms, (s.calls i).2 = .holds c ms → f c = (s.calls i).1 ∧ c < n)
    (h2 : ∀ i, (s.calls i).1 = ids i) (h3 : ∀ i r, (s.calls i).2 = .done r → r.id = ids i)
    (g1 : ∀ c ms, pc = .holds c ms → f c = ids i ∧ c < n) (g2 : ∀ r, pc = .done r → r.id = ids i) :
    (∀ j c ms, (Function.update s.calls i (ids i, pc) j).2 = .holds c ms →
      f c = (Function.update s.calls i (ids i, pc) j).1 ∧ c < n) ∧
    (∀ j, (Function.update s.calls i (ids i, pc) j).1 = ids j) ∧
    (∀ j r, (Function.update s.calls i (ids i, pc) j).2 = .done r → r.id = ids j) := by
  refine ⟨fun j c ms h => ?_, fun j => ?_, fun j r h => ?_⟩
  · by_cases hj : j = i
    · subst hj
      simp only [Function.update_self] at h ⊢
      exact g1 c ms h
    · rw [Function.update_of_ne hj] at h ⊢
      exact h1 j c ms h
  · by_cases hj : j = i
    · subst hj; simp
    · rw [Function.update_of_ne hj]; exact h2 j
  · by_cases hj : j = i
    · subst hj
      simp only [Function.update_self] at h
      exact g2 r h
    · rw [Function.update_of_ne hj] at h
      exact h3 j r h

theorem inv_step {atomic : Bool} {ids : Nat → Nat} {s s' : St} {a : Act} (hi : Inv ids s)
    (h : step atomic s a = some s') : Inv ids s' := by
  obtain ⟨hn, hl, ⟨f, hf1, hf2, hf3⟩, hids, hd⟩ := hi
  have hfst : ∀ i id pc, s.calls i = (id, pc) → id = ids i := fun i id pc h => by rw [← hids i, h]
  cases a with
  | take i =>
    simp only [step] at h
    split at h
    · rename_i id r h1 h2
      split at h
      · rename_i hr
        cases h
        have hid := hfst _ _ _ h1
        obtain ⟨k1, k2, k3⟩ := calls_update (i := i) (pc := .done r) hf2 hids hd (fun c ms h => by cases h)
          (fun r' h => by cases h; rw [hr, hid])
        simp only [St.go, hids]
        exact ⟨hn, hl, ⟨f, hf1, k1, hf3⟩, k2, k3⟩
      · cases h
    · cases h
  | enter i =>
    simp only [step] at h
    split at h
    · rename_i id h1
      have hid := hfst _ _ _ h1
      split at h
      · rename_i e he
        cases h
        have hm := List.mem_of_find?_eq_some he
        have hp := List.find?_some he
        obtain ⟨k1, k2, k3⟩ := calls_update (i := i) (pc := .holds e.2 []) hf2 hids hd
          (fun c ms h => by
            cases h
            refine ⟨?_, (hf1 e hm).2⟩
            rw [(hf1 e hm).1, ← hid]
            simpa using hp) (fun r' h => by cases h)
        simp only [St.go, hids]
        exact ⟨hn, hl, ⟨f, hf1, k1, hf3⟩, k2, k3⟩
      · rename_i hnone
        cases h
        rw [List.find?_eq_none] at hnone
        have hsub := remains_sublist s.entries
        have hup : ∀ c, c < s.fresh → Function.update f s.fresh id c = f c := fun c hc =>
          Function.update_of_ne (by omega) _ _
        obtain ⟨k1, k2, k3⟩ := calls_update (i := i) (f := Function.update f s.fresh id) (n := s.fresh + 1)
          (pc := .holds s.fresh (if atomic then [] else messages s.entries id)) 
          (fun j c ms h => by
            have := hf2 j c ms h
            rw [hup c this.2]
            exact ⟨this.1, by omega⟩) hids hd
          (fun c ms h => by
            cases h
            simp [hid]) (fun r' h => by cases h)
        rw [← hid] at k1 k2 k3
        refine ⟨?_, ?_, ⟨Function.update f s.fresh id, fun e he => ?_, k1, fun c r hc => ?_⟩, k2, k3⟩
        · rw [List.map_append, List.nodup_append]
          refine ⟨hn.sublist (hsub.map _), by simp, ?_⟩
          intro a ha b hb
          simp only [List.map_cons, List.map_nil, List.mem_singleton] at hb
          subst hb
          obtain ⟨e, he, rfl⟩ := List.mem_map.1 ha
          have := hnone e (hsub.subset he)
          simpa using this
        · rw [List.length_append]
          exact remains_length _ hl
        · rcases List.mem_append.1 he with he | he
          · have := hf1 e (hsub.subset he)
            rw [hup _ this.2]
            exact ⟨this.1, Nat.lt_succ_of_lt this.2⟩
          · simp only [List.mem_singleton] at he
            subst he
            simp
        · have := hf3 c r hc
          rw [hup _ this.2]
          exact ⟨this.1, Nat.lt_succ_of_lt this.2⟩
    · cases h
  | tell i =>
    simp only [step] at h
    split at h
    · rename_i id c m ms h1
      cases h
      have hid := hfst _ _ _ h1
      obtain ⟨k1, k2, k3⟩ := calls_update (i := i) (pc := .holds c ms) hf2 hids hd
        (fun c' ms' h => by
          cases h
          have := hf2 i c (m :: ms) (by rw [h1])
          rwa [hids] at this) (fun r' h => by cases h)
      rw [← hid] at k1 k2 k3
      exact ⟨hn, hl, ⟨f, hf1, k1, hf3⟩, k2, k3⟩
    · cases h
  | finish i ok =>
    simp only [step] at h
    split at h
    · rename_i id c h1
      have hid := hfst _ _ _ h1
      have hc := hf2 i c [] (by rw [h1])
      rw [hids] at hc
      split at h
      · rename_i r hr
        cases h
        obtain ⟨k1, k2, k3⟩ := calls_update (i := i) (pc := .done r) hf2 hids hd (fun c ms h => by cases h)
          (fun r' h => by cases h; rw [← (hf3 c r hr).1, hc.1])
        simp only [St.go, hids]
        exact ⟨hn, hl, ⟨f, hf1, k1, hf3⟩, k2, k3⟩
      · split at h
        · cases h
          obtain ⟨k1, k2, k3⟩ := calls_update (i := i) (pc := .done { id := id, build := s.builds }) hf2 hids hd
            (fun c ms h => by cases h) (fun r' h => by cases h; exact hid)
          rw [← hid] at k1 k2 k3
          refine ⟨hn, hl, ⟨f, hf1, k1, fun c' r hc' => ?_⟩, k2, k3⟩
          by_cases hcc : c' = c
          · subst hcc
            simp only [Function.update_self, Option.some.injEq] at hc'
            subst hc'
            exact ⟨by rw [hc.1, hid], hc.2⟩
          · simp only [Function.update_of_ne hcc] at hc'
            exact hf3 c' r hc'
        · cases h
          obtain ⟨k1, k2, k3⟩ := calls_update (i := i) (pc := .failed) hf2 hids hd (fun c ms h => by cases h)
            (fun r' h => by cases h)
          rw [← hid] at k1 k2 k3
          exact ⟨hn.sublist (List.filter_sublist.map _), Nat.le_trans (List.length_filter_le _ _) hl,
            ⟨f, fun e he => hf1 e (List.mem_of_mem_filter he), k1, hf3⟩, k2, k3⟩
    · cases h
  | configure id => cases h; exact ⟨hn, hl, ⟨f, hf1, hf2, hf3⟩, hids, hd⟩
  | retire id => cases h; exact ⟨hn, hl, ⟨f, hf1, hf2, hf3⟩, hids, hd⟩
  | read =>
    simp only [step] at h
    split at h
    · cases h; exact ⟨hn, hl, ⟨f, hf1, hf2, hf3⟩, hids, hd⟩
    · cases h
  | fire id =>
    simp only [step] at h
    split at h
    · cases h
      exact ⟨hn.sublist (List.filter_sublist.map _), Nat.le_trans (List.length_filter_le _ _) hl,
        ⟨f, fun e he => hf1 e (List.mem_of_mem_filter he), hf2, hf3⟩, hids, hd⟩
    · cases h

theorem inv_start (ids : Nat → Nat) : Inv ids (St.start ids) :=
  ⟨by simp [St.start], by simp [St.start],
    ⟨fun _ => 0, fun e h => (by cases h), fun i c ms h => (by cases h), fun c r h => (by cases h)⟩,
    fun _ => rfl, fun i r h => (by cases h)⟩

theorem inv_run {atomic : Bool} {ids : Nat → Nat} {as : List Act} {s s' : St} (hi : Inv ids s)
    (h : run atomic s as = some s') : Inv ids s' := by
  induction as generalizing s with
  | nil => cases h; exact hi
  | cons a as ih =>
    simp only [run] at h
    cases hs : step atomic s a with
    | none => rw [hs] at h; cases h
    | some s1 => rw [hs] at h; exact ih (inv_step hi hs) h

/-- However requests race with each other, with reloads and with cleaning up: a request gets what was built
for the supergraph that was selected for it, and never what was built for another. -/
theorem C113_right {ids : Nat → Nat} {as : List Act} {s : St}
    (h : run false (St.start ids) as = some s) (i : Nat) (r : Runtime) (hr : (s.calls i).2 = .done r) :
    r.id = ids i :=
  (inv_run (inv_start ids) h).done i r hr

/-- No more than ten supergraphs of plugins are kept, and none twice. -/
theorem C113_bounded {ids : Nat → Nat} {as : List Act} {s : St}
    (h : run false (St.start ids) as = some s) :
    s.entries.length ≤ 10 ∧ (s.entries.map Prod.fst).Nodup :=
  ⟨(inv_run (inv_start ids) h).len, (inv_run (inv_start ids) h).nodup⟩

/-! ## What is built is shared -/

theorem keeps_cell {atomic : Bool} {s s' : St} {a : Act} {i c : Nat} {r : Runtime}
    (h : step atomic s a = some s')
    (hi : ((∃ ms, (s.calls i).2 = .holds c ms) ∧ s.cells c = some r) ∨ (s.calls i).2 = .done r) :
    ((∃ ms, (s'.calls i).2 = .holds c ms) ∧ s'.cells c = some r) ∨ (s'.calls i).2 = .done r := by
  have other : ∀ j x, j ≠ i → (Function.update s.calls j x i) = s.calls i := fun j x hj =>
    Function.update_of_ne (Ne.symm hj) _ _
  cases a with
  | take j =>
    simp only [step] at h
    split at h
    · rename_i id r' h1 h2
      split at h
      · cases h
        by_cases hj : j = i
        · subst hj
          rw [h1] at hi
          rcases hi with ⟨⟨ms, hi⟩, _⟩ | hi <;> cases hi
        · simpa only [St.go, other _ _ hj] using hi
      · cases h
    · cases h
  | enter j =>
    simp only [step] at h
    split at h
    · rename_i id h1
      have hji : j ≠ i := by
        rintro rfl
        rw [h1] at hi
        rcases hi with ⟨⟨ms, hi⟩, _⟩ | hi <;> cases hi
      split at h
      · cases h
        simpa only [St.go, other _ _ hji] using hi
      · cases h
        simpa only [other _ _ hji] using hi
    · cases h
  | tell j =>
    simp only [step] at h
    split at h
    · rename_i id c' m ms h1
      cases h
      by_cases hj : j = i
      · subst hj
        rw [h1] at hi
        rcases hi with ⟨⟨ms', hi⟩, hc⟩ | hi
        · cases hi
          exact Or.inl ⟨⟨ms, by simp⟩, hc⟩
        · cases hi
      · simpa only [other _ _ hj] using hi
    · cases h
  | finish j ok =>
    simp only [step] at h
    split at h
    · rename_i id c' h1
      split at h
      · rename_i r' hr'
        cases h
        by_cases hj : j = i
        · subst hj
          rw [h1] at hi
          rcases hi with ⟨⟨ms', hi⟩, hc⟩ | hi
          · cases hi
            rw [hr'] at hc
            cases hc
            exact Or.inr (by simp [St.go])
          · cases hi
        · simpa only [St.go, other _ _ hj] using hi
      · rename_i hnone
        split at h
        · cases h
          by_cases hj : j = i
          · subst hj
            rw [h1] at hi
            rcases hi with ⟨⟨ms', hi⟩, hc⟩ | hi
            · cases hi
              rw [hnone] at hc
              cases hc
            · cases hi
          · simp only [other _ _ hj]
            refine hi.imp (fun hi => ⟨hi.1, ?_⟩) (fun h => h)
            have : c ≠ c' := by
              rintro rfl
              rw [hnone] at hi
              cases hi.2
            rw [Function.update_of_ne this]
            exact hi.2
        · cases h
          by_cases hj : j = i
          · subst hj
            rw [h1] at hi
            rcases hi with ⟨⟨ms', hi⟩, hc⟩ | hi
            · cases hi
              rw [hnone] at hc
              cases hc
            · cases hi
          · simpa only [other _ _ hj] using hi
    · cases h
  | configure id => cases h; exact hi
  | retire id => cases h; exact hi
  | read =>
    simp only [step] at h
    split at h
    · cases h; exact hi
    · cases h
  | fire id =>
    simp only [step] at h
    split at h
    · cases h; exact hi
    · cases h

/-- What is in the cache is used: a request that looks for a supergraph whose runtime is in the cache gets
this one, whatever else happens before it has it; no other is built for it. -/
theorem C113_shared {ids : Nat → Nat} {as₁ as₂ : List Act} {s s₁ s₂ : St} {i c : Nat} {r r' : Runtime}
    (h : run false (St.start ids) as₁ = some s) (hin : (ids i, c) ∈ s.entries) (hc : s.cells c = some r)
    (he : step false s (.enter i) = some s₁) (h₂ : run false s₁ as₂ = some s₂)
    (hr : (s₂.calls i).2 = .done r') : r' = r := by
  have hi := inv_run (inv_start ids) h
  have h0 : (∃ ms, (s₁.calls i).2 = .holds c ms) ∧ s₁.cells c = some r := by
    simp only [step] at he
    split at he
    · rename_i id h1
      have hid : id = ids i := by rw [← hi.wants i, h1]
      split at he
      · rename_i e hf
        cases he
        have hm := List.mem_of_find?_eq_some hf
        have hp : e.1 = id := by simpa using List.find?_some hf
        have : e = (ids i, c) := by
          refine (List.inj_on_of_nodup_map hi.nodup) hm hin ?_
          rw [hp, hid]
        subst this
        exact ⟨⟨[], by simp [St.go]⟩, hc⟩
      · rename_i hf
        rw [List.find?_eq_none] at hf
        exact absurd (by simp [hid]) (hf _ hin)
    · cases he
  have key : ((∃ ms, (s₂.calls i).2 = .holds c ms) ∧ s₂.cells c = some r) ∨ (s₂.calls i).2 = .done r := by
    have h1 := Or.inl (b := (s₁.calls i).2 = .done r) h0
    clear he h hin hc hi h0
    induction as₂ generalizing s₁ with
    | nil => cases h₂; exact h1
    | cons a as ih =>
      simp only [run] at h₂
      cases hs : step false s₁ a with
      | none => rw [hs] at h₂; cases h₂
      | some s3 => rw [hs] at h₂; exact ih h₂ (keeps_cell hs h1)
  rcases key with ⟨⟨ms, hm⟩, _⟩ | hd
  · rw [hm] at hr; cases hr
  · rw [hd] at hr
    cases hr
    rfl

/-! ## Cleaning up -/

theorem mem_waits (x : Nat) (ws : List Nat) (m : Msg) :
    x ∈ waits ws m ↔ match m with
      | .registered id => x = id ∨ x ∈ ws
      | .evicted id => x ∈ ws ∧ x ≠ id := by
  cases m with
  | registered id =>
    simp only [waits]
    split
    · rename_i h
      constructor
      · exact Or.inr
      · rintro (rfl | h')
        · exact h
        · exact h'
    · simp
  | evicted id => simp [waits]

theorem mem_replay {x : Nat} {q : List Msg} {ws ws' : List Nat} (h : x ∈ ws → x ∈ ws') :
    x ∈ q.foldl waits ws → x ∈ q.foldl waits ws' := by
  induction q generalizing ws ws' with
  | nil => exact h
  | cons m q ih =>
    refine ih (ws := waits ws m) (ws' := waits ws' m) ?_
    rw [mem_waits, mem_waits]
    cases m with
    | registered id => exact fun h' => h'.imp (fun h => h) h
    | evicted id => exact fun h' => ⟨h h'.1, h'.2⟩

/-- Every entry is waited for, once the messages are read; and no call has messages left to send. -/
structure Clean (s : St) : Prop where
  covered : ∀ e ∈ s.entries, e.1 ∈ s.queue.foldl waits s.waiters
  sent : ∀ i c ms, (s.calls i).2 = .holds c ms → ms = []

theorem clean_step {ids : Nat → Nat} {s s' : St} {a : Act} (hi : Inv ids s) (hc : Clean s)
    (h : step true s a = some s') : Clean s' := by
  obtain ⟨hcov, hsent⟩ := hc
  have upd : ∀ i (x : Nat × Pc), (∀ c ms, x.2 = .holds c ms → ms = []) →
      ∀ j c ms, (Function.update s.calls i x j).2 = .holds c ms → ms = [] := by
    intro i x hx j c ms hj
    by_cases hji : j = i
    · subst hji
      simp only [Function.update_self] at hj
      exact hx c ms hj
    · rw [Function.update_of_ne hji] at hj
      exact hsent j c ms hj
  cases a with
  | take i =>
    simp only [step] at h
    split at h
    · split at h
      · cases h
        exact ⟨hcov, upd _ _ (fun c ms h => by cases h)⟩
      · cases h
    · cases h
  | enter i =>
    simp only [step] at h
    split at h
    · rename_i id h1
      split at h
      · cases h
        exact ⟨hcov, upd _ _ (fun c ms h => by cases h; rfl)⟩
      · rename_i hnone
        cases h
        refine ⟨fun e he => ?_, upd _ _ (fun c ms h => by cases h; rfl)⟩
        simp only [if_true, List.foldl_append, messages, List.foldl_cons, List.foldl_nil]
        rw [mem_waits]
        rcases List.mem_append.1 he with he | he
        · right
          have hm := (remains_sublist s.entries).subset he
          have h0 := hcov e hm
          unfold evicts
          split
          · rename_i hfull
            cases hes : s.entries with
            | nil => rw [hes] at hm; cases hm
            | cons y ys =>
              simp only [List.head?_cons, Option.toList_some, List.map_cons, List.map_nil, List.foldl_cons,
                List.foldl_nil]
              rw [mem_waits]
              refine ⟨h0, ?_⟩
              have hnd := hi.nodup
              rw [hes, List.map_cons, List.nodup_cons] at hnd
              rw [remains, if_pos hfull, hes, List.tail_cons] at he
              intro heq
              exact hnd.1 (heq ▸ List.mem_map_of_mem he)
          · exact h0
        · simp only [List.mem_singleton] at he
          subst he
          exact Or.inl rfl
    · cases h
  | tell i =>
    simp only [step] at h
    split at h
    · rename_i id c m ms h1
      have := hsent i c (m :: ms) (by rw [h1])
      cases this
    · cases h
  | finish i ok =>
    simp only [step] at h
    split at h
    · split at h
      · cases h
        exact ⟨hcov, upd _ _ (fun c ms h => by cases h)⟩
      · split at h
        · cases h
          exact ⟨hcov, upd _ _ (fun c ms h => by cases h)⟩
        · cases h
          exact ⟨fun e he => hcov e (List.mem_of_mem_filter he), upd _ _ (fun c ms h => by cases h)⟩
    · cases h
  | configure id => cases h; exact ⟨hcov, hsent⟩
  | retire id => cases h; exact ⟨hcov, hsent⟩
  | read =>
    simp only [step] at h
    split at h
    · rename_i m q hq
      cases h
      refine ⟨fun e he => ?_, hsent⟩
      have := hcov e he
      rwa [hq] at this
    · cases h
  | fire id =>
    simp only [step] at h
    split at h
    · cases h
      refine ⟨fun e he => ?_, hsent⟩
      have he' := List.mem_filter.1 he
      have hne : e.1 ≠ id := by simpa using he'.2
      exact mem_replay (fun h => List.mem_filter.2 ⟨h, by simpa using hne⟩) (hcov e he'.1)
    · cases h

/-- If the messages were sent under the lock: once all messages are read and all that could be removed is
removed, nothing of a supergraph that was retired is in the cache. What is missing: the code sends them
after the lock is released, see `C113_cleanup_refuted`. -/
theorem C113_cleanup_partial {ids : Nat → Nat} {as : List Act} {s : St}
    (h : run true (St.start ids) as = some s) (hq : s.queue = [])
    (hw : ∀ id, step true s (.fire id) = none) : ∀ e ∈ s.entries, e.1 ∉ s.retired := by
  have key : ∀ (as : List Act) (s₀ : St), Inv ids s₀ → Clean s₀ → run true s₀ as = some s → Clean s := by
    intro as
    induction as with
    | nil => intro s₀ _ hc h; cases h; exact hc
    | cons a as ih =>
      intro s₀ hi hc h
      simp only [run] at h
      cases hs : step true s₀ a with
      | none => rw [hs] at h; cases h
      | some s1 => rw [hs] at h; exact ih s1 (inv_step hi hs) (clean_step hi hc hs) h
  have hc := key as _ (inv_start ids) ⟨fun e h => (by cases h), fun i c ms h => (by cases h)⟩ h
  intro e he hr
  have h1 := hc.covered e he
  rw [hq] at h1
  have h2 := hw e.1
  simp only [step] at h2
  rw [if_pos ⟨h1, hr⟩] at h2
  cases h2

/-! ## One supergraph for a request -/

/-- Once a supergraph is selected for a request, every later step of the request gets the same, whatever is
reloaded and whatever plugins do between. -/
theorem C113_sticky (req : Request) (c : Option Runtime) (resolve : Nat → Option Runtime) (x : Nat × Runtime)
    (h : (select req c resolve).1 = some x) (more : List (Option Runtime × (Nat → Option Runtime) × Option Nat)) :
    ∀ y ∈ (more.scanl (fun (st : Option (Nat × Runtime) × Request) e =>
      select { st.2 with plugin := e.2.2 } e.1 e.2.1) (select req c resolve)), y.1 = some x := by
  have hsel : (select req c resolve).2.selected = some x := by
    unfold select at h ⊢
    cases hr : req.selected with
    | some y => rw [hr] at h; simpa [hr] using h
    | none =>
      rw [hr] at h
      cases hp : req.plugin with
      | some id =>
        rw [hp] at h
        simp only at h ⊢
        cases hv : resolve id with
        | some r => rw [hv] at h; simpa using h
        | none => rw [hv] at h; cases h
      | none =>
        rw [hp] at h
        simp only at h ⊢
        cases c with
        | some r => simpa using h
        | none => cases h
  have key : ∀ st : Option (Nat × Runtime) × Request, st.1 = some x → st.2.selected = some x →
      ∀ y ∈ (more.scanl (fun (st : Option (Nat × Runtime) × Request) e =>
        select { st.2 with plugin := e.2.2 } e.1 e.2.1) st), y.1 = some x := by
    clear h hsel
    induction more with
    | nil => intro st h1 _ y hy; simp at hy; rw [hy]; exact h1
    | cons e more ih =>
      intro st h1 h2 y hy
      rw [List.scanl_cons] at hy
      rcases List.mem_cons.1 hy with rfl | hy
      · exact h1
      · exact ih _ (by simp [select, h2]) (by simp [select, h2]) y hy
  exact key _ h hsel

/-- What is selected goes together: the runtime was built for the snapshot. -/
theorem C113_together (req : Request) (c : Option Runtime) (resolve : Nat → Option Runtime) (x : Nat × Runtime)
    (h : (select req c resolve).1 = some x) (h0 : ∀ y, req.selected = some y → y.2.id = y.1)
    (hr : ∀ id r, resolve id = some r → r.id = id) :
    x.2.id = x.1 ∧ ∀ y, (select req c resolve).2.selected = some y → y = x := by
  unfold select at h ⊢
  cases hs : req.selected with
  | some y => rw [hs] at h; cases h; exact ⟨h0 _ hs, fun z hz => by simp [hs] at hz; exact hz.symm⟩
  | none =>
    rw [hs] at h
    cases hp : req.plugin with
    | some id =>
      rw [hp] at h
      simp only at h ⊢
      cases hv : resolve id with
      | some r => rw [hv] at h; cases h; exact ⟨hr _ _ hv, fun z hz => by simp at hz; exact hz.symm⟩
      | none => rw [hv] at h; cases h
    | none =>
      rw [hp] at h
      simp only at h ⊢
      cases c with
      | some r => cases h; exact ⟨rfl, fun z hz => by simp at hz; exact hz.symm⟩
      | none => cases h

/-! ## Cases -/

namespace Ex

/-- Calls 0 to 10 are for supergraphs of their own, call 11 is for the first of them again, and call 12 for
the same as call 11. -/
def ids : Nat → Nat := fun i => if i < 11 then i else 0

/-- Call `i` from beginning to end. -/
def whole (i n : Nat) : List Act := [.enter i] ++ List.replicate n (.tell i) ++ [.finish i true] ++ List.replicate n .read

/-- Supergraphs 0 to 9 fill the cache. Then call 10 pushes 0 out; before it tells so, call 11 brings 0 back
and pushes 1 out. Then 0 is retired. -/
def race : List Act :=
  (List.range 10).flatMap (fun i => whole i 1) ++
  [.enter 10, .enter 11, .tell 11, .tell 11, .read, .read, .tell 10, .tell 10, .read, .read,
   .finish 10 true, .finish 11 true, .retire 0]

end Ex

open Ex

theorem run_ids {s : St} {as : List Act} (h : run false (St.start ids) as = some s) (i : Nat)
    (hi : ∀ a ∈ as, a ≠ .take i ∧ a ≠ .enter i) : (s.calls i).2 = .start := by
  have key : ∀ (as : List Act) (s₀ : St), (∀ a ∈ as, a ≠ .take i ∧ a ≠ .enter i) → (s₀.calls i).2 = .start →
      run false s₀ as = some s → (s.calls i).2 = .start := by
    intro as
    induction as with
    | nil => intro s₀ _ h0 h; cases h; exact h0
    | cons a as ih =>
      intro s₀ ha h0 h
      simp only [run] at h
      cases hs : step false s₀ a with
      | none => rw [hs] at h; cases h
      | some s1 =>
        rw [hs] at h
        refine ih s1 (fun a h => ha a (List.mem_cons_of_mem _ h)) ?_ h
        have hne := ha a List.mem_cons_self
        have other : ∀ j x, j ≠ i → (Function.update s₀.calls j x i) = s₀.calls i := fun j x hj =>
          Function.update_of_ne (Ne.symm hj) _ _
        have hpc : ∀ id pc, s₀.calls i = (id, pc) → pc = .start := fun id pc h => by rw [← h0, h]
        cases a with
        | take j =>
          have hj : j ≠ i := by rintro rfl; exact hne.1 rfl
          simp only [step] at hs
          split at hs
          · split at hs
            · cases hs; simpa only [St.go, other _ _ hj] using h0
            · cases hs
          · cases hs
        | enter j =>
          have hj : j ≠ i := by rintro rfl; exact hne.2 rfl
          simp only [step] at hs
          split at hs
          · split at hs
            · cases hs; simpa only [St.go, other _ _ hj] using h0
            · cases hs; simpa only [other _ _ hj] using h0
          · cases hs
        | tell j =>
          simp only [step] at hs
          split at hs
          · rename_i h1
            have hj : j ≠ i := by rintro rfl; cases hpc _ _ h1
            cases hs; simpa only [other _ _ hj] using h0
          · cases hs
        | finish j ok =>
          simp only [step] at hs
          split at hs
          · rename_i h1
            have hj : j ≠ i := by rintro rfl; cases hpc _ _ h1
            split at hs
            · cases hs; simpa only [St.go, other _ _ hj] using h0
            · split at hs
              · cases hs; simpa only [other _ _ hj] using h0
              · cases hs; simpa only [other _ _ hj] using h0
          · cases hs
        | configure id => cases hs; exact h0
        | retire id => cases hs; exact h0
        | read =>
          simp only [step] at hs
          split at hs
          · cases hs; exact h0
          · cases hs
        | fire id =>
          simp only [step] at hs
          split at hs
          · cases hs; exact h0
          · cases hs
  exact key as _ hi rfl h

/-- A supergraph that was retired stays in the cache, although all messages are sent and read and the task
has nothing left to do: the message that it was pushed out is sent after the message that it is back. -/
theorem C113_cleanup_refuted : ∃ ids as s, run false (St.start ids) as = some s ∧ s.queue = [] ∧
    (∀ i c ms, (s.calls i).2 = .holds c ms → ms = []) ∧ (∀ id, step false s (.fire id) = none) ∧
    ∃ e ∈ s.entries, e.1 ∈ s.retired := by
  have hs : ((run false (St.start ids) race).map (fun s => (s.entries, s.queue, s.waiters, s.retired,
      (List.range 12).all (fun i => match (s.calls i).2 with | .holds _ _ => false | _ => true)))) =
      some ([(2, 2), (3, 3), (4, 4), (5, 5), (6, 6), (7, 7), (8, 8), (9, 9), (10, 10), (0, 11)], [],
        [10, 9, 8, 7, 6, 5, 4, 3, 2], [0], true) := by decide +kernel
  cases hr : run false (St.start ids) race with
  | none => rw [hr] at hs; cases hs
  | some s =>
    rw [hr] at hs
    simp only [Option.map_some, Option.some.injEq, Prod.mk.injEq] at hs
    obtain ⟨h1, h2, h3, h4, h5⟩ := hs
    refine ⟨ids, race, s, hr, h2, fun i c ms hi => ?_, fun id => ?_, (0, 11), by simp [h1], by simp [h4]⟩
    · by_cases hlt : i < 12
      · have := List.all_eq_true.1 h5 i (List.mem_range.2 hlt)
        rw [hi] at this
        cases this
      · have hno : ∀ a ∈ race, a ≠ .take i ∧ a ≠ .enter i := by
          have hall : ∀ a ∈ race, (match a with | .take j => decide (j < 12) | .enter j => decide (j < 12) | _ => true) = true := by
            decide +kernel
          intro a ha
          have := hall a ha
          constructor <;> (rintro rfl; simp at this; omega)
        have := run_ids hr i hno
        rw [hi] at this
        cases this
    · simp only [step]
      rw [if_neg]
      rintro ⟨hw, hret⟩
      rw [h4] at hret
      rw [h3] at hw
      simp only [List.mem_singleton] at hret
      subst hret
      simp at hw

/-- `C113_right`, `C113_bounded`, `C113_shared`: a run in which the second call for a supergraph gets what the
first has built. -/
example : ∃ s₁ s₂ s₃, run false (St.start (fun _ => 7)) [.enter 0, .tell 0, .finish 0 true] = some s₁ ∧
    (7, 0) ∈ s₁.entries ∧ s₁.cells 0 = some { id := 7, build := 0 } ∧ step false s₁ (.enter 1) = some s₂ ∧
    run false s₂ [.configure 8, .read, .retire 7, .fire 7, .finish 1 false] = some s₃ ∧
    (s₃.calls 1).2 = .done { id := 7, build := 0 } :=
  ⟨_, _, _, rfl, by simp [remains, St.start], rfl, rfl, rfl, rfl⟩

/-- `C113_cleanup_partial`: a supergraph is retired and removed. -/
example : ∃ s, run true (St.start (fun i => i)) [.enter 0, .finish 0 true, .enter 1, .finish 1 true, .read, .read,
    .retire 0, .fire 0] = some s ∧ s.queue = [] ∧ s.entries = [(1, 1)] ∧ s.waiters = [1] :=
  ⟨_, rfl, rfl, rfl, rfl⟩

/-- `C113_sticky`, `C113_together`: a request that a plugin selects a supergraph for. -/
example : (select { selected := none, plugin := some 3 } (some ⟨1, 0⟩) (fun id => some ⟨id, 1⟩)).1 =
    some (3, ⟨3, 1⟩) := rfl

end Verif.Reload.Cache
