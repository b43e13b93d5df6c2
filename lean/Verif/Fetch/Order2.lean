import Verif.Fetch.Passes2
import Verif.Fetch.Order
import Verif.Fetch.Grow

/-!
# Lemmas: which passes never make a step wait for itself
-/

namespace Verif.Fetch

theorem noCycle_sub {g g' : Graph} (hs : ∀ e ∈ g'.edges, e ∈ g.edges) (hg : NoCycle g) : NoCycle g' :=
  fun a h => hg a (h.mono hs)

theorem ranked_noCycle {g : Graph} (h : Ranked g) : NoCycle g := by
  obtain ⟨r, hr⟩ := h
  have : ∀ {a b}, After g a b → r a < r b := by
    intro a b h
    induction h with
    | edge e => exact hr _ _ e
    | trans _ e ih => exact Nat.lt_trans ih (hr _ _ e)
  exact fun a h => Nat.lt_irrefl _ (this h)

theorem noCycle_edges {g g' : Graph} (he : g'.edges = g.edges) (hg : NoCycle g) : NoCycle g' :=
  noCycle_sub (fun e h => he ▸ h) hg

theorem rewire_length {t s : Nat} {g : Graph} : (rewire t s g).steps.length = g.steps.length := by
  have : ∀ (f : Nat → Nat × Nat) (l : List Nat) (g : Graph),
      (l.foldl (fun g p => g.connect (f p).1 (f p).2) g).steps = g.steps := by
    intro f l
    induction l with
    | nil => intro g; rfl
    | cons x r ih => intro g; rw [List.foldl_cons, ih, connect_steps]
  unfold rewire
  simp only [Graph.remove, List.length_set]
  rw [this (fun p => (p, t)), this (fun c => (t, c))]

theorem rewire_in {t s : Nat} {g : Graph} (hg : EdgesIn g) (ht : t < g.steps.length) : EdgesIn (rewire t s g) := by
  intro a b hab
  rw [rewire_length]
  obtain ⟨_, _, h | ⟨h, h'⟩ | ⟨h, _, h'⟩⟩ := rewire_edges.1 hab
  · exact hg a b h
  · exact ⟨h ▸ ht, (hg _ _ h').2⟩
  · exact ⟨(hg _ _ h').1, h ▸ ht⟩

theorem edgesIn_same {g g' : Graph} (hs : g'.steps.length = g.steps.length) (he : ∀ e ∈ g'.edges, e ∈ g.edges)
    (hg : EdgesIn g) : EdgesIn g' := by
  intro a b hab
  rw [hs]
  exact hg a b (he _ hab)

/-- Both together. -/
def Sound (g : Graph) : Prop := NoCycle g ∧ EdgesIn g

theorem set_in {g : Graph} {t : Nat} {z : Step} (hg : EdgesIn g) : EdgesIn (g.set t z) :=
  edgesIn_same (g := g) (by simp [Graph.set]) (fun _ h => h) hg

theorem set_sound {g : Graph} {t : Nat} {z : Step} (hg : Sound g) : Sound (g.set t z) :=
  ⟨noCycle_edges (g := g) rfl hg.1, set_in hg.2⟩

theorem set_after {g : Graph} {t a b : Nat} {z : Step} (h : After (g.set t z) a b) : After g a b :=
  After.mono (g := g.set t z) (g' := g) (fun _ h => h) h

theorem set_mergeable {g : Graph} {t a b : Nat} {z : Step} (h : Mergeable g a b) : Mergeable (g.set t z) a b :=
  ⟨fun h' => h.1 (set_after h'), fun c h1 h2 => h.2 c (set_after h1) (set_after h2)⟩

/-! ## Steps with a single parent -/

/-- Nothing but one step is waited for. -/
def OnlyParent (g : Graph) (p c : Nat) : Prop := c ≠ p ∧ (p, c) ∈ g.edges ∧ ∀ x, (x, c) ∈ g.edges → x = p

theorem mergeable_parent {g : Graph} {t s : Nat} (hg : NoCycle g) (h : OnlyParent g t s) : Mergeable g t s := by
  obtain ⟨_, hts, hp⟩ := h
  refine ⟨fun h' => hg t ((After.edge hts).append h'), ?_⟩
  intro x hx hxs
  obtain ⟨c, hc, h1⟩ := hxs.last
  rw [hp c hc] at h1
  rcases h1 with rfl | h1
  · exact hg _ hx
  · exact hg _ (hx.append h1)

theorem passMerge_rewire {t s : Nat} {g g' : Graph} (h : passMerge t s g = .ok g') :
    t ≠ s ∧ t < g.steps.length ∧ ∃ z, g' = rewire t s (g.set t z) := by
  unfold passMerge at h
  split at h
  next => cases h
  next x y hp =>
    obtain ⟨hne, hx, _⟩ := getPair_ok hp
    split at h
    next => cases h
    next =>
      split at h
      next => cases h
      next o _ => cases h; exact ⟨hne, get_length hx, _, rfl⟩

theorem passMerge_self {t : Nat} {g g' : Graph} (h : passMerge t t g = .ok g') : False :=
  (passMerge_rewire h).1 rfl

theorem rewire_mem {t s a b : Nat} {g : Graph} {z : Step} : (a, b) ∈ (rewire t s (g.set t z)).edges ↔
    a ≠ s ∧ b ≠ s ∧ ((a, b) ∈ g.edges ∨ a = t ∧ (s, b) ∈ g.edges ∨ b = t ∧ a ≠ t ∧ (a, s) ∈ g.edges) :=
  rewire_edges (g := g.set t z)

theorem rewire_only {p c d : Nat} {g : Graph} {z : Step} (hc : OnlyParent g p c) (hd : OnlyParent g p d)
    (hcd : d ≠ c) : OnlyParent (rewire p c (g.set p z)) p d := by
  refine ⟨hd.1, rewire_mem.2 ⟨hc.1.symm, hcd, .inl hd.2.1⟩, ?_⟩
  intro x hx
  obtain ⟨_, _, h | ⟨h, _⟩ | ⟨h, _⟩⟩ := rewire_mem.1 hx
  · exact hd.2.2 x h
  · exact h
  · exact absurd h hd.1

theorem runPass_sound {p : Nat} : ∀ {cs : List Nat} {rep rep' : Rep} {g g' : Graph}, Sound g →
    rep.lookup p = some p →
    (∀ c ∈ cs, rep.lookup c = some p ∨ (rep.lookup c = some c ∧ OnlyParent g p c)) →
    runMerges passMerge (cs.map fun c => (p, c)) rep g = .ok (rep', g') → Sound g'
  | [], rep, rep', g, g', hg, _, _, h => by
    simp only [List.map_nil, runMerges] at h
    cases h
    exact hg
  | c :: r, rep, rep', g, g', hg, hp, hc, h => by
    simp only [List.map_cons, runMerges, hp] at h
    rcases hc c (List.mem_cons_self ..) with h1 | ⟨h1, h2⟩
    · simp only [h1] at h
      split at h
      next => cases h
      next g1 hm => exact (passMerge_self hm).elim
    · simp only [h1] at h
      split at h
      next => cases h
      next g1 hm =>
        obtain ⟨_, hl, z, rfl⟩ := passMerge_rewire hm
        refine runPass_sound ?_ ?_ ?_ h
        · exact ⟨rewire_noCycle (set_sound hg).1 (set_mergeable (mergeable_parent hg.1 h2)),
            rewire_in (set_in hg.2) (by simpa [Graph.set] using hl)⟩
        · rw [List.lookup_cons]
          have : (p == c) = false := by simpa using h2.1.symm
          rw [this]
          exact hp
        · intro d hd
          rw [List.lookup_cons]
          by_cases hdc : d = c
          · subst hdc
            simp
          · have : (d == c) = false := by simpa using hdc
            rw [this]
            rcases hc d (List.mem_cons_of_mem _ hd) with h3 | ⟨h3, h4⟩
            · exact .inl h3
            · exact .inr ⟨h3, rewire_only h2 h4 hdc⟩

theorem lookup_same {cs : List Nat} {rep : Rep} {p c : Nat} (hc : c ∈ cs ∨ c = p) :
    ((cs.map fun c => (c, c)) ++ (p, p) :: rep).lookup c = some c := by
  induction cs with
  | nil =>
    rcases hc with hc | rfl
    · cases hc
    · simp
  | cons d r ih =>
    simp only [List.map_cons, List.cons_append, List.lookup_cons]
    by_cases hcd : c = d
    · simp [hcd]
    · have h1 : (c == d) = false := by simpa using hcd
      simp only [h1]
      refine ih (hc.imp (fun h => ?_) id)
      rcases List.mem_cons.1 h with h | h
      · exact absurd h hcd
      · exact h

theorem canPass_only {g : Graph} {p c : Nat} (h : canPass g p c = true) : OnlyParent g p c := by
  unfold canPass at h
  split at h
  next =>
    simp only [Bool.and_eq_true, bne_iff_ne, ne_eq, decide_eq_true_eq] at h
    have hpar := h.1.2
    refine ⟨fun e => h.1.1.1 e.symm, mem_parents.1 (by rw [hpar]; simp), ?_⟩
    intro x hx
    have := mem_parents.2 hx
    rw [hpar] at this
    simpa using this
  next => cases h

theorem passLoop_sound : ∀ (n : Nat) {q : List Nat} {rep : Rep} {g g' : Graph}, Sound g →
    downLoop canPass passMerge n q rep g = .ok g' → Sound g'
  | 0, _, _, _, _, _, h => by simp [downLoop] at h
  | n + 1, [], _, _, _, hg, h => by
    simp only [downLoop] at h
    cases h
    exact hg
  | n + 1, p :: q, rep, g, g', hg, h => by
    simp only [downLoop] at h
    split at h
    next => cases h
    next p' _ =>
      split at h
      next => cases h
      next =>
        split at h
        next => cases h
        next rep' g1 hm =>
          refine passLoop_sound n (runPass_sound hg (lookup_same (.inr rfl)) ?_ hm) h
          intro c hc
          obtain ⟨h1, h2⟩ := List.mem_filter.1 hc
          exact .inr ⟨lookup_same (.inl h1), canPass_only h2⟩

theorem mergePassthrough_sound {fuel : Nat} {g g' : Graph} (hg : Sound g)
    (h : mergePassthrough fuel g = .ok g') : Sound g' := by
  unfold mergePassthrough at h
  split at h
  next => cases h
  next => exact passLoop_sound _ hg h

/-! ## What can be reached -/

theorem reachN_mono {g : Graph} {x : Nat} : ∀ (n : Nat) {l : List Nat}, x ∈ l → x ∈ g.reachN n l
  | 0, _, h => h
  | n + 1, l, h => by
    refine reachN_mono n ?_
    rw [List.mem_eraseDups]
    exact List.mem_append_left _ h

/-- A list that is closed contains all that can be reached. -/
theorem shut_after {g : Graph} {l : List Nat} (h : ∀ a ∈ l, ∀ b, (a, b) ∈ g.edges → b ∈ l) {a b : Nat}
    (ha : a ∈ l) (hab : After g a b) : b ∈ l := by
  induction hab with
  | edge e => exact h _ ha _ e
  | trans _ e ih => exact h _ ih _ e

theorem filter_le {α : Type} {p q : α → Bool} : ∀ {l : List α}, (∀ x, q x = true → p x = true) →
    (l.filter q).length ≤ (l.filter p).length
  | [], _ => by simp
  | x :: r, h => by
    have ih := filter_le (l := r) h
    by_cases hq : q x = true
    · simp only [List.filter_cons, hq, h x hq, if_true, List.length_cons]
      omega
    · by_cases hp : p x = true
      · simp only [List.filter_cons, hq, hp, if_true, List.length_cons, Bool.false_eq_true, if_false]
        omega
      · simp only [List.filter_cons, hq, hp, Bool.false_eq_true, if_false]
        exact ih

theorem filter_lt {α : Type} {p q : α → Bool} : ∀ {l : List α}, (∀ x, q x = true → p x = true) → ∀ {y}, y ∈ l →
    p y = true → q y = false → (l.filter q).length < (l.filter p).length
  | x :: r, h, y, hy, h1, h2 => by
    rcases List.mem_cons.1 hy with rfl | hy
    · have ih := filter_le (l := r) h
      simp only [List.filter_cons, h1, h2, if_true, List.length_cons, Bool.false_eq_true, if_false]
      omega
    · have ih := filter_lt h hy h1 h2
      by_cases hq : q x = true
      · simp only [List.filter_cons, hq, h x hq, if_true, List.length_cons]
        omega
      · by_cases hp : p x = true
        · simp only [List.filter_cons, hq, hp, if_true, List.length_cons, Bool.false_eq_true, if_false]
          omega
        · simp only [List.filter_cons, hq, hp, Bool.false_eq_true, if_false]
          exact ih

/-- How many nodes are not in a list. -/
def missing (N : Nat) (l : List Nat) : Nat := ((List.range N).filter fun x => !l.contains x).length

/-- Everything an edge leads to is in the list. -/
def Shut (g : Graph) (l : List Nat) : Prop := ∀ a ∈ l, ∀ b, (a, b) ∈ g.edges → b ∈ l

theorem shut_next {g : Graph} {l : List Nat} (h : Shut g l) : Shut g ((l ++ l.flatMap g.children).eraseDups) := by
  intro a ha b hab
  rw [List.mem_eraseDups, List.mem_append] at ha ⊢
  have hin : ∀ x, x ∈ l ∨ x ∈ l.flatMap g.children → x ∈ l := by
    rintro x (hx | hx)
    · exact hx
    · obtain ⟨y, hy, hyx⟩ := List.mem_flatMap.1 hx
      exact h y hy x (mem_children.1 hyx)
  exact .inl (h a (hin a ha) b hab)

theorem shut_reachN {g : Graph} : ∀ (n : Nat) {l : List Nat}, Shut g l → Shut g (g.reachN n l)
  | 0, _, h => h
  | n + 1, _, h => shut_reachN n (shut_next h)

theorem reachN_shut {g : Graph} (hg : EdgesIn g) : ∀ (n : Nat) {l : List Nat}, missing g.steps.length l ≤ n →
    Shut g (g.reachN n l)
  | 0, l, h => by
    intro a _ b hab
    have hb := (hg a b hab).2
    simp only [missing, Nat.le_zero, List.length_eq_zero_iff, List.filter_eq_nil_iff, List.mem_range] at h
    have := h b hb
    simpa [Graph.reachN] using this
  | n + 1, l, h => by
    by_cases hs : Shut g l
    · exact shut_reachN n (shut_next hs)
    · simp only [Graph.reachN]
      refine reachN_shut hg n ?_
      have : ∃ a b, a ∈ l ∧ (a, b) ∈ g.edges ∧ b ∉ l := by
        apply Classical.byContradiction
        intro hn
        apply hs
        intro a ha b hab
        apply Classical.byContradiction
        intro hb
        exact hn ⟨a, b, ha, hab, hb⟩
      obtain ⟨a, b, ha, hab, hb⟩ := this
      have hlt : missing g.steps.length ((l ++ l.flatMap g.children).eraseDups) < missing g.steps.length l := by
        unfold missing
        refine filter_lt (y := b) ?_ (List.mem_range.2 (hg a b hab).2) ?_ ?_
        · intro x hx
          simp only [Bool.not_eq_true', List.contains_eq_mem, decide_eq_false_iff_not, List.mem_eraseDups,
            List.mem_append, not_or] at hx ⊢
          exact hx.1
        · simpa using hb
        · simp only [Bool.not_eq_false', List.contains_eq_mem, decide_eq_true_eq, List.mem_eraseDups,
            List.mem_append]
          exact .inr (List.mem_flatMap.2 ⟨a, ha, mem_children.2 hab⟩)
      omega

theorem missing_le {N : Nat} {l : List Nat} : missing N l ≤ N := by
  have := List.length_filter_le (fun x => !l.contains x) (List.range N)
  simpa [missing] using this

/-- What waits for a step is found. -/
theorem reach_after {g : Graph} (hg : EdgesIn g) {a b : Nat} (h : After g a b) : b ∈ g.reach a :=
  shut_after (reachN_shut hg _ missing_le) (reachN_mono _ (List.mem_singleton.2 rfl)) h

theorem mergeable_apart {g : Graph} (hg : EdgesIn g) {a b : Nat} (h : related g a b = false) : Mergeable g a b := by
  simp only [related, Bool.or_eq_false_iff, List.contains_eq_mem, decide_eq_false_iff_not] at h
  refine ⟨fun h' => h.2 (reach_after hg h'), ?_⟩
  intro x h1 h2
  exact h.1 (reach_after hg (h1.append h2))

theorem mergeable_leaf {g : Graph} (hg : EdgesIn g) {a b : Nat} (h : canLeafs g a b = true) : Mergeable g a b := by
  unfold canLeafs at h
  split at h
  next =>
    simp only [Bool.and_eq_true, Bool.not_eq_true', List.contains_eq_mem, decide_eq_false_iff_not,
      List.isEmpty_iff] at h
    obtain ⟨⟨⟨_, hc⟩, hr⟩, _⟩ := h
    refine ⟨?_, fun x h1 h2 => hr (reach_after hg (h1.append h2))⟩
    intro h'
    have : ∀ {x y}, After g x y → x ≠ b := by
      intro x y hxy
      induction hxy with
      | edge e =>
        rintro rfl
        have := mem_children.2 e
        rw [hc] at this
        cases this
      | trans _ _ ih => exact ih
    exact this h' rfl
  next => cases h

/-! ## The other passes -/

theorem performMerge_sound {force : Bool} {t s : Nat} {g g' : Graph} (hg : Sound g) (hm : Mergeable g t s)
    (h : performMerge force t s g = .ok g') : Sound g' := by
  obtain ⟨x, y, z, hne, hx, hy, hz, rfl⟩ := set_performMerge h
  refine ⟨rewire_noCycle (set_sound hg).1 (set_mergeable hm), rewire_in (set_in hg.2) ?_⟩
  have := (List.getElem?_eq_some_iff.1 (get_ok.1 hx)).1
  simpa [Graph.set] using this

theorem mergeLeafs_sound : ∀ (n : Nat) {g g' : Graph}, Sound g → mergeLeafs n g = .ok g' → Sound g'
  | 0, _, _, _, h => by simp [mergeLeafs] at h
  | n + 1, g, g', hg, h => by
    simp only [mergeLeafs] at h
    split at h
    next => cases h; exact hg
    next a b hf =>
      split at h
      next => cases h
      next g1 hm =>
        refine mergeLeafs_sound n (performMerge_sound hg ?_ hm) h
        unfold findLeaf at hf
        obtain ⟨l1, a', l2, _, h2, _⟩ := List.findSome?_eq_some_iff.1 hf
        cases hb : g.others.find? (canLeafs g a') with
        | none => rw [hb] at h2; simp at h2
        | some b' =>
          rw [hb] at h2
          simp only [Option.map_some, Option.some.injEq, Prod.mk.injEq] at h2
          obtain ⟨rfl, rfl⟩ := h2
          exact mergeable_leaf hg.2 (List.find?_some hb)

theorem prune_sound {g : Graph} (hg : Sound g) : Sound (prune g) := by
  have hsub : ∀ e ∈ (prune g).edges, e ∈ g.edges := by
    rintro ⟨a, b⟩ he
    exact ((removes_edges _).1 (List.mem_filter.1 he).1).2.2
  refine ⟨noCycle_sub hsub hg.1, edgesIn_same ?_ hsub hg.2⟩
  have : ∀ (l : List Nat) (g : Graph), (l.foldl Graph.remove g).steps.length = g.steps.length := by
    intro l
    induction l with
    | nil => intro g; rfl
    | cons x r ih => intro g; rw [List.foldl_cons, ih]; simp [Graph.remove]
  exact this _ g

theorem batchMerge_sound {rq : Requested} {t s : Nat} {g g' : Graph} (hg : Sound g)
    (h : batchMerge rq t s g = .ok (some g')) : Sound g' := by
  unfold batchMerge at h
  split at h
  next => cases h
  next hr =>
    simp only [Bool.or_eq_true, decide_eq_true_eq, not_or, Bool.not_eq_true] at hr
    split at h
    next => cases h
    next x y hp =>
      split at h
      next =>
        split at h
        next => cases h
        next g1 hm =>
          split at h
          next => cases h
          next g2 hmod =>
            cases h
            have hs1 := performMerge_sound (set_sound hg) (set_mergeable (mergeable_apart hg.2 hr.2)) hm
            obtain ⟨u, u', _, _, rfl⟩ := modify_ok hmod
            exact set_sound hs1
      next => cases h

theorem runBatches_sound {rq : Requested} : ∀ {pairs : List (Nat × Nat)} {rep : Rep} {g g' : Graph}, Sound g →
    runBatches rq pairs rep g = .ok g' → Sound g'
  | [], _, _, _, hg, h => by
    simp only [runBatches] at h
    cases h
    exact hg
  | (a, b) :: r, rep, g, g', hg, h => by
    simp only [runBatches] at h
    split at h
    next a' b' _ _ =>
      split at h
      next => cases h
      next => exact runBatches_sound hg h
      next g1 hm => exact runBatches_sound (batchMerge_sound hg hm) h
    next => cases h

theorem batchLoop_sound : ∀ (n : Nat) {q : List Nat} {g g' : Graph}, Sound g → batchLoop n q g = .ok g' → Sound g'
  | 0, _, _, _, _, h => by simp [batchLoop] at h
  | n + 1, [], _, _, hg, h => by
    simp only [batchLoop] at h
    cases h
    exact hg
  | n + 1, p :: q, g, g', hg, h => by
    simp only [batchLoop] at h
    split at h
    next => cases h
    next g1 hm => exact batchLoop_sound n (runBatches_sound hg hm) h

theorem batchTypes_sound {fuel : Nat} {g g' : Graph} (hg : Sound g) (h : batchTypes fuel g = .ok g') : Sound g' := by
  unfold batchTypes at h
  split at h
  next => cases h
  next => exact batchLoop_sound _ hg h

theorem normalize_sound {S : Verif.Graph.Super} {g g' : Graph} (hg : Sound g) (h : normalize S g = .ok g') :
    Sound g' := by
  have len : ∀ {l l' : List (Option Step)}, normSteps S l = .ok l' → l'.length = l.length := by
    intro l
    induction l with
    | nil => intro l' h; simp only [normSteps] at h; cases h; rfl
    | cons x r ih =>
      intro l' h
      cases x with
      | none =>
        simp only [normSteps, Except.map] at h
        split at h
        next => cases h
        next r' hr => cases h; simp [ih hr]
      | some s =>
        simp only [normSteps] at h
        split at h
        next => cases h
        next => cases h
        next o r' _ hr => cases h; simp [ih hr]
  unfold normalize at h
  split at h
  next => cases h
  next l hl =>
    cases h
    exact ⟨noCycle_edges (g := g) rfl hg.1, edgesIn_same (g := g) (len hl) (fun _ h => h) hg.2⟩

theorem modify_sound {n : Nat} {u : Step → Except Err Step} {g g' : Graph} (hg : Sound g)
    (h : g.modify n u = .ok g') : Sound g' := by
  obtain ⟨_, _, _, _, rfl⟩ := modify_ok h
  exact set_sound hg

theorem patchBelow_sound {al : Aliases} : ∀ {l : List Nat} {g g' : Graph}, Sound g → patchBelow al l g = .ok g' →
    Sound g'
  | [], _, _, hg, h => by
    simp only [patchBelow] at h
    cases h
    exact hg
  | n :: r, g, g', hg, h => by
    simp only [patchBelow] at h
    split at h
    next => cases h
    next g1 hm => exact patchBelow_sound (modify_sound hg hm) h

theorem patchFrom_sound {n : Nat} : ∀ {l : List (String × Aliases)} {g g' : Graph}, Sound g →
    patchFrom n l g = .ok g' → Sound g'
  | [], _, _, hg, h => by
    simp only [patchFrom] at h
    cases h
    exact hg
  | (_, al) :: r, g, g', hg, h => by
    simp only [patchFrom] at h
    split at h
    next => cases h
    next g1 hm => exact patchFrom_sound (patchBelow_sound hg hm) h

theorem patchNodes_sound : ∀ {l : List (Nat × List (String × Aliases))} {g g' : Graph}, Sound g →
    patchNodes l g = .ok g' → Sound g'
  | [], _, _, hg, h => by
    simp only [patchNodes] at h
    cases h
    exact hg
  | (n, al) :: r, g, g', hg, h => by
    simp only [patchNodes] at h
    split at h
    next => cases h
    next g1 hm => exact patchNodes_sound (patchFrom_sound hg hm) h

theorem patchAliases_sound {g g' : Graph} (hg : Sound g) (h : patchAliases g = .ok g') : Sound g' :=
  patchNodes_sound hg h

/-! ## Steps with shared parents -/

theorem canMerge_parents {g : Graph} {a b : Nat} (h : canMerge g a b = true) :
    a ≠ b ∧ (g.parents b = [a] ∨ ∀ p, (p, a) ∈ g.edges → (p, b) ∈ g.edges) := by
  unfold canMerge at h
  split at h
  next =>
    simp only [Bool.and_eq_true, bne_iff_ne, ne_eq, Bool.or_eq_true, decide_eq_true_eq, List.all_eq_true,
      List.contains_eq_mem] at h
    refine ⟨h.1.1.1.1.1, h.2.imp id ?_⟩
    intro h' p hp
    exact mem_parents.1 (h' p (mem_parents.2 hp))
  next => cases h

theorem mergeable_shared {g : Graph} {p a b : Nat} (hg : NoCycle g) (hs : Straight g) (hp : (p, a) ∈ g.edges)
    (hab : (a, b) ∈ g.edges) (h : canMerge g a b = true) : Mergeable g a b := by
  rcases (canMerge_parents h).2 with h1 | h1
  · exact mergeable_only hg h1
  · exact ⟨fun h' => hg a ((After.edge hab).append h'), hs p a b hp hab (h1 p hp)⟩

theorem mergeable_siblings {g : Graph} {a b : Nat} (hg : EdgesIn g) (h : canSiblings g a b = true) :
    Mergeable g a b := by
  unfold canSiblings at h
  simp only [Bool.and_eq_true, Bool.not_eq_true'] at h
  exact mergeable_apart hg h.1.2

end Verif.Fetch
