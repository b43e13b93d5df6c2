import Verif.Fetch.Only

/-!
# Lemmas: the passes over the fetch graph
-/

namespace Verif.Fetch

open Verif.Walker (Cond)

variable {v : Vars} {M : Meaning}

theorem blind_means : Blind (Means M) := by
  intro f g h
  unfold Means FieldInfo.key at h ⊢
  unfold mergeOmit
  first | exact h | (split <;> exact h)

/-! ## No aliases are made -/

theorem updateAt_from {α : Type} {P : FieldInfo → Prop} {Q : FragInfo → Prop}
    {u : List Sel → Except Err (List Sel × α)} : ∀ (path : MPath)
    {us R : List Sel} {a : α}, Fit P Q us → updateAt u path us = .ok (R, a) →
    ∃ ts ts', Fit P Q ts ∧ u ts = .ok (ts', a)
  | [], us, R, a, hf, h => by
    simp only [updateAt] at h
    exact ⟨us, R, hf, h⟩
  | .list :: p, us, R, a, hf, h => by
    simp only [updateAt] at h
    exact updateAt_from p hf h
  | .field n al args c :: p, us, R, a, hf, h => by
    simp only [updateAt] at h
    rcases updateIn_ok h with ⟨l, g, ts, ts', r, rfl, hfit, hh, rfl⟩ | ⟨l, g, ts, ts', r, rfl, hfit, hh, rfl⟩
    · exact updateAt_from p (fit_mid.1 hf).2.1.2 hh
    · exact updateAt_from p (fit_mid.1 hf).2.1.2 hh
  | .type ns c :: p, us, R, a, hf, h => by
    simp only [updateAt] at h
    rcases updateIn_ok h with ⟨l, g, ts, ts', r, rfl, hfit, hh, rfl⟩ | ⟨l, g, ts, ts', r, rfl, hfit, hh, rfl⟩
    · exact updateAt_from p (fit_mid.1 hf).2.1.2 hh
    · exact updateAt_from p (fit_mid.1 hf).2.1.2 hh

theorem updateDef_from {α : Type} {P : FieldInfo → Prop} {Q : FragInfo → Prop}
    {u : List Sel → Except Err (List Sel × α)} {t : String} :
    ∀ {s R : Selections} {a : α}, FitAll P Q s → updateDef t u s = .ok (R, a) →
    ∃ ts ts', Fit P Q ts ∧ u ts = .ok (ts', a)
  | [], _, _, _, h => by simp [updateDef] at h
  | (k, ss) :: r, R, a, hf, h => by
    obtain ⟨f1, f2⟩ := fitAll_cons.1 hf
    simp only [updateDef] at h
    split at h
    next =>
      simp only [Except.map] at h
      split at h
      next => cases h
      next y hy =>
        cases h
        exact ⟨ss, _, f1, hy⟩
    next =>
      simp only [Except.map] at h
      split at h
      next => cases h
      next y hy =>
        cases h
        exact updateDef_from f2 hy

theorem safeMigrateAll_aliases {P : FieldInfo → Prop} {Q : FragInfo → Prop} (hM : ∀ f, P f → Means M f)
    {used : Bool × Bool} {into : Option String} {path : MPath} :
    ∀ {other s R : Selections} {al : List (String × Aliases)}, FitAll P Q s → FitAll P Q other →
    safeMigrateAll used into path other s = .ok (R, al) → al = []
  | [], s, R, al, hf, _, h => by
    simp only [safeMigrateAll] at h
    cases h
    rfl
  | (k, items) :: r, s, R, al, hf, ho, h => by
    obtain ⟨o1, o2⟩ := fitAll_cons.1 ho
    simp only [safeMigrateAll] at h
    split at h
    next => cases h
    next s1 al1 h1 =>
      have hA : Adds (fun _ => true) P Q [] (fun ts => (safeMerge used [] items ts 0).map fun q => (q.1, q.2.2)) := by
        intro us R a hf hh
        simp only [Except.map] at hh
        split at hh
        next => cases hh
        next q hq =>
          cases hh
          obtain ⟨x1, _, x3, _, _⟩ := safeMerge_keeps (v := fun _ => true) hM o1 hf hq
          exact ⟨x1, by simp, x3⟩
      obtain ⟨_, _, a3⟩ := updateDef_adds (updateAt_keeps hA path) hf h1
      have hal : al1 = [] := by
        have := updateDef_from (P := P) (Q := Q) hf h1
        obtain ⟨ts, ts', hts, hu⟩ := this
        obtain ⟨ts, ts', hts, hu⟩ := updateAt_from (P := P) (Q := Q) path hts hu
        simp only [Except.map] at hu
        split at hu
        next => cases hu
        next q hq =>
          cases hu
          exact (safeMerge_keeps (v := fun _ => true) hM o1 hts hq).2.2.2.2
      split at h
      next => cases h
      next s2 al2 h2 =>
        cases h
        rw [hal, safeMigrateAll_aliases hM a3 o2 h2]
        rfl

/-! ## Calm steps -/

theorem Calm.fitAny {s : Step} (h : Calm M s) : FitAll (Means M) anyFrag s.output :=
  FitAll.weaken (fun _ h => h) (fun _ _ => trivial) h.2.2.2.2

theorem blind_bare : Blind (Bare M) := by
  intro f g h
  refine ⟨?_, blind_means f g h.2⟩
  unfold mergeOmit
  first | exact h.1 | (split <;> exact h.1)

theorem mergeInputs_calm {force : Bool} {t s : Step} {i : Selections} (ht : Calm M t) (hs : Calm M s)
    (h : mergeInputs force t s = .ok i) : FitAll (Bare M) (fun _ => True) i := by
  have key : ∀ {p r}, migrate s.input p t.input = .ok r → FitAll (Bare M) (fun _ => True) r := fun h =>
    (migrateAll_adds (v := fun _ => true) blind_bare ht.2.2.2.1.2 hs.2.2.2.1.2 h).2.2
  unfold mergeInputs at h
  split at h
  · exact key h
  · split at h
    · split at h
      · exact key h
      · cases h
    · cases h
      exact ht.2.2.2.1.2

theorem takeShared_calm {s : Selections} (h : FitAll (Means M) Free s) : takeShared s = none := by
  unfold takeShared
  split
  next => rfl
  next hn =>
    match hs : sharedAll s with
    | none => rfl
    | some c =>
      exfalso
      simp only [Selections.none, Bool.not_eq_true, List.all_eq_false, List.isEmpty_iff] at hn
      obtain ⟨o, ho, hne⟩ := hn
      obtain ⟨i, hi⟩ := List.exists_mem_of_ne_nil _ hne
      have h1 := sharedAll_mem hs o ho i hi
      have h2 := fit_iff.1 (h o ho) i hi
      match i, h1, h2 with
      | .frag g ss, h1, h2 =>
        simp only [topCond] at h1
        split at h1
        next hg => exact hg.2 h2.1
        next => cases h1
      | .field _ _, h1, _ => simp [topCond] at h1
      | .spread _, h1, _ => simp [topCond] at h1

theorem scopeSteps_calm {t s : Step} (ht : t.cond = (none, none)) (hs : s.cond = (none, none)) :
    scopeSteps t s = .ok (t, s) := by
  unfold scopeSteps condIntoTarget scopeBoth
  simp [ht, hs]

/-- What a step keeps when others are merged into it. -/
structure SameStep (t z : Step) : Prop where
  path : z.path = t.path
  service : z.service = t.service
  entity : z.entity = t.entity

theorem SameStep.refl {t : Step} : SameStep t t := ⟨rfl, rfl, rfl⟩

theorem addRewrites_aliases (rs : List String) : ∀ t : Step,
    (rs.foldl (fun t r => addRewrite r t) t).aliases = t.aliases := by
  induction rs with
  | nil => exact fun _ => rfl
  | cons r rs ih =>
    intro t
    simp only [List.foldl_cons]
    rw [ih]
    unfold addRewrite
    split <;> rfl

theorem migrate_nil {into : Option String} {path : MPath} {o : Selections} {R : Selections} :
    migrateAll into path o [] = .ok R → R = [] := by
  match o with
  | [] =>
    intro h
    simp only [migrateAll] at h
    cases h
    rfl
  | (k, i) :: r =>
    intro h
    simp [migrateAll, addAt, updateDef, Except.map] at h

theorem safeMigrate_nil {used : Bool × Bool} {into : Option String} {path : MPath} {o R : Selections}
    {al : List (String × Aliases)} : safeMigrateAll used into path o [] = .ok (R, al) → R = [] := by
  match o with
  | [] =>
    intro h
    simp only [safeMigrateAll] at h
    cases h
    rfl
  | (k, i) :: r =>
    intro h
    simp [safeMigrateAll, updateDef] at h

theorem mergeSteps_calm {force : Bool} {t s z : Step} (ht : Calm M t) (hs : Calm M s)
    (h : mergeSteps force t s = .ok z) : (Calm M z ∧ SameStep t z ∧ t.path.length ≤ s.path.length) ∧
      ∀ v, Aligned v t.path s.path → ∀ x ∈ z.asked v, x ∈ t.asked v ∨ x ∈ s.asked v := by
  unfold mergeSteps at h
  rw [scopeSteps_calm ht.1 hs.1] at h
  dsimp only at h
  split at h
  next => cases h
  next path hpath =>
    obtain ⟨hlen, rfl⟩ := sliceFrom_ok hpath
    split at h
    next => cases h
    next o al ho =>
      split at h
      next => cases h
      next i hii =>
        cases h
        simp only [safeMigrate] at ho
        obtain ⟨r1, r2, r3, r4⟩ := addRewrites_same s.rewrites t
        have hal := safeMigrateAll_aliases (fun _ h => h) ht.2.2.2.2 hs.2.2.2.2 ho
        have hfit : FitAll (Means M) Free o :=
          (safeMigrateAll_adds (v := fun _ => true) (fun _ h => h) ht.2.2.2.2 hs.2.2.2.2 ho).2.2
        have hlift : ∀ z : Step, z.output = o → liftCond z = z := by
          intro z hz
          unfold liftCond
          split
          next =>
            rw [hz, takeShared_calm hfit]
          next => rfl
        rw [hlift _ rfl]
        refine ⟨⟨⟨?_, ?_, ?_, ?_, hfit⟩, ⟨r1, r3, r4⟩, hlen⟩, ?_⟩
        · dsimp only
          rw [r2, ht.1]
        · dsimp only
          rw [ht.2.1, hal]
          rfl
        · dsimp only
          rw [r3]
          intro hstar
          rw [ht.2.2.1 hstar] at ho
          exact safeMigrate_nil ho
        · dsimp only
          rw [r1]
          exact ⟨ht.2.2.2.1.1, mergeInputs_calm ht hs hii⟩
        · intro v hal x hx
          obtain ⟨q1, q2, q3⟩ := mem_stepAsked.1 hx
          dsimp only at q1 q2 q3
          rw [r1] at q2 q3
          obtain ⟨y, hy, rfl⟩ := mem_under.1 q3
          rcases safeMigrateAll_within (v := v) (fun _ h => h) ht.2.2.2.2 hs.2.2.2.2 ho y hy with h1 | h1
          · exact .inl (mem_stepAsked.2 ⟨by rw [ht.1]; rfl, q2, mem_under.2 ⟨y, h1, rfl⟩⟩)
          · unfold atPath at h1
            split at h1
            next hp =>
              obtain ⟨w, hw, rfl⟩ := mem_under.1 h1
              refine .inr (mem_stepAsked.2 ⟨by rw [hs.1]; rfl, hal.down q2 hp, mem_under.2 ⟨w, hw, ?_⟩⟩)
              rw [hal.keys]
              simp
            next => cases h1

/-! ## Graphs -/

theorem get_ok {g : Graph} {n : Nat} {s : Step} : g.get n = .ok s ↔ g.steps[n]? = some (some s) := by
  unfold Graph.get
  split
  next x hx => simp [hx]
  next h =>
    constructor
    · intro h'
      cases h'
    · intro h'
      exact absurd h' (h s)

theorem mem_all {g : Graph} {s : Step} : s ∈ g.all ↔ ∃ n, g.get n = .ok s := by
  simp only [Graph.all, List.mem_filterMap, id, exists_eq_right, get_ok]
  rw [List.mem_iff_getElem?]

theorem mem_sent {g : Graph} {x : String × List String × Ask} :
    x ∈ g.sent v ↔ ∃ n s, g.get n = .ok s ∧ s.service = x.1 ∧ x.2 ∈ s.asked v := by
  simp only [Graph.sent, List.mem_flatMap, List.mem_map, mem_all]
  constructor
  · rintro ⟨s, ⟨n, hn⟩, y, hy, rfl⟩
    exact ⟨n, s, hn, rfl, hy⟩
  · rintro ⟨n, s, hn, h1, h2⟩
    exact ⟨s, ⟨n, hn⟩, x.2, h2, by rw [h1]⟩

theorem mem_graphAsked {g : Graph} {x : List String × Ask} :
    x ∈ g.asked v ↔ ∃ n s, g.get n = .ok s ∧ x ∈ s.asked v := by
  simp only [Graph.asked, List.mem_flatMap, mem_all]
  constructor
  · rintro ⟨s, ⟨n, hn⟩, h⟩
    exact ⟨n, s, hn, h⟩
  · rintro ⟨n, s, hn, h⟩
    exact ⟨s, ⟨n, hn⟩, h⟩

theorem allCalm_get {g : Graph} (h : AllCalm M g) {n : Nat} {s : Step} (hs : g.get n = .ok s) : Calm M s :=
  h s (mem_all.2 ⟨n, hs⟩)

/-- The same is asked for, of the same subgraphs. -/
def Sends (v : Vars) (g g' : Graph) : Prop := ∀ x, x ∈ g.sent v ↔ x ∈ g'.sent v

/-- The same is asked for. -/
def Asks (v : Vars) (g g' : Graph) : Prop := ∀ x, x ∈ g.asked v ↔ x ∈ g'.asked v

theorem Sends.asks {g g' : Graph} (h : Sends v g g') : Asks v g g' := by
  intro x
  constructor
  · intro hx
    obtain ⟨n, s, hs, hx⟩ := mem_graphAsked.1 hx
    obtain ⟨n', s', hs', _, hx'⟩ := mem_sent.1 ((h (s.service, x)).1 (mem_sent.2 ⟨n, s, hs, rfl, hx⟩))
    exact mem_graphAsked.2 ⟨n', s', hs', hx'⟩
  · intro hx
    obtain ⟨n, s, hs, hx⟩ := mem_graphAsked.1 hx
    obtain ⟨n', s', hs', _, hx'⟩ := mem_sent.1 ((h (s.service, x)).2 (mem_sent.2 ⟨n, s, hs, rfl, hx⟩))
    exact mem_graphAsked.2 ⟨n', s', hs', hx'⟩

theorem connect_steps {g : Graph} {a b : Nat} : (g.connect a b).steps = g.steps := by
  unfold Graph.connect
  split <;> rfl

theorem connect_root {g : Graph} {a b : Nat} : (g.connect a b).root = g.root := by
  unfold Graph.connect
  split <;> rfl

theorem connect_edges {g : Graph} {a b : Nat} {e : Nat × Nat} :
    e ∈ (g.connect a b).edges ↔ e = (a, b) ∨ e ∈ g.edges := by
  unfold Graph.connect
  split
  next h =>
    simp only [List.contains_eq_mem, decide_eq_true_eq] at h
    constructor
    · exact .inr
    · rintro (rfl | h')
      · exact h
      · exact h'
  next => simp

theorem connects_steps {α : Type} (f : α → Nat × Nat) (l : List α) : ∀ g : Graph,
    (l.foldl (fun g x => g.connect (f x).1 (f x).2) g).steps = g.steps := by
  induction l with
  | nil => exact fun _ => rfl
  | cons a r ih =>
    intro g
    rw [List.foldl_cons, ih, connect_steps]

theorem connects_root {α : Type} (f : α → Nat × Nat) (l : List α) : ∀ g : Graph,
    (l.foldl (fun g x => g.connect (f x).1 (f x).2) g).root = g.root := by
  induction l with
  | nil => exact fun _ => rfl
  | cons a r ih =>
    intro g
    rw [List.foldl_cons, ih, connect_root]

theorem connects_edges {α : Type} (f : α → Nat × Nat) (l : List α) : ∀ (g : Graph) (e : Nat × Nat),
    e ∈ (l.foldl (fun g x => g.connect (f x).1 (f x).2) g).edges ↔ e ∈ g.edges ∨ e ∈ l.map f := by
  induction l with
  | nil => simp
  | cons a r ih =>
    intro g e
    rw [List.foldl_cons, ih, connect_edges]
    simp only [List.map_cons, List.mem_cons]
    constructor
    · rintro ((h | h) | h)
      · exact .inr (.inl h)
      · exact .inl h
      · exact .inr (.inr h)
    · rintro (h | h | h)
      · exact .inl (.inr h)
      · exact .inl (.inl h)
      · exact .inr h

theorem rewire_steps {t s : Nat} {g : Graph} : (rewire t s g).steps = g.steps.set s none := by
  unfold rewire Graph.remove
  dsimp only
  rw [connects_steps (fun p => (p, t)), connects_steps (fun c => (t, c))]

theorem rewire_root {t s : Nat} {g : Graph} : (rewire t s g).root = g.root := by
  unfold rewire Graph.remove
  dsimp only
  rw [connects_root (fun p => (p, t)), connects_root (fun c => (t, c))]

theorem mem_children {g : Graph} {a b : Nat} : b ∈ g.children a ↔ (a, b) ∈ g.edges := by
  simp only [Graph.children, List.mem_map, List.mem_filter, beq_iff_eq]
  constructor
  · rintro ⟨⟨x, y⟩, ⟨h, rfl⟩, rfl⟩
    exact h
  · intro h
    exact ⟨_, ⟨h, rfl⟩, rfl⟩

theorem mem_parents {g : Graph} {a b : Nat} : a ∈ g.parents b ↔ (a, b) ∈ g.edges := by
  simp only [Graph.parents, List.mem_map, List.mem_filter, beq_iff_eq]
  constructor
  · rintro ⟨⟨x, y⟩, ⟨h, rfl⟩, rfl⟩
    exact h
  · intro h
    exact ⟨_, ⟨h, rfl⟩, rfl⟩

theorem rewire_edges {t s a b : Nat} {g : Graph} : (a, b) ∈ (rewire t s g).edges ↔
    a ≠ s ∧ b ≠ s ∧ ((a, b) ∈ g.edges ∨ a = t ∧ (s, b) ∈ g.edges ∨ b = t ∧ a ≠ t ∧ (a, s) ∈ g.edges) := by
  unfold rewire Graph.remove
  dsimp only
  rw [List.mem_filter, connects_edges (fun p => (p, t)), connects_edges (fun c => (t, c))]
  simp only [List.mem_map, List.mem_filter, mem_children, mem_parents, Prod.mk.injEq, bne_iff_ne, ne_eq,
    Bool.and_eq_true, Bool.not_eq_true', beq_eq_false_iff_ne]
  constructor
  · rintro ⟨(h | ⟨c, hc, rfl, rfl⟩) | ⟨p, ⟨hp, hpt⟩, rfl, rfl⟩, h1, h2⟩
    · exact ⟨h1, h2, .inl h⟩
    · exact ⟨h1, h2, .inr (.inl ⟨rfl, hc⟩)⟩
    · exact ⟨h1, h2, .inr (.inr ⟨rfl, hpt, hp⟩)⟩
  · rintro ⟨h1, h2, h | ⟨rfl, h⟩ | ⟨rfl, hne, h⟩⟩
    · exact ⟨.inl (.inl h), h1, h2⟩
    · exact ⟨.inl (.inr ⟨b, h, rfl, rfl⟩), h1, h2⟩
    · exact ⟨.inr ⟨a, ⟨h, hne⟩, rfl, rfl⟩, h1, h2⟩

theorem getPair_ok {g : Graph} {a b : Nat} {x y : Step} (h : getPair g a b = .ok (x, y)) :
    a ≠ b ∧ g.get a = .ok x ∧ g.get b = .ok y := by
  unfold getPair at h
  split at h
  next => cases h
  next hne =>
    split at h
    next => cases h
    next => cases h
    next x' y' h1 h2 =>
      cases h
      exact ⟨hne, h1, h2⟩

/-- The steps after one is merged into another. -/
theorem rewire_get {g : Graph} {a b : Nat} {x z : Step} (hne : a ≠ b) (ha : g.get a = .ok x) (n : Nat) :
    (rewire a b (g.set a z)).get n = if n = b then .error (.missingStep n) else if n = a then .ok z else g.get n := by
  have hlt : a < g.steps.length := by
    have := get_ok.1 ha
    exact (List.getElem?_eq_some_iff.1 this).1
  unfold Graph.get
  rw [rewire_steps]
  simp only [Graph.set]
  by_cases h1 : n = b
  · subst h1
    rw [if_pos rfl]
    simp only [List.getElem?_set]
    split
    next s hs =>
      split at hs
      · split at hs <;> cases hs
      · rename_i h
        exact absurd trivial h
    next => rfl
  · rw [if_neg h1, List.getElem?_set, if_neg (fun h => h1 h.symm), List.getElem?_set]
    by_cases h2 : n = a
    · subst h2
      simp [hlt]
    · rw [if_neg (fun h => h2 h.symm), if_neg h2]

/-- Where the steps are, and of which subgraphs. -/
abbrev Tags := Nat → MPath × String

/-- The steps are as the tags say. -/
def Tagged (D : Tags) (g : Graph) : Prop := ∀ n s, g.get n = .ok s → D n = (s.path, s.service)

/-- A step may be merged into another: it is of the same subgraph, and further down. -/
def Le (D : Tags) (a b : Nat) : Prop := Below (D a).1 (D b).1 ∧ (D a).2 = (D b).2

theorem Below.trans {p q r : MPath} (h : Below p q) (h' : Below q r) : Below p r := by
  refine ⟨Nat.le_trans h.1 h'.1, ?_⟩
  have := h.2
  rw [← h'.2, List.take_take, Nat.min_eq_left h.1] at this
  exact this

theorem Below.of_le {p q r : MPath} (h : Below p r) (h' : Below q r) (hl : p.length ≤ q.length) : Below p q := by
  refine ⟨hl, ?_⟩
  rw [← h'.2, List.take_take, Nat.min_eq_left hl]
  exact h.2

theorem Le.refl {D : Tags} {a : Nat} : Le D a a := ⟨Below.refl, rfl⟩

theorem Le.trans {D : Tags} {a b c : Nat} (h : Le D a b) (h' : Le D b c) : Le D a c :=
  ⟨h.1.trans h'.1, h.2.trans h'.2⟩

/-- Edges are between steps of which one is below the other. -/
def Edged (D : Tags) (g : Graph) : Prop :=
  ∀ a b, (a, b) ∈ g.edges → Below (D a).1 (D b).1 ∨ Below (D b).1 (D a).1

/-- All steps but that at the root wait for another one. -/
def Fed (g : Graph) : Prop := ∀ n s, g.get n = .ok s → s.service ≠ "*" → ∃ p, (p, n) ∈ g.edges

/-- What the passes keep. -/
structure Good (M : Meaning) (v : Vars) (D : Tags) (g g' : Graph) : Prop where
  calm : AllCalm M g'
  tags : Tagged D g'
  sends : Sends v g g'
  edged : Edged D g → Edged D g'
  fed : Fed g → Fed g'

theorem Good.refl {D : Tags} {g : Graph} (h : AllCalm M g) (ht : Tagged D g) : Good M v D g g :=
  ⟨h, ht, fun _ => Iff.rfl, id, id⟩

theorem Good.trans {D : Tags} {g g' g'' : Graph} (h : Good M v D g g') (h' : Good M v D g' g'') :
    Good M v D g g'' :=
  ⟨h'.calm, h'.tags, fun x => (h.sends x).trans (h'.sends x), fun x => h'.edged (h.edged x),
    fun x => h'.fed (h.fed x)⟩

theorem Below.comparable {p q r : MPath} (h : Below p r) (h' : Below q r) : Below p q ∨ Below q p := by
  rcases Nat.le_total p.length q.length with hl | hl
  · exact .inl (h.of_le h' hl)
  · exact .inr (h'.of_le h hl)

theorem rewire_edged {D : Tags} {a b : Nat} {g : Graph} (hab : Below (D a).1 (D b).1) (h : Edged D g) :
    Edged D (rewire a b g) := by
  intro x y hxy
  obtain ⟨_, _, h1 | ⟨rfl, h1⟩ | ⟨rfl, _, h1⟩⟩ := rewire_edges.1 hxy
  · exact h x y h1
  · rcases h b y h1 with h2 | h2
    · exact .inl (hab.trans h2)
    · exact hab.comparable h2
  · rcases h x b h1 with h2 | h2
    · exact h2.comparable hab
    · exact .inr (hab.trans h2)

theorem rewire_parent {a b n : Nat} {g : Graph} (hab : a ≠ b) (hn : n ≠ b) (h : ∃ p, (p, n) ∈ g.edges) :
    ∃ p, (p, n) ∈ (rewire a b g).edges := by
  obtain ⟨p, hp⟩ := h
  by_cases hpb : p = b
  · subst hpb
    exact ⟨a, rewire_edges.2 ⟨hab, hn, .inr (.inl ⟨rfl, hp⟩)⟩⟩
  · exact ⟨p, rewire_edges.2 ⟨hpb, hn, .inl hp⟩⟩

theorem rewire_fed {a b : Nat} {g : Graph} {x z : Step} (hab : a ≠ b) (hx : g.get a = .ok x)
    (hz : z.service = x.service) (h : Fed g) : Fed (rewire a b (g.set a z)) := by
  intro n s hs hsv
  rw [rewire_get hab hx] at hs
  split at hs
  next => cases hs
  next hn =>
    refine rewire_parent (g := g.set a z) hab hn ?_
    split at hs
    next ha =>
      subst ha
      cases hs
      exact h n x hx (hz ▸ hsv)
    next => exact h n s hs hsv

theorem set_performMerge {force : Bool} {a b : Nat} {g g' : Graph} (h : performMerge force a b g = .ok g') :
    ∃ x y z, a ≠ b ∧ g.get a = .ok x ∧ g.get b = .ok y ∧ mergeSteps force x y = .ok z ∧
      g' = rewire a b (g.set a z) := by
  unfold performMerge at h
  split at h
  next => cases h
  next x y hp =>
    obtain ⟨hne, hx, hy⟩ := getPair_ok hp
    split at h
    next => cases h
    next z hz =>
      cases h
      exact ⟨x, y, z, hne, hx, hy, hz, rfl⟩

/-- One merge. -/
theorem performMerge_asked {force : Bool} {a b : Nat} {g g' : Graph} {x y : Step} (hg : AllCalm M g)
    (hx : g.get a = .ok x) (hy : g.get b = .ok y) (hal : Aligned v x.path y.path) (hsv : x.service = y.service)
    (h : performMerge force a b g = .ok g') :
    AllCalm M g' ∧ Sends v g g' ∧
      ∃ z, SameStep x z ∧ ∀ n, g'.get n = if n = b then .error (.missingStep n) else if n = a then .ok z else g.get n := by
  obtain ⟨x', y', z, hne, hx', hy', hz, rfl⟩ := set_performMerge h
  rw [hx] at hx'
  rw [hy] at hy'
  cases hx'
  cases hy'
  have cx := allCalm_get hg hx
  have cy := allCalm_get hg hy
  obtain ⟨⟨cz, sz, _⟩, k3⟩ := mergeSteps_calm cx cy hz
  obtain ⟨k1, k2⟩ := mergeSteps_asked (v := v) blind_means (fun _ h => h) cx.fitAny cy.fitAny
    (fun h => absurd cy.1 h) (.inr cx.1) hal hz
  have hget := fun n => rewire_get (z := z) hne hx n
  refine ⟨?_, ?_, z, sz, hget⟩
  · intro s hs
    obtain ⟨n, hn⟩ := mem_all.1 hs
    rw [hget] at hn
    split at hn
    · cases hn
    · split at hn
      · cases hn
        exact cz
      · exact allCalm_get hg hn
  · intro w
    constructor
    · intro hw
      obtain ⟨n, s, hs, h1, h2⟩ := mem_sent.1 hw
      by_cases hb : n = b
      · subst hb
        rw [hy] at hs
        cases hs
        refine mem_sent.2 ⟨a, z, by rw [hget, if_neg hne, if_pos rfl], ?_, k2 _ h2⟩
        rw [sz.service, hsv, h1]
      · by_cases ha : n = a
        · subst ha
          rw [hx] at hs
          cases hs
          refine mem_sent.2 ⟨n, z, by rw [hget, if_neg hne, if_pos rfl], ?_, k1 _ h2⟩
          rw [sz.service, h1]
        · exact mem_sent.2 ⟨n, s, by rw [hget, if_neg hb, if_neg ha]; exact hs, h1, h2⟩
    · intro hw
      obtain ⟨n, s, hs, h1, h2⟩ := mem_sent.1 hw
      rw [hget] at hs
      split at hs
      · cases hs
      · split at hs
        · cases hs
          rw [sz.service] at h1
          rcases k3 v hal _ h2 with h3 | h3
          · exact mem_sent.2 ⟨a, x, hx, h1, h3⟩
          · exact mem_sent.2 ⟨b, y, hy, hsv ▸ h1, h3⟩
        · exact mem_sent.2 ⟨n, s, hs, h1, h2⟩

/-- One merge of steps that both are above a third. -/
theorem performMerge_good {D : Tags} {force : Bool} {a b c : Nat} {g g' : Graph} (hg : AllCalm M g)
    (hD : Tagged D g) (ha : Le D a c) (hb : Le D b c) (h : performMerge force a b g = .ok g') :
    Good M v D g g' ∧ Le D a b := by
  obtain ⟨x, y, z, hne, hx, hy, hz, rfl⟩ := set_performMerge h
  have hl := (mergeSteps_calm (allCalm_get hg hx) (allCalm_get hg hy) hz).1.2.2
  have hab : Le D a b := by
    refine ⟨ha.1.of_le hb.1 ?_, ha.2.trans hb.2.symm⟩
    rw [hD a x hx, hD b y hy]
    exact hl
  have hal : Below x.path y.path := by
    have := hab.1
    rwa [hD a x hx, hD b y hy] at this
  have hsv : x.service = y.service := by
    have := hab.2
    rwa [hD a x hx, hD b y hy] at this
  obtain ⟨k1, k2, z', sz, hget⟩ := performMerge_asked (v := v) hg hx hy hal.aligned hsv h
  have sz' := (mergeSteps_calm (allCalm_get hg hx) (allCalm_get hg hy) hz).1.2.1
  refine ⟨⟨k1, ?_, k2, fun he => rewire_edged hab.1 he, rewire_fed hne hx sz'.service⟩, hab⟩
  intro n s hs
  rw [hget] at hs
  split at hs
  · cases hs
  · split at hs
    · rename_i hn
      subst hn
      cases hs
      rw [hD n x hx, sz.path, sz.service]
    · exact hD n s hs

/-- What stands for a node is above it. -/
def RepOk (D : Tags) (rep : Rep) : Prop := ∀ k m, rep.lookup k = some m → Le D m k

theorem RepOk.cons {D : Tags} {rep : Rep} {k m : Nat} (h : RepOk D rep) (hkm : Le D m k) :
    RepOk D ((k, m) :: rep) := by
  intro a b hab
  simp only [List.lookup_cons] at hab
  split at hab
  next hak =>
    simp only [beq_iff_eq] at hak
    cases hab
    subst hak
    exact hkm
  next => exact h a b hab

theorem RepOk.same {D : Tags} : ∀ {l : List Nat} {rep : Rep}, RepOk D rep →
    RepOk D (l.map (fun c => (c, c)) ++ rep)
  | [], _, h => h
  | _ :: _, _, h => (RepOk.same h).cons Le.refl

theorem repOf_ok {D : Tags} : ∀ (pairs : List (Nat × Nat)), RepOk D (repOf pairs)
  | [] => by intro k m h; simp [repOf] at h
  | p :: r => by
    have : repOf (p :: r) = (p.1, p.1) :: (p.2, p.2) :: repOf r := by simp [repOf]
    rw [this]
    exact ((repOf_ok r).cons Le.refl).cons Le.refl

theorem runMerges_good {D : Tags} : ∀ {pairs : List (Nat × Nat)} {rep rep' : Rep} {g g' : Graph},
    AllCalm M g → Tagged D g → RepOk D rep → (∀ p ∈ pairs, Le D p.1 p.2) →
    runMerges (performMerge false) pairs rep g = .ok (rep', g') → Good M v D g g' ∧ RepOk D rep'
  | [], rep, rep', g, g', hg, hD, hr, _, h => by
    simp only [runMerges] at h
    cases h
    exact ⟨Good.refl hg hD, hr⟩
  | (a, b) :: r, rep, rep', g, g', hg, hD, hr, hp, h => by
    simp only [runMerges] at h
    split at h
    next a' b' ha hb =>
      split at h
      next => cases h
      next g1 h1 =>
        have hab : Le D a b := hp (a, b) (by simp)
        obtain ⟨k1, k2⟩ := performMerge_good (v := v) hg hD ((hr a a' ha).trans hab) (hr b b' hb) h1
        obtain ⟨j1, j2⟩ := runMerges_good k1.calm k1.tags (hr.cons k2)
          (fun p hp' => hp p (List.mem_cons_of_mem _ hp')) h
        exact ⟨k1.trans j1, j2⟩
    next => cases h

theorem startsWith_below {p q : MPath} (h : startsWith p q = true) : Below q p := by
  simp only [startsWith, decide_eq_true_eq] at h
  refine ⟨?_, h⟩
  have := congrArg List.length h
  simp only [List.length_take] at this
  omega

theorem canMerge_le {D : Tags} {g : Graph} {a b : Nat} (hD : Tagged D g) (h : canMerge g a b = true) :
    Le D a b := by
  unfold canMerge at h
  split at h
  next x y hx hy =>
    simp only [Bool.and_eq_true, beq_iff_eq] at h
    obtain ⟨⟨⟨⟨⟨_, h1⟩, _⟩, h2⟩, _⟩, _⟩ := h
    unfold Le
    rw [hD a x hx, hD b y hy]
    refine ⟨?_, h1⟩
    split at h2
    · simp only [decide_eq_true_eq] at h2
      dsimp only
      rw [h2]
      exact Below.refl
    · exact startsWith_below h2
  next => cases h

theorem downLoop_good {D : Tags} : ∀ (n : Nat) {q : List Nat} {rep : Rep} {g g' : Graph},
    AllCalm M g → Tagged D g → RepOk D rep →
    downLoop canMerge (performMerge false) n q rep g = .ok g' → Good M v D g g'
  | 0, _, _, _, _, _, _, _, h => by simp [downLoop] at h
  | n + 1, [], rep, g, g', hg, hD, _, h => by
    simp only [downLoop] at h
    cases h
    exact Good.refl hg hD
  | n + 1, p :: q, rep, g, g', hg, hD, hr, h => by
    simp only [downLoop] at h
    split at h
    next => cases h
    next p' hp' =>
      split at h
      next => cases h
      next =>
        split at h
        next => cases h
        next rep1 g1 h1 =>
          obtain ⟨k1, k2⟩ := runMerges_good (v := v) hg hD (RepOk.same (hr.cons Le.refl)) (by
            intro x hx
            obtain ⟨c, hc, rfl⟩ := List.mem_map.1 hx
            exact canMerge_le hD (List.mem_filter.1 hc).2) h1
          exact k1.trans (downLoop_good n k1.calm k1.tags k2 h)

/-- The tags of a graph. -/
def tagsOf (g : Graph) : Tags := fun n =>
  match g.get n with
  | .ok s => (s.path, s.service)
  | .error _ => ([], "")

theorem tagged {g : Graph} : Tagged (tagsOf g) g := by
  intro n s h
  unfold tagsOf
  rw [h]

theorem repOk_single {D : Tags} {r : Nat} : RepOk D [(r, r)] :=
  RepOk.cons (rep := []) (fun k m h => by simp at h) Le.refl

theorem mergeChildren_good {D : Tags} {fuel : Nat} {g g' : Graph} (hg : AllCalm M g) (hD : Tagged D g)
    (h : mergeChildren fuel g = .ok g') : Good M v D g g' := by
  unfold mergeChildren at h
  split at h
  next => cases h
  next r hr => exact downLoop_good fuel hg hD repOk_single h

theorem siblingPairs_le {D : Tags} {g : Graph} (hD : Tagged D g) : ∀ {l : List Nat},
    ∀ p ∈ siblingPairs g l, Le D p.1 p.2
  | [], p, hp => by simp [siblingPairs] at hp
  | a :: r, p, hp => by
    simp only [siblingPairs] at hp
    split at hp
    next b hb =>
      rcases List.mem_cons.1 hp with rfl | hp
      · have := List.find?_some hb
        simp only [canSiblings, Bool.and_eq_true] at this
        exact canMerge_le hD this.2
      · exact siblingPairs_le hD p hp
    next => exact siblingPairs_le hD p hp

theorem siblingLoop_good {D : Tags} : ∀ (n : Nat) {q : List Nat} {g g' : Graph},
    AllCalm M g → Tagged D g → siblingLoop n q g = .ok g' → Good M v D g g'
  | 0, _, _, _, _, _, h => by simp [siblingLoop] at h
  | n + 1, [], g, g', hg, hD, h => by
    simp only [siblingLoop] at h
    cases h
    exact Good.refl hg hD
  | n + 1, p :: q, g, g', hg, hD, h => by
    simp only [siblingLoop] at h
    split at h
    next => cases h
    next rep1 g1 h1 =>
      obtain ⟨k1, _⟩ := runMerges_good (v := v) hg hD (repOf_ok _) (siblingPairs_le hD) h1
      exact k1.trans (siblingLoop_good n k1.calm k1.tags h)

theorem mergeSiblings_good {D : Tags} {fuel : Nat} {g g' : Graph} (hg : AllCalm M g) (hD : Tagged D g)
    (h : mergeSiblings fuel g = .ok g') : Good M v D g g' := by
  unfold mergeSiblings at h
  split at h
  next => cases h
  next r hr => exact siblingLoop_good fuel hg hD h

theorem canLeafs_le {D : Tags} {g : Graph} {a b : Nat} (hD : Tagged D g) (h : canLeafs g a b = true) :
    Le D a b := by
  unfold canLeafs at h
  split at h
  next x y hx hy =>
    simp only [Bool.and_eq_true, beq_iff_eq, decide_eq_true_eq] at h
    obtain ⟨⟨⟨⟨⟨⟨⟨⟨_, h1⟩, h2⟩, _⟩, _⟩, _⟩, _⟩, _⟩, _⟩ := h
    unfold Le
    rw [hD a x hx, hD b y hy, h1]
    dsimp only
    rw [h2]
    exact ⟨Below.refl, rfl⟩
  next => cases h

theorem findLeaf_some {g : Graph} {a b : Nat} (h : findLeaf g = some (a, b)) : canLeafs g a b = true := by
  unfold findLeaf at h
  obtain ⟨x, _, hx⟩ := List.exists_of_findSome?_eq_some h
  simp only [Option.map_eq_some_iff, Prod.mk.injEq] at hx
  obtain ⟨y, hy, rfl, rfl⟩ := hx
  exact List.find?_some hy

theorem mergeLeafs_good {D : Tags} : ∀ (n : Nat) {g g' : Graph},
    AllCalm M g → Tagged D g → mergeLeafs n g = .ok g' → Good M v D g g'
  | 0, _, _, _, _, h => by simp [mergeLeafs] at h
  | n + 1, g, g', hg, hD, h => by
    simp only [mergeLeafs] at h
    split at h
    next =>
      cases h
      exact Good.refl hg hD
    next a b hf =>
      split at h
      next => cases h
      next g1 h1 =>
        obtain ⟨k1, _⟩ := performMerge_good (v := v) hg hD (canLeafs_le hD (findLeaf_some hf)) Le.refl h1
        exact k1.trans (mergeLeafs_good n k1.calm k1.tags h)

end Verif.Fetch
