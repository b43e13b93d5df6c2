import Verif.Normalize.Lemmas
/-!
# Normalization: spreads, flattening and type expansion keep the selected paths
-/
namespace Verif.Normalize

variable {S : Schema} {σ : Name → Bool} {frs : List Frag}

/-! ## Loops -/

theorem concatM_cons {α β : Type} {f : α → Except Err (List β)} {a : α} {l : List α} {r : List β}
    (h : concatM f (a :: l) = .ok r) : ∃ b c, f a = .ok b ∧ concatM f l = .ok c ∧ r = b ++ c := by
  unfold concatM at h
  cases hf : f a with
  | error e => rw [hf] at h; cases h
  | ok b =>
    rw [hf] at h
    cases hc : concatM f l with
    | error e =>
      rw [hc] at h
      cases h
    | ok c =>
      rw [hc] at h
      simp only [bind, Except.bind, Except.ok.injEq] at h
      exact ⟨b, c, rfl, rfl, h.symm⟩

theorem concatM_mem {α β : Type} {f : α → Except Err (List β)} : ∀ {l : List α} {r : List β},
    concatM f l = .ok r → ∀ x, (x ∈ r ↔ ∃ a ∈ l, ∃ y, f a = .ok y ∧ x ∈ y)
  | [], r, h, x => by
    simp only [concatM, Except.ok.injEq] at h
    subst h
    simp
  | a :: l, r, h, x => by
    obtain ⟨b, c, hb, hc, rfl⟩ := concatM_cons h
    rw [List.mem_append, concatM_mem hc x]
    constructor
    · rintro (hx | ⟨a', ha, y, hy, hx⟩)
      · exact ⟨a, by simp, b, hb, hx⟩
      · exact ⟨a', by simp [ha], y, hy, hx⟩
    · rintro ⟨a', ha, y, hy, hx⟩
      rcases List.mem_cons.1 ha with rfl | ha
      · rw [hb] at hy
        cases hy
        exact .inl hx
      · exact .inr ⟨a', ha, y, hy, hx⟩

theorem concatM_all {α β : Type} {f : α → Except Err (List β)} : ∀ {l : List α} {r : List β},
    concatM f l = .ok r → ∀ a ∈ l, ∃ y, f a = .ok y
  | [], r, h, a, ha => by cases ha
  | b :: l, r, h, a, ha => by
    obtain ⟨y, c, hb, hc, rfl⟩ := concatM_cons h
    rcases List.mem_cons.1 ha with rfl | ha
    · exact ⟨y, hb⟩
    · exact concatM_all hc a ha

theorem concatM_picks {α : Type} {f : α → Except Err (List Sel)} {l : List α} {r : List Sel}
    (h : concatM f l = .ok r) {x : Name × Label} {p : Path} :
    Picks S σ frs r (x :: p) ↔ ∃ a ∈ l, ∃ y, f a = .ok y ∧ Picks S σ frs y (x :: p) := by
  rw [picks_exists]
  constructor
  · rintro ⟨z, hz, hp⟩
    obtain ⟨a, ha, y, hy, hzy⟩ := (concatM_mem h z).1 hz
    exact ⟨a, ha, y, hy, picks_mono (by simpa using hzy) hp⟩
  · rintro ⟨a, ha, y, hy, hp⟩
    obtain ⟨z, hz, hp⟩ := picks_exists.1 hp
    exact ⟨z, (concatM_mem h z).2 ⟨a, ha, y, hy, hz⟩, hp⟩

/-- A loop over the items of a set, each item kept in meaning. -/
theorem concatM_items {f : Sel → Except Err (List Sel)} {s r : List Sel} {frs' : List Frag}
    {x : Name × Label} {p : Path} (h : concatM f s = .ok r)
    (hf : ∀ a ∈ s, ∀ y, f a = .ok y → (Picks S σ frs [a] (x :: p) ↔ Picks S σ frs' y (x :: p))) :
    Picks S σ frs s (x :: p) ↔ Picks S σ frs' r (x :: p) := by
  rw [concatM_picks h, picks_exists]
  constructor
  · rintro ⟨a, ha, hp⟩
    obtain ⟨y, hy⟩ := concatM_all h a ha
    exact ⟨a, ha, y, hy, (hf a ha y hy).1 hp⟩
  · rintro ⟨a, ha, y, hy, hp⟩
    exact ⟨a, ha, (hf a ha y hy).2 hp⟩

theorem concatM_allOk {α : Type} {D : List Dir → Prop} {f : α → Except Err (List Sel)}
    {l : List α} {r : List Sel} (h : concatM f l = .ok r)
    (hf : ∀ a ∈ l, ∀ y, f a = .ok y → AllOk D y) : AllOk D r := by
  intro x hx
  obtain ⟨a, ha, y, hy, hxy⟩ := (concatM_mem h x).1 hx
  exact hf a ha y hy x hxy

theorem bind_ok {α β : Type} {a : Except Err α} {f : α → Except Err β} {b : β}
    (h : (a >>= f) = .ok b) : ∃ x, a = .ok x ∧ f x = .ok b := by
  cases a with
  | error e => cases h
  | ok x => exact ⟨x, rfl, h⟩

/-! ## inline_fragment_spreads -/

theorem fold_fragMap : ∀ (l m : List Frag), (l.map Frag.name).Nodup →
    (∀ f ∈ l, ∀ g ∈ m, g.name ≠ f.name) →
    ∀ f, f ∈ l.foldl (fun m f => f :: m.filter (fun g => g.name != f.name)) m ↔ f ∈ l ∨ f ∈ m
  | [], m, _, _, f => by simp
  | a :: l, m, hn, hd, f => by
    have hfil : m.filter (fun g => g.name != a.name) = m := by
      rw [List.filter_eq_self]
      intro g hg
      simpa using hd a (by simp) g hg
    rw [List.foldl_cons, hfil]
    obtain ⟨hn1, hn2⟩ := List.nodup_cons.1 hn
    rw [fold_fragMap l (a :: m) hn2]
    · simp only [List.mem_cons]
      constructor
      · rintro (h | h | h) <;> simp [h]
      · rintro ((h | h) | h) <;> simp [h]
    · intro b hb g hg
      rcases List.mem_cons.1 hg with rfl | hg
      · intro h
        exact hn1 (List.mem_map.2 ⟨b, hb, h.symm⟩)
      · exact hd b (by simp [hb]) g hg

theorem mem_fragMap (h : (frs.map Frag.name).Nodup) (f : Frag) : f ∈ fragMap frs ↔ f ∈ frs := by
  unfold fragMap
  rw [fold_fragMap frs [] h (by simp)]
  simp

theorem getFrag_iff (h : (frs.map Frag.name).Nodup) {n : Name} {f : Frag} :
    getFrag (fragMap frs) n = some f → f ∈ frs ∧ f.name = n := by
  intro hg
  unfold getFrag at hg
  have h1 := List.mem_of_find?_eq_some hg
  have h2 := List.find?_some hg
  exact ⟨(mem_fragMap h f).1 h1, by simpa using h2⟩

theorem frag_unique : ∀ {l : List Frag}, (l.map Frag.name).Nodup → ∀ {f g : Frag}, f ∈ l → g ∈ l →
    f.name = g.name → f = g
  | [], _, f, g, hf, _, _ => by cases hf
  | a :: l, hn, f, g, hf, hg, h => by
    obtain ⟨h1, h2⟩ := List.nodup_cons.1 hn
    rcases List.mem_cons.1 hf with hfe | hf <;> rcases List.mem_cons.1 hg with hge | hg
    · rw [hfe, hge]
    · exact absurd (List.mem_map.2 ⟨g, hg, by rw [← h, hfe]⟩) h1
    · exact absurd (List.mem_map.2 ⟨f, hf, by rw [h, hge]⟩) h1
    · exact frag_unique h2 hf hg h

/-- A spread of a fragment, with the fragment looked up. -/
theorem picks_spread_of (h : (frs.map Frag.name).Nodup) {d : Frag} (hd : d ∈ frs) {ds : List Dir}
    {T : Name} {l : Label} {p : Path} :
    Picks S σ frs [.spread d.name ds] ((T, l) :: p) ↔
      Included σ ds ∧ IsPossible S T d.cond ∧ Picks S σ frs d.sels ((T, l) :: p) := by
  rw [picks_spread]
  constructor
  · rintro ⟨hi, f, hf, hn, hc, hp⟩
    have := frag_unique h hf hd hn
    subst this
    exact ⟨hi, hc, hp⟩
  · rintro ⟨hi, hc, hp⟩
    exact ⟨hi, d, hd, rfl, hc, hp⟩

theorem onlySpread_eq {s : List Sel} {n : Name} {ds : List Dir} (h : onlySpread s = some (n, ds)) :
    s = [.spread n ds] := by
  unfold onlySpread at h
  split at h
  · simp only [Option.some.injEq, Prod.mk.injEq] at h
    rw [h.1, h.2]
  · cases h

theorem walkChain_picks (h : (frs.map Frag.name).Nodup) {pc : Option Name} :
    ∀ {left : Nat} {n : Name} {ds : List Dir} {ds' : List Dir} {d : Frag},
      walkChain (fragMap frs) pc left n ds = .ok (ds', d) →
      d ∈ frs ∧ ∀ T l p, Applies S T pc →
        (Picks S σ frs [.spread n ds] ((T, l) :: p) ↔
          Included σ ds' ∧ IsPossible S T d.cond ∧ Picks S σ frs d.sels ((T, l) :: p)) := by
  intro left
  induction left with
  | zero =>
    intro n ds ds' d hw
    unfold walkChain at hw
    split at hw
    · cases hw
    · rename_i e he
      obtain ⟨hm, rfl⟩ := getFrag_iff h he
      split at hw
      · split at hw
        · cases hw
        · cases hw
          exact ⟨hm, fun T l p _ => picks_spread_of h hm⟩
      · cases hw
        exact ⟨hm, fun T l p _ => picks_spread_of h hm⟩
  | succ k ih =>
    intro n ds ds' d hw
    unfold walkChain at hw
    split at hw
    · cases hw
    · rename_i e he
      obtain ⟨hm, rfl⟩ := getFrag_iff h he
      split at hw
      · rename_i hc
        split at hw
        · rename_i n' ds'' ho
          obtain ⟨hd, hp⟩ := ih hw
          refine ⟨hd, fun T l p ha => ?_⟩
          rw [picks_spread_of h hm, ← hp T l p ha, onlySpread_eq ho]
          rw [hc.2]
          have : IsPossible S T e.cond := by
            rw [hc.1] at ha
            exact ha
          simp [included_nil, this]
        · cases hw
          exact ⟨hm, fun T l p _ => picks_spread_of h hm⟩
      · cases hw
        exact ⟨hm, fun T l p _ => picks_spread_of h hm⟩

theorem inlineSet_picks (h : (frs.map Frag.name).Nodup) : ∀ (k : Nat) {pc : Option Name}
    {active : List Name} {s s' : List Sel}, inlineSet (fragMap frs) k pc active s = .ok s' →
    ∀ p, (∀ T l q, p = (T, l) :: q → Applies S T pc) →
      (Picks S σ frs s p ↔ Picks S σ [] s' p)
  | 0, pc, active, s, s', hs, p, _ => by cases hs
  | k + 1, pc, active, s, s', hs, [], _ => ⟨fun _ => .here _, fun _ => .here _⟩
  | k + 1, pc, active, s, s', hs, (T, l) :: q, ha => by
    have hT := ha T l q rfl
    unfold inlineSet at hs
    refine concatM_items hs ?_
    intro x _ y hy
    cases x with
    | field a n args ds sub =>
      simp only [inlineItem] at hy
      obtain ⟨sub', h1, h2⟩ := bind_ok hy
      cases h2
      have ih := inlineSet_picks h k h1 q (fun _ _ _ _ => trivial)
      rw [picks_field, picks_field, ih]
    | frag c ds sub =>
      simp only [inlineItem] at hy
      obtain ⟨sub', h1, h2⟩ := bind_ok hy
      cases h2
      rw [picks_frag, picks_frag]
      constructor
      · rintro ⟨hi, hc, hp⟩
        exact ⟨hi, hc, (inlineSet_picks h k h1 _ (by rintro T' l' q' ⟨rfl, rfl⟩; exact hc)).1 hp⟩
      · rintro ⟨hi, hc, hp⟩
        exact ⟨hi, hc, (inlineSet_picks h k h1 _ (by rintro T' l' q' ⟨rfl, rfl⟩; exact hc)).2 hp⟩
    | spread n ds =>
      simp only [inlineItem] at hy
      obtain ⟨⟨ds', d⟩, h1, h2⟩ := bind_ok hy
      obtain ⟨_, hw⟩ := walkChain_picks (S := S) (σ := σ) h h1
      rw [hw T l q hT]
      try simp only at h2
      split at h2
      · cases h2
      · split at h2
        · rename_i hc
          have ih := inlineSet_picks h k h2 ((T, l) :: q) ha
          rw [hc.2, ih]
          have : IsPossible S T d.cond := by
            rw [hc.1] at hT
            exact hT
          simp [included_nil, this]
        · obtain ⟨sub', h3, h4⟩ := bind_ok h2
          cases h4
          rw [picks_frag]
          constructor
          · rintro ⟨hi, hc, hp⟩
            exact ⟨hi, hc, (inlineSet_picks h k h3 _ (by rintro T' l' q' ⟨rfl, rfl⟩; exact hc)).1 hp⟩
          · rintro ⟨hi, hc, hp⟩
            exact ⟨hi, hc, (inlineSet_picks h k h3 _ (by rintro T' l' q' ⟨rfl, rfl⟩; exact hc)).2 hp⟩

theorem walkChain_ok (h : (frs.map Frag.name).Nodup) (hf : ∀ f ∈ frs, AllOk Live f.sels)
    {pc : Option Name} : ∀ {left : Nat} {n : Name} {ds : List Dir} {ds' : List Dir} {d : Frag},
      Live ds → walkChain (fragMap frs) pc left n ds = .ok (ds', d) → Live ds' ∧ d ∈ frs := by
  intro left
  induction left with
  | zero =>
    intro n ds ds' d hl hw
    unfold walkChain at hw
    split at hw
    · cases hw
    · rename_i e he
      obtain ⟨hm, rfl⟩ := getFrag_iff h he
      split at hw
      · split at hw
        · cases hw
        · cases hw; exact ⟨hl, hm⟩
      · cases hw; exact ⟨hl, hm⟩
  | succ k ih =>
    intro n ds ds' d hl hw
    unfold walkChain at hw
    split at hw
    · cases hw
    · rename_i e he
      obtain ⟨hm, rfl⟩ := getFrag_iff h he
      split at hw
      · split at hw
        · rename_i n' ds'' ho
          have := hf e hm
          rw [onlySpread_eq ho] at this
          exact ih (selOk_spread.1 (this (.spread n' ds'') (by simp))) hw
        · cases hw; exact ⟨hl, hm⟩
      · cases hw; exact ⟨hl, hm⟩

theorem inlineSet_ok (h : (frs.map Frag.name).Nodup) (hf : ∀ f ∈ frs, AllOk Live f.sels) :
    ∀ (k : Nat) {pc : Option Name} {active : List Name} {s s' : List Sel},
      inlineSet (fragMap frs) k pc active s = .ok s' → AllOk Live s → AllOk Live s'
  | 0, pc, active, s, s', hs, _ => by cases hs
  | k + 1, pc, active, s, s', hs, hl => by
    unfold inlineSet at hs
    refine concatM_allOk hs ?_
    intro x hx y hy
    have hx := hl x hx
    cases x with
    | field a n args ds sub =>
      simp only [inlineItem] at hy
      obtain ⟨sub', h1, h2⟩ := bind_ok hy
      cases h2
      obtain ⟨ha, hd, hs⟩ := selOk_field.1 hx
      exact allOk_cons.2 ⟨selOk_field.2 ⟨ha, hd, inlineSet_ok h hf k h1 hs⟩, allOk_nil⟩
    | frag c ds sub =>
      simp only [inlineItem] at hy
      obtain ⟨sub', h1, h2⟩ := bind_ok hy
      cases h2
      obtain ⟨hd, hs⟩ := selOk_frag.1 hx
      exact allOk_cons.2 ⟨selOk_frag.2 ⟨hd, inlineSet_ok h hf k h1 hs⟩, allOk_nil⟩
    | spread n ds =>
      simp only [inlineItem] at hy
      obtain ⟨⟨ds', d⟩, h1, h2⟩ := bind_ok hy
      obtain ⟨hds, hd⟩ := walkChain_ok h hf (selOk_spread.1 hx) h1
      try simp only at h2
      split at h2
      · cases h2
      · split at h2
        · exact inlineSet_ok h hf k h2 (hf d hd)
        · obtain ⟨sub', h3, h4⟩ := bind_ok h2
          cases h4
          exact allOk_cons.2 ⟨selOk_frag.2 ⟨hds, inlineSet_ok h hf k h3 (hf d hd)⟩, allOk_nil⟩

/-! ## Possible types -/

theorem lookup_mem_keys {α : Type} {n : Name} {d : α} : ∀ {l : List (Name × α)},
    l.lookup n = some d → n ∈ l.map (·.1)
  | [], h => by cases h
  | (k, v) :: l, h => by
    rw [List.lookup_cons] at h
    by_cases hk : n = k
    · simp [hk]
    · have : (n == k) = false := by simpa using hk
      rw [this] at h
      simp only [List.map_cons, List.mem_cons]
      exact .inr (lookup_mem_keys h)

theorem implements_iff {O I : Name} :
    S.implements O I = true ↔ ∃ impls fs, S.get O = some (.object impls fs) ∧ I ∈ impls := by
  unfold Schema.implements
  split
  · rename_i impls fs h
    simp only [List.contains_iff_mem]
    constructor
    · intro hi; exact ⟨impls, fs, h, hi⟩
    · rintro ⟨i', f', h', hi⟩
      rw [h] at h'
      cases h'
      exact hi
  · rename_i h
    constructor
    · intro h; cases h
    · rintro ⟨i', f', h', hi⟩
      exact absurd h' (h i' f')

theorem possible_iff {C T : Name} {l : List Name} (h : S.possible C = some l) :
    T ∈ l ↔ IsPossible S T C := by
  unfold Schema.possible at h
  unfold IsPossible
  split at h
  · rename_i ms hg
    cases h
    simp only [hg]
  · rename_i jt fs hg
    cases h
    simp only [hg, List.mem_filter, implements_iff]
    constructor
    · rintro ⟨_, h⟩; exact h
    · rintro ⟨i, f, h, hi⟩
      exact ⟨lookup_mem_keys h, i, f, h, hi⟩
  · cases h

theorem possible_none {C T : Name} (h : S.possible C = none) (hp : IsPossible S T C) : T = C := by
  unfold Schema.possible at h
  unfold IsPossible at hp
  split at h
  · cases h
  · cases h
  · rename_i h1 h2
    split at hp
    · exact hp
    · rename_i hg; exact absurd hg (h2 _ _)
    · rename_i hg; exact absurd hg (h1 _)
    · exact hp.elim

theorem possible_self {T : Name} (h : S.isObject T = true) {X : Name} :
    IsPossible S X T ↔ X = T := by
  unfold Schema.isObject at h
  split at h
  · rename_i i f hg
    unfold IsPossible
    simp [hg]
  · cases h

theorem possible_object_none {T : Name} (h : S.isObject T = true) : S.possible T = none := by
  unfold Schema.isObject at h
  unfold Schema.possible
  split at h
  · rename_i i f hg
    simp [hg]
  · cases h

theorem abstract_possible {P : Name} (h : S.isAbstract P = true) : ∃ l, S.possible P = some l := by
  unfold Schema.isAbstract at h
  unfold Schema.possible
  split at h
  · rename_i hg; simp [hg]
  · rename_i hg; simp [hg]
  · cases h

theorem applies_iff {T : Name} (h : S.isObject T = true) {c : Option Name} :
    appliesToObject S c T = true ↔ Applies S T c := by
  cases c with
  | none => simp [appliesToObject, Applies]
  | some C =>
    unfold appliesToObject Applies
    cases hp : S.possible C with
    | some l =>
      have hne : C ≠ T := by
        rintro rfl
        rw [possible_object_none h] at hp
        cases hp
      have : (C == T) = false := by simpa using hne
      simp only [hp, this, Bool.false_or, List.contains_iff_mem]
      exact possible_iff hp
    | none =>
      simp only [hp, Bool.or_false, beq_iff_eq]
      constructor
      · rintro rfl
        exact (possible_self h).2 rfl
      · intro hi
        exact (possible_none hp hi).symm

/-! ## Equivalence below a type -/

/-- The two sets select the same paths below the type `P`. -/
def Equiv (S : Schema) (σ : Name → Bool) (P : Name) (s t : List Sel) : Prop :=
  ∀ p, Fits S P p → (Picks S σ [] s p ↔ Picks S σ [] t p)

theorem fits_mono {A B : Name} (h : ∀ X, IsPossible S X B → IsPossible S X A) :
    ∀ {p : Path}, Fits S B p → Fits S A p
  | [], _ => trivial
  | (_, _) :: _, hf => ⟨h _ hf.1, hf.2⟩

/-- What is selected below a field, seen from the field's declared type. -/
theorem field_equiv (hS : SchemaOk S) {P A n T : Name} {a : Option Name} {args : Args}
    {sub sub' : List Sel} {p : Path} (hn : isIntro n = false)
    (hA : S.fieldTy P n = some A) (hf : Fits S P ((T, labelOf a n args) :: p))
    (he : Equiv S σ A sub sub') : Picks S σ [] sub p ↔ Picks S σ [] sub' p := by
  obtain ⟨hT, h⟩ := hf
  rcases h with h | rfl | ⟨C, hC, hp⟩
  · simp only [labelOf] at h
    rw [hn] at h
    cases h
  · exact ⟨fun _ => .here _, fun _ => .here _⟩
  · exact he p (fits_mono (hS.1 P T n A C hT hA hC) hp)

/-! ## flatten_fragments -/

theorem childType_ok {P n A : Name} (h : childType S P n = .ok A) : S.fieldTy P n = some A := by
  unfold childType at h
  split at h
  · cases h
  · rename_i B hB
    split at h
    · cases h
    · cases h; exact hB

theorem directivesToMerge_spec {inner : List Dir} : ∀ {ds extra : List Dir},
    directivesToMerge inner ds = some extra →
    (∀ d ∈ extra, d ∈ ds ∧ ∀ e ∈ inner, e.name ≠ d.name) ∧ (∀ d ∈ ds, d ∈ extra ∨ d ∈ inner) ∧
      extra.Sublist ds
  | [], extra, h => by
    simp only [directivesToMerge, Option.some.injEq] at h
    subst h
    simp
  | d :: r, extra, h => by
    unfold directivesToMerge at h
    split at h
    · rename_i e he
      split at h
      · rename_i hea
        obtain ⟨h1, h2, h3⟩ := directivesToMerge_spec h
        refine ⟨fun x hx => ⟨by simp [(h1 x hx).1], (h1 x hx).2⟩, ?_, h3.cons _⟩
        intro x hx
        rcases List.mem_cons.1 hx with rfl | hx
        · right
          have hm := List.mem_of_find?_eq_some he
          have hn := List.find?_some he
          have hn : e.name = x.name := by simpa using hn
          have : e = x := by
            cases e; cases x
            simp only at hn hea
            rw [hn, hea]
          exact this ▸ hm
        · exact h2 x hx
      · cases h
    · rename_i hnone
      cases hr : directivesToMerge inner r with
      | none => rw [hr] at h; cases h
      | some ex =>
        rw [hr] at h
        simp only [Option.map_some, Option.some.injEq] at h
        subst h
        obtain ⟨h1, h2, h3⟩ := directivesToMerge_spec hr
        refine ⟨?_, ?_, h3.cons_cons _⟩
        · intro x hx
          rcases List.mem_cons.1 hx with rfl | hx
          · refine ⟨by simp, fun e he hne => ?_⟩
            have := List.find?_eq_none.1 hnone e he
            simp [hne] at this
          · exact ⟨by simp [(h1 x hx).1], (h1 x hx).2⟩
        · intro x hx
          rcases List.mem_cons.1 hx with rfl | hx
          · simp
          · rcases h2 x hx with h | h <;> simp [h]

theorem included_merge {inner ds extra : List Dir} (h : directivesToMerge inner ds = some extra) :
    Included σ (inner ++ extra) ↔ Included σ ds ∧ Included σ inner := by
  obtain ⟨h1, h2, _⟩ := directivesToMerge_spec h
  rw [← included_append]
  refine included_congr fun d => ?_
  simp only [List.mem_append]
  constructor
  · rintro (h | h)
    · exact .inr h
    · exact .inl (h1 d h).1
  · rintro (h | h)
    · exact (h2 d h).symm
    · exact .inl h

theorem live_merge {inner ds extra : List Dir} (h : directivesToMerge inner ds = some extra)
    (hi : Live inner) (hd : Live ds) : Live (inner ++ extra) := by
  obtain ⟨h1, h2, h3⟩ := directivesToMerge_spec h
  have hok : DirsOk (inner ++ extra) := by
    refine ⟨?_, ?_⟩
    · rw [List.map_append, List.nodup_append]
      refine ⟨hi.1.1, hd.1.1.sublist (h3.map _), ?_⟩
      intro a ha b hb
      obtain ⟨e, he, rfl⟩ := List.mem_map.1 ha
      obtain ⟨x, hx, rfl⟩ := List.mem_map.1 hb
      exact (h1 x hx).2 e he
    · intro d hdm
      rcases List.mem_append.1 hdm with h | h
      · exact hi.1.2 d h
      · exact hd.1.2 d (h1 d h).1
  refine ⟨hok, ?_⟩
  have hk := hi.2
  have hk' := hd.2
  unfold shouldKeep at hk hk' ⊢
  simp only [Bool.and_eq_true, Bool.not_eq_true', beq_eq_false_iff_ne, ne_eq] at hk hk' ⊢
  constructor
  · rw [extract_of_mem hok (.inl rfl)]
    rw [extract_of_mem hi.1 (.inl rfl)] at hk
    rw [extract_of_mem hd.1 (.inl rfl)] at hk'
    rintro ⟨d, hdm, hx⟩
    rcases List.mem_append.1 hdm with h | h
    · exact hk.1 ⟨d, h, hx⟩
    · exact hk'.1 ⟨d, (h1 d h).1, hx⟩
  · rw [extract_of_mem hok (.inr rfl)]
    rw [extract_of_mem hi.1 (.inr rfl)] at hk
    rw [extract_of_mem hd.1 (.inr rfl)] at hk'
    rintro ⟨d, hdm, hx⟩
    rcases List.mem_append.1 hdm with h | h
    · exact hk.2 ⟨d, h, hx⟩
    · exact hk'.2 ⟨d, (h1 d h).1, hx⟩

theorem subFragments_mem {o : Name} {f : List Dir × List Sel} : ∀ {s : List Sel},
    f ∈ subFragments S o s ↔ ∃ c, Sel.frag c f.1 f.2 ∈ s ∧ appliesToObject S c o = true
  | [] => by simp [subFragments]
  | .field a n args ds sub :: r => by
    unfold subFragments
    rw [subFragments_mem (s := r)]
    simp
  | .spread n ds :: r => by
    unfold subFragments
    rw [subFragments_mem (s := r)]
    simp
  | .frag c ds sub :: r => by
    unfold subFragments
    split
    · rename_i ha
      rw [List.mem_cons, subFragments_mem (s := r)]
      constructor
      · rintro (rfl | ⟨c', h, ha'⟩)
        · exact ⟨c, by simp, ha⟩
        · exact ⟨c', by simp [h], ha'⟩
      · rintro ⟨c', h, ha'⟩
        rcases List.mem_cons.1 h with h | h
        · simp only [Sel.frag.injEq] at h
          exact .inl (Prod.ext h.2.1 h.2.2)
        · exact .inr ⟨c', h, ha'⟩
    · rename_i ha
      rw [subFragments_mem (s := r)]
      constructor
      · rintro ⟨c', h, ha'⟩
        exact ⟨c', by simp [h], ha'⟩
      · rintro ⟨c', h, ha'⟩
        rcases List.mem_cons.1 h with h | h
        · simp only [Sel.frag.injEq] at h
          rw [h.1] at ha'
          exact absurd ha' ha
        · exact ⟨c', h, ha'⟩

/-- What a set selects on an object: its own fields, and the child fragments that apply. -/
theorem picks_split {o : Name} (ho : S.isObject o = true) {s : List Sel} {l : Label} {p : Path} :
    Picks S σ [] s ((o, l) :: p) ↔
      Picks S σ [] (s.filter isField) ((o, l) :: p) ∨
      ∃ f ∈ subFragments S o s, Included σ f.1 ∧ Picks S σ [] f.2 ((o, l) :: p) := by
  rw [picks_exists]
  constructor
  · rintro ⟨x, hx, hp⟩
    cases x with
    | field a n args ds sub =>
      left
      exact picks_mono (by
        intro y hy
        rw [List.mem_singleton] at hy
        subst hy
        exact List.mem_filter.2 ⟨hx, rfl⟩) hp
    | frag c ds sub =>
      right
      obtain ⟨hi, ha, hp⟩ := picks_frag.1 hp
      exact ⟨(ds, sub), subFragments_mem.2 ⟨c, hx, (applies_iff ho).2 ha⟩, hi, hp⟩
    | spread n ds =>
      obtain ⟨_, f, hf, _⟩ := picks_spread.1 hp
      cases hf
  · rintro (hp | ⟨f, hf, hi, hp⟩)
    · obtain ⟨x, hx, hp⟩ := picks_exists.1 hp
      exact ⟨x, (List.mem_filter.1 hx).1, hp⟩
    · obtain ⟨c, hm, ha⟩ := subFragments_mem.1 hf
      exact ⟨_, hm, picks_frag.2 ⟨hi, (applies_iff ho).1 ha, hp⟩⟩

/-- A call that keeps the meaning below every type. -/
def KeepsRec (S : Schema) (σ : Name → Bool) (rec : Name → List Sel → Except Err (List Sel)) : Prop :=
  ∀ P s s', rec P s = .ok s' → Equiv S σ P s s'

theorem fits_object {o : Name} {l : Label} {p : Path} {P : Name} (ho : S.isObject o = true)
    (hf : Fits S P ((o, l) :: p)) : Fits S o ((o, l) :: p) :=
  ⟨(possible_self ho).2 rfl, hf.2⟩

theorem picks_empty {s : List Sel} (h : s.isEmpty = true) {x : Name × Label} {p : Path} :
    ¬ Picks S σ frs s (x :: p) := by
  cases s with
  | nil => exact picks_nil
  | cons a r => cases h

theorem expandChild_picks {rec : Name → List Sel → Except Err (List Sel)} (hr : KeepsRec S σ rec)
    {o : Name} (ho : S.isObject o = true) {ds : List Dir} {f : List Dir × List Sel} {y : List Sel}
    (h : expandChild rec o ds f = .ok y) {P T : Name} {l : Label} {p : Path}
    (hf : Fits S P ((T, l) :: p)) :
    Picks S σ [] y ((T, l) :: p) ↔
      T = o ∧ Included σ ds ∧ Included σ f.1 ∧ Picks S σ [] f.2 ((T, l) :: p) := by
  unfold expandChild at h
  obtain ⟨sub, h1, h2⟩ := bind_ok h
  have he : T = o → (Picks S σ [] f.2 ((T, l) :: p) ↔ Picks S σ [] sub ((T, l) :: p)) := by
    rintro rfl
    exact hr _ _ _ h1 _ (fits_object ho hf)
  have hself : Applies S T (some o) ↔ T = o := possible_self ho
  try simp only at h2
  split at h2
  · rename_i hem
    cases h2
    constructor
    · intro hp; exact absurd hp picks_nil
    · rintro ⟨hT, _, _, hp⟩
      exact absurd ((he hT).1 hp) (picks_empty hem)
  · split at h2
    · cases h2
      rw [picks_frag, picks_frag, hself]
      constructor
      · rintro ⟨hi, hT, hi', _, hp⟩
        exact ⟨hT, hi, hi', (he hT).2 hp⟩
      · rintro ⟨hT, hi, hi', hp⟩
        exact ⟨hi, hT, hi', hT, (he hT).1 hp⟩
    · rename_i extra hm
      cases h2
      rw [picks_frag, hself, included_merge hm]
      constructor
      · rintro ⟨⟨hi, hi'⟩, hT, hp⟩
        exact ⟨hT, hi, hi', (he hT).2 hp⟩
      · rintro ⟨hT, hi, hi', hp⟩
        exact ⟨⟨hi, hi'⟩, hT, (he hT).1 hp⟩

theorem no_dirs {l : List (List Dir × List Sel)} (h : ¬ (l.any (fun f => !f.1.isEmpty)) = true) :
    (∀ f ∈ l, f.1 = []) ∧ l.flatMap (·.1) = [] := by
  have h1 : ∀ f ∈ l, f.1 = [] := by
    intro f hf
    cases hd : f.1 with
    | nil => rfl
    | cons a r =>
      exfalso
      apply h
      rw [List.any_eq_true]
      exact ⟨f, hf, by simp [hd]⟩
  refine ⟨h1, ?_⟩
  rw [List.flatMap_eq_nil_iff]
  exact h1

theorem picks_flatMap {l : List (List Dir × List Sel)} {x : Name × Label} {p : Path} :
    Picks S σ frs (l.flatMap (·.2)) (x :: p) ↔ ∃ f ∈ l, Picks S σ frs f.2 (x :: p) := by
  rw [picks_exists]
  constructor
  · rintro ⟨y, hy, hp⟩
    obtain ⟨f, hf, hyf⟩ := List.mem_flatMap.1 hy
    exact ⟨f, hf, picks_mono (by simpa using hyf) hp⟩
  · rintro ⟨f, hf, hp⟩
    obtain ⟨y, hy, hp⟩ := picks_exists.1 hp
    exact ⟨y, List.mem_flatMap.2 ⟨f, hf, hy⟩, hp⟩

theorem expandFor_picks {rec : Name → List Sel → Except Err (List Sel)} (hr : KeepsRec S σ rec)
    {o : Name} (ho : S.isObject o = true) {ds : List Dir} {sub y : List Sel}
    (h : expandFor S rec ds sub o = .ok y) {P T : Name} {l : Label} {p : Path}
    (hf : Fits S P ((T, l) :: p)) :
    Picks S σ [] y ((T, l) :: p) ↔
      T = o ∧ Included σ ds ∧ Picks S σ [] sub ((T, l) :: p) := by
  have hself : Applies S T (some o) ↔ T = o := possible_self ho
  unfold expandFor at h
  split at h
  · cases h
  · split at h
    · obtain ⟨inh, h1, h2⟩ := bind_ok h
      obtain ⟨rest, h3, h4⟩ := bind_ok h2
      simp only [Except.ok.injEq] at h4
      subst h4
      have hinh : T = o → (Picks S σ [] (sub.filter isField) ((T, l) :: p) ↔
          Picks S σ [] inh ((T, l) :: p)) := by
        rintro rfl
        exact hr _ _ _ h1 _ (fits_object ho hf)
      have hfirst : Picks S σ [] (if inh.isEmpty then [] else [.frag (some o) ds inh])
          ((T, l) :: p) ↔ T = o ∧ Included σ ds ∧ Picks S σ [] (sub.filter isField) ((T, l) :: p) := by
        split
        · rename_i hem
          constructor
          · intro hp; exact absurd hp picks_nil
          · rintro ⟨hT, _, hp⟩
            exact absurd ((hinh hT).1 hp) (picks_empty hem)
        · rw [picks_frag, hself]
          constructor
          · rintro ⟨hi, hT, hp⟩; exact ⟨hT, hi, (hinh hT).2 hp⟩
          · rintro ⟨hT, hi, hp⟩; exact ⟨hi, hT, (hinh hT).1 hp⟩
      rw [picks_append, hfirst, concatM_picks h3]
      constructor
      · rintro (⟨hT, hi, hp⟩ | ⟨f, hfm, z, hz, hp⟩)
        · subst hT
          exact ⟨rfl, hi, (picks_split ho).2 (.inl hp)⟩
        · obtain ⟨hT, hi, hi', hp⟩ := (expandChild_picks hr ho hz hf).1 hp
          subst hT
          exact ⟨rfl, hi, (picks_split ho).2 (.inr ⟨f, hfm, hi', hp⟩)⟩
      · rintro ⟨hT, hi, hp⟩
        subst hT
        rcases (picks_split ho).1 hp with hp | ⟨f, hfm, hi', hp⟩
        · exact .inl ⟨rfl, hi, hp⟩
        · obtain ⟨z, hz⟩ := concatM_all h3 f hfm
          exact .inr ⟨f, hfm, z, hz, (expandChild_picks hr ho hz hf).2 ⟨rfl, hi, hi', hp⟩⟩
    · rename_i hnd
      obtain ⟨hnd, hfl⟩ := no_dirs hnd
      obtain ⟨all, h1, h2⟩ := bind_ok h
      simp only [Except.ok.injEq] at h2
      subst h2
      have hall : T = o → (Picks S σ [] sub ((T, l) :: p) ↔ Picks S σ [] all ((T, l) :: p)) := by
        rintro rfl
        rw [← hr _ _ _ h1 _ (fits_object ho hf), picks_append, picks_flatMap, picks_split ho]
        constructor
        · rintro (hp | ⟨f, hfm, _, hp⟩)
          · exact .inl hp
          · exact .inr ⟨f, hfm, hp⟩
        · rintro (hp | ⟨f, hfm, hp⟩)
          · exact .inl hp
          · exact .inr ⟨f, hfm, by rw [hnd f hfm]; exact included_nil, hp⟩
      rw [hfl, List.append_nil]
      split
      · rename_i hem
        constructor
        · intro hp; exact absurd hp picks_nil
        · rintro ⟨hT, _, hp⟩
          exact absurd ((hall hT).1 hp) (picks_empty hem)
      · rw [picks_frag, hself]
        constructor
        · rintro ⟨hi, hT, hp⟩; exact ⟨hT, hi, (hall hT).2 hp⟩
        · rintro ⟨hT, hi, hp⟩; exact ⟨hi, hT, (hall hT).1 hp⟩

theorem possibleOf_iff {C T : Name} {l : List Name} (h : possibleOf S C = .ok l) :
    T ∈ l ↔ IsPossible S T C := by
  unfold possibleOf at h
  split at h
  · rename_i l' hl
    cases h
    exact possible_iff hl
  · cases h

theorem mem_intersect {a b : List Name} {x : Name} : x ∈ intersect a b ↔ x ∈ a ∧ x ∈ b := by
  unfold intersect
  rw [mem_sortKey, List.mem_eraseDups, List.mem_filter, List.contains_iff_mem]

theorem expandAbstract_picks (hS : SchemaOk S) {rec : Name → List Sel → Except Err (List Sel)}
    (hr : KeepsRec S σ rec) {P C : Name} {ds : List Dir} {sub y : List Sel}
    (h : expandAbstract S rec P C ds sub = .ok y) {T : Name} {l : Label} {p : Path}
    (hf : Fits S P ((T, l) :: p)) :
    Picks S σ [] [.frag (some C) ds sub] ((T, l) :: p) ↔ Picks S σ [] y ((T, l) :: p) := by
  unfold expandAbstract at h
  obtain ⟨cs, h1, h2⟩ := bind_ok h
  obtain ⟨ps, h3, h4⟩ := bind_ok h2
  have hps : T ∈ ps := by
    unfold parentObjects at h3
    split at h3
    · exact (possibleOf_iff h3).2 hf.1
    · rename_i hna
      cases h3
      have : T = P := by
        refine possible_none ?_ hf.1
        cases hp : S.possible P with
        | none => rfl
        | some l =>
          exfalso
          apply hna
          unfold Schema.possible at hp
          unfold Schema.isAbstract
          split at hp
          · rename_i hg; simp [hg]
          · rename_i hg; simp [hg]
          · cases hp
      simp [this]
  rw [picks_frag, concatM_picks h4]
  constructor
  · rintro ⟨hi, ha, hp⟩
    have hT : T ∈ intersect cs ps := mem_intersect.2 ⟨(possibleOf_iff h1).2 ha, hps⟩
    obtain ⟨z, hz⟩ := concatM_all h4 T hT
    exact ⟨T, hT, z, hz, (expandFor_picks hr (hS.2 _ _ ha) hz hf).2 ⟨rfl, hi, hp⟩⟩
  · rintro ⟨o, ho, z, hz, hp⟩
    have hoC := (possibleOf_iff h1).1 (mem_intersect.1 ho).1
    obtain ⟨hT, hi, hp⟩ := (expandFor_picks hr (hS.2 _ _ hoC) hz hf).1 hp
    subst hT
    exact ⟨hi, hoC, hp⟩

theorem not_abstract_not_object {C T : Name} (h1 : ¬ S.isAbstract C = true)
    (h2 : ¬ S.isObject C = true) : ¬ IsPossible S T C := by
  unfold IsPossible Schema.isAbstract Schema.isObject at *
  split <;> simp_all

theorem expandCond_picks (hS : SchemaOk S) {rec : Name → List Sel → Except Err (List Sel)}
    (hr : KeepsRec S σ rec) {P C : Name} {ds : List Dir} {sub y : List Sel}
    (h : expandCond S rec P C ds sub = .ok y) {T : Name} {l : Label} {p : Path}
    (hf : Fits S P ((T, l) :: p)) :
    Picks S σ [] [.frag (some C) ds sub] ((T, l) :: p) ↔ Picks S σ [] y ((T, l) :: p) := by
  unfold expandCond at h
  split at h
  · cases h
  · split at h
    · exact expandAbstract_picks hS hr h hf
    · rename_i hna
      split at h
      · rename_i hob
        split at h
        · rename_i hpc
          cases h
          simp only [Bool.and_eq_true, bne_iff_ne, ne_eq] at hpc
          have hTP : T = P := (possible_self hpc.1).1 hf.1
          rw [picks_frag]
          constructor
          · rintro ⟨_, ha, _⟩
            have : T = C := (possible_self hob).1 ha
            exact absurd (hTP.symm.trans this) hpc.2
          · intro hp; exact absurd hp picks_nil
        · obtain ⟨sub', h1, h2⟩ := bind_ok h
          cases h2
          rw [picks_frag, picks_frag]
          constructor
          · rintro ⟨hi, ha, hp⟩
            exact ⟨hi, ha, (hr _ _ _ h1 ((T, l) :: p) ⟨ha, hf.2⟩).1 hp⟩
          · rintro ⟨hi, ha, hp⟩
            exact ⟨hi, ha, (hr _ _ _ h1 ((T, l) :: p) ⟨ha, hf.2⟩).2 hp⟩
      · rename_i hno
        cases h
        rw [picks_frag]
        constructor
        · rintro ⟨_, ha, _⟩
          exact absurd ha (not_abstract_not_object hna hno)
        · intro hp; exact absurd hp picks_nil

theorem flattenFrag_picks (hS : SchemaOk S) {rec : Name → List Sel → Except Err (List Sel)}
    (hr : KeepsRec S σ rec) {P : Name} {c : Option Name} {ds : List Dir} {sub y : List Sel}
    (h : flattenFrag S rec P c ds sub = .ok y) {T : Name} {l : Label} {p : Path}
    (hf : Fits S P ((T, l) :: p)) :
    Picks S σ [] [.frag c ds sub] ((T, l) :: p) ↔ Picks S σ [] y ((T, l) :: p) := by
  unfold flattenFrag at h
  split at h
  · obtain ⟨sub', h1, h2⟩ := bind_ok h
    have he := hr _ _ _ h1 _ hf
    have htop : Picks S σ [] [.frag none ds sub] ((T, l) :: p) ↔
        Picks S σ [] [.frag (some P) ds sub'] ((T, l) :: p) := by
      rw [picks_frag, picks_frag, he]
      exact ⟨fun ⟨a, _, b⟩ => ⟨a, hf.1, b⟩, fun ⟨a, _, b⟩ => ⟨a, trivial, b⟩⟩
    try simp only at h2
    split at h2
    · rename_i hem
      cases h2
      have : ds = [] := by simpa using hem
      rw [picks_frag, he, this]
      exact ⟨fun ⟨_, _, b⟩ => b, fun b => ⟨included_nil, trivial, b⟩⟩
    · split at h2
      · rw [htop]
        exact expandAbstract_picks hS hr h2 hf
      · cases h2
        exact htop
  · split at h
    · rename_i hC
      subst hC
      obtain ⟨sub', h1, h2⟩ := bind_ok h
      have he := hr _ _ _ h1 _ hf
      try simp only at h2
      split at h2
      · rename_i hem
        cases h2
        have : ds = [] := by simpa using hem
        rw [picks_frag, he, this]
        exact ⟨fun ⟨_, _, b⟩ => b, fun b => ⟨included_nil, hf.1, b⟩⟩
      · cases h2
        rw [picks_frag, picks_frag, he]
    · exact expandCond_picks hS hr h hf

theorem flattenSet_picks (hS : SchemaOk S) : ∀ (k : Nat), KeepsRec S σ (flattenSet S k)
  | 0, P, s, s', h => by cases h
  | k + 1, P, s, s', h => by
    intro p hf
    cases p with
    | nil => exact ⟨fun _ => .here _, fun _ => .here _⟩
    | cons x p =>
      obtain ⟨T, l⟩ := x
      have hr : KeepsRec S σ (flattenSet S k) := flattenSet_picks hS k
      unfold flattenSet at h
      refine concatM_items h ?_
      intro a _ y hy
      cases a with
      | field a n args ds sub =>
        simp only [flattenItem] at hy
        split at hy
        · cases hy; exact Iff.rfl
        · rename_i hc
          obtain ⟨A, h1, h2⟩ := bind_ok hy
          obtain ⟨sub', h3, h4⟩ := bind_ok h2
          cases h4
          rw [picks_field, picks_field]
          have hn : isIntro n = false := by
            cases hi : isIntro n with
            | false => rfl
            | true => simp [hi] at hc
          constructor
          · rintro ⟨hi, rfl, hp⟩
            exact ⟨hi, rfl, (field_equiv hS hn (childType_ok h1) hf (hr _ _ _ h3)).1 hp⟩
          · rintro ⟨hi, rfl, hp⟩
            exact ⟨hi, rfl, (field_equiv hS hn (childType_ok h1) hf (hr _ _ _ h3)).2 hp⟩
      | frag c ds sub =>
        simp only [flattenItem] at hy
        exact flattenFrag_picks hS hr hy hf
      | spread n ds =>
        simp only [flattenItem] at hy
        cases hy
        constructor
        · intro hp
          obtain ⟨_, f, hf, _⟩ := picks_spread.1 hp
          cases hf
        · intro hp; exact absurd hp picks_nil

/-! ### What validation guarantees is kept -/

/-- A call that keeps the guarantees. -/
def OkRec (D : List Dir → Prop) (rec : Name → List Sel → Except Err (List Sel)) : Prop :=
  ∀ P s s', rec P s = .ok s' → AllOk D s → AllOk D s'

theorem subFragments_ok {o : Name} {s : List Sel} (h : AllOk Live s) {f : List Dir × List Sel}
    (hf : f ∈ subFragments S o s) : Live f.1 ∧ AllOk Live f.2 := by
  obtain ⟨c, hm, _⟩ := subFragments_mem.1 hf
  exact selOk_frag.1 (h _ hm)

theorem expandChild_ok {rec : Name → List Sel → Except Err (List Sel)} (hr : OkRec Live rec)
    {o : Name} {ds : List Dir} (hds : Live ds) {f : List Dir × List Sel} (hf1 : Live f.1)
    (hf2 : AllOk Live f.2) {y : List Sel} (h : expandChild rec o ds f = .ok y) : AllOk Live y := by
  unfold expandChild at h
  obtain ⟨sub, h1, h2⟩ := bind_ok h
  have hs := hr _ _ _ h1 hf2
  try simp only at h2
  split at h2
  · cases h2; exact allOk_nil
  · split at h2
    · cases h2
      exact allOk_cons.2 ⟨selOk_frag.2 ⟨hds, allOk_cons.2 ⟨selOk_frag.2 ⟨hf1, hs⟩, allOk_nil⟩⟩,
        allOk_nil⟩
    · rename_i extra hm
      cases h2
      exact allOk_cons.2 ⟨selOk_frag.2 ⟨live_merge hm hf1 hds, hs⟩, allOk_nil⟩

theorem allOk_filter {D : List Dir → Prop} {s : List Sel} {q : Sel → Bool} (h : AllOk D s) :
    AllOk D (s.filter q) := fun x hx => h x (List.mem_filter.1 hx).1

theorem expandFor_ok {rec : Name → List Sel → Except Err (List Sel)} (hr : OkRec Live rec)
    {o : Name} {ds : List Dir} (hds : Live ds) {sub y : List Sel} (hs : AllOk Live sub)
    (h : expandFor S rec ds sub o = .ok y) : AllOk Live y := by
  unfold expandFor at h
  split at h
  · cases h
  · split at h
    · obtain ⟨inh, h1, h2⟩ := bind_ok h
      obtain ⟨rest, h3, h4⟩ := bind_ok h2
      simp only [Except.ok.injEq] at h4
      subst h4
      refine allOk_append.2 ⟨?_, concatM_allOk h3 fun f hf z hz => ?_⟩
      · split
        · exact allOk_nil
        · exact allOk_cons.2 ⟨selOk_frag.2 ⟨hds, hr _ _ _ h1 (allOk_filter hs)⟩, allOk_nil⟩
      · obtain ⟨h5, h6⟩ := subFragments_ok hs hf
        exact expandChild_ok hr hds h5 h6 hz
    · rename_i hnd
      obtain ⟨hnd, hfl⟩ := no_dirs hnd
      obtain ⟨all, h1, h2⟩ := bind_ok h
      simp only [Except.ok.injEq] at h2
      subst h2
      rw [hfl, List.append_nil]
      split
      · exact allOk_nil
      · refine allOk_cons.2 ⟨selOk_frag.2 ⟨hds, hr _ _ _ h1 (allOk_append.2 ⟨allOk_filter hs, ?_⟩)⟩,
          allOk_nil⟩
        intro x hx
        obtain ⟨f, hf, hx⟩ := List.mem_flatMap.1 hx
        exact (subFragments_ok hs hf).2 x hx

theorem expandAbstract_ok {rec : Name → List Sel → Except Err (List Sel)} (hr : OkRec Live rec)
    {P C : Name} {ds : List Dir} (hds : Live ds) {sub y : List Sel} (hs : AllOk Live sub)
    (h : expandAbstract S rec P C ds sub = .ok y) : AllOk Live y := by
  unfold expandAbstract at h
  obtain ⟨cs, h1, h2⟩ := bind_ok h
  obtain ⟨ps, h3, h4⟩ := bind_ok h2
  exact concatM_allOk h4 fun o _ z hz => expandFor_ok hr hds hs hz

theorem flattenFrag_ok {rec : Name → List Sel → Except Err (List Sel)} (hr : OkRec Live rec)
    {P : Name} {c : Option Name} {ds : List Dir} (hds : Live ds) {sub y : List Sel}
    (hs : AllOk Live sub) (h : flattenFrag S rec P c ds sub = .ok y) : AllOk Live y := by
  unfold flattenFrag at h
  split at h
  · obtain ⟨sub', h1, h2⟩ := bind_ok h
    have hs' := hr _ _ _ h1 hs
    try simp only at h2
    split at h2
    · cases h2; exact hs'
    · split at h2
      · exact expandAbstract_ok hr hds hs' h2
      · cases h2
        exact allOk_cons.2 ⟨selOk_frag.2 ⟨hds, hs'⟩, allOk_nil⟩
  · split at h
    · obtain ⟨sub', h1, h2⟩ := bind_ok h
      have hs' := hr _ _ _ h1 hs
      try simp only at h2
      split at h2
      · cases h2; exact hs'
      · cases h2
        exact allOk_cons.2 ⟨selOk_frag.2 ⟨hds, hs'⟩, allOk_nil⟩
    · unfold expandCond at h
      split at h
      · cases h
      · split at h
        · exact expandAbstract_ok hr hds hs h
        · split at h
          · split at h
            · cases h; exact allOk_nil
            · obtain ⟨sub', h1, h2⟩ := bind_ok h
              cases h2
              exact allOk_cons.2 ⟨selOk_frag.2 ⟨hds, hr _ _ _ h1 hs⟩, allOk_nil⟩
          · cases h; exact allOk_nil

theorem flattenSet_ok : ∀ (k : Nat), OkRec Live (flattenSet S k)
  | 0, P, s, s', h, _ => by cases h
  | k + 1, P, s, s', h, hs => by
    have hr : OkRec Live (flattenSet S k) := flattenSet_ok k
    unfold flattenSet at h
    refine concatM_allOk h fun x hx y hy => ?_
    have hx := hs x hx
    cases x with
    | field a n args ds sub =>
      obtain ⟨h1, h2, h3⟩ := selOk_field.1 hx
      simp only [flattenItem] at hy
      split at hy
      · cases hy; exact allOk_cons.2 ⟨hx, allOk_nil⟩
      · obtain ⟨A, _, h5⟩ := bind_ok hy
        obtain ⟨sub', h6, h7⟩ := bind_ok h5
        cases h7
        exact allOk_cons.2 ⟨selOk_field.2 ⟨h1, h2, hr _ _ _ h6 h3⟩, allOk_nil⟩
    | frag c ds sub =>
      obtain ⟨h2, h3⟩ := selOk_frag.1 hx
      simp only [flattenItem] at hy
      exact flattenFrag_ok hr h2 h3 hy
    | spread n ds =>
      simp only [flattenItem] at hy
      cases hy
      exact allOk_nil

/-! ## type_expand -/

theorem expansion_some {P n : Name} {os : List Name} (h : expansion S P n = .ok (some os)) :
    ∀ T, T ∈ os ↔ IsPossible S T P := by
  unfold expansion at h
  split at h
  · obtain ⟨l, h1, h2⟩ := bind_ok h
    try simp only at h2
    split at h2
    · cases h2
    · split at h2
      · cases h2
        intro T
        rw [mem_sortKey, List.mem_eraseDups]
        exact possibleOf_iff h1
      · cases h2
  · cases h

theorem expandFieldFor_picks (hS : SchemaOk S) {rec : Name → List Sel → Except Err (List Sel)}
    (hr : KeepsRec S σ rec) {a : Option Name} {n : Name} (hn : isIntro n = false) {args : Args}
    {ds : List Dir} {sub y : List Sel} {o : Name} (ho : S.isObject o = true)
    (h : expandFieldFor S rec a n args ds sub o = .ok y) {P T : Name} {l : Label} {p : Path}
    (hf : Fits S P ((T, l) :: p)) :
    Picks S σ [] y ((T, l) :: p) ↔
      T = o ∧ Picks S σ [] [.field a n args ds sub] ((T, l) :: p) := by
  have hself : Applies S T (some o) ↔ T = o := possible_self ho
  unfold expandFieldFor at h
  split at h
  · cases h
    rw [picks_frag, picks_field, hself]
    exact ⟨fun ⟨a, b, c⟩ => ⟨b, c⟩, fun ⟨b, c⟩ => ⟨c.1, b, c⟩⟩
  · split at h
    · cases h
      rw [picks_frag, picks_field, hself]
      exact ⟨fun ⟨a, b, c⟩ => ⟨b, c⟩, fun ⟨b, c⟩ => ⟨c.1, b, c⟩⟩
    · rename_i A hA
      split at h
      · cases h
      · obtain ⟨sub', h1, h2⟩ := bind_ok h
        cases h2
        rw [picks_frag, picks_field, picks_field, hself]
        constructor
        · rintro ⟨_, rfl, hi, rfl, hp⟩
          exact ⟨rfl, hi, rfl, (field_equiv hS hn hA (fits_object ho hf) (hr _ _ _ h1)).2 hp⟩
        · rintro ⟨rfl, hi, rfl, hp⟩
          exact ⟨hi, rfl, hi, rfl,
            (field_equiv hS hn hA (fits_object ho hf) (hr _ _ _ h1)).1 hp⟩

theorem typeExpandSet_picks (hS : SchemaOk S) : ∀ (k : Nat), KeepsRec S σ (typeExpandSet S k)
  | 0, P, s, s', h => by cases h
  | k + 1, P, s, s', h => by
    intro p hf
    cases p with
    | nil => exact ⟨fun _ => .here _, fun _ => .here _⟩
    | cons x p =>
      obtain ⟨T, l⟩ := x
      have hr : KeepsRec S σ (typeExpandSet S k) := typeExpandSet_picks hS k
      unfold typeExpandSet at h
      refine concatM_items h ?_
      intro a _ y hy
      cases a with
      | field a n args ds sub =>
        simp only [typeExpandItem] at hy
        split at hy
        · cases hy; exact Iff.rfl
        · rename_i hn
          have hn : isIntro n = false := by simpa using hn
          split at hy
          · cases hy
          · rename_i A hA
            obtain ⟨e, h1, h2⟩ := bind_ok hy
            cases e with
            | some os =>
              try simp only at h2
              rw [concatM_picks h2]
              constructor
              · intro hp
                have hT := (expansion_some h1 T).2 hf.1
                obtain ⟨z, hz⟩ := concatM_all h2 T hT
                exact ⟨T, hT, z, hz,
                  (expandFieldFor_picks hS hr hn (hS.2 _ _ hf.1) hz hf).2 ⟨rfl, hp⟩⟩
              · rintro ⟨o, ho, z, hz, hp⟩
                have := (expansion_some h1 o).1 ho
                exact ((expandFieldFor_picks hS hr hn (hS.2 _ _ this) hz hf).1 hp).2
            | none =>
              try simp only at h2
              split at h2
              · cases h2; exact Iff.rfl
              · split at h2
                · cases h2
                · obtain ⟨sub', h3, h4⟩ := bind_ok h2
                  cases h4
                  rw [picks_field, picks_field]
                  constructor
                  · rintro ⟨hi, rfl, hp⟩
                    exact ⟨hi, rfl, (field_equiv hS hn hA hf (hr _ _ _ h3)).1 hp⟩
                  · rintro ⟨hi, rfl, hp⟩
                    exact ⟨hi, rfl, (field_equiv hS hn hA hf (hr _ _ _ h3)).2 hp⟩
      | frag c ds sub =>
        simp only [typeExpandItem] at hy
        cases c with
        | none =>
          try simp only at hy
          obtain ⟨sub', h3, h4⟩ := bind_ok hy
          cases h4
          rw [picks_frag, picks_frag, hr _ _ _ h3 _ hf]
        | some C =>
          try simp only at hy
          split at hy
          · cases hy; exact Iff.rfl
          · obtain ⟨sub', h3, h4⟩ := bind_ok hy
            cases h4
            rw [picks_frag, picks_frag]
            constructor
            · rintro ⟨hi, ha, hp⟩
              exact ⟨hi, ha, (hr _ _ _ h3 ((T, l) :: p) ⟨ha, hf.2⟩).1 hp⟩
            · rintro ⟨hi, ha, hp⟩
              exact ⟨hi, ha, (hr _ _ _ h3 ((T, l) :: p) ⟨ha, hf.2⟩).2 hp⟩
      | spread n ds =>
        simp only [typeExpandItem] at hy
        cases hy
        exact Iff.rfl

theorem typeExpandSet_ok {D : List Dir → Prop} : ∀ (k : Nat), OkRec D (typeExpandSet S k)
  | 0, P, s, s', h, _ => by cases h
  | k + 1, P, s, s', h, hs => by
    have hr : OkRec D (typeExpandSet S k) := typeExpandSet_ok k
    unfold typeExpandSet at h
    refine concatM_allOk h fun x hx y hy => ?_
    have hx := hs x hx
    cases x with
    | field a n args ds sub =>
      obtain ⟨h1, h2, h3⟩ := selOk_field.1 hx
      simp only [typeExpandItem] at hy
      split at hy
      · cases hy; exact allOk_cons.2 ⟨hx, allOk_nil⟩
      · split at hy
        · cases hy
        · obtain ⟨e, h4, h5⟩ := bind_ok hy
          cases e with
          | some os =>
            try simp only at h5
            refine concatM_allOk h5 fun o _ z hz => ?_
            unfold expandFieldFor at hz
            split at hz
            · cases hz
              exact allOk_cons.2 ⟨selOk_frag.2 ⟨h2, allOk_cons.2 ⟨hx, allOk_nil⟩⟩, allOk_nil⟩
            · split at hz
              · cases hz
                exact allOk_cons.2 ⟨selOk_frag.2 ⟨h2, allOk_cons.2 ⟨hx, allOk_nil⟩⟩, allOk_nil⟩
              · split at hz
                · cases hz
                · obtain ⟨sub', h6, h7⟩ := bind_ok hz
                  cases h7
                  exact allOk_cons.2 ⟨selOk_frag.2 ⟨h2, allOk_cons.2
                    ⟨selOk_field.2 ⟨h1, h2, hr _ _ _ h6 h3⟩, allOk_nil⟩⟩, allOk_nil⟩
          | none =>
            try simp only at h5
            split at h5
            · cases h5; exact allOk_cons.2 ⟨hx, allOk_nil⟩
            · split at h5
              · cases h5
              · obtain ⟨sub', h6, h7⟩ := bind_ok h5
                cases h7
                exact allOk_cons.2 ⟨selOk_field.2 ⟨h1, h2, hr _ _ _ h6 h3⟩, allOk_nil⟩
    | frag c ds sub =>
      obtain ⟨h2, h3⟩ := selOk_frag.1 hx
      simp only [typeExpandItem] at hy
      cases c with
      | none =>
        try simp only at hy
        obtain ⟨sub', h6, h7⟩ := bind_ok hy
        cases h7
        exact allOk_cons.2 ⟨selOk_frag.2 ⟨h2, hr _ _ _ h6 h3⟩, allOk_nil⟩
      | some C =>
        try simp only at hy
        split at hy
        · cases hy; exact allOk_cons.2 ⟨hx, allOk_nil⟩
        · obtain ⟨sub', h6, h7⟩ := bind_ok hy
          cases h7
          exact allOk_cons.2 ⟨selOk_frag.2 ⟨h2, hr _ _ _ h6 h3⟩, allOk_nil⟩
    | spread n ds =>
      simp only [typeExpandItem] at hy
      cases hy
      exact allOk_cons.2 ⟨hx, allOk_nil⟩

end Verif.Normalize
