import Verif.Builder.Merge

/-!
# From selections to plans
-/

namespace Verif.Builder

open Verif.Projection
open Verif.Normalize (Item)

variable {S : Meta}

/-! ## Conditions of a field -/

theorem holds_fieldConditions {V : Val} {T : String} {pc : Option Cond} {out : String}
    {si ii : Option String} (hg : GuardMeans T (pc.bind typeGuard)) :
    HoldsOpt V T (fieldConditions S pc out si ii) ↔ HoldsOpt V T pc ∧ Lets V si ii := by
  have hs : ∀ c : Option Cond, HoldsOpt V T (c.bind (fun c => simplify c (pc.bind typeGuard))) ↔
      HoldsOpt V T c := by
    intro c
    cases c with
    | none => rfl
    | some c => exact holds_simplify c _ hg
  have hf : ∀ c : Option Cond, HoldsOpt V T (if isAbstract S out then
      andOpt c (some (.field (fieldCond S out))) else c) ↔ HoldsOpt V T c := by
    intro c
    split
    · rw [holds_andOpt]; simp [HoldsOpt, Holds]
    · rfl
  unfold fieldConditions
  simp only
  rw [hs]
  split
  · rw [holds_andOpt, holds_directives, hf]; simp [HoldsOpt, Holds]
  · rw [holds_directives, hf]

theorem means_plain {T f : String} {v : Option Value} {σ : String → Bool} {c : Cond} (hc : Plain c) :
    c.Means T f v σ ↔ Holds (.of σ) T c := by
  induction c with
  | incl | skip | parent => rfl
  | field | enum | or => exact hc.elim
  | and a b iha ihb => simp only [Cond.Means, Holds, iha hc.1, ihb hc.2]

theorem means_plainOpt {T f : String} {v : Option Value} {σ : String → Bool} {c : Option Cond}
    (hc : PlainOpt c) : MeansOpt T f v σ c ↔ HoldsOpt (.of σ) T c := by
  cases c with
  | none => rfl
  | some c => exact means_plain hc

theorem names_fieldCond (hS : MetaOk S) (X t : String) :
    (fieldCond S t).Names X ↔ OfType S X t := by
  unfold fieldCond
  split
  · rename_i h
    have hn : S.possible.lookup t = none := by
      simp only [Bool.or_eq_true, List.contains_iff_mem] at h
      rcases h with h | h
      · exact hS.object t h
      · exact hS.scalar t h
    simp [TypeCond.Names, OfType, hn]
  · simp [TypeCond.Names, mem_possibleSet]

theorem names_fragCond (hS : MetaOk S) (X t : String) :
    (fragCond S t).Names X ↔ OfType S X t := by
  unfold fragCond
  split
  · rename_i h
    have hn : S.possible.lookup t = none := hS.object t (by simpa using h)
    simp [TypeCond.Names, OfType, hn]
  · simp [TypeCond.Names, mem_possibleSet]

theorem atoms_fieldConditions (hS : MetaOk S) {f : String} {v : Option Value} {pc : Option Cond}
    {out : String} {si ii : Option String} (hpc : PlainOpt pc) (hf : OfType S f out)
    (hv : ∀ vals, S.enums.lookup out = some vals → ∀ x, v = some (.str x) → x ∈ vals) :
    AtomsOpt f v (fieldConditions S pc out si ii) := by
  have h0 : AtomsOpt f v pc := by
    cases pc with
    | none => trivial
    | some c => exact atoms_plain hpc
  have h1 : AtomsOpt f v (if isAbstract S out then andOpt pc (some (.field (fieldCond S out)))
      else pc) := by
    split
    · exact atoms_andOpt h0 ((names_fieldCond hS f out).2 hf)
    · exact h0
  have h2 := atoms_directives h1 si ii
  unfold fieldConditions
  simp only
  have hs : ∀ c : Option Cond, AtomsOpt f v c →
      AtomsOpt f v (c.bind (fun c => simplify c (pc.bind typeGuard))) := by
    intro c hc
    cases c with
    | none => trivial
    | some c => exact atoms_simplify hc _
  apply hs
  split
  · rename_i vals hvals
    exact atoms_andOpt h2 (fun x hx => hv vals hvals x hx)
  · exact h2

/-! ## The parent's condition -/

/-- What is known of the condition under which a selection set is processed. -/
structure PcOk (S : Meta) (P : String) (D : String → Prop) (pc : Option Cond) : Prop where
  plain : PlainOpt pc
  acc : ∀ T, D T → GuardMeans T (pc.bind typeGuard)
  names : ∀ g, pc.bind typeGuard = some g → ∀ X, g.Names X → OfType S X P
  closed : Closed S (pc.bind typeGuard)

theorem PcOk.none (P : String) (D : String → Prop) : PcOk S P D none :=
  ⟨trivial, fun _ _ => trivial, by simp, by intro tc h; simp at h⟩

theorem holds_pc {P : String} {D : String → Prop} {pc : Option Cond} (h : PcOk S P D pc) {T : String}
    (hT : D T) (V : Val) : HoldsOpt V T pc ↔ DirsOpt V pc := by
  rw [holdsOpt_split h.plain]
  exact ⟨And.right, fun hd => ⟨h.acc T hT, hd⟩⟩

theorem child_plain {pc : Option Cond} (h : PlainOpt pc) (out : String) (si ii : Option String) :
    PlainOpt (childCondition S pc out si ii) := by
  unfold childCondition
  refine plain_directives (plain_andOpt ?_ ?_) si ii
  · cases pc with
    | none => trivial
    | some c => exact plain_childConds h
  · cases pc.bind typeGuard <;> trivial

theorem child_dirs {pc : Option Cond} (h : PlainOpt pc) (out : String) (si ii : Option String)
    (V : Val) : DirsOpt V (childCondition S pc out si ii) ↔ DirsOpt V pc ∧ Lets V si ii := by
  have h1 : PlainOpt (pc.bind childConds) := by
    cases pc with
    | none => trivial
    | some c => exact plain_childConds h
  have h2 : PlainOpt ((pc.bind typeGuard).map (fun _ => Cond.parent (fieldCond S out))) := by
    cases pc.bind typeGuard <;> trivial
  unfold childCondition
  rw [dirs_directives (plain_andOpt h1 h2), dirs_andOpt h1 h2]
  have h3 : DirsOpt V ((pc.bind typeGuard).map (fun _ => Cond.parent (fieldCond S out))) := by
    cases pc.bind typeGuard <;> trivial
  have h4 : DirsOpt V (pc.bind childConds) ↔ DirsOpt V pc := by
    cases pc with
    | none => rfl
    | some c => exact dirs_childConds h
  rw [h4]
  exact ⟨fun h => ⟨h.1.1, h.2⟩, fun h => ⟨⟨h.1, h3⟩, h.2⟩⟩

theorem child_guard {pc : Option Cond} (h : PlainOpt pc) (out : String) (si ii : Option String) :
    (childCondition S pc out si ii).bind typeGuard =
      (pc.bind typeGuard).map (fun _ => fieldCond S out) := by
  unfold childCondition
  rw [guard_directives, guard_andOpt]
  have : (pc.bind childConds).bind typeGuard = none := by
    cases pc with
    | none => rfl
    | some c => exact guard_childConds h
  rw [this]
  cases pc.bind typeGuard <;> rfl

theorem child_ok (hS : MetaOk S) {P : String} {D : String → Prop} {pc : Option Cond}
    (h : PcOk S P D pc) (out : String) (si ii : Option String) :
    PcOk S out (Obj S out) (childCondition S pc out si ii) := by
  refine ⟨child_plain h.plain out si ii, ?_, ?_, ?_⟩ <;> rw [child_guard h.plain]
  · intro T hT
    cases pc.bind typeGuard with
    | none => trivial
    | some g => exact (names_fieldCond hS T out).2 hT.2
  · intro g hg X hX
    cases hp : pc.bind typeGuard with
    | none => rw [hp] at hg; simp at hg
    | some g' =>
      rw [hp] at hg
      simp only [Option.map_some, Option.some.injEq] at hg
      subst hg
      exact (names_fieldCond hS X out).1 hX
  · intro g hg A B hA hB
    cases hp : pc.bind typeGuard with
    | none => rw [hp] at hg; simp at hg
    | some g' =>
      rw [hp] at hg
      simp only [Option.map_some, Option.some.injEq] at hg
      subst hg
      rw [names_fieldCond hS] at hA ⊢
      exact hS.trans B A out hB hA

theorem frag_plain {pc : Option Cond} (h : PlainOpt pc) (c : String) (si ii : Option String) :
    PlainOpt (fragmentCondition S pc c si ii) :=
  plain_directives (plain_andOpt h (by trivial)) si ii

theorem frag_dirs {pc : Option Cond} (h : PlainOpt pc) (c : String) (si ii : Option String)
    (V : Val) : DirsOpt V (fragmentCondition S pc c si ii) ↔ DirsOpt V pc ∧ Lets V si ii := by
  unfold fragmentCondition
  rw [dirs_directives (plain_andOpt h (by trivial)), dirs_andOpt h (by trivial)]
  simp [DirsOpt, Dirs]

theorem frag_guard (pc : Option Cond) (c : String) (si ii : Option String) :
    (fragmentCondition S pc c si ii).bind typeGuard =
      combine TypeCond.intersect (pc.bind typeGuard) (some (fragCond S c)) := by
  unfold fragmentCondition
  rw [guard_directives, guard_andOpt]; rfl

theorem frag_ok (hS : MetaOk S) {P : String} {D : String → Prop} {pc : Option Cond}
    (h : PcOk S P D pc) (c : String) (si ii : Option String) :
    PcOk S c (fun T => D T ∧ OfType S T c) (fragmentCondition S pc c si ii) := by
  have hn : ∀ g, combine TypeCond.intersect (pc.bind typeGuard) (some (fragCond S c)) = some g →
      ∀ X, g.Names X ↔ GuardMeans X (pc.bind typeGuard) ∧ OfType S X c := by
    intro g hg X
    have := guardMeans_combine (T := X) (pc.bind typeGuard) (some (fragCond S c))
    rw [hg] at this
    exact this.trans (and_congr Iff.rfl (names_fragCond hS X c))
  refine ⟨frag_plain h.plain c si ii, ?_, ?_, ?_⟩ <;> rw [frag_guard]
  · rintro T ⟨hT, hc⟩
    rw [guardMeans_combine]
    exact ⟨h.acc T hT, (names_fragCond hS T c).2 hc⟩
  · intro g hg X hX
    exact ((hn g hg X).1 hX).2
  · intro g hg A B hA hB
    rw [hn g hg] at hA ⊢
    refine ⟨?_, hS.trans B A c hB hA.2⟩
    have hc := h.closed
    have h1 := hA.1
    revert hc h1
    cases pc.bind typeGuard with
    | none => intros; trivial
    | some g' => intro hc h1; exact hc g' rfl A B h1 hB

/-! ## Selections -/

theorem collects_mem {V : Val} {T : String} {s : List Item} {k n : String} {sub : List Item}
    (h : Collects S V T s k n sub) : ∃ x ∈ s, Collects S V T [x] k n sub := by
  cases h with
  | field hm hl => exact ⟨_, hm, .field (List.mem_singleton.2 rfl) hl⟩
  | frag hm hl ht hc => exact ⟨_, hm, .frag (by simp) hl ht hc⟩

theorem collects_sub {V : Val} {T : String} {s s' : List Item} {k n : String} {sub : List Item}
    (hs : ∀ x ∈ s, x ∈ s') (h : Collects S V T s k n sub) : Collects S V T s' k n sub := by
  cases h with
  | field hm hl => exact .field (hs _ hm) hl
  | frag hm hl ht hc => exact .frag (hs _ hm) hl ht hc

theorem asks_split {V : Val} {x : Item} {r : List Item} {path : List Step} (hne : path ≠ []) :
    Asks S V (x :: r) path ↔ Asks S V [x] path ∨ Asks S V r path := by
  cases path with
  | nil => simp at hne
  | cons st rest =>
    simp only [Asks]
    constructor
    · rintro ⟨sub, hc, ha⟩
      obtain ⟨y, hy, hc'⟩ := collects_mem hc
      rcases List.mem_cons.1 hy with h | hy
      · subst h; exact Or.inl ⟨sub, hc', ha⟩
      · exact Or.inr ⟨sub, collects_sub (by simpa using hy) hc', ha⟩
    · rintro (⟨sub, hc, ha⟩ | ⟨sub, hc, ha⟩)
      · exact ⟨sub, collects_sub (by simp) hc, ha⟩
      · exact ⟨sub, collects_sub (by simp +contextual) hc, ha⟩

theorem asks_none {V : Val} {path : List Step} (hne : path ≠ []) : ¬ Asks S V [] path := by
  cases path with
  | nil => simp at hne
  | cons st rest =>
    rintro ⟨sub, hc, _⟩
    obtain ⟨x, hx, _⟩ := collects_mem hc
    simp at hx

theorem asks_field {V : Val} {a : Option String} {n : String} {args} {si ii : Option String}
    {sub : List Item} {st : Step} {rest : List Step} :
    Asks S V [.field a n args si ii false sub] (st :: rest) ↔
      st.key = a.getD n ∧ st.name = n ∧ Lets V si ii ∧ Asks S V sub rest := by
  simp only [Asks]
  constructor
  · rintro ⟨sub', hc, ha⟩
    generalize hs : [Item.field a n args si ii false sub] = s at hc
    generalize hk : st.key = k at hc
    generalize hn : st.name = nn at hc
    cases hc with
    | field hm hl =>
      subst hs
      simp only [List.mem_singleton, Item.field.injEq] at hm
      obtain ⟨rfl, rfl, rfl, rfl, rfl, _, rfl⟩ := hm
      exact ⟨rfl, rfl, hl, ha⟩
    | frag hm => subst hs; simp at hm
  · rintro ⟨h1, h2, h3, h4⟩
    refine ⟨sub, ?_, h4⟩
    rw [h1, h2]
    exact .field (List.mem_singleton.2 rfl) h3

theorem asks_frag {V : Val} {c : String} {si ii : Option String}
    {sub : List Item} {st : Step} {rest : List Step} :
    Asks S V [.frag c si ii sub] (st :: rest) ↔
      OfType S st.type c ∧ Lets V si ii ∧ Asks S V sub (st :: rest) := by
  simp only [Asks]
  constructor
  · rintro ⟨sub', hc, ha⟩
    generalize hs : [Item.frag c si ii sub] = s at hc
    generalize hk : st.key = k at hc ⊢
    generalize hn : st.name = nn at hc ⊢
    cases hc with
    | field hm hl => subst hs; simp at hm
    | frag hm hl ht hc =>
      subst hs
      simp only [List.mem_singleton, Item.frag.injEq] at hm
      obtain ⟨rfl, rfl, rfl, rfl⟩ := hm
      exact ⟨ht, hl, sub', hc, ha⟩
  · rintro ⟨h1, h2, sub', h3, h4⟩
    exact ⟨sub', .frag (by simp) h2 h1 h3, h4⟩

/-! ## The shape of what is built -/

theorem closed_frag (hS : MetaOk S) (c : String) : Closed S (some (fragCond S c)) := by
  intro tc h A B hA hB
  cases h
  rw [names_fragCond hS] at hA ⊢
  exact hS.trans B A c hB hA

theorem mkPlan_stat {d : Nat} {i : PlanInfo} (hc : Closed S i.guard) (om : Bool) {cs : List Plan}
    (hcs : ∀ c ∈ cs, Stat S d c) (hx : cs.Pairwise Apart) : Stat S (d + 1) (mkPlan i om cs) := by
  unfold mkPlan
  split
  · exact .node _ _ _ hc (by simp) (by simp)
  · split
    · exact .leaf _ _ hc
    · exact .node _ _ _ hc hcs hx

mutual
theorem addItem_stat (hS : MetaOk S) {k : Nat} : ∀ (x : Item) {d : Nat} {P : String}
    {D : String → Prop} {pc : Option Cond} {m : Variants}, PcOk S P D pc → depth1 x ≤ d → d ≤ k →
    VarOk S d m → VarOk S d (addItem S k P pc m x)
  | .field als n args si ii om sub, d, P, D, pc, m, hpc, hd, hk, hm => by
    simp only [addItem]
    cases hf : fieldInfo S P n with
    | none => exact hm
    | some ft =>
      simp only
      have hds : depth sub + 1 ≤ d := by simpa [depth1] using hd
      obtain ⟨d, rfl⟩ : ∃ d', d = d' + 1 := ⟨d - 1, by omega⟩
      have hv := addItems_stat hS (k := k) sub (m := []) (child_ok hS hpc ft.out si ii)
        (show depth sub ≤ d by omega) (by omega) (VarOk.nil d)
      obtain ⟨h1, h2⟩ := resolve_ok hS (keeps hS (show d ≤ k by omega) ft.out) (P := ft.out) hv
      exact mergePlan_ok (keeps hS hk P) (mkPlan_stat hpc.closed _ h1 h2) hm
  | .frag c si ii sub, d, P, D, pc, m, hpc, hd, hk, hm => by
    simp only [addItem]
    have hds : depth sub + 1 ≤ d := by simpa [depth1] using hd
    have hv := addItems_stat hS (k := k) sub (d := d) (m := []) (frag_ok hS hpc c si ii)
      (by omega) hk (VarOk.nil d)
    obtain ⟨h1, _⟩ := resolve_ok hS (keeps hS hk c) (P := c) hv
    refine foldPlan_ok (keeps hS hk P) ?_ hm
    intro p hp
    obtain ⟨q, hq, rfl⟩ := List.mem_map.1 hp
    exact (h1 q hq).setGuard (closed_frag hS c)
  | .spread _, d, P, D, pc, m, hpc, hd, hk, hm => by
    simp only [addItem]; exact hm
theorem addItems_stat (hS : MetaOk S) {k : Nat} : ∀ (s : List Item) {d : Nat} {P : String}
    {D : String → Prop} {pc : Option Cond} {m : Variants}, PcOk S P D pc → depth s ≤ d → d ≤ k →
    VarOk S d m → VarOk S d (addItems S k P pc m s)
  | [], d, P, D, pc, m, hpc, hd, hk, hm => by simp only [addItems]; exact hm
  | x :: r, d, P, D, pc, m, hpc, hd, hk, hm => by
    simp only [addItems]
    have hd' : depth1 x ≤ d ∧ depth r ≤ d := by simp only [depth] at hd; omega
    exact addItems_stat hS r hpc hd'.2 hk (addItem_stat hS x hpc hd'.1 hk hm)
end

/-! ## Plans of a fragment -/

/-- The field is one of a type that covers `P`. -/
def Wide (S : Meta) (P : String) (i : PlanInfo) : Prop :=
  ∃ Q ft, fieldInfo S Q i.fieldName = some ft ∧ ∀ X, OfType S X P → OfType S X Q

/-- A plan of a fragment: it covers the fragment's types. -/
def Covers (S : Meta) (P : String) (D : String → Prop) (i : PlanInfo) : Prop :=
  Wide S P i ∧ ∀ T, D T → GuardMeans T i.guard

theorem mergePlan_from {mm : Plan → Plan → Plan} {R : Plan → Prop}
    (hR : ∀ e n, R e → R (mm e n)) {p : Plan} (hp : R p) : ∀ {m : Variants},
    (∀ x ∈ flat m, R x) → ∀ x ∈ flat (mergePlan mm p m), R x := by
  have hv : ∀ vs : List Plan, (∀ x ∈ vs, R x) → ∀ x ∈ mergeVariant mm p vs, R x := by
    intro vs hvs x hx
    rcases mem_mergeVariant hx with h | rfl | ⟨v, h, rfl⟩
    · exact hvs x h
    · exact hp
    · exact hR v p (hvs v h)
  intro m
  induction m with
  | nil => intro _ x hx; simp [mergePlan, flat] at hx; subst hx; exact hp
  | cons e m ih =>
    obtain ⟨k, vs⟩ := e
    intro hm x hx
    have h1 : ∀ x ∈ vs, R x := fun x hx => hm x (by simp only [flat, List.flatMap_cons, List.mem_append]; exact Or.inl hx)
    have h2 : ∀ x ∈ flat m, R x := fun x hx => hm x (by simp only [flat, List.flatMap_cons, List.mem_append] at hx ⊢; exact Or.inr hx)
    simp only [mergePlan] at hx
    split at hx
    · simp only [flat, List.flatMap_cons, List.mem_append] at hx
      rcases hx with hx | hx
      · exact hv vs h1 x hx
      · exact h2 x hx
    · simp only [flat, List.flatMap_cons, List.mem_append] at hx
      rcases hx with hx | hx
      · exact h1 x hx
      · exact ih h2 x hx

theorem foldPlan_from {mm : Plan → Plan → Plan} {R : Plan → Prop}
    (hR : ∀ e n, R e → R (mm e n)) : ∀ {ps : List Plan}, (∀ p ∈ ps, R p) → ∀ {m : Variants},
    (∀ x ∈ flat m, R x) → ∀ x ∈ flat (ps.foldl (fun m p => mergePlan mm p m) m), R x := by
  intro ps
  induction ps with
  | nil => intro _ m hm; exact hm
  | cons p ps ih =>
    intro hp m hm
    exact ih (fun q hq => hp q (by simp [hq])) (mergePlan_from hR (hp p (by simp)) hm)

theorem covers_merge {k : Nat} {P P' : String} {D : String → Prop} (e n : Plan)
    (h : Covers S P D e.info) : Covers S P D (mergeMatching S k P' e n).info := by
  simpa [Covers, Wide] using h

theorem resolve_name {k : Nat} {P P' : String} {m : Variants} :
    ∀ p ∈ resolve S (mergeMatching S k P') P m, ∃ v ∈ flat m, p.info.fieldName = v.info.fieldName := by
  intro p hp
  obtain ⟨e, he, hp⟩ := List.mem_flatMap.1 hp
  obtain ⟨v, hv, h⟩ := resolveKey_name (fun e n => by simp) p hp
  exact ⟨v, mem_flat.2 ⟨e, he, hv⟩, h⟩

mutual
theorem addItem_covers (hS : MetaOk S) {k : Nat} : ∀ (x : Item) {P : String}
    {D : String → Prop} {pc : Option Cond} {m : Variants}, PcOk S P D pc →
    (∀ T, D T → OfType S T P) → ItemOk S P D true x → (∀ v ∈ flat m, Covers S P D v.info) →
    ∀ v ∈ flat (addItem S k P pc m x), Covers S P D v.info
  | .field als n args si ii om sub, P, D, pc, m, hpc, hD, hx, hm => by
    simp only [addItem]
    cases hf : fieldInfo S P n with
    | none => exact hm
    | some ft =>
      simp only
      refine mergePlan_from (R := fun p => Covers S P D p.info) (fun e n => covers_merge e n) ?_ hm
      have hi : ∀ om cs, (mkPlan (planInfo S pc als n ft si ii) om cs).info =
          planInfo S pc als n ft si ii := by
        intro om cs; unfold mkPlan; split
        · rfl
        · split <;> rfl
      show Covers S P D (mkPlan _ _ _).info
      rw [hi]
      exact ⟨⟨P, ft, hf, fun X h => h⟩, hpc.acc⟩
  | .frag c si ii sub, P, D, pc, m, hpc, hD, hx, hm => by
    simp only [addItem]
    cases hx with
    | frag hsub hin =>
      have ih := addItems_covers hS (k := k) sub (m := []) (frag_ok hS hpc c si ii)
        (fun T hT => hT.2) hsub (by simp [flat])
      refine foldPlan_from (R := fun p => Covers S P D p.info) (fun e n => covers_merge e n) ?_ hm
      intro p hp
      obtain ⟨q, hq, rfl⟩ := List.mem_map.1 hp
      obtain ⟨v, hv, hn⟩ := resolve_name q hq
      obtain ⟨⟨Q, ft, h1, h2⟩, _⟩ := ih v hv
      refine ⟨⟨Q, ft, by simpa [hn] using h1, fun X h => h2 X (hin rfl X h)⟩, ?_⟩
      intro T hT
      simp only [setGuard_guard, GuardMeans]
      exact (names_fragCond hS T c).2 (hin rfl T (hD T hT))
  | .spread _, P, D, pc, m, hpc, hD, hx, hm => by
    simp only [addItem]; exact hm
theorem addItems_covers (hS : MetaOk S) {k : Nat} : ∀ (s : List Item) {P : String}
    {D : String → Prop} {pc : Option Cond} {m : Variants}, PcOk S P D pc →
    (∀ T, D T → OfType S T P) → (∀ x ∈ s, ItemOk S P D true x) →
    (∀ v ∈ flat m, Covers S P D v.info) →
    ∀ v ∈ flat (addItems S k P pc m s), Covers S P D v.info
  | [], P, D, pc, m, hpc, hD, hx, hm => by simp only [addItems]; exact hm
  | x :: r, P, D, pc, m, hpc, hD, hx, hm => by
    simp only [addItems]
    exact addItems_covers hS r hpc hD (fun y hy => hx y (by simp [hy]))
      (addItem_covers hS x hpc hD (hx x (by simp)) hm)
end

/-! ## One field -/

theorem fieldInfo_sub (hS : MetaOk S) {P T n : String} {ft : FieldType} (hT : OfType S T P)
    (hf : fieldInfo S P n = some ft) : ∃ ft', fieldInfo S T n = some ft' ∧ ft'.out = ft.out := by
  unfold fieldInfo at hf ⊢
  split
  · rename_i h; rw [if_pos h] at hf; cases hf; exact ⟨_, rfl, rfl⟩
  · rename_i h; rw [if_neg h] at hf; exact hS.fields P T n ft hT hf

theorem field_inv (hS : MetaOk S) {P T : String} {D : String → Prop} {pc : Option Cond}
    (hpc : PcOk S P D pc) (hT : D T) (hTP : OfType S T P) {n : String} {ft : FieldType}
    (hf : fieldInfo S P n = some ft) (als si ii : Option String) :
    let i := planInfo S pc als n ft si ii
    HoldsOpt .free T i.conditions ∧ Owner S P T i ∧
      (i.isTypename = (i.fieldName == "__typename") ∧
        ∀ f v, GoodData S T i.fieldName f v → AtomsOpt f v i.conditions) := by
  intro i
  refine ⟨?_, ?_, ?_⟩
  · refine (holds_fieldConditions (hpc.acc T hT)).2 ⟨?_, lets_free si ii⟩
    exact (holds_pc hpc hT _).2 (dirsOpt_free hpc.plain)
  · refine ⟨P, ft, hf, hTP, fun _ => rfl, ?_⟩
    intro g hg
    refine ⟨⟨T, ?_⟩, hpc.names g hg⟩
    have := hpc.acc T hT
    rw [show pc.bind typeGuard = some g from hg] at this
    exact this
  · refine ⟨rfl, ?_⟩
    intro f v hd
    obtain ⟨ft', h1, h2⟩ := fieldInfo_sub hS hTP hf
    obtain ⟨h3, h4⟩ := hd ft' h1
    rw [h2] at h3 h4
    exact atoms_fieldConditions hS hpc.plain h3 h4

theorem field_type (hS : MetaOk S) {P T n : String} {ft ft' : FieldType} (hT : OfType S T P)
    (hn : n ≠ "__typename") (hf : fieldInfo S P n = some ft) (hft : S.field T n = some ft') :
    ft'.out = ft.out := by
  rw [fieldInfo, if_neg hn] at hf
  obtain ⟨f, h1, h2⟩ := hS.fields P T n ft hT hf
  rw [hft] at h1; cases h1; exact h2

end Verif.Builder
