import Verif.Builder.Items

/-!
# The plans of a selection set show what it asks for
-/

namespace Verif.Builder

open Verif.Projection
open Verif.Normalize (Item)

variable {S : Meta}

/-- What is known of the map so far, and what it shows of the selections `s`. -/
structure Built (S : Meta) (P : String) (D : String → Prop) (pc : Option Cond) (m m' : Variants)
    (s : List Item) : Prop where
  good : ∀ x ∈ flat m', Good S P D x
  shows : ∀ V path, path ≠ [] → Fits S D path →
    (Shows V (flat m') path ↔ Shows V (flat m) path ∨ (DirsOpt V pc ∧ Asks S V s path))

/-- A field's plan, before it is put in the map. -/
structure FieldPlan (S : Meta) (P : String) (D : String → Prop) (pc : Option Cond) (p : Plan)
    (x : Item) : Prop where
  good : Good S P D p
  shows : ∀ V path, path ≠ [] → Fits S D path →
    (Shows V [p] path ↔ DirsOpt V pc ∧ Asks S V [x] path)

theorem fieldPlan_of (hS : MetaOk S) {P : String} {D : String → Prop} {pc : Option Cond}
    (hpc : PcOk S P D pc) (hD : ∀ T, D T → Obj S P T) {n : String} {ft : FieldType}
    (hf : fieldInfo S P n = some ft) (als : Option String) (args) (si ii : Option String)
    (sub : List Item) {p : Plan} (hi : p.info = planInfo S pc als n ft si ii)
    (hnull : ∀ i, p ≠ .null i)
    (hleaf : ∀ i, n ≠ "__typename" → p = .leaf i → ∀ T, ¬ Obj S ft.out T)
    (hkids : n ≠ "__typename" → ∀ c ∈ kids p, Good S ft.out (Obj S ft.out) c)
    (hbelow : n ≠ "__typename" → ∀ V rest, rest ≠ [] → Fits S (Obj S ft.out) rest →
      (DirsOpt V pc ∧ Lets V si ii ∧ Below V p rest ↔ DirsOpt V pc ∧ Lets V si ii ∧ Asks S V sub rest))
    (hcarry : n ≠ "__typename" → ∀ V rest, rest ≠ [] → Fits S (Obj S ft.out) rest → Below V p rest →
      DirsOpt V pc ∧ Lets V si ii) :
    FieldPlan S P D pc p (.field als n args si ii false sub) := by
  have hname : p.info.fieldName = n := by rw [hi]; rfl
  have hguard : p.info.guard = pc.bind typeGuard := by rw [hi]; rfl
  have hcond : p.info.conditions = fieldConditions S pc ft.out si ii := by rw [hi]; rfl
  have hholds : ∀ T, D T → ∀ V, HoldsOpt V T p.info.conditions ↔ DirsOpt V pc ∧ Lets V si ii := by
    intro T hT V
    rw [hcond, holds_fieldConditions (hpc.acc T hT), holds_pc hpc hT]
  have hgood : Good S P D p := by
    intro T hT _
    obtain ⟨i1, i2, i3⟩ := field_inv hS hpc hT (hD T hT).2 hf als si ii
    rw [← hi] at i1 i2 i3
    refine .mk i1 i2 i3 hnull ?_ ?_ ?_
    · intro ft' hn hft V rest hr hfit hb
      rw [hname] at hn hft
      rw [field_type hS (hD T hT).2 hn hf hft] at hfit
      exact (hholds T hT V).2 (hcarry hn V rest hr hfit hb)
    · intro ft' i hn hft hp T'
      rw [hname] at hn hft
      rw [field_type hS (hD T hT).2 hn hf hft]
      exact hleaf i hn hp T'
    · intro ft' hn hft c hc T' hT' hg
      rw [hname] at hn hft
      rw [field_type hS (hD T hT).2 hn hf hft] at hT' ⊢
      exact hkids hn c hc T' hT' hg
  refine ⟨hgood, ?_⟩
  intro V path hne hfit
  cases path with
  | nil => simp at hne
  | cons st rest =>
    have hT : D st.type := hfit.1
    rw [shows_cons, asks_field]
    simp only [List.mem_singleton, exists_eq_left]
    rw [hname, hguard, hholds _ hT V]
    have hk : p.info.responseKey = als.getD n := by rw [hi]; rfl
    rw [hk]
    have hb : st.name = n → ((DirsOpt V pc ∧ Lets V si ii) ∧ Below V p rest ↔
        (DirsOpt V pc ∧ Lets V si ii) ∧ Asks S V sub rest) := by
      intro hn
      by_cases hr : rest = []
      · subst hr
        have h1 : Below V p [] := by
          cases p with
          | null i => exact absurd rfl (hnull i)
          | leaf i => trivial
          | node i cs => exact shows_nil (V := V) (ps := cs)
        simp [h1, Asks]
      · rcases hfit.2 with h | ⟨hn', ft', hft, hf'⟩
        · exact absurd h hr
        · rw [hn] at hn' hft
          rw [field_type hS (hD _ hT).2 hn' hf hft] at hf'
          have := hbelow hn' V rest hr hf'
          grind
    have hacc := hpc.acc _ hT
    constructor
    · rintro ⟨h1, h2, _, h3, h4⟩
      obtain ⟨⟨h5, h6⟩, h7⟩ := (hb h2.symm).1 ⟨h3, h4⟩
      exact ⟨h5, h1.symm, h2.symm, h6, h7⟩
    · rintro ⟨h1, h2, h3, h4, h5⟩
      obtain ⟨h6, h7⟩ := (hb h3).2 ⟨⟨h1, h4⟩, h5⟩
      exact ⟨h2.symm, h3.symm, hacc, h6, h7⟩

theorem mkPlan_info (i : PlanInfo) (om : Bool) (cs : List Plan) : (mkPlan i om cs).info = i := by
  unfold mkPlan; split
  · rfl
  · split <;> rfl

theorem fits_mono {D D' : String → Prop} (h : ∀ T, D T → D' T) {path : List Step}
    (hf : Fits S D path) : Fits S D' path := by
  cases path with
  | nil => trivial
  | cons st rest => exact ⟨h _ hf.1, hf.2⟩

theorem built_step {d k : Nat} (hS : MetaOk S) (hk : d ≤ k) {P : String} {D : String → Prop}
    {pc : Option Cond} (hpc : PcOk S P D pc) {m : Variants} (hm : VarOk S d m)
    (hg : ∀ x ∈ flat m, Good S P D x) {x : Item} {ps : List Plan} (hps : ∀ p ∈ ps, Stat S d p)
    (hgp : ∀ p ∈ ps, Good S P D p)
    (hsh : ∀ V path, path ≠ [] → Fits S D path →
      (Shows V ps path ↔ DirsOpt V pc ∧ Asks S V [x] path))
    (hu : Unambiguous S D (fun path => Shows .free (flat m) path ∨ Asks S .free [x] path)) :
    Built S P D pc m (ps.foldl (fun m p => mergePlan (mergeMatching S k P) p m) m) [x] := by
  have hu' : Unambiguous S D (Shows .free (flat m ++ ps)) := by
    refine (unambiguous_congr ?_).2 hu
    intro path hne hf
    rw [shows_append hne, hsh _ path hne hf]
    simp [dirsOpt_free hpc.plain]
  obtain ⟨h1, h2⟩ := foldPlan_level (mergeMatching_ok hS k d P hk) (keeps hS hk P) hm hps
    (by
      intro y hy
      rcases List.mem_append.1 hy with h | h
      · exact hg y h
      · exact hgp y h) hu'
  refine ⟨h1, ?_⟩
  intro V path hne hf
  rw [h2 V path hf, shows_append hne, hsh V path hne hf]

theorem built_empty {P : String} {D : String → Prop} {pc : Option Cond} {m m' : Variants}
    {s : List Item} (h : ∀ T, ¬ D T) : Built S P D pc m m' s := by
  refine ⟨fun x _ T hT => absurd hT (h T), ?_⟩
  intro V path hne hf
  cases path with
  | nil => simp at hne
  | cons st rest => exact absurd hf.1 (h _)

/-- A plan of a fragment, with the fragment's guard. -/
theorem reguard (hS : MetaOk S) {P c T : String} {p : Plan} (h : AtInv S c T p)
    (hT : OfType S T c) (hw : Wide S c p.info) : AtInv S P T (setGuard (fragCond S c) p) := by
  refine .mk (by simpa using h.free) ?_ (by simpa using h.data) ?_ ?_ ?_ (by simpa using h.inner)
  · obtain ⟨Q, ft, h1, h2⟩ := hw
    refine ⟨Q, ft, by simpa using h1, h2 T hT, by simp, ?_⟩
    intro g hg
    have : fragCond S c = g := by simpa using hg
    subst this
    exact ⟨⟨T, (names_fragCond hS T c).2 hT⟩, fun X hX => h2 X ((names_fragCond hS X c).1 hX)⟩
  · intro i hi
    cases p with
    | null j => exact h.notNull j rfl
    | leaf j => simp [setGuard] at hi
    | node j cs => simp [setGuard] at hi
  · intro ft hn hft V rest hr hf hb
    have := h.carried ft (by simpa using hn) (by simpa using hft) V rest hr hf
      ((setGuard_below V _ p rest).1 hb)
    simpa using this
  · intro ft i hn hft hi
    cases p with
    | null j => exact absurd rfl (h.notNull j)
    | leaf j => exact h.isLeaf ft j (by simpa using hn) (by simpa using hft) rfl
    | node j cs => simp [setGuard] at hi

theorem asks_omitted {V : Val} {x : Item} (hx : onlyOmitted [x] = true) {path : List Step}
    (hne : path ≠ []) : ¬ Asks S V [x] path := by
  cases path with
  | nil => simp at hne
  | cons st rest =>
    rintro ⟨sub, hc, _⟩
    generalize hs : [x] = s at hc
    generalize st.key = k at hc
    generalize st.name = n at hc
    cases hc with
    | field hm hl =>
      subst hs
      simp only [List.mem_singleton] at hm
      subst hm
      simp [onlyOmitted] at hx
    | frag hm =>
      subst hs
      simp only [List.mem_singleton] at hm
      subst hm
      simp [onlyOmitted] at hx

/-- The selections of a field: what is built for them, resolved. -/
theorem level (hS : MetaOk S) {k d : Nat} (hk : d ≤ k) {P : String} {D : String → Prop}
    {pc : Option Cond} (hpc : PcOk S P D pc) (hD : ∀ T, D T → Obj S P T) {s : List Item}
    (hv : VarOk S d (addItems S k P pc [] s))
    (hb : Built S P D pc [] (addItems S k P pc [] s) s)
    (hu : Unambiguous S D (Asks S .free s)) :
    (∀ p ∈ fromSelectionSet S k P pc s, Good S P D p) ∧
    ∀ V path, path ≠ [] → Fits S D path →
      (Shows V (fromSelectionSet S k P pc s) path ↔ DirsOpt V pc ∧ Asks S V s path) := by
  have hsh : ∀ V path, path ≠ [] → Fits S D path →
      (Shows V (flat (addItems S k P pc [] s)) path ↔ DirsOpt V pc ∧ Asks S V s path) := by
    intro V path hne hf
    rw [hb.shows V path hne hf]
    have : ¬ Shows V (flat []) path := shows_empty hne
    simp [this]
  have hu' : Unambiguous S D (Shows .free (flat (addItems S k P pc [] s))) := by
    refine (unambiguous_congr ?_).2 hu
    intro path hne hf
    rw [hsh _ path hne hf]
    simp [dirsOpt_free hpc.plain]
  obtain ⟨h1, h2⟩ := resolve_strict hS (mergeMatching_ok hS k d P hk) (keeps hS hk P) hD hv hb.good hu'
  refine ⟨h1, ?_⟩
  intro V path hne hf
  rw [← hsh V path hne hf]
  exact h2 V path hf

mutual
theorem addItem_ok (hS : MetaOk S) {k : Nat} : ∀ (x : Item) {d : Nat} {P : String}
    {D : String → Prop} {inside : Bool} {pc : Option Cond} {m : Variants}, PcOk S P D pc →
    (∀ T, D T → Obj S P T) → ItemOk S P D inside x → depth1 x ≤ d → d ≤ k → VarOk S d m →
    (∀ v ∈ flat m, Good S P D v) →
    Unambiguous S D (fun path => Shows .free (flat m) path ∨ Asks S .free [x] path) →
    Built S P D pc m (addItem S k P pc m x) [x]
  | .field als n args si ii om sub, d, P, D, inside, pc, m, hpc, hD, hx, hd, hk, hm, hg, hu => by
    by_cases hne : ∃ T, D T
    case neg => exact built_empty (fun T hT => hne ⟨T, hT⟩)
    case pos =>
    obtain ⟨T0, hT0⟩ := hne
    have hds : depth sub + 1 ≤ d := by simpa [depth1] using hd
    obtain ⟨d, rfl⟩ : ∃ d', d = d' + 1 := ⟨d - 1, by omega⟩
    have one : ∀ ft, fieldInfo S P n = some ft → om = false →
        FieldPlan S P D pc (mkPlan (planInfo S pc als n ft si ii) (onlyOmitted sub)
          (fromSelectionSet S k ft.out (childCondition S pc ft.out si ii) sub))
          (.field als n args si ii false sub) →
        Built S P D pc m (addItem S k P pc m (.field als n args si ii om sub))
          [.field als n args si ii om sub] := by
      intro ft hf hom hfp
      subst hom
      have hv := addItems_stat hS (k := k) sub (m := []) (child_ok hS hpc ft.out si ii)
        (show depth sub ≤ d by omega) (by omega) (VarOk.nil d)
      obtain ⟨s1, s2⟩ := resolve_ok hS (keeps hS (show d ≤ k by omega) ft.out) (P := ft.out) hv
      have := built_step hS hk hpc hm hg (ps := [mkPlan (planInfo S pc als n ft si ii)
          (onlyOmitted sub) (fromSelectionSet S k ft.out (childCondition S pc ft.out si ii) sub)])
        (by intro p hp
            simp only [List.mem_singleton] at hp
            subst hp
            exact mkPlan_stat hpc.closed _ s1 s2)
        (by intro p hp
            simp only [List.mem_singleton] at hp
            subst hp
            exact hfp.good) hfp.shows hu
      simp only [addItem, hf]
      exact this
    cases hx with
    | typename =>
      refine one ⟨"String", .leaf true⟩ (by simp [fieldInfo]) rfl ?_
      refine fieldPlan_of hS hpc hD (by simp [fieldInfo]) als args si ii [] (mkPlan_info _ _ _)
        ?_ ?_ ?_ ?_ ?_
      · intro i; simp [mkPlan, onlyOmitted, fromSelectionSet, addItems, resolve]
      · exact fun _ h => absurd rfl h
      · exact fun h => absurd rfl h
      · exact fun h => absurd rfl h
      · exact fun h => absurd rfl h
    | leaf hn hf hobj =>
      rename_i ft
      have hfi : fieldInfo S P n = some ft := by rw [fieldInfo, if_neg hn]; exact hf
      have hp : mkPlan (planInfo S pc als n ft si ii) (onlyOmitted [])
          (fromSelectionSet S k ft.out (childCondition S pc ft.out si ii) []) =
          .leaf (planInfo S pc als n ft si ii) := by
        simp [mkPlan, onlyOmitted, fromSelectionSet, addItems, resolve]
      refine one ft hfi rfl ?_
      rw [hp]
      refine fieldPlan_of hS hpc hD hfi als args si ii [] rfl (by simp) ?_ ?_ ?_ ?_
      · intro _ _ _ T; exact hobj T
      · intro _ c hc; simp [kids] at hc
      · intro _ V rest hr hfit
        obtain ⟨T, hT⟩ := fits_obj hr hfit
        exact absurd hT (hobj T)
      · intro _ V rest hr hfit
        obtain ⟨T, hT⟩ := fits_obj hr hfit
        exact absurd hT (hobj T)
    | omitted hn hf hom =>
      rename_i ft x
      have hfi : fieldInfo S P n = some ft := by rw [fieldInfo, if_neg hn]; exact hf
      have hp : mkPlan (planInfo S pc als n ft si ii) (onlyOmitted [x])
          (fromSelectionSet S k ft.out (childCondition S pc ft.out si ii) [x]) =
          .node (planInfo S pc als n ft si ii) [] := by
        simp [mkPlan, hom]
      refine one ft hfi rfl ?_
      rw [hp]
      refine fieldPlan_of hS hpc hD hfi als args si ii [x] rfl (by simp) (by simp) ?_ ?_ ?_
      · intro _ c hc; simp [kids] at hc
      · intro _ V rest hr hfit
        have h1 : ¬ Asks S V [x] rest := asks_omitted hom hr
        have h2 : ¬ Below V (.node (planInfo S pc als n ft si ii) []) rest := shows_empty hr
        simp [h1, h2]
      · intro _ V rest hr hfit hb
        exact absurd hb (shows_empty hr)
    | node hn hf hsub hsome =>
      rename_i ft
      have hfi : fieldInfo S P n = some ft := by rw [fieldInfo, if_neg hn]; exact hf
      refine one ft hfi rfl ?_
      have hpc' := child_ok hS hpc ft.out si ii
      have hdk : d ≤ k := by omega
      have hsd : depth sub ≤ d := by omega
      obtain ⟨fT, hfT, hout⟩ := hS.fields P T0 n ft (hD T0 hT0).2 hf
      have husub : Unambiguous S (Obj S ft.out) (Asks S .free sub) := by
        intro pre a b ha hb ht hkey sa sb
        refine hu (⟨T0, als.getD n, n⟩ :: pre) a b
          ⟨hT0, Or.inr ⟨hn, fT, hfT, by rw [hout]; exact ha⟩⟩
          ⟨hT0, Or.inr ⟨hn, fT, hfT, by rw [hout]; exact hb⟩⟩ ht hkey (Or.inr ?_) (Or.inr ?_)
        · exact asks_field.2 ⟨rfl, rfl, lets_free si ii, sa⟩
        · exact asks_field.2 ⟨rfl, rfl, lets_free si ii, sb⟩
      have hv := addItems_stat hS (k := k) sub (m := []) hpc' hsd hdk (VarOk.nil d)
      have hb := addItems_ok hS (k := k) sub (m := []) hpc' (fun _ h => h) hsub hsd hdk (VarOk.nil d)
        (by simp [flat]) (by
          refine (unambiguous_congr ?_).2 husub
          intro path hne hf
          have : ¬ Shows .free (flat []) path := shows_empty hne
          simp [this])
      obtain ⟨l1, l2⟩ := level hS hdk hpc' (fun _ h => h) hv hb husub
      have hcs : fromSelectionSet S k ft.out (childCondition S pc ft.out si ii) sub ≠ [] := by
        obtain ⟨T, key, nm, sub', hT, hc⟩ := hsome
        intro he
        have := (l2 .free [⟨T, key, nm⟩] (by simp) ⟨hT, Or.inl rfl⟩).2
          ⟨dirsOpt_free hpc'.plain, sub', hc, by simp [Asks]⟩
        rw [he] at this
        exact shows_empty (by simp) this
      have hom : onlyOmitted sub = false := by
        obtain ⟨T, key, nm, sub', hT, hc⟩ := hsome
        cases hom : onlyOmitted sub with
        | false => rfl
        | true =>
          exfalso
          match sub, hom with
          | [x], hom =>
            exact asks_omitted (S := S) (V := .free) (path := [⟨T, key, nm⟩]) hom (by simp)
              ⟨sub', hc, by simp [Asks]⟩
          | [], hom => simp [onlyOmitted] at hom
          | .field _ _ _ _ _ _ _ :: _ :: _, hom => simp [onlyOmitted] at hom
          | .frag _ _ _ _ :: _ :: _, hom => simp [onlyOmitted] at hom
          | .spread _ :: _ :: _, hom => simp [onlyOmitted] at hom
      have hp : mkPlan (planInfo S pc als n ft si ii) (onlyOmitted sub)
          (fromSelectionSet S k ft.out (childCondition S pc ft.out si ii) sub) =
          .node (planInfo S pc als n ft si ii)
            (fromSelectionSet S k ft.out (childCondition S pc ft.out si ii) sub) := by
        simp [mkPlan, hom, hcs]
      rw [hp]
      refine fieldPlan_of hS hpc hD hfi als args si ii sub rfl (by simp) (by simp) ?_ ?_ ?_
      · intro _ c hc; exact l1 c hc
      · intro _ V rest hr hfit
        have h1 := l2 V rest hr hfit
        rw [child_dirs hpc.plain] at h1
        have h2 : Below V (.node (planInfo S pc als n ft si ii)
            (fromSelectionSet S k ft.out (childCondition S pc ft.out si ii) sub)) rest ↔ _ := h1
        rw [h2]; grind
      · intro _ V rest hr hfit hb
        have h1 := l2 V rest hr hfit
        rw [child_dirs hpc.plain] at h1
        exact (h1.1 hb).1
  | .frag c si ii sub, d, P, D, inside, pc, m, hpc, hD, hx, hd, hk, hm, hg, hu => by
    cases hx with
    | frag hsub hin =>
      have hds : depth sub + 1 ≤ d := by simpa [depth1] using hd
      have hpc' := frag_ok hS hpc c si ii
      have hD' : ∀ T, (D T ∧ OfType S T c) → Obj S c T := fun T h => ⟨(hD T h.1).1, h.2⟩
      have hsd : depth sub ≤ d := by omega
      have husub : Unambiguous S (fun T => D T ∧ OfType S T c) (Asks S .free sub) := by
        intro pre a b ha hb ht hkey sa sb
        refine hu pre a b (fits_mono (fun _ h => h.1) ha) (fits_mono (fun _ h => h.1) hb) ht hkey
          (Or.inr ?_) (Or.inr ?_)
        · cases pre with
          | nil => exact asks_frag.2 ⟨ha.1.2, lets_free si ii, sa⟩
          | cons st pre => exact asks_frag.2 ⟨ha.1.2, lets_free si ii, sa⟩
        · cases pre with
          | nil => exact asks_frag.2 ⟨hb.1.2, lets_free si ii, sb⟩
          | cons st pre => exact asks_frag.2 ⟨hb.1.2, lets_free si ii, sb⟩
      have hv := addItems_stat hS (k := k) sub (m := []) hpc' hsd hk (VarOk.nil d)
      have hcov := addItems_covers hS (k := k) sub (m := []) hpc' (fun T hT => hT.2) hsub
        (by simp [flat])
      have hb := addItems_ok hS (k := k) sub (m := []) hpc' hD' hsub hsd hk (VarOk.nil d)
        (by simp [flat]) (by
          refine (unambiguous_congr ?_).2 husub
          intro path hne hf
          have : ¬ Shows .free (flat []) path := shows_empty hne
          simp [this])
      have hsh : ∀ V path, path ≠ [] → Fits S (fun T => D T ∧ OfType S T c) path →
          (Shows V (flat (addItems S k c (fragmentCondition S pc c si ii) [] sub)) path ↔
            DirsOpt V (fragmentCondition S pc c si ii) ∧ Asks S V sub path) := by
        intro V path hne hf
        rw [hb.shows V path hne hf]
        have : ¬ Shows V (flat []) path := shows_empty hne
        simp [this]
      have hu' : Unambiguous S (fun T => D T ∧ OfType S T c)
          (Shows .free (flat (addItems S k c (fragmentCondition S pc c si ii) [] sub))) := by
        refine (unambiguous_congr ?_).2 husub
        intro path hne hf
        rw [hsh _ path hne hf]
        simp [dirsOpt_free hpc'.plain]
      have hl := fun T (hT : D T ∧ OfType S T c) =>
        resolve_loose hS (mergeMatching_ok hS k d c hk) (keeps hS hk c) hD' hv hb.good hu' hT
          (fun v hv => (hcov v hv).2 T hT)
      obtain ⟨s1, _⟩ := resolve_ok hS (keeps hS hk c) (P := c) hv
      simp only [addItem]
      refine built_step hS hk hpc hm hg ?_ ?_ ?_ hu
      · intro p hp
        obtain ⟨q, hq, rfl⟩ := List.mem_map.1 hp
        exact (s1 q hq).setGuard (closed_frag hS c)
      · intro p hp T hT hgd
        obtain ⟨q, hq, rfl⟩ := List.mem_map.1 hp
        rw [setGuard_guard] at hgd
        have hc : OfType S T c := (names_fragCond hS T c).1 hgd
        obtain ⟨v, hv', hn⟩ := resolve_name q hq
        refine reguard hS ((hl T ⟨hT, hc⟩).1 q hq) hc ?_
        obtain ⟨⟨Q, ft, w1, w2⟩, _⟩ := hcov v hv'
        exact ⟨Q, ft, by rw [hn]; exact w1, w2⟩
      · intro V path hne hf
        cases path with
        | nil => simp at hne
        | cons st rest =>
          have hT : D st.type := hf.1
          rw [asks_frag, shows_cons]
          by_cases hc : OfType S st.type c
          · have h1 := (hl st.type ⟨hT, hc⟩).2 V st.key st.name rest hf.2
            have h2 := hsh V (st :: rest) (by simp) ⟨⟨hT, hc⟩, hf.2⟩
            rw [shows_cons, frag_dirs hpc.plain] at h2
            constructor
            · rintro ⟨p, hp, q1, q2, q3, q4⟩
              obtain ⟨q, hq, rfl⟩ := List.mem_map.1 hp
              obtain ⟨v, hv', q5, q6, q7⟩ := h1.1 ⟨q, hq, by simpa using q1, by simpa using q2,
                (setGuard_loose V st.type _ q rest).1 q4⟩
              obtain ⟨⟨h3, h4⟩, h5⟩ := h2.1 ⟨v, hv', q5, q6, (hcov v hv').2 _ ⟨hT, hc⟩, q7⟩
              exact ⟨h3, hc, h4, h5⟩
            · rintro ⟨h3, _, h4, h5⟩
              obtain ⟨v, hv', q5, q6, _, q7⟩ := h2.2 ⟨⟨h3, h4⟩, h5⟩
              obtain ⟨q, hq, q1, q2, q3⟩ := h1.2 ⟨v, hv', q5, q6, q7⟩
              refine ⟨setGuard (fragCond S c) q, List.mem_map.2 ⟨q, hq, rfl⟩, by simpa using q1,
                by simpa using q2, ?_, (setGuard_loose V st.type _ q rest).2 q3⟩
              rw [setGuard_guard]; exact (names_fragCond hS _ c).2 hc
          · constructor
            · rintro ⟨p, hp, q1, q2, q3, q4⟩
              obtain ⟨q, hq, rfl⟩ := List.mem_map.1 hp
              rw [setGuard_guard] at q3
              exact absurd ((names_fragCond hS _ c).1 q3) hc
            · rintro ⟨_, h, _⟩; exact absurd h hc
  | .spread _, d, P, D, inside, pc, m, hpc, hD, hx, hd, hk, hm, hg, hu => by cases hx
theorem addItems_ok (hS : MetaOk S) {k : Nat} : ∀ (s : List Item) {d : Nat} {P : String}
    {D : String → Prop} {inside : Bool} {pc : Option Cond} {m : Variants}, PcOk S P D pc →
    (∀ T, D T → Obj S P T) → (∀ x ∈ s, ItemOk S P D inside x) → depth s ≤ d → d ≤ k → VarOk S d m →
    (∀ v ∈ flat m, Good S P D v) →
    Unambiguous S D (fun path => Shows .free (flat m) path ∨ Asks S .free s path) →
    Built S P D pc m (addItems S k P pc m s) s
  | [], d, P, D, inside, pc, m, hpc, hD, hx, hd, hk, hm, hg, hu => by
    simp only [addItems]
    refine ⟨hg, ?_⟩
    intro V path hne _
    have : ¬ Asks S V [] path := asks_none hne
    simp [this]
  | x :: r, d, P, D, inside, pc, m, hpc, hD, hx, hd, hk, hm, hg, hu => by
    simp only [addItems]
    have hd' : depth1 x ≤ d ∧ depth r ≤ d := by simp only [depth] at hd; omega
    have h1 := addItem_ok hS (k := k) x hpc hD (hx x (by simp)) hd'.1 hk hm hg (by
      intro pre a b ha hb ht hkey sa sb
      refine hu pre a b ha hb ht hkey ?_ ?_
      · exact sa.imp id (fun h => (asks_split (by simp)).2 (Or.inl h))
      · exact sb.imp id (fun h => (asks_split (by simp)).2 (Or.inl h)))
    have h2 := addItems_ok hS (k := k) r hpc hD (fun y hy => hx y (by simp [hy])) hd'.2 hk
      (addItem_stat hS x hpc hd'.1 hk hm) h1.good (by
        refine (unambiguous_congr ?_).2 hu
        intro path hne hf
        rw [h1.shows _ path hne hf, asks_split (x := x) (r := r) hne]
        simp [dirsOpt_free hpc.plain, or_assoc])
    refine ⟨h2.good, ?_⟩
    intro V path hne hf
    rw [h2.shows V path hne hf, h1.shows V path hne hf, asks_split (x := x) (r := r) hne]
    grind
end

end Verif.Builder
