import Verif.Normalize.Convert
/-!
# C39: normalization selects what the operation selects
-/
namespace Verif.Normalize

variable {S : Schema} {σ : Name → Bool}

theorem chooseOp_asked {opName : Option Name} {ops : List Op} {op : Op}
    (h : chooseOp opName ops = some op) : Asked ops opName op ∧ op ∈ ops := by
  unfold chooseOp at h
  cases opName with
  | none =>
    cases ops with
    | nil => cases h
    | cons o r =>
      simp only [List.head?_cons, Option.some.injEq] at h
      subst h
      exact ⟨⟨r, rfl⟩, by simp⟩
  | some n =>
    have h1 := List.mem_of_find?_eq_some h
    have h2 := List.find?_some h
    exact ⟨⟨h1, by simpa using h2⟩, h1⟩

theorem rootType_of {k : Kind} {R : Name} (h : rootType S k = .ok R) : RootOf S k R := by
  unfold rootType at h
  cases k with
  | query => cases h; exact rfl
  | mutation =>
    simp only at h
    split at h
    · rename_i n hn; cases h; exact hn
    · cases h
  | subscription =>
    simp only at h
    split at h
    · rename_i n hn; cases h; exact hn
    · cases h

theorem inlineSpreads_ok {frs : List Frag} {s s' : List Sel} (h : inlineSpreads frs s = .ok s') :
    ∃ k, inlineSet (fragMap frs) k none [] s = .ok s' := by
  unfold inlineSpreads at h
  obtain ⟨t, h1, h2⟩ := bind_ok h
  obtain ⟨_, _, h4⟩ := bind_ok h2
  cases h4
  exact ⟨_, h1⟩

theorem map_names {frs : List Frag} {g : List Sel → List Sel} :
    (frs.map (fun f => { f with sels := g f.sels })).map Frag.name = frs.map Frag.name := by
  rw [List.map_map]
  rfl

/-- The passes keep the paths, below the root type. -/
theorem normalizeSels_picks (hS : SchemaOk S) {frs : List Frag} {R : Name} {s s' : List Sel}
    (hu : (frs.map Frag.name).Nodup) (hs : AllOk DirsOk s) (hf : ∀ f ∈ frs, AllOk DirsOk f.sels)
    (h : normalizeSels S frs R s = .ok s') {p : Path} (hp : Fits S R p) :
    (Picks S σ frs s p ↔ Picks S σ [] s' p) ∧ AllOk Live s' := by
  unfold normalizeSels at h
  obtain ⟨s1, h1, h2⟩ := bind_ok h
  obtain ⟨k, h1⟩ := inlineSpreads_ok h1
  split at h2
  · cases h2
  · obtain ⟨s2, h3, h4⟩ := bind_ok h2
    obtain ⟨s3, h5, h6⟩ := bind_ok h4
    obtain ⟨s4, h7, h8⟩ := bind_ok h6
    obtain ⟨s5, h9, h10⟩ := bind_ok h8
    obtain ⟨s6, h11, h12⟩ := bind_ok h10
    cases h12
    have hd : AllOk Live (dropSkipped s) := dropSkipped_ok hs
    have hdf : ∀ f ∈ dropFrags frs, AllOk Live f.sels := by
      intro f hf'
      obtain ⟨g, hg, rfl⟩ := List.mem_map.1 hf'
      exact dropSkipped_ok (hf g hg)
    have hn : AllOk Live (normalizeFields (dropSkipped s)) := normalizeFields_ok hd
    have hnf : ∀ f ∈ normalizeFrags (dropFrags frs), AllOk Live f.sels := by
      intro f hf'
      obtain ⟨g, hg, rfl⟩ := List.mem_map.1 hf'
      exact normalizeFields_ok (hdf g hg)
    have hu' : ((normalizeFrags (dropFrags frs)).map Frag.name).Nodup := by
      unfold normalizeFrags dropFrags
      rw [map_names, map_names]
      exact hu
    have o1 := inlineSet_ok hu' hnf k (show inlineSet (fragMap (normalizeFrags (dropFrags frs))) k none []
        (normalizeFields (dropSkipped s)) = .ok s1 from h1) hn
    have o2 := flattenSet_ok _ _ _ _ h3 o1
    have o3 := typeExpandSet_ok _ _ _ _ h5 o2
    have o4 := mergeFragSet_ok _ _ _ _ h7 o3
    have o5 := matchingSet_ok _ _ _ _ h9 o4
    have o6 := mergeFieldSet_ok _ _ _ h11 o5
    refine ⟨?_, dropDuplicates_ok _ o6⟩
    have h1' : inlineSet (fragMap (normalizeFrags (dropFrags frs))) k none []
        (normalizeFields (dropSkipped s)) = .ok s1 := h1
    rw [← dropSkipped_picks hs hf, ← normalize_picks hd hdf]
    rw [inlineSet_picks hu' k h1' p (fun _ _ _ _ => trivial), flattenSet_picks hS _ _ _ _ h3 p hp,
      typeExpandSet_picks hS _ _ _ _ h5 p hp, mergeFragSet_picks hS _ _ _ _ h7 p hp,
      matchingSet_picks hS _ _ _ _ h9 p hp, mergeFieldSet_picks _ _ _ h11 p]
    cases p with
    | nil => exact ⟨fun _ => .here _, fun _ => .here _⟩
    | cons x p => exact (dropDuplicates_picks _).symm

/-- C39: when an operation of a validated document is normalized, the result is of the asked
operation's kind, and for all values of the variables and every path of runtime types, it selects
just the paths (response keys, fields, arguments) that the operation selects. -/
theorem C39_selects_the_same (hS : SchemaOk S) {doc : Doc} (hd : DocOk doc) {opName : Option Name}
    {kind : Kind} {items : List Item}
    (h : normalizeOperation S doc opName = .ok (kind, items)) :
    ∃ op R, Asked doc.ops opName op ∧ op.kind = kind ∧ RootOf S kind R ∧
      ∀ σ p, Fits S R p → (PicksI S σ items p ↔ Picks S σ doc.frags op.sels p) := by
  unfold normalizeOperation at h
  split at h
  · cases h
  · rename_i op hop
    obtain ⟨R, h1, h2⟩ := bind_ok h
    obtain ⟨s, h3, h4⟩ := bind_ok h2
    obtain ⟨is, h5, h6⟩ := bind_ok h4
    cases h6
    obtain ⟨ha, hm⟩ := chooseOp_asked hop
    refine ⟨op, R, ha, rfl, rootType_of h1, fun σ p hp => ?_⟩
    obtain ⟨h7, h8⟩ := normalizeSels_picks (σ := σ) hS hd.unique (hd.ops op hm) hd.frags h3 hp
    rw [h7, inject_picks]
    exact ⟨fun h => convert_picks_mpr h h5 h8, fun h => convert_picks_mp h h5 h8⟩

/-! ### A schema and requests -/

/-- Objects `Book` and `Film` of the interface `Item`, the union `Hit` and a query. `title` of
`Book` is external in a subgraph, so `Item.title` is expanded. -/
def demo : Schema where
  defs := [
    ("Query", .object [] [("items", ⟨"Item", []⟩), ("hit", ⟨"Hit", []⟩), ("book", ⟨"Book", []⟩)]),
    ("Item", .interface [("A", false)] [("id", ⟨"ID", []⟩), ("title", ⟨"String", []⟩)]),
    ("Book", .object ["Item"] [("id", ⟨"ID", []⟩),
      ("title", ⟨"String", [⟨some "A", true, false, none⟩]⟩), ("pages", ⟨"Int", []⟩)]),
    ("Film", .object ["Item"] [("id", ⟨"ID", []⟩), ("title", ⟨"String", []⟩),
      ("length", ⟨"Int", []⟩)]),
    ("Hit", .union ["Book", "Film"]),
    ("ID", .leaf), ("String", .leaf), ("Int", .leaf)]
  query := "Query"
  mutation := none
  subscription := none
  subgraphs := ["A", "B"]

/-- `fragment F on Item { t: title ...G @include(if: $g) }`, `fragment G on Book { pages id }`. -/
def demoFrags : List Frag := [
  ⟨"F", "Item", [.field (some "t") "title" [] [] [], .spread "G" [⟨"include", [("if", .var "g")]⟩]]⟩,
  ⟨"G", "Book", [.field none "pages" [] [] [], .field none "id" [] [] []]⟩]

/-- `{ items(first: 2) { id ...F ... on Film @skip(if: true) { length } } hit { ...F } }`. -/
def demoDoc : Doc where
  ops := [⟨.query, none, [
    .field none "items" [("first", .other 2)] [] [
      .field (some "id") "id" [] [] [], .spread "F" [],
      .frag (some "Film") [⟨"skip", [("if", .bool true)]⟩] [.field none "length" [] [] []]],
    .field none "hit" [] [] [.spread "F" []]]⟩]
  frags := demoFrags

/-! #### A check for `SchemaOk` -/

/-- The possible types of a type, as a list. -/
def possList (S : Schema) (C : Name) : List Name :=
  if S.isObject C then [C] else (S.possible C).getD []

theorem mem_possList {S : Schema} {T C : Name} (h : IsPossible S T C) : T ∈ possList S C := by
  unfold possList
  split
  · rename_i ho
    rw [(possible_self ho).1 h]
    simp
  · rename_i ho
    cases hp : S.possible C with
    | some l => exact (possible_iff hp).2 h
    | none =>
      exfalso
      have hc := possible_none hp h
      subst hc
      unfold IsPossible at h
      unfold Schema.isObject at ho
      unfold Schema.possible at hp
      split at h <;> simp_all

theorem possList_mem {S : Schema} {T C : Name} (h : T ∈ possList S C) : IsPossible S T C := by
  unfold possList at h
  split at h
  · rename_i ho
    exact (possible_self ho).2 (by simpa using h)
  · cases hp : S.possible C with
    | some l =>
      rw [hp] at h
      exact (possible_iff hp).1 h
    | none =>
      rw [hp] at h
      cases h

/-- Narrower or equal, through the lists. -/
def fieldNarrow (S : Schema) (P T n : Name) : Bool :=
  match S.fieldTy P n, S.fieldTy T n with
  | some A, some B => (possList S B).all (fun X => (possList S A).contains X)
  | _, _ => true

/-- `SchemaOk` as a computation. -/
def schemaCheck (S : Schema) : Bool :=
  S.defs.all fun d => (possList S d.1).all fun T => S.isObject T &&
    (S.defs.all fun e => e.2.fields.all fun f => fieldNarrow S d.1 T f.1)

theorem lookup_pair_mem {α : Type} {n : Name} {d : α} : ∀ {l : List (Name × α)},
    l.lookup n = some d → (n, d) ∈ l
  | [], h => by cases h
  | (k, v) :: l, h => by
    rw [List.lookup_cons] at h
    by_cases hk : n = k
    · subst hk
      simp only [beq_self_eq_true, Option.some.injEq] at h
      simp [h]
    · have : (n == k) = false := by simpa using hk
      rw [this] at h
      simp [lookup_pair_mem h]

theorem get_of_possible {S : Schema} {T C : Name} (h : IsPossible S T C) : ∃ d, S.get C = some d := by
  unfold IsPossible at h
  split at h
  · exact ⟨_, by assumption⟩
  · exact ⟨_, by assumption⟩
  · exact ⟨_, by assumption⟩
  · exact h.elim

theorem schemaOk_of_check {S : Schema} (h : schemaCheck S = true) : SchemaOk S := by
  have key : ∀ P T, IsPossible S T P → S.isObject T = true ∧
      ∀ n A B, S.fieldTy P n = some A → S.fieldTy T n = some B →
        ∀ X, IsPossible S X B → IsPossible S X A := by
    intro P T hP
    obtain ⟨d, hd⟩ := get_of_possible hP
    unfold schemaCheck at h
    have h1 := List.all_eq_true.1 h _ (lookup_pair_mem hd)
    have h2 := List.all_eq_true.1 h1 T (mem_possList hP)
    simp only [Bool.and_eq_true] at h2
    refine ⟨h2.1, fun n A B hA hB X hX => ?_⟩
    have hA' := hA
    unfold Schema.fieldTy at hA'
    rw [hd] at hA'
    simp only [Option.map_eq_some_iff] at hA'
    obtain ⟨fd, hfd, _⟩ := hA'
    have h3 := List.all_eq_true.1 h2.2 _ (lookup_pair_mem hd)
    have h4 := List.all_eq_true.1 h3 _ (lookup_pair_mem hfd)
    unfold fieldNarrow at h4
    simp only [hA, hB] at h4
    have h5 := List.all_eq_true.1 h4 X (mem_possList hX)
    exact possList_mem (List.contains_iff_mem.1 h5)
  exact ⟨fun P T n A B hP hA hB => (key P T hP).2 n A B hA hB, fun P T hP => (key P T hP).1⟩

/-- The schema meets the hypothesis of `C39_selects_the_same`. -/
theorem demo_ok : SchemaOk demo := schemaOk_of_check (by decide +kernel)

/-- The document meets the hypothesis of `C39_selects_the_same`. -/
theorem demoDoc_ok : DocOk demoDoc where
  ops := by
    intro o ho x hx
    simp only [demoDoc, List.mem_singleton] at ho
    subst ho
    have hd : ∀ b, DirsOk [⟨"skip", [("if", .bool b)]⟩] := fun b => ⟨by simp, by simp⟩
    have hn : DirsOk [] := ⟨by simp, by simp⟩
    have hl : ∀ a n, SelOk DirsOk (.field a n [] [] []) :=
      fun a n => .field (by simp [ArgsOk]) hn (by simp)
    simp only [List.mem_cons, List.not_mem_nil, or_false] at hx
    rcases hx with rfl | rfl
    · refine .field (by simp [ArgsOk]) hn ?_
      intro y hy
      simp only [List.mem_cons, List.not_mem_nil, or_false] at hy
      rcases hy with rfl | rfl | rfl
      · exact hl _ _
      · exact .spread hn
      · refine .frag (hd true) ?_
        intro z hz
        rw [List.mem_singleton] at hz
        subst hz
        exact hl _ _
    · refine .field (by simp [ArgsOk]) hn ?_
      intro y hy
      rw [List.mem_singleton] at hy
      subst hy
      exact .spread hn
  frags := by
    have hn : DirsOk [] := ⟨by simp, by simp⟩
    have hl : ∀ a n, SelOk DirsOk (.field a n [] [] []) :=
      fun a n => .field (by simp [ArgsOk]) hn (by simp)
    intro f hf x hx
    simp only [demoDoc, demoFrags, List.mem_cons, List.not_mem_nil, or_false] at hf
    rcases hf with rfl | rfl
    · simp only [List.mem_cons, List.not_mem_nil, or_false] at hx
      rcases hx with rfl | rfl
      · exact hl _ _
      · exact .spread ⟨by simp, by simp⟩
    · simp only [List.mem_cons, List.not_mem_nil, or_false] at hx
      rcases hx with rfl | rfl
      · exact hl _ _
      · exact hl _ _
  unique := by simp [demoDoc, demoFrags]

/-- What the demo request is normalized to: the interface field is expanded, the skipped fragment
is gone, the spreads are inlined for each object. -/
def demoItems : List Item :=
  let t := Item.field (some "t") "title" [] none none false []
  let g := Item.frag "Book" none (some "g")
    [.field none "pages" [] none none false [], .field none "id" [] none none false []]
  [.field none "items" [("first", .other 2)] none none false
      [.field (some "id") "id" [] none none false [], .frag "Book" none none [t],
        .frag "Film" none none [t], g],
    .field none "hit" [] none none false
      [.frag "Book" none none [t], g, .frag "Film" none none [t]]]

theorem demo_normalized : normalizeOperation demo demoDoc none = .ok (.query, demoItems) := rfl

/-- A path of the demo: the title of a film found, under its alias. -/
def demoPath : Path := [("Query", labelOf none "hit" []), ("Film", labelOf (some "t") "title" [])]

example : Fits demo "Query" demoPath :=
  ⟨possList_mem (by decide +kernel), .inr (.inr ⟨"Hit", rfl, possList_mem (by decide +kernel),
    .inr (.inl rfl)⟩)⟩

/-- The hypotheses of `C39_selects_the_same` are met and its sides are true of some paths. -/
example : ∃ op R, Asked demoDoc.ops none op ∧ op.kind = .query ∧ RootOf demo .query R ∧
    (∀ σ p, Fits demo R p → (PicksI demo σ demoItems p ↔ Picks demo σ demoDoc.frags op.sels p)) :=
  C39_selects_the_same demo_ok demoDoc_ok demo_normalized

example (σ : Name → Bool) : PicksI demo σ demoItems demoPath := by
  refine .field (si := none) (ii := none) (List.mem_cons_of_mem _ (List.mem_singleton.2 rfl))
    (fun _ h => by cases h) (fun _ h => by cases h) ?_
  refine .frag (c := "Film") (si := none) (ii := none)
    (List.mem_cons_of_mem _ (List.mem_cons_of_mem _ (List.mem_singleton.2 rfl)))
    (fun _ h => by cases h) (fun _ h => by cases h) (possList_mem (by decide +kernel)) ?_
  exact .field (si := none) (ii := none) (List.mem_singleton.2 rfl) (fun _ h => by cases h)
    (fun _ h => by cases h) (.here _)

/-! ### Where the code stops -/

/-- `{ __schema { ... { queryType } } }`: valid GraphQL. -/
def bareDoc : Doc where
  ops := [⟨.query, none,
    [.field none "__schema" [] [] [.frag none [] [.field none "queryType" [] [] []]]]⟩]
  frags := []

/-- C39, where it fails: the selections of an introspection field are not visited by the passes
that give every fragment a type condition, so an inline fragment without one reaches the
conversion, which panics (`expect("expected a type condition after normalization")`). -/
theorem C39_introspection_panics : normalizeOperation demo bareDoc none = .error .panic := rfl

/-- This is so for every schema, for any introspection field and any such fragment. -/
theorem C39_introspection_panics_always (S : Schema) (hq : (S.get S.query).isNone = false)
    {n : Name} (hn : isIntro n = true) {f : Name} :
    normalizeOperation S ⟨[⟨.query, none,
      [.field none n [] [] [.frag none [] [.field none f [] [] []]]]⟩], []⟩ none =
        .error .panic := by
  simp [normalizeOperation, chooseOp, rootType, normalizeSels, dropSkipped, dropSkipped1, shouldKeep,
    extractCondition, normalizeFields, normalize1, inlineSpreads, fragMap, inlineSet, inlineItem,
    concatM, depth, depth1, flattenSet, flattenItem, hn, hq, typeExpandSet, typeExpandItem,
    mergeFragSet, mergeFragItem, foldM, matchingSet, matchingItem, mergeFieldSet, mergeFieldItem,
    mergeIntoField, dropDuplicates, convert, convert1, bind, Except.bind, dropAlias, sortKey]

end Verif.Normalize
