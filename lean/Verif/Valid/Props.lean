import Verif.Valid.Vars

/-!
# Which documents validation accepts: names, fragments and variables
-/

namespace Verif.Valid

/-! ## Schemas and documents for the examples -/

/-- `type T { a: T  n(x: Int): Int }`, `type Query { t: T }`, `input I { i: Int }`. -/
def exS : Schema :=
  { types := [
      .object "Query" [] [⟨"t", [], .named "T"⟩],
      .object "T" [] [⟨"a", [], .named "T"⟩, ⟨"n", [⟨"x", .named "Int", none⟩], .named "Int"⟩],
      .scalar "Int", .input "I" [⟨"i", .named "Int", none⟩]]
    dirs := [], query := "Query", mutation := none, subscription := none }

/-- A field with sub-selections. -/
def fld (n : Name) (sub : List Sel) : Sel := .field none n [] [] sub

/-- A spread. -/
def spr (n : Name) : Sel := .spread n []

/-- `query Q($x: Int) { t { ...A } } query R { t { a { ...B } } }
fragment A on T { n(x: $x) ...B } fragment B on T { a { n } }`. -/
def exGood : Doc :=
  [.op ⟨.query, some "Q", [⟨"x", .named "Int", none⟩], [], [fld "t" [spr "A"]]⟩,
   .op ⟨.query, some "R", [], [], [fld "t" [fld "a" [spr "B"]]]⟩,
   .frag ⟨"A", "T", [], [.field none "n" [("x", .var "x")] [] [], spr "B"]⟩,
   .frag ⟨"B", "T", [], [fld "a" [fld "n" []]]⟩]

/-! ## C75: operations and fragments -/

/-- The rules on names accept a document exactly if its operations can be told apart, and its
fragments have names of their own, exist where they are spread, and are reached from an operation. -/
theorem C75_names_and_fragments (s : Schema) (d : Doc) :
    (uniqueOperationNames s d = false ∧ loneAnonymousOperation d = false ∧
      uniqueFragmentNames s d = false ∧ knownFragmentNames s d = false ∧
      noUnusedFragments s d = false) ↔
    OperationsNamed d ∧ FragmentsGood d := by
  rw [uniqueOperationNames_iff, loneAnonymousOperation_iff, uniqueFragmentNames_iff,
    knownFragmentNames_iff]
  constructor
  · rintro ⟨h1, h2, h3, h4, h5⟩
    exact ⟨⟨h1, h2⟩, h3, h4, (noUnusedFragments_iff s d h3).1 h5⟩
  · rintro ⟨⟨h1, h2⟩, h3, h4, h5⟩
    exact ⟨h1, h2, h3, h4, (noUnusedFragments_iff s d h3).2 h5⟩

/-- A document with two operations and fragments spread in fragments is accepted. -/
example : OperationsNamed exGood ∧ FragmentsGood exGood :=
  (C75_names_and_fragments exS exGood).1 (by decide +kernel)

/-- A fragment that only a fragment no operation reaches spreads is not. -/
example : ¬ FragmentsGood
    [.op ⟨.query, none, [], [], [fld "t" [fld "n" []]]⟩,
     .frag ⟨"A", "T", [], [spr "B"]⟩, .frag ⟨"B", "T", [], [fld "n" []]⟩] := by
  intro h
  have hnames : OperationsNamed
    [.op ⟨.query, none, [], [], [fld "t" [fld "n" []]]⟩,
     .frag ⟨"A", "T", [], [spr "B"]⟩, .frag ⟨"B", "T", [], [fld "n" []]⟩] := by
    constructor
    · decide
    · intro o ho _
      simp [ops, Def.op?, List.filterMap_cons] at ho ⊢
      exact ho.symm
  have := ((C75_names_and_fragments exS _).2 ⟨hnames, h⟩).2.2.2.2
  revert this
  decide +kernel

/-! ## C76: cycles of fragments -/

/-- The full property: when fragments have names of their own, a document is accepted by the rule on
cycles exactly if no fragment is reached from itself. -/
def CyclesFound : Prop := ∀ (s : Schema) (d : Doc), ((frags d).map (·.name)).Nodup →
  (noFragmentsCycle s d = false ↔ NoCycle d)

theorem near_spreadIn {ss : List Sel} {n : Name} (h : NearSpread ss n) : SpreadIn ss n := by
  rcases h with ⟨ds, h⟩ | ⟨al, m, args, ds, sub, ds', h1, h2⟩ | ⟨c, ds, sub, ds', h1, h2⟩
  · exact ⟨ds, .here h⟩
  · exact ⟨ds', .field h1 (.here h2)⟩
  · exact ⟨ds', .inline h1 (.here h2)⟩

theorem near_reaches {d : Doc} {ss : List Sel} {n : Name} (h : NearReaches d ss n) : Reaches d ss n := by
  induction h with
  | direct h => exact .direct (near_spreadIn h)
  | through h hf _ ih => exact .through (near_spreadIn h) hf ih

/-- `_partial`: the rule finds exactly the cycles all of whose spreads stand in the selection set of
the fragment or one level below it. Missing: a spread that stands deeper is not seen. -/
theorem C76_cycles_partial (s : Schema) (d : Doc) (hd : ((frags d).map (·.name)).Nodup) :
    noFragmentsCycle s d = false ↔ ∀ f ∈ frags d, ¬ NearReaches d f.sels f.name :=
  noFragmentsCycle_iff s d hd

/-- No document without cycles is rejected. -/
theorem C76_no_false_alarm (s : Schema) (d : Doc) (hd : ((frags d).map (·.name)).Nodup)
    (h : NoCycle d) : noFragmentsCycle s d = false :=
  (C76_cycles_partial s d hd).2 (fun f hf hr => h f hf (near_reaches hr))

/-- Where fragments spread others no deeper than one level, exactly the documents without cycles are
accepted. -/
theorem C76_shallow (s : Schema) (d : Doc) (hd : ((frags d).map (·.name)).Nodup)
    (hs : ∀ f ∈ frags d, ∀ n, SpreadIn f.sels n → NearSpread f.sels n) :
    noFragmentsCycle s d = false ↔ NoCycle d := by
  rw [C76_cycles_partial s d hd]
  have key : ∀ (ss : List Sel) n, Reaches d ss n → (∀ n, SpreadIn ss n → NearSpread ss n) →
      NearReaches d ss n := by
    intro ss n h
    induction h with
    | direct h => intro h2; exact .direct (h2 _ h)
    | through h hf _ ih => intro h2; exact .through (h2 _ h) hf (ih (hs _ hf))
  exact ⟨fun h f hf hr => h f hf (key _ _ hr (hs f hf)), fun h f hf hr => h f hf (near_reaches hr)⟩

/-- `{ t { ...A } } fragment A on T { a { ...B } } fragment B on T { ...A }`. -/
def exCycle : Doc :=
  [.op ⟨.query, none, [], [], [fld "t" [spr "A"]]⟩,
   .frag ⟨"A", "T", [], [fld "a" [spr "B"]]⟩, .frag ⟨"B", "T", [], [spr "A"]⟩]

/-- A cycle of two fragments is found. -/
example : noFragmentsCycle exS exCycle = true ∧ ((frags exCycle).map (·.name)).Nodup := by
  decide +kernel

/-- And a document in which a fragment is reached by two ways is accepted. -/
example : noFragmentsCycle exS exGood = false := by decide +kernel

/-- `{ t { ...A } } fragment A on T { a { a { ...A } } }`. -/
def exDeep : Doc :=
  [.op ⟨.query, none, [], [], [fld "t" [spr "A"]]⟩,
   .frag ⟨"A", "T", [], [fld "a" [fld "a" [spr "A"]]]⟩]

/-- The full property fails: a fragment that spreads itself two levels below is accepted, by this rule
and by the rules on names. -/
theorem C76_cycles_refuted : ¬ CyclesFound := by
  intro h
  have h1 := (h exS exDeep (by decide)).1 (by decide +kernel)
  refine h1 ⟨"A", "T", [], [fld "a" [fld "a" [spr "A"]]]⟩ (by simp [frags, exDeep, Def.frag?, List.filterMap_cons]) ?_
  exact .direct ⟨[], .field (by simp [fld]; exact ⟨rfl, rfl, rfl, rfl, rfl⟩) (.field (by simp [fld]; exact ⟨rfl, rfl, rfl, rfl, rfl⟩) (.here (by simp [spr])))⟩

example : (uniqueOperationNames exS exDeep = false ∧ loneAnonymousOperation exDeep = false ∧
      uniqueFragmentNames exS exDeep = false ∧ knownFragmentNames exS exDeep = false ∧
      noUnusedFragments exS exDeep = false) := by decide +kernel

/-! ## C77: variables -/

theorem wraps_iff (t : Ty) (n : Name) : Wraps t n ↔ t.inner = n := by
  induction t with
  | named m =>
    constructor
    · intro h; cases h; rfl
    · intro h; cases h; exact .named m
  | list t ih =>
    rw [Ty.inner, ← ih]
    exact ⟨fun h => by cases h; assumption, .list⟩
  | nonNull t ih =>
    rw [Ty.inner, ← ih]
    exact ⟨fun h => by cases h; assumption, .nonNull⟩

theorem isInput_iff (t : TypeDef) : t.isInput = true ↔ TakesValues t := by
  cases t <;> simp [TypeDef.isInput, TakesValues]

theorem reserved_iff (n : Name) : reserved n = true ↔ ∃ rest, n.toList = '_' :: '_' :: rest := by
  unfold reserved
  constructor
  · intro h
    split at h
    · exact ⟨_, by assumption⟩
    · cases h
  · rintro ⟨rest, h⟩
    rw [h]
    rfl

/-- When operations can be told apart, the rules on variables accept a document exactly if in every
operation the variables have different names, none has a type of the schema that takes no values,
those that are used are defined and those that are defined are used, counting what is used in the
fragments that the operation reaches; and types the schema does not have are called `__…`. -/
theorem C77_variables (s : Schema) (d : Doc) (h : OperationsNamed d) :
    (uniqueVariableNames s d = false ∧ variableTypes s d = false ∧
      noUndefinedVariables s d = false ∧ noUnusedVariables s d = false) ↔
    VariablesGood s d ∧ ∀ o ∈ ops d, ∀ v ∈ o.vars, ∀ n, Wraps v.ty n →
      s.typeByName n = none → ∃ rest, n.toList = '_' :: '_' :: rest := by
  rw [uniqueVariableNames_iff, variableTypes_iff, noUndefinedVariables_iff s d h,
    noUnusedVariables_iff s d h]
  constructor
  · rintro ⟨h1, h2, h3, h4⟩
    refine ⟨⟨h1, fun o ho v hv n t hn ht => ?_, h3, h4⟩, fun o ho v hv n hn ht => ?_⟩
    · have := (wraps_iff _ _).1 hn
      subst this
      exact (isInput_iff t).1 ((h2 o ho v hv).1 t ht)
    · have := (wraps_iff _ _).1 hn
      subst this
      exact (reserved_iff _).1 ((h2 o ho v hv).2 ht)
  · rintro ⟨⟨h1, h2, h3, h4⟩, h5⟩
    exact ⟨h1, fun o ho v hv => ⟨fun t ht => (isInput_iff t).2 (h2 o ho v hv _ t ((wraps_iff _ _).2 rfl) ht),
      fun ht => (reserved_iff _).2 (h5 o ho v hv _ ((wraps_iff _ _).2 rfl) ht)⟩, h3, h4⟩

/-- A document with a variable that only a fragment uses is accepted. -/
example : OperationsNamed exGood ∧ VariablesGood exS exGood := by
  have h := ((C75_names_and_fragments exS exGood).1 (by decide +kernel)).1
  exact ⟨h, ((C77_variables exS exGood h).1 (by decide +kernel)).1⟩

/-- The same without the definition of the variable is not, nor with a second variable that nothing
uses, nor with one of an output type. -/
example :
    noUndefinedVariables exS
      [.op ⟨.query, some "Q", [], [], [fld "t" [spr "A"]]⟩,
       .frag ⟨"A", "T", [], [.field none "n" [("x", .obj [("i", .list [.var "x"])])] [] []]⟩] = true ∧
    noUnusedVariables exS
      [.op ⟨.query, some "Q", [⟨"x", .named "Int", none⟩], [], [fld "t" [fld "n" []]]⟩,
       .frag ⟨"A", "T", [], [.field none "n" [("x", .var "x")] [] []]⟩] = true ∧
    variableTypes exS
      [.op ⟨.query, some "Q", [⟨"x", .list (.named "T"), none⟩], [], [fld "t" [fld "n" []]]⟩] = true := by
  decide +kernel

end Verif.Valid
