import Verif.Usage.CoordsGiven

/-!
# Usage reporting: cases of C109, and where the code does not have it
-/

namespace Verif.Usage.Coords

open Verif.Valid

namespace Ex

def size : InputDef := { name := "size", ty := .named "Size", default_ := none }
def name : InputDef := { name := "name", ty := .named "String", default_ := none }
def or_ : InputDef := { name := "or", ty := .named "Filter", default_ := none }

/-- `type User { id: ID, size: Size }` and `enum Size { SMALL LARGE }`,
`input Filter { name: String, size: Size, or: Filter }`,
`type Query { me(size: Size): User, find(by: Filter, all: [Filter!]!): [User] }`,
`directive @include(if: Boolean!) on FIELD`, `directive @live(every: Int) on QUERY`. -/
def s : Schema :=
  { types :=
      [ .object "Query" []
          [ { name := "me", args := [size], ty := .named "User" },
            { name := "find",
              args := [ { name := "by", ty := .named "Filter", default_ := none },
                        { name := "all", ty := .nonNull (.list (.nonNull (.named "Filter"))), default_ := none } ],
              ty := .list (.named "User") } ],
        .object "User" []
          [ { name := "id", args := [], ty := .named "ID" },
            { name := "size", args := [], ty := .named "Size" } ],
        .enum "Size" ["SMALL", "LARGE"],
        .input "Filter" [name, size, or_] ],
    dirs :=
      [ { name := "include", args := [{ name := "if", ty := .nonNull (.named "Boolean"), default_ := none }],
          locations := [.field], repeatable := false },
        { name := "live", args := [{ name := "every", ty := .named "Int", default_ := none }],
          locations := [.query], repeatable := false } ],
    query := "Query", mutation := none, subscription := none }

def op (vars : List VarDef) (dirs : List Dir) (sels : List Sel) : Doc :=
  [.op { kind := .query, name := none, vars := vars, dirs := dirs, sels := sels }]

def leaf (n : Name) : Sel := .field none n [] [] []

/-- `query ($f: Filter) { me(size: LARGE) { id } find(by: { name: "x", or: null }) { size } }` -/
def o : Op :=
  { kind := .query, name := none, vars := [{ name := "f", ty := .named "Filter", default_ := none }],
    dirs := [],
    sels := [.field none "me" [("size", .enum "LARGE")] [] [leaf "id"],
      .field none "find" [("by", .obj [("name", .str "x"), ("or", .null)])] [] [leaf "size"]] }

def d : Doc := [.op o]

/-- `query { me(size: LARGE) { id } }` -/
def dMe : Doc := op [] [] [.field none "me" [("size", .enum "LARGE")] [] [leaf "id"]]

/-- `query { me @include(if: true) { id } }` -/
def dDir : Doc :=
  op [] [] [.field none "me" [] [{ name := "include", args := [("if", .bool true)] }] [leaf "id"]]

/-- `query { find(all: [{ name: "x" }]) { id } }` -/
def dList : Doc :=
  op [] [] [.field none "find" [("all", .list [.obj [("name", .str "x")]])] [] [leaf "id"]]

/-- `query ($f: Filter = { name: null }) { me { id } }` -/
def dNull : Doc :=
  op [{ name := "f", ty := .named "Filter", default_ := some (.obj [("name", .null)]) }] []
    [.field none "me" [] [] [leaf "id"]]

/-- `query @live(every: 5) { me { id } }` -/
def dLive : Doc :=
  op [] [{ name := "live", args := [("every", .int 5)] }] [.field none "me" [] [] [leaf "id"]]

/-- `query { __type(name: "User") { name } me { id } }` -/
def dIntro : Doc :=
  op [] [] [.field none "__type" [("name", .str "User")] [] [leaf "name"],
            .field none "me" [] [] [leaf "id"]]

theorem reports_d : Reports s d (finish s (walk s d).used (walk s d)) :=
  ⟨(walk s d).used, fun _ => Iff.rfl, by
    have h1 : introspects d = false := by decide +kernel
    have h2 : (walk s d).error = false := by decide +kernel
    simp [report, h1, collect, h2]⟩

end Ex

open Ex

/-- `C109_fields`: `me` is in the report, and so are the values of `size`. -/
example : (Coord.member "Query" "me", false) ∈ finish s (walk s d).used (walk s d) :=
  (C109_fields reports_d (p := .object "Query" [] [ { name := "me", args := [size], ty := .named "User" },
            { name := "find",
              args := [ { name := "by", ty := .named "Filter", default_ := none },
                        { name := "all", ty := .nonNull (.list (.nonNull (.named "Filter"))), default_ := none } ],
              ty := .list (.named "User") } ])
    ⟨_, List.mem_cons_self, .here List.mem_cons_self⟩).1

/-- `C109_args`: the argument of `me` is in the report, with a value. -/
example : (Coord.arg "Query" "me" "size", true) ∈ finish s (walk s d).used (walk s d) :=
  (C109_args reports_d (p := .object "Query" [] [ { name := "me", args := [size], ty := .named "User" },
            { name := "find",
              args := [ { name := "by", ty := .named "Filter", default_ := none },
                        { name := "all", ty := .nonNull (.list (.nonNull (.named "Filter"))), default_ := none } ],
              ty := .list (.named "User") } ])
    (f := { name := "me", args := [size], ty := .named "User" })
    ⟨_, List.mem_cons_self, .here List.mem_cons_self⟩ rfl List.mem_cons_self).2
    (by simp) (by simp)

/-- `C109_variables`: the values of the enum inside the type of the variable are in the report. -/
example : Tells s (finish s (walk s d).used (walk s d)) "Size" := by
  refine C109_variables reports_d (o := o)
    (v := { name := "f", ty := .named "Filter", default_ := none }) List.mem_cons_self List.mem_cons_self ?_
  exact .field (f := size) .self (m' := "Filter") (fs := [name, size, or_]) rfl (by simp)

/-- `C109_inputs_partial`: the field of the input object is in the report, with a value. -/
example : (Coord.member "Filter" "name", true) ∈ finish s (walk s d).used (walk s d) := by
  have hs : Selects s d (s.typeByName "Query")
      (.field none "find" [("by", .obj [("name", .str "x"), ("or", .null)])] [] [leaf "size"]) :=
    ⟨_, List.mem_cons_self, .here (List.mem_cons_of_mem _ List.mem_cons_self)⟩
  have hp : Place s d (.named "Filter") (.obj [("name", .str "x"), ("or", .null)]) :=
    .top (.arg (b := { name := "by", ty := .named "Filter", default_ := none }) (Given.field hs)
      List.mem_cons_self rfl)
  exact (C109_inputs_partial reports_d hp (.named _) (n := "Filter") (m := "Filter") (defs := [name, size, or_])
    rfl (p := ("name", .str "x")) List.mem_cons_self (b := name) rfl).2 (by simp) (by simp)

/-- `C109_values_partial`: the enum value that is given for `size`, and the scalar of `name`. -/
example : (Coord.member "Size" "LARGE", false) ∈ finish s (walk s d).used (walk s d) ∧
    (Coord.type "String", false) ∈ finish s (walk s d).used (walk s d) := by
  have h := C109_values_partial reports_d
  refine ⟨h.1 _ none "me" [("size", .enum "LARGE")] [] [leaf "id"]
    { name := "me", args := [size], ty := .named "User" } ("size", .enum "LARGE") size _
    ⟨_, List.mem_cons_self, .here List.mem_cons_self⟩ rfl List.mem_cons_self rfl (.enum _), ?_⟩
  have hs : Selects s d (s.typeByName "Query")
      (.field none "find" [("by", .obj [("name", .str "x"), ("or", .null)])] [] [leaf "size"]) :=
    ⟨_, List.mem_cons_self, .here (List.mem_cons_of_mem _ List.mem_cons_self)⟩
  have hp : Place s d (.named "Filter") (.obj [("name", .str "x"), ("or", .null)]) :=
    .top (.arg (b := { name := "by", ty := .named "Filter", default_ := none }) (Given.field hs)
      List.mem_cons_self rfl)
  exact h.2.2.1 _ "Filter" "Filter" [name, size, or_] _ ("name", .str "x") name _ hp (.named _) rfl
    List.mem_cons_self rfl (.builtin trivial (fun x h => by cases h) (by simp [name, Ty.inner]))

/-- `C109_reported_partial`: its hypotheses hold for an operation. -/
example : ∃ us, Reports s dMe us := by
  refine C109_reported_partial (by decide +kernel) ?_ ?_
  · rintro q y ⟨x, hx, h⟩
    simp only [dMe, op, List.mem_singleton] at hx
    subst hx
    cases h with
    | here hm => exact fun h => by cases h
    | field hm h =>
      simp only [Def.sels, List.mem_singleton, Sel.field.injEq] at hm
      obtain ⟨rfl, rfl, rfl, rfl, rfl⟩ := hm
      cases h with
      | here hm => exact fun h => by cases h
      | field hm h =>
        simp only [leaf, List.mem_singleton, Sel.field.injEq] at hm
        obtain ⟨rfl, rfl, rfl, rfl, rfl⟩ := hm
        cases h with
        | here hm => cases hm
        | field hm _ => cases hm
        | cond hm _ => cases hm
        | plain hm _ => cases hm
      | cond hm _ => simp [leaf] at hm
      | plain hm _ => simp [leaf] at hm
    | cond hm _ => simp [Def.sels] at hm
    | plain hm _ => simp [Def.sels] at hm
  · intro x hx y hy
    simp only [dMe, op, List.mem_singleton] at hx
    subst hx
    cases hy

theorem on_me {s : Schema} {q : Option TypeDef} {y : Sel} {args : Args} {ds : List Dir}
    (h : On s (s.typeByName "Query") [.field none "me" args ds [leaf "id"]] q y) :
    (q = s.typeByName "Query" ∧ y = .field none "me" args ds [leaf "id"]) ∨
    (q = typeOfField s (s.typeByName "Query") "me" ∧ y = leaf "id") := by
  cases h with
  | here hm => exact Or.inl ⟨rfl, by simpa using hm⟩
  | field hm h =>
    simp only [List.mem_singleton, Sel.field.injEq] at hm
    obtain ⟨rfl, rfl, rfl, rfl, rfl⟩ := hm
    cases h with
    | here hm => exact Or.inr ⟨rfl, by simpa using hm⟩
    | field hm h =>
      simp only [leaf, List.mem_singleton, Sel.field.injEq] at hm
      obtain ⟨rfl, rfl, rfl, rfl, rfl⟩ := hm
      cases h with
      | here hm => cases hm
      | field hm _ => cases hm
      | cond hm _ => cases hm
      | plain hm _ => cases hm
    | cond hm _ => simp [leaf] at hm
    | plain hm _ => simp [leaf] at hm
  | cond hm _ => simp at hm
  | plain hm _ => simp at hm

theorem inside_me {y : Sel} {args : Args} {ds : List Dir}
    (h : Inside y [.field none "me" args ds [leaf "id"]]) :
    y = .field none "me" args ds [leaf "id"] ∨ y = leaf "id" := by
  obtain ⟨c, h⟩ := (inside_iff Ex.s (startCtx none) _ _).1 h
  rcases (atC_field _ _ _ _ _ _ _ _ _).1 h with ⟨_, rfl⟩ | h
  · exact Or.inl rfl
  · rcases (atC_field _ _ _ _ _ _ _ _ _).1 h with ⟨_, rfl⟩ | h
    · exact Or.inr rfl
    · cases h with
      | here hm => cases hm
      | field hm _ => cases hm
      | inline hm _ => cases hm

/-- The names in `dMe` and in `dDir` are good. -/
theorem names_me {args : Args} {ds : List Dir}
    (ha : ∀ a ∈ args, a = ("size", .enum "LARGE")) (hd : ∀ x ∈ ds, x = { name := "include", args := [("if", .bool true)] }) :
    NamesGood s (op [] [] [.field none "me" args ds [leaf "id"]]) := by
  have hsel : ∀ q y, Selects s (op [] [] [.field none "me" args ds [leaf "id"]]) q y →
      (q = s.typeByName "Query" ∧ y = .field none "me" args ds [leaf "id"]) ∨
      (q = typeOfField s (s.typeByName "Query") "me" ∧ y = leaf "id") := by
    rintro q y ⟨x, hx, h⟩
    simp only [op, List.mem_singleton] at hx
    subst hx
    exact on_me h
  refine ⟨?_, ?_, ?_⟩
  · intro q al n args' ds' sub h
    rcases hsel _ _ h with ⟨hq, hy⟩ | ⟨hq, hy⟩
    · cases hq; cases hy
      exact Or.inr ⟨_, rfl⟩
    · cases hq; cases hy
      exact Or.inr ⟨_, rfl⟩
  · intro q al n args' ds' sub f h hf a ha'
    rcases hsel _ _ h with ⟨hq, hy⟩ | ⟨hq, hy⟩
    · cases hq; cases hy
      cases hf
      rw [ha a ha']
      exact ⟨size, by simp, rfl⟩
    · cases hq; cases hy
      cases ha'
  · intro t v t' x he hi
    cases he with
    | @arg defs args' a b hg ha' hb =>
      generalize hdefs : some defs = od at hg
      cases hg with
      | field h =>
        rcases hsel _ _ h with ⟨hq, hy⟩ | ⟨hq, hy⟩
        · subst hq; cases hy
          cases hdefs
          have := ha a ha'
          subst this
          cases hb
          cases hi with
          | self => exact ⟨"Size", ["SMALL", "LARGE"], rfl, by simp⟩
        · cases hy; cases ha'
      | dir hc hx =>
        rename_i l ds' x'
        have hx' : x' = { name := "include", args := [("if", .bool true)] } := by
          cases hc with
          | query ho _ => simp [op, ops, Def.op?] at ho; subst ho; cases hx
          | mutation ho _ => simp [op, ops, Def.op?] at ho; subst ho; cases hx
          | subscription ho _ => simp [op, ops, Def.op?] at ho; subst ho; cases hx
          | fragment hf => simp [op, frags, Def.frag?] at hf
          | field hm hin =>
            simp only [op, List.mem_singleton] at hm
            subst hm
            rcases inside_me hin with hy | hy
            · cases hy; exact hd _ hx
            · cases hy; cases hx
          | spread hm hin =>
            simp only [op, List.mem_singleton] at hm
            subst hm
            rcases inside_me hin with hy | hy <;> cases hy
          | inline hm hin =>
            simp only [op, List.mem_singleton] at hm
            subst hm
            rcases inside_me hin with hy | hy <;> cases hy
        subst hx'
        simp only [List.mem_singleton] at ha'
        subst ha'
        cases hi
    | default_ ho hv _ => simp [op, ops, Def.op?] at ho; subst ho; cases hv

theorem plain_me : PlainDirectives dMe := by
  intro l ds hc x hx
  exfalso
  cases hc with
  | query ho _ => simp [dMe, op, ops, Def.op?] at ho; subst ho; cases hx
  | mutation ho _ => simp [dMe, op, ops, Def.op?] at ho; subst ho; cases hx
  | subscription ho _ => simp [dMe, op, ops, Def.op?] at ho; subst ho; cases hx
  | fragment hf => simp [dMe, op, frags, Def.frag?] at hf
  | field hm hin =>
    simp only [dMe, op, List.mem_singleton] at hm
    subst hm
    rcases inside_me hin with hy | hy <;> cases hy <;> cases hx
  | spread hm hin =>
    simp only [dMe, op, List.mem_singleton] at hm
    subst hm
    rcases inside_me hin with hy | hy <;> cases hy
  | inline hm hin =>
    simp only [dMe, op, List.mem_singleton] at hm
    subst hm
    rcases inside_me hin with hy | hy <;> cases hy

theorem reports_of {s : Schema} {d : Doc} (h1 : introspects d = false) (h2 : (walk s d).error = false) :
    Reports s d (finish s (walk s d).used (walk s d)) :=
  ⟨(walk s d).used, fun _ => Iff.rfl, by simp [report, h1, collect, h2]⟩

/-- `C109_only_partial`: its hypotheses hold for an operation. -/
example : NamesGood s dMe ∧ PlainDirectives dMe ∧ ∃ us, Reports s dMe us :=
  ⟨names_me (by simp) (by simp), plain_me, _, reports_of (by decide +kernel) (by decide +kernel)⟩

/-- `C109_given_partial`: the report of `dMe` says that a value was given for the argument of `me`. -/
example : Gives s dMe (.arg "Query" "me" "size") :=
  C109_given_partial (reports_of (d := dMe) (s := s) (by decide +kernel) (by decide +kernel)) plain_me
    (by decide +kernel)

/-! ## Where the code does not have the property -/

/-- An argument of a directive is reported as one of the field around it: the report of
`query { me @include(if: true) { id } }` names an argument `if` of `Query.me`, which the schema does not
have, although the names in the document are good. -/
theorem C109_directive_args_refuted : ∃ s d us, Reports s d us ∧ NamesGood s d ∧
    (Coord.arg "Query" "me" "if", false) ∈ us ∧ ¬ InSchema s (.arg "Query" "me" "if") := by
  refine ⟨s, dDir, _, reports_of (by decide +kernel) (by decide +kernel),
    names_me (by simp) (by simp), by decide +kernel, ?_⟩
  intro h
  generalize hc : Coord.arg "Query" "me" "if" = c at h
  cases h with
  | @arg t n f b ht hf hb =>
    simp only [Coord.arg.injEq] at hc
    obtain ⟨h1, h2, h3⟩ := hc
    subst h2
    simp only [s, List.mem_cons, List.not_mem_nil, or_false] at ht
    rcases ht with rfl | rfl | rfl | rfl
    · cases hf
      simp only [List.mem_singleton] at hb
      subst hb
      simp [size] at h3
    · simp [TypeDef.name] at h1
    · simp [TypeDef.name] at h1
    · simp [TypeDef.name] at h1
  | _ => cases hc

/-- What is given in a list that cannot be null is not reported: the report of
`query { find(all: [{ name: "x" }]) { id } }` does not name the field `name` of `Filter`. -/
theorem C109_lists_refuted : ∃ s d us, Reports s d us ∧
    Expected s d (.nonNull (.list (.nonNull (.named "Filter")))) (.list [.obj [("name", .str "x")]]) ∧
    InSchema s (.member "Filter" "name") ∧ ∀ g, (Coord.member "Filter" "name", g) ∉ us := by
  refine ⟨s, dList, _, reports_of (by decide +kernel) (by decide +kernel), ?_, ?_, ?_⟩
  · have hs : Selects s dList (s.typeByName "Query")
        (.field none "find" [("all", .list [.obj [("name", .str "x")]])] [] [leaf "id"]) :=
      ⟨_, List.mem_cons_self, .here List.mem_cons_self⟩
    exact .arg (b := { name := "all", ty := .nonNull (.list (.nonNull (.named "Filter"))), default_ := none })
      (Given.field hs) List.mem_cons_self rfl
  · exact .input (defs := [name, size, or_]) (b := name) (by simp [s]) (by simp) rfl
  · intro g
    cases g <;> decide +kernel

/-- In the default of a variable `null` counts as a value: the report of
`query ($f: Filter = { name: null }) { me { id } }` says that a value was given for the field `name` of
`Filter`, although the only object in the document has `null` there. -/
theorem C109_null_refuted : ∃ s d us, Reports s d us ∧ (Coord.member "Filter" "name", true) ∈ us ∧
    ∀ t v, Expected s d t v → v = .obj [("name", .null)] := by
  refine ⟨s, dNull, _, reports_of (by decide +kernel) (by decide +kernel), by decide +kernel, ?_⟩
  intro t v he
  cases he with
  | @arg defs args' a b hg ha' hb =>
    exfalso
    generalize hdefs : some defs = od at hg
    cases hg with
    | field h =>
      obtain ⟨x, hx, h⟩ := h
      simp only [dNull, op, List.mem_singleton] at hx
      subst hx
      rcases on_me h with ⟨_, hy⟩ | ⟨_, hy⟩ <;> cases hy <;> cases ha'
    | dir hc hx =>
      cases hc with
      | query ho _ => simp [dNull, op, ops, Def.op?] at ho; subst ho; cases hx
      | mutation ho _ => simp [dNull, op, ops, Def.op?] at ho; subst ho; cases hx
      | subscription ho _ => simp [dNull, op, ops, Def.op?] at ho; subst ho; cases hx
      | fragment hf => simp [dNull, op, frags, Def.frag?] at hf
      | field hm hin =>
        simp only [dNull, op, List.mem_singleton] at hm
        subst hm
        rcases inside_me hin with hy | hy <;> cases hy <;> cases hx
      | spread hm hin =>
        simp only [dNull, op, List.mem_singleton] at hm
        subst hm
        rcases inside_me hin with hy | hy <;> cases hy
      | inline hm hin =>
        simp only [dNull, op, List.mem_singleton] at hm
        subst hm
        rcases inside_me hin with hy | hy <;> cases hy
  | default_ ho hv hx =>
    simp [dNull, op, ops, Def.op?] at ho
    subst ho
    simp only [List.mem_singleton] at hv
    subst hv
    cases hx
    rfl

/-- An operation with a directive that has an argument is not reported at all, although it selects a
field: `query @live(every: 5) { me { id } }`. -/
theorem C109_directive_refuted : ∃ s d p al n args ds sub,
    Selects s d (some p) (.field al n args ds sub) ∧ p.fieldByName n ≠ none ∧ introspects d = false ∧
    ¬ ∃ us, Reports s d us := by
  refine ⟨s, dLive, _, none, "me", [], [], [leaf "id"],
    ⟨_, List.mem_cons_self, .here List.mem_cons_self⟩, by simp [TypeDef.fieldByName], by decide +kernel, ?_⟩
  rintro ⟨us, h⟩
  have := (reports_walk h).1
  exact absurd this (by decide +kernel)

/-- An operation that asks for `__type` or `__schema` is not reported, although it selects a field of the
schema besides: `query { __type(name: "User") { name } me { id } }`. -/
theorem C109_introspection_refuted : ∃ s d p al n args ds sub,
    Selects s d (some p) (.field al n args ds sub) ∧ p.fieldByName n ≠ none ∧ ¬ ∃ us, Reports s d us := by
  refine ⟨s, dIntro, _, none, "me", [], [], [leaf "id"],
    ⟨_, List.mem_cons_self, .here (List.mem_cons_of_mem _ List.mem_cons_self)⟩,
    by simp [TypeDef.fieldByName], ?_⟩
  rintro ⟨us, order, _, h⟩
  have h1 : introspects dIntro = true := by decide +kernel
  simp [report, h1] at h

end Verif.Usage.Coords
