import Verif.Valid.Positions
import Verif.Valid.Subs

/-!
# Which documents validation accepts: types, directives, arguments, values and variables
-/

namespace Verif.Valid

/-! ## A schema and documents for the examples -/

/-- `interface Node { id: Int }`, `type User implements Node { id: Int  name: String  posts(n: Int!): User }`,
`type Post implements Node { id: Int }`, `type Tag { id: Int }`, `union Thing = User | Post`,
`input By { name: String  ids: [Int]  first: Int! = 1 }`,
`type Query { user(id: Int): User  thing: Thing  ids(of: [Int!]!, n: Int): Int  find(by: By): User }`,
`type Subscription { news(of: Int): User }`,
`directive @skip(if: Boolean!) on FIELD | FRAGMENT_SPREAD | INLINE_FRAGMENT`. -/
def exT : Schema :=
  { types := [
      .interface "Node" [] [⟨"id", [], .named "Int"⟩],
      .object "User" ["Node"] [⟨"id", [], .named "Int"⟩, ⟨"name", [], .named "String"⟩,
        ⟨"posts", [⟨"n", .nonNull (.named "Int"), none⟩], .named "User"⟩],
      .object "Post" ["Node"] [⟨"id", [], .named "Int"⟩],
      .object "Tag" [] [⟨"id", [], .named "Int"⟩],
      .union "Thing" ["User", "Post"],
      .input "By" [⟨"name", .named "String", none⟩, ⟨"ids", .list (.named "Int"), none⟩,
        ⟨"first", .nonNull (.named "Int"), some (.int 1)⟩],
      .object "Query" [] [⟨"user", [⟨"id", .named "Int", none⟩], .named "User"⟩,
        ⟨"thing", [], .named "Thing"⟩,
        ⟨"ids", [⟨"of", .nonNull (.list (.nonNull (.named "Int"))), none⟩, ⟨"n", .named "Int", none⟩],
          .named "Int"⟩,
        ⟨"find", [⟨"by", .named "By", none⟩], .named "User"⟩],
      .object "Subscription" [] [⟨"news", [⟨"of", .named "Int", none⟩], .named "User"⟩],
      .scalar "Int", .scalar "String", .scalar "Boolean"]
    dirs := [⟨"skip", [⟨"if", .nonNull (.named "Boolean"), none⟩],
      [.field, .fragmentSpread, .inlineFragment], false⟩]
    query := "Query", mutation := none, subscription := some "Subscription" }

/-- A field with arguments. -/
def fldA (n : Name) (args : Args) (sub : List Sel) : Sel := .field none n args [] sub

/-- `query Q($x: Int) { user(id: $x) { ...U name @skip(if: true) }
thing { ... on User { posts(n: 1) { id } } ... on Node { id } }
find(by: { name: "a", ids: [1, $x], first: 2 }) { id } }
fragment U on Node { id }`. -/
def exFull : Doc :=
  [.op ⟨.query, some "Q", [⟨"x", .named "Int", none⟩], [],
    [fldA "user" [("id", .var "x")]
       [spr "U", .field none "name" [] [⟨"skip", [("if", .bool true)]⟩] []],
     fld "thing" [.inline (some "User") [] [fldA "posts" [("n", .int 1)] [fld "id" []]],
       .inline (some "Node") [] [fld "id" []]],
     fldA "find" [("by", .obj [("name", .str "a"), ("ids", .list [.int 1, .var "x"]), ("first", .int 2)])]
       [fld "id" []]]⟩,
   .frag ⟨"U", "Node", [], [fld "id" []]⟩]

/-- A document of one query without variables. -/
def qry (ss : List Sel) : Doc := [.op ⟨.query, none, [], [], ss⟩]

/-! ## What is found by name -/

theorem find_name {α : Type} (name : α → Name) (l : List α) (h : (l.map name).Nodup) (n : Name) (x : α) :
    l.find? (fun t => name t = n) = some x ↔ x ∈ l ∧ name x = n := by
  constructor
  · intro hf
    exact ⟨List.mem_of_find?_eq_some hf, by simpa using List.find?_some hf⟩
  · rintro ⟨hx, hn⟩
    cases hf : l.find? (fun t => name t = n) with
    | none =>
      rw [List.find?_eq_none] at hf
      exact absurd hn (by simpa using hf x hx)
    | some y =>
      have h1 := List.mem_of_find?_eq_some hf
      have h2 : name y = n := by simpa using List.find?_some hf
      rw [List.inj_on_of_nodup_map h h1 hx (h2.trans hn.symm)]

/-- What the statements below look up by name is what has the name: types, directives, the fields of
objects and of interfaces and those of input objects. Other types have no fields. -/
theorem C78_lookups (s : Schema) :
    ((s.types.map (·.name)).Nodup → ∀ n t, s.typeByName n = some t ↔ t ∈ s.types ∧ t.name = n) ∧
    ((s.dirs.map (·.name)).Nodup → ∀ n x, s.dirByName n = some x ↔ x ∈ s.dirs ∧ x.name = n) ∧
    (∀ m is fs, (fs.map FieldDef.name).Nodup → ∀ n f,
      ((TypeDef.object m is fs).fieldByName n = some f ↔ f ∈ fs ∧ f.name = n) ∧
      ((TypeDef.interface m is fs).fieldByName n = some f ↔ f ∈ fs ∧ f.name = n)) ∧
    (∀ n, (∀ m, (TypeDef.scalar m).fieldByName n = none) ∧ (∀ m vs, (TypeDef.enum m vs).fieldByName n = none) ∧
      (∀ m ms, (TypeDef.union m ms).fieldByName n = none) ∧ ∀ m fs, (TypeDef.input m fs).fieldByName n = none) ∧
    (∀ m fs, (fs.map InputDef.name).Nodup → ∀ n f,
      (TypeDef.input m fs).inputByName n = some f ↔ f ∈ fs ∧ f.name = n) := by
  refine ⟨fun h n t => find_name _ _ h n t, fun h n t => find_name _ _ h n t, fun m is fs h n f =>
    ⟨find_name _ _ h n f, find_name _ _ h n f⟩, fun n => ⟨fun _ => rfl, fun _ _ => rfl, fun _ _ => rfl, fun _ _ => rfl⟩,
    fun m fs h n f => find_name _ _ h n f⟩

example : (exT.types.map (·.name)).Nodup ∧ (exT.dirs.map (·.name)).Nodup := by decide

/-! ## C78: fields and the types of fragments -/

/-- The full property: an accepted document selects only fields that exist, with selections of their
own where there must be some, and its fragments are on types that exist and can be selected on. -/
def FieldsFound : Prop := ∀ (s : Schema) (d : Doc),
  (fieldsOnCorrectType s d = false ∧ leafFieldSelections s d = false ∧ fragmentTypes s d = false) →
    FieldsGood s d ∧ ConditionsGood s d

/-- `_partial`: what is checked is just that, but for names that start with two underscores and for
the selections of fields whose type the schema does not have. Also `__typename` must not stand among
the root fields of a subscription. Missing: names with two underscores that are not of introspection
are accepted. -/
theorem C78_fields_partial (s : Schema) (d : Doc) :
    (fieldsOnCorrectType s d = false ∧ leafFieldSelections s d = false ∧ fragmentTypes s d = false) ↔
      (∀ o ∈ ops d, o.kind = .subscription →
        ∀ al args ds sub, Sel.field al "__typename" args ds sub ∉ o.sels) ∧
      FieldsChecked s d ∧
      (∀ f ∈ frags d, ConditionChecked s f.cond) ∧
      (∀ x ∈ d, ∀ c ds sub, Inside (.inline (some c) ds sub) x.sels → ConditionChecked s c) := by
  rw [fieldsOnCorrectType_iff, leafFieldSelections_iff, fragmentTypes_iff]
  constructor
  · rintro ⟨⟨h1, h2⟩, h3, h4, h5⟩
    refine ⟨h1, fun q al n args ds sub hs => ?_, h4, h5⟩
    cases hf : q.fieldByName n with
    | none => exact h2 q al n args ds sub hs hf
    | some f => exact fun t ht => h3 q al n args ds sub hs f t hf ht
  · rintro ⟨h1, h2, h4, h5⟩
    refine ⟨⟨h1, fun q al n args ds sub hs hf => ?_⟩, fun q al n args ds sub hs f t hf ht => ?_, h4, h5⟩
    · have := h2 q al n args ds sub hs
      rw [hf] at this
      exact this
    · have := h2 q al n args ds sub hs
      rw [hf] at this
      exact this t ht

/-- What is asked of the schema and the document for the rest: the types of fields exist and no field
of the schema is called `__typename`; and names that start with two underscores are only `__typename`
without selections. -/
structure NoReserved (s : Schema) (d : Doc) : Prop where
  types : ∀ t ∈ s.types, ∀ n f, t.fieldByName n = some f →
    n ≠ "__typename" ∧ ∃ u, s.typeByName f.ty.inner = some u
  fields : ∀ q al n args ds sub, Selects s d q (.field al n args ds sub) → Reserved n →
    n = "__typename" ∧ sub = []
  frags : ∀ f ∈ frags d, ¬ Reserved f.cond
  inlines : ∀ x ∈ d, ∀ c ds sub, Inside (.inline (some c) ds sub) x.sels → ¬ Reserved c

theorem selects_mem {s : Schema} {d : Doc} {q : TypeDef} {x : Sel} (h : Selects s d (some q) x) :
    q ∈ s.types := by
  obtain ⟨df, _, h⟩ := h
  exact on_mem h (def_on_mem s df) q rfl

/-- In documents where names of introspection are only `__typename`, the rules accept exactly those
whose fields and fragments are good. -/
theorem C78_fields_good (s : Schema) (d : Doc) (hr : NoReserved s d) :
    (fieldsOnCorrectType s d = false ∧ leafFieldSelections s d = false ∧ fragmentTypes s d = false) ↔
      (∀ o ∈ ops d, o.kind = .subscription →
        ∀ al args ds sub, Sel.field al "__typename" args ds sub ∉ o.sels) ∧
      FieldsGood s d ∧ ConditionsGood s d := by
  rw [C78_fields_partial]
  have hcond : ∀ n, ¬ Reserved n → (ConditionChecked s n ↔ ∃ t, s.typeByName n = some t ∧ Composite t) := by
    intro n hn
    unfold ConditionChecked
    cases s.typeByName n with
    | none => simp [hn]
    | some t => simp
  have htn : Reserved "__typename" := ⟨_, rfl⟩
  refine and_congr_right fun _ => and_congr ?_ (and_congr ?_ ?_)
  · unfold FieldsChecked FieldsGood
    refine forall_congr' fun q => forall_congr' fun al => forall_congr' fun n => forall_congr' fun args =>
      forall_congr' fun ds => forall_congr' fun sub => forall_congr' fun hs => ?_
    have hq := selects_mem hs
    cases hf : q.fieldByName n with
    | none =>
      simp only [reduceCtorEq, false_and, exists_false, or_false]
      exact ⟨hr.fields _ al n args ds sub hs, fun h => by rw [h.1]; exact htn⟩
    | some f =>
      obtain ⟨hne, u, hu⟩ := hr.types q hq n f hf
      simp only [Option.some.injEq, hu, forall_eq', hne, false_and, false_or]
      constructor
      · exact fun h => ⟨f, u, rfl, hu, h⟩
      · rintro ⟨f', t', rfl, ht', h⟩
        rw [hu] at ht'
        cases ht'
        exact h
  · exact forall_congr' fun f => forall_congr' fun hf => hcond _ (hr.frags f hf)
  · exact forall_congr' fun x => forall_congr' fun hx => forall_congr' fun c => forall_congr' fun ds =>
      forall_congr' fun sub => forall_congr' fun hi => hcond _ (hr.inlines x hx c ds sub hi)

/-- A check of every field of a document. -/
theorem selects_check (s : Schema) (d : Doc) (p : Option TypeDef → Name → Args → List Sel → Bool)
    (h : (visit s d).all (fun e => match e.2 with
      | .field _ n args _ sub => p e.1.parent n args sub
      | _ => true) = true) :
    ∀ q al n args ds sub, Selects s d q (.field al n args ds sub) → p q n args sub = true := by
  intro q al n args ds sub hs
  obtain ⟨x, hx, c, hc, rfl⟩ := (selects_iff s d _ _).1 hs
  have hm := (field_visitDef s x _ al n args ds sub).2 ⟨c, hc, rfl⟩
  have hv : (inField c n, Ev.field al n args ds sub) ∈ visit s d := by
    unfold visit
    rw [List.mem_cons, List.mem_append]
    exact Or.inr (Or.inl (List.mem_flatMap.2 ⟨x, hx, hm⟩))
  exact List.all_eq_true.1 h _ hv

theorem exFull_noReserved : NoReserved exT exFull := by
  constructor
  · intro t ht n f hf
    simp only [exT, List.mem_cons, List.not_mem_nil, or_false] at ht
    rcases ht with rfl | rfl | rfl | rfl | rfl | rfl | rfl | rfl | rfl | rfl | rfl <;>
      first
        | (simp [TypeDef.fieldByName] at hf; done)
        | (have h1 := List.mem_of_find?_eq_some hf
           have h2 := List.find?_some hf
           simp only [List.mem_cons, List.not_mem_nil, or_false] at h1
           simp only [decide_eq_true_eq] at h2
           rcases h1 with rfl | rfl | rfl | rfl <;> subst h2 <;> exact ⟨by decide, _, rfl⟩)
        | (have h1 := List.mem_of_find?_eq_some hf
           have h2 := List.find?_some hf
           simp only [List.mem_cons, List.not_mem_nil, or_false] at h1
           simp only [decide_eq_true_eq] at h2
           rcases h1 with rfl | rfl | rfl <;> subst h2 <;> exact ⟨by decide, _, rfl⟩)
        | (have h1 := List.mem_of_find?_eq_some hf
           have h2 := List.find?_some hf
           simp only [List.mem_cons, List.not_mem_nil, or_false] at h1
           simp only [decide_eq_true_eq] at h2
           subst h1; subst h2; exact ⟨by decide, _, rfl⟩)
  · intro q al n args ds sub hs hr
    have := selects_check exT exFull (fun _ n _ _ => !reserved n) (by decide +kernel) q al n args ds sub hs
    rw [(reserved_iff n).2 hr] at this
    cases this
  · intro f hf hr
    simp only [exFull, frags, Def.frag?, List.filterMap_cons, List.filterMap_nil, List.mem_cons,
      List.not_mem_nil, or_false] at hf
    subst hf
    obtain ⟨r, hr⟩ := hr
    simp at hr
  · intro x hx c ds sub hi hr
    have : ∀ c ds sub, Inside (.inline (some c) ds sub) x.sels → reserved c = false := by
      have h0 : (visit exT exFull).any (fun e => match e.2 with
        | .inline (some c) _ => reserved c
        | _ => false) = false := by decide +kernel
      rw [any_visit exT exFull _ (fun _ => rfl) (fun _ => rfl)] at h0
      intro c ds sub hi
      obtain ⟨c2, hc⟩ := (defAt_inside (s := exT) (x := x)).2 hi
      exact h0 x hx _ ((inline_visitDef exT x _ (some c) ds).2 ⟨c2, sub, hc, rfl⟩)
    have := this c ds sub hi
    rw [(reserved_iff c).2 hr] at this
    cases this

/-- A document with fields of objects, interfaces and unions is accepted. -/
example : FieldsGood exT exFull ∧ ConditionsGood exT exFull :=
  ((C78_fields_good exT exFull exFull_noReserved).1 (by decide +kernel)).2

/-- A field that the type does not have, selections on a number, none on an object, a field of a union,
and a fragment on a number or on a type that does not exist are not. -/
example :
    fieldsOnCorrectType exT (qry [fldA "user" [] [fld "email" []]]) = true ∧
    leafFieldSelections exT (qry [fldA "user" [] [fld "id" [fld "id" []]]]) = true ∧
    leafFieldSelections exT (qry [fldA "user" [] []]) = true ∧
    fieldsOnCorrectType exT (qry [fld "thing" [fld "id" []]]) = true ∧
    fragmentTypes exT (qry [.inline (some "Int") [] [fld "id" []]]) = true ∧
    fragmentTypes exT (qry [.inline (some "Nope") [] [fld "id" []]]) = true := by decide +kernel

/-- The full property fails: `{ user { __foo } }` is accepted. -/
theorem C78_fields_refuted : ¬ FieldsFound := by
  intro h
  have h1 := (h exT (qry [fldA "user" [] [fld "__foo" []]]) (by decide +kernel)).1
    (.object "User" ["Node"] [⟨"id", [], .named "Int"⟩, ⟨"name", [], .named "String"⟩,
        ⟨"posts", [⟨"n", .nonNull (.named "Int"), none⟩], .named "User"⟩]) none "__foo" [] [] []
    ⟨_, List.mem_singleton_self _, .field (al := none) (n := "user") (args := []) (ds := []) (sub := [fld "__foo" []])
      (by simp [Def.sels, fldA]) (.here (by simp [fld]))⟩
  rcases h1 with h1 | ⟨f, t, h1, _⟩
  · exact absurd h1.1 (by decide)
  · simp [TypeDef.fieldByName] at h1

/-- Nothing below a field of introspection is looked at, nor in an operation of a kind that the schema
does not have: `{ __schema { nonsense } }` and `mutation { nonsense }` are accepted. -/
theorem C78_nothing_below_refuted :
    (fieldsOnCorrectType exT (qry [fld "__schema" [fld "nonsense" []]]) = false ∧
      leafFieldSelections exT (qry [fld "__schema" [fld "nonsense" []]]) = false) ∧
    (fieldsOnCorrectType exT [.op ⟨.mutation, none, [], [], [fld "nonsense" []]⟩] = false ∧
      leafFieldSelections exT [.op ⟨.mutation, none, [], [], [fld "nonsense" []]⟩] = false) := by
  decide +kernel

/-! ## C79: directives -/

/-- The rules on directives accept a document exactly if every directive is one of the schema, at a
place where it is allowed, and none that cannot be repeated stands twice at a place. -/
theorem C79_directives (s : Schema) (d : Doc) :
    (knownDirectives s d = false ∧ uniqueDirectives s d = false) ↔ DirectivesGood s d := by
  rw [knownDirectives_iff, uniqueDirectives_iff]
  exact ⟨fun h => ⟨h.1, h.2⟩, fun h => ⟨h.1, h.2⟩⟩

/-- A directive on a field is accepted. -/
example : DirectivesGood exT exFull := (C79_directives exT exFull).1 (by decide +kernel)

/-- The same on the operation, one that is not known and the same twice are not, and neither are they
on a spread in a fragment. -/
example :
    knownDirectives exT [.op ⟨.query, none, [], [⟨"skip", [("if", .bool true)]⟩], [fld "thing" []]⟩] = true ∧
    knownDirectives exT (qry [.field none "thing" [] [⟨"slip", []⟩] []]) = true ∧
    uniqueDirectives exT (qry [.field none "thing" [] [⟨"skip", []⟩, ⟨"skip", []⟩] []]) = true ∧
    uniqueDirectives exT [.frag ⟨"U", "Node", [], [.spread "V" [⟨"skip", []⟩, ⟨"skip", []⟩]]⟩] = true := by
  decide +kernel

/-! ## C80: arguments -/

/-- The full property: in an accepted document arguments stand only where some are defined, each is
one that is defined, none is given twice and those that must be given are. -/
def ArgumentsFound : Prop := ∀ (s : Schema) (d : Doc),
  (uniqueArgumentNames s d = false ∧ providedRequiredArguments s d = false ∧
    knownArgumentNames s d = false) →
  ∀ defs args, Given s d defs args → args ≠ [] → ∃ l, defs = some l ∧ ArgsGood l args

/-- `_partial`: if arguments stand only at fields and directives that the schema has, the rules accept
a document exactly if all arguments are good. Missing: arguments at other fields, such as `__typename`,
are not looked at, or looked up among those of another field. -/
theorem C80_arguments_partial (s : Schema) (d : Doc) (h : ∀ args, Given s d none args → args = []) :
    (uniqueArgumentNames s d = false ∧ providedRequiredArguments s d = false ∧
      knownArgumentNames s d = false) ↔
    ∀ defs args, Given s d (some defs) args → ArgsGood defs args := by
  rw [uniqueArgumentNames_iff, providedRequiredArguments_iff, knownArgumentNames_iff]
  · constructor
    · rintro ⟨h1, h2, h3⟩ defs args hg
      exact ⟨h3 defs args hg, h1 _ args hg, h2 defs args hg⟩
    · intro hh
      refine ⟨fun defs args hg => ?_, fun defs args hg => (hh defs args hg).given,
        fun defs args hg => (hh defs args hg).known⟩
      cases defs with
      | none => rw [h args hg]; simp
      | some defs => exact (hh defs args hg).once
  · intro q al n args ds sub hs hne hf
    have hg := Given.field hs
    rw [hf] at hg
    exact hne (h _ hg)
  · intro l ds hc x hx hne hf
    have hg := Given.dir (s := s) hc hx
    rw [hf] at hg
    exact hne (h _ hg)

/-- In every document, arguments at a field or directive, known or not, are not given twice, and those
that must be given are. -/
theorem C80_once_and_given (s : Schema) (d : Doc) :
    (uniqueArgumentNames s d = false ↔ ∀ defs args, Given s d defs args → (args.map (·.1)).Nodup) ∧
    (providedRequiredArguments s d = false ↔ ∀ defs args, Given s d (some defs) args →
      ∀ b ∈ defs, (∃ t, b.ty = .nonNull t) → b.default_ = none → ∃ a ∈ args, a.1 = b.name) :=
  ⟨uniqueArgumentNames_iff s d, providedRequiredArguments_iff s d⟩

/-- A check of all arguments of a document. -/
theorem given_check (s : Schema) (d : Doc) (p : Option (List InputDef) → Args → Bool)
    (h : (visit s d).all (fun e => match e.2 with
      | .field _ n args _ _ => p (fieldArgs e.1.parent n) args
      | .dir x => p ((s.dirByName x.name).map (·.args)) x.args
      | _ => true) = true) :
    ∀ defs args, Given s d defs args → p defs args = true := by
  intro defs args hg
  have hin : ∀ x ∈ d, ∀ e ∈ visitDef s x, e ∈ visit s d := by
    intro x hx e he
    unfold visit
    rw [List.mem_cons, List.mem_append]
    exact Or.inr (Or.inl (List.mem_flatMap.2 ⟨x, hx, he⟩))
  cases hg with
  | @field q al n args ds sub hs =>
    obtain ⟨x, hx, c, hc, rfl⟩ := (selects_iff s d _ _).1 hs
    exact List.all_eq_true.1 h _ (hin x hx _ ((field_visitDef s x _ al n args ds sub).2 ⟨c, hc, rfl⟩))
  | @dir l ds e hc he =>
    obtain ⟨x, hx, c, hm⟩ := (dir_carries s d e).2 ⟨l, ds, hc, he⟩
    exact List.all_eq_true.1 h _ (hin x hx _ hm)

/-- A document with arguments of fields and directives is accepted. -/
example : (∀ args, Given exT exFull none args → args = []) ∧
    ∀ defs args, Given exT exFull (some defs) args → ArgsGood defs args := by
  have h : ∀ args, Given exT exFull none args → args = [] := by
    intro args hg
    have := given_check exT exFull (fun o args => o.isSome || args.isEmpty) (by decide +kernel) _ _ hg
    simpa using this
  exact ⟨h, (C80_arguments_partial exT exFull h).1 (by decide +kernel)⟩

/-- An argument that is not defined, one that is given twice and one that is not given are not. -/
example :
    knownArgumentNames exT (qry [fldA "user" [("is", .int 1)] []]) = true ∧
    uniqueArgumentNames exT (qry [fldA "user" [("id", .int 1), ("id", .int 1)] []]) = true ∧
    providedRequiredArguments exT (qry [fldA "user" [] [fldA "posts" [] []]]) = true ∧
    knownArgumentNames exT (qry [.field none "user" [] [⟨"skip", [("id", .int 1)]⟩] []]) = true ∧
    providedRequiredArguments exT (qry [.field none "user" [] [⟨"skip", []⟩] []]) = true := by
  decide +kernel

/-- The full property fails: `{ user(id: 1) { __typename(id: 2) } }` is accepted, because the argument
is looked up among those of the field `user`. -/
theorem C80_arguments_refuted : ¬ ArgumentsFound := by
  intro h
  obtain ⟨l, h1, _⟩ := h exT (qry [fldA "user" [("id", .int 1)] [fldA "__typename" [("id", .int 2)] []]])
    (by decide +kernel) none [("id", .int 2)]
    (Given.field (q := some (.object "User" ["Node"] [⟨"id", [], .named "Int"⟩, ⟨"name", [], .named "String"⟩,
        ⟨"posts", [⟨"n", .nonNull (.named "Int"), none⟩], .named "User"⟩])) (al := none) (n := "__typename")
        (ds := []) (sub := [])
      ⟨_, List.mem_singleton_self _, .field (al := none) (n := "user") (args := [("id", .int 1)]) (ds := [])
        (sub := [fldA "__typename" [("id", .int 2)] []])
        (by simp [Def.sels, fldA]) (.here (by simp [fldA]))⟩) (by simp)
  cases h1

/-! ## C81: where fragments can be applied -/

/-- When fragments have names of their own and the types of the schema are put together as they
should, the rule accepts a document exactly if every fragment stands where objects can be that are of
its type. -/
theorem C81_fragments_apply (s : Schema) (d : Doc) (hs : TypesGood s)
    (hd : ((frags d).map (·.name)).Nodup) :
    possibleFragmentSpreads s d = false ↔
      ∀ f p, Applied s d f p → Composite f → Composite p → CanBeBoth s f p := by
  rw [possibleFragmentSpreads_iff s d hd]
  have hm : ∀ f p, Applied s d f p → f ∈ s.types ∧ p ∈ s.types := by
    intro f p h
    cases h with
    | inline h1 h2 => exact ⟨field_mem h2, selects_mem h1⟩
    | spread h1 _ _ h2 => exact ⟨field_mem h2, selects_mem h1⟩
  refine forall_congr' fun f => forall_congr' fun p => forall_congr' fun ha => ?_
  rw [isComposite_iff, isComposite_iff]
  refine forall_congr' fun hf => forall_congr' fun hp => ?_
  obtain ⟨h1, h2⟩ := hm f p ha
  exact ⟨both_of_overlap hs h1 h2 ((isComposite_iff f).2 hf) ((isComposite_iff p).2 hp),
    overlap_of_both hs.names h1 h2 ((isComposite_iff f).2 hf) ((isComposite_iff p).2 hp)⟩

theorem exT_good : TypesGood exT := by
  refine ⟨by decide, ?_, ?_, ?_⟩
  · intro n ms h
    simp only [exT, List.mem_cons, List.not_mem_nil, or_false, reduceCtorEq, false_or, TypeDef.union.injEq] at h
    obtain ⟨rfl, rfl⟩ := h
    refine ⟨by simp, fun m hm => ?_⟩
    simp only [List.mem_cons, List.not_mem_nil, or_false] at hm
    rcases hm with rfl | rfl
    · exact ⟨["Node"], _, by simp [exT]; rfl⟩
    · exact ⟨["Node"], _, by simp [exT]; rfl⟩
  · intro t _ n is fs h _ i hi
    simp only [exT, List.mem_cons, List.not_mem_nil, or_false, reduceCtorEq, TypeDef.interface.injEq] at h
    obtain ⟨_, rfl, _⟩ := h
    cases hi
  · intro n is fs h
    simp only [exT, List.mem_cons, List.not_mem_nil, or_false, reduceCtorEq, TypeDef.interface.injEq] at h
    obtain ⟨rfl, _, _⟩ := h
    exact ⟨"Post", ["Node"], [⟨"id", [], .named "Int"⟩], by simp [exT], by simp⟩

/-- A document with fragments on members of a union, on an interface where a union is expected, and on
an interface where an object is, is accepted. -/
example : ∀ f p, Applied exT exFull f p → Composite f → Composite p → CanBeBoth exT f p :=
  (C81_fragments_apply exT exFull exT_good (by decide)).1 (by decide +kernel)

/-- A fragment on a type that is no member, or on another object, is not, inline or spread. -/
example :
    possibleFragmentSpreads exT (qry [fld "thing" [.inline (some "Tag") [] [fld "id" []]]]) = true ∧
    possibleFragmentSpreads exT (qry [fldA "user" [] [.inline (some "Post") [] [fld "id" []]]]) = true ∧
    possibleFragmentSpreads exT (qry [fldA "user" [] [spr "P"]] ++
      [.frag ⟨"P", "Post", [], [fld "id" []]⟩]) = true ∧
    possibleFragmentSpreads exT (qry [fld "thing" [.inline (some "Node") [] [.inline (some "Tag") [] []]]]) = true := by
  decide +kernel

/-! ## C82: the types of values -/

/-- The full property: in an accepted document every value has the type that is expected. -/
def ValuesFound : Prop := ∀ (s : Schema) (d : Doc), valuesOfCorrectType s d = false →
  ∀ t v, Expected s d t v → Fits s t v

/-- `_partial`: a document is accepted exactly if every value fits, with three exceptions. Missing: the
size of numbers, lists where none is expected or one that must not be null is, and objects where none
is expected are not checked. -/
theorem C82_values_partial (s : Schema) (d : Doc) :
    valuesOfCorrectType s d = false ↔ ∀ t v, Expected s d t v → Loosely s t v :=
  valuesOfCorrectType_iff s d

/-- No document whose values fit is rejected. -/
theorem C82_no_false_alarm (s : Schema) (d : Doc) (h : ∀ t v, Expected s d t v → Fits s t v) :
    valuesOfCorrectType s d = false :=
  (C82_values_partial s d).2 (fun t v he => fits_loosely s (h t v he))

/-- In documents without the three kinds of values, those that are accepted are those whose values
fit. -/
theorem C82_plain (s : Schema) (d : Doc) (hp : Plain s d) :
    valuesOfCorrectType s d = false ↔ ∀ t v, Expected s d t v → Fits s t v :=
  ⟨fun h t v he => loosely_fits s d hp ((C82_values_partial s d).1 h t v he) (.top he),
    C82_no_false_alarm s d⟩

/-- A value that is a number of 32 bits, a boolean, a string, a variable, a list of such where a list
is expected that can be null, or an object of such where an input object of the name is. -/
def plainB (s : Schema) : Nat → Ty → Val → Bool
  | 0, _, _ => false
  | _ + 1, _, .int i => decide (-2147483648 ≤ i ∧ i ≤ 2147483647)
  | n + 1, t, .list vs =>
      match t with
      | .list u => vs.all (plainB s n u)
      | _ => false
  | n + 1, t, .obj fs =>
      match s.typeByName t.inner with
      | some (.input _ defs) => fs.all (fun p =>
          match defs.find? (fun f => f.name = p.1) with
          | some b => plainB s n b.ty p.2
          | none => true)
      | _ => false
  | _ + 1, _, _ => true

/-- Documents can be checked to be plain. -/
theorem plain_check (s : Schema) (d : Doc) (k : Nat)
    (h : ∀ t v, Expected s d t v → plainB s k t v = true) : Plain s d := by
  have hpl : ∀ t v, Place s d t v → ∃ n, plainB s n t v = true := by
    intro t v hp
    induction hp with
    | top he => exact ⟨k, h _ _ he⟩
    | item _ hx ih =>
      obtain ⟨n, ih⟩ := ih
      cases n with
      | zero => simp [plainB] at ih
      | succ n =>
        simp only [plainB] at ih
        exact ⟨n, List.all_eq_true.1 ih _ hx⟩
    | pair _ hw ht hp hf ih =>
      obtain ⟨n, ih⟩ := ih
      cases n with
      | zero => simp [plainB] at ih
      | succ n =>
        simp only [plainB] at ih
        rw [(wraps_iff _ _).1 hw, ht] at ih
        have := List.all_eq_true.1 ih _ hp
        rw [hf] at this
        exact ⟨n, this⟩
  intro t v hp
  obtain ⟨n, hb⟩ := hpl t v hp
  cases n with
  | zero => simp [plainB] at hb
  | succ n =>
    refine ⟨fun vs hv => ?_, fun fs hv => ?_, fun i hv => ?_⟩
    · subst hv
      cases t with
      | list u => exact ⟨u, rfl⟩
      | named m => simp [plainB] at hb
      | nonNull u => simp [plainB] at hb
    · subst hv
      simp only [plainB] at hb
      cases ht : s.typeByName t.inner with
      | none => rw [ht] at hb; cases hb
      | some u =>
        cases u with
        | input m defs => exact ⟨_, m, defs, (wraps_iff _ _).2 rfl, ht⟩
        | _ => rw [ht] at hb; cases hb
    · subst hv
      simpa [plainB] using hb

theorem exFull_plain : Plain exT exFull := by
  refine plain_check exT exFull 5 (fun t v he => ?_)
  cases he with
  | @arg defs args a b hg ha hb =>
    have := given_check exT exFull (fun o args => match o with
      | some defs => args.all (fun a => match defs.find? (fun b => b.name = a.1) with
          | some b => plainB exT 5 b.ty a.2
          | none => true)
      | none => true) (by decide +kernel) _ _ hg
    have := List.all_eq_true.1 this a ha
    rw [hb] at this
    exact this
  | @default_ o w x ho hw hx =>
    simp only [exFull, ops, Def.op?, List.filterMap_cons, List.filterMap_nil, List.mem_cons,
      List.not_mem_nil, or_false] at ho
    subst ho
    simp only [List.mem_cons, List.not_mem_nil, or_false] at hw
    subst hw
    cases hx

/-- A document with numbers, strings, booleans, variables, lists and objects is accepted, and they
fit. -/
example : Plain exT exFull ∧ ∀ t v, Expected exT exFull t v → Fits exT t v :=
  ⟨exFull_plain, (C82_plain exT exFull exFull_plain).1 (by decide +kernel)⟩

/-- A string for a number, `null` where it must not be, a number for an object, an object without a
field it must have, with one that it does not have and with one of the wrong type are not. -/
example :
    valuesOfCorrectType exT (qry [fldA "user" [("id", .str "1")] []]) = true ∧
    valuesOfCorrectType exT (qry [fldA "user" [] [fldA "posts" [("n", .null)] []]]) = true ∧
    valuesOfCorrectType exT (qry [fldA "find" [("by", .int 1)] []]) = true ∧
    valuesOfCorrectType exT (qry [fldA "find" [("by", .obj [("first", .int 1), ("no", .int 1)])] []]) = true ∧
    valuesOfCorrectType exT (qry [fldA "find" [("by", .obj [("ids", .list [.str "1"])])] []]) = true ∧
    valuesOfCorrectType exT
      [.op ⟨.query, none, [⟨"x", .named "Int", some (.bool true)⟩], [], [fld "thing" []]⟩] = true := by
  decide +kernel

/-- The full property fails: `{ ids(of: [null]) }` is accepted though a list of numbers is expected
that has no `null`. -/
theorem C82_values_refuted : ¬ ValuesFound := by
  intro h
  have h1 := h exT (qry [fldA "ids" [("of", .list [.null])] []]) (by decide +kernel)
    (.nonNull (.list (.nonNull (.named "Int")))) (.list [.null])
    (.arg (defs := [⟨"of", .nonNull (.list (.nonNull (.named "Int"))), none⟩, ⟨"n", .named "Int", none⟩])
      (args := [("of", .list [.null])]) (a := ("of", .list [.null]))
      (Given.field (q := exT.typeByName "Query") (al := none) (n := "ids") (ds := []) (sub := [])
        ⟨_, List.mem_singleton_self _, .here (by simp [Def.sels, fldA])⟩) (by simp) rfl)
  cases h1 with
  | nonNull _ h1 =>
    cases h1 with
    | items h1 =>
      have := h1 .null (by simp)
      cases this with
      | null h => exact h _ rfl
      | nonNull h _ => exact h rfl
    | single h1 _ _ => exact h1 _ rfl

/-- Other values that are accepted although they do not fit: a list for a number, an object for a
number and a number too large for 32 bits. -/
theorem C82_others_refuted :
    (valuesOfCorrectType exT (qry [fldA "user" [("id", .list [.int 1])] []]) = false ∧
      ¬ Fits exT (.named "Int") (.list [.int 1])) ∧
    (valuesOfCorrectType exT (qry [fldA "user" [("id", .obj [])] []]) = false ∧
      ¬ Fits exT (.named "Int") (.obj [])) ∧
    (valuesOfCorrectType exT (qry [fldA "user" [("id", .int 3000000000)] []]) = false ∧
      ¬ Fits exT (.named "Int") (.int 3000000000)) := by
  have hi : exT.typeByName "Int" = some (.scalar "Int") := rfl
  refine ⟨⟨by decide +kernel, ?_⟩, ⟨by decide +kernel, ?_⟩, ⟨by decide +kernel, ?_⟩⟩
  · intro h
    cases h with
    | unknown h => rw [hi] at h; cases h
    | scalar h1 h2 =>
      rw [hi] at h1; cases h1
      simp [ScalarTakes] at h2
  · intro h
    cases h with
    | unknown h => rw [hi] at h; cases h
    | scalar h1 h2 =>
      rw [hi] at h1; cases h1
      simp [ScalarTakes] at h2
    | obj h1 _ _ => rw [hi] at h1; cases h1
  · intro h
    cases h with
    | unknown h => rw [hi] at h; cases h
    | scalar h1 h2 =>
      rw [hi] at h1; cases h1
      simp [ScalarTakes] at h2

/-! ## C83: the fields of object literals -/

/-- The rule accepts a document exactly if no object literal in it, at any depth, gives a field
twice. -/
theorem C83_object_fields_once (s : Schema) (d : Doc) :
    uniqueInputFieldNames s d = false ↔ ObjectsGood s d :=
  uniqueInputFieldNames_iff s d

example : ObjectsGood exT exFull := (C83_object_fields_once exT exFull).1 (by decide +kernel)

example :
    uniqueInputFieldNames exT (qry [fldA "find" [("by", .obj [("a", .int 1), ("b", .int 1), ("a", .int 2)])] []]) = true ∧
    uniqueInputFieldNames exT (qry [fldA "no" [("by", .list [.obj [("c", .obj [("a", .int 1), ("a", .int 1)])]])] []]) = true := by
  decide +kernel

/-! ## C84: where variables are used -/

/-- The full property: in an accepted document with different variables of types of inputs every
variable is used only where its type is allowed. -/
def VariablesFit : Prop := ∀ (s : Schema) (d : Doc), OperationsNamed d →
  (∀ o ∈ ops d, (o.vars.map (·.name)).Nodup) → InputsGood s d →
  variablesInAllowedPosition s d = false →
  ∀ o ∈ ops d, ∀ n t b, UsesAt s d o (VarAt s) n t b → ∀ v ∈ o.vars, v.name = n → Allowed v t b

/-- `_partial`: the rule accepts a document exactly if every variable that it sees, in the operation or
a fragment it reaches, is allowed where it is used. Missing: it sees none in a list that must not be
null. -/
theorem C84_positions_partial (s : Schema) (d : Doc) (h : OperationsNamed d)
    (hv : ∀ o ∈ ops d, (o.vars.map (·.name)).Nodup) (hi : InputsGood s d) :
    variablesInAllowedPosition s d = false ↔
      ∀ o ∈ ops d, ∀ n t b, UsesAt s d o (SeenAt s) n t b → ∀ v ∈ o.vars, v.name = n → Allowed v t b :=
  variablesInAllowedPosition_iff s d h hv hi

/-- Where list literals stand only where a list that can be null is expected, the rule accepts a
document exactly if every variable is allowed where it is used. -/
theorem C84_positions_plain (s : Schema) (d : Doc) (h : OperationsNamed d)
    (hv : ∀ o ∈ ops d, (o.vars.map (·.name)).Nodup) (hi : InputsGood s d)
    (hl : ∀ t vs, Place s d t (.list vs) → ∃ u, t = .list u) :
    variablesInAllowedPosition s d = false ↔
      ∀ o ∈ ops d, ∀ n t b, UsesAt s d o (VarAt s) n t b → ∀ v ∈ o.vars, v.name = n → Allowed v t b := by
  rw [C84_positions_partial s d h hv hi]
  simp only [usesAt_seen hl]

/-- No document whose variables are all allowed where they are used is rejected. -/
theorem C84_no_false_alarm (s : Schema) (d : Doc) (h : OperationsNamed d)
    (hv : ∀ o ∈ ops d, (o.vars.map (·.name)).Nodup) (hi : InputsGood s d)
    (hall : ∀ o ∈ ops d, ∀ n t b, UsesAt s d o (VarAt s) n t b → ∀ v ∈ o.vars, v.name = n → Allowed v t b) :
    variablesInAllowedPosition s d = false := by
  rw [C84_positions_partial s d h hv hi]
  rintro o ho n t b ⟨x, hx, hxo, u, a, v, hs, h⟩
  exact hall o ho n t b ⟨x, hx, hxo, u, a, v, hs, seen_varAt h⟩

/-- The type is of inputs: for closed types. -/
def inputTyB (s : Schema) (t : Ty) : Bool :=
  (match t with
    | .nonNull (.nonNull _) => false
    | .nonNull (.list (.nonNull (.named _))) => true
    | .nonNull (.named _) => true
    | .nonNull (.list (.named _)) => true
    | .list (.named _) => true
    | .named _ => true
    | _ => false) &&
  match s.typeByName t.inner with
  | some x => !x.isComposite
  | none => true

theorem inputTy_check (s : Schema) (t : Ty) (h : inputTyB s t = true) : InputTy s t := by
  unfold inputTyB at h
  rw [Bool.and_eq_true] at h
  refine ⟨?_, fun n x hw hx hc => ?_⟩
  · have h1 := h.1
    split at h1 <;> simp_all [Ty.Once]
  · have h2 := h.2
    rw [(wraps_iff _ _).1 hw, hx] at h2
    simp [(isComposite_iff x).2 hc] at h2

theorem exT_inputs (d : Doc) (hd : ∀ o ∈ ops d, ∀ v ∈ o.vars, inputTyB exT v.ty = true) :
    InputsGood exT d := by
  have key : exT.types.all (fun t => match t with
      | .object _ _ fs => fs.all (fun f => f.args.all (fun a => inputTyB exT a.ty))
      | .interface _ _ fs => fs.all (fun f => f.args.all (fun a => inputTyB exT a.ty))
      | .input _ fs => fs.all (fun a => inputTyB exT a.ty)
      | _ => true) = true := by decide +kernel
  have keyd : exT.dirs.all (fun t => t.args.all (fun a => inputTyB exT a.ty)) = true := by decide +kernel
  refine ⟨fun t ht n f hf a ha => ?_, fun n x hx a ha => ?_, fun n m defs ht a ha => ?_,
    fun o ho v hv => inputTy_check _ _ (hd o ho v hv)⟩
  · have := List.all_eq_true.1 key t ht
    apply inputTy_check
    cases t <;> simp only [TypeDef.fieldByName, reduceCtorEq] at hf
    · exact List.all_eq_true.1 (List.all_eq_true.1 this f (List.mem_of_find?_eq_some hf)) a ha
    · exact List.all_eq_true.1 (List.all_eq_true.1 this f (List.mem_of_find?_eq_some hf)) a ha
  · exact inputTy_check _ _ (List.all_eq_true.1 (List.all_eq_true.1 keyd x (List.mem_of_find?_eq_some hx)) a ha)
  · exact inputTy_check _ _ (List.all_eq_true.1 (List.all_eq_true.1 key _ (field_mem ht)) a ha)

/-- A document whose variable is used as an argument and in a list in an object is accepted. -/
example : ∀ o ∈ ops exFull, ∀ n t b, UsesAt exT exFull o (VarAt exT) n t b → ∀ v ∈ o.vars, v.name = n →
    Allowed v t b := by
  have hn := ((C75_names_and_fragments exT exFull).1 (by decide +kernel)).1
  have hv : ∀ o ∈ ops exFull, (o.vars.map (·.name)).Nodup := (uniqueVariableNames_iff exT exFull).1 (by decide +kernel)
  refine (C84_positions_plain exT exFull hn hv (exT_inputs _ ?_) ?_).1 (by decide +kernel)
  · intro o ho v hv
    simp only [exFull, ops, Def.op?, List.filterMap_cons, List.filterMap_nil, List.mem_cons,
      List.not_mem_nil, or_false] at ho
    subst ho
    simp only [List.mem_cons, List.not_mem_nil, or_false] at hv
    subst hv
    decide +kernel
  · exact fun t vs hp => (exFull_plain t _ hp).1 vs rfl

/-- A variable that can be null where that is not allowed, one of another type, and a single one where a
list is expected are not accepted; with a default they are, and where there is one. -/
example :
    variablesInAllowedPosition exT [.op ⟨.query, none, [⟨"x", .named "Int", none⟩], [],
      [fldA "user" [] [fldA "posts" [("n", .var "x")] []]]⟩] = true ∧
    variablesInAllowedPosition exT [.op ⟨.query, none, [⟨"x", .named "Int", some .null⟩], [],
      [fldA "user" [] [fldA "posts" [("n", .var "x")] []]]⟩] = true ∧
    variablesInAllowedPosition exT [.op ⟨.query, none, [⟨"x", .named "Int", some (.int 1)⟩], [],
      [fldA "user" [] [fldA "posts" [("n", .var "x")] []]]⟩] = false ∧
    variablesInAllowedPosition exT [.op ⟨.query, none, [⟨"x", .named "Int", none⟩], [],
      [fldA "find" [("by", .obj [("first", .var "x")])] []]⟩] = false ∧
    variablesInAllowedPosition exT [.op ⟨.query, none, [⟨"x", .named "String", none⟩], [], [spr "F"]⟩,
      .frag ⟨"F", "Query", [], [fldA "user" [("id", .var "x")] []]⟩] = true ∧
    variablesInAllowedPosition exT [.op ⟨.query, none, [⟨"x", .named "Int", none⟩], [],
      [fldA "find" [("by", .obj [("ids", .var "x")])] []]⟩] = true := by decide +kernel

/-- `query Q($x: String) { ids(of: [$x]) }`. -/
def exList : Doc :=
  [.op ⟨.query, some "Q", [⟨"x", .named "String", none⟩], [], [fldA "ids" [("of", .list [.var "x"])] []]⟩]

/-- The full property fails: `query Q($x: String) { ids(of: [$x]) }` is accepted, though the list is one
of numbers that are not null. -/
theorem C84_positions_refuted : ¬ VariablesFit := by
  intro h
  have hn := ((C75_names_and_fragments exT exList).1 (by decide +kernel)).1
  have h1 := h exT exList hn (by decide) (exT_inputs _ (by decide +kernel)) (by decide +kernel)
    ⟨.query, some "Q", [⟨"x", .named "String", none⟩], [], [fldA "ids" [("of", .list [.var "x"])] []]⟩
    (by simp [ops, exList, Def.op?, List.filterMap_cons]) "x" (.nonNull (.named "Int")) false
    ⟨_, List.mem_singleton_self _, Or.inl rfl, .nonNull (.list (.nonNull (.named "Int"))), false, .list [.var "x"],
      .arg (defs := [⟨"of", .nonNull (.list (.nonNull (.named "Int"))), none⟩, ⟨"n", .named "Int", none⟩])
        (args := [("of", .list [.var "x"])]) (a := ("of", .list [.var "x"]))
        (b := ⟨"of", .nonNull (.list (.nonNull (.named "Int"))), none⟩)
        (Given.field (q := exT.typeByName "Query") (al := none) (n := "ids") (ds := []) (sub := [])
          ⟨_, List.mem_singleton_self _, .here (by simp [Def.sels, fldA])⟩) (by simp) rfl,
      .required (List.mem_singleton_self _) .self⟩
    ⟨"x", .named "String", none⟩ (by simp) rfl
  simp only [Allowed] at h1
  rcases h1.1 with h | ⟨x, h, _⟩
  · cases h
  · cases h

/-! ## C85: the root field of subscriptions -/

/-- The full property: an accepted subscription has one field in its response, not of introspection. -/
def SubscriptionsFound : Prop := ∀ (s : Schema) (d : Doc), ((frags d).map (·.name)).Nodup →
  (∀ t, s.subscription.bind s.typeByName = some t → ∃ n is fs, t = .object n is fs) →
  singleFieldSubscriptions s d = false → SubscriptionsGood s d

/-- `_partial`: a document is accepted exactly if in every subscription all root fields, also those in
fragments, are the same field of the schema, not of introspection. Missing: two selections of it with
different aliases. -/
theorem C85_one_root_field_partial (s : Schema) (d : Doc) (hd : ((frags d).map (·.name)).Nodup)
    (hs : ∀ t, s.subscription.bind s.typeByName = some t → ∃ n is fs, t = .object n is fs) :
    singleFieldSubscriptions s d = false ↔
      ∀ o ∈ ops d, o.kind = .subscription → ∀ t, s.subscription.bind s.typeByName = some t →
        (∀ n k n' k', RootField s d t n k o.sels → RootField s d t n' k' o.sels → n = n') ∧
        (∀ n k, RootField s d t n k o.sels → ¬ Reserved n) :=
  singleFieldSubscriptions_iff s d hd hs

/-- In documents whose subscriptions use no aliases at their root, those that are accepted have one
field in their responses. -/
theorem C85_without_aliases (s : Schema) (d : Doc) (hd : ((frags d).map (·.name)).Nodup)
    (hs : ∀ t, s.subscription.bind s.typeByName = some t → ∃ n is fs, t = .object n is fs)
    (ha : ∀ o ∈ ops d, ∀ t n k, RootField s d t n k o.sels → k = n) :
    singleFieldSubscriptions s d = false ↔ SubscriptionsGood s d := by
  rw [C85_one_root_field_partial s d hd hs]
  unfold SubscriptionsGood
  refine forall_congr' fun o => forall_congr' fun ho => forall_congr' fun _ => forall_congr' fun t =>
    forall_congr' fun _ => and_congr_left fun _ => ?_
  constructor
  · intro h n k n' k' h1 h2
    rw [ha o ho t n k h1, ha o ho t n' k' h2]
    exact h n k n' k' h1 h2
  · intro h n k n' k' h1 h2
    have := h n k n' k' h1 h2
    rw [ha o ho t n k h1, ha o ho t n' k' h2] at this
    exact this

/-- A subscription. -/
def sub (ss : List Sel) : Doc := [.op ⟨.subscription, none, [], [], ss⟩]

/-- `subscription { news { id } ...N ... on Node { id } } fragment N on Subscription { news { name } }`. -/
def exSub : Doc :=
  sub [fld "news" [fld "id" []], spr "N", .inline (some "Node") [] [fld "id" []]] ++
    [.frag ⟨"N", "Subscription", [], [fld "news" [fld "name" []]]⟩]

theorem exT_sub : ∀ t, exT.subscription.bind exT.typeByName = some t → ∃ n is fs, t = .object n is fs := by
  intro t h
  cases h
  exact ⟨_, _, _, rfl⟩

/-- A subscription that selects one field twice, once through a fragment, and others in a fragment that
does not apply, is accepted. -/
example : ∀ o ∈ ops exSub, o.kind = .subscription → ∀ t, exT.subscription.bind exT.typeByName = some t →
    (∀ n k n' k', RootField exT exSub t n k o.sels → RootField exT exSub t n' k' o.sels → n = n') ∧
    (∀ n k, RootField exT exSub t n k o.sels → ¬ Reserved n) :=
  (C85_one_root_field_partial exT exSub (by decide) exT_sub).1 (by decide +kernel)

/-- One that selects another field in a fragment is not, nor one that selects `__typename`. -/
example :
    singleFieldSubscriptions exT (sub [fld "news" [], spr "N"] ++
      [.frag ⟨"N", "Subscription", [], [.inline none [] [fld "more" []]]⟩]) = true ∧
    singleFieldSubscriptions exT (sub [.inline none [] [fld "__typename" []]]) = true := by decide +kernel

/-- `subscription { a: news(of: 1) { id } b: news(of: 2) { id } }`. -/
def exTwo : Doc :=
  sub [.field (some "a") "news" [("of", .int 1)] [] [fld "id" []],
    .field (some "b") "news" [("of", .int 2)] [] [fld "id" []]]

/-- The full property fails: a subscription to one field under two aliases, with different arguments,
is accepted. -/
theorem C85_one_root_field_refuted : ¬ SubscriptionsFound := by
  intro h
  have h1 := (h exT exTwo (by decide) exT_sub (by decide +kernel)
    ⟨.subscription, none, [], [], [.field (some "a") "news" [("of", .int 1)] [] [fld "id" []],
      .field (some "b") "news" [("of", .int 2)] [] [fld "id" []]]⟩
    (by simp [exTwo, sub, ops, Def.op?, List.filterMap_cons]) rfl _ rfl).1 "news" "a" "news" "b"
    (.field (al := some "a") (args := [("of", .int 1)]) (ds := []) (sub := [fld "id" []]) (by simp) rfl)
    (.field (al := some "b") (args := [("of", .int 2)]) (ds := []) (sub := [fld "id" []]) (by simp) rfl)
  exact absurd h1 (by decide)

end Verif.Valid
