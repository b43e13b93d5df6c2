import Verif.Client.ResolveMain

/-!
# C101: what introspection says
-/

namespace Verif.Client
open Verif (Value Sel Lit SortedKeys)

/-- **C101**, but for what is `Exempt`, for operations that ask for a key once in each object and have no
fragments directly under `__schema`. For every sound schema, every order of hash tables and all values of
variables, the answer to an introspection is an object with exactly the fields that are asked for, and each
of them is what GraphQL says it is. -/
theorem C101_answers_partial (c : Ctx) (hs : Sound c.doc) (hf : c.Fair) (kind : OpKind) (root : String)
    (hr : rootName c.doc kind = some root) (sels : List Sel) (hd : Distinct sels) (hp : PlainSchema sels) :
    ∃ v, resolve c kind sels = some v ∧
      IsObject (Answers (Exempt c.doc) c.doc c.vars (.operation root) sels) v := by
  obtain ⟨es, he, hk, ha⟩ := rootItems_ok hs hf root sels hd.2 hp
  unfold resolve
  rw [hr]
  exact asObject_ok he (hk ▸ hd.1) ha

/-! ## Checking schemas -/

theorem names_iff (n : String) : ∀ t : Ty, t.Names n ↔ n = t.typeName
  | .named m => by simp only [Ty.Names, Ty.typeName]; exact eq_comm
  | .list t => names_iff n t
  | .nonNull t => names_iff n t

def typesOf (d : Doc) : List TypeDef := d.filterMap (fun | .type t => some t | _ => none)

theorem mem_typesOf {d : Doc} {t : TypeDef} : t ∈ typesOf d ↔ Def.type t ∈ d := by
  unfold typesOf
  rw [List.mem_filterMap]
  constructor
  · rintro ⟨x, hx, h⟩
    cases x with
    | type u => cases h; exact hx
    | _ => cases h
  · intro h; exact ⟨_, h, rfl⟩

theorem mem_typeNames {d : Doc} {n : String} : n ∈ typeNames d ↔ ∃ t, Def.type t ∈ d ∧ t.name = n := by
  constructor
  · intro h
    obtain ⟨x, hx, h⟩ := List.mem_filterMap.1 h
    cases x with
    | type u => cases h; exact ⟨u, hx, rfl⟩
    | _ => cases h
  · rintro ⟨t, h, rfl⟩; exact typeNames_mem h

def known (d : Doc) (t : Ty) : Bool := (typeNames d).contains t.typeName

theorem known_iff {d : Doc} {t : Ty} : known d t = true ↔ Known d t := by
  unfold known Known
  simp only [List.contains_iff_mem, names_iff, forall_eq, mem_typeNames]

def schemasOf (d : Doc) : List SchemaDef := d.filterMap (fun | .schema s => some s | _ => none)

theorem mem_schemasOf {d : Doc} {s : SchemaDef} : s ∈ schemasOf d ↔ Def.schema s ∈ d := by
  unfold schemasOf
  rw [List.mem_filterMap]
  constructor
  · rintro ⟨x, hx, h⟩
    cases x with
    | schema u => cases h; exact hx
    | _ => cases h
  · intro h; exact ⟨_, h, rfl⟩

theorem mem_directivesOf {d : Doc} {dd : DirDef} : dd ∈ directivesOf d ↔ Def.directive dd ∈ d := by
  unfold directivesOf
  rw [List.mem_filterMap]
  constructor
  · rintro ⟨x, hx, h⟩
    cases x with
    | directive u => cases h; exact hx
    | _ => cases h
  · intro h; exact ⟨_, h, rfl⟩

/-- A schema whose definition is `schema { query: q, … }` can be checked part by part. -/
theorem sound_of {d : Doc} (s : SchemaDef) (q : String) (h1 : (typeNames d).Nodup)
    (h2 : ∀ t ∈ typesOf d, (t.fields.map (·.name)).Nodup)
    (h3 : ∀ t ∈ typesOf d, ∀ u ∈ typesOf d, u.name ∈ t.impls → u.kind = "INTERFACE")
    (h4 : ∀ t ∈ typesOf d, ∀ y ∈ t.impls, ∀ u ∈ typesOf d, y ∉ u.members)
    (h5 : ∀ t ∈ typesOf d, ∀ u ∈ typesOf d, u.name ∈ t.members → u.kind = "OBJECT")
    (h6 : ∀ t ∈ typesOf d, ∀ u ∈ typesOf d, u.name ∈ t.impls → ∀ x ∈ u.impls, x ∈ t.impls)
    (h7 : schemasOf d = [s]) (h8 : s.query = some q) (h9 : q ∈ typeNames d)
    (h10 : ∀ t ∈ typesOf d, ∀ f ∈ t.fields, known d f.ty = true ∧ ∀ a ∈ f.args, known d a.ty = true)
    (h11 : ∀ t ∈ typesOf d, ∀ v ∈ t.inputs, known d v.ty = true)
    (h12 : ∀ dd ∈ directivesOf d, ∀ a ∈ dd.args, known d a.ty = true)
    (h13 : ∀ t ∈ typesOf d, (∀ y ∈ t.impls, y ∈ typeNames d) ∧ ∀ y ∈ t.members, y ∈ typeNames d) : Sound d where
  wellFormed :=
    { distinct := h1
      fields := fun t ht => h2 t (mem_typesOf.2 ht)
      implements := fun t u ht hu => h3 t (mem_typesOf.2 ht) u (mem_typesOf.2 hu)
      known := fun t y ht hy u hu => h4 t (mem_typesOf.2 ht) y hy (.union u) (mem_typesOf.2 hu)
      members := fun t u ht hu => h5 t (mem_typesOf.2 ht) u (mem_typesOf.2 hu)
      transitive := fun t u x ht hu hm hx => h6 t (mem_typesOf.2 ht) u (mem_typesOf.2 hu) hm x hx }
  one := by
    intro a b ha hb
    have ha := mem_schemasOf.2 ha
    have hb := mem_schemasOf.2 hb
    rw [h7, List.mem_singleton] at ha hb
    rw [ha, hb]
  query := by
    obtain ⟨t, ht, rfl⟩ := mem_typeNames.1 h9
    exact ⟨t, ht, .inl ⟨s, mem_schemasOf.1 (by rw [h7]; exact List.mem_singleton.2 rfl), h8⟩⟩
  fields := by
    intro t ht f hf
    have := h10 t (mem_typesOf.2 ht) f hf
    exact ⟨known_iff.1 this.1, fun a ha => known_iff.1 (this.2 a ha)⟩
  inputs := fun t ht v hv => known_iff.1 (h11 t (mem_typesOf.2 ht) v hv)
  directives := fun dd hd a ha => known_iff.1 (h12 dd (mem_directivesOf.2 hd) a ha)
  impls := fun t ht y hy => mem_typeNames.1 ((h13 t (mem_typesOf.2 ht)).1 y hy)
  members := fun t ht y hy => mem_typeNames.1 ((h13 t (mem_typesOf.2 ht)).2 y hy)

/-! ## A schema -/

def old : Dir := { name := "deprecated" }

/-- A schema in which there is an example of each of the exemptions. -/
def shop : Doc :=
  [ .schema { query := some "Query" },
    .directive { name := "tag", args := [{ name := "name", ty := .named "String" }], locations := ["OBJECT"] },
    .type (.scalar { name := "String" }),
    .type (.interface { name := "Node", fields := [{ name := "id", ty := .nonNull (.named "String") }] }),
    .type (.interface { name := "Named", impls := ["Node"], fields := [
      { name := "id", ty := .nonNull (.named "String") }] }),
    .type (.object { name := "Query", fields := [
      { name := "items", ty := .list (.nonNull (.named "Item")) },
      { name := "__type", ty := .named "String" }] }),
    .type (.object { name := "Item", fields := [
      { name := "was", ty := .named "String", dirs := [old], args := [
        { name := "at", ty := .named "String", dirs := [old] }] }] }),
    .type (.object { name := "Mutation", fields := [{ name := "gene", ty := .named "String" }] }),
    .type (.union { name := "Any", types := ["Item", "Query"] }),
    .type (.enum { name := "Size", values := [{ name := "S" },
      { name := "L", dirs := [{ name := "deprecated", args := [("reason", .str "too big")] }] }] }),
    .type (.input { name := "In", dirs := [{ name := "oneOf" }], fields := [
      { name := "a", ty := .named "String", default_ := some "\"x\"" }] }) ]

theorem shop_sound : Sound shop :=
  sound_of { query := some "Query" } "Query" (by decide +kernel) (by decide +kernel) (by decide +kernel)
    (by decide +kernel) (by decide +kernel) (by decide +kernel) (by decide +kernel) rfl (by decide +kernel)
    (by decide +kernel) (by decide +kernel) (by decide +kernel) (by decide +kernel)

def shopCtx : Ctx := { doc := shop, vars := fun _ => none, order := id }

theorem shop_fair : shopCtx.Fair := fun _ => .refl _

def ask (n : String) (sels : List Sel := []) (args : Args := none) : Sel := .field { name := n, args := args } sels

def askType (n : String) (sels : List Sel) : Sel := ask "__type" sels (some [("name", .str n)])

/-- `{ __type(name: "Query") { kind fields { name type { kind ofType { kind } } } } }` -/
example : resolve shopCtx .query
    [askType "Query" [ask "kind", ask "fields" [ask "name", ask "type" [ask "kind", ask "ofType" [ask "kind"]]]]] =
    some (.obj [("__type", .obj [
      ("fields", .arr [.obj [("name", .str "items"),
        ("type", .obj [("kind", .str "LIST"), ("ofType", .obj [("kind", .str "NON_NULL")])])]]),
      ("kind", .str "OBJECT")])]) := by rfl

/-- `{ __type(name: "Any") { possibleTypes { name } } }` -/
example : resolve shopCtx .query [askType "Any" [ask "possibleTypes" [ask "name"]]] =
    some (.obj [("__type", .obj [("possibleTypes",
      .arr [.obj [("name", .str "Item")], .obj [("name", .str "Query")]])])]) := by rfl

/-- `{ __type(name: "Size") { enumValues(includeDeprecated: true) { name deprecationReason } } }` -/
example : resolve shopCtx .query
    [askType "Size" [ask "enumValues" [ask "name", ask "deprecationReason"]
      (some [("includeDeprecated", .bool true)])]] =
    some (.obj [("__type", .obj [("enumValues",
      .arr [.obj [("deprecationReason", .null), ("name", .str "S")],
        .obj [("deprecationReason", .str "too big"), ("name", .str "L")]])])]) := by rfl

def asked : List Sel :=
  [askType "Query" [ask "kind", ask "fields" [ask "name"]],
    .frag { cond := "Query" }
      [ask "__schema" [ask "types" [ask "name"], ask "directives" [ask "args" [ask "name"]]]]]

/-- The hypotheses of the theorem are met. -/
example : ∃ v, resolve shopCtx .query asked = some v ∧
    IsObject (Answers (Exempt shop) shop shopCtx.vars (.operation "Query") asked) v := by
  refine C101_answers_partial shopCtx shop_sound shop_fair .query "Query" (by decide +kernel) _ ?_ ?_
  · refine ⟨by decide +kernel, ?_⟩
    simp only [asked, DistinctBelow, DistinctIn, askType, ask]
    refine ⟨⟨by decide +kernel, ⟨⟨by decide +kernel, trivial⟩, ⟨by decide +kernel, ⟨by decide +kernel, trivial⟩, trivial⟩, trivial⟩⟩, ?_, trivial⟩
    refine ⟨⟨by decide +kernel, ?_⟩, trivial⟩
    exact ⟨⟨by decide +kernel, ⟨by decide +kernel, trivial⟩, trivial⟩, ⟨by decide +kernel, ⟨by decide +kernel, ⟨by decide +kernel, trivial⟩, trivial⟩, trivial⟩, trivial⟩
  · simp [asked, PlainSchema, PlainIn, askType, ask]

end Verif.Client
