import Verif.Client.Whole

/-!
# C93: clients see what is for them
-/

namespace Verif.Client

/-! ## What is in the client's schema -/

def withFieldsT (q : String) : TypeDef → TypeDef
  | .object o => if o.name = q then .object { o with fields := o.fields ++ introFields } else .object o
  | t => t

theorem withFields_type (q : String) (t : TypeDef) :
    withFields q introFields (.type t) = .type (withFieldsT q t) := by
  cases t with
  | object o => simp only [withFields, withFieldsT]; split <;> rfl
  | _ => rfl

theorem withFieldsT_name (q : String) (t : TypeDef) : (withFieldsT q t).name = t.name := by
  cases t with
  | object o => simp only [withFieldsT]; split <;> rfl
  | _ => rfl

theorem mem_client {d c : Doc} {q : String} (h : Composed d q) (hc : create introspection d = some c)
    {u : TypeDef} :
    Def.type u ∈ c ↔ (∃ t, Shown d t ∧ u = withFieldsT q (seenType t)) ∨
      Def.type u ∈ introBefore ++ introAfter := by
  rw [create_eq d q h] at hc
  cases hc
  rw [List.append_assoc, List.mem_append]
  refine or_congr ?_ Iff.rfl
  rw [List.mem_map]
  constructor
  · rintro ⟨x, hx, hxu⟩
    cases x with
    | schema s => cases hxu
    | directive s => cases hxu
    | type t =>
      rw [withFields_type] at hxu
      cases hxu
      obtain ⟨t', ht', rfl⟩ := mem_seen_type.1 hx
      exact ⟨t', ht', rfl⟩
  · rintro ⟨t, ht, rfl⟩
    exact ⟨_, mem_seen_type.2 ⟨t, ht, rfl⟩, withFields_type q _⟩

theorem mem_intro_name {u : TypeDef} (h : Def.type u ∈ introBefore ++ introAfter) :
    u.name ∈ introspectionTypes := by
  rw [← intro_names]; exact typeNames_mem h

theorem intro_has {n : String} (h : n ∈ introspectionTypes) :
    ∃ u, Def.type u ∈ introBefore ++ introAfter ∧ u.name = n := by
  rw [← intro_names] at h
  obtain ⟨x, hx, he⟩ := List.mem_filterMap.1 h
  cases x with
  | type u => simp only [Option.some.injEq] at he; exact ⟨u, hx, he⟩
  | schema s => cases he
  | directive s => cases he

theorem client_type {d c : Doc} {q : String} (h : Composed d q) (hc : create introspection d = some c)
    {u : TypeDef} (hn : u.name ∉ introspectionTypes) :
    Def.type u ∈ c ↔ ∃ t, Shown d t ∧ u = withFieldsT q (seenType t) := by
  rw [mem_client h hc]
  exact ⟨fun h => h.elim id (fun h => absurd (mem_intro_name h) hn), Or.inl⟩

/-! ## The theorems -/

/-- **C93.** Every composed supergraph has a client schema. -/
theorem C93_made {d : Doc} {q : String} (h : Composed d q) : ∃ c, create introspection d = some c :=
  ⟨_, create_eq d q h⟩

/-- **C93.** The types that clients see are those that are not marked inaccessible and not there for
federation, with the kind they have, and those of introspection. -/
theorem C93_types {d c : Doc} {q : String} (h : Composed d q)
    (hc : create introspection d = some c) (n : String) :
    (∃ u, Def.type u ∈ c ∧ u.name = n) ↔
      (∃ t, Def.type t ∈ d ∧ t.name = n ∧ ¬ Hidden t.dirs ∧ n ∉ federationTypes) ∨
        n ∈ introspectionTypes := by
  constructor
  · rintro ⟨u, hu, rfl⟩
    rcases (mem_client h hc).1 hu with ⟨t, ⟨hm, hh, hf⟩, rfl⟩ | hi
    · left
      rw [withFieldsT_name, seenType_name]
      exact ⟨t, hm, rfl, hh, hf⟩
    · right; exact mem_intro_name hi
  · rintro (⟨t, hm, rfl, hh, hf⟩ | hi)
    · exact ⟨_, (mem_client h hc).2 (.inl ⟨t, ⟨hm, hh, hf⟩, rfl⟩), by
        rw [withFieldsT_name, seenType_name]⟩
    · obtain ⟨u, hu, hn⟩ := intro_has hi
      exact ⟨u, (mem_client h hc).2 (.inr hu), hn⟩

theorem seen_kind (q : String) (t : TypeDef) : (withFieldsT q (seenType t)).kind = t.kind := by
  cases t with
  | object o => simp only [seenType, withFieldsT]; split <;> rfl
  | _ => rfl

/-- **C93.** No two types that clients see have the same name, and each is of the kind that it is of in
the supergraph. -/
theorem C93_kinds {d c : Doc} {q : String} (h : Composed d q)
    (hc : create introspection d = some c) {t u : TypeDef} (ht : Shown d t) (hu : Def.type u ∈ c)
    (hn : u.name = t.name) : u.kind = t.kind := by
  have hni : u.name ∉ introspectionTypes := by rw [hn]; exact h.own t ht
  obtain ⟨t', ht', rfl⟩ := (client_type h hc hni).1 hu
  rw [withFieldsT_name, seenType_name] at hn
  rw [one_type h.distinct ht'.1 ht.1 hn, seen_kind]

theorem fields_withFieldsT {q : String} {t : TypeDef} {f : Fld} (hf : f ∉ introFields) :
    f ∈ (withFieldsT q t).fields ↔ f ∈ t.fields := by
  cases t with
  | object o =>
    simp only [withFieldsT]
    split
    · simp [TypeDef.fields, hf]
    · exact Iff.rfl
  | _ => exact Iff.rfl

theorem fields_seenType (t : TypeDef) : (seenType t).fields = seenFields t.fields := by cases t <;> rfl

theorem inputs_seenType (q : String) (t : TypeDef) :
    (withFieldsT q (seenType t)).inputs = seenInputs t.inputs := by
  cases t with
  | object o => simp only [seenType, withFieldsT]; split <;> rfl
  | _ => rfl

theorem values_seenType (q : String) (t : TypeDef) :
    (withFieldsT q (seenType t)).values = seenValues t.values := by
  cases t with
  | object o => simp only [seenType, withFieldsT]; split <;> rfl
  | _ => rfl

theorem not_introField {f : Fld} (h : f.name ≠ "__schema" ∧ f.name ≠ "__type") : f ∉ introFields := by
  intro hm
  simp only [introFields, List.mem_cons, List.not_mem_nil, or_false] at hm
  rcases hm with rfl | rfl
  · exact h.1 rfl
  · exact h.2 rfl

/-- **C93.** The fields that clients see on a type, with their types and descriptions, are those of the
type that are not marked; on the query type there are `__schema` and `__type` too. -/
theorem C93_fields {d c : Doc} {q : String} (h : Composed d q)
    (hc : create introspection d = some c) {t : TypeDef} (ht : Shown d t)
    (n : String) (hn : n ≠ "__schema" ∧ n ≠ "__type") (ty : Ty) (desc : Option String) :
    (∃ u, Def.type u ∈ c ∧ u.name = t.name ∧ ∃ f ∈ u.fields, f.name = n ∧ f.ty = ty ∧ f.desc = desc) ↔
      ∃ f ∈ t.fields, ¬ Hidden f.dirs ∧ f.name = n ∧ f.ty = ty ∧ f.desc = desc := by
  constructor
  · rintro ⟨u, hu, hut, f, hf, rfl, rfl, rfl⟩
    have hni : u.name ∉ introspectionTypes := by rw [hut]; exact h.own t ht
    obtain ⟨t', ht', rfl⟩ := (client_type h hc hni).1 hu
    rw [withFieldsT_name, seenType_name] at hut
    have := one_type h.distinct ht'.1 ht.1 hut
    subst this
    rw [fields_withFieldsT (not_introField hn), fields_seenType] at hf
    obtain ⟨g, hg, rfl⟩ := List.mem_map.1 hf
    have hg := List.mem_filter.1 hg
    exact ⟨g, hg.1, by simpa using hg.2, rfl, rfl, rfl⟩
  · rintro ⟨f, hf, hh, rfl, rfl, rfl⟩
    refine ⟨_, (mem_client h hc).2 (.inl ⟨t, ht, rfl⟩), by rw [withFieldsT_name, seenType_name],
      seenField f, ?_, rfl, rfl, rfl⟩
    rw [fields_withFieldsT (f := seenField f) (not_introField hn), fields_seenType]
    exact List.mem_map.2 ⟨f, List.mem_filter.2 ⟨hf, by simpa using hh⟩, rfl⟩

theorem mem_seenInputs {vs : List InVal} {a : InVal} :
    a ∈ seenInputs vs ↔ ∃ v ∈ vs, ¬ Hidden v.dirs ∧ a = { v with dirs := seenDirs v.dirs } := by
  unfold seenInputs
  rw [List.mem_map]
  constructor
  · rintro ⟨v, hv, rfl⟩
    have := List.mem_filter.1 hv
    exact ⟨v, this.1, by simpa using this.2, rfl⟩
  · rintro ⟨v, hv, hh, rfl⟩
    exact ⟨v, List.mem_filter.2 ⟨hv, by simpa using hh⟩, rfl⟩

/-- **C93.** The arguments that clients see on a field they see, with their types and defaults, are those
that are not marked. (Fields have names of their own on each type.) -/
theorem C93_arguments {d c : Doc} {q : String} (h : Composed d q)
    (hc : create introspection d = some c) {t : TypeDef} (ht : Shown d t)
    (hd : (t.fields.map (·.name)).Nodup) {f : Fld} (hf : f ∈ t.fields) (hh : ¬ Hidden f.dirs)
    (hn : f.name ≠ "__schema" ∧ f.name ≠ "__type") (a : String) (ty : Ty) (dflt : Option String) :
    (∃ u, Def.type u ∈ c ∧ u.name = t.name ∧ ∃ g ∈ u.fields, g.name = f.name ∧
      ∃ v ∈ g.args, v.name = a ∧ v.ty = ty ∧ v.default_ = dflt) ↔
      ∃ v ∈ f.args, ¬ Hidden v.dirs ∧ v.name = a ∧ v.ty = ty ∧ v.default_ = dflt := by
  have uniq : ∀ (l : List Fld), (l.map (·.name)).Nodup → ∀ x ∈ l, ∀ y ∈ l, x.name = y.name → x = y := by
    intro l
    induction l with
    | nil => intro _ x hx; cases hx
    | cons z l ih =>
      intro hl x hx y hy hxy
      rw [List.map_cons, List.nodup_cons] at hl
      rcases List.mem_cons.1 hx with rfl | hx' <;> rcases List.mem_cons.1 hy with rfl | hy'
      · rfl
      · exact absurd (hxy ▸ List.mem_map_of_mem hy') hl.1
      · exact absurd (hxy.symm ▸ List.mem_map_of_mem hx') hl.1
      · exact ih hl.2 x hx' y hy' hxy
  constructor
  · rintro ⟨u, hu, hut, g, hg, hgf, v, hv, rfl, rfl, rfl⟩
    have hni : u.name ∉ introspectionTypes := by rw [hut]; exact h.own t ht
    obtain ⟨t', ht', rfl⟩ := (client_type h hc hni).1 hu
    rw [withFieldsT_name, seenType_name] at hut
    have := one_type h.distinct ht'.1 ht.1 hut
    subst this
    rw [fields_withFieldsT (not_introField (hgf ▸ hn)), fields_seenType] at hg
    obtain ⟨f', hf', rfl⟩ := List.mem_map.1 hg
    have := uniq _ hd f' (List.mem_filter.1 hf').1 f hf hgf
    subst this
    obtain ⟨w, hw, hwh, rfl⟩ := mem_seenInputs.1 hv
    exact ⟨w, hw, hwh, rfl, rfl, rfl⟩
  · rintro ⟨v, hv, hvh, rfl, rfl, rfl⟩
    refine ⟨_, (mem_client h hc).2 (.inl ⟨t, ht, rfl⟩), by rw [withFieldsT_name, seenType_name],
      seenField f, ?_, rfl, _, mem_seenInputs.2 ⟨v, hv, hvh, rfl⟩, rfl, rfl, rfl⟩
    rw [fields_withFieldsT (f := seenField f) (not_introField hn), fields_seenType]
    exact List.mem_map.2 ⟨f, List.mem_filter.2 ⟨hf, by simpa using hh⟩, rfl⟩

/-- **C93.** The fields that clients see on an input type are those that are not marked. -/
theorem C93_input_fields {d c : Doc} {q : String} (h : Composed d q)
    (hc : create introspection d = some c) {t : TypeDef} (ht : Shown d t)
    (a : String) (ty : Ty) (dflt : Option String) :
    (∃ u, Def.type u ∈ c ∧ u.name = t.name ∧ ∃ v ∈ u.inputs, v.name = a ∧ v.ty = ty ∧ v.default_ = dflt) ↔
      ∃ v ∈ t.inputs, ¬ Hidden v.dirs ∧ v.name = a ∧ v.ty = ty ∧ v.default_ = dflt := by
  constructor
  · rintro ⟨u, hu, hut, v, hv, rfl, rfl, rfl⟩
    have hni : u.name ∉ introspectionTypes := by rw [hut]; exact h.own t ht
    obtain ⟨t', ht', rfl⟩ := (client_type h hc hni).1 hu
    rw [withFieldsT_name, seenType_name] at hut
    have := one_type h.distinct ht'.1 ht.1 hut
    subst this
    rw [inputs_seenType] at hv
    obtain ⟨w, hw, hwh, rfl⟩ := mem_seenInputs.1 hv
    exact ⟨w, hw, hwh, rfl, rfl, rfl⟩
  · rintro ⟨v, hv, hvh, rfl, rfl, rfl⟩
    exact ⟨_, (mem_client h hc).2 (.inl ⟨t, ht, rfl⟩), by rw [withFieldsT_name, seenType_name],
      { v with dirs := seenDirs v.dirs }, by rw [inputs_seenType]; exact mem_seenInputs.2 ⟨v, hv, hvh, rfl⟩, rfl, rfl, rfl⟩

/-- **C93.** The values that clients see of an enum are those that are not marked. -/
theorem C93_enum_values {d c : Doc} {q : String} (h : Composed d q)
    (hc : create introspection d = some c) {t : TypeDef} (ht : Shown d t) (n : String) :
    (∃ u, Def.type u ∈ c ∧ u.name = t.name ∧ ∃ v ∈ u.values, v.name = n) ↔
      ∃ v ∈ t.values, ¬ Hidden v.dirs ∧ v.name = n := by
  constructor
  · rintro ⟨u, hu, hut, v, hv, rfl⟩
    have hni : u.name ∉ introspectionTypes := by rw [hut]; exact h.own t ht
    obtain ⟨t', ht', rfl⟩ := (client_type h hc hni).1 hu
    rw [withFieldsT_name, seenType_name] at hut
    have := one_type h.distinct ht'.1 ht.1 hut
    subst this
    rw [values_seenType] at hv
    obtain ⟨w, hw, rfl⟩ := List.mem_map.1 hv
    have hw := List.mem_filter.1 hw
    exact ⟨w, hw.1, by simpa using hw.2, rfl⟩
  · rintro ⟨v, hv, hvh, rfl⟩
    exact ⟨_, (mem_client h hc).2 (.inl ⟨t, ht, rfl⟩), by rw [withFieldsT_name, seenType_name],
      { v with dirs := seenDirs v.dirs }, by
        rw [values_seenType]
        exact List.mem_map.2 ⟨v, List.mem_filter.2 ⟨hv, by simpa using hvh⟩, rfl⟩, rfl⟩

/-- **C93.** Clients see none of the directives of federation: no definition, and no use on a type or a
field. -/
theorem C93_no_federation {d c : Doc} {q : String} (h : Composed d q)
    (hc : create introspection d = some c) :
    (∀ x, Def.directive x ∈ c → x.name ∉ federationDirectives) ∧
      ∀ u, Def.type u ∈ c → (∀ x ∈ u.dirs, x.name ∉ federationDirectives) ∧
        ∀ f ∈ u.fields, (∀ x ∈ f.dirs, x.name ∉ federationDirectives) ∧
          ∀ v ∈ f.args, ∀ x ∈ v.dirs, x.name ∉ federationDirectives := by
  have hseen : ∀ ds : List Dir, ∀ x ∈ seenDirs ds, x.name ∉ federationDirectives := by
    intro ds x hx
    simpa using (List.mem_filter.1 hx).2
  have hin : ∀ vs : List InVal, ∀ v ∈ seenInputs vs, ∀ x ∈ v.dirs, x.name ∉ federationDirectives := by
    intro vs v hv
    obtain ⟨w, _, _, rfl⟩ := mem_seenInputs.1 hv
    exact hseen _
  constructor
  · intro x hx
    rw [create_eq d q h] at hc
    cases hc
    rw [List.append_assoc, List.mem_append] at hx
    rcases hx with hx | hx
    · obtain ⟨y, hy, hyx⟩ := List.mem_map.1 hx
      have hyx' : y = .directive x := by
        cases y with
        | directive y => exact hyx
        | schema s => cases hyx
        | type t => rw [withFields_type] at hyx; cases hyx
      subst hyx'
      obtain ⟨z, hz, hzy⟩ := List.mem_filterMap.1 hy
      cases z with
      | schema s => simp [seenDef] at hzy
      | type t => simp only [seenDef] at hzy; split at hzy <;> simp at hzy
      | directive z =>
        simp only [seenDef] at hzy
        split at hzy
        · cases hzy
        · next hnf => cases hzy; exact hnf
    · have : ∀ y ∈ introBefore ++ introAfter, (match y with
          | .directive z => decide (z.name ∉ federationDirectives)
          | _ => true) = true := by
        rw [← List.all_eq_true]; decide +kernel
      simpa using this _ hx
  · intro u hu
    rcases (mem_client h hc).1 hu with ⟨t, ht, rfl⟩ | hi
    · constructor
      · have : ((withFieldsT q (seenType t)).dirs) = seenDirs t.dirs := by
          cases t with
          | object o => simp only [seenType, withFieldsT]; split <;> rfl
          | _ => rfl
        rw [this]; exact hseen _
      · intro f hf
        by_cases hfi : f ∈ introFields
        · simp only [introFields, List.mem_cons, List.not_mem_nil, or_false] at hfi
          rcases hfi with rfl | rfl
          · exact ⟨fun x hx => by (cases hx), fun v hv => by (cases hv)⟩
          · refine ⟨fun x hx => by (cases hx), fun v hv x hx => ?_⟩
            simp only [List.mem_cons, List.not_mem_nil, or_false] at hv
            subst hv; cases hx
        · rw [fields_withFieldsT hfi, fields_seenType] at hf
          obtain ⟨g, _, rfl⟩ := List.mem_map.1 hf
          exact ⟨hseen _, hin _⟩
    · have : ∀ y ∈ introBefore ++ introAfter, (match y with
          | .type u => u.dirs.all (fun x => decide (x.name ∉ federationDirectives)) &&
              u.fields.all (fun f => f.dirs.all (fun x => decide (x.name ∉ federationDirectives)) &&
                f.args.all (fun v => v.dirs.all (fun x => decide (x.name ∉ federationDirectives))))
          | _ => true) = true := by
        rw [← List.all_eq_true]; decide +kernel
      have := this _ hi
      simp only [Bool.and_eq_true, List.all_eq_true, decide_eq_true_eq] at this
      exact this

/-! ## A supergraph -/

def inaccessible : Dir := { name := "inaccessible" }
def joinType (g : String) : Dir := { name := "join__type", args := [("graph", .other g)] }

/-- A supergraph with a hidden type, field, argument, enum value and input field; a union and an object
that name hidden types. -/
def sample : Doc :=
  [ .schema { dirs := [{ name := "link" }], query := some "Root" },
    .directive { name := "join__type", args := [{ name := "graph", ty := .nonNull (.named "join__Graph") }],
                 repeatable := true, locations := ["OBJECT"] },
    .type (.enum { name := "join__Graph", values := [{ name := "A", dirs := [{ name := "join__graph" }] }] }),
    .type (.object { name := "Root", dirs := [joinType "A"], fields := [
      { name := "user", ty := .named "User", args := [
        { name := "id", ty := .nonNull (.named "ID") },
        { name := "trace", ty := .named "Boolean", dirs := [inaccessible] }] },
      { name := "debug", ty := .named "Log", dirs := [inaccessible] }] }),
    .type (.object { name := "User", impls := ["Node", "Audited"], dirs := [joinType "A"], fields := [
      { name := "id", ty := .nonNull (.named "ID") },
      { name := "email", ty := .named "String", dirs := [inaccessible, { name := "tag" }] },
      { name := "old", ty := .named "String", dirs := [{ name := "deprecated" }, { name := "cost" }] }] }),
    .type (.object { name := "Log", dirs := [inaccessible], fields := [{ name := "text", ty := .named "String" }] }),
    .type (.interface { name := "Node", fields := [{ name := "id", ty := .nonNull (.named "ID") }] }),
    .type (.interface { name := "Audited", dirs := [inaccessible], fields := [{ name := "by", ty := .named "String" }] }),
    .type (.union { name := "Any", types := ["User", "Log"] }),
    .type (.enum { name := "Role", values := [{ name := "ADMIN" }, { name := "ROOT", dirs := [inaccessible] }] }),
    .type (.input { name := "Filter", fields := [
      { name := "role", ty := .named "Role" }, { name := "raw", ty := .named "String", dirs := [inaccessible] }] }) ]

theorem sample_composed : Composed sample "Root" where
  distinct := by decide +kernel
  queryName := by decide +kernel
  queryType := ⟨_, ⟨.tail _ (.tail _ (.tail _ (.head _))), by decide +kernel, by decide +kernel⟩, rfl,
    _, .head _, by decide +kernel⟩
  own := by
    have : ∀ x ∈ sample, (match x with
        | .type t => decide (t.name ∉ introspectionTypes) | _ => true) = true := by
      rw [← List.all_eq_true]; decide +kernel
    intro t ht
    simpa using this _ ht.1
  notEmpty := by
    have : ∀ x ∈ sample, (match x with
        | .type t => t.fields.isEmpty || t.fields.any (fun f => decide (¬ Hidden f.dirs)) | _ => true) = true := by
      rw [← List.all_eq_true]; decide +kernel
    intro t ht hne
    have := this _ ht.1
    simp only [Bool.or_eq_true, List.isEmpty_iff, hne, false_or, List.any_eq_true, decide_eq_true_eq] at this
    exact this

/-- What clients see of it. -/
example : (create introspection sample).map (fun c => c.take 6) = some
    [ .schema { query := some "Root" },
      .type (.object { name := "Root", fields := [
        { name := "user", ty := .named "User", args := [{ name := "id", ty := .nonNull (.named "ID") }] },
        { name := "__schema", ty := .nonNull (.named "__Schema") },
        { name := "__type", ty := .named "__Type", args := [{ name := "name", ty := .nonNull (.named "String") }] }] }),
      .type (.object { name := "User", impls := ["Node", "Audited"], fields := [
        { name := "id", ty := .nonNull (.named "ID") },
        { name := "old", ty := .named "String", dirs := [{ name := "deprecated" }] }] }),
      .type (.interface { name := "Node", fields := [{ name := "id", ty := .nonNull (.named "ID") }] }),
      .type (.union { name := "Any", types := ["User", "Log"] }),
      .type (.enum { name := "Role", values := [{ name := "ADMIN" }] }) ] := by
  decide +kernel

/-! ## Where the code does not have the property -/

/-- **C93, refuted.** A union still names its members that are marked inaccessible: the name of a type
that clients must not know of is in their schema, where there is no such type. -/
theorem C93_union_members_refuted :
    ∃ c, create introspection sample = some c ∧
      (∃ u, Def.type (.union u) ∈ c ∧ "Log" ∈ u.types) ∧ ¬ ∃ t, Def.type t ∈ c ∧ t.name = "Log" := by
  obtain ⟨c, hc⟩ := C93_made sample_composed
  refine ⟨c, hc, ⟨{ name := "Any", types := ["User", "Log"] }, ?_, .tail _ (.head _)⟩, ?_⟩
  · rw [mem_client sample_composed hc]
    refine .inl ⟨.union { name := "Any", types := ["User", "Log"] }, ⟨?_, ?_, ?_⟩, rfl⟩ <;> decide +kernel
  · rw [C93_types sample_composed hc "Log"]
    rintro (⟨t, ht, hn, hh, _⟩ | hi)
    · have := one_type sample_composed.distinct ht
        (show Def.type (.object { name := "Log", dirs := [inaccessible], fields := [{ name := "text", ty := .named "String" }] }) ∈ sample by
          decide +kernel) hn
      subst this
      exact hh (by decide +kernel)
    · revert hi; decide +kernel

/-- **C93, refuted.** A type still says that it implements an interface that is marked inaccessible. -/
theorem C93_interfaces_refuted :
    ∃ c, create introspection sample = some c ∧
      (∃ o, Def.type (.object o) ∈ c ∧ "Audited" ∈ o.impls) ∧ ¬ ∃ t, Def.type t ∈ c ∧ t.name = "Audited" := by
  obtain ⟨c, hc⟩ := C93_made sample_composed
  refine ⟨c, hc, ⟨{ name := "User", impls := ["Node", "Audited"], fields := [
        { name := "id", ty := .nonNull (.named "ID") },
        { name := "old", ty := .named "String", dirs := [{ name := "deprecated" }] }] }, ?_, .tail _ (.head _)⟩, ?_⟩
  · rw [create_eq sample "Root" sample_composed] at hc
    cases hc
    decide +kernel
  · rw [C93_types sample_composed hc "Audited"]
    rintro (⟨t, ht, hn, hh, _⟩ | hi)
    · have := one_type sample_composed.distinct ht
        (show Def.type (.interface { name := "Audited", dirs := [inaccessible], fields := [{ name := "by", ty := .named "String" }] }) ∈ sample by
          decide +kernel) hn
      subst this
      exact hh (by decide +kernel)
    · revert hi; decide +kernel

/-- A type that is for clients, all of whose fields are marked. -/
def onlyHidden : Doc :=
  [ .type (.object { name := "Query", fields := [{ name := "a", ty := .named "A" }] }),
    .type (.object { name := "A", fields := [{ name := "secret", ty := .named "String", dirs := [inaccessible] }] }) ]

/-- **C93, refuted.** Where every field of a type is marked inaccessible, clients see them all. -/
theorem C93_all_fields_marked_refuted :
    ∃ c, create introspection onlyHidden = some c ∧
      Def.type (.object { name := "A", fields := [{ name := "secret", ty := .named "String" }] }) ∈ c := by
  refine ⟨(create introspection onlyHidden).getD [], by decide +kernel, by decide +kernel⟩

end Verif.Client
