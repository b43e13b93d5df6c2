import Verif.Client.Spec

/-!
# What the router keeps of the client's schema

`executor/introspection/schema.rs`: the tables by which responses are shaped and nulls are passed up.
A hash map is the function of what is found in it.
-/

namespace Verif.Client

/-- `FieldNullability`, `schema.rs:17-27`. -/
inductive Nullability where
  | leaf (nonNull : Bool)
  | list (nonNull : Bool) (item : Nullability)
deriving DecidableEq, Repr

/-- `is_non_null`, `schema.rs:47-55`. -/
def Nullability.isNonNull : Nullability → Bool
  | .leaf b => b
  | .list b _ => b

/-- `list_item`, `schema.rs:57-64`. -/
def Nullability.listItem : Nullability → Option Nullability
  | .list _ i => some i
  | .leaf _ => none

/-- `type_name`, `schema.rs:288-296`. -/
def Ty.typeName : Ty → String
  | .named n => n
  | .nonNull t => t.typeName
  | .list t => t.typeName

/-- `field_nullability`, `schema.rs:298-309`. -/
def Ty.nullability : Ty → Nullability
  | .nonNull (.list t) => .list true t.nullability
  | .nonNull _ => .leaf true
  | .list t => .list false t.nullability
  | .named _ => .leaf false

/-- `FieldTypeInfo`, `schema.rs:11-15`. -/
structure FieldInfo where
  outputType : String
  nullability : Nullability
deriving DecidableEq, Repr

/-- `insert` of a hash map. -/
def put {α : Type} (m : String → Option α) (k : String) (v : α) : String → Option α :=
  fun x => if x = k then some v else m x

/-- The tables, `schema.rs:67-79` and 160-172; `first` is `first_possible_types`. -/
structure Tables where
  first : String → Option (List String) := fun _ => none
  enums : String → Option (List String) := fun _ => none
  fields : String → Option (String → Option FieldInfo) := fun _ => none
  objects : List String := []
  scalars : List String := ["Boolean", "Float", "Int", "ID", "String"]
  unions : List String := []
  interfaces : List String := []

def fieldInfo (f : Fld) : FieldInfo := { outputType := f.ty.typeName, nullability := f.ty.nullability }

/-- `fields.insert`, `schema.rs:189-198`, 211-220. -/
def putFields (fs : List Fld) (m : String → Option FieldInfo) : String → Option FieldInfo :=
  fs.foldl (fun m f => put m f.name (fieldInfo f)) m

/-- `entry(interface).or_default().push(name)`, `schema.rs:200-205`, 222-227. -/
def pushAll (name : String) (impls : List String) (m : String → Option (List String)) :
    String → Option (List String) :=
  impls.foldl (fun m i => put m i ((m i).getD [] ++ [name])) m

/-- The body of the loop of `schema_metadata`, `schema.rs:174-243`. -/
def tablesStep (s : Tables) : Def → Tables
  | .type (.enum e) => { s with enums := put s.enums e.name (e.values.map (·.name)) }
  | .type (.object o) =>
    { s with
      objects := o.name :: s.objects
      fields := put s.fields o.name (putFields o.fields ((s.fields o.name).getD (fun _ => none)))
      first := pushAll o.name o.impls s.first }
  | .type (.interface o) =>
    { s with
      interfaces := o.name :: s.interfaces
      fields := put s.fields o.name (putFields o.fields (fun _ => none))
      first := pushAll o.name o.impls s.first }
  | .type (.union u) =>
    { s with
      unions := u.name :: s.unions
      first := put s.first u.name u.types }
  | .type (.scalar t) => { s with scalars := t.name :: s.scalars }
  | _ => s

/-- The loop of `schema_metadata`. -/
def tables (d : Doc) : Tables := d.foldl tablesStep {}

/-- `final_possible_types`, `schema.rs:249-263`: what is found under a name. -/
def Tables.possible (s : Tables) (x : String) : Option (List String) :=
  (s.first x).map (fun ys => ys.flatMap (fun y => y :: (s.first y).getD []))

/-- `entity_satisfies_type_condition`, `schema.rs:137-145`. -/
def Tables.satisfies (s : Tables) (typeName condition : String) : Bool :=
  if typeName = condition then true
  else
    match s.possible condition with
    | some ys => ys.contains typeName
    | none => false

/-- `get_type_fields`, `schema.rs:98-100`, and the lookup of a field in it. -/
def Tables.field (s : Tables) (typeName field : String) : Option FieldInfo :=
  match s.fields typeName with
  | some m => m field
  | none => none

/-! ## Specification -/

/-- The interfaces that a type says it implements. -/
def TypeDef.impls : TypeDef → List String
  | .object o => o.impls
  | .interface o => o.impls
  | _ => []

/-- The members of a union. -/
def TypeDef.members : TypeDef → List String
  | .union u => u.types
  | _ => []

/-- A schema as GraphQL demands it, as far as types and fields go: names of types are distinct, so are
those of the fields of a type; what is implemented is an interface, and what is a member of a union is an
object, if the schema has them; no name is implemented and a member of a union; who implements an interface implements what it implements. -/
structure WellFormed (d : Doc) : Prop where
  distinct : (typeNames d).Nodup
  fields : ∀ t, Def.type t ∈ d → (t.fields.map (·.name)).Nodup
  implements : ∀ t u, Def.type t ∈ d → Def.type u ∈ d → u.name ∈ t.impls → u.kind = "INTERFACE"
  known : ∀ t y, Def.type t ∈ d → y ∈ t.impls → ∀ u : Union_, Def.type (.union u) ∈ d → y ∉ u.types
  members : ∀ t u, Def.type t ∈ d → Def.type u ∈ d → u.name ∈ t.members → u.kind = "OBJECT"
  transitive : ∀ t u x, Def.type t ∈ d → Def.type u ∈ d → u.name ∈ t.impls → x ∈ u.impls → x ∈ t.impls

/-- An object is of a type: it is that type, implements it, or is a member of it. -/
def IsA (d : Doc) (o : Obj) (c : String) : Prop :=
  o.name = c ∨ c ∈ o.impls ∨ ∃ u : Union_, Def.type (.union u) ∈ d ∧ u.name = c ∧ o.name ∈ u.types

/-- The type of the items of a list, if it is one. -/
def Ty.item : Ty → Option Ty
  | .list t => some t
  | .nonNull (.list t) => some t
  | _ => none

/-- No value of the type is null. -/
def Ty.NonNull : Ty → Prop
  | .nonNull _ => True
  | _ => False

/-- The name within a type. -/
def Ty.Names : Ty → String → Prop
  | .named n, m => n = m
  | .list t, m => t.Names m
  | .nonNull t, m => t.Names m

/-! ## Lemmas -/

theorem put_same {α : Type} (m : String → Option α) (k : String) (v : α) : put m k v k = some v := by
  simp [put]

theorem put_other {α : Type} (m : String → Option α) (k x : String) (v : α) (h : x ≠ k) :
    put m k v x = m x := by simp [put, h]

theorem mem_pushAll (name : String) (x y : String) :
    ∀ (impls : List String) (m : String → Option (List String)),
      y ∈ (pushAll name impls m x).getD [] ↔ y ∈ (m x).getD [] ∨ (y = name ∧ x ∈ impls)
  | [], m => by simp [pushAll]
  | i :: impls, m => by
    have := mem_pushAll name x y impls (put m i ((m i).getD [] ++ [name]))
    unfold pushAll at this ⊢
    rw [List.foldl_cons, this]
    by_cases h : x = i
    · subst h
      rw [put_same]
      simp only [Option.getD_some, List.mem_append, List.mem_singleton, List.mem_cons]
      grind
    · rw [put_other _ _ _ _ h]
      simp only [List.mem_cons, h, false_or]

theorem pushAll_not (name x : String) :
    ∀ (impls : List String) (m : String → Option (List String)), x ∉ impls →
      pushAll name impls m x = m x
  | [], m, _ => rfl
  | i :: impls, m, h => by
    rw [List.mem_cons, not_or] at h
    have := pushAll_not name x impls (put m i ((m i).getD [] ++ [name])) h.2
    unfold pushAll at this ⊢
    rw [List.foldl_cons, this, put_other _ _ _ _ h.1]

/-- Who is under the name of something that is not a union. -/
theorem mem_first (x y : String) :
    ∀ (d : Doc) (s : Tables), (∀ u : Union_, Def.type (.union u) ∈ d → u.name ≠ x) →
      (y ∈ ((d.foldl tablesStep s).first x).getD [] ↔
        y ∈ (s.first x).getD [] ∨ ∃ t, Def.type t ∈ d ∧ t.name = y ∧ x ∈ t.impls)
  | [], s, _ => by simp
  | e :: d, s, hu => by
    have ih := mem_first x y d (tablesStep s e) (fun u h => hu u (List.mem_cons_of_mem _ h))
    rw [List.foldl_cons, ih]
    have hex : (∃ t, Def.type t ∈ e :: d ∧ t.name = y ∧ x ∈ t.impls) ↔
        (∃ t, Def.type t = e ∧ t.name = y ∧ x ∈ t.impls) ∨
          ∃ t, Def.type t ∈ d ∧ t.name = y ∧ x ∈ t.impls := by
      constructor
      · rintro ⟨t, ht, h⟩
        rcases List.mem_cons.1 ht with ht | ht
        · exact .inl ⟨t, ht, h⟩
        · exact .inr ⟨t, ht, h⟩
      · rintro (⟨t, ht, h⟩ | ⟨t, ht, h⟩)
        · exact ⟨t, ht ▸ List.mem_cons_self, h⟩
        · exact ⟨t, List.mem_cons_of_mem _ ht, h⟩
    rw [hex, ← or_assoc]
    refine or_congr ?_ Iff.rfl
    cases e with
    | schema s' =>
      exact ⟨.inl, fun h => h.elim id (fun ⟨t, ht, _⟩ => by cases ht)⟩
    | directive s' =>
      exact ⟨.inl, fun h => h.elim id (fun ⟨t, ht, _⟩ => by cases ht)⟩
    | type t =>
      have one : (∃ t', Def.type t' = Def.type t ∧ t'.name = y ∧ x ∈ t'.impls) ↔ t.name = y ∧ x ∈ t.impls := by
        constructor
        · rintro ⟨t', ht, h⟩; cases ht; exact h
        · intro h; exact ⟨t, rfl, h⟩
      rw [one]
      cases t with
      | object o =>
        simp only [tablesStep, TypeDef.name, TypeDef.impls]
        rw [mem_pushAll]
        grind
      | interface o =>
        simp only [tablesStep, TypeDef.name, TypeDef.impls]
        rw [mem_pushAll]
        grind
      | union u =>
        have hne : x ≠ u.name := fun h => hu u List.mem_cons_self h.symm
        simp [tablesStep, TypeDef.impls, put_other _ _ _ _ hne]
      | scalar t => simp [tablesStep, TypeDef.impls]
      | enum t => simp [tablesStep, TypeDef.impls]
      | input t => simp [tablesStep, TypeDef.impls]

/-- What does not touch a name leaves what is under it. -/
theorem first_keeps (x : String) :
    ∀ (d : Doc) (s : Tables), (∀ u : Union_, Def.type (.union u) ∈ d → u.name ≠ x) →
      (∀ t, Def.type t ∈ d → x ∉ t.impls) → (d.foldl tablesStep s).first x = s.first x
  | [], s, _, _ => rfl
  | e :: d, s, hu, hi => by
    rw [List.foldl_cons, first_keeps x d _ (fun u h => hu u (List.mem_cons_of_mem _ h))
      (fun t h => hi t (List.mem_cons_of_mem _ h))]
    cases e with
    | schema s' => rfl
    | directive s' => rfl
    | type t =>
      have ht := hi t List.mem_cons_self
      cases t with
      | object o => exact pushAll_not _ _ _ _ ht
      | interface o => exact pushAll_not _ _ _ _ ht
      | union u =>
        have hne : x ≠ u.name := fun h => hu u List.mem_cons_self h.symm
        exact put_other _ _ _ _ hne
      | scalar t => rfl
      | enum t => rfl
      | input t => rfl

/-- What is under the name of a union. -/
theorem first_union (u : Union_) :
    ∀ (d : Doc) (s : Tables), (typeNames d).Nodup → Def.type (.union u) ∈ d →
      (∀ t, Def.type t ∈ d → u.name ∉ t.impls) → (d.foldl tablesStep s).first u.name = some u.types
  | [], s, _, h, _ => by cases h
  | e :: d, s, hn, h, hi => by
    rw [List.foldl_cons]
    have hc : typeNames (e :: d) = typeNames [e] ++ typeNames d := by
      unfold typeNames; rw [List.filterMap_cons]; cases e <;> rfl
    rw [hc, List.nodup_append] at hn
    rcases List.mem_cons.1 h with he | hd
    · subst he
      rw [first_keeps u.name d _ ?_ (fun t h => hi t (List.mem_cons_of_mem _ h))]
      · exact put_same _ _ _
      · intro u' hu' hne
        exact hn.2.2 u.name (by simp [typeNames, TypeDef.name]) u'.name
          (List.mem_filterMap.2 ⟨_, hu', rfl⟩) hne.symm
    · exact first_union u d _ hn.2.1 hd (fun t h => hi t (List.mem_cons_of_mem _ h))

/-- The fields of the type are found under its name. -/
theorem putFields_get :
    ∀ (fs : List Fld) (m : String → Option FieldInfo), (fs.map (·.name)).Nodup →
      (∀ f ∈ fs, putFields fs m f.name = some (fieldInfo f)) ∧
        ∀ n, (∀ f ∈ fs, f.name ≠ n) → putFields fs m n = m n
  | [], m, _ => ⟨fun f h => by (cases h), fun _ _ => rfl⟩
  | f :: fs, m, h => by
    rw [List.map_cons, List.nodup_cons] at h
    have ih := putFields_get fs (put m f.name (fieldInfo f)) h.2
    have hu : ∀ n, putFields (f :: fs) m n = putFields fs (put m f.name (fieldInfo f)) n := fun _ => rfl
    constructor
    · intro g hg
      rw [hu]
      rcases List.mem_cons.1 hg with rfl | hg
      · rw [ih.2]
        · exact put_same _ _ _
        · intro k hk he
          exact h.1 (he ▸ List.mem_map_of_mem hk)
      · exact ih.1 g hg
    · intro n hn
      rw [hu, ih.2 n (fun g hg => hn g (List.mem_cons_of_mem _ hg)), put_other]
      exact fun he => hn f List.mem_cons_self he.symm

theorem fields_keeps (x : String) :
    ∀ (d : Doc) (s : Tables), x ∉ typeNames d → (d.foldl tablesStep s).fields x = s.fields x
  | [], _, _ => rfl
  | e :: d, s, h => by
    have hc : typeNames (e :: d) = typeNames [e] ++ typeNames d := by
      unfold typeNames; rw [List.filterMap_cons]; cases e <;> rfl
    rw [hc, List.mem_append, not_or] at h
    rw [List.foldl_cons, fields_keeps x d _ h.2]
    cases e with
    | schema s' => rfl
    | directive s' => rfl
    | type t =>
      have hx : x ≠ t.name := by intro hh; apply h.1; simp [typeNames, hh]
      cases t with
      | object o => exact put_other _ _ _ _ hx
      | interface o => exact put_other _ _ _ _ hx
      | union u => rfl
      | scalar t => rfl
      | enum t => rfl
      | input t => rfl

theorem fields_get (t : TypeDef) (ho : t.kind = "OBJECT" ∨ t.kind = "INTERFACE") :
    ∀ (d : Doc) (s : Tables), (typeNames d).Nodup → Def.type t ∈ d → s.fields t.name = none →
      (d.foldl tablesStep s).fields t.name = some (putFields t.fields (fun _ => none))
  | [], _, _, h, _ => by cases h
  | e :: d, s, hn, h, hs => by
    have hc : typeNames (e :: d) = typeNames [e] ++ typeNames d := by
      unfold typeNames; rw [List.filterMap_cons]; cases e <;> rfl
    rw [hc, List.nodup_append] at hn
    rw [List.foldl_cons]
    rcases List.mem_cons.1 h with he | hd
    · subst he
      rw [fields_keeps]
      · cases t with
        | object o =>
          simp only [TypeDef.name] at hs
          simp only [tablesStep, TypeDef.name, TypeDef.fields, put_same, hs, Option.getD_none]
        | interface o => simp only [tablesStep, TypeDef.name, TypeDef.fields, put_same]
        | _ => simp [TypeDef.kind] at ho
      · intro hh
        exact hn.2.2 t.name (by simp [typeNames]) t.name hh rfl
    · apply fields_get t ho d _ hn.2.1 hd
      rw [← hs]
      cases e with
      | schema s' => rfl
      | directive s' => rfl
      | type u =>
        have hne : t.name ≠ u.name := by
          intro hh
          exact hn.2.2 u.name (by simp [typeNames]) t.name (List.mem_filterMap.2 ⟨_, hd, rfl⟩) hh.symm
        cases u with
        | object o => exact put_other _ _ _ _ hne
        | interface o => exact put_other _ _ _ _ hne
        | union u => rfl
        | scalar t => rfl
        | enum t => rfl
        | input t => rfl

end Verif.Client
