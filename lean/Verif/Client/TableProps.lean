import Verif.Client.Tables
import Verif.Client.Whole

/-!
# C94: the tables say what the schema says
-/

namespace Verif.Client

theorem kind_of_union {d : Doc} (hn : (typeNames d).Nodup) {t : TypeDef} {u : Union_}
    (ht : Def.type t ∈ d) (hu : Def.type (.union u) ∈ d) (h : t.name = u.name) : t = .union u :=
  one_type hn ht hu h

/-- What is under a name at first. -/
theorem mem_first_iff {d : Doc} (h : WellFormed d) (x y : String) :
    y ∈ ((tables d).first x).getD [] ↔
      (∃ t, Def.type t ∈ d ∧ t.name = y ∧ x ∈ t.impls) ∨
        ∃ u : Union_, Def.type (.union u) ∈ d ∧ u.name = x ∧ y ∈ u.types := by
  by_cases hu : ∃ u : Union_, Def.type (.union u) ∈ d ∧ u.name = x
  · obtain ⟨u, hu, rfl⟩ := hu
    have hi : ∀ t, Def.type t ∈ d → u.name ∉ t.impls := by
      intro t ht hm
      have := h.implements t (.union u) ht hu hm
      exact absurd (show "UNION" = "INTERFACE" from this) (by decide)
    unfold tables
    rw [first_union u d _ h.distinct hu hi]
    constructor
    · intro hy; exact .inr ⟨u, hu, rfl, hy⟩
    · rintro (⟨t, ht, _, hm⟩ | ⟨u', hu', hn, hy⟩)
      · exact absurd hm (hi t ht)
      · have := kind_of_union h.distinct hu' hu hn
        cases this; exact hy
  · unfold tables
    rw [mem_first x y d _ (fun u hm he => hu ⟨u, hm, he⟩)]
    constructor
    · rintro (h0 | h1)
      · simp at h0
      · exact .inl h1
    · rintro (h1 | ⟨u, hm, he, _⟩)
      · exact .inr h1
      · exact absurd ⟨u, hm, he⟩ hu

theorem mem_possible {d : Doc} (h : WellFormed d) (x z : String) :
    z ∈ ((tables d).possible x).getD [] ↔
      ∃ y, y ∈ ((tables d).first x).getD [] ∧ (z = y ∨ z ∈ ((tables d).first y).getD []) := by
  unfold Tables.possible
  cases (tables d).first x with
  | none => simp
  | some ys => simp [List.mem_flatMap]

/-- **C94.** The router takes an object for a type (in a fragment's condition, say) exactly when it is
that type, implements that interface or is a member of that union. -/
theorem C94_conditions {d : Doc} (h : WellFormed d) {o : Obj} (ho : Def.type (.object o) ∈ d) (c : String) :
    (tables d).satisfies o.name c = true ↔ IsA d o c := by
  have key : (tables d).satisfies o.name c = true ↔
      o.name = c ∨ o.name ∈ ((tables d).possible c).getD [] := by
    unfold Tables.satisfies
    by_cases hc : o.name = c
    · simp [hc]
    · simp only [hc, if_false, false_or]
      cases (tables d).possible c with
      | none => simp
      | some ys => simp
  rw [key, IsA]
  refine or_congr Iff.rfl ?_
  have base : o.name ∈ ((tables d).first c).getD [] ↔
      (c ∈ o.impls ∨ ∃ u : Union_, Def.type (.union u) ∈ d ∧ u.name = c ∧ o.name ∈ u.types) := by
    rw [mem_first_iff h]
    refine or_congr ⟨?_, ?_⟩ Iff.rfl
    · rintro ⟨t, ht, hn, hm⟩
      have := one_type h.distinct ht ho hn
      subst this; exact hm
    · intro hm; exact ⟨_, ho, rfl, hm⟩
  rw [mem_possible h]
  constructor
  · rintro ⟨y, hy, hoy | hoy⟩
    · subst hoy; exact base.1 hy
    · rcases (mem_first_iff h y o.name).1 hoy with ⟨t, ht, hn, hm⟩ | ⟨u, hu, hn, hm⟩
      · -- `o` implements `y`, which is under `c`
        have := one_type h.distinct ht ho hn
        subst this
        rcases (mem_first_iff h c y).1 hy with ⟨t', ht', hn', hm'⟩ | ⟨u, hu, hn', hm'⟩
        · left
          exact h.transitive _ t' c ho ht' (hn' ▸ hm) hm'
        · exact absurd hm' (h.known _ y ho hm u hu)
      · exfalso
        -- `y` is a union, so nothing has it as member or interface
        subst hn
        rcases (mem_first_iff h c u.name).1 hy with ⟨t', ht', hn', hm'⟩ | ⟨u', hu', _, hm'⟩
        · have := kind_of_union h.distinct ht' hu hn'
          subst this
          cases hm'
        · have := h.members (.union u') (.union u) hu' hu hm'
          exact absurd (show "UNION" = "OBJECT" from this) (by decide)
  · intro hb
    exact ⟨o.name, base.2 hb, .inl rfl⟩

theorem typeName_names : ∀ t : Ty, t.Names t.typeName
  | .named _ => rfl
  | .list t => typeName_names t
  | .nonNull t => typeName_names t

/-- **C94.** A field that the router finds on a type is one of that type, with the name of its type and
with its nullability; a field of the type is found. -/
theorem C94_fields {d : Doc} (h : WellFormed d) {t : TypeDef} (ht : Def.type t ∈ d)
    (hk : t.kind = "OBJECT" ∨ t.kind = "INTERFACE") (n : String) (i : FieldInfo) :
    (tables d).field t.name n = some i ↔
      ∃ f ∈ t.fields, f.name = n ∧ f.ty.Names i.outputType ∧ i.nullability = f.ty.nullability := by
  unfold Tables.field tables
  rw [fields_get t hk d {} h.distinct ht rfl]
  have hp := putFields_get t.fields (fun _ => none) (h.fields t ht)
  have names_one : ∀ (ty : Ty) (a b : String), ty.Names a → ty.Names b → a = b := by
    intro ty
    induction ty with
    | named m => intro a b ha hb; exact ha.symm.trans hb
    | list t ih => exact ih
    | nonNull t ih => exact ih
  constructor
  · intro hi
    by_cases hex : ∃ f ∈ t.fields, f.name = n
    · obtain ⟨f, hf, rfl⟩ := hex
      simp only [hp.1 f hf, Option.some.injEq] at hi
      subst hi
      exact ⟨f, hf, rfl, typeName_names _, rfl⟩
    · simp only [hp.2 n (fun f hf hn => hex ⟨f, hf, hn⟩)] at hi
      cases hi
  · rintro ⟨f, hf, rfl, hn, hl⟩
    simp only [hp.1 f hf, Option.some.injEq]
    obtain ⟨o, l⟩ := i
    simp only at hn hl
    rw [hl, names_one f.ty o _ hn (typeName_names f.ty)]
    rfl

/-- A type as it can be written: no two marks of non-null in a row. -/
def Ty.Written : Ty → Prop
  | .named _ => True
  | .list t => t.Written
  | .nonNull (.nonNull _) => False
  | .nonNull t => t.Written

/-- **C94.** The nullability of a field: non-null where the type is, a list where the type is one, and so
on for the items. -/
theorem C94_nullability (t : Ty) (h : t.Written) :
    (t.nullability.isNonNull = true ↔ t.NonNull) ∧
      t.nullability.listItem = t.item.map Ty.nullability ∧ ∀ u, t.item = some u → u.Written := by
  cases t with
  | named n => simp [Ty.nullability, Nullability.isNonNull, Ty.NonNull, Nullability.listItem, Ty.item]
  | list t =>
    refine ⟨by simp [Ty.nullability, Nullability.isNonNull, Ty.NonNull], rfl, ?_⟩
    intro u hu; cases hu; exact h
  | nonNull t =>
    cases t with
    | named n => simp [Ty.nullability, Nullability.isNonNull, Ty.NonNull, Nullability.listItem, Ty.item]
    | list t =>
      refine ⟨by simp [Ty.nullability, Nullability.isNonNull, Ty.NonNull], rfl, ?_⟩
      intro u hu; cases hu; exact h
    | nonNull t => exact h.elim

theorem objects_iff (n : String) : ∀ (d : Doc) (s : Tables),
    (n ∈ (d.foldl tablesStep s).objects ↔ n ∈ s.objects ∨ ∃ o : Obj, Def.type (.object o) ∈ d ∧ o.name = n) ∧
    (n ∈ (d.foldl tablesStep s).interfaces ↔ n ∈ s.interfaces ∨ ∃ o : Obj, Def.type (.interface o) ∈ d ∧ o.name = n) ∧
    (n ∈ (d.foldl tablesStep s).unions ↔ n ∈ s.unions ∨ ∃ o : Union_, Def.type (.union o) ∈ d ∧ o.name = n) ∧
    (n ∈ (d.foldl tablesStep s).scalars ↔ n ∈ s.scalars ∨ ∃ o : Scalar, Def.type (.scalar o) ∈ d ∧ o.name = n)
  | [], s => by simp
  | e :: d, s => by
    have ih := objects_iff n d (tablesStep s e)
    rw [List.foldl_cons, ih.1, ih.2.1, ih.2.2.1, ih.2.2.2]
    cases e with
    | schema s' => simp [tablesStep]
    | directive s' => simp [tablesStep]
    | type t =>
      cases t with
      | object o => simp [tablesStep]; grind
      | interface o => simp [tablesStep]; grind
      | union o => simp [tablesStep]; grind
      | scalar o => simp [tablesStep]; grind
      | enum o => simp [tablesStep]
      | input o => simp [tablesStep]

/-- **C94.** The router knows of each name what kind of type it is. -/
theorem C94_kinds (d : Doc) (n : String) :
    (n ∈ (tables d).objects ↔ ∃ o : Obj, Def.type (.object o) ∈ d ∧ o.name = n) ∧
    (n ∈ (tables d).interfaces ↔ ∃ o : Obj, Def.type (.interface o) ∈ d ∧ o.name = n) ∧
    (n ∈ (tables d).unions ↔ ∃ u : Union_, Def.type (.union u) ∈ d ∧ u.name = n) ∧
    (n ∈ (tables d).scalars ↔ n ∈ ["Boolean", "Float", "Int", "ID", "String"] ∨
      ∃ s : Scalar, Def.type (.scalar s) ∈ d ∧ s.name = n) := by
  have := objects_iff n d {}
  refine ⟨by simpa [tables] using this.1, by simpa [tables] using this.2.1,
    by simpa [tables] using this.2.2.1, this.2.2.2⟩

theorem enums_keeps (x : String) :
    ∀ (d : Doc) (s : Tables), x ∉ typeNames d → (d.foldl tablesStep s).enums x = s.enums x
  | [], _, _ => rfl
  | e :: d, s, h => by
    rw [typeNames_cons, List.mem_append, not_or] at h
    rw [List.foldl_cons, enums_keeps x d _ h.2]
    cases e with
    | schema s' => rfl
    | directive s' => rfl
    | type t =>
      have hx : x ≠ t.name := by intro hh; apply h.1; simp [typeNames, hh]
      cases t with
      | enum o => exact put_other _ _ _ _ hx
      | _ => rfl

theorem enums_get (t : Enum_) : ∀ (d : Doc) (s : Tables), (typeNames d).Nodup → Def.type (.enum t) ∈ d →
    (d.foldl tablesStep s).enums t.name = some (t.values.map (·.name))
  | [], _, _, h => by cases h
  | e :: d, s, hn, h => by
    rw [typeNames_cons, List.nodup_append] at hn
    rw [List.foldl_cons]
    rcases List.mem_cons.1 h with he | hd
    · subst he
      rw [enums_keeps]
      · exact put_same _ _ _
      · intro hh
        exact hn.2.2 t.name (by simp [typeNames, TypeDef.name]) t.name hh rfl
    · exact enums_get t d _ hn.2.1 hd

/-- **C94.** The router knows the values of each enum. -/
theorem C94_enums {d : Doc} (h : WellFormed d) {e : Enum_} (he : Def.type (.enum e) ∈ d) (v : String) :
    (∃ vs, (tables d).enums e.name = some vs ∧ v ∈ vs) ↔ ∃ x ∈ e.values, x.name = v := by
  unfold tables
  rw [enums_get e d _ h.distinct he]
  simp

/-! ## A schema -/

def zoo : Doc :=
  [ .type (.interface { name := "Node", fields := [{ name := "id", ty := .nonNull (.named "ID") }] }),
    .type (.interface { name := "Animal", impls := ["Node"], fields := [
      { name := "id", ty := .nonNull (.named "ID") },
      { name := "friends", ty := .nonNull (.list (.named "Animal")) }] }),
    .type (.object { name := "Dog", impls := ["Animal", "Node"], fields := [
      { name := "id", ty := .nonNull (.named "ID") },
      { name := "friends", ty := .nonNull (.list (.nonNull (.named "Dog"))) }] }),
    .type (.object { name := "Rock", fields := [{ name := "kg", ty := .named "Int" }] }),
    .type (.union { name := "Thing", types := ["Dog", "Rock"] }),
    .type (.enum { name := "Size", values := [{ name := "S" }, { name := "L" }] }) ]

theorem zoo_types {t : TypeDef} (h : Def.type t ∈ zoo) :
    t ∈ zoo.filterMap (fun | .type t => some t | _ => none) := List.mem_filterMap.2 ⟨_, h, rfl⟩

theorem zoo_wellFormed : WellFormed zoo where
  distinct := by decide +kernel
  fields := by
    intro t ht
    have : ∀ t ∈ zoo.filterMap (fun | .type t => some t | _ => none), (t.fields.map (·.name)).Nodup := by
      decide +kernel
    exact this t (zoo_types ht)
  implements := by
    intro t u ht hu
    have : ∀ t ∈ zoo.filterMap (fun | .type t => some t | _ => none),
        ∀ u ∈ zoo.filterMap (fun | .type t => some t | _ => none), u.name ∈ t.impls → u.kind = "INTERFACE" := by
      decide +kernel
    exact this t (zoo_types ht) u (zoo_types hu)
  members := by
    intro t u ht hu
    have : ∀ t ∈ zoo.filterMap (fun | .type t => some t | _ => none),
        ∀ u ∈ zoo.filterMap (fun | .type t => some t | _ => none), u.name ∈ t.members → u.kind = "OBJECT" := by
      decide +kernel
    exact this t (zoo_types ht) u (zoo_types hu)
  transitive := by
    intro t u x ht hu
    have : ∀ t ∈ zoo.filterMap (fun | .type t => some t | _ => none),
        ∀ u ∈ zoo.filterMap (fun | .type t => some t | _ => none),
          u.name ∈ t.impls → ∀ x ∈ u.impls, x ∈ t.impls := by
      decide +kernel
    exact fun h1 h2 => this t (zoo_types ht) u (zoo_types hu) h1 x h2
  known := by
    intro t y ht hm u hu
    have : ∀ t ∈ zoo.filterMap (fun | .type t => some t | _ => none),
        ∀ u ∈ zoo.filterMap (fun | .type t => some t | _ => none), ∀ y ∈ t.impls, y ∉ u.members := by
      decide +kernel
    exact this t (zoo_types ht) (.union u) (zoo_types hu) y hm

example : (tables zoo).satisfies "Dog" "Node" = true ∧ (tables zoo).satisfies "Dog" "Thing" = true ∧
    (tables zoo).satisfies "Rock" "Animal" = false := by decide +kernel

example : (tables zoo).field "Animal" "friends" =
    some { outputType := "Animal", nullability := .list true (.leaf false) } := by decide +kernel

end Verif.Client
