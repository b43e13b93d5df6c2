import Verif.Client.ResolveLemmas

/-!
# Answers to introspection are what they have to be
-/

namespace Verif.Client
open Verif (Value Sel Lit SortedKeys)

/-- What the router is asked about, as an object of introspection. -/
def Thing.node : Thing → Node
  | .type t => .type t
  | .wrapper kind t => if kind = "LIST" then .list t else .nonNull t
  | .field f => .field f
  | .input v => .input v

/-- It is of the schema. -/
def Thing.Of (d : Doc) : Thing → Prop
  | .type t => Def.type t ∈ d
  | .wrapper kind t => (kind = "LIST" ∨ kind = "NON_NULL") ∧ Known d t
  | .field f => Known d f.ty ∧ ∀ a ∈ f.args, Known d a.ty
  | .input v => Known d v.ty

/-- The order of hash tables loses nothing. -/
def Ctx.Fair (c : Ctx) : Prop := ∀ ns, (c.order ns).Perm ns

section
variable {c : Ctx} (hs : Sound c.doc)
variable {ok : Node → List (String × Value) → Prop} {answer : Thing → Option Value}
variable (ha : ∀ y, y.Of c.doc → ∃ v, answer y = some v ∧ IsObject (ok y.node) v)
include hs ha

theorem typeRef_ok {t : Ty} (h : Known c.doc t) :
    ∃ v n, typeRef c (fun t => answer (.type t)) (fun k t => answer (.wrapper k t)) t = some v ∧
      Refers c.doc t n ∧ Shows ok (.node n) v := by
  cases t with
  | named n =>
    obtain ⟨u, hu, rfl⟩ := h n rfl
    obtain ⟨v, hv, ho⟩ := ha (.type u) hu
    refine ⟨v, .type u, ?_, ⟨u, hu, rfl, rfl⟩, ho⟩
    simp only [typeRef, typeByName_of hs.wellFormed.distinct hu]
    exact hv
  | list t =>
    obtain ⟨v, hv, ho⟩ := ha (.wrapper "LIST" t) ⟨.inl rfl, h⟩
    exact ⟨v, .list t, hv, rfl, ho⟩
  | nonNull t =>
    obtain ⟨v, hv, ho⟩ := ha (.wrapper "NON_NULL" t) ⟨.inr rfl, h⟩
    exact ⟨v, .nonNull t, hv, rfl, ho⟩

omit hs in
theorem inputs_ok {vs : List InVal} (h : ∀ v ∈ vs, Known c.doc v.ty) :
    ∃ v, asArray (fun v => answer (.input v)) vs = some v ∧ Shows ok (.nodes (vs.map .input)) v :=
  asArray_ok .input vs (fun x hx => ha (.input x) (h x hx))

omit hs in
theorem types_ok {ts : List TypeDef} (h : ∀ t ∈ ts, Def.type t ∈ c.doc) :
    ∃ v, asArray (fun t => answer (.type t)) ts = some v ∧ Shows ok (.nodes (ts.map .type)) v :=
  asArray_ok .type ts (fun x hx => ha (.type x) (h x hx))

/-- Arguments and input fields of which none is deprecated. -/
theorem listed_ok {vars : String → Option Value} {args : Args} {vs : List InVal}
    (h : ∀ v ∈ vs, Known c.doc v.ty) :
    ∃ v, asArray (fun v => answer (.input v)) vs = some v ∧
      ((∃ v ∈ vs, Deprecated v.dirs) ∨
        ∃ x, Listed (fun v => Current vars args v.dirs) .input vs x ∧ Shows ok x v) := by
  obtain ⟨v, hv, ho⟩ := inputs_ok (ok := ok) ha h
  refine ⟨v, hv, ?_⟩
  by_cases hd : ∃ v ∈ vs, Deprecated v.dirs
  · exact .inl hd
  · refine .inr ⟨_, ⟨vs, kept_all vs ?_, rfl⟩, ho⟩
    intro x hx
    exact .inr (fun h => hd ⟨x, hx, h⟩)

theorem wrapperField_ok {kind : String} {t : Ty} (h : Known c.doc t) (name : String) :
    ∃ v, wrapperField kind t name
        (typeRef c (fun t => answer (.type t)) (fun k t => answer (.wrapper k t))) = some v ∧
      ∃ x, WrapperTells c.doc kind t name x ∧ Shows ok x v := by
  by_cases h1 : name = "kind"
  · subst h1; exact ⟨_, rfl, _, rfl, rfl⟩
  by_cases h2 : name = "name"
  · subst h2; exact ⟨_, rfl, _, rfl, rfl⟩
  by_cases h3 : name = "ofType"
  · subst h3
    obtain ⟨v, n, hv, hr, ho⟩ := typeRef_ok (ok := ok) hs ha h
    exact ⟨v, hv, _, ⟨n, hr, rfl⟩, ho⟩
  by_cases h4 : name = "__typename"
  · subst h4; exact ⟨_, rfl, _, rfl, rfl⟩
  refine ⟨.null, by simp [wrapperField, h1, h2, h3, h4], .val .null, ?_, rfl⟩
  unfold WrapperTells
  split <;> simp_all

theorem inputField_ok {w : InVal} (h : Known c.doc w.ty) (name : String) :
    ∃ v, inputValueField w name
        (typeRef c (fun t => answer (.type t)) (fun k t => answer (.wrapper k t))) = some v ∧
      (Exempt c.doc (.input w) name ∨ ∃ x, InputTells c.doc w name x ∧ Shows ok x v) := by
  by_cases h1 : name = "name"
  · subst h1; exact ⟨_, rfl, .inr ⟨_, rfl, rfl⟩⟩
  by_cases h2 : name = "description"
  · subst h2; exact ⟨_, rfl, .inr ⟨_, rfl, strOrNull_eq _⟩⟩
  by_cases h3 : name = "type"
  · subst h3
    obtain ⟨v, n, hv, hr, ho⟩ := typeRef_ok (ok := ok) hs ha h
    exact ⟨v, hv, .inr ⟨_, ⟨n, hr, rfl⟩, ho⟩⟩
  by_cases h4 : name = "defaultValue"
  · subst h4; exact ⟨_, rfl, .inr ⟨_, rfl, strOrNull_eq _⟩⟩
  by_cases h5 : name = "isDeprecated"
  · subst h5; exact ⟨_, rfl, .inr ⟨_, rfl, by rw [isDeprecated_eq]; rfl⟩⟩
  by_cases h6 : name = "deprecationReason"
  · subst h6
    refine ⟨_, rfl, ?_⟩
    by_cases hn : NoReason w.dirs
    · exact .inl ⟨rfl, hn⟩
    · exact .inr ⟨_, rfl, by rw [← reason_eq _ hn]; exact strOrNull_eq _⟩
  by_cases h7 : name = "__typename"
  · subst h7; exact ⟨_, rfl, .inr ⟨_, rfl, rfl⟩⟩
  refine ⟨.null, by simp [inputValueField, h1, h2, h3, h4, h5, h6, h7], .inr ⟨.val .null, ?_, rfl⟩⟩
  unfold InputTells
  split <;> simp_all

theorem fieldField_ok {f : Fld} (h : Known c.doc f.ty) (hg : ∀ a ∈ f.args, Known c.doc a.ty) (name : String)
    (args : Args) :
    ∃ v, fieldField f name
        (typeRef c (fun t => answer (.type t)) (fun k t => answer (.wrapper k t)))
        (fun v => answer (.input v)) = some v ∧
      (Exempt c.doc (.field f) name ∨ ∃ x, FieldTells c.doc c.vars f name args x ∧ Shows ok x v) := by
  by_cases h1 : name = "name"
  · subst h1; exact ⟨_, rfl, .inr ⟨_, rfl, rfl⟩⟩
  by_cases h2 : name = "description"
  · subst h2; exact ⟨_, rfl, .inr ⟨_, rfl, strOrNull_eq _⟩⟩
  by_cases h3 : name = "type"
  · subst h3
    obtain ⟨v, n, hv, hr, ho⟩ := typeRef_ok (ok := ok) hs ha h
    exact ⟨v, hv, .inr ⟨_, ⟨n, hr, rfl⟩, ho⟩⟩
  by_cases h4 : name = "args"
  · subst h4
    obtain ⟨v, hv, ho⟩ := listed_ok (ok := ok) (vars := c.vars) (args := args) hs ha hg
    exact ⟨v, hv, ho.imp (fun h => .inl ⟨rfl, h⟩) id⟩
  by_cases h5 : name = "isDeprecated"
  · subst h5; exact ⟨_, rfl, .inr ⟨_, rfl, by rw [isDeprecated_eq]; rfl⟩⟩
  by_cases h6 : name = "deprecationReason"
  · subst h6
    refine ⟨_, rfl, ?_⟩
    by_cases hn : NoReason f.dirs
    · exact .inl (.inr ⟨rfl, hn⟩)
    · exact .inr ⟨_, rfl, by rw [← reason_eq _ hn]; exact strOrNull_eq _⟩
  by_cases h7 : name = "__typename"
  · subst h7; exact ⟨_, rfl, .inr ⟨_, rfl, rfl⟩⟩
  refine ⟨.null, by simp [fieldField, h1, h2, h3, h4, h5, h6, h7], .inr ⟨.val .null, ?_, rfl⟩⟩
  unfold FieldTells
  split <;> simp_all

omit hs in
theorem directiveField_ok {dd : DirDef} (hg : ∀ a ∈ dd.args, Known c.doc a.ty) (name : String) (args : Args) :
    ∃ v, directiveField dd name (fun v => answer (.input v)) = some v ∧
      (Exempt c.doc (.directive dd) name ∨ ∃ x, DirectiveTells c.vars dd name args x ∧ Shows ok x v) := by
  by_cases h1 : name = "name"
  · subst h1; exact ⟨_, rfl, .inr ⟨_, rfl, rfl⟩⟩
  by_cases h2 : name = "description"
  · subst h2; exact ⟨_, rfl, .inr ⟨_, rfl, strOrNull_eq _⟩⟩
  by_cases h3 : name = "locations"
  · subst h3; exact ⟨_, rfl, .inr ⟨_, rfl, rfl⟩⟩
  by_cases h4 : name = "args"
  · subst h4
    obtain ⟨v, hv, ho⟩ := inputs_ok (ok := ok) ha hg
    refine ⟨v, hv, ?_⟩
    by_cases hd : ∃ v ∈ dd.args, Deprecated v.dirs
    · exact .inl ⟨rfl, hd⟩
    · refine .inr ⟨_, ⟨dd.args, kept_all _ ?_, rfl⟩, ho⟩
      intro x hx
      exact .inr (fun h => hd ⟨x, hx, h⟩)
  by_cases h5 : name = "isRepeatable"
  · subst h5; exact ⟨_, rfl, .inr ⟨_, rfl, rfl⟩⟩
  by_cases h7 : name = "__typename"
  · subst h7; exact ⟨_, rfl, .inr ⟨_, rfl, rfl⟩⟩
  refine ⟨.null, by simp [directiveField, h1, h2, h3, h4, h5, h7], .inr ⟨.val .null, ?_, rfl⟩⟩
  unfold DirectiveTells
  split <;> simp_all

end

theorem valueField_ok {ok : Node → List (String × Value) → Prop} (d : Doc) (w : EnumVal) (name : String) :
    ∃ v, enumValueField w name = some v ∧
      (Exempt d (.value w) name ∨ ∃ x, ValueTells w name x ∧ Shows ok x v) := by
  by_cases h1 : name = "name"
  · subst h1; exact ⟨_, rfl, .inr ⟨_, rfl, rfl⟩⟩
  by_cases h2 : name = "description"
  · subst h2; exact ⟨_, rfl, .inr ⟨_, rfl, strOrNull_eq _⟩⟩
  by_cases h5 : name = "isDeprecated"
  · subst h5; exact ⟨_, rfl, .inr ⟨_, rfl, by rw [isDeprecated_eq]; rfl⟩⟩
  by_cases h6 : name = "deprecationReason"
  · subst h6
    refine ⟨_, rfl, ?_⟩
    by_cases hn : NoReason w.dirs
    · exact .inl ⟨rfl, hn⟩
    · exact .inr ⟨_, rfl, by rw [← reason_eq _ hn]; exact strOrNull_eq _⟩
  by_cases h7 : name = "__typename"
  · subst h7; exact ⟨_, rfl, .inr ⟨_, rfl, rfl⟩⟩
  refine ⟨.null, by simp [enumValueField, h1, h2, h5, h6, h7], .inr ⟨.val .null, ?_, rfl⟩⟩
  unfold ValueTells
  split <;> simp_all

theorem impls_found {d : Doc} (hn : (typeNames d).Nodup) : ∀ (ns : List String),
    (∀ y ∈ ns, ∃ u, Def.type u ∈ d ∧ u.name = y) →
      (ns.filterMap (typeByName d)).map (·.name) = ns ∧ ∀ t ∈ ns.filterMap (typeByName d), Def.type t ∈ d
  | [], _ => ⟨rfl, by simp⟩
  | n :: ns, h => by
    obtain ⟨u, hu, rfl⟩ := h n List.mem_cons_self
    have ih := impls_found hn ns (fun y hy => h y (List.mem_cons_of_mem _ hy))
    rw [List.filterMap_cons, typeByName_of hn hu]
    simp only [List.map_cons, ih.1, List.mem_cons, forall_eq_or_imp, true_and]
    exact ⟨hu, ih.2⟩

theorem shown_iff (c : Ctx) (args : Args) (name : String) (dirs : List Dir) :
    (!reserved name && (includeDeprecated c args || !isDeprecated dirs)) = true ↔
      ¬ ['_', '_'] <+: name.toList ∧ Current c.vars args dirs := by
  have h1 := includeDeprecated_iff c args
  have h2 := isDeprecated_iff dirs
  have h3 : reserved name = true ↔ ['_', '_'] <+: name.toList := by
    unfold reserved; exact List.isPrefixOf_iff_prefix
  unfold Current
  rw [Bool.and_eq_true, Bool.or_eq_true, h1, ← h2, ← h3]
  simp

theorem current_iff (c : Ctx) (args : Args) (dirs : List Dir) :
    (includeDeprecated c args || !isDeprecated dirs) = true ↔ Current c.vars args dirs := by
  have h1 := includeDeprecated_iff c args
  have h2 := isDeprecated_iff dirs
  unfold Current
  rw [Bool.or_eq_true, h1, ← h2]
  simp

section
variable {c : Ctx} (hs : Sound c.doc)
variable {ok : Node → List (String × Value) → Prop} {answer : Thing → Option Value}
variable {value : EnumVal → Option Value}
variable (ha : ∀ y, y.Of c.doc → ∃ v, answer y = some v ∧ IsObject (ok y.node) v)

include hs ha in
theorem fields_ok {t : TypeDef} (ht : Def.type t ∈ c.doc) (args : Args)
    {p : Fld → Bool} {P : Fld → Prop} (hp : ∀ f, p f = true ↔ P f) :
    ∃ v, asArray (fun f => answer (.field f)) (t.fields.filter p) = some v ∧
      ∃ x, Listed P .field t.fields x ∧ Shows ok x v := by
  obtain ⟨v, hv, ho⟩ := asArray_ok (ok := ok) (f := fun f => answer (.field f)) .field (t.fields.filter p)
    (fun f hf => ha (.field f) (hs.fields t ht f (List.mem_filter.1 hf).1))
  exact ⟨v, hv, _, ⟨_, kept_filter hp _, rfl⟩, ho⟩

include hs ha in
theorem possible_ok (hf : c.Fair) {t : TypeDef} (ht : Def.type t ∈ c.doc)
    (hk : t.kind = "INTERFACE" ∨ t.kind = "UNION") :
    ∃ v, asArray (fun t => answer (.type t))
        (((possibleNames c t.name).filter (fun v => v ≠ t.name)).filterMap (typeByName c.doc)) = some v ∧
      ((t.kind = "INTERFACE" ∧ ∃ i : Obj, Def.type (.interface i) ∈ c.doc ∧ t.name ∈ i.impls) ∨
        ∃ x, AllThat (fun n => ∃ o : Obj, Def.type (.object o) ∈ c.doc ∧ IsA c.doc o t.name ∧
          n = .type (.object o)) x ∧ Shows ok x v) := by
  have hw := hs.wellFormed
  have hnd : ((possibleNames c t.name).filter (fun v => decide (v ≠ t.name))).Nodup :=
    ((hf _).nodup_iff.2 (keys_nodup _)).filter _
  have hmem : ∀ n, n ∈ (possibleNames c t.name).filter (fun v => decide (v ≠ t.name)) ↔
      n ∈ ((tables c.doc).possible t.name).getD [] ∧ n ≠ t.name := by
    intro n
    unfold possibleNames
    rw [List.mem_filter, (hf _).mem_iff, mem_keys, List.mem_append, List.mem_singleton, decide_eq_true_eq]
    constructor
    · rintro ⟨h | h, hn⟩
      · exact ⟨h, hn⟩
      · exact absurd h hn
    · rintro ⟨h, hn⟩; exact ⟨.inl h, hn⟩
  obtain ⟨hnd', hmem'⟩ := filterMap_types hw.distinct
    (fun t h => typeByName_of hw.distinct h) (fun n t h => typeByName_some h) hnd
  obtain ⟨v, hv, ho⟩ := types_ok (ok := ok) ha
    (ts := ((possibleNames c t.name).filter (fun v => v ≠ t.name)).filterMap (typeByName c.doc))
    (fun u hu => ((hmem' u).1 hu).1)
  refine ⟨v, hv, ?_⟩
  by_cases hi : ∃ i : Obj, Def.type (.interface i) ∈ c.doc ∧ t.name ∈ i.impls
  · left
    refine ⟨?_, hi⟩
    obtain ⟨i, h1, h2⟩ := hi
    exact hw.implements _ t h1 ht h2
  · right
    refine ⟨_, ⟨_, rfl, map_type_nodup hnd', ?_⟩, ho⟩
    intro n
    rw [mem_map_type]
    constructor
    · rintro ⟨u, hu, rfl⟩
      rw [hmem', hmem] at hu
      obtain ⟨h1, h2, h3⟩ := hu
      obtain ⟨o, rfl⟩ := possible_only hw ht h1 hk hi h2
      exact ⟨o, h1, (possible_object hw h1 h3).1 h2, rfl⟩
    · rintro ⟨o, h1, h2, rfl⟩
      have hne : o.name ≠ t.name := by
        intro he
        have := one_type hw.distinct h1 ht he
        rw [← this] at hk
        simp [TypeDef.kind] at hk
      refine ⟨_, (hmem' _).2 ⟨h1, (hmem _).2 ⟨(possible_object hw h1 hne).2 h2, hne⟩⟩, rfl⟩

include hs ha in
theorem typeField_ok (hf : c.Fair)
    (hval : ∀ w, ∃ v, value w = some v ∧ IsObject (ok (.value w)) v)
    {t : TypeDef} (ht : Def.type t ∈ c.doc) (name : String) (args : Args) :
    ∃ v, typeField c t name args (fun t => answer (.type t)) (fun f => answer (.field f)) value
        (fun v => answer (.input v)) = some v ∧
      (Exempt c.doc (.type t) name ∨ ∃ x, TypeTells c.doc c.vars t name args x ∧ Shows ok x v) := by
  by_cases h1 : name = "kind"
  · subst h1; exact ⟨_, rfl, .inr ⟨_, rfl, by cases t <;> rfl⟩⟩
  by_cases h2 : name = "name"
  · subst h2; exact ⟨_, rfl, .inr ⟨_, rfl, rfl⟩⟩
  by_cases h3 : name = "description"
  · subst h3; exact ⟨_, rfl, .inr ⟨_, rfl, strOrNull_eq _⟩⟩
  by_cases h4 : name = "specifiedByURL"
  · subst h4
    refine ⟨_, rfl, .inr ⟨_, rfl, ?_⟩⟩
    show urlOf t = _
    cases t <;> simp [urlOf, TypeDef.kind, TypeDef.dirs, url_eq, strOrNull_eq, text]
  by_cases h5 : name = "isOneOf"
  · subst h5
    refine ⟨_, rfl, .inr ⟨_, rfl, ?_⟩⟩
    show oneOfOf t = _
    cases t <;> simp [oneOfOf, TypeDef.kind, TypeDef.dirs, isOneOf]
    congr 1
  by_cases h6 : name = "fields"
  · subst h6
    show ∃ v, fieldsOf c t args (fun f => answer (.field f)) = some v ∧ _
    have hg := fields_ok (ok := ok) hs ha ht args (fun f => shown_iff c args f.name f.dirs)
    cases t with
    | object o =>
      obtain ⟨v, hv, x, hx, ho⟩ := hg
      refine ⟨v, hv, .inr ⟨x, ?_, ho⟩⟩
      simpa [TypeTells, TypeDef.kind] using hx
    | interface o =>
      obtain ⟨v, hv, x, hx, ho⟩ := hg
      refine ⟨v, hv, .inr ⟨x, ?_, ho⟩⟩
      simpa [TypeTells, TypeDef.kind] using hx
    | _ => exact ⟨.null, rfl, .inr ⟨.val .null, by simp [TypeTells, TypeDef.kind], rfl⟩⟩
  by_cases h7 : name = "interfaces"
  · subst h7
    show ∃ v, interfacesOf c t (fun t => answer (.type t)) = some v ∧ _
    cases t with
    | object o =>
      obtain ⟨hn, hm⟩ := impls_found hs.wellFormed.distinct o.impls (hs.impls _ ht)
      obtain ⟨v, hv, ho⟩ := types_ok (ok := ok) ha hm
      refine ⟨v, hv, .inr ⟨_, ?_, ho⟩⟩
      simp only [TypeTells, TypeDef.kind, true_or, if_true]
      exact ⟨_, rfl, hn, hm⟩
    | interface o => exact ⟨.null, rfl, .inl (.inl ⟨rfl, rfl⟩)⟩
    | _ => exact ⟨.null, rfl, .inr ⟨.val .null, by simp [TypeTells, TypeDef.kind], rfl⟩⟩
  by_cases h8 : name = "possibleTypes"
  · subst h8
    show ∃ v, possibleTypesOf c t (fun t => answer (.type t)) = some v ∧ _
    cases t with
    | interface o =>
      obtain ⟨v, hv, ho⟩ := possible_ok (ok := ok) hs ha hf ht (.inl rfl)
      refine ⟨v, hv, ho.imp (fun h => .inr (.inl ⟨rfl, h⟩)) ?_⟩
      rintro ⟨x, hx, ho⟩
      refine ⟨x, ?_, ho⟩
      simpa [TypeTells, TypeDef.kind] using hx
    | union u =>
      obtain ⟨v, hv, ho⟩ := possible_ok (ok := ok) hs ha hf ht (.inr rfl)
      refine ⟨v, hv, ho.imp (fun h => .inr (.inl ⟨rfl, h⟩)) ?_⟩
      rintro ⟨x, hx, ho⟩
      refine ⟨x, ?_, ho⟩
      simpa [TypeTells, TypeDef.kind] using hx
    | _ => exact ⟨.null, rfl, .inr ⟨.val .null, by simp [TypeTells, TypeDef.kind], rfl⟩⟩
  by_cases h9 : name = "enumValues"
  · subst h9
    show ∃ v, enumValuesOf c t args value = some v ∧ _
    cases t with
    | enum e =>
      obtain ⟨v, hv, ho⟩ := asArray_ok (ok := ok) (f := value) .value
        (e.values.filter (fun v => includeDeprecated c args || !isDeprecated v.dirs)) (fun w _ => hval w)
      refine ⟨v, hv, .inr ⟨_, ?_, ho⟩⟩
      simp only [TypeTells, TypeDef.kind, if_true]
      exact ⟨_, kept_filter (fun w : EnumVal => current_iff c args w.dirs) _, rfl⟩
    | _ => exact ⟨.null, rfl, .inr ⟨.val .null, by simp [TypeTells, TypeDef.kind], rfl⟩⟩
  by_cases h10 : name = "inputFields"
  · subst h10
    show ∃ v, inputFieldsOf t (fun v => answer (.input v)) = some v ∧ _
    cases t with
    | input i =>
      obtain ⟨v, hv, ho⟩ := listed_ok (ok := ok) (vars := c.vars) (args := args) hs ha
        (vs := i.fields) (hs.inputs _ ht)
      refine ⟨v, hv, ho.imp (fun h => .inr (.inr ⟨rfl, h⟩)) ?_⟩
      rintro ⟨x, hx, ho⟩
      refine ⟨x, ?_, ho⟩
      simpa [TypeTells, TypeDef.kind, TypeDef.inputs] using hx
    | _ => exact ⟨.null, rfl, .inr ⟨.val .null, by simp [TypeTells, TypeDef.kind], rfl⟩⟩
  by_cases h11 : name = "__typename"
  · subst h11; exact ⟨_, rfl, .inr ⟨_, rfl, rfl⟩⟩
  refine ⟨.null, by simp [typeField, h1, h2, h3, h4, h5, h6, h7, h8, h9, h10, h11], .inr ⟨.val .null, ?_, rfl⟩⟩
  unfold TypeTells
  split <;> simp_all

include hs ha in
theorem thingField_ok (hf : c.Fair)
    (hval : ∀ w, ∃ v, value w = some v ∧ IsObject (ok (.value w)) v)
    {x : Thing} (hx : x.Of c.doc) (name : String) (args : Args) :
    ∃ v, thingField c x name args answer value = some v ∧
      (Exempt c.doc x.node name ∨ ∃ y, Tells c.doc c.vars x.node name args y ∧ Shows ok y v) := by
  cases x with
  | type t => exact typeField_ok hs ha hf hval hx name args
  | wrapper kind t =>
    obtain ⟨v, hv, y, hy, ho⟩ := wrapperField_ok (ok := ok) (kind := kind) hs ha hx.2 name
    refine ⟨v, hv, .inr ⟨y, ?_, ho⟩⟩
    rcases hx.1 with rfl | rfl
    · exact hy
    · exact hy
  | field f => exact fieldField_ok hs ha hx.1 hx.2 name args
  | input v => exact inputField_ok hs ha hx name
end

/-! ## Selection sets -/

theorem push_ok {k : String} {v : Value} {rest : Option (List (String × Value))} {es : List (String × Value)}
    {o : Option Value} (ho : o = some v) (hr : rest = some es) : push k o rest = some ((k, v) :: es) := by
  subst ho hr; rfl

theorem extend_ok {a b : Option (List (String × Value))} {xs ys : List (String × Value)}
    (ha : a = some xs) (hb : b = some ys) : extend a b = some (xs ++ ys) := by
  subst ha hb; rfl

theorem valueItems_ok {c : Ctx} (w : EnumVal) : ∀ sels,
    ∃ es, enumValueItems w sels = some es ∧ es.map (·.1) = respKeys sels ∧
      Answers (Exempt c.doc) c.doc c.vars (.value w) sels es := by
  refine Sels.ind ⟨[], by simp [enumValueItems], by simp [respKeys], by simp [Answers]⟩ ?_ ?_ ?_
  · rintro f s rest - ⟨es, he, hk, hr⟩
    obtain ⟨v, hv, ho⟩ := valueField_ok (ok := fun m es => Answers (Exempt c.doc) c.doc c.vars m s es)
      c.doc w f.name
    exact ⟨_, push_ok hv he, by simp [respKeys, respKey, hk], v, es, rfl, hr, ho⟩
  · rintro g s rest ⟨es, he, hk, hr⟩ ⟨es', he', hk', hr'⟩
    exact ⟨_, extend_ok he he', by simp [respKeys, respKey, hk, hk'], es, es', rfl, hr, hr'⟩
  · rintro n rest ⟨es, he, hk, hr⟩
    exact ⟨es, he, hk, hr⟩

theorem valueAnswer_ok {c : Ctx} (w : EnumVal) {sels : List Sel} (hn : (respKeys sels).Nodup) :
    ∃ v, asObject (enumValueItems w sels) = some v ∧
      IsObject (Answers (Exempt c.doc) c.doc c.vars (.value w) sels) v := by
  obtain ⟨es, he, hk, hr⟩ := valueItems_ok (c := c) w sels
  exact asObject_ok he (hk ▸ hn) hr

theorem items_ok {c : Ctx} (hs : Sound c.doc) (hf : c.Fair) : ∀ sels, DistinctBelow sels →
    ∀ x : Thing, x.Of c.doc → ∃ es, items c x sels = some es ∧ es.map (·.1) = respKeys sels ∧
      Answers (Exempt c.doc) c.doc c.vars x.node sels es := by
  refine Sels.ind (fun _ _ _ => ⟨[], by simp [items], by simp [respKeys], by simp [Answers]⟩) ?_ ?_ ?_
  · rintro f s rest ihs ihr ⟨⟨hn, hd⟩, hr⟩ x hx
    obtain ⟨es, he, hk, hr⟩ := ihr hr x hx
    obtain ⟨v, hv, ho⟩ := thingField_ok (answer := fun y => asObject (items c y s))
      (value := fun v => asObject (enumValueItems v s))
      (ok := fun m es => Answers (Exempt c.doc) c.doc c.vars m s es) hs
      (fun y hy => by
        obtain ⟨es, he, hk, hr⟩ := ihs hd y hy
        exact asObject_ok he (hk ▸ hn) hr)
      hf (fun w => valueAnswer_ok (c := c) w hn) hx f.name f.args
    exact ⟨_, push_ok hv he, by simp [respKeys, respKey, hk], v, es, rfl, hr, ho⟩
  · rintro g s rest ihs ihr ⟨hd, hr⟩ x hx
    obtain ⟨es, he, hk, hr⟩ := ihr hr x hx
    obtain ⟨es', he', hk', hr'⟩ := ihs hd x hx
    exact ⟨_, extend_ok he' he, by simp [respKeys, respKey, hk, hk'], es', es, rfl, hr', hr⟩
  · rintro n rest ih hd x hx
    exact ih hd.2 x hx

theorem answer_ok {c : Ctx} (hs : Sound c.doc) (hf : c.Fair) {sels : List Sel} (hd : Distinct sels)
    (x : Thing) (hx : x.Of c.doc) : ∃ v, asObject (items c x sels) = some v ∧
      IsObject (Answers (Exempt c.doc) c.doc c.vars x.node sels) v := by
  obtain ⟨es, he, hk, hr⟩ := items_ok hs hf sels hd.2 x hx
  exact asObject_ok he (hk ▸ hd.1) hr

theorem directiveItems_ok {c : Ctx} (hs : Sound c.doc) (hf : c.Fair) {dd : DirDef}
    (hg : Def.directive dd ∈ c.doc) : ∀ sels, DistinctBelow sels →
    ∃ es, directiveItems c dd sels = some es ∧ es.map (·.1) = respKeys sels ∧
      Answers (Exempt c.doc) c.doc c.vars (.directive dd) sels es := by
  refine Sels.ind (fun _ => ⟨[], by simp [directiveItems], by simp [respKeys], by simp [Answers]⟩) ?_ ?_ ?_
  · rintro f s rest - ihr ⟨⟨hn, hd⟩, hr⟩
    obtain ⟨es, he, hk, hr⟩ := ihr hr
    obtain ⟨v, hv, ho⟩ := directiveField_ok (c := c) (answer := fun y => asObject (items c y s))
      (ok := fun m es => Answers (Exempt c.doc) c.doc c.vars m s es)
      (fun y hy => answer_ok hs hf ⟨hn, hd⟩ y hy) (hs.directives dd hg) f.name f.args
    exact ⟨_, push_ok hv he, by simp [respKeys, respKey, hk], v, es, rfl, hr, ho⟩
  · rintro g s rest ihs ihr ⟨hd, hr⟩
    obtain ⟨es, he, hk, hr⟩ := ihr hr
    obtain ⟨es', he', hk', hr'⟩ := ihs hd
    exact ⟨_, extend_ok he' he, by simp [respKeys, respKey, hk, hk'], es', es, rfl, hr', hr⟩
  · rintro n rest ih hd
    exact ih hd.2

theorem theType_ok {d : Doc} (hn : (typeNames d).Nodup) {ok : Node → List (String × Value) → Prop}
    {c : Ctx} (hc : c.doc = d) {type : TypeDef → Option Value}
    (ht : ∀ t, Def.type t ∈ d → ∃ v, type t = some v ∧ IsObject (ok (.type t)) v) {name : Option String}
    {P : String → Prop} (hp : ∀ n, name = some n ↔ P n) :
    ∃ v, rootType c name type = some v ∧ ∃ x, TheType d P x ∧ Shows ok x v := by
  subst hc
  unfold rootType
  cases name with
  | none =>
    refine ⟨.null, rfl, .val .null, .inr ⟨?_, rfl⟩, rfl⟩
    rintro ⟨t, _, h⟩
    exact absurd ((hp _).2 h) (by simp)
  | some n =>
    have hpn := (hp n).1 rfl
    cases hb : typeByName c.doc n with
    | none =>
      refine ⟨.null, by simp [hb], .val .null, .inr ⟨?_, rfl⟩, rfl⟩
      rintro ⟨t, h1, h2⟩
      have := (hp _).2 h2
      cases this
      exact typeByName_none hb t h1 rfl
    | some t =>
      obtain ⟨h1, h2⟩ := typeByName_some hb
      obtain ⟨v, hv, ho⟩ := ht t h1
      exact ⟨v, by simp [hb, hv], _, .inl ⟨t, h1, h2 ▸ hpn, rfl⟩, ho⟩

theorem directivesOf_map (d : Doc) :
    (directivesOf d).map Node.directive = directiveNodes d := by
  unfold directivesOf directiveNodes
  rw [List.map_filterMap]
  congr 1
  funext x
  cases x <;> rfl

theorem query_found {d : Doc} (hs : Sound d) : ∃ t, Def.type t ∈ d ∧ RootIs d "Query" (·.query) t.name ∧
    queryTypeName d = some t.name := by
  obtain ⟨t, ht, hr⟩ := hs.query
  refine ⟨t, ht, hr, ?_⟩
  rcases hr with ⟨s, h1, h2⟩ | ⟨h1, h2, h3⟩
  · exact rootLoop_schema ⟨s, h1, h2⟩ hs.one
  · exact (rootLoop_usual d none (fun s h => absurd h (h1 s)) (by simp) _).2 ⟨h2, .inr (h2 ▸ h3)⟩

theorem schemaField_ok {c : Ctx} (hs : Sound c.doc) (hf : c.Fair)
    {ok : Node → List (String × Value) → Prop} {type : TypeDef → Option Value}
    {directive : DirDef → Option Value}
    (ht : ∀ t, Def.type t ∈ c.doc → ∃ v, type t = some v ∧ IsObject (ok (.type t)) v)
    (hg : ∀ dd, Def.directive dd ∈ c.doc → ∃ v, directive dd = some v ∧ IsObject (ok (.directive dd)) v)
    (name : String) :
    ∃ v, schemaField c name type directive = some v ∧
      (Exempt c.doc .schema name ∨ ∃ x, SchemaTells c.doc name x ∧ Shows ok x v) := by
  have hn := hs.wellFormed.distinct
  by_cases h1 : name = "description"
  · subst h1; exact ⟨_, rfl, .inr ⟨_, rfl, rfl⟩⟩
  by_cases h2 : name = "types"
  · subst h2
    have hnd : (c.order (keys (typeNames c.doc))).Nodup := (hf _).nodup_iff.2 (keys_nodup _)
    obtain ⟨hnd', hmem⟩ := filterMap_types hn (fun t h => lastByName_of hn h)
      (fun n t h => ⟨List.mem_reverse.1 (typeByName_some h).1, (typeByName_some h).2⟩) hnd
    obtain ⟨v, hv, ho⟩ := asArray_ok (ok := ok) (f := type) .type
      ((c.order (keys (typeNames c.doc))).filterMap (lastByName c.doc))
      (fun t h => ht t ((hmem t).1 h).1)
    refine ⟨v, hv, .inr ⟨_, ⟨_, rfl, map_type_nodup hnd', ?_⟩, ho⟩⟩
    intro n
    rw [mem_map_type]
    constructor
    · rintro ⟨t, h, rfl⟩; exact ⟨t, ((hmem t).1 h).1, rfl⟩
    · rintro ⟨t, h, rfl⟩
      refine ⟨t, (hmem t).2 ⟨h, ?_⟩, rfl⟩
      rw [(hf _).mem_iff, mem_keys]
      exact typeNames_mem h
  by_cases h3 : name = "queryType"
  · subst h3
    obtain ⟨t, h, hr, hq⟩ := query_found hs
    obtain ⟨v, hv, ho⟩ := ht t h
    refine ⟨v, ?_, .inr ⟨_, .inl ⟨t, h, hr, rfl⟩, ho⟩⟩
    simp [schemaField, hq, typeByName_of hn h, hv]
  by_cases h4 : name = "mutationType"
  · subst h4
    by_cases hu : Unnamed c.doc "Mutation" (·.mutation)
    · obtain ⟨v, hv, _⟩ := theType_ok hn (ok := ok) rfl ht (name := mutationTypeName c.doc)
        (P := fun n => mutationTypeName c.doc = some n) (fun _ => Iff.rfl)
      exact ⟨v, hv, .inl (.inl ⟨rfl, hu⟩)⟩
    · obtain ⟨v, hv, x, hx, ho⟩ := theType_ok hn (ok := ok) rfl ht (name := mutationTypeName c.doc)
        (rootLoop_iff hs.one hu)
      exact ⟨v, hv, .inr ⟨x, hx, ho⟩⟩
  by_cases h5 : name = "subscriptionType"
  · subst h5
    by_cases hu : Unnamed c.doc "Subscription" (·.subscription)
    · obtain ⟨v, hv, _⟩ := theType_ok hn (ok := ok) rfl ht (name := subscriptionTypeName c.doc)
        (P := fun n => subscriptionTypeName c.doc = some n) (fun _ => Iff.rfl)
      exact ⟨v, hv, .inl (.inr ⟨rfl, hu⟩)⟩
    · obtain ⟨v, hv, x, hx, ho⟩ := theType_ok hn (ok := ok) rfl ht (name := subscriptionTypeName c.doc)
        (rootLoop_iff hs.one hu)
      exact ⟨v, hv, .inr ⟨x, hx, ho⟩⟩
  by_cases h6 : name = "directives"
  · subst h6
    obtain ⟨v, hv, ho⟩ := asArray_ok (ok := ok) (f := directive) .directive (directivesOf c.doc) (by
      intro dd hd
      apply hg
      obtain ⟨x, hx, he⟩ := List.mem_filterMap.1 hd
      cases x with
      | directive y => cases he; exact hx
      | _ => cases he)
    exact ⟨v, hv, .inr ⟨_, congrArg Told.nodes (directivesOf_map c.doc), ho⟩⟩
  by_cases h7 : name = "__typename"
  · subst h7; exact ⟨_, rfl, .inr ⟨_, rfl, rfl⟩⟩
  refine ⟨.null, by simp [schemaField, h1, h2, h3, h4, h5, h6, h7], .inr ⟨.val .null, ?_, rfl⟩⟩
  unfold SchemaTells
  split <;> simp_all

theorem schemaItems_ok {c : Ctx} (hs : Sound c.doc) (hf : c.Fair) : ∀ sels, DistinctBelow sels →
    (∀ g s, Sel.frag g s ∉ sels) →
    ∃ es, schemaItems c sels = some es ∧ es.map (·.1) = respKeys sels ∧
      Answers (Exempt c.doc) c.doc c.vars .schema sels es := by
  refine Sels.ind (fun _ _ => ⟨[], by simp [schemaItems], by simp [respKeys], by simp [Answers]⟩) ?_ ?_ ?_
  · intro f s rest _ ihr hdd hfr
    obtain ⟨⟨hn, hd⟩, hr⟩ := hdd
    obtain ⟨es, he, hk, hr⟩ := ihr hr (fun g s h => hfr g s (List.mem_cons_of_mem _ h))
    obtain ⟨v, hv, ho⟩ := schemaField_ok (type := typeAnswer c s)
      (directive := fun d => asObject (directiveItems c d s))
      (ok := fun m es => Answers (Exempt c.doc) c.doc c.vars m s es) hs hf
      (fun t ht => answer_ok hs hf ⟨hn, hd⟩ (.type t) ht)
      (fun dd hg => by
        obtain ⟨es, he, hk, hr⟩ := directiveItems_ok hs hf hg s hd
        exact asObject_ok he (hk ▸ hn) hr) f.name
    exact ⟨_, push_ok hv he, by simp [respKeys, respKey, hk], v, es, rfl, hr, ho⟩
  · rintro g s rest - - - hfr
    exact absurd List.mem_cons_self (hfr g s)
  · intro n rest ih hd hfr
    exact ih (hd.2) (fun g s h => hfr g s (List.mem_cons_of_mem _ h))

theorem given_iff (c : Ctx) (args : List (String × Lit)) :
    (∃ n, args.lookup "name" = some (.str n) ∧ ∀ m, some n = some m ↔ GivenName c.vars (some args) m) ∨
    (∃ x, args.lookup "name" = some (.var x) ∧ ∀ m, strVar c x = some m ↔ GivenName c.vars (some args) m) ∨
    ((∀ n, args.lookup "name" ≠ some (.str n)) ∧ (∀ x, args.lookup "name" ≠ some (.var x)) ∧
      ∀ m, ¬ GivenName c.vars (some args) m) := by
  unfold GivenName Args.get
  simp only [Option.getD_some]
  cases args.lookup "name" with
  | none => right; right; simp
  | some l =>
    cases l with
    | str n => left; exact ⟨n, rfl, by simp⟩
    | var x =>
      right; left
      refine ⟨x, rfl, ?_⟩
      intro m
      unfold strVar
      cases hv : c.vars x with
      | none => simp [hv]
      | some v => cases v <;> simp [hv]
    | _ => right; right; simp

theorem rootField_ok {c : Ctx} (hs : Sound c.doc) {ok : Node → List (String × Value) → Prop}
    {schema : Option Value} {type : TypeDef → Option Value} (root name : String) (args : Args)
    (hsc : name = "__schema" → ∃ v, schema = some v ∧ IsObject (ok .schema) v)
    (ht : ∀ t, Def.type t ∈ c.doc → ∃ v, type t = some v ∧ IsObject (ok (.type t)) v) :
    ∃ v, rootField c root name args schema type = some v ∧
      ∃ x, OperationTells c.doc c.vars root name args x ∧ Shows ok x v := by
  have hn := hs.wellFormed.distinct
  by_cases h1 : name = "__schema"
  · obtain ⟨v, hv, ho⟩ := hsc h1
    subst h1
    exact ⟨v, hv, _, rfl, ho⟩
  by_cases h2 : name = "__type"
  · subst h2
    show ∃ v, typeNamed c args type = some v ∧ ∃ x, TheType c.doc (GivenName c.vars args) x ∧ Shows ok x v
    cases args with
    | none =>
      refine ⟨.null, rfl, .val .null, .inr ⟨?_, rfl⟩, rfl⟩
      rintro ⟨t, _, h⟩
      simp [GivenName, Args.get] at h
    | some args =>
      rcases given_iff c args with ⟨n, hl, hg⟩ | ⟨x, hl, hg⟩ | ⟨h3, h4, hg⟩
      · obtain ⟨v, hv, r⟩ := theType_ok hn (ok := ok) rfl ht (name := some n) hg
        exact ⟨v, by simp [typeNamed, hl, hv], r⟩
      · obtain ⟨v, hv, r⟩ := theType_ok hn (ok := ok) rfl ht (name := strVar c x) hg
        exact ⟨v, by simp [typeNamed, hl, hv], r⟩
      · refine ⟨.null, ?_, .val .null, .inr ⟨fun ⟨t, _, h⟩ => hg _ h, rfl⟩, rfl⟩
        simp only [typeNamed]
  by_cases h3 : name = "__typename"
  · subst h3; exact ⟨_, rfl, _, rfl, rfl⟩
  refine ⟨.null, by simp [rootField, h1, h2, h3], .val .null, ?_, rfl⟩
  unfold OperationTells
  split <;> simp_all

theorem rootItems_ok {c : Ctx} (hs : Sound c.doc) (hf : c.Fair) (root : String) : ∀ sels,
    DistinctBelow sels → PlainSchema sels →
    ∃ es, rootItems c root sels = some es ∧ es.map (·.1) = respKeys sels ∧
      Answers (Exempt c.doc) c.doc c.vars (.operation root) sels es := by
  refine Sels.ind (fun _ _ => ⟨[], by simp [rootItems], by simp [respKeys], by simp [Answers]⟩) ?_ ?_ ?_
  · rintro f s rest - ihr ⟨⟨hn, hd⟩, hr⟩ ⟨hp, hpr⟩
    obtain ⟨es, he, hk, hr⟩ := ihr hr hpr
    obtain ⟨v, hv, ho⟩ := rootField_ok (schema := asObject (schemaItems c s)) (type := typeAnswer c s)
      (ok := fun m es => Answers (Exempt c.doc) c.doc c.vars m s es) hs root f.name f.args
      (fun h => by
        obtain ⟨es, he, hk, hr⟩ := schemaItems_ok hs hf s hd (hp h)
        exact asObject_ok he (hk ▸ hn) hr)
      (fun t ht => answer_ok hs hf ⟨hn, hd⟩ (.type t) ht)
    exact ⟨_, push_ok hv he, by simp [respKeys, respKey, hk], v, es, rfl, hr, .inr ho⟩
  · rintro g s rest ihs ihr ⟨hd, hr⟩ ⟨hp, hpr⟩
    obtain ⟨es, he, hk, hr⟩ := ihr hr hpr
    obtain ⟨es', he', hk', hr'⟩ := ihs hd hp
    exact ⟨_, extend_ok he' he, by simp [respKeys, respKey, hk, hk'], es', es, rfl, hr', hr⟩
  · rintro n rest ih hd hp
    exact ih hd.2 hp.2

end Verif.Client
