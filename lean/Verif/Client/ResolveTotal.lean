import Verif.Client.ResolveProps
import Verif.Client.Props

/-!
# C102 and C103: introspection answers every operation, and only from what clients see
-/

namespace Verif.Client
open Verif (Value Sel Lit)

/-- Every type that a document mentions is in it. -/
structure Closed (d : Doc) : Prop where
  fields : ∀ t, Def.type t ∈ d → ∀ f ∈ t.fields, Known d f.ty ∧ ∀ a ∈ f.args, Known d a.ty
  inputs : ∀ t, Def.type t ∈ d → ∀ v ∈ t.inputs, Known d v.ty
  directives : ∀ dd, Def.directive dd ∈ d → ∀ a ∈ dd.args, Known d a.ty

/-! ## No panic below the operation -/

theorem each_some {α β : Type} {f : α → Option β} :
    ∀ {xs : List α}, (∀ x ∈ xs, (f x).isSome) → (each f xs).isSome
  | [], _ => rfl
  | x :: xs, h => by
    obtain ⟨y, hy⟩ := Option.isSome_iff_exists.1 (h x (.head _))
    obtain ⟨ys, hys⟩ := Option.isSome_iff_exists.1 (each_some (xs := xs) (fun x hx => h x (.tail _ hx)))
    simp [each, hy, hys]

theorem asArray_some {α : Type} {f : α → Option Value} {xs : List α} (h : ∀ x ∈ xs, (f x).isSome) :
    (asArray f xs).isSome := by
  unfold asArray; rw [Option.isSome_map]; exact each_some h

theorem asObject_some {r : Option (List (String × Value))} (h : r.isSome) : (asObject r).isSome := by
  unfold asObject; rw [Option.isSome_map]; exact h

theorem push_some {k : String} {v : Option Value} {rest : Option (List (String × Value))}
    (hv : v.isSome) (hr : rest.isSome) : (push k v rest).isSome := by
  obtain ⟨v, rfl⟩ := Option.isSome_iff_exists.1 hv
  obtain ⟨r, rfl⟩ := Option.isSome_iff_exists.1 hr
  rfl

theorem extend_some {a b : Option (List (String × Value))} (ha : a.isSome) (hb : b.isSome) :
    (extend a b).isSome := by
  obtain ⟨v, rfl⟩ := Option.isSome_iff_exists.1 ha
  obtain ⟨r, rfl⟩ := Option.isSome_iff_exists.1 hb
  rfl

theorem enumValueField_some (ev : EnumVal) (name : String) : (enumValueField ev name).isSome := by
  unfold enumValueField; repeat' split
  all_goals rfl

mutual
theorem enumValueItems_some (ev : EnumVal) : ∀ sels, (enumValueItems ev sels).isSome
  | [] => rfl
  | s :: rest => enumValueItem_some ev s _ (enumValueItems_some ev rest)
termination_by structural sels => sels

theorem enumValueItem_some (ev : EnumVal) : ∀ s after, after.isSome → (enumValueItem ev s after).isSome
  | .field f _, _, h => push_some (enumValueField_some ev f.name) h
  | .frag _ sels, _, h => extend_some (enumValueItems_some ev sels) h
  | .spread _, _, h => h
termination_by structural s => s
end

theorem typeRef_some {c : Ctx} {type : TypeDef → Option Value} {wrapper : String → Ty → Option Value}
    (ht : ∀ t, Def.type t ∈ c.doc → (type t).isSome)
    (hw : ∀ k t, k = "LIST" ∨ k = "NON_NULL" → Known c.doc t → (wrapper k t).isSome) :
    ∀ t : Ty, Known c.doc t → (typeRef c type wrapper t).isSome
  | .named n, h => by
    obtain ⟨u, hu, hn⟩ := h n rfl
    simp only [typeRef]
    cases hf : typeByName c.doc n with
    | none => exact absurd hn (typeByName_none hf u hu)
    | some t => exact ht t (typeByName_some hf).1
  | .list t, h => hw _ t (.inl rfl) h
  | .nonNull t, h => hw _ t (.inr rfl) h

theorem ite_some {α : Type} {p : Prop} [Decidable p] {a b : Option α} (ha : a.isSome) (hb : b.isSome) :
    (if p then a else b).isSome := by split <;> assumption

theorem typeField_some {c : Ctx} (hc : Closed c.doc) {t : TypeDef} (ht : Def.type t ∈ c.doc)
    {answer : Thing → Option Value} (ha : ∀ y, y.Of c.doc → (answer y).isSome)
    {value : EnumVal → Option Value} (hv : ∀ v, (value v).isSome) (name : String)
    (args : Option (List (String × Lit))) :
    (typeField c t name args (fun t => answer (.type t)) (fun f => answer (.field f)) value
      (fun v => answer (.input v))).isSome := by
  have hfind : ∀ ns : List String, ∀ x ∈ ns.filterMap (typeByName c.doc), (answer (.type x)).isSome := by
    intro ns x hx
    obtain ⟨n, -, hn⟩ := List.mem_filterMap.1 hx
    exact ha (.type x) (typeByName_some hn).1
  have hfld : (fieldsOf c t args (fun f => answer (.field f))).isSome := by
    have := hc.fields t ht
    cases t with
    | object o => exact asArray_some (fun f hf => ha (.field f) (this f (List.mem_filter.1 hf).1))
    | interface o => exact asArray_some (fun f hf => ha (.field f) (this f (List.mem_filter.1 hf).1))
    | _ => rfl
  have hint : (interfacesOf c t (fun t => answer (.type t))).isSome := by
    cases t with
    | object o => exact asArray_some (hfind _)
    | _ => rfl
  have hpos : (possibleTypesOf c t (fun t => answer (.type t))).isSome := by
    cases t with
    | interface o => exact asArray_some (hfind _)
    | union o => exact asArray_some (hfind _)
    | _ => rfl
  have hval : (enumValuesOf c t args value).isSome := by
    cases t with
    | enum o => exact asArray_some (fun v _ => hv v)
    | _ => rfl
  have hinp : (inputFieldsOf t (fun v => answer (.input v))).isSome := by
    have := hc.inputs t ht
    cases t with
    | input o => exact asArray_some (fun f hf => ha (.input f) (this f hf))
    | _ => rfl
  unfold typeField
  refine ite_some rfl (ite_some rfl (ite_some rfl (ite_some rfl (ite_some rfl (ite_some hfld (ite_some hint
    (ite_some hpos (ite_some hval (ite_some hinp (ite_some rfl (ite_some rfl rfl)))))))))))

theorem thingField_some {c : Ctx} (hc : Closed c.doc) {x : Thing} (hx : x.Of c.doc)
    {answer : Thing → Option Value} (ha : ∀ y, y.Of c.doc → (answer y).isSome)
    {value : EnumVal → Option Value} (hv : ∀ v, (value v).isSome) (name : String)
    (args : Option (List (String × Lit))) : (thingField c x name args answer value).isSome := by
  have href : ∀ t, Known c.doc t →
      (typeRef c (fun t => answer (.type t)) (fun k t => answer (.wrapper k t)) t).isSome :=
    typeRef_some (fun t ht => ha (.type t) ht) (fun k t hk ht => ha (.wrapper k t) ⟨hk, ht⟩)
  cases x with
  | type t => exact typeField_some hc hx ha hv name args
  | wrapper k t =>
    have := href t hx.2
    simp only [thingField, wrapperField]
    repeat' split
    all_goals first | rfl | assumption
  | field f =>
    have := href f.ty hx.1
    have : (asArray (fun v => answer (.input v)) f.args).isSome :=
      asArray_some (fun a h => ha (.input a) (hx.2 a h))
    simp only [thingField, fieldField]
    repeat' split
    all_goals first | rfl | assumption
  | input v =>
    have := href v.ty hx
    simp only [thingField, inputValueField]
    repeat' split
    all_goals first | rfl | assumption

mutual
theorem items_some {c : Ctx} (hc : Closed c.doc) : ∀ sels (x : Thing), x.Of c.doc → (items c x sels).isSome
  | [], _, _ => rfl
  | s :: rest, x, hx => item_some hc s x hx _ (items_some hc rest x hx)
termination_by structural sels => sels

theorem item_some {c : Ctx} (hc : Closed c.doc) : ∀ s (x : Thing), x.Of c.doc → ∀ after, after.isSome →
    (item c x s after).isSome
  | .field f sels, _, hx, _, h =>
    push_some (thingField_some hc hx (fun y hy => asObject_some (items_some hc sels y hy))
      (fun v => asObject_some (enumValueItems_some v sels)) f.name f.args) h
  | .frag _ sels, x, hx, _, h => extend_some (items_some hc sels x hx) h
  | .spread _, _, _, _, h => h
termination_by structural s => s
end

theorem typeAnswer_some {c : Ctx} (hc : Closed c.doc) (sels : List Sel) {t : TypeDef}
    (ht : Def.type t ∈ c.doc) : (typeAnswer c sels t).isSome :=
  asObject_some (items_some hc sels (.type t) ht)

mutual
theorem directiveItems_some {c : Ctx} (hc : Closed c.doc) {dd : DirDef} (hd : Def.directive dd ∈ c.doc) :
    ∀ sels, (directiveItems c dd sels).isSome
  | [] => rfl
  | s :: rest => directiveItem_some hc hd s _ (directiveItems_some hc hd rest)
termination_by structural sels => sels

theorem directiveItem_some {c : Ctx} (hc : Closed c.doc) {dd : DirDef} (hd : Def.directive dd ∈ c.doc) :
    ∀ s after, after.isSome → (directiveItem c dd s after).isSome
  | .field f sels, _, h => by
    refine push_some ?_ h
    have : (asArray (inputAnswer c sels) dd.args).isSome :=
      asArray_some (fun a ha => asObject_some (items_some hc sels (.input a) (hc.directives dd hd a ha)))
    unfold directiveField
    repeat' split
    all_goals first | rfl | assumption
  | .frag _ sels, _, h => extend_some (directiveItems_some hc hd sels) h
  | .spread _, _, h => h
termination_by structural s => s
end

theorem rootType_some {c : Ctx} (hc : Closed c.doc) (sels : List Sel) (n : Option String) :
    (rootType c n (typeAnswer c sels)).isSome := by
  unfold rootType
  cases h : n.bind (typeByName c.doc) with
  | none => rfl
  | some t =>
    obtain ⟨n, -, hn⟩ := Option.bind_eq_some_iff.1 h
    exact typeAnswer_some hc sels (typeByName_some hn).1

/-- There is a query type. -/
def HasQuery (d : Doc) : Prop := ∃ t, Def.type t ∈ d ∧ queryTypeName d = some t.name

theorem schemaItems_some {c : Ctx} (hc : Closed c.doc) (hq : HasQuery c.doc) :
    ∀ sels, (schemaItems c sels).isSome
  | [] => rfl
  | .field f sels :: rest => by
    refine push_some ?_ (schemaItems_some hc hq rest)
    have h1 : (asArray (typeAnswer c sels)
        ((c.order (keys (typeNames c.doc))).filterMap (lastByName c.doc))).isSome := by
      refine asArray_some (fun t ht => ?_)
      obtain ⟨n, -, hn⟩ := List.mem_filterMap.1 ht
      exact typeAnswer_some hc sels (List.mem_reverse.1 (typeByName_some hn).1)
    have h2 : ∃ t, (queryTypeName c.doc).bind (typeByName c.doc) = some t ∧ Def.type t ∈ c.doc := by
      obtain ⟨t, ht, hn⟩ := hq
      rw [hn]
      cases hf : typeByName c.doc t.name with
      | none => exact absurd rfl (typeByName_none hf t ht)
      | some u => exact ⟨u, hf, (typeByName_some hf).1⟩
    obtain ⟨t, h2, ht⟩ := h2
    have h2' := typeAnswer_some hc sels ht
    have h3 := rootType_some hc sels (mutationTypeName c.doc)
    have h4 := rootType_some hc sels (subscriptionTypeName c.doc)
    have h5 : (asArray (fun d => asObject (directiveItems c d sels)) (directivesOf c.doc)).isSome :=
      asArray_some (fun dd hd => asObject_some (directiveItems_some hc (mem_directivesOf.1 hd) sels))
    unfold schemaField
    rw [h2]
    repeat' split
    all_goals first | rfl | assumption | skip
    · rename_i he; cases he; exact h2'
    · rename_i he; cases he
  | .frag _ _ :: rest => schemaItems_some hc hq rest
  | .spread _ :: rest => schemaItems_some hc hq rest

mutual
theorem rootItems_some {c : Ctx} (hc : Closed c.doc) (hq : HasQuery c.doc) (root : String) :
    ∀ sels, (rootItems c root sels).isSome
  | [] => rfl
  | s :: rest => rootItem_some hc hq root s _ (rootItems_some hc hq root rest)
termination_by structural sels => sels

theorem rootItem_some {c : Ctx} (hc : Closed c.doc) (hq : HasQuery c.doc) (root : String) :
    ∀ s after, after.isSome → (rootItem c root s after).isSome
  | .field f sels, _, h => by
    refine push_some ?_ h
    have h1 := asObject_some (schemaItems_some hc hq sels)
    have h2 : (typeNamed c f.args (typeAnswer c sels)).isSome := by
      unfold typeNamed
      repeat' split
      all_goals first | rfl | exact rootType_some hc sels _
    unfold rootField
    repeat' split
    all_goals first | rfl | assumption
  | .frag _ sels, _, h => extend_some (rootItems_some hc hq root sels) h
  | .spread _, _, h => h
termination_by structural s => s
end

theorem resolve_some {c : Ctx} (hc : Closed c.doc) (hq : HasQuery c.doc) (kind : OpKind)
    (hk : (rootName c.doc kind).isSome) (sels : List Sel) : (resolve c kind sels).isSome := by
  obtain ⟨r, hr⟩ := Option.isSome_iff_exists.1 hk
  unfold resolve
  rw [hr]
  exact asObject_some (rootItems_some hc hq r sels)

/-! ## The schema of clients -/

/-- What a type is made of is for clients. -/
def Offered (d : Doc) (t : Ty) : Prop :=
  ∀ n, t.Names n → (∃ u, Shown d u ∧ u.name = n) ∨ n ∈ introspectionTypes

/-- Every type that clients may learn of from a supergraph is there for them: composition sees to it. -/
structure Complete (d : Doc) : Prop where
  fields : ∀ t, Shown d t → ∀ f ∈ t.fields, ¬ Hidden f.dirs → Offered d f.ty ∧
    ∀ a ∈ f.args, ¬ Hidden a.dirs → Offered d a.ty
  inputs : ∀ t, Shown d t → ∀ v ∈ t.inputs, ¬ Hidden v.dirs → Offered d v.ty
  directives : ∀ dd, Def.directive dd ∈ d → dd.name ∉ federationDirectives →
    ∀ a ∈ dd.args, ¬ Hidden a.dirs → Offered d a.ty

theorem known_client {d c : Doc} {q : String} (h : Composed d q) (hc : create introspection d = some c)
    {t : Ty} (ht : Offered d t) : Known c t := by
  intro n hn
  rcases ht n hn with ⟨u, hu, rfl⟩ | hi
  · exact ⟨_, (mem_client h hc).2 (.inl ⟨u, hu, rfl⟩), by rw [withFieldsT_name, seenType_name]⟩
  · obtain ⟨u, hu, he⟩ := intro_has hi
    exact ⟨u, (mem_client h hc).2 (.inr hu), he⟩

theorem known_intro {d c : Doc} {q : String} (h : Composed d q) (hc : create introspection d = some c)
    {t : Ty} (ht : t.typeName ∈ introspectionTypes) : Known c t := by
  refine known_client h hc (fun n hn => .inr ?_)
  rw [names_iff] at hn
  exact hn ▸ ht

def introTypes : List TypeDef := typesOf (introBefore ++ introAfter)

theorem client_closed {d c : Doc} {q : String} (h : Composed d q) (hd : Complete d)
    (hc : create introspection d = some c) : Closed c where
  fields := by
    intro t ht f hf
    rcases (mem_client h hc).1 ht with ⟨u, hu, rfl⟩ | hi
    · by_cases hfi : f ∈ introFields
      · have hk : ∀ f ∈ introFields, f.ty.typeName ∈ introspectionTypes ∧
            ∀ a ∈ f.args, a.ty.typeName ∈ introspectionTypes := by decide +kernel
        exact ⟨known_intro h hc (hk f hfi).1, fun a ha => known_intro h hc ((hk f hfi).2 a ha)⟩
      · rw [fields_withFieldsT hfi, fields_seenType] at hf
        obtain ⟨g, hg, rfl⟩ := List.mem_map.1 hf
        obtain ⟨hg, hv⟩ := List.mem_filter.1 hg
        have hv : ¬ Hidden g.dirs := by simpa using hv
        obtain ⟨h1, h2⟩ := hd.fields u hu g hg hv
        refine ⟨known_client h hc h1, fun a ha => ?_⟩
        obtain ⟨b, hb, rfl⟩ := List.mem_map.1 (show a ∈ seenInputs g.args from ha)
        obtain ⟨hb, hv⟩ := List.mem_filter.1 hb
        exact known_client h hc (h2 b hb (by simpa using hv))
    · have hk : ∀ t ∈ introTypes, ∀ f ∈ t.fields, f.ty.typeName ∈ introspectionTypes ∧
          ∀ a ∈ f.args, a.ty.typeName ∈ introspectionTypes := by decide +kernel
      have := hk t (mem_typesOf.2 hi) f hf
      exact ⟨known_intro h hc this.1, fun a ha => known_intro h hc (this.2 a ha)⟩
  inputs := by
    intro t ht v hv
    rcases (mem_client h hc).1 ht with ⟨u, hu, rfl⟩ | hi
    · rw [inputs_seenType] at hv
      obtain ⟨b, hb, rfl⟩ := List.mem_map.1 (show v ∈ seenInputs u.inputs from hv)
      obtain ⟨hb, hn⟩ := List.mem_filter.1 hb
      exact known_client h hc (hd.inputs u hu b hb (by simpa using hn))
    · have hk : ∀ t ∈ introTypes, ∀ v ∈ t.inputs, v.ty.typeName ∈ introspectionTypes := by decide +kernel
      exact known_intro h hc (hk t (mem_typesOf.2 hi) v hv)
  directives := by
    intro dd hdd a ha
    have hc' := hc
    rw [create_eq d q h] at hc'
    cases hc'
    rw [List.append_assoc, List.mem_append] at hdd
    rcases hdd with hdd | hi
    · obtain ⟨x, hx, hxd⟩ := List.mem_map.1 hdd
      cases x with
      | schema s => cases hxd
      | type t => rw [withFields_type] at hxd; cases hxd
      | directive e =>
        cases hxd
        obtain ⟨y, hy, hye⟩ := List.mem_filterMap.1 hx
        cases y with
        | schema s => cases hye
        | type t => simp only [seenDef] at hye; split at hye <;> cases hye
        | directive e =>
          simp only [seenDef] at hye
          split at hye
          · cases hye
          · rename_i hf
            cases hye
            obtain ⟨b, hb, rfl⟩ := List.mem_map.1 (show a ∈ seenInputs e.args from ha)
            obtain ⟨hb, hn⟩ := List.mem_filter.1 hb
            exact known_client h hc (hd.directives e hy hf b hb (by simpa using hn))
    · have hk : ∀ dd ∈ directivesOf (introBefore ++ introAfter), ∀ a ∈ dd.args,
          a.ty.typeName ∈ introspectionTypes := by decide +kernel
      exact known_intro h hc (hk dd (mem_directivesOf.2 hi) a ha)

theorem pickOf_withFields (pick : SchemaDef → Option String) (q : String) (fs : List Fld) (x : Def) :
    pickOf pick (withFields q fs x) = pickOf pick x := by
  cases x with
  | type t => cases t with
    | object o => simp only [withFields]; split <;> rfl
    | _ => rfl
  | _ => rfl

theorem isObjNamed_withFields (n q : String) (fs : List Fld) (x : Def) :
    isObjNamed n (withFields q fs x) = isObjNamed n x := by
  cases x with
  | type t => cases t with
    | object o => simp only [withFields]; split <;> rfl
    | _ => rfl
  | _ => rfl

/-- The root types of the client's schema are those of what clients see. -/
theorem root_client {d c : Doc} {q : String} (h : Composed d q) (hc : create introspection d = some c)
    (usual : String) (hu : (introBefore ++ introAfter).any (isObjNamed usual) = false)
    (pick : SchemaDef → Option String) : rootLoop usual pick none c = rootLoop usual pick none (seen d) := by
  rw [create_eq d q h] at hc
  cases hc
  have h1 : ∀ l : Doc, (l.map (withFields q introFields)).findSome? (pickOf pick) = l.findSome? (pickOf pick) := by
    intro l
    induction l with
    | nil => rfl
    | cons x l ih => simp only [List.map_cons, List.findSome?_cons, pickOf_withFields, ih]
  have h2 : ∀ l : Doc, (l.map (withFields q introFields)).any (isObjNamed usual) = l.any (isObjNamed usual) := by
    intro l
    induction l with
    | nil => rfl
    | cons x l ih => simp only [List.map_cons, List.any_cons, isObjNamed_withFields, ih]
  have h3 : (introBefore ++ introAfter).findSome? (pickOf pick) = none := by
    rw [List.findSome?_eq_none_iff]
    intro x hx
    have : ∀ x ∈ introBefore ++ introAfter, (match x with | .schema _ => false | _ => true) = true := by
      decide +kernel
    have := this x hx
    cases x with
    | schema s => cases this
    | _ => rfl
  rw [rootLoop_eq, rootLoop_eq, List.append_assoc, List.findSome?_append, List.any_append, h1, h2, h3, hu]
  simp

theorem client_query {d c : Doc} {q : String} (h : Composed d q) (hc : create introspection d = some c) :
    queryTypeName c = some q := by
  rw [← query_seen d q h]
  exact root_client h hc "Query" (by decide +kernel) _

/-- **C102.** Of a supergraph whose types are all there, every introspection is answered: for all
selections, values of variables and orders of hash tables, for queries and for the other operations that
the schema has. -/
theorem C102_answered {d : Doc} {q : String} (h : Composed d q) (hd : Complete d) :
    ∃ client, create introspection d = some client ∧
      ∀ (vars : String → Option Value) (order : List String → List String) (kind : OpKind) (sels : List Sel),
        kind = .query ∨ (rootName client kind).isSome →
          ∃ v, resolve { doc := client, vars := vars, order := order } kind sels = some v := by
  obtain ⟨c, hc⟩ := C93_made h
  refine ⟨c, hc, ?_⟩
  intro vars order kind sels hk
  have hq := client_query h hc
  refine Option.isSome_iff_exists.1 (resolve_some (c := ⟨c, vars, order⟩) (client_closed h hd hc) ?_ kind ?_ sels)
  · obtain ⟨o, ho, hn, -⟩ := h.queryType
    refine ⟨_, (mem_client h hc).2 (.inl ⟨_, ho, rfl⟩), ?_⟩
    rw [withFieldsT_name, seenType_name, hq]
    exact congrArg some hn.symm
  · rcases hk with rfl | hk
    · exact (congrArg Option.isSome hq).trans rfl
    · exact hk

/-! ## What is hidden -/

/-- **C103.** Two supergraphs of which clients see the same get the same answers to every introspection:
nothing that is marked inaccessible or is there for federation shows in any of them. -/
theorem C103_only_seen {d e : Doc} {q : String} (hd : Composed d q) (he : Composed e q)
    (same : seen d = seen e) :
    ∃ a b, create introspection d = some a ∧ create introspection e = some b ∧
      ∀ vars order kind sels,
        resolve { doc := a, vars := vars, order := order } kind sels =
          resolve { doc := b, vars := vars, order := order } kind sels :=
  ⟨_, _, create_eq d q hd, by rw [create_eq e q he, same], fun _ _ _ _ => rfl⟩

theorem seen_append (a b : Doc) : seen (a ++ b) = seen a ++ seen b := List.filterMap_append

/-- **C103.** A type that is marked inaccessible shows in no answer. -/
theorem C103_hidden_type {pre post : Doc} {t : TypeDef} {q : String} (ht : Hidden t.dirs)
    (hd : Composed (pre ++ .type t :: post) q) (he : Composed (pre ++ post) q) :
    ∃ a b, create introspection (pre ++ .type t :: post) = some a ∧
      create introspection (pre ++ post) = some b ∧
      ∀ vars order kind sels,
        resolve { doc := a, vars := vars, order := order } kind sels =
          resolve { doc := b, vars := vars, order := order } kind sels := by
  refine C103_only_seen hd he ?_
  rw [seen_append, seen_append]
  congr 1
  unfold seen
  rw [List.filterMap_cons]
  simp only [seenDef]
  rw [if_pos (.inl ht)]

/-- **C103.** A field that is marked inaccessible shows in no answer. -/
theorem C103_hidden_field {pre post : Doc} {o : Obj} {fs gs : List Fld} {f : Fld} {q : String}
    (hf : Hidden f.dirs)
    (hd : Composed (pre ++ .type (.object { o with fields := fs ++ f :: gs }) :: post) q)
    (he : Composed (pre ++ .type (.object { o with fields := fs ++ gs }) :: post) q) :
    ∃ a b, create introspection (pre ++ .type (.object { o with fields := fs ++ f :: gs }) :: post) = some a ∧
      create introspection (pre ++ .type (.object { o with fields := fs ++ gs }) :: post) = some b ∧
      ∀ vars order kind sels,
        resolve { doc := a, vars := vars, order := order } kind sels =
          resolve { doc := b, vars := vars, order := order } kind sels := by
  refine C103_only_seen hd he ?_
  rw [seen_append, seen_append]
  congr 1
  unfold seen
  have : seenFields (fs ++ f :: gs) = seenFields (fs ++ gs) := by
    simp [seenFields, hf]
  have : seenDef (.type (.object { o with fields := fs ++ f :: gs })) =
      seenDef (.type (.object { o with fields := fs ++ gs })) := by
    simp only [seenDef, seenType, seenObj, this]
    rfl
  rw [List.filterMap_cons, List.filterMap_cons, this]

/-! ## A supergraph -/

def shownNames (d : Doc) : List String :=
  ((typesOf d).filter (fun t => ¬ Hidden t.dirs ∧ t.name ∉ federationTypes)).map (·.name)

theorem offered_of {d : Doc} {t : Ty} (h : t.typeName ∈ shownNames d ∨ t.typeName ∈ introspectionTypes) :
    Offered d t := by
  intro n hn
  rw [names_iff] at hn
  subst hn
  refine h.imp ?_ id
  intro h
  obtain ⟨u, hu, he⟩ := List.mem_map.1 h
  obtain ⟨hu, hs⟩ := List.mem_filter.1 hu
  have hs : ¬ Hidden u.dirs ∧ u.name ∉ federationTypes := by simpa using hs
  exact ⟨u, ⟨mem_typesOf.1 hu, hs⟩, he⟩

def offered (d : Doc) (t : Ty) : Bool := decide (t.typeName ∈ shownNames d ∨ t.typeName ∈ introspectionTypes)

theorem complete_of {d : Doc}
    (h1 : ∀ t ∈ typesOf d, ∀ f ∈ t.fields, ¬ Hidden f.dirs → offered d f.ty = true ∧
      ∀ a ∈ f.args, ¬ Hidden a.dirs → offered d a.ty = true)
    (h2 : ∀ t ∈ typesOf d, ∀ v ∈ t.inputs, ¬ Hidden v.dirs → offered d v.ty = true)
    (h3 : ∀ dd ∈ directivesOf d, dd.name ∉ federationDirectives →
      ∀ a ∈ dd.args, ¬ Hidden a.dirs → offered d a.ty = true) : Complete d where
  fields t ht f hf hv :=
    have := h1 t (mem_typesOf.2 ht.1) f hf hv
    ⟨offered_of (of_decide_eq_true this.1), fun a ha hn => offered_of (of_decide_eq_true (this.2 a ha hn))⟩
  inputs t ht v hv hn := offered_of (of_decide_eq_true (h2 t (mem_typesOf.2 ht.1) v hv hn))
  directives dd hd hf a ha hn := offered_of (of_decide_eq_true (h3 dd (mem_directivesOf.2 hd) hf a ha hn))

/-- The supergraph of `C93` is complete. -/
theorem sample_complete : Complete sample := by
  refine complete_of ?_ ?_ ?_ <;> decide +kernel

/-- `C102_answered` is about it: the names of its types, which a client asks for. -/
example : ∃ client v, create introspection sample = some client ∧
    resolve { doc := client, vars := fun _ => none, order := id } .query
      [ask "__schema" [ask "types" [ask "name"]]] = some v := by
  obtain ⟨c, hc, h⟩ := C102_answered sample_composed sample_complete
  obtain ⟨v, hv⟩ := h (fun _ => none) id .query [ask "__schema" [ask "types" [ask "name"]]] (.inl rfl)
  exact ⟨c, v, hc, hv⟩

theorem composed_of {d : Doc} {q : String} {o : Obj} {f : Fld} (h1 : (typeNames d).Nodup)
    (h2 : queryTypeName d = some q) (h3 : o.name = q) (h4 : f ∈ o.fields) (h5 : ¬ Hidden f.dirs)
    (h6 : Def.type (.object o) ∈ d) (h7 : ¬ Hidden o.dirs) (h8 : q ∉ federationTypes)
    (h9 : ∀ t ∈ typesOf d, t.name ∉ introspectionTypes)
    (h10 : ∀ t ∈ typesOf d, t.fields = [] ∨ ∃ f ∈ t.fields, ¬ Hidden f.dirs) : Composed d q where
  distinct := h1
  queryName := h2
  queryType := ⟨o, ⟨h6, h7, by subst h3; exact h8⟩, h3, f, h4, h5⟩
  own t ht := h9 t (mem_typesOf.2 ht.1)
  notEmpty t ht hn := (h10 t (mem_typesOf.2 ht.1)).resolve_left hn

/-- `C103_hidden_type` is about it and the type `Log`. -/
example : Hidden (TypeDef.object { name := "Log", dirs := [inaccessible], fields := [{ name := "text", ty := .named "String" }] }).dirs ∧
    sample = sample.take 5 ++ .type (.object { name := "Log", dirs := [inaccessible], fields := [{ name := "text", ty := .named "String" }] }) :: sample.drop 6 ∧
    Composed (sample.take 5 ++ sample.drop 6) "Root" := by
  refine ⟨by decide +kernel, by decide +kernel, ?_⟩
  exact composed_of (o := { name := "Root", dirs := [joinType "A"], fields := [
      { name := "user", ty := .named "User", args := [
        { name := "id", ty := .nonNull (.named "ID") },
        { name := "trace", ty := .named "Boolean", dirs := [inaccessible] }] },
      { name := "debug", ty := .named "Log", dirs := [inaccessible] }] })
    (by decide +kernel) (by decide +kernel) rfl (.head _) (by decide +kernel) (by decide +kernel)
    (by decide +kernel) (by decide +kernel) (by decide +kernel) (by decide +kernel)

/-- A small supergraph, with a field that clients do not see and without it. -/
def withField (fs : List Fld) : Doc :=
  [] ++ .type (.object { name := "Query", fields := [{ name := "a", ty := .named "Int" }] ++ fs }) :: []

/-- `C103_hidden_field` is about them. -/
example : Composed (withField ({ name := "b", ty := .named "Int", dirs := [inaccessible] } :: [])) "Query" ∧
    Composed (withField []) "Query" := by
  constructor
  · exact composed_of (by decide +kernel) (by decide +kernel) (o := { name := "Query", fields := [{ name := "a", ty := .named "Int" }, { name := "b", ty := .named "Int", dirs := [inaccessible] }] }) rfl (.head _) (by decide +kernel) (by decide +kernel)
      (by decide +kernel) (by decide +kernel) (by decide +kernel) (by decide +kernel)
  · exact composed_of (by decide +kernel) (by decide +kernel) (o := { name := "Query", fields := [{ name := "a", ty := .named "Int" }] }) rfl (.head _) (by decide +kernel) (by decide +kernel)
      (by decide +kernel) (by decide +kernel) (by decide +kernel) (by decide +kernel)

end Verif.Client
