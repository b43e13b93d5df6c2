import Verif.Client.ResolveProps

/-!
# C101: where introspection does not say what the schema says
-/

namespace Verif.Client
open Verif (Value Sel Lit SortedKeys)

/-- If one field is asked for, the object has one entry. -/
theorem one_field {d : Doc} {vars : String → Option Value} {n : Node} {f : Verif.FieldInfo} {sels : List Sel}
    {v : Value} (h : IsObject (Answers nothing d vars n [.field f sels]) v) :
    ∃ w x, v = .obj [(f.key, w)] ∧ Tells d vars n f.name f.args x ∧
      Shows (fun m es => Answers nothing d vars m sels es) x w := by
  obtain ⟨fs, es, rfl, -, hp, w, es', rfl, he, h⟩ := h
  cases (show es' = [] from he)
  cases List.perm_singleton.1 hp
  rcases h with h | ⟨x, hx, hs⟩
  · exact h.elim
  · exact ⟨w, x, rfl, hx, hs⟩

/-- `__type` is about the type that it names. -/
theorem about_type {d : Doc} {vars : String → Option Value} {n : String} {sels : List Sel} {v : Value}
    (hn : n ∈ typeNames d)
    (h : IsObject (Answers nothing d vars (.operation "Query") [askType n sels]) v) :
    ∃ w t, v = .obj [("__type", w)] ∧ t ∈ typesOf d ∧ t.name = n ∧
      IsObject (Answers nothing d vars (.type t) sels) w := by
  obtain ⟨w, x, rfl, ht, hs⟩ := one_field h
  rcases (show TheType d (GivenName vars (some [("name", .str n)])) x from ht) with
    ⟨t, hm, hg, rfl⟩ | ⟨hno, -⟩
  · refine ⟨w, t, rfl, mem_typesOf.2 hm, ?_, hs⟩
    rcases hg with hg | ⟨y, hg, -⟩
    · exact (Lit.str.inj (Option.some.inj (show some (Lit.str n) = some (.str t.name) from hg))).symm
    · cases (show some (Lit.str n) = some (.var y) from hg)
  · obtain ⟨t, hm, rfl⟩ := mem_typeNames.1 hn
    exact (hno ⟨t, hm, .inl rfl⟩).elim

/-- **C101** fails for the interfaces of an interface: `{ __type(name: "Named") { interfaces { name } } }`
answers null, although `interface Named implements Node`. -/
theorem C101_interfaces_refuted :
    ∃ v, resolve shopCtx .query [askType "Named" [ask "interfaces" [ask "name"]]] = some v ∧
      ¬ IsObject (Answers nothing shop shopCtx.vars (.operation "Query")
        [askType "Named" [ask "interfaces" [ask "name"]]]) v := by
  refine ⟨.obj [("__type", .obj [("interfaces", .null)])], rfl, ?_⟩
  intro h
  obtain ⟨w, t, hv, ht, hn, h⟩ := about_type (by decide +kernel) h
  cases hv
  obtain ⟨w, x, hv, hx, hs⟩ := one_field h
  cases hv
  have hk : t.kind = "INTERFACE" :=
    (show ∀ t ∈ typesOf shop, t.name = "Named" → t.kind = "INTERFACE" by decide +kernel) t ht hn
  have hx : if t.kind = "OBJECT" ∨ t.kind = "INTERFACE" then
      ∃ ts : List TypeDef, x = .nodes (ts.map .type) ∧ ts.map (·.name) = t.impls ∧
        ∀ i ∈ ts, Def.type i ∈ shop
    else x = .val .null := hx
  rw [if_pos (.inr hk)] at hx
  obtain ⟨ts, rfl, -⟩ := hx
  obtain ⟨vs, hv, -⟩ := hs
  cases hv

/-- **C101** fails for the types of an interface: `{ __type(name: "Node") { possibleTypes { name } } }`
answers with the interface `Named` among them. -/
theorem C101_possibleTypes_refuted :
    ∃ v, resolve shopCtx .query [askType "Node" [ask "possibleTypes" [ask "kind"]]] = some v ∧
      ¬ IsObject (Answers nothing shop shopCtx.vars (.operation "Query")
        [askType "Node" [ask "possibleTypes" [ask "kind"]]]) v := by
  refine ⟨.obj [("__type", .obj [("possibleTypes", .arr [.obj [("kind", .str "INTERFACE")]])])], rfl, ?_⟩
  intro h
  obtain ⟨w, t, hv, ht, hn, h⟩ := about_type (by decide +kernel) h
  cases hv
  obtain ⟨w, x, hv, hx, hs⟩ := one_field h
  cases hv
  have hk : t.kind = "INTERFACE" :=
    (show ∀ t ∈ typesOf shop, t.name = "Node" → t.kind = "INTERFACE" by decide +kernel) t ht hn
  have hx : if t.kind = "INTERFACE" ∨ t.kind = "UNION" then
      AllThat (fun n => ∃ o : Obj, Def.type (.object o) ∈ shop ∧ IsA shop o t.name ∧
        n = .type (.object o)) x
    else x = .val .null := hx
  rw [if_pos (.inl hk)] at hx
  obtain ⟨ns, rfl, -, hns⟩ := hx
  obtain ⟨vs, hv, hs⟩ := hs
  cases hv
  cases ns with
  | nil => cases hs
  | cons n ns =>
    obtain ⟨y, ys, hv, hy, -⟩ := hs
    cases hv
    obtain ⟨o, -, -, rfl⟩ := (hns n).1 (.head _)
    obtain ⟨w, x, hv, hx, hs⟩ := one_field hy
    cases hv
    cases (show x = .val (.str "OBJECT") from hx)
    exact absurd (show Value.str "INTERFACE" = .str "OBJECT" from hs) (by simp)

/-- The answer about the only field of `Item`. -/
theorem one_item {sel : Sel} {w : Value}
    (h : IsObject (Answers nothing shop shopCtx.vars (.operation "Query")
      [askType "Item" [ask "fields" [sel] (some [("includeDeprecated", .bool true)])]])
      (.obj [("__type", .obj [("fields", .arr [w])])])) :
    ∃ f : Fld, f.dirs = [old] ∧ f.args.map (·.dirs) = [[old]] ∧
      IsObject (Answers nothing shop shopCtx.vars (.field f) [sel]) w := by
  obtain ⟨w, t, hv, ht, hn, h⟩ := about_type (by decide +kernel) h
  cases hv
  obtain ⟨w, x, hv, hx, hs⟩ := one_field h
  cases hv
  have hk : t.kind = "OBJECT" ∧ ∀ f ∈ t.fields, f.dirs = [old] ∧ f.args.map (·.dirs) = [[old]] :=
    (show ∀ t ∈ typesOf shop, t.name = "Item" → t.kind = "OBJECT" ∧
      ∀ f ∈ t.fields, f.dirs = [old] ∧ f.args.map (·.dirs) = [[old]] by decide +kernel) t ht hn
  replace hx : if t.kind = "OBJECT" ∨ t.kind = "INTERFACE" then
      Listed (fun f : Fld => ¬ ['_', '_'] <+: f.name.toList ∧ Current shopCtx.vars _ f.dirs) .field t.fields x
    else x = .val .null := hx
  rw [if_pos (.inl hk.1)] at hx
  obtain ⟨fs, hkept, rfl⟩ := hx
  obtain ⟨vs, hv, hs⟩ := hs
  cases hv
  have hsub : ∀ f ∈ fs, f ∈ t.fields := by
    clear hs hk hn ht
    generalize t.fields = l at hkept
    induction hkept with
    | nil => intro f hf; exact hf
    | keep _ _ ih =>
      intro f hf
      rcases List.mem_cons.1 hf with rfl | hf
      · exact .head _
      · exact .tail _ (ih f hf)
    | drop _ _ ih => intro f hf; exact .tail _ (ih f hf)
  cases fs with
  | nil => cases hs
  | cons f fs =>
    obtain ⟨y, ys, hv, hy, -⟩ := hs
    cases hv
    exact ⟨f, (hk.2 f (hsub f (.head _))).1, (hk.2 f (hsub f (.head _))).2, hy⟩

/-- **C101** fails for deprecations without a reason: the reason is null and not the default of the
directive. -/
theorem C101_reason_refuted :
    ∃ v, resolve shopCtx .query [askType "Item" [ask "fields" [ask "deprecationReason"]
        (some [("includeDeprecated", .bool true)])]] = some v ∧
      ¬ IsObject (Answers nothing shop shopCtx.vars (.operation "Query")
        [askType "Item" [ask "fields" [ask "deprecationReason"]
          (some [("includeDeprecated", .bool true)])]]) v := by
  refine ⟨.obj [("__type", .obj [("fields", .arr [.obj [("deprecationReason", .null)]])])], rfl, ?_⟩
  intro h
  obtain ⟨f, hd, -, h⟩ := one_item h
  obtain ⟨w, x, hv, hx, hs⟩ := one_field h
  cases hv
  cases (show x = .val (text (reason f.dirs)) from hx)
  rw [hd] at hs
  cases hs

/-- **C101** fails for deprecated arguments: they are told although `includeDeprecated` is not given. -/
theorem C101_args_refuted :
    ∃ v, resolve shopCtx .query [askType "Item" [ask "fields" [ask "args" [ask "name"]]
        (some [("includeDeprecated", .bool true)])]] = some v ∧
      ¬ IsObject (Answers nothing shop shopCtx.vars (.operation "Query")
        [askType "Item" [ask "fields" [ask "args" [ask "name"]]
          (some [("includeDeprecated", .bool true)])]]) v := by
  refine ⟨.obj [("__type", .obj [("fields", .arr [.obj [("args", .arr [.obj [("name", .str "at")]])]])])],
    rfl, ?_⟩
  intro h
  obtain ⟨f, -, hd, h⟩ := one_item h
  obtain ⟨w, x, hv, hx, hs⟩ := one_field h
  cases hv
  obtain ⟨ys, hk, rfl⟩ := (show Listed (fun v : InVal => Current shopCtx.vars none v.dirs) .input f.args x from hx)
  obtain ⟨vs, hv, hs⟩ := hs
  cases hv
  have hold : ∀ v ∈ f.args, v.dirs = [old] := by
    intro v hv
    have := List.mem_map_of_mem (f := InVal.dirs) hv
    rw [hd] at this
    exact List.mem_singleton.1 this
  have hys : ys = [] := by
    clear hs hd hx
    generalize f.args = l at hk hold
    induction hk with
    | nil => rfl
    | keep hp _ _ =>
      rcases hp with (h | ⟨y, h, -⟩) | h
      · cases h
      · cases h
      · exact (h ⟨old, by rw [hold _ (.head _)]; exact .head _, rfl⟩).elim
    | drop _ _ ih => exact ih (fun v hv => hold v (.tail _ hv))
  subst hys
  cases hs

/-- With a variable that is true. -/
def yesCtx : Ctx := { shopCtx with vars := fun n => if n = "yes" then some (.bool true) else none }

/-- **C101** fails for inline fragments directly under `__schema`: they are ignored. Normalization leaves
fragments that have a condition: `{ __schema { ... @include(if: $yes) { __typename } } }`. -/
theorem C101_fragments_refuted :
    ∃ v, resolve yesCtx .query
        [ask "__schema" [.frag { cond := "__Schema", includeIf := some "yes" } [ask "__typename"]]] = some v ∧
      ¬ IsObject (Answers nothing shop yesCtx.vars (.operation "Query")
        [ask "__schema" [.frag { cond := "__Schema", includeIf := some "yes" } [ask "__typename"]]]) v := by
  refine ⟨.obj [("__schema", .obj [])], rfl, ?_⟩
  intro h
  obtain ⟨w, x, hv, hx, hs⟩ := one_field h
  cases hv
  cases (show x = .node .schema from hx)
  obtain ⟨fs, es, hv, -, hp, a, b, rfl, ⟨w, es', rfl, -⟩, -⟩ := hs
  cases hv
  cases List.nil_perm.1 hp

/-- **C101** fails for root types that the schema definition does not name: `schema { query: Query }`
has no mutation type, but an object of the name `Mutation` is told to be it. -/
theorem C101_mutation_refuted :
    ∃ v, resolve shopCtx .query [ask "__schema" [ask "mutationType" [ask "name"]]] = some v ∧
      ¬ IsObject (Answers nothing shop shopCtx.vars (.operation "Query")
        [ask "__schema" [ask "mutationType" [ask "name"]]]) v := by
  refine ⟨.obj [("__schema", .obj [("mutationType", .obj [("name", .str "Mutation")])])], rfl, ?_⟩
  intro h
  obtain ⟨w, x, hv, hx, hs⟩ := one_field h
  cases hv
  cases (show x = .node .schema from hx)
  obtain ⟨w, x, hv, hx, hs⟩ := one_field hs
  cases hv
  rcases (show TheType shop (RootIs shop "Mutation" (·.mutation)) x from hx) with ⟨t, -, hr, -⟩ | ⟨-, rfl⟩
  · rcases hr with ⟨s, hs, hm⟩ | ⟨hno, -⟩
    · have := mem_schemasOf.2 hs
      have := List.mem_singleton.1 (show s ∈ [{ query := some "Query" }] from this)
      subst this
      cases hm
    · exact hno { query := some "Query" } (.head _)
  · cases hs

/-- **C101** fails for fields that are asked for in two places, as in
`{ __type(name: "Query") { fields { name } ... @include(if: $yes) { fields { isDeprecated } } } }`: they give
two entries of the same key, each with only its own selections, and not one with both. -/
theorem C101_merge_refuted :
    resolve yesCtx .query
        [askType "Query" [ask "fields" [ask "name"],
          .frag { cond := "__Type", includeIf := some "yes" } [ask "fields" [ask "isDeprecated"]]]] =
      some (.obj [("__type", .obj [("fields", .arr [.obj [("name", .str "items")]]),
        ("fields", .arr [.obj [("isDeprecated", .bool false)]])])]) :=
  rfl

end Verif.Client
