import Verif.Walker.Examples
import Verif.Walker.Asked
import Verif.Walker.Local

/-!
# What the planner's search guarantees

* **C52**: every group of paths found for a leaf of an operation resolves that leaf;
* **C53**: the search ends, without panics or failed lookups;
* **C54**: what can be resolved is found — refuted;
* **C55**: the graph of moves says what the supergraph says;
* **C56**: subgraphs are only asked for fields that they may be asked for in this request.
-/

namespace Verif.Walker

open Verif.Graph
open Verif.Overrides (Context Label)

/-! ## C52 -/

/-- **C52**, for supergraphs without interface objects (which are missing). The planner gives, for every
selection of the operation, groups of paths that match the selection's leaves: each path of a group is a way
from the root to the leaf along moves of the graph that the request may use, with all that the moves need,
and the paths of a group have equal costs. A fragment is replaced by `__typename` only where a subgraph on
the way cannot give objects of its type. -/
theorem C52_leaves_are_resolved_partial {S : Super} (hS : Proper S) (hio : NoInterfaceObjects S) {G : Moves}
    (hb : build S = .ok G) (ctx : Context) (kind : OpKind) (sels : List Sel)
    {out : List (List (List Path))} (h : walk ⟨G, S, ctx⟩ kind sels = .ok out) :
    Match (Resolves ⟨G, S, ctx⟩ kind) sels out :=
  walk_resolves (build_agree (env := ⟨G, S, ctx⟩) hS hio hb kind) h

/-- A check for the last part of `Proper`. -/
def providesOk (S : Super) : Bool :=
  S.defs.all fun x => x.2.fields.all fun f => f.2.joins.all fun j =>
    match j.provides with
    | none => true
    | some p => (condsOfAll p.2).all fun t => S.defs.all fun y => y.1 != t || y.2.kind == .object

theorem providesOk_spec {S : Super} (h : providesOk S = true) : ∀ x ∈ S.defs, ∀ f ∈ x.2.fields,
    ∀ j ∈ f.2.joins, ∀ p, j.provides = some p → ∀ t ∈ condsOfAll p.2, ∀ y ∈ S.defs, y.1 = t →
    y.2.kind = .object := by
  intro x hx f hf j hj p hp t ht y hy he
  have h1 := List.all_eq_true.mp (List.all_eq_true.mp (List.all_eq_true.mp h x hx) f hf) j hj
  rw [hp] at h1
  have h2 := List.all_eq_true.mp (List.all_eq_true.mp h1 t ht) y hy
  simpa [he] using h2

theorem Ex.shop_proper : Proper Ex.shop :=
  ⟨by decide, by decide, by decide, by decide, by decide, providesOk_spec (by decide)⟩

theorem Ex.shop_noIo : NoInterfaceObjects Ex.shop := by
  unfold NoInterfaceObjects; decide

/-- A product's shipping costs are found in another subgraph, with a key and a requirement. -/
example : Ex.plan Ex.shop Ex.off [Ex.fld "product" [Ex.fld "shipping", Ex.fld "id"]] =
    .paths [[[["enter@a", "product@a", "by id@b", "shipping@b"]], [["enter@a", "product@a", "id@a"]]]] := by
  decide +kernel

/-! ## C53 -/

/-- **C53**. On a graph built from a supergraph whose root type has an entry, the search gives paths or says
that there are none: no loop of it goes on, it does not panic, and it looks nothing up in vain. -/
theorem C53_search_ends {S : Super} {G : Moves} (hb : build S = .ok G) (ctx : Context) (kind : OpKind)
    (hr : ∀ r, rootOf G kind = some r → ∃ e ∈ G.edges, e.src = r) (sels : List Sel) :
    Fine (walk ⟨G, S, ctx⟩ kind sels) :=
  walk_fine (env := ⟨G, S, ctx⟩) (build_connected hb) hr sels

/-- A root type has an entry if a subgraph resolves one of its fields. -/
theorem C53_root_has_entry {S : Super} (hS : Proper S) {G : Moves} (hb : build S = .ok G) {kind : OpKind}
    {type field graph : String} {needs : Option (List Sel)} {d : Def} (hd : (type, d) ∈ S.defs)
    (ho : d.kind = .object) (ht : rootType S kind = some type)
    (hres : Graph.Resolves S type field graph needs) :
    ∀ r, rootOf G kind = some r → ∃ e ∈ G.edges, e.src = r := by
  intro r hr
  obtain ⟨e, he, hs, _⟩ := entry_at hS hb hd ho ht hres hr
  exact ⟨e, he, hs⟩

/-- The shop's graph is built, and its queries have an entry. -/
example : ∃ G, build Ex.shop = .ok G ∧ ∀ r, rootOf G .query = some r → ∃ e ∈ G.edges, e.src = r := by
  cases hb : build Ex.shop with
  | error e =>
    have : (match build Ex.shop with | .error _ => false | .ok _ => true) = true := by decide +kernel
    rw [hb] at this; simp at this
  | ok G =>
    refine ⟨G, rfl, C53_root_has_entry Ex.shop_proper hb (type := "Query") (field := "product") (graph := "a")
      (needs := none) (d := (Ex.query ["a"] [("product", { typeName := "Product", joins := [Ex.inG "a"] })]).2)
      ?_ rfl rfl ?_⟩
    · exact List.mem_cons_self ..
    · refine ⟨_, _, "a", List.mem_cons_self .., List.mem_cons_self .., by decide,
        ⟨_, List.mem_cons_self .., rfl⟩, .inr ⟨_, List.mem_cons_self .., rfl, .inl rfl, rfl⟩⟩

/-! ## C54 -/

/-- The paths found for one step from one path, by all its moves. -/
def oneStep (env : Env) (t : Target) (p : Path) : List Path :=
  (match findDirect env.G (sat env) p t with
    | .ok ds => ds
    | .error _ => []) ++
  (match findIndirect env.G env.S (sat env) p t {} with
    | .ok is => is
    | .error _ => [])

/-- The paths found along a list of fields and types, each by itself. -/
def reach (env : Env) (kind : OpKind) : List Target → List Path
  | [] => match entrypoints env.G kind with
    | .ok es => es.map entryPath
    | .error _ => []
  | t :: ts => (reach env kind ts).flatMap (oneStep env t)

theorem oneStep_goes {env : Env} {t : Target} {p : Path} (hp : p.WF) :
    ∀ q ∈ oneStep env t p, Goes env p [t.step] q := by
  intro q hq
  unfold oneStep at hq
  rcases List.mem_append.mp hq with hq | hq
  · split at hq
    next ds h => exact (findDirect_goes (sat_good env) hp h q hq).1
    · simp at hq
  · split at hq
    next is h => exact (findIndirect_goes (sat_good env) hp h q hq).1
    · simp at hq

/-- What is found is there. -/
theorem reach_arrives {env : Env} {kind : OpKind} : ∀ (ts : List Target), ∀ p ∈ reach env kind ts,
    Arrives env kind (ts.reverse.map Target.step) p
  | [], p, h => by
    unfold reach at h
    split at h
    next es hes =>
      obtain ⟨e, he, rfl⟩ := List.mem_map.mp h
      have := entrypoints_mem hes e he
      exact .entry this.1 this.2
    · simp at h
  | t :: ts, p, h => by
    unfold reach at h
    rw [List.mem_flatMap] at h
    obtain ⟨q, hq, hp⟩ := h
    have ha := reach_arrives ts q hq
    have := ha.goes (oneStep_goes ha.wf p hp)
    simpa using this

/-- The full statement of **C54** for queries: if the supergraph is sound and there is a way to every leaf of
the operation, the planner finds paths. -/
def FindsAll : Prop :=
  ∀ (S : Super) (G : Moves) (ctx : Context) (sels : List Sel) (ts : List Trail), Proper S →
    NoInterfaceObjects S → build S = .ok G → LeavesAll ⟨G, S, ctx⟩ .query [] sels ts →
    (∀ t ∈ ts, ∃ p, Arrives ⟨G, S, ctx⟩ .query t p) → ∃ out, walk ⟨G, S, ctx⟩ .query sels = .ok out

/-- The fields as a selection with one leaf. -/
def chain : List FieldInfo → List Sel
  | [] => []
  | f :: r => [.field f (chain r)]

/-- The fields as steps for the search, when nothing else is asked for. -/
def targets : List FieldInfo → List Target
  | [] => []
  | f :: r => .field f (chain r) none :: targets r

theorem targets_steps : ∀ fs : List FieldInfo, (targets fs).map Target.step = fs.map Step.field
  | [] => rfl
  | f :: r => by simp only [targets, List.map_cons, targets_steps r, Target.step]

/-- A check that a supergraph is built, that the fields can be reached, and that planning fails. -/
def missed (S : Super) (ctx : Context) (sels : List Sel) (leaves : List (List FieldInfo)) : Bool :=
  match build S with
  | .error _ => false
  | .ok G =>
    leaves.all (fun fs => !(reach ⟨G, S, ctx⟩ .query (targets fs).reverse).isEmpty) &&
    match walk ⟨G, S, ctx⟩ .query sels with
    | .ok _ => false
    | .error _ => true

theorem missed_spec {S : Super} {ctx : Context} {sels : List Sel} {leaves : List (List FieldInfo)}
    (h : missed S ctx sels leaves = true) : ∃ G, build S = .ok G ∧
      (∀ fs ∈ leaves, ∃ p, Arrives ⟨G, S, ctx⟩ .query (fs.map Step.field) p) ∧
      ¬ ∃ out, walk ⟨G, S, ctx⟩ .query sels = .ok out := by
  unfold missed at h
  split at h
  · simp at h
  next G hb =>
    refine ⟨G, hb, ?_, ?_⟩
    · intro fs hfs
      have := List.all_eq_true.mp (Bool.and_eq_true_iff.mp h).1 fs hfs
      cases hr : reach ⟨G, S, ctx⟩ .query (targets fs).reverse with
      | nil => rw [hr] at this; simp at this
      | cons p ps =>
        refine ⟨p, ?_⟩
        have ha := reach_arrives (env := ⟨G, S, ctx⟩) (kind := .query)
          (targets fs).reverse p (by rw [hr]; exact List.mem_cons_self ..)
        rw [List.reverse_reverse, targets_steps] at ha
        exact ha
    · rintro ⟨out, ho⟩
      rw [ho] at h
      simp at h

theorem Ex.nested_proper : Proper Ex.nested :=
  ⟨by decide, by decide, by decide, by decide, by decide, providesOk_spec (by decide)⟩

theorem Ex.nested_noIo : NoInterfaceObjects Ex.nested := by
  unfold NoInterfaceObjects; decide

theorem Ex.priced_proper : Proper Ex.priced :=
  ⟨by decide, by decide, by decide, by decide, by decide, providesOk_spec (by decide)⟩

theorem Ex.priced_noIo : NoInterfaceObjects Ex.priced := by
  unfold NoInterfaceObjects; decide

/-- **C54** fails: each field of an operation can be resolved, and a plan exists for each by itself, but not
for both. A product's key has a field with a selection of its own, and of that field two things are asked for:
one from the subgraph the product is found in, one from the subgraph it can be fetched from by the key. -/
theorem C54_nested_key_refuted : ¬ FindsAll := by
  intro H
  have hm : missed Ex.nested Ex.off [Ex.fld "product" [Ex.fld "foo" [Ex.fld "bar", Ex.fld "baz"]]]
      [[{ name := "product" }, { name := "foo" }, { name := "bar" }],
       [{ name := "product" }, { name := "foo" }, { name := "baz" }]] = true := by decide +kernel
  obtain ⟨G, hb, hl, hn⟩ := missed_spec hm
  refine hn (H Ex.nested G Ex.off _ _ Ex.nested_proper Ex.nested_noIo hb
    (.cons _ _ _ _ _ (.field _ _ _ _ _ (.cons _ _ _ _ _ (.field _ _ _ _ _
      (.cons _ _ _ _ _ (.leaf _ _) (.cons _ _ _ _ _ (.leaf _ _) (.nil _)))) (.nil _))) (.nil _)) ?_)
  intro t ht
  simp at ht
  rcases ht with rfl | rfl
  · exact hl [{ name := "product" }, { name := "foo" }, { name := "bar" }] (by simp)
  · exact hl [{ name := "product" }, { name := "foo" }, { name := "baz" }] (by simp)

/-- Each of the two can be asked for by itself. -/
example :
    Ex.plan Ex.nested Ex.off [Ex.fld "product" [Ex.fld "foo" [Ex.fld "bar"]]] =
      .paths [[[["enter@b", "product@b", "foo@b", "bar@b"]]]] ∧
    Ex.plan Ex.nested Ex.off [Ex.fld "product" [Ex.fld "foo" [Ex.fld "baz"]]] =
      .paths [[[["enter@b", "product@b", "by foo { bar }@c", "foo@c", "baz@c"]]]] ∧
    Ex.plan Ex.nested Ex.off [Ex.fld "product" [Ex.fld "foo" [Ex.fld "bar", Ex.fld "baz"]]] =
      .noPaths "baz" := by
  decide +kernel

/-- **C54** fails in another way: a field that moves between two subgraphs under a label, and that a third
subgraph has too, is looked for only in the third one, which products cannot be fetched from. It is missed
whether the label is on or off. -/
theorem C54_progressive_override_refuted (on : Bool) :
    let ctx := if on then Ex.lit else Ex.off
    ∃ G, build Ex.priced = .ok G ∧
      (∃ p, Arrives ⟨G, Ex.priced, ctx⟩ .query [.field { name := "product" }, .field { name := "price" }] p) ∧
      ¬ ∃ out, walk ⟨G, Ex.priced, ctx⟩ .query [Ex.fld "product" [Ex.fld "price"]] = .ok out := by
  have hm : missed Ex.priced (if on then Ex.lit else Ex.off) [Ex.fld "product" [Ex.fld "price"]]
      [[{ name := "product" }, { name := "price" }]] = true := by
    cases on <;> decide +kernel
  obtain ⟨G, hb, hl, hn⟩ := missed_spec hm
  exact ⟨G, hb, hl _ (List.mem_cons_self ..), hn⟩

/-- **C54** for operations that one subgraph can resolve by itself, without unions and `@provides` (which,
with operations over several subgraphs, are missing): the planner finds paths. -/
theorem C54_one_subgraph_partial {S : Super} (hS : Proper S) (hio : NoInterfaceObjects S) (hj : JoinsOnce S)
    (hg : GraphNames S) (hs : Simple S) (hl : Labelled S) {G : Moves} (hb : build S = .ok G) (ctx : Context)
    {kind : OpKind} {type field graph : String} {needs : Option (List Sel)} {d : Def}
    (hd : (type, d) ∈ S.defs) (ho : d.kind = .object) (ht : rootType S kind = some type)
    (hres : Graph.Resolves S type field graph needs) {sels : List Sel}
    (ha : ∀ x ∈ sels, Alone S ctx graph type x) : ∃ out, walk ⟨G, S, ctx⟩ kind sels = .ok out :=
  walk_ok (env := ⟨G, S, ctx⟩) ⟨hS, hio, hj, hg, hs, hl, hb⟩ hd ho ht hres ha

/-! ## C55 -/

/-- **C55**, first half, for supergraphs without interface objects: every move of the graph is one the
supergraph has. A field leads from a type to the type of the field, in the same subgraph, which resolves the
field with just what the move requires, or provides it somewhere; a key leads to the same type in a subgraph
that resolves it by this key; a type condition stays in its subgraph. That a provided field is provided
*here* is missing, and false: see `C55_provided_elsewhere_refuted`. -/
theorem C55_moves_are_true_partial {S : Super} (hS : Proper S) (hio : NoInterfaceObjects S)
    (hp : ProvidesOwn S) {G : Moves} (hb : build S = .ok G) : ∀ e ∈ G.edges, ∃ a b, G.node e.src = some a ∧
      G.node e.dst = some b ∧ Says S a b e.weight :=
  build_says hS hio hp hb

/-- **C55**, second half: what the supergraph has is in the graph. A field that a subgraph resolves leads to
the field's type there; an object is found from each subgraph it is in to each that resolves it by a key; an
interface leads to the objects that implement it in the subgraph; and a root type is entered in a subgraph
that resolves a field of it. -/
theorem C55_moves_are_there {S : Super} (hS : Proper S) (hj : JoinsOnce S) (hgn : GraphNames S) {G : Moves}
    (hb : build S = .ok G) :
    (∀ type field result g needs, Graph.Resolves S type field g needs → HasField S type field result →
      ¬ EmptyUnion S result g →
      G.moves (Plain type g) (fun b => b.name = result ∧ b.graph = some g)
        (fun w => ∃ m, w = .field m ∧ m.name = field)) ∧
    (∀ type g1 g2 key items, InGraph S type g1 → KeyOf S type g2 key items →
      G.moves (Plain type g1) (Plain type g2) (fun w => ∃ r i, w = .entity key r i)) ∧
    (∀ type iface id g d, (type, d) ∈ S.defs → d.kind = .object → (id, iface) ∈ d.implements →
      S.graphName id = some g →
      G.moves (Plain iface g) (Plain type g) (fun w => w = .abstract type)) ∧
    (∀ type field g needs kind d, (type, d) ∈ S.defs → d.kind = .object → S.rootKind type = some kind →
      Graph.Resolves S type field g needs →
      G.moves (fun n => n.key = .root type) (Plain type g) (fun w => ∃ k, w = .entry g k)) :=
  ⟨fun _ _ _ _ _ h1 h2 h3 => build_field hS hj hgn hb h1 h2 h3,
   fun _ _ _ _ _ h1 h2 => build_entity hb h1 hS h2,
   fun _ _ _ _ _ h1 h2 h3 h4 => build_abstract hS hb h1 h2 h3 h4,
   fun _ _ _ _ _ _ h1 h2 h3 h4 => build_entry hS hb h1 h2 h3 h4⟩

theorem joinsOnce_of {S : Super}
    (h : ∀ x ∈ S.defs, ∀ f ∈ x.2.fields, (f.2.joins.filterMap (·.graph)).Nodup) : JoinsOnce S := by
  intro x hx f hf
  have := h x hx f hf
  clear hf hx h
  revert this
  generalize f.2.joins = l
  intro hn j hj j' hj' he hs
  obtain ⟨g, hg⟩ := Option.isSome_iff_exists.mp hs
  induction l with
  | nil => simp at hj
  | cons k r ih =>
    have hr : (r.filterMap (·.graph)).Nodup := by
      rw [List.filterMap_cons] at hn
      split at hn
      · exact hn
      · exact (List.nodup_cons.mp hn).2
    have hno : ∀ y ∈ r, k.graph = some g → y.graph ≠ some g := by
      intro y hy hk hy'
      rw [List.filterMap_cons, hk] at hn
      exact (List.nodup_cons.mp hn).1 (List.mem_filterMap.mpr ⟨y, hy, hy'⟩)
    rcases List.mem_cons.mp hj with rfl | hjr <;> rcases List.mem_cons.mp hj' with rfl | hjr'
    · rfl
    · exact absurd (he.symm.trans hg) (hno j' hjr' hg)
    · exact absurd hg (hno j hjr (he.symm.trans hg))
    · exact ih hr hjr hjr'

theorem Ex.shop_joinsOnce : JoinsOnce Ex.shop := joinsOnce_of (by decide)

theorem graphName_inj {S : Super} (h1 : (S.graphs.map (·.2)).Nodup) : GraphNames S := by
  intro a b n ha hb
  unfold Super.graphName at ha hb
  have m1 := Graph.lookup_mem ha
  have m2 := Graph.lookup_mem hb
  obtain ⟨i, hi⟩ := List.getElem?_of_mem m1
  obtain ⟨j, hj⟩ := List.getElem?_of_mem m2
  have e1 : (S.graphs.map (·.2))[i]? = some n := by rw [List.getElem?_map, hi]; rfl
  have e2 : (S.graphs.map (·.2))[j]? = some n := by rw [List.getElem?_map, hj]; rfl
  have hlt : i < (S.graphs.map (·.2)).length := by
    rcases Nat.lt_or_ge i (S.graphs.map (·.2)).length with h | h
    · exact h
    · rw [List.getElem?_eq_none h] at e1; simp at e1
  have := (List.getElem?_inj hlt h1).mp (e1.trans e2.symm)
  subst this
  rw [hi, Option.some.injEq] at hj
  exact congrArg Prod.fst hj

/-- The shop meets what the theorems ask for: shipping is resolved in `b` with the weight, and a product is
found from `a` in `b` by its id. -/
example : JoinsOnce Ex.shop ∧ GraphNames Ex.shop ∧ ProvidesOwn Ex.shop ∧
    Graph.Resolves Ex.shop "Product" "shipping" "b" (some [Ex.fld "weight"]) ∧
    InGraph Ex.shop "Product" "a" ∧ KeyOf Ex.shop "Product" "b" "id" [Ex.fld "id"] := by
  refine ⟨Ex.shop_joinsOnce, graphName_inj (by decide), ?_, ?_, ?_, ?_⟩
  · unfold ProvidesOwn; decide
  · exact ⟨_, _, "b", .tail _ (.head _), .tail _ (.tail _ (.head _)), by decide,
      ⟨_, .tail _ (.head _), rfl⟩, .inr ⟨_, .head _, rfl, .inl rfl, rfl⟩⟩
  · exact ⟨_, .tail _ (.head _), _, .head _, by decide⟩
  · exact ⟨_, .tail _ (.head _), _, .tail _ (.head _), by decide, rfl, rfl⟩

/-- **C55** fails for `@provides`: `a` provides only `x` of its product, and the plan asks the subgraph for
`y`, which it can give only through `User.favorite`. -/
theorem C55_provided_elsewhere_refuted :
    Ex.plan Ex.views Ex.off [Ex.fld "a" [Ex.fld "y"]] = .paths [[[["enter@s", "a@s", "y@s"]]]] ∧
    ∃ d fd j, ("Query", d) ∈ Ex.views.defs ∧ ("a", fd) ∈ d.fields ∧ fd.joins = [j] ∧ j.graph = some "s" ∧
      j.provides = some ("x", [Ex.fld "x"]) := by
  refine ⟨by decide +kernel, _, _, _, .head _, .head _, rfl, rfl, rfl⟩

/-- **C55** fails for fields whose type is narrower in a subgraph: subgraph `a` says that `f` gives books, and
has their pages, but the planner finds no path to them. -/
theorem C55_type_in_subgraph_refuted :
    Ex.plan Ex.media Ex.off [Ex.fld "f" [Ex.on "Book" [Ex.fld "pages"]]] = .noPaths "pages" ∧
    Graph.Resolves Ex.media "Query" "f" "a" none ∧ Graph.Resolves Ex.media "Book" "pages" "a" none ∧
    ∃ d fd j, ("Query", d) ∈ Ex.media.defs ∧ ("f", fd) ∈ d.fields ∧ j ∈ fd.joins ∧ j.graph = some "a" ∧
      j.typeInGraph = some "Book" := by
  refine ⟨by decide +kernel, ?_, ?_, ?_⟩
  · exact ⟨_, _, "a", .head _, .head _, by decide, ⟨_, .head _, rfl⟩, .inr ⟨_, .head _, rfl, .inl rfl, rfl⟩⟩
  · exact ⟨_, _, "a", .tail _ (.tail _ (.head _)), .tail _ (.head _), by decide, ⟨_, .head _, rfl⟩,
      .inr ⟨_, .head _, rfl, .inl rfl, rfl⟩⟩
  · exact ⟨_, _, _, .head _, .head _, .head _, rfl, rfl⟩

/-! ## C56 -/

/-- A path of the plan asks a subgraph for a field of a type. -/
def Asks (env : Env) (out : List (List (List Path))) (a b : Node) (field graph : String) : Prop :=
  ∃ gs ∈ out, ∃ g ∈ gs, ∃ p ∈ g, ∃ e m, Uses env p e ∧ e.weight = .field m ∧ m.name = field ∧
    env.G.node e.src = some a ∧ a.graph = some graph ∧ env.G.node e.dst = some b

/-- The full statement of **C56** for queries. -/
def AsksOnly : Prop :=
  ∀ (S : Super) (G : Moves) (ctx : Context) (sels : List Sel) (out : List (List (List Path))), Proper S →
    NoInterfaceObjects S → ProvidesOwn S → JoinsOnce S → OverridesOnce S → build S = .ok G →
    walk ⟨G, S, ctx⟩ .query sels = .ok out →
    ∀ a b field graph, Asks ⟨G, S, ctx⟩ out a b field graph → field ≠ "__typename" →
      MayAsk S ctx a.name field graph

/-- **C56**, for fields that provide nothing, are not provided, and are of no union type (these are missing, and false: see
below). A plan asks a subgraph for a field only if in this request the field has not been taken over by
another subgraph, and, if the subgraph has taken it over under a label, the label is on. This goes for the
fields that keys and `@requires` need, too. -/
theorem C56_overrides_are_kept_partial {S : Super} (hS : Proper S) (hio : NoInterfaceObjects S)
    (hp : ProvidesOwn S) (hj : JoinsOnce S) (ho : OverridesOnce S) {G : Moves} (hb : build S = .ok G)
    (ctx : Context) (kind : OpKind) (sels : List Sel) {out : List (List (List Path))}
    (h : walk ⟨G, S, ctx⟩ kind sels = .ok out) {a b : Node} {field graph : String}
    (hask : Asks ⟨G, S, ctx⟩ out a b field graph) (hf : field ≠ "__typename")
    (hav : a.isView = false) (hbv : b.isView = false) (hbu : b.union = none) :
    MayAsk S ctx a.name field graph := by
  obtain ⟨gs, hgs, g, hg, p, hpm, e, m, hu, hw, rfl, hna, hga, hnb⟩ := hask
  obtain ⟨tr, harr⟩ := walk_arrives (build_agree (env := ⟨G, S, ctx⟩) hS hio hb kind) h gs hgs g hg p hpm
  obtain ⟨ls, hls, hB⟩ := build_built hb
  have hall := uses_allowed (env := ⟨G, S, ctx⟩) hB hu (arrives_ok (env := ⟨G, S, ctx⟩) hS hio hb harr)
  obtain ⟨a', b', ha', hb', hsays⟩ := build_says hS hio hp hb e hu.mem
  rw [hna, Option.some.injEq] at ha'
  rw [hnb, Option.some.injEq] at hb'
  subst ha' hb'
  rw [hw] at hsays
  obtain ⟨g', hg', _, hsays⟩ := hsays
  rw [hga, Option.some.injEq] at hg'
  subst hg'
  rcases hsays with ⟨h1, _⟩ | ⟨_, ⟨needs, _, _, h3⟩ | ⟨h3, _⟩⟩
  · exact absurd h1 hf
  · exact mayAsk hS hj ho (h3 hbv hbu) (hall m hw)
  · rw [hav] at h3; simp at h3

/-- A check that a plan asks a subgraph for a field of a type, from a node and to a node as given. -/
def asks (S : Super) (ctx : Context) (sels : List Sel) (type field graph : String)
    (ok : Node → Node → Bool := fun _ _ => true) : Bool :=
  match build S with
  | .error _ => false
  | .ok G =>
    match walk ⟨G, S, ctx⟩ .query sels with
    | .error _ => false
    | .ok out => out.any fun gs => gs.any fun g => g.any fun p => p.segs.any fun s => G.edges.any fun e =>
        s.edge == e.id &&
        (match e.weight with
          | .field m => m.name == field
          | _ => false) &&
        (match G.node e.src, G.node e.dst with
          | some a, some b => a.name == type && a.graph == some graph && ok a b
          | _, _ => false)

theorem asks_spec {S : Super} {ctx : Context} {sels : List Sel} {type field graph : String}
    {ok : Node → Node → Bool} (h : asks S ctx sels type field graph ok = true) : ∃ G out, build S = .ok G ∧
      walk ⟨G, S, ctx⟩ .query sels = .ok out ∧
      ∃ a b, a.name = type ∧ Asks ⟨G, S, ctx⟩ out a b field graph ∧ ok a b = true := by
  unfold asks at h
  split at h
  · simp at h
  next G hb =>
    split at h
    · simp at h
    next out ho =>
      refine ⟨G, out, hb, ho, ?_⟩
      simp only [List.any_eq_true, Bool.and_eq_true] at h
      obtain ⟨gs, hgs, g, hg, p, hp, s, hs, e, he, ⟨h1, h2⟩, h3⟩ := h
      split at h2
      next m hm =>
        split at h3
        next a b ha hb' =>
          simp only [Bool.and_eq_true] at h3
          exact ⟨a, b, eq_of_beq h3.1.1, ⟨gs, hgs, g, hg, p, hp, e, m, .here _ _ _ hs he (eq_of_beq h1), hm,
            eq_of_beq h2, ha, eq_of_beq h3.1.2, hb'⟩, h3.2⟩
        · simp at h3
      · simp at h2

/-- A check for `OverridesOnce`. -/
def overridesOnce (S : Super) : Bool :=
  S.defs.all fun x => x.2.fields.all fun f => f.2.joins.all fun j => f.2.joins.all fun j' =>
    j.overrideFrom.isNone || j'.overrideFrom.isNone ||
      ((j.overrideFrom != j'.overrideFrom || decide (j.label = j'.label)) &&
        j'.overrideFrom != j.graph.bind S.graphName)

theorem overridesOnce_of {S : Super} (h : overridesOnce S = true) : OverridesOnce S := by
  intro x hx f hf j hj j' hj' hs
  have h := List.all_eq_true.mp (List.all_eq_true.mp (List.all_eq_true.mp (List.all_eq_true.mp h x hx) f hf)
    j hj) j' hj'
  obtain ⟨o, ho⟩ := Option.isSome_iff_exists.mp hs
  simp only [ho, Option.isNone_some, Bool.false_or, Bool.or_eq_true, Bool.and_eq_true, bne_iff_ne,
    decide_eq_true_eq] at h
  refine ⟨fun he => ?_, fun id n hid hn ho' => ?_⟩
  · rw [ho] at he
    rcases h with h | ⟨h, _⟩
    · rw [← he] at h; simp at h
    · rcases h with h | h
      · exact absurd he h
      · exact h
  · rcases h with h | ⟨_, h⟩
    · rw [ho'] at h; simp at h
    · exact h (by rw [hid, ho', Option.bind_some, hn])

theorem Ex.moving_proper : Proper Ex.moving :=
  ⟨by decide, by decide, by decide, by decide, by decide, providesOk_spec (by decide)⟩

theorem Ex.moving_noIo : NoInterfaceObjects Ex.moving := by
  unfold NoInterfaceObjects; decide

theorem Ex.moving_own : ProvidesOwn Ex.moving := by
  unfold ProvidesOwn; decide

theorem Ex.moving_joinsOnce : JoinsOnce Ex.moving := joinsOnce_of (by decide)

theorem Ex.moving_overridesOnce : OverridesOnce Ex.moving := overridesOnce_of (by decide)

/-- `hot` is asked for in `b` when the label is on and in `a` when it is off. -/
example :
    Ex.plan Ex.moving Ex.lit [Ex.fld "hot" [Ex.fld "x"]] = .paths [[[["enter@b", "hot@b", "x@b"]]]] ∧
    Ex.plan Ex.moving Ex.off [Ex.fld "hot" [Ex.fld "x"]] =
      .paths [[[["enter@a", "hot@a", "by id@b", "x@b"]]]] := by
  decide +kernel

/-- The theorem applies to `hot`, and says where it may be asked for. -/
example : MayAsk Ex.moving Ex.lit "Query" "hot" "b" := by
  have h : asks Ex.moving Ex.lit [Ex.fld "hot" [Ex.fld "x"]] "Query" "hot" "b"
      (fun a b => !a.isView && !b.isView && b.union.isNone) = true := by decide +kernel
  obtain ⟨G, out, hb, ho, a, b, ha, hask, hok⟩ := asks_spec h
  simp only [Bool.and_eq_true, Bool.not_eq_true', Option.isNone_iff_eq_none] at hok
  rw [← ha]
  exact C56_overrides_are_kept_partial Ex.moving_proper Ex.moving_noIo Ex.moving_own Ex.moving_joinsOnce
    Ex.moving_overridesOnce hb Ex.lit .query _ ho hask (by decide) hok.1.1 hok.1.2 hok.2

/-- **C56** fails for a field with `@provides`: `top` has moved to `b`, as the label is on, and the plan asks
`a` for it. -/
theorem C56_provides_refuted : ¬ AsksOnly := by
  intro H
  have h : asks Ex.moving Ex.lit [Ex.fld "top" [Ex.fld "x"]] "Query" "top" "a" = true := by decide +kernel
  obtain ⟨G, out, hb, ho, a, b, ha, hask, _⟩ := asks_spec h
  obtain ⟨d, fd, id, hd, hf, _, h1, _⟩ := H Ex.moving G Ex.lit _ out Ex.moving_proper Ex.moving_noIo
    Ex.moving_own Ex.moving_joinsOnce Ex.moving_overridesOnce hb ho a b "top" "a" hask (by decide)
  rw [ha] at hd
  obtain rfl := Ex.moving_proper.def_eq hd (.head _)
  obtain rfl := nodup_keys (Ex.moving_proper.fields _ hd) hf (.head _)
  obtain ⟨l, hl, hn⟩ := h1 _ (.tail _ (.head _)) rfl
  simp only [Option.some.injEq] at hl
  subst hl
  exact hn (.head _)

theorem Ex.unions_proper : Proper Ex.unions :=
  ⟨by decide, by decide, by decide, by decide, by decide, providesOk_spec (by decide)⟩

/-- **C56** fails for a field of a union type: `top` is to be asked for in `a`, as the label is off, and the
plan may ask `b` for it. -/
theorem C56_union_refuted : ¬ AsksOnly := by
  intro H
  have h : asks Ex.unions Ex.off [Ex.fld "top" [Ex.on "X" [Ex.fld "v"]]] "Query" "top" "b" = true := by
    decide +kernel
  obtain ⟨G, out, hb, ho, a, b, ha, hask, _⟩ := asks_spec h
  obtain ⟨d, fd, id, hd, hf, hg, _, h2⟩ := H Ex.unions G Ex.off _ out Ex.unions_proper
    (by unfold NoInterfaceObjects; decide) (by unfold ProvidesOwn; decide) (joinsOnce_of (by decide))
    (overridesOnce_of (by decide)) hb ho a b "top" "b" hask (by decide)
  rw [ha] at hd
  obtain rfl := Ex.unions_proper.def_eq hd (.head _)
  obtain rfl := nodup_keys (Ex.unions_proper.fields _ hd) hf (.head _)
  have hid : id = "b" := graphName_inj (S := Ex.unions) (by decide) id "b" "b" hg (by decide)
  subst hid
  have := h2 _ (.tail _ (.head _)) rfl rfl _ rfl
  simp [Active, Ex.off] at this

/-! ## An example for C54 -/

theorem Ex.library_proper : Proper Ex.library :=
  ⟨by decide, by decide, by decide, by decide, by decide, providesOk_spec (by decide)⟩

def labelled (S : Super) : Bool :=
  S.defs.all fun x => x.2.fields.all fun f => f.2.joins.all fun j =>
    !j.label.isSome || j.overrideFrom.isSome ||
      match j.graph with
      | none => true
      | some id =>
        match S.graphName id with
        | none => true
        | some n => f.2.joins.any fun j' => j'.overrideFrom == some n

theorem labelled_of {S : Super} (h : labelled S = true) : Labelled S := by
  intro x hx f hf j hj hl ho id n hid hn
  have h1 := List.all_eq_true.mp (List.all_eq_true.mp (List.all_eq_true.mp h x hx) f hf) j hj
  simp only [hl, ho, hid, hn, Bool.not_true, Option.isSome_none, Bool.false_or, List.any_eq_true,
    beq_iff_eq] at h1
  exact h1

theorem asked {js : List JoinField} {c : Context} {g : String} (h : ∀ j ∈ js, j.overrideFrom ≠ some g) :
    ∀ j ∈ js, j.overrideFrom = some g → ∃ l, j.label = some l ∧ ¬ Active c l :=
  fun j hj hf => absurd hf (h j hj)

theorem asked' {js : List JoinField} {c : Context} {id : String}
    (h : ∀ j ∈ js, j.graph = some id → j.overrideFrom = none) :
    ∀ j ∈ js, j.graph = some id → j.overrideFrom.isSome = true → ∀ l, j.label = some l → Active c l := by
  intro j hj hg hs
  rw [h j hj hg] at hs; simp at hs

/-- The operation `{ item { title ... on Book { pages __typename } } }` is one for subgraph `a` while the label
is off. -/
theorem Ex.library_alone :
    ∀ x ∈ [Ex.fld "item" [Ex.fld "title", Ex.on "Book" [Ex.fld "pages", Ex.fld "__typename"]]],
    Alone Ex.library Ex.off "a" "Query" x := by
  have m0 := List.mem_cons_self (a := Ex.library.defs[0]) (l := Ex.library.defs.tail)
  have m1 := List.mem_cons_of_mem Ex.library.defs[0]
    (List.mem_cons_self (a := Ex.library.defs[1]) (l := Ex.library.defs.tail.tail))
  have m2 := List.mem_cons_of_mem Ex.library.defs[0] (List.mem_cons_of_mem Ex.library.defs[1]
    (List.mem_cons_self (a := Ex.library.defs[2]) (l := [])))
  intro x hx
  simp only [List.mem_singleton] at hx
  subst hx
  refine .field _ _ "Media" _ _ ⟨_, _, "a", m0, List.mem_cons_self .., by decide, ⟨_, List.mem_cons_self .., rfl⟩,
    .inr ⟨_, List.mem_cons_self .., rfl, .inl rfl, rfl⟩⟩ ⟨_, _, "a", m0, List.mem_cons_self .., by decide,
    asked (by simp [Ex.inG]) , asked' (by simp [Ex.inG])⟩ ⟨_, _, m0, List.mem_cons_self .., rfl⟩ ⟨_, m1⟩ ?_
  intro y hy
  rcases List.mem_cons.mp hy with rfl | hy
  · exact .leaf _ _ ⟨_, _, "a", m1, List.mem_cons_self .., by decide, ⟨_, List.mem_cons_self .., rfl⟩,
      .inl ⟨rfl, rfl⟩⟩ ⟨_, _, "a", m1, List.mem_cons_self .., by decide, asked (by simp), asked' (by simp)⟩
  simp only [List.mem_singleton] at hy
  subst hy
  refine .narrower _ _ _ _ "a" _ (by decide) m2 rfl (List.mem_cons_self ..) (by decide) ?_
  intro y hy
  rcases List.mem_cons.mp hy with rfl | hy
  · refine .leaf _ _ ⟨_, _, "a", m2, List.mem_cons_of_mem _ (List.mem_cons_of_mem _ (List.mem_cons_self ..)),
      by decide, ⟨_, List.mem_cons_self .., rfl⟩, .inr ⟨_, List.mem_cons_self .., rfl, .inl rfl, rfl⟩⟩
      ⟨_, _, "a", m2, List.mem_cons_of_mem _ (List.mem_cons_of_mem _ (List.mem_cons_self ..)), by decide, ?_,
        asked' (by simp)⟩
    intro j hj hf
    simp only [List.mem_cons, List.not_mem_nil, or_false] at hj
    rcases hj with rfl | rfl
    · simp at hf
    · exact ⟨_, rfl, by simp [Active, Ex.off]⟩
  · simp only [List.mem_singleton] at hy
    subst hy
    exact .typename _ _ rfl ⟨_, m2, .inl rfl, _, List.mem_cons_self .., by decide⟩

/-- A plan is found for it. -/
example : ∃ G out, build Ex.library = .ok G ∧ walk ⟨G, Ex.library, Ex.off⟩ .query
    [Ex.fld "item" [Ex.fld "title", Ex.on "Book" [Ex.fld "pages", Ex.fld "__typename"]]] = .ok out := by
  cases hb : build Ex.library with
  | error e =>
    have : (match build Ex.library with | .error _ => false | .ok _ => true) = true := by decide +kernel
    rw [hb] at this; simp at this
  | ok G =>
    have m0 := List.mem_cons_self (a := Ex.library.defs[0]) (l := Ex.library.defs.tail)
    obtain ⟨out, h⟩ := C54_one_subgraph_partial Ex.library_proper (by unfold NoInterfaceObjects; decide)
      (joinsOnce_of (by decide)) (graphName_inj (by decide)) ⟨by decide, by decide⟩ (labelled_of (by decide)) hb Ex.off
      (kind := .query) (type := "Query") (field := "item") (needs := none) m0 rfl rfl
      ⟨_, _, "a", m0, List.mem_cons_self .., by decide, ⟨_, List.mem_cons_self .., rfl⟩,
        .inr ⟨_, List.mem_cons_self .., rfl, .inl rfl, rfl⟩⟩ Ex.library_alone
    exact ⟨G, out, rfl, h⟩

end Verif.Walker
