import Verif.Walker.SpecLocal
import Verif.Walker.Firm
import Verif.Walker.Asked
import Verif.Graph.Complete

/-!
# What one subgraph can resolve is planned
-/

namespace Verif.Walker

open Verif.Graph
open Verif.Overrides (Context Label)

/-! ## The nodes of simple supergraphs -/

/-- A root, or all a subgraph has of a type. -/
def Bare (a : Node) : Prop := a.isView = false ∧ a.union = none

theorem bare_type (t g : String) (i : Bool) : Bare (.type t g i none) := ⟨rfl, rfl⟩
theorem bare_root (k : OpKind) (n : String) : Bare (.root k n) := ⟨rfl, rfl⟩

theorem entries_bare {S : Super} {k : OpKind} {n : Node} (h : n ∈ entries S k) : Bare n := by
  unfold entries at h
  rw [List.mem_eraseDups, List.mem_filterMap] at h
  obtain ⟨l, hl, hw⟩ := h
  rw [List.mem_flatMap] at hl
  obtain ⟨x, hx, hl⟩ := hl
  unfold rootLinks at hl
  split at hl
  · simp at hl
  · obtain ⟨g, _, rfl⟩ := List.mem_map.mp hl
    simp only at hw
    split at hw
    · simp only [Option.some.injEq] at hw
      subst hw
      exact bare_type _ _ _
    · simp at hw

theorem Simple.isUnion {S : Super} (h : Simple S) (t : String) : S.isUnion t = false := by
  unfold Super.isUnion
  split
  next d hd => simp [h.unions _ (def?_mem hd)]
  · rfl

theorem links_bare {S : Super} (hs : Simple S) {ls : List Link} (h : links S = .ok ls) :
    ∀ l ∈ ls, Bare l.head ∧ Bare l.tail := by
  intro l hl
  obtain ⟨name, d, hd, hl | ⟨g, _, hl⟩ | hl | hl | ⟨g, _, vs, hvs, hl⟩⟩ := links_cases h l hl
  · unfold rootLinks at hl
    split at hl
    · simp at hl
    · obtain ⟨g, _, rfl⟩ := List.mem_map.mp hl
      exact ⟨bare_root _ _, bare_type _ _ _⟩
  · unfold typeLinks at hl
    rcases List.mem_append.mp hl with hl | hl
    · split at hl
      · simp only [List.mem_singleton] at hl
        subst hl
        exact ⟨bare_type _ _ _, bare_type _ _ _⟩
      · simp at hl
    · rcases List.mem_cons.mp hl with rfl | hl
      · exact ⟨bare_type _ _ _, bare_type _ _ _⟩
      · obtain ⟨f, hf, hl⟩ := List.mem_flatMap.mp hl
        simp only [fieldLinks] at hl
        split at hl
        · simp at hl
        · split at hl
          · simp at hl
          · rw [hs.isUnion] at hl
            simp only [Bool.false_eq_true, if_false] at hl
            rcases List.mem_cons.mp hl with rfl | hl
            · exact ⟨bare_type _ _ _, bare_type _ _ _⟩
            · unfold reentryLinks at hl
              split at hl
              · simp at hl
              · obtain ⟨n, hn, rfl⟩ := List.mem_map.mp hl
                exact ⟨bare_type _ _ _, entries_bare (List.mem_filter.mp hn).1⟩
  · unfold implLinks at hl
    split at hl
    · obtain ⟨x, _, rfl⟩ := List.mem_map.mp hl
      exact ⟨bare_type _ _ _, bare_type _ _ _⟩
    · simp at hl
  · unfold entityLinks at hl
    obtain ⟨j1, _, hl⟩ := List.mem_flatMap.mp hl
    rcases List.mem_append.mp hl with hl | hl
    · obtain ⟨j2, _, hl⟩ := List.mem_flatMap.mp hl
      simp only [keyLinks] at hl
      split at hl
      · split at hl
        · simp only [List.mem_singleton] at hl
          subst hl
          exact ⟨bare_type _ _ _, bare_type _ _ _⟩
        · simp at hl
      · split at hl
        · simp only [List.mem_singleton] at hl
          subst hl
          exact ⟨bare_type _ _ _, bare_type _ _ _⟩
        · simp at hl
    · simp only [ioLinks] at hl
      split at hl
      · obtain ⟨o, _, hl⟩ := List.mem_flatMap.mp hl
        rcases List.mem_cons.mp hl with rfl | hl
        · exact ⟨bare_type _ _ _, bare_type _ _ _⟩
        · obtain ⟨j2, _, rfl⟩ := List.mem_map.mp hl
          exact ⟨bare_type _ _ _, bare_type _ _ _⟩
      · simp at hl
  · have hp : provisions d g = [] := by
      cases hp : provisions d g with
      | nil => rfl
      | cons x r =>
        obtain ⟨h1, h2, _, s, h3⟩ := provisions_mem (d := d) (g := g) (x := x) (by rw [hp]; simp)
        have := hs.provides _ hd _ h1 _ h2
        rw [this] at h3; simp at h3
    unfold viewLinks at hvs
    rw [hp] at hvs
    simp only [Except.ok.injEq] at hvs
    subst hvs
    simp at hl

theorem upsert_from {ns : List Node} {n a : Node} (h : a ∈ (upsertNode ns n).1) : a ∈ ns ∨ a = n := by
  unfold upsertNode at h
  split at h
  · exact .inl h
  · simpa using h

theorem roots_bare (S : Super) : ∀ a ∈ (roots S).nodes, Bare a := by
  intro a ha
  have key : ∃ k n, a = .root k n := by
    unfold roots at ha
    cases hm : S.mutationType with
    | none =>
      cases hs : S.subscriptionType with
      | none =>
        simp only [hm, hs] at ha
        rcases upsert_from ha with h | h
        · simp at h
        · exact ⟨_, _, h⟩
      | some t =>
        simp only [hm, hs] at ha
        rcases upsert_from ha with h | h
        · rcases upsert_from h with h | h
          · simp at h
          · exact ⟨_, _, h⟩
        · exact ⟨_, _, h⟩
    | some t' =>
      cases hs : S.subscriptionType with
      | none =>
        simp only [hm, hs] at ha
        rcases upsert_from ha with h | h
        · rcases upsert_from h with h | h
          · simp at h
          · exact ⟨_, _, h⟩
        · exact ⟨_, _, h⟩
      | some t =>
        simp only [hm, hs] at ha
        rcases upsert_from ha with h | h
        · rcases upsert_from h with h | h
          · rcases upsert_from h with h | h
            · simp at h
            · exact ⟨_, _, h⟩
          · exact ⟨_, _, h⟩
        · exact ⟨_, _, h⟩
  obtain ⟨k, n, rfl⟩ := key
  exact bare_root k n

theorem build_bare {S : Super} (hs : Simple S) {G : Moves} (h : build S = .ok G) {i : Nat} {a : Node}
    (ha : G.node i = some a) : Bare a := by
  obtain ⟨ls, hls, hb⟩ := build_built h
  rcases hb.from_ a (List.mem_of_getElem? ha) with h | ⟨l, hl, rfl | rfl⟩
  · exact roots_bare S a h
  · exact (links_bare hs hls l hl).1
  · exact (links_bare hs hls l hl).2

theorem Bare.plain {a : Node} (h : Bare a) {t g : String} (hn : a.name = t) (hg : a.graph = some g) :
    Plain t g a := by
  obtain ⟨h1, h2⟩ := h
  rcases a with ⟨_, n⟩ | ⟨n, g, i, _ | ⟨v⟩ | ⟨u⟩⟩ <;>
    simp_all [Node.name, Node.graph, Node.isView, Node.union, Plain]

theorem plain_key {a b : Node} {t g : String} (h : Plain t g a) (h' : Plain t g b) : a.key = b.key := by
  obtain ⟨i, rfl⟩ := h
  obtain ⟨j, rfl⟩ := h'
  rfl

/-! ## The moves inside a subgraph -/

/-- The node stands for all a subgraph has of a type. -/
def At (G : Moves) (n : Nat) (t g : String) : Prop := ∃ a, G.node n = some a ∧ Plain t g a

theorem At.index {S : Super} {G : Moves} (h : build S = .ok G) {n m : Nat} {t g : String} (ha : At G n t g)
    (hb : At G m t g) : n = m := by
  obtain ⟨ls, hls, hB⟩ := build_built h
  obtain ⟨a, h1, h2⟩ := ha
  obtain ⟨b, h3, h4⟩ := hb
  exact hB.distinct.index h1 h3 (plain_key h2 h4)

theorem moved_may {S : Super} (hS : Proper S) (hj : JoinsOnce S) (hgn : GraphNames S) (hl : Labelled S)
    {c : Context} {type field graph : String} {m : Overrides.FieldMove} (hm : Moved S type field graph m)
    (hask : MayAsk S c type field graph) : MayUse c m := by
  obtain ⟨d, fd, id, hd, hf, hg, h1, h2, h3⟩ := hm
  obtain ⟨d', fd', id', hd', hf', hg', h4, h5⟩ := hask
  obtain rfl := hS.def_eq hd hd'
  obtain rfl := nodup_keys (hS.fields _ hd) hf hf'
  obtain rfl := hgn _ _ _ hg hg'
  unfold MayUse
  cases ho : m.overriddenBy with
  | some x =>
    obtain ⟨o, l⟩ := x
    obtain ⟨j, hjm, hjf, rfl⟩ := h2 o l ho
    obtain ⟨l', hl', hna⟩ := h4 j hjm hjf
    rw [hl']
    exact hna
  | none =>
    cases hml : m.label with
    | none => trivial
    | some l =>
      simp only
      rcases h3 with ⟨_, h3⟩ | ⟨j, hjm, hjg, h3⟩
      · rw [h3] at hml; simp at hml
      · rw [hml] at h3
        cases hof : j.overrideFrom with
        | some o => exact h5 j hjm hjg (by rw [hof]; rfl) l h3.symm
        | none =>
          obtain ⟨j', hj', hf'⟩ := hl _ hd _ hf j hjm (by rw [← h3]; rfl) hof id graph hjg hg
          exact absurd hf' (h1 ho j' hj')

/-- What is assumed of the supergraph and the graph. -/
structure Setting (env : Env) (kind : OpKind) : Prop where
  proper : Proper env.S
  noIo : NoInterfaceObjects env.S
  joins : JoinsOnce env.S
  graphs : GraphNames env.S
  simple : Simple env.S
  labels : Labelled env.S
  built : build env.S = .ok env.G

theorem Setting.own {env : Env} {kind : OpKind} (h : Setting env kind) : ProvidesOwn env.S := by
  intro x hx f hf j hj hp
  rw [h.simple.provides x hx f hf j hj] at hp; simp at hp

theorem Setting.says {env : Env} {kind : OpKind} (h : Setting env kind) {e : Edge} (he : e ∈ env.G.edges) :
    ∃ a b, env.G.node e.src = some a ∧ env.G.node e.dst = some b ∧ Says env.S a b e.weight :=
  build_says h.proper h.noIo h.own h.built e he

theorem Setting.agree {env : Env} {kind : OpKind} (h : Setting env kind) : Agree env kind :=
  build_agree h.proper h.noIo h.built kind

/-- A move that may be taken and needs nothing. -/
def Free (env : Env) (e : Edge) : Prop := Allowed env.ctx e.weight ∧ e.weight.requires = none

theorem sat_free {env : Env} {e : Edge} (h : Free env e) (p : Path) (ex : Excl) :
    sat env e p ex = .ok (some []) := by
  have h1 : overrideOk env.ctx e.weight = true := (allowed_iff _ _).mpr h.1
  simp [sat, canSatisfy, checkReqs, h1, h.2]

theorem Setting.fieldEdge {env : Env} {kind : OpKind} (h : Setting env kind) {type field result g : String}
    (hres : Graph.Resolves env.S type field g none) (hask : MayAsk env.S env.ctx type field g)
    (hty : HasField env.S type field result) {n : Nat} (hn : At env.G n type g) :
    ∃ e ∈ env.G.edges, e.src = n ∧ (∃ m, e.weight = .field m ∧ m.name = field) ∧ Free env e ∧
      At env.G e.dst result g := by
  obtain ⟨e, he, a, b, ha, hb, hpa, ⟨hb1, hb2⟩, m, hw, hm⟩ := build_field h.proper h.joins h.graphs h.built hres
    hty (by
      rintro ⟨d, hd, hk, _⟩
      exact h.simple.unions _ hd hk)
  have hba := build_bare h.simple h.built ha
  have hbb := build_bare h.simple h.built hb
  have hpb := hbb.plain hb1 hb2
  refine ⟨e, he, At.index h.built ⟨a, ha, hpa⟩ hn, ⟨m, hw, hm⟩, ?_, b, hb, hpb⟩
  obtain ⟨a', b', ha', hb', hsays⟩ := h.says he
  rw [ha, Option.some.injEq] at ha'
  rw [hb, Option.some.injEq] at hb'
  subst ha' hb'
  rw [hw] at hsays
  obtain ⟨g', hg', _, hsays⟩ := hsays
  obtain ⟨i, rfl⟩ := hpa
  simp only [Node.graph, Option.some.injEq] at hg'
  subst hg'
  have hne : m.name ≠ "__typename" := by
    obtain ⟨d, fd, h1, h2, _⟩ := hty
    rw [hm]
    exact h.proper.typename _ h1 _ h2
  rcases hsays with ⟨h1, _⟩ | ⟨_, ⟨needs, hr', hreq, hmv⟩ | ⟨h3, _⟩⟩
  · exact absurd h1 hne
  · refine ⟨fun m' hm' => ?_, ?_⟩
    · rw [hw, Weight.field.injEq] at hm'
      subst hm'
      have hmv := hmv hbb.1 hbb.2
      rw [hm] at hmv
      exact moved_may h.proper h.joins h.graphs h.labels hmv hask
    · rw [hw, Weight.requires, hreq]
      have : needs = none := by
        rw [hm] at hr'
        obtain ⟨d, fd, id, hd, hf, hg, _, hj⟩ := hres
        obtain ⟨d', fd', id', hd', hf', hg', _, hj'⟩ := hr'
        obtain rfl := h.proper.def_eq hd hd'
        obtain rfl := nodup_keys (h.proper.fields _ hd) hf hf'
        obtain rfl := h.graphs _ _ _ hg hg'
        rcases hj' with ⟨_, hj'⟩ | ⟨j', hj'm, hj'g, _, hj'⟩
        · exact hj'
        · rcases hj with ⟨hj, _⟩ | ⟨j, hjm, hjg, _, hj⟩
          · rw [hj] at hj'm; simp at hj'm
          · obtain rfl := h.joins _ hd _ hf j hjm j' hj'm (hjg.trans hj'g.symm) (by rw [hjg]; rfl)
            rw [hj', ← hj]
      rw [this]; rfl
  · rw [hba.1] at h3; simp at h3

theorem Setting.typenameEdge {env : Env} {kind : OpKind} (h : Setting env kind) {type g : String}
    (hc : Composite env.S type g) {n : Nat} (hn : At env.G n type g) :
    ∃ e ∈ env.G.edges, e.src = n ∧ (∃ m, e.weight = .field m ∧ m.name = "__typename") ∧ Free env e := by
  obtain ⟨d, hd, hk, j, hj, hg⟩ := hc
  obtain ⟨ls, hls, hall⟩ := built_moves h.built
  have hn1 : env.S.name j.graph = g := by simp [Super.name, hg]
  have hl : (⟨.type type (env.S.name j.graph) false none, env.S.string j.graph, typenameMove type⟩ : Link) ∈
      typeLinks env.S type d j.graph := by
    unfold typeLinks
    refine List.mem_append_left _ ?_
    have hio : (d.joinTypes.any fun x => x.graph == j.graph && x.interfaceObject) = false := by
      rw [Bool.eq_false_iff]
      intro hany
      obtain ⟨x, hx, hxx⟩ := List.any_eq_true.mp hany
      rw [Bool.and_eq_true, h.noIo _ hd x hx] at hxx
      simp at hxx
    rw [if_pos]
    · exact List.mem_singleton.mpr rfl
    · rw [hio]
      rcases hk with hk | hk <;> simp [hk]
  obtain ⟨e, he, a, b, ha, hb, hka, hkb, hwe⟩ := hall _ (links_has hls hd
    (.inr (.inl ⟨j.graph, List.mem_map.mpr ⟨j, hj, rfl⟩, hl⟩)))
  rw [hn1] at hka
  have hpa : Plain type g a := key_plain hka
  have hm : ∃ m, e.weight = .field m ∧ m.name = "__typename" := by
    rcases hwe with hw | hw
    · exact ⟨_, hw, rfl⟩
    · generalize e.weight = w at hw
      cases w <;> simp only [typenameMove, Weight.eqb, Bool.false_eq_true] at hw
      next m =>
        refine ⟨m, rfl, ?_⟩
        simp only [FieldMove.eqb, Bool.and_eq_true, beq_iff_eq] at hw
        exact hw.1.1.1.1.1.1.1
  have hfree : Free env e := by
    rcases hwe with hw | hw
    · refine ⟨fun m hm => ?_, by rw [hw]; rfl⟩
      rw [hw, typenameMove, Weight.field.injEq] at hm
      subst hm; trivial
    · obtain ⟨m, hm1, hm2⟩ := hm
      rw [hm1] at hw
      simp only [typenameMove, Weight.eqb, FieldMove.eqb, Bool.and_eq_true, decide_eq_true_eq] at hw
      refine ⟨fun m' hm' => ?_, ?_⟩
      · rw [hm1, Weight.field.injEq] at hm'
        subst hm'
        unfold MayUse
        rw [hw.2, hw.1.2]
        trivial
      · rw [hm1, Weight.requires]
        have := hw.1.1.2
        cases hr : m.requires with
        | none => rfl
        | some r => rw [hr] at this; simp [reqEq] at this
  exact ⟨e, he, At.index h.built ⟨a, ha, hpa⟩ hn, hm, hfree⟩

theorem Setting.onEdge {env : Env} {kind : OpKind} (h : Setting env kind) {type iface id g : String} {d : Def}
    (hd : (type, d) ∈ env.S.defs) (ho : d.kind = .object) (hi : (id, iface) ∈ d.implements)
    (hg : env.S.graphName id = some g) {n : Nat} (hn : At env.G n iface g) :
    ∃ e ∈ env.G.edges, e.src = n ∧ e.weight = .abstract type := by
  obtain ⟨e, he, a, b, ha, hb, hpa, hpb, hw⟩ := build_abstract h.proper h.built hd ho hi hg
  exact ⟨e, he, At.index h.built ⟨a, ha, hpa⟩ hn, hw⟩

/-! ## The best paths -/

def graphAt (G : Moves) (p : Path) : Option String := (G.node p.tail).bind Node.graph

/-- Every subgraph of the tracker has paths that end there. -/
def Kept (G : Moves) (t : Tracker) : Prop :=
  ∀ x ∈ t, x.2.2 ≠ [] ∧ ∀ p ∈ x.2.2, graphAt G p = some x.1

theorem addBest_kept {G : Moves} {g : String} {p : Path} (hp : graphAt G p = some g) : ∀ {t : Tracker},
    Kept G t → Kept G (addBest g p t) ∧ g ∈ (addBest g p t).map (·.1) ∧
      ∀ k ∈ t.map (·.1), k ∈ (addBest g p t).map (·.1)
  | [], h => by
    refine ⟨?_, by simp [addBest], by simp⟩
    intro x hx
    simp only [addBest, List.mem_singleton] at hx
    subst hx
    exact ⟨by simp, by simpa using hp⟩
  | (k, c, ps) :: r, h => by
    have hr : Kept G r := fun x hx => h x (List.mem_cons_of_mem _ hx)
    have hk := h (k, c, ps) (List.mem_cons_self ..)
    simp only [addBest]
    split
    · refine ⟨?_, by simp, fun k' hk' => by rw [List.map_cons]; exact List.mem_cons_of_mem _ hk'⟩
      intro x hx
      rcases List.mem_cons.mp hx with rfl | hx
      · exact ⟨by simp, by simpa using hp⟩
      · exact h x hx
    · split
      next he =>
        subst he
        split
        · refine ⟨?_, by simp, by simp⟩
          intro x hx
          rcases List.mem_cons.mp hx with rfl | hx
          · exact ⟨by simp, by simpa using hp⟩
          · exact hr x hx
        · split
          · refine ⟨?_, by simp, by simp⟩
            intro x hx
            rcases List.mem_cons.mp hx with rfl | hx
            · refine ⟨by simp, fun q hq => ?_⟩
              rcases List.mem_append.mp hq with hq | hq
              · exact hk.2 q hq
              · simp only [List.mem_singleton] at hq; subst hq; exact hp
            · exact hr x hx
          · exact ⟨h, by simp, fun k hk => hk⟩
      · obtain ⟨h1, h2, h3⟩ := addBest_kept hp hr
        refine ⟨?_, ?_, ?_⟩
        · intro x hx
          rcases List.mem_cons.mp hx with rfl | hx
          · exact hk
          · exact h1 x hx
        · rw [List.map_cons]; exact List.mem_cons_of_mem _ h2
        · intro k' hk'
          rw [List.map_cons] at hk' ⊢
          rcases List.mem_cons.mp hk' with rfl | hk'
          · exact List.mem_cons_self ..
          · exact List.mem_cons_of_mem _ (h3 k' hk')

theorem trackAll_kept {G : Moves} : ∀ {ps : List Path} {t t' : Tracker}, trackAll G ps t = .ok t' → Kept G t →
    Kept G t' ∧ (∀ k ∈ t.map (·.1), k ∈ t'.map (·.1)) ∧
      ∀ q ∈ ps, ∀ g, graphAt G q = some g → g ∈ t'.map (·.1)
  | [], t, t', h, hk => by
    simp only [trackAll, Except.ok.injEq] at h
    subst h
    exact ⟨hk, fun _ h => h, by simp⟩
  | p :: r, t, t', h, hk => by
    simp only [trackAll] at h
    split at h
    · simp at h
    next t1 h1 =>
      simp only [track] at h1
      split at h1
      · simp at h1
      next n hn =>
        split at h1
        · simp at h1
        next g hg =>
          simp only [Except.ok.injEq] at h1
          subst h1
          have hp : graphAt G p = some g := by rw [graphAt, hn]; exact hg
          obtain ⟨h2, h3, h4⟩ := addBest_kept hp hk
          obtain ⟨h5, h6, h7⟩ := trackAll_kept h h2
          refine ⟨h5, fun k hk => h6 k (h4 k hk), ?_⟩
          intro q hq g' hg'
          rcases List.mem_cons.mp hq with rfl | hq
          · rw [hp, Option.some.injEq] at hg'
            subst hg'
            exact h6 g h3
          · exact h7 q hq g' hg'

theorem trackAll_has {G : Moves} {ps : List Path} {t : Tracker} (h : trackAll G ps [] = .ok t) {q : Path}
    (hq : q ∈ ps) {g : String} (hg : graphAt G q = some g) : ∃ q' ∈ t.best, graphAt G q' = some g := by
  obtain ⟨h1, _, h2⟩ := trackAll_kept h (by intro x hx; simp at hx)
  obtain ⟨x, hx, rfl⟩ := List.mem_map.mp (h2 q hq g hg)
  obtain ⟨h3, h4⟩ := h1 x hx
  cases hl : x.2.2 with
  | nil => exact absurd hl h3
  | cons p r =>
    refine ⟨p, List.mem_flatMap.mpr ⟨x, hx, by rw [hl]; exact List.mem_cons_self ..⟩, h4 p ?_⟩
    rw [hl]; exact List.mem_cons_self ..

/-! ## Steps inside a subgraph -/

/-- All paths have come along the trail, and one of them ends at a type in the subgraph. -/
structure Here (env : Env) (kind : OpKind) (g : String) (tr : Trail) (type : String) (ps : List Path) : Prop where
  group : Group env kind tr ps
  ready : Ready env.G ps
  here : ∃ p ∈ ps, At env.G p.tail type g

theorem Here.ne {env : Env} {kind : OpKind} {g : String} {tr : Trail} {type : String} {ps : List Path}
    (h : Here env kind g tr type ps) : ps ≠ [] := by
  obtain ⟨p, hp, _⟩ := h.here
  rintro rfl
  simp at hp

theorem Setting.noUnion {env : Env} {kind : OpKind} (h : Setting env kind) {tr : Trail} {ps : List Path}
    (hg : Group env kind tr ps) : ∀ p ∈ ps, p.union = none := by
  intro p hp
  cases hu : p.union with
  | none => rfl
  | some u =>
    obtain ⟨ms, ons, tr0, q, n, d, _, _, hn, hd, _⟩ := hg.under p hp (by rw [hu]; simp)
    rw [(build_bare h.simple h.built hn).2] at hd
    simp at hd

theorem plain_name {t g : String} {a : Node} (h : Plain t g a) : a.name = t ∧ a.graph = some g := by
  obtain ⟨i, rfl⟩ := h; exact ⟨rfl, rfl⟩

theorem Here.name {env : Env} {kind : OpKind} (h : Setting env kind) {g : String} {tr : Trail}
    {type : String} {ps : List Path} (hh : Here env kind g tr type ps) : ∀ p ∈ ps,
    ∃ a, env.G.node p.tail = some a ∧ a.name = type := by
  intro p hp
  obtain ⟨q, hq, b, hb, hpl⟩ := hh.here
  have := h.agree tr p q (hh.group.arr p hp) (hh.group.arr q hq)
  rw [hb] at this
  cases ha : env.G.node p.tail with
  | none => rw [ha] at this; simp at this
  | some a =>
    rw [ha] at this
    simp only [Option.map_some, Option.some.injEq] at this
    exact ⟨a, rfl, this.trans (plain_name hpl).1⟩

theorem narrow_same {ps : List Path} (h : ∀ p ∈ ps, p.union = none) : narrow ps = ps := by
  unfold narrow
  split
  · rfl
  · rfl
  next p _ _ => rw [h p (by simp)]

theorem fieldPaths_fine {env : Env} (hc : Connected env.G) {f : FieldInfo} {ss : List Sel} {loc : List String}
    {ids : Option (List String)} {p : Path} (hp : OnType env.G p) : Fine (fieldPaths env f ss loc ids p) := by
  simp only [fieldPaths]
  split
  next e he => exact (findDirect_fine (sat_fine hc) hp).err he
  · split
    · split
      next e he => exact (findIndirect_fine hc (sat_fine hc) hp).1.err he
      · exact Fine.ok _
    · exact Fine.ok _

theorem fieldPaths_last {env : Env} {f : FieldInfo} {ss : List Sel} {loc : List String}
    {ids : Option (List String)} {p : Path} (hw : p.WF) {l : List Path}
    (h : fieldPaths env f ss loc ids p = .ok l) : ∀ q ∈ l, ∃ ids', LastBy env (.field f ss ids') q := by
  intro q hq
  simp only [fieldPaths] at h
  split at h
  · simp at h
  next ds hd =>
    have hd' := findDirect_goes (sat_good env) hw hd
    split at h
    · split at h
      · simp at h
      next is hi =>
        simp only [Except.ok.injEq] at h; subst h
        rcases List.mem_append.mp hq with hq | hq
        · exact ⟨_, (hd' q hq).2⟩
        · exact ⟨_, (findIndirect_goes (sat_good env) hw hi q hq).2⟩
    · simp only [Except.ok.injEq] at h; subst h
      exact ⟨_, (hd' q hq).2⟩

theorem findDirect_has {env : Env} {p : Path} {t : Target} (ha : p.allows t = true) {ds : List Path}
    (h : findDirect env.G (sat env) p t = .ok ds) {e : Edge} (he : e ∈ env.G.edges) (hs : e.src = p.tail)
    (hl : leadsTo t e = true) (hsat : sat env e p {} = .ok (some [])) : advance env.G p e [] t ∈ ds := by
  simp only [findDirect, ha, if_true] at h
  obtain ⟨o, ho, hr⟩ := collect_has h e
    (List.mem_filter.mpr ⟨by rw [← hs]; exact mem_edgesFrom_of he, hl⟩)
  simp only [tryAdvance, hsat, Except.ok.injEq] at ho
  exact hr _ ho.symm

theorem fieldPaths_direct {env : Env} {f : FieldInfo} {ss : List Sel} {loc : List String}
    {ids : Option (List String)} {p : Path} {l : List Path} (h : fieldPaths env f ss loc ids p = .ok l)
    {e : Edge} (he : e ∈ env.G.edges) (hs : e.src = p.tail)
    (hl : leadsTo (.field f ss none) e = true) (hf : Free env e) :
    advance env.G p e [] (.field f ss none) ∈ l := by
  simp only [fieldPaths] at h
  split at h
  · simp at h
  next ds hd =>
    have hd' := findDirect_has (by rfl) hd he hs hl (sat_free hf p {})
    split at h
    · split at h
      · simp at h
      · simp only [Except.ok.injEq] at h; subst h
        exact List.mem_append_left _ hd'
    · simp only [Except.ok.injEq] at h; subst h
      exact hd'

/-- What is found for a field the subgraph resolves. -/
theorem field_found {env : Env} {kind : OpKind} (h : Setting env kind) {g type : String} {tr : Trail}
    {ps : List Path} (hh : Here env kind g tr type ps) {f : FieldInfo} (ss : List Sel) (loc : List String)
    (hedge : ∀ n, At env.G n type g → ∃ e ∈ env.G.edges, e.src = n ∧ (∃ m, e.weight = .field m ∧ m.name = f.name) ∧
      Free env e) :
    ∃ ids found tk, (if !ps.isEmpty && !loc.contains f.name then targetIds env.G env.S f ps else .ok none) = .ok ids ∧
      mapPaths (fieldPaths env f ss loc ids) ps = .ok found ∧ trackAll env.G found [] = .ok tk ∧
      narrow tk.best = tk.best ∧ Group env kind (tr ++ [.field f]) tk.best ∧ Ready env.G tk.best ∧
      (∃ q ∈ tk.best, graphAt env.G q = some g) ∧ ∀ q ∈ tk.best, ∃ ids', LastBy env (.field f ss ids') q := by
  have hc := build_connected h.built
  obtain ⟨ids, hids⟩ : ∃ ids, (if !ps.isEmpty && !loc.contains f.name then targetIds env.G env.S f ps else .ok none)
      = .ok ids := by
    split
    · exact (targetIds_firm _ _ _ _).isOk (targetIds_fine hh.ready.on)
    · exact ⟨_, rfl⟩
  obtain ⟨found, hfound⟩ := (mapPaths_firm (fieldPaths_firm env f ss loc ids) ps).isOk
    (mapPaths_fine fun p hp => fieldPaths_fine hc (hh.ready p hp).1)
  have hlast : ∀ q ∈ found, ∃ ids', LastBy env (.field f ss ids') q := by
    intro q hq
    obtain ⟨p, hp, l, hl, hq⟩ := mapPaths_mem hfound q hq
    exact fieldPaths_last (hh.group.arr p hp).wf hl q hq
  have hready : Ready env.G found := by
    intro q hq
    obtain ⟨ids', p, e, rs, he, _, rfl⟩ := hlast q hq
    exact ⟨advance_onType hc he _ _ _, by simp [advance, Path.segs]⟩
  have hgroup := fieldPaths_group hh.group hfound
  obtain ⟨tk, htk⟩ := (trackAll_firm env.G found []).isOk (trackAll_fine hready.on [])
  have hsub : ∀ q ∈ tk.best, q ∈ found := by
    intro q hq
    rcases trackAll_mem htk q hq with h | h
    · exact h
    · simp [Tracker.best] at h
  have hgroup' := hgroup.sub hsub
  refine ⟨ids, found, tk, hids, hfound, htk, narrow_same (h.noUnion hgroup'), hgroup',
    fun q hq => hready q (hsub q hq), ?_, fun q hq => hlast q (hsub q hq)⟩
  obtain ⟨p, hp, hat⟩ := hh.here
  obtain ⟨e, he, hs, ⟨m, hw, hm⟩, hfree⟩ := hedge _ hat
  obtain ⟨l, hl, hlf⟩ := mapPaths_has hfound p hp
  have hq := hlf _ (fieldPaths_direct hl he hs (by simp [leadsTo, hw, hm]) hfree)
  refine trackAll_has htk hq ?_
  obtain ⟨a, b, ha, hb, hsays⟩ := h.says he
  rw [hw] at hsays
  obtain ⟨g', hga, hgb, _⟩ := hsays
  obtain ⟨a', ha', hpl⟩ := hat
  rw [hs, ha', Option.some.injEq] at ha
  subst ha
  rw [(plain_name hpl).2, Option.some.injEq] at hga
  subst hga
  rw [graphAt, advance_tail, hb]
  exact hgb

/-- Selections that are left to be resolved from paths in the subgraph. -/
def Open (env : Env) (kind : OpKind) (g : String) (st : List (Sel × List Path)) : Prop :=
  ∀ y ∈ st, ∃ tr type, Alone env.S env.ctx g type y.1 ∧ Here env kind g tr type y.2

/-- The step succeeds, leaves only such selections, and is not without result. -/
def StepsOk (env : Env) (kind : OpKind) (g : String) (x : Except Err Out) : Prop :=
  ∃ o, x = .ok o ∧ (o.1 ≠ [] ∨ o.2 ≠ []) ∧ Open env kind g o.1

theorem leaf_ok {env : Env} {kind : OpKind} (h : Setting env kind) {g type : String} {tr : Trail}
    {ps : List Path} (hh : Here env kind g tr type ps) {f : FieldInfo}
    {ok : Path → List String → Except Err Bool} {loc : List String}
    (hedge : ∀ n, At env.G n type g → ∃ e ∈ env.G.edges, e.src = n ∧ (∃ m, e.weight = .field m ∧ m.name = f.name) ∧
      Free env e) : StepsOk env kind g (fieldStep env f [] ok ps loc) := by
  obtain ⟨ids, found, tk, h1, h2, h3, h4, _, _, ⟨q, hq, _⟩, _⟩ := field_found h hh [] loc hedge
  simp only [fieldStep, h1, h2, h3, h4]
  cases hb : tk.best with
  | nil => rw [hb] at hq; simp at hq
  | cons n next =>
    refine ⟨([], [findBest (n :: next)]), by simp [fieldOut, localFields], .inr (by simp), ?_⟩
    intro y hy; simp at hy

theorem filterPaths_keep {f : Path → Except Err Bool} : ∀ {ps : List Path}, (∀ p ∈ ps, ∃ b, f p = .ok b) →
    ∃ l, filterPaths f ps = .ok l ∧ ∀ q ∈ ps, f q = .ok true → q ∈ l
  | [], _ => ⟨[], rfl, by simp⟩
  | p :: r, h => by
    obtain ⟨b, hb⟩ := h p (by simp)
    obtain ⟨l, hl, hk⟩ := filterPaths_keep (ps := r) fun q hq => h q (List.mem_cons_of_mem _ hq)
    refine ⟨if b then p :: l else l, by simp [filterPaths, hb, hl], ?_⟩
    intro q hq ht
    rcases List.mem_cons.mp hq with rfl | hq
    · rw [hb, Except.ok.injEq] at ht
      simp [ht]
    · split
      · exact List.mem_cons_of_mem _ (hk q hq ht)
      · exact hk q hq ht

theorem def?_of {S : Super} (hS : Proper S) {t : String} {d : Def} (h : (t, d) ∈ S.defs) : S.def? t = some d := by
  cases hd : S.def? t with
  | none =>
    exfalso
    unfold Super.def? at hd
    have := List.lookup_eq_none_iff.mp hd _ h
    simp at this
  | some d' => rw [hS.def_eq h (def?_mem hd)]

theorem localFields_ok {env : Env} {kind : OpKind} (h : Setting env kind) {f : FieldInfo} {ss : List Sel}
    {r : String} {next : List Path} (hne : f.name ≠ "__typename") (hr : ∃ d, (r, d) ∈ env.S.defs)
    (hlast : ∀ q ∈ next, ∃ ids', LastBy env (.field f ss ids') q)
    (hname : ∀ q ∈ next, ∃ a, env.G.node q.tail = some a ∧ a.name = r) :
    ∃ loc, localFields env f ss next = .ok loc := by
  obtain ⟨ls, hls, hB⟩ := build_built h.built
  simp only [localFields]
  split
  · exact ⟨_, rfl⟩
  · split
    · exact ⟨_, rfl⟩
    next e he =>
      obtain ⟨q, hq, hlf⟩ := List.exists_of_findSome?_eq_some he
      obtain ⟨ids', p, e', rs, he', hl, hqe⟩ := hlast q hq
      obtain ⟨b0, hb0, hname⟩ := hname q hq
      have hee : e = e' ∧ ∃ m, e.weight = .field m := by
        subst hqe
        simp only [lastFieldMove, advance, Path.segs, List.getLast?_append, List.getLast?_singleton,
          Option.some_or] at hlf
        split at hlf
        next e1 h1 =>
          split at hlf
          next m hm =>
            simp only [Option.some.injEq] at hlf
            subst hlf
            have := List.find?_some h1
            have h2 := List.mem_of_find?_eq_some h1
            exact ⟨edge_of_id hB h2 he' (by simpa using this), m, hm⟩
          · simp at hlf
        · simp at hlf
      obtain ⟨rfl, m, hm⟩ := hee
      have hmn : m.name = f.name := by simpa [leadsTo, hm] using hl
      obtain ⟨a, b, ha, hb, hsays⟩ := h.says he'
      rw [hm] at hsays
      obtain ⟨g', _, _, hsays⟩ := hsays
      rcases hsays with ⟨h1, _⟩ | ⟨⟨d, fd, hd, hf, _⟩, _⟩
      · exact absurd (hmn.symm.trans h1) hne
      · have hbb : b.name = r := by
          rw [hqe, advance_tail, hb, Option.some.injEq] at hb0
          rw [hb0]; exact hname
        obtain ⟨dr, hdr⟩ := hr
        rw [hmn] at hf
        have hlk : d.fields.lookup f.name = some fd := by
          cases hlk : d.fields.lookup f.name with
          | none => have := List.lookup_eq_none_iff.mp hlk _ hf; simp at this
          | some fd' => rw [nodup_keys (h.proper.fields _ hd) (Graph.lookup_mem hlk) hf]
        simp only [ha, hb, def?_of h.proper hd, hlk, hbb, def?_of h.proper hdr]
        split <;> exact ⟨_, rfl⟩

theorem childrenOk_firm {env : Env} : ∀ (ss : List Sel) (c : Path) (loc : List String),
    Firm (childrenOk env ss c loc)
  | [], c, loc => by simp only [childrenOk]; exact Firm.ok _
  | x :: r, c, loc => by
    simp only [childrenOk]
    split
    · exact Firm.error trivial
    · exact Firm.error trivial
    · exact Firm.ok _
    · split
      · exact Firm.ok _
      · exact childrenOk_firm r c loc

theorem branch_ok {env : Env} {kind : OpKind} (h : Setting env kind) {g type r : String} {tr : Trail}
    {ps : List Path} (hh : Here env kind g tr type ps) {f : FieldInfo} {x : Sel} {ss : List Sel}
    {loc : List String} (hres : Graph.Resolves env.S type f.name g none)
    (hask : MayAsk env.S env.ctx type f.name g) (hty : HasField env.S type f.name r)
    (hr : ∃ d, (r, d) ∈ env.S.defs) (hal : ∀ y ∈ x :: ss, Alone env.S env.ctx g r y)
    (hok : ∀ c l, Here env kind g (tr ++ [.field f]) r [c] → childrenOk env (x :: ss) c l = .ok true) :
    StepsOk env kind g (fieldStep env f (x :: ss) (fun c l => childrenOk env (x :: ss) c l) ps loc) := by
  have hc := build_connected h.built
  have hne : f.name ≠ "__typename" := by
    obtain ⟨d, fd, h1, h2, _⟩ := hty
    exact h.proper.typename _ h1 _ h2
  obtain ⟨ids, found, tk, h1, h2, h3, h4, hgrp, hrdy, ⟨q, hq, hqg⟩, hlast⟩ := field_found h hh (f := f) (x :: ss) loc
    (fun n hn => by
      obtain ⟨e, he, hs, hm, hf, _⟩ := h.fieldEdge hres hask hty hn
      exact ⟨e, he, hs, hm, hf⟩)
  -- all paths end at the type of the field
  have hends : ∀ q ∈ tk.best, ∃ b, env.G.node q.tail = some b ∧ b.name = r := by
    obtain ⟨p, hp, hat⟩ := hh.here
    obtain ⟨e, he, hs, ⟨m, hm, hmn⟩, hf, b, hb, hpl⟩ := h.fieldEdge hres hask hty hat
    obtain ⟨l, hl, hlf⟩ := mapPaths_has h2 p hp
    have hq0 := hlf _ (fieldPaths_direct hl he hs (by simp [leadsTo, hm, hmn]) hf)
    intro q hq
    have hqf : q ∈ found := by
      rcases trackAll_mem h3 q hq with h | h
      · exact h
      · simp [Tracker.best] at h
    have hg := fieldPaths_group hh.group h2
    have := h.agree _ q _ (hg.arr q hqf) (hg.arr _ hq0)
    rw [advance_tail, hb] at this
    cases hn : env.G.node q.tail with
    | none => rw [hn] at this; simp at this
    | some c =>
      rw [hn] at this
      simp only [Option.map_some, Option.some.injEq] at this
      exact ⟨c, rfl, this.trans (plain_name hpl).1⟩
  have hat : ∀ q ∈ tk.best, graphAt env.G q = some g → At env.G q.tail r g := by
    intro q hq hg
    obtain ⟨b, hb, hn⟩ := hends q hq
    rw [graphAt, hb] at hg
    exact ⟨b, hb, (build_bare h.simple h.built hb).plain hn hg⟩
  obtain ⟨loc', hloc⟩ := localFields_ok h (ss := x :: ss) hne hr hlast hends
  have hout : ∃ next, next ≠ [] ∧ fieldOut env f (x :: ss) (fun c l => childrenOk env (x :: ss) c l) tk.best =
      .ok ((x :: ss).map ((·, next)), []) ∧ (∀ p ∈ next, p ∈ tk.best) ∧ q ∈ next := by
    simp only [fieldOut, hloc]
    by_cases hl : loc'.isEmpty = true
    · refine ⟨tk.best, fun hb => by rw [hb] at hq; simp at hq, ?_, fun p hp => hp, hq⟩
      rw [if_pos hl]
      cases hb : tk.best with
      | nil => rw [hb] at hq; simp at hq
      | cons n next => simp
    · rw [if_neg hl]
      obtain ⟨l, hl1, hl2⟩ := filterPaths_keep (f := fun c => childrenOk env (x :: ss) c loc') (ps := tk.best)
        fun p hp => (childrenOk_firm _ p loc').isOk (childrenOk_fine hc _ (hrdy p hp).1 (hrdy p hp).2)
      have hql : q ∈ l := by
        refine hl2 q hq (hok q loc' ⟨hgrp.sub (by simpa using hq), ?_, q, by simp, hat q hq hqg⟩)
        intro p hp
        simp only [List.mem_singleton] at hp
        subst hp; exact hrdy _ hq
      refine ⟨l, fun hb => by rw [hb] at hql; simp at hql, ?_, filterPaths_mem hl1, hql⟩
      simp only [hl1]
      cases l with
      | nil => simp at hql
      | cons n next => simp
  obtain ⟨next, hn1, hn2, hn3, hn4⟩ := hout
  refine ⟨((x :: ss).map ((·, next)), []), ?_, .inl (by simp), ?_⟩
  · simp only [fieldStep, h1, h2, h3, h4]
    cases hb : tk.best with
    | nil => rw [hb] at hq; simp at hq
    | cons n r => rw [hb] at hn2; exact hn2
  · intro y hy
    obtain ⟨z, hz, rfl⟩ := List.mem_map.mp hy
    exact ⟨_, r, hal z hz, hgrp.sub hn3, fun p hp => hrdy p (hn3 p hp), q, hn4, hat q hq hqg⟩

/-! ## Fragments -/

theorem onto_here {env : Env} {kind : OpKind} (h : Setting env kind) {g type : String} {tr : Trail}
    {ps : List Path} (hh : Here env kind g tr type ps) {fi : FragInfo} {loc : List String} {id : String} {d : Def}
    (hd : (fi.cond, d) ∈ env.S.defs) (ho : d.kind = .object) (hi : (id, type) ∈ d.implements)
    (hg : env.S.graphName id = some g) :
    ∃ next, mapPaths (ontoFrom env fi loc) ps = .ok next ∧
      Here env kind g (tr ++ [.on fi.cond (fi.skipIf, fi.includeIf)]) fi.cond next := by
  have hc := build_connected h.built
  obtain ⟨next, hnext⟩ := (mapPaths_firm (ontoFrom_firm env fi loc) ps).isOk
    (mapPaths_fine fun p hp => (ontoFrom_fine hc (hh.ready p hp).1).1)
  have hun := h.noUnion hh.group
  have hno : ∀ q ∈ next, q.union = none := by
    intro q hq
    obtain ⟨p, hp, l, hl, hq⟩ := mapPaths_mem hnext q hq
    cases hu : q.union with
    | none => rfl
    | some u => exact absurd (hun p hp) (ontoFrom_union hl q hq u hu).1
  refine ⟨next, hnext, ⟨?_, ?_, ?_⟩, ?_, ?_⟩
  · intro q hq
    obtain ⟨p, hp, l, hl, hq⟩ := mapPaths_mem hnext q hq
    exact (hh.group.arr p hp).goes (ontoFrom_goes (hh.group.arr p hp).wf hl q hq)
  · intro q hq hu
    exact absurd (hno q hq) hu
  · intro q hq u hu
    rw [hno q hq] at hu; simp at hu
  · exact mapPaths_ready (fun p hp l hl => (ontoFrom_fine hc (hh.ready p hp).1).2 l hl) hnext
  · obtain ⟨p, hp, hat⟩ := hh.here
    obtain ⟨l, hl, hlf⟩ := mapPaths_has hnext p hp
    obtain ⟨e, he, hs, hw⟩ := h.onEdge hd ho hi hg hat
    simp only [ontoFrom] at hl
    split at hl
    · simp at hl
    next ds hds =>
      have hall : p.allows (.type fi.cond (fi.skipIf, fi.includeIf)) = true := by
        simp [Path.allows, hun p hp]
      have hin := findDirect_has hall hds he hs (by simp [leadsTo, hw]) (sat_abstract hw)
      cases ds with
      | nil => simp at hin
      | cons q ds =>
        have hql : q ∈ l := by
          split at hl
          · split at hl
            · simp at hl
            · simp only [Except.ok.injEq] at hl; subst hl; simp
          · simp only [Except.ok.injEq] at hl; subst hl; simp
        refine ⟨q, hlf q hql, ?_⟩
        simp only [findDirect, hall, if_true] at hds
        obtain ⟨e', he', hq⟩ := collect_mem hds q (by simp)
        obtain ⟨he', hle⟩ := List.mem_filter.mp he'
        obtain ⟨he', hs'⟩ := mem_edgesFrom he'
        obtain ⟨a, b, ha, hb, hsays⟩ := h.says he'
        simp only [tryAdvance] at hq
        split at hq
        · simp at hq
        · simp at hq
        · simp only [Except.ok.injEq, Option.some.injEq] at hq
          subst hq
          rw [advance_tail]
          obtain ⟨a', ha', hpl⟩ := hat
          rw [hs', ha', Option.some.injEq] at ha
          subst ha
          cases hw' : e'.weight <;> simp only [leadsTo, hw', Bool.false_eq_true] at hle <;> rw [hw'] at hsays
          next m =>
            obtain ⟨hg1, hg2⟩ := hsays
            rw [beq_iff_eq] at hle
            subst hle
            exact ⟨b, hb, (build_bare h.simple h.built hb).plain hg2 (hg1.trans (plain_name hpl).2)⟩
          next => exact absurd hsays (by simp [Says])

theorem fragStep_narrower {env : Env} {kind : OpKind} (h : Setting env kind) {g type : String} {tr : Trail}
    {ps : List Path} (hh : Here env kind g tr type ps) {fi : FragInfo} {loc : List String} {id : String} {d : Def}
    (hne : fi.cond ≠ type) (hd : (fi.cond, d) ∈ env.S.defs) (ho : d.kind = .object)
    (hi : (id, type) ∈ d.implements) (hg : env.S.graphName id = some g) {k : List Path → Except Err Out}
    (hk : ∀ qs, Here env kind g (tr ++ [.on fi.cond (fi.skipIf, fi.includeIf)]) fi.cond qs →
      StepsOk env kind g (k qs)) : StepsOk env kind g (fragStep env fi k ps loc) := by
  obtain ⟨next, h1, h2⟩ := onto_here h hh (loc := loc) hd ho hi hg
  cases ps with
  | nil => exact absurd rfl hh.ne
  | cons p r =>
    obtain ⟨⟨t, g', i, s, hn⟩, hsegs⟩ := hh.ready p (by simp)
    obtain ⟨a, ha, hname⟩ := hh.name h p (by simp)
    rw [hn, Option.some.injEq] at ha
    subst ha
    simp only [Node.name] at hname
    subst hname
    have hb : (t == fi.cond) = false := by
      rw [beq_eq_false_iff_ne]; exact fun he => hne he.symm
    have hse : p.segs.isEmpty = false := by simpa using hsegs
    simp only [fragStep, hse, hn, hb, h1, Bool.false_eq_true, if_false]
    cases next with
    | nil => exact absurd rfl h2.ne
    | cons n next => exact hk _ h2

theorem fragStep_same {env : Env} {kind : OpKind} (h : Setting env kind) {g type : String} {tr : Trail}
    {ps : List Path} (hh : Here env kind g tr type ps) {fi : FragInfo} {loc : List String}
    (heq : fi.cond = type) (h1 : fi.skipIf = none) (h2 : fi.includeIf = none) {k : List Path → Except Err Out}
    (hk : StepsOk env kind g (k ps)) : StepsOk env kind g (fragStep env fi k ps loc) := by
  cases ps with
  | nil => exact absurd rfl hh.ne
  | cons p r =>
    obtain ⟨⟨t, g', i, s, hn⟩, hsegs⟩ := hh.ready p (by simp)
    obtain ⟨a, ha, hname⟩ := hh.name h p (by simp)
    rw [hn, Option.some.injEq] at ha
    subst ha
    simp only [Node.name] at hname
    have hse : p.segs.isEmpty = false := by simpa using hsegs
    simp only [fragStep, hse, hn, hname, heq, beq_self_eq_true, if_true, h1, h2, Bool.false_eq_true, if_false,
      Option.isNone_none, Bool.and_self]
    exact hk

/-! ## The walk -/

mutual
theorem processSel_ok {env : Env} {kind : OpKind} (h : Setting env kind) {g : String} :
    ∀ (x : Sel) {type : String} {tr : Trail} {ps : List Path} {loc : List String},
    Alone env.S env.ctx g type x → Here env kind g tr type ps → StepsOk env kind g (processSel env x ps loc)
  | .field f [], type, tr, ps, loc, ha, hh => by
    simp only [processSel]
    cases ha with
    | typename _ _ hn hcomp =>
      refine leaf_ok h hh fun n hat => ?_
      rw [hn]
      exact h.typenameEdge hcomp hat
    | leaf _ _ hres hask =>
      refine leaf_ok h hh fun n hat => ?_
      have hres' := hres
      obtain ⟨d, fd, id, hd, hf, _⟩ := hres'
      obtain ⟨e, h1, h2, h3, h4, _⟩ := h.fieldEdge hres hask ⟨d, fd, hd, hf, rfl⟩ hat
      exact ⟨e, h1, h2, h3, h4⟩
  | .field f (x :: ss), type, tr, ps, loc, ha, hh => by
    simp only [processSel]
    cases ha with
    | field _ _ r _ _ hres hask hty hr hal =>
      exact branch_ok h hh hres hask hty hr hal fun c l hc =>
        childrenOk_ok h (x :: ss) hal hc
  | .frag fi [], type, tr, ps, loc, ha, hh => nomatch ha
  | .frag fi (x :: ss), type, tr, ps, loc, ha, hh => by
    simp only [processSel]
    cases ha with
    | same _ _ _ _ heq h1 h2 hal =>
      exact fragStep_same h hh heq h1 h2 (processSels_ok h x ss hal hh)
    | narrower _ _ _ _ id d hne hd ho hi hg hal =>
      exact fragStep_narrower h hh hne hd ho hi hg fun qs hq => processSels_ok h x ss hal hq
  | .spread _, _, _, _, _, ha, _ => nomatch ha
termination_by x => 2 * sizeOf x
theorem processSels_ok {env : Env} {kind : OpKind} (h : Setting env kind) {g : String} :
    ∀ (x : Sel) (ss : List Sel) {type : String} {tr : Trail} {ps : List Path} {loc : List String},
    (∀ y ∈ x :: ss, Alone env.S env.ctx g type y) → Here env kind g tr type ps →
    StepsOk env kind g (processSels env (x :: ss) ps loc)
  | x, ss, type, tr, ps, loc, ha, hh => by
    obtain ⟨o, h1, h2, h3⟩ := processSel_ok h x (loc := loc) (ha x (by simp)) hh
    simp only [processSels, h1]
    cases ss with
    | nil =>
      simp only [processSels]
      refine ⟨_, rfl, by simpa using h2, ?_⟩
      intro y hy
      exact h3 y (by simpa using hy)
    | cons y ss =>
      obtain ⟨o', h1', h2', h3'⟩ := processSels_ok h y ss (loc := loc)
        (fun z hz => ha z (List.mem_cons_of_mem _ hz)) hh
      simp only [h1']
      refine ⟨_, rfl, ?_, ?_⟩
      · rcases h2 with h2 | h2
        · exact .inl (by simp [h2])
        · exact .inr (by simp [h2])
      · intro z hz
        rcases List.mem_append.mp hz with hz | hz
        · exact h3 z hz
        · exact h3' z hz
termination_by x ss => 2 * (sizeOf x + sizeOf ss) + 1
theorem childrenOk_ok {env : Env} {kind : OpKind} (h : Setting env kind) {g : String} :
    ∀ (ss : List Sel) {type : String} {tr : Trail} {c : Path} {loc : List String},
    (∀ y ∈ ss, Alone env.S env.ctx g type y) → Here env kind g tr type [c] →
    childrenOk env ss c loc = .ok true
  | [], type, tr, c, loc, ha, hh => by simp [childrenOk]
  | x :: ss, type, tr, c, loc, ha, hh => by
    obtain ⟨o, h1, h2, h3⟩ := processSel_ok h x (loc := loc) (ha x (by simp)) hh
    have := childrenOk_ok h ss (loc := loc) (fun z hz => ha z (List.mem_cons_of_mem _ hz)) hh
    simp only [childrenOk, h1]
    rw [if_neg, this]
    rcases h2 with h2 | h2 <;> simp [h2]
termination_by ss => 2 * sizeOf ss
end

theorem walkLoop_ok {env : Env} {kind : OpKind} (h : Setting env kind) {g : String} :
    ∀ (n : Nat) (st : List (Sel × List Path)) (acc : List (List Path)), load st < n → Open env kind g st →
    ∃ gs, walkLoop env n st acc = .ok gs
  | 0, _, _, hl, _ => by omega
  | n + 1, [], acc, _, _ => ⟨acc, rfl⟩
  | n + 1, (x, ps) :: st, acc, hl, ho => by
    obtain ⟨tr, type, ha, hh⟩ := ho (x, ps) (by simp)
    obtain ⟨o, h1, _, h3⟩ := processSel_ok h x (loc := []) ha hh
    have hgood := (processSel_good (build_connected h.built) x (loc := []) hh.ne hh.ready).2 o h1
    simp only [walkLoop, h1]
    simp only [load] at hl
    refine walkLoop_ok h (g := g) n _ _ (by rw [load_append]; omega) ?_
    intro y hy
    rcases List.mem_append.mp hy with hy | hy
    · exact h3 y hy
    · exact ho y (List.mem_cons_of_mem _ hy)

theorem walkRoots_ok {env : Env} {kind : OpKind} (h : Setting env kind) {g type : String} {start : List Path}
    (hs : Here env kind g [] type start) : ∀ (sels : List Sel), (∀ x ∈ sels, Alone env.S env.ctx g type x) →
    ∃ out, walkRoots env start sels = .ok out
  | [], _ => ⟨[], rfl⟩
  | x :: r, ha => by
    obtain ⟨gs, h1⟩ := walkLoop_ok h (selCost x + 1) [(x, start)] [] (by simp [load])
      (fun y hy => by
        simp only [List.mem_singleton] at hy
        subst hy
        exact ⟨[], type, ha x (by simp), hs⟩)
    obtain ⟨out, h2⟩ := walkRoots_ok h hs r fun y hy => ha y (List.mem_cons_of_mem _ hy)
    exact ⟨gs :: out, by simp [walkRoots, h1, h2]⟩

/-! ## The root -/

theorem rootKind_of {S : Super} {kind : OpKind} {type : String} (ht : rootType S kind = some type) :
    ∃ k, S.rootKind type = some k := by
  unfold Super.rootKind
  cases kind <;> simp only [rootType] at ht
  · rw [Option.some.injEq] at ht
    exact ⟨.query, by rw [if_pos (by simp [ht])]⟩
  · split
    · exact ⟨_, rfl⟩
    · exact ⟨_, by rw [if_pos (by simp [ht])]⟩
  · split
    · exact ⟨_, rfl⟩
    · split
      · exact ⟨_, rfl⟩
      · exact ⟨_, by rw [if_pos (by simp [ht])]⟩

theorem entry_at {S : Super} (hS : Proper S) {G : Moves} (hb : build S = .ok G) {kind : OpKind}
    {type field graph : String} {needs : Option (List Sel)} {d : Def} (hd : (type, d) ∈ S.defs)
    (ho : d.kind = .object) (ht : rootType S kind = some type)
    (hres : Graph.Resolves S type field graph needs) {r : Nat} (hr : rootOf G kind = some r) :
    ∃ e ∈ G.edges, e.src = r ∧ At G e.dst type graph := by
  obtain ⟨ls, hls, hB⟩ := build_built hb
  obtain ⟨t, a, h1, h2, h3⟩ := Built.rootOf hB hr
  rw [ht, Option.some.injEq] at h1
  subst h1
  obtain ⟨k, hk⟩ := rootKind_of ht
  obtain ⟨e, he, a', b', ha', hb', hka, hkb, _⟩ := build_entry hS hb hd ho hk hres
  exact ⟨e, he, hB.distinct.index ha' h2 (hka.trans h3.symm), b', hb', hkb⟩

theorem rootOf_some {S : Super} {G : Moves} (hb : build S = .ok G) {kind : OpKind} {type : String}
    (ht : rootType S kind = some type) : ∃ r, rootOf G kind = some r := by
  obtain ⟨ls, hls, hB⟩ := build_built hb
  obtain ⟨h1, h2, h3⟩ := hB.root
  cases kind <;> simp only [rootType] at ht <;> simp only [rootOf, h1, h2, h3]
  · exact ⟨_, rfl⟩
  · unfold roots
    rw [ht]
    cases S.subscriptionType <;> exact ⟨_, rfl⟩
  · unfold roots
    rw [ht]
    cases S.mutationType <;> exact ⟨_, rfl⟩

theorem walk_ok {env : Env} {kind : OpKind} (h : Setting env kind) {type field g : String}
    {needs : Option (List Sel)} {d : Def} (hd : (type, d) ∈ env.S.defs) (ho : d.kind = .object)
    (ht : rootType env.S kind = some type) (hres : Graph.Resolves env.S type field g needs) {sels : List Sel}
    (ha : ∀ x ∈ sels, Alone env.S env.ctx g type x) : ∃ out, walk env kind sels = .ok out := by
  obtain ⟨r, hr⟩ := rootOf_some h.built ht
  have hen : entrypoints env.G kind = .ok (env.G.edges.filter (·.src == r)) := by
    have : entrypoints env.G kind = match rootOf env.G kind with
      | none => .error .missingRoot
      | some r => .ok (env.G.edges.filter (·.src == r)) := by cases kind <;> rfl
    rw [this, hr]
  have hm := entrypoints_mem hen
  simp only [walk, hen]
  obtain ⟨e, he, hs, hat⟩ := entry_at h.proper h.built hd ho ht hres hr
  refine walkRoots_ok h (g := g) (type := type) ⟨⟨?_, ?_, ?_⟩, entry_ready (build_connected h.built) hen, ?_⟩ sels ha
  · intro p hp
    obtain ⟨e, hes, rfl⟩ := List.mem_map.mp hp
    exact Arrives.entry (hm e hes).1 (hm e hes).2
  · intro p hp hu
    obtain ⟨e, hes, rfl⟩ := List.mem_map.mp hp
    exact absurd rfl hu
  · intro p hp u hu
    obtain ⟨e, hes, rfl⟩ := List.mem_map.mp hp
    simp [entryPath, Path.union] at hu
  · exact ⟨entryPath e, List.mem_map.mpr ⟨e, List.mem_filter.mpr ⟨he, by simp [hs]⟩, rfl⟩, hat⟩

end Verif.Walker
