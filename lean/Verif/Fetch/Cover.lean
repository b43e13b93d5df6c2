import Verif.Fetch.Grow
import Verif.Fetch.Trees

/-!
# Lemmas: what paths lead to is asked for
-/

namespace Verif.Fetch

open Verif.Graph (OpKind Moves Edge Weight FieldMove Req)
open Verif.Walker (Cond Env)

variable {v : Vars}

/-! ## Paths in trees -/

mutual
/-- The segments are in the trees. -/
def Carried : List (Walker.Seg Walker.Path) → List Tree → Prop
  | [], _ => True
  | ⟨e, t, _, rs, a, c⟩ :: r, ts => ∃ l qs cs, Tree.mk l qs cs ∈ ts ∧ l.node = t ∧ l.edge = some e ∧ l.attrs = a ∧
      l.cond = c ∧ CarriedReqs rs qs ∧ Carried r cs
/-- The paths are in the trees. -/
def CarriedReqs : List Walker.Path → List Tree → Prop
  | [], _ => True
  | p :: r, ts => CarriedPath p ts ∧ CarriedReqs r ts
/-- The path is in one of the trees. -/
def CarriedPath : Walker.Path → List Tree → Prop
  | .mk root segs _ _, ts => ∃ l qs cs, Tree.mk l qs cs ∈ ts ∧ l = { node := root } ∧ Carried segs cs
end

mutual
theorem Carried.mono : ∀ {segs : List (Walker.Seg Walker.Path)} {ts us : List Tree}, Carried segs ts → SubL ts us →
    Carried segs us
  | [], _, _, _, _ => trivial
  | ⟨e, t, _, rs, a, c⟩ :: r, ts, us, h, hs => by
    simp only [Carried] at h ⊢
    obtain ⟨l, qs, cs, hm, h1, h2, h3, h4, h5, h6⟩ := h
    obtain ⟨⟨l', qs', cs'⟩, hu, hsub⟩ := subL_iff.1 hs _ hm
    simp only [Sub, Tree.label, Tree.reqs, Tree.children] at hsub
    obtain ⟨rfl, s1, s2⟩ := hsub
    exact ⟨l', qs', cs', hu, h1, h2, h3, h4, CarriedReqs.mono h5 s1, Carried.mono h6 s2⟩
theorem CarriedReqs.mono : ∀ {ps : List Walker.Path} {ts us : List Tree}, CarriedReqs ps ts → SubL ts us →
    CarriedReqs ps us
  | [], _, _, _, _ => trivial
  | _ :: _, _, _, h, hs => by
    simp only [CarriedReqs] at h ⊢
    exact ⟨CarriedPath.mono h.1 hs, CarriedReqs.mono h.2 hs⟩
theorem CarriedPath.mono : ∀ {p : Walker.Path} {ts us : List Tree}, CarriedPath p ts → SubL ts us → CarriedPath p us
  | .mk root segs _ _, ts, us, h, hs => by
    simp only [CarriedPath] at h ⊢
    obtain ⟨l, qs, cs, hm, h1, h2⟩ := h
    obtain ⟨⟨l', qs', cs'⟩, hu, hsub⟩ := subL_iff.1 hs _ hm
    simp only [Sub, Tree.label, Tree.reqs, Tree.children] at hsub
    obtain ⟨rfl, s1, s2⟩ := hsub
    exact ⟨l', qs', cs', hu, h1, Carried.mono h2 s2⟩
end

/-- The subgraph of a node. -/
def graphAt (G : Moves) (n : Nat) : Option String := (G.node n).bind Verif.Graph.Node.graph

mutual
/-- The segments start at a node, and each starts where the one before it ends; only moves that need something
have requirements, and those start at the same node; one enters a subgraph only from outside of all of them. -/
def Okay (G : Moves) : Nat → List (Walker.Seg Walker.Path) → Prop
  | _, [] => True
  | n, ⟨e, t, _, rs, _, _⟩ :: r => (∃ x, Walker.Moves.edge? G e = some x ∧ x.src = n ∧ t = x.dst ∧
      (x.weight.requires = none → rs = []) ∧ (∀ s k, x.weight = .entry s k → graphAt G n = none)) ∧ OkayReqs G n rs ∧ Okay G t r
/-- See `Okay`. -/
def OkayReqs (G : Moves) : Nat → List Walker.Path → Prop
  | _, [] => True
  | n, p :: r => OkayPath G n p ∧ OkayReqs G n r
/-- See `Okay`. -/
def OkayPath (G : Moves) : Nat → Walker.Path → Prop
  | n, .mk root segs _ _ => root = n ∧ Okay G n segs
end

theorem pathTree_label {pos : Option Nat} {p : Walker.Path} : (pathTree pos p).label = { node := p.root } := by
  cases p
  simp [pathTree, Tree.label, Walker.Path.root]

theorem okay_labels {G : Moves} {n : Nat} : ∀ {ps : List Walker.Path}, OkayReqs G n ps →
    ∀ t ∈ reqTrees ps, t.label = { node := n }
  | [], _, t, ht => by simp [reqTrees] at ht
  | .mk _ _ _ _ :: r, h, t, ht => by
    simp only [OkayReqs, OkayPath] at h
    simp only [reqTrees, List.mem_cons] at ht
    rcases ht with rfl | ht
    · rw [pathTree_label]
      simp [Walker.Path.root, h.1.1]
    · exact okay_labels h.2 t ht

mutual
theorem segs_carried {G : Moves} : ∀ (segs : List (Walker.Seg Walker.Path)) {pos : Option Nat} {n : Nat},
    Okay G n segs → Carried segs (segsTree pos segs)
  | [], _, _, _ => trivial
  | ⟨e, t, _, rs, a, c⟩ :: r, pos, n, h => by
    simp only [Okay] at h
    simp only [Carried, segsTree]
    refine ⟨_, _, _, List.mem_singleton.2 rfl, rfl, rfl, rfl, rfl, ?_, segs_carried r h.2.2⟩
    exact (reqs_carried rs h.2.1).mono (mergeAll_sub (okay_labels h.2.1))
theorem reqs_carried {G : Moves} : ∀ (ps : List Walker.Path) {n : Nat}, OkayReqs G n ps →
    CarriedReqs ps (reqTrees ps)
  | [], _, _ => trivial
  | p :: r, n, h => by
    simp only [OkayReqs] at h
    simp only [CarriedReqs, reqTrees]
    refine ⟨?_, ?_⟩
    · have := path_carried (pos := none) p h.1
      exact this.mono (subL_iff.2 fun t ht => ⟨t, by
        rw [List.mem_singleton.1 ht]; exact List.mem_cons_self .., Sub.refl t⟩)
    · exact (reqs_carried r h.2).mono (subL_iff.2 fun t ht => ⟨t, List.mem_cons_of_mem _ ht, Sub.refl t⟩)
theorem path_carried {G : Moves} {pos : Option Nat} : ∀ (p : Walker.Path) {n : Nat}, OkayPath G n p →
    CarriedPath p [pathTree pos p]
  | .mk root segs _ _, n, h => by
    simp only [OkayPath] at h
    simp only [CarriedPath, pathTree]
    exact ⟨_, _, _, List.mem_singleton.2 rfl, rfl, segs_carried segs h.2⟩
end

mutual
theorem segs_tidy {G : Moves} : ∀ (segs : List (Walker.Seg Walker.Path)) {pos : Option Nat} {n : Nat},
    Okay G n segs → TidyL G (segsTree pos segs)
  | [], _, _, _ => by simp [segsTree, TidyL]
  | ⟨e, t, _, rs, a, c⟩ :: r, pos, n, h => by
    simp only [Okay] at h
    obtain ⟨⟨x, hx, hn, _, _, _⟩, h2, h3⟩ := h
    simp only [segsTree, TidyL, Tidy, and_true]
    obtain ⟨m1, m2⟩ := mergeAll_tidy (l := { node := n }) fun t ht => ⟨okay_labels h2 t ht, reqs_tidy rs h2 t ht⟩
    refine ⟨m1, needs_iff.2 ?_, segs_tidy r h3⟩
    intro t ht
    exact ⟨⟨n, by simp [srcOf, hx, hn], (m2 t ht).1⟩, (m2 t ht).2⟩
theorem reqs_tidy {G : Moves} : ∀ (ps : List Walker.Path) {n : Nat}, OkayReqs G n ps → ∀ t ∈ reqTrees ps, Tidy G t
  | [], _, _, t, ht => by simp [reqTrees] at ht
  | p :: r, n, h, t, ht => by
    simp only [OkayReqs] at h
    simp only [reqTrees, List.mem_cons] at ht
    rcases ht with rfl | ht
    · exact path_tidy p h.1
    · exact reqs_tidy r h.2 t ht
theorem path_tidy {G : Moves} {pos : Option Nat} : ∀ (p : Walker.Path) {n : Nat}, OkayPath G n p →
    Tidy G (pathTree pos p)
  | .mk root segs _ _, n, h => by
    simp only [OkayPath] at h
    simp only [pathTree, Tidy, Needs]
    exact ⟨by simp, trivial, segs_tidy segs h.2⟩
end

/-! ## What paths lead to -/

/-- The name of the field a move takes. -/
def Weight.fieldName : Weight → Option String
  | .field m => some m.name
  | .reentry n _ _ => some n
  | _ => none

/-- The field of that name, as a segment asks for it. -/
def attrsAsk (a : Option Walker.Attrs) (name : String) : Ask :=
  askOf { name, alias := (a.map (·.1)).join, args := (a.map (·.2)).join }

/-- The response keys a segment adds. -/
def attrsKeys (a : Option Walker.Attrs) (w : Weight) : List String :=
  ((Weight.fieldName w).map fun n => (attrsAsk a n).key).toList

/-- Something paths lead to: the move that leads to it, the response keys around it, and what is asked for. -/
structure Want where
  edge : Edge
  keys : List String
  ask : Ask

/-- What segments lead to, with what they need, if their conditions hold. -/
inductive Wants (G : Moves) (v : Vars) : List String → List (Walker.Seg Walker.Path) → Want → Prop
  | here {K s r e name} : holds v s.cond = true → Walker.Moves.edge? G s.edge = some e →
      Weight.fieldName e.weight = some name → Wants G v K (s :: r) ⟨e, K, attrsAsk s.attrs name⟩
  | next {K s r e x} : holds v s.cond = true → Walker.Moves.edge? G s.edge = some e →
      Wants G v (K ++ attrsKeys s.attrs e.weight) r x → Wants G v K (s :: r) x
  | need {K s r q x} : holds v s.cond = true → q ∈ s.reqs → Wants G v K q.segs x → Wants G v K (s :: r) x

/-- A step of the graph asks for it, and asks the right subgraph. -/
def Sent (G : Moves) (v : Vars) (g : Graph) (x : Want) : Prop :=
  ∃ m s, g.get m = .ok s ∧ (x.keys, x.ask) ∈ s.asked v ∧ ∀ gr, graphAt G x.edge.src = some gr → s.service = gr

theorem Grow.sent {G : Moves} {g g' : Graph} (h : Grow v g g') {x : Want} (hx : Sent G v g x) : Sent G v g' x := by
  obtain ⟨m, s, h1, h2, h3⟩ := hx
  obtain ⟨s', hs', hg⟩ := h.steps m s h1
  obtain ⟨k1, y, hy, k2⟩ := mem_stepAsked'.1 h2
  exact ⟨m, s', hs', mem_stepAsked'.2 ⟨hg.on ▸ k1, y, hg.asks y hy, by rw [hg.path]; exact k2⟩, fun gr hgr =>
    hg.service.trans (h3 gr hgr)⟩

/-- Moves within a subgraph stay there, and an entry goes to its subgraph. -/
def Stays (G : Moves) : Prop := ∀ e ∈ G.edges, (∃ gr, graphAt G e.dst = some gr) ∧
  match e.weight with
  | .entry s _ => graphAt G e.dst = some s
  | .field _ => graphAt G e.dst = graphAt G e.src
  | .selfie _ => graphAt G e.dst = graphAt G e.src
  | .abstract _ => graphAt G e.dst = graphAt G e.src
  | _ => True

/-! ## Where the builder is -/

/-- The builder is at a node, at a place with these response keys. -/
structure At (G : Moves) (v : Vars) (n : Nat) (K : List String) (c : Ctx) (g : Graph) : Prop where
  step : ∃ p s, c.parent = some p ∧ g.get p = .ok s ∧ s.on v = true ∧ pathKeys s.path ++ pathKeys c.fetch = K ∧
    ∀ gr, graphAt G n = some gr → s.service = gr
  top : graphAt G n = none → K = []
  resp : pathKeys c.resp = K
  respHolds : pathHolds v c.resp = true
  fetchHolds : pathHolds v c.fetch = true
  condHolds : holds v c.cond = true

theorem At.grow {G : Moves} {n : Nat} {K : List String} {c : Ctx} {g g' : Graph} (h : At G v n K c g)
    (hg : Grow v g g') : At G v n K c g' := by
  obtain ⟨p, s, h1, h2, h3, h4, h5⟩ := h.step
  obtain ⟨s', hs', k⟩ := hg.steps p s h2
  exact ⟨⟨p, s', h1, hs', k.on ▸ h3, by rw [k.path]; exact h4, fun gr hgr => k.service.trans (h5 gr hgr)⟩, h.top, h.resp,
    h.respHolds, h.fetchHolds, h.condHolds⟩

theorem holds_or {a b : Cond} (ha : holds v a = true) (hb : holds v b = true) : holds v (orCond a b) = true := by
  unfold orCond
  split <;> assumption

theorem holds_stripped {g : Graph} {parent : Nat} {c : Cond} {p : MPath} (h : holds v c = true) :
    holds v (stripped g parent c p) = true := by
  unfold stripped
  split
  · exact holds_none
  · exact h

theorem modify_sent {G : Moves} {g g' : Graph} {n : Nat} {path : MPath} {items : List Sel} {first : Bool}
    (h : g.modify n (addOutput path items first) = .ok g') {s : Step} (hs : g.get n = .ok s) (hon : s.on v = true)
    (hp : pathHolds v path = true) {x : Want} {y : List String × Ask} (hy : y ∈ Fetch.asked v items)
    (hk : x.keys = pathKeys s.path ++ (pathKeys path ++ y.1)) (ha : x.ask = y.2)
    (hsv : ∀ gr, graphAt G x.edge.src = some gr → s.service = gr) : Sent G v g' x := by
  obtain ⟨t, s', ht, hs', rfl⟩ := modify_ok h
  rw [hs] at ht
  cases ht
  obtain ⟨k1, k2⟩ := addOutput_ok (v := v) hs'
  refine ⟨n, s', by rw [set_get' hs]; simp, mem_stepAsked'.2 ⟨k1.on ▸ hon, (pathKeys path ++ y.1, y.2),
    k2 hp _ (mem_under.2 ⟨y, hy, rfl⟩), ?_⟩, fun gr hgr => k1.service.trans (hsv gr hgr)⟩
  rw [k1.path, hk, ha]

/-- What a step of the builder gives: a graph that has grown, a place at the end of the move, and places for what
the move needs. -/
structure Entered (G : Moves) (v : Vars) (e : Edge) (K : List String) (l : Label) (g g' : Graph) (todo : Todo)
    (c' : Ctx) : Prop where
  grow : Grow v g g'
  at' : At G v e.dst (K ++ attrsKeys l.attrs e.weight) c' g'
  sent : ∀ name, Weight.fieldName e.weight = some name → Sent G v g' ⟨e, K, attrsAsk l.attrs name⟩
  todo : match todo with
    | .nothing => e.weight.requires = none
    | .all c => At G v e.src K c g'
    | .first c _ => At G v e.src K c g'

theorem typeNode_graph {G : Moves} {n : Nat} {t gr : String} {io : Bool} (h : typeNode G n = .ok (t, gr, io)) :
    graphAt G n = some gr := by
  unfold typeNode at h
  split at h
  next hn =>
    cases h
    simp [graphAt, hn, Verif.Graph.Node.graph]
  all_goals cases h

theorem fieldSegs_keys {name : String} {l : Label} {a : Args} {c : Cond} {b : Bool} :
    pathKeys (fieldSegs name l a c b) = [(attrsAsk l.attrs name).key] := by
  cases b <;> simp [fieldSegs, pathKeys, segKey, attrsAsk, askOf, FieldInfo.key, Label.aliasOf]

theorem fieldSegs_holds {name : String} {l : Label} {a : Args} {c : Cond} {b : Bool} (h : holds v c = true) :
    pathHolds v (fieldSegs name l a c b) = true := by
  cases b <;> simp [fieldSegs, pathHolds, condAt, h, holds_none]

theorem askOf_fieldOf {name : String} {l : Label} {k : Cond} : askOf (fieldOf name l k) = attrsAsk l.attrs name := by
  rfl

theorem enterEntry_ok {G : Moves} (hG : Stays G) {l : Label} {e : Edge} (he : e ∈ G.edges) {service : String}
    {kind : OpKind} {parent : Nat} {c c' : Ctx} {g g' : Graph} {todo : Todo} {K : List String}
    (hw : e.weight = .entry service kind) (hn : graphAt G e.src = none) (hc : At G v e.src K c g)
    (h : enterEntry G l e service kind parent c g = .ok (g', todo, c')) : Entered G v e K l g g' todo c' := by
  obtain ⟨⟨gr, hgr⟩, hs⟩ := hG e he
  rw [hw] at hs
  have hK := hc.top hn
  unfold enterEntry at h
  split at h
  next => cases h
  next n _ =>
    cases h
    refine ⟨add_grow.trans connect_grow, ?_, ?_, by simp [hw, Verif.Graph.Weight.requires]⟩
    · refine ⟨⟨_, _, rfl, by rw [connect_get]; exact add_get.2 (.inr ⟨rfl, rfl⟩), ?_, ?_, ?_⟩, ?_, ?_, rfl, rfl, rfl⟩
      · simp [Step.on, rootStep, holds_none, pathHolds]
      · simp [rootStep, pathKeys, hK, attrsKeys, hw, Weight.fieldName]
      · intro gr hgr
        exact Option.some.inj (hs.symm.trans hgr)
      · intro h
        rw [hgr] at h
        cases h
      · simp [pathKeys, hK, attrsKeys, hw, Weight.fieldName]
    · intro name hname
      simp [hw, Weight.fieldName] at hname

theorem enterEntity_ok {G : Moves} (hG : Stays G) {l : Label} {e : Edge} (he : e ∈ G.edges) {key : Req}
    {io : Bool} {ks : String} {parent : Nat} {c c' : Ctx} {g g' : Graph} {todo : Todo} {K : List String}
    (hw : e.weight = .entity ks key io) (hp : c.parent = some parent) (hc : At G v e.src K c g)
    (h : enterEntity G e key io parent c g = .ok (g', todo, c')) : Entered G v e K l g g' todo c' := by
  unfold enterEntity at h
  split at h
  next => cases h
  next => cases h
  next inType _ _ outType service _ h1 h2 =>
    split at h
    next => cases h
    next g1 n hn =>
      split at h
      next => cases h
      next g2 hg2 =>
        split at h
        next => cases h
        next g3 hg3 =>
          split at h
          next => cases h
          next g4 hg4 =>
            cases h
            obtain ⟨e1, s, hs, hsp, hsc, hss⟩ := ensureStep_ok (v := v) hn
            have e2 : Grow v g1 g2 := modify_grow (fun _ _ h => addInput_grown h) hg2
            have e3 : Grow v g2 g3 := modify_grow (fun s s' h => by
              cases h
              split
              · have := addRewrite_grown (v := v) (t := outType) (s := s)
                exact ⟨this.path, this.cond, this.service, this.entity, this.asks⟩
              · exact .refl) hg3
            have e4 := (modify_output (v := v) hg4).1
            have e5 : Grow v g4 (g4.connect parent n) := connect_grow
            have big := e2.trans (e3.trans (e4.trans e5))
            refine ⟨e1.trans big, ?_, ?_, ?_⟩
            · obtain ⟨s', hs', hgr⟩ := big.steps n s hs
              refine ⟨⟨n, s', rfl, hs', ?_, ?_, ?_⟩, ?_, ?_, hc.respHolds, rfl, hc.condHolds⟩
              · rw [hgr.on]
                simp [Step.on, hsp, hsc, hc.respHolds, hc.condHolds]
              · rw [hgr.path, hsp, hc.resp]
                simp [pathKeys, attrsKeys, hw, Weight.fieldName]
              · intro gr hgr'
                rw [hgr.service, hss]
                rw [typeNode_graph h2] at hgr'
                exact Option.some.inj hgr'
              · intro h
                rw [typeNode_graph h2] at h
                cases h
              · simp [hc.resp, attrsKeys, hw, Weight.fieldName]
            · intro name hname
              simp [hw, Weight.fieldName] at hname
            · have := hc.grow (e1.trans big)
              exact ⟨by simpa [hp] using this.step, this.top, this.resp, this.respHolds, this.fetchHolds,
                this.condHolds⟩

theorem enterIoType_ok {env : Env} {req : Option Nat} {l : Label} {e : Edge}
    {r : Req} {object : String} {parent : Nat} {c c' : Ctx} {g g' : Graph} {todo : Todo} {K : List String}
    (hw : e.weight = .ioType object r) (hc : At env.G v e.src K c g)
    (h : enterIoType env req e object r parent c g = .ok (g', todo, c')) : Entered env.G v e K l g g' todo c' := by
  unfold enterIoType at h
  split at h
  next => cases h
  next =>
  split at h
  next => cases h
  next => cases h
  next => cases h
  next headGraph _ iface service _ rn h1 h2 =>
    split at h
    next => cases h
    next g1 n hn =>
    split at h
    next => cases h
    next key hkey =>
    split at h
    next => cases h
    next g2 hg2 =>
    split at h
    next => cases h
    next g3 hg3 =>
    split at h
    next => cases h
    next g4 hg4 =>
    split at h
    next => cases h
    next g5 hg5 =>
    split at h
    next => cases h
    next st hst =>
      cases h
      obtain ⟨e1, s, hs, hsp, hsc, hss⟩ := ensureStep_ok (v := v) hn
      have e2 : Grow v g1 g2 := modify_grow (fun _ _ h => addInput_grown h) hg2
      have e3 : Grow v g2 g3 := modify_grow (fun _ _ h => addInput_grown h) hg3
      have e4 : Grow v g3 g4 := modify_grow (fun s s' h => by
        cases h
        exact addRewrite_grown) hg4
      have e5 := (modify_output (v := v) hg5).1
      have e6 : Grow v g5 ((g5.add st).connect parent g5.steps.length) := add_grow.trans connect_grow
      have big := e2.trans (e3.trans (e4.trans (e5.trans e6)))
      refine ⟨e1.trans big, ?_, ?_, ?_⟩
      · obtain ⟨s', hs', hgr⟩ := big.steps n s hs
        refine ⟨⟨n, s', rfl, hs', ?_, ?_, ?_⟩, ?_, ?_, hc.respHolds, rfl, hc.condHolds⟩
        · rw [hgr.on]
          simp [Step.on, hsp, hsc, hc.respHolds, hc.condHolds]
        · rw [hgr.path, hsp, hc.resp]
          simp [pathKeys, attrsKeys, hw, Weight.fieldName]
        · intro gr hgr'
          rw [hgr.service, hss]
          rw [typeNode_graph h2] at hgr'
          exact Option.some.inj hgr'
        · intro h
          rw [typeNode_graph h2] at h
          cases h
        · simp [hc.resp, attrsKeys, hw, Weight.fieldName]
      · intro name hname
        simp [hw, Weight.fieldName] at hname
      · have hgr := addInput_grown (v := v) hst
        refine ⟨⟨_, st, rfl, by rw [connect_get]; exact add_get.2 (.inr ⟨rfl, rfl⟩), ?_, ?_, ?_⟩, hc.top, hc.resp,
          hc.respHolds, rfl, hc.condHolds⟩
        · rw [hgr.on]
          simp [Step.on, entityStep, hc.respHolds, hc.condHolds]
        · rw [hgr.path]
          have : pathKeys ([] : MPath) = [] := rfl
          simp [entityStep, hc.resp, this]
        · intro gr hgr'
          rw [hgr.service]
          rw [typeNode_graph h1] at hgr'
          exact Option.some.inj hgr'

theorem enterReentry_ok {G : Moves} {l : Label} {e : Edge} {name type : String} {isList : Bool}
    {parent : Nat} {c c' : Ctx} {g g' : Graph} {todo : Todo} {K : List String}
    (hw : e.weight = .reentry name type isList) (hp : c.parent = some parent) (hc : At G v e.src K c g)
    (h : enterReentry G l e name isList parent c g = .ok (g', todo, c')) : Entered G v e K l g g' todo c' := by
  unfold enterReentry at h
  split at h
  next => cases h
  next ty service _ h2 =>
    split at h
    next => cases h
    next g1 hg1 =>
      cases h
      have e1 := (modify_output (v := v) hg1).1
      have e2 : Grow v g1 ((g1.add (rootStep service ty .query l.pos (c.resp ++ fieldSegs name l none (none, none) isList)
        c.cond)).connect parent g1.steps.length) := add_grow.trans connect_grow
      have hn : Weight.fieldName e.weight = some name := by simp [hw, Weight.fieldName]
      have hkeys : pathKeys (c.resp ++ fieldSegs name l none (none, none) isList) = K ++ attrsKeys l.attrs e.weight := by
        rw [pathKeys_append, fieldSegs_keys, hc.resp]
        simp [attrsKeys, hn]
      have hholds : pathHolds v (c.resp ++ fieldSegs name l none (none, none) isList) = true := by
        rw [pathHolds_append, hc.respHolds, fieldSegs_holds holds_none]
        rfl
      refine ⟨e1.trans e2, ?_, ?_, by simp [hw, Verif.Graph.Weight.requires]⟩
      · refine ⟨⟨_, _, rfl, by rw [connect_get]; exact add_get.2 (.inr ⟨rfl, rfl⟩), ?_, ?_, ?_⟩, ?_, hkeys, hholds, rfl,
          rfl⟩
        · simp [Step.on, rootStep, hc.condHolds, hholds]
        · simp only [rootStep, hkeys]
          simp [pathKeys]
        · intro gr hgr'
          rw [typeNode_graph h2] at hgr'
          exact Option.some.inj hgr'
        · intro h
          rw [typeNode_graph h2] at h
          cases h
      · intro nm hnm
        rw [hn] at hnm
        cases hnm
        obtain ⟨p, s, k1, k2, k3, k4, k5⟩ := hc.step
        rw [hp] at k1
        cases k1
        refine e2.sent (modify_sent hg1 k2 k3 hc.fetchHolds (y := ([], attrsAsk l.attrs name)) ?_ ?_ rfl k5)
        · simp [Fetch.asked, askedBy, condOf, fieldOf, holds_stripped hc.condHolds]
          rfl
        · simp [← k4]

theorem at_more {G : Moves} {n m : Nat} {K K' : List String} {c : Ctx} {g : Graph} {segs : MPath} {parent : Nat}
    (hc : At G v n K c g) (hp : c.parent = some parent) (hK : K ++ pathKeys segs = K')
    (hs : pathHolds v segs = true) (hm : graphAt G m = graphAt G n) (hn : ∃ gr, graphAt G m = some gr) (b : Bool)
    : At G v m K' { c with parent := some parent, resp := c.resp ++ segs, fetch := c.fetch ++ segs, fromReq := b }
      g := by
  obtain ⟨p, s, k1, k2, k3, k4, k5⟩ := hc.step
  rw [hp] at k1
  cases k1
  obtain ⟨gr, hgr⟩ := hn
  refine ⟨⟨parent, s, rfl, k2, k3, ?_, ?_⟩, ?_, ?_, ?_, ?_, hc.condHolds⟩
  · rw [pathKeys_append, ← List.append_assoc, k4, hK]
  · rw [hm]
    exact k5
  · intro h
    rw [hgr] at h
    cases h
  · rw [pathKeys_append, hc.resp, hK]
  · rw [pathHolds_append, hc.respHolds, hs]
    rfl
  · rw [pathHolds_append, hc.fetchHolds, hs]
    rfl

theorem enterSelfie_ok {G : Moves} (hG : Stays G) {l : Label} {e : Edge} (he : e ∈ G.edges) {type : String}
    {parent : Nat} {c c' : Ctx} {g g' : Graph} {todo : Todo} {K : List String}
    (hw : e.weight = .selfie type) (hp : c.parent = some parent) (hc : At G v e.src K c g)
    (h : enterSelfie type parent c g = .ok (g', todo, c')) : Entered G v e K l g g' todo c' := by
  obtain ⟨hgr, hs⟩ := hG e he
  rw [hw] at hs
  unfold enterSelfie at h
  simp only at h
  split at h
  next => cases h
  next g1 hg1 =>
    cases h
    have e1 := (modify_output (v := v) hg1).1
    refine ⟨e1, ?_, ?_, by simp [hw, Verif.Graph.Weight.requires]⟩
    · refine at_more (hc.grow e1) hp ?_ ?_ hs hgr false
      · simp [pathKeys, segKey, attrsKeys, hw, Weight.fieldName]
      · simp only [pathHolds, List.all_cons, List.all_nil, condAt, Bool.and_true]
        split
        · exact holds_none
        · exact hc.condHolds
    · intro name hname
      simp [hw, Weight.fieldName] at hname

theorem enterAbstract_ok {G : Moves} (hG : Stays G) {l : Label} {e : Edge} (he : e ∈ G.edges) {type : String}
    {parent : Nat} {c c' : Ctx} {g g' : Graph} {todo : Todo} {K : List String}
    (hw : e.weight = .abstract type) (hp : c.parent = some parent) (hc : At G v e.src K c g)
    (h : enterAbstract type parent c g = .ok (g', todo, c')) : Entered G v e K l g g' todo c' := by
  obtain ⟨hgr, hs⟩ := hG e he
  rw [hw] at hs
  unfold enterAbstract at h
  split at h
  next => cases h
  next g1 hg1 =>
    cases h
    have e1 := (modify_output (v := v) hg1).1
    refine ⟨e1, ?_, ?_, by simp [hw, Verif.Graph.Weight.requires]⟩
    · refine at_more (hc.grow e1) hp ?_ rfl hs hgr false
      simp [pathKeys, segKey, attrsKeys, hw, Weight.fieldName]
    · intro name hname
      simp [hw, Weight.fieldName] at hname

theorem enterField_ok {G : Moves} (hG : Stays G) {l : Label} {e : Edge} (he : e ∈ G.edges) {m : FieldMove}
    {parent : Nat} {c c' : Ctx} {g g' : Graph} {todo : Todo} {K : List String}
    (hw : e.weight = .field m) (hr : m.requires = none) (hp : c.parent = some parent) (hc : At G v e.src K c g)
    (h : enterField l m parent c g = .ok (g', todo, c')) : Entered G v e K l g g' todo c' := by
  obtain ⟨hgr, hs⟩ := hG e he
  rw [hw] at hs
  unfold enterField at h
  obtain ⟨g0, e0, h⟩ : ∃ g0, Grow v g g0 ∧ (match g0.modify parent (addOutput c.fetch
      [.field (fieldOf m.name l (stripped g0 parent c.cond c.fetch)) []] false) with
    | .error x => .error x
    | .ok g =>
      let segs := fieldSegs m.name l l.argsOf (stripped g0 parent c.cond c.fetch) m.isList
      .ok (g, Todo.nothing, { c with parent := some parent, resp := c.resp ++ segs, fetch := c.fetch ++ segs }))
      = Except.ok (g', todo, c') := by
    refine ⟨_, ?_, h⟩
    split
    · exact connect_grow
    · exact .refl
  split at h
  next => cases h
  next g1 hg1 =>
    cases h
    have e1 := (modify_output (v := v) hg1).1
    have hn : Weight.fieldName e.weight = some m.name := by simp [hw, Weight.fieldName]
    refine ⟨e0.trans e1, ?_, ?_, by simp [hw, Verif.Graph.Weight.requires, hr]⟩
    · refine at_more (hc.grow (e0.trans e1)) hp ?_ (fieldSegs_holds (holds_stripped hc.condHolds)) hs hgr c.fromReq
      rw [fieldSegs_keys]
      simp [attrsKeys, hn]
    · intro nm hnm
      rw [hn] at hnm
      cases hnm
      obtain ⟨p, s, k1, k2, k3, k4, k5⟩ := (hc.grow e0).step
      rw [hp] at k1
      cases k1
      refine modify_sent hg1 k2 k3 hc.fetchHolds (y := ([], attrsAsk l.attrs m.name)) ?_ ?_ rfl k5
      · simp [Fetch.asked, askedBy, condOf, fieldOf, holds_stripped hc.condHolds]
        rfl
      · simp [← k4]

theorem enterRequires_ok {env : Env} (hG : Stays env.G) {req : Option Nat} {l : Label} {e : Edge}
    (he : e ∈ env.G.edges) {m : FieldMove} {r : Req}
    {parent : Nat} {c c' : Ctx} {g g' : Graph} {todo : Todo} {K : List String}
    (hw : e.weight = .field m) (hc : At env.G v e.src K c g)
    (h : enterRequires env req l e m r parent c g = .ok (g', todo, c')) : Entered env.G v e K l g g' todo c' := by
  obtain ⟨hgr, hs⟩ := hG e he
  rw [hw] at hs
  unfold enterRequires at h
  split at h
  next grand rn hpar =>
    split at h
    next => cases h
    next type service io hty =>
    split at h
    next => cases h
    next => cases h
    next key ps hkey hps =>
    simp only at h
    generalize hreal : (if outputHas ps type then grand else parent) = real at h
    generalize hen : ensureReqStep g real service type c.resp c.cond r = en at h
    obtain ⟨g1, n⟩ := en
    simp only at h
    split at h
    next => cases h
    next g2 hg2 =>
    split at h
    next => cases h
    next g3 hg3 =>
    split at h
    next => cases h
    next g4 hg4 =>
    split at h
    next => cases h
    next g5 hg5 =>
    split at h
    next => cases h
    next st hst =>
    split at h
    next => cases h
    next rs hrs =>
    split at h
    next => cases h
    next hlen =>
    split at h
    next => cases h
    next g7 hg7 =>
    split at h
    next => cases h
    next g8 hg8 =>
      cases h
      obtain ⟨e1, s, hs', hsp, hsc, hss⟩ := ensureReqStep_ok (v := v) hen
      have e2 := (modify_output (v := v) hg2).1
      have e3 : Grow v g2 g3 := modify_grow (fun s s' h => by
        cases h
        split
        · exact addRewrite_grown
        · exact .refl) hg3
      have e4 : Grow v g3 g4 := modify_grow (fun _ _ h => addInput_grown h) hg4
      have e5 : Grow v g4 g5 := modify_grow (fun _ _ h => addInput_grown h) hg5
      have e6 : Grow v g5 (g5.add st) := add_grow
      have e7 := (modify_output (v := v) hg7).1
      have e8 := (modify_output (v := v) hg8).1
      have e9 : Grow v g8 (g8.connect real g5.steps.length) := connect_grow
      have late := e7.trans (e8.trans e9)
      have mid := e3.trans (e4.trans (e5.trans (e6.trans late)))
      have hn : Weight.fieldName e.weight = some m.name := by simp [hw, Weight.fieldName]
      have hsegs : pathHolds v (fieldSegs m.name l l.argsOf (none, none) m.isList) = true :=
        fieldSegs_holds holds_none
      have hon : s.on v = true := by
        simp [Step.on, hsp, hsc, hc.respHolds, hc.condHolds]
      refine ⟨e1.trans (e2.trans mid), ?_, ?_, ?_⟩
      · obtain ⟨s', hs'', hgr'⟩ := (e2.trans mid).steps n s hs'
        refine ⟨⟨n, s', rfl, hs'', ?_, ?_, ?_⟩, ?_, ?_, ?_, hsegs, hc.condHolds⟩
        · rw [hgr'.on, hon]
        · rw [hgr'.path, hsp, hc.resp, fieldSegs_keys]
          simp [attrsKeys, hn]
        · intro gr hgr''
          rw [hgr'.service, hss]
          rw [hs, typeNode_graph hty] at hgr''
          exact Option.some.inj hgr''
        · intro h
          obtain ⟨gr, hgr⟩ := hgr
          rw [hgr] at h
          cases h
        · simp only [pathKeys_append, hc.resp, fieldSegs_keys]
          simp [attrsKeys, hn]
        · simp only [pathHolds_append, hc.respHolds, hsegs]
          rfl
      · intro nm hnm
        rw [hn] at hnm
        cases hnm
        refine mid.sent (modify_sent hg2 hs' hon rfl (y := ([], attrsAsk l.attrs m.name)) ?_ ?_ rfl ?_)
        · simp [Fetch.asked, askedBy, condOf, fieldOf, holds_none]
          rfl
        · have : pathKeys ([] : MPath) = [] := rfl
          simp [hsp, hc.resp, this]
        · intro gr hgr'
          rw [typeNode_graph hty] at hgr'
          exact hss.trans (Option.some.inj hgr')
      · have hadd : (g5.add st).get g5.steps.length = .ok st := add_get.2 (.inr ⟨rfl, rfl⟩)
        obtain ⟨s', hs'', hgr'⟩ := late.steps _ _ hadd
        have hgr1 := addInput_grown (v := v) hst
        have hall := hgr1.trans hgr'
        refine ⟨⟨_, s', rfl, hs'', ?_, ?_, ?_⟩, hc.top, hc.resp, hc.respHolds, rfl, hc.condHolds⟩
        · rw [hall.on]
          simp [Step.on, entityStep, hc.respHolds, hc.condHolds]
        · rw [hall.path]
          have : pathKeys ([] : MPath) = [] := rfl
          simp [entityStep, hc.resp, this]
        · intro gr hgr''
          rw [hall.service]
          rw [typeNode_graph hty] at hgr''
          exact Option.some.inj hgr''
  next => cases h
  next => cases h

/-- The builder follows a move of the graph. -/
theorem enter_ok {env : Env} (hG : Stays env.G) {req : Option Nat} {l : Label} {e : Edge} {id : Nat}
    (hl : l.edge = some id) (hid : Walker.Moves.edge? env.G id = some e) (hcond : holds v l.cond = true)
    (hn : ∀ s k, e.weight = .entry s k → graphAt env.G e.src = none) {c c' : Ctx} {g g' : Graph} {todo : Todo} {K : List String} (hc : At env.G v e.src K c g)
    (h : enter env req l c g = .ok (g', todo, c')) : Entered env.G v e K l g g' todo c' := by
  have he : e ∈ env.G.edges := List.mem_of_find?_eq_some hid
  obtain ⟨p, s, k1, k2⟩ := hc.step
  have hc' : At env.G v e.src K { c with cond := orCond l.cond c.cond } g :=
    ⟨hc.step, hc.top, hc.resp, hc.respHolds, hc.fetchHolds, holds_or hcond hc.condHolds⟩
  unfold enter at h
  simp only [hl, k1, hid] at h
  split at h
  next hw => exact enterEntry_ok hG he hw (hn _ _ hw) hc' h
  next hw => exact enterEntity_ok hG he hw (by exact k1) hc' h
  next hw => exact enterReentry_ok hw (by exact k1) hc' h
  next m hw =>
    split at h
    next hr => exact enterRequires_ok hG he hw hc' h
    next hr => exact enterField_ok hG he hw hr (by exact k1) hc' h
  next hw => exact enterSelfie_ok hG he hw (by exact k1) hc' h
  next hw => exact enterAbstract_ok hG he hw (by exact k1) hc' h
  next hw => exact enterIoType_ok hw hc' h

end Verif.Fetch
