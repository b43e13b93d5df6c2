import Verif.Walker.Spec

/-!
# Ways and paths

Facts about ways, and the paths a search goes through.
-/

namespace Verif.Walker

open Verif.Graph

/-! ## Ways -/

def endCost (c : Nat) (segs : List (Seg Path)) : Nat :=
  match segs.getLast? with
  | none => c
  | some s => s.cost

theorem endCost_cons (c : Nat) (s : Seg Path) (segs : List (Seg Path)) :
    endCost c (s :: segs) = endCost s.cost segs := by
  simp only [endCost]
  cases segs with
  | nil => rfl
  | cons a r => rw [List.getLast?_cons_cons]; cases h : (a :: r).getLast? with
    | none => simp at h
    | some x => rfl

theorem endOf_cons (n : Nat) (s : Seg Path) (segs : List (Seg Path)) :
    endOf n (s :: segs) = endOf s.tail segs := by
  simp only [endOf]
  cases segs with
  | nil => rfl
  | cons a r => rw [List.getLast?_cons_cons]; cases h : (a :: r).getLast? with
    | none => simp at h
    | some x => rfl

theorem endCost_append (c : Nat) : ∀ (a b : List (Seg Path)),
    endCost c (a ++ b) = endCost (endCost c a) b
  | [], b => rfl
  | s :: a, b => by
    rw [List.cons_append, endCost_cons, endCost_cons]; exact endCost_append s.cost a b

theorem endOf_append (n : Nat) : ∀ (a b : List (Seg Path)),
    endOf n (a ++ b) = endOf (endOf n a) b
  | [], b => rfl
  | s :: a, b => by
    rw [List.cons_append, endOf_cons, endOf_cons]; exact endOf_append s.tail a b

theorem Way.ends {env : Env} : ∀ {c n tr segs c' m}, Way env c n tr segs c' m →
    c' = endCost c segs ∧ m = endOf n segs
  | _, _, _, _, _, _, .done _ _ => ⟨rfl, rfl⟩
  | _, _, _, _, _, _, .same _ _ _ _ _ _ _ _ _ _ h => h.ends
  | _, _, _, _, _, _, .hop _ _ _ _ _ _ _ _ _ _ _ _ h => by
    rw [endCost_cons, endOf_cons]; exact h.ends
  | _, _, _, _, _, _, .step _ _ _ _ _ _ _ _ _ _ _ _ h => by
    rw [endCost_cons, endOf_cons]; exact h.ends

theorem Way.append {env : Env} : ∀ {c n tr segs c' m}, Way env c n tr segs c' m →
    ∀ {tr' segs' c'' k}, Way env c' m tr' segs' c'' k →
    Way env c n (tr ++ tr') (segs ++ segs') c'' k
  | _, _, _, _, _, _, .done _ _, _, _, _, _, w => w
  | _, _, _, _, _, _, .same c n node t tr segs c' m h1 h2 h, _, _, _, _, w =>
    .same c n node t _ _ _ _ h1 h2 (h.append w)
  | _, _, _, _, _, _, .hop c n e s st tr segs c' m h1 h2 h3 h, _, _, _, _, w =>
    .hop c n e s st _ _ _ _ h1 h2 h3 (h.append w)
  | _, _, _, _, _, _, .step c n e s st tr segs c' m h1 h2 h3 h, _, _, _, _, w =>
    .step c n e s st _ _ _ _ h1 h2 h3 (h.append w)

/-- A segment with a lower cost. -/
def lower (d : Nat) (s : Seg Path) : Seg Path := { s with cost := s.cost - d }

theorem Is.lower {env : Env} {n c : Nat} {st : Step} {e : Edge} {s : Seg Path} (h : Is env n c st e s)
    {d : Nat} (hd : d ≤ c) : Is env n (c - d) st e (lower d s) where
  mem := h.mem
  src := h.src
  allowed := h.allowed
  edge := h.edge
  tail := h.tail
  cost := by have := h.cost; simp only [Walker.lower]; omega
  labels := by cases st <;> exact h.labels

theorem Way.lower {env : Env} : ∀ {c n tr segs c' m}, Way env c n tr segs c' m → ∀ {d}, d ≤ c →
    Way env (c - d) n tr (segs.map (lower d)) (c' - d) m
  | _, _, _, _, _, _, .done _ _, _, _ => .done _ _
  | _, _, _, _, _, _, .same c n node t tr segs c' m h1 h2 h, _, hd =>
    .same _ n node t _ _ _ _ h1 h2 (h.lower hd)
  | _, _, _, _, _, _, .hop c n e s st tr segs c' m h1 h2 h3 h, _, hd =>
    .hop _ n e (Walker.lower _ s) st _ _ _ _ (h1.lower hd) h2 h3
      (h.lower (by have := h1.cost; omega))
  | _, _, _, _, _, _, .step c n e s st tr segs c' m h1 h2 h3 h, _, hd =>
    .step _ n e (Walker.lower _ s) st _ _ _ _ (h1.lower hd) h2 h3
      (h.lower (by have := h1.cost; omega))

theorem Way.cost_le {env : Env} : ∀ {c n tr segs c' m}, Way env c n tr segs c' m → c ≤ c'
  | _, _, _, _, _, _, .done _ _ => Nat.le_refl _
  | _, _, _, _, _, _, .same _ _ _ _ _ _ _ _ _ _ h => h.cost_le
  | _, _, _, _, _, _, .hop _ _ _ _ _ _ _ _ _ h1 _ _ h => by
    have := h1.cost; have := h.cost_le; omega
  | _, _, _, _, _, _, .step _ _ _ _ _ _ _ _ _ h1 _ _ h => by
    have := h1.cost; have := h.cost_le; omega

/-! ## Paths -/

/-- A path whose cost is that of its last segment. -/
def Path.WF (p : Path) : Prop := p.cost = endCost 0 p.segs

/-- The path goes on along the trail. -/
def Goes (env : Env) (p : Path) (tr : Trail) (q : Path) : Prop :=
  q.root = p.root ∧ ∃ ext, q.segs = p.segs ++ ext ∧ Way env p.cost p.tail tr ext q.cost q.tail

theorem Goes.refl (env : Env) (p : Path) : Goes env p [] p := ⟨rfl, [], by simp, .done _ _⟩

theorem Goes.trans {env : Env} {p q r : Path} {tr tr' : Trail} (h : Goes env p tr q)
    (h' : Goes env q tr' r) : Goes env p (tr ++ tr') r := by
  obtain ⟨h1, x, h2, h3⟩ := h
  obtain ⟨h1', y, h2', h3'⟩ := h'
  exact ⟨h1'.trans h1, x ++ y, by rw [h2', h2, List.append_assoc], h3.append h3'⟩

theorem Goes.wf {env : Env} {p q : Path} {tr : Trail} (h : Goes env p tr q) (hp : p.WF) : q.WF := by
  obtain ⟨_, x, h2, h3⟩ := h
  rw [Path.WF, h2, endCost_append, ← hp]
  exact h3.ends.1

theorem commonLen_append : ∀ (a b : List (Seg Path)), commonLen a (a ++ b) = a.length
  | [], b => by simp [commonLen]
  | s :: a, b => by
    rw [List.cons_append, commonLen, if_pos rfl, commonLen_append a b]; simp

theorem continuation_root (p q : Path) : (continuation p q).root =
    match (q.segs.take (commonLen p.segs q.segs)).getLast? with
    | none => p.root
    | some s => s.tail := rfl

theorem continuation_segs (p q : Path) : (continuation p q).segs =
    (q.segs.drop (commonLen p.segs q.segs)).map
      (lower (match (q.segs.take (commonLen p.segs q.segs)).getLast? with
        | none => 0
        | some s => s.cost)) := rfl

theorem continuation_cost (p q : Path) : (continuation p q).cost =
    ((continuation p q).segs.getLast?.map (·.cost)).getD 0 := rfl

theorem continuation_goes {env : Env} {p q : Path} {tr : Trail} (hp : p.WF) (h : Goes env p tr q) :
    (continuation p q).root = p.tail ∧
    Way env 0 p.tail tr (continuation p q).segs (continuation p q).cost (continuation p q).tail := by
  obtain ⟨_, x, h2, h3⟩ := h
  have hk : commonLen p.segs q.segs = p.segs.length := by rw [h2]; exact commonLen_append _ _
  have ht : q.segs.take p.segs.length = p.segs := by rw [h2]; simp
  have hd : q.segs.drop p.segs.length = x := by rw [h2]; simp
  have hr : (continuation p q).root = p.tail := by
    rw [continuation_root, hk, ht, Path.tail, endOf]
    cases p.segs.getLast? <;> rfl
  have hs : (continuation p q).segs = x.map (lower p.cost) := by
    rw [continuation_segs, hk, ht, hd, hp, endCost]
  have hc : (continuation p q).cost = endCost 0 (x.map (lower p.cost)) := by
    rw [continuation_cost, hs, endCost]
    cases (x.map (lower p.cost)).getLast? <;> rfl
  have w := h3.lower (Nat.le_refl p.cost)
  rw [Nat.sub_self] at w
  have e := w.ends
  refine ⟨hr, ?_⟩
  have htl : (continuation p q).tail = q.tail := by
    rw [Path.tail, hr, hs]; exact e.2.symm
  rw [htl, hs, hc, ← e.1]
  exact w

/-! ## One step -/

/-- The step a target stands for. -/
def Target.step : Target → Step
  | .field f _ _ => .field f
  | .type n c => .on n c

/-- What a check of an edge must promise: the edge may be taken, and its requirements are met. -/
def GoodSat (env : Env) (sat : Sat) : Prop :=
  ∀ e p ex rs, e ∈ env.G.edges → e.src = p.tail → p.WF → sat e p ex = .ok (some rs) →
    Allowed env.ctx e.weight ∧ Met env p.tail (needed e.weight) rs

theorem advance_tail (G : Moves) (p : Path) (e : Edge) (rs : List Path) (t : Target) :
    (advance G p e rs t).tail = e.dst := by
  simp [advance, Path.tail, Path.root, Path.segs, endOf]

theorem advance_is {env : Env} {p : Path} {e : Edge} {t : Target} (rs : List Path)
    (hm : e ∈ env.G.edges) (hs : e.src = p.tail) (ha : Allowed env.ctx e.weight) :
    Is env p.tail p.cost t.step e ⟨e.id, e.dst, p.cost + e.weight.cost, rs, t.attrs, t.cond⟩ where
  mem := hm
  src := hs
  allowed := ha
  edge := rfl
  tail := rfl
  cost := rfl
  labels := by cases t <;> exact ⟨rfl, rfl⟩

theorem advance_goes {env : Env} {p : Path} {e : Edge} {t : Target} {rs : List Path}
    (hm : e ∈ env.G.edges) (hs : e.src = p.tail) (ha : Allowed env.ctx e.weight)
    (hr : Met env p.tail (needed e.weight) rs) (ht : Takes t.step e.weight) :
    Goes env p [t.step] (advance env.G p e rs t) := by
  refine ⟨rfl, [⟨e.id, e.dst, p.cost + e.weight.cost, rs, t.attrs, t.cond⟩], rfl, ?_⟩
  rw [advance_tail]
  exact .step _ _ e _ _ _ _ _ _ (advance_is rs hm hs ha) ht hr (.done _ _)

/-- A path that has gone to other subgraphs on its way to a step. -/
def GoesNear (env : Env) (p : Path) (st : Step) (q : Path) : Prop :=
  ∀ r, Goes env q [st] r → Goes env p [st] r

theorem GoesNear.refl (env : Env) (p : Path) (st : Step) : GoesNear env p st p := fun _ h => h

theorem advance_near {env : Env} {p q : Path} {e : Edge} {t : Target} {rs : List Path}
    (hq : GoesNear env p t.step q)
    (hm : e ∈ env.G.edges) (hs : e.src = q.tail) (ha : Allowed env.ctx e.weight)
    (hr : Met env q.tail (needed e.weight) rs) (ht : Hops e.weight) :
    GoesNear env p t.step (advance env.G q e rs t) := by
  intro r h
  refine hq r ?_
  obtain ⟨h1, x, h2, h3⟩ := h
  refine ⟨h1, ⟨e.id, e.dst, q.cost + e.weight.cost, rs, t.attrs, t.cond⟩ :: x, ?_, ?_⟩
  · rw [h2]; simp [advance, Path.segs]
  · rw [advance_tail] at h3
    exact .hop _ _ e _ _ _ _ _ _ (advance_is rs hm hs ha) ht hr h3

theorem advance_wf (G : Moves) (p : Path) (e : Edge) (rs : List Path) (t : Target) :
    (advance G p e rs t).WF := by
  simp [advance, Path.WF, Path.cost, Path.segs, endCost]

end Verif.Walker
