import Verif.Walker.Sound

/-!
# Every leaf of an operation is served
-/

namespace Verif.Walker

open Verif.Graph

theorem Match.append {α β : Type} {R : α → β → Prop} : ∀ {a b c d}, Match R a b → Match R c d →
    Match R (a ++ c) (b ++ d) := by
  intro a b c d h h'
  induction h with
  | nil => exact h'
  | cons h1 _ ih => exact .cons h1 ih

theorem Match.split {α β : Type} {R : α → β → Prop} : ∀ {a b : List α} {l : List β},
    Match R (a ++ b) l → ∃ l1 l2, l = l1 ++ l2 ∧ Match R a l1 ∧ Match R b l2
  | [], b, l, h => ⟨[], l, rfl, .nil, h⟩
  | x :: a, b, l, h => by
    cases h with
    | cons h1 h2 =>
      obtain ⟨l1, l2, rfl, h3, h4⟩ := Match.split h2
      exact ⟨_ :: l1, l2, rfl, .cons h1 h3, h4⟩

/-! ## Arriving -/

theorem Arrives.wf {env : Env} {kind : OpKind} {tr : Trail} {p : Path} (h : Arrives env kind tr p) :
    p.WF := by
  obtain ⟨e, s, rest, _, _, _, hs, _, _, _, _, hw⟩ := h
  rw [Path.WF, hs, endCost_cons]
  exact hw.ends.1

theorem Arrives.goes {env : Env} {kind : OpKind} {tr tr' : Trail} {p q : Path}
    (h : Arrives env kind tr p) (h' : Goes env p tr' q) : Arrives env kind (tr ++ tr') q := by
  obtain ⟨e, s, rest, h1, h2, h3, hs, h4, h5, h6, h7, hw⟩ := h
  obtain ⟨g1, ext, g2, g3⟩ := h'
  exact ⟨e, s, rest ++ ext, h1, h2, g1.trans h3, by rw [g2, hs]; rfl, h4, h5, h6, h7, hw.append g3⟩

theorem Arrives.entry {env : Env} {kind : OpKind} {e : Edge} (h : e ∈ env.G.edges)
    (hr : rootOf env.G kind = some e.src) : Arrives env kind [] (entryPath e) :=
  ⟨e, _, [], h, hr, rfl, rfl, rfl, rfl, rfl, ⟨rfl, rfl, rfl⟩, .done _ _⟩

/-- A path that differs only in what it knows about unions. -/
def Alike (p q : Path) : Prop := p.root = q.root ∧ p.segs = q.segs ∧ p.cost = q.cost

theorem Alike.tail {p q : Path} (h : Alike p q) : p.tail = q.tail := by
  rw [Path.tail, Path.tail, h.1, h.2.1]

theorem Alike.arrives {env : Env} {kind : OpKind} {tr : Trail} {p q : Path} (h : Alike p q)
    (ha : Arrives env kind tr q) : Arrives env kind tr p := by
  obtain ⟨e, s, rest, h1, h2, h3, hs, h4, h5, h6, h7, hw⟩ := ha
  exact ⟨e, s, rest, h1, h2, h.1.trans h3, h.2.1.trans hs, h4, h5, h6, h7, by
    rw [h.2.2, h.tail]; exact hw⟩

/-- A type is not among the members of a union on the trail, or another has been asked for since. -/
def NotIn (env : Env) (kind : OpKind) (tr : Trail) (type : String) : Prop :=
  ∃ ms ons, UnderUnion env kind tr ms ons ∧ (type ∉ ms ∨ ∃ x ∈ ons, x.1 ≠ type)

/-- All paths have come along the trail, and members of unions they leave out are blocked. -/
structure Group (env : Env) (kind : OpKind) (tr : Trail) (ps : List Path) : Prop where
  arr : ∀ p ∈ ps, Arrives env kind tr p
  under : ∀ p ∈ ps, p.union ≠ none → ∃ ms ons, UnderUnion env kind tr ms ons
  union : ∀ p ∈ ps, ∀ u, p.union = some u → ∀ t, t ∉ u.members → NotIn env kind tr t

theorem Group.sub {env : Env} {kind : OpKind} {tr : Trail} {ps qs : List Path}
    (h : Group env kind tr ps) (hs : ∀ q ∈ qs, q ∈ ps) : Group env kind tr qs :=
  ⟨fun p hp => h.arr p (hs p hp), fun p hp => h.under p (hs p hp), fun p hp => h.union p (hs p hp)⟩

theorem UnderUnion.on {env : Env} {kind : OpKind} {tr : Trail} {ms : List String}
    {ons : List (String × Cond)} (h : UnderUnion env kind tr ms ons) (t : String) (c : Cond) :
    UnderUnion env kind (tr ++ [.on t c]) ms (ons ++ [(t, c)]) := by
  obtain ⟨tr0, p, n, u, rfl, h1, h2, h3, h4⟩ := h
  exact ⟨tr0, p, n, u, by simp, h1, h2, h3, h4⟩

theorem NotIn.on {env : Env} {kind : OpKind} {tr : Trail} {type : String}
    (h : NotIn env kind tr type) (t : String) (c : Cond) : NotIn env kind (tr ++ [.on t c]) type := by
  obtain ⟨ms, ons, h1, h2⟩ := h
  refine ⟨ms, _, h1.on t c, h2.imp id ?_⟩
  rintro ⟨x, hx, hne⟩
  exact ⟨x, by simp [hx], hne⟩

/-! ## Fields -/

theorem mapPaths_mem {f : Path → Except Err (List Path)} : ∀ {ps l}, mapPaths f ps = .ok l →
    ∀ q ∈ l, ∃ p ∈ ps, ∃ l', f p = .ok l' ∧ q ∈ l' := by
  intro ps
  induction ps with
  | nil => intro l h; simp only [mapPaths, Except.ok.injEq] at h; subst h; simp
  | cons p r ih =>
    intro l h q hq
    simp only [mapPaths] at h
    split at h
    · simp at h
    next l1 h1 =>
      split at h
      · simp at h
      next l2 h2 =>
        simp only [Except.ok.injEq] at h; subst h
        rcases List.mem_append.mp hq with hq | hq
        · exact ⟨p, by simp, l1, h1, hq⟩
        · obtain ⟨x, hx, hx'⟩ := ih h2 q hq
          exact ⟨x, by simp [hx], hx'⟩

theorem mapPaths_has {f : Path → Except Err (List Path)} : ∀ {ps l}, mapPaths f ps = .ok l →
    ∀ p ∈ ps, ∃ l', f p = .ok l' ∧ ∀ q ∈ l', q ∈ l := by
  intro ps
  induction ps with
  | nil => intro l h; simp
  | cons p r ih =>
    intro l h x hx
    simp only [mapPaths] at h
    split at h
    · simp at h
    next l1 h1 =>
      split at h
      · simp at h
      next l2 h2 =>
        simp only [Except.ok.injEq] at h; subst h
        rcases List.mem_cons.mp hx with rfl | hx
        · exact ⟨l1, h1, fun q hq => by simp [hq]⟩
        · obtain ⟨l', hl, hl'⟩ := ih h2 x hx
          exact ⟨l', hl, fun q hq => by simp [hl' q hq]⟩

theorem lastBy_union {env : Env} {f : FieldInfo} {ss : List Sel} {ids : Option (List String)} {q : Path}
    (h : LastBy env (.field f ss ids) q) {u : UnionCtx} (hu : q.union = some u) :
    ∃ n d, env.G.node q.tail = some n ∧ n.union = some d ∧ d.members = u.members := by
  obtain ⟨p, e, rs, _, hl, rfl⟩ := h
  rw [advance_tail]
  change unionAfter env.G p e = some u at hu
  unfold leadsTo at hl
  unfold unionAfter at hu
  split at hl
  next hw =>
    rw [hw] at hu
    simp only at hu
    split at hu
    next n hn =>
      split at hu
      next d g hd hg =>
        simp only [Option.some.injEq] at hu; subst hu
        exact ⟨n, d, hn, hd, rfl⟩
      · simp at hu
    · simp at hu
  next hw => rw [hw] at hu; simp at hu
  · contradiction
  · contradiction
  · simp at hl

theorem fieldPaths_group {env : Env} {kind : OpKind} {tr : Trail} {f : FieldInfo} {ss : List Sel}
    {loc : List String} {ids : Option (List String)} {ps found : List Path}
    (hg : Group env kind tr ps) (h : mapPaths (fieldPaths env f ss loc ids) ps = .ok found) :
    Group env kind (tr ++ [.field f]) found := by
  have key : ∀ q ∈ found, ∃ p ∈ ps, Goes env p [.field f] q ∧ ∃ ids', LastBy env (.field f ss ids') q := by
    intro q hq
    obtain ⟨p, hp, l, hl, hq⟩ := mapPaths_mem h q hq
    refine ⟨p, hp, ?_⟩
    have hw := (hg.arr p hp).wf
    simp only [fieldPaths] at hl
    split at hl
    · simp at hl
    next ds hd =>
      have hd' := findDirect_goes (sat_good env) hw hd
      split at hl
      · split at hl
        · simp at hl
        next is hi =>
          simp only [Except.ok.injEq] at hl; subst hl
          rcases List.mem_append.mp hq with hq | hq
          · exact ⟨(hd' q hq).1, _, (hd' q hq).2⟩
          · have := findIndirect_goes (sat_good env) hw hi q hq
            exact ⟨this.1, _, this.2⟩
      · simp only [Except.ok.injEq] at hl; subst hl
        exact ⟨(hd' q hq).1, _, (hd' q hq).2⟩
  refine ⟨fun q hq => ?_, fun q hq hu => ?_, fun q hq u hu t ht => ?_⟩
  · obtain ⟨p, hp, hgo, _⟩ := key q hq
    exact (hg.arr p hp).goes hgo
  · obtain ⟨p, hp, hgo, ids', hl⟩ := key q hq
    cases hq' : q.union with
    | none => exact absurd hq' hu
    | some u =>
      obtain ⟨n, d, hn, hd, hm⟩ := lastBy_union hl hq'
      exact ⟨_, [], _, q, n, d, by simp, (hg.arr p hp).goes hgo, hn, hd, rfl⟩
  · obtain ⟨p, hp, hgo, ids', hl⟩ := key q hq
    obtain ⟨n, d, hn, hd, hm⟩ := lastBy_union hl hu
    exact ⟨u.members, [], ⟨_, q, n, d, by simp, (hg.arr p hp).goes hgo, hn, hd, hm⟩, .inl ht⟩

/-! ## Narrowing -/

theorem membersPerGraph_mem : ∀ (us : List UnionCtx) (acc : List (String × List String)),
    ∀ x ∈ membersPerGraph us acc, x ∈ acc ∨ ∃ u ∈ us, x = (u.graph, u.members)
  | [], acc, x, h => .inl h
  | u :: us, acc, x, h => by
    rcases membersPerGraph_mem us _ x h with h | ⟨v, hv, hx⟩
    · split at h
      · exact .inl h
      · rcases List.mem_append.mp h with h | h
        · exact .inl h
        · simp only [List.mem_singleton] at h
          exact .inr ⟨u, by simp, h⟩
    · exact .inr ⟨v, by simp [hv], hx⟩

theorem leastMembers_mem : ∀ (ms : List (String × List String)) (m : List String),
    leastMembers ms m = m ∨ ∃ x ∈ ms, leastMembers ms m = x.2
  | [], m => .inl rfl
  | x :: ms, m => by
    simp only [leastMembers]
    rcases leastMembers_mem ms (if x.2.length < m.length then x.2 else m) with h | ⟨y, hy, h⟩
    · rw [h]
      split
      · exact .inr ⟨x, by simp, rfl⟩
      · exact .inl rfl
    · exact .inr ⟨y, by simp [hy], h⟩

theorem narrow_mem {ps : List Path} : ∀ q ∈ narrow ps, ∃ p ∈ ps, Alike q p ∧
    (q.union = p.union ∨ ∃ u, q.union = some u ∧ p.union ≠ none ∧
      ∀ t, t ∉ u.members → ∃ r ∈ ps, ∃ v, r.union = some v ∧ t ∉ v.members) := by
  have triv : ∀ q ∈ ps, ∃ p ∈ ps, Alike q p ∧
    (q.union = p.union ∨ ∃ u, q.union = some u ∧ p.union ≠ none ∧
      ∀ t, t ∉ u.members → ∃ r ∈ ps, ∃ v, r.union = some v ∧ t ∉ v.members) :=
    fun q hq => ⟨q, hq, ⟨rfl, rfl, rfl⟩, .inl rfl⟩
  intro q hq
  unfold narrow at hq
  split at hq
  · exact triv q hq
  · exact triv q hq
  next p tl hno =>
    generalize p :: tl = ps at *
    split at hq
    · exact triv q hq
    next u hu =>
      split at hq
      next hall =>
        split at hq
        · exact triv q hq
        · exact triv q hq
        next m ms _ hms =>
          have hmem : ∀ x ∈ m :: ms, ∃ r ∈ ps, ∃ v, r.union = some v ∧ x.2 = v.members := by
            intro x hx
            rw [← hms] at hx
            rcases membersPerGraph_mem _ _ x hx with h | ⟨v, hv, rfl⟩
            · simp at h
            · obtain ⟨r, hr, hrv⟩ := List.mem_filterMap.mp hv
              exact ⟨r, hr, v, hrv, rfl⟩
          simp only at hq
          split at hq
          · simp at hq
          · obtain ⟨p', hp', hf⟩ := List.mem_filterMap.mp hq
            split at hf
            next root segs cost v =>
              split at hf
              · simp only [Option.some.injEq] at hf
                subst hf
                refine ⟨_, hp', ⟨rfl, rfl, rfl⟩, .inr ⟨_, rfl, by simp [Path.union], ?_⟩⟩
                intro t ht
                by_cases h1 : t ∈ leastMembers ms m.2
                · have : ∃ x ∈ m :: ms, t ∉ x.2 := by
                    apply Classical.byContradiction
                    intro hno
                    refine ht (List.mem_filter.mpr ⟨h1, List.all_eq_true.mpr fun x hx => ?_⟩)
                    apply Classical.byContradiction
                    intro hc
                    exact hno ⟨x, hx, by simpa using hc⟩
                  obtain ⟨x, hx, hxt⟩ := this
                  obtain ⟨r, hr, v', hv', he⟩ := hmem x hx
                  exact ⟨r, hr, v', hv', by rw [← he]; exact hxt⟩
                · rcases leastMembers_mem ms m.2 with h | ⟨x, hx, h⟩
                  · obtain ⟨r, hr, v', hv', he⟩ := hmem m (by simp)
                    exact ⟨r, hr, v', hv', by rw [← he, ← h]; exact h1⟩
                  · obtain ⟨r, hr, v', hv', he⟩ := hmem x (by simp [hx])
                    exact ⟨r, hr, v', hv', by rw [← he, ← h]; exact h1⟩
              · simp at hf
            · simp at hf
      · exact triv q hq

theorem narrow_group {env : Env} {kind : OpKind} {tr : Trail} {ps : List Path}
    (h : Group env kind tr ps) : Group env kind tr (narrow ps) := by
  refine ⟨fun q hq => ?_, fun q hq hu => ?_, fun q hq u hu t ht => ?_⟩
  · obtain ⟨p, hp, ha, _⟩ := narrow_mem q hq
    exact ha.arrives (h.arr p hp)
  · obtain ⟨p, hp, ha, he | ⟨v, hv, hn, hb⟩⟩ := narrow_mem q hq
    · exact h.under p hp (he ▸ hu)
    · exact h.under p hp hn
  · obtain ⟨p, hp, ha, he | ⟨v, hv, _, hb⟩⟩ := narrow_mem q hq
    · exact h.union p hp u (he ▸ hu) t ht
    · rw [hu] at hv
      simp only [Option.some.injEq] at hv; subst hv
      obtain ⟨r, hr, w, hw, htw⟩ := hb t ht
      exact h.union r hr w hw t htw

theorem filterPaths_mem {f : Path → Except Err Bool} : ∀ {ps l}, filterPaths f ps = .ok l →
    ∀ q ∈ l, q ∈ ps := by
  intro ps
  induction ps with
  | nil => intro l h; simp only [filterPaths, Except.ok.injEq] at h; subst h; simp
  | cons p r ih =>
    intro l h q hq
    simp only [filterPaths] at h
    split at h
    · simp at h
    · split at h
      · simp at h
      next l' hl =>
        simp only [Except.ok.injEq] at h; subst h
        split at hq
        · rcases List.mem_cons.mp hq with hq | hq
          · simp [hq]
          · simp [ih hl q hq]
        · simp [ih hl q hq]

theorem serves_best {env : Env} {kind : OpKind} {tr : Trail} {ps : List Path}
    (h : Group env kind tr ps) (hne : ps ≠ []) : Serves env kind tr (findBest ps) where
  some := findBest_ne hne
  ways := fun p hp => h.arr p (findBest_mem p hp)
  equal := findBest_cost

/-! ## Answers -/

/-- The trails of the leaves of selections that stand at the ends of trails. -/
inductive LeavesL (env : Env) (kind : OpKind) : List (Trail × Sel) → List Trail → Prop
  | nil : LeavesL env kind [] []
  | cons (tr x rest ts us) : Leaves env kind tr x ts → LeavesL env kind rest us →
      LeavesL env kind ((tr, x) :: rest) (ts.map (tr ++ ·) ++ us)

/-- The groups serve them, in some order. -/
def Answers (env : Env) (kind : OpKind) (L : List (Trail × Sel)) (gs : List (List Path)) : Prop :=
  ∃ ts gs', LeavesL env kind L ts ∧ gs'.Perm gs ∧ Match (Serves env kind) ts gs'

theorem LeavesL.append {env : Env} {kind : OpKind} {L L' : List (Trail × Sel)} {ts us : List Trail}
    (h : LeavesL env kind L ts) (h' : LeavesL env kind L' us) :
    LeavesL env kind (L ++ L') (ts ++ us) := by
  induction h with
  | nil => exact h'
  | cons tr x rest ts us h1 h2 ih =>
    rw [List.append_assoc]; exact .cons tr x _ ts _ h1 ih

theorem LeavesL.split {env : Env} {kind : OpKind} : ∀ {L L' : List (Trail × Sel)} {ts : List Trail},
    LeavesL env kind (L ++ L') ts → ∃ t1 t2, ts = t1 ++ t2 ∧ LeavesL env kind L t1 ∧
      LeavesL env kind L' t2
  | [], L', ts, h => ⟨[], ts, rfl, .nil, h⟩
  | (tr, x) :: L, L', ts, h => by
    cases h with
    | cons _ _ _ as us h1 h2 =>
      obtain ⟨t1, t2, rfl, h3, h4⟩ := LeavesL.split h2
      exact ⟨as.map (tr ++ ·) ++ t1, t2, by simp, .cons tr x L as t1 h1 h3, h4⟩

theorem Answers.perm {env : Env} {kind : OpKind} {L : List (Trail × Sel)} {a b : List (List Path)}
    (h : Answers env kind L a) (hp : a.Perm b) : Answers env kind L b := by
  obtain ⟨ts, gs, h1, h2, h3⟩ := h
  exact ⟨ts, gs, h1, h2.trans hp, h3⟩

theorem Answers.append {env : Env} {kind : OpKind} {L L' : List (Trail × Sel)} {a b : List (List Path)}
    (h : Answers env kind L a) (h' : Answers env kind L' b) : Answers env kind (L ++ L') (a ++ b) := by
  obtain ⟨ts, gs, h1, h2, h3⟩ := h
  obtain ⟨ts', gs', h1', h2', h3'⟩ := h'
  exact ⟨ts ++ ts', gs ++ gs', h1.append h1', h2.append h2', h3.append h3'⟩

theorem Answers.split {env : Env} {kind : OpKind} {L L' : List (Trail × Sel)} {m : List (List Path)}
    (h : Answers env kind (L ++ L') m) : ∃ a b, (a ++ b).Perm m ∧ Answers env kind L a ∧
      Answers env kind L' b := by
  obtain ⟨ts, gs, h1, h2, h3⟩ := h
  obtain ⟨t1, t2, rfl, h4, h5⟩ := h1.split
  obtain ⟨a, b, rfl, h6, h7⟩ := h3.split
  exact ⟨a, b, h2, ⟨t1, a, h4, .refl _, h6⟩, ⟨t2, b, h5, .refl _, h7⟩⟩

theorem Answers.nil_eq {env : Env} {kind : OpKind} {m : List (List Path)}
    (h : Answers env kind [] m) : m = [] := by
  obtain ⟨ts, gs, h1, h2, h3⟩ := h
  cases h1
  cases h3
  exact h2.symm.eq_nil

theorem leavesAll_of {env : Env} {kind : OpKind} {tr : Trail} : ∀ {ss : List Sel} {ts : List Trail},
    LeavesL env kind (ss.map (tr, ·)) ts → ∃ us, LeavesAll env kind tr ss us ∧ ts = us.map (tr ++ ·)
  | [], ts, h => by cases h; exact ⟨[], .nil tr, rfl⟩
  | x :: ss, ts, h => by
    cases h with
    | cons _ _ _ as us h1 h2 =>
      obtain ⟨vs, h3, rfl⟩ := leavesAll_of h2
      exact ⟨as ++ vs, .cons tr x ss as vs h1 h3, by simp⟩

theorem answers_of {env : Env} {kind : OpKind} {tr : Trail} {st : Step} {x : Sel} {ss : List Sel}
    (hx : ∀ us, LeavesAll env kind (tr ++ [st]) ss us → Leaves env kind tr x (us.map (st :: ·)))
    {m : List (List Path)} (h : Answers env kind (ss.map (tr ++ [st], ·)) m) :
    Answers env kind [(tr, x)] m := by
  obtain ⟨ts, gs, h1, h2, h3⟩ := h
  obtain ⟨us, h4, rfl⟩ := leavesAll_of h1
  refine ⟨_, gs, .cons tr x [] _ [] (hx us h4) .nil, h2, ?_⟩
  have : (us.map (st :: ·)).map (tr ++ ·) ++ [] = us.map ((tr ++ [st]) ++ ·) := by simp
  rw [this]; exact h3

theorem answers_one {env : Env} {kind : OpKind} {tr : Trail} {x : Sel} {st : Step} {g : List Path}
    (hx : Leaves env kind tr x [[st]]) (hg : Serves env kind (tr ++ [st]) g) :
    Answers env kind [(tr, x)] [g] :=
  ⟨_, [g], .cons tr x [] _ [] hx .nil, .refl _, .cons hg .nil⟩

/-- What is still to be resolved stands at the end of a trail along which its paths have come. -/
def Pending (env : Env) (kind : OpKind) : Trail × Sel → Sel × List Path → Prop :=
  fun a b => a.2 = b.1 ∧ Group env kind a.1 b.2

/-- The result of a step answers a selection once the rest is answered. -/
def Leads (env : Env) (kind : OpKind) (L : List (Trail × Sel)) (out : Out) : Prop :=
  ∃ L', Match (Pending env kind) L' out.1 ∧ ∀ m, Answers env kind L' m → Answers env kind L (out.2 ++ m)

theorem pending_map {env : Env} {kind : OpKind} {tr : Trail} {ps : List Path}
    (h : Group env kind tr ps) : ∀ ss : List Sel,
    Match (Pending env kind) (ss.map (tr, ·)) (ss.map (·, ps))
  | [] => .nil
  | _ :: ss => .cons ⟨rfl, h⟩ (pending_map h ss)

theorem fieldStep_leads {env : Env} {kind : OpKind} {tr : Trail} {f : FieldInfo} {ss : List Sel}
    {ok : Path → List String → Except Err Bool} {ps : List Path} {loc : List String} {out : Out}
    (hg : Group env kind tr ps) (h : fieldStep env f ss ok ps loc = .ok out) :
    Leads env kind [(tr, .field f ss)] out := by
  simp only [fieldStep] at h
  split at h
  · simp at h
  · split at h
    · simp at h
    next found hf =>
      split at h
      · simp at h
      next tk ht =>
        have g1 := fieldPaths_group hg hf
        have g2 : Group env kind (tr ++ [.field f]) tk.best := g1.sub fun q hq => by
          rcases trackAll_mem ht q hq with h | h
          · exact h
          · simp [Tracker.best] at h
        have g3 := narrow_group g2
        split at h
        · simp at h
        next n next hn =>
          rw [hn] at g3
          simp only [fieldOut] at h
          split at h
          · simp at h
          next lc hlc =>
            split at h
            · simp at h
            next nx hnx =>
              have g4 : Group env kind (tr ++ [.field f]) nx := by
                split at hnx
                · simp only [Except.ok.injEq] at hnx; subst hnx; exact g3
                · exact g3.sub (filterPaths_mem hnx)
              split at h
              next hs =>
                have hs : ss = [] := by simpa using hs
                subst hs
                simp only [Except.ok.injEq] at h; subst h
                have hne : nx ≠ [] := by
                  simp only [localFields, List.isEmpty_nil, if_true, Except.ok.injEq] at hlc
                  subst hlc
                  simp only [List.isEmpty_nil, if_true, Except.ok.injEq] at hnx
                  subst hnx; simp
                refine ⟨[], .nil, fun m hm => ?_⟩
                rw [hm.nil_eq]
                exact answers_one (.leaf tr f) (serves_best g4 hne)
              next hs =>
                split at h
                · simp at h
                · simp only [Except.ok.injEq] at h; subst h
                  refine ⟨_, pending_map g4 ss, fun m hm => ?_⟩
                  cases ss with
                  | nil => simp at hs
                  | cons x ss =>
                    exact answers_of (fun us hus => .field tr f x ss us hus) hm

theorem firstSelfie_goes {env : Env} {p : Path} (hp : p.WF) {type : String} {cond : Cond} {q : Path} :
    ∀ {es : List Edge}, firstSelfie env p type cond es = .ok q →
    (∀ e ∈ es, e ∈ env.G.edgesFrom p.tail ∧ isSelfie type e = true) →
    Goes env p [.on type cond] q := by
  intro es
  induction es with
  | nil => intro h; simp [firstSelfie] at h
  | cons e es ih =>
    intro h hes
    simp only [firstSelfie] at h
    split at h
    · simp at h
    next q' hq =>
      simp only [Except.ok.injEq] at h; subst h
      obtain ⟨he, hs⟩ := hes e (by simp)
      have : e.weight = .selfie type := by
        unfold isSelfie at hs
        split at hs
        next hw => rw [hw, eq_of_beq hs]
        · simp at hs
      exact (tryAdvance_goes (sat_good env) hp he (by rw [this]; exact .selfie _ _) hq).1
    · exact ih h fun x hx => hes x (by simp [hx])

theorem sat_abstract {env : Env} {e : Edge} {p : Path} {ex : Excl} {t : String}
    (h : e.weight = .abstract t) : sat env e p ex = .ok (some []) := by
  simp [sat, canSatisfy, checkReqs, h, overrideOk, Weight.requires]

theorem onto_blocked {env : Env} {kind : OpKind} {tr : Trail} {ps : List Path}
    (hg : Group env kind tr ps) {g : FragInfo} {loc : List String} {p : Path} (hp : p ∈ ps)
    {n : Node} (hn : env.G.node p.tail = some n) (hne : n.name ≠ g.cond)
    (h : ontoFrom env g loc p = .ok []) : Blocked env kind tr g.cond := by
  simp only [ontoFrom] at h
  split at h
  · simp at h
  next ds hd =>
    have hds : ds = [] := by
      split at h
      · split at h
        · simp at h
        · simp only [Except.ok.injEq, List.append_eq_nil_iff] at h
          simpa using h.1
      · simp only [Except.ok.injEq] at h
        simpa using h
    subst hds
    simp only [findDirect] at hd
    split at hd
    next ha =>
      refine .inl ⟨p, n, hg.arr p hp, hn, hne, fun e he hs hw => ?_⟩
      have hl : leadsTo (.type g.cond (g.skipIf, g.includeIf)) e = true := by simp [leadsTo, hw]
      obtain ⟨o, ho, hr⟩ := collect_has hd e
        (List.mem_filter.mpr ⟨hs ▸ mem_edgesFrom_of he, hl⟩)
      simp only [tryAdvance, sat_abstract hw, Except.ok.injEq] at ho
      have := hr _ ho.symm
      simp at this
    next ha =>
      simp only [Path.allows] at ha
      split at ha
      · simp at ha
      next u hu => exact .inr (hg.union p hp u hu g.cond (by simpa using ha))

theorem expand_from {G : Moves} {S : Super} {sat : Sat} {cur source : String} {t : Target} {it : Item} :
    ∀ {es : List Edge} {tr tr' : Tracker} {q q' : List Item},
    expand G S sat cur source t it es tr q = .ok (tr', q') → (∀ e ∈ es, isHop e = true) →
    ∀ x ∈ tr'.best, x ∈ tr.best ∨ ∃ r e rs ds, isHop e = true ∧
      findDirect G sat (advance G r e rs t) t = .ok ds ∧ x ∈ ds := by
  intro es
  induction es with
  | nil =>
    intro tr tr' q q' h _ x hx
    simp only [expand, Except.ok.injEq, Prod.mk.injEq] at h
    obtain ⟨rfl, rfl⟩ := h
    exact .inl hx
  | cons e es ih =>
    intro tr tr' q q' h hes x hx
    have hes' : ∀ e ∈ es, isHop e = true := fun x hx => hes x (by simp [hx])
    simp only [expand] at h
    split at h
    · simp at h
    · split at h
      · simp at h
      · split at h
        · exact ih h hes' x hx
        · split at h
          · simp at h
          · exact ih h hes' x hx
          next rs _ =>
            split at h
            · simp at h
            · exact ih h hes' x hx
            next d ds hd =>
              split at h
              · simp at h
              next t1 ht =>
                rcases ih h hes' x hx with hx | hx
                · rcases trackAll_mem ht x hx with hx | hx
                  · exact .inr ⟨it.path, e, rs, _, hes e (by simp), hd, hx⟩
                  · exact .inl hx
                · exact .inr hx

theorem indirectLoop_from {G : Moves} {S : Super} {sat : Sat} {cur source : String} {t : Target} :
    ∀ {n : Nat} {q : List Item} {seen : List Nat} {tr tr' : Tracker},
    indirectLoop G S sat cur source t n q seen tr = .ok tr' →
    ∀ x ∈ tr'.best, x ∈ tr.best ∨ ∃ r e rs ds, isHop e = true ∧
      findDirect G sat (advance G r e rs t) t = .ok ds ∧ x ∈ ds := by
  intro n
  induction n with
  | zero => intro q seen tr tr' h; simp [indirectLoop] at h
  | succ n ih =>
    intro q seen tr tr' h x hx
    cases q with
    | nil => simp only [indirectLoop, Except.ok.injEq] at h; subst h; exact .inl hx
    | cons it q =>
      simp only [indirectLoop] at h
      split at h
      · exact ih h x hx
      · split at h
        · simp at h
        next tr1 q1 he =>
          rcases ih h x hx with hx | hx
          · exact expand_from he (fun e he => (List.mem_filter.mp he).2) x hx
          · exact .inr hx

theorem unionAfter_hop {G : Moves} {p : Path} {e : Edge} (h : isHop e = true) : unionAfter G p e = none := by
  unfold isHop at h
  unfold unionAfter
  split at h
  next hw => rw [hw]
  next hw => rw [hw]
  · simp at h

theorem findDirect_union {G : Moves} {sat : Sat} {p : Path} {type : String} {c : Cond} {ds : List Path}
    (h : findDirect G sat p (.type type c) = .ok ds) : ∀ q ∈ ds, ∀ u, q.union = some u →
    p.union ≠ none ∧ u.members = [type] := by
  simp only [findDirect] at h
  split at h
  · intro q hq u hu
    obtain ⟨e, he, h1⟩ := collect_mem h q hq
    have hl := (List.mem_filter.mp he).2
    simp only [tryAdvance] at h1
    split at h1
    · simp at h1
    · simp at h1
    · simp only [Except.ok.injEq, Option.some.injEq] at h1; subst h1
      change unionAfter G p e = some u at hu
      unfold leadsTo at hl
      unfold unionAfter at hu
      split at hl
      · contradiction
      · contradiction
      next ht hw =>
        rw [hw] at hu
        simp only [Option.map_eq_some_iff] at hu
        obtain ⟨v, hv, rfl⟩ := hu
        rw [hv]
        refine ⟨by simp, ?_⟩
        simp only [Target.type.injEq] at ht
        rw [eq_of_beq hl, ht.1]
      next _ hw => rw [hw] at hu; simp at hu
      · simp at hl
  · simp only [Except.ok.injEq] at h; subst h; simp

theorem findIndirect_union {G : Moves} {S : Super} {sat : Sat} {p : Path} {type : String} {c : Cond}
    {ex : Excl} {is : List Path} (h : findIndirect G S sat p (.type type c) ex = .ok is) :
    ∀ q ∈ is, q.union = none := by
  simp only [findIndirect] at h
  split at h
  · simp at h
  · split at h
    · simp at h
    · split at h
      · split at h
        · simp at h
        next tr htr =>
          simp only [Except.ok.injEq] at h; subst h
          intro q hq
          rcases indirectLoop_from htr q hq with hq | ⟨r, e, rs, ds, he, hd, hq⟩
          · simp [Tracker.best] at hq
          · cases hu : q.union with
            | none => rfl
            | some u =>
              exact absurd (unionAfter_hop he) (findDirect_union hd q hq u hu).1
      · simp only [Except.ok.injEq] at h; subst h; simp

theorem ontoFrom_union {env : Env} {p : Path} {g : FragInfo} {loc : List String}
    {l : List Path} (h : ontoFrom env g loc p = .ok l) :
    ∀ q ∈ l, ∀ u, q.union = some u → p.union ≠ none ∧ u.members = [g.cond] := by
  simp only [ontoFrom] at h
  split at h
  · simp at h
  next ds hd =>
    have hd' := findDirect_union hd
    intro q hq u hu
    split at h
    · split at h
      · simp at h
      next is hi =>
        simp only [Except.ok.injEq] at h; subst h
        rcases List.mem_append.mp hq with hq | hq
        · exact hd' q (List.mem_of_mem_take hq) u hu
        · rw [findIndirect_union hi q (List.mem_of_mem_take hq)] at hu; simp at hu
    · simp only [Except.ok.injEq] at h; subst h
      exact hd' q (List.mem_of_mem_take hq) u hu

theorem firstSelfie_union {env : Env} {p : Path} {type : String} {c : Cond} : ∀ {es : List Edge} {q : Path},
    firstSelfie env p type c es = .ok q → (∀ e ∈ es, isSelfie type e = true) → q.union = p.union := by
  intro es
  induction es with
  | nil => intro q h; simp [firstSelfie] at h
  | cons e es ih =>
    intro q h hes
    simp only [firstSelfie] at h
    split at h
    · simp at h
    next q' hq =>
      simp only [Except.ok.injEq] at h; subst h
      have h1 := hes e (by simp)
      simp only [tryAdvance] at hq
      split at hq
      · simp at hq
      · simp at hq
      · simp only [Except.ok.injEq, Option.some.injEq] at hq; subst hq
        change unionAfter env.G p e = p.union
        unfold isSelfie at h1
        unfold unionAfter
        split at h1
        next hw => rw [hw]
        · simp at h1
    · exact ih h fun x hx => hes x (by simp [hx])

theorem ontoFrom_goes {env : Env} {p : Path} (hp : p.WF) {g : FragInfo} {loc : List String}
    {l : List Path} (h : ontoFrom env g loc p = .ok l) :
    ∀ q ∈ l, Goes env p [.on g.cond (g.skipIf, g.includeIf)] q := by
  simp only [ontoFrom] at h
  split at h
  · simp at h
  next ds hd =>
    have hd' := findDirect_goes (sat_good env) hp hd
    intro q hq
    split at h
    · split at h
      · simp at h
      next is hi =>
        simp only [Except.ok.injEq] at h; subst h
        rcases List.mem_append.mp hq with hq | hq
        · exact (hd' q (List.mem_of_mem_take hq)).1
        · exact (findIndirect_goes (sat_good env) hp hi q (List.mem_of_mem_take hq)).1
    · simp only [Except.ok.injEq] at h; subst h
      exact (hd' q (List.mem_of_mem_take hq)).1

theorem onlyTypename_leads {env : Env} {kind : OpKind} {tr : Trail} {ps : List Path} {out : Out}
    (hg : Group env kind tr ps) {g : FragInfo} {ss : List Sel} (hb : Blocked env kind tr g.cond)
    (h : onlyTypename env ps = .ok out) : Leads env kind [(tr, .frag g ss)] out := by
  simp only [onlyTypename] at h
  split at h
  · simp at h
  next l hl =>
    split at h
    · simp at h
    next tk ht =>
      split at h
      · simp at h
      next hne =>
        simp only [Except.ok.injEq] at h; subst h
        have arr : ∀ q ∈ tk.best, Arrives env kind (tr ++ [.field typename]) q := by
          intro q hq
          rcases trackAll_mem ht q hq with h | h
          · obtain ⟨p, hp, l', hl', hq⟩ := mapPaths_mem hl q h
            simp only [typenameFrom] at hl'
            split at hl'
            · simp at hl'
            · simp at hl'
            next d ds hd =>
              simp only [Except.ok.injEq] at hl'; subst hl'
              exact (hg.arr p hp).goes (findDirect_goes (sat_good env) (hg.arr p hp).wf hd q hq).1
          · simp [Tracker.best] at h
        refine ⟨[], .nil, fun m hm => ?_⟩
        rw [hm.nil_eq]
        exact answers_one (.cut tr g ss hb)
          ⟨findBest_ne (by simpa using hne), fun p hp => arr p (findBest_mem p hp), findBest_cost⟩

theorem fragStep_leads {env : Env} {kind : OpKind} (hagree : Agree env kind) {tr : Trail} {g : FragInfo}
    {ss : List Sel} {k : List Path → Except Err Out} {ps : List Path} {loc : List String} {out : Out}
    (hk : ∀ qs o, Group env kind (tr ++ [.on g.cond (g.skipIf, g.includeIf)]) qs → k qs = .ok o →
      Leads env kind (ss.map (tr ++ [.on g.cond (g.skipIf, g.includeIf)], ·)) o)
    (hg : Group env kind tr ps) (h : fragStep env g k ps loc = .ok out) :
    Leads env kind [(tr, .frag g ss)] out := by
  have lift : ∀ qs o, Group env kind (tr ++ [.on g.cond (g.skipIf, g.includeIf)]) qs → k qs = .ok o →
      Leads env kind [(tr, .frag g ss)] o := by
    intro qs o hq ho
    obtain ⟨L', h1, h2⟩ := hk qs o hq ho
    exact ⟨L', h1, fun m hm => answers_of (fun us hus => .frag tr g ss us hus) (h2 m hm)⟩
  have grp : ∀ qs, (∀ q ∈ qs, ∃ p ∈ ps, Goes env p [.on g.cond (g.skipIf, g.includeIf)] q ∧
        (q.union = p.union ∨ ∀ u, q.union = some u → p.union ≠ none ∧ u.members = [g.cond])) →
      Group env kind (tr ++ [.on g.cond (g.skipIf, g.includeIf)]) qs := by
    intro qs hqs
    refine ⟨fun q hq => ?_, fun q hq hu => ?_, fun q hq u hu t ht => ?_⟩
    · obtain ⟨p, hp, hgo, _⟩ := hqs q hq
      exact (hg.arr p hp).goes hgo
    · obtain ⟨p, hp, hgo, hpu⟩ := hqs q hq
      have : p.union ≠ none := by
        rcases hpu with h | h
        · rw [← h]; exact hu
        · cases hq' : q.union with
          | none => exact absurd hq' hu
          | some u => exact (h u hq').1
      obtain ⟨ms, ons, h⟩ := hg.under p hp this
      exact ⟨ms, _, h.on _ _⟩
    · obtain ⟨p, hp, hgo, h | h⟩ := hqs q hq
      · exact (hg.union p hp u (h ▸ hu) t ht).on _ _
      · obtain ⟨h1, h2⟩ := h u hu
        obtain ⟨ms, ons, h3⟩ := hg.under p hp h1
        refine ⟨ms, _, h3.on g.cond (g.skipIf, g.includeIf), .inr ⟨(g.cond, (g.skipIf, g.includeIf)), by simp, ?_⟩⟩
        rw [h2] at ht
        intro he
        exact ht (by simp [← he])
  unfold fragStep at h
  split at h
  · simp at h
  next p rest =>
    split at h
    · simp at h
    · split at h
      · simp at h
      · simp at h
      next name _ _ _ hn =>
        split at h
        next hname =>
          have hname : name = g.cond := by simpa using hname
          split at h
          next hc =>
            have hc1 : g.includeIf = none := by
              have := (Bool.and_eq_true _ _ ▸ hc).1; simpa using this
            have hc2 : g.skipIf = none := by
              have := (Bool.and_eq_true _ _ ▸ hc).2; simpa using this
            refine lift _ _ (grp _ fun q hq => ⟨q, hq, ⟨rfl, [], by simp, ?_⟩, .inl rfl⟩) h
            have he := hagree tr p q (hg.arr p (by simp)) (hg.arr q hq)
            rw [hn] at he
            cases hq' : env.G.node q.tail with
            | none => rw [hq'] at he; simp at he
            | some b =>
              rw [hq'] at he
              simp only [Option.map_some, Option.some.injEq] at he
              change name = b.name at he
              rw [hc1, hc2]
              exact .same _ _ b _ _ _ _ _ hq' (.inl (by rw [← he, hname])) (.done _ _)
          · split at h
            · simp at h
            next next hm =>
              refine lift _ _ (grp _ fun q hq => ?_) h
              obtain ⟨p', hp', l, hl, hq⟩ := mapPaths_mem hm q hq
              split at hl
              · simp at hl
              next q' hs =>
                simp only [Except.ok.injEq] at hl; subst hl
                simp only [List.mem_singleton] at hq; subst hq
                exact ⟨p', hp', firstSelfie_goes (hg.arr p' hp').wf hs fun e he => by simpa using he,
                  .inl (firstSelfie_union hs fun e he => (List.mem_filter.mp he).2)⟩
        next hname =>
          split at h
          · simp at h
          next hm =>
            obtain ⟨l, hl, hl'⟩ := mapPaths_has hm p (by simp)
            have : l = [] := by
              cases l with
              | nil => rfl
              | cons a r => have := hl' a (by simp); simp at this
            subst this
            exact onlyTypename_leads hg (onto_blocked hg (by simp) hn (by simpa [Node.name] using hname) hl) h
          next n next hm =>
            refine lift _ _ (grp _ fun q hq => ?_) h
            obtain ⟨p', hp', l, hl, hq⟩ := mapPaths_mem hm q hq
            exact ⟨p', hp', ontoFrom_goes (hg.arr p' hp').wf hl q hq, .inr (ontoFrom_union hl q hq)⟩

mutual
theorem processSel_leads {env : Env} {kind : OpKind} (hagree : Agree env kind) :
    ∀ (x : Sel) {tr : Trail} {ps : List Path} {loc : List String} {out : Out},
    Group env kind tr ps → processSel env x ps loc = .ok out → Leads env kind [(tr, x)] out
  | .field f ss, tr, ps, loc, out, hg, h => by
    simp only [processSel] at h
    exact fieldStep_leads hg h
  | .frag g ss, tr, ps, loc, out, hg, h => by
    simp only [processSel] at h
    exact fragStep_leads hagree (fun qs o hq ho => processSels_leads hagree ss hq ho) hg h
  | .spread n, tr, ps, loc, out, hg, h => by
    simp only [processSel, Except.ok.injEq] at h; subst h
    refine ⟨[], .nil, fun m hm => ?_⟩
    rw [hm.nil_eq]
    exact ⟨[], [], .cons tr _ [] [] [] (.spread tr n) .nil, .refl _, .nil⟩
theorem processSels_leads {env : Env} {kind : OpKind} (hagree : Agree env kind) :
    ∀ (ss : List Sel) {tr : Trail} {ps : List Path} {loc : List String} {out : Out},
    Group env kind tr ps → processSels env ss ps loc = .ok out → Leads env kind (ss.map (tr, ·)) out
  | [], tr, ps, loc, out, hg, h => by
    simp only [processSels, Except.ok.injEq] at h; subst h
    exact ⟨[], .nil, fun m hm => hm⟩
  | x :: r, tr, ps, loc, out, hg, h => by
    simp only [processSels] at h
    split at h
    · simp at h
    next s g hx =>
      split at h
      · simp at h
      next s' g' hr =>
        simp only [Except.ok.injEq] at h; subst h
        obtain ⟨L1, m1, a1⟩ := processSel_leads hagree x hg hx
        obtain ⟨L2, m2, a2⟩ := processSels_leads hagree r hg hr
        refine ⟨L1 ++ L2, m1.append m2, fun m hm => ?_⟩
        obtain ⟨a, b, hp, ha, hb⟩ := hm.split
        have := (a1 a ha).append (a2 b hb)
        refine Answers.perm this ?_
        simp only [List.append_assoc]
        refine List.Perm.append_left g ?_
        refine List.Perm.trans ?_ (List.Perm.append_left g' hp)
        rw [← List.append_assoc, ← List.append_assoc]
        exact List.Perm.append_right b List.perm_append_comm
end

theorem walkLoop_answers {env : Env} {kind : OpKind} (hagree : Agree env kind) :
    ∀ {n : Nat} {st : List (Sel × List Path)} {acc gs : List (List Path)} {L : List (Trail × Sel)},
    walkLoop env n st acc = .ok gs → Match (Pending env kind) L st →
    ∃ m, gs = acc ++ m ∧ Answers env kind L m := by
  intro n
  induction n with
  | zero => intro st acc gs L h; simp [walkLoop] at h
  | succ n ih =>
    intro st acc gs L h hm
    cases hm with
    | nil =>
      simp only [walkLoop, Except.ok.injEq] at h; subst h
      exact ⟨[], by simp, [], [], .nil, .refl _, .nil⟩
    | @cons a b as bs hp hm =>
      obtain ⟨tr, x⟩ := a
      obtain ⟨y, ps⟩ := b
      obtain ⟨hxy, hg⟩ := hp
      simp only at hxy hg; subst hxy
      simp only [walkLoop] at h
      split at h
      · simp at h
      next s g hs =>
        obtain ⟨L', m1, a1⟩ := processSel_leads hagree x hg hs
        obtain ⟨m, rfl, hm'⟩ := ih h (m1.append hm)
        obtain ⟨a, b, hp, ha, hb⟩ := hm'.split
        refine ⟨g ++ m, by simp, ?_⟩
        refine Answers.perm ((a1 a ha).append hb) ?_
        simp only [List.append_assoc]
        exact List.Perm.append_left g hp

theorem walkRoots_resolves {env : Env} {kind : OpKind} (hagree : Agree env kind) {start : List Path}
    (hs : Group env kind [] start) : ∀ {sels : List Sel} {out : List (List (List Path))},
    walkRoots env start sels = .ok out → Match (Resolves env kind) sels out := by
  intro sels
  induction sels with
  | nil => intro out h; simp only [walkRoots, Except.ok.injEq] at h; subst h; exact .nil
  | cons x r ih =>
    intro out h
    simp only [walkRoots] at h
    split at h
    · simp at h
    next g hg =>
      split at h
      · simp at h
      next gs hgs =>
        simp only [Except.ok.injEq] at h; subst h
        refine .cons ?_ (ih hgs)
        obtain ⟨m, hm, ts, gs', h1, h2, h3⟩ := walkLoop_answers hagree (L := [([], x)]) hg
          (.cons ⟨rfl, hs⟩ .nil)
        cases h1 with
        | cons _ _ _ us vs h4 h5 =>
          cases h5
          refine ⟨us, gs', h4, ?_, by simpa using h3⟩
          rw [hm]; simpa using h2

theorem entrypoints_mem {G : Moves} {kind : OpKind} {es : List Edge} (h : entrypoints G kind = .ok es) :
    ∀ e ∈ es, e ∈ G.edges ∧ rootOf G kind = some e.src := by
  have : entrypoints G kind = match rootOf G kind with
    | none => .error .missingRoot
    | some r => .ok (G.edges.filter (·.src == r)) := by cases kind <;> rfl
  rw [this] at h
  split at h
  · simp at h
  next r hr =>
    simp only [Except.ok.injEq] at h; subst h
    intro e he
    obtain ⟨h1, h2⟩ := List.mem_filter.mp he
    exact ⟨h1, by rw [hr, eq_of_beq h2]⟩

theorem walk_resolves {env : Env} {kind : OpKind} (hagree : Agree env kind) {sels : List Sel}
    {out : List (List (List Path))} (h : walk env kind sels = .ok out) :
    Match (Resolves env kind) sels out := by
  simp only [walk] at h
  split at h
  · simp at h
  next es he =>
    refine walkRoots_resolves hagree ⟨?_, ?_, ?_⟩ h
    · intro p hp
      obtain ⟨e, hes, rfl⟩ := List.mem_map.mp hp
      have := entrypoints_mem he e hes
      exact Arrives.entry this.1 this.2
    · intro p hp hu
      obtain ⟨e, _, rfl⟩ := List.mem_map.mp hp
      simp [entryPath, Path.union] at hu
    · intro p hp u hu
      obtain ⟨e, _, rfl⟩ := List.mem_map.mp hp
      simp [entryPath, Path.union] at hu

end Verif.Walker
