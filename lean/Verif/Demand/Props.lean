import Verif.Demand.Lemmas
/-!
# C31: demand control

The specification is in `Verif.Demand.Spec`: `OpCost` is the cost of a subgraph operation computed
directly on the operation with its variables, in unbounded arithmetic. What follows relates it to the
formula that is compiled once, kept in a cache and evaluated for every request.
-/
namespace Verif.Demand

/-! ## Requests -/

/-- A request: the hash of its normalized operation, its plan, its variables. -/
structure Request where
  hash : Nat
  plan : Option PlanNode
  vars : Vars

/-- The router handles requests one after the other, with one cache: the answer to each. -/
def serve (S : Schema) (cfg : Config) : Cache → List Request → List (Except Refusal Context)
  | _, [] => []
  | cache, r :: rest =>
    let (a, cache) := evaluate S cfg cache r.vars r.hash r.plan
    a :: serve S cfg cache rest

/-- The default list size of a subgraph. -/
def listSizeFor (cfg : Config) (s : Name) : UInt64 :=
  (cfg.listSizes.lookup s).getD (cfg.listSizeAll.getD 0)

/-- `cost` gives the cost of every subgraph call of the request. -/
def CostFn (S : Schema) (cfg : Config) (r : Request) (cost : Fetch → Nat) : Prop :=
  ∀ f ∈ callsOpt r.vars r.plan, OpCost S r.vars (listSizeFor cfg f.service) f.op (cost f)

/-- The operations are as the planner makes them, and no argument value costs more than machine
integers can hold. -/
def RequestOk (S : Schema) (r : Request) : Prop :=
  ∀ f ∈ callsOpt r.vars r.plan, OpOk f.op ∧
    ∀ s, Expands f.op.frags f.op.sels s → inputsFit S r.vars (S.root f.op.kind) s

/-- Requests of the same hash have the same plan. -/
def HashOk (rs : List Request) : Prop := ∀ a ∈ rs, ∀ b ∈ rs, a.hash = b.hash → a.plan = b.plan

/-- The cost of all calls. -/
def total (r : Request) (cost : Fetch → Nat) : Nat := ((callsOpt r.vars r.plan).map cost).sum

/-- The cost of the calls to one subgraph. -/
def totalFor (r : Request) (cost : Fetch → Nat) (s : Name) : Nat :=
  (((callsOpt r.vars r.plan).filter (fun f => f.service = s)).map cost).sum

/-! ## Lemmas -/

/-- Evaluation over a list of calls. -/
def foldCalls (S : Schema) (cfg : Config) (σ : Vars) : List Fetch → Evaluation →
    Except SlicingError Evaluation
  | [], acc => .ok acc
  | f :: r, acc =>
    match eval S σ (compileOp S (defaultListSize cfg f.service) f.op) with
    | .ok c => foldCalls S cfg σ r ⟨satAdd acc.estimated c, addTo acc.perSubgraph f.service c⟩
    | .error e => .error e

theorem foldCalls_append {S : Schema} {cfg : Config} {σ : Vars} : ∀ (a b : List Fetch) (acc : Evaluation),
    foldCalls S cfg σ (a ++ b) acc = (do let x ← foldCalls S cfg σ a acc; foldCalls S cfg σ b x)
  | [], b, acc => rfl
  | f :: a, b, acc => by
    simp only [List.cons_append, foldCalls]
    cases eval S σ (compileOp S (defaultListSize cfg f.service) f.op) with
    | ok c => exact foldCalls_append a b _
    | error e => rfl

theorem evalNodes_append {S : Schema} {σ : Vars} : ∀ (a b : List Formula) (acc : Evaluation),
    evalNodes S σ (a ++ b) acc = (do let x ← evalNodes S σ a acc; evalNodes S σ b x)
  | [], b, acc => by simp only [List.nil_append, evalNodes]; rfl
  | f :: a, b, acc => by
    simp only [List.cons_append, evalNodes]
    cases evalNode S σ f acc with
    | ok c => exact evalNodes_append a b _
    | error e => rfl

theorem evalFetch_calls {S : Schema} {cfg : Config} {σ : Vars} (f : Fetch) (acc : Evaluation) :
    evalNode S σ (compileFetch S cfg f) acc = foldCalls S cfg σ [f] acc := by
  simp only [compileFetch, evalNode, foldCalls]
  cases eval S σ (compileOp S (defaultListSize cfg f.service) f.op) <;> rfl

mutual
theorem evalNode_calls {S : Schema} {cfg : Config} {σ : Vars} : ∀ (n : PlanNode) (acc : Evaluation),
    evalNode S σ (compileNode S cfg n) acc = foldCalls S cfg σ (calls σ n) acc
  | .fetch f, acc => by simp only [compileNode, calls]; exact evalFetch_calls f acc
  | .flatten n, acc => by simp only [compileNode, calls]; exact evalNode_calls n acc
  | .sequence l, acc => by simp only [compileNode, calls, evalNode]; exact evalNodes_calls l acc
  | .parallel l, acc => by simp only [compileNode, calls, evalNode]; exact evalNodes_calls l acc
  | .condition v t e, acc => by
    simp only [compileNode, calls, evalNode]
    cases varTrue σ v with
    | true => simpa using evalOpt_calls t acc
    | false => simpa using evalOpt_calls e acc
  | .subscription f, acc => by simp only [compileNode, calls]; exact evalFetch_calls f acc
  | .defer p l, acc => by
    simp only [compileNode, calls, evalNode, evalNodes_append, foldCalls_append]
    have h := evalOpt_calls (S := S) (cfg := cfg) (σ := σ) p acc
    rw [← h]
    cases p with
    | none =>
      simp only [compileOpt, Option.toList, evalNodes, evalOpt]
      exact evalNodes_calls l acc
    | some n =>
      simp only [compileOpt, Option.toList, evalNodes, evalOpt]
      cases evalNode S σ (compileNode S cfg n) acc with
      | error e => rfl
      | ok x => exact evalNodes_calls l x
theorem evalNodes_calls {S : Schema} {cfg : Config} {σ : Vars} : ∀ (l : List PlanNode) (acc : Evaluation),
    evalNodes S σ (compileNodes S cfg l) acc = foldCalls S cfg σ (callsAll σ l) acc
  | [], acc => by simp only [compileNodes, evalNodes, callsAll, foldCalls]
  | n :: r, acc => by
    simp only [compileNodes, evalNodes, callsAll, foldCalls_append, evalNode_calls n acc]
    cases foldCalls S cfg σ (calls σ n) acc with
    | error e => rfl
    | ok x => exact evalNodes_calls r x
theorem evalOpt_calls {S : Schema} {cfg : Config} {σ : Vars} : ∀ (o : Option PlanNode) (acc : Evaluation),
    evalOpt S σ (compileOpt S cfg o) acc = foldCalls S cfg σ (callsOpt σ o) acc
  | none, acc => by simp only [compileOpt, evalOpt, callsOpt, foldCalls]
  | some n, acc => by simp only [compileOpt, evalOpt, callsOpt]; exact evalNode_calls n acc
end

theorem evalPlan_calls {S : Schema} {cfg : Config} {σ : Vars} (plan : Option PlanNode) :
    evalPlan S σ (compilePlan S cfg plan) = foldCalls S cfg σ (callsOpt σ plan) ⟨0, []⟩ := by
  cases plan with
  | none => simp only [evalPlan, compilePlan, evalNode, evalNodes, callsOpt, foldCalls]
  | some n => simp only [evalPlan, compilePlan, callsOpt]; exact evalNode_calls n _

theorem listSizeFor_eq (cfg : Config) (s : Name) : defaultListSize cfg s = listSizeFor cfg s := by
  unfold defaultListSize listSizeFor
  cases cfg.listSizes.lookup s <;> rfl

theorem op_rep {S : Schema} {σ : Vars} {dl : UInt64} {op : Op} {c : Nat} (hok : OpOk op)
    (hfit : ∀ s, Expands op.frags op.sels s → inputsFit S σ (S.root op.kind) s)
    (hc : OpCost S σ dl op c) : Rep S σ (compileOp S dl op) c := by
  obtain ⟨hn, rank, hrank, r, hb⟩ := hok
  obtain ⟨s, hs, rfl⟩ := hc
  have := addNonzero_rep (compile_rep hn hrank dl hs hb (visiting_nil _ _ _) .nil (hfit s hs))
  unfold compileOp
  split
  · exact addNonzero_rep (.cons (rep_const 10) (.one this))
  · rw [Nat.zero_add]; exact this

theorem op_good {S : Schema} {σ : Vars} {dl : UInt64} {op : Op} (hok : OpOk op)
    (hsl : ∀ s, Expands op.frags op.sels s → slicingOk S σ (S.root op.kind) s) :
    Good S σ (compileOp S dl op) := by
  obtain ⟨s, hs⟩ := expands_exists hok
  obtain ⟨hn, rank, hrank, r, hb⟩ := hok
  have := addNonzero_good (compile_good hn hrank dl hs hb (visiting_nil _ _ _)
    (fun o h => absurd h List.not_mem_nil) (hsl s hs))
  unfold compileOp
  split
  · apply addNonzero_good
    intro e he
    simp only [List.mem_cons, List.not_mem_nil, or_false] at he
    rcases he with rfl | rfl
    · exact good_const _
    · exact this
  · exact this

/-- A map has no key twice. -/
def KeysNodup (m : List (Name × Nat)) : Prop := (m.map (·.1)).Nodup

theorem addTo_keys {m : List (Name × Nat)} {s : Name} {c : Nat} {k : Name} :
    k ∈ (addTo m s c).map (·.1) ↔ k = s ∨ k ∈ m.map (·.1) := by
  induction m with
  | nil => simp [addTo]
  | cons x r ih =>
    obtain ⟨a, v⟩ := x
    simp only [addTo]
    split
    · next h =>
      subst h
      simp only [List.map_cons, List.mem_cons]
      exact ⟨.inr, fun h => h.elim .inl id⟩
    · simp only [List.map_cons, List.mem_cons, ih]
      constructor
      · rintro (h | h | h)
        · exact .inr (.inl h)
        · exact .inl h
        · exact .inr (.inr h)
      · rintro (h | h | h)
        · exact .inr (.inl h)
        · exact .inl h
        · exact .inr (.inr h)

theorem addTo_nodup {m : List (Name × Nat)} {s : Name} {c : Nat} (h : KeysNodup m) :
    KeysNodup (addTo m s c) := by
  unfold KeysNodup at *
  induction m with
  | nil => simp [addTo]
  | cons x r ih =>
    obtain ⟨a, v⟩ := x
    simp only [addTo]
    rw [List.map_cons, List.nodup_cons] at h
    split
    · rw [List.map_cons, List.nodup_cons]; exact h
    · next hne =>
      rw [List.map_cons, List.nodup_cons]
      refine ⟨fun hm => ?_, ih h.2⟩
      rcases addTo_keys.1 hm with h' | h'
      · exact hne h'
      · exact h.1 h'

theorem addTo_lookup (m : List (Name × Nat)) (s : Name) (c : Nat) (k : Name) :
    ((addTo m s c).lookup k).getD 0 =
      if k = s then satAdd ((m.lookup k).getD 0) c else (m.lookup k).getD 0 := by
  induction m with
  | nil =>
    simp only [addTo, List.lookup_cons, List.lookup_nil, Option.getD_none]
    by_cases h : k = s
    · simp [h]
    · have : (k == s) = false := beq_eq_false_iff_ne.2 h
      simp [h, this]
  | cons x r ih =>
    obtain ⟨a, v⟩ := x
    simp only [addTo]
    by_cases ha : a = s
    · rw [if_pos ha]
      subst ha
      by_cases h : k = a
      · subst h; simp
      · have : (k == a) = false := beq_eq_false_iff_ne.2 h
        simp [h, List.lookup_cons, this]
    · rw [if_neg ha]
      by_cases h : k = a
      · subst h
        simp [ha]
      · have : (k == a) = false := beq_eq_false_iff_ne.2 h
        simp only [List.lookup_cons, this]
        exact ih

theorem foldCalls_spec {S : Schema} {cfg : Config} {σ : Vars} {cost : Fetch → Nat} :
    ∀ {l : List Fetch} {acc ev : Evaluation},
    (∀ f ∈ l, Rep S σ (compileOp S (defaultListSize cfg f.service) f.op) (cost f)) →
    foldCalls S cfg σ l acc = .ok ev → KeysNodup acc.perSubgraph →
    acc.estimated ≤ maxU64 → (∀ s, (acc.perSubgraph.lookup s).getD 0 ≤ maxU64) →
    ev.estimated = min (acc.estimated + (l.map cost).sum) maxU64 ∧ KeysNodup ev.perSubgraph ∧
    ∀ s, (ev.perSubgraph.lookup s).getD 0 =
      min ((acc.perSubgraph.lookup s).getD 0 + ((l.filter (fun f => f.service = s)).map cost).sum) maxU64
  | [], acc, ev, _, h, hk, h1, h2 => by
    simp only [foldCalls, Except.ok.injEq] at h
    subst h
    refine ⟨by simp; omega, hk, fun s => ?_⟩
    have := h2 s
    simp; omega
  | f :: l, acc, ev, hr, h, hk, h1, h2 => by
    simp only [foldCalls] at h
    cases he : eval S σ (compileOp S (defaultListSize cfg f.service) f.op) with
    | error e => rw [he] at h; exact absurd h (fun h => by cases h)
    | ok c =>
      rw [he] at h
      have hc := hr f (List.mem_cons_self ..) c he
      obtain ⟨a, k, b⟩ := foldCalls_spec (cost := cost)
        (fun g hg => hr g (List.mem_cons_of_mem _ hg)) h (addTo_nodup hk) (by simp only [satAdd]; omega)
        (fun s => by
          have := h2 s
          rw [addTo_lookup]
          split
          · simp only [satAdd]; omega
          · exact this)
      refine ⟨?_, k, fun s => ?_⟩
      · rw [a]
        simp only [satAdd, List.map_cons, List.sum_cons]
        omega
      · rw [b s, addTo_lookup]
        by_cases hs : s = f.service
        · subst hs
          simp only [if_true, decide_true, List.filter_cons, List.map_cons, List.sum_cons, satAdd]
          omega
        · have : decide (f.service = s) = false := decide_eq_false (fun h => hs h.symm)
          simp only [hs, if_false, List.filter_cons, this, Bool.false_eq_true]

theorem foldCalls_ok {S : Schema} {cfg : Config} {σ : Vars} : ∀ {l : List Fetch} {acc : Evaluation},
    (∀ f ∈ l, Good S σ (compileOp S (defaultListSize cfg f.service) f.op)) →
    ∃ ev, foldCalls S cfg σ l acc = .ok ev
  | [], acc, _ => ⟨acc, rfl⟩
  | f :: l, acc, h => by
    obtain ⟨c, hc⟩ := h f (List.mem_cons_self ..)
    simp only [foldCalls, hc]
    exact foldCalls_ok fun g hg => h g (List.mem_cons_of_mem _ hg)

/-! ## The cost -/

/-- C31: the cost of an operation of the planner is a function of the schema and the variables. -/
theorem C31_cost_defined (S : Schema) (σ : Vars) (dl : UInt64) (op : Op) (h : OpOk op) :
    ∃ c, OpCost S σ dl op c ∧ ∀ c', OpCost S σ dl op c' → c' = c := by
  obtain ⟨s, hs⟩ := expands_exists h
  refine ⟨_, ⟨s, hs, rfl⟩, ?_⟩
  rintro c' ⟨s', hs', rfl⟩
  rw [expands_unique h.1 hs' hs]

/-- C31, where no argument value costs more than 2^64 - 1 (`C31_wraps` is why that is needed): the
compiled formula, evaluated with the variables, is the cost computed directly on the
operations of all calls, up to the greatest machine integer; the same for each subgraph. -/
theorem C31_estimate_partial (S : Schema) (cfg : Config) (r : Request) (cost : Fetch → Nat)
    (hok : RequestOk S r) (hc : CostFn S cfg r cost) (ev : Evaluation)
    (h : evalPlan S r.vars (compilePlan S cfg r.plan) = .ok ev) :
    ev.estimated = min (total r cost) maxU64 ∧
    ∀ s, (ev.perSubgraph.lookup s).getD 0 = min (totalFor r cost s) maxU64 := by
  rw [evalPlan_calls] at h
  have := foldCalls_spec (cost := cost) (fun f hf => by
    rw [listSizeFor_eq]
    exact op_rep (hok f hf).1 (hok f hf).2 (hc f hf)) h (by simp [KeysNodup]) (Nat.zero_le _)
    (fun s => Nat.zero_le _)
  obtain ⟨a, -, b⟩ := this
  refine ⟨by simpa [total] using a, fun s => by simpa [totalFor] using b s⟩

/-- The sum of the values for a list of keys. -/
theorem foldCalls_sum {S : Schema} {cfg : Config} {σ : Vars} : ∀ {l : List Fetch} {acc ev : Evaluation},
    foldCalls S cfg σ l acc = .ok ev → acc.estimated = min (acc.perSubgraph.map (·.2)).sum maxU64 →
    ev.estimated = min (ev.perSubgraph.map (·.2)).sum maxU64
  | [], acc, ev, h, ha => by
    simp only [foldCalls, Except.ok.injEq] at h
    exact h ▸ ha
  | f :: l, acc, ev, h, ha => by
    simp only [foldCalls] at h
    split at h
    · next c _ =>
      refine foldCalls_sum h ?_
      have : ∀ m : List (Name × Nat), min ((addTo m f.service c).map (·.2)).sum maxU64 =
          min ((m.map (·.2)).sum + c) maxU64 := by
        intro m
        induction m with
        | nil => simp [addTo, satAdd]
        | cons x r ih =>
          obtain ⟨k, v⟩ := x
          simp only [addTo]
          split
          · simp only [List.map_cons, List.sum_cons, satAdd]; omega
          · simp only [List.map_cons, List.sum_cons]; omega
      rw [this]
      simp only [satAdd]
      omega
    · exact absurd h (fun h => by cases h)

/-- C31: the estimate is the saturating sum of the estimates per subgraph. -/
theorem C31_sum_of_subgraphs (S : Schema) (cfg : Config) (r : Request) (ev : Evaluation)
    (h : evalPlan S r.vars (compilePlan S cfg r.plan) = .ok ev) :
    ev.estimated = min (ev.perSubgraph.map (·.2)).sum maxU64 := by
  rw [evalPlan_calls] at h
  exact foldCalls_sum h rfl

/-! ## The decision -/

/-- Every formula in the cache is that of the plan of some request with its hash. -/
def CacheOk (S : Schema) (cfg : Config) (rs : List Request) (cache : Cache) : Prop :=
  ∀ h f, cache.lookup h = some f → ∃ r ∈ rs, r.hash = h ∧ f = compilePlan S cfg r.plan

theorem cached_ok {S : Schema} {cfg : Config} {rs : List Request} (hh : HashOk rs) {cache : Cache}
    (hc : CacheOk S cfg rs cache) {r : Request} (hr : r ∈ rs) :
    (cached S cfg cache r.hash r.plan).1 = compilePlan S cfg r.plan ∧
    CacheOk S cfg rs (cached S cfg cache r.hash r.plan).2 := by
  unfold cached
  cases h : cache.lookup r.hash with
  | some f =>
    obtain ⟨q, hq, h1, rfl⟩ := hc _ _ h
    exact ⟨by rw [hh q hq r hr h1], hc⟩
  | none =>
    refine ⟨rfl, fun k f hk => ?_⟩
    rw [List.lookup_cons] at hk
    split at hk
    · next he =>
      exact ⟨r, hr, (beq_iff_eq.1 he).symm, (Option.some.inj hk).symm⟩
    · exact hc k f hk

theorem serve_ok {S : Schema} {cfg : Config} {rs : List Request} (hh : HashOk rs) :
    ∀ (l : List Request) (cache : Cache), (∀ r ∈ l, r ∈ rs) → CacheOk S cfg rs cache →
    serve S cfg cache l = l.map (fun r => decide' cfg S r.vars (compilePlan S cfg r.plan))
  | [], _, _, _ => rfl
  | r :: l, cache, hl, hc => by
    obtain ⟨h1, h2⟩ := cached_ok hh hc (hl r (List.mem_cons_self ..))
    simp only [serve, evaluate, List.map_cons, h1]
    rw [serve_ok hh l _ (fun x hx => hl x (List.mem_cons_of_mem _ hx)) h2]

/-- C31: where the hash tells plans apart, the cache makes no difference: each request is decided by
the formula of its own plan, in any sequence of requests. -/
theorem C31_cache_transparent (S : Schema) (cfg : Config) (rs : List Request) (hh : HashOk rs) :
    serve S cfg [] rs = rs.map (fun r => decide' cfg S r.vars (compilePlan S cfg r.plan)) :=
  serve_ok hh rs [] (fun _ h => h) (fun h f hf => absurd hf (fun h => by cases h))

theorem serve_get {S : Schema} {cfg : Config} {rs : List Request} (hh : HashOk rs) {i : Nat}
    {r : Request} {a : Except Refusal Context} (hr : rs[i]? = some r)
    (ha : (serve S cfg [] rs)[i]? = some a) :
    a = decide' cfg S r.vars (compilePlan S cfg r.plan) := by
  rw [C31_cache_transparent S cfg rs hh, List.getElem?_map, hr] at ha
  exact (Option.some.inj ha).symm

/-- C31: in enforce mode what is let through has an estimate of at most the maximum, whatever the
cache holds. -/
theorem C31_enforced_estimate (S : Schema) (cfg : Config) (rs : List Request) (ctx : Context)
    (ha : .ok ctx ∈ serve S cfg [] rs) (he : cfg.enforce = true) :
    ctx.evaluation.estimated ≤ cfg.max.toNat := by
  have key : ∀ (l : List Request) (cache : Cache), .ok ctx ∈ serve S cfg cache l →
      ctx.evaluation.estimated ≤ cfg.max.toNat := by
    intro l
    induction l with
    | nil => intro _ h; exact absurd h List.not_mem_nil
    | cons r l ih =>
      intro cache h
      simp only [serve, evaluate, List.mem_cons] at h
      rcases h with h | h
      · unfold decide' at h
        split at h
        · exact absurd h (fun h => by cases h)
        · next ev _ =>
          split at h
          · exact absurd h (fun h => by cases h)
          · next hn =>
            have : ctx = ⟨ev, blocked cfg ev⟩ := by injection h
            rw [this]
            rw [he] at hn
            have hn : ¬ ev.estimated > cfg.max.toNat := by simpa using hn
            exact Nat.le_of_not_lt hn
      · exact ih _ h
  exact key rs [] ha

/-- C31, where the hash tells plans apart (`C31_cache_wrong_plan` is why that is needed) and argument
values fit: in enforce mode a request is let through only if its total cost is at most the maximum
(a maximum of 2^64 - 1 is no limit). -/
theorem C31_enforced_partial (S : Schema) (cfg : Config) (rs : List Request) (hh : HashOk rs) (i : Nat)
    (r : Request) (ctx : Context) (hr : rs[i]? = some r)
    (ha : (serve S cfg [] rs)[i]? = some (.ok ctx)) (cost : Fetch → Nat)
    (hok : RequestOk S r) (hc : CostFn S cfg r cost) (he : cfg.enforce = true) :
    total r cost ≤ cfg.max.toNat ∨ cfg.max.toNat = maxU64 := by
  have h := serve_get hh hr ha
  unfold decide' at h
  split at h
  · exact absurd h (fun h => by cases h)
  · next ev hev =>
    have hest := (C31_estimate_partial S cfg r cost hok hc ev hev).1
    split at h
    · exact absurd h (fun h => by cases h)
    · next hn =>
      rw [he] at hn
      have hn : ¬ ev.estimated > cfg.max.toNat := by simpa using hn
      have hm : cfg.max.toNat ≤ maxU64 := by
        have := cfg.max.toNat_lt
        have : maxU64 = 2 ^ 64 - 1 := by decide
        omega
      omega

/-- C31: a request is refused for its cost exactly if the mode is enforce and the total cost is
beyond the maximum (and its slicing arguments are right). -/
theorem C31_refused_iff_partial (S : Schema) (cfg : Config) (rs : List Request) (hh : HashOk rs) (i : Nat)
    (r : Request) (a : Except Refusal Context) (hr : rs[i]? = some r)
    (ha : (serve S cfg [] rs)[i]? = some a) (cost : Fetch → Nat)
    (hok : RequestOk S r) (hc : CostFn S cfg r cost) (hs : ∀ e, a ≠ .error (.slicing e)) :
    a = .error .tooExpensive ↔
      cfg.enforce = true ∧ cfg.max.toNat < total r cost ∧ cfg.max.toNat ≠ maxU64 := by
  have h := serve_get hh hr ha
  unfold decide' at h
  split at h
  · exact absurd h (hs _)
  · next ev hev =>
    have hest := (C31_estimate_partial S cfg r cost hok hc ev hev).1
    have hm : cfg.max.toNat ≤ maxU64 := by
      have := cfg.max.toNat_lt
      have : maxU64 = 2 ^ 64 - 1 := by decide
      omega
    split at h
    · next hn =>
      simp only [Bool.and_eq_true, decide_eq_true_eq] at hn
      exact ⟨fun _ => ⟨hn.2, by omega, by omega⟩, fun _ => h⟩
    · next hn =>
      simp only [Bool.and_eq_true, decide_eq_true_eq, not_and] at hn
      refine ⟨fun h' => ?_, fun h' => ?_⟩
      · rw [h] at h'; exact absurd h' (fun h => by cases h)
      · exact absurd h'.1 (hn (by omega))

/-- C31: in measure mode nothing is refused for its cost. -/
theorem C31_measure (S : Schema) (cfg : Config) (rs : List Request) (hm : cfg.enforce = false)
    (a : Except Refusal Context) (ha : a ∈ serve S cfg [] rs) : a ≠ .error .tooExpensive := by
  have key : ∀ (l : List Request) (cache : Cache), ∀ a ∈ serve S cfg cache l,
      a ≠ .error .tooExpensive := by
    intro l
    induction l with
    | nil => intro _ a h; exact absurd h List.not_mem_nil
    | cons r l ih =>
      intro cache a h
      simp only [serve, evaluate, List.mem_cons] at h
      rcases h with h | h
      · rw [h]
        unfold decide'
        split
        · exact fun h => by cases h
        · split
          · next hc => rw [hm] at hc; exact absurd hc (by simp)
          · exact fun h => by cases h
      · exact ih _ a h
  exact key rs [] a ha

/-- C31: where every included list field that requires one slicing argument is given exactly one,
the request is not refused for its slicing arguments. -/
theorem C31_slicing_accepted (S : Schema) (cfg : Config) (rs : List Request) (hh : HashOk rs) (i : Nat)
    (r : Request) (a : Except Refusal Context) (hr : rs[i]? = some r)
    (ha : (serve S cfg [] rs)[i]? = some a)
    (hok : ∀ f ∈ callsOpt r.vars r.plan, OpOk f.op ∧
      ∀ s, Expands f.op.frags f.op.sels s → slicingOk S r.vars (S.root f.op.kind) s) :
    ∀ e, a ≠ .error (.slicing e) := by
  have h := serve_get hh hr ha
  have : ∃ ev, evalPlan S r.vars (compilePlan S cfg r.plan) = .ok ev := by
    rw [evalPlan_calls]
    exact foldCalls_ok fun f hf => op_good (hok f hf).1 (hok f hf).2
  obtain ⟨ev, hev⟩ := this
  unfold decide' at h
  rw [hev] at h
  intro e he
  rw [he] at h
  simp only at h
  split at h <;> exact absurd h (fun h => by cases h)

/-! ## Budgets of subgraphs -/

/-- The limit of a subgraph: its own, or that for all. -/
def limitFor (cfg : Config) (s : Name) : Option UInt64 :=
  (cfg.budgets.lookup s).or cfg.budgetAll

theorem limitFor_eq (cfg : Config) (s : Name) : budgetOf cfg s = limitFor cfg s := by
  unfold budgetOf limitFor
  cases cfg.budgets.lookup s <;> rfl

theorem blocked_lookup (cfg : Config) (m : List (Name × Nat)) (hk : KeysNodup m) (s : Name) :
    ((blocked cfg ⟨n, m⟩).lookup s).isSome = true ↔
      ∃ b, limitFor cfg s = some b ∧ ∃ v, m.lookup s = some v ∧ b.toNat < v := by
  have hnone : ∀ (l : List (Name × Nat)), s ∉ l.map (·.1) →
      (blocked cfg ⟨n, l⟩).lookup s = none ∧ l.lookup s = none := by
    intro l
    induction l with
    | nil => intro _; exact ⟨rfl, rfl⟩
    | cons x r ih =>
      intro h
      obtain ⟨k, v⟩ := x
      rw [List.map_cons, List.mem_cons, not_or] at h
      have hk : (s == k) = false := beq_eq_false_iff_ne.2 h.1
      obtain ⟨i1, i2⟩ := ih h.2
      refine ⟨?_, by rw [List.lookup_cons, hk]; exact i2⟩
      simp only [blocked, List.filterMap_cons] at i1 ⊢
      split
      · exact i1
      · next y hy =>
        cases hb : budgetOf cfg k with
        | none => rw [hb] at hy; exact absurd hy (fun h => by cases h)
        | some b =>
          simp only [hb] at hy
          split at hy
          · rw [← Option.some.inj hy, List.lookup_cons, hk]; exact i1
          · exact absurd hy (fun h => by cases h)
  induction m with
  | nil => simp [blocked]
  | cons x r ih =>
    obtain ⟨k, v⟩ := x
    unfold KeysNodup at hk ih
    rw [List.map_cons, List.nodup_cons] at hk
    by_cases hs : s = k
    · subst hs
      obtain ⟨n1, n2⟩ := hnone r hk.1
      simp only [List.lookup_cons, beq_self_eq_true, Option.some.injEq]
      simp only [blocked, List.filterMap_cons] at n1 ⊢
      rw [limitFor_eq]
      cases hb : limitFor cfg s with
      | none => rw [n1]; simp
      | some b =>
        simp only
        by_cases hv : v > b.toNat
        · simp [hv]
        · simp only [hv, if_false, n1]
          simp only [Option.isSome_none, Bool.false_eq_true, Option.some.injEq, false_iff,
            not_exists, not_and]
          rintro _ rfl _ rfl h
          exact hv h
    · have hk' : (s == k) = false := beq_eq_false_iff_ne.2 hs
      rw [List.lookup_cons, hk']
      refine Iff.trans ?_ (ih hk.2)
      simp only [blocked, List.filterMap_cons]
      split
      · exact Iff.rfl
      · next y hy =>
        cases hb : budgetOf cfg k with
        | none => rw [hb] at hy; exact absurd hy (fun h => by cases h)
        | some b =>
          simp only [hb] at hy
          split at hy
          · rw [← Option.some.inj hy, List.lookup_cons, hk']
          · exact absurd hy (fun h => by cases h)

/-- C31: where subgraph budgets are enforced, a call to a subgraph is made exactly if the cost of all
calls of the request to it is within its budget (a budget of 2^64 - 1 is no limit). -/
theorem C31_subgraph_budget_partial (S : Schema) (cfg : Config) (rs : List Request) (hh : HashOk rs) (i : Nat)
    (r : Request) (ctx : Context) (hr : rs[i]? = some r)
    (ha : (serve S cfg [] rs)[i]? = some (.ok ctx)) (cost : Fetch → Nat)
    (hok : RequestOk S r) (hc : CostFn S cfg r cost) (hb : cfg.budgetEnforce = true) (s : Name) :
    maySend cfg ctx s = true ↔
      ∀ b, limitFor cfg s = some b → totalFor r cost s ≤ b.toNat ∨ b.toNat = maxU64 := by
  have h := serve_get hh hr ha
  unfold decide' at h
  split at h
  · exact absurd h (fun h => by cases h)
  · next ev hev =>
    have hev' := hev
    rw [evalPlan_calls] at hev
    have hspec := foldCalls_spec (cost := cost) (fun f hf => by
      rw [listSizeFor_eq]
      exact op_rep (hok f hf).1 (hok f hf).2 (hc f hf)) hev (by simp [KeysNodup]) (Nat.zero_le _)
      (fun s => Nat.zero_le _)
    have hper := (C31_estimate_partial S cfg r cost hok hc ev hev').2 s
    split at h
    · exact absurd h (fun h => by cases h)
    · have hctx : ctx = ⟨ev, blocked cfg ev⟩ := by injection h
      have hl := blocked_lookup (n := ev.estimated) cfg ev.perSubgraph hspec.2.1 s
      have hsend : maySend cfg ctx s = true ↔ ¬ ((blocked cfg ev).lookup s).isSome = true := by
        rw [hctx]
        unfold maySend
        simp only [hb]
        cases (blocked cfg ev).lookup s <;> simp
      rw [hsend, hl]
      constructor
      · intro hn b hbl
        have hm : b.toNat ≤ maxU64 := by
          have := b.toNat_lt
          have : maxU64 = 2 ^ 64 - 1 := by decide
          omega
        apply Decidable.byContradiction
        intro hx
        rw [not_or] at hx
        apply hn
        refine ⟨b, hbl, ?_⟩
        cases hv : ev.perSubgraph.lookup s with
        | none => rw [hv] at hper; simp only [Option.getD_none] at hper; omega
        | some v => rw [hv] at hper; simp only [Option.getD_some] at hper; exact ⟨v, rfl, by omega⟩
      · rintro hb' ⟨b, hbl, v, hv, hlt⟩
        have := hb' b hbl
        rw [hv] at hper
        simp only [Option.getD_some] at hper
        omega

/-! ## A case

Two subgraphs; a list field with a slicing argument, its items cost 3 each by `@cost`, a fragment by
name, an input object as an argument, an entity call. -/

/-- The schema. -/
def demoSchema : Schema where
  defs := [
    ("Query", .object none [
      ("items", { ty := .list (.named "Item"), cost := some 2, argTypes := [("filter", .named "Filter")],
                  listSize := some ⟨none, some [("first", [])], none, true⟩ }),
      ("page", { ty := .named "Page",
                 listSize := some ⟨none, some [("first", [])], some [["items"]], true⟩ })]),
    ("Page", .object none [("items", { ty := .list (.named "Item") })]),
    ("Item", .object (some 3) [("name", { ty := .named "String", cost := some 1 }),
                               ("tags", { ty := .list (.named "Tag") })]),
    ("Tag", .object none []),
    ("String", .scalar none),
    ("Filter", .input [("min", { ty := .named "Int", cost := some 4 })])]
  root := fun | .query => "Query" | .mutation => "Mutation" | .subscription => "Subscription"

/-- `{ items(first: $n, filter: {min: 1}) { ...F } }`, `F` on `Item`: `name`, `tags @skip(if: $s)`. -/
def demoOp : Op where
  kind := .query
  frags := [⟨"F", "Item", [.field "name" [] none none [], .field "tags" [] (some "s") none []]⟩]
  sels := [.field "items" [("first", .var "n"), ("filter", .obj [("min", .int 1)])] none none
    [.spread "F"]]

/-- `{ _entities(..) { ... on Item { name } } }`. -/
def demoEntities : Op where
  kind := .query
  frags := []
  sels := [.field "_entities" [] none none [.frag "Item" none none [.field "name" [] none none []]]]

/-- The request. -/
def demoRequest (n : Int) (s : Bool) : Request where
  hash := 1
  plan := some (.sequence [.fetch ⟨"a", demoOp⟩, .flatten (.fetch ⟨"b", demoEntities⟩)])
  vars := [("n", .int n), ("s", .bool s)]

/-- A maximum of 100, lists of 10 items by default, of 2 for the subgraph `b`; `b` may cost 7. -/
def demoConfig : Config := ⟨100, true, some 10, [("b", 2)], true, none, [("b", 7)]⟩

/-- The written out `demoOp`. -/
def demoSels : List Sel :=
  [.field "items" [("first", .var "n"), ("filter", .obj [("min", .int 1)])] none none
    [.frag "Item" none none [.field "name" [] none none [], .field "tags" [] (some "s") none []]]]

theorem demo_expands : Expands demoOp.frags demoOp.sels demoSels :=
  .field (.spread (f := ⟨"F", "Item", [.field "name" [] none none [], .field "tags" [] (some "s") none []]⟩)
    (List.mem_singleton.2 rfl) (.field .nil (.field .nil .nil)) .nil) .nil

theorem demo_expands2 : Expands demoEntities.frags demoEntities.sels demoEntities.sels :=
  .field (.frag (.field .nil .nil) .nil) .nil

theorem demo_opOk : OpOk demoOp := by
  refine ⟨by decide, fun _ => 0, ?_, 1, ?_⟩
  · intro f hf x hx
    rw [List.mem_singleton.1 hf] at hx
    simp only [List.mem_cons, List.not_mem_nil, or_false] at hx
    rcases hx with rfl | rfl
    · exact .field (fun x h => absurd h List.not_mem_nil) (fun h => absurd h (by decide))
    · exact .field (fun x h => absurd h List.not_mem_nil) (fun h => absurd h (by decide))
  · intro x hx
    rw [List.mem_singleton.1 hx]
    refine .field (fun y hy => ?_) (fun h => absurd h (by decide))
    rw [List.mem_singleton.1 hy]
    exact .spread (f := ⟨"F", "Item", [.field "name" [] none none [], .field "tags" [] (some "s") none []]⟩)
      (List.mem_singleton.2 rfl) (by decide)

theorem demo_opOk2 : OpOk demoEntities := by
  refine ⟨by decide, fun _ => 0, fun f hf => absurd hf List.not_mem_nil, 0, ?_⟩
  intro x hx
  rw [List.mem_singleton.1 hx]
  refine .field (fun y hy => ?_) (fun _ y hy => ?_)
  · rw [List.mem_singleton.1 hy]
    refine .frag fun z hz => ?_
    rw [List.mem_singleton.1 hz]
    exact .field (fun x h => absurd h List.not_mem_nil) (fun h => absurd h (by decide))
  · rw [List.mem_singleton.1 hy]; exact trivial

theorem demo_ok (n : Int) (s : Bool) : RequestOk demoSchema (demoRequest n s) := by
  have fit : ∀ k v t, (k, v) ∈ [("first", Value.var "n"), ("filter", .obj [("min", .int 1)])] →
      [("filter", TypeNode.named "Filter")].lookup k = some t →
      costOfValue demoSchema (demoRequest n s).vars v t ≤ maxU64 := by
    intro k v t hm ht
    simp only [List.mem_cons, List.not_mem_nil, or_false, Prod.mk.injEq] at hm
    rcases hm with ⟨rfl, rfl⟩ | ⟨rfl, rfl⟩
    · have h : [("filter", TypeNode.named "Filter")].lookup "first" = none := by decide
      rw [h] at ht; exact absurd ht (fun h => by cases h)
    · have : t = .named "Filter" := by
        have h : [("filter", TypeNode.named "Filter")].lookup "filter" = some (.named "Filter") := by decide
        rw [h] at ht; exact (Option.some.inj ht).symm
      subst this
      have : costOfValue demoSchema (demoRequest n s).vars (.obj [("min", .int 1)]) (.named "Filter")
        = 5 := rfl
      rw [this]; decide
  have nofit : ∀ (d : FieldDef), argsFit demoSchema (demoRequest n s).vars d [] :=
    fun d k v t h => absurd h List.not_mem_nil
  intro f hf
  have hf : f ∈ [(⟨"a", demoOp⟩ : Fetch), ⟨"b", demoEntities⟩] := hf
  simp only [List.mem_cons, List.not_mem_nil, or_false] at hf
  rcases hf with rfl | rfl
  · refine ⟨demo_opOk, fun x hx => ?_⟩
    rw [expands_unique demo_opOk.1 hx demo_expands]
    exact ⟨⟨fit, ⟨⟨nofit _, trivial⟩, ⟨nofit _, trivial⟩, trivial⟩, trivial⟩, trivial⟩
  · refine ⟨demo_opOk2, fun x hx => ?_⟩
    rw [expands_unique demo_opOk2.1 hx demo_expands2]
    exact ⟨⟨⟨⟨nofit _, trivial⟩, trivial⟩, trivial⟩, trivial⟩

/-- The costs of the two calls. -/
def demoCost (n : Int) (s : Bool) : Fetch → Nat
  | ⟨"a", _⟩ => costs demoSchema (demoRequest n s).vars 10 "Query" [] demoSels
  | _ => costs demoSchema (demoRequest n s).vars 2 "Query" [] demoEntities.sels

theorem demo_costFn (n : Int) (s : Bool) :
    CostFn demoSchema demoConfig (demoRequest n s) (demoCost n s) := by
  intro f hf
  have hf : f ∈ [(⟨"a", demoOp⟩ : Fetch), ⟨"b", demoEntities⟩] := hf
  simp only [List.mem_cons, List.not_mem_nil, or_false] at hf
  rcases hf with rfl | rfl
  · refine ⟨demoSels, demo_expands, ?_⟩
    rw [if_neg (by decide)]
    have : listSizeFor demoConfig "a" = 10 := by decide
    rw [this, Nat.zero_add]
    rfl
  · refine ⟨demoEntities.sels, demo_expands2, ?_⟩
    rw [if_neg (by decide)]
    have : listSizeFor demoConfig "b" = 2 := by decide
    rw [this, Nat.zero_add]
    rfl

/-- Five items without tags cost 2 + 5 + 5 * (3 + 1) = 27, the entities 2 * (3 + 1) = 8; with tags,
10 for each item, 77. -/
example : demoCost 5 true ⟨"a", demoOp⟩ = 27 ∧ demoCost 5 true ⟨"b", demoEntities⟩ = 8 ∧
    demoCost 5 false ⟨"a", demoOp⟩ = 77 ∧ total (demoRequest 5 true) (demoCost 5 true) = 35 := by
  decide

example : HashOk [demoRequest 5 true, demoRequest 6 false] := by
  intro a ha b hb _
  simp only [List.mem_cons, List.not_mem_nil, or_false] at ha hb
  rcases ha with rfl | rfl <;> rcases hb with rfl | rfl <;> rfl

/-- What was allowed or refused, with the costs. -/
def outcome : Except Refusal Context → Refusal ⊕ (Evaluation × List (Name × Nat))
  | .ok c => .inr (c.evaluation, c.blocked)
  | .error e => .inl e

/-- The first request is let through, but may not call `b`; the second one is refused. -/
example :
    (serve demoSchema demoConfig [] [demoRequest 5 true, demoRequest 6 false]).map outcome =
      [.inr (⟨35, [("a", 27), ("b", 8)]⟩, [("b", 7)]), .inr (⟨99, [("a", 91), ("b", 8)]⟩, [("b", 7)])] ∧
    (serve demoSchema demoConfig [] [demoRequest 5 true, demoRequest 7 false]).map outcome =
      [.inr (⟨35, [("a", 27), ("b", 8)]⟩, [("b", 7)]), .inl .tooExpensive] := by
  decide +kernel

example : slicingOk demoSchema (demoRequest 5 true).vars "Query" demoSels := by
  refine ⟨fun _ => ?_, trivial⟩
  rw [if_neg (by decide)]
  refine ⟨fun ls hl => ?_, ⟨fun _ => ?_, fun _ => ?_, trivial⟩, trivial⟩
  · have : (⟨none, some [("first", [])], none, true⟩ : ListSize) = ls := by injection hl
    rw [← this]
    intro _ _ segs hs
    rw [← Option.some.inj hs]; decide
  · rw [if_neg (by decide)]; exact ⟨fun ls hl => absurd hl (fun h => by cases h), trivial⟩
  · rw [if_neg (by decide)]; exact ⟨fun ls hl => absurd hl (fun h => by cases h), trivial⟩

/-! ## Where the code falls short -/

/-- An input field of weight 2^63 - 1: an object costs 2^63. -/
def wrapSchema : Schema where
  defs := [
    ("Query", .object none [("f", { ty := .named "String", argTypes := [("in", .list (.named "I"))] })]),
    ("String", .scalar none),
    ("I", .input [("x", { ty := .named "Int", cost := some 9223372036854775807 })])]
  root := fun _ => "Query"

/-- `{ f(in: [{x: 1}, {x: 1}]) }`. -/
def wrapOp : Op := ⟨.query, [], [.field "f"
  [("in", .list [.obj [("x", .int 1)], .obj [("x", .int 1)]])] none none []]⟩

/-- C31 fails for large argument costs: the cost of list items is added up with wrap-around, so a call
that costs 2^64 is estimated at 0 and passes a maximum of 1. -/
theorem C31_wraps :
    OpCost wrapSchema [] 0 wrapOp (2 ^ 64) ∧
    evalPlan wrapSchema [] (compilePlan wrapSchema ⟨1, true, none, [], false, none, []⟩
      (some (.fetch ⟨"a", wrapOp⟩))) = .ok ⟨0, [("a", 0)]⟩ :=
  ⟨⟨wrapOp.sels, .field .nil .nil, by decide +kernel⟩, by rfl⟩

/-- The same operation for two callers, planned differently: a progressive override sends the second
one to a subgraph where lists are long. -/
def overridden (s : Name) : Request where
  hash := 7
  plan := some (.fetch ⟨s, ⟨.query, [], [.field "page" [("first", .int 1)] none none
    [.field "items" [] none none [.field "tags" [] none none []]]]⟩⟩)
  vars := []

/-- C31 fails where plans of one hash differ: the second request costs 204, the maximum is 100, and it
is let through, with the estimate of the first. -/
theorem C31_cache_wrong_plan :
    let cfg : Config := ⟨100, true, none, [("short", 1), ("long", 200)], false, none, []⟩
    (serve demoSchema cfg [] [overridden "short", overridden "long"]).map outcome =
      [.inr (⟨5, [("short", 5)]⟩, []), .inr (⟨5, [("short", 5)]⟩, [])] ∧
    (serve demoSchema cfg [] [overridden "long"]).map outcome = [.inl .tooExpensive] ∧
    CostFn demoSchema cfg (overridden "long") (fun _ => 204) := by
  refine ⟨by decide +kernel, by decide +kernel, ?_⟩
  intro f hf
  rw [List.mem_singleton.1 hf]
  exact ⟨_, .field (.field (.field .nil .nil) .nil) .nil, by decide +kernel⟩

/-- The schema of `C31_unsliced`: tags have no cost. -/
def freeSchema : Schema where
  defs := [
    ("Query", .object none [
      ("tags", { ty := .list (.named "Tag"),
                 listSize := some ⟨none, some [("first", [])], none, true⟩ })]),
    ("Tag", .object (some 0) [("name", { ty := .named "String" })]),
    ("String", .scalar none)]
  root := fun _ => "Query"

/-- C31: the rule of exactly one slicing argument is not applied where the items have no cost: the
constant product drops the size with its check. -/
theorem C31_unsliced :
    let op : Op := ⟨.query, [], [.field "tags" [] none none [.field "name" [] none none []]]⟩
    evalPlan freeSchema [] (compilePlan freeSchema ⟨1, true, none, [], false, none, []⟩
      (some (.fetch ⟨"a", op⟩))) = .ok ⟨0, [("a", 0)]⟩ ∧
    ¬ slicingOk freeSchema [] "Query" op.sels := by
  refine ⟨by rfl, fun h => ?_⟩
  have h := h.1 rfl
  rw [if_neg (by decide)] at h
  have := h.1 ⟨none, some [("first", [])], none, true⟩ rfl rfl rfl _ rfl
  exact absurd this (by decide)

/-- C31: a wrong number of slicing arguments is refused in measure mode too. -/
theorem C31_measure_refuses :
    let cfg : Config := ⟨100, false, none, [], false, none, []⟩
    (serve demoSchema cfg [] [⟨1, some (.fetch ⟨"a", ⟨.query, [],
      [.field "items" [] none none [.field "name" [] none none []]]⟩⟩), []⟩]).map outcome =
      [.inl (.slicing ⟨"items", 0⟩)] := by
  decide +kernel

/-- C31: the conditions of an inline fragment do not count: what `@skip` leaves out is estimated, and
refused, as if it were there. -/
theorem C31_skipped_fragment_counts :
    let cfg : Config := ⟨5, true, some 10, [], false, none, []⟩
    let plan := some (.fetch ⟨"a", ⟨.query, [], [.frag "Query" (some "s") none
      [.field "items" [("first", .int 9)] none none []]]⟩⟩)
    (serve demoSchema cfg [] [⟨1, plan, [("s", .bool true)]⟩]).map outcome = [.inl .tooExpensive] := by
  decide +kernel

end Verif.Demand
