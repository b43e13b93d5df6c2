import Verif.Plan.Exec

/-!
# Query plans: fetches in order, batches, conditions

The specification is `Verif/Plan/Spec.lean`: `Good` executions of a graph of steps, and `Stutter`, that
equal work need not be done twice. `Distinct` says that selections are equal if the code takes them
for equal: it compares their hashes, and then their field names only. `C34_null_argument` shows that
this is not so for all selections.
-/

namespace Verif.Plan

open Verif.Keys (VarDef)

/-! ## C33 -/

/-- Executing the plan of a graph does the work of each step exactly once and after the work of all the
steps it depends on is done. -/
theorem C33_order_partial (H : Hashers) (g : Graph) (hg : g.WF) (root : Nat) (hr : g.root = some root)
    (hs : ∀ n, (g.step n).subscription = false)
    (hD : Distinct H fun f => ∃ n ∈ g.nodes, f = Fetch.ofStep (g.step n)) (p : Node)
    (hp : g.plan H = .ok p) (vars : Option (List (String × Value))) (t : List Event)
    (ht : exec vars p t) :
    ∃ tn, Good g root vars tn ∧ Stutter (tn.map (StepEvent.event g)) t :=
  plan_good H g hg root hr hs hD p hp vars t ht

/-- The waves, whatever the steps are: each step but the root is in exactly one wave, and those it
depends on are in earlier ones. -/
theorem C33_waves (g : Graph) (hg : g.WF) (root : Nat) (hr : g.root = some root)
    (ws : List (List Nat)) (h : g.waves = .ok ws) :
    ws.flatten.Nodup ∧ (∀ n, n ∈ ws.flatten ↔ n ∈ g.nodes ∧ n ≠ root) ∧
      ∀ u v, g.Depends root u v → ∀ pre W post, ws = pre ++ W :: post → v ∈ W → u ∈ pre.flatten := by
  have hok := waves_ok g hg root hr ws h
  exact ⟨hok.nodup hg, hok.mem, fun u v hd => hok.depends hg u v hd⟩

theorem plan_waves (H : Hashers) (g : Graph) (p : Node) (h : g.plan H = .ok p) :
    ∃ ws, g.waves = .ok ws := by
  unfold Graph.plan at h
  simp only [bind, Except.bind] at h
  cases hw : g.waves with
  | error e => rw [hw] at h; cases h
  | ok ws => exact ⟨ws, rfl⟩

/-- With a cycle there is no plan. -/
theorem C33_cycle (H : Hashers) (g : Graph) (hg : g.WF) (root : Nat) (hr : g.root = some root) (n : Nat)
    (hn : g.Depends root n n) : ∀ p, g.plan H ≠ .ok p := by
  intro p hp
  obtain ⟨ws, hw⟩ := plan_waves H g p hp
  exact (waves_ok g hg root hr ws hw).acyclic hg n hn

/-- With a step that cannot be reached there is no plan. -/
theorem C33_unreachable (H : Hashers) (g : Graph) (hg : g.WF) (root : Nat) (hr : g.root = some root)
    (n : Nat) (hn : n ∈ g.nodes) (hne : n ≠ root) (hno : ¬ g.Reachable root n) :
    ∀ p, g.plan H ≠ .ok p := by
  intro p hp
  obtain ⟨ws, hw⟩ := plan_waves H g p hp
  have hok := waves_ok g hg root hr ws hw
  exact hno (hok.reachable n ((hok.mem n).2 ⟨hn, hne⟩))

/-- Otherwise there is one, if no edge leads to the root and the children of the root have no other
parents. -/
theorem C33_planned (H : Hashers) (g : Graph) (hg : g.WF) (root : Nat) (hr : g.root = some root)
    (hno : ∀ u, (u, root) ∉ g.edges) (hch : ∀ c u, (root, c) ∈ g.edges → (u, c) ∈ g.edges → u = root)
    (hac : ∀ n, ¬ g.Depends root n n) (hre : ∀ n ∈ g.nodes, n ≠ root → g.Reachable root n)
    (hne : ∃ n ∈ g.nodes, n ≠ root) : ∃ p, g.plan H = .ok p := by
  obtain ⟨ws, hw⟩ := waves_succeed g hg root hr hno hch hac hre
  obtain ⟨n, hn, hnr⟩ := hne
  have hok := waves_ok g hg root hr ws hw
  have hws : ws ≠ [] := by
    rintro rfl
    have := (hok.mem n).2 ⟨hn, hnr⟩
    simp at this
  unfold Graph.plan
  rw [hw]
  cases ws with
  | nil => exact absurd rfl hws
  | cons w ws => exact ⟨_, rfl⟩

/-- The planner does not panic: no step is marked as processed too often. -/
theorem C33_no_panic (g : Graph) (hg : g.WF) (hself : ∀ r, g.root = some r → (r, r) ∉ g.edges) :
    g.waves ≠ .error .inDegreeZero ∧ g.waves ≠ .error .outOfFuel := waves_no_panic g hg hself

/-! ## C34 -/

/-- A parallel node after batching: each entity fetch is there as it was, or in a batch for its subgraph,
with its path, its required fields, its rewrites and its selections under one alias, and with its
variables. -/
theorem C34_kept_partial (H : Hashers) (ns : List Node)
    (hD : Distinct H fun f => ∃ p, Node.flatten p f ∈ ns)
    (hV : ∀ p f, Node.flatten p f ∈ ns → (f.vars.map (·.name)).Nodup)
    (p : Path) (f : Fetch) (c : Call) (r : List Sel)
    (hn : Node.flatten p f ∈ ns) (hc : f.call = some c) (hr : f.requires = some r) :
    Node.flatten p f ∈ optPar H ns ∨
      ∃ b, Node.batch b ∈ optPar H ns ∧ b.service = f.service ∧
        (∃ a ∈ b.aliases, ∃ fl ∈ b.fields, a.alias = fl.alias ∧ a.repVar = fl.repVar ∧ p ∈ a.paths ∧
          a.requires = r ∧ a.inputRw = f.inputRw ∧ a.outputRw = f.outputRw ∧ fl.sels = c.sels) ∧
        (∀ v ∈ f.vars, v.name ≠ c.repVar → v ∈ b.vars) ∧
        ∀ u ∈ f.usages.getD [], u ∈ b.usages := by
  refine optPar_kept H (fun f => ∃ p, Node.flatten p f ∈ ns) hD (fun f ⟨p, h⟩ => hV p f h) ns ?_ p f c r
    hn hc hr
  intro n hn
  cases n with
  | flatten p f => exact ⟨p, hn⟩
  | _ => trivial

/-- In a new batch, variables have distinct names, aliases too, and each alias has its variable for
representations. -/
theorem C34_names_partial (H : Hashers) (ns : List Node)
    (hD : Distinct H fun f => ∃ p, Node.flatten p f ∈ ns)
    (hV : ∀ p f, Node.flatten p f ∈ ns → (f.vars.map (·.name)).Nodup)
    (b : Batch) (hb : Node.batch b ∈ optPar H ns) (hn : Node.batch b ∉ ns) :
    (b.vars.map (·.name)).Nodup ∧ (b.aliases.map (·.alias)).Nodup ∧
      b.fields.map (fun f => (f.alias, f.repVar)) = b.aliases.map (fun a => (a.alias, a.repVar)) ∧
      ∀ a ∈ b.aliases, ⟨a.repVar, anyType, none⟩ ∈ b.vars := by
  refine optPar_batch H (fun f => ∃ p, Node.flatten p f ∈ ns) hD (fun f ⟨p, h⟩ => hV p f h) ns ?_ b hb hn
  intro n hn
  cases n with
  | flatten p f => exact ⟨p, hn⟩
  | _ => trivial

/-- The work of a parallel node after batching is its work before, but for equal work that is done once:
nothing is lost and nothing is done more often. -/
theorem C34_work_partial (H : Hashers) (ns : List Node)
    (hD : Distinct H fun f => ∃ p, Node.flatten p f ∈ ns) (vars : Option (List (String × Value))) :
    ∃ l : List Work, l.Perm (ns.flatMap fun n => (jobOf vars n).getD []) ∧
      Stutter l ((optPar H ns).flatMap fun n => (jobOf vars n).getD []) := by
  refine optPar_collapse H (fun f => ∃ p, Node.flatten p f ∈ ns) hD ns ?_ vars
  intro n hn
  cases n with
  | flatten p f => exact ⟨p, hn⟩
  | _ => trivial

/-- What the hash of a selection of one field sees: if two such selections have equal hashes and no
hash function clashes on what it is given for them, then the fields have the same name, alias and
directives and their arguments are the same to the hash. -/
theorem C34_hash_sees (fx xxh : List Verif.Keys.Word → Nat) (f g : FieldInfo)
    (h : xxh (setWords (itemHashes fx [.field f []])) = xxh (setWords (itemHashes fx [.field g []])))
    (hx : ∀ a b : Nat, xxh (setWords [a]) = xxh (setWords [b]) → a = b)
    (hf : ∀ u v, fx u = fx v → u = v) :
    f.name = g.name ∧ f.alias = g.alias ∧ Verif.Keys.fieldEnd fx f = Verif.Keys.fieldEnd fx g := by
  simp only [itemHashes] at h
  have h1 := hf _ _ (hx _ _ h)
  simp only [List.cons.injEq, Verif.Keys.Word.str.injEq] at h1
  obtain ⟨h2, h3⟩ := h1
  cases ha : f.alias <;> cases hb : g.alias <;>
    simp_all [Verif.Keys.optWords]

/-- The same for a fragment. -/
theorem C34_hash_sees_fragment (fx xxh : List Verif.Keys.Word → Nat) (f g : FragInfo) (s t : List Sel)
    (h : xxh (setWords (itemHashes fx [.frag f s])) = xxh (setWords (itemHashes fx [.frag g t])))
    (hx : ∀ a b : Nat, xxh (setWords [a]) = xxh (setWords [b]) → a = b)
    (hf : ∀ u v, fx u = fx v → u = v) :
    f.cond = g.cond ∧ setWords (itemHashes fx s) = setWords (itemHashes fx t) := by
  simp only [itemHashes] at h
  have h1 := hf _ _ (hx _ _ h)
  simp only [setWords, List.cons_append, List.nil_append, List.cons.injEq, Verif.Keys.Word.str.injEq] at h1
  simp_all [setWords]

/-! ### Where it fails -/

/-- A field with one argument. -/
def fieldWith (arg : Lit) : Sel := .field { name := "price", args := some [("currency", arg)] } []

/-- An entity fetch for that field. -/
def fetchWith (id : Nat) (arg : Lit) : Fetch :=
  { id := id, service := "products", usages := none, vars := [⟨"representations", anyType, none⟩],
    call := some ⟨"representations", [fieldWith arg]⟩, text := "",
    requires := some [.field { name := "__typename" } [], .field { name := "id" } []],
    inputRw := none, outputRw := none }

/-- Fetches whose arguments differ, `null` and `"null"`, are taken for equal, whatever the hash functions
are: after batching the second one gets the argument of the first. -/
theorem C34_null_argument (H : Hashers) :
    ∃ w, w ∈ ([Node.flatten ["a"] (fetchWith 1 .null), .flatten ["b"] (fetchWith 2 (.str "null"))].flatMap
        fun n => (jobOf none n).getD []) ∧
      w ∉ ((optPar H [Node.flatten ["a"] (fetchWith 1 .null), .flatten ["b"] (fetchWith 2 (.str "null"))]).flatMap
        fun n => (jobOf none n).getD []) := by
  refine ⟨.entities "products" ["b"] [.field { name := "__typename" } [], .field { name := "id" } []] none
    [fieldWith (.str "null")] none, ?_, ?_⟩
  · simp [jobOf, Fetch.work, fetchWith]
  · simp [optPar, replaceFrom, batches, candsFrom, Cand.ofNode, fetchWith, services, byVars, addVars,
      canMergeVars, mergeVars, byShape, addShape, eqShape, Cand.key, selEq, itemEq, itemHashes, fieldWith,
      Verif.Keys.fieldEnd, Verif.Keys.argsWords, Verif.Keys.argsHash, Verif.Keys.litWords, buildBatch,
      addGroups, Builder.add, Builder.repVar, mergePaths, jobOf, Batch.work, Batch.fieldWork]

/-- A client variable `representations` clashes with that of entity fetches: the operation defines it
twice. -/
theorem C34_representations (s : Step) (he : s.entity = true) (vs : List VarDef) (hv : s.vars = some vs)
    (v : VarDef) (hm : v ∈ vs) (hn : v.name = "representations") :
    ¬ ((Fetch.ofStep s).vars.map (·.name)).Nodup := by
  simp only [Fetch.ofStep, he, if_true, hv, Option.getD_some, List.map_cons, List.nodup_cons, not_and]
  intro h
  exact absurd (List.mem_map.2 ⟨v, hm, hn⟩) h

/-! ## C35 -/

/-- A condition node: its first clause is executed if the variable is `true`, its second one if it has
another value. -/
theorem C35_condition (vars : Option (List (String × Value))) (v : String) (a b : Option Node)
    (t : List Event) :
    (IsTrue vars v → (exec vars (.cond v a b) t ↔ execOpt vars a t)) ∧
      (IsFalse vars v → (exec vars (.cond v a b) t ↔ execOpt vars b t)) := by
  rw [isTrue_iff, isFalse_iff]
  exact ⟨fun h => by rw [exec, h], fun h => by rw [exec, h]⟩

/-- A condition node among parallel ones. -/
theorem C35_condition_parallel (vars : Option (List (String × Value))) (v : String) (a b : Option Node) :
    (IsTrue vars v → jobOf vars (.cond v a b) = a.bind (jobOf vars)) ∧
      (IsFalse vars v → jobOf vars (.cond v a b) = b.bind (jobOf vars)) := by
  rw [isTrue_iff, isFalse_iff]
  constructor
  · intro h
    rw [jobOf, h]
    cases a <;> rfl
  · intro h
    rw [jobOf, h]
    cases b <;> rfl

/-- Merging neighbouring condition nodes and flattening sequences changes no execution. Condition nodes
with exactly one clause are all the planner makes. -/
theorem C35_merge (vars : Option (List (String × Value))) (ns : List Node)
    (h : ∀ n ∈ ns.flatMap Node.flattenSeq, OneClause n) (t : List Event) :
    exec vars (.seq (optSeq ns)) t ↔ exec vars (.seq ns) t := by
  rw [(exec_comp vars).seq, (exec_comp vars).seq]
  exact (exec_comp vars).optSeq ns h t

theorem Stutter.mem {α : Type} {l m : List α} (h : Stutter l m) (a : α) : a ∈ l ↔ a ∈ m := by
  induction h with
  | nil => rfl
  | cons b l m _ ih => simp [ih]
  | dup b l m _ ih =>
    rw [List.mem_cons, ih]
    simp

/-- In an execution of a plan, exactly the work of the steps whose conditions hold is started. -/
theorem C35_plan_partial (H : Hashers) (g : Graph) (hg : g.WF) (root : Nat) (hr : g.root = some root)
    (hs : ∀ n, (g.step n).subscription = false)
    (hD : Distinct H fun f => ∃ n ∈ g.nodes, f = Fetch.ofStep (g.step n)) (p : Node)
    (hp : g.plan H = .ok p) (vars : Option (List (String × Value))) (t : List Event)
    (ht : exec vars p t) (w : Work) :
    Event.start w ∈ t ↔ ∃ n ∈ g.nodes, n ≠ root ∧ Wanted vars (g.step n) ∧ (g.step n).work = w := by
  obtain ⟨tn, hgood, hst⟩ := plan_good H g hg root hr hs hD p hp vars t ht
  rw [← hst.mem, List.mem_map]
  constructor
  · rintro ⟨e, he, hev⟩
    cases e with
    | start n =>
      simp only [StepEvent.event, Event.start.injEq] at hev
      obtain ⟨h1, h2, h3⟩ := hgood.only _ he
      exact ⟨n, h1, h2, h3, hev⟩
    | done n => simp [StepEvent.event] at hev
  · rintro ⟨n, h1, h2, h3, rfl⟩
    have := (hgood.once n h1 h2 h3).1
    exact ⟨.start n, List.count_pos_iff.1 (by omega), rfl⟩

mutual
/-- Each plan has an execution. -/
theorem exec_exists (vars : Option (List (String × Value))) : ∀ p : Node, ∃ t, exec vars p t
  | .par ns => ⟨_, _, .refl _, rfl⟩
  | .seq ns => execSeq_exists vars ns
  | .cond v a b => by
    cases h : truth vars v with
    | none => exact ⟨[], by rw [exec, h]⟩
    | some c =>
      cases c with
      | true =>
        obtain ⟨t, ht⟩ := execOpt_exists vars a
        exact ⟨t, by rw [exec, h]; exact ht⟩
      | false =>
        obtain ⟨t, ht⟩ := execOpt_exists vars b
        exact ⟨t, by rw [exec, h]; exact ht⟩
  | .fetch f => ⟨_, _, .refl _, rfl⟩
  | .batch b => ⟨_, _, .refl _, rfl⟩
  | .flatten p f => ⟨_, _, .refl _, rfl⟩
  | .subscription _ => ⟨_, rfl⟩

theorem execSeq_exists (vars : Option (List (String × Value))) : ∀ ns : List Node, ∃ t, execSeq vars ns t
  | [] => ⟨[], rfl⟩
  | n :: ns => by
    obtain ⟨a, ha⟩ := exec_exists vars n
    obtain ⟨b, hb⟩ := execSeq_exists vars ns
    exact ⟨_, a, b, ha, hb, rfl⟩

theorem execOpt_exists (vars : Option (List (String × Value))) : ∀ n : Option Node, ∃ t, execOpt vars n t
  | none => ⟨[], rfl⟩
  | some n => exec_exists vars n
end

/-- Without a value of the variable neither clause is executed: also not what has `@skip`. -/
theorem C35_absent (vars : List (String × Value)) (v : String) (a b : Option Node) (t : List Event)
    (h : lookup v vars = none) : exec (some vars) (.cond v a b) t ↔ t = [] := by
  refine (exec_comp (some vars)).absent v a b t ?_
  simp [truth, h]

/-- The value `null` counts as `false`. -/
theorem C35_null (vars : List (String × Value)) (v : String) (a b : Option Node) (t : List Event)
    (h : lookup v vars = some .null) : exec (some vars) (.cond v a b) t ↔ execOpt (some vars) b t :=
  (C35_condition (some vars) v a b t).2 ⟨vars, .null, rfl, h, by simp⟩

/-! ## Examples -/

namespace Example

/-- Hash functions that are no good: only the names count. -/
def hashers : Hashers := ⟨fun _ => 0, fun _ => 0, fun _ => 0, fun _ => 0⟩

def keyFields : List Sel := [.field { name := "__typename" } [], .field { name := "id" } []]

def entityStep (id : Nat) (path : Path) (field : String) (cond : Option Cond) : Step :=
  { id := id, service := "products", path := path, input := keyFields,
    output := [.frag { cond := "Product" } [.field { name := field } []]], entity := true,
    subscription := false, cond := cond, usages := some ["x"],
    vars := some [⟨"x", .named "Int", none⟩], inputRw := none, outputRw := none, text := "" }

def rootStep (id : Nat) (service : String) : Step :=
  { id := id, service := service, path := [], input := [], output := [], entity := false,
    subscription := false, cond := none, usages := none, vars := none, inputRw := none,
    outputRw := none, text := "{ top { id } }" }

/-- Step 1 first, then 2, 3 and 4, of which 2 and 3 are batched, then 5. -/
def graph : Graph :=
  { nodes := [0, 1, 2, 3, 4, 5]
    edges := [(0, 1), (1, 2), (1, 3), (1, 4), (2, 5), (4, 5)]
    root := some 0
    step := fun n => match n with
      | 2 => entityStep 2 ["top"] "price" none
      | 3 => entityStep 3 ["bottom"] "price" none
      | 4 => entityStep 4 ["top"] "name" (some (.incl "v"))
      | 5 => entityStep 5 ["top", "x"] "price" (some (.skip "v"))
      | n => rootStep n "search" }

theorem graph_wf : graph.WF where
  nodes := by decide
  edges := by decide
  ends := by decide
  root := by decide

theorem no_subscriptions (n : Nat) : (graph.step n).subscription = false := by
  simp only [graph]
  split <;> rfl

theorem selEq_self : ∀ a b : String, selEq [.frag { cond := "Product" } [.field { name := a } []]]
    [.frag { cond := "Product" } [.field { name := b } []]] = true → a = b := by
  intro a b h
  simpa [selEq, itemEq] using h

theorem distinct : Distinct hashers fun f => ∃ n ∈ graph.nodes, f = Fetch.ofStep (graph.step n) := by
  have hreq : ∀ f r, (∃ n ∈ graph.nodes, f = Fetch.ofStep (graph.step n)) → f.requires = some r →
      r = keyFields := by
    rintro f r ⟨n, hn, rfl⟩ h
    simp only [graph, List.mem_cons, List.not_mem_nil, or_false] at hn
    rcases hn with rfl | rfl | rfl | rfl | rfl | rfl <;>
      simp_all [graph, rootStep, entityStep, Fetch.ofStep]
  have hcall : ∀ f c, (∃ n ∈ graph.nodes, f = Fetch.ofStep (graph.step n)) → f.call = some c →
      ∃ a, c.sels = [.frag { cond := "Product" } [.field { name := a } []]] := by
    rintro f c ⟨n, hn, rfl⟩ h
    simp only [graph, List.mem_cons, List.not_mem_nil, or_false] at hn
    rcases hn with rfl | rfl | rfl | rfl | rfl | rfl <;>
      simp only [graph, rootStep, entityStep, Fetch.ofStep, if_true, Option.some.injEq, Bool.false_eq_true,
        if_false, reduceCtorEq] at h <;> subst h <;> exact ⟨_, rfl⟩
  refine ⟨?_, ?_, ?_⟩
  · intro f f' r r' hf hf' h h' _ _
    rw [hreq f r hf h, hreq f' r' hf' h']
  · intro f f' c c' hf hf' h h' _ he
    obtain ⟨a, ha⟩ := hcall f c hf h
    obtain ⟨b, hb⟩ := hcall f' c' hf' h'
    rw [ha, hb] at he ⊢
    rw [selEq_self a b he]
  · intro f f' r r' i p hf hf' h h' _ _
    rw [hreq f r hf h, hreq f' r' hf' h']

/-- The waves of the graph. -/
example : graph.waves = .ok [[1], [2, 3, 4], [5]] := by rfl

/-- The plan has a batch with both paths. -/
example : ∃ p b, graph.plan hashers = .ok p ∧
    p = .seq [.fetch (Fetch.ofStep (graph.step 1)),
      .par [.batch b, Node.ofStep (graph.step 4)], Node.ofStep (graph.step 5)] ∧
    b.aliases.map (fun a => (a.alias, a.paths)) = [("_e0", [["top"], ["bottom"]])] ∧
    b.vars.map (·.name) = ["__batch_reps_0", "x"] := ⟨_, _, rfl, rfl, rfl, rfl⟩

/-- There are executions of it, and what is started in them: with the condition, step 4 and not 5. -/
example (p : Node) (hp : graph.plan hashers = .ok p) :
    ∃ t, exec (some [("v", .bool true)]) p t ∧ Event.start (graph.step 4).work ∈ t := by
  obtain ⟨t, ht⟩ := exec_exists (some [("v", .bool true)]) p
  refine ⟨t, ht, (C35_plan_partial hashers graph graph_wf 0 rfl no_subscriptions distinct p hp _ t ht _).2
    ⟨4, by decide, by decide, ?_, rfl⟩⟩
  exact ⟨_, rfl, rfl⟩

example : IsTrue (some [("v", .bool true)]) "v" := ⟨_, rfl, rfl⟩
example : IsFalse (some [("v", .bool false)]) "v" := ⟨_, _, rfl, rfl, by simp⟩

/-- Three fetches under one condition are merged into one node. -/
example : optSeq [Node.ofStep (graph.step 4), Node.ofStep (graph.step 4), Node.ofStep (graph.step 5)] =
    [.cond "v" (some (.seq [Node.bare (graph.step 4), Node.bare (graph.step 4)])) none,
      Node.ofStep (graph.step 5)] := rfl

example : ∀ n ∈ [Node.ofStep (graph.step 4), Node.ofStep (graph.step 4),
    Node.ofStep (graph.step 5)].flatMap Node.flattenSeq, OneClause n := by
  simp [Node.ofStep, graph, entityStep, Node.flattenSeq, OneClause]

/-- A graph with a cycle behind the root. -/
def cyclic : Graph := { graph with edges := (5, 2) :: graph.edges }

example : cyclic.waves = .error .cycle := rfl

example : cyclic.Depends 0 2 2 := .step 2 5 2 (.edge 2 5 (by decide) (by decide)) (by decide)

example (fx xxh : List Verif.Keys.Word → Nat) : xxh (setWords (itemHashes fx [fieldWith .null])) =
    xxh (setWords (itemHashes fx [fieldWith (.str "null")])) := by
  simp [itemHashes, fieldWith, Verif.Keys.fieldEnd, Verif.Keys.argsWords, Verif.Keys.argsHash,
    Verif.Keys.litWords]

end Example

mutual
/-- The names of a selection, with aliases, arguments and conditions left out. -/
inductive NamesAgree : List Sel → List Sel → Prop
  | nil : NamesAgree [] []
  | cons (a b : Sel) (as bs : List Sel) : NameAgrees a b → NamesAgree as bs → NamesAgree (a :: as) (b :: bs)

inductive NameAgrees : Sel → Sel → Prop
  | field (f g : FieldInfo) (s t : List Sel) : f.name = g.name → NamesAgree s t →
      NameAgrees (.field f s) (.field g t)
  | frag (f g : FragInfo) (s t : List Sel) : f.cond = g.cond → NamesAgree s t →
      NameAgrees (.frag f s) (.frag g t)
end

mutual
theorem selEq_agree : ∀ {a b : List Sel}, selEq a b = true → NamesAgree a b
  | [], [], _ => .nil
  | [], _ :: _, h => by simp [selEq] at h
  | _ :: _, [], h => by simp [selEq] at h
  | a :: as, b :: bs, h => by
    simp only [selEq, Bool.and_eq_true] at h
    exact .cons a b as bs (itemEq_agree h.1) (selEq_agree h.2)

theorem itemEq_agree : ∀ {a b : Sel}, itemEq a b = true → NameAgrees a b
  | .field f s, .field g t, h => by
    simp only [itemEq, Bool.and_eq_true, beq_iff_eq] at h
    exact .field f g s t h.1 (selEq_agree h.2)
  | .frag f s, .frag g t, h => by
    simp only [itemEq, Bool.and_eq_true, beq_iff_eq] at h
    exact .frag f g s t h.1 (selEq_agree h.2)
  | .field _ _, .frag _ _, h => by simp [itemEq] at h
  | .field _ _, .spread _, h => by simp [itemEq] at h
  | .frag _ _, .field _ _, h => by simp [itemEq] at h
  | .frag _ _, .spread _, h => by simp [itemEq] at h
  | .spread _, _, h => by simp [itemEq] at h
end

/-- Fetches that are merged agree in the names of their fields and types at every depth, whatever the
hashes are. -/
theorem C34_names_agree (H : Hashers) (a b : Cand) (h : eqShape H a b = true) :
    NamesAgree a.requires b.requires ∧ NamesAgree a.sels b.sels := by
  simp only [eqShape, Bool.and_eq_true] at h
  exact ⟨selEq_agree h.1.1.1.2, selEq_agree h.1.1.2⟩

end Verif.Plan
