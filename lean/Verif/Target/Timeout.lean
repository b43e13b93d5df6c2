/-!
# Timeouts of requests to subgraphs

Models the timeouts of `executor/executors/map.rs`. An expression is its source; whether it compiles, and what it
yields for a request and a default in milliseconds, are parameters.
-/

namespace Verif.Target.Timeout

/-- `DurationOrExpression`. -/
inductive Dur where
  | fixed (ms : Nat)
  | expr (e : String)
deriving DecidableEq

/-- Settings with the parameters. `run` yields nothing if the expression fails or its value is no duration. -/
structure Config (Req : Type) where
  all : Dur
  own : String → Option Dur
  compiles : String → Bool
  run : String → Req → Option Nat → Option Nat

variable {Req : Type}

/-- `compile_duration_or_expression`, `map.rs:1153-1165`. -/
def compile (c : Config Req) : Dur → Option Dur
  | .fixed n => some (.fixed n)
  | .expr e => if c.compiles e then some (.expr e) else none

/-- `register_subgraph_timeout`, `map.rs:1010-1038`. -/
def register (c : Config Req) (m : String → Option Dur) (n : String) : Option (String → Option Dur) :=
  if (m n).isSome then some m
  else
    match compile c ((c.own n).getD c.all) with
    | none => none
    | some d => some fun n' => if n' = n then some d else m n'

/-- The loop over subgraphs, `map.rs:254-280`. -/
def registerAll (c : Config Req) : (String → Option Dur) → List String → Option (String → Option Dur)
  | m, [] => some m
  | m, n :: r =>
    match register c m n with
    | none => none
    | some m => registerAll c m r

/-- `from_http_endpoint_map` as far as timeouts, `map.rs:239-248`. -/
def build (c : Config Req) (l : List String) : Option (Dur × (String → Option Dur)) :=
  match compile c c.all with
  | none => none
  | some g => (registerAll c (fun _ => none) l).map fun m => (g, m)

/-- `resolve_timeout`, `map.rs:1131-1150`, with `resolve`, `vrl/expressions.rs:31-46`. -/
def value (c : Config Req) (q : Req) (default : Option Nat) : Dur → Option Nat
  | .fixed n => some n
  | .expr e => c.run e q default

/-- `resolve_subgraph_timeout`, `map.rs:635-648`. The outer option is for failure. -/
def resolve (c : Config Req) (s : Dur × (String → Option Dur)) (n : String) (q : Req) : Option (Option Nat) :=
  match s.2 n with
  | none => some none
  | some d =>
    match value c q none s.1 with
    | none => none
    | some g =>
      match value c q (some g) d with
      | none => none
      | some t => some (some t)

/-! ## Proof -/

theorem compile_same {c : Config Req} {d d' : Dur} (h : compile c d = some d') : d' = d := by
  unfold compile at h
  split at h
  · cases h; rfl
  · split at h
    · cases h; rfl
    · cases h

theorem registerAll_spec {c : Config Req} : ∀ {l : List String} {m m' : String → Option Dur},
    (∀ n d, m n = some d → d = (c.own n).getD c.all) → registerAll c m l = some m' →
    (∀ n d, m' n = some d → d = (c.own n).getD c.all) ∧ (∀ n, (m n).isSome → (m' n).isSome) ∧
      ∀ n ∈ l, (m' n).isSome
  | [], m, m', hm, h => by
    cases h
    exact ⟨hm, fun _ h => h, by simp⟩
  | k :: r, m, m', hm, h => by
    unfold registerAll at h
    split at h
    · cases h
    next m1 h1 =>
      have h2 : (∀ n d, m1 n = some d → d = (c.own n).getD c.all) ∧ (∀ n, (m n).isSome → (m1 n).isSome) ∧
          (m1 k).isSome := by
        unfold register at h1
        split at h1
        next hs =>
          cases h1
          exact ⟨hm, fun _ h => h, hs⟩
        · split at h1
          · cases h1
          next d hd =>
            cases h1
            refine ⟨fun n d' hn => ?_, fun n hn => ?_, by simp⟩
            · by_cases e : n = k
              · subst e
                simp only [if_true] at hn
                cases hn
                exact compile_same hd
              · simp only [e, if_false] at hn
                exact hm n d' hn
            · by_cases e : n = k <;> simp [e, hn]
      obtain ⟨a, b, d⟩ := registerAll_spec h2.1 h
      refine ⟨a, fun n hn => b n (h2.2.1 n hn), fun n hn => ?_⟩
      rcases List.mem_cons.1 hn with rfl | hn
      · exact b _ h2.2.2
      · exact d n hn

/-! ## Theorems -/

/-- **C124, where the timeout for all can be told.** For every configuration, supergraph and request: the timeout of a
subgraph is its own, with the one for all as default of an expression; it fails if the expression does. -/
theorem C124_own_partial {c : Config Req} {l : List String} {s : Dur × (String → Option Dur)} (h : build c l = some s)
    {n : String} (hn : n ∈ l) {d : Dur} (ho : c.own n = some d) (q : Req) {g : Nat}
    (hg : c.all = .fixed g ∨ ∃ e, c.all = .expr e ∧ c.run e q none = some g) :
    resolve c s n q = match d with
      | .fixed t => some (some t)
      | .expr e => (c.run e q (some g)).map some := by
  unfold build at h
  split at h
  · cases h
  next g' hg' =>
    obtain ⟨m, hm, rfl⟩ := Option.map_eq_some_iff.1 h
    obtain ⟨a, _, b⟩ := registerAll_spec (by simp) hm
    obtain ⟨d', hd'⟩ := Option.isSome_iff_exists.1 (b n hn)
    have e1 := a n d' hd'
    rw [ho] at e1
    simp only [Option.getD_some] at e1
    subst e1
    have hv : value c q none g' = some g := by
      rw [compile_same hg']
      rcases hg with e | ⟨e, e', e''⟩
      · simp [e, value]
      · simp [e', value, e'']
    simp only [resolve, hd', hv]
    cases d' with
    | fixed t => simp [value]
    | expr e =>
      simp only [value]
      cases c.run e q (some g) <;> rfl

/-- **C124.** A subgraph without a timeout of its own has the one for all, if that is a fixed time or does
not depend on a default. -/
theorem C124_all_partial {c : Config Req} {l : List String} {s : Dur × (String → Option Dur)} (h : build c l = some s)
    {n : String} (hn : n ∈ l) (ho : c.own n = none) (q : Req) {g : Nat}
    (hg : c.all = .fixed g ∨ ∃ e, c.all = .expr e ∧ ∀ d, c.run e q d = some g) :
    resolve c s n q = some (some g) := by
  unfold build at h
  split at h
  · cases h
  next g' hg' =>
    obtain ⟨m, hm, rfl⟩ := Option.map_eq_some_iff.1 h
    obtain ⟨a, _, b⟩ := registerAll_spec (by simp) hm
    obtain ⟨d', hd'⟩ := Option.isSome_iff_exists.1 (b n hn)
    have e1 := a n d' hd'
    rw [ho] at e1
    simp only [Option.getD_none] at e1
    subst e1
    have e2 := compile_same hg'
    subst e2
    rcases hg with e | ⟨e, e', e''⟩
    · simp [resolve, hd', e, value]
    · simp only [resolve, hd']
      rw [e']
      simp [value, e'']

namespace Case

/-- The timeout for all is by an expression that fails for requests other than 0. -/
def conf : Config Nat where
  all := .expr "e"
  own n := if n = "a" then some (.fixed 5) else if n = "b" then some (.expr "f") else none
  compiles _ := true
  run e q d := if e = "e" then (if q = 0 then some (d.getD 10 * 2) else none) else d.map (· + 1)

example : (build conf ["a", "b", "c"]).bind (resolve conf · "a" 0) = some (some 5) := by decide
example : (build conf ["a", "b", "c"]).bind (resolve conf · "b" 0) = some (some 21) := by decide

/-- **C124 is refuted**: a subgraph with a fixed timeout of its own cannot be asked if the expression for all others
fails. -/
theorem C124_fixed_refuted : ∃ s, build conf ["a", "b", "c"] = some s ∧ conf.own "a" = some (.fixed 5) ∧
    resolve conf s "a" 1 = none := ⟨_, rfl, by decide, by decide⟩

/-- **C124 is refuted**: the expression for all is evaluated twice for subgraphs without one of their own, the second
time with what it gave the first time for default, so it need not give the timeout for all. -/
theorem C124_twice_refuted : ∃ s, build conf ["a", "b", "c"] = some s ∧ conf.own "c" = none ∧
    conf.run "e" 0 none = some 20 ∧ resolve conf s "c" 0 = some (some 40) := ⟨_, rfl, by decide, by decide, by decide⟩

end Case

end Verif.Target.Timeout
