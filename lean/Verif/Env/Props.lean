import Verif.Env.Model

/-!
# Environment variables win over the configuration file
-/

namespace Verif.Env

/-! ## Specification -/

/-- Variables that stand for one setting each. -/
def plain : List (String × String) :=
  [("LOG_LEVEL", "log.level"), ("LOG_FORMAT", "log.format"), ("LOG_FILTER", "log.filter"),
    ("LOG_INTERNALS", "log.log_internals"), ("PORT", "http.port"), ("HOST", "http.host"),
    ("ROUTER_HTTP_WORKERS", "http.workers"), ("HIVE_TRACING_ENABLED", "telemetry.hive.tracing.enabled"),
    ("HIVE_USAGE_REPORTING_ENABLED", "telemetry.hive.usage_reporting.enabled"),
    ("HIVE_ACCESS_TOKEN", "telemetry.hive.token"), ("HIVE_TARGET", "telemetry.hive.target"),
    ("TELEMETRY_TRACING_SAMPLING_RATE", "telemetry.tracing.collect.sampling"),
    ("LABORATORY_ENABLED", "laboratory.enabled"), ("WEBSOCKET_ENABLED", "websocket.enabled"),
    ("SUBSCRIPTIONS_ENABLED", "subscriptions.enabled"),
    ("QUERY_PLANNER_EXPERIMENTAL_ABSTRACT_TYPE_FOLDING", "query_planner.experimental_abstract_type_folding")]

/-- Settings of the source of the supergraph. -/
def supergraph : List String :=
  ["supergraph.source", "supergraph.path", "supergraph.endpoint", "supergraph.key", "supergraph.poll_interval",
    "supergraph.graph_ref"]

/-- Two of the three sources are set. -/
def Two (v : Vars) : Prop :=
  (v "SUPERGRAPH_FILE_PATH" ≠ none ∧ v "HIVE_CDN_ENDPOINT" ≠ none) ∨
  (v "SUPERGRAPH_FILE_PATH" ≠ none ∧ v "APOLLO_KEY" ≠ none) ∨
  (v "HIVE_CDN_ENDPOINT" ≠ none ∧ v "APOLLO_KEY" ≠ none)

/-- A word without the blanks around it. -/
def Trimmed (p t : List Char) : Prop :=
  ∃ a b, p = a ++ t ++ b ∧ (∀ c ∈ a, c = ' ') ∧ (∀ c ∈ b, c = ' ') ∧ t.head? ≠ some ' ' ∧ t.getLast? ≠ some ' '

/-- The words between commas. -/
def Between (w : List Char) (ps : List (List Char)) : Prop :=
  ps ≠ [] ∧ [','].intercalate ps = w ∧ ∀ p ∈ ps, ',' ∉ p

/-! ## Proof -/

theorem split_between (w : List Char) : Between w (split w) := by
  induction w with
  | nil => simp [split, Between, List.intercalate]
  | cons c r ih =>
    obtain ⟨h1, h2, h3⟩ := ih
    unfold split
    cases hs : split r with
    | nil => exact absurd hs h1
    | cons h t =>
      rw [hs] at h2 h3
      by_cases hc : c = ','
      · subst hc
        simp only [if_true]
        refine ⟨by simp, ?_, ?_⟩
        · rw [← h2]
          simp [List.intercalate, List.intersperse]
        · intro p hp
          rcases List.mem_cons.1 hp with rfl | hp
          · simp
          · exact h3 p hp
      · simp only [hc, if_false]
        refine ⟨by simp, ?_, ?_⟩
        · rw [← h2]
          cases t <;> simp [List.intercalate, List.intersperse]
        · intro p hp
          rcases List.mem_cons.1 hp with rfl | hp
          · simp only [List.mem_cons, not_or]
            exact ⟨fun x => hc x.symm, h3 h (by simp)⟩
          · exact h3 p (List.mem_cons_of_mem _ hp)

theorem takeWhile_blank (l : List Char) : ∀ c ∈ l.takeWhile (· == ' '), c = ' ' := by
  induction l with
  | nil => simp
  | cons x r ih =>
    by_cases hx : x = ' '
    · simpa [List.takeWhile_cons, hx] using ih
    · simp [List.takeWhile_cons, hx]

theorem dropWhile_head (l : List Char) : (l.dropWhile (· == ' ')).head? ≠ some ' ' := by
  induction l with
  | nil => simp
  | cons x r ih =>
    by_cases hx : x = ' '
    · simpa [List.dropWhile_cons, hx] using ih
    · simp [List.dropWhile_cons, hx]

theorem trim_trimmed (p : List Char) : Trimmed p (trim p) := by
  let d := p.dropWhile (· == ' ')
  let e := d.reverse.dropWhile (· == ' ')
  let f := d.reverse.takeWhile (· == ' ')
  have hd : d = e.reverse ++ f.reverse := by
    have := List.takeWhile_append_dropWhile (p := (· == ' ')) (l := d.reverse)
    have h2 := congrArg List.reverse this
    simp only [List.reverse_append, List.reverse_reverse] at h2
    exact h2.symm
  refine ⟨p.takeWhile (· == ' '), f.reverse, ?_, takeWhile_blank p, ?_, ?_, ?_⟩
  · have := List.takeWhile_append_dropWhile (p := (· == ' ')) (l := p)
    rw [List.append_assoc]
    show p = _ ++ (e.reverse ++ f.reverse)
    rw [← hd]
    exact this.symm
  · intro c hc
    exact takeWhile_blank _ c (List.mem_reverse.1 hc)
  · show e.reverse.head? ≠ _
    intro h
    have h3 : d.head? = some ' ' := by
      rw [hd]
      cases he : e.reverse with
      | nil => rw [he] at h; cases h
      | cons x r => rw [he] at h; simpa using h
    exact dropWhile_head p h3
  · show e.reverse.getLast? ≠ _
    rw [List.getLast?_reverse]
    exact dropWhile_head _

theorem setIf_apply {o : Option Val} {k k' : String} {c : Config} :
    setIf o k c k' = if k' = k then o.or (c k') else c k' := by
  unfold setIf
  split <;> simp [set]

theorem set_apply {x : Val} {k k' : String} {c : Config} :
    set k x c k' = if k' = k then some x else c k' := rfl

theorem sources_two {v : Vars} : sources v > 1 ↔ Two v := by
  unfold sources Two
  cases v "SUPERGRAPH_FILE_PATH" <;> cases v "HIVE_CDN_ENDPOINT" <;> cases v "APOLLO_KEY" <;> simp

theorem file_other {v : Vars} {c : Config} {k : String} (h : k ∉ supergraph) : file v c k = c k := by
  simp only [supergraph, List.mem_cons, List.not_mem_nil, or_false, not_or] at h
  unfold file
  cases v "SUPERGRAPH_FILE_PATH" <;> simp [set, h]

theorem hive_other {v : Vars} {c c' : Config} {k : String} (h : k ∉ supergraph) (e : hive v c = .ok c') :
    c' k = c k := by
  simp only [supergraph, List.mem_cons, List.not_mem_nil, or_false, not_or] at h
  unfold hive at e
  split at e
  · split at e
    · cases e
      simp [setIf_apply, set_apply, h]
    · cases e
  · cases e
    rfl

theorem apollo_other {v : Vars} {c c' : Config} {k : String} (h : k ∉ supergraph) (e : apollo v c = .ok c') :
    c' k = c k := by
  simp only [supergraph, List.mem_cons, List.not_mem_nil, or_false, not_or] at h
  unfold apollo at e
  split at e
  · split at e
    · cases e
      simp [setIf_apply, set_apply, h]
    · cases e
  · cases e
    rfl

theorem apply_other {v : Vars} {c c' : Config} {k : String} (h : k ∉ supergraph) (e : apply v c = .ok c') :
    ∃ d : Config, d k = first v c k ∧ c' = last v d := by
  unfold apply at e
  split at e
  · cases e
  · split at e
    · cases e
    next c1 h1 =>
      split at e
      · cases e
      next c2 h2 =>
        cases e
        exact ⟨c2, by rw [apollo_other h h2, hive_other h h1, file_other h], rfl⟩

theorem last_supergraph {v : Vars} {c : Config} {k : String} (h : k ∈ supergraph) : last v c k = c k := by
  simp only [supergraph, List.mem_cons, List.not_mem_nil, or_false] at h
  rcases h with rfl | rfl | rfl | rfl | rfl | rfl <;> simp [last, setIf_apply]

theorem first_supergraph {v : Vars} {c : Config} {k : String} (h : k ∈ supergraph) : first v c k = c k := by
  simp only [supergraph, List.mem_cons, List.not_mem_nil, or_false] at h
  rcases h with rfl | rfl | rfl | rfl | rfl | rfl <;> simp [first, setIf_apply]

/-! ## Theorems -/

/-- **C122.** For every environment and configuration: a variable for one setting wins over the configuration, which
keeps its value if the variable is not set. -/
theorem C122_plain {v : Vars} {c c' : Config} (e : apply v c = .ok c') : ∀ x ∈ plain, c' x.2 = (v x.1).or (c x.2) := by
  intro x hx
  have hs : x.2 ∉ supergraph := by
    revert x
    decide
  obtain ⟨d, hd, rfl⟩ := apply_other hs e
  simp only [plain, List.mem_cons, List.not_mem_nil, or_false] at hx
  rcases hx with rfl | rfl | rfl | rfl | rfl | rfl | rfl | rfl | rfl | rfl | rfl | rfl | rfl | rfl | rfl | rfl <;>
    simp_all [last, first, setIf_apply]

/-- **C122.** The variable that disables masking turns the setting around. -/
theorem C122_masking {v : Vars} {c c' : Config} (e : apply v c = .ok c') :
    (∀ b, v "DISABLE_SUBGRAPH_ERROR_MASKING" = some (.bool b) → c' "error_masking.enabled" = some (.bool !b)) ∧
    (v "DISABLE_SUBGRAPH_ERROR_MASKING" = none → c' "error_masking.enabled" = c "error_masking.enabled") := by
  obtain ⟨d, hd, rfl⟩ := apply_other (k := "error_masking.enabled") (by decide) e
  constructor
  · intro b hb
    simp [last, setIf_apply, hb, negate]
  · intro hb
    simp_all [last, first, setIf_apply]

/-- **C122.** Settings that no variable stands for stay. -/
theorem C122_other {v : Vars} {c c' : Config} (e : apply v c = .ok c') {k : String} (h1 : k ∉ supergraph)
    (h2 : k ∉ plain.map (·.2)) (h3 : k ≠ "error_masking.enabled") : c' k = c k := by
  obtain ⟨d, hd, rfl⟩ := apply_other h1 e
  simp only [plain, List.map_cons, List.map_nil, List.mem_cons, List.not_mem_nil, or_false, not_or] at h2
  simp [last, setIf_apply, h2, h3, hd, first]

/-- **C122.** It is an error exactly if two sources of the supergraph are set, or one that lacks its key or graph. -/
theorem C122_error {v : Vars} {c : Config} : (∃ e, apply v c = .error e) ↔
    Two v ∨ (v "HIVE_CDN_ENDPOINT" ≠ none ∧ v "HIVE_CDN_KEY" = none) ∨
      (v "APOLLO_KEY" ≠ none ∧ v "APOLLO_GRAPH_REF" = none) := by
  unfold apply
  by_cases h : sources v > 1
  · simp only [h, if_true]
    exact ⟨fun _ => .inl (sources_two.1 h), fun _ => ⟨_, rfl⟩⟩
  · have h' : ¬ Two v := fun x => h (sources_two.2 x)
    simp only [h, if_false, h', false_or]
    unfold hive apollo
    cases v "HIVE_CDN_ENDPOINT" <;> cases v "HIVE_CDN_KEY" <;> cases v "APOLLO_KEY" <;>
      cases v "APOLLO_GRAPH_REF" <;> simp

/-- **C122.** The source that is set is the one that is used, with all that belongs to it; if none is set, the
configuration has the say. -/
theorem C122_source {v : Vars} {c c' : Config} (e : apply v c = .ok c') :
    (∀ p, v "SUPERGRAPH_FILE_PATH" = some p →
      c' "supergraph.source" = some (.str "file".toList) ∧ c' "supergraph.path" = some p) ∧
    (∀ w, v "HIVE_CDN_ENDPOINT" = some w → c' "supergraph.source" = some (.str "hive".toList) ∧
      c' "supergraph.endpoint" = some (endpoint w) ∧ c' "supergraph.key" = v "HIVE_CDN_KEY" ∧
      c' "supergraph.poll_interval" = (v "HIVE_CDN_POLL_INTERVAL").or (c "supergraph.poll_interval")) ∧
    (∀ k, v "APOLLO_KEY" = some k → c' "supergraph.source" = some (.str "apollo_graphos".toList) ∧
      c' "supergraph.key" = some k ∧ c' "supergraph.graph_ref" = v "APOLLO_GRAPH_REF" ∧
      c' "supergraph.endpoint" = ((v "APOLLO_UPLINK_ENDPOINTS").map endpoints).or (c "supergraph.endpoint")) ∧
    (v "SUPERGRAPH_FILE_PATH" = none → v "HIVE_CDN_ENDPOINT" = none → v "APOLLO_KEY" = none →
      ∀ k ∈ supergraph, c' k = c k) := by
  unfold apply at e
  split at e
  · cases e
  next hn =>
    have h2 : ¬ Two v := fun x => hn (sources_two.2 x)
    unfold Two at h2
    split at e
    · cases e
    next c1 h1 =>
      split at e
      · cases e
      next c2 h3 =>
        cases e
        unfold hive at h1
        unfold apollo at h3
        cases hf : v "SUPERGRAPH_FILE_PATH" <;> cases hh : v "HIVE_CDN_ENDPOINT" <;> cases ha : v "APOLLO_KEY" <;>
          simp only [hf, hh, ha, ne_eq, not_true_eq_false, false_and, and_false, or_false, false_or, and_self,
            not_false_eq_true, reduceCtorEq] at h1 h2 h3
        · cases h1
          cases h3
          refine ⟨by simp, by simp, by simp, fun _ _ _ k hk => ?_⟩
          rw [last_supergraph hk]
          simp only [file, hf]
          exact first_supergraph hk
        · cases h1
          cases hg : v "APOLLO_GRAPH_REF" <;> simp only [hg] at h3 <;> cases h3
          refine ⟨by simp, by simp, ?_, by simp⟩
          intro k hk
          cases hk
          simp [last, file, first, hf, setIf_apply, set_apply]
        · cases hg : v "HIVE_CDN_KEY" <;> simp only [hg] at h1 <;> cases h1
          cases h3
          refine ⟨by simp, ?_, by simp, by simp⟩
          intro k hk
          cases hk
          simp [last, file, first, hf, setIf_apply, set_apply]
        · cases h1
          cases h3
          refine ⟨?_, by simp, by simp, by simp⟩
          intro k hk
          cases hk
          simp [last, file, hf, setIf_apply, set_apply]
        · exact absurd (.inl trivial) h2

/-- **C122.** An endpoint without a comma is taken as it is; otherwise the endpoints are the words between commas,
without the blanks around them. -/
theorem C122_endpoint (w : List Char) :
    (',' ∉ w → endpoint (.str w) = .str w) ∧
    (',' ∈ w → ∃ ps trim, Between w ps ∧ (∀ p, Trimmed p (trim p)) ∧ endpoint (.str w) = .list (ps.map trim)) ∧
    ∃ ps trim, Between w ps ∧ (∀ p, Trimmed p (trim p)) ∧ endpoints (.str w) = .list (ps.map trim) := by
  refine ⟨fun h => by simp [endpoint, h], fun h => ⟨split w, trim, split_between w, trim_trimmed, ?_⟩,
    ⟨split w, trim, split_between w, trim_trimmed, rfl⟩⟩
  simp [endpoint, h, endpoints]

namespace Case

/-- Variables for a file, and a port. -/
def vars : Vars := fun n => if n = "SUPERGRAPH_FILE_PATH" then some (.str "a".toList)
  else if n = "PORT" then some (.num 80) else none

example : ∃ c', apply vars (fun _ => none) = .ok c' ∧ c' "http.port" = some (.num 80) := by
  refine ⟨_, rfl, by decide⟩
example : endpoint (.str "a, b".toList) = .list ["a".toList, "b".toList] := by decide

/-- **C122 is refuted** for variables that belong to a source: a key in the environment, with the endpoint in the
configuration, has no effect, and nothing says so. -/
theorem C122_key_refuted : ∃ (v : Vars) (c c' : Config), apply v c = .ok c' ∧
    v "HIVE_CDN_KEY" = some (.str "new".toList) ∧ c "supergraph.source" = some (.str "hive".toList) ∧
    c' "supergraph.key" = some (.str "old".toList) := by
  refine ⟨fun n => if n = "HIVE_CDN_KEY" then some (.str "new".toList) else none,
    fun n => if n = "supergraph.source" then some (.str "hive".toList)
      else if n = "supergraph.key" then some (.str "old".toList) else none, _, rfl, by decide, by decide, by decide⟩

end Case

end Verif.Env
