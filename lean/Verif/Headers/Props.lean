import Verif.Headers.CacheLemmas
import Verif.Headers.RuleLemmas

/-!
# C17, C18, C19: Cache-Control, hop-by-hop headers, response header aggregation
-/

namespace Verif.Headers

/-! ## C17 -/

theorem mem_parsedOf {vs : List Text} {p : CacheControl} (h : p ∈ parsedOf vs) :
    ∃ v ∈ vs, Recognised v ∧ Means v p := by
  simp only [parsedOf, List.mem_filterMap] at h
  obtain ⟨v, hv, hp⟩ := h
  split at hp
  · rename_i hs
    exact ⟨v, hv, (recognised_iff v).2 ⟨hs, p, hp⟩, parse_means hp⟩
  · simp at hp

theorem recognised_parsed {vs : List Text} {v : Text} (hv : v ∈ vs) (hr : Recognised v) :
    ∃ p ∈ parsedOf vs, Means v p := by
  obtain ⟨hs, p, hp⟩ := (recognised_iff v).1 hr
  exact ⟨p, List.mem_filterMap.2 ⟨v, hv, by simp [hs, hp]⟩, parse_means hp⟩

theorem poisoned_iff {v : Text} {p : CacheControl} (h : Means v p) :
    p.poisoned = true ↔ Forbids v := by
  simp only [CacheControl.poisoned, Bool.or_eq_true, Forbids, h.noStore, h.noCache, h.priv, or_assoc]

/-- **C17** (what holds). From the collected Cache-Control values `vs` of a query without errors,
`total` subgraph responses having been received:

* the header is left out only if no value was recognised;
* a recognised value that forbids shared caching makes the answer `no-store` and `no-cache`;
* otherwise the answer's lifetime is exactly the least one given by any recognised value, it
  requires revalidation exactly when one of them does, and it is `public` exactly when all of them
  are and there are as many values as responses.

The full property would quantify over every header a subgraph sent, recognised or not: see
`C17_unrecognised_header_ignored`, `C17_second_line_ignored` and `C17_silence_hidden`. -/
theorem C17_cache_control_partial (vs : List Text) (total : Nat) :
    (finalizeValues vs false total = none ↔ ∀ v ∈ vs, ¬ Recognised v) ∧
    ∀ out, finalizeValues vs false total = some out →
      ((∃ v ∈ vs, Recognised v ∧ Forbids v) →
        Says out "no-store" ∧ Says out "no-cache" ∧ ¬ Says out "public" ∧ ∀ n, ¬ MaxAge out n) ∧
      ((¬ ∃ v ∈ vs, Recognised v ∧ Forbids v) →
        (∀ n, MaxAge out n ↔ (∃ v ∈ vs, Recognised v ∧ MaxAge v n) ∧
          ∀ v ∈ vs, Recognised v → ∀ k, MaxAge v k → n ≤ k) ∧
        (Says out "must-revalidate" ↔ ∃ v ∈ vs, Recognised v ∧ Says v "must-revalidate") ∧
        (Says out "public" ↔ (∀ v ∈ vs, Recognised v → Says v "public") ∧ total ≤ vs.length) ∧
        ¬ Forbids out) := by
  have hm := mergeValues_spec vs [] none (Or.inl ⟨rfl, rfl⟩)
  simp only [List.nil_append] at hm
  rcases hm with ⟨hnil, hmv⟩ | ⟨m, hmv, hM⟩
  · have hno : ∀ v ∈ vs, ¬ Recognised v := by
      intro v hv hr
      obtain ⟨p, hp, _⟩ := recognised_parsed hv hr
      rw [hnil] at hp; simp at hp
    constructor
    · simp only [finalizeValues, hmv]
      exact ⟨fun _ => hno, fun _ => by simp⟩
    · intro out ho
      simp [finalizeValues, hmv] at ho
  · have hne : parsedOf vs ≠ [] ∨ parsedOf vs = [] := by
      by_cases h : parsedOf vs = []
      · exact Or.inr h
      · exact Or.inl h
    have hex : ∃ v ∈ vs, Recognised v := by
      cases hv : parsedOf vs with
      | nil =>
        -- the fold over nothing is nothing
        have := mergeValues_spec vs [] none (Or.inl ⟨rfl, rfl⟩)
        exfalso
        clear this hne
        have : ∀ (us : List Text), parsedOf us = [] → mergeValues us none = none := by
          intro us
          induction us with
          | nil => intro _; rfl
          | cons u us ih =>
            intro hu
            simp only [parsedOf, List.filterMap_cons] at hu
            simp only [mergeValues]
            cases hs : isStr u with
            | false => simp only [hs, Bool.false_eq_true, if_false] at hu ⊢; exact ih hu
            | true =>
              simp only [hs, if_true] at hu ⊢
              cases hp : parse u with
              | none => simp only [hp] at hu ⊢; exact ih hu
              | some p => simp [hp] at hu
        rw [this vs hv] at hmv
        simp at hmv
      | cons p ps =>
        obtain ⟨v, h1, h2, _⟩ := mem_parsedOf (vs := vs) (p := p) (by rw [hv]; simp)
        exact ⟨v, h1, h2⟩
    constructor
    · simp only [finalizeValues, hmv]
      constructor
      · simp
      · intro h; obtain ⟨v, h1, h2⟩ := hex; exact absurd h2 (h v h1)
    · intro out ho
      simp only [finalizeValues, hmv, Bool.false_eq_true, if_false, Option.some.injEq] at ho
      generalize hm' : (if total > vs.length then { m with isPublic := false } else m) = m' at ho
      have hpois : m'.poisoned = m.poisoned := by rw [← hm']; split <;> rfl
      have hage : m'.maxAge = m.maxAge := by rw [← hm']; split <;> rfl
      have hmust : m'.mustRevalidate = m.mustRevalidate := by rw [← hm']; split <;> rfl
      have hpub : m'.isPublic = true ↔ m.isPublic = true ∧ total ≤ vs.length := by
        rw [← hm']; split
        · simp; omega
        · simp; omega
      have hbad : m.poisoned = true ↔ ∃ v ∈ vs, Recognised v ∧ Forbids v := by
        rw [hM.poison]
        constructor
        · rintro ⟨p, hp, h1⟩
          obtain ⟨v, h2, h3, h4⟩ := mem_parsedOf hp
          exact ⟨v, h2, h3, (poisoned_iff h4).1 h1⟩
        · rintro ⟨v, h1, h2, h3⟩
          obtain ⟨p, hp, h4⟩ := recognised_parsed h1 h2
          exact ⟨p, hp, (poisoned_iff h4).2 h3⟩
      constructor
      · intro h
        rw [← hbad, ← hpois] at h
        have : toHeader m' = "no-store, no-cache".toList := by
          simp only [CacheControl.poisoned] at h
          simp only [toHeader, h, if_true]
        rw [this] at ho; subst ho
        obtain ⟨h1, h2, h3, h4, _⟩ := poison_says
        exact ⟨h1, h2, h3, h4⟩
      · intro h
        rw [← hbad] at h
        have hmp : m.poisoned = false := by simpa using h
        have hmp' : m'.poisoned = false := by rw [hpois]; exact hmp
        have hfit : Fits m' := by
          intro n hn
          rw [hage] at hn
          obtain ⟨⟨p, hp, hpn⟩, _⟩ := hM.age hmp n hn
          obtain ⟨v, _, _, h4⟩ := mem_parsedOf hp
          obtain ⟨_, d, _, _, _, h5, _⟩ := (h4.age n).1 hpn
          rw [Option.bind_eq_some_iff] at h5
          obtain ⟨t, _, h6⟩ := h5
          exact parseU32_lt h6
        have hmeans := toHeader_means hmp' hfit
        rw [ho] at hmeans
        refine ⟨?_, ?_, ?_, ?_⟩
        · intro n
          rw [← hmeans.age, hage]
          constructor
          · intro hn
            obtain ⟨⟨p, hp, hpn⟩, hmin⟩ := hM.age hmp n hn
            obtain ⟨v, h1, h2, h4⟩ := mem_parsedOf hp
            refine ⟨⟨v, h1, h2, (h4.age n).1 hpn⟩, ?_⟩
            intro w hw hr k hk
            obtain ⟨q, hq, h5⟩ := recognised_parsed hw hr
            exact hmin q hq k ((h5.age k).2 hk)
          · rintro ⟨⟨v, h1, h2, h3⟩, hmin⟩
            obtain ⟨p, hp, h4⟩ := recognised_parsed h1 h2
            have hpn := (h4.age n).2 h3
            cases hma : m.maxAge with
            | none => rw [hM.ageNone hmp hma p hp] at hpn; simp at hpn
            | some k =>
              obtain ⟨⟨q, hq, hqk⟩, hle⟩ := hM.age hmp k hma
              have h5 := hle p hp n hpn
              obtain ⟨w, h6, h7, h8⟩ := mem_parsedOf hq
              have h9 := hmin w h6 h7 k ((h8.age k).1 hqk)
              rw [Nat.le_antisymm h5 h9]
        · rw [← hmeans.must, hmust, hM.must hmp]
          constructor
          · rintro ⟨p, hp, h1⟩
            obtain ⟨v, h2, h3, h4⟩ := mem_parsedOf hp
            exact ⟨v, h2, h3, h4.must.1 h1⟩
          · rintro ⟨v, h1, h2, h3⟩
            obtain ⟨p, hp, h4⟩ := recognised_parsed h1 h2
            exact ⟨p, hp, h4.must.2 h3⟩
        · rw [← hmeans.pub, hpub, hM.pub hmp]
          refine and_congr ?_ Iff.rfl
          constructor
          · intro h1 v hv hr
            obtain ⟨p, hp, h4⟩ := recognised_parsed hv hr
            exact h4.pub.1 (h1 p hp)
          · intro h1 p hp
            obtain ⟨v, h2, h3, h4⟩ := mem_parsedOf hp
            exact h4.pub.2 (h1 v h2 h3)
        · rw [← poisoned_iff hmeans, hmp']; simp

/-- **C17**: a mutation, or any error in the response, replaces every collected value by one that
forbids storing and reusing. -/
theorem C17_errors_and_mutations (vs : List Text) (total : Nat) :
    ∃ out, finalizeValues vs true total = some out ∧ Says out "no-store" ∧ Says out "no-cache" ∧
      Says out "must-revalidate" := by
  have hd : directives "no-store, no-cache, must-revalidate".toList =
      ["no-store".toList, "no-cache".toList, "must-revalidate".toList] := by decide
  refine ⟨_, rfl, ⟨"no-store".toList, ?_, by decide⟩, ⟨"no-cache".toList, ?_, by decide⟩,
    ⟨"must-revalidate".toList, ?_, by decide⟩⟩ <;> rw [hd] <;> simp

/-- A rule that propagates Cache-Control the way the configuration requires. -/
def ccRule : ResponseRule := .propagateNamed ["cache-control"] none none .append

theorem ccRule_history (subs : List HeaderMap) :
    history (subs.map fun s => ([ccRule], s)) =
      subs.flatMap fun s => ((s.getAll "cache-control").take 1).map
        fun v => Event.offer "cache-control" v .append := by
  have hd : isDeniedResponse "cache-control" = false := by decide
  have hj : isNeverJoin "cache-control" = false := by decide
  simp only [history, List.flatMap_map]
  congr 1
  funext s
  simp only [List.flatMap_cons, List.flatMap_nil, List.append_nil, ccRule, ResponseRule.events]
  simp only [List.filter_cons, hd, Bool.not_false, if_true, List.filter_nil, List.flatMap_cons,
    List.flatMap_nil, List.append_nil, seen, hj, Bool.false_eq_true, if_false, Option.getD_none]
  cases (s.getAll "cache-control").take 1 <;> simp

theorem standing_offers (n : Name) (s : Strategy) (vs : List Text) :
    standing n (vs.map fun v => Event.offer n v s) = vs.map fun v => (v, s) := by
  have : ∀ (vs : List Text) (acc : List (Text × Strategy)),
      (vs.map fun v => Event.offer n v s).foldl (stand n) acc = acc ++ vs.map fun v => (v, s) := by
    intro vs
    induction vs with
    | nil => intro acc; simp
    | cons v vs ih => intro acc; simp only [List.map_cons, List.foldl_cons, stand, if_true, ih]; simp
  simpa [standing] using this vs []

/-- **C17** from responses to the client: with the documented propagation rule, the client's
Cache-Control is the merge (`C17_cache_control_partial`) of the first Cache-Control line of every
subgraph response, in any number and order. -/
theorem C17_end_to_end (subs : List HeaderMap) (force : Bool) (a : Aggregator) (h0 : HeaderMap)
    (hc : collect (subs.map fun s => ([ccRule], s)) [] = .ok a)
    (h0cc : h0.getAll "cache-control" = []) :
    let vs := subs.flatMap fun s => (s.getAll "cache-control").take 1
    (flush h0 (finalize a force subs.length)).getAll "cache-control" =
      if vs = [] then [] else (finalizeValues vs force subs.length).toList := by
  intro vs
  have ha := collect_events _ _ _ hc
  rw [ccRule_history] at ha
  have hev : (subs.flatMap fun s => ((s.getAll "cache-control").take 1).map
        fun v => Event.offer "cache-control" v .append) =
      vs.map fun v => Event.offer "cache-control" v .append := by
    simp only [vs, List.map_flatMap]
  rw [hev] at ha
  have hk := steps_kept "cache-control" (vs.map fun v => Event.offer "cache-control" v .append)
    [] [] rfl
  rw [← ha] at hk
  change a.get "cache-control" = kept "cache-control" (standing "cache-control" _) at hk
  rw [standing_offers] at hk
  have hd : Distinct a := by rw [ha]; exact distinct_steps _ _ (by simp [Distinct])
  have hj : isNeverJoin "cache-control" = false := by decide
  generalize vs = vs at *
  cases vs with
  | nil =>
    simp only [List.map_nil, kept] at hk
    simp only [finalize, hk, if_true]
    rw [flush_getAll _ _ _ hd, hk, h0cc]; rfl
  | cons v vs =>
    simp only [List.map_cons, kept, hj, Bool.false_eq_true, if_false, List.map_map] at hk
    have hk' : a.get "cache-control" = some (.append, v :: vs) := by
      rw [hk]; simp [Function.comp_def]
    simp only [finalize, hk', List.cons_ne_nil, if_false]
    cases finalizeValues (v :: vs) force subs.length with
    | none =>
      simp only
      have hd' : Distinct (a.remove "cache-control") := distinct_filter hd _
      rw [flush_getAll _ _ _ hd']
      have : (a.remove "cache-control").get "cache-control" = none := by
        have := lookup_filter_ne a (fun x => decide (x = "cache-control")) "cache-control"
        simpa [Aggregator.remove] using this
      rw [this, h0cc]; rfl
    | some o =>
      simp only
      rw [flush_getAll _ _ _ (distinct_set hd _ _), get_set]
      simp [linesOf, hj]

/-- Negation witness: `s-maxage` makes the router ignore the whole header, `private` with it, and
what the client gets is cacheable by anyone. -/
theorem C17_unrecognised_header_ignored :
    ∃ v w : Text, Says v "private" ∧ Says w "public" ∧
      finalizeValues [v, w] false 2 = some "public, max-age=600".toList := by
  refine ⟨"private, s-maxage=60".toList, "public, max-age=600".toList,
    ⟨"private".toList, ?_, by decide⟩, ⟨"public".toList, ?_, by decide⟩, by decide⟩
  · rw [show directives "private, s-maxage=60".toList = ["private".toList, "s-maxage=60".toList]
      by decide]
    simp
  · rw [show directives "public, max-age=600".toList = ["public".toList, "max-age=600".toList]
      by decide]
    simp

/-- Negation witness: only the first of a response's Cache-Control lines is looked at. -/
theorem C17_second_line_ignored :
    ∃ sub : HeaderMap, (∃ v ∈ sub.getAll "cache-control", Says v "private") ∧
      ∃ a, collect [([ccRule], sub)] [] = .ok a ∧
        (flush [] (finalize a false 1)).getAll "cache-control" = ["public, max-age=600".toList] := by
  refine ⟨[("cache-control", "public, max-age=600".toList), ("cache-control", "private".toList)],
    ⟨"private".toList, ?_, ⟨"private".toList, ?_, by decide⟩⟩, _, rfl, by decide⟩
  · have : HeaderMap.getAll [("cache-control", "public, max-age=600".toList),
        ("cache-control", "private".toList)] "cache-control" =
        ["public, max-age=600".toList, "private".toList] := by decide
    rw [this]; simp
  · rw [show directives "private".toList = ["private".toList] by decide]; simp

/-- Negation witness: a subgraph that says nothing strips `public`, unless another one sends two
Cache-Control lines and the rule is a regular expression. -/
theorem C17_silence_hidden :
    ∃ loud silent : HeaderMap, silent.getAll "cache-control" = [] ∧
      ∃ a, collect [([.propagateRegex (some fun n => n = "cache-control") none .append], loud),
          ([.propagateRegex (some fun n => n = "cache-control") none .append], silent)] [] = .ok a ∧
        (flush [] (finalize a false 2)).getAll "cache-control" = ["public, max-age=600".toList] :=
  ⟨[("cache-control", "public".toList), ("cache-control", "public, max-age=600".toList)], [], rfl,
    _, rfl, by decide⟩

/-- Concrete: the stricter lifetime wins and one silent `public` is enough to drop it. -/
example : finalizeValues ["public, max-age=600".toList, "Max-Age=30, must-revalidate".toList] false 2
    = some "max-age=30, must-revalidate".toList := by decide
example : finalizeValues ["public, max-age=600".toList, "private".toList] false 2
    = some "no-store, no-cache".toList := by decide
example : finalizeValues ["public".toList, "public, max-age=9".toList] false 2
    = some "public, max-age=9".toList := by decide
example : Recognised "Max-Age=30, must-revalidate".toList := by
  rw [recognised_iff]; exact ⟨by decide, _, rfl⟩

/-! ## C18 -/

/-- **C18** (what holds), to subgraphs: whatever the client sends and whatever the rules are,
unless a rule renames to it, no header the router must not forward is set on a subgraph request. -/
theorem C18_requests_partial (client : HeaderMap) (rules : List RequestRule) (d : Name)
    (hd : d ∈ ["connection", "keep-alive", "proxy-authenticate", "proxy-authorization", "te",
      "trailer", "transfer-encoding", "upgrade", "proxy-connection", "host", "content-length"])
    (hr : ∀ names default, RequestRule.propagateNamed names default (some d) ∉ rules)
    (out out' : HeaderMap) (h : modifyRequest client rules out = .ok out') :
    out'.getAll d = out.getAll d := by
  have hden : isDenied d = true := by simpa [isDenied, hopByHop] using hd
  clear hd
  induction rules generalizing out with
  | nil => simp [modifyRequest] at h; subst h; rfl
  | cons r rs ih =>
    simp only [modifyRequest] at h
    cases hx : r.apply client out with
    | error e => simp [hx] at h
    | ok o =>
      simp only [hx] at h
      rw [ih (fun a b hm => hr a b (List.mem_cons_of_mem _ hm)) o h]
      refine request_denied client d hden r out o ?_ hx
      cases r with
      | propagateNamed names default rename =>
        simp only [RequestRule.target]
        rintro rfl
        exact hr names default (List.mem_cons_self ..)
      | _ => simp [RequestRule.target]

/-- Negation witness of the full C18: a rename smuggles `transfer-encoding` to the subgraph. -/
theorem C18_rename_forwards_hop_by_hop :
    ∃ client rules out', modifyRequest client rules [] = .ok out' ∧
      out'.getAll "transfer-encoding" = ["chunked".toList] :=
  ⟨[("x-te", "chunked".toList)], [.propagateNamed ["x-te"] none (some "transfer-encoding")], _, rfl,
    by decide⟩

theorem offers_allowed (sub : HeaderMap) (r : ResponseRule) (d : Name)
    (hd : isDeniedResponse d = true) (hr : r.target ≠ some d) :
    ∀ e ∈ r.events sub, ∀ v s, e ≠ .offer d v s := by
  intro e he v s heq
  subst heq
  cases r with
  | propagateNamed names rename default s' =>
    simp only [ResponseRule.target] at hr
    have hdest : ∀ n, isDeniedResponse n = false → rename.getD n ≠ d := by
      intro n hn
      cases rename with
      | none => simp only [Option.getD_none]; rintro rfl; rw [hd] at hn; simp at hn
      | some x => simp only [Option.getD_some]; rintro rfl; exact hr rfl
    simp only [ResponseRule.events] at he
    split at he
    · simp only [List.mem_flatMap, List.mem_filter, List.mem_map] at he
      obtain ⟨n, ⟨_, hn⟩, w, _, hw⟩ := he
      injection hw with h1
      exact hdest n (by simpa using hn) h1
    · split at he
      · split at he
        · simp at he
        · rename_i hx
          simp only [List.mem_singleton, Event.offer.injEq] at he
          rw [← he.1] at hx; exact hx hd
      · simp at he
  | propagateRegex incl excl s' =>
    simp only [ResponseRule.events, List.mem_map, List.mem_filter] at he
    obtain ⟨x, ⟨_, hx⟩, h1⟩ := he
    injection h1 with h1
    rw [h1, hd] at hx; simp at hx
  | insertStatic n w s' =>
    simp only [ResponseRule.events] at he
    split at he
    · simp at he
    · rename_i hx
      simp only [List.mem_singleton, Event.offer.injEq] at he
      rw [← he.1] at hx; exact hx hd
  | insertExpression n eval s' =>
    cases eval with
    | error _ => simp [ResponseRule.events] at he
    | ok o =>
      cases o with
      | none => simp [ResponseRule.events] at he
      | some w =>
        simp only [ResponseRule.events] at he
        split at he
        · simp at he
        · rename_i hx
          simp only [List.mem_singleton, Event.offer.injEq] at he
          rw [← he.1] at hx; exact hx hd
  | removeNamed names => simp [ResponseRule.events] at he
  | removeRegex r => simp [ResponseRule.events] at he

theorem standing_none (d : Name) (evs : List Event) (h : ∀ e ∈ evs, ∀ v s, e ≠ .offer d v s) :
    standing d evs = [] := by
  have : ∀ (evs : List Event), (∀ e ∈ evs, ∀ v s, e ≠ .offer d v s) →
      evs.foldl (stand d) [] = ([] : List (Text × Strategy)) := by
    intro evs
    induction evs with
    | nil => intro _; rfl
    | cons e evs ih =>
      intro h
      simp only [List.foldl_cons]
      have : stand d [] e = [] := by
        cases e with
        | offer m v s =>
          have : m ≠ d := by rintro rfl; exact h _ (List.mem_cons_self ..) v s rfl
          simp [stand, this]
        | withdraw p => simp [stand]
      rw [this]
      exact ih fun x hx => h x (List.mem_cons_of_mem _ hx)
  exact this evs h

/-- **C19** The client sees, for every header name, exactly what the history of the responses and
the configured strategies call for: of the standing offers the first, the last, or all of them
joined in order of arrival; cookies and authentication challenges as separate lines, all of them;
and headers nobody offered stay as they were. `hc` only excludes a failing expression. -/
theorem C19_response_headers (responses : List (List ResponseRule × HeaderMap)) (a : Aggregator)
    (hc : collect responses [] = .ok a) (h0 : HeaderMap) (n : Name) :
    (flush h0 a).getAll n = clientLines n (h0.getAll n) (standing n (history responses)) := by
  have ha := collect_events _ _ _ hc
  have hk := steps_kept n (history responses) [] [] rfl
  rw [← ha] at hk
  change a.get n = kept n (standing n (history responses)) at hk
  have hd : Distinct a := by rw [ha]; exact distinct_steps _ _ (by simp [Distinct])
  rw [flush_getAll n a h0 hd, hk, linesOf_kept]

/-- **C18** (what holds), to clients: no subgraph response puts a header the router must not
forward on the client's response, unless a rule renames to it. -/
theorem C18_responses_partial (responses : List (List ResponseRule × HeaderMap)) (a : Aggregator)
    (hc : collect responses [] = .ok a) (h0 : HeaderMap) (d : Name)
    (hd : d ∈ ["connection", "keep-alive", "proxy-authenticate", "proxy-authorization", "te",
      "trailer", "transfer-encoding", "upgrade", "proxy-connection", "host", "content-length",
      "content-type"])
    (hr : ∀ r ∈ responses, ∀ names default s,
      ResponseRule.propagateNamed names (some d) default s ∉ r.1) :
    (flush h0 a).getAll d = h0.getAll d := by
  have hden : isDeniedResponse d = true := by
    simp only [List.mem_cons, List.not_mem_nil, or_false] at hd
    rcases hd with rfl | rfl | rfl | rfl | rfl | rfl | rfl | rfl | rfl | rfl | rfl | rfl <;> decide
  rw [C19_response_headers responses a hc h0 d, standing_none]
  · rfl
  · intro e he
    simp only [history, List.mem_flatMap] at he
    obtain ⟨r, hrm, rule, hrule, he⟩ := he
    refine offers_allowed r.2 rule d hden ?_ e he
    cases rule with
    | propagateNamed names rename default s =>
      simp only [ResponseRule.target]
      rintro rfl
      exact hr r hrm names default s hrule
    | _ => simp [ResponseRule.target]

/-- Negation witness of the full C18 for responses. -/
theorem C18_rename_returns_hop_by_hop :
    ∃ responses a, collect responses [] = .ok a ∧
      (flush [] a).getAll "transfer-encoding" = ["chunked".toList] :=
  ⟨[([.propagateNamed ["x-te"] (some "transfer-encoding") none .last],
      [("x-te", "chunked".toList)])], _, rfl, by decide⟩

/-- Concrete: two subgraphs, a cookie each, `last` for `etag`, `append` for `vary`. -/
example : ∃ a, collect
    [([.propagateNamed ["set-cookie"] none none .last, .propagateNamed ["etag"] none none .last,
        .propagateNamed ["vary"] none none .append],
      [("set-cookie", "a=1".toList), ("set-cookie", "b=2".toList), ("etag", "x".toList),
        ("vary", "origin".toList)]),
     ([.propagateNamed ["set-cookie"] none none .last, .propagateNamed ["etag"] none none .last,
        .propagateNamed ["vary"] none none .append],
      [("set-cookie", "c=3".toList), ("etag", "y".toList), ("vary", "accept".toList),
        ("connection", "close".toList)])] [] = .ok a ∧
    (flush [] a).getAll "set-cookie" = ["a=1".toList, "b=2".toList, "c=3".toList] ∧
    (flush [] a).getAll "etag" = ["y".toList] ∧
    (flush [] a).getAll "vary" = ["origin, accept".toList] := ⟨_, rfl, by decide, by decide, by decide⟩

end Verif.Headers
