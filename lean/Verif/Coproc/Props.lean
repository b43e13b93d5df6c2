import Verif.Coproc.Model

/-!
# C114: a coprocessor's answer does what it says
-/

namespace Verif.Coproc

/-! ## What the properties are stated in -/

/-- The values that an answer gives for a header, whatever way its name is spelled. -/
def given (a : List (String × List String)) (n : String) : List String :=
  (a.filter (fun p => headerName p.1 = some n)).flatMap (·.2)

/-- The answer's headers can be used: all names are names of headers, and so are the values values, except
for the headers that belong to the connection. -/
def Usable (a : List (String × List String)) : Prop :=
  ∀ p ∈ a, ∃ n, headerName p.1 = some n ∧ (n ∈ hopByHop ∨ ∀ v ∈ p.2, visible v = true)

/-- `new` is `old` with the headers of the answer in place of its own, but for those of the connection. -/
def Replaced (a : List (String × List String)) (old new : HeaderMap) : Prop :=
  ∀ n, vals new n = if n ∈ hopByHop then vals old n else given a n

/-- An answer that was asked for and came: well-formed, of the right version and with a good status. -/
def Came (hook : Hook) (a : Answer) : Prop :=
  hook.should = some true ∧ a.version = 1 ∧ ∃ st, 200 ≤ st ∧ st < 300 ∧ hook.reply = some (st, some a)

/-- If the answer has headers they replace the old ones, and otherwise the old ones stay. -/
def HeadersDone (a : Answer) (old new : HeaderMap) : Prop :=
  match a.headers with
  | none => new = old
  | some hs => Replaced hs old new

/-! ## Headers -/

theorem vals_append (h k : HeaderMap) (n : String) : vals (h ++ k) n = vals h n ++ vals k n := by
  simp [vals, List.filter_append]

theorem vals_map (n m : String) (vs : List String) :
    vals (vs.map (fun v => (n, v))) m = if n = m then vs else [] := by
  by_cases h : n = m
  · subst h; simp [vals, List.filter_map, Function.comp_def]
  · simp [vals, List.filter_map, Function.comp_def, h]

theorem vals_parsed {a : List (String × List String)} {ps : List (String × String)} (h : parsed a = some ps)
    (n : String) : vals ps n = if n ∈ hopByHop then [] else given a n := by
  induction a generalizing ps with
  | nil => simp only [parsed, Option.some.injEq] at h; subst h; simp [vals, given]
  | cons x rest ih =>
    obtain ⟨m, vs⟩ := x
    unfold parsed at h
    cases hm : headerName m with
    | none => simp [hm] at h
    | some m' =>
      simp only [hm] at h
      by_cases hop : hopByHop.contains m' = true
      · rw [if_pos hop] at h
        rw [ih h]
        by_cases hn : n ∈ hopByHop
        · simp [hn]
        · have : m' ≠ n := by rintro rfl; exact hn (by simpa using hop)
          simp [hn, given, hm, this]
      · rw [if_neg hop] at h
        by_cases hv : vs.all visible = true
        · rw [if_pos hv] at h
          cases hp : parsed rest with
          | none => simp [hp] at h
          | some ps' =>
            simp only [hp, Option.map_some, Option.some.injEq] at h
            subst h
            rw [vals_append, vals_map, ih hp]
            by_cases hmn : m' = n
            · subst hmn
              have hn : m' ∉ hopByHop := by simpa using hop
              simp [hn, given, hm]
            · by_cases hn : n ∈ hopByHop
              · simp [hn, hmn]
              · simp [hn, hmn, given, hm]
        · simp [hv] at h

theorem parsed_isSome (a : List (String × List String)) : (parsed a).isSome ↔ Usable a := by
  induction a with
  | nil => simp [parsed, Usable]
  | cons x rest ih =>
    obtain ⟨m, vs⟩ := x
    have hU : Usable ((m, vs) :: rest) ↔
        (∃ n, headerName m = some n ∧ (n ∈ hopByHop ∨ ∀ v ∈ vs, visible v = true)) ∧ Usable rest := by
      simp [Usable]
    rw [hU]
    unfold parsed
    cases hm : headerName m with
    | none => simp
    | some m' =>
      by_cases hop : m' ∈ hopByHop
      · simp [hop, ih]
      · by_cases hv : vs.all visible = true
        · have hv' : ∀ v ∈ vs, visible v = true := by simpa using hv
          simp [hop, hv, ih]
          intro _; exact hv'
        · have hv' : ¬ ∀ v ∈ vs, visible v = true := by simpa using hv
          simp only [List.contains_eq_mem, hop, decide_false, Bool.false_eq_true, if_false, hv]
          simp [hop, hv']

/-- **C114.** The headers of an answer replace those there are, value for value and in order, except that
those of the connection stay as they are, whatever the answer says of them. The answer fails only if it has
a name or value that cannot be one. -/
theorem C114_headers (h : HeaderMap) (a : List (String × List String)) :
    (∀ h', replaceInto h a = some h' → Replaced a h h') ∧ ((replaceInto h a).isSome ↔ Usable a) := by
  refine ⟨?_, ?_⟩
  · intro h' hr n
    unfold replaceInto at hr
    cases hp : parsed a with
    | none => simp [hp] at hr
    | some ps =>
      simp only [hp, Option.map_some, Option.some.injEq] at hr
      subst hr
      rw [vals_append, vals_parsed hp]
      by_cases hn : n ∈ hopByHop
      · simp only [hn, if_true, List.append_nil, vals, List.filter_filter]
        congr 1
        apply List.filter_congr
        intro p _
        by_cases hpn : p.1 = n
        · simp [hpn, hn]
        · simp [hpn]
      · have : vals (List.filter (fun p => hopByHop.contains p.1) h) n = [] := by
          simp only [vals, List.filter_filter, List.map_eq_nil_iff, List.filter_eq_nil_iff]
          intro p _ hb
          simp only [Bool.and_eq_true, decide_eq_true_eq, List.contains_eq_mem] at hb
          exact hn (hb.1 ▸ hb.2)
        rw [this, if_neg hn, if_neg hn, List.nil_append]
  · rw [← parsed_isSome]; simp [replaceInto]

theorem newHeaders_done {a : Answer} {h h' : HeaderMap} (hn : newHeaders a h = some h') :
    HeadersDone a h h' := by
  unfold newHeaders at hn
  unfold HeadersDone
  cases ha : a.headers with
  | none => simpa [ha, eq_comm] using hn
  | some hs => simp only [ha] at hn; exact (C114_headers h hs).1 h' hn

/-! ## A stage -/

/-- **C114.** A request goes on only if the coprocessor was not to be asked, and then it is unchanged, or
if it gave an answer that can be used and says so. -/
theorem C114_continues {ι : Type} {apply : Answer → ι → Option ι} {hook : Hook} {c c' : Ctx} {i i' : ι}
    {b : Bool} (h : execute apply hook c i = .cont i' c' b) :
    (hook.should = some false ∧ i' = i ∧ c' = c ∧ b = false) ∨
    ∃ a, Came hook a ∧ a.control = .cont ∧ apply a i = some i' ∧ b = a.body.isSome ∧
      ((a.context = none ∧ c' = c) ∨ ∃ ps, a.context = some (some ps) ∧ applyPatch c ps = some c') := by
  unfold execute at h
  split at h
  · cases h
  · rename_i hs; cases h; exact .inl ⟨hs, rfl, rfl, rfl⟩
  · rename_i hs
    split at h
    · cases h
    · rename_i st a hr
      split at h
      · rename_i hst
        split at h
        · cases h
        · rename_i a
          unfold answered at h
          split at h
          · cases h
          · rename_i hv
            split at h
            · split at h <;> cases h
            · rename_i hc
              split at h
              · cases h
              · rename_i c1 hctx
                split at h
                · cases h
                · rename_i i1 hi
                  cases h
                  refine .inr ⟨a, ⟨hs, by omega, st, hst.1, hst.2, hr⟩, hc, hi, rfl, ?_⟩
                  cases hx : a.context with
                  | none => simp [hx] at hctx; exact .inl ⟨rfl, hctx.symm⟩
                  | some o =>
                    cases o with
                    | none => simp [hx] at hctx
                    | some ps => simp [hx] at hctx; exact .inr ⟨ps, rfl, hctx⟩
      · cases h

/-- Of the headers that are set one after the other, the last of each name stays. -/
theorem vals_set (ps : List (String × String)) (h : HeaderMap) (n : String) :
    vals (ps.foldl setHeader h) n =
      match (vals ps n).getLast? with
      | some v => [v]
      | none => vals h n := by
  induction ps generalizing h with
  | nil => simp [vals]
  | cons p ps ih =>
    rw [List.foldl_cons, ih]
    have h1 : vals (setHeader h p) n = if p.1 = n then [p.2] else vals h n := by
      unfold setHeader
      rw [vals_append]
      by_cases hp : p.1 = n
      · have : vals (h.filter (fun q => q.1 ≠ p.1)) n = [] := by
          simp only [vals, List.filter_filter, List.map_eq_nil_iff, List.filter_eq_nil_iff]
          intro q _ hb
          simp [hp] at hb
        rw [this]
        simp [vals, hp]
      · have : vals (h.filter (fun q => q.1 ≠ p.1)) n = vals h n := by
          simp only [vals, List.filter_filter]
          congr 1
          apply List.filter_congr
          intro q _
          by_cases hq : q.1 = n
          · have : n ≠ p.1 := fun e => hp e.symm
            simp [hq, this]
          · simp [hq]
        rw [this]
        simp [vals, hp]
    have h2 : vals (p :: ps) n = if p.1 = n then p.2 :: vals ps n else vals ps n := by
      by_cases hp : p.1 = n <;> simp [vals, hp]
    rw [h1, h2]
    by_cases hp : p.1 = n
    · simp only [hp, if_true]
      cases hl : (vals ps n).getLast? with
      | none => rw [List.getLast?_eq_none_iff] at hl; simp [hl]
      | some v => simp [List.getLast?_cons, hl]
    · simp only [hp, if_false]

/-- **C114, in part.** If a stage ends the request, then the coprocessor said so in an answer that can be
used, and the response has the status and body of the answer, and its headers, without those of the
connection. Missing: of several values for a header the response has only the last. -/
theorem C114_break_partial {ι : Type} {apply : Answer → ι → Option ι} {hook : Hook} {c : Ctx} {i : ι}
    {r : Response} (h : execute apply hook c i = .brk r) :
    ∃ a, Came hook a ∧ a.control = .brk r.status ∧ r.body = a.body.map Body.text ∧
      ∀ n, vals r.headers n =
        if n ∈ hopByHop then [] else ((a.headers.elim [] (given · n)).getLast?).toList := by
  unfold execute at h
  split at h
  · cases h
  · cases h
  · rename_i hs
    split at h
    · cases h
    · rename_i st a hr
      split at h
      · rename_i hst
        split at h
        · cases h
        · rename_i a
          unfold answered at h
          split at h
          · cases h
          · rename_i hv
            split at h
            · rename_i status hc
              split at h
              · rename_i r' hb
                cases h
                have hcame : Came hook a := ⟨hs, by omega, st, hst.1, hst.2, hr⟩
                unfold breakOutput at hb
                cases hh : a.headers with
                | none =>
                  simp only [hh, Option.some.injEq] at hb
                  subst hb
                  exact ⟨a, hcame, hc, rfl, fun n => by simp [hh, vals]⟩
                | some hs' =>
                  simp only [hh, builtHeaders] at hb
                  cases hp : parsed hs' with
                  | none => simp [hp] at hb
                  | some ps =>
                    simp only [hp, Option.map_some, Option.some.injEq] at hb
                    subst hb
                    refine ⟨a, hcame, hc, rfl, fun n => ?_⟩
                    dsimp only
                    rw [vals_set, vals_parsed hp]
                    by_cases hn : n ∈ hopByHop
                    · simp [hn, vals]
                    · simp only [hn, if_false, hh, Option.elim_some]
                      cases (given hs' n).getLast? <;> simp [vals]
              · cases h
            · split at h
              · cases h
              · split at h <;> cases h
      · cases h

/-- **C114.** What the coprocessor says is done: if it ends the request, with headers that can be used, then
the request ends. -/
theorem C114_obeyed {ι : Type} (apply : Answer → ι → Option ι) {hook : Hook} {a : Answer} {s : Nat} (c : Ctx)
    (i : ι) (h : Came hook a) (hc : a.control = .brk s) (hu : ∀ hs, a.headers = some hs → Usable hs) :
    ∃ r, execute apply hook c i = .brk r ∧ r.status = s := by
  obtain ⟨hs, hv, st, h1, h2, hr⟩ := h
  have : ∃ r, breakOutput a s = some r ∧ r.status = s := by
    unfold breakOutput builtHeaders
    cases hh : a.headers with
    | none => exact ⟨_, rfl, rfl⟩
    | some hs' =>
      have := (parsed_isSome hs').2 (hu hs' hh)
      obtain ⟨ps, hp⟩ := Option.isSome_iff_exists.1 this
      simp [hp]
  obtain ⟨r, hb, hst⟩ := this
  exact ⟨r, by simp [execute, hs, hr, h1, h2, answered, hv, hc, hb], hst⟩

/-- What the answer says of a request that goes on. -/
def RequestDone (a : Answer) (q q' : Request) : Prop :=
  q'.method = q.method ∧ q'.path = q.path ∧ HeadersDone a q.headers q'.headers ∧
    q'.body = (a.body.map Body.text).getD q.body

/-- **C114.** Before all else: a request that goes on is the one that came, with the headers and the body
that the answer gives, and the rest as it was. -/
theorem C114_request {a : Answer} {q q' : Request} (h : applyRouterRequest a q = some q') :
    RequestDone a q q' := by
  unfold applyRouterRequest at h
  rw [Option.map_eq_some_iff] at h
  obtain ⟨hd, hn, rfl⟩ := h
  refine ⟨rfl, rfl, newHeaders_done hn, ?_⟩
  cases a.body <;> rfl

/-- **C114.** After all else: the status stays, and the headers and the body are those that the answer gives,
or as they were. An empty body is none. -/
theorem C114_response {a : Answer} {r r' : Response} (h : applyRouterResponse a r = some r') :
    r'.status = r.status ∧ HeadersDone a r.headers r'.headers ∧
      (a.body = none → r'.body = r.body) ∧ (∀ b, a.body = some b → r'.body.getD "" = b.text) := by
  unfold applyRouterResponse at h
  rw [Option.map_eq_some_iff] at h
  obtain ⟨hd, hn, rfl⟩ := h
  refine ⟨rfl, newHeaders_done hn, ?_, ?_⟩
  · intro hb; simp [hb]
  · intro b hb
    simp only [hb]
    split
    · rename_i he; simp [he]
    · rfl

/-- **C114.** After the GraphQL response: likewise. -/
theorem C114_graphql_response {a : Answer} {r r' : Response} (h : applyGraphqlResponse a r = some r') :
    r'.status = r.status ∧ HeadersDone a r.headers r'.headers ∧
      (a.body = none → r'.body = r.body) ∧ (∀ b, a.body = some b → r'.body = some b.text) := by
  unfold applyGraphqlResponse at h
  rw [Option.map_eq_some_iff] at h
  obtain ⟨hd, hn, rfl⟩ := h
  exact ⟨rfl, newHeaders_done hn, fun hb => by simp [hb], fun b hb => by simp [hb]⟩

/-- What the fields of an answer say of the parameters of an operation: those given are the new ones. -/
def FieldsDone (f : Fields) (p p' : Params) : Prop :=
  (∀ x, f.query = some x → p'.query = some x) ∧ (f.query = none → p'.query = p.query) ∧
  (∀ x, f.operationName = some x → p'.operationName = some x) ∧
  (f.operationName = none → p'.operationName = p.operationName) ∧
  (∀ x, f.variables = some x → p'.variables = x) ∧ (f.variables = none → p'.variables = p.variables) ∧
  (∀ x, f.extensions = some x → p'.extensions = some x) ∧
  (f.extensions = none → p'.extensions = p.extensions)

/-- **C114.** At the GraphQL request: the parameters that the answer gives are the new ones and the others
stay. An answer that blanks the query or whose body cannot be read is not used. -/
theorem C114_graphql_request {read : String → Option Fields} {a : Answer} {g g' : Gql}
    (h : applyGraphqlRequest read a g = some g') :
    HeadersDone a g.headers g'.headers ∧ (a.body = none → g'.params = g.params) ∧
      (∀ b, a.body = some b → ∃ f, read b.text = some f ∧ FieldsDone f g.params g'.params ∧
        ∀ x, f.query = some x → ∃ ch ∈ x.toList, ch.isWhitespace = false) := by
  unfold applyGraphqlRequest at h
  rw [Option.bind_eq_some_iff] at h
  obtain ⟨hd, hn, h⟩ := h
  cases hb : a.body with
  | none =>
    simp only [hb, Option.some.injEq] at h
    subst h
    exact ⟨newHeaders_done hn, fun _ => rfl, fun b hb => by cases hb⟩
  | some b =>
    simp only [hb] at h
    rw [Option.map_eq_some_iff] at h
    obtain ⟨p, hp, rfl⟩ := h
    rw [Option.bind_eq_some_iff] at hp
    obtain ⟨f, hf, hp⟩ := hp
    refine ⟨newHeaders_done hn, fun hb => (by cases hb), ?_⟩
    intro b' hb'
    cases hb'
    refine ⟨f, hf, ?_, ?_⟩
    · unfold Fields.applyTo at hp
      split at hp
      · cases hp
      · cases hp
        refine ⟨?_, ?_, ?_, ?_, ?_, ?_, ?_, ?_⟩ <;> intros <;> simp_all
    · intro x hx
      unfold Fields.applyTo at hp
      split at hp
      · cases hp
      · rename_i hbl
        have hbl : blank x = false := by simpa [hx] using hbl
        obtain ⟨ch, hm, hw⟩ := List.all_eq_false.1 hbl
        exact ⟨ch, hm, by simpa using hw⟩

/-- **C114.** At the last stage before execution only headers can be changed: an answer with a body is not
used. -/
theorem C114_analysis {a : Answer} {g g' : Gql} (h : applyAnalysis a g = some g') :
    HeadersDone a g.headers g'.headers ∧ g'.params = g.params ∧ a.body = none := by
  unfold applyAnalysis at h
  rw [Option.bind_eq_some_iff] at h
  obtain ⟨hd, hn, h⟩ := h
  cases hb : a.body with
  | none =>
    simp only [hb, Option.some.injEq] at h
    subst h
    exact ⟨newHeaders_done hn, rfl, rfl⟩
  | some b => simp [hb] at h

/-! ## Answering with what one was told -/

theorem mem_names {h : HeaderMap} {n : String} : n ∈ names h ↔ ∃ v, (n, v) ∈ h := by
  induction h with
  | nil => simp [names]
  | cons p h ih =>
    obtain ⟨m, w⟩ := p
    unfold names
    split
    · rename_i hm
      rw [ih]
      constructor
      · rintro ⟨v, hv⟩; exact ⟨v, .tail _ hv⟩
      · rintro ⟨v, hv⟩
        cases hv with
        | head => exact ih.1 hm
        | tail _ hv => exact ⟨v, hv⟩
    · simp only [List.mem_cons, ih]
      constructor
      · rintro (rfl | ⟨v, hv⟩)
        · exact ⟨w, .inl rfl⟩
        · exact ⟨v, .inr hv⟩
      · rintro ⟨v, hv | hv⟩
        · cases hv; exact .inl rfl
        · exact .inr ⟨v, hv⟩

theorem names_nodup (h : HeaderMap) : (names h).Nodup := by
  induction h with
  | nil => simp [names]
  | cons p h ih =>
    unfold names
    split
    · exact ih
    · rename_i hm; exact List.nodup_cons.2 ⟨hm, ih⟩

theorem given_map {ns : List String} (hn : ns.Nodup) (hl : ∀ n ∈ ns, headerName n = some n)
    (f : String → List String) (n : String) :
    given (ns.map (fun m => (m, f m))) n = if n ∈ ns then f n else [] := by
  induction ns with
  | nil => simp [given]
  | cons m ns ih =>
    have hm := hl m (by simp)
    have ih := ih (List.nodup_cons.1 hn).2 (fun x hx => hl x (by simp [hx]))
    have hmn := (List.nodup_cons.1 hn).1
    by_cases h : m = n
    · subst h
      have : given ((m :: ns).map (fun m => (m, f m))) m = f m ++ given (ns.map (fun m => (m, f m))) m := by
        simp [given, hm]
      rw [this, ih]; simp [hmn]
    · have : given ((m :: ns).map (fun m => (m, f m))) n = given (ns.map (fun m => (m, f m))) n := by
        simp [given, hm, h]
      have h' : n ≠ m := fun e => h e.symm
      rw [this, ih]; simp [h']

/-- **C114, in part.** A coprocessor that answers with the headers it was told changes none of them, if all
values are text. Missing: values of other bytes are not told, and so are lost. -/
theorem C114_echo_partial {h : HeaderMap} (hl : ∀ p ∈ h, headerName p.1 = some p.1)
    (hv : ∀ p ∈ h, visible p.2 = true) :
    ∃ h', replaceInto h (toldHeaders h) = some h' ∧ ∀ n, vals h' n = vals h n := by
  have hf : h.filter (fun p => visible p.2) = h := List.filter_eq_self.2 hv
  have hU : Usable (toldHeaders h) := by
    intro p hp
    unfold toldHeaders at hp
    rw [hf, List.mem_map] at hp
    obtain ⟨n, hn, rfl⟩ := hp
    obtain ⟨v, hm⟩ := mem_names.1 hn
    refine ⟨n, hl _ hm, .inr ?_⟩
    intro w hw
    simp only [vals, List.mem_map, List.mem_filter] at hw
    obtain ⟨q, ⟨hq, -⟩, rfl⟩ := hw
    exact hv q hq
  obtain ⟨h', hr⟩ := Option.isSome_iff_exists.1 ((C114_headers h _).2.2 hU)
  refine ⟨h', hr, fun n => ?_⟩
  rw [(C114_headers h _).1 h' hr n]
  split
  · rfl
  · unfold toldHeaders
    rw [hf, given_map (names_nodup h) (fun n hn => by
      obtain ⟨v, hm⟩ := mem_names.1 hn
      exact hl _ hm)]
    split
    · rfl
    · rename_i hn
      symm
      simp only [vals, List.map_eq_nil_iff, List.filter_eq_nil_iff]
      intro p hp hb
      exact hn (mem_names.2 ⟨p.2, by simpa [← (by simpa using hb : p.1 = n)] using hp⟩)

/-! ## C116: what is executed -/

/-- A stage that goes on without changing the body, or that is not there. -/
theorem stage_unchanged {read : String → Option Fields} {hook : Option Hook} {c c' : Ctx} {g g' : Gql}
    (h : stage (applyGraphqlRequest read) hook c g = .cont g' c' false) : g'.params = g.params := by
  unfold stage at h
  cases hook with
  | none => cases h; rfl
  | some hook =>
    rcases C114_continues h with ⟨-, rfl, -⟩ | ⟨a, -, -, ha, hb, -⟩
    · rfl
    · have : a.body = none := by simpa using hb.symm
      exact (C114_graphql_request ha).2.1 this

theorem stage_analysis {hook : Option Hook} {c c' : Ctx} {g g' : Gql} {b : Bool}
    (h : stage applyAnalysis hook c g = .cont g' c' b) : g'.params = g.params := by
  unfold stage at h
  cases hook with
  | none => cases h; rfl
  | some hook =>
    rcases C114_continues h with ⟨-, rfl, -⟩ | ⟨a, -, -, ha, -, -⟩
    · rfl
    · exact (C114_analysis ha).2.1

/-- **C116.** If anything is executed, then all three stages before let the request go on, each was given
what the one before left, and what is executed is the document that is left at the end, with the headers and
context that are left. -/
theorem C116_executed {δ : Type} {r : Router δ} {hs : Hooks} {q : Request} {c : Ctx} {ex : Executed δ}
    (h : (handle r hs q c).2 = some ex) :
    ∃ q' c1 b1 p g c2 b2 b3, stage applyRouterRequest hs.routerRequest c q = .cont q' c1 b1 ∧
      r.params q' = some p ∧
      stage (applyGraphqlRequest r.read) hs.graphqlRequest c1 ⟨q'.headers, p⟩ = .cont g c2 b2 ∧
      stage applyAnalysis hs.analysis c2 g = .cont ex.gql ex.ctx b3 ∧
      ex.gql.params = g.params ∧ r.parse ex.gql.params.query = some ex.doc ∧
      (∃ doc, r.parse p.query = some doc ∧ r.valid doc = true) := by
  unfold handle at h
  split at h
  · cases h
  · cases h
  · rename_i q' c1 b1 hq
    simp only at h
    unfold pipeline at h
    split at h
    · cases h
    · rename_i p hp
      split at h
      · cases h
      · rename_i doc hd
        split at h
        · cases h
        · rename_i hval
          split at h
          · cases h
          · cases h
          · rename_i g c2 b2 hg
            have key : ∀ doc', r.parse g.params.query = some doc' →
                (analysed r hs g doc' c2).2.1 = some ex → ∃ b3,
                stage applyAnalysis hs.analysis c2 g = .cont ex.gql ex.ctx b3 ∧
                ex.gql.params = g.params ∧ r.parse ex.gql.params.query = some ex.doc := by
              intro doc' hd' ha
              unfold analysed at ha
              split at ha
              · cases ha
              · cases ha
              · rename_i g' c3 b3 hst
                cases ha
                have := stage_analysis hst
                exact ⟨b3, hst, this, by simpa [this] using hd'⟩
            split at h
            · split at h
              · cases h
              · rename_i doc' hd'
                obtain ⟨b3, k1, k2, k3⟩ := key doc' hd' h
                exact ⟨q', c1, b1, p, g, c2, b2, b3, hq, hp, hg, k1, k2, k3, doc, hd, by simpa using hval⟩
            · rename_i hb2
              have hb2 : b2 = false := by simpa using hb2
              subst hb2
              have hpar := stage_unchanged hg
              obtain ⟨b3, k1, k2, k3⟩ := key doc (by rw [hpar]; exact hd) h
              exact ⟨q', c1, b1, p, g, c2, false, b3, hq, hp, hg, k1, k2, k3, doc, hd, by simpa using hval⟩

/-- **C116, in part.** What is executed was validated, if the coprocessor did not give a body at the GraphQL
request. Missing: if it did, the new document is not validated. -/
theorem C116_validated_partial {δ : Type} {r : Router δ} {hs : Hooks} {q : Request} {c : Ctx}
    {ex : Executed δ} (h : (handle r hs q c).2 = some ex)
    (hb : ∀ hook a, hs.graphqlRequest = some hook → Came hook a → a.body = none) : r.valid ex.doc = true := by
  obtain ⟨q', c1, b1, p, g, c2, b2, b3, -, -, hg, -, hpar, hdoc, doc, hd, hv⟩ := C116_executed h
  have hb2 : b2 = false := by
    unfold stage at hg
    cases hk : hs.graphqlRequest with
    | none => simp only [hk] at hg; cases hg; rfl
    | some hook =>
      simp only [hk] at hg
      rcases C114_continues hg with ⟨-, -, -, rfl⟩ | ⟨a, hc, -, -, rfl, -⟩
      · rfl
      · simp [hb hook a hk hc]
  subst hb2
  have := stage_unchanged hg
  rw [hpar, this, hd] at hdoc
  cases hdoc
  exact hv

/-- **C116.** If the coprocessor ends the request at the first stage, the client gets its response as it is
and nothing is executed. If it fails there, the client gets an error and nothing is executed. -/
theorem C116_first {δ : Type} (r : Router δ) (hs : Hooks) (q : Request) (c : Ctx) :
    (∀ resp, stage applyRouterRequest hs.routerRequest c q = .brk resp → handle r hs q c = (resp, none)) ∧
    (stage applyRouterRequest hs.routerRequest c q = .error → handle r hs q c = (r.failed, none)) := by
  constructor
  · intro resp h; simp [handle, h]
  · intro h; simp [handle, h]

/-- **C116.** Whether or not anything is executed, the stages for responses are gone through: with neither
configured, the client gets what was made of the request. -/
theorem C116_plain {δ : Type} {r : Router δ} {hs : Hooks} {q q' : Request} {c c' : Ctx} {b : Bool}
    (hq : stage applyRouterRequest hs.routerRequest c q = .cont q' c' b)
    (h1 : hs.graphqlResponse = none) (h2 : hs.routerResponse = none) :
    (handle r hs q c).1 = r.finish (pipeline r hs q' c').1 := by
  unfold handle
  rw [hq]
  simp [afterGraphql, afterRouter, stage, h1, h2]

/-- What a stage for responses leaves: what it goes on with, what it ends with, or an error. -/
def Left (f : Flow Response) (failed x : Response) : Prop :=
  match f with
  | .error => x = failed
  | .brk resp => x = resp
  | .cont resp _ _ => x = resp

/-- **C116.** Every request that was not ended at the first stage goes through both stages for responses, also
if it failed or was ended later, and the client gets what the last of them leaves of what the first left. -/
theorem C116_response {δ : Type} {r : Router δ} {hs : Hooks} {q q' : Request} {c c' : Ctx} {b : Bool}
    (hq : stage applyRouterRequest hs.routerRequest c q = .cont q' c' b) : ∃ c1 c2 mid,
    Left (stage applyGraphqlResponse hs.graphqlResponse c1 (r.finish (pipeline r hs q' c').1)) r.failed mid ∧
    Left (stage applyRouterResponse hs.routerResponse c2 mid) ⟨500, [], none⟩ (handle r hs q c).1 := by
  refine ⟨(pipeline r hs q' c').2.2,
    (afterGraphql r hs (pipeline r hs q' c').2.2 (r.finish (pipeline r hs q' c').1)).2,
    (afterGraphql r hs (pipeline r hs q' c').2.2 (r.finish (pipeline r hs q' c').1)).1, ?_, ?_⟩
  · generalize (pipeline r hs q' c').2.2 = c1
    generalize r.finish (pipeline r hs q' c').1 = resp
    unfold afterGraphql Left
    split <;> rename_i h <;> simp [h]
  · have : (handle r hs q c).1 = afterRouter hs
        (afterGraphql r hs (pipeline r hs q' c').2.2 (r.finish (pipeline r hs q' c').1)).2
        (afterGraphql r hs (pipeline r hs q' c').2.2 (r.finish (pipeline r hs q' c').1)).1 := by
      unfold handle
      rw [hq]
    rw [this]
    unfold afterRouter Left
    split <;> rename_i h <;> simp [h]

/-- What a stage for responses that goes on leaves has the same status. -/
theorem stage_status {apply : Answer → Response → Option Response}
    (ha : ∀ a r r', apply a r = some r' → r'.status = r.status) {hook : Option Hook} {c c' : Ctx}
    {resp resp' : Response} {b : Bool} (h : stage apply hook c resp = .cont resp' c' b) :
    resp'.status = resp.status := by
  unfold stage at h
  cases hook with
  | none => cases h; rfl
  | some hook =>
    rcases C114_continues h with ⟨-, rfl, -⟩ | ⟨a, -, -, h, -⟩
    · rfl
    · exact ha _ _ _ h

/-- **C116.** If neither stage for responses ends the request or fails, the client gets the status that the
router gave it. -/
theorem C116_status {δ : Type} {r : Router δ} {hs : Hooks} {q q' : Request} {c c' : Ctx} {b : Bool}
    (hq : stage applyRouterRequest hs.routerRequest c q = .cont q' c' b)
    (h1 : ∀ c x, ∃ x' c' b, stage applyGraphqlResponse hs.graphqlResponse c x = .cont x' c' b)
    (h2 : ∀ c x, ∃ x' c' b, stage applyRouterResponse hs.routerResponse c x = .cont x' c' b) :
    (handle r hs q c).1.status = (r.finish (pipeline r hs q' c').1).status := by
  obtain ⟨c1, c2, mid, hl1, hl2⟩ := C116_response (r := r) hq
  obtain ⟨x1, d1, b1, e1⟩ := h1 c1 (r.finish (pipeline r hs q' c').1)
  obtain ⟨x2, d2, b2, e2⟩ := h2 c2 mid
  rw [e1] at hl1
  rw [e2] at hl2
  have s1 := stage_status (fun _ _ _ h => (C114_graphql_response h).1) e1
  have s2 := stage_status (fun _ _ _ h => (C114_response h).1) e2
  simp only [Left] at hl1 hl2
  rw [hl2, s2, hl1, s1]

end Verif.Coproc
