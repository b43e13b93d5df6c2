import Verif.Cors.Model
import Verif.Headers.RuleLemmas
import Verif.Headers.CacheLemmas

/-!
# C15: CORS headers are only issued to allowed origins
-/

namespace Verif.Cors

open Verif.Headers

/-! ## Specification -/

/-- A policy of the configuration lists the origin or matches it. -/
def Allows (p : PolicyConfig) (o : Text) : Prop :=
  (∃ os, p.origins = some os ∧ o ∈ os) ∨ (∃ rs, p.matchOrigin = some rs ∧ ∃ r ∈ rs, r o = true)

/-- The configuration allows the origin. -/
def Allowed (c : Config) (o : Text) : Prop :=
  c.allowAnyOrigin = true ∨ ∃ p ∈ c.policies, Allows p o

/-- `p` is the first policy that allows the origin. -/
def First (c : Config) (o : Text) (p : PolicyConfig) : Prop :=
  Allows p o ∧ ∃ before after, c.policies = before ++ p :: after ∧ ∀ q ∈ before, ¬ Allows q o

/-- The elements of the `Vary` lines of a response, lower-cased. -/
def varies (h : HeaderMap) : List Text :=
  (h.getAll "vary").flatMap fun line => (splitOn ',' line).map fun t => lower (trim t)

/-- The administrator has not set the header for preflight responses by hand. -/
def NotByHand (c : Config) (n : Name) : Prop :=
  c.preflight.getAll n = [] ∧ ∀ p ∈ c.policies, p.preflight.getAll n = []

/-! ## Lemmas -/

theorem matchesOrigin_iff (p : PolicyConfig) (g : Policy) (o : Text) :
    (compileRule p g).matchesOrigin o = true ↔ Allows p o := by
  unfold Rule.matchesOrigin compileRule Allows
  simp only
  split
  · rename_i h
    simp only [true_iff]
    left
    cases ho : p.origins with
    | none => simp [ho] at h
    | some os => exact ⟨os, rfl, by simpa [ho] using h⟩
  · rename_i h
    have hno : ¬ ∃ os, p.origins = some os ∧ o ∈ os := by
      rintro ⟨os, ho, hm⟩
      apply h
      simpa [ho] using hm
    cases hm : p.matchOrigin with
    | none => simp [hno]
    | some rs =>
      cases rs with
      | nil => simp [hno]
      | cons r rs =>
        simp only [hno, false_or, Option.some.injEq, exists_eq_left']
        rw [List.any_eq_true]

theorem find_spec (c : Config) (g : Policy) (o : Text) : ∀ ps : List PolicyConfig,
    match ((ps.map fun p => compileRule p g).find? fun r => r.matchesOrigin o) with
    | none => ∀ p ∈ ps, ¬ Allows p o
    | some r => ∃ p before after, r = compileRule p g ∧ ps = before ++ p :: after ∧
        Allows p o ∧ ∀ q ∈ before, ¬ Allows q o := by
  intro ps
  induction ps with
  | nil => simp
  | cons p ps ih =>
    rw [List.map_cons, List.find?_cons]
    cases h : (compileRule p g).matchesOrigin o with
    | true =>
      simp only
      exact ⟨p, [], ps, rfl, rfl, (matchesOrigin_iff p g o).1 h, by simp⟩
    | false =>
      have hn : ¬ Allows p o := by rw [← matchesOrigin_iff p g, h]; simp
      simp only
      generalize ((ps.map fun p => compileRule p g).find? fun r => r.matchesOrigin o) = f at ih ⊢
      cases f with
      | none =>
        intro q hq
        rcases List.mem_cons.1 hq with rfl | hq
        · exact hn
        · exact ih q hq
      | some r =>
        obtain ⟨q, b, a, h1, h2, h3, h4⟩ := ih
        refine ⟨q, p :: b, a, h1, by rw [h2]; rfl, h3, ?_⟩
        intro q' hq'
        rcases List.mem_cons.1 hq' with rfl | hq'
        · exact hn
        · exact h4 q' hq'

/-- The policy that is applied. -/
theorem find_policy {c : Config} {cors : Cors} (hc : fromConfig c = some cors) (o : Text) :
    (c.allowAnyOrigin = true ∧ cors.find o = some (globalPolicy c)) ∨
    (c.allowAnyOrigin = false ∧ (∃ p, First c o p ∧
      cors.find o = some (compilePolicy p (globalPolicy c)))) ∨
    (c.allowAnyOrigin = false ∧ (∀ p ∈ c.policies, ¬ Allows p o) ∧ cors.find o = none) := by
  unfold fromConfig at hc
  split at hc
  · simp at hc
  split at hc
  · rename_i h
    simp only [Option.some.injEq] at hc
    subst hc
    exact Or.inl ⟨h, rfl⟩
  · rename_i _ h
    right
    have hf := find_spec c (globalPolicy c) o c.policies
    have hcors : cors = .byOrigin (c.policies.map fun p => compileRule p (globalPolicy c)) := by
      generalize (c.policies.map fun p => compileRule p (globalPolicy c)) = rs at hc
      cases rs with
      | nil => simp at hc
      | cons r rs => simpa using hc.symm
    subst hcors
    simp only [Cors.find]
    generalize ((c.policies.map fun p => compileRule p (globalPolicy c)).find?
      fun r => r.matchesOrigin o) = f at hf ⊢
    cases f with
    | none => exact Or.inr ⟨by simpa using h, hf, rfl⟩
    | some r =>
      obtain ⟨p, b, a, h1, h2, h3, h4⟩ := hf
      exact Or.inl ⟨by simpa using h, p, ⟨h3, b, a, h2, h4⟩, by rw [h1]; rfl⟩

theorem find_allowed {c : Config} {cors : Cors} (hc : fromConfig c = some cors) (o : Text) :
    (∃ p, cors.find o = some p) ↔ Allowed c o := by
  unfold Allowed
  rcases find_policy hc o with ⟨h1, h2⟩ | ⟨h1, p, h2, h3⟩ | ⟨h1, h2, h3⟩
  · simp [h1, h2]
  · obtain ⟨ha, b, a, hp, _⟩ := h2
    simp only [h3, Option.some.injEq, exists_eq', true_iff]
    right
    exact ⟨p, by rw [hp]; simp, ha⟩
  · simp only [h3, reduceCtorEq, exists_false, false_iff, not_or, not_exists, not_and]
    exact ⟨by simp [h1], h2⟩

theorem toStr_some {v o : Text} (h : toStr v = some o) : o = v := by
  unfold toStr at h
  split at h
  · simpa using h.symm
  · simp at h

theorem appendVary_other (h : HeaderMap) (t : Text) (n : Name) (hn : n ≠ "vary") :
    (appendVary h t).getAll n = h.getAll n := by
  unfold appendVary
  cases (h.get "vary").bind toStr with
  | none =>
    simp only
    cases fromStr t with
    | none => rfl
    | some v => simp only; rw [getAll_insert, if_neg (Ne.symm hn)]
  | some existing =>
    simp only
    split
    · rfl
    · generalize (if existing = [] then fromStr t else fromStr (existing ++ [',', ' '] ++ t)) = x
      cases x with
      | none => rfl
      | some v => simp only; rw [getAll_insert, if_neg (Ne.symm hn)]

theorem applyOrigin_origin (h : HeaderMap) (o : Text) :
    (applyOrigin h o).getAll "access-control-allow-origin" = [o] := by
  unfold applyOrigin
  simp only
  split
  · rw [appendVary_other _ _ _ (by decide), getAll_insert, if_pos rfl]
  · rw [getAll_insert, if_pos rfl]

theorem applyOrigin_other (h : HeaderMap) (o : Text) (n : Name) (hn : n ≠ "vary")
    (hn' : n ≠ "access-control-allow-origin") : (applyOrigin h o).getAll n = h.getAll n := by
  unfold applyOrigin
  simp only
  split
  · rw [appendVary_other _ _ _ hn, getAll_insert, if_neg (Ne.symm hn')]
  · rw [getAll_insert, if_neg (Ne.symm hn')]

theorem applyMethods_other (p : Policy) (req : Req) (h : HeaderMap) (n : Name)
    (hn : n ≠ "access-control-allow-methods") : (applyMethods p req h).getAll n = h.getAll n := by
  unfold applyMethods
  cases p.methods with
  | some v => simp only; rw [getAll_insert, if_neg (Ne.symm hn)]
  | none =>
    simp only
    cases req.headers.get "access-control-request-method" with
    | some v => simp only; rw [getAll_insert, if_neg (Ne.symm hn)]
    | none => rfl

theorem applyHeaders_other (p : Policy) (req : Req) (h : HeaderMap) (n : Name)
    (hn : n ≠ "access-control-allow-headers") (hv : n ≠ "vary") :
    (applyHeaders p req h).getAll n = h.getAll n := by
  unfold applyHeaders
  cases p.allowHeaders with
  | some v => simp only; rw [getAll_insert, if_neg (Ne.symm hn)]
  | none =>
    simp only
    cases req.headers.get "access-control-request-headers" with
    | some v => simp only; rw [appendVary_other _ _ _ hv, getAll_insert, if_neg (Ne.symm hn)]
    | none => rfl

theorem insertOpt_other (h : HeaderMap) (m n : Name) (v : Option Text) (hn : n ≠ m) :
    (insertOpt h m v).getAll n = h.getAll n := by
  cases v with
  | none => rfl
  | some v => simp only [insertOpt]; rw [getAll_insert, if_neg (Ne.symm hn)]

theorem foldl_insert_other (n : Name) : ∀ (l h : HeaderMap), l.getAll n = [] →
    HeaderMap.getAll (l.foldl (fun h e => h.insert e.1 e.2) h) n = h.getAll n := by
  intro l
  induction l with
  | nil => intro h _; rfl
  | cons e l ih =>
    intro h hl
    rw [List.foldl_cons]
    have he : e.1 ≠ n := by
      intro he
      simp [HeaderMap.getAll, he] at hl
    have hl' : HeaderMap.getAll l n = [] := by
      simpa [HeaderMap.getAll, he] using hl
    rw [ih _ hl', getAll_insert, if_neg he]

theorem preflight_other (p : Policy) (req : Req) (h : HeaderMap) (n : Name)
    (hn : req.isOptions = false ∨ p.preflight.getAll n = []) :
    (applyPreflight p req h).getAll n = h.getAll n := by
  unfold applyPreflight
  split
  · rename_i ho
    rcases hn with hn | hn
    · rw [hn] at ho; simp at ho
    · exact foldl_insert_other n _ _ hn
  · rfl

/-- The preflight headers of the applied policy come from the configuration. -/
theorem preflight_config {c : Config} {cors : Cors} (hc : fromConfig c = some cors) {o : Text}
    {p : Policy} (hp : cors.find o = some p) (n : Name) (hn : NotByHand c n) :
    p.preflight.getAll n = [] := by
  rcases find_policy hc o with ⟨_, h2⟩ | ⟨_, q, h2, h3⟩ | ⟨_, _, h3⟩
  · rw [hp] at h2
    simp only [Option.some.injEq] at h2
    rw [h2]; exact hn.1
  · rw [hp] at h3
    simp only [Option.some.injEq] at h3
    obtain ⟨_, b, a, hq, _⟩ := h2
    rw [h3]
    simp only [compilePolicy, mergePreflight, globalPolicy]
    split
    · exact hn.1
    · show HeaderMap.getAll (c.preflight ++ q.preflight) n = []
      rw [getAll_append, hn.1, hn.2 q (by rw [hq]; simp)]
      rfl
  · rw [hp] at h3; simp at h3

theorem splitOn_ne (c : Char) (t : Text) : splitOn c t ≠ [] := by
  cases t with
  | nil => simp [splitOn]
  | cons x t =>
    rw [splitOn]
    split
    · simp
    · split <;> simp

theorem splitOn_app (c : Char) (b : Text) : ∀ a : Text,
    splitOn c (a ++ c :: b) = splitOn c a ++ splitOn c b := by
  intro a
  induction a with
  | nil => simp [splitOn]
  | cons x a ih =>
    rw [List.cons_append, splitOn, splitOn]
    split
    · rw [ih]; rfl
    · rw [ih]
      cases h : splitOn c a with
      | nil => exact absurd h (splitOn_ne c a)
      | cons y ys => rfl

theorem getAll_of_get_none {h : HeaderMap} {n : Name} (hg : h.get n = none) : h.getAll n = [] := by
  unfold HeaderMap.get at hg
  simpa using hg

theorem fromStr_of {t : Text} (h : t.all (fun c => (32 ≤ c.toNat && c.toNat ≠ 127) || c = '\t') = true) :
    fromStr t = some t := by
  unfold fromStr; rw [if_pos h]

theorem visible_valid {v o : Text} (h : toStr v = some o) :
    v.all (fun c => (32 ≤ c.toNat && c.toNat ≠ 127) || c = '\t') = true := by
  unfold toStr at h
  split at h
  · rename_i hv
    rw [List.all_eq_true] at hv ⊢
    intro c hc
    have := hv c hc
    simp only [Bool.or_eq_true, Bool.and_eq_true, decide_eq_true_eq] at this ⊢
    rcases this with ⟨h1, h2⟩ | h
    · exact Or.inl ⟨h1, by omega⟩
    · exact Or.inr h
  · simp at h

/-- The result of `append_vary` for a well-formed response with at most one `Vary` line. -/
theorem appendVary_spec (h : HeaderMap) (t : Text) (ht : toStr t = some t) (hc : ',' ∉ t)
    (hs : ∀ x ∈ t, isSpace x = false)
    (hone : h.getAll "vary" = [] ∨ ∃ l, h.getAll "vary" = [l] ∧ toStr l = some l ∧ l ≠ []) :
    varies (appendVary h t) = if lower t ∈ varies h then varies h else varies h ++ [lower t] := by
  have hval : varies (h.insert "vary" t) = [lower t] := by
    unfold varies
    rw [getAll_insert, if_pos rfl]
    simp [splitOn_no ',' t hc, trim_clean hs]
  have hft : fromStr t = some t := fromStr_of (visible_valid ht)
  unfold appendVary
  rcases hone with hnone | ⟨l, hl, hvis, hne⟩
  · have hg : h.get "vary" = none := by unfold HeaderMap.get; rw [hnone]; rfl
    have hv : varies h = [] := by unfold varies; rw [hnone]; rfl
    rw [hg]
    simp only [Option.bind_none, hft]
    rw [hval, hv]; simp
  · have hg : h.get "vary" = some l := by unfold HeaderMap.get; rw [hl]; rfl
    have hv : varies h = (splitOn ',' l).map fun t => lower (trim t) := by
      unfold varies; rw [hl]; simp
    rw [hg]
    simp only [Option.bind_some, hvis]
    have hiff : (splitOn ',' l).any (fun x => lower (trim x) == lower t) = true ↔
        lower t ∈ varies h := by
      rw [hv, List.any_eq_true, List.mem_map]
      simp
    by_cases hm : lower t ∈ varies h
    · rw [if_pos (hiff.2 hm), if_pos hm]
    · rw [if_neg (fun hx => hm (hiff.1 hx)), if_neg hm, if_neg hne]
      have : fromStr (l ++ [',', ' '] ++ t) = some (l ++ [',', ' '] ++ t) := by
        apply fromStr_of
        rw [List.all_append, List.all_append, visible_valid hvis, visible_valid ht]
        decide
      rw [this]
      simp only
      rw [hv]
      unfold varies
      rw [getAll_insert, if_pos rfl]
      have hsp : splitOn ',' (l ++ [',', ' '] ++ t) = splitOn ',' l ++ [' ' :: t] := by
        rw [show l ++ [',', ' '] ++ t = l ++ ',' :: (' ' :: t) by simp, splitOn_app,
          splitOn_no ',' (' ' :: t) (by simp [hc])]
      simp only [List.flatMap_cons, List.flatMap_nil, List.append_nil]
      rw [hsp, List.map_append]
      simp [trim_space, trim_clean hs]

theorem first_aux (o : Text) (p q : PolicyConfig) (hp : Allows p o) (hq : Allows q o) :
    ∀ (b b' a a' : List PolicyConfig), (∀ x ∈ b, ¬ Allows x o) → (∀ x ∈ b', ¬ Allows x o) →
    b ++ p :: a = b' ++ q :: a' → p = q := by
  intro b
  induction b with
  | nil =>
    intro b' a a' _ h2' he
    cases b' with
    | nil => simp only [List.nil_append, List.cons.injEq] at he; exact he.1
    | cons x b' =>
      simp only [List.nil_append, List.cons_append, List.cons.injEq] at he
      exact absurd hp (by rw [he.1]; exact h2' x (by simp))
  | cons x b ih =>
    intro b' a a' h2 h2' he
    cases b' with
    | nil =>
      simp only [List.nil_append, List.cons_append, List.cons.injEq] at he
      exact absurd hq (by rw [← he.1]; exact h2 x (by simp))
    | cons y b' =>
      simp only [List.cons_append, List.cons.injEq] at he
      exact ih b' a a' (fun z hz => h2 z (by simp [hz])) (fun z hz => h2' z (by simp [hz])) he.2

/-- There is one first policy. -/
theorem first_unique (c : Config) (o : Text) (p q : PolicyConfig) (hp : First c o p)
    (hq : First c o q) : p = q := by
  obtain ⟨hp, b, a, h1, h2⟩ := hp
  obtain ⟨hq, b', a', h1', h2'⟩ := hq
  exact first_aux o p q hp hq b b' a a' h2 h2' (by rw [← h1, h1'])

/-- At most one `Vary` line, visible and not empty. -/
def OneVary (h : HeaderMap) : Prop :=
  h.getAll "vary" = [] ∨ ∃ l, h.getAll "vary" = [l] ∧ toStr l = some l ∧ l ≠ []

theorem toStr_append {a b : Text} (ha : toStr a = some a) (hb : toStr b = some b) :
    toStr (a ++ b) = some (a ++ b) := by
  unfold toStr at *
  split at ha
  · split at hb
    · rename_i h1 h2
      rw [List.all_append, h1, h2]; rfl
    · simp at hb
  · simp at ha

theorem appendVary_one (h : HeaderMap) (t : Text) (ht : toStr t = some t) (hne : t ≠ [])
    (hone : OneVary h) : OneVary (appendVary h t) := by
  have hft : fromStr t = some t := fromStr_of (visible_valid ht)
  unfold appendVary
  rcases hone with hnone | ⟨l, hl, hvis, hnl⟩
  · have hg : h.get "vary" = none := by unfold HeaderMap.get; rw [hnone]; rfl
    rw [hg]
    simp only [Option.bind_none, hft]
    exact Or.inr ⟨t, by rw [getAll_insert, if_pos rfl], ht, hne⟩
  · have hg : h.get "vary" = some l := by unfold HeaderMap.get; rw [hl]; rfl
    rw [hg]
    simp only [Option.bind_some, hvis]
    split
    · exact Or.inr ⟨l, hl, hvis, hnl⟩
    · have hv : toStr (l ++ [',', ' '] ++ t) = some (l ++ [',', ' '] ++ t) :=
        toStr_append (toStr_append hvis (by decide)) ht
      rw [fromStr_of (visible_valid hv)]
      exact Or.inr ⟨_, by rw [getAll_insert, if_pos rfl], hv, by simp⟩

theorem varies_congr {h g : HeaderMap} (he : h.getAll "vary" = g.getAll "vary") :
    varies h = varies g := by unfold varies; rw [he]

theorem oneVary_congr {h g : HeaderMap} (he : h.getAll "vary" = g.getAll "vary") :
    OneVary h ↔ OneVary g := by unfold OneVary; rw [he]

/-! ## Theorems -/

/-- The origin as the configuration sees it: a header that is not visible ASCII counts as empty. -/
def seen (o : Text) : Text := (toStr o).getD []

/-- **C15**, origin: `Access-Control-Allow-Origin` is the origin of the request if a policy allows
it and `null` otherwise, whatever the response said before. (Exception: a value set by hand for
preflight responses.) -/
theorem C15_origin (c : Config) (cors : Cors) (hc : fromConfig c = some cors) (req : Req)
    (h : HeaderMap) (o : Text) (ho : req.headers.get "origin" = some o)
    (hand : req.isOptions = false ∨ NotByHand c "access-control-allow-origin") :
    (Allowed c (seen o) → (cors.setHeaders req h).getAll "access-control-allow-origin" = [o]) ∧
    (¬ Allowed c (seen o) →
      (cors.setHeaders req h).getAll "access-control-allow-origin" = ["null".toList]) := by
  have hfa := find_allowed hc (seen o)
  unfold Cors.setHeaders
  rw [ho]
  show (_ → HeaderMap.getAll (match cors.find (seen o) with
      | some p => p.applyTo req h o
      | none => h.insert "access-control-allow-origin" nullText) _ = _) ∧
    (_ → HeaderMap.getAll (match cors.find (seen o) with
      | some p => p.applyTo req h o
      | none => h.insert "access-control-allow-origin" nullText) _ = _)
  cases hf : cors.find (seen o) with
  | some p =>
    rw [hf] at hfa
    refine ⟨fun _ => ?_, fun hn => absurd (hfa.1 ⟨p, rfl⟩) hn⟩
    simp only [Policy.applyTo]
    rw [preflight_other, insertOpt_other _ _ _ _ (by decide), insertOpt_other _ _ _ _ (by decide),
      insertOpt_other _ _ _ _ (by decide), applyHeaders_other _ _ _ _ (by decide) (by decide),
      applyMethods_other _ _ _ _ (by decide), applyOrigin_origin]
    exact hand.imp id fun hb => preflight_config hc hf _ hb
  | none =>
    rw [hf] at hfa
    refine ⟨fun ha => by simpa using hfa.2 ha, fun _ => ?_⟩
    simp only
    rw [getAll_insert, if_pos rfl]
    rfl

/-- **C15** fails for the origin `null` (sandboxed frames, `data:` documents, some redirects): it is
told `Access-Control-Allow-Origin: null`, which a browser takes as permission, although no policy
allows it, in every configuration by origin. -/
theorem C15_null_origin_allowed (c : Config) (cors : Cors) (hc : fromConfig c = some cors)
    (req : Req) (h : HeaderMap) (ho : req.headers.get "origin" = some "null".toList)
    (hn : ¬ Allowed c "null".toList)
    (hand : req.isOptions = false ∨ NotByHand c "access-control-allow-origin") :
    (cors.setHeaders req h).getAll "access-control-allow-origin" = ["null".toList] := by
  have := (C15_origin c cors hc req h _ ho hand).2
  have hs : seen "null".toList = "null".toList := by decide
  rw [hs] at this
  exact this hn

/-- **C15**, the promise as it stands: an origin other than `null` is echoed only if allowed. -/
theorem C15_echo_only_allowed_partial (c : Config) (cors : Cors) (hc : fromConfig c = some cors)
    (req : Req) (h : HeaderMap) (o : Text) (ho : req.headers.get "origin" = some o)
    (hand : req.isOptions = false ∨ NotByHand c "access-control-allow-origin")
    (hnull : o ≠ "null".toList)
    (he : o ∈ (cors.setHeaders req h).getAll "access-control-allow-origin") :
    Allowed c (seen o) := by
  by_cases ha : Allowed c (seen o)
  · exact ha
  · rw [(C15_origin c cors hc req h o ho hand).2 ha] at he
    simp only [List.mem_singleton] at he
    exact absurd he hnull

/-- **C15**: without an `Origin` header, or with CORS disabled or without policies, nothing is
added. -/
theorem C15_no_origin (c : Config) (pipeline : Req → Resp) (req : Req)
    (h : fromConfig c = none ∨ (req.headers.get "origin" = none ∧ req.isOptions = false)) :
    handle (fromConfig c) pipeline req = pipeline req := by
  rcases h with h | ⟨h, ho⟩
  · rw [h]; rfl
  · unfold handle
    cases fromConfig c with
    | none => rfl
    | some cors => simp [ho, Cors.setHeaders, h]

theorem C15_disabled (c : Config) : fromConfig c = none ↔
    c.enabled = false ∨ (c.allowAnyOrigin = false ∧ c.policies = []) := by
  unfold fromConfig
  split
  · rename_i h; simp [h]
  · rename_i h
    split
    · rename_i h2; simp [h, h2]
    · rename_i h2
      cases hp : c.policies with
      | nil => simp [h2]
      | cons p ps => simp [h]

/-- **C15**, credentials: a response of the pipeline without the header gets
`Access-Control-Allow-Credentials` iff the origin is allowed, and credentials are allowed for all or
by the first policy that allows the origin; its value is `true`. -/
theorem C15_credentials (c : Config) (cors : Cors) (hc : fromConfig c = some cors) (req : Req)
    (h : HeaderMap) (o : Text) (ho : req.headers.get "origin" = some o)
    (hand : req.isOptions = false ∨ NotByHand c "access-control-allow-credentials")
    (hresp : h.getAll "access-control-allow-credentials" = []) :
    (((cors.setHeaders req h).getAll "access-control-allow-credentials" = ["true".toList] ∧
      Allowed c (seen o) ∧ (c.allowCredentials = true ∨
        (c.allowAnyOrigin = false ∧ ∃ p, First c (seen o) p ∧ p.allowCredentials = some true))) ∨
    ((cors.setHeaders req h).getAll "access-control-allow-credentials" = [] ∧
      ¬ (Allowed c (seen o) ∧ (c.allowCredentials = true ∨
        (c.allowAnyOrigin = false ∧ ∃ p, First c (seen o) p ∧ p.allowCredentials = some true))))) := by
  have key : ∀ p, cors.find (seen o) = some p →
      (cors.setHeaders req h).getAll "access-control-allow-credentials" = p.allowCredentials.toList := by
    intro p hp
    unfold Cors.setHeaders
    rw [ho]
    show HeaderMap.getAll (match cors.find (seen o) with
      | some p => p.applyTo req h o
      | none => h.insert "access-control-allow-origin" nullText) _ = _
    rw [hp]
    simp only [Policy.applyTo]
    rw [preflight_other _ _ _ _ (hand.imp id fun hb => preflight_config hc hp _ hb),
      insertOpt_other _ _ _ _ (by decide), insertOpt_other _ _ _ _ (by decide)]
    cases p.allowCredentials with
    | some v => simp only [insertOpt]; rw [getAll_insert, if_pos rfl]; rfl
    | none =>
      simp only [insertOpt]
      rw [applyHeaders_other _ _ _ _ (by decide) (by decide),
        applyMethods_other _ _ _ _ (by decide), applyOrigin_other _ _ _ (by decide) (by decide),
        hresp]
      rfl
  have hfa := find_allowed hc (seen o)
  have huniq := first_unique c (seen o)
  rcases find_policy hc (seen o) with ⟨h1, h2⟩ | ⟨h1, p, h2, h3⟩ | ⟨h1, h2, h3⟩
  · rw [key _ h2]
    have ha : Allowed c (seen o) := hfa.1 ⟨_, h2⟩
    simp only [globalPolicy]
    cases hcr : c.allowCredentials with
    | true => left; exact ⟨rfl, ha, Or.inl rfl⟩
    | false => right; exact ⟨rfl, by simp [h1]⟩
  · rw [key _ h3]
    have ha : Allowed c (seen o) := hfa.1 ⟨_, h3⟩
    simp only [compilePolicy, globalPolicy]
    by_cases hp : p.allowCredentials = some true
    · rw [if_pos hp]
      left; exact ⟨rfl, ha, Or.inr ⟨h1, p, h2, hp⟩⟩
    · rw [if_neg hp]
      cases hcr : c.allowCredentials with
      | true => left; exact ⟨rfl, ha, Or.inl rfl⟩
      | false =>
        right
        refine ⟨rfl, ?_⟩
        rintro ⟨_, hx | ⟨_, q, hq, hqt⟩⟩
        · simp at hx
        · rw [huniq q p hq h2] at hqt; exact hp hqt
  · right
    have hna : ¬ Allowed c (seen o) := by
      rw [← hfa, h3]; simp
    refine ⟨?_, fun hx => hna hx.1⟩
    unfold Cors.setHeaders
    rw [ho]
    show HeaderMap.getAll (match cors.find (seen o) with
      | some p => p.applyTo req h o
      | none => h.insert "access-control-allow-origin" nullText) _ = _
    rw [h3]
    simp only
    rw [getAll_insert, if_neg (by decide), hresp]

/-- A policy cannot take back credentials that are allowed for all: `allow_credentials: false` in a
policy has no effect if the global setting is `true`. -/
theorem C15_credentials_not_revocable (p : PolicyConfig) (c : Config) (h : c.allowCredentials = true) :
    (compilePolicy { p with allowCredentials := some false } (globalPolicy c)).allowCredentials =
      some "true".toList := by
  simp [compilePolicy, globalPolicy, h]; rfl

/-- **C15**, preflight: with CORS on, an `OPTIONS` request gets `204` without the pipeline being
run. -/
theorem C15_preflight (cors : Cors) (pipeline : Req → Resp) (req : Req) (h : req.isOptions = true) :
    (handle (some cors) pipeline req).status = 204 ∧
    ∀ other, handle (some cors) other req = handle (some cors) pipeline req := by
  unfold handle
  simp [h]

/-- **C15**, `Vary`: for an allowed origin other than `null`, a response with at most one (visible,
non-empty) `Vary` line says that it varies by `Origin`, exactly once if it did not say so before,
and keeps what the line said. -/
theorem C15_vary_partial (c : Config) (cors : Cors) (hc : fromConfig c = some cors) (req : Req)
    (h : HeaderMap) (o : Text) (ho : req.headers.get "origin" = some o) (ha : Allowed c (seen o))
    (hnull : o ≠ "null".toList)
    (hand : req.isOptions = false ∨ NotByHand c "vary")
    (hone : h.getAll "vary" = [] ∨ ∃ l, h.getAll "vary" = [l] ∧ toStr l = some l ∧ l ≠ []) :
    "origin".toList ∈ varies (cors.setHeaders req h) ∧
    (∀ t ∈ varies h, t ∈ varies (cors.setHeaders req h)) ∧
    ("origin".toList ∉ varies h → (varies (cors.setHeaders req h)).count "origin".toList = 1) := by
  obtain ⟨p, hp⟩ := (find_allowed hc (seen o)).2 ha
  have hvar : varies (cors.setHeaders req h) =
      varies (applyHeaders p req (applyMethods p req (applyOrigin h o))) := by
    unfold Cors.setHeaders
    rw [ho]
    show varies (match cors.find (seen o) with
      | some p => p.applyTo req h o
      | none => h.insert "access-control-allow-origin" nullText) = _
    rw [hp]
    unfold varies
    simp only [Policy.applyTo]
    rw [preflight_other _ _ _ _ (hand.imp id fun hb => preflight_config hc hp _ hb),
      insertOpt_other _ _ _ _ (by decide), insertOpt_other _ _ _ _ (by decide),
      insertOpt_other _ _ _ _ (by decide)]
  have hsp1 := fun (g : HeaderMap) => appendVary_spec g originToken (by decide) (by decide)
    (by decide)
  have hsp2 := fun (g : HeaderMap) => appendVary_spec g requestHeadersToken (by decide) (by decide)
    (by decide)
  have hl1 : lower originToken = "origin".toList := by decide
  have hl2 : lower requestHeadersToken ≠ "origin".toList := by decide
  -- after the origin
  have hi : (h.insert "access-control-allow-origin" o).getAll "vary" = h.getAll "vary" := by
    rw [getAll_insert, if_neg (by decide)]
  have h1v : varies (applyOrigin h o) =
      if "origin".toList ∈ varies h then varies h else varies h ++ ["origin".toList] := by
    unfold applyOrigin
    simp only
    rw [if_pos (show o ≠ nullText from hnull), hsp1 _ ((oneVary_congr hi).2 hone), hl1, varies_congr hi]
  have h1o : OneVary (applyOrigin h o) := by
    unfold applyOrigin
    simp only
    rw [if_pos (show o ≠ nullText from hnull)]
    exact appendVary_one _ _ (by decide) (by decide) ((oneVary_congr hi).2 hone)
  have hm : (applyMethods p req (applyOrigin h o)).getAll "vary" =
      (applyOrigin h o).getAll "vary" := applyMethods_other _ _ _ _ (by decide)
  have h2v := varies_congr hm
  have h2o := (oneVary_congr hm).2 h1o
  generalize applyMethods p req (applyOrigin h o) = g at *
  -- after the allowed headers
  have h3v : varies (applyHeaders p req g) = varies g ∨
      varies (applyHeaders p req g) = varies g ++ [lower requestHeadersToken] := by
    unfold applyHeaders
    cases p.allowHeaders with
    | some v =>
      left; simp only
      exact varies_congr (by rw [getAll_insert, if_neg (by decide)])
    | none =>
      simp only
      cases req.headers.get "access-control-request-headers" with
      | none => left; rfl
      | some v =>
        simp only
        have hi2 : (g.insert "access-control-allow-headers" v).getAll "vary" = g.getAll "vary" := by
          rw [getAll_insert, if_neg (by decide)]
        rw [hsp2 _ ((oneVary_congr hi2).2 h2o), varies_congr hi2]
        split
        · left; rfl
        · right; rfl
  have h4 : ∀ t ∈ varies g, t ∈ varies (applyHeaders p req g) := by
    intro t ht
    rcases h3v with h3 | h3 <;> rw [h3]
    · exact ht
    · exact List.mem_append_left _ ht
  have h5 : (varies (applyHeaders p req g)).count "origin".toList =
      (varies g).count "origin".toList := by
    rcases h3v with h3 | h3 <;> rw [h3]
    rw [List.count_append, List.count_cons_of_ne hl2, List.count_nil]; rfl
  rw [hvar]
  rw [h2v, h1v] at h4 h5
  refine ⟨h4 _ ?_, fun t ht => h4 t ?_, ?_⟩
  · split
    · assumption
    · exact List.mem_append_right _ (List.mem_singleton.2 rfl)
  · split
    · exact ht
    · exact List.mem_append_left _ ht
  · intro hno
    rw [h5, if_neg hno, List.count_append, List.count_eq_zero.2 hno, List.count_cons_self]; rfl

/-- Without a policy for the origin the response depends on the `Origin` header and does not say
so: `Vary` is left as it was. -/
theorem C15_unmatched_no_vary (c : Config) (cors : Cors) (hc : fromConfig c = some cors) (req : Req)
    (h : HeaderMap) (hn : ∀ o, req.headers.get "origin" = some o → ¬ Allowed c (seen o)) :
    varies (cors.setHeaders req h) = varies h := by
  unfold Cors.setHeaders
  cases ho : req.headers.get "origin" with
  | none => rfl
  | some o =>
    have hf : cors.find (seen o) = none := by
      cases hf : cors.find (seen o) with
      | none => rfl
      | some p => exact absurd ((find_allowed hc (seen o)).1 ⟨p, hf⟩) (hn o ho)
    show varies (match cors.find (seen o) with
      | some p => p.applyTo req h o
      | none => h.insert "access-control-allow-origin" nullText) = _
    rw [hf]
    exact varies_congr (by rw [getAll_insert, if_neg (by decide)])

/-- The administrator gave a list, and it makes a header. -/
def Given (l : Option (List Text)) (v : Text) : Prop :=
  ∃ m ms, l = some (m :: ms) ∧ v = joinComma (m :: ms) ∧
    ∀ c ∈ v, (32 ≤ c.toNat ∧ c.toNat ≠ 127) ∨ c = '\t'

theorem valueFromList_iff (l : Option (List Text)) (v : Text) :
    valueFromList l = some v ↔ Given l v := by
  unfold valueFromList Given
  match l with
  | none => simp
  | some [] => simp
  | some (m :: ms) =>
    simp only [Option.some.injEq, List.cons.injEq]
    unfold fromStr
    constructor
    · intro h
      split at h
      · rename_i hv
        simp only [Option.some.injEq] at h
        subst h
        exact ⟨m, ms, ⟨rfl, rfl⟩, rfl, fun c hc => by simpa using (List.all_eq_true.1 hv) c hc⟩
      · simp at h
    · rintro ⟨_, _, ⟨rfl, rfl⟩, rfl, hv⟩
      rw [if_pos]
      rw [List.all_eq_true]
      intro c hc
      simpa using hv c hc

/-- What an allowed origin is told about methods, and in the same way about headers. -/
structure Told (req : Req) (mine every : Option (List Text)) (ask : Name) (before after : List Text) :
    Prop where
  /-- The list of the policy. -/
  own : ∀ v, Given mine v → after = [v]
  /-- Without it, the list for all policies. -/
  all : (∀ v, ¬ Given mine v) → ∀ v, Given every v → after = [v]
  /-- Without both, what the browser asks for. -/
  echo : (∀ v, ¬ Given mine v) → (∀ v, ¬ Given every v) → ∀ v, req.headers.get ask = some v → after = [v]
  /-- If it asks for nothing, the header of the response stays. -/
  stay : (∀ v, ¬ Given mine v) → (∀ v, ¬ Given every v) → req.headers.get ask = none → after = before

theorem told_of (req : Req) (own all : Option (List Text)) (ask : Name) (before after : List Text)
    (h : after = match (valueFromList own).or (valueFromList all) with
      | some v => [v]
      | none => match req.headers.get ask with
        | some v => [v]
        | none => before) : Told req own all ask before after := by
  subst h
  have none_of : ∀ l, (∀ v, ¬ Given l v) → valueFromList l = none := by
    intro l hl
    cases hv : valueFromList l with
    | none => rfl
    | some v => exact absurd ((valueFromList_iff l v).1 hv) (hl v)
  constructor
  · intro v hv
    rw [(valueFromList_iff own v).2 hv]; rfl
  · intro hn v hv
    rw [none_of own hn, (valueFromList_iff all v).2 hv]; rfl
  · intro hn hn2 v hv
    rw [none_of own hn, none_of all hn2]
    simp only [Option.or_none, hv]
  · intro hn hn2 hv
    rw [none_of own hn, none_of all hn2]
    simp only [Option.or_none, hv]

/-- **C15**, allowed methods and headers: the lists of the first policy that allows the origin;
without them the lists for all; without these, what the browser asks for. -/
theorem C15_methods_headers (c : Config) (cors : Cors) (hc : fromConfig c = some cors) (req : Req)
    (h : HeaderMap) (o : Text) (ho : req.headers.get "origin" = some o)
    (hany : c.allowAnyOrigin = false) (p : PolicyConfig) (hp : First c (seen o) p)
    (hm : req.isOptions = false ∨ NotByHand c "access-control-allow-methods")
    (hh : req.isOptions = false ∨ NotByHand c "access-control-allow-headers") :
    Told req p.methods c.methods "access-control-request-method"
      (h.getAll "access-control-allow-methods")
      ((cors.setHeaders req h).getAll "access-control-allow-methods") ∧
    Told req p.allowHeaders c.allowHeaders "access-control-request-headers"
      (h.getAll "access-control-allow-headers")
      ((cors.setHeaders req h).getAll "access-control-allow-headers") := by
  have hf : cors.find (seen o) = some (compilePolicy p (globalPolicy c)) := by
    rcases find_policy hc (seen o) with ⟨h1, _⟩ | ⟨_, q, h2, h3⟩ | ⟨_, h2, _⟩
    · rw [hany] at h1; simp at h1
    · rw [first_unique c (seen o) p q hp h2, h3]
    · obtain ⟨ha, b, a, hb, _⟩ := hp
      exact absurd ha (h2 p (by rw [hb]; simp))
  have hset : cors.setHeaders req h = (compilePolicy p (globalPolicy c)).applyTo req h o := by
    unfold Cors.setHeaders
    rw [ho]
    show (match cors.find (seen o) with
      | some p => p.applyTo req h o
      | none => h.insert "access-control-allow-origin" nullText) = _
    rw [hf]
  rw [hset]
  simp only [Policy.applyTo]
  constructor
  · apply told_of
    rw [preflight_other _ _ _ _ (hm.imp id fun hb => preflight_config hc hf _ hb),
      insertOpt_other _ _ _ _ (by decide), insertOpt_other _ _ _ _ (by decide),
      insertOpt_other _ _ _ _ (by decide), applyHeaders_other _ _ _ _ (by decide) (by decide)]
    unfold applyMethods
    simp only [compilePolicy, globalPolicy]
    cases (valueFromList p.methods).or (valueFromList c.methods) with
    | some v => simp only; rw [getAll_insert, if_pos rfl]
    | none =>
      simp only
      cases req.headers.get "access-control-request-method" with
      | some v => simp only; rw [getAll_insert, if_pos rfl]
      | none => simp only; rw [applyOrigin_other _ _ _ (by decide) (by decide)]
  · apply told_of
    rw [preflight_other _ _ _ _ (hh.imp id fun hb => preflight_config hc hf _ hb),
      insertOpt_other _ _ _ _ (by decide), insertOpt_other _ _ _ _ (by decide),
      insertOpt_other _ _ _ _ (by decide)]
    unfold applyHeaders
    simp only [compilePolicy, globalPolicy]
    cases (valueFromList p.allowHeaders).or (valueFromList c.allowHeaders) with
    | some v => simp only; rw [getAll_insert, if_pos rfl]
    | none =>
      simp only
      cases req.headers.get "access-control-request-headers" with
      | some v => simp only; rw [appendVary_other _ _ _ (by decide), getAll_insert, if_pos rfl]
      | none =>
        simp only
        rw [applyMethods_other _ _ _ _ (by decide), applyOrigin_other _ _ _ (by decide) (by decide)]

/-! ### Examples and counterexamples -/

namespace Example

/-- One policy for `https://a`, one pattern for origins ending in `b`, with credentials. -/
def config : Config where
  enabled := true
  policies := [{ origins := some ["https://a".toList] },
    { matchOrigin := some [fun o => o.getLast? == some 'b'], allowCredentials := some true }]
  methods := some ["GET".toList, "POST".toList]

def request (origin : String) (options : Bool) : Req :=
  ⟨options, [("origin", origin.toList), ("access-control-request-headers", "x".toList)]⟩

example : (fromConfig config).map (fun c => c.setHeaders (request "https://b" true) []) = some
    [("access-control-allow-origin", "https://b".toList),
     ("access-control-allow-methods", "GET, POST".toList),
     ("access-control-allow-headers", "x".toList),
     ("vary", "Origin, Access-Control-Request-Headers".toList),
     ("access-control-allow-credentials", "true".toList)] := by decide

example : Allowed config "https://b".toList ∧ ¬ Allowed config "https://c".toList := by
  constructor
  · exact Or.inr ⟨_, List.mem_cons_of_mem _ (List.mem_cons_self ..), Or.inr ⟨_, rfl, _,
      List.mem_cons_self .., by decide⟩⟩
  · rintro (h | ⟨p, hp, h⟩)
    · simp [config] at h
    · simp only [config, List.mem_cons, List.not_mem_nil, or_false] at hp
      rcases hp with rfl | rfl
      · rcases h with ⟨os, h1, h2⟩ | ⟨rs, h1, _⟩
        · simp only [Option.some.injEq] at h1; subst h1; revert h2; decide
        · simp at h1
      · rcases h with ⟨os, h1, h2⟩ | ⟨rs, h1, r, hr, h2⟩
        · simp at h1
        · simp only [Option.some.injEq] at h1; subst h1
          simp only [List.mem_singleton] at hr; subst hr
          revert h2; decide

/-- The `null` origin is let in although no policy allows it. -/
example : (fromConfig config).map (fun c => c.setHeaders (request "null" false) []) = some
    [("access-control-allow-origin", "null".toList)] := by decide

end Example

/-- With two `Vary` lines, what the second one says is lost. -/
theorem C15_second_vary_line_lost :
    (fromConfig Example.config).map (fun c => (c.setHeaders (Example.request "https://a" false)
      [("vary", "accept".toList), ("vary", "accept-language".toList)]).getAll "vary") =
      some ["accept, Origin, Access-Control-Request-Headers".toList] := by decide

end Verif.Cors
