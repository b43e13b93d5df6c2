import Verif.Csrf.Model

/-!
# C16: browser simple requests never get through CSRF prevention
-/

namespace Verif.Csrf

open Verif.Headers Verif.Cors

/-! ## Specification -/

/-- The media type of a `Content-Type` value: without parameters, in lower case. -/
def essence (ct : Text) : Text := lower (trim (ct.takeWhile (· ≠ ';')))

/-- The media types a browser sends to another site without asking first. -/
def Simple (ct : Text) : Prop :=
  essence ct = "application/x-www-form-urlencoded".toList ∨
  essence ct = "multipart/form-data".toList ∨ essence ct = "text/plain".toList

/-- A request a page of another site can have a browser send without a preflight, as far as its
headers go: none of the required headers, and no content type, or a simple one. -/
structure Forgeable (headers : HeaderMap) (c : Config) : Prop where
  noHeader : ∀ n ∈ c.requiredHeaders, headers.getAll n = []
  contentType : ∀ ct, headers.get "content-type" = some ct → Simple ct

/-- No white space at the start, as an HTTP parser leaves a value. -/
def Stripped (ct : Text) : Prop := ct.dropWhile isSpace = ct

/-! ## Lemmas -/

theorem dropWhile_suffix_trim (u : Text) (h : u.dropWhile isSpace = u) : ∃ r, u = trim u ++ r := by
  unfold trim
  rw [h]
  have : u.reverse = u.reverse.takeWhile isSpace ++ u.reverse.dropWhile isSpace :=
    (List.takeWhile_append_dropWhile ..).symm
  have h2 := congrArg List.reverse this
  rw [List.reverse_reverse, List.reverse_append] at h2
  exact ⟨_, h2⟩

theorem takeWhile_strip (ct : Text) (h : Stripped ct) :
    (ct.takeWhile (· ≠ ';')).dropWhile isSpace = ct.takeWhile (· ≠ ';') := by
  cases ct with
  | nil => rfl
  | cons x xs =>
    unfold Stripped at h
    by_cases hx : isSpace x
    · rw [List.dropWhile_cons_of_pos hx] at h
      have h1 := congrArg List.length h
      have h2 := (List.dropWhile_sublist isSpace (l := xs)).length_le
      simp only [List.length_cons] at h1
      omega
    · by_cases hs : x = ';'
      · subst hs; rfl
      · rw [List.takeWhile_cons_of_pos (by simpa using hs), List.dropWhile_cons_of_neg hx]

/-- The media type is a prefix of the header. -/
theorem essence_prefix (ct : Text) (h : Stripped ct) : (essence ct).isPrefixOf (lower ct) = true := by
  obtain ⟨r, hr⟩ := dropWhile_suffix_trim _ (takeWhile_strip ct h)
  have : ct = ct.takeWhile (· ≠ ';') ++ ct.dropWhile (· ≠ ';') :=
    (List.takeWhile_append_dropWhile ..).symm
  rw [List.isPrefixOf_iff_prefix]
  refine ⟨lower (r ++ ct.dropWhile (· ≠ ';')), ?_⟩
  unfold essence lower
  rw [← List.map_append]
  congr 1
  rw [← List.append_assoc, ← hr, ← this]

theorem simple_is (ct : Text) (h : Stripped ct) (hs : Simple ct) : isSimpleContentType ct = true := by
  have hp := essence_prefix ct h
  unfold isSimpleContentType nonPreflighted
  simp only [List.any_cons, List.any_nil, Bool.or_false, Bool.or_eq_true]
  rcases hs with hs | hs | hs <;> rw [hs] at hp <;> simp only [hp, true_or, or_true]

theorem containsKey_iff (h : HeaderMap) (n : Name) : containsKey h n = true ↔ h.getAll n ≠ [] := by
  unfold containsKey
  cases h.getAll n <;> simp

/-! ## Theorems -/

/-- **C16**, safety: with CSRF prevention on and a required header configured, no request another
site can have a browser send without a preflight goes on. -/
theorem C16_sound (c : Config) (hon : c.enabled = true) (hreq : c.requiredHeaders ≠ [])
    (headers : HeaderMap) (hstrip : ∀ ct, headers.get "content-type" = some ct → Stripped ct)
    (hf : Forgeable headers c) : passes headers c = false := by
  unfold passes
  rw [hon]
  have he : c.requiredHeaders.isEmpty = false := by
    cases hc : c.requiredHeaders with
    | nil => exact absurd hc hreq
    | cons => rfl
  rw [he]
  have hp : requiresPreflight headers = false := by
    unfold requiresPreflight
    cases hct : headers.get "content-type" with
    | none => rfl
    | some ct =>
      cases hv : toStr ct with
      | none => simp [hv]
      | some v =>
        have : v = ct := by
          unfold toStr at hv
          split at hv
          · simpa using hv.symm
          · simp at hv
        subst this
        simp only [Option.bind_some, hv, simple_is v (hstrip v hct) (hf.contentType v hct)]
        rfl
  rw [hp]
  simp only [Bool.not_true, Bool.or_self, Bool.false_eq_true, if_false]
  rw [List.any_eq_false]
  intro n hn hk
  exact (containsKey_iff headers n).1 hk (hf.noHeader n hn)

/-- **C16**, in full for what the check looks at: a request goes on iff the check is off, or has no
header to ask for, or the request has one of the required headers, or a visible content type that
does not start, in lower case, with a simple one. What is missing from the full claim: see
`C16_prefix_too_strict`. -/
theorem C16_exact_partial (c : Config) (headers : HeaderMap) :
    passes headers c = true ↔
      c.enabled = false ∨ c.requiredHeaders = [] ∨
      (∃ n ∈ c.requiredHeaders, headers.getAll n ≠ []) ∨
      ∃ ct, headers.get "content-type" = some ct ∧ toStr ct = some ct ∧
        ¬ ("application/x-www-form-urlencoded".toList <+: lower ct) ∧
        ¬ ("multipart/form-data".toList <+: lower ct) ∧ ¬ ("text/plain".toList <+: lower ct) := by
  have hp : requiresPreflight headers = true ↔
      ∃ ct, headers.get "content-type" = some ct ∧ toStr ct = some ct ∧
        ¬ ("application/x-www-form-urlencoded".toList <+: lower ct) ∧
        ¬ ("multipart/form-data".toList <+: lower ct) ∧ ¬ ("text/plain".toList <+: lower ct) := by
    unfold requiresPreflight
    cases hct : headers.get "content-type" with
    | none => simp
    | some ct =>
      cases hv : toStr ct with
      | none => simp [hv]
      | some v =>
        have : v = ct := by
          unfold toStr at hv
          split at hv
          · simpa using hv.symm
          · simp at hv
        subst this
        have h3 : isSimpleContentType v = true ↔
            ("application/x-www-form-urlencoded".toList <+: lower v) ∨
            ("multipart/form-data".toList <+: lower v) ∨ ("text/plain".toList <+: lower v) := by
          unfold isSimpleContentType nonPreflighted
          simp only [List.any_cons, List.any_nil, Bool.or_false, Bool.or_eq_true,
            List.isPrefixOf_iff_prefix]
        simp only [Option.bind_some, Option.some.injEq, hv]
        rw [Bool.not_eq_true', ← Bool.not_eq_true, h3]
        constructor
        · intro h
          exact ⟨v, rfl, hv, fun h1 => h (Or.inl h1), fun h1 => h (Or.inr (Or.inl h1)),
            fun h1 => h (Or.inr (Or.inr h1))⟩
        · rintro ⟨w, rfl, _, h1, h2, h3⟩ (h | h | h)
          · exact h1 h
          · exact h2 h
          · exact h3 h
  have hk : c.requiredHeaders.any (containsKey headers) = true ↔
      ∃ n ∈ c.requiredHeaders, headers.getAll n ≠ [] := by
    rw [List.any_eq_true]
    exact ⟨fun ⟨n, h1, h2⟩ => ⟨n, h1, (containsKey_iff _ _).1 h2⟩,
      fun ⟨n, h1, h2⟩ => ⟨n, h1, (containsKey_iff _ _).2 h2⟩⟩
  rw [← hk, ← hp]
  unfold passes
  cases hen : c.enabled <;> cases hr : c.requiredHeaders <;> cases requiresPreflight headers <;>
    simp

/-- **C16**: letting in does not depend on the letter case of the content type. -/
theorem C16_case_insensitive (c : Config) (h : HeaderMap) (ct ct' : Text)
    (hsame : lower ct = lower ct') (hv : toStr ct = some ct) (hv' : toStr ct' = some ct') :
    passes (h.insert "content-type" ct) c = passes (h.insert "content-type" ct') c := by
  have hget : ∀ (v : Text) (n : Name), (h.insert "content-type" v).getAll n =
      if n = "content-type" then [v] else h.getAll n := by
    intro v n
    unfold HeaderMap.insert HeaderMap.append HeaderMap.remove HeaderMap.getAll
    show List.filterMap _ (_ ++ _) = _
    rw [List.filterMap_append, List.filterMap_filter]
    by_cases hn : n = "content-type"
    · subst hn
      rw [if_pos rfl]
      have : h.filterMap (fun x => if decide (x.1 ≠ "content-type") = true then
          (if x.1 = "content-type" then some x.2 else none) else none) = [] := by
        rw [List.filterMap_eq_nil_iff]
        intro x _
        split
        · rename_i hx; simp only [decide_eq_true_eq] at hx; rw [if_neg hx]
        · rfl
      rw [this]
      rfl
    · rw [if_neg hn]
      have : ∀ x : Name × Text, (if decide (x.1 ≠ "content-type") = true then
          (if x.1 = n then some x.2 else none) else none) = (if x.1 = n then some x.2 else none) := by
        intro x
        by_cases hx : x.1 = n
        · rw [if_pos hx, if_pos]; rw [hx]; simpa using hn
        · rw [if_neg hx]; simp
      simp only [this]
      have hne : ¬ "content-type" = n := fun h => hn h.symm
      simp [hne]
  have hct : ∀ v, (h.insert "content-type" v).get "content-type" = some v := by
    intro v
    unfold HeaderMap.get
    rw [hget v, if_pos rfl]
    rfl
  have hk : ∀ n, containsKey (h.insert "content-type" ct) n =
      containsKey (h.insert "content-type" ct') n := by
    intro n
    unfold containsKey
    rw [hget, hget]
    split <;> rfl
  have hq : requiresPreflight (h.insert "content-type" ct) =
      requiresPreflight (h.insert "content-type" ct') := by
    unfold requiresPreflight
    rw [hct, hct]
    simp only [Option.bind_some, hv, hv', isSimpleContentType, hsame]
  have hany : containsKey (h.insert "content-type" ct) = containsKey (h.insert "content-type" ct') :=
    funext hk
  unfold passes
  rw [hq, hany]

/-! ### Examples and counterexamples -/

namespace Example

def config : Config := ⟨true, ["x-csrf-token", "apollo-require-preflight"]⟩

/-- A form post from another site. -/
def form : HeaderMap :=
  [("origin", "https://evil".toList), ("content-type", "Multipart/Form-Data ; boundary=x".toList)]

theorem form_forgeable : Forgeable form config where
  noHeader := by decide
  contentType := by
    intro ct h
    have : ct = "Multipart/Form-Data ; boundary=x".toList := by
      have h2 : form.get "content-type" = some "Multipart/Form-Data ; boundary=x".toList := by decide
      rw [h2] at h; simpa using h.symm
    subst this
    exact Or.inr (Or.inl (by decide))

example : passes form config = false :=
  C16_sound config rfl (by decide) form (fun ct h => by
    have h2 : form.get "content-type" = some "Multipart/Form-Data ; boundary=x".toList := by decide
    rw [h2] at h
    have : ct = "Multipart/Form-Data ; boundary=x".toList := by simpa using h.symm
    subst this; unfold Stripped; decide) form_forgeable

example : passes (form ++ [("apollo-require-preflight", [])]) config = true := by decide
example : passes [("content-type", "application/json".toList)] config = true := by decide
example : passes [] config = false := by decide

end Example

/-- The check is on prefixes, so the claim fails in the other direction: a media type that is not a
simple one but begins like one is refused. -/
theorem C16_prefix_too_strict : ∃ (c : Config) (headers : HeaderMap) (ct : Text),
    headers.get "content-type" = some ct ∧ ¬ Simple ct ∧ passes headers c = false :=
  ⟨⟨true, ["x-csrf-token"]⟩, [("content-type", "text/plain-graphql".toList)],
    "text/plain-graphql".toList, by decide, by unfold Simple; decide, by decide⟩

/-- Without a required header in the configuration nothing is checked: `enabled: true` alone
lets every forged request through. -/
theorem C16_enabled_alone_checks_nothing (headers : HeaderMap) : passes headers ⟨true, []⟩ = true :=
  rfl

/-- The hypothesis of `C16_sound` on white space is needed: the value is not trimmed. -/
theorem C16_space_slips_through : ∃ (c : Config) (headers : HeaderMap),
    c.enabled = true ∧ c.requiredHeaders ≠ [] ∧ Forgeable headers c ∧ passes headers c = true := by
  refine ⟨⟨true, ["x-csrf-token"]⟩, [("content-type", " text/plain".toList)], rfl, by decide,
    ⟨by decide, ?_⟩, by decide⟩
  intro ct h
  have h2 : HeaderMap.get [("content-type", " text/plain".toList)] "content-type" =
    some " text/plain".toList := by decide
  rw [h2] at h
  have : ct = " text/plain".toList := by simpa using h.symm
  subst this
  exact Or.inr (Or.inr (by decide))

end Verif.Csrf
