import Verif.Jwt.Model

/-!
# JWT authentication: C28 (the cache of claims) and C47 (who is authenticated)
-/

namespace Verif.Jwt

/-! ## Specification -/

/-- The claims are those of the token by some key of the configured sets, with an allowed algorithm,
one that the key admits, and issuer and audience are as configured. -/
structure Vouched (L : Lib) (c : Config) (sets : List (List Key)) (token : String) (now : Nat)
    (cl : Claims) : Prop where
  decoded : ∃ keys ∈ sets, ∃ k ∈ keys, ∃ alg, L.decode k alg token now = some cl ∧
    (∀ a, k.alg = some a → alg = a) ∧ (∀ allowed, c.algorithms = some allowed → alg ∈ allowed)
  issuer : ∀ is, c.issuers = some is → ∃ i ∈ is, cl.iss = some i
  audience : ∀ as, c.audiences = some as →
    (∃ a ∈ as, cl.aud = some (.single a)) ∨ ∃ l, cl.aud = some (.multiple l) ∧ ∀ a ∈ l, a ∈ as

/-! ## C47: authentication -/

theorem findKid_mem (kid : String) (sets : List (List Key)) (s : List Key) (h : findKid kid sets = some s) :
    s ∈ sets := by
  induction sets with
  | nil => simp [findKid] at h
  | cons x xs ih =>
    rw [findKid] at h
    split at h
    · cases h; simp
    · exact List.mem_cons_of_mem _ (ih h)

theorem findAlg_mem (L : Lib) (alg : String) (sets : List (List Key)) (s : List Key)
    (h : findAlg L alg sets = some s) : s ∈ sets := by
  induction sets with
  | nil => simp [findAlg] at h
  | cons x xs ih =>
    rw [findAlg] at h
    split at h
    · cases h
    · cases h; simp
    · exact List.mem_cons_of_mem _ (ih h)

theorem findSet_mem (L : Lib) (hd : Header) (sets : List (List Key)) (s : List Key)
    (h : findSet L hd sets = some s) : s ∈ sets := by
  rw [findSet] at h
  split at h
  · rename_i s' hb
    cases h
    obtain ⟨kid, _, hk⟩ := Option.bind_eq_some_iff.1 hb
    exact findKid_mem kid sets s hk
  · exact findAlg_mem L _ sets s h

/-- **C47** Claims are accepted only if a configured key vouches for them. -/
theorem C47_vouched (L : Lib) (c : Config) (sets : List (List Key)) (token : String) (now : Nat)
    (cl : Claims) (h : authenticate L c sets token now = some cl) : Vouched L c sets token now cl := by
  rw [authenticate] at h
  split at h
  · cases h
  · rename_i hd hh
    split at h
    · cases h
    · rename_i keys hk
      obtain ⟨k, hkm, hkt⟩ := List.exists_of_findSome?_eq_some h
      rw [tryKey] at hkt
      split at hkt
      · split at hkt
        · cases hkt
        · rename_i alg ha
          split at hkt
          · rename_i hal
            split at hkt
            · cases hkt
            · rename_i cl' hd
              split at hkt
              · rename_i hok
                cases hkt
                simp only [Bool.and_eq_true] at hok
                refine ⟨⟨keys, findSet_mem L _ sets keys hk, k, hkm, alg, hd, ?_, ?_⟩, ?_, ?_⟩
                · intro a hka
                  rw [keyAlg, hka] at ha
                  simp only at ha
                  split at ha
                  · cases ha; rfl
                  · cases ha
                · intro allowed hall
                  rw [algAllowed, hall] at hal
                  simpa using hal
                · intro is his
                  have := hok.1
                  rw [issuerOk, his] at this
                  cases hi : cl.iss with
                  | none => rw [hi] at this; cases this
                  | some i => rw [hi] at this; exact ⟨i, by simpa using this, rfl⟩
                · intro as has
                  have := hok.2
                  rw [audienceOk, has] at this
                  cases hi : cl.aud with
                  | none => rw [hi] at this; cases this
                  | some a =>
                    rw [hi] at this
                    cases a with
                    | single a => exact .inl ⟨a, by simpa using this, rfl⟩
                    | multiple l => exact .inr ⟨l, rfl, by simpa using this⟩
              · cases hkt
          · cases hkt
      · cases hkt

/-- **C47** A token that names a key of only one set is accepted if some usable key of that set, with an
allowed algorithm, decodes it to claims of a configured issuer and audience. -/
theorem C47_accepts (L : Lib) (c : Config) (sets : List (List Key)) (token kid alg : String) (now : Nat)
    (hd : Header) (hh : L.header token = some hd) (hkid : hd.kid = some kid) (keys : List Key)
    (hs : keys ∈ sets) (hin : ∃ k ∈ keys, k.kid = some kid)
    (honly : ∀ s ∈ sets, (∃ k ∈ s, k.kid = some kid) → s = keys)
    (k : Key) (hk : k ∈ keys) (husable : L.usable k = true)
    (halg : k.alg = some alg ∧ L.known alg = true ∨ k.alg = none ∧ alg = hd.alg)
    (hallowed : ∀ l, c.algorithms = some l → alg ∈ l) (cl : Claims)
    (hdec : L.decode k alg token now = some cl)
    (hiss : ∀ is, c.issuers = some is → ∃ i ∈ is, cl.iss = some i)
    (haud : ∀ as, c.audiences = some as →
      (∃ a ∈ as, cl.aud = some (.single a)) ∨ ∃ l, cl.aud = some (.multiple l) ∧ ∀ a ∈ l, a ∈ as) :
    ∃ cl', authenticate L c sets token now = some cl' := by
  have hfk : findKid kid sets = some keys := by
    clear hh hdec
    induction sets with
    | nil => cases hs
    | cons s ss ih =>
      rw [findKid]
      split
      · rename_i h
        rw [List.any_eq_true] at h
        obtain ⟨x, hx, hx'⟩ := h
        rw [honly s (by simp) ⟨x, hx, by simpa using hx'⟩]
      · rename_i h
        rcases List.mem_cons.1 hs with rfl | hs
        · obtain ⟨x, hx, hx'⟩ := hin
          exact absurd (List.any_eq_true.2 ⟨x, hx, by simp [hx']⟩) h
        · exact ih hs (fun s' h' => honly s' (List.mem_cons_of_mem _ h'))
  have hset : findSet L hd sets = some keys := by simp [findSet, hkid, hfk]
  have hka : keyAlg L hd k = some alg := by
    rcases halg with ⟨h1, h2⟩ | ⟨h1, h2⟩
    · simp [keyAlg, h1, h2]
    · simp [keyAlg, h1, h2]
  have hal : algAllowed c alg = true := by
    unfold algAllowed
    cases ha : c.algorithms with
    | none => rfl
    | some l => simpa using hallowed l ha
  have hi : issuerOk c cl = true := by
    unfold issuerOk
    cases ha : c.issuers with
    | none => rfl
    | some l =>
      obtain ⟨i, h1, h2⟩ := hiss l ha
      simp [h2, h1]
  have hu : audienceOk c cl = true := by
    unfold audienceOk
    cases ha : c.audiences with
    | none => rfl
    | some l =>
      rcases haud l ha with ⟨a, h1, h2⟩ | ⟨m, h1, h2⟩
      · simp [h2, h1]
      · simpa [h1] using h2
  have ht : tryKey L c hd token now k = some cl := by simp [tryKey, husable, hka, hal, hdec, hi, hu]
  simp only [authenticate, hh, hset]
  cases hf : keys.findSome? (tryKey L c hd token now) with
  | some cl' => exact ⟨cl', rfl⟩
  | none =>
    rw [List.findSome?_eq_none_iff] at hf
    rw [hf k hk] at ht
    cases ht

/-- **C47** With required authentication, a request that goes on has a token for which there are valid
claims. -/
theorem C47_required (c : Config) (r : Request) (validated : String → Option Claims)
    (h : c.requireAuth = some true) :
    validateHeaders c r validated = .rejected ∨
      ∃ token pre cl, validateHeaders c r validated = .user token pre cl ∧
        validated token = some cl ∧ find r c.locations = .ok (pre, token) := by
  unfold validateHeaders
  cases hf : find r c.locations with
  | error e => simp [h]
  | ok pt =>
    obtain ⟨pre, token⟩ := pt
    cases hv : validated token with
    | none => simp [hv, h]
    | some cl => exact .inr ⟨token, pre, cl, by simp [hv], hv, rfl⟩

/-- **C47** Whatever the configuration, a request is a user's only with valid claims of the token that
was found; otherwise it is anonymous or rejected. -/
theorem C47_user (c : Config) (r : Request) (validated : String → Option Claims) (token : String)
    (pre : Option String) (cl : Claims) (h : validateHeaders c r validated = .user token pre cl) :
    validated token = some cl ∧ find r c.locations = .ok (pre, token) := by
  unfold validateHeaders at h
  cases hf : find r c.locations with
  | error e => rw [hf] at h; simp only at h; split at h <;> cases h
  | ok pt =>
    obtain ⟨p, t⟩ := pt
    rw [hf] at h
    simp only at h
    cases hv : validated t with
    | none => rw [hv] at h; simp only at h; split at h <;> cases h
    | some cl' =>
      rw [hv] at h
      simp only [Result.user.injEq] at h
      obtain ⟨rfl, rfl, rfl⟩ := h
      exact ⟨hv, rfl⟩

/-- A token is at a place of the request: the value of a header after its prefix, or a cookie. -/
def At (r : Request) (token : String) : Location → Option String → Prop
  | .header name pre, p => ∃ v, r.header name = some (some v) ∧ p = pre ∧
      match pre with
      | none => token = v
      | some q => ∃ t, v.toList = q.toList ++ t ∧ token = String.ofList (trim t)
  | .cookie name, p => lookup name r.cookies = some token ∧ p = none

theorem stripPrefix_eq : ∀ (p s t : List Char), stripPrefix p s = some t → s = p ++ t := by
  intro p
  induction p with
  | nil => intro s t h; simp [stripPrefix] at h; simp [h]
  | cons a p ih =>
    intro s t h
    cases s with
    | nil => simp [stripPrefix] at h
    | cons b s =>
      rw [stripPrefix] at h
      split at h
      · rename_i he; rw [he, ih s t h]; rfl
      · cases h

/-- **C47** The token is one the request carries at a configured place, and at no place before that one
does it carry any header. -/
theorem C47_found (r : Request) (ls : List Location) (pre : Option String) (token : String)
    (h : find r ls = .ok (pre, token)) :
    ∃ before l after, ls = before ++ l :: after ∧ At r token l pre ∧
      (∀ name p, .header name p ∈ before → r.header name = none) ∧
      ∀ name, .cookie name ∈ before → lookup name r.cookies = none := by
  induction ls with
  | nil => simp [find] at h
  | cons l ls ih =>
    cases l with
    | header name p =>
      rw [find] at h
      cases hh : r.header name with
      | none =>
        rw [hh] at h
        obtain ⟨b, l, a, h1, h2, h3, h4⟩ := ih h
        refine ⟨.header name p :: b, l, a, by simp [h1], h2, ?_, ?_⟩
        · intro n q hm
          simp only [List.mem_cons, Location.header.injEq] at hm
          rcases hm with ⟨rfl, rfl⟩ | hm
          · exact hh
          · exact h3 n q hm
        · intro n hm
          simp only [List.mem_cons, reduceCtorEq, false_or] at hm
          exact h4 n hm
      | some o =>
        rw [hh] at h
        cases o with
        | none => simp at h
        | some v =>
          simp only at h
          refine ⟨[], .header name p, ls, rfl, ?_, by simp, by simp⟩
          cases p with
          | none =>
            simp only [Except.ok.injEq, Prod.mk.injEq] at h
            exact ⟨v, hh, h.1.symm, h.2.symm⟩
          | some q =>
            simp only at h
            cases hs : stripPrefix q.toList v.toList with
            | none => rw [hs] at h; simp at h
            | some t =>
              rw [hs] at h
              simp only [Except.ok.injEq, Prod.mk.injEq] at h
              exact ⟨v, hh, h.1.symm, t, stripPrefix_eq _ _ _ hs, h.2.symm⟩
    | cookie name =>
      rw [find] at h
      cases hh : lookup name r.cookies with
      | none =>
        rw [hh] at h
        obtain ⟨b, l, a, h1, h2, h3, h4⟩ := ih h
        refine ⟨.cookie name :: b, l, a, by simp [h1], h2, ?_, ?_⟩
        · intro n q hm
          simp only [List.mem_cons, reduceCtorEq, false_or] at hm
          exact h3 n q hm
        · intro n hm
          simp only [List.mem_cons, Location.cookie.injEq] at hm
          rcases hm with rfl | hm
          · exact hh
          · exact h4 n hm
      | some v =>
        rw [hh] at h
        simp only [Except.ok.injEq, Prod.mk.injEq] at h
        refine ⟨[], .cookie name, ls, rfl, ⟨by rw [hh, h.2], h.1.symm⟩, by simp, by simp⟩

/-- A header that is there but has another prefix ends the search: a valid token at a later place is
not found. -/
theorem C47_prefix_ends_search (r : Request) (name p v : String) (ls : List Location)
    (h : r.header name = some (some v)) (hp : stripPrefix p.toList v.toList = none) :
    find r (.header name (some p) :: ls) = .error .mismatchedPrefix := by
  simp [find, h, hp]

/-- A key with an algorithm the library does not know, such as one for encryption, in a set hides all
later keys from tokens whose `kid` is not known: they are rejected whatever key they are signed
with. -/
theorem C47_unknown_algorithm (L : Lib) (c : Config) (k : Key) (a token : String) (ks : List Key)
    (sets : List (List Key)) (hk : k.alg = some a) (hu : L.known a = false) (hd : Header)
    (hh : L.header token = some hd) (hkid : hd.kid = none) (now : Nat) :
    authenticate L c ((k :: ks) :: sets) token now = none := by
  simp [authenticate, hh, findSet, hkid, findAlg, keysHaveAlg, hk, hu]

/-! ## C28: the cache -/

/-- What is known of an entry. -/
def EntryOk (s : State) (token : String) (e : Entry) : Prop :=
  e.validated ≤ e.inserted ∧ e.inserted ≤ s.clock ∧ e.life = ttl e.claims.exp e.inserted ∧
    ∃ sets, (token, e.claims, e.validated, sets) ∈ s.validations

structure Inv (L : Lib) (c : Config) (s : State) : Prop where
  cache : ∀ te ∈ s.cache, EntryOk s te.1 te.2
  pending : ∀ p ∈ s.pending, p.2.2 ≤ s.clock ∧ ∃ sets, (p.1, p.2.1, p.2.2, sets) ∈ s.validations
  validations : ∀ v ∈ s.validations, authenticate L c v.2.2.2 v.1 v.2.2.1 = some v.2.1
  hits : ∀ h ∈ s.hits, h.validated ≤ h.inserted ∧ h.inserted ≤ h.served ∧
    h.served < h.inserted + ttl h.claims.exp h.inserted ∧
    ∃ sets, (h.token, h.claims, h.validated, sets) ∈ s.validations

theorem inv_reach (L : Lib) (c : Config) (sets : List (List Key)) (s : State) (h : Reach L c sets s) :
    Inv L c s := by
  induction h with
  | init => exact ⟨by simp [initial], by simp [initial], by simp [initial], by simp [initial]⟩
  | step s t _ hs ih =>
    cases hs with
    | tick d =>
      refine ⟨fun te h => ?_, fun p h => ?_, ih.validations, ih.hits⟩
      · have := ih.cache te h
        exact ⟨this.1, Nat.le_trans this.2.1 (Nat.le_add_right _ _), this.2.2⟩
      · have := ih.pending p h
        exact ⟨Nat.le_trans this.1 (Nat.le_add_right _ _), this.2⟩
    | refresh sets => exact ⟨ih.cache, ih.pending, ih.validations, ih.hits⟩
    | validate token cl h =>
      refine ⟨fun te ht => ?_, fun p hp => ?_, fun v hv => ?_, fun x hx => ?_⟩
      · obtain ⟨h1, h2, h3, sets, h4⟩ := ih.cache te ht
        exact ⟨h1, h2, h3, sets, List.mem_cons_of_mem _ h4⟩
      · rcases List.mem_cons.1 hp with rfl | hp
        · exact ⟨Nat.le_refl _, s.sets, by simp⟩
        · obtain ⟨h1, sets, h2⟩ := ih.pending p hp
          exact ⟨h1, sets, List.mem_cons_of_mem _ h2⟩
      · rcases List.mem_cons.1 hv with rfl | hv
        · exact h
        · exact ih.validations v hv
      · obtain ⟨h1, h2, h3, sets, h4⟩ := ih.hits x hx
        exact ⟨h1, h2, h3, sets, List.mem_cons_of_mem _ h4⟩
    | insert token cl t h =>
      refine ⟨fun te ht => ?_, ih.pending, ih.validations, ih.hits⟩
      rcases List.mem_cons.1 ht with rfl | ht
      · obtain ⟨h1, sets, h2⟩ := ih.pending _ h
        exact ⟨h1, Nat.le_refl _, rfl, sets, h2⟩
      · exact ih.cache te (List.mem_filter.1 ht).1
    | hit token e h h' =>
      refine ⟨ih.cache, ih.pending, ih.validations, fun x hx => ?_⟩
      rcases List.mem_cons.1 hx with rfl | hx
      · obtain ⟨h1, h2, h3, h4⟩ := ih.cache _ h
        exact ⟨h1, h2, by simp only at h3; rw [← h3]; exact h', h4⟩
      · exact ih.hits x hx
    | drop token =>
      exact ⟨fun te ht => ih.cache te (List.mem_filter.1 ht).1, ih.pending, ih.validations, ih.hits⟩

/-- **C28** What is served from the cache is the result of an earlier validation of the same token, by
keys that were current then. -/
theorem C28_validated (L : Lib) (c : Config) (sets : List (List Key)) (s : State)
    (h : Reach L c sets s) (x : Hit) (hx : x ∈ s.hits) :
    x.validated ≤ x.served ∧ ∃ keys, Vouched L c keys x.token x.validated x.claims := by
  have hi := inv_reach L c sets s h
  obtain ⟨h1, h2, _, keys, h4⟩ := hi.hits x hx
  exact ⟨Nat.le_trans h1 h2, keys, C47_vouched L c keys _ _ _ (hi.validations _ h4)⟩

/-- **C28** (partial: five seconds from the insertion, and up to one second after the token expired)
A cached validation is served for less than five seconds, only if the token was not expired when it
was inserted, and not later than one second after it expired. -/
theorem C28_bounds_partial (L : Lib) (c : Config) (sets : List (List Key)) (s : State)
    (h : Reach L c sets s) (x : Hit) (hx : x ∈ s.hits) :
    x.served < x.inserted + 5000 ∧
      ∀ e, x.claims.exp = some e → x.inserted < e * 1000 ∧ x.served < e * 1000 + 1000 := by
  have hi := inv_reach L c sets s h
  obtain ⟨h1, h2, h3, _⟩ := hi.hits x hx
  constructor
  · refine Nat.lt_of_lt_of_le h3 (Nat.add_le_add_left ?_ _)
    unfold ttl
    split
    · exact Nat.le_refl _
    · split <;> omega
  · intro e he
    rw [he] at h3
    simp only [ttl] at h3
    split at h3
    · omega
    · omega

/-- **C28** If results are inserted within `d` milliseconds after the validation, they are served for
less than five seconds and `d`. -/
theorem C28_prompt (L : Lib) (c : Config) (sets : List (List Key)) (s : State) (h : Reach L c sets s)
    (x : Hit) (hx : x ∈ s.hits) (d : Nat) (hd : x.inserted ≤ x.validated + d) :
    x.served < x.validated + d + 5000 := by
  have := (C28_bounds_partial L c sets s h x hx).1
  omega

/-! ## Concrete cases, and where the code does less than C28 -/

namespace Ex

def L : Lib where
  header := fun t => if t = "tok" then some ⟨some "k1", "RS256"⟩ else none
  known := fun a => a == "RS256"
  usable := fun _ => true
  decode := fun k a t now =>
    if k.material = 7 ∧ a = "RS256" ∧ t = "tok" ∧ now < 10000 then some ⟨some "me", none, some 10, "x"⟩ else none

def c : Config := ⟨[.header "authorization" (some "Bearer"), .cookie "jwt"], some true, some ["RS256"], some ["me"], none⟩

def sets : List (List Key) := [[⟨some "k0", none, 1⟩], [⟨some "k1", some "RS256", 7⟩]]

def claims : Claims := ⟨some "me", none, some 10, "x"⟩

theorem auth (t : Nat) (h : t < 10000) : authenticate L c sets "tok" t = some claims := by
  simp [authenticate, L, findSet, findKid, sets, tryKey, keyAlg, algAllowed, c, issuerOk, audienceOk, h,
    claims]

/-- The hypotheses of the theorems about authentication can be met. -/
example : Vouched L c sets "tok" 500 claims := C47_vouched _ _ _ _ _ _ (auth 500 (by omega))

def r : Request where
  header := fun n => if n = "authorization" then some (some "Bearer tok") else none
  cookies := []

example : validateHeaders c r (fun t => authenticate L c sets t 500) = .user "tok" (some "Bearer") claims := by
  have hf : find r c.locations = .ok (some "Bearer", "tok") := by rfl
  rw [validateHeaders, hf]
  simp only
  rw [auth 500 (by omega)]

/-- A token validated at 9.9 s that expires at 10 s. -/
def s0 : State := initial sets
def s1 : State := { s0 with clock := 9900 }
def s2 : State := { s1 with pending := [("tok", claims, 9900)], validations := [("tok", claims, 9900, sets)] }
def s3 : State :=
  { s2 with cache := ("tok", ⟨claims, 9900, s2.clock, ttl claims.exp s2.clock⟩) :: s2.cache.filter (·.1 ≠ "tok") }
def s4 : State := { s3 with clock := 10899 }
def s5 : State := { s4 with hits := [⟨"tok", claims, 9900, 9900, 10899⟩] }

theorem reach : Reach L c sets s5 := by
  refine .step s4 s5 (.step s3 s4 (.step s2 s3 (.step s1 s2 (.step s0 s1 .init ?_) ?_) ?_) ?_) ?_
  · exact .tick s0 9900
  · exact .validate s1 "tok" claims (auth 9900 (by omega))
  · exact .insert s2 "tok" claims 9900 (by simp [s2])
  · exact .tick s3 999
  · exact .hit s4 "tok" ⟨claims, 9900, s2.clock, ttl claims.exp s2.clock⟩ (by simp [s4, s3]) (by decide)

end Ex

/-- **C28** is not met in the second after a token expired: a token that expires at 10 s, validated at
9.9 s, is served from the cache at 10.899 s, although a validation then would fail. -/
theorem C28_after_expiry : ∃ (L : Lib) (c : Config) (sets : List (List Key)) (s : State) (x : Hit) (e : Nat),
    Reach L c sets s ∧ x ∈ s.hits ∧ x.claims.exp = some e ∧ e * 1000 < x.served ∧
      authenticate L c sets x.token x.served = none := by
  refine ⟨Ex.L, Ex.c, Ex.sets, Ex.s5, _, 10, Ex.reach, by simp [Ex.s5]; rfl, rfl, by decide, ?_⟩
  simp [authenticate, Ex.L, findSet, findKid, Ex.sets, tryKey, keyAlg, algAllowed, Ex.c]

end Verif.Jwt
