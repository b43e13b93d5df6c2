import Verif.Target.Model

/-!
# Requests go to the endpoint that is configured
-/

namespace Verif.Target

variable {Req : Type}

/-! ## Specification -/

/-- The endpoint an expression yields. -/
def yields : Value → Except Err String
  | .fails => .error .expression
  | .str e => .ok e
  | .other => .error .wrongType

/-- As documented in `config/override_subgraph_urls.rs`: the override of the subgraph wins over the one for all, which
wins over the supergraph. `.default` is the URL in the supergraph. -/
def wanted (c : Config Req) (n url : String) (q : Req) : Except Err String :=
  match c.over n, c.all with
  | some (.url u), _ => .ok u
  | some (.expr e), _ => yields (c.run e q url n)
  | none, some e => yields (c.run e q url n)
  | none, none => .ok url

/-- A call: a subscription or not, for which subgraph and client's request. -/
structure Call (Req : Type) where
  sub : Bool
  name : String
  req : Req

/-- A call is made. -/
def step (c : Config Req) (s : State) (k : Call Req) : State :=
  if k.sub then (subscribe c s k.name k.req).1 else (execute c s k.name k.req).1

/-- States after any calls. -/
def after (c : Config Req) (s : State) (l : List (Call Req)) : State := l.foldl (step c) s

/-- An executor is the one for a subgraph over HTTP. -/
def OverHttp (c : Config Req) (n e : String) (x : Ex) : Prop :=
  x.kind = .http ∧ x.name = n ∧ c.uri e = some x.uri ∧ x.dedupe = (c.dedupeOf n).getD c.dedupeAll

/-- An executor is the one for subscriptions of a subgraph. -/
def ForSub (c : Config Req) (n e : String) (x : Ex) : Prop :=
  (protocol c n = .http → OverHttp c n e x) ∧
  (protocol c n = .callback → x.kind = .callback ∧ x.name = n ∧ c.uri e = some x.uri) ∧
  (protocol c n = .websocket → x.kind = .websocket ∧ x.name = n ∧ ∃ u, c.uri e = some u ∧
    x.uri.scheme = some (if u.scheme = some "https" then "wss" else "ws") ∧ x.uri.authority = some (u.authority.getD "") ∧
    x.uri.path = some ((((c.wsOf n).bind id).or ((c.wsAll.bind id).or u.path)).getD ""))

/-! ## Proof -/

/-- What a request needs of the maps. -/
def base (c : Config Req) (n url : String) : String :=
  match c.over n with
  | some (.url u) => u
  | _ => url

/-- The expression of a subgraph. -/
def own (c : Config Req) (n : String) : Option String :=
  match c.over n with
  | some (.expr e) => some e
  | _ => none

theorem register_same {c : Config Req} {s s' : State} {n e : String} {b : Bool} {x : Ex}
    (h : register c s n e b = .ok (s', x)) :
    s'.static = s.static ∧ s'.exprs = s.exprs ∧ s'.ignored = s.ignored ∧ s'.program = s.program := by
  unfold register at h
  split at h
  · cases h
  · split at h
    · cases h; simp
    · cases h; simp
    · split at h
      · cases h; simp
      · cases h

theorem add_spec {c : Config Req} {s s' : State} {n url : String} (h : add c s n url = .ok s') :
    (∀ m, s'.static m = if m = n then some (base c n url) else s.static m) ∧
    (∀ m, s'.exprs m = if m = n then (own c n).or (s.exprs n) else s.exprs m) ∧
    (∀ m, m ∈ s'.ignored ↔ m ∈ s.ignored ∨ (m = n ∧ (c.over n).isSome)) ∧ s'.program = s.program := by
  unfold add at h
  cases ho : c.over n with
  | none =>
    simp only [ho] at h
    split at h
    · cases h
    next s1 x hr =>
      cases h
      obtain ⟨h1, h2, h3, h4⟩ := register_same hr
      rw [h1, h2, h3, h4]
      refine ⟨fun m => by simp [base, ho], fun m => ?_, fun m => by simp, rfl⟩
      by_cases hm : m = n <;> simp [hm, own, ho]
  | some o =>
    cases o with
    | url u =>
      simp only [ho] at h
      split at h
      · cases h
      next s1 x hr =>
        cases h
        obtain ⟨h1, h2, h3, h4⟩ := register_same hr
        rw [h1, h2, h3, h4]
        refine ⟨fun m => by simp [base, ho], fun m => ?_, fun m => by simp, rfl⟩
        by_cases hm : m = n <;> simp [hm, own, ho]
    | expr e =>
      simp only [ho] at h
      by_cases hc : c.compiles e
      · simp only [hc, if_true] at h
        split at h
        · cases h
        next s1 x hr =>
          cases h
          obtain ⟨h1, h2, h3, h4⟩ := register_same hr
          rw [h1, h2, h3, h4]
          refine ⟨fun m => by simp [base, ho], fun m => ?_, fun m => by simp, rfl⟩
          by_cases hm : m = n <;> simp [hm, own, ho]
      · simp [hc] at h

theorem addAll_spec {c : Config Req} : ∀ {l : List (String × String)} {s s' : State}, (l.map (·.1)).Nodup →
    addAll c s l = .ok s' →
    (∀ n, n ∉ l.map (·.1) → s'.static n = s.static n ∧ s'.exprs n = s.exprs n ∧ (n ∈ s'.ignored ↔ n ∈ s.ignored)) ∧
    (∀ n url, (n, url) ∈ l → s'.static n = some (base c n url) ∧ s'.exprs n = (own c n).or (s.exprs n) ∧
      (n ∈ s'.ignored ↔ n ∈ s.ignored ∨ (c.over n).isSome)) ∧ s'.program = s.program
  | [], s, s', _, h => by
    cases h
    simp
  | (n, u) :: r, s, s', hd, h => by
    unfold addAll at h
    split at h
    · cases h
    next s1 h1 =>
      simp only [List.map_cons, List.nodup_cons] at hd
      obtain ⟨a1, a2, a3, a4⟩ := add_spec h1
      obtain ⟨b1, b2, b3⟩ := addAll_spec hd.2 h
      refine ⟨?_, ?_, b3.trans a4⟩
      · intro m hm
        simp only [List.map_cons, List.mem_cons, not_or] at hm
        obtain ⟨c1, c2, c3⟩ := b1 m hm.2
        rw [c1, c2, c3, a1, a2, a3]
        simp [hm.1]
      · intro m url hm
        rcases List.mem_cons.1 hm with e | hm
        · cases e
          obtain ⟨c1, c2, c3⟩ := b1 n hd.1
          rw [c1, c2, c3, a1, a2, a3]
          simp
        · have hne : m ≠ n := fun e => hd.1 (e ▸ List.mem_map.2 ⟨_, hm, rfl⟩)
          obtain ⟨c1, c2, c3⟩ := b2 m url hm
          rw [c1, c2, c3, a2, a3]
          simp [hne]

theorem build_spec {c : Config Req} {l : List (String × String)} {s : State} (hd : (l.map (·.1)).Nodup)
    (h : build c l = .ok s) :
    (∀ n, n ∉ l.map (·.1) → s.static n = none) ∧
    (∀ n url, (n, url) ∈ l → s.static n = some (base c n url) ∧ s.exprs n = own c n ∧
      (n ∈ s.ignored ↔ (c.over n).isSome)) ∧ s.program = c.all := by
  unfold build at h
  cases ha : c.all with
  | none =>
    simp only [ha] at h
    obtain ⟨h1, h2, h3⟩ := addAll_spec hd h
    exact ⟨fun n hn => (h1 n hn).1, fun n u hn => by simpa using h2 n u hn, h3⟩
  | some e =>
    simp only [ha] at h
    by_cases hc : c.compiles e
    · simp only [hc, if_true] at h
      obtain ⟨h1, h2, h3⟩ := addAll_spec hd h
      exact ⟨fun n hn => (h1 n hn).1, fun n u hn => by simpa using h2 n u hn, h3⟩
    · simp [hc] at h

theorem resolve_same {c : Config Req} {s s' : State} (h : s'.static = s.static ∧ s'.exprs = s.exprs ∧
    s'.ignored = s.ignored ∧ s'.program = s.program) (n : String) (q : Req) : resolve c s' n q = resolve c s n q := by
  obtain ⟨h1, h2, h3, h4⟩ := h
  unfold resolve global
  rw [h1, h2, h3, h4]

theorem resolve_built {c : Config Req} {l : List (String × String)} {s : State} (hd : (l.map (·.1)).Nodup)
    (h : build c l = .ok s) (q : Req) :
    (∀ n url, (n, url) ∈ l → resolve c s n q = wanted c n url q) ∧
    ∀ n, n ∉ l.map (·.1) → resolve c s n q = .error .notFound := by
  obtain ⟨h1, h2, h3⟩ := build_spec hd h
  constructor
  · intro n url hn
    obtain ⟨a1, a2, a3⟩ := h2 n url hn
    unfold resolve global wanted
    rw [a1, a2, h3]
    cases ho : c.over n with
    | none =>
      have : n ∉ s.ignored := by simp [a3, ho]
      cases ha : c.all <;> simp [own, ho, this, base, yields]
      split <;> simp_all
    | some o =>
      have : n ∈ s.ignored := by simp [a3, ho]
      cases o with
      | url u => simp [own, ho, this, base]
      | expr e =>
        simp [own, ho, base, yields]
        split <;> simp_all
  · intro n hn
    unfold resolve
    rw [h1 n hn]
    cases (s.exprs n).or (global s n) <;> rfl

/-- Executors are where they belong. -/
def Inv (c : Config Req) (s : State) : Prop :=
  (∀ n e x, s.http n e = some x → OverHttp c n e x) ∧
  ∀ n e x, s.subs n e = some x → protocol c n ≠ .http ∧ ForSub c n e x

theorem register_inv {c : Config Req} {s s' : State} {n e : String} {b : Bool} {x : Ex} (hi : Inv c s)
    (h : register c s n e b = .ok (s', x)) :
    Inv c s' ∧ (b = false → OverHttp c n e x) ∧ (b = true → ForSub c n e x) := by
  have hded : dedupe c n = (c.dedupeOf n).getD c.dedupeAll := by
    unfold dedupe
    cases c.dedupeOf n <;> rfl
  unfold register at h
  split at h
  · cases h
  next u hu =>
    split at h
    next hp =>
      cases h
      have ho : OverHttp c n e ⟨.http, n, u, dedupe c n, s.made⟩ := ⟨rfl, rfl, hu, hded⟩
      refine ⟨⟨?_, hi.2⟩, fun _ => ho, fun hb => ?_⟩
      · intro n' e' x' hx
        simp only [put] at hx
        split at hx
        next hc =>
          cases hx
          rw [hc.1, hc.2]
          exact ho
        · exact hi.1 _ _ _ hx
      · rw [hb, if_pos rfl] at hp
        exact ⟨fun _ => ho, fun h => by simp [hp] at h, fun h => by simp [hp] at h⟩
    next hp =>
      cases h
      cases b with
      | false => simp at hp
      | true =>
        simp only [if_true] at hp
        have ho : ForSub c n e ⟨.websocket, n, toWs c n u, false, s.made⟩ :=
          ⟨fun h => by simp [hp] at h, fun h => by simp [hp] at h,
            fun _ => ⟨rfl, rfl, u, hu, rfl, rfl, by simp [toWs, wsPath, Option.or_assoc]⟩⟩
        refine ⟨⟨hi.1, ?_⟩, by simp, fun _ => ho⟩
        intro n' e' x' hx
        simp only [put] at hx
        split at hx
        next hc =>
          cases hx
          rw [hc.1, hc.2]
          exact ⟨by simp [hp], ho⟩
        · exact hi.2 _ _ _ hx
    next hp =>
      split at h
      · cases h
        cases b with
        | false => simp at hp
        | true =>
          simp only [if_true] at hp
          have ho : ForSub c n e ⟨.callback, n, u, false, s.made⟩ :=
            ⟨fun h => by simp [hp] at h, fun _ => ⟨rfl, rfl, hu⟩, fun h => by simp [hp] at h⟩
          refine ⟨⟨hi.1, ?_⟩, by simp, fun _ => ho⟩
          intro n' e' x' hx
          simp only [put] at hx
          split at hx
          next hc =>
            cases hx
            rw [hc.1, hc.2]
            exact ⟨by simp [hp], ho⟩
          · exact hi.2 _ _ _ hx
      · cases h

/-- The maps for endpoints are the same. -/
def Same (s s' : State) : Prop :=
  s'.static = s.static ∧ s'.exprs = s.exprs ∧ s'.ignored = s.ignored ∧ s'.program = s.program

theorem Same.rfl' {s : State} : Same s s := ⟨rfl, rfl, rfl, rfl⟩

theorem Same.trans {a b c : State} (h : Same a b) (h' : Same b c) : Same a c :=
  ⟨h'.1.trans h.1, h'.2.1.trans h.2.1, h'.2.2.1.trans h.2.2.1, h'.2.2.2.trans h.2.2.2⟩

theorem getHttp_inv {c : Config Req} {s s' : State} {n e : String} {x : Ex} (hi : Inv c s)
    (h : getHttp c s n e = .ok (s', x)) : Inv c s' ∧ Same s s' ∧ OverHttp c n e x := by
  unfold getHttp at h
  split at h
  next hx =>
    cases h
    exact ⟨hi, .rfl', hi.1 _ _ _ hx⟩
  · exact ⟨(register_inv hi h).1, register_same h, (register_inv hi h).2.1 rfl⟩

theorem getSub_inv {c : Config Req} {s s' : State} {n e : String} {x : Ex} (hi : Inv c s)
    (h : getSub c s n e = .ok (s', x)) : Inv c s' ∧ Same s s' ∧ ForSub c n e x := by
  unfold getSub at h
  split at h
  next hx =>
    cases h
    exact ⟨hi, .rfl', (hi.2 _ _ _ hx).2⟩
  · exact ⟨(register_inv hi h).1, register_same h, (register_inv hi h).2.2 rfl⟩

theorem execute_inv {c : Config Req} {s : State} {n : String} {q : Req} (hi : Inv c s) :
    Inv c (execute c s n q).1 ∧ Same s (execute c s n q).1 ∧
    ∀ x, (execute c s n q).2 = .ok x → ∃ e, resolve c s n q = .ok e ∧
      if protocol c n = .websocket ∧ c.viaWs n then ForSub c n e x else OverHttp c n e x := by
  unfold execute
  split
  · exact ⟨hi, .rfl', by simp⟩
  next e he =>
    split
    · exact ⟨hi, .rfl', by simp⟩
    next s1 x1 h1 =>
      obtain ⟨i1, m1, o1⟩ := getHttp_inv hi h1
      by_cases hp : protocol c n = .websocket ∧ c.viaWs n
      · simp only [hp, and_self, if_true]
        split
        · exact ⟨i1, m1, by simp⟩
        next s2 x2 h2 =>
          obtain ⟨i2, m2, o2⟩ := getSub_inv i1 h2
          refine ⟨i2, m1.trans m2, fun x hx => ?_⟩
          cases hx
          exact ⟨e, he, o2⟩
      · simp only [hp, if_false]
        refine ⟨i1, m1, fun x hx => ?_⟩
        cases hx
        exact ⟨e, he, o1⟩

theorem subscribe_inv {c : Config Req} {s : State} {n : String} {q : Req} (hi : Inv c s) :
    Inv c (subscribe c s n q).1 ∧ Same s (subscribe c s n q).1 ∧
    ∀ x, (subscribe c s n q).2 = .ok x → ∃ e, resolve c s n q = .ok e ∧ ForSub c n e x := by
  unfold subscribe
  split
  · exact ⟨hi, .rfl', by simp⟩
  next e he =>
    split
    · exact ⟨hi, .rfl', by simp⟩
    next s1 x1 h1 =>
      obtain ⟨i1, m1, o1⟩ := getSub_inv hi h1
      refine ⟨i1, m1, fun x hx => ?_⟩
      cases hx
      exact ⟨e, he, o1⟩

theorem after_inv {c : Config Req} : ∀ (l : List (Call Req)) {s : State}, Inv c s →
    Inv c (after c s l) ∧ Same s (after c s l)
  | [], _, hi => ⟨hi, .rfl'⟩
  | k :: r, s, hi => by
    have h1 : Inv c (step c s k) ∧ Same s (step c s k) := by
      unfold step
      split
      · exact ⟨(subscribe_inv hi).1, (subscribe_inv hi).2.1⟩
      · exact ⟨(execute_inv hi).1, (execute_inv hi).2.1⟩
    have h2 := after_inv r h1.1
    exact ⟨h2.1, h1.2.trans h2.2⟩

theorem add_inv {c : Config Req} {s s' : State} {n url : String} (hi : Inv c s) (h : add c s n url = .ok s') :
    Inv c s' := by
  unfold add at h
  simp only at h
  split at h
  · cases h
  next s1 e h1 =>
    have i1 : Inv c s1 := by
      split at h1
      · cases h1; exact hi
      · split at h1
        · cases h1; exact hi
        · cases h1
      · cases h1; exact hi
    split at h
    · cases h
    next s2 x h2 =>
      cases h
      have i2 : Inv c { s1 with static := fun n' => if n' = n then some e else s1.static n' } := i1
      exact (register_inv i2 h2).1

theorem addAll_inv {c : Config Req} : ∀ {l : List (String × String)} {s s' : State}, Inv c s →
    addAll c s l = .ok s' → Inv c s'
  | [], _, _, hi, h => by cases h; exact hi
  | (n, u) :: r, s, s', hi, h => by
    unfold addAll at h
    split at h
    · cases h
    next h1 => exact addAll_inv (add_inv hi h1) h

theorem build_inv {c : Config Req} {l : List (String × String)} {s : State} (h : build c l = .ok s) : Inv c s := by
  unfold build at h
  split at h
  · split at h
    · exact addAll_inv ⟨by simp, by simp⟩ h
    · cases h
  · exact addAll_inv ⟨by simp, by simp⟩ h

/-- What is there stays, executors over HTTP only if subscriptions do not use them. -/
def Keeps (c : Config Req) (s s' : State) : Prop :=
  (∀ n e x, protocol c n ≠ .http → s.http n e = some x → s'.http n e = some x) ∧
  ∀ n e x, s.subs n e = some x → s'.subs n e = some x

theorem Keeps.trans {c : Config Req} {a b d : State} (h : Keeps c a b) (h' : Keeps c b d) : Keeps c a d :=
  ⟨fun n e x hp hx => h'.1 n e x hp (h.1 n e x hp hx), fun n e x hx => h'.2 n e x (h.2 n e x hx)⟩

theorem Keeps.rfl' {c : Config Req} {s : State} : Keeps c s s := ⟨fun _ _ _ _ h => h, fun _ _ _ h => h⟩

theorem getHttp_keeps {c : Config Req} {s s' : State} {n e : String} {x : Ex} (h : getHttp c s n e = .ok (s', x)) :
    Keeps c s s' ∧ s'.http n e = some x := by
  unfold getHttp at h
  split at h
  next hx =>
    cases h
    exact ⟨.rfl', hx⟩
  next hn =>
    unfold register at h
    split at h
    · cases h
    · simp only [Bool.false_eq_true, if_false] at h
      cases h
      refine ⟨⟨fun n' e' x' _ hx => ?_, fun _ _ _ h => h⟩, by simp [put]⟩
      simp only [put]
      split
      next hc =>
        rw [hc.1, hc.2, hn] at hx
        cases hx
      · exact hx

theorem getSub_keeps {c : Config Req} {s s' : State} {n e : String} {x : Ex} (h : getSub c s n e = .ok (s', x)) :
    Keeps c s s' ∧ (protocol c n ≠ .http → s'.subs n e = some x) := by
  unfold getSub at h
  split at h
  next hx =>
    cases h
    exact ⟨.rfl', fun _ => hx⟩
  next hn =>
    unfold register at h
    split at h
    · cases h
    · simp only [if_true] at h
      have hk : ∀ x1 : Ex, ∀ n' e' x', s.subs n' e' = some x' → put n e x1 s.subs n' e' = some x' := by
        intro x1 n' e' x' hx
        simp only [put]
        split
        next hc =>
          rw [hc.1, hc.2, hn] at hx
          cases hx
        · exact hx
      split at h
      next hp =>
        cases h
        refine ⟨⟨fun n' e' x' hp' hx => ?_, fun _ _ _ h => h⟩, fun hq => absurd hp hq⟩
        simp only [put]
        split
        next hc =>
          rw [hc.1] at hp'
          exact absurd hp hp'
        · exact hx
      · cases h
        exact ⟨⟨fun _ _ _ _ h => h, hk _⟩, fun _ => by simp [put]⟩
      · split at h
        · cases h
          exact ⟨⟨fun _ _ _ _ h => h, hk _⟩, fun _ => by simp [put]⟩
        · cases h

theorem execute_keeps {c : Config Req} {s : State} {n : String} {q : Req} : Keeps c s (execute c s n q).1 := by
  unfold execute
  split
  · exact .rfl'
  · split
    · exact .rfl'
    next h1 =>
      split
      · split
        · exact (getHttp_keeps h1).1
        next h2 => exact (getHttp_keeps h1).1.trans (getSub_keeps h2).1
      · exact (getHttp_keeps h1).1

theorem subscribe_keeps {c : Config Req} {s : State} {n : String} {q : Req} : Keeps c s (subscribe c s n q).1 := by
  unfold subscribe
  split
  · exact .rfl'
  · split
    · exact .rfl'
    next h2 => exact (getSub_keeps h2).1

theorem after_keeps {c : Config Req} : ∀ (l : List (Call Req)) {s : State}, Keeps c s (after c s l)
  | [], _ => .rfl'
  | k :: r, s => by
    have h1 : Keeps c s (step c s k) := by
      unfold step
      split
      · exact subscribe_keeps
      · exact execute_keeps
    exact h1.trans (after_keeps r)

/-! ## Theorems -/

/-- **C123.** For every configuration, supergraph and earlier calls: a request to a subgraph goes to the endpoint that
the configuration says, in the way it says, and fails if the expression does; other subgraphs are not found. -/
theorem C123_execute {c : Config Req} {l : List (String × String)} {s : State} (hd : (l.map (·.1)).Nodup)
    (h : build c l = .ok s) (calls : List (Call Req)) (n : String) (q : Req) :
    (∀ url, (n, url) ∈ l →
      (∀ e, wanted c n url q = .error e → (execute c (after c s calls) n q).2 = .error e) ∧
      ∀ x, (execute c (after c s calls) n q).2 = .ok x → ∃ e, wanted c n url q = .ok e ∧
        if protocol c n = .websocket ∧ c.viaWs n then ForSub c n e x else OverHttp c n e x) ∧
    (n ∉ l.map (·.1) → (execute c (after c s calls) n q).2 = .error .notFound) := by
  obtain ⟨hi, hs⟩ := after_inv calls (build_inv h)
  obtain ⟨r1, r2⟩ := resolve_built hd h q
  refine ⟨fun url hu => ⟨fun e he => ?_, fun x hx => ?_⟩, fun hn => ?_⟩
  · rw [← r1 n url hu, ← resolve_same hs] at he
    simp [execute, he]
  · obtain ⟨e, he, ho⟩ := (execute_inv hi).2.2 x hx
    rw [resolve_same hs, r1 n url hu] at he
    exact ⟨e, he, ho⟩
  · have := r2 n hn
    rw [← resolve_same hs] at this
    simp [execute, this]

/-- **C123.** The same for subscriptions. -/
theorem C123_subscribe {c : Config Req} {l : List (String × String)} {s : State} (hd : (l.map (·.1)).Nodup)
    (h : build c l = .ok s) (calls : List (Call Req)) (n : String) (q : Req) :
    (∀ url, (n, url) ∈ l →
      (∀ e, wanted c n url q = .error e → (subscribe c (after c s calls) n q).2 = .error e) ∧
      ∀ x, (subscribe c (after c s calls) n q).2 = .ok x → ∃ e, wanted c n url q = .ok e ∧ ForSub c n e x) ∧
    (n ∉ l.map (·.1) → (subscribe c (after c s calls) n q).2 = .error .notFound) := by
  obtain ⟨hi, hs⟩ := after_inv calls (build_inv h)
  obtain ⟨r1, r2⟩ := resolve_built hd h q
  refine ⟨fun url hu => ⟨fun e he => ?_, fun x hx => ?_⟩, fun hn => ?_⟩
  · rw [← r1 n url hu, ← resolve_same hs] at he
    simp [subscribe, he]
  · obtain ⟨e, he, ho⟩ := (subscribe_inv hi).2.2 x hx
    rw [resolve_same hs, r1 n url hu] at he
    exact ⟨e, he, ho⟩
  · have := r2 n hn
    rw [← resolve_same hs] at this
    simp [subscribe, this]

/-- **C123.** Requests are given to an executor whenever the endpoint is a URL; for subscriptions over callbacks there
must be an address for them. -/
theorem C123_succeeds {c : Config Req} {l : List (String × String)} {s : State} (hd : (l.map (·.1)).Nodup)
    (h : build c l = .ok s) (calls : List (Call Req)) {n url e : String} {q : Req} (hu : (n, url) ∈ l)
    (he : wanted c n url q = .ok e) (hp : c.uri e ≠ none) :
    (∃ x, (execute c (after c s calls) n q).2 = .ok x) ∧
    ((protocol c n = .callback → c.canCall = true) → ∃ x, (subscribe c (after c s calls) n q).2 = .ok x) := by
  obtain ⟨_, hs⟩ := after_inv calls (build_inv h)
  rw [← (resolve_built hd h q).1 n url hu, ← resolve_same hs] at he
  obtain ⟨u, hu⟩ := Option.ne_none_iff_exists'.1 hp
  have hh : ∀ t : State, ∃ r, getHttp c t n e = .ok r := by
    intro t
    unfold getHttp
    split
    · exact ⟨_, rfl⟩
    · simp [register, hu]
  have hb : ∀ t : State, (protocol c n = .callback → c.canCall = true) → ∃ r, getSub c t n e = .ok r := by
    intro t hc
    unfold getSub
    split
    · exact ⟨_, rfl⟩
    · unfold register
      cases hq : protocol c n <;> simp_all
  constructor
  · obtain ⟨⟨t, x⟩, hx⟩ := hh (after c s calls)
    by_cases hv : protocol c n = .websocket ∧ c.viaWs n
    · obtain ⟨⟨t', x'⟩, hx'⟩ := hb t (by simp [hv.1])
      exact ⟨x', by simp [execute, he, hx, hv, hx']⟩
    · exact ⟨x, by simp only [execute, he, hx, hv, if_false]⟩
  · intro hc
    obtain ⟨⟨t, x⟩, hx⟩ := hb (after c s calls) hc
    exact ⟨x, by simp [subscribe, he, hx]⟩

/-- **C123, for subgraphs whose subscriptions are over WebSocket or callbacks.** Executors, with their connections, are
used again: a later request to the same endpoint is given to the same one, whatever happens in between. -/
theorem C123_reuse_partial {c : Config Req} {l : List (String × String)} {s : State} (h : build c l = .ok s)
    (before between : List (Call Req)) {n : String} (hp : protocol c n ≠ .http) {q q' : Req} {x : Ex}
    (he : resolve c s n q' = resolve c s n q) :
    ((execute c (after c s before) n q).2 = .ok x →
      (execute c (after c (execute c (after c s before) n q).1 between) n q').2 = .ok x) ∧
    ((subscribe c (after c s before) n q).2 = .ok x →
      (subscribe c (after c (subscribe c (after c s before) n q).1 between) n q').2 = .ok x) := by
  obtain ⟨i0, m0⟩ := after_inv before (build_inv h)
  generalize after c s before = s0 at *
  rw [← resolve_same m0, ← resolve_same m0] at he
  constructor
  · intro hx
    obtain ⟨i1, m1, _⟩ := execute_inv (n := n) (q := q) i0
    obtain ⟨_, m2⟩ := after_inv between i1
    have k := after_keeps (c := c) between (s := (execute c s0 n q).1)
    have hr : resolve c (after c (execute c s0 n q).1 between) n q' = resolve c s0 n q := by
      rw [resolve_same (m1.trans m2), he]
    generalize after c (execute c s0 n q).1 between = s2 at *
    unfold execute at hx k
    unfold execute
    rw [hr]
    split at hx
    · cases hx
    next e hres =>
      simp only [hres] at k ⊢
      split at hx
      · cases hx
      next s1 x1 h1 =>
        simp only [h1] at k
        have hk1 := (getHttp_keeps h1).2
        by_cases hv : protocol c n = .websocket ∧ c.viaWs n
        · simp only [hv, and_self, if_true] at hx k ⊢
          split at hx
          · cases hx
          next s3 x3 h3 =>
            cases hx
            simp only [h3] at k
            have hk3 := (getSub_keeps h3).2 hp
            have a := k.1 _ _ _ hp ((getSub_keeps h3).1.1 _ _ _ hp hk1)
            have b := k.2 _ _ _ hk3
            simp [getHttp, getSub, a, b]
        · simp only [hv, if_false] at hx k ⊢
          cases hx
          have a := k.1 _ _ _ hp hk1
          simp [getHttp, a]
  · intro hx
    obtain ⟨i1, m1, _⟩ := subscribe_inv (n := n) (q := q) i0
    obtain ⟨_, m2⟩ := after_inv between i1
    have k := after_keeps (c := c) between (s := (subscribe c s0 n q).1)
    have hr : resolve c (after c (subscribe c s0 n q).1 between) n q' = resolve c s0 n q := by
      rw [resolve_same (m1.trans m2), he]
    generalize after c (subscribe c s0 n q).1 between = s2 at *
    unfold subscribe at hx k
    unfold subscribe
    rw [hr]
    split at hx
    · cases hx
    next e hres =>
      simp only [hres] at k ⊢
      split at hx
      · cases hx
      next s1 x1 h1 =>
        simp only [h1] at k
        cases hx
        have b := k.2 _ _ _ ((getSub_keeps h1).2 hp)
        simp [getSub, b]

namespace Case

/-- Two subgraphs; the first has a URL of its own, the others one by an expression. -/
def conf (ws : Bool) : Config Nat where
  over n := if n = "a" then some (.url "own") else none
  all := some "e"
  callbacks _ := false
  wsAll := if ws then some none else none
  wsOf _ := none
  canCall := false
  viaWs _ := false
  dedupeAll := true
  dedupeOf n := if n = "a" then some false else none
  compiles _ := true
  run _ q d _ := .str (if q = 0 then d else "other")
  uri e := some ⟨some "https", some "h", some e⟩

/-- The state at the start. -/
def start (ws : Bool) : State :=
  match build (conf ws) [("a", "x"), ("b", "y")] with
  | .ok s => s
  | .error _ => ⟨fun _ => none, fun _ => none, [], none, fun _ _ => none, fun _ _ => none, 0⟩

example (ws : Bool) : build (conf ws) [("a", "x"), ("b", "y")] = .ok (start ws) := rfl
example : (execute (conf false) (start false) "a" 1).2 = .ok ⟨.http, "a", ⟨some "https", some "h", some "own"⟩, false, 0⟩ := rfl
example : (execute (conf false) (start false) "b" 1).2 =
    .ok ⟨.http, "b", ⟨some "https", some "h", some "other"⟩, true, 2⟩ := rfl
example : (subscribe (conf true) (start true) "b" 0).2 =
    .ok ⟨.websocket, "b", ⟨some "wss", some "h", some "y"⟩, false, 2⟩ := rfl
example : protocol (conf true) "b" ≠ .http := by decide

/-- **C123 is refuted** for reuse where subscriptions are over HTTP: these look for an executor where it is never put,
so each makes a new one, which takes the place of that for queries as well. -/
theorem C123_reuse_refuted : ∃ (c : Config Nat) (l : List (String × String)) (s : State) (x y z : Ex),
    build c l = .ok s ∧ (execute c s "b" 0).2 = .ok x ∧ (subscribe c (execute c s "b" 0).1 "b" 0).2 = .ok y ∧
    (execute c (subscribe c (execute c s "b" 0).1 "b" 0).1 "b" 0).2 = .ok z ∧ x ≠ y ∧ x ≠ z :=
  ⟨conf false, [("a", "x"), ("b", "y")], start false, ⟨.http, "b", ⟨some "https", some "h", some "y"⟩, true, 1⟩,
    ⟨.http, "b", ⟨some "https", some "h", some "y"⟩, true, 2⟩, ⟨.http, "b", ⟨some "https", some "h", some "y"⟩, true, 2⟩,
    rfl, rfl, rfl, rfl, by decide, by decide⟩

end Case

end Verif.Target
