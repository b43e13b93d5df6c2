/-!
# Limits on the size of requests

`http_utils/body.rs` and `pipeline/mod.rs:157-187`. The payload is what the HTTP library hands over: a
list of chunks that ends, or breaks off with an error. Besides the result, the model tells how many
bytes were held at most and how many were taken from the connection.
-/

namespace Verif.Gate.Body

/-- What `body_stream.try_next()` yields in turn; at the end of the list the stream has ended. -/
inductive Event where
  | chunk (bytes : List UInt8)
  | broken
  deriving DecidableEq

/-- The `Content-Length` header, after `to_str` and `parse`, `body.rs:103-110`. -/
inductive Length where
  | absent | malformed | declared (n : Nat)
  deriving DecidableEq

/-- `ReadBodyStreamError`, `body.rs:30-47`, and `RequestHeadersTooLarge`. -/
inductive Refused where
  | headers | malformedLength | declaredTooLarge | tooLarge | broken
  deriving DecidableEq

/-- A result; `held` is the largest number of bytes in the buffer together with the chunk in hand,
`taken` the number of bytes taken from the connection. -/
structure Read where
  result : Except Refused (List UInt8)
  held : Nat
  taken : Nat

/-- `MAX_DRAIN_BYTES`, `body.rs:77`. -/
def maxDrain : Nat := 64 * 1024

/-- `drain_body_stream`, `body.rs:79-94`: the number of bytes taken. -/
def drain : Nat → List Event → Nat
  | drained, [] => drained
  | drained, .broken :: _ => drained
  | drained, .chunk b :: rest =>
    if drained < maxDrain then
      if b.isEmpty then drained else drain (drained + b.length) rest
    else drained

/-- The loop of `read_body_stream`, `body.rs:138-149`. -/
def fill (max : Nat) (body : List UInt8) (held : Nat) : List Event → Read
  | [] => ⟨.ok body, held, body.length⟩
  | .broken :: _ => ⟨.error .broken, held, body.length⟩
  | .chunk b :: rest =>
    if b.length > max - body.length then
      ⟨.error .tooLarge, Nat.max held (body.length + b.length), body.length + b.length⟩
    else fill max (body ++ b) (Nat.max held (body.length + b.length)) rest

/-- `read_body_stream`, `body.rs:97-150`. -/
def read (max : Nat) (length : Length) (events : List Event) : Read :=
  match length with
  | .malformed => ⟨.error .malformedLength, 0, 0⟩
  | .declared n =>
    if n > max then ⟨.error .declaredTooLarge, 0, drain 0 events⟩ else fill max [] 0 events
  | .absent => fill max [] 0 events

/-- The capacity reserved before anything is read, `body.rs:132-136`. -/
def reserved (max : Nat) : Length → Nat
  | .declared n => if n > max then 0 else n
  | _ => 0

/-- The size of the headers, `mod.rs:162-168`. -/
def headerSize (headers : List (List UInt8 × List UInt8)) : Nat :=
  (headers.map fun h => h.1.length + h.2.length + 4).sum

/-- `mod.rs:157-187`, without the CSRF check in between, which reads nothing. -/
def receive (maxHeaders maxBody : Nat) (headers : List (List UInt8 × List UInt8)) (length : Length)
    (events : List Event) : Read :=
  if headerSize headers > maxHeaders then ⟨.error .headers, 0, drain 0 events⟩
  else read maxBody length events

/-! ## Specification -/

/-- The bytes of a header block as it is on the wire: `name: value\r\n` for each header. -/
def wire (headers : List (List UInt8 × List UInt8)) : List UInt8 :=
  headers.flatMap fun h => h.1 ++ [58, 32] ++ h.2 ++ [13, 10]

/-- The payload, if it is complete. -/
def payload : List Event → Option (List UInt8)
  | [] => some []
  | .broken :: _ => none
  | .chunk b :: rest => (payload rest).map (b ++ ·)

/-- The size of the largest chunk. -/
def largest : List Event → Nat
  | [] => 0
  | .broken :: rest => largest rest
  | .chunk b :: rest => Nat.max b.length (largest rest)

/-! ## Proofs -/

theorem wire_length (headers : List (List UInt8 × List UInt8)) :
    (wire headers).length = headerSize headers := by
  induction headers with
  | nil => rfl
  | cons h rest ih =>
    simp only [wire, headerSize] at ih
    simp only [wire, headerSize, List.flatMap_cons, List.length_append, List.map_cons, List.sum_cons, ih,
      List.length_cons, List.length_nil]
    omega

theorem fill_ok {max : Nat} {events : List Event} : ∀ {body : List UInt8} {held : Nat} {out : List UInt8},
    body.length ≤ max → (fill max body held events).result = .ok out →
      (∃ p, payload events = some p ∧ out = body ++ p) ∧ out.length ≤ max := by
  induction events with
  | nil =>
    intro body held out hb h
    simp only [fill, Except.ok.injEq] at h
    subst h
    exact ⟨⟨[], rfl, by simp⟩, hb⟩
  | cons ev rest ih =>
    intro body held out hb h
    cases ev with
    | broken => simp [fill] at h
    | chunk b =>
      simp only [fill] at h
      split at h
      · cases h
      · rename_i hle
        obtain ⟨⟨p, hp, ho⟩, hl⟩ := ih (by simp only [List.length_append]; omega) h
        exact ⟨⟨b ++ p, by simp [payload, hp], by simp [ho]⟩, hl⟩

theorem fill_accepts {max : Nat} {events : List Event} : ∀ {body p : List UInt8} {held : Nat},
    payload events = some p → (body ++ p).length ≤ max →
      (fill max body held events).result = .ok (body ++ p) := by
  induction events with
  | nil => intro body p held hp _; simp only [payload, Option.some.injEq] at hp; subst hp; simp [fill]
  | cons ev rest ih =>
    intro body p held hp hl
    cases ev with
    | broken => cases hp
    | chunk b =>
      simp only [payload, Option.map_eq_some_iff] at hp
      obtain ⟨p', hp', rfl⟩ := hp
      simp only [List.length_append] at hl
      simp only [fill]
      rw [if_neg (by omega), ih hp' (by simp only [List.length_append]; omega)]
      simp

theorem fill_bounds {max : Nat} {events : List Event} : ∀ {body : List UInt8} {held K : Nat},
    body.length ≤ max → held ≤ max + K → largest events ≤ K →
      (fill max body held events).held ≤ max + K ∧ (fill max body held events).taken ≤ max + K := by
  induction events with
  | nil => intro body held K hb hh _; exact ⟨hh, by simp [fill]; omega⟩
  | cons ev rest ih =>
    intro body held K hb hh hk
    cases ev with
    | broken => exact ⟨hh, by simp [fill]; omega⟩
    | chunk c =>
      have hc : Nat.max c.length (largest rest) ≤ K := hk
      have hc1 := Nat.le_trans (Nat.le_max_left ..) hc
      have hc2 := Nat.le_trans (Nat.le_max_right ..) hc
      simp only [fill]
      split
      · exact ⟨Nat.max_le.mpr ⟨hh, by omega⟩, by simp only; omega⟩
      · exact ih (by simp only [List.length_append]; omega) (Nat.max_le.mpr ⟨hh, by omega⟩) hc2

theorem drain_le {events : List Event} : ∀ {d K : Nat}, d ≤ maxDrain + K → largest events ≤ K →
    drain d events ≤ maxDrain + K := by
  induction events with
  | nil => intro d K hd _; exact hd
  | cons ev rest ih =>
    intro d K hd hk
    cases ev with
    | broken => exact hd
    | chunk c =>
      have hc : Nat.max c.length (largest rest) ≤ K := hk
      have hc1 := Nat.le_trans (Nat.le_max_left ..) hc
      have hc2 := Nat.le_trans (Nat.le_max_right ..) hc
      simp only [drain]
      split
      · split
        · exact hd
        · exact ih (by omega) hc2
      · exact hd

/-! ## C49 -/

/-- **C49** A request gets past the limits exactly if its header block is no longer than allowed, the
length it declares (if any) is a number no larger than allowed, and its payload arrives completely and
is no larger than allowed; then the body is the payload, byte for byte. -/
theorem C49_accepted (maxHeaders maxBody : Nat) (headers : List (List UInt8 × List UInt8))
    (length : Length) (events : List Event) (body : List UInt8) :
    (receive maxHeaders maxBody headers length events).result = .ok body ↔
      (wire headers).length ≤ maxHeaders ∧ length ≠ .malformed ∧
      (∀ n, length = .declared n → n ≤ maxBody) ∧ payload events = some body ∧ body.length ≤ maxBody := by
  have hf : (fill maxBody [] 0 events).result = .ok body ↔
      payload events = some body ∧ body.length ≤ maxBody := by
    constructor
    · intro h
      obtain ⟨⟨p, hp, ho⟩, hl⟩ := fill_ok (Nat.zero_le _) h
      simp only [List.nil_append] at ho
      exact ⟨ho ▸ hp, hl⟩
    · rintro ⟨hp, hl⟩
      simpa using fill_accepts (body := []) (held := 0) hp (by simpa using hl)
  rw [wire_length]
  simp only [receive]
  split
  · simp; omega
  · rename_i hh
    cases length with
    | malformed => simp [read]
    | absent => simp only [read, hf]; simp; omega
    | declared n =>
      simp only [read]
      split
      · rename_i hn
        simp only [reduceCtorEq, false_iff]
        rintro ⟨_, _, h, _⟩
        have := h n rfl
        omega
      · simp only [hf, ne_eq, reduceCtorEq, not_false_eq_true, Length.declared.injEq, true_and]
        constructor
        · rintro ⟨h1, h2⟩; exact ⟨by omega, fun m hm => by omega, h1, h2⟩
        · rintro ⟨_, _, h⟩; exact h

/-- **C49** However much a client sends and however it declares or cuts it, the router holds at most
the allowed number of bytes and one chunk, and reserves no more than the allowed number in advance. -/
theorem C49_memory (maxHeaders maxBody : Nat) (headers : List (List UInt8 × List UInt8))
    (length : Length) (events : List Event) :
    (receive maxHeaders maxBody headers length events).held ≤ maxBody + largest events ∧
      reserved maxBody length ≤ maxBody := by
  constructor
  · simp only [receive, read]
    repeat' split
    all_goals first | exact Nat.zero_le _ | exact (fill_bounds (Nat.zero_le _) (Nat.zero_le _) (Nat.le_refl _)).1
  · simp only [reserved]
    repeat' split
    all_goals omega

/-- **C49** The router stops reading: it takes no more bytes than allowed, or 64 KiB if the request is
refused at once, and one chunk. -/
theorem C49_taken (maxHeaders maxBody : Nat) (headers : List (List UInt8 × List UInt8))
    (length : Length) (events : List Event) :
    (receive maxHeaders maxBody headers length events).taken ≤
      Nat.max maxBody (64 * 1024) + largest events := by
  have h1 : maxBody ≤ Nat.max maxBody (64 * 1024) := Nat.le_max_left ..
  have h2 : maxDrain ≤ Nat.max maxBody (64 * 1024) := Nat.le_max_right ..
  have hd : drain 0 events ≤ maxDrain + largest events := drain_le (Nat.zero_le _) (Nat.le_refl _)
  have hf := (fill_bounds (max := maxBody) (body := []) (held := 0) (events := events) (Nat.zero_le _)
    (Nat.zero_le _) (Nat.le_refl _)).2
  simp only [receive, read]
  repeat' split
  all_goals try simp only
  all_goals omega

/-- **C49** Nothing is read beyond the chunk that crosses the limit. -/
theorem C49_stops (max : Nat) (length : Length) (a b : List Event) (bytes : List UInt8)
    (h : (read max length a).result = .error .tooLarge) : read max length (a ++ .chunk bytes :: b) = read max length a := by
  have key : ∀ (evs : List Event) (body : List UInt8) (held : Nat),
      (fill max body held evs).result = .error .tooLarge →
      fill max body held (evs ++ .chunk bytes :: b) = fill max body held evs := by
    intro evs
    induction evs with
    | nil => intro body held h; simp [fill] at h
    | cons ev rest ih =>
      intro body held h
      cases ev with
      | broken => simp [fill] at h
      | chunk c =>
        simp only [fill, List.cons_append] at h ⊢
        split
        · rfl
        · rename_i hc; rw [if_neg hc] at h; exact ih _ _ h
  cases length with
  | malformed => simp [read] at h
  | absent => exact key _ _ _ h
  | declared n =>
    simp only [read] at h ⊢
    split
    · rename_i hn; rw [if_pos hn] at h; cases h
    · rename_i hn; rw [if_neg hn] at h; exact key _ _ _ h

/-! ### Cases -/

example : (receive 20 4 [([104], [1, 2])] .absent [.chunk [1, 2], .chunk [], .chunk [3, 4]]).result =
    .ok [1, 2, 3, 4] := rfl
example : (receive 20 4 [([104], [1, 2])] .absent [.chunk [1, 2], .chunk [3, 4, 5], .chunk [6]]).result =
    .error .tooLarge := rfl
example : (receive 20 4 [] (.declared 5) [.chunk [1, 2, 3, 4, 5]]).result = .error .declaredTooLarge := rfl
example : (receive 6 4 [([104], [1, 2])] .absent []).result = .error .headers := rfl

end Verif.Gate.Body
