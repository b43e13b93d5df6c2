import Verif.Stream.Writers

/-!
# C66 to C70: streams of events
-/

namespace Verif.Stream

/-! ## Small streams -/

section
variable {R : Type}

/-- What is left of a buffer is not more than the buffer, and no loop says that the limit was exceeded. -/
def Small (n : Nat) (x : List (Out R) × State) : Prop :=
  ¬ Overrun x.1 ∧ ∀ s b, x.2 = .wait s b → b.length ≤ n

theorem Small.mono {n m : Nat} {x : List (Out R) × State} (h : Small n x) (hn : n ≤ m) : Small m x :=
  ⟨h.1, fun s b e => Nat.le_trans (h.2 s b e) hn⟩

theorem onEvent_small {read : Bytes → Option R} {b : Bytes} : ¬ Overrun (onEvent read b).1 := by
  unfold onEvent Overrun
  cases h : parseEvent b with
  | error e =>
    have : e = .utf8 := by
      unfold parseEvent at h
      split at h
      · cases h
      · cases h
        rfl
    subst this
    simp
  | ok e =>
    cases e with
    | none => simp
    | some e =>
      simp only
      split
      · split <;> simp
      · split <;> simp

theorem sseLoop_small {read : Bytes → Option R} : ∀ (n : Nat) (b : Bytes), Small b.length (sseLoop read n b)
  | 0, b => by simp [Small, sseLoop, Overrun]
  | n + 1, b => by
    rw [sseLoop]
    cases hc : cutEvent b with
    | none => simp [Small, Overrun]
    | some y =>
      obtain ⟨e, r⟩ := y
      have hl := (cutEvent_spec hc).1
      have ho := onEvent_small (read := read) (b := e)
      simp only
      cases h : onEvent read e with
      | mk o c =>
        rw [h] at ho
        cases c with
        | false => exact ⟨ho, fun _ _ e => by cases e⟩
        | true =>
          have ih := (sseLoop_small (read := read) n r).mono (m := b.length) (by rw [hl]; simp)
          simp only
          exact ⟨fun hh => (List.mem_append.1 hh).elim ho ih.1, ih.2⟩

theorem payload_small {k : Reader R} {b : Bytes} : payloadOf k b ≠ .error .limit := by
  have hs : ∀ b, k.some b ≠ .error .limit := by
    intro b
    unfold Reader.some
    split <;> simp
  unfold payloadOf
  split
  · simp
  · split
    · split
      · split
        · exact hs _
        · simp
      · exact hs _
    · exact hs _
    · simp

theorem onPart_small {k : Reader R} {b : Bytes} : ¬ Overrun (onPart k b).1 := by
  unfold onPart Overrun
  split
  · simp
  · have : parsePart k b ≠ .error .limit := by
      unfold parsePart
      split
      · split
        · simp
        · exact payload_small
      · simp
    cases h : parsePart k b with
    | error e =>
      rw [h] at this
      simp only [List.mem_singleton]
      intro he
      cases he
      exact this rfl
    | ok r => cases r <;> simp

theorem afterLine_length (b : Bytes) : (afterLine b).length ≤ b.length := by
  unfold afterLine
  split
  next r h => exact Nat.le_of_lt (cutLine_length (b := b) (l := (cutLine b).1) (r := r) (Prod.ext rfl h))
  next => exact Nat.le_refl _

theorem partLoop_small {k : Reader R} {d : Bytes} : ∀ (n : Nat) (s : Bool) (b : Bytes),
    Small b.length (partLoop k d n s b)
  | 0, s, b => by simp [Small, partLoop, Overrun]
  | n + 1, false, b => by
    rw [partLoop]
    cases hf : firstPart d b with
    | none => simp [Small, Overrun]
    | some r =>
      simp only
      refine (partLoop_small n true r).mono ?_
      unfold firstPart at hf
      split at hf
      · cases hf
      next p q hc =>
        have h1 := congrArg List.length (cutAt_spec hc)
        have h2 := cutLine_length (b := q) (l := (cutLine q).1) (r := r) (Prod.ext rfl hf)
        simp only [List.length_append] at h1
        omega
  | n + 1, true, b => by
    rw [partLoop]
    cases hf : nextPart d b with
    | none => simp [Small, Overrun]
    | some y =>
      obtain ⟨p, last, r⟩ := y
      have hr : r.length ≤ b.length := by
        unfold nextPart at hf
        split at hf
        · cases hf
        next p q hc =>
          have h1 := congrArg List.length (cutAt_spec hc)
          simp only [List.length_append] at h1
          split at hf <;> cases hf
          · have := afterLine_length (q.drop 2)
            simp only [List.length_drop] at this
            omega
          · have := afterLine_length q
            omega
      have ho := onPart_small (k := k) (b := p)
      simp only
      cases h : onPart k p with
      | mk o c =>
        rw [h] at ho
        cases c with
        | false => exact ⟨ho, fun _ _ e => by cases e⟩
        | true =>
          have ih := (partLoop_small (k := k) (d := d) n true r).mono hr
          simp only
          split
          · exact ⟨ho, fun _ _ e => by cases e⟩
          · exact ⟨fun hh => (List.mem_append.1 hh).elim ho ih.1, ih.2⟩

theorem run_small {step : State → Frame → List (Out R) × State}
    (hover : ∀ f, step .over f = ([], .over))
    (hstep : ∀ s b d, (b ++ d).length ≤ maxBuffer → Small (b ++ d).length (step (.wait s b) (.data d))) :
    ∀ (cs : List Bytes) (s : State), (∀ t b, s = .wait t b → b.length + cs.flatten.length ≤ maxBuffer) →
    ¬ Overrun (runFrames step s (cs.map .data)).1
  | [], s, _ => by simp [runFrames, Overrun]
  | c :: cs, s, h => by
    simp only [List.map_cons, runFrames]
    cases s with
    | over =>
      rw [hover, run_over hover]
      simp [Overrun]
    | wait t b =>
      have hb := h t b rfl
      simp only [List.flatten_cons, List.length_append] at hb
      have hs := hstep t b c (by simp only [List.length_append]; omega)
      have ih := run_small hover hstep cs (step (.wait t b) (.data c)).2 (by
        intro t' b' e
        have := hs.2 t' b' e
        simp only [List.length_append] at this
        omega)
      exact fun hh => (List.mem_append.1 hh).elim hs.1 ih

end

/-! ## C66, C69: how a stream is split -/

/-- C66: what is read from an event stream does not depend on how it is split into frames, unless the buffer of 10 MiB
was full for one of them. Both the responses and the state of the reader, such as that the stream is over, are the
same. -/
theorem C66_event_stream {R : Type} (read : Bytes → Option R) {fs gs : List Frame} {b : Bytes} (hf : Brings fs b)
    (hg : Brings gs b) (h1 : ¬ Overrun (sseRead read fs).1) (h2 : ¬ Overrun (sseRead read gs).1) :
    sseRead read fs = sseRead read gs := by
  obtain ⟨cs, hc, rfl⟩ := hf
  obtain ⟨ds, hd, rfl⟩ := hg
  have e1 := sse_chunks (read := read) cs [] rfl h1
  have e2 := sse_chunks (read := read) ds [] rfl h2
  rw [sseRead, sseRead, e1, e2, hc, hd]

/-- C66: the buffer is never full for a stream of at most 10 MiB. -/
theorem C66_small_event_stream {R : Type} (read : Bytes → Option R) {fs : List Frame} {b : Bytes} (hf : Brings fs b)
    (hb : b.length ≤ maxBuffer) : ¬ Overrun (sseRead read fs).1 := by
  obtain ⟨cs, rfl, rfl⟩ := hf
  refine run_small (fun f => by cases f <;> rfl) ?_ cs _ ?_
  · intro s b d hl
    rw [sseStep, if_neg (by omega)]
    exact sseLoop_small _ _
  · intro t b e
    cases e
    simpa using hb

/-- C69: nor for a multipart stream of at most 10 MiB. -/
theorem C69_small {R : Type} (k : Reader R) (boundary : Bytes) {fs : List Frame} {b : Bytes} (hf : Brings fs b)
    (hb : b.length ≤ maxBuffer) : ¬ Overrun (partRead k boundary fs).1 := by
  obtain ⟨cs, rfl, rfl⟩ := hf
  refine run_small (fun f => by cases f <;> rfl) ?_ cs _ ?_
  · intro s b d hl
    rw [partStep, if_neg (by omega)]
    exact partLoop_small _ _ _
  · intro t b e
    cases e
    simpa using hb

/-- C69, partial: the responses that are read from a multipart stream do not depend on how it is split, if its parts
are well formed and the delimiter does not occur in them. What is missing: when reading ends, see
`C69_split_refuted`, and all other streams. -/
theorem C69_split_partial {R : Type} (k : Reader R) {boundary : Bytes} (hb : boundary ≠ []) (h1 : OneLine boundary)
    {ps : List Part} (hp : ∀ p ∈ ps, p.Ok (ascii "--" ++ boundary)) {fs gs : List Frame}
    (hf : Brings fs (multipart (ascii "--" ++ boundary) ps)) (hg : Brings gs (multipart (ascii "--" ++ boundary) ps))
    (ho : ¬ Overrun (partRead k boundary fs).1) (ho' : ¬ Overrun (partRead k boundary gs).1) :
    (partRead k boundary fs).1 = (partRead k boundary gs).1 := by
  rw [part_read hb h1 hp hf ho, part_read hb h1 hp hg ho']

/-- A reader that takes any text for a response. -/
def plainReader : Reader Bytes := ⟨fun _ => .missing, fun _ => .missing, some⟩

/-- C69 does not hold for multipart streams: if the last delimiter is split after `--graphql`, reading does not end,
though it ends if the same bytes arrive at once. -/
theorem C69_split_refuted : ∃ (fs gs : List Frame) (b : Bytes), Brings fs b ∧ Brings gs b ∧
    (partRead plainReader (ascii "graphql") fs).2 = .over ∧
    (partRead plainReader (ascii "graphql") gs).2 = .wait true (ascii "--") := by
  refine ⟨[.data (multipart (ascii "--graphql") [⟨[jsonHeader], ascii "{}"⟩])],
    [.data (multipart (ascii "--graphql") [⟨[jsonHeader], ascii "{}"⟩]).dropLast.dropLast, .data (ascii "--")],
    multipart (ascii "--graphql") [⟨[jsonHeader], ascii "{}"⟩], ⟨[_], ?_, rfl⟩, ⟨[_, _], ?_, rfl⟩, ?_, ?_⟩ <;>
  decide +kernel

/-! ## C67, C69: what arrives -/

/-- C67, partial: whatever events a subgraph sends, and however its stream is split, each answer arrives once and in
order, up to the event `complete`. What is missing: lines that end with CR, or each in its own way, see
`C67_line_ends_refuted`. -/
theorem C67_event_stream_partial {R : Type} (read : Bytes → Option R) {ms : List Message} (hm : ∀ m ∈ ms, m.Ok)
    {fs : List Frame} (hf : Brings fs (ms.flatMap Message.text)) (ho : ¬ Overrun (sseRead read fs).1) :
    (sseRead read fs).1 = meaning read ms := by
  obtain ⟨cs, hc, rfl⟩ := hf
  have e := sse_chunks (read := read) cs [] rfl ho
  rw [sseRead, e, hc]
  exact sse_messages ms hm

/-- C69, partial: the same for the parts of a multipart stream, if the delimiter does not occur in any of them. What is
missing: parts with the delimiter inside, see `C69_parts_refuted`. -/
theorem C69_parts_partial {R : Type} (k : Reader R) {boundary : Bytes} (hb : boundary ≠ []) (h1 : OneLine boundary)
    {ps : List Part} (hp : ∀ p ∈ ps, p.Ok (ascii "--" ++ boundary)) {fs : List Frame}
    (hf : Brings fs (multipart (ascii "--" ++ boundary) ps)) (ho : ¬ Overrun (partRead k boundary fs).1) :
    (partRead k boundary fs).1 = answers k ps :=
  part_read hb h1 hp hf ho

/-- C69 does not hold if the text of the delimiter occurs in an answer, though not at the begin of a line, where it is
no delimiter by RFC 2046: the answer is cut. -/
theorem C69_parts_refuted : ∃ p : Part,
    (mimeRead (ascii "graphql") (multipart (ascii "--graphql") [p])).1.map bodyOf = [p.body] ∧
    answers plainReader [p] = [.ok (ascii "{\"data\":{\"a\":\"--graphql\"}}")] ∧
    (partRead plainReader (ascii "graphql") [.data (multipart (ascii "--graphql") [p])]).1.head?.map Except.toOption =
      some (some (ascii "{\"data\":{\"a\":\"")) := by
  refine ⟨⟨[jsonHeader], ascii "{\"data\":{\"a\":\"--graphql\"}}"⟩, ?_, rfl, ?_⟩ <;> decide +kernel

/-- C67 does not hold for streams whose lines end with CR, or with LF and CR LF in turn: the HTML standard allows
both, but the answer is never read. -/
theorem C67_line_ends_refuted : ∃ b c : Bytes,
    htmlRead b = [(ascii "next", ascii "{}")] ∧ (sseRead some [.data b]).1.length = 0 ∧
    htmlRead c = [(ascii "next", ascii "{}")] ∧ (sseRead some [.data c]).1.length = 0 := by
  refine ⟨ascii "event: next\rdata: {}\r\r", ascii "event: next\ndata: {}\n\r\n", ?_, ?_, ?_, ?_⟩ <;> decide +kernel

/-! ## C68, C70: what clients see -/

/-- C68, partial: whatever answers there are, with heartbeats between them at any time, a client that follows the HTML
standard sees each of them once and in order, as soon as it was sent. What is missing: that it sees the end, see
`C68_complete_refuted`, and answers of several lines, see `C68_newline_refuted`. -/
theorem C68_event_stream_partial {js : List Input} (h : ∀ i ∈ js, i.Ok) :
    htmlRead (sseWrite js).1 = (answersOf js).map (fun a => (ascii "next", a)) ∧
    htmlRead (sseWrite (js ++ [.finished])).1 = (answersOf js).map (fun a => (ascii "next", a)) :=
  ⟨(html_write js h).1, (html_write js h).2.1⟩

/-- C68 does not hold for the end: what a client that follows the HTML standard sees is the same whether the
subscription has finished or not, as `event: complete` has no data. -/
theorem C68_complete_refuted {js : List Input} (h : ∀ i ∈ js, i.Ok) :
    htmlRead (sseWrite (js ++ [.finished])).1 = htmlRead (sseWrite js).1 := by
  rw [(html_write js h).1, (html_write js h).2.1]

/-- C68 does not hold for an answer with a line break, as can be in the raw text of a custom scalar: the client sees
only its first line. -/
theorem C68_newline_refuted : ∃ a : Bytes, valid a = true ∧
    htmlRead (sseWrite [.answer a]).1 = [(ascii "next", ascii "{\"data\":{\"a\":{")] ∧
    a = ascii "{\"data\":{\"a\":{\n\"b\":1}}}" := by
  refine ⟨_, ?_, ?_, rfl⟩ <;> decide +kernel

/-- C70, partial: whatever answers there are, with heartbeats between them, a client that follows RFC 2046 sees each of
them once and in order in the whole stream, as the payload of a part, a heartbeat as `{}`, and the end. What is
missing: that it sees them in time, see `C70_apollo_late_refuted`. -/
theorem C70_apollo_partial {js : List Input} (h : ∀ i ∈ js, i.Plain) :
    mimeRead (ascii "graphql") (apolloWrite (js ++ [.finished])).1 = ((js.map apolloBody).map shown, true) := by
  rw [apollo_closed js h, mime_start]
  refine mime_closed rfl _ ?_ _ (closedTail_length _)
  intro a ha
  obtain ⟨i, hi, rfl⟩ := List.mem_map.1 ha
  exact apolloBody_plain (h i hi)

/-- C70 does not hold in time: as long as the stream is not over, the last part that was sent is not complete for a
client, as the delimiter after it is sent with the next part only. So an answer is seen after the next heartbeat, or
the next answer. -/
theorem C70_apollo_late_refuted {js : List Input} (h : ∀ i ∈ js, i.Plain) (hne : js ≠ []) :
    mimeRead (ascii "graphql") (apolloWrite js).1 = ((js.dropLast.map apolloBody).map shown, false) := by
  rw [apollo_open js hne h, mime_start]
  have := mime_open (d := apolloDelim) rfl (js.map apolloBody) (by
    intro a ha
    obtain ⟨i, hi, rfl⟩ := List.mem_map.1 ha
    exact apolloBody_plain (h i hi)) _ (openTail_length (d := apolloDelim) _ (by simpa using hne))
  rw [this]
  simp [List.map_dropLast]

/-- C70, partial: the same for incremental delivery. -/
theorem C70_delivery_partial {js : List Input} (h : ∀ i ∈ js, i.Plain) :
    mimeRead (ascii "-") (deliveryWrite (js ++ [.finished])).1 = ((answersOf js).map shown, true) := by
  rw [delivery_closed js h, mime_start]
  exact mime_closed rfl _ (answers_plain h) _ (closedTail_length _)

/-- C70 does not hold in time for incremental delivery. There are no heartbeats, so an answer is seen when the next
one is there. -/
theorem C70_delivery_late_refuted {js : List Input} (h : ∀ i ∈ js, i.Plain) :
    mimeRead (ascii "-") (deliveryWrite js).1 = ((answersOf js).dropLast.map shown, false) := by
  rw [delivery_open js h]
  simp only
  by_cases hn : answersOf js = []
  · rw [if_pos hn, hn]
    decide
  · rw [if_neg hn, mime_start]
    exact mime_open rfl _ (answers_plain h) _ (openTail_length _ hn)

/-! ## A router that is the subgraph of a router -/

theorem Object.clean {a : Bytes} (h : Object a) : Clean a := by
  obtain ⟨_, _, m, rfl⟩ := h
  have h1 : ascii "{" = [123] := by decide
  have h2 : ascii "}" = [125] := by decide
  rw [h1, h2]
  constructor
  · rintro s hs ⟨t, ht⟩
    have hh : s.head? ≠ some 123 ∧ s ≠ [] := (by decide +kernel : ∀ s ∈ spaces, s.head? ≠ some 123 ∧ s ≠ []) s hs
    cases s with
    | nil => exact hh.2 rfl
    | cons c r =>
      simp only [List.cons_append, List.cons.injEq] at ht
      exact hh.1 (by simp [ht.1])
  · rintro s hs ⟨t, ht⟩
    have hh := (by decide +kernel : ∀ s ∈ spaces, s.reverse.head? ≠ some 125 ∧ s.reverse ≠ []) s hs
    have := congrArg List.reverse ht
    rw [List.reverse_append] at this
    cases hs : s.reverse with
    | nil => exact hh.2 hs
    | cons c r =>
      rw [hs] at this hh
      simp only [List.cons_append, List.reverse_append, List.reverse_cons, List.reverse_nil, List.nil_append,
        List.cons.injEq] at this
      exact hh.1 (by simp [this.1])

/-- The events that are written. -/
def messageOf : Input → Message
  | .answer a => ⟨false, [.event (ascii "next"), .data a]⟩
  | .beat => ⟨false, [.comment []]⟩
  | .finished => ⟨false, [.event (ascii "complete")]⟩

theorem word_ok : Line.Ok (.event (ascii "next")) ∧ Line.Ok (.event (ascii "complete")) := by
  refine ⟨⟨⟨?_, ?_⟩, ?_, ?_, ?_⟩, ⟨⟨?_, ?_⟩, ?_, ?_, ?_⟩⟩ <;> decide +kernel

theorem messageOf_ok {i : Input} (h : i.Object ∨ i = .finished) : (messageOf i).Ok := by
  rcases h with h | rfl
  · cases i with
    | answer a =>
      refine ⟨by simp [messageOf], ?_⟩
      intro l hl
      simp only [messageOf, List.mem_cons, List.not_mem_nil, or_false] at hl
      rcases hl with rfl | rfl
      · exact word_ok.1
      · exact ⟨h.2.1, h.1, Object.clean h⟩
    | beat =>
      refine ⟨by simp [messageOf], ?_⟩
      intro l hl
      simp only [messageOf, List.mem_cons, List.not_mem_nil, or_false] at hl
      subst hl
      exact ⟨by simp [OneLine], rfl⟩
    | finished => cases h
  · refine ⟨by simp [messageOf], ?_⟩
    intro l hl
    simp only [messageOf, List.mem_cons, List.not_mem_nil, or_false] at hl
    subst hl
    exact word_ok.2

theorem write_messages : ∀ (js : List Input), (∀ i ∈ js, i.Object) →
    (sseWrite js).1 = (js.map messageOf).flatMap Message.text ∧
    (sseWrite (js ++ [.finished])).1 = ((js ++ [Input.finished]).map messageOf).flatMap Message.text
  | [], _ => ⟨rfl, by decide +kernel⟩
  | .finished :: _, h => absurd (h .finished (by simp)) (by simp [Input.Object])
  | .beat :: r, h => by
    have ih := write_messages r fun i hi => h i (List.mem_cons_of_mem _ hi)
    have hb : (messageOf .beat).text = ascii ":\n\n" := by decide +kernel
    simp only [List.cons_append, sseWrite, List.map_cons, List.flatMap_cons, hb]
    rw [ih.1, ih.2]
    exact ⟨rfl, rfl⟩
  | .answer a :: r, h => by
    have ih := write_messages r fun i hi => h i (List.mem_cons_of_mem _ hi)
    have ha := h (.answer a) (by simp)
    have hb : (messageOf (.answer a)).text = ascii "event: next\ndata: " ++ a ++ ascii "\n\n" := by
      have h1 : ascii "event: next\ndata: " = ascii "event: " ++ ascii "next" ++ [LF] ++ ascii "data: " := by
        decide +kernel
      have h2 : ascii "\n\n" = [LF, LF] := by decide
      rw [h1, h2]
      simp [messageOf, Message.text, Line.text, Message.newline]
    simp only [List.cons_append, sseWrite, if_pos ha.1, List.map_cons, List.flatMap_cons, hb]
    rw [ih.1, ih.2]
    exact ⟨rfl, rfl⟩

theorem meaning_write {R : Type} {read : Bytes → Option R} {f : Bytes → R} (t : List Input)
    (ht : t = [] ∨ t = [.finished]) : ∀ (js : List Input),
    (∀ i ∈ js, i.Object) → (∀ a ∈ answersOf js, read a = some (f a)) →
    meaning read ((js ++ t).map messageOf) = (answersOf js).map fun a => .ok (f a)
  | [], _, _ => by
    rcases ht with rfl | rfl
    · rfl
    · simp only [List.nil_append, List.map_cons, List.map_nil, meaning]
      rw [if_neg (by decide), if_pos (by decide)]
      rfl
  | .finished :: _, h, _ => absurd (h .finished (by simp)) (by simp [Input.Object])
  | .beat :: r, h, hr => by
    have ih := meaning_write t ht r (fun i hi => h i (List.mem_cons_of_mem _ hi)) hr
    simp only [List.cons_append, List.map_cons, meaning]
    rw [if_neg (by decide), if_neg (by decide), ih]
    rfl
  | .answer a :: r, h, hr => by
    have e : answersOf (.answer a :: r) = a :: answersOf r := rfl
    rw [e] at hr ⊢
    have ih := meaning_write t ht r (fun i hi => h i (List.mem_cons_of_mem _ hi))
      fun x hx => hr x (List.mem_cons_of_mem _ hx)
    have ha : Object a := h (.answer a) (by simp)
    have hne : a ≠ [] := by
      obtain ⟨m, hm⟩ := ha.2.2
      rw [hm]
      simp [ascii]
    simp only [List.cons_append, List.map_cons, meaning]
    have ht : (messageOf (.answer a)).type = some (ascii "next") := rfl
    have hd : joinLF (messageOf (.answer a)).data = a := rfl
    rw [hd, ht, if_pos ⟨rfl, hne⟩, hr a (by simp)]
    simp only [ih]

/-- C68: a router that is the subgraph of another router: whatever answers the one writes, with heartbeats between them,
the other reads each of them once and in order, however the stream is split. -/
theorem C68_router_to_router {R : Type} {read : Bytes → Option R} {f : Bytes → R} {js : List Input}
    (h : ∀ i ∈ js, i.Object) (hr : ∀ a ∈ answersOf js, read a = some (f a)) {fs : List Frame}
    (hf : Brings fs (sseWrite (js ++ [.finished])).1 ∨ Brings fs (sseWrite js).1)
    (ho : ¬ Overrun (sseRead read fs).1) :
    (sseRead read fs).1 = (answersOf js).map fun a => .ok (f a) := by
  rcases hf with hf | hf
  · rw [(write_messages js h).2] at hf
    rw [C67_event_stream_partial read (fun m hm => ?_) hf ho, meaning_write _ (.inr rfl) js h hr]
    obtain ⟨i, hi, rfl⟩ := List.mem_map.1 hm
    refine messageOf_ok ?_
    rcases List.mem_append.1 hi with hi | hi
    · exact .inl (h i hi)
    · exact .inr (by simpa using hi)
  · rw [(write_messages js h).1] at hf
    rw [C67_event_stream_partial read (fun m hm => ?_) hf ho]
    · have := meaning_write (read := read) (f := f) [] (.inl rfl) js h hr
      rw [List.append_nil] at this
      exact this
    · obtain ⟨i, hi, rfl⟩ := List.mem_map.1 hm
      exact messageOf_ok (.inl (h i hi))

theorem closed_multipart {d : Bytes} : ∀ js : List Input,
    d ++ closedTail d (js.map apolloBody) = multipart d (js.map partOf)
  | [] => rfl
  | i :: js => by
    rw [List.map_cons, closedTail, List.map_cons, multipart, ← closed_multipart js]
    simp [partOf, Part.text]

/-- C70, partial: the same for parts, if the delimiter does not occur in any of them. What is missing: such parts. -/
theorem C70_router_to_router_partial {R : Type} {k : Reader R} {f : Bytes → R} {js : List Input}
    (h : ∀ i ∈ js, i.Object) (hw : ∀ i ∈ js, Without (ascii "--graphql") (partOf i).text)
    (hr : ∀ a ∈ answersOf js, k.payload (ascii "{\"payload\":" ++ a ++ ascii "}") = .raw a ∧ k.response a = some (f a))
    {fs : List Frame} (hf : Brings fs (apolloWrite (js ++ [.finished])).1)
    (ho : ¬ Overrun (partRead k (ascii "graphql") fs).1) :
    (partRead k (ascii "graphql") fs).1 = (answersOf js).map fun a => .ok (f a) := by
  have hpl : ∀ i ∈ js, i.Plain := by
    intro i hi
    have := h i hi
    cases i with
    | answer a =>
      obtain ⟨h1, h2, m, hm⟩ := this
      exact ⟨h1, h2.1, m ++ ascii "}", by rw [hm]; simp⟩
    | beat => trivial
    | finished => exact this
  rw [apollo_closed js hpl, closed_multipart] at hf
  have hok : ∀ p ∈ js.map partOf, p.Ok (ascii "--" ++ ascii "graphql") := by
    intro p hp
    obtain ⟨i, hi, rfl⟩ := List.mem_map.1 hp
    refine ⟨by simp [partOf], ?_, (apolloBody_plain (hpl i hi)).1, ?_, hw i hi⟩
    · intro x hx
      simp only [partOf, List.mem_singleton] at hx
      subst hx
      refine ⟨?_, ⟨?_, ?_⟩, ?_⟩ <;> decide +kernel
    · cases i with
      | answer a =>
        exact ⟨ascii "\"payload\":" ++ a, by
          simp only [partOf, apolloBody]
          rw [show ascii "{\"payload\":" = ascii "{" ++ ascii "\"payload\":" from by decide +kernel]
          simp⟩
      | beat => exact ⟨[], by decide⟩
      | finished => exact ⟨[], by decide⟩
  rw [C69_parts_partial k (by decide) ⟨by decide, by decide⟩ hok hf ho]
  clear hf ho hok hw hpl
  induction js with
  | nil => rfl
  | cons i js ih =>
    have ih' := fun hh => ih (fun x hx => h x (List.mem_cons_of_mem _ hx)) hh
    cases i with
    | finished => exact absurd (h .finished (by simp)) (by simp [Input.Object])
    | beat =>
      have := ih' hr
      rw [List.map_cons, answers]
      have e : payloadOf k (partOf .beat).body = .ok none := by
        simp [payloadOf, partOf, apolloBody]
      rw [e]
      exact this
    | answer a =>
      have ea : answersOf (.answer a :: js) = a :: answersOf js := rfl
      rw [ea] at hr ⊢
      have := ih' fun x hx => hr x (List.mem_cons_of_mem _ hx)
      have ha := hr a (by simp)
      have hne : a ≠ ascii "null" := by
        obtain ⟨_, _, m, hm⟩ := h (.answer a) (by simp)
        rw [hm]
        intro e
        have := congrArg List.head? e
        revert this
        simp [ascii]
      have hne2 : ascii "{\"payload\":" ++ a ++ ascii "}" ≠ ascii "{}" := by
        intro e
        have := congrArg List.length e
        simp [ascii] at this
      rw [List.map_cons, answers]
      have e : payloadOf k (partOf (.answer a)).body = .ok (some (f a)) := by
        change payloadOf k (ascii "{\"payload\":" ++ a ++ ascii "}") = _
        rw [payloadOf, if_neg hne2, ha.1]
        simp only [if_neg hne, Reader.some, ha.2]
      rw [e]
      simp only [this]
      rfl

/-! ## The hypotheses can be met -/

/-- A subscription of two answers with a heartbeat, a comment and an unknown field, in two styles of lines. -/
def sample : List Message :=
  [⟨false, [.comment (ascii " hi")]⟩,
   ⟨true, [.event (ascii "next"), .other (ascii "id") (ascii "1"), .data (ascii "{\"data\":"), .data (ascii "{}}")]⟩,
   ⟨false, [.data (ascii "{}"), .event (ascii "next")]⟩, ⟨false, [.event (ascii "complete")]⟩]

example : (∀ m ∈ sample, m.Ok) ∧ meaning some sample = [.ok (ascii "{\"data\":\n{}}"), .ok (ascii "{}")] ∧
    Brings ((sample.flatMap Message.text).map fun b => .data [b]) (sample.flatMap Message.text) := by
  refine ⟨?_, rfl, ⟨(sample.flatMap Message.text).map fun b => [b], ?_, ?_⟩⟩
  · simp only [sample, List.forall_mem_cons]
    refine ⟨⟨by simp, ?_⟩, ⟨by simp, ?_⟩, ⟨by simp, ?_⟩, ⟨by simp, ?_⟩, by simp⟩ <;>
    simp only [List.forall_mem_cons, Line.Ok, OneLine, Clean, List.not_mem_nil, false_implies, implies_true,
      and_true] <;> decide +kernel
  · decide +kernel
  · rw [List.map_map]
    rfl

example : (sample.flatMap Message.text).length ≤ maxBuffer := by decide +kernel

/-- A stream of a heartbeat and an answer. -/
def sampleParts : List Part :=
  [⟨[jsonHeader, ascii "X: 1"], ascii "{}"⟩, ⟨[jsonHeader], ascii "{\"data\":{\"a\":1}}"⟩]

instance (d b : Bytes) : Decidable (Without d b) := by
  unfold Without
  infer_instance

example : (∀ p ∈ sampleParts, p.Ok (ascii "--graphql")) ∧
    answers plainReader sampleParts = [.ok (ascii "{\"data\":{\"a\":1}}")] := by
  refine ⟨?_, rfl⟩
  simp only [sampleParts, List.forall_mem_cons]
  refine ⟨⟨?_, ?_, ?_, ⟨[], ?_⟩, ?_⟩, ⟨?_, ?_, ?_, ⟨ascii "\"data\":{\"a\":1}", ?_⟩, ?_⟩, ?_⟩ <;>
  (try simp only [List.forall_mem_cons, OneLine, List.not_mem_nil, false_implies, implies_true]) <;> decide +kernel

/-- Two answers with a heartbeat between them. -/
def sampleInputs : List Input := [.answer (ascii "{\"data\":{\"a\":1}}"), .beat, .answer (ascii "{}")]

theorem sampleInputs_object : ∀ i ∈ sampleInputs, i.Object := by
  simp only [sampleInputs, List.forall_mem_cons, Input.Object, Object, OneLine]
  refine ⟨⟨?_, ?_, ⟨ascii "\"data\":{\"a\":1}", ?_⟩⟩, trivial, ⟨?_, ?_, ⟨[], ?_⟩⟩, by simp⟩ <;> decide +kernel

example : (∀ i ∈ sampleInputs, i.Ok) ∧ ∀ i ∈ sampleInputs, i.Plain := by
  have h := sampleInputs_object
  refine ⟨fun i hi => ?_, fun i hi => ?_⟩
  · have := h i hi
    cases i with
    | answer a => exact ⟨this.1, this.2.1⟩
    | beat => trivial
    | finished => exact this
  · have := h i hi
    cases i with
    | answer a =>
      obtain ⟨h1, h2, m, hm⟩ := this
      exact ⟨h1, h2.1, m ++ ascii "}", by rw [hm]; simp⟩
    | beat => trivial
    | finished => exact this

example : (∀ i ∈ sampleInputs, Without (ascii "--graphql") (partOf i).text) ∧
    (∀ a ∈ answersOf sampleInputs, (some a : Option Bytes) = some (id a)) := by
  refine ⟨?_, fun _ _ => rfl⟩
  decide +kernel

end Verif.Stream
