import Verif.Stream.Parts

/-!
# Lemmas about writers
-/

namespace Verif.Stream

/-! ## Event streams -/

theorem htmlLines_skip : ∀ {t : Bytes} (_ : OneLine t) (l b : Bytes), htmlLines l (t ++ b) = htmlLines (l ++ t) b
  | [], _, l, b => by simp
  | c :: t, h, l, b => by
    have hc : c ≠ CR := fun e => h.1 (by simp [e])
    have hl : c ≠ LF := fun e => h.2 (by simp [e])
    have ht : OneLine t := ⟨fun e => h.1 (List.mem_cons_of_mem _ e), fun e => h.2 (List.mem_cons_of_mem _ e)⟩
    rw [List.cons_append, htmlLines.eq_def]
    simp only [if_neg hc, if_neg hl]
    rw [htmlLines_skip ht]
    simp

theorem htmlLines_line {t : Bytes} (h : OneLine t) (b : Bytes) : htmlLines [] (t ++ LF :: b) = t :: htmlLines [] b := by
  rw [htmlLines_skip h, htmlLines.eq_def]
  simp only [show ¬ LF = CR by decide, if_false, if_true]
  simp

theorem oneLine_data {a : Bytes} (h : OneLine a) : OneLine (ascii "data: " ++ a) := words.2.2.2.append h

theorem html_answer {a : Bytes} (h : OneLine a) (b : Bytes) :
    htmlRead (ascii "event: next\ndata: " ++ a ++ ascii "\n\n" ++ b) = (ascii "next", a) :: htmlRead b := by
  have e : ascii "event: next\ndata: " ++ a ++ ascii "\n\n" ++ b =
      ascii "event: next" ++ LF :: ((ascii "data: " ++ a) ++ LF :: ([] ++ LF :: b)) := by
    have h1 : ascii "event: next\ndata: " = ascii "event: next" ++ LF :: ascii "data: " := by decide +kernel
    have h2 : ascii "\n\n" = [LF, LF] := by decide
    rw [h1, h2]
    simp
  have h0 : OneLine [] := by simp [OneLine]
  have h3 : OneLine (ascii "event: next") := by unfold OneLine; decide +kernel
  rw [e, htmlRead, htmlLines_line h3, htmlLines_line (oneLine_data h), htmlLines_line h0]
  have f1 : htmlField (ascii "event: next") = (ascii "event", ascii "next") := by decide +kernel
  have f2 : htmlField (ascii "data: " ++ a) = (ascii "data", a) := by
    have : ascii "data: " ++ a = ascii "data" ++ ([58] ++ (32 :: a)) := by
      rw [show ascii "data: " = ascii "data" ++ [58, 32] from by decide]
      simp
    rw [htmlField, this, cutAt_skip (a := 58) rfl (by decide), cutAt_hit (by simp)]
    simp
  have n1 : ascii "event: next" ≠ [] := by decide +kernel
  have n2 : ascii "data: " ++ a ≠ [] := (words_some (t := a)).2.2
  have p1 : [58].isPrefixOf (ascii "event: next") = false := by decide +kernel
  have p2 : [58].isPrefixOf (ascii "data: " ++ a) = false := rfl
  have d1 : ¬ ascii "data" = ascii "event" := by decide
  have d2 : ascii "next" ≠ [] := by decide
  rw [htmlEvents, if_neg n1, if_neg (by rw [p1]; decide)]
  simp only [f1, if_true]
  rw [htmlEvents, if_neg n2, if_neg (by rw [p2]; decide)]
  simp only [f2, if_neg d1, if_true]
  rw [htmlEvents, if_pos rfl, if_neg (by simp), if_neg d2]
  rfl

theorem html_beat (b : Bytes) : htmlRead (ascii ":\n\n" ++ b) = htmlRead b := by
  have e : ascii ":\n\n" ++ b = ascii ":" ++ LF :: ([] ++ LF :: b) := by
    rw [show ascii ":\n\n" = [58, LF, LF] from by decide, show ascii ":" = [58] from by decide]
    simp
  have h0 : OneLine [] := by simp [OneLine]
  rw [e, htmlRead, htmlLines_line words.1, htmlLines_line h0]
  have n1 : ascii ":" ≠ [] := by decide
  have p1 : [58].isPrefixOf (ascii ":") = true := by decide
  rw [htmlEvents, if_neg n1, if_pos p1, htmlEvents, if_pos rfl, if_pos rfl]
  rfl

theorem html_complete : htmlRead (ascii "event: complete\n\n") = [] := by decide +kernel

theorem html_write : ∀ (js : List Input), (∀ i ∈ js, i.Ok) →
    htmlRead (sseWrite js).1 = (answersOf js).map (fun a => (ascii "next", a)) ∧
    htmlRead (sseWrite (js ++ [.finished])).1 = (answersOf js).map (fun a => (ascii "next", a)) ∧
    (sseWrite js).2 = false ∧ (sseWrite (js ++ [.finished])).2 = false
  | [], _ => ⟨rfl, html_complete, rfl, rfl⟩
  | .finished :: _, h => absurd (h .finished (by simp)) (by simp [Input.Ok])
  | .beat :: r, h => by
    have ih := html_write r fun i hi => h i (List.mem_cons_of_mem _ hi)
    simp only [List.cons_append, sseWrite]
    rw [html_beat, html_beat]
    exact ih
  | .answer a :: r, h => by
    have ih := html_write r fun i hi => h i (List.mem_cons_of_mem _ hi)
    have ha := h (.answer a) (by simp)
    simp only [List.cons_append, sseWrite, if_pos ha.1]
    rw [html_answer ha.2, html_answer ha.2, ih.1, ih.2.1]
    exact ⟨rfl, rfl, ih.2.2⟩

/-! ## Streams of parts -/

/-- What the router writes after a delimiter, with the end. -/
def closedTail (d : Bytes) : List Bytes → Bytes
  | [] => ascii "--"
  | a :: r => [CR, LF] ++ (jsonHeader ++ ([CR, LF] ++ ([CR, LF] ++ (a ++ ([CR, LF] ++ (d ++ closedTail d r))))))

/-- The same without the end. -/
def openTail (d : Bytes) : List Bytes → Bytes
  | [] => []
  | [a] => [CR, LF] ++ (jsonHeader ++ ([CR, LF] ++ ([CR, LF] ++ (a ++ [CR, LF]))))
  | a :: r => [CR, LF] ++ (jsonHeader ++ ([CR, LF] ++ ([CR, LF] ++ (a ++ ([CR, LF] ++ (d ++ openTail d r))))))

theorem header_noCR : CR ∉ jsonHeader := by decide +kernel

theorem tail_dashes (t : Bytes) : (ascii "--").isPrefixOf ([CR, LF] ++ t) = false := rfl

/-- Where a part ends. -/
theorem cut_shown {d a : Bytes} (hd : d.head? = some 45) (ha : CR ∉ a) (hm : ∃ m, a = ascii "{" ++ m) (t : Bytes) :
    cutAt ([CR, LF] ++ d) (jsonHeader ++ ([CR, LF] ++ ([CR, LF] ++ (a ++ t)))) =
      (cutAt ([CR, LF] ++ d) t).map fun x => (shown a ++ x.1, x.2) := by
  obtain ⟨d, rfl⟩ : ∃ r, d = 45 :: r := by
    cases d with
    | nil => cases hd
    | cons c r =>
      simp only [List.head?_cons, Option.some.injEq] at hd
      exact ⟨r, by rw [hd]⟩
  obtain ⟨m, rfl⟩ := hm
  rw [cutAt_skip (a := CR) rfl header_noCR]
  have h0 : cutAt ([CR, LF] ++ 45 :: d) ((ascii "{" ++ m) ++ t) = _ := cutAt_skip (a := CR) rfl ha t
  have hb : ascii "{" = [123] := by decide
  have e : cutAt ([CR, LF] ++ 45 :: d) ([CR, LF] ++ ([CR, LF] ++ ((ascii "{" ++ m) ++ t))) =
      (cutAt ([CR, LF] ++ 45 :: d) ((ascii "{" ++ m) ++ t)).map fun x => ([CR, LF, CR, LF] ++ x.1, x.2) := by
    rw [hb]
    simp only [List.cons_append, List.nil_append]
    have b1 : (45 == CR) = false := by decide
    have b2 : (CR == LF) = false := by decide
    have b3 : ((45 : UInt8) == 123) = false := by decide
    rw [cutAt, cutAt, cutAt, cutAt]
    simp only [List.isPrefixOf, b1, b2, b3, Bool.and_false, Bool.false_and, Bool.false_eq_true, if_false]
    cases cutAt (CR :: LF :: 45 :: d) (123 :: (m ++ t)) <;> rfl
  rw [e, h0]
  cases cutAt ([CR, LF] ++ 45 :: d) t <;> simp [shown]

theorem mime_closed {d : Bytes} (hd : d.head? = some 45) : ∀ (bs : List Bytes), (∀ a ∈ bs, Plain a) → ∀ n,
    bs.length < n → mimeParts d n (closedTail d bs) = (bs.map shown, true)
  | [], _, n + 1, _ => by
    rw [mimeParts, closedTail, if_pos (by decide)]
    rfl
  | a :: r, h, n + 1, hn => by
    have ha := h a (by simp)
    have ih := mime_closed hd r (fun x hx => h x (List.mem_cons_of_mem _ hx)) n (by simpa using hn)
    rw [mimeParts, closedTail, if_neg (by rw [tail_dashes]; decide), cutAt_hit (n := [CR, LF]) (by simp)]
    simp only
    rw [cut_shown hd ha.2.1 ha.2.2, ← List.append_assoc [CR, LF] d, cutAt_hit (by simp)]
    simp only [Option.map_some, List.append_nil, ih]
    rfl

theorem mime_open {d : Bytes} (hd : d.head? = some 45) : ∀ (bs : List Bytes), (∀ a ∈ bs, Plain a) → ∀ n,
    bs.length < n → mimeParts d n (openTail d bs) = (bs.dropLast.map shown, false)
  | [], _, n + 1, _ => by
    rw [mimeParts, openTail, if_neg (by decide)]
    rfl
  | [a], h, n + 1, hn => by
    have ha := h a (by simp)
    rw [mimeParts, openTail, if_neg (by rw [tail_dashes]; decide), cutAt_hit (n := [CR, LF]) (by simp)]
    simp only
    rw [cut_shown hd ha.2.1 ha.2.2]
    have : cutAt ([CR, LF] ++ d) [CR, LF] = none := by
      cases hc : cutAt ([CR, LF] ++ d) [CR, LF] with
      | none => rfl
      | some x =>
        have := congrArg List.length (cutAt_spec hc)
        cases d with
        | nil => cases hd
        | cons c r =>
          simp at this
          omega
    rw [this]
    rfl
  | a :: b :: r, h, n + 1, hn => by
    have ha := h a (by simp)
    have ih := mime_open hd (b :: r) (fun x hx => h x (List.mem_cons_of_mem _ hx)) n (by simpa using hn)
    rw [mimeParts, openTail, if_neg (by rw [tail_dashes]; decide), cutAt_hit (n := [CR, LF]) (by simp)]
    simp only
    rw [cut_shown hd ha.2.1 ha.2.2, ← List.append_assoc [CR, LF] d, cutAt_hit (by simp)]
    simp only [Option.map_some, List.append_nil, ih]
    rfl
    simp

theorem closedTail_length {d : Bytes} : ∀ bs : List Bytes, bs.length < (closedTail d bs).length
  | [] => by
    rw [closedTail]
    decide
  | a :: r => by
    have := closedTail_length (d := d) r
    simp only [closedTail, List.length_append, List.length_cons, List.length_nil]
    omega

theorem openTail_length {d : Bytes} : ∀ bs : List Bytes, bs ≠ [] → bs.length < (openTail d bs).length
  | [], h => absurd rfl h
  | [a], _ => by
    simp only [openTail, List.length_append, List.length_cons, List.length_nil]
    omega
  | a :: b :: r, _ => by
    have := openTail_length (d := d) (b :: r) (by simp)
    simp only [openTail, List.length_append, List.length_cons, List.length_nil] at this ⊢
    omega

theorem start_eq (boundary : Bytes) : startOf boundary =
    ascii "--" ++ boundary ++ ([CR, LF] ++ (jsonHeader ++ ([CR, LF] ++ [CR, LF]))) := by
  rw [startOf, show ascii "\r\nContent-Type: application/json\r\n\r\n" =
    [CR, LF] ++ (jsonHeader ++ ([CR, LF] ++ [CR, LF])) from by decide +kernel]

/-- The delimiters of parts. -/
abbrev apolloDelim : Bytes := ascii "--" ++ ascii "graphql"
abbrev deliveryDelim : Bytes := ascii "--" ++ ascii "-"

theorem crlf_ascii : ascii "\r\n" = [CR, LF] := by decide

theorem apollo_closed : ∀ (js : List Input), (∀ i ∈ js, i.Plain) →
    apolloWrite (js ++ [.finished]) = (apolloDelim ++ closedTail apolloDelim (js.map apolloBody), false)
  | [], _ => rfl
  | .finished :: _, h => absurd (h .finished (by simp)) (by simp [Input.Plain])
  | .beat :: r, h => by
    have ih := apollo_closed r fun i hi => h i (List.mem_cons_of_mem _ hi)
    have hb : ascii "{}\r\n" = ascii "{}" ++ [CR, LF] := by decide
    simp only [List.cons_append, apolloWrite, ih, start_eq, hb, List.map_cons, closedTail, apolloBody, List.append_assoc,
      List.nil_append]
  | .answer a :: r, h => by
    have ih := apollo_closed r fun i hi => h i (List.mem_cons_of_mem _ hi)
    have ha := h (.answer a) (by simp)
    simp only [List.cons_append, apolloWrite, if_pos ha.1, ih, start_eq, crlf_ascii, List.map_cons, closedTail,
      apolloBody, List.append_assoc, List.nil_append]

theorem apollo_open : ∀ (js : List Input), js ≠ [] → (∀ i ∈ js, i.Plain) →
    apolloWrite js = (apolloDelim ++ openTail apolloDelim (js.map apolloBody), false)
  | [], h, _ => absurd rfl h
  | .finished :: _, _, h => absurd (h .finished (by simp)) (by simp [Input.Plain])
  | .beat :: r, _, h => by
    have hb : ascii "{}\r\n" = ascii "{}" ++ [CR, LF] := by decide
    cases r with
    | nil =>
      simp only [apolloWrite, start_eq, hb, List.map_cons, List.map_nil, openTail, apolloBody, List.append_assoc,
        List.cons_append, List.nil_append, List.append_nil]
    | cons i r =>
      have ih := apollo_open (i :: r) (by simp) fun x hi => h x (List.mem_cons_of_mem _ hi)
      rw [apolloWrite, ih]
      simp only [List.cons_append, start_eq, hb, List.map_cons, openTail, apolloBody, List.append_assoc,
        List.nil_append]
  | .answer a :: r, _, h => by
    have ha := h (.answer a) (by simp)
    cases r with
    | nil =>
      simp only [apolloWrite, if_pos ha.1, start_eq, crlf_ascii, List.map_cons, List.map_nil, openTail, apolloBody,
        List.append_assoc, List.cons_append, List.nil_append, List.append_nil]
    | cons i r =>
      have ih := apollo_open (i :: r) (by simp) fun x hi => h x (List.mem_cons_of_mem _ hi)
      rw [apolloWrite, if_pos ha.1, ih]
      simp only [List.cons_append, start_eq, crlf_ascii, List.map_cons, openTail, apolloBody, List.append_assoc,
        List.nil_append]

theorem apolloBody_plain {i : Input} (h : i.Plain) : Plain (apolloBody i) := by
  have h2 : Plain (ascii "{}") := ⟨by decide +kernel, by decide, ⟨ascii "}", by decide⟩⟩
  cases i with
  | answer a =>
    refine ⟨valid_both (valid_both (by decide +kernel) h.1) (by decide +kernel), ?_, ?_⟩
    · simp only [apolloBody, List.mem_append, not_or]
      exact ⟨⟨by decide +kernel, h.2.1⟩, by decide⟩
    · exact ⟨ascii "\"payload\":" ++ a ++ ascii "}", by
        simp only [apolloBody]
        rw [show ascii "{\"payload\":" = ascii "{" ++ ascii "\"payload\":" from by decide +kernel]
        simp⟩
  | beat => exact h2
  | finished => exact h2

theorem mime_start {boundary : Bytes} (t : Bytes) : mimeRead boundary (ascii "--" ++ boundary ++ t) =
    mimeParts (ascii "--" ++ boundary) t.length t := by
  have : [CR, LF] ++ (ascii "--" ++ boundary ++ t) = ([CR, LF] ++ ascii "--" ++ boundary) ++ t := by simp
  rw [mimeRead, this, cutAt_hit (by simp)]

theorem delivery_closed : ∀ (js : List Input), (∀ i ∈ js, i.Plain) →
    deliveryWrite (js ++ [.finished]) = (deliveryDelim ++ closedTail deliveryDelim (answersOf js), false)
  | [], _ => rfl
  | .finished :: _, h => absurd (h .finished (by simp)) (by simp [Input.Plain])
  | .beat :: r, h => by
    have ih := delivery_closed r fun i hi => h i (List.mem_cons_of_mem _ hi)
    simp only [List.cons_append, deliveryWrite, ih]
    rfl
  | .answer a :: r, h => by
    have ih := delivery_closed r fun i hi => h i (List.mem_cons_of_mem _ hi)
    have ha := h (.answer a) (by simp)
    have e : answersOf (.answer a :: r) = a :: answersOf r := rfl
    simp only [List.cons_append, deliveryWrite, if_pos ha.1, ih, start_eq, crlf_ascii, e, closedTail,
      List.append_assoc, List.nil_append]

theorem delivery_open : ∀ (js : List Input), (∀ i ∈ js, i.Plain) →
    deliveryWrite js = (if answersOf js = [] then [] else deliveryDelim ++ openTail deliveryDelim (answersOf js), false)
  | [], _ => rfl
  | .finished :: _, h => absurd (h .finished (by simp)) (by simp [Input.Plain])
  | .beat :: r, h => by
    have ih := delivery_open r fun i hi => h i (List.mem_cons_of_mem _ hi)
    rw [deliveryWrite, ih]
    rfl
  | .answer a :: r, h => by
    have ih := delivery_open r fun i hi => h i (List.mem_cons_of_mem _ hi)
    have ha := h (.answer a) (by simp)
    have e : answersOf (.answer a :: r) = a :: answersOf r := rfl
    rw [deliveryWrite, if_pos ha.1, ih, e, if_neg (List.cons_ne_nil a _)]
    cases hr : answersOf r with
    | nil =>
      simp only [if_true, start_eq, crlf_ascii, openTail, List.append_assoc, List.cons_append, List.nil_append,
        List.append_nil]
    | cons b bs =>
      simp only [List.cons_append, start_eq, crlf_ascii, openTail, List.append_assoc,
        List.nil_append, reduceCtorEq, if_false]

theorem answers_plain {js : List Input} (h : ∀ i ∈ js, i.Plain) : ∀ a ∈ answersOf js, Plain a := by
  intro a ha
  simp only [answersOf, List.mem_filterMap] at ha
  obtain ⟨i, hi, he⟩ := ha
  have := h i hi
  cases i <;> simp_all [Input.Plain]

end Verif.Stream
