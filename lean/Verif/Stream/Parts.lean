import Verif.Stream.Lemmas

/-!
# Lemmas about parts and writers
-/

namespace Verif.Stream

/-! ## The body of a part -/

/-- The end of headers. -/
abbrev blank : Bytes := [CR, LF, CR, LF]

theorem cutAt_pass {h : Bytes} (ho : OneLine h) (hne : h ≠ []) (b : Bytes) :
    cutAt blank ([CR, LF] ++ (h ++ b)) = (cutAt blank (h ++ b)).map fun x => ([CR, LF] ++ x.1, x.2) := by
  cases h with
  | nil => exact absurd rfl hne
  | cons c r =>
    have h1 : (CR == c) = false := beq_eq_false_iff_ne.2 fun e => ho.1 (by simp [e])
    have h2 : (CR == LF) = false := by decide
    simp only [List.cons_append, List.nil_append]
    rw [cutAt, cutAt]
    simp only [List.isPrefixOf, h1, h2, Bool.and_false, Bool.false_and, Bool.false_eq_true, if_false]
    cases cutAt blank (c :: (r ++ b)) <;> simp

theorem cutAt_headers (b : Bytes) : ∀ (hs : List Bytes), hs ≠ [] → (∀ h ∈ hs, h ≠ [] ∧ OneLine h) →
    ∃ p, cutAt blank ((hs.flatMap fun h => h ++ [CR, LF]) ++ ([CR, LF] ++ b)) = some (p, b)
  | [], h, _ => absurd rfl h
  | [h], _, hh => by
    have h1 := (hh h (by simp)).2
    simp only [List.flatMap_cons, List.flatMap_nil, List.append_nil, List.append_assoc]
    rw [cutAt_skip (a := CR) rfl h1.1]
    have : cutAt blank ([CR, LF] ++ ([CR, LF] ++ b)) = some ([], b) := cutAt_hit (n := blank) (by simp) b
    rw [this]
    exact ⟨_, rfl⟩
  | h :: h2 :: hs, _, hh => by
    have h1 := (hh h (by simp)).2
    have h3 := hh h2 (by simp)
    obtain ⟨p, ih⟩ := cutAt_headers b (h2 :: hs) (by simp) fun x hx => hh x (List.mem_cons_of_mem _ hx)
    simp only [List.flatMap_cons, List.append_assoc] at ih ⊢
    rw [cutAt_skip (a := CR) rfl h1.1, cutAt_pass h3.2 h3.1, ih]
    exact ⟨_, rfl⟩

/-- What is left of the line of a delimiter. -/
def Left (x : Bytes) : Prop := x = [] ∨ x = [CR, LF]

theorem bodyOf_part {d : Bytes} {p : Part} (hp : p.Ok d) {x : Bytes} (hx : Left x) : bodyOf (x ++ p.text) = p.body := by
  obtain ⟨h1, h2, _, ⟨m, hm⟩, _⟩ := hp
  have hh : ∀ h ∈ p.headers, h ≠ [] ∧ OneLine h := fun h hh => ⟨(h2 h hh).1, (h2 h hh).2.1⟩
  obtain ⟨q, hq⟩ := cutAt_headers (p.body ++ [CR, LF]) p.headers h1 hh
  have ht : ∃ q, cutAt blank (x ++ p.text) = some (q, p.body ++ [CR, LF]) := by
    simp only [Part.text, List.append_assoc] at hq ⊢
    rcases hx with rfl | rfl
    · exact ⟨q, hq⟩
    · cases hs : p.headers with
      | nil => exact absurd hs h1
      | cons h hs' =>
        rw [hs] at hq
        have hc := hh h (by rw [hs]; simp)
        simp only [List.flatMap_cons, List.append_assoc] at hq ⊢
        rw [cutAt_pass hc.2 hc.1, hq]
        exact ⟨_, rfl⟩
  obtain ⟨q, hq⟩ := ht
  simp only [bodyOf, hq]
  rw [hm, trim_crlf]

theorem Part.valid {d : Bytes} {p : Part} (hp : p.Ok d) : valid p.text = true := by
  obtain ⟨_, h2, h3, _⟩ := hp
  have hn : Stream.valid [CR, LF] = true := by decide
  have : ∀ hs : List Bytes, (∀ h ∈ hs, Stream.valid h = true) →
      Stream.valid (hs.flatMap fun h => h ++ [CR, LF]) = true := by
    intro hs hh
    induction hs with
    | nil => rfl
    | cons l ls ih =>
      simp only [List.flatMap_cons]
      exact valid_both (valid_both (hh l (by simp)) hn) (ih fun x hx => hh x (List.mem_cons_of_mem _ hx))
  exact valid_both (valid_both (valid_both (this p.headers fun h hh => (h2 h hh).2.2) hn) h3) hn

theorem Left.valid {x : Bytes} (h : Left x) : valid x = true := by
  rcases h with rfl | rfl <;> decide

section
variable {R : Type} {k : Reader R}

/-- What a payload leads to. -/
def said : Except ParseError (Option R) → List (Out R) × Bool
  | .ok (some r) => ([.ok r], true)
  | .ok none => ([], true)
  | .error e => ([.error e], false)

theorem onPart_part {d : Bytes} {p : Part} (hp : p.Ok d) {x : Bytes} (hx : Left x) :
    onPart k (x ++ p.text) = said (payloadOf k p.body) := by
  have h1 : x ++ p.text ≠ [] := by simp [Part.text]
  have h2 : p.body ≠ [] := by
    obtain ⟨m, hm⟩ := hp.2.2.2.1
    rw [hm]
    simp [ascii]
  rw [onPart, if_neg h1, parsePart, if_pos (valid_both hx.valid (Part.valid hp)), bodyOf_part hp hx, if_neg h2]
  rfl

theorem answers_cons {p : Part} {ps : List Part} : answers k (p :: ps) =
    (said (payloadOf k p.body)).1 ++ if (said (payloadOf k p.body)).2 then answers k ps else [] := by
  rw [answers]
  cases payloadOf k p.body with
  | error e => rfl
  | ok r => cases r <;> simp [said]

/-! ## The loop -/

/-- What follows a delimiter. -/
def tailOf (d : Bytes) : List Part → Bytes
  | [] => ascii "--"
  | p :: ps => [CR, LF] ++ (p.text ++ (d ++ tailOf d ps))

theorem multipart_tail {d : Bytes} : ∀ ps : List Part, multipart d ps = d ++ tailOf d ps
  | [] => rfl
  | p :: ps => by
    rw [multipart, multipart_tail ps, tailOf]
    simp

/-- A delimiter. -/
structure Delim (d : Bytes) : Prop where
  long : 3 ≤ d.length
  noCR : CR ∉ d
  noLF : LF ∉ d

theorem Delim.ne {d : Bytes} (h : Delim d) : d ≠ [] := by
  rintro rfl
  have := h.long
  simp at this

/-- The buffer, and what has yet to arrive, are the rest of a stream. `todo` is what has yet to be yielded. -/
inductive Rest (k : Reader R) (d u : Bytes) : List (Out R) → State → Prop
  | over : Rest k d u [] .over
  | first {b ps} : (∀ p ∈ ps, p.Ok d) → b ++ u = d ++ tailOf d ps → Rest k d u (answers k ps) (.wait false b)
  | mid {b x p ps} : Left x → (∀ q ∈ p :: ps, q.Ok d) → b ++ u = x ++ p.text ++ d ++ tailOf d ps →
      Rest k d u (answers k (p :: ps)) (.wait true b)
  | last {b} : b ++ u = ascii "--" → Rest k d u [] (.wait true b)

/-- Nothing more can be done with the buffer. -/
def Settled (d : Bytes) : State → Prop
  | .over => True
  | .wait false b => firstPart d b = none
  | .wait true b => cutAt d b = none

theorem cutLine_some : ∀ {b l r : Bytes}, cutLine b = (l, some r) → b = l ++ LF :: r ∧ LF ∉ l
  | [], _, _, h => by simp [cutLine] at h
  | b :: t, l, r, h => by
    simp only [cutLine] at h
    split at h
    next hb =>
      simp only [Prod.mk.injEq, Option.some.injEq] at h
      rw [← h.1, ← h.2, hb]
      simp
    next hb =>
      simp only [Prod.mk.injEq] at h
      have := cutLine_some (b := t) (l := (cutLine t).1) (r := r) (Prod.ext rfl h.2)
      rw [← h.1]
      refine ⟨by rw [List.cons_append, ← this.1], ?_⟩
      simp only [List.mem_cons, not_or]
      exact ⟨fun e => hb e.symm, this.2⟩

/-- The rest of a line that is CR LF. -/
theorem crlf_left {r u t r' : Bytes} (h : r ++ u = [CR, LF] ++ t) (hc : (cutLine r).2 = some r') : r' ++ u = t := by
  have h1 := cutLine_some (b := r) (l := (cutLine r).1) (r := r') (Prod.ext rfl hc)
  have h2 := cutLine_at h1.2 (r' ++ u)
  have h3 := cutLine_at (t := [CR]) (by decide) t
  have e : (cutLine r).1 ++ LF :: (r' ++ u) = [CR] ++ LF :: t := by
    have h1 := congrArg (· ++ u) h1.1
    rw [h] at h1
    simpa using h1.symm
  rw [e, h3] at h2
  simp only [Prod.mk.injEq, Option.some.injEq] at h2
  exact h2.2.symm

theorem without_left {d x t : Bytes} (hd : Delim d) (hx : Left x) (h : Without d t) : Without d (x ++ t) := by
  rcases hx with rfl | rfl
  · exact h
  · intro hi
    simp only [List.cons_append, List.nil_append] at hi
    have hl := hd.long
    rw [List.infix_cons_iff, List.infix_cons_iff] at hi
    have : d.head? ≠ some CR ∧ d.head? ≠ some LF :=
      ⟨fun e => hd.noCR (List.mem_of_head? e), fun e => hd.noLF (List.mem_of_head? e)⟩
    rcases hi with hi | hi | hi
    · obtain ⟨t, ht⟩ := hi
      cases d with
      | nil => simp at hl
      | cons a r =>
        simp only [List.cons_append, List.cons.injEq] at ht
        exact this.1 (by simp [ht.1])
    · obtain ⟨t, ht⟩ := hi
      cases d with
      | nil => simp at hl
      | cons a r =>
        simp only [List.cons_append, List.cons.injEq] at ht
        exact this.2 (by simp [ht.1])
    · exact h hi

theorem cutAt_part {d x : Bytes} {p : Part} (hd : Delim d) (hx : Left x) (hp : p.Ok d) (t : Bytes) :
    cutAt d (x ++ p.text ++ d ++ t) = some (x ++ p.text, t) := by
  refine cutAt_at hd.ne hd.noLF t (without_left hd hx hp.2.2.2.2) fun _ => ?_
  simp only [Part.text, ← List.append_assoc]
  rw [show ([CR, LF] : Bytes) = [CR] ++ [LF] from rfl, ← List.append_assoc, List.getLast?_append]
  rfl

theorem cutLine_none : ∀ {b : Bytes}, (cutLine b).2 = none → LF ∉ b
  | [], _ => by simp
  | b :: t, h => by
    simp only [cutLine] at h
    split at h
    next => cases h
    next hb =>
      simp only [List.mem_cons, not_or]
      exact ⟨fun e => hb e.symm, cutLine_none h⟩

theorem cutLine_noLF {b : Bytes} (h : LF ∉ b) : (cutLine b).2 = none := by
  cases hc : (cutLine b).2 with
  | none => rfl
  | some r =>
    have := (cutLine_some (b := b) (l := (cutLine b).1) (r := r) (Prod.ext rfl hc)).1
    exact absurd (by rw [this]; simp) h

theorem dashes {r u : Bytes} (h : r ++ u = ascii "--") : LF ∉ r ∧ r.length ≤ 2 := by
  have h2 : LF ∉ r ++ u := by rw [h]; decide
  have h3 : (r ++ u).length = 2 := by rw [h]; decide
  simp only [List.mem_append, not_or, List.length_append] at h2 h3
  exact ⟨h2.1, by omega⟩

theorem loop_rest {d : Bytes} (hd : Delim d) : ∀ (n : Nat) (s : Bool) (b u : Bytes) (todo : List (Out R)),
    b.length ≤ n → Rest k d u todo (.wait s b) →
    ∃ todo', todo = (partLoop k d n s b).1 ++ todo' ∧ Rest k d u todo' (partLoop k d n s b).2 ∧
      Settled d (partLoop k d n s b).2
  | 0, s, b, u, todo, hl, h => by
    have : b = [] := List.length_eq_zero_iff.1 (by omega)
    subst this
    have hc : cutAt d [] = none := by
      simp only [cutAt]
      rw [if_neg]
      intro hp
      exact hd.ne (by simpa using List.isPrefixOf_iff_prefix.1 hp)
    refine ⟨todo, rfl, h, ?_⟩
    cases s
    · simp [partLoop, Settled, firstPart, hc]
    · simp [partLoop, Settled, hc]
  | n + 1, false, b, u, todo, hl, h => by
    cases h with
    | @first b ps hok hb =>
      simp only [partLoop]
      cases hf : firstPart d b with
      | none => exact ⟨_, rfl, .first hok hb, hf⟩
      | some b' =>
        simp only
        simp only [firstPart] at hf
        split at hf
        next => cases hf
        next p r hc =>
          have hm := cutAt_mono hd.ne u hc
          rw [hb, cutAt_hit hd.ne] at hm
          simp only [Option.some.injEq, Prod.mk.injEq] at hm
          have hlen : b'.length < b.length := by
            have h1 := cutAt_spec hc
            have h2 := cutLine_length (b := r) (l := (cutLine r).1) (r := b') (Prod.ext rfl hf)
            rw [h1]
            simp only [List.length_append]
            omega
          cases ps with
          | nil =>
            have := dashes hm.2.symm
            rw [cutLine_noLF this.1] at hf
            cases hf
          | cons q ps =>
            have hr : b' ++ u = [] ++ q.text ++ d ++ tailOf d ps := by
              have := crlf_left (t := q.text ++ (d ++ tailOf d ps)) hm.2.symm hf
              simpa using this
            exact loop_rest hd n true b' u _ (by omega) (.mid (.inl rfl) hok hr)
  | n + 1, true, b, u, todo, hl, h => by
    cases h with
    | last hb =>
      have hlen := (dashes hb).2
      have hc : cutAt d b = none := by
        cases hc : cutAt d b with
        | none => rfl
        | some x =>
          have := congrArg List.length (cutAt_spec hc)
          simp only [List.length_append] at this
          have := hd.long
          omega
      refine ⟨[], ?_⟩
      simp only [partLoop, nextPart, hc]
      exact ⟨rfl, .last hb, hc⟩
    | @mid b x p ps hx hok hb =>
      simp only [partLoop]
      cases hc : cutAt d b with
      | none =>
        simp only [nextPart, hc]
        exact ⟨_, rfl, .mid hx hok hb, hc⟩
      | some y =>
        obtain ⟨p', r⟩ := y
        have hm := cutAt_mono hd.ne u hc
        rw [hb, cutAt_part hd hx (hok p (by simp))] at hm
        simp only [Option.some.injEq, Prod.mk.injEq] at hm
        obtain ⟨rfl, hr⟩ := hm
        have hlen : r.length < b.length := by
          have h1 := congrArg List.length (cutAt_spec hc)
          simp only [List.length_append] at h1
          have := hd.long
          omega
        have hps : ∀ q ∈ ps, q.Ok d := fun q hq => hok q (List.mem_cons_of_mem _ hq)
        have hon := onPart_part (k := k) (hok p (by simp)) hx
        have hans := answers_cons (k := k) (p := p) (ps := ps)
        rw [← hon] at hans
        simp only [nextPart, hc]
        by_cases hlast : (ascii "--").isPrefixOf r = true
        · rw [if_pos hlast]
          simp only
          have hnil : ps = [] := by
            cases ps with
            | nil => rfl
            | cons q ps =>
              obtain ⟨t, ht⟩ := List.isPrefixOf_iff_prefix.1 hlast
              rw [← ht] at hr
              have : ascii "--" = [45, 45] := rfl
              rw [this] at hr
              simp [tailOf, CR] at hr
          subst hnil
          cases ho : onPart k (x ++ p.text) with
          | mk o c =>
            rw [ho] at hans
            cases c with
            | false => exact ⟨[], by simpa using hans, .over, trivial⟩
            | true => exact ⟨[], by simpa [answers] using hans, .over, trivial⟩
        · rw [if_neg hlast]
          simp only
          have hal : (afterLine r).length ≤ n := by
            unfold afterLine
            split
            next r' hr' =>
              have := cutLine_length (b := r) (l := (cutLine r).1) (r := r') (Prod.ext rfl hr')
              omega
            next => omega
          have hnext : Rest k d u (answers k ps) (.wait true (afterLine r)) := by
            cases ps with
            | nil =>
              have hdash := dashes hr.symm
              have : afterLine r = r := by
                unfold afterLine
                rw [cutLine_noLF hdash.1]
              rw [this]
              exact .last hr.symm
            | cons q ps =>
              unfold afterLine
              split
              next r' hr' =>
                have := crlf_left (t := q.text ++ (d ++ tailOf d ps)) hr.symm hr'
                exact .mid (.inl rfl) hps (by simpa using this)
              next => exact .mid (.inr rfl) hps (by rw [← hr]; simp [tailOf])
          cases ho : onPart k (x ++ p.text) with
          | mk o c =>
            rw [ho] at hans
            cases c with
            | false => exact ⟨[], by simpa using hans, .over, trivial⟩
            | true =>
              obtain ⟨todo', h1, h2, h3⟩ := loop_rest hd n true (afterLine r) u _ hal hnext
              refine ⟨todo', ?_, h2, h3⟩
              simp only [if_true] at hans
              rw [hans, h1]
              simp

theorem run_rest {d : Bytes} (hd : Delim d) : ∀ (cs : List Bytes) (s : State) (todo : List (Out R)),
    Rest k d cs.flatten todo s → Settled d s → ¬ Overrun (runFrames (partStep k d) s (cs.map .data)).1 →
    (runFrames (partStep k d) s (cs.map .data)).1 = todo
  | [], s, todo, h, hs, _ => by
    simp only [List.map_nil, runFrames]
    cases h with
    | over => rfl
    | @first b ps hok hb =>
      simp only [List.flatten_nil, List.append_nil] at hb
      simp only [Settled, firstPart, hb, cutAt_hit hd.ne] at hs
      cases ps with
      | nil => rfl
      | cons p ps => exact absurd (by simp [tailOf]) (cutLine_none hs)
    | @mid b x p ps hx hok hb =>
      simp only [List.flatten_nil, List.append_nil] at hb
      simp only [Settled, hb, cutAt_part hd hx (hok p (by simp))] at hs
      cases hs
    | last => rfl
  | c :: cs, s, todo, h, hs, ho => by
    simp only [List.map_cons, runFrames] at ho ⊢
    have hover : ∀ cs : List Bytes, runFrames (partStep k d) .over (cs.map .data) = ([], .over) :=
      fun cs => run_over (fun f => by cases f <;> rfl) _
    cases s with
    | over =>
      cases h
      simp only [partStep, hover]
      rfl
    | wait t b =>
      simp only [partStep] at ho ⊢
      by_cases hl : maxBuffer < (b ++ c).length
      · rw [if_pos hl] at ho
        exact absurd (by simp [Overrun]) ho
      · rw [if_neg hl] at ho ⊢
        have h' : Rest k d cs.flatten todo (.wait t (b ++ c)) := by
          cases h with
          | first h1 h2 => exact .first h1 (by simpa using h2)
          | mid h0 h1 h2 => exact .mid h0 h1 (by simpa using h2)
          | last h2 => exact .last (by simpa using h2)
        obtain ⟨todo', e, h2, h3⟩ := loop_rest hd _ t (b ++ c) cs.flatten todo (Nat.le_refl _) h'
        have ih := run_rest hd cs _ todo' h2 h3 (by
          intro hh
          apply ho
          exact List.mem_append.2 (.inr hh))
        rw [e, ← ih]

theorem part_read {boundary : Bytes} (hb : boundary ≠ []) (h1 : OneLine boundary) {ps : List Part}
    (hp : ∀ p ∈ ps, p.Ok (ascii "--" ++ boundary)) {fs : List Frame}
    (hf : Brings fs (multipart (ascii "--" ++ boundary) ps)) (ho : ¬ Overrun (partRead k boundary fs).1) :
    (partRead k boundary fs).1 = answers k ps := by
  have hd : Delim (ascii "--" ++ boundary) := by
    have hl := List.length_pos_iff.2 hb
    refine ⟨?_, ?_, ?_⟩
    · simp [ascii]
      omega
    · rw [List.mem_append, not_or]
      exact ⟨by decide, h1.1⟩
    · rw [List.mem_append, not_or]
      exact ⟨by decide, h1.2⟩
  obtain ⟨cs, hc, rfl⟩ := hf
  refine run_rest hd cs _ _ (.first hp ?_) ?_ ho
  · rw [hc, multipart_tail]
    rfl
  · simp only [Settled, firstPart, cutAt]
    rw [if_neg]
    intro hp
    exact hd.ne (by simpa using List.isPrefixOf_iff_prefix.1 hp)

end

end Verif.Stream
