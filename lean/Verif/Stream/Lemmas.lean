import Verif.Stream.Spec

/-!
# Lemmas about texts and streams
-/

namespace Verif.Stream

/-! ## Finding -/

theorem cutAt_spec {n : Bytes} : ∀ {b p q : Bytes}, cutAt n b = some (p, q) → b = p ++ n ++ q
  | [], p, q, h => by
    simp only [cutAt] at h
    split at h
    next hp =>
      simp only [Option.some.injEq, Prod.mk.injEq] at h
      rw [← h.1, ← h.2]
      have : n = [] := by simpa using (List.isPrefixOf_iff_prefix.1 hp)
      simp [this]
    next => cases h
  | b :: r, p, q, h => by
    simp only [cutAt] at h
    split at h
    next hp =>
      simp only [Option.some.injEq, Prod.mk.injEq] at h
      obtain ⟨t, ht⟩ := List.isPrefixOf_iff_prefix.1 hp
      rw [← h.1, ← h.2, ← ht]
      simp
    next =>
      split at h
      next p' q' he =>
        simp only [Option.some.injEq, Prod.mk.injEq] at h
        rw [← h.1, ← h.2, cutAt_spec he]
        simp
      next => cases h

theorem cutAt_hit {n : Bytes} (hn : n ≠ []) (t : Bytes) : cutAt n (n ++ t) = some ([], t) := by
  cases n with
  | nil => exact absurd rfl hn
  | cons a r =>
    have : ((a :: r).isPrefixOf (a :: (r ++ t))) = true := List.isPrefixOf_iff_prefix.2 ⟨t, rfl⟩
    simp [cutAt]

theorem cutAt_none {n : Bytes} (hn : n ≠ []) : ∀ {b : Bytes}, cutAt n b = none ↔ Without n b
  | [] => by
    simp only [cutAt, Without]
    cases n with
    | nil => exact absurd rfl hn
    | cons a r => simp [List.isPrefixOf]
  | b :: r => by
    have ih := cutAt_none hn (b := r)
    simp only [cutAt, Without] at *
    by_cases hp : n.isPrefixOf (b :: r) = true
    · rw [if_pos hp]
      have := (List.isPrefixOf_iff_prefix.1 hp).isInfix
      simp [this]
    · rw [if_neg hp, List.infix_cons_iff]
      have hp' : ¬ n <+: b :: r := fun h => hp (List.isPrefixOf_iff_prefix.2 h)
      simp only [hp', false_or]
      rw [← ih]
      cases cutAt n r with
      | none => simp
      | some x => simp

theorem cutAt_mono {n : Bytes} (hn : n ≠ []) : ∀ {b p q : Bytes} (u : Bytes), cutAt n b = some (p, q) →
    cutAt n (b ++ u) = some (p, q ++ u)
  | [], p, q, u, h => by
    cases n with
    | nil => exact absurd rfl hn
    | cons a r => simp [cutAt, List.isPrefixOf] at h
  | b :: r, p, q, u, h => by
    simp only [cutAt] at h
    split at h
    next hp =>
      simp only [Option.some.injEq, Prod.mk.injEq] at h
      obtain ⟨t, ht⟩ := List.isPrefixOf_iff_prefix.1 hp
      rw [← h.1, ← h.2, ← ht, List.append_assoc, cutAt_hit hn]
      simp
    next hp =>
      split at h
      next p' q' he =>
        simp only [Option.some.injEq, Prod.mk.injEq] at h
        have ih := cutAt_mono hn u he
        have hp' : ¬ n.isPrefixOf (b :: (r ++ u)) = true := by
          intro hx
          have hx := List.isPrefixOf_iff_prefix.1 hx
          have hs := cutAt_spec he
          have h2 : (b :: r) <+: b :: (r ++ u) := ⟨u, rfl⟩
          rcases List.prefix_or_prefix_of_prefix hx h2 with h3 | h3
          · exact hp (List.isPrefixOf_iff_prefix.2 h3)
          · have := h3.length_le
            rw [hs] at this
            simp at this
            omega
        simp only [List.cons_append, cutAt]
        rw [if_neg hp', ih]
        simp [h.1, h.2]
      next => cases h

theorem cutAt_at {n : Bytes} {z : UInt8} (hn : n ≠ []) (hz : z ∉ n) (t : Bytes) : ∀ {p : Bytes}, Without n p →
    (p ≠ [] → p.getLast? = some z) → cutAt n (p ++ n ++ t) = some (p, t)
  | [], _, _ => by simpa using cutAt_hit hn t
  | b :: r, hw, hl => by
    have hp : ¬ n.isPrefixOf (b :: (r ++ (n ++ t))) = true := by
      intro hx
      have hx := List.isPrefixOf_iff_prefix.1 hx
      have h2 : (b :: r) <+: b :: (r ++ (n ++ t)) := ⟨n ++ t, rfl⟩
      rcases List.prefix_or_prefix_of_prefix hx h2 with h3 | h3
      · exact hw h3.isInfix
      · have := List.mem_of_getLast? (hl (by simp))
        exact hz (h3.subset this)
    have ih := cutAt_at hn hz t (p := r) (fun hh => hw (hh.trans (List.suffix_cons b r).isInfix)) (by
      intro hr
      rw [← hl (by simp), List.getLast?_cons_of_ne_nil hr])
    simp only [List.append_assoc, List.cons_append, cutAt] at *
    rw [if_neg hp, ih]

theorem cutAt_skip {n : Bytes} {a : UInt8} (hn : n.head? = some a) {p : Bytes} (hp : a ∉ p) (b : Bytes) :
    cutAt n (p ++ b) = (cutAt n b).map fun x => (p ++ x.1, x.2) := by
  induction p with
  | nil => simp
  | cons c r ih =>
    cases n with
    | nil => cases hn
    | cons x n =>
      simp only [List.head?_cons, Option.some.injEq] at hn
      subst hn
      simp only [List.mem_cons, not_or] at hp
      have hne : (x == c) = false := by simpa using hp.1
      simp only [List.cons_append, cutAt, List.isPrefixOf, hne, Bool.false_and, Bool.false_eq_true, if_false]
      rw [ih hp.2]
      cases cutAt (x :: n) b <;> simp

/-! ## Texts -/

theorem valid_append : ∀ {a : Bytes} (_ : valid a = true) (b : Bytes), valid (a ++ b) = valid b
  | [], _, _ => rfl
  | x :: r, h, b => by
    rw [valid.eq_def] at h
    rw [List.cons_append, valid.eq_def]
    simp only at h ⊢
    by_cases h1 : x.toNat < 0x80
    · rw [if_pos h1] at h ⊢
      exact valid_append h b
    · rw [if_neg h1] at h ⊢
      by_cases h2 : 0xC2 ≤ x.toNat ∧ x.toNat ≤ 0xDF
      · rw [if_pos h2] at h ⊢
        cases r with
        | nil => cases h
        | cons c r =>
          simp only [Bool.and_eq_true] at h
          simp only [List.cons_append, h.1, Bool.true_and]
          exact valid_append h.2 b
      · rw [if_neg h2] at h ⊢
        match r, h with
        | [], h => cases h
        | [_], h => cases h
        | c :: d :: r, h =>
          simp only [List.cons_append] at h ⊢
          by_cases h3 : second3 x c = true
          · rw [if_pos h3] at h ⊢
            simp only [Bool.and_eq_true] at h
            rw [h.1, Bool.true_and]
            exact valid_append h.2 b
          · rw [if_neg h3] at h ⊢
            cases r with
            | nil => cases h
            | cons e r =>
              simp only [Bool.and_eq_true] at h
              simp only [List.cons_append, h.1, Bool.true_and]
              exact valid_append h.2 b

theorem valid_both {a b : Bytes} (ha : valid a = true) (hb : valid b = true) : valid (a ++ b) = true := by
  rw [valid_append ha, hb]

theorem lead_zero {ss : List Bytes} {b : Bytes} (h : ∀ s ∈ ss, ¬ s <+: b) : lead ss b = 0 := by
  simp only [lead]
  split
  next s hs =>
    have h1 := List.find?_some hs
    exact absurd (List.isPrefixOf_iff_prefix.1 h1) (h s (List.mem_of_find?_eq_some hs))
  next => rfl

theorem strip_zero {ss : List Bytes} {b : Bytes} (h : ∀ s ∈ ss, ¬ s <+: b) : ∀ n, strip ss n b = b
  | 0 => rfl
  | n + 1 => by rw [strip, if_pos (lead_zero h)]

theorem Clean.ends {v : Bytes} (h : Clean v) : ∀ s ∈ spaces.map List.reverse, ¬ s <+: v.reverse := by
  intro s hs
  simp only [List.mem_map] at hs
  obtain ⟨x, hx, rfl⟩ := hs
  rw [List.reverse_prefix]
  exact h.2 x hx

theorem lead_space (v : Bytes) : lead spaces (32 :: v) = 1 := by
  simp [lead, spaces, List.isPrefixOf]

theorem trim_space {v : Bytes} (h : Clean v) : trim (32 :: v) = v := by
  have h1 : strip spaces (32 :: v).length (32 :: v) = v := by
    rw [List.length_cons, strip, lead_space]
    simp only [Nat.one_ne_zero, if_false, List.drop_succ_cons, List.drop_zero]
    exact strip_zero h.1 _
  simp only [trim, h1]
  rw [strip_zero h.ends, List.reverse_reverse]

theorem trim_crlf {m : Bytes} : trim (ascii "{" ++ m ++ ascii "}" ++ [CR, LF]) = ascii "{" ++ m ++ ascii "}" := by
  have e : ascii "{" ++ m ++ ascii "}" ++ [CR, LF] = 123 :: (m ++ [125, CR, LF]) := by
    simp [ascii]
  have h1 : ∀ t : Bytes, lead spaces (123 :: t) = 0 := fun t => by simp [lead, spaces, List.isPrefixOf]
  have h2 : ∀ t : Bytes, lead (spaces.map List.reverse) (LF :: t) = 1 := fun t => by
    simp [lead, spaces, List.isPrefixOf, LF]
  have h3 : ∀ t : Bytes, lead (spaces.map List.reverse) (CR :: t) = 1 := fun t => by
    simp [lead, spaces, List.isPrefixOf, CR]
  have h4 : ∀ t : Bytes, lead (spaces.map List.reverse) (125 :: t) = 0 := fun t => by
    simp [lead, spaces, List.isPrefixOf]
  have hs : ∀ n (t : Bytes), strip spaces n (123 :: t) = 123 :: t := by
    intro n t
    cases n with
    | zero => rfl
    | succ n => rw [strip, if_pos (h1 t)]
  have hr : ∀ n (t : Bytes), strip (spaces.map List.reverse) (n + 2) (LF :: CR :: 125 :: t) = 125 :: t := by
    intro n t
    rw [strip, h2, if_neg (by decide), List.drop_succ_cons, List.drop_zero, strip, h3, if_neg (by decide),
      List.drop_succ_cons, List.drop_zero]
    cases n with
    | zero => rfl
    | succ n => rw [strip, if_pos (h4 t)]
  rw [e]
  simp only [trim, hs]
  have hrev : (123 :: (m ++ [125, CR, LF])).reverse = LF :: CR :: 125 :: (123 :: m).reverse := by simp
  have hlen : (123 :: (m ++ [125, CR, LF])).length = (m.length + 2) + 2 := by simp
  rw [hrev, hlen, hr]
  simp [ascii]

theorem cutLine_at {t : Bytes} (h : LF ∉ t) (r : Bytes) : cutLine (t ++ LF :: r) = (t, some r) := by
  induction t with
  | nil => simp [cutLine]
  | cons b t ih =>
    simp only [List.mem_cons, not_or] at h
    have hb : ¬ b = LF := fun e => h.1 e.symm
    simp only [List.cons_append, cutLine, hb, if_false, ih h.2]

theorem noCR_same {t : Bytes} (h : CR ∉ t) : noCR t = t := by
  rw [noCR, if_neg]
  exact fun e => h (List.mem_of_getLast? e)

theorem noCR_cr (t : Bytes) : noCR (t ++ [CR]) = t := by simp [noCR]

theorem cutLine_length : ∀ {b l r : Bytes}, cutLine b = (l, some r) → r.length < b.length
  | [], _, _, h => by simp [cutLine] at h
  | b :: t, l, r, h => by
    simp only [cutLine] at h
    split at h
    next =>
      simp only [Prod.mk.injEq, Option.some.injEq] at h
      rw [← h.2]
      simp
    next =>
      simp only [Prod.mk.injEq] at h
      have := cutLine_length (b := t) (l := (cutLine t).1) (r := r) (Prod.ext rfl h.2)
      simp only [List.length_cons]
      omega

theorem linesN_fuel : ∀ (n m : Nat) (b : Bytes), b.length ≤ n → b.length ≤ m → linesN n b = linesN m b
  | 0, m, b, h, _ => by
    have : b = [] := List.length_eq_zero_iff.1 (by omega)
    subst this
    cases m <;> simp [linesN]
  | n + 1, 0, b, _, h => by
    have : b = [] := List.length_eq_zero_iff.1 (by omega)
    subst this
    simp [linesN]
  | n + 1, m + 1, b, h1, h2 => by
    simp only [linesN]
    split
    · rfl
    · split
      next => rfl
      next l r he =>
        have := cutLine_length he
        rw [linesN_fuel n m r (by omega) (by omega)]

theorem lines_cons {b l r : Bytes} (h : cutLine b = (l, some r)) : lines b = noCR l :: lines r := by
  have hl := cutLine_length h
  have hb : b ≠ [] := by
    rintro rfl
    simp at hl
  obtain ⟨k, hk⟩ : ∃ k, b.length = k + 1 := ⟨b.length - 1, by omega⟩
  simp only [lines, hk, linesN, if_neg hb, h]
  rw [linesN_fuel k r.length r (by omega) (Nat.le_refl _)]

/-- A line break. -/
def IsBreak (nl : Bytes) : Prop := nl = [LF] ∨ nl = [CR, LF]

theorem lines_break {t nl : Bytes} (ht : OneLine t) (hn : IsBreak nl) (r : Bytes) :
    lines (t ++ nl ++ r) = t :: lines r := by
  rcases hn with rfl | rfl
  · rw [lines_cons (l := t) (r := r) (by simpa using cutLine_at ht.2 r), noCR_same ht.1]
  · have : LF ∉ t ++ [CR] := by
      simp only [List.mem_append, List.mem_singleton, not_or]
      exact ⟨ht.2, by decide⟩
    rw [lines_cons (l := t ++ [CR]) (r := r) (by simpa using cutLine_at this r), noCR_cr]

/-! ## Events -/

theorem cutEvent_spec : ∀ {b p q : Bytes}, cutEvent b = some (p, q) → b = p ++ q ∧ p ≠ []
  | [], _, _, h => by simp [cutEvent] at h
  | b :: r, p, q, h => by
    simp only [cutEvent] at h
    split at h
    next hp =>
      obtain ⟨t, ht⟩ := List.isPrefixOf_iff_prefix.1 hp
      simp only [Option.some.injEq, Prod.mk.injEq] at h
      rw [← h.1, ← h.2, ← ht]
      simp
    next =>
      split at h
      next hp =>
        obtain ⟨t, ht⟩ := List.isPrefixOf_iff_prefix.1 hp
        simp only [Option.some.injEq, Prod.mk.injEq] at h
        rw [← h.1, ← h.2, ← ht]
        simp
      next =>
        split at h
        next p' q' he =>
          simp only [Option.some.injEq, Prod.mk.injEq] at h
          rw [← h.1, ← h.2, (cutEvent_spec he).1]
          simp
        next => cases h

theorem cutEvent_mono : ∀ {b p q : Bytes} (u : Bytes), cutEvent b = some (p, q) →
    cutEvent (b ++ u) = some (p, q ++ u)
  | [], _, _, _, h => by simp [cutEvent] at h
  | b :: r, p, q, u, h => by
    simp only [cutEvent] at h
    split at h
    next hp =>
      obtain ⟨t, ht⟩ := List.isPrefixOf_iff_prefix.1 hp
      simp only [Option.some.injEq, Prod.mk.injEq] at h
      rw [← h.1, ← h.2, ← ht]
      simp [cutEvent]
    next h1 =>
      split at h
      next hp =>
        obtain ⟨t, ht⟩ := List.isPrefixOf_iff_prefix.1 hp
        simp only [Option.some.injEq, Prod.mk.injEq] at h
        rw [← h.1, ← h.2, ← ht]
        simp [cutEvent, List.isPrefixOf, CR, LF]
      next h2 =>
        split at h
        next p' q' he =>
          simp only [Option.some.injEq, Prod.mk.injEq] at h
          have ih := cutEvent_mono u he
          have hlen : 2 ≤ r.length := by
            rcases r with _ | ⟨x, _ | ⟨y, r⟩⟩
            · simp [cutEvent] at he
            · simp [cutEvent, List.isPrefixOf] at he
            · simp
          have g1 : ¬ [CR, LF, CR, LF].isPrefixOf (b :: (r ++ u)) = true := by
            intro hx
            have hx := List.isPrefixOf_iff_prefix.1 hx
            have hy : (b :: r) <+: b :: (r ++ u) := ⟨u, rfl⟩
            rcases List.prefix_or_prefix_of_prefix hx hy with h3 | h3
            · exact h1 (List.isPrefixOf_iff_prefix.2 h3)
            · have hl := h3.length_le
              simp only [List.length_cons, List.length_nil] at hl
              rcases r with _ | ⟨x, _ | ⟨y, _ | ⟨z, r⟩⟩⟩
              · simp at hlen
              · simp at hlen
              · simp only [List.cons_prefix_cons] at h3
                rw [h3.2.1, h3.2.2.1] at he
                simp [cutEvent, List.isPrefixOf, CR, LF] at he
              · simp only [List.cons_prefix_cons] at h3
                rw [h3.1, h3.2.1, h3.2.2.1, h3.2.2.2.1] at h1
                simp [List.isPrefixOf] at h1
          have g2 : ¬ [LF, LF].isPrefixOf (b :: (r ++ u)) = true := by
            rcases r with _ | ⟨x, r⟩
            · simp at hlen
            · simpa [List.isPrefixOf] using h2
          simp only [List.cons_append, cutEvent]
          rw [if_neg g1, if_neg g2, ih]
          simp [h.1, h.2]
        next => cases h

section
variable {R : Type} {read : Bytes → Option R}

theorem sseLoop_fuel : ∀ (n m : Nat) (b : Bytes), b.length ≤ n → b.length ≤ m →
    sseLoop read n b = sseLoop read m b
  | 0, m, b, h, _ => by
    have : b = [] := List.length_eq_zero_iff.1 (by omega)
    subst this
    cases m <;> simp [sseLoop, cutEvent]
  | n + 1, 0, b, _, h => by
    have : b = [] := List.length_eq_zero_iff.1 (by omega)
    subst this
    simp [sseLoop, cutEvent]
  | n + 1, m + 1, b, h1, h2 => by
    simp only [sseLoop]
    split
    next => rfl
    next e b' he =>
      obtain ⟨hs, hne⟩ := cutEvent_spec he
      have hlen : b'.length < b.length := by
        rw [hs, List.length_append]
        have := List.length_pos_iff.2 hne
        omega
      rw [sseLoop_fuel n m b' (by omega) (by omega)]

/-- The inner loop with enough turns. -/
def sse (read : Bytes → Option R) (b : Bytes) : List (Out R) × State := sseLoop read b.length b

theorem sse_none {b : Bytes} (h : cutEvent b = none) : sse read b = ([], .wait true b) := by
  unfold sse
  cases b with
  | nil => rfl
  | cons x r => simp only [List.length_cons, sseLoop, h]

theorem sse_some {b e r : Bytes} (h : cutEvent b = some (e, r)) :
    sse read b = match onEvent read e with
      | (o, false) => (o, .over)
      | (o, true) => (o ++ (sse read r).1, (sse read r).2) := by
  obtain ⟨hs, hne⟩ := cutEvent_spec h
  have hlen : r.length < b.length := by
    rw [hs, List.length_append]
    have := List.length_pos_iff.2 hne
    omega
  obtain ⟨k, hk⟩ : ∃ k, b.length = k + 1 := ⟨b.length - 1, by omega⟩
  unfold sse
  rw [hk]
  simp only [sseLoop, h]
  rw [sseLoop_fuel k r.length r (by omega) (Nat.le_refl _)]
  cases onEvent read e with
  | mk o c => cases c <;> rfl

/-- Going on from a state. -/
def goOn (f : Bytes → List (Out R) × State) : List (Out R) × State → List (Out R) × State
  | (o, .over) => (o, .over)
  | (o, .wait _ b) => (o ++ (f b).1, (f b).2)

theorem sse_append (u : Bytes) : ∀ (n : Nat) (b : Bytes), b.length ≤ n →
    sse read (b ++ u) = goOn (fun r => sse read (r ++ u)) (sse read b)
  | n, b, hn => by
    cases hc : cutEvent b with
    | none =>
      rw [sse_none hc]
      simp [goOn]
    | some x =>
      obtain ⟨e, r⟩ := x
      obtain ⟨hs, hne⟩ := cutEvent_spec hc
      have hlen : r.length < b.length := by
        rw [hs, List.length_append]
        have := List.length_pos_iff.2 hne
        omega
      rw [sse_some hc, sse_some (cutEvent_mono u hc)]
      cases n with
      | zero => omega
      | succ n =>
        cases onEvent read e with
        | mk o c =>
          cases c with
          | false => rfl
          | true =>
            simp only
            rw [sse_append u n r (by omega)]
            cases sse read r with
            | mk o' s =>
              cases s with
              | over => rfl
              | wait t b' => simp [goOn]

theorem sse_waits : ∀ (n : Nat) (b : Bytes), b.length ≤ n → ∀ {o : List (Out R)} {s : Bool} {r : Bytes},
    sse read b = (o, .wait s r) → s = true ∧ cutEvent r = none
  | n, b, hn, o, s, r, h => by
    cases hc : cutEvent b with
    | none =>
      rw [sse_none hc] at h
      cases h
      exact ⟨rfl, hc⟩
    | some x =>
      obtain ⟨e, b'⟩ := x
      obtain ⟨hs, hne⟩ := cutEvent_spec hc
      have hlen : b'.length < b.length := by
        rw [hs, List.length_append]
        have := List.length_pos_iff.2 hne
        omega
      rw [sse_some hc] at h
      split at h
      next => cases h
      next o' _ =>
        cases n with
        | zero => omega
        | succ n =>
          simp only [Prod.mk.injEq] at h
          exact sse_waits n b' (by omega) (o := (sse read b').1) (Prod.ext rfl h.2)

theorem run_over {step : State → Frame → List (Out R) × State} (h : ∀ f, step .over f = ([], .over)) :
    ∀ fs, runFrames step .over fs = ([], .over)
  | [] => rfl
  | f :: fs => by simp only [runFrames, h, run_over h fs, List.nil_append]

theorem sse_chunks : ∀ (cs : List Bytes) (b : Bytes), cutEvent b = none →
    ¬ Overrun (runFrames (sseStep read) (.wait true b) (cs.map .data)).1 →
    runFrames (sseStep read) (.wait true b) (cs.map .data) = sse read (b ++ cs.flatten)
  | [], b, hb, _ => by simp [runFrames, sse_none hb]
  | c :: cs, b, hb, ho => by
    simp only [List.map_cons, runFrames, sseStep] at ho ⊢
    by_cases hl : maxBuffer < (b ++ c).length
    · rw [if_pos hl] at ho
      exact absurd (by simp [Overrun]) ho
    · rw [if_neg hl] at ho ⊢
      change ¬ Overrun (match sse read (b ++ c) with
        | (o, s) => match runFrames (sseStep read) s (cs.map .data) with
          | (o', s) => (o ++ o', s)).1 at ho
      change (match sse read (b ++ c) with
        | (o, s) => match runFrames (sseStep read) s (cs.map .data) with
          | (o', s) => (o ++ o', s)) = _
      rw [List.flatten_cons, ← List.append_assoc, sse_append cs.flatten _ (b ++ c) (Nat.le_refl _)]
      cases hr : sse read (b ++ c) with
      | mk o s =>
        rw [hr] at ho
        cases s with
        | over =>
          simp only [goOn]
          rw [run_over (fun f => by cases f <;> rfl)]
          simp
        | wait t r =>
          obtain ⟨rfl, hc⟩ := sse_waits _ _ (Nat.le_refl _) hr
          have ho' : ¬ Overrun (runFrames (sseStep read) (.wait true r) (cs.map .data)).1 := by
            intro h
            apply ho
            simp only [Overrun] at h ⊢
            simp [h]
          simp only [goOn]
          rw [sse_chunks cs r hc ho']

end

/-! ## The lines of an event -/

theorem cutEvent_skip {t : Bytes} (ht : OneLine t) (b : Bytes) :
    cutEvent (t ++ b) = (cutEvent b).map fun x => (t ++ x.1, x.2) := by
  induction t with
  | nil => simp
  | cons c r ih =>
    have h1 : ¬ CR = c := fun e => ht.1 (by simp [e])
    have h2 : ¬ LF = c := fun e => ht.2 (by simp [e])
    have h3 : OneLine r := ⟨fun h => ht.1 (by simp [h]), fun h => ht.2 (by simp [h])⟩
    simp only [List.cons_append, cutEvent, List.isPrefixOf, beq_eq_false_iff_ne.2 h1, beq_eq_false_iff_ne.2 h2,
      Bool.false_and, Bool.false_eq_true, if_false]
    rw [ih h3]
    cases cutEvent b <;> simp

theorem cutEvent_break {nl t : Bytes} (hn : IsBreak nl) (ht : OneLine t) (hne : t ≠ []) (b : Bytes) :
    cutEvent (nl ++ (t ++ b)) = (cutEvent (t ++ b)).map fun x => (nl ++ x.1, x.2) := by
  cases t with
  | nil => exact absurd rfl hne
  | cons c r =>
    have h1 : (CR == c) = false := beq_eq_false_iff_ne.2 fun e => ht.1 (by simp [e])
    have h2 : (LF == c) = false := beq_eq_false_iff_ne.2 fun e => ht.2 (by simp [e])
    have h3 : (CR == LF) = false := by decide
    have h4 : (LF == CR) = false := by decide
    rcases hn with rfl | rfl
    · simp only [List.cons_append, List.nil_append]
      rw [cutEvent]
      simp only [List.isPrefixOf, h2, h3, Bool.and_false, Bool.false_and, Bool.false_eq_true, if_false]
      cases cutEvent (c :: (r ++ b)) <;> simp
    · simp only [List.cons_append, List.nil_append]
      rw [cutEvent, cutEvent]
      simp only [List.isPrefixOf, h1, h2, h3, h4, Bool.and_false, Bool.false_and, Bool.false_eq_true, if_false]
      cases cutEvent (c :: (r ++ b)) <;> simp

theorem cutEvent_end {nl : Bytes} (hn : IsBreak nl) (b : Bytes) : cutEvent (nl ++ (nl ++ b)) = some (nl ++ nl, b) := by
  rcases hn with rfl | rfl
  · simp [cutEvent, List.isPrefixOf, CR, LF]
  · simp [cutEvent, List.isPrefixOf]

theorem cutEvent_texts {nl : Bytes} (hn : IsBreak nl) (b : Bytes) : ∀ (ts : List Bytes), ts ≠ [] →
    (∀ t ∈ ts, OneLine t ∧ t ≠ []) →
    cutEvent ((ts.flatMap fun t => t ++ nl) ++ nl ++ b) = some ((ts.flatMap fun t => t ++ nl) ++ nl, b)
  | [], h, _ => absurd rfl h
  | [t], _, h => by
    have ht := (h t (by simp)).1
    simp only [List.flatMap_cons, List.flatMap_nil, List.append_nil, List.append_assoc]
    rw [cutEvent_skip ht, cutEvent_end hn]
    simp
  | t :: t2 :: ts, _, h => by
    have ht := (h t (by simp)).1
    have ht2 := h t2 (by simp)
    have ih := cutEvent_texts hn b (t2 :: ts) (by simp) fun x hx => h x (List.mem_cons_of_mem _ hx)
    simp only [List.flatMap_cons, List.append_assoc] at ih ⊢
    rw [cutEvent_skip ht, cutEvent_break hn ht2.1 ht2.2, ih]
    simp

theorem lines_texts {nl : Bytes} (hn : IsBreak nl) : ∀ (ts : List Bytes), (∀ t ∈ ts, OneLine t) →
    lines ((ts.flatMap fun t => t ++ nl) ++ nl) = ts ++ [[]]
  | [], _ => by
    have h : lines (([] : Bytes) ++ nl ++ []) = [] :: lines [] := lines_break (by simp [OneLine]) hn []
    simpa [lines, linesN] using h
  | t :: ts, h => by
    have ih := lines_texts hn ts fun x hx => h x (List.mem_cons_of_mem _ hx)
    simp only [List.flatMap_cons]
    rw [List.append_assoc (t ++ nl), lines_break (h t (by simp)) hn, ih]
    rfl

theorem OneLine.append {a b : Bytes} (ha : OneLine a) (hb : OneLine b) : OneLine (a ++ b) := by
  simp only [OneLine, List.mem_append, not_or] at *
  exact ⟨⟨ha.1, hb.1⟩, ha.2, hb.2⟩

theorem words : OneLine (ascii ":") ∧ OneLine (ascii ": ") ∧ OneLine (ascii "event: ") ∧ OneLine (ascii "data: ") := by
  simp only [OneLine]
  decide

theorem words_valid : valid (ascii ":") = true ∧ valid (ascii ": ") = true ∧ valid (ascii "event: ") = true ∧
    valid (ascii "data: ") = true := by decide +kernel

theorem words_some {t : Bytes} : ascii ":" ++ t ≠ [] ∧ ascii "event: " ++ t ≠ [] ∧ ascii "data: " ++ t ≠ [] := by
  simp [ascii]

theorem Line.text_ok {l : Line} (h : l.Ok) : OneLine l.text ∧ l.text ≠ [] ∧ valid l.text = true := by
  cases l with
  | comment c =>
    obtain ⟨h1, h2⟩ := h
    rw [Line.text]
    exact ⟨words.1.append h1, words_some.1, valid_both words_valid.1 h2⟩
  | event v =>
    obtain ⟨h1, h2, _⟩ := h
    rw [Line.text]
    exact ⟨words.2.2.1.append h1, words_some.2.1, valid_both words_valid.2.2.1 h2⟩
  | data v =>
    obtain ⟨h1, h2, _⟩ := h
    rw [Line.text]
    exact ⟨words.2.2.2.append h1, words_some.2.2, valid_both words_valid.2.2.2 h2⟩
  | other f v =>
    obtain ⟨h1, h2, h3, h4, h5, _⟩ := h
    rw [Line.text]
    exact ⟨(h1.append words.2.1).append h3, by simp [h5], valid_both (valid_both h2 words_valid.2.1) h4⟩

/-- The type after some lines. -/
def typeAfter (ev : Option Bytes) : List Line → Option Bytes
  | [] => ev
  | .event v :: r => typeAfter (some v) r
  | _ :: r => typeAfter ev r

/-- The data in some lines. -/
def dataIn : List Line → List Bytes
  | [] => []
  | .data v :: r => v :: dataIn r
  | _ :: r => dataIn r

theorem readLines_texts : ∀ (ls : List Line), (∀ l ∈ ls, l.Ok) → ∀ (ev : Option Bytes) (ds : List Bytes),
    readLines ev ds (ls.map Line.text ++ [[]]) = eventOf (typeAfter ev ls) (ds ++ dataIn ls)
  | [], _, ev, ds => by
    simp only [List.map_nil, List.nil_append, readLines, if_true, typeAfter, dataIn, List.append_nil]
    cases eventOf ev ds <;> rfl
  | l :: ls, h, ev, ds => by
    have ih := readLines_texts ls fun x hx => h x (List.mem_cons_of_mem _ hx)
    have ht := Line.text_ok (h l (by simp))
    have hl := h l (by simp)
    simp only [List.map_cons, List.cons_append]
    rw [readLines, if_neg ht.2.1]
    cases l with
    | comment c =>
      have : [58].isPrefixOf (Line.comment c).text = true := by simp [Line.text, ascii, List.isPrefixOf]
      rw [if_pos this, ih]
      rfl
    | event v =>
      have h1 : [58].isPrefixOf (Line.event v).text = false := by simp [Line.text, ascii, List.isPrefixOf]
      have h2 : cutAt [58] (Line.event v).text = some (ascii "event", 32 :: v) := by
        have := cutAt_skip (n := [58]) (a := 58) rfl (p := ascii "event") (by decide) (58 :: 32 :: v)
        have h3 : cutAt [58] (58 :: 32 :: v) = some ([], 32 :: v) := cutAt_hit (n := [58]) (by simp) _
        rw [h3] at this
        simpa [Line.text, ascii] using this
      rw [h1]
      simp only [Bool.false_eq_true, if_false, h2, if_true]
      rw [trim_space hl.2.2, ih]
      rfl
    | data v =>
      have h1 : [58].isPrefixOf (Line.data v).text = false := by simp [Line.text, ascii, List.isPrefixOf]
      have h2 : cutAt [58] (Line.data v).text = some (ascii "data", 32 :: v) := by
        have := cutAt_skip (n := [58]) (a := 58) rfl (p := ascii "data") (by decide) (58 :: 32 :: v)
        have h3 : cutAt [58] (58 :: 32 :: v) = some ([], 32 :: v) := cutAt_hit (n := [58]) (by simp) _
        rw [h3] at this
        simpa [Line.text, ascii] using this
      have h4 : ¬ ascii "data" = ascii "event" := by decide
      rw [h1]
      simp only [Bool.false_eq_true, if_false, h2, h4, if_true]
      rw [trim_space hl.2.2, ih]
      simp [typeAfter, dataIn]
    | other f v =>
      obtain ⟨_, _, _, _, hf, h58, he, hd⟩ := hl
      have h1 : [58].isPrefixOf (Line.other f v).text = false := by
        cases f with
        | nil => exact absurd rfl hf
        | cons a r =>
          have : (58 == a) = false := beq_eq_false_iff_ne.2 fun e => h58 (by simp [e])
          simp [Line.text, List.isPrefixOf, this]
      have h2 : cutAt [58] (Line.other f v).text = some (f, 32 :: v) := by
        have := cutAt_skip (n := [58]) (a := 58) rfl (p := f) h58 (58 :: 32 :: v)
        have h3 : cutAt [58] (58 :: 32 :: v) = some ([], 32 :: v) := cutAt_hit (n := [58]) (by simp) _
        rw [h3] at this
        simpa [Line.text, ascii] using this
      rw [h1]
      simp only [Bool.false_eq_true, if_false, h2, he, hd]
      rw [ih]
      rfl

theorem typeAfter_getLast : ∀ (ls : List Line) (ev : Option Bytes),
    typeAfter ev ls = ((ls.filterMap Line.type?).getLast?).or ev
  | [], ev => by simp [typeAfter]
  | l :: ls, ev => by
    cases l with
    | event v =>
      rw [typeAfter, typeAfter_getLast ls, List.filterMap_cons_some (f := Line.type?) (b := v) rfl, List.getLast?_cons]
      cases (ls.filterMap Line.type?).getLast? <;> simp
    | comment c => rw [typeAfter, typeAfter_getLast ls, List.filterMap_cons_none rfl]; simp
    | data v => rw [typeAfter, typeAfter_getLast ls, List.filterMap_cons_none rfl]; simp
    | other f v => rw [typeAfter, typeAfter_getLast ls, List.filterMap_cons_none rfl]; simp

theorem dataIn_filter : ∀ (ls : List Line), dataIn ls = ls.filterMap Line.data?
  | [] => rfl
  | l :: ls => by
    cases l with
    | data v => rw [dataIn, dataIn_filter ls, List.filterMap_cons_some (f := Line.data?) (b := v) rfl]
    | comment c => rw [dataIn, dataIn_filter ls, List.filterMap_cons_none rfl]; simp
    | event v => rw [dataIn, dataIn_filter ls, List.filterMap_cons_none rfl]; simp
    | other f v => rw [dataIn, dataIn_filter ls, List.filterMap_cons_none rfl]; simp

theorem Message.isBreak (m : Message) : IsBreak m.newline := by
  unfold Message.newline
  cases m.crlf
  · exact .inl rfl
  · exact .inr rfl

theorem Message.text_eq (m : Message) : m.text = ((m.lines.map Line.text).flatMap fun t => t ++ m.newline) ++ m.newline := by
  simp [Message.text, List.flatMap_map]

theorem Message.valid {m : Message} (h : m.Ok) : valid m.text = true := by
  have hn : Stream.valid m.newline = true := by
    unfold Message.newline
    cases m.crlf <;> decide
  have : ∀ ls : List Line, (∀ l ∈ ls, l.Ok) → Stream.valid (ls.flatMap fun l => l.text ++ m.newline) = true := by
    intro ls hl
    induction ls with
    | nil => rfl
    | cons l ls ih =>
      simp only [List.flatMap_cons]
      exact valid_both (valid_both (Line.text_ok (hl l (by simp))).2.2 hn) (ih fun x hx => hl x (List.mem_cons_of_mem _ hx))
  exact valid_both (this m.lines h.2) hn

theorem parseEvent_message {m : Message} (h : m.Ok) : parseEvent m.text = .ok (eventOf m.type m.data) := by
  rw [parseEvent, if_pos (Message.valid h), Message.text_eq, lines_texts m.isBreak, readLines_texts m.lines h.2]
  · rw [typeAfter_getLast, dataIn_filter, Option.or_none, List.nil_append]
    rfl
  · intro t ht
    simp only [List.mem_map] at ht
    obtain ⟨l, hl, rfl⟩ := ht
    exact (Line.text_ok (h.2 l hl)).1

theorem cutEvent_message {m : Message} (h : m.Ok) (b : Bytes) : cutEvent (m.text ++ b) = some (m.text, b) := by
  rw [Message.text_eq]
  refine cutEvent_texts m.isBreak b _ (by simp [h.1]) ?_
  intro t ht
  simp only [List.mem_map] at ht
  obtain ⟨l, hl, rfl⟩ := ht
  exact ⟨(Line.text_ok (h.2 l hl)).1, (Line.text_ok (h.2 l hl)).2.1⟩

theorem sse_messages {R : Type} {read : Bytes → Option R} : ∀ (ms : List Message), (∀ m ∈ ms, m.Ok) →
    (sse read (ms.flatMap Message.text)).1 = meaning read ms
  | [], _ => rfl
  | m :: ms, h => by
    have hm := h m (by simp)
    have ih := sse_messages (read := read) ms fun x hx => h x (List.mem_cons_of_mem _ hx)
    simp only [List.flatMap_cons]
    rw [sse_some (cutEvent_message hm _)]
    simp only [onEvent, parseEvent_message hm, meaning]
    by_cases h1 : m.type = some (ascii "next") ∧ joinLF m.data ≠ []
    · have he : eventOf m.type m.data = some ⟨m.type, joinLF m.data⟩ := by simp [eventOf, h1.1]
      simp only [he, if_pos h1]
      cases read (joinLF m.data) with
      | some r => simp [ih]
      | none => rfl
    · rw [if_neg h1]
      by_cases h2 : m.type = some (ascii "complete")
      · have he : eventOf m.type m.data = some ⟨m.type, joinLF m.data⟩ := by simp [eventOf, h2]
        simp only [he, if_neg h1, if_pos h2]
      · rw [if_neg h2]
        cases he : eventOf m.type m.data with
        | none => simp [ih]
        | some e =>
          have : e = ⟨m.type, joinLF m.data⟩ := by
            simp only [eventOf] at he
            split at he
            · exact (Option.some.inj he).symm
            · cases he
          subst this
          simp only [if_neg h1, if_neg h2]
          simp [ih]

end Verif.Stream
