import Verif.Text.Uniq
import Verif.Text.Tame
/-!
# Numbers, as the tokenizer takes them
-/
namespace Verif.Text

theorem lastIdx_none {p : Char → Bool} {t : Txt} (h : ∀ c ∈ t, p c = false) (k : Nat) :
    lastIdx p t k = none := by
  induction t generalizing k with
  | nil => rfl
  | cons c t ih =>
    rw [lastIdx, ih (fun c hc => h c (by simp [hc]))]
    simp [h c (by simp)]

theorem lastIdx_some {p : Char → Bool} {a b : Txt} {x : Char} (hx : p x = true)
    (h : ∀ c ∈ b, p c = false) (k : Nat) : lastIdx p (a ++ x :: b) k = some (k + a.length) := by
  induction a generalizing k with
  | nil =>
    rw [List.nil_append, lastIdx, lastIdx_none h]
    simp [hx]
  | cons c a ih =>
    rw [List.cons_append, lastIdx, ih]
    simp
    omega

theorem lastIdx_inv {p : Char → Bool} {t : Txt} {k i : Nat} (h : lastIdx p t k = some i) :
    ∃ a x b, t = a ++ x :: b ∧ i = k + a.length ∧ p x = true ∧ ∀ c ∈ b, p c = false := by
  induction t generalizing k with
  | nil => cases h
  | cons c t ih =>
    rw [lastIdx] at h
    cases hx : lastIdx p t (k + 1) with
    | some j =>
      rw [hx] at h
      cases h
      obtain ⟨a, x, b, rfl, rfl, h1, h2⟩ := ih hx
      exact ⟨c :: a, x, b, rfl, by simp; omega, h1, h2⟩
    | none =>
      rw [hx] at h
      by_cases hc : p c = true
      · rw [if_pos hc] at h
        cases h
        refine ⟨[], c, t, rfl, rfl, hc, ?_⟩
        intro d hd
        cases hp : p d with
        | false => rfl
        | true =>
          exfalso
          obtain ⟨u, w, rfl⟩ := List.append_of_mem hd
          clear ih
          have key : ∀ (s : Txt) (j : Nat), (∃ d ∈ s, p d = true) → lastIdx p s j ≠ none := by
            intro s
            induction s with
            | nil => rintro j ⟨d, hd, _⟩; cases hd
            | cons e s ih =>
              rintro j ⟨d, hd, hpd⟩ hn
              rw [lastIdx] at hn
              rcases List.mem_cons.1 hd with rfl | hd
              · rw [if_pos hpd] at hn
                cases hl : lastIdx p s (j + 1) <;> rw [hl] at hn <;> cases hn
              · cases hl : lastIdx p s (j + 1) with
                | none => exact ih _ ⟨d, hd, hpd⟩ hl
                | some => rw [hl] at hn; cases hn
          exact key _ _ ⟨d, by simp, hp⟩ hx
      · rw [if_neg hc] at h
        cases h

theorem lastIdx_none_inv {p : Char → Bool} {t : Txt} {k : Nat} (h : lastIdx p t k = none) :
    ∀ c ∈ t, p c = false := by
  induction t generalizing k with
  | nil => intro c hc; cases hc
  | cons c t ih =>
    rw [lastIdx] at h
    cases hx : lastIdx p t (k + 1) with
    | some j => rw [hx] at h; cases h
    | none =>
      rw [hx] at h
      intro d hd
      rcases List.mem_cons.1 hd with rfl | hd
      · cases hp : p d with
        | false => rfl
        | true => rw [if_pos hp] at h; cases h
      · exact ih hx d hd

def isExpC (c : Char) : Bool := c == 'e' || c == 'E'
def isDotC (c : Char) : Bool := c == '.'

theorem digit_not {c : Char} (h : Digit c) : isExpC c = false ∧ isDotC c = false ∧ c ≠ '-' := by
  refine ⟨?_, ?_, ?_⟩
  · cases hx : isExpC c with
    | false => rfl
    | true =>
      exfalso
      simp only [isExpC, Bool.or_eq_true, beq_iff_eq] at hx
      rcases hx with rfl | rfl <;> revert h <;> decide
  · cases hx : isDotC c with
    | false => rfl
    | true =>
      exfalso
      simp only [isDotC, beq_iff_eq] at hx
      subst hx
      revert h; decide
  · rintro rfl; revert h; decide

theorem all_digit {t : Txt} : t.all digit = true ↔ ∀ c ∈ t, Digit c := by
  rw [List.all_eq_true]
  exact ⟨fun h c hc => (digit_iff c).1 (h c hc), fun h c hc => (digit_iff c).2 (h c hc)⟩

theorem checkInt_of {i : Txt} (h : IsInt i) : checkInt i = true := by
  have nat : ∀ t, IsNatural t → checkInt t = true ∧ checkInt ('-' :: t) = true := by
    rintro t (rfl | ⟨c, cs, rfl, hc, hd⟩)
    · exact ⟨rfl, rfl⟩
    · have h1 : cs.all digit = true := all_digit.2 fun x hx => hd x (by simp [hx])
      have h2 : (c :: cs).all digit = true := all_digit.2 hd
      have h3 : c ≠ '-' := (digit_not (hd c (by simp))).2.2
      constructor
      · unfold checkInt
        simp [List.isPrefixOf, hc.symm, h1, h3, h3.symm]
      · unfold checkInt
        rw [List.all_cons, Bool.and_eq_true] at h2
        simp [List.isPrefixOf, hc.symm, h2.1, h1]
  rcases h with h | ⟨u, rfl, h⟩
  · exact (nat i h).1
  · exact (nat u h).2

/-- An integer has no point and no exponent, and is not empty. -/
theorem int_chars {i : Txt} (h : IsInt i) : ∃ c r, i = c :: r ∧ ∀ d ∈ r, Digit d := by
  rcases h with h | ⟨u, rfl, h⟩
  · obtain ⟨h1, h2⟩ := natural_digits h
    cases i with
    | nil => exact absurd rfl h1
    | cons c r => exact ⟨c, r, rfl, fun d hd => h2 d (by simp [hd])⟩
  · exact ⟨'-', u, rfl, (natural_digits h).2⟩

theorem numberTok_int {i : Txt} (h : IsInt i) : numberTok i = some (.int i) := by
  obtain ⟨c, r, rfl, hr⟩ := int_chars h
  have h1 := lastIdx_none (p := fun c => c == 'e' || c == 'E') (t := r)
    (fun d hd => (digit_not (hr d hd)).1) 1
  have h2 := lastIdx_none (p := fun c => c == '.') (t := r)
    (fun d hd => (digit_not (hr d hd)).2.1) 1
  unfold numberTok
  simp only [List.tail_cons, h1, h2]
  simp [checkInt_of h]

theorem checkDec_of {ds : Txt} (h : Digits ds) : checkDec ds = true := by
  unfold checkDec
  rw [all_digit.2 h.2]
  cases ds with
  | nil => exact absurd rfl h.1
  | cons => rfl

theorem digit_range {c : Char} (h : Digit c) (h0 : c ≠ '0') (h9 : c ≠ '9') : ¬ (c ≤ '0' ∨ c ≥ '9') := by
  rintro (h' | h')
  · exact h0 (Char.le_antisymm h' h.1)
  · exact h9 (Char.le_antisymm h.2 h')

/-- What follows the letter of an exponent. -/
theorem checkExp_of {a e : Txt} (h : IsExponent e) (ht : ExpTame (a ++ e)) :
    ∃ x es, e = x :: es ∧ isExpC x = true ∧ (∀ c ∈ es, isExpC c = false ∧ isDotC c = false) ∧
      checkExp es = true := by
  obtain ⟨x, ds, hx, hd, rfl | rfl | rfl⟩ := h
  · refine ⟨x, ds, rfl, by rcases hx with rfl | rfl <;> rfl,
      fun c hc => ⟨(digit_not (hd.2 c hc)).1, (digit_not (hd.2 c hc)).2.1⟩, ?_⟩
    cases ds with
    | nil => exact absurd rfl hd.1
    | cons d ds =>
      have hne := ht a x d ds rfl hx
      rw [checkExp, if_neg]
      · exact all_digit.2 fun c hc => hd.2 c (by simp [hc])
      · rintro ⟨_, _, h⟩
        exact digit_range (hd.2 d (by simp)) hne.1 hne.2 h
  · refine ⟨x, '+' :: ds, rfl, by rcases hx with rfl | rfl <;> rfl, ?_, ?_⟩
    · intro c hc
      rcases List.mem_cons.1 hc with rfl | hc
      · decide
      · exact ⟨(digit_not (hd.2 c hc)).1, (digit_not (hd.2 c hc)).2.1⟩
    · rw [checkExp, if_neg (by simp)]
      exact all_digit.2 hd.2
  · refine ⟨x, '-' :: ds, rfl, by rcases hx with rfl | rfl <;> rfl, ?_, ?_⟩
    · intro c hc
      rcases List.mem_cons.1 hc with rfl | hc
      · decide
      · exact ⟨(digit_not (hd.2 c hc)).1, (digit_not (hd.2 c hc)).2.1⟩
    · rw [checkExp, if_neg (by simp)]
      exact all_digit.2 hd.2

theorem numberTok_eq (v : Txt) : numberTok v =
    if (lastIdx isExpC v.tail 1).isSome || (lastIdx isDotC v.tail 1).isSome then
      if checkFloat v (lastIdx isExpC v.tail 1) (lastIdx isDotC v.tail 1) then some (.float v) else none
    else if checkInt v then some (.int v) else none := rfl

theorem numberTok_float {v : Txt} (h : IsFloat v) (ht : ExpTame v) : numberTok v = some (.float v) := by
  obtain ⟨i, f, e, rfl, hi, hfe⟩ := h
  have hci := checkInt_of hi
  obtain ⟨c, i', rfl, hi'⟩ := int_chars hi
  rw [numberTok_eq]
  rcases hfe with ⟨⟨ds, rfl, hd⟩, rfl⟩ | ⟨rfl, he⟩ | ⟨⟨ds, rfl, hd⟩, he⟩
  · have e1 : (c :: i' ++ '.' :: ds ++ []).tail = i' ++ '.' :: ds := by simp
    have h1 : lastIdx isDotC (i' ++ '.' :: ds) 1 = some (1 + i'.length) :=
      lastIdx_some rfl (fun d hd' => (digit_not (hd.2 d hd')).2.1) 1
    have h2 : lastIdx isExpC (i' ++ '.' :: ds) 1 = none := lastIdx_none (by
      intro d hd'
      rw [List.mem_append, List.mem_cons] at hd'
      rcases hd' with h | rfl | h
      · exact (digit_not (hi' d h)).1
      · rfl
      · exact (digit_not (hd.2 d h)).1) 1
    rw [e1, h1, h2]
    have e2 : (c :: i' ++ '.' :: ds ++ []).take (1 + i'.length) = c :: i' := by
      rw [List.append_nil, List.take_left']; simp; omega
    have e3 : (c :: i' ++ '.' :: ds ++ []).drop (1 + i'.length + 1) = ds := by
      have : (c :: i' ++ '.' :: ds ++ []) = (c :: i' ++ ['.']) ++ ds := by simp
      rw [this, List.drop_left']; simp; omega
    simp only [checkFloat, e2, e3, hci, checkDec_of hd]
    rfl
  · have ht' : ExpTame (c :: i' ++ e) := by simpa using ht
    obtain ⟨x, es, rfl, hx, hes, hce⟩ := checkExp_of he ht'
    have e1 : (c :: i' ++ [] ++ x :: es).tail = i' ++ x :: es := by simp
    have h1 : lastIdx isExpC (i' ++ x :: es) 1 = some (1 + i'.length) :=
      lastIdx_some hx (fun d hd => (hes d hd).1) 1
    have hxd : isDotC x = false := by
      cases hq : isDotC x with
      | false => rfl
      | true =>
        simp only [isDotC, beq_iff_eq] at hq
        subst hq
        cases hx
    have h2 : lastIdx isDotC (i' ++ x :: es) 1 = none := lastIdx_none (by
      intro d hd'
      rw [List.mem_append, List.mem_cons] at hd'
      rcases hd' with h | rfl | h
      · exact (digit_not (hi' d h)).2.1
      · exact hxd
      · exact (hes d h).2) 1
    rw [e1, h1, h2]
    have e2 : (c :: i' ++ [] ++ x :: es).take (1 + i'.length) = c :: i' := by
      rw [List.append_nil, List.take_left']; simp; omega
    have e3 : (c :: i' ++ [] ++ x :: es).drop (1 + i'.length + 1) = es := by
      have : (c :: i' ++ [] ++ x :: es) = (c :: i' ++ [x]) ++ es := by simp
      rw [this, List.drop_left']; simp; omega
    simp only [checkFloat, e2, e3, hci, hce]
    rfl
  · obtain ⟨x, es, rfl, hx, hes, hce⟩ := checkExp_of he ht
    have e1 : (c :: i' ++ '.' :: ds ++ x :: es).tail = i' ++ '.' :: (ds ++ x :: es) := by simp
    have hxd : isDotC x = false := by
      cases hq : isDotC x with
      | false => rfl
      | true =>
        simp only [isDotC, beq_iff_eq] at hq
        subst hq
        cases hx
    have h1 : lastIdx isDotC (i' ++ '.' :: (ds ++ x :: es)) 1 = some (1 + i'.length) :=
      lastIdx_some rfl (by
        intro d hd'
        rw [List.mem_append, List.mem_cons] at hd'
        rcases hd' with h | rfl | h
        · exact (digit_not (hd.2 d h)).2.1
        · exact hxd
        · exact (hes d h).2) 1
    have h2 : lastIdx isExpC (i' ++ '.' :: (ds ++ x :: es)) 1 = some (1 + (i' ++ '.' :: ds).length) := by
      have : i' ++ '.' :: (ds ++ x :: es) = (i' ++ '.' :: ds) ++ x :: es := by simp
      rw [this]
      exact lastIdx_some hx (fun d hd => (hes d hd).1) 1
    rw [e1, h1, h2]
    have hlt : ¬ 1 + (i' ++ '.' :: ds).length < 1 + i'.length := by simp
    have e2 : (c :: i' ++ '.' :: ds ++ x :: es).take (1 + i'.length) = c :: i' := by
      rw [List.append_assoc, List.take_left']; simp; omega
    have e3 : ((c :: i' ++ '.' :: ds ++ x :: es).take (1 + (i' ++ '.' :: ds).length)).drop
        (1 + i'.length + 1) = ds := by
      have h3 : (c :: i' ++ '.' :: ds ++ x :: es).take (1 + (i' ++ '.' :: ds).length)
          = c :: i' ++ '.' :: ds := by rw [List.take_left']; simp; omega
      have : (c :: i' ++ '.' :: ds) = (c :: i' ++ ['.']) ++ ds := by simp
      rw [h3, this, List.drop_left']; simp; omega
    have e4 : (c :: i' ++ '.' :: ds ++ x :: es).drop (1 + (i' ++ '.' :: ds).length + 1) = es := by
      have : (c :: i' ++ '.' :: ds ++ x :: es) = (c :: i' ++ '.' :: ds ++ [x]) ++ es := by simp
      rw [this, List.drop_left']; simp; omega
    simp only [checkFloat, if_neg hlt, e2, e3, e4, hci, checkDec_of hd, hce]
    rfl

/-! ## The other way -/

theorem checkInt_inv {c : Char} {r : Txt} (hc : c = '-' ∨ Digit c) (h : checkInt (c :: r) = true) :
    IsInt (c :: r) := by
  unfold checkInt at h
  simp only [Bool.or_eq_true, Bool.and_eq_true, beq_iff_eq, Bool.not_eq_true', List.tail_cons,
    bne_iff_ne, ne_eq] at h
  rcases h with (h | h) | ⟨⟨⟨h1, h2⟩, h3⟩, h4⟩
  · rw [h]; exact .inl (.inl rfl)
  · rw [h]; exact .inr ⟨['0'], rfl, .inl rfl⟩
  · have h4 := all_digit.1 h4
    have h0 : c ≠ '0' := by
      rintro rfl
      simp [List.isPrefixOf] at h1
    rcases hc with rfl | hc
    · right
      refine ⟨r, rfl, ?_⟩
      cases r with
      | nil => exact absurd rfl h2
      | cons d r =>
        refine .inr ⟨d, r, rfl, ?_, h4⟩
        rintro rfl
        simp [List.isPrefixOf] at h3
    · left
      refine .inr ⟨c, r, rfl, h0, ?_⟩
      intro d hd
      rcases List.mem_cons.1 hd with rfl | hd
      · exact hc
      · exact h4 d hd

theorem checkDec_inv {t : Txt} (h : checkDec t = true) : Digits t := by
  unfold checkDec at h
  rw [Bool.and_eq_true] at h
  refine ⟨?_, all_digit.1 h.2⟩
  rintro rfl
  simp at h

/-- An exponent is accepted by the language unless it is only a sign. -/
theorem checkExp_inv {x : Char} {es : Txt} (hx : isExpC x = true) (h : checkExp es = true) :
    IsExponent (x :: es) ∨ es = ['+'] ∨ es = ['-'] := by
  have hx' : x = 'e' ∨ x = 'E' := by simpa [isExpC] using hx
  cases es with
  | nil => cases h
  | cons d ds =>
    rw [checkExp] at h
    split at h
    · cases h
    · next hn =>
      have hds := all_digit.1 h
      by_cases h1 : d = '+'
      · subst h1
        cases ds with
        | nil => exact .inr (.inl rfl)
        | cons y ys => exact .inl ⟨x, y :: ys, hx', ⟨by simp, hds⟩, .inr (.inl rfl)⟩
      by_cases h2 : d = '-'
      · subst h2
        cases ds with
        | nil => exact .inr (.inr rfl)
        | cons y ys => exact .inl ⟨x, y :: ys, hx', ⟨by simp, hds⟩, .inr (.inr rfl)⟩
      · left
        have hd : Digit d := by
          have h3 : ¬ (d ≤ '0' ∨ d ≥ '9') := fun h => hn ⟨h2, h1, h⟩
          have h4 : ¬ d ≤ '0' := fun h => h3 (.inl h)
          have h5 : ¬ d ≥ '9' := fun h => h3 (.inr h)
          exact ⟨(Char.le_total '0' d).resolve_right h4, (Char.le_total d '9').resolve_right h5⟩
        refine ⟨x, d :: ds, hx', ⟨by simp, ?_⟩, .inl rfl⟩
        intro y hy
        rcases List.mem_cons.1 hy with rfl | hy
        · exact hd
        · exact hds y hy

theorem getLast_sign {a : Txt} {s : Char} : (a ++ [s]).getLast? = some s := by simp

theorem numberTok_inv {c : Char} {r : Txt} {t : Tok} (hc : c = '-' ∨ Digit c)
    (h : numberTok (c :: r) = some t) :
    (t = .int (c :: r) ∧ IsInt (c :: r)) ∨
    (t = .float (c :: r) ∧ (IsFloat (c :: r) ∨ (c :: r).getLast? = some '+' ∨
      (c :: r).getLast? = some '-')) := by
  rw [numberTok_eq, List.tail_cons] at h
  split at h
  · split at h
    · next hcf =>
      cases h
      right
      refine ⟨rfl, ?_⟩
      cases he : lastIdx isExpC r 1 with
      | none =>
        cases hr : lastIdx isDotC r 1 with
        | none => rw [he, hr] at hcf; cases hcf
        | some j =>
          rw [he, hr] at hcf
          obtain ⟨a, x, b, rfl, rfl, hx, _⟩ := lastIdx_inv hr
          have hx' : x = '.' := by simpa [isDotC] using hx
          subst hx'
          simp only [checkFloat, Bool.and_eq_true] at hcf
          have e2 : (c :: (a ++ '.' :: b)).take (1 + a.length) = c :: a := by
            rw [← List.cons_append, List.take_left']; simp; omega
          have e3 : (c :: (a ++ '.' :: b)).drop (1 + a.length + 1) = b := by
            have : (c :: (a ++ '.' :: b)) = (c :: a ++ ['.']) ++ b := by simp
            rw [this, List.drop_left']; simp; omega
          rw [e2, e3] at hcf
          exact .inl ⟨c :: a, '.' :: b, [], by simp, checkInt_inv hc hcf.1,
            .inl ⟨⟨b, rfl, checkDec_inv hcf.2⟩, rfl⟩⟩
      | some k =>
        cases hr : lastIdx isDotC r 1 with
        | none =>
          rw [he, hr] at hcf
          obtain ⟨a, x, b, rfl, rfl, hx, _⟩ := lastIdx_inv he
          simp only [checkFloat, Bool.and_eq_true] at hcf
          have e2 : (c :: (a ++ x :: b)).take (1 + a.length) = c :: a := by
            rw [← List.cons_append, List.take_left']; simp; omega
          have e3 : (c :: (a ++ x :: b)).drop (1 + a.length + 1) = b := by
            have : (c :: (a ++ x :: b)) = (c :: a ++ [x]) ++ b := by simp
            rw [this, List.drop_left']; simp; omega
          rw [e2, e3] at hcf
          rcases checkExp_inv hx hcf.2 with hE | rfl | rfl
          · exact .inl ⟨c :: a, [], x :: b, by simp, checkInt_inv hc hcf.1, .inr (.inl ⟨rfl, hE⟩)⟩
          · right; left
            have : c :: (a ++ [x, '+']) = (c :: a ++ [x]) ++ ['+'] := by simp
            rw [this, getLast_sign]
          · right; right
            have : c :: (a ++ [x, '-']) = (c :: a ++ [x]) ++ ['-'] := by simp
            rw [this, getLast_sign]
        | some j =>
          rw [he, hr] at hcf
          obtain ⟨a, x, b, rfl, rfl, hx, hb⟩ := lastIdx_inv he
          obtain ⟨a', y, b', e', hj, hy, hb'⟩ := lastIdx_inv hr
          have hy' : y = '.' := by simpa [isDotC] using hy
          subst hy'
          simp only [checkFloat] at hcf
          split at hcf
          · cases hcf
          · next hlt =>
            rw [hj] at hlt hcf
            simp only [Bool.and_eq_true] at hcf
            -- the point is before the exponent
            have hle : a'.length ≤ a.length := by omega
            have hne : a'.length ≠ a.length := by
              intro h
              have := List.append_inj e' h.symm
              injection this.2 with h1 _
              subst h1
              cases hx
            obtain ⟨ds, hds⟩ : ∃ ds, a = a' ++ '.' :: ds := by
              have h1 : a.take a'.length = a' := by
                have := congrArg (List.take a'.length) e'
                rw [List.take_append_of_le_length hle, List.take_left] at this
                exact this
              have h2 : (a ++ x :: b).drop a'.length = '.' :: b' := by
                rw [e', List.drop_left]
              rw [List.drop_append_of_le_length hle] at h2
              cases hd : a.drop a'.length with
              | nil =>
                have := congrArg List.length hd
                rw [List.length_drop, List.length_nil] at this
                omega
              | cons z zs =>
                rw [hd] at h2
                injection h2 with h2 _
                subst h2
                exact ⟨zs, by rw [← hd, ← List.take_append_drop a'.length a, h1]; simp⟩
            subst hds
            have e2 : (c :: (a' ++ '.' :: ds ++ x :: b)).take (1 + a'.length) = c :: a' := by
              have : (c :: (a' ++ '.' :: ds ++ x :: b)) = (c :: a') ++ ('.' :: ds ++ x :: b) := by simp
              rw [this, List.take_left']; simp; omega
            have e3 : ((c :: (a' ++ '.' :: ds ++ x :: b)).take (1 + (a' ++ '.' :: ds).length)).drop
                (1 + a'.length + 1) = ds := by
              have h3 : (c :: (a' ++ '.' :: ds ++ x :: b)).take (1 + (a' ++ '.' :: ds).length)
                  = c :: a' ++ '.' :: ds := by
                have : (c :: (a' ++ '.' :: ds ++ x :: b)) = (c :: a' ++ '.' :: ds) ++ x :: b := by simp
                rw [this, List.take_left']; simp; omega
              have : (c :: a' ++ '.' :: ds) = (c :: a' ++ ['.']) ++ ds := by simp
              rw [h3, this, List.drop_left']; simp; omega
            have e4 : (c :: (a' ++ '.' :: ds ++ x :: b)).drop (1 + (a' ++ '.' :: ds).length + 1) = b := by
              have : (c :: (a' ++ '.' :: ds ++ x :: b)) = (c :: a' ++ '.' :: ds ++ [x]) ++ b := by simp
              rw [this, List.drop_left']; simp; omega
            rw [e2, e3, e4] at hcf
            rcases checkExp_inv hx hcf.2 with hE | rfl | rfl
            · exact .inl ⟨c :: a', '.' :: ds, x :: b, by simp, checkInt_inv hc hcf.1.1,
                .inr (.inr ⟨⟨ds, rfl, checkDec_inv hcf.1.2⟩, hE⟩)⟩
            · right; left
              have : c :: (a' ++ '.' :: ds ++ [x, '+']) = (c :: a' ++ '.' :: ds ++ [x]) ++ ['+'] := by simp
              rw [this, getLast_sign]
            · right; right
              have : c :: (a' ++ '.' :: ds ++ [x, '-']) = (c :: a' ++ '.' :: ds ++ [x]) ++ ['-'] := by simp
              rw [this, getLast_sign]
    · cases h
  · split at h
    · next hci => cases h; exact .inl ⟨rfl, checkInt_inv hc hci⟩
    · cases h

end Verif.Text
