import Verif.Breaker.Model

/-!
# A circuit breaker counts the configured status codes and changes no response
-/

namespace Verif.Breaker

/-! ## Specification -/

/-- The character of a digit. -/
def dig (a : Nat) : Char := Char.ofNat (48 + a)

/-- What the documentation of the setting says: a string, and a status it stands for. `503` is that status, `50x`
stands for those from 500 to 509, and `5xx` for those from 500 to 599. -/
inductive Means : List Char → Nat → Prop
  | exact {a b c : Nat} : 1 ≤ a → a ≤ 5 → b ≤ 9 → c ≤ 9 → Means [dig a, dig b, dig c] (100 * a + 10 * b + c)
  | tens {a b c : Nat} {x : Char} : 1 ≤ a → a ≤ 5 → b ≤ 9 → c ≤ 9 → (x = 'x' ∨ x = 'X') →
      Means [dig a, dig b, x] (100 * a + 10 * b + c)
  | hundreds {a b c : Nat} {x y : Char} : 1 ≤ a → a ≤ 5 → b ≤ 9 → c ≤ 9 → (x = 'x' ∨ x = 'X') →
      (y = 'x' ∨ y = 'X') → Means [dig a, x, y] (100 * a + 10 * b + c)

/-! ## Proof -/

theorem dig_facts : ∀ a : Fin 10, digit (dig a) = some a.val ∧ isX (dig a) = false ∧ dig a ≠ '+' ∧
    (dig a).toNat = 48 + a.val := by
  decide

theorem digit_dig {a : Nat} (h : a ≤ 9) : digit (dig a) = some a := (dig_facts ⟨a, by omega⟩).1
theorem isX_dig {a : Nat} (h : a ≤ 9) : isX (dig a) = false := (dig_facts ⟨a, by omega⟩).2.1
theorem plus_dig {a : Nat} (h : a ≤ 9) : dig a ≠ '+' := (dig_facts ⟨a, by omega⟩).2.2.1
theorem dig_inj {a b : Nat} (ha : a ≤ 9) (hb : b ≤ 9) (h : dig a = dig b) : a = b := by
  have h1 := (dig_facts ⟨a, by omega⟩).2.2.2
  have h2 := (dig_facts ⟨b, by omega⟩).2.2.2
  simp only at h1 h2
  rw [h] at h1
  omega

theorem isX_iff {c : Char} : isX c = true ↔ c = 'x' ∨ c = 'X' := by simp [isX]

theorem isX_ne {a : Nat} (h : a ≤ 9) {x : Char} (hx : x = 'x' ∨ x = 'X') : dig a ≠ x := by
  intro e
  have := isX_dig h
  rw [e, isX_iff.2 hx] at this
  cases this

theorem num1 {m a : Nat} (ha : a ≤ 9) (hm : 9 ≤ m) : parseNum m [dig a] = some a := by
  have : a ≤ m := by omega
  simp [parseNum, digits, digit_dig ha, plus_dig ha, this]

theorem num2 {m a b : Nat} (ha : a ≤ 9) (hb : b ≤ 9) (hm : 99 ≤ m) : parseNum m [dig a, dig b] = some (10 * a + b) := by
  have : 10 * a + b ≤ m := by omega
  simp [parseNum, digits, digit_dig ha, digit_dig hb, plus_dig ha, this]

theorem num3 {m a b c : Nat} (ha : a ≤ 9) (hb : b ≤ 9) (hc : c ≤ 9) (hm : 999 ≤ m) :
    parseNum m [dig a, dig b, dig c] = some (100 * a + 10 * b + c) := by
  have h1 : 10 * (10 * a + b) + c = 100 * a + 10 * b + c := by omega
  have : 100 * a + 10 * b + c ≤ m := by omega
  simp [parseNum, digits, digit_dig ha, digit_dig hb, digit_dig hc, plus_dig ha, h1, this]

theorem parse_exact {a b c : Nat} (h1 : 1 ≤ a) (ha : a ≤ 9) (hb : b ≤ 9) (hc : c ≤ 9) :
    parseStr [dig a, dig b, dig c] = some (.exact (100 * a + 10 * b + c)) := by
  have h : 100 ≤ 100 * a + 10 * b + c ∧ 100 * a + 10 * b + c < 1000 := by omega
  simp only [parseStr, isX_dig hb, isX_dig hc, parseExact, num3 ha hb hc (by omega : 999 ≤ 65535), status, h]
  simp

theorem parse_tens {a b : Nat} {x : Char} (h1 : 1 ≤ a) (ha : a ≤ 5) (hb : b ≤ 9) (hx : x = 'x' ∨ x = 'X') :
    parseStr [dig a, dig b, x] = some (.tens (10 * a + b)) := by
  have h : 10 ≤ 10 * a + b ∧ 10 * a + b ≤ 59 := by omega
  simp only [parseStr, isX_dig hb, isX_iff.2 hx, num2 (by omega : a ≤ 9) hb (by omega : 99 ≤ 65535), h]
  simp

theorem parse_hundreds {a : Nat} {x y : Char} (h1 : 1 ≤ a) (ha : a ≤ 5) (hx : x = 'x' ∨ x = 'X')
    (hy : y = 'x' ∨ y = 'X') : parseStr [dig a, x, y] = some (.hundreds a) := by
  simp only [parseStr, isX_iff.2 hx, isX_iff.2 hy, num1 (by omega : a ≤ 9) (by omega : 9 ≤ 255)]
  simp [h1, ha]

/-! ## Theorems -/

/-- **C121.** Every string of a documented form is accepted, and what it matches are exactly the statuses it stands
for, of all numbers. -/
theorem C121_documented {w : List Char} {s : Nat} (h : Means w s) :
    ∃ m, Matcher.read (.str w) = some m ∧ ∀ t, m.matches t = true ↔ Means w t := by
  cases h with
  | @exact a b c h1 ha hb hc =>
    refine ⟨_, parse_exact h1 (by omega) hb hc, fun t => ?_⟩
    simp only [Matcher.matches, beq_iff_eq]
    constructor
    · rintro rfl
      exact .exact h1 ha hb hc
    · intro h
      generalize hw : [dig a, dig b, dig c] = w at h
      cases h with
      | exact g1 g2 g3 g4 =>
        simp only [List.cons.injEq, and_true] at hw
        have e1 := dig_inj (by omega) (by omega) hw.1
        have e2 := dig_inj hb g3 hw.2.1
        have e3 := dig_inj hc g4 hw.2.2
        omega
      | tens g1 g2 g3 g4 gx =>
        simp only [List.cons.injEq, and_true] at hw
        exact absurd hw.2.2 (isX_ne hc gx)
      | hundreds g1 g2 g3 g4 gx gy =>
        simp only [List.cons.injEq, and_true] at hw
        exact absurd hw.2.2 (isX_ne hc gy)
  | @tens a b c x h1 ha hb hc hx =>
    refine ⟨_, parse_tens h1 ha hb hx, fun t => ?_⟩
    simp only [Matcher.matches, Bool.and_eq_true, decide_eq_true_eq]
    constructor
    · intro h
      have e : t = 100 * a + 10 * b + (t - (100 * a + 10 * b)) := by omega
      rw [e]
      exact .tens h1 ha hb (by omega) hx
    · intro h
      generalize hw : [dig a, dig b, x] = w at h
      cases h with
      | exact g1 g2 g3 g4 =>
        simp only [List.cons.injEq, and_true] at hw
        exact absurd hw.2.2.symm (isX_ne g4 hx)
      | tens g1 g2 g3 g4 gx =>
        simp only [List.cons.injEq, and_true] at hw
        have e1 := dig_inj (by omega) (by omega) hw.1
        have e2 := dig_inj hb g3 hw.2.1
        omega
      | hundreds g1 g2 g3 g4 gx gy =>
        simp only [List.cons.injEq, and_true] at hw
        exact absurd hw.2.1 (isX_ne hb gx)
  | @hundreds a b c x y h1 ha hb hc hx hy =>
    refine ⟨_, parse_hundreds h1 ha hx hy, fun t => ?_⟩
    simp only [Matcher.matches, Bool.and_eq_true, decide_eq_true_eq]
    constructor
    · intro h
      have e : t = 100 * a + 10 * ((t - 100 * a) / 10) + (t - 100 * a) % 10 := by omega
      rw [e]
      exact .hundreds h1 ha (by omega) (by omega) hx hy
    · intro h
      generalize hw : [dig a, x, y] = w at h
      cases h with
      | exact g1 g2 g3 g4 =>
        simp only [List.cons.injEq, and_true] at hw
        exact absurd hw.2.2.symm (isX_ne g4 hy)
      | tens g1 g2 g3 g4 gx =>
        simp only [List.cons.injEq, and_true] at hw
        exact absurd hw.2.1.symm (isX_ne g3 hx)
      | hundreds g1 g2 g3 g4 gx gy =>
        simp only [List.cons.injEq, and_true] at hw
        have e1 := dig_inj (by omega) (by omega) hw.1
        omega

/-- **C121.** A number from 100 to 599 stands for itself. -/
theorem C121_number {n : Nat} (h : 100 ≤ n) (h' : n ≤ 599) :
    ∃ m, Matcher.read (.num n) = some m ∧ ∀ t, m.matches t = true ↔ t = n := by
  refine ⟨.exact n, ?_, fun t => by simp only [Matcher.matches, beq_iff_eq]; exact eq_comm⟩
  have h1 : (0 : Int) ≤ n ∧ (n : Int) ≤ 65535 := by omega
  have h2 : 100 ≤ n ∧ n < 1000 := by omega
  simp [Matcher.read, status, h1, h2]

/-- **C121.** For every status and list of matchers, a request that the breaker lets through has its response or
error given to the caller as it is; it is counted as a failure exactly if it is an error or has a status that one
of the matchers matches, and as a success otherwise. One that is not let through is counted as rejected. -/
theorem C121_call {ρ ε : Type} (codes : List Matcher) (res : Res ρ ε) :
    (call true codes res).1 = some res ∧
    ((call true codes res).2 = .failure ↔
      (∃ e, res = .err e) ∨ ∃ s r, res = .ok (some s) r ∧ ∃ m ∈ codes, m.matches s = true) ∧
    ((call true codes res).2 ≠ .failure → (call true codes res).2 = .success) ∧
    call false codes res = (none, .rejected) := by
  cases res with
  | err e => simp [call, told]
  | ok s r =>
    cases s with
    | none => simp [call, told]
    | some s =>
      by_cases h : (codes.any (·.matches s)) = true
      · have h' := h
        rw [List.any_eq_true] at h'
        simp [call, told, h, h']
      · have h' : ¬ ∃ m ∈ codes, m.matches s = true := by rwa [List.any_eq_true] at h
        simp only [Bool.not_eq_true] at h
        simp only [call, told, Option.any_some, h]
        simpa using h'

/-- **C121.** Each setting is that of the subgraph if it is there, or else the global one, or else the default: no
breaker, and 500, 502, 503 and 504. -/
theorem C121_settings (sub all : Option Config) :
    ((codesFor sub all).isSome ↔ (sub.bind (·.enabled) = some true ∨
      (sub.bind (·.enabled) = none ∧ all.bind (·.enabled) = some true))) ∧
    ∀ l, codesFor sub all = some l →
      (∀ a, sub.bind (·.codes) = some a → l = a) ∧
      (∀ a, sub.bind (·.codes) = none → all.bind (·.codes) = some a → l = a) ∧
      (sub.bind (·.codes) = none → all.bind (·.codes) = none →
        ∀ s, l.any (·.matches s) = true ↔ s = 500 ∨ s = 502 ∨ s = 503 ∨ s = 504) := by
  unfold codesFor
  constructor
  · cases sub.bind (·.enabled) with
    | none => cases all.bind (·.enabled) with
      | none => simp
      | some b => cases b <;> simp
    | some b => cases b <;> simp
  · intro l h
    split at h
    · cases h
      refine ⟨fun a e => by simp [e], fun a e e' => by simp [e, e'], fun e e' s => ?_⟩
      simp only [e, e', Option.or_none, Option.getD_none, List.any_cons, List.any_nil, Matcher.matches, Bool.or_eq_true,
        beq_iff_eq, Bool.false_eq_true, or_false]
      omega
    · cases h

/-- Numbers a matcher can have. -/
def Matcher.Fine : Matcher → Prop
  | .exact c => 100 ≤ c ∧ c < 1000
  | .hundreds n => 1 ≤ n ∧ n ≤ 5
  | .tens n => 10 ≤ n ∧ n ≤ 59

theorem parseExact_fine {w : List Char} {m : Matcher} (h : parseExact w = some m) : m.Fine := by
  unfold parseExact at h
  split at h
  · obtain ⟨c, hc, rfl⟩ := Option.map_eq_some_iff.1 h
    unfold status at hc
    split at hc
    · cases hc
      assumption
    · cases hc
  · cases h

/-- **C121.** Whatever is accepted matches nothing but statuses from 100 to 999. -/
theorem C121_fine {x : Value} {m : Matcher} (h : Matcher.read x = some m) : m.Fine := by
  cases x with
  | num n =>
    simp only [Matcher.read] at h
    split at h
    · obtain ⟨c, hc, rfl⟩ := Option.map_eq_some_iff.1 h
      unfold status at hc
      split at hc
      · cases hc
        assumption
      · cases hc
    · cases h
  | str w =>
    simp only [Matcher.read] at h
    unfold parseStr at h
    split at h
    · split at h
      · split at h
        · split at h
          · cases h
            assumption
          · cases h
        · cases h
      · split at h
        · split at h
          · split at h
            · cases h
              assumption
            · cases h
          · cases h
        · exact parseExact_fine h
    · exact parseExact_fine h

/-- **C121.** What is read and written can be read again, and is the same. -/
theorem C121_again {x : Value} {m : Matcher} (h : Matcher.read x = some m) : Matcher.read m.write = some m := by
  have hf := C121_fine h
  cases m with
  | exact c =>
    have h1 : (0 : Int) ≤ c ∧ (c : Int) ≤ 65535 := by
      simp only [Matcher.Fine] at hf
      omega
    simp only [Matcher.Fine] at hf
    simp [Matcher.write, Matcher.read, status, h1, hf]
  | hundreds n =>
    simp only [Matcher.Fine] at hf
    have : n < 10 := by omega
    simp only [Matcher.write, shown, this, if_true, Matcher.read]
    exact parse_hundreds hf.1 hf.2 (.inl rfl) (.inl rfl)
  | tens n =>
    simp only [Matcher.Fine] at hf
    have : ¬ n < 10 := by omega
    simp only [Matcher.write, shown, this, if_false, Matcher.read]
    have e := parse_tens (a := n / 10) (b := n % 10) (x := 'x') (by omega) (by omega) (by omega) (.inl rfl)
    rw [show 10 * (n / 10) + n % 10 = n by omega] at e
    exact e

namespace Case

example : Means ['5', '0', 'X'] 503 := .tens (a := 5) (b := 0) (c := 3) (by decide) (by decide) (by decide) (by decide) (.inr rfl)
example : codesFor (some { codes := some [.hundreds 5] }) (some { enabled := some true }) = some [.hundreds 5] := rfl
example : (call true [.hundreds 5] (.ok (some 503) "body" : Res String Unit)).2 = .failure := by decide

/-- **C121 is refuted** for strings of other forms: a status above 599 and one with a sign are accepted, although
the schema of the setting allows neither. -/
theorem C121_forms_refuted : Matcher.read (.str ['9', '9', '9']) = some (.exact 999) ∧
    (∀ s, ¬ Means ['9', '9', '9'] s) ∧ Matcher.read (.str ['+', '5', '0', '3']) = some (.exact 503) ∧
    ∀ s, ¬ Means ['+', '5', '0', '3'] s := by
  refine ⟨by decide, ?_, by decide, ?_⟩
  · intro s h
    generalize hw : ['9', '9', '9'] = w at h
    cases h with
    | exact g1 g2 g3 g4 =>
      simp only [List.cons.injEq, and_true] at hw
      have e := dig_inj (a := 9) (by omega) (by omega) hw.1
      omega
    | tens g1 g2 g3 g4 gx =>
      simp only [List.cons.injEq, and_true] at hw
      exact isX_ne (a := 9) (by omega) gx hw.2.2
    | hundreds g1 g2 g3 g4 gx gy =>
      simp only [List.cons.injEq, and_true] at hw
      exact isX_ne (a := 9) (by omega) gy hw.2.2
  · intro s h
    generalize hw : ['+', '5', '0', '3'] = w at h
    cases h <;> simp at hw

end Case

end Verif.Breaker
