/-!
# JSON texts

The grammar of RFC 8259 without insignificant white space, as a relation between texts and values,
and the proof that a text has one reading. This is a specification: nothing here is in the code.
-/

namespace Verif.Json

/-- JSON values. Numbers are kept as written; the members of an object are in order. -/
inductive Json where
  | null
  | bool (b : Bool)
  | num (text : List Char)
  | str (s : List Char)
  | arr (js : List Json)
  | obj (ms : List (List Char × Json))
  deriving Inhabited

/-- Section 7: what a one-letter escape stands for. -/
def shortChar (c : Char) : Option Char :=
  if c = '"' then some '"'
  else if c = '\\' then some '\\'
  else if c = '/' then some '/'
  else if c = 'b' then some '\x08'
  else if c = 'f' then some '\x0c'
  else if c = 'n' then some '\n'
  else if c = 'r' then some '\r'
  else if c = 't' then some '\t'
  else none

/-- The value of a hexadecimal digit. -/
def hexChar (c : Char) : Option Nat :=
  if '0' ≤ c ∧ c ≤ '9' then some (c.toNat - 48)
  else if 'a' ≤ c ∧ c ≤ 'f' then some (c.toNat - 87)
  else if 'A' ≤ c ∧ c ≤ 'F' then some (c.toNat - 55)
  else none

/-- Section 7: the characters of a string and the text they stand for. (Surrogate pairs of `\u`
escapes are left out.) -/
inductive StrBody : List Char → List Char → Prop
  | nil : StrBody [] []
  | unescaped (c : Char) {t s : List Char} : 0x20 ≤ c.toNat → c ≠ '"' → c ≠ '\\' → StrBody t s →
      StrBody (c :: t) (c :: s)
  | short (c e : Char) {t s : List Char} : shortChar c = some e → StrBody t s →
      StrBody ('\\' :: c :: t) (e :: s)
  | unicode (h1 h2 h3 h4 : Char) (n1 n2 n3 n4 : Nat) {t s : List Char} :
      hexChar h1 = some n1 → hexChar h2 = some n2 → hexChar h3 = some n3 → hexChar h4 = some n4 →
      (((n1 * 16 + n2) * 16 + n3) * 16 + n4).isValidChar → StrBody t s →
      StrBody ('\\' :: 'u' :: h1 :: h2 :: h3 :: h4 :: t)
        (Char.ofNat (((n1 * 16 + n2) * 16 + n3) * 16 + n4) :: s)

def Digits (t : List Char) : Prop := t ≠ [] ∧ ∀ c ∈ t, '0' ≤ c ∧ c ≤ '9'

/-- Section 6: `[ "-" ] int [ "." digits ] [ ("e" / "E") [ "+" / "-" ] digits ]`; `int` has no
leading zero. -/
def IsNumber (t : List Char) : Prop :=
  ∃ sign int frac exp, t = sign ++ int ++ frac ++ exp ∧
    (sign = [] ∨ sign = ['-']) ∧
    Digits int ∧ (int = ['0'] ∨ int.head? ≠ some '0') ∧
    (frac = [] ∨ ∃ d, frac = '.' :: d ∧ Digits d) ∧
    (exp = [] ∨ ∃ e s d, exp = e :: s ++ d ∧ (e = 'e' ∨ e = 'E') ∧
      (s = [] ∨ s = ['+'] ∨ s = ['-']) ∧ Digits d)

/-- Texts with commas between them. -/
def commaSep : List (List Char) → List Char
  | [] => []
  | [t] => t
  | t :: u :: ts => t ++ ',' :: commaSep (u :: ts)

/-- A member of an object: the text of its name, the name, the text of its value, the value. -/
structure Member where
  nameText : List Char
  name : List Char
  text : List Char
  value : Json

def Member.full (m : Member) : List Char := '"' :: m.nameText ++ '"' :: ':' :: m.text

/-- Sections 2 to 5: the text is a JSON text for the value. -/
inductive Denotes : List Char → Json → Prop
  | null : Denotes ['n', 'u', 'l', 'l'] .null
  | true : Denotes ['t', 'r', 'u', 'e'] (.bool true)
  | false : Denotes ['f', 'a', 'l', 's', 'e'] (.bool false)
  | num (t : List Char) : IsNumber t → Denotes t (.num t)
  | str (t s : List Char) : StrBody t s → Denotes ('"' :: t ++ ['"']) (.str s)
  | arr (xs : List (List Char × Json)) : (∀ x ∈ xs, Denotes x.1 x.2) →
      Denotes ('[' :: commaSep (xs.map (·.1)) ++ [']']) (.arr (xs.map (·.2)))
  | obj (ms : List Member) : (∀ m ∈ ms, StrBody m.nameText m.name) →
      (∀ m ∈ ms, Denotes m.text m.value) →
      Denotes ('{' :: commaSep (ms.map (·.full)) ++ ['}']) (.obj (ms.map fun m => (m.name, m.value)))

/-! ## A text has one reading -/

theorem StrBody.prefix {t s : List Char} (h : StrBody t s) : ∀ {t' s' r r' : List Char},
    StrBody t' s' → t ++ '"' :: r = t' ++ '"' :: r' → t = t' ∧ s = s' ∧ r = r' := by
  induction h with
  | nil =>
    intro t' s' r r' h' he
    cases h' with
    | nil => simp only [List.nil_append, List.cons.injEq, true_and] at he; exact ⟨rfl, rfl, he⟩
    | unescaped c _ h2 =>
      simp only [List.nil_append, List.cons_append, List.cons.injEq] at he
      exact absurd he.1.symm h2
    | short => simp at he
    | unicode => simp at he
  | unescaped c h1 h2 h3 _ ih =>
    intro t' s' r r' h' he
    cases h' with
    | nil => simp only [List.nil_append, List.cons_append, List.cons.injEq] at he; exact absurd he.1 h2
    | unescaped c' _ _ _ h4 =>
      simp only [List.cons_append, List.cons.injEq] at he
      obtain ⟨e1, e2, e3⟩ := ih h4 he.2
      exact ⟨by rw [he.1, e1], by rw [he.1, e2], e3⟩
    | short => simp only [List.cons_append, List.cons.injEq] at he; exact absurd he.1 h3
    | unicode => simp only [List.cons_append, List.cons.injEq] at he; exact absurd he.1 h3
  | short c e hc _ ih =>
    intro t' s' r r' h' he
    cases h' with
    | nil => simp at he
    | unescaped c' _ _ h3 =>
      simp only [List.cons_append, List.cons.injEq] at he; exact absurd he.1.symm h3
    | short c' e' hc' h4 =>
      simp only [List.cons_append, List.cons.injEq, true_and] at he
      obtain ⟨rfl, he⟩ := he
      rw [hc, Option.some.injEq] at hc'
      obtain ⟨e1, e2, e3⟩ := ih h4 he
      exact ⟨by rw [e1], by rw [hc', e2], e3⟩
    | unicode =>
      simp only [List.cons_append, List.cons.injEq, true_and] at he
      rw [he.1] at hc
      simp [shortChar] at hc
  | unicode h1 h2 h3 h4 n1 n2 n3 n4 e1 e2 e3 e4 _ _ ih =>
    intro t' s' r r' h' he
    cases h' with
    | nil => simp at he
    | unescaped c' _ _ h3 =>
      simp only [List.cons_append, List.cons.injEq] at he; exact absurd he.1.symm h3
    | short c' e' hc' h4 =>
      simp only [List.cons_append, List.cons.injEq, true_and] at he
      rw [← he.1] at hc'
      simp [shortChar] at hc'
    | unicode _ _ _ _ k1 k2 k3 k4 f1 f2 f3 f4 _ h5 =>
      simp only [List.cons_append, List.cons.injEq, true_and] at he
      obtain ⟨rfl, rfl, rfl, rfl, he⟩ := he
      rw [e1, Option.some.injEq] at f1
      rw [e2, Option.some.injEq] at f2
      rw [e3, Option.some.injEq] at f3
      rw [e4, Option.some.injEq] at f4
      subst f1 f2 f3 f4
      obtain ⟨g1, g2, g3⟩ := ih h5 he
      exact ⟨by rw [g1], by rw [g2], g3⟩

/-- The characters of numbers. -/
def numChar (c : Char) : Bool := ('0' ≤ c && c ≤ '9') || c = '-' || c = '+' || c = '.' || c = 'e' || c = 'E'

theorem digits_numChar {t : List Char} (h : ∀ c ∈ t, '0' ≤ c ∧ c ≤ '9') : ∀ c ∈ t, numChar c = true := by
  intro c hc
  have := h c hc
  simp [numChar, this]

theorem number_chars {t : List Char} (h : IsNumber t) : ∀ c ∈ t, numChar c = true := by
  obtain ⟨sign, int, frac, exp, rfl, hs, hi, _, hf, he⟩ := h
  intro c hc
  simp only [List.mem_append] at hc
  rcases hc with ((hc | hc) | hc) | hc
  · rcases hs with rfl | rfl
    · simp at hc
    · simp only [List.mem_singleton] at hc; subst hc; decide
  · exact digits_numChar hi.2 c hc
  · rcases hf with rfl | ⟨d, rfl, hd⟩
    · simp at hc
    · rcases List.mem_cons.1 hc with rfl | hc
      · decide
      · exact digits_numChar hd.2 c hc
  · rcases he with rfl | ⟨e, s, d, rfl, h1, h2, hd⟩
    · simp at hc
    · simp only [List.cons_append, List.mem_cons, List.mem_append] at hc
      rcases hc with rfl | hc | hc
      · rcases h1 with rfl | rfl <;> decide
      · rcases h2 with rfl | rfl | rfl
        · simp at hc
        · simp only [List.mem_singleton] at hc; subst hc; decide
        · simp only [List.mem_singleton] at hc; subst hc; decide
      · exact digits_numChar hd.2 c hc

theorem number_head {t : List Char} (h : IsNumber t) : ∃ c rest, t = c :: rest ∧ numChar c = true := by
  have hc := number_chars h
  obtain ⟨sign, int, frac, exp, rfl, hs, hi, _⟩ := h
  cases ht : sign ++ int ++ frac ++ exp with
  | nil =>
    simp only [List.append_eq_nil_iff] at ht
    exact absurd ht.1.1.2 hi.1
  | cons c rest => exact ⟨c, rest, rfl, hc c (by rw [ht]; simp)⟩

/-- What may follow a value. -/
def Delim (r : List Char) : Prop := r = [] ∨ ∃ c rest, r = c :: rest ∧ (c = ',' ∨ c = ']' ∨ c = '}')

theorem number_prefix {t t' r r' : List Char} (h : ∀ c ∈ t, numChar c = true)
    (h' : ∀ c ∈ t', numChar c = true) (hr : Delim r) (hr' : Delim r') (he : t ++ r = t' ++ r') :
    t = t' ∧ r = r' := by
  have nodelim : ∀ {c : Char}, numChar c = true → ¬ (c = ',' ∨ c = ']' ∨ c = '}') := by
    rintro c h (rfl | rfl | rfl) <;> revert h <;> decide
  induction t generalizing t' with
  | nil =>
    cases t' with
    | nil => exact ⟨rfl, he⟩
    | cons c t' =>
      rcases hr with rfl | ⟨d, rest, rfl, hd⟩
      · simp at he
      · simp only [List.nil_append, List.cons_append, List.cons.injEq] at he
        exact absurd hd (he.1 ▸ nodelim (h' c (by simp)))
  | cons c t ih =>
    cases t' with
    | nil =>
      rcases hr' with rfl | ⟨d, rest, rfl, hd⟩
      · simp at he
      · simp only [List.nil_append, List.cons_append, List.cons.injEq] at he
        exact absurd hd (he.1 ▸ nodelim (h c (by simp)))
    | cons c' t' =>
      simp only [List.cons_append, List.cons.injEq] at he
      obtain ⟨e1, e2⟩ := ih (fun x hx => h x (by simp [hx])) (fun x hx => h' x (by simp [hx])) he.2
      exact ⟨by rw [he.1, e1], e2⟩

/-- The first character of a text tells the kind of value. -/
theorem Denotes.ne_nil {t : List Char} {j : Json} (h : Denotes t j) : ∃ c rest, t = c :: rest ∧
    c ≠ ',' ∧ c ≠ ']' ∧ c ≠ '}' := by
  cases h with
  | num _ hn =>
    obtain ⟨c, rest, rfl, hc⟩ := number_head hn
    refine ⟨c, rest, rfl, ?_, ?_, ?_⟩ <;> (rintro rfl; revert hc; decide)
  | null => exact ⟨_, _, rfl, by decide, by decide, by decide⟩
  | true => exact ⟨_, _, rfl, by decide, by decide, by decide⟩
  | false => exact ⟨_, _, rfl, by decide, by decide, by decide⟩
  | str => exact ⟨_, _, rfl, by decide, by decide, by decide⟩
  | arr => exact ⟨_, _, rfl, by decide, by decide, by decide⟩
  | obj => exact ⟨_, _, rfl, by decide, by decide, by decide⟩

theorem commaSep_cons (t : List Char) (ts : List (List Char)) :
    commaSep (t :: ts) = t ++ (match ts with | [] => [] | u :: us => ',' :: commaSep (u :: us)) := by
  cases ts with
  | nil => simp [commaSep]
  | cons u us => rfl

/-- Reading lists of things that can be read one by one. -/
theorem commaSep_prefix {α : Type} (text : α → List Char) (close : Char)
    (hclose : close = ']' ∨ close = '}') (P : α → Prop) (Q : α → α → Prop)
    (start : ∀ x, P x → ∃ c rest, text x = c :: rest ∧ c ≠ ',' ∧ c ≠ ']' ∧ c ≠ '}')
    (xs : List α) (hP : ∀ x ∈ xs, P x)
    (one : ∀ x ∈ xs, ∀ y, P y → ∀ r r', Delim r → Delim r' → text x ++ r = text y ++ r' →
      Q x y ∧ r = r') :
    ∀ (ys : List α) (r r' : List Char), (∀ y ∈ ys, P y) →
      commaSep (xs.map text) ++ close :: r = commaSep (ys.map text) ++ close :: r' →
      (∃ h : xs.length = ys.length, ∀ i (hi : i < xs.length), Q xs[i] (ys[i]'(h ▸ hi))) ∧ r = r' := by
  have hdc : ∀ r, Delim (close :: r) := fun r => Or.inr ⟨close, r, rfl, by
    rcases hclose with rfl | rfl
    · exact Or.inr (Or.inl rfl)
    · exact Or.inr (Or.inr rfl)⟩
  have hcd : ∀ {c : Char}, c ≠ ']' → c ≠ '}' → c ≠ close := by
    rintro c h1 h2 rfl; rcases hclose with h | h
    · exact h1 h
    · exact h2 h
  have hcc : close ≠ ',' := by rcases hclose with rfl | rfl <;> decide
  induction xs with
  | nil =>
    intro ys r r' hy he
    cases ys with
    | nil =>
      simp only [List.map_nil, commaSep, List.nil_append, List.cons.injEq, true_and] at he
      exact ⟨⟨rfl, by simp⟩, he⟩
    | cons y ys =>
      obtain ⟨c, rest, hc, h1, h2, h3⟩ := start y (hy y (by simp))
      rw [List.map_cons, commaSep_cons, hc] at he
      simp only [List.map_nil, commaSep, List.nil_append, List.cons_append, List.cons.injEq] at he
      exact absurd he.1.symm (hcd h2 h3)
  | cons x xs ih =>
    intro ys r r' hy he
    cases ys with
    | nil =>
      obtain ⟨c, rest, hc, h1, h2, h3⟩ := start x (hP x (by simp))
      rw [List.map_cons, commaSep_cons, hc] at he
      simp only [List.map_nil, commaSep, List.nil_append, List.cons_append, List.cons.injEq] at he
      exact absurd he.1 (hcd h2 h3)
    | cons y ys =>
      rw [List.map_cons, List.map_cons, commaSep_cons, commaSep_cons, List.append_assoc,
        List.append_assoc] at he
      have dl : ∀ (zs : List α) (r : List Char), Delim
          ((match zs.map text with | [] => [] | u :: us => ',' :: commaSep (u :: us)) ++ close :: r) := by
        intro zs r
        cases zs with
        | nil => exact hdc r
        | cons z zs => exact Or.inr ⟨',', _, rfl, Or.inl rfl⟩
      obtain ⟨hq, he⟩ := one x (by simp) y (hy y (by simp)) _ _ (dl xs r) (dl ys r') he
      cases xs with
      | nil =>
        cases ys with
        | nil =>
          simp only [List.map_nil, List.nil_append, List.cons.injEq, true_and] at he
          refine ⟨⟨rfl, ?_⟩, he⟩
          intro i hi
          have : i = 0 := by simp at hi; omega
          subst this
          exact hq
        | cons z zs =>
          simp only [List.map_nil, List.nil_append, List.map_cons, List.cons_append,
            List.cons.injEq] at he
          exact absurd he.1 hcc
      | cons w ws =>
        cases ys with
        | nil =>
          simp only [List.map_nil, List.nil_append, List.map_cons, List.cons_append,
            List.cons.injEq] at he
          exact absurd he.1.symm hcc
        | cons z zs =>
          simp only [List.map_cons, List.cons_append, List.cons.injEq, true_and] at he
          obtain ⟨⟨hl, hall⟩, hr⟩ := ih (fun x hx => hP x (by simp [hx]))
            (fun x hx => one x (by simp [hx])) (z :: zs) r r' (fun y hy' => hy y (by simp [hy']))
            (by simpa using he)
          refine ⟨⟨by simpa using hl, ?_⟩, hr⟩
          intro i hi
          cases i with
          | zero => exact hq
          | succ i =>
            have := hall i (by simpa using hi)
            simpa using this

theorem Denotes.prefix {t : List Char} {j : Json} (h : Denotes t j) :
    ∀ {t' : List Char} {j' : Json} {r r' : List Char}, Denotes t' j' → Delim r → Delim r' →
      t ++ r = t' ++ r' → j = j' ∧ r = r' := by
  induction h with
  | null =>
    intro t' j' r r' h' hr hr' he
    cases h' with
    | null => simp at he; exact ⟨rfl, he⟩
    | true => simp at he
    | false => simp at he
    | num _ hn =>
      obtain ⟨c, rest, rfl, hc⟩ := number_head hn
      simp only [List.cons_append, List.cons.injEq] at he
      rw [← he.1] at hc; exact absurd hc (by decide)
    | str => simp at he
    | arr => simp at he
    | obj => simp at he
  | true =>
    intro t' j' r r' h' hr hr' he
    cases h' with
    | null => simp at he
    | true => simp at he; exact ⟨rfl, he⟩
    | false => simp at he
    | num _ hn =>
      obtain ⟨c, rest, rfl, hc⟩ := number_head hn
      simp only [List.cons_append, List.cons.injEq] at he
      rw [← he.1] at hc; exact absurd hc (by decide)
    | str => simp at he
    | arr => simp at he
    | obj => simp at he
  | false =>
    intro t' j' r r' h' hr hr' he
    cases h' with
    | null => simp at he
    | true => simp at he
    | false => simp at he; exact ⟨rfl, he⟩
    | num _ hn =>
      obtain ⟨c, rest, rfl, hc⟩ := number_head hn
      simp only [List.cons_append, List.cons.injEq] at he
      rw [← he.1] at hc; exact absurd hc (by decide)
    | str => simp at he
    | arr => simp at he
    | obj => simp at he
  | num t hn =>
    intro t' j' r r' h' hr hr' he
    obtain ⟨c, rest, hcr, hc⟩ := number_head hn
    cases h' with
    | num _ hn' =>
      obtain ⟨h1, h2⟩ := number_prefix (number_chars hn) (number_chars hn') hr hr' he
      exact ⟨by rw [h1], h2⟩
    | null =>
      rw [hcr] at he; simp only [List.cons_append, List.cons.injEq] at he
      rw [he.1] at hc; exact absurd hc (by decide)
    | true =>
      rw [hcr] at he; simp only [List.cons_append, List.cons.injEq] at he
      rw [he.1] at hc; exact absurd hc (by decide)
    | false =>
      rw [hcr] at he; simp only [List.cons_append, List.cons.injEq] at he
      rw [he.1] at hc; exact absurd hc (by decide)
    | str =>
      rw [hcr] at he; simp only [List.cons_append, List.cons.injEq] at he
      rw [he.1] at hc; exact absurd hc (by decide)
    | arr =>
      rw [hcr] at he; simp only [List.cons_append, List.cons.injEq] at he
      rw [he.1] at hc; exact absurd hc (by decide)
    | obj =>
      rw [hcr] at he; simp only [List.cons_append, List.cons.injEq] at he
      rw [he.1] at hc; exact absurd hc (by decide)
  | str t s hs =>
    intro t' j' r r' h' hr hr' he
    cases h' with
    | str t2 s2 hs2 =>
      simp only [List.cons_append, List.append_assoc, List.nil_append, List.cons.injEq,
        true_and] at he
      obtain ⟨_, h1, h2⟩ := hs.prefix hs2 he
      exact ⟨by rw [h1], h2⟩
    | null => simp at he
    | true => simp at he
    | false => simp at he
    | num _ hn =>
      obtain ⟨c, rest, rfl, hc⟩ := number_head hn
      simp only [List.cons_append, List.cons.injEq] at he
      rw [← he.1] at hc; exact absurd hc (by decide)
    | arr => simp at he
    | obj => simp at he
  | arr xs hxs ih =>
    intro t' j' r r' h' hr hr' he
    cases h' with
    | arr ys hys =>
      simp only [List.cons_append, List.append_assoc, List.nil_append, List.cons.injEq,
        true_and] at he
      obtain ⟨⟨hl, hall⟩, hrr⟩ := commaSep_prefix (fun x : List Char × Json => x.1) ']'
        (Or.inl rfl) (fun x => Denotes x.1 x.2) (fun x y => x.2 = y.2)
        (fun x hx => hx.ne_nil) xs hxs
        (fun x hx y hy r r' h1 h2 he => ih x hx hy h1 h2 he) ys r r' hys he
      refine ⟨?_, hrr⟩
      congr 1
      apply List.ext_getElem
      · simpa using hl
      · intro i h1 h2
        simp only [List.getElem_map]
        exact hall i (by simpa using h1)
    | null => simp at he
    | true => simp at he
    | false => simp at he
    | num _ hn =>
      obtain ⟨c, rest, rfl, hc⟩ := number_head hn
      simp only [List.cons_append, List.cons.injEq] at he
      rw [← he.1] at hc; exact absurd hc (by decide)
    | str => simp at he
    | obj => simp at he
  | obj ms hn hv ih =>
    intro t' j' r r' h' hr hr' he
    cases h' with
    | obj ms2 hn2 hv2 =>
      simp only [List.cons_append, List.append_assoc, List.nil_append, List.cons.injEq,
        true_and] at he
      obtain ⟨⟨hl, hall⟩, hrr⟩ := commaSep_prefix Member.full '}'
        (Or.inr rfl) (fun m => StrBody m.nameText m.name ∧ Denotes m.text m.value)
        (fun x y => x.name = y.name ∧ x.value = y.value)
        (fun m _ => ⟨'"', _, rfl, by decide, by decide, by decide⟩)
        ms (fun m hm => ⟨hn m hm, hv m hm⟩)
        (by
          intro x hx y hy r r' h1 h2 he
          unfold Member.full at he
          simp only [List.cons_append, List.append_assoc, List.cons.injEq, true_and] at he
          obtain ⟨_, e1, e2⟩ := (hn x hx).prefix hy.1 he
          simp only [List.cons.injEq, true_and] at e2
          obtain ⟨e3, e4⟩ := ih x hx hy.2 h1 h2 e2
          exact ⟨⟨e1, e3⟩, e4⟩)
        ms2 r r' (fun m hm => ⟨hn2 m hm, hv2 m hm⟩) he
      refine ⟨?_, hrr⟩
      congr 1
      apply List.ext_getElem
      · simpa using hl
      · intro i h1 h2
        simp only [List.getElem_map]
        obtain ⟨e1, e2⟩ := hall i (by simpa using h1)
        rw [e1, e2]
    | null => simp at he
    | true => simp at he
    | false => simp at he
    | num _ hn =>
      obtain ⟨c, rest, rfl, hc⟩ := number_head hn
      simp only [List.cons_append, List.cons.injEq] at he
      rw [← he.1] at hc; exact absurd hc (by decide)
    | str => simp at he
    | arr => simp at he

/-- A JSON text stands for one value. -/
theorem Denotes.unique {t : List Char} {j j' : Json} (h : Denotes t j) (h' : Denotes t j') : j = j' :=
  (h.prefix h' (Or.inl rfl) (Or.inl rfl) rfl).1

end Verif.Json
