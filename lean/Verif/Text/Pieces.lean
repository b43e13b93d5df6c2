import Verif.Text.Says
import Verif.Text.Print
/-!
# Lexing written pieces of text
-/
namespace Verif.Text

instance (c : Char) : Decidable (NameStart c) := by unfold NameStart; infer_instance
instance (c : Char) : Decidable (Digit c) := by unfold Digit; infer_instance
instance (c : Char) : Decidable (NameContinue c) := by unfold NameContinue; infer_instance
instance (c : Char) : Decidable (Ignored c) := by unfold Ignored; infer_instance

/-- A character that ends a name, a number and an empty string. -/
def CalmC (c : Char) : Prop := ¬ NameContinue c ∧ c ≠ '.' ∧ c ≠ '"'

instance (c : Char) : Decidable (CalmC c) := by unfold CalmC; infer_instance

/-- The text ends, or goes on with such a character. -/
def Calm (rest : Txt) : Prop := ∀ c r, rest = c :: r → CalmC c

theorem calm_cons {c : Char} {r : Txt} (h : CalmC c) : Calm (c :: r) := by
  intro d s e
  cases e
  exact h

theorem calm_nil : Calm [] := by intro c r e; cases e

/-- A text that gives tokens where a calm text follows. -/
def Piece (t : Txt) (ts : List Tok) : Prop :=
  ∀ rest us, Calm rest → Lexes rest us → Lexes (t ++ rest) (ts ++ us)

/-- A text that gives tokens whatever follows. -/
def Free (t : Txt) (ts : List Tok) : Prop :=
  ∀ rest us, Lexes rest us → Lexes (t ++ rest) (ts ++ us)

theorem Free.piece {t : Txt} {ts : List Tok} (h : Free t ts) : Piece t ts :=
  fun rest us _ hl => h rest us hl

theorem free_nil : Free [] [] := fun _ _ h => h

theorem Free.append {t u : Txt} {ts us : List Tok} (h : Free t ts) (h' : Free u us) :
    Free (t ++ u) (ts ++ us) := by
  intro rest vs hl
  rw [List.append_assoc, List.append_assoc]
  exact h _ _ (h' _ _ hl)

theorem Free.then {t u : Txt} {ts us : List Tok} (h : Free t ts) (h' : Piece u us) :
    Piece (t ++ u) (ts ++ us) := by
  intro rest vs hc hl
  rw [List.append_assoc, List.append_assoc]
  exact h _ _ (h' _ _ hc hl)

/-- A piece and a piece that begins calmly. -/
theorem Piece.append {t u : Txt} {ts us : List Tok} (h : Piece t ts) (h' : Piece u us)
    (hc : ∀ rest, Calm rest → Calm (u ++ rest)) : Piece (t ++ u) (ts ++ us) := by
  intro rest vs hr hl
  rw [List.append_assoc, List.append_assoc]
  exact h _ _ (hc _ hr) (h' _ _ hr hl)

/-- A piece and a free text that begins with a calm character. -/
theorem Piece.close {t : Txt} {c : Char} {u : Txt} {ts us : List Tok} (h : Piece t ts)
    (h' : Free (c :: u) us) (hc : CalmC c) : Free (t ++ c :: u) (ts ++ us) := by
  intro rest vs hl
  rw [List.append_assoc, List.append_assoc]
  exact h _ _ (calm_cons hc) (h' _ _ hl)

theorem free_p (p : P) : Free p.txt [.p p] := by
  intro rest us hl
  exact .tok _ _ _ _ (.punct p) (by unfold MayFollow; split <;> simp_all) hl

theorem free_skip {c : Char} (h : Ignored c) : Free [c] [] := by
  intro rest us hl
  exact .skip _ _ _ h hl

theorem mayFollow_name {n rest : Txt} (h : Calm rest) : MayFollow (.name n) rest := by
  cases rest with
  | nil => trivial
  | cons c r => exact (h c r rfl).1

theorem piece_name {n : Txt} (h : IsName n) : Piece n [.name n] := by
  intro rest us hc hl
  exact .tok _ _ _ _ (.name n h) (mayFollow_name hc) hl

theorem calm_number {c : Char} (h : CalmC c) : ¬ Digit c ∧ c ≠ '.' ∧ ¬ NameStart c :=
  ⟨fun hd => h.1 (.inr hd), h.2.1, fun hs => h.1 (.inl hs)⟩

theorem piece_int {t : Txt} (h : IsInt t) : Piece t [.int t] := by
  intro rest us hc hl
  refine .tok _ _ _ _ (.int t h) ?_ hl
  cases rest with
  | nil => trivial
  | cons c r => exact calm_number (hc c r rfl)

theorem piece_float {t : Txt} (h : IsFloat t) : Piece t [.float t] := by
  intro rest us hc hl
  refine .tok _ _ _ _ (.float t h) ?_ hl
  cases rest with
  | nil => trivial
  | cons c r => exact calm_number (hc c r rfl)

theorem piece_str {raw s : Txt} (h : StrChars raw s) :
    Piece ('"' :: raw ++ ['"']) [.str raw] := by
  intro rest us hc hl
  refine .tok _ _ _ _ (.str raw s h) ?_ hl
  cases rest with
  | nil => cases raw <;> trivial
  | cons c r =>
    cases raw with
    | nil => exact (hc c r rfl).2.2
    | cons d r' => trivial

/-! ## Strings -/

theorem hex_back : ∀ n < 128, (n < 0x20 ∨ n = 0x7f) →
    hexNumber ['0', '0', hexChar (n / 16), hexChar n] 0 = some n := by
  decide +kernel

theorem strChars_escChar (c : Char) (r s : Txt) (h : StrChars r s) :
    StrChars (escChar c ++ r) (c :: s) := by
  unfold escChar
  split
  · next e => subst e; exact .esc _ _ _ _ (by decide) h
  split
  · next e => subst e; exact .esc _ _ _ _ (by decide) h
  split
  · next e => subst e; exact .esc _ _ _ _ (by decide) h
  split
  · next e => subst e; exact .esc _ _ _ _ (by decide) h
  split
  · next e => subst e; exact .esc _ _ _ _ (by decide) h
  split
  · next e => subst e; exact .esc _ _ _ _ (by decide) h
  split
  · next e => subst e; exact .esc _ _ _ _ (by decide) h
  split
  · next hn =>
    have h1 := hex_back c.toNat (by omega) hn
    have h2 := StrChars.unicode ['0', '0', hexChar (c.toNat / 16), hexChar c.toNat] c.toNat r s rfl
      h1 (by have := c.valid; exact this) h
    rw [Char.ofNat_toNat] at h2
    exact h2
  · next h1 h2 h3 h4 _ _ _ _ => exact .plain c r s h1 h2 h3 h4 h

theorem strChars_escape (s : Txt) : StrChars (escape s) s := by
  induction s with
  | nil => exact .nil
  | cons c s ih =>
    rw [escape, List.flatMap_cons]
    exact strChars_escChar c _ _ ih

theorem piece_strLit (s : Txt) : Piece (strLit s) [.str (escape s)] :=
  piece_str (strChars_escape s)

/-! ## Integers -/

theorem digit_of_isDigit {c : Char} (h : c.isDigit = true) : Digit c := by
  simp only [Char.isDigit, Bool.and_eq_true, decide_eq_true_eq] at h
  exact ⟨h.1, h.2⟩

theorem toDigits_digit {n : Nat} {c : Char} (h : c ∈ Nat.toDigits 10 n) : Digit c :=
  digit_of_isDigit (Nat.isDigit_of_mem_toDigits (by omega) (by omega) h)

theorem toDigits_head (n : Nat) : 0 < n → ∃ c cs, Nat.toDigits 10 n = c :: cs ∧ c ≠ '0' := by
  induction n using Nat.strongRecOn with
  | ind n ih =>
    intro hn
    by_cases hb : 10 ≤ n
    · rw [Nat.toDigits_of_base_le (by omega) hb]
      obtain ⟨c, cs, e, hc⟩ := ih (n / 10) (by omega) (by omega)
      exact ⟨c, cs ++ [(n % 10).digitChar], by rw [e]; rfl, hc⟩
    · rw [Nat.toDigits_of_lt_base (by omega)]
      refine ⟨_, [], rfl, ?_⟩
      have : ∀ m < 10, 0 < m → m.digitChar ≠ '0' := by decide
      exact this n (by omega) hn

theorem isNatural_toDigits (n : Nat) : IsNatural (Nat.toDigits 10 n) := by
  by_cases h : n = 0
  · subst h
    exact .inl rfl
  · obtain ⟨c, cs, e, hc⟩ := toDigits_head n (by omega)
    exact .inr ⟨c, cs, e, hc, fun d hd => toDigits_digit hd⟩

theorem isInt_intTxt (i : Int) : IsInt (intTxt i) := by
  unfold intTxt
  split
  · exact .inr ⟨_, rfl, isNatural_toDigits _⟩
  · exact .inl (isNatural_toDigits _)

theorem intOf_natural {t : Txt} (h : ∀ u, t ≠ '-' :: u) :
    intOf t = (Nat.ofDigitChars 10 t 0 : Int) := by
  unfold intOf
  split
  · next u => exact absurd rfl (h u)
  · rfl

theorem intOf_intTxt (i : Int) : intOf (intTxt i) = i := by
  unfold intTxt
  split
  · next h =>
    show - (Nat.ofDigitChars 10 (Nat.toDigits 10 i.natAbs) 0 : Int) = i
    rw [Nat.ofDigitChars_toDigits (by omega) (by omega)]
    omega
  · next h =>
    rw [intOf_natural, Nat.ofDigitChars_toDigits (by omega) (by omega)]
    · omega
    · intro u e
      have : Digit '-' := toDigits_digit (n := i.natAbs) (by rw [e]; simp)
      revert this
      decide

end Verif.Text
