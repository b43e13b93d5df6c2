import Verif.Text.Adjacent
import Verif.Text.Props
/-!
# What a minified document reads as
-/
namespace Verif.Text

section
variable {F : Type}

/-- C92. The minified text of an accepted document exists, is accepted, with the same limit of tokens
if there is one, and reads as the same document. -/
theorem C92_same_document (S : Floats F) (limit : Option Nat) (t : Txt) (d : Doc F)
    (h : parse S limit t = .document d) :
    ∃ m, minify t = some m ∧ parse S limit m = .document d := by
  have h0 : parse S none t = .document d := by
    cases limit with
    | none => exact h
    | some n => exact ((parse_limit S n t d).1 h).1
  obtain ⟨u, hu, hb⟩ := accepted_tokens (L := codeLits S) (ts := lex none t) h0
  have hbad : Tok.bad ∉ lex none t := by rw [hu]; simp [hb]
  have hl := lex_minify hbad (accepted_spread (L := codeLits S) h0)
  refine ⟨minifyToks false (lex none t), by rw [minify, if_neg hbad], ?_⟩
  have hm : parse S none (minifyToks false (lex none t)) = .document d := by
    unfold parse
    rw [hl]
    exact h0
  cases limit with
  | none => exact hm
  | some n =>
    refine (parse_limit S n _ d).2 ⟨hm, ?_⟩
    rw [hl]
    exact ((parse_limit S n t d).1 h).2

/-- C92. A minified text of an accepted document cannot be minified further. -/
theorem C92_minified_again (S : Floats F) (limit : Option Nat) (t m : Txt) (d : Doc F)
    (h : parse S limit t = .document d) (hm : minify t = some m) : minify m = some m := by
  have h0 : parse S none t = .document d := by
    cases limit with
    | none => exact h
    | some n => exact ((parse_limit S n t d).1 h).1
  obtain ⟨u, hu, hb⟩ := accepted_tokens (L := codeLits S) (ts := lex none t) h0
  have hbad : Tok.bad ∉ lex none t := by rw [hu]; simp [hb]
  have hl := lex_minify hbad (accepted_spread (L := codeLits S) h0)
  rw [minify, if_neg hbad] at hm
  cases hm
  rw [minify, hl, if_neg hbad]

/-- C92. Texts with the same tokens, by the grammar of the language, have the same minified text:
white space, commas and comments do not matter. -/
theorem C92_layout (S : Floats F) (t t' : Txt) (ts : List Tok) (d d' : Doc F)
    (h : parse S none t = .document d) (h' : parse S none t' = .document d')
    (ho : Ordinary t) (ho' : Ordinary t')
    (hn : ∀ n c ds ss, Def.frag n c ds ss ∈ d → n ≠ ['o', 'n'])
    (hn' : ∀ n c ds ss, Def.frag n c ds ss ∈ d' → n ≠ ['o', 'n'])
    (hl : Lexes t ts) (hl' : Lexes t' ts) : minify t = minify t' := by
  have e1 := lexes_unique hl (accepted_lexes h ho hn).1
  have e2 := lexes_unique hl' (accepted_lexes h' ho' hn').1
  unfold minify
  rw [← e1, ← e2]

/-- A document with a comment, commas, numbers and strings next to each other. -/
def minifySample : Txt :=
  "query  Q ($a: Int = 1, $b: [Int!]) { # c\n f(x: [1, 2.5 \"s\"\"t\", A]) ... on T @d { g } }".toList

/-- The hypothesis of `C92_same_document` and of `C92_minified_again` is met, and a space stays exactly
between tokens that are not punctuators. -/
example (S : Floats F) : (∃ d, parse S none minifySample = .document d) ∧
    minify minifySample =
      some "query Q($a:Int=1$b:[Int!]){f(x:[1 2.5 \"s\" \"t\" A])...on T@d{g}}".toList :=
  ⟨⟨_, rfl⟩, by decide +kernel⟩

/-- The hypotheses of `C92_layout` are met by texts that differ: -/
example (S : Floats F) : (∃ d, parse S none ['{', 'a', ',', 'b', '}'] = .document d) ∧
    (∃ d, parse S none ['{', ' ', 'a', '\n', 'b', '}'] = .document d) ∧
    Lexes ['{', 'a', ',', 'b', '}'] [.p .lcur, .name ['a'], .name ['b'], .p .rcur] ∧
    Lexes ['{', ' ', 'a', '\n', 'b', '}'] [.p .lcur, .name ['a'], .name ['b'], .p .rcur] := by
  refine ⟨⟨_, rfl⟩, ⟨_, rfl⟩, ?_, ?_⟩
  · exact lex_sound (limit := none) (t := ['{', 'a', ',', 'b', '}']) (by
      have : lex none ['{', 'a', ',', 'b', '}'] = [.p .lcur, .name ['a'], .name ['b'], .p .rcur] := rfl
      rw [this]
      simp [Legal])
  · exact lex_sound (limit := none) (t := ['{', ' ', 'a', '\n', 'b', '}']) (by
      have : lex none ['{', ' ', 'a', '\n', 'b', '}'] = [.p .lcur, .name ['a'], .name ['b'], .p .rcur] := rfl
      rw [this]
      simp [Legal])

end
end Verif.Text
