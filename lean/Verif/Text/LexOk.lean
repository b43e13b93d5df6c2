import Verif.Text.Numbers
/-!
# The tokenizer and the lexical grammar
-/
namespace Verif.Text

theorem LexesBy.lexes {ok : Tok → Txt → Prop} {t : Txt} {ts : List Tok} (h : LexesBy ok t ts) :
    Lexes t ts := by
  induction h with
  | done => exact .done
  | skip c r ts hc _ ih => exact .skip c r ts hc ih
  | comment b r ts hc _ ih => exact .comment b r ts hc ih
  | tok t x r ts h1 h2 _ _ ih => exact .tok t x r ts h1 h2 ih

/-! ## What is skipped -/

theorem ignored_iff (c : Char) : (c = '﻿' ∨ c = '\r' ∨ c = '\t' ∨ c = '\n' ∨ c = ' ' ∨ c = ',') ↔
    Ignored c := by unfold Ignored; tauto

theorem skipWs_ignored {c : Char} (h : Ignored c) (r : Txt) : skipWs false (c :: r) = skipWs false r := by
  rw [skipWs, if_pos ((ignored_iff c).2 h)]

theorem skipWs_hash (r : Txt) : skipWs false ('#' :: r) = skipWs true r := by
  rw [skipWs, if_neg (by decide), if_pos rfl]

theorem skipWs_comment {b r : Txt} (h : Comment b r) : skipWs true (b ++ r) = skipWs false r := by
  obtain ⟨h1, h2⟩ := h
  induction b with
  | nil =>
    cases r with
    | nil => rfl
    | cons c r =>
      have hc := h2 c r rfl
      rw [List.nil_append, skipWs, if_pos (by tauto), skipWs_ignored]
      unfold Ignored
      tauto
  | cons c b ih =>
    have hc := h1 c (by simp)
    rw [List.cons_append, skipWs, if_neg (by tauto)]
    exact ih fun d hd => h1 d (by simp [hd])

theorem skipWs_tok {t : Tok} {text : Txt} (h : Lexeme t text) (rest : Txt) :
    skipWs false (text ++ rest) = text ++ rest := by
  cases text with
  | nil => exact absurd rfl (lexeme_ne h)
  | cons c text =>
    have := lexeme_head h c text rfl
    rw [List.cons_append, skipWs, if_neg (fun h => this.1 ((ignored_iff c).1 h)), if_neg this.2]

theorem skipWs_back (t : Txt) (ts : List Tok) : (Lexes (skipWs false t) ts → Lexes t ts) ∧
    (Lexes (skipWs true t) ts → ∃ b r, t = b ++ r ∧ Comment b r ∧ Lexes r ts) := by
  induction t with
  | nil =>
    exact ⟨id, fun h => ⟨[], [], rfl, ⟨by simp, by simp⟩, h⟩⟩
  | cons c t ih =>
    constructor
    · intro h
      rw [skipWs] at h
      split at h
      · next hc => exact .skip c t ts ((ignored_iff c).1 hc) (ih.1 h)
      split at h
      · next hc =>
        subst hc
        obtain ⟨b, r, rfl, hc, hl⟩ := ih.2 h
        exact .comment b r ts hc hl
      · exact h
    · intro h
      rw [skipWs] at h
      split at h
      · next hc =>
        refine ⟨[], c :: t, rfl, ⟨by simp, ?_⟩, .skip c t ts (by unfold Ignored; tauto) (ih.1 h)⟩
        intro d r e
        cases e
        tauto
      · next hc =>
        obtain ⟨b, r, rfl, ⟨h1, h2⟩, hl⟩ := ih.2 h
        refine ⟨c :: b, r, rfl, ⟨?_, h2⟩, hl⟩
        intro d hd
        rcases List.mem_cons.1 hd with rfl | hd
        · tauto
        · exact h1 d hd

/-! ## Numbers in a text -/

/-- The characters of numbers. -/
def numC (c : Char) : Prop := Digit c ∨ c = '-' ∨ c = '+' ∨ c = '.' ∨ c = 'e' ∨ c = 'E'

theorem numC_notEnd {c : Char} (h : numC c) : endsNumber c = false := by
  cases he : endsNumber c with
  | false => rfl
  | true =>
    exfalso
    simp only [endsNumber, List.mem_cons, List.not_mem_nil, or_false, decide_eq_true_eq] at he
    rcases he with rfl | rfl | rfl | rfl | rfl | rfl | rfl | rfl | rfl | rfl | rfl | rfl | rfl | rfl |
      rfl | rfl | rfl | rfl | rfl <;> revert h <;> unfold numC <;> decide

theorem int_numC {i : Txt} (h : IsInt i) : ∀ c ∈ i, numC c := by
  rcases h with h | ⟨u, rfl, h⟩
  · exact fun c hc => .inl ((natural_digits h).2 c hc)
  · intro c hc
    rcases List.mem_cons.1 hc with rfl | hc
    · exact .inr (.inl rfl)
    · exact .inl ((natural_digits h).2 c hc)

theorem fraction_numC {f : Txt} (h : IsFraction f) : ∀ c ∈ f, numC c := by
  obtain ⟨ds, rfl, hd⟩ := h
  intro c hc
  rcases List.mem_cons.1 hc with rfl | hc
  · unfold numC; tauto
  · exact .inl (hd.2 c hc)

theorem exponent_numC {e : Txt} (h : IsExponent e) : ∀ c ∈ e, numC c := by
  obtain ⟨x, ds, hx, hd, rfl | rfl | rfl⟩ := h <;> intro c hc
  · rcases List.mem_cons.1 hc with rfl | hc
    · unfold numC; tauto
    · exact .inl (hd.2 c hc)
  · rcases List.mem_cons.1 hc with rfl | hc
    · unfold numC; tauto
    rcases List.mem_cons.1 hc with rfl | hc
    · unfold numC; tauto
    · exact .inl (hd.2 c hc)
  · rcases List.mem_cons.1 hc with rfl | hc
    · unfold numC; tauto
    rcases List.mem_cons.1 hc with rfl | hc
    · unfold numC; tauto
    · exact .inl (hd.2 c hc)

theorem float_numC {t : Txt} (h : IsFloat t) : ∀ c ∈ t, numC c := by
  obtain ⟨i, f, e, rfl, hi, hfe⟩ := h
  intro c hc
  rw [List.mem_append, List.mem_append] at hc
  rcases hfe with ⟨hf, rfl⟩ | ⟨rfl, he⟩ | ⟨hf, he⟩
  · rcases hc with (hc | hc) | hc
    · exact int_numC hi c hc
    · exact fraction_numC hf c hc
    · cases hc
  · rcases hc with (hc | hc) | hc
    · exact int_numC hi c hc
    · cases hc
    · exact exponent_numC he c hc
  · rcases hc with (hc | hc) | hc
    · exact int_numC hi c hc
    · exact fraction_numC hf c hc
    · exact exponent_numC he c hc

/-- A character that a number begins with. -/
theorem takeTok_number {c : Char} (hc : c = '-' ∨ Digit c) (cs : Txt) : takeTok (c :: cs) =
    (numberTok (c :: cs.takeWhile (! endsNumber ·))).map
      fun t => (t, cs.dropWhile (! endsNumber ·)) := by
  have key : ∀ d : Char, d ≠ '-' → ¬ Digit d → c ≠ d := by
    intro d h1 h2 e
    subst e
    exact hc.elim h1 h2
  have hp : punct1 c = none := by
    unfold punct1
    rw [if_neg (key _ (by decide) (by decide)), if_neg (key _ (by decide) (by decide)),
      if_neg (key _ (by decide) (by decide)), if_neg (key _ (by decide) (by decide)),
      if_neg (key _ (by decide) (by decide)), if_neg (key _ (by decide) (by decide)),
      if_neg (key _ (by decide) (by decide)), if_neg (key _ (by decide) (by decide)),
      if_neg (key _ (by decide) (by decide)), if_neg (key _ (by decide) (by decide)),
      if_neg (key _ (by decide) (by decide)), if_neg (key _ (by decide) (by decide)),
      if_neg (key _ (by decide) (by decide))]
  have hs : ¬ nameStart c = true := by
    intro h
    have := nameStart_not_num h
    rcases hc with rfl | hc
    · exact this.1 rfl
    · rw [(digit_iff c).2 hc] at this
      cases this.2
  rw [takeTok.eq_def]
  simp only
  rw [hp]
  simp only
  rw [if_neg (key _ (by decide) (by decide)), if_neg hs, if_pos]
  simp only [Bool.or_eq_true, decide_eq_true_eq]
  exact hc.imp id (digit_iff c).2

theorem int_start {i : Txt} (h : IsInt i) : ∃ c r, i = c :: r ∧ (c = '-' ∨ Digit c) := by
  rcases h with h | ⟨u, rfl, h⟩
  · obtain ⟨h1, h2⟩ := natural_digits h
    cases i with
    | nil => exact absurd rfl h1
    | cons c r => exact ⟨c, r, rfl, .inr (h2 c (by simp))⟩
  · exact ⟨'-', u, rfl, .inl rfl⟩

/-- What the language lets follow a number ends it for the tokenizer, except three characters. -/
theorem lexes_head_ends {ok : Tok → Txt → Prop} {rest : Txt} {us : List Tok}
    (h : LexesBy ok rest us) : ∀ c r, rest = c :: r → ¬ Digit c → c ≠ '.' → ¬ NameStart c →
    c ≠ '"' → c ≠ '-' → c ≠ '﻿' → endsNumber c = true := by
  intro c r e h1 h2 h3 h4 h5 h6
  cases h with
  | done => cases e
  | skip c' r' _ hc _ =>
    cases e
    unfold Ignored at hc
    rcases hc with rfl | rfl | rfl | rfl | rfl | rfl
    · exact absurd rfl h6
    all_goals rfl
  | comment b r' _ _ _ => cases e; rfl
  | tok t text r' ts hx _ _ _ =>
    cases hx with
    | punct p =>
      cases p with
      | dots => cases e; exact absurd rfl h2
      | _ => cases e; rfl
    | name n hn =>
      obtain ⟨d, ds, rfl, hd, _⟩ := hn
      cases e
      exact absurd hd h3
    | int i hi =>
      obtain ⟨d, ds, rfl, hd⟩ := int_start hi
      cases e
      exact absurd hd (by tauto)
    | float i hi =>
      obtain ⟨i, f, g, rfl, hi, _⟩ := hi
      obtain ⟨d, ds, rfl, hd⟩ := int_start hi
      cases e
      exact absurd hd (by tauto)
    | str => cases e; exact absurd rfl h4
    | block => cases e; exact absurd rfl h4

theorem takeTok_num {v rest : Txt} {t : Tok} (hv : ∃ c r, v = c :: r ∧ (c = '-' ∨ Digit c))
    (hc : ∀ c ∈ v, numC c) (hr : ∀ c r, rest = c :: r → endsNumber c = true)
    (hn : numberTok v = some t) : takeTok (v ++ rest) = some (t, rest) := by
  obtain ⟨c, r, rfl, hc'⟩ := hv
  rw [List.cons_append, takeTok_number hc']
  have := takeWhile_append_of (p := fun c => ! endsNumber c) (a := r) (b := rest)
    (fun d hd => by simp [numC_notEnd (hc d (by simp [hd]))])
    (fun d r' e => by simp [hr d r' e])
  rw [this.1, this.2, hn]
  rfl

theorem takeTok_complete {t : Tok} {text rest : Txt} {us : List Tok} (h : Lexeme t text)
    (hm : MayFollow t rest) (ha : Apart t rest) (hl : LexesBy Apart rest us)
    (ht : ∀ raw, t = .float raw → ExpTame raw) : takeTok (text ++ rest) = some (t, rest) := by
  by_cases hn : IsNumber t
  · cases h with
    | int _ h =>
      refine takeTok_num (int_start h) (int_numC h) ?_ (numberTok_int h)
      intro c r e
      subst e
      exact lexes_head_ends hl c r rfl hm.1 hm.2.1 hm.2.2 ha.1 ha.2.1 ha.2.2
    | float _ h =>
      refine takeTok_num ?_ (float_numC h) ?_ (numberTok_float h (ht _ rfl))
      · obtain ⟨i, f, g, rfl, hi, _⟩ := h
        obtain ⟨d, ds, rfl, hd⟩ := int_start hi
        exact ⟨d, ds ++ f ++ g, rfl, hd⟩
      · intro c r e
        subst e
        exact lexes_head_ends hl c r rfl hm.1 hm.2.1 hm.2.2 ha.1 ha.2.1 ha.2.2
    | _ => cases hn
  · exact takeTok_lexeme h hm hn

/-! ## Whole texts -/

theorem opened_cons (t : Tok) (ts : List Tok) : opened (t :: ts) = (if opens t then 1 else 0) + opened ts := by
  cases t with
  | p q => cases q <;> simp [opened, opens] <;> omega
  | _ => simp [opened, opens]

theorem closed_cons (t : Tok) (ts : List Tok) : closed (t :: ts) = (if closes t then 1 else 0) + closed ts := by
  cases t with
  | p q => cases q <;> simp [closed, closes] <;> omega
  | _ => simp [closed, closes]

/-- The limits after a token, if the brackets are not too deep. -/
theorem after_none {d : Nat} {t : Tok} {ts : List Tok} (h : Nested d (t :: ts)) (rest : Txt) :
    ∃ d', Lim.after ⟨d, none, 0⟩ t rest = some ⟨d', none, 0⟩ ∧ Nested d' ts := by
  have h0 : ∀ d', d' + (if opens t then 1 else 0) = d + (if closes t then 1 else 0) → Nested d' ts := by
    intro d' hd pre hp
    have := h (t :: pre) (by obtain ⟨x, rfl⟩ := hp; exact ⟨x, rfl⟩)
    rw [opened_cons, closed_cons] at this
    omega
  have hnot : opens t = true → closes t = false := by
    cases t with
    | p q => cases q <;> decide
    | _ => intro h; cases h
  unfold Lim.after
  simp only [Option.isSome_none, Bool.false_and, Bool.false_eq_true, if_false]
  by_cases ho : opens t = true
  · rw [if_pos ho]
    have h1 := h [t] ⟨ts, rfl⟩
    rw [opened_cons, closed_cons, if_pos ho, hnot ho] at h1
    have h2 : opened [] = 0 := rfl
    have h3 : closed [] = 0 := rfl
    cases d with
    | zero =>
      rw [h2, h3] at h1
      simp only [Bool.false_eq_true, if_false] at h1
      omega
    | succ d => exact ⟨d, rfl, h0 d (by rw [if_pos ho, hnot ho]; simp)⟩
  · rw [if_neg ho]
    by_cases hc : closes t = true
    · rw [if_pos hc]
      exact ⟨d + 1, rfl, h0 _ (by rw [if_neg ho, if_pos hc])⟩
    · rw [if_neg hc]
      exact ⟨d, rfl, h0 _ (by rw [if_neg ho, if_neg hc])⟩

theorem lexFrom_complete {t : Txt} {ts : List Tok} (h : LexesBy Apart t ts)
    (hx : ∀ raw, Tok.float raw ∈ ts → ExpTame raw) : ∀ fuel d, t.length < fuel → Nested d ts →
    lexFrom fuel ⟨d, none, 0⟩ (skipWs false t) = ts := by
  induction h with
  | done =>
    intro fuel d hf hn
    cases fuel with
    | zero => simp at hf
    | succ fuel => rfl
  | skip c r ts hc _ ih =>
    intro fuel d hf hn
    rw [skipWs_ignored hc]
    exact ih hx fuel d (by simp at hf; omega) hn
  | comment b r ts hc _ ih =>
    intro fuel d hf hn
    rw [List.cons_append, skipWs_hash, skipWs_comment hc]
    exact ih hx fuel d (by simp at hf; omega) hn
  | tok t text rest ts h1 h2 h3 h4 ih =>
    intro fuel d hf hn
    cases fuel with
    | zero => simp at hf
    | succ fuel =>
      have hne := lexeme_ne h1
      rw [skipWs_tok h1, lexFrom]
      have he : (text ++ rest).isEmpty = false := by
        cases text with
        | nil => exact absurd rfl hne
        | cons => rfl
      have hfull : Lim.full ⟨d, none, 0⟩ = false := rfl
      rw [hfull, he, takeTok_complete h1 h2 h3 h4 (fun raw e => hx raw (by rw [e]; simp))]
      obtain ⟨d', h5, h6⟩ := after_none hn rest
      simp only [Bool.false_eq_true, if_false, h5]
      have hpos : 0 < text.length := List.length_pos_iff.2 hne
      rw [ih (fun raw hr => hx raw (by simp [hr])) fuel d' (by
        rw [List.length_append] at hf; omega) h6]

/-- The tokens that the language gives are those of the tokenizer. -/
theorem lex_complete {t : Txt} {ts : List Tok} (h : LexesBy Apart t ts)
    (hx : ∀ raw, Tok.float raw ∈ ts → ExpTame raw) (hn : Nested 50 ts) : lex none t = ts :=
  lexFrom_complete h hx _ 50 (by omega) hn

/-! ## The other way -/

/-- Tokens whose text is one of the language. -/
def Legal : Tok → Prop
  | .float raw => raw.getLast? ≠ some '+' ∧ raw.getLast? ≠ some '-'
  | .str raw => ∃ s, StrChars raw s
  | _ => True

theorem takeStr_inv : ∀ {t raw rest : Txt} {esc : Bool}, takeStr esc t = some (raw, rest) →
    t = raw ++ '"' :: rest := by
  intro t
  induction t with
  | nil => intro raw rest esc h; cases h
  | cons c cs ih =>
    intro raw rest esc h
    rw [takeStr] at h
    split at h
    · next hc => cases h; rw [hc.1]; rfl
    split at h
    · cases h
    · cases hx : takeStr (!esc && c == '\\') cs with
      | none => rw [hx] at h; cases h
      | some x =>
        rw [hx] at h
        cases h
        rw [ih (raw := x.1) (rest := x.2) hx]
        rfl

/-- A block string up to its end. -/
theorem takeBlock_inv : ∀ (n : Nat) {t raw rest : Txt} {esc : Bool}, t.length ≤ n →
    takeBlock esc t = some (raw, rest) → t = raw ++ ['"', '"', '"'] ++ rest ∧
      (esc = false → BlockChars raw) ∧ (esc = true → BlockChars ('\\' :: raw)) := by
  intro n
  induction n with
  | zero =>
    intro t raw rest esc hl h
    cases t with
    | nil => rw [takeBlock] at h; cases h
    | cons => simp at hl
  | succ n ih =>
    intro t raw rest esc hl h
    by_cases hq : ['"', '"', '"'] <+: t
    · obtain ⟨cs, rfl⟩ := hq
      have h' : takeBlock esc ('"' :: '"' :: '"' :: cs) = some (raw, rest) := h
      rw [takeBlock] at h'
      split at h'
      · next he =>
        subst he
        cases hx : takeBlock false cs with
        | none => rw [hx] at h'; cases h'
        | some x =>
          rw [hx] at h'
          cases h'
          obtain ⟨h1, h2, _⟩ := ih (raw := x.1) (rest := x.2) (by simp at hl; omega) hx
          refine ⟨?_, fun h => Bool.noConfusion h, fun _ => BlockChars.esc _ (h2 rfl)⟩
          show '"' :: '"' :: '"' :: cs = _
          rw [h1]
          simp
      · next he =>
        cases h'
        have he : esc = false := by simpa using he
        exact ⟨rfl, fun _ => .nil, fun h => by rw [he] at h; cases h⟩
    · cases t with
      | nil => rw [takeBlock] at h; cases h
      | cons c cs =>
        rw [takeBlock_other hq] at h
        cases hx : takeBlock (c == '\\') cs with
        | none => rw [hx] at h; cases h
        | some x =>
          rw [hx] at h
          cases h
          obtain ⟨h1, h2, h3⟩ := ih (raw := x.1) (rest := x.2) (by simp at hl; omega) hx
          have hcs : ¬ ['"', '"', '"'] <+: c :: x.1 ++ ['"', '"', '"'] := by
            rintro ⟨y, hy⟩
            apply hq
            rw [h1]
            exact ⟨y ++ x.2, by rw [← List.append_assoc, hy]; simp⟩
          have hb : BlockChars (c :: x.1) := by
            by_cases hc : c = '\\'
            · subst hc
              exact h3 (by decide)
            · refine .plain c x.1 hcs ?_ (h2 (by simp [hc]))
              rintro ⟨y, hy⟩
              injection hy with e _
              exact hc e.symm
          refine ⟨by rw [h1]; simp, fun _ => hb, fun _ => .plain '\\' _ ?_ ?_ hb⟩
          · rintro ⟨y, hy⟩
            cases hy
          · rintro ⟨y, hy⟩
            apply hcs
            rw [List.cons_append] at hy
            injection hy with _ hy
            exact ⟨y, hy⟩

theorem mayFollow_number {rest : Txt} (h : ∀ c r, rest = c :: r → endsNumber c = true) :
    ∀ c r, rest = c :: r → ¬ Digit c ∧ c ≠ '.' ∧ ¬ NameStart c := by
  intro c r e
  have := h c r e
  simp only [endsNumber, List.mem_cons, List.not_mem_nil, or_false, decide_eq_true_eq] at this
  rcases this with rfl | rfl | rfl | rfl | rfl | rfl | rfl | rfl | rfl | rfl | rfl | rfl | rfl | rfl |
      rfl | rfl | rfl | rfl | rfl <;> decide

theorem dropWhile_head {p : Char → Bool} (t : Txt) : ∀ c r, t.dropWhile p = c :: r → p c = false := by
  induction t with
  | nil => intro c r e; cases e
  | cons x t ih =>
    intro c r e
    rw [List.dropWhile_cons] at e
    split at e
    · exact ih c r e
    · next h => cases e; simpa using h

theorem takeWhile_all {p : Char → Bool} (t : Txt) : ∀ c ∈ t.takeWhile p, p c = true := by
  induction t with
  | nil => intro c hc; cases hc
  | cons x t ih =>
    intro c hc
    rw [List.takeWhile_cons] at hc
    split at hc
    · next h =>
      rcases List.mem_cons.1 hc with rfl | hc
      · exact h
      · exact ih c hc
    · cases hc

theorem punct1_inv {c : Char} {p : P} (h : punct1 c = some p) : p.txt = [c] := by
  unfold punct1 at h
  by_cases h0 : c = '!'
  · subst h0; cases h; rfl
  rw [if_neg h0] at h
  by_cases h1 : c = '$'
  · subst h1; cases h; rfl
  rw [if_neg h1] at h
  by_cases h2 : c = '&'
  · subst h2; cases h; rfl
  rw [if_neg h2] at h
  by_cases h3 : c = '('
  · subst h3; cases h; rfl
  rw [if_neg h3] at h
  by_cases h4 : c = ')'
  · subst h4; cases h; rfl
  rw [if_neg h4] at h
  by_cases h5 : c = ':'
  · subst h5; cases h; rfl
  rw [if_neg h5] at h
  by_cases h6 : c = '='
  · subst h6; cases h; rfl
  rw [if_neg h6] at h
  by_cases h7 : c = '@'
  · subst h7; cases h; rfl
  rw [if_neg h7] at h
  by_cases h8 : c = '['
  · subst h8; cases h; rfl
  rw [if_neg h8] at h
  by_cases h9 : c = ']'
  · subst h9; cases h; rfl
  rw [if_neg h9] at h
  by_cases h10 : c = '{'
  · subst h10; cases h; rfl
  rw [if_neg h10] at h
  by_cases h11 : c = '|'
  · subst h11; cases h; rfl
  rw [if_neg h11] at h
  by_cases h12 : c = '}'
  · subst h12; cases h; rfl
  rw [if_neg h12] at h
  cases h

theorem takeTok_inv {t rest : Txt} {tok : Tok} (h : takeTok t = some (tok, rest)) (hl : Legal tok) :
    ∃ text, t = text ++ rest ∧ Lexeme tok text ∧ MayFollow tok rest := by
  cases t with
  | nil => cases h
  | cons c cs =>
    rw [takeTok.eq_def] at h
    simp only at h
    cases hp : punct1 c with
    | some p =>
      rw [hp] at h
      cases h
      have := punct1_inv hp
      exact ⟨[c], rfl, by rw [← this]; exact .punct p, by cases rest <;> trivial⟩
    | none =>
      rw [hp] at h
      simp only at h
      split at h
      · next hc =>
        subst hc
        split at h
        · cases h
          exact ⟨['.', '.', '.'], rfl, .punct .dots, by cases rest <;> trivial⟩
        · cases h
      split at h
      · next hs =>
        cases h
        refine ⟨c :: cs.takeWhile nameCont, by simp, .name _ ⟨c, _, rfl, (nameStart_iff c).1 hs, ?_⟩, ?_⟩
        · intro d hd
          exact (nameCont_iff d).1 (takeWhile_all cs d hd)
        · cases hr : cs.dropWhile nameCont with
          | nil => trivial
          | cons d r =>
            have := dropWhile_head cs d r hr
            show ¬ NameContinue d
            rw [← nameCont_iff]
            simp [this]
      split at h
      · next hn =>
        have hc : c = '-' ∨ Digit c := by
          simp only [Bool.or_eq_true, decide_eq_true_eq] at hn
          exact hn.imp id (digit_iff c).1
        cases hx : numberTok (c :: cs.takeWhile (! endsNumber ·)) with
        | none => rw [hx] at h; cases h
        | some x =>
          rw [hx] at h
          cases h
          have hm := mayFollow_number (rest := cs.dropWhile (! endsNumber ·))
            (fun d r e => by have := dropWhile_head cs d r e; simpa using this)
          refine ⟨c :: cs.takeWhile (! endsNumber ·), by simp, ?_⟩
          rcases numberTok_inv hc hx with ⟨rfl, hi⟩ | ⟨rfl, hf⟩
          · refine ⟨.int _ hi, ?_⟩
            cases hr : cs.dropWhile (! endsNumber ·) with
            | nil => trivial
            | cons d r => exact hm d r hr
          · refine ⟨.float _ (hf.resolve_right (by
              have := hl
              unfold Legal at this
              tauto)), ?_⟩
            cases hr : cs.dropWhile (! endsNumber ·) with
            | nil => trivial
            | cons d r => exact hm d r hr
      split at h
      · next hq =>
        subst hq
        split at h
        · next r =>
          cases hx : takeBlock false r with
          | none => rw [hx] at h; cases h
          | some x =>
            rw [hx] at h
            cases h
            obtain ⟨h1, h2, _⟩ := takeBlock_inv _ (raw := x.1) (rest := x.2) (Nat.le_refl _) hx
            refine ⟨['"', '"', '"'] ++ x.1 ++ ['"', '"', '"'], ?_, .block _ (h2 rfl), ?_⟩
            · rw [h1]; simp
            · cases x.2 <;> trivial
        · next hnot =>
          cases hx : takeStr false cs with
          | none => rw [hx] at h; cases h
          | some x =>
            rw [hx] at h
            cases h
            have h1 := takeStr_inv (raw := x.1) (rest := x.2) hx
            obtain ⟨s, hs⟩ := hl
            refine ⟨'"' :: x.1 ++ ['"'], by rw [h1]; simp, .str _ s hs, ?_⟩
            cases hr : x.2 with
            | nil => cases x.1 <;> trivial
            | cons d r =>
              cases hx1 : x.1 with
              | nil =>
                show d ≠ '"'
                rintro rfl
                rw [hx1, hr] at h1
                exact hnot _ h1
              | cons => trivial
      · cases h

theorem lexFrom_sound : ∀ (fuel : Nat) (l : Lim) (t : Txt) (ts : List Tok), lexFrom fuel l t = ts →
    (∀ x ∈ ts, x ≠ .bad ∧ Legal x) → Lexes t ts
  | 0, l, t, ts, h, hb => by
    subst h
    exact absurd rfl (hb .bad (by simp [lexFrom])).1
  | fuel + 1, l, t, ts, h, hb => by
    rw [lexFrom] at h
    split at h
    · subst h; exact absurd rfl (hb .bad (by simp)).1
    split at h
    · next he =>
      rw [List.isEmpty_iff] at he
      subst h he
      exact .done
    · split at h
      · subst h; exact absurd rfl (hb .bad (by simp)).1
      · next tok rest ht =>
        split at h
        · subst h; exact absurd rfl (hb .bad (by simp)).1
        · next l' hl =>
          subst h
          obtain ⟨text, rfl, hx, hm⟩ := takeTok_inv ht (hb tok (by simp)).2
          refine .tok tok text rest _ hx hm ((skipWs_back _ _).1 ?_)
          exact lexFrom_sound fuel l' _ _ rfl (fun x hx => hb x (by simp [hx]))

/-- What the tokenizer takes without an error is what the language gives, if strings are strings of
the language and no float ends in a sign. -/
theorem lex_sound {limit : Option Nat} {t : Txt} (h : ∀ x ∈ lex limit t, x ≠ .bad ∧ Legal x) :
    Lexes t (lex limit t) :=
  (skipWs_back _ _).1 (lexFrom_sound _ _ _ _ rfl h)

end Verif.Text
