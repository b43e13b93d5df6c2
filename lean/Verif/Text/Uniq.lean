import Verif.Text.Pieces
import Verif.Text.Complete
/-!
# A text reads as one document at most
-/
namespace Verif.Text

/-! ## Characters -/

theorem nameStart_iff (c : Char) : nameStart c = true ↔ NameStart c := by
  simp only [nameStart, NameStart, Bool.or_eq_true, Bool.and_eq_true, beq_iff_eq,
    decide_eq_true_eq]
  tauto

theorem digit_iff (c : Char) : digit c = true ↔ Digit c := by
  simp only [digit, Digit, Bool.and_eq_true, decide_eq_true_eq]

theorem nameCont_iff (c : Char) : nameCont c = true ↔ NameContinue c := by
  have h1 := nameStart_iff c
  have h2 := digit_iff c
  unfold digit at h2
  simp only [nameCont, NameContinue, Bool.or_eq_true, ← h1, ← h2]

theorem takeWhile_append_of {p : Char → Bool} {a b : Txt} (ha : ∀ c ∈ a, p c = true)
    (hb : ∀ c r, b = c :: r → p c = false) :
    (a ++ b).takeWhile p = a ∧ (a ++ b).dropWhile p = b := by
  induction a with
  | nil =>
    cases b with
    | nil => exact ⟨rfl, rfl⟩
    | cons c r =>
      have := hb c r rfl
      simp [this]
  | cons x a ih =>
    have h1 := ha x (by simp)
    have h2 := ih (fun c hc => ha c (by simp [hc]))
    simp [h1, h2]

/-! ## Strings -/

theorem hexDigit_plain {c : Char} {n : Nat} (h : hexDigit c = some n) :
    c ≠ '"' ∧ c ≠ '\\' ∧ c ≠ '\n' ∧ c ≠ '{' ∧ c ≠ '}' := by
  refine ⟨?_, ?_, ?_, ?_, ?_⟩ <;> (intro e; subst e; revert h; simp +decide [hexDigit])

theorem hexNumber_plain {h : Txt} : ∀ {m n : Nat}, hexNumber h m = some n → ∀ c ∈ h,
    c ≠ '"' ∧ c ≠ '\\' ∧ c ≠ '\n' ∧ c ≠ '{' ∧ c ≠ '}' := by
  induction h with
  | nil => intro m n _ c hc; cases hc
  | cons x h ih =>
    intro m n e c hc
    rw [hexNumber] at e
    cases hx : hexDigit x with
    | none => rw [hx] at e; cases e
    | some d =>
      rw [hx] at e
      rcases List.mem_cons.1 hc with rfl | hc
      · exact hexDigit_plain hx
      · exact ih e c hc

theorem takeStr_plain {h : Txt} (hh : ∀ c ∈ h, c ≠ '"' ∧ c ≠ '\\' ∧ c ≠ '\n') (r : Txt) :
    takeStr false (h ++ r) = (takeStr false r).map fun x => (h ++ x.1, x.2) := by
  induction h with
  | nil => cases h : takeStr false r <;> simp [h]
  | cons c h ih =>
    have h1 := hh c (by simp)
    have h2 := ih (fun c hc => hh c (by simp [hc]))
    rw [List.cons_append, takeStr, if_neg (by simp [h1.1]), if_neg h1.2.2]
    have : (!false && c == '\\') = false := by simp [h1.2.1]
    rw [this, h2]
    cases takeStr false r <;> rfl

theorem takeStr_esc (e : Char) (r : Txt) (he : e ≠ '\n') :
    takeStr false ('\\' :: e :: r) = (takeStr false r).map fun x => ('\\' :: e :: x.1, x.2) := by
  rw [takeStr, if_neg (by decide), if_neg (by decide)]
  have : (!false && '\\' == '\\') = true := by decide
  rw [this, takeStr, if_neg (by simp), if_neg he]
  have : (!true && e == '\\') = false := by simp
  rw [this]
  cases takeStr false r <;> rfl

theorem takeStr_of {raw s : Txt} (h : StrChars raw s) (rest : Txt) :
    takeStr false (raw ++ '"' :: rest) = some (raw, rest) := by
  induction h with
  | nil => rfl
  | plain c r s h1 h2 h3 _ _ ih =>
    have := takeStr_plain (h := [c]) (by simp; exact ⟨h1, h2, h3⟩) (r ++ '"' :: rest)
    rw [ih] at this
    simpa using this
  | esc e c r s he _ ih =>
    have hn : e ≠ '\n' := by intro h; subst h; revert he; simp +decide [escaped]
    have := takeStr_esc e (r ++ '"' :: rest) hn
    rw [ih] at this
    simpa using this
  | unicode h n r s _ hx _ _ ih =>
    have h1 := takeStr_plain (h := h)
      (fun c hc => ⟨(hexNumber_plain hx c hc).1, (hexNumber_plain hx c hc).2.1,
        (hexNumber_plain hx c hc).2.2.1⟩) (r ++ '"' :: rest)
    have h2 := takeStr_esc 'u' (h ++ (r ++ '"' :: rest)) (by decide)
    rw [h1, ih] at h2
    simpa using h2
  | pair h l m n r s _ _ hx hy _ _ _ _ _ ih =>
    have h1 := takeStr_plain (h := h)
      (fun c hc => ⟨(hexNumber_plain hx c hc).1, (hexNumber_plain hx c hc).2.1,
        (hexNumber_plain hx c hc).2.2.1⟩) ('\\' :: 'u' :: (l ++ (r ++ '"' :: rest)))
    have h2 := takeStr_esc 'u' (h ++ ('\\' :: 'u' :: (l ++ (r ++ '"' :: rest)))) (by decide)
    have h3 := takeStr_plain (h := l)
      (fun c hc => ⟨(hexNumber_plain hy c hc).1, (hexNumber_plain hy c hc).2.1,
        (hexNumber_plain hy c hc).2.2.1⟩) (r ++ '"' :: rest)
    have h4 := takeStr_esc 'u' (l ++ (r ++ '"' :: rest)) (by decide)
    rw [h3, ih] at h4
    rw [h1, h4] at h2
    simpa using h2
  | braced h n r s _ hx _ _ ih =>
    have hp : ∀ c ∈ '{' :: h ++ ['}'], c ≠ '"' ∧ c ≠ '\\' ∧ c ≠ '\n' := by
      intro c hc
      simp only [List.cons_append, List.mem_cons, List.mem_append, List.not_mem_nil, or_false] at hc
      rcases hc with rfl | hc | rfl
      · decide
      · exact ⟨(hexNumber_plain hx c hc).1, (hexNumber_plain hx c hc).2.1,
          (hexNumber_plain hx c hc).2.2.1⟩
      · decide
    have h1 := takeStr_plain hp (r ++ '"' :: rest)
    have h2 := takeStr_esc 'u' ('{' :: h ++ ['}'] ++ (r ++ '"' :: rest)) (by decide)
    rw [h1, ih] at h2
    simpa using h2

theorem strChars_head {raw s : Txt} (h : StrChars raw s) : ∀ r, raw ≠ '"' :: r := by
  intro r e
  cases h with
  | nil => cases e
  | plain c _ _ h1 => cases e; exact h1 rfl
  | esc => cases e
  | unicode => cases e
  | pair => cases e
  | braced => cases e

theorem append_brace {h h' r r' : Txt} (hh : ∀ c ∈ h, c ≠ '}') (hh' : ∀ c ∈ h', c ≠ '}')
    (e : h ++ '}' :: r = h' ++ '}' :: r') : h = h' ∧ r = r' := by
  induction h generalizing h' with
  | nil =>
    cases h' with
    | nil => cases e; exact ⟨rfl, rfl⟩
    | cons c h' => cases e; exact absurd rfl (hh' '}' (by simp))
  | cons c h ih =>
    cases h' with
    | nil => cases e; exact absurd rfl (hh '}' (by simp))
    | cons c' h' =>
      injection e with e1 e2
      have := ih (fun c hc => hh c (by simp [hc])) (fun c hc => hh' c (by simp [hc])) e2
      exact ⟨by rw [e1, this.1], this.2⟩

theorem strChars_unique {raw s s' : Txt} (h : StrChars raw s) (h' : StrChars raw s') : s = s' := by
  induction h generalizing s' with
  | nil => cases h'; rfl
  | plain c r s h1 h2 _ _ _ ih =>
    cases h' with
    | plain _ _ _ _ _ _ _ h => rw [ih h]
    | esc => exact absurd rfl h2
    | unicode => exact absurd rfl h2
    | pair => exact absurd rfl h2
    | braced => exact absurd rfl h2
  | esc e c r s he _ ih =>
    cases h' with
    | plain _ _ _ _ h2 => exact absurd rfl h2
    | esc e' c' _ _ he' h =>
      rw [he] at he'
      cases he'
      rw [ih h]
    | unicode => exfalso; revert he; simp +decide [escaped]
    | pair => exfalso; revert he; simp +decide [escaped]
    | braced => exfalso; revert he; simp +decide [escaped]
  | unicode x n r s hl hx hv _ ih =>
    generalize hg : '\\' :: 'u' :: x ++ r = raw at h'
    cases h' with
    | nil => cases hg
    | plain c r' s' h1 h2 => cases hg; exact absurd rfl h2
    | esc e' c' _ _ he' h => cases hg; exfalso; revert he'; simp +decide [escaped]
    | unicode y n' r' s' hl' hx' hv' h =>
      simp only [List.cons_append, List.cons.injEq, true_and] at hg
      obtain ⟨rfl, rfl⟩ := List.append_inj hg (by omega)
      rw [hx] at hx'
      cases hx'
      rw [ih h]
    | pair y l m n' r' s' hl' hl2 hx' hy a b _ _ h =>
      simp only [List.cons_append, List.cons.injEq, true_and, List.append_assoc] at hg
      obtain ⟨rfl, rfl⟩ := List.append_inj hg (by omega)
      rw [hx] at hx'
      cases hx'
      exfalso
      unfold Nat.isValidChar at hv
      omega
    | braced y n' r' s' hne hx' hv' h =>
      exfalso
      simp only [List.cons_append, List.cons.injEq, true_and] at hg
      cases x with
      | nil => simp at hl
      | cons c x =>
        injection hg with e _
        subst e
        exact (hexNumber_plain hx '{' (by simp)).2.2.2.1 rfl
  | pair x l m n r s hl hl2 hx hy a b a' b' _ ih =>
    generalize hg : '\\' :: 'u' :: x ++ '\\' :: 'u' :: l ++ r = raw at h'
    cases h' with
    | nil => cases hg
    | plain c r' s' h1 h2 => cases hg; exact absurd rfl h2
    | esc e' c' _ _ he' h => cases hg; exfalso; revert he'; simp +decide [escaped]
    | unicode y n' r' s' hl' hx' hv' h =>
      simp only [List.cons_append, List.cons.injEq, true_and, List.append_assoc] at hg
      obtain ⟨rfl, rfl⟩ := List.append_inj hg (by omega)
      rw [hx] at hx'
      cases hx'
      exfalso
      unfold Nat.isValidChar at hv'
      omega
    | pair y l' m' n' r' s' hl' hl2' hx' hy' _ _ _ _ h =>
      simp only [List.cons_append, List.cons.injEq, true_and, List.append_assoc] at hg
      obtain ⟨rfl, hg2⟩ := List.append_inj hg (by omega)
      simp only [List.cons.injEq, true_and] at hg2
      obtain ⟨rfl, rfl⟩ := List.append_inj hg2 (by omega)
      rw [hx] at hx'
      rw [hy] at hy'
      cases hx'
      cases hy'
      rw [ih h]
    | braced y n' r' s' hne hx' hv' h =>
      exfalso
      simp only [List.cons_append, List.cons.injEq, true_and] at hg
      cases x with
      | nil => simp at hl
      | cons c x =>
        injection hg with e _
        subst e
        exact (hexNumber_plain hx '{' (by simp)).2.2.2.1 rfl
  | braced x n r s hne hx hv _ ih =>
    generalize hg : '\\' :: 'u' :: '{' :: x ++ '}' :: r = raw at h'
    cases h' with
    | nil => cases hg
    | plain c r' s' h1 h2 => cases hg; exact absurd rfl h2
    | esc e' c' _ _ he' h => cases hg; exfalso; revert he'; simp +decide [escaped]
    | unicode y n' r' s' hl' hx' hv' h =>
      exfalso
      simp only [List.cons_append, List.cons.injEq, true_and] at hg
      cases y with
      | nil => simp at hl'
      | cons c y =>
        injection hg with e _
        subst e
        exact (hexNumber_plain hx' '{' (by simp)).2.2.2.1 rfl
    | pair y l' m' n' r' s' hl' hl2' hx' hy' _ _ _ _ h =>
      exfalso
      simp only [List.cons_append, List.cons.injEq, true_and] at hg
      cases y with
      | nil => simp at hl'
      | cons c y =>
        injection hg with e _
        subst e
        exact (hexNumber_plain hx' '{' (by simp)).2.2.2.1 rfl
    | braced y n' r' s' hne hx' hv' h =>
      simp only [List.cons_append, List.cons.injEq, true_and] at hg
      obtain ⟨rfl, rfl⟩ := append_brace (fun c hc => (hexNumber_plain hx c hc).2.2.2.2)
        (fun c hc => (hexNumber_plain hx' c hc).2.2.2.2) hg
      rw [hx] at hx'
      cases hx'
      rw [ih h]

/-! ## Block strings -/

theorem takeBlock_other {b : Bool} {c : Char} {cs : Txt}
    (h : ¬ ['"', '"', '"'] <+: c :: cs) :
    takeBlock b (c :: cs) = (takeBlock (c == '\\') cs).map fun r => (c :: r.1, r.2) := by
  rw [takeBlock.eq_def]
  split
  · exfalso; rename_i e; rw [e] at h; exact h ⟨_, rfl⟩
  · rename_i e; cases e; rfl
  · rename_i e; cases e

theorem prefix_of_append {p a b : Txt} (h : p <+: a ++ b) (hl : p.length ≤ a.length) : p <+: a :=
  List.prefix_of_prefix_length_le h (List.prefix_append a b) hl

theorem takeBlock_of {raw : Txt} (h : BlockChars raw) (rest : Txt) : ∀ b : Bool,
    (b = true → ¬ ['"', '"', '"'] <+: raw ++ ['"', '"', '"']) →
    takeBlock b (raw ++ ['"', '"', '"'] ++ rest) = some (raw, rest) := by
  induction h with
  | nil =>
    intro b hb
    cases b with
    | true => exact absurd (by decide) (hb rfl)
    | false => rfl
  | esc r _ ih =>
    intro b hb
    have h1 := ih false (by simp)
    have h2 : takeBlock true ('"' :: '"' :: '"' :: (r ++ ['"', '"', '"'] ++ rest))
        = some ('"' :: '"' :: '"' :: r, rest) := by
      rw [takeBlock, if_pos rfl, h1]; rfl
    have h3 : takeBlock b ('\\' :: '"' :: '"' :: '"' :: (r ++ ['"', '"', '"'] ++ rest))
        = some ('\\' :: '"' :: '"' :: '"' :: r, rest) := by
      rw [takeBlock_other (by rintro ⟨x, hx⟩; cases hx)]
      have : ('\\' == '\\') = true := by decide
      rw [this, h2]; rfl
    simpa using h3
  | plain c r h1 h2 _ ih =>
    intro b hb
    have h4 : ¬ ['"', '"', '"'] <+: c :: (r ++ ['"', '"', '"'] ++ rest) := by
      intro h
      apply h1
      have e : c :: (r ++ ['"', '"', '"'] ++ rest) = (c :: r ++ ['"', '"', '"']) ++ rest := by simp
      rw [e] at h
      exact prefix_of_append h (by simp)
    have h5 := ih (c == '\\') (by
      intro hc h
      have : c = '\\' := by simpa using hc
      subst this
      apply h2
      obtain ⟨x, hx⟩ := h
      exact ⟨x, congrArg ('\\' :: ·) hx⟩)
    have h6 := takeBlock_other (b := b) h4
    rw [h5] at h6
    simpa using h6

/-! ## Tokens that are not numbers -/

def IsNumber : Tok → Prop
  | .int _ => True
  | .float _ => True
  | _ => False

theorem nameStart_not_punct {c : Char} (h : nameStart c = true) :
    punct1 c = none ∧ c ≠ '.' := by
  have key : ∀ d : Char, nameStart d = false → c ≠ d := by
    intro d hd e
    subst e
    rw [h] at hd
    cases hd
  refine ⟨?_, key _ (by decide)⟩
  unfold punct1
  rw [if_neg (key _ (by decide)), if_neg (key _ (by decide)), if_neg (key _ (by decide)),
    if_neg (key _ (by decide)), if_neg (key _ (by decide)), if_neg (key _ (by decide)),
    if_neg (key _ (by decide)), if_neg (key _ (by decide)), if_neg (key _ (by decide)),
    if_neg (key _ (by decide)), if_neg (key _ (by decide)), if_neg (key _ (by decide)),
    if_neg (key _ (by decide))]

theorem takeTok_quote (cs : Txt) : takeTok ('"' :: cs) =
    match cs with
    | '"' :: '"' :: r => (takeBlock false r).map fun b => (.block b.1, b.2)
    | _ => (takeStr false cs).map fun s => (.str s.1, s.2) := rfl

theorem takeTok_lexeme {t : Tok} {text rest : Txt} (h : Lexeme t text) (hm : MayFollow t rest)
    (hn : ¬ IsNumber t) : takeTok (text ++ rest) = some (t, rest) := by
  cases h with
  | punct p => cases p <;> rfl
  | name n h =>
    obtain ⟨c, cs, rfl, hc, hcs⟩ := h
    have h1 : nameStart c = true := (nameStart_iff c).2 hc
    obtain ⟨h2, h3⟩ := nameStart_not_punct h1
    have h4 := takeWhile_append_of (p := nameCont) (a := cs) (b := rest)
      (fun d hd => (nameCont_iff d).2 (hcs d hd)) (by
        intro d r e
        subst e
        have : ¬ NameContinue d := hm
        rw [← nameCont_iff] at this
        simpa using this)
    rw [List.cons_append, takeTok.eq_def]
    simp only
    rw [h2]
    simp only
    rw [if_neg h3, if_pos h1, h4.1, h4.2]
  | int t h => exact absurd trivial hn
  | float t h => exact absurd trivial hn
  | str raw s h =>
    have h1 := takeStr_of h rest
    have e : '"' :: raw ++ ['"'] ++ rest = '"' :: (raw ++ '"' :: rest) := by simp
    rw [e, takeTok_quote]
    split
    · exfalso
      rename_i r e'
      cases raw with
      | nil =>
        cases e'
        exact hm rfl
      | cons c raw =>
        injection e' with e1 _
        subst e1
        exact strChars_head h _ rfl
    · rw [h1]; rfl
  | block raw h =>
    have h1 := takeBlock_of h rest false (by simp)
    have e : ['"', '"', '"'] ++ raw ++ ['"', '"', '"'] ++ rest
      = '"' :: '"' :: '"' :: (raw ++ ['"', '"', '"'] ++ rest) := by simp
    rw [e, takeTok_quote]
    simp only
    rw [h1]; rfl

/-! ## Numbers -/

/-- An optional sign and digits, and what follows. -/
def intPart (t : Txt) : Txt × Txt :=
  match t with
  | '-' :: r => ('-' :: r.takeWhile digit, r.dropWhile digit)
  | _ => (t.takeWhile digit, t.dropWhile digit)

def fracPart (t : Txt) : Txt × Txt :=
  match t with
  | '.' :: r => ('.' :: r.takeWhile digit, r.dropWhile digit)
  | _ => ([], t)

def expPart (t : Txt) : Txt × Txt :=
  match t with
  | c :: r =>
    if c = 'e' ∨ c = 'E' then
      match r with
      | '+' :: r' => (c :: '+' :: r'.takeWhile digit, r'.dropWhile digit)
      | '-' :: r' => (c :: '-' :: r'.takeWhile digit, r'.dropWhile digit)
      | _ => (c :: r.takeWhile digit, r.dropWhile digit)
    else ([], t)
  | [] => ([], [])

/-- The longest number at the beginning of a text. -/
def scanNum (t : Txt) : Tok × Txt :=
  let i := intPart t
  let f := fracPart i.2
  let e := expPart f.2
  (if f.1 = [] ∧ e.1 = [] then .int i.1 else .float (i.1 ++ f.1 ++ e.1), e.2)

def NoDigit (u : Txt) : Prop := ∀ c r, u = c :: r → ¬ Digit c

theorem takeDigits {a b : Txt} (ha : ∀ c ∈ a, Digit c) (hb : NoDigit b) :
    (a ++ b).takeWhile digit = a ∧ (a ++ b).dropWhile digit = b :=
  takeWhile_append_of (fun c hc => (digit_iff c).2 (ha c hc)) (fun c r e => by
    have := hb c r e
    rw [← digit_iff] at this
    simpa using this)

theorem natural_digits {t : Txt} (h : IsNatural t) : t ≠ [] ∧ ∀ c ∈ t, Digit c := by
  rcases h with rfl | ⟨c, cs, rfl, _, h⟩
  · exact ⟨by simp, by intro c hc; simp only [List.mem_singleton] at hc; subst hc; decide⟩
  · exact ⟨by simp, h⟩

theorem intPart_of {i u : Txt} (h : IsInt i) (hu : NoDigit u) : intPart (i ++ u) = (i, u) := by
  rcases h with h | ⟨v, rfl, h⟩
  · obtain ⟨hne, hd⟩ := natural_digits h
    have h1 := takeDigits hd hu
    unfold intPart
    split
    · rename_i r e
      exfalso
      cases i with
      | nil => exact hne rfl
      | cons c i =>
        injection e with e1 _
        have := hd c (by simp)
        rw [e1] at this
        revert this
        decide
    · rw [h1.1, h1.2]
  · obtain ⟨hne, hd⟩ := natural_digits h
    have h1 := takeDigits hd hu
    show ('-' :: (v ++ u).takeWhile digit, (v ++ u).dropWhile digit) = _
    rw [h1.1, h1.2]

theorem fracPart_of {f u : Txt} (h : IsFraction f) (hu : NoDigit u) : fracPart (f ++ u) = (f, u) := by
  obtain ⟨ds, rfl, _, hd⟩ := h
  have h1 := takeDigits hd hu
  show ('.' :: (ds ++ u).takeWhile digit, (ds ++ u).dropWhile digit) = _
  rw [h1.1, h1.2]

theorem fracPart_none {u : Txt} (hu : ∀ r, u ≠ '.' :: r) : fracPart u = ([], u) := by
  unfold fracPart
  split
  · exact absurd rfl (hu _)
  · rfl

theorem digits_head {ds u : Txt} (h : Digits ds) {c : Char} (hc : ¬ Digit c) :
    ∀ r, ds ++ u ≠ c :: r := by
  intro r e
  obtain ⟨hne, hd⟩ := h
  cases ds with
  | nil => exact hne rfl
  | cons d ds =>
    injection e with e1 _
    subst e1
    exact hc (hd _ (by simp))

theorem expPart_of {e u : Txt} (h : IsExponent e) (hu : NoDigit u) : expPart (e ++ u) = (e, u) := by
  obtain ⟨c, ds, hc, hd, rfl | rfl | rfl⟩ := h
  · have h1 := takeDigits hd.2 hu
    show expPart (c :: (ds ++ u)) = _
    unfold expPart
    simp only
    rw [if_pos hc]
    split
    · exact absurd (by assumption) (digits_head hd (by decide) _)
    · exact absurd (by assumption) (digits_head hd (by decide) _)
    · rw [h1.1, h1.2]
  · have h1 := takeDigits hd.2 hu
    show expPart (c :: '+' :: (ds ++ u)) = _
    unfold expPart
    simp only
    rw [if_pos hc, h1.1, h1.2]
  · have h1 := takeDigits hd.2 hu
    show expPart (c :: '-' :: (ds ++ u)) = _
    unfold expPart
    simp only
    rw [if_pos hc, h1.1, h1.2]

theorem expPart_none {u : Txt} (hu : ∀ c r, u = c :: r → ¬ NameStart c) : expPart u = ([], u) := by
  cases u with
  | nil => rfl
  | cons c r =>
    unfold expPart
    simp only
    rw [if_neg]
    rintro (rfl | rfl)
    · exact hu _ _ rfl (by decide)
    · exact hu _ _ rfl (by decide)

theorem exponent_head {e u : Txt} (h : IsExponent e) : ∃ c r, e ++ u = c :: r ∧ (c = 'e' ∨ c = 'E') := by
  obtain ⟨c, ds, hc, hd, rfl | rfl | rfl⟩ := h
  · exact ⟨c, _, rfl, hc⟩
  · exact ⟨c, _, rfl, hc⟩
  · exact ⟨c, _, rfl, hc⟩

theorem fraction_head {f u : Txt} (h : IsFraction f) : ∃ r, f ++ u = '.' :: r := by
  obtain ⟨ds, rfl, _⟩ := h
  exact ⟨_, rfl⟩

theorem scanNum_int {i rest : Txt} (h : IsInt i) (hm : MayFollow (.int i) rest) :
    scanNum (i ++ rest) = (.int i, rest) := by
  have h0 : ∀ c r, rest = c :: r → ¬ Digit c ∧ c ≠ '.' ∧ ¬ NameStart c := by
    intro c r e; subst e; exact hm
  have h1 := intPart_of (u := rest) h (fun c r e => (h0 c r e).1)
  have h2 := fracPart_none (u := rest) (fun r e => (h0 _ r e).2.1 rfl)
  have h3 := expPart_none (u := rest) (fun c r e => (h0 c r e).2.2)
  unfold scanNum
  simp only [h1, h2, h3]
  rfl

theorem scanNum_float {t rest : Txt} (h : IsFloat t) (hm : MayFollow (.float t) rest) :
    scanNum (t ++ rest) = (.float t, rest) := by
  have h0 : ∀ c r, rest = c :: r → ¬ Digit c ∧ c ≠ '.' ∧ ¬ NameStart c := by
    intro c r e; subst e; exact hm
  have hd : NoDigit rest := fun c r e => (h0 c r e).1
  obtain ⟨i, f, e, rfl, hi, ⟨hf, rfl⟩ | ⟨rfl, he⟩ | ⟨hf, he⟩⟩ := h
  · have e0 : i ++ f ++ [] ++ rest = i ++ (f ++ rest) := by simp
    have h1 := intPart_of (u := f ++ rest) hi (by
      intro c r e
      obtain ⟨r', h⟩ := fraction_head (u := rest) hf
      rw [h] at e
      cases e
      decide)
    have h2 := fracPart_of hf hd
    have h3 := expPart_none (u := rest) (fun c r e => (h0 c r e).2.2)
    have hne : f ≠ [] := by obtain ⟨ds, rfl, _⟩ := hf; simp
    unfold scanNum
    rw [e0]
    simp only [h1, h2, h3]
    rw [if_neg (fun h => hne h.1)]
  · have e0 : i ++ [] ++ e ++ rest = i ++ (e ++ rest) := by simp
    obtain ⟨c, r, hx, hc⟩ := exponent_head (u := rest) he
    have h1 := intPart_of (u := e ++ rest) hi (by
      intro c' r' e'
      rw [hx] at e'
      cases e'
      rcases hc with rfl | rfl <;> decide)
    have h2 := fracPart_none (u := e ++ rest) (by
      intro r' e'
      rw [hx] at e'
      cases e'
      rcases hc with hc | hc <;> revert hc <;> decide)
    have h3 := expPart_of he hd
    have hne : e ≠ [] := by
      obtain ⟨c, ds, _, _, rfl | rfl | rfl⟩ := he <;> simp
    unfold scanNum
    rw [e0]
    simp only [h1, h2, h3]
    rw [if_neg (fun h => hne h.2)]
  · have e0 : i ++ f ++ e ++ rest = i ++ (f ++ (e ++ rest)) := by simp
    obtain ⟨c, r, hx, hc⟩ := exponent_head (u := rest) he
    have h1 := intPart_of (u := f ++ (e ++ rest)) hi (by
      intro c r e'
      obtain ⟨r', h⟩ := fraction_head (u := e ++ rest) hf
      rw [h] at e'
      cases e'
      decide)
    have h2 := fracPart_of (u := e ++ rest) hf (by
      intro c' r' e'
      rw [hx] at e'
      cases e'
      rcases hc with rfl | rfl <;> decide)
    have h3 := expPart_of he hd
    have hne : e ≠ [] := by
      obtain ⟨c, ds, _, _, rfl | rfl | rfl⟩ := he <;> simp
    unfold scanNum
    rw [e0]
    simp only [h1, h2, h3]
    rw [if_neg (fun h => hne h.2)]

/-! ## One token -/

def startsNum : Txt → Bool
  | c :: _ => c == '-' || digit c
  | [] => false

/-- The first token of a text that begins with one. -/
def scan (t : Txt) : Option (Tok × Txt) := if startsNum t then some (scanNum t) else takeTok t

theorem int_starts {i u : Txt} (h : IsInt i) : startsNum (i ++ u) = true := by
  rcases h with h | ⟨v, rfl, h⟩
  · obtain ⟨hne, hd⟩ := natural_digits h
    cases i with
    | nil => exact absurd rfl hne
    | cons c i =>
      have := (digit_iff c).2 (hd c (by simp))
      simp [startsNum, this]
  · rfl

theorem nameStart_not_num {c : Char} (h : nameStart c = true) : c ≠ '-' ∧ digit c = false := by
  refine ⟨by rintro rfl; revert h; decide, ?_⟩
  cases hd : digit c with
  | false => rfl
  | true =>
    have h1 := (digit_iff c).1 hd
    have h2 := (nameStart_iff c).1 h
    exfalso
    unfold Digit at h1
    unfold NameStart at h2
    simp only [Char.le_def, UInt32.le_iff_toNat_le] at h1 h2
    rcases h2 with h2 | h2 | h2
    · have : 'a'.val.toNat = 97 := rfl
      have : '9'.val.toNat = 57 := rfl
      omega
    · have : 'A'.val.toNat = 65 := rfl
      have : '9'.val.toNat = 57 := rfl
      omega
    · subst h2
      revert h1
      decide

theorem scan_lexeme {t : Tok} {text rest : Txt} (h : Lexeme t text) (hm : MayFollow t rest) :
    scan (text ++ rest) = some (t, rest) := by
  by_cases hn : IsNumber t
  · cases h with
    | int _ h => rw [scan, if_pos (int_starts h), scanNum_int h hm]
    | float _ h =>
      have : startsNum (text ++ rest) = true := by
        obtain ⟨i, f, e, rfl, hi, _⟩ := h
        rw [List.append_assoc, List.append_assoc]
        exact int_starts hi
      rw [scan, if_pos this, scanNum_float h hm]
    | _ => cases hn
  · have h1 := takeTok_lexeme h hm hn
    have h2 : startsNum (text ++ rest) = false := by
      cases h with
      | punct p => cases p <;> rfl
      | name n h =>
        obtain ⟨c, cs, rfl, hc, _⟩ := h
        have := nameStart_not_num ((nameStart_iff c).2 hc)
        simp [startsNum, this]
      | int => exact absurd trivial hn
      | float => exact absurd trivial hn
      | str => rfl
      | block => rfl
    rw [scan, h2]
    exact h1

theorem lexeme_ne {t : Tok} {text : Txt} (h : Lexeme t text) : text ≠ [] := by
  intro e
  cases h with
  | punct p => cases p <;> cases e
  | name n h => obtain ⟨c, cs, e', _⟩ := h; rw [e'] at e; cases e
  | int t h =>
    subst e
    rcases h with h | ⟨_, e, _⟩
    · exact (natural_digits h).1 rfl
    · cases e
  | float t h =>
    obtain ⟨i, f, g, e', hi, _⟩ := h
    rw [e'] at e
    simp only [List.append_eq_nil_iff] at e
    rcases hi with h | ⟨_, e2, _⟩
    · exact (natural_digits h).1 e.1.1
    · rw [e2] at e; cases e.1.1
  | str => cases e
  | block => cases e

/-- A text that begins with a token does not begin with something ignored or a comment. -/
theorem lexeme_head {t : Tok} {text : Txt} (h : Lexeme t text) :
    ∀ c r, text = c :: r → ¬ Ignored c ∧ c ≠ '#' := by
  have hi : ∀ i : Txt, IsInt i → ∀ c r, i = c :: r → ¬ Ignored c ∧ c ≠ '#' := by
    intro i hi c r e
    have key : ∀ d, Digit d → ¬ Ignored d ∧ d ≠ '#' := by
      intro d hd
      unfold Ignored
      constructor
      · rintro (rfl | rfl | rfl | rfl | rfl | rfl) <;> revert hd <;> decide
      · rintro rfl; revert hd; decide
    rcases hi with h | ⟨_, e', _⟩
    · exact key c ((natural_digits h).2 c (by rw [e]; simp))
    · rw [e'] at e; cases e; decide
  intro c r e
  cases h with
  | punct p => cases p <;> cases e <;> decide
  | name n h =>
    obtain ⟨c, cs, e', hc, _⟩ := h
    rw [e'] at e
    cases e
    unfold Ignored
    constructor
    · rintro (rfl | rfl | rfl | rfl | rfl | rfl) <;> revert hc <;> decide
    · rintro rfl; revert hc; decide
  | int _ h => exact hi _ h _ _ e
  | float _ h =>
    obtain ⟨i, f, g, e', h, _⟩ := h
    cases i with
    | nil => exact absurd rfl (lexeme_ne (.int [] h))
    | cons d i =>
      rw [e'] at e
      simp only [List.cons_append, List.cons.injEq] at e
      rw [← e.1]
      exact hi _ h _ _ rfl
  | str => cases e; decide
  | block => cases e; decide

/-! ## Whole texts -/

theorem comment_unique {b r b' r' : Txt} (h : Comment b r) (h' : Comment b' r')
    (e : b ++ r = b' ++ r') : b = b' ∧ r = r' := by
  obtain ⟨h1, h2⟩ := h
  obtain ⟨h1', h2'⟩ := h'
  induction b generalizing b' with
  | nil =>
    cases b' with
    | nil => exact ⟨rfl, e⟩
    | cons c b' =>
      have := h2 c _ e
      have := h1' c (by simp)
      tauto
  | cons c b ih =>
    cases b' with
    | nil =>
      have := h2' c _ e.symm
      have := h1 c (by simp)
      tauto
    | cons c' b' =>
      injection e with e1 e2
      have := ih e2 (fun c hc => h1 c (by simp [hc])) (fun c hc => h1' c (by simp [hc]))
      exact ⟨by rw [e1, this.1], this.2⟩

theorem lexes_unique {t : Txt} {ts ts' : List Tok} (h : Lexes t ts) (h' : Lexes t ts') :
    ts = ts' := by
  induction h generalizing ts' with
  | done =>
    generalize hg : ([] : Txt) = u at h'
    cases h' with
    | done => rfl
    | skip => cases hg
    | comment => cases hg
    | tok t text rest ts hx =>
      have := lexeme_ne hx
      simp only [List.nil_eq, List.append_eq_nil_iff] at hg
      exact absurd hg.1 this
  | skip c rest ts hc _ ih =>
    generalize hg : c :: rest = u at h'
    cases h' with
    | done => cases hg
    | skip c' r' ts' hc' h' => cases hg; exact ih h'
    | comment =>
      cases hg
      exfalso
      revert hc
      decide
    | tok t text rest ts hx =>
      cases text with
      | nil => exact absurd rfl (lexeme_ne hx)
      | cons d text =>
        cases hg
        exact absurd hc (lexeme_head hx _ _ rfl).1
  | comment b r ts hc _ ih =>
    generalize hg : '#' :: b ++ r = u at h'
    cases h' with
    | done => cases hg
    | skip c' r' ts' hc' h' =>
      cases hg
      exfalso
      revert hc'
      decide
    | comment b' r' ts' hc' h' =>
      simp only [List.cons_append, List.cons.injEq, true_and] at hg
      obtain ⟨rfl, rfl⟩ := comment_unique hc hc' hg
      exact ih h'
    | tok t text rest ts hx =>
      cases text with
      | nil => exact absurd rfl (lexeme_ne hx)
      | cons d text =>
        simp only [List.cons_append, List.cons.injEq] at hg
        exact absurd hg.1.symm (lexeme_head hx _ _ rfl).2
  | tok t text rest ts hx hm _ ih =>
    generalize hg : text ++ rest = u at h'
    cases h' with
    | done =>
      simp only [List.append_eq_nil_iff] at hg
      exact absurd hg.1 (lexeme_ne hx)
    | skip c' r' ts' hc' h' =>
      cases text with
      | nil => exact absurd rfl (lexeme_ne hx)
      | cons d text =>
        cases hg
        exact absurd hc' (lexeme_head hx _ _ rfl).1
    | comment b' r' ts' hc' h' =>
      cases text with
      | nil => exact absurd rfl (lexeme_ne hx)
      | cons d text =>
        simp only [List.cons_append, List.cons.injEq] at hg
        exact absurd hg.1 (lexeme_head hx _ _ rfl).2
    | tok t' text' rest' ts' hx' hm' h' =>
      have h1 := scan_lexeme hx hm
      have h2 := scan_lexeme hx' hm'
      rw [hg, h2] at h1
      cases h1
      rw [ih h']

/-! ## Documents -/

open Classical in
/-- Literals as the language reads them. -/
noncomputable def idealLits {F : Type} (S : Floats F) : Lits F where
  int raw := some (intOf raw)
  float raw := some (S.read raw)
  str raw := if h : ∃ s, StrChars raw s then some (choose h) else none
  block raw := some (blockValue raw)
  varDirs := true

theorem ideal_faithful {F : Type} (S : Floats F) (ts : List Tok) :
    AllFaithful S (idealLits S) ts := by
  intro t _
  cases t with
  | str raw =>
    intro s
    unfold idealLits
    simp only
    constructor
    · intro e
      split at e
      · next h => cases e; exact Classical.choose_spec h
      · cases e
    · intro h
      rw [dif_pos ⟨s, h⟩]
      exact congrArg some (strChars_unique (Classical.choose_spec ⟨s, h⟩) h)
  | int => rfl
  | float => rfl
  | block => rfl
  | _ => trivial

theorem reads_unique {F : Type} {S : Floats F} {t : Txt} {d d' : Doc F} (h : Reads S t d)
    (h' : Reads S t d') : d = d' := by
  obtain ⟨ts, hl, hg⟩ := h
  obtain ⟨ts', hl', hg'⟩ := h'
  have e := lexes_unique hl hl'
  subst e
  have ho : ∀ d : Def F, DefDirsOk (idealLits S) d := by
    intro d
    cases d with
    | op => exact .inl rfl
    | _ => trivial
  have h1 := parse_complete hg (ideal_faithful S _) (fun d _ => ho d)
  have h2 := parse_complete hg' (ideal_faithful S _) (fun d _ => ho d)
  rw [h1] at h2
  cases h2
  rfl

end Verif.Text
