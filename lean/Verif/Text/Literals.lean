import Verif.Text.LexOk
import Verif.Text.Sound
/-!
# The literals of the code and those of the language
-/
namespace Verif.Text

variable {F : Type} {S : Floats F}

/-! ## Integers -/

theorem natVal_eq (ds : Txt) (n : Nat) : natVal ds n = Nat.ofDigitChars 10 ds n := by
  rw [Nat.ofDigitChars_eq_foldl]
  induction ds generalizing n with
  | nil => rfl
  | cons c ds ih => rw [natVal, ih]; rfl

theorem readInt_eq (raw : Txt) : readInt raw =
    if -9223372036854775808 ≤ intOf raw ∧ intOf raw ≤ 9223372036854775807 then some (intOf raw)
    else none := by
  have e : natVal = Nat.ofDigitChars 10 := by
    funext ds n
    exact natVal_eq ds n
  unfold readInt
  rw [e]
  rfl

/-! ## Strings -/

/-- What stands between the quotes of a string for the tokenizer. -/
def bodyOk : Bool → Txt → Prop
  | esc, [] => esc = false
  | esc, c :: r => (c = '"' → esc = true) ∧ c ≠ '\n' ∧ bodyOk (!esc && c == '\\') r

theorem takeStr_body : ∀ {t raw rest : Txt} {esc : Bool}, takeStr esc t = some (raw, rest) →
    bodyOk esc raw := by
  intro t
  induction t with
  | nil => intro raw rest esc h; cases h
  | cons c cs ih =>
    intro raw rest esc h
    rw [takeStr] at h
    split at h
    · next hc => cases h; exact hc.2
    split at h
    · cases h
    · next h1 h2 =>
      cases hx : takeStr (!esc && c == '\\') cs with
      | none => rw [hx] at h; cases h
      | some x =>
        rw [hx] at h
        cases h
        refine ⟨fun e => ?_, h2, ih (raw := x.1) (rest := x.2) hx⟩
        cases he : esc with
        | true => rfl
        | false => exact absurd ⟨e, he⟩ h1

theorem hexVal_eq (c : Char) : hexVal c = hexDigit c := by
  unfold hexVal hexDigit
  have h0 : '0'.toNat = 48 := rfl
  have ha : 'a'.toNat = 97 := rfl
  have hA : 'A'.toNat = 65 := rfl
  by_cases h : Digit c
  · rw [if_pos ((digit_iff c).2 h), if_pos (show '0' ≤ c ∧ c ≤ '9' from h), h0]
  · rw [if_neg (fun h' => h ((digit_iff c).1 h')), if_neg (show ¬ ('0' ≤ c ∧ c ≤ '9') from h)]
    by_cases h1 : 'a' ≤ c ∧ c ≤ 'f'
    · rw [if_pos (by simpa using h1), if_pos h1, ha]
      have : 97 ≤ c.toNat := h1.1
      congr 1
      omega
    · rw [if_neg (by simpa using h1), if_neg h1]
      by_cases h2 : 'A' ≤ c ∧ c ≤ 'F'
      · rw [if_pos (by simpa using h2), if_pos h2, hA]
        have : 65 ≤ c.toNat := h2.1
        congr 1
        omega
      · rw [if_neg (by simpa using h2), if_neg h2]

theorem hexDigits_eq (t : Txt) (n : Nat) : hexDigits t n = hexNumber t n := by
  induction t generalizing n with
  | nil => rfl
  | cons c t ih =>
    rw [hexDigits, hexNumber, hexVal_eq]
    cases hexDigit c with
    | none => rfl
    | some d => exact ih _

theorem fromHex_eq {a : Char} (h : a ≠ '+') (t : Txt) : fromHex (a :: t) = hexNumber (a :: t) 0 := by
  rw [fromHex.eq_def]
  split
  · next e => cases e; exact absurd rfl h
  · exact hexDigits_eq _ _

/-- Strings without the escapes that the code reads in its own way. -/
def EvenStr (raw : Txt) : Prop :=
  '\r' ∉ raw ∧ ¬ ['\\', 'b'] <:+: raw ∧ ¬ ['\\', 'u', '+'] <:+: raw

theorem EvenStr.suffix {a r : Txt} (h : EvenStr (a ++ r)) : EvenStr r :=
  ⟨fun hm => h.1 (by simp [hm]), fun hm => h.2.1 (hm.trans (List.suffix_append a r).isInfix),
    fun hm => h.2.2 (hm.trans (List.suffix_append a r).isInfix)⟩

theorem escaped_simple {c : Char} {s : Txt → Option Txt} {r o : Txt} (hb : c ≠ 'b')
    (h : (if c = '"' ∨ c = '\\' ∨ c = '/' then (s r).map (c :: ·)
    else if c = 'b' then (s r).map ('\u0010' :: ·)
    else if c = 'f' then (s r).map ('\u000c' :: ·)
    else if c = 'n' then (s r).map ('\n' :: ·)
    else if c = 'r' then (s r).map ('\r' :: ·)
    else if c = 't' then (s r).map ('\t' :: ·)
    else none) = some o) : ∃ d u, escaped c = some d ∧ s r = some u ∧ o = d :: u := by
  have key : ∀ d : Char, (s r).map (d :: ·) = some o → ∃ u, s r = some u ∧ o = d :: u := by
    intro d e
    cases hs : s r with
    | none => rw [hs] at e; cases e
    | some u => rw [hs] at e; cases e; exact ⟨u, rfl, rfl⟩
  have fin : ∀ d : Char, escaped c = some d → (s r).map (d :: ·) = some o →
      ∃ d u, escaped c = some d ∧ s r = some u ∧ o = d :: u := by
    intro d e1 e2
    obtain ⟨u, h1, h2⟩ := key d e2
    exact ⟨d, u, e1, h1, h2⟩
  split at h
  · next hc => rcases hc with rfl | rfl | rfl <;> exact fin _ rfl h
  · split at h
    · next hc => subst hc; exact fin _ rfl h
    split at h
    · next hc => subst hc; exact fin _ rfl h
    split at h
    · next hc => subst hc; exact fin _ rfl h
    split at h
    · next hc => subst hc; exact fin _ rfl h
    · cases h

/-- What the code makes of a string is what the language says. -/
theorem unquote_sound : ∀ (n : Nat) {raw s : Txt}, raw.length ≤ n → bodyOk false raw → EvenStr raw →
    unquote raw = some s → StrChars raw s := by
  intro n
  induction n with
  | zero =>
    intro raw s hl _ _ h
    cases raw with
    | nil => cases h; exact .nil
    | cons => simp at hl
  | succ n ih =>
    intro raw s hl hb he h
    cases raw with
    | nil => cases h; exact .nil
    | cons c r =>
      obtain ⟨h1, h2, h3⟩ := hb
      by_cases hc : c = '\\'
      · subst hc
        have h3 : bodyOk true r := h3
        cases r with
        | nil => cases h
        | cons e r =>
          have h4 : bodyOk false r := by
            have := h3.2.2
            simpa using this
          have heb : e ≠ 'b' := by
            rintro rfl
            exact he.2.1 ⟨[], r, rfl⟩
          by_cases hu : ∃ a b x d r', e = 'u' ∧ r = a :: b :: x :: d :: r'
          · obtain ⟨a, b, x, d, r', rfl, rfl⟩ := hu
            rw [unquote] at h
            have hplus : a ≠ '+' := by
              rintro rfl
              exact he.2.2 ⟨[], b :: x :: d :: r', rfl⟩
            rw [fromHex_eq hplus] at h
            cases hx : hexNumber [a, b, x, d] 0 with
            | none => rw [hx] at h; cases h
            | some m =>
              rw [hx] at h
              simp only [Option.bind_some, fromU32] at h
              split at h
              · next ch hch =>
                split at hch
                · next hv =>
                  cases hch
                  cases hr : unquote r' with
                  | none => rw [hr] at h; cases h
                  | some u =>
                    rw [hr] at h
                    cases h
                    have hp := hexNumber_plain hx
                    have hb' : bodyOk false r' := by
                      have e1 : ∀ c : Char, c ≠ '\\' → (!false && c == '\\') = false := by
                        intro c hc; simp [hc]
                      have := h4.2.2
                      rw [e1 a (hp a (by simp)).2.1] at this
                      have := this.2.2
                      rw [e1 b (hp b (by simp)).2.1] at this
                      have := this.2.2
                      rw [e1 x (hp x (by simp)).2.1] at this
                      have := this.2.2
                      rw [e1 d (hp d (by simp)).2.1] at this
                      exact this
                    exact .unicode [a, b, x, d] m r' u rfl hx hv
                      (ih (by simp at hl; omega) hb'
                        (EvenStr.suffix (a := ['\\', 'u', a, b, x, d]) he) hr)
                · cases hch
              · cases h
          · have hun : unquote ('\\' :: e :: r) = (if e = '"' ∨ e = '\\' ∨ e = '/' then (unquote r).map (e :: ·)
                else if e = 'b' then (unquote r).map ('\u0010' :: ·)
                else if e = 'f' then (unquote r).map ('\u000c' :: ·)
                else if e = 'n' then (unquote r).map ('\n' :: ·)
                else if e = 'r' then (unquote r).map ('\r' :: ·)
                else if e = 't' then (unquote r).map ('\t' :: ·)
                else none) := by
              rw [unquote]
              intro a b x d r' e1 e2
              exact hu ⟨a, b, x, d, r', e1, e2⟩
            rw [hun] at h
            obtain ⟨d, u, h5, h6, rfl⟩ := escaped_simple heb h
            exact .esc e d r u h5 (ih (by simp at hl; omega) h4
              (EvenStr.suffix (a := ['\\', e]) he) h6)
      · have hq : c ≠ '"' := fun e => by cases h1 e
        have hr : c ≠ '\r' := fun e => he.1 (by simp [e])
        have h3' : bodyOk false r := by
          have : (!false && c == '\\') = false := by simp [hc]
          rw [this] at h3
          exact h3
        have hun : unquote (c :: r) = (unquote r).map (c :: ·) := by
          rw [unquote]
          · rintro a b x d r' rfl; exact absurd rfl hc
          · rintro rfl; exact absurd rfl hc
          · rintro a b rfl; exact absurd rfl hc
        rw [hun] at h
        cases hx : unquote r with
        | none => rw [hx] at h; cases h
        | some u =>
          rw [hx] at h
          cases h
          exact .plain c r u hq hc h2 hr (ih (by simp at hl; omega) h3'
            (EvenStr.suffix (a := [c]) he) hx)

/-- The strings that the code reads as the language does. -/
theorem unquote_complete {raw : Txt} (h : PlainStr raw) : ∃ s, unquote raw = some s ∧ StrChars raw s := by
  induction h with
  | nil => exact ⟨[], rfl, .nil⟩
  | plain c r h1 h2 h3 h4 _ ih =>
    obtain ⟨s, e, hs⟩ := ih
    refine ⟨c :: s, ?_, .plain c r s h1 h2 h3 h4 hs⟩
    have hun : unquote (c :: r) = (unquote r).map (c :: ·) := by
      rw [unquote]
      · rintro a b x d r' rfl; exact absurd rfl h2
      · rintro rfl; exact absurd rfl h2
      · rintro a b rfl; exact absurd rfl h2
    rw [hun, e]
    rfl
  | esc e r h _ ih =>
    obtain ⟨s, e', hs⟩ := ih
    simp only [List.mem_cons, List.not_mem_nil, or_false] at h
    rcases h with rfl | rfl | rfl | rfl | rfl | rfl | rfl
    · exact ⟨'"' :: s, by rw [unquote] <;> simp [e'], .esc _ _ r s rfl hs⟩
    · exact ⟨'\\' :: s, by rw [unquote] <;> simp [e'], .esc _ _ r s rfl hs⟩
    · exact ⟨'/' :: s, by rw [unquote] <;> simp [e'], .esc _ _ r s rfl hs⟩
    · exact ⟨'\u000c' :: s, by rw [unquote] <;> simp +decide [e'], .esc _ _ r s rfl hs⟩
    · exact ⟨'\n' :: s, by rw [unquote] <;> simp +decide [e'], .esc _ _ r s rfl hs⟩
    · exact ⟨'\r' :: s, by rw [unquote] <;> simp +decide [e'], .esc _ _ r s rfl hs⟩
    · exact ⟨'\t' :: s, by rw [unquote] <;> simp +decide [e'], .esc _ _ r s rfl hs⟩
  | unicode a b c d n r hx hv _ ih =>
    obtain ⟨s, e', hs⟩ := ih
    refine ⟨Char.ofNat n :: s, ?_, .unicode [a, b, c, d] n r s rfl hx hv hs⟩
    have hp : a ≠ '+' := by
      rintro rfl
      rw [hexNumber] at hx
      simp +decide [hexDigit] at hx
    rw [unquote, fromHex_eq hp, hx]
    simp [fromU32, hv, e']

/-! ## The tokens of a text -/

/-- What the text of a token is like. -/
def Shape : Tok → Txt → Prop
  | .int raw, _ => IsInt raw
  | .float raw, _ => IsFloat raw ∨ raw.getLast? = some '+' ∨ raw.getLast? = some '-'
  | .str raw, text => text = '"' :: raw ++ ['"'] ∧ bodyOk false raw
  | .block raw, text => text = ['"', '"', '"'] ++ raw ++ ['"', '"', '"'] ∧ BlockChars raw
  | _, _ => True

theorem takeTok_shape {t rest : Txt} {tok : Tok} (h : takeTok t = some (tok, rest)) :
    ∃ text, t = text ++ rest ∧ Shape tok text := by
  cases t with
  | nil => cases h
  | cons c cs =>
    rw [takeTok.eq_def] at h
    simp only at h
    cases hp : punct1 c with
    | some p => rw [hp] at h; cases h; exact ⟨[c], rfl, trivial⟩
    | none =>
      rw [hp] at h
      simp only at h
      split at h
      · next hc =>
        subst hc
        split at h
        · cases h; exact ⟨['.', '.', '.'], rfl, trivial⟩
        · cases h
      split at h
      · cases h; exact ⟨c :: cs.takeWhile nameCont, by simp, trivial⟩
      split at h
      · next hn =>
        have hc : c = '-' ∨ Digit c := by
          simp only [Bool.or_eq_true, decide_eq_true_eq] at hn
          exact hn.imp id (digit_iff c).1
        cases hx : numberTok (c :: cs.takeWhile (! endsNumber ·)) with
        | none => rw [hx] at h; cases h
        | some x =>
          rw [hx] at h
          cases h
          refine ⟨c :: cs.takeWhile (! endsNumber ·), by simp, ?_⟩
          rcases numberTok_inv hc hx with ⟨rfl, hi⟩ | ⟨rfl, hf⟩
          · exact hi
          · exact hf
      split at h
      · next hq =>
        subst hq
        split at h
        · next r =>
          cases hx : takeBlock false r with
          | none => rw [hx] at h; cases h
          | some x =>
            rw [hx] at h
            cases h
            obtain ⟨h1, h2, _⟩ := takeBlock_inv _ (raw := x.1) (rest := x.2) (Nat.le_refl _) hx
            exact ⟨['"', '"', '"'] ++ x.1 ++ ['"', '"', '"'], by rw [h1]; simp, rfl, h2 rfl⟩
        · cases hx : takeStr false cs with
          | none => rw [hx] at h; cases h
          | some x =>
            rw [hx] at h
            cases h
            have h1 := takeStr_inv (raw := x.1) (rest := x.2) hx
            exact ⟨'"' :: x.1 ++ ['"'], by rw [h1]; simp, rfl, takeStr_body hx⟩
      · cases h

theorem skipWs_suffix (b : Bool) (t : Txt) : skipWs b t <:+ t := by
  induction t generalizing b with
  | nil => cases b <;> exact List.suffix_refl _
  | cons c t ih =>
    have h : ∀ b', skipWs b' t <:+ c :: t := fun b' => (ih b').trans (List.suffix_cons c t)
    cases b with
    | false =>
      rw [skipWs]
      split
      · exact h false
      split
      · exact h true
      · exact List.suffix_refl _
    | true =>
      rw [skipWs]
      split
      · exact h false
      · exact h true

theorem lexFrom_shape : ∀ (fuel : Nat) (l : Lim) (t : Txt), ∀ x ∈ lexFrom fuel l t,
    x = .bad ∨ ∃ text, text <:+: t ∧ Shape x text
  | 0, l, t, x, hx => by simp [lexFrom] at hx; exact .inl hx
  | fuel + 1, l, t, x, hx => by
    rw [lexFrom] at hx
    split at hx
    · simp at hx; exact .inl hx
    split at hx
    · cases hx
    · split at hx
      · simp at hx; exact .inl hx
      · next tok rest ht =>
        split at hx
        · simp at hx; exact .inl hx
        · next l' hl =>
          obtain ⟨text, rfl, hs⟩ := takeTok_shape ht
          rcases List.mem_cons.1 hx with rfl | hx
          · exact .inr ⟨text, ⟨[], rest, by simp⟩, hs⟩
          · rcases lexFrom_shape fuel l' _ x hx with h | ⟨u, hu, hs⟩
            · exact .inl h
            · exact .inr ⟨u, hu.trans (((skipWs_suffix false rest).trans
                (List.suffix_append text rest)).isInfix), hs⟩

theorem lex_shape (limit : Option Nat) (t : Txt) : ∀ x ∈ lex limit t,
    x = .bad ∨ ∃ text, text <:+: t ∧ Shape x text := by
  intro x hx
  rcases lexFrom_shape _ _ _ x hx with h | ⟨u, hu, hs⟩
  · exact .inl h
  · exact .inr ⟨u, hu.trans (skipWs_suffix false t).isInfix, hs⟩

/-! ## Tokens of the grammar -/

/-- Tokens that the grammar knows, with literals of the language. -/
def Known : Tok → Prop
  | .bad => False
  | .float raw => IsFloat raw
  | .str raw => ∃ s, StrChars raw s
  | _ => True

def AllKnown (ts : List Tok) : Prop := ∀ t ∈ ts, Known t

theorem AllKnown.nil : AllKnown [] := by intro t h; cases h
theorem AllKnown.cons {t : Tok} {ts : List Tok} (h : Known t) (hs : AllKnown ts) : AllKnown (t :: ts) := by
  intro x hx
  rcases List.mem_cons.1 hx with rfl | hx
  · exact h
  · exact hs x hx
theorem AllKnown.append {t u : List Tok} (h : AllKnown t) (hs : AllKnown u) : AllKnown (t ++ u) := by
  intro x hx
  rcases List.mem_append.1 hx with hx | hx
  · exact h x hx
  · exact hs x hx
theorem AllKnown.wrap {a b : P} {ts : List Tok} (h : AllKnown ts) : AllKnown (.p a :: ts ++ [.p b]) :=
  .append (.cons trivial h) (.cons trivial .nil)

mutual
theorem gval_known : ∀ {c : Bool} {t : List Tok} {v : Val F}, GVal S c t v → AllKnown t
  | _, _, _, .var _ => .cons trivial (.cons trivial .nil)
  | _, _, _, .int _ _ => .cons trivial .nil
  | _, _, _, .float _ _ h => .cons h .nil
  | _, _, _, .str _ _ s h => .cons ⟨s, h⟩ .nil
  | _, _, _, .block _ _ => .cons trivial .nil
  | _, _, _, .tru _ => .cons trivial .nil
  | _, _, _, .fals _ => .cons trivial .nil
  | _, _, _, .null _ => .cons trivial .nil
  | _, _, _, .enum _ _ _ _ _ => .cons trivial .nil
  | _, _, _, .list _ _ _ h => .wrap (gvals_known h)
  | _, _, _, .obj _ _ _ h => .wrap (gentries_known h)
theorem gvals_known : ∀ {c : Bool} {t : List Tok} {v : List (Val F)}, GVals S c t v → AllKnown t
  | _, _, _, .nil _ => .nil
  | _, _, _, .cons _ _ _ _ _ h hs => .append (gval_known h) (gvals_known hs)
theorem gentries_known : ∀ {c : Bool} {t : List Tok} {v : List (Txt × Val F)}, GEntries S c t v →
    AllKnown t
  | _, _, _, .nil _ => .nil
  | _, _, _, .cons _ _ _ _ _ _ h hs =>
    .append (.cons trivial (.cons trivial (gval_known h))) (gentries_known hs)
end

theorem gargs_known {c : Bool} {t : List Tok} {as : List (Txt × Val F)} (h : GArgs S c t as) :
    AllKnown t := by
  cases h with
  | none => exact .nil
  | some _ _ _ h => exact .wrap (gentries_known h)

theorem gdirs_known {c : Bool} {t : List Tok} {as : List (Dir F)} (h : GDirs S c t as) :
    AllKnown t := by
  induction h with
  | nil => exact .nil
  | cons n t ts as ds h _ ih => exact .append (.cons trivial (.cons trivial (gargs_known h))) ih

theorem gtype_known {t : List Tok} {ty : Ty} (h : GType t ty) : AllKnown t := by
  induction h with
  | named => exact .cons trivial .nil
  | list _ _ _ ih => exact .wrap ih
  | nonNull _ _ _ _ ih => exact .append ih (.cons trivial .nil)

theorem galias_known {t : List Tok} {a : Option Txt} (h : GAlias t a) : AllKnown t := by
  cases h with
  | none => exact .nil
  | some => exact .cons trivial (.cons trivial .nil)

mutual
theorem gsel_known : ∀ {t : List Tok} {s : Sel F}, GSel S t s → AllKnown t
  | _, _, .leaf _ _ _ _ _ _ _ h1 h2 h3 =>
    .append (.append (galias_known h1) (.cons trivial (gargs_known h2))) (gdirs_known h3)
  | _, _, .field _ _ _ _ _ _ _ _ _ h1 h2 h3 h4 =>
    .append (.append (.append (galias_known h1) (.cons trivial (gargs_known h2))) (gdirs_known h3))
      (gset_known h4)
  | _, _, .spread _ _ _ _ h => .cons trivial (.cons trivial (gdirs_known h))
  | _, _, .inlineOn _ _ _ _ _ h1 h2 =>
    .append (.cons trivial (.cons trivial (.cons trivial (gdirs_known h1)))) (gset_known h2)
  | _, _, .inline _ _ _ _ h1 h2 => .append (.cons trivial (gdirs_known h1)) (gset_known h2)
theorem gset_known : ∀ {t : List Tok} {s : List (Sel F)}, GSet S t s → AllKnown t
  | _, _, .mk _ _ _ h => .wrap (gsels_known h)
theorem gsels_known : ∀ {t : List Tok} {s : List (Sel F)}, GSels S t s → AllKnown t
  | _, _, .nil => .nil
  | _, _, .cons _ _ _ _ h hs => .append (gsel_known h) (gsels_known hs)
end

theorem gvars_known {t : List Tok} {vs : List (VarDef F)} (h : GVars S t vs) : AllKnown t := by
  induction h with
  | nil => exact .nil
  | cons n t d e ts ty dv ds vs h1 h2 h3 _ ih =>
    refine .append (.append (.append (.cons trivial (.cons trivial (.cons trivial
      (gtype_known h1)))) ?_) (gdirs_known h3)) ih
    cases h2 with
    | none => exact .nil
    | some _ _ h => exact .cons trivial (gval_known h)

theorem gdef_known {t : List Tok} {d : Def F} (h : GDef S t d) : AllKnown t := by
  cases h with
  | short _ _ h => exact gset_known h
  | op k nm tn tv d b vs ds ss h1 h2 h3 h4 =>
    refine .append (.append (.append (.cons trivial ?_) ?_) (gdirs_known h3)) (gset_known h4)
    · cases h1 with
      | none => exact .nil
      | some => exact .cons trivial .nil
    · cases h2 with
      | none => exact .nil
      | some _ _ _ h => exact .wrap (gvars_known h)
  | frag n c d b ds ss _ h1 h2 =>
    exact .append (.cons trivial (.cons trivial (.cons trivial (.cons trivial (gdirs_known h1)))))
      (gset_known h2)

theorem gdefs_known {t : List Tok} {d : List (Def F)} (h : GDefs S t d) : AllKnown t := by
  induction h with
  | nil => exact .nil
  | cons t ts d ds h _ ih => exact .append (gdef_known h) ih

theorem gdoc_known {t : List Tok} {d : Doc F} (h : GDoc S t d) : AllKnown t := gdefs_known h.2

end Verif.Text
