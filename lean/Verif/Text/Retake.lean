import Verif.Text.Minify
import Verif.Text.Limit
/-!
# Tokens are taken again from their texts
-/
namespace Verif.Text

/-- What may stand after a token so that it is taken as it is. -/
def Stops : Tok → Txt → Prop
  | .name _, c :: _ => nameCont c = false
  | .int _, c :: _ => endsNumber c = true
  | .float _, c :: _ => endsNumber c = true
  | .str [], c :: _ => c ≠ '"'
  | _, _ => True

theorem takeStr_again : ∀ {t raw rest : Txt} {esc : Bool}, takeStr esc t = some (raw, rest) →
    ∀ rest', takeStr esc (raw ++ '"' :: rest') = some (raw, rest') := by
  intro t
  induction t with
  | nil => intro raw rest esc h; cases h
  | cons c cs ih =>
    intro raw rest esc h rest'
    rw [takeStr] at h
    split at h
    · next hc =>
      cases h
      simp [takeStr, hc.2]
    next hc =>
    split at h
    · cases h
    next hn =>
    cases hx : takeStr (!esc && c == '\\') cs with
    | none => rw [hx] at h; cases h
    | some x =>
      rw [hx] at h
      cases h
      rw [List.cons_append, takeStr, if_neg hc, if_neg hn, ih (raw := x.1) (rest := x.2) hx rest']
      rfl

theorem takeStr_head {t raw rest : Txt} (h : takeStr false t = some (raw, rest)) :
    ∀ r, raw ≠ '"' :: r := by
  rintro r rfl
  cases t with
  | nil => cases h
  | cons c cs =>
    rw [takeStr] at h
    split at h
    · cases h
    next hc =>
    split at h
    · cases h
    cases hx : takeStr (!false && c == '\\') cs with
    | none => rw [hx] at h; cases h
    | some x =>
      rw [hx] at h
      cases h
      exact hc ⟨rfl, rfl⟩

theorem takeBlock_again : ∀ (n : Nat) {t raw rest : Txt} {esc : Bool}, t.length ≤ n →
    takeBlock esc t = some (raw, rest) →
    ∀ rest', takeBlock esc (raw ++ '"' :: '"' :: '"' :: rest') = some (raw, rest') := by
  intro n
  induction n with
  | zero =>
    intro t raw rest esc hl h
    cases t with
    | nil => rw [takeBlock] at h; cases h
    | cons => simp at hl
  | succ n ih =>
    intro t raw rest esc hl h rest'
    by_cases hq : ['"', '"', '"'] <+: t
    · obtain ⟨cs, rfl⟩ := hq
      have h' : takeBlock esc ('"' :: '"' :: '"' :: cs) = some (raw, rest) := h
      rw [takeBlock] at h'
      split at h'
      · next he =>
        cases hx : takeBlock false cs with
        | none => rw [hx] at h'; cases h'
        | some x =>
          rw [hx] at h'
          cases h'
          show takeBlock esc ('"' :: '"' :: '"' :: (x.1 ++ '"' :: '"' :: '"' :: rest')) = _
          rw [takeBlock, if_pos he, ih (raw := x.1) (rest := x.2) (by simp at hl; omega) hx rest']
          rfl
      · next he =>
        cases h'
        rw [List.nil_append, takeBlock, if_neg he]
    · cases t with
      | nil => rw [takeBlock] at h; cases h
      | cons c cs =>
        rw [takeBlock_other hq] at h
        cases hx : takeBlock (c == '\\') cs with
        | none => rw [hx] at h; cases h
        | some x =>
          rw [hx] at h
          cases h
          obtain ⟨h1, _⟩ := takeBlock_inv _ (raw := x.1) (rest := x.2) (Nat.le_refl _) hx
          have hq' : ¬ ['"', '"', '"'] <+: c :: (x.1 ++ '"' :: '"' :: '"' :: rest') := by
            intro hy
            apply hq
            have : ['"', '"', '"'] <+: c :: x.1 ++ ['"', '"', '"'] := by
              refine (List.prefix_of_prefix_length_le hy ?_ (by simp))
              exact ⟨rest', by simp⟩
            refine this.trans ⟨x.2, ?_⟩
            rw [h1]
            simp
          rw [List.cons_append, takeBlock_other hq',
            ih (raw := x.1) (rest := x.2) (by simp at hl; omega) hx rest']
          rfl

theorem takeWhile_stop {p : Char → Bool} (a b : Txt) (ha : ∀ c ∈ a, p c = true)
    (hb : ∀ c r, b = c :: r → p c = false) : (a ++ b).takeWhile p = a ∧ (a ++ b).dropWhile p = b := by
  induction a with
  | nil =>
    cases b with
    | nil => exact ⟨rfl, rfl⟩
    | cons c r => simp [hb c r rfl]
  | cons x a ih =>
    obtain ⟨h1, h2⟩ := ih (fun c hc => ha c (by simp [hc]))
    have hx := ha x (by simp)
    simp [hx, h1, h2]

/-- A token is taken again from its text, whatever follows that may. -/
def Canon (tok : Tok) : Prop :=
  (∀ rest, Stops tok rest → takeTok (tokTxt tok ++ rest) = some (tok, rest)) ∧
    (∀ rest, skipWs false (tokTxt tok ++ rest) = tokTxt tok ++ rest) ∧ tokTxt tok ≠ [] ∧
    (nonPunct tok = true → ∀ c r, tokTxt tok = c :: r → c = '"' ∨ nameStart c = true ∨ c = '-' ∨ digit c = true)

theorem numberTok_txt {v : Txt} {t : Tok} (h : numberTok v = some t) : t = .int v ∨ t = .float v := by
  unfold numberTok at h
  simp only at h
  split at h
  · split at h
    · cases h; exact .inr rfl
    · cases h
  · split at h
    · cases h; exact .inl rfl
    · cases h

theorem skip_other {c : Char} (h : c = '"' ∨ nameStart c = true ∨ c = '-' ∨ digit c = true) (r : Txt) :
    skipWs false (c :: r) = c :: r := by
  rw [skipWs]
  have key : ¬ (c = '﻿' ∨ c = '\r' ∨ c = '\t' ∨ c = '\n' ∨ c = ' ' ∨ c = ',') ∧ c ≠ '#' := by
    constructor
    · rintro (rfl | rfl | rfl | rfl | rfl | rfl) <;> revert h <;> decide
    · rintro rfl; revert h; decide
  rw [if_neg key.1, if_neg key.2]

theorem takeTok_canon {t rest : Txt} {tok : Tok} (h : takeTok t = some (tok, rest)) : Canon tok := by
  cases t with
  | nil => cases h
  | cons c cs =>
    rw [takeTok.eq_def] at h
    simp only at h
    cases hp : punct1 c with
    | some p =>
      rw [hp] at h
      cases h
      cases p <;> refine ⟨fun r _ => rfl, fun r => rfl, by decide, fun h => by cases h⟩
    | none =>
      rw [hp] at h
      simp only at h
      split at h
      · split at h
        · cases h
          refine ⟨fun r _ => rfl, fun r => rfl, by decide, fun h => by cases h⟩
        · cases h
      next hdot =>
      split at h
      · next hs =>
        cases h
        have hst : ∀ d r, tokTxt (.name (c :: cs.takeWhile nameCont)) = d :: r →
            d = '"' ∨ nameStart d = true ∨ d = '-' ∨ digit d = true := by
          intro d r e
          injection e with e _
          exact .inr (.inl (e ▸ hs))
        refine ⟨?_, fun r => skip_other (hst c _ rfl) _, by simp [tokTxt], fun _ => hst⟩
        intro r hf
        obtain ⟨w1, w2⟩ := takeWhile_stop (p := nameCont) (cs.takeWhile nameCont) r
          (takeWhile_all cs) (by rintro d r' rfl; exact hf)
        show takeTok (c :: (cs.takeWhile nameCont ++ r)) = _
        rw [takeTok.eq_def]
        simp only [hp, if_neg hdot, if_pos hs, w1, w2]
      next hs =>
      split at h
      · next hn =>
        cases hx : numberTok (c :: cs.takeWhile (! endsNumber ·)) with
        | none => rw [hx] at h; cases h
        | some x =>
          rw [hx] at h
          cases h
          have htxt : tokTxt tok = c :: cs.takeWhile (! endsNumber ·) := by
            rcases numberTok_txt hx with rfl | rfl <;> rfl
          have hst : ∀ d r, tokTxt tok = d :: r →
              d = '"' ∨ nameStart d = true ∨ d = '-' ∨ digit d = true := by
            intro d r e
            rw [htxt] at e
            injection e with e _
            subst e
            simpa using Or.inr (Or.inr hn)
          refine ⟨?_, fun r => by rw [htxt]; exact skip_other (hst c _ htxt) _,
            by rw [htxt]; simp, fun _ => hst⟩
          intro r hf
          have hf' : ∀ d r', r = d :: r' → (! endsNumber d) = false := by
            rintro d r' rfl
            have : endsNumber d = true := by
              rcases numberTok_txt hx with rfl | rfl <;> exact hf
            simp [this]
          obtain ⟨w1, w2⟩ := takeWhile_stop (p := (! endsNumber ·)) (cs.takeWhile (! endsNumber ·)) r
            (takeWhile_all cs) hf'
          rw [htxt]
          show takeTok (c :: (cs.takeWhile (! endsNumber ·) ++ r)) = _
          rw [takeTok.eq_def]
          simp only [hp, if_neg hdot, if_neg hs, if_pos hn, w1, w2, hx, Option.map_some]
      next hn =>
      split at h
      · next hq =>
        subst hq
        split at h
        · next r1 =>
          cases hx : takeBlock false r1 with
          | none => rw [hx] at h; cases h
          | some x =>
            rw [hx] at h
            cases h
            refine ⟨?_, fun r => skip_other (.inl rfl) _, by simp [tokTxt],
              fun _ d r e => .inl (by injection e with e _; exact e.symm)⟩
            intro r _
            have := takeBlock_again _ (raw := x.1) (rest := x.2) (Nat.le_refl _) hx r
            show takeTok ('"' :: '"' :: '"' :: x.1 ++ ['"', '"', '"'] ++ r) = _
            have e : '"' :: '"' :: '"' :: x.1 ++ ['"', '"', '"'] ++ r
                = '"' :: '"' :: '"' :: (x.1 ++ '"' :: '"' :: '"' :: r) := by simp
            rw [e, takeTok.eq_def]
            simp only [hp, if_neg hdot, if_neg hs, if_neg hn, if_pos, this, Option.map_some]
        · next hnot =>
          cases hx : takeStr false cs with
          | none => rw [hx] at h; cases h
          | some x =>
            rw [hx] at h
            cases h
            refine ⟨?_, fun r => skip_other (.inl rfl) _, by simp [tokTxt],
              fun _ d r e => .inl (by injection e with e _; exact e.symm)⟩
            intro r hf
            have := takeStr_again (raw := x.1) (rest := x.2) hx r
            have hh := takeStr_head (raw := x.1) (rest := x.2) hx
            have e : tokTxt (.str x.1) ++ r = '"' :: (x.1 ++ '"' :: r) := by simp [tokTxt]
            rw [e, takeTok.eq_def]
            simp only [hp, if_neg hdot, if_neg hs, if_neg hn, if_pos]
            have hnb : ∀ r', x.1 ++ '"' :: r ≠ '"' :: '"' :: r' := by
              intro r' e'
              cases hx1 : x.1 with
              | nil =>
                rw [hx1, List.nil_append] at e'
                injection e' with _ e'
                rw [hx1, e'] at hf
                exact hf rfl
              | cons y ys =>
                rw [hx1, List.cons_append] at e'
                injection e' with e' _
                exact hh ys (by rw [hx1, e'])
            split
            · next r' e' => exact absurd e' (hnb r')
            · rw [this]; rfl
      · cases h

/-! ## The tokens of a minified text -/

/-- A number is not followed by dots. -/
def isNum : Tok → Bool
  | .int _ => true
  | .float _ => true
  | _ => false

/-- No number stands before dots. -/
def Spread : List Tok → Prop
  | [] => True
  | [_] => True
  | t :: u :: ts => ¬ (isNum t = true ∧ u = .p .dots) ∧ Spread (u :: ts)

theorem Spread.tail {t : Tok} {ts : List Tok} (h : Spread (t :: ts)) : Spread ts := by
  cases ts with
  | nil => trivial
  | cons u ts => exact h.2

theorem not_punct_head {c : Char} (h : c = '"' ∨ nameStart c = true ∨ c = '-' ∨ digit c = true) : c ≠ ' ' := by
  rintro rfl
  revert h
  decide

theorem stops_minify {t : Tok} {ts : List Tok} (hs : Spread (t :: ts)) (hc : ∀ x ∈ ts, Canon x) :
    Stops t (minifyToks (nonPunct t) ts) := by
  cases ts with
  | nil =>
    cases t with
    | str raw => cases raw <;> trivial
    | _ => trivial
  | cons u ts =>
    rw [minifyToks]
    cases hu : nonPunct u with
    | true =>
      cases t with
      | p q => trivial
      | name n => exact (by decide : nameCont ' ' = false)
      | int n => exact (by decide : endsNumber ' ' = true)
      | float n => exact (by decide : endsNumber ' ' = true)
      | str raw =>
        cases raw with
        | nil => exact (by decide : ' ' ≠ '"')
        | cons => trivial
      | block => trivial
      | bad => trivial
    | false =>
      cases u with
      | p q =>
        have hd : isNum t = true → q ≠ .dots := fun h e => hs.1 ⟨h, by rw [e]⟩
        rw [Bool.and_false]
        cases t with
        | p q => trivial
        | name n => cases q <;> exact Eq.refl false
        | int n => cases q <;> first | exact Eq.refl true | exact absurd rfl (hd rfl)
        | float n => cases q <;> first | exact Eq.refl true | exact absurd rfl (hd rfl)
        | str raw =>
          cases raw with
          | nil => cases q <;> exact fun e => absurd e (by decide)
          | cons => trivial
        | block => trivial
        | bad => trivial
      | _ => cases hu

theorem after_depth (d c c' : Nat) (t : Tok) (r r' : Txt) :
    (Lim.after ⟨d, none, c⟩ t r).map (·.depth) = (Lim.after ⟨d, none, c'⟩ t r').map (·.depth) := by
  unfold Lim.after
  simp only
  split
  · split <;> rfl
  split <;> rfl

theorem after_unlimited {d c : Nat} {t : Tok} {r : Txt} {l : Lim} (h : Lim.after ⟨d, none, c⟩ t r = some l) :
    l.limit = none ∧ l.count = c := by
  unfold Lim.after at h
  simp only at h
  split at h
  · split at h
    · cases h
    · cases h; exact ⟨rfl, rfl⟩
  split at h <;> (cases h; exact ⟨rfl, rfl⟩)

theorem canon_all : ∀ (fuel d : Nat) (t : Txt) (ts : List Tok), lexFrom fuel ⟨d, none, 0⟩ t = ts →
    Tok.bad ∉ ts → ∀ x ∈ ts, Canon x
  | 0, d, t, ts, h, hb => by subst h; simp [lexFrom] at hb
  | fuel + 1, d, t, ts, h, hb => by
    rw [lexFrom] at h
    split at h
    · subst h; simp at hb
    split at h
    · subst h; intro x hx; cases hx
    split at h
    · subst h; simp at hb
    · next tok rest ht =>
      split at h
      · subst h; simp at hb
      · next l' hl =>
        subst h
        obtain ⟨e1, e2⟩ := after_unlimited hl
        intro x hx
        rcases List.mem_cons.1 hx with rfl | hx
        · exact takeTok_canon ht
        · obtain ⟨dep, lim, cnt⟩ := l'
          cases e1; cases e2
          exact canon_all fuel dep _ _ rfl (fun h => hb (by simp [h])) x hx

theorem lexFrom_minify : ∀ (fuel d : Nat) (t : Txt) (ts : List Tok), lexFrom fuel ⟨d, none, 0⟩ t = ts →
    Tok.bad ∉ ts → Spread ts → ∀ (b : Bool) (fuel' : Nat), ts.length < fuel' →
    lexFrom fuel' ⟨d, none, 0⟩ (skipWs false (minifyToks b ts)) = ts
  | 0, d, t, ts, h, hb => by subst h; simp [lexFrom] at hb
  | fuel + 1, d, t, ts, h, hb => by
    intro hs b fuel' hf
    have hcan := canon_all _ _ _ _ h hb
    rw [lexFrom] at h
    split at h
    · subst h; simp at hb
    split at h
    · subst h
      cases fuel' with
      | zero => cases hf
      | succ n => rfl
    split at h
    · subst h; simp at hb
    · next tok rest ht =>
      split at h
      · subst h; simp at hb
      · next l' hl =>
        subst h
        obtain ⟨e1, e2⟩ := after_unlimited hl
        obtain ⟨dep, lim, cnt⟩ := l'
        cases e1; cases e2
        cases fuel' with
        | zero => cases hf
        | succ n =>
          obtain ⟨c1, c2, c3, c4⟩ := hcan tok (by simp)
          have hsk : skipWs false (minifyToks b (tok :: lexFrom fuel ⟨dep, none, 0⟩ (skipWs false rest)))
              = tokTxt tok ++ minifyToks (nonPunct tok) (lexFrom fuel ⟨dep, none, 0⟩ (skipWs false rest)) := by
            rw [minifyToks]
            split
            · exact c2 _
            · exact c2 _
          rw [hsk, lexFrom]
          have hne : (tokTxt tok ++ minifyToks (nonPunct tok)
              (lexFrom fuel ⟨dep, none, 0⟩ (skipWs false rest))).isEmpty = false := by
            cases hx : tokTxt tok with
            | nil => exact absurd hx c3
            | cons => rfl
          rw [hne, c1 _ (stops_minify hs (fun x hx => hcan x (by simp [hx])))]
          have hd := after_depth d 0 0 tok rest
            (minifyToks (nonPunct tok) (lexFrom fuel ⟨dep, none, 0⟩ (skipWs false rest)))
          rw [hl] at hd
          cases ha : Lim.after ⟨d, none, 0⟩ tok
            (minifyToks (nonPunct tok) (lexFrom fuel ⟨dep, none, 0⟩ (skipWs false rest))) with
          | none => rw [ha] at hd; cases hd
          | some l =>
            rw [ha] at hd
            obtain ⟨f1, f2⟩ := after_unlimited ha
            obtain ⟨dep', lim', cnt'⟩ := l
            cases f1; cases f2
            cases hd
            simp only [Lim.full, Bool.false_eq_true, if_false, ha]
            rw [lexFrom_minify fuel dep _ _ rfl (fun h => hb (by simp [h])) hs.tail _ n
              (by simp at hf; omega)]

theorem minify_length : ∀ (ts : List Tok) (b : Bool), (∀ x ∈ ts, Canon x) →
    ts.length ≤ (minifyToks b ts).length := by
  intro ts
  induction ts with
  | nil => intro b _; exact Nat.le_refl _
  | cons t ts ih =>
    intro b h
    have h1 := ih (nonPunct t) (fun x hx => h x (by simp [hx]))
    have h2 : 0 < (tokTxt t).length := List.length_pos_iff.2 (h t (by simp)).2.2.1
    rw [minifyToks]
    simp only [List.length_append, List.length_cons]
    omega

/-- The minified text has the same tokens. -/
theorem lex_minify {t : Txt} (hb : Tok.bad ∉ lex none t) (hs : Spread (lex none t)) :
    lex none (minifyToks false (lex none t)) = lex none t := by
  have hl := minify_length (lex none t) false (canon_all _ _ _ _ rfl hb)
  exact lexFrom_minify _ _ _ _ rfl hb hs false _ (Nat.lt_succ_of_le hl)

end Verif.Text
