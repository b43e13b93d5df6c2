import Verif.Text.Crash
/-!
# The limit of tokens
-/
namespace Verif.Text

variable {F : Type} {L : Lits F}

/-! ## What an accepted document takes -/

/-- A parser takes tokens without an error among them. -/
def Eats {α : Type} (p : List Tok → R α) : Prop :=
  ∀ ts a r, p ts = .ok a r → ∃ t, ts = t ++ r ∧ Tok.bad ∉ t

/-- It ends with a closing brace. -/
def EatsBrace {α : Type} (p : List Tok → R α) : Prop :=
  ∀ ts a r, p ts = .ok a r → ∃ t, ts = t ++ .p .rcur :: r ∧ Tok.bad ∉ t

theorem EatsBrace.eats {α : Type} {p : List Tok → R α} (h : EatsBrace p) : Eats p := by
  intro ts a r e
  obtain ⟨t, rfl, hb⟩ := h ts a r e
  exact ⟨t ++ [.p .rcur], by simp, by simp [hb]⟩

theorem eats_then {α β : Type} {p : List Tok → R α} {f : α → List Tok → R β} (hp : Eats p)
    (hf : ∀ a, Eats (f a)) : Eats (fun ts => (p ts).then f) := by
  intro ts b r e
  obtain ⟨a, r1, h1, h2⟩ := then_inv e
  obtain ⟨t, rfl, hb⟩ := hp ts a r1 h1
  obtain ⟨u, rfl, hc⟩ := hf a r1 b r h2
  exact ⟨t ++ u, by simp, by simp [hb, hc]⟩

theorem brace_then {α β : Type} {p : List Tok → R α} {f : α → List Tok → R β} (hp : Eats p)
    (hf : ∀ a, EatsBrace (f a)) : EatsBrace (fun ts => (p ts).then f) := by
  intro ts b r e
  obtain ⟨a, r1, h1, h2⟩ := then_inv e
  obtain ⟨t, rfl, hb⟩ := hp ts a r1 h1
  obtain ⟨u, rfl, hc⟩ := hf a r1 b r h2
  exact ⟨t ++ u, by simp, by simp [hb, hc]⟩

theorem eats_map {α β : Type} {p : List Tok → R α} {f : α → β} (hp : Eats p) :
    Eats (fun ts => (p ts).map f) := by
  intro ts b r e
  obtain ⟨a, h1, _⟩ := map_inv e
  exact hp ts a r h1

theorem brace_map {α β : Type} {p : List Tok → R α} {f : α → β} (hp : EatsBrace p) :
    EatsBrace (fun ts => (p ts).map f) := by
  intro ts b r e
  obtain ⟨a, h1, _⟩ := map_inv e
  exact hp ts a r h1

theorem eats_many {α : Type} {p : List Tok → R α} (hp : Eats p) (m : Nat) : Eats (many p m) := by
  induction m with
  | zero => intro ts a r h; cases h
  | succ m ih =>
    intro ts as r h
    rw [many] at h
    cases hx : p ts with
    | ok a r1 =>
      rw [hx] at h
      simp only at h
      cases hy : many p m r1 with
      | ok as' r2 =>
        rw [hy] at h
        cases h
        obtain ⟨t, rfl, hb⟩ := hp ts a r1 hx
        obtain ⟨u, rfl, hc⟩ := ih r1 as' r hy
        exact ⟨t ++ u, by simp, by simp [hb, hc]⟩
      | _ => rw [hy] at h; cases h
    | miss => rw [hx] at h; cases h; exact ⟨[], rfl, by simp⟩
    | fail => rw [hx] at h; cases h
    | crash => rw [hx] at h; cases h

theorem eats_many1 {α : Type} {p : List Tok → R α} (hp : Eats p) : Eats (many1 p) :=
  eats_then hp fun a ts => eats_map (eats_many hp (ts.length + 1)) ts

theorem eats_name : Eats pName := by
  intro ts a r h
  unfold pName at h
  split at h
  · cases h; exact ⟨[_], rfl, by simp⟩
  · cases h

theorem eats_p (p : P) : Eats (pP p) := by
  intro ts a r h
  have := pP_inv h
  exact ⟨[.p p], this, by simp⟩

theorem eats_ident (k : Txt) : Eats (pIdent k) := by
  intro ts a r h
  have := pIdent_inv h
  exact ⟨[.name k], this, by simp⟩

theorem eats_plain : Eats (pPlain L) := by
  intro ts a r h
  unfold pPlain at h
  repeat' split at h
  all_goals first | (cases h; exact ⟨[_], rfl, by simp⟩) | cases h

theorem eats_entry {p : List Tok → R (Val F)} (hp : Eats p) : Eats (pEntry p) :=
  eats_then eats_name fun _ => eats_then (eats_p .colon) fun _ => eats_map hp

theorem eats_cons {t : Tok} {r u : List Tok} {q : P} {r' : List Tok} (ht : t ≠ .bad)
    (h : r = u ++ .p q :: r') (hu : Tok.bad ∉ u) : ∃ v, t :: r = v ++ r' ∧ Tok.bad ∉ v := by
  subst h
  refine ⟨t :: u ++ [.p q], by simp, ?_⟩
  simp [hu, ht.symm]

theorem eats_value (c : Bool) : ∀ n, Eats (pValue L c n)
  | 0 => fun ts a r h => by cases h
  | n + 1 => by
    have ih := eats_value c n
    intro ts a r h
    rw [pValue.eq_def] at h
    simp only at h
    split at h
    · next r1 =>
      split at h
      · cases h
      · split at h
        · next v r' e =>
          cases h
          obtain ⟨t, rfl, hb⟩ := eats_name _ _ _ e
          exact ⟨.p .dollar :: t, rfl, by simp [hb]⟩
        · cases h
    · next r1 =>
      split at h
      · next vs r' e =>
        cases h
        obtain ⟨t, h1, hb⟩ := eats_many ih _ _ _ _ e
        exact eats_cons (by simp) h1 hb
      · cases h
      · cases h
    · next r1 =>
      split at h
      · next vs r' e =>
        cases h
        obtain ⟨t, h1, hb⟩ := eats_many (eats_entry ih) _ _ _ _ e
        exact eats_cons (by simp) h1 hb
      · cases h
      · cases h
    · exact eats_plain ts a r h

theorem eats_args (c : Bool) : Eats (pArgs L c) := by
  intro ts a r h
  rw [pArgs.eq_def] at h
  split at h
  · split at h
    · next vs r' e =>
      cases h
      obtain ⟨t, h1, hb⟩ := eats_many1 (eats_entry (eats_value c _)) _ _ _ e
      exact eats_cons (by simp) h1 hb
    · cases h
    · cases h
  · cases h; exact ⟨[], rfl, by simp⟩

theorem eats_dirs (c : Bool) : Eats (pDirs L c) := fun ts a r h =>
  eats_many (p := pDir L c) (eats_then (eats_p .at) fun _ => eats_then eats_name fun _ =>
    eats_map (eats_args c)) _ ts a r h

theorem eats_bang (t : Ty) : Eats (pBang t) := by
  intro ts a r h
  unfold pBang at h
  split at h
  · cases h; exact ⟨[_], rfl, by simp⟩
  · cases h; exact ⟨[], rfl, by simp⟩

theorem eats_type : ∀ n, Eats (pType n)
  | 0 => fun ts a r h => by cases h
  | n + 1 => by
    intro ts a r h
    rw [pType.eq_def] at h
    split at h
    · cases h
    · next m r1 _ =>
      obtain ⟨t, rfl, hb⟩ := eats_bang _ _ _ _ h
      exact ⟨.name m :: t, rfl, by simp [hb]⟩
    · next k r1 e =>
      cases e
      split at h
      · next t r' e' =>
        obtain ⟨u, rfl, hb⟩ := eats_type n _ _ _ e'
        obtain ⟨v, rfl, hc⟩ := eats_bang _ _ _ _ h
        exact ⟨.p .lbr :: u ++ .p .rbr :: v, by simp, by simp [hb, hc]⟩
      · cases h
      · cases h
    · cases h

theorem brace_setWith {p : List Tok → R (Sel F)} (hp : Eats p) : EatsBrace (pSetWith p) := by
  intro ts a r h
  rw [pSetWith.eq_def] at h
  split at h
  · split at h
    · next vs r' e =>
      cases h
      obtain ⟨t, rfl, hb⟩ := eats_many1 hp _ _ _ e
      exact ⟨.p .lcur :: t, rfl, by simp [hb]⟩
    · cases h
    · cases h
  · cases h

theorem eats_fieldTail {p : List Tok → R (Sel F)} (hp : Eats p) (al : Option Txt) (n : Txt) :
    Eats (pFieldTail L p al n) := by
  refine eats_then (eats_args false) fun as => eats_then (eats_dirs false) fun ds => ?_
  intro ts a r h
  simp only at h
  split at h
  · next ss r' e => cases h; exact (brace_setWith hp).eats _ _ _ e
  · cases h; exact ⟨[], rfl, by simp⟩
  · cases h
  · cases h

theorem eats_inlineTail {p : List Tok → R (Sel F)} (hp : Eats p) (c : Option Txt) :
    Eats (pInlineTail L p c) :=
  eats_then (eats_dirs false) fun _ => eats_map (brace_setWith hp).eats

theorem eats_dots {p : List Tok → R (Sel F)} (hp : Eats p) : Eats (pDots L p) := by
  intro ts a r h
  rw [pDots.eq_def] at h
  split at h
  · next n r1 =>
    split at h
    · obtain ⟨t, rfl, hb⟩ := eats_then eats_name (fun c => eats_inlineTail hp (some c)) _ _ _ h
      exact ⟨.name n :: t, rfl, by simp [hb]⟩
    · obtain ⟨t, rfl, hb⟩ := eats_map (eats_dirs false) _ _ _ h
      exact ⟨.name n :: t, rfl, by simp [hb]⟩
  · exact eats_inlineTail hp none _ _ _ h

theorem eats_sel : ∀ n, Eats (pSel L n)
  | 0 => fun ts a r h => by cases h
  | n + 1 => by
    have ih := eats_sel n
    intro ts a r h
    rw [pSel.eq_def] at h
    simp only at h
    split at h
    · next al r1 =>
      split at h
      · next nm r' e =>
        obtain ⟨t, rfl, hb⟩ := eats_name _ _ _ e
        obtain ⟨u, rfl, hc⟩ := eats_fieldTail ih _ _ _ _ _ (taken_inv h)
        exact ⟨.name al :: .p .colon :: t ++ u, by simp, by simp [hb, hc]⟩
      · cases h
    · next nm r1 _ =>
      obtain ⟨t, rfl, hb⟩ := eats_fieldTail ih _ _ _ _ _ (taken_inv h)
      exact ⟨.name nm :: t, rfl, by simp [hb]⟩
    · obtain ⟨t, rfl, hb⟩ := eats_dots ih _ _ _ (taken_inv h)
      exact ⟨.p .dots :: t, rfl, by simp [hb]⟩
    · cases h

theorem brace_set : EatsBrace (pSet L) := fun ts a r h => brace_setWith (eats_sel _) ts a r h

theorem eats_default : Eats (pDefault L) := by
  intro ts a r h
  rw [pDefault.eq_def] at h
  split at h
  · obtain ⟨t, rfl, hb⟩ := eats_map (eats_value true _) _ _ _ (taken_inv h)
    exact ⟨.p .eq :: t, rfl, by simp [hb]⟩
  · cases h; exact ⟨[], rfl, by simp⟩

theorem eats_var : Eats (pVar L) := by
  refine eats_then (eats_p .dollar) fun _ => eats_then eats_name fun n => eats_then (eats_p .colon)
    fun _ => ?_
  intro ts a r h
  refine eats_then (eats_type (ts.length + 1)) (fun t => eats_then eats_default fun d => ?_) ts a r h
  intro ts a r h
  simp only at h
  split at h
  · exact eats_map (eats_dirs true) _ _ _ h
  · cases h; exact ⟨[], rfl, by simp⟩

theorem eats_vars : Eats (pVars L) := by
  intro ts a r h
  rw [pVars.eq_def] at h
  split at h
  · split at h
    · next vs r' e =>
      cases h
      obtain ⟨t, h1, hb⟩ := eats_many1 eats_var _ _ _ e
      exact eats_cons (by simp) h1 hb
    · cases h
    · cases h
  · cases h; exact ⟨[], rfl, by simp⟩

theorem eats_optName : Eats pOptName := by
  intro ts a r h
  unfold pOptName at h
  split at h
  · cases h; exact ⟨[_], rfl, by simp⟩
  · cases h; exact ⟨[], rfl, by simp⟩

theorem brace_common (k : Kind) : EatsBrace (pCommon L k) :=
  brace_then eats_optName fun _ => brace_then eats_vars fun _ => brace_then (eats_dirs false) fun _ =>
    brace_map brace_set

theorem brace_frag : EatsBrace (pFrag L) :=
  brace_then eats_name fun _ => brace_then (eats_ident _) fun _ => brace_then eats_name fun _ =>
    brace_then (eats_dirs false) fun _ => brace_map brace_set

theorem brace_def : EatsBrace (pDef L) := by
  intro ts a r h
  rw [pDef.eq_def] at h
  split at h
  · next k r1 =>
    have key : ∀ {t : List Tok}, r1 = t ++ .p .rcur :: r ∧ Tok.bad ∉ t →
        ∃ t, Tok.name k :: r1 = t ++ .p .rcur :: r ∧ Tok.bad ∉ t := by
      rintro t ⟨rfl, hb⟩
      exact ⟨.name k :: t, rfl, by simp [hb]⟩
    split at h
    · exact key (brace_common .query _ _ _ (taken_inv h)).choose_spec
    split at h
    · exact key (brace_common .mutation _ _ _ (taken_inv h)).choose_spec
    split at h
    · exact key (brace_common .subscription _ _ _ (taken_inv h)).choose_spec
    split at h
    · exact key (brace_frag _ _ _ (taken_inv h)).choose_spec
    · cases h
  · exact brace_map brace_set _ _ _ h

theorem brace_many {α : Type} {p : List Tok → R α} (hp : EatsBrace p) (m : Nat) :
    ∀ ts as r, many p m ts = .ok as r → ts = r ∨ ∃ t, ts = t ++ .p .rcur :: r ∧ Tok.bad ∉ t := by
  induction m with
  | zero => intro ts a r h; cases h
  | succ m ih =>
    intro ts as r h
    rw [many] at h
    cases hx : p ts with
    | ok a r1 =>
      rw [hx] at h
      simp only at h
      cases hy : many p m r1 with
      | ok as' r2 =>
        rw [hy] at h
        cases h
        obtain ⟨t, rfl, hb⟩ := hp ts a r1 hx
        rcases ih r1 as' r hy with rfl | ⟨u, rfl, hc⟩
        · exact .inr ⟨t, rfl, hb⟩
        · exact .inr ⟨t ++ .p .rcur :: u, by simp, by simp [hb, hc]⟩
      | _ => rw [hy] at h; cases h
    | miss => rw [hx] at h; cases h; exact .inl rfl
    | fail => rw [hx] at h; cases h
    | crash => rw [hx] at h; cases h

/-- The tokens of an accepted document have no error among them and end with a brace. -/
theorem accepted_tokens {ts : List Tok} {d : Doc F} (h : parseToks L ts = .document d) :
    ∃ t, ts = t ++ [.p .rcur] ∧ Tok.bad ∉ t := by
  unfold parseToks at h
  split at h
  · next d' e =>
    unfold many1 at e
    obtain ⟨a, r1, h1, h2⟩ := then_inv e
    obtain ⟨as, h3, _⟩ := map_inv h2
    obtain ⟨t, rfl, hb⟩ := brace_def _ _ _ h1
    rcases brace_many brace_def _ _ _ _ h3 with rfl | ⟨u, rfl, hc⟩
    · exact ⟨t, rfl, hb⟩
    · exact ⟨t ++ .p .rcur :: u, by simp, by simp [hb, hc]⟩
  · cases h
  · cases h

/-! ## The limit -/

/-- Tokens other than strings and floats. -/
def isCounted : Tok → Bool
  | .p _ => true
  | .name _ => true
  | .int _ => true
  | _ => false

def countOf (ts : List Tok) : Nat := (ts.filter isCounted).length

theorem countOf_cons (t : Tok) (ts : List Tok) :
    countOf (t :: ts) = (if isCounted t then 1 else 0) + countOf ts := by
  unfold countOf
  rw [List.filter_cons]
  split
  · simp; omega
  · simp

theorem after_limit (d n c : Nat) (t : Tok) (rest : Txt) :
    Lim.after ⟨d, some n, c⟩ t rest =
      (Lim.after ⟨d, none, 0⟩ t rest).map fun l =>
        ⟨l.depth, some n, if counted t rest then c + 1 else c⟩ := by
  unfold Lim.after
  simp only [Option.isSome_some, Option.isSome_none, Bool.true_and, Bool.false_and,
    Bool.false_eq_true, if_false]
  split
  · cases d <;> rfl
  · split <;> rfl

theorem after_free (d : Nat) (t : Tok) (rest : Txt) (l : Lim) (h : Lim.after ⟨d, none, 0⟩ t rest = some l) :
    l = ⟨l.depth, none, 0⟩ := by
  unfold Lim.after at h
  simp only [Option.isSome_none, Bool.false_and, Bool.false_eq_true, if_false] at h
  split at h
  · cases d with
    | zero => cases h
    | succ d => cases h; rfl
  · split at h <;> (cases h; rfl)

/-- Without an error, the limit changes nothing. -/
theorem lexFrom_limit_same (n : Nat) : ∀ (fuel d c : Nat) (t : Txt),
    Tok.bad ∉ lexFrom fuel ⟨d, some n, c⟩ t →
    lexFrom fuel ⟨d, none, 0⟩ t = lexFrom fuel ⟨d, some n, c⟩ t
  | 0, d, c, t, h => by simp [lexFrom] at h
  | fuel + 1, d, c, t, h => by
    rw [lexFrom] at h ⊢
    rw [lexFrom]
    have hn : Lim.full ⟨d, none, 0⟩ = false := rfl
    rw [hn]
    split at h
    · simp at h
    next hfull =>
    rw [if_neg hfull]
    simp only [Bool.false_eq_true, if_false]
    split
    · rfl
    next he =>
    rw [if_neg he] at h
    cases ht : takeTok t with
    | none => rfl
    | some x =>
      rw [ht] at h
      simp only at h ⊢
      rw [after_limit] at h ⊢
      cases ha : Lim.after ⟨d, none, 0⟩ x.1 x.2 with
      | none => rfl
      | some l =>
        rw [ha] at h
        simp only [Option.map_some] at h ⊢
        rw [after_free _ _ _ _ ha]
        simp only
        congr 1
        exact lexFrom_limit_same n fuel l.depth _ _ (fun hm => h (by simp [hm]))

/-- With a limit, the tokens are the same as without if fewer than the limit count, else there is an
error. -/
theorem lexFrom_limit (n : Nat) : ∀ (fuel d c : Nat) (t : Txt) (ts : List Tok),
    lexFrom fuel ⟨d, none, 0⟩ t = ts → Tok.bad ∉ ts → (∀ a m, ts ≠ a ++ [.name m]) →
    (c + countOf ts < n → lexFrom fuel ⟨d, some n, c⟩ t = ts) ∧
      (n ≤ c + countOf ts → Tok.bad ∈ lexFrom fuel ⟨d, some n, c⟩ t)
  | 0, d, c, t, ts, h, hb, _ => by
    subst h
    simp [lexFrom] at hb
  | fuel + 1, d, c, t, ts, h, hb, hl => by
    rw [lexFrom] at h
    rw [lexFrom]
    have hn : Lim.full ⟨d, none, 0⟩ = false := rfl
    have hf : Lim.full ⟨d, some n, c⟩ = decide (n ≤ c) := rfl
    rw [hn] at h
    rw [hf]
    simp only [Bool.false_eq_true, if_false, decide_eq_true_eq] at h ⊢
    by_cases hc : n ≤ c
    · rw [if_pos hc]
      exact ⟨fun h => by omega, fun _ => by simp⟩
    rw [if_neg hc]
    by_cases he : t.isEmpty = true
    · rw [if_pos he] at h ⊢
      subst h
      exact ⟨fun _ => rfl, fun h => absurd h (by simp [countOf]; omega)⟩
    rw [if_neg he] at h ⊢
    cases ht : takeTok t with
    | none => rw [ht] at h; subst h; simp at hb
    | some x =>
      obtain ⟨tok, rest⟩ := x
      rw [ht] at h
      simp only at h ⊢
      rw [after_limit]
      cases ha : Lim.after ⟨d, none, 0⟩ tok rest with
      | none => rw [ha] at h; subst h; simp at hb
      | some l =>
        rw [ha] at h
        simp only [Option.map_some] at h ⊢
        rw [after_free _ _ _ _ ha] at h
        subst h
        have hb' : Tok.bad ∉ lexFrom fuel ⟨l.depth, none, 0⟩ (skipWs false rest) :=
          fun hm => hb (by simp [hm])
        have hl' : ∀ a m, lexFrom fuel ⟨l.depth, none, 0⟩ (skipWs false rest) ≠ a ++ [.name m] := by
          intro a m e
          exact hl (tok :: a) m (by rw [e]; rfl)
        have hcount : counted tok rest = isCounted tok := by
          cases tok with
          | name m =>
            cases rest with
            | cons => rfl
            | nil =>
              exfalso
              cases fuel with
              | zero => simp [lexFrom] at hb'
              | succ fuel => exact hl [] m rfl
          | _ => rfl
        have ih := lexFrom_limit n fuel l.depth (if counted tok rest then c + 1 else c)
          (skipWs false rest) _ rfl hb' hl'
        rw [hcount] at ih ⊢
        rw [countOf_cons]
        by_cases hi : isCounted tok = true
        · simp only [hi, if_true] at ih ⊢
          refine ⟨fun hlt => ?_, fun hle => ?_⟩
          · rw [ih.1 (by omega)]
          · exact List.mem_cons_of_mem _ (ih.2 (by omega))
        · have hi' : isCounted tok = false := by simpa using hi
          simp only [hi', Bool.false_eq_true, if_false] at ih ⊢
          refine ⟨fun hlt => ?_, fun hle => ?_⟩
          · rw [ih.1 (by omega)]
          · exact List.mem_cons_of_mem _ (ih.2 (by omega))

theorem parse_limit (S : Floats F) (n : Nat) (t : Txt) (d : Doc F) :
    parse S (some n) t = .document d ↔
      parse S none t = .document d ∧ countOf (lex none t) < n := by
  constructor
  · intro h
    unfold parse at h
    obtain ⟨u, hu, hb⟩ := accepted_tokens h
    have hbad : Tok.bad ∉ lex (some n) t := by rw [hu]; simp [hb]
    have hs : lex none t = lex (some n) t := lexFrom_limit_same n _ _ _ _ hbad
    have hl : ∀ a m, lex none t ≠ a ++ [.name m] := by
      intro a m e
      rw [hs, hu] at e
      have := List.append_inj_right' e rfl
      cases this
    refine ⟨by unfold parse; rw [hs]; exact h, ?_⟩
    have := (lexFrom_limit n (t.length + 1) 50 0 (skipWs false t) _ rfl
      (by show Tok.bad ∉ lex none t; rw [hs]; exact hbad) hl).2
    rw [Nat.zero_add] at this
    exact Nat.lt_of_not_le fun hle => hbad (this hle)
  · rintro ⟨h, hlt⟩
    unfold parse at h ⊢
    obtain ⟨u, hu, hb⟩ := accepted_tokens h
    have hbad : Tok.bad ∉ lex none t := by rw [hu]; simp [hb]
    have hl : ∀ a m, lex none t ≠ a ++ [.name m] := by
      intro a m e
      rw [hu] at e
      have := List.append_inj_right' e rfl
      cases this
    have := (lexFrom_limit n (t.length + 1) 50 0 (skipWs false t) _ rfl hbad hl).1
      (by rw [Nat.zero_add]; exact hlt)
    have hs : lex (some n) t = lex none t := this
    rw [hs]
    exact h

end Verif.Text
