import Verif.Text.Retake
/-!
# In an accepted document no number stands before dots
-/
namespace Verif.Text

variable {F : Type} {L : Lits F}

/-- Tokens in which no number stands before dots. `f` says whether they may begin with dots, `l`
whether they may end with a number. -/
def Fine (f l : Bool) (u : List Tok) : Prop :=
  Spread u ∧ (f = false → u.head? ≠ some (.p .dots)) ∧
    (l = false → ∀ x, u.getLast? = some x → isNum x = false)

/-- A parser takes such tokens. -/
def Fit {α : Type} (f l : Bool) (p : List Tok → R α) : Prop :=
  ∀ ts a r, p ts = .ok a r → ∃ t, ts = t ++ r ∧ Fine f l t

theorem fine_nil (f l : Bool) : Fine f l [] := ⟨trivial, fun _ => by simp, fun _ _ h => by cases h⟩

theorem spread_append : ∀ {u v : List Tok}, Spread u → Spread v →
    (∀ x y, u.getLast? = some x → v.head? = some y → ¬ (isNum x = true ∧ y = .p .dots)) →
    Spread (u ++ v)
  | [], v, _, hv, _ => hv
  | [x], v, _, hv, h => by
    cases v with
    | nil => trivial
    | cons y v => exact ⟨h x y rfl rfl, hv⟩
  | x :: y :: u, v, hu, hv, h =>
    ⟨hu.1, spread_append (u := y :: u) hu.2 hv fun a b ha hb => h a b (by simpa using ha) hb⟩

theorem fine_append {f1 l1 f2 l2 : Bool} {u v : List Tok} (hu : Fine f1 l1 u) (hv : Fine f2 l2 v)
    (h : l1 = false ∨ f2 = false) : Fine (f1 || f2) (l1 || l2) (u ++ v) := by
  refine ⟨spread_append hu.1 hv.1 ?_, ?_, ?_⟩
  · rintro x y hx hy ⟨h1, rfl⟩
    rcases h with h | h
    · rw [hu.2.2 h x hx] at h1; cases h1
    · exact hv.2.1 h hy
  · intro hf
    rw [Bool.or_eq_false_iff] at hf
    cases u with
    | nil => exact hv.2.1 hf.2
    | cons x u => exact hu.2.1 hf.1
  · intro hl x hx
    rw [Bool.or_eq_false_iff] at hl
    rw [List.getLast?_append] at hx
    cases hy : v.getLast? with
    | none => rw [hy] at hx; exact hu.2.2 hl.1 x (by simpa using hx)
    | some y =>
      rw [hy] at hx
      cases hx
      exact hv.2.2 hl.2 _ hy

theorem fine_cons {t : Tok} {f l : Bool} {u : List Tok} (hd : t ≠ .p .dots) (ht : isNum t = false)
    (hu : Fine f l u) : Fine false l (t :: u) := by
  refine ⟨?_, fun _ h => hd (by simpa using h), ?_⟩
  · cases u with
    | nil => trivial
    | cons y u => exact ⟨fun h => by (rw [ht] at h; exact Bool.noConfusion h.1), hu.1⟩
  · intro hl x hx
    cases u with
    | nil => cases hx; exact ht
    | cons y u => exact hu.2.2 hl x (by simpa using hx)

theorem fine_dots {f l : Bool} {u : List Tok} (hu : Fine f l u) : Fine true l (.p .dots :: u) := by
  refine ⟨?_, fun h => Bool.noConfusion h, ?_⟩
  · cases u with
    | nil => trivial
    | cons y u => exact ⟨fun h => Bool.noConfusion h.1, hu.1⟩
  · intro hl x hx
    cases u with
    | nil => cases hx; rfl
    | cons y u => exact hu.2.2 hl x (by simpa using hx)

theorem fine_end {q : P} {f l : Bool} {u : List Tok} (hd : q ≠ .dots) (hu : Fine f l u) :
    Fine f false (u ++ [.p q]) := by
  have h1 : Fine false false [Tok.p q] :=
    fine_cons (l := false) (by rintro ⟨⟩; exact hd rfl) rfl (fine_nil false false)
  have h2 := fine_append hu h1 (.inr rfl)
  refine ⟨h2.1, fun hf => h2.2.1 (by simpa using hf), ?_⟩
  intro _ x hx
  rw [List.getLast?_append] at hx
  cases hx
  rfl

theorem fine_weaken {f l : Bool} {u : List Tok} (h : Fine f false u) : Fine f l u :=
  ⟨h.1, h.2.1, fun _ => h.2.2 rfl⟩

theorem fit_then {α β : Type} {f l f2 l2 : Bool} {p : List Tok → R α} {g : α → List Tok → R β}
    (hp : Fit f l p) (hg : ∀ a, Fit f2 l2 (g a)) (h : l = false ∨ f2 = false) :
    Fit (f || f2) (l || l2) (fun ts => (p ts).then g) := by
  intro ts b r e
  obtain ⟨a, r1, h1, h2⟩ := then_inv e
  obtain ⟨t, rfl, hb⟩ := hp ts a r1 h1
  obtain ⟨u, rfl, hc⟩ := hg a r1 b r h2
  exact ⟨t ++ u, by simp, fine_append hb hc h⟩

theorem fit_map {α β : Type} {f l : Bool} {p : List Tok → R α} {g : α → β} (hp : Fit f l p) :
    Fit f l (fun ts => (p ts).map g) := by
  intro ts b r e
  obtain ⟨a, h1, _⟩ := map_inv e
  exact hp ts a r h1

theorem fit_many {α : Type} {f l : Bool} {p : List Tok → R α} (hp : Fit f l p)
    (hfl : l = false ∨ f = false) (m : Nat) : Fit f l (many p m) := by
  induction m with
  | zero => intro ts a r h; cases h
  | succ m ih =>
    intro ts as r h
    rw [many] at h
    cases hx : p ts with
    | ok a r1 =>
      rw [hx] at h
      simp only at h
      cases hy : many p m r1 with
      | ok as' r2 =>
        rw [hy] at h
        cases h
        obtain ⟨t, rfl, hb⟩ := hp ts a r1 hx
        obtain ⟨u, rfl, hc⟩ := ih r1 as' r hy
        refine ⟨t ++ u, by simp, ?_⟩
        have := fine_append hb hc hfl
        rwa [Bool.or_self, Bool.or_self] at this
      | _ => rw [hy] at h; cases h
    | miss => rw [hx] at h; cases h; exact ⟨[], rfl, fine_nil f l⟩
    | fail => rw [hx] at h; cases h
    | crash => rw [hx] at h; cases h

theorem fit_many1 {α : Type} {f l : Bool} {p : List Tok → R α} (hp : Fit f l p)
    (hfl : l = false ∨ f = false) : Fit f l (many1 p) := by
  have := fit_then hp (fun a ts => fit_map (g := (a :: ·)) (fit_many hp hfl (ts.length + 1)) ts) hfl
  rwa [Bool.or_self, Bool.or_self] at this

theorem fine_name (n : Txt) : Fine false false [.name n] :=
  fine_cons (by simp) rfl (fine_nil false false)

theorem fine_one {q : P} (h : q ≠ .dots) : Fine false false [.p q] :=
  fine_cons (by rintro ⟨⟩; exact h rfl) rfl (fine_nil false false)

theorem fit_name : Fit false false pName := by
  intro ts a r h
  exact ⟨[.name a], pName_inv h, fine_name a⟩

theorem fit_p {q : P} (hq : q ≠ .dots) : Fit false false (pP q) := by
  intro ts a r h
  exact ⟨[.p q], pP_inv h, fine_one hq⟩

theorem fit_ident (k : Txt) : Fit false false (pIdent k) := by
  intro ts a r h
  exact ⟨[.name k], pIdent_inv h, fine_name k⟩

theorem fine_any {t : Tok} (h : t ≠ .p .dots) : Fine false true [t] :=
  ⟨trivial, fun _ e => h (by simpa using e), fun e => by cases e⟩

theorem fit_plain : Fit false true (pPlain L) := by
  intro ts a r h
  unfold pPlain at h
  repeat' split at h
  all_goals first | (cases h; exact ⟨[_], rfl, fine_any (by simp)⟩) | cases h

theorem fit_entry {p : List Tok → R (Val F)} (hp : Fit false true p) : Fit false true (pEntry p) :=
  fit_then (l2 := true) fit_name (fun _ => fit_then (fit_p (q := .colon) (by decide))
    (fun _ => fit_map hp) (.inl rfl)) (.inl rfl)

/-- Brackets around what a parser takes. -/
theorem fit_around {p q : P} (hp : p ≠ .dots) (hq : q ≠ .dots) {f l : Bool} {r u r' : List Tok}
    (h : r = u ++ .p q :: r') (hu : Fine f l u) :
    ∃ v, Tok.p p :: r = v ++ r' ∧ Fine false false v := by
  subst h
  exact ⟨.p p :: (u ++ [.p q]), by simp,
    fine_cons (by rintro ⟨⟩; exact hp rfl) rfl (fine_end hq hu)⟩

theorem fit_value (c : Bool) : ∀ n, Fit false true (pValue L c n)
  | 0 => fun ts a r h => by cases h
  | n + 1 => by
    have ih := fit_value c n
    intro ts a r h
    rw [pValue.eq_def] at h
    simp only at h
    split at h
    · next r1 =>
      split at h
      · cases h
      · split at h
        · next v r' e =>
          cases h
          obtain ⟨t, rfl, hb⟩ := fit_name _ _ _ e
          exact ⟨.p .dollar :: t, rfl, fine_weaken (fine_cons (by simp) rfl hb)⟩
        · cases h
    · next r1 =>
      split at h
      · next vs r' e =>
        cases h
        obtain ⟨t, h1, hb⟩ := fit_many ih (.inr rfl) _ _ _ _ e
        obtain ⟨v, e1, e2⟩ := fit_around (p := .lbr) (q := .rbr) (by decide) (by decide) h1 hb
        exact ⟨v, e1, fine_weaken e2⟩
      · cases h
      · cases h
    · next r1 =>
      split at h
      · next vs r' e =>
        cases h
        obtain ⟨t, h1, hb⟩ := fit_many (fit_entry ih) (.inr rfl) _ _ _ _ e
        obtain ⟨v, e1, e2⟩ := fit_around (p := .lcur) (q := .rcur) (by decide) (by decide) h1 hb
        exact ⟨v, e1, fine_weaken e2⟩
      · cases h
      · cases h
    · exact fit_plain ts a r h

theorem fit_args (c : Bool) : Fit false false (pArgs L c) := by
  intro ts a r h
  rw [pArgs.eq_def] at h
  split at h
  · split at h
    · next vs r' e =>
      cases h
      obtain ⟨t, h1, hb⟩ := fit_many1 (fit_entry (fit_value c _)) (.inr rfl) _ _ _ e
      exact fit_around (p := .lpar) (q := .rpar) (by decide) (by decide) h1 hb
    · cases h
    · cases h
  · cases h; exact ⟨[], rfl, fine_nil _ _⟩

theorem fit_dirs (c : Bool) : Fit false false (pDirs L c) := fun ts a r h =>
  fit_many (p := pDir L c) (fit_then (l2 := false) (fit_p (q := .at) (by decide)) (fun _ =>
    fit_then fit_name (fun _ => fit_map (fit_args c)) (.inl rfl)) (.inl rfl)) (.inl rfl) _ _ _ _ h

theorem fit_bang (t : Ty) : Fit false false (pBang t) := by
  intro ts a r h
  unfold pBang at h
  split at h
  · cases h; exact ⟨[_], rfl, fine_one (by decide)⟩
  · cases h; exact ⟨[], rfl, fine_nil _ _⟩

theorem fit_type : ∀ n, Fit false false (pType n)
  | 0 => fun ts a r h => by cases h
  | n + 1 => by
    have ih := fit_type n
    intro ts a r h
    rw [pType.eq_def] at h
    split at h
    · cases h
    · next m nm r1 hm =>
      cases hm
      obtain ⟨t, rfl, hb⟩ := fit_bang _ _ _ _ h
      exact ⟨.name nm :: t, rfl, fine_cons (by simp) rfl hb⟩
    · next m r1 hm =>
      cases hm
      split at h
      · next t r' e =>
        obtain ⟨u, h1, hb⟩ := ih _ _ _ e
        obtain ⟨w, rfl, hw⟩ := fit_bang _ _ _ _ h
        obtain ⟨v, h2, hv⟩ := fit_around (p := .lbr) (q := .rbr) (by decide) (by decide) h1 hb
        exact ⟨v ++ w, by rw [h2]; simp, fine_append hv hw (.inl rfl)⟩
      · cases h
      · cases h
    · cases h

theorem fit_setWith {p : List Tok → R (Sel F)} (hp : Fit true false p) :
    Fit false false (pSetWith p) := by
  intro ts a r h
  rw [pSetWith.eq_def] at h
  split at h
  · split at h
    · next ss r' e =>
      cases h
      obtain ⟨t, h1, hb⟩ := fit_many1 hp (.inl rfl) _ _ _ e
      exact fit_around (p := .lcur) (q := .rcur) (by decide) (by decide) h1 hb
    · cases h
    · cases h
  · cases h

theorem fit_fieldTail {p : List Tok → R (Sel F)} (hp : Fit true false p) (al : Option Txt) (n : Txt) :
    Fit false false (pFieldTail L p al n) := by
  refine fit_then (l2 := false) (fit_args false) (fun as => fit_then (l2 := false) (fit_dirs false)
    (fun ds => ?_) (.inl rfl)) (.inl rfl)
  intro ts a r h
  simp only at h
  split at h
  · next e => cases h; exact fit_setWith hp _ _ _ e
  · cases h; exact ⟨[], rfl, fine_nil _ _⟩
  · cases h
  · cases h

theorem fit_inlineTail {p : List Tok → R (Sel F)} (hp : Fit true false p) (c : Option Txt) :
    Fit false false (pInlineTail L p c) :=
  fit_then (fit_dirs false) (fun _ => fit_map (fit_setWith hp)) (.inl rfl)

theorem fit_dots {p : List Tok → R (Sel F)} (hp : Fit true false p) : Fit false false (pDots L p) := by
  intro ts a r h
  rw [pDots.eq_def] at h
  split at h
  · next n r1 =>
    split at h
    · obtain ⟨t, rfl, hb⟩ := fit_then fit_name (fun c => fit_inlineTail hp (some c)) (.inl rfl) _ _ _ h
      exact ⟨.name n :: t, rfl, fine_cons (by simp) rfl hb⟩
    · obtain ⟨t, rfl, hb⟩ := fit_map (fit_dirs false) _ _ _ h
      exact ⟨.name n :: t, rfl, fine_cons (by simp) rfl hb⟩
  · exact fit_inlineTail hp none _ _ _ h

theorem fine_begin {l : Bool} {u : List Tok} (h : Fine false l u) : Fine true l u :=
  ⟨h.1, fun e => by (cases e), h.2.2⟩

theorem fit_sel : ∀ n, Fit true false (pSel L n)
  | 0 => fun ts a r h => by cases h
  | n + 1 => by
    have ih := fit_sel n
    intro ts a r h
    rw [pSel.eq_def] at h
    simp only at h
    split at h
    · next al r1 =>
      split at h
      · next nm r' e =>
        obtain ⟨t, rfl, hb⟩ := fit_name _ _ _ e
        obtain ⟨u, rfl, hc⟩ := fit_fieldTail ih _ _ _ _ _ (taken_inv h)
        refine ⟨.name al :: .p .colon :: (t ++ u), by simp, fine_begin ?_⟩
        exact fine_cons (f := false) (by simp) rfl
          (fine_cons (by simp) rfl (fine_append hb hc (.inl rfl)))
      · cases h
    · next nm r1 _ =>
      obtain ⟨t, rfl, hb⟩ := fit_fieldTail ih _ _ _ _ _ (taken_inv h)
      exact ⟨.name nm :: t, rfl, fine_begin (fine_cons (by simp) rfl hb)⟩
    · obtain ⟨t, rfl, hb⟩ := fit_dots ih _ _ _ (taken_inv h)
      exact ⟨.p .dots :: t, rfl, fine_dots hb⟩
    · cases h

theorem fit_set : Fit false false (pSet L) := fun ts a r h => fit_setWith (fit_sel _) ts a r h

theorem fit_default : Fit false true (pDefault L) := by
  intro ts a r h
  rw [pDefault.eq_def] at h
  split at h
  · obtain ⟨t, rfl, hb⟩ := fit_map (fit_value true _) _ _ _ (taken_inv h)
    exact ⟨.p .eq :: t, rfl, fine_cons (by simp) rfl hb⟩
  · cases h; exact ⟨[], rfl, fine_nil _ _⟩

theorem fit_var : Fit false true (pVar L) := by
  refine fit_then (l2 := true) (fit_p (q := .dollar) (by decide)) (fun _ => fit_then (l2 := true) fit_name
    (fun n => fit_then (l2 := true) (fit_p (q := .colon) (by decide)) (fun _ => ?_) (.inl rfl)) (.inl rfl))
    (.inl rfl)
  intro ts a r h
  refine fit_then (l2 := true) (fit_type (ts.length + 1)) (fun t => fit_then (f2 := false) (l2 := true)
    fit_default (fun d => ?_) (.inr rfl)) (.inl rfl) ts a r h
  intro ts a r h
  simp only at h
  split at h
  · obtain ⟨t, e, hb⟩ := fit_map (fit_dirs true) _ _ _ h
    exact ⟨t, e, fine_weaken hb⟩
  · cases h; exact ⟨[], rfl, fine_nil _ _⟩

theorem fit_vars : Fit false false (pVars L) := by
  intro ts a r h
  rw [pVars.eq_def] at h
  split at h
  · split at h
    · next vs r' e =>
      cases h
      obtain ⟨t, h1, hb⟩ := fit_many1 fit_var (.inr rfl) _ _ _ e
      exact fit_around (p := .lpar) (q := .rpar) (by decide) (by decide) h1 hb
    · cases h
    · cases h
  · cases h; exact ⟨[], rfl, fine_nil _ _⟩

theorem fit_optName : Fit false false pOptName := by
  intro ts a r h
  unfold pOptName at h
  split at h
  · cases h; exact ⟨[_], rfl, fine_name _⟩
  · cases h; exact ⟨[], rfl, fine_nil _ _⟩

theorem fit_common (k : Kind) : Fit false false (pCommon L k) :=
  fit_then (l2 := false) fit_optName (fun _ => fit_then (l2 := false) fit_vars (fun _ =>
    fit_then (fit_dirs false) (fun _ => fit_map fit_set) (.inl rfl)) (.inl rfl)) (.inl rfl)

theorem fit_frag : Fit false false (pFrag L) :=
  fit_then (l2 := false) fit_name (fun _ => fit_then (l2 := false) (fit_ident _) (fun _ =>
    fit_then (l2 := false) fit_name (fun _ => fit_then (fit_dirs false) (fun _ => fit_map fit_set)
      (.inl rfl)) (.inl rfl)) (.inl rfl)) (.inl rfl)

theorem fit_def : Fit false false (pDef L) := by
  intro ts a r h
  rw [pDef.eq_def] at h
  split at h
  · next k r1 =>
    have key : (∃ t, r1 = t ++ r ∧ Fine false false t) →
        ∃ t, Tok.name k :: r1 = t ++ r ∧ Fine false false t := by
      rintro ⟨t, rfl, hb⟩
      exact ⟨.name k :: t, rfl, fine_cons (by simp) rfl hb⟩
    split at h
    · exact key (fit_common .query _ _ _ (taken_inv h))
    split at h
    · exact key (fit_common .mutation _ _ _ (taken_inv h))
    split at h
    · exact key (fit_common .subscription _ _ _ (taken_inv h))
    split at h
    · exact key (fit_frag _ _ _ (taken_inv h))
    · cases h
  · exact fit_map fit_set _ _ _ h

theorem accepted_spread {ts : List Tok} {d : Doc F} (h : parseToks L ts = .document d) : Spread ts := by
  unfold parseToks at h
  split at h
  · next d' e =>
    obtain ⟨t, rfl, hb⟩ := fit_many1 fit_def (.inl rfl) _ _ _ e
    rw [List.append_nil]
    exact hb.1
  · cases h
  · cases h

end Verif.Text
