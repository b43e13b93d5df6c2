import Verif.Text.Complete
/-!
# What the parser accepts is in the grammar
-/
namespace Verif.Text

section
variable {F : Type} {S : Floats F} {L : Lits F}

/-- If the literal of a token is read at all, it is read as the language says. -/
def Agrees (S : Floats F) (L : Lits F) : Tok → Prop
  | .int raw => ∀ i, L.int raw = some i → i = intOf raw
  | .float raw => ∀ f, L.float raw = some f → f = S.read raw ∧ IsFloat raw
  | .str raw => ∀ s, L.str raw = some s → StrChars raw s
  | .block raw => ∀ s, L.block raw = some s → s = blockValue raw
  | _ => True

def AllAgree (S : Floats F) (L : Lits F) (ts : List Tok) : Prop := ∀ t ∈ ts, Agrees S L t

theorem AllAgree.right {t u : List Tok} (h : AllAgree S L (t ++ u)) : AllAgree S L u :=
  fun x hx => h x (List.mem_append_right _ hx)
theorem AllAgree.tail {t : Tok} {u : List Tok} (h : AllAgree S L (t :: u)) :
    AllAgree S L u := fun x hx => h x (List.mem_cons_of_mem _ hx)

theorem then_inv {α β : Type} {o : R α} {f : α → List Tok → R β} {b : β} {r : List Tok}
    (h : o.then f = .ok b r) : ∃ a r1, o = .ok a r1 ∧ f a r1 = .ok b r := by
  cases o with
  | ok a r1 =>
    refine ⟨a, r1, rfl, ?_⟩
    simp only [R.then] at h
    cases hf : f a r1 with
    | ok b' r' => rw [hf] at h; exact h
    | _ => rw [hf] at h; cases h
  | _ => cases h

theorem map_inv {α β : Type} {o : R α} {f : α → β} {b : β} {r : List Tok}
    (h : o.map f = .ok b r) : ∃ a, o = .ok a r ∧ f a = b := by
  cases o with
  | ok a r1 => cases h; exact ⟨a, rfl, rfl⟩
  | _ => cases h

theorem taken_inv {α : Type} {o : R α} {b : α} {r : List Tok} (h : o.taken = .ok b r) :
    o = .ok b r := by
  cases o with
  | ok a r1 => exact h
  | _ => cases h

theorem pName_inv {ts r : List Tok} {n : Txt} (h : pName ts = .ok n r) : ts = .name n :: r := by
  unfold pName at h
  split at h
  · cases h; rfl
  · cases h

theorem pP_inv {p : P} {ts r : List Tok} {u : Unit} (h : pP p ts = .ok u r) : ts = .p p :: r := by
  unfold pP at h
  split at h
  · split at h
    · next e => cases h; rw [e]
    · cases h
  · cases h

theorem pIdent_inv {k : Txt} {ts r : List Tok} {u : Unit} (h : pIdent k ts = .ok u r) :
    ts = .name k :: r := by
  unfold pIdent at h
  split at h
  · split at h
    · next e => cases h; rw [e]
    · cases h
  · cases h

/-- A parser takes tokens that a relation gives. -/
def Takes {α : Type} (S : Floats F) (L : Lits F) (p : List Tok → R α) (G : List Tok → α → Prop) : Prop :=
  ∀ ts a r, AllAgree S L ts → p ts = .ok a r → ∃ t, ts = t ++ r ∧ G t a

theorem many_takes {α : Type} {p : List Tok → R α} {G : List Tok → α → Prop}
    {Gs : List Tok → List α → Prop} (h : Takes S L p G) (hn : Gs [] [])
    (hc : ∀ t ts a as, G t a → Gs ts as → Gs (t ++ ts) (a :: as)) (m : Nat) :
    Takes S L (many p m) Gs := by
  induction m with
  | zero => intro ts a r _ h; cases h
  | succ m ih =>
    intro ts as r ha hp
    rw [many] at hp
    cases hx : p ts with
    | ok a r1 =>
      rw [hx] at hp
      simp only at hp
      cases hy : many p m r1 with
      | ok as' r2 =>
        rw [hy] at hp
        cases hp
        obtain ⟨t, rfl, hg⟩ := h ts a r1 ha hx
        obtain ⟨t2, rfl, hg2⟩ := ih r1 as' r ha.right hy
        exact ⟨t ++ t2, by rw [List.append_assoc], hc _ _ _ _ hg hg2⟩
      | _ => rw [hy] at hp; cases hp
    | miss => rw [hx] at hp; cases hp; exact ⟨[], rfl, hn⟩
    | fail => rw [hx] at hp; cases hp
    | crash => rw [hx] at hp; cases hp

theorem many1_takes {α : Type} {p : List Tok → R α} {G : List Tok → α → Prop}
    {Gs : List Tok → List α → Prop} (h : Takes S L p G) (hn : Gs [] [])
    (hc : ∀ t ts a as, G t a → Gs ts as → Gs (t ++ ts) (a :: as)) :
    Takes S L (many1 p) (fun t as => as ≠ [] ∧ Gs t as) := by
  intro ts as r ha hp
  unfold many1 at hp
  obtain ⟨a, r1, h1, h2⟩ := then_inv hp
  obtain ⟨as', h3, h4⟩ := map_inv h2
  subst h4
  obtain ⟨t, rfl, hg⟩ := h ts a r1 ha h1
  obtain ⟨t2, rfl, hg2⟩ := many_takes h hn hc _ r1 as' r ha.right h3
  exact ⟨t ++ t2, by rw [List.append_assoc], by simp, hc _ _ _ _ hg hg2⟩

theorem pPlain_takes (c : Bool) : Takes S L (pPlain L) (GVal S c) := by
  intro ts v r ha h
  unfold pPlain at h
  split at h
  · split at h
    · next e => cases h; subst e; exact ⟨[_], rfl, .tru c⟩
    split at h
    · next e => cases h; subst e; exact ⟨[_], rfl, .fals c⟩
    split at h
    · next e => cases h; subst e; exact ⟨[_], rfl, .null c⟩
    · next n _ h1 h2 h3 => cases h; exact ⟨[.name n], rfl, .enum c n h1 h2 h3⟩
  · next raw _ =>
    split at h
    · next i e =>
      cases h
      have := ha (.int raw) (by simp) i e
      subst this
      exact ⟨[_], rfl, .int c raw⟩
    · cases h
  · next raw _ =>
    split at h
    · next i e =>
      cases h
      obtain ⟨this, hf⟩ := ha (.float raw) (by simp) i e
      subst this
      exact ⟨[_], rfl, .float c raw hf⟩
    · cases h
  · next raw _ =>
    split at h
    · next s e =>
      cases h
      exact ⟨[_], rfl, .str c raw s (ha (.str raw) (by simp) s e)⟩
    · cases h
  · next raw _ =>
    split at h
    · next s e =>
      cases h
      have := ha (.block raw) (by simp) s e
      subst this
      exact ⟨[_], rfl, .block c raw⟩
    · cases h
  · cases h

/-- One entry. -/
def GEntry (S : Floats F) (c : Bool) (t : List Tok) (e : Txt × Val F) : Prop :=
  ∃ u, t = .name e.1 :: .p .colon :: u ∧ GVal S c u e.2

theorem pEntry_takes {c : Bool} {p : List Tok → R (Val F)} (h : Takes S L p (GVal S c)) :
    Takes S L (pEntry p) (GEntry S c) := by
  intro ts e r ha hp
  unfold pEntry at hp
  obtain ⟨n, r1, h1, h2⟩ := then_inv hp
  obtain ⟨_, r2, h3, h4⟩ := then_inv h2
  obtain ⟨v, h5, rfl⟩ := map_inv h4
  have e1 := pName_inv h1
  have e2 := pP_inv h3
  subst e1 e2
  obtain ⟨t, rfl, hg⟩ := h r2 v r ha.tail.tail h5
  exact ⟨.name n :: .p .colon :: t, rfl, t, rfl, hg⟩

theorem gentries_cons {c : Bool} (t ts : List Tok) (e : Txt × Val F) (es : List (Txt × Val F))
    (h : GEntry S c t e) (hs : GEntries S c ts es) : GEntries S c (t ++ ts) (e :: es) := by
  obtain ⟨u, rfl, hg⟩ := h
  exact .cons c e.1 u ts e.2 es hg hs

theorem pValue_takes (c : Bool) : ∀ n, Takes S L (pValue L c n) (GVal S c)
  | 0 => by intro ts v r _ h; cases h
  | n + 1 => by
    have ih := pValue_takes c n
    intro ts v r ha h
    rw [pValue.eq_def] at h
    simp only at h
    split at h
    · split at h
      · cases h
      · next hc =>
        have hc : c = false := by simpa using hc
        subst hc
        split at h
        · next m r' e =>
          cases h
          have := pName_inv e
          subst this
          exact ⟨[.p .dollar, .name m], rfl, .var m⟩
        · cases h
    · next r0 =>
      split at h
      · next vs r' e =>
        cases h
        obtain ⟨t, e2, hg⟩ := many_takes (Gs := GVals S c) ih (.nil c)
          (fun t ts a as h1 h2 => .cons c t ts a as h1 h2) _ r0 vs _ ha.tail e
        subst e2
        exact ⟨.p .lbr :: t ++ [.p .rbr], by simp, .list c t vs hg⟩
      · cases h
      · cases h
    · next r0 =>
      split at h
      · next fs r' e =>
        cases h
        obtain ⟨t, e2, hg⟩ := many_takes (Gs := GEntries S c) (pEntry_takes ih) (.nil c)
          gentries_cons _ r0 fs _ ha.tail e
        subst e2
        exact ⟨.p .lcur :: t ++ [.p .rcur], by simp, .obj c t fs hg⟩
      · cases h
      · cases h
    · exact pPlain_takes c ts v r ha h

theorem pArgs_takes (c : Bool) : Takes S L (pArgs L c) (GArgs S c) := by
  intro ts as r ha h
  unfold pArgs at h
  split at h
  · next r0 =>
    split at h
    · next as' r' e =>
      cases h
      obtain ⟨t, e2, hne, hg⟩ := many1_takes (Gs := GEntries S c)
        (pEntry_takes (pValue_takes c _)) (.nil c) gentries_cons r0 as _ ha.tail e
      subst e2
      exact ⟨.p .lpar :: t ++ [.p .rpar], by simp, .some c t as hne hg⟩
    · cases h
    · cases h
  · cases h; exact ⟨[], rfl, .none c⟩

def GDir (S : Floats F) (c : Bool) (t : List Tok) (d : Dir F) : Prop :=
  ∃ u, t = .p .at :: .name d.name :: u ∧ GArgs S c u d.args

theorem pDirs_takes (c : Bool) : Takes S L (pDirs L c) (GDirs S c) := by
  have h1 : Takes S L (pDir L c) (GDir S c) := by
    intro ts d r ha h
    unfold pDir at h
    obtain ⟨_, r1, h1, h2⟩ := then_inv h
    obtain ⟨n, r2, h3, h4⟩ := then_inv h2
    obtain ⟨as, h5, rfl⟩ := map_inv h4
    have e1 := pP_inv h1
    have e2 := pName_inv h3
    subst e1 e2
    obtain ⟨t, rfl, hg⟩ := pArgs_takes c r2 as r ha.tail.tail h5
    exact ⟨.p .at :: .name n :: t, rfl, t, rfl, hg⟩
  intro ts ds r ha h
  refine many_takes (Gs := GDirs S c) h1 (.nil c) ?_ _ ts ds r ha h
  rintro t ts d ds ⟨u, rfl, hg⟩ hs
  exact .cons c d.name u ts d.args ds hg hs

theorem pBang_inv {t ty : Ty} {u ts r : List Tok} (hg : GType u t) (hn : ∀ v, t ≠ .nonNull v)
    (h : pBang t ts = .ok ty r) : ∃ u', u ++ ts = u' ++ r ∧ GType u' ty := by
  unfold pBang at h
  split at h
  · cases h; exact ⟨u ++ [.p .bang], by simp, .nonNull u t hg hn⟩
  · cases h; exact ⟨u, rfl, hg⟩

theorem pType_inv : ∀ (n : Nat) (ts : List Tok) (ty : Ty) (r : List Tok), pType n ts = .ok ty r →
    ∃ u, ts = u ++ r ∧ GType u ty
  | 0, ts, ty, r, h => by cases h
  | n + 1, ts, ty, r, h => by
    cases ts with
    | nil => cases h
    | cons a r0 =>
      cases a with
      | name m => exact pBang_inv (u := [_]) (.named _) (by intro v h; cases h) h
      | p q =>
        cases q with
        | lbr =>
          rw [pType] at h
          split at h
          · next t r' e2 =>
            obtain ⟨u, rfl, hg⟩ := pType_inv n _ t _ e2
            have := pBang_inv (.list u t hg) (by intro v h; cases h) h
            simpa using this
          · cases h
          · cases h
        | _ => cases h
      | _ => cases h

theorem pSetWith_takes {p : List Tok → R (Sel F)} (h : Takes S L p (GSel S)) :
    Takes S L (pSetWith p) (GSet S) := by
  intro ts ss r ha hp
  unfold pSetWith at hp
  split at hp
  · next r0 =>
    split at hp
    · next ss' r' e =>
      cases hp
      obtain ⟨t, e2, hne, hg⟩ := many1_takes (Gs := GSels S) h .nil
        (fun t ts a as h1 h2 => .cons t ts a as h1 h2) r0 ss _ ha.tail e
      subst e2
      exact ⟨.p .lcur :: t ++ [.p .rcur], by simp, .mk t ss hne hg⟩
    · cases hp
    · cases hp
  · cases hp

theorem pFieldTail_takes {p : List Tok → R (Sel F)} (h : Takes S L p (GSel S)) {ta : List Tok}
    {al : Option Txt} (n : Txt) (hal : GAlias ta al) : ∀ ts s r, AllAgree S L ts →
    pFieldTail L p al n ts = .ok s r →
    ∃ t, ta ++ .name n :: ts = t ++ r ∧ GSel S t s := by
  intro ts s r ha hp
  unfold pFieldTail at hp
  obtain ⟨as, r1, h1, h2⟩ := then_inv hp
  obtain ⟨ds, r2, h3, h4⟩ := then_inv h2
  obtain ⟨t, rfl, hg⟩ := pArgs_takes false ts as r1 ha h1
  obtain ⟨d, rfl, hd⟩ := pDirs_takes false r1 ds r2 ha.right h3
  split at h4
  · next ss r'' e =>
    cases h4
    obtain ⟨b, rfl, hb⟩ := pSetWith_takes h r2 ss r ha.right.right e
    exact ⟨_, by simp, .field al n ta t d b as ds ss hal hg hd hb⟩
  · cases h4
    exact ⟨_, by simp, .leaf al n ta t d as ds hal hg hd⟩
  · cases h4
  · cases h4

theorem pInlineTail_inv {p : List Tok → R (Sel F)} (h : Takes S L p (GSel S)) {c : Option Txt} :
    ∀ ts s r, AllAgree S L ts → pInlineTail L p c ts = .ok s r →
    ∃ d b ds ss, ts = d ++ b ++ r ∧ GDirs S false d ds ∧ GSet S b ss ∧ s = .inline c ds ss := by
  intro ts s r ha hp
  unfold pInlineTail at hp
  obtain ⟨ds, r1, h1, h2⟩ := then_inv hp
  obtain ⟨ss, h3, rfl⟩ := map_inv h2
  obtain ⟨d, rfl, hd⟩ := pDirs_takes false ts ds r1 ha h1
  obtain ⟨b, rfl, hb⟩ := pSetWith_takes h r1 ss r ha.right h3
  exact ⟨d, b, ds, ss, by simp, hd, hb, rfl⟩

theorem pSel_takes : ∀ n, Takes S L (pSel L n) (GSel S)
  | 0 => by intro ts v r _ h; cases h
  | n + 1 => by
    have ih := pSel_takes n
    intro ts s r ha h
    rw [pSel.eq_def] at h
    simp only at h
    split at h
    · next a r0 =>
      split at h
      · next nm r' e =>
        have := pName_inv e
        subst this
        have := pFieldTail_takes ih nm (.some a) r' s r ha.tail.tail.tail (taken_inv h)
        simpa using this
      · cases h
    · next nm r0 _ =>
      exact pFieldTail_takes ih nm .none r0 s r ha.tail (taken_inv h)
    · next r0 =>
      have h := taken_inv h
      unfold pDots at h
      split at h
      · next n' r1 =>
        split at h
        · next e =>
          subst e
          obtain ⟨c, r2, h1, h2⟩ := then_inv h
          have e1 := pName_inv h1
          subst e1
          obtain ⟨d, b, ds, ss, rfl, hd, hb, rfl⟩ := pInlineTail_inv ih r2 s r ha.tail.tail.tail h2
          exact ⟨.p .dots :: .name kwOn :: .name c :: d ++ b, by simp [kwOn], .inlineOn c d b ds ss hd hb⟩
        · rename_i hne
          obtain ⟨ds, h1, rfl⟩ := map_inv h
          obtain ⟨d, rfl, hd⟩ := pDirs_takes false _ ds r ha.tail.tail h1
          exact ⟨.p .dots :: .name _ :: d, rfl, .spread _ d ds hne hd⟩
      · obtain ⟨d, b, ds, ss, e, hd, hb, rfl⟩ := pInlineTail_inv ih r0 s r ha.tail h
        subst e
        exact ⟨.p .dots :: d ++ b, by simp, .inline d b ds ss hd hb⟩
    · cases h

theorem pSet_takes : Takes S L (pSet L) (GSet S) := by
  intro ts ss r ha h
  exact pSetWith_takes (pSel_takes _) ts ss r ha h

theorem pDefault_takes : Takes S L (pDefault L) (GDefault S) := by
  intro ts v r ha h
  unfold pDefault at h
  split at h
  · next r0 =>
    obtain ⟨v', h1, rfl⟩ := map_inv (taken_inv h)
    obtain ⟨t, rfl, hg⟩ := pValue_takes true _ r0 v' r ha.tail h1
    exact ⟨.p .eq :: t, rfl, .some t v' hg⟩
  · cases h; exact ⟨[], rfl, .none⟩

/-- One variable. -/
def GVarDef (S : Floats F) (t : List Tok) (v : VarDef F) : Prop :=
  ∃ u d e, t = .p .dollar :: .name v.name :: .p .colon :: u ++ d ++ e ∧ GType u v.ty ∧
    GDefault S d v.default ∧ GDirs S true e v.dirs

theorem pVar_takes : Takes S L (pVar L) (GVarDef S) := by
  intro ts v r ha h
  unfold pVar at h
  obtain ⟨_, r1, h1, g⟩ := then_inv h
  clear h
  obtain ⟨n, r2, h2, h⟩ := then_inv g
  clear g
  obtain ⟨_, r3, h3, g⟩ := then_inv h
  clear h
  obtain ⟨ty, r4, h4, h⟩ := then_inv g
  clear g
  obtain ⟨dv, r5, h5, g⟩ := then_inv h
  clear h
  have e1 := pP_inv h1
  have e2 := pName_inv h2
  have e3 := pP_inv h3
  subst e1 e2 e3
  obtain ⟨u, rfl, hu⟩ := pType_inv _ _ ty r4 h4
  have ha' : AllAgree S L (u ++ r4) := ha.tail.tail.tail
  obtain ⟨d, rfl, hd⟩ := pDefault_takes r4 dv r5 ha'.right h5
  split at g
  · obtain ⟨ds, h6, rfl⟩ := map_inv g
    obtain ⟨e, rfl, he⟩ := pDirs_takes true r5 ds r ha'.right.right h6
    exact ⟨.p .dollar :: .name n :: .p .colon :: u ++ d ++ e, by simp, u, d, e, rfl, hu, hd, he⟩
  · cases g
    exact ⟨.p .dollar :: .name n :: .p .colon :: u ++ d ++ [], by simp, u, d, [], rfl, hu, hd, .nil true⟩

theorem pVars_takes : Takes S L (pVars L) (GVarDefs S) := by
  intro ts vs r ha h
  unfold pVars at h
  split at h
  · next r0 =>
    split at h
    · next vs' r' e =>
      cases h
      obtain ⟨t, e2, hne, hg⟩ := many1_takes (Gs := GVars S) pVar_takes .nil
        (by
          rintro t ts v vs ⟨u, d, e, rfl, h1, h2, h3⟩ hs
          exact .cons v.name u d e ts v.ty v.default v.dirs vs h1 h2 h3 hs) r0 vs _ ha.tail e
      subst e2
      exact ⟨.p .lpar :: t ++ [.p .rpar], by simp, .some t vs hne hg⟩
    · cases h
    · cases h
  · cases h; exact ⟨[], rfl, .none⟩

/-- A fragment is not named `on`. -/
def NotOn : Def F → Prop
  | .frag n _ _ _ => n ≠ kwOn
  | _ => True

theorem pCommon_inv {k : Kind} : ∀ ts d r, AllAgree S L ts → pCommon L k ts = .ok d r →
    ∃ t, ts = t ++ r ∧ GDef S (.name (kwKind k) :: t) d := by
  intro ts d r ha h
  unfold pCommon at h
  obtain ⟨nm, r1, h1, h⟩ := then_inv h
  obtain ⟨vs, r2, h2, h⟩ := then_inv h
  obtain ⟨ds, r3, h3, h⟩ := then_inv h
  obtain ⟨ss, h4, rfl⟩ := map_inv h
  obtain ⟨tn, rfl, hn⟩ : ∃ tn, ts = tn ++ r1 ∧ GOpName tn nm := by
    unfold pOptName at h1
    split at h1
    · cases h1; exact ⟨[_], rfl, .some _⟩
    · cases h1; exact ⟨[], rfl, .none⟩
  obtain ⟨tv, rfl, hv⟩ := pVars_takes r1 vs r2 ha.right h2
  obtain ⟨td, rfl, hd⟩ := pDirs_takes false r2 ds r3 ha.right.right h3
  obtain ⟨b, rfl, hb⟩ := pSet_takes r3 ss r ha.right.right.right h4
  exact ⟨tn ++ tv ++ td ++ b, by simp, .op k nm tn tv td b vs ds ss hn hv hd hb⟩

theorem pDef_takes : Takes S L (pDef L) (fun t d => NotOn d → GDef S t d) := by
  intro ts d r ha h
  unfold pDef at h
  split at h
  · next k r0 =>
    split at h
    · next e =>
      subst e
      obtain ⟨t, rfl, hg⟩ := pCommon_inv r0 d r ha.tail (taken_inv h)
      exact ⟨_ :: t, rfl, fun _ => hg⟩
    split at h
    · next e =>
      subst e
      obtain ⟨t, rfl, hg⟩ := pCommon_inv r0 d r ha.tail (taken_inv h)
      exact ⟨_ :: t, rfl, fun _ => hg⟩
    split at h
    · next e =>
      subst e
      obtain ⟨t, rfl, hg⟩ := pCommon_inv r0 d r ha.tail (taken_inv h)
      exact ⟨_ :: t, rfl, fun _ => hg⟩
    split at h
    · next e =>
      subst e
      have h := taken_inv h
      unfold pFrag at h
      obtain ⟨n, r1, h1, h⟩ := then_inv h
      obtain ⟨_, r2, h2, h⟩ := then_inv h
      obtain ⟨c, r3, h3, h⟩ := then_inv h
      obtain ⟨ds, r4, h4, h⟩ := then_inv h
      obtain ⟨ss, h5, rfl⟩ := map_inv h
      have e1 := pName_inv h1
      have e2 := pIdent_inv h2
      have e3 := pName_inv h3
      subst e1 e2 e3
      obtain ⟨td, rfl, hd⟩ := pDirs_takes false r3 ds r4 ha.tail.tail.tail.tail h4
      have ha' : AllAgree S L (td ++ r4) := ha.tail.tail.tail.tail
      obtain ⟨b, rfl, hb⟩ := pSet_takes r4 ss r ha'.right h5
      exact ⟨.name kwFragment :: .name n :: .name kwOn :: .name c :: td ++ b, by simp [kwFragment, kwOn],
        fun hn => .frag n c td b ds ss hn hd hb⟩
    · cases h
  · obtain ⟨ss, h1, rfl⟩ := map_inv h
    obtain ⟨b, rfl, hb⟩ := pSet_takes ts ss r ha h1
    exact ⟨b, rfl, fun _ => .short b ss hb⟩

/-- What is accepted is in the grammar. -/
theorem parse_sound {ts : List Tok} {d : Doc F} (ha : AllAgree S L ts)
    (h : parseToks L ts = .document d) (hn : ∀ x ∈ d, NotOn x) : GDoc S ts d := by
  unfold parseToks at h
  split at h
  · next d' e =>
    cases h
    obtain ⟨t, e2, hne, hg⟩ := many1_takes
      (Gs := fun t d => (∀ x ∈ d, NotOn x) → GDefs S t d) pDef_takes (fun _ => .nil)
      (fun t ts d ds h1 h2 hn => .cons t ts d ds (h1 (hn d (by simp))) (h2 fun x hx => hn x (by simp [hx])))
      ts d [] ha e
    rw [List.append_nil] at e2
    subst e2
    exact ⟨hne, hg hn⟩
  · cases h
  · cases h

end
end Verif.Text
