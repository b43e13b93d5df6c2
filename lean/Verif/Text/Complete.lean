import Verif.Text.Spec
import Verif.Text.Parse
import Mathlib.Tactic.Tauto
/-!
# The parser finds every derivation
-/
namespace Verif.Text

section
variable {F : Type} {S : Floats F} {L : Lits F}

/-- The literal of a token is read as the language says. -/
def Faithful (S : Floats F) (L : Lits F) : Tok → Prop
  | .int raw => L.int raw = some (intOf raw)
  | .float raw => L.float raw = some (S.read raw)
  | .str raw => ∀ s, L.str raw = some s ↔ StrChars raw s
  | .block raw => L.block raw = some (blockValue raw)
  | _ => True

def AllFaithful (S : Floats F) (L : Lits F) (ts : List Tok) : Prop := ∀ t ∈ ts, Faithful S L t

theorem AllFaithful.left {t u : List Tok} (h : AllFaithful S L (t ++ u)) : AllFaithful S L t :=
  fun x hx => h x (List.mem_append_left _ hx)
theorem AllFaithful.right {t u : List Tok} (h : AllFaithful S L (t ++ u)) : AllFaithful S L u :=
  fun x hx => h x (List.mem_append_right _ hx)
theorem AllFaithful.tail {t : Tok} {u : List Tok} (h : AllFaithful S L (t :: u)) :
    AllFaithful S L u := fun x hx => h x (List.mem_cons_of_mem _ hx)

/-- Tokens that do not begin with a punctuator. -/
def NotP (p : P) (ts : List Tok) : Prop := ∀ r, ts ≠ .p p :: r

theorem notP_cons {p q : P} {r : List Tok} (h : p ≠ q) : NotP p (.p q :: r) := by
  intro s e
  cases e
  exact h rfl

theorem notP_name {p : P} {n : Txt} {r : List Tok} : NotP p (.name n :: r) := by
  intro s e
  cases e

theorem notP_nil {p : P} : NotP p [] := by
  intro s e
  cases e

theorem gval_ne {c : Bool} {t : List Tok} {v : Val F} (h : GVal S c t v) : 1 ≤ t.length := by
  cases h <;> simp

theorem many_nil {α : Type} {p : List Tok → R α} {m : Nat} {ts : List Tok} (h : p ts = .miss) :
    many p (m + 1) ts = .ok [] ts := by rw [many, h]

theorem many_cons {α : Type} {p : List Tok → R α} {m : Nat} {ts r r' : List Tok} {a : α}
    {as : List α} (h : p ts = .ok a r) (h' : many p m r = .ok as r') :
    many p (m + 1) ts = .ok (a :: as) r' := by rw [many, h]; simp only [h']

theorem many1_of {α : Type} {p : List Tok → R α} {ts r r' : List Tok} {a : α}
    {as : List α} (h : p ts = .ok a r) (h' : many p (r.length + 1) r = .ok as r') :
    many1 p ts = .ok (a :: as) r' := by
  rw [many1, h]
  simp only [R.then, h', R.map]

theorem pEntry_of {p : List Tok → R (Val F)} {n : Txt} {ts r : List Tok} {v : Val F}
    (h : p ts = .ok v r) : pEntry p (.name n :: .p .colon :: ts) = .ok (n, v) r := by
  simp [pEntry, pName, pP, R.then, h, R.map]

theorem pPlain_name {n : Txt} {rest : List Tok} (h1 : n ≠ kwTrue) (h2 : n ≠ kwFalse)
    (h3 : n ≠ kwNull) : pPlain L (.name n :: rest) = .ok (.enum n) rest := by
  unfold pPlain
  simp only
  exact (if_neg h1).trans ((if_neg h2).trans (if_neg h3))

mutual
theorem pValue_complete {c : Bool} : ∀ {t : List Tok} {v : Val F}, GVal S c t v →
    AllFaithful S L t → ∀ (n : Nat) (rest : List Tok), t.length ≤ n →
    pValue L c n (t ++ rest) = .ok v rest
  | _, _, .var m, _, n, rest, hn => by
    cases n with
    | zero => simp at hn
    | succ n => rfl
  | _, _, .int _ raw, hf, n, rest, hn => by
    cases n with
    | zero => simp at hn
    | succ n =>
      have h : L.int raw = some (intOf raw) := hf (.int raw) (by simp)
      simp [pValue, pPlain, h]
  | _, _, .float _ raw _, hf, n, rest, hn => by
    cases n with
    | zero => simp at hn
    | succ n =>
      have h : L.float raw = some (S.read raw) := hf (.float raw) (by simp)
      simp [pValue, pPlain, h]
  | _, _, .str _ raw s hs, hf, n, rest, hn => by
    cases n with
    | zero => simp at hn
    | succ n =>
      have h : L.str raw = some s := (hf (.str raw) (by simp) s).2 hs
      simp [pValue, pPlain, h]
  | _, _, .block _ raw, hf, n, rest, hn => by
    cases n with
    | zero => simp at hn
    | succ n =>
      have h : L.block raw = some (blockValue raw) := hf (.block raw) (by simp)
      simp [pValue, pPlain, h]
  | _, _, .tru _, _, n, rest, hn => by
    cases n with
    | zero => simp at hn
    | succ n => rfl
  | _, _, .fals _, _, n, rest, hn => by
    cases n with
    | zero => simp at hn
    | succ n => rfl
  | _, _, .null _, _, n, rest, hn => by
    cases n with
    | zero => simp at hn
    | succ n => rfl
  | _, _, .enum _ e h1 h2 h3, _, n, rest, hn => by
    cases n with
    | zero => simp at hn
    | succ n => exact pPlain_name (L := L) h1 h2 h3
  | _, _, .list _ ts vs h, hf, n, rest, hn => by
    cases n with
    | zero => simp at hn
    | succ n =>
      have hm := pValues_complete h hf.tail.left n ((ts ++ .p .rbr :: rest).length + 1)
        (.p .rbr :: rest) (by simp at hn; omega) (by simp; omega)
        (by
          cases n with
          | zero => simp at hn
          | succ n => rfl)
      simp [pValue] at hm ⊢
      rw [hm]
  | _, _, .obj _ ts fs h, hf, n, rest, hn => by
    cases n with
    | zero => simp at hn
    | succ n =>
      have hm := pEntries_complete h hf.tail.left n ((ts ++ .p .rcur :: rest).length + 1)
        (.p .rcur :: rest) (by simp at hn; omega) (by simp; omega) (fun p => rfl)
      simp [pValue] at hm ⊢
      rw [hm]
theorem pValues_complete {c : Bool} : ∀ {ts : List Tok} {vs : List (Val F)}, GVals S c ts vs →
    AllFaithful S L ts → ∀ (n m : Nat) (rest : List Tok), ts.length ≤ n → ts.length < m →
    pValue L c n rest = .miss → many (pValue L c n) m (ts ++ rest) = .ok vs rest
  | _, _, .nil _, _, n, m, rest, hn, hm, hr => by
    cases m with
    | zero => simp at hm
    | succ m => exact many_nil hr
  | _, _, .cons _ t ts v vs hv hvs, hf, n, m, rest, hn, hm, hr => by
    cases m with
    | zero => simp at hm
    | succ m =>
      have h1 := gval_ne hv
      rw [List.length_append] at hn hm
      rw [List.append_assoc]
      exact many_cons (pValue_complete hv hf.left n _ (by omega))
        (pValues_complete hvs hf.right n m rest (by omega) (by omega) hr)
theorem pEntries_complete {c : Bool} : ∀ {ts : List Tok} {fs : List (Txt × Val F)},
    GEntries S c ts fs → AllFaithful S L ts → ∀ (n m : Nat) (rest : List Tok), ts.length ≤ n →
    ts.length < m → (∀ p : List Tok → R (Val F), pEntry p rest = .miss) →
    many (pEntry (pValue L c n)) m (ts ++ rest) = .ok fs rest
  | _, _, .nil _, _, n, m, rest, hn, hm, hr => by
    cases m with
    | zero => simp at hm
    | succ m => exact many_nil (hr _)
  | _, _, .cons _ k t ts v fs hv hvs, hf, n, m, rest, hn, hm, hr => by
    cases m with
    | zero => simp at hm
    | succ m =>
      have hf' : AllFaithful S L (t ++ ts) := hf.tail.tail
      simp at hn hm
      have := many_cons (pEntry_of (n := k) (pValue_complete hv hf'.left n (ts ++ rest) (by omega)))
        (pEntries_complete hvs hf'.right n m rest (by omega) (by omega) hr)
      simpa using this
end

theorem then_ok {α β : Type} {o : R α} {f : α → List Tok → R β} {a : α} {b : β} {r r' : List Tok}
    (h : o = .ok a r) (h' : f a r = .ok b r') : o.then f = .ok b r' := by
  rw [h]; simp only [R.then, h']

theorem map_ok {α β : Type} {o : R α} {f : α → β} {a : α} {r : List Tok} (h : o = .ok a r) :
    o.map f = .ok (f a) r := by rw [h]; rfl

theorem taken_ok {α : Type} {o : R α} {a : α} {r : List Tok} (h : o = .ok a r) :
    o.taken = .ok a r := by rw [h]; rfl

theorem pArgs_complete {c : Bool} {t : List Tok} {as : List (Txt × Val F)} (h : GArgs S c t as)
    (hf : AllFaithful S L t) {rest : List Tok} (hr : NotP .lpar rest) :
    pArgs L c (t ++ rest) = .ok as rest := by
  cases h with
  | none =>
    rw [List.nil_append]
    unfold pArgs
    split
    · exact absurd rfl (hr _)
    · rfl
  | some ts _ hne h =>
    cases h with
    | nil => exact absurd rfl hne
    | cons _ n t ts v fs hv hvs =>
      have hf' : AllFaithful S L (t ++ ts) := by
        have h1 : AllFaithful S L (.p .lpar :: (.name n :: .p .colon :: (t ++ ts))) := by
          simpa using hf.left (u := [.p .rpar]) (t := .p .lpar :: (.name n :: .p .colon :: t ++ ts))
        exact h1.tail.tail.tail
      have e : (.p .lpar :: (.name n :: .p .colon :: t ++ ts) ++ [.p .rpar]) ++ rest
          = (.p .lpar : Tok) :: .name n :: .p .colon :: (t ++ (ts ++ .p .rpar :: rest)) := by simp
      rw [e]
      have := many1_of (pEntry_of (n := n) (pValue_complete (L := L) hv hf'.left
          ((.name n :: .p .colon :: (t ++ (ts ++ .p .rpar :: rest)) : List Tok).length + 1)
          (ts ++ .p .rpar :: rest) (by simp; omega)))
        (pEntries_complete hvs hf'.right _ ((ts ++ .p .rpar :: rest).length + 1) (.p .rpar :: rest)
          (by simp; omega) (by simp; omega) (fun p => rfl))
      unfold pArgs
      simp only [this]

theorem gdirs_notP {c : Bool} {d : List Tok} {ds : List (Dir F)} (h : GDirs S c d ds) {p : P}
    (hp : p ≠ .at) {rest : List Tok} (hr : NotP p rest) : NotP p (d ++ rest) := by
  cases h with
  | nil => exact hr
  | cons n t ts as ds _ _ => exact notP_cons hp

theorem pDirs_many {c : Bool} {d : List Tok} {ds : List (Dir F)} (h : GDirs S c d ds)
    (hf : AllFaithful S L d) {rest : List Tok} (ha : NotP .at rest) (hl : NotP .lpar rest) :
    ∀ m, d.length < m → many (pDir L c) m (d ++ rest) = .ok ds rest := by
  induction h with
  | nil =>
    intro m hm
    cases m with
    | zero => simp at hm
    | succ m =>
      apply many_nil
      rw [List.nil_append]
      unfold pDir pP
      split
      · split
        · rename_i h; subst h; exact absurd rfl (ha _)
        · rfl
      · rfl
  | cons n t ts as ds h1 h2 ih =>
    intro m hm
    cases m with
    | zero => simp at hm
    | succ m =>
      have hf' : AllFaithful S L (t ++ ts) := hf.tail.tail
      simp at hm
      have h3 := pArgs_complete h1 hf'.left (rest := ts ++ rest) (gdirs_notP h2 (by decide) hl)
      have := many_cons (p := pDir L c) (ts := .p .at :: .name n :: (t ++ (ts ++ rest))) (a := ⟨n, as⟩)
        (r := ts ++ rest) (m := m) (by
          unfold pDir
          exact then_ok rfl (then_ok rfl (map_ok (f := fun as => (⟨n, as⟩ : Dir F)) h3))) (ih hf'.right m (by omega))
      simpa using this

theorem pDirs_complete {c : Bool} {d : List Tok} {ds : List (Dir F)} (h : GDirs S c d ds)
    (hf : AllFaithful S L d) {rest : List Tok} (ha : NotP .at rest) (hl : NotP .lpar rest) :
    pDirs L c (d ++ rest) = .ok ds rest :=
  pDirs_many h hf ha hl _ (by simp; omega)

theorem pBang_not {t : Ty} {rest : List Tok} (h : NotP .bang rest) : pBang t rest = .ok t rest := by
  unfold pBang
  split
  · exact absurd rfl (h _)
  · rfl

theorem pType_aux {t : List Tok} {ty : Ty} (h : GType t ty) : ∀ (n : Nat) (rest : List Tok),
    t.length ≤ n → ((∀ u, ty ≠ .nonNull u) → pType n (t ++ rest) = pBang ty rest) ∧
      (NotP .bang rest → pType n (t ++ rest) = .ok ty rest) := by
  induction h with
  | named m =>
    intro n rest hn
    cases n with
    | zero => simp at hn
    | succ n => exact ⟨fun _ => rfl, fun h => pBang_not h⟩
  | list ts t h ih =>
    intro n rest hn
    cases n with
    | zero => simp at hn
    | succ n =>
      simp at hn
      have h1 := (ih n (.p .rbr :: rest) (by omega)).2 (notP_cons (by decide))
      have h2 : pType (n + 1) (.p .lbr :: ts ++ [.p .rbr] ++ rest) = pBang (.list t) rest := by
        have e : (.p .lbr :: ts ++ [.p .rbr] ++ rest : List Tok)
            = .p .lbr :: (ts ++ .p .rbr :: rest) := by simp
        rw [e, pType, h1]
      exact ⟨fun _ => h2, fun h => h2.trans (pBang_not h)⟩
  | nonNull ts t h hn' ih =>
    intro n rest hn
    refine ⟨fun h => absurd rfl (h t), fun _ => ?_⟩
    simp at hn
    rw [List.append_assoc]
    rw [(ih n ([(.p .bang : Tok)] ++ rest) (by omega)).1 hn']
    rfl

theorem pType_complete {t : List Tok} {ty : Ty} (h : GType t ty) {n : Nat} {rest : List Tok}
    (hn : t.length ≤ n) (hr : NotP .bang rest) : pType n (t ++ rest) = .ok ty rest :=
  (pType_aux h n rest hn).2 hr

/-- What may follow a selection: not what would go on with it. -/
structure Follow (rest : List Tok) : Prop where
  lpar : NotP .lpar rest
  at' : NotP .at rest
  lcur : NotP .lcur rest
  colon : NotP .colon rest

theorem follow_name {n : Txt} {r : List Tok} : Follow (.name n :: r) :=
  ⟨notP_name, notP_name, notP_name, notP_name⟩
theorem follow_dots {r : List Tok} : Follow (.p .dots :: r) :=
  ⟨notP_cons (by decide), notP_cons (by decide), notP_cons (by decide), notP_cons (by decide)⟩
theorem follow_rcur {r : List Tok} : Follow (.p .rcur :: r) :=
  ⟨notP_cons (by decide), notP_cons (by decide), notP_cons (by decide), notP_cons (by decide)⟩

theorem gsel_head {t : List Tok} {s : Sel F} (h : GSel S t s) (r : List Tok) : Follow (t ++ r) := by
  cases h with
  | leaf al n ta t d as ds ha _ _ =>
    cases ha with
    | none => simpa using follow_name
    | some a => simpa using follow_name
  | field al n ta t d b as ds ss ha _ _ _ =>
    cases ha with
    | none => simpa using follow_name
    | some a => simpa using follow_name
  | spread => exact follow_dots
  | inlineOn => exact follow_dots
  | inline => exact follow_dots

theorem gsel_ne {t : List Tok} {s : Sel F} (h : GSel S t s) : 1 ≤ t.length := by
  cases h <;> simp <;> omega

theorem gsels_follow {t : List Tok} {ss : List (Sel F)} (h : GSels S t ss) {r : List Tok}
    (hr : Follow r) : Follow (t ++ r) := by
  cases h with
  | nil => exact hr
  | cons t ts s ss h _ => rw [List.append_assoc]; exact gsel_head h _

theorem gset_head {b : List Tok} {ss : List (Sel F)} (h : GSet S b ss) {r : List Tok} {p : P}
    (hp : p ≠ .lcur) : NotP p (b ++ r) := by
  cases h
  exact notP_cons hp

theorem gargs_notP {c : Bool} {t : List Tok} {as : List (Txt × Val F)} (h : GArgs S c t as) {p : P}
    (hp : p ≠ .lpar) {rest : List Tok} (hr : NotP p rest) : NotP p (t ++ rest) := by
  cases h with
  | none => exact hr
  | some => exact notP_cons hp

theorem pSetWith_miss {p : List Tok → R (Sel F)} {rest : List Tok} (h : NotP .lcur rest) :
    pSetWith p rest = .miss := by
  unfold pSetWith
  split
  · exact absurd rfl (h _)
  · rfl

theorem pFieldTail_leaf {p : List Tok → R (Sel F)} {al : Option Txt} {n : Txt} {t d : List Tok}
    {as : List (Txt × Val F)} {ds : List (Dir F)} (ht : GArgs S false t as)
    (hd : GDirs S false d ds) (hf : AllFaithful S L (t ++ d)) {rest : List Tok} (hr : Follow rest) :
    pFieldTail L p al n (t ++ (d ++ rest)) = .ok (.field al n as ds []) rest := by
  unfold pFieldTail
  refine then_ok (pArgs_complete ht hf.left (gdirs_notP hd (by decide) hr.lpar))
    (then_ok (pDirs_complete hd hf.right hr.at' hr.lpar) ?_)
  rw [pSetWith_miss hr.lcur]

theorem pFieldTail_set {p : List Tok → R (Sel F)} {al : Option Txt} {n : Txt} {t d b : List Tok}
    {as : List (Txt × Val F)} {ds : List (Dir F)} {ss : List (Sel F)} (ht : GArgs S false t as)
    (hd : GDirs S false d ds) (hb : GSet S b ss) (hf : AllFaithful S L (t ++ d)) {rest : List Tok}
    (hs : pSetWith p (b ++ rest) = .ok ss rest) :
    pFieldTail L p al n (t ++ (d ++ (b ++ rest))) = .ok (.field al n as ds ss) rest := by
  unfold pFieldTail
  refine then_ok (pArgs_complete ht hf.left (gdirs_notP hd (by decide) (gset_head hb (by decide))))
    (then_ok (pDirs_complete hd hf.right (gset_head hb (by decide)) (gset_head hb (by decide))) ?_)
  rw [hs]

theorem pInlineTail_set {p : List Tok → R (Sel F)} {c : Option Txt} {d b : List Tok}
    {ds : List (Dir F)} {ss : List (Sel F)}
    (hd : GDirs S false d ds) (hb : GSet S b ss) (hf : AllFaithful S L d) {rest : List Tok}
    (hs : pSetWith p (b ++ rest) = .ok ss rest) :
    pInlineTail L p c (d ++ (b ++ rest)) = .ok (.inline c ds ss) rest := by
  unfold pInlineTail
  exact then_ok (pDirs_complete hd hf (gset_head hb (by decide)) (gset_head hb (by decide)))
    (map_ok (f := fun ss => Sel.inline c ds ss) hs)

/-- A field, with or without an alias. -/
theorem pSel_field {al : Option Txt} {nm : Txt} {ta t : List Tok} {s : Sel F} {n : Nat}
    {rest : List Tok} (ha : GAlias ta al) (hc : NotP .colon t)
    (h : pFieldTail L (pSel L n) al nm t = .ok s rest) :
    pSel L (n + 1) (ta ++ .name nm :: t) = .ok s rest := by
  cases ha with
  | some a => exact taken_ok h
  | none =>
    rw [List.nil_append, pSel.eq_def]
    simp only
    split
    · rename_i e; cases e; exact absurd rfl (hc _)
    · rename_i e; cases e; exact taken_ok h
    · rename_i e; cases e
    · rename_i h _; exact absurd rfl (h _ _)

mutual
theorem pSel_complete : ∀ {t : List Tok} {s : Sel F}, GSel S t s → AllFaithful S L t →
    ∀ (n : Nat) (rest : List Tok), t.length ≤ n → Follow rest →
    pSel L n (t ++ rest) = .ok s rest
  | _, _, .leaf al nm ta t d as ds ha ht hd, hf, n, rest, hn, hr => by
    cases n with
    | zero => simp at hn
    | succ n =>
      have hf' : AllFaithful S L (t ++ d) := fun x hx => hf x (by
        simp only [List.mem_append, List.mem_cons] at hx ⊢; tauto)
      have := pSel_field (n := n) ha (gargs_notP ht (by decide) (gdirs_notP hd (by decide) hr.colon))
        (pFieldTail_leaf (p := pSel L n) (al := al) (n := nm) ht hd hf' hr)
      simpa using this
  | _, _, .field al nm ta t d b as ds ss ha ht hd hb, hf, n, rest, hn, hr => by
    cases n with
    | zero => simp at hn
    | succ n =>
      have hf' : AllFaithful S L (t ++ d) := fun x hx => hf x (by
        simp only [List.mem_append, List.mem_cons] at hx ⊢; tauto)
      simp at hn
      have hs := pSet_complete hb hf.right n rest (by omega)
      have := pSel_field (n := n) ha (gargs_notP ht (by decide) (gdirs_notP hd (by decide)
          (gset_head hb (by decide))))
        (pFieldTail_set (p := pSel L n) (al := al) (n := nm) ht hd hb hf' hs)
      simpa using this
  | _, _, .spread nm d ds hne hd, hf, n, rest, hn, hr => by
    cases n with
    | zero => simp at hn
    | succ n =>
      refine taken_ok ?_
      show pDots L (pSel L n) (.name nm :: (d ++ rest)) = _
      unfold pDots
      simp only
      rw [if_neg (show ¬ nm = ['o', 'n'] from hne)]
      exact map_ok (f := fun ds => Sel.spread nm ds) (pDirs_complete hd hf.tail.tail hr.at' hr.lpar)
  | _, _, .inlineOn nm d b ds ss hd hb, hf, n, rest, hn, hr => by
    cases n with
    | zero => simp at hn
    | succ n =>
      simp at hn
      have hf' : AllFaithful S L (d ++ b) := hf.tail.tail.tail
      have hs := pSet_complete hb hf'.right n rest (by omega)
      have e : (.p .dots :: .name kwOn :: .name nm :: d ++ b) ++ rest
        = (.p .dots : Tok) :: .name ['o', 'n'] :: .name nm :: (d ++ (b ++ rest)) := by simp [kwOn]
      rw [e]
      exact taken_ok (then_ok rfl (pInlineTail_set hd hb hf'.left hs))
  | _, _, .inline d b ds ss hd hb, hf, n, rest, hn, hr => by
    cases n with
    | zero => simp at hn
    | succ n =>
      simp at hn
      have hf' : AllFaithful S L (d ++ b) := hf.tail
      have hs := pSet_complete hb hf'.right n rest (by omega)
      have e : (.p .dots :: d ++ b) ++ rest = (.p .dots : Tok) :: (d ++ (b ++ rest)) := by simp
      rw [e]
      refine taken_ok ?_
      have := pInlineTail_set (c := none) hd hb hf'.left hs
      unfold pDots
      split
      · rename_i e'
        exfalso
        cases hd with
        | nil => cases hb; cases e'
        | cons => cases e'
      · exact this
theorem pSet_complete : ∀ {b : List Tok} {ss : List (Sel F)}, GSet S b ss → AllFaithful S L b →
    ∀ (n : Nat) (rest : List Tok), b.length ≤ n → pSetWith (pSel L n) (b ++ rest) = .ok ss rest
  | _, _, .mk ts ss hne h, hf, n, rest, hn => by
    have e : (.p .lcur :: ts ++ [.p .rcur]) ++ rest = (.p .lcur : Tok) :: (ts ++ .p .rcur :: rest) := by
      simp
    have := pSels_complete h hf.tail.left n (.p .rcur :: rest) (by simp at hn; omega) follow_rcur
      (by
        cases n with
        | zero => simp at hn
        | succ n => rfl) hne
    rw [e]
    unfold pSetWith
    simp only [this]
theorem pSels_complete : ∀ {ts : List Tok} {ss : List (Sel F)}, GSels S ts ss →
    AllFaithful S L ts → ∀ (n : Nat) (rest : List Tok), ts.length ≤ n → Follow rest →
    pSel L n rest = .miss → ss ≠ [] → many1 (pSel L n) (ts ++ rest) = .ok ss rest
  | _, _, .nil, _, n, rest, hn, hr, hm, hne => absurd rfl hne
  | _, _, .cons t ts s ss h hs, hf, n, rest, hn, hr, hm, _ => by
    rw [List.append_assoc]
    rw [List.length_append] at hn
    exact many1_of (pSel_complete h hf.left n _ (by omega) (gsels_follow hs hr))
      (pSelsMany_complete hs hf.right n _ rest (by omega) (by simp; omega) hr hm)
theorem pSelsMany_complete : ∀ {ts : List Tok} {ss : List (Sel F)}, GSels S ts ss →
    AllFaithful S L ts → ∀ (n m : Nat) (rest : List Tok), ts.length ≤ n → ts.length < m →
    Follow rest → pSel L n rest = .miss → many (pSel L n) m (ts ++ rest) = .ok ss rest
  | _, _, .nil, _, n, m, rest, hn, hm, hr, hmiss => by
    cases m with
    | zero => simp at hm
    | succ m => exact many_nil hmiss
  | _, _, .cons t ts s ss h hs, hf, n, m, rest, hn, hm, hr, hmiss => by
    cases m with
    | zero => simp at hm
    | succ m =>
      have h1 := gsel_ne h
      rw [List.length_append] at hn hm
      rw [List.append_assoc]
      exact many_cons (pSel_complete h hf.left n _ (by omega) (gsels_follow hs hr))
        (pSelsMany_complete hs hf.right n m rest (by omega) (by omega) hr hmiss)
end

theorem pSet_ok {b : List Tok} {ss : List (Sel F)} (h : GSet S b ss) (hf : AllFaithful S L b)
    (rest : List Tok) : pSet L (b ++ rest) = .ok ss rest :=
  pSet_complete h hf _ rest (by simp; omega)

theorem pDefault_complete {t : List Tok} {v : Option (Val F)} (h : GDefault S t v)
    (hf : AllFaithful S L t) {rest : List Tok} (hr : NotP .eq rest) :
    pDefault L (t ++ rest) = .ok v rest := by
  cases h with
  | none =>
    rw [List.nil_append]
    unfold pDefault
    split
    · exact absurd rfl (hr _)
    · rfl
  | some t v hv => exact taken_ok (map_ok (f := some) (pValue_complete hv hf.tail _ rest (by simp; omega)))

theorem gdefault_notP {t : List Tok} {v : Option (Val F)} (h : GDefault S t v) {p : P}
    (hp : p ≠ .eq) {rest : List Tok} (hr : NotP p rest) : NotP p (t ++ rest) := by
  cases h with
  | none => exact hr
  | some => exact notP_cons hp

/-- Directives on variables are there only if they are read. -/
def VarDirsOk (L : Lits F) (vs : List (VarDef F)) : Prop := L.varDirs = true ∨ ∀ v ∈ vs, v.dirs = []

theorem gvars_head {t : List Tok} {vs : List (VarDef F)} (h : GVars S t vs) {p : P}
    (h1 : p ≠ .dollar) (h2 : p ≠ .rpar) {rest : List Tok} : NotP p (t ++ .p .rpar :: rest) := by
  cases h with
  | nil => exact notP_cons h2
  | cons => exact notP_cons h1

theorem pVar_complete {n : Txt} {t d e : List Tok} {ty : Ty} {dv : Option (Val F)}
    {ds : List (Dir F)} (ht : GType t ty) (hd : GDefault S d dv) (he : GDirs S true e ds)
    (hf : AllFaithful S L (d ++ e)) (hv : L.varDirs = true ∨ ds = []) {rest : List Tok}
    (hr : ∀ p, p ≠ .dollar → p ≠ .rpar → NotP p rest) :
    pVar L (.p .dollar :: .name n :: .p .colon :: (t ++ (d ++ (e ++ rest))))
      = .ok ⟨n, ty, dv, ds⟩ rest := by
  have hB : NotP .bang (d ++ (e ++ rest)) := gdefault_notP hd (by decide)
    (gdirs_notP he (by decide) (hr _ (by decide) (by decide)))
  have hE : NotP .eq (e ++ rest) := gdirs_notP he (by decide) (hr _ (by decide) (by decide))
  unfold pVar
  refine then_ok rfl (then_ok rfl (then_ok rfl (then_ok (pType_complete ht (by simp; omega) hB)
    (then_ok (pDefault_complete hd hf.left hE) ?_))))
  by_cases hL : L.varDirs = true
  · rw [if_pos hL]
    exact map_ok (f := fun ds => (⟨n, ty, dv, ds⟩ : VarDef F))
      (pDirs_complete he hf.right (hr _ (by decide) (by decide)) (hr _ (by decide) (by decide)))
  · rw [if_neg hL]
    have h0 : ds = [] := hv.resolve_left hL
    subst h0
    cases he
    rfl

theorem pVarsMany_complete {ts : List Tok} {vs : List (VarDef F)} (h : GVars S ts vs)
    (hf : AllFaithful S L ts) (hv : VarDirsOk L vs) {rest : List Tok} : ∀ m, ts.length < m →
    many (pVar L) m (ts ++ .p .rpar :: rest) = .ok vs (.p .rpar :: rest) := by
  induction h with
  | nil =>
    intro m hm
    cases m with
    | zero => simp at hm
    | succ m => exact many_nil rfl
  | cons n t d e ts ty dv ds vs ht hd he hvs ih =>
    intro m hm
    cases m with
    | zero => simp at hm
    | succ m =>
      have hf' : AllFaithful S L (t ++ d ++ e ++ ts) := hf.tail.tail.tail
      simp at hm
      have := many_cons (pVar_complete (L := L) (n := n) ht hd he
          (fun x hx => hf' x (by simp only [List.mem_append] at hx ⊢; tauto))
          (hv.imp id (fun h => h _ (List.mem_cons_self ..)))
          (rest := ts ++ .p .rpar :: rest) (fun p h1 h2 => gvars_head hvs h1 h2))
        (ih hf'.right (hv.imp id (fun h v hv => h v (List.mem_cons_of_mem _ hv))) m (by omega))
      simpa using this

theorem pVars_complete {ts : List Tok} {vs : List (VarDef F)} (h : GVarDefs S ts vs)
    (hf : AllFaithful S L ts) (hv : VarDirsOk L vs) {rest : List Tok} (hr : NotP .lpar rest) :
    pVars L (ts ++ rest) = .ok vs rest := by
  cases h with
  | none =>
    rw [List.nil_append]
    unfold pVars
    split
    · exact absurd rfl (hr _)
    · rfl
  | some ts _ hne h =>
    cases h with
    | nil => exact absurd rfl hne
    | cons n t d e ts ty dv ds vs ht hd he hvs =>
      have hf' : AllFaithful S L (t ++ d ++ e ++ ts) := fun x hx => hf x (by
        simp only [List.mem_append, List.mem_cons, List.cons_append] at hx ⊢; tauto)
      have e' : (.p .lpar :: (.p .dollar :: .name n :: .p .colon :: t ++ d ++ e ++ ts)
          ++ [.p .rpar]) ++ rest = (.p .lpar : Tok) :: .p .dollar :: .name n :: .p .colon ::
            (t ++ (d ++ (e ++ (ts ++ .p .rpar :: rest)))) := by simp
      have := many1_of (pVar_complete (L := L) (n := n) ht hd he
          (fun x hx => hf' x (by simp only [List.mem_append] at hx ⊢; tauto))
          (hv.imp id (fun h => h _ (List.mem_cons_self ..)))
          (rest := ts ++ .p .rpar :: rest) (fun p h1 h2 => gvars_head hvs h1 h2))
        (pVarsMany_complete hvs hf'.right
          (hv.imp id (fun h v hv => h v (List.mem_cons_of_mem _ hv)))
          ((ts ++ .p .rpar :: rest).length + 1) (by simp; omega))
      rw [e']
      unfold pVars
      simp only [this]

theorem gvardefs_notP {ts : List Tok} {vs : List (VarDef F)} (h : GVarDefs S ts vs) {p : P}
    (hp : p ≠ .lpar) {rest : List Tok} (hr : NotP p rest) : NotP p (ts ++ rest) := by
  cases h with
  | none => exact hr
  | some => exact notP_cons hp

def DefDirsOk (L : Lits F) : Def F → Prop
  | .op _ _ vs _ _ => VarDirsOk L vs
  | _ => True

theorem pOptName_of {tn : List Tok} {nm : Option Txt} (h : GOpName tn nm) {rest : List Tok}
    (hr : ∀ n r, rest ≠ .name n :: r) : pOptName (tn ++ rest) = .ok nm rest := by
  cases h with
  | some => rfl
  | none =>
    rw [List.nil_append]
    unfold pOptName
    split
    · exact absurd rfl (hr _ _)
    · rfl

theorem pCommon_complete {k : Kind} {nm : Option Txt} {tn tv d b : List Tok}
    {vs : List (VarDef F)} {ds : List (Dir F)} {ss : List (Sel F)} (hn : GOpName tn nm)
    (hv : GVarDefs S tv vs) (hd : GDirs S false d ds) (hb : GSet S b ss)
    (hf : AllFaithful S L (tv ++ d ++ b)) (ho : VarDirsOk L vs) (rest : List Tok) :
    pCommon L k (tn ++ (tv ++ (d ++ (b ++ rest)))) = .ok (.op k nm vs ds ss) rest := by
  unfold pCommon
  refine then_ok (pOptName_of hn ?_) (then_ok (pVars_complete hv hf.left.left ho
    (gdirs_notP hd (by decide) (gset_head hb (by decide)))) (then_ok (pDirs_complete hd hf.left.right
      (gset_head hb (by decide)) (gset_head hb (by decide)))
        (map_ok (f := fun ss => Def.op k nm vs ds ss) (pSet_ok hb hf.right rest))))
  intro n r e
  cases hv with
  | some => cases e
  | none =>
    cases hd with
    | cons => cases e
    | nil => cases hb; cases e

theorem pDef_complete {t : List Tok} {d : Def F} (h : GDef S t d) (hf : AllFaithful S L t)
    (ho : DefDirsOk L d) (rest : List Tok) : pDef L (t ++ rest) = .ok d rest := by
  cases h with
  | short b ss hb =>
    have := pSet_ok hb hf rest
    unfold pDef
    split
    · rename_i e; cases hb; cases e
    · exact map_ok (f := Def.short) this
  | op k nm tn tv d b vs ds ss hn hv hd hb =>
    have hf' : AllFaithful S L (tv ++ d ++ b) := fun x hx => hf x (by
      simp only [List.mem_append, List.mem_cons] at hx ⊢; tauto)
    have := pCommon_complete (k := k) hn hv hd hb hf' ho rest
    have e : (.name (kwKind k) :: tn ++ tv ++ d ++ b) ++ rest
      = .name (kwKind k) :: (tn ++ (tv ++ (d ++ (b ++ rest)))) := by simp
    rw [e]
    cases k <;> exact taken_ok this
  | frag n c d b ds ss hne hd hb =>
    have hf' : AllFaithful S L (d ++ b) := hf.tail.tail.tail.tail
    have e : (.name kwFragment :: .name n :: .name kwOn :: .name c :: d ++ b) ++ rest
      = .name kwFragment :: .name n :: .name kwOn :: .name c :: (d ++ (b ++ rest)) := by simp
    rw [e]
    refine taken_ok ?_
    refine then_ok rfl (then_ok rfl (then_ok rfl (then_ok (pDirs_complete hd hf'.left
      (gset_head hb (by decide)) (gset_head hb (by decide)))
        (map_ok (f := fun ss => Def.frag n c ds ss) (pSet_ok hb hf'.right rest)))))

theorem gdef_ne {t : List Tok} {d : Def F} (h : GDef S t d) : 1 ≤ t.length := by
  cases h with
  | short b ss hb => cases hb; simp
  | op => simp
  | frag => simp

theorem pDefs_complete {ts : List Tok} {ds : List (Def F)} (h : GDefs S ts ds)
    (hf : AllFaithful S L ts) (ho : ∀ d ∈ ds, DefDirsOk L d) : ∀ m, ts.length < m →
    many (pDef L) m ts = .ok ds [] := by
  induction h with
  | nil =>
    intro m hm
    cases m with
    | zero => simp at hm
    | succ m => exact many_nil rfl
  | cons t ts d ds hd hds ih =>
    intro m hm
    cases m with
    | zero => simp at hm
    | succ m =>
      have h1 := gdef_ne hd
      rw [List.length_append] at hm
      exact many_cons (pDef_complete hd hf.left (ho _ (List.mem_cons_self ..)) ts)
        (ih hf.right (fun d h => ho d (List.mem_cons_of_mem _ h)) m (by omega))

/-- The parser finds every document that the grammar gives for its tokens. -/
theorem parse_complete {ts : List Tok} {ds : List (Def F)} (h : GDoc S ts ds)
    (hf : AllFaithful S L ts) (ho : ∀ d ∈ ds, DefDirsOk L d) : parseToks L ts = .document ds := by
  obtain ⟨hne, h⟩ := h
  cases h with
  | nil => exact absurd rfl hne
  | cons t ts d ds hd hds =>
    have := many1_of (pDef_complete hd hf.left (ho _ (List.mem_cons_self ..)) ts)
      (pDefs_complete hds hf.right (fun d h => ho d (List.mem_cons_of_mem _ h)) (ts.length + 1)
        (by omega))
    unfold parseToks
    simp only [this]

end
end Verif.Text
