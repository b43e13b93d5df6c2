import Verif.Text.Literals
/-!
# The parser does not panic unless a block string makes it
-/
namespace Verif.Text

variable {F : Type} {L : Lits F}

/-- Block strings that can be read. -/
def AllRead (L : Lits F) (ts : List Tok) : Prop := ∀ raw, Tok.block raw ∈ ts → (L.block raw).isSome

theorem AllRead.sub {ts r : List Tok} (h : AllRead L ts) (hr : ∀ x ∈ r, x ∈ ts) : AllRead L r :=
  fun raw hm => h raw (hr _ hm)

/-- A parser does not panic, and leaves a part of the tokens. -/
def Safe {α : Type} (L : Lits F) (p : List Tok → R α) : Prop :=
  ∀ ts, AllRead L ts → p ts ≠ .crash ∧ ∀ a r, p ts = .ok a r → ∀ x ∈ r, x ∈ ts

theorem safe_then {α β : Type} {p : List Tok → R α} {f : α → List Tok → R β} (hp : Safe L p)
    (hf : ∀ a, Safe L (f a)) : Safe L (fun ts => (p ts).then f) := by
  intro ts ha
  obtain ⟨h1, h2⟩ := hp ts ha
  cases hx : p ts with
  | ok a r =>
    have h3 := h2 a r hx
    obtain ⟨h4, h5⟩ := hf a r (ha.sub h3)
    simp only [hx, R.then]
    cases hy : f a r with
    | ok b r' => exact ⟨by simp, fun b' r'' e => by cases e; exact fun x hm => h3 x (h5 b r' hy x hm)⟩
    | miss => exact ⟨by simp, fun _ _ e => by cases e⟩
    | fail => exact ⟨by simp, fun _ _ e => by cases e⟩
    | crash => exact absurd hy h4
  | miss => simp only [hx, R.then]; exact ⟨by simp, fun _ _ e => by cases e⟩
  | fail => simp only [hx, R.then]; exact ⟨by simp, fun _ _ e => by cases e⟩
  | crash => exact absurd hx h1

theorem safe_map {α β : Type} {p : List Tok → R α} {f : α → β} (hp : Safe L p) :
    Safe L (fun ts => (p ts).map f) := by
  intro ts ha
  obtain ⟨h1, h2⟩ := hp ts ha
  cases hx : p ts with
  | ok a r =>
    simp only [hx, R.map]
    exact ⟨by simp, fun _ _ e => by cases e; exact h2 a r hx⟩
  | miss => simp only [hx, R.map]; exact ⟨by simp, fun _ _ e => by cases e⟩
  | fail => simp only [hx, R.map]; exact ⟨by simp, fun _ _ e => by cases e⟩
  | crash => exact absurd hx h1

theorem safe_taken {α : Type} {p : List Tok → R α} (hp : Safe L p) :
    Safe L (fun ts => (p ts).taken) := by
  intro ts ha
  obtain ⟨h1, h2⟩ := hp ts ha
  cases hx : p ts with
  | ok a r =>
    simp only [hx, R.taken]
    exact ⟨by simp, fun _ _ e => by cases e; exact h2 a r hx⟩
  | miss => simp only [hx, R.taken]; exact ⟨by simp, fun _ _ e => by cases e⟩
  | fail => simp only [hx, R.taken]; exact ⟨by simp, fun _ _ e => by cases e⟩
  | crash => exact absurd hx h1

theorem safe_many {α : Type} {p : List Tok → R α} (hp : Safe L p) (m : Nat) : Safe L (many p m) := by
  induction m with
  | zero => intro ts _; exact ⟨by simp [many], fun _ _ e => by cases e⟩
  | succ m ih =>
    intro ts ha
    obtain ⟨h1, h2⟩ := hp ts ha
    rw [many]
    cases hx : p ts with
    | ok a r =>
      have h3 := h2 a r hx
      obtain ⟨h4, h5⟩ := ih r (ha.sub h3)
      simp only
      cases hy : many p m r with
      | ok b r' => exact ⟨by simp, fun b' r'' e => by cases e; exact fun x hm => h3 x (h5 b r' hy x hm)⟩
      | miss => exact ⟨by simp, fun _ _ e => by cases e⟩
      | fail => exact ⟨by simp, fun _ _ e => by cases e⟩
      | crash => exact absurd hy h4
    | miss => exact ⟨by simp, fun _ _ e => by cases e; exact fun x hm => hm⟩
    | fail => exact ⟨by simp, fun _ _ e => by cases e⟩
    | crash => exact absurd hx h1

theorem safe_many1 {α : Type} {p : List Tok → R α} (hp : Safe L p) : Safe L (many1 p) :=
  safe_then hp fun a ts ha => safe_map (safe_many hp (ts.length + 1)) ts ha

theorem safe_name : Safe L pName := by
  intro ts _
  unfold pName
  split
  · exact ⟨by simp, fun _ _ e => by cases e; exact fun x hm => by simp [hm]⟩
  · exact ⟨by simp, fun _ _ e => by cases e⟩

theorem safe_p (p : P) : Safe L (pP p) := by
  intro ts _
  unfold pP
  split
  · split
    · exact ⟨by simp, fun _ _ e => by cases e; exact fun x hm => by simp [hm]⟩
    · exact ⟨by simp, fun _ _ e => by cases e⟩
  · exact ⟨by simp, fun _ _ e => by cases e⟩

theorem safe_ident (k : Txt) : Safe L (pIdent k) := by
  intro ts _
  unfold pIdent
  split
  · split
    · exact ⟨by simp, fun _ _ e => by cases e; exact fun x hm => by simp [hm]⟩
    · exact ⟨by simp, fun _ _ e => by cases e⟩
  · exact ⟨by simp, fun _ _ e => by cases e⟩

theorem safe_plain : Safe L (pPlain L) := by
  intro ts ha
  have hin : ∀ (t : Tok) (r : List Tok) (x : Tok), x ∈ r → x ∈ t :: r := fun t r x h => by simp [h]
  unfold pPlain
  split
  · repeat' split
    all_goals exact ⟨by simp, fun _ _ e => by cases e; exact hin _ _⟩
  · split
    · exact ⟨by simp, fun _ _ e => by cases e; exact hin _ _⟩
    · exact ⟨by simp, fun _ _ e => by cases e⟩
  · split
    · exact ⟨by simp, fun _ _ e => by cases e; exact hin _ _⟩
    · exact ⟨by simp, fun _ _ e => by cases e⟩
  · split
    · exact ⟨by simp, fun _ _ e => by cases e; exact hin _ _⟩
    · exact ⟨by simp, fun _ _ e => by cases e⟩
  · next raw r =>
    split
    · exact ⟨by simp, fun _ _ e => by cases e; exact hin _ _⟩
    · next e =>
      have := ha raw (by simp)
      rw [e] at this
      cases this
  · exact ⟨by simp, fun _ _ e => by cases e⟩

theorem safe_entry {p : List Tok → R (Val F)} (hp : Safe L p) : Safe L (pEntry p) :=
  safe_then safe_name fun _ => safe_then (safe_p .colon) fun _ => safe_map hp

theorem safe_value (c : Bool) : ∀ n, Safe L (pValue L c n)
  | 0 => fun ts _ => ⟨by simp [pValue], fun _ _ e => by cases e⟩
  | n + 1 => by
    have ih := safe_value c n
    intro ts ha
    rw [pValue.eq_def]
    simp only
    split
    · next r =>
      split
      · exact ⟨by simp, fun _ _ e => by cases e⟩
      · split
        · next v r' e =>
          refine ⟨by simp, fun _ _ e' => ?_⟩
          cases e'
          intro x hm
          have := (safe_name (L := L) r (ha.sub fun x hm => by simp [hm])).2 _ _ e x hm
          simp [this]
        · exact ⟨by simp, fun _ _ e => by cases e⟩
    · next r =>
      obtain ⟨h1, h2⟩ := safe_many ih (r.length + 1) r (ha.sub fun x hm => by simp [hm])
      split
      · next vs r' e =>
        refine ⟨by simp, fun _ _ e' => ?_⟩
        cases e'
        intro x hm
        have := h2 _ _ e x (by simp [hm])
        simp [this]
      · next e => exact absurd e h1
      · exact ⟨by simp, fun _ _ e => by cases e⟩
    · next r =>
      obtain ⟨h1, h2⟩ := safe_many (safe_entry ih) (r.length + 1) r (ha.sub fun x hm => by simp [hm])
      split
      · next vs r' e =>
        refine ⟨by simp, fun _ _ e' => ?_⟩
        cases e'
        intro x hm
        have := h2 _ _ e x (by simp [hm])
        simp [this]
      · next e => exact absurd e h1
      · exact ⟨by simp, fun _ _ e => by cases e⟩
    · exact safe_plain ts ha

theorem safe_args (c : Bool) : Safe L (pArgs L c) := by
  intro ts ha
  rw [pArgs.eq_def]
  split
  · next r =>
    obtain ⟨h1, h2⟩ := safe_many1 (safe_entry (safe_value c (r.length + 1))) r
      (ha.sub fun x hm => by simp [hm])
    split
    · next vs r' e =>
      refine ⟨by simp, fun _ _ e' => ?_⟩
      cases e'
      intro x hm
      have := h2 _ _ e x (by simp [hm])
      simp [this]
    · next e => exact absurd e h1
    · exact ⟨by simp, fun _ _ e => by cases e⟩
  · exact ⟨by simp, fun _ _ e => by cases e; exact fun x hm => hm⟩

theorem safe_dirs (c : Bool) : Safe L (pDirs L c) := fun ts ha =>
  safe_many (p := pDir L c) (safe_then (safe_p .at) fun _ => safe_then safe_name fun _ =>
    safe_map (safe_args c)) _ ts ha

theorem safe_bang (t : Ty) : Safe L (pBang t) := by
  intro ts _
  unfold pBang
  split
  · exact ⟨by simp, fun _ _ e => by cases e; exact fun x hm => by simp [hm]⟩
  · exact ⟨by simp, fun _ _ e => by cases e; exact fun x hm => hm⟩

theorem safe_type : ∀ n, Safe L (pType n)
  | 0 => fun ts _ => ⟨by simp [pType], fun _ _ e => by cases e⟩
  | n + 1 => by
    intro ts ha
    rw [pType.eq_def]
    split
    · next e => exact ⟨by simp, fun _ _ e => by cases e⟩
    · next m r e =>
      obtain ⟨h1, h2⟩ := safe_bang (L := L) (.named m) r (ha.sub fun x hm => by simp [hm])
      exact ⟨h1, fun a r' e x hm => by have := h2 a r' e x hm; simp [this]⟩
    · next k r e =>
      cases e
      obtain ⟨h1, h2⟩ := safe_type n r (ha.sub fun x hm => by simp [hm])
      split
      · next t r' e' =>
        have h3 : ∀ x ∈ r', x ∈ r := fun x hm => h2 _ _ e' x (by simp [hm])
        obtain ⟨h4, h5⟩ := safe_bang (L := L) (.list t) r' (ha.sub fun x hm => by simp [h3 x hm])
        exact ⟨h4, fun a r'' e x hm => by have := h3 x (h5 a r'' e x hm); simp [this]⟩
      · next e => exact absurd e h1
      · exact ⟨by simp, fun _ _ e => by cases e⟩
    · exact ⟨by simp, fun _ _ e => by cases e⟩

theorem safe_setWith {p : List Tok → R (Sel F)} (hp : Safe L p) : Safe L (pSetWith p) := by
  intro ts ha
  rw [pSetWith.eq_def]
  split
  · next r =>
    obtain ⟨h1, h2⟩ := safe_many1 hp r (ha.sub fun x hm => by simp [hm])
    split
    · next vs r' e =>
      refine ⟨by simp, fun _ _ e' => ?_⟩
      cases e'
      intro x hm
      have := h2 _ _ e x (by simp [hm])
      simp [this]
    · next e => exact absurd e h1
    · exact ⟨by simp, fun _ _ e => by cases e⟩
  · exact ⟨by simp, fun _ _ e => by cases e⟩

theorem safe_fieldTail {p : List Tok → R (Sel F)} (hp : Safe L p) (al : Option Txt) (n : Txt) :
    Safe L (pFieldTail L p al n) := by
  refine safe_then (safe_args false) fun as => safe_then (safe_dirs false) fun ds => ?_
  intro ts ha
  obtain ⟨h1, h2⟩ := safe_setWith hp ts ha
  simp only
  split
  · next ss r e => exact ⟨by simp, fun _ _ e' => by cases e'; exact h2 _ _ e⟩
  · exact ⟨by simp, fun _ _ e => by cases e; exact fun x hm => hm⟩
  · exact ⟨by simp, fun _ _ e => by cases e⟩
  · next e => exact absurd e h1

theorem safe_inlineTail {p : List Tok → R (Sel F)} (hp : Safe L p) (c : Option Txt) :
    Safe L (pInlineTail L p c) :=
  safe_then (safe_dirs false) fun _ => safe_map (safe_setWith hp)

/-- A parser after the first token. -/
theorem safe_after {α : Type} {p : List Tok → R α} (hp : Safe L p) (t : Tok) {r : List Tok}
    (ha : AllRead L (t :: r)) : p r ≠ .crash ∧ ∀ a r', p r = .ok a r' → ∀ x ∈ r', x ∈ t :: r := by
  obtain ⟨h1, h2⟩ := hp r (ha.sub fun x hm => by simp [hm])
  exact ⟨h1, fun a r' e x hm => by have := h2 a r' e x hm; simp [this]⟩

theorem safe_dots {p : List Tok → R (Sel F)} (hp : Safe L p) : Safe L (pDots L p) := by
  intro ts ha
  rw [pDots.eq_def]
  split
  · next n r =>
    split
    · exact safe_after (p := fun r => (pName r).then fun c r' => pInlineTail L p (some c) r')
        (safe_then safe_name fun c => safe_inlineTail hp (some c)) _ ha
    · exact safe_after (safe_map (safe_dirs false)) _ ha
  · exact safe_inlineTail hp none ts ha

theorem safe_sel : ∀ n, Safe L (pSel L n)
  | 0 => fun ts _ => ⟨by simp [pSel], fun _ _ e => by cases e⟩
  | n + 1 => by
    have ih := safe_sel n
    intro ts ha
    rw [pSel.eq_def]
    simp only
    split
    · next a r =>
      split
      · next nm r' e =>
        have h1 := (safe_name (L := L) r (ha.sub fun x hm => by simp [hm])).2 _ _ e
        obtain ⟨h2, h3⟩ := safe_taken (safe_fieldTail ih (some a) nm) r'
          (ha.sub fun x hm => by simp [h1 x hm])
        exact ⟨h2, fun b r'' e x hm => by have := h1 x (h3 b r'' e x hm); simp [this]⟩
      · exact ⟨by simp, fun _ _ e => by cases e⟩
    · next nm r _ => exact safe_after (safe_taken (safe_fieldTail ih none nm)) _ ha
    · exact safe_after (safe_taken (safe_dots ih)) _ ha
    · exact ⟨by simp, fun _ _ e => by cases e⟩

theorem safe_set : Safe L (pSet L) := fun ts ha => safe_setWith (safe_sel _) ts ha

theorem safe_default : Safe L (pDefault L) := by
  intro ts ha
  rw [pDefault.eq_def]
  split
  · exact safe_after (safe_taken (safe_map (safe_value true _))) _ ha
  · exact ⟨by simp, fun _ _ e => by cases e; exact fun x hm => hm⟩

theorem safe_var : Safe L (pVar L) := by
  refine safe_then (safe_p .dollar) fun _ => safe_then safe_name fun n => safe_then (safe_p .colon)
    fun _ => ?_
  intro ts ha
  refine safe_then (safe_type (ts.length + 1)) (fun t => safe_then safe_default fun d => ?_) ts ha
  intro ts ha
  split
  · exact safe_map (safe_dirs true) ts ha
  · exact ⟨by simp, fun _ _ e => by cases e; exact fun x hm => hm⟩

theorem safe_vars : Safe L (pVars L) := by
  intro ts ha
  rw [pVars.eq_def]
  split
  · next r =>
    obtain ⟨h1, h2⟩ := safe_many1 (safe_var (L := L)) r (ha.sub fun x hm => by simp [hm])
    split
    · next vs r' e =>
      refine ⟨by simp, fun _ _ e' => ?_⟩
      cases e'
      intro x hm
      have := h2 _ _ e x (by simp [hm])
      simp [this]
    · next e => exact absurd e h1
    · exact ⟨by simp, fun _ _ e => by cases e⟩
  · exact ⟨by simp, fun _ _ e => by cases e; exact fun x hm => hm⟩

theorem safe_optName : Safe L pOptName := by
  intro ts _
  unfold pOptName
  split
  · exact ⟨by simp, fun _ _ e => by cases e; exact fun x hm => by simp [hm]⟩
  · exact ⟨by simp, fun _ _ e => by cases e; exact fun x hm => hm⟩

theorem safe_common (k : Kind) : Safe L (pCommon L k) :=
  safe_then safe_optName fun _ => safe_then safe_vars fun _ => safe_then (safe_dirs false) fun _ =>
    safe_map safe_set

theorem safe_frag : Safe L (pFrag L) :=
  safe_then safe_name fun _ => safe_then (safe_ident _) fun _ => safe_then safe_name fun _ =>
    safe_then (safe_dirs false) fun _ => safe_map safe_set

theorem safe_def : Safe L (pDef L) := by
  intro ts ha
  rw [pDef.eq_def]
  split
  · next k r =>
    split
    · exact safe_after (safe_taken (safe_common .query)) _ ha
    split
    · exact safe_after (safe_taken (safe_common .mutation)) _ ha
    split
    · exact safe_after (safe_taken (safe_common .subscription)) _ ha
    split
    · exact safe_after (safe_taken safe_frag) _ ha
    · exact ⟨by simp, fun _ _ e => by cases e⟩
  · exact safe_map safe_set ts ha

theorem parse_no_crash {ts : List Tok} (h : AllRead L ts) : parseToks L ts ≠ .crash := by
  have := (safe_many1 (safe_def (L := L)) ts h).1
  unfold parseToks
  split
  · simp
  · next e => exact absurd e this
  · simp

/-! ## Block strings without white space of more than a byte -/

/-- White space is of one byte. -/
def Narrow (t : Txt) : Prop := ∀ c ∈ t, rustSpace c = true → c.utf8Size = 1

theorem bytes_cons (c : Char) (t : Txt) : bytes (c :: t) = c.utf8Size + bytes t := by
  simp [bytes]

theorem dropBytes_some : ∀ (l : Txt) (n : Nat), Narrow l → n ≤ rustIndent l → (dropBytes n l).isSome := by
  intro l
  induction l with
  | nil =>
    intro n _ hn
    cases n with
    | zero => rfl
    | succ n => simp [rustIndent, bytes] at hn
  | cons c l ih =>
    intro n hw hn
    cases n with
    | zero => rfl
    | succ n =>
      unfold rustIndent at hn
      rw [List.takeWhile_cons] at hn
      split at hn
      · next hc =>
        have h1 := hw c (by simp) hc
        rw [bytes_cons, h1] at hn
        rw [dropBytes, if_pos (by omega), h1]
        exact ih _ (fun d hd => hw d (by simp [hd])) (by unfold rustIndent; omega)
      · simp [bytes] at hn

theorem minIndent_none : ∀ ls : List (Nat × Txt), minIndent ls = none → ∀ x ∈ ls, x.1 = 0 := by
  intro ls
  induction ls with
  | nil => intro _ x hx; cases hx
  | cons z ls ih =>
    intro hm x hx
    obtain ⟨j, k⟩ := z
    rw [minIndent] at hm
    split at hm
    · next hj =>
      rcases List.mem_cons.1 hx with rfl | hx
      · exact hj
      · exact ih hm x hx
    · split at hm <;> cases hm

theorem minIndent_le : ∀ (ls : List (Nat × Txt)) (n : Nat), minIndent ls = some n →
    ∀ x ∈ ls, x.1 ≠ 0 → n ≤ rustIndent x.2 := by
  intro ls
  induction ls with
  | nil => intro n h; cases h
  | cons y ls ih =>
    intro n h x hx hx0
    obtain ⟨i, l⟩ := y
    rw [minIndent] at h
    split at h
    · next hi =>
      rcases List.mem_cons.1 hx with rfl | hx
      · exact absurd hi hx0
      · exact ih n h x hx hx0
    · split at h
      · next hm =>
        cases h
        rcases List.mem_cons.1 hx with rfl | hx
        · exact Nat.le_refl _
        · exact absurd (minIndent_none ls hm x hx) hx0
      · next m hm =>
        cases h
        rcases List.mem_cons.1 hx with rfl | hx
        · exact Nat.min_le_left _ _
        · exact Nat.le_trans (Nat.min_le_right _ _) (ih m hm x hx hx0)

theorem textLines_mem : ∀ (ls : List Txt) (i k : Nat) (l : Txt), ls[k]? = some l →
    rustIndent l ≠ bytes l → (i + k, l) ∈ textLines ls i := by
  intro ls
  induction ls with
  | nil => intro i k l h; simp at h
  | cons x ls ih =>
    intro i k l h hn
    rw [textLines]
    cases k with
    | zero =>
      simp at h
      subst h
      rw [if_neg hn]
      simp
    | succ k =>
      simp at h
      have := ih (i + 1) k l h hn
      have e : i + 1 + k = i + (k + 1) := by omega
      rw [e] at this
      split
      · exact this
      · exact List.mem_cons_of_mem _ this

theorem cutLines_some (common : Option Nat) : ∀ (ls : List Txt) (i : Nat),
    (∀ k l, ls[k]? = some l → (cutLine common (i + k) l).isSome) → (cutLines common ls i).isSome := by
  intro ls
  induction ls with
  | nil => intro i _; rfl
  | cons l ls ih =>
    intro i h
    have h1 := h 0 l (by simp)
    have h2 := ih (i + 1) fun k l hk => by
      have := h (k + 1) l (by simpa using hk)
      rwa [show i + (k + 1) = i + 1 + k by omega] at this
    rw [cutLines]
    obtain ⟨a, ha⟩ := Option.isSome_iff_exists.1 h1
    obtain ⟨b, hb⟩ := Option.isSome_iff_exists.1 h2
    rw [Nat.add_zero] at ha
    rw [ha, hb]
    rfl

theorem rustLines_narrow : ∀ (t cur : Txt), Narrow t → Narrow cur → ∀ l ∈ rustLines t cur, Narrow l := by
  intro t
  induction t with
  | nil =>
    intro cur _ hc l hl
    cases cur with
    | nil => cases hl
    | cons c cur =>
      simp only [rustLines, List.mem_singleton] at hl
      subst hl
      intro d hd
      exact hc d (List.mem_reverse.1 hd)
  | cons c t ih =>
    intro cur ht hc l hl
    have ht' : Narrow t := fun d hd => ht d (by simp [hd])
    rw [rustLines] at hl
    split at hl
    · rcases List.mem_cons.1 hl with rfl | hl
      · intro d hd
        apply hc d
        rw [← List.mem_reverse]
        unfold dropCr at hd
        split at hd
        · exact List.dropLast_subset _ hd
        · exact hd
      · exact ih [] ht' (fun d hd => by cases hd) l hl
    · refine ih (c :: cur) ht' ?_ l hl
      intro d hd
      rcases List.mem_cons.1 hd with rfl | hd
      · exact ht d (by simp)
      · exact hc d hd

theorem unquoteBlock_some {raw : Txt} (h : Narrow raw) : (unquoteBlock raw).isSome := by
  unfold unquoteBlock
  simp only
  split
  · next a b ha hb =>
    rw [Option.isSome_map]
    apply cutLines_some
    intro k l hk
    have hk' : (rustLines raw [])[a.1 + k]? = some l := by
      rw [List.getElem?_take] at hk
      split at hk
      · rwa [List.getElem?_drop] at hk
      · cases hk
    have hl := rustLines_narrow raw [] h (fun d hd => by cases hd) l (List.mem_of_getElem? hk')
    unfold cutLine
    split
    · rfl
    · next n hn =>
      split
      · next hc =>
        apply dropBytes_some l n hl
        by_cases hi : rustIndent l = bytes l
        · rw [hi]; exact hc.2
        · have := textLines_mem (rustLines raw []) 0 (a.1 + k) l hk' hi
          rw [Nat.zero_add] at this
          exact minIndent_le _ n hn _ this hc.1
      · rfl
  · rfl

end Verif.Text
