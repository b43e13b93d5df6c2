import Verif.Usage.NormalSame
import Verif.Text.Adjacent
import Verif.Text.Uniq
/-!
# The reported text reads as the reported operation
-/
namespace Verif.Usage

open Verif.Text

section
variable {F : Type}

/-! ## Tokens and their text -/

/-- Each token has a text. -/
def Lexy (ts : List Tok) : Prop := ∀ t ∈ ts, Lexeme t (tokTxt t)

theorem lexy_nil : Lexy [] := fun _ h => by cases h

theorem lexy_cons {t : Tok} {ts : List Tok} (h : Lexeme t (tokTxt t)) (hs : Lexy ts) : Lexy (t :: ts) := by
  intro x hx
  rcases List.mem_cons.1 hx with rfl | hx
  · exact h
  · exact hs x hx

theorem lexy_append {u v : List Tok} (h : Lexy u) (hs : Lexy v) : Lexy (u ++ v) := by
  intro x hx
  rcases List.mem_append.1 hx with hx | hx
  · exact h x hx
  · exact hs x hx

theorem lexy_p (p : P) {ts : List Tok} (hs : Lexy ts) : Lexy (.p p :: ts) := lexy_cons (.punct p) hs

theorem lexy_name {n : Txt} {ts : List Tok} (h : IsName n) (hs : Lexy ts) : Lexy (.name n :: ts) :=
  lexy_cons (.name n h) hs

theorem lexy_around {p q : P} {ts : List Tok} (hs : Lexy ts) : Lexy (.p p :: ts ++ [.p q]) :=
  lexy_append (lexy_p p hs) (lexy_p q lexy_nil)

theorem punct_head (p : P) : ∃ c r, p.txt = c :: r ∧ ¬ NameContinue c ∧ ¬ Digit c ∧ ¬ NameStart c ∧
    c ≠ '"' ∧ (p ≠ .dots → c ≠ '.') := by
  cases p <;> refine ⟨_, _, rfl, ?_, ?_, ?_, by decide, by decide⟩ <;>
    simp only [NameContinue, NameStart, Digit] <;> decide

theorem space_follows (t : Tok) (rest : Txt) : MayFollow t (' ' :: rest) := by
  cases t with
  | name n => simp only [MayFollow, NameContinue, NameStart, Digit]; decide
  | int raw => simp only [MayFollow, NameStart, Digit]; decide
  | float raw => simp only [MayFollow, NameStart, Digit]; decide
  | str raw =>
    cases raw with
    | nil => simp only [MayFollow]; decide
    | cons c r => trivial
  | _ => trivial

theorem mayFollow_minify {t : Tok} {ts : List Tok} (hs : Spread (t :: ts)) :
    MayFollow t (minifyToks (nonPunct t) ts) := by
  cases ts with
  | nil =>
    rw [minifyToks]
    cases t with
    | str raw => cases raw <;> trivial
    | _ => trivial
  | cons u ts =>
    rw [minifyToks]
    cases hu : nonPunct u with
    | true =>
      cases ht : nonPunct t with
      | true =>
        simp only [Bool.and_self, if_true]
        exact space_follows t _
      | false =>
        cases t with
        | p q => trivial
        | _ => cases ht
    | false =>
      cases u with
      | p q =>
        simp only [Bool.and_false, Bool.false_eq_true, if_false, List.nil_append, tokTxt]
        obtain ⟨c, r, hc, h1, h2, h3, h4, h5⟩ := punct_head q
        rw [hc]
        cases t with
        | name n => exact h1
        | int raw =>
          exact ⟨h2, h5 (fun e => hs.1 ⟨rfl, by rw [e]⟩), h3⟩
        | float raw =>
          exact ⟨h2, h5 (fun e => hs.1 ⟨rfl, by rw [e]⟩), h3⟩
        | str raw =>
          cases raw with
          | nil => exact h4
          | cons c r => trivial
        | _ => trivial
      | _ => cases hu

theorem lexes_minify : ∀ (ts : List Tok) (b : Bool), Lexy ts → Spread ts → Lexes (minifyToks b ts) ts
  | [], _, _, _ => .done
  | t :: ts, b, hl, hs => by
    rw [minifyToks]
    have h : Lexes (tokTxt t ++ minifyToks (nonPunct t) ts) (t :: ts) :=
      .tok t _ _ ts (hl t (List.mem_cons_self ..)) (mayFollow_minify hs)
        (lexes_minify ts _ (fun x hx => hl x (List.mem_cons_of_mem _ hx)) hs.tail)
    rw [List.append_assoc]
    split
    · exact .skip ' ' _ _ (by simp [Ignored]) h
    · exact h

theorem lexes_names {t : Txt} {ts : List Tok} (h : Lexes t ts) : ∀ n, Tok.name n ∈ ts → IsName n := by
  induction h with
  | done => intro n hn; cases hn
  | skip c rest ts _ _ ih => exact ih
  | comment body rest ts _ _ ih => exact ih
  | tok t text rest ts hl _ _ ih =>
    intro n hn
    rcases List.mem_cons.1 hn with rfl | hn
    · cases hl; assumption
    · exact ih n hn

/-! ## What a document of the language is made of, once it is stripped -/

/-- All names among tokens are names. -/
def Named (ts : List Tok) : Prop := ∀ n, Tok.name n ∈ ts → IsName n

theorem Named.left {u v : List Tok} (h : Named (u ++ v)) : Named u := fun n hn => h n (List.mem_append_left _ hn)
theorem Named.right {u v : List Tok} (h : Named (u ++ v)) : Named v := fun n hn => h n (List.mem_append_right _ hn)
theorem Named.tail {t : Tok} {u : List Tok} (h : Named (t :: u)) : Named u :=
  fun n hn => h n (List.mem_cons_of_mem _ hn)
theorem Named.head {m : Txt} {u : List Tok} (h : Named (.name m :: u)) : IsName m := h m (List.mem_cons_self ..)
theorem Named.inside {t t' : Tok} {u : List Tok} (h : Named (t :: u ++ [t'])) : Named u :=
  (Named.tail (u := u ++ [t']) h).left

mutual
/-- Values that are written so that they are read again. -/
def OkVal (zero : F) (c : Bool) : Val F → Prop
  | .var n => c = false ∧ IsName n
  | .int i => i = 0
  | .float f => f = zero
  | .str s => s = []
  | .bool _ => True
  | .null => True
  | .enum n => IsName n ∧ n ≠ kwTrue ∧ n ≠ kwFalse ∧ n ≠ kwNull
  | .list vs => OkVals zero c vs
  | .obj fs => OkEntries zero c fs
termination_by structural v => v
def OkVals (zero : F) (c : Bool) : List (Val F) → Prop
  | [] => True
  | v :: vs => OkVal zero c v ∧ OkVals zero c vs
termination_by structural vs => vs
def OkEntries (zero : F) (c : Bool) : List (Txt × Val F) → Prop
  | [] => True
  | e :: es => OkEntry zero c e ∧ OkEntries zero c es
termination_by structural es => es
def OkEntry (zero : F) (c : Bool) : Txt × Val F → Prop
  | (k, v) => IsName k ∧ OkVal zero c v
termination_by structural e => e
end

def OkDir (zero : F) (d : Dir F) : Prop := IsName d.name ∧ OkEntries zero false d.args

def OkDirs (zero : F) (ds : List (Dir F)) : Prop := ∀ d ∈ ds, OkDir zero d

mutual
def OkSel (zero : F) : Sel F → Prop
  | .field al n as ds ss => al = none ∧ IsName n ∧ OkEntries zero false as ∧ OkDirs zero ds ∧ OkSels zero ss
  | .spread n ds => IsName n ∧ n ≠ kwOn ∧ OkDirs zero ds
  | .inline c ds ss => (∀ n, c = some n → IsName n) ∧ OkDirs zero ds ∧ ss ≠ [] ∧ OkSels zero ss
termination_by structural s => s
def OkSels (zero : F) : List (Sel F) → Prop
  | [] => True
  | s :: ss => OkSel zero s ∧ OkSels zero ss
termination_by structural ss => ss
end

/-- Types that are written so that they are read again. -/
def OkTy : Ty → Prop
  | .named n => IsName n
  | .list t => OkTy t
  | .nonNull t => OkTy t ∧ ∀ u, t ≠ .nonNull u

def OkVar (zero : F) (v : VarDef F) : Prop :=
  IsName v.name ∧ OkTy v.ty ∧ (∀ w, v.default = some w → OkVal zero true w) ∧ v.dirs = []

def OkDef (zero : F) : Def F → Prop
  | .short ss => ss ≠ [] ∧ OkSels zero ss
  | .op _ n vs ds ss => (∀ m, n = some m → IsName m) ∧ (∀ v ∈ vs, OkVar zero v) ∧ OkDirs zero ds ∧ ss ≠ [] ∧
      OkSels zero ss
  | .frag n c ds ss => IsName n ∧ n ≠ kwOn ∧ IsName c ∧ OkDirs zero ds ∧ ss ≠ [] ∧ OkSels zero ss

theorem okEntries_iff (zero : F) (c : Bool) : ∀ es : List (Txt × Val F),
    OkEntries zero c es ↔ ∀ e ∈ es, IsName e.1 ∧ OkVal zero c e.2
  | [] => by simp [OkEntries]
  | (k, v) :: es => by
    rw [OkEntries, okEntries_iff zero c es, OkEntry]
    simp

theorem okSels_iff (zero : F) : ∀ ss : List (Sel F), OkSels zero ss ↔ ∀ s ∈ ss, OkSel zero s
  | [] => by simp [OkSels]
  | s :: ss => by
    rw [OkSels, okSels_iff zero ss]
    simp

variable {S : Floats F}

mutual
theorem ok_val {zero : F} : ∀ {c : Bool} {ts : List Tok} {v : Val F}, GVal S c ts v → Named ts →
    OkVal zero c (stripVal zero v)
  | _, _, _, .var n, h => by rw [stripVal, OkVal]; exact ⟨rfl, h.tail.head⟩
  | _, _, _, .int _ _, _ => by rw [stripVal, OkVal]
  | _, _, _, .float _ _ _, _ => by rw [stripVal, OkVal]
  | _, _, _, .str _ _ _ _, _ => by rw [stripVal, OkVal]
  | _, _, _, .block _ _, _ => by rw [stripVal, OkVal]
  | _, _, _, .tru _, _ => by rw [stripVal, OkVal]; trivial
  | _, _, _, .fals _, _ => by rw [stripVal, OkVal]; trivial
  | _, _, _, .null _, _ => by rw [stripVal, OkVal]; trivial
  | _, _, _, .enum _ _ h1 h2 h3, h => by rw [stripVal, OkVal]; exact ⟨h.head, h1, h2, h3⟩
  | _, _, _, .list _ _ _ hg, h => by rw [stripVal, OkVal]; exact ok_vals hg h.inside
  | _, _, _, .obj _ _ _ hg, h => by rw [stripVal, OkVal]; exact ok_entries hg h.inside
theorem ok_vals {zero : F} : ∀ {c : Bool} {ts : List Tok} {v : List (Val F)}, GVals S c ts v → Named ts →
    OkVals zero c (stripVals zero v)
  | _, _, _, .nil _, _ => by rw [stripVals, OkVals]; trivial
  | _, _, _, .cons _ _ _ _ _ hg hgs, h => by
    rw [stripVals, OkVals]
    exact ⟨ok_val hg h.left, ok_vals hgs h.right⟩
theorem ok_entries {zero : F} : ∀ {c : Bool} {ts : List Tok} {v : List (Txt × Val F)}, GEntries S c ts v →
    Named ts → OkEntries zero c (stripEntries zero v)
  | _, _, _, .nil _, _ => by rw [stripEntries, OkEntries]; trivial
  | _, _, _, .cons _ _ t ts _ _ hg hgs, h => by
    rw [stripEntries, OkEntries, stripEntry, OkEntry]
    have h' : Named (t ++ ts) := Named.tail (Named.tail h)
    exact ⟨⟨Named.head (u := .p .colon :: (t ++ ts)) h, ok_val hg h'.left⟩, ok_entries hgs h'.right⟩
end

theorem ok_args {zero : F} {c : Bool} {ts : List Tok} {as : List (Txt × Val F)} (hg : GArgs S c ts as)
    (h : Named ts) : OkEntries zero c (stripEntries zero as) := by
  cases hg with
  | none => rw [stripEntries, OkEntries]; trivial
  | some ts fs _ hg => exact ok_entries hg h.inside

theorem ok_dirs {zero : F} {ts : List Tok} {ds : List (Dir F)} {c : Bool} (hg : GDirs S c ts ds) :
    c = false → Named ts → OkDirs zero (ds.map (stripDir zero)) := by
  induction hg with
  | nil => intro _ _ d hd; cases hd
  | cons n t ts as ds ha _ ih =>
    rintro rfl h d hd
    have h' : Named (t ++ ts) := Named.tail (Named.tail h)
    rcases List.mem_cons.1 hd with rfl | hd
    · exact ⟨Named.head (u := t ++ ts) (Named.tail h), ok_args ha h'.left⟩
    · exact ih rfl h'.right d hd

theorem stripSels_ne {zero : F} {ss : List (Sel F)} (h : ss ≠ []) : stripSels zero ss ≠ [] := by
  cases ss with
  | nil => exact absurd rfl h
  | cons s ss => rw [stripSels]; simp

mutual
theorem ok_sel {zero : F} : ∀ {ts : List Tok} {s : Sel F}, GSel S ts s → Named ts → OkSel zero (stripSel zero s)
  | _, _, .leaf _ n ta t d _ _ _ ha hd, h => by
    rw [stripSel, OkSel]
    have h1 : Named (.name n :: t ++ d) := by
      have : Named (ta ++ (.name n :: t ++ d)) := by simpa [List.append_assoc] using h
      exact this.right
    have h2 : Named (t ++ d) := Named.tail h1
    refine ⟨rfl, Named.head (u := t ++ d) h1, ok_args ha h2.left, ok_dirs hd rfl h2.right, ?_⟩
    rw [stripSels, OkSels]
    trivial
  | _, _, .field _ n ta t d b _ _ ss _ ha hd hs, h => by
    rw [stripSel, OkSel]
    have h1 : Named (.name n :: t ++ d ++ b) := by
      have : Named (ta ++ (.name n :: t ++ d ++ b)) := by simpa [List.append_assoc] using h
      exact this.right
    have h2 : Named (t ++ (d ++ b)) := by
      have : Named (.name n :: (t ++ (d ++ b))) := by simpa [List.append_assoc] using h1
      exact Named.tail this
    exact ⟨rfl, Named.head (u := t ++ d ++ b) h1, ok_args ha h2.left, ok_dirs hd rfl h2.right.left,
      (ok_set hs h2.right.right).2⟩
  | _, _, .spread n d _ hn hd, h => by
    rw [stripSel, OkSel]
    exact ⟨Named.head (Named.tail h), hn, ok_dirs hd rfl (Named.tail (Named.tail h))⟩
  | _, _, .inlineOn n d b _ _ hd hs, h => by
    rw [stripSel, OkSel]
    have h1 : Named (.name n :: (d ++ b)) := Named.tail (Named.tail h)
    refine ⟨?_, ok_dirs hd rfl h1.tail.left, ok_set hs h1.tail.right⟩
    rintro m hm
    cases hm
    exact h1.head
  | _, _, .inline d b _ _ hd hs, h => by
    rw [stripSel, OkSel]
    have h1 : Named (d ++ b) := Named.tail h
    exact ⟨fun m hm => by (cases hm), ok_dirs hd rfl h1.left, ok_set hs h1.right⟩
theorem ok_set {zero : F} : ∀ {ts : List Tok} {ss : List (Sel F)}, GSet S ts ss → Named ts →
    stripSels zero ss ≠ [] ∧ OkSels zero (stripSels zero ss)
  | _, _, .mk _ _ hne hs, h => ⟨stripSels_ne hne, ok_sels hs h.inside⟩
theorem ok_sels {zero : F} : ∀ {ts : List Tok} {ss : List (Sel F)}, GSels S ts ss → Named ts →
    OkSels zero (stripSels zero ss)
  | _, _, .nil, _ => by rw [stripSels, OkSels]; trivial
  | _, _, .cons _ _ _ _ hg hgs, h => by
    rw [stripSels, OkSels]
    exact ⟨ok_sel hg h.left, ok_sels hgs h.right⟩
end

theorem ok_type {ts : List Tok} {t : Ty} (hg : GType ts t) : Named ts → OkTy t := by
  induction hg with
  | named n => exact fun h => h.head
  | list ts t _ ih => exact fun h => ih h.inside
  | nonNull ts t _ hn ih => exact fun h => ⟨ih h.left, hn⟩

theorem ok_vars {zero : F} {ts : List Tok} {vs : List (VarDef F)} (hg : GVars S ts vs) : Named ts →
    ∀ v ∈ vs.map (stripVar zero), OkVar zero v := by
  induction hg with
  | nil => intro _ v hv; cases hv
  | cons n t d e ts ty dv ds vs ht hd _ _ ih =>
    intro h v hv
    have h1 : Named (t ++ (d ++ (e ++ ts))) := by
      have : Named (.p .dollar :: .name n :: .p .colon :: (t ++ (d ++ (e ++ ts)))) := by
        simpa [List.append_assoc] using h
      exact this.tail.tail.tail
    rcases List.mem_cons.1 hv with rfl | hv
    · refine ⟨h n (by simp), ok_type ht h1.left, ?_, rfl⟩
      intro w hw
      unfold stripVar at hw
      simp only at hw
      cases hd with
      | none => cases hw
      | some t' v' hv' =>
        cases hw
        exact ok_val hv' (Named.tail h1.right.left)
    · exact ih h1.right.right.right v hv

theorem ok_def {zero : F} {ts : List Tok} {d : Def F} (hg : GDef S ts d) (h : Named ts) :
    OkDef zero (stripDef zero d) := by
  cases hg with
  | short _ ss hs => exact ok_set hs h
  | op k nm tn tv d b vs ds ss hn hv hd hs =>
    have h1 : Named (tn ++ (tv ++ (d ++ b))) := by
      have : Named (.name (kwKind k) :: (tn ++ (tv ++ (d ++ b)))) := by simpa [List.append_assoc] using h
      exact this.tail
    refine ⟨?_, ?_, ok_dirs hd rfl h1.right.right.left, ok_set hs h1.right.right.right⟩
    · rintro m rfl
      cases hn
      exact h1.left.head
    · cases hv with
      | none => intro v hv; cases hv
      | some ts vs _ hv => exact ok_vars hv h1.right.left.inside
  | frag n c d b ds ss hn hd hs =>
    have h1 : Named (d ++ b) := by
      have : Named (.name kwFragment :: .name n :: .name kwOn :: .name c :: (d ++ b)) := by
        simpa [List.append_assoc] using h
      exact this.tail.tail.tail.tail
    exact ⟨h n (by simp), hn, h c (by simp), ok_dirs hd rfl h1.left, ok_set hs h1.right⟩

theorem ok_defs {zero : F} {ts : List Tok} {ds : List (Def F)} (hg : GDefs S ts ds) : Named ts →
    ∀ d ∈ strip zero ds, OkDef zero d := by
  induction hg with
  | nil => intro _ d hd; cases hd
  | cons t ts d ds hg _ ih =>
    intro h x hx
    rcases List.mem_cons.1 hx with rfl | hx
    · exact ok_def hg h.left
    · exact ih h.right x hx

/-! ## Sorting keeps it -/

variable (R : Sorter)

theorem sort_okArgs {zero : F} {c : Bool} {as : List (Txt × Val F)} (h : OkEntries zero c as) :
    OkEntries zero c (sortArgs R as) := by
  rw [okEntries_iff] at h ⊢
  exact fun e he => h e ((R.mem _ _ _).1 he)

theorem sort_okDirs {zero : F} {ds : List (Dir F)} (h : OkDirs zero ds) : OkDirs zero (sortDirs R ds) := by
  intro d hd
  obtain ⟨d', hd', rfl⟩ := List.mem_map.1 ((R.mem _ _ _).1 hd)
  exact ⟨(h d' hd').1, sort_okArgs R (h d' hd').2⟩

theorem sort_ne {α : Type} {k : α → List Nat} {l : List α} (h : l ≠ []) : R.sort k l ≠ [] := by
  intro e
  have := R.perm k l
  rw [e] at this
  exact h this.nil_eq.symm

theorem sortEach_ne {ss : List (Sel F)} (h : ss ≠ []) : sortEach R ss ≠ [] := by
  cases ss with
  | nil => exact absurd rfl h
  | cons s ss => rw [sortEach]; simp

mutual
theorem sort_okSel {zero : F} : ∀ {s : Sel F}, OkSel zero s → OkSel zero (sortSel R s)
  | .field _ _ as ds ss, h => by
    rw [OkSel] at h
    rw [sortSel, OkSel]
    refine ⟨h.1, h.2.1, sort_okArgs R h.2.2.1, sort_okDirs R h.2.2.2.1, ?_⟩
    rw [okSels_iff]
    exact fun s hs => (okSels_iff zero _).1 (sort_okEach h.2.2.2.2) s ((R.mem _ _ _).1 hs)
  | .spread _ ds, h => by rw [sortSel]; exact h
  | .inline _ ds ss, h => by
    rw [OkSel] at h
    rw [sortSel, OkSel]
    refine ⟨h.1, sort_okDirs R h.2.1, sort_ne R (sortEach_ne R h.2.2.1), ?_⟩
    rw [okSels_iff]
    exact fun s hs => (okSels_iff zero _).1 (sort_okEach h.2.2.2) s ((R.mem _ _ _).1 hs)
theorem sort_okEach {zero : F} : ∀ {ss : List (Sel F)}, OkSels zero ss → OkSels zero (sortEach R ss)
  | [], _ => by rw [sortEach, OkSels]; trivial
  | s :: ss, h => by
    rw [OkSels] at h
    rw [sortEach, OkSels]
    exact ⟨sort_okSel h.1, sort_okEach h.2⟩
end

theorem sort_okSels {zero : F} {ss : List (Sel F)} (h : ss ≠ [] ∧ OkSels zero ss) :
    sortSels R ss ≠ [] ∧ OkSels zero (sortSels R ss) := by
  refine ⟨sort_ne R (sortEach_ne R h.1), ?_⟩
  unfold sortSels
  rw [okSels_iff]
  exact fun s hs => (okSels_iff zero _).1 (sort_okEach R h.2) s ((R.mem _ _ _).1 hs)

theorem sort_okDef {zero : F} {d : Def F} (h : OkDef zero d) : OkDef zero (sortDef R d) := by
  cases d with
  | short ss => exact sort_okSels R h
  | op k n vs ds ss =>
    exact ⟨h.1, fun v hv => h.2.1 v ((R.mem _ _ _).1 hv), sort_okDirs R h.2.2.1, sort_okSels R h.2.2.2⟩
  | frag n c ds ss =>
    exact ⟨h.1, h.2.1, h.2.2.1, fun d hd => h.2.2.2.1 d ((R.mem _ _ _).1 hd), sort_okSels R h.2.2.2.2⟩

/-! ## The tokens that are written -/

variable {num : F → Txt} {zero : F}

/-- The text of zero as `ryu` writes it. -/
def zeroTxt : Txt := ['0', '.', '0']

theorem zero_float : IsFloat zeroTxt :=
  ⟨['0'], ['.', '0'], [], rfl, .inl (.inl rfl),
    .inl ⟨⟨['0'], rfl, by simp, by simp only [Digit]; decide⟩, rfl⟩⟩

theorem zero_int : IsInt (intTxt 0) := .inl (.inl rfl)

theorem kw_name {n : Txt} (h : n = kwTrue ∨ n = kwFalse ∨ n = kwNull ∨ n = kwOn ∨ n = kwFragment ∨
    ∃ k, n = kwKind k) : IsName n := by
  rcases h with rfl | rfl | rfl | rfl | rfl | ⟨k, rfl⟩
  all_goals try (refine ⟨_, _, rfl, ?_, ?_⟩ <;> simp only [NameContinue, NameStart, Digit] <;> decide)
  cases k <;> refine ⟨_, _, rfl, ?_, ?_⟩ <;> simp only [NameContinue, NameStart, Digit] <;> decide

mutual
theorem write_val (hn : num zero = zeroTxt) (hz : S.read zeroTxt = zero) {c : Bool} : ∀ {v : Val F},
    OkVal zero c v → GVal S c (valToks num v) v ∧ Lexy (valToks num v)
  | .var n, h => by
    rw [OkVal] at h
    obtain ⟨rfl, h⟩ := h
    rw [valToks]
    exact ⟨.var n, lexy_p _ (lexy_name h lexy_nil)⟩
  | .int i, h => by
    rw [OkVal] at h
    subst h
    rw [valToks]
    exact ⟨.int c (intTxt 0), lexy_cons (.int _ zero_int) lexy_nil⟩
  | .float f, h => by
    rw [OkVal] at h
    subst h
    rw [valToks, hn]
    refine ⟨?_, lexy_cons (.float _ zero_float) lexy_nil⟩
    have := GVal.float (S := S) c zeroTxt zero_float
    rwa [hz] at this
  | .str s, h => by
    rw [OkVal] at h
    subst h
    rw [valToks]
    exact ⟨.str c [] [] .nil, lexy_cons (.str [] [] .nil) lexy_nil⟩
  | .bool b, _ => by
    rw [valToks]
    cases b with
    | true => exact ⟨.tru c, lexy_name (kw_name (.inl rfl)) lexy_nil⟩
    | false => exact ⟨.fals c, lexy_name (kw_name (.inr (.inl rfl))) lexy_nil⟩
  | .null, _ => by
    rw [valToks]
    exact ⟨.null c, lexy_name (kw_name (.inr (.inr (.inl rfl)))) lexy_nil⟩
  | .enum n, h => by
    rw [OkVal] at h
    rw [valToks]
    exact ⟨.enum c n h.2.1 h.2.2.1 h.2.2.2, lexy_name h.1 lexy_nil⟩
  | .list vs, h => by
    rw [OkVal] at h
    rw [valToks]
    have := write_vals hn hz h
    exact ⟨.list c _ _ this.1, lexy_around this.2⟩
  | .obj fs, h => by
    rw [OkVal] at h
    rw [valToks]
    have := write_entries hn hz h
    exact ⟨.obj c _ _ this.1, lexy_around this.2⟩
theorem write_vals (hn : num zero = zeroTxt) (hz : S.read zeroTxt = zero) {c : Bool} : ∀ {vs : List (Val F)},
    OkVals zero c vs → GVals S c (valsToks num vs) vs ∧ Lexy (valsToks num vs)
  | [], _ => by rw [valsToks]; exact ⟨.nil c, lexy_nil⟩
  | v :: vs, h => by
    rw [OkVals] at h
    rw [valsToks]
    have h1 := write_val hn hz h.1
    have h2 := write_vals hn hz h.2
    exact ⟨.cons c _ _ _ _ h1.1 h2.1, lexy_append h1.2 h2.2⟩
theorem write_entries (hn : num zero = zeroTxt) (hz : S.read zeroTxt = zero) {c : Bool} :
    ∀ {es : List (Txt × Val F)}, OkEntries zero c es →
      GEntries S c (entriesToks num es) es ∧ Lexy (entriesToks num es)
  | [], _ => by rw [entriesToks]; exact ⟨.nil c, lexy_nil⟩
  | (k, v) :: es, h => by
    rw [OkEntries, OkEntry] at h
    rw [entriesToks, entryToks]
    have h1 := write_val hn hz h.1.2
    have h2 := write_entries hn hz h.2
    exact ⟨.cons c k _ _ _ _ h1.1 h2.1, lexy_append (lexy_name h.1.1 (lexy_p _ h1.2)) h2.2⟩
end

theorem write_args (hn : num zero = zeroTxt) (hz : S.read zeroTxt = zero) {c : Bool} {as : List (Txt × Val F)}
    (h : OkEntries zero c as) : GArgs S c (argsToks num as) as ∧ Lexy (argsToks num as) := by
  unfold argsToks
  cases as with
  | nil => exact ⟨.none c, lexy_nil⟩
  | cons a as =>
    rw [if_neg (by simp)]
    have := write_entries hn hz h
    exact ⟨.some c _ _ (by simp) this.1, lexy_around this.2⟩

theorem write_dirs (hn : num zero = zeroTxt) (hz : S.read zeroTxt = zero) : ∀ {ds : List (Dir F)},
    OkDirs zero ds → GDirs S false (dirsToks num ds) ds ∧ Lexy (dirsToks num ds)
  | [], _ => ⟨.nil false, lexy_nil⟩
  | d :: ds, h => by
    rw [dirsToks]
    have h0 := h d (List.mem_cons_self ..)
    have h1 := write_args hn hz h0.2
    have h2 := write_dirs hn hz fun d hd => h d (List.mem_cons_of_mem _ hd)
    exact ⟨.cons false d.name _ _ _ _ h1.1 h2.1, lexy_append (lexy_p _ (lexy_name h0.1 h1.2)) h2.2⟩

mutual
theorem write_sel (hn : num zero = zeroTxt) (hz : S.read zeroTxt = zero) : ∀ {s : Sel F}, OkSel zero s →
    GSel S (selToks num s) s ∧ Lexy (selToks num s)
  | .field al n as ds ss, h => by
    rw [OkSel] at h
    obtain ⟨rfl, h0, h1, h2, h3⟩ := h
    rw [selToks]
    have h1 := write_args hn hz h1
    have h2 := write_dirs hn hz h2
    have h3 := write_sels hn hz h3
    cases ss with
    | nil =>
      simp only [List.isEmpty_nil, if_true, List.append_nil, List.nil_append]
      exact ⟨.leaf none n [] _ _ _ _ .none h1.1 h2.1, lexy_append (lexy_name h0 h1.2) h2.2⟩
    | cons s ss =>
      simp only [List.isEmpty_cons, Bool.false_eq_true, if_false, List.nil_append]
      exact ⟨.field none n [] _ _ _ _ _ _ .none h1.1 h2.1 (.mk _ _ (by simp) h3.1),
        lexy_append (lexy_append (lexy_name h0 h1.2) h2.2) (lexy_around h3.2)⟩
  | .spread n ds, h => by
    rw [OkSel] at h
    rw [selToks]
    have h2 := write_dirs hn hz h.2.2
    exact ⟨.spread n _ _ h.2.1 h2.1, lexy_p _ (lexy_name h.1 h2.2)⟩
  | .inline c ds ss, h => by
    rw [OkSel] at h
    have h2 := write_dirs hn hz h.2.1
    have h3 := write_sels hn hz h.2.2.2
    have hs : GSet S (.p .lcur :: selsToks num ss ++ [.p .rcur]) ss := .mk _ _ h.2.2.1 h3.1
    cases c with
    | none =>
      rw [selToks]
      exact ⟨.inline _ _ _ _ h2.1 hs, lexy_append (lexy_p _ h2.2) (lexy_around h3.2)⟩
    | some n =>
      rw [selToks]
      refine ⟨.inlineOn n _ _ _ _ h2.1 hs, lexy_append ?_ (lexy_around h3.2)⟩
      exact lexy_p _ (lexy_name (kw_name (.inr (.inr (.inr (.inl rfl))))) (lexy_name (h.1 n rfl) h2.2))
theorem write_sels (hn : num zero = zeroTxt) (hz : S.read zeroTxt = zero) : ∀ {ss : List (Sel F)},
    OkSels zero ss → GSels S (selsToks num ss) ss ∧ Lexy (selsToks num ss)
  | [], _ => by rw [selsToks]; exact ⟨.nil, lexy_nil⟩
  | s :: ss, h => by
    rw [OkSels] at h
    rw [selsToks]
    have h1 := write_sel hn hz h.1
    have h2 := write_sels hn hz h.2
    exact ⟨.cons _ _ _ _ h1.1 h2.1, lexy_append h1.2 h2.2⟩
end

theorem write_set (hn : num zero = zeroTxt) (hz : S.read zeroTxt = zero) {ss : List (Sel F)}
    (h : ss ≠ [] ∧ OkSels zero ss) : GSet S (setToks num ss) ss ∧ Lexy (setToks num ss) := by
  have := write_sels hn hz h.2
  exact ⟨.mk _ _ h.1 this.1, lexy_around this.2⟩

theorem write_ty : ∀ {t : Ty}, OkTy t → GType (tyToks t) t ∧ Lexy (tyToks t)
  | .named n, h => ⟨.named n, lexy_name h lexy_nil⟩
  | .list t, h => by
    have := write_ty (t := t) h
    exact ⟨.list _ _ this.1, lexy_around this.2⟩
  | .nonNull t, h => by
    have := write_ty (t := t) h.1
    exact ⟨.nonNull _ _ this.1 h.2, lexy_append this.2 (lexy_p _ lexy_nil)⟩

theorem write_vars (hn : num zero = zeroTxt) (hz : S.read zeroTxt = zero) : ∀ {vs : List (VarDef F)},
    (∀ v ∈ vs, OkVar zero v) → GVars S (varsToks num vs) vs ∧ Lexy (varsToks num vs)
  | [], _ => ⟨.nil, lexy_nil⟩
  | ⟨n, ty, dv, ds⟩ :: vs, h => by
    rw [varsToks]
    have h0 := h _ (List.mem_cons_self ..)
    have hd : ds = [] := h0.2.2.2
    subst hd
    have h1 := write_ty h0.2.1
    have h2 := write_vars hn hz fun v hv => h v (List.mem_cons_of_mem _ hv)
    cases dv with
    | none =>
      have g := GVars.cons (S := S) n _ [] [] _ ty none [] vs h1.1 .none (.nil true) h2.1
      simp only [List.append_nil] at g ⊢
      exact ⟨g, lexy_append (lexy_p _ (lexy_name h0.1 (lexy_p _ h1.2))) h2.2⟩
    | some w =>
      have h3 := write_val hn hz (h0.2.2.1 w rfl)
      have g := GVars.cons (S := S) n _ _ [] _ ty (some w) [] vs h1.1 (.some _ _ h3.1) (.nil true) h2.1
      simp only [List.append_nil] at g ⊢
      exact ⟨g, lexy_append (lexy_append (lexy_p _ (lexy_name h0.1 (lexy_p _ h1.2))) (lexy_p _ h3.2)) h2.2⟩

theorem write_varDefs (hn : num zero = zeroTxt) (hz : S.read zeroTxt = zero) {vs : List (VarDef F)}
    (h : ∀ v ∈ vs, OkVar zero v) : GVarDefs S (varDefsToks num vs) vs ∧ Lexy (varDefsToks num vs) := by
  unfold varDefsToks
  cases vs with
  | nil => exact ⟨.none, lexy_nil⟩
  | cons v vs =>
    rw [List.isEmpty_cons, if_neg (by simp)]
    have := write_vars hn hz h
    exact ⟨.some _ _ (by simp) this.1, lexy_around this.2⟩

theorem write_def (hn : num zero = zeroTxt) (hz : S.read zeroTxt = zero) {d : Def F} (h : OkDef zero d) :
    GDef S (defToks num d) d ∧ Lexy (defToks num d) := by
  cases d with
  | short ss =>
    have := write_set hn hz h
    exact ⟨.short _ _ this.1, this.2⟩
  | op k n vs ds ss =>
    have h1 := write_varDefs hn hz h.2.1
    have h2 := write_dirs hn hz h.2.2.1
    have h3 := write_set hn hz h.2.2.2
    have hk : IsName (kwKind k) := kw_name (.inr (.inr (.inr (.inr (.inr ⟨k, rfl⟩)))))
    cases n with
    | none =>
      exact ⟨.op k none [] _ _ _ _ _ _ .none h1.1 h2.1 h3.1,
        lexy_append (lexy_append (lexy_name hk h1.2) h2.2) h3.2⟩
    | some n =>
      exact ⟨.op k (some n) [.name n] _ _ _ _ _ _ (.some n) h1.1 h2.1 h3.1,
        lexy_append (lexy_append (lexy_name hk (lexy_name (h.1 n rfl) h1.2)) h2.2) h3.2⟩
  | frag n c ds ss =>
    have h2 := write_dirs hn hz h.2.2.2.1
    have h3 := write_set hn hz h.2.2.2.2
    exact ⟨.frag n c _ _ _ _ h.2.1 h2.1 h3.1,
      lexy_append (lexy_name (kw_name (.inr (.inr (.inr (.inr (.inl rfl)))))) (lexy_name h.1
        (lexy_name (kw_name (.inr (.inr (.inr (.inl rfl))))) (lexy_name h.2.2.1 h2.2)))) h3.2⟩

theorem write_defs (hn : num zero = zeroTxt) (hz : S.read zeroTxt = zero) : ∀ {d : Doc F},
    (∀ x ∈ d, OkDef zero x) → GDefs S (docToks num d) d ∧ Lexy (docToks num d)
  | [], _ => ⟨.nil, lexy_nil⟩
  | x :: d, h => by
    have h1 := write_def hn hz (h x (List.mem_cons_self ..))
    have h2 := write_defs hn hz fun y hy => h y (List.mem_cons_of_mem _ hy)
    exact ⟨.cons _ _ _ _ h1.1 h2.1, lexy_append h1.2 h2.2⟩

theorem grammar_spread {ts : List Tok} {d : Doc F} (hg : GDoc S ts d) : Spread ts := by
  have ho : ∀ d : Def F, DefDirsOk (idealLits S) d := by
    intro d
    cases d with
    | op => exact .inl rfl
    | _ => trivial
  exact accepted_spread (parse_complete hg (ideal_faithful S _) (fun d _ => ho d))

/-- C105. The reported text of a document of the language reads as the operation that is reported, and as
nothing else. -/
theorem C105_reads (hn : num zero = zeroTxt) (hz : S.read zeroTxt = zero) (t : Txt) (d : Doc F)
    (h : Reads S t d) : Reads S (reported R num zero d) (normalize R zero d) ∧
      ∀ e, Reads S (reported R num zero d) e → e = normalize R zero d := by
  obtain ⟨ts, hl, hne, hg⟩ := h
  have hok : ∀ x ∈ normalize R zero d, OkDef zero x := by
    intro x hx
    obtain ⟨y, hy, rfl⟩ := List.mem_map.1 ((R.mem _ _ _).1 hx)
    exact sort_okDef R (ok_defs hg (lexes_names hl) y hy)
  have hw := write_defs (S := S) hn hz hok
  have hgd : GDoc S (docToks num (normalize R zero d)) (normalize R zero d) := by
    refine ⟨sort_ne R ?_, hw.1⟩
    unfold strip
    simpa using hne
  have hr : Reads S (reported R num zero d) (normalize R zero d) :=
    ⟨_, lexes_minify _ false hw.2 (grammar_spread hgd), hgd⟩
  exact ⟨hr, fun e he => reads_unique he hr⟩

/-- C105. Documents that are reported with the same text are the same up to literals, aliases and order. -/
theorem C105_apart (hn : num zero = zeroTxt) (hz : S.read zeroTxt = zero) (t t' : Txt) (d d' : Doc F)
    (h : Reads S t d) (h' : Reads S t' d') (hv : NoVarDirs d) (hv' : NoVarDirs d')
    (e : reported R num zero d = reported R num zero d') :
    ∃ m, SameDoc true d m ∧ SameDoc true d' m := by
  have h1 := (C105_reads R hn hz t d h).1
  have h2 := (C105_reads R hn hz t' d' h').1
  rw [e] at h1
  have := reads_unique h1 h2
  exact ⟨normalize R zero d, C105_same R zero d hv, this ▸ C105_same R zero d' hv'⟩

/-- C104. What can be read in the reported text of a document of the language: no literal but zeros and
empty strings, no alias. -/
theorem C104_reads (hn : num zero = zeroTxt) (hz : S.read zeroTxt = zero) (t : Txt) (d e : Doc F)
    (h : Reads S t d) (he : Reads S (reported R num zero d) e) : CleanDoc zero e := by
  rw [(C105_reads R hn hz t d h).2 e he]
  exact C104_clean R zero d

end
end Verif.Usage
