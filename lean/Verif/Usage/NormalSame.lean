import Verif.Usage.NormalClean
import Mathlib.Data.List.Nodup
/-!
# What is reported is the operation, up to order
-/
namespace Verif.Usage

open Verif.Text

section
variable {F : Type}

mutual
theorem like_refl (zero : F) : ∀ v : Val F, LikeVal v (stripVal zero v)
  | .var _ => by rw [stripVal]; exact .var _
  | .int _ => by rw [stripVal]; exact .int _ _
  | .float _ => by rw [stripVal]; exact .float _ _
  | .str _ => by rw [stripVal]; exact .str _ _
  | .bool _ => by rw [stripVal]; exact .bool _
  | .null => by rw [stripVal]; exact .null
  | .enum _ => by rw [stripVal]; exact .enum _
  | .list vs => by rw [stripVal]; exact .list _ _ (likes_refl zero vs)
  | .obj fs => by rw [stripVal]; exact .obj _ _ (likeEntries_refl zero fs)
theorem likes_refl (zero : F) : ∀ v : List (Val F), LikeVals v (stripVals zero v)
  | [] => by rw [stripVals]; exact .nil
  | v :: vs => by rw [stripVals]; exact .cons _ _ _ _ (like_refl zero v) (likes_refl zero vs)
theorem likeEntries_refl (zero : F) : ∀ v : List (Txt × Val F), LikeEntries v (stripEntries zero v)
  | [] => by rw [stripEntries]; exact .nil
  | (k, v) :: vs => by
    rw [stripEntries, stripEntry]
    exact .cons _ _ _ _ _ (like_refl zero v) (likeEntries_refl zero vs)
end

theorem sameArgs_map (p : Bool) (zero : F) : ∀ as : List (Txt × Val F), SameArgs p as (stripEntries zero as)
  | [] => by rw [stripEntries]; exact .nil
  | (k, v) :: as => by
    rw [stripEntries, stripEntry]
    exact .cons _ _ _ _ _ (like_refl zero v) (sameArgs_map p zero as)

variable (S : Sorter)

theorem sameArgs_sort (zero : F) (as : List (Txt × Val F)) : SameArgs true as (sortArgs S (stripEntries zero as)) :=
  .perm _ _ _ rfl (sameArgs_map true zero as) (S.perm _ _).symm

theorem sameDirs_plain (zero : F) : ∀ ds : List (Dir F), SameDirs true ds (ds.map (stripDir zero))
  | [] => .nil
  | ⟨n, as⟩ :: ds => .cons _ _ _ _ _ (sameArgs_map true zero as) (sameDirs_plain zero ds)

theorem sameDirs_each (zero : F) : ∀ ds : List (Dir F), SameDirs true ds
    ((ds.map (stripDir zero)).map fun d => ⟨d.name, sortArgs S d.args⟩)
  | [] => .nil
  | ⟨n, as⟩ :: ds => .cons _ _ _ _ _ (sameArgs_sort S zero as) (sameDirs_each zero ds)

theorem sameDirs_sort (zero : F) (ds : List (Dir F)) :
    SameDirs true ds (sortDirs S (ds.map (stripDir zero))) :=
  .perm _ _ _ rfl (sameDirs_each S zero ds) (S.perm _ _).symm

mutual
theorem sameSel_sort (zero : F) : ∀ s : Sel F, SameSel true s (sortSel S (stripSel zero s))
  | .field al n as ds ss => by
    rw [stripSel, sortSel]
    exact .field _ _ _ _ _ _ _ _ _ (sameArgs_sort S zero as) (sameDirs_sort S zero ds)
      (.perm _ _ _ rfl (sameSels_each zero ss) (S.perm _ _).symm)
  | .spread n ds => by rw [stripSel, sortSel]; exact .spread _ _ _ (sameDirs_plain zero ds)
  | .inline c ds ss => by
    rw [stripSel, sortSel]
    exact .inline _ _ _ _ _ (sameDirs_sort S zero ds)
      (.perm _ _ _ rfl (sameSels_each zero ss) (S.perm _ _).symm)
theorem sameSels_each (zero : F) : ∀ ss : List (Sel F), SameSels true ss (sortEach S (stripSels zero ss))
  | [] => by rw [stripSels, sortEach]; exact .nil
  | s :: ss => by
    rw [stripSels, sortEach]
    exact .cons _ _ _ _ (sameSel_sort zero s) (sameSels_each zero ss)
end

theorem sameSels_sort (zero : F) (ss : List (Sel F)) : SameSels true ss (sortSels S (stripSels zero ss)) :=
  .perm _ _ _ rfl (sameSels_each S zero ss) (S.perm _ _).symm

theorem sameVars_map (zero : F) : ∀ vs : List (VarDef F), (∀ v ∈ vs, v.dirs = []) →
    SameVars true vs (vs.map (stripVar zero))
  | [], _ => .nil
  | ⟨n, ty, v, ds⟩ :: vs, h => by
    have : ds = [] := h _ (List.mem_cons_self ..)
    subst this
    refine .cons _ _ _ _ _ _ ?_ (sameVars_map zero vs fun v hv => h v (List.mem_cons_of_mem _ hv))
    cases v with
    | none => exact .none
    | some v => exact .some _ _ (like_refl zero v)

theorem sameDef_sort (zero : F) (d : Def F)
    (h : ∀ k n vs ds ss, d = .op k n vs ds ss → ∀ v ∈ vs, v.dirs = []) :
    SameDef true d (sortDef S (stripDef zero d)) := by
  cases d with
  | short ss => exact .short _ _ (sameSels_sort S zero ss)
  | op k n vs ds ss =>
    exact .op _ _ _ _ _ _ _ _ (.perm _ _ _ rfl (sameVars_map zero vs (h _ _ _ _ _ rfl)) (S.perm _ _).symm)
      (sameDirs_sort S zero ds) (sameSels_sort S zero ss)
  | frag n c ds ss =>
    exact .frag _ _ _ _ _ _ (.perm _ _ _ rfl (sameDirs_plain zero ds) (S.perm _ _).symm)
      (sameSels_sort S zero ss)

theorem sameDoc_each (zero : F) : ∀ d : Doc F, NoVarDirs d →
    SameDoc true d ((strip zero d).map (sortDef S))
  | [], _ => .nil
  | x :: d, h => by
    refine .cons _ _ _ _ (sameDef_sort S zero x ?_) (sameDoc_each zero d ?_)
    · rintro k n vs ds ss rfl
      exact h k n vs ds ss (List.mem_cons_self ..)
    · exact fun k n vs ds ss hm => h k n vs ds ss (List.mem_cons_of_mem _ hm)

/-- C105. What is reported is the operation itself, up to literals, aliases and order. -/
theorem C105_same (zero : F) (d : Doc F) (hv : NoVarDirs d) : SameDoc true d (normalize S zero d) :=
  .perm _ _ _ rfl (sameDoc_each S zero d hv) (S.perm _ _).symm

/-! ## Where order does not matter -/

theorem Sorter.same {α : Type} (k : α → List Nat) : ∀ {l l' : List α}, l.Pairwise (fun a b => k a ≤ k b) →
    l'.Pairwise (fun a b => k a ≤ k b) → l.Perm l' → (l.map k).Nodup → l = l'
  | [], l', _, _, hp, _ => hp.nil_eq
  | a :: l, [], _, _, hp, _ => absurd hp.length_eq (by simp)
  | a :: l, b :: l', h, h', hp, hn => by
    rw [List.map_cons, List.nodup_cons] at hn
    rw [List.pairwise_cons] at h h'
    have hab : a = b := by
      rcases List.mem_cons.1 (hp.mem_iff.1 (List.mem_cons_self ..)) with e | hm
      · exact e
      · rcases List.mem_cons.1 (hp.mem_iff.2 (List.mem_cons_self ..)) with e | hm'
        · exact e.symm
        · have e : k a = k b := le_antisymm (h.1 b hm') (h'.1 a hm)
          exact absurd (e ▸ List.mem_map_of_mem hm') hn.1
    subst hab
    rw [Sorter.same k h.2 h'.2 ((List.perm_cons a).1 hp) hn.2]

theorem Sorter.sort_eq {α : Type} (k : α → List Nat) {l l' : List α} (hp : l.Perm l')
    (hn : (l.map k).Nodup) : S.sort k l = S.sort k l' :=
  Sorter.same k (S.sorted k l) (S.sorted k l') ((S.perm k l).trans (hp.trans (S.perm k l').symm))
    (((S.perm k l).map k).nodup_iff.2 hn)

theorem codes_inj {a b : Txt} (h : codes a = codes b) : a = b := by
  unfold codes at h
  refine List.map_injective_iff.2 ?_ h
  intro x y e
  exact Char.toNat_inj.1 e

theorem nodup_codes {l : List Txt} (h : l.Nodup) : (l.map codes).Nodup :=
  List.Nodup.map (fun _ _ => codes_inj) h

theorem sameArgs_perm {zero : F} {as bs : List (Txt × Val F)} (h : SameArgs true as bs) :
    (stripEntries zero as).Perm (stripEntries zero bs) := by
  induction h with
  | nil => exact .refl _
  | cons k v w vs ws h _ ih =>
    rw [stripEntries, stripEntries, stripEntry, stripEntry, like_strip h]
    exact .cons _ ih
  | perm as bs cs _ _ hp ih =>
    refine ih.trans ?_
    rw [stripEntries_map, stripEntries_map]
    exact hp.map _

theorem sameArgs_sorted {zero : F} {as bs : List (Txt × Val F)} (h : SameArgs true as bs) (ha : ApartArgs as) :
    sortArgs S (stripEntries zero as) = sortArgs S (stripEntries zero bs) := by
  refine S.sort_eq _ (sameArgs_perm h) ?_
  rw [stripEntries_map, List.map_map]
  have := nodup_codes ha
  rwa [List.map_map] at this

theorem sameDirs_perm {zero : F} {as bs : List (Dir F)} (h : SameDirs true as bs) :
    (∀ d ∈ as, ApartArgs d.args) →
    ((as.map (stripDir zero)).map fun d => (⟨d.name, sortArgs S d.args⟩ : Dir F)).Perm
      ((bs.map (stripDir zero)).map fun d => ⟨d.name, sortArgs S d.args⟩) := by
  induction h with
  | nil => exact fun _ => .refl _
  | cons n as bs ds es h _ ih =>
    intro ha
    simp only [List.map_cons, stripDir]
    rw [sameArgs_sorted S h (ha _ (List.mem_cons_self ..))]
    exact .cons _ (ih fun d hd => ha d (List.mem_cons_of_mem _ hd))
  | perm as bs cs _ _ hp ih => exact fun ha => (ih ha).trans ((hp.map _).map _)

theorem sameDirs_sorted {zero : F} {as bs : List (Dir F)} (h : SameDirs true as bs) (ha : ApartDirs as) :
    sortDirs S (as.map (stripDir zero)) = sortDirs S (bs.map (stripDir zero)) := by
  refine S.sort_eq _ (sameDirs_perm S h ha.2) ?_
  rw [List.map_map, List.map_map]
  have := nodup_codes ha.1
  rwa [List.map_map] at this

theorem perm_short {α : Type} {l l' : List α} (h : l.Perm l') (hl : l.length ≤ 1) : l = l' := by
  have e := h.length_eq
  match l, l', e with
  | [], [], _ => rfl
  | [a], [b], _ => exact congrArg (· :: []) (List.singleton_perm_singleton.1 h)
  | _ :: _ :: _, _, _ => simp at hl

theorem sameArgs_few {zero : F} {as bs : List (Txt × Val F)} (h : SameArgs true as bs) (hl : as.length ≤ 1) :
    stripEntries zero as = stripEntries zero bs :=
  perm_short (sameArgs_perm h) (by rw [stripEntries_map, List.length_map]; exact hl)

theorem sameDirs_few_perm {zero : F} {as bs : List (Dir F)} (h : SameDirs true as bs) :
    (∀ d ∈ as, d.args.length ≤ 1) → (as.map (stripDir zero)).Perm (bs.map (stripDir zero)) := by
  induction h with
  | nil => exact fun _ => .refl _
  | cons n as bs ds es h _ ih =>
    intro ha
    simp only [List.map_cons, stripDir]
    rw [sameArgs_few h (ha _ (List.mem_cons_self ..))]
    exact .cons _ (ih fun d hd => ha d (List.mem_cons_of_mem _ hd))
  | perm as bs cs _ _ hp ih => exact fun ha => (ih ha).trans (hp.map _)

/-- The key of a selection tells its tag. -/
def tagKey : SelTag → List Nat
  | .field n => 3 :: codes n
  | .spread n => 1 :: codes n
  | .inline => [2]

theorem tagKey_inj {a b : SelTag} (h : tagKey a = tagKey b) : a = b := by
  cases a <;> cases b <;> simp only [tagKey, List.cons.injEq] at h <;>
    first
      | rfl
      | exact absurd h.1 (by decide)
      | (rw [codes_inj h.2])

theorem selKey_tag (zero : F) (s : Sel F) : selKey (sortSel S (stripSel zero s)) = tagKey (tagOf s) := by
  cases s <;> rw [stripSel, sortSel] <;> rfl

theorem keys_nodup (zero : F) {ss : List (Sel F)} (h : (ss.map tagOf).Nodup) :
    ((sortEach S (stripSels zero ss)).map selKey).Nodup := by
  rw [sortEach_map, stripSels_map, List.map_map, List.map_map]
  have e : ((selKey ∘ sortSel S) ∘ stripSel zero : Sel F → List Nat) = tagKey ∘ tagOf := by
    funext s
    exact selKey_tag S zero s
  rw [e]
  rw [← List.map_map]
  exact List.Nodup.map (fun _ _ => tagKey_inj) h

mutual
theorem sameSel_sorted {zero : F} : ∀ {s t : Sel F}, SameSel true s t → ApartSel s →
    sortSel S (stripSel zero s) = sortSel S (stripSel zero t)
  | _, _, .field _ _ n as bs ds es ss ts h1 h2 h3, ha => by
    rw [ApartSel] at ha
    rw [stripSel, stripSel, sortSel, sortSel, sameArgs_sorted S h1 ha.1, sameDirs_sorted S h2 ha.2.1,
      S.sort_eq selKey (sameSels_perm h3 ha.2.2.2) (keys_nodup S zero ha.2.2.1)]
  | _, _, .spread _ _ _ h, ha => by
    rw [ApartSel] at ha
    rw [stripSel, stripSel, sortSel, sortSel,
      perm_short (sameDirs_few_perm h ha.2) (by rw [List.length_map]; exact ha.1)]
  | _, _, .inline _ _ _ _ _ h2 h3, ha => by
    rw [ApartSel] at ha
    rw [stripSel, stripSel, sortSel, sortSel, sameDirs_sorted S h2 ha.1,
      S.sort_eq selKey (sameSels_perm h3 ha.2.2) (keys_nodup S zero ha.2.1)]
theorem sameSels_perm {zero : F} : ∀ {ss ts : List (Sel F)}, SameSels true ss ts → ApartSels ss →
    (sortEach S (stripSels zero ss)).Perm (sortEach S (stripSels zero ts))
  | _, _, .nil, _ => .refl _
  | _, _, .cons _ _ _ _ h h', ha => by
    rw [ApartSels] at ha
    rw [stripSels, stripSels, sortEach, sortEach, sameSel_sorted h ha.1]
    exact .cons _ (sameSels_perm h' ha.2)
  | _, _, .perm _ bs cs _ h hp, ha => by
    refine (sameSels_perm h ha).trans ?_
    rw [sortEach_map, sortEach_map, stripSels_map, stripSels_map]
    exact (hp.map _).map _
end

theorem sameSet_sorted {zero : F} {ss ts : List (Sel F)} (h : SameSels true ss ts) (ha : ApartSet ss) :
    sortSels S (stripSels zero ss) = sortSels S (stripSels zero ts) :=
  S.sort_eq selKey (sameSels_perm S h ha.2) (keys_nodup S zero ha.1)

theorem sameVars_perm {zero : F} {as bs : List (VarDef F)} (h : SameVars true as bs) :
    (as.map (stripVar zero)).Perm (bs.map (stripVar zero)) := by
  induction h with
  | nil => exact .refl _
  | cons n ty v w vs ws h _ ih =>
    simp only [List.map_cons, stripVar]
    rw [likeDefault_strip h]
    exact .cons _ ih
  | perm as bs cs _ _ hp ih => exact ih.trans (hp.map _)

theorem sameDef_sorted {zero : F} {d e : Def F} (h : SameDef true d e) (ha : ApartDef d) :
    sortDef S (stripDef zero d) = sortDef S (stripDef zero e) := by
  cases h with
  | short ss ts h => rw [stripDef, stripDef, sortDef, sortDef, sameSet_sorted S h ha]
  | op k n vs ws ds es ss ts h1 h2 h3 =>
    rw [stripDef, stripDef, sortDef, sortDef, sameSet_sorted S h3 ha.2.2, sameDirs_sorted S h2 ha.2.1,
      S.sort_eq _ (sameVars_perm h1) (by
        rw [List.map_map]
        have := nodup_codes ha.1
        rwa [List.map_map] at this)]
  | frag n c ds es ss ts h2 h3 =>
    rw [stripDef, stripDef, sortDef, sortDef, sameSet_sorted S h3 ha.2.2,
      S.sort_eq _ (sameDirs_few_perm h2 ha.2.1) (by
        rw [List.map_map]
        have := nodup_codes ha.1
        rwa [List.map_map] at this)]

theorem sameDoc_perm {zero : F} {d e : Doc F} (h : SameDoc true d e) : (∀ x ∈ d, ApartDef x) →
    ((strip zero d).map (sortDef S)).Perm ((strip zero e).map (sortDef S)) := by
  induction h with
  | nil => exact fun _ => .refl _
  | cons d e ds es h _ ih =>
    intro ha
    unfold strip at ih ⊢
    simp only [List.map_cons]
    rw [sameDef_sorted S h (ha _ (List.mem_cons_self ..))]
    exact .cons _ (ih fun x hx => ha x (List.mem_cons_of_mem _ hx))
  | perm as bs cs _ _ hp ih =>
    intro ha
    refine (ih ha).trans ?_
    unfold strip
    exact (hp.map _).map _

/-- The key of a definition tells its fragment. -/
def fragKey : Option Txt → List Nat
  | none => [1]
  | some n => 2 :: codes n

theorem fragKey_inj {a b : Option Txt} (h : fragKey a = fragKey b) : a = b := by
  cases a <;> cases b <;> simp only [fragKey, List.cons.injEq] at h <;>
    first
      | rfl
      | exact absurd h.1 (by decide)
      | (rw [codes_inj h.2])

theorem normalize_eq {zero : F} {d e : Doc F} (h : SameDoc true d e) (ha : ApartDoc d) :
    normalize S zero d = normalize S zero e := by
  refine S.sort_eq defKey (sameDoc_perm S h ha.2) ?_
  have e : ((strip zero d).map (sortDef S)).map defKey = (d.map fragOf).map fragKey := by
    unfold strip
    rw [List.map_map, List.map_map, List.map_map]
    refine List.map_congr_left fun x _ => ?_
    cases x <;> rfl
  rw [e]
  exact List.Nodup.map (fun _ _ => fragKey_inj) ha.1

/-- C105. Operations that differ only in literals, aliases and order are reported with the same text, if
within them all is told apart by name. Missing: fields of the same name, several inline fragments, several
operations in one document, directives of spreads and the arguments of the directives of fragments, for
which it is false (below). -/
theorem C105_order_partial (num : F → Txt) (zero : F) (d d' : Doc F) (h : SameDoc true d d')
    (ha : ApartDoc d) : reported S num zero d = reported S num zero d' := by
  unfold reported
  rw [normalize_eq S h ha]

end
end Verif.Usage
