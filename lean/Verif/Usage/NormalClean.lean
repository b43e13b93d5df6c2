import Verif.Usage.NormalSpec
/-!
# Nothing of literals and aliases is reported
-/
namespace Verif.Usage

open Verif.Text

section
variable {F : Type}

theorem cleanEntries_iff (zero : F) : ∀ (es : List (Txt × Val F)),
    CleanEntries zero es ↔ ∀ e ∈ es, CleanVal zero e.2
  | [] => by simp [CleanEntries]
  | (k, v) :: es => by
    rw [CleanEntries, cleanEntries_iff zero es, CleanEntry]
    simp

theorem cleanSels_iff (zero : F) : ∀ (ss : List (Sel F)), CleanSels zero ss ↔ ∀ s ∈ ss, CleanSel zero s
  | [] => by simp [CleanSels]
  | s :: ss => by
    rw [CleanSels, cleanSels_iff zero ss]
    simp

mutual
theorem strip_cleanVal (zero : F) : ∀ v : Val F, CleanVal zero (stripVal zero v)
  | .var _ => by rw [stripVal, CleanVal.eq_def]; trivial
  | .int _ => by rw [stripVal, CleanVal]
  | .float _ => by rw [stripVal, CleanVal]
  | .str _ => by rw [stripVal, CleanVal]
  | .bool _ => by rw [stripVal, CleanVal.eq_def]; trivial
  | .null => by rw [stripVal, CleanVal.eq_def]; trivial
  | .enum _ => by rw [stripVal, CleanVal.eq_def]; trivial
  | .list vs => by rw [stripVal, CleanVal]; exact strip_cleanVals zero vs
  | .obj fs => by rw [stripVal, CleanVal]; exact strip_cleanEntries zero fs
theorem strip_cleanVals (zero : F) : ∀ vs : List (Val F), CleanVals zero (stripVals zero vs)
  | [] => by rw [stripVals, CleanVals]; trivial
  | v :: vs => by rw [stripVals, CleanVals]; exact ⟨strip_cleanVal zero v, strip_cleanVals zero vs⟩
theorem strip_cleanEntries (zero : F) : ∀ es : List (Txt × Val F), CleanEntries zero (stripEntries zero es)
  | [] => by rw [stripEntries, CleanEntries]; trivial
  | e :: es => by
    rw [stripEntries, CleanEntries]
    exact ⟨strip_cleanEntry zero e, strip_cleanEntries zero es⟩
theorem strip_cleanEntry (zero : F) : ∀ e : Txt × Val F, CleanEntry zero (stripEntry zero e)
  | (k, v) => by rw [stripEntry, CleanEntry]; exact strip_cleanVal zero v
end

theorem strip_cleanDirs (zero : F) (ds : List (Dir F)) : CleanDirs zero (ds.map (stripDir zero)) := by
  intro d hd
  obtain ⟨d', _, rfl⟩ := List.mem_map.1 hd
  exact strip_cleanEntries zero d'.args

mutual
theorem strip_cleanSel (zero : F) : ∀ s : Sel F, CleanSel zero (stripSel zero s)
  | .field _ _ as ds ss => by
    rw [stripSel, CleanSel]
    exact ⟨rfl, strip_cleanEntries zero as, strip_cleanDirs zero ds, strip_cleanSels zero ss⟩
  | .spread _ ds => by rw [stripSel, CleanSel]; exact strip_cleanDirs zero ds
  | .inline _ ds ss => by
    rw [stripSel, CleanSel]
    exact ⟨strip_cleanDirs zero ds, strip_cleanSels zero ss⟩
theorem strip_cleanSels (zero : F) : ∀ ss : List (Sel F), CleanSels zero (stripSels zero ss)
  | [] => by rw [stripSels, CleanSels]; trivial
  | s :: ss => by rw [stripSels, CleanSels]; exact ⟨strip_cleanSel zero s, strip_cleanSels zero ss⟩
end

theorem strip_cleanDef (zero : F) (d : Def F) : CleanDef zero (stripDef zero d) := by
  cases d with
  | short ss => exact strip_cleanSels zero ss
  | op k n vs ds ss =>
    refine ⟨?_, strip_cleanDirs zero ds, strip_cleanSels zero ss⟩
    intro v hv
    obtain ⟨v', _, rfl⟩ := List.mem_map.1 hv
    refine ⟨?_, rfl⟩
    intro w hw
    unfold stripVar at hw
    simp only at hw
    obtain ⟨w', _, rfl⟩ := Option.map_eq_some_iff.1 hw
    exact strip_cleanVal zero w'
  | frag n c ds ss => exact ⟨strip_cleanDirs zero ds, strip_cleanSels zero ss⟩

variable (S : Sorter)

theorem Sorter.mem {α : Type} (k : α → List Nat) (l : List α) (a : α) : a ∈ S.sort k l ↔ a ∈ l :=
  (S.perm k l).mem_iff

theorem sort_cleanArgs {zero : F} {as : List (Txt × Val F)} (h : CleanEntries zero as) :
    CleanEntries zero (sortArgs S as) := by
  rw [cleanEntries_iff] at h ⊢
  exact fun e he => h e ((S.mem _ _ _).1 he)

theorem sort_cleanDirs {zero : F} {ds : List (Dir F)} (h : CleanDirs zero ds) :
    CleanDirs zero (sortDirs S ds) := by
  intro d hd
  obtain ⟨d', hd', rfl⟩ := List.mem_map.1 ((S.mem _ _ _).1 hd)
  exact sort_cleanArgs S (h d' hd')

mutual
theorem sort_cleanSel {zero : F} : ∀ {s : Sel F}, CleanSel zero s → CleanSel zero (sortSel S s)
  | .field _ _ as ds ss, h => by
    rw [CleanSel] at h
    rw [sortSel, CleanSel]
    refine ⟨h.1, sort_cleanArgs S h.2.1, sort_cleanDirs S h.2.2.1, ?_⟩
    rw [cleanSels_iff]
    exact fun s hs => (cleanSels_iff zero _).1 (sort_cleanEach h.2.2.2) s ((S.mem _ _ _).1 hs)
  | .spread _ ds, h => by rw [sortSel]; exact h
  | .inline _ ds ss, h => by
    rw [CleanSel] at h
    rw [sortSel, CleanSel]
    refine ⟨sort_cleanDirs S h.1, ?_⟩
    rw [cleanSels_iff]
    exact fun s hs => (cleanSels_iff zero _).1 (sort_cleanEach h.2) s ((S.mem _ _ _).1 hs)
theorem sort_cleanEach {zero : F} : ∀ {ss : List (Sel F)}, CleanSels zero ss → CleanSels zero (sortEach S ss)
  | [], _ => by rw [sortEach, CleanSels]; trivial
  | s :: ss, h => by
    rw [CleanSels] at h
    rw [sortEach, CleanSels]
    exact ⟨sort_cleanSel h.1, sort_cleanEach h.2⟩
end

theorem sort_cleanSels {zero : F} {ss : List (Sel F)} (h : CleanSels zero ss) : CleanSels zero (sortSels S ss) := by
  unfold sortSels
  rw [cleanSels_iff]
  exact fun s hs => (cleanSels_iff zero _).1 (sort_cleanEach S h) s ((S.mem _ _ _).1 hs)

theorem sort_cleanDef {zero : F} {d : Def F} (h : CleanDef zero d) : CleanDef zero (sortDef S d) := by
  cases d with
  | short ss => exact sort_cleanSels S h
  | op k n vs ds ss =>
    exact ⟨fun v hv => h.1 v ((S.mem _ _ _).1 hv), sort_cleanDirs S h.2.1, sort_cleanSels S h.2.2⟩
  | frag n c ds ss => exact ⟨fun d hd => h.1 d ((S.mem _ _ _).1 hd), sort_cleanSels S h.2⟩

theorem normalize_clean (zero : F) (d : Doc F) : CleanDoc zero (normalize S zero d) := by
  intro x hx
  obtain ⟨y, hy, rfl⟩ := List.mem_map.1 ((S.mem _ _ _).1 hx)
  obtain ⟨z, _, rfl⟩ := List.mem_map.1 hy
  exact sort_cleanDef S (strip_cleanDef zero z)

/-! ## Documents that are alike -/

mutual
theorem like_strip {zero : F} : ∀ {v w : Val F}, LikeVal v w → stripVal zero v = stripVal zero w
  | _, _, .var _ => rfl
  | _, _, .int _ _ => by rw [stripVal, stripVal]
  | _, _, .float _ _ => by rw [stripVal, stripVal]
  | _, _, .str _ _ => by rw [stripVal, stripVal]
  | _, _, .bool _ => rfl
  | _, _, .null => rfl
  | _, _, .enum _ => rfl
  | _, _, .list _ _ h => by rw [stripVal, stripVal, likes_strip h]
  | _, _, .obj _ _ h => by rw [stripVal, stripVal, likeEntries_strip h]
theorem likes_strip {zero : F} : ∀ {v w : List (Val F)}, LikeVals v w → stripVals zero v = stripVals zero w
  | _, _, .nil => rfl
  | _, _, .cons _ _ _ _ h h' => by rw [stripVals, stripVals, like_strip h, likes_strip h']
theorem likeEntries_strip {zero : F} : ∀ {v w : List (Txt × Val F)}, LikeEntries v w →
    stripEntries zero v = stripEntries zero w
  | _, _, .nil => rfl
  | _, _, .cons _ _ _ _ _ h h' => by
    rw [stripEntries, stripEntries, stripEntry, stripEntry, like_strip h, likeEntries_strip h']
end

theorem stripEntries_map (zero : F) : ∀ es : List (Txt × Val F),
    stripEntries zero es = es.map fun e => (e.1, stripVal zero e.2)
  | [] => by rw [stripEntries]; rfl
  | (k, v) :: es => by rw [stripEntries, stripEntries_map zero es, stripEntry]; rfl

theorem stripSels_map (zero : F) : ∀ ss : List (Sel F), stripSels zero ss = ss.map (stripSel zero)
  | [] => by rw [stripSels]; rfl
  | s :: ss => by rw [stripSels, stripSels_map zero ss]; rfl

theorem sortEach_map : ∀ ss : List (Sel F), sortEach S ss = ss.map (sortSel S)
  | [] => by rw [sortEach]; rfl
  | s :: ss => by rw [sortEach, sortEach_map ss]; rfl

theorem sameArgs_strip {zero : F} {as bs : List (Txt × Val F)} (h : SameArgs false as bs) :
    stripEntries zero as = stripEntries zero bs := by
  induction h with
  | nil => rfl
  | cons k v w vs ws h _ ih => rw [stripEntries, stripEntries, stripEntry, stripEntry, like_strip h, ih]
  | perm _ _ _ h => cases h

theorem sameDirs_strip {zero : F} {as bs : List (Dir F)} (h : SameDirs false as bs) :
    as.map (stripDir zero) = bs.map (stripDir zero) := by
  induction h with
  | nil => rfl
  | cons n as bs ds es h _ ih =>
    rw [List.map_cons, List.map_cons, ih, stripDir, stripDir]
    simp only
    rw [sameArgs_strip h]
  | perm _ _ _ h => cases h

mutual
theorem sameSel_strip {zero : F} : ∀ {s t : Sel F}, SameSel false s t → stripSel zero s = stripSel zero t
  | _, _, .field _ _ _ _ _ _ _ _ _ h1 h2 h3 => by
    rw [stripSel, stripSel, sameArgs_strip h1, sameDirs_strip h2, sameSels_strip h3]
  | _, _, .spread _ _ _ h => by rw [stripSel, stripSel, sameDirs_strip h]
  | _, _, .inline _ _ _ _ _ h2 h3 => by
    rw [stripSel, stripSel, sameDirs_strip h2, sameSels_strip h3]
theorem sameSels_strip {zero : F} : ∀ {s t : List (Sel F)}, SameSels false s t →
    stripSels zero s = stripSels zero t
  | _, _, .nil => rfl
  | _, _, .cons _ _ _ _ h h' => by rw [stripSels, stripSels, sameSel_strip h, sameSels_strip h']
end

theorem likeDefault_strip {zero : F} {v w : Option (Val F)} (h : LikeDefault v w) :
    v.map (stripVal zero) = w.map (stripVal zero) := by
  cases h with
  | none => rfl
  | some v w h => rw [Option.map_some, Option.map_some, like_strip h]

theorem sameVars_strip {zero : F} {as bs : List (VarDef F)} (h : SameVars false as bs) :
    as.map (stripVar zero) = bs.map (stripVar zero) := by
  induction h with
  | nil => rfl
  | cons n ty v w vs ws h _ ih =>
    rw [List.map_cons, List.map_cons, ih, stripVar, stripVar]
    simp only
    rw [likeDefault_strip h]
  | perm _ _ _ h => cases h

theorem sameDef_strip {zero : F} {d e : Def F} (h : SameDef false d e) : stripDef zero d = stripDef zero e := by
  cases h with
  | short ss ts h => rw [stripDef, stripDef, sameSels_strip h]
  | op k n vs ws ds es ss ts h1 h2 h3 =>
    rw [stripDef, stripDef, sameVars_strip h1, sameDirs_strip h2, sameSels_strip h3]
  | frag n c ds es ss ts h2 h3 => rw [stripDef, stripDef, sameDirs_strip h2, sameSels_strip h3]

theorem sameDoc_strip {zero : F} {d e : Doc F} (h : SameDoc false d e) : strip zero d = strip zero e := by
  induction h with
  | nil => rfl
  | cons d e ds es h _ ih =>
    unfold strip at ih ⊢
    rw [List.map_cons, List.map_cons, ih, sameDef_strip h]
  | perm _ _ _ h => cases h

/-- C104. The operation that is reported has no literals but zeros and empty strings, and no aliases. -/
theorem C104_clean (zero : F) (d : Doc F) : CleanDoc zero (normalize S zero d) := normalize_clean S zero d

/-- C104. Two operations that differ only in literals and aliases are reported with the same text:
nothing can be learnt of these. -/
theorem C104_alike (num : F → Txt) (zero : F) (d d' : Doc F) (h : SameDoc false d d') :
    reported S num zero d = reported S num zero d' := by
  unfold reported normalize
  rw [sameDoc_strip h]

end
end Verif.Usage
