import Verif.Fetch.Passes2

/-!
# Lemmas: normalizing, with regard to types and conditions
-/

namespace Verif.Fetch

open Verif.Graph (Super)

variable {v : Vars} {P : Types}

theorem ofTypes_append {K : List String} {a b : List Sel} :
    ofTypes P v K (a ++ b) = ofTypes P v K a ++ ofTypes P v K b := by
  induction a with
  | nil => simp [ofTypes]
  | cons x r ih => simp [ofTypes, ih]

theorem ofTypes_mid {K : List String} {a b : List Sel} {x : Sel} {z : List String × Ask} :
    z ∈ ofTypes P v K (a ++ x :: b) ↔ z ∈ ofTypes P v K a ∨ z ∈ ofTypesBy P v K x ∨ z ∈ ofTypes P v K b := by
  simp only [ofTypes_append, ofTypes, List.mem_append]

theorem ofTypes_place {first : Bool} {r : List Sel × List Sel} {K : List String} {z : List String × Ask} :
    z ∈ ofTypes P v K (place first r) ↔ z ∈ ofTypes P v K r.1 ∨ z ∈ ofTypes P v K r.2 := by
  cases first
  · simp [place, ofTypes_append]
  · simp [place, ofTypes_append, or_comm]

mutual
theorem mergeSel_types (first : Bool) : ∀ (s : Sel) {ts ts' : List Sel} {K : List String},
    mergeSel first s ts = some ts' → ∀ z, z ∈ ofTypes P v K ts' ↔ z ∈ ofTypes P v K ts ∨ z ∈ ofTypesBy P v K s
  | .field f ss, ts, ts', K, h, z => by
    simp only [mergeSel] at h
    obtain ⟨a, x, b, rfl, hp, rfl⟩ := updateFirst_some h
    match x, hp with
    | .field g us, hp =>
      simp only [matches', Bool.and_eq_true, decide_eq_true_eq] at hp
      have ha := sameField_ask hp.1
      have hk : f.key = g.key := congrArg Ask.key ha
      have ho : (mergeOmit g f).key = g.key := congrArg Ask.key (mergeOmit_ask (f := g) (g := f)).1
      rw [ofTypes_mid, ofTypes_mid]
      simp only [onSels, ofTypesBy, mergeOmit_ask.1, mergeOmit_ask.2, ho, hk, hp.2, ha]
      have hl := mergeLoop_types first ss (ts := us) (K := K ++ [g.key]) z
      split
      next =>
        simp only [List.mem_cons, ofTypes_place, hl]
        constructor
        · rintro (h | (h | h | h) | h)
          · exact .inl (.inl h)
          · exact .inl (.inr (.inl (.inl h)))
          · exact .inl (.inr (.inl (.inr h)))
          · exact .inr (.inr h)
          · exact .inl (.inr (.inr h))
        · rintro ((h | (h | h) | h) | h | h)
          · exact .inl h
          · exact .inr (.inl (.inl h))
          · exact .inr (.inl (.inr (.inl h)))
          · exact .inr (.inr h)
          · exact .inr (.inl (.inl h))
          · exact .inr (.inl (.inr (.inr h)))
      next => simp
    | .frag _ _, hp => simp [matches'] at hp
    | .spread _, hp => simp [matches'] at hp
  | .frag f ss, ts, ts', K, h, z => by
    simp only [mergeSel] at h
    obtain ⟨a, x, b, rfl, hp, rfl⟩ := updateFirst_some h
    match x, hp with
    | .frag g us, hp =>
      simp only [matches', Bool.and_eq_true, decide_eq_true_eq, beq_iff_eq] at hp
      rw [ofTypes_mid, ofTypes_mid]
      simp only [onSels, ofTypesBy, hp.1, hp.2]
      have hl := mergeLoop_types first ss (ts := us) (K := K) z
      split
      next =>
        simp only [ofTypes_place, hl]
        constructor
        · rintro (h | (h | h) | h)
          · exact .inl (.inl h)
          · exact .inl (.inr (.inl h))
          · exact .inr h
          · exact .inl (.inr (.inr h))
        · rintro ((h | h | h) | h)
          · exact .inl h
          · exact .inr (.inl (.inl h))
          · exact .inr (.inr h)
          · exact .inr (.inl (.inr h))
      next => simp
    | .field _ _, hp => simp [matches'] at hp
    | .spread _, hp => simp [matches'] at hp
  | .spread _, _, _, _, h, _ => by simp [mergeSel] at h
theorem mergeLoop_types (first : Bool) : ∀ (ss : List Sel) {ts : List Sel} {K : List String} (z : List String × Ask),
    (z ∈ ofTypes P v K (mergeLoop first ss ts).1 ∨ z ∈ ofTypes P v K (mergeLoop first ss ts).2) ↔
      z ∈ ofTypes P v K ts ∨ z ∈ ofTypes P v K ss
  | [], ts, K, z => by simp [mergeLoop, ofTypes]
  | s :: r, ts, K, z => by
    simp only [mergeLoop]
    split
    next ts' h =>
      rw [mergeLoop_types first r z, mergeSel_types first s h z]
      simp only [ofTypes, List.mem_append, or_assoc]
    next =>
      have := mergeLoop_types first r (ts := ts) (K := K) z
      simp only [ofTypes, List.mem_append]
      rw [or_left_comm, this, or_left_comm]
end

theorem mergeSels_types {first : Bool} {ss ts : List Sel} {K : List String} {z : List String × Ask} :
    z ∈ ofTypes P v K (mergeSels first ss ts) ↔ z ∈ ofTypes P v K ts ∨ z ∈ ofTypes P v K ss := by
  unfold mergeSels
  rw [ofTypes_place]
  exact mergeLoop_types first ss z

mutual
theorem normSel_types {S : Super} : ∀ (s : Sel) {type : String} {r : Sel ⊕ List Sel}
    {K : List String}, P K type = true → TypedBy S P K type s → normSel S type s = .ok r →
    (∀ y, r = .inl y → ∀ z, z ∈ ofTypesBy P v K y ↔ z ∈ ofTypesBy P v K s) ∧
      (∀ ys, r = .inr ys → ∀ z, z ∈ ofTypes P v K ys ↔ z ∈ ofTypesBy P v K s)
  | .field f ss, type, r, K, ht, hs, h => by
    simp only [normSel] at h
    split at h
    next => cases h
    next t hf =>
      split at h
      next => cases h
      next ss' hss =>
        cases h
        refine ⟨?_, fun ys hy => by cases hy⟩
        intro y hy z
        cases hy
        simp only [TypedBy] at hs
        have := normSels_types ss (hs t hf).1 (hs t hf).2 hss z
        simp only [ofTypes, List.not_mem_nil, false_or] at this
        simp only [ofTypesBy]
        split
        next => simp only [List.mem_cons, this]
        next => rfl
  | .frag g ss, type, r, K, ht, hs, h => by
    simp only [normSel] at h
    simp only [TypedBy] at hs
    split at h
    next => cases h
    next ss' hss =>
      have hin : P K g.cond = true → ∀ z, z ∈ ofTypes P v K ss' ↔ z ∈ ofTypes P v K ss := by
        intro hg z
        have := normSels_types ss hg (hs hg) hss z
        simpa only [ofTypes, List.not_mem_nil, false_or] using this
      split at h
      next hc =>
        obtain ⟨hc1, hc2⟩ := hc
        cases h
        constructor
        · intro y hy
          cases hy
        · intro ys hy z
          cases hy
          have hg : P K g.cond = true := hc1 ▸ ht
          simp only [ofTypesBy, hc2, holds, hg, Option.all_none, Bool.and_self, if_true]
          exact hin hg z
      next =>
        cases h
        refine ⟨?_, fun ys hy => by cases hy⟩
        intro y hy z
        cases hy
        simp only [ofTypesBy]
        split
        next hh =>
          simp only [Bool.and_eq_true] at hh
          exact hin hh.2 z
        next => rfl
  | .spread _, _, _, _, _, _, h => by simp [normSel] at h
theorem normSels_types {S : Super} : ∀ (ss : List Sel) {type : String} {acc r : List Sel}
    {K : List String}, P K type = true → Typed S P K type ss → normSels S type ss acc = .ok r → ∀ z,
    z ∈ ofTypes P v K r ↔ z ∈ ofTypes P v K acc ∨ z ∈ ofTypes P v K ss
  | [], type, acc, r, K, _, _, h, z => by
    simp only [normSels] at h
    cases h
    simp [ofTypes]
  | s :: l, type, acc, r, K, ht, hs, h, z => by
    simp only [normSels] at h
    simp only [Typed] at hs
    split at h
    next => cases h
    next y hy =>
      rw [normSels_types l ht hs.2 h z, ofTypes_append]
      have := (normSel_types s ht hs.1 hy).1 y rfl z
      simp only [ofTypes, List.mem_append, List.not_mem_nil, or_false, this, or_assoc]
    next ys hy =>
      rw [normSels_types l ht hs.2 h z, mergeSels_types]
      have := (normSel_types s ht hs.1 hy).2 ys rfl z
      simp only [ofTypes, List.mem_append, this, or_assoc]
end

/-! ## Conditions after a batch -/

theorem wrapFor_asked {c : Verif.Walker.Cond} {ts : List String} : ∀ {s : Selections}, (∀ o ∈ s, o.1 ∈ ts) →
    ((wrapFor c ts s).flatMap fun o => asked v o.2) = if holds v c then s.flatMap fun o => asked v o.2 else []
  | [], _ => by simp [wrapFor]
  | (t, ss) :: r, h => by
    have ih := wrapFor_asked (c := c) (s := r) fun o ho => h o (List.mem_cons_of_mem _ ho)
    have ht : t ∈ ts := h (t, ss) (List.mem_cons_self ..)
    have hw : asked v (wrapDef c t ss) = if holds v c then asked v ss else [] := by
      simp [wrapDef, asked, askedBy, fragCond]
      rfl
    have he : wrapFor c ts ((t, ss) :: r) = (t, wrapDef c t ss) :: wrapFor c ts r := by
      simp [wrapFor, ht]
    rw [he, List.flatMap_cons, ih]
    simp only [hw, List.flatMap_cons]
    split <;> simp

theorem afterBatch_asked {path : MPath} {s : Step} (h : ∀ o ∈ s.output, o.1 ∈ pathTypes path) :
    (afterBatch path s).asked v = Step.asked v { s with path := path } := by
  simp only [afterBatch]
  split
  next =>
    simp only [Step.asked, Step.on, wrapFor_asked h]
    rcases Bool.eq_false_or_eq_true (holds v s.cond) with hc | hc
    · simp [hc, show holds v (none, none) = true from rfl]
    · simp [hc]
  next => rfl

end Verif.Fetch
