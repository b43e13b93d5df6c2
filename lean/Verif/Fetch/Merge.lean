import Verif.Fetch.Safe

/-!
# Lemmas: merging two steps
-/

namespace Verif.Fetch

open Verif.Walker (Cond)

variable {v : Vars} {P : FieldInfo → Prop} {Q : FragInfo → Prop}

/-- Any fragment. -/
abbrev anyFrag : FragInfo → Prop := fun _ => True

mutual
theorem FitBy.weaken {P P' : FieldInfo → Prop} {Q Q' : FragInfo → Prop} (hP : ∀ f, P f → P' f)
    (hQ : ∀ g, Q g → Q' g) : ∀ (s : Sel), FitBy P Q s → FitBy P' Q' s
  | .field f ss, h => ⟨hP f h.1, Fit.weaken hP hQ ss h.2⟩
  | .frag g ss, h => ⟨hQ g h.1, Fit.weaken hP hQ ss h.2⟩
  | .spread _, h => h
theorem Fit.weaken {P P' : FieldInfo → Prop} {Q Q' : FragInfo → Prop} (hP : ∀ f, P f → P' f)
    (hQ : ∀ g, Q g → Q' g) : ∀ (ss : List Sel), Fit P Q ss → Fit P' Q' ss
  | [], _ => trivial
  | x :: r, h => ⟨FitBy.weaken hP hQ x h.1, Fit.weaken hP hQ r h.2⟩
end

theorem FitAll.weaken {P P' : FieldInfo → Prop} {Q Q' : FragInfo → Prop} (hP : ∀ f, P f → P' f)
    (hQ : ∀ g, Q g → Q' g) {s : Selections} (h : FitAll P Q s) : FitAll P' Q' s :=
  fun o ho => Fit.weaken hP hQ _ (h o ho)

theorem holds_none : holds v (none, none) = true := rfl

/-! ## Conditions of steps -/

theorem askedAll_wrap {c : Cond} (h : holds v c = true) (s : Selections) :
    askedAll v (wrap c s) = askedAll v s := by
  induction s with
  | nil => rfl
  | cons o r ih =>
    have : asked v (wrapDef c o.1 o.2) = asked v o.2 := by
      simp [wrapDef, asked, askedBy, fragCond, h]
    rw [askedAll_cons, ← ih, ← this]
    simp [wrap, askedAll]

theorem askedAll_wrapFor {c : Cond} {types : List String} (h : holds v c = true) (s : Selections) :
    askedAll v (wrapFor c types s) = askedAll v s := by
  induction s with
  | nil => rfl
  | cons o r ih =>
    have : asked v (wrapDef c o.1 o.2) = asked v o.2 := by
      simp [wrapDef, asked, askedBy, fragCond, h]
    rw [askedAll_cons, ← ih]
    simp only [wrapFor, List.map_cons]
    rw [askedAll_cons]
    split
    · rw [this]
    · rfl

theorem fit_wrapDef {c : Cond} {t : String} {ss : List Sel} (h : Fit P anyFrag ss) :
    Fit P anyFrag (wrapDef c t ss) := by
  exact ⟨⟨trivial, h⟩, trivial⟩

theorem fitAll_wrap {c : Cond} {s : Selections} (h : FitAll P anyFrag s) : FitAll P anyFrag (wrap c s) := by
  intro o ho
  simp only [wrap, List.mem_map] at ho
  obtain ⟨x, hx, rfl⟩ := ho
  exact fit_wrapDef (h x hx)

theorem fitAll_wrapFor {c : Cond} {types : List String} {s : Selections} (h : FitAll P anyFrag s) :
    FitAll P anyFrag (wrapFor c types s) := by
  intro o ho
  simp only [wrapFor, List.mem_map] at ho
  obtain ⟨x, hx, rfl⟩ := ho
  split
  · exact fit_wrapDef (h x hx)
  · exact h x hx

/-- What a step asks for, without the conditions of the step and without the path. -/
def Step.out (v : Vars) (s : Step) : List (List String × Ask) := askedAll v s.output

theorem Step.asked_eq {s : Step} : s.asked v = if s.on v then under (pathKeys s.path) (s.out v) else [] := rfl

theorem mem_stepAsked {s : Step} {x : List String × Ask} :
    x ∈ s.asked v ↔ holds v s.cond = true ∧ pathHolds v s.path = true ∧ x ∈ under (pathKeys s.path) (s.out v) := by
  rw [Step.asked_eq]
  by_cases h : s.on v = true
  · rw [if_pos h]
    simp only [Step.on, Bool.and_eq_true] at h
    simp [h]
  · rw [if_neg h]
    simp only [Step.on, Bool.and_eq_true] at h
    constructor
    · intro h'
      cases h'
    · intro h'
      exact absurd ⟨h'.1, h'.2.1⟩ h

theorem scopeCond_path {b : Bool} {s : Step} : (scopeCond b s).path = s.path := by
  unfold scopeCond
  split <;> rfl

theorem scopeCond_cond {b : Bool} {s : Step} : (scopeCond b s).cond = (none, none) := by
  unfold scopeCond
  split
  next h => exact h
  next => rfl

theorem scopeCond_out {b : Bool} {s : Step} (h : holds v s.cond = true) : (scopeCond b s).out v = s.out v := by
  unfold scopeCond
  split
  next => rfl
  next =>
    unfold Step.out
    dsimp only
    split
    · exact askedAll_wrapFor h _
    · exact askedAll_wrap h _

theorem scopeCond_fit {b : Bool} {s : Step} (h : FitAll P anyFrag s.output) :
    FitAll P anyFrag (scopeCond b s).output := by
  unfold scopeCond
  split
  next => exact h
  next =>
    dsimp only
    split
    · exact fitAll_wrapFor h
    · exact fitAll_wrap h

/-- What becomes of a step before a merge. -/
structure Scoped (v : Vars) (P : FieldInfo → Prop) (s s' : Step) : Prop where
  path : s'.path = s.path
  input : s'.input = s.input
  entity : s'.entity = s.entity
  service : s'.service = s.service
  cond : holds v s.cond = true → holds v s'.cond = true
  out : holds v s.cond = true → ∀ x ∈ s.out v, x ∈ s'.out v
  fit : FitAll P anyFrag s'.output

theorem Scoped.refl {s : Step} (h : FitAll P anyFrag s.output) : Scoped v P s s :=
  ⟨rfl, rfl, rfl, rfl, id, fun _ _ h => h, h⟩

theorem Scoped.trans {s s' s'' : Step} (h : Scoped v P s s') (h' : Scoped v P s' s'') : Scoped v P s s'' :=
  ⟨h'.path.trans h.path, h'.input.trans h.input, h'.entity.trans h.entity, h'.service.trans h.service,
    fun x => h'.cond (h.cond x), fun x y hy => h'.out (h.cond x) y (h.out x y hy), h'.fit⟩

theorem Scoped.scopeCond {b : Bool} {s : Step} (h : FitAll P anyFrag s.output) :
    Scoped v P s (scopeCond b s) := by
  refine ⟨scopeCond_path, ?_, ?_, ?_, ?_, ?_, scopeCond_fit h⟩
  · unfold Fetch.scopeCond
    split <;> rfl
  · unfold Fetch.scopeCond
    split <;> rfl
  · unfold Fetch.scopeCond
    split <;> rfl
  · intro _
    rw [scopeCond_cond]
    rfl
  · intro h x hx
    rw [scopeCond_out h]
    exact hx

theorem scopeBoth_ok {t s : Step} (ht : FitAll P anyFrag t.output) (hs : FitAll P anyFrag s.output)
    (hc : t.entity = true ∨ t.cond = (none, none) ∧ s.cond = (none, none)) :
    Scoped v P t (scopeBoth t s).1 ∧ Scoped v P s (scopeBoth t s).2 ∧
      (holds v s.cond = true → holds v (scopeBoth t s).1.cond = true) := by
  unfold scopeBoth
  split
  next he =>
    dsimp only
    generalize ht' : (if (decide (t.cond ≠ (none, none)) && multi t && !(pathTypes t.path).isEmpty) = true
      then scopeCond true t else t) = t'
    have hsc : Scoped v P t t' := by
      rw [← ht']
      split
      · exact Scoped.scopeCond ht
      · exact Scoped.refl ht
    split
    next heq =>
      dsimp only
      refine ⟨hsc, Scoped.refl hs, ?_⟩
      rw [heq]
      exact id
    next =>
      dsimp only
      refine ⟨hsc.trans (Scoped.scopeCond hsc.fit), Scoped.scopeCond hs, ?_⟩
      rw [scopeCond_cond]
      exact fun _ => rfl
  next he =>
    rcases hc with hc | ⟨hc, hd⟩
    · exact absurd hc he
    · dsimp only
      rw [hc]
      exact ⟨Scoped.refl ht, Scoped.refl hs, fun _ => rfl⟩

theorem condIntoTarget_ok (hB : Blind P) {t s s' : Step} (hs : FitAll P anyFrag s.output)
    (hi : s.cond ≠ (none, none) → FitAll P anyFrag s.input) (h : condIntoTarget t s = .ok (some s')) :
    t.entity = false ∧ Scoped v P s s' := by
  unfold condIntoTarget at h
  split at h
  next => cases h
  next hne =>
    simp only [Bool.or_eq_true, decide_eq_true_eq, not_or, Bool.not_eq_true] at hne
    split at h
    next => cases h
    next o ho =>
      cases h
      simp only [migrate] at ho
      obtain ⟨a1, _, a3⟩ := migrateAll_adds (v := v) hB hs (hi hne.1) ho
      refine ⟨hne.2, rfl, rfl, rfl, rfl, id, ?_, ?_⟩
      · intro hh x hx
        unfold Step.out
        dsimp only
        split
        · exact a1 x hx
        · rw [askedAll_wrap hh]
          exact a1 x hx
      · dsimp only
        split
        · exact a3
        · exact fitAll_wrap a3

theorem condIntoTarget_none {t s : Step} (h : condIntoTarget t s = .ok none) :
    s.cond = (none, none) ∨ t.entity = true := by
  unfold condIntoTarget at h
  split at h
  next hne => simpa using hne
  next =>
    split at h
    next => cases h
    next => cases h

theorem scopeSteps_ok (hB : Blind P) {t s t' s' : Step} (ht : FitAll P anyFrag t.output)
    (hs : FitAll P anyFrag s.output) (hi : s.cond ≠ (none, none) → FitAll P anyFrag s.input)
    (hc : t.entity = true ∨ t.cond = (none, none)) (h : scopeSteps t s = .ok (t', s')) :
    Scoped v P t t' ∧ Scoped v P s s' ∧ (holds v s.cond = true → holds v t'.cond = true) := by
  unfold scopeSteps at h
  split at h
  next => cases h
  next s1 h1 =>
    cases h
    obtain ⟨e, hsc⟩ := condIntoTarget_ok (v := v) hB hs hi h1
    refine ⟨Scoped.refl ht, hsc, fun _ => ?_⟩
    rcases hc with hc | hc
    · rw [hc] at e
      cases e
    · rw [hc]
      rfl
  next h1 =>
    have h1 := condIntoTarget_none h1
    simp only [Except.ok.injEq] at h
    have e1 : (scopeBoth t s).1 = t' := by rw [h]
    have e2 : (scopeBoth t s).2 = s' := by rw [h]
    rw [← e1, ← e2]
    refine scopeBoth_ok ht hs ?_
    rcases hc with hc | hc
    · exact .inl hc
    · rcases h1 with h1 | h1
      · exact .inr ⟨hc, h1⟩
      · exact .inl h1

/-! ## A condition that all of the output has -/

theorem sharedTop_mem {t : String} {c : Cond} : ∀ {ss : List Sel}, sharedTop t ss = some c →
    ∀ s ∈ ss, topCond t s = some c
  | [], h, _, _ => by simp [sharedTop] at h
  | [x], h, s, hs => by
    simp only [List.mem_singleton] at hs
    subst hs
    exact h
  | x :: y :: r, h, s, hs => by
    simp only [sharedTop] at h
    split at h
    next a b ha hb =>
      split at h
      next hab =>
        cases h
        subst hab
        rcases List.mem_cons.1 hs with rfl | hs
        · exact ha
        · exact sharedTop_mem hb s hs
      next => cases h
    next => cases h

theorem sharedAll_mem {c : Cond} : ∀ {l : Selections}, sharedAll l = some c →
    ∀ o ∈ l, ∀ s ∈ o.2, topCond o.1 s = some c
  | [], h, _, _, _, _ => by simp [sharedAll] at h
  | [(t, ss)], h, o, ho, s, hs => by
    simp only [List.mem_singleton] at ho
    subst ho
    exact sharedTop_mem h s hs
  | (t, ss) :: y :: r, h, o, ho, s, hs => by
    simp only [sharedAll] at h
    split at h
    next a b ha hb =>
      split at h
      next hab =>
        cases h
        subst hab
        rcases List.mem_cons.1 ho with rfl | ho
        · exact sharedTop_mem ha s hs
        · exact sharedAll_mem hb o ho s hs
      next => cases h
    next => cases h

theorem topCond_asked {t : String} {c : Cond} {s : Sel} (h : topCond t s = some c) :
    askedBy v s = if holds v c then askedBy v (clearTop t s) else [] := by
  match s, h with
  | .frag g ss, h =>
    simp only [topCond] at h
    split at h
    next hg =>
      cases h
      have : g.cond = t := hg.1
      simp only [clearTop, this, if_true, askedBy]
      rfl
    next => cases h
  | .field _ _, h => simp [topCond] at h
  | .spread _, h => simp [topCond] at h

theorem clearTop_fit {t : String} {s : Sel} (h : FitBy P anyFrag s) : FitBy P anyFrag (clearTop t s) := by
  match s, h with
  | .frag g ss, h =>
    simp only [clearTop]
    split
    · exact ⟨trivial, h.2⟩
    · exact h
  | .field _ _, h => exact h
  | .spread _, h => exact h

theorem takeShared_ok {s o : Selections} {c : Cond} (h : takeShared s = some (c, o)) :
    (∀ x ∈ askedAll v s, holds v c = true ∧ x ∈ askedAll v o) ∧
      (FitAll P anyFrag s → FitAll P anyFrag o) := by
  unfold takeShared at h
  split at h
  next => cases h
  next =>
    simp only [Option.map_eq_some_iff, Prod.mk.injEq] at h
    obtain ⟨c', hc, rfl, rfl⟩ := h
    refine ⟨?_, ?_⟩
    · intro x hx
      obtain ⟨d, hd, hx⟩ := mem_askedAll.1 hx
      obtain ⟨i, hi, hx⟩ := mem_asked.1 hx
      rw [topCond_asked (sharedAll_mem hc d hd i hi)] at hx
      split at hx
      next hh =>
        refine ⟨hh, mem_askedAll.2 ⟨_, List.mem_map.2 ⟨d, hd, rfl⟩, mem_asked.2 ⟨_, List.mem_map.2 ⟨i, hi, rfl⟩, hx⟩⟩⟩
      next => cases hx
    · intro hf o ho
      obtain ⟨d, hd, rfl⟩ := List.mem_map.1 ho
      refine fit_iff.2 fun i hi => ?_
      obtain ⟨j, hj, rfl⟩ := List.mem_map.1 hi
      exact clearTop_fit (fit_iff.1 (hf d hd) j hj)

theorem liftCond_path {s : Step} : (liftCond s).path = s.path := by
  unfold liftCond
  split
  · split <;> rfl
  · rfl

theorem liftCond_asked {s : Step} : ∀ x ∈ s.asked v, x ∈ (liftCond s).asked v := by
  intro x hx
  unfold liftCond
  split
  next hc =>
    split
    next c o h =>
      obtain ⟨h1, h2, h3⟩ := mem_stepAsked.1 hx
      obtain ⟨y, hy, rfl⟩ := mem_under.1 h3
      obtain ⟨h4, h5⟩ := (takeShared_ok (P := fun _ => True) h).1 y hy
      exact mem_stepAsked.2 ⟨h4, h2, mem_under.2 ⟨y, h5, rfl⟩⟩
    next => exact hx
  next => exact hx

/-! ## Two steps -/

theorem addRewrites_same (rs : List String) : ∀ t : Step,
    (rs.foldl (fun t r => addRewrite r t) t).path = t.path ∧
    (rs.foldl (fun t r => addRewrite r t) t).cond = t.cond ∧
    (rs.foldl (fun t r => addRewrite r t) t).service = t.service ∧
    (rs.foldl (fun t r => addRewrite r t) t).entity = t.entity := by
  induction rs with
  | nil => exact fun _ => ⟨rfl, rfl, rfl, rfl⟩
  | cons r rs ih =>
    intro t
    simp only [List.foldl_cons]
    obtain ⟨h1, h2, h3, h4⟩ := ih (addRewrite r t)
    refine ⟨h1.trans ?_, h2.trans ?_, h3.trans ?_, h4.trans ?_⟩ <;>
    · unfold addRewrite
      split <;> rfl

theorem Below.refl {p : MPath} : Below p p := ⟨Nat.le_refl _, by simp⟩

theorem Below.eq {p q : MPath} (h : Below p q) : q = p ++ q.drop p.length := by
  have := List.take_append_drop p.length q
  rw [h.2] at this
  exact this.symm

/-- Paths that fit to each other, as far as response keys and conditions go. -/
structure Aligned (v : Vars) (p q : MPath) : Prop where
  keys : pathKeys q = pathKeys p ++ pathKeys (q.drop p.length)
  up : pathHolds v q = true → pathHolds v p = true
  down : pathHolds v p = true → pathHolds v (q.drop p.length) = true → pathHolds v q = true

theorem pathKeys_append {p q : MPath} : pathKeys (p ++ q) = pathKeys p ++ pathKeys q := by
  simp [pathKeys]

theorem pathHolds_append {p q : MPath} : pathHolds v (p ++ q) = (pathHolds v p && pathHolds v q) := by
  simp [pathHolds]

theorem pathHolds_drop {p : MPath} {n : Nat} (h : pathHolds v p = true) : pathHolds v (p.drop n) = true := by
  rw [← List.take_append_drop n p, pathHolds_append, Bool.and_eq_true] at h
  exact h.2

theorem Below.aligned {p q : MPath} (h : Below p q) : Aligned v p q := by
  refine ⟨?_, ?_, ?_⟩
  · rw [← pathKeys_append, ← h.eq]
  · intro hq
    rw [h.eq, pathHolds_append, Bool.and_eq_true] at hq
    exact hq.1
  · intro h1 h2
    rw [h.eq, pathHolds_append, h1, h2]
    rfl

theorem sliceFrom_ok {p r : MPath} {n : Nat} (h : sliceFrom p n = .ok r) : n ≤ p.length ∧ r = p.drop n := by
  unfold sliceFrom at h
  split at h
  next hn =>
    cases h
    exact ⟨hn, rfl⟩
  next => cases h

/-- A merge of two steps loses nothing that either asks for, whatever the conditions. -/
theorem mergeSteps_asked (hB : Blind P) {M : Meaning} (hM : ∀ f, P f → Means M f) {force : Bool} {t s z : Step}
    (ht : FitAll P anyFrag t.output) (hs : FitAll P anyFrag s.output) (hi : s.cond ≠ (none, none) → FitAll P anyFrag s.input)
    (hc : t.entity = true ∨ t.cond = (none, none)) (ha : Aligned v t.path s.path)
    (h : mergeSteps force t s = .ok z) :
    (∀ x ∈ t.asked v, x ∈ z.asked v) ∧ ∀ x ∈ s.asked v, x ∈ z.asked v := by
  unfold mergeSteps at h
  split at h
  next => cases h
  next t' s' hsc =>
    obtain ⟨st, ss, hup⟩ := scopeSteps_ok (v := v) hB ht hs hi hc hsc
    split at h
    next => cases h
    next path hpath =>
      rw [st.path, ss.path] at hpath
      obtain ⟨_, rfl⟩ := sliceFrom_ok hpath
      split at h
      next => cases h
      next o al ho =>
        split at h
        next => cases h
        next i hii =>
          cases h
          simp only [safeMigrate] at ho
          obtain ⟨a1, a2, a3⟩ := safeMigrateAll_adds (v := v) hM st.fit ss.fit ho
          obtain ⟨r1, r2, _, _⟩ := addRewrites_same s'.rewrites t'
          refine ⟨fun x hx => liftCond_asked x ?_, fun x hx => liftCond_asked x ?_⟩
          · obtain ⟨h1, h2, h3⟩ := mem_stepAsked.1 hx
            obtain ⟨y, hy, rfl⟩ := mem_under.1 h3
            refine mem_stepAsked.2 ⟨?_, ?_, ?_⟩
            · exact r2 ▸ st.cond h1
            · dsimp only
              rw [r1, st.path]
              exact h2
            · dsimp only
              rw [r1, st.path]
              exact mem_under.2 ⟨y, a1 y (st.out h1 y hy), rfl⟩
          · obtain ⟨h1, h2, h3⟩ := mem_stepAsked.1 hx
            obtain ⟨y, hy, rfl⟩ := mem_under.1 h3
            refine mem_stepAsked.2 ⟨?_, ?_, ?_⟩
            · exact r2 ▸ hup h1
            · dsimp only
              rw [r1, st.path]
              exact ha.up h2
            · dsimp only
              rw [r1, st.path, ha.keys]
              refine mem_under.2 ⟨(pathKeys (s.path.drop t.path.length) ++ y.1, y.2), ?_, by simp⟩
              exact a2 (pathHolds_drop h2) _ (mem_under.2 ⟨y, ss.out h1 y hy, rfl⟩)

end Verif.Fetch
