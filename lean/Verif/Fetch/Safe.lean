import Verif.Fetch.Keep
import Verif.Fetch.Optimize

/-!
# Lemmas: merging steps loses nothing
-/

namespace Verif.Fetch

open Verif.Walker (Cond)

variable {v : Vars} {P : FieldInfo → Prop} {Q : FragInfo → Prop}

theorem Means.eq {M : Meaning} {f g : FieldInfo} (hf : Means M f) (hg : Means M g) (h : f.key = g.key) :
    f.name = g.name ∧ f.alias = g.alias ∧ f.args = g.args := by
  unfold Means at hf hg
  rw [h, hg] at hf
  simp only [Prod.mk.injEq] at hf
  exact ⟨hf.1.symm, hf.2.1.symm, hf.2.2.symm⟩

/-! ## `merge_selection_set` of the safe merger -/

theorem no_clash {M : Meaning} (hM : ∀ f, P f → Means M f) {s t : Sel} (hs : FitBy P Q s) (ht : FitBy P Q t)
    (h : sameKey s t = true) : clashes s t = false := by
  match s, t, hs, ht, h with
  | .field f _, .field g _, hs, ht, h =>
    simp only [sameKey, Bool.and_eq_true, beq_iff_eq] at h
    obtain ⟨_, h2, h3⟩ := (hM f hs.1).eq (hM g ht.1) h.1
    simp [clashes, h2, h3]
  | .frag _ _, .frag _ _, _, _, _ => rfl

theorem scan_clear {s : Sel} : ∀ {ts : List Sel} (i : Nat),
    (∀ t ∈ ts, sameKey s t = true → clashes s t = false) → (scan s i ts).1 = []
  | [], _, _ => rfl
  | t :: r, i, h => by
    simp only [scan]
    split
    next hk =>
      rw [h t (by simp) hk]
      rfl
    next => exact scan_clear (i + 1) fun t ht => h t (List.mem_cons_of_mem _ ht)

theorem updateIn_ok {α : Type} {p : Sel → Bool} {u : List Sel → Except Err (List Sel × α)} :
    ∀ {ts ts' : List Sel} {r : α}, updateIn p u ts = .ok (ts', r) →
      (∃ a f us us' b, ts = a ++ .field f us :: b ∧ p (.field f us) = true ∧ u us = .ok (us', r) ∧
        ts' = a ++ .field f us' :: b) ∨
      (∃ a g us us' b, ts = a ++ .frag g us :: b ∧ p (.frag g us) = true ∧ u us = .ok (us', r) ∧
        ts' = a ++ .frag g us' :: b)
  | [], _, _, h => by simp [updateIn] at h
  | x :: l, ts', r, h => by
    simp only [updateIn] at h
    split at h
    next hp =>
      match x, hp, h with
      | .field f us, hp, h =>
        simp only [Except.map] at h
        split at h
        next => cases h
        next y hy =>
          cases h
          exact .inl ⟨[], f, us, _, l, rfl, hp, hy, rfl⟩
      | .frag g us, hp, h =>
        simp only [Except.map] at h
        split at h
        next => cases h
        next y hy =>
          cases h
          exact .inr ⟨[], g, us, _, l, rfl, hp, hy, rfl⟩
    next =>
      simp only [Except.map] at h
      split at h
      next => cases h
      next y hy =>
        cases h
        rcases updateIn_ok hy with ⟨a, f, us, us', b, h1, h2, h3, h4⟩ | ⟨a, f, us, us', b, h1, h2, h3, h4⟩
        · exact .inl ⟨x :: a, f, us, us', b, by rw [h1]; rfl, h2, h3, by rw [h4]; rfl⟩
        · exact .inr ⟨x :: a, f, us, us', b, by rw [h1]; rfl, h2, h3, by rw [h4]; rfl⟩

theorem runActions_copy (path : MPath) : ∀ (p ts : List Sel) (c : Nat),
    runActions path (p.map .copy) ts c = (ts ++ p, c, [])
  | [], ts, c => by simp [runActions]
  | x :: r, ts, c => by
    simp only [List.map_cons, runActions, runActions_copy path r]
    simp

/-- What the loop of the safe merger does if keys have one meaning. -/
def LoopOk (v : Vars) (P : FieldInfo → Prop) (Q : FragInfo → Prop) (ss ts : List Sel) (c : Nat)
    (r : List Sel × Nat × Aliases × List Action) : Prop :=
  ∃ p, r = (r.1, c, [], p.map Action.copy) ∧ Keeps v ts r.1 ∧ Keeps v ss (r.1 ++ p) ∧
    Fit P Q r.1 ∧ Fit P Q p

theorem LoopOk.finish {ss ts : List Sel} {c : Nat} {r : List Sel × Nat × Aliases × List Action}
    (h : LoopOk v P Q ss ts c r) {path : MPath} {us : List Sel} {c' : Nat} {al : Aliases}
    (hf : finish path (.ok r) = .ok (us, c', al)) :
    Keeps v ts us ∧ Keeps v ss us ∧ Fit P Q us ∧ c' = c ∧ al = [] := by
  obtain ⟨p, hr, h1, h2, h3, h4⟩ := h
  rw [hr] at hf
  simp only [Fetch.finish, runActions_copy, Except.ok.injEq, Prod.mk.injEq, List.append_nil] at hf
  obtain ⟨rfl, rfl, rfl⟩ := hf
  exact ⟨h1.trans Keeps.left, h2, fit_append.2 ⟨h3, h4⟩, rfl, rfl⟩

theorem finish_ok {path : MPath} {r : Except Err (List Sel × Nat × Aliases × List Action)}
    {q : List Sel × Nat × Aliases} (h : finish path r = .ok q) : ∃ x, r = .ok x := by
  cases r with
  | error e => simp [Fetch.finish] at h
  | ok x => exact ⟨x, rfl⟩

mutual
theorem safeItem_keeps {M : Meaning} (hM : ∀ f, P f → Means M f) (used : Bool × Bool) : ∀ (s : Sel)
    {path : MPath} {ts ts' : List Sel} {c c' : Nat} {al : Aliases}, FitBy P Q s → Fit P Q ts →
    safeItem used path s ts c = .ok (ts', c', al) →
    Keeps v ts ts' ∧ (∀ z ∈ askedBy v s, z ∈ asked v ts') ∧ Fit P Q ts' ∧ c' = c ∧ al = []
  | .field f ss, path, ts, ts', c, c', al, hs, ht, h => by
    simp only [safeItem, safeInto] at h
    rcases updateIn_ok h with ⟨a, g, us, us', b, rfl, hp, hu, rfl⟩ | ⟨a, g, us, us', b, rfl, hp, hu, rfl⟩
    · obtain ⟨h1, h2, h3⟩ := fit_mid.1 ht
      simp only [sameKey, Bool.and_eq_true, beq_iff_eq, decide_eq_true_eq] at hp
      obtain ⟨n1, n2, n3⟩ := (hM f hs.1).eq (hM g h2.1) hp.1.1
      have ha : askOf f = askOf g := by simp [askOf, argsOf, FieldInfo.key, n1, n2, n3]
      obtain ⟨x, hx⟩ := finish_ok hu
      rw [hx] at hu
      obtain ⟨k1, k2, k3, k4, k5⟩ := (safeLoop_keeps hM used ss hs.2 h2.2 hx).finish hu
      refine ⟨Keeps.mid (askedBy_field_mono rfl rfl k1), ?_, fit_mid.2 ⟨h1, ⟨h2.1, k3⟩, h3⟩, k4, k5⟩
      intro z hz
      exact mem_asked.2 ⟨_, List.mem_append_right _ (List.mem_cons_self ..),
        askedBy_field_mono hp.1.2 ha k2 z hz⟩
    · simp [sameKey] at hp
  | .frag f ss, path, ts, ts', c, c', al, hs, ht, h => by
    simp only [safeItem, safeInto] at h
    rcases updateIn_ok h with ⟨a, g, us, us', b, rfl, hp, hu, rfl⟩ | ⟨a, g, us, us', b, rfl, hp, hu, rfl⟩
    · simp [sameKey] at hp
    · obtain ⟨h1, h2, h3⟩ := fit_mid.1 ht
      simp only [sameKey, Bool.and_eq_true, beq_iff_eq, decide_eq_true_eq] at hp
      obtain ⟨x, hx⟩ := finish_ok hu
      rw [hx] at hu
      obtain ⟨k1, k2, k3, k4, k5⟩ := (safeLoop_keeps hM used ss hs.2 h2.2 hx).finish hu
      refine ⟨Keeps.mid (askedBy_frag_mono rfl k1), ?_, fit_mid.2 ⟨h1, ⟨h2.1, k3⟩, h3⟩, k4, k5⟩
      intro z hz
      exact mem_asked.2 ⟨_, List.mem_append_right _ (List.mem_cons_self ..),
        askedBy_frag_mono hp.1.2 k2 z hz⟩
  | .spread _, _, _, _, _, _, _, _, _, h => by simp [safeItem] at h
theorem safeLoop_keeps {M : Meaning} (hM : ∀ f, P f → Means M f) (used : Bool × Bool) : ∀ (ss : List Sel)
    {path : MPath} {ts : List Sel} {c : Nat} {r : List Sel × Nat × Aliases × List Action},
    Fit P Q ss → Fit P Q ts → safeLoop used path ss ts c = .ok r → LoopOk v P Q ss ts c r
  | [], path, ts, c, r, _, ht, h => by
    simp only [safeLoop] at h
    cases h
    exact ⟨[], rfl, Keeps.refl, fun x hx => by simp [asked] at hx, ht, trivial⟩
  | s :: l, path, ts, c, r, hs, ht, h => by
    have hscan : (scan s 0 ts).1 = [] :=
      scan_clear 0 fun t hm hk => no_clash hM hs.1 (fit_iff.1 ht t hm) hk
    simp only [safeLoop, hscan, List.isEmpty_nil, Bool.not_true, Bool.and_false, Bool.false_eq_true,
      if_false] at h
    split at h
    next =>
      split at h
      next => cases h
      next ts1 c1 al1 hi =>
        obtain ⟨k1, k2, k3, rfl, rfl⟩ := safeItem_keeps hM used s hs.1 ht hi
        split at h
        next => cases h
        next ts2 c2 al2 acts hl =>
          cases h
          obtain ⟨p, hr, j1, j2, j3, j4⟩ := safeLoop_keeps hM used l hs.2 k3 hl
          simp only [Prod.mk.injEq] at hr
          obtain ⟨-, rfl, rfl, rfl⟩ := hr
          refine ⟨p, rfl, k1.trans j1, ?_, j3, j4⟩
          intro x hx
          simp only [asked, List.mem_append] at hx
          rcases hx with hx | hx
          · exact Keeps.left x (j1 x (k2 x hx))
          · exact j2 x hx
    next =>
      simp only [List.getLast?_nil] at h
      split at h
      next => cases h
      next ts2 c2 al2 acts hl =>
        cases h
        obtain ⟨p, hr, j1, j2, j3, j4⟩ := safeLoop_keeps hM used l hs.2 ht hl
        simp only [Prod.mk.injEq] at hr
        obtain ⟨-, rfl, rfl, rfl⟩ := hr
        refine ⟨s :: p, rfl, j1, ?_, j3, hs.1, j4⟩
        intro x hx
        simp only [asked, List.mem_append] at hx
        rcases hx with hx | hx
        · exact mem_asked.2 ⟨s, by simp, hx⟩
        · have := j2 x hx
          simp only [asked_append, asked, List.mem_append] at this ⊢
          rcases this with h | h
          · exact .inl h
          · exact .inr (.inr h)
end

theorem safeMerge_keeps {M : Meaning} (hM : ∀ f, P f → Means M f) {used : Bool × Bool} {path : MPath}
    {ss ts us : List Sel} {c c' : Nat} {al : Aliases} (hs : Fit P Q ss) (ht : Fit P Q ts)
    (h : safeMerge used path ss ts c = .ok (us, c', al)) :
    Keeps v ts us ∧ Keeps v ss us ∧ Fit P Q us ∧ c' = c ∧ al = [] := by
  simp only [safeMerge] at h
  obtain ⟨x, hx⟩ := finish_ok h
  rw [hx] at h
  exact (safeLoop_keeps hM used ss hs ht hx).finish h

/-! ## Changes at a place -/

/-- A change that keeps what is there and adds something. -/
def Adds (v : Vars) (P : FieldInfo → Prop) (Q : FragInfo → Prop) {α : Type} (X : List (List String × Ask))
    (u : List Sel → Except Err (List Sel × α)) : Prop :=
  ∀ us R a, Fit P Q us → u us = .ok (R, a) → Keeps v us R ∧ (∀ x ∈ X, x ∈ asked v R) ∧ Fit P Q R

/-- The same, further up. -/
def under (keys : List String) (X : List (List String × Ask)) : List (List String × Ask) :=
  X.map fun x => (keys ++ x.1, x.2)

theorem under_nil {X : List (List String × Ask)} : under [] X = X := by simp [under]

theorem mem_under {keys : List String} {X : List (List String × Ask)} {x : List String × Ask} :
    x ∈ under keys X ↔ ∃ y ∈ X, (keys ++ y.1, y.2) = x := by simp [under]

theorem under_append {a b : List String} {X : List (List String × Ask)} :
    under (a ++ b) X = under a (under b X) := by simp [under]

theorem updateAt_adds {α : Type} {X : List (List String × Ask)} {u : List Sel → Except Err (List Sel × α)}
    (hu : Adds v P Q X u) : ∀ (path : MPath), pathHolds v path = true →
      Adds v P Q (under (pathKeys path) X) (updateAt u path)
  | [], _ => by
    intro us R a hf h
    simp only [updateAt] at h
    simpa only [pathKeys, List.filterMap_nil, under_nil] using hu _ _ _ hf h
  | .list :: p, hp => by
    intro us R a hf h
    simp only [updateAt] at h
    simp only [pathHolds, List.all_cons, Bool.and_eq_true] at hp
    have hk : pathKeys (.list :: p) = pathKeys p := rfl
    rw [hk]
    exact updateAt_adds hu p hp.2 _ _ _ hf h
  | .field n al args c :: p, hp => by
    intro us R a hf h
    simp only [updateAt] at h
    simp only [pathHolds, List.all_cons, Bool.and_eq_true] at hp
    rcases updateIn_ok h with ⟨l, g, ts, ts', r, rfl, hfit, hh, rfl⟩ | ⟨l, g, ts, ts', r, rfl, hfit, hh, rfl⟩
    · obtain ⟨h1, h2, h3⟩ := fit_mid.1 hf
      obtain ⟨k1, k2, k3⟩ := updateAt_adds hu p hp.2 _ _ _ h2.2 hh
      refine ⟨Keeps.mid (askedBy_field_mono rfl rfl k1), ?_, fit_mid.2 ⟨h1, ⟨h2.1, k3⟩, h3⟩⟩
      intro x hx
      simp only [fits, Bool.and_eq_true, beq_iff_eq, decide_eq_true_eq] at hfit
      obtain ⟨y, hy, rfl⟩ := mem_under.1 hx
      refine mem_asked.2 ⟨_, List.mem_append_right _ (List.mem_cons_self ..), ?_⟩
      have hc : holds v (condOf g) = true := by rw [hfit.2]; exact hp.1
      simp only [askedBy, hc, if_true]
      refine List.mem_cons_of_mem _ (List.mem_map.2 ⟨(pathKeys p ++ y.1, y.2),
        k2 _ (mem_under.2 ⟨y, hy, rfl⟩), ?_⟩)
      simp [pathKeys, segKey, hfit.1.1]
    · simp [fits] at hfit
  | .type ns c :: p, hp => by
    intro us R a hf h
    simp only [updateAt] at h
    simp only [pathHolds, List.all_cons, Bool.and_eq_true] at hp
    rcases updateIn_ok h with ⟨l, g, ts, ts', r, rfl, hfit, hh, rfl⟩ | ⟨l, g, ts, ts', r, rfl, hfit, hh, rfl⟩
    · simp [fits] at hfit
    · obtain ⟨h1, h2, h3⟩ := fit_mid.1 hf
      obtain ⟨k1, k2, k3⟩ := updateAt_adds hu p hp.2 _ _ _ h2.2 hh
      refine ⟨Keeps.mid (askedBy_frag_mono rfl k1), ?_, fit_mid.2 ⟨h1, ⟨h2.1, k3⟩, h3⟩⟩
      intro x hx
      simp only [fits, Bool.and_eq_true, decide_eq_true_eq] at hfit
      refine mem_asked.2 ⟨_, List.mem_append_right _ (List.mem_cons_self ..), ?_⟩
      have hc : holds v (fragCond g) = true := by rw [hfit.2]; exact hp.1
      simp only [askedBy, hc, if_true]
      refine k2 x ?_
      have hk : pathKeys (.type ns c :: p) = pathKeys p := rfl
      rwa [hk] at hx

/-- Without conditions on the path there is still nothing lost. -/
theorem updateAt_keeps {α : Type} {X : List (List String × Ask)} {u : List Sel → Except Err (List Sel × α)}
    (hu : Adds v P Q X u) : ∀ (path : MPath), Adds v P Q [] (updateAt u path)
  | [] => by
    intro us R a hf h
    simp only [updateAt] at h
    obtain ⟨h1, _, h3⟩ := hu _ _ _ hf h
    exact ⟨h1, by simp, h3⟩
  | .list :: p => by
    intro us R a hf h
    simp only [updateAt] at h
    exact updateAt_keeps hu p _ _ _ hf h
  | .field n al args c :: p => by
    intro us R a hf h
    simp only [updateAt] at h
    rcases updateIn_ok h with ⟨l, g, ts, ts', r, rfl, hfit, hh, rfl⟩ | ⟨l, g, ts, ts', r, rfl, hfit, hh, rfl⟩
    · obtain ⟨h1, h2, h3⟩ := fit_mid.1 hf
      obtain ⟨k1, k2, k3⟩ := updateAt_keeps hu p _ _ _ h2.2 hh
      exact ⟨Keeps.mid (askedBy_field_mono rfl rfl k1), by simp, fit_mid.2 ⟨h1, ⟨h2.1, k3⟩, h3⟩⟩
    · simp [fits] at hfit
  | .type ns c :: p => by
    intro us R a hf h
    simp only [updateAt] at h
    rcases updateIn_ok h with ⟨l, g, ts, ts', r, rfl, hfit, hh, rfl⟩ | ⟨l, g, ts, ts', r, rfl, hfit, hh, rfl⟩
    · simp [fits] at hfit
    · obtain ⟨h1, h2, h3⟩ := fit_mid.1 hf
      obtain ⟨k1, k2, k3⟩ := updateAt_keeps hu p _ _ _ h2.2 hh
      exact ⟨Keeps.mid (askedBy_frag_mono rfl k1), by simp, fit_mid.2 ⟨h1, ⟨h2.1, k3⟩, h3⟩⟩

/-! ## The selections of a step -/

/-- All that selections ask for. -/
def askedAll (v : Vars) (s : Selections) : List (List String × Ask) := s.flatMap fun o => asked v o.2

/-- All fields and fragments of selections. -/
def FitAll (P : FieldInfo → Prop) (Q : FragInfo → Prop) (s : Selections) : Prop := ∀ o ∈ s, Fit P Q o.2

theorem askedAll_cons {o : String × List Sel} {s : Selections} :
    askedAll v (o :: s) = asked v o.2 ++ askedAll v s := by simp [askedAll]

theorem fitAll_cons {o : String × List Sel} {s : Selections} :
    FitAll P Q (o :: s) ↔ Fit P Q o.2 ∧ FitAll P Q s := by simp [FitAll]

theorem mem_askedAll {s : Selections} {x : List String × Ask} :
    x ∈ askedAll v s ↔ ∃ o ∈ s, x ∈ asked v o.2 := by simp [askedAll]

theorem updateDef_adds {α : Type} {X : List (List String × Ask)} {u : List Sel → Except Err (List Sel × α)}
    (hu : Adds v P Q X u) {t : String} : ∀ {s R : Selections} {a : α}, FitAll P Q s →
      updateDef t u s = .ok (R, a) →
      (∀ x ∈ askedAll v s, x ∈ askedAll v R) ∧ (∀ x ∈ X, x ∈ askedAll v R) ∧ FitAll P Q R
  | [], _, _, _, h => by simp [updateDef] at h
  | (k, ss) :: r, R, a, hf, h => by
    obtain ⟨f1, f2⟩ := fitAll_cons.1 hf
    simp only [updateDef] at h
    split at h
    next =>
      simp only [Except.map] at h
      split at h
      next => cases h
      next y hy =>
        cases h
        obtain ⟨h1, h2, h3⟩ := hu _ _ _ f1 hy
        refine ⟨?_, ?_, fitAll_cons.2 ⟨h3, f2⟩⟩
        · intro x hx
          rw [askedAll_cons, List.mem_append] at hx ⊢
          exact hx.imp (h1 x) id
        · intro x hx
          rw [askedAll_cons, List.mem_append]
          exact .inl (h2 x hx)
    next =>
      simp only [Except.map] at h
      split at h
      next => cases h
      next y hy =>
        cases h
        obtain ⟨h1, h2, h3⟩ := updateDef_adds hu f2 hy
        refine ⟨?_, ?_, fitAll_cons.2 ⟨f1, h3⟩⟩
        · intro x hx
          rw [askedAll_cons, List.mem_append] at hx ⊢
          exact hx.imp id (h1 x)
        · intro x hx
          rw [askedAll_cons, List.mem_append]
          exact .inr (h2 x hx)

theorem merge_adds (hB : Blind P) {items : List Sel} (hi : Fit P Q items) (first : Bool) :
    Adds v P Q (asked v items)
      (fun ts => (.ok (mergeSels first items ts, ()) : Except Err (List Sel × Unit))) := by
  intro us R a hf h
  cases h
  exact ⟨(mergeSels_keeps first items us).1, (mergeSels_keeps first items us).2, mergeSels_fit hB first hi hf⟩

theorem addAt_adds (hB : Blind P) {t : String} {path : MPath} {items : List Sel} {first : Bool}
    {s R : Selections} (hf : FitAll P Q s) (hi : Fit P Q items) (h : addAt t path items first s = .ok R) :
    (∀ x ∈ askedAll v s, x ∈ askedAll v R) ∧
      (pathHolds v path = true → ∀ x ∈ under (pathKeys path) (asked v items), x ∈ askedAll v R) ∧
      FitAll P Q R := by
  simp only [addAt, Except.map] at h
  split at h
  next => cases h
  next y hy =>
    cases h
    obtain ⟨h1, _, h3⟩ := updateDef_adds (updateAt_keeps (merge_adds (v := v) hB hi first) path) hf hy
    exact ⟨h1, fun hp => (updateDef_adds (updateAt_adds (merge_adds hB hi first) path hp) hf hy).2.1, h3⟩

theorem migrateAll_adds (hB : Blind P) {into : Option String} {path : MPath} :
    ∀ {other s R : Selections}, FitAll P Q s → FitAll P Q other → migrateAll into path other s = .ok R →
    (∀ x ∈ askedAll v s, x ∈ askedAll v R) ∧
      (pathHolds v path = true → ∀ x ∈ under (pathKeys path) (askedAll v other), x ∈ askedAll v R) ∧
      FitAll P Q R
  | [], s, R, hf, _, h => by
    simp only [migrateAll] at h
    cases h
    exact ⟨fun _ h => h, by simp [askedAll, under], hf⟩
  | (k, items) :: r, s, R, hf, ho, h => by
    obtain ⟨o1, o2⟩ := fitAll_cons.1 ho
    simp only [migrateAll] at h
    split at h
    next => cases h
    next s1 h1 =>
      obtain ⟨a1, a2, a3⟩ := addAt_adds (v := v) hB hf o1 h1
      obtain ⟨b1, b2, b3⟩ := migrateAll_adds hB a3 o2 h
      refine ⟨fun x hx => b1 x (a1 x hx), ?_, b3⟩
      intro hp x hx
      rw [askedAll_cons, under, List.map_append, List.mem_append] at hx
      exact hx.elim (fun hx => b1 x (a2 hp x hx)) (fun hx => b2 hp x hx)

theorem safeMigrateAll_adds {M : Meaning} (hM : ∀ f, P f → Means M f) {used : Bool × Bool}
    {into : Option String} {path : MPath} :
    ∀ {other s R : Selections} {al : List (String × Aliases)}, FitAll P Q s → FitAll P Q other →
    safeMigrateAll used into path other s = .ok (R, al) →
    (∀ x ∈ askedAll v s, x ∈ askedAll v R) ∧
      (pathHolds v path = true → ∀ x ∈ under (pathKeys path) (askedAll v other), x ∈ askedAll v R) ∧
      FitAll P Q R
  | [], s, R, al, hf, _, h => by
    simp only [safeMigrateAll] at h
    cases h
    exact ⟨fun _ h => h, by simp [askedAll, under], hf⟩
  | (k, items) :: r, s, R, al, hf, ho, h => by
    obtain ⟨o1, o2⟩ := fitAll_cons.1 ho
    simp only [safeMigrateAll] at h
    split at h
    next => cases h
    next s1 al1 h1 =>
      have hA : Adds v P Q (asked v items)
          (fun ts => (safeMerge used [] items ts 0).map fun q => (q.1, q.2.2)) := by
        intro us R a hf hh
        simp only [Except.map] at hh
        split at hh
        next => cases hh
        next q hq =>
          cases hh
          obtain ⟨x1, x2, x3, _, _⟩ := safeMerge_keeps (v := v) hM o1 hf hq
          exact ⟨x1, x2, x3⟩
      obtain ⟨a1, _, a3⟩ := updateDef_adds (updateAt_keeps hA path) hf h1
      split at h
      next => cases h
      next s2 al2 h2 =>
        cases h
        obtain ⟨b1, b2, b3⟩ := safeMigrateAll_adds hM a3 o2 h2
        refine ⟨fun x hx => b1 x (a1 x hx), ?_, b3⟩
        intro hp x hx
        rw [askedAll_cons, under, List.map_append, List.mem_append] at hx
        refine hx.elim (fun hx => b1 x ?_) (fun hx => b2 hp x hx)
        exact (updateDef_adds (updateAt_adds hA path hp) hf h1).2.1 x hx

end Verif.Fetch
