import Verif.Fetch.Merge

/-!
# Lemmas: merging asks for nothing new
-/

namespace Verif.Fetch

open Verif.Walker (Cond)

variable {v : Vars} {P : FieldInfo → Prop} {Q : FragInfo → Prop}

theorem asked_mid {a b : List Sel} {x : Sel} {z : List String × Ask} :
    z ∈ asked v (a ++ x :: b) ↔ z ∈ asked v a ∨ z ∈ askedBy v x ∨ z ∈ asked v b := by
  simp only [asked_append, asked, List.mem_append]

/-- What a changed field asks for. -/
theorem askedBy_field_within {f g : FieldInfo} {ss ts us : List Sel} (hc : condOf f = condOf g)
    (ha : askOf f = askOf g) (h : ∀ x ∈ asked v us, x ∈ asked v ts ∨ x ∈ asked v ss) :
    ∀ z ∈ askedBy v (.field g us), z ∈ askedBy v (.field g ts) ∨ z ∈ askedBy v (.field f ss) := by
  intro z hz
  have hk : f.key = g.key := congrArg Ask.key ha
  simp only [askedBy] at hz ⊢
  rw [hc, ha, hk]
  split at hz
  next hh =>
    rw [if_pos hh, if_pos hh]
    rcases List.mem_cons.1 hz with rfl | hz
    · exact .inl (List.mem_cons_self ..)
    · obtain ⟨y, hy, rfl⟩ := List.mem_map.1 hz
      rcases h y hy with h1 | h1
      · exact .inl (List.mem_cons_of_mem _ (List.mem_map.2 ⟨y, h1, rfl⟩))
      · exact .inr (List.mem_cons_of_mem _ (List.mem_map.2 ⟨y, h1, rfl⟩))
  next => cases hz

theorem askedBy_frag_within {f g : FragInfo} {ss ts us : List Sel} (hc : fragCond f = fragCond g)
    (h : ∀ x ∈ asked v us, x ∈ asked v ts ∨ x ∈ asked v ss) :
    ∀ z ∈ askedBy v (.frag g us), z ∈ askedBy v (.frag g ts) ∨ z ∈ askedBy v (.frag f ss) := by
  intro z hz
  simp only [askedBy] at hz ⊢
  rw [hc]
  split at hz
  next hh =>
    rw [if_pos hh, if_pos hh]
    exact h z hz
  next => cases hz

/-- A field that differs in whether it is left out of the response asks for the same. -/
theorem askedBy_omit {f g : FieldInfo} {ss : List Sel} :
    askedBy v (.field (mergeOmit f g) ss) = askedBy v (.field f ss) := by
  simp only [askedBy, mergeOmit_ask.1, mergeOmit_ask.2]
  have : (mergeOmit f g).key = f.key := congrArg Ask.key (mergeOmit_ask (f := f) (g := g)).1
  rw [this]

theorem place_within {first : Bool} {r : List Sel × List Sel} {x : List String × Ask}
    (h : x ∈ asked v (place first r)) : x ∈ asked v (r.1 ++ r.2) := by
  cases first
  · exact h
  · simp only [place, if_true, asked_append, List.mem_append] at h ⊢
    exact h.symm

mutual
theorem mergeSel_within (first : Bool) : ∀ (s : Sel) {ts ts' : List Sel},
    mergeSel first s ts = some ts' → ∀ z ∈ asked v ts', z ∈ asked v ts ∨ z ∈ askedBy v s
  | .field f ss, ts, ts', h => by
    simp only [mergeSel] at h
    obtain ⟨a, x, b, rfl, hp, rfl⟩ := updateFirst_some h
    match x, hp with
    | .field g us, hp =>
      simp only [matches', Bool.and_eq_true, decide_eq_true_eq] at hp
      intro z hz
      rw [asked_mid] at hz ⊢
      rcases hz with hz | hz | hz
      · exact .inl (.inl hz)
      · simp only [onSels] at hz
        rw [askedBy_omit] at hz
        rcases askedBy_field_within hp.2 (sameField_ask hp.1)
          (fun x hx => mergeLoop_within first ss x (place_within hx)) z hz with h1 | h1
        · exact .inl (.inr (.inl h1))
        · exact .inr h1
      · exact .inl (.inr (.inr hz))
    | .frag _ _, hp => simp [matches'] at hp
    | .spread _, hp => simp [matches'] at hp
  | .frag f ss, ts, ts', h => by
    simp only [mergeSel] at h
    obtain ⟨a, x, b, rfl, hp, rfl⟩ := updateFirst_some h
    match x, hp with
    | .frag g us, hp =>
      simp only [matches', Bool.and_eq_true, decide_eq_true_eq] at hp
      intro z hz
      rw [asked_mid] at hz ⊢
      rcases hz with hz | hz | hz
      · exact .inl (.inl hz)
      · simp only [onSels] at hz
        rcases askedBy_frag_within hp.2
          (fun x hx => mergeLoop_within first ss x (place_within hx)) z hz with h1 | h1
        · exact .inl (.inr (.inl h1))
        · exact .inr h1
      · exact .inl (.inr (.inr hz))
    | .field _ _, hp => simp [matches'] at hp
    | .spread _, hp => simp [matches'] at hp
  | .spread _, _, _, h => by simp [mergeSel] at h
theorem mergeLoop_within (first : Bool) : ∀ (ss : List Sel) {ts : List Sel},
    ∀ z ∈ asked v ((mergeLoop first ss ts).1 ++ (mergeLoop first ss ts).2), z ∈ asked v ts ∨ z ∈ asked v ss
  | [], ts, z, hz => by
    simp only [mergeLoop, List.append_nil] at hz
    exact .inl hz
  | s :: r, ts, z, hz => by
    simp only [mergeLoop] at hz
    simp only [asked, List.mem_append]
    split at hz
    next ts' h =>
      rcases mergeLoop_within first r z hz with h1 | h1
      · exact (mergeSel_within first s h z h1).imp id .inl
      · exact .inr (.inr h1)
    next =>
      rw [asked_mid] at hz
      rcases hz with hz | hz | hz
      · exact (mergeLoop_within first r z (Keeps.left z hz)).imp id .inr
      · exact .inr (.inl hz)
      · exact (mergeLoop_within first r z (Keeps.right z hz)).imp id .inr
end

theorem mergeSels_within (first : Bool) (ss ts : List Sel) :
    ∀ z ∈ asked v (mergeSels first ss ts), z ∈ asked v ts ∨ z ∈ asked v ss :=
  fun z hz => mergeLoop_within first ss z (place_within hz)

/-! ## The safe merger -/

theorem finish_within {ss ts : List Sel} {c : Nat} {r : List Sel × Nat × Aliases × List Action}
    (h : LoopOk v P Q ss ts c r) (hw : ∀ p, r.2.2.2 = p.map Action.copy → ∀ z ∈ asked v (r.1 ++ p),
      z ∈ asked v ts ∨ z ∈ asked v ss) {path : MPath} {us : List Sel} {c' : Nat} {al : Aliases}
    (hf : finish path (.ok r) = .ok (us, c', al)) : ∀ z ∈ asked v us, z ∈ asked v ts ∨ z ∈ asked v ss := by
  obtain ⟨p, hr, _⟩ := h
  rw [hr] at hf hw
  simp only [Fetch.finish, runActions_copy, Except.ok.injEq, Prod.mk.injEq, List.append_nil] at hf
  obtain ⟨rfl, _, _⟩ := hf
  exact hw p rfl

theorem copy_inj : ∀ {p q : List Sel}, p.map Action.copy = q.map Action.copy → p = q
  | [], [], _ => rfl
  | [], _ :: _, h => by simp at h
  | _ :: _, [], h => by simp at h
  | a :: p, b :: q, h => by
    simp only [List.map_cons, List.cons.injEq, Action.copy.injEq] at h
    rw [h.1, copy_inj h.2]

mutual
theorem safeItem_within {M : Meaning} (hM : ∀ f, P f → Means M f) (used : Bool × Bool) : ∀ (s : Sel)
    {path : MPath} {ts ts' : List Sel} {c c' : Nat} {al : Aliases}, FitBy P Q s → Fit P Q ts →
    safeItem used path s ts c = .ok (ts', c', al) → ∀ z ∈ asked v ts', z ∈ asked v ts ∨ z ∈ askedBy v s
  | .field f ss, path, ts, ts', c, c', al, hs, ht, h => by
    simp only [safeItem, safeInto] at h
    rcases updateIn_ok h with ⟨a, g, us, us', b, rfl, hp, hu, rfl⟩ | ⟨a, g, us, us', b, rfl, hp, hu, rfl⟩
    · obtain ⟨h1, h2, h3⟩ := fit_mid.1 ht
      simp only [sameKey, Bool.and_eq_true, beq_iff_eq, decide_eq_true_eq] at hp
      obtain ⟨n1, n2, n3⟩ := (hM f hs.1).eq (hM g h2.1) hp.1.1
      have ha : askOf f = askOf g := by simp [askOf, argsOf, FieldInfo.key, n1, n2, n3]
      obtain ⟨x, hx⟩ := finish_ok hu
      rw [hx] at hu
      have hl := finish_within (safeLoop_keeps (v := v) hM used ss hs.2 h2.2 hx)
        (safeLoop_within hM used ss hs.2 h2.2 hx) hu
      intro z hz
      rw [asked_mid] at hz ⊢
      rcases hz with hz | hz | hz
      · exact .inl (.inl hz)
      · rcases askedBy_field_within hp.1.2 ha hl z hz with h1 | h1
        · exact .inl (.inr (.inl h1))
        · exact .inr h1
      · exact .inl (.inr (.inr hz))
    · simp [sameKey] at hp
  | .frag f ss, path, ts, ts', c, c', al, hs, ht, h => by
    simp only [safeItem, safeInto] at h
    rcases updateIn_ok h with ⟨a, g, us, us', b, rfl, hp, hu, rfl⟩ | ⟨a, g, us, us', b, rfl, hp, hu, rfl⟩
    · simp [sameKey] at hp
    · obtain ⟨h1, h2, h3⟩ := fit_mid.1 ht
      simp only [sameKey, Bool.and_eq_true, beq_iff_eq, decide_eq_true_eq] at hp
      obtain ⟨x, hx⟩ := finish_ok hu
      rw [hx] at hu
      have hl := finish_within (safeLoop_keeps (v := v) hM used ss hs.2 h2.2 hx)
        (safeLoop_within hM used ss hs.2 h2.2 hx) hu
      intro z hz
      rw [asked_mid] at hz ⊢
      rcases hz with hz | hz | hz
      · exact .inl (.inl hz)
      · rcases askedBy_frag_within hp.1.2 hl z hz with h1 | h1
        · exact .inl (.inr (.inl h1))
        · exact .inr h1
      · exact .inl (.inr (.inr hz))
  | .spread _, _, _, _, _, _, _, _, _, h => by simp [safeItem] at h
theorem safeLoop_within {M : Meaning} (hM : ∀ f, P f → Means M f) (used : Bool × Bool) : ∀ (ss : List Sel)
    {path : MPath} {ts : List Sel} {c : Nat} {r : List Sel × Nat × Aliases × List Action},
    Fit P Q ss → Fit P Q ts → safeLoop used path ss ts c = .ok r →
    ∀ p, r.2.2.2 = p.map Action.copy → ∀ z ∈ asked v (r.1 ++ p), z ∈ asked v ts ∨ z ∈ asked v ss
  | [], path, ts, c, r, _, ht, h => by
    simp only [safeLoop] at h
    cases h
    intro p hp z hz
    have : p = [] := by simpa using hp.symm
    subst this
    simp only [List.append_nil] at hz
    exact .inl hz
  | s :: l, path, ts, c, r, hs, ht, h => by
    have hscan : (scan s 0 ts).1 = [] :=
      scan_clear 0 fun t hm hk => no_clash hM hs.1 (fit_iff.1 ht t hm) hk
    simp only [safeLoop, hscan, List.isEmpty_nil, Bool.not_true, Bool.and_false, Bool.false_eq_true,
      if_false] at h
    intro p hp z hz
    simp only [asked, List.mem_append]
    split at h
    next =>
      split at h
      next => cases h
      next ts1 c1 al1 hi =>
        obtain ⟨_, _, k3, rfl, rfl⟩ := safeItem_keeps (v := v) hM used s hs.1 ht hi
        split at h
        next => cases h
        next ts2 c2 al2 acts hl =>
          cases h
          rcases safeLoop_within hM used l hs.2 k3 hl p hp z hz with h1 | h1
          · exact (safeItem_within hM used s hs.1 ht hi z h1).imp id .inl
          · exact .inr (.inr h1)
    next =>
      simp only [List.getLast?_nil] at h
      split at h
      next => cases h
      next ts2 c2 al2 acts hl =>
        cases h
        obtain ⟨q, hq, _⟩ := safeLoop_keeps (v := v) hM used l hs.2 ht hl
        simp only [Prod.mk.injEq] at hq
        obtain ⟨-, -, -, rfl⟩ := hq
        have hpq : p = s :: q := copy_inj (by simpa using hp.symm)
        subst hpq
        have ih := safeLoop_within hM used l hs.2 ht hl q rfl z
        rw [asked_mid] at hz
        rcases hz with hz | hz | hz
        · exact (ih (Keeps.left z hz)).imp id .inr
        · exact .inr (.inl hz)
        · exact (ih (Keeps.right z hz)).imp id .inr
end

theorem safeMerge_within {M : Meaning} (hM : ∀ f, P f → Means M f) {used : Bool × Bool} {path : MPath}
    {ss ts us : List Sel} {c c' : Nat} {al : Aliases} (hs : Fit P Q ss) (ht : Fit P Q ts)
    (h : safeMerge used path ss ts c = .ok (us, c', al)) : ∀ z ∈ asked v us, z ∈ asked v ts ∨ z ∈ asked v ss := by
  simp only [safeMerge] at h
  obtain ⟨x, hx⟩ := finish_ok h
  rw [hx] at h
  exact finish_within (safeLoop_keeps hM used ss hs ht hx) (safeLoop_within hM used ss hs ht hx) h

/-! ## Changes at a place -/

/-- A change that adds nothing but something. -/
def Within (v : Vars) (P : FieldInfo → Prop) (Q : FragInfo → Prop) {α : Type} (X : List (List String × Ask))
    (u : List Sel → Except Err (List Sel × α)) : Prop :=
  ∀ us R a, Fit P Q us → u us = .ok (R, a) → ∀ x ∈ asked v R, x ∈ asked v us ∨ x ∈ X

/-- What is added at a path. -/
def atPath (v : Vars) (path : MPath) (X : List (List String × Ask)) : List (List String × Ask) :=
  if pathHolds v path then under (pathKeys path) X else []

theorem updateAt_within {α : Type} {X : List (List String × Ask)} {u : List Sel → Except Err (List Sel × α)}
    (hu : Within v P Q X u) : ∀ (path : MPath), Within v P Q (atPath v path X) (updateAt u path)
  | [] => by
    intro us R a hf h x hx
    simp only [updateAt] at h
    have := hu _ _ _ hf h x hx
    simpa only [atPath, pathHolds, List.all_nil, if_true, pathKeys, List.filterMap_nil, under_nil] using this
  | .list :: p => by
    intro us R a hf h x hx
    simp only [updateAt] at h
    exact updateAt_within hu p _ _ _ hf h x hx
  | .field n al args c :: p => by
    intro us R a hf h x hx
    simp only [updateAt] at h
    rcases updateIn_ok h with ⟨l, g, ts, ts', r, rfl, hfit, hh, rfl⟩ | ⟨l, g, ts, ts', r, rfl, hfit, hh, rfl⟩
    · obtain ⟨h1, h2, h3⟩ := fit_mid.1 hf
      simp only [fits, Bool.and_eq_true, beq_iff_eq, decide_eq_true_eq] at hfit
      have hk := updateAt_within hu p _ _ _ h2.2 hh
      rw [asked_mid] at hx ⊢
      rcases hx with hx | hx | hx
      · exact .inl (.inl hx)
      · simp only [askedBy] at hx ⊢
        split at hx
        next hc =>
          rw [if_pos hc]
          rcases List.mem_cons.1 hx with rfl | hx
          · exact .inl (.inr (.inl (List.mem_cons_self ..)))
          · obtain ⟨y, hy, rfl⟩ := List.mem_map.1 hx
            rcases hk y hy with h4 | h4
            · exact .inl (.inr (.inl (List.mem_cons_of_mem _ (List.mem_map.2 ⟨y, h4, rfl⟩))))
            · refine .inr ?_
              unfold atPath at h4 ⊢
              split at h4
              next hp =>
                have : pathHolds v (.field n al args c :: p) = true := by
                  simp only [pathHolds, List.all_cons, Bool.and_eq_true]
                  exact ⟨by rw [hfit.2] at hc; exact hc, hp⟩
                rw [if_pos this]
                obtain ⟨w, hw, rfl⟩ := mem_under.1 h4
                refine mem_under.2 ⟨w, hw, ?_⟩
                simp [pathKeys, segKey, hfit.1.1]
              next => cases h4
        next => cases hx
      · exact .inl (.inr (.inr hx))
    · simp [fits] at hfit
  | .type ns c :: p => by
    intro us R a hf h x hx
    simp only [updateAt] at h
    rcases updateIn_ok h with ⟨l, g, ts, ts', r, rfl, hfit, hh, rfl⟩ | ⟨l, g, ts, ts', r, rfl, hfit, hh, rfl⟩
    · simp [fits] at hfit
    · obtain ⟨h1, h2, h3⟩ := fit_mid.1 hf
      simp only [fits, Bool.and_eq_true, decide_eq_true_eq] at hfit
      have hk := updateAt_within hu p _ _ _ h2.2 hh
      rw [asked_mid] at hx ⊢
      rcases hx with hx | hx | hx
      · exact .inl (.inl hx)
      · simp only [askedBy] at hx ⊢
        split at hx
        next hc =>
          rw [if_pos hc]
          rcases hk x hx with h4 | h4
          · exact .inl (.inr (.inl h4))
          · refine .inr ?_
            unfold atPath at h4 ⊢
            split at h4
            next hp =>
              have : pathHolds v (.type ns c :: p) = true := by
                simp only [pathHolds, List.all_cons, Bool.and_eq_true]
                exact ⟨by rw [hfit.2] at hc; exact hc, hp⟩
              rw [if_pos this]
              exact h4
            next => cases h4
        next => cases hx
      · exact .inl (.inr (.inr hx))

theorem updateDef_within {α : Type} {X : List (List String × Ask)} {u : List Sel → Except Err (List Sel × α)}
    (hu : Within v P Q X u) {t : String} : ∀ {s R : Selections} {a : α}, FitAll P Q s →
      updateDef t u s = .ok (R, a) → ∀ x ∈ askedAll v R, x ∈ askedAll v s ∨ x ∈ X
  | [], _, _, _, h => by simp [updateDef] at h
  | (k, ss) :: r, R, a, hf, h => by
    obtain ⟨f1, f2⟩ := fitAll_cons.1 hf
    simp only [updateDef] at h
    split at h
    next =>
      simp only [Except.map] at h
      split at h
      next => cases h
      next y hy =>
        cases h
        intro x hx
        rw [askedAll_cons, List.mem_append] at hx ⊢
        rcases hx with hx | hx
        · exact (hu _ _ _ f1 hy x hx).imp .inl id
        · exact .inl (.inr hx)
    next =>
      simp only [Except.map] at h
      split at h
      next => cases h
      next y hy =>
        cases h
        intro x hx
        rw [askedAll_cons, List.mem_append] at hx ⊢
        rcases hx with hx | hx
        · exact .inl (.inl hx)
        · exact (updateDef_within hu f2 hy x hx).imp .inr id

theorem migrateAll_within (hB : Blind P) {into : Option String} {path : MPath} :
    ∀ {other s R : Selections}, FitAll P Q s → FitAll P Q other → migrateAll into path other s = .ok R →
    ∀ x ∈ askedAll v R, x ∈ askedAll v s ∨ x ∈ atPath v path (askedAll v other)
  | [], s, R, hf, _, h => by
    simp only [migrateAll] at h
    cases h
    exact fun x hx => .inl hx
  | (k, items) :: r, s, R, hf, ho, h => by
    obtain ⟨o1, o2⟩ := fitAll_cons.1 ho
    simp only [migrateAll] at h
    split at h
    next => cases h
    next s1 h1 =>
      obtain ⟨_, _, a3⟩ := addAt_adds (v := v) hB hf o1 h1
      simp only [addAt, Except.map] at h1
      split at h1
      next => cases h1
      next y hy =>
        cases h1
        have hW : Within v P Q (asked v items)
            (fun ts => (.ok (mergeSels false items ts, ()) : Except Err (List Sel × Unit))) := by
          intro us R a _ h
          cases h
          exact mergeSels_within false items us
        have hd := updateDef_within (updateAt_within hW path) hf hy
        intro x hx
        rcases migrateAll_within hB a3 o2 h x hx with h2 | h2
        · rcases hd x h2 with h3 | h3
          · exact .inl h3
          · refine .inr ?_
            unfold atPath at h3 ⊢
            split at h3
            next hp =>
              rw [if_pos hp, askedAll_cons, under, List.map_append, List.mem_append]
              exact .inl h3
            next => cases h3
        · refine .inr ?_
          unfold atPath at h2 ⊢
          split at h2
          next hp =>
            rw [if_pos hp, askedAll_cons, under, List.map_append, List.mem_append]
            exact .inr h2
          next => cases h2

theorem safeMigrateAll_within {M : Meaning} (hM : ∀ f, P f → Means M f) {used : Bool × Bool}
    {into : Option String} {path : MPath} :
    ∀ {other s R : Selections} {al : List (String × Aliases)}, FitAll P Q s → FitAll P Q other →
    safeMigrateAll used into path other s = .ok (R, al) →
    ∀ x ∈ askedAll v R, x ∈ askedAll v s ∨ x ∈ atPath v path (askedAll v other)
  | [], s, R, al, hf, _, h => by
    simp only [safeMigrateAll] at h
    cases h
    exact fun x hx => .inl hx
  | (k, items) :: r, s, R, al, hf, ho, h => by
    obtain ⟨o1, o2⟩ := fitAll_cons.1 ho
    simp only [safeMigrateAll] at h
    split at h
    next => cases h
    next s1 al1 h1 =>
      have hA : Adds v P Q (asked v items)
          (fun ts => (safeMerge used [] items ts 0).map fun q => (q.1, q.2.2)) := by
        intro us R a hf hh
        simp only [Except.map] at hh
        split at hh
        next => cases hh
        next q hq =>
          cases hh
          obtain ⟨x1, x2, x3, _, _⟩ := safeMerge_keeps (v := v) hM o1 hf hq
          exact ⟨x1, x2, x3⟩
      have hW : Within v P Q (asked v items)
          (fun ts => (safeMerge used [] items ts 0).map fun q => (q.1, q.2.2)) := by
        intro us R a hf hh
        simp only [Except.map] at hh
        split at hh
        next => cases hh
        next q hq =>
          cases hh
          exact safeMerge_within hM o1 hf hq
      obtain ⟨_, _, a3⟩ := updateDef_adds (updateAt_keeps hA path) hf h1
      have hd := updateDef_within (updateAt_within hW path) hf h1
      split at h
      next => cases h
      next s2 al2 h2 =>
        cases h
        intro x hx
        rcases safeMigrateAll_within hM a3 o2 h2 x hx with h2 | h2
        · rcases hd x h2 with h3 | h3
          · exact .inl h3
          · refine .inr ?_
            unfold atPath at h3 ⊢
            split at h3
            next hp =>
              rw [if_pos hp, askedAll_cons, under, List.map_append, List.mem_append]
              exact .inl h3
            next => cases h3
        · refine .inr ?_
          unfold atPath at h2 ⊢
          split at h2
          next hp =>
            rw [if_pos hp, askedAll_cons, under, List.map_append, List.mem_append]
            exact .inr h2
          next => cases h2

end Verif.Fetch
