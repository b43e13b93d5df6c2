import Verif.Fetch.Passes

/-!
# Lemmas: the other passes over the fetch graph
-/

namespace Verif.Fetch

open Verif.Walker (Cond)
open Verif.Graph (Super)

variable {v : Vars} {M : Meaning}

/-! ## Children that only pass on -/

/-- What the first pass keeps. -/
structure Passed (M : Meaning) (v : Vars) (D : Tags) (g g' : Graph) : Prop where
  calm : AllCalm M g'
  tags : Tagged D g'
  asks : Asks v g g'
  edged : Edged D g'
  fed : Fed g → Fed g'

theorem Passed.refl {D : Tags} {g : Graph} (h : AllCalm M g) (ht : Tagged D g) (he : Edged D g) :
    Passed M v D g g := ⟨h, ht, fun _ => Iff.rfl, he, id⟩

theorem Passed.trans {D : Tags} {g g' g'' : Graph} (h : Passed M v D g g') (h' : Passed M v D g' g'') :
    Passed M v D g g'' :=
  ⟨h'.calm, h'.tags, fun x => (h.asks x).trans (h'.asks x), h'.edged, fun x => h'.fed (h.fed x)⟩

/-- One merge of steps that both are above a third. -/
theorem passMerge_ok {D : Tags} {a b c : Nat} {g g' : Graph} (hg : AllCalm M g) (hD : Tagged D g)
    (he : Edged D g) (ha : Below (D a).1 (D c).1) (hb : Below (D b).1 (D c).1)
    (h : passMerge a b g = .ok g') : Passed M v D g g' ∧ Below (D a).1 (D b).1 := by
  unfold passMerge at h
  split at h
  next => cases h
  next x y hp =>
    obtain ⟨hne, hx, hy⟩ := getPair_ok hp
    split at h
    next => cases h
    next path hpath =>
      obtain ⟨hl, rfl⟩ := sliceFrom_ok hpath
      split at h
      next => cases h
      next o ho =>
        cases h
        have hab : Below (D a).1 (D b).1 := by
          refine ha.of_le hb ?_
          rw [hD a x hx, hD b y hy]
          exact hl
        have hal : Below x.path y.path := by
          have := hab
          rwa [hD a x hx, hD b y hy] at this
        have cx := allCalm_get hg hx
        have cy := allCalm_get hg hy
        simp only [migrate] at ho
        obtain ⟨m1, m2, m3⟩ := migrateAll_adds (v := v) blind_means cx.2.2.2.2 cy.2.2.2.2 ho
        have hget := fun n => rewire_get (z := { x with output := o }) hne hx n
        refine ⟨⟨?_, ?_, ?_, rewire_edged (g := g.set a { x with output := o }) hab he,
          rewire_fed hne hx rfl⟩, hab⟩
        · intro s hs
          obtain ⟨n, hn⟩ := mem_all.1 hs
          rw [hget] at hn
          split at hn
          · cases hn
          · split at hn
            · cases hn
              refine ⟨cx.1, cx.2.1, ?_, cx.2.2.2.1, m3⟩
              intro hstar
              dsimp only at hstar ⊢
              rw [cx.2.2.1 hstar] at ho
              exact migrate_nil ho
            · exact allCalm_get hg hn
        · intro n s hs
          rw [hget] at hs
          split at hs
          · cases hs
          · split at hs
            · rename_i hn
              subst hn
              cases hs
              exact hD n x hx
            · exact hD n s hs
        · have al := hal.aligned (v := v)
          intro w
          constructor
          · intro hw
            obtain ⟨n, s, hs, h2⟩ := mem_graphAsked.1 hw
            by_cases hb' : n = b
            · subst hb'
              rw [hy] at hs
              cases hs
              refine mem_graphAsked.2 ⟨a, _, by rw [hget, if_neg hne, if_pos rfl], ?_⟩
              obtain ⟨q1, q2, q3⟩ := mem_stepAsked.1 h2
              obtain ⟨z, hz, rfl⟩ := mem_under.1 q3
              refine mem_stepAsked.2 ⟨?_, al.up q2, ?_⟩
              · dsimp only
                rw [cx.1]
                rfl
              · dsimp only
                rw [al.keys]
                refine mem_under.2 ⟨(pathKeys (y.path.drop x.path.length) ++ z.1, z.2), ?_, by simp⟩
                exact m2 (pathHolds_drop q2) _ (mem_under.2 ⟨z, hz, rfl⟩)
            · by_cases ha' : n = a
              · subst ha'
                rw [hx] at hs
                cases hs
                refine mem_graphAsked.2 ⟨n, _, by rw [hget, if_neg hne, if_pos rfl], ?_⟩
                obtain ⟨q1, q2, q3⟩ := mem_stepAsked.1 h2
                obtain ⟨z, hz, rfl⟩ := mem_under.1 q3
                exact mem_stepAsked.2 ⟨q1, q2, mem_under.2 ⟨z, m1 z hz, rfl⟩⟩
              · exact mem_graphAsked.2 ⟨n, s, by rw [hget, if_neg hb', if_neg ha']; exact hs, h2⟩
          · intro hw
            obtain ⟨n, s, hs, h2⟩ := mem_graphAsked.1 hw
            rw [hget] at hs
            split at hs
            · cases hs
            · split at hs
              · cases hs
                obtain ⟨q1, q2, q3⟩ := mem_stepAsked.1 h2
                dsimp only at q1 q2 q3
                obtain ⟨z, hz, rfl⟩ := mem_under.1 q3
                rcases migrateAll_within (v := v) blind_means cx.2.2.2.2 cy.2.2.2.2 ho z hz with h1 | h1
                · exact mem_graphAsked.2 ⟨a, x, hx, mem_stepAsked.2 ⟨q1, q2, mem_under.2 ⟨z, h1, rfl⟩⟩⟩
                · unfold atPath at h1
                  split at h1
                  next hp =>
                    obtain ⟨u, hu, rfl⟩ := mem_under.1 h1
                    refine mem_graphAsked.2 ⟨b, y, hy, mem_stepAsked.2 ⟨by rw [cy.1]; rfl, al.down q2 hp,
                      mem_under.2 ⟨u, hu, ?_⟩⟩⟩
                    rw [al.keys]
                    simp
                  next => cases h1
              · exact mem_graphAsked.2 ⟨n, s, hs, h2⟩

/-- What stands for a node is above it. -/
def RepUp (D : Tags) (rep : Rep) : Prop := ∀ k m, rep.lookup k = some m → Below (D m).1 (D k).1

theorem RepUp.cons {D : Tags} {rep : Rep} {k m : Nat} (h : RepUp D rep) (hkm : Below (D m).1 (D k).1) :
    RepUp D ((k, m) :: rep) := by
  intro a b hab
  simp only [List.lookup_cons] at hab
  split at hab
  next hak =>
    simp only [beq_iff_eq] at hak
    cases hab
    subst hak
    exact hkm
  next => exact h a b hab

theorem RepUp.same {D : Tags} : ∀ {l : List Nat} {rep : Rep}, RepUp D rep →
    RepUp D (l.map (fun c => (c, c)) ++ rep)
  | [], _, h => h
  | _ :: _, _, h => (RepUp.same h).cons Below.refl

theorem runPasses_ok {D : Tags} : ∀ {pairs : List (Nat × Nat)} {rep rep' : Rep} {g g' : Graph},
    AllCalm M g → Tagged D g → Edged D g → RepUp D rep →
    (∀ p ∈ pairs, Below (D p.1).1 (D p.2).1 ∨ Below (D p.2).1 (D p.1).1) →
    runMerges passMerge pairs rep g = .ok (rep', g') → Passed M v D g g' ∧ RepUp D rep'
  | [], rep, rep', g, g', hg, hD, he, hr, _, h => by
    simp only [runMerges] at h
    cases h
    exact ⟨Passed.refl hg hD he, hr⟩
  | (a, b) :: r, rep, rep', g, g', hg, hD, he, hr, hp, h => by
    simp only [runMerges] at h
    split at h
    next a' b' ha hb =>
      split at h
      next => cases h
      next g1 h1 =>
        have k : Passed M v D g g1 ∧ Below (D a').1 (D b').1 := by
          rcases hp (a, b) (by simp) with hab | hab
          · exact passMerge_ok hg hD he ((hr a a' ha).trans hab) (hr b b' hb) h1
          · exact passMerge_ok hg hD he (hr a a' ha) ((hr b b' hb).trans hab) h1
        obtain ⟨k1, k2⟩ := k
        obtain ⟨j1, j2⟩ := runPasses_ok k1.calm k1.tags k1.edged (hr.cons k2)
          (fun p hp' => hp p (List.mem_cons_of_mem _ hp')) h
        exact ⟨k1.trans j1, j2⟩
    next => cases h

theorem passLoop_ok {D : Tags} : ∀ (n : Nat) {q : List Nat} {rep : Rep} {g g' : Graph},
    AllCalm M g → Tagged D g → Edged D g → RepUp D rep →
    downLoop canPass passMerge n q rep g = .ok g' → Passed M v D g g'
  | 0, _, _, _, _, _, _, _, _, h => by simp [downLoop] at h
  | n + 1, [], rep, g, g', hg, hD, he, _, h => by
    simp only [downLoop] at h
    cases h
    exact Passed.refl hg hD he
  | n + 1, p :: q, rep, g, g', hg, hD, he, hr, h => by
    simp only [downLoop] at h
    split at h
    next => cases h
    next p' hp' =>
      split at h
      next => cases h
      next =>
        split at h
        next => cases h
        next rep1 g1 h1 =>
          obtain ⟨k1, k2⟩ := runPasses_ok (v := v) hg hD he (RepUp.same (hr.cons Below.refl)) (by
            intro x hx
            obtain ⟨c, hc, rfl⟩ := List.mem_map.1 hx
            exact he p' c (mem_children.1 (List.mem_filter.1 hc).1)) h1
          exact k1.trans (passLoop_ok n k1.calm k1.tags k1.edged k2 h)

theorem mergePassthrough_ok {D : Tags} {fuel : Nat} {g g' : Graph} (hg : AllCalm M g) (hD : Tagged D g)
    (he : Edged D g) (h : mergePassthrough fuel g = .ok g') : Passed M v D g g' := by
  unfold mergePassthrough at h
  split at h
  next => cases h
  next r hr =>
    exact passLoop_ok fuel hg hD he (RepUp.cons (rep := []) (fun k m h => by simp at h) Below.refl) h

/-! ## Pruning -/

theorem none_asked {s : Step} (h : Selections.none s.output = true) : s.asked v = [] := by
  rw [Step.asked_eq]
  have : s.out v = [] := by
    unfold Step.out askedAll
    simp only [Selections.none, List.all_eq_true, List.isEmpty_iff] at h
    simp only [List.flatMap_eq_nil_iff]
    intro o ho
    rw [h o ho]
    rfl
  rw [this]
  split <;> rfl

theorem remove_get {g : Graph} {n m : Nat} {s : Step} : (g.remove n).get m = .ok s ↔ m ≠ n ∧ g.get m = .ok s := by
  rw [get_ok, get_ok]
  unfold Graph.remove
  dsimp only
  rw [List.getElem?_set]
  constructor
  · intro h
    split at h
    · split at h <;> cases h
    · rename_i hne
      exact ⟨fun e => hne e.symm, h⟩
  · rintro ⟨h1, h2⟩
    rw [if_neg (fun e => h1 e.symm)]
    exact h2

theorem removes_get {m : Nat} {s : Step} : ∀ (l : List Nat) {g : Graph},
    (l.foldl Graph.remove g).get m = .ok s ↔ m ∉ l ∧ g.get m = .ok s
  | [], g => by simp
  | n :: r, g => by
    rw [List.foldl_cons, removes_get r, remove_get]
    simp only [List.mem_cons, not_or]
    constructor
    · rintro ⟨h1, h2, h3⟩
      exact ⟨⟨h2, h1⟩, h3⟩
    · rintro ⟨⟨h1, h2⟩, h3⟩
      exact ⟨h2, h1, h3⟩

theorem prune_get {g : Graph} {m : Nat} {s : Step} :
    (prune g).get m = .ok s ↔ m ∉ g.indices.filter (useless g) ∧ g.get m = .ok s :=
  removes_get _

theorem useless_asked {g : Graph} (hg : AllCalm M g) (hf : Fed g) {n : Nat} {s : Step} (hs : g.get n = .ok s)
    (h : useless g n = true) : s.asked v = [] := by
  unfold useless at h
  rw [hs] at h
  simp only [Bool.and_eq_true, Bool.or_eq_true, List.isEmpty_iff] at h
  rcases h.1 with h1 | h1
  · exact none_asked h1
  · by_cases hsv : s.service = "*"
    · refine none_asked ?_
      rw [(allCalm_get hg hs).2.2.1 hsv]
      rfl
    · obtain ⟨p, hp⟩ := hf n s hs hsv
      have := mem_parents.2 hp
      rw [h1] at this
      cases this

theorem prune_ok {g : Graph} (hg : AllCalm M g) (hf : Fed g) : AllCalm M (prune g) ∧ Sends v g (prune g) := by
  refine ⟨?_, ?_⟩
  · intro s hs
    obtain ⟨n, hn⟩ := mem_all.1 hs
    exact allCalm_get hg (prune_get.1 hn).2
  · intro x
    constructor
    · intro hx
      obtain ⟨n, s, hs, h1, h2⟩ := mem_sent.1 hx
      by_cases hu : n ∈ g.indices.filter (useless g)
      · rw [useless_asked hg hf hs (List.mem_filter.1 hu).2] at h2
        cases h2
      · exact mem_sent.2 ⟨n, s, prune_get.2 ⟨hu, hs⟩, h1, h2⟩
    · intro hx
      obtain ⟨n, s, hs, h1, h2⟩ := mem_sent.1 hx
      exact mem_sent.2 ⟨n, s, (prune_get.1 hs).2, h1, h2⟩

/-! ## Normalizing -/

theorem fit_cons {P : FieldInfo → Prop} {Q : FragInfo → Prop} {x : Sel} {r : List Sel} :
    Fit P Q (x :: r) ↔ FitBy P Q x ∧ Fit P Q r := Iff.rfl

theorem fit_nil {P : FieldInfo → Prop} {Q : FragInfo → Prop} : Fit P Q [] := trivial

mutual
theorem normSel_ok {S : Super} : ∀ (s : Sel) {type : String} {r : Sel ⊕ List Sel},
    FitBy (Means M) Free s → normSel S type s = .ok r →
    (∀ y, r = .inl y → FitBy (Means M) Free y ∧ ∀ x ∈ askedBy v s, x ∈ askedBy v y) ∧
    (∀ ys, r = .inr ys → Fit (Means M) Free ys ∧ ∀ x ∈ askedBy v s, x ∈ asked v ys)
  | .field f ss, type, r, hf, h => by
    simp only [normSel] at h
    split at h
    next => cases h
    next t ht =>
      split at h
      next => cases h
      next ss' hss =>
        cases h
        obtain ⟨k1, _, k3⟩ := normSels_ok ss hf.2 fit_nil hss
        refine ⟨?_, by intro ys h; cases h⟩
        intro y hy
        cases hy
        exact ⟨⟨hf.1, k1⟩, askedBy_field_mono rfl rfl k3⟩
  | .frag g ss, type, r, hf, h => by
    simp only [normSel] at h
    split at h
    next => cases h
    next ss' hss =>
      obtain ⟨k1, _, k3⟩ := normSels_ok ss hf.2 fit_nil hss
      split at h
      next hc =>
        cases h
        refine ⟨fun y h => (nomatch h), ?_⟩
        intro ys hy
        cases hy
        refine ⟨k1, ?_⟩
        intro x hx
        simp only [askedBy] at hx
        split at hx
        · exact k3 x hx
        · cases hx
      next =>
        cases h
        refine ⟨?_, by intro ys h; cases h⟩
        intro y hy
        cases hy
        exact ⟨⟨hf.1, k1⟩, askedBy_frag_mono rfl k3⟩
  | .spread _, _, _, _, h => by simp [normSel] at h
theorem normSels_ok {S : Super} : ∀ (ss : List Sel) {type : String} {acc r : List Sel},
    Fit (Means M) Free ss → Fit (Means M) Free acc → normSels S type ss acc = .ok r →
    Fit (Means M) Free r ∧ Keeps v acc r ∧ Keeps v ss r
  | [], type, acc, r, _, ha, h => by
    simp only [normSels] at h
    cases h
    exact ⟨ha, Keeps.refl, fun x hx => by simp [asked] at hx⟩
  | s :: l, type, acc, r, hs, ha, h => by
    simp only [normSels] at h
    split at h
    next => cases h
    next y hy =>
      obtain ⟨k1, k2⟩ := (normSel_ok s hs.1 hy).1 y rfl
      obtain ⟨j1, j2, j3⟩ := normSels_ok l hs.2 (fit_append.2 ⟨ha, fit_cons.2 ⟨k1, fit_nil⟩⟩) h
      refine ⟨j1, Keeps.left.trans j2, ?_⟩
      intro x hx
      simp only [asked, List.mem_append] at hx
      rcases hx with hx | hx
      · exact j2 x (mem_asked.2 ⟨y, by simp, k2 x hx⟩)
      · exact j3 x hx
    next ys hy =>
      obtain ⟨k1, k2⟩ := (normSel_ok s hs.1 hy).2 ys rfl
      obtain ⟨j1, j2, j3⟩ := normSels_ok l hs.2 (mergeSels_fit blind_means false k1 ha) h
      obtain ⟨m1, m2⟩ := mergeSels_keeps (v := v) false ys acc
      refine ⟨j1, m1.trans j2, ?_⟩
      intro x hx
      simp only [asked, List.mem_append] at hx
      rcases hx with hx | hx
      · exact j2 x (m2 x (k2 x hx))
      · exact j3 x hx
end

mutual
theorem normSel_within {S : Super} : ∀ (s : Sel) {type : String} {r : Sel ⊕ List Sel},
    FitBy (Means M) Free s → normSel S type s = .ok r →
    (∀ y, r = .inl y → ∀ x ∈ askedBy v y, x ∈ askedBy v s) ∧
    (∀ ys, r = .inr ys → ∀ x ∈ asked v ys, x ∈ askedBy v s)
  | .field f ss, type, r, hf, h => by
    simp only [normSel] at h
    split at h
    next => cases h
    next t ht =>
      split at h
      next => cases h
      next ss' hss =>
        cases h
        refine ⟨?_, by intro ys h; cases h⟩
        intro y hy
        cases hy
        refine askedBy_field_mono rfl rfl ?_
        intro x hx
        exact (normSels_within ss hf.2 hss x hx).resolve_left (by simp [asked])
  | .frag g ss, type, r, hf, h => by
    simp only [normSel] at h
    split at h
    next => cases h
    next ss' hss =>
      have k : Keeps v ss' ss := fun x hx =>
        (normSels_within ss hf.2 hss x hx).resolve_left (by simp [asked])
      split at h
      next hc =>
        cases h
        refine ⟨fun y h => (nomatch h), ?_⟩
        intro ys hy
        cases hy
        intro x hx
        simp only [askedBy]
        rw [if_pos (by rw [hf.1]; rfl)]
        exact k x hx
      next =>
        cases h
        refine ⟨?_, by intro ys h; cases h⟩
        intro y hy
        cases hy
        exact askedBy_frag_mono rfl k
  | .spread _, _, _, _, h => by simp [normSel] at h
theorem normSels_within {S : Super} : ∀ (ss : List Sel) {type : String} {acc r : List Sel},
    Fit (Means M) Free ss → normSels S type ss acc = .ok r →
    ∀ x ∈ asked v r, x ∈ asked v acc ∨ x ∈ asked v ss
  | [], type, acc, r, _, h => by
    simp only [normSels] at h
    cases h
    exact fun x hx => .inl hx
  | s :: l, type, acc, r, hs, h => by
    simp only [normSels] at h
    intro x hx
    simp only [asked, List.mem_append]
    split at h
    next => cases h
    next y hy =>
      rcases normSels_within l hs.2 h x hx with h1 | h1
      · rw [asked_append, List.mem_append] at h1
        rcases h1 with h1 | h1
        · exact .inl h1
        · simp only [asked, List.append_nil] at h1
          exact .inr (.inl ((normSel_within s hs.1 hy).1 y rfl x h1))
      · exact .inr (.inr h1)
    next ys hy =>
      rcases normSels_within l hs.2 h x hx with h1 | h1
      · rcases mergeSels_within false ys acc x h1 with h1 | h1
        · exact .inl h1
        · exact .inr (.inl ((normSel_within s hs.1 hy).2 ys rfl x h1))
      · exact .inr (.inr h1)
end

theorem normAll_ok {S : Super} : ∀ {s r : Selections}, FitAll (Means M) Free s → normAll S s = .ok r →
    FitAll (Means M) Free r ∧ (∀ x, x ∈ askedAll v s ↔ x ∈ askedAll v r) ∧ (s = [] → r = [])
  | [], r, _, h => by
    simp only [normAll] at h
    cases h
    exact ⟨fun o ho => absurd ho (List.not_mem_nil), fun _ => Iff.rfl, fun _ => rfl⟩
  | (t, ss) :: l, r, hf, h => by
    obtain ⟨f1, f2⟩ := fitAll_cons.1 hf
    simp only [normAll] at h
    split at h
    next => cases h
    next => cases h
    next ss' l' h1 h2 =>
      cases h
      obtain ⟨k1, _, k3⟩ := normSels_ok (v := v) ss f1 fit_nil h1
      obtain ⟨j1, j2, _⟩ := normAll_ok f2 h2
      refine ⟨fitAll_cons.2 ⟨k1, j1⟩, ?_, by intro h; cases h⟩
      intro x
      rw [askedAll_cons, List.mem_append, askedAll_cons, List.mem_append]
      refine ⟨fun hx => hx.imp (k3 x) (j2 x).1, fun hx => hx.imp ?_ (j2 x).2⟩
      intro hx
      exact (normSels_within ss f1 h1 x hx).resolve_left (by simp [asked])

/-- What becomes of a step. -/
def NormStep (v : Vars) (M : Meaning) : Option Step → Option Step → Prop
  | none, none => True
  | some s, some s' => (Calm M s → Calm M s' ∧ ∀ x, x ∈ s.asked v ↔ x ∈ s'.asked v) ∧ SameStep s s'
  | _, _ => False

theorem normSteps_ok {S : Super} : ∀ {l l' : List (Option Step)}, normSteps S l = .ok l' →
    l'.length = l.length ∧ ∀ (n : Nat) (o : Option Step), l[n]? = some o → ∃ o', l'[n]? = some o' ∧ NormStep v M o o'
  | [], l', h => by
    simp only [normSteps] at h
    cases h
    exact ⟨rfl, fun n o h => by simp at h⟩
  | none :: r, l', h => by
    simp only [normSteps, Except.map] at h
    split at h
    next => cases h
    next r' hr =>
      cases h
      obtain ⟨k1, k2⟩ := normSteps_ok hr
      refine ⟨by simp [k1], ?_⟩
      intro n o hn
      cases n with
      | zero =>
        simp only [List.getElem?_cons_zero, Option.some.injEq] at hn
        subst hn
        exact ⟨none, by simp, trivial⟩
      | succ n =>
        simp only [List.getElem?_cons_succ] at hn ⊢
        exact k2 n o hn
  | some s :: r, l', h => by
    simp only [normSteps] at h
    split at h
    next => cases h
    next => cases h
    next o r' ho hr =>
      cases h
      obtain ⟨k1, k2⟩ := normSteps_ok hr
      refine ⟨by simp [k1], ?_⟩
      intro n o' hn
      cases n with
      | zero =>
        simp only [List.getElem?_cons_zero, Option.some.injEq] at hn
        subst hn
        refine ⟨_, List.getElem?_cons_zero, ?_, ⟨rfl, rfl, rfl⟩⟩
        intro hc
        obtain ⟨j1, j2, j3⟩ := normAll_ok (v := v) hc.2.2.2.2 ho
        refine ⟨⟨hc.1, hc.2.1, fun h => j3 (hc.2.2.1 h), hc.2.2.2.1, j1⟩, ?_⟩
        intro x
        constructor
        · intro hx
          obtain ⟨q1, q2, q3⟩ := mem_stepAsked.1 hx
          obtain ⟨z, hz, rfl⟩ := mem_under.1 q3
          exact mem_stepAsked.2 ⟨q1, q2, mem_under.2 ⟨z, (j2 z).1 hz, rfl⟩⟩
        · intro hx
          obtain ⟨q1, q2, q3⟩ := mem_stepAsked.1 hx
          obtain ⟨z, hz, rfl⟩ := mem_under.1 q3
          exact mem_stepAsked.2 ⟨q1, q2, mem_under.2 ⟨z, (j2 z).2 hz, rfl⟩⟩
      | succ n =>
        simp only [List.getElem?_cons_succ] at hn ⊢
        exact k2 n o' hn

theorem normalize_get {S : Super} {g g' : Graph} (h : normalize S g = .ok g') :
    (∀ n s, g.get n = .ok s → ∃ s', g'.get n = .ok s' ∧ NormStep v M (some s) (some s')) ∧
    (∀ n s', g'.get n = .ok s' → ∃ s, g.get n = .ok s ∧ NormStep v M (some s) (some s')) ∧
    g'.edges = g.edges := by
  unfold normalize at h
  split at h
  next => cases h
  next l hl =>
    cases h
    obtain ⟨k1, k2⟩ := normSteps_ok (v := v) (M := M) hl
    have key : ∀ n s, g.get n = .ok s → ∃ s', l[n]? = some (some s') ∧ NormStep v M (some s) (some s') := by
      intro n s hs
      obtain ⟨o', h1, h2⟩ := k2 n (some s) (get_ok.1 hs)
      match o', h1, h2 with
      | some s', h1, h2 => exact ⟨s', h1, h2⟩
    refine ⟨?_, ?_, rfl⟩
    · intro n s hs
      obtain ⟨s', h1, h2⟩ := key n s hs
      exact ⟨s', get_ok.2 h1, h2⟩
    · intro n s' hs'
      have h3 := get_ok.1 hs'
      dsimp only at h3
      have hlt : n < g.steps.length := by
        rw [← k1]
        exact (List.getElem?_eq_some_iff.1 h3).1
      obtain ⟨o', h1, h2⟩ := k2 n g.steps[n] (List.getElem?_eq_getElem hlt)
      rw [h3] at h1
      cases h1
      match ho : g.steps[n], h2 with
      | some s, h2 =>
        refine ⟨s, get_ok.2 ?_, ho ▸ h2⟩
        rw [List.getElem?_eq_getElem hlt, ho]

theorem normalize_ok {S : Super} {g g' : Graph} (hg : AllCalm M g) (h : normalize S g = .ok g') :
    AllCalm M g' ∧ Sends v g g' := by
  obtain ⟨k1, k2, _⟩ := normalize_get (v := v) (M := M) h
  refine ⟨?_, ?_⟩
  · intro s' hs'
    obtain ⟨n, hn⟩ := mem_all.1 hs'
    obtain ⟨s, hs, hN⟩ := k2 n s' hn
    exact (hN.1 (allCalm_get hg hs)).1
  · intro x
    constructor
    · intro hx
      obtain ⟨n, s, hs, h1, h2⟩ := mem_sent.1 hx
      obtain ⟨s', hs', hN⟩ := k1 n s hs
      exact mem_sent.2 ⟨n, s', hs', by rw [hN.2.service, h1], ((hN.1 (allCalm_get hg hs)).2 _).1 h2⟩
    · intro hx
      obtain ⟨n, s', hs', h1, h2⟩ := mem_sent.1 hx
      obtain ⟨s, hs, hN⟩ := k2 n s' hs'
      exact mem_sent.2 ⟨n, s, hs, by rw [← hN.2.service, h1], ((hN.1 (allCalm_get hg hs)).2 _).2 h2⟩

/-! ## Batches -/

theorem pathKeys_noTypes {p : MPath} : pathKeys (noTypes p) = pathKeys p := by
  unfold pathKeys noTypes
  induction p with
  | nil => rfl
  | cons s r ih =>
    match s with
    | .field _ _ _ _ =>
      rw [List.filter_cons_of_pos (by rfl), List.filterMap_cons, List.filterMap_cons, ih]
    | .list =>
      rw [List.filter_cons_of_pos (by rfl), List.filterMap_cons, List.filterMap_cons, ih]
    | .type _ _ =>
      rw [List.filter_cons_of_neg (by simp [isType]), List.filterMap_cons, ih]
      rfl

/-- The conditions of the type conditions of a path. -/
def typesHold (v : Vars) (l : List (Option Cond)) : Bool := l.all fun o => o.all (holds v)

theorem pathHolds_split {p : MPath} :
    pathHolds v p = (pathHolds v (noTypes p) && typesHold v (p.map typeCond)) := by
  unfold pathHolds noTypes typesHold
  induction p with
  | nil => rfl
  | cons s r ih =>
    match s with
    | .field _ _ _ c =>
      rw [List.filter_cons_of_pos (by rfl), List.all_cons, List.all_cons, List.map_cons, List.all_cons, ih]
      simp only [typeCond, Option.all_none, Bool.true_and, Bool.and_assoc]
    | .list =>
      rw [List.filter_cons_of_pos (by rfl), List.all_cons, List.all_cons, List.map_cons, List.all_cons, ih]
      simp only [typeCond, Option.all_none, Bool.true_and, Bool.and_assoc]
    | .type _ c =>
      rw [List.filter_cons_of_neg (by simp [isType]), List.all_cons, List.map_cons, List.all_cons, ih]
      simp only [typeCond, condAt, Option.all_some, Bool.and_left_comm]

theorem canBatch_aligned {a b : Step} (h : canBatch a b = true) :
    Aligned v a.path b.path ∧ a.service = b.service := by
  simp only [canBatch, Bool.and_eq_true, beq_iff_eq, decide_eq_true_eq] at h
  obtain ⟨⟨⟨⟨⟨⟨⟨_, h1⟩, h2⟩, h3⟩, _⟩, h5⟩, _⟩, _⟩ := h
  refine ⟨⟨?_, ?_, ?_⟩, h1⟩
  · rw [h3, List.drop_length]
    have : pathKeys a.path = pathKeys b.path := by rw [← pathKeys_noTypes, h2, pathKeys_noTypes]
    rw [this]
    simp [pathKeys]
  · rw [pathHolds_split, pathHolds_split (p := a.path), h2, h5]
    exact id
  · rw [pathHolds_split, pathHolds_split (p := b.path), h2, h5]
    exact fun h _ => h

theorem consume_keys : ∀ p : MPath, pathKeys (consume p).2 = pathKeys p
  | [] => rfl
  | .type ns c :: p => by
    simp only [consume]
    exact consume_keys p
  | .list :: p => rfl
  | .field _ _ _ _ :: p => rfl

theorem consume_holds : ∀ p : MPath, pathHolds v p = true → pathHolds v (consume p).2 = true
  | [], h => h
  | .type ns c :: p, h => by
    simp only [consume]
    simp only [pathHolds, List.all_cons, Bool.and_eq_true] at h
    exact consume_holds p h.2
  | .list :: p, h => h
  | .field _ _ _ _ :: p, h => h

theorem mergedType_keys {rq : Requested} {key : MPath} {i : Nat} {a b : Option (List String)} :
    pathKeys (mergedType rq key i a b) = [] ∧ pathHolds v (mergedType rq key i a b) = true ∧
      (mergedType rq key i a b).all segFree = true := by
  unfold mergedType
  split
  · split
    · exact ⟨rfl, rfl, rfl⟩
    · split
      · exact ⟨rfl, rfl, rfl⟩
      · split <;> exact ⟨rfl, rfl, rfl⟩
  · exact ⟨rfl, rfl, rfl⟩

theorem consume_free : ∀ p : MPath, p.all segFree = true →
    (consume p).2.all segFree = true ∧ pathHolds v (consume p).2 = pathHolds v p
  | [], h => ⟨h, rfl⟩
  | .type ns c :: p, h => by
    simp only [consume]
    simp only [List.all_cons, Bool.and_eq_true, segFree, decide_eq_true_eq] at h
    obtain ⟨k1, k2⟩ := consume_free p h.2
    refine ⟨k1, ?_⟩
    rw [k2]
    simp only [pathHolds, List.all_cons, condAt, h.1]
    rfl
  | .list :: p, h => ⟨h, rfl⟩
  | .field _ _ _ _ :: p, h => ⟨h, rfl⟩

theorem mergePathLoop_ok {rq : Requested} {key : MPath} : ∀ (n i : Nat) {a b r : MPath},
    mergePathLoop rq key n i a b = some r →
    pathKeys r = pathKeys a ∧ (a.all segFree = true → r.all segFree = true ∧ pathHolds v r = pathHolds v a)
  | 0, _, _, _, _, h => by simp [mergePathLoop] at h
  | n + 1, i, a, b, r, h => by
    simp only [mergePathLoop] at h
    have hk := consume_keys a
    have hh := consume_free (v := v) a
    obtain ⟨m1, m2, m3⟩ := mergedType_keys (v := v) (rq := rq) (key := key) (i := i) (a := (consume a).1)
      (b := (consume b).1)
    split at h
    next h1 h2 =>
      cases h
      rw [h1] at hk hh
      exact ⟨by rw [m1, ← hk]; rfl, fun ha => ⟨m3, by rw [m2, ← (hh ha).2]; rfl⟩⟩
    next s a' t b' h1 h2 =>
      rw [h1] at hk hh
      split at h
      next heq =>
        simp only [Option.map_eq_some_iff] at h
        obtain ⟨r', hr', rfl⟩ := h
        obtain ⟨k1, k2⟩ := mergePathLoop_ok n (i + 1) hr'
        have hcons : ∀ p : MPath, pathKeys (s :: p) = pathKeys [s] ++ pathKeys p := by
          intro p
          rw [← pathKeys_append]
          rfl
        refine ⟨?_, ?_⟩
        · rw [pathKeys_append, m1, hcons, k1, ← hcons, hk]
          rfl
        · intro ha
          obtain ⟨q1, q2⟩ := hh ha
          simp only [List.all_cons, Bool.and_eq_true] at q1
          obtain ⟨k3, k4⟩ := k2 q1.2
          rw [pathHolds_append, m2, Bool.true_and, ← q2, List.all_append, m3, List.all_cons, q1.1, k3]
          refine ⟨rfl, ?_⟩
          unfold pathHolds at k4 ⊢
          rw [List.all_cons, List.all_cons, k4]
      next => cases h
    next => cases h

theorem mergePaths_ok {rq : Requested} {a b : MPath} : pathKeys (mergePaths rq a b) = pathKeys a ∧
    (a.all segFree = true → (mergePaths rq a b).all segFree = true ∧
      pathHolds v (mergePaths rq a b) = pathHolds v a) := by
  unfold mergePaths
  split
  · match h : mergePathLoop rq (noTypes a) (a.length + 1) 0 a b with
    | none => exact ⟨rfl, fun h => ⟨h, rfl⟩⟩
    | some r => exact mergePathLoop_ok _ _ h
  · exact ⟨rfl, fun h => ⟨h, rfl⟩⟩

theorem declareType_mem (t : String) : ∀ s : Selections,
    (∀ o ∈ declareType t s, o = (t, []) ∨ o ∈ s) ∧ ∀ o ∈ s, o ∈ declareType t s
  | [] => by simp [declareType]
  | (k, ss) :: r => by
    obtain ⟨h1, h2⟩ := declareType_mem t r
    simp only [declareType]
    split
    · exact ⟨fun o ho => List.mem_cons.1 ho, fun o ho => List.mem_cons_of_mem _ ho⟩
    · split
      · exact ⟨fun o ho => .inr ho, fun o ho => ho⟩
      · refine ⟨?_, ?_⟩
        · intro o ho
          rcases List.mem_cons.1 ho with rfl | ho
          · exact .inr (List.mem_cons_self ..)
          · exact (h1 o ho).imp id (List.mem_cons_of_mem _)
        · intro o ho
          rcases List.mem_cons.1 ho with rfl | ho
          · exact List.mem_cons_self ..
          · exact List.mem_cons_of_mem _ (h2 o ho)

theorem declareAll_ok {P : FieldInfo → Prop} {Q : FragInfo → Prop} {types : List String} :
    ∀ {s : Selections}, FitAll P Q s →
    FitAll P Q (declareAll types s) ∧ ∀ x, x ∈ askedAll v s ↔ x ∈ askedAll v (declareAll types s) := by
  induction types with
  | nil => exact fun h => ⟨h, fun _ => Iff.rfl⟩
  | cons t r ih =>
    intro s hs
    have h1 : FitAll P Q (declareType t s) ∧ ∀ x, x ∈ askedAll v s ↔ x ∈ askedAll v (declareType t s) := by
      obtain ⟨m1, m2⟩ := declareType_mem t s
      refine ⟨?_, ?_⟩
      · intro o ho
        rcases m1 o ho with rfl | ho
        · trivial
        · exact hs o ho
      · intro x
        constructor
        · intro hx
          obtain ⟨o, ho, hx⟩ := mem_askedAll.1 hx
          exact mem_askedAll.2 ⟨o, m2 o ho, hx⟩
        · intro hx
          obtain ⟨o, ho, hx⟩ := mem_askedAll.1 hx
          rcases m1 o ho with rfl | ho
          · simp [asked] at hx
          · exact mem_askedAll.2 ⟨o, ho, hx⟩
    obtain ⟨k1, k2⟩ := ih h1.1
    exact ⟨k1, fun x => (h1.2 x).trans (k2 x)⟩

theorem set_get {g : Graph} {n m : Nat} {x z : Step} (hx : g.get n = .ok x) :
    (g.set n z).get m = if m = n then .ok z else g.get m := by
  have hlt : n < g.steps.length := (List.getElem?_eq_some_iff.1 (get_ok.1 hx)).1
  unfold Graph.get Graph.set
  dsimp only
  rw [List.getElem?_set]
  by_cases h : m = n
  · subst h
    simp [hlt]
  · rw [if_neg (fun e => h e.symm), if_neg h]

/-- What the passes keep, if paths may change. -/
structure Fine (M : Meaning) (v : Vars) (g g' : Graph) : Prop where
  calm : AllCalm M g'
  sends : Sends v g g'
  fed : Fed g → Fed g'

theorem Fine.refl {g : Graph} (h : AllCalm M g) : Fine M v g g := ⟨h, fun _ => Iff.rfl, id⟩

theorem Fine.trans {g g' g'' : Graph} (h : Fine M v g g') (h' : Fine M v g' g'') : Fine M v g g'' :=
  ⟨h'.calm, fun x => (h.sends x).trans (h'.sends x), fun x => h'.fed (h.fed x)⟩

/-- A change of a step that keeps what it asks for. -/
theorem set_fine {g : Graph} {n : Nat} {x z : Step} (hg : AllCalm M g) (hx : g.get n = .ok x) (hz : Calm M z)
    (hsv : z.service = x.service) (ha : ∀ w, w ∈ x.asked v ↔ w ∈ z.asked v) : Fine M v g (g.set n z) := by
  refine ⟨?_, ?_, ?_⟩
  · intro s hs
    obtain ⟨m, hm⟩ := mem_all.1 hs
    rw [set_get hx] at hm
    split at hm
    · cases hm
      exact hz
    · exact allCalm_get hg hm
  · intro w
    constructor
    · intro hw
      obtain ⟨m, s, hs, h1, h2⟩ := mem_sent.1 hw
      by_cases hmn : m = n
      · subst hmn
        rw [hx] at hs
        cases hs
        exact mem_sent.2 ⟨m, z, by rw [set_get hx, if_pos rfl], by rw [hsv, h1], (ha _).1 h2⟩
      · exact mem_sent.2 ⟨m, s, by rw [set_get hx, if_neg hmn]; exact hs, h1, h2⟩
    · intro hw
      obtain ⟨m, s, hs, h1, h2⟩ := mem_sent.1 hw
      rw [set_get hx] at hs
      split at hs
      · cases hs
        exact mem_sent.2 ⟨n, x, hx, by rw [← hsv, h1], (ha _).2 h2⟩
      · exact mem_sent.2 ⟨m, s, hs, h1, h2⟩
  · intro hf m s hs hstar
    rw [set_get hx] at hs
    split at hs
    · rename_i hmn
      subst hmn
      cases hs
      exact hf m x hx (hsv ▸ hstar)
    · exact hf m s hs hstar

theorem batchMerge_fine {rq : Requested} {a b : Nat} {g g' : Graph} (hg : AllCalm M g)
    (h : batchMerge rq a b g = .ok (some g')) : Fine M v g g' := by
  unfold batchMerge at h
  split at h
  next => cases h
  next =>
    split at h
    next => cases h
    next x y hp =>
      obtain ⟨hne, hx, hy⟩ := getPair_ok hp
      split at h
      next hcb =>
        obtain ⟨hal, hsv⟩ := canBatch_aligned (v := v) hcb
        have cx := allCalm_get hg hx
        have cy := allCalm_get hg hy
        generalize hx' : ({ x with
            input := declareAll (y.input.map (·.1)) x.input
            output := declareAll (y.output.map (·.1)) x.output } : Step) = x' at h
        have p1 : x'.path = x.path := by rw [← hx']
        have p2 : x'.service = x.service := by rw [← hx']
        have p3 : x'.cond = x.cond := by rw [← hx']
        have p4 : x'.aliases = x.aliases := by rw [← hx']
        have p5 : x'.output = declareAll (y.output.map (·.1)) x.output := by rw [← hx']
        obtain ⟨d1, d2⟩ := declareAll_ok (v := v) (types := y.output.map (·.1)) cx.2.2.2.2
        have cx' : Calm M x' := by
          refine ⟨p3.trans cx.1, p4.trans cx.2.1, ?_, ⟨by rw [p1]; exact cx.2.2.2.1.1, ?_⟩, p5 ▸ d1⟩
          · intro hstar
            rw [p2] at hstar
            rw [p5, cx.2.2.1 hstar, cy.2.2.1 (hsv ▸ hstar)]
            rfl
          · rw [← hx']
            exact (declareAll_ok (v := v) cx.2.2.2.1.2).1
        have f1 : Fine M v g (g.set a x') := by
          refine set_fine hg hx cx' p2 ?_
          intro w
          constructor
          · intro hw
            obtain ⟨q1, q2, q3⟩ := mem_stepAsked.1 hw
            obtain ⟨z, hz, rfl⟩ := mem_under.1 q3
            refine mem_stepAsked.2 ⟨p3 ▸ q1, p1 ▸ q2, mem_under.2 ⟨z, ?_, by rw [p1]⟩⟩
            unfold Step.out
            rw [p5]
            exact (d2 z).1 hz
          · intro hw
            obtain ⟨q1, q2, q3⟩ := mem_stepAsked.1 hw
            obtain ⟨z, hz, rfl⟩ := mem_under.1 q3
            refine mem_stepAsked.2 ⟨p3 ▸ q1, p1 ▸ q2, mem_under.2 ⟨z, ?_, by rw [p1]⟩⟩
            unfold Step.out at hz
            rw [p5] at hz
            exact (d2 z).2 hz
        split at h
        next => cases h
        next g1 h1 =>
          have gx : (g.set a x').get a = .ok x' := by rw [set_get hx, if_pos rfl]
          have gy : (g.set a x').get b = .ok y := by rw [set_get hx, if_neg (fun e => hne e.symm)]; exact hy
          obtain ⟨k1, k2, z, sz, hget⟩ := performMerge_asked (v := v) f1.calm gx gy (p1 ▸ hal) (p2 ▸ hsv) h1
          have f2 : Fine M v (g.set a x') g1 := by
            refine ⟨k1, k2, ?_⟩
            obtain ⟨x'', y'', z', hne', hx'', hy'', hz', rfl⟩ := set_performMerge h1
            rw [gx] at hx''
            rw [gy] at hy''
            cases hx''
            cases hy''
            exact rewire_fed hne' gx (mergeSteps_calm cx' cy hz').1.2.1.service
          have gz : g1.get a = .ok z := by rw [hget, if_neg hne, if_pos rfl]
          split at h
          next => cases h
          next g2 h2 =>
            cases h
            unfold Graph.modify at h2
            rw [gz] at h2
            dsimp only at h2
            cases h2
            have cz := allCalm_get k1 gz
            have haf : afterBatch (mergePaths rq x.path y.path) z =
                { z with path := mergePaths rq x.path y.path } := by
              unfold afterBatch
              dsimp only
              rw [if_neg]
              simp [cz.1]
            rw [haf]
            obtain ⟨m1, m2⟩ := mergePaths_ok (v := v) (rq := rq) (a := x.path) (b := y.path)
            have pz : z.path = x.path := sz.path.trans p1
            obtain ⟨m3, m4⟩ := m2 cx.2.2.2.1.1
            refine (f1.trans f2).trans (set_fine k1 gz ⟨cz.1, cz.2.1, cz.2.2.1, ⟨m3, cz.2.2.2.1.2⟩, cz.2.2.2.2⟩ rfl ?_)
            intro w
            rw [mem_stepAsked, mem_stepAsked]
            dsimp only
            rw [m1, m4, ← pz]
            exact Iff.rfl
      next => cases h

theorem runBatches_fine {rq : Requested} : ∀ {pairs : List (Nat × Nat)} {rep : Rep} {g g' : Graph},
    AllCalm M g → runBatches rq pairs rep g = .ok g' → Fine M v g g'
  | [], _, _, _, hg, h => by
    simp only [runBatches] at h
    cases h
    exact Fine.refl hg
  | (a, b) :: r, rep, g, g', hg, h => by
    simp only [runBatches] at h
    split at h
    next =>
      split at h
      next => cases h
      next => exact runBatches_fine hg h
      next g1 h1 =>
        have k := batchMerge_fine (v := v) hg h1
        exact k.trans (runBatches_fine k.calm h)
    next => cases h

theorem batchLoop_fine : ∀ (n : Nat) {q : List Nat} {g g' : Graph},
    AllCalm M g → batchLoop n q g = .ok g' → Fine M v g g'
  | 0, _, _, _, _, h => by simp [batchLoop] at h
  | n + 1, [], g, g', hg, h => by
    simp only [batchLoop] at h
    cases h
    exact Fine.refl hg
  | n + 1, p :: q, g, g', hg, h => by
    simp only [batchLoop] at h
    split at h
    next => cases h
    next g1 h1 =>
      have k := runBatches_fine (v := v) hg h1
      exact k.trans (batchLoop_fine n k.calm h)

theorem batchTypes_fine {fuel : Nat} {g g' : Graph} (hg : AllCalm M g) (h : batchTypes fuel g = .ok g') :
    Fine M v g g' := by
  unfold batchTypes at h
  split at h
  next => cases h
  next r hr => exact batchLoop_fine fuel hg h

/-! ## All of it -/

theorem round_ok {S : Super} {fuel : Nat} {g g' : Graph} (hg : AllCalm M g) (he : Edged (tagsOf g) g)
    (hf : Fed g) (h : round S fuel g = .ok g') : AllCalm M g' ∧ Asks v g g' := by
  unfold round at h
  split at h
  next => cases h
  next g1 h1 =>
    have k1 := mergePassthrough_ok (v := v) hg tagged he h1
    split at h
    next => cases h
    next g2 h2 =>
      have k2 := mergeChildren_good (v := v) k1.calm k1.tags h2
      split at h
      next => cases h
      next g3 h3 =>
        have k3 := mergeSiblings_good (v := v) k2.calm k2.tags h3
        split at h
        next => cases h
        next g4 h4 =>
          have k4 := mergeLeafs_good (v := v) fuel k3.calm k3.tags h4
          obtain ⟨p1, p2⟩ := prune_ok (v := v) k4.calm (k4.fed (k3.fed (k2.fed (k1.fed hf))))
          split at h
          next => cases h
          next g5 h5 =>
            have k5 := batchTypes_fine (v := v) p1 h5
            obtain ⟨n1, n2⟩ := normalize_ok (v := v) k5.calm h
            refine ⟨n1, ?_⟩
            intro x
            exact (k1.asks x).trans ((k2.sends.asks x).trans ((k3.sends.asks x).trans
              ((k4.sends.asks x).trans ((p2.asks x).trans ((k5.sends.asks x).trans (n2.asks x))))))

theorem sequence_steps {g g' : Graph} (h : sequence g = .ok g') : g'.steps = g.steps := by
  unfold sequence at h
  split at h
  next => cases h
  next root hr =>
    split at h
    next =>
      cases h
      rfl
    next =>
      split at h
      next => cases h
      next l hl =>
        dsimp only at h
        split at h
        next => cases h
        next a _ _ =>
          cases h
          rw [connects_steps (fun e => e), connect_steps]

theorem patchAliases_calm {g : Graph} (hg : AllCalm M g) : patchAliases g = .ok g := by
  unfold patchAliases
  have : (g.indices.reverse.map fun n => (n, g.aliases n)).filter (fun x => !x.2.isEmpty) = [] := by
    rw [List.filter_eq_nil_iff]
    intro x hx
    obtain ⟨n, hn, rfl⟩ := List.mem_map.1 hx
    unfold Graph.aliases
    dsimp only
    split
    next s hs => simp [(allCalm_get hg hs).2.1]
    next => simp
  rw [this]
  rfl

end Verif.Fetch
