import Verif.Builder.Tidy

/-!
# From the plan to the response
-/

namespace Verif.Builder

open Verif.Projection Verif.Json
open Verif.Normalize (Item)

variable {S : Meta}

/-- What holds of the plans of an object of type `T`. -/
inductive At (S : Meta) : String → List Plan → Prop where
  | mk {T : String} {ps : List Plan} :
      ps.Pairwise (fun p q => p.info.responseKey = q.info.responseKey →
        ¬ (GuardMeans T p.info.guard ∧ GuardMeans T q.info.guard)) →
      (∀ p ∈ ps, GuardMeans T p.info.guard →
        p.info.isTypename = (p.info.fieldName == "__typename") ∧
        (∃ ft, fieldInfo S T p.info.fieldName = some ft) ∧
        (∀ f v, GoodData S T p.info.fieldName f v → AtomsOpt f v p.info.conditions) ∧
        HoldsOpt .free T p.info.conditions ∧ (∀ i, p ≠ .null i) ∧
        (∀ ft i, p.info.fieldName ≠ "__typename" → S.field T p.info.fieldName = some ft →
          p = .leaf i → ∀ T', ¬ Obj S ft.out T')) →
      (∀ p ∈ ps, GuardMeans T p.info.guard → ∀ ft, p.info.fieldName ≠ "__typename" →
        S.field T p.info.fieldName = some ft → ∀ T', Obj S ft.out T' → At S T' (kids p)) →
      At S T ps

theorem tidy_kids (poss : Option (List String)) (p : Plan) :
    kids (tidy S poss p) = tidyAll S (childTypes S (dropGuard poss p.info)) (kids p) := by
  cases p <;> simp only [tidy, kids, tidyAll, Plan.info]

theorem dropGuard_isTypename (poss : Option (List String)) (i : PlanInfo) :
    (dropGuard poss i).isTypename = i.isTypename := by
  unfold dropGuard
  split
  · split <;> rfl
  · rfl

theorem owner_info (hS : MetaOk S) {P T : String} {i : PlanInfo} (h : Owner S P T i) :
    ∃ ft, fieldInfo S T i.fieldName = some ft := by
  obtain ⟨Q, ft, h1, h2, _⟩ := h
  obtain ⟨ft', h3, _⟩ := fieldInfo_sub hS h2 h1
  exact ⟨ft', h3⟩

theorem at_nil (T : String) : At S T [] := .mk .nil (by simp) (by simp)

theorem at_of (hS : MetaOk S) {P : String} {D : String → Prop} {poss : Option (List String)}
    {ps : List Plan} (hx : ps.Pairwise Apart) (hg : ∀ p ∈ ps, Good S P D p) (hso : Sound D poss ps)
    {T : String} (hT : D T)
    (inner : ∀ p ∈ ps, GuardMeans T p.info.guard → ∀ ft, p.info.fieldName ≠ "__typename" →
      S.field T p.info.fieldName = some ft → ∀ T', Obj S ft.out T' → At S T' (kids (tidy S poss p))) :
    At S T (tidyAll S poss ps) := by
  rw [tidyAll_eq]
  refine .mk ?_ ?_ ?_
  · rw [List.pairwise_map]
    have hx' : ps.Pairwise (fun p q => p ∈ ps ∧ q ∈ ps ∧ Apart p q) := by
      rw [List.pairwise_iff_forall_sublist] at hx ⊢
      intro p q hpq
      exact ⟨hpq.subset (by simp), hpq.subset (by simp), hx hpq⟩
    refine hx'.imp ?_
    rintro p q ⟨hp, hq, hap⟩ hk ⟨h1, h2⟩
    rw [dropGuard_means hso hp hT] at h1
    rw [dropGuard_means hso hq hT] at h2
    rw [tidy_info, tidy_info, dropGuard_key, dropGuard_key] at hk
    obtain ⟨a, b, ha, hb, hab⟩ := hap hk
    rw [ha] at h1
    rw [hb] at h2
    exact hab (Eq.trans (Eq.symm (show T = a from h1)) h2)
  · intro q hq hgd
    obtain ⟨p, hp, rfl⟩ := List.mem_map.1 hq
    rw [dropGuard_means hso hp hT] at hgd
    have hi := hg p hp T hT hgd
    rw [tidy_info, dropGuard_name, dropGuard_conditions, dropGuard_isTypename]
    refine ⟨hi.data.1, owner_info hS hi.owner, hi.data.2, hi.free, ?_, ?_⟩
    · intro i h
      cases p with
      | null j => exact hi.notNull j rfl
      | leaf j => simp [tidy] at h
      | node j cs => simp [tidy] at h
    · intro ft i hn hft h
      cases p with
      | null j => exact absurd rfl (hi.notNull j)
      | leaf j => exact hi.isLeaf ft j hn hft rfl
      | node j cs => simp [tidy] at h
  · intro q hq hgd
    obtain ⟨p, hp, rfl⟩ := List.mem_map.1 hq
    rw [dropGuard_means hso hp hT] at hgd
    rw [tidy_info, dropGuard_name]
    exact inner p hp hgd

theorem tidy_at (hS : MetaOk S) : ∀ (k : Nat) {P : String} {D : String → Prop}
    {poss : Option (List String)} {ps : List Plan}, (∀ p ∈ ps, Stat S k p) → ps.Pairwise Apart →
    (∀ p ∈ ps, Good S P D p) → Sound D poss ps → ∀ T, D T → At S T (tidyAll S poss ps) := by
  intro k
  induction k with
  | zero =>
    intro P D poss ps hs hx hg hso T hT
    refine at_of hS hx hg hso hT ?_
    intro p hp _ ft _ _ T' _
    have := hs p hp
    cases this with
    | leaf _ i hi => simp only [tidy, kids]; exact at_nil T'
  | succ k ih =>
    intro P D poss ps hs hx hg hso T hT
    refine at_of hS hx hg hso hT ?_
    intro p hp hgd ft hn hft T' hT'
    have hst := hs p hp
    have hinv := hg p hp T hT hgd
    rw [tidy_kids]
    cases hst with
    | leaf _ i hi => simp only [kids, tidyAll]; exact at_nil T'
    | node _ i cs hi hcs hap =>
      exact ih hcs hap (hinv.inner ft hn hft) (sound_below hS hinv hn hft poss hcs) T' hT'

/-! ## The written object -/

variable {ryu : Nat → List Char} {raw : String → Json} {σ : String → Bool}

theorem items_get {obj : Value → Fields → Except Err (Option Json)} {nb : Nullability} :
    ∀ {vs : List Value} {js : List Json}, completeItems ryu raw obj nb vs = .ok (some js) →
    ∀ {i : Nat} {v : Value} {j : Json}, vs[i]? = some v → js[i]? = some j →
    ∃ r, completeValue ryu raw obj (itemOf nb) v = .ok r ∧ settle (itemNonNull nb) r = some j
  | [], js, h, i, v, j, hv, hj => by simp at hv
  | w :: vs, js, h, i, v, j, hv, hj => by
    simp only [completeItems] at h
    split at h
    · simp at h
    · rename_i r hr
      split at h
      · simp at h
      · rename_i j' hj'
        cases hrest : completeItems ryu raw obj nb vs with
        | error e => rw [hrest] at h; simp [Except.map] at h
        | ok o =>
          rw [hrest] at h
          cases o with
          | none => simp [Except.map] at h
          | some js' =>
            simp only [Except.map, Option.map_some, Except.ok.injEq, Option.some.injEq] at h
            subst h
            cases i with
            | zero =>
              simp only [List.getElem?_cons_zero, Option.some.injEq] at hv hj
              subst hv hj
              exact ⟨r, hr, hj'⟩
            | succ i =>
              simp only [List.getElem?_cons_succ] at hv hj
              exact items_get hrest hv hj

/-- An object within the written value was written by the function for objects. -/
theorem value_within {obj : Value → Fields → Except Err (Option Json)} {v : Value} {j : Json}
    {fs : Fields} {ms : List (List Char × Json)} (h : Within v j fs ms) : ∀ {nb : Nullability},
    completeValue ryu raw obj nb v = .ok (some j) →
    obj (.obj fs) fs = .ok (some (.obj ms)) ∧ Inside v fs := by
  induction h with
  | obj fs ms => intro nb h; exact ⟨h, .obj fs⟩
  | item hv hj hw ih =>
    intro nb h
    simp only [completeValue] at h
    rename_i vs js i v j fs ms
    cases hc : completeItems ryu raw obj nb vs with
    | error e => rw [hc] at h; simp [Except.map] at h
    | ok o =>
      rw [hc] at h
      cases o with
      | none => simp [Except.map] at h
      | some js' =>
        simp only [Except.map, Option.map_some, Except.ok.injEq, Option.some.injEq,
          Json.arr.injEq] at h
        subst h
        obtain ⟨r, h1, h2⟩ := items_get hc hv hj
        cases r with
        | none =>
          exfalso
          simp only [settle] at h2
          split at h2
          · simp at h2
          · simp only [Option.some.injEq] at h2
            subst h2
            cases hw
        | some j' =>
          simp only [settle, Option.some.injEq] at h2
          subst h2
          obtain ⟨h3, h4⟩ := ih h1
          exact ⟨h3, .item (List.mem_of_getElem? hv) h4⟩

/-- The members of an object, by the plans they come from. -/
theorem fields_parts {fs : Fields} {T : String} {acc : Plan → Prop} :
    ∀ {ps : List Plan} {ms : List (List Char × Json)},
    (∀ p ∈ ps, (verdict S.toSchema σ p.info fs (.ok T) = .ok .go ∧ acc p) ∨
      (verdict S.toSchema σ p.info fs (.ok T) = .ok .leaveOut ∧ ¬ acc p)) →
    completeFields ryu raw S.toSchema σ ps fs (.ok T) = .ok (some ms) →
    ∃ L : List (Plan × Json), ms = L.map (fun x => (x.1.info.responseKey.toList, x.2)) ∧
      (L.map (·.1)).Sublist ps ∧ (∀ p ∈ ps, acc p → p ∈ L.map (·.1)) ∧
      ∀ x ∈ L, acc x.1 ∧ ∃ r, completeField ryu raw S.toSchema σ x.1 fs (.ok T) = .ok r ∧
        settle x.1.info.nullability.isNonNull r = some x.2
  | [], ms, hv, h => by
    simp only [completeFields, Except.ok.injEq, Option.some.injEq] at h
    exact ⟨[], by simp [← h], by simp, by simp, by simp⟩
  | p :: ps, ms, hv, h => by
    simp only [completeFields] at h
    rcases hv p (by simp) with ⟨h1, h2⟩ | ⟨h1, h2⟩
    · rw [h1] at h
      simp only at h
      cases hf : completeField ryu raw S.toSchema σ p fs (.ok T) with
      | error e => rw [hf] at h; simp at h
      | ok r =>
        rw [hf] at h
        simp only at h
        cases hs : settle p.info.nullability.isNonNull r with
        | none => rw [hs] at h; simp at h
        | some j =>
          rw [hs] at h
          simp only at h
          cases hc : completeFields ryu raw S.toSchema σ ps fs (.ok T) with
          | error e => rw [hc] at h; simp [Except.map] at h
          | ok o =>
            rw [hc] at h
            cases o with
            | none => simp [Except.map] at h
            | some ms' =>
              simp only [Except.map, Option.map_some, Except.ok.injEq, Option.some.injEq] at h
              obtain ⟨L, l1, l2, l3, l4⟩ := fields_parts (fun q hq => hv q (by simp [hq])) hc
              refine ⟨(p, j) :: L, by simp [← h, l1], by simpa using l2, ?_, ?_⟩
              · intro q hq ha
                rcases List.mem_cons.1 hq with rfl | hq
                · simp
                · simp only [List.map_cons, List.mem_cons]; exact Or.inr (l3 q hq ha)
              · intro x hx
                rcases List.mem_cons.1 hx with rfl | hx
                · exact ⟨h2, r, hf, hs⟩
                · exact l4 x hx
    · rw [h1] at h
      simp only at h
      obtain ⟨L, l1, l2, l3, l4⟩ := fields_parts (fun q hq => hv q (by simp [hq])) h
      refine ⟨L, l1, l2.cons p, ?_, l4⟩
      intro q hq ha
      rcases List.mem_cons.1 hq with rfl | hq
      · exact absurd ha h2
      · exact l3 q hq ha

/-- A plan lets an object of type `T` through. -/
def Through (σ : String → Bool) (T : String) (p : Plan) : Prop :=
  GuardMeans T p.info.guard ∧ HoldsOpt (.of σ) T p.info.conditions

theorem verdict_acc {T : String} {p : Plan} {fs : Fields} {f : String}
    (hf : resolveTypeName S.toSchema p.info (getKey fs p.info.responseKey) (.ok T) = .ok f)
    (ha : GuardMeans T p.info.guard → AtomsOpt f (getKey fs p.info.responseKey) p.info.conditions) :
    (verdict S.toSchema σ p.info fs (.ok T) = .ok .go ∧ Through σ T p) ∨
      (verdict S.toSchema σ p.info fs (.ok T) = .ok .leaveOut ∧ ¬ Through σ T p) := by
  have hg : guardPasses (.ok T) p.info.guard = .ok true ∧ GuardMeans T p.info.guard ∨
      guardPasses (.ok T) p.info.guard = .ok false ∧ ¬ GuardMeans T p.info.guard := by
    cases p.info.guard with
    | none => exact Or.inl ⟨rfl, trivial⟩
    | some g =>
      simp only [guardPasses, GuardMeans, ← accepts_iff]
      cases g.accepts T <;> simp
  unfold verdict Through
  rcases hg with ⟨h1, h2⟩ | ⟨h1, h2⟩
  · rw [h1]
    simp only [hf]
    have ha := ha h2
    generalize getKey fs p.info.responseKey = v at ha
    cases hc : p.info.conditions with
    | none => left; exact ⟨rfl, h2, trivial⟩
    | some c =>
      rw [hc] at ha
      simp only [checkOpt, HoldsOpt]
      rcases check_atoms (T := T) (t := σ) (c := c) ha with ⟨h3, h4⟩ | ⟨h3 | h3, h4⟩
      · rw [h3]; exact Or.inl ⟨rfl, h2, h4⟩
      · rw [h3]; exact Or.inr ⟨rfl, fun h => h4 h.2⟩
      · rw [h3]; exact Or.inr ⟨rfl, fun h => h4 h.2⟩
  · rw [h1]; exact Or.inr ⟨rfl, fun h => h2 h.1⟩

theorem resolve_field {T : String} {i : PlanInfo} {ft : FieldType} {v : Option Value}
    (hi : i.isTypename = false) (hft : S.field T i.fieldName = some ft) :
    resolveTypeName S.toSchema i v (.ok T) = .ok ((ownTypename v).getD ft.out) := by
  unfold resolveTypeName
  rw [hi]
  simp only [Bool.false_eq_true, if_false]
  cases ownTypename v with
  | some t => rfl
  | none =>
    simp only [Schema.field] at hft
    cases hl : S.typeFields.lookup T with
    | none => rw [hl] at hft; simp at hft
    | some fields =>
      rw [hl] at hft
      simp only [Option.bind_some] at hft
      simp [hft]

theorem answers (hS : MetaOk S) {T : String} {ps : List Plan} (h : At S T ps) :
    ∀ {A Af : List Step → Prop} {fs : Fields} {ms : List (List Char × Json)},
    (∀ path, path ≠ [] → Fits S (· = T) path → (Shows (.of σ) ps path ↔ A path)) →
    (∀ path, path ≠ [] → Fits S (· = T) path → (Shows .free ps path ↔ Af path)) →
    Conforms S Af T fs → completeFields ryu raw S.toSchema σ ps fs (.ok T) = .ok (some ms) →
    Answers S A T fs ms := by
  induction h with
  | mk honce heach hin ih =>
    rename_i T ps
    intro A Af fs ms hA hAf hco hms
    have fit1 : ∀ k n, Fits S (· = T) [⟨T, k, n⟩] := fun k n => ⟨rfl, Or.inl rfl⟩
    have below_nil : ∀ V, ∀ p ∈ ps, GuardMeans T p.info.guard → Below V p [] := by
      intro V p hp hg
      obtain ⟨_, _, _, _, hnn, _⟩ := heach p hp hg
      cases p with
      | null i => exact absurd rfl (hnn i)
      | leaf i => trivial
      | node i cs => exact shows_nil (V := V) (ps := cs)
    have hfree : ∀ p ∈ ps, GuardMeans T p.info.guard →
        Af [⟨T, p.info.responseKey, p.info.fieldName⟩] := by
      intro p hp hg
      refine (hAf _ (by simp) (fit1 _ _)).1 (shows_cons.2 ⟨p, hp, rfl, rfl, hg, ?_, below_nil _ p hp hg⟩)
      exact (heach p hp hg).2.2.2.1
    have hv : ∀ p ∈ ps, (verdict S.toSchema σ p.info fs (.ok T) = .ok .go ∧ Through σ T p) ∨
        (verdict S.toSchema σ p.info fs (.ok T) = .ok .leaveOut ∧ ¬ Through σ T p) := by
      intro p hp
      by_cases hg : GuardMeans T p.info.guard
      · obtain ⟨h1, ⟨ft, h2⟩, h3, _⟩ := heach p hp hg
        by_cases hn : p.info.fieldName = "__typename"
        · have ht : p.info.isTypename = true := by rw [h1, hn]; rfl
          refine verdict_acc (f := "String") (by simp [resolveTypeName, ht]) ?_
          intro _
          refine h3 _ _ ?_
          intro ft' hft'
          rw [fieldInfo, if_pos hn] at hft'
          cases hft'
          refine ⟨Or.inl rfl, ?_⟩
          intro vals hvals
          rw [hS.string] at hvals
          cases hvals
        · have ht : p.info.isTypename = false := by rw [h1]; simp [hn]
          rw [fieldInfo, if_neg hn] at h2
          refine verdict_acc (resolve_field ht h2) ?_
          intro _
          refine h3 _ _ ?_
          intro ft' hft'
          rw [fieldInfo, if_neg hn, h2] at hft'
          cases hft'
          cases hk : getKey fs p.info.responseKey with
          | none => exact ⟨Or.inl rfl, by simp⟩
          | some v =>
            cases hco with
            | mk c1 c2 c3 =>
              obtain ⟨c4, c5⟩ := c1 _ _ ft v (hfree p hp hg) hn h2 hk
              refine ⟨?_, ?_⟩
              · cases ho : ownTypename (some v) with
                | none => exact Or.inl rfl
                | some t => exact c5 t ho
              · intro vals hvals x hx
                exact c4 vals hvals x (Option.some.inj hx)
      · right
        have hgp : guardPasses (.ok T) p.info.guard = .ok false := by
          cases hgd : p.info.guard with
          | none => rw [hgd] at hg; exact absurd trivial hg
          | some g =>
            rw [hgd] at hg
            simp only [guardPasses, GuardMeans, ← accepts_iff] at hg ⊢
            simp [hg]
        refine ⟨?_, fun h => hg h.1⟩
        simp only [verdict, hgp]
    obtain ⟨L, l1, l2, l3, l4⟩ := fields_parts hv hms
    have hmem : ∀ x ∈ L, x.1 ∈ ps := fun x hx => l2.subset (List.mem_map.2 ⟨x, hx, rfl⟩)
    have hshow : ∀ p ∈ ps, Through σ T p → A [⟨T, p.info.responseKey, p.info.fieldName⟩] := by
      intro p hp ha
      exact (hA _ (by simp) (fit1 _ _)).1
        (shows_cons.2 ⟨p, hp, rfl, rfl, ha.1, ha.2, below_nil _ p hp ha.1⟩)
    have huniq : ∀ p ∈ ps, ∀ q ∈ ps, Through σ T p → Through σ T q →
        p.info.responseKey = q.info.responseKey → p = q := by
      intro p hp q hq hpa hqa hk
      by_cases hpq : p = q
      · exact hpq
      · exfalso
        obtain ⟨i, hi⟩ := List.mem_iff_getElem?.1 hp
        obtain ⟨j, hj⟩ := List.mem_iff_getElem?.1 hq
        rw [List.getElem?_eq_some_iff] at hi hj
        obtain ⟨hi, hi'⟩ := hi
        obtain ⟨hj, hj'⟩ := hj
        rw [List.pairwise_iff_getElem] at honce
        rcases Nat.lt_trichotomy i j with hlt | heq | hgt
        · refine honce i j hi hj hlt ?_ ?_
          · rw [hi', hj']; exact hk
          · rw [hi', hj']; exact ⟨hpa.1, hqa.1⟩
        · subst heq; exact hpq (hi'.symm.trans hj')
        · refine honce j i hj hi hgt ?_ ?_
          · rw [hi', hj']; exact hk.symm
          · rw [hi', hj']; exact ⟨hqa.1, hpa.1⟩
    -- the plan behind a member
    have hfrom : ∀ k n j, A [⟨T, k, n⟩] → (k.toList, j) ∈ ms → ∃ x ∈ L, x.1.info.responseKey = k ∧
        x.1.info.fieldName = n ∧ x.2 = j := by
      intro k n j ha hj
      rw [l1] at hj
      obtain ⟨x, hx, he⟩ := List.mem_map.1 hj
      simp only [Prod.mk.injEq] at he
      have hk := String.toList_injective he.1
      obtain ⟨q, hq, q1, q2, q3, q4, _⟩ := shows_cons.1 ((hA _ (by simp) (fit1 k n)).2 ha)
      have := huniq x.1 (hmem x hx) q hq (l4 x hx).1 ⟨q3, q4⟩ (hk.trans q1.symm)
      exact ⟨x, hx, hk, by rw [this]; exact q2, he.2⟩
    refine .mk ?_ ?_ ?_ ?_ ?_
    · intro k
      rw [l1]
      constructor
      · intro hk
        simp only [List.map_map, List.mem_map, Function.comp] at hk
        obtain ⟨x, hx, hk⟩ := hk
        have hk := String.toList_injective hk
        subst hk
        exact ⟨_, hshow x.1 (hmem x hx) (l4 x hx).1⟩
      · rintro ⟨n, ha⟩
        obtain ⟨q, hq, q1, q2, q3, q4, _⟩ := shows_cons.1 ((hA _ (by simp) (fit1 k n)).2 ha)
        obtain ⟨x, hx, rfl⟩ := List.mem_map.1 (l3 q hq ⟨q3, q4⟩)
        simp only [List.map_map, List.mem_map, Function.comp]
        exact ⟨x, hx, by rw [q1]⟩
    · rw [l1, List.map_map]
      have hpl : (L.map (·.1)).Pairwise (fun p q => p.info.responseKey = q.info.responseKey →
        ¬ (GuardMeans T p.info.guard ∧ GuardMeans T q.info.guard)) := honce.sublist l2
      rw [List.pairwise_map] at hpl
      rw [List.Nodup, List.pairwise_map]
      rw [List.pairwise_iff_forall_sublist] at hpl ⊢
      intro x y hxy he
      have hx : x ∈ L := hxy.subset (by simp)
      have hy : y ∈ L := hxy.subset (by simp)
      exact hpl hxy (String.toList_injective he) ⟨(l4 x hx).1.1, (l4 y hy).1.1⟩
    · intro k j ha hj
      obtain ⟨x, hx, hk, hn, rfl⟩ := hfrom k _ j ha hj
      obtain ⟨hacc, r, hr, hs⟩ := l4 x hx
      have ht : x.1.info.isTypename = true := by
        rw [(heach x.1 (hmem x hx) hacc.1).1, hn]; rfl
      have hnn := (heach x.1 (hmem x hx) hacc.1).2.2.2.2.1
      have hr' : completeField ryu raw S.toSchema σ x.1 fs (.ok T) =
          .ok (some (.str T.toList)) := by
        cases hp : x.1 with
        | null i => exact absurd hp (hnn i)
        | leaf i =>
          have ht : i.isTypename = true := by rw [hp] at ht; exact ht
          simp only [completeField, ht, if_true]; rfl
        | node i cs =>
          have ht : i.isTypename = true := by rw [hp] at ht; exact ht
          simp only [completeField, ht, if_true]; rfl
      rw [hr'] at hr
      cases hr
      simpa [settle] using hs.symm
    · intro k n ft j ha hne hft hj hnone
      obtain ⟨x, hx, hk, hn, rfl⟩ := hfrom k _ j ha hj
      obtain ⟨hacc, r, hr, hs⟩ := l4 x hx
      have ht : x.1.info.isTypename = false := by
        rw [(heach x.1 (hmem x hx) hacc.1).1, hn]; simp [hne]
      have hr' : completeField ryu raw S.toSchema σ x.1 fs (.ok T) = .ok none := by
        cases hp : x.1 with
        | null i => rfl
        | leaf i =>
          rw [hp] at ht hk
          have ht : i.isTypename = false := ht
          have hk : i.responseKey = k := hk
          simp [completeField, ht, hk, hnone]
        | node i cs =>
          rw [hp] at ht hk
          have ht : i.isTypename = false := ht
          have hk : i.responseKey = k := hk
          simp [completeField, ht, hk, hnone]
      rw [hr'] at hr
      cases hr
      simp only [settle] at hs
      split at hs
      · simp at hs
      · exact (Option.some.inj hs).symm
    · intro k n ft j v fs' ms' ha hne hft hj hv' hw hobj
      obtain ⟨x, hx, hk, hn, rfl⟩ := hfrom k _ j ha hj
      obtain ⟨hacc, r, hr, hs⟩ := l4 x hx
      have hxp := hmem x hx
      have hgd := hacc.1
      subst hn hk
      obtain ⟨e1, e2, e3, e4, e5, e6⟩ := heach x.1 hxp hgd
      have ht : x.1.info.isTypename = false := by rw [e1]; simp [hne]
      obtain ⟨T1, hT1⟩ := hobj
      have hco' : Conforms S Af T fs := hco
      cases hco' with
      | mk c1 c2 c3 =>
        cases r with
        | none =>
          exfalso
          simp only [settle] at hs
          split at hs
          · simp at hs
          · have := Option.some.inj hs
            rw [← this] at hw
            cases hw
        | some j =>
          have hjx : j = x.2 := by simpa [settle] using hs
          rw [← hjx] at hw
          cases hp : x.1 with
          | null i => exact absurd hp (e5 i)
          | leaf i => exact absurd hT1 (e6 ft i hne hft hp T1)
          | node i cs =>
            have hi : x.1.info = i := by rw [hp]; rfl
            have hkids : kids x.1 = cs := by rw [hp]; rfl
            rw [hp] at hr
            rw [hi] at ht hv' hft hne
            simp only [completeField, ht, hv', Bool.false_eq_true, if_false] at hr
            obtain ⟨w1, w2⟩ := value_within hw hr
            have hb : completeFields ryu raw S.toSchema σ cs fs' (.ok (typeOf ft.out fs')) =
                .ok (some ms') := by
              have hrs : resolveTypeName S.toSchema i (some (.obj fs')) (.ok T) =
                  .ok (typeOf ft.out fs') := resolve_field ht hft
              rw [hrs] at w1
              revert w1
              cases completeFields ryu raw S.toSchema σ cs fs' (.ok (typeOf ft.out fs')) with
              | error e => simp [Except.map]
              | ok o => cases o <;> simp [Except.map]
            have hO := c2 _ _ ft v fs' (by rw [← hi]; exact hfree x.1 hxp hgd) hne hft hv' w2 ⟨T1, hT1⟩
            have hC := c3 _ _ ft v fs' (by rw [← hi]; exact hfree x.1 hxp hgd) hne hft hv' w2 ⟨T1, hT1⟩
            have hfit : ∀ path, Fits S (· = typeOf ft.out fs') path →
                Fits S (· = T) (⟨T, i.responseKey, i.fieldName⟩ :: path) := by
              intro path hf
              refine ⟨rfl, ?_⟩
              cases path with
              | nil => exact Or.inl rfl
              | cons st rest =>
                refine Or.inr ⟨hne, ft, hft, ?_⟩
                refine ⟨?_, hf.2⟩
                have : st.type = typeOf ft.out fs' := hf.1
                rw [this]; exact hO
            have honly : ∀ V, HoldsOpt V T x.1.info.conditions → ∀ path, path ≠ [] →
                (Shows V ps (⟨T, i.responseKey, i.fieldName⟩ :: path) ↔ Shows V cs path) := by
              intro V hV path hne'
              rw [shows_cons]
              constructor
              · rintro ⟨q, hq, q1, q2, q3, q4, q5⟩
                have hqx : q = x.1 := by
                  by_cases hqx : q = x.1
                  · exact hqx
                  · exfalso
                    obtain ⟨a, ha⟩ := List.mem_iff_getElem?.1 hq
                    obtain ⟨b, hb⟩ := List.mem_iff_getElem?.1 hxp
                    rw [List.getElem?_eq_some_iff] at ha hb
                    obtain ⟨ha, ha'⟩ := ha
                    obtain ⟨hb, hb'⟩ := hb
                    rw [List.pairwise_iff_getElem] at honce
                    have hkk : q.info.responseKey = x.1.info.responseKey := by rw [hi]; exact q1
                    rcases Nat.lt_trichotomy a b with hlt | heq | hgt
                    · refine honce a b ha hb hlt ?_ ?_
                      · rw [ha', hb']; exact hkk
                      · rw [ha', hb']; exact ⟨q3, hgd⟩
                    · subst heq; exact hqx (ha'.symm.trans hb')
                    · refine honce b a hb ha hgt ?_ ?_
                      · rw [ha', hb']; exact hkk.symm
                      · rw [ha', hb']; exact ⟨hgd, q3⟩
                rw [hqx, hp] at q5
                exact q5
              · intro hsc
                refine ⟨x.1, hxp, by rw [hi], by rw [hi], hgd, hV, ?_⟩
                rw [hp]; exact hsc
            have hih := ih x.1 hxp hgd ft (by rw [hi]; exact hne) (by rw [hi]; exact hft)
              (typeOf ft.out fs') hO
              (A := fun rest => A (⟨T, i.responseKey, i.fieldName⟩ :: rest))
              (Af := fun rest => Af (⟨T, i.responseKey, i.fieldName⟩ :: rest)) (fs := fs') (ms := ms')
              (by
                intro path hne' hf
                rw [hkids, ← honly (.of σ) hacc.2 path hne']
                exact hA _ (by simp) (hfit path hf))
              (by
                intro path hne' hf
                rw [hkids, ← honly .free e4 path hne']
                exact hAf _ (by simp) (hfit path hf))
              hC (by rw [hkids]; exact hb)
            exact hih

end Verif.Builder
