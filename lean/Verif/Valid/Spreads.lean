import Verif.Valid.Folds

/-!
# Fragments that can apply
-/

namespace Verif.Valid

theorem typeByName_some {s : Schema} {n : Name} {t : TypeDef} (h : s.typeByName n = some t) :
    t ∈ s.types ∧ t.name = n := by
  unfold Schema.typeByName at h
  exact ⟨List.mem_of_find?_eq_some h, by simpa using List.find?_some h⟩

theorem same_of_name {s : Schema} (h : (s.types.map (·.name)).Nodup) {t u : TypeDef}
    (ht : t ∈ s.types) (hu : u ∈ s.types) (hn : t.name = u.name) : t = u :=
  List.inj_on_of_nodup_map h ht hu hn

theorem typeByName_of_mem {s : Schema} (h : (s.types.map (·.name)).Nodup) {t : TypeDef}
    (ht : t ∈ s.types) : s.typeByName t.name = some t := by
  cases hf : s.typeByName t.name with
  | none =>
    unfold Schema.typeByName at hf
    rw [List.find?_eq_none] at hf
    exact absurd (by simp) (hf t ht)
  | some u =>
    obtain ⟨hu, hn⟩ := typeByName_some hf
    rw [same_of_name h hu ht hn]

theorem isA_hasSubType {o t : TypeDef} (h : IsA o t) (ht : t.isAbstract = true) : t.hasSubType o = true := by
  obtain ⟨_, h⟩ := h
  cases t <;> simp [TypeDef.isAbstract] at ht <;> simpa [TypeDef.hasSubType] using h

theorem hasSubType_isA {o t : TypeDef} (ho : ∃ n is fs, o = .object n is fs) (h : t.hasSubType o = true) :
    IsA o t := by
  refine ⟨ho, ?_⟩
  cases t <;> simp [TypeDef.hasSubType] at h <;> exact h

theorem isA_possible {s : Schema} (hs : (s.types.map (·.name)).Nodup) {o t : TypeDef} (ho : o ∈ s.types)
    (h : IsA o t) (ht : t.isAbstract = true) : o ∈ t.possible s := by
  obtain ⟨_, h⟩ := h
  cases t <;> simp [TypeDef.isAbstract] at ht
  · simp [TypeDef.possible, ho, h]
  · simp only [TypeDef.possible, List.mem_filterMap]
    exact ⟨o.name, h, typeByName_of_mem hs ho⟩

theorem isA_object {s : Schema} (hs : (s.types.map (·.name)).Nodup) {o t : TypeDef} (ho : o ∈ s.types)
    (ht : t ∈ s.types) (h : IsA o t) (hn : t.isAbstract = false) (hc : t.isComposite = true) : o = t := by
  obtain ⟨_, h⟩ := h
  cases t <;> simp [TypeDef.isAbstract, TypeDef.isComposite] at hn hc
  exact same_of_name hs ho ht h

/-- No schema is too odd for this half: where objects of both types exist, nothing is reported. -/
theorem overlap_of_both {s : Schema} (hs : (s.types.map (·.name)).Nodup) {t u : TypeDef}
    (ht : t ∈ s.types) (hu : u ∈ s.types) (hct : t.isComposite = true) (hcu : u.isComposite = true)
    (h : CanBeBoth s t u) : typesOverlap s t u = true := by
  obtain ⟨o, ho, h1, h2⟩ := h
  unfold typesOverlap
  by_cases hn : t.name = u.name
  · rw [if_pos hn]
  rw [if_neg hn]
  by_cases ha : t.isAbstract = true
  · rw [if_pos ha]
    by_cases hb : u.isAbstract = true
    · rw [if_pos hb, List.any_eq_true]
      exact ⟨o, isA_possible hs ho h1 ha, isA_hasSubType h2 hb⟩
    · rw [if_neg hb]
      have := isA_object hs ho hu h2 (by simpa using hb) hcu
      subst this
      exact isA_hasSubType h1 ha
  · rw [if_neg ha]
    have := isA_object hs ho ht h1 (by simpa using ha) hct
    subst this
    by_cases hb : u.isAbstract = true
    · rw [if_pos hb]; exact isA_hasSubType h2 hb
    · have := isA_object hs ho hu h2 (by simpa using hb) hcu
      subst this
      exact absurd rfl hn

theorem some_object {s : Schema} (hg : TypesGood s) {t : TypeDef} (ht : t ∈ s.types)
    (hc : t.isComposite = true) : ∃ o ∈ s.types, IsA o t := by
  cases t with
  | object n is fs => exact ⟨_, ht, ⟨_, _, _, rfl⟩, rfl⟩
  | interface n is fs =>
    obtain ⟨m, js, gs, hm, hn⟩ := hg.implemented n is fs ht
    exact ⟨_, hm, ⟨_, _, _, rfl⟩, hn⟩
  | union n ms =>
    obtain ⟨hne, hm⟩ := hg.members n ms ht
    obtain ⟨m, hmem⟩ := List.exists_mem_of_ne_nil ms hne
    obtain ⟨is, fs, ho⟩ := hm m hmem
    exact ⟨_, ho, ⟨_, _, _, rfl⟩, hmem⟩
  | scalar n => simp [TypeDef.isComposite] at hc
  | enum n vs => simp [TypeDef.isComposite] at hc
  | input n fs => simp [TypeDef.isComposite] at hc

theorem both_of_overlap {s : Schema} (hg : TypesGood s) {t u : TypeDef}
    (ht : t ∈ s.types) (hu : u ∈ s.types) (hct : t.isComposite = true) (hcu : u.isComposite = true)
    (h : typesOverlap s t u = true) : CanBeBoth s t u := by
  have hobj : ∀ v : TypeDef, v.isComposite = true → ¬ v.isAbstract = true → ∃ n is fs, v = .object n is fs := by
    intro v hc ha
    cases v <;> simp [TypeDef.isComposite, TypeDef.isAbstract] at hc ha
    exact ⟨_, _, _, rfl⟩
  have hself : ∀ v : TypeDef, (∃ n is fs, v = .object n is fs) → IsA v v := by
    rintro v ⟨n, is, fs, rfl⟩; exact ⟨⟨_, _, _, rfl⟩, rfl⟩
  unfold typesOverlap at h
  by_cases hn : t.name = u.name
  · have := same_of_name hg.names ht hu hn
    subst this
    obtain ⟨o, ho, h⟩ := some_object hg ht hct
    exact ⟨o, ho, h, h⟩
  rw [if_neg hn] at h
  by_cases ha : t.isAbstract = true
  · rw [if_pos ha] at h
    by_cases hb : u.isAbstract = true
    · rw [if_pos hb, List.any_eq_true] at h
      obtain ⟨p, hp, hsub⟩ := h
      have hpm : p ∈ s.types ∧ t.hasSubType p = true := by
        cases t with
        | interface n is fs =>
          simp [TypeDef.possible] at hp
          exact ⟨hp.1, by simpa [TypeDef.hasSubType] using hp.2⟩
        | union n ms =>
          simp only [TypeDef.possible, List.mem_filterMap] at hp
          obtain ⟨m, hm, hp⟩ := hp
          obtain ⟨h1, h2⟩ := typeByName_some hp
          exact ⟨h1, by simpa [TypeDef.hasSubType, h2] using hm⟩
        | object => simp [TypeDef.isAbstract] at ha
        | scalar => simp [TypeDef.isAbstract] at ha
        | enum => simp [TypeDef.isAbstract] at ha
        | input => simp [TypeDef.isAbstract] at ha
      -- either `p` is an object, or an interface that is implemented by one
      have hunion : ∀ n ms, TypeDef.union n ms ∈ s.types → p.name ∈ ms → ∃ n is fs, p = .object n is fs := by
        intro n ms hm hpn
        obtain ⟨is, fs, ho⟩ := (hg.members n ms hm).2 _ hpn
        exact ⟨_, _, _, same_of_name hg.names hpm.1 ho rfl⟩
      cases p with
      | object n is fs =>
        exact ⟨_, hpm.1, hasSubType_isA ⟨_, _, _, rfl⟩ hpm.2, hasSubType_isA ⟨_, _, _, rfl⟩ hsub⟩
      | interface n is fs =>
        obtain ⟨m, js, gs, hm, hnj⟩ := hg.implemented n is fs hpm.1
        have key : ∀ v ∈ s.types, v.hasSubType (.interface n is fs) = true → IsA (.object m js gs) v := by
          intro v hv hsv
          cases v with
          | interface k ks _ =>
            refine ⟨⟨_, _, _, rfl⟩, ?_⟩
            have : k ∈ is := by simpa [TypeDef.hasSubType, TypeDef.ifaces] using hsv
            exact hg.through _ hm n is fs hpm.1 hnj k this
          | union k ms =>
            obtain ⟨_, _, _, h⟩ := hunion k ms hv (by simpa [TypeDef.hasSubType] using hsv)
            simp at h
          | object => simp [TypeDef.hasSubType] at hsv
          | scalar => simp [TypeDef.hasSubType] at hsv
          | enum => simp [TypeDef.hasSubType] at hsv
          | input => simp [TypeDef.hasSubType] at hsv
        exact ⟨_, hm, key t ht hpm.2, key u hu hsub⟩
      | _ =>
        exfalso
        cases t with
        | interface => simp [TypeDef.hasSubType, TypeDef.ifaces] at hpm
        | union n ms =>
          obtain ⟨_, _, _, h⟩ := hunion n ms ht (by simpa [TypeDef.hasSubType] using hpm.2)
          simp at h
        | object => simp [TypeDef.isAbstract] at ha
        | scalar => simp [TypeDef.isAbstract] at ha
        | enum => simp [TypeDef.isAbstract] at ha
        | input => simp [TypeDef.isAbstract] at ha
    · rw [if_neg hb] at h
      have hu' := hobj u hcu hb
      exact ⟨u, hu, hasSubType_isA hu' h, hself u hu'⟩
  · rw [if_neg ha] at h
    have ht' := hobj t hct ha
    by_cases hb : u.isAbstract = true
    · rw [if_pos hb] at h
      exact ⟨t, ht, hself t ht', hasSubType_isA ht' h⟩
    · rw [if_neg hb] at h; cases h

theorem knownFrag_iff (d : Doc) (hd : ((frags d).map (·.name)).Nodup) (n : Name) (f : Frag) :
    knownFrag d n = some f ↔ f ∈ frags d ∧ f.name = n := by
  unfold knownFrag
  constructor
  · intro h
    exact ⟨by simpa using List.mem_of_find?_eq_some h, by simpa using List.find?_some h⟩
  · rintro ⟨hf, hn⟩
    cases h : (frags d).reverse.find? (fun f => f.name = n) with
    | none =>
      rw [List.find?_eq_none] at h
      exact absurd hn (by simpa using h f (by simpa using hf))
    | some g =>
      have h1 : g ∈ frags d := by simpa using List.mem_of_find?_eq_some h
      have h2 : g.name = n := by simpa using List.find?_some h
      rw [List.inj_on_of_nodup_map hd h1 hf (by rw [h2, hn])]

theorem cannotApply_iff (s : Schema) (f p : Option TypeDef) : cannotApply s f p = false ↔
    ∀ t u, f = some t → p = some u → t.isComposite = true → u.isComposite = true →
      typesOverlap s t u = true := by
  cases f <;> cases p <;> simp [cannotApply]

theorem possibleFragmentSpreads_iff (s : Schema) (d : Doc) (hd : ((frags d).map (·.name)).Nodup) :
    possibleFragmentSpreads s d = false ↔
      ∀ f p, Applied s d f p → f.isComposite = true → p.isComposite = true →
        typesOverlap s f p = true := by
  unfold possibleFragmentSpreads
  rw [any_visit s d _ (fun _ => rfl) (fun _ => rfl)]
  constructor
  · intro h f p ha hf hp
    cases ha with
    | @inline p n f ds sub hs ht =>
      obtain ⟨x, hx, c, hc, hp'⟩ := (selects_iff s d _ _).1 hs
      have := h x hx _ ((inline_visitDef s x _ (some n) ds).2 ⟨c, sub, hc, rfl⟩)
      exact (cannotApply_iff s _ _).1 this f p ht hp' hf hp
    | @spread p n t f ds hs hm hn ht =>
      obtain ⟨x, hx, c, hc, hp'⟩ := (selects_iff s d _ _).1 hs
      have := h x hx _ ((spreadAt_visitDef s x c n ds).2 hc)
      refine (cannotApply_iff s _ _).1 this f p ?_ hp' hf hp
      rw [(knownFrag_iff d hd n t).2 ⟨hm, hn⟩]
      exact ht
  · rintro h x hx ⟨c, e⟩ he
    cases e <;> try rfl
    · rename_i n ds
      have hc := (spreadAt_visitDef s x c n ds).1 he
      refine (cannotApply_iff s _ _).2 (fun t u ht hu hct hcu => ?_)
      cases hk : knownFrag d n with
      | none => simp [hk] at ht
      | some f =>
        obtain ⟨h1, h2⟩ := (knownFrag_iff d hd n f).1 hk
        simp only [hk, Option.bind_some] at ht
        exact h t u (.spread ((selects_iff s d _ _).2 ⟨x, hx, c, hc, hu⟩) h1 h2 ht) hct hcu
    · rename_i cond ds
      obtain ⟨c2, sub, hc, rfl⟩ := (inline_visitDef s x c cond ds).1 he
      refine (cannotApply_iff s _ _).2 (fun t u ht hu hct hcu => ?_)
      cases cond with
      | none =>
        have h1 : c2.cur s = some t := ht
        have h2 : c2.parent = some u := hu
        rw [defAt_cur hc, h1] at h2
        cases h2
        simp [typesOverlap]
      | some n =>
        exact h t u (.inline ((selects_iff s d _ _).2 ⟨x, hx, c2, hc, hu⟩) ht) hct hcu

end Verif.Valid
