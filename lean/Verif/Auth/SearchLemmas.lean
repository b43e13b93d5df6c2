import Verif.Auth.RuleLemmas

namespace Verif.Auth

/-! ## The search for rules below a type -/

theorem mem_successors {S : Schema} {t u : String} :
    u ∈ successors S t ↔ (∃ ps, S.possible.lookup t = some ps ∧ u ∈ ps) ∨
      ∃ fs n info, S.typeFields.lookup t = some fs ∧ (n, info) ∈ fs ∧ info.out = u := by
  simp only [successors, List.mem_append, List.mem_map]
  constructor
  · rintro (h | ⟨⟨n, info⟩, h, rfl⟩)
    · left
      cases hl : S.possible.lookup t with
      | none => simp [hl] at h
      | some ps => simp [hl] at h; exact ⟨ps, rfl, h⟩
    · right
      cases hl : S.typeFields.lookup t with
      | none => simp [hl] at h
      | some fs => simp [hl] at h; exact ⟨fs, n, info, rfl, h, rfl⟩
  · rintro (⟨ps, h1, h2⟩ | ⟨fs, n, info, h1, h2, rfl⟩)
    · left; simp [h1, h2]
    · right; exact ⟨(n, info), by simp [h1, h2], rfl⟩

theorem Reaches.head {S : Schema} {t u v : String} (h : u ∈ successors S t)
    (hr : Reaches S u v) : Reaches S t v := by
  rcases mem_successors.1 h with ⟨ps, h1, h2⟩ | ⟨fs, n, info, h1, h2, rfl⟩
  · exact .possible h1 h2 hr
  · exact .field h1 h2 hr

/-- What a search that found nothing established. -/
def Searched (S : Schema) (r : Rules) (v v' : List String) : Prop :=
  (∀ x ∈ v, x ∈ v') ∧
  ∀ x ∈ v', x ∉ v → hasOwnRule r x = false ∧ ∀ y ∈ successors S x, y ∈ v'

theorem Searched.trans {S : Schema} {r : Rules} {a b c : List String} (h1 : Searched S r a b)
    (h2 : Searched S r b c) : Searched S r a c := by
  refine ⟨fun x hx => h2.1 x (h1.1 x hx), fun x hx hxa => ?_⟩
  by_cases hb : x ∈ b
  · obtain ⟨h3, h4⟩ := h1.2 x hb hxa
    exact ⟨h3, fun y hy => h2.1 y (h4 y hy)⟩
  · exact h2.2 x hx hb

theorem searchAny_false {S : Schema} {r : Rules}
    {go : String → List String → Bool × List String}
    (hgo : ∀ t v v', go t v = (false, v') → Searched S r v v' ∧ t ∈ v') :
    ∀ (ts v v' : List String), searchAny go ts v = (false, v') →
      Searched S r v v' ∧ ∀ t ∈ ts, t ∈ v' := by
  intro ts
  induction ts with
  | nil =>
    intro v v' h
    simp [searchAny] at h; subst h
    exact ⟨⟨fun _ h => h, fun x hx hn => absurd hx hn⟩, by simp⟩
  | cons t ts ih =>
    intro v v' h
    simp only [searchAny] at h
    rcases hg : go t v with ⟨b, v1⟩
    cases b with
    | true => simp [hg] at h
    | false =>
      simp only [hg] at h
      obtain ⟨h1, h2⟩ := hgo _ _ _ hg
      obtain ⟨h3, h4⟩ := ih _ _ h
      refine ⟨h1.trans h3, ?_⟩
      intro x hx
      rcases List.mem_cons.1 hx with rfl | hx
      · exact h3.1 _ h2
      · exact h4 x hx

theorem hasAuth_false {S : Schema} {r : Rules} : ∀ (fuel : Nat) (t : String) (v v' : List String),
    hasAuth S r fuel t v = (false, v') → Searched S r v v' ∧ t ∈ v' := by
  intro fuel
  induction fuel with
  | zero => intro t v v' h; simp [hasAuth] at h
  | succ fuel ih =>
    intro t v v' h
    simp only [hasAuth] at h
    by_cases hv : t ∈ v
    · simp [hv] at h; subst h
      exact ⟨⟨fun _ h => h, fun x hx hn => absurd hx hn⟩, hv⟩
    · simp only [List.contains_iff_mem, hv, if_false] at h
      cases hr : hasOwnRule r t with
      | true => simp [hr] at h
      | false =>
        simp only [hr, Bool.false_eq_true, if_false] at h
        obtain ⟨h1, h2⟩ := searchAny_false (S := S) (r := r) ih _ _ _ h
        have ht : t ∈ v' := h1.1 t (by simp)
        refine ⟨⟨fun x hx => h1.1 x (by simp [hx]), fun x hx hn => ?_⟩, ht⟩
        by_cases hxt : x = t
        · subst hxt; exact ⟨hr, h2⟩
        · exact h1.2 x hx (by simp [hxt, hn])

/-- A search answering "no" means that no reachable type has a rule. -/
theorem hasAuth_false_reaches {S : Schema} {r : Rules} {fuel : Nat} {t : String}
    (h : (hasAuth S r fuel t []).1 = false) {u : String} (hu : Reaches S t u) :
    hasOwnRule r u = false := by
  rcases hh : hasAuth S r fuel t [] with ⟨b, v'⟩
  rw [hh] at h; simp at h; subst h
  obtain ⟨h1, h2⟩ := hasAuth_false _ _ _ _ hh
  have hclosed : ∀ x ∈ v', hasOwnRule r x = false ∧ ∀ y ∈ successors S x, y ∈ v' :=
    fun x hx => h1.2 x hx (by simp)
  have : u ∈ v' := by
    clear hh h1
    induction hu with
    | refl => exact h2
    | field a b _ ih => exact ih ((hclosed _ h2).2 _ (mem_successors.2 (Or.inr ⟨_, _, _, a, b, rfl⟩)))
    | possible a b _ ih => exact ih ((hclosed _ h2).2 _ (mem_successors.2 (Or.inl ⟨_, a, b⟩)))
  exact (hclosed u this).1

/-! ### and it never answers "yes" for lack of fuel -/

theorem mem_of_lookup {β : Type} {k : String} {v : β} {l : List (String × β)}
    (h : l.lookup k = some v) : (k, v) ∈ l := by
  induction l with
  | nil => simp [List.lookup] at h
  | cons p l ih =>
    rw [show p = (p.1, p.2) from rfl, lookup_cons_ite] at h
    by_cases hk : k = p.1
    · simp [hk] at h; simp [← h, hk]
    · simp [hk] at h; exact List.mem_cons_of_mem _ (ih h)

/-- How many of the types `univ` are still unvisited. -/
def unvisited (univ v : List String) : Nat := (univ.filter fun x => !v.contains x).length

theorem unvisited_anti {univ v v' : List String} (h : ∀ x ∈ v, x ∈ v') :
    unvisited univ v' ≤ unvisited univ v := by
  unfold unvisited
  induction univ with
  | nil => simp
  | cons a univ ih =>
    simp only [List.filter_cons]
    by_cases h1 : a ∈ v
    · have := h a h1; simp [h1, this]; simpa using ih
    · by_cases h2 : a ∈ v'
      · simp [h1, h2]; simp at ih; omega
      · simp [h1, h2]; simpa using ih

theorem unvisited_lt {univ v : List String} {t : String} (ht : t ∈ univ) (hv : t ∉ v) :
    unvisited univ (t :: v) < unvisited univ v := by
  unfold unvisited
  induction univ with
  | nil => simp at ht
  | cons a univ ih =>
    have hle := unvisited_anti (univ := univ) (v := v) (v' := t :: v) (by intro x hx; simp [hx])
    unfold unvisited at hle
    simp only [List.filter_cons]
    by_cases hat : a = t
    · subst hat
      simp [hv]; simp at hle; omega
    · have ht' : t ∈ univ := by
        rcases List.mem_cons.1 ht with h | h
        · exact absurd h.symm hat
        · exact h
      have := ih ht'
      by_cases h1 : a ∈ v
      · simp [h1]; simpa using this
      · simp [h1, hat]; simpa using this

theorem hasAuth_true_aux {S : Schema} {r : Rules} {univ : List String}
    (huniv : ∀ t, ∀ u ∈ successors S t, u ∈ univ) : ∀ (fuel : Nat) (t : String) (v : List String),
    t ∈ univ → unvisited univ v < fuel →
    (∀ x ∈ v, x ∈ (hasAuth S r fuel t v).2) ∧
    ((hasAuth S r fuel t v).1 = true → ∃ u, Reaches S t u ∧ hasOwnRule r u = true) := by
  intro fuel
  induction fuel with
  | zero => intro t v _ h; omega
  | succ fuel ih =>
    intro t v ht hf
    simp only [hasAuth]
    by_cases hv : t ∈ v
    · simp [hv]
    · simp only [List.contains_iff_mem, hv, if_false]
      cases hr : hasOwnRule r t with
      | true =>
        simp only [if_true, List.mem_cons]
        exact ⟨fun x hx => Or.inr hx, fun _ => ⟨t, .refl _, hr⟩⟩
      | false =>
        simp only [Bool.false_eq_true, if_false]
        have hlt := unvisited_lt ht hv
        -- the loop over the successors
        have loop : ∀ (ts w : List String), (∀ u ∈ ts, u ∈ successors S t) →
            (∀ x ∈ t :: v, x ∈ w) →
            (∀ x ∈ w, x ∈ (searchAny (hasAuth S r fuel) ts w).2) ∧
            ((searchAny (hasAuth S r fuel) ts w).1 = true →
              ∃ u, Reaches S t u ∧ hasOwnRule r u = true) := by
          intro ts
          induction ts with
          | nil => intro w _ _; simp [searchAny]
          | cons u ts ihl =>
            intro w hts hw
            have hu := hts u (by simp)
            have hle := unvisited_anti (univ := univ) hw
            obtain ⟨a1, a2⟩ := ih u w (huniv t u hu) (by omega)
            simp only [searchAny]
            rcases hg : hasAuth S r fuel u w with ⟨b, w1⟩
            rw [hg] at a1 a2
            cases b with
            | true =>
              simp only
              obtain ⟨x, hx1, hx2⟩ := a2 rfl
              exact ⟨a1, fun _ => ⟨x, hx1.head hu, hx2⟩⟩
            | false =>
              simp only
              obtain ⟨b1, b2⟩ := ihl w1 (fun x hx => hts x (by simp [hx])) fun x hx => a1 x (hw x hx)
              exact ⟨fun x hx => b1 x (a1 x hx), b2⟩
        obtain ⟨c1, c2⟩ := loop (successors S t) (t :: v) (fun _ h => h) (fun _ h => h)
        exact ⟨fun x hx => c1 x (by simp [hx]), c2⟩

/-- A search answering "yes" found a rule: the fuel of the model does not run out. -/
theorem hasAuth_true {S : Schema} {r : Rules} {t : String}
    (h : (hasAuth S r (searchFuel S) t []).1 = true) :
    ∃ u, Reaches S t u ∧ hasOwnRule r u = true := by
  refine (hasAuth_true_aux (univ := t :: ((S.possible.flatMap (·.2)) ++
    (S.typeFields.flatMap fun p => p.2.map (·.2.out)))) ?_ (searchFuel S) t [] (by simp) ?_).2 h
  · intro x u hu
    apply List.mem_cons_of_mem
    rw [List.mem_append]
    rcases mem_successors.1 hu with ⟨ps, h1, h2⟩ | ⟨fs, n, info, h1, h2, rfl⟩
    · left
      exact List.mem_flatMap.2 ⟨(x, ps), mem_of_lookup h1, h2⟩
    · right
      refine List.mem_flatMap.2 ⟨(x, fs), mem_of_lookup h1, ?_⟩
      exact List.mem_map.2 ⟨(n, info), h2, rfl⟩
  · simp only [unvisited, searchFuel]
    have := List.length_filter_le (fun x => !([] : List String).contains x) (t ::
      ((S.possible.flatMap (·.2)) ++ (S.typeFields.flatMap fun p => p.2.map (·.2.out))))
    simp only [List.length_cons] at this ⊢
    omega

theorem hasOwnRule_iff {defs : List TypeDef} {r : Rules} (h : RulesOk defs r)
    (hd : DistinctNames defs) (u : String) :
    hasOwnRule r u = true ↔ ∃ d ∈ defs, d.name = u ∧ Ruled d := by
  by_cases hex : ∃ d ∈ defs, d.ruled = true ∧ d.name = u
  · obtain ⟨d, hdm, hr, rfl⟩ := hex
    have huniq : ∀ e ∈ defs, e.name = d.name → e = d := fun e he hn =>
      List.inj_on_of_nodup_map hd.types he hdm hn
    have hright : (∃ e ∈ defs, e.name = d.name ∧ Ruled e) ↔ Ruled d := by
      constructor
      · rintro ⟨e, he, hn, hre⟩; rw [← huniq e he hn]; exact hre
      · intro hh; exact ⟨d, hdm, rfl, hh⟩
    rw [hright]
    simp only [hasOwnRule, Bool.or_eq_true]
    have ht := h.type d hdm hr
    constructor
    · rintro (h1 | h1)
      · cases hl : r.typeRules.lookup d.name with
        | none => simp [hl] at h1
        | some q =>
          rw [hl] at ht
          cases q with
          | authenticated => exact ⟨hr, Or.inl ht.1⟩
          | requiresScopes ids => obtain ⟨gs, h2, _⟩ := ht; exact ⟨hr, Or.inr (Or.inl (by simp [h2]))⟩
      · cases hl : r.fieldRules.lookup d.name with
        | none => simp [hl] at h1
        | some mm =>
          obtain ⟨n, rule, hn⟩ := h.nonEmpty _ _ hl
          by_cases hf : ∃ f ∈ d.fields, f.name = n
          · obtain ⟨f, hfm, rfl⟩ := hf
            have := h.field d hdm hr f hfm
            rw [hl] at this
            simp only [Option.bind_some, hn] at this
            refine ⟨hr, Or.inr (Or.inr ⟨f, hfm, ?_⟩)⟩
            cases rule with
            | authenticated => exact Or.inl this.1
            | requiresScopes ids => obtain ⟨gs, h2, _⟩ := this; exact Or.inr (by simp [h2])
          · have := h.noField d hdm hr n fun f hfm e => hf ⟨f, hfm, e⟩
            rw [hl] at this; simp [hn] at this
    · rintro ⟨_, hh⟩
      have hnone : r.typeRules.lookup d.name = none →
          d.authenticated = 0 ∧ d.requiresScopes = [] := by
        intro hl; rw [hl] at ht; exact ht
      rcases hh with h1 | h1 | ⟨f, hfm, h1⟩
      · left
        cases hl : r.typeRules.lookup d.name with
        | none => exact absurd (hnone hl).1 h1
        | some q => rfl
      · left
        cases hl : r.typeRules.lookup d.name with
        | none => exact absurd (hnone hl).2 h1
        | some q => rfl
      · right
        have hf := h.field d hdm hr f hfm
        cases hl : r.fieldRules.lookup d.name with
        | none =>
          rw [hl] at hf; simp only [Option.bind_none] at hf
          obtain ⟨h2, h3⟩ := hf
          rcases h1 with h1 | h1
          · exact absurd h2 h1
          · exact absurd h3 h1
        | some mm =>
          obtain ⟨n, rule, hn⟩ := h.nonEmpty _ _ hl
          cases mm with
          | nil => simp [List.lookup] at hn
          | cons => rfl
  · have hno : ∀ d ∈ defs, d.ruled = true → d.name ≠ u := by
      intro d hdm hr hn; exact hex ⟨d, hdm, hr, hn⟩
    obtain ⟨h1, h2⟩ := h.noType u hno
    simp only [hasOwnRule, h1, h2]
    simp only [Option.isSome_none, Option.any_none, Bool.or_self, Bool.false_eq_true, false_iff]
    rintro ⟨d, hdm, hn, hr, _⟩
    exact hno d hdm hr hn

theorem lookup_map_name (defs : List TypeDef) (f : TypeDef → Bool) (t : String) :
    ((defs.map fun d => (d.name, f d)).lookup t = none ↔ ∀ d ∈ defs, d.name ≠ t) ∧
    ∀ b, (defs.map fun d => (d.name, f d)).lookup t = some b → ∃ d ∈ defs, d.name = t ∧ f d = b := by
  induction defs with
  | nil => simp [List.lookup]
  | cons d defs ih =>
    simp only [List.map_cons, lookup_cons_ite]
    by_cases h : t = d.name
    · subst h
      refine ⟨by simp, ?_⟩
      intro b hb; simp at hb
      exact ⟨d, by simp, rfl, hb⟩
    · simp only [h, if_false]
      refine ⟨?_, ?_⟩
      · rw [ih.1]
        simp only [List.mem_cons, forall_eq_or_imp]
        exact ⟨fun hh => ⟨fun e => h e.symm, hh⟩, fun hh => hh.2⟩
      · intro b hb
        obtain ⟨e, he, h1, h2⟩ := ih.2 b hb
        exact ⟨e, by simp [he], h1, h2⟩

theorem parentHasAuth_iff {defs : List TypeDef} {S : Schema} {m : Metadata}
    (h : RulesOk defs m.toRules) (hd : DistinctNames defs)
    (hm : m.hasAnyAuth = computeHasAuth defs S m.toRules) (t : String) :
    parentHasAuth m t = true ↔ Guarded defs S t := by
  simp only [parentHasAuth, hm, computeHasAuth]
  obtain ⟨l1, l2⟩ := lookup_map_name defs
    (fun d => (hasAuth S m.toRules (searchFuel S) d.name []).1) t
  cases hl : (defs.map fun d => (d.name, (hasAuth S m.toRules (searchFuel S) d.name []).1)).lookup t with
  | none => simp only [Option.getD_none, true_iff]; exact Or.inl (l1.1 hl)
  | some b =>
    obtain ⟨d, hdm, rfl, hb⟩ := l2 b hl
    simp only [Option.getD_some]
    constructor
    · intro hbt; subst hbt
      obtain ⟨u, hu, hr⟩ := hasAuth_true hb
      obtain ⟨e, he, h1, h2⟩ := (hasOwnRule_iff h hd u).1 hr
      exact Or.inr ⟨u, e, hu, he, h1, h2⟩
    · rintro (hh | ⟨u, e, hu, he, h1, h2⟩)
      · exact absurd rfl (hh d hdm)
      · cases b with
        | true => rfl
        | false =>
          have := hasAuth_false_reaches hb hu
          rw [(hasOwnRule_iff h hd u).2 ⟨e, he, h1, h2⟩] at this
          exact absurd this (by simp)

/-- An unguarded type, and every type reachable from it, is open to everybody. -/
theorem unguarded_allowed {defs : List TypeDef} {S : Schema} {t u : String} (jwt : Jwt)
    (h : ¬ Guarded defs S t) (hr : Reaches S t u) :
    TypeAllowed defs jwt u ∧ ∀ f, FieldAllowed defs jwt u f := by
  have hno : ∀ d ∈ defs, d.name = u → ¬ Ruled d := by
    intro d hd hn hrd; exact h (Or.inr ⟨u, d, hr, hd, hn, hrd⟩)
  constructor
  · intro d hd hr hn
    have := hno d hd hn
    have h1 : d.authenticated = 0 := Classical.byContradiction fun e => this ⟨hr, Or.inl e⟩
    have h2 : d.requiresScopes = [] :=
      Classical.byContradiction fun e => this ⟨hr, Or.inr (Or.inl e)⟩
    simp [Meets, h1, h2]
  · intro f d hd hr hn fd hfd _
    have := hno d hd hn
    have h1 : fd.authenticated = 0 :=
      Classical.byContradiction fun e => this ⟨hr, Or.inr (Or.inr ⟨fd, hfd, Or.inl e⟩)⟩
    have h2 : fd.requiresScopes = [] :=
      Classical.byContradiction fun e => this ⟨hr, Or.inr (Or.inr ⟨fd, hfd, Or.inr e⟩)⟩
    simp [Meets, h1, h2]

theorem authVisitor_field {defs : List TypeDef} {S : Schema} {m : Metadata}
    (h : RulesOk defs m.toRules) (hd : DistinctNames defs)
    (hm : m.hasAnyAuth = computeHasAuth defs S m.toRules) (jwt : Jwt) {parent name : String}
    {info : FieldType} (hf : S.field parent name = some info) :
    (authVisitor m (userOf jwt m.scopes)).fieldOk parent name info.out = true ↔
      Allowed defs jwt parent name info.out := by
  simp only [authVisitor]
  by_cases hg : Guarded defs S parent
  · rw [(parentHasAuth_iff h hd hm parent).2 hg]
    simp only [Bool.not_true, Bool.false_eq_true, if_false, Bool.and_eq_true,
      typeAuthorized_iff h hd, fieldAuthorized_iff h hd, Allowed, and_assoc]
  · have : parentHasAuth m parent = false := by
      cases hp : parentHasAuth m parent with
      | false => rfl
      | true => exact absurd ((parentHasAuth_iff h hd hm parent).1 hp) hg
    simp only [this, Bool.not_false, if_true, true_iff]
    obtain ⟨h1, h2⟩ := unguarded_allowed jwt hg (.refl _)
    simp only [Schema.field] at hf
    cases hl : S.typeFields.lookup parent with
    | none => simp [hl] at hf
    | some fs =>
      simp [hl] at hf
      have hr : Reaches S parent info.out := .field hl (mem_of_lookup hf) (.refl _)
      exact ⟨h1, h2 name, (unguarded_allowed jwt hg hr).1⟩

theorem authVisitor_frag {defs : List TypeDef} {S : Schema} {m : Metadata}
    (h : RulesOk defs m.toRules) (hd : DistinctNames defs)
    (hm : m.hasAnyAuth = computeHasAuth defs S m.toRules) (jwt : Jwt) (cond parent : String) :
    (authVisitor m (userOf jwt m.scopes)).fragOk cond parent = true ↔
      (Guarded defs S parent → TypeAllowed defs jwt cond) := by
  simp only [authVisitor]
  by_cases hg : Guarded defs S parent
  · rw [(parentHasAuth_iff h hd hm parent).2 hg]
    simp [typeAuthorized_iff h hd, hg]
  · have : parentHasAuth m parent = false := by
      cases hp : parentHasAuth m parent with
      | false => rfl
      | true => exact absurd ((parentHasAuth_iff h hd hm parent).1 hp) hg
    simp [this, hg]

end Verif.Auth
