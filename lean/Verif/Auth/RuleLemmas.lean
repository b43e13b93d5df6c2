import Mathlib.Data.List.Nodup
import Mathlib.Tactic.Tauto
import Verif.Auth.Spec

namespace Verif.Auth

/-! ## The interner -/

theorem internGet_some {l : List String} {s : String} {i : Nat} (h : internGet l s = some i) :
    l[i]? = some s := by
  simp only [internGet, List.findIdx?_eq_some_iff_getElem] at h
  obtain ⟨hi, he, _⟩ := h
  rw [List.getElem?_eq_getElem hi]
  simpa using he

theorem internGet_none {l : List String} {s : String} (h : internGet l s = none) : s ∉ l := by
  simp only [internGet, List.findIdx?_eq_none_iff] at h
  intro hm
  simpa using h s hm

theorem nodup_getElem_inj {l : List String} (hn : l.Nodup) {i j : Nat} {s : String}
    (hi : l[i]? = some s) (hj : l[j]? = some s) : i = j := by
  obtain ⟨h1, h1'⟩ := List.getElem?_eq_some_iff.1 hi
  obtain ⟨h2, h2'⟩ := List.getElem?_eq_some_iff.1 hj
  exact (List.Nodup.getElem_inj_iff hn).1 (h1'.trans h2'.symm)

theorem internGet_iff {l : List String} (hn : l.Nodup) {s : String} {i : Nat} :
    internGet l s = some i ↔ l[i]? = some s := by
  constructor
  · exact internGet_some
  · intro h
    cases hg : internGet l s with
    | none => exact absurd (List.mem_of_getElem? h) (internGet_none hg)
    | some j => rw [nodup_getElem_inj hn (internGet_some hg) h]

theorem internInsert_spec {l : List String} (hn : l.Nodup) (s : String) :
    (internInsert l s).2[(internInsert l s).1]? = some s ∧ l <+: (internInsert l s).2 ∧
      (internInsert l s).2.Nodup := by
  simp only [internInsert]
  cases h : internGet l s with
  | some i => exact ⟨internGet_some h, List.prefix_refl _, hn⟩
  | none =>
    refine ⟨by simp, List.prefix_append _ _, ?_⟩
    rw [List.nodup_append]
    refine ⟨hn, by simp, ?_⟩
    intro a ha b hb e
    simp at hb; subst hb; subst e
    exact internGet_none h ha

/-! ## From directives to rules -/

/-- The scope ids of `ids` are those of the strings `ss`. -/
inductive IdsOf (scopes : List String) : List Nat → List String → Prop
  | nil : IdsOf scopes [] []
  | cons {i s is ss} : scopes[i]? = some s → IdsOf scopes is ss → IdsOf scopes (i :: is) (s :: ss)

inductive GroupsOf (scopes : List String) : List (List Nat) → List (List String) → Prop
  | nil : GroupsOf scopes [] []
  | cons {g h gs hs} : IdsOf scopes g h → GroupsOf scopes gs hs → GroupsOf scopes (g :: gs) (h :: hs)

/-- `rule` is what the directives on a definition amount to. -/
def RuleFor (scopes : List String) (authenticated : Nat) (requires : List Lit) :
    Option Rule → Prop
  | none => authenticated = 0 ∧ requires = []
  | some .authenticated => authenticated ≠ 0 ∧ requires = []
  | some (.requiresScopes ids) => ∃ gs, requires = [scopesLit gs] ∧ GroupsOf scopes ids gs ∧
      scopes ≠ []

theorem prefix_get {l l' : List String} (h : l <+: l') {i : Nat} {s : String}
    (hi : l[i]? = some s) : l'[i]? = some s := by
  obtain ⟨r, rfl⟩ := h
  obtain ⟨hlt, _⟩ := List.getElem?_eq_some_iff.1 hi
  rw [List.getElem?_append_left hlt]; exact hi

theorem IdsOf.mono {l l' : List String} (h : l <+: l') {is ss} (hi : IdsOf l is ss) :
    IdsOf l' is ss := by
  induction hi with
  | nil => exact .nil
  | cons h1 _ ih => exact .cons (prefix_get h h1) ih

theorem GroupsOf.mono {l l' : List String} (h : l <+: l') {is ss} (hi : GroupsOf l is ss) :
    GroupsOf l' is ss := by
  induction hi with
  | nil => exact .nil
  | cons h1 _ ih => exact .cons (h1.mono h) ih

theorem RuleFor.mono {l l' : List String} (h : l <+: l') {a req r} (hr : RuleFor l a req r) :
    RuleFor l' a req r := by
  match r, hr with
  | none, hr => exact hr
  | some .authenticated, hr => exact hr
  | some (.requiresScopes ids), ⟨gs, h1, h2, h3⟩ =>
    refine ⟨gs, h1, h2.mono h, ?_⟩
    rintro rfl
    exact h3 (List.prefix_nil.1 h)

theorem normalizeScopes_spec : ∀ (vs : List Lit) (l l' : List String) (is : List Nat), l.Nodup →
    normalizeScopes vs l = .ok (is, l') →
    ∃ ss, vs = ss.map .str ∧ IdsOf l' is ss ∧ l <+: l' ∧ l'.Nodup := by
  intro vs
  induction vs with
  | nil =>
    intro l l' is hn h
    simp [normalizeScopes] at h
    obtain ⟨rfl, rfl⟩ := h
    exact ⟨[], rfl, .nil, List.prefix_refl _, hn⟩
  | cons v vs ih =>
    intro l l' is hn h
    cases v with
    | str s =>
      simp only [normalizeScopes] at h
      have hs := internInsert_spec hn s
      cases hr : normalizeScopes vs (internInsert l s).2 with
      | error e => simp [hr] at h
      | ok p =>
        obtain ⟨is', l2⟩ := p
        simp [hr] at h
        obtain ⟨rfl, rfl⟩ := h
        obtain ⟨ss, h1, h2, h3, h4⟩ := ih _ _ _ hs.2.2 hr
        exact ⟨s :: ss, by simp [h1], .cons (prefix_get h3 hs.1) h2, hs.2.1.trans h3, h4⟩
    | _ => simp [normalizeScopes] at h

theorem normalizeAndGroup_spec {v : Lit} {l l' : List String} {is : List Nat} (hn : l.Nodup)
    (h : normalizeAndGroup v l = .ok (is, l')) :
    ∃ ss, v = .list (ss.map .str) ∧ IdsOf l' is ss ∧ l <+: l' ∧ l'.Nodup ∧ l' ≠ [] := by
  cases v with
  | list vs =>
    simp only [normalizeAndGroup] at h
    cases hr : normalizeScopes vs l with
    | error e => simp [hr] at h
    | ok p =>
      obtain ⟨is', l2⟩ := p
      cases is' with
      | nil => simp [hr] at h
      | cons i is' =>
        simp [hr] at h
        obtain ⟨rfl, rfl⟩ := h
        obtain ⟨ss, h1, h2, h3, h4⟩ := normalizeScopes_spec _ _ _ _ hn hr
        refine ⟨ss, by rw [h1], h2, h3, h4, ?_⟩
        rintro rfl
        cases h2 with
        | cons h _ => simp at h
  | _ => simp [normalizeAndGroup] at h

theorem normalizeGroups_spec : ∀ (vs : List Lit) (l l' : List String) (gs : List (List Nat)),
    l.Nodup → normalizeGroups vs l = .ok (gs, l') →
    ∃ hs, vs = hs.map (fun g => .list (g.map .str)) ∧ GroupsOf l' gs hs ∧ l <+: l' ∧ l'.Nodup ∧
      (gs ≠ [] → l' ≠ []) := by
  intro vs
  induction vs with
  | nil =>
    intro l l' gs hn h
    simp [normalizeGroups] at h
    obtain ⟨rfl, rfl⟩ := h
    exact ⟨[], rfl, .nil, List.prefix_refl _, hn, by simp⟩
  | cons v vs ih =>
    intro l l' gs hn h
    simp only [normalizeGroups] at h
    cases h1 : normalizeAndGroup v l with
    | error e => simp [h1] at h
    | ok p =>
      obtain ⟨g, l1⟩ := p
      simp only [h1] at h
      cases h2 : normalizeGroups vs l1 with
      | error e => simp [h2] at h
      | ok p =>
        obtain ⟨gs', l2⟩ := p
        simp [h2] at h
        obtain ⟨rfl, rfl⟩ := h
        obtain ⟨ss, a1, a2, a3, a4, a5⟩ := normalizeAndGroup_spec hn h1
        obtain ⟨hs, b1, b2, b3, b4, _⟩ := ih _ _ _ a4 h2
        refine ⟨ss :: hs, by simp [a1, b1], .cons (a2.mono b3) b2, a3.trans b3, b4, fun _ => ?_⟩
        rintro rfl
        exact a5 (List.prefix_nil.1 b3)

theorem extractRule_spec {a : Nat} {req : List Lit} {l l' : List String} {r : Option Rule}
    (hn : l.Nodup) (h : extractRule a req l = .ok (r, l')) :
    RuleFor l' a req r ∧ l <+: l' ∧ l'.Nodup := by
  match req, h with
  | [], h =>
    simp [extractRule] at h
    obtain ⟨rfl, rfl⟩ := h
    by_cases ha : a = 0 <;> simp [ha, RuleFor, hn]
  | [d], h =>
    cases d with
    | list vs =>
      simp only [extractRule, normalizeScopesArg] at h
      cases hg : normalizeGroups vs l with
      | error e => simp [hg] at h
      | ok p =>
        obtain ⟨gs, l2⟩ := p
        cases gs with
        | nil => simp [hg] at h
        | cons g gs =>
          simp [hg] at h
          obtain ⟨rfl, rfl⟩ := h
          obtain ⟨hs, h1, h2, h3, h4, h5⟩ := normalizeGroups_spec _ _ _ _ hn hg
          exact ⟨⟨hs, by rw [h1, scopesLit], h2, h5 (by simp)⟩, h3, h4⟩
    | _ => simp [extractRule, normalizeScopesArg] at h
  | _ :: _ :: _, h => simp [extractRule] at h

theorem processFields_spec : ∀ (fs : List FieldDef) (l l' : List String)
    (rs : List (String × Rule)), l.Nodup → (fs.map (·.name)).Nodup →
    processFields fs l = .ok (rs, l') →
    (∀ f ∈ fs, RuleFor l' f.authenticated f.requiresScopes (rs.lookup f.name)) ∧
    (∀ n, (∀ f ∈ fs, f.name ≠ n) → rs.lookup n = none) ∧ l <+: l' ∧ l'.Nodup := by
  intro fs
  induction fs with
  | nil =>
    intro l l' rs hn _ h
    simp [processFields] at h
    obtain ⟨rfl, rfl⟩ := h
    simp [hn]
  | cons f fs ih =>
    intro l l' rs hn hnd h
    simp only [processFields] at h
    cases h1 : extractRule f.authenticated f.requiresScopes l with
    | error e => simp [h1] at h
    | ok p =>
      obtain ⟨r, l1⟩ := p
      simp only [h1] at h
      cases h2 : processFields fs l1 with
      | error e => simp [h2] at h
      | ok p =>
        obtain ⟨rs', l2⟩ := p
        simp only [h2, Except.ok.injEq, Prod.mk.injEq] at h
        obtain ⟨he, rfl⟩ := h
        obtain ⟨a1, a2, a3⟩ := extractRule_spec hn h1
        simp only [List.map_cons, List.nodup_cons] at hnd
        obtain ⟨b1, b2, b3, b4⟩ := ih _ _ _ a3 hnd.2 h2
        have hnone : rs'.lookup f.name = none := by
          apply b2
          intro g hg e
          exact hnd.1 (List.mem_map.2 ⟨g, hg, e⟩)
        have hlook : ∀ n, rs.lookup n = if n = f.name then r else rs'.lookup n := by
          intro n
          subst he
          cases r with
          | none => by_cases hn : n = f.name <;> simp [hn, hnone]
          | some r =>
            by_cases hn : n = f.name
            · simp [hn, List.lookup]
            · have : (n == f.name) = false := by simpa using hn
              simp [hn, List.lookup, this]
        refine ⟨?_, ?_, a2.trans b3, b4⟩
        · intro g hg
          rw [hlook]
          rcases List.mem_cons.1 hg with rfl | hg
          · simpa using a1.mono b3
          · have : g.name ≠ f.name := fun e => hnd.1 (List.mem_map.2 ⟨g, hg, e⟩)
            simpa [this] using b1 g hg
        · intro n hall
          rw [hlook]
          have h1 : n ≠ f.name := fun e => hall f (by simp) e.symm
          simp only [h1, if_false]
          exact b2 n fun g hg => hall g (by simp [hg])

/-- The collected rules are exactly those of the definitions processed. -/
structure RulesOk (defs : List TypeDef) (r : Rules) : Prop where
  nodup : r.scopes.Nodup
  type : ∀ d ∈ defs, d.ruled = true →
    RuleFor r.scopes d.authenticated d.requiresScopes (r.typeRules.lookup d.name)
  field : ∀ d ∈ defs, d.ruled = true → ∀ f ∈ d.fields,
    RuleFor r.scopes f.authenticated f.requiresScopes
      ((r.fieldRules.lookup d.name).bind (·.lookup f.name))
  noType : ∀ t, (∀ d ∈ defs, d.ruled = true → d.name ≠ t) →
    r.typeRules.lookup t = none ∧ r.fieldRules.lookup t = none
  noField : ∀ d ∈ defs, d.ruled = true → ∀ n, (∀ f ∈ d.fields, f.name ≠ n) →
    (r.fieldRules.lookup d.name).bind (·.lookup n) = none
  nonEmpty : ∀ t m, r.fieldRules.lookup t = some m → ∃ n rule, m.lookup n = some rule

structure DistinctNames (defs : List TypeDef) : Prop where
  types : (defs.map (·.name)).Nodup
  fields : ∀ d ∈ defs, (d.fields.map (·.name)).Nodup

theorem lookup_cons_ite {β : Type} (k n : String) (v : β) (l : List (String × β)) :
    List.lookup n ((k, v) :: l) = if n = k then some v else l.lookup n := by
  by_cases h : n = k
  · simp [h, List.lookup]
  · have : (n == k) = false := by simpa using h
    simp [h, List.lookup, this]

theorem processType_spec {done : List TypeDef} {d : TypeDef} {r r' : Rules}
    (hok : RulesOk done r) (hnew : ∀ e ∈ done, e.name ≠ d.name)
    (hfields : (d.fields.map (·.name)).Nodup) (h : processType d r = .ok r') :
    RulesOk (d :: done) r' := by
  simp only [processType] at h
  cases hr : d.ruled with
  | false =>
    simp [hr] at h; subst h
    refine ⟨hok.nodup, ?_, ?_, ?_, ?_, hok.nonEmpty⟩
    · intro e he hre
      rcases List.mem_cons.1 he with rfl | he
      · simp [hr] at hre
      · exact hok.type e he hre
    · intro e he hre
      rcases List.mem_cons.1 he with rfl | he
      · simp [hr] at hre
      · exact hok.field e he hre
    · intro t ht
      exact hok.noType t fun e he hre => ht e (by simp [he]) hre
    · intro e he hre
      rcases List.mem_cons.1 he with rfl | he
      · simp [hr] at hre
      · exact hok.noField e he hre
  | true =>
    simp [hr] at h
    cases h1 : extractRule d.authenticated d.requiresScopes r.scopes with
    | error e => simp [h1] at h
    | ok p =>
      obtain ⟨rule, l1⟩ := p
      simp only [h1] at h
      cases h2 : processFields d.fields l1 with
      | error e => simp [h2] at h
      | ok p =>
        obtain ⟨fr, l2⟩ := p
        simp only [h2, Except.ok.injEq] at h
        obtain ⟨a1, a2, a3⟩ := extractRule_spec hok.nodup h1
        obtain ⟨b1, b2, b3, b4⟩ := processFields_spec _ _ _ _ a3 hfields h2
        have hpre : r.scopes <+: l2 := a2.trans b3
        obtain ⟨n1, n2⟩ := hok.noType d.name fun e he _ => hnew e he
        have hs : r'.scopes = l2 := by rw [← h]
        have ht : ∀ t, r'.typeRules.lookup t = if t = d.name then rule else r.typeRules.lookup t := by
          intro t; rw [← h]
          cases rule with
          | none => by_cases e : t = d.name <;> simp [e, n1]
          | some q => simp only [lookup_cons_ite]
        have hf : ∀ t, r'.fieldRules.lookup t =
            if t = d.name then (if fr.isEmpty then none else some fr) else r.fieldRules.lookup t := by
          intro t; rw [← h]
          cases fr with
          | nil => by_cases e : t = d.name <;> simp [e, n2]
          | cons q fr => simp [lookup_cons_ite]
        have hfb : ∀ n, (r'.fieldRules.lookup d.name).bind (·.lookup n) = fr.lookup n := by
          intro n; rw [hf]
          cases fr <;> simp
        refine ⟨by rw [hs]; exact b4, ?_, ?_, ?_, ?_, ?_⟩
        · intro e he hre
          rw [ht, hs]
          rcases List.mem_cons.1 he with rfl | he
          · simpa using a1.mono b3
          · simpa [hnew e he] using (hok.type e he hre).mono hpre
        · intro e he hre f hfm
          rw [hs]
          rcases List.mem_cons.1 he with rfl | he
          · rw [hfb]; exact b1 f hfm
          · rw [hf]; simpa [hnew e he] using (hok.field e he hre f hfm).mono hpre
        · intro t htn
          have h0 : t ≠ d.name := fun e => htn d (by simp) hr e.symm
          rw [ht, hf]; simp only [h0, if_false]
          exact hok.noType t fun e he hre => htn e (by simp [he]) hre
        · intro e he hre n hn
          rcases List.mem_cons.1 he with rfl | he
          · rw [hfb]; exact b2 n hn
          · rw [hf]; simpa [hnew e he] using hok.noField e he hre n hn
        · intro t m hm
          rw [hf] at hm
          by_cases e : t = d.name
          · cases fr with
            | nil => simp [e] at hm
            | cons q fr =>
              simp [e] at hm; subst hm
              exact ⟨q.1, q.2, by simp [List.lookup]⟩
          · simp [e] at hm; exact hok.nonEmpty t m hm

theorem RulesOk.perm {ds ds' : List TypeDef} {r : Rules} (h : RulesOk ds r)
    (hp : ∀ d, d ∈ ds ↔ d ∈ ds') : RulesOk ds' r :=
  ⟨h.nodup, fun d hd => h.type d ((hp d).2 hd), fun d hd => h.field d ((hp d).2 hd),
    fun t ht => h.noType t fun d hd => ht d ((hp d).1 hd),
    fun d hd => h.noField d ((hp d).2 hd), h.nonEmpty⟩

theorem processTypes_spec : ∀ (ds done : List TypeDef) (r r' : Rules), RulesOk done r →
    (ds.map (·.name)).Nodup → (∀ d ∈ ds, (d.fields.map (·.name)).Nodup) →
    (∀ d ∈ ds, ∀ e ∈ done, e.name ≠ d.name) → processTypes ds r = .ok r' →
    RulesOk (ds ++ done) r' := by
  intro ds
  induction ds with
  | nil => intro done r r' hok _ _ _ h; simp [processTypes] at h; subst h; simpa using hok
  | cons d ds ih =>
    intro done r r' hok hnd hfs hnew h
    simp only [processTypes] at h
    cases h1 : processType d r with
    | error e => simp [h1] at h
    | ok r1 =>
      simp only [h1] at h
      simp only [List.map_cons, List.nodup_cons] at hnd
      have := processType_spec hok (hnew d (by simp)) (hfs d (by simp)) h1
      have := ih (d :: done) r1 r' this hnd.2 (fun e he => hfs e (by simp [he])) ?_ h
      · exact this.perm (by intro x; simp; tauto)
      · intro e he x hx
        rcases List.mem_cons.1 hx with rfl | hx
        · intro e'; exact hnd.1 (List.mem_map.2 ⟨e, he, e'.symm⟩)
        · exact hnew e (by simp [he]) x hx

theorem rulesOk_nil : RulesOk [] {} := by
  refine ⟨by simp, by simp, by simp, by simp [List.lookup], by simp, by simp [List.lookup]⟩

theorem build_spec {defs : List TypeDef} {S : Schema} {m : Metadata} (hd : DistinctNames defs)
    (h : build defs S = .ok m) :
    RulesOk defs m.toRules ∧ m.hasAnyAuth = computeHasAuth defs S m.toRules := by
  simp only [build] at h
  cases hp : processTypes defs {} with
  | error e => simp [hp] at h
  | ok r =>
    simp [hp] at h; subst h
    have := processTypes_spec defs [] {} r rulesOk_nil hd.types hd.fields (by simp) hp
    exact ⟨by simpa using this, rfl⟩

/-! ## Satisfying a rule -/

theorem mem_scopeIds {scopes ss : List String} (hn : scopes.Nodup) {i : Nat} {s : String}
    (hi : scopes[i]? = some s) : i ∈ ss.filterMap (internGet scopes) ↔ s ∈ ss := by
  simp only [List.mem_filterMap]
  constructor
  · rintro ⟨a, ha, hg⟩
    have := internGet_some hg
    rw [hi] at this; simp at this; subst this; exact ha
  · intro hs; exact ⟨s, hs, (internGet_iff hn).2 hi⟩

theorem idsOf_all {scopes ss : List String} (hn : scopes.Nodup) {is : List Nat} {g : List String}
    (h : IdsOf scopes is g) :
    (is.all fun i => (ss.filterMap (internGet scopes)).contains i) = true ↔ ∀ s ∈ g, s ∈ ss := by
  induction h with
  | nil => simp
  | cons h1 _ ih =>
    simp only [List.all_cons, Bool.and_eq_true, ih, List.contains_iff_mem, mem_scopeIds hn h1,
      List.mem_cons, forall_eq_or_imp]

theorem groupsOf_any {scopes ss : List String} (hn : scopes.Nodup) {ids : List (List Nat)}
    {gs : List (List String)} (h : GroupsOf scopes ids gs) :
    (ids.any fun g => g.all fun i => (ss.filterMap (internGet scopes)).contains i) = true ↔
      ∃ g ∈ gs, ∀ s ∈ g, s ∈ ss := by
  induction h with
  | nil => simp
  | cons h1 _ ih =>
    simp only [List.any_cons, Bool.or_eq_true, ih, idsOf_all hn h1, List.mem_cons,
      exists_eq_or_imp]

theorem scopesLit_inj {gs gs' : List (List String)} (h : scopesLit gs = scopesLit gs') :
    gs = gs' := by
  simp only [scopesLit, Lit.list.injEq] at h
  have hstr : ∀ a b : List String, a.map Lit.str = b.map Lit.str → a = b := by
    intro a
    induction a with
    | nil => intro b h; cases b <;> simp_all
    | cons x a ih =>
      intro b h
      cases b with
      | nil => simp at h
      | cons y b => simp at h; rw [h.1, ih b h.2]
  induction gs generalizing gs' with
  | nil => cases gs' <;> simp_all
  | cons g gs ih =>
    cases gs' with
    | nil => simp at h
    | cons g' gs' =>
      simp at h
      rw [hstr _ _ h.1, ih h.2]

theorem ruleSatisfied_iff {scopes : List String} (hn : scopes.Nodup) {jwt : Jwt} {a : Nat}
    {req : List Lit} {r : Rule} (h : RuleFor scopes a req (some r)) :
    ruleSatisfied (userOf jwt scopes) r = true ↔ Meets jwt a req := by
  cases r with
  | authenticated =>
    obtain ⟨ha, rfl⟩ := h
    cases jwt <;> simp [ruleSatisfied, userOf, Meets, ha]
  | requiresScopes ids =>
    obtain ⟨gs, rfl, hg, _⟩ := h
    cases jwt with
    | none => simp [ruleSatisfied, userOf, Meets]
    | some ss =>
      simp only [ruleSatisfied, userOf, Bool.true_and, groupsOf_any hn hg, Meets]
      constructor
      · intro h; exact ⟨ss, gs, rfl, rfl, h⟩
      · rintro ⟨ss', gs', h1, h2, h3⟩
        simp at h1; subst h1
        rw [scopesLit_inj h2]; exact h3

theorem meets_of_none {scopes : List String} {jwt : Jwt} {a : Nat} {req : List Lit}
    (h : RuleFor scopes a req none) : Meets jwt a req := by
  obtain ⟨rfl, rfl⟩ := h; simp [Meets]

theorem typeAuthorized_iff {defs : List TypeDef} {m : Metadata} (h : RulesOk defs m.toRules)
    (hd : DistinctNames defs) (jwt : Jwt) (t : String) :
    typeAuthorized m (userOf jwt m.scopes) t = true ↔ TypeAllowed defs jwt t := by
  simp only [typeAuthorized]
  by_cases hex : ∃ d ∈ defs, d.ruled = true ∧ d.name = t
  · obtain ⟨d, hdm, hr, rfl⟩ := hex
    have hrule := h.type d hdm hr
    have huniq : ∀ e ∈ defs, e.name = d.name → e = d := by
      intro e he hn
      exact List.inj_on_of_nodup_map hd.types he hdm hn
    have hta : TypeAllowed defs jwt d.name ↔ Meets jwt d.authenticated d.requiresScopes := by
      constructor
      · intro hh; exact hh d hdm hr rfl
      · intro hh e he _ hn; rw [huniq e he hn]; exact hh
    rw [hta]
    cases hl : m.typeRules.lookup d.name with
    | none => rw [hl] at hrule; simp [meets_of_none hrule]
    | some r => rw [hl] at hrule; exact ruleSatisfied_iff h.nodup hrule
  · have hno : ∀ d ∈ defs, d.ruled = true → d.name ≠ t := by
      intro d hdm hr hn; exact hex ⟨d, hdm, hr, hn⟩
    rw [(h.noType t hno).1]
    simp only [true_iff]
    intro d hdm hr hn; exact absurd hn (hno d hdm hr)

theorem fieldAuthorized_iff {defs : List TypeDef} {m : Metadata} (h : RulesOk defs m.toRules)
    (hd : DistinctNames defs) (jwt : Jwt) (t f : String) :
    fieldAuthorized m (userOf jwt m.scopes) t f = true ↔ FieldAllowed defs jwt t f := by
  simp only [fieldAuthorized]
  by_cases hex : ∃ d ∈ defs, d.ruled = true ∧ d.name = t
  · obtain ⟨d, hdm, hr, rfl⟩ := hex
    have huniq : ∀ e ∈ defs, e.name = d.name → e = d := by
      intro e he hn
      exact List.inj_on_of_nodup_map hd.types he hdm hn
    by_cases hexf : ∃ fd ∈ d.fields, fd.name = f
    · obtain ⟨fd, hfm, rfl⟩ := hexf
      have hrule := h.field d hdm hr fd hfm
      have hufd : ∀ e ∈ d.fields, e.name = fd.name → e = fd := by
        intro e he hn
        exact List.inj_on_of_nodup_map (hd.fields d hdm) he hfm hn
      have hta : FieldAllowed defs jwt d.name fd.name ↔
          Meets jwt fd.authenticated fd.requiresScopes := by
        constructor
        · intro hh; exact hh d hdm hr rfl fd hfm rfl
        · intro hh e he _ hn x hx hxn
          rw [huniq e he hn] at hx
          rw [hufd x hx hxn]; exact hh
      rw [hta]
      cases hl : (m.fieldRules.lookup d.name).bind (·.lookup fd.name) with
      | none => rw [hl] at hrule; simp [meets_of_none hrule]
      | some r => rw [hl] at hrule; exact ruleSatisfied_iff h.nodup hrule
    · have hno : ∀ fd ∈ d.fields, fd.name ≠ f := fun fd hfm hn => hexf ⟨fd, hfm, hn⟩
      rw [h.noField d hdm hr f hno]
      simp only [true_iff]
      intro e he _ hn x hx hxn
      rw [huniq e he hn] at hx
      exact absurd hxn (hno x hx)
  · have hno : ∀ d ∈ defs, d.ruled = true → d.name ≠ t := by
      intro d hdm hr hn; exact hex ⟨d, hdm, hr, hn⟩
    rw [(h.noType t hno).2]
    simp only [Option.bind_none, true_iff]
    intro d hdm hr hn; exact absurd hn (hno d hdm hr)

end Verif.Auth
