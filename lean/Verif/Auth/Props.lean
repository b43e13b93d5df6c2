import Verif.Auth.RuleLemmas
import Verif.Auth.SearchLemmas
import Verif.Auth.RebuildLemmas

/-!
# Authorization: C05, C06, C07, C08
-/

namespace Verif.Auth

section
variable {S : Schema} {vars : Vars} {fieldOk : String → String → String → Prop}
  {fragOk : String → String → Prop}

theorem Bubbles.denied_ex {p : String} {sels : List Sel}
    (h : Bubbles S vars fieldOk fragOk p sels) : ∃ q, Denied S vars fieldOk fragOk p sels q := by
  induction h with
  | denied h1 h2 h3 h4 _ h5 => exact ⟨_, .field h1 h2 h3 h4 h5⟩
  | nested h1 h2 h3 h4 _ h5 _ ih => obtain ⟨q, hq⟩ := ih; exact ⟨_, .inField h1 h2 h3 h4 h5 hq⟩
  | inFrag h1 h2 h3 _ ih => obtain ⟨q, hq⟩ := ih; exact ⟨_, .inFrag h1 h2 h3 hq⟩

theorem Removed.denied_ex {p : String} {sels : List Sel} {r : List Seg}
    (h : Removed S vars fieldOk fragOk p sels r) : ∃ q, Denied S vars fieldOk fragOk p sels q := by
  induction h with
  | denied h1 h2 h3 h4 h5 => exact ⟨_, .field h1 h2 h3 h4 h5⟩
  | bubbled h1 h2 h3 h4 h5 h6 =>
    obtain ⟨q, hq⟩ := h6.denied_ex; exact ⟨_, .inField h1 h2 h3 h4 h5 hq⟩
  | inField h1 h2 h3 h4 h5 _ ih => obtain ⟨q, hq⟩ := ih; exact ⟨_, .inField h1 h2 h3 h4 h5 hq⟩
  | inFrag h1 h2 h3 _ ih => obtain ⟨q, hq⟩ := ih; exact ⟨_, .inFrag h1 h2 h3 hq⟩
  | deniedFrag h1 h2 h3 _ => exact ⟨_, .frag h1 h2 h3⟩

theorem Denied.none_of_ok {p : String} {sels : List Sel} {q : List String}
    (h : Denied S vars fieldOk fragOk p sels q) (h1 : ∀ t f o, fieldOk t f o)
    (h2 : ∀ c p, fragOk c p) : False := by
  induction h with
  | field _ _ _ _ h => exact h (h1 _ _ _)
  | frag _ _ h => exact h (h2 _ _)
  | inField _ _ _ _ _ _ ih => exact ih
  | inFrag _ _ _ _ ih => exact ih
end

/-- A fragment is denied when its enclosing type is guarded and its type condition is not
allowed. -/
def FragAllowed (defs : List TypeDef) (S : Schema) (jwt : Jwt) (cond parent : String) : Prop :=
  Guarded defs S parent → TypeAllowed defs jwt cond

/-- The three ways `apply` ends, in terms of the specification. -/
theorem apply_cases {defs : List TypeDef} {S : Schema} {m : Metadata} (hd : DistinctNames defs)
    (hb : build defs S = .ok m) {vars : Vars} {jwt : Jwt} {rm : Bool} {root : String}
    {op : Operation} {dec : Decision} (h : apply m S vars jwt rm root op = .ok dec) :
    (dec = .noChange ∧
      ∀ q, ¬ Denied S vars (Allowed defs jwt) (FragAllowed defs S jwt) root op.sels q) ∨
    (∃ st : St, (∀ q, q ∈ st.rejected ↔
        Removed S vars (Allowed defs jwt) (FragAllowed defs S jwt) root op.sels q) ∧
      (∀ q, q ∈ st.errors ↔
        Denied S vars (Allowed defs jwt) (FragAllowed defs S jwt) root op.sels q) ∧
      st.errors ≠ [] ∧
      dec = if rm then .reject st.errors
        else .modified (rebuildOperation op (Trie.fromPaths st.rejected)) st.errors) := by
  obtain ⟨hr, hm⟩ := build_spec hd hb
  have hexit : (∀ (a : Nat) (req : List Lit) (r : Option Rule), RuleFor m.scopes a req r →
      (r = none ∨ jwt.isSome = true ∧ m.scopes = []) → Meets jwt a req) := by
    intro a req r hrule hor
    cases r with
    | none => exact meets_of_none hrule
    | some r =>
      rcases hor with hor | ⟨h1, h2⟩
      · simp at hor
      · cases r with
        | authenticated => obtain ⟨_, rfl⟩ := hrule; exact Or.inr h1
        | requiresScopes ids => obtain ⟨_, _, _, hne⟩ := hrule; exact absurd h2 hne
  have hopen : ((m.typeRules = [] ∧ m.fieldRules = []) ∨ jwt.isSome = true ∧ m.scopes = []) →
      ∀ q, ¬ Denied S vars (Allowed defs jwt) (FragAllowed defs S jwt) root op.sels q := by
    intro hor
    have ht : ∀ t, TypeAllowed defs jwt t := by
      intro t d hdm hru _
      refine hexit _ _ _ (hr.type d hdm hru) ?_
      rcases hor with ⟨h1, _⟩ | h1
      · left; rw [h1]; rfl
      · exact Or.inr h1
    have hf : ∀ t f, FieldAllowed defs jwt t f := by
      intro t f d hdm hru _ fd hfd _
      refine hexit _ _ _ (hr.field d hdm hru fd hfd) ?_
      rcases hor with ⟨_, h1⟩ | h1
      · left; rw [h1]; rfl
      · exact Or.inr h1
    intro q hq
    exact hq.none_of_ok (fun t f o => ⟨ht t, hf t f, ht o⟩) (fun c p _ => ht c)
  simp only [apply] at h
  cases he : m.isEmpty with
  | true =>
    simp only [he, if_true, Except.ok.injEq] at h
    left
    refine ⟨h.symm, hopen (Or.inl ?_)⟩
    simpa [Metadata.isEmpty] using he
  | false =>
    simp only [he, Bool.false_eq_true, if_false] at h
    cases hu : ((userOf jwt m.scopes).isAuthenticated && m.scopes.isEmpty) with
    | true =>
      simp only [hu, if_true, Except.ok.injEq] at h
      left
      refine ⟨h.symm, hopen (Or.inr ?_)⟩
      simp only [Bool.and_eq_true, List.isEmpty_iff] at hu
      refine ⟨?_, hu.2⟩
      cases jwt with
      | none => simp [userOf] at hu
      | some _ => rfl
    | false =>
      simp only [hu, Bool.false_eq_true, if_false] at h
      cases hfi : filter S vars (authVisitor m (userOf jwt m.scopes)) root op.sels with
      | error e => simp [hfi] at h
      | ok st =>
        obtain ⟨h1, h2⟩ := filter_spec (fieldOk := Allowed defs jwt)
          (fragOk := FragAllowed defs S jwt) _
          (fun p f info hf => authVisitor_field hr hd hm jwt hf)
          (fun c p => authVisitor_frag hr hd hm jwt c p) hfi
        simp only [hfi] at h
        by_cases hes : st.errors = []
        · simp [hes] at h
          left
          refine ⟨h.symm, fun q hq => ?_⟩
          rw [← h2, hes] at hq; simp at hq
        · have : st.errors.isEmpty = false := by simpa using hes
          simp only [this, Bool.false_eq_true, if_false] at h
          right
          refine ⟨st, h1, h2, hes, ?_⟩
          cases rm <;> simp_all

section
variable {defs : List TypeDef} {S : Schema} {m : Metadata} {vars : Vars} {jwt : Jwt} {rm : Bool}
  {root : String} {op op' : Operation} {errs : List (List String)}

theorem enforce_cases (hd : DistinctNames defs) (hb : build defs S = .ok m)
    (h : enforce true m S vars jwt rm root op = .ok (some (op', errs))) :
    (op' = op ∧ errs = [] ∧
      ∀ q, ¬ Denied S vars (Allowed defs jwt) (FragAllowed defs S jwt) root op.sels q) ∨
    (rm = false ∧ ∃ st : St, (∀ q, q ∈ st.rejected ↔
        Removed S vars (Allowed defs jwt) (FragAllowed defs S jwt) root op.sels q) ∧
      (∀ q, q ∈ st.errors ↔
        Denied S vars (Allowed defs jwt) (FragAllowed defs S jwt) root op.sels q) ∧
      st.errors ≠ [] ∧
      op' = rebuildOperation op (Trie.fromPaths st.rejected) ∧ errs = st.errors) := by
  simp only [enforce, Bool.not_true, Bool.false_eq_true, if_false] at h
  cases ha : apply m S vars jwt rm root op with
  | error e => simp [ha] at h
  | ok dec =>
    rcases apply_cases hd hb ha with ⟨rfl, hn⟩ | ⟨st, h1, h2, h3, rfl⟩
    · simp [ha] at h; exact Or.inl ⟨h.1.symm, h.2, hn⟩
    · cases rm with
      | true => simp [ha] at h
      | false =>
        simp [ha] at h
        exact Or.inr ⟨rfl, st, h1, h2, h3, h.1.symm, h.2.symm⟩

/-- **C05.** Whatever the supergraph's rules, the caller's token, the variables and the operation:
every field that the operation handed on to planning would select is one the caller may select. -/
theorem C05_no_unauthorized_field_sent (hd : DistinctNames defs) (hb : build defs S = .ok m)
    (h : enforce true m S vars jwt rm root op = .ok (some (op', errs))) {t f out : String}
    (hreq : Requests S vars root op'.sels t f out) : Allowed defs jwt t f out := by
  rcases enforce_cases hd hb h with ⟨rfl, _, hn⟩ | ⟨_, st, h1, _, _, rfl, _⟩
  · refine requests_ok_of_none_removed (fragOk := FragAllowed defs S jwt) hreq fun q hq => ?_
    obtain ⟨r, hr⟩ := hq.denied_ex
    exact hn r hr
  · exact rebuild_sound (fragOk := FragAllowed defs S jwt) _ op.sels (View.root st.rejected)
      (fun q hq => by simpa using (h1 q).2 hq) hreq

open Classical in
/-- **C06.** What is left of the operation is exactly its leaf selections, in order and with their
surroundings, minus those under a removed path; with nothing denied it is the operation itself. -/
theorem C06_only_removed_leaves_go (hd : DistinctNames defs) (hb : build defs S = .ok m)
    (h : enforce true m S vars jwt rm root op = .ok (some (op', errs))) :
    leaves op'.sels = (leaves op.sels).filter fun c =>
      decide (¬ ∃ q, Removed S vars (Allowed defs jwt) (FragAllowed defs S jwt) root op.sels q ∧
        q <+: c.map Anc.seg) := by
  rcases enforce_cases hd hb h with ⟨rfl, _, hn⟩ | ⟨_, st, h1, _, _, rfl, _⟩
  · rw [List.filter_eq_self.2]
    intro c _
    simp only [decide_eq_true_eq]
    rintro ⟨q, hq, _⟩
    obtain ⟨r, hr⟩ := hq.denied_ex
    exact hn r hr
  · have hm : NoFragMarks fun q => st.rejected.contains q := by
      intro q t
      cases hc : st.rejected.contains (q ++ [.fragment t]) with
      | false => exact hc
      | true =>
        obtain ⟨r, k, hk⟩ := ((h1 _).1 (List.contains_iff_mem.1 hc)).no_frag
        have := (List.append_inj' hk rfl).2
        simp at this
    have := rebuild_leaves _ op.sels (View.root st.rejected) hm
    simp only [rebuildOperation]
    rw [this]
    apply List.filter_congr
    intro c _
    rw [Bool.eq_iff_iff]
    simp only [keepLeaf, Bool.not_eq_true', decide_eq_true_eq]
    rw [← Bool.not_eq_true, blocked_iff]
    refine not_congr ⟨?_, ?_⟩
    · rintro ⟨r, _, h3, h4⟩
      exact ⟨r, (h1 r).1 (by simpa using h4), h3⟩
    · rintro ⟨q, hq, hp⟩
      obtain ⟨x, q', rfl⟩ := hq.ne_nil
      exact ⟨_, by simp, hp, by simpa using (h1 _).2 hq⟩

/-- **C06.** The reported paths are exactly the denied ones, and a request with nothing denied is
left alone. -/
theorem C06_errors_are_denials (hd : DistinctNames defs) (hb : build defs S = .ok m)
    (h : enforce true m S vars jwt rm root op = .ok (some (op', errs))) :
    (∀ q, q ∈ errs ↔ Denied S vars (Allowed defs jwt) (FragAllowed defs S jwt) root op.sels q) ∧
    (errs = [] → op' = op) := by
  rcases enforce_cases hd hb h with ⟨rfl, rfl, hn⟩ | ⟨_, st, _, h2, h3, rfl, rfl⟩
  · exact ⟨fun q => ⟨by simp, fun hq => absurd hq (hn q)⟩, fun _ => rfl⟩
  · exact ⟨h2, fun he => absurd he h3⟩

/-- **C06.** The request is rejected as a whole exactly in reject mode with something denied. -/
theorem C06_rejected_iff (hd : DistinctNames defs) (hb : build defs S = .ok m)
    {res : Option (Operation × List (List String))}
    (h : enforce true m S vars jwt rm root op = .ok res) :
    res = none ↔ rm = true ∧
      ∃ q, Denied S vars (Allowed defs jwt) (FragAllowed defs S jwt) root op.sels q := by
  simp only [enforce, Bool.not_true, Bool.false_eq_true, if_false] at h
  cases ha : apply m S vars jwt rm root op with
  | error e => simp [ha] at h
  | ok dec =>
    rcases apply_cases hd hb ha with ⟨rfl, hn⟩ | ⟨st, h1, h2, h3, rfl⟩
    · simp [ha] at h; subst h
      simp only [reduceCtorEq, false_iff]
      rintro ⟨_, q, hq⟩; exact hn q hq
    · cases rm with
      | true =>
        simp [ha] at h; subst h
        simp only [true_and, true_iff]
        obtain ⟨q, hq⟩ := List.exists_mem_of_ne_nil _ h3
        exact ⟨q, (h2 q).1 hq⟩
      | false => simp [ha] at h; subst h; simp

/-- **C06.** The trimmed operation keeps the definition of every variable it still mentions, and
gains none. -/
theorem C06_variables_kept (hd : DistinctNames defs) (hb : build defs S = .ok m)
    (h : enforce true m S vars jwt rm root op = .ok (some (op', errs))) {ds : List String}
    (hds : op.varDefs = some ds) :
    ∃ ds', op'.varDefs = some ds' ∧ ds'.Sublist ds ∧
      ∀ x ∈ ds, Mentions op'.sels x → x ∈ ds' := by
  rcases enforce_cases hd hb h with ⟨rfl, _, _⟩ | ⟨_, st, _, _, _, rfl, _⟩
  · exact ⟨ds, hds, List.Sublist.refl _, fun x hx _ => hx⟩
  · refine ⟨_, by simp [rebuildOperation, hds]; rfl, List.filter_sublist, fun x hx hm => ?_⟩
    rw [List.mem_filter]
    exact ⟨hx, by simpa using selVars_rebuild _ _ _ x (mentions_selVars hm)⟩
end

/-! ## Rules -/

/-- **C07.** A type is visible exactly to the callers that meet its directives, and a field to
those that meet the field's. -/
theorem C07_scope_rules {defs : List TypeDef} {S : Schema} {m : Metadata}
    (hd : DistinctNames defs) (hb : build defs S = .ok m) (jwt : Jwt) (t f : String) :
    (typeAuthorized m (userOf jwt m.scopes) t = true ↔ TypeAllowed defs jwt t) ∧
    (fieldAuthorized m (userOf jwt m.scopes) t f = true ↔ FieldAllowed defs jwt t f) := by
  obtain ⟨hr, _⟩ := build_spec hd hb
  exact ⟨typeAuthorized_iff hr hd jwt t, fieldAuthorized_iff hr hd jwt t f⟩

/-- A well-formed set of `@requiresScopes` directives: none, or one with a non-empty list of
non-empty lists of strings. -/
def WellFormed (requires : List Lit) : Prop :=
  requires = [] ∨ ∃ gs, requires = [scopesLit gs] ∧ gs ≠ [] ∧ ∀ g ∈ gs, g ≠ []

theorem normalizeScopes_ok : ∀ (vs : List Lit) (l : List String),
    (∃ r, normalizeScopes vs l = .ok r ∧ r.1.length = vs.length) ∨
      (∃ e, normalizeScopes vs l = .error e) ∧ ¬ ∃ g : List String, vs = g.map .str := by
  intro vs
  induction vs with
  | nil => intro l; left; exact ⟨_, rfl, rfl⟩
  | cons v vs ih =>
    intro l
    cases v with
    | str s =>
      simp only [normalizeScopes]
      rcases ih (internInsert l s).2 with ⟨r, h, hl⟩ | ⟨⟨e, h⟩, hn⟩
      · left; simp [h, hl]
      · right
        refine ⟨⟨e, by simp [h]⟩, ?_⟩
        rintro ⟨g, hg⟩
        cases g with
        | nil => simp at hg
        | cons a g => simp at hg; exact hn ⟨g, hg.2⟩
    | _ =>
      right
      refine ⟨⟨_, rfl⟩, ?_⟩
      rintro ⟨g, hg⟩
      cases g <;> simp at hg

theorem normalizeAndGroup_ok (v : Lit) (l : List String) :
    (∃ r, normalizeAndGroup v l = .ok r) ↔ ∃ g : List String, v = .list (g.map .str) ∧ g ≠ [] := by
  cases v with
  | list vs =>
    simp only [normalizeAndGroup]
    rcases normalizeScopes_ok vs l with ⟨⟨is, l'⟩, h, hl⟩ | ⟨⟨e, h⟩, hn⟩
    · simp only [h]
      cases is with
      | nil =>
        have : vs = [] := List.length_eq_zero_iff.1 hl.symm
        subst this
        simp only [reduceCtorEq, exists_false, false_iff]
        rintro ⟨g, hg, hne⟩
        simp at hg; exact hne hg
      | cons i is =>
        simp only [Except.ok.injEq, exists_eq', true_iff]
        have hg : ∀ (vs : List Lit) (l : List String) r, normalizeScopes vs l = .ok r →
            ∃ g : List String, vs = g.map .str := by
          intro vs
          induction vs with
          | nil => intro _ _ _; exact ⟨[], rfl⟩
          | cons v vs ih =>
            intro l r hh
            cases v with
            | str s =>
              simp only [normalizeScopes] at hh
              cases h2 : normalizeScopes vs (internInsert l s).2 with
              | error e => simp [h2] at hh
              | ok r2 => obtain ⟨g, rfl⟩ := ih _ _ h2; exact ⟨s :: g, rfl⟩
            | _ => simp [normalizeScopes] at hh
        obtain ⟨g, rfl⟩ := hg _ _ _ h
        refine ⟨g, rfl, ?_⟩
        rintro rfl; simp at hl
    · simp only [h, reduceCtorEq, exists_false, false_iff]
      rintro ⟨g, hg, _⟩
      simp at hg; exact hn ⟨g, hg⟩
  | _ => simp [normalizeAndGroup]

theorem normalizeGroups_ok : ∀ (vs : List Lit) (l : List String),
    (∃ r, normalizeGroups vs l = .ok r ∧ r.1.length = vs.length ∧
      ∃ gs : List (List String), vs = gs.map (fun g => .list (g.map .str)) ∧ ∀ g ∈ gs, g ≠ []) ∨
    (∃ e, normalizeGroups vs l = .error e) ∧
      ¬ ∃ gs : List (List String), vs = gs.map (fun g => .list (g.map .str)) ∧ ∀ g ∈ gs, g ≠ [] := by
  intro vs
  induction vs with
  | nil => intro l; left; exact ⟨_, rfl, rfl, [], rfl, by simp⟩
  | cons v vs ih =>
    intro l
    simp only [normalizeGroups]
    cases hv : normalizeAndGroup v l with
    | error e =>
      right
      refine ⟨⟨e, rfl⟩, ?_⟩
      rintro ⟨gs, hgs, hne⟩
      cases gs with
      | nil => simp at hgs
      | cons g gs =>
        simp at hgs
        have := (normalizeAndGroup_ok v l).2 ⟨g, hgs.1, hne g (by simp)⟩
        obtain ⟨r, hr⟩ := this
        rw [hv] at hr; simp at hr
    | ok r =>
      obtain ⟨g, l1⟩ := r
      obtain ⟨g', rfl, hg'⟩ := (normalizeAndGroup_ok v l).1 ⟨_, hv⟩
      rcases ih l1 with ⟨⟨gs, l2⟩, h1, h2, gs', rfl, h4⟩ | ⟨⟨e, h1⟩, hn⟩
      · left
        refine ⟨(g :: gs, l2), by simp [h1], by simpa using h2, g' :: gs', by simp, ?_⟩
        intro x hx
        rcases List.mem_cons.1 hx with rfl | hx
        · exact hg'
        · exact h4 x hx
      · right
        refine ⟨⟨e, by simp [h1]⟩, ?_⟩
        rintro ⟨gs, hgs, hne⟩
        cases gs with
        | nil => simp at hgs
        | cons a gs =>
          simp at hgs
          exact hn ⟨gs, hgs.2, fun x hx => hne x (by simp [hx])⟩

theorem extractRule_ok (a : Nat) (req : List Lit) (l : List String) :
    (∃ r, extractRule a req l = .ok r) ↔ WellFormed req := by
  rcases req with _ | ⟨d, _ | ⟨d', rest⟩⟩
  · simp [extractRule, WellFormed]
  · simp only [extractRule, WellFormed]
    have : (∃ r, normalizeScopesArg d l = .ok r) ↔
        ∃ gs, d = scopesLit gs ∧ gs ≠ [] ∧ ∀ g ∈ gs, g ≠ [] := by
      cases d with
      | list vs =>
        simp only [normalizeScopesArg, scopesLit]
        rcases normalizeGroups_ok vs l with ⟨⟨gs, l2⟩, h1, h2, gs', rfl, h4⟩ | ⟨⟨e, h1⟩, hn⟩
        · simp only [h1]
          cases gs with
          | nil =>
            have : gs' = [] := by simpa using h2.symm
            subst this
            simp only [reduceCtorEq, exists_false, false_iff]
            rintro ⟨gs, hg, hne, _⟩
            simp at hg; exact hne hg
          | cons g gs =>
            simp only [Except.ok.injEq, exists_eq', true_iff]
            refine ⟨gs', rfl, ?_, h4⟩
            rintro rfl; simp at h2
        · simp only [h1, reduceCtorEq, exists_false, false_iff]
          rintro ⟨gs, hg, _, hne⟩
          simp at hg; exact hn ⟨gs, hg, hne⟩
      | _ => simp [normalizeScopesArg, scopesLit]
    constructor
    · rintro ⟨r, hr⟩
      cases hn : normalizeScopesArg d l with
      | error e => simp [hn] at hr
      | ok r' =>
        obtain ⟨gs, rfl, h⟩ := this.1 ⟨_, hn⟩
        exact Or.inr ⟨gs, rfl, h⟩
    · rintro (h | ⟨gs, hg, h⟩)
      · simp at h
      · simp at hg
        obtain ⟨r, hr⟩ := this.2 ⟨gs, hg, h⟩
        exact ⟨_, by rw [hr]⟩
  · simp [extractRule, WellFormed]

theorem processFields_ok : ∀ (fs : List FieldDef) (l : List String),
    (∃ r, processFields fs l = .ok r) ↔ ∀ f ∈ fs, WellFormed f.requiresScopes := by
  intro fs
  induction fs with
  | nil => intro l; simp [processFields]
  | cons f fs ih =>
    intro l
    simp only [processFields, List.forall_mem_cons]
    rw [← extractRule_ok f.authenticated f.requiresScopes l]
    cases h : extractRule f.authenticated f.requiresScopes l with
    | error e => simp
    | ok r =>
      simp only [Except.ok.injEq, exists_eq', true_and]
      rw [← ih r.2]
      cases h2 : processFields fs r.2 <;> simp

theorem processTypes_ok : ∀ (ds : List TypeDef) (r : Rules),
    (∃ r', processTypes ds r = .ok r') ↔ ∀ d ∈ ds, d.ruled = true →
      WellFormed d.requiresScopes ∧ ∀ f ∈ d.fields, WellFormed f.requiresScopes := by
  intro ds
  induction ds with
  | nil => intro r; simp [processTypes]
  | cons d ds ih =>
    intro r
    have hone : (∃ r', processType d r = .ok r') ↔ (d.ruled = true →
        WellFormed d.requiresScopes ∧ ∀ f ∈ d.fields, WellFormed f.requiresScopes) := by
      simp only [processType]
      cases hr : d.ruled with
      | false => simp
      | true =>
        simp only [Bool.not_true, Bool.false_eq_true, if_false, true_implies]
        rw [← extractRule_ok d.authenticated d.requiresScopes r.scopes]
        cases h : extractRule d.authenticated d.requiresScopes r.scopes with
        | error e => simp
        | ok x =>
          simp only [Except.ok.injEq, exists_eq', true_and]
          rw [← processFields_ok d.fields x.2]
          cases h2 : processFields d.fields x.2 <;> simp
    simp only [processTypes, List.forall_mem_cons]
    rw [← hone]
    cases h : processType d r with
    | error e => simp
    | ok x => simp only [Except.ok.injEq, exists_eq', true_and]; exact ih x

/-- **C07.** The rules are accepted exactly when every `@requiresScopes` is well formed: a
malformed one makes the supergraph unusable instead of being ignored. -/
theorem C07_malformed_rules_refused (defs : List TypeDef) (S : Schema) :
    (∃ m, build defs S = .ok m) ↔ ∀ d ∈ defs, d.ruled = true →
      WellFormed d.requiresScopes ∧ ∀ f ∈ d.fields, WellFormed f.requiresScopes := by
  rw [← processTypes_ok defs {}]
  simp only [build]
  cases h : processTypes defs {} <;> simp

/-! ## The path trie -/

/-- Following `find_field`/`find_fragment_type_condition` segment by segment. -/
def Trie.follow (t : Trie) : Nat → List Seg → Option (Nat × Bool)
  | _, [] => none
  | i, [s] => t.find i s
  | i, s :: rest => (t.find i s).bind fun (j, _) => follow t j rest

/-- **C08.** Looking a path up in the trie finds a position exactly when the path is a prefix of
one of the paths the trie was built from, the flag says whether it is one of them, and the
position has children exactly when it is a proper prefix. -/
theorem C08_trie_faithful (ps : List (List Seg)) (q : List Seg) (hq : q ≠ []) :
    ((∃ x, (Trie.fromPaths ps).follow 0 q = some x) ↔ ∃ r ∈ ps, q <+: r) ∧
    (∀ j b, (Trie.fromPaths ps).follow 0 q = some (j, b) →
      (b = true ↔ q ∈ ps) ∧
      ((Trie.fromPaths ps).hasChildren j = true ↔ ∃ r ∈ ps, q <+: r ∧ r ≠ q)) := by
  have key : ∀ (q : List Seg) (i : Nat) (P : List Seg → Bool), q ≠ [] →
      View (Trie.fromPaths ps) i P →
      (((Trie.fromPaths ps).follow i q = none) ↔ ∀ r, P (q ++ r) = false) ∧
      (∀ j b, (Trie.fromPaths ps).follow i q = some (j, b) →
        b = P q ∧ View (Trie.fromPaths ps) j fun r => P (q ++ r)) := by
    intro q
    induction q with
    | nil => intro _ _ h; exact absurd rfl h
    | cons s q ih =>
      intro i P _ hv
      cases q with
      | nil =>
        simp only [Trie.follow]
        refine ⟨⟨fun h r => hv.find_none h r, fun h => ?_⟩, fun j b h => hv.find_some h⟩
        cases hf : (Trie.fromPaths ps).find i s with
        | none => rfl
        | some x =>
          exfalso
          have hsome : ((Trie.fromPaths ps).walk i [s]).isSome := by
            simp only [Trie.find] at hf
            cases hc : (Trie.fromPaths ps).child i s with
            | none => simp [hc] at hf
            | some j => simp [Trie.walk, hc]
          obtain ⟨r, hr⟩ := (hv.known [s] (by simp)).1 hsome
          rw [h r] at hr; simp at hr
      | cons s' q =>
        simp only [Trie.follow]
        cases hf : (Trie.fromPaths ps).find i s with
        | none => simpa using fun r => hv.find_none hf _
        | some x =>
          obtain ⟨j, b⟩ := x
          simp only [Option.bind_some]
          exact ih j _ (by simp) (hv.find_some hf).2
  obtain ⟨h1, h2⟩ := key q 0 _ hq (View.root ps)
  constructor
  · rw [← not_iff_not]
    rw [show (¬ ∃ x, (Trie.fromPaths ps).follow 0 q = some x) ↔
      (Trie.fromPaths ps).follow 0 q = none by
        cases (Trie.fromPaths ps).follow 0 q <;> simp]
    rw [h1]
    constructor
    · rintro h ⟨r, hr, s, rfl⟩
      have := h s; simp [hr] at this
    · intro h r
      cases hc : ps.contains (q ++ r) with
      | false => rfl
      | true => exact absurd ⟨_, by simpa using hc, r, rfl⟩ h
  · intro j b hf
    obtain ⟨rfl, hv⟩ := h2 j b hf
    refine ⟨by simp, ?_⟩
    constructor
    · intro hc
      refine Classical.byContradiction fun hn => ?_
      simp only [Trie.hasChildren] at hc
      have hno : ∀ s, (Trie.fromPaths ps).child j s = none := by
        intro s
        cases hch : (Trie.fromPaths ps).child j s with
        | none => rfl
        | some k =>
          obtain ⟨r, hr⟩ := (hv.known [s] (by simp)).1 (by simp [Trie.walk, hch])
          refine absurd ⟨q ++ ([s] ++ r), by simpa using hr, ⟨_, rfl⟩, ?_⟩ hn
          simp
      cases ht : (Trie.fromPaths ps)[j]? with
      | none => simp [ht] at hc
      | some n =>
        simp [ht] at hc
        cases hch : n.children with
        | nil => exact hc hch
        | cons a rest =>
          have := hno a.1
          simp [Trie.child, ht, hch, List.lookup] at this
    · rintro ⟨r, hr, ⟨s, rfl⟩, hne⟩
      cases hc : (Trie.fromPaths ps).hasChildren j with
      | true => rfl
      | false =>
        cases s with
        | nil => simp at hne
        | cons x s => have := hv.hasChildren hc x s; simp [hr] at this

/-! ## A concrete supergraph

`Query.me: User`, `User.email: String` needs `read:email`, `User.id: ID!` needs a token,
`User.name` is open. -/

namespace Example

def defs : List TypeDef :=
  [{ name := "Query", fields := [{ name := "me" }, { name := "hello" }] },
   { name := "User", fields := [{ name := "name" },
      { name := "email", requiresScopes := [scopesLit [["read:email"], ["admin", "pii"]]] },
      { name := "id", authenticated := 1 }] },
   { name := "String" }, { name := "ID" }]

def S : Schema where
  typeFields := [("Query", [("me", ⟨"User", .leaf false⟩), ("hello", ⟨"String", .leaf false⟩)]),
    ("User", [("name", ⟨"String", .leaf false⟩), ("email", ⟨"String", .leaf false⟩),
      ("id", ⟨"ID", .leaf true⟩)])]
  possible := []

/-- `query ($n: Boolean, $u: Boolean) { hello me { name @skip(if: $n) mail: email @skip(if: $u) } }` -/
def op : Operation where
  sels := [.field { name := "hello" } [],
    .field { name := "me" } [.field { name := "name", skipIf := some "n" } [],
      .field { name := "email", «alias» := some "mail", skipIf := some "u" } []]]
  varDefs := some ["n", "u"]

/-- Asking for the non-null `id` as well. -/
def op2 : Operation where
  sels := [.field { name := "hello" } [],
    .field { name := "me" } [.field { name := "name" } [], .field { name := "id" } []]]
  varDefs := none

example : DistinctNames defs := ⟨by decide, by decide⟩
example : ∃ m, build defs S = .ok m := ⟨_, rfl⟩
example : ¬ ∃ m, build [{ name := "T", requiresScopes := [.str "a"] }] S = .ok m := by
  rintro ⟨m, h⟩; simp [build, processTypes, processType, extractRule, normalizeScopesArg] at h

/-- What the example supergraph does with an operation. -/
def run (jwt : Jwt) (rejectMode : Bool) (op : Operation) :
    Option (Option (Operation × List (List String))) :=
  match build defs S with
  | .error _ => none
  | .ok m => (enforce true m S [] jwt rejectMode "Query" op).toOption

def m : Metadata where
  typeRules := []
  fieldRules := [("User", [("email", .requiresScopes [[0], [1, 2]]), ("id", .authenticated)])]
  scopes := ["read:email", "admin", "pii"]
  hasAnyAuth := [("Query", true), ("User", true), ("String", false), ("ID", false)]

theorem built : build defs S = .ok m := by rfl

theorem lookup_step {α β : Type} [BEq α] [LawfulBEq α] [DecidableEq α] (a k : α) (v : β)
    (l : List (α × β)) : List.lookup a ((k, v) :: l) = if a = k then some v else l.lookup a := by
  by_cases h : a = k
  · simp [h, List.lookup]
  · have : (a == k) = false := by simpa using h
    simp [List.lookup, this, h]

local macro "eval" : tactic => `(tactic| simp (decide := true) [m, S, op, op2,
    internGet, List.findIdx?, List.findIdx?.go,
    lookup_step, List.lookup_nil, enforce, apply, Metadata.isEmpty, userOf, filter, visit, isIgnored, Schema.field,
    decide?, authVisitor, parentHasAuth, typeAuthorized, fieldAuthorized, ruleSatisfied,
    fieldNames, FieldInfo.key, Nullability.isNonNull, rebuildOperation, rebuild, rebuildItems,
    Trie.fromPaths, Trie.empty, Trie.addFrom, Trie.addChild, Trie.child, Trie.mark,
    Trie.hasChildren, Trie.find, selVars, fieldVars, Except.toOption])

/-- Without the scope, `mail` goes, is reported, and `$u` is no longer declared. -/
example : run (some ["pii"]) false op = some (some (
    { sels := [.field { name := "hello" } [],
        .field { name := "me" } [.field { name := "name", skipIf := some "n" } []]],
      varDefs := some ["n"] }, [["me", "mail"]])) := by
  simp only [run, built]; eval

/-- With either group of scopes, nothing changes. -/
example : run (some ["pii", "admin"]) false op = some (some (op, [])) := by
  simp only [run, built]; eval
example : run (some ["read:email"]) true op = some (some (op, [])) := by
  simp only [run, built]; eval

/-- In reject mode the request is refused. -/
example : run none true op = some none := by
  simp only [run, built]; eval

/-- A denied non-null field takes its parent along. -/
example : run none false op2 = some (some (
    { sels := [.field { name := "hello" } []], varDefs := none }, [["me", "id"]])) := by
  simp only [run, built]; eval

/-- The fields that remain are really selected (`Requests` is inhabited). -/
example : Requests S ([] : Vars) "Query" op.sels "User" "email" "String" :=
  .inField (f := { name := "me" }) (List.mem_cons_of_mem _ (List.mem_cons_self ..))
    ⟨by simp, by simp⟩ (by decide) rfl
    (.here (vars := []) (info := ⟨"String", .leaf false⟩)
      (f := { name := "email", «alias» := some "mail", skipIf := some "u" })
      (List.mem_cons_of_mem _ (List.mem_cons_self ..)) ⟨by simp [show ([] : Vars).lookup "u" = none from rfl], by simp⟩
      (by decide) rfl)

/-- … and is what the caller without scopes may not select. -/
example : ¬ Allowed defs (some ["pii"]) "User" "email" "String" := by
  rintro ⟨_, h, _⟩
  have := h _ (List.mem_cons_of_mem _ (List.mem_cons_self ..)) rfl rfl _
    (List.mem_cons_of_mem _ (List.mem_cons_self ..)) rfl
  obtain ⟨ss, gs, h1, h2, g, hg, hall⟩ := this
  cases scopesLit_inj h2
  simp at h1 hg; subst h1
  rcases hg with rfl | rfl <;> simp at hall

example : (Trie.fromPaths [[.field "a", .fragment "T", .field "b"], [.field "a"]]).follow 0
    [.field "a"] = some (1, true) := by decide
example : (Trie.fromPaths [[.field "a", .fragment "T", .field "b"], [.field "a"]]).follow 0
    [.field "a", .fragment "T"] = some (2, false) := by decide

end Example

end Verif.Auth
