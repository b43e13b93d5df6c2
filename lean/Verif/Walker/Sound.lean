import Verif.Walker.Ways

/-!
# The search only finds ways
-/

namespace Verif.Walker

open Verif.Graph
open Verif.Overrides (Context)

theorem mem_edgesFrom {G : Moves} {n : Nat} {e : Edge} (h : e ∈ G.edgesFrom n) :
    e ∈ G.edges ∧ e.src = n := by
  simpa [Moves.edgesFrom] using h

theorem mem_edgesFrom_of {G : Moves} {e : Edge} (h : e ∈ G.edges) : e ∈ G.edgesFrom e.src := by
  simpa [Moves.edgesFrom] using h

theorem collect_mem {α β : Type} {f : α → Except Err (Option β)} : ∀ {l rs}, collect f l = .ok rs →
    ∀ r ∈ rs, ∃ x ∈ l, f x = .ok (some r) := by
  intro l
  induction l with
  | nil => intro rs h r hr; simp only [collect, Except.ok.injEq] at h; subst h; simp at hr
  | cons a l ih =>
    intro rs h r hr
    simp only [collect] at h
    split at h
    · simp at h
    next o ho =>
      split at h
      · simp at h
      next l' hl =>
        simp only [Except.ok.injEq] at h; subst h
        rcases List.mem_append.mp hr with h1 | h1
        · cases o with
          | none => simp at h1
          | some b => simp at h1; subst h1; exact ⟨a, by simp, ho⟩
        · obtain ⟨x, hx, h2⟩ := ih hl r h1
          exact ⟨x, by simp [hx], h2⟩

theorem collect_has {α β : Type} {f : α → Except Err (Option β)} : ∀ {l rs}, collect f l = .ok rs →
    ∀ x ∈ l, ∃ o, f x = .ok o ∧ ∀ r, o = some r → r ∈ rs := by
  intro l
  induction l with
  | nil => intro rs h r hr; simp at hr
  | cons a l ih =>
    intro rs h x hx
    simp only [collect] at h
    split at h
    · simp at h
    next o ho =>
      split at h
      · simp at h
      next l' hl =>
        simp only [Except.ok.injEq] at h; subst h
        rcases List.mem_cons.mp hx with h1 | h1
        · subst h1; exact ⟨o, ho, fun r hr => by subst hr; simp⟩
        · obtain ⟨o', h2, h3⟩ := ih hl x h1
          exact ⟨o', h2, fun r hr => List.mem_append_right _ (h3 r hr)⟩

theorem takes_of_leadsTo {t : Target} {e : Edge} (h : leadsTo t e = true) : Takes t.step e.weight := by
  unfold leadsTo at h
  split at h
  next hw => rw [hw]; exact .field _ _ (by simpa using h)
  next hw => rw [hw]; exact .reentry _ _ _ _ (by simpa using h)
  next hw => rw [hw]; have h := eq_of_beq h
             subst h; exact .abstract _ _
  next hw => rw [hw]; have h := eq_of_beq h
             subst h; exact .ioType _ _ _
  · simp at h

theorem hops_of_isHop {e : Edge} (h : isHop e = true) : Hops e.weight := by
  unfold isHop at h
  split at h
  next hw => rw [hw]; exact .entity _ _ _
  next hw => rw [hw]; exact .ioType _ _
  · simp at h

/-- The last step of the path is the one to the target. -/
def LastBy (env : Env) (t : Target) (q : Path) : Prop :=
  ∃ p e rs, e ∈ env.G.edges ∧ leadsTo t e = true ∧ q = advance env.G p e rs t

theorem tryAdvance_goes {env : Env} {sat : Sat} (hsat : GoodSat env sat) {p : Path} (hp : p.WF)
    {t : Target} {e : Edge} (he : e ∈ env.G.edgesFrom p.tail) (ht : Takes t.step e.weight) {q : Path}
    (h : tryAdvance env.G sat p t e = .ok (some q)) :
    Goes env p [t.step] q ∧ ∃ rs, q = advance env.G p e rs t := by
  simp only [tryAdvance] at h
  split at h
  · simp at h
  · simp at h
  next rs hs =>
    simp only [Except.ok.injEq, Option.some.injEq] at h
    obtain ⟨hm, hsrc⟩ := mem_edgesFrom he
    obtain ⟨ha, hr⟩ := hsat e p _ rs hm hsrc hp hs
    subst h
    exact ⟨advance_goes hm hsrc ha hr ht, rs, rfl⟩

theorem findDirect_goes {env : Env} {sat : Sat} (hsat : GoodSat env sat) {p : Path} (hp : p.WF)
    {t : Target} {ds : List Path} (h : findDirect env.G sat p t = .ok ds) :
    ∀ q ∈ ds, Goes env p [t.step] q ∧ LastBy env t q := by
  simp only [findDirect] at h
  split at h
  · intro q hq
    obtain ⟨e, he, h1⟩ := collect_mem h q hq
    obtain ⟨he, hl⟩ := List.mem_filter.mp he
    obtain ⟨h2, rs, h3⟩ := tryAdvance_goes hsat hp he (takes_of_leadsTo hl) h1
    exact ⟨h2, p, e, rs, (mem_edgesFrom he).1, hl, h3⟩
  · simp only [Except.ok.injEq] at h; subst h; simp

/-! ## The tracker -/

theorem mem_addBest {g : String} {p q : Path} : ∀ {t : Tracker}, q ∈ (addBest g p t).best →
    q = p ∨ q ∈ t.best
  | [], h => by simp [addBest, Tracker.best] at h; exact .inl h
  | (k, c, ps) :: r, h => by
    simp only [addBest] at h
    split at h
    · simp only [Tracker.best, List.flatMap_cons, List.mem_append, List.mem_singleton] at h ⊢
      grind
    · split at h
      · split at h
        · simp only [Tracker.best, List.flatMap_cons, List.mem_append, List.mem_singleton] at h ⊢
          grind
        · split at h
          · simp only [Tracker.best, List.flatMap_cons, List.mem_append, List.mem_singleton] at h ⊢
            grind
          · exact .inr h
      · simp only [Tracker.best, List.flatMap_cons, List.mem_append] at h ⊢
        rcases h with h | h
        · exact .inr (.inl h)
        · rcases mem_addBest (t := r) h with h | h
          · exact .inl h
          · exact .inr (.inr h)

theorem track_mem {G : Moves} {p : Path} {t t' : Tracker} (h : track G p t = .ok t') :
    ∀ q ∈ t'.best, q = p ∨ q ∈ t.best := by
  simp only [track] at h
  split at h
  · simp at h
  · split at h
    · simp at h
    · simp only [Except.ok.injEq] at h; subst h; exact fun q hq => mem_addBest hq

theorem trackAll_mem {G : Moves} : ∀ {ps : List Path} {t t' : Tracker}, trackAll G ps t = .ok t' →
    ∀ q ∈ t'.best, q ∈ ps ∨ q ∈ t.best := by
  intro ps
  induction ps with
  | nil => intro t t' h q hq; simp only [trackAll, Except.ok.injEq] at h; subst h; exact .inr hq
  | cons p r ih =>
    intro t t' h q hq
    simp only [trackAll] at h
    split at h
    · simp at h
    next t1 h1 =>
      rcases ih h q hq with h2 | h2
      · exact .inl (by simp [h2])
      · rcases track_mem h1 q h2 with h3 | h3
        · exact .inl (by simp [h3])
        · exact .inr h3

/-! ## Other subgraphs -/

/-- What is known about an entry of the queue. -/
def GoodItem (env : Env) (p : Path) (st : Step) (it : Item) : Prop :=
  it.path.WF ∧ GoesNear env p st it.path

theorem expand_goes {env : Env} {sat : Sat} (hsat : GoodSat env sat) {p : Path} {cur source : String}
    {t : Target} {it : Item} (hit : GoodItem env p t.step it) :
    ∀ {es : List Edge} {tr tr' : Tracker} {q q' : List Item},
    expand env.G env.S sat cur source t it es tr q = .ok (tr', q') →
    (∀ e ∈ es, e ∈ env.G.edgesFrom it.path.tail ∧ isHop e = true) →
    (∀ x ∈ tr.best, Goes env p [t.step] x ∧ LastBy env t x) → (∀ x ∈ q, GoodItem env p t.step x) →
    (∀ x ∈ tr'.best, Goes env p [t.step] x ∧ LastBy env t x) ∧ (∀ x ∈ q', GoodItem env p t.step x) := by
  intro es
  induction es with
  | nil =>
    intro tr tr' q q' h _ h1 h2
    simp only [expand, Except.ok.injEq, Prod.mk.injEq] at h
    obtain ⟨rfl, rfl⟩ := h
    exact ⟨h1, h2⟩
  | cons e es ih =>
    intro tr tr' q q' h hes h1 h2
    have hes' : ∀ e ∈ es, e ∈ env.G.edgesFrom it.path.tail ∧ isHop e = true :=
      fun x hx => hes x (by simp [hx])
    obtain ⟨he, hh⟩ := hes e (by simp)
    simp only [expand] at h
    split at h
    · simp at h
    · split at h
      · simp at h
      · split at h
        · exact ih h hes' h1 h2
        · split at h
          · simp at h
          · exact ih h hes' h1 h2
          next rs hs =>
            obtain ⟨hm, hsrc⟩ := mem_edgesFrom he
            obtain ⟨ha, hr⟩ := hsat e it.path _ rs hm hsrc hit.1 hs
            have hn := advance_near hit.2 hm hsrc ha hr (hops_of_isHop hh)
            have hw := advance_wf env.G it.path e rs t
            split at h
            · simp at h
            · refine ih h hes' h1 ?_
              intro x hx
              rcases List.mem_cons.mp hx with rfl | hx
              · exact ⟨hw, hn⟩
              · exact h2 x hx
            next d ds hd =>
              split at h
              · simp at h
              next tr1 ht =>
                refine ih h hes' ?_ h2
                intro x hx
                rcases trackAll_mem ht x hx with hx | hx
                · have := findDirect_goes hsat hw hd x hx
                  exact ⟨hn x this.1, this.2⟩
                · exact h1 x hx

theorem indirectLoop_goes {env : Env} {sat : Sat} (hsat : GoodSat env sat) {p : Path}
    {cur source : String} {t : Target} : ∀ {n : Nat} {q : List Item} {seen : List Nat} {tr tr' : Tracker},
    indirectLoop env.G env.S sat cur source t n q seen tr = .ok tr' →
    (∀ x ∈ tr.best, Goes env p [t.step] x ∧ LastBy env t x) → (∀ x ∈ q, GoodItem env p t.step x) →
    ∀ x ∈ tr'.best, Goes env p [t.step] x ∧ LastBy env t x := by
  intro n
  induction n with
  | zero => intro q seen tr tr' h; simp [indirectLoop] at h
  | succ n ih =>
    intro q seen tr tr' h h1 h2
    cases q with
    | nil => simp only [indirectLoop, Except.ok.injEq] at h; subst h; exact h1
    | cons it q =>
      simp only [indirectLoop] at h
      split at h
      · exact ih h h1 (fun x hx => h2 x (by simp [hx]))
      · split at h
        · simp at h
        next tr1 q1 he =>
          obtain ⟨h3, h4⟩ := expand_goes hsat (h2 it (by simp)) he
            (fun e he => by simpa using he) h1 (fun x hx => h2 x (by simp [hx]))
          exact ih h h3 h4

theorem findIndirect_goes {env : Env} {sat : Sat} (hsat : GoodSat env sat) {p : Path} (hp : p.WF)
    {t : Target} {ex : Excl} {is : List Path} (h : findIndirect env.G env.S sat p t ex = .ok is) :
    ∀ q ∈ is, Goes env p [t.step] q ∧ LastBy env t q := by
  simp only [findIndirect] at h
  split at h
  · simp at h
  · split at h
    · simp at h
    · split at h
      · split at h
        · simp at h
        next tr htr =>
          simp only [Except.ok.injEq] at h; subst h
          refine indirectLoop_goes hsat htr (by simp [Tracker.best]) ?_
          intro x hx
          simp only [List.mem_singleton] at hx; subst hx
          exact ⟨hp, GoesNear.refl env p _⟩
      · simp only [Except.ok.injEq] at h; subst h; simp

/-! ## Requirements -/

theorem eachPath_mem {f : Path → Except Err (List Path × List Path)} : ∀ {ps ds is},
    eachPath f ps = .ok (ds, is) → ∀ q ∈ ds ++ is, ∃ p ∈ ps, ∃ d i, f p = .ok (d, i) ∧ q ∈ d ++ i := by
  intro ps
  induction ps with
  | nil =>
    intro ds is h q hq
    simp only [eachPath, Except.ok.injEq, Prod.mk.injEq] at h
    obtain ⟨rfl, rfl⟩ := h
    simp at hq
  | cons p r ih =>
    intro ds is h q hq
    simp only [eachPath] at h
    split at h
    · simp at h
    next d i hf =>
      split at h
      · simp at h
      next d' i' hr =>
        simp only [Except.ok.injEq, Prod.mk.injEq] at h
        obtain ⟨rfl, rfl⟩ := h
        by_cases hx : q ∈ d ++ i
        · exact ⟨p, by simp, d, i, hf, hx⟩
        · obtain ⟨x, hx1, hx2⟩ := ih hr q (by
            simp only [List.mem_append] at hq hx ⊢; grind)
          exact ⟨x, by simp [hx1], hx2⟩

theorem validateField_goes {env : Env} {sat : Sat} (hsat : GoodSat env sat) {ex : Excl} {direct : Bool}
    {f : FieldInfo} {ss : List Sel} {ps next : List Path} (hps : ∀ p ∈ ps, p.WF)
    (h : validateField env.G env.S sat ex direct f ss ps = .ok (some next)) :
    next ≠ [] ∧ ∀ q ∈ next, ∃ p ∈ ps, Goes env p [.field f] q := by
  simp only [validateField] at h
  split at h
  · simp at h
  · split at h
    · simp at h
    next ds is he =>
      split at h
      · simp at h
      next hne =>
        simp only [Except.ok.injEq, Option.some.injEq] at h; subst h
        refine ⟨by simpa using hne, fun q hq => ?_⟩
        obtain ⟨p, hp, d, i, hf, hq⟩ := eachPath_mem he q hq
        refine ⟨p, hp, ?_⟩
        simp only [fieldFrom] at hf
        split at hf
        · simp at hf
        next d' hd =>
          have hd' := findDirect_goes hsat (hps p hp) hd
          split at hf
          · split at hf
            · simp at hf
            next i' hi =>
              simp only [Except.ok.injEq, Prod.mk.injEq] at hf
              obtain ⟨rfl, rfl⟩ := hf
              rcases List.mem_append.mp hq with hq | hq
              · exact (hd' q hq).1
              · exact (findIndirect_goes hsat (hps p hp) hi q hq).1
          · simp only [Except.ok.injEq, Prod.mk.injEq] at hf
            obtain ⟨rfl, rfl⟩ := hf
            exact (hd' q (by simpa using hq)).1

theorem isA_of_typeMatches {S : Super} {a b : String} (h : typeMatches S a b = true) : IsA S a b := by
  simpa [typeMatches, IsA] using h

theorem validateFrag_goes {env : Env} {sat : Sat} (hsat : GoodSat env sat) {ex : Excl}
    {type : String} {ps next : List Path} (hps : ∀ p ∈ ps, p.WF)
    (h : validateFrag env.G env.S sat ex type ps = .ok (some next)) :
    next ≠ [] ∧ ∀ q ∈ next, ∃ p ∈ ps, Goes env p [.on type (none, none)] q := by
  simp only [validateFrag] at h
  split at h
  · simp at h
  next ds is he =>
    split at h
    · simp at h
    next hne =>
      simp only [Except.ok.injEq, Option.some.injEq] at h; subst h
      refine ⟨by simpa using hne, fun q hq => ?_⟩
      obtain ⟨p, hp, d, i, hf, hq⟩ := eachPath_mem he q hq
      refine ⟨p, hp, ?_⟩
      simp only [fragFrom] at hf
      split at hf
      · simp at hf
      next node hnode =>
        split at hf
        · simp at hf
        next d' hd =>
          split at hf
          · simp at hf
          next i' hi =>
            simp only [Except.ok.injEq, Prod.mk.injEq] at hf
            obtain ⟨rfl, rfl⟩ := hf
            rcases List.mem_append.mp hq with hq | hq
            · split at hd
              next hm =>
                simp only [Except.ok.injEq] at hd; subst hd
                simp only [List.mem_singleton] at hq; subst hq
                exact ⟨rfl, [], by simp, .same _ _ node _ _ _ _ _ hnode (isA_of_typeMatches hm) (.done _ _)⟩
              · exact (findDirect_goes hsat (hps p hp) hd q hq).1
            · exact (findIndirect_goes hsat (hps p hp) hi q hq).1

/-! ## Best paths -/

theorem bestStep_ne {acc : Nat × List Path} {p : Path} (h : acc.2 ≠ []) : (bestStep acc p).2 ≠ [] := by
  unfold bestStep
  split
  · simp
  · split
    · simp
    · split
      · simp
      · exact h

theorem bestFold_ne : ∀ (ps : List Path) (acc : Nat × List Path), acc.2 ≠ [] →
    (ps.foldl bestStep acc).2 ≠ []
  | [], _, h => h
  | p :: ps, acc, h => bestFold_ne ps (bestStep acc p) (bestStep_ne h)

theorem findBest_ne {ps : List Path} (h : ps ≠ []) : findBest ps ≠ [] := by
  cases ps with
  | nil => exact absurd rfl h
  | cons p ps => exact bestFold_ne ps _ (by simp [bestStep])

theorem bestFold_mem : ∀ (ps : List Path) (acc : Nat × List Path),
    ∀ q ∈ (ps.foldl bestStep acc).2, q ∈ ps ∨ q ∈ acc.2
  | [], _, q, h => .inr h
  | p :: ps, acc, q, h => by
    rcases bestFold_mem ps (bestStep acc p) q h with h | h
    · exact .inl (by simp [h])
    · unfold bestStep at h
      split at h
      · simp at h; exact .inl (by simp [h])
      · split at h
        · simp at h; rcases h with h | h
          · exact .inr h
          · exact .inl (by simp [h])
        · split at h
          · simp at h; exact .inl (by simp [h])
          · exact .inr h

theorem findBest_mem {ps : List Path} : ∀ q ∈ findBest ps, q ∈ ps := by
  intro q h
  rcases bestFold_mem ps _ q h with h | h
  · exact h
  · simp at h

theorem bestFold_cost : ∀ (ps : List Path) (acc : Nat × List Path), (∀ q ∈ acc.2, q.cost = acc.1) →
    ∀ q ∈ (ps.foldl bestStep acc).2, q.cost = (ps.foldl bestStep acc).1
  | [], _, h => h
  | p :: ps, acc, h => by
    refine bestFold_cost ps (bestStep acc p) ?_
    unfold bestStep
    split
    · simp
    · split
      next h1 => intro q hq; simp at hq; rcases hq with hq | hq
                 · exact h q hq
                 · subst hq; exact h1.symm
      · split
        · simp
        · exact h

theorem findBest_cost {ps : List Path} : ∀ p ∈ findBest ps, ∀ q ∈ findBest ps, p.cost = q.cost := by
  intro p hp q hq
  rw [bestFold_cost ps (0, []) (by simp) p hp, bestFold_cost ps (0, []) (by simp) q hq]

/-! ## Meeting the requirements of an edge -/

/-- The paths of a need have all gone along a trail, and what is left of it is among the trails wanted. -/
def NeedOk (env : Env) (p : Path) (A : List Trail) (nd : Need) (tr : Trail) : Prop :=
  (∀ x ∈ nd.paths, Goes env p tr x) ∧ ∀ t ∈ reqTrails nd.sel, tr ++ t ∈ A

theorem mem_reqTrailsAll {t : Trail} : ∀ {ss : List Sel}, t ∈ reqTrailsAll ss → ∃ x ∈ ss, t ∈ reqTrails x
  | [], h => by simp [reqTrailsAll] at h
  | x :: r, h => by
    simp only [reqTrailsAll, List.mem_append] at h
    rcases h with h | h
    · exact ⟨x, by simp, h⟩
    · obtain ⟨y, hy, h⟩ := mem_reqTrailsAll h
      exact ⟨y, by simp [hy], h⟩

theorem mem_reqTrailsAll_of {t : Trail} {x : Sel} : ∀ {ss : List Sel}, x ∈ ss → t ∈ reqTrails x →
    t ∈ reqTrailsAll ss
  | [], h, _ => by simp at h
  | y :: r, h, ht => by
    simp only [reqTrailsAll, List.mem_append]
    rcases List.mem_cons.mp h with h | h
    · subst h; exact .inl ht
    · exact .inr (mem_reqTrailsAll_of h ht)

theorem reqLoop_meets {env : Env} {sat : Sat} (hsat : GoodSat env sat) {ex : Excl} {direct : Bool}
    {p : Path} (hp : p.WF) (A : List Trail) : ∀ {n : Nat} {q : List Need} {acc rs : List Path},
    reqLoop env.G env.S sat ex direct p n q acc = .ok (some rs) →
    (∀ nd ∈ q, ∃ tr, NeedOk env p A nd tr) →
    (∀ a ∈ acc, ∃ t ∈ A, ∃ x, Goes env p t x ∧ a = continuation p x) →
    (∀ t ∈ A, (∃ x, Goes env p t x ∧ continuation p x ∈ acc) ∨
      ∃ nd ∈ q, ∃ tr t', NeedOk env p A nd tr ∧ t' ∈ reqTrails nd.sel ∧ t = tr ++ t') →
    (∀ a ∈ rs, ∃ t ∈ A, ∃ x, Goes env p t x ∧ a = continuation p x) ∧
    (∀ t ∈ A, ∃ x, Goes env p t x ∧ continuation p x ∈ rs) := by
  intro n
  induction n with
  | zero => intro q acc rs h; simp [reqLoop] at h
  | succ n ih =>
    intro q acc rs h h1 h2 h3
    cases q with
    | nil =>
      simp only [reqLoop, Except.ok.injEq, Option.some.injEq] at h; subst h
      refine ⟨h2, fun t ht => ?_⟩
      rcases h3 t ht with h | ⟨nd, hnd, _⟩
      · exact h
      · simp at hnd
    | cons nd q =>
      obtain ⟨paths, sel⟩ := nd
      have hwf : ∀ x ∈ paths, x.WF := by
        obtain ⟨tr, hk, _⟩ := h1 ⟨paths, sel⟩ (by simp)
        exact fun x hx => (hk x hx).wf hp
      have hq : ∀ nd ∈ q, ∃ tr, NeedOk env p A nd tr := fun nd hnd => h1 nd (by simp [hnd])
      simp only [reqLoop] at h
      cases sel with
      | spread s =>
        refine ih h hq h2 ?_
        intro t ht
        rcases h3 t ht with h | ⟨nd, hnd, tr, t', hk, ht', rfl⟩
        · exact .inl h
        · rcases List.mem_cons.mp hnd with rfl | hnd
          · simp [reqTrails] at ht'
          · exact .inr ⟨nd, hnd, tr, t', hk, ht', rfl⟩
      | frag g ss =>
        simp only at h
        split at h
        · simp at h
        · simp at h
        next next hv =>
          obtain ⟨hne, hgo⟩ := validateFrag_goes hsat hwf hv
          have step : ∀ tr, NeedOk env p A ⟨paths, .frag g ss⟩ tr → ∀ y ∈ ss,
              NeedOk env p A ⟨next, y⟩ (tr ++ [.on g.cond (none, none)]) := by
            intro tr hk y hy
            refine ⟨fun x hx => ?_, fun t ht => ?_⟩
            · obtain ⟨z, hz, hg⟩ := hgo x hx
              exact (hk.1 z hz).trans hg
            · have := hk.2 (.on g.cond (none, none) :: t) (by
                simp only [reqTrails, List.mem_map]
                exact ⟨t, mem_reqTrailsAll_of hy ht, rfl⟩)
              simpa using this
          refine ih h ?_ h2 ?_
          · intro nd hnd
            rcases List.mem_append.mp hnd with hnd | hnd
            · exact hq nd hnd
            · simp only [List.mem_reverse, List.mem_map] at hnd
              obtain ⟨y, hy, rfl⟩ := hnd
              obtain ⟨tr, hk⟩ := h1 ⟨paths, .frag g ss⟩ (by simp)
              exact ⟨_, step tr hk y hy⟩
          · intro t ht
            rcases h3 t ht with h | ⟨nd, hnd, tr, t', hk, ht', rfl⟩
            · exact .inl h
            · rcases List.mem_cons.mp hnd with rfl | hnd
              · simp only [reqTrails, List.mem_map] at ht'
                obtain ⟨t'', ht'', rfl⟩ := ht'
                obtain ⟨y, hy, hty⟩ := mem_reqTrailsAll ht''
                refine .inr ⟨⟨next, y⟩, ?_, _, t'', step tr hk y hy, hty, by simp⟩
                simp only [List.mem_append, List.mem_reverse, List.mem_map]
                exact .inr ⟨y, hy, rfl⟩
              · exact .inr ⟨nd, by simp [hnd], tr, t', hk, ht', rfl⟩
      | field f ss =>
        simp only at h
        split at h
        · simp at h
        · simp at h
        next next hv =>
          obtain ⟨hne, hgo⟩ := validateField_goes hsat hwf hv
          have step : ∀ tr, NeedOk env p A ⟨paths, .field f ss⟩ tr → ∀ y ∈ ss,
              NeedOk env p A ⟨next, y⟩ (tr ++ [.field f]) := by
            intro tr hk y hy
            refine ⟨fun x hx => ?_, fun t ht => ?_⟩
            · obtain ⟨z, hz, hg⟩ := hgo x hx
              exact (hk.1 z hz).trans hg
            · have := hk.2 (.field f :: t) (by
                cases ss with
                | nil => simp at hy
                | cons z r =>
                  simp only [reqTrails, List.mem_map]
                  exact ⟨t, mem_reqTrailsAll_of hy ht, rfl⟩)
              simpa using this
          have leaf : ∀ tr, NeedOk env p A ⟨paths, .field f ss⟩ tr → ss = [] →
              tr ++ [.field f] ∈ A ∧ ∀ x ∈ next, Goes env p (tr ++ [.field f]) x := by
            intro tr hk hs
            refine ⟨hk.2 [.field f] (by subst hs; simp [reqTrails]), fun x hx => ?_⟩
            obtain ⟨z, hz, hg⟩ := hgo x hx
            exact (hk.1 z hz).trans hg
          refine ih h ?_ ?_ ?_
          · intro nd hnd
            rcases List.mem_append.mp hnd with hnd | hnd
            · exact hq nd hnd
            · simp only [List.mem_reverse, List.mem_map] at hnd
              obtain ⟨y, hy, rfl⟩ := hnd
              obtain ⟨tr, hk⟩ := h1 ⟨paths, .field f ss⟩ (by simp)
              exact ⟨_, step tr hk y hy⟩
          · intro a ha
            split at ha
            next hs =>
              rcases List.mem_append.mp ha with ha | ha
              · exact h2 a ha
              · obtain ⟨x, hx, rfl⟩ := List.mem_map.mp ha
                obtain ⟨tr, hk⟩ := h1 ⟨paths, .field f ss⟩ (by simp)
                obtain ⟨l1, l2⟩ := leaf tr hk (by simpa using hs)
                exact ⟨_, l1, x, l2 x (findBest_mem x hx), rfl⟩
            · exact h2 a ha
          · intro t ht
            rcases h3 t ht with ⟨x, hx1, hx2⟩ | ⟨nd, hnd, tr, t', hk, ht', rfl⟩
            · refine .inl ⟨x, hx1, ?_⟩
              split
              · exact List.mem_append_left _ hx2
              · exact hx2
            · rcases List.mem_cons.mp hnd with rfl | hnd
              · cases ss with
                | nil =>
                  simp only [reqTrails, List.mem_singleton] at ht'; subst ht'
                  obtain ⟨_, l2⟩ := leaf tr hk rfl
                  cases hb : findBest next with
                  | nil => exact absurd hb (findBest_ne hne)
                  | cons b bs =>
                    refine .inl ⟨b, l2 b (findBest_mem b (by simp [hb])), ?_⟩
                    simp
                | cons z r =>
                  simp only [reqTrails, List.mem_map] at ht'
                  obtain ⟨t'', ht'', rfl⟩ := ht'
                  obtain ⟨y, hy, hty⟩ := mem_reqTrailsAll ht''
                  refine .inr ⟨⟨next, y⟩, ?_, _, t'', step tr hk y hy, hty, by simp⟩
                  simp only [List.mem_append, List.mem_reverse, List.mem_map]
                  exact .inr ⟨y, hy, rfl⟩
              · exact .inr ⟨nd, by simp [hnd], tr, t', hk, ht', rfl⟩

theorem active_iff (c : Context) (b : Bool) (l : Overrides.Label) :
    Overrides.checkLabel c b l = true ↔ (if b then Active c l else ¬ Active c l) := by
  cases l with
  | custom n => cases b <;> simp [Overrides.checkLabel, Active]
  | percentage p => cases b <;> simp [Overrides.checkLabel, Active, Overrides.Context.inRange]

theorem mayUse_iff (c : Context) (m : Overrides.FieldMove) :
    Overrides.satisfies m c = true ↔ MayUse c m := by
  obtain ⟨label, byWhom⟩ := m
  simp only [Overrides.satisfies, MayUse]
  cases byWhom with
  | none => cases label with
    | none => simp
    | some l => simpa using active_iff c true l
  | some x =>
    obtain ⟨s, l⟩ := x
    cases l with
    | none => simp
    | some l => simpa using active_iff c false l

theorem allowed_iff (c : Context) (w : Weight) : overrideOk c w = true ↔ Allowed c w := by
  cases w with
  | field f => simp [overrideOk, Allowed, mayUse_iff]
  | _ => simp [overrideOk, Allowed]

theorem met_of {env : Env} {p : Path} (hp : p.WF) {items : List Sel} {rs : List Path}
    (h1 : ∀ a ∈ rs, ∃ t ∈ reqTrailsAll items, ∃ x, Goes env p t x ∧ a = continuation p x)
    (h2 : ∀ t ∈ reqTrailsAll items, ∃ x, Goes env p t x ∧ continuation p x ∈ rs) :
    Met env p.tail items rs := by
  classical
  have h1' : ∀ a, ∃ t, a ∈ rs → t ∈ reqTrailsAll items ∧ ∃ x, Goes env p t x ∧ a = continuation p x := by
    intro a
    by_cases ha : a ∈ rs
    · obtain ⟨t, ht, hx⟩ := h1 a ha
      exact ⟨t, fun _ => ⟨ht, hx⟩⟩
    · exact ⟨[], fun h => absurd h ha⟩
  have h2' : ∀ t, ∃ x, t ∈ reqTrailsAll items → Goes env p t x ∧ continuation p x ∈ rs := by
    intro t
    by_cases ht : t ∈ reqTrailsAll items
    · obtain ⟨x, hx⟩ := h2 t ht
      exact ⟨x, fun _ => hx⟩
    · exact ⟨p, fun h => absurd h ht⟩
  obtain ⟨why, hwhy⟩ := Classical.axiomOfChoice h1'
  obtain ⟨pick, hpick⟩ := Classical.axiomOfChoice h2'
  refine .mk _ _ _ (fun t => continuation p (pick t)) why ?_ ?_ ?_ ?_ ?_ ?_
  · exact fun t ht => (hpick t ht).2
  · exact fun t ht => (continuation_goes hp (hpick t ht).1).1
  · exact fun t ht => (continuation_goes hp (hpick t ht).1).2
  · exact fun q hq => (hwhy q hq).1
  · intro q hq
    obtain ⟨_, x, hx, rfl⟩ := hwhy q hq
    exact (continuation_goes hp hx).1
  · intro q hq
    obtain ⟨_, x, hx, he⟩ := hwhy q hq
    rw [he] at hx ⊢
    exact (continuation_goes hp hx).2

theorem checkReqs_good {env : Env} {sat : Sat} (hsat : GoodSat env sat) {direct : Bool} {e : Edge}
    {p : Path} (hp : p.WF) {ex : Excl} {rs : List Path}
    (h : checkReqs env sat direct e p ex = .ok (some rs)) :
    Allowed env.ctx e.weight ∧ Met env p.tail (needed e.weight) rs := by
  simp only [checkReqs] at h
  split at h
  next ho =>
    refine ⟨(allowed_iff _ _).mp ho, ?_⟩
    unfold needed
    split at h
    next hn =>
      rw [hn]
      simp only [Except.ok.injEq, Option.some.injEq] at h; subst h
      exact met_of hp (by simp) (by simp [reqTrailsAll])
    next r hr =>
      rw [hr]
      obtain ⟨h1, h2⟩ := reqLoop_meets hsat hp (reqTrailsAll r.items) h
        (by
          intro nd hnd
          obtain ⟨y, hy, rfl⟩ := List.mem_map.mp hnd
          refine ⟨[], fun x hx => ?_, fun t ht => ?_⟩
          · simp only [List.mem_singleton] at hx; subst hx; exact Goes.refl env _
          · exact mem_reqTrailsAll_of hy ht)
        (by simp)
        (by
          intro t ht
          obtain ⟨y, hy, hty⟩ := mem_reqTrailsAll ht
          refine .inr ⟨⟨[p], y⟩, List.mem_map.mpr ⟨y, hy, rfl⟩, [], t, ⟨fun x hx => ?_, fun t ht => ?_⟩, hty, rfl⟩
          · simp only [List.mem_singleton] at hx; subst hx; exact Goes.refl env _
          · exact mem_reqTrailsAll_of hy ht)
      exact met_of hp h1 h2
  · simp at h

theorem canSatisfy_good (env : Env) : ∀ (n : Nat) (active : List (Nat × Nat)),
    GoodSat env (canSatisfy env n active)
  | 0, _ => by intro e p ex rs _ _ _ h; simp [canSatisfy] at h
  | n + 1, active => by
    intro e p ex rs _ _ hp h
    simp only [canSatisfy] at h
    split at h
    · simp at h
    · exact checkReqs_good (canSatisfy_good env n _) hp h

theorem sat_good (env : Env) : GoodSat env (sat env) := canSatisfy_good env _ _

end Verif.Walker
