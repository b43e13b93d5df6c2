import Verif.Pool.Lemmas

namespace Verif.Pool

variable {κ : Type} [DecidableEq κ]

/-! ### Whose connection a caller gets -/

/-- The connection a caller is told is one for what the caller asked for: the same subgraph, endpoint and headers. -/
theorem C97_own {s : St κ} (h : Reach s) {w c : Nat} (t : Told s w (.conn c)) :
    ∃ id, Asked s w id ∧ ∃ o, s.conns c = some (id, o) := by
  obtain ⟨id, hw⟩ := ((inv_reach h).logged w _).1 t
  exact ⟨id, ⟨_, hw⟩, (inv_reach h).hasConn _ _ _ hw⟩

/-- A caller is told of a connection that was open when it asked, and then at once, or of one made after it asked. -/
theorem C97_live {s s' : St κ} (h : Reach s) {l : Label κ} (hs : step s l = some s') {w c : Nat}
    (t : Told s' w (.conn c)) (n : ¬ Told s w (.conn c)) :
    (∃ id, l = .ask id ∧ Open s id c ∧ s.callers w = none ∧ Asked s' w id) ∨ w < c := by
  have i := inv_reach h
  have fresh : s.callers s.clock = none := by
    cases e : s.callers s.clock with
    | none => rfl
    | some a => exact absurd (i.callersLt _ _ e) (Nat.lt_irrefl _)
  cases l with
  | ask id =>
    injection hs with hs; subst hs
    have hb : ¬ Told (s.begin id) w (.conn c) := n
    unfold St.ask at t ⊢
    split at t
    case _ c' he =>
      split at t
      case isFalse => exact absurd t hb
      case isTrue ho =>
        rcases List.mem_append.1 t with t | t
        · exact absurd t n
        · rw [List.mem_singleton] at t; cases t
          refine .inl ⟨id, rfl, ?_, fresh, .has (.conn c), ?_⟩
          · obtain ⟨o, e⟩ := i.entryConn _ _ he
            rw [St.isOpen, e] at ho
            have ho : o = true := ho
            rw [Open, e, ho]
          · simp only [he, ho, if_true]
            exact upd_self _ _ _
    · exact absurd t n
    · exact absurd t hb
  | tell g =>
    simp only [step, St.tell] at hs
    split at hs
    · injection hs with hs; subst hs; exact absurd t n
    case _ id w' ws r hg =>
      split at hs
      · injection hs with hs; subst hs
        rcases List.mem_append.1 t with t | t
        · exact absurd t n
        · rw [List.mem_singleton] at t; cases t
          exact .inr ((i.tellConn _ _ _ _ hg).2 w (by simp))
      · injection hs with hs; subst hs; exact absurd t n
    · cases hs
  | goes w =>
    simp only [step, St.goes] at hs
    split at hs
    · injection hs with hs; subst hs; exact absurd t n
    · cases hs
  | connected g =>
    simp only [step, St.connected] at hs
    repeat' split at hs
    all_goals first | (cases hs; done) | (injection hs with hs; subst hs; exact absurd t n)
  | fails g =>
    simp only [step, St.ends] at hs
    repeat' split at hs
    all_goals first | (cases hs; done) | (injection hs with hs; subst hs; exact absurd t n)
  | cancelled g =>
    simp only [step, St.ends] at hs
    repeat' split at hs
    all_goals first | (cases hs; done) | (injection hs with hs; subst hs; exact absurd t n)
  | close g =>
    simp only [step, St.close] at hs
    repeat' split at hs
    all_goals first | (cases hs; done) | (injection hs with hs; subst hs; exact absurd t n)
  | evict g =>
    simp only [step, St.evict] at hs
    repeat' split at hs
    all_goals first | (cases hs; done) | (injection hs with hs; subst hs; exact absurd t n)

/-! ### One connection for each identity -/

/-- For each identity there is at most one open connection, or at most one attempt to make one, and never both. -/
theorem C97_one {s : St κ} (h : Reach s) (id : κ) :
    (∀ c c', Open s id c → Open s id c' → c = c') ∧
    (∀ g g', Connects s id g → Connects s id g' → g = g') ∧
    (∀ c g, Open s id c → ¬ Connects s id g) := by
  have i := inv_reach h
  refine ⟨?_, ?_, ?_⟩
  · intro c c' h1 h2
    have := (i.connEntry _ _ h1).symm.trans (i.connEntry _ _ h2)
    cases this; rfl
  · intro g g' h1 h2
    obtain ⟨ws, e1⟩ := i.attemptEntry _ _ h1
    obtain ⟨ws', e2⟩ := i.attemptEntry _ _ h2
    have := e1.symm.trans e2
    cases this; rfl
  · intro c g h1 h2
    obtain ⟨ws, e2⟩ := i.attemptEntry _ _ h2
    have := (i.connEntry _ _ h1).symm.trans e2
    cases this

/-- A lookup finds the open connection of the identity, and nothing when there is none. -/
theorem C97_lookup {s : St κ} (h : Reach s) (id : κ) (c : Nat) : s.lookup id = some c ↔ Open s id c := by
  have i := inv_reach h
  constructor
  · intro hl
    unfold St.lookup at hl
    split at hl
    case _ c' he =>
      split at hl
      case isTrue ho =>
        injection hl with hl; subst hl
        obtain ⟨o, e⟩ := i.entryConn _ _ he
        rw [St.isOpen, e] at ho
        have ho : o = true := ho
        rw [Open, e, ho]
      case isFalse => cases hl
    · cases hl
  · intro ho
    have he := i.connEntry _ _ ho
    have hc : s.isOpen c = true := by rw [Open] at ho; rw [St.isOpen, ho]
    simp [St.lookup, he, hc]

/-- An attempt that connects always publishes its connection, whatever else went on: from then on a lookup finds it. -/
theorem C97_published {s s' : St κ} (h : Reach s) (id : κ) (g : Nat) (hg : Connects s id g)
    (hs : step s (.connected g) = some s') : ∃ c, s.conns c = none ∧ Open s' id c ∧ s'.lookup id = some c := by
  have i := inv_reach h
  obtain ⟨ws, he⟩ := i.attemptEntry _ _ hg
  have h' : Reach s' := .step _ h hs
  have ho : Open s' id s.clock := by
    simp only [step, St.connected] at hs
    rw [Connects] at hg
    simp only [hg, he, if_true] at hs
    injection hs with hs; subst hs
    exact upd_self _ _ _
  refine ⟨s.clock, ?_, ho, (C97_lookup h' id _).2 ho⟩
  cases e : s.conns s.clock with
  | none => rfl
  | some a => exact absurd (i.connsLt _ _ e) (Nat.lt_irrefl _)

/-! ### Everyone who waits is told, once -/

/-- No caller is told twice, and who was told does not wait any more. -/
theorem C97_once {s : St κ} (h : Reach s) :
    (s.log.map Prod.fst).Nodup ∧ ∀ w r id, Told s w r → ¬ Waits s w id := by
  have i := inv_reach h
  refine ⟨i.once, fun w r id t hw => ?_⟩
  obtain ⟨id', e⟩ := (i.logged w r).1 t
  have hw : s.callers w = some (id, .waits) := hw
  rw [e] at hw; cases hw

/-- The attempt `g` has the caller on its list. -/
def HeldBy (s : St κ) (g w : Nat) (id : κ) : Prop :=
  (∃ ws, s.entries id = some (.connecting g ws) ∧ w ∈ ws) ∨
  (∃ ws r, s.attempts g = some (id, .telling ws r) ∧ w ∈ ws)

theorem heldBy_step {s s' : St κ} (i : Inv s) {l : Label κ} (hs : step s l = some s') {g w : Nat} {id : κ}
    (hb : HeldBy s g w id) (hw : Waits s w id) (hw' : Waits s' w id) : HeldBy s' g w id := by
  have hwait : s.waiting w = true := by
    have hw : s.callers w = some (id, .waits) := hw
    rw [St.waiting, hw]
  cases l with
  | ask id' =>
    injection hs with hs; subst hs
    have begins : (∀ g ws, s.entries id' ≠ some (.connecting g ws)) → HeldBy (s.begin id') g w id := by
      intro hn
      rcases hb with ⟨ws, he, hm⟩ | ⟨ws, r, he, hm⟩
      · refine .inl ⟨ws, (upd_ne _ _ _ ?_).trans he, hm⟩
        rintro rfl; exact hn _ _ he
      · refine .inr ⟨ws, r, (upd_ne _ _ _ ?_).trans he, hm⟩
        have := i.attemptsLt _ _ he; omega
    unfold St.ask
    split
    case _ c he =>
      split
      · exact hb
      · exact begins (by rw [he]; simp)
    case _ g' ws' he' =>
      rcases hb with ⟨ws, he, hm⟩ | hb
      · by_cases e : id = id'
        · subst e
          rw [he'] at he; cases he
          exact .inl ⟨_, upd_self _ _ _, List.mem_append.2 (.inl (List.mem_filter.2 ⟨hm, hwait⟩))⟩
        · exact .inl ⟨ws, (upd_ne _ _ _ e).trans he, hm⟩
      · exact .inr hb
    case _ he => exact begins (by rw [he]; simp)
  | goes w' =>
    simp only [step, St.goes] at hs
    split at hs
    · injection hs with hs; subst hs; exact hb
    · cases hs
  | connected g' =>
    simp only [step, St.connected] at hs
    split at hs
    case _ id' hg =>
      obtain ⟨ws', he'⟩ := i.attemptEntry _ _ hg
      simp only [he', if_true] at hs
      injection hs with hs; subst hs
      rcases hb with ⟨ws, he, hm⟩ | ⟨ws, r, he, hm⟩
      · by_cases e : id = id'
        · subst e
          rw [he'] at he; cases he
          exact .inr ⟨_, _, upd_self _ _ _, hm⟩
        · exact .inl ⟨ws, (upd_ne _ _ _ e).trans he, hm⟩
      · refine .inr ⟨ws, r, (upd_ne _ _ _ ?_).trans he, hm⟩
        rintro rfl; rw [hg] at he; cases he
    · cases hs
  | fails g' =>
    simp only [step, St.ends] at hs
    split at hs
    case _ id' hg =>
      obtain ⟨ws', he'⟩ := i.attemptEntry _ _ hg
      simp only [he', if_true] at hs
      injection hs with hs; subst hs
      rcases hb with ⟨ws, he, hm⟩ | ⟨ws, r, he, hm⟩
      · by_cases e : id = id'
        · subst e
          rw [he'] at he; cases he
          exact .inr ⟨_, _, upd_self _ _ _, hm⟩
        · exact .inl ⟨ws, (upd_ne _ _ _ e).trans he, hm⟩
      · refine .inr ⟨ws, r, (upd_ne _ _ _ ?_).trans he, hm⟩
        rintro rfl; rw [hg] at he; cases he
    · cases hs
  | cancelled g' =>
    simp only [step, St.ends] at hs
    split at hs
    case _ id' hg =>
      obtain ⟨ws', he'⟩ := i.attemptEntry _ _ hg
      simp only [he', if_true] at hs
      injection hs with hs; subst hs
      rcases hb with ⟨ws, he, hm⟩ | ⟨ws, r, he, hm⟩
      · by_cases e : id = id'
        · subst e
          rw [he'] at he; cases he
          exact .inr ⟨_, _, upd_self _ _ _, hm⟩
        · exact .inl ⟨ws, (upd_ne _ _ _ e).trans he, hm⟩
      · refine .inr ⟨ws, r, (upd_ne _ _ _ ?_).trans he, hm⟩
        rintro rfl; rw [hg] at he; cases he
    · cases hs
  | tell g' =>
    simp only [step, St.tell] at hs
    split at hs
    case _ id' r' hg =>
      injection hs with hs; subst hs
      rcases hb with hb | ⟨ws, r, he, hm⟩
      · exact .inl hb
      · refine .inr ⟨ws, r, (upd_ne _ _ _ ?_).trans he, hm⟩
        rintro rfl; rw [hg] at he; cases he; cases hm
    case _ id' w' ws' r' hg =>
      have key : ∀ t : St κ, t.entries = s.entries → t.attempts = upd s.attempts g' (some (id', .telling ws' r')) →
          w ≠ w' → HeldBy t g w id := by
        intro t h1 h2 hne
        rcases hb with hb | ⟨ws, r, he, hm⟩
        · exact .inl (by rw [h1]; exact hb)
        · by_cases e : g = g'
          · subst e
            rw [hg] at he; cases he
            rcases List.mem_cons.1 hm with e | hm
            · exact absurd e hne
            · exact .inr ⟨ws', _, by rw [h2]; exact upd_self _ _ _, hm⟩
          · exact .inr ⟨ws, r, by rw [h2]; exact (upd_ne _ _ _ e).trans he, hm⟩
      split at hs
      case _ hw0 =>
        injection hs with hs; subst hs
        refine key _ rfl rfl ?_
        rintro rfl
        rcases upd_some hw' with ⟨-, e⟩ | ⟨e, -⟩
        · cases e
        · exact e rfl
      case _ hn =>
        injection hs with hs; subst hs
        refine key _ rfl rfl ?_
        rintro rfl
        exact hn _ hw
    · cases hs
  | close c =>
    simp only [step, St.close] at hs
    split at hs
    · injection hs with hs; subst hs; exact hb
    · cases hs
  | evict c =>
    simp only [step, St.evict] at hs
    split at hs
    case _ id' hc =>
      split at hs
      case isTrue he' =>
        injection hs with hs; subst hs
        rcases hb with ⟨ws, he, hm⟩ | hb
        · refine .inl ⟨ws, (upd_ne _ _ _ ?_).trans he, hm⟩
          rintro rfl; rw [he'] at he; cases he
        · exact .inr hb
      case isFalse => injection hs with hs; subst hs; exact hb
    · cases hs

theorem callers_step {s s' : St κ} (i : Inv s) {l : Label κ} (hs : step s l = some s') {w : Nat} {id : κ}
    (hw : Waits s' w id) (ha : s.callers w ≠ none) : Waits s w id := by
  have new : ∀ x, upd s.callers s.clock x w = some (id, .waits) → s.callers w = some (id, .waits) := by
    intro x h
    cases e : s.callers w with
    | none => exact absurd e ha
    | some a => rw [← e]; rw [upd_ne _ _ _ (Nat.ne_of_lt (i.callersLt _ _ e))] at h; exact h
  cases l with
  | ask id' =>
    injection hs with hs; subst hs
    unfold St.ask at hw
    repeat' split at hw
    all_goals exact new _ hw
  | goes w' =>
    simp only [step, St.goes] at hs
    split at hs
    · injection hs with hs; subst hs
      rcases upd_some hw with ⟨-, h⟩ | ⟨-, h⟩
      · cases h
      · exact h
    · cases hs
  | tell g =>
    simp only [step, St.tell] at hs
    repeat' split at hs
    · injection hs with hs; subst hs; exact hw
    · injection hs with hs; subst hs
      rcases upd_some hw with ⟨-, h⟩ | ⟨-, h⟩
      · cases h
      · exact h
    · injection hs with hs; subst hs; exact hw
    · cases hs
  | connected g =>
    simp only [step, St.connected] at hs
    repeat' split at hs
    all_goals first | (cases hs; done) | (injection hs with hs; subst hs; exact hw)
  | fails g =>
    simp only [step, St.ends] at hs
    repeat' split at hs
    all_goals first | (cases hs; done) | (injection hs with hs; subst hs; exact hw)
  | cancelled g =>
    simp only [step, St.ends] at hs
    repeat' split at hs
    all_goals first | (cases hs; done) | (injection hs with hs; subst hs; exact hw)
  | close g =>
    simp only [step, St.close] at hs
    repeat' split at hs
    all_goals first | (cases hs; done) | (injection hs with hs; subst hs; exact hw)
  | evict g =>
    simp only [step, St.evict] at hs
    repeat' split at hs
    all_goals first | (cases hs; done) | (injection hs with hs; subst hs; exact hw)

theorem asked_step {s s' : St κ} (i : Inv s) {l : Label κ} (hs : step s l = some s') {w : Nat}
    (ha : s.callers w ≠ none) : s'.callers w ≠ none := by
  have u : ∀ a (x : κ × Caller), upd s.callers a (some x) w ≠ none := by
    intro a x
    by_cases e : w = a
    · subst e; rw [upd_self]; simp
    · rw [upd_ne _ _ _ e]; exact ha
  cases l with
  | ask id' =>
    injection hs with hs; subst hs
    unfold St.ask
    repeat' split
    all_goals exact u _ _
  | goes w' =>
    simp only [step, St.goes] at hs
    split at hs
    · injection hs with hs; subst hs; exact u _ _
    · cases hs
  | tell g =>
    simp only [step, St.tell] at hs
    repeat' split at hs
    · injection hs with hs; subst hs; exact ha
    · injection hs with hs; subst hs; exact u _ _
    · injection hs with hs; subst hs; exact ha
    · cases hs
  | connected g =>
    simp only [step, St.connected] at hs
    repeat' split at hs
    all_goals first | (cases hs; done) | (injection hs with hs; subst hs; exact ha)
  | fails g =>
    simp only [step, St.ends] at hs
    repeat' split at hs
    all_goals first | (cases hs; done) | (injection hs with hs; subst hs; exact ha)
  | cancelled g =>
    simp only [step, St.ends] at hs
    repeat' split at hs
    all_goals first | (cases hs; done) | (injection hs with hs; subst hs; exact ha)
  | close g =>
    simp only [step, St.close] at hs
    repeat' split at hs
    all_goals first | (cases hs; done) | (injection hs with hs; subst hs; exact ha)
  | evict g =>
    simp only [step, St.evict] at hs
    repeat' split at hs
    all_goals first | (cases hs; done) | (injection hs with hs; subst hs; exact ha)

theorem heldBy_steps {s t : St κ} {ls : List (Label κ)} (st : Steps s ls t) : Inv s → ∀ {g w : Nat} {id : κ},
    HeldBy s g w id → Waits s w id → Waits t w id → HeldBy t g w id ∧ Inv t := by
  induction st with
  | nil s => intro i g w id h _ _; exact ⟨h, i⟩
  | @cons s t u l ls hs st ih =>
    intro i g w id hb hw hu
    have i' := inv_step i hs
    have some_s : s.callers w ≠ none := by
      have hw : s.callers w = some (id, .waits) := hw
      rw [hw]; simp
    have some_t := asked_step i hs some_s
    have back : ∀ {a b : St κ} {ls}, Steps a ls b → Inv a → a.callers w ≠ none → Waits b w id → Waits a w id := by
      intro a b ls st
      induction st with
      | nil => intro _ _ h; exact h
      | cons hs _ ih =>
        intro i ha h
        exact callers_step i hs (ih (inv_step i hs) (asked_step i hs ha) h) ha
    have ht := back st i' some_t hu
    exact ih i' (heldBy_step i hs hb hw ht) ht hu

/-- Nobody who waits is forgotten: for each of them there is an attempt under way for what they asked for, and however
things go on, once that attempt has come to an end they wait no more. -/
theorem C97_not_forgotten {s : St κ} (h : Reach s) {w : Nat} {id : κ} (hw : Waits s w id) :
    ∃ g p, s.attempts g = some (id, p) ∧
      ∀ ls t, Steps s ls t → t.attempts g = none → ¬ Waits t w id := by
  have i := inv_reach h
  have hb : ∃ g, HeldBy s g w id := by
    rcases i.held _ _ hw with ⟨g, ws, he, hm⟩ | ⟨g, ws, r, he, hm⟩
    · exact ⟨g, .inl ⟨ws, he, hm⟩⟩
    · exact ⟨g, .inr ⟨ws, r, he, hm⟩⟩
  obtain ⟨g, hb⟩ := hb
  have at' : ∀ {t : St κ}, Inv t → HeldBy t g w id → ∃ p, t.attempts g = some (id, p) := by
    intro t it hb
    rcases hb with ⟨ws, he, -⟩ | ⟨ws, r, he, -⟩
    · exact ⟨_, it.entryAttempt _ _ _ he⟩
    · exact ⟨_, he⟩
  obtain ⟨p, hp⟩ := at' i hb
  refine ⟨g, p, hp, fun ls t st hn ht => ?_⟩
  obtain ⟨hb', it⟩ := heldBy_steps st i hb hw ht
  obtain ⟨p', hp'⟩ := at' it hb'
  rw [hn] at hp'; cases hp'

/-- An attempt that has its result comes to an end by itself, one step for each of its callers and one more, and no other
attempt, entry or connection changes. -/
theorem C97_ends {g : Nat} {id : κ} : ∀ {ws : List Nat} {r : Res} {s : St κ},
    s.attempts g = some (id, .telling ws r) →
    ∃ t, Steps s (List.replicate (ws.length + 1) (.tell g)) t ∧ t.attempts = upd s.attempts g none ∧
      t.entries = s.entries ∧ t.conns = s.conns
  | [], r, s, h => by
    refine ⟨{ s with attempts := upd s.attempts g none }, .cons ?_ (.nil _), rfl, rfl, rfl⟩
    simp [step, St.tell, h]
  | w :: ws, r, s, h => by
    have key : ∀ s1 : St κ, step s (.tell g) = some s1 →
        s1.attempts = upd s.attempts g (some (id, .telling ws r)) → s1.entries = s.entries → s1.conns = s.conns →
        ∃ t, Steps s (List.replicate ((w :: ws).length + 1) (.tell g)) t ∧ t.attempts = upd s.attempts g none ∧
          t.entries = s.entries ∧ t.conns = s.conns := by
      intro s1 hs ha he hc
      obtain ⟨t, h1, h2, h3, h4⟩ := C97_ends (s := s1) (ws := ws) (r := r) (by rw [ha, upd_self])
      refine ⟨t, .cons hs h1, ?_, h3.trans he, h4.trans hc⟩
      rw [h2, ha]
      funext x
      by_cases e : x = g
      · subst e; rw [upd_self, upd_self]
      · rw [upd_ne _ _ _ e, upd_ne _ _ _ e, upd_ne _ _ _ e]
    cases hc : s.callers w with
    | none =>
      exact key { s with attempts := upd s.attempts g (some (id, .telling ws r)) } (by simp [step, St.tell, h, hc]) rfl rfl rfl
    | some x =>
      obtain ⟨id', c⟩ := x
      cases c with
      | waits =>
        exact key { s with
          attempts := upd s.attempts g (some (id, .telling ws r)), callers := upd s.callers w (some (id', .has r))
          log := s.log ++ [(w, r)] } (by simp [step, St.tell, h, hc]) rfl rfl rfl
      | gone =>
        exact key { s with attempts := upd s.attempts g (some (id, .telling ws r)) } (by simp [step, St.tell, h, hc]) rfl rfl rfl
      | has r' =>
        exact key { s with attempts := upd s.attempts g (some (id, .telling ws r)) } (by simp [step, St.tell, h, hc]) rfl rfl rfl

/-! ### A run -/

/-- The state after some steps. -/
def after : List (Label κ) → St κ → Option (St κ)
  | [], s => some s
  | l :: ls, s => (step s l).bind (after ls)

theorem reach_after : ∀ {ls : List (Label κ)} {s t : St κ}, Reach s → after ls s = some t → Reach t
  | [], s, t, h, e => by injection e with e; subst e; exact h
  | l :: ls, s, t, h, e => by
    rw [after] at e
    cases hs : step s l with
    | none => rw [hs] at e; cases e
    | some u => rw [hs] at e; exact reach_after (.step l h hs) e

/-- Two callers for one identity, a third for another; the first goes away; the connection is made, told, closed, and
before it is evicted a fourth caller comes: it gets a new connection, which the late eviction leaves alone. -/
def run : List (Label Bool) :=
  [.ask true, .ask true, .ask false, .goes 0, .connected 1, .tell 1, .ask true, .tell 1, .tell 1, .fails 4, .close 5,
    .ask true, .evict 5, .tell 4, .connected 8, .tell 8]

example : (after run {}).map (fun s => (s.log, s.entries true, s.entries false, s.lookup true)) =
    some ([(6, .conn 5), (2, .conn 5), (3, .failed), (7, .conn 9)], some (.initialized 9), none, some 9) := by
  decide +kernel

/-- Callers that wait: for the attempt that connects, and for the one that tells. -/
example : ((after ([.ask true, .ask false, .fails 1] : List (Label Bool)) {}).map
    (fun s => (s.callers 0, s.callers 2))) = some (some (true, .waits), some (false, .waits)) := by
  decide +kernel

example : ((after ([.ask true, .ask false, .fails 1] : List (Label Bool)) {}).map
    (fun s => (s.attempts 1, s.attempts 3))) =
    some (some (true, .telling [0] .failed), some (false, .connecting)) := by
  decide +kernel

/-- Two open connections at one time, for two identities. -/
example : ((after ([.ask true, .ask false, .connected 1, .connected 3] : List (Label Bool)) {}).map
    (fun s => (s.conns 4, s.conns 5))) = some (some (true, true), some (false, true)) := by
  decide +kernel

end Verif.Pool
