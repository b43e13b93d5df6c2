import Verif.Pool.Spec

namespace Verif.Pool

variable {κ : Type} [DecidableEq κ]

theorem upd_self {α β : Type} [DecidableEq α] (f : α → β) (a : α) (b : β) : upd f a b a = b := by simp [upd]

theorem upd_ne {α β : Type} [DecidableEq α] (f : α → β) (a : α) (b : β) {x : α} (h : x ≠ a) : upd f a b x = f x := by
  simp [upd, h]

theorem upd_some {α β : Type} [DecidableEq α] {f : α → Option β} {a x : α} {b y : β}
    (h : upd f a (some b) x = some y) : (x = a ∧ b = y) ∨ (x ≠ a ∧ f x = some y) := by
  by_cases e : x = a
  · subst e; rw [upd_self] at h; injection h with h; exact .inl ⟨rfl, h⟩
  · rw [upd_ne _ _ _ e] at h; exact .inr ⟨e, h⟩

theorem upd_none {α β : Type} [DecidableEq α] {f : α → Option β} {a x : α} {y : β}
    (h : upd f a none x = some y) : x ≠ a ∧ f x = some y := by
  by_cases e : x = a
  · subst e; rw [upd_self] at h; cases h
  · rw [upd_ne _ _ _ e] at h; exact ⟨e, h⟩

/-- The caller is on a list that will be gone through. -/
def Held (s : St κ) (w : Nat) (id : κ) : Prop :=
  (∃ g ws, s.entries id = some (.connecting g ws) ∧ w ∈ ws) ∨
  (∃ g ws r, s.attempts g = some (id, .telling ws r) ∧ w ∈ ws)

structure Inv (s : St κ) : Prop where
  attemptsLt : ∀ g a, s.attempts g = some a → g < s.clock
  connsLt : ∀ c a, s.conns c = some a → c < s.clock
  callersLt : ∀ w a, s.callers w = some a → w < s.clock
  entryAttempt : ∀ id g ws, s.entries id = some (.connecting g ws) → s.attempts g = some (id, .connecting)
  entryWaiters : ∀ id g ws, s.entries id = some (.connecting g ws) → ∀ w ∈ ws, Asked s w id
  attemptEntry : ∀ id g, s.attempts g = some (id, .connecting) → ∃ ws, s.entries id = some (.connecting g ws)
  entryConn : ∀ id c, s.entries id = some (.initialized c) → ∃ o, s.conns c = some (id, o)
  connEntry : ∀ id c, s.conns c = some (id, true) → s.entries id = some (.initialized c)
  telling : ∀ id g ws r, s.attempts g = some (id, .telling ws r) → ∀ w ∈ ws, Asked s w id
  tellConn : ∀ id g ws c, s.attempts g = some (id, .telling ws (.conn c)) →
    (∃ o, s.conns c = some (id, o)) ∧ ∀ w ∈ ws, w < c
  held : ∀ w id, s.callers w = some (id, .waits) → Held s w id
  logged : ∀ w r, (w, r) ∈ s.log ↔ ∃ id, s.callers w = some (id, .has r)
  once : (s.log.map Prod.fst).Nodup
  hasConn : ∀ w id c, s.callers w = some (id, .has (.conn c)) → ∃ o, s.conns c = some (id, o)

theorem inv_start : Inv ({} : St κ) := by
  constructor <;> simp

theorem asked_new (s : St κ) (x : κ × Caller) {w : Nat} {id : κ} (h : Asked s w id) (i : Inv s) (s' : St κ)
    (e : s'.callers = upd s.callers s.clock (some x)) : Asked s' w id := by
  obtain ⟨c, h⟩ := h
  exact ⟨c, by rw [e, upd_ne _ _ _ (Nat.ne_of_lt (i.callersLt _ _ h)), h]⟩

theorem inv_begin {s : St κ} (i : Inv s) (id : κ)
    (he : s.entries id = none ∨ ∃ c, s.entries id = some (.initialized c) ∧ s.isOpen c = false) :
    Inv (s.begin id) := by
  have hc : ∀ g ws, s.entries id ≠ some (.connecting g ws) := by
    intro g ws h
    rcases he with he | ⟨c, he, -⟩ <;> rw [he] at h <;> cases h
  have ask : ∀ {w id'}, Asked s w id' → Asked (s.begin id) w id' := fun h => asked_new s _ h i _ rfl
  constructor
  · intro g a h
    rcases upd_some h with ⟨e, -⟩ | ⟨-, h⟩
    · subst e; simp [St.begin]
    · have := i.attemptsLt _ _ h; simp only [St.begin]; omega
  · intro c a h
    have := i.connsLt c a h; simp only [St.begin]; omega
  · intro w a h
    rcases upd_some h with ⟨e, -⟩ | ⟨-, h⟩
    · subst e; simp [St.begin]
    · have := i.callersLt _ _ h; simp only [St.begin]; omega
  · intro id' g ws h
    rcases upd_some h with ⟨e, h⟩ | ⟨-, h⟩
    · cases h; subst e; exact upd_self _ _ _
    · have := i.entryAttempt _ _ _ h
      show upd s.attempts _ _ g = _
      rw [upd_ne _ _ _ (by have := i.attemptsLt _ _ this; omega), this]
  · intro id' g ws h w hw
    rcases upd_some h with ⟨e, h⟩ | ⟨-, h⟩
    · cases h; subst e
      rw [List.mem_singleton] at hw; subst hw
      exact ⟨_, upd_self _ _ _⟩
    · exact ask (i.entryWaiters _ _ _ h w hw)
  · intro id' g h
    rcases upd_some h with ⟨e, h⟩ | ⟨-, h⟩
    · cases h; subst e; exact ⟨_, upd_self _ _ _⟩
    · obtain ⟨ws, h'⟩ := i.attemptEntry _ _ h
      refine ⟨ws, ?_⟩
      show upd s.entries _ _ id' = _
      rw [upd_ne _ _ _ (by rintro rfl; exact hc _ _ h'), h']
  · intro id' c h
    rcases upd_some h with ⟨-, h⟩ | ⟨-, h⟩
    · cases h
    · exact i.entryConn _ _ h
  · intro id' c h
    have h' := i.connEntry _ _ h
    show upd s.entries _ _ id' = _
    rw [upd_ne _ _ _ ?_, h']
    rintro rfl
    rcases he with he | ⟨c', he, ho⟩
    · rw [he] at h'; cases h'
    · rw [he] at h'; cases h'
      have h : s.conns c = some (id', true) := h
      rw [St.isOpen, h] at ho; cases ho
  · intro id' g ws r h w hw
    rcases upd_some h with ⟨-, h⟩ | ⟨-, h⟩
    · cases h
    · exact ask (i.telling _ _ _ _ h w hw)
  · intro id' g ws c h
    rcases upd_some h with ⟨-, h⟩ | ⟨-, h⟩
    · cases h
    · exact i.tellConn _ _ _ _ h
  · intro w id' h
    rcases upd_some h with ⟨e, h⟩ | ⟨-, h⟩
    · cases h; subst e
      exact .inl ⟨_, _, upd_self _ _ _, by simp⟩
    · rcases i.held _ _ h with ⟨g, ws, h', hw⟩ | ⟨g, ws, r, h, hw⟩
      · refine .inl ⟨g, ws, ?_, hw⟩
        show upd s.entries _ _ id' = _
        rw [upd_ne _ _ _ (by rintro rfl; exact hc _ _ h'), h']
      · refine .inr ⟨g, ws, r, ?_, hw⟩
        show upd s.attempts _ _ g = _
        rw [upd_ne _ _ _ (by have := i.attemptsLt _ _ h; omega), h]
  · intro w r
    refine (i.logged w r).trans ⟨?_, ?_⟩
    · rintro ⟨id', h⟩
      exact ⟨id', (upd_ne _ _ _ (Nat.ne_of_lt (i.callersLt _ _ h))).trans h⟩
    · rintro ⟨id', h⟩
      rcases upd_some h with ⟨-, h⟩ | ⟨-, h⟩
      · cases h
      · exact ⟨id', h⟩
  · exact i.once
  · intro w id' c h
    rcases upd_some h with ⟨-, h⟩ | ⟨-, h⟩
    · cases h
    · exact i.hasConn _ _ _ h

theorem inv_ask {s : St κ} (i : Inv s) (id : κ) : Inv (s.ask id) := by
  unfold St.ask
  split
  case _ c he =>
    split
    case isFalse ho => exact inv_begin i id (.inr ⟨c, he, by simpa using ho⟩)
    case isTrue ho =>
      have ask : ∀ {w id'}, Asked s w id' → Asked (κ := κ) { s with
        callers := upd s.callers s.clock (some (id, .has (.conn c)))
        log := s.log ++ [(s.clock, .conn c)]
        clock := s.clock + 1 } w id' := fun h => asked_new s _ h i _ rfl
      constructor
      · intro g a h; exact Nat.lt_succ_of_lt (i.attemptsLt _ _ h)
      · intro g a h; exact Nat.lt_succ_of_lt (i.connsLt _ _ h)
      · intro w a h
        rcases upd_some h with ⟨e, -⟩ | ⟨-, h⟩
        · subst e; exact Nat.lt_succ_self _
        · exact Nat.lt_succ_of_lt (i.callersLt _ _ h)
      · exact i.entryAttempt
      · intro id' g ws h w hw; exact ask (i.entryWaiters _ _ _ h w hw)
      · exact i.attemptEntry
      · exact i.entryConn
      · exact i.connEntry
      · intro id' g ws r h w hw; exact ask (i.telling _ _ _ _ h w hw)
      · exact i.tellConn
      · intro w id' h
        rcases upd_some h with ⟨-, h⟩ | ⟨-, h⟩
        · cases h
        · exact i.held _ _ h
      · intro w r
        show (w, r) ∈ s.log ++ [(s.clock, Res.conn c)] ↔ _
        rw [List.mem_append, i.logged, List.mem_singleton]
        constructor
        · rintro (⟨id', h⟩ | h)
          · exact ⟨id', (upd_ne _ _ _ (Nat.ne_of_lt (i.callersLt _ _ h))).trans h⟩
          · cases h; exact ⟨id, upd_self _ _ _⟩
        · rintro ⟨id', h⟩
          rcases upd_some h with ⟨e, h⟩ | ⟨-, h⟩
          · cases h; subst e; exact .inr rfl
          · exact .inl ⟨id', h⟩
      · show ((s.log ++ [(s.clock, Res.conn c)]).map Prod.fst).Nodup
        rw [List.map_append, List.nodup_append]
        refine ⟨i.once, by simp, ?_⟩
        intro a ha b hb
        simp only [List.map_cons, List.map_nil, List.mem_singleton] at hb
        obtain ⟨⟨w, r⟩, hm, rfl⟩ := List.mem_map.1 ha
        obtain ⟨id', h⟩ := (i.logged w r).1 hm
        rw [hb]
        exact Nat.ne_of_lt (i.callersLt _ _ h)
      · intro w id' c' h
        rcases upd_some h with ⟨-, h⟩ | ⟨-, h⟩
        · cases h; exact i.entryConn _ _ he
        · exact i.hasConn _ _ _ h
  case _ g ws he =>
    have ask : ∀ {w id'}, Asked s w id' → Asked (κ := κ) { s with
      entries := upd s.entries id (some (.connecting g (ws.filter s.waiting ++ [s.clock])))
      callers := upd s.callers s.clock (some (id, .waits))
      clock := s.clock + 1 } w id' := fun h => asked_new s _ h i _ rfl
    constructor
    · intro g a h; exact Nat.lt_succ_of_lt (i.attemptsLt _ _ h)
    · intro g a h; exact Nat.lt_succ_of_lt (i.connsLt _ _ h)
    · intro w a h
      rcases upd_some h with ⟨e, -⟩ | ⟨-, h⟩
      · subst e; exact Nat.lt_succ_self _
      · exact Nat.lt_succ_of_lt (i.callersLt _ _ h)
    · intro id' g' ws' h
      rcases upd_some h with ⟨e, h⟩ | ⟨-, h⟩
      · cases h; subst e; exact i.entryAttempt _ _ _ he
      · exact i.entryAttempt _ _ _ h
    · intro id' g' ws' h w hw
      rcases upd_some h with ⟨e, h⟩ | ⟨-, h⟩
      · cases h; subst e
        rcases List.mem_append.1 hw with hw | hw
        · exact ask (i.entryWaiters _ _ _ he w (List.mem_filter.1 hw).1)
        · rw [List.mem_singleton] at hw; subst hw
          exact ⟨_, upd_self _ _ _⟩
      · exact ask (i.entryWaiters _ _ _ h w hw)
    · intro id' g' h
      by_cases e : id' = id
      · subst e
        obtain ⟨ws', h'⟩ := i.attemptEntry _ _ h
        rw [he] at h'; cases h'
        exact ⟨_, upd_self _ _ _⟩
      · obtain ⟨ws', h'⟩ := i.attemptEntry _ _ h
        exact ⟨ws', (upd_ne _ _ _ e).trans h'⟩
    · intro id' c h
      rcases upd_some h with ⟨-, h⟩ | ⟨-, h⟩
      · cases h
      · exact i.entryConn _ _ h
    · intro id' c h
      have h' := i.connEntry _ _ h
      refine (upd_ne _ _ _ ?_).trans h'
      rintro rfl
      rw [he] at h'; cases h'
    · intro id' g ws r h w hw; exact ask (i.telling _ _ _ _ h w hw)
    · exact i.tellConn
    · intro w id' h
      rcases upd_some h with ⟨e, h⟩ | ⟨-, h⟩
      · cases h; subst e
        exact .inl ⟨_, _, upd_self _ _ _, by simp⟩
      · have hwait : s.waiting w = true := by rw [St.waiting, h]
        rcases i.held _ _ h with ⟨g', ws', h', hw⟩ | h'
        · by_cases e : id' = id
          · subst e
            rw [he] at h'; cases h'
            exact .inl ⟨_, _, upd_self _ _ _, List.mem_append.2 (.inl (List.mem_filter.2 ⟨hw, hwait⟩))⟩
          · exact .inl ⟨g', ws', (upd_ne _ _ _ e).trans h', hw⟩
        · exact .inr h'
    · intro w r
      refine (i.logged w r).trans ⟨?_, ?_⟩
      · rintro ⟨id', h⟩
        exact ⟨id', (upd_ne _ _ _ (Nat.ne_of_lt (i.callersLt _ _ h))).trans h⟩
      · rintro ⟨id', h⟩
        rcases upd_some h with ⟨-, h⟩ | ⟨-, h⟩
        · cases h
        · exact ⟨id', h⟩
    · exact i.once
    · intro w id' c h
      rcases upd_some h with ⟨-, h⟩ | ⟨-, h⟩
      · cases h
      · exact i.hasConn _ _ _ h
  case _ he => exact inv_begin i id (.inl he)

theorem inv_goes {s s' : St κ} (i : Inv s) (w : Nat) (h : s.goes w = some s') : Inv s' := by
  unfold St.goes at h
  split at h
  case _ id hw =>
    injection h with h; subst h
    have ask : ∀ {w' id'}, Asked s w' id' →
        Asked (κ := κ) { s with callers := upd s.callers w (some (id, .gone)) } w' id' := by
      rintro w' id' ⟨c, h⟩
      by_cases e : w' = w
      · subst e; rw [hw] at h; cases h; exact ⟨_, upd_self _ _ _⟩
      · exact ⟨c, (upd_ne _ _ _ e).trans h⟩
    constructor
    · exact i.attemptsLt
    · exact i.connsLt
    · intro w' a h
      rcases upd_some h with ⟨e, -⟩ | ⟨-, h⟩
      · subst e; exact i.callersLt _ _ hw
      · exact i.callersLt _ _ h
    · exact i.entryAttempt
    · intro id' g ws h w hw; exact ask (i.entryWaiters _ _ _ h w hw)
    · exact i.attemptEntry
    · exact i.entryConn
    · exact i.connEntry
    · intro id' g ws r h w hw; exact ask (i.telling _ _ _ _ h w hw)
    · exact i.tellConn
    · intro w' id' h
      rcases upd_some h with ⟨-, h⟩ | ⟨-, h⟩
      · cases h
      · exact i.held _ _ h
    · intro w' r
      refine (i.logged w' r).trans ⟨?_, ?_⟩
      · rintro ⟨id', h⟩
        refine ⟨id', (upd_ne _ _ _ ?_).trans h⟩
        rintro rfl; rw [hw] at h; cases h
      · rintro ⟨id', h⟩
        rcases upd_some h with ⟨-, h⟩ | ⟨-, h⟩
        · cases h
        · exact ⟨id', h⟩
    · exact i.once
    · intro w' id' c h
      rcases upd_some h with ⟨-, h⟩ | ⟨-, h⟩
      · cases h
      · exact i.hasConn _ _ _ h
  · cases h

theorem inv_connected {s s' : St κ} (i : Inv s) (g : Nat) (h : s.connected g = some s') : Inv s' := by
  unfold St.connected at h
  split at h
  case _ id hg =>
    obtain ⟨ws, he⟩ := i.attemptEntry _ _ hg
    simp only [he, if_true] at h
    injection h with h; subst h
    have conn : ∀ {c' x}, s.conns c' = some x → upd s.conns s.clock (some (id, true)) c' = some x := by
      intro c' x h
      exact (upd_ne _ _ _ (Nat.ne_of_lt (i.connsLt _ _ h))).trans h
    have ne : ∀ {id' g' ws'}, s.entries id' = some (.connecting g' ws') → id' ≠ id → g' ≠ g := by
      rintro id' g' ws' h hne rfl
      have := i.entryAttempt _ _ _ h
      rw [hg] at this; cases this; exact hne rfl
    constructor
    · intro g' a h
      rcases upd_some h with ⟨e, -⟩ | ⟨-, h⟩
      · subst e; exact Nat.lt_succ_of_lt (i.attemptsLt _ _ hg)
      · exact Nat.lt_succ_of_lt (i.attemptsLt _ _ h)
    · intro c a h
      rcases upd_some h with ⟨e, -⟩ | ⟨-, h⟩
      · subst e; exact Nat.lt_succ_self _
      · exact Nat.lt_succ_of_lt (i.connsLt _ _ h)
    · intro w a h; exact Nat.lt_succ_of_lt (i.callersLt _ _ h)
    · intro id' g' ws' h
      rcases upd_some h with ⟨-, h⟩ | ⟨hne, h⟩
      · cases h
      · exact (upd_ne _ _ _ (ne h hne)).trans (i.entryAttempt _ _ _ h)
    · intro id' g' ws' h w hw
      rcases upd_some h with ⟨-, h⟩ | ⟨hne, h⟩
      · cases h
      · exact i.entryWaiters _ _ _ h w hw
    · intro id' g' h
      rcases upd_some h with ⟨-, h⟩ | ⟨hne, h⟩
      · cases h
      · obtain ⟨ws', h'⟩ := i.attemptEntry _ _ h
        refine ⟨ws', (upd_ne _ _ _ ?_).trans h'⟩
        rintro rfl; rw [he] at h'; cases h'; exact hne rfl
    · intro id' c h
      rcases upd_some h with ⟨e, h⟩ | ⟨hne, h⟩
      · cases h; subst e; exact ⟨true, upd_self _ _ _⟩
      · obtain ⟨o, h⟩ := i.entryConn _ _ h; exact ⟨o, conn h⟩
    · intro id' c h
      rcases upd_some h with ⟨e, h⟩ | ⟨hne, h⟩
      · cases h; subst e; exact upd_self _ _ _
      · have h' := i.connEntry _ _ h
        refine (upd_ne _ _ _ ?_).trans h'
        rintro rfl; rw [he] at h'; cases h'
    · intro id' g' ws' r h w hw
      rcases upd_some h with ⟨e, h⟩ | ⟨hne, h⟩
      · cases h; exact i.entryWaiters _ _ _ he w hw
      · exact i.telling _ _ _ _ h w hw
    · intro id' g' ws' c h
      rcases upd_some h with ⟨e, h⟩ | ⟨hne, h⟩
      · cases h
        refine ⟨⟨true, upd_self _ _ _⟩, fun w hw => ?_⟩
        obtain ⟨x, hx⟩ := i.entryWaiters _ _ _ he w hw
        exact i.callersLt _ _ hx
      · obtain ⟨⟨o, h1⟩, h2⟩ := i.tellConn _ _ _ _ h
        exact ⟨⟨o, conn h1⟩, h2⟩
    · intro w id' h
      rcases i.held _ _ h with ⟨g', ws', h', hw⟩ | ⟨g', ws', r, h', hw⟩
      · by_cases e : id' = id
        · subst e; rw [he] at h'; cases h'
          exact .inr ⟨g, ws, _, upd_self _ _ _, hw⟩
        · exact .inl ⟨g', ws', (upd_ne _ _ _ e).trans h', hw⟩
      · refine .inr ⟨g', ws', r, (upd_ne _ _ _ ?_).trans h', hw⟩
        rintro rfl; rw [hg] at h'; cases h'
    · exact i.logged
    · exact i.once
    · intro w id' c h
      obtain ⟨o, h⟩ := i.hasConn _ _ _ h; exact ⟨o, conn h⟩
  · cases h

theorem inv_ends {s s' : St κ} (i : Inv s) (g : Nat) (r : Res) (hr : ∀ c, r ≠ .conn c)
    (h : s.ends g r = some s') : Inv s' := by
  unfold St.ends at h
  split at h
  case _ id hg =>
    obtain ⟨ws, he⟩ := i.attemptEntry _ _ hg
    simp only [he, if_true] at h
    injection h with h; subst h
    have ne : ∀ {id' g' ws'}, s.entries id' = some (.connecting g' ws') → id' ≠ id → g' ≠ g := by
      rintro id' g' ws' h hne rfl
      have := i.entryAttempt _ _ _ h
      rw [hg] at this; cases this; exact hne rfl
    constructor
    · intro g' a h
      rcases upd_some h with ⟨e, -⟩ | ⟨-, h⟩
      · subst e; exact i.attemptsLt _ _ hg
      · exact i.attemptsLt _ _ h
    · exact i.connsLt
    · exact i.callersLt
    · intro id' g' ws' h
      obtain ⟨hne, h⟩ := upd_none h
      exact (upd_ne _ _ _ (ne h hne)).trans (i.entryAttempt _ _ _ h)
    · intro id' g' ws' h w hw
      obtain ⟨hne, h⟩ := upd_none h
      exact i.entryWaiters _ _ _ h w hw
    · intro id' g' h
      rcases upd_some h with ⟨-, h⟩ | ⟨hne, h⟩
      · cases h
      · obtain ⟨ws', h'⟩ := i.attemptEntry _ _ h
        refine ⟨ws', (upd_ne _ _ _ ?_).trans h'⟩
        rintro rfl; rw [he] at h'; cases h'; exact hne rfl
    · intro id' c h
      exact i.entryConn _ _ (upd_none h).2
    · intro id' c h
      have h' := i.connEntry _ _ h
      refine (upd_ne _ _ _ ?_).trans h'
      rintro rfl; rw [he] at h'; cases h'
    · intro id' g' ws' r h w hw
      rcases upd_some h with ⟨e, h⟩ | ⟨hne, h⟩
      · cases h; exact i.entryWaiters _ _ _ he w hw
      · exact i.telling _ _ _ _ h w hw
    · intro id' g' ws' c h
      rcases upd_some h with ⟨e, h⟩ | ⟨hne, h⟩
      · cases h; exact absurd rfl (hr c)
      · exact i.tellConn _ _ _ _ h
    · intro w id' h
      rcases i.held _ _ h with ⟨g', ws', h', hw⟩ | ⟨g', ws', r, h', hw⟩
      · by_cases e : id' = id
        · subst e; rw [he] at h'; cases h'
          exact .inr ⟨g, ws, _, upd_self _ _ _, hw⟩
        · exact .inl ⟨g', ws', (upd_ne _ _ _ e).trans h', hw⟩
      · refine .inr ⟨g', ws', r, (upd_ne _ _ _ ?_).trans h', hw⟩
        rintro rfl; rw [hg] at h'; cases h'
    · exact i.logged
    · exact i.once
    · exact i.hasConn
  · cases h

theorem inv_tell {s s' : St κ} (i : Inv s) (g : Nat) (h : s.tell g = some s') : Inv s' := by
  unfold St.tell at h
  split at h
  case _ id r hg =>
    injection h with h; subst h
    have ne : ∀ {g' id' x}, s.attempts g' = some (id', x) → x ≠ .telling [] r → g' ≠ g := by
      rintro g' id' x h hx rfl; rw [hg] at h; cases h; exact hx rfl
    constructor
    · intro g' a h; exact i.attemptsLt _ _ (upd_none h).2
    · exact i.connsLt
    · exact i.callersLt
    · intro id' g' ws' h
      have h' := i.entryAttempt _ _ _ h
      exact (upd_ne _ _ _ (ne h' (by simp))).trans h'
    · exact i.entryWaiters
    · intro id' g' h; exact i.attemptEntry _ _ (upd_none h).2
    · exact i.entryConn
    · exact i.connEntry
    · intro id' g' ws' r h; exact i.telling _ _ _ _ (upd_none h).2
    · intro id' g' ws' r h; exact i.tellConn _ _ _ _ (upd_none h).2
    · intro w id' h
      rcases i.held _ _ h with h' | ⟨g', ws', r', h', hw⟩
      · exact .inl h'
      · refine .inr ⟨g', ws', r', (upd_ne _ _ _ (ne h' ?_)).trans h', hw⟩
        intro e; cases e; cases hw
    · exact i.logged
    · exact i.once
    · exact i.hasConn
  case _ id w ws r hg =>
    have ne : ∀ {g' id'}, s.attempts g' = some (id', .connecting) → g' ≠ g := by
      rintro g' id' h' rfl; rw [hg] at h'; cases h'
    split at h
    case _ id' hw =>
      injection h with h; subst h
      obtain ⟨x, hx⟩ := i.telling _ _ _ _ hg w (by simp)
      rw [hw] at hx; cases hx
      have ask : ∀ {w' id'}, Asked s w' id' → Asked (κ := κ) { s with
          attempts := upd s.attempts g (some (id, .telling ws r))
          callers := upd s.callers w (some (id, .has r))
          log := s.log ++ [(w, r)] } w' id' := by
        rintro w' id' ⟨c, h⟩
        by_cases e : w' = w
        · subst e; rw [hw] at h; cases h; exact ⟨_, upd_self _ _ _⟩
        · exact ⟨c, (upd_ne _ _ _ e).trans h⟩
      constructor
      · intro g' a h
        rcases upd_some h with ⟨e, -⟩ | ⟨-, h⟩
        · subst e; exact i.attemptsLt _ _ hg
        · exact i.attemptsLt _ _ h
      · exact i.connsLt
      · intro w' a h
        rcases upd_some h with ⟨e, -⟩ | ⟨-, h⟩
        · subst e; exact i.callersLt _ _ hw
        · exact i.callersLt _ _ h
      · intro id' g' ws' h
        have h' := i.entryAttempt _ _ _ h
        exact (upd_ne _ _ _ (ne h')).trans h'
      · intro id' g ws h w hw; exact ask (i.entryWaiters _ _ _ h w hw)
      · intro id' g' h
        rcases upd_some h with ⟨-, h⟩ | ⟨-, h⟩
        · cases h
        · exact i.attemptEntry _ _ h
      · exact i.entryConn
      · exact i.connEntry
      · intro id' g' ws' r' h w' hw'
        rcases upd_some h with ⟨-, h⟩ | ⟨-, h⟩
        · cases h; exact ask (i.telling _ _ _ _ hg w' (List.mem_cons_of_mem _ hw'))
        · exact ask (i.telling _ _ _ _ h w' hw')
      · intro id' g' ws' c h
        rcases upd_some h with ⟨-, h⟩ | ⟨-, h⟩
        · cases h
          obtain ⟨h1, h2⟩ := i.tellConn _ _ _ _ hg
          exact ⟨h1, fun w' hw' => h2 w' (List.mem_cons_of_mem _ hw')⟩
        · exact i.tellConn _ _ _ _ h
      · intro w' id' h
        rcases upd_some h with ⟨-, h⟩ | ⟨hne, h⟩
        · cases h
        · rcases i.held _ _ h with h' | ⟨g', ws', r', h', hw'⟩
          · exact .inl h'
          · by_cases e : g' = g
            · subst e; rw [hg] at h'; cases h'
              rcases List.mem_cons.1 hw' with e | hw'
              · exact absurd e hne
              · exact .inr ⟨g', ws, r, upd_self _ _ _, hw'⟩
            · exact .inr ⟨g', ws', r', (upd_ne _ _ _ e).trans h', hw'⟩
      · intro w' r'
        show (w', r') ∈ s.log ++ [(w, r)] ↔ _
        rw [List.mem_append, i.logged, List.mem_singleton]
        constructor
        · rintro (⟨id', h⟩ | h)
          · refine ⟨id', (upd_ne _ _ _ ?_).trans h⟩
            rintro rfl; rw [hw] at h; cases h
          · cases h; exact ⟨id, upd_self _ _ _⟩
        · rintro ⟨id', h⟩
          rcases upd_some h with ⟨e, h⟩ | ⟨-, h⟩
          · cases h; subst e; exact .inr rfl
          · exact .inl ⟨id', h⟩
      · show ((s.log ++ [(w, r)]).map Prod.fst).Nodup
        rw [List.map_append, List.nodup_append]
        refine ⟨i.once, by simp, ?_⟩
        intro a ha b hb
        simp only [List.map_cons, List.map_nil, List.mem_singleton] at hb
        obtain ⟨⟨w', r'⟩, hm, rfl⟩ := List.mem_map.1 ha
        obtain ⟨id', h⟩ := (i.logged w' r').1 hm
        rw [hb]
        rintro rfl
        rw [hw] at h; cases h
      · intro w' id' c' h
        rcases upd_some h with ⟨-, h⟩ | ⟨-, h⟩
        · cases h; exact (i.tellConn _ _ _ _ hg).1
        · exact i.hasConn _ _ _ h
    case _ hn =>
      injection h with h; subst h
      constructor
      · intro g' a h
        rcases upd_some h with ⟨e, -⟩ | ⟨-, h⟩
        · subst e; exact i.attemptsLt _ _ hg
        · exact i.attemptsLt _ _ h
      · exact i.connsLt
      · exact i.callersLt
      · intro id' g' ws' h
        have h' := i.entryAttempt _ _ _ h
        exact (upd_ne _ _ _ (ne h')).trans h'
      · exact i.entryWaiters
      · intro id' g' h
        rcases upd_some h with ⟨-, h⟩ | ⟨-, h⟩
        · cases h
        · exact i.attemptEntry _ _ h
      · exact i.entryConn
      · exact i.connEntry
      · intro id' g' ws' r' h w' hw'
        rcases upd_some h with ⟨-, h⟩ | ⟨-, h⟩
        · cases h; exact i.telling _ _ _ _ hg w' (List.mem_cons_of_mem _ hw')
        · exact i.telling _ _ _ _ h w' hw'
      · intro id' g' ws' c h
        rcases upd_some h with ⟨-, h⟩ | ⟨-, h⟩
        · cases h
          obtain ⟨h1, h2⟩ := i.tellConn _ _ _ _ hg
          exact ⟨h1, fun w' hw' => h2 w' (List.mem_cons_of_mem _ hw')⟩
        · exact i.tellConn _ _ _ _ h
      · intro w' id' h
        rcases i.held _ _ h with h' | ⟨g', ws', r', h', hw'⟩
        · exact .inl h'
        · by_cases e : g' = g
          · subst e; rw [hg] at h'; cases h'
            rcases List.mem_cons.1 hw' with e | hw'
            · subst e; exact absurd h (hn _)
            · exact .inr ⟨g', ws, r, upd_self _ _ _, hw'⟩
          · exact .inr ⟨g', ws', r', (upd_ne _ _ _ e).trans h', hw'⟩
      · exact i.logged
      · exact i.once
      · exact i.hasConn
  · cases h

theorem inv_close {s s' : St κ} (i : Inv s) (c : Nat) (h : s.close c = some s') : Inv s' := by
  unfold St.close at h
  split at h
  case _ id hc =>
    injection h with h; subst h
    have conn : ∀ {c' id' o}, s.conns c' = some (id', o) → ∃ o', upd s.conns c (some (id, false)) c' = some (id', o') := by
      intro c' id' o h
      by_cases e : c' = c
      · subst e; rw [hc] at h; cases h; exact ⟨_, upd_self _ _ _⟩
      · exact ⟨o, (upd_ne _ _ _ e).trans h⟩
    constructor
    · exact i.attemptsLt
    · intro c' a h
      rcases upd_some h with ⟨e, -⟩ | ⟨-, h⟩
      · subst e; exact i.connsLt _ _ hc
      · exact i.connsLt _ _ h
    · exact i.callersLt
    · exact i.entryAttempt
    · exact i.entryWaiters
    · exact i.attemptEntry
    · intro id' c' h; obtain ⟨o, h⟩ := i.entryConn _ _ h; exact conn h
    · intro id' c' h
      rcases upd_some h with ⟨-, h⟩ | ⟨-, h⟩
      · cases h
      · exact i.connEntry _ _ h
    · exact i.telling
    · intro id' g ws c' h
      obtain ⟨⟨o, h1⟩, h2⟩ := i.tellConn _ _ _ _ h
      exact ⟨conn h1, h2⟩
    · exact i.held
    · exact i.logged
    · exact i.once
    · intro w id' c' h; obtain ⟨o, h⟩ := i.hasConn _ _ _ h; exact conn h
  · cases h

theorem inv_evict {s s' : St κ} (i : Inv s) (c : Nat) (h : s.evict c = some s') : Inv s' := by
  unfold St.evict at h
  split at h
  case _ id hc =>
    split at h
    case isFalse => injection h with h; subst h; exact i
    case isTrue he =>
      injection h with h; subst h
      constructor
      · exact i.attemptsLt
      · exact i.connsLt
      · exact i.callersLt
      · intro id' g ws h; exact i.entryAttempt _ _ _ (upd_none h).2
      · intro id' g ws h; exact i.entryWaiters _ _ _ (upd_none h).2
      · intro id' g h
        obtain ⟨ws, h'⟩ := i.attemptEntry _ _ h
        refine ⟨ws, (upd_ne _ _ _ ?_).trans h'⟩
        rintro rfl; rw [he] at h'; cases h'
      · intro id' c' h; exact i.entryConn _ _ (upd_none h).2
      · intro id' c' h
        have h' := i.connEntry _ _ h
        refine (upd_ne _ _ _ ?_).trans h'
        rintro rfl
        rw [he] at h'; cases h'
        have h : s.conns c = some (id', true) := h
        rw [hc] at h; cases h
      · exact i.telling
      · exact i.tellConn
      · intro w id' h
        rcases i.held _ _ h with ⟨g, ws, h', hw⟩ | h'
        · refine .inl ⟨g, ws, (upd_ne _ _ _ ?_).trans h', hw⟩
          rintro rfl; rw [he] at h'; cases h'
        · exact .inr h'
      · exact i.logged
      · exact i.once
      · exact i.hasConn
  · cases h

theorem inv_step {s s' : St κ} (i : Inv s) : ∀ {l : Label κ}, step s l = some s' → Inv s'
  | .ask id, h => by injection h with h; subst h; exact inv_ask i id
  | .goes w, h => inv_goes i w h
  | .connected g, h => inv_connected i g h
  | .fails g, h => inv_ends i g _ (by simp) h
  | .cancelled g, h => inv_ends i g _ (by simp) h
  | .tell g, h => inv_tell i g h
  | .close c, h => inv_close i c h
  | .evict c, h => inv_evict i c h

theorem inv_reach {s : St κ} (h : Reach s) : Inv s := by
  induction h with
  | start => exact inv_start
  | step l _ hs ih => exact inv_step ih hs

end Verif.Pool
