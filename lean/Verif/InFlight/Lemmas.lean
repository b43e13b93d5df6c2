import Verif.InFlight.Spec

namespace Verif.InFlight

variable {K V E : Type} [DecidableEq K]

/-- The caller is at work on, or waits for, cell `x`. -/
def At (s : State K V E) (c : Caller) (x : Nat) : Prop :=
  s.phase c = some (.attached x) ∨ s.phase c = some (.running x) ∨
    ∃ r, s.phase c = some (.computed x r)

/-- `l` runs or has run the execution whose result the cell `x` holds or will hold. -/
def Leads (s : State K V E) (l : Caller) (x : Nat) : Prop :=
  s.phase l = some (.running x) ∨ (∃ r, s.phase l = some (.computed x r)) ∨
    ∃ v, (s.cells x).value = some (v, l)

structure Inv (s : State K V E) : Prop where
  map : ∀ k x, s.map k = some x → x < s.next ∧ (s.cells x).key = k
  at_lt : ∀ c x, At s c x → x < s.next
  fresh : ∀ x, s.next ≤ x → (s.cells x).value = none ∧ (s.cells x).permit = none
  closed : ∀ l x, Leads s l x → s.guard l = false → s.map (s.cells x).key ≠ some x
  running : ∀ c x, s.phase c = some (.running x) →
    s.guard c = true ∧ (s.cells x).permit = some c ∧ (s.cells x).value = none
  computed : ∀ c x r, s.phase c = some (.computed x r) →
    (s.cells x).permit = some c ∧ (s.cells x).value = none
  permit : ∀ c x, (s.cells x).permit = some c →
    s.phase c = some (.running x) ∨ ∃ r, s.phase c = some (.computed x r)
  value : ∀ x v l, (s.cells x).value = some (v, l) → s.phase l = some .gone
  once : ∀ x y v w l, (s.cells x).value = some (v, l) → (s.cells y).value = some (w, l) → x = y

theorem Inv.init (k0 : K) : Inv (InFlight.init k0 : State K V E) := by
  constructor <;> simp [InFlight.init, At, Leads]

set_option maxHeartbeats 2000000 in
theorem Inv.step {keep : Bool} {s t : State K V E} (h : Inv s) (hs : Step keep s t) : Inv t := by
  obtain ⟨h1, h2, h3, h4, h5, h6, h7, h8, h9⟩ := h
  have h2a := fun c x (h : s.phase c = some (.attached x)) => h2 c x (Or.inl h)
  have h2b := fun c x (h : s.phase c = some (.running x)) => h2 c x (Or.inr (Or.inl h))
  have h2c := fun c x r (h : s.phase c = some (.computed x r)) => h2 c x (Or.inr (Or.inr ⟨r, h⟩))
  have h4a := fun l x (h : s.phase l = some (.running x)) => h4 l x (Or.inl h)
  have h4b := fun l x r (h : s.phase l = some (.computed x r)) => h4 l x (Or.inr (Or.inl ⟨r, h⟩))
  have h4c := fun l x v (h : (s.cells x).value = some (v, l)) => h4 l x (Or.inr (Or.inr ⟨v, h⟩))
  clear h2 h4
  cases hs <;> constructor <;> simp only [At, Leads, cleanup] <;> grind [upd]

theorem reachable_inv {keep : Bool} {k0 : K} {s : State K V E} (h : Reachable keep k0 s) : Inv s := by
  induction h with
  | init => exact Inv.init k0
  | step _ hs ih => exact ih.step hs

theorem arrival_sub (c : Caller) (k : K) (past : List (Event K V E)) :
    ∀ log : List (Event K V E), arrival c log = some (k, past) → ∀ e ∈ past, e ∈ log := by
  intro log
  induction log with
  | nil => intro h; simp [arrival] at h
  | cons e log ih =>
    intro h x hx
    cases e with
    | arrived c' k' =>
      simp only [arrival] at h
      split at h
      · simp at h; rw [h.2]; exact List.mem_cons_of_mem _ hx
      · exact List.mem_cons_of_mem _ (ih h x hx)
    | _ => exact List.mem_cons_of_mem _ (ih h x hx)

/-- The key a caller asked for. -/
def asked (c : Caller) (log : List (Event K V E)) : Option K := (arrival c log).map (·.1)

@[simp] theorem arrival_arrived (c c' : Caller) (k : K) (log : List (Event K V E)) :
    arrival c (.arrived c' k :: log) = if c' = c then some (k, log) else arrival c log := rfl

/-- An event which is not an arrival. -/
def quiet : Event K V E → Bool
  | .arrived _ _ => false
  | _ => true

theorem arrival_quiet {e : Event K V E} (h : quiet e = true) (c : Caller)
    (log : List (Event K V E)) : arrival c (e :: log) = arrival c log := by
  cases e <;> first | rfl | simp [quiet] at h

/-- What the log says about where callers are. -/
structure LogInv (s : State K V E) : Prop where
  new : ∀ c, s.phase c = none → arrival c s.log = none
  arrived : ∀ c x, At s c x → asked c s.log = some (s.cells x).key
  open_ : ∀ c x l, s.phase c = some (.attached x) → Leads s l x →
    ∀ k past, arrival c s.log = some (k, past) → .ended l ∉ past
  endedGuard : ∀ l, .ended l ∈ s.log → s.guard l = false
  endedNew : ∀ l, .ended l ∈ s.log → s.phase l ≠ none
  endedAtt : ∀ l, .ended l ∈ s.log → ∀ x, s.phase l ≠ some (.attached x)
  endedIf : ∀ l x r, s.phase l = some (.computed x r) → s.guard l = false → .ended l ∈ s.log
  execNew : ∀ l k v, .executed l k v ∈ s.log → s.phase l ≠ none
  execAtt : ∀ l k v, .executed l k v ∈ s.log → ∀ x, s.phase l ≠ some (.attached x)
  execRun : ∀ l k v, .executed l k v ∈ s.log → ∀ x, s.phase l ≠ some (.running x)
  failNew : ∀ l e, .execFailed l e ∈ s.log → s.phase l ≠ none
  failAtt : ∀ l e, .execFailed l e ∈ s.log → ∀ x, s.phase l ≠ some (.attached x)
  failRun : ∀ l e, .execFailed l e ∈ s.log → ∀ x, s.phase l ≠ some (.running x)
  execOk : ∀ l x v, s.phase l = some (.computed x (.ok v)) → .executed l (s.cells x).key v ∈ s.log
  execVal : ∀ l x v, (s.cells x).value = some (v, l) → .executed l (s.cells x).key v ∈ s.log
  failOk : ∀ l x e, s.phase l = some (.computed x (.error e)) → .execFailed l e ∈ s.log

theorem LogInv.init (k0 : K) : LogInv (InFlight.init k0 : State K V E) := by
  constructor <;> simp [InFlight.init, Leads, At, arrival]

section
variable {keep : Bool} {s t : State K V E}

theorem step_new (h : LogInv s) (hs : Step keep s t) : ∀ c, t.phase c = none → arrival c t.log = none := by
  have := h.new
  cases hs <;> simp only [cleanup] <;> grind [upd, arrival]

theorem step_ended (h : LogInv s) (hi : Inv s) (hs : Step keep s t) :
    (∀ l, .ended l ∈ t.log → t.guard l = false) ∧ (∀ l, .ended l ∈ t.log → t.phase l ≠ none) ∧
    (∀ l, .ended l ∈ t.log → ∀ x, t.phase l ≠ some (.attached x)) ∧
    (∀ l x r, t.phase l = some (.computed x r) → t.guard l = false → .ended l ∈ t.log) := by
  have h1 := h.endedGuard
  have h2 := h.endedNew
  have h3 := h.endedAtt
  have h4 := h.endedIf
  have h5 := hi.running
  have h6 := hi.value
  clear h hi
  cases hs <;> refine ⟨?_, ?_, ?_, ?_⟩ <;> simp only [cleanup] <;> grind [upd]

theorem step_exec (h : LogInv s) (hs : Step keep s t) :
    (∀ l k v, .executed l k v ∈ t.log → t.phase l ≠ none) ∧
    (∀ l k v, .executed l k v ∈ t.log → ∀ x, t.phase l ≠ some (.attached x)) ∧
    (∀ l k v, .executed l k v ∈ t.log → ∀ x, t.phase l ≠ some (.running x)) := by
  have h1 := h.execNew
  have h2 := h.execAtt
  have h3 := h.execRun
  clear h
  cases hs <;> refine ⟨?_, ?_, ?_⟩ <;> simp only [cleanup] <;> grind [upd]

theorem step_fail (h : LogInv s) (hs : Step keep s t) :
    (∀ l e, .execFailed l e ∈ t.log → t.phase l ≠ none) ∧
    (∀ l e, .execFailed l e ∈ t.log → ∀ x, t.phase l ≠ some (.attached x)) ∧
    (∀ l e, .execFailed l e ∈ t.log → ∀ x, t.phase l ≠ some (.running x)) := by
  have h1 := h.failNew
  have h2 := h.failAtt
  have h3 := h.failRun
  clear h
  cases hs <;> refine ⟨?_, ?_, ?_⟩ <;> simp only [cleanup] <;> grind [upd]

theorem step_cellkey (hi : Inv s) (hs : Step keep s t) : ∀ x, x < s.next →
    (t.cells x).key = (s.cells x).key := by
  cases hs <;> simp only [cleanup] <;> grind [upd]

theorem step_vals (h : LogInv s) (hi : Inv s) (hs : Step keep s t) :
    (∀ l x v, t.phase l = some (.computed x (.ok v)) → .executed l (t.cells x).key v ∈ t.log) ∧
    (∀ l x v, (t.cells x).value = some (v, l) → .executed l (t.cells x).key v ∈ t.log) ∧
    (∀ l x e, t.phase l = some (.computed x (.error e)) → .execFailed l e ∈ t.log) := by
  have h1 := h.execOk
  have h2 := h.execVal
  have h3 := h.failOk
  have h4 := hi.fresh
  have h5 := fun c x r (h : s.phase c = some (.computed x r)) => hi.at_lt c x (Or.inr (Or.inr ⟨r, h⟩))
  clear h hi
  cases hs <;> refine ⟨?_, ?_, ?_⟩ <;> simp only [cleanup] <;> grind [upd]

/-- Who is at a cell after a step was there before, or has just arrived. -/
theorem step_at (hi : Inv s) (hs : Step keep s t) (c : Caller) (x : Nat) (h : At t c x) :
    (At s c x ∧ ∃ es, t.log = es ++ s.log ∧ ∀ e ∈ es, quiet e = true ∨ ∃ c' k, e = .arrived c' k ∧ c' ≠ c) ∨
    (s.phase c = none ∧ t.log = .arrived c (t.cells x).key :: s.log ∧
      (s.map (t.cells x).key = some x ∨ x = s.next) ∧ t.phase c = some (.attached x)) := by
  have i1 := hi.map
  unfold At at h ⊢
  cases hs with
  | claimOccupied c' k y h1 h2 =>
    by_cases hc : c = c'
    · subst hc
      right
      simp [upd] at h
      subst h
      have := (i1 k y h2).2
      exact ⟨h1, by rw [this], Or.inl (by rw [this]; exact h2), by simp [upd]⟩
    · left
      simp [upd, hc] at h
      exact ⟨h, [.arrived c' k], rfl, by simp; right; exact fun h => hc h.symm⟩
  | claimVacant c' k h1 h2 =>
    by_cases hc : c = c'
    · subst hc
      right
      simp [upd] at h
      subst h
      exact ⟨h1, by simp [upd], Or.inr rfl, by simp [upd]⟩
    · left
      simp [upd, hc] at h
      exact ⟨h, [.arrived c' k], rfl, by simp; right; exact fun h => hc h.symm⟩
  | join c' y v l h1 h2 =>
    left; refine ⟨by simp only [upd] at h; grind, [_], rfl, by simp [quiet]⟩
  | start c' y h1 h2 h3 =>
    left; refine ⟨by simp only [upd] at h; grind, [], rfl, by simp⟩
  | compute c' y v h1 =>
    left; refine ⟨by simp only [upd] at h; grind, [_], rfl, by simp [quiet]⟩
  | computeErr c' y e h1 =>
    left; refine ⟨by simp only [upd] at h; grind, [_], rfl, by simp [quiet]⟩
  | cleanupDone c' y r h1 h2 =>
    left; refine ⟨by simpa only [cleanup] using h, [_], rfl, by simp [quiet]⟩
  | cleanupLater c' y v h1 h2 h3 =>
    left; refine ⟨by simpa only [cleanup] using h, [_], rfl, by simp [quiet]⟩
  | publish c' y v h1 h2 =>
    left; refine ⟨by simp only [upd] at h; grind, [_], rfl, by simp [quiet]⟩
  | publishErr c' y e h1 h2 =>
    left; refine ⟨by simp only [upd] at h; grind, [_], rfl, by simp [quiet]⟩
  | cancelWaiting c' y h1 =>
    left; refine ⟨by simp only [upd] at h; grind, [], rfl, by simp⟩
  | cancelRunning c' y h1 =>
    left; refine ⟨by simp only [upd, cleanup] at h; grind, [_], rfl, by simp [quiet]⟩

theorem arrival_app {c : Caller} : ∀ (es log : List (Event K V E)),
    (∀ e ∈ es, quiet e = true ∨ ∃ c' k, e = .arrived c' k ∧ c' ≠ c) →
    arrival c (es ++ log) = arrival c log := by
  intro es
  induction es with
  | nil => intro log _; rfl
  | cons e es ih =>
    intro log h
    have := ih log fun x hx => h x (List.mem_cons_of_mem _ hx)
    rcases h e (List.mem_cons_self ..) with hq | ⟨c', k, rfl, hne⟩
    · rw [List.cons_append, arrival_quiet hq, this]
    · simp [hne, this]

theorem step_arrived (h : LogInv s) (hi : Inv s) (hs : Step keep s t) (c : Caller) (x : Nat)
    (ha : At t c x) : asked c t.log = some (t.cells x).key := by
  rcases step_at hi hs c x ha with ⟨h1, es, h2, h3⟩ | ⟨h1, h2, h3, _⟩
  · rw [step_cellkey hi hs x (hi.at_lt c x h1), h2]
    unfold asked
    rw [arrival_app es s.log h3]
    exact h.arrived c x h1
  · rw [h2]; simp [asked]

/-- A cell's leader after a step led it before, or has just started and has never ended. -/
theorem step_leads (hi : Inv s) (hs : Step keep s t) (l : Caller) (x : Nat) (h : Leads t l x) :
    Leads s l x ∨ s.phase l = some (.attached x) := by
  have h4 := hi.fresh
  unfold Leads at h ⊢
  cases hs <;> simp only [cleanup] at h <;> grind [upd]

theorem step_open (h : LogInv s) (hi : Inv s) (hs : Step keep s t) (c : Caller) (x : Nat) (l : Caller)
    (hc : t.phase c = some (.attached x)) (hl : Leads t l x) (k : K) (past : List (Event K V E))
    (ha : arrival c t.log = some (k, past)) : .ended l ∉ past := by
  have hl' := step_leads hi hs l x hl
  rcases step_at hi hs c x (Or.inl hc) with ⟨h1, es, h2, h3⟩ | ⟨h1, h2, h3, _⟩
  · rw [h2, arrival_app es s.log h3] at ha
    have hca : s.phase c = some (.attached x) := by
      rcases h1 with h1 | h1 | ⟨r, h1⟩
      · exact h1
      · exfalso
        cases hs <;> simp only [cleanup] at hc <;> grind [upd]
      · exfalso
        cases hs <;> simp only [cleanup] at hc <;> grind [upd]
    rcases hl' with hl' | hl'
    · exact h.open_ c x l hca hl' k past ha
    · intro he
      exact h.endedAtt l (arrival_sub c k past s.log ha _ he) x hl'
  · rw [h2, arrival_arrived, if_pos rfl] at ha
    simp only [Option.some.injEq, Prod.mk.injEq] at ha
    rw [← ha.2]
    intro he
    rcases hl' with hl' | hl'
    · have hg := h.endedGuard l he
      have hx : x < s.next := by
        rcases hl' with hl' | ⟨r, hl'⟩ | ⟨v, hl'⟩
        · exact hi.at_lt l x (Or.inr (Or.inl hl'))
        · exact hi.at_lt l x (Or.inr (Or.inr ⟨r, hl'⟩))
        · by_cases hx : x < s.next
          · exact hx
          · rw [(hi.fresh x (by omega)).1] at hl'; simp at hl'
      rcases h3 with h3 | h3
      · rw [step_cellkey hi hs x hx] at h3
        exact hi.closed l x hl' hg h3
      · omega
    · exact h.endedAtt l he x hl'

theorem LogInv.step (hi : Inv s) (h : LogInv s) (hs : Step keep s t) : LogInv t := by
  obtain ⟨g1, g2, g3, g4⟩ := step_ended h hi hs
  obtain ⟨e1, e2, e3⟩ := step_exec h hs
  obtain ⟨f1, f2, f3⟩ := step_fail h hs
  obtain ⟨v1, v2, v3⟩ := step_vals h hi hs
  exact ⟨step_new h hs, step_arrived h hi hs, step_open h hi hs, g1, g2, g3, g4, e1, e2, e3, f1, f2, f3,
    v1, v2, v3⟩

theorem FairLog.step (hi : Inv s) (h : LogInv s) (hf : FairLog keep s.log) (hs : Step keep s t) :
    FairLog keep t.log := by
  cases hs with
  | claimOccupied c k y h1 h2 => exact ⟨h.new c h1, hf⟩
  | claimVacant c k h1 h2 => exact ⟨h.new c h1, hf⟩
  | join c x v l h1 h2 =>
    refine ⟨?_, hf⟩
    have ha := h.arrived c x (Or.inl h1)
    simp only [asked, Option.map_eq_some_iff] at ha
    obtain ⟨⟨k, past⟩, ha, hk⟩ := ha
    simp only at hk
    refine ⟨k, past, l, ha, by rw [hk]; exact h.execVal l x v h2, ?_⟩
    exact h.open_ c x l h1 (Or.inr (Or.inr ⟨v, h2⟩)) k past ha
  | start c x h1 h2 h3 => exact hf
  | compute c x v h1 =>
    refine ⟨⟨?_, ?_, ?_⟩, hf⟩
    · have ha := h.arrived c x (Or.inr (Or.inl h1))
      simp only [asked, Option.map_eq_some_iff] at ha
      obtain ⟨⟨k, past⟩, ha, hk⟩ := ha
      exact ⟨past, by rw [ha]; simp only at hk; rw [hk]⟩
    · intro k v hm; exact h.execRun c k v hm x h1
    · intro e hm; exact h.failRun c e hm x h1
  | computeErr c x e h1 => exact ⟨trivial, hf⟩
  | cleanupDone c x r h1 h2 => exact ⟨trivial, hf⟩
  | cleanupLater c x v h1 h2 h3 => exact ⟨trivial, hf⟩
  | publish c x v h1 h2 =>
    refine ⟨⟨⟨_, h.execOk c x v h1⟩, ?_⟩, hf⟩
    intro hk
    rcases h2 with h2 | h2
    · rw [hk] at h2; simp at h2
    · exact h.endedIf c x _ h1 h2
  | publishErr c x e h1 h2 => exact ⟨h.failOk c x e h1, hf⟩
  | cancelWaiting c x h1 => exact hf
  | cancelRunning c x h1 => exact ⟨trivial, hf⟩

theorem reachable_all {k0 : K} (h : Reachable keep k0 s) : Inv s ∧ LogInv s ∧ FairLog keep s.log := by
  induction h with
  | init => exact ⟨Inv.init k0, LogInv.init k0, trivial⟩
  | step _ hs ih => exact ⟨ih.1.step hs, LogInv.step ih.1 ih.2.1 hs, FairLog.step ih.1 ih.2.1 ih.2.2 hs⟩

end

end Verif.InFlight
