import Verif.Pool.Props

/-!
# C97: why a caller is told what it is told
-/

namespace Verif.Pool

variable {κ : Type} [DecidableEq κ]

/-- How an attempt comes to a result. -/
def ended (g : Nat) : Res → Label κ
  | .conn _ => .connected g
  | .failed => .fails g
  | .stopped => .cancelled g

/-- In the history, the caller got a connection at once: it was open when the caller asked. -/
def AtOnce (ls : List (Label κ)) (w : Nat) (r : Res) : Prop :=
  ∃ before later s s' id c, ls = before ++ .ask id :: later ∧ Steps {} before s ∧ step s (.ask id) = some s' ∧
    s.callers w = none ∧ Asked s' w id ∧ Open s id c ∧ r = .conn c

/-- In the history, an attempt for what the caller asked for had this result while the caller waited: it connected, and
the connection is the one it made; or it failed; or it was cancelled. -/
def Because (ls : List (Label κ)) (w : Nat) (r : Res) : Prop :=
  ∃ before later s s' id g, ls = before ++ ended g r :: later ∧ Steps {} before s ∧
    step s (ended g r) = some s' ∧ Waits s w id ∧ Connects s id g ∧
    ∀ c, r = .conn c → s.conns c = none ∧ Open s' id c

theorem AtOnce.more {ls : List (Label κ)} {w : Nat} {r : Res} (h : AtOnce ls w r) (l : Label κ) :
    AtOnce (ls ++ [l]) w r := by
  obtain ⟨a, b, s, s', id, c, rfl, h⟩ := h
  exact ⟨a, b ++ [l], s, s', id, c, by simp, h⟩

theorem Because.more {ls : List (Label κ)} {w : Nat} {r : Res} (h : Because ls w r) (l : Label κ) :
    Because (ls ++ [l]) w r := by
  obtain ⟨a, b, s, s', id, c, rfl, h⟩ := h
  exact ⟨a, b ++ [l], s, s', id, c, by simp, h⟩

/-- Where the result of an attempt comes from. -/
theorem telling_from {s s' : St κ} (i : Inv s) {l : Label κ} (hs : step s l = some s') {g : Nat} {id : κ}
    {ws : List Nat} {r : Res} (h : s'.attempts g = some (id, .telling ws r)) :
    (∃ ws', s.attempts g = some (id, .telling ws' r) ∧ ∀ w ∈ ws, w ∈ ws') ∨
      (Connects s id g ∧ l = ended g r ∧ (∀ c, r = .conn c → s.conns c = none ∧ Open s' id c) ∧
        ∀ w ∈ ws, Asked s w id) := by
  have same : s.attempts g = some (id, .telling ws r) →
      (∃ ws', s.attempts g = some (id, .telling ws' r) ∧ ∀ w ∈ ws, w ∈ ws') := fun h => ⟨ws, h, fun _ h => h⟩
  cases l with
  | ask id' =>
    injection hs with hs; subst hs
    have hb : (s.begin id').attempts g = some (id, .telling ws r) → s.attempts g = some (id, .telling ws r) := by
      intro h
      rcases upd_some h with ⟨-, h⟩ | ⟨-, h⟩
      · cases h
      · exact h
    unfold St.ask at h
    split at h
    · split at h
      · exact .inl (same h)
      · exact .inl (same (hb h))
    · exact .inl (same h)
    · exact .inl (same (hb h))
  | goes w =>
    simp only [step, St.goes] at hs
    split at hs
    · injection hs with hs; subst hs; exact .inl (same h)
    · cases hs
  | connected g' =>
    simp only [step, St.connected] at hs
    split at hs
    case _ id' hg =>
      obtain ⟨ws', he'⟩ := i.attemptEntry _ _ hg
      simp only [he', if_true] at hs
      injection hs with hs; subst hs
      rcases upd_some h with ⟨rfl, e⟩ | ⟨-, h⟩
      · cases e
        refine .inr ⟨hg, rfl, ?_, i.entryWaiters _ _ _ he'⟩
        rintro c ⟨⟩
        refine ⟨?_, upd_self _ _ _⟩
        cases e : s.conns s.clock with
        | none => rfl
        | some a => exact absurd (i.connsLt _ _ e) (Nat.lt_irrefl _)
      · exact .inl (same h)
    · cases hs
  | fails g' =>
    simp only [step, St.ends] at hs
    split at hs
    case _ id' hg =>
      obtain ⟨ws', he'⟩ := i.attemptEntry _ _ hg
      simp only [he', if_true] at hs
      injection hs with hs; subst hs
      rcases upd_some h with ⟨rfl, e⟩ | ⟨-, h⟩
      · cases e
        exact .inr ⟨hg, rfl, fun c hc => by (cases hc), i.entryWaiters _ _ _ he'⟩
      · exact .inl (same h)
    · cases hs
  | cancelled g' =>
    simp only [step, St.ends] at hs
    split at hs
    case _ id' hg =>
      obtain ⟨ws', he'⟩ := i.attemptEntry _ _ hg
      simp only [he', if_true] at hs
      injection hs with hs; subst hs
      rcases upd_some h with ⟨rfl, e⟩ | ⟨-, h⟩
      · cases e
        exact .inr ⟨hg, rfl, fun c hc => by (cases hc), i.entryWaiters _ _ _ he'⟩
      · exact .inl (same h)
    · cases hs
  | tell g' =>
    simp only [step, St.tell] at hs
    split at hs
    · injection hs with hs; subst hs
      replace h : upd s.attempts g' none g = some (id, .telling ws r) := h
      by_cases e : g = g'
      · subst e; rw [show upd s.attempts g none g = none from upd_self _ _ _] at h; cases h
      · rw [show upd s.attempts g' none g = s.attempts g from upd_ne _ _ _ e] at h; exact .inl (same h)
    case _ id' w' ws' r' hg =>
      have key : upd s.attempts g' (some (id', .telling ws' r')) g = some (id, .telling ws r) →
          ∃ ws', s.attempts g = some (id, .telling ws' r) ∧ ∀ w ∈ ws, w ∈ ws' := by
        intro h
        rcases upd_some h with ⟨rfl, e⟩ | ⟨-, h⟩
        · cases e; exact ⟨_, hg, fun w hw => .tail _ hw⟩
        · exact same h
      split at hs
      · injection hs with hs; subst hs; exact .inl (key h)
      · injection hs with hs; subst hs; exact .inl (key h)
    · cases hs
  | close c =>
    simp only [step, St.close] at hs
    split at hs
    · injection hs with hs; subst hs; exact .inl (same h)
    · cases hs
  | evict c =>
    simp only [step, St.evict] at hs
    split at hs
    · split at hs
      · injection hs with hs; subst hs; exact .inl (same h)
      · injection hs with hs; subst hs; exact .inl (same h)
    · cases hs

/-- Where an answer comes from. -/
theorem told_from {s s' : St κ} (i : Inv s) {l : Label κ} (hs : step s l = some s') {w : Nat} {r : Res}
    (t : Told s' w r) : Told s w r ∨
      (∃ id c, l = .ask id ∧ r = .conn c ∧ Open s id c ∧ s.callers w = none ∧ Asked s' w id) ∨
      (∃ g id ws id', s.attempts g = some (id, .telling (w :: ws) r) ∧ Waits s w id') := by
  have fresh : s.callers s.clock = none := by
    cases e : s.callers s.clock with
    | none => rfl
    | some a => exact absurd (i.callersLt _ _ e) (Nat.lt_irrefl _)
  cases l with
  | ask id =>
    injection hs with hs; subst hs
    unfold St.ask at t ⊢
    split at t
    case _ c' he =>
      split at t
      case isFalse => exact .inl t
      case isTrue ho =>
        rcases List.mem_append.1 t with t | t
        · exact .inl t
        · rw [List.mem_singleton] at t; cases t
          refine .inr (.inl ⟨id, c', rfl, rfl, ?_, fresh, .has (.conn c'), ?_⟩)
          · obtain ⟨o, e⟩ := i.entryConn _ _ he
            rw [St.isOpen, e] at ho
            have ho : o = true := ho
            rw [Open, e, ho]
          · simp only [he, ho, if_true]
            exact upd_self _ _ _
    · exact .inl t
    · exact .inl t
  | tell g =>
    simp only [step, St.tell] at hs
    split at hs
    · injection hs with hs; subst hs; exact .inl t
    case _ id w' ws r hg =>
      split at hs
      case _ id' hw =>
        injection hs with hs; subst hs
        rcases List.mem_append.1 t with t | t
        · exact .inl t
        · rw [List.mem_singleton] at t; cases t
          exact .inr (.inr ⟨g, id, ws, id', hg, hw⟩)
      · injection hs with hs; subst hs; exact .inl t
    · cases hs
  | goes w =>
    simp only [step, St.goes] at hs
    split at hs
    · injection hs with hs; subst hs; exact .inl t
    · cases hs
  | connected g =>
    simp only [step, St.connected] at hs
    repeat' split at hs
    all_goals first | (cases hs; done) | (injection hs with hs; subst hs; exact .inl t)
  | fails g =>
    simp only [step, St.ends] at hs
    repeat' split at hs
    all_goals first | (cases hs; done) | (injection hs with hs; subst hs; exact .inl t)
  | cancelled g =>
    simp only [step, St.ends] at hs
    repeat' split at hs
    all_goals first | (cases hs; done) | (injection hs with hs; subst hs; exact .inl t)
  | close g =>
    simp only [step, St.close] at hs
    repeat' split at hs
    all_goals first | (cases hs; done) | (injection hs with hs; subst hs; exact .inl t)
  | evict g =>
    simp only [step, St.evict] at hs
    repeat' split at hs
    all_goals first | (cases hs; done) | (injection hs with hs; subst hs; exact .inl t)

/-- What holds after a history. -/
structure Blamed (ls : List (Label κ)) (s : St κ) : Prop where
  inv : Inv s
  telling : ∀ g id ws r, s.attempts g = some (id, .telling ws r) → ∀ w ∈ ws, ∀ id', Waits s w id' → Because ls w r
  told : ∀ w r, Told s w r → AtOnce ls w r ∨ Because ls w r

theorem blamed_start : Blamed [] ({} : St κ) where
  inv := inv_start
  telling := by intro g id ws r h; cases h
  told := by intro w r h; cases h

theorem blamed_step {ls : List (Label κ)} {s s' : St κ} (st : Steps {} ls s) (b : Blamed ls s) {l : Label κ}
    (hs : step s l = some s') : Blamed (ls ++ [l]) s' where
  inv := inv_step b.inv hs
  telling := by
    intro g id ws r h w hw id' hwait
    rcases telling_from b.inv hs h with ⟨ws', h', hsub⟩ | ⟨hc, rfl, hconn, hask⟩
    · obtain ⟨c, hc⟩ := b.inv.telling _ _ _ _ h' w (hsub w hw)
      exact (b.telling g id ws' r h' w (hsub w hw) id'
        (callers_step b.inv hs hwait (by rw [hc]; simp))).more l
    · obtain ⟨x, hx⟩ := hask w hw
      have hwait' := callers_step b.inv hs hwait (by rw [hx]; simp)
      have : id' = id := by
        have e : s.callers w = some (id', .waits) := hwait'
        rw [hx] at e; cases e; rfl
      subst this
      exact ⟨ls, [], s, s', id', g, rfl, st, hs, hwait', hc, hconn⟩
  told := by
    intro w r h
    rcases told_from b.inv hs h with h | ⟨id, c, rfl, rfl, ho, hn, ha⟩ | ⟨g, id, ws, id', hg, hw⟩
    · exact (b.told w r h).imp (·.more l) (·.more l)
    · exact .inl ⟨ls, [], s, s', id, c, rfl, st, hs, hn, ha, ho, rfl⟩
    · exact .inr ((b.telling g id _ r hg w (.head _) id' hw).more l)

theorem Steps.snoc {s t u : St κ} {ls : List (Label κ)} {l : Label κ} (h : Steps s ls t) (hs : step t l = some u) :
    Steps s (ls ++ [l]) u := by
  induction h with
  | nil s => exact .cons hs (.nil _)
  | cons h _ ih => exact .cons h (ih hs)

theorem blamed_steps {s t : St κ} {ls : List (Label κ)} (h : Steps s ls t) :
    ∀ {before : List (Label κ)}, Steps {} before s → Blamed before s → Blamed (before ++ ls) t := by
  induction h with
  | nil s => intro before _ b; rw [List.append_nil]; exact b
  | @cons s t u l ls hs _ ih =>
    intro before st b
    have := ih (st.snoc hs) (blamed_step st b hs)
    rw [List.append_assoc] at this
    exact this

/-- **C97.** A caller is told a connection that was open when it asked, or the result of an attempt that was made for what
it asked for and ended while it waited: the connection if it connected, and an error only if it failed or was cancelled. -/
theorem C97_because {ls : List (Label κ)} {s : St κ} (h : Steps {} ls s) {w : Nat} {r : Res} (t : Told s w r) :
    AtOnce ls w r ∨ Because ls w r :=
  (blamed_steps h (.nil _) blamed_start).told w r t

theorem steps_after : ∀ {ls : List (Label κ)} {s t : St κ}, after ls s = some t → Steps s ls t
  | [], s, t, h => by injection h with h; subst h; exact .nil _
  | l :: ls, s, t, h => by
    rw [after] at h
    cases hs : step s l with
    | none => rw [hs] at h; cases h
    | some u => rw [hs] at h; exact .cons hs (steps_after h)

/-- In `run` there are callers that are told a connection at once, one that was waited for, and a failure. -/
example : ∃ s, Steps {} run s ∧ Told s 6 (.conn 5) ∧ Told s 2 (.conn 5) ∧ Told s 3 .failed := by
  have h : (after run {}).map (fun s => s.log) = some [(6, .conn 5), (2, .conn 5), (3, .failed), (7, .conn 9)] := by
    decide +kernel
  cases hr : after run {} with
  | none => rw [hr] at h; cases h
  | some s =>
    rw [hr] at h
    have h : s.log = _ := Option.some.inj h
    refine ⟨s, steps_after hr, ?_, ?_, ?_⟩ <;> (unfold Told; rw [h]; decide)

end Verif.Pool
