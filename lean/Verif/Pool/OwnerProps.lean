import Verif.Pool.Owner
import Verif.Pool.Lemmas

namespace Verif.Pool.Owner

/-! ### What an answer changes -/

section
variable (s : St) (w : Nat) (a : Answer)

@[simp] theorem answer_phase : (s.answer w a).phase = s.phase := by unfold St.answer; split <;> rfl
@[simp] theorem answer_queue : (s.answer w a).queue = s.queue := by unfold St.answer; split <;> rfl
@[simp] theorem answer_asking : (s.answer w a).asking = s.asking := by unfold St.answer; split <;> rfl
@[simp] theorem answer_permits : (s.answer w a).permits = s.permits := by unfold St.answer; split <;> rfl
@[simp] theorem answer_active : (s.answer w a).active = s.active := by unfold St.answer; split <;> rfl
@[simp] theorem answer_ops : (s.answer w a).ops = s.ops := by unfold St.answer; split <;> rfl
@[simp] theorem answer_completed : (s.answer w a).completed = s.completed := by unfold St.answer; split <;> rfl
@[simp] theorem answer_ended : (s.answer w a).ended = s.ended := by unfold St.answer; split <;> rfl
@[simp] theorem answer_sent : (s.answer w a).sent = s.sent := by unfold St.answer; split <;> rfl
@[simp] theorem answer_now : (s.answer w a).now = s.now := by unfold St.answer; split <;> rfl
@[simp] theorem answer_idle : (s.answer w a).idle = s.idle := by unfold St.answer; split <;> rfl
@[simp] theorem answer_deadline : (s.answer w a).deadline = s.deadline := by unfold St.answer; split <;> rfl
@[simp] theorem answer_next : (s.answer w a).next = s.next := by unfold St.answer; split <;> rfl

end

/-- What may happen to the callers and the log in one step: nothing; a new caller; one goes away; one gets an answer. -/
inductive Change (s s' : St) : Prop where
  | same : s'.callers = s.callers → s'.log = s.log → s'.next = s.next → Change s s'
  | new : s'.callers = upd s.callers s.next (some .waits) → s'.log = s.log → s'.next = s.next + 1 → Change s s'
  | gone (w : Nat) : s.callers w = some .waits → s'.callers = upd s.callers w (some .gone) → s'.log = s.log →
      s'.next = s.next → Change s s'
  | has (w : Nat) (a : Answer) : s.callers w = some .waits → s'.callers = upd s.callers w (some (.has a)) →
      s'.log = s.log ++ [(w, a)] → s'.next = s.next → Change s s'

theorem change_answer {s s' t : St} {w : Nat} {a : Answer} (h1 : t.callers = s.callers) (h2 : t.log = s.log)
    (h3 : t.next = s.next) (h4 : s'.callers = (t.answer w a).callers) (h5 : s'.log = (t.answer w a).log)
    (h6 : s'.next = t.next) : Change s s' := by
  unfold St.answer at h4 h5
  split at h4
  case isTrue ht =>
    rw [if_pos ht] at h5
    exact .has w a (by simpa [St.there, h1] using ht) (by rw [h4, h1]) (by rw [h5, h2]) (h6.trans h3)
  case isFalse ht =>
    rw [if_neg ht] at h5
    exact .same (h4.trans h1) (h5.trans h2) (h6.trans h3)

theorem change_step {s s' : St} {l : Label} (h : step s l = some s') : Change s s' := by
  cases l with
  | submit => injection h with h; subst h; exact .new rfl rfl rfl
  | reserve w =>
    simp only [step] at h
    split at h
    · split at h
      · split at h
        · injection h with h; subst h; exact .same rfl rfl rfl
        · cases h
      · injection h with h; subst h
        exact change_answer (t := { s with asking := s.asking.erase w }) rfl rfl rfl rfl rfl (by simp)
    · cases h
  | send w =>
    simp only [step] at h
    split at h
    · injection h with h; subst h; exact .same rfl rfl rfl
    · cases h
  | unable w =>
    simp only [step] at h
    split at h
    · injection h with h; subst h
      exact change_answer (t := { s with permits := s.permits.erase w }) rfl rfl rfl rfl rfl (by simp)
    · cases h
  | goes w =>
    simp only [step] at h
    split at h
    case isTrue ht =>
      injection h with h; subst h
      rw [Bool.and_eq_true] at ht
      exact .gone w (by simpa [St.there] using ht.1) rfl rfl rfl
    · cases h
  | take =>
    simp only [step] at h
    split at h
    · split at h
      · injection h with h; subst h
        split <;> exact .same rfl rfl rfl
      · injection h with h; subst h; exact .same rfl rfl rfl
    · cases h
  | opened =>
    simp only [step] at h
    split at h
    case _ w hp =>
      split at h
      · injection h with h; subst h
        exact change_answer (t := s) (w := w) (a := .started) rfl rfl rfl rfl rfl (by simp)
      · injection h with h; subst h; exact .same rfl rfl rfl
    · cases h
  | refuses e =>
    simp only [step] at h
    split at h
    case _ w hp =>
      injection h with h; subst h
      exact change_answer (t := s) (w := w) (a := .error e) rfl rfl rfl rfl rfl (by simp)
    · cases h
  | leaves =>
    simp only [step] at h
    split at h
    case _ w hp =>
      split at h
      · cases h
      · injection h with h; subst h; exact .same rfl rfl rfl
    · cases h
  | stopsEarly e =>
    simp only [step] at h
    split at h
    case _ w hp =>
      injection h with h; subst h
      exact change_answer (t := s) (w := w) (a := .error e) rfl rfl rfl rfl rfl (by simp)
    · cases h
  | ends w =>
    simp only [step] at h
    split at h
    · injection h with h; subst h; exact .same rfl rfl rfl
    · cases h
  | counted =>
    simp only [step] at h
    split at h
    · split at h
      · injection h with h; subst h
        split <;> exact .same rfl rfl rfl
      · cases h
    · cases h
  | stops e =>
    simp only [step] at h
    split at h
    · injection h with h; subst h; exact .same rfl rfl rfl
    · cases h
  | expires =>
    simp only [step] at h
    split at h
    · split at h
      · injection h with h; subst h; exact .same rfl rfl rfl
      · cases h
    · cases h
  | unused =>
    simp only [step] at h
    split at h
    · injection h with h; subst h; exact .same rfl rfl rfl
    · cases h
  | drain =>
    simp only [step] at h
    split at h
    case _ e w q hp hq =>
      injection h with h; subst h
      exact change_answer (t := { s with queue := q }) rfl rfl rfl rfl rfl (by simp)
    · cases h
  | finish =>
    simp only [step] at h
    split at h
    · injection h with h; subst h; exact .same rfl rfl rfl
    · cases h
  | tick n => injection h with h; subst h; exact .same rfl rfl rfl

structure InvC (s : St) : Prop where
  lt : ∀ w x, s.callers w = some x → w < s.next
  logged : ∀ w a, (w, a) ∈ s.log ↔ s.callers w = some (.has a)
  once : (s.log.map Prod.fst).Nodup

theorem invC_step {s s' : St} (i : InvC s) (h : Change s s') : InvC s' := by
  cases h with
  | same h1 h2 h3 => exact ⟨by rw [h1, h3]; exact i.lt, by rw [h1, h2]; exact i.logged, by rw [h2]; exact i.once⟩
  | new h1 h2 h3 =>
    refine ⟨?_, ?_, by rw [h2]; exact i.once⟩
    · intro w x h
      rw [h1] at h; rw [h3]
      rcases upd_some h with ⟨e, -⟩ | ⟨-, h⟩
      · omega
      · have := i.lt _ _ h; omega
    · intro w a
      rw [h1, h2, i.logged]
      constructor
      · intro h; rw [upd_ne _ _ _ (Nat.ne_of_lt (i.lt _ _ h)), h]
      · intro h
        rcases upd_some h with ⟨-, e⟩ | ⟨-, h⟩
        · cases e
        · exact h
  | gone w hw h1 h2 h3 =>
    refine ⟨?_, ?_, by rw [h2]; exact i.once⟩
    · intro w' x h
      rw [h1] at h; rw [h3]
      rcases upd_some h with ⟨e, -⟩ | ⟨-, h⟩
      · subst e; exact i.lt _ _ hw
      · exact i.lt _ _ h
    · intro w' a
      rw [h1, h2, i.logged]
      constructor
      · intro h
        rw [upd_ne _ _ _ ?_, h]
        rintro rfl; rw [hw] at h; cases h
      · intro h
        rcases upd_some h with ⟨-, e⟩ | ⟨-, h⟩
        · cases e
        · exact h
  | has w a hw h1 h2 h3 =>
    refine ⟨?_, ?_, ?_⟩
    · intro w' x h
      rw [h1] at h; rw [h3]
      rcases upd_some h with ⟨e, -⟩ | ⟨-, h⟩
      · subst e; exact i.lt _ _ hw
      · exact i.lt _ _ h
    · intro w' a'
      rw [h1, h2, List.mem_append, i.logged, List.mem_singleton]
      constructor
      · rintro (h | h)
        · rw [upd_ne _ _ _ ?_, h]
          rintro rfl; rw [hw] at h; cases h
        · cases h; exact upd_self _ _ _
      · intro h
        rcases upd_some h with ⟨rfl, e⟩ | ⟨-, h⟩
        · cases e; exact .inr rfl
        · exact .inl h
    · rw [h2, List.map_append, List.nodup_append]
      refine ⟨i.once, by simp, ?_⟩
      intro x hx y hy
      simp only [List.map_cons, List.map_nil, List.mem_singleton] at hy
      obtain ⟨⟨w', a'⟩, hm, rfl⟩ := List.mem_map.1 hx
      have h := (i.logged w' a').1 hm
      rw [hy]
      rintro rfl
      rw [hw] at h; cases h

theorem invC_reach {cap idle : Nat} {s : St} (h : Reach cap idle s) : InvC s := by
  induction h with
  | start => exact ⟨by simp [start], by simp [start], by simp [start]⟩
  | step l _ hs ih => exact invC_step ih (change_step hs)

/-- No caller gets two answers, and who has one does not wait any more. -/
theorem C98_once {cap idle : Nat} {s : St} (h : Reach cap idle s) :
    (s.log.map Prod.fst).Nodup ∧ ∀ w a, Told s w a → ¬ Waits s w := by
  have i := invC_reach h
  refine ⟨i.once, fun w a t hw => ?_⟩
  have := (i.logged w a).1 t
  rw [Waits, this] at hw; cases hw

/-! ### The connection is kept while it is used, and for some time after -/

structure InvT (idle : Nat) (s : St) : Prop where
  const : s.idle = idle
  count : s.active = s.ops.length + s.completed
  past : ∀ e ∈ s.ended, e.2 ≤ s.now
  due : s.active = 0 → ∀ e ∈ s.ended, e.2 + idle ≤ s.deadline

theorem invT_step {idle : Nat} {s s' : St} (i : InvT idle s) {l : Label} (h : step s l = some s') : InvT idle s' := by
  have reset : InvT idle s.reset := by
    refine ⟨i.const, i.count, i.past, fun _ e he => ?_⟩
    have := i.past e he
    show e.2 + idle ≤ s.now + s.idle
    rw [i.const]; omega
  cases l with
  | submit => injection h with h; subst h; exact ⟨i.const, i.count, i.past, i.due⟩
  | reserve w =>
    simp only [step] at h
    split at h
    · split at h
      · split at h
        · injection h with h; subst h; exact ⟨i.const, i.count, i.past, i.due⟩
        · cases h
      · injection h with h; subst h
        exact ⟨by simpa using i.const, by simpa using i.count, by simpa using i.past, by simpa using i.due⟩
    · cases h
  | send w =>
    simp only [step] at h
    split at h
    · injection h with h; subst h; exact ⟨i.const, i.count, i.past, i.due⟩
    · cases h
  | unable w =>
    simp only [step] at h
    split at h
    · injection h with h; subst h
      exact ⟨by simpa using i.const, by simpa using i.count, by simpa using i.past, by simpa using i.due⟩
    · cases h
  | goes w =>
    simp only [step] at h
    split at h
    · injection h with h; subst h; exact ⟨i.const, i.count, i.past, i.due⟩
    · cases h
  | take =>
    simp only [step] at h
    split at h
    · split at h
      · injection h with h; subst h
        split
        · exact ⟨reset.const, reset.count, reset.past, reset.due⟩
        · exact ⟨i.const, i.count, i.past, i.due⟩
      · injection h with h; subst h; exact ⟨i.const, i.count, i.past, i.due⟩
    · cases h
  | opened =>
    simp only [step] at h
    split at h
    case _ w hp =>
      split at h
      · injection h with h; subst h
        refine ⟨by simpa using i.const, ?_, by simpa using i.past, fun h0 => by simp at h0⟩
        have := i.count
        simp only [answer_completed, List.length_append, List.length_singleton]; omega
      · injection h with h; subst h; exact ⟨i.const, i.count, i.past, i.due⟩
    · cases h
  | refuses e =>
    simp only [step] at h
    split at h
    case _ w hp =>
      injection h with h; subst h
      exact ⟨by simpa using i.const, by simpa using i.count, by simpa using i.past, by simpa using i.due⟩
    · cases h
  | leaves =>
    simp only [step] at h
    split at h
    case _ w hp =>
      split at h
      · cases h
      · injection h with h; subst h; exact ⟨i.const, i.count, i.past, i.due⟩
    · cases h
  | stopsEarly e =>
    simp only [step] at h
    split at h
    case _ w hp =>
      injection h with h; subst h
      exact ⟨by simpa using i.const, by simpa using i.count, by simpa using i.past, by simpa using i.due⟩
    · cases h
  | ends w =>
    simp only [step] at h
    split at h
    case isTrue hm =>
      injection h with h; subst h
      have hl := List.length_erase_of_mem hm
      have hp : 0 < s.ops.length := List.length_pos_of_mem hm
      have hc := i.count
      refine ⟨i.const, ?_, ?_, ?_⟩
      · show s.active = (s.ops.erase w).length + (s.completed + 1)
        omega
      · intro e he
        rcases List.mem_append.1 he with he | he
        · exact i.past e he
        · rw [List.mem_singleton] at he; subst he; exact Nat.le_refl _
      · intro h0
        have h0 : s.active = 0 := h0
        omega
    · cases h
  | counted =>
    simp only [step] at h
    split at h
    · split at h
      case isTrue hc =>
        injection h with h; subst h
        have hn := i.count
        split
        · refine ⟨i.const, ?_, i.past, fun _ e he => ?_⟩
          · show s.active - 1 = s.ops.length + (s.completed - 1)
            omega
          · have := i.past e he
            show e.2 + idle ≤ s.now + s.idle
            rw [i.const]; omega
        case isFalse h1 =>
          refine ⟨i.const, ?_, i.past, fun h0 => absurd h0 h1⟩
          show s.active - 1 = s.ops.length + (s.completed - 1)
          omega
      · cases h
    · cases h
  | stops e =>
    simp only [step] at h
    split at h
    · injection h with h; subst h; exact ⟨i.const, i.count, i.past, i.due⟩
    · cases h
  | expires =>
    simp only [step] at h
    split at h
    · split at h
      · injection h with h; subst h; exact ⟨i.const, i.count, i.past, i.due⟩
      · cases h
    · cases h
  | unused =>
    simp only [step] at h
    split at h
    · injection h with h; subst h; exact ⟨i.const, i.count, i.past, i.due⟩
    · cases h
  | drain =>
    simp only [step] at h
    split at h
    · injection h with h; subst h
      exact ⟨by simpa using i.const, by simpa using i.count, by simpa using i.past, by simpa using i.due⟩
    · cases h
  | finish =>
    simp only [step] at h
    split at h
    · injection h with h; subst h; exact ⟨i.const, i.count, i.past, i.due⟩
    · cases h
  | tick n =>
    injection h with h; subst h
    refine ⟨i.const, i.count, fun e he => ?_, i.due⟩
    exact Nat.le_trans (i.past e he) (Nat.le_add_right _ _)

theorem invT_reach {cap idle : Nat} {s : St} (h : Reach cap idle s) : InvT idle s := by
  induction h with
  | start => exact ⟨rfl, rfl, by simp [start], by simp [start]⟩
  | step l _ hs ih => exact invT_step ih hs

/-- When the owner closes the connection for being idle, no operation runs on it, and the last one ended at least
`idle_timeout` before. -/
theorem C98_idle {cap idle : Nat} {s s' : St} (h : Reach cap idle s) (hs : step s .expires = some s') :
    (∀ w, ¬ Runs s w) ∧ ∀ w t, (w, t) ∈ s.ended → t + idle ≤ s.now := by
  have i := invT_reach h
  simp only [step] at hs
  split at hs
  · split at hs
    case isTrue hc =>
      have hn := i.count
      refine ⟨fun w hw => ?_, fun w t he => Nat.le_trans (i.due hc.1 _ he) hc.2⟩
      have := List.length_pos_of_mem hw
      omega
    · cases hs
  · cases hs

/-! ### What was started runs -/

theorem told_answer {s : St} {w w' : Nat} {a b : Answer} (h : Told (s.answer w' a) w b) :
    Told s w b ∨ (w = w' ∧ b = a ∧ Waits s w) := by
  unfold St.answer at h
  split at h
  case isTrue ht =>
    rcases List.mem_append.1 h with h | h
    · exact .inl h
    · rw [List.mem_singleton] at h; cases h; exact .inr ⟨rfl, rfl, by simpa [St.there, Waits] using ht⟩
  case isFalse => exact .inl h

theorem answer_told {s : St} {w w' : Nat} {a b : Answer} (h : Told s w b) : Told (s.answer w' a) w b := by
  unfold St.answer
  split
  · exact List.mem_append.2 (.inl h)
  · exact h

/-- An operation has started if and only if it runs or ran. -/
def Started (s : St) : Prop := ∀ w, Told s w .started ↔ (Runs s w ∨ ∃ t, (w, t) ∈ s.ended)

theorem started_same {s s' : St} (i : Started s) (h1 : s'.log = s.log) (h2 : s'.ops = s.ops) (h3 : s'.ended = s.ended) :
    Started s' := by
  intro w
  have := i w
  rw [Told, Runs] at this ⊢
  rw [h1, h2, h3]; exact this

theorem started_answer {s s' t : St} (i : Started s) {w : Nat} {a : Answer} (ha : a ≠ .started) (h0 : t.log = s.log)
    (h1 : s'.log = (t.answer w a).log) (h2 : s'.ops = s.ops) (h3 : s'.ended = s.ended) : Started s' := by
  intro w'
  have hi := i w'
  rw [Runs] at hi ⊢
  rw [h2, h3, ← hi]
  constructor
  · intro h
    rw [Told, h1] at h
    rcases told_answer h with h | ⟨-, e, -⟩
    · rw [Told, h0] at h; exact h
    · exact absurd e.symm ha
  · intro h
    rw [Told, ← h0] at h
    rw [Told, h1]
    exact answer_told h

theorem started_step {s s' : St} (i : Started s) {l : Label} (h : step s l = some s') : Started s' := by
  cases l with
  | submit => injection h with h; subst h; exact started_same i rfl rfl rfl
  | reserve w =>
    simp only [step] at h
    split at h
    · split at h
      · split at h
        · injection h with h; subst h; exact started_same i rfl rfl rfl
        · cases h
      · injection h with h; subst h
        exact started_answer (t := { s with asking := s.asking.erase w }) i (a := .refused) (by simp) rfl rfl (by simp)
          (by simp)
    · cases h
  | send w =>
    simp only [step] at h
    split at h
    · injection h with h; subst h; exact started_same i rfl rfl rfl
    · cases h
  | unable w =>
    simp only [step] at h
    split at h
    · injection h with h; subst h
      exact started_answer (t := { s with permits := s.permits.erase w }) i (a := .invalid) (by simp) rfl rfl (by simp)
        (by simp)
    · cases h
  | goes w =>
    simp only [step] at h
    split at h
    · injection h with h; subst h; exact started_same i rfl rfl rfl
    · cases h
  | take =>
    simp only [step] at h
    split at h
    · split at h
      · injection h with h; subst h
        split <;> exact started_same i rfl rfl rfl
      · injection h with h; subst h; exact started_same i rfl rfl rfl
    · cases h
  | opened =>
    simp only [step] at h
    split at h
    case _ w hp =>
      split at h
      case isTrue ht =>
        injection h with h; subst h
        intro w'
        have hi := i w'
        show (w', Answer.started) ∈ (s.answer w .started).log ↔ w' ∈ s.ops ++ [w] ∨ ∃ t, (w', t) ∈ (s.answer w .started).ended
        rw [St.answer, if_pos ht]
        show (w', Answer.started) ∈ s.log ++ [(w, Answer.started)] ↔ w' ∈ s.ops ++ [w] ∨ ∃ t, (w', t) ∈ s.ended
        rw [List.mem_append, List.mem_append, List.mem_singleton, List.mem_singleton]
        rw [show (w', Answer.started) ∈ s.log ↔ _ from hi]
        constructor
        · rintro ((h | h) | h)
          · exact .inl (.inl h)
          · exact .inr h
          · cases h; exact .inl (.inr rfl)
        · rintro ((h | h) | h)
          · exact .inl (.inl h)
          · subst h; exact .inr rfl
          · exact .inl (.inr h)
      · injection h with h; subst h; exact started_same i rfl rfl rfl
    · cases h
  | refuses e =>
    simp only [step] at h
    split at h
    case _ w hp =>
      injection h with h; subst h
      exact started_answer (t := s) (w := w) i (a := .error e) (by simp) rfl rfl (by simp) (by simp)
    · cases h
  | leaves =>
    simp only [step] at h
    split at h
    case _ w hp =>
      split at h
      · cases h
      · injection h with h; subst h; exact started_same i rfl rfl rfl
    · cases h
  | stopsEarly e =>
    simp only [step] at h
    split at h
    case _ w hp =>
      injection h with h; subst h
      exact started_answer (t := s) (w := w) i (a := .error e) (by simp) rfl rfl (by simp) (by simp)
    · cases h
  | ends w =>
    simp only [step] at h
    split at h
    case isTrue hm =>
      injection h with h; subst h
      intro w'
      refine (i w').trans ?_
      show (w' ∈ s.ops ∨ ∃ t, (w', t) ∈ s.ended) ↔ (w' ∈ s.ops.erase w ∨ ∃ t, (w', t) ∈ s.ended ++ [(w, s.now)])
      constructor
      · rintro (h | ⟨t, h⟩)
        · by_cases e : w' = w
          · subst e; exact .inr ⟨s.now, by simp⟩
          · exact .inl ((List.mem_erase_of_ne e).2 h)
        · exact .inr ⟨t, List.mem_append.2 (.inl h)⟩
      · rintro (h | ⟨t, h⟩)
        · exact .inl (List.mem_of_mem_erase h)
        · rcases List.mem_append.1 h with h | h
          · exact .inr ⟨t, h⟩
          · rw [List.mem_singleton] at h; cases h; exact .inl hm
    · cases h
  | counted =>
    simp only [step] at h
    split at h
    · split at h
      · injection h with h; subst h
        split <;> exact started_same i rfl rfl rfl
      · cases h
    · cases h
  | stops e =>
    simp only [step] at h
    split at h
    · injection h with h; subst h; exact started_same i rfl rfl rfl
    · cases h
  | expires =>
    simp only [step] at h
    split at h
    · split at h
      · injection h with h; subst h; exact started_same i rfl rfl rfl
      · cases h
    · cases h
  | unused =>
    simp only [step] at h
    split at h
    · injection h with h; subst h; exact started_same i rfl rfl rfl
    · cases h
  | drain =>
    simp only [step] at h
    split at h
    case _ e w q hp hq =>
      injection h with h; subst h
      exact started_answer (t := { s with queue := q }) (w := w) i (a := .error e) (by simp) rfl rfl (by simp) (by simp)
    · cases h
  | finish =>
    simp only [step] at h
    split at h
    · injection h with h; subst h; exact started_same i rfl rfl rfl
    · cases h
  | tick n => injection h with h; subst h; exact started_same i rfl rfl rfl

/-- A caller is told that its operation has started if and only if that operation runs on the connection, or ran. -/
theorem C98_started {cap idle : Nat} {s : St} (h : Reach cap idle s) (w : Nat) :
    Told s w .started ↔ (Runs s w ∨ ∃ t, (w, t) ∈ s.ended) := by
  suffices Started s from this w
  induction h with
  | start => intro w; simp [start, Told, Runs]
  | step l _ hs ih => exact started_step ih hs

end Verif.Pool.Owner
