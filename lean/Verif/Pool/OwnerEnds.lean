import Verif.Pool.OwnerProps

namespace Verif.Pool.Owner

/-! ### Nobody is left waiting -/

/-- Where a caller that waits can be. -/
def Placed (s : St) : Prop :=
  ∀ w, s.callers w = some .waits → w ∈ s.asking ∨ w ∈ s.permits ∨ w ∈ s.queue ∨ s.phase = .subscribing w

theorem placed_answer {s' t : St} {w : Nat} {a : Answer} (hc : s'.callers = (t.answer w a).callers)
    (h : ∀ w', w' ≠ w → t.callers w' = some .waits →
      w' ∈ s'.asking ∨ w' ∈ s'.permits ∨ w' ∈ s'.queue ∨ s'.phase = .subscribing w') : Placed s' := by
  intro w' hw'
  rw [hc] at hw'
  unfold St.answer at hw'
  split at hw'
  case isTrue ht =>
    rcases upd_some hw' with ⟨-, e⟩ | ⟨hne, e⟩
    · cases e
    · exact h w' hne e
  case isFalse ht =>
    refine h w' ?_ hw'
    rintro rfl
    simp [St.there, hw'] at ht

theorem placed_step {s s' : St} (i : Placed s) {l : Label} (h : step s l = some s') : Placed s' := by
  cases l with
  | submit =>
    injection h with h; subst h
    intro w hw
    rcases upd_some hw with ⟨e, -⟩ | ⟨-, hw⟩
    · subst e; exact .inl (by simp)
    · rcases i w hw with h | h
      · exact .inl (List.mem_append.2 (.inl h))
      · exact .inr h
  | reserve w =>
    simp only [step] at h
    split at h
    · split at h
      · split at h
        · injection h with h; subst h
          intro w' hw'
          rcases i w' hw' with h | h | h
          · by_cases e : w' = w
            · subst e; exact .inr (.inl (by simp))
            · exact .inl ((List.mem_erase_of_ne e).2 h)
          · exact .inr (.inl (List.mem_append.2 (.inl h)))
          · exact .inr (.inr h)
        · cases h
      · injection h with h; subst h
        refine placed_answer (t := { s with asking := s.asking.erase w }) rfl fun w' hne hw' => ?_
        simp only [answer_asking, answer_permits, answer_queue, answer_phase]
        rcases i w' hw' with h | h
        · exact .inl ((List.mem_erase_of_ne hne).2 h)
        · exact .inr h
    · cases h
  | send w =>
    simp only [step] at h
    split at h
    · injection h with h; subst h
      intro w' hw'
      rcases i w' hw' with h | h | h | h
      · exact .inl h
      · by_cases e : w' = w
        · subst e; exact .inr (.inr (.inl (by simp)))
        · exact .inr (.inl ((List.mem_erase_of_ne e).2 h))
      · exact .inr (.inr (.inl (List.mem_append.2 (.inl h))))
      · exact .inr (.inr (.inr h))
    · cases h
  | unable w =>
    simp only [step] at h
    split at h
    · injection h with h; subst h
      refine placed_answer (t := { s with permits := s.permits.erase w }) rfl fun w' hne hw' => ?_
      simp only [answer_asking, answer_permits, answer_queue, answer_phase]
      rcases i w' hw' with h | h | h
      · exact .inl h
      · exact .inr (.inl ((List.mem_erase_of_ne hne).2 h))
      · exact .inr (.inr h)
    · cases h
  | goes w =>
    simp only [step] at h
    split at h
    · injection h with h; subst h
      intro w' hw'
      rcases upd_some hw' with ⟨-, e⟩ | ⟨hne, hw'⟩
      · cases e
      · rcases i w' hw' with h | h
        · exact .inl ((List.mem_erase_of_ne hne).2 h)
        · exact .inr h
    · cases h
  | take =>
    simp only [step] at h
    split at h
    case _ w q hp hq =>
      have hplace : ∀ t : St, t.callers = s.callers → t.asking = s.asking → t.permits = s.permits →
          t.queue = q → (t.phase = .subscribing w ∨ s.callers w ≠ some .waits) → Placed t := by
        intro t h1 h2 h3 h4 h5 w' hw'
        rw [h1] at hw'
        rw [h2, h3, h4]
        rcases i w' hw' with h | h | h | h
        · exact .inl h
        · exact .inr (.inl h)
        · rw [hq] at h
          rcases List.mem_cons.1 h with e | h
          · subst e
            rcases h5 with h5 | h5
            · exact .inr (.inr (.inr h5))
            · exact absurd hw' h5
          · exact .inr (.inr (.inl h))
        · rw [hp] at h; cases h
      split at h
      · injection h with h; subst h
        split <;> exact hplace _ rfl rfl rfl rfl (.inl rfl)
      case isFalse ht =>
        injection h with h; subst h
        exact hplace _ rfl rfl rfl rfl (.inr (by simpa [St.there] using ht))
    · cases h
  | opened =>
    simp only [step] at h
    split at h
    case _ w hp =>
      split at h
      case isTrue ht =>
        injection h with h; subst h
        refine placed_answer (t := s) (w := w) (a := .started) rfl fun w' hne hw' => ?_
        simp only [answer_asking, answer_permits, answer_queue]
        rcases i w' hw' with h | h | h | h
        · exact .inl h
        · exact .inr (.inl h)
        · exact .inr (.inr (.inl h))
        · rw [hp] at h; cases h; exact absurd rfl hne
      case isFalse ht =>
        injection h with h; subst h
        intro w' hw'
        rcases i w' hw' with h | h | h | h
        · exact .inl h
        · exact .inr (.inl h)
        · exact .inr (.inr (.inl h))
        · rw [hp] at h; cases h
          have hw' : s.callers w = some .waits := hw'
          simp [St.there, hw'] at ht
    · cases h
  | refuses e =>
    simp only [step] at h
    split at h
    case _ w hp =>
      injection h with h; subst h
      refine placed_answer (t := s) (w := w) (a := .error e) rfl fun w' hne hw' => ?_
      simp only [answer_asking, answer_permits, answer_queue]
      rcases i w' hw' with h | h | h | h
      · exact .inl h
      · exact .inr (.inl h)
      · exact .inr (.inr (.inl h))
      · rw [hp] at h; cases h; exact absurd rfl hne
    · cases h
  | leaves =>
    simp only [step] at h
    split at h
    case _ w hp =>
      split at h
      · cases h
      case isFalse ht =>
        injection h with h; subst h
        intro w' hw'
        rcases i w' hw' with h | h | h | h
        · exact .inl h
        · exact .inr (.inl h)
        · exact .inr (.inr (.inl h))
        · rw [hp] at h; cases h
          have hw' : s.callers w = some .waits := hw'
          simp [St.there, hw'] at ht
    · cases h
  | stopsEarly e =>
    simp only [step] at h
    split at h
    case _ w hp =>
      injection h with h; subst h
      refine placed_answer (t := s) (w := w) (a := .error e) rfl fun w' hne hw' => ?_
      simp only [answer_asking, answer_permits, answer_queue]
      rcases i w' hw' with h | h | h | h
      · exact .inl h
      · exact .inr (.inl h)
      · exact .inr (.inr (.inl h))
      · rw [hp] at h; cases h; exact absurd rfl hne
    · cases h
  | ends w =>
    simp only [step] at h
    split at h
    · injection h with h; subst h; exact i
    · cases h
  | counted =>
    simp only [step] at h
    split at h
    · split at h
      · injection h with h; subst h
        split <;> exact i
      · cases h
    · cases h
  | stops e =>
    simp only [step] at h
    split at h
    case _ hp =>
      injection h with h; subst h
      intro w' hw'
      rcases i w' hw' with h | h | h | h
      · exact .inl h
      · exact .inr (.inl h)
      · exact .inr (.inr (.inl h))
      · rw [hp] at h; cases h
    · cases h
  | expires =>
    simp only [step] at h
    split at h
    case _ hp =>
      split at h
      · injection h with h; subst h
        intro w' hw'
        rcases i w' hw' with h | h | h | h
        · exact .inl h
        · exact .inr (.inl h)
        · exact .inr (.inr (.inl h))
        · rw [hp] at h; cases h
      · cases h
    · cases h
  | unused =>
    simp only [step] at h
    split at h
    case _ hp _ _ _ =>
      injection h with h; subst h
      intro w' hw'
      rcases i w' hw' with h | h | h | h
      · exact .inl h
      · exact .inr (.inl h)
      · exact .inr (.inr (.inl h))
      · rw [hp] at h; cases h
    · cases h
  | drain =>
    simp only [step] at h
    split at h
    case _ e w q hp hq =>
      injection h with h; subst h
      refine placed_answer (t := { s with queue := q }) rfl fun w' hne hw' => ?_
      simp only [answer_asking, answer_permits, answer_queue, answer_phase]
      rcases i w' hw' with h | h | h | h
      · exact .inl h
      · exact .inr (.inl h)
      · rw [hq] at h
        rcases List.mem_cons.1 h with e | h
        · exact absurd e hne
        · exact .inr (.inr (.inl h))
      · exact .inr (.inr (.inr h))
    · cases h
  | finish =>
    simp only [step] at h
    split at h
    case _ e hp _ _ =>
      injection h with h; subst h
      intro w' hw'
      rcases i w' hw' with h | h | h | h
      · exact .inl h
      · exact .inr (.inl h)
      · exact .inr (.inr (.inl h))
      · rw [hp] at h; cases h
    · cases h
  | tick n => injection h with h; subst h; exact i

theorem placed_reach {cap idle : Nat} {s : St} (h : Reach cap idle s) : Placed s := by
  induction h with
  | start => intro w hw; cases hw
  | step l _ hs ih => exact placed_step ih hs

/-- After the end there is nothing in the queue and no permit. -/
def Empty (s : St) : Prop := s.phase = .done → s.queue = [] ∧ s.permits = []

theorem empty_step {s s' : St} (i : Empty s) {l : Label} (h : step s l = some s') : Empty s' := by
  cases l with
  | submit => injection h with h; subst h; exact i
  | reserve w =>
    simp only [step] at h
    split at h
    · split at h
      case isTrue ht =>
        split at h
        · injection h with h; subst h
          intro hd
          have hd : s.phase = .done := hd
          rw [St.takes, hd] at ht; cases ht
        · cases h
      · injection h with h; subst h; intro hd; simpa using i (by simpa using hd)
    · cases h
  | send w =>
    simp only [step] at h
    split at h
    case isTrue hm =>
      injection h with h; subst h
      intro hd
      rw [(i hd).2] at hm; cases hm
    · cases h
  | unable w =>
    simp only [step] at h
    split at h
    case isTrue hm =>
      injection h with h; subst h
      intro hd
      rw [(i (by simpa using hd)).2] at hm; cases hm
    · cases h
  | goes w =>
    simp only [step] at h
    split at h
    · injection h with h; subst h; exact i
    · cases h
  | take =>
    simp only [step] at h
    split at h
    case _ hp hq =>
      split at h
      · injection h with h; subst h; intro hd; cases hd
      · injection h with h; subst h
        intro hd
        have hd : s.phase = .done := hd
        rw [hp] at hd; cases hd
    · cases h
  | opened =>
    simp only [step] at h
    split at h
    · split at h
      · injection h with h; subst h; intro hd; cases hd
      · injection h with h; subst h; intro hd; cases hd
    · cases h
  | refuses e =>
    simp only [step] at h
    split at h
    · injection h with h; subst h; intro hd; cases hd
    · cases h
  | leaves =>
    simp only [step] at h
    split at h
    · split at h
      · cases h
      · injection h with h; subst h; intro hd; cases hd
    · cases h
  | stopsEarly e =>
    simp only [step] at h
    split at h
    · injection h with h; subst h; intro hd; cases hd
    · cases h
  | ends w =>
    simp only [step] at h
    split at h
    · injection h with h; subst h; exact i
    · cases h
  | counted =>
    simp only [step] at h
    split at h
    · split at h
      · injection h with h; subst h
        split <;> exact i
      · cases h
    · cases h
  | stops e =>
    simp only [step] at h
    split at h
    · injection h with h; subst h; intro hd; cases hd
    · cases h
  | expires =>
    simp only [step] at h
    split at h
    · split at h
      · injection h with h; subst h; intro hd; cases hd
      · cases h
    · cases h
  | unused =>
    simp only [step] at h
    split at h
    · injection h with h; subst h; intro hd; cases hd
    · cases h
  | drain =>
    simp only [step] at h
    split at h
    case _ hp hq =>
      injection h with h; subst h
      intro hd
      have hd : s.phase = .done := by simpa using hd
      rw [hp] at hd; cases hd
    · cases h
  | finish =>
    simp only [step] at h
    split at h
    case _ h1 h2 h3 => injection h with h; subst h; intro _; exact ⟨h2, h3⟩
    · cases h
  | tick n => injection h with h; subst h; exact i

/-- When the owner has come to its end, no command is without its answer. Who still waits has not got into the queue, and
is turned away as soon as it goes on. -/
theorem C98_nobody_left {cap idle : Nat} {s : St} (h : Reach cap idle s) (hd : s.phase = .done) {w : Nat}
    (hw : Waits s w) : ∃ s', step s (.reserve w) = some s' ∧ Told s' w .refused := by
  have he : Empty s := by
    clear hd hw
    induction h with
    | start => intro hd; cases hd
    | step l _ hs ih => exact empty_step ih hs
  obtain ⟨hq, hp⟩ := he hd
  have ha : w ∈ s.asking := by
    rcases placed_reach h w hw with h | h | h | h
    · exact h
    · rw [hp] at h; cases h
    · rw [hq] at h; cases h
    · rw [hd] at h; cases h
  have ht : s.takes = false := by rw [St.takes, hd]
  have hth : ({ s with asking := s.asking.erase w } : St).there w = true := by
    simp only [St.there]; exact decide_eq_true hw
  refine ⟨({ s with asking := s.asking.erase w } : St).answer w .refused, by simp [step, ha, ht], ?_⟩
  rw [St.answer, if_pos hth]
  exact List.mem_append.2 (.inr (by simp))

/-- The states after some steps. -/
inductive Steps : St → List Label → St → Prop where
  | nil (s : St) : Steps s [] s
  | cons {s t u : St} {l : Label} {ls : List Label} : step s l = some t → Steps t ls u → Steps s (l :: ls) u

/-- Once the connection is closing and the permits are used, the owner gets to its end by itself, and every caller with a
command in the queue is told why. -/
theorem C98_drains {e : Err} : ∀ {q : List Nat} {s : St}, s.phase = .closing e → s.queue = q → s.permits = [] →
    ∃ t, Steps s (List.replicate q.length .drain ++ [.finish]) t ∧ t.phase = .done ∧
      (∀ w ∈ q, Waits s w → Told t w (.error e)) ∧ ∀ w a, Told s w a → Told t w a
  | [], s, hp, hq, hm => by
    refine ⟨{ s with phase := .done }, .cons ?_ (.nil _), rfl, by simp, fun _ _ h => h⟩
    simp [step, hp, hq, hm]
  | w :: q, s, hp, hq, hm => by
    have hs : step s .drain = some (({ s with queue := q } : St).answer w (.error e)) := by simp [step, hp, hq]
    obtain ⟨t, h1, h2, h3, h4⟩ := C98_drains (e := e) (q := q) (s := ({ s with queue := q } : St).answer w (.error e))
      (by simpa using hp) (by simp) (by simpa using hm)
    refine ⟨t, .cons hs h1, h2, fun w' hw' hwait => ?_, fun w' a h => h4 _ _ (answer_told h)⟩
    by_cases e' : w' = w
    · subst e'
      refine h4 _ _ ?_
      have hth : ({ s with queue := q } : St).there w' = true := by simp only [St.there]; exact decide_eq_true hwait
      rw [St.answer, if_pos hth]
      exact List.mem_append.2 (.inr (by simp))
    · rcases List.mem_cons.1 hw' with h | h
      · exact absurd h e'
      · refine h3 w' h ?_
        rw [Waits, St.answer]
        split
        · exact (upd_ne _ _ _ e').trans hwait
        · exact hwait

/-! ### After it is closed nothing is started -/

/-- A closed connection stays closed, and nobody is told any more that an operation has started. -/
theorem C98_closed {s s' : St} {l : Label} (hs : step s l = some s') (hc : Closed s) :
    Closed s' ∧ ∀ w, Told s' w .started → Told s w .started := by
  have ans : ∀ {t t' : St} {w : Nat} {a : Answer}, t.log = s.log → t.phase = s.phase → a ≠ .started →
      t' = t.answer w a → Closed t' ∧ ∀ w, Told t' w .started → Told s w .started := by
    rintro t t' w a h1 h2 ha rfl
    refine ⟨by simpa [Closed, h2] using hc, fun w' h => ?_⟩
    rcases told_answer h with h | ⟨-, e, -⟩
    · rw [Told, h1] at h; exact h
    · exact absurd e.symm ha
  have nl : s.phase ≠ .listening := by
    rcases hc with ⟨e, h⟩ | h <;> rw [h] <;> simp
  have ns : ∀ w, s.phase ≠ .subscribing w := by
    intro w
    rcases hc with ⟨e, h⟩ | h <;> rw [h] <;> simp
  cases l with
  | submit => injection hs with hs; subst hs; exact ⟨hc, fun _ h => h⟩
  | reserve w =>
    simp only [step] at hs
    split at hs
    · split at hs
      · split at hs
        · injection hs with hs; subst hs; exact ⟨hc, fun _ h => h⟩
        · cases hs
      · injection hs with hs
        exact ans (t := { s with asking := s.asking.erase w }) rfl rfl (by simp) hs.symm
    · cases hs
  | send w =>
    simp only [step] at hs
    split at hs
    · injection hs with hs; subst hs; exact ⟨hc, fun _ h => h⟩
    · cases hs
  | unable w =>
    simp only [step] at hs
    split at hs
    · injection hs with hs
      exact ans (t := { s with permits := s.permits.erase w }) rfl rfl (by simp) hs.symm
    · cases hs
  | goes w =>
    simp only [step] at hs
    split at hs
    · injection hs with hs; subst hs; exact ⟨hc, fun _ h => h⟩
    · cases hs
  | take =>
    simp only [step] at hs
    split at hs
    case _ hp _ => exact absurd hp nl
    · cases hs
  | opened =>
    simp only [step] at hs
    cases hs
  | refuses e =>
    simp only [step] at hs
    cases hs
  | leaves =>
    simp only [step] at hs
    cases hs
  | stopsEarly e =>
    simp only [step] at hs
    cases hs
  | ends w =>
    simp only [step] at hs
    split at hs
    · injection hs with hs; subst hs; exact ⟨hc, fun _ h => h⟩
    · cases hs
  | counted =>
    simp only [step] at hs
    cases hs
  | stops e =>
    simp only [step] at hs
    cases hs
  | expires =>
    simp only [step] at hs
    cases hs
  | unused =>
    simp only [step] at hs
    split at hs
    case _ hp _ _ _ => exact absurd hp nl
    · cases hs
  | drain =>
    simp only [step] at hs
    split at hs
    case _ e w q hp hq =>
      injection hs with hs
      exact ans (t := { s with queue := q }) rfl rfl (by simp) hs.symm
    · cases hs
  | finish =>
    simp only [step] at hs
    split at hs
    · injection hs with hs; subst hs; exact ⟨.inr rfl, fun _ h => h⟩
    · cases hs
  | tick n => injection hs with hs; subst hs; exact ⟨hc, fun _ h => h⟩

/-! ### First come, first served -/

/-- The owner answers with a start or an error. -/
def byOwner : Nat × Answer → Bool
  | (_, .started) | (_, .error _) => true
  | _ => false

/-- The command that is being started. -/
def now (s : St) : List Nat :=
  match s.phase with
  | .subscribing w => [w]
  | _ => []

def InOrder (s : St) : Prop :=
  ∃ handled, s.sent = handled ++ now s ++ s.queue ∧ ((s.log.filter byOwner).map Prod.fst).Sublist handled

theorem inOrder_same {s s' : St} (i : InOrder s) (h1 : s'.sent = s.sent) (h2 : now s' = now s) (h3 : s'.queue = s.queue)
    (h4 : s'.log = s.log) : InOrder s' := by
  obtain ⟨h, e, hl⟩ := i
  exact ⟨h, by rw [h1, h2, h3, e], by rw [h4]; exact hl⟩

theorem sublist_answer {t : St} {w : Nat} {a : Answer} {hd : List Nat}
    (h : ((t.log.filter byOwner).map Prod.fst).Sublist hd) :
    (((t.answer w a).log.filter byOwner).map Prod.fst).Sublist (hd ++ [w]) := by
  unfold St.answer
  split
  · show (((t.log ++ [(w, a)]).filter byOwner).map Prod.fst).Sublist (hd ++ [w])
    rw [List.filter_append, List.map_append]
    refine h.append ?_
    rw [List.filter_cons]
    split <;> simp
  · exact h.trans (List.sublist_append_left _ _)

theorem log_refused {t : St} {w : Nat} {a : Answer} (ha : ∀ w, byOwner (w, a) = false) :
    (t.answer w a).log.filter byOwner = t.log.filter byOwner := by
  unfold St.answer
  split
  · show (t.log ++ [(w, a)]).filter byOwner = _
    rw [List.filter_append, List.filter_cons, ha]; simp
  · rfl

theorem inOrder_step {s s' : St} (i : InOrder s) {l : Label} (h : step s l = some s') : InOrder s' := by
  cases l with
  | submit => injection h with h; subst h; exact inOrder_same i rfl rfl rfl rfl
  | reserve w =>
    simp only [step] at h
    split at h
    · split at h
      · split at h
        · injection h with h; subst h; exact inOrder_same i rfl rfl rfl rfl
        · cases h
      · injection h with h; subst h
        obtain ⟨hd, e, hl⟩ := i
        exact ⟨hd, by simpa [now] using e, by rw [log_refused (fun _ => rfl)]; exact hl⟩
    · cases h
  | send w =>
    simp only [step] at h
    split at h
    · injection h with h; subst h
      obtain ⟨hd, e, hl⟩ := i
      refine ⟨hd, ?_, hl⟩
      show s.sent ++ [w] = hd ++ now s ++ (s.queue ++ [w])
      rw [e]; simp
    · cases h
  | unable w =>
    simp only [step] at h
    split at h
    · injection h with h; subst h
      obtain ⟨hd, e, hl⟩ := i
      exact ⟨hd, by simpa [now] using e, by rw [log_refused (fun _ => rfl)]; exact hl⟩
    · cases h
  | goes w =>
    simp only [step] at h
    split at h
    · injection h with h; subst h; exact inOrder_same i rfl rfl rfl rfl
    · cases h
  | take =>
    simp only [step] at h
    split at h
    case _ w q hp hq =>
      obtain ⟨hd, e, hl⟩ := i
      have hn : now s = [] := by rw [now, hp]
      rw [hn, hq] at e
      split at h
      · injection h with h; subst h
        refine ⟨hd, ?_, ?_⟩
        · split <;> simpa [now, St.reset] using e
        · split <;> exact hl
      · injection h with h; subst h
        refine ⟨hd ++ [w], ?_, hl.trans (List.sublist_append_left _ _)⟩
        show s.sent = hd ++ [w] ++ now s ++ q
        rw [hn, e]; simp
    · cases h
  | opened =>
    simp only [step] at h
    split at h
    case _ w hp =>
      obtain ⟨hd, e, hl⟩ := i
      have hn : now s = [w] := by rw [now, hp]
      rw [hn] at e
      split at h
      · injection h with h; subst h
        exact ⟨hd ++ [w], by simpa [now] using e, sublist_answer hl⟩
      · injection h with h; subst h
        exact ⟨hd ++ [w], by simpa [now] using e, hl.trans (List.sublist_append_left _ _)⟩
    · cases h
  | refuses er =>
    simp only [step] at h
    split at h
    case _ w hp =>
      obtain ⟨hd, e, hl⟩ := i
      have hn : now s = [w] := by rw [now, hp]
      rw [hn] at e
      injection h with h; subst h
      exact ⟨hd ++ [w], by simpa [now] using e, sublist_answer hl⟩
    · cases h
  | leaves =>
    simp only [step] at h
    split at h
    case _ w hp =>
      obtain ⟨hd, e, hl⟩ := i
      have hn : now s = [w] := by rw [now, hp]
      rw [hn] at e
      split at h
      · cases h
      · injection h with h; subst h
        exact ⟨hd ++ [w], by simpa [now] using e, hl.trans (List.sublist_append_left _ _)⟩
    · cases h
  | stopsEarly er =>
    simp only [step] at h
    split at h
    case _ w hp =>
      obtain ⟨hd, e, hl⟩ := i
      have hn : now s = [w] := by rw [now, hp]
      rw [hn] at e
      injection h with h; subst h
      exact ⟨hd ++ [w], by simpa [now] using e, sublist_answer hl⟩
    · cases h
  | ends w =>
    simp only [step] at h
    split at h
    · injection h with h; subst h; exact inOrder_same i rfl rfl rfl rfl
    · cases h
  | counted =>
    simp only [step] at h
    split at h
    · split at h
      · injection h with h; subst h
        split <;> exact inOrder_same i rfl rfl rfl rfl
      · cases h
    · cases h
  | stops e =>
    simp only [step] at h
    split at h
    case _ hp => injection h with h; subst h; exact inOrder_same i rfl (by simp [now, hp]) rfl rfl
    · cases h
  | expires =>
    simp only [step] at h
    split at h
    case _ hp =>
      split at h
      · injection h with h; subst h; exact inOrder_same i rfl (by simp [now, hp]) rfl rfl
      · cases h
    · cases h
  | unused =>
    simp only [step] at h
    split at h
    case _ hp _ _ _ => injection h with h; subst h; exact inOrder_same i rfl (by simp [now, hp]) rfl rfl
    · cases h
  | drain =>
    simp only [step] at h
    split at h
    case _ er w q hp hq =>
      obtain ⟨hd, e, hl⟩ := i
      have hn : now s = [] := by rw [now, hp]
      rw [hn, hq] at e
      injection h with h; subst h
      refine ⟨hd ++ [w], ?_, sublist_answer (t := { s with queue := q }) hl⟩
      simp [now, hp, e]
    · cases h
  | finish =>
    simp only [step] at h
    split at h
    case _ hp _ _ => injection h with h; subst h; exact inOrder_same i rfl (by simp [now, hp]) rfl rfl
    · cases h
  | tick n => injection h with h; subst h; exact inOrder_same i rfl rfl rfl rfl

/-- Operations are started, or turned down by the owner, in the order in which the commands were sent. -/
theorem C98_order {cap idle : Nat} {s : St} (h : Reach cap idle s) :
    ((s.log.filter byOwner).map Prod.fst).Sublist s.sent := by
  have : InOrder s := by
    induction h with
    | start => exact ⟨[], rfl, .slnil⟩
    | step l _ hs ih => exact inOrder_step ih hs
  obtain ⟨hd, e, hl⟩ := this
  rw [e, List.append_assoc]
  exact hl.trans (List.sublist_append_left _ _)

/-! ### A run -/

def after : List Label → St → Option St
  | [], s => some s
  | l :: ls, s => (step s l).bind (after ls)

theorem reach_after {cap idle : Nat} : ∀ {ls : List Label} {s t : St}, Reach cap idle s → after ls s = some t →
    Reach cap idle t
  | [], s, t, h, e => by injection e with e; subst e; exact h
  | l :: ls, s, t, h, e => by
    rw [after] at e
    cases hs : step s l with
    | none => rw [hs] at e; cases e
    | some u => rw [hs] at e; exact reach_after (.step l h hs) e

/-- Three callers: the first is started, the second goes away before its turn, the third is turned down; the first ends at
5, and the connection with an idle timeout of 10 may close at 15. A caller that comes late is refused. -/
def run : List Label :=
  [.submit, .submit, .submit, .reserve 0, .reserve 1, .send 1, .send 0, .reserve 2, .send 2, .goes 1, .take, .take,
    .opened, .take, .refuses (.other 7), .tick 5, .ends 0, .counted, .tick 10]

example : (after (run ++ [.submit, .expires, .reserve 3, .finish]) (start 3 10)).map
    (fun s => (s.log, s.ended, s.sent, s.now, s.phase)) =
    some ([(0, .started), (2, .error (.other 7)), (3, .refused)], [(0, 5)], [1, 0, 2], 15, .done) := by
  decide +kernel

/-- One moment earlier it may not. -/
example : (after (run.dropLast ++ [.tick 9, .expires]) (start 3 10)).isNone := by decide +kernel

/-- A caller that got its permit before the connection closed, and one in the queue. -/
example : (after [.submit, .submit, .reserve 0, .send 0, .reserve 1, .stops (.other 1), .send 1, .drain, .drain, .finish]
    (start 3 10)).map (fun s => (s.log, s.phase)) =
    some ([(0, .error (.other 1)), (1, .error (.other 1))], .done) := by
  decide +kernel

end Verif.Pool.Owner
