import Verif.Socket.Spec

namespace Verif.Socket

section Send
variable (s : St) (o : Out)
@[simp] theorem send_handshake : (s.send o).handshake = s.handshake := by unfold St.send; split <;> rfl
@[simp] theorem send_acked : (s.send o).acked = s.acked := by unfold St.send; split <;> rfl
@[simp] theorem send_subs : (s.send o).subs = s.subs := by unfold St.send; split <;> rfl
@[simp] theorem send_pending : (s.send o).pending = s.pending := by unfold St.send; split <;> rfl
@[simp] theorem send_tasks : (s.send o).tasks = s.tasks := by unfold St.send; split <;> rfl
@[simp] theorem send_ending : (s.send o).ending = s.ending := by unfold St.send; split <;> rfl
@[simp] theorem send_next : (s.send o).next = s.next := by unfold St.send; split <;> rfl
end Send

theorem send_mem {s : St} {o p : Out} (h : p ∈ (s.send o).out) : p ∈ s.out ∨ p = o := by
  unfold St.send at h
  split at h
  · exact .inl h
  · simpa using h

@[simp] theorem drop_pending (s : St) (id) : (s.drop id).pending = s.pending := rfl
@[simp] theorem drop_tasks (s : St) (id) : (s.drop id).tasks = s.tasks := rfl
@[simp] theorem drop_ending (s : St) (id) : (s.drop id).ending = s.ending := rfl
@[simp] theorem drop_next (s : St) (id) : (s.drop id).next = s.next := rfl
@[simp] theorem drop_out (s : St) (id) : (s.drop id).out = s.out := rfl
@[simp] theorem drop_acked (s : St) (id) : (s.drop id).acked = s.acked := rfl
@[simp] theorem drop_handshake (s : St) (id) : (s.drop id).handshake = s.handshake := rfl
@[simp] theorem drop_closed (s : St) (id) : (s.drop id).closed = s.closed := rfl
theorem drop_mem {s : St} {id : Id} {e : Id × Nat} : e ∈ (s.drop id).subs ↔ e ∈ s.subs ∧ e.1 ≠ id := by
  simp [St.drop]
theorem put_mem {s : St} {id : Id} {op : Nat} {e : Id × Nat} :
    e ∈ (s.put id op).subs ↔ e = (id, op) ∨ (e ∈ s.subs ∧ e.1 ≠ id) := by
  simp [St.put]
@[simp] theorem put_next (s : St) (id op) : (s.put id op).next = s.next := rfl
@[simp] theorem put_pending (s : St) (id op) : (s.put id op).pending = s.pending := rfl
@[simp] theorem put_ending (s : St) (id op) : (s.put id op).ending = s.ending := rfl
@[simp] theorem put_out (s : St) (id op) : (s.put id op).out = s.out := rfl
@[simp] theorem put_acked (s : St) (id op) : (s.put id op).acked = s.acked := rfl
@[simp] theorem put_handshake (s : St) (id op) : (s.put id op).handshake = s.handshake := rfl
@[simp] theorem put_closed (s : St) (id op) : (s.put id op).closed = s.closed := rfl

theorem has_iff {s : St} {id : Id} : s.has id = true ↔ ∃ op, (id, op) ∈ s.subs := by
  simp only [St.has, List.any_eq_true, beq_iff_eq]
  constructor
  · rintro ⟨⟨i, o⟩, hm, rfl⟩; exact ⟨o, hm⟩
  · rintro ⟨o, hm⟩; exact ⟨(id, o), hm, rfl⟩

/-- All operations that something still runs for. -/
def live (s : St) : List Task := s.pending ++ s.tasks ++ s.ending

theorem found {l : List Task} {op : Nat} {t : Task} (h : l.find? (fun t => t.op == op) = some t) :
    t ∈ l ∧ t.op = op := by
  refine ⟨List.mem_of_find?_eq_some h, ?_⟩
  simpa using List.find?_some h

/-- What a step does, without the messages: either nothing to the operations, or one begins, goes on in another
list or is over. -/
inductive Move (s s' : St) : Prop
  | stay (hp : s'.pending = s.pending) (ht : s'.tasks = s.tasks) (he : s'.ending = s.ending)
      (hn : s'.next = s.next) (hs : s'.subs = s.subs)
  | dropped (id : Id) (hp : s'.pending = s.pending) (ht : s'.tasks = s.tasks) (he : s'.ending = s.ending)
      (hn : s'.next = s.next) (hs : s'.subs = (s.drop id).subs)
  | begins (id : Id) (hp : s'.pending = s.pending ++ [⟨s.next, id⟩]) (ht : s'.tasks = s.tasks)
      (he : s'.ending = s.ending) (hn : s'.next = s.next + 1) (hs : s'.subs = s.subs)
  | answered (t : Task) (hm : t ∈ s.pending) (hp : s'.pending = s.pending.erase t) (ht : s'.tasks = s.tasks)
      (he : s'.ending = s.ending) (hn : s'.next = s.next) (hs : s'.subs = s.subs)
  | streams (t : Task) (hm : t ∈ s.pending) (hp : s'.pending = s.pending.erase t) (ht : s'.tasks = s.tasks ++ [t])
      (he : s'.ending = s.ending) (hn : s'.next = s.next) (hs : s'.subs = (s.put t.id t.op).subs)
  | leaves (t : Task) (hm : t ∈ s.tasks) (hp : s'.pending = s.pending) (ht : s'.tasks = s.tasks.erase t)
      (he : s'.ending = s.ending ++ [t]) (hn : s'.next = s.next) (hs : s'.subs = s.subs)
  | cancels (t : Task) (hm : t ∈ s.tasks) (hc : (t.id, t.op) ∉ s.subs) (hp : s'.pending = s.pending)
      (ht : s'.tasks = s.tasks.erase t) (he : s'.ending = s.ending) (hn : s'.next = s.next)
      (hs : s'.subs = (s.drop t.id).subs)
  | finishes (t : Task) (hm : t ∈ s.ending) (hp : s'.pending = s.pending)
      (ht : s'.tasks = s.tasks) (he : s'.ending = s.ending.erase t) (hn : s'.next = s.next)
      (hs : s'.subs = (s.drop t.id).subs)
  | ends (hp : s'.pending = []) (ht : s'.tasks = s.tasks) (he : s'.ending = s.ending)
      (hn : s'.next = s.next) (hs : s'.subs = [])

theorem move {s s' : St} {l : Label} (h : step s l = some s') : Move s s' := by
  cases l with
  | recv f =>
    simp only [step] at h
    split at h
    · simp at h
    · injection h with h; subst h
      cases f with
      | text m =>
        cases m with
        | none => exact .stay (by simp [onFrame]) (by simp [onFrame]) (by simp [onFrame]) (by simp [onFrame]) (by simp [onFrame])
        | some m =>
          cases m with
          | init =>
            simp only [onFrame, onMessage]
            split <;> exact .stay (by simp) (by simp) (by simp) (by simp) (by simp)
          | subscribe id =>
            simp only [onFrame, onMessage]
            split
            · exact .stay (by simp) (by simp) (by simp) (by simp) (by simp)
            · split
              · exact .stay (by simp) (by simp) (by simp) (by simp) (by simp)
              · exact .begins id rfl rfl rfl rfl rfl
          | complete id =>
            simp only [onFrame, onMessage]
            split
            · exact .stay (by simp) (by simp) (by simp) (by simp) (by simp)
            · exact .dropped id rfl rfl rfl rfl rfl
          | ping => exact .stay (by simp [onFrame, onMessage]) (by simp [onFrame, onMessage]) (by simp [onFrame, onMessage]) (by simp [onFrame, onMessage]) (by simp [onFrame, onMessage])
          | pong => exact .stay rfl rfl rfl rfl rfl
      | _ => exact .stay (by simp [onFrame]) (by simp [onFrame]) (by simp [onFrame]) (by simp [onFrame]) (by simp [onFrame])
  | resolve op r =>
    simp only [step] at h
    split at h
    · simp at h
    · next t hf =>
      injection h with h; subst h
      have hm := (found hf).1
      cases r with
      | stream => exact .streams t hm rfl rfl rfl rfl rfl
      | _ => exact .answered t hm (by simp [onOutcome]) (by simp [onOutcome]) (by simp [onOutcome]) (by simp [onOutcome]) (by simp [onOutcome])
  | event op e =>
    simp only [step] at h
    split at h
    · simp at h
    · next t hf =>
      injection h with h; subst h
      have hm := (found hf).1
      cases e with
      | raw d => exact .stay (by simp [onEvent]) (by simp [onEvent]) (by simp [onEvent]) (by simp [onEvent]) (by simp [onEvent])
      | lagged => exact .stay rfl rfl rfl rfl rfl
      | _ => exact .leaves t hm (by simp [onEvent, leave]) (by simp [onEvent, leave]) (by simp [onEvent, leave]) (by simp [onEvent, leave]) (by simp [onEvent, leave])
  | cancel op =>
    simp only [step] at h
    split at h
    · simp at h
    · next t hf =>
      split at h
      · simp at h
      · next hc =>
        injection h with h; subst h
        exact .cancels t (found hf).1 hc rfl rfl rfl rfl rfl
  | finish op =>
    simp only [step] at h
    split at h
    · simp at h
    · next t hf =>
      injection h with h; subst h
      exact .finishes t (found hf).1 rfl rfl rfl rfl rfl
  | initTimer =>
    simp only [step] at h
    split at h
    · simp at h
    · split at h <;> (injection h with h; subst h; exact .stay (by simp) (by simp) (by simp) (by simp) (by simp))
  | heartbeat late =>
    simp only [step] at h
    injection h with h; subst h
    exact .stay (by simp) (by simp) (by simp) (by simp) (by simp)
  | shutdown =>
    simp only [step] at h
    injection h with h; subst h
    exact .ends rfl rfl rfl rfl rfl

/-- The operations are numbered in order, and each is in one place. -/
structure Inv (s : St) : Prop where
  lt : ∀ t ∈ live s, t.op < s.next
  nodup : (live s).Pairwise (fun a b => a.op ≠ b.op)
  owned : ∀ id op, (id, op) ∈ s.subs → (⟨op, id⟩ : Task) ∈ s.tasks ++ s.ending

theorem pairwise_perm {l l' : List Task} (h : l.Perm l') :
    l.Pairwise (fun a b => a.op ≠ b.op) → l'.Pairwise (fun a b => a.op ≠ b.op) :=
  (h.pairwise_iff (fun {_ _} h => Ne.symm h)).1

theorem erase_perm {l : List Task} {t : Task} (h : t ∈ l) : l.Perm (t :: l.erase t) := List.perm_cons_erase h

theorem live_streams {p ta e : List Task} {t : Task} (h : t ∈ p) :
    (p ++ ta ++ e).Perm (p.erase t ++ (ta ++ [t]) ++ e) := by
  have h1 : (p ++ ta ++ e).Perm ((t :: p.erase t) ++ ta ++ e) :=
    ((erase_perm h).append_right ta).append_right e
  refine h1.trans ?_
  refine List.Perm.append_right e ?_
  have : (t :: p.erase t) ++ ta = [t] ++ (p.erase t ++ ta) := by simp
  rw [this, ← List.append_assoc (p.erase t)]
  exact List.perm_append_comm

theorem live_leaves {p ta e : List Task} {t : Task} (h : t ∈ ta) :
    (p ++ ta ++ e).Perm (p ++ ta.erase t ++ (e ++ [t])) := by
  rw [List.append_assoc, List.append_assoc]
  refine List.Perm.append_left p ?_
  have h1 : (ta ++ e).Perm ((t :: ta.erase t) ++ e) := (erase_perm h).append_right e
  refine h1.trans ?_
  have : (t :: ta.erase t) ++ e = [t] ++ (ta.erase t ++ e) := by simp
  rw [this, ← List.append_assoc (ta.erase t)]
  exact List.perm_append_comm

/-- An operation that is over is in no list any more. -/
theorem sub_pending {p ta e : List Task} {t : Task} : (p.erase t ++ ta ++ e).Sublist (p ++ ta ++ e) :=
  ((List.erase_sublist.append (List.Sublist.refl _)).append (List.Sublist.refl _))
theorem sub_tasks {p ta e : List Task} {t : Task} : (p ++ ta.erase t ++ e).Sublist (p ++ ta ++ e) :=
  (((List.Sublist.refl _).append List.erase_sublist).append (List.Sublist.refl _))
theorem sub_ending {p ta e : List Task} {t : Task} : (p ++ ta ++ e.erase t).Sublist (p ++ ta ++ e) :=
  (((List.Sublist.refl _).append (List.Sublist.refl _)).append List.erase_sublist)

theorem inv_start (b : Bool) : Inv (start b) := by
  unfold start
  cases b <;> refine ⟨?_, ?_, ?_⟩ <;> simp [live]

theorem inv_step {s s' : St} (h : Inv s) (m : Move s s') : Inv s' := by
  obtain ⟨hl, hn, ho⟩ := h
  cases m with
  | stay hp ht he hx hs =>
    exact ⟨by rw [live, hp, ht, he, hx]; exact hl, by rw [live, hp, ht, he]; exact hn, by rw [hs, ht, he]; exact ho⟩
  | dropped id hp ht he hx hs =>
    exact ⟨by rw [live, hp, ht, he, hx]; exact hl, by rw [live, hp, ht, he]; exact hn,
      by rw [hs, ht, he]; exact fun i o hm => ho i o (drop_mem.1 hm).1⟩
  | begins id hp ht he hx hs =>
    have hperm : (live s ++ [(⟨s.next, id⟩ : Task)]).Perm (live s') := by
      rw [live, live, hp, ht, he]
      simp only [List.append_assoc]
      refine List.Perm.append_left _ ?_
      rw [← List.append_assoc]
      exact List.perm_append_comm
    refine ⟨fun t h => ?_, pairwise_perm hperm ?_, by rw [hs, ht, he]; exact ho⟩
    · rw [hx]
      rcases List.mem_append.1 (hperm.mem_iff.2 h) with h | h
      · exact Nat.lt_succ_of_lt (hl t h)
      · simp at h; subst h; exact Nat.lt_succ_self _
    · rw [List.pairwise_append]
      refine ⟨hn, by simp, fun a ha b hb => ?_⟩
      simp at hb; subst hb
      exact Nat.ne_of_lt (hl a ha)
  | answered t hm hp ht he hx hs =>
    have hsub : (live s').Sublist (live s) := by rw [live, live, hp, ht, he]; exact sub_pending
    exact ⟨fun u hu => hx ▸ hl u (hsub.subset hu), hn.sublist hsub, by rw [hs, ht, he]; exact ho⟩
  | streams t hm hp ht he hx hs =>
    have hperm : (live s).Perm (live s') := by rw [live, live, hp, ht, he]; exact live_streams hm
    refine ⟨fun u hu => hx ▸ hl u (hperm.mem_iff.2 hu), pairwise_perm hperm hn, ?_⟩
    rw [hs, ht, he]
    intro i o hm'
    rcases put_mem.1 hm' with e | ⟨hm', -⟩
    · cases e; simp
    · rcases List.mem_append.1 (ho i o hm') with h | h <;> simp [h]
  | leaves t hm hp ht he hx hs =>
    have hperm : (live s).Perm (live s') := by rw [live, live, hp, ht, he]; exact live_leaves hm
    refine ⟨fun u hu => hx ▸ hl u (hperm.mem_iff.2 hu), pairwise_perm hperm hn, ?_⟩
    rw [hs, ht, he]
    intro i o hm'
    by_cases e : (⟨o, i⟩ : Task) = t
    · simp [e]
    · rcases List.mem_append.1 (ho i o hm') with h | h
      · simp [(List.mem_erase_of_ne e).2 h]
      · simp [h]
  | cancels t hm hc hp ht he hx hs =>
    have hsub : (live s').Sublist (live s) := by rw [live, live, hp, ht, he]; exact sub_tasks
    refine ⟨fun u hu => hx ▸ hl u (hsub.subset hu), hn.sublist hsub, ?_⟩
    rw [hs, ht, he]
    intro i o hm'
    have hm' := drop_mem.1 hm'
    have e : (⟨o, i⟩ : Task) ≠ t := by rintro rfl; exact hm'.2 rfl
    rcases List.mem_append.1 (ho i o hm'.1) with h | h
    · simp [(List.mem_erase_of_ne e).2 h]
    · simp [h]
  | finishes t hm hp ht he hx hs =>
    have hsub : (live s').Sublist (live s) := by rw [live, live, hp, ht, he]; exact sub_ending
    refine ⟨fun u hu => hx ▸ hl u (hsub.subset hu), hn.sublist hsub, ?_⟩
    rw [hs, ht, he]
    intro i o hm'
    have hm' := drop_mem.1 hm'
    have e : (⟨o, i⟩ : Task) ≠ t := by rintro rfl; exact hm'.2 rfl
    rcases List.mem_append.1 (ho i o hm'.1) with h | h
    · simp [h]
    · simp [(List.mem_erase_of_ne e).2 h]
  | ends hp ht he hx hs =>
    have hsub : (live s').Sublist (live s) := by
      rw [live, live, hp, ht, he, List.append_assoc s.pending]; simp
    exact ⟨fun u hu => hx ▸ hl u (hsub.subset hu), hn.sublist hsub, by rw [hs]; simp⟩

theorem reach_inv {b ls s} (h : Reach b ls s) : Inv s := by
  induction h with
  | start => exact inv_start b
  | step _ hs ih => exact inv_step ih (move hs)

/-- Once an operation is over, it stays over. -/
theorem over_step {s s' : St} {op : Nat} (h : op < s.next ∧ ∀ t ∈ live s, t.op ≠ op) (m : Move s s') :
    op < s'.next ∧ ∀ t ∈ live s', t.op ≠ op := by
  obtain ⟨hl, hn⟩ := h
  cases m with
  | stay hp ht he hx hs => exact ⟨hx ▸ hl, by rw [live, hp, ht, he]; exact hn⟩
  | dropped id hp ht he hx hs => exact ⟨hx ▸ hl, by rw [live, hp, ht, he]; exact hn⟩
  | begins id hp ht he hx hs =>
    refine ⟨by omega, ?_⟩
    rw [live, hp, ht, he]
    intro t h
    simp only [List.mem_append, List.mem_singleton] at h
    rcases h with ((h | h) | h) | h
    · exact hn t (by simp [live, h])
    · subst h; simp; omega
    · exact hn t (by simp [live, h])
    · exact hn t (by simp [live, h])
  | answered t hm hp ht he hx hs =>
    exact ⟨hx ▸ hl, by rw [live, hp, ht, he]; exact fun t h => hn t (sub_pending.subset h)⟩
  | streams t hm hp ht he hx hs =>
    exact ⟨hx ▸ hl, by rw [live, hp, ht, he]; exact fun t h => hn t ((live_streams hm).mem_iff.2 h)⟩
  | leaves t hm hp ht he hx hs =>
    exact ⟨hx ▸ hl, by rw [live, hp, ht, he]; exact fun t h => hn t ((live_leaves hm).mem_iff.2 h)⟩
  | cancels t hm hc hp ht he hx hs =>
    exact ⟨hx ▸ hl, by rw [live, hp, ht, he]; exact fun t h => hn t (sub_tasks.subset h)⟩
  | finishes t hm hp ht he hx hs =>
    exact ⟨hx ▸ hl, by rw [live, hp, ht, he]; exact fun t h => hn t (sub_ending.subset h)⟩
  | ends hp ht he hx hs =>
    refine ⟨hx ▸ hl, ?_⟩
    rw [live, hp, ht, he]
    intro t h
    refine hn t ?_
    simp only [List.nil_append, List.mem_append] at h
    rcases h with h | h <;> simp [live, h]

theorem over_of_erase {l l' : List Task} {t : Task} (hn : l.Pairwise (fun a b => a.op ≠ b.op))
    (hp : l.Perm (t :: l')) : ∀ u ∈ l', u.op ≠ t.op := by
  have := pairwise_perm hp hn
  rw [List.pairwise_cons] at this
  exact fun u hu => Ne.symm (this.1 u hu)

/-! ### What is told -/

theorem told_append (op : Nat) (a b : List Out) : told op (a ++ b) = told op a ++ told op b :=
  List.filterMap_append

theorem given_append (op : Nat) (a b : List Label) : given op (a ++ b) = given op a ++ given op b := by
  simp [given]

theorem told_send (op : Nat) (s : St) (o : Out) (h : o.told? op = none) : told op (s.send o).out = told op s.out := by
  unfold St.send
  split
  · rfl
  · simp [told, h]

theorem closed_out {s s' : St} {l : Label} (hc : s.closed = true) (h : step s l = some s') :
    s'.closed = true ∧ s'.out = s.out := by
  have snd : ∀ (s : St) o, s.closed = true → s.send o = s := by
    intro s o h; unfold St.send; rw [if_pos h]
  cases l with
  | recv f => simp [step, hc] at h
  | resolve op r =>
    simp only [step] at h
    split at h
    · simp at h
    · next t hf =>
      injection h with h; subst h
      cases r with
      | stream => exact ⟨by simp [onOutcome, hc], by simp [onOutcome]⟩
      | _ => simp [onOutcome, St.send, hc]
  | event op e =>
    simp only [step] at h
    split at h
    · simp at h
    · next t hf =>
      injection h with h; subst h
      cases e with
      | lagged => exact ⟨hc, rfl⟩
      | _ => simp [onEvent, leave, St.send, hc]
  | cancel op =>
    simp only [step] at h
    split at h
    · simp at h
    · split at h
      · simp at h
      · injection h with h; subst h; exact ⟨hc, rfl⟩
  | finish op =>
    simp only [step] at h
    split at h
    · simp at h
    · injection h with h; subst h; exact ⟨hc, rfl⟩
  | initTimer =>
    simp only [step] at h
    split at h
    · simp at h
    · split at h <;> (injection h with h; subst h; first | exact ⟨hc, rfl⟩ | (rw [snd _ _ hc]; exact ⟨hc, rfl⟩))
  | heartbeat late =>
    simp only [step] at h
    injection h with h; subst h; rw [snd _ _ hc]; exact ⟨hc, rfl⟩
  | shutdown =>
    simp only [step] at h
    injection h with h; subst h; exact ⟨rfl, rfl⟩

theorem open_told {s s' : St} {l : Label} (op : Nat) (hc : s.closed = false) (h : step s l = some s') :
    told op s'.out = told op s.out ++ given1 op l := by
  cases l with
  | recv f =>
    simp only [step] at h
    split at h
    · simp at h
    · injection h with h; subst h
      simp only [given1, List.append_nil]
      cases f with
      | text m =>
        cases m with
        | none => exact told_send _ _ _ rfl
        | some m =>
          cases m with
          | init =>
            simp only [onFrame, onMessage]
            split <;> exact told_send _ _ _ rfl
          | subscribe id =>
            simp only [onFrame, onMessage]
            split
            · exact told_send _ _ _ rfl
            · split
              · exact told_send _ _ _ rfl
              · rfl
          | complete id =>
            simp only [onFrame, onMessage]
            split
            · exact told_send _ _ _ rfl
            · rfl
          | ping => exact told_send _ _ _ rfl
          | pong => rfl
      | close => rfl
      | other => rfl
      | pong => rfl
      | _ => exact told_send _ _ _ rfl
  | resolve o r =>
    simp only [step] at h
    split at h
    · simp at h
    · next t hf =>
      injection h with h; subst h
      have ht := (found hf).2
      cases r <;> simp [onOutcome, given1, St.send, hc, Out.isClose, told, Out.told?, ht]
      all_goals (by_cases e : o = op <;> simp [e, List.filterMap_cons, Out.told?])
  | event o e =>
    simp only [step] at h
    split at h
    · simp at h
    · next t hf =>
      injection h with h; subst h
      have ht := (found hf).2
      cases e <;> simp [onEvent, leave, given1, St.send, hc, Out.isClose, told, Out.told?, ht]
      all_goals (by_cases e : o = op <;> simp [e, List.filterMap_cons, Out.told?])
  | cancel op =>
    simp only [step] at h
    split at h
    · simp at h
    · split at h
      · simp at h
      · injection h with h; subst h; simp [given1]
  | finish op =>
    simp only [step] at h
    split at h
    · simp at h
    · injection h with h; subst h; simp [given1]
  | initTimer =>
    simp only [step] at h
    split at h
    · simp at h
    · simp only [given1, List.append_nil]
      split at h <;> (injection h with h; subst h; first | rfl | exact told_send _ _ _ rfl)
  | heartbeat late =>
    simp only [step] at h
    injection h with h; subst h
    simp only [given1, List.append_nil]
    cases late <;> exact told_send _ _ _ rfl
  | shutdown =>
    simp only [step] at h
    injection h with h; subst h
    simp [given1]

theorem start_told (b : Bool) (op : Nat) : told op (start b).out = [] := by
  cases b <;> rfl

theorem reach_told {b ls s} (op : Nat) (h : Reach b ls s) :
    told op s.out <+: given op ls ∧ (s.closed = false → told op s.out = given op ls) := by
  induction h with
  | start => rw [start_told]; exact ⟨List.nil_prefix, fun _ => rfl⟩
  | @step ls s l s' hr hs ih =>
    rw [given_append]
    cases hc : s.closed with
    | true =>
      obtain ⟨hc', ho⟩ := closed_out hc hs
      rw [ho]
      exact ⟨ih.1.trans (List.prefix_append _ _), fun h => by rw [hc'] at h; cases h⟩
    | false =>
      have := open_told op hc hs
      have e : given op [l] = given1 op l := by simp [given]
      rw [this, ih.2 hc, e]
      exact ⟨List.prefix_refl _, fun _ => rfl⟩

end Verif.Socket
