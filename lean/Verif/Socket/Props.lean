import Verif.Socket.Lemmas

/-!
# C95: a client's WebSocket connection keeps to the protocol

All theorems are about every history of a connection: any frames, any outcomes of the pipeline and events of
subscriptions, in any order that the steps allow.
-/

namespace Verif.Socket

/-! ### Before the acknowledgement -/

structure Gate (s : St) : Prop where
  same : s.acked = s.handshake
  ack : s.out.count .ack = if s.acked then 1 else 0
  quiet : s.acked = false → s.pending = [] ∧ s.tasks = [] ∧ s.ending = [] ∧ s.subs = []
  order : ∀ pre o post, s.out = pre ++ o :: post → o.id?.isSome = true → Out.ack ∈ pre

theorem gate_send {s : St} {o : Out} (h : Gate s) (hne : o ≠ .ack) (hid : o.id?.isSome = true → s.acked = true) :
    Gate (s.send o) := by
  obtain ⟨hs, ha, hq, ho⟩ := h
  refine ⟨by simpa using hs, ?_, by simpa using hq, ?_⟩
  · unfold St.send
    split
    · exact ha
    · simp only [List.count_append, ha]
      rw [List.count_singleton]
      simp [hne]
  · unfold St.send
    split
    · exact ho
    · intro pre p post e hp
      simp only at e
      rcases List.eq_nil_or_concat post with rfl | ⟨post', q, rfl⟩
      · have := List.append_inj' e rfl
        obtain ⟨e1, e2⟩ := this
        cases e2
        rw [← e1]
        have hk := hid hp
        rw [hk, if_pos rfl] at ha
        exact List.count_pos_iff.1 (by omega)
      · rw [List.concat_eq_append, ← List.cons_append, ← List.append_assoc] at e
        have := List.append_inj' e rfl
        exact ho pre p post' this.1 hp

theorem gate_same {s s' : St} (h : Gate s) (ha : s'.acked = s.acked) (hh : s'.handshake = s.handshake)
    (ho : s'.out = s.out)
    (hq : s.acked = false → s'.pending = [] ∧ s'.tasks = [] ∧ s'.ending = [] ∧ s'.subs = []) : Gate s' := by
  obtain ⟨hs, hc, -, hord⟩ := h
  exact ⟨by rw [ha, hh, hs], by rw [ho, ha]; exact hc, by rw [ha]; exact hq, by rw [ho]; exact hord⟩

theorem gate_start (b : Bool) : Gate (start b) := by
  cases b
  · refine ⟨rfl, rfl, fun _ => ⟨rfl, rfl, rfl, rfl⟩, ?_⟩
    intro pre o post e hp
    have e : [Out.close .subprotocol] = pre ++ o :: post := e
    have := List.mem_append_right pre (List.mem_cons_self (a := o) (l := post))
    rw [← e] at this
    simp at this; subst this; cases hp
  · refine ⟨rfl, rfl, fun _ => ⟨rfl, rfl, rfl, rfl⟩, ?_⟩
    intro pre o post e hp
    simp [start] at e

theorem gate_step {s s' : St} {l : Label} (h : Gate s) (hs : step s l = some s') : Gate s' := by
  have none_of : ∀ {l : List Task} {op t}, l.find? (fun t => t.op == op) = some t → l ≠ [] := by
    intro l op t h e; rw [e] at h; simp at h
  cases l with
  | recv f =>
    simp only [step] at hs
    split at hs
    · simp at hs
    · next hc =>
      have hc : s.closed = false := by simpa using hc
      injection hs with hs; subst hs
      cases f with
      | text m =>
        cases m with
        | none => exact gate_send h (by simp) (by simp [Out.id?])
        | some m =>
          cases m with
          | init =>
            simp only [onFrame, onMessage]
            split
            · exact gate_send h (by simp) (by simp [Out.id?])
            · next hh =>
              have hh : s.handshake = false := by simpa using hh
              have ha : s.acked = false := by rw [h.same, hh]
              obtain ⟨q1, q2, q3, q4⟩ := h.quiet ha
              have hcount := h.ack
              rw [ha] at hcount
              refine ⟨by simp, ?_, by simp, ?_⟩
              · simp [St.send, hc, List.count_append]; simpa using hcount
              · intro pre o post e hp
                simp only [St.send, hc, Bool.false_eq_true, if_false] at e
                rcases List.eq_nil_or_concat post with rfl | ⟨post', q, rfl⟩
                · have := List.append_inj' e rfl
                  obtain ⟨e1, e2⟩ := this
                  cases e2; cases hp
                · rw [List.concat_eq_append, ← List.cons_append, ← List.append_assoc] at e
                  exact h.order pre o post' (List.append_inj' e rfl).1 hp
          | subscribe id =>
            simp only [onFrame, onMessage]
            split
            · exact gate_send h (by simp) (by simp [Out.id?])
            · next ha =>
              have ha : s.acked = true := by simpa using ha
              split
              · exact gate_send h (by simp) (by simp [Out.id?])
              · exact gate_same h rfl rfl rfl (fun e => by rw [ha] at e; cases e)
          | complete id =>
            simp only [onFrame, onMessage]
            split
            · exact gate_send h (by simp) (by simp [Out.id?])
            · next ha =>
              have ha : s.acked = true := by simpa using ha
              exact gate_same h rfl rfl rfl (fun e => by rw [ha] at e; cases e)
          | ping => exact gate_send h (by simp) (by simp [Out.id?])
          | pong => exact h
      | close => exact gate_same h rfl rfl rfl h.quiet
      | other => exact h
      | pong => exact h
      | _ => exact gate_send h (by simp) (by simp [Out.id?])
  | resolve op r =>
    simp only [step] at hs
    split at hs
    · simp at hs
    · next t hf =>
      injection hs with hs; subst hs
      have ha : s.acked = true := by
        cases e : s.acked with
        | true => rfl
        | false => exact absurd (h.quiet e).1 (none_of hf)
      have h' : Gate { s with pending := s.pending.erase t } :=
        gate_same h rfl rfl rfl (fun e => by rw [ha] at e; cases e)
      cases r with
      | fails d => exact gate_send h' (by simp) (fun _ => ha)
      | forbidden d => exact gate_send (gate_send h' (by simp) (fun _ => ha)) (by simp) (by simp [Out.id?])
      | broken => exact gate_send h' (by simp) (fun _ => ha)
      | single d => exact gate_send (gate_send h' (by simp) (fun _ => ha)) (by simp) (fun _ => by simpa using ha)
      | stream => exact gate_same h' rfl rfl rfl (fun e => by simp only [ha] at e; cases e)
  | event op e =>
    simp only [step] at hs
    split at hs
    · simp at hs
    · next t hf =>
      injection hs with hs; subst hs
      have ha : s.acked = true := by
        cases e : s.acked with
        | true => rfl
        | false => exact absurd (h.quiet e).2.1 (none_of hf)
      have hleave : ∀ s1 : St, Gate s1 → s1.acked = true → Gate (leave s1 t) := fun s1 h1 ha1 =>
        gate_same (gate_send (o := .complete t.op t.id) h1 (by simp) (fun _ => ha1)) rfl rfl rfl
          (fun e => by simp [ha1] at e)
      cases e with
      | raw d => exact gate_send h (by simp) (fun _ => ha)
      | error d => exact hleave _ (gate_send h (by simp) (fun _ => ha)) (by simpa using ha)
      | lagged => exact h
      | closed => exact hleave _ h ha
  | cancel op =>
    simp only [step] at hs
    split at hs
    · simp at hs
    · next t hf =>
      split at hs
      · simp at hs
      · injection hs with hs; subst hs
        exact gate_same h rfl rfl rfl (fun e => absurd (h.quiet e).2.1 (none_of hf))
  | finish op =>
    simp only [step] at hs
    split at hs
    · simp at hs
    · next t hf =>
      injection hs with hs; subst hs
      exact gate_same h rfl rfl rfl (fun e => absurd (h.quiet e).2.2.1 (none_of hf))
  | initTimer =>
    simp only [step] at hs
    split at hs
    · simp at hs
    · split at hs
      · injection hs with hs; subst hs; exact h
      · injection hs with hs; subst hs; exact gate_send h (by simp) (by simp [Out.id?])
  | heartbeat late =>
    simp only [step] at hs
    injection hs with hs; subst hs
    cases late <;> exact gate_send h (by simp) (by simp [Out.id?])
  | shutdown =>
    simp only [step] at hs
    injection hs with hs; subst hs
    exact gate_same h rfl rfl rfl (fun e => ⟨rfl, (h.quiet e).2.1, (h.quiet e).2.2.1, rfl⟩)

theorem reach_gate {b ls s} (h : Reach b ls s) : Gate s := by
  induction h with
  | start => exact gate_start b
  | step _ hs ih => exact gate_step ih hs

/-- The client is acknowledged at most once, and is told nothing about any operation before. -/
theorem C95_acknowledged {b ls s} (h : Reach b ls s) :
    s.out.count .ack ≤ 1 ∧
    ∀ pre o post, s.out = pre ++ o :: post → o.id?.isSome = true → Out.ack ∈ pre := by
  refine ⟨?_, (reach_gate h).order⟩
  rw [(reach_gate h).ack]; split <;> omega

/-- What comes too early or twice closes the connection with the code that the protocol has for it, and nothing is
executed: operations before the acknowledgement, a second initialisation, a name that is in use. -/
theorem C95_refused {b ls s} (h : Reach b ls s) (hopen : s.closed = false) :
    (Out.ack ∉ s.out → ∀ id m, m = ClientMsg.subscribe id ∨ m = ClientMsg.complete id →
      step s (.recv (.text (some m))) = some { s with out := s.out ++ [.close .unauthorized], closed := true }) ∧
    (Out.ack ∈ s.out →
      step s (.recv (.text (some .init))) = some { s with out := s.out ++ [.close .tooManyInits], closed := true }) ∧
    (∀ t ∈ s.tasks, (t.id, t.op) ∈ s.subs →
      step s (.recv (.text (some (.subscribe t.id)))) =
        some { s with out := s.out ++ [.close (.taken t.id)], closed := true }) ∧
    Close.unauthorized.code = 4401 ∧ Close.tooManyInits.code = 4429 ∧ ∀ id, (Close.taken id).code = 4409 := by
  have g := reach_gate h
  have hcount := g.ack
  refine ⟨fun hn id m hm => ?_, fun hn => ?_, fun t ht hsub => ?_, rfl, rfl, fun _ => rfl⟩
  · have ha : s.acked = false := by
      cases e : s.acked with
      | false => rfl
      | true => rw [e, if_pos rfl] at hcount; exact absurd (List.count_pos_iff.1 (by omega)) hn
    rcases hm with rfl | rfl <;> simp [step, hopen, onFrame, onMessage, ha, St.send, Out.isClose]
  · have ha : s.acked = true := by
      cases e : s.acked with
      | true => rfl
      | false => rw [e] at hcount; exact absurd hn (List.count_eq_zero.1 (by simpa using hcount))
    have hh : s.handshake = true := by rw [← g.same, ha]
    simp [step, hopen, onFrame, onMessage, hh, St.send, Out.isClose]
  · have ha : s.acked = true := by
      cases e : s.acked with
      | true => rfl
      | false => rw [(g.quiet e).2.1] at ht; simp at ht
    have hh : s.has t.id = true := has_iff.2 ⟨t.op, hsub⟩
    simp [step, hopen, onFrame, onMessage, ha, hh, St.send, Out.isClose]

/-- Whoever does not offer the protocol is turned away at once: nothing but the code for it is ever sent. -/
theorem C95_not_offered {ls s} (h : Reach false ls s) : s.out = [.close .subprotocol] ∧ s.closed = true := by
  have gen : ∀ {b ls s}, Reach b ls s → b = false → s.out = [.close .subprotocol] ∧ s.closed = true := by
    intro b ls s h
    induction h with
    | start => rintro rfl; exact ⟨rfl, rfl⟩
    | step _ hs ih =>
      intro e
      obtain ⟨h1, h2⟩ := ih e
      obtain ⟨h3, h4⟩ := closed_out h2 hs
      exact ⟨by rw [h4, h1], h3⟩
  exact gen h rfl

/-- A client that does not initialise is closed when its time is over. -/
theorem C95_init_timeout {b ls s} (h : Reach b ls s) (hopen : s.closed = false) (hn : Out.ack ∉ s.out) :
    step s .initTimer = some { s with out := s.out ++ [.close .initTimeout], closed := true } := by
  have g := reach_gate h
  have hcount := g.ack
  have ha : s.acked = false := by
    cases e : s.acked with
    | false => rfl
    | true => rw [e, if_pos rfl] at hcount; exact absurd (List.count_pos_iff.1 (by omega)) hn
  have hh : s.handshake = false := by rw [← g.same, ha]
  simp [step, ha, hh, St.send, hopen, Out.isClose]

/-! ### What is told about each operation -/

/-- About each operation the client is told exactly what came for it, in order, as long as the connection is open,
and the beginning of that when it is closed: nothing is lost, doubled, or told about another operation. -/
theorem C95_told {b ls s} (op : Nat) (h : Reach b ls s) :
    told op s.out <+: given op ls ∧ (s.closed = false → told op s.out = given op ls) :=
  reach_told op h

theorem asked_append : ∀ a b, asked (a ++ b) = asked a ++ asked b
  | [], _ => rfl
  | l :: a, b => by
    have ih := asked_append a b
    cases l with
    | recv f =>
      cases f with
      | text m =>
        cases m with
        | none => simpa [asked] using ih
        | some m => cases m <;> simpa [asked] using ih
      | _ => simpa [asked] using ih
    | _ => simpa [asked] using ih

theorem live_asked {s s' : St} {l : Label} (hs : step s l = some s') :
    ∀ t ∈ live s', t ∈ live s ∨ t.id ∈ asked [l] := by
  intro t ht
  cases move hs with
  | stay hp h1 he hx hss => left; rw [live, hp, h1, he] at ht; exact ht
  | dropped id hp h1 he hx hss => left; rw [live, hp, h1, he] at ht; exact ht
  | begins id hp h1 he hx hss =>
    rw [live, hp, h1, he] at ht
    simp only [List.mem_append, List.mem_singleton] at ht
    rcases ht with ((h | h) | h) | h
    · left; simp [live, h]
    · right
      subst h
      cases l with
      | recv f =>
        simp only [step] at hs
        split at hs
        · simp at hs
        · injection hs with hs; subst hs
          cases f with
          | text m =>
            cases m with
            | none => simp [onFrame] at hp
            | some m =>
              cases m with
              | subscribe i =>
                simp only [onFrame, onMessage] at hp
                split at hp
                · simp at hp
                · split at hp
                  · simp at hp
                  · simp at hp; subst hp; simp [asked]
              | init => simp only [onFrame, onMessage] at hp; split at hp <;> simp at hp
              | complete i => simp only [onFrame, onMessage] at hp; split at hp <;> simp at hp
              | ping => simp [onFrame, onMessage] at hp
              | pong => simp [onFrame, onMessage] at hp
          | _ => simp [onFrame] at hp
      | resolve op r =>
        simp only [step] at hs
        split at hs
        · simp at hs
        · injection hs with hs; subst hs
          cases r <;> simp [onOutcome] at hx
      | event op e =>
        simp only [step] at hs
        split at hs
        · simp at hs
        · injection hs with hs; subst hs
          cases e <;> simp [onEvent, leave] at hx
      | cancel op =>
        simp only [step] at hs
        split at hs
        · simp at hs
        · split at hs
          · simp at hs
          · injection hs with hs; subst hs; simp at hx
      | finish op =>
        simp only [step] at hs
        split at hs
        · simp at hs
        · injection hs with hs; subst hs; simp at hx
      | initTimer =>
        simp only [step] at hs
        split at hs
        · simp at hs
        · split at hs <;> (injection hs with hs; subst hs; simp at hx)
      | heartbeat late => simp only [step] at hs; injection hs with hs; subst hs; simp at hx
      | shutdown => simp only [step] at hs; injection hs with hs; subst hs; simp at hx
    · left; simp [live, h]
    · left; simp [live, h]
  | answered u hm hp h1 he hx hss => left; rw [live, hp, h1, he] at ht; exact sub_pending.subset ht
  | streams u hm hp h1 he hx hss => left; rw [live, hp, h1, he] at ht; exact (live_streams hm).mem_iff.2 ht
  | leaves u hm hp h1 he hx hss => left; rw [live, hp, h1, he] at ht; exact (live_leaves hm).mem_iff.2 ht
  | cancels u hm hc hp h1 he hx hss => left; rw [live, hp, h1, he] at ht; exact sub_tasks.subset ht
  | finishes u hm hp h1 he hx hss => left; rw [live, hp, h1, he] at ht; exact sub_ending.subset ht
  | ends hp h1 he hx hss =>
    left
    rw [live, hp, h1, he] at ht
    simp only [List.nil_append, List.mem_append] at ht
    rcases ht with h | h <;> simp [live, h]

theorem reach_live {b ls s} (h : Reach b ls s) : ∀ t ∈ live s, t.id ∈ asked ls := by
  induction h with
  | start => intro t ht; cases b <;> simp [start, live, St.send] at ht
  | step _ hs ih =>
    intro t ht
    rw [asked_append]
    rcases live_asked hs t ht with h | h
    · exact List.mem_append_left _ (ih t h)
    · exact List.mem_append_right _ h

/-- The messages of a step are for an operation that was running, under its name. -/
theorem step_out {s s' : St} {l : Label} (hs : step s l = some s') :
    ∀ o ∈ s'.out, o ∈ s.out ∨ o.id? = none ∨ ∃ t ∈ live s, o.id? = some t.id ∧
      ∀ op, (∃ x, o.told? op = some x) → op = t.op := by
  intro o ho
  have other : ∀ {s1 : St} {p : Out}, p.id? = none → o ∈ (s1.send p).out → o ∈ s1.out ∨ o.id? = none := by
    intro s1 p hp h
    rcases send_mem h with h | rfl
    · exact .inl h
    · exact .inr hp
  cases l with
  | recv f =>
    simp only [step] at hs
    split at hs
    · simp at hs
    · injection hs with hs; subst hs
      have : o ∈ s.out ∨ o.id? = none := by
        cases f with
        | text m =>
          cases m with
          | none => exact other rfl ho
          | some m =>
            cases m with
            | init =>
              simp only [onFrame, onMessage] at ho
              split at ho
              · exact other rfl ho
              · exact other (s1 := { s with handshake := true, acked := true }) rfl ho
            | subscribe id =>
              simp only [onFrame, onMessage] at ho
              split at ho
              · exact other rfl ho
              · split at ho
                · exact other rfl ho
                · exact .inl ho
            | complete id =>
              simp only [onFrame, onMessage] at ho
              split at ho
              · exact other rfl ho
              · exact .inl ho
            | ping => exact other rfl ho
            | pong => exact .inl ho
        | close => exact .inl ho
        | other => exact .inl ho
        | pong => exact .inl ho
        | _ => exact other rfl ho
      rcases this with h | h
      · exact .inl h
      · exact .inr (.inl h)
  | resolve op r =>
    simp only [step] at hs
    split at hs
    · simp at hs
    · next t hf =>
      injection hs with hs; subst hs
      have hl : t ∈ live s := by simp [live, (found hf).1]
      have this' : o ∈ s.out ∨ o.id? = none ∨ ((∃ d, o = .error t.op t.id d)
          ∨ (∃ d, o = .next t.op t.id d) ∨ o = .complete t.op t.id) := by
        cases r with
        | fails d =>
          rcases send_mem ho with h | rfl
          · exact .inl h
          · exact .inr (.inr (.inl ⟨_, rfl⟩))
        | forbidden d =>
          rcases send_mem ho with h | rfl
          · rcases send_mem h with h | rfl
            · exact .inl h
            · exact .inr (.inr (.inl ⟨_, rfl⟩))
          · exact .inr (.inl rfl)
        | broken =>
          rcases send_mem ho with h | rfl
          · exact .inl h
          · exact .inr (.inl rfl)
        | single d =>
          rcases send_mem ho with h | rfl
          · rcases send_mem h with h | rfl
            · exact .inl h
            · exact .inr (.inr (.inr (.inl ⟨_, rfl⟩)))
          · exact .inr (.inr (.inr (.inr rfl)))
        | stream => exact .inl ho
      rcases this' with h | h | h
      · exact .inl h
      · exact .inr (.inl h)
      · refine .inr (.inr ⟨t, hl, ?_⟩)
        rcases h with ⟨d, rfl⟩ | ⟨d, rfl⟩ | rfl <;>
          (refine ⟨rfl, ?_⟩; rintro op ⟨x, hx⟩; simp only [Out.told?] at hx; split at hx
           · next e => exact e.symm
           · cases hx)
  | event op e =>
    simp only [step] at hs
    split at hs
    · simp at hs
    · next t hf =>
      injection hs with hs; subst hs
      have hl : t ∈ live s := by simp [live, (found hf).1]
      have this' : o ∈ s.out ∨ ((∃ d, o = .error t.op t.id d)
          ∨ (∃ d, o = .next t.op t.id d) ∨ o = .complete t.op t.id) := by
        cases e with
        | raw d =>
          rcases send_mem ho with h | rfl
          · exact .inl h
          · exact .inr (.inr (.inl ⟨_, rfl⟩))
        | error d =>
          simp only [onEvent, leave] at ho
          rcases send_mem ho with h | rfl
          · rcases send_mem h with h | rfl
            · exact .inl h
            · exact .inr (.inl ⟨_, rfl⟩)
          · exact .inr (.inr (.inr rfl))
        | lagged => exact .inl ho
        | closed =>
          simp only [onEvent, leave] at ho
          rcases send_mem ho with h | rfl
          · exact .inl h
          · exact .inr (.inr (.inr rfl))
      rcases this' with h | h
      · exact .inl h
      · refine .inr (.inr ⟨t, hl, ?_⟩)
        rcases h with ⟨d, rfl⟩ | ⟨d, rfl⟩ | rfl <;>
          (refine ⟨rfl, ?_⟩; rintro op ⟨x, hx⟩; simp only [Out.told?] at hx; split at hx
           · next e => exact e.symm
           · cases hx)
  | cancel op =>
    simp only [step] at hs
    split at hs
    · simp at hs
    · split at hs
      · simp at hs
      · injection hs with hs; subst hs; exact .inl ho
  | finish op =>
    simp only [step] at hs
    split at hs
    · simp at hs
    · injection hs with hs; subst hs; exact .inl ho
  | initTimer =>
    simp only [step] at hs
    split at hs
    · simp at hs
    · split at hs
      · injection hs with hs; subst hs; exact .inl ho
      · injection hs with hs; subst hs
        rcases other rfl ho with h | h
        · exact .inl h
        · exact .inr (.inl h)
  | heartbeat late =>
    simp only [step] at hs
    injection hs with hs; subst hs
    cases late
    · rcases other rfl ho with h | h
      · exact .inl h
      · exact .inr (.inl h)
    · rcases other rfl ho with h | h
      · exact .inl h
      · exact .inr (.inl h)
  | shutdown =>
    simp only [step] at hs
    injection hs with hs; subst hs; exact .inl ho

/-- Messages come only under names that the client has asked for. -/
theorem C95_named {b ls s} (h : Reach b ls s) : ∀ o ∈ s.out, ∀ id, o.id? = some id → id ∈ asked ls := by
  induction h with
  | start =>
    intro o ho id e
    cases b
    · have ho : o ∈ [Out.close .subprotocol] := ho
      simp at ho; subst ho; cases e
    · simp [start] at ho
  | step hr hs ih =>
    intro o ho id e
    rw [asked_append]
    rcases step_out hs o ho with h | h | ⟨t, ht, hid, -⟩
    · exact List.mem_append_left _ (ih o h id e)
    · rw [h] at e; cases e
    · rw [hid] at e; injection e with e; subst e
      exact List.mem_append_left _ (reach_live hr t ht)

/-! ### The order of the messages -/

theorem ordered_nexts (ds : List Data) : Ordered (ds.map .next) := ⟨ds, [], by simp, .inl rfl⟩

theorem ordered_prefix {l l' : List Told} (h : l <+: l') (ho : Ordered l') : Ordered l := by
  obtain ⟨ds, tail, rfl, ht⟩ := ho
  rcases List.prefix_or_prefix_of_prefix h (List.prefix_append _ _) with h | ⟨t', rfl⟩
  · obtain ⟨r, hr⟩ := h
    have : l = (ds.take l.length).map .next := by
      rw [List.map_take, ← hr]; simp
    rw [this]; exact ordered_nexts _
  · have ht' : t' <+: tail := (List.prefix_append_right_inj _).1 h
    refine ⟨ds, t', rfl, ?_⟩
    rcases ht with rfl | rfl | ⟨e, rfl⟩ | ⟨e, rfl⟩
    · left; exact List.prefix_nil.1 ht'
    · rcases List.prefix_cons_iff.1 ht' with rfl | ⟨q, rfl, hq⟩
      · exact .inl rfl
      · rw [List.prefix_nil.1 hq]; exact .inr (.inl rfl)
    · rcases List.prefix_cons_iff.1 ht' with rfl | ⟨q, rfl, hq⟩
      · exact .inl rfl
      · rw [List.prefix_nil.1 hq]; exact .inr (.inr (.inl ⟨e, rfl⟩))
    · rcases List.prefix_cons_iff.1 ht' with rfl | ⟨q, rfl, hq⟩
      · exact .inl rfl
      · rcases List.prefix_cons_iff.1 hq with rfl | ⟨q', rfl, hq'⟩
        · exact .inr (.inr (.inl ⟨e, rfl⟩))
        · rw [List.prefix_nil.1 hq']; exact .inr (.inr (.inr ⟨e, rfl⟩))

/-- What has come for an operation, by where the operation is. -/
structure Stage (ls : List Label) (s : St) : Prop where
  fresh : ∀ op, s.next ≤ op → given op ls = []
  waiting : ∀ t ∈ s.pending, given t.op ls = []
  running : ∀ t ∈ s.tasks, ∃ ds : List Data, given t.op ls = ds.map .next
  any : ∀ op, Ordered (given op ls)

theorem given_one (op : Nat) (ls : List Label) (l : Label) : given op (ls ++ [l]) = given op ls ++ given1 op l := by
  rw [given_append]; simp [given]

theorem stage_quiet {ls : List Label} {s s' : St} {l : Label} (h : Stage ls s) (hg : ∀ op, given1 op l = [])
    (hx : s.next ≤ s'.next) (hp : ∀ t ∈ s'.pending, t ∈ s.pending ∨ s.next ≤ t.op)
    (ht : ∀ t ∈ s'.tasks, t ∈ s.tasks ∨ t ∈ s.pending) : Stage (ls ++ [l]) s' := by
  have e : ∀ op, given op (ls ++ [l]) = given op ls := fun op => by rw [given_one, hg]; simp
  refine ⟨fun op ho => ?_, fun t h1 => ?_, fun t h1 => ?_, fun op => ?_⟩
  · rw [e]; exact h.fresh op (Nat.le_trans hx ho)
  · rw [e]
    rcases hp t h1 with h1 | h1
    · exact h.waiting t h1
    · exact h.fresh _ h1
  · rw [e]
    rcases ht t h1 with h1 | h1
    · exact h.running t h1
    · exact ⟨[], h.waiting t h1⟩
  · rw [e]; exact h.any op

/-- Something comes for one operation, which is then over, or goes on with data. -/
theorem stage_one {ls : List Label} {s s' : St} {l : Label} {t : Task} (h : Stage ls s) (hi : Inv s)
    (ht : t ∈ live s) (hg : ∀ op, op ≠ t.op → given1 op l = [])
    (hx : s'.next = s.next) (hp : ∀ u ∈ s'.pending, u ∈ s.pending ∧ u.op ≠ t.op)
    (hts : ∀ u ∈ s'.tasks, u ∈ s.tasks ∧ (u.op = t.op → ∃ ds : List Data, given t.op (ls ++ [l]) = ds.map .next))
    (ho : Ordered (given t.op (ls ++ [l]))) : Stage (ls ++ [l]) s' := by
  have e : ∀ op, op ≠ t.op → given op (ls ++ [l]) = given op ls := fun op hne => by rw [given_one, hg op hne]; simp
  refine ⟨fun op hle => ?_, fun u hu => ?_, fun u hu => ?_, fun op => ?_⟩
  · have hne : op ≠ t.op := by have := hi.lt t ht; omega
    rw [e op hne]; exact h.fresh op (by omega)
  · obtain ⟨h1, h2⟩ := hp u hu
    rw [e _ h2]; exact h.waiting u h1
  · obtain ⟨h1, h2⟩ := hts u hu
    by_cases hq : u.op = t.op
    · rw [hq]; exact h2 hq
    · rw [e _ hq]; exact h.running u h1
  · by_cases hq : op = t.op
    · rw [hq]; exact ho
    · rw [e _ hq]; exact h.any op

theorem move_erase_pending {s : St} {t : Task} (hi : Inv s) (hm : t ∈ s.pending) :
    ∀ u ∈ s.pending.erase t ++ s.tasks ++ s.ending, u.op ≠ t.op := by
  refine over_of_erase hi.nodup ?_
  have h1 := ((erase_perm hm).append_right s.tasks).append_right s.ending
  simpa [live] using h1

theorem move_erase_tasks {s : St} {t : Task} (hi : Inv s) (hm : t ∈ s.tasks) :
    ∀ u ∈ s.pending ++ s.tasks.erase t ++ s.ending, u.op ≠ t.op := by
  refine over_of_erase hi.nodup ?_
  have h1 : (live s).Perm (s.pending ++ (t :: s.tasks.erase t) ++ s.ending) :=
    ((erase_perm hm).append_left s.pending).append_right s.ending
  refine h1.trans ?_
  simp only [List.append_assoc, List.cons_append]
  exact List.perm_middle

theorem move_erase_ending {s : St} {t : Task} (hi : Inv s) (hm : t ∈ s.ending) :
    ∀ u ∈ s.pending ++ s.tasks ++ s.ending.erase t, u.op ≠ t.op := by
  refine over_of_erase hi.nodup ?_
  have h1 : (live s).Perm (s.pending ++ s.tasks ++ (t :: s.ending.erase t)) :=
    (erase_perm hm).append_left (s.pending ++ s.tasks)
  exact h1.trans List.perm_middle

theorem stage_step {ls : List Label} {s s' : St} {l : Label} (h : Stage ls s) (hi : Inv s)
    (hs : step s l = some s') : Stage (ls ++ [l]) s' := by
  have quiet : (∀ op, given1 op l = []) → Stage (ls ++ [l]) s' := by
    intro hg
    have hm := move hs
    refine stage_quiet h hg ?_ ?_ ?_
    · cases hm <;> omega
    · cases hm with
      | begins id hp ht he hx hss =>
        rw [hp]; intro t ht
        rcases List.mem_append.1 ht with h | h
        · exact .inl h
        · simp at h; subst h; exact .inr (Nat.le_refl _)
      | answered u hm hp ht he hx hss => rw [hp]; exact fun t h => .inl (List.mem_of_mem_erase h)
      | streams u hm hp ht he hx hss => rw [hp]; exact fun t h => .inl (List.mem_of_mem_erase h)
      | ends hp ht he hx hss => rw [hp]; simp
      | _ => rename_i hp _ _ _ _; rw [hp]; exact fun t h => .inl h
    · cases hm with
      | streams u hm hp ht he hx hss =>
        rw [ht]; intro t h1
        rcases List.mem_append.1 h1 with h | h
        · exact .inl h
        · simp at h; subst h; exact .inr hm
      | leaves u hm hp ht he hx hss => rw [ht]; exact fun t h => .inl (List.mem_of_mem_erase h)
      | cancels u hm hc hp ht he hx hss => rw [ht]; exact fun t h => .inl (List.mem_of_mem_erase h)
      | _ => rename_i ht _ _ _; rw [ht]; exact fun t h => .inl h
  cases l with
  | recv f => exact quiet (fun _ => rfl)
  | cancel op => exact quiet (fun _ => rfl)
  | finish op => exact quiet (fun _ => rfl)
  | initTimer => exact quiet (fun _ => rfl)
  | heartbeat late => exact quiet (fun _ => rfl)
  | shutdown => exact quiet (fun _ => rfl)
  | resolve op r =>
    have hs0 := hs
    simp only [step] at hs0
    split at hs0
    · simp at hs0
    · next t hf =>
      injection hs0 with hs0
      obtain ⟨hm, rfl⟩ := found hf
      have hw := h.waiting t hm
      have hl : t ∈ live s := by simp [live, hm]
      have hu := move_erase_pending hi hm
      have hp : ∀ (s1 : St), s1.pending = s.pending.erase t → ∀ u ∈ s1.pending, u ∈ s.pending ∧ u.op ≠ t.op := by
        intro s1 e u h1; rw [e] at h1
        exact ⟨List.mem_of_mem_erase h1, hu u (by simp [h1])⟩
      have hts : ∀ (s1 : St), s1.tasks = s.tasks → ∀ u ∈ s1.tasks, u ∈ s.tasks ∧ (u.op = t.op → ∃ ds : List Data, given t.op (ls ++ [Label.resolve t.op r]) = ds.map .next) := by
        intro s1 e u h1; rw [e] at h1
        exact ⟨h1, fun e => absurd e (hu u (by simp [h1]))⟩
      cases r with
      | stream => exact quiet (fun _ => rfl)
      | broken => exact quiet (fun _ => rfl)
      | fails d =>
        subst hs0
        refine stage_one h hi hl (fun o ho => by simp [given1, Ne.symm ho]) (by simp [onOutcome])
          (hp _ (by simp [onOutcome])) (hts _ (by simp [onOutcome])) ?_
        rw [given_one, hw]; exact ⟨[], [.error d], by simp [given1], .inr (.inr (.inl ⟨d, rfl⟩))⟩
      | forbidden d =>
        subst hs0
        refine stage_one h hi hl (fun o ho => by simp [given1, Ne.symm ho]) (by simp [onOutcome])
          (hp _ (by simp [onOutcome])) (hts _ (by simp [onOutcome])) ?_
        rw [given_one, hw]; exact ⟨[], [.error d], by simp [given1], .inr (.inr (.inl ⟨d, rfl⟩))⟩
      | single d =>
        subst hs0
        refine stage_one h hi hl (fun o ho => by simp [given1, Ne.symm ho]) (by simp [onOutcome])
          (hp _ (by simp [onOutcome])) (hts _ (by simp [onOutcome])) ?_
        rw [given_one, hw]; exact ⟨[d], [.complete], by simp [given1], .inr (.inl rfl)⟩
  | event op e =>
    have hs0 := hs
    simp only [step] at hs0
    split at hs0
    · simp at hs0
    · next t hf =>
      injection hs0 with hs0
      obtain ⟨hm, rfl⟩ := found hf
      obtain ⟨ds, hds⟩ := h.running t hm
      have hl : t ∈ live s := by simp [live, hm]
      have hu := move_erase_tasks hi hm
      have hpend : ∀ u ∈ s.pending, u ∈ s.pending ∧ u.op ≠ t.op := fun u h1 => ⟨h1, hu u (by simp [h1])⟩
      have hts : ∀ u ∈ s.tasks.erase t, u ∈ s.tasks ∧ (u.op = t.op → ∃ ds : List Data, given t.op (ls ++ [Label.event t.op e]) = ds.map .next) :=
        fun u h1 => ⟨List.mem_of_mem_erase h1, fun e => absurd e (hu u (by simp [h1]))⟩
      cases e with
      | lagged => exact quiet (fun _ => rfl)
      | raw d =>
        subst hs0
        have hnext : given t.op (ls ++ [Label.event t.op (.raw d)]) = (ds ++ [d]).map .next := by
          rw [given_one, hds]; simp [given1]
        refine stage_one h hi hl (fun o ho => by simp [given1, Ne.symm ho]) (by simp [onEvent])
          (by simpa [onEvent] using hpend) (fun u h1 => ⟨by simpa [onEvent] using h1, fun _ => ⟨_, hnext⟩⟩) ?_
        rw [hnext]; exact ordered_nexts _
      | error d =>
        subst hs0
        refine stage_one h hi hl (fun o ho => by simp [given1, Ne.symm ho]) (by simp [onEvent, leave])
          (by simpa [onEvent, leave] using hpend) (by simpa [onEvent, leave] using hts) ?_
        rw [given_one, hds]; exact ⟨ds, [.error d, .complete], by simp [given1], .inr (.inr (.inr ⟨d, rfl⟩))⟩
      | closed =>
        subst hs0
        refine stage_one h hi hl (fun o ho => by simp [given1, Ne.symm ho]) (by simp [onEvent, leave])
          (by simpa [onEvent, leave] using hpend) (by simpa [onEvent, leave] using hts) ?_
        rw [given_one, hds]; exact ⟨ds, [.complete], by simp [given1], .inr (.inl rfl)⟩

theorem stage_start (b : Bool) : Stage [] (start b) :=
  ⟨fun _ _ => rfl, fun _ _ => rfl, fun _ _ => ⟨[], rfl⟩, fun _ => ordered_nexts []⟩

theorem reach_stage {b ls s} (h : Reach b ls s) : Stage ls s := by
  induction h with
  | start => exact stage_start b
  | step hr hs ih => exact stage_step ih (reach_inv hr) hs

/-- For each operation the client gets data, then at most once errors, then at most once the end, and nothing after
that. (What the protocol asks is more: nothing at all after errors; see `C95_after_errors_refuted`.) -/
theorem C95_order_partial {b ls s} (op : Nat) (h : Reach b ls s) : Ordered (told op s.out) :=
  ordered_prefix (reach_told op h).1 ((reach_stage h).any op)

/-! ### The end of subscriptions -/

/-- The sender of an operation that has begun is put into the map only once. -/
theorem away_step {s s' : St} {t : Task} (h : t.op < s.next ∧ t ∉ s.pending ∧ (t.id, t.op) ∉ s.subs) (m : Move s s') : t.op < s'.next ∧ t ∉ s'.pending ∧ (t.id, t.op) ∉ s'.subs := by
  obtain ⟨h1, h2, h3⟩ := h
  cases m with
  | stay hp ht he hx hs => rw [hx, hp, hs]; exact ⟨h1, h2, h3⟩
  | dropped id hp ht he hx hs => rw [hx, hp, hs]; exact ⟨h1, h2, fun h => h3 (drop_mem.1 h).1⟩
  | begins id hp ht he hx hs =>
    rw [hx, hp, hs]
    refine ⟨by omega, ?_, h3⟩
    simp only [List.mem_append, List.mem_singleton, not_or]
    exact ⟨h2, fun e => by rw [e] at h1; simp at h1⟩
  | answered u hm hp ht he hx hs => rw [hx, hp, hs]; exact ⟨h1, fun h => h2 (List.mem_of_mem_erase h), h3⟩
  | streams u hm hp ht he hx hs =>
    rw [hx, hp, hs]
    refine ⟨h1, fun h => h2 (List.mem_of_mem_erase h), fun h => ?_⟩
    rcases put_mem.1 h with e | ⟨h, -⟩
    · have : t = u := by cases t; cases u; simp at e; simp [e]
      exact h2 (this ▸ hm)
    · exact h3 h
  | leaves u hm hp ht he hx hs => rw [hx, hp, hs]; exact ⟨h1, h2, h3⟩
  | cancels u hm hc hp ht he hx hs => rw [hx, hp, hs]; exact ⟨h1, h2, fun h => h3 (drop_mem.1 h).1⟩
  | finishes u hm hp ht he hx hs => rw [hx, hp, hs]; exact ⟨h1, h2, fun h => h3 (drop_mem.1 h).1⟩
  | ends hp ht he hx hs => rw [hx, hp, hs]; exact ⟨h1, by simp, by simp⟩

/-- The histories that begin with a given one. -/
theorem reach_split {b : Bool} {ls : List Label} : ∀ {ms s'}, Reach b (ls ++ ms) s' →
    ∃ s, Reach b ls s ∧ after s ms = some s' := by
  suffices gen : ∀ {ks s'}, Reach b ks s' → ∀ ms, ks = ls ++ ms → ∃ s, Reach b ls s ∧ after s ms = some s' by
    intro ms s' h; exact gen h ms rfl
  have after_append : ∀ (ms : List Label) (s s1 s2 : St) (l : Label), after s ms = some s1 → step s1 l = some s2 →
      after s (ms ++ [l]) = some s2 := by
    intro ms
    induction ms with
    | nil =>
      intro s s1 s2 l h1 h2
      simp only [after, Option.some.injEq] at h1; subst h1
      simp [after, h2]
    | cons m ms ih =>
      intro s s1 s2 l h1 h2
      simp only [after] at h1
      cases e : step s m with
      | none => rw [e] at h1; simp at h1
      | some s3 =>
        rw [e] at h1
        simp only [List.cons_append, after, e]
        exact ih s3 s1 s2 l h1 h2
  intro ks s' h
  induction h with
  | start =>
    intro ms e
    have e' := List.append_eq_nil_iff.1 e.symm
    obtain ⟨rfl, rfl⟩ := e'
    exact ⟨_, .start, rfl⟩
  | @step ks s l s' hr hs ih =>
    intro ms e
    rcases List.eq_nil_or_concat ms with rfl | ⟨ms', q, rfl⟩
    · refine ⟨s', ?_, rfl⟩
      have : ls = ks ++ [l] := by simpa using e.symm
      rw [this]; exact .step hr hs
    · rw [List.concat_eq_append, ← List.append_assoc] at e
      obtain ⟨e1, e2⟩ := List.append_inj' e rfl
      cases e2
      obtain ⟨s0, h0, h1⟩ := ih ms' e1
      refine ⟨s0, h0, ?_⟩
      rw [List.concat_eq_append]
      exact after_append ms' s0 s s' l h1 hs

/-- A history leads to one state. -/
theorem det {b : Bool} {ks : List Label} {u v : St} (hu : Reach b ks u) : Reach b ks v → u = v := by
  induction hu generalizing v with
  | start =>
    intro hv
    generalize e : ([] : List Label) = ks at hv
    cases hv with
    | start => rfl
    | step => simp at e
  | @step ks s l s' hr hs ih =>
    intro hv
    generalize e : ks ++ [l] = ks' at hv
    cases hv with
    | start => simp at e
    | @step ks2 s2 l2 s2' hr2 hs2 =>
      obtain ⟨e1, e2⟩ := List.append_inj' e rfl
      cases e2; subst e1
      have := ih hr2
      subst this
      rw [hs] at hs2; injection hs2

theorem after_ind {P : St → Prop} {ms : List Label} : ∀ {s s' : St}, after s ms = some s' → P s →
    (∀ s1 s2 l, P s1 → step s1 l = some s2 → P s2) → P s' := by
  induction ms with
  | nil => intro s s' h hp _; simp only [after, Option.some.injEq] at h; exact h ▸ hp
  | cons m ms ih =>
    intro s s' h hp hstep
    simp only [after] at h
    cases e : step s m with
    | none => rw [e] at h; simp at h
    | some s1 => rw [e] at h; exact ih h (hstep s s1 m hp e) hstep

theorem find_op {l : List Task} {t : Task} (hn : l.Pairwise (fun a b => a.op ≠ b.op)) (h : t ∈ l) :
    l.find? (fun u => u.op == t.op) = some t := by
  induction l with
  | nil => simp at h
  | cons a l ih =>
    rw [List.pairwise_cons] at hn
    rcases List.mem_cons.1 h with rfl | h
    · simp
    · have : a.op ≠ t.op := hn.1 t h
      rw [List.find?_cons_of_neg (by simpa using this)]
      exact ih hn.2 h

theorem tasks_pairwise {s : St} (hi : Inv s) : s.tasks.Pairwise (fun a b => a.op ≠ b.op) := by
  have := hi.nodup
  rw [live, List.append_assoc, List.pairwise_append] at this
  exact (List.pairwise_append.1 this.2.1).1

theorem not_pending_of_task {s : St} {t : Task} (hi : Inv s) (h : t ∈ s.tasks) : t ∉ s.pending := by
  intro hp
  exact move_erase_tasks hi h t (by simp [hp]) rfl

/-- When the client says that it does not want a subscription any more, or the connection is gone, then all
subscriptions of that name, or all subscriptions, can stop, at any time later; and once one has stopped, nothing is
told about it any more. -/
theorem C95_stops {b ls s l ms s'} (h : Reach b ls s) (hl : Reach b (ls ++ [l] ++ ms) s') :
    (∀ t ∈ s.tasks, t ∈ s'.tasks →
      (l = .recv (.text (some (.complete t.id))) ∧ Out.ack ∈ s.out ∨ l = .shutdown) →
      ∃ s'', step s' (.cancel t.op) = some s'') := by
  intro t ht ht' hcause
  obtain ⟨s1, h1, h2⟩ := reach_split hl
  obtain ⟨s0, h0, hs0⟩ := reach_split (ls := ls) (ms := [l]) h1
  have hst : step s l = some s1 := by
    have e := det h h0
    subst e
    simp only [after] at hs0
    cases e : step s l with
    | none => rw [e] at hs0; simp at hs0
    | some x => rw [e] at hs0; simpa using hs0
  have hi := reach_inv h
  have hi' := reach_inv hl
  have hb : t.op < s1.next ∧ t ∉ s1.pending ∧ (t.id, t.op) ∉ s1.subs := by
    have hlt := hi.lt t (by simp [live, ht])
    have hnp := not_pending_of_task hi ht
    rcases hcause with ⟨rfl, hack⟩ | rfl
    · simp only [step] at hst
      split at hst
      · simp at hst
      · injection hst with hst
        have ha : s.acked = true := by
          cases e : s.acked with
          | true => rfl
          | false =>
            have hc := (reach_gate h).ack
            rw [e] at hc; exact absurd hack (List.count_eq_zero.1 (by simpa using hc))
        simp only [onFrame, onMessage, ha, Bool.not_true, Bool.false_eq_true, if_false] at hst
        subst hst
        exact ⟨hlt, hnp, fun h => (drop_mem.1 h).2 rfl⟩
    · simp only [step] at hst
      injection hst with hst; subst hst
      exact ⟨hlt, by simp, by simp⟩
  -- it stays out of the map
  have hall : Inv s' ∧ (t.op < s'.next ∧ t ∉ s'.pending ∧ (t.id, t.op) ∉ s'.subs) := by
    refine after_ind (P := fun u => Inv u ∧ (t.op < u.next ∧ t ∉ u.pending ∧ (t.id, t.op) ∉ u.subs)) h2
      ⟨reach_inv h1, hb⟩ ?_
    rintro u v k ⟨hu, hu2⟩ hk
    refine ⟨inv_step hu (move hk), ?_⟩
    exact away_step hu2 (move hk)
  have hf := find_op (tasks_pairwise hi') ht'
  simp only [step, hf, if_neg hall.2.2.2]
  exact ⟨_, rfl⟩

/-- Once a subscription has stopped, or its end was told, nothing more is told about it. -/
theorem C95_silent {b ls s op ms s'} (h : Reach b (ls ++ [.cancel op]) s) (hl : Reach b (ls ++ [.cancel op] ++ ms) s') :
    told op s'.out = told op s.out := by
  obtain ⟨s1, h1, h2⟩ := reach_split hl
  have hover : op < s1.next ∧ ∀ t ∈ live s1, t.op ≠ op := by
    obtain ⟨s0, h0, hs0⟩ := reach_split (ls := ls) (ms := [.cancel op]) h1
    simp only [after] at hs0
    cases e : step s0 (.cancel op) with
    | none => rw [e] at hs0; simp at hs0
    | some x =>
      rw [e] at hs0
      simp at hs0; subst hs0
      have hi := reach_inv h0
      simp only [step] at e
      split at e
      · simp at e
      · next t hf =>
        split at e
        · simp at e
        · injection e with e; subst e
          obtain ⟨hm, rfl⟩ := found hf
          refine ⟨hi.lt t (by simp [live, hm]), ?_⟩
          have := move_erase_tasks hi hm
          simpa [live] using this
  have hout : told op s1.out = told op s.out := by
    rw [det h h1]
  rw [← hout]
  refine (after_ind (P := fun u => (op < u.next ∧ ∀ t ∈ live u, t.op ≠ op) ∧ told op u.out = told op s1.out) h2
    ⟨hover, rfl⟩ ?_).2
  rintro u v k ⟨hu, hu2⟩ hk
  refine ⟨over_step hu (move hk), ?_⟩
  rw [← hu2]
  cases hc : u.closed with
  | true => rw [(closed_out hc hk).2]
  | false =>
    rw [open_told op hc hk]
    have : given1 op k = [] := by
      cases k with
      | resolve o r =>
        have : o ≠ op := by
          rintro rfl
          simp only [step] at hk
          split at hk
          · simp at hk
          · next t hf =>
            obtain ⟨hm, e⟩ := found hf
            exact hu.2 t (by simp [live, hm]) e
        cases r <;> simp [given1, this]
      | event o e =>
        have : o ≠ op := by
          rintro rfl
          simp only [step] at hk
          split at hk
          · simp at hk
          · next t hf =>
            obtain ⟨hm, e⟩ := found hf
            exact hu.2 t (by simp [live, hm]) e
        cases e <;> simp [given1, this]
      | _ => rfl
    simp [this]

end Verif.Socket
