import Verif.Socket.Props

/-!
# C95: what ends a subscription

A subscription should end only when its source ends, when the client says so, or with the connection. This holds for
clients that use each name once, and not for all: see `C95_name_again_refuted`.
-/

namespace Verif.Socket

theorem live_ids {s s' : St} {l : Label} {ls : List Label} (hs : step s l = some s')
    (hd : (asked (ls ++ [l])).Nodup) (ha : ∀ t ∈ live s, t.id ∈ asked ls)
    (hp : (live s).Pairwise (fun a b => a.id ≠ b.id)) : (live s').Pairwise (fun a b => a.id ≠ b.id) := by
  have perm : ∀ {l l' : List Task}, l.Perm l' → l.Pairwise (fun a b => a.id ≠ b.id) →
      l'.Pairwise (fun a b => a.id ≠ b.id) := fun h => (h.pairwise_iff (fun {_ _} h => Ne.symm h)).1
  have m := move hs
  cases m with
  | stay hp' ht he hx hss => rw [live, hp', ht, he]; exact hp
  | dropped id hp' ht he hx hss => rw [live, hp', ht, he]; exact hp
  | begins id hp' ht he hx hss =>
    have hnew : id ∈ asked [l] := by
      rcases live_asked hs ⟨s.next, id⟩ (by simp [live, hp']) with h | h
      · -- the number is new
        exfalso
        have : (⟨s.next, id⟩ : Task) ∈ live s := h
        cases l with
        | recv f =>
          simp only [step] at hs
          split at hs
          · simp at hs
          · injection hs with hs; subst hs
            cases f with
            | text m =>
              cases m with
              | none => simp [onFrame] at hp'
              | some m =>
                cases m with
                | subscribe i =>
                  simp only [onFrame, onMessage] at hp'
                  split at hp'
                  · simp at hp'
                  · split at hp'
                    · simp at hp'
                    · simp at hp'; subst hp'
                      have h1 := ha _ this
                      rw [asked_append] at hd
                      exact (List.nodup_append.1 hd).2.2 _ h1 _ (by simp [asked]) rfl
                | init => simp only [onFrame, onMessage] at hp'; split at hp' <;> simp at hp'
                | complete i => simp only [onFrame, onMessage] at hp'; split at hp' <;> simp at hp'
                | ping => simp [onFrame, onMessage] at hp'
                | pong => simp [onFrame, onMessage] at hp'
            | _ => simp [onFrame] at hp'
        | resolve op r =>
          simp only [step] at hs
          split at hs
          · simp at hs
          · injection hs with hs; subst hs
            cases r <;> simp [onOutcome] at hx
        | event op e =>
          simp only [step] at hs
          split at hs
          · simp at hs
          · injection hs with hs; subst hs
            cases e <;> simp [onEvent, leave] at hx
        | cancel op =>
          simp only [step] at hs
          split at hs
          · simp at hs
          · split at hs
            · simp at hs
            · injection hs with hs; subst hs; simp at hx
        | finish op =>
          simp only [step] at hs
          split at hs
          · simp at hs
          · injection hs with hs; subst hs; simp at hx
        | initTimer =>
          simp only [step] at hs
          split at hs
          · simp at hs
          · split at hs <;> (injection hs with hs; subst hs; simp at hx)
        | heartbeat late => simp only [step] at hs; injection hs with hs; subst hs; simp at hx
        | shutdown => simp only [step] at hs; injection hs with hs; subst hs; simp at hx
      · exact h
    have hperm : (live s ++ [(⟨s.next, id⟩ : Task)]).Perm (live s') := by
      rw [live, live, hp', ht, he]
      simp only [List.append_assoc]
      refine List.Perm.append_left _ ?_
      rw [← List.append_assoc]
      exact List.perm_append_comm
    refine perm hperm ?_
    rw [List.pairwise_append]
    refine ⟨hp, by simp, fun a h1 b h2 => ?_⟩
    simp at h2; subst h2
    intro e
    rw [asked_append] at hd
    exact (List.nodup_append.1 hd).2.2 _ (ha a h1) _ hnew e
  | answered u hm hp' ht he hx hss => rw [live, hp', ht, he]; exact hp.sublist sub_pending
  | streams u hm hp' ht he hx hss => rw [live, hp', ht, he]; exact perm (live_streams hm) hp
  | leaves u hm hp' ht he hx hss => rw [live, hp', ht, he]; exact perm (live_leaves hm) hp
  | cancels u hm hc hp' ht he hx hss => rw [live, hp', ht, he]; exact hp.sublist sub_tasks
  | finishes u hm hp' ht he hx hss => rw [live, hp', ht, he]; exact hp.sublist sub_ending
  | ends hp' ht he hx hss =>
    rw [live, hp', ht, he]
    refine hp.sublist ?_
    rw [live, List.append_assoc s.pending]; simp

theorem same_of_id {l : List Task} {a b : Task} (hp : l.Pairwise (fun a b => a.id ≠ b.id)) (ha : a ∈ l) (hb : b ∈ l)
    (e : a.id = b.id) : a = b := by
  induction l with
  | nil => simp at ha
  | cons c l ih =>
    rw [List.pairwise_cons] at hp
    rcases List.mem_cons.1 ha with h1 | h1 <;> rcases List.mem_cons.1 hb with h2 | h2
    · rw [h1, h2]
    · subst h1; exact absurd e (hp.1 b h2)
    · subst h2; exact absurd e.symm (hp.1 a h1)
    · exact ih hp.2 h1 h2

/-- Which steps take a name out of the map. -/
theorem drop_cause {s s' : St} {l : Label} (hs : step s l = some s') {e : Id × Nat} (h : e ∈ s.subs) (h' : e ∉ s'.subs) :
    l = .recv (.text (some (.complete e.1))) ∨ l = .shutdown ∨
    (∃ t, l = .resolve t.op .stream ∧ t ∈ s.pending ∧ t.id = e.1) ∨
    (∃ t, l = .cancel t.op ∧ t ∈ s.tasks ∧ (t.id, t.op) ∉ s.subs ∧ t.id = e.1) ∨
    (∃ t, l = .finish t.op ∧ t ∈ s.ending ∧ t.id = e.1) := by
  cases l with
  | recv f =>
    simp only [step] at hs
    split at hs
    · simp at hs
    · injection hs with hs; subst hs
      cases f with
      | text m =>
        cases m with
        | none => simp [onFrame, h] at h'
        | some m =>
          cases m with
          | complete i =>
            simp only [onFrame, onMessage] at h'
            split at h'
            · simp [h] at h'
            · rw [drop_mem] at h'
              by_cases ei : e.1 = i
              · left; rw [ei]
              · exact absurd ⟨h, ei⟩ h'
          | subscribe i =>
            simp only [onFrame, onMessage] at h'
            split at h'
            · simp [h] at h'
            · split at h' <;> simp [h] at h'
          | init => simp only [onFrame, onMessage] at h'; split at h' <;> simp [h] at h'
          | ping => simp [onFrame, onMessage, h] at h'
          | pong => simp [onFrame, onMessage, h] at h'
      | _ => simp [onFrame, h] at h'
  | resolve op r =>
    simp only [step] at hs
    split at hs
    · simp at hs
    · next t hf =>
      injection hs with hs; subst hs
      obtain ⟨hm, rfl⟩ := found hf
      cases r with
      | stream =>
        right; right; left
        refine ⟨t, rfl, hm, ?_⟩
        have h' : e ∉ ({ s with pending := s.pending.erase t }.put t.id t.op).subs := h'
        rw [put_mem] at h'
        by_cases ei : e.1 = t.id
        · exact ei.symm
        · exact absurd (Or.inr ⟨h, ei⟩) h'
      | _ => simp [onOutcome, h] at h'
  | event op ev =>
    simp only [step] at hs
    split at hs
    · simp at hs
    · injection hs with hs; subst hs
      cases ev <;> simp [onEvent, leave, h] at h'
  | cancel op =>
    simp only [step] at hs
    split at hs
    · simp at hs
    · next t hf =>
      split at hs
      · simp at hs
      · next hc =>
        injection hs with hs; subst hs
        obtain ⟨hm, rfl⟩ := found hf
        right; right; right; left
        refine ⟨t, rfl, hm, hc, ?_⟩
        rw [drop_mem] at h'
        by_cases ei : e.1 = t.id
        · exact ei.symm
        · exact absurd ⟨h, ei⟩ h'
  | finish op =>
    simp only [step] at hs
    split at hs
    · simp at hs
    · next t hf =>
      injection hs with hs; subst hs
      obtain ⟨hm, rfl⟩ := found hf
      right; right; right; right
      refine ⟨t, rfl, hm, ?_⟩
      rw [drop_mem] at h'
      by_cases ei : e.1 = t.id
      · exact ei.symm
      · exact absurd ⟨h, ei⟩ h'
  | initTimer =>
    simp only [step] at hs
    split at hs
    · simp at hs
    · split at hs <;> (injection hs with hs; subst hs; simp [h] at h')
  | heartbeat late => simp only [step] at hs; injection hs with hs; subst hs; simp [h] at h'
  | shutdown => exact .inr (.inl rfl)

/-- The reasons that a client knows of. -/
def Asked (ls : List Label) (id : Id) : Prop := Label.recv (.text (some (.complete id))) ∈ ls ∨ Label.shutdown ∈ ls

theorem ends_inv {b ls s} (h : Reach b ls s) (hd : (asked ls).Nodup) :
    (live s).Pairwise (fun a b => a.id ≠ b.id) ∧ ∀ t ∈ s.tasks, (t.id, t.op) ∈ s.subs ∨ Asked ls t.id := by
  induction h with
  | start => cases b <;> simp [start, live, St.send]
  | @step ls s l s' hr hs ih =>
    have hd0 : (asked ls).Nodup := by rw [asked_append] at hd; exact (List.nodup_append.1 hd).1
    obtain ⟨hp, ht⟩ := ih hd0
    have hi := reach_inv hr
    refine ⟨live_ids hs hd (reach_live hr) hp, fun t h1 => ?_⟩
    have more : Asked ls t.id → Asked (ls ++ [l]) t.id := by
      rintro (h | h)
      · exact .inl (by simp [h])
      · exact .inr (by simp [h])
    -- the task was there before, or has just begun
    have before : t ∈ s.tasks ∨ (t ∈ s.pending ∧ (t.id, t.op) ∈ s'.subs) := by
      cases move hs with
      | streams u hm hp' ht' he hx hss =>
        rw [ht'] at h1
        rcases List.mem_append.1 h1 with h | h
        · exact .inl h
        · simp at h; subst h
          exact .inr ⟨hm, by rw [hss]; exact put_mem.2 (.inl rfl)⟩
      | leaves u hm hp' ht' he hx hss => rw [ht'] at h1; exact .inl (List.mem_of_mem_erase h1)
      | cancels u hm hc hp' ht' he hx hss => rw [ht'] at h1; exact .inl (List.mem_of_mem_erase h1)
      | _ => rename_i ht' _ _ _; rw [ht'] at h1; exact .inl h1
    rcases before with hb | ⟨-, hb⟩
    · rcases ht t hb with hsub | hask
      · by_cases hsub' : (t.id, t.op) ∈ s'.subs
        · exact .inl hsub'
        · right
          rcases drop_cause hs hsub hsub' with rfl | rfl | ⟨u, rfl, hu, e⟩ | ⟨u, rfl, hu, hc, e⟩ | ⟨u, rfl, hu, e⟩
          · exact .inl (by simp)
          · exact .inr (by simp)
          · have := same_of_id hp (a := u) (b := t) (by simp [live, hu]) (by simp [live, hb]) e
            subst this
            exact absurd hu (not_pending_of_task hi hb)
          · have := same_of_id hp (a := u) (b := t) (by simp [live, hu]) (by simp [live, hb]) e
            subst this
            exact absurd hsub hc
          · have := same_of_id hp (a := u) (b := t) (by simp [live, hu]) (by simp [live, hb]) e
            subst this
            exact absurd rfl (move_erase_tasks hi hb u (by simp [hu]))
      · exact .inr (more hask)
    · exact .inl hb

/-- As long as the client uses each name once, a subscription is cut off only when the client has said that it does
not want it any more, or with the connection. Missing: clients that use the name of a finished operation again, see
`C95_name_again_refuted`. -/
theorem C95_cut_off_partial {b ls s op s'} (h : Reach b ls s) (hd : (asked ls).Nodup)
    (hc : step s (.cancel op) = some s') : ∃ t ∈ s.tasks, t.op = op ∧ Asked ls t.id := by
  simp only [step] at hc
  split at hc
  · simp at hc
  · next t hf =>
    split at hc
    · simp at hc
    · next hn =>
      obtain ⟨hm, e⟩ := found hf
      exact ⟨t, hm, e, ((ends_inv h hd).2 t hm).resolve_left hn⟩

/-! ### Histories -/

/-- A client that initialises, subscribes as `a`, and asks once more. -/
def first : List Label :=
  [.recv (.text (some .init)), .recv (.text (some (.subscribe "a"))), .resolve 0 .stream, .event 0 (.raw "1")]

/-- A subscription and a query side by side; both are told what is theirs. -/
example : (after (start true) (first ++
      [.recv (.text (some (.subscribe "b"))), .event 0 .lagged, .event 0 (.raw "2"), .resolve 1 (.single "x"),
       .event 0 .closed, .finish 0])).map (·.out) =
    some [.ack, .next 0 "a" "1", .next 0 "a" "2", .next 1 "b" "x", .complete 1 "b", .complete 0 "a"] := by decide

/-- The hypotheses of the theorems are met: a running subscription that the client completes. -/
example : ∃ s, Reach true (first ++ [.recv (.text (some (.complete "a")))]) s ∧ (asked first).Nodup ∧
    s.closed = false ∧ ⟨0, "a"⟩ ∈ s.tasks ∧ (step s (.cancel 0)).isSome = true ∧ Out.ack ∈ s.out := by
  cases h : after (start true) (first ++ [.recv (.text (some (.complete "a")))]) with
  | none => exact absurd h (by decide)
  | some s =>
    have hr := reach_after (Reach.start (offered := true)) h
    have : s = ((after (start true) (first ++ [.recv (.text (some (.complete "a")))])).getD {}) := by rw [h]; rfl
    refine ⟨s, by simpa using hr, by decide, ?_, ?_, ?_, ?_⟩ <;> (rw [this]; decide)

/-- The same name while the subscription runs closes the connection. -/
example : (after (start true) (first ++ [.recv (.text (some (.subscribe "a")))])).map (fun s => (s.out.getLast?, s.closed)) =
    some (some (.close (.taken "a")), true) := by decide

/-- Too early. -/
example : (after (start true) [.recv (.text (some (.subscribe "a")))]).map (·.out) = some [.close .unauthorized] := by
  decide

/-- The claim that a subscription is cut off only when the client has said that it does not want it any more (after
it has begun), or with the connection, is false for the code: a client that completes a subscription and uses its
name again may lose the new subscription, without a word, when the task of the old one comes to its end later: its
guard removes what is kept under the name (websocket_server.rs:218-223). -/
theorem C95_name_again_refuted : ∃ ls s s', Reach true ls s ∧ step s (.cancel 1) = some s' ∧ ⟨1, "a"⟩ ∈ s.tasks ∧
    -- since the second subscription was asked for, the client has completed nothing and the connection is open
    (∃ pre post, ls = pre ++ .recv (.text (some (.subscribe "a"))) :: post ∧
      Label.recv (.text (some (.subscribe "a"))) ∈ pre ∧ ¬ Asked post "a") ∧ s.closed = false ∧
    -- and it is never told that the second subscription is over
    told 1 s'.out = [.next "2"] := by
  let ls : List Label := first ++ [.recv (.text (some (.complete "a")))] ++
    [.recv (.text (some (.subscribe "a"))), .resolve 1 .stream, .event 1 (.raw "2"), .cancel 0]
  cases h : after (start true) ls with
  | none => exact absurd h (by decide)
  | some s =>
    have hr := reach_after (Reach.start (offered := true)) h
    have hs : s = ((after (start true) ls).getD {}) := by rw [h]; rfl
    cases hc : step s (.cancel 1) with
    | none => exact absurd hc (by rw [hs]; decide)
    | some s' =>
      have hs' : s' = (((after (start true) ls).bind (fun s => step s (.cancel 1))).getD {}) := by rw [h]; simp [hc]
      refine ⟨ls, s, s', by simpa using hr, hc, by rw [hs]; decide, ?_, by rw [hs]; decide, by rw [hs']; decide⟩
      refine ⟨first ++ [.recv (.text (some (.complete "a")))], _, rfl, by decide, ?_⟩
      rintro (h | h) <;> exact absurd h (by decide)

/-- The claim that nothing comes for an operation after its errors is false for the code: when a subscription fails,
the end is sent after the errors (websocket_server.rs:744-748, 769-774). -/
theorem C95_after_errors_refuted : ∃ ls s, Reach true ls s ∧ told 0 s.out = [.next "1", .error "e", .complete] := by
  cases h : after (start true) (first ++ [.event 0 (.error "e")]) with
  | none => exact absurd h (by decide)
  | some s =>
    have hr := reach_after (Reach.start (offered := true)) h
    have hs : s = ((after (start true) (first ++ [.event 0 (.error "e")])).getD {}) := by rw [h]; rfl
    exact ⟨_, s, by simpa using hr, by rw [hs]; decide⟩

end Verif.Socket
