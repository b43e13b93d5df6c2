import Verif.Subs.Model

/-!
# C41: the subscription buffer; C43, C44: the broadcast to clients
-/

namespace Verif.Subs

variable {α : Type}

/-! ## C41: the buffer -/

theorem buf_inv {cap : Nat} {b : Buf α} (hr : BReach cap b) :
    b.cap = cap ∧ b.queue.length ≤ cap ∧ (b.delivered ++ b.queue).Sublist b.emitted ∧
    (b.rxOpen = true → b.emitted.length = (b.delivered ++ b.queue).length + b.dropped.length) ∧
    b.late.length ≤ 1 ∧ (b.running = true → b.late = []) ∧
    (b.rxOpen = true → b.late = []) := by
  induction hr with
  | init => simp
  | @step b b' hr hs ih =>
    obtain ⟨h1, h2, h3, h4, h5, h6, h7⟩ := ih
    cases hs with
    | item x h =>
      unfold drainItem trySendOrDrop
      cases ho : b.rxOpen with
      | false => simp [h1, h2, h3, h6 h]
      | true =>
        simp only [ho, Bool.true_eq_false, if_false]
        by_cases hq : b.queue.length < b.cap
        · simp only [hq, if_true]
          refine ⟨h1, ?_, ?_, ?_, h5, h6, fun _ => h7 ho⟩
          · simp only [List.length_append, List.length_cons, List.length_nil]; omega
          · rw [← List.append_assoc]; exact h3.append (List.Sublist.refl _)
          · intro _
            have := h4 ho
            simp only [List.length_append, List.length_cons, List.length_nil] at this ⊢
            omega
        · simp only [hq, if_false]
          refine ⟨h1, h2, h3.trans (List.sublist_append_left ..), ?_, h5, h6, fun _ => h7 ho⟩
          intro _
          have := h4 ho
          simp only [List.length_append, List.length_cons, List.length_nil] at this ⊢
          omega
    | sourceEnd h => exact ⟨h1, h2, h3, h4, h5, by simp, h7⟩
    | noticed h hc => exact ⟨h1, h2, h3, h4, h5, by simp, h7⟩
    | @recv x q _ ho hq =>
      refine ⟨h1, ?_, ?_, ?_, h5, h6, h7⟩
      · rw [hq] at h2; simp only [List.length_cons] at h2; simp only; omega
      · rw [hq] at h3
        simpa only [List.append_assoc, List.cons_append, List.nil_append] using h3
      · intro _
        have := h4 ho
        rw [hq] at this
        simp only [List.length_append, List.length_cons, List.length_nil] at this ⊢
        omega
    | leave ho =>
      refine ⟨h1, by simp, ?_, by simp, h5, h6, by simp⟩
      simp only [List.append_nil]
      exact (List.sublist_append_left ..).trans h3

/-- **C41**, order: what the consumer has been given is a subsequence of what the subgraph emitted:
in order, nothing repeated, nothing invented. -/
theorem C41_in_order (cap : Nat) (b : Buf α) (hr : BReach cap b) :
    b.delivered.Sublist b.emitted :=
  (List.sublist_append_left ..).trans (buf_inv hr).2.2.1

/-- **C41**, the upstream is never held up: whatever the consumer does, the drainer can take the next
item at once; afterwards it still runs, unless the consumer has gone. -/
theorem C41_never_blocks (b : Buf α) (hrun : b.running = true) (x : α) :
    ∃ b', BStep b b' ∧ (b.rxOpen = true → b'.running = true ∧ b'.emitted = b.emitted ++ [x]) := by
  refine ⟨_, .item x hrun, ?_⟩
  intro ho
  unfold drainItem trySendOrDrop
  simp only [ho, Bool.true_eq_false, if_false]
  split
  · rename_i heq
    split at heq <;> simp at heq
  · rename_i heq
    split at heq <;> · simp only [Prod.mk.injEq] at heq; rw [← heq.2]; simp [hrun]

/-- **C41**, drops: an item is dropped only while `cap` items wait for the consumer; otherwise it
is queued last. -/
theorem C41_drop_only_when_full (cap : Nat) (b : Buf α) (hr : BReach cap b) (x : α)
    (ho : b.rxOpen = true) :
    ((drainItem b x).dropped = b.dropped ++ [x] ∧ (drainItem b x).queue = b.queue ∧
      b.queue.length = cap) ∨
    ((drainItem b x).dropped = b.dropped ∧ (drainItem b x).queue = b.queue ++ [x] ∧
      b.queue.length < cap) := by
  obtain ⟨h1, h2, _⟩ := buf_inv hr
  unfold drainItem trySendOrDrop
  simp only [ho, Bool.true_eq_false, if_false]
  by_cases hq : b.queue.length < b.cap
  · simp only [hq, if_true]
    exact Or.inr ⟨trivial, trivial, by omega⟩
  · simp only [hq, if_false]
    exact Or.inl ⟨trivial, trivial, by omega⟩

/-- **C41**, nothing else is lost: as long as the consumer is there, every emitted item has been
delivered, waits in the queue, or was dropped. In particular, if nothing was dropped, the delivered
and the waiting items together are exactly the emitted ones. -/
theorem C41_accounted (cap : Nat) (b : Buf α) (hr : BReach cap b) (ho : b.rxOpen = true) :
    b.emitted.length = b.delivered.length + b.queue.length + b.dropped.length ∧
    (b.dropped = [] → b.delivered ++ b.queue = b.emitted) := by
  obtain ⟨_, _, h3, h4, _⟩ := buf_inv hr
  have h := h4 ho
  rw [List.length_append] at h
  refine ⟨h, fun hd => h3.eq_of_length ?_⟩
  rw [hd, List.length_nil] at h
  rw [List.length_append]; omega

/-- **C41**, the end: after the consumer has gone nothing is delivered, at most one more item is
taken from the subgraph, and the drainer can stop at once. -/
theorem C41_stops (cap : Nat) (b : Buf α) (hr : BReach cap b) (ho : b.rxOpen = false) :
    b.late.length ≤ 1 ∧ (∀ b', BStep b b' → b'.delivered = b.delivered ∧ b'.running = false) ∧
    (b.running = true → BStep b { b with running := false }) := by
  refine ⟨(buf_inv hr).2.2.2.2.1, ?_, fun h => .noticed h ho⟩
  intro b' hs
  cases hs with
  | item x h => simp [drainItem, trySendOrDrop, ho]
  | sourceEnd h => simp
  | noticed h hc => simp
  | recv h hq => rw [ho] at h; simp at h
  | leave h => rw [ho] at h; simp at h

/-- Example: capacity 1, three items before the consumer reads: the first and the last are
delivered, the middle ones dropped. -/
example : BReach 1 (⟨1, [4], true, true, [1, 2, 3, 4], [1], [2, 3], []⟩ : Buf Nat) :=
  .step (.step (.step (.step (.step .init (.item 1 rfl)) (.item 2 rfl)) (.item 3 rfl))
    (.recv rfl rfl)) (.item 4 rfl)

/-! ## C43, C44: the broadcast -/

theorem setReader_eq (s : Chan α) (c : Nat) (r : Reader α) (d : Nat) :
    (s.setReader c r).reader d = if d = c then r else s.reader d := rfl

/-- What a reader has been given fits what was sent. -/
def Fits (s : Chan α) (start next : Nat) (seen : List (Event α)) : Prop :=
  start ≤ next ∧ next ≤ s.sent.length ∧ seen.Sublist ((s.sent.take next).drop start) ∧
    (s.sent.length ≤ s.cap → seen = (s.sent.take next).drop start) ∧
    (∀ e ∈ seen, e ≠ .error) ∧ (∀ i, start ≤ i → i < next → s.sent[i]? ≠ some .error)

theorem drop_take_succ (l : List (Event α)) (a n : Nat) (h : a ≤ n) (x : Event α)
    (hx : l[n]? = some x) : (l.take (n + 1)).drop a = (l.take n).drop a ++ [x] := by
  have hn : n < l.length := by
    rw [List.getElem?_eq_some_iff] at hx; exact hx.1
  rw [List.take_succ, hx]
  simp only [Option.toList_some]
  rw [List.drop_append_of_le_length]
  rw [List.length_take]; omega

theorem drop_take_mono (l : List (Event α)) (a n m : Nat) (h : n ≤ m) :
    ((l.take n).drop a).Sublist ((l.take m).drop a) := by
  refine List.Sublist.drop ?_ _
  exact (List.take_sublist_take_left h)

/-- The invariant of the broadcast. -/
structure CInv (cap : Nat) (dedupe : Bool) (s : Chan α) : Prop where
  cap_eq : s.cap = cap
  dedupe_eq : s.dedupe = dedupe
  parked : s.parked = (dedupe && s.running)
  others : dedupe = false → ∀ c, c ≠ 0 → s.reader c = .absent
  /-- the error is the last event, and after it the pump has ended -/
  last : ∀ i, s.sent[i]? = some .error → s.running = false ∧ i + 1 = s.sent.length
  reading : ∀ c start next seen, s.reader c = .reading start next seen → Fits s start next seen
  ended : ∀ c start seen, s.reader c = .ended start seen →
    s.running = false ∧ start ≤ s.sent.length ∧ seen.Sublist (s.sent.drop start) ∧
    (s.sent.length ≤ s.cap → seen = s.sent.drop start) ∧
    (∀ i, start ≤ i → s.sent[i]? = some .error → seen.getLast? = some .error)
  leader : dedupe = false → (∃ next seen, s.reader 0 = .reading 0 next seen) ∨
    (∃ seen, s.reader 0 = .ended 0 seen) ∨ s.reader 0 = .left

theorem fits_append {s : Chan α} {x : Event α} {start next : Nat} {seen : List (Event α)}
    (t : Chan α) (ht : t.sent = s.sent ++ [x]) (hc : t.cap = s.cap)
    (h : Fits s start next seen) : Fits t start next seen := by
  obtain ⟨h1, h2, h3, h4, h5, h6⟩ := h
  have htake : (s.sent ++ [x]).take next = s.sent.take next := List.take_append_of_le_length h2
  refine ⟨h1, ?_, ?_, ?_, h5, ?_⟩
  · rw [ht, List.length_append]; omega
  · rw [ht, htake]; exact h3
  · intro hl
    rw [ht, htake]
    refine h4 ?_
    rw [ht, hc, List.length_append] at hl; omega
  · intro i hi hi'
    rw [ht, List.getElem?_append_left (by omega)]
    exact h6 i hi hi'

theorem fits_same {s t : Chan α} {start next : Nat} {seen : List (Event α)}
    (ht : t.sent = s.sent) (hc : t.cap = s.cap)
    (h : Fits s start next seen) : Fits t start next seen := by
  unfold Fits at *; rw [ht, hc]; exact h

theorem last_append {s : Chan α} {i : Nat} {x : Event α}
    (hl : ∀ i, s.sent[i]? = some .error → s.running = false ∧ i + 1 = s.sent.length)
    (hrun : s.running = true) (h : (s.sent ++ [x])[i]? = some .error) :
    i = s.sent.length ∧ x = .error := by
  rcases Nat.lt_trichotomy i s.sent.length with hi | hi | hi
  · rw [List.getElem?_append_left hi] at h
    have := (hl i h).1; rw [hrun] at this; simp at this
  · subst hi
    simp at h
    exact ⟨rfl, h⟩
  · rw [List.getElem?_eq_none (by simp; omega)] at h; simp at h

theorem cinv_stop {cap : Nat} {dedupe : Bool} {s : Chan α} (hi : CInv cap dedupe s) :
    CInv cap dedupe s.stop := by
  obtain ⟨h1, h2, h3, h4, h5, h6, h7, h8⟩ := hi
  refine ⟨h1, h2, by simp [Chan.stop], h4, ?_, ?_, ?_, h8⟩
  · intro i hx; exact ⟨rfl, (h5 i hx).2⟩
  · intro c start next seen h; exact fits_same rfl rfl (h6 c start next seen h)
  · intro c start seen h
    obtain ⟨_, g2⟩ := h7 c start seen h
    exact ⟨rfl, g2⟩

theorem cinv_set {cap : Nat} {dedupe : Bool} {s : Chan α} (hi : CInv cap dedupe s) (c : Nat)
    (r : Reader α) (hother : dedupe = false → c = 0)
    (hread : ∀ start next seen, r = .reading start next seen → Fits s start next seen)
    (hend : ∀ start seen, r = .ended start seen →
      s.running = false ∧ start ≤ s.sent.length ∧ seen.Sublist (s.sent.drop start) ∧
      (s.sent.length ≤ s.cap → seen = s.sent.drop start) ∧
      (∀ i, start ≤ i → s.sent[i]? = some .error → seen.getLast? = some .error))
    (hlead : dedupe = false → (∃ next seen, r = .reading 0 next seen) ∨
      (∃ seen, r = .ended 0 seen) ∨ r = .left) : CInv cap dedupe (s.setReader c r) := by
  obtain ⟨h1, h2, h3, h4, h5, h6, h7, h8⟩ := hi
  refine ⟨h1, h2, h3, ?_, h5, ?_, ?_, ?_⟩
  · intro hd d hne
    rw [setReader_eq, if_neg (by rw [hother hd]; exact hne)]
    exact h4 hd d hne
  · intro d start next seen h
    rw [setReader_eq] at h
    split at h
    · exact fits_same rfl rfl (hread start next seen h)
    · exact fits_same rfl rfl (h6 d start next seen h)
  · intro d start seen h
    rw [setReader_eq] at h
    split at h
    · exact hend start seen h
    · exact h7 d start seen h
  · intro hd
    rw [setReader_eq]
    split
    · exact hlead hd
    · exact h8 hd

theorem cinv {cap : Nat} (hcap : 1 ≤ cap) {dedupe : Bool} {s : Chan α} (hr : CReach cap dedupe s) :
    CInv cap dedupe s := by
  induction hr with
  | init =>
    refine ⟨rfl, rfl, by simp [Chan.init], ?_, by simp [Chan.init], ?_, ?_, ?_⟩
    · intro hd c hc; simp [Chan.init, hc]
    · intro c start next seen h
      simp only [Chan.init] at h
      split at h
      · simp only [Reader.reading.injEq] at h
        obtain ⟨rfl, rfl, rfl⟩ := h
        simp [Fits, Chan.init]
      · simp at h
    · intro c start seen h
      simp only [Chan.init] at h
      split at h <;> simp at h
    · intro hd; left; exact ⟨0, [], by simp [Chan.init, hd]⟩
  | @step s t hr hs ih =>
    have own : ∀ c start next seen, s.reader c = .reading start next seen →
        (dedupe = false → c = 0 ∧ start = 0) := by
      intro c start next seen h hd
      have hc : c = 0 := by
        by_cases hc : c = 0
        · exact hc
        · have := ih.others hd c hc; rw [h] at this; simp at this
      subst hc
      rcases ih.leader hd with ⟨n, se, h'⟩ | ⟨se, h'⟩ | h'
      · rw [h] at h'; simp only [Reader.reading.injEq] at h'; exact ⟨rfl, h'.1⟩
      · rw [h] at h'; simp at h'
      · rw [h] at h'; simp at h'
    cases hs with
    | item x h hrc =>
      obtain ⟨h1, h2, h3, h4, h5, h6, h7, h8⟩ := ih
      refine ⟨h1, h2, h3, h4, ?_, ?_, ?_, h8⟩
      · intro i hx
        have := (last_append h5 h hx).2
        simp at this
      · intro c start next seen hc
        exact fits_append _ rfl rfl (h6 c start next seen hc)
      · intro c start seen hc
        have := (h7 c start seen hc).1
        rw [h] at this; simp at this
    | itemUnheard x h hrc => exact cinv_stop ih
    | upstreamEnd h => exact cinv_stop ih
    | retired h hrc =>
      obtain ⟨h1, h2, h3, h4, h5, h6, h7, h8⟩ := ih
      refine ⟨h1, h2, by simp [Chan.stop], h4, ?_, ?_, ?_, h8⟩
      · intro i hx
        have := (last_append h5 h hx).1
        refine ⟨rfl, ?_⟩
        simp only [Chan.stop, List.length_append, List.length_cons, List.length_nil]
        omega
      · intro c start next seen hc
        exact fits_append _ rfl rfl (h6 c start next seen hc)
      · intro c start seen hc
        have := (h7 c start seen hc).1
        rw [h] at this; simp at this
    | retiredUnheard h hrc => exact cinv_stop ih
    | attach c h hd =>
      rw [ih.dedupe_eq] at hd
      refine cinv_set ih c _ (by simp [hd]) ?_ (by simp) (by simp [hd])
      intro start next seen he
      simp only [Reader.reading.injEq] at he
      obtain ⟨rfl, rfl, rfl⟩ := he
      refine ⟨Nat.le_refl _, Nat.le_refl _, List.nil_sublist _, ?_, by simp, ?_⟩
      · intro _; simp
      · intro i _ _; omega
    | lagged c start next seen h hl =>
      obtain ⟨g1, g2, g3, g4, g5, g6⟩ := ih.reading c start next seen h
      refine cinv_set ih c _ (fun hd => (own c _ _ _ h hd).1) ?_ (by simp) ?_
      · intro start' next' seen' he
        simp only [Reader.reading.injEq] at he
        obtain ⟨rfl, rfl, rfl⟩ := he
        refine ⟨by omega, by omega, g3.trans (drop_take_mono _ _ _ _ (by omega)), by omega, g5, ?_⟩
        intro i _ hi hx
        have := (ih.last i hx).2
        have := ih.cap_eq
        omega
      · intro hd; left; exact ⟨_, _, by rw [(own c _ _ _ h hd).2]⟩
    | recvRaw c start next seen x h hl hx =>
      obtain ⟨g1, g2, g3, g4, g5, g6⟩ := ih.reading c start next seen h
      refine cinv_set ih c _ (fun hd => (own c _ _ _ h hd).1) ?_ (by simp) ?_
      · intro start' next' seen' he
        simp only [Reader.reading.injEq] at he
        obtain ⟨rfl, rfl, rfl⟩ := he
        have hn : next < s.sent.length := (List.getElem?_eq_some_iff.1 hx).1
        rw [Fits, drop_take_succ _ _ _ g1 _ hx]
        refine ⟨by omega, by omega, g3.append (List.Sublist.refl _), ?_, ?_, ?_⟩
        · intro hle; rw [g4 hle]
        · intro e he
          rcases List.mem_append.1 he with he | he
          · exact g5 e he
          · simp only [List.mem_singleton] at he; rw [he]; simp
        · intro i hi' hi
          rcases Nat.lt_or_ge i next with h' | h'
          · exact g6 i hi' h'
          · have : i = next := by omega
            rw [this, hx]; simp
      · intro hd; left; exact ⟨_, _, by rw [(own c _ _ _ h hd).2]⟩
    | recvError c start next seen h hl hx =>
      obtain ⟨g1, g2, g3, g4, g5, g6⟩ := ih.reading c start next seen h
      refine cinv_set ih c _ (fun hd => (own c _ _ _ h hd).1) (by simp) ?_ ?_
      · intro start' seen' he
        simp only [Reader.ended.injEq] at he
        obtain ⟨rfl, rfl⟩ := he
        obtain ⟨hst, hlast⟩ := ih.last next hx
        have hall : s.sent.drop start = (s.sent.take next).drop start ++ [.error] := by
          rw [← drop_take_succ _ _ _ g1 _ hx, hlast, List.take_length]
        refine ⟨hst, by omega, ?_, ?_, ?_⟩
        · rw [hall]; exact g3.append (List.Sublist.refl _)
        · intro hle; rw [hall, g4 hle]
        · intro i _ _; simp
      · intro hd; right; left; exact ⟨_, by rw [(own c _ _ _ h hd).2]⟩
    | closed c start next seen h hrun hn =>
      obtain ⟨g1, g2, g3, g4, g5, g6⟩ := ih.reading c start next seen h
      refine cinv_set ih c _ (fun hd => (own c _ _ _ h hd).1) (by simp) ?_ ?_
      · intro start' seen' he
        simp only [Reader.ended.injEq] at he
        obtain ⟨rfl, rfl⟩ := he
        rw [hn, List.take_length] at g3 g4
        refine ⟨hrun, by omega, g3, g4, ?_⟩
        intro i hs hx
        have hi : i < s.sent.length := (List.getElem?_eq_some_iff.1 hx).1
        exact absurd hx (g6 i hs (by omega))
      · intro hd; right; left; exact ⟨_, by rw [(own c _ _ _ h hd).2]⟩
    | leave c start next seen h =>
      exact cinv_set ih c _ (fun hd => (own c _ _ _ h hd).1) (by simp) (by simp) (by simp)

/-- **C43**, order: the events a client is given are a subsequence of those sent after it
subscribed, in order and without repetition. If all events fit the channel, it misses none. -/
theorem C43_in_order (cap : Nat) (hcap : 1 ≤ cap) (dedupe : Bool) (s : Chan α)
    (hr : CReach cap dedupe s) (c start : Nat) (seen : List (Event α)) :
    (∀ next, s.reader c = .reading start next seen →
      seen.Sublist (s.sent.drop start) ∧
      (s.sent.length ≤ cap → seen = (s.sent.take next).drop start)) ∧
    (s.reader c = .ended start seen →
      seen.Sublist (s.sent.drop start) ∧ (s.sent.length ≤ cap → seen = s.sent.drop start)) := by
  have hi := cinv hcap hr
  constructor
  · intro next h
    obtain ⟨_, _, g3, g4, _⟩ := hi.reading c start next seen h
    refine ⟨g3.trans ((List.take_sublist next s.sent).drop start), ?_⟩
    rw [← hi.cap_eq]; exact g4
  · intro h
    obtain ⟨_, _, g3, g4, _⟩ := hi.ended c start seen h
    rw [← hi.cap_eq]; exact ⟨g3, g4⟩

/-- **C43**, schema reload: a client that was subscribed when the subscription was terminated by a
schema reload, and reads to the end, is given the error, as its last event, however slow it was. -/
theorem C43_reload_error_seen (cap : Nat) (hcap : 1 ≤ cap) (dedupe : Bool) (s : Chan α)
    (hr : CReach cap dedupe s) (c start : Nat) (seen : List (Event α))
    (hc : s.reader c = .ended start seen) (herr : .error ∈ s.sent.drop start) :
    seen.getLast? = some .error := by
  have hi := cinv hcap hr
  obtain ⟨i, hlt, hx⟩ := List.mem_iff_getElem.1 herr
  rw [List.getElem_drop] at hx
  refine (hi.ended c start seen hc).2.2.2.2 (start + i) (by omega) ?_
  rw [List.getElem?_eq_some_iff]
  exact ⟨by rw [List.length_drop] at hlt; omega, hx⟩

/-- **C43**, the end: the reload error is the last event; nothing is sent after it. -/
theorem C43_error_is_last (cap : Nat) (hcap : 1 ≤ cap) (dedupe : Bool) (s : Chan α)
    (hr : CReach cap dedupe s) (h : .error ∈ s.sent) :
    s.running = false ∧ s.sent.getLast? = some .error ∧ ∀ t, CStep s t → t.sent = s.sent := by
  have hi := cinv hcap hr
  obtain ⟨i, hlt, hx⟩ := List.mem_iff_getElem.1 h
  obtain ⟨h1, h2⟩ := hi.last i (List.getElem?_eq_some_iff.2 ⟨hlt, hx⟩)
  refine ⟨h1, ?_, ?_⟩
  · rw [List.getLast?_eq_getElem?, ← h2]
    exact List.getElem?_eq_some_iff.2 ⟨hlt, hx⟩
  · intro t hs
    cases hs <;> first | rfl | (rename_i h' _; rw [h1] at h'; simp at h')

/-- **C44**, without deduplication: once the client has gone, the next event of the upstream ends
the pump, and with it the upstream subscription. -/
theorem C44_upstream_stops_partial (cap : Nat) (hcap : 1 ≤ cap) (s : Chan α) (hr : CReach cap false s)
    (hrun : s.running = true) (hgone : ∀ c start next seen, s.reader c ≠ .reading start next seen)
    (x : α) : CStep s s.stop ∧ ∀ t, CStep s t → t.running = false := by
  have hi := cinv hcap hr
  have hno : ¬ s.hasReceiver := by
    rintro (h | ⟨c, start, next, seen, h⟩)
    · rw [hi.parked] at h; simp at h
    · exact hgone c start next seen h
  refine ⟨.itemUnheard x hrun hno, ?_⟩
  intro t hs
  cases hs with
  | item x h hrc => exact absurd hrc hno
  | itemUnheard x h hrc => rfl
  | upstreamEnd h => rfl
  | retired h hrc => rfl
  | retiredUnheard h hrc => rfl
  | attach c h hd => rw [hi.dedupe_eq] at hd; simp at hd
  | lagged c start next seen h hl => exact absurd h (hgone c start next seen)
  | recvRaw c start next seen x h hl hx => exact absurd h (hgone c start next seen)
  | recvError c start next seen h hl hx => exact absurd h (hgone c start next seen)
  | closed c start next seen h hl hx => exact absurd h (hgone c start next seen)
  | leave c start next seen h => exact absurd h (hgone c start next seen)

/-- **C44** fails with deduplication: the receiver parked in the in-flight map keeps the channel
open, so no event of the upstream ever ends the pump, though every client may have gone: the
upstream subscription lives until it ends by itself or the schema is reloaded. -/
theorem C44_dedupe_keeps_upstream (cap : Nat) (hcap : 1 ≤ cap) (s : Chan α)
    (hr : CReach cap true s) (hrun : s.running = true) (x : α) :
    s.hasReceiver ∧ CStep s { s with sent := s.sent ++ [.raw x] } := by
  have hi := cinv hcap hr
  have hp : s.parked = true := by rw [hi.parked, hrun]; rfl
  exact ⟨Or.inl hp, .item x hrun (Or.inl hp)⟩

/-- A history in which the only client comes and goes, and the pump goes on, for any number of
events. -/
theorem C44_dedupe_leak (cap : Nat) (xs : List α) :
    ∃ s : Chan α, CReach cap true s ∧ s.running = true ∧ s.reader 0 = .left ∧
      (∀ c start next seen, s.reader c ≠ .reading start next seen) ∧
      s.sent = xs.map .raw := by
  induction hx : xs.reverse generalizing xs with
  | nil =>
    have : xs = [] := by simpa using hx
    subst this
    refine ⟨_, .step (.step .init (.attach 0 rfl rfl)) (.leave 0 0 0 [] rfl), rfl, rfl, ?_, rfl⟩
    intro c start next seen
    simp only [setReader_eq]
    split
    · simp
    · simp [Chan.init]
  | cons x ys ih =>
    have hxs : xs = ys.reverse ++ [x] := by
      have := congrArg List.reverse hx; simpa using this
    obtain ⟨s, h1, h2, h3, h4, h5⟩ := ih ys.reverse (by simp)
    have hp : s.hasReceiver := by
      left
      have : ∀ u : Chan α, CReach cap true u → u.parked = u.running := by
        intro u hu
        induction hu with
        | init => rfl
        | @step u v _ hs ihu => cases hs <;> first | exact ihu | rfl
      rw [this s h1, h2]
    refine ⟨_, .step h1 (.item x h2 hp), h2, h3, h4, ?_⟩
    rw [hxs]; simp [h5]

/-- **C43** fails for the first client with deduplication: it subscribes only after the pump runs,
and does not see what was sent before, although the comment at `shared_state.rs:158-161` promises
that it does. Here it sees only the second event. Without deduplication it reads from the first
event (`C43_leader_from_start`). -/
theorem C43_dedupe_leader_misses : ∃ s : Chan Nat, CReach 8 true s ∧ s.sent = [.raw 1, .raw 2] ∧
    s.reader 0 = .ended 1 [.raw 2] ∧ ∀ c, c ≠ 0 → s.reader c = .absent := by
  have h1 := CReach.step (CReach.init (α := Nat) (cap := 8) (dedupe := true))
    (.item 1 rfl (Or.inl rfl))
  have h2 := CReach.step h1 (.attach 0 rfl rfl)
  have h3 := CReach.step h2 (.item 2 rfl (Or.inl rfl))
  have h4 := CReach.step h3 (.upstreamEnd rfl)
  have h5 := CReach.step h4 (.recvRaw 0 1 1 [] 2 rfl (by decide) rfl)
  have h6 := CReach.step h5 (.closed 0 1 2 [.raw 2] rfl rfl rfl)
  refine ⟨_, h6, rfl, rfl, ?_⟩
  intro c hc
  simp [setReader_eq, hc, Chan.stop, Chan.init]

/-- **C43**, the first client without deduplication reads from the first event. -/
theorem C43_leader_from_start (cap : Nat) (hcap : 1 ≤ cap) (s : Chan α) (hr : CReach cap false s) :
    (∃ next seen, s.reader 0 = .reading 0 next seen) ∨ (∃ seen, s.reader 0 = .ended 0 seen) ∨
      s.reader 0 = .left :=
  (cinv hcap hr).leader rfl

/-- Example: capacity 1, the client is slow, the schema is reloaded: it gets the error only. -/
example : CReach 1 false
    (((Chan.stop { (Chan.init 1 false : Chan Nat) with sent := [.raw 1, .raw 2, .error] }).setReader 0
      (.reading 0 2 [])).setReader 0 (.ended 0 [.error])) := by
  have hrec : (Chan.init 1 false : Chan Nat).hasReceiver := Or.inr ⟨0, 0, 0, [], rfl⟩
  have h1 := CReach.step (CReach.init (α := Nat) (cap := 1) (dedupe := false)) (.item 1 rfl hrec)
  have h2 := CReach.step h1 (.item 2 rfl (Or.inr ⟨0, 0, 0, [], rfl⟩))
  have h3 := CReach.step h2 (.retired rfl (Or.inr ⟨0, 0, 0, [], rfl⟩))
  have h4 := CReach.step h3 (.lagged 0 0 0 [] rfl (by decide))
  exact CReach.step h4 (.recvError 0 0 2 [] rfl (by decide) rfl)

end Verif.Subs
