import Verif.Usage.Agent
import Mathlib.Data.Finset.Card
/-!
# Reports are handed over once; the first of each key is kept
-/
namespace Verif.Usage

/-- The reports that were kept, the latest first. -/
def keptOf (l : List (Rep × Verdict)) : List Rep :=
  (l.filter (fun x => decide (x.2 = Verdict.kept))).map (·.1)

structure Tidy (A : Agent) (s : St) : Prop where
  order : s.puts = s.batches.flatten ++ s.queue
  size : s.queue.length ≤ A.max
  batch : ∀ b ∈ s.batches, b ≠ [] ∧ b.length ≤ A.max + 1
  kept : (keptOf s.judged).Perm (s.pending ++ s.puts)

theorem handOver_flatten (bs : List (List Rep)) (b : List Rep) :
    (handOver bs b).flatten = bs.flatten ++ b := by
  unfold handOver
  split
  · next h => rw [h, List.append_nil]
  · simp

theorem handOver_mem {bs : List (List Rep)} {b c : List Rep} (h : c ∈ handOver bs b) :
    c ∈ bs ∨ (c = b ∧ b ≠ []) := by
  unfold handOver at h
  split at h
  · exact .inl h
  · next hb =>
    rcases List.mem_append.1 h with h | h
    · exact .inl h
    · exact .inr ⟨List.mem_singleton.1 h, hb⟩

theorem add_tidy {A : Agent} {s : St} {r : Rep} {p : List Rep} (h : Tidy A s)
    (hp : s.pending.Perm (r :: p)) : Tidy A (A.add { s with pending := p } r) := by
  have hk : (keptOf s.judged).Perm (p ++ (s.puts ++ [r])) := by
    refine h.kept.trans ?_
    rw [← List.append_assoc]
    refine (hp.append_right s.puts).trans ?_
    exact (List.perm_append_singleton r (p ++ s.puts)).symm
  unfold Agent.add
  split
  · refine ⟨?_, Nat.zero_le _, ?_, hk⟩
    · simp only
      rw [handOver_flatten, h.order]
      simp
    · intro b hb
      rcases handOver_mem hb with hb | ⟨rfl, hn⟩
      · exact h.batch b hb
      · refine ⟨hn, ?_⟩
        have := h.size
        simp
        exact this
  · next hq =>
    simp only at hq
    refine ⟨?_, ?_, h.batch, hk⟩
    · simp only
      rw [h.order, List.append_assoc]
    · simp
      omega

theorem perm_eraseIdx : ∀ {l : List Rep} {i : Nat} {r : Rep}, l[i]? = some r →
    l.Perm (r :: l.eraseIdx i)
  | [], i, r, h => by simp at h
  | a :: l, 0, r, h => by
    have : a = r := by simpa using h
    rw [this]
    exact .refl _
  | a :: l, i + 1, r, h => by
    have := perm_eraseIdx (l := l) (i := i) (r := r) (by simpa using h)
    exact (List.Perm.cons a this).trans (.swap r a _)

theorem step_tidy {A : Agent} {s s' : St} {e : Ev} (h : Tidy A s) (he : A.step s e = some s') :
    Tidy A s' := by
  cases e with
  | arrive r coin =>
    unfold Agent.step at he
    simp only at he
    split at he
    · cases he
    · next v g hj =>
      cases he
      refine ⟨h.order, h.size, h.batch, ?_⟩
      by_cases hv : v = .kept
      · subst hv
        simp only [if_true]
        have : keptOf ((r, Verdict.kept) :: s.judged) = r :: keptOf s.judged := by
          simp [keptOf]
        rw [this]
        refine (List.Perm.cons r h.kept).trans ?_
        rw [List.append_assoc]
        exact List.perm_middle.symm
      · simp only [if_neg hv]
        have : keptOf ((r, v) :: s.judged) = keptOf s.judged := by
          simp [keptOf, hv]
        rw [this]
        exact h.kept
  | put i =>
    unfold Agent.step at he
    simp only at he
    split at he
    · cases he; exact h
    · next r hr =>
      cases he
      exact add_tidy h (perm_eraseIdx hr)
  | flush =>
    unfold Agent.step at he
    cases he
    refine ⟨?_, Nat.zero_le _, ?_, h.kept⟩
    · unfold drain
      simp only
      rw [handOver_flatten, h.order, List.append_nil]
    · intro b hb
      rcases handOver_mem hb with hb | ⟨rfl, hn⟩
      · exact h.batch b hb
      · exact ⟨hn, Nat.le_succ_of_le h.size⟩

theorem run_tidy {A : Agent} : ∀ {es : List Ev} {s s' : St}, Tidy A s → A.run s es = some s' → Tidy A s'
  | [], s, s', h, hr => by cases hr; exact h
  | e :: es, s, s', h, hr => by
    rw [Agent.run] at hr
    split at hr
    · cases hr
    · next s1 h1 => exact run_tidy (step_tidy h h1) hr

theorem start_tidy (A : Agent) : Tidy A A.start :=
  ⟨rfl, Nat.zero_le _, fun _ h => by simp [Agent.start] at h, .refl _⟩

/-- C106. In every schedule, each report that was kept is in exactly one place: with the task that adds
it, in the buffer, or in one batch that was handed over to be sent. -/
theorem C106_once (A : Agent) (es : List Ev) (s : St) (h : A.run A.start es = some s) :
    (keptOf s.judged).Perm (s.pending ++ (s.batches.flatten ++ s.queue)) := by
  have := run_tidy (start_tidy A) h
  rw [← this.order]
  exact this.kept

/-- C106. Batches hold the reports in the order in which they were put into the buffer. -/
theorem C106_order (A : Agent) (es : List Ev) (s : St) (h : A.run A.start es = some s) :
    s.batches.flatten ++ s.queue = s.puts := (run_tidy (start_tidy A) h).order.symm

/-- C106. The buffer never holds more than its size; a batch is never empty and holds at most one report
more than the size of the buffer. -/
theorem C106_bounds (A : Agent) (es : List Ev) (s : St) (h : A.run A.start es = some s) :
    s.queue.length ≤ A.max ∧ ∀ b ∈ s.batches, b ≠ [] ∧ b.length ≤ A.max + 1 :=
  ⟨(run_tidy (start_tidy A) h).size, (run_tidy (start_tidy A) h).batch⟩

theorem run_append {A : Agent} : ∀ {es fs : List Ev} {s s' : St}, A.run s es = some s' →
    A.run s (es ++ fs) = A.run s' fs
  | [], fs, s, s', h => by cases h; rfl
  | e :: es, fs, s, s', h => by
    rw [Agent.run] at h
    rw [List.cons_append, Agent.run]
    cases h1 : A.step s e with
    | none => rw [h1] at h; cases h
    | some s1 =>
      rw [h1] at h
      exact run_append (s := s1) h

/-- C106. When all tasks that add reports are done, one flush hands over all that is left. -/
theorem C106_last_flush (A : Agent) (es : List Ev) (s : St) (h : A.run A.start es = some s)
    (hp : s.pending = []) : ∃ s', A.run A.start (es ++ [.flush]) = some s' ∧
      (keptOf s.judged).Perm s'.batches.flatten := by
  refine ⟨drain s, by rw [run_append h]; rfl, ?_⟩
  have := C106_once A es s h
  rw [hp, List.nil_append] at this
  unfold drain
  simp only
  rw [handOver_flatten]
  exact this

/-! ## Sampling -/

/-- A report that was neither excluded nor failed. -/
def Verdict.sampled : Verdict → Bool
  | .kept => true
  | .dropped => true
  | _ => false

structure Seen (A : Agent) (ps : List KeyPart) (s : St) : Prop where
  holds : ∃ ins, s.fifo.Holds ins ∧ s.fifo.cap = A.cap ∧
    (∀ x, x ∈ ins ↔ ∃ r v, (r, v) ∈ s.judged ∧ v.sampled = true ∧ A.hash (keyOf ps r) = x) ∧
    (ins.toFinset.card ≤ A.cap → ins.Nodup)
  first : ∀ l r v m, s.judged = m ++ (r, v) :: l → v.sampled = true →
    (∀ r' v', (r', v') ∈ l → v'.sampled = true → A.hash (keyOf ps r') ≠ A.hash (keyOf ps r)) → v = .kept
  again : A.rate = .nothing → ∀ l r m, s.judged = m ++ (r, .kept) :: l →
    (l.map fun x => A.hash (keyOf ps x.1)).toFinset.card ≤ A.cap →
    ∀ r' v', (r', v') ∈ l → v'.sampled = true → A.hash (keyOf ps r') ≠ A.hash (keyOf ps r)

theorem byRate_sampled (rate : Rate) (coin : Bool) : (byRate rate coin).sampled = true := by
  cases rate <;> cases coin <;> rfl

theorem judge_seen {A : Agent} {ps : List KeyPart} (ho : A.once = some ps) {s : St} {r : Rep} {coin : Bool}
    (h : Seen A ps s) : ∃ v g, A.judge s.fifo r coin = some (v, g) ∧
      ∀ s', s'.fifo = g → s'.judged = (r, v) :: s.judged → Seen A ps s' := by
  have split_first : ∀ v, (v.sampled = true → (∀ r' v', (r', v') ∈ s.judged → v'.sampled = true →
      A.hash (keyOf ps r') ≠ A.hash (keyOf ps r)) → v = Verdict.kept) →
      ∀ l r1 v1 m, (r, v) :: s.judged = m ++ (r1, v1) :: l → v1.sampled = true →
      (∀ r' v', (r', v') ∈ l → v'.sampled = true → A.hash (keyOf ps r') ≠ A.hash (keyOf ps r1)) →
      v1 = .kept := by
    intro v hv l r1 v1 m e h1 h2
    cases m with
    | nil =>
      rw [List.nil_append, List.cons.injEq, Prod.mk.injEq] at e
      obtain ⟨⟨rfl, rfl⟩, rfl⟩ := e
      exact hv h1 h2
    | cons x m =>
      rw [List.cons_append, List.cons.injEq] at e
      exact h.first l r1 v1 m e.2 h1 h2
  have split_again : ∀ v, (A.rate = .nothing → v = .kept →
      (s.judged.map fun x => A.hash (keyOf ps x.1)).toFinset.card ≤ A.cap →
      ∀ r' v', (r', v') ∈ s.judged → v'.sampled = true → A.hash (keyOf ps r') ≠ A.hash (keyOf ps r)) →
      A.rate = .nothing → ∀ l r1 m, (r, v) :: s.judged = m ++ (r1, .kept) :: l →
      (l.map fun x => A.hash (keyOf ps x.1)).toFinset.card ≤ A.cap →
      ∀ r' v', (r', v') ∈ l → v'.sampled = true → A.hash (keyOf ps r') ≠ A.hash (keyOf ps r1) := by
    intro v hv hr l r1 m e
    cases m with
    | nil =>
      rw [List.nil_append, List.cons.injEq, Prod.mk.injEq] at e
      obtain ⟨⟨rfl, e1⟩, rfl⟩ := e
      exact hv hr e1
    | cons x m =>
      rw [List.cons_append, List.cons.injEq] at e
      exact h.again hr l r1 m e.2
  have plain : ∀ v, v.sampled = false → ∀ s', s'.fifo = s.fifo → s'.judged = (r, v) :: s.judged →
      Seen A ps s' := by
    intro v hv s' e1 e2
    obtain ⟨ins, h1, h2, h3, h4⟩ := h.holds
    refine ⟨⟨ins, e1 ▸ h1, e1 ▸ h2, ?_, h4⟩, ?_, ?_⟩
    · intro x
      rw [h3 x, e2]
      constructor
      · rintro ⟨r', v', hm, hr⟩
        exact ⟨r', v', List.mem_cons_of_mem _ hm, hr⟩
      · rintro ⟨r', v', hm, hs, hr⟩
        rcases List.mem_cons.1 hm with e | hm
        · cases e
          rw [hv] at hs
          cases hs
        · exact ⟨r', v', hm, hs, hr⟩
    · rw [e2]
      exact split_first v (fun h => by rw [hv] at h; cases h)
    · rw [e2]
      exact split_again v (fun _ h => by (rw [h] at hv; cases hv))
  unfold Agent.judge
  cases hx : A.excludes r with
  | none => exact ⟨_, _, rfl, plain _ rfl⟩
  | some b =>
    cases b with
    | true => exact ⟨_, _, rfl, plain _ rfl⟩
    | false =>
      simp only
      obtain ⟨ins, h1, h2, h3, h4⟩ := h.holds
      unfold Agent.sample
      rw [ho]
      simp only
      rcases insert_holds h1 (A.hash (keyOf ps r)) with ⟨hm, hi⟩ | ⟨hm, g, hi, hg, hc⟩
      · rw [hi]
        refine ⟨_, _, rfl, ?_⟩
        have hin : A.hash (keyOf ps r) ∈ ins := List.mem_of_mem_drop hm
        intro s' e1 e2
        refine ⟨⟨ins, e1 ▸ h1, e1 ▸ h2, ?_, h4⟩, ?_, ?_⟩
        · intro x
          rw [h3 x, e2]
          constructor
          · rintro ⟨r', v', hm, hr⟩
            exact ⟨r', v', List.mem_cons_of_mem _ hm, hr⟩
          · rintro ⟨r', v', hm', hs, hr⟩
            rcases List.mem_cons.1 hm' with e | hm'
            · cases e
              rw [← hr]
              exact (h3 _).1 hin
            · exact ⟨r', v', hm', hs, hr⟩
        · rw [e2]
          refine split_first _ fun _ hno => ?_
          obtain ⟨r', v', a1, a2, a3⟩ := (h3 _).1 hin
          exact absurd a3 (hno r' v' a1 a2)
        · rw [e2]
          exact split_again _ fun hr hk => by (rw [hr] at hk; cases hk)
      · rw [hi]
        refine ⟨_, _, rfl, ?_⟩
        intro s' e1 e2
        refine ⟨⟨ins ++ [A.hash (keyOf ps r)], e1 ▸ hg, by rw [e1, hc, h2], ?_, ?_⟩, ?_, ?_⟩
        · intro x
          rw [List.mem_append, List.mem_singleton, h3 x, e2]
          constructor
          · rintro (⟨r', v', hm, hr⟩ | rfl)
            · exact ⟨r', v', List.mem_cons_of_mem _ hm, hr⟩
            · exact ⟨r, .kept, List.mem_cons_self .., rfl, rfl⟩
          · rintro ⟨r', v', hm', hs, hr⟩
            rcases List.mem_cons.1 hm' with e | hm'
            · cases e
              exact .inr hr.symm
            · exact .inl ⟨r', v', hm', hs, hr⟩
        · intro hcard
          have hsub : ins.toFinset.card ≤ A.cap :=
            (Finset.card_le_card (by intro a ha; simp at ha ⊢; exact .inr ha)).trans hcard
          have hnd := h4 hsub
          have hlen : ins.length ≤ A.cap := by
            rwa [List.toFinset_card_of_nodup hnd] at hsub
          rw [h2, lastOf_short hlen] at hm
          exact List.nodup_append.2 ⟨hnd, by simp, by
            intro a ha b hb; rw [List.mem_singleton] at hb; subst hb; rintro rfl; exact hm ha⟩
        · rw [e2]
          exact split_first _ fun _ _ => rfl
        · rw [e2]
          refine split_again _ fun _ _ hcard r' v' a b e => hm ?_
          have hsub : ins.toFinset.card ≤ A.cap := by
            refine (Finset.card_le_card ?_).trans hcard
            intro x hx
            obtain ⟨r1, v1, c1, _, c3⟩ := (h3 x).1 (List.mem_toFinset.1 hx)
            rw [List.mem_toFinset, List.mem_map]
            exact ⟨_, c1, c3⟩
          have hlen : ins.length ≤ A.cap := by
            rwa [List.toFinset_card_of_nodup (h4 hsub)] at hsub
          rw [h2, lastOf_short hlen, h3]
          exact ⟨r', v', a, b, e⟩

theorem add_same {A : Agent} {s : St} {r : Rep} : (A.add s r).fifo = s.fifo ∧ (A.add s r).judged = s.judged := by
  unfold Agent.add
  split <;> exact ⟨rfl, rfl⟩

theorem seen_same {A : Agent} {ps : List KeyPart} {s s' : St} (h : Seen A ps s) (h1 : s'.fifo = s.fifo)
    (h2 : s'.judged = s.judged) : Seen A ps s' :=
  ⟨by rw [h1, h2]; exact h.holds, by rw [h2]; exact h.first, by rw [h2]; exact h.again⟩

theorem step_seen {A : Agent} {ps : List KeyPart} (ho : A.once = some ps) {s : St} {e : Ev} (h : Seen A ps s) :
    ∃ s', A.step s e = some s' ∧ Seen A ps s' := by
  cases e with
  | arrive r coin =>
    obtain ⟨v, g, hj, hs⟩ := judge_seen ho (r := r) (coin := coin) h
    unfold Agent.step
    simp only
    rw [hj]
    exact ⟨_, rfl, hs _ rfl rfl⟩
  | put i =>
    unfold Agent.step
    simp only
    split
    · exact ⟨_, rfl, h⟩
    · exact ⟨_, rfl, seen_same h add_same.1 add_same.2⟩
  | flush => exact ⟨_, rfl, seen_same h rfl rfl⟩

theorem run_seen {A : Agent} {ps : List KeyPart} (ho : A.once = some ps) : ∀ (es : List Ev) {s : St},
    Seen A ps s → ∃ s', A.run s es = some s' ∧ Seen A ps s'
  | [], s, h => ⟨s, rfl, h⟩
  | e :: es, s, h => by
    obtain ⟨s1, h1, h2⟩ := step_seen ho (e := e) h
    rw [Agent.run, h1]
    exact run_seen ho es h2

theorem start_seen {A : Agent} (ps : List KeyPart) (hc : 0 < A.cap) : Seen A ps A.start :=
  ⟨⟨[], holds_new hc, rfl, fun x => by simp [Agent.start], fun _ => List.nodup_nil⟩,
    fun l r v m e => by simp [Agent.start] at e, fun _ l r m e => by simp [Agent.start] at e⟩

/-- What was decided of a report agrees with the settings. -/
def Decided (A : Agent) (r : Rep) (v : Verdict) : Prop :=
  (v.sampled = true ↔ A.excludes r = some false) ∧ (v = .excluded ↔ A.excludes r = some true) ∧
    (A.rate = .all → v ≠ .dropped) ∧ (A.rate = .nothing → A.once = none → v ≠ .kept)

theorem judge_decided {A : Agent} {f g : Fifo} {r : Rep} {coin : Bool} {v : Verdict}
    (h : A.judge f r coin = some (v, g)) : Decided A r v := by
  unfold Agent.judge at h
  cases hx : A.excludes r with
  | none =>
    rw [hx] at h
    cases h
    exact ⟨by simp [Verdict.sampled, hx], by simp [hx], fun _ => by simp, fun _ _ => by simp⟩
  | some b =>
    rw [hx] at h
    cases b with
    | true =>
      cases h
      exact ⟨by simp [Verdict.sampled, hx], by simp [hx], fun _ => by simp, fun _ _ => by simp⟩
    | false =>
      simp only at h
      unfold Agent.sample at h
      have rate : ∀ c, Decided A r (byRate A.rate c) := by
        intro c
        refine ⟨⟨fun _ => hx, fun _ => byRate_sampled _ _⟩, ⟨?_, ?_⟩, ?_, ?_⟩
        · cases A.rate <;> cases c <;> (intro e; cases e)
        · intro e; rw [hx] at e; cases e
        · intro e; rw [e]; intro e; cases e
        · intro e _; rw [e]; intro e; cases e
      cases ho : A.once with
      | none => rw [ho] at h; cases h; exact rate coin
      | some ps =>
        rw [ho] at h
        simp only at h
        split at h
        · cases h
        · cases h
          exact ⟨by simp [Verdict.sampled, hx], by simp [hx], fun _ => by simp,
            fun _ e => by (rw [ho] at e; cases e)⟩
        · cases h
          exact rate coin

theorem step_decided {A : Agent} {s s' : St} {e : Ev} (h : ∀ r v, (r, v) ∈ s.judged → Decided A r v)
    (he : A.step s e = some s') : ∀ r v, (r, v) ∈ s'.judged → Decided A r v := by
  cases e with
  | arrive r coin =>
    unfold Agent.step at he
    simp only at he
    split at he
    · cases he
    · next v g hj =>
      cases he
      intro r' v' hm
      rcases List.mem_cons.1 hm with e | hm
      · cases e; exact judge_decided hj
      · exact h r' v' hm
  | put i =>
    unfold Agent.step at he
    simp only at he
    split at he
    · cases he; exact h
    · cases he; rw [add_same.2]; exact h
  | flush => cases he; exact h

theorem run_decided {A : Agent} : ∀ {es : List Ev} {s s' : St}, (∀ r v, (r, v) ∈ s.judged → Decided A r v) →
    A.run s es = some s' → ∀ r v, (r, v) ∈ s'.judged → Decided A r v
  | [], s, s', h, hr => by cases hr; exact h
  | e :: es, s, s', h, hr => by
    rw [Agent.run] at hr
    split at hr
    · cases hr
    · next s1 h1 => exact run_decided (step_decided h h1) hr

theorem decided {A : Agent} {es : List Ev} {s : St} (h : A.run A.start es = some s) {r : Rep} {v : Verdict}
    (hm : (r, v) ∈ s.judged) : Decided A r v :=
  run_decided (fun r v hm => by simp [Agent.start] at hm) h r v hm

/-- C107. A report that is the first with its key, of those that are not excluded, is kept, at every rate
and in every schedule, if reports with other keys do not have the same hash. -/
theorem C107_first (A : Agent) (ps : List KeyPart) (ho : A.once = some ps) (hc : 0 < A.cap) (es : List Ev)
    (s : St) (h : A.run A.start es = some s) (before after : List (Rep × Verdict)) (r : Rep) (v : Verdict)
    (hs : s.judged = after ++ (r, v) :: before) (hx : A.excludes r = some false)
    (hk : ∀ r' v', (r', v') ∈ before → A.excludes r' = some false → keyOf ps r' ≠ keyOf ps r)
    (hh : ∀ r' v', (r', v') ∈ before → A.hash (keyOf ps r') = A.hash (keyOf ps r) →
      keyOf ps r' = keyOf ps r) : v = .kept := by
  obtain ⟨s', h1, h2⟩ := run_seen ho es (start_seen ps hc)
  rw [h] at h1
  cases h1
  refine h2.first _ _ _ _ hs ((decided h (by rw [hs]; simp)).1.2 hx) fun r' v' a b e => ?_
  exact hk r' v' a ((decided h (by rw [hs]; simp [a])).1.1 b) (hh r' v' a e)

/-- C107. A report that is excluded, by its name or by the expression, is never kept. -/
theorem C107_excluded (A : Agent) (es : List Ev) (s : St) (h : A.run A.start es = some s) (r : Rep)
    (hx : A.excludes r = some true) : r ∉ keptOf s.judged ∧ ∀ b ∈ s.batches, r ∉ b := by
  have hk : r ∉ keptOf s.judged := by
    intro hm
    unfold keptOf at hm
    obtain ⟨⟨r', v⟩, h1, rfl⟩ := List.mem_map.1 hm
    obtain ⟨h2, h3⟩ := List.mem_filter.1 h1
    have hv : v = .kept := by simpa using h3
    have := (decided h h2).1.1 (by rw [hv]; rfl)
    rw [hx] at this
    cases this
  refine ⟨hk, fun b hb hr => hk ?_⟩
  rw [(C106_once A es s h).mem_iff]
  simp only [List.mem_append, List.mem_flatten]
  exact .inr (.inl ⟨b, hb, hr⟩)

/-- C107. The names that are excluded are excluded. -/
theorem C107_excluded_name (A : Agent) (ns : List String) (hx : A.exclude = some (.names ns)) (es : List Ev)
    (s : St) (h : A.run A.start es = some s) (r : Rep) (n : String) (hn : r.name = some n) (hm : n ∈ ns) :
    ∀ b ∈ s.batches, r ∉ b := by
  refine (C107_excluded A es s h r ?_).2
  unfold Agent.excludes
  rw [hx, hn]
  simp only [Option.some.injEq, List.any_eq_true, beq_iff_eq]
  exact ⟨n, hm, rfl⟩

/-- C107. At a rate of one or more all reports are kept that are not excluded. -/
theorem C107_all (A : Agent) (hr : A.rate = .all) (es : List Ev) (s : St) (h : A.run A.start es = some s)
    (r : Rep) (v : Verdict) (hm : (r, v) ∈ s.judged) (hx : A.excludes r = some false) : v = .kept := by
  have hd := decided h hm
  have h1 := hd.1.2 hx
  have h2 := hd.2.2.1 hr
  cases v with
  | kept => rfl
  | dropped => exact absurd rfl h2
  | failed => cases h1
  | excluded => cases h1

/-- C107. At a rate of zero or less, no report is kept if none has to be kept at least once. -/
theorem C107_nothing (A : Agent) (hr : A.rate = .nothing) (ho : A.once = none) (es : List Ev) (s : St)
    (h : A.run A.start es = some s) : keptOf s.judged = [] ∧ s.batches.flatten = [] := by
  have hk : keptOf s.judged = [] := by
    rw [List.eq_nil_iff_forall_not_mem]
    intro r hm
    unfold keptOf at hm
    obtain ⟨⟨r', v⟩, h1, rfl⟩ := List.mem_map.1 hm
    obtain ⟨h2, h3⟩ := List.mem_filter.1 h1
    exact (decided h h2).2.2.2 hr ho (by simpa using h3)
  refine ⟨hk, ?_⟩
  have := C106_once A es s h
  rw [hk] at this
  have := List.nil_perm.1 this
  simp only [List.append_eq_nil_iff] at this
  exact this.2.1

/-- C107. At a rate of zero or less only the first report of each key is kept, as long as there are not
more keys than the agent remembers. -/
theorem C107_only_first (A : Agent) (ps : List KeyPart) (ho : A.once = some ps) (hc : 0 < A.cap)
    (hr : A.rate = .nothing) (es : List Ev) (s : St) (h : A.run A.start es = some s)
    (before after : List (Rep × Verdict)) (r : Rep) (hs : s.judged = after ++ (r, .kept) :: before)
    (hn : (before.map fun x => keyOf ps x.1).toFinset.card ≤ A.cap) (r' : Rep) (v' : Verdict)
    (hm : (r', v') ∈ before) (hx : A.excludes r' = some false) : keyOf ps r' ≠ keyOf ps r := by
  obtain ⟨s', h1, h2⟩ := run_seen ho es (start_seen ps hc)
  rw [h] at h1
  cases h1
  intro e
  refine h2.again hr _ _ _ hs ?_ r' v' hm ((decided h (by rw [hs]; simp [hm])).1.2 hx) (by rw [e])
  refine le_trans ?_ hn
  have : (before.map fun x => A.hash (keyOf ps x.1)).toFinset =
      (before.map fun x => keyOf ps x.1).toFinset.image A.hash := by
    ext x
    simp
  rw [this]
  exact Finset.card_image_le

/-- C107. The agent does not panic. -/
theorem C107_no_panic (A : Agent) (hc : 0 < A.cap) (es : List Ev) : A.run A.start es ≠ none := by
  cases ho : A.once with
  | some ps =>
    obtain ⟨s', h1, _⟩ := run_seen ho es (start_seen ps hc)
    rw [h1]
    simp
  | none =>
    suffices h : ∀ s, A.run s es ≠ none from h _
    induction es with
    | nil => intro s; simp [Agent.run]
    | cons e es ih =>
      intro s
      rw [Agent.run]
      have : ∃ s', A.step s e = some s' := by
        cases e with
        | arrive r coin =>
          unfold Agent.step Agent.judge Agent.sample
          rw [ho]
          simp only
          cases A.excludes r with
          | none => exact ⟨_, rfl⟩
          | some b => cases b <;> exact ⟨_, rfl⟩
        | put i =>
          unfold Agent.step
          simp only
          split <;> exact ⟨_, rfl⟩
        | flush => exact ⟨_, rfl⟩
      obtain ⟨s', hs⟩ := this
      rw [hs]
      exact ih s'

/-! ## A case -/

def someRep (n b : String) : Rep := ⟨some n, none, b, none, none, 0, 0, true, 0, none, 0⟩

def someAgent : Agent := ⟨1, some (.names ["Health"]), .nothing, some [.name], 2, fun l => l.length + (l.map String.length).sum⟩

def someRun : List Ev :=
  [.arrive (someRep "A" "{a}") false, .arrive (someRep "Health" "{h}") true, .arrive (someRep "BB" "{b}") false,
   .arrive (someRep "A" "{a}") true, .put 1, .put 0, .arrive (someRep "CCC" "{c}") false, .put 0, .flush,
   .arrive (someRep "A" "{a}") true]

/-- The second report with the name `A` is dropped, but the third is kept: two other names came
between, and the agent remembers two. The buffer has room for one report. -/
example : ∃ s, someAgent.run someAgent.start someRun = some s ∧
    s.judged.map (fun x => (x.1.name, x.2)) =
      [(some "A", .kept), (some "CCC", .kept), (some "A", .dropped), (some "BB", .kept),
       (some "Health", .excluded), (some "A", .kept)] ∧
    s.batches.map (·.map (·.name)) = [[some "BB", some "A"], [some "CCC"]] ∧
    s.pending.map (·.name) = [some "A"] :=
  ⟨_, rfl, by decide +kernel, by decide +kernel, by decide +kernel⟩

end Verif.Usage
