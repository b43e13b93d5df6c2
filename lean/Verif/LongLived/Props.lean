import Verif.LongLived.Model

/-!
# C25: the limit on long-lived clients is never exceeded and slots are never leaked
-/

namespace Verif.LongLived

/-- `l` lists the clients holding a slot. -/
def Holders (s : State) (l : List Nat) : Prop :=
  l.Nodup ∧ ∀ c, c ∈ l ↔ s.phase c = .holding

/-- The counter is the number of holders, and does not exceed the limit. -/
def Inv (limit : Nat) (s : State) : Prop :=
  (∃ l, Holders s l ∧ l.length = s.count) ∧ s.count ≤ limit ∧
    (∀ c v, s.phase c = .trying v → v ≤ limit ∧ limit ≠ 0) ∧
    (∀ c, s.phase c = .untracked → limit = 0)

theorem holders_move_other {s : State} {l : List Nat} {c : Nat} {p : Phase} (h : Holders s l)
    (h1 : s.phase c ≠ .holding) (h2 : p ≠ .holding) (n : Nat) :
    Holders ({ s with count := n }.move c p) l := by
  refine ⟨h.1, fun d => ?_⟩
  rw [h.2 d]
  simp only [State.move]
  by_cases hd : d = c
  · subst hd; simp [h1, h2]
  · simp [hd]

theorem inv_step {limit : Nat} {s t : State} (hi : Inv limit s) (hs : Step limit s t) :
    Inv limit t := by
  obtain ⟨⟨l, hl, hlen⟩, hle, htry, hun⟩ := hi
  cases hs with
  | disabled c h hz =>
    refine ⟨⟨l, holders_move_other hl (by rw [h]; simp) (by simp) s.count, hlen⟩, hle, ?_, ?_⟩
    · intro d v hd
      simp only [State.move] at hd
      split at hd
      · simp at hd
      · exact htry d v hd
    · intro d hd; exact hz
  | load c h hz =>
    refine ⟨⟨l, holders_move_other hl (by rw [h]; simp) (by simp) s.count, hlen⟩, hle, ?_, ?_⟩
    · intro d v hd
      simp only [State.move] at hd
      split at hd
      · simp only [Phase.trying.injEq] at hd; subst hd; exact ⟨hle, hz⟩
      · exact htry d v hd
    · intro d hd
      simp only [State.move] at hd
      split at hd
      · simp at hd
      · exact hun d hd
  | refuse c v h hn =>
    refine ⟨⟨l, holders_move_other hl (by rw [h]; simp) (by simp) s.count, hlen⟩, hle, ?_, ?_⟩
    · intro d v hd
      simp only [State.move] at hd
      split at hd
      · simp at hd
      · exact htry d v hd
    · intro d hd
      simp only [State.move] at hd
      split at hd
      · simp at hd
      · exact hun d hd
  | reserve c v w h hn hc =>
    simp only [next] at hn
    split at hn
    · rename_i hlt
      simp only [Option.some.injEq] at hn
      subst hn
      refine ⟨⟨c :: l, ⟨?_, ?_⟩, by simp [State.move, hlen, hc]⟩, by simp [State.move]; omega, ?_, ?_⟩
      · refine List.nodup_cons.2 ⟨?_, hl.1⟩
        rw [hl.2 c, h]; simp
      · intro d
        simp only [List.mem_cons, hl.2 d, State.move]
        by_cases hd : d = c
        · simp [hd]
        · simp [hd]
      · intro d v hd
        simp only [State.move] at hd
        split at hd
        · simp at hd
        · exact htry d v hd
      · intro d hd
        simp only [State.move] at hd
        split at hd
        · simp at hd
        · exact hun d hd
    · simp at hn
  | retry c v w h hn =>
    refine ⟨⟨l, holders_move_other hl (by rw [h]; simp) (by simp) s.count, hlen⟩, hle, ?_, ?_⟩
    · intro d v' hd
      simp only [State.move] at hd
      split at hd
      · simp only [Phase.trying.injEq] at hd; subst hd; exact ⟨hle, (htry c v h).2⟩
      · exact htry d v' hd
    · intro d hd
      simp only [State.move] at hd
      split at hd
      · simp at hd
      · exact hun d hd
  | release c h =>
    have hc : c ∈ l := (hl.2 c).2 h
    refine ⟨⟨l.erase c, ⟨hl.1.erase c, ?_⟩, ?_⟩, by simp [State.move]; omega, ?_, ?_⟩
    · intro d
      rw [hl.1.mem_erase_iff, hl.2 d]
      simp only [State.move]
      by_cases hd : d = c
      · simp [hd]
      · simp [hd]
    · rw [List.length_erase_of_mem hc, hlen]; rfl
    · intro d v hd
      simp only [State.move] at hd
      split at hd
      · simp at hd
      · exact htry d v hd
    · intro d hd
      simp only [State.move] at hd
      split at hd
      · simp at hd
      · exact hun d hd

theorem inv_run {limit : Nat} {h : List State} (hr : Run limit h) : ∀ s ∈ h, Inv limit s := by
  induction hr with
  | init =>
    intro s hs
    simp only [List.mem_singleton] at hs
    subst hs
    exact ⟨⟨[], ⟨List.nodup_nil, by simp [State.init]⟩, rfl⟩, Nat.zero_le _,
      by simp [State.init], by simp [State.init]⟩
  | @step s h t _ hs ih =>
    intro u hu
    rcases List.mem_cons.1 hu with rfl | hu
    · exact inv_step (ih s (List.mem_cons_self ..)) hs
    · exact ih u hu

/-- **C25**: at any moment of any history, the clients holding a slot are at most `limit`, and the
counter is exactly their number: no slot is lost, none is released twice. -/
theorem C25_limit_respected (limit : Nat) (h : List State) (hr : Run limit h) (s : State)
    (hs : s ∈ h) :
    ∃ l : List Nat, l.Nodup ∧ (∀ c, c ∈ l ↔ s.phase c = .holding) ∧ l.length = s.count ∧
      l.length ≤ limit := by
  obtain ⟨⟨l, ⟨h1, h2⟩, h3⟩, h4, _⟩ := inv_run hr s hs
  exact ⟨l, h1, h2, h3, by omega⟩

theorem nodup_length_le : ∀ {cs l : List Nat}, cs.Nodup → (∀ c ∈ cs, c ∈ l) →
    cs.length ≤ l.length := by
  intro cs
  induction cs with
  | nil => simp
  | cons c cs ih =>
    intro l hn hs
    have hc := hs c (List.mem_cons_self ..)
    obtain ⟨hnc, hn⟩ := List.nodup_cons.1 hn
    have := ih (l := l.erase c) hn fun d hd =>
      (List.mem_erase_of_ne (by intro he; subst he; exact hnc hd)).2
        (hs d (List.mem_cons_of_mem _ hd))
    rw [List.length_erase_of_mem hc] at this
    have := List.length_pos_of_mem hc
    simp only [List.length_cons]
    omega

/-- Any distinct clients holding a slot at the same time number at most `limit`. -/
theorem C25_at_most_limit (limit : Nat) (h : List State) (hr : Run limit h) (s : State)
    (hs : s ∈ h) (cs : List Nat) (hn : cs.Nodup) (hc : ∀ c ∈ cs, s.phase c = .holding) :
    cs.length ≤ limit := by
  obtain ⟨l, h1, h2, h3, h4⟩ := C25_limit_respected limit h hr s hs
  have : cs.length ≤ l.length := nodup_length_le hn fun c h => (h2 c).2 (hc c h)
  omega

/-- **C25**, no needless refusal: a client is refused only if at some moment of its own attempt
exactly `limit` clients were holding a slot. -/
theorem C25_refused_only_when_full (limit : Nat) (s : State) (h : List State)
    (hr : Run limit (s :: h)) (c : Nat) (hc : s.phase c = .refused) :
    ∃ t ∈ h, (∃ v, t.phase c = .trying v) ∧
      ∃ l : List Nat, l.Nodup ∧ (∀ d, d ∈ l ↔ t.phase d = .holding) ∧ l.length = limit := by
  have key : ∀ h', Run limit h' → ∀ s h, h' = s :: h →
      (∀ v, s.phase c = .trying v → ∃ t ∈ h', t.phase c = .trying v ∧ t.count = v) ∧
      (s.phase c = .refused → ∃ t ∈ h, ∃ v, t.phase c = .trying v ∧ t.count = v ∧ limit ≤ v) := by
    intro h' hr'
    induction hr' with
    | init =>
      intro s h he
      simp only [List.cons.injEq] at he
      obtain ⟨rfl, rfl⟩ := he
      constructor <;> simp [State.init]
    | @step s0 h0 t0 hr0 hs ih =>
      intro s h he
      simp only [List.cons.injEq] at he
      obtain ⟨rfl, rfl⟩ := he
      obtain ⟨ih1, ih2⟩ := ih s0 h0 rfl
      have old1 : s0.phase c = t0.phase c → ∀ v, t0.phase c = .trying v →
          ∃ t ∈ t0 :: s0 :: h0, t.phase c = .trying v ∧ t.count = v := by
        intro he v hv
        obtain ⟨t, ht, ht2⟩ := ih1 v (by rw [he, hv])
        exact ⟨t, List.mem_cons_of_mem _ ht, ht2⟩
      have old2 : s0.phase c = t0.phase c → t0.phase c = .refused →
          ∃ t ∈ s0 :: h0, ∃ v, t.phase c = .trying v ∧ t.count = v ∧ limit ≤ v := by
        intro he hv
        obtain ⟨t, ht, ht2⟩ := ih2 (by rw [he, hv])
        exact ⟨t, List.mem_cons_of_mem _ ht, ht2⟩
      cases hs with
      | disabled d hd _ =>
        by_cases hdc : c = d
        · subst hdc; constructor <;> simp [State.move]
        · have : s0.phase c = (s0.move d .untracked).phase c := by simp [State.move, hdc]
          exact ⟨old1 this, old2 this⟩
      | load d hd _ =>
        by_cases hdc : c = d
        · subst hdc
          refine ⟨?_, by simp [State.move]⟩
          intro v hv
          simp only [State.move, if_true, Phase.trying.injEq] at hv
          exact ⟨_, List.mem_cons_self .., by simp [State.move, hv], by simp [State.move, hv]⟩
        · have : s0.phase c = (s0.move d (.trying s0.count)).phase c := by simp [State.move, hdc]
          exact ⟨old1 this, old2 this⟩
      | refuse d v hd hn =>
        by_cases hdc : c = d
        · subst hdc
          refine ⟨by simp [State.move], ?_⟩
          intro _
          obtain ⟨t, ht, h1, h2⟩ := ih1 v hd
          refine ⟨t, ht, v, h1, h2, ?_⟩
          simp only [next] at hn
          split at hn
          · simp at hn
          · omega
        · have : s0.phase c = (s0.move d .refused).phase c := by simp [State.move, hdc]
          exact ⟨old1 this, old2 this⟩
      | reserve d v w hd hn hcnt =>
        by_cases hdc : c = d
        · subst hdc; constructor <;> simp [State.move]
        · have : s0.phase c = (({ s0 with count := w } : State).move d .holding).phase c := by
            simp [State.move, hdc]
          exact ⟨old1 this, old2 this⟩
      | retry d v w hd hn =>
        by_cases hdc : c = d
        · subst hdc
          refine ⟨?_, by simp [State.move]⟩
          intro v' hv
          simp only [State.move, if_true, Phase.trying.injEq] at hv
          exact ⟨_, List.mem_cons_self .., by simp [State.move, hv], by simp [State.move, hv]⟩
        · have : s0.phase c = (s0.move d (.trying s0.count)).phase c := by simp [State.move, hdc]
          exact ⟨old1 this, old2 this⟩
      | release d hd =>
        by_cases hdc : c = d
        · subst hdc; constructor <;> simp [State.move]
        · have : s0.phase c = (({ s0 with count := s0.count - 1 } : State).move d .gone).phase c := by
            simp [State.move, hdc]
          exact ⟨old1 this, old2 this⟩
  obtain ⟨t, ht, v, h1, h2, h3⟩ := (key _ hr s h rfl).2 hc
  obtain ⟨l, l1, l2, l3, l4⟩ := C25_limit_respected limit _ hr t (List.mem_cons_of_mem _ ht)
  exact ⟨t, ht, ⟨v, h1⟩, l, l1, l2, by omega⟩

/-- **C25**, a disabled limit admits everybody: no client is ever refused or has to try. -/
theorem C25_unlimited (h : List State) (hr : Run 0 h) (s : State) (hs : s ∈ h) (c : Nat) :
    s.phase c = .idle ∨ s.phase c = .untracked := by
  induction hr generalizing s c with
  | init =>
    simp only [List.mem_singleton] at hs
    subst hs; exact Or.inl rfl
  | @step s0 h0 t0 hr0 hst ih =>
    rcases List.mem_cons.1 hs with rfl | hs
    · have ih0 := ih s0 (List.mem_cons_self ..)
      cases hst with
      | disabled d hd _ =>
        simp only [State.move]
        split
        · exact Or.inr rfl
        · exact ih0 c
      | load d hd hl => exact absurd rfl hl
      | refuse d v hd hn => rcases ih0 d with h | h <;> rw [h] at hd <;> simp at hd
      | reserve d v w hd hn hc => rcases ih0 d with h | h <;> rw [h] at hd <;> simp at hd
      | retry d v w hd hn => rcases ih0 d with h | h <;> rw [h] at hd <;> simp at hd
      | release d hd => rcases ih0 d with h | h <;> rw [h] at hd <;> simp at hd
    · exact ih s hs c

/-- **C25**, slots come back: a client that leaves frees its slot; the next client to try alone
gets one. -/
theorem C25_slot_reused (limit : Nat) (s : State) (h : List State) (hr : Run limit (s :: h))
    (c d : Nat) (hc : s.phase c = .holding) (hd : s.phase d = .idle) :
    ∃ t1 t2 t3, Step limit s t1 ∧ Step limit t1 t2 ∧ Step limit t2 t3 ∧ t3.phase d = .holding := by
  obtain ⟨⟨l, ⟨hn, hl⟩, hlen⟩, hle, _⟩ := inv_run hr s (List.mem_cons_self ..)
  have hpos : 0 < s.count := by
    rw [← hlen]; exact List.length_pos_of_mem ((hl c).2 hc)
  have hdc : d ≠ c := by intro he; subst he; rw [hc] at hd; simp at hd
  refine ⟨_, _, _, .release c hc, .load d (by simp [State.move, hdc, hd]) (by omega),
    .reserve d (s.count - 1) (s.count - 1 + 1) (by simp [State.move]) ?_ (by simp [State.move]), ?_⟩
  · unfold next; rw [if_pos (by omega)]
  · simp [State.move]

/-! ### Example: limit 1, two clients, a lost race and a refusal -/

namespace Example

def s1 := State.init.move 0 (.trying 0)
def s2 := s1.move 1 (.trying 0)
def s3 := ({ s2 with count := 1 }).move 1 .holding
def s4 := s3.move 0 (.trying 1)
def s5 := s4.move 0 .refused

theorem run : Run 1 [s5, s4, s3, s2, s1, State.init] :=
  .step (.step (.step (.step (.step .init (.load 0 rfl (by decide))) (.load 1 rfl (by decide)))
    (.reserve 1 0 1 rfl rfl rfl)) (.retry 0 0 1 rfl rfl)) (.refuse 0 1 rfl rfl)

example : ∃ t ∈ [s4, s3, s2, s1, State.init], (∃ v, t.phase 0 = .trying v) ∧
    ∃ l : List Nat, l.Nodup ∧ (∀ d, d ∈ l ↔ t.phase d = .holding) ∧ l.length = 1 :=
  C25_refused_only_when_full 1 s5 _ run 0 rfl

end Example

end Verif.LongLived
