import Verif.Pool.Client
import Verif.Pool.Lemmas

namespace Verif.Pool.Client

/-- What one event puts into the stream of `i`. -/
def say1 (i : Nat) : Bool → Ev → List Item
  | true, .got (.next j p) =>
    if j = i then
      [readPayload p]
    else []
  | true, .got (.error j d) => if j = i then [.errors d] else []
  | true, .lost e => [.lost e]
  | _, _ => []

/-- Whether the stream of `i` goes on after an event. -/
def on1 (i : Nat) : Bool → Ev → Bool
  | false, .opened j => j = i
  | true, .got (.error j _) | true, .got (.complete j) | true, .dropped j => decide (j ≠ i)
  | true, .lost _ => false
  | b, _ => b

def on (i : Nat) (b : Bool) (h : List Ev) : Bool := h.foldl (on1 i) b

theorem said_cons (i : Nat) (b : Bool) (ev : Ev) (h : List Ev) :
    said i b (ev :: h) = say1 i b ev ++ said i (on1 i b ev) h := by
  cases b <;> cases ev <;> try rfl
  case true.got m =>
    cases m <;> try rfl
    all_goals
      simp only [said, say1, on1]
      split <;> simp_all
  case true.dropped j =>
    simp only [said, say1, on1]
    split <;> simp_all

theorem said_append (i : Nat) (ev : Ev) : ∀ (h : List Ev) (b : Bool),
    said i b (h ++ [ev]) = said i b h ++ say1 i (on i b h) ev
  | [], b => by simp [said_cons, said, on]
  | e :: h, b => by
    rw [List.cons_append, said_cons, said_append i ev h, said_cons, List.append_assoc]; rfl

theorem on_append (i : Nat) (ev : Ev) (h : List Ev) (b : Bool) : on i b (h ++ [ev]) = on1 i (on i b h) ev := by
  simp [on]

/-- Each step is one event for every stream, or none. -/
theorem step_ev {s s' : St} {l : Label} (h : step s l = some s') :
    (s'.hist = s.hist ∧ s'.items = s.items ∧ s'.subs = s.subs) ∨
    ∃ ev, s'.hist = s.hist ++ [ev] ∧ ∀ i, s'.items i = s.items i ++ say1 i (decide (i ∈ s.subs)) ev ∧
      decide (i ∈ s'.subs) = on1 i (decide (i ∈ s.subs)) ev := by
  have ung : ∀ (id : Nat) (b : Bool), ∀ i, (s.unguard id b).items i = s.items i ++
      say1 i (decide (i ∈ s.subs)) (.dropped id) ∧
      decide (i ∈ (s.unguard id b).subs) = on1 i (decide (i ∈ s.subs)) (.dropped id) := by
    intro id b i
    by_cases hi : i ∈ s.subs
    · by_cases e : i = id
      · subst e; simp [St.unguard, hi, say1, on1]
      · have : id ≠ i := fun h => e h.symm
        simp [St.unguard, hi, say1, on1, e, this]
    · simp [St.unguard, hi, say1, on1]
  cases l with
  | subscribe =>
    simp only [step] at h
    split at h
    · cases h
    · injection h with h; subst h
      refine .inr ⟨_, rfl, fun i => ?_⟩
      by_cases hi : i ∈ s.subs
      · simp [hi, say1, on1]
      · have : (i = s.next) ↔ (s.next = i) := eq_comm
        simp [hi, say1, on1, this]
  | written id =>
    simp only [step] at h
    split at h
    · injection h with h; subst h; exact .inl ⟨rfl, rfl, rfl⟩
    · cases h
  | unwritten id =>
    simp only [step] at h
    split at h
    · injection h with h; subst h; exact .inr ⟨_, rfl, ung id false⟩
    · cases h
  | drop id =>
    simp only [step] at h
    split at h
    · injection h with h; subst h; exact .inr ⟨_, rfl, ung id true⟩
    · cases h
  | recv m =>
    simp only [step] at h
    split at h
    · injection h with h; subst h
      refine .inr ⟨_, rfl, fun i => ?_⟩
      cases m with
      | next id p =>
        by_cases hi : id ∈ s.subs
        · by_cases e : i = id
          · subst e; simp [St.handle, hi, St.push, upd, say1, on1]
          · have e' : id ≠ i := fun h => e h.symm
            by_cases hj : i ∈ s.subs <;> simp [St.handle, hi, hj, St.push, upd, say1, on1, e, e']
        · by_cases hj : i ∈ s.subs
          · have e' : id ≠ i := by rintro rfl; exact hi hj
            simp [St.handle, hi, hj, say1, on1, e']
          · simp [St.handle, hi, hj, say1, on1]
      | error id d =>
        by_cases hi : id ∈ s.subs
        · by_cases e : i = id
          · subst e; simp [St.handle, hi, St.push, upd, say1, on1]
          · have e' : id ≠ i := fun h => e h.symm
            by_cases hj : i ∈ s.subs <;> simp [St.handle, hi, hj, St.push, upd, say1, on1, e, e']
        · by_cases hj : i ∈ s.subs
          · have e' : id ≠ i := by rintro rfl; exact hi hj
            simp [St.handle, hi, hj, say1, on1, e']
          · simp [St.handle, hi, hj, say1, on1]
      | complete id =>
        by_cases e : i = id
        · subst e
          by_cases hj : i ∈ s.subs <;> simp [St.handle, hj, say1, on1]
        · have e' : id ≠ i := fun h => e h.symm
          by_cases hj : i ∈ s.subs <;> simp [St.handle, hj, say1, on1, e, e']
      | ack => by_cases hj : i ∈ s.subs <;> simp [St.handle, hj, say1, on1]
      | ping => by_cases hj : i ∈ s.subs <;> simp [St.handle, hj, say1, on1]
      | pong => by_cases hj : i ∈ s.subs <;> simp [St.handle, hj, say1, on1]
      | bad => by_cases hj : i ∈ s.subs <;> simp [St.handle, hj, say1, on1]
    · cases h
  | stop e =>
    simp only [step] at h
    split at h
    · cases h
    · injection h with h; subst h
      refine .inr ⟨_, rfl, fun i => ?_⟩
      by_cases hj : i ∈ s.subs <;> simp [St.drain, hj, say1, on1]

theorem says {max : Nat} {s : St} (h : Reach max s) (i : Nat) :
    s.items i = said i false s.hist ∧ decide (i ∈ s.subs) = on i false s.hist := by
  induction h with
  | start => simp [start, said, on]
  | step l _ hs ih =>
    obtain ⟨h1, h2⟩ := ih
    rcases step_ev hs with ⟨e1, e2, e3⟩ | ⟨ev, e, h⟩
    · rw [e1, e2, e3]; exact ⟨h1, h2⟩
    · obtain ⟨h3, h4⟩ := h i
      rw [e, said_append, on_append, ← h1, ← h2]
      exact ⟨h3, h4⟩

/-! ### Each operation gets what is said to it -/

/-- The stream of every operation gives what the server said to that operation, from its start to its end, in this order,
and nothing else; whatever other operations there are on the connection. -/
theorem C99_routed {max : Nat} {s : St} (h : Reach max s) (i : Nat) : s.items i = said i false s.hist := (says h i).1

theorem ends_iff (i : Nat) (ev : Ev) : Ends i ev ↔ on1 i true ev = false := by
  cases ev with
  | opened j => simp [Ends, on1]
  | got m => cases m <;> simp [Ends, on1]
  | dropped j => simp [Ends, on1]
  | lost e => simp [Ends, on1]

theorem on_iff (i : Nat) : ∀ h : List Ev, (on i false h.reverse = true) ↔
    ∃ h1 h2, h.reverse = h1 ++ .opened i :: h2 ∧ ∀ ev ∈ h2, ¬ Ends i ev
  | [] => by simp [on]
  | ev :: h => by
    rw [List.reverse_cons, on_append]
    have ih := on_iff i h
    constructor
    · intro hon
      cases hb : on i false h.reverse with
      | true =>
        rw [hb] at hon
        obtain ⟨h1, h2, e, hn⟩ := ih.1 hb
        refine ⟨h1, h2 ++ [ev], by rw [e]; simp, ?_⟩
        intro x hx
        rcases List.mem_append.1 hx with hx | hx
        · exact hn x hx
        · rw [List.mem_singleton] at hx; subst hx
          rw [ends_iff, hon]; simp
      | false =>
        rw [hb] at hon
        have : ev = .opened i := by
          cases ev with
          | opened j => simpa [on1] using hon
          | got m => cases m <;> simp [on1] at hon
          | dropped j => simp [on1] at hon
          | lost e => simp [on1] at hon
        subst this
        exact ⟨h.reverse, [], rfl, by simp⟩
    · rintro ⟨h1, h2, e, hn⟩
      rcases List.eq_nil_or_concat h2 with rfl | ⟨h2, x, rfl⟩
      · obtain ⟨-, e⟩ := List.append_inj' e (by simp)
        have e : ev = .opened i := by simpa using e
        subst e
        cases on i false h.reverse <;> simp [on1]
      · rw [List.concat_eq_append] at e hn
        have e' : h.reverse ++ [ev] = (h1 ++ .opened i :: h2) ++ [x] := by rw [e]; simp
        obtain ⟨e1, e2⟩ := List.append_inj' e' rfl
        have e2 : ev = x := by simpa using e2
        subst e2
        rw [ih.2 ⟨h1, h2, e1, fun y hy => hn y (List.mem_append.2 (.inl hy))⟩]
        have := hn ev (by simp)
        rw [ends_iff] at this
        simpa using this

/-- The stream of an operation goes on for as long as nothing has ended it since it was opened: neither the server, nor
its reader, nor the loss of the connection. -/
theorem C99_goes_on {max : Nat} {s : St} (h : Reach max s) (i : Nat) :
    Goes s i ↔ ∃ h1 h2, s.hist = h1 ++ .opened i :: h2 ∧ ∀ ev ∈ h2, ¬ Ends i ev := by
  have h1 := (says h i).2
  have h2 := on_iff i s.hist.reverse
  rw [List.reverse_reverse] at h2
  rw [← h2, ← h1, decide_eq_true_iff]
  rfl

/-! ### What is sent to the server -/

structure Inv (s : St) : Prop where
  subsLt : ∀ i ∈ s.subs, i < s.next
  guardLt : ∀ i b, s.guards i = some b → i < s.next
  outLt : ∀ i, Out.subscribe i ∈ s.out → i < s.next
  written : ∀ i, Out.subscribe i ∈ s.out → s.guards i ≠ some false
  asked : ∀ i, s.guards i = some true → Out.subscribe i ∈ s.out
  completed : ∀ i, Out.complete i ∈ s.out → s.guards i = none ∧ Out.subscribe i ∈ s.out
  once : (s.out.filter (fun o => match o with
    | .subscribe _ => true
    | _ => false)).Nodup

theorem inv_unguard {s : St} (i : Inv s) (id : Nat) (b b' : Bool) (hg : s.guards id = some b) (hb : b' = true → b = true) :
    Inv (s.unguard id b') := by
  have hsub : ∀ j, Out.subscribe j ∈ (s.unguard id b').out ↔ Out.subscribe j ∈ s.out := by
    intro j
    simp only [St.unguard]
    split <;> simp
  have hg' : ∀ j b, (s.unguard id b').guards j = some b → j ≠ id ∧ s.guards j = some b := fun j b h => upd_none h
  constructor
  · intro j hj
    exact i.subsLt j (List.mem_filter.1 hj).1
  · intro j b h; exact i.guardLt j b (hg' j b h).2
  · intro j h; exact i.outLt j ((hsub j).1 h)
  · intro j h hf; exact i.written j ((hsub j).1 h) (hg' j _ hf).2
  · intro j h; exact (hsub j).2 (i.asked j (hg' j _ h).2)
  · intro j h
    have : Out.complete j ∈ s.out ∨ (j = id ∧ b' = true) := by
      simp only [St.unguard] at h
      split at h
      case isTrue hc =>
        rcases List.mem_append.1 h with h | h
        · exact .inl h
        · rw [List.mem_singleton] at h; cases h; exact .inr ⟨rfl, hc.2⟩
      · exact .inl h
    rcases this with h | ⟨rfl, hb'⟩
    · obtain ⟨h1, h2⟩ := i.completed j h
      refine ⟨?_, (hsub j).2 h2⟩
      show upd s.guards id none j = none
      by_cases e : j = id
      · subst e; exact upd_self _ _ _
      · rw [upd_ne _ _ _ e, h1]
    · refine ⟨upd_self _ _ _, (hsub j).2 (i.asked j ?_)⟩
      rw [hg, hb hb']
  · simp only [St.unguard]
    split
    · rw [List.filter_append]; simpa using i.once
    · exact i.once

theorem inv_step {s s' : St} (i : Inv s) {l : Label} (h : step s l = some s') : Inv s' := by
  cases l with
  | subscribe =>
    simp only [step] at h
    split at h
    · cases h
    · injection h with h; subst h
      have ne : ∀ {j b}, s.guards j = some b → j ≠ s.next := fun h => Nat.ne_of_lt (i.guardLt _ _ h)
      constructor
      · intro j hj
        rcases List.mem_append.1 hj with hj | hj
        · exact Nat.lt_succ_of_lt (i.subsLt j hj)
        · rw [List.mem_singleton] at hj; subst hj; exact Nat.lt_succ_self _
      · intro j b h
        rcases upd_some h with ⟨e, -⟩ | ⟨-, h⟩
        · subst e; exact Nat.lt_succ_self _
        · exact Nat.lt_succ_of_lt (i.guardLt _ _ h)
      · intro j h; exact Nat.lt_succ_of_lt (i.outLt j h)
      · intro j h hf
        rcases upd_some hf with ⟨e, -⟩ | ⟨-, hf⟩
        · subst e; exact Nat.lt_irrefl _ (i.outLt _ h)
        · exact i.written j h hf
      · intro j h
        rcases upd_some h with ⟨-, e⟩ | ⟨-, h⟩
        · cases e
        · exact i.asked j h
      · intro j h
        obtain ⟨h1, h2⟩ := i.completed j h
        exact ⟨(upd_ne _ _ _ (Nat.ne_of_lt (i.outLt _ h2))).trans h1, h2⟩
      · exact i.once
  | written id =>
    simp only [step] at h
    split at h
    case isTrue hg =>
      injection h with h; subst h
      have hnot : Out.subscribe id ∉ s.out := fun h => i.written id h hg
      constructor
      · exact i.subsLt
      · intro j b h
        rcases upd_some h with ⟨e, -⟩ | ⟨-, h⟩
        · subst e; exact i.guardLt _ _ hg
        · exact i.guardLt _ _ h
      · intro j h
        rcases List.mem_append.1 h with h | h
        · exact i.outLt j h
        · rw [List.mem_singleton] at h; cases h; exact i.guardLt _ _ hg
      · intro j h hf
        rcases upd_some hf with ⟨-, e⟩ | ⟨hne, hf⟩
        · cases e
        · rcases List.mem_append.1 h with h | h
          · exact i.written j h hf
          · rw [List.mem_singleton] at h; cases h; exact hne rfl
      · intro j h
        rcases upd_some h with ⟨e, -⟩ | ⟨-, h⟩
        · subst e; exact List.mem_append.2 (.inr (by simp))
        · exact List.mem_append.2 (.inl (i.asked j h))
      · intro j h
        rcases List.mem_append.1 h with h | h
        · obtain ⟨h1, h2⟩ := i.completed j h
          refine ⟨(upd_ne _ _ _ ?_).trans h1, List.mem_append.2 (.inl h2)⟩
          rintro rfl; exact hnot h2
        · simp at h
      · show (List.filter _ (s.out ++ [Out.subscribe id])).Nodup
        rw [List.filter_append, List.nodup_append]
        refine ⟨i.once, by simp, ?_⟩
        intro x hx y hy
        simp at hy
        rw [hy]
        rintro rfl
        exact hnot (List.mem_filter.1 hx).1
    · cases h
  | unwritten id =>
    simp only [step] at h
    split at h
    case isTrue hg => injection h with h; subst h; exact inv_unguard i id false false hg (by simp)
    · cases h
  | drop id =>
    simp only [step] at h
    split at h
    case isTrue hg => injection h with h; subst h; exact inv_unguard i id true true hg (by simp)
    · cases h
  | recv m =>
    simp only [step] at h
    split at h
    · injection h with h; subst h
      have key : ∀ t : St, (∀ j ∈ t.subs, j ∈ s.subs) → t.guards = s.guards → t.next = s.next →
          (t.out = s.out ∨ t.out = s.out ++ [.pong] ∨ t.out = s.out ++ [.close]) → Inv t := by
        intro t h1 h2 h3 h4
        have hs : ∀ j, Out.subscribe j ∈ t.out ↔ Out.subscribe j ∈ s.out := by
          intro j; rcases h4 with h4 | h4 | h4 <;> rw [h4] <;> simp
        have hc : ∀ j, Out.complete j ∈ t.out ↔ Out.complete j ∈ s.out := by
          intro j; rcases h4 with h4 | h4 | h4 <;> rw [h4] <;> simp
        refine ⟨fun j hj => by rw [h3]; exact i.subsLt j (h1 j hj), by rw [h2, h3]; exact i.guardLt,
          fun j hj => by rw [h3]; exact i.outLt j ((hs j).1 hj),
          fun j hj => by rw [h2]; exact i.written j ((hs j).1 hj),
          fun j hj => by rw [h2] at hj; exact (hs j).2 (i.asked j hj),
          fun j hj => ?_, ?_⟩
        · rw [h2, hs]; exact i.completed j ((hc j).1 hj)
        · rcases h4 with h4 | h4 | h4
          · rw [h4]; exact i.once
          · rw [h4, List.filter_append]; simpa using i.once
          · rw [h4, List.filter_append]; simpa using i.once
      cases m with
      | next id p =>
        simp only [St.handle]
        split <;> exact key _ (fun j h => h) rfl rfl (.inl rfl)
      | error id d =>
        simp only [St.handle]
        split
        · exact key _ (fun j h => (List.mem_filter.1 h).1) rfl rfl (.inl rfl)
        · exact key _ (fun j h => h) rfl rfl (.inl rfl)
      | complete id => exact key _ (fun j h => (List.mem_filter.1 h).1) rfl rfl (.inl rfl)
      | ack => exact key _ (fun j h => h) rfl rfl (.inl rfl)
      | ping => exact key _ (fun j h => h) rfl rfl (.inr (.inl rfl))
      | pong => exact key _ (fun j h => h) rfl rfl (.inl rfl)
      | bad => exact key _ (fun j h => h) rfl rfl (.inr (.inr rfl))
    · cases h
  | stop e =>
    simp only [step] at h
    split at h
    · cases h
    · injection h with h; subst h
      exact ⟨fun j h => (by cases h), i.guardLt, i.outLt, i.written, i.asked, i.completed, i.once⟩

theorem inv_reach {max : Nat} {s : St} (h : Reach max s) : Inv s := by
  induction h with
  | start => constructor <;> simp [start]
  | step l _ hs ih => exact inv_step ih hs

/-- No two operations on a connection have the same name. -/
theorem C99_names {max : Nat} {s : St} (h : Reach max s) : (s.out.filterMap (fun o => match o with
    | .subscribe i => some i
    | _ => none)).Nodup := by
  have h1 := (inv_reach h).once
  have e : s.out.filterMap (fun o => match o with
      | .subscribe i => some i
      | _ => none) = (s.out.filter (fun o => match o with
      | .subscribe _ => true
      | _ => false)).filterMap (fun o => match o with
      | .subscribe i => some i
      | _ => none) := by
    generalize s.out = l
    induction l with
    | nil => rfl
    | cons o l ih => cases o <;> simp_all
  rw [e]
  generalize hl : s.out.filter _ = l at h1
  clear hl e
  induction l with
  | nil => simp
  | cons o l ih =>
    rw [List.nodup_cons] at h1
    cases o with
    | subscribe i =>
      simp only [List.filterMap_cons]
      rw [List.nodup_cons]
      refine ⟨fun hm => ?_, ih h1.2⟩
      obtain ⟨o, ho, e⟩ := List.mem_filterMap.1 hm
      cases o <;> simp at e
      subst e; exact h1.1 ho
    | complete i => simpa using ih h1.2
    | pong => simpa using ih h1.2
    | close => simpa using ih h1.2

/-- The client tells the server that an operation is complete only when that operation is dropped while it goes on; and
then the operation was asked for, and the server is told only once. -/
theorem C99_complete {max : Nat} {s s' : St} (h : Reach max s) {l : Label} (hs : step s l = some s') (i : Nat) :
    s'.out.count (.complete i) ≤ 1 ∧
    (Out.complete i ∈ s'.out → Out.complete i ∉ s.out → l = .drop i ∧ Goes s i ∧ Out.subscribe i ∈ s.out) := by
  have key : ∀ {t t' : St} {l : Label}, Inv t → step t l = some t' →
      t'.out.count (.complete i) = t.out.count (.complete i) ∨
      (t'.out.count (.complete i) = t.out.count (.complete i) + 1 ∧ l = .drop i ∧ Goes t i ∧
        t.guards i = some true) := by
    intro t t' l it hs
    cases l with
    | subscribe =>
      simp only [step] at hs
      split at hs
      · cases hs
      · injection hs with hs; subst hs; exact .inl rfl
    | written id =>
      simp only [step] at hs
      split at hs
      · injection hs with hs; subst hs; exact .inl (by simp)
      · cases hs
    | unwritten id =>
      simp only [step] at hs
      split at hs
      · injection hs with hs; subst hs; exact .inl (by simp [St.unguard])
      · cases hs
    | drop id =>
      simp only [step] at hs
      split at hs
      case isTrue hg =>
        injection hs with hs; subst hs
        by_cases hm : id ∈ t.subs
        · by_cases e : id = i
          · subst e; exact .inr ⟨by simp [St.unguard, hm], rfl, hm, hg⟩
          · exact .inl (by simp [St.unguard, hm, e])
        · exact .inl (by simp [St.unguard, hm])
      · cases hs
    | recv m =>
      simp only [step] at hs
      split at hs
      · injection hs with hs; subst hs
        refine .inl ?_
        cases m <;> simp only [St.handle] <;> (try split) <;> simp [St.push]
      · cases hs
    | stop e =>
      simp only [step] at hs
      split at hs
      · cases hs
      · injection hs with hs; subst hs; exact .inl rfl
  have le : ∀ {t : St}, Reach max t → t.out.count (.complete i) ≤ 1 := by
    intro t ht
    induction ht with
    | start => simp [start]
    | step l hr hs ih =>
      rcases key (inv_reach hr) hs with e | ⟨e, -, -, hg⟩
      · omega
      · have : Out.complete i ∉ _ := fun hc => by
          have := ((inv_reach hr).completed i hc).1
          rw [hg] at this; cases this
        rw [List.count_eq_zero_of_not_mem this] at e
        omega
  refine ⟨le (.step l h hs), fun h1 h2 => ?_⟩
  rcases key (inv_reach h) hs with e | ⟨-, e1, e2, e3⟩
  · rw [List.count_eq_zero_of_not_mem h2] at e
    exact absurd h1 (List.count_eq_zero.1 e)
  · exact ⟨e1, e2, (inv_reach h).asked i e3⟩

/-! ### When the connection is lost -/

/-- When the reader stops, every operation that goes on is told, and has come to its end. -/
theorem C100_lost_partial {s s' : St} {e : Err} (hs : step s (.stop e) = some s') {i : Nat} (hi : Goes s i) :
    s'.items i = s.items i ++ [.lost e] ∧ ¬ Goes s' i := by
  simp only [step] at hs
  split at hs
  · cases hs
  · injection hs with hs; subst hs
    refine ⟨?_, fun h => (by cases h)⟩
    have hi : i ∈ s.subs := hi
    simp [St.drain, hi]

def after : List Label → St → Option St
  | [], s => some s
  | l :: ls, s => (step s l).bind (after ls)

theorem reach_after {max : Nat} : ∀ {ls : List Label} {s t : St}, Reach max s → after ls s = some t → Reach max t
  | [], s, t, h, e => by injection e with e; subst e; exact h
  | l :: ls, s, t, h, e => by
    rw [after] at e
    cases hs : step s l with
    | none => rw [hs] at e; cases e
    | some u => rw [hs] at e; exact reach_after (.step l h hs) e

/-- Stuck: nothing reads from the connection any more, and the operation has not ended. -/
structure Stuck (s : St) (i : Nat) : Prop where
  stopped : s.reader = .stopped
  guard : s.guards i = some true
  lt : i < s.next
  goes : i ∈ s.subs
  silent : s.items i = []

theorem stuck_step {s s' : St} {i : Nat} {l : Label} (h : Stuck s i) (hs : step s l = some s') (hl : l ≠ .drop i) :
    Stuck s' i := by
  cases l with
  | subscribe =>
    simp only [step] at hs
    split at hs
    · cases hs
    · injection hs with hs; subst hs
      exact ⟨h.stopped, (upd_ne _ _ _ (Nat.ne_of_lt h.lt)).trans h.guard, Nat.lt_succ_of_lt h.lt,
        List.mem_append.2 (.inl h.goes), h.silent⟩
  | written id =>
    simp only [step] at hs
    split at hs
    case isTrue hg =>
      injection hs with hs; subst hs
      refine ⟨h.stopped, (upd_ne _ _ _ ?_).trans h.guard, h.lt, h.goes, h.silent⟩
      rintro rfl; rw [h.guard] at hg; cases hg
    · cases hs
  | unwritten id =>
    simp only [step] at hs
    split at hs
    case isTrue hg =>
      injection hs with hs; subst hs
      have ne : i ≠ id := by rintro rfl; rw [h.guard] at hg; cases hg
      exact ⟨h.stopped, (upd_ne _ _ _ ne).trans h.guard, h.lt, List.mem_filter.2 ⟨h.goes, by simpa using ne⟩, h.silent⟩
    · cases hs
  | drop id =>
    simp only [step] at hs
    split at hs
    · injection hs with hs; subst hs
      have ne : i ≠ id := by rintro rfl; exact hl rfl
      exact ⟨h.stopped, (upd_ne _ _ _ ne).trans h.guard, h.lt, List.mem_filter.2 ⟨h.goes, by simpa using ne⟩, h.silent⟩
    · cases hs
  | recv m => simp [step, h.stopped] at hs
  | stop e => simp [step, h.stopped] at hs

/-- It can be that an operation is started on a connection that is lost, and is never told: nothing comes out of its
stream and the stream does not end, whatever happens, until its reader gives up. The owner of the connection
(`websocket_pool.rs:643`, 670) takes the next command from the queue, or notes that the reader has stopped, whichever
`select!` looks at first; and the same once more between writing to the server and noting it. -/
theorem C100_lost_refuted (max : Nat) (hm : 2 < max) :
    ∃ s, Reach max s ∧ s.reader = .stopped ∧ Out.subscribe 1 ∈ s.out ∧ s.hist = [.lost .connectionClosed, .opened 1] ∧
      ∀ ls t, Steps s ls t → Label.drop 1 ∉ ls → Goes t 1 ∧ t.items 1 = [] := by
  let s0 : St := (start max).drain .connectionClosed
  let s1 : St := { s0 with subs := [1], guards := upd s0.guards 1 (some false), next := 2, hist := s0.hist ++ [.opened 1] }
  let s2 : St := { s1 with guards := upd s1.guards 1 (some true), out := s1.out ++ [.subscribe 1] }
  have e0 : step (start max) (.stop .connectionClosed) = some s0 := rfl
  have e1 : step s0 .subscribe = some s1 := by
    have : ¬ (1 = max) := by omega
    show (if 1 = max then none else some s1) = some s1
    rw [if_neg this]
  have e2 : step s1 (.written 1) = some s2 := by
    show (if upd s0.guards 1 (some false) 1 = some false then some s2 else none) = some s2
    rw [if_pos (upd_self _ _ _)]
  refine ⟨s2, .step _ (.step _ (.step _ .start e0) e1) e2, rfl, List.mem_append.2 (.inr (by simp)), rfl, ?_⟩
  have hst : Stuck s2 1 := ⟨rfl, upd_self s1.guards 1 (some true), Nat.lt_succ_self 1, by simp [s2, s1], rfl⟩
  intro ls t st hd
  suffices Stuck t 1 from ⟨this.goes, this.silent⟩
  clear_value s2
  clear e2
  induction st with
  | nil => exact hst
  | cons hs _ ih =>
    exact ih (stuck_step hst hs (fun e => hd (by rw [e]; exact List.mem_cons_self))) (fun h => hd (List.mem_cons_of_mem _ h))

/-! ### A run -/

/-- Two operations; what is said to the first and to the second, and to one that is not there; the first is ended by the
server and then dropped, the second is dropped; the third is there when the connection is lost. -/
def run : List Label :=
  [.subscribe, .written 1, .subscribe, .recv (.next 1 (some 10)), .written 2, .recv (.next 2 (some 20)),
    .recv (.next 1 none), .recv (.next 9 (some 0)), .recv .ping, .recv (.error 1 3), .recv (.next 1 (some 11)), .drop 1,
    .subscribe, .written 3, .drop 2, .recv (.next 2 (some 21)), .recv .bad, .stop .connectionClosed]

example : (after run (start 100)).map (fun s => (s.items 1, s.items 2, s.items 3)) =
    some ([.data 10, .unreadable, .errors 3], [.data 20], [.lost .connectionClosed]) := by decide +kernel

example : (after run (start 100)).map (fun s => s.out) =
    some [.subscribe 1, .subscribe 2, .pong, .subscribe 3, .complete 2, .close] := by decide +kernel

end Verif.Pool.Client
