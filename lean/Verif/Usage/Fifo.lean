import Mathlib.Data.List.Rotate
import Mathlib.Data.List.Dedup
/-!
# The set of keys already seen

Models `lib/hive-console-sdk/src/helpers.rs`. A set of at most `capacity` values. A new value takes
the place of the oldest one once the set is full.
-/
namespace Verif.Usage

/-- Models `FifoSet` (helpers.rs 36-46). The set `seen` is the list of its values: a hash set has the
same operations. -/
structure Fifo where
  order : List Nat
  seen : List Nat
  next : Nat
  cap : Nat

/-- Models `FifoSet::new` (helpers.rs 48-60). -/
def Fifo.new (cap : Nat) : Fifo := ⟨[], [], 0, cap⟩

/-- Inserts a value; says whether it was absent. `none` is an index out of bounds.
Models `FifoSet::insert` (helpers.rs 64-85). -/
def Fifo.insert (f : Fifo) (v : Nat) : Option (Bool × Fifo) :=
  if v ∈ f.seen then some (false, f) else
    if f.seen.length = f.cap then
      match f.order[f.next]? with
      | none => none
      | some old =>
        some (true, { f with
          order := f.order.set f.next v, seen := v :: f.seen.filter (· ≠ old),
          next := (f.next + 1) % f.cap })
    else
      some (true, { f with
        order := f.order ++ [v], seen := v :: f.seen, next := (f.next + 1) % f.cap })

/-- What the set is meant to be: the last values inserted, the oldest first, `cap` of them at most. -/
def lastOf (cap : Nat) (vs : List Nat) : List Nat := vs.drop (vs.length - cap)

/-- The set holds the last of the values that were inserted. -/
structure Fifo.Holds (f : Fifo) (ins : List Nat) : Prop where
  pos : 0 < f.cap
  order : f.order.rotate (if ins.length < f.cap then 0 else f.next) = lastOf f.cap ins
  next : f.next = if ins.length < f.cap then ins.length else f.next
  bound : f.next < f.cap
  seen : f.seen.Perm f.order
  nodup : f.order.Nodup

theorem holds_new {cap : Nat} (h : 0 < cap) : (Fifo.new cap).Holds [] where
  pos := h
  order := by simp [Fifo.new, lastOf]
  next := by split <;> rfl
  bound := h
  seen := .refl _
  nodup := List.nodup_nil

theorem lastOf_length {cap : Nat} {vs : List Nat} : (lastOf cap vs).length = min cap vs.length := by
  simp [lastOf]; omega

theorem Fifo.Holds.length {f : Fifo} {ins : List Nat} (h : f.Holds ins) :
    f.order.length = min f.cap ins.length := by
  have := congrArg List.length h.order
  rwa [List.length_rotate, lastOf_length] at this

theorem Fifo.Holds.mem {f : Fifo} {ins : List Nat} (h : f.Holds ins) (v : Nat) :
    v ∈ f.seen ↔ v ∈ lastOf f.cap ins := by
  rw [h.seen.mem_iff, ← h.order, List.mem_rotate]

theorem lastOf_append {cap : Nat} {vs : List Nat} {v : Nat} (h : vs.length < cap) :
    lastOf cap (vs ++ [v]) = vs ++ [v] := by
  have : (vs ++ [v]).length - cap = 0 := by simp; omega
  rw [lastOf, this]
  rfl

theorem lastOf_short {cap : Nat} {vs : List Nat} (h : vs.length ≤ cap) : lastOf cap vs = vs := by
  rw [lastOf, Nat.sub_eq_zero_of_le h]
  rfl

theorem lastOf_push {cap : Nat} {vs : List Nat} {v : Nat} (hc : 0 < cap) (h : cap ≤ vs.length) :
    lastOf cap (vs ++ [v]) = (lastOf cap vs).tail ++ [v] := by
  unfold lastOf
  have : (vs ++ [v]).length - cap = vs.length - cap + 1 := by simp; omega
  rw [this, List.drop_append_of_le_length (by omega), List.tail_drop]

/-- Inserting never fails. What is there already is not inserted again; all else is, and then the set
holds the last of the values again. -/
theorem insert_holds {f : Fifo} {ins : List Nat} (h : f.Holds ins) (v : Nat) :
    (v ∈ lastOf f.cap ins ∧ f.insert v = some (false, f)) ∨
      (v ∉ lastOf f.cap ins ∧ ∃ g, f.insert v = some (true, g) ∧ g.Holds (ins ++ [v]) ∧ g.cap = f.cap) := by
  by_cases hv : v ∈ f.seen
  · exact .inl ⟨(h.mem v).1 hv, by rw [Fifo.insert, if_pos hv]⟩
  · refine .inr ⟨fun hm => hv ((h.mem v).2 hm), ?_⟩
    have hl := h.length
    have hs := h.seen.length_eq
    have hvo : v ∉ f.order := fun hm => hv ((h.seen.mem_iff).2 hm)
    by_cases hf : ins.length < f.cap
    · have hn : f.next = ins.length := by have := h.next; rwa [if_pos hf] at this
      have ho : f.order = ins := by
        have := h.order
        rwa [if_pos hf, List.rotate_zero, lastOf_short (Nat.le_of_lt hf)] at this
      refine ⟨{ f with order := f.order ++ [v], seen := v :: f.seen, next := (f.next + 1) % f.cap },
        by rw [Fifo.insert, if_neg hv, if_neg (by omega)], ?_, rfl⟩
      refine ⟨h.pos, ?_, ?_, Nat.mod_lt _ h.pos, ?_, ?_⟩
      · simp only [List.length_append, List.length_cons, List.length_nil]
        rw [lastOf_append hf, ho]
        by_cases he : ins.length + 1 < f.cap
        · rw [if_pos (by omega), List.rotate_zero]
        · rw [if_neg (by omega), hn, show ins.length + 1 = f.cap by omega, Nat.mod_self, List.rotate_zero]
      · simp only [List.length_append, List.length_cons, List.length_nil]
        split
        · rw [hn, Nat.mod_eq_of_lt (by omega)]
        · rfl
      · exact (List.Perm.cons v h.seen).trans (List.perm_append_singleton v f.order).symm
      · exact List.nodup_append.2 ⟨h.nodup, by simp, by
          intro a ha b hb; rw [List.mem_singleton] at hb; subst hb; rintro rfl; exact hvo ha⟩
    · have hfull : f.order.length = f.cap := by omega
      have hb := h.bound
      have hlt : f.next < f.order.length := by omega
      have hg : f.order[f.next]? = some f.order[f.next] := List.getElem?_eq_getElem hlt
      refine ⟨{ f with order := f.order.set f.next v, seen := v :: f.seen.filter (· ≠ f.order[f.next]),
                       next := (f.next + 1) % f.cap },
        by rw [Fifo.insert, if_neg hv, if_pos (by omega), hg], ?_, rfl⟩
      have ho : f.order.rotate f.next = lastOf f.cap ins := by
        have := h.order; rwa [if_neg hf] at this
      have hsplit : f.order = f.order.take f.next ++ f.order[f.next] :: f.order.drop (f.next + 1) := by
        rw [← List.drop_eq_getElem_cons hlt, List.take_append_drop]
      have hset : f.order.set f.next v = f.order.take f.next ++ v :: f.order.drop (f.next + 1) := by
        rw [List.set_eq_take_append_cons_drop, if_pos hlt]
      refine ⟨h.pos, ?_, ?_, Nat.mod_lt _ h.pos, ?_, ?_⟩
      · simp only [List.length_append, List.length_cons, List.length_nil]
        rw [if_neg (by omega), lastOf_push h.pos (by omega), ← ho, hset]
        have hnp : f.next ≤ f.order.length := by omega
        rw [List.rotate_eq_drop_append_take hnp, List.drop_eq_getElem_cons hlt]
        simp only [List.cons_append, List.tail_cons, List.append_assoc]
        by_cases hw : f.next + 1 = f.cap
        · rw [hw, Nat.mod_self, List.rotate_zero, List.drop_eq_nil_of_le (by omega)]
          simp
        · rw [Nat.mod_eq_of_lt (by omega), List.rotate_eq_drop_append_take (by simp; omega)]
          have hl1 : (f.order.take f.next).length = f.next := by simp; omega
          have e1 : (f.order.take f.next ++ v :: f.order.drop (f.next + 1)).drop (f.next + 1) =
              f.order.drop (f.next + 1) := by
            rw [List.drop_append, List.drop_eq_nil_of_le (by omega), hl1]
            simp
          have e2 : (f.order.take f.next ++ v :: f.order.drop (f.next + 1)).take (f.next + 1) =
              f.order.take f.next ++ [v] := by
            rw [List.take_append, hl1, List.take_of_length_le (by omega)]
            simp
          rw [e1, e2]
      · simp only [List.length_append, List.length_cons, List.length_nil]
        rw [if_neg (by omega)]
      · simp only
        rw [hset]
        have hnd := h.nodup
        rw [hsplit] at hnd
        have hout : ∀ a ∈ f.order.take f.next ++ f.order.drop (f.next + 1), a ≠ f.order[f.next] := by
          rintro a ha rfl
          rw [List.nodup_append] at hnd
          rcases List.mem_append.1 ha with h1 | h1
          · exact hnd.2.2 _ h1 _ (List.mem_cons_self ..) rfl
          · exact (List.nodup_cons.1 hnd.2.1).1 h1
        have hp : (f.seen.filter (· ≠ f.order[f.next])).Perm
            (f.order.take f.next ++ f.order.drop (f.next + 1)) := by
          refine (h.seen.filter _).trans ?_
          have key : f.order.filter (· ≠ f.order[f.next]) =
              f.order.take f.next ++ f.order.drop (f.next + 1) := by
            have e := congrArg (List.filter (· ≠ f.order[f.next])) hsplit
            rw [e, List.filter_append, List.filter_cons_of_neg (by simp), ← List.filter_append,
              List.filter_eq_self.2 (by intro a ha; simpa using hout a ha)]
          rw [key]
        exact (List.Perm.cons v hp).trans List.perm_middle.symm
      · simp only
        rw [hset]
        have hnd := h.nodup
        rw [hsplit] at hnd
        rw [List.nodup_middle, List.nodup_cons] at hnd ⊢
        refine ⟨fun hm => hvo ?_, hnd.2⟩
        rcases List.mem_append.1 hm with h1 | h1
        · exact List.mem_of_mem_take h1
        · exact List.mem_of_mem_drop h1

end Verif.Usage
