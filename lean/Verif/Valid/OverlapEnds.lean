import Verif.Valid.OverlapSound
import Mathlib.Data.Fintype.Basic
import Mathlib.Order.WellFounded
import Mathlib.Data.Set.Finite.List

/-!
# The comparison comes to an end if no fragment comes back to itself
-/

namespace Verif.Valid

/-! ## More fuel does not change the answer -/

theorem seqRun_mono {r1 r2 : Task → OvSt → Ans} (h : ∀ t st a, r1 t st = some a → r2 t st = some a)
    {ts : List Task} {st : OvSt} {a : Bool × OvSt} (hs : seqRun r1 ts st = some a) :
    seqRun r2 ts st = some a := by
  induction ts generalizing st a with
  | nil => exact hs
  | cons t ts ih =>
    simp only [seqRun] at hs ⊢
    cases h1 : r1 t st with
    | none => simp [h1] at hs
    | some r =>
      obtain ⟨b, s1⟩ := r
      simp only [h1] at hs
      rw [h _ _ _ h1]
      cases h2 : seqRun r1 ts s1 with
      | none => simp [h2] at hs
      | some r =>
        simp only [ih h2]
        simpa only [h2] using hs

theorem nexts_mono {r1 r2 : Task → OvSt → Ans} (h : ∀ t st a, r1 t st = some a → r2 t st = some a)
    {m : List Occ} {me : Bool} {ns : List Name} {st : OvSt} {a : Bool × OvSt}
    (hs : nexts r1 m me ns st = some a) : nexts r2 m me ns st = some a := by
  induction ns generalizing st a with
  | nil => exact hs
  | cons n ns ih =>
    simp only [nexts] at hs ⊢
    by_cases hv : st.visited.contains n = true
    · rw [if_pos hv] at hs ⊢
      exact hs
    · rw [if_neg hv] at hs ⊢
      cases h1 : r1 (.fieldsFrag m n me) { st with visited := st.visited ++ [n] } with
      | none => simp [h1] at hs
      | some r =>
        obtain ⟨b, s1⟩ := r
        simp only [h1] at hs
        rw [h _ _ _ h1]
        cases h2 : nexts r1 m me ns s1 with
        | none => simp [h2] at hs
        | some r =>
          simp only [ih h2]
          simpa only [h2] using hs

theorem stepTask_mono {s : Schema} {d : Doc} {r1 r2 : Task → OvSt → Ans}
    (h : ∀ t st a, r1 t st = some a → r2 t st = some a) (t : Task) (st : OvSt) (a : Bool × OvSt)
    (hs : stepTask s d r1 t st = some a) : stepTask s d r2 t st = some a := by
  cases t with
  | find x y me =>
    simp only [stepTask] at hs ⊢
    revert hs
    split
    · exact id
    · split
      · exact id
      · split
        · exact id
        · split
          · exact h _ _ _
          · exact id
  | subs me p1 ss1 p2 ss2 => exact seqRun_mono h hs
  | between me m1 m2 => exact seqRun_mono h hs
  | fieldsFrag m n me =>
    simp only [stepTask] at hs ⊢
    cases hf : knownFrag d n with
    | none => simpa only [hf] using hs
    | some f =>
      simp only [hf] at hs ⊢
      by_cases hv : (fragMap s f).names.contains n = true
      · rw [if_pos hv] at hs ⊢
        exact hs
      · rw [if_neg hv] at hs ⊢
        cases h1 : r1 (.between me m (fragMap s f).occs) st with
        | none => simp [h1] at hs
        | some r =>
          obtain ⟨b, s1⟩ := r
          simp only [h1] at hs
          simp only [h _ _ _ h1]
          cases h2 : nexts r1 m me (fragMap s f).names s1 with
          | none => simp [h2] at hs
          | some r =>
            simp only [nexts_mono h h2]
            simpa only [h2] using hs
  | frags x y me =>
    simp only [stepTask] at hs ⊢
    revert hs
    split
    · exact id
    · split
      · exact id
      · split
        · exact seqRun_mono h
        · exact id

theorem runTask_mono {s : Schema} {d : Doc} {k : Nat} : ∀ {k' : Nat}, k ≤ k' → ∀ (t : Task) (st : OvSt)
    (a : Bool × OvSt), runTask s d k t st = some a → runTask s d k' t st = some a := by
  induction k with
  | zero => intro k' _ t st a h; simp [runTask] at h
  | succ k ih =>
    intro k' hk t st a h
    obtain ⟨j, rfl⟩ : ∃ j, k' = j + 1 := ⟨k' - 1, by omega⟩
    exact stepTask_mono (ih (by omega)) t st a h

theorem overlapFrom_mono {s : Schema} {d : Doc} {k k' : Nat} (hk : k ≤ k') {es : Told}
    {cmp : List (Name × Name × Bool)} {r : Bool} (h : overlapFrom s d k es cmp = some r) :
    overlapFrom s d k' es cmp = some r := by
  induction es generalizing cmp r with
  | nil => exact h
  | cons e es ih =>
    obtain ⟨c, e⟩ := e
    by_cases he : ∃ ss, e = .sels ss
    · obtain ⟨ss, rfl⟩ := he
      simp only [overlapFrom] at h ⊢
      cases h1 : seqRun (runTask s d k) (setTasks s c.parent ss) ⟨cmp, []⟩ with
      | none => simp [h1] at h
      | some q =>
        obtain ⟨b, st⟩ := q
        simp only [h1] at h
        rw [seqRun_mono (runTask_mono hk) h1]
        cases h2 : overlapFrom s d k es st.compared with
        | none => simp [h2] at h
        | some r =>
          simp only [ih h2]
          simpa only [h2] using h
    · cases e <;> first | exact ih h | exact absurd ⟨_, rfl⟩ he

/-! ## How deep a selection set is, with the fragments of it -/

/-- The selection set has at most so many selections one inside the other, where a fragment is inside
its spread. -/
def Within (d : Doc) : Nat → List Sel → Prop
  | 0, _ => False
  | k + 1, ss => ∀ x ∈ ss,
      match x with
      | .field _ _ _ _ sub => Within d k sub
      | .inline _ _ sub => Within d k sub
      | .spread n _ => ∀ f ∈ frags d, f.name = n → Within d k f.sels

theorem Within.succ {d : Doc} {k : Nat} : ∀ {ss : List Sel}, Within d k ss → Within d (k + 1) ss := by
  induction k with
  | zero => intro ss h; exact h.elim
  | succ k ih =>
    intro ss h x hx
    have := h x hx
    cases x with
    | field => exact ih this
    | inline => exact ih this
    | spread => exact fun f hf e => ih (this f hf e)

theorem Within.mono {d : Doc} {k k' : Nat} (hk : k ≤ k') {ss : List Sel} (h : Within d k ss) :
    Within d k' ss := by
  induction hk with
  | refl => exact h
  | step _ ih => exact ih.succ

mutual
theorem occSel_within {s : Schema} {d : Doc} : ∀ (k : Nat) (p : Option TypeDef) (x : Sel) (o : Occ),
    Within d (k + 1) [x] → o ∈ occSel s p x → Within d k o.sub
  | k, p, .field al n args ds sub, o, h, ho => by
    simp only [occSel, List.mem_singleton] at ho
    subst ho
    exact h _ List.mem_cons_self
  | k, p, .spread _ _, o, h, ho => by simp [occSel] at ho
  | k, p, .inline c ds sub, o, h, ho => by
    simp only [occSel] at ho
    exact occSels_within k _ sub o (h _ List.mem_cons_self).succ ho
theorem occSels_within {s : Schema} {d : Doc} : ∀ (k : Nat) (p : Option TypeDef) (ss : List Sel) (o : Occ),
    Within d (k + 1) ss → o ∈ occSels s p ss → Within d k o.sub
  | k, p, [], o, _, ho => by simp [occSels] at ho
  | k, p, x :: xs, o, h, ho => by
    simp only [occSels, List.mem_append] at ho
    rcases ho with ho | ho
    · refine occSel_within k p x o (fun y hy => ?_) ho
      rw [List.mem_singleton] at hy
      subst hy
      exact h _ List.mem_cons_self
    · exact occSels_within k p xs o (fun y hy => h y (List.mem_cons_of_mem _ hy)) ho
end

mutual
theorem spreadSel_within {d : Doc} : ∀ (k : Nat) (x : Sel) (f : Frag), Within d (k + 1) [x] →
    f ∈ frags d → f.name ∈ spreadSel x → Within d k f.sels
  | k, .field al n args ds sub, f, h, hf, hn => by simp [spreadSel] at hn
  | k, .spread n _, f, h, hf, hn => by
    simp only [spreadSel, List.mem_singleton] at hn
    exact h _ List.mem_cons_self f hf hn
  | k, .inline c ds sub, f, h, hf, hn => by
    simp only [spreadSel] at hn
    exact spreadSels_within k sub f (h _ List.mem_cons_self).succ hf hn
theorem spreadSels_within {d : Doc} : ∀ (k : Nat) (ss : List Sel) (f : Frag), Within d (k + 1) ss →
    f ∈ frags d → f.name ∈ spreadSels ss → Within d k f.sels
  | k, [], f, _, _, hn => by simp [spreadSels] at hn
  | k, x :: xs, f, h, hf, hn => by
    simp only [spreadSels, List.mem_append] at hn
    rcases hn with hn | hn
    · refine spreadSel_within k x f (fun y hy => ?_) hf hn
      rw [List.mem_singleton] at hy
      subst hy
      exact h _ List.mem_cons_self
    · exact spreadSels_within k xs f (fun y hy => h y (List.mem_cons_of_mem _ hy)) hf hn
end

theorem occs_within {s : Schema} {d : Doc} {k : Nat} {p : Option TypeDef} {ss : List Sel} {o : Occ}
    (h : Within d (k + 1) ss) (ho : o ∈ (fieldMap s p ss).occs) : Within d k o.sub :=
  occSels_within k p ss o h ho

theorem names_within {s : Schema} {d : Doc} {k : Nat} {p : Option TypeDef} {ss : List Sel} {f : Frag}
    (h : Within d (k + 1) ss) (hf : f ∈ frags d) (hn : f.name ∈ (fieldMap s p ss).names) :
    Within d k f.sels :=
  spreadSels_within k ss f h hf ((mem_names s p ss _).1 hn)

/-! ## The fuel that is enough -/

/-- What a call compares is at most so deep on either side. -/
def TaskWithin (d : Doc) (i j : Nat) : Task → Prop
  | .find a b _ => Within d i a.sub ∧ Within d j b.sub
  | .subs _ _ ss1 _ ss2 => Within d i ss1 ∧ Within d j ss2
  | .between _ m1 m2 => (∀ a ∈ m1, Within d i a.sub) ∧ ∀ b ∈ m2, Within d j b.sub
  | .fieldsFrag m n _ => (∀ a ∈ m, Within d i a.sub) ∧ ∀ f ∈ frags d, f.name = n → Within d j f.sels
  | .frags a b _ => (∀ f ∈ frags d, f.name = a → Within d i f.sels) ∧
      ∀ f ∈ frags d, f.name = b → Within d j f.sels

/-- The fuel that is enough for such a call. -/
def need (i j : Nat) : Task → Nat
  | .find _ _ _ => 3 * (i + j) + 2
  | .subs _ _ _ _ _ => 3 * (i + j) + 1
  | .between _ _ _ => 3 * (i + j) + 3
  | .fieldsFrag _ _ _ => 3 * (i + j) + 1
  | .frags _ _ _ => 3 * (i + j) + 1

theorem within_pos {d : Doc} {k : Nat} {ss : List Sel} (h : Within d k ss) : ∃ j, k = j + 1 := by
  cases k with
  | zero => exact h.elim
  | succ j => exact ⟨j, rfl⟩

theorem runTask_ends (s : Schema) (d : Doc) (k : Nat) : ∀ (i j : Nat) (t : Task), TaskWithin d i j t →
    need i j t ≤ k → ∀ st, ∃ r, runTask s d k t st = some r := by
  induction k with
  | zero => intro i j t _ hn; cases t <;> simp [need] at hn
  | succ k ih =>
    intro i j t ht hn st
    simp only [runTask]
    cases t with
    | find a b me =>
      simp only [stepTask]
      split
      · exact ⟨_, rfl⟩
      · split
        · exact ⟨_, rfl⟩
        · split
          · exact ⟨_, rfl⟩
          · split
            · refine ih i j _ ?_ ?_ st
              · exact ht
              · simp only [need] at hn ⊢; omega
            · exact ⟨_, rfl⟩
    | subs me p1 ss1 p2 ss2 =>
      obtain ⟨h1, h2⟩ := ht
      obtain ⟨i, rfl⟩ := within_pos h1
      obtain ⟨j, rfl⟩ := within_pos h2
      simp only [need] at hn
      refine seqRun_some (fun t ht st => ?_) st
      simp only [List.mem_cons, List.mem_append, List.mem_map, List.mem_flatMap] at ht
      rcases ht with rfl | (⟨n, hn', rfl⟩ | ⟨n, hn', rfl⟩) | ⟨a, ha, b, hb, rfl⟩
      · refine ih i j _ ?_ ?_ st
        · exact ⟨fun a ha => occs_within h1 ha, fun b hb => occs_within h2 hb⟩
        · simp only [need]; omega
      · refine ih i j _ ?_ ?_ st
        · exact ⟨fun a ha => occs_within h1 ha, fun f hf e => names_within h2 hf (e ▸ hn')⟩
        · simp only [need]; omega
      · refine ih j i _ ?_ ?_ st
        · exact ⟨fun a ha => occs_within h2 ha, fun f hf e => names_within h1 hf (e ▸ hn')⟩
        · simp only [need]; omega
      · refine ih i j _ ?_ ?_ st
        · exact ⟨fun f hf e => names_within h1 hf (e ▸ ha),
          fun f hf e => names_within h2 hf (e ▸ hb)⟩
        · simp only [need]; omega
    | between me m1 m2 =>
      refine seqRun_some (fun t ht' st => ?_) st
      obtain ⟨a, ha, b, hb, _, rfl⟩ := mem_betweenTasks.1 ht'
      refine ih i j _ ?_ ?_ st
      · exact ⟨ht.1 a ha, ht.2 b hb⟩
      · simp only [need] at hn ⊢; omega
    | fieldsFrag m n me =>
      simp only [stepTask]
      split
      · exact ⟨_, rfl⟩
      · rename_i f hk
        obtain ⟨hf, rfl⟩ := knownFrag_some hk
        have h2 := ht.2 f hf rfl
        obtain ⟨j, rfl⟩ := within_pos h2
        simp only [need] at hn
        split
        · exact ⟨_, rfl⟩
        · obtain ⟨⟨b, s1⟩, hb⟩ := ih i j (.between me m (fragMap s f).occs)
            ⟨ht.1, fun b hb => occs_within h2 hb⟩ (by simp only [need]; omega) st
          obtain ⟨⟨c, s2⟩, hc⟩ := nexts_some (rec := runTask s d k) (m := m) (me := me)
            (ns := (fragMap s f).names) (fun n hn' st => ih i j (.fieldsFrag m n me)
              ⟨ht.1, fun g hg e => names_within h2 hg (e ▸ hn')⟩ (by simp only [need]; omega) st) s1
          exact ⟨(b || c, s2), by simp only [hb, hc]⟩
    | frags a b me =>
      simp only [stepTask]
      split
      · exact ⟨_, rfl⟩
      · split
        · exact ⟨_, rfl⟩
        · split
          · rename_i f g hf hg
            have ⟨hf, e1⟩ := knownFrag_some hf
            have ⟨hg, e2⟩ := knownFrag_some hg
            have h1 := ht.1 f hf e1
            have h2 := ht.2 g hg e2
            obtain ⟨i', hi⟩ := within_pos h1
            obtain ⟨j', hj⟩ := within_pos h2
            simp only [need] at hn
            rw [hi] at h1
            rw [hj] at h2
            refine seqRun_some (fun t ht' st => ?_) _
            simp only [List.mem_cons, List.mem_append, List.mem_map] at ht'
            rcases ht' with rfl | ⟨n, hn', rfl⟩ | ⟨n, hn', rfl⟩
            · refine ih i' j' _ ?_ ?_ st
              · exact ⟨fun a ha => occs_within h1 ha, fun b hb => occs_within h2 hb⟩
              · simp only [need]; omega
            · refine ih i j' _ ?_ ?_ st
              · exact ⟨ht.1, fun f hf e => names_within h2 hf (e ▸ hn')⟩
              · simp only [need]; omega
            · refine ih i' j _ ?_ ?_ st
              · exact ⟨fun f hf e => names_within h1 hf (e ▸ hn'), ht.2⟩
              · simp only [need]; omega
          · exact ⟨_, rfl⟩

theorem setTasks_ends {s : Schema} {d : Doc} {k : Nat} {ss : List Sel} (h : Within d k ss)
    {fuel : Nat} (hf : 6 * k + 4 ≤ fuel) (p : Option TypeDef) (st : OvSt) :
    ∃ r, seqRun (runTask s d fuel) (setTasks s p ss) st = some r := by
  obtain ⟨j, rfl⟩ := within_pos h
  refine seqRun_some (fun t ht st => ?_) st
  simp only [setTasks, List.mem_append] at ht
  rcases ht with ht | ht
  · obtain ⟨a, ha, b, hb, _, rfl⟩ := mem_withinTasks ht
    refine runTask_ends s d fuel j j _ ?_ ?_ st
    · exact ⟨occs_within h ha, occs_within h hb⟩
    · simp only [need]; omega
  · rcases mem_spreadTasks ht with ⟨n, hn, rfl⟩ | ⟨a, ha, b, hb, rfl⟩
    · refine runTask_ends s d fuel j j _ ?_ ?_ st
      · exact ⟨fun a ha => occs_within h ha,
        fun f hf e => names_within h hf (e ▸ hn)⟩
      · simp only [need]; omega
    · refine runTask_ends s d fuel j j _ ?_ ?_ st
      · exact ⟨fun f hf e => names_within h hf (e ▸ ha),
        fun f hf e => names_within h hf (e ▸ hb)⟩
      · simp only [need]; omega

theorem overlapFrom_ends {s : Schema} {d : Doc} {k fuel : Nat} (hf : 6 * k + 4 ≤ fuel) {es : Told}
    (h : ∀ c ss, (c, Ev.sels ss) ∈ es → Within d k ss) (cmp : List (Name × Name × Bool)) :
    ∃ r, overlapFrom s d fuel es cmp = some r := by
  induction es generalizing cmp with
  | nil => exact ⟨_, rfl⟩
  | cons e es ih =>
    obtain ⟨c, e⟩ := e
    have ih' := ih (fun c ss hm => h c ss (List.mem_cons_of_mem _ hm))
    by_cases he : ∃ ss, e = .sels ss
    · obtain ⟨ss, rfl⟩ := he
      obtain ⟨⟨b, st⟩, h1⟩ := setTasks_ends (s := s) (h c ss List.mem_cons_self) hf c.parent ⟨cmp, []⟩
      obtain ⟨r, h2⟩ := ih' st.compared
      exact ⟨b || r, by simp only [overlapFrom, h1, h2]⟩
    · obtain ⟨r, h2⟩ := ih' cmp
      cases e <;> first | exact ⟨r, h2⟩ | exact absurd ⟨_, rfl⟩ he

/-! ## Selection sets have a depth -/

theorem exists_max {α : Type} (l : List α) (P : Nat → α → Prop) (hm : ∀ a i j, i ≤ j → P i a → P j a)
    (h : ∀ a ∈ l, ∃ k, P k a) : ∃ k, ∀ a ∈ l, P k a := by
  induction l with
  | nil => exact ⟨0, by simp⟩
  | cons a l ih =>
    obtain ⟨k, hk⟩ := ih (fun b hb => h b (List.mem_cons_of_mem _ hb))
    obtain ⟨j, hj⟩ := h a List.mem_cons_self
    refine ⟨max j k, fun b hb => ?_⟩
    rcases List.mem_cons.1 hb with rfl | hb
    · exact hm _ _ _ (Nat.le_max_left _ _) hj
    · exact hm _ _ _ (Nat.le_max_right _ _) (hk b hb)

mutual
theorem within_sel (d : Doc) : ∀ x : Sel, (∀ f ∈ frags d, SpreadIn [x] f.name → ∃ k, Within d k f.sels) →
    ∃ k, Within d k [x]
  | .field al n args ds sub, h => by
    obtain ⟨k, hk⟩ := within_sels d sub (fun f hf ⟨ds', hi⟩ =>
      h f hf ⟨ds', .field (List.mem_singleton_self _) hi⟩)
    refine ⟨k + 1, fun y hy => ?_⟩
    rw [List.mem_singleton] at hy
    subst hy
    exact hk
  | .inline c ds sub, h => by
    obtain ⟨k, hk⟩ := within_sels d sub (fun f hf ⟨ds', hi⟩ =>
      h f hf ⟨ds', .inline (List.mem_singleton_self _) hi⟩)
    refine ⟨k + 1, fun y hy => ?_⟩
    rw [List.mem_singleton] at hy
    subst hy
    exact hk
  | .spread n ds, h => by
    obtain ⟨k, hk⟩ := exists_max (frags d) (fun k f => f.name = n → Within d k f.sels)
      (fun f i j hij hP e => (hP e).mono hij) (fun f hf => by
        by_cases e : f.name = n
        · obtain ⟨k, hk⟩ := h f hf ⟨ds, .here (by rw [e]; exact List.mem_singleton_self _)⟩
          exact ⟨k, fun _ => hk⟩
        · exact ⟨0, fun e' => absurd e' e⟩)
    refine ⟨k + 1, fun y hy => ?_⟩
    rw [List.mem_singleton] at hy
    subst hy
    exact hk
theorem within_sels (d : Doc) : ∀ ss : List Sel, (∀ f ∈ frags d, SpreadIn ss f.name →
    ∃ k, Within d k f.sels) → ∃ k, Within d k ss
  | [], _ => ⟨1, by simp [Within]⟩
  | x :: xs, h => by
    have up : ∀ (ys zs : List Sel) (y : Sel), (∀ z ∈ ys, z ∈ zs) → Inside y ys → Inside y zs := by
      intro ys zs y hs hi
      cases hi with
      | here hy => exact .here (hs _ hy)
      | field hy hi => exact .field (hs _ hy) hi
      | inline hy hi => exact .inline (hs _ hy) hi
    obtain ⟨i, hi⟩ := within_sel d x (fun f hf ⟨ds, hi⟩ => h f hf ⟨ds, up _ _ _ (by simp) hi⟩)
    obtain ⟨j, hj⟩ := within_sels d xs (fun f hf ⟨ds, hi⟩ => h f hf ⟨ds, up _ _ _
      (fun z hz => List.mem_cons_of_mem _ hz) hi⟩)
    obtain ⟨k, hk⟩ := within_pos (hi.mono (Nat.le_max_left i j))
    refine ⟨k + 1, fun y hy => ?_⟩
    rcases List.mem_cons.1 hy with rfl | hy
    · exact (hk ▸ hi.mono (Nat.le_max_left i j) : Within d (k + 1) [y]) _ List.mem_cons_self
    · exact (hk ▸ hj.mono (Nat.le_max_right i j) : Within d (k + 1) xs) _ hy
end

theorem Reaches.trans {d : Doc} {ss : List Sel} {f : Frag} {n : Name} (h : Reaches d ss f.name)
    (hf : f ∈ frags d) (h2 : Reaches d f.sels n) : Reaches d ss n := by
  generalize he : f.name = m at h
  induction h with
  | direct h => subst he; exact .through h hf h2
  | through h1 h3 _ ih => exact .through h1 h3 (ih he)

theorem frag_within {d : Doc} (h : NoCycle d) : ∀ f ∈ frags d, ∃ k, Within d k f.sels := by
  let R : {f // f ∈ frags d} → {f // f ∈ frags d} → Prop := fun g f => Reaches d f.1.sels g.1.name
  have : Finite {f // f ∈ frags d} := (List.finite_toSet (frags d)).to_subtype
  have : IsTrans _ R := ⟨fun a b c hab hbc => Reaches.trans (f := b.1) hbc b.2 hab⟩
  have : Std.Irrefl R := ⟨fun a ha => h a.1 a.2 ha⟩
  have wf : WellFounded R := Finite.wellFounded_of_trans_of_irrefl R
  have key : ∀ f : {f // f ∈ frags d}, ∃ k, Within d k f.1.sels := by
    intro f
    induction f using wf.induction with
    | _ f ih =>
      exact within_sels d f.1.sels (fun g hg hs => ih ⟨g, hg⟩ (.direct hs))
  exact fun f hf => key ⟨f, hf⟩

theorem doc_within {d : Doc} (h : NoCycle d) (ss : List Sel) : ∃ k, Within d k ss :=
  within_sels d ss (fun f hf _ => frag_within h f hf)

theorem overlapping_ends {s : Schema} {d : Doc} (h : NoCycle d) :
    ∃ k r, ∀ fuel, k ≤ fuel → overlapping s d fuel = some r := by
  obtain ⟨k, hk⟩ := exists_max (visit s d)
    (fun k e => match e.2 with | .sels ss => Within d k ss | _ => True)
    (fun e i j hij hP => by
      cases he : e.2 <;> simp only [he] at hP ⊢
      exact Within.mono hij hP)
    (fun e _ => by
      cases he : e.2 <;> simp only [exists_const]
      exact doc_within h _)
  obtain ⟨r, hr⟩ := overlapFrom_ends (s := s) (Nat.le_refl (6 * k + 4)) (es := visit s d)
    (fun c ss hm => hk _ hm) []
  exact ⟨6 * k + 4, r, fun fuel hf => overlapFrom_mono hf hr⟩

end Verif.Valid
