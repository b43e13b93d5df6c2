import Verif.Builder.Conds

/-!
# The shape of the plans

Plans for one response key are for different object types, guards are closed under subtypes, and the
height is bounded: none of this needs the operation to be valid.
-/

namespace Verif.Builder

open Verif.Projection
open Verif.Normalize (Item)

variable {S : Meta}

/-- Two plans for one key are for two object types. -/
def Apart (p q : Plan) : Prop := p.info.responseKey = q.info.responseKey →
  ∃ a b, p.info.guard = some (.exact a) ∧ q.info.guard = some (.exact b) ∧ a ≠ b

/-- With a type, the guard names its subtypes. -/
def Closed (S : Meta) (g : Option TypeCond) : Prop :=
  ∀ tc, g = some tc → ∀ A B, tc.Names A → OfType S B A → tc.Names B

inductive Stat (S : Meta) : Nat → Plan → Prop where
  | leaf (k : Nat) (i : PlanInfo) : Closed S i.guard → Stat S k (.leaf i)
  | node (k : Nat) (i : PlanInfo) (cs : List Plan) : Closed S i.guard → (∀ c ∈ cs, Stat S k c) →
      cs.Pairwise Apart → Stat S (k + 1) (.node i cs)

theorem Stat.mono {k l : Nat} (h : k ≤ l) : ∀ {p : Plan}, Stat S k p → Stat S l p := by
  intro p hp
  induction hp generalizing l with
  | leaf k i hc => exact .leaf l i hc
  | node k i cs hc _ hx ih =>
    obtain ⟨l, rfl⟩ : ∃ l', l = l' + 1 := ⟨l - 1, by omega⟩
    exact .node l i cs hc (fun c hcs => ih c hcs (by omega)) hx

theorem Stat.closed {k : Nat} {p : Plan} (h : Stat S k p) : Closed S p.info.guard := by
  cases h <;> assumption

theorem Stat.setGuard {k : Nat} {p : Plan} (h : Stat S k p) {g : TypeCond} (hg : Closed S (some g)) :
    Stat S k (setGuard g p) := by
  cases h with
  | leaf i hc => exact .leaf _ _ hg
  | node k i cs hc hcs hx => exact .node _ _ _ hg hcs hx

@[simp] theorem setGuard_key (g : TypeCond) (p : Plan) :
    (setGuard g p).info.responseKey = p.info.responseKey := by cases p <;> rfl

@[simp] theorem setGuard_name (g : TypeCond) (p : Plan) :
    (setGuard g p).info.fieldName = p.info.fieldName := by cases p <;> rfl

@[simp] theorem setGuard_guard (g : TypeCond) (p : Plan) : (setGuard g p).info.guard = some g := by
  cases p <;> rfl

@[simp] theorem setGuard_conditions (g : TypeCond) (p : Plan) :
    (setGuard g p).info.conditions = p.info.conditions := by cases p <;> rfl

@[simp] theorem setGuard_isTypename (g : TypeCond) (p : Plan) :
    (setGuard g p).info.isTypename = p.info.isTypename := by cases p <;> rfl

@[simp] theorem setGuard_kids (g : TypeCond) (p : Plan) : kids (setGuard g p) = kids p := by
  cases p <;> rfl

theorem mergeMatching_info (S : Meta) (k : Nat) (P : String) (e n : Plan) :
    (mergeMatching S k P e n).info = mergedInfo e.info n.info := by
  cases k <;> cases e <;> cases n <;> simp only [mergeMatching] <;> rfl

@[simp] theorem mergeMatching_guard (S : Meta) (k : Nat) (P : String) (e n : Plan) :
    (mergeMatching S k P e n).info.guard = e.info.guard := by rw [mergeMatching_info]; rfl

@[simp] theorem mergeMatching_key (S : Meta) (k : Nat) (P : String) (e n : Plan) :
    (mergeMatching S k P e n).info.responseKey = e.info.responseKey := by
  rw [mergeMatching_info]; rfl

@[simp] theorem mergeMatching_name (S : Meta) (k : Nat) (P : String) (e n : Plan) :
    (mergeMatching S k P e n).info.fieldName = e.info.fieldName := by
  rw [mergeMatching_info]; rfl

/-! ## Keyed variants -/

def NotEq (p q : Plan) : Prop := guardEq p.info.guard q.info.guard = false

structure VarOk (S : Meta) (k : Nat) (m : Variants) : Prop where
  keys : (m.map (·.1)).Nodup
  key : ∀ e ∈ m, ∀ v ∈ e.2, v.info.responseKey = e.1
  stat : ∀ e ∈ m, ∀ v ∈ e.2, Stat S k v
  apart : ∀ e ∈ m, e.2.Pairwise NotEq

theorem VarOk.nil (k : Nat) : VarOk S k [] :=
  ⟨by simp, by simp, by simp, by simp⟩

theorem VarOk.tail {k : Nat} {e : String × List Plan} {m : Variants} (h : VarOk S k (e :: m)) :
    VarOk S k m :=
  ⟨(List.nodup_cons.1 (by simpa using h.keys)).2, fun e he => h.key e (by simp [he]),
    fun e he => h.stat e (by simp [he]), fun e he => h.apart e (by simp [he])⟩

/-- How `merge_matching` is used. -/
structure Keeps (S : Meta) (k : Nat) (mm : Plan → Plan → Plan) : Prop where
  guard : ∀ e n, (mm e n).info.guard = e.info.guard
  key : ∀ e n, (mm e n).info.responseKey = e.info.responseKey
  stat : ∀ e n, Stat S k e → Stat S k n → Stat S k (mm e n)

theorem mem_mergeVariant {mm : Plan → Plan → Plan} {p : Plan} : ∀ {vs : List Plan} {x : Plan},
    x ∈ mergeVariant mm p vs → x ∈ vs ∨ x = p ∨ ∃ v ∈ vs, x = mm v p := by
  intro vs
  induction vs with
  | nil => intro x hx; simp [mergeVariant] at hx; simp [hx]
  | cons v vs ih =>
    intro x hx
    simp only [mergeVariant] at hx
    split at hx
    · rcases List.mem_cons.1 hx with rfl | hx
      · exact Or.inr (Or.inr ⟨v, by simp, rfl⟩)
      · simp [hx]
    · rcases List.mem_cons.1 hx with rfl | hx
      · simp
      · rcases ih hx with h | h | ⟨w, hw, h⟩
        · simp [h]
        · simp [h]
        · exact Or.inr (Or.inr ⟨w, by simp [hw], h⟩)

theorem mergeVariant_apart {k : Nat} {mm : Plan → Plan → Plan} (hmm : Keeps S k mm) {p : Plan} :
    ∀ {vs : List Plan}, vs.Pairwise NotEq → (mergeVariant mm p vs).Pairwise NotEq := by
  intro vs
  induction vs with
  | nil => intro _; simp [mergeVariant]
  | cons v vs ih =>
    intro h
    obtain ⟨h1, h2⟩ := List.pairwise_cons.1 h
    simp only [mergeVariant]
    split
    · refine List.pairwise_cons.2 ⟨?_, h2⟩
      intro x hx
      have := h1 x hx
      simpa [NotEq, hmm.guard] using this
    · rename_i hne
      refine List.pairwise_cons.2 ⟨?_, ih h2⟩
      intro x hx
      rcases mem_mergeVariant hx with h | rfl | ⟨w, hw, rfl⟩
      · exact h1 x h
      · simpa [NotEq] using hne
      · have := h1 w hw
        simpa [NotEq, hmm.guard] using this

theorem mergePlan_keys {mm : Plan → Plan → Plan} {p : Plan} : ∀ {m : Variants} {x : String},
    x ∈ (mergePlan mm p m).map (·.1) → x ∈ m.map (·.1) ∨ x = p.info.responseKey := by
  intro m
  induction m with
  | nil => intro x hx; simpa [mergePlan] using hx
  | cons e m ih =>
    obtain ⟨k, vs⟩ := e
    intro x hx
    simp only [mergePlan] at hx
    split at hx
    · simpa using Or.inl (by simpa using hx)
    · simp only [List.map_cons, List.mem_cons] at hx ⊢
      rcases hx with rfl | hx
      · simp
      · rcases ih hx with h | h
        · exact Or.inl (Or.inr h)
        · exact Or.inr h

theorem mergePlan_ok {k : Nat} {mm : Plan → Plan → Plan} (hmm : Keeps S k mm) {p : Plan}
    (hp : Stat S k p) : ∀ {m : Variants}, VarOk S k m → VarOk S k (mergePlan mm p m) := by
  intro m
  induction m with
  | nil => intro _; exact ⟨by simp [mergePlan], by simp [mergePlan], by simpa [mergePlan] using hp, by simp [mergePlan]⟩
  | cons e m ih =>
    obtain ⟨key, vs⟩ := e
    intro h
    simp only [mergePlan]
    split
    · rename_i hk
      refine ⟨by simpa using h.keys, ?_, ?_, ?_⟩
      · intro e he v hv
        rcases List.mem_cons.1 he with rfl | he
        · rcases mem_mergeVariant hv with h' | rfl | ⟨w, hw, rfl⟩
          · exact h.key (key, vs) (by simp) v h'
          · exact hk.symm
          · rw [hmm.key]; exact h.key (key, vs) (by simp) w hw
        · exact h.key e (by simp [he]) v hv
      · intro e he v hv
        rcases List.mem_cons.1 he with rfl | he
        · rcases mem_mergeVariant hv with h' | rfl | ⟨w, hw, rfl⟩
          · exact h.stat (key, vs) (by simp) v h'
          · exact hp
          · exact hmm.stat _ _ (h.stat (key, vs) (by simp) w hw) hp
        · exact h.stat e (by simp [he]) v hv
      · intro e he
        rcases List.mem_cons.1 he with rfl | he
        · exact mergeVariant_apart hmm (h.apart (key, vs) (by simp))
        · exact h.apart e (by simp [he])
    · rename_i hk
      have ih := ih h.tail
      refine ⟨?_, ?_, ?_, ?_⟩
      · have h' : (key :: m.map (·.1)).Nodup := by simpa using h.keys
        simp only [List.map_cons]
        refine List.nodup_cons.2 ⟨?_, ih.keys⟩
        intro hx
        rcases mergePlan_keys hx with h1 | h1
        · exact (List.nodup_cons.1 h').1 h1
        · exact hk h1
      · intro e he
        rcases List.mem_cons.1 he with rfl | he
        · exact h.key _ (by simp)
        · exact ih.key e he
      · intro e he
        rcases List.mem_cons.1 he with rfl | he
        · exact h.stat _ (by simp)
        · exact ih.stat e he
      · intro e he
        rcases List.mem_cons.1 he with rfl | he
        · exact h.apart _ (by simp)
        · exact ih.apart e he

theorem foldPlan_ok {k : Nat} {mm : Plan → Plan → Plan} (hmm : Keeps S k mm) :
    ∀ {ps : List Plan}, (∀ p ∈ ps, Stat S k p) → ∀ {m : Variants}, VarOk S k m →
      VarOk S k (ps.foldl (fun m p => mergePlan mm p m) m) := by
  intro ps
  induction ps with
  | nil => intro _ m hm; exact hm
  | cons p ps ih =>
    intro hp m hm
    exact ih (fun q hq => hp q (by simp [hq])) (mergePlan_ok hmm (hp p (by simp)) hm)

/-! ## Grouping -/

theorem pushVariant_keys {p : Plan} : ∀ {m : Variants} {x : String},
    x ∈ (pushVariant p m).map (·.1) → x ∈ m.map (·.1) ∨ x = p.info.responseKey := by
  intro m
  induction m with
  | nil => intro x hx; simpa [pushVariant] using hx
  | cons e m ih =>
    obtain ⟨k, vs⟩ := e
    intro x hx
    simp only [pushVariant] at hx
    split at hx
    · simpa using Or.inl (by simpa using hx)
    · simp only [List.map_cons, List.mem_cons] at hx ⊢
      rcases hx with rfl | hx
      · simp
      · rcases ih hx with h | h
        · exact Or.inl (Or.inr h)
        · exact Or.inr h

theorem apart_notEq {p q : Plan} (h : Apart p q)
    (hk : p.info.responseKey = q.info.responseKey) : NotEq p q := by
  obtain ⟨a, b, hp, hq, hab⟩ := h hk
  simp [NotEq, hp, hq, guardEq, TypeCond.eq, hab]

theorem pushVariant_ok {k : Nat} {p : Plan} (hp : Stat S k p) : ∀ {m : Variants}, VarOk S k m →
    (∀ e ∈ m, ∀ v ∈ e.2, Apart v p) → VarOk S k (pushVariant p m) := by
  intro m
  induction m with
  | nil => intro _ _; exact ⟨by simp [pushVariant], by simp [pushVariant], by simpa [pushVariant] using hp, by simp [pushVariant]⟩
  | cons e m ih =>
    obtain ⟨key, vs⟩ := e
    intro h ha
    simp only [pushVariant]
    split
    · rename_i hk
      refine ⟨by simpa using h.keys, ?_, ?_, ?_⟩
      · intro e he v hv
        rcases List.mem_cons.1 he with rfl | he
        · rcases List.mem_append.1 hv with h' | h'
          · exact h.key (key, vs) (by simp) v h'
          · simp only [List.mem_singleton] at h'; subst h'; exact hk.symm
        · exact h.key e (by simp [he]) v hv
      · intro e he v hv
        rcases List.mem_cons.1 he with rfl | he
        · rcases List.mem_append.1 hv with h' | h'
          · exact h.stat (key, vs) (by simp) v h'
          · simp only [List.mem_singleton] at h'; subst h'; exact hp
        · exact h.stat e (by simp [he]) v hv
      · intro e he
        rcases List.mem_cons.1 he with rfl | he
        · refine List.pairwise_append.2 ⟨h.apart (key, vs) (by simp), by simp, ?_⟩
          intro x hx y hy
          simp only [List.mem_singleton] at hy; subst hy
          refine apart_notEq (ha (key, vs) (by simp) x hx) ?_
          rw [h.key (key, vs) (by simp) x hx]; exact hk
        · exact h.apart e (by simp [he])
    · rename_i hk
      have ih := ih h.tail (fun e he => ha e (by simp [he]))
      refine ⟨?_, ?_, ?_, ?_⟩
      · have h' : (key :: m.map (·.1)).Nodup := by simpa using h.keys
        simp only [List.map_cons]
        refine List.nodup_cons.2 ⟨?_, ih.keys⟩
        intro hx
        rcases pushVariant_keys hx with h1 | h1
        · exact (List.nodup_cons.1 h').1 h1
        · exact hk h1
      · intro e he
        rcases List.mem_cons.1 he with rfl | he
        · exact h.key _ (by simp)
        · exact ih.key e he
      · intro e he
        rcases List.mem_cons.1 he with rfl | he
        · exact h.stat _ (by simp)
        · exact ih.stat e he
      · intro e he
        rcases List.mem_cons.1 he with rfl | he
        · exact h.apart _ (by simp)
        · exact ih.apart e he

/-- All plans of a map. -/
def flat (m : Variants) : List Plan := m.flatMap (·.2)

theorem mem_flat {m : Variants} {x : Plan} : x ∈ flat m ↔ ∃ e ∈ m, x ∈ e.2 := by
  simp [flat]

theorem mem_pushVariant {p x : Plan} : ∀ {m : Variants},
    x ∈ flat (pushVariant p m) ↔ x ∈ flat m ∨ x = p := by
  intro m
  induction m with
  | nil => simp [pushVariant, flat]
  | cons e m ih =>
    obtain ⟨k, vs⟩ := e
    simp only [pushVariant]
    split
    · simp only [flat, List.flatMap_cons, List.mem_append, List.mem_singleton]; grind
    · have : flat ((k, vs) :: pushVariant p m) = vs ++ flat (pushVariant p m) := by
        simp [flat]
      rw [this, List.mem_append, ih]
      simp [flat, or_assoc]

theorem foldPush {k : Nat} : ∀ {ps : List Plan}, (∀ p ∈ ps, Stat S k p) → ps.Pairwise Apart →
    ∀ {m : Variants}, VarOk S k m → (∀ v ∈ flat m, ∀ p ∈ ps, Apart v p) →
      VarOk S k (ps.foldl (fun m p => pushVariant p m) m) := by
  intro ps
  induction ps with
  | nil => intro _ _ m hm _; exact hm
  | cons p ps ih =>
    intro hs ha m hm hmp
    obtain ⟨ha1, ha2⟩ := List.pairwise_cons.1 ha
    refine ih (fun q hq => hs q (by simp [hq])) ha2
      (pushVariant_ok (hs p (by simp)) hm
        (fun e he v hv => hmp v (mem_flat.2 ⟨e, he, hv⟩) p (by simp))) ?_
    intro v hv q hq
    rcases mem_pushVariant.1 hv with h | rfl
    · exact hmp v h q (by simp [hq])
    · exact ha1 q hq

theorem group_ok {k : Nat} {ps : List Plan} (hs : ∀ p ∈ ps, Stat S k p) (ha : ps.Pairwise Apart) :
    VarOk S k (group ps) :=
  foldPush hs ha (VarOk.nil k) (by simp [flat])

theorem mem_foldPush {x : Plan} : ∀ {ps : List Plan} {m : Variants},
    x ∈ flat (ps.foldl (fun m p => pushVariant p m) m) ↔ x ∈ flat m ∨ x ∈ ps := by
  intro ps
  induction ps with
  | nil => intro m; simp
  | cons p ps ih => intro m; simp only [List.foldl_cons, ih, mem_pushVariant, List.mem_cons, or_assoc]

theorem mem_group {x : Plan} {ps : List Plan} : x ∈ flat (group ps) ↔ x ∈ ps := by
  rw [group, mem_foldPush]; simp [flat]

/-! ## Resolving -/

theorem mem_insertKey {α : Type} (key : α → String) (x y : α) : ∀ (l : List α),
    y ∈ Normalize.insertKey key x l ↔ y = x ∨ y ∈ l := by
  intro l
  induction l with
  | nil => simp [Normalize.insertKey]
  | cons z l ih =>
    simp only [Normalize.insertKey]
    split
    · simp
    · simp only [List.mem_cons, ih]; grind

theorem nodup_insertKey {α : Type} (key : α → String) (x : α) : ∀ (l : List α), l.Nodup → x ∉ l →
    (Normalize.insertKey key x l).Nodup := by
  intro l
  induction l with
  | nil => simp [Normalize.insertKey]
  | cons z l ih =>
    intro h hx
    obtain ⟨h1, h2⟩ := List.nodup_cons.1 h
    simp only [Normalize.insertKey]
    split
    · exact List.nodup_cons.2 ⟨hx, h⟩
    · refine List.nodup_cons.2 ⟨?_, ih h2 (by simp at hx; exact hx.2)⟩
      rw [mem_insertKey]
      rintro (rfl | h3)
      · simp at hx
      · exact h1 h3

theorem sortKey_spec {α : Type} (key : α → String) : ∀ (l acc : List α), acc.Nodup → l.Nodup →
    (∀ x ∈ l, x ∉ acc) →
    (l.foldl (fun acc x => Normalize.insertKey key x acc) acc).Nodup ∧
    ∀ x, x ∈ l.foldl (fun acc x => Normalize.insertKey key x acc) acc ↔ x ∈ acc ∨ x ∈ l := by
  intro l
  induction l with
  | nil => intro acc h _ _; simp [h]
  | cons y l ih =>
    intro acc h hl hd
    obtain ⟨h1, h2⟩ := List.nodup_cons.1 hl
    have := ih (Normalize.insertKey key y acc)
      (nodup_insertKey key y acc h (hd y (by simp))) h2 (by
        intro x hx hm
        rcases (mem_insertKey key y x acc).1 hm with rfl | hm
        · exact h1 hx
        · exact hd x (by simp [hx]) hm)
    refine ⟨this.1, fun x => ?_⟩
    simp only [List.foldl_cons, this.2 x, mem_insertKey, List.mem_cons]
    grind

theorem mem_possibleSet (T C : String) : T ∈ S.possibleSet C ↔ OfType S T C := by
  simp only [Meta.possibleSet, mem_setInsert, OfType]
  cases h : S.possible.lookup C with
  | none => simp
  | some l => simp [or_comm]

theorem possibleSet_nodup (hS : MetaOk S) (C : String) : (S.possibleSet C).Nodup := by
  have h : ((S.possible.lookup C).getD []).Nodup := by
    cases h : S.possible.lookup C with
    | none => simp
    | some l => exact hS.sets C l h
  unfold Meta.possibleSet setInsert
  split
  · exact h
  · rename_i hc
    refine List.nodup_append.2 ⟨h, by simp, ?_⟩
    intro a ha b hb
    simp only [List.mem_singleton] at hb
    subst hb
    rintro rfl
    simp [ha] at hc

theorem concrete_nodup (hS : MetaOk S) (P : String) : (concreteTypes S P).Nodup :=
  (sortKey_spec id _ [] (by simp) ((possibleSet_nodup hS P).sublist List.filter_sublist)
    (by simp)).1

theorem mem_concrete (hS : MetaOk S) (P T : String) : T ∈ concreteTypes S P ↔ Obj S P T := by
  rw [concreteTypes, Normalize.sortKey,
    (sortKey_spec id _ [] (by simp) ((possibleSet_nodup hS P).sublist List.filter_sublist)
      (by simp)).2 T]
  simp [mem_possibleSet, Obj, and_comm]

theorem closed_exact (hS : MetaOk S) {t : String} (ht : t ∈ S.objects) :
    Closed S (some (.exact t)) := by
  intro tc htc A B hA hB
  cases htc
  have : A = t := hA
  subst this
  rcases hB with rfl | ⟨l, hl, _⟩
  · rfl
  · rw [hS.object _ ht] at hl; cases hl

theorem mergeForTypeFrom_ok {k : Nat} {mm : Plan → Plan → Plan} (hmm : Keeps S k mm) {t key : String}
    (ht : Closed S (some (.exact t))) : ∀ {vs : List Plan} {acc : Option Plan} {r : Plan},
    (∀ v ∈ vs, Stat S k v ∧ v.info.responseKey = key) →
    (∀ e, acc = some e → Stat S k e ∧ e.info.responseKey = key ∧
      e.info.guard = some (.exact t)) →
    mergeForTypeFrom mm t acc vs = some r →
    Stat S k r ∧ r.info.responseKey = key ∧ r.info.guard = some (.exact t) := by
  intro vs
  induction vs with
  | nil => intro acc r _ ha h; exact ha r h
  | cons v vs ih =>
    intro acc r hv ha h
    have hv' : ∀ w ∈ vs, Stat S k w ∧ w.info.responseKey = key := fun w hw => hv w (by simp [hw])
    simp only [mergeForTypeFrom] at h
    obtain ⟨hs, hk⟩ := hv v (by simp)
    split at h
    · cases acc with
      | none =>
        refine ih hv' ?_ h
        intro e he
        cases he
        exact ⟨hs.setGuard ht, by simpa using hk, by simp⟩
      | some e =>
        obtain ⟨h1, h2, h3⟩ := ha e rfl
        refine ih hv' ?_ h
        intro e' he'
        cases he'
        exact ⟨hmm.stat _ _ h1 (hs.setGuard ht), by rw [hmm.key]; exact h2,
          by rw [hmm.guard]; exact h3⟩
    · exact ih hv' ha h

theorem resolveKey_ok (hS : MetaOk S) {k : Nat} {mm : Plan → Plan → Plan} (hmm : Keeps S k mm)
    {P key : String} {vs : List Plan} (hv : ∀ v ∈ vs, Stat S k v ∧ v.info.responseKey = key)
    (ha : vs.Pairwise NotEq) :
    (∀ p ∈ resolveKey S mm P vs, Stat S k p ∧ p.info.responseKey = key) ∧
      (resolveKey S mm P vs).Pairwise Apart := by
  unfold resolveKey
  split
  · rename_i hx
    refine ⟨hv, ?_⟩
    simp only [alreadyExclusive, Bool.or_eq_true, beq_iff_eq, List.all_eq_true] at hx
    rcases hx with hx | hx
    · match vs, hx with
      | [v], _ => simp
    · refine ha.imp_of_mem ?_
      intro p q hp hq hpq _
      have h1 := hx p hp
      have h2 := hx q hq
      unfold isExact at h1 h2
      unfold NotEq at hpq
      revert h1 h2 hpq
      cases p.info.guard with
      | none => simp
      | some g => cases g with
        | oneOf l => simp
        | exact a =>
          cases q.info.guard with
          | none => simp
          | some g' => cases g' with
            | oneOf l => simp
            | exact b =>
              intro h _ _
              refine ⟨a, b, rfl, rfl, ?_⟩
              rintro rfl
              have : (a == a) = false := h
              simp at this
  · have each : ∀ t ∈ concreteTypes S P, ∀ p, mergeForType mm t vs = some p →
        Stat S k p ∧ p.info.responseKey = key ∧ p.info.guard = some (.exact t) := by
      intro t ht p hp
      refine mergeForTypeFrom_ok hmm (closed_exact hS ((mem_concrete hS P t).1 ht).1) hv ?_ hp
      intro e he; cases he
    refine ⟨?_, ?_⟩
    · intro p hp
      obtain ⟨t, ht, h⟩ := List.mem_filterMap.1 hp
      have := each t ht p h
      exact ⟨this.1, this.2.1⟩
    · refine List.pairwise_filterMap.2 ?_
      refine (concrete_nodup hS P).imp_of_mem ?_
      intro t u ht hu htu p hp q hq _
      exact ⟨t, u, (each t ht p hp).2.2, (each u hu q hq).2.2, htu⟩

theorem resolve_ok (hS : MetaOk S) {k : Nat} {mm : Plan → Plan → Plan} (hmm : Keeps S k mm)
    {P : String} {m : Variants} (hm : VarOk S k m) :
    (∀ p ∈ resolve S mm P m, Stat S k p) ∧ (resolve S mm P m).Pairwise Apart := by
  induction m with
  | nil => simp [resolve]
  | cons e m ih =>
    obtain ⟨h1, h2⟩ := ih hm.tail
    obtain ⟨h3, h4⟩ := resolveKey_ok hS hmm (P := P) (vs := e.2) (key := e.1)
      (fun v hv => ⟨hm.stat e (by simp) v hv, hm.key e (by simp) v hv⟩) (hm.apart e (by simp))
    have hr : resolve S mm P (e :: m) = resolveKey S mm P e.2 ++ resolve S mm P m := by
      simp [resolve]
    have hnd := List.nodup_cons.1 (show (e.1 :: m.map (·.1)).Nodup by simpa using hm.keys)
    refine ⟨?_, ?_⟩
    · intro p hp
      rw [hr] at hp
      rcases List.mem_append.1 hp with h | h
      · exact (h3 p h).1
      · exact h1 p h
    · rw [hr]
      refine List.pairwise_append.2 ⟨h4, h2, ?_⟩
      intro p hp q hq hpq
      exfalso
      obtain ⟨e', he', hq'⟩ := List.mem_flatMap.1 hq
      obtain ⟨h5, _⟩ := resolveKey_ok hS hmm (P := P) (vs := e'.2) (key := e'.1)
        (fun v hv => ⟨hm.stat e' (by simp [he']) v hv, hm.key e' (by simp [he']) v hv⟩)
        (hm.apart e' (by simp [he']))
      rw [(h3 p hp).2, (h5 q hq').2] at hpq
      exact hnd.1 (List.mem_map.2 ⟨e', he', hpq.symm⟩)

/-! ## Merging -/

theorem mergeMatching_stat (hS : MetaOk S) : ∀ (k d : Nat) (P : String) (e n : Plan), d ≤ k →
    Stat S d e → Stat S d n → Stat S d (mergeMatching S k P e n) := by
  intro k
  induction k with
  | zero =>
    intro d P e n hd he hn
    cases he with
    | leaf _ i hi =>
      cases hn with
      | leaf _ j hj => simp only [mergeMatching]; exact .leaf _ _ hi
      | node _ j ns hj hns hx => omega
    | node _ i es hi hes hx => omega
  | succ k ih =>
    intro d P e n hd he hn
    cases he with
    | leaf _ i hi =>
      cases hn with
      | leaf _ j hj => simp only [mergeMatching]; exact .leaf _ _ hi
      | node _ j ns hj hns hx => simp only [mergeMatching]; exact .node _ _ _ hi hns hx
    | node d i es hi hes hx =>
      cases hn with
      | leaf _ j hj => simp only [mergeMatching]; exact .node _ _ _ hi hes hx
      | node _ j ns hj hns hx' =>
        simp only [mergeMatching]
        have hk : ∀ c, Keeps S d (mergeMatching S k c) := fun c =>
          ⟨fun e n => by simp, fun e n => by simp, fun e n he hn => ih d c e n (by omega) he hn⟩
        obtain ⟨h1, h2⟩ := resolve_ok hS (P := (fieldOutputType S P i.guard i.fieldName).getD P)
          (hk ((fieldOutputType S P i.guard i.fieldName).getD P))
          (foldPlan_ok (hk ((fieldOutputType S P i.guard i.fieldName).getD P)) hns
            (group_ok hes hx))
        exact .node _ _ _ hi h1 h2

theorem keeps (hS : MetaOk S) {k d : Nat} (hd : d ≤ k) (P : String) :
    Keeps S d (mergeMatching S k P) :=
  ⟨fun e n => by simp, fun e n => by simp, fun e n he hn => mergeMatching_stat hS k d P e n hd he hn⟩

end Verif.Builder
