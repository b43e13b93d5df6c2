import Verif.Introspection.Model

namespace Verif.Introspection
open Verif.Keys (Op VarDef Kind)

/-! ## Specification -/

/-- A step from a selection set to what is below it: a field, with its alias, arguments and
directives, a fragment with its condition and directives, or a spread. -/
inductive Place where
  | field (f : FieldInfo)
  | frag (g : FragInfo)
  | spread (n : String)

/-- Everything an operation selects, in order: the ways to its leaves. A field with no selections is
a leaf, and so is a spread. -/
def leaves : List Sel → List (List Place)
  | [] => []
  | .field f [] :: rest => [.field f] :: leaves rest
  | .field f (x :: xs) :: rest => (leaves (x :: xs)).map (.field f :: ·) ++ leaves rest
  | .frag g s :: rest => (leaves s).map (.frag g :: ·) ++ leaves rest
  | .spread n :: rest => [.spread n] :: leaves rest

/-- A field of the introspection system other than `__typename`, according to its name. -/
def Reserved (name : String) : Prop :=
  (∃ rest, name.toList = '_' :: '_' :: rest) ∧ name ≠ "__typename"

/-- The way leads through an introspection field. -/
def Router (way : List Place) : Prop := ∃ f, .field f ∈ way ∧ Reserved f.name

/-- The selections contain an introspection field. -/
inductive Asks : List Sel → Prop
  | here (f : FieldInfo) (s rest : List Sel) (h : Reserved f.name) : Asks (.field f s :: rest)
  | field (f : FieldInfo) (s rest : List Sel) (h : Asks s) : Asks (.field f s :: rest)
  | frag (g : FragInfo) (s rest : List Sel) (h : Asks s) : Asks (.frag g s :: rest)
  | later (x : Sel) (rest : List Sel) (h : Asks rest) : Asks (x :: rest)

/-! ## Lemmas -/

theorem isIntro_iff (n : String) : isIntro n = true ↔ Reserved n := by
  simp only [isIntro, Reserved, Bool.and_eq_true, bne_iff_ne, ne_eq]
  apply and_congr_left'
  generalize n.toList = l
  match l with
  | [] => simp [List.isPrefixOf]
  | [a] => simp [List.isPrefixOf]
  | a :: b :: r =>
    simp only [List.isPrefixOf, Bool.and_eq_true, beq_iff_eq, and_true, List.cons.injEq]
    constructor
    · rintro ⟨rfl, rfl⟩; exact ⟨r, rfl, rfl, rfl⟩
    · rintro ⟨_, rfl, rfl, _⟩; exact ⟨rfl, rfl⟩

instance (n : String) : Decidable (Reserved n) := decidable_of_iff _ (isIntro_iff n)

/-- Does a way lead through an introspection field? -/
def routed : List Place → Bool
  | [] => false
  | .field f :: rest => isIntro f.name || routed rest
  | _ :: rest => routed rest

theorem routed_iff (way : List Place) : routed way = true ↔ Router way := by
  induction way with
  | nil => simp [routed, Router]
  | cons p rest ih =>
    cases p with
    | field f =>
      simp only [routed, Bool.or_eq_true, ih, isIntro_iff, Router, List.mem_cons, Place.field.injEq]
      constructor
      · rintro (h | ⟨g, hg, h⟩)
        · exact ⟨f, .inl rfl, h⟩
        · exact ⟨g, .inr hg, h⟩
      · rintro ⟨g, rfl | hg, h⟩
        · exact .inl h
        · exact .inr ⟨g, hg, h⟩
    | frag g => simp [routed, ih, Router]
    | spread n => simp [routed, ih, Router]

instance (way : List Place) : Decidable (Router way) := decidable_of_iff _ (routed_iff way)

theorem leaves_field_ne (f : FieldInfo) (s rest : List Sel) (h : s ≠ []) :
    leaves (.field f s :: rest) = (leaves s).map (.field f :: ·) ++ leaves rest := by
  cases s with
  | nil => exact absurd rfl h
  | cons => simp [leaves]

theorem filter_map_field {f : FieldInfo} (h : isIntro f.name = false) (p : Bool) (l : List (List Place)) :
    (l.map (.field f :: ·)).filter (fun w => routed w == p) =
      (l.filter fun w => routed w == p).map (.field f :: ·) := by
  rw [List.filter_map]
  congr 1
  apply List.filter_congr
  intro w _
  simp [routed, h]

theorem filter_map_frag (g : FragInfo) (p : Bool) (l : List (List Place)) :
    (l.map (.frag g :: ·)).filter (fun w => routed w == p) =
      (l.filter fun w => routed w == p).map (.frag g :: ·) := by
  rw [List.filter_map]
  congr 1

/-- A part that is empty has nothing to select. -/
theorem partition_leaves (s : List Sel) :
    leaves (partition s).1 = (leaves s).filter (fun w => routed w == false) ∧
      leaves (partition s).2 = (leaves s).filter (fun w => routed w == true) := by
  induction s using Sels.ind with
  | nil => simp [partition, leaves]
  | field f s rest ihs ihr =>
    simp only [partition]
    cases hi : isIntro f.name with
    | true =>
      simp only [if_true]
      have hall : ∀ l : List (List Place), (l.map (.field f :: ·)).filter (fun w => routed w == false) = [] ∧
          (l.map (.field f :: ·)).filter (fun w => routed w == true) = l.map (.field f :: ·) := by
        intro l
        constructor
        · rw [List.filter_eq_nil_iff]
          intro w hw
          obtain ⟨v, _, rfl⟩ := List.mem_map.mp hw
          simp [routed, hi]
        · rw [List.filter_eq_self]
          intro w hw
          obtain ⟨v, _, rfl⟩ := List.mem_map.mp hw
          simp [routed, hi]
      cases s with
      | nil =>
        constructor
        · rw [ihr.1]; simp [leaves, routed, hi]
        · simp only [leaves]; rw [ihr.2]; simp [routed, hi]
      | cons x xs =>
        rw [leaves_field_ne _ _ _ (by simp)]
        rw [List.filter_append, List.filter_append, (hall _).1, (hall _).2, List.nil_append]
        refine ⟨ihr.1, ?_⟩
        rw [leaves_field_ne _ _ _ (by simp), ihr.2]
    | false =>
      simp only [Bool.false_eq_true, if_false]
      cases s with
      | nil =>
        simp only [partition, List.isEmpty_nil, Bool.true_or, if_true, leaves]
        constructor
        · rw [ihr.1]; simp [routed, hi]
        · rw [ihr.2]; simp [routed, hi]
      | cons x xs =>
        rw [leaves_field_ne _ _ _ (by simp), List.filter_append, List.filter_append,
          filter_map_field hi, filter_map_field hi, ← ihs.1, ← ihs.2, ← ihr.1, ← ihr.2]
        generalize partition (x :: xs) = q
        generalize partition rest = p
        obtain ⟨q1, q2⟩ := q
        constructor
        · cases q1 with
          | nil => simp [leaves]
          | cons a b =>
            simp only [List.isEmpty_cons, Bool.not_false, Bool.or_true, if_true]
            rw [leaves_field_ne _ _ _ (by simp)]
        · cases q2 with
          | nil => simp [leaves]
          | cons a b =>
            simp only [List.isEmpty_cons, Bool.false_eq_true, if_false]
            rw [leaves_field_ne _ _ _ (by simp)]
  | frag g s rest ihs ihr =>
    simp only [partition, leaves]
    rw [List.filter_append, List.filter_append, filter_map_frag, filter_map_frag, ← ihs.1, ← ihs.2,
      ← ihr.1, ← ihr.2]
    generalize partition s = q
    obtain ⟨q1, q2⟩ := q
    constructor
    · cases q1 <;> simp [leaves]
    · cases q2 <;> simp [leaves]
  | spread n rest ih =>
    simp only [partition, leaves, List.filter_cons]
    constructor
    · rw [ih.1]; simp [routed]
    · rw [ih.2]; simp [routed]

theorem partition_asks (s : List Sel) : (partition s).2 ≠ [] ↔ Asks s := by
  have inv : ∀ (x : Sel) (rest : List Sel), Asks (x :: rest) →
      (∃ f s, x = .field f s ∧ (Reserved f.name ∨ Asks s)) ∨ (∃ g s, x = .frag g s ∧ Asks s) ∨ Asks rest := by
    intro x rest h
    cases h with
    | here f s _ h => exact .inl ⟨f, s, rfl, .inl h⟩
    | field f s _ h => exact .inl ⟨f, s, rfl, .inr h⟩
    | frag g s _ h => exact .inr (.inl ⟨g, s, rfl, h⟩)
    | later _ _ h => exact .inr (.inr h)
  induction s using Sels.ind with
  | nil =>
    simp only [partition, ne_eq, not_true_eq_false, false_iff]
    intro h; cases h
  | field f s rest ihs ihr =>
    simp only [partition]
    cases hi : isIntro f.name with
    | true => simp only [if_true]; exact ⟨fun _ => .here f s rest ((isIntro_iff _).mp hi), fun _ => by simp⟩
    | false =>
      simp only [Bool.false_eq_true, if_false]
      have hn : ¬ Reserved f.name := fun h => by rw [(isIntro_iff _).mpr h] at hi; cases hi
      cases hq : (partition s).2 with
      | nil =>
        simp only [List.isEmpty_nil, if_true]
        refine ihr.trans ⟨fun h => .later _ _ h, fun h => ?_⟩
        rcases inv _ _ h with ⟨f', s', he, h⟩ | ⟨_, _, he, _⟩ | h
        · cases he
          rcases h with h | h
          · exact absurd h hn
          · exact absurd hq (ihs.mpr h)
        · cases he
        · exact h
      | cons a b =>
        simp only [List.isEmpty_cons, Bool.false_eq_true, if_false]
        exact ⟨fun _ => .field f s rest (ihs.mp (by simp [hq])), fun _ => by simp⟩
  | frag g s rest ihs ihr =>
    simp only [partition]
    cases hq : (partition s).2 with
    | nil =>
      simp only [List.isEmpty_nil, if_true]
      refine ihr.trans ⟨fun h => .later _ _ h, fun h => ?_⟩
      rcases inv _ _ h with ⟨_, _, he, _⟩ | ⟨g', s', he, h⟩ | h
      · cases he
      · cases he; exact absurd hq (ihs.mpr h)
      · exact h
    | cons a b =>
      simp only [List.isEmpty_cons, Bool.false_eq_true, if_false]
      exact ⟨fun _ => .frag g s rest (ihs.mp (by simp [hq])), fun _ => by simp⟩
  | spread n rest ih =>
    simp only [partition]
    refine ih.trans ⟨fun h => .later _ _ h, fun h => ?_⟩
    rcases inv _ _ h with ⟨_, _, he, _⟩ | ⟨_, _, he, _⟩ | h
    · cases he
    · cases he
    · exact h

/-! ## C40 -/

/-- **C40** What is sent to the subgraphs is exactly what is selected outside of introspection fields:
nothing is lost, nothing is added or repeated, and the order is kept. -/
theorem C40_subgraphs (op : Op) : leaves (partitionOp op).downstream.sels =
    (leaves op.sels).filter fun w => ¬ Router w := by
  show leaves (partition op.sels).1 = _
  rw [(partition_leaves op.sels).1]
  apply List.filter_congr
  intro w _
  rw [Bool.eq_iff_iff]
  simp [← routed_iff]

/-- **C40** What the router answers itself is exactly what is selected inside introspection fields. -/
theorem C40_router (op i : Op) (h : (partitionOp op).introspection = some i) : leaves i.sels =
    (leaves op.sels).filter fun w => Router w := by
  simp only [partitionOp] at h
  split at h
  · cases h
  · cases h
    simp only
    rw [(partition_leaves op.sels).2]
    apply List.filter_congr
    intro w _
    rw [Bool.eq_iff_iff]
    simp [← routed_iff]

/-- **C40** There is a part for the router exactly if the operation contains an introspection field,
however deep in fields and fragments. -/
theorem C40_router_part (op : Op) : (partitionOp op).introspection.isSome = true ↔ Asks op.sels := by
  rw [← partition_asks]
  simp only [partitionOp]
  cases (partition op.sels).2 <;> simp

/-- **C40** Both parts are operations of the same kind; the part for the subgraphs keeps all variables,
the other part keeps those it uses. -/
theorem C40_variables (op i : Op) (h : (partitionOp op).introspection = some i) :
    (partitionOp op).downstream.kind = op.kind ∧ (partitionOp op).downstream.vars = op.vars ∧
    i.kind = op.kind ∧
    ∀ ds, op.vars = some ds → ∃ is, i.vars = some is ∧ ∀ d, d ∈ is ↔ d ∈ ds ∧ d.name ∈ usages i.sels := by
  simp only [partitionOp] at h
  split at h
  · cases h
  · cases h
    refine ⟨rfl, rfl, rfl, fun ds hds => ?_⟩
    simp only [hds, Option.map_some]
    exact ⟨_, rfl, fun d => by simp [List.mem_filter]⟩

/-- **C40** With introspection switched off, or refused by the expression for this request, no
operation that contains an introspection field goes on; all others do. -/
theorem C40_policy {ρ : Type} (policy : Policy ρ) (request : ρ) (op : Op) :
    admitted policy request op = true ↔ (Asks op.sels → allowed policy request = true) := by
  rw [← C40_router_part]
  simp only [admitted]
  cases (partitionOp op).introspection <;> simp

/-- **C40** The three ways to configure it. -/
theorem C40_config {ρ : Type} (request : ρ) (run : ρ → Option Bool) (b : Bool) :
    (allowed (compile none) request = true) ∧ (allowed (compile (some (.inl b))) request = b) ∧
      (allowed (compile (some (.inr run))) request = true ↔ run request = some true) := by
  refine ⟨rfl, rfl, ?_⟩
  simp only [compile, allowed]
  cases run request <;> simp

/-! ## Cases -/

private def fld (n : String) (s : List Sel := []) : Sel := .field { name := n } s

/-- `{ me { name } ... on Query @include(if: $x) { __schema { types { name } } a } __typename }` -/
private def sample : Op := ⟨none, [fld "me" [fld "name"],
  .frag { cond := "Query", includeIf := some "x" } [fld "__schema" [fld "types" [fld "name"]], fld "a"],
  fld "__typename"], some [⟨"x", .named "Boolean", none⟩, ⟨"y", .named "Int", none⟩]⟩

example : Asks sample.sels := .later _ _ (.frag _ _ _ (.here _ _ _ (by decide)))
example : (partitionOp sample).downstream.sels = [fld "me" [fld "name"],
    .frag { cond := "Query", includeIf := some "x" } [fld "a"], fld "__typename"] := by
  simp [partitionOp, sample, partition, fld, isIntro, List.isPrefixOf]
example : ∃ i, (partitionOp sample).introspection = some i ∧ i.sels =
    [.frag { cond := "Query", includeIf := some "x" } [fld "__schema" [fld "types" [fld "name"]]]] ∧
    i.vars = some [⟨"x", .named "Boolean", none⟩] := by
  simp [partitionOp, sample, partition, fld, isIntro, List.isPrefixOf, usages, entriesVars]

end Verif.Introspection
