import Verif.Fetch.Optimize

/-!
# Where fuel is needed

Only the loops of the passes use fuel: nothing they call runs out of it.
-/

namespace Verif.Fetch

open Verif.Graph (Super)

/-- Something was not stopped for lack of fuel. -/
def Done {α : Type} (x : Except Err α) : Prop := x ≠ .error .fuel

theorem done_ok {α : Type} {a : α} : Done (.ok a) := by simp [Done]

theorem done_error {α : Type} {e : Err} (h : e ≠ .fuel) : Done (.error e : Except Err α) := by
  simpa [Done] using h

theorem done_of {α β : Type} {x : Except Err α} {e : Err} (h : Done x) (hx : x = .error e) :
    Done (.error e : Except Err β) := by
  subst hx
  simpa [Done] using h

theorem done_map {α β : Type} {f : α → β} {x : Except Err α} (h : Done x) : Done (x.map f) := by
  cases x with
  | ok => exact done_ok
  | error => exact done_of h rfl

theorem sliceFrom_done (p : MPath) (n : Nat) : Done (sliceFrom p n) := by
  unfold sliceFrom
  split
  · exact done_ok
  · exact done_error (by decide)

theorem updateIn_done {α : Type} {p : Sel → Bool} {u : List Sel → Except Err (List Sel × α)} (h : ∀ ss, Done (u ss)) :
    ∀ ss, Done (updateIn p u ss)
  | [] => done_error (by simp)
  | x :: r => by
    unfold updateIn
    split
    · split
      · exact done_map (h _)
      · exact done_map (h _)
      · exact done_error (by decide)
    · exact done_map (updateIn_done h r)

theorem updateAt_done {α : Type} {u : List Sel → Except Err (List Sel × α)} (h : ∀ ss, Done (u ss)) :
    ∀ p ss, Done (updateAt u p ss)
  | [], ss => by simpa only [updateAt] using h ss
  | .list :: p, ss => by simpa only [updateAt] using updateAt_done h p ss
  | .field .. :: p, ss => by
    simp only [updateAt]
    exact updateIn_done (updateAt_done h p) ss
  | .type .. :: p, ss => by
    simp only [updateAt]
    exact updateIn_done (updateAt_done h p) ss

theorem updateDef_done {α : Type} {t : String} {u : List Sel → Except Err (List Sel × α)} (h : ∀ ss, Done (u ss)) :
    ∀ s, Done (updateDef t u s)
  | [] => done_error (by simp)
  | (k, ss) :: r => by
    unfold updateDef
    split
    · exact done_map (h _)
    · exact done_map (updateDef_done h r)

theorem resolve_done (used : Bool × Bool) (s : Sel) (i : Nat) : Done (resolve used s i) := by
  unfold resolve
  split
  · exact done_ok
  · exact done_ok
  · exact done_ok
  · exact done_error (by decide)

theorem finish_done {path : MPath} {x : Except Err (List Sel × Nat × Aliases × List Action)} (h : Done x) :
    Done (finish path x) := by
  unfold finish
  split
  · exact done_of h rfl
  · exact done_ok

mutual
theorem safeLoop_done (used : Bool × Bool) (path : MPath) : ∀ (ss ts : List Sel) (c : Nat),
    Done (safeLoop used path ss ts c)
  | [], ts, c => by simpa only [safeLoop] using done_ok
  | s :: r, ts, c => by
    simp only [safeLoop]
    split
    · exact done_error (by decide)
    · split
      · split
        next e he => exact done_of (safeItem_done used path s ts c) he
        next ts' c' al he =>
          split
          next e he' => exact done_of (safeLoop_done used path r ts' c') he'
          next => exact done_ok
      · split
        next e he =>
          split at he
          · cases he
          · exact done_of (resolve_done _ _ _) he
        next =>
          split
          next e he' => exact done_of (safeLoop_done used path r ts c) he'
          next => exact done_ok
theorem safeItem_done (used : Bool × Bool) (path : MPath) : ∀ (s : Sel) (ts : List Sel) (c : Nat),
    Done (safeItem used path s ts c)
  | .field f ss, ts, c => by
    simp only [safeItem, safeInto]
    exact updateIn_done (fun us => finish_done (safeLoop_done used _ ss us c)) ts
  | .frag g ss, ts, c => by
    simp only [safeItem, safeInto]
    exact updateIn_done (fun us => finish_done (safeLoop_done used _ ss us c)) ts
  | .spread _, _, _ => by
    simp only [safeItem]
    exact done_error (by decide)
end

theorem addAt_done (t : String) (path : MPath) (items : List Sel) (first : Bool) (s : Selections) :
    Done (addAt t path items first s) :=
  done_map (updateDef_done (updateAt_done (fun _ => done_ok) path) s)

theorem migrateAll_done (into : Option String) (path : MPath) : ∀ (o s : Selections), Done (migrateAll into path o s)
  | [], s => done_ok
  | (k, items) :: r, s => by
    unfold migrateAll
    split
    next e he => exact done_of (addAt_done _ _ _ _ _) he
    next => exact migrateAll_done into path r _

theorem migrate_done (o : Selections) (path : MPath) (s : Selections) : Done (migrate o path s) :=
  migrateAll_done _ _ _ _

theorem safeMigrateAll_done (used : Bool × Bool) (into : Option String) (path : MPath) : ∀ (o s : Selections),
    Done (safeMigrateAll used into path o s)
  | [], s => done_ok
  | (k, items) :: r, s => by
    unfold safeMigrateAll
    split
    next e he =>
      refine done_of (updateDef_done (updateAt_done (fun ts => done_map ?_) path) s) he
      exact finish_done (safeLoop_done used [] items ts 0)
    next s' al he =>
      split
      next e he' => exact done_of (safeMigrateAll_done used into path r s') he'
      next => exact done_ok

theorem condIntoTarget_done (t s : Step) : Done (condIntoTarget t s) := by
  unfold condIntoTarget
  split
  · exact done_ok
  · split
    next e he => exact done_of (migrate_done _ _ _) he
    next => exact done_ok

theorem scopeSteps_done (t s : Step) : Done (scopeSteps t s) := by
  unfold scopeSteps
  split
  next e he => exact done_of (condIntoTarget_done _ _) he
  next => exact done_ok
  next => exact done_ok

theorem mergeInputs_done (force : Bool) (t s : Step) : Done (mergeInputs force t s) := by
  unfold mergeInputs
  split
  · exact migrate_done _ _ _
  · split
    · split
      · exact migrate_done _ _ _
      · exact done_error (by decide)
    · exact done_ok

theorem mergeSteps_done (force : Bool) (t s : Step) : Done (mergeSteps force t s) := by
  unfold mergeSteps
  split
  next e he => exact done_of (scopeSteps_done _ _) he
  next =>
    split
    next e he => exact done_of (sliceFrom_done _ _) he
    next =>
      split
      next e he => exact done_of (safeMigrateAll_done _ _ _ _ _) he
      next =>
        split
        next e he => exact done_of (mergeInputs_done _ _ _) he
        next => exact done_ok

theorem get_done (g : Graph) (n : Nat) : Done (g.get n) := by
  unfold Graph.get
  split
  · exact done_ok
  · exact done_error (by simp)

theorem getPair_done (g : Graph) (a b : Nat) : Done (getPair g a b) := by
  unfold getPair
  split
  · exact done_error (by decide)
  · split
    next e he => exact done_of (get_done _ _) he
    next e he _ => exact done_of (get_done _ _) he
    next => exact done_ok

theorem performMerge_done (force : Bool) (t s : Nat) (g : Graph) : Done (performMerge force t s g) := by
  unfold performMerge
  split
  next e he => exact done_of (getPair_done _ _ _) he
  next =>
    split
    next e he => exact done_of (mergeSteps_done _ _ _) he
    next => exact done_ok

theorem passMerge_done (t s : Nat) (g : Graph) : Done (passMerge t s g) := by
  unfold passMerge
  split
  next e he => exact done_of (getPair_done _ _ _) he
  next =>
    split
    next e he => exact done_of (sliceFrom_done _ _) he
    next =>
      split
      next e he => exact done_of (migrate_done _ _ _) he
      next => exact done_ok

theorem runMerges_done {merge : Nat → Nat → Graph → Except Err Graph} (h : ∀ a b g, Done (merge a b g)) :
    ∀ (pairs : List (Nat × Nat)) (rep : Rep) (g : Graph), Done (runMerges merge pairs rep g)
  | [], _, _ => done_ok
  | (a, b) :: r, rep, g => by
    unfold runMerges
    split
    · split
      next e he => exact done_of (h _ _ _) he
      next => exact runMerges_done h r _ _
    · exact done_error (by decide)

theorem modify_done {g : Graph} {n : Nat} {u : Step → Except Err Step} (h : ∀ s, Done (u s)) :
    Done (g.modify n u) := by
  unfold Graph.modify
  split
  next e he => exact done_of (get_done _ _) he
  next =>
    split
    next e he => exact done_of (h _) he
    next => exact done_ok

theorem batchMerge_done (rq : Requested) (t s : Nat) (g : Graph) : Done (batchMerge rq t s g) := by
  unfold batchMerge
  split
  · exact done_ok
  · split
    next e he => exact done_of (getPair_done _ _ _) he
    next =>
      split
      · split
        next e he => exact done_of (performMerge_done _ _ _ _) he
        next =>
          split
          next e he => exact done_of (modify_done fun _ => done_ok) he
          next => exact done_ok
      · exact done_ok

theorem runBatches_done (rq : Requested) : ∀ (pairs : List (Nat × Nat)) (rep : Rep) (g : Graph),
    Done (runBatches rq pairs rep g)
  | [], _, _ => done_ok
  | (a, b) :: r, rep, g => by
    unfold runBatches
    split
    · split
      next e he => exact done_of (batchMerge_done _ _ _ _) he
      next => exact runBatches_done rq r _ _
      next => exact runBatches_done rq r _ _
    · exact done_error (by decide)

mutual
theorem normSel_done (S : Super) (t : String) : ∀ x : Sel, Done (normSel S t x)
  | .field f ss => by
    simp only [normSel]
    split
    · exact done_error (by decide)
    next t' _ =>
      split
      next e he => exact done_of (normSels_done S t' ss []) he
      next => exact done_ok
  | .frag g ss => by
    simp only [normSel]
    split
    next e he => exact done_of (normSels_done S g.cond ss []) he
    next =>
      split
      · exact done_ok
      · exact done_ok
  | .spread _ => by
    simp only [normSel]
    exact done_error (by decide)
theorem normSels_done (S : Super) (t : String) : ∀ (ss acc : List Sel), Done (normSels S t ss acc)
  | [], acc => by simpa only [normSels] using done_ok
  | x :: r, acc => by
    simp only [normSels]
    split
    next e he => exact done_of (normSel_done S t x) he
    next => exact normSels_done S t r _
    next => exact normSels_done S t r _
end

theorem normAll_done (S : Super) : ∀ s : Selections, Done (normAll S s)
  | [] => done_ok
  | (t, ss) :: r => by
    unfold normAll
    split
    next e he => exact done_of (normSels_done S t ss []) he
    next e he _ => exact done_of (normAll_done S r) he
    next => exact done_ok

theorem normSteps_done (S : Super) : ∀ l : List (Option Step), Done (normSteps S l)
  | [] => done_ok
  | none :: r => by
    unfold normSteps
    exact done_map (normSteps_done S r)
  | some s :: r => by
    unfold normSteps
    split
    next e he => exact done_of (normAll_done S s.output) he
    next e he _ => exact done_of (normSteps_done S r) he
    next => exact done_ok

theorem normalize_done (S : Super) (g : Graph) : Done (normalize S g) := by
  unfold normalize
  split
  next e he => exact done_of (normSteps_done S g.steps) he
  next => exact done_ok

theorem start_done (g : Graph) : Done g.start := by
  unfold Graph.start
  split
  · exact done_ok
  · exact done_error (by simp)

theorem withPos_done (g : Graph) : ∀ l : List Nat, Done (withPos g l)
  | [] => done_ok
  | n :: r => by
    unfold withPos
    split
    next e he => exact done_of (get_done _ _) he
    next =>
      split
      · exact done_error (by decide)
      next e he _ => exact done_of (withPos_done g r) he
      next => exact done_ok

theorem sequence_done (g : Graph) : Done (sequence g) := by
  simp only [sequence]
  split
  next e he => exact done_of (start_done _) he
  next =>
    split
    · exact done_ok
    · split
      next e he => exact done_of (withPos_done _ _) he
      next =>
        split
        · exact done_error (by decide)
        · exact done_ok

theorem patchStep_done (path : MPath) (new : String) (s : Step) : Done (patchStep path new s) := by
  unfold patchStep
  split
  next e he => exact done_of (sliceFrom_done _ _) he
  next =>
    split
    · split
      · exact done_error (by decide)
      · split
        · exact done_ok
        · exact done_ok
    · exact done_ok

theorem patchAll_done : ∀ (al : Aliases) (s : Step), Done (patchAll al s)
  | [], s => done_ok
  | (p, n) :: r, s => by
    unfold patchAll
    split
    next e he => exact done_of (patchStep_done _ _ _) he
    next => exact patchAll_done r _

theorem patchBelow_done (al : Aliases) : ∀ (l : List Nat) (g : Graph), Done (patchBelow al l g)
  | [], _ => done_ok
  | n :: r, g => by
    unfold patchBelow
    split
    next e he => exact done_of (modify_done (patchAll_done al)) he
    next => exact patchBelow_done al r _

theorem patchFrom_done (n : Nat) : ∀ (l : List (String × Aliases)) (g : Graph), Done (patchFrom n l g)
  | [], _ => done_ok
  | (_, al) :: r, g => by
    unfold patchFrom
    split
    next e he => exact done_of (patchBelow_done _ _ _) he
    next => exact patchFrom_done n r _

theorem patchNodes_done : ∀ (l : List (Nat × List (String × Aliases))) (g : Graph), Done (patchNodes l g)
  | [], _ => done_ok
  | (n, al) :: r, g => by
    unfold patchNodes
    split
    next e he => exact done_of (patchFrom_done _ _ _) he
    next => exact patchNodes_done r _

theorem patchAliases_done (g : Graph) : Done (patchAliases g) := patchNodes_done _ _

end Verif.Fetch
