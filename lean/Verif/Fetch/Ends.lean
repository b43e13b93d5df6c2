import Verif.Fetch.Plan
import Verif.Fetch.Order2
import Verif.Fetch.NoFuel

/-!
# Does optimizing end

The passes that go down the graph keep a queue of steps but not the steps they have been at. With enough fuel the
fuel does not matter.
-/

namespace Verif.Fetch

open Verif.Graph (Super)

/-- The result does not change with more fuel, unless there was too little. -/
def Steadfast {α : Type} (f : Nat → Except Err α) : Prop := ∀ n m, n ≤ m → f n = .error .fuel ∨ f m = f n

theorem Steadfast.any {α : Type} {f : Nat → Except Err α} (h : Steadfast f) {n : Nat} {x : α} (hn : f n = .ok x)
    (m : Nat) : f m = .error .fuel ∨ f m = .ok x := by
  rcases Nat.le_total n m with hm | hm
  · rcases h n m hm with e | e
    · rw [hn] at e; cases e
    · exact .inr (e.trans hn)
  · rcases h m n hm with e | e
    · exact .inl e
    · exact .inr (e.symm.trans hn)

theorem downLoop_fuel {can : Graph → Nat → Nat → Bool} {merge : Nat → Nat → Graph → Except Err Graph} :
    ∀ (n : Nat) (q : List Nat) (rep : Rep) (g : Graph) (m : Nat), n ≤ m →
    downLoop can merge n q rep g = .error .fuel ∨ downLoop can merge m q rep g = downLoop can merge n q rep g
  | 0, _, _, _, _, _ => .inl rfl
  | n + 1, [], _, _, m + 1, _ => .inr rfl
  | n + 1, p :: q, rep, g, m + 1, h => by
    simp only [downLoop]
    split
    next => exact .inr rfl
    next p' hp =>
      split
      next => exact .inr rfl
      next =>
        split
        next => exact .inr rfl
        next rep' g' _ => exact downLoop_fuel n _ rep' g' m (by omega)

theorem mergePassthrough_fuel (g : Graph) : Steadfast (mergePassthrough · g) := by
  intro n m h
  simp only [mergePassthrough]
  split
  · exact .inr rfl
  · exact downLoop_fuel n _ _ _ m h

theorem mergeChildren_fuel (g : Graph) : Steadfast (mergeChildren · g) := by
  intro n m h
  simp only [mergeChildren]
  split
  · exact .inr rfl
  · exact downLoop_fuel n _ _ _ m h

/-- The queue and the graph after some steps of the loop that merges siblings. -/
def siblingRun : Nat → List Nat → Graph → Except Err (List Nat × Graph)
  | 0, q, g => .ok (q, g)
  | _ + 1, [], _ => .error .emptySteps
  | n + 1, p :: q, g =>
    let cs := sortPos g.pos (g.children p)
    match runMerges (performMerge false) (siblingPairs g cs) (repOf (siblingPairs g cs)) g with
    | .error e => .error e
    | .ok (_, g) => siblingRun n (q ++ cs) g

theorem siblingLoop_run : ∀ (k : Nat) {q : List Nat} {g : Graph} {x : List Nat × Graph}, siblingRun k q g = .ok x →
    (∀ m ≤ k, siblingLoop m q g = .error .fuel) ∧ ∀ m, siblingLoop (m + k) q g = siblingLoop m x.1 x.2
  | 0, q, g, x, h => by
    simp only [siblingRun, Except.ok.injEq] at h
    subst h
    refine ⟨fun m hm => ?_, fun m => rfl⟩
    obtain rfl : m = 0 := by omega
    rfl
  | k + 1, [], g, x, h => by simp [siblingRun] at h
  | k + 1, p :: q, g, x, h => by
    simp only [siblingRun] at h
    split at h
    next => cases h
    next r g1 hr =>
      have ih := siblingLoop_run k h
      refine ⟨fun m hm => ?_, fun m => ?_⟩
      · cases m with
        | zero => rfl
        | succ m =>
          simp only [siblingLoop, hr]
          exact ih.1 m (by omega)
      · rw [← Nat.add_assoc]
        simp only [siblingLoop, hr]
        exact ih.2 m

/-- Two steps that wait for each other, and for which nothing else waits, are visited for ever. -/
theorem siblingLoop_forever {g : Graph} {a b : Nat} (ha : sortPos g.pos (g.children a) = [b])
    (hb : sortPos g.pos (g.children b) = [a]) :
    ∀ n, siblingLoop n [a] g = .error .fuel ∧ siblingLoop n [b] g = .error .fuel
  | 0 => ⟨rfl, rfl⟩
  | n + 1 => by
    have ih := siblingLoop_forever ha hb n
    constructor
    · simp only [siblingLoop, ha, siblingPairs, List.find?, runMerges]
      exact ih.2
    · simp only [siblingLoop, hb, siblingPairs, List.find?, runMerges]
      exact ih.1

/-- A check that merging siblings does not end: after some steps two steps that wait for each other are all that is
in the queue. -/
def siblingsTrapped (k : Nat) (g : Graph) : Bool :=
  match g.root with
  | none => false
  | some r =>
    match siblingRun k [r] g with
    | .ok ([a], g) =>
      match g.children a with
      | [b] => decide (g.children b = [a])
      | _ => false
    | _ => false

theorem siblingsTrapped_spec {k : Nat} {g : Graph} (h : siblingsTrapped k g = true) (n : Nat) :
    mergeSiblings n g = .error .fuel := by
  simp only [siblingsTrapped] at h
  split at h
  next => cases h
  next r hr =>
    split at h
    next a g1 hrun =>
      split at h
      next b hc =>
        have hb : g1.children b = [a] := of_decide_eq_true h
        have hl := siblingLoop_run k hrun
        have hf := siblingLoop_forever (g := g1) (a := a) (b := b) (by rw [hc]; rfl) (by rw [hb]; rfl)
        simp only [mergeSiblings, Graph.start, hr]
        rcases Nat.le_total n k with hn | hn
        · exact hl.1 n hn
        · obtain ⟨m, rfl⟩ : ∃ m, n = m + k := ⟨n - k, by omega⟩
          rw [hl.2 m]
          exact (hf m).1
      next => cases h
    next => cases h

/-- A check that optimizing does not end. -/
def trapped (k : Nat) (g : Graph) : Bool :=
  match mergePassthrough k g with
  | .error _ => false
  | .ok g =>
    match mergeChildren k g with
    | .error _ => false
    | .ok g => siblingsTrapped k g

theorem trapped_spec {k : Nat} {g : Graph} (h : trapped k g = true) (S : Super) (n : Nat) :
    optimize S n g = .error .fuel := by
  have key : ∀ m, rounds S n m g = .error .fuel := by
    intro m
    cases m with
    | zero => rfl
    | succ m =>
      simp only [trapped] at h
      split at h
      next => cases h
      next g1 h1 =>
        split at h
        next => cases h
        next g2 h2 =>
          simp only [rounds, round]
          rcases (mergePassthrough_fuel g).any h1 n with e | e
          · simp only [e]
          · simp only [e]
            rcases (mergeChildren_fuel g1).any h2 n with e' | e'
            · simp only [e']
            · simp only [e', siblingsTrapped_spec h n]
  simp only [optimize, key]

/-- What becomes of the fetch graph of an operation. -/
def outcome (S : Super) (fuel : Nat) : Except Err Graph → Except Err Graph
  | .error e => .error e
  | .ok g => optimize S fuel g

theorem plans_finish (S : Super) (ctx : Overrides.Context) (fuel : Nat) (kind : Verif.Graph.OpKind)
    (sels : List Sel) : plans S ctx fuel kind sels = (drafts S ctx kind sels).map (outcome S fuel) := by
  simp only [plans, drafts]
  split
  · rfl
  · split
    · rfl
    · rw [List.map_map]
      refine List.map_congr_left fun c _ => ?_
      simp only [Function.comp, planOf, outcome]
      split <;> simp_all

/-! ## The number of steps goes down -/

/-- The number of steps. -/
def live (g : Graph) : Nat := g.indices.length

theorem has_get {g : Graph} {n : Nat} : g.has n = true ↔ ∃ s, g.get n = .ok s := by
  simp only [Graph.has, get_ok]
  constructor
  · intro h
    split at h
    next s hs => exact ⟨s, hs⟩
    next => cases h
  · rintro ⟨s, hs⟩
    rw [hs]

theorem live_lt {g g' : Graph} (hl : g'.steps.length = g.steps.length) (h : ∀ n, g'.has n = true → g.has n = true)
    {m : Nat} (h1 : g.has m = true) (h2 : g'.has m = false) : live g' < live g := by
  unfold live Graph.indices
  rw [hl]
  refine filter_lt h (y := m) ?_ h1 h2
  obtain ⟨s, hs⟩ := has_get.1 h1
  exact List.mem_range.2 (get_length hs)

theorem live_le {g g' : Graph} (hl : g'.steps.length = g.steps.length)
    (h : ∀ n, g'.has n = true → g.has n = true) : live g' ≤ live g := by
  unfold live Graph.indices
  rw [hl]
  exact filter_le h

theorem rewire_live {g : Graph} {t s : Nat} {x y z : Step} (hne : t ≠ s) (hx : g.get t = .ok x)
    (hy : g.get s = .ok y) : live (rewire t s (g.set t z)) < live g := by
  refine live_lt (m := s) ?_ ?_ (has_get.2 ⟨y, hy⟩) ?_
  · rw [rewire_length]
    simp [Graph.set]
  · intro n hn
    obtain ⟨w, hw⟩ := has_get.1 hn
    rw [rewire_get hne hx] at hw
    split at hw
    next => cases hw
    next =>
      split at hw
      next h => exact has_get.2 ⟨x, h ▸ hx⟩
      next => exact has_get.2 ⟨w, hw⟩
  · rw [Bool.eq_false_iff]
    intro hn
    obtain ⟨w, hw⟩ := has_get.1 hn
    rw [rewire_get hne hx, if_pos rfl] at hw
    cases hw

theorem performMerge_live {force : Bool} {t s : Nat} {g g' : Graph} (h : performMerge force t s g = .ok g') :
    live g' < live g := by
  obtain ⟨x, y, z, hne, hx, hy, _, rfl⟩ := set_performMerge h
  exact rewire_live hne hx hy

theorem passMerge_live {t s : Nat} {g g' : Graph} (h : passMerge t s g = .ok g') : live g' < live g := by
  unfold passMerge at h
  split at h
  next => cases h
  next x y hp =>
    obtain ⟨hne, hx, hy⟩ := getPair_ok hp
    split at h
    next => cases h
    next =>
      split at h
      next => cases h
      next o _ => cases h; exact rewire_live hne hx hy

theorem runMerges_live {merge : Nat → Nat → Graph → Except Err Graph}
    (hm : ∀ {t s g g'}, merge t s g = .ok g' → live g' < live g) :
    ∀ {pairs : List (Nat × Nat)} {rep rep' : Rep} {g g' : Graph}, runMerges merge pairs rep g = .ok (rep', g') →
    live g' < live g ∨ (rep' = rep ∧ g' = g)
  | [], _, _, _, _, h => by
    simp only [runMerges, Except.ok.injEq, Prod.mk.injEq] at h
    exact .inr ⟨h.1.symm, h.2.symm⟩
  | (a, b) :: r, rep, rep', g, g', h => by
    simp only [runMerges] at h
    split at h
    next =>
      split at h
      next => cases h
      next g1 h1 =>
        have := hm h1
        rcases runMerges_live hm h with h2 | ⟨_, rfl⟩
        · exact .inl (Nat.lt_trans h2 this)
        · exact .inl this
    next => cases h

theorem set_live {g : Graph} {n : Nat} {s s' : Step} (h : g.get n = .ok s) : live (g.set n s') = live g := by
  have h1 : ∀ m, (g.set n s').has m = g.has m := by
    intro m
    have := get_length h
    have e := get_ok.1 h
    simp only [Graph.has, Graph.set]
    by_cases hm : n = m
    · subst hm
      rw [List.getElem?_set_self this, e]
    · rw [List.getElem?_set_ne hm]
  unfold live Graph.indices
  rw [show (g.set n s').has = g.has from funext h1]
  simp [Graph.set]

theorem batchMerge_live {rq : Requested} {t s : Nat} {g g' : Graph} (h : batchMerge rq t s g = .ok (some g')) :
    live g' < live g := by
  unfold batchMerge at h
  split at h
  next => cases h
  next =>
    split at h
    next => cases h
    next x y hp =>
      obtain ⟨_, hx, _⟩ := getPair_ok hp
      split at h
      next =>
        split at h
        next => cases h
        next g1 hm =>
          split at h
          next => cases h
          next g2 hmod =>
            cases h
            obtain ⟨u, u', hu, _, rfl⟩ := modify_ok hmod
            have := performMerge_live hm
            rw [set_live hx] at this
            rw [set_live hu]
            exact this
      next => cases h

theorem runBatches_live {rq : Requested} : ∀ {pairs : List (Nat × Nat)} {rep : Rep} {g g' : Graph},
    runBatches rq pairs rep g = .ok g' → live g' < live g ∨ g' = g
  | [], _, _, _, h => by
    simp only [runBatches, Except.ok.injEq] at h
    exact .inr h.symm
  | (a, b) :: r, rep, g, g', h => by
    simp only [runBatches] at h
    split at h
    next =>
      split at h
      next => cases h
      next => exact runBatches_live h
      next g1 h1 =>
        have := batchMerge_live h1
        rcases runBatches_live h with h2 | rfl
        · exact .inl (Nat.lt_trans h2 this)
        · exact .inl this
    next => cases h

/-! ## The number of ways down goes down -/

theorem exists_rank {g : Graph} (hg : Sound g) : ∃ r : Nat → Nat, (∀ n, r n ≤ g.steps.length) ∧
    ∀ a b, (a, b) ∈ g.edges → r b < r a := by
  classical
  refine ⟨fun a => ((List.range g.steps.length).filter fun x => decide (After g a x)).length, fun n => ?_, ?_⟩
  · exact Nat.le_trans (List.length_filter_le ..) (by simp)
  · intro a b h
    refine filter_lt (y := b) ?_ (List.mem_range.2 (hg.2 a b h).2) ?_ ?_
    · intro x hx
      exact decide_eq_true (After.append (.edge h) (of_decide_eq_true hx))
    · exact decide_eq_true (.edge h)
    · exact decide_eq_false (hg.1 b)

/-- The number of ways down from a step that are not longer than a number. -/
def ways (g : Graph) : Nat → Nat → Nat
  | 0, _ => 1
  | k + 1, n => 1 + ((g.children n).map (ways g k)).sum

theorem ways_same {g : Graph} {r : Nat → Nat} (hr : ∀ a b, (a, b) ∈ g.edges → r b < r a) :
    ∀ (k n : Nat), r n < k → ways g (k + 1) n = ways g k n
  | k + 1, n, h => by
    simp only [ways]
    have : (g.children n).map (ways g (k + 1)) = (g.children n).map (ways g k) := by
      refine List.map_congr_left fun c hc => ?_
      have := hr n c (mem_children.1 hc)
      exact ways_same hr k c (by omega)
    simp only [ways] at this
    rw [this]

/-- Without a cycle there are finitely many ways down. -/
theorem exists_ways {g : Graph} (hg : Sound g) : ∃ w : Nat → Nat, ∀ n, w n = 1 + ((g.children n).map w).sum := by
  obtain ⟨r, h1, h2⟩ := exists_rank hg
  refine ⟨ways g (g.steps.length + 1), fun n => ?_⟩
  have := ways_same h2 (g.steps.length + 1) n (by have := h1 n; omega)
  rw [← this]
  rfl

theorem sum_sort {α : Type} (key : α → Option Nat) (w : α → Nat) : ∀ l : List α,
    ((sortPos key l).map w).sum = (l.map w).sum
  | [] => rfl
  | x :: r => by
    have hi : ∀ l : List α, ((insertPos key x l).map w).sum = w x + (l.map w).sum := by
      intro l
      induction l with
      | nil => simp [insertPos]
      | cons y r ih =>
        simp only [insertPos]
        split
        · simp
        · simp only [List.map_cons, List.sum_cons, ih]
          omega
    simp only [sortPos, List.map_cons, List.sum_cons, hi, sum_sort key w r]

theorem sum_le {α : Type} {v w : α → Nat} : ∀ {l : List α}, (∀ x ∈ l, v x ≤ w x) → (l.map v).sum ≤ (l.map w).sum
  | [], _ => by simp
  | x :: r, h => by
    have h1 := h x (List.mem_cons_self ..)
    have h2 := sum_le (l := r) fun y hy => h y (List.mem_cons_of_mem _ hy)
    simp only [List.map_cons, List.sum_cons]
    omega

/-! ## The loops end -/

/-- With enough fuel it is not stopped. -/
def Ends {α : Type} (f : Nat → Except Err α) : Prop := ∃ n, Done (f n)

/-- All graphs the loop that merges siblings goes through are without cycles. -/
def SiblingsSound (q : List Nat) (g : Graph) : Prop := ∀ k q' g', siblingRun k q g = .ok (q', g') → Sound g'

theorem SiblingsSound.here {q : List Nat} {g : Graph} (h : SiblingsSound q g) : Sound g := h 0 q g rfl

theorem siblingLoop_ends : ∀ (L W : Nat) (q : List Nat) (g : Graph) (w : Nat → Nat),
    (∀ n, w n = 1 + ((g.children n).map w).sum) → live g ≤ L → (q.map w).sum ≤ W → SiblingsSound q g →
    Ends (siblingLoop · q g) := by
  intro L
  induction L using Nat.strongRecOn with
  | ind L ihL =>
    intro W
    induction W using Nat.strongRecOn with
    | ind W ihW =>
      intro q g w hw hL hW hs
      cases q with
      | nil => exact ⟨1, done_ok⟩
      | cons p q =>
        cases hm : runMerges (performMerge false) (siblingPairs g (sortPos g.pos (g.children p)))
            (repOf (siblingPairs g (sortPos g.pos (g.children p)))) g with
        | error e =>
          refine ⟨1, ?_⟩
          simp only [siblingLoop, hm]
          exact done_of (runMerges_done (performMerge_done false) _ _ _) hm
        | ok x =>
          obtain ⟨rep', g'⟩ := x
          have hs' : SiblingsSound (q ++ sortPos g.pos (g.children p)) g' := by
            intro k q' g'' hk
            refine hs (k + 1) q' g'' ?_
            simp only [siblingRun, hm]
            exact hk
          have hnext : Ends (siblingLoop · (q ++ sortPos g.pos (g.children p)) g') := by
            rcases runMerges_live (performMerge_live) hm with hlt | ⟨_, rfl⟩
            · obtain ⟨w', hw'⟩ := exists_ways hs'.here
              exact ihL (live g') (by omega) _ _ _ w' hw' (Nat.le_refl _) (Nat.le_refl _) hs'
            · refine ihW ((q.map w).sum + ((g'.children p).map w).sum) ?_ _ _ w hw hL ?_ hs'
              · simp only [List.map_cons, List.sum_cons] at hW
                have := hw p
                omega
              · rw [List.map_append, List.sum_append, sum_sort]
                exact Nat.le_refl _
          obtain ⟨n, hn⟩ := hnext
          refine ⟨n + 1, ?_⟩
          simp only [siblingLoop, hm]
          exact hn

theorem mergeSiblings_ends {g : Graph} (hs : ∀ r, g.root = some r → SiblingsSound [r] g) :
    Ends (mergeSiblings · g) := by
  cases hr : g.root with
  | none =>
    refine ⟨0, ?_⟩
    simp only [mergeSiblings, Graph.start, hr]
    exact done_error (by simp)
  | some r =>
    have h := hs r hr
    obtain ⟨w, hw⟩ := exists_ways h.here
    obtain ⟨n, hn⟩ := siblingLoop_ends _ _ [r] g w hw (Nat.le_refl _) (Nat.le_refl _) h
    refine ⟨n, ?_⟩
    simp only [mergeSiblings, Graph.start, hr]
    exact hn

theorem batchLoop_ends : ∀ (L W : Nat) (q : List Nat) (g : Graph) (w : Nat → Nat),
    (∀ n, w n = 1 + ((g.children n).map w).sum) → live g ≤ L → (q.map w).sum ≤ W → Sound g →
    Ends (batchLoop · q g) := by
  intro L
  induction L using Nat.strongRecOn with
  | ind L ihL =>
    intro W
    induction W using Nat.strongRecOn with
    | ind W ihW =>
      intro q g w hw hL hW hs
      cases q with
      | nil => exact ⟨1, done_ok⟩
      | cons p q =>
        cases hm : runBatches (requested g (g.children p)) (batchPairs g (g.children p))
            (repOf (batchPairs g (g.children p))) g with
        | error e =>
          refine ⟨1, ?_⟩
          simp only [batchLoop, hm]
          exact done_of (runBatches_done _ _ _ _) hm
        | ok g' =>
          have hs' := runBatches_sound hs hm
          have hnext : Ends (batchLoop · (q ++ g.children p) g') := by
            rcases runBatches_live hm with hlt | rfl
            · obtain ⟨w', hw'⟩ := exists_ways hs'
              exact ihL (live g') (by omega) _ _ _ w' hw' (Nat.le_refl _) (Nat.le_refl _) hs'
            · refine ihW ((q.map w).sum + ((g'.children p).map w).sum) ?_ _ _ w hw hL ?_ hs'
              · simp only [List.map_cons, List.sum_cons] at hW
                have := hw p
                omega
              · rw [List.map_append, List.sum_append]
                exact Nat.le_refl _
          obtain ⟨n, hn⟩ := hnext
          refine ⟨n + 1, ?_⟩
          simp only [batchLoop, hm]
          exact hn

theorem batchTypes_ends {g : Graph} (hs : Sound g) : Ends (batchTypes · g) := by
  cases hr : g.root with
  | none =>
    refine ⟨0, ?_⟩
    simp only [batchTypes, Graph.start, hr]
    exact done_error (by simp)
  | some r =>
    obtain ⟨w, hw⟩ := exists_ways hs
    obtain ⟨n, hn⟩ := batchLoop_ends _ _ [r] g w hw (Nat.le_refl _) (Nat.le_refl _) hs
    refine ⟨n, ?_⟩
    simp only [batchTypes, Graph.start, hr]
    exact hn

theorem mergeLeafs_ends : ∀ (L : Nat) (g : Graph), live g ≤ L → Ends (mergeLeafs · g) := by
  intro L
  induction L using Nat.strongRecOn with
  | ind L ih =>
    intro g hL
    cases hf : findLeaf g with
    | none => exact ⟨1, by simp only [mergeLeafs, hf]; exact done_ok⟩
    | some x =>
      obtain ⟨a, b⟩ := x
      cases hm : performMerge false a b g with
      | error e => exact ⟨1, by simp only [mergeLeafs, hf, hm]; exact done_of (performMerge_done _ _ _ _) hm⟩
      | ok g' =>
        have := performMerge_live hm
        obtain ⟨n, hn⟩ := ih (live g') (by omega) g' (Nat.le_refl _)
        exact ⟨n + 1, by simp only [mergeLeafs, hf, hm]; exact hn⟩

/-- The queue, the heirs and the graph after some steps of a loop that goes down. -/
def downRun (can : Graph → Nat → Nat → Bool) (merge : Nat → Nat → Graph → Except Err Graph) :
    Nat → List Nat → Rep → Graph → Except Err (List Nat × Rep × Graph)
  | 0, q, rep, g => .ok (q, rep, g)
  | _ + 1, [], _, _ => .error .emptySteps
  | n + 1, p :: q, rep, g =>
    match rep.lookup p with
    | none => .error .indexLost
    | some p =>
      match g.get p with
      | .error e => .error e
      | .ok _ =>
        let cs := g.children p
        let pairs := (cs.filter (can g p)).map fun c => (p, c)
        match runMerges merge pairs ((cs.map fun c => (c, c)) ++ (p, p) :: rep) g with
        | .error e => .error e
        | .ok (rep, g) => downRun can merge n (q ++ cs) rep g

/-- All graphs such a loop goes through are without cycles. -/
def DownSound (can : Graph → Nat → Nat → Bool) (merge : Nat → Nat → Graph → Except Err Graph) (q : List Nat)
    (rep : Rep) (g : Graph) : Prop :=
  ∀ k q' rep' g', downRun can merge k q rep g = .ok (q', rep', g') → Sound g'

theorem DownSound.here {can : Graph → Nat → Nat → Bool} {merge : Nat → Nat → Graph → Except Err Graph}
    {q : List Nat} {rep : Rep} {g : Graph} (h : DownSound can merge q rep g) : Sound g := h 0 q rep g rfl

/-- The ways down from a step in the queue, or from its heir. -/
def heavier (w : Nat → Nat) (rep : Rep) (n : Nat) : Nat := max (w n) (w ((rep.lookup n).getD n))

theorem lookup_new (cs : List Nat) (p : Nat) (rep : Rep) (n : Nat) :
    (((cs.map fun c => (c, c)) ++ (p, p) :: rep).lookup n).getD n = n ∨
    ((cs.map fun c => (c, c)) ++ (p, p) :: rep).lookup n = rep.lookup n := by
  by_cases h : n ∈ cs ∨ n = p
  · exact .inl (by rw [lookup_same h]; rfl)
  · right
    have h1 : ¬ n ∈ cs := fun hn => h (.inl hn)
    have h2 : ¬ n = p := fun hn => h (.inr hn)
    clear h
    induction cs with
    | nil =>
      have : (n == p) = false := by simpa using h2
      simp only [List.map_nil, List.nil_append, List.lookup_cons, this]
    | cons c r ih =>
      have : (n == c) = false := by
        simp only [List.mem_cons, not_or] at h1
        simpa using h1.1
      simp only [List.map_cons, List.cons_append, List.lookup_cons, this]
      exact ih fun hn => h1 (List.mem_cons_of_mem _ hn)

theorem downLoop_ends {can : Graph → Nat → Nat → Bool} {merge : Nat → Nat → Graph → Except Err Graph}
    (hd : ∀ a b g, Done (merge a b g)) (hlive : ∀ {t s g g'}, merge t s g = .ok g' → live g' < live g) :
    ∀ (L W : Nat) (q : List Nat) (rep : Rep) (g : Graph) (w : Nat → Nat),
    (∀ n, w n = 1 + ((g.children n).map w).sum) → live g ≤ L → (q.map (heavier w rep)).sum ≤ W →
    DownSound can merge q rep g → Ends (downLoop can merge · q rep g) := by
  intro L
  induction L using Nat.strongRecOn with
  | ind L ihL =>
    intro W
    induction W using Nat.strongRecOn with
    | ind W ihW =>
      intro q rep g w hw hL hW hs
      cases q with
      | nil => exact ⟨1, done_ok⟩
      | cons p q =>
        cases hp : rep.lookup p with
        | none => exact ⟨1, by simp only [downLoop, hp]; exact done_error (by decide)⟩
        | some p' =>
          cases hg : g.get p' with
          | error e => exact ⟨1, by simp only [downLoop, hp, hg]; exact done_of (get_done _ _) hg⟩
          | ok s =>
            cases hm : runMerges merge (((g.children p').filter (can g p')).map fun c => (p', c))
                (((g.children p').map fun c => (c, c)) ++ (p', p') :: rep) g with
            | error e =>
              exact ⟨1, by simp only [downLoop, hp, hg, hm]; exact done_of (runMerges_done hd _ _ _) hm⟩
            | ok x =>
              obtain ⟨rep', g'⟩ := x
              have hs' : DownSound can merge (q ++ g.children p') rep' g' := by
                intro k q' r' g'' hk
                refine hs (k + 1) q' r' g'' ?_
                simp only [downRun, hp, hg, hm]
                exact hk
              have hnext : Ends (downLoop can merge · (q ++ g.children p') rep' g') := by
                rcases runMerges_live hlive hm with hlt | ⟨rfl, rfl⟩
                · obtain ⟨w', hw'⟩ := exists_ways hs'.here
                  exact ihL (live g') (by omega) _ _ _ _ w' hw' (Nat.le_refl _) (Nat.le_refl _) hs'
                · refine ihW ((q.map (heavier w rep)).sum + ((g'.children p').map w).sum) ?_ _ _ _ w hw hL ?_ hs'
                  · simp only [List.map_cons, List.sum_cons] at hW
                    have h1 := hw p'
                    have h2 : w p' ≤ heavier w rep p := by
                      simp only [heavier, hp, Option.getD_some]
                      exact Nat.le_max_right ..
                    omega
                  · rw [List.map_append, List.sum_append]
                    refine Nat.add_le_add (sum_le fun n _ => ?_) (sum_le fun c hc => ?_)
                    · rcases lookup_new (g'.children p') p' rep n with e | e
                      · simp only [heavier, e, Nat.max_self]
                        exact Nat.le_max_left ..
                      · simp only [heavier, e]
                        exact Nat.le_refl _
                    · simp only [heavier, lookup_same (.inl hc), Option.getD_some, Nat.max_self]
                      exact Nat.le_refl _
              obtain ⟨n, hn⟩ := hnext
              exact ⟨n + 1, by simp only [downLoop, hp, hg, hm]; exact hn⟩

theorem passRun_sound : ∀ (n : Nat) {q : List Nat} {rep : Rep} {g : Graph}, Sound g →
    ∀ {q' rep' g'}, downRun canPass passMerge n q rep g = .ok (q', rep', g') → Sound g'
  | 0, _, _, _, hg, _, _, _, h => by
    simp only [downRun, Except.ok.injEq, Prod.mk.injEq] at h
    exact h.2.2 ▸ hg
  | n + 1, [], _, _, _, _, _, _, h => by simp [downRun] at h
  | n + 1, p :: q, rep, g, hg, q', rep', g', h => by
    simp only [downRun] at h
    split at h
    next => cases h
    next p' _ =>
      split at h
      next => cases h
      next =>
        split at h
        next => cases h
        next rep1 g1 hm =>
          refine passRun_sound n (runPass_sound hg (lookup_same (.inr rfl)) ?_ hm) h
          intro c hc
          obtain ⟨h1, h2⟩ := List.mem_filter.1 hc
          exact .inr ⟨lookup_same (.inl h1), canPass_only h2⟩

theorem mergePassthrough_ends {g : Graph} (hs : Sound g) : Ends (mergePassthrough · g) := by
  cases hr : g.root with
  | none =>
    refine ⟨0, ?_⟩
    simp only [mergePassthrough, Graph.start, hr]
    exact done_error (by simp)
  | some r =>
    obtain ⟨w, hw⟩ := exists_ways hs
    obtain ⟨n, hn⟩ := downLoop_ends (can := canPass) passMerge_done passMerge_live _ _ [r] [(r, r)] g w hw
      (Nat.le_refl _) (Nat.le_refl _) fun k q' rep' g' hk => passRun_sound k hs hk
    refine ⟨n, ?_⟩
    simp only [mergePassthrough, Graph.start, hr]
    exact hn

theorem mergeChildren_ends {g : Graph}
    (hs : ∀ r, g.root = some r → DownSound canMerge (performMerge false) [r] [(r, r)] g) :
    Ends (mergeChildren · g) := by
  cases hr : g.root with
  | none =>
    refine ⟨0, ?_⟩
    simp only [mergeChildren, Graph.start, hr]
    exact done_error (by simp)
  | some r =>
    have h := hs r hr
    obtain ⟨w, hw⟩ := exists_ways h.here
    obtain ⟨n, hn⟩ := downLoop_ends (performMerge_done false) performMerge_live _ _ [r] [(r, r)] g w hw
      (Nat.le_refl _) (Nat.le_refl _) h
    refine ⟨n, ?_⟩
    simp only [mergeChildren, Graph.start, hr]
    exact hn

end Verif.Fetch
