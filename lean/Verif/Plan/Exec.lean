import Verif.Plan.Parallel

/-!
# Executions of plans
-/

namespace Verif.Plan

/-! ## Sequences and conditions -/

/-- Executions of a list of nodes, one after the other. -/
def Cat (S : Node → List Event → Prop) : List Node → List Event → Prop
  | [], t => t = []
  | n :: ns, t => ∃ a b, S n a ∧ Cat S ns b ∧ t = a ++ b

def OptS (S : Node → List Event → Prop) : Option Node → List Event → Prop
  | none, t => t = []
  | some n, t => S n t

/-- A set of executions for which sequences and conditions are what they should be. -/
structure Comp (vars : Option (List (String × Value))) (S : Node → List Event → Prop) : Prop where
  seq : ∀ ns t, S (.seq ns) t ↔ Cat S ns t
  absent : ∀ v a b t, truth vars v = none → (S (.cond v a b) t ↔ t = [])
  yes : ∀ v a b t, truth vars v = some true → (S (.cond v a b) t ↔ OptS S a t)
  no : ∀ v a b t, truth vars v = some false → (S (.cond v a b) t ↔ OptS S b t)

theorem execSeq_cat (vars : Option (List (String × Value))) (ns : List Node) (t : List Event) :
    execSeq vars ns t ↔ Cat (exec vars) ns t := by
  induction ns generalizing t with
  | nil => simp [execSeq, Cat]
  | cons n ns ih => simp only [execSeq, Cat, ih]

theorem execOpt_opt (vars : Option (List (String × Value))) (n : Option Node) (t : List Event) :
    execOpt vars n t ↔ OptS (exec vars) n t := by
  cases n <;> simp [execOpt, OptS]

theorem exec_comp (vars : Option (List (String × Value))) : Comp vars (exec vars) where
  seq ns t := by rw [exec]; exact execSeq_cat vars ns t
  absent v a b t h := by rw [exec, h]
  yes v a b t h := by rw [exec, h]; exact execOpt_opt vars a t
  no v a b t h := by rw [exec, h]; exact execOpt_opt vars b t

section
variable {vars : Option (List (String × Value))} {S : Node → List Event → Prop}

theorem cat_append (ns ms : List Node) (t : List Event) :
    Cat S (ns ++ ms) t ↔ ∃ a b, Cat S ns a ∧ Cat S ms b ∧ t = a ++ b := by
  induction ns generalizing t with
  | nil => simp [Cat]
  | cons n ns ih =>
    simp only [List.cons_append, Cat, ih]
    constructor
    · rintro ⟨a, b, h1, ⟨c, d, h2, h3, rfl⟩, rfl⟩
      exact ⟨a ++ c, d, ⟨a, c, h1, h2, rfl⟩, h3, by simp⟩
    · rintro ⟨_, d, ⟨a, c, h1, h2, rfl⟩, h3, rfl⟩
      exact ⟨a, c ++ d, h1, ⟨c, d, h2, h3, rfl⟩, by simp⟩

theorem cat_one (n : Node) (t : List Event) : Cat S [n] t ↔ S n t := by
  simp only [Cat]
  constructor
  · rintro ⟨a, b, h, rfl, rfl⟩; simpa using h
  · intro h; exact ⟨t, [], h, rfl, by simp⟩

theorem cat_flatMap (f : Node → List Node) (h : ∀ n t, Cat S (f n) t ↔ S n t) (ns : List Node)
    (t : List Event) : Cat S (ns.flatMap f) t ↔ Cat S ns t := by
  induction ns generalizing t with
  | nil => rfl
  | cons n ns ih =>
    rw [List.flatMap_cons, cat_append]
    simp only [Cat, h, ih]

theorem Comp.flattenSeq (hS : Comp vars S) (n : Node) (t : List Event) : Cat S n.flattenSeq t ↔ S n t := by
  cases n with
  | seq ns => exact (hS.seq ns t).symm
  | fetch f => exact cat_one _ t
  | batch f => exact cat_one _ t
  | par f => exact cat_one _ t
  | flatten f => exact cat_one _ t
  | cond f => exact cat_one _ t
  | subscription f => exact cat_one _ t

theorem Comp.mkSeq (hS : Comp vars S) (ns : List Node) (t : List Event) :
    S (mkSeq ns) t ↔ Cat S ns t := by
  match ns with
  | [] => exact hS.seq [] t
  | [n] => exact (cat_one n t).symm
  | n :: m :: ns => exact hS.seq _ t

/-- A condition node has exactly one clause. -/
def OneClause : Node → Prop
  | .cond _ t e => t.isSome ≠ e.isSome
  | _ => True

theorem Comp.mergeCond (hS : Comp vars S) (a b m : Node) (ha : OneClause a) (hb : OneClause b)
    (h : mergeCond a b = some m) (t : List Event) : S m t ↔ Cat S [a, b] t := by
  cases a with
  | cond v x y =>
    cases b with
    | cond v' x' y' =>
      simp only [Verif.Plan.mergeCond] at h
      split at h
      · rename_i hc
        obtain ⟨rfl, hc⟩ := hc
        simp only [OneClause] at ha hb
        have hcat : ∀ p q : Node, ∀ t, Cat S (p.flattenSeq ++ q.flattenSeq) t ↔
            ∃ a b, S p a ∧ S q b ∧ t = a ++ b := by
          intro p q t
          rw [cat_append]
          simp only [hS.flattenSeq]
        cases x with
        | some p =>
          cases y with
          | some _ => simp at ha
          | none =>
            cases x' with
            | none => 
              cases y' with
              | none => simp at hb
              | some q => simp at hc
            | some q =>
              cases y' with
              | some _ => simp at hb
              | none =>
                simp only [Option.isSome_some, if_true, innerNodes, Option.some.injEq] at h
                subst h
                simp only [Cat]
                cases ht : truth vars v with
                | none =>
                  simp only [hS.absent _ _ _ _ ht]
                  constructor
                  · rintro rfl; exact ⟨[], [], rfl, ⟨[], [], rfl, rfl, rfl⟩, rfl⟩
                  · rintro ⟨_, _, rfl, ⟨_, _, rfl, rfl, rfl⟩, rfl⟩; rfl
                | some w =>
                  cases w with
                  | true =>
                    simp only [hS.yes _ _ _ _ ht, OptS, hS.mkSeq, hcat]
                    constructor
                    · rintro ⟨a, b, h1, h2, rfl⟩
                      exact ⟨a, b, h1, ⟨b, [], h2, rfl, by simp⟩, rfl⟩
                    · rintro ⟨a, _, h1, ⟨b, _, h2, rfl, rfl⟩, rfl⟩
                      exact ⟨a, b, h1, h2, by simp⟩
                  | false =>
                    simp only [hS.no _ _ _ _ ht, OptS]
                    constructor
                    · rintro rfl; exact ⟨[], [], rfl, ⟨[], [], rfl, rfl, rfl⟩, rfl⟩
                    · rintro ⟨_, _, rfl, ⟨_, _, rfl, rfl, rfl⟩, rfl⟩; rfl
        | none =>
          cases y with
          | none => simp at ha
          | some p =>
            cases x' with
            | some q =>
              cases y' with
              | some _ => simp at hb
              | none => simp at hc
            | none =>
              cases y' with
              | none => simp at hb
              | some q =>
                simp only [Option.isSome_none, Bool.false_eq_true, if_false, innerNodes,
                  Option.some.injEq] at h
                subst h
                simp only [Cat]
                cases ht : truth vars v with
                | none =>
                  simp only [hS.absent _ _ _ _ ht]
                  constructor
                  · rintro rfl; exact ⟨[], [], rfl, ⟨[], [], rfl, rfl, rfl⟩, rfl⟩
                  · rintro ⟨_, _, rfl, ⟨_, _, rfl, rfl, rfl⟩, rfl⟩; rfl
                | some w =>
                  cases w with
                  | false =>
                    simp only [hS.no _ _ _ _ ht, OptS, hS.mkSeq, hcat]
                    constructor
                    · rintro ⟨a, b, h1, h2, rfl⟩
                      exact ⟨a, b, h1, ⟨b, [], h2, rfl, by simp⟩, rfl⟩
                    · rintro ⟨a, _, h1, ⟨b, _, h2, rfl, rfl⟩, rfl⟩
                      exact ⟨a, b, h1, h2, by simp⟩
                  | true =>
                    simp only [hS.yes _ _ _ _ ht, OptS]
                    constructor
                    · rintro rfl; exact ⟨[], [], rfl, ⟨[], [], rfl, rfl, rfl⟩, rfl⟩
                    · rintro ⟨_, _, rfl, ⟨_, _, rfl, rfl, rfl⟩, rfl⟩; rfl
      · cases h
    | fetch f => cases h
    | batch f => cases h
    | seq f => cases h
    | par f => cases h
    | flatten f => cases h
    | subscription f => cases h
  | fetch f => cases h
  | batch f => cases h
  | seq f => cases h
  | par f => cases h
  | flatten f => cases h
  | subscription f => cases h

theorem mergeCond_oneClause (a b m : Node) (ha : OneClause a) (h : mergeCond a b = some m) :
    OneClause m := by
  cases a with
  | cond v x y =>
    cases b with
    | cond v' x' y' =>
      simp only [mergeCond] at h
      split at h
      · simp only [OneClause] at ha
        cases x <;> cases y <;> simp at ha h <;> subst h <;> simp [OneClause]
      · cases h
    | fetch f => cases h
    | batch f => cases h
    | seq f => cases h
    | par f => cases h
    | flatten f => cases h
    | subscription f => cases h
  | fetch f => cases h
  | batch f => cases h
  | seq f => cases h
  | par f => cases h
  | flatten f => cases h
  | subscription f => cases h

theorem cat_congr (ns a b ms : List Node) (h : ∀ t, Cat S a t ↔ Cat S b t) (t : List Event) :
    Cat S (ns ++ (a ++ ms)) t ↔ Cat S (ns ++ (b ++ ms)) t := by
  simp only [cat_append, h]

theorem Comp.mergeLoop (hS : Comp vars S) (ns : List Node) : ∀ (acc : List Node),
    (∀ n ∈ acc, OneClause n) → (∀ n ∈ ns, OneClause n) → ∀ t,
      (Cat S (mergeLoop acc ns) t ↔ Cat S (acc.reverse ++ ns) t) := by
  induction ns with
  | nil =>
    intro acc _ _ t
    cases acc with
    | nil => simp [Verif.Plan.mergeLoop]
    | cons a acc => simp [Verif.Plan.mergeLoop]
  | cons n ns ih =>
    intro acc hacc hns t
    cases acc with
    | nil =>
      rw [Verif.Plan.mergeLoop]
      have := ih [n] (by simpa using hns n (by simp)) (fun m hm => hns m (by simp [hm])) t
      simpa using this
    | cons a acc =>
      rw [Verif.Plan.mergeLoop]
      cases hm : Verif.Plan.mergeCond a n with
      | some m =>
        simp only
        rw [ih (m :: acc) (by
          intro x hx
          rcases List.mem_cons.1 hx with rfl | hx
          · exact mergeCond_oneClause a n _ (hacc a (by simp)) hm
          · exact hacc x (by simp [hx])) (fun m hm => hns m (by simp [hm])) t]
        have := cat_congr (S := S) acc.reverse [m] [a, n] ns (fun t => by
          rw [cat_one]
          exact hS.mergeCond a n m (hacc a (by simp)) (hns n (by simp)) hm t) t
        simpa using this
      | none =>
        simp only
        rw [ih (n :: a :: acc) (by
          intro x hx
          rcases List.mem_cons.1 hx with rfl | hx
          · exact hns x (by simp)
          · exact hacc x hx) (fun m hm => hns m (by simp [hm])) t]
        simp

/-- Flattening and merging do not change the executions. -/
theorem Comp.optSeq (hS : Comp vars S) (ns : List Node)
    (h : ∀ n ∈ ns.flatMap Node.flattenSeq, OneClause n) (t : List Event) :
    Cat S (optSeq ns) t ↔ Cat S ns t := by
  unfold Verif.Plan.optSeq
  rw [hS.mergeLoop _ [] (by simp) h t, List.reverse_nil, List.nil_append]
  exact cat_flatMap _ (fun n t => hS.flattenSeq n t) ns t

end

/-! ## The plans that are made -/

mutual
/-- A request, maybe under conditions. -/
def Simple (P : Fetch → Prop) : Node → Prop
  | .fetch _ => True
  | .batch _ => True
  | .flatten _ f => P f
  | .cond _ t e => SimpleOpt P t ∧ SimpleOpt P e ∧ t.isSome ≠ e.isSome
  | .seq _ => False
  | .par _ => False
  | .subscription _ => False

def SimpleOpt (P : Fetch → Prop) : Option Node → Prop
  | none => True
  | some n => Simple P n
end

mutual
/-- Requests, those together being simple, and conditions with one clause. -/
def Ok (P : Fetch → Prop) : Node → Prop
  | .fetch _ => True
  | .batch _ => True
  | .flatten _ f => P f
  | .cond _ t e => OkOpt P t ∧ OkOpt P e ∧ t.isSome ≠ e.isSome
  | .seq ns => OkAll P ns
  | .par ns => ∀ n ∈ ns, Simple P n
  | .subscription _ => False

def OkAll (P : Fetch → Prop) : List Node → Prop
  | [] => True
  | n :: ns => Ok P n ∧ OkAll P ns

def OkOpt (P : Fetch → Prop) : Option Node → Prop
  | none => True
  | some n => Ok P n
end

theorem okAll_iff (P : Fetch → Prop) (ns : List Node) : OkAll P ns ↔ ∀ n ∈ ns, Ok P n := by
  induction ns with
  | nil => simp [OkAll]
  | cons n ns ih => simp [OkAll, ih]

mutual
theorem Simple.ok (P : Fetch → Prop) : ∀ n, Simple P n → Ok P n
  | .fetch _, _ => by simp [Ok]
  | .batch _, _ => by simp [Ok]
  | .flatten _ f, h => by simpa [Ok, Simple] using h
  | .cond _ t e, h => by
    simp only [Simple] at h
    simp only [Ok]
    exact ⟨SimpleOpt.ok P t h.1, SimpleOpt.ok P e h.2.1, h.2.2⟩
  | .seq _, h => by simp [Simple] at h
  | .par _, h => by simp [Simple] at h
  | .subscription _, h => by simp [Simple] at h

theorem SimpleOpt.ok (P : Fetch → Prop) : ∀ n, SimpleOpt P n → OkOpt P n
  | none, _ => by simp [OkOpt]
  | some n, h => by
    simp only [SimpleOpt] at h
    simp only [OkOpt]
    exact Simple.ok P n h
end

mutual
theorem Simple.optimize (P : Fetch → Prop) (H : Hashers) : ∀ n, Simple P n → optimize H n = n
  | .fetch _, _ => by simp [Verif.Plan.optimize]
  | .batch _, _ => by simp [Verif.Plan.optimize]
  | .flatten _ f, h => by simp [Verif.Plan.optimize]
  | .cond _ t e, h => by
    simp only [Simple] at h
    rw [Verif.Plan.optimize, SimpleOpt.optimize P H t h.1, SimpleOpt.optimize P H e h.2.1]
  | .seq _, h => by simp [Simple] at h
  | .par _, h => by simp [Simple] at h
  | .subscription _, h => by simp [Simple] at h

theorem SimpleOpt.optimize (P : Fetch → Prop) (H : Hashers) : ∀ n, SimpleOpt P n → optimizeOpt H n = n
  | none, _ => by simp [optimizeOpt]
  | some n, h => by
    simp only [SimpleOpt] at h
    rw [optimizeOpt, Simple.optimize P H n h]
end

/-- The work is started in some order and done in some order. -/
def AnyOrder (ws : List Work) (t : List Event) : Prop :=
  ∃ o1 o2 : List Work, o1.Perm ws ∧ o2.Perm ws ∧ t = o1.map .start ++ o2.map .done

mutual
/-- Executions in which requests that are made together are made in some order. -/
def runs (vars : Option (List (String × Value))) : Node → List Event → Prop
  | .par ns => AnyOrder (ns.flatMap (works vars))
  | .seq ns => runsSeq vars ns
  | .cond v t e =>
    match truth vars v with
    | none => fun ev => ev = []
    | some true => runsOpt vars t
    | some false => runsOpt vars e
  | .fetch f => AnyOrder [.op f none]
  | .batch b => AnyOrder b.work
  | .flatten p f => AnyOrder [f.work p]
  | .subscription _ => fun t => t = []

def runsSeq (vars : Option (List (String × Value))) : List Node → List Event → Prop
  | [] => fun t => t = []
  | n :: ns => fun t => ∃ a b, runs vars n a ∧ runsSeq vars ns b ∧ t = a ++ b

def runsOpt (vars : Option (List (String × Value))) : Option Node → List Event → Prop
  | none => fun t => t = []
  | some n => runs vars n
end

theorem runsSeq_cat (vars : Option (List (String × Value))) (ns : List Node) (t : List Event) :
    runsSeq vars ns t ↔ Cat (runs vars) ns t := by
  induction ns generalizing t with
  | nil => simp [runsSeq, Cat]
  | cons n ns ih => simp only [runsSeq, Cat, ih]

theorem runsOpt_opt (vars : Option (List (String × Value))) (n : Option Node) (t : List Event) :
    runsOpt vars n t ↔ OptS (runs vars) n t := by
  cases n <;> simp [runsOpt, OptS]

theorem runs_comp (vars : Option (List (String × Value))) : Comp vars (runs vars) where
  seq ns t := by rw [runs]; exact runsSeq_cat vars ns t
  absent v a b t h := by rw [runs, h]
  yes v a b t h := by rw [runs, h]; exact runsOpt_opt vars a t
  no v a b t h := by rw [runs, h]; exact runsOpt_opt vars b t

/-! ## Requests together -/

theorem together_any (jobs : List (List Work)) (t : List Event) (h : Together jobs t) :
    AnyOrder jobs.flatten t := by
  obtain ⟨order, h1, rfl⟩ := h
  refine ⟨jobs.flatten, order.flatten, .refl _, h1.flatten, ?_⟩
  rw [List.map_flatten, List.map_flatten]
  rfl

theorem anyOrder_nil (t : List Event) : AnyOrder [] t ↔ t = [] := by
  constructor
  · rintro ⟨o1, o2, h1, h2, rfl⟩
    rw [List.perm_nil.1 h1, List.perm_nil.1 h2]
    rfl
  · rintro rfl
    exact ⟨[], [], .refl _, .refl _, rfl⟩

theorem together_nil (t : List Event) : Together [] t ↔ t = [] := by
  constructor
  · rintro ⟨o, h, rfl⟩
    rw [List.perm_nil.1 h]
    rfl
  · rintro rfl
    exact ⟨[], .refl _, rfl⟩

theorem works_flatten (vars : Option (List (String × Value))) (ns : List Node) :
    (ns.filterMap (jobOf vars)).flatten = ns.flatMap (works vars) := by
  induction ns with
  | nil => rfl
  | cons n ns ih =>
    rw [List.filterMap_cons, List.flatMap_cons, ← ih]
    unfold works
    cases jobOf vars n with
    | none => rfl
    | some j => rfl

mutual
/-- A simple node alone and among parallel ones is the same. -/
theorem Simple.exec (P : Fetch → Prop) (vars : Option (List (String × Value))) : ∀ n, Simple P n →
    ∀ t, exec vars n t ↔ Together ((jobOf vars n).toList) t
  | .fetch _, _, t => by simp [Verif.Plan.exec, jobOf]
  | .batch _, _, t => by simp [Verif.Plan.exec, jobOf]
  | .flatten _ f, h, t => by simp [Verif.Plan.exec, jobOf]
  | .cond v a b, h, t => by
    simp only [Simple] at h
    rw [Verif.Plan.exec, jobOf]
    cases truth vars v with
    | none => simp [together_nil]
    | some w =>
      cases w with
      | true => exact SimpleOpt.exec P vars a h.1 t
      | false => exact SimpleOpt.exec P vars b h.2.1 t
  | .seq _, h, t => by simp [Simple] at h
  | .par _, h, t => by simp [Simple] at h
  | .subscription _, h, t => by simp [Simple] at h

theorem SimpleOpt.exec (P : Fetch → Prop) (vars : Option (List (String × Value))) : ∀ n, SimpleOpt P n →
    ∀ t, execOpt vars n t ↔ Together ((jobOf.jobOfOpt vars n).toList) t
  | none, _, t => by simp [execOpt, jobOf.jobOfOpt, together_nil]
  | some n, h, t => by
    simp only [SimpleOpt] at h
    rw [execOpt, jobOf.jobOfOpt]
    exact Simple.exec P vars n h t
end

mutual
theorem Simple.runs (P : Fetch → Prop) (vars : Option (List (String × Value))) : ∀ n, Simple P n →
    ∀ t, runs vars n t ↔ AnyOrder ((jobOf vars n).getD []) t
  | .fetch _, _, t => by simp [Verif.Plan.runs, jobOf]
  | .batch _, _, t => by simp [Verif.Plan.runs, jobOf]
  | .flatten _ f, h, t => by simp [Verif.Plan.runs, jobOf]
  | .cond v a b, h, t => by
    simp only [Simple] at h
    rw [Verif.Plan.runs, jobOf]
    cases truth vars v with
    | none => simp [anyOrder_nil]
    | some w =>
      cases w with
      | true => exact SimpleOpt.runs P vars a h.1 t
      | false => exact SimpleOpt.runs P vars b h.2.1 t
  | .seq _, h, t => by simp [Simple] at h
  | .par _, h, t => by simp [Simple] at h
  | .subscription _, h, t => by simp [Simple] at h

theorem SimpleOpt.runs (P : Fetch → Prop) (vars : Option (List (String × Value))) : ∀ n, SimpleOpt P n →
    ∀ t, runsOpt vars n t ↔ AnyOrder ((jobOf.jobOfOpt vars n).getD []) t
  | none, _, t => by simp [runsOpt, jobOf.jobOfOpt, anyOrder_nil]
  | some n, h, t => by
    simp only [SimpleOpt] at h
    rw [runsOpt, jobOf.jobOfOpt]
    exact Simple.runs P vars n h t
end

theorem Simple.flatOk (P : Fetch → Prop) (n : Node) (h : Simple P n) : FlatOk P n := by
  cases n with
  | flatten p f => simpa [Simple, FlatOk] using h
  | _ => trivial

theorem Simple.flattenPar (P : Fetch → Prop) (n : Node) (h : Simple P n) : n.flattenPar = [n] := by
  cases n with
  | par ns => simp [Simple] at h
  | _ => rfl

theorem optimizeAll_simple (P : Fetch → Prop) (H : Hashers) (ns : List Node) (h : ∀ n ∈ ns, Simple P n) :
    optimizeAll H ns = ns := by
  induction ns with
  | nil => rfl
  | cons n ns ih =>
    rw [optimizeAll, Simple.optimize P H n (h n (by simp)), ih fun m hm => h m (by simp [hm])]

theorem optimize_par (P : Fetch → Prop) (H : Hashers) (ns : List Node) (h : ∀ n ∈ ns, Simple P n) :
    optimize H (.par ns) = mkPar (optPar H ns) := by
  rw [optimize, optimizeAll_simple P H ns h, ite_self]
  congr 2
  clear H
  induction ns with
  | nil => rfl
  | cons n ns ih =>
    rw [List.flatMap_cons, Simple.flattenPar P n (h n (by simp)), ih fun m hm => h m (by simp [hm])]
    rfl

theorem optPar_simple (P : Fetch → Prop) (H : Hashers) (ns : List Node) (h : ∀ n ∈ ns, Simple P n) :
    ∀ n ∈ optPar H ns, Simple P n := by
  intro n hn
  unfold optPar at hn
  rw [replaceFrom_eq] at hn
  obtain ⟨x, hx, hn⟩ := List.mem_flatMap.1 hn
  unfold repl at hn
  split at hn
  · simp only [List.mem_singleton] at hn
    subst hn
    simp [Simple]
  · split at hn
    · cases hn
    · simp only [List.mem_singleton] at hn
      subst hn
      exact h _ (List.fst_mem_of_mem_zipIdx hx)

theorem exec_mkPar (P : Fetch → Prop) (vars : Option (List (String × Value))) (ns : List Node)
    (h : ∀ n ∈ ns, Simple P n) (t : List Event) :
    exec vars (mkPar ns) t ↔ Together (ns.filterMap (jobOf vars)) t := by
  match ns with
  | [] => rw [mkPar, exec] <;> simp
  | [n] =>
    rw [mkPar, Simple.exec P vars n (h n (by simp)) t]
    simp only [List.filterMap_cons, List.filterMap_nil]
    cases jobOf vars n <;> rfl
  | n :: m :: ns => 
    rw [mkPar, exec]
    simp

/-- Batching does not change what is done, but for equal work. -/
theorem optimize_par_runs (H : Hashers) (P : Fetch → Prop) (hD : Distinct H P) (ns : List Node)
    (h : ∀ n ∈ ns, Simple P n) (vars : Option (List (String × Value))) (t : List Event)
    (ht : exec vars (optimize H (.par ns)) t) : ∃ t0, runs vars (.par ns) t0 ∧ Stutter t0 t := by
  rw [optimize_par P H ns h, exec_mkPar P vars _ (optPar_simple P H ns h)] at ht
  obtain ⟨o1, o2, h1, h2, rfl⟩ := together_any _ _ ht
  rw [works_flatten] at h1 h2
  have hc := optPar_collapse H P hD ns (fun n hn => Simple.flatOk P n (h n hn)) vars
  obtain ⟨l1, h3, h4⟩ := hc.perm_right h1
  obtain ⟨l2, h5, h6⟩ := hc.perm_right h2
  refine ⟨l1.map .start ++ l2.map .done, ?_, (h4.map _).append (h6.map _)⟩
  rw [runs]
  exact ⟨l1, l2, h3, h5, rfl⟩

/-! ## Rewriting keeps plans in shape -/

theorem ok_oneClause (P : Fetch → Prop) (n : Node) (h : Ok P n) : OneClause n := by
  cases n with
  | cond v t e =>
    simp only [Ok] at h
    exact h.2.2
  | _ => trivial

theorem ok_flattenSeq (P : Fetch → Prop) (n : Node) (h : Ok P n) : ∀ m ∈ n.flattenSeq, Ok P m := by
  cases n with
  | seq ns => simpa [Node.flattenSeq, Ok, okAll_iff] using h
  | fetch f => simpa [Node.flattenSeq] using h
  | batch f => simpa [Node.flattenSeq] using h
  | par f => simpa [Node.flattenSeq] using h
  | flatten p f => simpa [Node.flattenSeq] using h
  | cond v t e => simpa [Node.flattenSeq] using h
  | subscription f => simpa [Node.flattenSeq] using h

theorem ok_mkSeq (P : Fetch → Prop) (ns : List Node) (h : ∀ n ∈ ns, Ok P n) : Ok P (mkSeq ns) := by
  match ns with
  | [] => simp [mkSeq, Ok, OkAll]
  | [n] => exact h n (by simp)
  | n :: m :: ns =>
    rw [mkSeq, Ok, okAll_iff]
    · exact h
    · simp

theorem ok_inner (P : Fetch → Prop) (t e : Option Node) (ht : OkOpt P t) (he : OkOpt P e) :
    ∀ n ∈ innerNodes t e, Ok P n := by
  cases t with
  | some n =>
    simp only [OkOpt] at ht
    exact ok_flattenSeq P n ht
  | none =>
    cases e with
    | some n =>
      simp only [OkOpt] at he
      exact ok_flattenSeq P n he
    | none => simp [innerNodes]

theorem ok_mergeCond (P : Fetch → Prop) (a b m : Node) (ha : Ok P a) (hb : Ok P b)
    (h : mergeCond a b = some m) : Ok P m := by
  cases a with
  | cond v x y =>
    cases b with
    | cond v' x' y' =>
      simp only [Ok] at ha hb
      have hin : Ok P (mkSeq (innerNodes x y ++ innerNodes x' y')) := by
        refine ok_mkSeq P _ fun n hn => ?_
        rcases List.mem_append.1 hn with hn | hn
        · exact ok_inner P x y ha.1 ha.2.1 n hn
        · exact ok_inner P x' y' hb.1 hb.2.1 n hn
      simp only [mergeCond] at h
      split at h
      · split at h
        · simp only [Option.some.injEq] at h
          subst h
          rename_i hx
          simp only [Ok, OkOpt]
          exact ⟨hin, ha.2.1, by simpa [hx] using ha.2.2⟩
        · simp only [Option.some.injEq] at h
          subst h
          rename_i hx
          simp only [Ok, OkOpt]
          exact ⟨ha.1, hin, by simpa using hx⟩
      · cases h
    | fetch f => cases h
    | batch f => cases h
    | seq f => cases h
    | par f => cases h
    | flatten f => cases h
    | subscription f => cases h
  | fetch f => cases h
  | batch f => cases h
  | seq f => cases h
  | par f => cases h
  | flatten f => cases h
  | subscription f => cases h

theorem ok_mergeLoop (P : Fetch → Prop) (ns : List Node) : ∀ acc : List Node, (∀ n ∈ acc, Ok P n) →
    (∀ n ∈ ns, Ok P n) → ∀ n ∈ mergeLoop acc ns, Ok P n := by
  induction ns with
  | nil =>
    intro acc hacc _
    cases acc with
    | nil => simp [mergeLoop]
    | cons a acc =>
      intro n hn
      rw [mergeLoop, List.mem_reverse] at hn
      exact hacc n hn
  | cons n ns ih =>
    intro acc hacc hns
    cases acc with
    | nil =>
      rw [mergeLoop]
      exact ih [n] (by simpa using hns n (by simp)) fun m hm => hns m (by simp [hm])
    | cons a acc =>
      rw [mergeLoop]
      cases hm : mergeCond a n with
      | some m =>
        refine ih (m :: acc) ?_ fun m hm => hns m (by simp [hm])
        intro x hx
        rcases List.mem_cons.1 hx with rfl | hx
        · exact ok_mergeCond P a n _ (hacc a (by simp)) (hns n (by simp)) hm
        · exact hacc x (by simp [hx])
      | none =>
        refine ih (n :: a :: acc) ?_ fun m hm => hns m (by simp [hm])
        intro x hx
        rcases List.mem_cons.1 hx with rfl | hx
        · exact hns x (by simp)
        · exact hacc x hx

theorem ok_optSeq (P : Fetch → Prop) (ns : List Node) (h : ∀ n ∈ ns, Ok P n) : ∀ n ∈ optSeq ns, Ok P n := by
  refine ok_mergeLoop P _ [] (by simp) ?_
  intro n hn
  obtain ⟨m, hm, hn⟩ := List.mem_flatMap.1 hn
  exact ok_flattenSeq P m (h m hm) n hn

theorem optSeq_runs {vars : Option (List (String × Value))} {S : Node → List Event → Prop}
    (hS : Comp vars S) (P : Fetch → Prop) (ns : List Node) (h : ∀ n ∈ ns, Ok P n) (t : List Event) :
    Cat S (optSeq ns) t ↔ Cat S ns t := by
  refine hS.optSeq ns (fun n hn => ?_) t
  obtain ⟨m, hm, hn⟩ := List.mem_flatMap.1 hn
  exact ok_oneClause P n (ok_flattenSeq P m (h m hm) n hn)

mutual
theorem ok_optimize (P : Fetch → Prop) (H : Hashers) : ∀ n, Ok P n → Ok P (optimize H n)
  | .fetch _, _ => by simp [optimize, Ok]
  | .batch _, _ => by simp [optimize, Ok]
  | .flatten _ f, h => by simpa [optimize, Ok] using h
  | .cond _ t e, h => by
    simp only [Ok] at h
    simp only [optimize, Ok]
    refine ⟨ok_optimizeOpt P H t h.1, ok_optimizeOpt P H e h.2.1, ?_⟩
    have h3 := h.2.2
    cases t <;> cases e <;> simp_all [optimizeOpt]
  | .seq ns, h => by
    simp only [Ok] at h
    rw [optimize]
    exact ok_mkSeq P _ (ok_optSeq P _ (ok_optimizeAll P H ns h))
  | .par ns, h => by
    simp only [Ok] at h
    rw [optimize_par P H ns h]
    have := optPar_simple P H ns h
    revert this
    generalize optPar H ns = ms
    intro this
    match ms with
    | [] => simp [mkPar, Ok]
    | [n] => exact Simple.ok P n (this n (by simp))
    | n :: m :: ms =>
      rw [mkPar, Ok]
      · exact this
      · simp
  | .subscription _, h => by simp [Ok] at h

theorem ok_optimizeAll (P : Fetch → Prop) (H : Hashers) : ∀ ns, OkAll P ns →
    ∀ n ∈ optimizeAll H ns, Ok P n
  | [], _ => by simp [optimizeAll]
  | n :: ns, h => by
    simp only [OkAll] at h
    rw [optimizeAll]
    intro m hm
    rcases List.mem_cons.1 hm with rfl | hm
    · exact ok_optimize P H n h.1
    · exact ok_optimizeAll P H ns h.2 m hm

theorem ok_optimizeOpt (P : Fetch → Prop) (H : Hashers) : ∀ n, OkOpt P n → OkOpt P (optimizeOpt H n)
  | none, _ => by simp [optimizeOpt, OkOpt]
  | some n, h => by
    simp only [OkOpt] at h
    simp only [optimizeOpt, OkOpt]
    exact ok_optimize P H n h
end

mutual
/-- Executions of the rewritten plan are executions of the plan, but for equal work. -/
theorem optimize_runs (H : Hashers) (P : Fetch → Prop) (hD : Distinct H P)
    (vars : Option (List (String × Value))) : ∀ n, Ok P n → ∀ t, exec vars (optimize H n) t →
      ∃ t0, runs vars n t0 ∧ Stutter t0 t
  | .fetch f, _, t, h => by
    rw [optimize, exec] at h
    exact ⟨t, by rw [runs]; simpa using together_any _ _ h, .refl _⟩
  | .batch b, _, t, h => by
    rw [optimize, exec] at h
    exact ⟨t, by rw [runs]; simpa using together_any _ _ h, .refl _⟩
  | .flatten p f, _, t, h => by
    rw [optimize, exec] at h
    exact ⟨t, by rw [runs]; simpa using together_any _ _ h, .refl _⟩
  | .cond v a b, hok, t, h => by
    simp only [Ok] at hok
    rw [optimize, exec] at h
    rw [runs]
    cases ht : truth vars v with
    | none =>
      rw [ht] at h
      exact ⟨t, h, .refl _⟩
    | some w =>
      rw [ht] at h
      cases w with
      | true => exact optimizeOpt_runs H P hD vars a hok.1 t h
      | false => exact optimizeOpt_runs H P hD vars b hok.2.1 t h
  | .seq ns, hok, t, h => by
    simp only [Ok] at hok
    rw [optimize, (exec_comp vars).mkSeq, optSeq_runs (exec_comp vars) P _ (ok_optimizeAll P H ns hok)] at h
    rw [runs]
    exact optimizeAll_runs H P hD vars ns hok t h
  | .par ns, hok, t, h => by
    simp only [Ok] at hok
    exact optimize_par_runs H P hD ns hok vars t h
  | .subscription _, hok, _, _ => by simp [Ok] at hok

theorem optimizeAll_runs (H : Hashers) (P : Fetch → Prop) (hD : Distinct H P)
    (vars : Option (List (String × Value))) : ∀ ns, OkAll P ns → ∀ t,
      Cat (exec vars) (optimizeAll H ns) t → ∃ t0, runsSeq vars ns t0 ∧ Stutter t0 t
  | [], _, t, h => by
    rw [optimizeAll] at h
    exact ⟨t, by rw [runsSeq]; exact h, .refl _⟩
  | n :: ns, hok, t, h => by
    simp only [OkAll] at hok
    rw [optimizeAll] at h
    obtain ⟨a, b, h1, h2, rfl⟩ := h
    obtain ⟨a0, h3, h4⟩ := optimize_runs H P hD vars n hok.1 a h1
    obtain ⟨b0, h5, h6⟩ := optimizeAll_runs H P hD vars ns hok.2 b h2
    refine ⟨a0 ++ b0, ?_, h4.append h6⟩
    rw [runsSeq]
    exact ⟨a0, b0, h3, h5, rfl⟩

theorem optimizeOpt_runs (H : Hashers) (P : Fetch → Prop) (hD : Distinct H P)
    (vars : Option (List (String × Value))) : ∀ n, OkOpt P n → ∀ t, execOpt vars (optimizeOpt H n) t →
      ∃ t0, runsOpt vars n t0 ∧ Stutter t0 t
  | none, _, t, h => by
    rw [optimizeOpt, execOpt] at h
    exact ⟨t, by rw [runsOpt]; exact h, .refl _⟩
  | some n, hok, t, h => by
    simp only [OkOpt] at hok
    rw [optimizeOpt, execOpt] at h
    obtain ⟨t0, h1, h2⟩ := optimize_runs H P hD vars n hok t h
    exact ⟨t0, by rw [runsOpt]; exact h1, h2⟩
end

/-! ## From the waves -/

theorem isTrue_iff (vars : Option (List (String × Value))) (v : String) :
    IsTrue vars v ↔ truth vars v = some true := by
  unfold IsTrue truth
  cases vars with
  | none => simp
  | some m =>
    cases h : lookup v m with
    | none => simp [h]
    | some x =>
      cases x with
      | bool b => cases b <;> simp [h]
      | _ => simp [h]

theorem isFalse_iff (vars : Option (List (String × Value))) (v : String) :
    IsFalse vars v ↔ truth vars v = some false := by
  unfold IsFalse truth
  cases vars with
  | none => simp
  | some m =>
    cases h : lookup v m with
    | none => simp [h]
    | some x =>
      cases x with
      | bool b => cases b <;> simp [h]
      | _ => simp [h]

theorem bare_job (vars : Option (List (String × Value))) (s : Step) (hs : s.subscription = false) :
    jobOf vars (Node.bare s) = some [s.work] := by
  unfold Node.bare Step.work
  by_cases hp : s.path = []
  · simp [hp, hs, jobOf]
  · simp only [hp, if_false, jobOf, Fetch.work, Fetch.ofStep]
    cases s.entity <;> rfl

theorem ofStep_wanted (vars : Option (List (String × Value))) (s : Step) (hs : s.subscription = false)
    (h : Wanted vars s) : works vars (Node.ofStep s) = [s.work] := by
  unfold Wanted at h
  unfold works Node.ofStep
  cases hc : s.cond with
  | none => simp [bare_job vars s hs]
  | some c =>
    rw [hc] at h
    cases c with
    | incl v =>
      simp only [isTrue_iff] at h
      simp [jobOf, jobOf.jobOfOpt, h, bare_job vars s hs]
    | skip v =>
      simp only [isFalse_iff] at h
      simp [jobOf, jobOf.jobOfOpt, h, bare_job vars s hs]
    | skipIncl a b =>
      simp only [isTrue_iff, isFalse_iff] at h
      simp [jobOf, jobOf.jobOfOpt, h.1, h.2, bare_job vars s hs]

theorem ofStep_unwanted (vars : Option (List (String × Value))) (s : Step) (h : ¬ Wanted vars s) :
    works vars (Node.ofStep s) = [] := by
  unfold Wanted at h
  unfold works Node.ofStep
  cases hc : s.cond with
  | none => rw [hc] at h; exact absurd trivial h
  | some c =>
    rw [hc] at h
    cases c with
    | incl v =>
      simp only [isTrue_iff] at h
      simp only [jobOf]
      cases ht : truth vars v with
      | none => simp
      | some w => cases w <;> simp_all [jobOf.jobOfOpt]
    | skip v =>
      simp only [isFalse_iff] at h
      simp only [jobOf]
      cases ht : truth vars v with
      | none => simp
      | some w => cases w <;> simp_all [jobOf.jobOfOpt]
    | skipIncl a b =>
      simp only [isTrue_iff, isFalse_iff] at h
      simp only [jobOf]
      cases ht : truth vars a with
      | none => simp
      | some w =>
        cases w with
        | true => simp [jobOf.jobOfOpt]
        | false =>
          simp only [jobOf.jobOfOpt, jobOf]
          cases ht' : truth vars b with
          | none => simp
          | some w => cases w <;> simp_all [jobOf.jobOfOpt]

theorem ofStep_simple (P : Fetch → Prop) (s : Step) (hs : s.subscription = false)
    (hP : P (Fetch.ofStep s)) : Simple P (Node.ofStep s) := by
  have hb : Simple P (Node.bare s) := by
    unfold Node.bare
    split
    · simp [hs, Simple]
    · simpa [Simple] using hP
  unfold Node.ofStep
  cases s.cond with
  | none => exact hb
  | some c =>
    cases c <;> simp [Simple, SimpleOpt, hb]

section
open Classical

/-- The events of waves. -/
def WaveTrace (wanted : Nat → Prop) : List (List Nat) → List StepEvent → Prop
  | [], t => t = []
  | W :: ws, t => ∃ (o1 o2 : List Nat) (rest : List StepEvent), o1.Perm (W.filter fun n => decide (wanted n)) ∧
      o2.Perm (W.filter fun n => decide (wanted n)) ∧ WaveTrace wanted ws rest ∧
      t = (o1.map .start ++ o2.map .done) ++ rest

theorem wave_works (g : Graph) (vars : Option (List (String × Value)))
    (hs : ∀ n, (g.step n).subscription = false) (W : List Nat) :
    W.flatMap (fun n => works vars (Node.ofStep (g.step n))) =
      (W.filter fun n => decide (Wanted vars (g.step n))).map fun n => (g.step n).work := by
  induction W with
  | nil => rfl
  | cons n W ih =>
    rw [List.flatMap_cons, List.filter_cons, ih]
    by_cases h : Wanted vars (g.step n)
    · rw [ofStep_wanted vars _ (hs n) h]
      simp [h]
    · rw [ofStep_unwanted vars _ h]
      simp [h]

theorem waveNode_runs (g : Graph) (vars : Option (List (String × Value)))
    (hs : ∀ n, (g.step n).subscription = false) (W : List Nat) (t : List Event)
    (h : runs vars (waveNode g W) t) :
    ∃ o1 o2 : List Nat, o1.Perm (W.filter fun n => decide (Wanted vars (g.step n))) ∧
      o2.Perm (W.filter fun n => decide (Wanted vars (g.step n))) ∧
      t = (o1.map StepEvent.start ++ o2.map StepEvent.done).map (StepEvent.event g) := by
  have hany : AnyOrder (W.flatMap fun n => works vars (Node.ofStep (g.step n))) t := by
    match W with
    | [n] =>
      rw [waveNode, Simple.runs (fun _ => True) vars _ (ofStep_simple _ _ (hs n) trivial)] at h
      simpa [works] using h
    | [] =>
      rw [waveNode, runs] at h
      · simpa using h
      · simp
    | n :: m :: W =>
      rw [waveNode, runs] at h
      · simpa [List.flatMap_map] using h
      · simp
  rw [wave_works g vars hs] at hany
  obtain ⟨p1, p2, h1, h2, rfl⟩ := hany
  obtain ⟨o1, h3, rfl⟩ := perm_lift (fun n => (g.step n).work) p1 _ h1
  obtain ⟨o2, h4, rfl⟩ := perm_lift (fun n => (g.step n).work) p2 _ h2
  refine ⟨o1, o2, h3, h4, ?_⟩
  simp [StepEvent.event, Function.comp_def]

theorem waves_trace (g : Graph) (vars : Option (List (String × Value)))
    (hs : ∀ n, (g.step n).subscription = false) (ws : List (List Nat)) : ∀ t,
    Cat (runs vars) (ws.map (waveNode g)) t →
    ∃ tn, WaveTrace (fun n => Wanted vars (g.step n)) ws tn ∧ t = tn.map (StepEvent.event g) := by
  induction ws with
  | nil => intro t h; exact ⟨[], rfl, h⟩
  | cons W ws ih =>
    rintro t ⟨a, b, h1, h2, rfl⟩
    obtain ⟨o1, o2, h3, h4, rfl⟩ := waveNode_runs g vars hs W a h1
    obtain ⟨tn, h5, rfl⟩ := ih b h2
    exact ⟨_, ⟨o1, o2, tn, h3, h4, h5, rfl⟩, by simp⟩

theorem waveTrace_append (wanted : Nat → Prop) (as bs : List (List Nat)) (t : List StepEvent)
    (h : WaveTrace wanted (as ++ bs) t) :
    ∃ x y, WaveTrace wanted as x ∧ WaveTrace wanted bs y ∧ t = x ++ y := by
  induction as generalizing t with
  | nil => exact ⟨[], t, rfl, h, rfl⟩
  | cons W as ih =>
    obtain ⟨o1, o2, rest, h1, h2, h3, rfl⟩ := h
    obtain ⟨x, y, h4, h5, rfl⟩ := ih rest h3
    exact ⟨_, y, ⟨o1, o2, x, h1, h2, h4, rfl⟩, h5, by simp⟩

theorem waveTrace_only (wanted : Nat → Prop) (ws : List (List Nat)) (t : List StepEvent)
    (h : WaveTrace wanted ws t) : ∀ e ∈ t, e.node ∈ ws.flatten ∧ wanted e.node := by
  induction ws generalizing t with
  | nil => cases h; simp
  | cons W ws ih =>
    obtain ⟨o1, o2, rest, h1, h2, h3, rfl⟩ := h
    intro e he
    rcases List.mem_append.1 he with he | he
    · have hm : e.node ∈ W.filter fun n => decide (wanted n) := by
        rcases List.mem_append.1 he with he | he
        · obtain ⟨n, hn, rfl⟩ := List.mem_map.1 he
          exact h1.mem_iff.1 hn
        · obtain ⟨n, hn, rfl⟩ := List.mem_map.1 he
          exact h2.mem_iff.1 hn
      rw [List.mem_filter] at hm
      exact ⟨by simp [hm.1], by simpa using hm.2⟩
    · have := ih rest h3 e he
      exact ⟨by simp [this.1], this.2⟩

theorem count_start (o1 o2 : List Nat) (n : Nat) :
    (o1.map StepEvent.start ++ o2.map StepEvent.done).count (.start n) = o1.count n := by
  rw [List.count_append]
  have h2 : (o2.map StepEvent.done).count (.start n) = 0 := by
    rw [List.count_eq_zero]
    simp
  rw [h2, Nat.add_zero]
  induction o1 with
  | nil => rfl
  | cons a o1 ih => simp [List.count_cons, ih]

theorem count_done (o1 o2 : List Nat) (n : Nat) :
    (o1.map StepEvent.start ++ o2.map StepEvent.done).count (.done n) = o2.count n := by
  rw [List.count_append]
  have h2 : (o1.map StepEvent.start).count (.done n) = 0 := by
    rw [List.count_eq_zero]
    simp
  rw [h2, Nat.zero_add]
  induction o2 with
  | nil => rfl
  | cons a o1 ih => simp [List.count_cons, ih]

theorem waveTrace_count (wanted : Nat → Prop) (ws : List (List Nat)) (t : List StepEvent)
    (h : WaveTrace wanted ws t) (n : Nat) :
    t.count (.start n) = (ws.flatten.filter fun n => decide (wanted n)).count n ∧
      t.count (.done n) = (ws.flatten.filter fun n => decide (wanted n)).count n := by
  induction ws generalizing t with
  | nil => cases h; simp
  | cons W ws ih =>
    obtain ⟨o1, o2, rest, h1, h2, h3, rfl⟩ := h
    obtain ⟨i1, i2⟩ := ih rest h3
    have e1 := List.count_append (a := StepEvent.start n)
      (l₁ := o1.map StepEvent.start ++ o2.map StepEvent.done) (l₂ := rest)
    have e2 := List.count_append (a := StepEvent.done n)
      (l₁ := o1.map StepEvent.start ++ o2.map StepEvent.done) (l₂ := rest)
    rw [e1, e2, count_start, count_done, i1, i2, h1.count_eq, h2.count_eq,
      List.flatten_cons, List.filter_append, List.count_append]
    exact ⟨rfl, rfl⟩

theorem waveTrace_mem (wanted : Nat → Prop) (ws : List (List Nat)) (t : List StepEvent)
    (h : WaveTrace wanted ws t) (n : Nat) (hn : n ∈ ws.flatten) (hw : wanted n) :
    StepEvent.start n ∈ t ∧ StepEvent.done n ∈ t := by
  obtain ⟨h1, h2⟩ := waveTrace_count wanted ws t h n
  have : 0 < (ws.flatten.filter fun n => decide (wanted n)).count n := by
    rw [List.count_pos_iff, List.mem_filter]
    exact ⟨hn, by simpa using hw⟩
  exact ⟨List.count_pos_iff.1 (by omega), List.count_pos_iff.1 (by omega)⟩

theorem before_of_mem {α : Type} (a b : α) (x y : List α) (ha : a ∈ x) (hb : b ∈ y) :
    Before a b (x ++ y) := by
  obtain ⟨x1, x2, rfl⟩ := List.append_of_mem ha
  obtain ⟨y1, y2, rfl⟩ := List.append_of_mem hb
  exact ⟨x1, x2 ++ y1, y2, by simp⟩

theorem before_mid {α : Type} (a b : α) (p x q : List α) (h : Before a b x) : Before a b (p ++ x ++ q) := by
  obtain ⟨u, v, w, rfl⟩ := h
  exact ⟨p ++ u, v, w ++ q, by simp⟩

theorem waveTrace_good (g : Graph) (hg : g.WF) (root : Nat) (vars : Option (List (String × Value)))
    (ws : List (List Nat)) (hw : WavesOk g root ws) (t : List StepEvent)
    (h : WaveTrace (fun n => Wanted vars (g.step n)) ws t) : Good g root vars t where
  only e he := by
    obtain ⟨h1, h2⟩ := waveTrace_only _ ws t h e he
    obtain ⟨h3, h4⟩ := (hw.mem _).1 h1
    exact ⟨h3, h4, h2⟩
  once n hn hr hwn := by
    have hm : n ∈ ws.flatten := (hw.mem n).2 ⟨hn, hr⟩
    obtain ⟨h1, h2⟩ := waveTrace_count _ ws t h n
    have hc : (ws.flatten.filter fun n => decide (Wanted vars (g.step n))).count n = 1 := by
      rw [List.Nodup.count ((hw.nodup hg).filter _), if_pos]
      rw [List.mem_filter]
      exact ⟨hm, by simpa using hwn⟩
    refine ⟨h1.trans hc, h2.trans hc, ?_⟩
    obtain ⟨pre, W, post, rfl, hnW⟩ := mem_flatten_split ws n hm
    obtain ⟨x, y, _, hy, rfl⟩ := waveTrace_append _ pre (W :: post) t h
    obtain ⟨o1, o2, rest, p1, p2, _, rfl⟩ := hy
    have hmem : n ∈ W.filter fun n => decide (Wanted vars (g.step n)) := by
      rw [List.mem_filter]; exact ⟨hnW, by simpa using hwn⟩
    have hb : Before (StepEvent.start n) (.done n) (o1.map StepEvent.start ++ o2.map StepEvent.done) :=
      before_of_mem _ _ _ _ (List.mem_map.2 ⟨n, p1.mem_iff.2 hmem, rfl⟩)
        (List.mem_map.2 ⟨n, p2.mem_iff.2 hmem, rfl⟩)
    have := before_mid _ _ x _ rest hb
    simpa using this
  order u v hd hu hv := by
    obtain ⟨w, hwe⟩ := depends_end g root u v hd
    have hvr : v ≠ root := fun he => hw.noRoot w (he ▸ hwe)
    have hm : v ∈ ws.flatten := (hw.mem v).2 ⟨(hg.ends _ hwe).2, hvr⟩
    obtain ⟨pre, W, post, rfl, hvW⟩ := mem_flatten_split ws v hm
    have hup := hw.depends hg u v hd pre W post rfl hvW
    obtain ⟨x, y, hx, hy, rfl⟩ := waveTrace_append _ pre (W :: post) t h
    exact before_of_mem _ _ _ _ (waveTrace_mem _ _ _ hx u hup hu).2
      (waveTrace_mem _ _ _ hy v (by simp [hvW]) hv).1

end

/-! ## The whole plan -/

theorem waveNode_ok (P : Fetch → Prop) (g : Graph) (hs : ∀ n, (g.step n).subscription = false)
    (W : List Nat) (hP : ∀ n ∈ W, P (Fetch.ofStep (g.step n))) : Ok P (waveNode g W) := by
  have hpar : Ok P (.par (W.map fun n => Node.ofStep (g.step n))) := by
    simp only [Ok, List.mem_map]
    rintro _ ⟨n, hn, rfl⟩
    exact ofStep_simple P _ (hs n) (hP n hn)
  match W with
  | [n] => exact Simple.ok P _ (ofStep_simple P _ (hs n) (hP n (by simp)))
  | [] => exact hpar
  | n :: m :: W => exact hpar

theorem plan_good (H : Hashers) (g : Graph) (hg : g.WF) (root : Nat) (hr : g.root = some root)
    (hs : ∀ n, (g.step n).subscription = false)
    (hD : Distinct H fun f => ∃ n ∈ g.nodes, f = Fetch.ofStep (g.step n)) (p : Node)
    (hp : g.plan H = .ok p) (vars : Option (List (String × Value))) (t : List Event)
    (ht : exec vars p t) :
    ∃ tn, Good g root vars tn ∧ Stutter (tn.map (StepEvent.event g)) t := by
  unfold Graph.plan at hp
  simp only [bind, Except.bind] at hp
  cases hw : g.waves with
  | error e => rw [hw] at hp; cases hp
  | ok ws =>
    rw [hw] at hp
    simp only at hp
    split at hp
    · cases hp
    · cases hp
      have hok := waves_ok g hg root hr ws hw
      have hall : ∀ n ∈ ws.map (waveNode g),
          Ok (fun f => ∃ n ∈ g.nodes, f = Fetch.ofStep (g.step n)) n := by
        intro n hn
        obtain ⟨W, hW, rfl⟩ := List.mem_map.1 hn
        refine waveNode_ok _ g hs W fun n hnW => ⟨n, ?_, rfl⟩
        exact ((hok.mem n).1 (List.mem_flatten.2 ⟨W, hW, hnW⟩)).1
      have hroot : rootNode (ws.map (waveNode g)) = mkSeq (optSeq (ws.map (waveNode g))) := by
        unfold rootNode
        generalize optSeq (ws.map (waveNode g)) = ns
        match ns with
        | [] => rfl
        | [n] => rfl
        | n :: m :: ns => rfl
      rw [hroot] at ht
      obtain ⟨t0, h1, h2⟩ := optimize_runs H _ hD vars _ (ok_mkSeq _ _ (ok_optSeq _ _ hall)) t ht
      rw [(runs_comp vars).mkSeq, optSeq_runs (runs_comp vars) _ _ hall] at h1
      obtain ⟨tn, h3, rfl⟩ := waves_trace g vars hs ws t0 h1
      exact ⟨tn, waveTrace_good g hg root vars ws hok tn h3, h2⟩

end Verif.Plan
