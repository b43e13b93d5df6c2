import Verif.Fetch.Ends

/-!
# All passes together

Optimizing ends if no step comes to wait for itself while steps are merged with their children and siblings.
-/

namespace Verif.Fetch

open Verif.Graph (Super)

theorem siblingLoop_fuel : ∀ (n : Nat) (q : List Nat) (g : Graph) (m : Nat), n ≤ m →
    siblingLoop n q g = .error .fuel ∨ siblingLoop m q g = siblingLoop n q g
  | 0, _, _, _, _ => .inl rfl
  | n + 1, [], _, m + 1, _ => .inr rfl
  | n + 1, p :: q, g, m + 1, h => by
    simp only [siblingLoop]
    split
    next => exact .inr rfl
    next rep' g' _ => exact siblingLoop_fuel n _ g' m (by omega)

theorem mergeSiblings_fuel (g : Graph) : Steadfast (mergeSiblings · g) := by
  intro n m h
  simp only [mergeSiblings]
  split
  · exact .inr rfl
  · exact siblingLoop_fuel n _ _ m h

theorem batchLoop_fuel : ∀ (n : Nat) (q : List Nat) (g : Graph) (m : Nat), n ≤ m →
    batchLoop n q g = .error .fuel ∨ batchLoop m q g = batchLoop n q g
  | 0, _, _, _, _ => .inl rfl
  | n + 1, [], _, m + 1, _ => .inr rfl
  | n + 1, p :: q, g, m + 1, h => by
    simp only [batchLoop]
    split
    next => exact .inr rfl
    next g' _ => exact batchLoop_fuel n _ g' m (by omega)

theorem batchTypes_fuel (g : Graph) : Steadfast (batchTypes · g) := by
  intro n m h
  simp only [batchTypes]
  split
  · exact .inr rfl
  · exact batchLoop_fuel n _ _ m h

theorem mergeLeafs_fuel : ∀ (n : Nat) (g : Graph) (m : Nat), n ≤ m →
    mergeLeafs n g = .error .fuel ∨ mergeLeafs m g = mergeLeafs n g
  | 0, _, _, _ => .inl rfl
  | n + 1, g, m + 1, h => by
    simp only [mergeLeafs]
    split
    · exact .inr rfl
    · split
      · exact .inr rfl
      next g' _ => exact mergeLeafs_fuel n g' m (by omega)

/-- From some fuel on the result is always the same, and it is one. -/
def Settles {α : Type} (f : Nat → Except Err α) (x : Except Err α) : Prop := Done x ∧ ∃ n, ∀ m, n ≤ m → f m = x

theorem Steadfast.settles {α : Type} {f : Nat → Except Err α} (h : Steadfast f) (he : Ends f) :
    ∃ x, Settles f x := by
  obtain ⟨n, hn⟩ := he
  refine ⟨f n, hn, n, fun m hm => ?_⟩
  rcases h n m hm with e | e
  · exact absurd e hn
  · exact e

theorem Settles.bind {α β : Type} {f : Nat → Except Err α} {x : Except Err α} (hf : Settles f x)
    {k : Nat → α → Except Err β} {e : Nat → Except Err β} (he : ∀ n, e n = match f n with
      | .error e => .error e
      | .ok a => k n a) (hk : ∀ a, x = .ok a → ∃ y, Settles (k · a) y) : ∃ y, Settles e y := by
  obtain ⟨hd, n, hn⟩ := hf
  cases x with
  | error er =>
    refine ⟨.error er, done_of hd rfl, n, fun m hm => ?_⟩
    rw [he, hn m hm]
  | ok a =>
    obtain ⟨y, hy, n', hn'⟩ := hk a rfl
    refine ⟨y, hy, max n n', fun m hm => ?_⟩
    rw [he, hn m (Nat.le_trans (Nat.le_max_left ..) hm)]
    exact hn' m (Nat.le_trans (Nat.le_max_right ..) hm)

theorem Settles.at {α : Type} {f : Nat → Except Err α} {a : α} (h : Settles f (.ok a)) : ∃ n, f n = .ok a := by
  obtain ⟨_, n, hn⟩ := h
  exact ⟨n, hn n (Nat.le_refl _)⟩

/-! ## What the loops lead to -/

theorem siblingLoop_result : ∀ (n : Nat) {q : List Nat} {g g' : Graph}, siblingLoop n q g = .ok g' →
    ∃ k, siblingRun k q g = .ok ([], g')
  | 0, _, _, _, h => by simp [siblingLoop] at h
  | n + 1, [], g, g', h => by
    simp only [siblingLoop, Except.ok.injEq] at h
    exact ⟨0, by rw [← h]; rfl⟩
  | n + 1, p :: q, g, g', h => by
    simp only [siblingLoop] at h
    split at h
    next => cases h
    next rep g1 hm =>
      obtain ⟨k, hk⟩ := siblingLoop_result n h
      exact ⟨k + 1, by simp only [siblingRun, hm]; exact hk⟩

theorem siblingLoop_live : ∀ (n : Nat) {q : List Nat} {g g' : Graph}, siblingLoop n q g = .ok g' →
    live g' < live g ∨ g' = g
  | 0, _, _, _, h => by simp [siblingLoop] at h
  | n + 1, [], g, g', h => by
    simp only [siblingLoop, Except.ok.injEq] at h
    exact .inr h.symm
  | n + 1, p :: q, g, g', h => by
    simp only [siblingLoop] at h
    split at h
    next => cases h
    next rep g1 hm =>
      rcases siblingLoop_live n h with h1 | rfl <;> rcases runMerges_live performMerge_live hm with h2 | ⟨_, rfl⟩
      · exact .inl (Nat.lt_trans h1 h2)
      · exact .inl h1
      · exact .inl h2
      · exact .inr rfl

theorem mergeSiblings_live {n : Nat} {g g' : Graph} (h : mergeSiblings n g = .ok g') : live g' < live g ∨ g' = g := by
  unfold mergeSiblings at h
  split at h
  next => cases h
  next => exact siblingLoop_live n h

theorem mergeSiblings_sound {n : Nat} {g g' : Graph} (hs : ∀ r, g.root = some r → SiblingsSound [r] g)
    (h : mergeSiblings n g = .ok g') : Sound g' := by
  unfold mergeSiblings at h
  split at h
  next => cases h
  next r hr =>
    obtain ⟨k, hk⟩ := siblingLoop_result n h
    refine hs r ?_ k _ _ hk
    unfold Graph.start at hr
    split at hr
    next x hx => cases hr; exact hx
    next => cases hr

theorem downLoop_result {can : Graph → Nat → Nat → Bool} {merge : Nat → Nat → Graph → Except Err Graph} :
    ∀ (n : Nat) {q : List Nat} {rep : Rep} {g g' : Graph}, downLoop can merge n q rep g = .ok g' →
    ∃ k rep', downRun can merge k q rep g = .ok ([], rep', g')
  | 0, _, _, _, _, h => by simp [downLoop] at h
  | n + 1, [], rep, g, g', h => by
    simp only [downLoop, Except.ok.injEq] at h
    exact ⟨0, rep, by rw [← h]; rfl⟩
  | n + 1, p :: q, rep, g, g', h => by
    simp only [downLoop] at h
    split at h
    next => cases h
    next p' hp =>
      split at h
      next => cases h
      next s hs =>
        split at h
        next => cases h
        next rep1 g1 hm =>
          obtain ⟨k, rep', hk⟩ := downLoop_result n h
          exact ⟨k + 1, rep', by simp only [downRun, hp, hs, hm]; exact hk⟩

theorem downLoop_live {can : Graph → Nat → Nat → Bool} {merge : Nat → Nat → Graph → Except Err Graph}
    (hl : ∀ {t s g g'}, merge t s g = .ok g' → live g' < live g) :
    ∀ (n : Nat) {q : List Nat} {rep : Rep} {g g' : Graph}, downLoop can merge n q rep g = .ok g' →
    live g' < live g ∨ g' = g
  | 0, _, _, _, _, h => by simp [downLoop] at h
  | n + 1, [], rep, g, g', h => by
    simp only [downLoop, Except.ok.injEq] at h
    exact .inr h.symm
  | n + 1, p :: q, rep, g, g', h => by
    simp only [downLoop] at h
    split at h
    next => cases h
    next =>
      split at h
      next => cases h
      next =>
        split at h
        next => cases h
        next rep1 g1 hm =>
          rcases downLoop_live hl n h with h1 | rfl <;> rcases runMerges_live hl hm with h2 | ⟨_, rfl⟩
          · exact .inl (Nat.lt_trans h1 h2)
          · exact .inl h1
          · exact .inl h2
          · exact .inr rfl

theorem mergePassthrough_live {n : Nat} {g g' : Graph} (h : mergePassthrough n g = .ok g') :
    live g' < live g ∨ g' = g := by
  unfold mergePassthrough at h
  split at h
  next => cases h
  next => exact downLoop_live passMerge_live n h

theorem mergeChildren_live {n : Nat} {g g' : Graph} (h : mergeChildren n g = .ok g') :
    live g' < live g ∨ g' = g := by
  unfold mergeChildren at h
  split at h
  next => cases h
  next => exact downLoop_live performMerge_live n h

theorem mergeChildren_sound {n : Nat} {g g' : Graph}
    (hs : ∀ r, g.root = some r → DownSound canMerge (performMerge false) [r] [(r, r)] g)
    (h : mergeChildren n g = .ok g') : Sound g' := by
  unfold mergeChildren at h
  split at h
  next => cases h
  next r hr =>
    obtain ⟨k, rep', hk⟩ := downLoop_result n h
    refine hs r ?_ k _ _ _ hk
    unfold Graph.start at hr
    split at hr
    next x hx => cases hr; exact hx
    next => cases hr

theorem mergeLeafs_live : ∀ (n : Nat) {g g' : Graph}, mergeLeafs n g = .ok g' → live g' < live g ∨ g' = g
  | 0, _, _, h => by simp [mergeLeafs] at h
  | n + 1, g, g', h => by
    simp only [mergeLeafs] at h
    split at h
    next => cases h; exact .inr rfl
    next =>
      split at h
      next => cases h
      next g1 hm =>
        have := performMerge_live hm
        rcases mergeLeafs_live n h with h1 | rfl
        · exact .inl (Nat.lt_trans h1 this)
        · exact .inl this

theorem batchLoop_live : ∀ (n : Nat) {q : List Nat} {g g' : Graph}, batchLoop n q g = .ok g' →
    live g' < live g ∨ g' = g
  | 0, _, _, _, h => by simp [batchLoop] at h
  | n + 1, [], g, g', h => by
    simp only [batchLoop, Except.ok.injEq] at h
    exact .inr h.symm
  | n + 1, p :: q, g, g', h => by
    simp only [batchLoop] at h
    split at h
    next => cases h
    next g1 hm =>
      rcases batchLoop_live n h with h1 | rfl <;> rcases runBatches_live hm with h2 | rfl
      · exact .inl (Nat.lt_trans h1 h2)
      · exact .inl h1
      · exact .inl h2
      · exact .inr rfl

theorem batchTypes_live {n : Nat} {g g' : Graph} (h : batchTypes n g = .ok g') : live g' < live g ∨ g' = g := by
  unfold batchTypes at h
  split at h
  next => cases h
  next => exact batchLoop_live n h

/-- There are fewer steps, or as many and not more edges. -/
def Less (g' g : Graph) : Prop := live g' < live g ∨ (live g' = live g ∧ g'.edges.length ≤ g.edges.length)

theorem Less.of {g' g : Graph} (h : live g' < live g ∨ g' = g) : Less g' g :=
  h.imp id fun e => by rw [e]; exact ⟨rfl, Nat.le_refl _⟩

theorem Less.trans {a b c : Graph} (h : Less a b) (h' : Less b c) : Less a c := by
  unfold Less at *
  omega

theorem remove_has {g : Graph} {m n : Nat} (h : (g.remove m).has n = true) : g.has n = true := by
  simp only [Graph.has, Graph.remove] at h ⊢
  rw [List.getElem?_set] at h
  split at h
  next s hs =>
    split at hs
    next =>
      split at hs <;> cases hs
    next => rw [hs]
  next => cases h

theorem remove_less {g : Graph} {m : Nat} : Less (g.remove m) g := by
  have h1 : live (g.remove m) ≤ live g := live_le (by simp [Graph.remove]) fun n => remove_has
  have h2 : (g.remove m).edges.length ≤ g.edges.length := List.length_filter_le ..
  unfold Less
  omega

theorem removes_less : ∀ (l : List Nat) (g : Graph), Less (l.foldl Graph.remove g) g
  | [], _ => .of (.inr rfl)
  | m :: r, g => (removes_less r (g.remove m)).trans remove_less

theorem prune_less (g : Graph) : Less (prune g) g := by
  have h1 := removes_less (g.indices.filter (useless g)) g
  have h2 : Less (prune g) ((g.indices.filter (useless g)).foldl Graph.remove g) :=
    .inr ⟨rfl, List.length_filter_le ..⟩
  exact h2.trans h1

theorem normSteps_has {S : Super} : ∀ {l l' : List (Option Step)}, normSteps S l = .ok l' →
    l'.map Option.isSome = l.map Option.isSome
  | [], l', h => by simp only [normSteps] at h; cases h; rfl
  | none :: r, l', h => by
    simp only [normSteps, Except.map] at h
    split at h
    next => cases h
    next r' hr => cases h; simp [normSteps_has hr]
  | some s :: r, l', h => by
    simp only [normSteps] at h
    split at h
    next => cases h
    next => cases h
    next o r' _ hr => cases h; simp [normSteps_has hr]

theorem has_isSome {g : Graph} {n : Nat} : g.has n = ((g.steps.map Option.isSome)[n]?).getD false := by
  rw [Graph.has, List.getElem?_map]
  cases g.steps[n]? with
  | none => rfl
  | some x => cases x <;> rfl

theorem normalize_less {S : Super} {g g' : Graph} (h : normalize S g = .ok g') : Less g' g := by
  unfold normalize at h
  split at h
  next => cases h
  next l hl =>
    cases h
    have hh := normSteps_has hl
    have hlen : l.length = g.steps.length := by simpa using congrArg List.length hh
    refine .inr ⟨?_, Nat.le_refl _⟩
    unfold live Graph.indices
    rw [show ({ g with steps := l } : Graph).has = g.has from
      funext fun n => by rw [has_isSome, has_isSome]; simp only [hh]]
    simp only [hlen]

theorem round_less {S : Super} {n : Nat} {g g' : Graph} (h : round S n g = .ok g') : Less g' g := by
  unfold round at h
  split at h
  next => cases h
  next g1 h1 =>
    split at h
    next => cases h
    next g2 h2 =>
      split at h
      next => cases h
      next g3 h3 =>
        split at h
        next => cases h
        next g4 h4 =>
          split at h
          next => cases h
          next g5 h5 =>
            exact (normalize_less h).trans ((Less.of (batchTypes_live h5)).trans ((prune_less g4).trans
              ((Less.of (mergeLeafs_live n h4)).trans ((Less.of (mergeSiblings_live h3)).trans
                ((Less.of (mergeChildren_live h2)).trans (Less.of (mergePassthrough_live h1)))))))

/-! ## Rounds -/

/-- In a round that starts with the graph no step comes to wait for itself while steps are merged with their
children or siblings. -/
def RoundSound (g : Graph) : Prop :=
  ∀ n h, mergePassthrough n g = .ok h →
    (∀ r, h.root = some r → DownSound canMerge (performMerge false) [r] [(r, r)] h) ∧
    ∀ m h', mergeChildren m h = .ok h' → ∀ r, h'.root = some r → SiblingsSound [r] h'

theorem round_settles {S : Super} {g : Graph} (hs : Sound g) (hr : RoundSound g) :
    ∃ x, Settles (round S · g) x := by
  obtain ⟨x1, s1⟩ := (mergePassthrough_fuel g).settles (mergePassthrough_ends hs)
  refine s1.bind (k := fun n g => match mergeChildren n g with
    | .error e => .error e
    | .ok g =>
      match mergeSiblings n g with
      | .error e => .error e
      | .ok g =>
        match mergeLeafs n g with
        | .error e => .error e
        | .ok g =>
          match batchTypes n (prune g) with
          | .error e => .error e
          | .ok g => normalize S g) (fun n => by simp only [round]; cases mergePassthrough n g <;> rfl) ?_
  rintro g1 rfl
  obtain ⟨n1, h1⟩ := s1.at
  obtain ⟨c1, c2⟩ := hr n1 g1 h1
  obtain ⟨x2, s2⟩ := (mergeChildren_fuel g1).settles (mergeChildren_ends c1)
  refine s2.bind (k := fun n g => match mergeSiblings n g with
      | .error e => .error e
      | .ok g =>
        match mergeLeafs n g with
        | .error e => .error e
        | .ok g =>
          match batchTypes n (prune g) with
          | .error e => .error e
          | .ok g => normalize S g) (fun n => by
            cases mergeChildren n g1 <;> rfl) ?_
  rintro g2 rfl
  obtain ⟨n2, h2⟩ := s2.at
  have c3 := c2 n2 g2 h2
  obtain ⟨x3, s3⟩ := (mergeSiblings_fuel g2).settles (mergeSiblings_ends c3)
  refine s3.bind (k := fun n g => match mergeLeafs n g with
        | .error e => .error e
        | .ok g =>
          match batchTypes n (prune g) with
          | .error e => .error e
          | .ok g => normalize S g) (fun n => by
            cases mergeSiblings n g2 <;> rfl) ?_
  rintro g3 rfl
  obtain ⟨n3, h3⟩ := s3.at
  have c4 := mergeSiblings_sound c3 h3
  have st : Steadfast (mergeLeafs · g3) := fun n m h => mergeLeafs_fuel n g3 m h
  obtain ⟨x4, s4⟩ := st.settles (mergeLeafs_ends _ g3 (Nat.le_refl _))
  refine s4.bind (k := fun n g => match batchTypes n (prune g) with
          | .error e => .error e
          | .ok g => normalize S g) (fun n => by
            cases mergeLeafs n g3 <;> rfl) ?_
  rintro g4 rfl
  obtain ⟨n4, h4⟩ := s4.at
  have c5 := prune_sound (mergeLeafs_sound n4 c4 h4)
  obtain ⟨x5, s5⟩ := (batchTypes_fuel _).settles (batchTypes_ends c5)
  refine s5.bind (k := fun _ g => normalize S g) (fun n => by
            cases batchTypes n (prune g4) <;> rfl) ?_
  rintro g5 rfl
  exact ⟨normalize S g5, normalize_done _ _, 0, fun _ _ => rfl⟩

theorem round_sound {S : Super} {n : Nat} {g g' : Graph} (hs : Sound g) (hr : RoundSound g)
    (h : round S n g = .ok g') : Sound g' := by
  unfold round at h
  split at h
  next => cases h
  next g1 h1 =>
    split at h
    next => cases h
    next g2 h2 =>
      split at h
      next => cases h
      next g3 h3 =>
        split at h
        next => cases h
        next g4 h4 =>
          split at h
          next => cases h
          next g5 h5 =>
            have c3 := mergeSiblings_sound ((hr _ _ h1).2 _ _ h2) h3
            exact normalize_sound (batchTypes_sound (prune_sound (mergeLeafs_sound _ c3 h4)) h5) h

/-- The graphs that rounds of optimizing start with. -/
inductive Starts (S : Super) (g : Graph) : Graph → Prop
  | first : Starts S g g
  | next {n h h'} : Starts S g h → round S n h = .ok h' → h.size ≠ h'.size → Starts S g h'

theorem Starts.cons {S : Super} {g g' h : Graph} {n : Nat} (hr : round S n g = .ok g') (hz : g.size ≠ g'.size)
    (hs : Starts S g' h) : Starts S g h := by
  induction hs with
  | first => exact .next .first hr hz
  | next _ h1 h2 ih => exact .next ih h1 h2

theorem rounds_end {S : Super} : ∀ (L E : Nat) (g : Graph), live g ≤ L → g.edges.length ≤ E → Sound g →
    (∀ h, Starts S g h → RoundSound h) → ∃ N, ∀ n k, N ≤ n → N ≤ k → Done (rounds S n k g) := by
  intro L
  induction L using Nat.strongRecOn with
  | ind L ihL =>
    intro E
    induction E using Nat.strongRecOn with
    | ind E ihE =>
      intro g hL hE hs ho
      obtain ⟨x, hd, n0, hn0⟩ := round_settles (S := S) hs (ho g .first)
      cases x with
      | error e =>
        refine ⟨max n0 1, fun n k h1 h2 => ?_⟩
        obtain ⟨k, rfl⟩ : ∃ k', k = k' + 1 := ⟨k - 1, by omega⟩
        simp only [rounds, hn0 n (by omega)]
        exact done_of hd rfl
      | ok g' =>
        have hr : round S n0 g = .ok g' := hn0 n0 (Nat.le_refl _)
        by_cases hz : g.size = g'.size
        · refine ⟨max n0 1, fun n k h1 h2 => ?_⟩
          obtain ⟨k, rfl⟩ : ∃ k', k = k' + 1 := ⟨k - 1, by omega⟩
          simp only [rounds, hn0 n (by omega), if_pos hz]
          exact done_ok
        · have hless := round_less hr
          have hs' := round_sound hs (ho g .first) hr
          have ho' : ∀ h, Starts S g' h → RoundSound h := fun h hh => ho h (hh.cons hr hz)
          have hnext : ∃ N, ∀ n k, N ≤ n → N ≤ k → Done (rounds S n k g') := by
            rcases hless with h1 | ⟨h1, h2⟩
            · exact ihL (live g') (by omega) _ g' (Nat.le_refl _) (Nat.le_refl _) hs' ho'
            · refine ihE g'.edges.length ?_ g' (by omega) (Nat.le_refl _) hs' ho'
              have : g'.edges.length ≠ g.edges.length := by
                intro e
                apply hz
                simp only [Graph.size, Prod.mk.injEq]
                exact ⟨h1.symm, e.symm⟩
              omega
          obtain ⟨N, hN⟩ := hnext
          refine ⟨max n0 (N + 1), fun n k h1 h2 => ?_⟩
          obtain ⟨k, rfl⟩ : ∃ k', k = k' + 1 := ⟨k - 1, by omega⟩
          simp only [rounds, hn0 n (by omega), if_neg hz]
          exact hN n k (by omega) (by omega)

theorem optimize_ends {S : Super} {g : Graph} (hs : Sound g) (ho : ∀ h, Starts S g h → RoundSound h) :
    ∃ N, ∀ n, N ≤ n → Done (optimize S n g) := by
  obtain ⟨N, hN⟩ := rounds_end _ _ g (Nat.le_refl _) (Nat.le_refl _) hs ho
  refine ⟨N, fun n hn => ?_⟩
  have h := hN n n hn hn
  simp only [optimize]
  split
  next e he => exact done_of h he
  next =>
    split
    next e he => exact done_of (sequence_done _) he
    next => exact patchAliases_done _

/-! ## A check -/

/-- Is a graph without cycles. -/
def soundly (g : Graph) : Bool :=
  g.edges.all fun e => decide (e.1 < g.steps.length) && decide (e.2 < g.steps.length) && !(g.reach e.2).contains e.1

theorem After.first {g : Graph} {a b : Nat} (h : After g a b) : ∃ c, (a, c) ∈ g.edges ∧ (c = b ∨ After g c b) := by
  induction h with
  | edge e => exact ⟨_, e, .inl rfl⟩
  | trans _ e ih =>
    obtain ⟨c, h1, h2⟩ := ih
    refine ⟨c, h1, .inr ?_⟩
    rcases h2 with rfl | h2
    · exact .edge e
    · exact .trans h2 e

theorem soundly_spec {g : Graph} (h : soundly g = true) : Sound g := by
  simp only [soundly, List.all_eq_true, Bool.and_eq_true, decide_eq_true_eq, Bool.not_eq_true'] at h
  have hi : EdgesIn g := fun a b hab => (h (a, b) hab).1
  refine ⟨fun a ha => ?_, hi⟩
  obtain ⟨c, h1, h2⟩ := ha.first
  have h3 := (h (a, c) h1).2
  have h4 : a ∈ g.reach c := by
    rcases h2 with rfl | h2
    · exact reachN_mono _ (by simp)
    · exact reach_after hi h2
  rw [List.contains_iff_mem.2 h4] at h3
  cases h3

/-- Does merging siblings go through such graphs only. -/
def siblingsSoundly : Nat → List Nat → Graph → Bool
  | 0, _, _ => false
  | _ + 1, [], g => soundly g
  | n + 1, p :: q, g =>
    let cs := sortPos g.pos (g.children p)
    soundly g && match runMerges (performMerge false) (siblingPairs g cs) (repOf (siblingPairs g cs)) g with
      | .error _ => true
      | .ok (_, g) => siblingsSoundly n (q ++ cs) g

theorem siblingsSoundly_spec : ∀ (n : Nat) {q : List Nat} {g : Graph}, siblingsSoundly n q g = true →
    SiblingsSound q g
  | 0, _, _, h => by simp [siblingsSoundly] at h
  | n + 1, [], g, h => by
    intro k q' g' hk
    cases k with
    | zero =>
      simp only [siblingRun, Except.ok.injEq, Prod.mk.injEq] at hk
      rw [← hk.2]
      exact soundly_spec h
    | succ k => simp [siblingRun] at hk
  | n + 1, p :: q, g, h => by
    simp only [siblingsSoundly, Bool.and_eq_true] at h
    intro k q' g' hk
    cases k with
    | zero =>
      simp only [siblingRun, Except.ok.injEq, Prod.mk.injEq] at hk
      rw [← hk.2]
      exact soundly_spec h.1
    | succ k =>
      simp only [siblingRun] at hk
      have h2 := h.2
      split at hk
      next => cases hk
      next rep g1 hm =>
        rw [hm] at h2
        exact siblingsSoundly_spec n h2 k q' g' hk

/-- Does merging children. -/
def childrenSoundly : Nat → List Nat → Rep → Graph → Bool
  | 0, _, _, _ => false
  | _ + 1, [], _, g => soundly g
  | n + 1, p :: q, rep, g =>
    soundly g && match rep.lookup p with
      | none => true
      | some p =>
        match runMerges (performMerge false) (((g.children p).filter (canMerge g p)).map fun c => (p, c))
            (((g.children p).map fun c => (c, c)) ++ (p, p) :: rep) g with
        | .error _ => true
        | .ok (rep, g') => childrenSoundly n (q ++ g.children p) rep g'

theorem childrenSoundly_spec : ∀ (n : Nat) {q : List Nat} {rep : Rep} {g : Graph},
    childrenSoundly n q rep g = true → DownSound canMerge (performMerge false) q rep g
  | 0, _, _, _, h => by simp [childrenSoundly] at h
  | n + 1, [], rep, g, h => by
    intro k q' r' g' hk
    cases k with
    | zero =>
      simp only [downRun, Except.ok.injEq, Prod.mk.injEq] at hk
      rw [← hk.2.2]
      exact soundly_spec h
    | succ k => simp [downRun] at hk
  | n + 1, p :: q, rep, g, h => by
    simp only [childrenSoundly, Bool.and_eq_true] at h
    intro k q' r' g' hk
    cases k with
    | zero =>
      simp only [downRun, Except.ok.injEq, Prod.mk.injEq] at hk
      rw [← hk.2.2]
      exact soundly_spec h.1
    | succ k =>
      simp only [downRun] at hk
      have h2 := h.2
      split at hk
      next => cases hk
      next p' hp =>
        split at hk
        next => cases hk
        next =>
          split at hk
          next => cases hk
          next rep1 g1 hm =>
            rw [hp] at h2
            simp only [hm] at h2
            exact childrenSoundly_spec n h2 k q' r' g' hk

/-- Does a round. -/
def roundSoundly (n : Nat) (g : Graph) : Bool :=
  match mergePassthrough n g with
  | .error _ => false
  | .ok h =>
    (match h.root with
      | none => true
      | some r => childrenSoundly n [r] [(r, r)] h) &&
    match mergeChildren n h with
    | .error _ => false
    | .ok h' =>
      match h'.root with
      | none => true
      | some r => siblingsSoundly n [r] h'

theorem roundSoundly_spec {n : Nat} {g : Graph} (h : roundSoundly n g = true) : RoundSound g := by
  simp only [roundSoundly] at h
  split at h
  next => cases h
  next g1 h1 =>
    simp only [Bool.and_eq_true] at h
    obtain ⟨ha, hb⟩ := h
    split at hb
    next => cases hb
    next g2 h2 =>
      intro m h' hm
      rcases (mergePassthrough_fuel g).any h1 m with e | e
      · rw [hm] at e; cases e
      · rw [hm] at e
        cases e
        refine ⟨fun r hr => ?_, fun m' h'' hm' r hr => ?_⟩
        · rw [hr] at ha
          exact childrenSoundly_spec n ha
        · rcases (mergeChildren_fuel _).any h2 m' with e | e
          · rw [hm'] at e; cases e
          · rw [hm'] at e
            cases e
            rw [hr] at hb
            exact siblingsSoundly_spec n hb

theorem Steadfast.bind {α β : Type} {f : Nat → Except Err α} (hf : Steadfast f)
    {k : Nat → α → Except Err β} {e : Nat → Except Err β} (he : ∀ n, e n = match f n with
      | .error e => .error e
      | .ok a => k n a) (hk : ∀ a, Steadfast (k · a)) : Steadfast e := by
  intro n m h
  rw [he n, he m]
  rcases hf n m h with h1 | h1
  · exact .inl (by rw [h1])
  · rw [h1]
    cases f n with
    | error _ => exact .inr rfl
    | ok a => exact hk a n m h

theorem round_fuel (S : Super) (g : Graph) : Steadfast (round S · g) := by
  refine (mergePassthrough_fuel g).bind (k := fun n g => match mergeChildren n g with
    | .error e => .error e
    | .ok g =>
      match mergeSiblings n g with
      | .error e => .error e
      | .ok g =>
        match mergeLeafs n g with
        | .error e => .error e
        | .ok g =>
          match batchTypes n (prune g) with
          | .error e => .error e
          | .ok g => normalize S g) (fun n => by simp only [round]; cases mergePassthrough n g <;> rfl) fun g1 => ?_
  refine (mergeChildren_fuel g1).bind (k := fun n g => match mergeSiblings n g with
      | .error e => .error e
      | .ok g =>
        match mergeLeafs n g with
        | .error e => .error e
        | .ok g =>
          match batchTypes n (prune g) with
          | .error e => .error e
          | .ok g => normalize S g) (fun n => by
            cases mergeChildren n g1 <;> rfl) fun g2 => ?_
  refine (mergeSiblings_fuel g2).bind (k := fun n g => match mergeLeafs n g with
        | .error e => .error e
        | .ok g =>
          match batchTypes n (prune g) with
          | .error e => .error e
          | .ok g => normalize S g) (fun n => by
            cases mergeSiblings n g2 <;> rfl) fun g3 => ?_
  have st : Steadfast (mergeLeafs · g3) := fun n m h => mergeLeafs_fuel n g3 m h
  refine st.bind (k := fun n g => match batchTypes n (prune g) with
          | .error e => .error e
          | .ok g => normalize S g) (fun n => by
            cases mergeLeafs n g3 <;> rfl) fun g4 => ?_
  refine (batchTypes_fuel _).bind (k := fun _ g => normalize S g) (fun n => by
            cases batchTypes n (prune g4) <;> rfl) fun g5 => ?_
  exact fun _ _ _ => .inr rfl

theorem Starts.cases' {S : Super} {g h : Graph} (hs : Starts S g h) :
    h = g ∨ ∃ n g', round S n g = .ok g' ∧ g.size ≠ g'.size ∧ Starts S g' h := by
  induction hs with
  | first => exact .inl rfl
  | next _ h1 h2 ih =>
    rcases ih with rfl | ⟨n, g', a, b, c⟩
    · exact .inr ⟨_, _, h1, h2, .first⟩
    · exact .inr ⟨n, g', a, b, .next c h1 h2⟩

/-- Do all rounds. -/
def allSoundly (S : Super) (n : Nat) : Nat → Graph → Bool
  | 0, _ => false
  | k + 1, g => roundSoundly n g &&
    match round S n g with
    | .error _ => false
    | .ok g' => if g.size = g'.size then true else allSoundly S n k g'

theorem allSoundly_spec {S : Super} {n : Nat} : ∀ (k : Nat) {g : Graph}, allSoundly S n k g = true →
    ∀ h, Starts S g h → RoundSound h
  | 0, _, ha => by simp [allSoundly] at ha
  | k + 1, g, ha => by
    simp only [allSoundly, Bool.and_eq_true] at ha
    intro h hs
    rcases hs.cases' with rfl | ⟨m, g', hr, hz, hs'⟩
    · exact roundSoundly_spec ha.1
    · have h2 := ha.2
      split at h2
      next => cases h2
      next g1 h1 =>
        rcases (round_fuel S g).any h1 m with e | e
        · simp only [hr] at e; cases e
        · simp only [hr] at e
          cases e
          rw [if_neg hz] at h2
          exact allSoundly_spec k h2 h hs'

end Verif.Fetch
