import Verif.Best.Lemmas
/-!
# C32: one way for each leaf, and how cheap the combination is

The English property asks for the cheapest combination. The code does not deliver it: the lower bound it
prunes with is not a lower bound, so the search ends before it starts (`C32_never_searches`) and the plan is
the greedy one, which `C32_not_optimal` shows to be twice as expensive as needed for a two field query. What
holds instead: one path for each leaf, no more than the number of leaves times the cheapest, and the cheapest
if at most one leaf has several alternatives.
-/
namespace Verif.Best

/-- No combination is so expensive that the sum of its paths overflows. -/
def Small (g : Graph) (op : Resolved) : Prop :=
  ∀ ch, Choice (leafPaths op) ch → (ch.map fun x => cost g (fromPath g x.2 x.1)).sum < maxU64

theorem prepare_perm (g : Graph) (op : Resolved) :
    (prepare g op).Perm ((leafPaths op).map (trees g)) := by
  rw [← leaves_eq']; exact sortBy_perm _ _

/-- Picks of the sorted candidates are the combinations. -/
theorem pick_iff {g : Graph} {op : Resolved} {cs : List Node}
    (h : Pick (sortCandidates g (prepare g op)) cs) :
    ∃ ch, Choice (leafPaths op) ch ∧ cs.Perm (ch.map (treeOf g)) := by
  obtain ⟨cs', h1, h2⟩ := pick_perm (prepare_perm g op) (pick_sorted.1 h)
  obtain ⟨ch, h3, rfl⟩ := pick_choice.1 h1
  exact ⟨ch, h3, h2⟩

theorem pick_of_choice {g : Graph} {op : Resolved} {ch : List (Option Nat × Path)}
    (h : Choice (leafPaths op) ch) :
    ∃ cs, Pick (sortCandidates g (prepare g op)) cs ∧ cs.Perm (ch.map (treeOf g)) := by
  obtain ⟨cs, h1, h2⟩ := pick_perm (prepare_perm g op).symm (pick_choice.2 ⟨ch, h, rfl⟩)
  exact ⟨cs, pick_sorted.2 h1, h2.symm⟩

theorem groups_iff (op : Resolved) :
    (op.groups.any (fun f => f.any List.isEmpty)) = true ↔ ∃ l ∈ leafPaths op, l.2 = [] := by
  simp only [List.any_eq_true, leafPaths, List.mem_flatMap, List.mem_map, List.isEmpty_iff]
  constructor
  · rintro ⟨f, hf, x, hx, rfl⟩
    obtain ⟨i, hi, rfl⟩ := List.mem_iff_getElem.1 hf
    exact ⟨_, ⟨(op.groups[i], i), List.mem_zipIdx_iff_getElem?.2 (List.getElem?_eq_getElem hi), _, hx, rfl⟩, rfl⟩
  · rintro ⟨l, ⟨⟨f, i⟩, hf, ps, hps, rfl⟩, rfl⟩
    exact ⟨f, List.mem_of_getElem? (List.mem_zipIdx_iff_getElem?.1 hf), _, hps, rfl⟩

theorem prepare_isEmpty {g : Graph} {op : Resolved} : (prepare g op).isEmpty = true ↔ leafPaths op = [] := by
  rw [List.isEmpty_iff]
  constructor
  · intro h
    have := (prepare_perm g op).length_eq
    rw [h] at this
    simpa using this.symm
  · intro h
    have := prepare_perm g op
    rw [h] at this
    exact this.eq_nil

theorem resolvable_iff {g : Graph} {op : Resolved} :
    Resolvable op ↔ (op.groups.isEmpty || op.groups.any (fun f => f.any List.isEmpty)) = false ∧
      (prepare g op).isEmpty = false := by
  rw [Bool.or_eq_false_iff]
  constructor
  · rintro ⟨h1, h2⟩
    refine ⟨⟨?_, ?_⟩, ?_⟩
    · cases hg : op.groups with
      | nil => exact absurd (by simp [leafPaths, hg]) h1
      | cons a b => rfl
    · rw [Bool.eq_false_iff, Ne, groups_iff]
      rintro ⟨l, hl, e⟩
      exact h2 l hl e
    · rw [Bool.eq_false_iff, Ne, prepare_isEmpty]; exact h1
  · rintro ⟨⟨_, h1⟩, h2⟩
    rw [Bool.eq_false_iff, Ne, groups_iff] at h1
    rw [Bool.eq_false_iff, Ne, prepare_isEmpty] at h2
    exact ⟨h2, fun l hl e => h1 ⟨l, hl, e⟩⟩

theorem candidates_nonempty {g : Graph} {op : Resolved} (h : Resolvable op) :
    ∀ l ∈ prepare g op, l ≠ [] := by
  intro l hl
  obtain ⟨x, hx, rfl⟩ := List.mem_map.1 ((prepare_perm g op).mem_iff.1 hl)
  simp only [trees, ne_eq, List.map_eq_nil_iff]
  exact h.2 x hx

/-- The sum of the costs of the chosen paths. -/
theorem sum_choice {g : Graph} {cs : List Node} {ch : List (Option Nat × Path)}
    (h : cs.Perm (ch.map (treeOf g))) :
    (cs.map (cost g)).sum = (ch.map fun x => cost g (fromPath g x.2 x.1)).sum := by
  have := (h.map (cost g)).sum_nat
  rw [this, List.map_map]
  rfl

theorem pick_small {g : Graph} {op : Resolved} (hs : Small g op) {cs : List Node}
    (h : Pick (sortCandidates g (prepare g op)) cs) : (cs.map (cost g)).sum < maxU64 := by
  obtain ⟨ch, h1, h2⟩ := pick_iff h
  rw [sum_choice h2]
  exact hs ch h1

theorem mem_sum_le {f : Node → Nat} : ∀ {l : List Node} {x : Node}, x ∈ l → f x ≤ (l.map f).sum
  | y :: r, x, h => by
    simp only [List.map_cons, List.sum_cons]
    rcases List.mem_cons.1 h with rfl | h
    · omega
    · have := mem_sum_le (f := f) h; omega

/-- The greedy plan exists, and the bound at the root is not below its cost. -/
theorem greedy_bound {g : Graph} {op : Resolved} (hr : Resolvable op) (hs : Small g op) :
    ∃ c t, initialPlan g (sortCandidates g (prepare g op)) none 0 = some (c, t) ∧ c < maxU64 ∧
      c ≤ (minRemaining g (prepare g op)).headD 0 := by
  have hne := candidates_nonempty (g := g) hr
  have hsmall : ∀ l ∈ prepare g op, ∀ x ∈ l, cost g x < maxU64 := by
    intro l hl x hx
    obtain ⟨ds, h1, h2⟩ := pick_with hne l hl x hx
    have := pick_small hs (pick_sorted.2 h1)
    have := mem_sum_le (f := cost g) h2
    omega
  obtain ⟨ds, h1, h2⟩ := minRemaining_attained hne (fun l hl x hx => Nat.le_of_lt (hsmall l hl x hx))
  have hp := pick_sorted (g := g).2 h1
  have hlt := pick_small hs hp
  have hgs : sortCandidates g (prepare g op) ≠ [] := by
    have := (resolvable_iff (g := g)).1 hr
    intro e
    simp only [sortCandidates, List.map_eq_nil_iff] at e
    rw [e] at this
    simp at this
  obtain ⟨c, t, e⟩ := initialPlan_some (g := g) (tree := none) hp
    (fun d hd => by have := mem_sum_le (f := cost g) hd; omega) (.inr hgs)
  obtain ⟨cs, _, _, _, h4⟩ := initialPlan_spec e
  have := h4 ds hp
  simp only [costSoFar, Nat.zero_add] at this
  exact ⟨c, t, e, by omega, by omega⟩

theorem findBest_eq {g : Graph} {op : Resolved} {token : Nat → Bool} (hr : Resolvable op) (hs : Small g op) :
    ∃ c t, initialPlan g (sortCandidates g (prepare g op)) none 0 = some (c, t) ∧
      findBest g token op = if token 0 then .error .cancelled else .ok t := by
  obtain ⟨c, t, h1, h2, h3⟩ := greedy_bound hr hs
  refine ⟨c, t, h1, ?_⟩
  obtain ⟨e1, e2⟩ := (resolvable_iff (g := g)).1 hr
  unfold findBest
  simp only [e1, e2, h1, h2, if_true, Bool.false_eq_true, if_false]
  unfold explore
  cases token 0 with
  | true => rfl
  | false =>
    have : 0 + (minRemaining g (prepare g op)).headD 0 ≥ c := by omega
    simp only [Bool.false_eq_true, if_false, this, if_true]

/-- **C32** (a finding): the search for the best combination ends before it looks at any. A cancellation is
noticed at its start or not at all, and the plan is the greedy one: for each leaf in turn, the path that adds
least. -/
theorem C32_never_searches {g : Graph} {op : Resolved} (hr : Resolvable op) (hs : Small g op) :
    ∃ c t, initialPlan g (sortCandidates g (prepare g op)) none 0 = some (c, t) ∧
      ∀ token : Nat → Bool, findBest g token op = if token 0 then .error .cancelled else .ok t := by
  obtain ⟨c, t, h, _⟩ := findBest_eq (token := fun _ => false) hr hs
  refine ⟨c, t, h, fun token => ?_⟩
  obtain ⟨c', t', h', e⟩ := findBest_eq (token := token) hr hs
  rw [h] at h'
  obtain ⟨_, rfl⟩ := Prod.mk.inj (Option.some.inj h')
  exact e

/-- **C32**: whenever every leaf can be resolved and nobody cancels, there is a plan. -/
theorem C32_found {g : Graph} {op : Resolved} (hr : Resolvable op) (hs : Small g op) {token : Nat → Bool}
    (ht : token 0 = false) : ∃ t, findBest g token op = .ok t := by
  obtain ⟨c, t, _, e⟩ := findBest_eq (token := token) hr hs
  exact ⟨t, by rw [e, ht]; rfl⟩

theorem error_of_not_resolvable {g : Graph} {op : Resolved} {token : Nat → Bool} (h : ¬ Resolvable op) :
    findBest g token op = .error .emptyPlan := by
  rw [resolvable_iff (g := g)] at h
  unfold findBest
  by_cases h' : (op.groups.isEmpty || op.groups.any (fun f => f.any List.isEmpty)) = true
  · rw [if_pos h']
  · rw [if_neg h']
    by_cases h2 : (prepare g op).isEmpty = true
    · rw [if_pos h2]
    · exact absurd ⟨Bool.eq_false_iff.2 h', Bool.eq_false_iff.2 h2⟩ h

/-- **C32**: if some leaf cannot be resolved, or there is none, the answer is that there is no plan. -/
theorem C32_unresolvable (g : Graph) (op : Resolved) (h : ¬ Resolvable op) (token : Nat → Bool) :
    findBest g token op = .error .emptyPlan := error_of_not_resolvable h

theorem ok_spec {g : Graph} {op : Resolved} {token : Nat → Bool} {t : Node} (hs : Small g op)
    (h : findBest g token op = .ok t) :
    Resolvable op ∧ ∃ c, initialPlan g (sortCandidates g (prepare g op)) none 0 = some (c, t) := by
  have hr : Resolvable op := Classical.byContradiction fun hn => by
    rw [error_of_not_resolvable hn] at h; cases h
  obtain ⟨c, t', h1, e⟩ := findBest_eq (token := token) hr hs
  rw [h] at e
  cases ht : token 0 with
  | true => rw [ht] at e; cases e
  | false =>
    rw [ht] at e
    simp only [Bool.false_eq_true, if_false, Except.ok.injEq] at e
    subst e
    exact ⟨hr, c, h1⟩

theorem places_iff {g : Graph} {cs : List Node} {ch : List (Option Nat × Path)}
    (h : cs.Perm (ch.map (treeOf g))) (p : List Step) : (∃ c ∈ cs, Has c p) ↔ Places g ch p := by
  constructor
  · rintro ⟨c, hc, hp⟩
    obtain ⟨x, hx, rfl⟩ := List.mem_map.1 (h.mem_iff.1 hc)
    exact ⟨x, hx, fromPath_has.1 hp⟩
  · rintro ⟨x, hx, hp⟩
    exact ⟨_, h.mem_iff.2 (List.mem_map_of_mem hx), fromPath_has.2 hp⟩

theorem choice_tidy {g : Graph} {op : Resolved} (ht : PathsTidy op) : ∀ {ls : List (Option Nat × List Path)}
    {ch : List (Option Nat × Path)}, Choice ls ch → (∀ l ∈ ls, l ∈ leafPaths op) →
    ∀ x ∈ ch, Tidy (treeOf g x)
  | _, _, .nil, _, x, hx => absurd hx List.not_mem_nil
  | _, _, .cons (pos := pos) (p := p) (ps := ps) (r := r) (c := c) hp hc, hl, x, hx => by
    rcases List.mem_cons.1 hx with rfl | hx
    · refine fromPath_tidy fun s hs t e => ?_
      have := hl _ (List.mem_cons_self ..)
      simp only [leafPaths, List.mem_flatMap, List.mem_map, Prod.mk.injEq] at this
      obtain ⟨⟨f, i⟩, hf, ps', hps, _, rfl⟩ := this
      exact ht f (List.mem_of_getElem? (List.mem_zipIdx_iff_getElem?.1 hf)) _ hps p hp s hs t e
    · exact choice_tidy ht hc (fun l hl' => hl l (List.mem_cons_of_mem _ hl')) x hx

/-- The tree of a combination, in some order, with its places and cost. -/
theorem tree_of_choice {g : Graph} {op : Resolved} (ht : PathsTidy op) {cs : List Node}
    {ch : List (Option Nat × Path)} (hc : Choice (leafPaths op) ch) (hp : cs.Perm (ch.map (treeOf g)))
    {u : Node} (h : addAll none cs = some u) :
    (∀ p, Has u p ↔ Places g ch p) ∧ Tidy u := by
  refine ⟨fun p => ?_, addAll_tidy h (fun x hx => by cases hx) fun c hc' => ?_⟩
  · rw [addAll_has h p, ← places_iff hp p]
    simp
  · obtain ⟨x, hx, rfl⟩ := List.mem_map.1 (hp.mem_iff.1 hc')
    exact choice_tidy ht hc (fun l hl => hl) x hx

/-- **C32**: the plan is one path for each leaf: its places are those of the paths chosen, nothing is left
out and nothing is added, and it costs what these places cost. -/
theorem C32_one_per_leaf {g : Graph} {op : Resolved} {token : Nat → Bool} {t : Node} (hs : Small g op)
    (ht : PathsTidy op) (h : findBest g token op = .ok t) :
    ∃ ch, Choice (leafPaths op) ch ∧ (∀ p, Has t p ↔ Places g ch p) ∧ SetCost g (Places g ch) (cost g t) := by
  obtain ⟨hr, c, hi⟩ := ok_spec hs h
  obtain ⟨cs, h1, h2, h3, _⟩ := initialPlan_spec (tree := none) hi
  obtain ⟨ch, h4, h5⟩ := pick_iff h1
  obtain ⟨h6, h7⟩ := tree_of_choice ht h4 h5 h2
  obtain ⟨L, l1, l2, l3⟩ := cost_eq (g := g) h7
  exact ⟨ch, h4, h6, L, l1, fun p => (l2 p).trans (h6 p), l3⟩

theorem choice_cost {g : Graph} {op : Resolved} (hr : Resolvable op) (ht : PathsTidy op)
    {ch : List (Option Nat × Path)} (hc : Choice (leafPaths op) ch) {n : Nat}
    (hn : SetCost g (Places g ch) n) :
    ∃ cs u, Pick (sortCandidates g (prepare g op)) cs ∧ cs.Perm (ch.map (treeOf g)) ∧
      addAll none cs = some u ∧ cost g u = n := by
  obtain ⟨cs, h1, h2⟩ := pick_of_choice (g := g) hc
  have hne : cs ≠ [] := by
    rintro rfl
    have h3 := pick_nonempty h1
    have h4 := (prepare_perm g op).length_eq
    simp only [sortCandidates, List.length_map, List.length_nil] at h3 h4
    exact hr.1 (List.length_eq_zero_iff.1 (by omega))
  obtain ⟨u, hu⟩ := addAll_some cs none (.inr hne)
  obtain ⟨h6, h7⟩ := tree_of_choice ht hc h2 hu
  exact ⟨cs, u, h1, h2, hu, setCost_unique (cost_eq h7) hn h6⟩

theorem choice_length : ∀ {ls : List (Option Nat × List Path)} {ch : List (Option Nat × Path)},
    Choice ls ch → ch.length = ls.length
  | _, _, .nil => rfl
  | _, _, .cons _ h => by simp [choice_length h]

theorem sum_le_mul {f : Node → Nat} {n : Nat} : ∀ {l : List Node}, (∀ x ∈ l, f x ≤ n) →
    (l.map f).sum ≤ l.length * n
  | [], _ => by simp
  | x :: r, h => by
    have h1 := h x (List.mem_cons_self ..)
    have h2 := sum_le_mul (f := f) (n := n) (l := r) fun y hy => h y (List.mem_cons_of_mem _ hy)
    simp only [List.map_cons, List.sum_cons, List.length_cons, Nat.succ_mul]
    omega

/-- **C32** (in place of the cheapest): the plan costs no more than the paths of any combination taken one by
one, and no more than the number of leaves times any combination. -/
theorem C32_factor_partial {g : Graph} {op : Resolved} {token : Nat → Bool} {t : Node} (hs : Small g op)
    (ht : PathsTidy op) (h : findBest g token op = .ok t) {ch : List (Option Nat × Path)}
    (hc : Choice (leafPaths op) ch) {n : Nat} (hn : SetCost g (Places g ch) n) :
    cost g t ≤ (ch.map fun x => cost g (fromPath g x.2 x.1)).sum ∧
    cost g t ≤ (leafPaths op).length * n := by
  obtain ⟨hr, c, hi⟩ := ok_spec hs h
  obtain ⟨cs, h1, h2, h3, h4⟩ := initialPlan_spec (tree := none) hi
  obtain ⟨ds, u, d1, d2, d3, d4⟩ := choice_cost hr ht hc hn
  have h5 := h4 ds d1
  simp only [costSoFar, Nat.zero_add] at h5
  refine ⟨by rw [← sum_choice d2, ← h3]; exact h5, ?_⟩
  rw [← h3]
  refine Nat.le_trans h5 ?_
  have hlen : ds.length = (leafPaths op).length := by
    rw [d2.length_eq, List.length_map, choice_length hc]
  rw [← hlen]
  refine sum_le_mul fun x hx => ?_
  obtain ⟨y, hy, rfl⟩ := List.mem_map.1 (d2.mem_iff.1 hx)
  have ty : Tidy (treeOf g y) := choice_tidy ht hc (fun l hl => hl) y hy
  exact setCost_le (cost_eq ty) hn fun p hp => ⟨y, hy, fromPath_has.1 hp⟩

/-- **C32** (the cheapest, where it holds): if at most one leaf has more than one path, no combination is
cheaper than the plan. -/
theorem C32_optimal_partial {g : Graph} {op : Resolved} {token : Nat → Bool} {t : Node} (hs : Small g op)
    (ht : PathsTidy op) (h : findBest g token op = .ok t)
    (hone : ((leafPaths op).filter fun l => 1 < l.2.length).length ≤ 1)
    {ch : List (Option Nat × Path)} (hc : Choice (leafPaths op) ch) {n : Nat}
    (hn : SetCost g (Places g ch) n) : cost g t ≤ n := by
  obtain ⟨hr, c, hi⟩ := ok_spec hs h
  obtain ⟨cs, h1, h2, h3, _⟩ := initialPlan_spec (tree := none) hi
  obtain ⟨ds, u, d1, d2, d3, d4⟩ := choice_cost hr ht hc hn
  rw [← h3, ← d4]
  refine initialPlan_optimal (tree := none) ?_ ?_ hi ds u d1 d3
  · rw [sortCandidates, List.pairwise_map]
    refine List.Pairwise.imp ?_ (sortBy_sorted List.length (leavesFrom g op.mutation 0 op.groups))
    intro a b hab
    rw [(sortBy_perm _ a).length_eq, (sortBy_perm _ b).length_eq]
    exact hab
  · have e1 : ((sortCandidates g (prepare g op)).filter fun l => 1 < l.length).length
        = ((prepare g op).filter fun l => 1 < l.length).length := by
      rw [sortCandidates, List.filter_map, List.length_map]
      congr 2
      funext l
      simp only [Function.comp_apply, (sortBy_perm (cost g) l).length_eq]
    have e2 : ((prepare g op).filter fun l => 1 < l.length).length
        = (((leafPaths op).map (trees g)).filter fun l => 1 < l.length).length :=
      ((prepare_perm g op).filter _).length_eq
    rw [e1, e2, List.filter_map, List.length_map]
    have e3 : ((fun l : List Node => decide (1 < l.length)) ∘ trees g)
        = fun l : Option Nat × List Path => decide (1 < l.2.length) := by
      funext l; simp [trees]
    rw [e3]
    exact hone

theorem choice_pos : ∀ {ls : List (Option Nat × List Path)} {ch : List (Option Nat × Path)},
    Choice ls ch → ∀ x ∈ ch, ∃ l ∈ ls, l.1 = x.1 ∧ x.2 ∈ l.2
  | _, _, .nil, x, hx => absurd hx List.not_mem_nil
  | _, _, .cons hp hc, x, hx => by
    rcases List.mem_cons.1 hx with rfl | hx
    · exact ⟨_, List.mem_cons_self .., rfl, hp⟩
    · obtain ⟨l, h1, h2⟩ := choice_pos hc x hx
      exact ⟨l, List.mem_cons_of_mem _ h1, h2⟩

theorem fromPath_first {g : Graph} {p : Path} {pos : Option Nat} {s : Step} {q : List Step}
    (h : Along g pos p.segments (s :: q)) : ∃ l, s = .child l ∧ l.pos = pos := by
  have h := fromPath_has.2 h
  unfold fromPath at h
  cases s with
  | req l =>
    obtain ⟨c, hc, _⟩ := has_req.1 h
    exact absurd hc List.not_mem_nil
  | child l =>
    obtain ⟨c, hc, e, _⟩ := has_child.1 h
    simp only [Node.children] at hc
    cases hf : p.segments with
    | nil => rw [hf] at hc; simp [fromSegments] at hc
    | cons a r =>
      rw [hf] at hc
      simp only [fromSegments, Option.toList_some, List.mem_singleton] at hc
      subst hc
      exact ⟨l, rfl, by rw [← e]; rfl⟩

/-- **C32**: in the plan of a mutation every first step carries the position of a root field and leads only to
what paths of that root field select: two root fields are never merged into one step. -/
theorem C32_mutation_fields_apart {g : Graph} {op : Resolved} {token : Nat → Bool} {t : Node} (hs : Small g op)
    (hm : op.mutation = true) (ht : PathsTidy op) (h : findBest g token op = .ok t) {s : Step} {q : List Step}
    (hq : Has t (s :: q)) :
    ∃ l i, s = .child l ∧ l.pos = some i ∧ ∃ f, op.groups[i]? = some f ∧ ∃ ps ∈ f, ∃ p ∈ ps,
      Along g (some i) p.segments (s :: q) := by
  obtain ⟨ch, h1, h2, _⟩ := C32_one_per_leaf hs ht h
  obtain ⟨x, hx, hp⟩ := (h2 _).1 hq
  obtain ⟨l, e, hpos⟩ := fromPath_first hp
  obtain ⟨lf, hl, e1, hmem⟩ := choice_pos h1 x hx
  simp only [leafPaths, List.mem_flatMap, List.mem_map, hm, if_true] at hl
  obtain ⟨⟨f, i⟩, hf, ps, hps, rfl⟩ := hl
  simp only at e1 hmem
  refine ⟨l, i, e, hpos.trans e1.symm, f, List.mem_zipIdx_iff_getElem?.1 hf, ps, hps, x.2, hmem, ?_⟩
  rw [e1]; exact hp

/-! ## A query -/

/-- Nodes: the root 0, the query types of subgraphs A, B and C (1, 2, 3), scalars (4). Edges: entries 0, 1, 2;
`A.x` 3, `B.x` 4, `B.y` 5, `C.y` 6. -/
def exGraph : Graph := ⟨fun e => decide (e < 3), fun e => if e < 3 then e + 1 else 4⟩

/-- A step without arguments, conditions or requirements. -/
def seg (e : Nat) : Segment := ⟨e, none, none, none⟩

/-- `{ x y }`: `x` from A or B, `y` from B or C. -/
def exOp : Resolved :=
  { mutation := false
    groups := [[[⟨0, [seg 0, seg 3]⟩, ⟨0, [seg 1, seg 4]⟩]], [[⟨0, [seg 1, seg 5]⟩, ⟨0, [seg 2, seg 6]⟩]]] }

theorem exSmall : Small exGraph exOp := by
  intro ch h
  revert h
  change Choice [(none, [⟨0, [seg 0, seg 3]⟩, ⟨0, [seg 1, seg 4]⟩]),
    (none, [⟨0, [seg 1, seg 5]⟩, ⟨0, [seg 2, seg 6]⟩])] ch → _
  intro h
  cases h with
  | cons hx h =>
    cases h with
    | cons hy h =>
      cases h
      simp only [List.mem_cons, List.not_mem_nil, or_false] at hx hy
      rcases hx with rfl | rfl <;> rcases hy with rfl | rfl <;> decide

theorem exTidy : PathsTidy exOp := by
  intro f hf ps hps p hp s hs t e
  simp only [exOp, List.mem_cons, List.not_mem_nil, or_false] at hf
  rcases hf with rfl | rfl <;>
  · simp only [List.mem_cons, List.not_mem_nil, or_false] at hps
    subst hps
    simp only [List.mem_cons, List.not_mem_nil, or_false] at hp
    rcases hp with rfl | rfl <;>
    · simp only [List.mem_cons, List.not_mem_nil, or_false] at hs
      rcases hs with rfl | rfl <;> cases e

theorem exResolvable : Resolvable exOp := by
  refine ⟨by decide, ?_⟩
  intro l hl
  have hl : l ∈ [((none : Option Nat), [(⟨0, [seg 0, seg 3]⟩ : Path), ⟨0, [seg 1, seg 4]⟩]),
    (none, [⟨0, [seg 1, seg 5]⟩, ⟨0, [seg 2, seg 6]⟩])] := hl
  simp only [List.mem_cons, List.not_mem_nil, or_false] at hl
  rcases hl with rfl | rfl <;> simp

/-- The step into a node. -/
def lbl (n e : Nat) : Label := ⟨n, some e, none, none, none⟩

/-- **C32** (the property fails): for two fields, one in subgraphs A and B, one in B and C, the plan asks two
subgraphs and costs 2005, although asking B alone costs 1004. -/
theorem C32_not_optimal :
    ∃ t, findBest exGraph (fun _ => false) exOp = .ok t ∧ cost exGraph t = 2005 ∧
    ∃ ch, Choice (leafPaths exOp) ch ∧ SetCost exGraph (Places exGraph ch) 1004 := by
  refine ⟨_, rfl, rfl, [(none, ⟨0, [seg 1, seg 4]⟩), (none, ⟨0, [seg 1, seg 5]⟩)], ?_, ?_⟩
  · exact .cons (by simp) (.cons (by simp) .nil)
  · refine ⟨[[], [.child (lbl 2 1)], [.child (lbl 2 1), .child (lbl 4 4)], [.child (lbl 2 1), .child (lbl 4 5)]],
      by decide, ?_, by decide⟩
    intro p
    have h1 := mem_places (fromPath exGraph ⟨0, [seg 1, seg 4]⟩ none) p
    have h2 := mem_places (fromPath exGraph ⟨0, [seg 1, seg 5]⟩ none) p
    simp only [Places, List.mem_cons, List.not_mem_nil, or_false, exists_eq_or_imp, exists_eq_left,
      ← fromPath_has, ← h1, ← h2]
    have e1 : placesBelow (fromPath exGraph ⟨0, [seg 1, seg 4]⟩ none)
      = [[.child (lbl 2 1)], [.child (lbl 2 1), .child (lbl 4 4)]] := by decide
    have e2 : placesBelow (fromPath exGraph ⟨0, [seg 1, seg 5]⟩ none)
      = [[.child (lbl 2 1)], [.child (lbl 2 1), .child (lbl 4 5)]] := by decide
    rw [e1, e2]
    simp only [List.mem_cons, List.not_mem_nil, or_false]
    constructor
    · rintro (rfl | rfl | rfl | rfl) <;> simp
    · rintro ((rfl | rfl | rfl) | (rfl | rfl | rfl)) <;> simp

-- The hypotheses of the theorems hold for it.
example : Resolvable exOp ∧ Small exGraph exOp ∧ PathsTidy exOp := ⟨exResolvable, exSmall, exTidy⟩

/-- `mutation { x y }` with `x` in A and B and `y` in B only. -/
def exMutation : Resolved :=
  { mutation := true
    groups := [[[⟨0, [seg 0, seg 3]⟩, ⟨0, [seg 1, seg 4]⟩]], [[⟨0, [seg 1, seg 5]⟩]]] }

-- Only one leaf has several paths; the plan exists; both fields go through B, in steps of their own.
example : ((leafPaths exMutation).filter fun l => 1 < l.2.length).length ≤ 1 := by decide
example : (findBest exGraph (fun _ => false) exMutation).toOption.map (cost exGraph) = some 2005 := by decide
example : (findBest exGraph (fun _ => false) exMutation).toOption.map
    (fun t => t.children.map fun c => (c.label.edge, c.label.pos)) = some [(some 1, some 1), (some 0, some 0)] := by
  decide

theorem exMutation_small : Small exGraph exMutation := by
  intro ch h
  revert h
  change Choice [(some 0, [⟨0, [seg 0, seg 3]⟩, ⟨0, [seg 1, seg 4]⟩]), (some 1, [⟨0, [seg 1, seg 5]⟩])] ch → _
  intro h
  cases h with
  | cons hx h =>
    cases h with
    | cons hy h =>
      cases h
      simp only [List.mem_cons, List.not_mem_nil, or_false] at hx hy
      subst hy
      rcases hx with rfl | rfl <;> decide

/-- Not a mutation: then the one leaf with a choice joins B, and nothing is cheaper. -/
def exQuery : Resolved := { exMutation with mutation := false }

example : (findBest exGraph (fun _ => false) exQuery).toOption.map (cost exGraph) = some 1004 := by decide

-- Without a path for a leaf there is no plan.
example : ¬ Resolvable ⟨false, [[[⟨0, [seg 0, seg 3]⟩], []]]⟩ := by
  rintro ⟨_, h⟩
  exact h (none, []) (by simp [leafPaths]) rfl

end Verif.Best
