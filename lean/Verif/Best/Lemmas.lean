import Verif.Best.Spec
/-!
# Lemmas about trees, their places and their costs
-/
namespace Verif.Best

/-! ## Merging does not lose, and does not cost more -/

/-- The extra cost of a child. -/
def entryCost (g : Graph) (l : Label) : Nat :=
  match l.edge with
  | some e => if g.entry e then 1000 else 0
  | none => 0

theorem costChildren_cons (g : Graph) (c : Node) (r : List Node) :
    costChildren g (c :: r) = entryCost g c.label + cost g c + costChildren g r := by
  simp only [costChildren, entryCost]
  cases c.label.edge <;> rfl

theorem mergeNode_label (t s : Node) : (mergeNode t s).label = t.label := by
  cases t; cases s; simp only [mergeNode, Node.label]

theorem insertWith_cost {g : Graph} {f : Node → Node} {s : Node} (hl : ∀ x, (f x).label = x.label)
    (h1 : ∀ x, cost g (f x) ≤ cost g x + cost g s) : ∀ t : List Node,
    costChildren g (insertWith f s t) ≤ costChildren g t + (entryCost g s.label + cost g s) ∧
    costReqs g (insertWith f s t) ≤ costReqs g t + (1000 + cost g s)
  | [] => by simp [insertWith, costChildren_cons, costReqs, costChildren]
  | x :: r => by
    obtain ⟨i1, i2⟩ := insertWith_cost hl h1 r
    have := h1 x
    simp only [insertWith]
    split
    · simp only [costChildren_cons, costReqs, hl]; omega
    · simp only [costChildren_cons, costReqs]; omega

theorem insertWith_cost_ge {g : Graph} {f : Node → Node} {s : Node} (hl : ∀ x, (f x).label = x.label)
    (h1 : ∀ x, cost g x ≤ cost g (f x)) : ∀ t : List Node,
    costChildren g t ≤ costChildren g (insertWith f s t) ∧
    costReqs g t ≤ costReqs g (insertWith f s t)
  | [] => by simp [costChildren, costReqs]
  | x :: r => by
    obtain ⟨i1, i2⟩ := insertWith_cost_ge (s := s) hl h1 r
    have := h1 x
    simp only [insertWith]
    split
    · simp only [costChildren_cons, costReqs, hl]; omega
    · simp only [costChildren_cons, costReqs]; omega

mutual
theorem merge_cost (g : Graph) : ∀ (t s : Node),
    cost g (mergeNode t s) + 1 ≤ cost g t + cost g s ∧ cost g t ≤ cost g (mergeNode t s)
  | .mk l trs tcs, .mk l' rs cs => by
    have h1 := mergeList_cost g trs rs
    have h2 := mergeList_cost g tcs cs
    simp only [mergeNode, cost]
    omega
theorem mergeList_cost (g : Graph) : ∀ (t s : List Node),
    costChildren g (mergeList t s) ≤ costChildren g t + costChildren g s ∧
    costReqs g (mergeList t s) ≤ costReqs g t + costReqs g s ∧
    costChildren g t ≤ costChildren g (mergeList t s) ∧ costReqs g t ≤ costReqs g (mergeList t s)
  | t, [] => by simp [mergeList]
  | t, s :: r => by
    have hx := fun x => merge_cost g x s
    have h1 := insertWith_cost (g := g) (f := fun x => mergeNode x s) (s := s)
      (fun x => mergeNode_label x s) (fun x => by have := (hx x).1; omega) t
    have h2 := insertWith_cost_ge (g := g) (f := fun x => mergeNode x s) (s := s)
      (fun x => mergeNode_label x s) (fun x => (hx x).2) t
    have h3 := mergeList_cost g (insertWith (fun x => mergeNode x s) s t) r
    simp only [mergeList, costChildren_cons, costReqs]
    omega
end

theorem cost_pos (g : Graph) (t : Node) : 1 ≤ cost g t := by
  cases t; simp only [cost]; omega

/-! ## Places -/

theorem has_nil (t : Node) : Has t [] := .root

theorem has_child {t : Node} {l : Label} {p : List Step} :
    Has t (.child l :: p) ↔ ∃ c ∈ t.children, c.label = l ∧ Has c p := by
  constructor
  · intro h
    cases h with
    | child hc hp => exact ⟨_, hc, rfl, hp⟩
  · rintro ⟨c, hc, rfl, hp⟩; exact .child hc hp

theorem has_req {t : Node} {l : Label} {p : List Step} :
    Has t (.req l :: p) ↔ ∃ c ∈ t.reqs, c.label = l ∧ Has c p := by
  constructor
  · intro h
    cases h with
    | req hc hp => exact ⟨_, hc, rfl, hp⟩
  · rintro ⟨c, hc, rfl, hp⟩; exact .req hc hp

/-- A node of a list has the place. -/
def HasL (t : List Node) (l : Label) (p : List Step) : Prop := ∃ c ∈ t, c.label = l ∧ Has c p

theorem insertWith_has {f : Node → Node} {s : Node} (hl : ∀ x, (f x).label = x.label) {l : Label}
    {p : List Step} (h1 : ∀ x, Has (f x) p ↔ Has x p ∨ Has s p) : ∀ t : List Node,
    HasL (insertWith f s t) l p ↔ HasL t l p ∨ (s.label = l ∧ Has s p)
  | [] => by simp [HasL, insertWith]
  | x :: r => by
    have ih := insertWith_has hl (l := l) h1 r
    simp only [insertWith]
    split
    · next h =>
      simp only [HasL, List.mem_cons, exists_eq_or_imp, hl, h1]
      constructor
      · rintro (⟨a, b | b⟩ | h')
        · exact .inl (.inl ⟨a, b⟩)
        · exact .inr ⟨h ▸ a, b⟩
        · exact .inl (.inr h')
      · rintro ((⟨a, b⟩ | h') | ⟨a, b⟩)
        · exact .inl ⟨a, .inl b⟩
        · exact .inr h'
        · exact .inl ⟨h.trans a, .inr b⟩
    · simp only [HasL, List.mem_cons, exists_eq_or_imp] at ih ⊢
      rw [ih, or_assoc]

mutual
theorem merge_has : ∀ (t s : Node) (p : List Step), Has (mergeNode t s) p ↔ Has t p ∨ Has s p
  | t, s, [] => by simp [has_nil]
  | .mk l trs tcs, .mk l' rs cs, .child x :: p => by
    simp only [has_child, mergeNode, Node.children]
    exact mergeList_has tcs cs x p
  | .mk l trs tcs, .mk l' rs cs, .req x :: p => by
    simp only [has_req, mergeNode, Node.reqs]
    exact mergeList_has trs rs x p
theorem mergeList_has : ∀ (t s : List Node) (l : Label) (p : List Step),
    HasL (mergeList t s) l p ↔ HasL t l p ∨ HasL s l p
  | t, [], l, p => by simp [mergeList, HasL]
  | t, s :: r, l, p => by
    have hx := fun x => merge_has x s p
    have h1 := insertWith_has (f := fun x => mergeNode x s) (s := s) (l := l)
      (fun x => mergeNode_label x s) hx t
    have h3 := mergeList_has (insertWith (fun x => mergeNode x s) s t) r l p
    simp only [mergeList]
    rw [h3, h1, or_assoc]
    have : HasL (s :: r) l p ↔ (s.label = l ∧ Has s p) ∨ HasL r l p := by
      simp [HasL]
    rw [this]
end

/-! ## Tidy trees -/

theorem tidy_iff {t : Node} : Tidy t ↔ (t.reqs.map Node.label).Nodup ∧ (t.children.map Node.label).Nodup ∧
    (∀ x ∈ t.reqs, Tidy x) ∧ (∀ x ∈ t.children, Tidy x) := by
  constructor
  · intro h; cases h with
    | mk a b c d => exact ⟨a, b, c, d⟩
  · cases t; rintro ⟨a, b, c, d⟩; exact .mk a b c d

/-- Nodes without equal labels, all tidy. -/
def TidyL (l : List Node) : Prop := (l.map Node.label).Nodup ∧ ∀ x ∈ l, Tidy x

theorem insertWith_labels {f : Node → Node} {s : Node} (hl : ∀ x, (f x).label = x.label) :
    ∀ (t : List Node) (l : Label), l ∈ (insertWith f s t).map Node.label ↔
      l ∈ t.map Node.label ∨ l = s.label
  | [], l => by simp [insertWith]
  | x :: r, l => by
    have ih := insertWith_labels (s := s) hl r l
    simp only [insertWith]
    split
    · next h =>
      simp only [List.map_cons, List.mem_cons, hl]
      constructor
      · exact .inl
      · rintro (h' | h')
        · exact h'
        · exact .inl (h'.trans h.symm)
    · simp only [List.map_cons, List.mem_cons, ih, or_assoc]

theorem insertWith_tidy {f : Node → Node} {s : Node} (hl : ∀ x, (f x).label = x.label)
    (hf : ∀ x, Tidy x → Tidy (f x)) (hs : Tidy s) : ∀ {t : List Node}, TidyL t →
    TidyL (insertWith f s t)
  | [], _ => ⟨by simp [insertWith], by simpa [insertWith] using hs⟩
  | x :: r, ⟨h1, h2⟩ => by
    rw [List.map_cons, List.nodup_cons] at h1
    have hr : TidyL r := ⟨h1.2, fun y hy => h2 y (List.mem_cons_of_mem _ hy)⟩
    obtain ⟨i1, i2⟩ := insertWith_tidy hl hf hs hr
    simp only [insertWith]
    split
    · refine ⟨by rw [List.map_cons, List.nodup_cons, hl]; exact h1, fun y hy => ?_⟩
      rcases List.mem_cons.1 hy with rfl | hy
      · exact hf _ (h2 _ (List.mem_cons_self ..))
      · exact hr.2 y hy
    · next hne =>
      refine ⟨?_, fun y hy => ?_⟩
      · rw [List.map_cons, List.nodup_cons, insertWith_labels hl]
        refine ⟨fun h => ?_, i1⟩
        rcases h with h | h
        · exact h1.1 h
        · exact hne h
      · rcases List.mem_cons.1 hy with rfl | hy
        · exact h2 _ (List.mem_cons_self ..)
        · exact i2 y hy

mutual
theorem merge_tidy : ∀ (t s : Node), Tidy t → Tidy s → Tidy (mergeNode t s)
  | .mk l trs tcs, .mk l' rs cs, ht, hs => by
    obtain ⟨a1, a2, a3, a4⟩ := tidy_iff.1 ht
    obtain ⟨b1, b2, b3, b4⟩ := tidy_iff.1 hs
    obtain ⟨c1, c2⟩ := mergeList_tidy trs rs ⟨a1, a3⟩ ⟨b1, b3⟩
    obtain ⟨d1, d2⟩ := mergeList_tidy tcs cs ⟨a2, a4⟩ ⟨b2, b4⟩
    simp only [mergeNode]
    exact .mk c1 d1 c2 d2
theorem mergeList_tidy : ∀ (t s : List Node), TidyL t → TidyL s → TidyL (mergeList t s)
  | t, [], ht, _ => by simpa only [mergeList] using ht
  | t, s :: r, ht, hs => by
    have hx := fun x hx' => merge_tidy x s hx' (hs.2 s (List.mem_cons_self ..))
    have h1 := insertWith_tidy (f := fun x => mergeNode x s) (s := s)
      (fun x => mergeNode_label x s) hx (hs.2 s (List.mem_cons_self ..)) ht
    have hr : TidyL r := by
      have := hs.1
      rw [List.map_cons, List.nodup_cons] at this
      exact ⟨this.2, fun y hy => hs.2 y (List.mem_cons_of_mem _ hy)⟩
    simp only [mergeList]
    exact mergeList_tidy _ r h1 hr
end

/-! ## The cost of a tidy tree is the cost of its places -/

mutual
/-- The places below the root. -/
def placesBelow : Node → List (List Step)
  | .mk _ rs cs => placesC cs ++ placesR rs
/-- Through children. -/
def placesC : List Node → List (List Step)
  | [] => []
  | c :: r => ([] :: placesBelow c).map (.child c.label :: ·) ++ placesC r
/-- Through requirements. -/
def placesR : List Node → List (List Step)
  | [] => []
  | c :: r => ([] :: placesBelow c).map (.req c.label :: ·) ++ placesR r
end

mutual
theorem mem_places : ∀ (t : Node) (p : List Step), p ∈ ([] :: placesBelow t) ↔ Has t p
  | t, [] => by simp [has_nil]
  | .mk l rs cs, .child x :: p => by
    have h1 := mem_placesC cs x p
    have h2 : Step.child x :: p ∉ placesR rs := not_mem_placesR rs x p
    simp only [placesBelow, has_child, Node.children, List.mem_cons, List.mem_append, h1, h2, or_false,
      reduceCtorEq, false_or]
    exact Iff.rfl
  | .mk l rs cs, .req x :: p => by
    have h1 := mem_placesR rs x p
    have h2 : Step.req x :: p ∉ placesC cs := not_mem_placesC cs x p
    simp only [placesBelow, has_req, Node.reqs, List.mem_cons, List.mem_append, h1, h2,
      reduceCtorEq, false_or]
    exact Iff.rfl
theorem mem_placesC : ∀ (t : List Node) (l : Label) (p : List Step),
    Step.child l :: p ∈ placesC t ↔ HasL t l p
  | [], l, p => by simp [placesC, HasL]
  | c :: r, l, p => by
    have h1 := mem_places c p
    have h2 := mem_placesC r l p
    have h3 : HasL (c :: r) l p ↔ (c.label = l ∧ Has c p) ∨ HasL r l p := by simp [HasL]
    rw [h3, ← h1, ← h2]
    simp only [placesC, List.mem_append, List.mem_map, List.cons.injEq, Step.child.injEq]
    constructor
    · rintro (⟨a, b, d, rfl⟩ | h)
      · exact .inl ⟨d, b⟩
      · exact .inr h
    · rintro (⟨a, b⟩ | h)
      · exact .inl ⟨p, b, a, rfl⟩
      · exact .inr h
theorem mem_placesR : ∀ (t : List Node) (l : Label) (p : List Step),
    Step.req l :: p ∈ placesR t ↔ HasL t l p
  | [], l, p => by simp [placesR, HasL]
  | c :: r, l, p => by
    have h1 := mem_places c p
    have h2 := mem_placesR r l p
    have h3 : HasL (c :: r) l p ↔ (c.label = l ∧ Has c p) ∨ HasL r l p := by simp [HasL]
    rw [h3, ← h1, ← h2]
    simp only [placesR, List.mem_append, List.mem_map, List.cons.injEq, Step.req.injEq]
    constructor
    · rintro (⟨a, b, d, rfl⟩ | h)
      · exact .inl ⟨d, b⟩
      · exact .inr h
    · rintro (⟨a, b⟩ | h)
      · exact .inl ⟨p, b, a, rfl⟩
      · exact .inr h
theorem not_mem_placesR : ∀ (t : List Node) (l : Label) (p : List Step),
    Step.child l :: p ∉ placesR t
  | [], l, p => by simp [placesR]
  | c :: r, l, p => by
    have h2 := not_mem_placesR r l p
    simp [placesR, h2]
theorem not_mem_placesC : ∀ (t : List Node) (l : Label) (p : List Step),
    Step.req l :: p ∉ placesC t
  | [], l, p => by simp [placesC]
  | c :: r, l, p => by
    have h2 := not_mem_placesC r l p
    simp [placesC, h2]
end

theorem nil_not_mem_placesC : ∀ (t : List Node), [] ∉ placesC t
  | [] => by simp [placesC]
  | c :: r => by
    have := nil_not_mem_placesC r
    simp [placesC, this]

theorem nil_not_mem_placesR : ∀ (t : List Node), [] ∉ placesR t
  | [] => by simp [placesR]
  | c :: r => by
    have := nil_not_mem_placesR r
    simp [placesR, this]

theorem nil_not_mem_placesBelow (t : Node) : [] ∉ placesBelow t := by
  cases t
  simp only [placesBelow, List.mem_append, not_or]
  exact ⟨nil_not_mem_placesC _, nil_not_mem_placesR _⟩

theorem nodup_map_cons (s : Step) {L : List (List Step)} (h : L.Nodup) : (L.map (s :: ·)).Nodup := by
  rw [List.nodup_iff_pairwise_ne, List.pairwise_map]
  exact List.Pairwise.imp (fun h h' => h (List.cons.inj h').2) h

theorem shape_placesC : ∀ {t : List Node} {p : List Step}, p ∈ placesC t →
    ∃ c ∈ t, ∃ q, p = .child c.label :: q
  | [], p, h => by simp [placesC] at h
  | c :: r, p, h => by
    simp only [placesC, List.mem_append, List.mem_map] at h
    rcases h with ⟨q, _, rfl⟩ | h
    · exact ⟨c, List.mem_cons_self .., q, rfl⟩
    · obtain ⟨c', h1, h2⟩ := shape_placesC h
      exact ⟨c', List.mem_cons_of_mem _ h1, h2⟩

theorem shape_placesR : ∀ {t : List Node} {p : List Step}, p ∈ placesR t →
    ∃ c ∈ t, ∃ q, p = .req c.label :: q
  | [], p, h => by simp [placesR] at h
  | c :: r, p, h => by
    simp only [placesR, List.mem_append, List.mem_map] at h
    rcases h with ⟨q, _, rfl⟩ | h
    · exact ⟨c, List.mem_cons_self .., q, rfl⟩
    · obtain ⟨c', h1, h2⟩ := shape_placesR h
      exact ⟨c', List.mem_cons_of_mem _ h1, h2⟩

mutual
theorem nodup_places : ∀ (t : Node), Tidy t → ([] :: placesBelow t).Nodup
  | .mk l rs cs, h => by
    obtain ⟨a, b, c, d⟩ := tidy_iff.1 h
    rw [List.nodup_cons]
    refine ⟨nil_not_mem_placesBelow _, ?_⟩
    simp only [placesBelow]
    rw [List.nodup_append]
    refine ⟨nodup_placesC cs ⟨b, d⟩, nodup_placesR rs ⟨a, c⟩, ?_⟩
    intro p hp q hq e
    obtain ⟨c1, _, q1, h1⟩ := shape_placesC hp
    obtain ⟨c2, _, q2, h2⟩ := shape_placesR hq
    rw [h1, h2] at e
    exact absurd (List.cons.inj e).1 (fun h => by cases h)
theorem nodup_placesC : ∀ (t : List Node), TidyL t → (placesC t).Nodup
  | [], _ => by simp [placesC]
  | c :: r, ⟨h1, h2⟩ => by
    rw [List.map_cons, List.nodup_cons] at h1
    simp only [placesC]
    rw [List.nodup_append]
    refine ⟨nodup_map_cons _ (nodup_places c (h2 c (List.mem_cons_self ..))),
      nodup_placesC r ⟨h1.2, fun y hy => h2 y (List.mem_cons_of_mem _ hy)⟩, ?_⟩
    intro p hp q hq e
    obtain ⟨q1, _, rfl⟩ := List.mem_map.1 hp
    obtain ⟨c2, hc2, q2, h3⟩ := shape_placesC hq
    rw [h3] at e
    have := (List.cons.inj e).1
    rw [Step.child.injEq] at this
    exact h1.1 (this ▸ List.mem_map_of_mem hc2)
theorem nodup_placesR : ∀ (t : List Node), TidyL t → (placesR t).Nodup
  | [], _ => by simp [placesR]
  | c :: r, ⟨h1, h2⟩ => by
    rw [List.map_cons, List.nodup_cons] at h1
    simp only [placesR]
    rw [List.nodup_append]
    refine ⟨nodup_map_cons _ (nodup_places c (h2 c (List.mem_cons_self ..))),
      nodup_placesR r ⟨h1.2, fun y hy => h2 y (List.mem_cons_of_mem _ hy)⟩, ?_⟩
    intro p hp q hq e
    obtain ⟨q1, _, rfl⟩ := List.mem_map.1 hp
    obtain ⟨c2, hc2, q2, h3⟩ := shape_placesR hq
    rw [h3] at e
    have := (List.cons.inj e).1
    rw [Step.req.injEq] at this
    exact h1.1 (this ▸ List.mem_map_of_mem hc2)
end

theorem placeCost_cons (g : Graph) (s : Step) {p : List Step} (h : p ≠ []) :
    placeCost g (s :: p) = placeCost g p := by
  cases p with
  | nil => exact absurd rfl h
  | cons a r => simp only [placeCost]

theorem sum_prefix (g : Graph) (s : Step) : ∀ {L : List (List Step)}, [] ∉ L →
    ((L.map (s :: ·)).map (placeCost g)).sum = (L.map (placeCost g)).sum
  | [], _ => rfl
  | p :: L, h => by
    rw [List.mem_cons, not_or] at h
    simp only [List.map_cons, List.sum_cons]
    rw [placeCost_cons g s (Ne.symm h.1), sum_prefix g s h.2]

theorem stepCost_child (g : Graph) (l : Label) : stepCost g (.child l) = entryCost g l + 1 := by
  simp only [stepCost, entryCost]
  cases l.edge with
  | none => rfl
  | some e => cases h : g.entry e <;> simp [h]

mutual
theorem sum_places (g : Graph) : ∀ (t : Node), ((placesBelow t).map (placeCost g)).sum + 1 = cost g t
  | .mk l rs cs => by
    have h1 := sum_placesC g cs
    have h2 := sum_placesR g rs
    simp only [placesBelow, cost, List.map_append, List.sum_append]
    omega
theorem sum_placesC (g : Graph) : ∀ (t : List Node),
    ((placesC t).map (placeCost g)).sum = costChildren g t
  | [] => by simp [placesC, costChildren]
  | c :: r => by
    have h1 := sum_places g c
    have h2 := sum_placesC g r
    have h3 := sum_prefix g (.child c.label) (nil_not_mem_placesBelow c)
    rw [costChildren_cons]
    simp only [placesC, List.map_append, List.sum_append, List.map_cons, List.sum_cons, placeCost,
      stepCost_child] at *
    omega
theorem sum_placesR (g : Graph) : ∀ (t : List Node),
    ((placesR t).map (placeCost g)).sum = costReqs g t
  | [] => by simp [placesR, costReqs]
  | c :: r => by
    have h1 := sum_places g c
    have h2 := sum_placesR g r
    have h3 := sum_prefix g (.req c.label) (nil_not_mem_placesBelow c)
    simp only [placesR, costReqs, List.map_append, List.sum_append, List.map_cons, List.sum_cons, placeCost,
      stepCost] at *
    omega
end

theorem cost_eq {g : Graph} {t : Node} (h : Tidy t) : SetCost g (Has t) (cost g t) := by
  refine ⟨[] :: placesBelow t, nodup_places t h, mem_places t, ?_⟩
  have := sum_places g t
  simp only [List.map_cons, List.sum_cons, placeCost]
  omega

theorem sum_le_of_subset {α : Type} [DecidableEq α] (f : α → Nat) : ∀ {a b : List α}, a.Nodup →
    (∀ x ∈ a, x ∈ b) → (a.map f).sum ≤ (b.map f).sum
  | [], b, _, _ => by simp
  | x :: a, b, hn, h => by
    obtain ⟨h1, h2⟩ := List.nodup_cons.1 hn
    have hx : x ∈ b := h x (by simp)
    have := sum_le_of_subset f (a := a) (b := b.erase x) h2 (by
      intro y hy
      have hne : y ≠ x := by rintro rfl; exact h1 hy
      exact (List.mem_erase_of_ne hne).2 (h y (by simp [hy])))
    have hp := ((List.perm_cons_erase hx).map f).sum_nat
    simp only [List.map_cons, List.sum_cons] at hp ⊢
    omega

theorem setCost_le {g : Graph} {P Q : List Step → Prop} {a b : Nat} (ha : SetCost g P a)
    (hb : SetCost g Q b) (h : ∀ p, P p → Q p) : a ≤ b := by
  obtain ⟨A, hA, hA', rfl⟩ := ha
  obtain ⟨B, hB, hB', rfl⟩ := hb
  exact sum_le_of_subset _ hA fun p hp => (hB' p).2 (h p ((hA' p).1 hp))

theorem setCost_unique {g : Graph} {P Q : List Step → Prop} {a b : Nat} (ha : SetCost g P a)
    (hb : SetCost g Q b) (h : ∀ p, P p ↔ Q p) : a = b :=
  Nat.le_antisymm (setCost_le ha hb fun p => (h p).1) (setCost_le hb ha fun p => (h p).2)

/-! ## Sorting -/

theorem insertBy_perm {α : Type} (key : α → Nat) (x : α) : ∀ l : List α,
    (insertBy key x l).Perm (x :: l)
  | [] => .refl _
  | y :: r => by
    simp only [insertBy]
    split
    · exact .refl _
    · exact ((insertBy_perm key x r).cons y).trans (.swap x y r)

theorem sortBy_perm {α : Type} (key : α → Nat) : ∀ l : List α, (sortBy key l).Perm l
  | [] => .refl _
  | x :: r => (insertBy_perm key x _).trans ((sortBy_perm key r).cons x)

theorem insertBy_sorted {α : Type} (key : α → Nat) (x : α) : ∀ {l : List α},
    l.Pairwise (fun a b => key a ≤ key b) → (insertBy key x l).Pairwise (fun a b => key a ≤ key b)
  | [], _ => by simp [insertBy]
  | y :: r, h => by
    simp only [insertBy]
    rw [List.pairwise_cons] at h
    split
    · next hxy =>
      rw [List.pairwise_cons]
      refine ⟨fun z hz => ?_, List.pairwise_cons.2 h⟩
      rcases List.mem_cons.1 hz with rfl | hz
      · exact hxy
      · exact Nat.le_trans hxy (h.1 z hz)
    · next hxy =>
      rw [List.pairwise_cons]
      refine ⟨fun z hz => ?_, insertBy_sorted key x h.2⟩
      rcases List.mem_cons.1 ((insertBy_perm key x r).mem_iff.1 hz) with rfl | hz
      · omega
      · exact h.1 z hz

theorem sortBy_sorted {α : Type} (key : α → Nat) : ∀ l : List α,
    (sortBy key l).Pairwise (fun a b => key a ≤ key b)
  | [] => List.Pairwise.nil
  | x :: r => insertBy_sorted key x (sortBy_sorted key r)

/-! ## The greedy plan -/

theorem bestNext_some {g : Graph} {tree : Option Node} {cur : Nat} : ∀ {l : List Node} {d : Nat}
    {next : Option (Nat × Node)} {c : Nat} {t : Node},
    bestNext g tree cur l d next = some (c, t) →
    (next = some (c, t) ∧ ∀ x ∈ l, d ≤ cost g (addTree tree x) - cur) ∨
    (∃ x ∈ l, t = addTree tree x ∧ c = cost g t ∧ cost g t - cur < d ∧
      ∀ y ∈ l, cost g t - cur ≤ cost g (addTree tree y) - cur)
  | [], d, next, c, t, h => .inl ⟨h, fun x hx => absurd hx List.not_mem_nil⟩
  | h :: r, d, next, c, t, e => by
    simp only [bestNext] at e
    split at e
    · next hlt =>
      rcases bestNext_some e with ⟨h1, h2⟩ | ⟨x, hx, h1, h2, h3, h4⟩
      · have h1 := Prod.mk.inj (Option.some.inj h1)
        right
        refine ⟨h, List.mem_cons_self .., h1.2.symm, h1.2 ▸ h1.1.symm, h1.2 ▸ hlt, fun y hy => ?_⟩
        rw [← h1.2]
        rcases List.mem_cons.1 hy with rfl | hy
        · exact Nat.le_refl _
        · exact h2 y hy
      · right
        refine ⟨x, List.mem_cons_of_mem _ hx, h1, h2, by omega, fun y hy => ?_⟩
        rcases List.mem_cons.1 hy with rfl | hy
        · omega
        · exact h4 y hy
    · next hge =>
      rcases bestNext_some e with ⟨h1, h2⟩ | ⟨x, hx, h1, h2, h3, h4⟩
      · left
        refine ⟨h1, fun y hy => ?_⟩
        rcases List.mem_cons.1 hy with rfl | hy
        · omega
        · exact h2 y hy
      · right
        refine ⟨x, List.mem_cons_of_mem _ hx, h1, h2, h3, fun y hy => ?_⟩
        rcases List.mem_cons.1 hy with rfl | hy
        · omega
        · exact h4 y hy

theorem bestNext_none {g : Graph} {tree : Option Node} {cur : Nat} : ∀ {l : List Node} {d : Nat}
    {next : Option (Nat × Node)}, bestNext g tree cur l d next = none →
    next = none ∧ ∀ x ∈ l, d ≤ cost g (addTree tree x) - cur
  | [], d, next, h => ⟨h, fun x hx => absurd hx List.not_mem_nil⟩
  | h :: r, d, next, e => by
    simp only [bestNext] at e
    split at e
    · exact absurd (bestNext_none e).1 (fun h => by cases h)
    · obtain ⟨h1, h2⟩ := bestNext_none e
      refine ⟨h1, fun y hy => ?_⟩
      rcases List.mem_cons.1 hy with rfl | hy
      · omega
      · exact h2 y hy

/-- One candidate of each. -/
inductive Pick : List (List Node) → List Node → Prop where
  | nil : Pick [] []
  | cons {l : List Node} {x : Node} {r : List (List Node)} {c : List Node} :
      x ∈ l → Pick r c → Pick (l :: r) (x :: c)

/-- Adding trees one after the other. -/
def addAll : Option Node → List Node → Option Node
  | t, [] => t
  | t, c :: r => addAll (some (addTree t c)) r

theorem addTree_has (t : Option Node) (c : Node) (p : List Step) :
    Has (addTree t c) p ↔ (∃ x, t = some x ∧ Has x p) ∨ Has c p := by
  cases t with
  | none => simp [addTree]
  | some x => simp only [addTree, merge_has, Option.some.injEq, exists_eq_left']

theorem addAll_has : ∀ {cs : List Node} {t : Option Node} {u : Node}, addAll t cs = some u →
    ∀ p, Has u p ↔ (∃ x, t = some x ∧ Has x p) ∨ ∃ c ∈ cs, Has c p
  | [], t, u, h, p => by
    simp only [addAll] at h
    subst h
    simp
  | c :: r, t, u, h, p => by
    have ih := addAll_has (cs := r) (t := some (addTree t c)) (u := u) h p
    rw [ih]
    simp only [Option.some.injEq, exists_eq_left', addTree_has, List.mem_cons, exists_eq_or_imp, or_assoc]

theorem addAll_tidy : ∀ {cs : List Node} {t : Option Node} {u : Node}, addAll t cs = some u →
    (∀ x, t = some x → Tidy x) → (∀ c ∈ cs, Tidy c) → Tidy u
  | [], t, u, h, ht, _ => ht u h
  | c :: r, t, u, h, ht, hc => by
    refine addAll_tidy (cs := r) (t := some (addTree t c)) h (fun x hx => ?_)
      (fun y hy => hc y (List.mem_cons_of_mem _ hy))
    rw [← Option.some.inj hx]
    have := hc c (List.mem_cons_self ..)
    cases t with
    | none => exact this
    | some z => exact merge_tidy z c (ht z rfl) this

theorem addAll_some : ∀ (cs : List Node) (t : Option Node), (t.isSome ∨ cs ≠ []) → ∃ u, addAll t cs = some u
  | [], t, h => by
    simp only [ne_eq, not_true_eq_false, or_false] at h
    exact Option.isSome_iff_exists.1 h
  | c :: r, t, _ => addAll_some r _ (.inl rfl)

/-- The cost of a tree so far. -/
def costSoFar (g : Graph) : Option Node → Nat
  | some t => cost g t
  | none => 0

theorem addTree_cost (g : Graph) (t : Option Node) (c : Node) :
    cost g (addTree t c) ≤ costSoFar g t + cost g c ∧ costSoFar g t ≤ cost g (addTree t c) := by
  cases t with
  | none => simp [addTree, costSoFar]
  | some x => have := merge_cost g x c; simp only [addTree, costSoFar]; omega

theorem initialPlan_spec {g : Graph} : ∀ {gs : List (List Node)} {tree : Option Node} {c : Nat} {t : Node},
    initialPlan g gs tree (costSoFar g tree) = some (c, t) →
    ∃ cs, Pick gs cs ∧ addAll tree cs = some t ∧ c = cost g t ∧
      ∀ ds, Pick gs ds → c ≤ costSoFar g tree + (ds.map (cost g)).sum
  | [], tree, c, t, h => by
    simp only [initialPlan, Option.map_eq_some_iff, Prod.mk.injEq] at h
    obtain ⟨u, rfl, h1, rfl⟩ := h
    refine ⟨[], .nil, rfl, h1.symm, fun ds hd => ?_⟩
    rw [← h1]; exact Nat.le_add_right _ _
  | l :: r, tree, c, t, h => by
    simp only [initialPlan] at h
    split at h
    · next c' t' hn =>
      rcases bestNext_some hn with ⟨h1, _⟩ | ⟨x, hx, h1, h2, h3, h4⟩
      · exact absurd h1 (fun h => by cases h)
      · subst h2
        have h' : initialPlan g r (some t') (costSoFar g (some t')) = some (c, t) := h
        obtain ⟨cs, p1, p2, p3, p4⟩ := initialPlan_spec h'
        refine ⟨x :: cs, .cons hx p1, by simp only [addAll, ← h1]; exact p2, p3, fun ds hd => ?_⟩
        cases hd with
        | @cons _ y _ ds' hy hd =>
          have a1 := p4 ds' hd
          have a2 := h4 y hy
          have a3 := addTree_cost g tree y
          have a4 := addTree_cost g tree x
          rw [← h1] at a4
          simp only [costSoFar, List.map_cons, List.sum_cons] at *
          omega
    · exact absurd h (fun h => by cases h)

theorem initialPlan_some {g : Graph} : ∀ {gs : List (List Node)} {tree : Option Node} {ds : List Node},
    Pick gs ds → (∀ d ∈ ds, cost g d < maxU64) → (tree.isSome ∨ gs ≠ []) →
    ∃ c t, initialPlan g gs tree (costSoFar g tree) = some (c, t)
  | [], tree, ds, _, _, h => by
    simp only [ne_eq, not_true_eq_false, or_false] at h
    obtain ⟨t, rfl⟩ := Option.isSome_iff_exists.1 h
    exact ⟨_, t, by simp [initialPlan]; rfl⟩
  | l :: r, tree, _, .cons (x := y) (c := ds) hy hd, hc, _ => by
    simp only [initialPlan]
    cases hb : bestNext g tree (costSoFar g tree) l maxU64 none with
    | none =>
      have h1 := (bestNext_none hb).2 y hy
      have h2 := addTree_cost g tree y
      have h3 := hc y (List.mem_cons_self ..)
      omega
    | some ct =>
      obtain ⟨c, t⟩ := ct
      rcases bestNext_some hb with ⟨h1, _⟩ | ⟨x, hx, h1, h2, h3, h4⟩
      · exact absurd h1 (fun h => by cases h)
      · subst h2
        exact initialPlan_some (tree := some t) hd (fun d hd' => hc d (List.mem_cons_of_mem _ hd')) (.inl rfl)

/-! ## The bound -/

theorem minCost_ge {g : Graph} : ∀ {l : List Node} {acc n : Nat}, n ≤ acc → (∀ x ∈ l, n ≤ cost g x) →
    n ≤ minCost g l acc
  | [], _, _, h, _ => h
  | x :: r, acc, n, h, hx => by
    simp only [minCost]
    have := hx x (List.mem_cons_self ..)
    exact minCost_ge (by omega) (fun y hy => hx y (List.mem_cons_of_mem _ hy))

theorem minCost_attained {g : Graph} : ∀ {l : List Node} {acc : Nat}, l ≠ [] →
    (∀ x ∈ l, cost g x ≤ acc) → ∃ x ∈ l, minCost g l acc = cost g x
  | [x], acc, _, h => ⟨x, List.mem_cons_self .., by
      have := h x (List.mem_cons_self ..)
      simp only [minCost]; omega⟩
  | x :: y :: r, acc, _, h => by
    have hx := h x (List.mem_cons_self ..)
    simp only [minCost]
    rcases Nat.lt_or_ge (cost g x) (cost g y) with hlt | hge
    · -- `y` does not matter
      have e : min (min acc (cost g x)) (cost g y) = min acc (cost g x) := by omega
      rw [e]
      obtain ⟨z, hz, e⟩ := minCost_attained (l := x :: r) (acc := acc) (by simp) (by
        intro z hz
        rcases List.mem_cons.1 hz with rfl | hz
        · exact hx
        · exact h z (by simp [hz]))
      simp only [minCost] at e
      exact ⟨z, by rcases List.mem_cons.1 hz with rfl | hz <;> simp [*], e⟩
    · have e : min (min acc (cost g x)) (cost g y) = min acc (cost g y) := by omega
      rw [e]
      obtain ⟨z, hz, e⟩ := minCost_attained (l := y :: r) (acc := acc) (by simp) (by
        intro z hz
        exact h z (by simp [List.mem_cons.1 hz]))
      simp only [minCost] at e
      exact ⟨z, List.mem_cons_of_mem _ hz, e⟩
termination_by l => l.length

theorem minRemaining_attained {g : Graph} : ∀ {gs : List (List Node)}, (∀ l ∈ gs, l ≠ []) →
    (∀ l ∈ gs, ∀ x ∈ l, cost g x ≤ maxU64) →
    ∃ ds, Pick gs ds ∧ (minRemaining g gs).headD 0 = (ds.map (cost g)).sum
  | [], _, _ => ⟨[], .nil, rfl⟩
  | l :: r, h, hm => by
    obtain ⟨ds, h1, h2⟩ := minRemaining_attained (gs := r) (fun l hl => h l (List.mem_cons_of_mem _ hl))
      (fun l hl => hm l (List.mem_cons_of_mem _ hl))
    obtain ⟨x, hx, e⟩ := minCost_attained (h l (List.mem_cons_self ..)) (hm l (List.mem_cons_self ..))
    refine ⟨x :: ds, .cons hx h1, ?_⟩
    simp only [minRemaining, List.headD_cons, h2, e, List.map_cons, List.sum_cons]
    omega

/-! ## Picks and choices -/

theorem pick_sorted {g : Graph} : ∀ {gs : List (List Node)} {cs : List Node},
    Pick (sortCandidates g gs) cs ↔ Pick gs cs := by
  intro gs
  induction gs with
  | nil => intro cs; exact Iff.rfl
  | cons l r ih =>
    intro cs
    constructor
    · intro h
      cases h with
      | cons hx hr => exact .cons ((sortBy_perm _ l).mem_iff.1 hx) (ih.1 hr)
    · intro h
      cases h with
      | cons hx hr => exact .cons ((sortBy_perm _ l).mem_iff.2 hx) (ih.2 hr)

theorem pick_perm {gs gs' : List (List Node)} (h : gs.Perm gs') : ∀ {cs}, Pick gs cs →
    ∃ cs', Pick gs' cs' ∧ cs.Perm cs' := by
  induction h with
  | nil => intro cs h; exact ⟨cs, h, .refl _⟩
  | cons x _ ih =>
    intro cs h
    cases h with
    | cons hx hr =>
      obtain ⟨cs', h1, h2⟩ := ih hr
      exact ⟨_, .cons hx h1, h2.cons _⟩
  | swap x y l =>
    intro cs h
    cases h with
    | cons hx hr =>
      cases hr with
      | cons hy hr => exact ⟨_, .cons hy (.cons hx hr), .swap ..⟩
  | trans _ _ ih1 ih2 =>
    intro cs h
    obtain ⟨c1, h1, h2⟩ := ih1 h
    obtain ⟨c2, h3, h4⟩ := ih2 h1
    exact ⟨c2, h3, h2.trans h4⟩

/-- The candidates of a leaf. -/
def trees (g : Graph) (l : Option Nat × List Path) : List Node := l.2.map (fun p => fromPath g p l.1)

theorem leaves_eq (g : Graph) (m : Bool) : ∀ (i : Nat) (gs : List (List (List Path))),
    leavesFrom g m i gs = ((gs.zipIdx i).flatMap fun f => f.1.map fun ps =>
      ((if m then some f.2 else none : Option Nat), ps)).map (trees g)
  | i, [] => rfl
  | i, f :: r => by
    rw [List.zipIdx_cons, List.flatMap_cons, List.map_append, leavesFrom, leaves_eq g m (i + 1) r]
    congr 1
    rw [List.map_map]
    rfl

theorem leaves_eq' (g : Graph) (op : Resolved) :
    leavesFrom g op.mutation 0 op.groups = (leafPaths op).map (trees g) := leaves_eq g _ 0 _

/-- The tree of a chosen path. -/
def treeOf (g : Graph) (x : Option Nat × Path) : Node := fromPath g x.2 x.1

theorem pick_choice {g : Graph} : ∀ {ls : List (Option Nat × List Path)} {cs : List Node},
    Pick (ls.map (trees g)) cs ↔ ∃ ch, Choice ls ch ∧ cs = ch.map (treeOf g)
  | [], cs => by
    constructor
    · intro h; cases h; exact ⟨[], .nil, rfl⟩
    · rintro ⟨ch, h, rfl⟩; cases h; exact .nil
  | (pos, ps) :: r, cs => by
    constructor
    · intro h
      cases h with
      | cons hx hr =>
        obtain ⟨ch, h1, rfl⟩ := pick_choice.1 hr
        obtain ⟨p, hp, rfl⟩ := List.mem_map.1 hx
        exact ⟨(pos, p) :: ch, .cons hp h1, rfl⟩
    · rintro ⟨ch, h, rfl⟩
      cases h with
      | @cons _ p _ _ c hp hr =>
        exact .cons (List.mem_map.2 ⟨p, hp, rfl⟩) (pick_choice.2 ⟨c, hr, rfl⟩)

/-! ## Candidates are tidy -/

theorem fromSegments_tidy {g : Graph} : ∀ {ss : List Segment} {pos : Option Nat},
    (∀ s ∈ ss, ∀ t, s.requirement = some t → Tidy t) → ∀ t, fromSegments g ss pos = some t → Tidy t
  | [], _, _, t, h => by simp [fromSegments] at h
  | s :: r, pos, hs, t, h => by
    simp only [fromSegments, Option.some.injEq] at h
    subst h
    have hr := fromSegments_tidy (g := g) (ss := r) (pos := none)
      (fun s' h' => hs s' (List.mem_cons_of_mem _ h'))
    refine .mk ?_ ?_ ?_ ?_
    · cases s.requirement <;> simp
    · cases fromSegments g r none <;> simp
    · intro x hx
      cases hreq : s.requirement with
      | none => rw [hreq] at hx; exact absurd hx List.not_mem_nil
      | some u =>
        rw [hreq] at hx
        rw [List.mem_singleton.1 hx]
        exact hs s (List.mem_cons_self ..) u hreq
    · intro x hx
      cases hreq : fromSegments g r none with
      | none => rw [hreq] at hx; exact absurd hx List.not_mem_nil
      | some u =>
        rw [hreq] at hx
        rw [List.mem_singleton.1 hx]
        exact hr u hreq

theorem fromPath_tidy {g : Graph} {p : Path} {pos : Option Nat}
    (h : ∀ s ∈ p.segments, ∀ t, s.requirement = some t → Tidy t) : Tidy (fromPath g p pos) := by
  unfold fromPath
  refine .mk (by simp) ?_ (fun x hx => absurd hx List.not_mem_nil) ?_
  · cases fromSegments g p.segments pos <;> simp
  · intro x hx
    cases hs : fromSegments g p.segments pos with
    | none => rw [hs] at hx; exact absurd hx List.not_mem_nil
    | some u =>
      rw [hs] at hx
      rw [List.mem_singleton.1 hx]
      exact fromSegments_tidy h u hs

theorem along_has {g : Graph} : ∀ {ss : List Segment} {pos : Option Nat} {l : Label} {q : List Step},
    Along g pos ss (.child l :: q) ↔ ∃ t, fromSegments g ss pos = some t ∧ t.label = l ∧ Has t q
  | [], pos, l, q => by
    constructor
    · intro h; cases h
    · rintro ⟨t, h, _⟩; simp [fromSegments] at h
  | s :: r, pos, l, q => by
    simp only [fromSegments, Option.some.injEq, exists_eq_left']
    constructor
    · intro h
      generalize hq : Step.child l :: q = q' at h
      cases h with
      | stop => cases hq
      | step h =>
        obtain ⟨h1, rfl⟩ := List.cons.inj hq
        refine ⟨((Step.child.injEq _ _).mp h1).symm, ?_⟩
        cases q with
        | nil => exact .root
        | cons a q =>
          cases a with
          | req l' => exact absurd h (fun h => by
              generalize hq : Step.req l' :: q = q' at h
              cases h with
              | stop => cases hq
              | step => cases hq
              | req => cases hq)
          | child l' =>
            obtain ⟨t, h2, h3, h4⟩ := along_has.1 h
            exact has_child.2 ⟨t, by simp [Node.children, h2], h3, h4⟩
      | req h2 h3 =>
        obtain ⟨h1, rfl⟩ := List.cons.inj hq
        refine ⟨((Step.child.injEq _ _).mp h1).symm, ?_⟩
        exact has_req.2 ⟨_, by simp [Node.reqs, h2], rfl, h3⟩
    · rintro ⟨h1, h2⟩
      simp only [Node.label] at h1
      subst h1
      cases q with
      | nil => exact .step .stop
      | cons a q =>
        cases a with
        | req l' =>
          obtain ⟨t, ht, rfl, hp⟩ := has_req.1 h2
          simp only [Node.reqs, Option.mem_toList] at ht
          exact .req ht hp
        | child l' =>
          obtain ⟨t, ht, rfl, hp⟩ := has_child.1 h2
          simp only [Node.children, Option.mem_toList] at ht
          exact .step (along_has.2 ⟨t, ht, rfl, hp⟩)

theorem fromPath_has {g : Graph} {p : Path} {pos : Option Nat} {q : List Step} :
    Has (fromPath g p pos) q ↔ Along g pos p.segments q := by
  cases q with
  | nil => exact ⟨fun _ => .stop, fun _ => .root⟩
  | cons a q =>
    cases a with
    | req l =>
      constructor
      · intro h
        obtain ⟨t, ht, _⟩ := has_req.1 h
        exact absurd ht List.not_mem_nil
      · intro h
        generalize hq : Step.req l :: q = q' at h
        generalize p.segments = ss at h
        cases h with
        | stop => cases hq
        | step => cases hq
        | req => cases hq
    | child l =>
      rw [along_has, has_child]
      simp only [fromPath, Node.children, Option.mem_toList]

/-! ## When the greedy plan is the cheapest -/

theorem addAll_cost {g : Graph} : ∀ {cs : List Node} {t : Option Node} {u : Node}, addAll t cs = some u →
    costSoFar g t ≤ cost g u
  | [], t, u, h => by simp only [addAll] at h; subst h; exact Nat.le_refl _
  | c :: r, t, u, h => by
    have h1 := addAll_cost (g := g) (cs := r) (t := some (addTree t c)) (u := u) h
    have h2 := addTree_cost g t c
    simp only [costSoFar] at h1
    omega

theorem initialPlan_optimal {g : Graph} : ∀ {gs : List (List Node)} {tree : Option Node} {c : Nat} {t : Node},
    gs.Pairwise (fun a b => a.length ≤ b.length) → (gs.filter (fun l => 1 < l.length)).length ≤ 1 →
    initialPlan g gs tree (costSoFar g tree) = some (c, t) →
    ∀ ds u, Pick gs ds → addAll tree ds = some u → c ≤ cost g u
  | [], tree, c, t, _, _, h, ds, u, hd, hu => by
    cases hd
    simp only [initialPlan, Option.map_eq_some_iff, Prod.mk.injEq] at h
    obtain ⟨v, rfl, h1, rfl⟩ := h
    rw [← h1]
    exact addAll_cost hu
  | l :: r, tree, c, t, hs, hf, h, _, u, .cons (x := y) (c := ds) hy hd, hu => by
    simp only [initialPlan] at h
    split at h
    · next c' t' hn =>
      rcases bestNext_some hn with ⟨h1, _⟩ | ⟨x, hx, h1, h2, h3, h4⟩
      · exact absurd h1 (fun h => by cases h)
      · subst h2
        rw [List.pairwise_cons] at hs
        by_cases hl : 1 < l.length
        · -- then nothing is left
          cases r with
          | nil =>
            cases hd
            simp only [initialPlan, Option.map_some, Option.some.injEq, Prod.mk.injEq] at h
            simp only [addAll, Option.some.injEq] at hu
            have a1 := h4 y hy
            have a2 := (addTree_cost g tree y).2
            have a3 := (addTree_cost g tree x).2
            rw [← h1] at a3
            rw [← hu, ← h.1]
            omega
          | cons l2 r =>
            have := hs.1 l2 (List.mem_cons_self ..)
            have h2 : 1 < l2.length := by omega
            simp [List.filter_cons, hl, h2] at hf
        · have e : x = y := by
            match l, hx, hy, hl with
            | [z], hx, hy, _ => rw [List.mem_singleton.1 hx, List.mem_singleton.1 hy]
            | _ :: _ :: _, _, _, hl => simp at hl
          subst e
          have h' : initialPlan g r (some t') (costSoFar g (some t')) = some (c, t) := h
          refine initialPlan_optimal hs.2 ?_ h' ds u hd (by rw [h1]; exact hu)
          simpa [List.filter_cons, hl] using hf
    · exact absurd h (fun h => by cases h)

/-! ## Any candidate is part of a combination -/

theorem pick_of_nonempty : ∀ {gs : List (List Node)}, (∀ l ∈ gs, l ≠ []) → ∃ ds, Pick gs ds
  | [], _ => ⟨[], .nil⟩
  | l :: r, h => by
    obtain ⟨ds, hd⟩ := pick_of_nonempty (gs := r) (fun l hl => h l (List.mem_cons_of_mem _ hl))
    obtain ⟨x, hx⟩ := List.exists_mem_of_ne_nil l (h l (List.mem_cons_self ..))
    exact ⟨x :: ds, .cons hx hd⟩

theorem pick_with : ∀ {gs : List (List Node)}, (∀ l ∈ gs, l ≠ []) → ∀ l ∈ gs, ∀ x ∈ l,
    ∃ ds, Pick gs ds ∧ x ∈ ds
  | [], _, l, hl, _, _ => absurd hl List.not_mem_nil
  | l' :: r, h, l, hl, x, hx => by
    have hr := fun l hl => h l (List.mem_cons_of_mem l' hl)
    rcases List.mem_cons.1 hl with rfl | hl
    · obtain ⟨ds, hd⟩ := pick_of_nonempty hr
      exact ⟨x :: ds, .cons hx hd, List.mem_cons_self ..⟩
    · obtain ⟨ds, hd, hm⟩ := pick_with hr l hl x hx
      obtain ⟨y, hy⟩ := List.exists_mem_of_ne_nil l' (h l' (List.mem_cons_self ..))
      exact ⟨y :: ds, .cons hy hd, List.mem_cons_of_mem _ hm⟩

theorem pick_nonempty : ∀ {gs : List (List Node)} {ds : List Node}, Pick gs ds → ds.length = gs.length
  | _, _, .nil => rfl
  | _, _, .cons _ h => by simp [pick_nonempty h]

end Verif.Best
