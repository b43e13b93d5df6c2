import Verif.Graph.Build

/-!
# What is in a graph that was built

Every edge comes from a link, every link has an edge, and nodes that are told apart by their keys.
-/

namespace Verif.Graph

/-! ## Nodes -/

theorem upsertNode_keep {nodes : List Node} {n : Node} {i : Nat} {a : Node} (h : nodes[i]? = some a) :
    (upsertNode nodes n).1[i]? = some a := by
  unfold upsertNode
  split
  · exact h
  · rw [List.getElem?_append_left (List.getElem?_eq_some_iff.mp h).1]; exact h

theorem upsertNode_key (nodes : List Node) (n : Node) :
    ∃ a, (upsertNode nodes n).1[(upsertNode nodes n).2]? = some a ∧ a.key = n.key := by
  unfold upsertNode
  split
  next i hi =>
    obtain ⟨h1, h2, _⟩ := List.findIdx?_eq_some_iff_getElem.mp hi
    exact ⟨nodes[i], List.getElem?_eq_getElem h1, eq_of_beq h2⟩
  · exact ⟨n, by simp, rfl⟩

theorem upsertNode_mem {nodes : List Node} {n : Node} : ∀ a ∈ (upsertNode nodes n).1, a ∈ nodes ∨ a = n := by
  unfold upsertNode
  split
  · exact fun a h => .inl h
  · intro a h
    rcases List.mem_append.mp h with h | h
    · exact .inl h
    · exact .inr (by simpa using h)

/-- No two nodes have the same key. -/
def Distinct (nodes : List Node) : Prop := (nodes.map Node.key).Nodup

theorem upsertNode_distinct {nodes : List Node} (h : Distinct nodes) (n : Node) :
    Distinct (upsertNode nodes n).1 := by
  unfold upsertNode
  split
  · exact h
  next hn =>
    rw [List.findIdx?_eq_none_iff] at hn
    unfold Distinct
    rw [List.map_append, List.nodup_append]
    refine ⟨h, by simp, ?_⟩
    intro k hk k' hk' he
    obtain ⟨m, hm, rfl⟩ := List.mem_map.mp hk
    simp only [List.map_cons, List.map_nil, List.mem_singleton] at hk'
    subst hk'
    have := hn m hm
    simp [he] at this

theorem Distinct.index {nodes : List Node} (h : Distinct nodes) {i j : Nat} {a b : Node}
    (ha : nodes[i]? = some a) (hb : nodes[j]? = some b) (hk : a.key = b.key) : i = j := by
  obtain ⟨hi, rfl⟩ := List.getElem?_eq_some_iff.mp ha
  obtain ⟨hj, rfl⟩ := List.getElem?_eq_some_iff.mp hb
  have hp := List.pairwise_iff_getElem.mp h
  rcases Nat.lt_trichotomy i j with hlt | rfl | hlt
  · have := hp i j (by simpa using hi) (by simpa using hj) hlt
    rw [List.getElem_map, List.getElem_map] at this
    exact absurd hk this
  · rfl
  · have := hp j i (by simpa using hj) (by simpa using hi) hlt
    rw [List.getElem_map, List.getElem_map] at this
    exact absurd hk.symm this

/-! ## Links -/

/-- The edge is one for the link. -/
def For (G : Moves) (l : Link) (e : Edge) : Prop :=
  (∃ a, G.node e.src = some a ∧ a.key = l.head.key) ∧ (∃ b, G.node e.dst = some b ∧ b.key = l.tail.key)

/-- What holds of the graph after the links have been put in. -/
structure Built (R : Moves) (ls : List Link) (G : Moves) : Prop where
  edge : ∀ e ∈ G.edges, ∃ l ∈ ls, For G l e ∧ e.weight = l.weight
  has : ∀ l ∈ ls, ∃ e ∈ G.edges, For G l e ∧ (e.weight = l.weight ∨ e.weight.eqb l.weight = true)
  ids : ∀ (i : Nat) (e : Edge), G.edges[i]? = some e → e.id = i
  distinct : Distinct G.nodes
  keep : ∀ i a, R.node i = some a → G.node i = some a
  root : G.queryRoot = R.queryRoot ∧ G.mutationRoot = R.mutationRoot ∧
    G.subscriptionRoot = R.subscriptionRoot
  from_ : ∀ a ∈ G.nodes, a ∈ R.nodes ∨ ∃ l ∈ ls, a = l.head ∨ a = l.tail

theorem link_keep (G : Moves) (l : Link) {i : Nat} {a : Node} (h : G.node i = some a) :
    (link G l).node i = some a := upsertNode_keep (upsertNode_keep h)

theorem link_ends (G : Moves) (l : Link) :
    (∃ a, (link G l).node (upsertNode G.nodes l.head).2 = some a ∧ a.key = l.head.key) ∧
    ∃ b, (link G l).node (upsertNode (upsertNode G.nodes l.head).1 l.tail).2 = some b ∧
      b.key = l.tail.key := by
  obtain ⟨a, ha, hk⟩ := upsertNode_key G.nodes l.head
  exact ⟨⟨a, upsertNode_keep ha, hk⟩, upsertNode_key _ l.tail⟩

theorem link_edges (G : Moves) (l : Link) : (link G l).edges =
    upsertEdge G.edges (upsertNode G.nodes l.head).2
      (upsertNode (upsertNode G.nodes l.head).1 l.tail).2 l.weight := rfl

theorem For.keep {G : Moves} {l l' : Link} {e : Edge} (h : For G l e) : For (link G l') l e := by
  obtain ⟨⟨a, ha, hk⟩, b, hb, hk'⟩ := h
  exact ⟨⟨a, link_keep G l' ha, hk⟩, b, link_keep G l' hb, hk'⟩

theorem Built.link {R : Moves} {ls : List Link} {G : Moves} (h : Built R ls G) (l : Link) :
    Built R (ls ++ [l]) (link G l) where
  edge := by
    intro e he
    rw [link_edges] at he
    unfold upsertEdge at he
    split at he
    · obtain ⟨l', h1, h2, h3⟩ := h.edge e he
      exact ⟨l', by simp [h1], h2.keep, h3⟩
    · rcases List.mem_append.mp he with he | he
      · obtain ⟨l', h1, h2, h3⟩ := h.edge e he
        exact ⟨l', by simp [h1], h2.keep, h3⟩
      · simp only [List.mem_singleton] at he
        subst he
        exact ⟨l, by simp, link_ends G l, rfl⟩
  has := by
    intro l' hl'
    have keep : ∀ e ∈ G.edges, e ∈ (Graph.link G l).edges := by
      intro e he
      rw [link_edges]
      unfold upsertEdge
      split
      · exact he
      · simp [he]
    rcases List.mem_append.mp hl' with hl' | hl'
    · obtain ⟨e, h1, h2, h3⟩ := h.has l' hl'
      exact ⟨e, keep e h1, h2.keep, h3⟩
    · simp only [List.mem_singleton] at hl'
      subst hl'
      rw [link_edges]
      unfold upsertEdge
      split
      next hany =>
        obtain ⟨e, he, hw⟩ := List.any_eq_true.mp hany
        simp only [Bool.and_eq_true, beq_iff_eq] at hw
        obtain ⟨⟨hs, hd⟩, hw⟩ := hw
        refine ⟨e, he, ?_, .inr hw⟩
        unfold For
        rw [hs, hd]
        exact link_ends G l'
      · exact ⟨_, List.mem_append.mpr (.inr (List.mem_singleton.mpr rfl)), link_ends G l', .inl rfl⟩
  ids := by
    intro i e he
    rw [link_edges] at he
    unfold upsertEdge at he
    split at he
    · exact h.ids i e he
    · by_cases hi : i < G.edges.length
      · rw [List.getElem?_append_left hi] at he; exact h.ids i e he
      · rw [List.getElem?_append_right (by omega)] at he
        have : i - G.edges.length = 0 := by
          apply Classical.byContradiction
          intro hne
          rw [List.getElem?_eq_none (by simp only [List.length_cons, List.length_nil]; omega)] at he
          simp at he
        rw [this] at he
        simp only [List.getElem?_cons_zero, Option.some.injEq] at he
        subst he
        change G.edges.length = i
        omega
  distinct := upsertNode_distinct (upsertNode_distinct h.distinct _) _
  keep := fun i a ha => link_keep G l (h.keep i a ha)
  root := h.root
  from_ := by
    intro a ha
    rcases upsertNode_mem a ha with ha | rfl
    · rcases upsertNode_mem a ha with ha | rfl
      · rcases h.from_ a ha with ha | ⟨l', h1, h2⟩
        · exact .inl ha
        · exact .inr ⟨l', by simp [h1], h2⟩
      · exact .inr ⟨l, by simp, .inl rfl⟩
    · exact .inr ⟨l, by simp, .inr rfl⟩

theorem built_foldl {R : Moves} : ∀ (ls : List Link) {done : List Link} {G : Moves}, Built R done G →
    Built R (done ++ ls) (ls.foldl link G)
  | [], done, G, h => by simpa using h
  | l :: ls, done, G, h => by
    have := built_foldl ls (h.link l)
    simpa [List.append_assoc] using this

theorem roots_distinct (S : Super) : Distinct (roots S).nodes := by
  have h0 : Distinct [] := List.nodup_nil
  have h1 : Distinct (upsertNode [] (.root .query S.queryType)).1 := upsertNode_distinct h0 _
  unfold roots
  cases S.mutationType with
  | none =>
    cases S.subscriptionType with
    | none => exact h1
    | some t => exact upsertNode_distinct h1 _
  | some m =>
    cases S.subscriptionType with
    | none => exact upsertNode_distinct h1 _
    | some t => exact upsertNode_distinct (upsertNode_distinct h1 _) _

theorem build_built {S : Super} {G : Moves} (h : build S = .ok G) :
    ∃ ls, links S = .ok ls ∧ Built (roots S) ls G := by
  unfold build at h
  split at h
  · split at h
    · simp at h
    next ls hls =>
      simp only [Except.ok.injEq] at h
      subst h
      refine ⟨ls, hls, ?_⟩
      have : Built (roots S) [] (roots S) := {
        edge := by intro e he; simp [roots] at he
        has := by intro l hl; simp at hl
        ids := by intro i e he; simp [roots] at he
        distinct := roots_distinct S
        keep := fun i a h => h
        root := ⟨rfl, rfl, rfl⟩
        from_ := fun a h => .inl h }
      simpa using built_foldl ls this
  · simp at h

end Verif.Graph
