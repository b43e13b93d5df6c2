import Verif.Graph.Faithful

/-!
# What the supergraph says is in the graph
-/

namespace Verif.Graph

theorem key_plain {n : Node} {t g : String} (h : n.key = .type t g none) : Plain t g n := by
  rcases n with ⟨_, m⟩ | ⟨m, g', i, _ | ⟨v⟩ | ⟨u⟩⟩ <;> simp_all [Node.key, Plain]

/-- A link that is put in gives an edge. -/
theorem built_moves {S : Super} {G : Moves} (h : build S = .ok G) :
    ∃ ls, links S = .ok ls ∧ ∀ l ∈ ls, ∃ e ∈ G.edges, ∃ a b, G.node e.src = some a ∧ G.node e.dst = some b ∧
      a.key = l.head.key ∧ b.key = l.tail.key ∧ (e.weight = l.weight ∨ e.weight.eqb l.weight = true) := by
  obtain ⟨ls, hls, hb⟩ := build_built h
  refine ⟨ls, hls, fun l hl => ?_⟩
  obtain ⟨e, he, ⟨⟨a, ha, hka⟩, b, hb', hkb⟩, hw⟩ := hb.has l hl
  exact ⟨e, he, a, b, ha, hb', hka, hkb, hw⟩

theorem links_has {S : Super} {ls : List Link} (h : links S = .ok ls) {name : String} {d : Def}
    (hd : (name, d) ∈ S.defs) {l : Link} (hl : l ∈ rootLinks S name d ∨
      (∃ g ∈ d.graphs, l ∈ typeLinks S name d g) ∨ l ∈ implLinks S name d ∨ l ∈ entityLinks S name d) :
    l ∈ ls := by
  unfold links at h
  split at h
  · simp at h
  · simp only [Except.ok.injEq] at h
    subst h
    simp only [List.mem_append, List.mem_flatMap]
    rcases hl with hl | hl | hl | hl
    · exact .inl (.inl (.inl (.inl ⟨_, hd, hl⟩)))
    · exact .inl (.inl (.inl (.inr ⟨_, hd, hl⟩)))
    · exact .inl (.inl (.inr ⟨_, hd, hl⟩))
    · exact .inl (.inr ⟨_, hd, hl⟩)

theorem field_weight {w : Weight} {m : FieldMove} (h : w = .field m ∨ w.eqb (.field m) = true) :
    ∃ m', w = .field m' ∧ m'.name = m.name ∧ m'.move = m.move ∧
      (m'.requires.isSome = m.requires.isSome) := by
  rcases h with rfl | h
  · exact ⟨m, rfl, rfl, rfl, rfl⟩
  · cases w <;> simp only [Weight.eqb, Bool.false_eq_true] at h
    next m' =>
      simp only [FieldMove.eqb, Bool.and_eq_true, beq_iff_eq, decide_eq_true_eq] at h
      refine ⟨m', rfl, h.1.1.1.1.1.1.1, ?_, ?_⟩
      · cases hm : m'.move; cases hm' : m.move
        have h1 := h.1.2; have h2 := h.2
        rw [hm, hm'] at h1 h2
        simp only at h1 h2
        rw [h1, h2]
      · have := h.1.1.2
        cases hr : m'.requires <;> cases hr' : m.requires <;> simp_all [reqEq]

theorem build_entity {S : Super} {G : Moves} (h : build S = .ok G) {type g1 g2 key : String} {items : List Sel}
    (hin : InGraph S type g1) (hS : Proper S) (hk : KeyOf S type g2 key items) :
    G.moves (Plain type g1) (Plain type g2) (fun w => ∃ r i, w = .entity key r i) := by
  obtain ⟨d, hd, j1, hj1, hg1⟩ := hin
  obtain ⟨d', hd', j2, hj2, hg2, hr, hkey⟩ := hk
  obtain rfl := hS.def_eq hd hd'
  obtain ⟨ls, hls, hall⟩ := built_moves h
  have n1 : S.name j1.graph = g1 := by simp [Super.name, hg1]
  have n2 : S.name j2.graph = g2 := by simp [Super.name, hg2]
  have hw : ∀ {w : Weight} {r : Req} {i : Bool}, (w = .entity key r i ∨ w.eqb (.entity key r i) = true) →
      ∃ r i, w = .entity key r i := by
    intro w r i hw
    rcases hw with rfl | hw
    · exact ⟨_, _, rfl⟩
    · cases w <;> simp only [Weight.eqb, Bool.false_eq_true] at hw
      next k' r' i' => rw [eq_of_beq hw]; exact ⟨_, _, rfl⟩
  by_cases hne : j1.graph = j2.graph
  · have hl : (⟨.type type (S.name j2.graph) j2.interfaceObject none,
        .type type (S.name j2.graph) j2.interfaceObject none,
        .entity key ⟨type, items⟩ (decide (d.kind = .interface))⟩ : Link) ∈ entityLinks S type d := by
      unfold entityLinks
      refine List.mem_flatMap.mpr ⟨j2, hj2, List.mem_append.mpr (.inl (List.mem_flatMap.mpr ⟨j2, hj2, ?_⟩))⟩
      simp [keyLinks, hr, hkey]
    obtain ⟨e, he, a, b, ha, hb, hka, hkb, hwe⟩ := hall _ (links_has hls hd (.inr (.inr (.inr hl))))
    refine ⟨e, he, a, b, ha, hb, ?_, ?_, hw hwe⟩
    · rw [← n1, hne]; exact key_plain hka
    · rw [← n2]; exact key_plain hkb
  · have hl : (⟨.type type (S.name j1.graph) j1.interfaceObject none,
        .type type (S.name j2.graph) j2.interfaceObject none,
        .entity key ⟨type, items⟩ (decide (d.kind = .interface))⟩ : Link) ∈ entityLinks S type d := by
      unfold entityLinks
      refine List.mem_flatMap.mpr ⟨j1, hj1, List.mem_append.mpr (.inl (List.mem_flatMap.mpr ⟨j2, hj2, ?_⟩))⟩
      simp [keyLinks, hr, hkey, hne]
    obtain ⟨e, he, a, b, ha, hb, hka, hkb, hwe⟩ := hall _ (links_has hls hd (.inr (.inr (.inr hl))))
    refine ⟨e, he, a, b, ha, hb, ?_, ?_, hw hwe⟩
    · rw [← n1]; exact key_plain hka
    · rw [← n2]; exact key_plain hkb

theorem build_abstract {S : Super} (hS : Proper S) {G : Moves} (h : build S = .ok G) {type iface id g : String}
    {d : Def} (hd : (type, d) ∈ S.defs) (ho : d.kind = .object) (hi : (id, iface) ∈ d.implements)
    (hg : S.graphName id = some g) :
    G.moves (Plain iface g) (Plain type g) (fun w => w = .abstract type) := by
  obtain ⟨ls, hls, hall⟩ := built_moves h
  have hl : (⟨.type iface (S.name id) false none, .type type (S.name id) false none, .abstract d.name⟩ : Link) ∈
      implLinks S type d := by
    rw [implLinks, if_pos ho]
    exact List.mem_map.mpr ⟨_, hi, rfl⟩
  have n1 : S.name id = g := by simp [Super.name, hg]
  obtain ⟨e, he, a, b, ha, hb, hka, hkb, hwe⟩ := hall _ (links_has hls hd (.inr (.inr (.inl hl))))
  rw [n1] at hka hkb
  refine ⟨e, he, a, b, ha, hb, key_plain hka, key_plain hkb, ?_⟩
  have hn : d.name = type := hS.names _ hd
  rw [hn] at hwe
  rcases hwe with hwe | hwe
  · exact hwe
  · generalize e.weight = w at hwe
    cases w <;> simp only [Weight.eqb, Bool.false_eq_true] at hwe
    rw [eq_of_beq hwe]

theorem build_entry {S : Super} (hS : Proper S) {G : Moves} (h : build S = .ok G)
    {type field g : String} {needs : Option (List Sel)} {kind : OpKind} {d : Def} (hd : (type, d) ∈ S.defs) (ho : d.kind = .object)
    (hr : S.rootKind type = some kind) (hres : Resolves S type field g needs) :
    G.moves (fun n => n.key = .root type) (Plain type g) (fun w => ∃ k, w = .entry g k) := by
  obtain ⟨d', fd, id, hd', hf, hg, ⟨j, hj1, rfl⟩, hjoin⟩ := hres
  obtain rfl := hS.def_eq hd hd'
  obtain ⟨ls, hls, hall⟩ := built_moves h
  have n1 : S.name j.graph = g := by simp [Super.name, hg]
  have hav : (available fd j.graph d).isSome = true := by
    unfold available
    rcases hjoin with ⟨hjoin, _⟩ | ⟨j', hj', hjg, _⟩
    · rw [hjoin]
      simp only [List.isEmpty_nil, if_true]
      rw [if_pos (by simpa [Def.graphs] using ⟨j, hj1, rfl⟩)]; rfl
    · rw [if_neg (by simpa using List.ne_nil_of_mem hj')]
      cases hfi : fd.joins.find? fun x => x.graph == some j.graph with
      | none =>
        have := List.find?_eq_none.mp hfi j' hj'
        simp [hjg] at this
      | some _ => rfl
  have hl : (⟨.root kind type, .type type (S.name j.graph) false none, .entry (S.name j.graph) kind⟩ : Link) ∈
      rootLinks S type d := by
    have : S.rootOf d = some kind := by
      rw [Super.rootOf, if_pos ho]
      have hn : d.name = type := hS.names _ hd
      rw [hn]; exact hr
    rw [rootLinks, this]
    refine List.mem_map.mpr ⟨j.graph, List.mem_filter.mpr ⟨List.mem_map.mpr ⟨j, hj1, rfl⟩, ?_⟩, rfl⟩
    exact List.any_eq_true.mpr ⟨_, hf, hav⟩
  obtain ⟨e, he, a, b, ha, hb, hka, hkb, hwe⟩ := hall _ (links_has hls hd (.inl hl))
  rw [n1] at hkb hwe
  refine ⟨e, he, a, b, ha, hb, hka, key_plain hkb, ?_⟩
  rcases hwe with hwe | hwe
  · exact ⟨_, hwe⟩
  · generalize e.weight = w at hwe
    cases w <;> simp only [Weight.eqb, Bool.false_eq_true] at hwe
    rw [eq_of_beq hwe]; exact ⟨_, rfl⟩

theorem build_field {S : Super} (hS : Proper S) (hj : JoinsOnce S) (hgn : GraphNames S) {G : Moves}
    (h : build S = .ok G) {type field result g : String} {needs : Option (List Sel)} (hres : Resolves S type field g needs)
    (hty : HasField S type field result) (hu : ¬ EmptyUnion S result g) :
    G.moves (Plain type g) (fun b => b.name = result ∧ b.graph = some g)
      (fun w => ∃ m, w = .field m ∧ m.name = field) := by
  obtain ⟨d, fd, id, hd, hf, hg, ⟨j, hj1, rfl⟩, hjoin⟩ := hres
  obtain ⟨d', fd', hd', hf', rfl⟩ := hty
  obtain rfl := hS.def_eq hd hd'
  obtain rfl := nodup_keys (hS.fields _ hd) hf hf'
  obtain ⟨ls, hls, hall⟩ := built_moves h
  have n1 : S.name j.graph = g := by simp [Super.name, hg]
  have hgs : j.graph ∈ d.graphs := List.mem_map.mpr ⟨j, hj1, rfl⟩
  have hav : ∃ mj, available fd j.graph d = some mj ∧
      (mj.any fun j => j.external && j.requires.isNone) = false := by
    unfold available
    rcases hjoin with ⟨hjoin, _⟩ | ⟨j', hj', hjg, hok, _⟩
    · rw [hjoin]
      simp only [List.isEmpty_nil, if_true]
      rw [if_pos (by simpa using hgs)]
      exact ⟨none, rfl, rfl⟩
    · rw [if_neg (by simpa using List.ne_nil_of_mem hj')]
      cases hfi : fd.joins.find? fun x => x.graph == some j.graph with
      | none =>
        have := List.find?_eq_none.mp hfi j' hj'
        simp [hjg] at this
      | some j'' =>
        have h1 := List.mem_of_find?_eq_some hfi
        have h2 : j''.graph = some j.graph := by simpa using List.find?_some hfi
        obtain rfl := hj _ hd _ hf j'' h1 j' hj' (h2.trans hjg.symm) (by rw [h2]; rfl)
        refine ⟨some j'', rfl, ?_⟩
        rcases hok with hok | hok
        · simp [hok]
        · rw [Option.isSome_iff_exists] at hok
          obtain ⟨r, hr⟩ := hok
          simp [hr]
  obtain ⟨mj, hmj, hex⟩ := hav
  have key : ∃ l ∈ fieldLinks S type d j.graph field fd, l.head = S.at type j.graph ∧
      l.tail.name = fd.typeName ∧ l.tail.graph = some (S.name j.graph) ∧
      ∃ m, l.weight = .field m ∧ m.name = field := by
    simp only [fieldLinks, hmj, hex, Bool.false_eq_true, if_false]
    by_cases hun : S.isUnion fd.typeName = true
    · rw [if_pos hun]
      have : ∃ m, m ∈ unionMembers S fd j.graph := by
        apply Classical.byContradiction
        intro hno
        refine hu ?_
        unfold Super.isUnion at hun
        split at hun
        next u hu' =>
          refine ⟨u, def?_mem hu', by simpa using hun, ?_⟩
          intro m hm hmg
          have := hgn _ _ _ hmg hg
          simp only [unionMembers, hu'] at hno
          have hall' : m.2 ∈ ((u.members.filter (·.1 == j.graph)).map (·.2)).eraseDups := by
            rw [List.mem_eraseDups]
            exact List.mem_map.mpr ⟨m, List.mem_filter.mpr ⟨hm, by simp [this]⟩, rfl⟩
          cases hfi : fd.joins.find? fun x => x.graph == some j.graph with
          | none => rw [hfi] at hno; exact hno ⟨_, hall'⟩
          | some j0 =>
            rw [hfi] at hno
            simp only at hno
            cases ht : j0.typeInGraph with
            | none => rw [ht] at hno; exact hno ⟨_, hall'⟩
            | some t =>
              rw [ht] at hno
              simp only at hno
              split at hno
              · exact hno ⟨t, by simp⟩
              · exact hno ⟨_, hall'⟩
        · simp at hun
      obtain ⟨m, hm⟩ := this
      refine ⟨⟨S.at type j.graph, .type fd.typeName (S.name j.graph) (S.isIo fd.typeName j.graph)
          (some (.union ⟨type, field, m, unionMembers S fd j.graph⟩)), .field {
            name := field, typeName := type, isLeaf := S.isScalar fd.typeName, isList := fd.isList,
            requires := (mj.bind (·.requires)).map fun r => (⟨type, r.2⟩ : Req),
            move := ⟨none, overriddenBy S fd (S.name j.graph)⟩ }⟩,
        List.mem_flatMap.mpr ⟨m, hm, by simp [unionLinks]⟩, rfl, rfl, rfl, _, rfl, rfl⟩
    · rw [if_neg hun]
      exact ⟨_, List.mem_cons_self .., rfl, rfl, rfl, _, rfl, rfl⟩
  obtain ⟨l, hl, hh, htn, htg, m, hm, hmn⟩ := key
  have hl' : l ∈ typeLinks S type d j.graph := by
    simp only [typeLinks]
    exact List.mem_append.mpr (.inr (List.mem_cons_of_mem _ (List.mem_flatMap.mpr ⟨_, hf, hl⟩)))
  obtain ⟨e, he, a, b, ha, hb, hka, hkb, hwe⟩ := hall _ (links_has hls hd (.inr (.inl ⟨_, hgs, hl'⟩)))
  refine ⟨e, he, a, b, ha, hb, ?_, ⟨?_, ?_⟩, ?_⟩
  · rw [hh] at hka
    rw [← n1]; exact key_plain hka
  · rw [key_name hkb]; exact htn
  · rw [key_graph hkb, htg, n1]
  · rw [hm] at hwe
    obtain ⟨m', h1, h2, _⟩ := field_weight hwe
    exact ⟨m', h1, h2.trans hmn⟩

end Verif.Graph
