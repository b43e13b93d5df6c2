import Verif.Graph.Typed

/-!
# Moves say what the supergraph says
-/

namespace Verif.Graph

theorem key_graph {a b : Node} (h : a.key = b.key) : a.graph = b.graph := by
  rcases a with ⟨_, n⟩ | ⟨n, g, i, _ | ⟨v⟩ | ⟨u⟩⟩ <;> rcases b with ⟨_, m⟩ | ⟨m, g', i', _ | ⟨v'⟩ | ⟨u'⟩⟩ <;>
    simp_all [Node.key, Node.graph]

theorem key_isView {a b : Node} (h : a.key = b.key) : a.isView = b.isView := by
  rcases a with ⟨_, n⟩ | ⟨n, g, i, _ | ⟨v⟩ | ⟨u⟩⟩ <;> rcases b with ⟨_, m⟩ | ⟨m, g', i', _ | ⟨v'⟩ | ⟨u'⟩⟩ <;>
    simp_all [Node.key, Node.isView]

theorem key_union {a b : Node} (h : a.key = b.key) : a.union = none ↔ b.union = none := by
  rcases a with ⟨_, n⟩ | ⟨n, g, i, _ | ⟨v⟩ | ⟨u⟩⟩ <;> rcases b with ⟨_, m⟩ | ⟨m, g', i', _ | ⟨v'⟩ | ⟨u'⟩⟩ <;>
    simp_all [Node.key, Node.union]

theorem Says.congr {S : Super} {a a' b b' : Node} {w : Weight} (ha : a.key = a'.key) (hb : b.key = b'.key)
    (h : Says S a b w) : Says S a' b' w := by
  cases w <;> simp only [Says, key_name ha, key_name hb, key_graph ha, key_graph hb, key_isView ha,
    key_isView hb, key_union hb] at h ⊢ <;>
    exact h

/-- Ids of subgraphs that are used are known. -/
def Known (S : Super) : Prop := ∀ x ∈ S.defs, ∀ g ∈ x.2.graphs, S.graphName g = some (S.name g)

theorem known_of {S : Super} (h : idsKnown S = true) : Known S := by
  intro x hx g hg
  unfold idsKnown at h
  have := List.all_eq_true.mp h x hx
  simp only [Bool.and_eq_true, List.all_eq_true] at this
  obtain ⟨j, hj, rfl⟩ := List.mem_map.mp hg
  have := this.1.1 j hj
  unfold Super.name
  cases hn : S.graphName j.graph with
  | none => rw [hn] at this; simp at this
  | some n => rfl

theorem Known.join {S : Super} (h : Known S) {name : String} {d : Def} (hd : (name, d) ∈ S.defs)
    {j : JoinType} (hj : j ∈ d.joinTypes) : S.graphName j.graph = some (S.name j.graph) :=
  h _ hd _ (List.mem_map.mpr ⟨j, hj, rfl⟩)

theorem available_spec {fd : FieldDef} {g : String} {d : Def} {mj : Option JoinField}
    (h : available fd g d = some mj) :
    (fd.joins = [] ∧ mj = none ∧ g ∈ d.graphs) ∨
      ∃ j ∈ fd.joins, j.graph = some g ∧ mj = some j := by
  unfold available at h
  split at h
  next he =>
    split at h
    next hg =>
      simp only [Option.some.injEq] at h
      exact .inl ⟨by simpa using he, h.symm, by simpa using hg⟩
    · simp at h
  · split at h
    next j hj =>
      simp only [Option.some.injEq] at h
      exact .inr ⟨j, List.mem_of_find?_eq_some hj, by simpa using List.find?_some hj, h.symm⟩
    · simp at h

theorem fieldLinks_says {S : Super} (hS : Proper S) (hk : Known S) {name g f : String} {d : Def} {fd : FieldDef}
    (hd : (name, d) ∈ S.defs) (hg : g ∈ d.graphs) (hf : (f, fd) ∈ d.fields) {l : Link}
    (h : l ∈ fieldLinks S name d g f fd) : Says S l.head l.tail l.weight := by
  simp only [fieldLinks] at h
  split at h
  · simp at h
  next mj hmj =>
    split at h
    · simp at h
    next hex =>
      have hres : Resolves S name f (S.name g) (mj.bind (·.requires) |>.map (·.2)) := by
        refine ⟨d, fd, g, hd, hf, hk _ hd g hg, ?_, ?_⟩
        · obtain ⟨j, hj, rfl⟩ := List.mem_map.mp hg; exact ⟨j, hj, rfl⟩
        · rcases available_spec hmj with ⟨h1, rfl, _⟩ | ⟨j, hj, hjg, rfl⟩
          · exact .inl ⟨h1, rfl⟩
          · refine .inr ⟨j, hj, hjg, ?_, rfl⟩
            simp only [Option.any_some, Bool.and_eq_true, Option.isNone_iff_eq_none, not_and] at hex
            cases hx : j.external with
            | false => exact .inl rfl
            | true => right; cases hr : j.requires with
              | none => exact absurd hr (hex hx)
              | some _ => rfl
      have hreq : ((mj.bind (·.requires)).map fun r => (⟨name, r.2⟩ : Req)) =
          ((mj.bind (·.requires)).map (·.2)).map (⟨name, ·⟩) := by
        rw [Option.map_map]; rfl
      have hmov : Moved S name f (S.name g) ⟨mj.bind (·.label), overriddenBy S fd (S.name g)⟩ := by
        refine ⟨d, fd, g, hd, hf, hk _ hd g hg, ?_, ?_, ?_⟩
        · intro hno j hj hj'
          simp only [overriddenBy, Option.map_eq_none_iff, List.find?_eq_none] at hno
          have := hno j hj
          simp [hj'] at this
        · intro o l hol
          simp only [overriddenBy, Option.map_eq_some_iff] at hol
          obtain ⟨j, hj, hol⟩ := hol
          exact ⟨j, List.mem_of_find?_eq_some hj, by simpa using List.find?_some hj, (Prod.mk.inj hol).2⟩
        · rcases available_spec hmj with ⟨h1, rfl, _⟩ | ⟨j, hj, hjg, rfl⟩
          · exact .inl ⟨h1, rfl⟩
          · exact .inr ⟨j, hj, hjg, rfl⟩
      split at h
      · rw [List.mem_flatMap] at h
        obtain ⟨m, _, h⟩ := h
        simp only [unionLinks, List.mem_cons, List.not_mem_nil, or_false] at h
        rcases h with rfl | rfl | rfl
        · exact ⟨_, rfl, rfl, .inl ⟨rfl, rfl, rfl⟩⟩
        · exact ⟨_, rfl, rfl, .inr ⟨hasField hd hf, .inl ⟨_, hres, hreq, fun _ hu => by simp [Node.union] at hu⟩⟩⟩
        · exact ⟨rfl, rfl⟩
      · rcases List.mem_cons.mp h with rfl | h
        · exact ⟨_, rfl, rfl, .inr ⟨hasField hd hf, .inl ⟨_, hres, hreq, fun _ _ => hmov⟩⟩⟩
        · unfold reentryLinks at h
          split at h
          · simp at h
          next k hrk =>
            obtain ⟨n, hn, rfl⟩ := List.mem_map.mp h
            obtain ⟨h1, h2⟩ := entries_spec hS (List.mem_filter.mp hn).1
            refine ⟨_, _, rfl, ?_, hres⟩
            change HasField S name f n.name
            rw [rootKind_name h2 hrk]
            exact hasField hd hf

theorem typeLinks_says {S : Super} (hS : Proper S) (hk : Known S) {name g : String} {d : Def}
    (hd : (name, d) ∈ S.defs) (hg : g ∈ d.graphs) {l : Link} (h : l ∈ typeLinks S name d g) :
    Says S l.head l.tail l.weight := by
  simp only [typeLinks] at h
  rcases List.mem_append.mp h with h | h
  · split at h
    · simp only [List.mem_cons, List.not_mem_nil, or_false] at h
      subst h
      exact ⟨_, rfl, rfl, .inl ⟨rfl, rfl, rfl⟩⟩
    · simp at h
  · rcases List.mem_cons.mp h with rfl | h
    · exact ⟨rfl, rfl, rfl⟩
    · rw [List.mem_flatMap] at h
      obtain ⟨f, hf, h⟩ := h
      exact fieldLinks_says hS hk hd hg hf h

theorem entityLinks_says {S : Super} (hk : Known S) (hio : NoInterfaceObjects S) {name : String} {d : Def}
    (hd : (name, d) ∈ S.defs) {l : Link} (h : l ∈ entityLinks S name d) :
    Says S l.head l.tail l.weight := by
  unfold entityLinks at h
  rw [List.mem_flatMap] at h
  obtain ⟨j1, hj1, h⟩ := h
  rcases List.mem_append.mp h with h | h
  · rw [List.mem_flatMap] at h
    obtain ⟨j2, hj2, h⟩ := h
    simp only [keyLinks] at h
    split at h <;> split at h
    next hr hkey =>
      simp only [List.mem_cons, List.not_mem_nil, or_false] at h
      subst h
      exact ⟨_, rfl, rfl, rfl, d, hd, j2, hj2, hk.join hd hj2, hr, hkey⟩
    · simp at h
    next hr hkey =>
      simp only [List.mem_cons, List.not_mem_nil, or_false] at h
      subst h
      exact ⟨_, rfl, rfl, rfl, d, hd, j1, hj1, hk.join hd hj1, hr, hkey⟩
    · simp at h
  · unfold ioLinks at h
    split at h
    next hi _ _ => rw [hio _ hd _ hj1] at hi; simp at hi
    · simp at h

theorem viewKeyLinks_says {S : Super} (hk : Known S) {name : String} {d : Def} {g : String} {head : Node}
    (hd : ∃ d', (name, d') ∈ S.defs ∧ d'.joinTypes = d.joinTypes) (hdn : d.name = name)
    (hn : head.name = name) {l : Link} (h : l ∈ viewKeyLinks S d g head) :
    Says S l.head l.tail l.weight := by
  obtain ⟨d', hd, hjs⟩ := hd
  unfold viewKeyLinks at h
  rw [List.mem_flatMap] at h
  obtain ⟨j, hj, h⟩ := h
  split at h
  next hr hkey =>
    split at h
    · simp only [List.mem_cons, List.not_mem_nil, or_false] at h
      subst h
      refine ⟨_, rfl, ?_, rfl, ?_⟩
      · change d.name = head.name; rw [hdn, hn]
      · change KeyOf S d.name _ _ _
        rw [hdn]
        exact ⟨d', hd, j, hjs ▸ hj, hk.join hd (hjs ▸ hj), hr, hkey⟩
    · simp at h
  · simp at h

mutual
theorem viewSel_says {S : Super} (hS : Proper S) (hk : Known S) {g : String} {v : Nat} : ∀ (x : Sel) {d : Def}
    {head : Node}, (head.name, d) ∈ S.defs → head.isView = true → head.graph = some (S.name g) →
    (∀ t f, Shows S head.name [x] t f → Provided S t f (S.name g)) →
    ∀ {ls}, viewSel S g v d head x = .ok ls → ∀ l ∈ ls, Says S l.head l.tail l.weight
  | .field f ss, d, head, hd, hv, hg, hp, ls, h => by
    simp only [viewSel] at h
    split at h
    · simp at h
    next fd hfd =>
      have hf := lookup_mem hfd
      have here : ∀ l ∈ ([⟨S.view fd.typeName g v, S.view fd.typeName g v, .selfie fd.typeName⟩,
          ⟨head, S.view fd.typeName g v, .field {
            name := f.name, typeName := d.name, isLeaf := S.isScalar d.name, isList := fd.isList }⟩] :
          List Link), Says S l.head l.tail l.weight := by
        intro l hl
        simp only [List.mem_cons, List.not_mem_nil, or_false] at hl
        rcases hl with rfl | rfl
        · exact ⟨rfl, rfl, rfl⟩
        · exact ⟨_, hg, rfl, .inr ⟨hasField hd hf, .inr ⟨hv, rfl, hp _ _ (.here _ f ss _ (by simp))⟩⟩⟩
      split at h
      · simp only [Except.ok.injEq] at h; subst h; exact here
      · split at h
        · simp at h
        next d' hd' =>
          split at h
          · simp at h
          next r hr =>
            simp only [Except.ok.injEq] at h
            subst h
            intro l hl
            rcases List.mem_append.mp hl with hl | hl
            · rcases List.mem_append.mp hl with hl | hl
              · exact here l hl
              · exact viewKeyLinks_says hk (head := S.view fd.typeName g v) ⟨d', def?_mem hd', rfl⟩
                  (hS.names _ (def?_mem hd')) rfl hl
            · exact viewSels_says hS hk ss (head := S.view fd.typeName g v) (def?_mem hd') rfl rfl
                (fun t f' h' => hp t f' (.deeper _ f ss _ _ _ _ (by simp) (hasField hd hf) h')) hr l hl
  | .frag c ss, d, head, hd, hv, hg, hp, ls, h => by
    simp only [viewSel] at h
    split at h
    · simp at h
    next d' hd' =>
      have hm := def?_mem hd'
      split at h
      · simp at h
      next r hr =>
        simp only [Except.ok.injEq] at h
        subst h
        intro l hl
        rcases List.mem_append.mp hl with hl | hl
        · rcases List.mem_append.mp hl with hl | hl
          · simp only [List.mem_cons, List.not_mem_nil, or_false] at hl
            rcases hl with rfl | rfl
            · exact ⟨rfl, rfl, rfl⟩
            · exact ⟨hg.symm, rfl⟩
          · exact viewKeyLinks_says hk (head := S.view c.cond g v) ⟨d', hm, rfl⟩ (hS.names _ hm) rfl hl
        · exact viewSels_says hS hk ss (head := S.view c.cond g v) hm rfl rfl
            (fun t f' h' => hp t f' (.on _ c ss _ _ _ (by simp) h')) hr l hl
  | .spread _, d, head, _, _, _, _, ls, h => by simp [viewSel] at h
theorem viewSels_says {S : Super} (hS : Proper S) (hk : Known S) {g : String} {v : Nat} :
    ∀ (xs : List Sel) {d : Def} {head : Node}, (head.name, d) ∈ S.defs → head.isView = true →
    head.graph = some (S.name g) → (∀ t f, Shows S head.name xs t f → Provided S t f (S.name g)) →
    ∀ {ls}, viewSels S g v d head xs = .ok ls → ∀ l ∈ ls, Says S l.head l.tail l.weight
  | [], d, head, _, _, _, _, ls, h => by
    simp only [viewSels, Except.ok.injEq] at h; subst h; simp
  | x :: r, d, head, hd, hv, hg, hp, ls, h => by
    simp only [viewSels] at h
    split at h
    · simp at h
    next a ha =>
      split at h
      · simp at h
      next b hb =>
        simp only [Except.ok.injEq] at h
        subst h
        intro l hl
        have sub : ∀ ys, (∀ y ∈ ys, y ∈ x :: r) → ∀ t f, Shows S head.name ys t f →
            Shows S head.name (x :: r) t f := by
          intro ys hy t f hs
          match hs with
          | .here _ f' ss _ h1 => exact .here _ f' ss _ (hy _ h1)
          | .deeper _ f' ss _ r' _ _ h1 h2 h3 => exact .deeper _ f' ss _ r' _ _ (hy _ h1) h2 h3
          | .on _ c ss _ _ _ h1 h2 => exact .on _ c ss _ _ _ (hy _ h1) h2
        rcases List.mem_append.mp hl with hl | hl
        · exact viewSel_says hS hk x hd hv hg
            (fun t f hs => hp t f (sub [x] (by simp) t f hs)) ha l hl
        · exact viewSels_says hS hk r hd hv hg
            (fun t f hs => hp t f (sub r (fun y hy => List.mem_cons_of_mem _ hy) t f hs)) hb l hl
end

theorem viewsFrom_says {S : Super} (hS : Proper S) (hk : Known S) (ho : ProvidesOwn S) {name : String}
    {d : Def} {g : String} (hd : (name, d) ∈ S.defs) (hg : g ∈ d.graphs) :
    ∀ (ps : List (String × FieldDef × JoinField × List Sel)) {v : Nat},
    (∀ x ∈ ps, x ∈ provisions d g) →
    ∀ {ls}, viewsFrom S name d g v ps = .ok ls → ∀ l ∈ ls, Says S l.head l.tail l.weight
  | [], v, _, ls, h => by simp only [viewsFrom, Except.ok.injEq] at h; subst h; simp
  | (fname, fd, j, items) :: r, v, hp, ls, h => by
    obtain ⟨h1, h2, h3, s, h4⟩ := provisions_mem (hp _ (List.mem_cons_self ..))
    simp only at h1 h2 h3 h4
    simp only [viewsFrom] at h
    split at h
    · simp at h
    next a ha =>
      split at h
      · simp at h
      next b hb =>
        simp only [Except.ok.injEq] at h
        subst h
        intro l hl
        rcases List.mem_append.mp hl with hl | hl
        · simp only [providesLinks] at ha
          split at ha
          · simp at ha
          next d' hd' =>
            split at ha
            · simp at ha
            next r' hr' =>
              simp only [Except.ok.injEq] at ha
              subst ha
              have hm := def?_mem hd'
              have hgn := hk _ hd g hg
              rcases List.mem_append.mp hl with hl | hl
              · rcases List.mem_append.mp hl with hl | hl
                · simp only [List.mem_cons, List.not_mem_nil, or_false] at hl
                  rcases hl with rfl | rfl
                  · exact ⟨rfl, rfl, rfl⟩
                  · refine ⟨_, rfl, rfl, .inr ?_⟩
                    change HasField S d.name fname fd.typeName ∧
                      ((∃ needs, Resolves S d.name fname (S.name g) needs ∧
                        (j.requires.map fun r => (⟨name, r.2⟩ : Req)) = needs.map (⟨d.name, ·⟩) ∧ _) ∨ _)
                    have hn : d.name = name := hS.names _ hd
                    rw [hn]
                    refine ⟨hasField hd h1, .inl ⟨j.requires.map (·.2),
                      ⟨d, fd, g, hd, h1, hgn, ?_, .inr ⟨j, h2, h3, ?_, rfl⟩⟩, ?_,
                      fun hv => by simp [Node.isView, Super.view] at hv⟩⟩
                    · obtain ⟨j', hj', rfl⟩ := List.mem_map.mp hg; exact ⟨j', hj', rfl⟩
                    · exact ho _ hd _ h1 j h2 (by rw [h4]; rfl)
                    · rw [Option.map_map]; rfl
                · exact viewKeyLinks_says hk (head := S.view fd.typeName g v) ⟨d', hm, rfl⟩
                    (hS.names _ hm) rfl hl
              · exact viewSels_says hS hk items (head := S.view fd.typeName g v) hm rfl rfl
                  (fun t f hs => ⟨_, hd, _, h1, j, h2, g, _, h3, hgn, h4, hs⟩) hr' l hl
        · exact viewsFrom_says hS hk ho hd hg r (fun x hx => hp x (List.mem_cons_of_mem _ hx)) hb l hl

theorem links_says {S : Super} (hS : Proper S) (hk : Known S) (hio : NoInterfaceObjects S)
    (ho : ProvidesOwn S) {ls : List Link} (h : links S = .ok ls) : ∀ l ∈ ls, Says S l.head l.tail l.weight := by
  intro l hl
  obtain ⟨name, d, hd, hl | ⟨g, hg, hl⟩ | hl | hl | ⟨g, hg, vs, hvs, hl⟩⟩ := links_cases h l hl
  · unfold rootLinks at hl
    split at hl
    · simp at hl
    · obtain ⟨g, _, rfl⟩ := List.mem_map.mp hl
      exact ⟨rfl, rfl⟩
  · exact typeLinks_says hS hk hd hg hl
  · unfold implLinks at hl
    split at hl
    · obtain ⟨x, _, rfl⟩ := List.mem_map.mp hl
      exact ⟨rfl, (hS.names _ hd).symm⟩
    · simp at hl
  · exact entityLinks_says hk hio hd hl
  · unfold viewLinks at hvs
    split at hvs
    · simp only [Except.ok.injEq] at hvs; subst hvs; simp at hl
    next p ps hps =>
      split at hvs
      · simp at hvs
      next a ha =>
        simp only [Except.ok.injEq] at hvs
        subst hvs
        rcases List.mem_append.mp hl with hl | hl
        · exact viewsFrom_says hS hk ho hd hg _ (fun x hx => by rw [hps]; exact hx) ha l hl
        · exact viewKeyLinks_says hk (d := { d with name := name }) (head := S.at d.name g)
            ⟨d, hd, rfl⟩ rfl (hS.names _ hd) hl

theorem build_known {S : Super} {G : Moves} (h : build S = .ok G) : Known S := by
  unfold build at h
  split at h
  next hi => exact known_of hi
  · simp at h

/-- Every edge of the graph says what the supergraph says. -/
theorem build_says {S : Super} (hS : Proper S) (hio : NoInterfaceObjects S) (ho : ProvidesOwn S) {G : Moves}
    (h : build S = .ok G) : ∀ e ∈ G.edges, ∃ a b, G.node e.src = some a ∧ G.node e.dst = some b ∧
      Says S a b e.weight := by
  obtain ⟨ls, hls, hb⟩ := build_built h
  intro e he
  obtain ⟨l, hl, ⟨⟨a, ha, hka⟩, b, hb', hkb⟩, hw⟩ := hb.edge e he
  refine ⟨a, b, ha, hb', ?_⟩
  rw [hw]
  exact (links_says hS (build_known h) hio ho hls l hl).congr hka.symm hkb.symm

end Verif.Graph
