import Verif.Walker.Served
import Verif.Walker.Ends
import Verif.Graph.Typed

/-!
# Ways in a graph that was built from a supergraph
-/

namespace Verif.Walker

open Verif.Graph

/-! ## Every edge leads to a type -/

theorem fieldLinks_tail {S : Super} {name g f : String} {d : Def} {fd : FieldDef} {l : Link}
    (h : l ∈ fieldLinks S name d g f fd) : l.tail.isType = true := by
  simp only [fieldLinks] at h
  split at h
  · simp at h
  · split at h
    · simp at h
    · split at h
      · rw [List.mem_flatMap] at h
        obtain ⟨m, _, h⟩ := h
        simp only [unionLinks, List.mem_cons, List.not_mem_nil, or_false] at h
        rcases h with rfl | rfl | rfl <;> rfl
      · rcases List.mem_cons.mp h with rfl | h
        · rfl
        · unfold reentryLinks at h
          split at h
          · simp at h
          · obtain ⟨n, hn, rfl⟩ := List.mem_map.mp h
            have hn := (List.mem_filter.mp hn).1
            unfold entries at hn
            rw [List.mem_eraseDups, List.mem_filterMap] at hn
            obtain ⟨l, hl, hw⟩ := hn
            rw [List.mem_flatMap] at hl
            obtain ⟨x, _, hl⟩ := hl
            have ht := (rootLinks_good hl).tail
            split at hw
            · split at hw
              · simp only [Option.some.injEq] at hw; subst hw; exact ht
              · simp at hw
            · simp at hw

theorem typeLinks_tail {S : Super} {name g : String} {d : Def} {l : Link} (h : l ∈ typeLinks S name d g) :
    l.tail.isType = true := by
  simp only [typeLinks] at h
  rcases List.mem_append.mp h with h | h
  · split at h
    · simp only [List.mem_cons, List.not_mem_nil, or_false] at h; subst h; rfl
    · simp at h
  · rcases List.mem_cons.mp h with rfl | h
    · rfl
    · rw [List.mem_flatMap] at h
      obtain ⟨f, _, h⟩ := h
      exact fieldLinks_tail h

theorem implLinks_tail {S : Super} {name : String} {d : Def} {l : Link} (h : l ∈ implLinks S name d) :
    l.tail.isType = true := by
  unfold implLinks at h
  split at h
  · obtain ⟨x, _, rfl⟩ := List.mem_map.mp h; rfl
  · simp at h

theorem entityLinks_tail {S : Super} {name : String} {d : Def} {l : Link} (h : l ∈ entityLinks S name d) :
    l.tail.isType = true := by
  unfold entityLinks at h
  rw [List.mem_flatMap] at h
  obtain ⟨j1, _, h⟩ := h
  rcases List.mem_append.mp h with h | h
  · rw [List.mem_flatMap] at h
    obtain ⟨j2, _, h⟩ := h
    simp only [keyLinks] at h
    split at h <;> split at h
    · simp only [List.mem_cons, List.not_mem_nil, or_false] at h; subst h; rfl
    · simp at h
    · simp only [List.mem_cons, List.not_mem_nil, or_false] at h; subst h; rfl
    · simp at h
  · unfold ioLinks at h
    split at h
    · rw [List.mem_flatMap] at h
      obtain ⟨o, _, h⟩ := h
      rcases List.mem_cons.mp h with rfl | h
      · rfl
      · obtain ⟨j2, _, rfl⟩ := List.mem_map.mp h; rfl
    · simp at h

theorem viewKeyLinks_tail {S : Super} {d : Def} {g : String} {head : Node} {l : Link}
    (h : l ∈ viewKeyLinks S d g head) : l.tail.isType = true := by
  unfold viewKeyLinks at h
  rw [List.mem_flatMap] at h
  obtain ⟨j, _, h⟩ := h
  split at h
  · split at h
    · simp only [List.mem_cons, List.not_mem_nil, or_false] at h; subst h; rfl
    · simp at h
  · simp at h

mutual
theorem viewSel_tail {S : Super} {g : String} {v : Nat} : ∀ (x : Sel) {d : Def} {head : Node} {ls},
    viewSel S g v d head x = .ok ls → ∀ l ∈ ls, l.tail.isType = true
  | .field f ss, d, head, ls, h => by
    simp only [viewSel] at h
    split at h
    · simp at h
    next fd _ =>
      have here : ∀ l ∈ ([⟨S.view fd.typeName g v, S.view fd.typeName g v, .selfie fd.typeName⟩,
          ⟨head, S.view fd.typeName g v, .field {
            name := f.name, typeName := d.name, isLeaf := S.isScalar d.name, isList := fd.isList }⟩] :
          List Link), l.tail.isType = true := by
        intro l hl
        simp only [List.mem_cons, List.not_mem_nil, or_false] at hl
        rcases hl with rfl | rfl <;> rfl
      split at h
      · simp only [Except.ok.injEq] at h; subst h; exact here
      · split at h
        · simp at h
        · split at h
          · simp at h
          next r hr =>
            simp only [Except.ok.injEq] at h
            subst h
            intro l hl
            rcases List.mem_append.mp hl with hl | hl
            · rcases List.mem_append.mp hl with hl | hl
              · exact here l hl
              · exact viewKeyLinks_tail hl
            · exact viewSels_tail ss hr l hl
  | .frag c ss, d, head, ls, h => by
    simp only [viewSel] at h
    split at h
    · simp at h
    · split at h
      · simp at h
      next r hr =>
        simp only [Except.ok.injEq] at h
        subst h
        intro l hl
        rcases List.mem_append.mp hl with hl | hl
        · rcases List.mem_append.mp hl with hl | hl
          · simp only [List.mem_cons, List.not_mem_nil, or_false] at hl
            rcases hl with rfl | rfl <;> rfl
          · exact viewKeyLinks_tail hl
        · exact viewSels_tail ss hr l hl
  | .spread _, d, head, ls, h => by simp [viewSel] at h
theorem viewSels_tail {S : Super} {g : String} {v : Nat} : ∀ (xs : List Sel) {d : Def} {head : Node} {ls},
    viewSels S g v d head xs = .ok ls → ∀ l ∈ ls, l.tail.isType = true
  | [], d, head, ls, h => by simp only [viewSels, Except.ok.injEq] at h; subst h; simp
  | x :: r, d, head, ls, h => by
    simp only [viewSels] at h
    split at h
    · simp at h
    next a ha =>
      split at h
      · simp at h
      next b hb =>
        simp only [Except.ok.injEq] at h
        subst h
        intro l hl
        rcases List.mem_append.mp hl with hl | hl
        · exact viewSel_tail x ha l hl
        · exact viewSels_tail r hb l hl
end

theorem viewsFrom_tail {S : Super} {name : String} {d : Def} {g : String} :
    ∀ (ps : List (String × FieldDef × JoinField × List Sel)) {v : Nat} {ls},
    viewsFrom S name d g v ps = .ok ls → ∀ l ∈ ls, l.tail.isType = true
  | [], v, ls, h => by simp only [viewsFrom, Except.ok.injEq] at h; subst h; simp
  | (fname, fd, j, items) :: r, v, ls, h => by
    simp only [viewsFrom] at h
    split at h
    · simp at h
    next a ha =>
      split at h
      · simp at h
      next b hb =>
        simp only [Except.ok.injEq] at h
        subst h
        intro l hl
        rcases List.mem_append.mp hl with hl | hl
        · simp only [providesLinks] at ha
          split at ha
          · simp at ha
          · split at ha
            · simp at ha
            next r' hr' =>
              simp only [Except.ok.injEq] at ha
              subst ha
              rcases List.mem_append.mp hl with hl | hl
              · rcases List.mem_append.mp hl with hl | hl
                · simp only [List.mem_cons, List.not_mem_nil, or_false] at hl
                  rcases hl with rfl | rfl <;> rfl
                · exact viewKeyLinks_tail hl
              · exact viewSels_tail items hr' l hl
        · exact viewsFrom_tail r hb l hl

theorem links_tail {S : Super} {ls : List Link} (h : links S = .ok ls) : ∀ l ∈ ls, l.tail.isType = true := by
  intro l hl
  obtain ⟨name, d, _, hl | ⟨g, _, hl⟩ | hl | hl | ⟨g, _, vs, hvs, hl⟩⟩ := links_cases h l hl
  · exact (rootLinks_good hl).tail
  · exact typeLinks_tail hl
  · exact implLinks_tail hl
  · exact entityLinks_tail hl
  · unfold viewLinks at hvs
    split at hvs
    · simp only [Except.ok.injEq] at hvs; subst hvs; simp at hl
    · split at hvs
      · simp at hvs
      next a ha =>
        simp only [Except.ok.injEq] at hvs
        subst hvs
        rcases List.mem_append.mp hl with hl | hl
        · exact viewsFrom_tail _ ha l hl
        · exact viewKeyLinks_tail hl

/-- The edges of a graph that was built connect its nodes. -/
theorem build_connected {S : Super} {G : Moves} (h : build S = .ok G) : Connected G := by
  obtain ⟨ls, hls, hb⟩ := build_built h
  intro e he
  obtain ⟨l, hl, ⟨⟨a, ha, _⟩, b, hb', hk⟩, _⟩ := hb.edge e he
  refine ⟨⟨a, ha⟩, ?_⟩
  have := links_tail hls l hl
  rw [← key_isType hk] at this
  obtain ⟨t, g, i, s, rfl⟩ := Node.isType_iff.mp this
  exact ⟨t, g, i, s, hb'⟩

/-! ## Roots -/

theorem roots_node {S : Super} {kind : OpKind} {r : Nat} (h : rootOf (roots S) kind = some r) :
    ∃ t a, rootType S kind = some t ∧ (roots S).node r = some a ∧ a.key = .root t := by
  unfold roots at h ⊢
  cases hm : S.mutationType with
  | none =>
    cases hs : S.subscriptionType with
    | none =>
      cases kind <;> simp only [hm, hs, rootOf, Option.some.injEq] at h
      · subst h
        obtain ⟨a, h1, h2⟩ := upsertNode_key [] (.root .query S.queryType)
        exact ⟨_, a, rfl, by simp only [hm, hs, Moves.node]; exact h1, h2⟩
      · simp at h
      · simp at h
    | some t =>
      cases kind <;> simp only [hm, hs, rootOf, Option.some.injEq] at h
      · subst h
        obtain ⟨a, h1, h2⟩ := upsertNode_key [] (.root .query S.queryType)
        exact ⟨_, a, rfl, by simp only [hm, hs, Moves.node]; exact upsertNode_keep h1, h2⟩
      · simp at h
      · subst h
        obtain ⟨a, h1, h2⟩ := upsertNode_key (upsertNode [] (.root .query S.queryType)).1
          (.root .subscription t)
        exact ⟨t, a, hs, by simp only [hm, hs, Moves.node]; exact h1, h2⟩
  | some m =>
    cases hs : S.subscriptionType with
    | none =>
      cases kind <;> simp only [hm, hs, rootOf, Option.some.injEq] at h
      · subst h
        obtain ⟨a, h1, h2⟩ := upsertNode_key [] (.root .query S.queryType)
        exact ⟨_, a, rfl, by simp only [hm, hs, Moves.node]; exact upsertNode_keep h1, h2⟩
      · subst h
        obtain ⟨a, h1, h2⟩ := upsertNode_key (upsertNode [] (.root .query S.queryType)).1
          (.root .mutation m)
        exact ⟨m, a, hm, by simp only [hm, hs, Moves.node]; exact h1, h2⟩
      · simp at h
    | some t =>
      cases kind <;> simp only [hm, hs, rootOf, Option.some.injEq] at h
      · subst h
        obtain ⟨a, h1, h2⟩ := upsertNode_key [] (.root .query S.queryType)
        exact ⟨_, a, rfl, by simp only [hm, hs, Moves.node]; exact upsertNode_keep (upsertNode_keep h1), h2⟩
      · subst h
        obtain ⟨a, h1, h2⟩ := upsertNode_key (upsertNode [] (.root .query S.queryType)).1
          (.root .mutation m)
        exact ⟨m, a, hm, by simp only [hm, hs, Moves.node]; exact upsertNode_keep h1, h2⟩
      · subst h
        obtain ⟨a, h1, h2⟩ := upsertNode_key (upsertNode (upsertNode [] (.root .query S.queryType)).1
          (.root .mutation m)).1 (.root .subscription t)
        exact ⟨t, a, hs, by simp only [hm, hs, Moves.node]; exact h1, h2⟩

theorem Built.rootOf {S : Super} {ls : List Link} {G : Moves} (hb : Built (roots S) ls G) {kind : OpKind}
    {r : Nat} (h : rootOf G kind = some r) :
    ∃ t a, rootType S kind = some t ∧ G.node r = some a ∧ a.key = .root t := by
  have : Walker.rootOf (roots S) kind = some r := by
    obtain ⟨h1, h2, h3⟩ := hb.root
    cases kind <;> simp only [Walker.rootOf, h1, h2, h3] at h ⊢ <;> exact h
  obtain ⟨t, a, h1, h2, h3⟩ := roots_node this
  exact ⟨t, a, h1, hb.keep _ _ h2, h3⟩

/-! ## The type at the end of a way -/

theorem Next.unique {S : Super} (hS : Proper S) {a b b' : String} {st : Step} (h : Next S a st b)
    (h' : Next S a st b') : b = b' := by
  cases st with
  | field f =>
    rcases h with ⟨h1, h2⟩ | ⟨h1, h2⟩ <;> rcases h' with ⟨h1', h2'⟩ | ⟨h1', h2'⟩
    · exact h2.trans h2'.symm
    · exact absurd h1 h1'
    · exact absurd h1' h1
    · exact h2.unique hS h2'
  | on t c =>
    rcases h with ⟨h1, h2⟩ | ⟨h1, h2⟩ <;> rcases h' with ⟨h1', h2'⟩ | ⟨h1', h2'⟩
    · exact h2.trans h2'.symm
    · exact absurd h1 h1'
    · exact absurd h1' h1
    · exact h2.trans h2'.symm

theorem After.unique {S : Super} (hS : Proper S) {a b b' : String} {tr : Trail} (h : After S a tr b)
    (h' : After S a tr b') : b = b' := by
  induction h generalizing b' with
  | nil => cases h'; rfl
  | cons a st b tr c hn _ ih =>
    cases h' with
    | cons _ _ b1 _ _ hn' h' =>
      obtain rfl := hn.unique hS hn'
      exact ih h'

/-- A graph whose moves lead where the supergraph says. -/
def WellTyped (S : Super) (G : Moves) : Prop :=
  ∀ e ∈ G.edges, ∃ a b, G.node e.src = some a ∧ G.node e.dst = some b ∧ Typed S ⟨a, b, e.weight⟩ ∧
    (a.isType = false → ∃ g k, e.weight = .entry g k)

theorem build_wellTyped {S : Super} (hS : Proper S) (hio : NoInterfaceObjects S) {G : Moves}
    (h : build S = .ok G) : WellTyped S G := by
  obtain ⟨ls, hls, hb⟩ := build_built h
  intro e he
  obtain ⟨l, hl, ⟨⟨a, ha, hka⟩, b, hb', hkb⟩, hw⟩ := hb.edge e he
  have hg := links_good hS hio hls l hl
  refine ⟨a, b, ha, hb', ?_, ?_⟩
  · have := hg.typed
    unfold Typed at this ⊢
    rw [hw]
    simp only [key_name hka, key_name hkb]
    exact this
  · intro hf
    rw [key_isType hka] at hf
    rw [hw]
    exact hg.entry hf

theorem Way.after {env : Env} (ht : WellTyped env.S env.G) : ∀ {c n tr segs c' m},
    Way env c n tr segs c' m → ∀ {a}, env.G.node n = some a →
    ∃ b, env.G.node m = some b ∧ After env.S a.name tr b.name
  | _, _, _, _, _, _, .done _ _, a, ha => ⟨a, ha, .nil _⟩
  | _, _, _, _, _, _, .same c n node t tr segs c' m h1 h2 h, a, ha => by
    obtain ⟨b, hb, haf⟩ := h.after ht ha
    rw [h1] at ha; simp only [Option.some.injEq] at ha; subst ha
    exact ⟨b, hb, .cons _ _ _ _ _ (.inl ⟨h2, rfl⟩) haf⟩
  | _, _, _, _, _, _, .hop c n e s st tr segs c' m h1 h2 h3 h, a, ha => by
    obtain ⟨a', b', ha', hb', htyp, _⟩ := ht e h1.mem
    rw [h1.src, ha] at ha'; simp only [Option.some.injEq] at ha'; subst ha'
    rw [← h1.tail] at hb'
    obtain ⟨b, hb, haf⟩ := h.after ht hb'
    refine ⟨b, hb, ?_⟩
    generalize hw : e.weight = w at h2 htyp
    cases h2 with
    | entity k r i =>
      have : b'.name = a.name := htyp
      rw [← this]; exact haf
    | ioType t r => exact htyp.elim
  | _, _, _, _, _, _, .step c n e s st tr segs c' m h1 h2 h3 h, a, ha => by
    obtain ⟨a', b', ha', hb', htyp, _⟩ := ht e h1.mem
    rw [h1.src, ha] at ha'; simp only [Option.some.injEq] at ha'; subst ha'
    rw [← h1.tail] at hb'
    obtain ⟨b, hb, haf⟩ := h.after ht hb'
    refine ⟨b, hb, .cons _ _ _ _ _ ?_ haf⟩
    generalize hw : e.weight = w at h2 htyp
    cases h2 with
    | field f m hn =>
      rcases htyp with ⟨h5, h6⟩ | ⟨h5, h6⟩
      · exact .inl ⟨hn ▸ h5, h6⟩
      · exact .inr ⟨hn ▸ h5, hn ▸ h6⟩
    | reentry f name ty li hn => exact .inr ⟨hn ▸ htyp.1, hn ▸ htyp.2⟩
    | abstract t c =>
      obtain ⟨h5, h6⟩ := htyp
      by_cases hat : a.name = t
      · exact .inl ⟨.inl hat, h5.trans hat.symm⟩
      · refine .inr ⟨?_, h5⟩
        rintro (h7 | h7)
        · exact hat h7
        · have := h6 hat
          rw [this] at h7; simp at h7
    | ioType t c r => exact htyp.elim
    | selfie t c =>
      obtain ⟨h5, h6⟩ := htyp
      have h6 : a.name = t := h6
      exact .inl ⟨.inl h6, h5.trans h6.symm⟩

/-- Ways along a trail end in the same type. -/
theorem build_agree {env : Env} (hS : Proper env.S) (hio : NoInterfaceObjects env.S)
    (h : build env.S = .ok env.G) (kind : OpKind) : Agree env kind := by
  have ht := build_wellTyped hS hio h
  obtain ⟨ls, hls, hb⟩ := build_built h
  have key : ∀ tr p, Arrives env kind tr p → ∃ t, rootType env.S kind = some t ∧
      ∃ b, env.G.node p.tail = some b ∧ After env.S t tr b.name := by
    intro tr p ⟨e, s, rest, he, hr, h1, h2, h3, h4, h5, h6, w⟩
    obtain ⟨t, a, hrt, ha, hk⟩ := Built.rootOf hb hr
    obtain ⟨a', b', ha', hb', htyp, hen⟩ := ht e he
    rw [ha] at ha'; simp only [Option.some.injEq] at ha'; subst ha'
    have hnt : a.isType = false := by
      rcases a with ⟨_, n⟩ | ⟨n, g, i, _ | ⟨v⟩ | ⟨u⟩⟩ <;> simp_all [Node.key, Node.isType]
    have hname : a.name = t := by
      rcases a with ⟨_, n⟩ | ⟨n, g, i, _ | ⟨v⟩ | ⟨u⟩⟩ <;> simp_all [Node.key, Node.name]
    obtain ⟨g, k, hw⟩ := hen hnt
    rw [hw] at htyp
    have : b'.name = a.name := htyp
    rw [← h4] at hb'
    obtain ⟨b, hbn, haf⟩ := w.after ht hb'
    rw [this, hname] at haf
    exact ⟨t, hrt, b, hbn, haf⟩
  intro tr p q hp hq
  obtain ⟨t, h1, b, h2, h3⟩ := key tr p hp
  obtain ⟨t', h1', b', h2', h3'⟩ := key tr q hq
  rw [h1] at h1'; simp only [Option.some.injEq] at h1'; subst h1'
  rw [h2, h2', Option.map_some, Option.map_some, h3.unique hS h3']

end Verif.Walker
