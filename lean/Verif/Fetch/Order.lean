import Verif.Fetch.Passes

/-!
# Lemmas: which step waits for which
-/

namespace Verif.Fetch

theorem After.append {g : Graph} {a b c : Nat} (h : After g a b) (h' : After g b c) : After g a c := by
  induction h' with
  | edge e => exact .trans h e
  | trans _ e ih => exact .trans ih e

theorem After.mono {g g' : Graph} (hs : ∀ e ∈ g.edges, e ∈ g'.edges) {a b : Nat} (h : After g a b) :
    After g' a b := by
  induction h with
  | edge e => exact .edge (hs _ e)
  | trans _ e ih => exact .trans ih (hs _ e)

/-! ## Merging -/

theorem rewire_edge {t s a b : Nat} {g : Graph} (hts : t ≠ s) (h : (a, b) ∈ g.edges) :
    heir t s a = heir t s b ∨ (heir t s a, heir t s b) ∈ (rewire t s g).edges := by
  unfold heir
  by_cases ha : a = s
  · subst ha
    rw [if_pos rfl]
    by_cases hb : b = a
    · rw [if_pos hb]
      exact .inl rfl
    · rw [if_neg hb]
      exact .inr (rewire_edges.2 ⟨hts, hb, .inr (.inl ⟨rfl, h⟩)⟩)
  · rw [if_neg ha]
    by_cases hb : b = s
    · subst hb
      rw [if_pos rfl]
      by_cases hat : a = t
      · exact .inl hat
      · exact .inr (rewire_edges.2 ⟨ha, hts, .inr (.inr ⟨rfl, hat, h⟩)⟩)
    · rw [if_neg hb]
      exact .inr (rewire_edges.2 ⟨ha, hb, .inl h⟩)

theorem rewire_after {t s a b : Nat} {g : Graph} (hts : t ≠ s) (h : After g a b) :
    heir t s a = heir t s b ∨ After (rewire t s g) (heir t s a) (heir t s b) := by
  induction h with
  | edge e => exact (rewire_edge hts e).imp id .edge
  | trans _ e ih =>
    rcases rewire_edge hts e with h2 | h2
    · rw [← h2]
      exact ih
    · rcases ih with h1 | h1
      · rw [h1]
        exact .inr (.edge h2)
      · exact .inr (.trans h1 h2)

/-- A way of which only the ends may be a node. -/
inductive Around (g : Graph) (t : Nat) : Nat → Nat → Prop
  | edge {a b : Nat} : (a, b) ∈ g.edges → Around g t a b
  | trans {a b c : Nat} : Around g t a b → b ≠ t → (b, c) ∈ g.edges → Around g t a c

theorem After.around {g : Graph} {t a b : Nat} (h : After g a b) :
    Around g t a b ∨ (Around g t a t ∧ (∃ c, Around g t t c) ∧ Around g t t b) := by
  induction h with
  | edge e => exact .inl (.edge e)
  | @trans b c h' e ih =>
    by_cases hb : b = t
    · subst hb
      rcases ih with ih | ⟨i1, i2, i3⟩
      · exact .inr ⟨ih, ⟨c, .edge e⟩, .edge e⟩
      · exact .inr ⟨i1, ⟨c, .edge e⟩, .edge e⟩
    · rcases ih with ih | ⟨i1, i2, i3⟩
      · exact .inl (.trans ih hb e)
      · exact .inr ⟨i1, i2, .trans i3 hb e⟩

/-- A way around the merged step, without its last part. -/
theorem Around.lift {g : Graph} {t s a b : Nat} (h : Around (rewire t s g) t a b) :
    a ≠ s ∧ b ≠ s ∧
      (After g a b ∨ (a = t ∧ After g s b) ∨ (b = t ∧ After g a s) ∨ (a = t ∧ b = t ∧ ∃ x, After g s x ∧ After g x s)
        ) := by
  induction h with
  | edge e =>
    obtain ⟨h1, h2, h3 | ⟨h3, h4⟩ | ⟨h3, h4, h5⟩⟩ := rewire_edges.1 e
    · exact ⟨h1, h2, .inl (.edge h3)⟩
    · exact ⟨h1, h2, .inr (.inl ⟨h3, .edge h4⟩)⟩
    · exact ⟨h1, h2, .inr (.inr (.inl ⟨h3, .edge h5⟩))⟩
  | @trans b c _ hb e ih =>
    obtain ⟨i1, i2, i3⟩ := ih
    obtain ⟨h1, h2, h3 | ⟨h3, _⟩ | ⟨h3, h4, h5⟩⟩ := rewire_edges.1 e
    · refine ⟨i1, h2, ?_⟩
      rcases i3 with i3 | ⟨ia, i3⟩ | ⟨ia, _⟩ | ⟨_, ia, _⟩
      · exact .inl (.trans i3 h3)
      · exact .inr (.inl ⟨ia, .trans i3 h3⟩)
      · exact absurd ia hb
      · exact absurd ia hb
    · exact absurd h3 hb
    · refine ⟨i1, h2, ?_⟩
      rcases i3 with i3 | ⟨ia, i3⟩ | ⟨ia, _⟩ | ⟨_, ia, _⟩
      · exact .inr (.inr (.inl ⟨h3, .trans i3 h5⟩))
      · exact .inr (.inr (.inr ⟨ia, h3, b, i3, .edge h5⟩))
      · exact absurd ia hb
      · exact absurd ia hb

theorem around_to {g : Graph} {t s : Nat} (h : Around (rewire t s g) t t t) (hg : NoCycle g)
    (hm : Mergeable g t s) : False := by
  cases h with
  | edge e =>
    obtain ⟨_, _, h3 | ⟨_, h4⟩ | ⟨_, h4, _⟩⟩ := rewire_edges.1 e
    · exact hg t (.edge h3)
    · exact hm.1 (.edge h4)
    · exact h4 rfl
  | @trans b _ h' hb e =>
    obtain ⟨_, _, i3⟩ := h'.lift
    have hlast : (b, t) ∈ g.edges ∨ (b, s) ∈ g.edges := by
      obtain ⟨_, _, h3 | ⟨h3, _⟩ | ⟨_, _, h5⟩⟩ := rewire_edges.1 e
      · exact .inl h3
      · exact absurd h3 hb
      · exact .inr h5
    have hfirst : After g t b ∨ After g s b := by
      rcases i3 with i3 | ⟨_, i3⟩ | ⟨ia, _⟩ | ⟨_, ia, _⟩
      · exact .inl i3
      · exact .inr i3
      · exact absurd ia hb
      · exact absurd ia hb
    rcases hfirst with hf | hf <;> rcases hlast with hl | hl
    · exact hg t (.trans hf hl)
    · exact hm.2 b hf (.edge hl)
    · exact hm.1 (.trans hf hl)
    · exact hg s (.trans hf hl)

theorem rewire_noCycle {g : Graph} {t s : Nat} (hg : NoCycle g) (hm : Mergeable g t s) :
    NoCycle (rewire t s g) := by
  intro a ha
  rcases ha.around (t := t) with h | ⟨h1, _, h3⟩
  · by_cases hat : a = t
    · subst hat
      exact around_to h hg hm
    · obtain ⟨_, _, i | ⟨i, _⟩ | ⟨i, _⟩ | ⟨i, _⟩⟩ := h.lift
      · exact hg a i
      · exact hat i
      · exact hat i
      · exact hat i
  · -- round a to t and from t to a
    by_cases hat : a = t
    · subst hat
      exact around_to h1 hg hm
    · obtain ⟨_, _, i⟩ := h3.lift
      obtain ⟨_, _, j⟩ := h1.lift
      have hi : After g t a ∨ After g s a := by
        rcases i with i | ⟨_, i⟩ | ⟨i, _⟩ | ⟨_, i, _⟩
        · exact .inl i
        · exact .inr i
        · exact absurd i hat
        · exact absurd i hat
      have hj : After g a t ∨ After g a s := by
        rcases j with j | ⟨j, _⟩ | ⟨_, j⟩ | ⟨j, _⟩
        · exact .inl j
        · exact absurd j hat
        · exact .inr j
        · exact absurd j hat
      rcases hi with hi | hi <;> rcases hj with hj | hj
      · exact hg t (hi.append hj)
      · exact hm.2 a hi hj
      · exact hm.1 (hi.append hj)
      · exact hg s (hi.append hj)

theorem After.last {g : Graph} {a b : Nat} (h : After g a b) : ∃ c, (c, b) ∈ g.edges ∧ (a = c ∨ After g a c) := by
  cases h with
  | edge e => exact ⟨a, e, .inl rfl⟩
  | trans h e => exact ⟨_, e, .inr h⟩

/-- A step that waits for nothing else can be merged into what it waits for. -/
theorem mergeable_only {g : Graph} {t s : Nat} (hg : NoCycle g) (h : g.parents s = [t]) : Mergeable g t s := by
  have hp : ∀ c, (c, s) ∈ g.edges → c = t := by
    intro c hc
    have := mem_parents.2 hc
    rw [h] at this
    simpa using this
  have hts : (t, s) ∈ g.edges := mem_parents.1 (by rw [h]; simp)
  refine ⟨fun h' => hg t ((After.edge hts).append h'), ?_⟩
  intro x hx hxs
  obtain ⟨c, hc, h1⟩ := hxs.last
  rw [hp c hc] at h1
  rcases h1 with rfl | h1
  · exact hg _ hx
  · exact hg _ (hx.append h1)

/-! ## Pruning -/

theorem After.rank {g : Graph} {rank : Nat → Nat} (hr : ∀ a b, (a, b) ∈ g.edges → rank a < rank b) {a b : Nat}
    (h : After g a b) : rank a < rank b := by
  induction h with
  | edge e => exact hr _ _ e
  | trans _ e ih => exact Nat.lt_trans ih (hr _ _ e)

theorem upN_sound {g : Graph} {p : Nat} : ∀ (n : Nat) {l : List Nat}, p ∈ g.upN n l →
    ∃ q ∈ l, p = q ∨ After g p q
  | 0, l, h => ⟨p, h, .inl rfl⟩
  | n + 1, l, h => by
    obtain ⟨q, hq, h'⟩ := upN_sound n h
    rw [List.mem_eraseDups, List.mem_append, List.mem_flatMap] at hq
    rcases hq with hq | ⟨r, hr, hq⟩
    · exact ⟨q, hq, h'⟩
    · have e := mem_parents.1 hq
      rcases h' with rfl | h'
      · exact ⟨r, hr, .inr (.edge e)⟩
      · exact ⟨r, hr, .inr (.trans h' e)⟩

/-- The edges that a prune leaves, in one go. -/
theorem keep_edges {g : Graph} {rank : Nat → Nat} (hr : ∀ a b, (a, b) ∈ g.edges → rank a < rank b) :
    ∀ (n : Nat) {a b : Nat}, rank b - rank a ≤ n → After g a b →
      After { g with edges := g.edges.filter fun e => !detour g e.2 e.1 } a b
  | 0, a, b, hn, h => by
    have := h.rank hr
    omega
  | n + 1, a, b, hn, h => by
    have edge : ∀ {a b}, rank b - rank a ≤ n + 1 → (a, b) ∈ g.edges →
        After { g with edges := g.edges.filter fun e => !detour g e.2 e.1 } a b := by
      intro a b hn h
      by_cases hd : detour g b a = true
      · unfold detour at hd
        rw [List.contains_eq_mem, decide_eq_true_eq] at hd
        obtain ⟨q, hq, h'⟩ := upN_sound _ hd
        obtain ⟨hq1, hq2⟩ := List.mem_filter.1 hq
        have e := mem_parents.1 hq1
        have hq3 : After g a q := by
          rcases h' with rfl | h'
          · simp at hq2
          · exact h'
        have r1 := hq3.rank hr
        have r2 := hr _ _ e
        exact (keep_edges hr n (by omega) hq3).append (keep_edges hr n (by omega) (.edge e))
      · exact .edge (List.mem_filter.2 ⟨h, by simpa using hd⟩)
    cases h with
    | edge e => exact edge hn e
    | @trans c _ h' e =>
      have r1 := h'.rank hr
      have r2 := hr _ _ e
      exact (keep_edges hr n (by omega) h').append (edge (by omega) e)

theorem removes_edges : ∀ (l : List Nat) {g : Graph} {a b : Nat},
    (a, b) ∈ (l.foldl Graph.remove g).edges ↔ a ∉ l ∧ b ∉ l ∧ (a, b) ∈ g.edges
  | [], g, a, b => by simp
  | n :: r, g, a, b => by
    rw [List.foldl_cons, removes_edges r]
    simp only [Graph.remove, List.mem_filter, Bool.and_eq_true, bne_iff_ne, ne_eq, List.mem_cons, not_or]
    constructor
    · rintro ⟨h1, h2, h3, h4, h5⟩
      exact ⟨⟨h4, h1⟩, ⟨h5, h2⟩, h3⟩
    · rintro ⟨⟨h4, h1⟩, ⟨h5, h2⟩, h3⟩
      exact ⟨h1, h2, h3, h4, h5⟩

theorem prune_after {g : Graph} (hr : Ranked g) {a b : Nat} (h : After g a b)
    (hb : b ∉ g.indices.filter (useless g)) : After (prune g) a b := by
  obtain ⟨rank, hr⟩ := hr
  have hend : ∀ {x y}, (x, y) ∈ g.edges → x ∉ g.indices.filter (useless g) := by
    intro x y hxy hx
    have := (List.mem_filter.1 hx).2
    unfold useless at this
    split at this
    · simp only [Bool.and_eq_true, List.isEmpty_iff] at this
      have hc := mem_children.2 hxy
      rw [this.2] at hc
      cases hc
    · cases this
  have key : ∀ {a b}, After g a b → b ∉ g.indices.filter (useless g) →
      After ((g.indices.filter (useless g)).foldl Graph.remove g) a b := by
    intro a b h
    induction h with
    | edge e =>
      intro hb
      exact .edge ((removes_edges _).2 ⟨hend e, hb, e⟩)
    | trans _ e ih =>
      intro hb
      exact .trans (ih (hend e)) ((removes_edges _).2 ⟨hend e, hb, e⟩)
  unfold prune
  exact keep_edges (rank := rank) (fun a b h => hr a b ((removes_edges _).1 h).2.2) _ (Nat.le_refl _) (key h hb)

/-! ## Mutations -/

theorem chain_after {g : Graph} : ∀ {l : List Nat}, (∀ e ∈ chain l, e ∈ g.edges) →
    l.Pairwise fun a b => After g a b
  | [], _ => .nil
  | [_], _ => by simp
  | a :: b :: r, h => by
    have h1 : After g a b := .edge (h (a, b) (by simp [chain]))
    have ih : (b :: r).Pairwise fun a b => After g a b :=
      chain_after fun e he => h e (by simp only [chain]; exact List.mem_cons_of_mem _ he)
    refine List.pairwise_cons.2 ⟨?_, ih⟩
    intro c hc
    rcases List.mem_cons.1 hc with rfl | hc
    · exact h1
    · exact h1.append ((List.pairwise_cons.1 ih).1 c hc)

theorem insertPos_mem {α : Type} {key : α → Option Nat} {x y : α} : ∀ {l : List α},
    y ∈ insertPos key x l ↔ y = x ∨ y ∈ l
  | [] => by simp [insertPos]
  | z :: r => by
    simp only [insertPos]
    split
    · simp
    · simp only [List.mem_cons, insertPos_mem (l := r)]
      constructor
      · rintro (h | h | h)
        · exact .inr (.inl h)
        · exact .inl h
        · exact .inr (.inr h)
      · rintro (h | h | h)
        · exact .inr (.inl h)
        · exact .inl h
        · exact .inr (.inr h)

theorem sortPos_mem {α : Type} {key : α → Option Nat} {y : α} : ∀ {l : List α}, y ∈ sortPos key l ↔ y ∈ l
  | [] => by simp [sortPos]
  | x :: r => by simp only [sortPos, insertPos_mem, sortPos_mem (l := r), List.mem_cons]

theorem insertPos_sorted {x : Nat × Nat} : ∀ {l : List (Nat × Nat)}, (l.Pairwise fun a b => a.2 ≤ b.2) →
    (insertPos (fun x => some x.2) x l).Pairwise fun a b => a.2 ≤ b.2
  | [], _ => by simp [insertPos]
  | y :: r, h => by
    obtain ⟨h1, h2⟩ := List.pairwise_cons.1 h
    simp only [insertPos, posLe, decide_eq_true_eq]
    split
    next hle =>
      refine List.pairwise_cons.2 ⟨?_, h⟩
      intro z hz
      rcases List.mem_cons.1 hz with rfl | hz
      · exact hle
      · exact Nat.le_trans hle (h1 z hz)
    next hle =>
      refine List.pairwise_cons.2 ⟨?_, insertPos_sorted h2⟩
      intro z hz
      rcases insertPos_mem.1 hz with rfl | hz
      · omega
      · exact h1 z hz

theorem sortPos_sorted : ∀ (l : List (Nat × Nat)), (sortPos (fun x => some x.2) l).Pairwise fun a b => a.2 ≤ b.2
  | [] => by simp [sortPos]
  | x :: r => insertPos_sorted (sortPos_sorted r)

theorem withPos_mem {g : Graph} : ∀ {l : List Nat} {r : List (Nat × Nat)}, withPos g l = .ok r →
    ∀ n ∈ l, ∃ i s, (n, i) ∈ r ∧ g.get n = .ok s ∧ s.pos = some i
  | [], _, _, n, hn => by cases hn
  | m :: l, r, h, n, hn => by
    simp only [withPos] at h
    split at h
    next => cases h
    next s hs =>
      split at h
      next => cases h
      next => cases h
      next i l' hi hl =>
        cases h
        rcases List.mem_cons.1 hn with rfl | hn
        · exact ⟨i, s, by simp, hs, hi⟩
        · obtain ⟨j, s', h1, h2, h3⟩ := withPos_mem hl n hn
          exact ⟨j, s', List.mem_cons_of_mem _ h1, h2, h3⟩

theorem pairwise_before {α : Type} {R : α → α → Prop} : ∀ {l : List α}, l.Pairwise R → ∀ {x y}, x ∈ l → y ∈ l →
    x = y ∨ R x y ∨ R y x
  | [], _, _, _, hx, _ => by cases hx
  | a :: r, h, x, y, hx, hy => by
    obtain ⟨h1, h2⟩ := List.pairwise_cons.1 h
    rcases List.mem_cons.1 hx with rfl | hx'
    · rcases List.mem_cons.1 hy with rfl | hy'
      · exact .inl rfl
      · exact .inr (.inl (h1 y hy'))
    · rcases List.mem_cons.1 hy with rfl | hy'
      · exact .inr (.inr (h1 x hx'))
      · exact pairwise_before h2 hx' hy'

/-- Pairs of a list that is in order in two ways. -/
theorem pairwise_both {α : Type} {R S : α → α → Prop} {l : List α} (h : l.Pairwise R) (h' : l.Pairwise S) :
    l.Pairwise fun a b => R a b ∧ S a b := List.Pairwise.imp₂ (fun _ _ a b => ⟨a, b⟩) h h'

theorem sequence_after {g g' : Graph} {root a b i j : Nat} {x y : Step} (hk : g.kind = .mutation)
    (hr : g.root = some root) (ha : (root, a) ∈ g.edges) (hb : (root, b) ∈ g.edges)
    (hx : g.get a = .ok x) (hy : g.get b = .ok y) (hi : x.pos = some i) (hj : y.pos = some j) (hij : i < j)
    (h : sequence g = .ok g') : After g' a b ∧ After g' root a := by
  unfold sequence at h
  simp only [Graph.start, hr, hk, ne_eq, not_true_eq_false, if_false] at h
  split at h
  next => cases h
  next l hl =>
    split at h
    next => cases h
    next first rest horder =>
      simp only [Except.ok.injEq] at h
      generalize hO : (sortPos (fun x => some x.2) l).map (·.1) = order at h horder
      have hedges : ∀ e, e ∈ chain order ∨ e = (root, first) → e ∈ g'.edges := by
        rw [← h]
        intro e he
        rw [connects_edges (fun e => e), connect_edges]
        rcases he with he | he
        · exact .inr (by simpa using he)
        · exact .inl (.inl he)
      have hp := chain_after fun e he => hedges e (.inl he)
      have hpl := hp
      rw [← hO, List.pairwise_map] at hpl
      have hboth := pairwise_both hpl (sortPos_sorted l)
      have mem : ∀ {n k : Nat} {z : Step}, (root, n) ∈ g.edges → g.get n = .ok z → z.pos = some k →
          (n, k) ∈ sortPos (fun x => some x.2) l := by
        intro n k z hn hz hk
        obtain ⟨k', z', h1, h2, h3⟩ := withPos_mem hl n (mem_children.2 hn)
        rw [hz] at h2
        cases h2
        rw [hk] at h3
        cases h3
        exact sortPos_mem.2 h1
      have ma := mem ha hx hi
      have mb := mem hb hy hj
      refine ⟨?_, ?_⟩
      · rcases pairwise_before hboth ma mb with h | ⟨h, _⟩ | ⟨_, h⟩
        · simp only [Prod.mk.injEq] at h
          omega
        · exact h
        · dsimp only at h
          omega
      · rw [horder] at hp
        have hroot : After _ root first := .edge (hedges (root, first) (.inr rfl))
        have hmem : a ∈ first :: rest := by
          rw [← horder, ← hO]
          exact List.mem_map.2 ⟨_, ma, rfl⟩
        rcases List.mem_cons.1 hmem with rfl | hmem
        · exact hroot
        · exact hroot.append ((List.pairwise_cons.1 hp).1 a hmem)

end Verif.Fetch
