import Verif.Auth.Trie

namespace Verif.Auth

theorem snocInd {α : Type} {P : List α → Prop} (nil : P [])
    (snoc : ∀ l a, P l → P (l ++ [a])) (l : List α) : P l := by
  have : ∀ l : List α, P l.reverse := by
    intro l
    induction l with
    | nil => exact nil
    | cons a l ih => simpa using snoc _ a ih
  simpa using this l.reverse

/-- Following a path from a position. -/
def Trie.walk (t : Trie) : Nat → List Seg → Option Nat
  | i, [] => some i
  | i, s :: rest => (t.child i s).bind fun j => t.walk j rest

def Trie.markedAt (t : Trie) (i : Nat) : Bool := (t[i]?).any (·.marked)

structure Trie.Inv (t : Trie) : Prop where
  pos : 0 < t.length
  bound : ∀ i s j, t.child i s = some j → i < j ∧ j < t.length
  inj : ∀ i s j i' s', t.child i s = some j → t.child i' s' = some j → i = i' ∧ s = s'
  fresh : ∀ (i : Nat) n, t[i]? = some n → (n.children = [] ↔ ∀ s, n.children.lookup s = none)

theorem Trie.walk_append (t : Trie) (i : Nat) (p q : List Seg) :
    t.walk i (p ++ q) = (t.walk i p).bind fun j => t.walk j q := by
  induction p generalizing i with
  | nil => simp [walk]
  | cons s p ih =>
    simp only [List.cons_append, walk]
    cases h : t.child i s with
    | none => simp
    | some j => simp [ih]

theorem Trie.walk_ge {t : Trie} (h : t.Inv) {i j : Nat} {p : List Seg} (hw : t.walk i p = some j) :
    i ≤ j ∧ (p ≠ [] → i < j ∧ j < t.length) := by
  induction p generalizing i with
  | nil => simp [walk] at hw; simp [hw]
  | cons s p ih =>
    simp only [walk] at hw
    cases hc : t.child i s with
    | none => simp [hc] at hw
    | some k =>
      simp [hc] at hw
      have := ih hw
      have hb := h.bound _ _ _ hc
      refine ⟨by omega, fun _ => ?_⟩
      by_cases hp : p = []
      · subst hp; simp [walk] at hw; omega
      · have := this.2 hp; omega

theorem Trie.walk_snoc (t : Trie) (i : Nat) (p : List Seg) (s : Seg) :
    t.walk i (p ++ [s]) = (t.walk i p).bind fun j => t.child j s := by
  rw [walk_append]; congr; funext j; simp only [walk]; cases t.child j s <;> simp

/-- A position other than 0 is reached from the root along at most one path. -/
theorem Trie.walk_inj {t : Trie} (h : t.Inv) : ∀ (p q : List Seg) (j : Nat),
    t.walk 0 p = some j → t.walk 0 q = some j → p = q := by
  intro p
  induction p using snocInd with
  | nil =>
    intro q j hp hq
    simp [walk] at hp; subst hp
    by_cases hne : q = []
    · exact hne.symm
    · have := (walk_ge h hq).2 hne; omega
  | snoc p s ih =>
    intro q j hp hq
    have hj : 0 < j := ((walk_ge h hp).2 (by simp)).1
    rcases List.eq_nil_or_concat q with rfl | ⟨q, s', rfl⟩
    · simp [walk] at hq; omega
    · rw [List.concat_eq_append] at *
      rw [walk_snoc] at hp hq
      cases h1 : t.walk 0 p with
      | none => simp [h1] at hp
      | some a =>
        cases h2 : t.walk 0 q with
        | none => simp [h2] at hq
        | some b =>
          simp [h1] at hp; simp [h2] at hq
          obtain ⟨rfl, rfl⟩ := h.inj _ _ _ _ _ hp hq
          rw [ih q _ h1 h2]

theorem Trie.child_mark (t : Trie) (k i : Nat) (s : Seg) : (t.mark k).child i s = t.child i s := by
  simp only [child, mark, List.getElem?_modify]
  by_cases h : k = i <;> simp [h]
  cases t[i]? <;> simp

theorem Trie.walk_mark (t : Trie) (k i : Nat) (p : List Seg) : (t.mark k).walk i p = t.walk i p := by
  induction p generalizing i with
  | nil => rfl
  | cons s p ih => simp only [walk, child_mark]; congr; funext j; exact ih j

theorem Trie.markedAt_mark (t : Trie) (k i : Nat) (hk : k < t.length) :
    (t.mark k).markedAt i = (t.markedAt i || decide (i = k)) := by
  simp only [markedAt, mark, List.getElem?_modify]
  by_cases h : k = i
  · subst h; simp [List.getElem?_eq_getElem hk]
  · have : ¬ i = k := fun e => h e.symm
    simp [h, this]

theorem Trie.inv_mark {t : Trie} (h : t.Inv) (k : Nat) : (t.mark k).Inv where
  pos := by simpa [mark] using h.pos
  bound i s j hc := by
    rw [child_mark] at hc; have := h.bound _ _ _ hc; simpa [mark] using this
  inj i s j i' s' h1 h2 := by rw [child_mark] at h1 h2; exact h.inj _ _ _ _ _ h1 h2
  fresh i n hn := by
    simp only [mark, List.getElem?_modify] at hn
    cases hi : t[i]? with
    | none => simp [hi] at hn
    | some m =>
      by_cases hk : k = i
      · simp [hk, hi] at hn; subst hn; exact h.fresh i m hi
      · simp [hk, hi] at hn; subst hn; exact h.fresh i m hi

theorem Trie.child_addChild (t : Trie) (cur : Nat) (s : Seg) (hcur : cur < t.length) (i : Nat)
    (s' : Seg) : (t.addChild cur s).child i s' =
      if i = cur ∧ s' = s then some t.length else t.child i s' := by
  simp only [child, addChild]
  by_cases hi : i < t.length
  · rw [List.getElem?_append_left (by simpa using hi)]
    simp only [List.getElem?_modify]
    by_cases hc : cur = i
    · subst hc
      simp only [List.getElem?_eq_getElem hi]
      by_cases hs : s' = s
      · subst hs; simp [List.lookup]
      · simp [List.lookup, hs]
        rw [show (s' == s) = false by simpa using hs]
    · have : ¬ i = cur := fun e => hc e.symm
      simp [hc, this]
  · have hlen : t.length ≤ i := by omega
    have : ¬ i = cur := by omega
    simp only [this, false_and, if_false]
    rw [List.getElem?_append_right (by simpa using hlen)]
    rw [List.getElem?_eq_none hlen]
    simp only [List.length_modify]
    cases i - t.length <;> simp [List.lookup]

theorem Trie.markedAt_addChild (t : Trie) (cur : Nat) (s : Seg) (i : Nat) :
    (t.addChild cur s).markedAt i = t.markedAt i := by
  simp only [markedAt, addChild]
  by_cases hi : i < t.length
  · rw [List.getElem?_append_left (by simpa using hi)]
    simp only [List.getElem?_modify]
    by_cases hc : cur = i
    · simp [hc]
      cases t[i]? <;> simp
    · simp [hc]
  · have hlen : t.length ≤ i := by omega
    rw [List.getElem?_append_right (by simpa using hlen), List.getElem?_eq_none hlen]
    simp only [List.length_modify]
    cases i - t.length <;> simp

theorem Trie.child_lt {t : Trie} {i : Nat} {s : Seg} {j : Nat} (h : t.child i s = some j) :
    i < t.length := by
  simp only [child] at h
  by_cases hi : i < t.length
  · exact hi
  · rw [List.getElem?_eq_none (by omega)] at h; simp at h

theorem Trie.inv_addChild {t : Trie} (h : t.Inv) {cur : Nat} {s : Seg} (hcur : cur < t.length)
    : (t.addChild cur s).Inv where
  pos := by simp [addChild]
  bound i s' j hc := by
    rw [child_addChild t cur s hcur] at hc
    have hl : (t.addChild cur s).length = t.length + 1 := by simp [addChild]
    by_cases hi : i = cur ∧ s' = s
    · simp [hi] at hc; omega
    · simp [hi] at hc; have := h.bound _ _ _ hc; omega
  inj i s1 j i' s2 h1 h2 := by
    rw [child_addChild t cur s hcur] at h1 h2
    by_cases hi : i = cur ∧ s1 = s <;> by_cases hi' : i' = cur ∧ s2 = s
    · exact ⟨hi.1.trans hi'.1.symm, hi.2.trans hi'.2.symm⟩
    · simp [hi] at h1; simp [hi'] at h2; have := h.bound _ _ _ h2; omega
    · simp [hi] at h1; simp [hi'] at h2; have := h.bound _ _ _ h1; omega
    · simp [hi] at h1; simp [hi'] at h2; exact h.inj _ _ _ _ _ h1 h2
  fresh i n hn := by
    constructor
    · intro hn s; simp [hn]
    · intro hs
      cases hch : n.children with
      | nil => rfl
      | cons a l =>
        have := hs a.1
        rw [hch] at this
        simp [List.lookup] at this

theorem Trie.inv_empty : Trie.empty.Inv where
  pos := by simp [empty]
  bound i s j h := by
    simp only [child, empty] at h
    cases i <;> simp [List.lookup] at h
  inj i s j i' s' h _ := by
    simp only [child, empty] at h
    cases i <;> simp [List.lookup] at h
  fresh i n h := by
    cases i <;> simp [empty] at h
    subst h; simp [List.lookup]

theorem Trie.walk_addChild {t : Trie} (h : t.Inv) {cur : Nat} {s : Seg} {p0 : List Seg}
    (hw : t.walk 0 p0 = some cur) (hcur : cur < t.length) (hnone : t.child cur s = none) :
    ∀ q, (t.addChild cur s).walk 0 q = if q = p0 ++ [s] then some t.length else t.walk 0 q := by
  intro q
  induction q using snocInd with
  | nil => simp [walk]
  | snoc q s' ih =>
    rw [walk_snoc, ih]
    have hnew : ∀ x, (t.addChild cur s).child t.length x = none := by
      intro x
      rw [child_addChild t cur s hcur]
      have : ¬ t.length = cur := by omega
      simp [this, child]
    by_cases hq : q = p0 ++ [s]
    · subst hq
      have : ¬ (p0 ++ [s] ++ [s'] = p0 ++ [s]) := by
        intro e; have := congrArg List.length e; simp at this
      simp only [if_true, Option.bind_some, hnew, this, if_false]
      rw [walk_snoc, walk_snoc, hw]; simp [hnone]
    · simp only [hq, if_false]
      rw [walk_snoc]
      cases hwq : t.walk 0 q with
      | none =>
        by_cases he : q ++ [s'] = p0 ++ [s]
        · have := List.append_inj' he rfl
          rw [this.1] at hwq; rw [hwq] at hw; simp at hw
        · simp [he]
      | some j =>
        simp only [Option.bind_some]
        rw [child_addChild t cur s hcur]
        by_cases hj : j = cur
        · subst hj
          have : q = p0 := walk_inj h _ _ _ hwq hw
          subst this
          by_cases hs : s' = s
          · simp [hs]
          · simp [hs]
        · have : ¬ (q ++ [s'] = p0 ++ [s]) := by
            intro e
            have := List.append_inj' e rfl
            rw [this.1, hw] at hwq; simp at hwq; exact hj hwq.symm
          simp [hj, this]

/-- What a trie says about paths from the root. -/
structure Trie.Says (t : Trie) (K M : List Seg → Prop) : Prop where
  inv : t.Inv
  known : ∀ q, (t.walk 0 q).isSome ↔ K q
  sub : ∀ q, M q → K q
  marked : ∀ q j, t.walk 0 q = some j → (t.markedAt j = true ↔ M q)

theorem Trie.addFrom_says : ∀ (segs : List Seg) (t : Trie) (cur : Nat) (p0 : List Seg)
    (K M : List Seg → Prop), segs ≠ [] → t.Says K M → t.walk 0 p0 = some cur →
    (t.addFrom cur segs).Says (fun q => K q ∨ q <+: p0 ++ segs) (fun q => M q ∨ q = p0 ++ segs) := by
  intro segs
  induction segs with
  | nil => intro _ _ _ _ _ h; exact absurd rfl h
  | cons s rest ih =>
    intro t cur p0 K M _ hs hw
    have hcur : cur < t.length := by
      by_cases hp : p0 = []
      · subst hp; simp [walk] at hw; have := hs.inv.pos; omega
      · exact ((walk_ge hs.inv hw).2 hp).2
    -- prefixes of `p0 ++ [s]` other than itself are already known
    have hpre : ∀ q, q <+: p0 ++ [s] → q ≠ p0 ++ [s] → (t.walk 0 q).isSome := by
      intro q hq hne
      obtain ⟨r, hr⟩ := hq
      rcases List.eq_nil_or_concat r with rfl | ⟨r, x, rfl⟩
      · simp at hr; exact absurd hr hne
      · rw [List.concat_eq_append, ← List.append_assoc] at hr
        have := (List.append_inj' hr rfl).1
        rw [← this, walk_append] at hw
        cases hq : t.walk 0 q with
        | none => simp [hq] at hw
        | some _ => simp
    -- state after the child exists
    have key : ∃ (t' : Trie) (next : Nat), t'.walk 0 (p0 ++ [s]) = some next ∧ next < t'.length ∧
        t'.Says (fun q => K q ∨ q <+: p0 ++ [s]) M ∧
        t.addFrom cur (s :: rest) =
          if rest.isEmpty then t'.mark next else t'.addFrom next rest := by
      cases hc : t.child cur s with
      | some next =>
        refine ⟨t, next, ?_, (hs.inv.bound _ _ _ hc).2, ?_, by simp [addFrom, hc]⟩
        · rw [walk_snoc, hw]; simp [hc]
        · refine ⟨hs.inv, fun q => ?_, fun q h => Or.inl (hs.sub q h), hs.marked⟩
          constructor
          · intro h; exact Or.inl ((hs.known q).1 h)
          · rintro (h | h)
            · exact (hs.known q).2 h
            · by_cases he : q = p0 ++ [s]
              · rw [he, walk_snoc, hw]; simp [hc]
              · exact hpre q h he
      | none =>
        have hwk := walk_addChild hs.inv hw hcur hc
        refine ⟨t.addChild cur s, t.length, by simp [hwk], by simp [addChild], ?_,
          by simp [addFrom, hc]⟩
        refine ⟨inv_addChild hs.inv hcur, fun q => ?_, fun q h => Or.inl (hs.sub q h),
          fun q j hq => ?_⟩
        · rw [hwk]
          by_cases he : q = p0 ++ [s]
          · simp [he]
          · simp only [he, if_false]
            constructor
            · intro h; exact Or.inl ((hs.known q).1 h)
            · rintro (h | h)
              · exact (hs.known q).2 h
              · exact hpre q h he
        · rw [markedAt_addChild]
          rw [hwk] at hq
          by_cases he : q = p0 ++ [s]
          · subst he
            simp at hq; subst hq
            have h1 : t.markedAt t.length = false := by simp [markedAt]
            have h2 : ¬ M (p0 ++ [s]) := by
              intro hm
              have := (hs.known _).2 (hs.sub _ hm)
              rw [walk_snoc, hw] at this; simp [hc] at this
            simp [h1, h2]
          · simp [he] at hq; exact hs.marked q j hq
    obtain ⟨t', next, hwn, hlt, hs', heq⟩ := key
    rw [heq]
    cases rest with
    | nil =>
      simp only [List.isEmpty_nil, if_true]
      refine ⟨inv_mark hs'.inv _, fun q => by rw [walk_mark]; exact hs'.known q, fun q h => ?_,
        fun q j hq => ?_⟩
      · rcases h with h | h
        · exact hs'.sub q h
        · exact Or.inr (h ▸ List.prefix_refl _)
      · rw [walk_mark] at hq
        rw [markedAt_mark _ _ _ hlt]
        simp only [Bool.or_eq_true, decide_eq_true_eq]
        rw [hs'.marked q j hq]
        constructor
        · rintro (h | h)
          · exact Or.inl h
          · subst h; exact Or.inr (walk_inj hs'.inv _ _ _ hq hwn)
        · rintro (h | h)
          · exact Or.inl h
          · subst h; rw [hwn] at hq; exact Or.inr (by simpa using hq.symm)
    | cons s2 rest =>
      simp only [List.isEmpty_cons, Bool.false_eq_true, if_false]
      have := ih t' next (p0 ++ [s]) _ _ (by simp) hs' hwn
      have e : p0 ++ [s] ++ s2 :: rest = p0 ++ s :: s2 :: rest := by simp
      rw [e] at this
      refine ⟨this.inv, fun q => ?_, fun q h => ?_, this.marked⟩
      · rw [this.known q]
        constructor
        · rintro ((h | h) | h)
          · exact Or.inl h
          · exact Or.inr (h.trans ⟨s2 :: rest, by simp⟩)
          · exact Or.inr h
        · rintro (h | h)
          · exact Or.inl (Or.inl h)
          · exact Or.inr h
      · rcases h with h | h
        · exact Or.inl (hs.sub q h)
        · exact Or.inr (h ▸ List.prefix_refl _)

theorem Trie.says_empty : Trie.Says Trie.empty (fun q => q = []) (fun _ => False) := by
  refine ⟨inv_empty, fun q => ?_, fun q h => h.elim, fun q j h => ?_⟩
  · cases q with
    | nil => simp [walk]
    | cons s q => simp [walk, child, empty, List.lookup]
  · cases q with
    | nil => simp [walk] at h; subst h; simp [markedAt, empty]
    | cons s q => simp [walk, child, empty, List.lookup] at h

theorem Trie.Says.congr {t : Trie} {K M K' M' : List Seg → Prop} (h : t.Says K M)
    (hK : ∀ q, K q ↔ K' q) (hM : ∀ q, M q ↔ M' q) : t.Says K' M' :=
  ⟨h.inv, fun q => (h.known q).trans (hK q), fun q hq => (hK q).1 (h.sub q ((hM q).2 hq)),
    fun q j hq => (h.marked q j hq).trans (hM q)⟩

/-- The trie built from a list of paths knows exactly their prefixes, and marks exactly the
non-empty ones among them. -/
theorem Trie.fromPaths_says (ps : List (List Seg)) :
    (Trie.fromPaths ps).Says (fun q => q = [] ∨ ∃ r ∈ ps, q <+: r) (fun q => q ≠ [] ∧ q ∈ ps) := by
  have gen : ∀ (ps : List (List Seg)) (t : Trie) (K M : List Seg → Prop), t.Says K M → K [] →
      Trie.Says (ps.foldl (fun t p => t.addFrom 0 p) t) (fun q => K q ∨ ∃ r ∈ ps, q <+: r)
        (fun q => M q ∨ (q ≠ [] ∧ q ∈ ps)) := by
    intro ps
    induction ps with
    | nil => intro t K M h _; exact h.congr (by simp) (by simp)
    | cons p ps ih =>
      intro t K M h hK
      simp only [List.foldl_cons]
      by_cases hp : p = []
      · subst hp
        refine (ih _ K M (by simpa [addFrom] using h) hK).congr (fun q => ?_) (fun q => ?_)
        · simp only [List.mem_cons, exists_eq_or_imp, List.prefix_nil]
          constructor
          · rintro (h | h)
            · exact Or.inl h
            · exact Or.inr (Or.inr h)
          · rintro (h | h | h)
            · exact Or.inl h
            · exact Or.inl (h ▸ hK)
            · exact Or.inr h
        · constructor
          · rintro (h | h)
            · exact Or.inl h
            · exact Or.inr ⟨h.1, by simp [h.2]⟩
          · rintro (h | ⟨h1, h2⟩)
            · exact Or.inl h
            · rcases List.mem_cons.1 h2 with h2 | h2
              · exact absurd h2 h1
              · exact Or.inr ⟨h1, h2⟩
      · have := addFrom_says p t 0 [] K M hp h rfl
        simp only [List.nil_append] at this
        refine (ih _ _ _ this (Or.inl hK)).congr (fun q => ?_) (fun q => ?_)
        · simp only [List.mem_cons, exists_eq_or_imp, or_assoc]
        · simp only [List.mem_cons]
          constructor
          · rintro ((h | h) | h)
            · exact Or.inl h
            · exact Or.inr ⟨h ▸ hp, Or.inl h⟩
            · exact Or.inr ⟨h.1, Or.inr h.2⟩
          · rintro (h | ⟨h1, h2 | h2⟩)
            · exact Or.inl (Or.inl h)
            · exact Or.inl (Or.inr h2)
            · exact Or.inr ⟨h1, h2⟩
  exact (gen ps Trie.empty _ _ says_empty rfl).congr (fun q => by simp) (fun q => by simp)

end Verif.Auth
