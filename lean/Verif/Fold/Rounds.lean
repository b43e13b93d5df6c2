import Verif.Fetch.Optimize
import Verif.Fold.Props

/-!
# Rounds of normalizing and folding

Selection sets are normalized and folded as long as folding changes something
(`query_planner/planner/fetch/optimize/mod.rs:35-59`). Each round asks for the same, and rounds that fold something
come to an end.
-/

namespace Verif.Fold

open Verif.Fetch
open Verif.Walker (Cond)

/-! ## Specification -/

mutual
/-- The fragments in an item, at any depth. -/
def fragsI : Sel → Nat
  | .field _ ss => frags ss
  | .frag _ ss => 1 + frags ss
  | .spread _ => 0
/-- The fragments in a selection set, at any depth. -/
def frags : List Sel → Nat
  | [] => 0
  | s :: r => fragsI s + frags r
end

/-- One round, `optimize/mod.rs:45-48`, for the selection set of a type. -/
def round (X : Graph.Super) (S : Schema) (any : Bool) (cur : String) (ss : List Sel) : Option (List Sel) :=
  match normSels X cur ss [] with
  | .error _ => none
  | .ok ss' => rewrite S any cur ss'

/-- Some rounds, one after another. -/
inductive Rounds (X : Graph.Super) (S : Schema) (any : Bool) (cur : String) : List Sel → List Sel → Prop
  | none (ss : List Sel) : Rounds X S any cur ss ss
  | more {a b c : List Sel} : Rounds X S any cur a b → round X S any cur b = some c → Rounds X S any cur a c

/-! ## Proof -/

variable {X : Graph.Super} {S : Schema} {u : String → String → Bool} {v : String → Bool}

mutual
theorem normSel_wants (hx : ∀ t f c, fieldType X t f = some c → S.ret t f = some c) (hv : Covariant S u) :
    ∀ (s : Sel) {cur : String} {y : Sel ⊕ List Sel}, normSel X cur s = .ok y →
    ∀ t x p, S.kind t = some .object → isA S u t cur = true → Path S u t x p →
      (Wants S u v (y.elim (fun z => [z]) id) t x p ↔ WantsI S u v s t x p)
  | .field f ss, cur, y, h => by
    simp only [normSel] at h
    split at h
    · cases h
    next c hc =>
      split at h
      · cases h
      next ss' hs =>
        cases h
        intro t x p ht hcur hp
        simp only [Sum.elim_inl, Wants, or_false]
        match p, hp with
        | [], _ => simp [WantsI]
        | (t', b) :: q, hp =>
          simp only [WantsI]
          obtain ⟨h1, ⟨d, hd, hd'⟩, h3⟩ := hp
          have key : x = ask f → (Wants S u v ss' t' b q ↔ Wants S u v ss t' b q) := by
            rintro rfl
            have hc' := hv t cur f.name d c t' hcur hd (hx _ _ _ hc) hd'
            have := normSels_wants hx hv ss hs t' b q h1 hc' h3
            simpa [Wants] using this
          constructor
          · rintro ⟨a1, a2, a3⟩
            exact ⟨a1, a2, (key a2).1 a3⟩
          · rintro ⟨a1, a2, a3⟩
            exact ⟨a1, a2, (key a2).2 a3⟩
  | .frag g ss, cur, y, h => by
    simp only [normSel] at h
    split at h
    · cases h
    next ss' hs =>
      intro t x p ht hcur hp
      split at h
      next hg =>
        cases h
        simp only [Sum.elim_inr, id, WantsI, hg.1, hg.2, hcur]
        have := normSels_wants hx hv ss hs t x p ht (hg.1 ▸ hcur) hp
        simpa [Wants, on] using this
      next =>
        cases h
        simp only [Sum.elim_inl, Wants, or_false, WantsI]
        constructor
        · rintro ⟨a1, a2, a3⟩
          have := normSels_wants hx hv ss hs t x p ht a2 hp
          exact ⟨a1, a2, by simpa [Wants] using this.1 a3⟩
        · rintro ⟨a1, a2, a3⟩
          have := normSels_wants hx hv ss hs t x p ht a2 hp
          exact ⟨a1, a2, this.2 (.inr a3)⟩
  | .spread _, _, _, h => by simp [normSel] at h
theorem normSels_wants (hx : ∀ t f c, fieldType X t f = some c → S.ret t f = some c) (hv : Covariant S u) :
    ∀ (ss : List Sel) {acc out : List Sel} {cur : String}, normSels X cur ss acc = .ok out →
    ∀ t x p, S.kind t = some .object → isA S u t cur = true → Path S u t x p →
      (Wants S u v out t x p ↔ Wants S u v acc t x p ∨ Wants S u v ss t x p)
  | [], _, _, _, h => by
    simp only [normSels, Except.ok.injEq] at h
    subst h
    intro t x p _ _ _
    simp [Wants]
  | s :: r, acc, out, cur, h => by
    simp only [normSels] at h
    intro t x p ht hcur hp
    split at h
    · cases h
    next y hs =>
      have h1 := normSel_wants hx hv s hs t x p ht hcur hp
      have h2 := normSels_wants hx hv r h t x p ht hcur hp
      rw [h2, wants_append]
      simp only [Sum.elim_inl] at h1
      rw [h1]
      simp only [Wants, or_assoc]
    next ys hs =>
      have h1 := normSel_wants hx hv s hs t x p ht hcur hp
      have h2 := normSels_wants hx hv r h t x p ht hcur hp
      rw [h2, mergeSels_wants]
      simp only [Sum.elim_inr, id] at h1
      rw [h1]
      simp only [Wants]
      tauto
end

theorem frags_append {a b : List Sel} : frags (a ++ b) = frags a + frags b := by
  induction a with
  | nil => simp [frags]
  | cons s r ih => simp [frags, ih, Nat.add_assoc]

theorem frags_place {first : Bool} {r : List Sel × List Sel} : frags (place first r) = frags r.1 + frags r.2 := by
  unfold place
  split <;> rw [frags_append]
  omega

mutual
theorem mergeSel_frags (first : Bool) : ∀ (s : Sel) {ts ts' : List Sel}, mergeSel first s ts = some ts' →
    frags ts' ≤ fragsI s + frags ts
  | .field f ss, ts, ts', h => by
    simp only [mergeSel] at h
    obtain ⟨a, y, b, rfl, hp, rfl⟩ := updateFirst_some h
    match y, hp with
    | .field g us, hp =>
      have := mergeLoop_frags first ss us
      simp only [frags_append, frags, fragsI, onSels, frags_place]
      omega
    | .frag _ _, hp => simp [matches'] at hp
    | .spread _, hp => simp [matches'] at hp
  | .frag f ss, ts, ts', h => by
    simp only [mergeSel] at h
    obtain ⟨a, y, b, rfl, hp, rfl⟩ := updateFirst_some h
    match y, hp with
    | .frag g us, hp =>
      have := mergeLoop_frags first ss us
      simp only [frags_append, frags, fragsI, onSels, frags_place]
      omega
    | .field _ _, hp => simp [matches'] at hp
    | .spread _, hp => simp [matches'] at hp
  | .spread _, _, _, h => by simp [mergeSel] at h
theorem mergeLoop_frags (first : Bool) : ∀ (ss ts : List Sel),
    frags (mergeLoop first ss ts).1 + frags (mergeLoop first ss ts).2 ≤ frags ss + frags ts
  | [], ts => by simp [mergeLoop, frags]
  | s :: r, ts => by
    simp only [mergeLoop]
    split
    next ts' h =>
      have h1 := mergeSel_frags first s h
      have h2 := mergeLoop_frags first r ts'
      simp only [frags]
      omega
    next =>
      have h2 := mergeLoop_frags first r ts
      simp only [frags]
      omega
end

/-- The fragments of branches. -/
def fragsB : List (FragInfo × List Sel) → Nat
  | [] => 0
  | b :: r => 1 + frags b.2 + fragsB r

theorem frags_split : ∀ (ss : List Sel), frags ss = frags (others ss) + fragsB (branches ss)
  | [] => rfl
  | .field _ _ :: r => by simp only [frags, others, branches, fragsI, frags_split r]; omega
  | .spread _ :: r => by simp only [frags, others, branches, fragsI, frags_split r]; omega
  | .frag _ _ :: r => by simp only [frags, others, branches, fragsI, fragsB, frags_split r]; omega

theorem foldInto_frags {i : String} {bs : List (FragInfo × List Sel)} {sub : List Sel} {c : Cond}
    (h : foldInto S i bs = some (sub, c)) : 1 + frags sub < fragsB bs := by
  match bs, h with
  | b :: b' :: r, h =>
    simp only [foldInto] at h
    split at h
    · cases h
      simp only [fragsB]
      omega
    · cases h

theorem foldFrags_frags {any : Bool} {cur : String} {ss : List Sel} :
    foldFrags S any cur ss = ss ∨ frags (foldFrags S any cur ss) < frags ss := by
  unfold foldFrags
  split
  · exact .inl rfl
  next i sub c e =>
    have h := foldInto_frags (tryFold_some e)
    right
    rw [frags_split ss]
    split
    · have := mergeLoop_frags false sub (others ss)
      rw [mergeSels, frags_place]
      omega
    · simp only [frags_append, frags, fragsI]
      omega

mutual
theorem rewriteI_frags {any : Bool} : ∀ (s : Sel) {s' : Sel} {cur : String}, rewriteI S any cur s = some s' →
    s' = s ∨ fragsI s' < fragsI s
  | .field f ss, s', cur, h => by
    simp only [rewriteI] at h
    split at h
    · cases h
    next c hc =>
      obtain ⟨w, hw, rfl⟩ := Option.map_eq_some_iff.1 h
      simp only [fragsI]
      rcases rewriteL_frags ss hw with rfl | h1 <;>
        rcases foldFrags_frags (S := S) (any := any) (cur := c) (ss := w) with h2 | h2
      · left; rw [h2]
      · right; exact h2
      · right; rw [h2]; exact h1
      · right; omega
  | .frag g ss, s', cur, h => by
    simp only [rewriteI] at h
    obtain ⟨w, hw, rfl⟩ := Option.map_eq_some_iff.1 h
    simp only [fragsI]
    rcases rewriteL_frags ss hw with rfl | h1 <;>
      rcases foldFrags_frags (S := S) (any := any) (cur := g.cond) (ss := w) with h2 | h2
    · left; rw [h2]
    · right; omega
    · right; rw [h2]; omega
    · right; omega
  | .spread _, _, _, h => by simp [rewriteI] at h
theorem rewriteL_frags {any : Bool} : ∀ (ss : List Sel) {ss' : List Sel} {cur : String},
    rewriteL S any cur ss = some ss' → ss' = ss ∨ frags ss' < frags ss
  | [], _, _, h => by
    simp only [rewriteL, Option.some.injEq] at h
    exact .inl h.symm
  | s :: r, ss', cur, h => by
    simp only [rewriteL] at h
    split at h
    · cases h
    next s' hs =>
      obtain ⟨w, hw, rfl⟩ := Option.map_eq_some_iff.1 h
      simp only [frags]
      rcases rewriteI_frags s hs with rfl | h1 <;> rcases rewriteL_frags r hw with rfl | h2
      · exact .inl rfl
      · right; omega
      · right; omega
      · right; omega
end

mutual
theorem normSel_frags : ∀ (s : Sel) {cur : String} {y : Sel ⊕ List Sel}, normSel X cur s = .ok y →
    frags (y.elim (fun z => [z]) id) ≤ fragsI s
  | .field f ss, cur, y, h => by
    simp only [normSel] at h
    split at h
    · cases h
    · split at h
      · cases h
      next ss' hs =>
        cases h
        have := normSels_frags ss hs
        simp only [Sum.elim_inl, frags, fragsI] at this ⊢
        omega
  | .frag g ss, cur, y, h => by
    simp only [normSel] at h
    split at h
    · cases h
    next ss' hs =>
      have := normSels_frags ss hs
      split at h
      · cases h
        simp only [Sum.elim_inr, id, frags, fragsI] at this ⊢
        omega
      · cases h
        simp only [Sum.elim_inl, frags, fragsI] at this ⊢
        omega
  | .spread _, _, _, h => by simp [normSel] at h
theorem normSels_frags : ∀ (ss : List Sel) {acc out : List Sel} {cur : String},
    normSels X cur ss acc = .ok out → frags out ≤ frags acc + frags ss
  | [], _, _, _, h => by
    simp only [normSels, Except.ok.injEq] at h
    subst h
    simp [frags]
  | s :: r, acc, out, cur, h => by
    simp only [normSels] at h
    split at h
    · cases h
    next y hs =>
      have h1 := normSel_frags s hs
      have h2 := normSels_frags r h
      simp only [frags_append, Sum.elim_inl, frags] at h1 h2 ⊢
      omega
    next ys hs =>
      have h1 := normSel_frags s hs
      have h2 := normSels_frags r h
      have h3 := mergeLoop_frags false ys acc
      rw [mergeSels, frags_place] at h2
      simp only [Sum.elim_inr, id, frags] at h1 ⊢
      omega
end

/-! ## Theorems -/

/-- Folding changes nothing, or there are fewer fragments after it. -/
theorem C120_ends {any : Bool} {cur : String} {ss ss' : List Sel} (h : rewrite S any cur ss = some ss') :
    ss' = ss ∨ frags ss' < frags ss := by
  obtain ⟨w, hw, rfl⟩ := Option.map_eq_some_iff.1 h
  rcases rewriteL_frags ss hw with rfl | h1 <;>
    rcases foldFrags_frags (S := S) (any := any) (cur := cur) (ss := w) with h2 | h2
  · exact .inl h2
  · exact .inr h2
  · rw [h2]; exact .inr h1
  · right; omega

/-- In a round in which folding changes something, fragments get fewer, and they never get more: there are not more
such rounds than there are fragments. -/
theorem C120_round_ends {any : Bool} {cur : String} {ss ss' n : List Sel} (hn : normSels X cur ss [] = .ok n)
    (h : round X S any cur ss = some ss') : frags ss' ≤ frags ss ∧ (ss' ≠ n → frags ss' < frags ss) := by
  have h1 := normSels_frags ss hn
  simp only [frags, Nat.zero_add] at h1
  simp only [round, hn] at h
  rcases C120_ends h with rfl | h2
  · exact ⟨h1, fun h => absurd rfl h⟩
  · exact ⟨by omega, fun _ => by omega⟩

/-- After any number of rounds, every object is asked for the same fields. -/
theorem C120_rounds (hx : ∀ t f c, fieldType X t f = some c → S.ret t f = some c) (hv : Covariant S u) {any : Bool}
    {cur : String} {ss ss' : List Sel} (h : Rounds X S any cur ss ss') {t : String} (ht : S.kind t = some .object)
    (hcur : isA S u t cur = true) {x : Ask} {p : List (String × Ask)} (hp : Path S u t x p) :
    Wants S u v ss' t x p ↔ Wants S u v ss t x p := by
  induction h with
  | none => rfl
  | more _ hr ih =>
    rw [← ih]
    unfold round at hr
    split at hr
    · cases hr
    next n hn =>
      rw [C120_same hv hr ht hcur hp, normSels_wants hx hv _ hn t x p ht hcur hp]
      simp [Wants]

namespace Case

/-- The supergraph: `Query.media`, and `title` of `Media`, `Book` and `Movie`. -/
def sup : Graph.Super where
  defs := [("Query", { name := "Query", kind := .object, fields := [("media", { typeName := "Media" })] }),
    ("Media", { name := "Media", kind := .interface, fields := [("title", { typeName := "String" })] }),
    ("Book", { name := "Book", kind := .object, fields := [("title", { typeName := "String" })] }),
    ("Movie", { name := "Movie", kind := .object, fields := [("title", { typeName := "String" })] })]
  graphs := []

/-- The schemas together. -/
def both : Schema := { sch with ret := fieldType sup }

example : ∀ t f c, fieldType sup t f = some c → both.ret t f = some c := fun _ _ _ h => h

theorem both_media {t f x : String} (h : both.ret t f = some x) :
    x = "String" ∨ (t = "Query" ∧ f = "media" ∧ x = "Media") := by
  simp only [both, fieldType, sup, Graph.Super.def?, List.lookup] at h
  split at h
  · exact .inl (Option.some.inj h).symm
  · split at h
    · cases h
    next d hd =>
      obtain ⟨a, ha, rfl⟩ := Option.map_eq_some_iff.1 h
      repeat' split at hd
      all_goals first
        | cases hd; simp only [List.lookup] at ha; split at ha <;> simp_all
        | cases hd
      all_goals simp [← ha]

example : Covariant both (fun _ _ => false) := by
  intro t c f x y o h1 h2 h3 h4
  rcases both_media h2 with rfl | ⟨rfl, rfl, rfl⟩
  · simp [isA, both, sch] at h4
  · rcases both_media h3 with rfl | ⟨rfl, -, rfl⟩
    · exfalso
      simp only [isA] at h1
      split at h1
      next hk =>
        simp only [beq_iff_eq] at h1
        subst h1
        revert h3
        simp [both, fieldType, sup, Graph.Super.def?, List.lookup]
      next => simp [Schema.impl, both, sch] at h1
      next => cases h1
      next => cases h1
    · exact h4

/-- `{ media { ... on Media { ... on Book { title } ... on Movie { title } } } }` becomes
`{ media { title } }` in one round. -/
theorem one_round (l : Lit) : round sup both false "Query"
    [.field { name := "media" } [.frag { cond := "Media" }
      [.frag { cond := "Book" } [title l], .frag { cond := "Movie" } [title l]]]] =
    some [.field { name := "media" } [title l]] := by
  have h := semTitle l
  simp only [title] at h
  simp [round, normSels, normSel, fieldType, sup, Graph.Super.def?, List.lookup, both, mergeSels, mergeLoop, mergeSel,
    place, updateFirst, fragCond, matches',
    rewrite, rewriteL, rewriteI, title, sch, foldFrags, tryFold, firstFold, foldInto, branches, others,
    Schema.members, Schema.impl, h, valid, validL, validI, onIfaceL, onIfaceI]

end Case

end Verif.Fold
