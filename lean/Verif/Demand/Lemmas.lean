import Verif.Demand.Spec
/-!
# Formulas evaluate to the cost, up to the greatest machine integer
-/
namespace Verif.Demand

/-- Where the formula has a value, it is the cost, capped. -/
def Rep (S : Schema) (σ : Vars) (e : CostExpr) (v : Nat) : Prop :=
  ∀ n, eval S σ e = .ok n → min n maxU64 = min v maxU64

/-- The formula has a value. -/
def Good (S : Schema) (σ : Vars) (e : CostExpr) : Prop := ∃ n, eval S σ e = .ok n

variable {S : Schema} {σ : Vars}

theorem rep_const (n : Nat) : Rep S σ (.const n) n := by
  intro m h; simp only [eval, Except.ok.injEq] at h; rw [h]

theorem good_const (n : Nat) : Good S σ (.const n) := ⟨n, by simp only [eval]⟩

theorem min_add (a b c d : Nat) (h1 : min a maxU64 = min b maxU64) (h2 : min c maxU64 = min d maxU64) :
    min (a + c) maxU64 = min (b + d) maxU64 := by omega

theorem min_mul (a b c d : Nat) (h1 : min a maxU64 = min b maxU64) (h2 : min c maxU64 = min d maxU64) :
    min (a * c) maxU64 = min (b * d) maxU64 := by
  have hM : 0 < maxU64 := by decide
  rcases Nat.lt_or_ge a maxU64 with ha | ha
  · have hb : b = a := by omega
    subst hb
    rcases Nat.lt_or_ge c maxU64 with hc | hc
    · have hd : d = c := by omega
      rw [hd]
    · have hd : maxU64 ≤ d := by omega
      rcases Nat.eq_zero_or_pos b with h0 | h0
      · rw [h0]; simp only [Nat.zero_mul]
      · have x1 := Nat.mul_le_mul h0 hc
        have x2 := Nat.mul_le_mul h0 hd
        omega
  · have hb : maxU64 ≤ b := by omega
    rcases Nat.eq_zero_or_pos c with h0 | h0
    · have hd : d = 0 := by omega
      rw [h0, hd]; simp only [Nat.mul_zero]
    · have hd : 0 < d := by omega
      have x1 := Nat.mul_le_mul ha h0
      have x2 := Nat.mul_le_mul hb hd
      omega

/-! ## Sums -/

/-- `Rep` for lists, with the sum of the values. -/
inductive RepL (S : Schema) (σ : Vars) : List CostExpr → Nat → Prop where
  | nil : RepL S σ [] 0
  | cons {e : CostExpr} {v : Nat} {l : List CostExpr} {t : Nat} :
      Rep S σ e v → RepL S σ l t → RepL S σ (e :: l) (v + t)

theorem RepL.append {a b : List CostExpr} {x y : Nat} (h : RepL S σ a x) (h' : RepL S σ b y) :
    RepL S σ (a ++ b) (x + y) := by
  induction h with
  | nil => simpa using h'
  | cons h1 _ ih => rw [Nat.add_assoc]; exact .cons h1 ih

theorem RepL.one {e : CostExpr} {v : Nat} (h : Rep S σ e v) : RepL S σ [e] v := .cons h .nil

theorem evalSum_rep {l : List CostExpr} {t : Nat} (h : RepL S σ l t) :
    ∀ {acc n : Nat}, evalSum S σ l acc = .ok n → min n maxU64 = min (acc + t) maxU64 := by
  induction h with
  | nil =>
    intro acc n h
    simp only [evalSum, Except.ok.injEq] at h
    rw [h]; rfl
  | @cons e v l t h1 _ ih =>
    intro acc n h
    simp only [evalSum] at h
    cases he : eval S σ e with
    | error x => rw [he] at h; exact absurd h (fun h => by cases h)
    | ok m =>
      rw [he] at h
      have := ih (acc := satAdd acc m) h
      have h1 := h1 m he
      simp only [satAdd] at this
      omega

theorem constTotal_min (l : List CostExpr) : ∀ a b, min a maxU64 = min b maxU64 →
    min (constTotal l a) maxU64 = min (constTotal l b) maxU64 := by
  induction l with
  | nil => intro a b h; exact h
  | cons e l ih =>
    intro a b h
    cases e <;> simp only [constTotal] <;> apply ih <;> try exact h
    simp only [satAdd]; omega

theorem constTotal_split {l : List CostExpr} {t : Nat} (h : RepL S σ l t) :
    ∀ acc, ∃ u, RepL S σ (nonConst l) u ∧ min (u + constTotal l acc) maxU64 = min (acc + t) maxU64 := by
  induction h with
  | nil => intro acc; exact ⟨0, .nil, by simp only [constTotal]; omega⟩
  | @cons e v l t h1 _ ih =>
    intro acc
    cases e with
    | const n =>
      obtain ⟨u, hu, e⟩ := ih (satAdd acc n)
      have := h1 n (by simp only [eval])
      refine ⟨u, hu, ?_⟩
      simp only [constTotal, satAdd] at e ⊢
      omega
    | _ =>
      obtain ⟨u, hu, e⟩ := ih acc
      refine ⟨v + u, .cons h1 hu, ?_⟩
      simp only [constTotal] at e ⊢
      omega

theorem rep_congr {e : CostExpr} {v w : Nat} (h : Rep S σ e v) (hv : min v maxU64 = min w maxU64) :
    Rep S σ e w := fun n hn => (h n hn).trans hv

theorem addNonzero_rep {l : List CostExpr} {t : Nat} (h : RepL S σ l t) :
    Rep S σ (addNonzero l) t := by
  obtain ⟨u, hu, e⟩ := constTotal_split h 0
  have key : ∃ w, RepL S σ (nonConst l ++ (if constTotal l 0 > 0 then [.const (constTotal l 0)] else [])) w
      ∧ min w maxU64 = min t maxU64 := by
    split
    · exact ⟨_, hu.append (.one (rep_const _)), by omega⟩
    · exact ⟨u, by simpa using hu, by omega⟩
  obtain ⟨w, hw, e'⟩ := key
  refine rep_congr ?_ e'
  unfold addNonzero
  generalize nonConst l ++ _ = fs at hw ⊢
  cases hw with
  | nil => exact rep_const 0
  | @cons a v l t h1 h2 =>
    cases h2 with
    | nil => simpa using h1
    | @cons b v' l' t' h3 h4 =>
      intro n hn
      simp only [eval] at hn
      have := evalSum_rep (.cons h1 (.cons h3 h4)) hn
      omega

theorem evalSum_good {l : List CostExpr} (h : ∀ e ∈ l, Good S σ e) :
    ∀ acc, ∃ n, evalSum S σ l acc = .ok n := by
  induction l with
  | nil => intro acc; exact ⟨acc, by simp only [evalSum]⟩
  | cons e l ih =>
    intro acc
    obtain ⟨n, hn⟩ := h e (List.mem_cons_self ..)
    obtain ⟨m, hm⟩ := ih (fun x hx => h x (List.mem_cons_of_mem _ hx)) (satAdd acc n)
    exact ⟨m, by simp only [evalSum, hn]; exact hm⟩

theorem mem_nonConst {l : List CostExpr} {e : CostExpr} (h : e ∈ nonConst l) : e ∈ l := by
  induction l with
  | nil => exact h
  | cons x l ih =>
    cases x with
    | const n => exact List.mem_cons_of_mem _ (ih h)
    | _ =>
      simp only [nonConst, List.mem_cons] at h
      rcases h with h | h
      · exact h ▸ List.mem_cons_self ..
      · exact List.mem_cons_of_mem _ (ih h)

theorem addNonzero_good {l : List CostExpr} (h : ∀ e ∈ l, Good S σ e) : Good S σ (addNonzero l) := by
  have key : ∀ e ∈ nonConst l ++ (if constTotal l 0 > 0 then [.const (constTotal l 0)] else []),
      Good S σ e := by
    intro e he
    rw [List.mem_append] at he
    rcases he with he | he
    · exact h e (mem_nonConst he)
    · split at he
      · rw [List.mem_singleton] at he; exact he ▸ good_const _
      · exact absurd he (List.not_mem_nil)
  unfold addNonzero
  generalize nonConst l ++ _ = fs at key ⊢
  match fs, key with
  | [], _ => exact good_const 0
  | [e], key => exact key e (List.mem_cons_self ..)
  | a :: b :: r, key =>
    obtain ⟨n, hn⟩ := evalSum_good key 0
    exact ⟨n, by simp only [eval]; exact hn⟩

/-! ## Products -/

theorem rep_const_iff {n v : Nat} (h : Rep S σ (.const n) v) : min n maxU64 = min v maxU64 :=
  h n (by simp only [eval])

theorem rep_mul {a b : CostExpr} {x y : Nat} (ha : Rep S σ a x) (hb : Rep S σ b y) :
    Rep S σ (.mul a b) (x * y) := by
  intro n hn
  simp only [eval] at hn
  cases hea : eval S σ a with
  | error e => rw [hea] at hn; exact absurd hn (fun h => by cases h)
  | ok p =>
    cases heb : eval S σ b with
    | error e => rw [hea, heb] at hn; exact absurd hn (fun h => by cases h)
    | ok q =>
      rw [hea, heb] at hn
      have hn : Except.ok (satMul p q) = (Except.ok n : Except SlicingError Nat) := hn
      simp only [Except.ok.injEq, satMul] at hn
      have := min_mul p x q y (ha p hea) (hb q heb)
      omega

theorem maxU64_big : 1 < maxU64 := by decide

theorem mulExpr_rep {a b : CostExpr} {x y : Nat} (ha : Rep S σ a x) (hb : Rep S σ b y) :
    Rep S σ (mulExpr a b) (x * y) := by
  have hM := maxU64_big
  unfold mulExpr
  split
  · have := rep_const_iff ha
    have : x = 0 := by omega
    subst this; rw [Nat.zero_mul]; exact rep_const 0
  · have := rep_const_iff hb
    have : y = 0 := by omega
    subst this; rw [Nat.mul_zero]; exact rep_const 0
  · have := rep_const_iff ha
    have : x = 1 := by omega
    subst this; rw [Nat.one_mul]; exact hb
  · have := rep_const_iff hb
    have : y = 1 := by omega
    subst this; rw [Nat.mul_one]; exact ha
  · next m n _ _ _ _ =>
    intro p hp
    simp only [eval, Except.ok.injEq, satMul] at hp
    have := min_mul m x n y (rep_const_iff ha) (rep_const_iff hb)
    omega
  · exact rep_mul ha hb

theorem mulExpr_good {a b : CostExpr} (ha : Good S σ a) (hb : Good S σ b) :
    Good S σ (mulExpr a b) := by
  unfold mulExpr
  split
  · exact good_const 0
  · exact good_const 0
  · exact hb
  · exact ha
  · exact good_const _
  · obtain ⟨p, hp⟩ := ha
    obtain ⟨q, hq⟩ := hb
    exact ⟨satMul p q, by simp only [eval, hp, hq]; rfl⟩

/-! ## Conditions -/

theorem applyConditions_eval (si ii : Option Name) (e : CostExpr) :
    eval S σ (applyConditions si ii e) = if included σ si ii = true then eval S σ e else .ok 0 := by
  have h0 : eval S σ (.const 0) = .ok 0 := by simp only [eval]
  unfold included applyConditions
  cases si with
  | none =>
    cases ii with
    | none => rfl
    | some w => cases hw : varTrue σ w <;> simp [eval, hw, h0]
  | some v =>
    cases ii with
    | none => cases hv : varTrue σ v <;> simp [eval, hv, h0]
    | some w => cases hv : varTrue σ v <;> cases hw : varTrue σ w <;> simp [eval, hv, hw, h0]

theorem applyConditions_rep {si ii : Option Name} {e : CostExpr} {v : Nat}
    (h : included σ si ii = true → Rep S σ e v) :
    Rep S σ (applyConditions si ii e) (if included σ si ii = false then 0 else v) := by
  intro n hn
  rw [applyConditions_eval] at hn
  cases hi : included σ si ii with
  | true => rw [hi] at hn; simpa using h hi n (by simpa using hn)
  | false => rw [hi] at hn; have : 0 = n := by simpa using hn
             rw [← this]; simp

theorem applyConditions_good {si ii : Option Name} {e : CostExpr}
    (h : included σ si ii = true → Good S σ e) : Good S σ (applyConditions si ii e) := by
  unfold Good
  rw [applyConditions_eval]
  cases hi : included σ si ii with
  | true => obtain ⟨n, hn⟩ := h hi; exact ⟨n, by simpa using hn⟩
  | false => exact ⟨0, by simp⟩

/-! ## Input values -/

theorem weight_eq (c : Option UInt64) : weight c 0 = weightOf c := by cases c <;> rfl

theorem typeCost_eq (S : Schema) (n : Name) : typeCost S n = costOfType S n := by
  unfold typeCost costOfType
  cases S.defs.lookup n with
  | none => rfl
  | some d => cases d <;> first | rfl | (next c _ => cases c <;> rfl) | (next c => cases c <;> rfl)

theorem wrapAdd_eq {a b : Nat} (h : a + b ≤ maxU64) : wrapAdd a b = a + b := by
  unfold wrapAdd; exact Nat.mod_eq_of_lt (by omega)

theorem satAdd_eq {a b : Nat} (h : a + b ≤ maxU64) : satAdd a b = a + b := by
  unfold satAdd; omega

mutual
theorem jsonCost_eq (S : Schema) : ∀ (j : Json) (t : TypeNode), costOfJson S j t ≤ maxU64 →
    jsonCost S j t = costOfJson S j t
  | .null, _, _ => by simp only [jsonCost, costOfJson]
  | .bool _, _, _ => by simp only [jsonCost, costOfJson]
  | .int _, _, _ => by simp only [jsonCost, costOfJson]
  | .other, _, _ => by simp only [jsonCost, costOfJson]
  | .arr l, t, h => by
    simp only [jsonCost, costOfJson, itemType] at h ⊢
    cases ht : t.unwrapNonNull with
    | list i => simp only [ht] at h ⊢; exact jsonItems_eq S l i h
    | _ => rfl
  | .obj fs, t, h => by
    simp only [jsonCost, costOfJson, inputFieldsOf] at h ⊢
    cases ht : t.unwrapNonNull with
    | named n =>
      simp only [ht, inputDef] at h ⊢
      cases hd : S.defs.lookup n with
      | none => rfl
      | some d =>
        cases d with
        | input ds =>
          simp only [hd] at h ⊢
          rw [jsonFields_eq S fs ds (by omega), satAdd_eq h]
        | _ => rfl
    | _ => rfl
theorem jsonItems_eq (S : Schema) : ∀ (l : List Json) (t : TypeNode), costOfJsons S l t ≤ maxU64 →
    jsonItems S l t = costOfJsons S l t
  | [], _, _ => by simp only [jsonItems, costOfJsons]
  | x :: r, t, h => by
    simp only [jsonItems, costOfJsons] at h ⊢
    rw [jsonCost_eq S x t (by omega), jsonItems_eq S r t (by omega), wrapAdd_eq h]
theorem jsonFields_eq (S : Schema) : ∀ (fs : List (Name × Json)) (ds : List (Name × InputField)),
    costOfJsonFields S fs ds ≤ maxU64 → jsonFields S fs ds = costOfJsonFields S fs ds
  | [], _, _ => by simp only [jsonFields, costOfJsonFields]
  | (k, v) :: r, ds, h => by
    simp only [jsonFields, costOfJsonFields] at h ⊢
    cases hd : ds.lookup k with
    | none =>
      simp only [hd] at h ⊢
      rw [jsonFields_eq S r ds (by omega)]; omega
    | some d =>
      simp only [hd] at h ⊢
      have h : weightOf d.cost + costOfJson S v d.ty + costOfJsonFields S r ds ≤ maxU64 := h
      rw [jsonCost_eq S v d.ty (by omega), weight_eq, jsonFields_eq S r ds (by omega),
        satAdd_eq (by omega), wrapAdd_eq h]
end

mutual
theorem valueCost_eq (S : Schema) (σ : Vars) : ∀ (v : Value) (t : TypeNode),
    costOfValue S σ v t ≤ maxU64 → valueCost S σ v t = costOfValue S σ v t
  | .var n, t, h => by
    simp only [valueCost, costOfValue] at h ⊢
    cases hn : σ.lookup n with
    | none => rfl
    | some j => simp only [hn] at h ⊢; exact jsonCost_eq S j t h
  | .int _, _, _ => by simp only [valueCost, costOfValue]
  | .other, _, _ => by simp only [valueCost, costOfValue]
  | .list l, t, h => by
    simp only [valueCost, costOfValue, itemType] at h ⊢
    cases ht : t.unwrapNonNull with
    | list i => simp only [ht] at h ⊢; exact valueItems_eq S σ l i h
    | _ => rfl
  | .obj fs, t, h => by
    simp only [valueCost, costOfValue, inputFieldsOf] at h ⊢
    cases ht : t.unwrapNonNull with
    | named n =>
      simp only [ht, inputDef] at h ⊢
      cases hd : S.defs.lookup n with
      | none => rfl
      | some d =>
        cases d with
        | input ds =>
          simp only [hd] at h ⊢
          rw [valueFields_eq S σ fs ds (by omega), satAdd_eq h]
        | _ => rfl
    | _ => rfl
theorem valueItems_eq (S : Schema) (σ : Vars) : ∀ (l : List Value) (t : TypeNode),
    costOfValues S σ l t ≤ maxU64 → valueItems S σ l t = costOfValues S σ l t
  | [], _, _ => by simp only [valueItems, costOfValues]
  | x :: r, t, h => by
    simp only [valueItems, costOfValues] at h ⊢
    rw [valueCost_eq S σ x t (by omega), valueItems_eq S σ r t (by omega), wrapAdd_eq h]
theorem valueFields_eq (S : Schema) (σ : Vars) :
    ∀ (fs : List (Name × Value)) (ds : List (Name × InputField)),
    costOfValueFields S σ fs ds ≤ maxU64 → valueFields S σ fs ds = costOfValueFields S σ fs ds
  | [], _, _ => by simp only [valueFields, costOfValueFields]
  | (k, v) :: r, ds, h => by
    simp only [valueFields, costOfValueFields] at h ⊢
    cases hd : ds.lookup k with
    | none =>
      simp only [hd] at h ⊢
      rw [valueFields_eq S σ r ds (by omega)]; omega
    | some d =>
      simp only [hd] at h ⊢
      have h : weightOf d.cost + costOfValue S σ v d.ty + costOfValueFields S σ r ds ≤ maxU64 := h
      rw [valueCost_eq S σ v d.ty (by omega), weight_eq, valueFields_eq S σ r ds (by omega),
        satAdd_eq (by omega), wrapAdd_eq h]
end

/-! ## Sizes -/

theorem jsonInt_eq (j : Json) : jsonInt j = sizeOfJson j := by
  cases j <;> try rfl
  next i =>
    simp only [jsonInt, sizeOfJson]
    by_cases h1 : 0 ≤ i ∧ i ≤ (maxU64 : Int)
    · rw [if_pos h1, if_neg (by omega)]
    · rw [if_neg h1]
      by_cases h2 : -9223372036854775808 ≤ i ∧ i < 0
      · rw [if_pos h2, if_neg (by have := maxU64_big; omega)]
        congr 1; omega
      · rw [if_neg h2, if_pos (by omega)]

theorem resolveJson_eq : ∀ (p : List Name) (j : Json), resolveJson p j = (jsonAt p j).bind sizeOfJson
  | [], j => by simp only [resolveJson, jsonAt, Option.bind_some, jsonInt_eq]
  | k :: p, .obj fs => by
    simp only [resolveJson, jsonAt, fieldOfJson]
    cases fs.lookup k with
    | none => rfl
    | some v => exact resolveJson_eq p v
  | _ :: _, .null => rfl
  | _ :: _, .bool _ => rfl
  | _ :: _, .int _ => rfl
  | _ :: _, .arr _ => rfl
  | _ :: _, .other => rfl

theorem resolveInt_eq (σ : Vars) : ∀ (p : List Name) (v : Value), resolveInt σ p v = askedSize σ p v
  | p, .var n => by
    cases p <;> simp only [resolveInt, askedSize] <;>
    · cases σ.lookup n with
      | none => rfl
      | some j => exact resolveJson_eq _ j
  | [], .int _ => rfl
  | [], .list _ => rfl
  | [], .obj _ => rfl
  | [], .other => rfl
  | _ :: _, .int _ => rfl
  | _ :: _, .list _ => rfl
  | _ :: _, .other => rfl
  | k :: p, .obj fs => by
    simp only [resolveInt, askedSize]
    cases fs.lookup k with
    | none => rfl
    | some v => exact resolveInt_eq σ p v

theorem resolved_eq (σ : Vars) (segs : List (Name × List Name)) (args : List (Name × Value)) :
    resolvedSizes σ (slicingArgs segs args) = segs.filterMap (sizeAt σ args) := by
  unfold resolvedSizes slicingArgs
  rw [List.filterMap_filterMap]
  congr 1
  funext s
  simp only [sizeAt]
  cases args.lookup s.1 with
  | none => rfl
  | some v => simp [resolveInt_eq]

theorem listSize_rep (ls : ListSize) (f : Name) (args : List (Name × Value)) (dl : UInt64) :
    Rep S σ (listSizeExpr ls f args dl) (sizeOfList σ dl ls args) := by
  unfold listSizeExpr sizeOfList
  cases ls.assumed with
  | some n => exact rep_const _
  | none =>
    cases ls.slicing with
    | none => exact rep_const _
    | some segs =>
      simp only
      split
      · next h =>
        have : slicingArgs segs args = [] := by simp at h; exact h.2
        have hr := resolved_eq σ segs args
        rw [this] at hr
        rw [← hr]
        exact rep_const _
      · intro n hn
        simp only [eval, resolved_eq] at hn
        split at hn
        · split at hn
          · next h => rw [h]; simp only [Except.ok.injEq] at hn; simp [hn]
          · exact absurd hn (fun h => by cases h)
        · simp only [Except.ok.injEq] at hn
          cases hl : segs.filterMap (sizeAt σ args) with
          | nil => rw [hl] at hn; simp only [maxOf, Option.getD_none] at hn; rw [hn]
          | cons a r => rw [hl] at hn; simp only [maxOf, Option.getD_some] at hn; rw [← hn]

theorem listSize_good {ls : ListSize} {f : Name} {args : List (Name × Value)} {dl : UInt64}
    (h : sliceOk σ ls args) : Good S σ (listSizeExpr ls f args dl) := by
  unfold listSizeExpr
  cases ha : ls.assumed with
  | some n => exact good_const _
  | none =>
    cases hs : ls.slicing with
    | none => exact good_const _
    | some segs =>
      simp only
      split
      · exact good_const _
      · cases h1 : ls.requireOne with
        | true =>
          have := h ha h1 segs hs
          refine Exists.imp (fun n (hn : segs.filterMap (sizeAt σ args) = [n]) => ?_) (List.length_eq_one_iff.1 this)
          simp only [eval, resolved_eq, hn, if_true]
        | false => exact ⟨_, by simp only [eval, Bool.false_eq_true, if_false]; rfl⟩

/-! ## Fields -/

/-- Overrides stand for sizes. -/
inductive OvRep (S : Schema) (σ : Vars) : Overrides → Sizes → Prop where
  | nil : OvRep S σ [] []
  | cons {p : List Name} {e : CostExpr} {v : Nat} {l : Overrides} {r : Sizes} :
      Rep S σ e v → OvRep S σ l r → OvRep S σ ((p, e) :: l) ((p, v) :: r)

theorem OvRep.append {a b : Overrides} {x y : Sizes} (h : OvRep S σ a x) (h' : OvRep S σ b y) :
    OvRep S σ (a ++ b) (x ++ y) := by
  induction h with
  | nil => simpa using h'
  | cons h1 _ ih => exact .cons h1 ih

theorem ovRep_map (e : CostExpr) (v : Nat) (h : Rep S σ e v) (ps : List (List Name)) :
    OvRep S σ (ps.map (fun p => (p, e))) (ps.map (fun p => (p, v))) := by
  induction ps with
  | nil => exact .nil
  | cons p ps ih => exact .cons h ih

theorem OvRep.child {a : Overrides} {x : Sizes} (h : OvRep S σ a x) (n : Name) :
    OvRep S σ (childOverrides a n) (sizesBelow x n) := by
  induction h with
  | nil => exact .nil
  | @cons p e v l r h1 _ ih =>
    unfold childOverrides sizesBelow at *
    match p with
    | [] => simpa using ih
    | [_] => simpa using ih
    | h :: t :: q =>
      by_cases hn : h = n
      · simp only [List.filterMap_cons, hn, beq_self_eq_true, if_true]; exact .cons h1 ih
      · have hb : (h == n) = false := beq_eq_false_iff_ne.2 hn
        simp only [List.filterMap_cons, hb, hn, if_false, Bool.false_eq_true]; exact ih

theorem OvRep.here {a : Overrides} {x : Sizes} (h : OvRep S σ a x) (n : Name) :
    (selfOverride a n = none ∧ sizeHere x n = none) ∨
    ∃ e v, selfOverride a n = some e ∧ sizeHere x n = some v ∧ Rep S σ e v := by
  induction h with
  | nil => exact .inl ⟨rfl, rfl⟩
  | @cons p e v l r h1 _ ih =>
    unfold selfOverride sizeHere at *
    by_cases hp : p = [n]
    · right; exact ⟨e, v, by simp [hp], by simp [hp], h1⟩
    · have h1 : (p == [n]) = false := by simpa using hp
      have h2 : ([n] == p) = false := beq_eq_false_iff_ne.2 (Ne.symm hp)
      simpa only [List.find?_cons, h1, List.lookup_cons, h2] using ih

theorem baseCost_min (d : FieldDef) (args : List (Name × Value)) : ∀ a b,
    min a maxU64 = min b maxU64 → min (baseCost d args a) maxU64 = min (baseCost d args b) maxU64 := by
  induction args with
  | nil => intro a b h; exact h
  | cons x r ih =>
    obtain ⟨k, v⟩ := x
    intro a b h
    simp only [baseCost]
    cases d.argCosts.lookup k with
    | none => exact ih a b h
    | some w => exact ih _ _ (by simp only [satAdd]; omega)

theorem isInput_cases (S : Schema) (t : TypeNode) :
    (∃ fs, S.defs.lookup t.inner = some (.input fs) ∧ isInput S t = true) ∨
    ((∀ fs, S.defs.lookup t.inner ≠ some (.input fs)) ∧ isInput S t = false) := by
  unfold isInput inputDef
  split
  · next fs h => exact .inl ⟨fs, h, rfl⟩
  · next h => exact .inr ⟨h, rfl⟩

theorem base_rep (d : FieldDef) : ∀ {args : List (Name × Value)}, argsFit S σ d args → ∀ acc,
    ∃ u, RepL S σ (inputParts S d args) u ∧
      min (baseCost d args acc + u) maxU64 = min (acc + costOfArgs S σ d args) maxU64
  | [], _, acc => ⟨0, .nil, by simp only [baseCost, costOfArgs]⟩
  | (k, v) :: r, hf, acc => by
    have hfr : argsFit S σ d r := fun k v t h => hf k v t (List.mem_cons_of_mem _ h)
    have hbase : baseCost d ((k, v) :: r) acc = baseCost d r acc ∧ weightOf (d.argCosts.lookup k) = 0 ∨
        ∃ w, baseCost d ((k, v) :: r) acc = baseCost d r (satAdd acc w) ∧
          weightOf (d.argCosts.lookup k) = w := by
      simp only [baseCost]
      cases d.argCosts.lookup k with
      | none => exact .inl ⟨rfl, rfl⟩
      | some w => exact .inr ⟨_, rfl, rfl⟩
    have hin : ∃ x, costOfArgs S σ d ((k, v) :: r) =
          weightOf (d.argCosts.lookup k) + x + costOfArgs S σ d r ∧
        ∀ u, RepL S σ (inputParts S d r) u → RepL S σ (inputParts S d ((k, v) :: r)) (x + u) := by
      simp only [costOfArgs, inputParts]
      cases ht : d.argTypes.lookup k with
      | none => exact ⟨0, rfl, fun u hu => by simpa using hu⟩
      | some t =>
        simp only
        rcases isInput_cases S t with ⟨fs, h1, h2⟩ | ⟨h1, h2⟩
        · refine ⟨costOfValue S σ v t, by rw [h1], fun u hu => ?_⟩
          rw [h2, if_pos rfl]
          refine .cons ?_ hu
          intro n hn
          simp only [eval, Except.ok.injEq] at hn
          rw [← hn, valueCost_eq S σ v t (hf k v t (List.mem_cons_self ..) ht)]
        · refine ⟨0, ?_, fun u hu => by rw [h2]; simpa using hu⟩
          split
          · next h => exact absurd h (h1 _)
          · rfl
    obtain ⟨x, hx, hin⟩ := hin
    rw [hx]
    rcases hbase with ⟨hb, hw⟩ | ⟨w, hb, hw⟩
    · obtain ⟨u, hu, e⟩ := base_rep d hfr acc
      refine ⟨x + u, hin u hu, ?_⟩
      rw [hb, hw]; omega
    · obtain ⟨u, hu, e⟩ := base_rep d hfr (satAdd acc w)
      refine ⟨x + u, hin u hu, ?_⟩
      rw [hb, hw]; simp only [satAdd] at e ⊢; omega

theorem perItem_rep {tc : Nat} {c : CostExpr} {v : Nat} (h : Rep S σ c v) :
    RepL S σ (perItem tc c) (tc + v) := by
  unfold perItem
  refine RepL.append ?_ ?_
  · split
    · exact .one (rep_const _)
    · have : tc = 0 := by omega
      exact this ▸ .nil
  · split
    · next hz =>
      have : v = 0 := by
        unfold CostExpr.isZero at hz
        split at hz
        · have := rep_const_iff h
          have := maxU64_big
          omega
        · exact absurd hz (by decide)
      exact this ▸ .nil
    · exact .one h

theorem perItem_good {tc : Nat} {c : CostExpr} (h : Good S σ c) : ∀ e ∈ perItem tc c, Good S σ e := by
  intro e he
  unfold perItem at he
  rw [List.mem_append] at he
  rcases he with he | he
  · split at he
    · rw [List.mem_singleton] at he; exact he ▸ good_const _
    · exact absurd he List.not_mem_nil
  · split at he
    · exact absurd he List.not_mem_nil
    · rw [List.mem_singleton] at he; exact he ▸ h

theorem fieldExpr_rep {i : FieldInfo} {b m tc v : Nat} {c : CostExpr} (hb : RepL S σ i.base b)
    (hm : (i.size = none ∧ m = 1) ∨ ∃ e, i.size = some e ∧ Rep S σ e m) (hc : Rep S σ c v) :
    Rep S σ (fieldExpr i tc c) (b + m * (tc + v)) := by
  unfold fieldExpr
  rcases hm with ⟨h, h1⟩ | ⟨e, h, h1⟩
  · rw [h, h1, Nat.one_mul]
    exact addNonzero_rep (hb.append (perItem_rep hc))
  · rw [h]
    have := addNonzero_rep
      (.cons (addNonzero_rep hb) (.one (mulExpr_rep h1 (addNonzero_rep (perItem_rep (tc := tc) hc)))))
    exact this

theorem fieldExpr_good {i : FieldInfo} {tc : Nat} {c : CostExpr} (hb : ∀ e ∈ i.base, Good S σ e)
    (hm : ∀ e, i.size = some e → Good S σ e) (hc : Good S σ c) : Good S σ (fieldExpr i tc c) := by
  unfold fieldExpr
  split
  · next e h =>
    apply addNonzero_good
    intro x hx
    simp only [List.mem_cons, List.not_mem_nil, or_false] at hx
    rcases hx with rfl | rfl
    · exact addNonzero_good hb
    · exact mulExpr_good (hm e h) (addNonzero_good (perItem_good hc))
  · apply addNonzero_good
    intro x hx
    rw [List.mem_append] at hx
    exact hx.elim (hb x) (perItem_good hc x)

/-- What `fieldInfo` knows of a defined field. -/
theorem fieldInfo_some {dl : UInt64} {P n : Name} {args : List (Name × Value)} {d : FieldDef}
    {inh : Overrides} {sz : Sizes} (hd : fieldDef S P n = some d) (hf : argsFit S σ d args)
    (ho : OvRep S σ inh sz) :
    let i := fieldInfo S dl P n args (selfOverride inh n) (childOverrides inh n)
    i.ret = d.ty.inner ∧ OvRep S σ i.inh (sizesFor σ dl n args sz d) ∧
    (∃ b, RepL S σ i.base b ∧
      min b maxU64 = min (weightOf d.cost + costOfArgs S σ d args) maxU64) ∧
    ((i.size = none ∧ multiplier σ dl n args sz d = 1) ∨
      ∃ e, i.size = some e ∧ Rep S σ e (multiplier σ dl n args sz d)) := by
  intro i
  have hi : i = fieldInfo S dl P n args (selfOverride inh n) (childOverrides inh n) := rfl
  have hbase : ∃ b, RepL S σ ((if baseCost d args (weight d.cost 0) > 0 then
        [CostExpr.const (baseCost d args (weight d.cost 0))] else []) ++ inputParts S d args) b ∧
      min b maxU64 = min (weightOf d.cost + costOfArgs S σ d args) maxU64 := by
    obtain ⟨u, hu, e⟩ := base_rep (S := S) (σ := σ) d hf (weight d.cost 0)
    rw [weight_eq] at *
    split
    · exact ⟨_, (RepL.one (rep_const _)).append hu, e⟩
    · exact ⟨u, by simpa using hu, by omega⟩
  have hls := fun ls => listSize_rep (S := S) (σ := σ) ls n args dl
  simp only [fieldInfo, hd] at hi
  rw [hi]
  refine ⟨rfl, ?_, hbase, ?_⟩
  · unfold sizesFor
    cases hl : d.listSize with
    | none => simpa using ho.child n
    | some ls =>
      simp only
      cases hs : ls.sized with
      | none => simpa using ho.child n
      | some ps => exact (ho.child n).append (ovRep_map _ _ (hls ls) ps)
  · unfold multiplier
    rcases ho.here n with ⟨h1, h2⟩ | ⟨e, v, h1, h2, h3⟩
    · rw [h1, h2]
      cases hl : d.listSize with
      | none =>
        cases d.ty.isList with
        | true => exact .inr ⟨_, rfl, rep_const _⟩
        | false => exact .inl ⟨rfl, rfl⟩
      | some ls =>
        simp only
        cases hs : ls.sized with
        | none =>
          cases d.ty.isList with
          | true => exact .inr ⟨_, rfl, hls ls⟩
          | false => exact .inl ⟨rfl, rfl⟩
        | some ps =>
          cases d.ty.isList with
          | true => exact .inr ⟨_, rfl, rep_const _⟩
          | false => exact .inl ⟨rfl, rfl⟩
    · rw [h1, h2]
      right
      refine ⟨e, ?_, h3⟩
      cases hl : d.listSize with
      | none => cases d.ty.isList <;> rfl
      | some ls => cases hs : ls.sized <;> cases d.ty.isList <;> simp [hs]

theorem fieldInfo_none {dl : UInt64} {P n : Name} {args : List (Name × Value)} {own : Option CostExpr}
    {inh : Overrides} (hd : fieldDef S P n = none) :
    fieldInfo S dl P n args own inh = ⟨[], own, P, inh⟩ := by
  simp only [fieldInfo, hd]

/-- Everything in the overrides has a value. -/
def OvGood (S : Schema) (σ : Vars) (inh : Overrides) : Prop := ∀ o ∈ inh, Good S σ o.2

theorem OvGood.child {inh : Overrides} (h : OvGood S σ inh) (n : Name) :
    OvGood S σ (childOverrides inh n) := by
  intro o ho
  simp only [childOverrides, List.mem_filterMap] at ho
  obtain ⟨⟨p, e⟩, hm, he⟩ := ho
  match p with
  | [] => exact absurd he (fun h => by cases h)
  | [_] => exact absurd he (fun h => by cases h)
  | a :: t :: q =>
    simp only at he
    split at he
    · rw [← Option.some.inj he]; exact h (a :: t :: q, e) hm
    · exact absurd he (fun h => by cases h)

theorem OvGood.own {inh : Overrides} (h : OvGood S σ inh) {n : Name} {e : CostExpr}
    (he : selfOverride inh n = some e) : Good S σ e := by
  simp only [selfOverride, Option.map_eq_some_iff] at he
  obtain ⟨o, ho, rfl⟩ := he
  exact h o (List.mem_of_find?_eq_some ho)

theorem inputParts_good (d : FieldDef) : ∀ (args : List (Name × Value)),
    ∀ e ∈ inputParts S d args, Good S σ e
  | [], e, h => absurd h List.not_mem_nil
  | (k, v) :: r, e, h => by
    simp only [inputParts] at h
    split at h
    · split at h
      · rw [List.mem_cons] at h
        rcases h with rfl | h
        · exact ⟨_, by simp only [eval]; rfl⟩
        · exact inputParts_good d r e h
      · exact inputParts_good d r e h
    · exact inputParts_good d r e h

theorem fieldInfo_good {dl : UInt64} {P n : Name} {args : List (Name × Value)}
    {inh : Overrides} (ho : OvGood S σ inh)
    (hs : ∀ d ls, fieldDef S P n = some d → d.listSize = some ls → sliceOk σ ls args) :
    let i := fieldInfo S dl P n args (selfOverride inh n) (childOverrides inh n)
    OvGood S σ i.inh ∧ (∀ e ∈ i.base, Good S σ e) ∧ (∀ e, i.size = some e → Good S σ e) := by
  intro i
  have hi : i = fieldInfo S dl P n args (selfOverride inh n) (childOverrides inh n) := rfl
  cases hd : fieldDef S P n with
  | none =>
    rw [fieldInfo_none hd] at hi
    rw [hi]
    exact ⟨ho.child n, fun e he => absurd he List.not_mem_nil, fun e he => ho.own he⟩
  | some d =>
    simp only [fieldInfo, hd] at hi
    have hbase : ∀ e ∈ (if baseCost d args (weight d.cost 0) > 0 then
        [CostExpr.const (baseCost d args (weight d.cost 0))] else []) ++ inputParts S d args,
        Good S σ e := by
      intro e he
      rw [List.mem_append] at he
      rcases he with he | he
      · split at he
        · rw [List.mem_singleton] at he; exact he ▸ good_const _
        · exact absurd he List.not_mem_nil
      · exact inputParts_good d args e he
    have hls : ∀ ls, d.listSize = some ls → Good S σ (listSizeExpr ls n args dl) :=
      fun ls h => listSize_good (hs d ls hd h)
    rw [hi]
    refine ⟨?_, hbase, ?_⟩
    · cases hl : d.listSize with
      | none => exact ho.child n
      | some ls =>
        simp only
        cases hz : ls.sized with
        | none => exact ho.child n
        | some ps =>
          intro o hm
          simp only [List.mem_append, List.mem_map] at hm
          rcases hm with hm | ⟨p, _, rfl⟩
          · exact ho.child n o hm
          · exact hls ls hl
    · intro e he
      cases hself : selfOverride inh n with
      | some e' =>
        rw [hself] at he
        have : e' = e := by
          cases hl : d.listSize with
          | none => rw [hl] at he; simpa using he
          | some ls =>
            rw [hl] at he
            cases hz : ls.sized <;> simp [hz] at he <;> exact he
        exact this ▸ ho.own hself
      | none =>
        rw [hself] at he
        cases hl : d.listSize with
        | none =>
          rw [hl] at he
          cases hty : d.ty.isList with
          | true => simp [hty] at he; exact he ▸ good_const _
          | false => simp [hty] at he
        | some ls =>
          rw [hl] at he
          cases hty : d.ty.isList with
          | false => cases hz : ls.sized <;> simp [hz, hty] at he
          | true =>
            cases hz : ls.sized with
            | none => simp [hz, hty] at he; exact he ▸ hls ls hl
            | some ps => simp [hz, hty] at he; exact he ▸ good_const _

/-! ## Operations -/

theorem length_le_of_subset : ∀ {a b : List Name}, a.Nodup → (∀ x ∈ a, x ∈ b) → a.length ≤ b.length
  | [], b, _, _ => Nat.zero_le _
  | x :: a, b, hn, h => by
    obtain ⟨h1, h2⟩ := List.nodup_cons.1 hn
    have hx : x ∈ b := h x (by simp)
    have := length_le_of_subset (a := a) (b := b.erase x) h2 (by
      intro y hy
      have hne : y ≠ x := by rintro rfl; exact h1 hy
      exact (List.mem_erase_of_ne hne).2 (h y (by simp [hy])))
    rw [List.length_erase_of_mem hx] at this
    have hpos : 0 < b.length := List.length_pos_of_mem hx
    simp only [List.length_cons]
    omega

theorem name_inj {frs : List Frag} (hn : (frs.map Frag.name).Nodup) {f g : Frag} (hf : f ∈ frs)
    (hg : g ∈ frs) (h : f.name = g.name) : f = g := by
  induction frs with
  | nil => exact absurd hf List.not_mem_nil
  | cons a l ih =>
    rw [List.map_cons, List.nodup_cons] at hn
    rw [List.mem_cons] at hf hg
    rcases hf with rfl | hf <;> rcases hg with rfl | hg
    · rfl
    · exact absurd (h ▸ List.mem_map_of_mem hg) hn.1
    · exact absurd (h ▸ List.mem_map_of_mem hf) hn.1
    · exact ih hn.2 hf hg

theorem getFrag_eq {frs : List Frag} (hn : (frs.map Frag.name).Nodup) {f : Frag} (hf : f ∈ frs) :
    getFrag frs f.name = some f := by
  unfold getFrag
  cases h : frs.reverse.find? (fun g => g.name == f.name) with
  | none =>
    have := List.find?_eq_none.1 h f (List.mem_reverse.2 hf)
    exact absurd (beq_self_eq_true f.name) this
  | some g =>
    have h1 := List.find?_some h
    have h2 := List.mem_reverse.1 (List.mem_of_find?_eq_some h)
    rw [name_inj hn hf h2 (by simpa using Eq.symm (by simpa using h1))]

theorem below_field {frs : List Frag} {rank : Name → Nat} {r : Nat} {n args si ii sub}
    (h : Below frs rank r (.field n args si ii sub)) :
    (∀ x ∈ sub, Below frs rank r x) ∧ (n = "_entities" → ∀ x ∈ sub, x.notSpread) := by
  cases h with
  | field h1 h2 => exact ⟨h1, h2⟩

theorem below_frag {frs : List Frag} {rank : Name → Nat} {r : Nat} {c si ii sub}
    (h : Below frs rank r (.frag c si ii sub)) : ∀ x ∈ sub, Below frs rank r x := by
  cases h with
  | frag h1 => exact h1

theorem below_spread {frs : List Frag} {rank : Name → Nat} {r : Nat} {n}
    (h : Below frs rank r (.spread n)) : rank n < r := by
  cases h with
  | spread _ h1 => exact h1

theorem entity_eq {frs : List Frag} {s s' : List Sel} (h : Expands frs s s') :
    (∀ x ∈ s, x.notSpread) → entityTypeCost S s = costOfEntity S s' := by
  induction h with
  | nil => intro _; rfl
  | field _ _ _ ih =>
    intro hs
    simp only [entityTypeCost, costOfEntity]
    exact ih fun x hx => hs x (List.mem_cons_of_mem _ hx)
  | frag _ _ _ ih =>
    intro hs
    simp only [entityTypeCost, costOfEntity]
    rw [ih fun x hx => hs x (List.mem_cons_of_mem _ hx), typeCost_eq]
  | spread _ _ _ _ _ => intro hs; exact absurd (hs _ (List.mem_cons_self ..)) id

/-- The state in which spreads are compiled: the fragments being compiled are different ones, of
ranks from `r` up, and the counter is large enough for all others. -/
structure Visiting (frs : List Frag) (rank : Name → Nat) (k r : Nat) (vis : List Name) : Prop where
  nodup : vis.Nodup
  mem : ∀ v ∈ vis, v ∈ frs.map Frag.name
  rank : ∀ v ∈ vis, r ≤ rank v
  enough : frs.length ≤ k + vis.length

theorem Visiting.step {frs : List Frag} {rank : Name → Nat} {k r : Nat} {vis : List Name}
    (h : Visiting frs rank k r vis) {f : Frag} (hf : f ∈ frs) (hr : rank f.name < r) :
    f.name ∉ vis ∧ ∃ k', k = k' + 1 ∧ Visiting frs rank k' (rank f.name) (f.name :: vis) := by
  have hnot : f.name ∉ vis := fun hm => absurd (h.rank _ hm) (by omega)
  have hnd : (f.name :: vis).Nodup := List.nodup_cons.2 ⟨hnot, h.nodup⟩
  have hmem : ∀ v ∈ f.name :: vis, v ∈ frs.map Frag.name := by
    intro v hv
    rcases List.mem_cons.1 hv with rfl | hv
    · exact List.mem_map_of_mem hf
    · exact h.mem v hv
  have hlen := length_le_of_subset hnd hmem
  rw [List.length_map, List.length_cons] at hlen
  have he := h.enough
  refine ⟨hnot, k - 1, by omega, hnd, hmem, ?_, by rw [List.length_cons]; omega⟩
  intro v hv
  rcases List.mem_cons.1 hv with rfl | hv
  · exact Nat.le_refl _
  · exact Nat.le_of_lt (Nat.lt_of_lt_of_le hr (h.rank v hv))

theorem onSpread_eq {frs : List Frag} (hn : (frs.map Frag.name).Nodup) {f : Frag} (hf : f ∈ frs)
    {dl : UInt64} {k : Nat} {vis : List Name} {inh : Overrides} (hv : f.name ∉ vis) :
    onSpread S dl frs (k + 1) vis inh f.name =
      some (addNonzero (compileSet S dl (onSpread S dl frs k) f.cond (f.name :: vis) inh f.sels)) := by
  have : vis.contains f.name = false := by simpa using hv
  simp only [onSpread, this, getFrag_eq hn hf, Bool.false_eq_true, if_false]

theorem compile_rep {frs : List Frag} (hn : (frs.map Frag.name).Nodup) {rank : Name → Nat}
    (hrank : ∀ f ∈ frs, ∀ x ∈ f.sels, Below frs rank (rank f.name) x) (dl : UInt64)
    {s s' : List Sel} (h : Expands frs s s') :
    ∀ {k r : Nat} {vis : List Name} {P : Name} {inh : Overrides} {sz : Sizes},
      (∀ x ∈ s, Below frs rank r x) → Visiting frs rank k r vis → OvRep S σ inh sz →
      inputsFit S σ P s' →
      RepL S σ (compileSet S dl (onSpread S dl frs k) P vis inh s) (costs S σ dl P sz s') := by
  induction h with
  | nil => intro k r vis P inh sz _ _ _ _; simp only [compileSet, costs]; exact .nil
  | @field n args si ii sub sub' rr rr' hsub hr ihsub ihr =>
    intro k r vis P inh sz hb hv ho hfit
    simp only [inputsFit] at hfit
    have hrest := ihr (fun x hx => hb x (List.mem_cons_of_mem _ hx)) hv ho hfit.2
    obtain ⟨hb1, hb2⟩ := below_field (hb _ (List.mem_cons_self ..))
    have hf1 := hfit.1
    simp only [compileSet, costs]
    cases hc : compileSel S dl (onSpread S dl frs k) P vis inh (.field n args si ii sub) with
    | none => simp only [compileSel] at hc; split at hc <;> (try split at hc) <;> exact absurd hc (fun h => by cases h)
    | some e =>
      simp only
      refine .cons ?_ hrest
      simp only [compileSel] at hc
      by_cases h1 : n = "__typename"
      · rw [if_pos h1] at hc
        have := applyConditions_rep (S := S) (σ := σ) (si := si) (ii := ii) (fun _ => rep_const 0)
        rw [Option.some.inj hc] at this
        simp only [cost1]
        rw [if_pos h1]
        exact this
      · rw [if_neg h1] at hc
        by_cases h2 : n = "_entities"
        · rw [if_pos h2] at hc
          simp only [inputsFit1] at hf1
          rw [if_pos h2] at hf1
          have hch := addNonzero_rep (ihsub (P := P) hb1 hv .nil hf1)
          have := mulExpr_rep (rep_const (max dl.toNat 1)) (addNonzero_rep (perItem_rep (tc := entityTypeCost S sub) hch))
          have := applyConditions_rep (si := si) (ii := ii) (fun _ => this)
          rw [Option.some.inj hc, entity_eq hsub (hb2 h2)] at this
          simp only [cost1]
          rw [if_neg h1, if_pos h2]
          exact this
        · rw [if_neg h2] at hc
          simp only [inputsFit1] at hf1
          rw [if_neg h2] at hf1
          simp only [cost1]
          rw [if_neg h1, if_neg h2]
          rw [← Option.some.inj hc]
          refine applyConditions_rep fun _ => ?_
          cases hd : fieldDef S P n with
          | none =>
            rw [hd] at hf1
            have hf1 : inputsFit S σ P sub' := hf1
            rw [fieldInfo_none hd, typeCost_eq]
            have hch := addNonzero_rep (ihsub hb1 hv (ho.child n) hf1)
            have := fieldExpr_rep (S := S) (σ := σ)
              (i := ⟨[], selfOverride inh n, P, childOverrides inh n⟩) (tc := costOfType S P)
              (m := (sizeHere sz n).getD 1) .nil (by
                rcases ho.here n with ⟨a, b⟩ | ⟨e, v, a, b, c⟩
                · exact .inl ⟨a, by rw [b]; rfl⟩
                · exact .inr ⟨e, a, by rw [b]; exact c⟩) hch
            rw [Nat.zero_add] at this
            exact this
          | some d =>
            rw [hd] at hf1
            have hf1 : argsFit S σ d args ∧ inputsFit S σ d.ty.inner sub' := hf1
            obtain ⟨i1, i2, ⟨b, i3, i4⟩, i5⟩ := fieldInfo_some (dl := dl) hd hf1.1 ho
            rw [i1, typeCost_eq]
            have hch := addNonzero_rep (ihsub hb1 hv i2 hf1.2)
            have := fieldExpr_rep (tc := costOfType S d.ty.inner) i3 i5 hch
            exact rep_congr this (min_add _ _ _ _ i4 rfl)
  | @frag c si ii sub sub' rr rr' hsub hr ihsub ihr =>
    intro k r vis P inh sz hb hv ho hfit
    simp only [inputsFit, inputsFit1] at hfit
    have hrest := ihr (fun x hx => hb x (List.mem_cons_of_mem _ hx)) hv ho hfit.2
    have hb1 := below_frag (hb _ (List.mem_cons_self ..))
    simp only [compileSet, compileSel, costs, cost1]
    exact .cons (addNonzero_rep (ihsub hb1 hv ho hfit.1)) hrest
  | @spread f sub' rr rr' hf hsub hr ihsub ihr =>
    intro k r vis P inh sz hb hv ho hfit
    simp only [inputsFit, inputsFit1] at hfit
    have hrest := ihr (fun x hx => hb x (List.mem_cons_of_mem _ hx)) hv ho hfit.2
    obtain ⟨h1, k', rfl, h2⟩ := hv.step hf (below_spread (hb _ (List.mem_cons_self ..)))
    simp only [compileSet, compileSel, costs, cost1]
    rw [onSpread_eq hn hf h1]
    exact .cons (addNonzero_rep (ihsub (hrank f hf) h2 ho hfit.1)) hrest

theorem compile_good {frs : List Frag} (hn : (frs.map Frag.name).Nodup) {rank : Name → Nat}
    (hrank : ∀ f ∈ frs, ∀ x ∈ f.sels, Below frs rank (rank f.name) x) (dl : UInt64)
    {s s' : List Sel} (h : Expands frs s s') :
    ∀ {k r : Nat} {vis : List Name} {P : Name} {inh : Overrides},
      (∀ x ∈ s, Below frs rank r x) → Visiting frs rank k r vis → OvGood S σ inh →
      slicingOk S σ P s' →
      ∀ e ∈ compileSet S dl (onSpread S dl frs k) P vis inh s, Good S σ e := by
  induction h with
  | nil => intro k r vis P inh _ _ _ _ e he; simp only [compileSet] at he; exact absurd he List.not_mem_nil
  | @field n args si ii sub sub' rr rr' hsub hr ihsub ihr =>
    intro k r vis P inh hb hv ho hok
    simp only [slicingOk] at hok
    have hrest := ihr (fun x hx => hb x (List.mem_cons_of_mem _ hx)) hv ho hok.2
    obtain ⟨hb1, hb2⟩ := below_field (hb _ (List.mem_cons_self ..))
    have hf1 := hok.1
    simp only [compileSet]
    cases hc : compileSel S dl (onSpread S dl frs k) P vis inh (.field n args si ii sub) with
    | none => simp only [compileSel] at hc; split at hc <;> (try split at hc) <;> exact absurd hc (fun h => by cases h)
    | some e =>
      simp only
      intro x hx
      rcases List.mem_cons.1 hx with hx | hx
      rotate_left
      · exact hrest x hx
      subst hx
      simp only [compileSel] at hc
      simp only [slicingOk1] at hf1
      by_cases h1 : n = "__typename"
      · rw [if_pos h1] at hc
        rw [← Option.some.inj hc]
        exact applyConditions_good fun _ => good_const 0
      · rw [if_neg h1] at hc
        by_cases h2 : n = "_entities"
        · rw [if_pos h2] at hc
          rw [← Option.some.inj hc]
          refine applyConditions_good fun hi => ?_
          have hf1 := hf1 hi
          rw [if_pos h2] at hf1
          exact mulExpr_good (good_const _) (addNonzero_good (perItem_good (addNonzero_good
            (ihsub hb1 hv (fun o h => absurd h List.not_mem_nil) hf1))))
        · rw [if_neg h2] at hc
          rw [← Option.some.inj hc]
          refine applyConditions_good fun hi => ?_
          have hf1 := hf1 hi
          rw [if_neg h2] at hf1
          cases hd : fieldDef S P n with
          | none =>
            rw [hd] at hf1
            have hf1 : slicingOk S σ P sub' := hf1
            obtain ⟨g1, g2, g3⟩ := fieldInfo_good (dl := dl) (P := P) (n := n) (args := args) ho
              (fun d ls h => by rw [hd] at h; exact absurd h (fun h => by cases h))
            rw [fieldInfo_none hd] at *
            exact fieldExpr_good g2 g3 (addNonzero_good (ihsub hb1 hv g1 hf1))
          | some d =>
            rw [hd] at hf1
            have hf1 : (∀ ls, d.listSize = some ls → sliceOk σ ls args) ∧
              slicingOk S σ d.ty.inner sub' := hf1
            obtain ⟨g1, g2, g3⟩ := fieldInfo_good (dl := dl) (P := P) (n := n) (args := args) ho
              (fun d' ls h => by rw [hd] at h; rw [← Option.some.inj h]; exact hf1.1 ls)
            have hret : (fieldInfo S dl P n args (selfOverride inh n) (childOverrides inh n)).ret
                = d.ty.inner := by simp only [fieldInfo, hd]
            refine fieldExpr_good g2 g3 (addNonzero_good (ihsub hb1 hv g1 ?_))
            rw [hret]; exact hf1.2
  | @frag c si ii sub sub' rr rr' hsub hr ihsub ihr =>
    intro k r vis P inh hb hv ho hok
    simp only [slicingOk, slicingOk1] at hok
    have hrest := ihr (fun x hx => hb x (List.mem_cons_of_mem _ hx)) hv ho hok.2
    have hb1 := below_frag (hb _ (List.mem_cons_self ..))
    simp only [compileSet, compileSel]
    intro x hx
    rcases List.mem_cons.1 hx with rfl | hx
    · exact addNonzero_good (ihsub hb1 hv ho hok.1)
    · exact hrest x hx
  | @spread f sub' rr rr' hf hsub hr ihsub ihr =>
    intro k r vis P inh hb hv ho hok
    simp only [slicingOk, slicingOk1] at hok
    have hrest := ihr (fun x hx => hb x (List.mem_cons_of_mem _ hx)) hv ho hok.2
    obtain ⟨h1, k', rfl, h2⟩ := hv.step hf (below_spread (hb _ (List.mem_cons_self ..)))
    simp only [compileSet, compileSel]
    rw [onSpread_eq hn hf h1]
    intro x hx
    rcases List.mem_cons.1 hx with rfl | hx
    · exact addNonzero_good (ihsub (hrank f hf) h2 ho hok.1)
    · exact hrest x hx

theorem visiting_nil (frs : List Frag) (rank : Name → Nat) (r : Nat) :
    Visiting frs rank frs.length r [] :=
  ⟨List.nodup_nil, fun _ h => absurd h List.not_mem_nil, fun _ h => absurd h List.not_mem_nil, by simp⟩

/-! ## Writing spreads out -/

theorem expands_ex {frs : List Frag} {rank : Name → Nat}
    (hrank : ∀ f ∈ frs, ∀ x ∈ f.sels, Below frs rank (rank f.name) x) : ∀ (r : Nat),
    (∀ x, Below frs rank r x → ∀ rest rest', Expands frs rest rest' →
      ∃ x', Expands frs (x :: rest) (x' :: rest')) := by
  intro r
  induction r using Nat.strongRecOn with
  | _ r ih =>
    have list : ∀ (l : List Sel), (∀ x ∈ l, ∀ rest rest', Expands frs rest rest' →
        ∃ x', Expands frs (x :: rest) (x' :: rest')) → ∃ l', Expands frs l l' := by
      intro l
      induction l with
      | nil => intro _; exact ⟨[], .nil⟩
      | cons x l ihl =>
        intro h
        obtain ⟨l', hl⟩ := ihl fun y hy => h y (List.mem_cons_of_mem _ hy)
        obtain ⟨x', hx⟩ := h x (List.mem_cons_self ..) l l' hl
        exact ⟨x' :: l', hx⟩
    intro x hx
    induction hx with
    | field _ _ ih' =>
      intro rest rest' hr
      obtain ⟨sub', hs⟩ := list _ ih'
      exact ⟨_, .field hs hr⟩
    | frag _ ih' =>
      intro rest rest' hr
      obtain ⟨sub', hs⟩ := list _ ih'
      exact ⟨_, .frag hs hr⟩
    | @spread f hf hlt =>
      intro rest rest' hr
      obtain ⟨sub', hs⟩ := list f.sels fun y hy => ih _ hlt y (hrank f hf y hy)
      exact ⟨_, .spread hf hs hr⟩

theorem expands_exists {op : Op} (h : OpOk op) : ∃ s, Expands op.frags op.sels s := by
  obtain ⟨_, rank, hrank, r, hs⟩ := h
  generalize op.sels = l at hs
  induction l with
  | nil => exact ⟨[], .nil⟩
  | cons x l ih =>
    obtain ⟨l', hl⟩ := ih fun y hy => hs y (List.mem_cons_of_mem _ hy)
    obtain ⟨x', hx⟩ := expands_ex hrank r x (hs x (List.mem_cons_self ..)) l l' hl
    exact ⟨_, hx⟩

theorem expands_unique {frs : List Frag} (hn : (frs.map Frag.name).Nodup) {s a : List Sel}
    (ha : Expands frs s a) : ∀ {b}, Expands frs s b → a = b := by
  induction ha with
  | nil => intro b hb; cases hb; rfl
  | field _ _ ih1 ih2 =>
    intro b hb
    cases hb with
    | field h1 h2 => rw [ih1 h1, ih2 h2]
  | frag _ _ ih1 ih2 =>
    intro b hb
    cases hb with
    | frag h1 h2 => rw [ih1 h1, ih2 h2]
  | @spread f sub' r r' hf _ _ ih1 ih2 =>
    intro b hb
    generalize hsp : Sel.spread f.name :: r = l at hb
    cases hb with
    | nil => exact absurd hsp (fun h => by cases h)
    | field => exact absurd hsp (fun h => by cases h)
    | frag => exact absurd hsp (fun h => by cases h)
    | @spread g sub2 r2 r2' hg h1 h2 =>
      simp only [List.cons.injEq, Sel.spread.injEq] at hsp
      obtain ⟨hname, rfl⟩ := hsp
      obtain rfl := name_inj hn hf hg hname
      rw [ih1 h1, ih2 h2]

end Verif.Demand
