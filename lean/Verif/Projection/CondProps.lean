import Verif.Projection.Cond

/-!
# C38: the algebra of projection conditions
-/

namespace Verif.Projection

/-! ## Specification -/

/-- A type condition as a set of type names. -/
def TypeCond.Names : TypeCond → String → Prop
  | .exact a, t => t = a
  | .oneOf s, t => t ∈ s

/-- What a condition means for an object of type `parent` whose field has type `field` and the given
value, with the given variables being `true`. -/
def Cond.Means (parent field : String) (value : Option Value) (isTrue : String → Bool) : Cond → Prop
  | .incl v => isTrue v = true
  | .skip v => isTrue v = false
  | .parent tc => tc.Names parent
  | .field tc => tc.Names field
  | .enum s => ∀ v, value = some (.str v) → v ∈ s
  | .or a b => a.Means parent field value isTrue ∨ b.Means parent field value isTrue
  | .and a b => a.Means parent field value isTrue ∧ b.Means parent field value isTrue

/-- No condition is always met. -/
def MeansOpt (parent field : String) (value : Option Value) (isTrue : String → Bool) :
    Option Cond → Prop
  | none => True
  | some c => c.Means parent field value isTrue

/-! ## Sets -/

theorem mem_setInsert (s : List String) (x t : String) : t ∈ setInsert s x ↔ t ∈ s ∨ t = x := by
  unfold setInsert
  split
  · rename_i h
    have h' : x ∈ s := by simpa using h
    constructor
    · exact Or.inl
    · rintro (h | rfl)
      · exact h
      · exact h'
  · simp

theorem mem_setExtend (s xs : List String) (t : String) : t ∈ setExtend s xs ↔ t ∈ s ∨ t ∈ xs := by
  induction xs generalizing s with
  | nil => simp [setExtend]
  | cons x xs ih =>
    rw [setExtend, ih, mem_setInsert, List.mem_cons]
    constructor
    · rintro ((h | h) | h) <;> simp [h]
    · rintro (h | h | h) <;> simp [h]

theorem setEq_iff (s t : List String) : setEq s t = true ↔ ∀ x, x ∈ s ↔ x ∈ t := by
  simp only [setEq, Bool.and_eq_true, List.all_eq_true, List.contains_iff_mem]
  exact ⟨fun ⟨h1, h2⟩ x => ⟨h1 x, h2 x⟩, fun h => ⟨fun x => (h x).1, fun x => (h x).2⟩⟩

theorem contains_congr {s t : List String} (h : ∀ x, x ∈ s ↔ x ∈ t) (x : String) :
    s.contains x = t.contains x := by
  have := h x
  rw [Bool.eq_iff_iff]; simpa using this

theorem accepts_iff (tc : TypeCond) (t : String) : tc.accepts t = true ↔ tc.Names t := by
  cases tc <;> simp [TypeCond.accepts, TypeCond.Names]

/-- **C38**: a union of type conditions stands for the types of either. -/
theorem C38_union (a b : TypeCond) (t : String) : (a.union b).Names t ↔ a.Names t ∨ b.Names t := by
  cases a with
  | exact a =>
    cases b with
    | exact b =>
      simp only [TypeCond.union]
      split
      · rename_i h; subst h; simp [TypeCond.Names]
      · simp [TypeCond.Names]
    | oneOf s => simp only [TypeCond.union, TypeCond.Names, mem_setInsert]; exact Or.comm
  | oneOf s =>
    cases b with
    | exact b => simp only [TypeCond.union, TypeCond.Names, mem_setInsert]
    | oneOf u => simp only [TypeCond.union, TypeCond.Names, mem_setExtend]

/-- **C38**: an intersection stands for the types of both. -/
theorem C38_intersect (a b : TypeCond) (t : String) :
    (a.intersect b).Names t ↔ a.Names t ∧ b.Names t := by
  cases a with
  | exact a =>
    cases b with
    | exact b =>
      simp only [TypeCond.intersect]
      split
      · rename_i h; subst h; simp [TypeCond.Names]
      · rename_i h
        simp only [TypeCond.Names, List.not_mem_nil, false_iff]
        rintro ⟨rfl, h2⟩; exact h h2
    | oneOf s =>
      simp only [TypeCond.intersect]
      split
      · rename_i h
        have h' : a ∈ s := by simpa using h
        simp only [TypeCond.Names]
        exact ⟨fun e => ⟨e, e ▸ h'⟩, fun e => e.1⟩
      · rename_i h
        have h' : a ∉ s := by simpa using h
        simp only [TypeCond.Names, List.not_mem_nil, false_iff]
        rintro ⟨rfl, h2⟩; exact h' h2
  | oneOf s =>
    cases b with
    | exact a =>
      simp only [TypeCond.intersect]
      split
      · rename_i h
        have h' : a ∈ s := by simpa using h
        simp only [TypeCond.Names]
        exact ⟨fun e => ⟨e ▸ h', e⟩, fun e => e.2⟩
      · rename_i h
        have h' : a ∉ s := by simpa using h
        simp only [TypeCond.Names, List.not_mem_nil, false_iff]
        rintro ⟨h2, rfl⟩; exact h' h2
    | oneOf u =>
      have hm : t ∈ s.filter u.contains ↔ t ∈ s ∧ t ∈ u := by simp
      simp only [TypeCond.intersect]
      split
      · rename_i x hx
        rw [hx] at hm
        simpa [TypeCond.Names] using hm
      · simpa [TypeCond.Names] using hm

theorem typeCond_eq {a b : TypeCond} (h : a.eq b = true) (t : String) : a.Names t ↔ b.Names t := by
  cases a <;> cases b <;> simp only [TypeCond.eq, beq_iff_eq, reduceCtorEq, Bool.false_eq_true] at h
  · subst h; exact Iff.rfl
  · exact (setEq_iff _ _).1 h t

theorem accepts_congr {a b : TypeCond} (h : ∀ t, a.Names t ↔ b.Names t) (t : String) :
    a.accepts t = b.accepts t := by
  rw [Bool.eq_iff_iff, accepts_iff, accepts_iff]; exact h t

theorem accepts_union (a b : TypeCond) (t : String) :
    (a.union b).accepts t = (a.accepts t || b.accepts t) := by
  rw [Bool.eq_iff_iff, accepts_iff, C38_union, Bool.or_eq_true, accepts_iff, accepts_iff]

theorem accepts_intersect (a b : TypeCond) (t : String) :
    (a.intersect b).accepts t = (a.accepts t && b.accepts t) := by
  rw [Bool.eq_iff_iff, accepts_iff, C38_intersect, Bool.and_eq_true, accepts_iff, accepts_iff]

theorem cond_eq_check (e : Env) : ∀ {a b : Cond}, a.eq b = true → check e a = check e b := by
  intro a
  induction a with
  | incl v => intro b h; cases b <;> simp [Cond.eq] at h; subst h; rfl
  | skip v => intro b h; cases b <;> simp [Cond.eq] at h; subst h; rfl
  | parent tc =>
    intro b h; cases b <;> simp [Cond.eq] at h
    simp only [check, typeVerdict, accepts_congr (typeCond_eq h)]
  | field tc =>
    intro b h; cases b <;> simp [Cond.eq] at h
    simp only [check, typeVerdict, accepts_congr (typeCond_eq h)]
  | enum s =>
    intro b h; cases b <;> simp [Cond.eq] at h
    simp only [check, contains_congr ((setEq_iff _ _).1 h)]
  | or a b iha ihb =>
    intro c h; cases c <;> simp [Cond.eq] at h
    simp only [check, iha h.1, ihb h.2]
  | and a b iha ihb =>
    intro c h; cases c <;> simp [Cond.eq] at h
    simp only [check, iha h.1, ihb h.2]

/-- **C38**: conjunction as the builder forms it is checked like the conjunction of the two, with
the same verdict and the same reason. -/
theorem C38_and (e : Env) (l r : Cond) : check e (l.andThen r) = check e (.and l r) := by
  have key : ∀ (x : Except Err String) (l r : TypeCond) (bad : CondErr),
      typeVerdict x (l.intersect r).accepts bad =
      (match typeVerdict x l.accepts bad with
        | .ok _ => typeVerdict x r.accepts bad
        | .error z => .error z) := by
    intro x l r bad
    cases x with
    | error y => rfl
    | ok t =>
      simp only [typeVerdict, accepts_intersect]
      cases l.accepts t <;> cases r.accepts t <;> rfl
  unfold Cond.andThen
  split
  · simp only [check]; exact key _ _ _ _
  · simp only [check]; exact key _ _ _ _
  · rename_i l r
    simp only [check]
    cases e.value with
    | none => rfl
    | some v =>
      cases v <;> try rfl
      rename_i s
      have : (l.filter r.contains).contains s = (l.contains s && r.contains s) := by
        rw [Bool.eq_iff_iff]; simp
      simp only [this]
      cases l.contains s <;> cases r.contains s <;> rfl
  · rfl

/-- **C38**: disjunction as the builder forms it, likewise. -/
theorem C38_or (e : Env) (l r : Cond) : check e (l.orElse r) = check e (.or l r) := by
  have key : ∀ (x : Except Err String) (l r : TypeCond) (bad : CondErr),
      typeVerdict x (l.union r).accepts bad =
      (match typeVerdict x l.accepts bad with
        | .ok u => .ok u
        | .error _ => typeVerdict x r.accepts bad) := by
    intro x l r bad
    cases x with
    | error y => rfl
    | ok t =>
      simp only [typeVerdict, accepts_union]
      cases l.accepts t <;> cases r.accepts t <;> rfl
  unfold Cond.orElse
  split
  · rename_i h
    simp only [check, ← cond_eq_check e h]
    cases check e l <;> rfl
  · unfold Cond.orMerge
    split
    · simp only [check]; exact key _ _ _ _
    · simp only [check]; exact key _ _ _ _
    · rename_i l r _
      simp only [check]
      cases e.value with
      | none => rfl
      | some v =>
        cases v <;> try rfl
        rename_i s
        have : (setExtend l r).contains s = (l.contains s || r.contains s) := by
          rw [Bool.eq_iff_iff]; simp [mem_setExtend]
        simp only [this]
        cases l.contains s <;> cases r.contains s <;> rfl
    · rfl

/-- **C38**: when the types of the object and of the field can be told, a field is let through
exactly when its condition is met. -/
theorem C38_check (parent field : String) (value : Option Value) (isTrue : String → Bool)
    (c : Option Cond) :
    checkOpt ⟨.ok parent, .ok field, value, isTrue⟩ c = .ok () ↔
      MeansOpt parent field value isTrue c := by
  cases c with
  | none => simp [checkOpt, MeansOpt]
  | some c =>
    simp only [checkOpt, MeansOpt]
    induction c with
    | incl v => simp only [check, Cond.Means]; by_cases hv : isTrue v = true <;> simp [hv]
    | skip v => simp only [check, Cond.Means]; by_cases hv : isTrue v = true <;> simp [hv]
    | parent tc =>
      simp only [check, typeVerdict, Cond.Means, ← accepts_iff]; cases tc.accepts parent <;> simp
    | field tc =>
      simp only [check, typeVerdict, Cond.Means, ← accepts_iff]; cases tc.accepts field <;> simp
    | enum s =>
      simp only [check, Cond.Means]
      cases value with
      | none => simp
      | some v =>
        cases v <;> simp
    | or a b iha ihb =>
      simp only [check, Cond.Means, ← iha, ← ihb]
      cases check ⟨.ok parent, .ok field, value, isTrue⟩ a <;> simp
    | and a b iha ihb =>
      simp only [check, Cond.Means, ← iha, ← ihb]
      cases check ⟨.ok parent, .ok field, value, isTrue⟩ a <;> simp

theorem means_and (p f : String) (v : Option Value) (t : String → Bool) (l r : Cond) :
    (l.andThen r).Means p f v t ↔ l.Means p f v t ∧ r.Means p f v t := by
  have h1 := C38_check p f v t (some (l.andThen r))
  have h2 := C38_check p f v t (some (.and l r))
  simp only [checkOpt, MeansOpt] at h1 h2
  rw [← h1, C38_and, h2]; rfl

theorem means_or (p f : String) (v : Option Value) (t : String → Bool) (l r : Cond) :
    (l.orElse r).Means p f v t ↔ l.Means p f v t ∨ r.Means p f v t := by
  have h1 := C38_check p f v t (some (l.orElse r))
  have h2 := C38_check p f v t (some (.or l r))
  simp only [checkOpt, MeansOpt] at h1 h2
  rw [← h1, C38_or, h2]; rfl

theorem means_andOpt (p f : String) (v : Option Value) (t : String → Bool) (l r : Option Cond) :
    MeansOpt p f v t (andOpt l r) ↔ MeansOpt p f v t l ∧ MeansOpt p f v t r := by
  cases l <;> cases r <;> simp [andOpt, combine, MeansOpt, means_and]

theorem means_orOpt (p f : String) (v : Option Value) (t : String → Bool) (l r : Option Cond) :
    MeansOpt p f v t (orOpt l r) ↔ MeansOpt p f v t l ∨ MeansOpt p f v t r := by
  cases l <;> cases r <;> simp [orOpt, MeansOpt, means_or]

/-- **C38**: `@include` and `@skip` on a selection add exactly their requirement. -/
theorem C38_directives (p f : String) (v : Option Value) (t : String → Bool) (c : Option Cond)
    (includeIf skipIf : Option String) :
    MeansOpt p f v t (applyDirectives c includeIf skipIf) ↔
      MeansOpt p f v t c ∧ (∀ x, includeIf = some x → t x = true) ∧
        (∀ x, skipIf = some x → t x = false) := by
  have hi : ∀ x, MeansOpt p f v t (some (.incl x)) ↔ t x = true := fun _ => Iff.rfl
  have hs : ∀ x, MeansOpt p f v t (some (.skip x)) ↔ t x = false := fun _ => Iff.rfl
  cases includeIf <;> cases skipIf <;>
    simp [applyDirectives, means_andOpt, hi, hs, and_assoc]

/-- **C38**: simplifying a condition under a guard does not change it for the objects that pass the
guard. -/
theorem C38_simplify (p f : String) (v : Option Value) (t : String → Bool) (c : Cond)
    (guard : Option TypeCond) (hp : ∀ g, guard = some g → g.Names p) :
    MeansOpt p f v t (simplify c guard) ↔ c.Means p f v t := by
  cases guard with
  | none => rfl
  | some g =>
    cases g with
    | oneOf s => rfl
    | exact g =>
      have hp' : p = g := hp _ rfl
      subst hp'
      show MeansOpt p f v t (simplifyExact p c) ↔ _
      induction c with
      | incl x => rfl
      | skip x => rfl
      | field tc => rfl
      | enum s => rfl
      | parent tc =>
        cases tc with
        | exact a =>
          simp only [simplifyExact]
          split
          · rename_i h; subst h; simp [MeansOpt, Cond.Means, TypeCond.Names]
          · rfl
        | oneOf s =>
          simp only [simplifyExact]
          split
          · rename_i h; subst h; simp [MeansOpt, Cond.Means, TypeCond.Names]
          · rfl
      | or a b iha ihb => simp only [simplifyExact, means_orOpt, iha, ihb, Cond.Means]
      | and a b iha ihb =>
        have : simplifyExact p (.and a b) = andOpt (simplifyExact p a) (simplifyExact p b) := by
          simp only [simplifyExact]
          cases simplifyExact p a <;> cases simplifyExact p b <;> rfl
        rw [this, means_andOpt, iha, ihb]; rfl

def GuardMeans (p : String) : Option TypeCond → Prop
  | none => True
  | some g => g.Names p

theorem means_withOptGuard (p f : String) (v : Option Value) (t : String → Bool)
    (g : Option TypeCond) (c : Option Cond) :
    MeansOpt p f v t (withOptGuard g c) ↔ GuardMeans p g ∧ MeansOpt p f v t c := by
  cases g <;> cases c <;> simp [withOptGuard, withGuard, MeansOpt, GuardMeans, means_and, Cond.Means]

/-- **C38**: when two selections of one field are merged, the field is let through for an object
that passes both guards or has different ones exactly when one of the selections, with its own
guard, lets it through. -/
theorem C38_merge (p f : String) (v : Option Value) (t : String → Bool)
    (lg rg : Option TypeCond) (l r : Option Cond)
    (hsame : guardEq lg rg = true → GuardMeans p lg) :
    MeansOpt p f v t (mergeConds lg l rg r) ↔
      (GuardMeans p lg ∧ MeansOpt p f v t l) ∨ (GuardMeans p rg ∧ MeansOpt p f v t r) := by
  unfold mergeConds
  split
  · rename_i h
    have h1 := hsame h
    have h2 : GuardMeans p rg := by
      cases lg <;> cases rg <;> simp only [guardEq, Bool.false_eq_true] at h
      · trivial
      · exact (typeCond_eq h p).1 h1
    rw [means_orOpt]; simp [h1, h2]
  · rw [means_orOpt, means_withOptGuard, means_withOptGuard]

/-- **C38**: what is carried down to the children of a field follows from the field's own condition
and speaks about variables only. -/
theorem C38_children (p f p' f' : String) (v v' : Option Value) (t : String → Bool) (c : Cond)
    (h : c.Means p f v t) : MeansOpt p' f' v' t (childConds c) := by
  induction c with
  | incl x => exact h
  | skip x => exact h
  | parent tc => trivial
  | field tc => trivial
  | enum s => trivial
  | or a b iha ihb =>
    simp only [childConds, means_orOpt]
    exact h.elim (fun h => Or.inl (iha h)) (fun h => Or.inr (ihb h))
  | and a b iha ihb =>
    simp only [childConds, means_andOpt]
    exact ⟨iha h.1, ihb h.2⟩

/-- No disjunction: the conditions `from_selection_set` hands down. -/
def Cond.Conj : Cond → Prop
  | .or _ _ => False
  | .and a b => a.Conj ∧ b.Conj
  | _ => True

/-- **C38**: the guard read off a condition without disjunctions holds wherever the condition
does. -/
theorem C38_guard (p f : String) (v : Option Value) (t : String → Bool) (c : Cond) (hc : c.Conj)
    (h : c.Means p f v t) : GuardMeans p (typeGuard c) := by
  induction c with
  | incl x => trivial
  | skip x => trivial
  | parent tc => exact h
  | field tc => trivial
  | enum s => trivial
  | or a b iha ihb => exact hc.elim
  | and a b iha ihb =>
    have ha := iha hc.1 h.1
    have hb := ihb hc.2 h.2
    simp only [typeGuard]
    cases hta : typeGuard a <;> cases htb : typeGuard b <;>
      simp only [hta, htb, combine, GuardMeans] at *
    · exact hb
    · exact ha
    · exact (C38_intersect _ _ _).2 ⟨ha, hb⟩

/-- Without that restriction it would not: the guard of `Include(x) OR ParentType(A)` is `A`. -/
theorem C38_guard_of_disjunction :
    (Cond.or (.incl "x") (.parent (.exact "A"))).Means "B" "String" none (fun _ => true) ∧
      ¬ GuardMeans "B" (typeGuard (.or (.incl "x") (.parent (.exact "A")))) := by
  refine ⟨Or.inl rfl, ?_⟩
  simp [typeGuard, combine, GuardMeans, TypeCond.Names]

/-- A disagreement: a value that is no value of its enum should be reported and become `null`, and
is if the field is selected once. Selected twice, under `@include(if: $x)` and
`@include(if: $y)`, with `$x` true and `$y` false, the field vanishes from the response instead. -/
theorem C38_enum_error_lost :
    let once := applyDirectives none (some "x") none
    let twice := applyDirectives none (some "y") none
    let e : Env := ⟨.ok "Query", .ok "Color", some (.str "PINK"), fun v => v == "x"⟩
    let one := andOpt once (some (.enum ["RED"]))
    let both := mergeConds none one none (andOpt twice (some (.enum ["RED"])))
    checkOpt e one = .error .invalidEnumValue ∧ checkOpt e both = .error .skip := by
  refine ⟨?_, ?_⟩ <;>
  simp (decide := true) [applyDirectives, andOpt, combine, Cond.andThen, mergeConds, guardEq,
    orOpt, Cond.orElse, Cond.eq, Cond.orMerge, checkOpt, check]

/-! ## The hypotheses are met -/

example : MeansOpt "User" "String" none (fun v => v == "x")
    (mergeConds none (some (.incl "y")) (some (.exact "User")) none) :=
  (C38_merge "User" "String" none (fun v => v == "x") none (some (.exact "User"))
    (some (.incl "y")) none (by intro h; simp [guardEq] at h)).2 (Or.inr ⟨rfl, trivial⟩)

example : simplify (.and (.parent (.exact "User")) (.incl "x")) (some (.exact "User")) =
    some (.incl "x") := by
  simp [simplify, simplifyExact]

end Verif.Projection
