import Verif.Variables.Model

/-!
# Values of variables: C12
-/

namespace Verif.Variables

open Verif.Keys (TypeNode VarDef)

/-! ## Specification -/

/-- The types of a schema: enums with their values, input objects with their fields (the type, and
whether there is a default), and object and interface types. All other names are scalars. -/
structure Types where
  enums : List (String × List String)
  inputs : List (String × List (String × TypeNode × Bool))
  outputs : List (String × List (String × String))

/-- What the code keeps of it. -/
def Types.schema (T : Types) : Schema where
  enumValues := T.enums
  typeFields := T.outputs

def builtins : List String := ["String", "ID", "Int", "Float", "Boolean"]

def IsNonNull (t : TypeNode) : Prop := ∃ u, t = .nonNull u

/-- A name that is not that of an enum or an input object. -/
def Types.Scalar (T : Types) (n : String) : Prop := lookup n T.enums = none ∧ lookup n T.inputs = none

/-- The input coercion of the GraphQL specification: the values a type admits. -/
inductive Conforms (T : Types) : Value → TypeNode → Prop
  | null (t) : ¬ IsNonNull t → Conforms T .null t
  | nonNull (v t) : v ≠ .null → Conforms T v t → Conforms T v (.nonNull t)
  | list (vs t) : (∀ v ∈ vs, Conforms T v t) → Conforms T (.arr vs) (.list t)
  | single (v t) : v ≠ .null → (∀ vs, v ≠ .arr vs) → Conforms T v t → Conforms T v (.list t)
  | enum (n values s) : lookup n T.enums = some values → s ∈ values → Conforms T (.str s) (.named n)
  | input (n fields fs) : lookup n T.enums = none → lookup n T.inputs = some fields →
      (∀ k v, (k, v) ∈ fs → ∃ t d, (k, t, d) ∈ fields) →
      (∀ k t d v, (k, t, d) ∈ fields → lookup k fs = some v → Conforms T v t) →
      (∀ k t, (k, t, false) ∈ fields → IsNonNull t → (lookup k fs).isSome) →
      Conforms T (.obj fs) (.named n)
  | string (s) : T.Scalar "String" → Conforms T (.str s) (.named "String")
  | id (s) : T.Scalar "ID" → Conforms T (.str s) (.named "ID")
  | idInt (i) : T.Scalar "ID" → Conforms T (.i64 i) (.named "ID")
  | int (i) : T.Scalar "Int" → -2 ^ 31 ≤ i → i < 2 ^ 31 → Conforms T (.i64 i) (.named "Int")
  | float (b) : T.Scalar "Float" → Conforms T (.f64 b) (.named "Float")
  | floatInt (i) : T.Scalar "Float" → Conforms T (.i64 i) (.named "Float")
  | floatLarge (n) : T.Scalar "Float" → Conforms T (.u64 n) (.named "Float")
  | boolean (b) : T.Scalar "Boolean" → Conforms T (.bool b) (.named "Boolean")
  | custom (n v) : T.Scalar n → n ∉ builtins → v ≠ .null → Conforms T v (.named n)

/-- The name a type is about. -/
def base : TypeNode → String
  | .named n => n
  | .list t => base t
  | .nonNull t => base t

/-- A value that occurs in another as an item of lists. -/
inductive ItemOf : Value → Value → Prop
  | self (v) : ItemOf v v
  | item (u v vs) : v ∈ vs → ItemOf u v → ItemOf u (.arr vs)

/-- `Int`s are 32-bit numbers. -/
def SmallInts (v : Value) (t : TypeNode) : Prop :=
  base t = "Int" → ∀ i, ItemOf (.i64 i) v → -2 ^ 31 ≤ i ∧ i < 2 ^ 31

/-- `ID`s are strings and `Float`s below `2 ^ 63`. -/
def PlainNumbers (v : Value) (t : TypeNode) : Prop :=
  (base t = "ID" → ∀ i, ¬ ItemOf (.i64 i) v) ∧ (base t = "Float" → ∀ n, ¬ ItemOf (.u64 n) v)

/-- The type is about a scalar or an enum: an input type that is not an input object. -/
def Leafy (T : Types) (t : TypeNode) : Prop :=
  lookup (base t) T.inputs = none ∧ lookup (base t) T.outputs = none

/-- The value of a variable: the one that was sent, or else the default. -/
def supplied (sent : List (String × Value)) (d : VarDef) : Option Value :=
  match lookup d.name sent with
  | some v => some v
  | none => d.default.map litValue

/-! ## Lemmas -/

theorem validate_null (S : Schema) (t : TypeNode) :
    validate S .null t = .ok () ↔ ¬ IsNonNull t := by
  rw [validate]
  cases t <;> simp [checkNull, IsNonNull]

theorem items_ok (S : Schema) (vs : List Value) (t : TypeNode) :
    validateItems S vs t = .ok () ↔ ∀ v ∈ vs, validate S v t = .ok () := by
  induction vs with
  | nil => simp [validateItems]
  | cons v vs ih =>
    rw [validateItems]
    cases h : validate S v t with
    | error e => simp [bind, Except.bind, h]
    | ok u =>
      cases u
      simp only [bind, Except.bind, ih, List.mem_cons, forall_eq_or_imp, h, true_and]

/-- What a value that is not null is checked with, `validate` without the cases. -/
theorem validate_nonNull (S : Schema) (v : Value) (t : TypeNode) (h : v ≠ .null) :
    validate S v (.nonNull t) = validate S v t := by
  cases v <;> simp [validate, checkType] at h ⊢

theorem validate_list_arr (S : Schema) (vs : List Value) (t : TypeNode) :
    validate S (.arr vs) (.list t) = validateItems S vs t := by
  simp [validate, checkType]

theorem validate_list (S : Schema) (v : Value) (t : TypeNode) (h : v ≠ .null) (ha : ∀ vs, v ≠ .arr vs) :
    validate S v (.list t) = validate S v t := by
  cases v <;> simp [validate, checkType] at h ha ⊢

theorem validate_named (S : Schema) (v : Value) (n : String) (h : v ≠ .null)
    (hn : lookup n S.typeFields = none) :
    validate S v (.named n) = match lookup n S.enumValues with
      | some values => checkEnum n values v
      | none => checkScalar n v := by
  cases v <;> simp [validate, checkType, checkNamed, hn] at h ⊢ <;>
    cases lookup n S.enumValues <;> rfl

/-! ## Theorems -/

theorem named_ok (T : Types) (v : Value) (n : String) (hv : v ≠ .null) (hl : Leafy T (.named n))
    (hi : SmallInts v (.named n)) (h : validate T.schema v (.named n) = .ok ()) :
    Conforms T v (.named n) := by
  rw [validate_named _ _ _ hv hl.2] at h
  cases he : lookup n T.enums with
  | some values =>
    simp only [Types.schema, he] at h
    cases v <;> simp only [checkEnum] at h <;> try cases h
    rename_i s
    split at h
    · rename_i hc; exact .enum n values s he (by simpa using hc)
    · cases h
  | none =>
    simp only [Types.schema, he] at h
    have hs : T.Scalar n := ⟨he, hl.1⟩
    unfold checkScalar at h
    split at h
    · rename_i hn; subst hn; cases v <;> simp at h; exact .string _ hs
    · split at h
      · rename_i hn; subst hn; cases v <;> simp at h; exact .id _ hs
      · split at h
        · rename_i hn; subst hn; cases v <;> simp at h
          have := hi rfl _ (.self _)
          exact .int _ hs this.1 this.2
        · split at h
          · rename_i hn; subst hn; cases v <;> simp at h
            · exact .float _ hs
            · exact .floatInt _ hs
          · split at h
            · rename_i hn; subst hn; cases v <;> simp at h; exact .boolean _ hs
            · exact .custom n v hs (by simp [builtins, *]) hv

theorem named_of (T : Types) (v : Value) (n : String) (hv : v ≠ .null) (hl : Leafy T (.named n))
    (hp : PlainNumbers v (.named n)) (h : Conforms T v (.named n)) :
    validate T.schema v (.named n) = .ok () := by
  rw [validate_named _ _ _ hv hl.2]
  cases h with
  | null => exact absurd rfl hv
  | enum _ values s he hs => simp [Types.schema, he, checkEnum, hs]
  | input _ fields fs he hi => exact absurd (hi.symm.trans hl.1) (by simp)
  | string s hs => simp [Types.schema, hs.1, checkScalar]
  | id s hs => simp [Types.schema, hs.1, checkScalar]
  | idInt i hs => exact absurd (.self _) (hp.1 rfl i)
  | int i hs => simp [Types.schema, hs.1, checkScalar]
  | float b hs => simp [Types.schema, hs.1, checkScalar]
  | floatInt i hs => simp [Types.schema, hs.1, checkScalar]
  | floatLarge n hs => exact absurd (.self _) (hp.2 rfl n)
  | boolean b hs => simp [Types.schema, hs.1, checkScalar]
  | custom _ _ hs hn =>
    simp [builtins] at hn
    simp [Types.schema, hs.1, checkScalar, hn]

theorem step_ok (T : Types) (v : Value)
    (IH : ∀ vs, v = .arr vs → ∀ u ∈ vs, ∀ t, Leafy T t → SmallInts u t →
      validate T.schema u t = .ok () → Conforms T u t)
    (t : TypeNode) (hl : Leafy T t) (hi : SmallInts v t) (h : validate T.schema v t = .ok ()) :
    Conforms T v t := by
  by_cases hv : v = .null
  · subst hv
    exact .null t ((validate_null _ _).1 h)
  · induction t with
    | named n => exact named_ok T v n hv hl hi h
    | nonNull t ih =>
      rw [validate_nonNull _ _ _ hv] at h
      exact .nonNull v t hv (ih hl hi h)
    | list t ih =>
      by_cases ha : ∃ vs, v = .arr vs
      · obtain ⟨vs, rfl⟩ := ha
        rw [validate_list_arr, items_ok] at h
        exact .list vs t fun u hu =>
          IH vs rfl u hu t hl (fun hb i hii => hi hb i (.item _ u vs hu hii)) (h u hu)
      · have ha' : ∀ vs, v ≠ .arr vs := fun vs he => ha ⟨vs, he⟩
        rw [validate_list _ _ _ hv ha'] at h
        exact .single v t hv ha' (ih hl hi h)

/-- **C12** (partial: for types of scalars and enums, and `Int`s of 32 bits) A value that is accepted
conforms to its type. -/
theorem C12_conforms_partial (T : Types) (v : Value) (t : TypeNode) (hl : Leafy T t)
    (hi : SmallInts v t) (h : validate T.schema v t = .ok ()) : Conforms T v t := by
  induction v using Value.ind generalizing t with
  | arr vs ih => exact step_ok T _ (fun ws e u hu => by cases e; exact ih u hu) t hl hi h
  | _ => exact step_ok T _ (fun ws e => by cases e) t hl hi h

theorem step_of (T : Types) (v : Value)
    (IH : ∀ vs, v = .arr vs → ∀ u ∈ vs, ∀ t, Leafy T t → PlainNumbers u t →
      Conforms T u t → validate T.schema u t = .ok ())
    (t : TypeNode) (hl : Leafy T t) (hi : PlainNumbers v t) (h : Conforms T v t) :
    validate T.schema v t = .ok () := by
  by_cases hv : v = .null
  · subst hv
    rw [validate_null]
    cases h with
    | null h => assumption
    | nonNull _ _ h => exact absurd rfl h
    | single _ _ h => exact absurd rfl h
    | custom _ _ _ _ h => exact absurd rfl h
  · induction t with
    | named n => exact named_of T v n hv hl hi h
    | nonNull t ih =>
      rw [validate_nonNull _ _ _ hv]
      cases h with
      | null h => exact absurd rfl hv
      | nonNull _ _ _ h => exact ih hl hi h
    | list t ih =>
      by_cases ha : ∃ vs, v = .arr vs
      · obtain ⟨vs, rfl⟩ := ha
        rw [validate_list_arr, items_ok]
        intro u hu
        cases h with
        | list _ _ h =>
          exact IH vs rfl u hu t hl ⟨fun hb i hii => hi.1 hb i (.item _ u vs hu hii),
            fun hb i hii => hi.2 hb i (.item _ u vs hu hii)⟩ (h u hu)
        | single _ _ _ h => exact absurd rfl (h vs)
      · have ha' : ∀ vs, v ≠ .arr vs := fun vs he => ha ⟨vs, he⟩
        rw [validate_list _ _ _ hv ha']
        cases h with
        | null h => exact absurd rfl hv
        | list => exact absurd rfl (ha' _)
        | single _ _ _ _ h => exact ih hl hi h

/-- **C12** (partial: for types of scalars and enums, `ID`s that are strings and `Float`s below
`2 ^ 63`) A value that conforms to its type is accepted. -/
theorem C12_accepts_partial (T : Types) (v : Value) (t : TypeNode) (hl : Leafy T t)
    (hi : PlainNumbers v t) (h : Conforms T v t) : validate T.schema v t = .ok () := by
  induction v using Value.ind generalizing t with
  | arr vs ih => exact step_of T _ (fun ws e u hu => by cases e; exact ih u hu) t hl hi h
  | _ => exact step_of T _ (fun ws e => by cases e) t hl hi h

theorem remove_lookup (k k' : String) (m : List (String × Value)) (h : k' ≠ k) :
    lookup k' (remove k m) = lookup k' m := by
  induction m with
  | nil => rfl
  | cons x m ih =>
    obtain ⟨a, v⟩ := x
    unfold remove at ih ⊢
    by_cases ha : a = k
    · subst ha
      have : ¬ a = k' := fun e => h e.symm
      simp only [List.filter_cons, ne_eq, not_true_eq_false, decide_false, Bool.false_eq_true, if_false, ih,
        lookup, this]
    · simp only [List.filter_cons, ne_eq, ha, not_false_eq_true, decide_true, if_true, lookup, ih]

theorem isNonNull_iff (t : TypeNode) : isNonNull t = true ↔ IsNonNull t := by
  cases t <;> simp [isNonNull, IsNonNull]

/-- The loop, described without its order of removals. -/
theorem collectLoop_ok (S : Schema) (ds : List VarDef) (hd : (ds.map (·.name)).Nodup) :
    ∀ (sent m : List (String × Value)), collectLoop S ds sent = .ok m →
      (∀ d ∈ ds, lookup d.name m = supplied sent d ∧
        (∀ v, supplied sent d = some v → validate S v d.type = .ok ()) ∧
        (supplied sent d = none → ¬ IsNonNull d.type)) ∧
      ∀ k, (∀ d ∈ ds, d.name ≠ k) → lookup k m = none := by
  induction ds with
  | nil =>
    intro sent m h
    simp [collectLoop] at h
    subst h
    simp [lookup]
  | cons d ds ih =>
    simp only [List.map_cons, List.nodup_cons] at hd
    have hne : ∀ e ∈ ds, e.name ≠ d.name := fun e he h => hd.1 (List.mem_map.2 ⟨e, he, h⟩)
    intro sent m h
    rw [collectLoop] at h
    -- one step that records `v`
    have rec_ : ∀ (v : Value) (sent' m' : List (String × Value)), supplied sent d = some v →
        (∀ e ∈ ds, supplied sent' e = supplied sent e) → validate S v d.type = .ok () →
        collectLoop S ds sent' = .ok m' → m = (d.name, v) :: m' →
        (∀ e ∈ d :: ds, lookup e.name m = supplied sent e ∧
          (∀ v, supplied sent e = some v → validate S v e.type = .ok ()) ∧
          (supplied sent e = none → ¬ IsNonNull e.type)) ∧
        ∀ k, (∀ e ∈ d :: ds, e.name ≠ k) → lookup k m = none := by
      intro v sent' m' hv hs hok hl hm
      obtain ⟨ih1, ih2⟩ := ih hd.2 _ _ hl
      subst hm
      constructor
      · intro e he
        rcases List.mem_cons.1 he with rfl | he
        · refine ⟨by simp [lookup, hv], ?_, by simp [hv]⟩
          intro w hw; rw [hv] at hw; cases hw; exact hok
        · have := ih1 e he
          rw [hs e he] at this
          refine ⟨?_, this.2⟩
          rw [lookup, if_neg (fun h => hne e he h.symm)]
          exact this.1
      · intro k hk
        rw [lookup, if_neg (hk d (by simp))]
        exact ih2 k fun e he => hk e (by simp [he])
    cases hs : lookup d.name sent with
    | some v =>
      rw [hs] at h
      simp only [bind, Except.bind, pure, Except.pure] at h
      cases hv : validate S v d.type with
      | error e => simp [hv] at h
      | ok u =>
        cases hr : collectLoop S ds (remove d.name sent) with
        | error e => simp [hv, hr] at h
        | ok m' =>
          simp [hv, hr] at h
          refine rec_ v _ m' (by simp [supplied, hs]) ?_ hv hr h.symm
          intro e he
          simp only [supplied, remove_lookup _ _ _ (hne e he)]
    | none =>
      rw [hs] at h
      cases hdf : d.default with
      | some l =>
        rw [hdf] at h
        simp only [bind, Except.bind, pure, Except.pure] at h
        cases hv : validate S (litValue l) d.type with
        | error e => simp [hv] at h
        | ok u =>
          cases hr : collectLoop S ds sent with
          | error e => simp [hv, hr] at h
          | ok m' =>
            simp [hv, hr] at h
            exact rec_ (litValue l) _ m' (by simp [supplied, hs, hdf]) (fun _ _ => rfl) hv hr h.symm
      | none =>
        rw [hdf] at h
        simp only at h
        by_cases hnn : isNonNull d.type
        · simp [hnn] at h
        · rw [if_neg hnn] at h
          obtain ⟨ih1, ih2⟩ := ih hd.2 _ _ h
          constructor
          · intro e he
            rcases List.mem_cons.1 he with rfl | he
            · refine ⟨?_, by simp [supplied, hs, hdf], fun _ => by rwa [← isNonNull_iff]⟩
              rw [ih2 _ hne]
              simp [supplied, hs, hdf]
            · exact ih1 e he
          · intro k hk
            exact ih2 k fun e he => hk e (by simp [he])

/-- The loop succeeds if nothing is wrong with any variable. -/
theorem collectLoop_of (S : Schema) (ds : List VarDef) (hd : (ds.map (·.name)).Nodup) :
    ∀ (sent : List (String × Value)), (∀ d ∈ ds,
        (∀ v, supplied sent d = some v → validate S v d.type = .ok ()) ∧
        (supplied sent d = none → ¬ IsNonNull d.type)) → ∃ m, collectLoop S ds sent = .ok m := by
  induction ds with
  | nil => intro sent _; exact ⟨_, rfl⟩
  | cons d ds ih =>
    simp only [List.map_cons, List.nodup_cons] at hd
    have hne : ∀ e ∈ ds, e.name ≠ d.name := fun e he h => hd.1 (List.mem_map.2 ⟨e, he, h⟩)
    intro sent h
    have hd1 := h d (by simp)
    rw [collectLoop]
    cases hs : lookup d.name sent with
    | some v =>
      obtain ⟨m, hm⟩ := ih hd.2 (remove d.name sent) (by
        intro e he
        have : supplied (remove d.name sent) e = supplied sent e := by
          simp only [supplied, remove_lookup _ _ _ (hne e he)]
        rw [this]; exact h e (by simp [he]))
      refine ⟨(d.name, v) :: m, ?_⟩
      simp [hd1.1 v (by simp [supplied, hs]), hm, bind, Except.bind, pure, Except.pure]
    | none =>
      obtain ⟨m, hm⟩ := ih hd.2 sent (fun e he => h e (by simp [he]))
      cases hdf : d.default with
      | some l =>
        refine ⟨(d.name, litValue l) :: m, ?_⟩
        simp [hd1.1 _ (by simp [supplied, hs, hdf]; rfl), hm, bind, Except.bind, pure, Except.pure]
      | none =>
        have : isNonNull d.type ≠ true := by
          rw [Ne, isNonNull_iff]; exact hd1.2 (by simp [supplied, hs, hdf])
        exact ⟨m, by simp [this, hm]⟩

/-- **C12** (partial: for types of scalars and enums, and `Int`s of 32 bits) A request goes on to
execution only if each variable has a value of its type - the one sent, or else the default - or is
nullable and has none; execution sees these values and no others. -/
theorem C12_request_partial (T : Types) (ds : List VarDef) (hd : (ds.map (·.name)).Nodup)
    (sent : List (String × Value)) (m : Option (List (String × Value)))
    (hp : ∀ d ∈ ds, Leafy T d.type ∧ ∀ v, supplied sent d = some v → SmallInts v d.type)
    (h : collect T.schema (some ds) sent = .ok m) :
    (∀ d ∈ ds, lookup d.name (m.getD []) = supplied sent d ∧
      (∀ v, supplied sent d = some v → Conforms T v d.type) ∧
      (supplied sent d = none → ¬ IsNonNull d.type)) ∧
    ∀ k, (∀ d ∈ ds, d.name ≠ k) → lookup k (m.getD []) = none := by
  rw [collect] at h
  simp only [bind, Except.bind, pure, Except.pure] at h
  cases hl : collectLoop T.schema ds sent with
  | error e => simp [hl] at h
  | ok m' =>
    simp [hl] at h
    have hm : m.getD [] = m' := by
      subst h
      cases m' <;> simp
    rw [hm]
    obtain ⟨h1, h2⟩ := collectLoop_ok _ _ hd _ _ hl
    refine ⟨fun d hdm => ⟨(h1 d hdm).1, fun v hv => ?_, (h1 d hdm).2.2⟩, h2⟩
    exact C12_conforms_partial T v d.type (hp d hdm).1 ((hp d hdm).2 v hv) ((h1 d hdm).2.1 v hv)

/-- **C12** (partial: for types of scalars and enums, `ID`s that are strings and `Float`s below
`2 ^ 63`) A request whose variables all have values of their types is not rejected. -/
theorem C12_not_rejected_partial (T : Types) (ds : List VarDef) (hd : (ds.map (·.name)).Nodup)
    (sent : List (String × Value))
    (hp : ∀ d ∈ ds, Leafy T d.type ∧ ∀ v, supplied sent d = some v → PlainNumbers v d.type)
    (h : ∀ d ∈ ds, (∀ v, supplied sent d = some v → Conforms T v d.type) ∧
      (supplied sent d = none → ¬ IsNonNull d.type)) :
    ∃ m, collect T.schema (some ds) sent = .ok m := by
  obtain ⟨m, hm⟩ := collectLoop_of T.schema ds hd sent fun d hdm =>
    ⟨fun v hv => C12_accepts_partial T v d.type (hp d hdm).1 ((hp d hdm).2 v hv) ((h d hdm).1 v hv),
      (h d hdm).2⟩
  exact ⟨_, by simp [collect, hm, bind, Except.bind]; rfl⟩

/-- **C12** A required variable that is absent is reported by its name, if no variable before it is
wrong. -/
theorem C12_missing (T : Types) (d : VarDef) (ds : List VarDef) (sent : List (String × Value))
    (h : supplied sent d = none) (hn : IsNonNull d.type) :
    collect T.schema (some (d :: ds)) sent = .error (.missing d.name d.type) := by
  have hs : lookup d.name sent = none := by
    unfold supplied at h; split at h
    · cases h
    · assumption
  have hdf : d.default = none := by
    simpa [supplied, hs] using h
  simp [collect, collectLoop, hs, hdf, (isNonNull_iff _).2 hn, bind, Except.bind]

/-! ## Where the code does less than C12 -/

/-- **C12** is not met for input objects: every value that is not null is accepted, whatever the fields
of the input object are. -/
theorem C12_input_object (T : Types) (n : String) (fields) (hn : lookup n T.inputs = some fields)
    (he : lookup n T.enums = none) (ho : lookup n T.outputs = none) (hb : n ∉ builtins) (v : Value) :
    validate T.schema v (.named n) = .ok () := by
  by_cases hv : v = .null
  · subst hv; rw [validate_null]; simp [IsNonNull]
  · rw [validate_named _ _ _ hv ho]
    simp [builtins] at hb
    simp [Types.schema, he, checkScalar, hb]

/-- **C12** is not met for `Int`: integers of more than 32 bits are accepted. -/
theorem C12_int (T : Types) (h : T.Scalar "Int") (ho : lookup "Int" T.outputs = none) (i : Int)
    (hi : 2 ^ 31 ≤ i) : validate T.schema (.i64 i) (.named "Int") = .ok () ∧
      ¬ Conforms T (.i64 i) (.named "Int") := by
  constructor
  · rw [validate_named _ _ _ (by simp) ho]
    simp [Types.schema, h.1, checkScalar]
  · intro hc
    generalize hn : TypeNode.named "Int" = t at hc
    generalize hv : Value.i64 i = v at hc
    cases hc <;> simp at hn hv
    · omega
    · simp_all [builtins]

/-- `ID`s that are integers are rejected although the GraphQL specification admits them. -/
theorem C12_integer_id (T : Types) (h : T.Scalar "ID") (ho : lookup "ID" T.outputs = none) (i : Int) :
    validate T.schema (.i64 i) (.named "ID") = .error .expectedId ∧
      Conforms T (.i64 i) (.named "ID") := by
  constructor
  · rw [validate_named _ _ _ (by simp) ho]
    simp [Types.schema, h.1, checkScalar]
  · exact .idInt i h

/-- **C12** is not met by errors about a wrong value: they do not say which variable it was. Requests
that differ in the name of the variable get the same error. -/
theorem C12_error_anonymous (T : Types) (a b : String) (t : TypeNode) (v : Value) (e : Err)
    (h : collect T.schema (some [⟨a, t, none⟩]) [(a, v)] = .error e) :
    collect T.schema (some [⟨b, t, none⟩]) [(b, v)] = .error e := by
  simp only [collect, collectLoop, lookup, if_true, bind, Except.bind, pure, Except.pure] at h ⊢
  cases hv : validate T.schema v t with
  | error e' => simpa [hv] using h
  | ok u => simp [hv] at h

/-! ## Concrete cases -/

namespace Ex

def T : Types where
  enums := [("Color", ["RED", "BLUE"])]
  inputs := [("Filter", [("max", .nonNull (.named "Int"), false)])]
  outputs := [("Query", [("me", "String")])]

def ds : List VarDef :=
  [⟨"colors", .nonNull (.list (.nonNull (.named "Color"))), none⟩,
   ⟨"first", .named "Int", some (.int 10)⟩,
   ⟨"after", .named "String", none⟩]

/-- The hypotheses of `C12_request_partial` and `C12_not_rejected_partial` can be met. -/
example : collect T.schema (some ds) [("other", .null), ("colors", .arr [.str "RED"])] =
    .ok (some [("colors", .arr [.str "RED"]), ("first", .i64 10)]) := by rfl

example : collect T.schema (some ds) [("colors", .arr [.str "RED", .null])] =
    .error (.unexpectedNull (.nonNull (.named "Color"))) := by rfl

example : (ds.map (·.name)).Nodup := by decide

example : ∀ d ∈ ds, Leafy T d.type := by
  intro d h
  simp [ds] at h
  rcases h with rfl | rfl | rfl <;> exact ⟨by decide, by rfl⟩

example : SmallInts (.i64 10) (.named "Int") := by
  intro _ i h
  cases h
  decide

example : Conforms T (.arr [.str "RED"]) (.nonNull (.list (.nonNull (.named "Color")))) :=
  C12_conforms_partial T _ _ ⟨by rfl, by rfl⟩ (by intro h; simp [base] at h) (by rfl)

/-- `C12_input_object`: a filter without its required field is accepted. -/
example : validate T.schema (.obj []) (.named "Filter") = .ok () ∧
    ¬ Conforms T (.obj []) (.named "Filter") := by
  refine ⟨C12_input_object T "Filter" _ rfl rfl rfl (by decide) _, fun h => ?_⟩
  cases h with
  | input _ fields _ he hf h1 h2 h3 =>
    have hf' : fields = [("max", .nonNull (.named "Int"), false)] := by
      have : lookup "Filter" T.inputs = some [("max", .nonNull (.named "Int"), false)] := rfl
      rw [this] at hf; cases hf; rfl
    subst hf'
    have := h3 "max" (.nonNull (.named "Int")) (by simp) ⟨_, rfl⟩
    simp [lookup] at this
  | custom _ _ hs => cases hs.2

end Ex

end Verif.Variables
