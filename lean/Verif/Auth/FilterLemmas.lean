import Verif.Auth.SearchLemmas

namespace Verif.Auth

theorem live_iff (vars : Vars) (sk inc : Option String) :
    isIgnored vars sk inc = false ↔ Live vars sk inc := by
  simp only [isIgnored, Live, Bool.or_eq_false_iff]
  refine and_congr ?_ ?_
  · cases sk with
    | none => simp
    | some v => cases h : vars.lookup v with
      | none => simp [h]
      | some b => cases b <;> simp [h]
  · cases inc with
    | none => simp
    | some v => cases h : vars.lookup v with
      | none => simp [h]
      | some b => cases b <;> simp [h]

theorem not_live_iff (vars : Vars) (sk inc : Option String) :
    isIgnored vars sk inc = true ↔ ¬ Live vars sk inc := by
  rw [← live_iff]; simp

section
variable {S : Schema} {vars : Vars} {fieldOk : String → String → String → Prop}
  {fragOk : String → String → Prop}

local notation "B" => Bubbles S vars fieldOk fragOk
local notation "R" => Removed S vars fieldOk fragOk
local notation "D" => Denied S vars fieldOk fragOk

/-! ### Monotonicity and inversion of the specification -/

theorem Bubbles.mono {p : String} {a b : List Sel} (hab : ∀ x ∈ a, x ∈ b) (h : B p a) : B p b := by
  cases h with
  | denied h1 h2 h3 h4 h5 h6 => exact .denied (hab _ h1) h2 h3 h4 h5 h6
  | nested h1 h2 h3 h4 h5 h6 h7 => exact .nested (hab _ h1) h2 h3 h4 h5 h6 h7
  | inFrag h1 h2 h3 h4 => exact .inFrag (hab _ h1) h2 h3 h4

theorem Removed.mono {p : String} {a b : List Sel} {q : List Seg} (hab : ∀ x ∈ a, x ∈ b)
    (h : R p a q) : R p b q := by
  cases h with
  | denied h1 h2 h3 h4 h5 => exact .denied (hab _ h1) h2 h3 h4 h5
  | bubbled h1 h2 h3 h4 h5 h6 => exact .bubbled (hab _ h1) h2 h3 h4 h5 h6
  | inField h1 h2 h3 h4 h5 h6 => exact .inField (hab _ h1) h2 h3 h4 h5 h6
  | inFrag h1 h2 h3 h4 => exact .inFrag (hab _ h1) h2 h3 h4
  | deniedFrag h1 h2 h3 h4 => exact .deniedFrag (hab _ h1) h2 h3 h4

theorem Denied.mono {p : String} {a b : List Sel} {q : List String} (hab : ∀ x ∈ a, x ∈ b)
    (h : D p a q) : D p b q := by
  cases h with
  | field h1 h2 h3 h4 h5 => exact .field (hab _ h1) h2 h3 h4 h5
  | frag h1 h2 h3 => exact .frag (hab _ h1) h2 h3
  | inField h1 h2 h3 h4 h5 h6 => exact .inField (hab _ h1) h2 h3 h4 h5 h6
  | inFrag h1 h2 h3 h4 => exact .inFrag (hab _ h1) h2 h3 h4

/-- Each of the three relations on `x :: rest` is the relation on `[x]` or on `rest`. -/
theorem bubbles_cons {p : String} {x : Sel} {rest : List Sel} :
    B p (x :: rest) ↔ B p [x] ∨ B p rest := by
  constructor
  · intro h
    cases h with
    | denied h1 h2 h3 h4 h5 h6 =>
      rcases List.mem_cons.1 h1 with h1 | h1
      · exact Or.inl (.denied (List.mem_singleton.2 h1) h2 h3 h4 h5 h6)
      · exact Or.inr (.denied h1 h2 h3 h4 h5 h6)
    | nested h1 h2 h3 h4 h5 h6 h7 =>
      rcases List.mem_cons.1 h1 with h1 | h1
      · exact Or.inl (.nested (List.mem_singleton.2 h1) h2 h3 h4 h5 h6 h7)
      · exact Or.inr (.nested h1 h2 h3 h4 h5 h6 h7)
    | inFrag h1 h2 h3 h4 =>
      rcases List.mem_cons.1 h1 with h1 | h1
      · exact Or.inl (.inFrag (List.mem_singleton.2 h1) h2 h3 h4)
      · exact Or.inr (.inFrag h1 h2 h3 h4)
  · rintro (h | h)
    · exact h.mono (by simp)
    · exact h.mono (by intro y hy; simp [hy])

theorem removed_cons {p : String} {x : Sel} {rest : List Sel} {q : List Seg} :
    R p (x :: rest) q ↔ R p [x] q ∨ R p rest q := by
  constructor
  · intro h
    cases h with
    | denied h1 h2 h3 h4 h5 =>
      rcases List.mem_cons.1 h1 with rfl | h1
      · exact Or.inl (.denied (by simp; rfl) h2 h3 h4 h5)
      · exact Or.inr (.denied h1 h2 h3 h4 h5)
    | bubbled h1 h2 h3 h4 h5 h6 =>
      rcases List.mem_cons.1 h1 with rfl | h1
      · exact Or.inl (.bubbled (List.mem_singleton.2 rfl) h2 h3 h4 h5 h6)
      · exact Or.inr (.bubbled h1 h2 h3 h4 h5 h6)
    | inField h1 h2 h3 h4 h5 h6 =>
      rcases List.mem_cons.1 h1 with rfl | h1
      · exact Or.inl (.inField (List.mem_singleton.2 rfl) h2 h3 h4 h5 h6)
      · exact Or.inr (.inField h1 h2 h3 h4 h5 h6)
    | inFrag h1 h2 h3 h4 =>
      rcases List.mem_cons.1 h1 with rfl | h1
      · exact Or.inl (.inFrag (List.mem_singleton.2 rfl) h2 h3 h4)
      · exact Or.inr (.inFrag h1 h2 h3 h4)
    | deniedFrag h1 h2 h3 h4 =>
      rcases List.mem_cons.1 h1 with rfl | h1
      · exact Or.inl (.deniedFrag (List.mem_singleton.2 rfl) h2 h3 h4)
      · exact Or.inr (.deniedFrag h1 h2 h3 h4)
  · rintro (h | h)
    · exact h.mono (by simp)
    · exact h.mono (by intro y hy; simp [hy])

theorem denied_cons {p : String} {x : Sel} {rest : List Sel} {q : List String} :
    D p (x :: rest) q ↔ D p [x] q ∨ D p rest q := by
  constructor
  · intro h
    cases h with
    | field h1 h2 h3 h4 h5 =>
      rcases List.mem_cons.1 h1 with rfl | h1
      · exact Or.inl (.field (List.mem_singleton.2 rfl) h2 h3 h4 h5)
      · exact Or.inr (.field h1 h2 h3 h4 h5)
    | frag h1 h2 h3 =>
      rcases List.mem_cons.1 h1 with rfl | h1
      · exact Or.inl (.frag (List.mem_singleton.2 rfl) h2 h3)
      · exact Or.inr (.frag h1 h2 h3)
    | inField h1 h2 h3 h4 h5 h6 =>
      rcases List.mem_cons.1 h1 with rfl | h1
      · exact Or.inl (.inField (List.mem_singleton.2 rfl) h2 h3 h4 h5 h6)
      · exact Or.inr (.inField h1 h2 h3 h4 h5 h6)
    | inFrag h1 h2 h3 h4 =>
      rcases List.mem_cons.1 h1 with rfl | h1
      · exact Or.inl (.inFrag (List.mem_singleton.2 rfl) h2 h3 h4)
      · exact Or.inr (.inFrag h1 h2 h3 h4)
  · rintro (h | h)
    · exact h.mono (by simp)
    · exact h.mono (by intro y hy; simp [hy])

/-! Singletons. -/

theorem bubbles_nil {p : String} : ¬ B p [] := by
  intro h; cases h <;> simp_all

theorem removed_nil {p : String} {q : List Seg} : ¬ R p [] q := by
  intro h; cases h <;> simp_all

theorem denied_nil {p : String} {q : List String} : ¬ D p [] q := by
  intro h; cases h <;> simp_all

theorem bubbles_field {p : String} {f : FieldInfo} {s : List Sel} :
    B p [.field f s] ↔ Live vars f.skipIf f.includeIf ∧ f.name ≠ "__typename" ∧
      ∃ info, S.field p f.name = some info ∧ info.nullability.isNonNull = true ∧
        (fieldOk p f.name info.out → B info.out s) := by
  constructor
  · intro h
    cases h with
    | denied h1 h2 h3 h4 h5 h6 =>
      simp at h1; obtain ⟨rfl, rfl⟩ := h1
      exact ⟨h2, h3, _, h4, h5, fun h => absurd h h6⟩
    | nested h1 h2 h3 h4 h5 h6 h7 =>
      simp at h1; obtain ⟨rfl, rfl⟩ := h1
      exact ⟨h2, h3, _, h4, h5, fun _ => h7⟩
    | inFrag h1 => simp at h1
  · rintro ⟨h2, h3, info, h4, h5, h6⟩
    by_cases hok : fieldOk p f.name info.out
    · exact .nested (List.mem_singleton.2 rfl) h2 h3 h4 h5 hok (h6 hok)
    · exact .denied (List.mem_singleton.2 rfl) h2 h3 h4 h5 hok

theorem bubbles_frag {p : String} {g : FragInfo} {s : List Sel} :
    B p [.frag g s] ↔ Live vars g.skipIf g.includeIf ∧ fragOk g.cond p ∧ B g.cond s := by
  constructor
  · intro h
    cases h with
    | denied h1 => simp at h1
    | nested h1 => simp at h1
    | inFrag h1 h2 h3 h4 => simp at h1; obtain ⟨rfl, rfl⟩ := h1; exact ⟨h2, h3, h4⟩
  · rintro ⟨h2, h3, h4⟩; exact .inFrag (List.mem_singleton.2 rfl) h2 h3 h4

theorem removed_field {p : String} {f : FieldInfo} {s : List Sel} {q : List Seg} :
    R p [.field f s] q ↔ Live vars f.skipIf f.includeIf ∧ f.name ≠ "__typename" ∧
      ∃ info, S.field p f.name = some info ∧
        ((q = [.field f.key] ∧ (fieldOk p f.name info.out → B info.out s)) ∨
         (fieldOk p f.name info.out ∧ ∃ q', q = .field f.key :: q' ∧ R info.out s q')) := by
  constructor
  · intro h
    cases h with
    | denied h1 h2 h3 h4 h5 =>
      simp at h1; obtain ⟨rfl, rfl⟩ := h1
      exact ⟨h2, h3, _, h4, Or.inl ⟨rfl, fun h => absurd h h5⟩⟩
    | bubbled h1 h2 h3 h4 h5 h6 =>
      simp at h1; obtain ⟨rfl, rfl⟩ := h1
      exact ⟨h2, h3, _, h4, Or.inl ⟨rfl, fun _ => h6⟩⟩
    | inField h1 h2 h3 h4 h5 h6 =>
      simp at h1; obtain ⟨rfl, rfl⟩ := h1
      exact ⟨h2, h3, _, h4, Or.inr ⟨h5, _, rfl, h6⟩⟩
    | inFrag h1 => simp at h1
    | deniedFrag h1 => simp at h1
  · rintro ⟨h2, h3, info, h4, ⟨rfl, h5⟩ | ⟨h5, q', rfl, h6⟩⟩
    · by_cases hok : fieldOk p f.name info.out
      · exact .bubbled (List.mem_singleton.2 rfl) h2 h3 h4 hok (h5 hok)
      · exact .denied (List.mem_singleton.2 rfl) h2 h3 h4 hok
    · exact .inField (List.mem_singleton.2 rfl) h2 h3 h4 h5 h6

theorem removed_frag {p : String} {g : FragInfo} {s : List Sel} {q : List Seg} :
    R p [.frag g s] q ↔ Live vars g.skipIf g.includeIf ∧ ∃ q', q = .fragment g.cond :: q' ∧
      ((fragOk g.cond p ∧ R g.cond s q') ∨ (¬ fragOk g.cond p ∧ FieldThroughFragments s q')) := by
  constructor
  · intro h
    cases h with
    | denied h1 => simp at h1
    | bubbled h1 => simp at h1
    | inField h1 => simp at h1
    | inFrag h1 h2 h3 h4 => simp at h1; obtain ⟨rfl, rfl⟩ := h1; exact ⟨h2, _, rfl, Or.inl ⟨h3, h4⟩⟩
    | deniedFrag h1 h2 h3 h4 =>
      simp at h1; obtain ⟨rfl, rfl⟩ := h1; exact ⟨h2, _, rfl, Or.inr ⟨h3, h4⟩⟩
  · rintro ⟨h2, q', rfl, ⟨h3, h4⟩ | ⟨h3, h4⟩⟩
    · exact .inFrag (List.mem_singleton.2 rfl) h2 h3 h4
    · exact .deniedFrag (List.mem_singleton.2 rfl) h2 h3 h4

theorem denied_field {p : String} {f : FieldInfo} {s : List Sel} {q : List String} :
    D p [.field f s] q ↔ Live vars f.skipIf f.includeIf ∧ f.name ≠ "__typename" ∧
      ∃ info, S.field p f.name = some info ∧
        ((q = [f.key] ∧ ¬ fieldOk p f.name info.out) ∨
         (fieldOk p f.name info.out ∧ ∃ q', q = f.key :: q' ∧ D info.out s q')) := by
  constructor
  · intro h
    cases h with
    | field h1 h2 h3 h4 h5 =>
      simp at h1; obtain ⟨rfl, rfl⟩ := h1
      exact ⟨h2, h3, _, h4, Or.inl ⟨rfl, h5⟩⟩
    | frag h1 => simp at h1
    | inField h1 h2 h3 h4 h5 h6 =>
      simp at h1; obtain ⟨rfl, rfl⟩ := h1
      exact ⟨h2, h3, _, h4, Or.inr ⟨h5, _, rfl, h6⟩⟩
    | inFrag h1 => simp at h1
  · rintro ⟨h2, h3, info, h4, ⟨rfl, h5⟩ | ⟨h5, q', rfl, h6⟩⟩
    · exact .field (List.mem_singleton.2 rfl) h2 h3 h4 h5
    · exact .inField (List.mem_singleton.2 rfl) h2 h3 h4 h5 h6

theorem denied_frag {p : String} {g : FragInfo} {s : List Sel} {q : List String} :
    D p [.frag g s] q ↔ Live vars g.skipIf g.includeIf ∧
      ((fragOk g.cond p ∧ D g.cond s q) ∨ (¬ fragOk g.cond p ∧ q = [])) := by
  constructor
  · intro h
    cases h with
    | field h1 => simp at h1
    | frag h1 h2 h3 => simp at h1; obtain ⟨rfl, rfl⟩ := h1; exact ⟨h2, Or.inr ⟨h3, rfl⟩⟩
    | inField h1 => simp at h1
    | inFrag h1 h2 h3 h4 => simp at h1; obtain ⟨rfl, rfl⟩ := h1; exact ⟨h2, Or.inl ⟨h3, h4⟩⟩
  · rintro ⟨h2, ⟨h3, h4⟩ | ⟨h3, rfl⟩⟩
    · exact .inFrag (List.mem_singleton.2 rfl) h2 h3 h4
    · exact .frag (List.mem_singleton.2 rfl) h2 h3

theorem spread_none {p n : String} : ¬ B p [.spread n] ∧ (∀ q, ¬ R p [.spread n] q) ∧
    (∀ q, ¬ D p [.spread n] q) := by
  refine ⟨?_, ?_, ?_⟩
  · intro h; cases h <;> simp_all
  · intro q h; cases h <;> simp_all
  · intro q h; cases h <;> simp_all

theorem ftf_cons {x : Sel} {rest : List Sel} {q : List Seg} :
    FieldThroughFragments (x :: rest) q ↔
      FieldThroughFragments [x] q ∨ FieldThroughFragments rest q := by
  constructor
  · intro h
    cases h with
    | here h1 =>
      rcases List.mem_cons.1 h1 with rfl | h1
      · exact Or.inl (.here (List.mem_singleton.2 rfl))
      · exact Or.inr (.here h1)
    | inFrag h1 h2 =>
      rcases List.mem_cons.1 h1 with rfl | h1
      · exact Or.inl (.inFrag (List.mem_singleton.2 rfl) h2)
      · exact Or.inr (.inFrag h1 h2)
  · rintro (h | h)
    · cases h with
      | here h1 => exact .here (List.mem_cons.2 (Or.inl (List.mem_singleton.1 h1)))
      | inFrag h1 h2 => exact .inFrag (List.mem_cons.2 (Or.inl (List.mem_singleton.1 h1))) h2
    · cases h with
      | here h1 => exact .here (List.mem_cons_of_mem _ h1)
      | inFrag h1 h2 => exact .inFrag (List.mem_cons_of_mem _ h1) h2

theorem mem_collectAll (sels : List Sel) (q : List Seg) :
    q ∈ collectAll sels ↔ FieldThroughFragments sels q := by
  induction sels using Sels.ind generalizing q with
  | nil =>
    simp only [collectAll, List.not_mem_nil, false_iff]
    intro h; cases h <;> simp_all
  | field f s rest _ ih =>
    rw [ftf_cons, ← ih]
    simp only [collectAll, List.mem_cons]
    refine or_congr_left ?_
    constructor
    · rintro rfl; exact .here (List.mem_singleton.2 rfl)
    · intro h
      cases h with
      | here h1 => simp at h1; rw [h1.1]
      | inFrag h1 => simp at h1
  | frag g s rest ihs ih =>
    rw [ftf_cons, ← ih]
    simp only [collectAll, List.mem_append, List.mem_map]
    refine or_congr_left ?_
    constructor
    · rintro ⟨q', h, rfl⟩; exact .inFrag (List.mem_singleton.2 rfl) ((ihs q').1 h)
    · intro h
      cases h with
      | here h1 => simp at h1
      | inFrag h1 h2 => simp at h1; obtain ⟨rfl, rfl⟩ := h1; exact ⟨_, (ihs _).2 h2, rfl⟩
  | spread n rest ih =>
    rw [ftf_cons, ← ih]
    simp only [collectAll]
    constructor
    · exact Or.inr
    · rintro (h | h)
      · cases h <;> simp_all
      · exact h

/-! ### The filter computes the specification -/

/-- Every cached decision is the one the visitor would take. -/
def CacheOk (S : Schema) (V : Visitor) (st : St) : Prop :=
  ∀ p f d, st.decisions.lookup (p, f) = some d →
    ∃ info, S.field p f = some info ∧ d = V.fieldOk p f info.out

theorem decide_spec {V : Visitor} {p f : String} {info : FieldType} {st : St}
    (hf : S.field p f = some info) (hc : CacheOk S V st) :
    (decide? V p f info.out st).1 = V.fieldOk p f info.out ∧
    CacheOk S V (decide? V p f info.out st).2 ∧
    (decide? V p f info.out st).2.errors = st.errors ∧
    (decide? V p f info.out st).2.rejected = st.rejected := by
  simp only [decide?]
  cases h : st.decisions.lookup (p, f) with
  | some d =>
    obtain ⟨info', h1, h2⟩ := hc p f d h
    rw [hf] at h1; simp at h1; subst h1
    exact ⟨h2, hc, rfl, rfl⟩
  | none =>
    refine ⟨rfl, ?_, rfl, rfl⟩
    intro p' f' d' hl
    simp only [List.lookup] at hl
    by_cases he : (p', f') = (p, f)
    · simp at he; obtain ⟨rfl, rfl⟩ := he
      simp at hl; exact ⟨info, hf, hl.symm⟩
    · have : ((p', f') == (p, f)) = false := by simpa using he
      simp [this] at hl
      exact hc p' f' d' hl

/-- What one run of the filter adds. -/
def Adds (S : Schema) (vars : Vars) (fieldOk : String → String → String → Prop)
    (fragOk : String → String → Prop) (V : Visitor) (path : List Seg)
    (parent : String) (sels : List Sel) (st : St) (p : Bool) (st' : St) : Prop :=
  CacheOk S V st' ∧ (p = true ↔ Bubbles S vars fieldOk fragOk parent sels) ∧
  (∃ rs : List (List Seg), st'.rejected = st.rejected ++ rs.map (path ++ ·) ∧
    ∀ q, q ∈ rs ↔ Removed S vars fieldOk fragOk parent sels q) ∧
  ∃ es : List (List String), st'.errors = st.errors ++ es.map (fieldNames path ++ ·) ∧
    ∀ q, q ∈ es ↔ Denied S vars fieldOk fragOk parent sels q

theorem Adds.cons {V : Visitor} {path : List Seg} {parent : String} {x : Sel} {rest : List Sel}
    {st st1 st2 : St} {p1 p2 p : Bool}
    (h1 : Adds S vars fieldOk fragOk V path parent [x] st p1 st1)
    (h2 : Adds S vars fieldOk fragOk V path parent rest st1 p2 st2) (hp : p = (p1 || p2)) :
    Adds S vars fieldOk fragOk V path parent (x :: rest) st p st2 := by
  obtain ⟨_, a2, ⟨rs1, a3, a3'⟩, es1, a4, a4'⟩ := h1
  obtain ⟨b1, b2, ⟨rs2, b3, b3'⟩, es2, b4, b4'⟩ := h2
  refine ⟨b1, ?_, ⟨rs1 ++ rs2, by simp [b3, a3], fun q => ?_⟩, es1 ++ es2, by simp [b4, a4],
    fun q => ?_⟩
  · rw [hp, Bool.or_eq_true, a2, b2]; exact bubbles_cons.symm
  · rw [List.mem_append, a3', b3']; exact removed_cons.symm
  · rw [List.mem_append, a4', b4']; exact denied_cons.symm

theorem Adds.skip {V : Visitor} {path : List Seg} {parent : String} {x : Sel} {st : St}
    (hc : CacheOk S V st) (h1 : ¬ B parent [x]) (h2 : ∀ q, ¬ R parent [x] q)
    (h3 : ∀ q, ¬ D parent [x] q) :
    Adds S vars fieldOk fragOk V path parent [x] st false st :=
  ⟨hc, by simp [h1], ⟨[], by simp, fun q => by simp [h2 q]⟩, [], by simp, fun q => by simp [h3 q]⟩

theorem fieldNames_append (p q : List Seg) : fieldNames (p ++ q) = fieldNames p ++ fieldNames q := by
  simp [fieldNames]

theorem visit_spec (V : Visitor)
    (hfield : ∀ p f info, S.field p f = some info →
      (V.fieldOk p f info.out = true ↔ fieldOk p f info.out))
    (hfrag : ∀ c p, V.fragOk c p = true ↔ fragOk c p) (sels : List Sel) :
    ∀ (path : List Seg) (parent : String) (st : St) (p : Bool) (st' : St), CacheOk S V st →
      visit S vars V path parent sels st = .ok (p, st') →
      Adds S vars fieldOk fragOk V path parent sels st p st' := by
  induction sels using Sels.ind with
  | nil =>
    intro path parent st p st' hc h
    simp [visit] at h
    obtain ⟨rfl, rfl⟩ := h
    exact ⟨hc, by simp [bubbles_nil], ⟨[], by simp, fun q => by simp [removed_nil]⟩, [], by simp,
      fun q => by simp [denied_nil]⟩
  | spread n rest ih =>
    intro path parent st p st' hc h
    simp only [visit] at h
    exact Adds.cons (Adds.skip hc spread_none.1 spread_none.2.1 spread_none.2.2)
      (ih path parent st p st' hc h) (by simp)
  | field f s rest ihs ih =>
    intro path parent st p st' hc h
    rw [visit] at h
    by_cases hl : Live vars f.skipIf f.includeIf
    · rw [(live_iff _ _ _).2 hl] at h
      by_cases hn : f.name = "__typename"
      · simp only [hn, Bool.false_eq_true, if_false, if_true] at h
        exact Adds.cons (Adds.skip hc (by rw [bubbles_field]; simp [hn])
          (fun q => by rw [removed_field]; simp [hn]) (fun q => by rw [denied_field]; simp [hn]))
          (ih path parent st p st' hc h) (by simp)
      · simp only [hn, Bool.false_eq_true, if_false] at h
        cases hf : S.field parent f.name with
        | none => simp [hf] at h
        | some info =>
          simp only [hf] at h
          obtain ⟨d1, d2, d3, d4⟩ := decide_spec hf hc
          rcases hd : decide? V parent f.name info.out st with ⟨ok, st0⟩
          rw [hd] at d1 d2 d3 d4 h
          simp only at d1 d2 d3 d4 h
          have hiff := hfield _ _ _ hf
          rw [← d1] at hiff
          -- the part about this field
          have key : ∃ rej st1, Adds S vars fieldOk fragOk V path parent [.field f s] st
              (rej && info.nullability.isNonNull) st1 ∧
              (match visit S vars V path parent rest st1 with
                | .error e => Except.error e
                | .ok (p, st) => .ok ((rej && info.nullability.isNonNull) || p, st)) =
                .ok (p, st') := by
            cases ok with
            | false =>
              have hnok : ¬ fieldOk parent f.name info.out := fun e => by simpa using hiff.2 e
              refine ⟨true, _, ?_, h⟩
              refine ⟨d2, ?_, ⟨[[.field f.key]], by simp [d4], fun q => ?_⟩, [[f.key]],
                by simp [d3, fieldNames_append, fieldNames], fun q => ?_⟩
              · rw [bubbles_field]
                simp [hl, hn, hf, hnok]
              · rw [removed_field]
                simp [hl, hn, hf, hnok]
              · rw [denied_field]
                simp [hl, hn, hf, hnok]
            | true =>
              have hok : fieldOk parent f.name info.out := hiff.1 rfl
              cases hv : visit S vars V (path ++ [.field f.key]) info.out s st0 with
              | error e => simp [hv] at h
              | ok r =>
                obtain ⟨pr, st1⟩ := r
                obtain ⟨c1, c2, ⟨rs, c3, c3'⟩, es, c4, c4'⟩ := ihs _ _ _ _ _ d2 hv
                have herr : (es.map (f.key :: ·)).map (fieldNames path ++ ·) =
                    es.map (fieldNames (path ++ [.field f.key]) ++ ·) := by
                  simp [fieldNames_append, fieldNames]
                have hrej : (rs.map (Seg.field f.key :: ·)).map (path ++ ·) =
                    rs.map (path ++ [.field f.key] ++ ·) := by
                  simp
                cases pr with
                | true =>
                  simp only [hv, if_true] at h
                  refine ⟨true, _, ?_, h⟩
                  have hb := c2.1 rfl
                  refine ⟨c1, ?_, ⟨rs.map (Seg.field f.key :: ·) ++ [[.field f.key]], ?_,
                    fun q => ?_⟩, es.map (f.key :: ·), ?_, fun q => ?_⟩
                  · rw [bubbles_field]; simp [hl, hn, hf, hok, hb]
                  · simp [c3, d4]
                  · rw [removed_field]
                    simp only [List.mem_append, List.mem_map, List.mem_singleton, c3']
                    simp only [hl, hn, hf, hok, hb, ne_eq, not_false_eq_true, true_and, forall_true_left,
                      and_true, Option.some.injEq, exists_eq_left']
                    constructor
                    · rintro (⟨a, h1, rfl⟩ | rfl)
                      · exact Or.inr ⟨a, rfl, h1⟩
                      · exact Or.inl rfl
                    · rintro (rfl | ⟨a, rfl, h1⟩)
                      · exact Or.inr rfl
                      · exact Or.inl ⟨a, h1, rfl⟩
                  · rw [herr, ← d3]; exact c4
                  · rw [denied_field]
                    simp only [List.mem_map, c4']
                    simp only [hl, hn, hf, hok, ne_eq, not_false_eq_true, true_and,
                      Option.some.injEq, exists_eq_left', not_true, and_false, false_or]
                    constructor
                    · rintro ⟨a, h1, rfl⟩; exact ⟨a, rfl, h1⟩
                    · rintro ⟨a, rfl, h1⟩; exact ⟨a, h1, rfl⟩
                | false =>
                  simp only [hv, if_true] at h
                  refine ⟨false, _, ?_, h⟩
                  have hb : ¬ B info.out s := fun e => by simpa using c2.2 e
                  refine ⟨c1, ?_, ⟨rs.map (Seg.field f.key :: ·), ?_, fun q => ?_⟩,
                    es.map (f.key :: ·), ?_, fun q => ?_⟩
                  · rw [bubbles_field]; simp [hl, hn, hf, hok, hb]
                  · rw [hrej, ← d4]; exact c3
                  · rw [removed_field]
                    simp only [List.mem_map, c3']
                    simp only [hl, hn, hf, hok, hb, ne_eq, not_false_eq_true, true_and, forall_true_left,
                      and_false, Option.some.injEq, exists_eq_left', false_or]
                    constructor
                    · rintro ⟨a, h1, rfl⟩; exact ⟨a, rfl, h1⟩
                    · rintro ⟨a, rfl, h1⟩; exact ⟨a, h1, rfl⟩
                  · rw [herr, ← d3]; exact c4
                  · rw [denied_field]
                    simp only [List.mem_map, c4']
                    simp only [hl, hn, hf, hok, ne_eq, not_false_eq_true, true_and,
                      Option.some.injEq, exists_eq_left', not_true, and_false, false_or]
                    constructor
                    · rintro ⟨a, h1, rfl⟩; exact ⟨a, rfl, h1⟩
                    · rintro ⟨a, rfl, h1⟩; exact ⟨a, h1, rfl⟩
          obtain ⟨rej, st1, hadd, hrest⟩ := key
          cases hv : visit S vars V path parent rest st1 with
          | error e => simp [hv] at hrest
          | ok r =>
            obtain ⟨p2, st2⟩ := r
            simp only [hv, Except.ok.injEq, Prod.mk.injEq] at hrest
            obtain ⟨hp, rfl⟩ := hrest
            exact Adds.cons hadd (ih _ _ _ _ _ hadd.1 hv) hp.symm
    · rw [(not_live_iff _ _ _).2 hl] at h
      simp only [if_true] at h
      exact Adds.cons (Adds.skip hc (by rw [bubbles_field]; simp [hl])
        (fun q => by rw [removed_field]; simp [hl]) (fun q => by rw [denied_field]; simp [hl]))
        (ih path parent st p st' hc h) (by simp)
  | frag g s rest ihs ih =>
    intro path parent st p st' hc h
    rw [visit] at h
    by_cases hl : Live vars g.skipIf g.includeIf
    · rw [(live_iff _ _ _).2 hl] at h
      simp only [Bool.false_eq_true, if_false] at h
      have key : ∃ p1 st1, Adds S vars fieldOk fragOk V path parent [.frag g s] st p1 st1 ∧
          (match visit S vars V path parent rest st1 with
            | .error e => Except.error e
            | .ok (p', st) => .ok (p1 || p', st)) = .ok (p, st') := by
        cases hok : V.fragOk g.cond parent with
        | true =>
          have hok' := (hfrag _ _).1 hok
          simp only [hok, if_true] at h
          cases hv : visit S vars V (path ++ [.fragment g.cond]) g.cond s st with
          | error e => simp [hv] at h
          | ok r =>
            obtain ⟨p1, st1⟩ := r
            simp only [hv] at h
            obtain ⟨c1, c2, ⟨rs, c3, c3'⟩, es, c4, c4'⟩ := ihs _ _ _ _ _ hc hv
            refine ⟨p1, st1, ⟨c1, ?_, ⟨rs.map (Seg.fragment g.cond :: ·), ?_, fun q => ?_⟩, es, ?_,
              fun q => ?_⟩, h⟩
            · rw [bubbles_frag, c2]; simp [hl, hok']
            · simp [c3]
            · rw [removed_frag]
              simp only [List.mem_map, c3', hl, hok', true_and, not_true, false_and, or_false]
              constructor
              · rintro ⟨a, h1, rfl⟩; exact ⟨a, rfl, h1⟩
              · rintro ⟨a, rfl, h1⟩; exact ⟨a, h1, rfl⟩
            · rw [c4]; simp [fieldNames_append, fieldNames]
            · rw [denied_frag]; simp [hl, hok', c4']
        | false =>
          have hok' : ¬ fragOk g.cond parent := fun e => by
            have := (hfrag _ _).2 e; simp [hok] at this
          simp only [hok, Bool.false_eq_true, if_false] at h
          refine ⟨false, _, ?_, h⟩
          refine ⟨hc, ?_, ⟨(collectAll s).map (Seg.fragment g.cond :: ·), ?_, fun q => ?_⟩, [[]], ?_,
            fun q => ?_⟩
          · rw [bubbles_frag]; simp [hok']
          · simp
          · rw [removed_frag]
            simp only [List.mem_map, mem_collectAll, hl, hok', true_and, not_false_eq_true,
              false_and, false_or]
            constructor
            · rintro ⟨a, h1, rfl⟩; exact ⟨a, rfl, h1⟩
            · rintro ⟨a, rfl, h1⟩; exact ⟨a, h1, rfl⟩
          · simp
          · rw [denied_frag]; simp [hl, hok']
      obtain ⟨p1, st1, hadd, hrest⟩ := key
      cases hv : visit S vars V path parent rest st1 with
      | error e => simp [hv] at hrest
      | ok r =>
        obtain ⟨p2, st2⟩ := r
        simp only [hv, Except.ok.injEq, Prod.mk.injEq] at hrest
        obtain ⟨hp, rfl⟩ := hrest
        exact Adds.cons hadd (ih _ _ _ _ _ hadd.1 hv) hp.symm
    · rw [(not_live_iff _ _ _).2 hl] at h
      simp only [if_true] at h
      exact Adds.cons (Adds.skip hc (by rw [bubbles_frag]; simp [hl])
        (fun q => by rw [removed_frag]; simp [hl]) (fun q => by rw [denied_frag]; simp [hl]))
        (ih path parent st p st' hc h) (by simp)

theorem filter_spec (V : Visitor)
    (hfield : ∀ p f info, S.field p f = some info →
      (V.fieldOk p f info.out = true ↔ fieldOk p f info.out))
    (hfrag : ∀ c p, V.fragOk c p = true ↔ fragOk c p) {root : String} {sels : List Sel} {st : St}
    (h : filter S vars V root sels = .ok st) :
    (∀ q, q ∈ st.rejected ↔ R root sels q) ∧ (∀ q, q ∈ st.errors ↔ D root sels q) := by
  simp only [filter] at h
  cases hv : visit S vars V [] root sels {} with
  | error e => simp [hv] at h
  | ok r =>
    obtain ⟨p, st1⟩ := r
    simp [hv] at h; subst h
    have hc : CacheOk S V {} := by intro p f d hd; simp [List.lookup] at hd
    obtain ⟨_, _, ⟨rs, h1, h2⟩, es, h3, h4⟩ := visit_spec (fieldOk := fieldOk) (fragOk := fragOk)
      V hfield hfrag sels [] root {} p st1 hc hv
    simp [fieldNames] at h1 h3
    rw [h1, h3]
    exact ⟨h2, h4⟩
end

end Verif.Auth
