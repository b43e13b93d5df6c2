import Verif.Builder.Static

/-!
# Merging plans

For an object of one type, merged plans show what the plans showed before.
-/

namespace Verif.Builder

open Verif.Projection
open Verif.Normalize (Item)

variable {S : Meta}

/-- What a plan shows below its own field. -/
def Below (V : Val) (p : Plan) (rest : List Step) : Prop :=
  match p with
  | .null _ => rest = []
  | .leaf _ => True
  | .node _ cs => Shows V cs rest

theorem shows_cons {V : Val} {ps : List Plan} {st : Step} {rest : List Step} :
    Shows V ps (st :: rest) ↔ ∃ p ∈ ps, p.info.responseKey = st.key ∧ p.info.fieldName = st.name ∧
      GuardMeans st.type p.info.guard ∧ HoldsOpt V st.type p.info.conditions ∧ Below V p rest := by
  rw [Shows]; rfl

theorem shows_nil {V : Val} {ps : List Plan} : Shows V ps [] := by rw [Shows]; trivial

theorem shows_congr {V : Val} {ps qs : List Plan} (h : ∀ x, x ∈ ps ↔ x ∈ qs) (path : List Step) :
    Shows V ps path ↔ Shows V qs path := by
  cases path with
  | nil => simp [shows_nil]
  | cons st rest => simp only [shows_cons, h]

theorem shows_append {V : Val} {ps qs : List Plan} {path : List Step} (hp : path ≠ []) :
    Shows V (ps ++ qs) path ↔ Shows V ps path ∨ Shows V qs path := by
  cases path with
  | nil => simp at hp
  | cons st rest => simp only [shows_cons, List.mem_append]; grind

theorem shows_empty {V : Val} {path : List Step} (hp : path ≠ []) : ¬ Shows V [] path := by
  cases path with
  | nil => simp at hp
  | cons st rest => simp [shows_cons]

/-- The condition and what is below, without the guard. -/
def Loose (V : Val) (T : String) (p : Plan) (rest : List Step) : Prop :=
  HoldsOpt V T p.info.conditions ∧ Below V p rest

theorem setGuard_below (V : Val) (g : TypeCond) (p : Plan) (rest : List Step) :
    Below V (setGuard g p) rest ↔ Below V p rest := by cases p <;> rfl

theorem setGuard_loose (V : Val) (T : String) (g : TypeCond) (p : Plan) (rest : List Step) :
    Loose V T (setGuard g p) rest ↔ Loose V T p rest := by
  simp [Loose, setGuard_below]

/-- The rest of a path after a field. -/
def FitsRest (S : Meta) (T name : String) (rest : List Step) : Prop :=
  rest = [] ∨ (name ≠ "__typename" ∧ ∃ ft, S.field T name = some ft ∧ Fits S (Obj S ft.out) rest)

/-! ## What holds of a plan at a type -/

/-- The field belongs to a type above the object type and above the guard's types. -/
def Owner (S : Meta) (P T : String) (i : PlanInfo) : Prop :=
  ∃ Q ft, fieldInfo S Q i.fieldName = some ft ∧ OfType S T Q ∧ (i.guard = none → Q = P) ∧
    ∀ g, i.guard = some g → (∃ X, g.Names X) ∧ ∀ X, g.Names X → OfType S X Q

/-- The data of a field is as the schema says: its runtime type is one of the declared type's, and
the name of an enum value is one of the enum's. -/
def GoodData (S : Meta) (T n f : String) (v : Option Value) : Prop :=
  ∀ ft, fieldInfo S T n = some ft → OfType S f ft.out ∧
    ∀ vals, S.enums.lookup ft.out = some vals → ∀ x, v = some (.str x) → x ∈ vals

inductive AtInv (S : Meta) : String → String → Plan → Prop where
  | mk {P T : String} {p : Plan} :
      HoldsOpt .free T p.info.conditions →
      Owner S P T p.info →
      (p.info.isTypename = (p.info.fieldName == "__typename") ∧
        ∀ f v, GoodData S T p.info.fieldName f v → AtomsOpt f v p.info.conditions) →
      (∀ i, p ≠ .null i) →
      (∀ ft, p.info.fieldName ≠ "__typename" → S.field T p.info.fieldName = some ft →
        ∀ V rest, rest ≠ [] → Fits S (Obj S ft.out) rest → Below V p rest →
          HoldsOpt V T p.info.conditions) →
      (∀ ft i, p.info.fieldName ≠ "__typename" → S.field T p.info.fieldName = some ft →
        p = .leaf i → ∀ T', ¬ Obj S ft.out T') →
      (∀ ft, p.info.fieldName ≠ "__typename" → S.field T p.info.fieldName = some ft →
        ∀ c ∈ kids p, ∀ T', Obj S ft.out T' → GuardMeans T' c.info.guard → AtInv S ft.out T' c) →
      AtInv S P T p

namespace AtInv

variable {P T : String} {p : Plan}

theorem free (h : AtInv S P T p) : HoldsOpt .free T p.info.conditions := by cases h; assumption
theorem owner (h : AtInv S P T p) : Owner S P T p.info := by cases h; assumption
theorem data (h : AtInv S P T p) : p.info.isTypename = (p.info.fieldName == "__typename") ∧
    ∀ f v, GoodData S T p.info.fieldName f v → AtomsOpt f v p.info.conditions := by
  cases h; assumption
theorem notNull (h : AtInv S P T p) : ∀ i, p ≠ .null i := by cases h; assumption
theorem carried (h : AtInv S P T p) : ∀ ft, p.info.fieldName ≠ "__typename" →
    S.field T p.info.fieldName = some ft → ∀ V rest, rest ≠ [] → Fits S (Obj S ft.out) rest →
      Below V p rest → HoldsOpt V T p.info.conditions := by cases h; assumption
theorem isLeaf (h : AtInv S P T p) : ∀ ft i, p.info.fieldName ≠ "__typename" →
    S.field T p.info.fieldName = some ft → p = .leaf i → ∀ T', ¬ Obj S ft.out T' := by
  cases h; assumption
theorem inner (h : AtInv S P T p) : ∀ ft, p.info.fieldName ≠ "__typename" →
    S.field T p.info.fieldName = some ft → ∀ c ∈ kids p, ∀ T', Obj S ft.out T' →
      GuardMeans T' c.info.guard → AtInv S ft.out T' c := by cases h; assumption

theorem below_nil (h : AtInv S P T p) (V : Val) : Below V p [] := by
  cases p with
  | null i => exact absurd rfl (h.notNull i)
  | leaf i => trivial
  | node i cs => exact shows_nil (V := V) (ps := cs)

theorem setGuard (h : AtInv S P T p) {g : TypeCond}
    (hg : ∀ Q, (p.info.guard = none → Q = P) →
      (∀ g', p.info.guard = some g' → ∀ X, g'.Names X → OfType S X Q) →
      (∃ X, g.Names X) ∧ ∀ X, g.Names X → OfType S X Q) : AtInv S P T (Builder.setGuard g p) := by
  refine .mk (by simpa using h.free) ?_ (by simpa using h.data) ?_ ?_ ?_ (by simpa using h.inner)
  · obtain ⟨Q, ft, h1, h2, h3, h4⟩ := h.owner
    refine ⟨Q, ft, by simpa using h1, h2, by simp, ?_⟩
    intro g' hg'
    have : g = g' := by simpa using hg'
    subst this
    exact hg Q h3 (fun g' hg' => (h4 g' hg').2)
  · intro i hi
    cases p with
    | null j => exact h.notNull j rfl
    | leaf j => simp [Builder.setGuard] at hi
    | node j cs => simp [Builder.setGuard] at hi
  · intro ft hn hft V rest hr hf hb
    have := h.carried ft (by simpa using hn) (by simpa using hft) V rest hr hf
      ((setGuard_below V g p rest).1 hb)
    simpa using this
  · intro ft i hn hft hi
    cases p with
    | null j => exact absurd rfl (h.notNull j)
    | leaf j => exact h.isLeaf ft j (by simpa using hn) (by simpa using hft) rfl
    | node j cs => simp [Builder.setGuard] at hi

end AtInv

/-! ## Agreement -/

/-- For an object of one type a response key of the first stands for the same field in the second. -/
def Agree (S : Meta) (D : String → Prop) (A B : List Plan) : Prop :=
  ∀ pre a b, Fits S D (pre ++ [a]) → Fits S D (pre ++ [b]) → a.type = b.type → a.key = b.key →
    Shows .free A (pre ++ [a]) → Shows .free B (pre ++ [b]) → a.name = b.name

def AgreeAt (S : Meta) (T : String) (p q : Plan) : Prop :=
  p.info.fieldName = q.info.fieldName ∧
    ∀ ft, p.info.fieldName ≠ "__typename" → S.field T p.info.fieldName = some ft →
      Agree S (Obj S ft.out) (kids p) (kids q)

theorem below_kids {V : Val} {p : Plan} {rest : List Step} (hr : rest ≠ [])
    (h : Shows V (kids p) rest) : Below V p rest := by
  cases p with
  | null i => exact absurd h (shows_empty hr)
  | leaf i => trivial
  | node i cs => exact h

theorem agreeAt_of {D : String → Prop} {X : List Plan} {T : String} {P : String} {p q : Plan}
    (hX : Unambiguous S D (Shows .free X)) (hT : D T) (hp : p ∈ X) (hq : q ∈ X)
    (hk : p.info.responseKey = q.info.responseKey) (gp : GuardMeans T p.info.guard)
    (gq : GuardMeans T q.info.guard) (ip : AtInv S P T p) (iq : AtInv S P T q) :
    AgreeAt S T p q := by
  have hname : p.info.fieldName = q.info.fieldName := by
    refine hX [] ⟨T, p.info.responseKey, p.info.fieldName⟩ ⟨T, q.info.responseKey, q.info.fieldName⟩
      ⟨hT, Or.inl rfl⟩ ⟨hT, Or.inl rfl⟩ rfl hk ?_ ?_
    · exact shows_cons.2 ⟨p, hp, rfl, rfl, gp, ip.free, ip.below_nil _⟩
    · exact shows_cons.2 ⟨q, hq, rfl, rfl, gq, iq.free, iq.below_nil _⟩
  refine ⟨hname, ?_⟩
  intro ft hn hft pre a b ha hb hab hkey sa sb
  have hne : ∀ x : Step, pre ++ [x] ≠ [] := by simp
  refine hX (⟨T, p.info.responseKey, p.info.fieldName⟩ :: pre) a b ⟨hT, Or.inr ⟨hn, ft, hft, ha⟩⟩
    ⟨hT, Or.inr ⟨hn, ft, hft, hb⟩⟩ hab hkey ?_ ?_
  · exact shows_cons.2 ⟨p, hp, rfl, rfl, gp, ip.free, below_kids (hne a) sa⟩
  · exact shows_cons.2 ⟨q, hq, hk.symm, hname.symm, gq, iq.free, below_kids (hne b) sb⟩

theorem unambiguous_congr {D : String → Prop} {A B : List Step → Prop}
    (h : ∀ path, path ≠ [] → Fits S D path → (A path ↔ B path)) :
    Unambiguous S D A ↔ Unambiguous S D B := by
  constructor
  · intro hu pre a b ha hb ht hk sa sb
    exact hu pre a b ha hb ht hk ((h _ (by simp) ha).2 sa) ((h _ (by simp) hb).2 sb)
  · intro hu pre a b ha hb ht hk sa sb
    exact hu pre a b ha hb ht hk ((h _ (by simp) ha).1 sa) ((h _ (by simp) hb).1 sb)

theorem agree_congr {D : String → Prop} {A A' B B' : List Plan}
    (hA : ∀ path, path ≠ [] → Fits S D path → (Shows .free A path ↔ Shows .free A' path))
    (hB : ∀ path, path ≠ [] → Fits S D path → (Shows .free B path ↔ Shows .free B' path))
    (h : Agree S D A B) : Agree S D A' B' := by
  intro pre a b ha hb ht hk sa sb
  exact h pre a b ha hb ht hk ((hA _ (by simp) ha).2 sa) ((hB _ (by simp) hb).2 sb)

theorem Agree.symm {D : String → Prop} {A B : List Plan} (h : Agree S D A B) : Agree S D B A := by
  intro pre a b ha hb ht hk sa sb
  exact (h pre b a hb ha ht.symm hk.symm sb sa).symm

theorem AgreeAt.symm {T : String} {p q : Plan} (h : AgreeAt S T p q) : AgreeAt S T q p := by
  refine ⟨h.1.symm, ?_⟩
  intro ft hn hft
  rw [← h.1] at hn hft
  exact (h.2 ft hn hft).symm

theorem unambiguous_append {D : String → Prop} {A B : List Plan} (hA : Agree S D A A)
    (hB : Agree S D B B) (hAB : Agree S D A B) : Unambiguous S D (Shows .free (A ++ B)) := by
  intro pre a b ha hb ht hk sa sb
  rw [shows_append (by simp)] at sa sb
  rcases sa with sa | sa <;> rcases sb with sb | sb
  · exact hA pre a b ha hb ht hk sa sb
  · exact hAB pre a b ha hb ht hk sa sb
  · exact hAB.symm pre a b ha hb ht hk sa sb
  · exact hB pre a b ha hb ht hk sa sb

/-! ## Merging two plans at one type -/

/-- What merging two plans does at a type. -/
structure Merged (S : Meta) (P T : String) (e n m : Plan) : Prop where
  inv : AtInv S P T m
  info : m.info = mergedInfo e.info n.info
  below : ∀ ft, e.info.fieldName ≠ "__typename" → S.field T e.info.fieldName = some ft →
    ∀ V rest, rest ≠ [] → Fits S (Obj S ft.out) rest → (Below V m rest ↔ Below V e rest ∨ Below V n rest)
  kids : ∀ ft, e.info.fieldName ≠ "__typename" → S.field T e.info.fieldName = some ft →
    ∀ V rest, rest ≠ [] → Fits S (Obj S ft.out) rest →
      (Shows V (kids m) rest ↔ Shows V (kids e) rest ∨ Shows V (kids n) rest)

theorem Merged.loose {P T : String} {e n m : Plan} (h : Merged S P T e n m) (he : AtInv S P T e)
    (hn : AtInv S P T n) (hname : e.info.fieldName = n.info.fieldName) (V : Val)
    {rest : List Step} (hr : FitsRest S T e.info.fieldName rest) :
    Loose V T m rest ↔ Loose V T e rest ∨ Loose V T n rest := by
  have hc : HoldsOpt V T m.info.conditions ↔
      HoldsOpt V T e.info.conditions ∨ HoldsOpt V T n.info.conditions := by
    rw [h.info]; exact holds_mergeConds _ _ _
  unfold Loose
  rw [hc]
  by_cases hnil : rest = []
  · subst hnil
    simp [he.below_nil, hn.below_nil, h.inv.below_nil]
  · rcases hr with hr | ⟨hr1, ft, hft, hf⟩
    · exact absurd hr hnil
    · rw [h.below ft hr1 hft V rest hnil hf]
      have h1 := he.carried ft hr1 hft V rest hnil hf
      have h2 := hn.carried ft (hname ▸ hr1) (hname ▸ hft) V rest hnil hf
      grind

/-- Merging is right at one type. -/
def MergeOk (S : Meta) (k : Nat) (P : String) (mm : Plan → Plan → Plan) : Prop :=
  ∀ T e n, Stat S k e → Stat S k n → e.info.responseKey = n.info.responseKey → AtInv S P T e →
    AtInv S P T n → AgreeAt S T e e → AgreeAt S T e n → AgreeAt S T n n → Merged S P T e n (mm e n)

theorem Merged.agree {P T : String} {e n m x : Plan} (h : Merged S P T e n m)
    (he : AgreeAt S T e x) (hn : AgreeAt S T n x) : AgreeAt S T m x := by
  have hi : m.info.fieldName = e.info.fieldName := by rw [h.info]; rfl
  refine ⟨hi.trans he.1, ?_⟩
  intro ft hx hft pre a b ha hb ht hk sa sb
  rw [hi] at hx hft
  rcases (h.kids ft hx hft .free _ (by simp) ha).1 sa with sa | sa
  · exact he.2 ft hx hft pre a b ha hb ht hk sa sb
  · have hen : e.info.fieldName = n.info.fieldName := he.1.trans hn.1.symm
    rw [hen] at hx hft
    exact hn.2 ft hx hft pre a b ha hb ht hk sa sb

theorem agreeAt_setGuard {T : String} {p q : Plan} (g : TypeCond) (h : AgreeAt S T p q) :
    AgreeAt S T p (setGuard g q) := by
  refine ⟨by simpa using h.1, ?_⟩
  simpa using h.2

theorem guardEq_means {a b : Option TypeCond} (h : guardEq a b = true) (T : String) :
    GuardMeans T a ↔ GuardMeans T b := by
  cases a with
  | none => cases b with
    | none => rfl
    | some b => simp [guardEq] at h
  | some a => cases b with
    | none => simp [guardEq] at h
    | some b => exact typeCond_eq (by simpa [guardEq] using h) T

/-! ## One plan into a map -/

/-- Plans valid on a domain. -/
def Good (S : Meta) (P : String) (D : String → Prop) (p : Plan) : Prop :=
  ∀ T, D T → GuardMeans T p.info.guard → AtInv S P T p

theorem mergeVariant_cases (mm : Plan → Plan → Plan) (p : Plan) : ∀ vs : List Plan,
    (mergeVariant mm p vs = vs ++ [p]) ∨
    ∃ A e B, vs = A ++ e :: B ∧ mergeVariant mm p vs = A ++ mm e p :: B ∧
      guardEq e.info.guard p.info.guard = true := by
  intro vs
  induction vs with
  | nil => left; rfl
  | cons v vs ih =>
    simp only [mergeVariant]
    split
    · rename_i h; exact Or.inr ⟨[], v, vs, rfl, rfl, h⟩
    · rcases ih with h | ⟨A, e, B, h1, h2, h3⟩
      · left; simp [h]
      · right; exact ⟨v :: A, e, B, by simp [h1], by simp [h2], h3⟩

theorem mergePlan_cases (mm : Plan → Plan → Plan) (p : Plan) : ∀ m : Variants,
    (∀ e ∈ m, ∀ v ∈ e.2, v.info.responseKey = e.1) →
    (∀ x, x ∈ flat (mergePlan mm p m) ↔ x ∈ flat m ∨ x = p) ∨
    ∃ A e B, flat m = A ++ e :: B ∧ flat (mergePlan mm p m) = A ++ mm e p :: B ∧
      guardEq e.info.guard p.info.guard = true ∧ e.info.responseKey = p.info.responseKey := by
  intro m
  induction m with
  | nil => intro _; left; intro x; simp [mergePlan, flat]
  | cons e m ih =>
    obtain ⟨k, vs⟩ := e
    intro hk
    simp only [mergePlan]
    split
    · rename_i hkey
      rcases mergeVariant_cases mm p vs with h | ⟨A, e, B, h1, h2, h3⟩
      · left; intro x; rw [h]; simp only [flat, List.flatMap_cons, List.mem_append, List.mem_singleton]; grind
      · right
        refine ⟨A, e, B ++ flat m, by simp [flat, h1], by simp [flat, h2], h3, ?_⟩
        rw [hk (k, vs) (by simp) e (by simp [h1])]; exact hkey
    · rcases ih (fun e he => hk e (by simp [he])) with h | ⟨A, e, B, h1, h2, h3, h4⟩
      · left
        intro x
        have hx := h x
        simp only [flat, List.flatMap_cons, List.mem_append] at hx ⊢
        rw [hx]; grind
      · right
        refine ⟨vs ++ A, e, B, ?_, ?_, h3, h4⟩
        · simp only [flat, List.flatMap_cons] at h1 ⊢; rw [h1]; simp
        · simp only [flat, List.flatMap_cons] at h2 ⊢; rw [h2]; simp

theorem mergePlan_level {k : Nat} {P : String} {D : String → Prop} {mm : Plan → Plan → Plan}
    (hmm : MergeOk S k P mm) (hk : Keeps S k mm) {m : Variants} {p : Plan} (hm : VarOk S k m) (hp : Stat S k p)
    (hg : ∀ x ∈ flat m ++ [p], Good S P D x)
    (hu : Unambiguous S D (Shows .free (flat m ++ [p]))) :
    (∀ x ∈ flat (mergePlan mm p m), Good S P D x) ∧
    ∀ V path, Fits S D path → (Shows V (flat (mergePlan mm p m)) path ↔ Shows V (flat m ++ [p]) path) := by
  rcases mergePlan_cases mm p m hm.key with h | ⟨A, e, B, h1, h2, h3, h4⟩
  · refine ⟨?_, ?_⟩
    · intro x hx
      exact hg x (by simpa using (h x).1 hx)
    · intro V path _
      exact shows_congr (fun x => by simpa using h x) path
  · have he : e ∈ flat m ++ [p] := by rw [h1]; simp
    have hp' : p ∈ flat m ++ [p] := by simp
    have hse : Stat S k e := by
      obtain ⟨en, hen, hv⟩ := mem_flat.1 (show e ∈ flat m by rw [h1]; simp)
      exact hm.stat en hen e hv
    have key : ∀ T, D T → GuardMeans T e.info.guard → Merged S P T e p (mm e p) := by
      intro T hT gT
      have gp : GuardMeans T p.info.guard := (guardEq_means h3 T).1 gT
      have ie := hg e he T hT gT
      have ip := hg p hp' T hT gp
      exact hmm T e p hse hp h4 ie ip (agreeAt_of hu hT he he rfl gT gT ie ie)
        (agreeAt_of hu hT he hp' h4 gT gp ie ip) (agreeAt_of hu hT hp' hp' rfl gp gp ip ip)
    have hname : ∀ T, D T → GuardMeans T e.info.guard → e.info.fieldName = p.info.fieldName := by
      intro T hT gT
      have gp : GuardMeans T p.info.guard := (guardEq_means h3 T).1 gT
      exact (agreeAt_of hu hT he hp' h4 gT gp (hg e he T hT gT) (hg p hp' T hT gp)).1
    have hg1 : (mm e p).info.guard = e.info.guard := hk.guard e p
    have hk1 : (mm e p).info.responseKey = e.info.responseKey := hk.key e p
    refine ⟨?_, ?_⟩
    · intro x hx
      rw [h2] at hx
      simp only [List.mem_append, List.mem_cons] at hx
      rcases hx with hx | rfl | hx
      · exact hg x (by rw [h1]; simp [hx])
      · intro T hT gT
        rw [hg1] at gT
        exact (key T hT gT).inv
      · exact hg x (by rw [h1]; simp [hx])
    · intro V path hf
      cases path with
      | nil => simp [shows_nil]
      | cons st rest =>
        have hD : D st.type := hf.1
        rw [h1, h2]
        simp only [shows_cons, List.mem_append, List.mem_cons, List.mem_singleton, List.not_mem_nil,
          or_false]
        have hfr : ∀ n, st.name = n → FitsRest S st.type n rest := by
          rintro n rfl; exact hf.2
        by_cases gT : GuardMeans st.type e.info.guard
        · have gp : GuardMeans st.type p.info.guard := (guardEq_means h3 _).1 gT
          have hn1 : (mm e p).info.fieldName = e.info.fieldName := by
            rw [(key _ hD gT).info]; rfl
          have hl := fun (hs : e.info.fieldName = st.name) => (key _ hD gT).loose (hg e he _ hD gT)
            (hg p hp' _ hD gp) (hname _ hD gT) V (hfr _ hs.symm)
          simp only [Loose] at hl
          have hnm := hname _ hD gT
          constructor
          · rintro ⟨q, hq | rfl | hq, q1, q2, q3, q4, q5⟩
            · exact ⟨q, by simp [hq], q1, q2, q3, q4, q5⟩
            · rw [hn1] at q2
              rcases (hl q2).1 ⟨q4, q5⟩ with ⟨q6, q7⟩ | ⟨q6, q7⟩
              · exact ⟨e, by simp, by rw [← hk1]; exact q1, q2, gT, q6, q7⟩
              · exact ⟨p, by simp, by rw [← h4, ← hk1]; exact q1, by rw [← hnm]; exact q2, gp, q6, q7⟩
            · exact ⟨q, by simp [hq], q1, q2, q3, q4, q5⟩
          · rintro ⟨q, (hq | rfl | hq) | rfl, q1, q2, q3, q4, q5⟩
            · exact ⟨q, by simp [hq], q1, q2, q3, q4, q5⟩
            · have := (hl q2).2 (Or.inl ⟨q4, q5⟩)
              exact ⟨_, by simp, by rw [hk1]; exact q1, by rw [hn1]; exact q2, by rw [hg1]; exact gT, this.1, this.2⟩
            · exact ⟨q, by simp [hq], q1, q2, q3, q4, q5⟩
            · have q2' : e.info.fieldName = st.name := by rw [hnm]; exact q2
              have := (hl q2').2 (Or.inr ⟨q4, q5⟩)
              exact ⟨_, Or.inr (Or.inl rfl), by rw [hk1, h4]; exact q1, by rw [hn1]; exact q2', by rw [hg1]; exact gT, this.1, this.2⟩
        · have gp : ¬ GuardMeans st.type p.info.guard := fun h => gT ((guardEq_means h3 _).2 h)
          constructor
          · rintro ⟨q, hq | rfl | hq, q1, q2, q3, q4⟩
            · exact ⟨q, by simp [hq], q1, q2, q3, q4⟩
            · rw [hg1] at q3; exact absurd q3 gT
            · exact ⟨q, by simp [hq], q1, q2, q3, q4⟩
          · rintro ⟨q, (hq | rfl | hq) | rfl, q1, q2, q3, q4⟩
            · exact ⟨q, by simp [hq], q1, q2, q3, q4⟩
            · exact absurd q3 gT
            · exact ⟨q, by simp [hq], q1, q2, q3, q4⟩
            · exact absurd q3 gp

theorem foldPlan_level {k : Nat} {P : String} {D : String → Prop} {mm : Plan → Plan → Plan}
    (hmm : MergeOk S k P mm) (hk : Keeps S k mm) : ∀ {ps : List Plan} {m : Variants},
    VarOk S k m → (∀ p ∈ ps, Stat S k p) → (∀ x ∈ flat m ++ ps, Good S P D x) →
    Unambiguous S D (Shows .free (flat m ++ ps)) →
    (∀ x ∈ flat (ps.foldl (fun m p => mergePlan mm p m) m), Good S P D x) ∧
    ∀ V path, Fits S D path →
      (Shows V (flat (ps.foldl (fun m p => mergePlan mm p m) m)) path ↔ Shows V (flat m ++ ps) path) := by
  intro ps
  induction ps with
  | nil => intro m _ _ hg _; simp at hg ⊢; exact hg
  | cons p ps ih =>
    intro m hm hs hg hu
    have hu1 : Unambiguous S D (Shows .free (flat m ++ [p])) := by
      intro pre a b ha hb ht hkey sa sb
      refine hu pre a b ha hb ht hkey ?_ ?_
      · rw [shows_congr (qs := (flat m ++ [p]) ++ ps) (by simp), shows_append (by simp)]
        exact Or.inl sa
      · rw [shows_congr (qs := (flat m ++ [p]) ++ ps) (by simp), shows_append (by simp)]
        exact Or.inl sb
    obtain ⟨h1, h2⟩ := mergePlan_level hmm hk hm (hs p (by simp))
      (fun x hx => hg x (by simp at hx ⊢; grind)) hu1
    have hstep : ∀ V path, path ≠ [] → Fits S D path →
        (Shows V (flat m ++ p :: ps) path ↔ Shows V (flat (mergePlan mm p m) ++ ps) path) := by
      intro V path hne hf
      rw [shows_congr (ps := flat m ++ p :: ps) (qs := (flat m ++ [p]) ++ ps) (by simp),
        shows_append (ps := flat m ++ [p]) hne, shows_append (ps := flat (mergePlan mm p m)) hne,
        h2 V path hf]
    obtain ⟨h3, h4⟩ := ih (m := mergePlan mm p m) (mergePlan_ok hk (hs p (by simp)) hm)
      (fun q hq => hs q (by simp [hq]))
      (by
        intro x hx
        rcases List.mem_append.1 hx with h | h
        · exact h1 x h
        · exact hg x (by simp [h]))
      ((unambiguous_congr (fun path hne hf => hstep _ path hne hf)).1 hu)
    refine ⟨h3, ?_⟩
    intro V path hf
    by_cases hne : path = []
    · subst hne; simp [shows_nil]
    · rw [hstep V path hne hf]; exact h4 V path hf

/-! ## One plan for each type -/

theorem matches_iff {t : String} {p : Plan} : matchesType t p = true ↔ GuardMeans t p.info.guard := by
  unfold matchesType
  cases p.info.guard with
  | none => simp [GuardMeans]
  | some g => simp [GuardMeans, accepts_iff]

/-- Plans at one type, all of which agree. -/
structure Pool (S : Meta) (k : Nat) (P T key : String) (t : String) (vs : List Plan) : Prop where
  stat : ∀ v ∈ vs, Stat S k v
  key : ∀ v ∈ vs, v.info.responseKey = key
  inv : ∀ v ∈ vs, GuardMeans t v.info.guard → AtInv S P T v
  agree : ∀ v ∈ vs, ∀ w ∈ vs, GuardMeans t v.info.guard → GuardMeans t w.info.guard → AgreeAt S T v w

theorem Pool.tail {k : Nat} {P T key t : String} {v : Plan} {vs : List Plan}
    (h : Pool S k P T key t (v :: vs)) : Pool S k P T key t vs :=
  ⟨fun w hw => h.stat w (by simp [hw]), fun w hw => h.key w (by simp [hw]),
    fun w hw => h.inv w (by simp [hw]), fun w hw x hx => h.agree w (by simp [hw]) x (by simp [hx])⟩

/-- What has been merged so far. -/
structure Acc (S : Meta) (k : Nat) (P T key t : String) (vs : List Plan) (e : Plan) : Prop where
  stat : Stat S k e
  key : e.info.responseKey = key
  inv : AtInv S P T e
  self : AgreeAt S T e e
  agree : ∀ v ∈ vs, GuardMeans t v.info.guard → AgreeAt S T e v

theorem mergeFrom_some {k : Nat} {P T key t : String} {mm : Plan → Plan → Plan}
    (hmm : MergeOk S k P mm) (hk : Keeps S k mm) (hct : Closed S (some (.exact t)))
    (htP : OfType S t P) : ∀ {vs : List Plan} {e : Plan}, Pool S k P T key t vs →
    Acc S k P T key t vs e →
    ∃ r, mergeForTypeFrom mm t (some e) vs = some r ∧ AtInv S P T r ∧
      r.info.fieldName = e.info.fieldName ∧
      ∀ V rest, FitsRest S T e.info.fieldName rest →
        (Loose V T r rest ↔ Loose V T e rest ∨
          ∃ v ∈ vs, GuardMeans t v.info.guard ∧ Loose V T v rest) := by
  intro vs
  induction vs with
  | nil =>
    intro e _ ha
    exact ⟨e, rfl, ha.inv, rfl, by simp⟩
  | cons v vs ih =>
    intro e hp ha
    simp only [mergeForTypeFrom]
    by_cases hm : GuardMeans t v.info.guard
    · rw [if_pos (matches_iff.2 hm)]
      have hv : v ∈ v :: vs := by simp
      have iv : AtInv S P T (setGuard (.exact t) v) := (hp.inv v hv hm).setGuard (by
        intro Q h1 h2
        refine ⟨⟨t, rfl⟩, ?_⟩
        intro X hX
        have hX : X = t := hX
        subst hX
        cases hg : v.info.guard with
        | none => rw [h1 hg]; exact htP
        | some g => rw [hg] at hm; exact h2 g hg X hm)
      have hav := ha.agree v hv hm
      have hmg := hmm T e (setGuard (.exact t) v) ha.stat ((hp.stat v hv).setGuard hct)
        (by rw [ha.key, setGuard_key, hp.key v hv]) ha.inv iv ha.self
        (agreeAt_setGuard _ hav)
        (agreeAt_setGuard _ (agreeAt_setGuard _ (hp.agree v hv v hv hm hm)).symm)
      have hag : ∀ w, AgreeAt S T e w → AgreeAt S T v w →
          AgreeAt S T (mm e (setGuard (.exact t) v)) w := fun w h1 h2 =>
        hmg.agree h1 (agreeAt_setGuard _ h2.symm).symm
      have hname : (mm e (setGuard (.exact t) v)).info.fieldName = e.info.fieldName := by
        rw [hmg.info]; rfl
      have hacc : Acc S k P T key t vs (mm e (setGuard (.exact t) v)) := by
        refine ⟨hk.stat _ _ ha.stat ((hp.stat v hv).setGuard hct), by rw [hk.key]; exact ha.key,
          hmg.inv, ?_, ?_⟩
        · exact hag _ (hag e ha.self hav.symm).symm (hag v hav (hp.agree v hv v hv hm hm)).symm
        · intro w hw hwm
          exact hag w (ha.agree w (by simp [hw]) hwm) (hp.agree v hv w (by simp [hw]) hm hwm)
      obtain ⟨r, hr, h1, h2, h3⟩ := ih hp.tail hacc
      refine ⟨r, hr, h1, h2.trans hname, ?_⟩
      intro V rest hf
      rw [h3 V rest (by rw [hname]; exact hf),
        hmg.loose ha.inv iv (by simpa using hav.1) V hf, setGuard_loose]
      constructor
      · rintro ((h | h) | ⟨w, hw, h⟩)
        · exact Or.inl h
        · exact Or.inr ⟨v, hv, hm, h⟩
        · exact Or.inr ⟨w, by simp [hw], h⟩
      · rintro (h | ⟨w, hw, hwm, h⟩)
        · exact Or.inl (Or.inl h)
        · rcases List.mem_cons.1 hw with rfl | hw
          · exact Or.inl (Or.inr h)
          · exact Or.inr ⟨w, hw, hwm, h⟩
    · rw [if_neg (fun h => hm (matches_iff.1 h))]
      obtain ⟨r, hr, h1, h2, h3⟩ := ih hp.tail ⟨ha.stat, ha.key, ha.inv, ha.self,
        fun w hw => ha.agree w (by simp [hw])⟩
      refine ⟨r, hr, h1, h2, ?_⟩
      intro V rest hf
      rw [h3 V rest hf]
      constructor
      · rintro (h | ⟨w, hw, h⟩)
        · exact Or.inl h
        · exact Or.inr ⟨w, by simp [hw], h⟩
      · rintro (h | ⟨w, hw, hwm, h⟩)
        · exact Or.inl h
        · rcases List.mem_cons.1 hw with rfl | hw
          · exact absurd hwm hm
          · exact Or.inr ⟨w, hw, hwm, h⟩

/-- The plan for one type, seen at one type. -/
theorem mergeForType_spec {k : Nat} {P T key t : String} {mm : Plan → Plan → Plan}
    (hmm : MergeOk S k P mm) (hk : Keeps S k mm) (hct : Closed S (some (.exact t)))
    (htP : OfType S t P) : ∀ {vs : List Plan}, Pool S k P T key t vs →
    (∀ r, mergeForType mm t vs = some r → AtInv S P T r ∧
      (∃ v ∈ vs, GuardMeans t v.info.guard ∧ r.info.fieldName = v.info.fieldName) ∧
      ∀ V rest, FitsRest S T r.info.fieldName rest →
        (Loose V T r rest ↔ ∃ v ∈ vs, GuardMeans t v.info.guard ∧ Loose V T v rest)) ∧
    (mergeForType mm t vs = none → ∀ v ∈ vs, ¬ GuardMeans t v.info.guard) := by
  intro vs
  induction vs with
  | nil => intro _; simp [mergeForType, mergeForTypeFrom]
  | cons v vs ih =>
    intro hp
    have hv : v ∈ v :: vs := by simp
    by_cases hm : GuardMeans t v.info.guard
    · have hunf : mergeForType mm t (v :: vs) =
          mergeForTypeFrom mm t (some (setGuard (.exact t) v)) vs := by
        simp [mergeForType, mergeForTypeFrom, matches_iff.2 hm]
      have iv : AtInv S P T (setGuard (.exact t) v) := (hp.inv v hv hm).setGuard (by
        intro Q h1 h2
        refine ⟨⟨t, rfl⟩, ?_⟩
        intro X hX
        have hX : X = t := hX
        subst hX
        cases hg : v.info.guard with
        | none => rw [h1 hg]; exact htP
        | some g => rw [hg] at hm; exact h2 g hg X hm)
      have hacc : Acc S k P T key t vs (setGuard (.exact t) v) := by
        refine ⟨(hp.stat v hv).setGuard hct, by rw [setGuard_key, hp.key v hv], iv, ?_, ?_⟩
        · exact agreeAt_setGuard _ (agreeAt_setGuard _ (hp.agree v hv v hv hm hm)).symm
        · intro w hw hwm
          exact (agreeAt_setGuard _ (hp.agree v hv w (by simp [hw]) hm hwm).symm).symm
      obtain ⟨r, hr, h1, h2, h3⟩ := mergeFrom_some hmm hk hct htP hp.tail hacc
      rw [hunf, hr]
      refine ⟨?_, by simp⟩
      intro r' hr'
      cases hr'
      refine ⟨h1, ⟨v, hv, hm, by simpa using h2⟩, ?_⟩
      intro V rest hf
      rw [h3 V rest (by rw [← h2]; exact hf), setGuard_loose]
      constructor
      · rintro (h | ⟨w, hw, h⟩)
        · exact ⟨v, hv, hm, h⟩
        · exact ⟨w, by simp [hw], h⟩
      · rintro ⟨w, hw, hwm, h⟩
        rcases List.mem_cons.1 hw with rfl | hw
        · exact Or.inl h
        · exact Or.inr ⟨w, hw, hwm, h⟩
    · have hunf : mergeForType mm t (v :: vs) = mergeForType mm t vs := by
        have : matchesType t v = false := by
          rw [Bool.eq_false_iff]; exact fun h => hm (matches_iff.1 h)
        simp [mergeForType, mergeForTypeFrom, this]
      rw [hunf]
      obtain ⟨h1, h2⟩ := ih hp.tail
      refine ⟨?_, ?_⟩
      · intro r hr
        obtain ⟨h3, ⟨w, hw, h4⟩, h5⟩ := h1 r hr
        refine ⟨h3, ⟨w, by simp [hw], h4⟩, ?_⟩
        intro V rest hf
        rw [h5 V rest hf]
        constructor
        · rintro ⟨w, hw, h⟩; exact ⟨w, by simp [hw], h⟩
        · rintro ⟨w, hw, hwm, h⟩
          rcases List.mem_cons.1 hw with rfl | hw
          · exact absurd hwm hm
          · exact ⟨w, hw, hwm, h⟩
      · intro hr w hw
        rcases List.mem_cons.1 hw with rfl | hw
        · exact hm
        · exact h2 hr w hw

/-! ## Resolving -/

theorem resolveKey_strict (hS : MetaOk S) {k : Nat} {P key : String} {D : String → Prop}
    {mm : Plan → Plan → Plan} (hmm : MergeOk S k P mm) (hk : Keeps S k mm)
    (hD : ∀ T, D T → Obj S P T) {vs : List Plan}
    (hp : ∀ T, D T → Pool S k P T key T vs) :
    (∀ p ∈ resolveKey S mm P vs, Good S P D p) ∧
    ∀ V path, Fits S D path → (Shows V (resolveKey S mm P vs) path ↔ Shows V vs path) := by
  unfold resolveKey
  split
  · exact ⟨fun p h T hT hg => (hp T hT).inv p h hg, fun _ _ _ => Iff.rfl⟩
  · have hguard : ∀ (hv : ∀ v ∈ vs, Stat S k v ∧ v.info.responseKey = key) t,
        t ∈ concreteTypes S P → ∀ p, mergeForType mm t vs = some p →
        p.info.responseKey = key ∧ p.info.guard = some (.exact t) := by
      intro hv t ht p hm
      exact (mergeForTypeFrom_ok hk (closed_exact hS ((mem_concrete hS P t).1 ht).1) hv
        (by intro e he; cases he) hm).2
    refine ⟨?_, ?_⟩
    · intro p h T hT hg
      obtain ⟨t, ht, hm⟩ := List.mem_filterMap.1 h
      have hpl := hp T hT
      have := (hguard (fun v hv => ⟨hpl.stat v hv, hpl.key v hv⟩) t ht p hm).2
      rw [this] at hg
      have hg : T = t := hg
      subst hg
      exact ((mergeForType_spec hmm hk (closed_exact hS (hD T hT).1) (hD T hT).2 hpl).1 p hm).1
    · intro V path hf
      cases path with
      | nil => simp [shows_nil]
      | cons st rest =>
        have hT : D st.type := hf.1
        have hpl := hp _ hT
        have hgd := hguard (fun v hv => ⟨hpl.stat v hv, hpl.key v hv⟩)
        obtain ⟨hs1, hs2⟩ := mergeForType_spec hmm hk (closed_exact hS (hD _ hT).1) (hD _ hT).2 hpl
        simp only [shows_cons, List.mem_filterMap]
        constructor
        · rintro ⟨p, ⟨t, ht, hm⟩, q1, q2, q3, q4⟩
          obtain ⟨hkey, hgt⟩ := hgd t ht p hm
          rw [hgt] at q3
          have q3 : st.type = t := q3
          subst q3
          obtain ⟨_, ⟨w, hw, hwm, hwn⟩, hl⟩ := hs1 p hm
          obtain ⟨v, hv, hvm, hvl⟩ := (hl V rest (by rw [q2]; exact hf.2)).1 q4
          refine ⟨v, hv, ?_, ?_, hvm, hvl⟩
          · rw [hpl.key v hv, ← hkey]; exact q1
          · rw [(hpl.agree v hv w hw hvm hwm).1, ← hwn]; exact q2
        · rintro ⟨v, hv, q1, q2, q3, q4⟩
          have ht : st.type ∈ concreteTypes S P := (mem_concrete hS P _).2 (hD _ hT)
          cases hm : mergeForType mm st.type vs with
          | none => exact absurd q3 (hs2 hm v hv)
          | some p =>
            obtain ⟨hkey, hgt⟩ := hgd _ ht p hm
            obtain ⟨_, ⟨w, hw, hwm, hwn⟩, hl⟩ := hs1 p hm
            have hn : p.info.fieldName = st.name := by
              rw [hwn, (hpl.agree w hw v hv hwm q3).1]; exact q2
            refine ⟨p, ⟨_, ht, hm⟩, ?_, hn, ?_, (hl V rest (by rw [hn]; exact hf.2)).2 ⟨v, hv, q3, q4⟩⟩
            · rw [hkey, ← hpl.key v hv]; exact q1
            · rw [hgt]; rfl

theorem resolveKey_loose (hS : MetaOk S) {k : Nat} {P T key : String} {mm : Plan → Plan → Plan}
    (hmm : MergeOk S k P mm) (hk : Keeps S k mm) (hT : Obj S P T) {vs : List Plan}
    (hp : Pool S k P T key T vs) (hall : ∀ v ∈ vs, GuardMeans T v.info.guard) :
    (∀ p ∈ resolveKey S mm P vs, AtInv S P T p) ∧
    ∀ V n rest, FitsRest S T n rest →
      ((∃ p ∈ resolveKey S mm P vs, p.info.fieldName = n ∧ Loose V T p rest) ↔
        ∃ v ∈ vs, v.info.fieldName = n ∧ Loose V T v rest) := by
  unfold resolveKey
  split
  · exact ⟨fun p h => hp.inv p h (hall p h), fun _ _ _ _ => Iff.rfl⟩
  · have hpool : ∀ t, Pool S k P T key t vs := fun t =>
      ⟨hp.stat, hp.key, fun v hv _ => hp.inv v hv (hall v hv),
        fun v hv w hw _ _ => hp.agree v hv w hw (hall v hv) (hall w hw)⟩
    have spec := fun t (ht : Obj S P t) =>
      mergeForType_spec hmm hk (closed_exact hS ht.1) ht.2 (hpool t)
    refine ⟨?_, ?_⟩
    · intro p h
      obtain ⟨t, ht, hm⟩ := List.mem_filterMap.1 h
      exact ((spec t ((mem_concrete hS P t).1 ht)).1 p hm).1
    · intro V n rest hf
      constructor
      · rintro ⟨p, h, rfl, hl⟩
        obtain ⟨t, ht, hm⟩ := List.mem_filterMap.1 h
        obtain ⟨_, ⟨w, hw, _, hwn⟩, hl'⟩ := (spec t ((mem_concrete hS P t).1 ht)).1 p hm
        obtain ⟨v, hv, _, hvl⟩ := (hl' V rest hf).1 hl
        refine ⟨v, hv, ?_, hvl⟩
        rw [(hp.agree v hv w hw (hall v hv) (hall w hw)).1, hwn]
      · rintro ⟨v, hv, rfl, hl⟩
        cases hm : mergeForType mm T vs with
        | none => exact absurd (hall v hv) ((spec T hT).2 hm v hv)
        | some p =>
          obtain ⟨_, ⟨w, hw, _, hwn⟩, hl'⟩ := (spec T hT).1 p hm
          have hn : p.info.fieldName = v.info.fieldName := by
            rw [hwn, (hp.agree w hw v hv (hall w hw) (hall v hv)).1]
          refine ⟨p, List.mem_filterMap.2 ⟨T, (mem_concrete hS P T).2 hT, hm⟩, hn, ?_⟩
          exact (hl' V rest (by rw [hn]; exact hf)).2 ⟨v, hv, hall v hv, hl⟩

/-- The names of resolved plans are names of variants. -/
theorem resolveKey_name {P : String} {mm : Plan → Plan → Plan}
    (hn : ∀ e n, (mm e n).info.fieldName = e.info.fieldName) {vs : List Plan} :
    ∀ p ∈ resolveKey S mm P vs, ∃ v ∈ vs, p.info.fieldName = v.info.fieldName := by
  have from' : ∀ (t : String) (vs : List Plan) (acc : Option Plan) (r : Plan),
      mergeForTypeFrom mm t acc vs = some r →
      (∃ e, acc = some e ∧ r.info.fieldName = e.info.fieldName) ∨
        ∃ v ∈ vs, r.info.fieldName = v.info.fieldName := by
    intro t vs
    induction vs with
    | nil => intro acc r h; exact Or.inl ⟨r, h, rfl⟩
    | cons v vs ih =>
      intro acc r h
      simp only [mergeForTypeFrom] at h
      split at h
      · cases acc with
        | none =>
          rcases ih _ r h with ⟨e, he, h'⟩ | ⟨w, hw, h'⟩
          · cases he; exact Or.inr ⟨v, by simp, by simpa using h'⟩
          · exact Or.inr ⟨w, by simp [hw], h'⟩
        | some e =>
          rcases ih _ r h with ⟨e', he, h'⟩ | ⟨w, hw, h'⟩
          · cases he; exact Or.inl ⟨e, rfl, by rw [h', hn]⟩
          · exact Or.inr ⟨w, by simp [hw], h'⟩
      · rcases ih _ r h with h' | ⟨w, hw, h'⟩
        · exact Or.inl h'
        · exact Or.inr ⟨w, by simp [hw], h'⟩
  intro p hp
  unfold resolveKey at hp
  split at hp
  · exact ⟨p, hp, rfl⟩
  · obtain ⟨t, _, h⟩ := List.mem_filterMap.1 hp
    rcases from' t vs none p h with ⟨e, he, _⟩ | h
    · cases he
    · exact h

/-- The variants of a map at a type. -/
theorem pool_of {k : Nat} {P : String} {D : String → Prop} {m : Variants} (hm : VarOk S k m)
    (hg : ∀ x ∈ flat m, Good S P D x) (hu : Unambiguous S D (Shows .free (flat m)))
    {e : String × List Plan} (he : e ∈ m) {T : String} (hT : D T) : Pool S k P T e.1 T e.2 := by
  have hin : ∀ v ∈ e.2, v ∈ flat m := fun v hv => mem_flat.2 ⟨e, he, hv⟩
  refine ⟨hm.stat e he, hm.key e he, fun v hv hgd => hg v (hin v hv) T hT hgd, ?_⟩
  intro v hv w hw gv gw
  exact agreeAt_of hu hT (hin v hv) (hin w hw) (by rw [hm.key e he v hv, hm.key e he w hw]) gv gw
    (hg v (hin v hv) T hT gv) (hg w (hin w hw) T hT gw)

theorem resolve_strict (hS : MetaOk S) {k : Nat} {P : String} {D : String → Prop}
    {mm : Plan → Plan → Plan} (hmm : MergeOk S k P mm) (hk : Keeps S k mm)
    (hD : ∀ T, D T → Obj S P T) {m : Variants} (hm : VarOk S k m)
    (hg : ∀ x ∈ flat m, Good S P D x) (hu : Unambiguous S D (Shows .free (flat m))) :
    (∀ p ∈ resolve S mm P m, Good S P D p) ∧
    ∀ V path, Fits S D path → (Shows V (resolve S mm P m) path ↔ Shows V (flat m) path) := by
  have each := fun e (he : e ∈ m) => resolveKey_strict hS hmm hk hD
    (fun T hT => pool_of hm hg hu he hT)
  refine ⟨?_, ?_⟩
  · intro p hp
    obtain ⟨e, he, hp⟩ := List.mem_flatMap.1 hp
    exact (each e he).1 p hp
  · intro V path hf
    cases path with
    | nil => simp [shows_nil]
    | cons st rest =>
      have h := fun e (he : e ∈ m) => (each e he).2 V (st :: rest) hf
      simp only [shows_cons] at h ⊢
      constructor
      · rintro ⟨p, hp, q⟩
        obtain ⟨e, he, hp⟩ := List.mem_flatMap.1 hp
        obtain ⟨v, hv, q⟩ := (h e he).1 ⟨p, hp, q⟩
        exact ⟨v, mem_flat.2 ⟨e, he, hv⟩, q⟩
      · rintro ⟨v, hv, q⟩
        obtain ⟨e, he, hv⟩ := mem_flat.1 hv
        obtain ⟨p, hp, q⟩ := (h e he).2 ⟨v, hv, q⟩
        exact ⟨p, List.mem_flatMap.2 ⟨e, he, hp⟩, q⟩

theorem resolve_loose (hS : MetaOk S) {k : Nat} {P : String} {D : String → Prop}
    {mm : Plan → Plan → Plan} (hmm : MergeOk S k P mm) (hk : Keeps S k mm)
    (hD : ∀ T, D T → Obj S P T) {m : Variants} (hm : VarOk S k m)
    (hg : ∀ x ∈ flat m, Good S P D x) (hu : Unambiguous S D (Shows .free (flat m)))
    {T : String} (hT : D T) (hall : ∀ v ∈ flat m, GuardMeans T v.info.guard) :
    (∀ p ∈ resolve S mm P m, AtInv S P T p) ∧
    ∀ V key n rest, FitsRest S T n rest →
      ((∃ p ∈ resolve S mm P m, p.info.responseKey = key ∧ p.info.fieldName = n ∧ Loose V T p rest) ↔
        ∃ v ∈ flat m, v.info.responseKey = key ∧ v.info.fieldName = n ∧ Loose V T v rest) := by
  have hin : ∀ e ∈ m, ∀ v ∈ e.2, v ∈ flat m := fun e he v hv => mem_flat.2 ⟨e, he, hv⟩
  have each := fun e (he : e ∈ m) => resolveKey_loose hS hmm hk (hD T hT) (pool_of hm hg hu he hT)
    (fun v hv => hall v (hin e he v hv))
  have keyOf : ∀ e ∈ m, ∀ p ∈ resolveKey S mm P e.2, p.info.responseKey = e.1 := fun e he p hp =>
    ((resolveKey_ok hS hk (fun v hv => ⟨hm.stat e he v hv, hm.key e he v hv⟩) (hm.apart e he)).1
      p hp).2
  refine ⟨?_, ?_⟩
  · intro p hp
    obtain ⟨e, he, hp⟩ := List.mem_flatMap.1 hp
    exact (each e he).1 p hp
  · intro V key n rest hf
    constructor
    · rintro ⟨p, hp, q1, q⟩
      obtain ⟨e, he, hp⟩ := List.mem_flatMap.1 hp
      obtain ⟨v, hv, q⟩ := ((each e he).2 V n rest hf).1 ⟨p, hp, q⟩
      refine ⟨v, hin e he v hv, ?_, q⟩
      rw [hm.key e he v hv, ← keyOf e he p hp]; exact q1
    · rintro ⟨v, hv, q1, q⟩
      obtain ⟨e, he, hv⟩ := mem_flat.1 hv
      obtain ⟨p, hp, q⟩ := ((each e he).2 V n rest hf).2 ⟨v, hv, q⟩
      refine ⟨p, List.mem_flatMap.2 ⟨e, he, hp⟩, ?_, q⟩
      rw [keyOf e he p hp, ← hm.key e he v hv]; exact q1

/-! ## Merging two plans -/

theorem mem_namesOf (g : TypeCond) (X : String) : X ∈ namesOf g ↔ g.Names X := by
  cases g <;> simp [namesOf, TypeCond.Names]

/-- The type of the objects below, for a field with an object below. -/
theorem childParent (hS : MetaOk S) {P T : String} {i : PlanInfo} (ho : Owner S P T i)
    (hn : i.fieldName ≠ "__typename") {ft : FieldType} (hft : S.field T i.fieldName = some ft) :
    (fieldOutputType S P i.guard i.fieldName).getD P = ft.out := by
  obtain ⟨Q, f, h1, h2, h3, h4⟩ := ho
  rw [fieldInfo, if_neg hn] at h1
  obtain ⟨ft', h5, h6⟩ := hS.fields Q T _ f h2 h1
  rw [hft] at h5
  cases h5
  unfold fieldOutputType
  rw [if_neg hn]
  cases hg : i.guard with
  | none =>
    have : Q = P := h3 hg
    subst this
    simp [h1, h6]
  | some g =>
    have hall : ∀ X ∈ namesOf g, (S.field X i.fieldName).map (·.out) = some ft.out := by
      intro X hX
      obtain ⟨fX, h7, h8⟩ := hS.fields Q X _ f ((h4 g hg).2 X ((mem_namesOf g X).1 hX)) h1
      rw [h7]; simp [h8, h6]
    obtain ⟨X, hX⟩ := (h4 g hg).1
    have hX := (mem_namesOf g X).2 hX
    simp only
    generalize namesOf g = l at hall hX
    cases l with
    | nil => simp at hX
    | cons y l => simp [List.findSome?, hall y (by simp)]

theorem merged_info_inv {P T : String} {e n m : Plan} (he : AtInv S P T e) (hn : AtInv S P T n)
    (hname : e.info.fieldName = n.info.fieldName) (hi : m.info = mergedInfo e.info n.info) :
    HoldsOpt .free T m.info.conditions ∧ Owner S P T m.info ∧
      (m.info.isTypename = (m.info.fieldName == "__typename") ∧
        ∀ f v, GoodData S T m.info.fieldName f v → AtomsOpt f v m.info.conditions) := by
  rw [hi]
  refine ⟨?_, ?_, ?_⟩
  · exact (holds_mergeConds _ _ _).2 (Or.inl he.free)
  · exact he.owner
  · refine ⟨he.data.1, ?_⟩
    intro f v hd
    have hd : GoodData S T e.info.fieldName f v := hd
    exact atoms_mergeConds (he.data.2 f v hd) (hn.data.2 f v (hname ▸ hd))

theorem fits_obj {D : String → Prop} {rest : List Step} (hne : rest ≠ []) (h : Fits S D rest) :
    ∃ T, D T := by
  cases rest with
  | nil => simp at hne
  | cons st rest => exact ⟨st.type, h.1⟩

/-- `merge_matching` shows, at a type, what the two plans show. -/
theorem mergeMatching_ok (hS : MetaOk S) : ∀ (k d : Nat) (P : String), d ≤ k →
    MergeOk S d P (mergeMatching S k P) := by
  intro k
  induction k with
  | zero =>
    intro d P hd T e n se sn _ he hn aee aen ann
    obtain ⟨i1, i2, i3⟩ := merged_info_inv he hn aen.1 (mergeMatching_info S 0 P e n)
    cases se with
    | node d i es hi hes hx => omega
    | leaf _ i hi =>
      cases sn with
      | node d j ns hj hns hx => omega
      | leaf _ j hj =>
        have hm : mergeMatching S 0 P (.leaf i) (.leaf j) = .leaf (mergedInfo i j) := by
          simp only [mergeMatching]
        rw [hm] at i1 i2 i3 ⊢
        refine ⟨.mk i1 i2 i3 (by simp) ?_ ?_ (by simp [kids]), rfl, ?_, by simp [kids]⟩
        · intro ft hn' hft V rest hr hf _
          obtain ⟨T', hT'⟩ := fits_obj hr hf
          exact absurd hT' (he.isLeaf ft i hn' hft rfl T')
        · intro ft i' hn' hft _
          exact he.isLeaf ft i hn' hft rfl
        · intro ft hn' hft V rest hr hf; simp [Below]
  | succ k ih =>
    intro d P hd T e n se sn hkey he hn aee aen ann
    have hname := aen.1
    obtain ⟨i1, i2, i3⟩ := merged_info_inv he hn hname (mergeMatching_info S (k + 1) P e n)
    cases se with
    | leaf _ i hi =>
      cases sn with
      | leaf _ j hj =>
        have hm : mergeMatching S (k + 1) P (.leaf i) (.leaf j) = .leaf (mergedInfo i j) := by
          simp only [mergeMatching]
        rw [hm] at i1 i2 i3 ⊢
        refine ⟨.mk i1 i2 i3 (by simp) ?_ ?_ (by simp [kids]), rfl, ?_, by simp [kids]⟩
        · intro ft hn' hft V rest hr hf _
          obtain ⟨T', hT'⟩ := fits_obj hr hf
          exact absurd hT' (he.isLeaf ft i hn' hft rfl T')
        · intro ft i' hn' hft _
          exact he.isLeaf ft i hn' hft rfl
        · intro ft hn' hft V rest hr hf; simp [Below]
      | node _ j ns hj hns hx =>
        have hm : mergeMatching S (k + 1) P (.leaf i) (.node j ns) = .node (mergedInfo i j) ns := by
          simp only [mergeMatching]
        rw [hm] at i1 i2 i3 ⊢
        have none : ∀ ft, i.fieldName ≠ "__typename" → S.field T i.fieldName = some ft →
            ∀ T', ¬ Obj S ft.out T' := fun ft h1 h2 => he.isLeaf ft i h1 h2 rfl
        refine ⟨.mk i1 i2 i3 (by simp) ?_ (by simp) ?_, rfl, ?_, ?_⟩
        · intro ft hn' hft V rest hr hf _
          obtain ⟨T', hT'⟩ := fits_obj hr hf
          exact absurd hT' (none ft hn' hft T')
        · intro ft hn' hft c _ T' hT'
          exact absurd hT' (none ft hn' hft T')
        · intro ft hn' hft V rest hr hf
          obtain ⟨T', hT'⟩ := fits_obj hr hf
          exact absurd hT' (none ft hn' hft T')
        · intro ft hn' hft V rest hr hf
          obtain ⟨T', hT'⟩ := fits_obj hr hf
          exact absurd hT' (none ft hn' hft T')
    | node d i es hi hes hx =>
      cases sn with
      | leaf _ j hj =>
        have hm : mergeMatching S (k + 1) P (.node i es) (.leaf j) = .node (mergedInfo i j) es := by
          simp only [mergeMatching]
        rw [hm] at i1 i2 i3 ⊢
        have hij : i.fieldName = j.fieldName := hname
        have none : ∀ ft, i.fieldName ≠ "__typename" → S.field T i.fieldName = some ft →
            ∀ T', ¬ Obj S ft.out T' := fun ft h1 h2 => hn.isLeaf ft j (hij ▸ h1) (hij ▸ h2) rfl
        refine ⟨.mk i1 i2 i3 (by simp) ?_ (by simp) ?_, rfl, ?_, ?_⟩
        · intro ft hn' hft V rest hr hf _
          obtain ⟨T', hT'⟩ := fits_obj hr hf
          exact absurd hT' (none ft hn' hft T')
        · intro ft hn' hft c _ T' hT'
          exact absurd hT' (none ft hn' hft T')
        · intro ft hn' hft V rest hr hf
          obtain ⟨T', hT'⟩ := fits_obj hr hf
          exact absurd hT' (none ft hn' hft T')
        · intro ft hn' hft V rest hr hf
          obtain ⟨T', hT'⟩ := fits_obj hr hf
          exact absurd hT' (none ft hn' hft T')
      | node _ j ns hj hns hx' =>
        have hij : i.fieldName = j.fieldName := hname
        have hdk : d ≤ k := by omega
        have level : ∀ ft, i.fieldName ≠ "__typename" → S.field T i.fieldName = some ft →
            (∀ c ∈ kids (mergeMatching S (k + 1) P (.node i es) (.node j ns)),
              Good S ft.out (Obj S ft.out) c) ∧
            ∀ V rest, Fits S (Obj S ft.out) rest →
              (Shows V (kids (mergeMatching S (k + 1) P (.node i es) (.node j ns))) rest ↔
                Shows V (es ++ ns) rest) := by
          intro ft hn' hft
          have hc : (fieldOutputType S P i.guard i.fieldName).getD P = ft.out :=
            childParent hS (i := i) he.owner hn' hft
          have hm : mergeMatching S (k + 1) P (.node i es) (.node j ns) =
              .node (mergedInfo i j) (resolve S (mergeMatching S k ft.out) ft.out
                (ns.foldl (fun m p => mergePlan (mergeMatching S k ft.out) p m) (group es))) := by
            simp only [mergeMatching, hc]
          rw [hm]
          have hM := ih d ft.out hdk
          have hK := keeps hS hdk ft.out
          have hflat : ∀ x, x ∈ flat (group es) ++ ns ↔ x ∈ es ++ ns := by
            intro x; simp [mem_group]
          have hgood : ∀ x ∈ flat (group es) ++ ns, Good S ft.out (Obj S ft.out) x := by
            intro x hx T' hT' gT'
            rcases List.mem_append.1 ((hflat x).1 hx) with h | h
            · exact he.inner ft hn' hft x h T' hT' gT'
            · exact hn.inner ft (hij ▸ hn') (hij ▸ hft) x h T' hT' gT'
          have hun : Unambiguous S (Obj S ft.out) (Shows .free (flat (group es) ++ ns)) := by
            refine (unambiguous_congr (fun path _ _ => shows_congr hflat path)).2 ?_
            exact unambiguous_append (aee.2 ft hn' hft)
              (ann.2 ft (hij ▸ hn') (hij ▸ hft)) (aen.2 ft hn' hft)
          have hv := group_ok hes hx
          obtain ⟨l1, l2⟩ := foldPlan_level hM hK hv hns hgood hun
          obtain ⟨r1, r2⟩ := resolve_strict hS hM hK (D := Obj S ft.out) (fun _ h => h)
            (foldPlan_ok hK hns hv) l1
            ((unambiguous_congr (fun path _ hf => l2 _ path hf)).2 hun)
          refine ⟨r1, ?_⟩
          intro V rest hf
          show Shows V (resolve _ _ _ _) rest ↔ _
          rw [r2 V rest hf, l2 V rest hf]
          exact shows_congr hflat rest
        have hshape : ∃ cs, mergeMatching S (k + 1) P (.node i es) (.node j ns) =
            .node (mergedInfo i j) cs := by
          simp only [mergeMatching]; exact ⟨_, rfl⟩
        obtain ⟨cs, hcs⟩ := hshape
        rw [hcs] at i1 i2 i3 level ⊢
        refine ⟨.mk i1 i2 i3 (by simp) ?_ (by simp) ?_, rfl, ?_, ?_⟩
        · intro ft hn' hft V rest hr hf hb
          have hb : Shows V cs rest := hb
          have := ((level ft hn' hft).2 V rest hf).1 hb
          rw [shows_append hr] at this
          refine (holds_mergeConds _ _ _).2 ?_
          rcases this with h | h
          · exact Or.inl (he.carried ft hn' hft V rest hr hf h)
          · exact Or.inr (hn.carried ft (hij ▸ hn') (hij ▸ hft) V rest hr hf h)
        · intro ft hn' hft c hc T' hT' gT'
          exact (level ft hn' hft).1 c hc T' hT' gT'
        · intro ft hn' hft V rest hr hf
          have := (level ft hn' hft).2 V rest hf
          rw [shows_append hr] at this
          exact this
        · intro ft hn' hft V rest hr hf
          have := (level ft hn' hft).2 V rest hf
          rw [shows_append hr] at this
          exact this

end Verif.Builder
