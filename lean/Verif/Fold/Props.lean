import Mathlib.Data.List.Forall2
import Mathlib.Tactic.Tauto
import Verif.Fold.Model

/-!
# A folded fetch asks every object for the same fields
-/

namespace Verif.Fold

open Verif.Fetch
open Verif.Walker (Cond)

/-! ## Specification -/

/-- Is something with `@skip` and `@include` executed, for values of the variables. -/
def on (v : String → Bool) (c : Cond) : Bool := !c.1.any v && c.2.all v

/-- Is an object of type `t` also of type `c`, in the subgraph: it is that object type, it implements that
interface, or it is in that union, of which nothing is said. -/
def isA (S : Schema) (u : String → String → Bool) (t c : String) : Bool :=
  match S.kind c with
  | some .object => t == c
  | some .interface => S.impl t c
  | some .other => u t c
  | none => false

/-- What a field asks for: its response key, name and arguments. -/
abbrev Ask := String × String × Args

/-- What a field asks for. -/
def ask (f : FieldInfo) : Ask := (f.key, f.name, argsOf f)

mutual
/-- An object of type `t` is asked for the field `a`, and then, along the path, an object of the next type for
the next field. -/
def WantsI (S : Schema) (u : String → String → Bool) (v : String → Bool) :
    Sel → String → Ask → List (String × Ask) → Prop
  | .field f _, _, a, [] => on v (condOf f) = true ∧ a = ask f
  | .field f ss, _, a, (t', b) :: q => on v (condOf f) = true ∧ a = ask f ∧ Wants S u v ss t' b q
  | .frag g ss, t, a, p => on v (fragCond g) = true ∧ isA S u t g.cond = true ∧ Wants S u v ss t a p
  | .spread _, _, _, _ => False
/-- The same of a selection set. -/
def Wants (S : Schema) (u : String → String → Bool) (v : String → Bool) :
    List Sel → String → Ask → List (String × Ask) → Prop
  | [], _, _, _ => False
  | s :: r, t, a, p => WantsI S u v s t a p ∨ Wants S u v r t a p
end

/-- The objects along a path are of object types that the fields can lead to. -/
def Path (S : Schema) (u : String → String → Bool) : String → Ask → List (String × Ask) → Prop
  | _, _, [] => True
  | t, a, (t', b) :: q =>
    S.kind t' = some .object ∧ (∃ c, S.ret t a.2.1 = some c ∧ isA S u t' c = true) ∧ Path S u t' b q

/-- Fields of objects are of the types their interfaces promise, or narrower. -/
def Covariant (S : Schema) (u : String → String → Bool) : Prop :=
  ∀ t c f x y o, isA S u t c = true → S.ret t f = some x → S.ret c f = some y →
    isA S u o x = true → isA S u o y = true

mutual
/-- The fields an item asks an object for are fields of its type, down to the leaves. -/
def HasI (S : Schema) (t : String) : Sel → Prop
  | .field f ss => f.name = "__typename" ∨ ∃ w, S.fieldTy t f.name = some w ∧ Has S w ss
  | .frag g ss => Has S g.cond ss
  | .spread _ => False
/-- The same of a selection set. -/
def Has (S : Schema) (t : String) : List Sel → Prop
  | [] => True
  | s :: r => HasI S t s ∧ Has S t r
end

mutual
/-- The arguments of the fields of an item are arguments those fields have in the subgraph, `A`. -/
def TakesI (S : Schema) (A : String → String → List String) (t : String) : Sel → Prop
  | .field f ss =>
    (∀ x ∈ f.args.getD [], x.1 ∈ A t f.name) ∧ ∀ w, S.fieldTy t f.name = some w → Takes S A w ss
  | .frag g ss => Takes S A g.cond ss
  | .spread _ => False
/-- The same of a selection set. -/
def Takes (S : Schema) (A : String → String → List String) (t : String) : List Sel → Prop
  | [] => True
  | s :: r => TakesI S A t s ∧ Takes S A t r
end

/-! ## Proof -/

variable {S : Schema} {u : String → String → Bool} {v : String → Bool}

theorem wants_append {a b : List Sel} {t : String} {x : Ask} {p : List (String × Ask)} :
    Wants S u v (a ++ b) t x p ↔ Wants S u v a t x p ∨ Wants S u v b t x p := by
  induction a with
  | nil => simp [Wants]
  | cons s r ih => simp [Wants, ih, or_assoc]

theorem wants_mem {a : List Sel} {t : String} {x : Ask} {p : List (String × Ask)} :
    Wants S u v a t x p ↔ ∃ s ∈ a, WantsI S u v s t x p := by
  induction a with
  | nil => simp [Wants]
  | cons s r ih => simp [Wants, ih]

theorem wants_place {first : Bool} {r : List Sel × List Sel} {t : String} {x : Ask} {p : List (String × Ask)} :
    Wants S u v (place first r) t x p ↔ Wants S u v r.1 t x p ∨ Wants S u v r.2 t x p := by
  unfold place
  split <;> rw [wants_append]
  exact or_comm

theorem mergeOmit_ask' {f g : FieldInfo} : ask (mergeOmit f g) = ask f ∧ condOf (mergeOmit f g) = condOf f := by
  unfold mergeOmit
  split <;> exact ⟨rfl, rfl⟩

theorem sameField_ask' {f g : FieldInfo} (h : sameField f g = true) : ask f = ask g := by
  simp only [sameField, Bool.and_eq_true, beq_iff_eq, decide_eq_true_eq] at h
  simp [ask, FieldInfo.key, h]

theorem wants_field {f g : FieldInfo} {ss us ws : List Sel} {t : String} {x : Ask} {p : List (String × Ask)}
    (h1 : ask f = ask g) (h2 : condOf f = condOf g)
    (hw : ∀ t x p, Wants S u v ws t x p ↔ Wants S u v ss t x p ∨ Wants S u v us t x p) :
    WantsI S u v (.field g ws) t x p ↔ WantsI S u v (.field f ss) t x p ∨ WantsI S u v (.field g us) t x p := by
  cases p with
  | nil => simp [WantsI, h1, h2]
  | cons y q => simp only [WantsI, h1, h2, hw]; tauto

mutual
theorem mergeSel_wants (first : Bool) : ∀ (s : Sel) {ts ts' : List Sel}, mergeSel first s ts = some ts' →
    ∀ t x p, Wants S u v ts' t x p ↔ WantsI S u v s t x p ∨ Wants S u v ts t x p
  | .field f ss, ts, ts', h => by
    simp only [mergeSel] at h
    obtain ⟨a, y, b, rfl, hp, rfl⟩ := updateFirst_some h
    match y, hp with
    | .field g us, hp =>
      simp only [matches', Bool.and_eq_true, decide_eq_true_eq] at hp
      intro t x p
      have := wants_field (S := S) (u := u) (v := v) (f := f) (g := mergeOmit g f) (ss := ss) (us := us)
        (t := t) (x := x) (p := p)
        ((sameField_ask' hp.1).trans mergeOmit_ask'.1.symm) (hp.2.trans mergeOmit_ask'.2.symm)
        (ws := place first (mergeLoop first ss us))
        (fun t x p => by rw [wants_place]; exact mergeLoop_wants first ss us t x p)
      have e : WantsI S u v (.field (mergeOmit g f) us) t x p ↔ WantsI S u v (.field g us) t x p := by
        cases p <;> simp only [WantsI, mergeOmit_ask'.1, mergeOmit_ask'.2]
      simp only [wants_append, Wants, onSels]
      rw [this, e]
      tauto
    | .frag _ _, hp => simp [matches'] at hp
    | .spread _, hp => simp [matches'] at hp
  | .frag f ss, ts, ts', h => by
    simp only [mergeSel] at h
    obtain ⟨a, y, b, rfl, hp, rfl⟩ := updateFirst_some h
    match y, hp with
    | .frag g us, hp =>
      simp only [matches', Bool.and_eq_true, beq_iff_eq, decide_eq_true_eq] at hp
      intro t x p
      have hl := mergeLoop_wants first ss us t x p
      simp only [wants_append, Wants, onSels, WantsI, wants_place, hl, hp.1, hp.2]
      tauto
    | .field _ _, hp => simp [matches'] at hp
    | .spread _, hp => simp [matches'] at hp
  | .spread _, _, _, h => by simp [mergeSel] at h
theorem mergeLoop_wants (first : Bool) : ∀ (ss ts : List Sel) (t : String) (x : Ask) (p : List (String × Ask)),
    (Wants S u v (mergeLoop first ss ts).1 t x p ∨ Wants S u v (mergeLoop first ss ts).2 t x p) ↔
      Wants S u v ss t x p ∨ Wants S u v ts t x p
  | [], ts, t, x, p => by simp [mergeLoop, Wants]
  | s :: r, ts, t, x, p => by
    simp only [mergeLoop]
    split
    next ts' h =>
      have h1 := mergeSel_wants first s h t x p
      have h2 := mergeLoop_wants first r ts' t x p
      rw [h2, h1]
      simp only [Wants]
      tauto
    next =>
      have h2 := mergeLoop_wants first r ts t x p
      simp only [Wants]
      tauto
end

theorem mergeSels_wants {first : Bool} {ss ts : List Sel} {t : String} {x : Ask} {p : List (String × Ask)} :
    Wants S u v (mergeSels first ss ts) t x p ↔ Wants S u v ss t x p ∨ Wants S u v ts t x p := by
  rw [mergeSels, wants_place]
  exact mergeLoop_wants first ss ts t x p

theorem takeFirst_wants {q : Sel → Bool} : ∀ {ts ts' : List Sel}, takeFirst q ts = some ts' →
    ∃ y, q y = true ∧ ∀ t x p, Wants S u v ts t x p ↔ WantsI S u v y t x p ∨ Wants S u v ts' t x p
  | [], _, h => by simp [takeFirst] at h
  | y :: r, ts', h => by
    simp only [takeFirst] at h
    split at h
    next hq =>
      cases h
      exact ⟨y, hq, fun t x p => by simp [Wants]⟩
    next =>
      obtain ⟨w, hw, rfl⟩ := Option.map_eq_some_iff.1 h
      obtain ⟨z, hz, hh⟩ := takeFirst_wants hw
      refine ⟨z, hz, fun t x p => ?_⟩
      simp only [Wants, hh]
      tauto

mutual
theorem semI_wants : ∀ (s y : Sel), semI s y = true →
    ∀ t x p, WantsI S u v s t x p ↔ WantsI S u v y t x p
  | .field f ss, .field g ts, h => by
    simp only [semI, Bool.and_eq_true, beq_iff_eq, decide_eq_true_eq] at h
    obtain ⟨⟨⟨⟨⟨h1, h2⟩, h3⟩, h4⟩, -⟩, h6⟩ := h
    intro t x p
    have e : ask f = ask g := by simp [ask, FieldInfo.key, h1, h2, h3]
    cases p with
    | nil => simp only [WantsI, h4, e]
    | cons y q => simp only [WantsI, h4, e, semL_wants ss ts h6]
  | .frag f ss, .frag g ts, h => by
    simp only [semI, Bool.and_eq_true, beq_iff_eq, decide_eq_true_eq] at h
    intro t x p
    simp only [WantsI, h.1.1, h.1.2, semL_wants ss ts h.2]
  | .spread a, .spread b, h => fun t x p => by simp [WantsI]
  | .field _ _, .frag _ _, h => by simp [semI] at h
  | .field _ _, .spread _, h => by simp [semI] at h
  | .frag _ _, .field _ _, h => by simp [semI] at h
  | .frag _ _, .spread _, h => by simp [semI] at h
  | .spread _, .field _ _, h => by simp [semI] at h
  | .spread _, .frag _ _, h => by simp [semI] at h
theorem semL_wants : ∀ (ss ts : List Sel), semL ss ts = true →
    ∀ t x p, Wants S u v ss t x p ↔ Wants S u v ts t x p
  | [], ts, h => by
    simp only [semL, List.isEmpty_iff] at h
    subst h
    exact fun _ _ _ => Iff.rfl
  | s :: r, ts, h => by
    simp only [semL] at h
    split at h
    next ts' e =>
      obtain ⟨y, hy, hh⟩ := takeFirst_wants (S := S) (u := u) (v := v) e
      intro t x p
      rw [hh, ← semL_wants r ts' h t x p, ← semI_wants s y hy t x p]
      simp [Wants]
    next => cases h
end

theorem wants_split : ∀ {ss : List Sel} {t : String} {x : Ask} {p : List (String × Ask)},
    Wants S u v ss t x p ↔ Wants S u v (others ss) t x p ∨
      ∃ b ∈ branches ss, on v (fragCond b.1) = true ∧ isA S u t b.1.cond = true ∧ Wants S u v b.2 t x p
  | [], t, x, p => by simp [Wants, others, branches]
  | .field f ts :: r, t, x, p => by
    have := wants_split (ss := r) (t := t) (x := x) (p := p)
    simp only [Wants, others, branches, this, or_assoc]
  | .spread f :: r, t, x, p => by
    have := wants_split (ss := r) (t := t) (x := x) (p := p)
    simp only [Wants, others, branches, this, or_assoc]
  | .frag f ts :: r, t, x, p => by
    have := wants_split (ss := r) (t := t) (x := x) (p := p)
    simp only [Wants, others, branches, this, WantsI, List.mem_cons, exists_eq_or_imp]
    tauto

theorem foldInto_wants {i : String} {bs : List (FragInfo × List Sel)} {sub : List Sel} {c : Cond}
    (h : foldInto S i bs = some (sub, c)) {t : String} (ht : S.kind t = some .object) (x : Ask)
    (p : List (String × Ask)) :
    S.kind i = some .interface ∧
    ((on v c = true ∧ isA S u t i = true ∧ Wants S u v sub t x p) ↔
      ∃ b ∈ bs, on v (fragCond b.1) = true ∧ isA S u t b.1.cond = true ∧ Wants S u v b.2 t x p) := by
  match bs, h with
  | b :: b' :: r, h =>
    simp only [foldInto] at h
    split at h
    next hh =>
      cases h
      obtain ⟨hk, -, hc, hm, hm', hs, -, -⟩ := hh
      simp only [List.all_eq_true, Bool.and_eq_true, decide_eq_true_eq, List.contains_iff_mem,
        List.any_eq_true, beq_iff_eq] at hc hm hm' hs
      refine ⟨hk, ?_⟩
      have hA : isA S u t i = true ↔ t ∈ S.members i := by
        simp only [isA, hk, Schema.members, List.mem_filter]
        constructor
        · intro h
          refine ⟨?_, h⟩
          simp only [Schema.impl, Bool.and_eq_true, List.contains_iff_mem] at h
          exact h.1.1
        · exact fun h => h.2
      have hS : ∀ y ∈ b :: b' :: r, ∀ t x p, Wants S u v b.2 t x p ↔ Wants S u v y.2 t x p := by
        intro y hy t x p
        rcases List.mem_cons.1 hy with rfl | hy
        · exact Iff.rfl
        · exact semL_wants _ _ (hs y hy) t x p
      have hB : ∀ y ∈ b :: b' :: r, isA S u t y.1.cond = true ↔ t = y.1.cond := by
        intro y hy
        simp [isA, (hc y hy).2]
      constructor
      · rintro ⟨h1, h2, h3⟩
        obtain ⟨y, hy, rfl⟩ := hm' t (hA.1 h2)
        exact ⟨y, hy, by rw [(hc y hy).1]; exact h1, (hB y hy).2 rfl, (hS y hy _ _ _).1 h3⟩
      · rintro ⟨y, hy, h1, h2, h3⟩
        have e := (hB y hy).1 h2
        refine ⟨by rw [(hc y hy).1] at h1; exact h1, hA.2 ?_, (hS y hy _ _ _).2 h3⟩
        rw [e]
        exact hm y hy
    next => cases h

theorem firstFold_some {bs : List (FragInfo × List Sel)} {i : String} {y : List Sel × Cond} :
    ∀ {is : List String}, firstFold S bs is = some (i, y) → i ∈ is ∧ foldInto S i bs = some y
  | [], h => by simp [firstFold] at h
  | j :: r, h => by
    simp only [firstFold] at h
    split at h
    next z e =>
      cases h
      exact ⟨List.mem_cons_self .., e⟩
    next =>
      have := firstFold_some h
      exact ⟨List.mem_cons_of_mem _ this.1, this.2⟩

theorem tryFold_some {any : Bool} {cur : String} {bs : List (FragInfo × List Sel)} {i : String}
    {y : List Sel × Cond} (h : tryFold S any cur bs = some (i, y)) : foldInto S i bs = some y := by
  unfold tryFold at h
  split at h
  · split at h
    · cases h
    · exact (firstFold_some h).2
  · exact (firstFold_some h).2

theorem foldFrags_wants {any : Bool} {cur : String} {ss : List Sel} {t : String}
    (ht : S.kind t = some .object) (hcur : isA S u t cur = true) (x : Ask) (p : List (String × Ask)) :
    Wants S u v (foldFrags S any cur ss) t x p ↔ Wants S u v ss t x p := by
  unfold foldFrags
  split
  · rfl
  next i sub c h =>
    have hw := (foldInto_wants (u := u) (v := v) (tryFold_some h) ht x p).2
    rw [wants_split (ss := ss), ← hw]
    split
    next hc =>
      obtain ⟨rfl, rfl⟩ := hc
      rw [mergeSels_wants]
      simp only [on, hcur, Option.any_none, Option.all_none, Bool.not_false, Bool.and_self, true_and]
      exact or_comm
    next =>
      rw [wants_append]
      simp [Wants, WantsI, fragCond]

mutual
theorem rewriteI_wants (hv : Covariant S u) {any : Bool} : ∀ (s : Sel) {s' : Sel} {cur : String},
    rewriteI S any cur s = some s' → ∀ t x p, S.kind t = some .object → isA S u t cur = true →
    Path S u t x p → (WantsI S u v s' t x p ↔ WantsI S u v s t x p)
  | .field f ss, s', cur, h => by
    simp only [rewriteI] at h
    split at h
    · cases h
    next c hc =>
      obtain ⟨w, hw, rfl⟩ := Option.map_eq_some_iff.1 h
      intro t x p ht hcur hp
      match p, hp with
      | [], _ => simp [WantsI]
      | (t', b) :: q, hp =>
        simp only [WantsI]
        obtain ⟨h1, ⟨d, hd, hd'⟩, h3⟩ := hp
        constructor
        · rintro ⟨ho, rfl, hw'⟩
          have hc' := hv t cur f.name d c t' hcur hd hc hd'
          exact ⟨ho, rfl, (rewriteL_wants hv ss hw t' b q h1 hc' h3).1 ((foldFrags_wants h1 hc' b q).1 hw')⟩
        · rintro ⟨ho, rfl, hw'⟩
          have hc' := hv t cur f.name d c t' hcur hd hc hd'
          exact ⟨ho, rfl, (foldFrags_wants h1 hc' b q).2 ((rewriteL_wants hv ss hw t' b q h1 hc' h3).2 hw')⟩
  | .frag g ss, s', cur, h => by
    simp only [rewriteI] at h
    obtain ⟨w, hw, rfl⟩ := Option.map_eq_some_iff.1 h
    intro t x p ht hcur hp
    simp only [WantsI]
    constructor
    · rintro ⟨h1, h2, h3⟩
      exact ⟨h1, h2, (rewriteL_wants hv ss hw t x p ht h2 hp).1 ((foldFrags_wants ht h2 x p).1 h3)⟩
    · rintro ⟨h1, h2, h3⟩
      exact ⟨h1, h2, (foldFrags_wants ht h2 x p).2 ((rewriteL_wants hv ss hw t x p ht h2 hp).2 h3)⟩
  | .spread _, _, _, h => by simp [rewriteI] at h
theorem rewriteL_wants (hv : Covariant S u) {any : Bool} : ∀ (ss : List Sel) {ss' : List Sel} {cur : String},
    rewriteL S any cur ss = some ss' → ∀ t x p, S.kind t = some .object → isA S u t cur = true →
    Path S u t x p → (Wants S u v ss' t x p ↔ Wants S u v ss t x p)
  | [], _, _, h => by
    simp only [rewriteL, Option.some.injEq] at h
    subst h
    exact fun _ _ _ _ _ _ => Iff.rfl
  | s :: r, ss', cur, h => by
    simp only [rewriteL] at h
    split at h
    · cases h
    next s' hs =>
      obtain ⟨w, hw, rfl⟩ := Option.map_eq_some_iff.1 h
      intro t x p ht hcur hp
      simp only [Wants, rewriteI_wants hv s hs t x p ht hcur hp, rewriteL_wants hv r hw t x p ht hcur hp]
end

theorem has_append {t : String} {a b : List Sel} : Has S t (a ++ b) ↔ Has S t a ∧ Has S t b := by
  induction a with
  | nil => simp [Has]
  | cons s r ih => simp [Has, ih, and_assoc]

theorem has_place {first : Bool} {t : String} {r : List Sel × List Sel} :
    Has S t (place first r) ↔ Has S t r.1 ∧ Has S t r.2 := by
  unfold place
  split <;> rw [has_append]
  exact and_comm

mutual
theorem mergeSel_has (first : Bool) : ∀ (s : Sel) {t : String} {ts ts' : List Sel},
    mergeSel first s ts = some ts' → HasI S t s → Has S t ts → Has S t ts'
  | .field f ss, t, ts, ts', h, hs, ht => by
    simp only [mergeSel] at h
    obtain ⟨a, y, b, rfl, hp, rfl⟩ := updateFirst_some h
    match y, hp with
    | .field g us, hp =>
      simp only [matches', sameField, Bool.and_eq_true, beq_iff_eq, decide_eq_true_eq] at hp
      rw [has_append] at ht ⊢
      have hn : (mergeOmit g f).name = g.name := by unfold mergeOmit; split <;> rfl
      simp only [Has, HasI, onSels, hn] at ht hs ⊢
      refine ⟨ht.1, ?_, ht.2.2⟩
      rcases ht.2.1 with h1 | ⟨w, hw, hw'⟩
      · exact .inl h1
      · rcases hs with h2 | ⟨w', h2, h3⟩
        · exact .inl (hp.1.1.1 ▸ h2)
        · rw [hp.1.1.1, hw, Option.some.injEq] at h2
          subst h2
          exact .inr ⟨w, hw, has_place.2 (mergeLoop_has first ss us h3 hw')⟩
    | .frag _ _, hp => simp [matches'] at hp
    | .spread _, hp => simp [matches'] at hp
  | .frag f ss, t, ts, ts', h, hs, ht => by
    simp only [mergeSel] at h
    obtain ⟨a, y, b, rfl, hp, rfl⟩ := updateFirst_some h
    match y, hp with
    | .frag g us, hp =>
      simp only [matches', Bool.and_eq_true, beq_iff_eq, decide_eq_true_eq] at hp
      rw [has_append] at ht ⊢
      simp only [Has, HasI, onSels] at ht hs ⊢
      refine ⟨ht.1, ?_, ht.2.2⟩
      exact has_place.2 (mergeLoop_has first ss us (hp.1 ▸ hs) ht.2.1)
    | .field _ _, hp => simp [matches'] at hp
    | .spread _, hp => simp [matches'] at hp
  | .spread _, _, _, _, h, _, _ => by simp [mergeSel] at h
theorem mergeLoop_has (first : Bool) : ∀ (ss ts : List Sel) {t : String}, Has S t ss → Has S t ts →
    Has S t (mergeLoop first ss ts).1 ∧ Has S t (mergeLoop first ss ts).2
  | [], ts, t, _, ht => by simp [mergeLoop, Has, ht]
  | s :: r, ts, t, hs, ht => by
    simp only [Has] at hs
    simp only [mergeLoop]
    split
    next ts' h => exact mergeLoop_has first r ts' hs.2 (mergeSel_has first s h hs.1 ht)
    next =>
      have h2 := mergeLoop_has first r ts hs.2 ht
      exact ⟨h2.1, hs.1, h2.2⟩
end

mutual
theorem validI_has : ∀ (s : Sel) {t : String}, validI S t s = true → HasI S t s
  | .field f ss, t, h => by
    simp only [validI, Bool.or_eq_true, beq_iff_eq] at h
    simp only [HasI]
    rcases h with h | h
    · exact .inl h
    · split at h
      next w hw =>
        simp only [Bool.and_eq_true] at h
        exact .inr ⟨w, hw, validL_has ss h.2⟩
      next => cases h
  | .frag g ss, t, h => by
    simp only [validI, Bool.and_eq_true] at h
    exact validL_has ss h.2
  | .spread _, _, h => by simp [validI] at h
theorem validL_has : ∀ (ss : List Sel) {t : String}, validL S t ss = true → Has S t ss
  | [], _, _ => trivial
  | s :: r, t, h => by
    simp only [validL, Bool.and_eq_true] at h
    exact ⟨validI_has s h.1, validL_has r h.2⟩
end

theorem others_has : ∀ {ss : List Sel} {t : String}, Has S t ss → Has S t (others ss)
  | [], _, _ => trivial
  | .field _ _ :: r, _, h => ⟨h.1, others_has h.2⟩
  | .spread _ :: r, _, h => ⟨h.1, others_has h.2⟩
  | .frag _ _ :: r, _, h => others_has (ss := r) h.2

theorem foldInto_has {i : String} {bs : List (FragInfo × List Sel)} {sub : List Sel} {c : Cond}
    (h : foldInto S i bs = some (sub, c)) : Has S i sub := by
  match bs, h with
  | b :: b' :: r, h =>
    simp only [foldInto] at h
    split at h
    next hh =>
      cases h
      have := hh.2.2.2.2.2.2.2
      simp only [valid, Bool.and_eq_true] at this
      exact validL_has _ this.2
    next => cases h

theorem foldFrags_has {any : Bool} {cur : String} {ss : List Sel} (h : Has S cur ss) :
    Has S cur (foldFrags S any cur ss) := by
  unfold foldFrags
  split
  · exact h
  next i sub c e =>
    have hs := foldInto_has (tryFold_some e)
    split
    next hc =>
      obtain ⟨rfl, rfl⟩ := hc
      exact has_place.2 (mergeLoop_has false _ _ hs (others_has h))
    next =>
      rw [has_append]
      exact ⟨others_has h, hs, trivial⟩

mutual
theorem rewriteI_has (hr : ∀ t f c w, S.ret t f = some c → S.fieldTy t f = some w → c = w) {any : Bool} :
    ∀ (s : Sel) {s' : Sel} {cur : String}, rewriteI S any cur s = some s' → HasI S cur s → HasI S cur s'
  | .field f ss, s', cur, h, hs => by
    simp only [rewriteI] at h
    split at h
    · cases h
    next c hc =>
      obtain ⟨x, hx, rfl⟩ := Option.map_eq_some_iff.1 h
      simp only [HasI] at hs ⊢
      rcases hs with hs | ⟨w, hw, hw'⟩
      · exact .inl hs
      · have e := hr _ _ _ _ hc hw
        subst e
        exact .inr ⟨c, hw, foldFrags_has (rewriteL_has hr ss hx hw')⟩
  | .frag g ss, s', cur, h, hs => by
    simp only [rewriteI] at h
    obtain ⟨x, hx, rfl⟩ := Option.map_eq_some_iff.1 h
    simp only [HasI] at hs ⊢
    exact foldFrags_has (rewriteL_has hr ss hx hs)
  | .spread _, _, _, h, _ => by simp [rewriteI] at h
theorem rewriteL_has (hr : ∀ t f c w, S.ret t f = some c → S.fieldTy t f = some w → c = w) {any : Bool} :
    ∀ (ss : List Sel) {ss' : List Sel} {cur : String}, rewriteL S any cur ss = some ss' → Has S cur ss →
      Has S cur ss'
  | [], _, _, h, _ => by
    simp only [rewriteL, Option.some.injEq] at h
    subst h
    trivial
  | s :: r, ss', cur, h, hs => by
    simp only [rewriteL] at h
    split at h
    · cases h
    next s' hs' =>
      obtain ⟨w, hw, rfl⟩ := Option.map_eq_some_iff.1 h
      exact ⟨rewriteI_has hr s hs' hs.1, rewriteL_has hr r hw hs.2⟩
end

/-! ## Theorems -/

/-- For every schema and selection set, whatever the values of the variables: when fragments were folded, an
object of any type the selection set is for is asked for the same fields, and so is every object below it that
the fields can lead to. -/
theorem C120_same (hv : Covariant S u) {any : Bool} {cur : String} {ss ss' : List Sel}
    (h : rewrite S any cur ss = some ss') {t : String} (ht : S.kind t = some .object)
    (hcur : isA S u t cur = true) {x : Ask} {p : List (String × Ask)} (hp : Path S u t x p) :
    Wants S u v ss' t x p ↔ Wants S u v ss t x p := by
  obtain ⟨w, hw, rfl⟩ := Option.map_eq_some_iff.1 h
  rw [foldFrags_wants ht hcur]
  exact rewriteL_wants hv ss hw t x p ht hcur hp

/-- The same of all selections of a step: their types stay, and each asks for what it asked for. -/
theorem C120_step (hv : Covariant S u) {any : Bool} : ∀ {s s' : Selections}, rewriteStep S any s = some s' →
    List.Forall₂ (fun a b => a.1 = b.1 ∧ ∀ t, S.kind t = some .object → isA S u t a.1 = true →
      ∀ x p, Path S u t x p → (Wants S u v b.2 t x p ↔ Wants S u v a.2 t x p)) s s'
  | [], _, h => by
    simp only [rewriteStep, Option.some.injEq] at h
    subst h
    exact .nil
  | (c, ss) :: r, _, h => by
    simp only [rewriteStep] at h
    split at h
    · cases h
    next w hw =>
      obtain ⟨z, hz, rfl⟩ := Option.map_eq_some_iff.1 h
      exact .cons ⟨rfl, fun t ht hc x p hp => C120_same hv hw ht hc hp⟩ (C120_step hv hz)

/-- If every field that was asked for is a field of the type it is asked of, it still is when fragments were
folded, for every schema in which the supergraph and the subgraph agree on the types of fields.

Missing: that the arguments are arguments of those fields, which `Case.C120_args_refuted` shows to be wrong. -/
theorem C120_fields_partial (hr : ∀ t f c w, S.ret t f = some c → S.fieldTy t f = some w → c = w) {any : Bool}
    {cur : String} {ss ss' : List Sel} (h : rewrite S any cur ss = some ss') (hs : Has S cur ss) :
    Has S cur ss' := by
  obtain ⟨w, hw, rfl⟩ := Option.map_eq_some_iff.1 h
  exact foldFrags_has (rewriteL_has hr ss hw hs)

/-- Nothing is changed where there is nothing to fold: with fewer than two fragments the selection set stays. -/
theorem C120_stays {any : Bool} {cur : String} {ss : List Sel} (h : (branches ss).length < 2) :
    foldFrags S any cur ss = ss := by
  unfold foldFrags
  split
  · rfl
  next i sub c e =>
    have e' := tryFold_some e
    match hb : branches ss, e', h with
    | _ :: _ :: _, _, h => simp only [List.length_cons] at h; omega

namespace Case

/-- `interface Media { title: String }`, implemented by `Book` and `Movie`, whose titles take a language. -/
def sch : Schema where
  kind := fun t => if t = "Query" ∨ t = "Book" ∨ t = "Movie" then some .object
    else if t = "Media" then some .interface else none
  fieldTy := fun t f => if t = "Query" ∧ f = "media" then some "Media"
    else if (t = "Media" ∨ t = "Book" ∨ t = "Movie") ∧ f = "title" then some "String" else none
  objects := ["Query", "Book", "Movie"]
  impls := fun t => if t = "Book" ∨ t = "Movie" then ["Media"] else []
  ret := fun t f => if t = "Query" ∧ f = "media" then some "Media"
    else if (t = "Media" ∨ t = "Book" ∨ t = "Movie") ∧ f = "title" then some "String" else none

/-- The arguments of the fields. -/
def takes (t f : String) : List String := if (t = "Book" ∨ t = "Movie") ∧ f = "title" then ["lang"] else []

/-- `title(lang: ..)`. -/
def title (l : Lit) : Sel := .field { name := "title", args := some [("lang", l)] } []

/-- `{ media { ... on Book { title(lang: ..) } ... on Movie { title(lang: ..) } } }`. -/
def sels (l : Lit) : List Sel :=
  [.field { name := "media" } [.frag { cond := "Book" } [title l], .frag { cond := "Movie" } [title l]]]

theorem semTitle (l : Lit) : semL [title l] [title l] = true := by
  have : semI (title l) (title l) = true := by simp [title, semI, semL]
  simp [semL, takeFirst, this]

/-- It is folded. -/
theorem folds (l : Lit) : rewrite sch false "Query" (sels l) = some [.field { name := "media" } [title l]] := by
  have h := semTitle l
  simp only [title] at h
  simp [rewrite, rewriteL, rewriteI, sels, title, sch, foldFrags, tryFold, firstFold, foldInto, branches, others,
    Schema.members, Schema.impl, h, valid, validL, validI, onIfaceL, onIfaceI, mergeSels,
    mergeLoop, mergeSel, place, updateFirst, fragCond]

/-- The hypotheses of the theorems are met. -/
example : Covariant sch (fun _ _ => false) := by
  intro t c f x y o h1 h2 h3 h4
  simp only [sch] at h2 h3
  split at h2 <;> split at h3 <;> simp_all
  all_goals (try (simp_all [isA, sch, Schema.impl]))
example : Path sch (fun _ _ => false) "Query" ("media", "media", none) [("Book", ("title", "title", none))] :=
  ⟨by simp [sch], ⟨"Media", by simp [sch], by simp [isA, sch, Schema.impl]⟩, trivial⟩
example : ∀ t f c w, sch.ret t f = some c → sch.fieldTy t f = some w → c = w := by
  intro t f c w h1 h2
  simp only [sch] at h1 h2
  rw [h1] at h2
  exact Option.some.inj h2
example (l : Lit) : Has sch "Query" (sels l) := by simp [Has, HasI, sels, sch, title]

/-- The subgraph takes the arguments before, and not after: `title` of the interface has none. -/
theorem C120_args_refuted (l : Lit) : Takes sch takes "Query" (sels l) ∧
    ∃ r, rewrite sch false "Query" (sels l) = some r ∧ ¬ Takes sch takes "Query" r := by
  refine ⟨by simp [Takes, TakesI, sels, sch, title, takes], _, folds l, ?_⟩
  simp [Takes, TakesI, sch, title, takes]

end Case

end Verif.Fold
