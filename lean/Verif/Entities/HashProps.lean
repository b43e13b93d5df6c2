import Verif.Core.Feed
import Verif.Entities.RequiresLemmas

/-!
# Which entities are taken for the same: C23

Entities with the same hash are fetched once. Apart from clashes of the hash function itself, that is
right if entities that feed it the same bytes have the same representation.
-/

namespace Verif.Entities

open Verif.Json
open Verif.Projection

/-! ## Specification -/

/-- Two values of the same kind, with the ranges of the Rust types. -/
inductive SameKind : Value → Value → Prop
  | null : SameKind .null .null
  | bool (a b) : SameKind (.bool a) (.bool b)
  | f64 (a b : Nat) : a < 2 ^ 64 → b < 2 ^ 64 → SameKind (.f64 a) (.f64 b)
  | u64 (a b : Nat) : a < 2 ^ 64 → b < 2 ^ 64 → SameKind (.u64 a) (.u64 b)
  | i64 (a b : Int) : -2 ^ 63 ≤ a → a < 2 ^ 63 → -2 ^ 63 ≤ b → b < 2 ^ 63 → SameKind (.i64 a) (.i64 b)
  | str (a b) : SameKind (.str a) (.str b)
  | raw (a b) : SameKind (.raw a) (.raw b)
  | arr (a b : List Value) : a.length < 2 ^ 64 → b.length < 2 ^ 64 →
      (∀ (i : Nat) v w, a[i]? = some v → b[i]? = some w → SameKind v w) → SameKind (.arr a) (.arr b)
  | obj (a b : Fields) : a.length < 2 ^ 64 → b.length < 2 ^ 64 →
      (∀ (i : Nat) k k' v w, a[i]? = some (k, v) → b[i]? = some (k', w) → SameKind v w) →
      SameKind (.obj a) (.obj b)

/-- Two values with a selection: of the same shape down to the objects, which are related by `on`. -/
inductive SameShape (on : Fields → Fields → Prop) : Value → Value → Prop
  | obj (a b : Fields) : on a b → SameShape on (.obj a) (.obj b)
  | arr (a b : List Value) : a.length = b.length →
      (∀ (i : Nat) v w, a[i]? = some v → b[i]? = some w → SameShape on v w) → SameShape on (.arr a) (.arr b)
  | other (v w : Value) : (∀ fs, v ≠ .obj fs) → (∀ vs, v ≠ .arr vs) → SameKind v w → SameShape on v w

/-- The selection itself has the type name. -/
def hasTypename : List Sel → Bool
  | [] => false
  | .field f s :: rest => (f.name == "__typename" && s.isEmpty) || hasTypename rest
  | _ :: rest => hasTypename rest

/-- Both have a value for a field or neither has, and if they have the values are related. -/
def Both (P : Value → Value → Prop) (a b : Option Value) : Prop :=
  (a = none ∧ b = none) ∨ ∃ v w, a = some v ∧ b = some w ∧ P v w

/-- The required parts of two objects are of the same kind: the same fields are there, by their
names, the same fragments apply, in both senses, and objects below have the same type or say theirs
among the required fields. -/
def AlikeFields (S : Schema) : List Sel → Fields → Fields → Prop
  | [], _, _ => True
  | .field f s :: rest, a, b =>
    Both (if s.isEmpty then SameKind else SameShape fun a b =>
        (typeOf a = typeOf b ∨ hasTypename s = true) ∧ SortedKeys a ∧ SortedKeys b ∧ AlikeFields S s a b)
      (lookup f.name a) (lookup f.name b) ∧
    (lookup f.name a = none → lookup f.key a = none ∧ lookup f.key b = none) ∧
    AlikeFields S rest a b
  | .frag g s :: rest, a, b =>
    (hashApplies S a g.cond = hashApplies S b g.cond ∧ Applies S a g.cond = hashApplies S a g.cond ∧
      Applies S b g.cond = hashApplies S b g.cond ∧ AlikeFields S s a b) ∧ AlikeFields S rest a b
  | .spread _ :: rest, a, b => AlikeFields S rest a b

/-! ## Decoding -/

theorem items_prefix {a b : List Value} (hl : a.length = b.length)
    (h : ∀ (i : Nat) v w, a[i]? = some v → b[i]? = some w → ∀ r r', hashValue v ++ r = hashValue w ++ r' →
      v = w ∧ r = r') : ∀ r r', hashValues a ++ r = hashValues b ++ r' → a = b ∧ r = r' := by
  induction a generalizing b with
  | nil =>
    cases b with
    | nil => intro r r' he; exact ⟨rfl, he⟩
    | cons => simp at hl
  | cons v a ih =>
    cases b with
    | nil => simp at hl
    | cons w b =>
      intro r r' he
      rw [hashValues, hashValues, List.append_assoc, List.append_assoc] at he
      obtain ⟨h1, h2⟩ := h 0 v w rfl rfl _ _ he
      obtain ⟨h3, h4⟩ := ih (by simpa using hl) (fun i v w hv hw => h (i + 1) v w hv hw) _ _ h2
      exact ⟨by rw [h1, h3], h4⟩

theorem members_prefix {a b : Fields} (hl : a.length = b.length)
    (h : ∀ (i : Nat) k k' v w, a[i]? = some (k, v) → b[i]? = some (k', w) → ∀ r r',
      hashValue v ++ r = hashValue w ++ r' → v = w ∧ r = r') :
    ∀ r r', hashMembers a ++ r = hashMembers b ++ r' → a = b ∧ r = r' := by
  induction a generalizing b with
  | nil =>
    cases b with
    | nil => intro r r' he; exact ⟨rfl, he⟩
    | cons => simp at hl
  | cons v a ih =>
    cases b with
    | nil => simp at hl
    | cons w b =>
      obtain ⟨k, v⟩ := v
      obtain ⟨k', w⟩ := w
      intro r r' he
      rw [hashMembers, hashMembers] at he
      simp only [List.append_assoc] at he
      obtain ⟨h0, he⟩ := hashStr_append he
      obtain ⟨h1, h2⟩ := h 0 k k' v w rfl rfl _ _ he
      obtain ⟨h3, h4⟩ := ih (by simpa using hl) (fun i k k' v w hv hw => h (i + 1) k k' v w hv hw) _ _ h2
      exact ⟨by rw [h0, h1, h3], h4⟩

theorem hashValue_prefix {v w : Value} (h : SameKind v w) :
    ∀ r r', hashValue v ++ r = hashValue w ++ r' → v = w ∧ r = r' := by
  induction h with
  | null => intro r r' he; exact ⟨rfl, by simpa [hashValue] using he⟩
  | bool a b =>
    intro r r' he
    rw [hashValue, hashValue] at he
    cases a <;> cases b <;> simp_all
  | f64 a b ha hb =>
    intro r r' he
    obtain ⟨h1, h2⟩ := le8_append ha hb (by simpa [hashValue] using he)
    exact ⟨by rw [h1], h2⟩
  | u64 a b ha hb =>
    intro r r' he
    obtain ⟨h1, h2⟩ := le8_append ha hb (by simpa [hashValue] using he)
    exact ⟨by rw [h1], h2⟩
  | i64 a b h1 h2 h3 h4 =>
    intro r r' he
    rw [hashValue, hashValue] at he
    obtain ⟨h5, h6⟩ := le8_append (by omega) (by omega) he
    exact ⟨by congr 1; omega, h6⟩
  | str a b =>
    intro r r' he
    obtain ⟨h1, h2⟩ := hashStr_append (by simpa [hashValue] using he)
    exact ⟨by rw [h1], h2⟩
  | raw a b =>
    intro r r' he
    obtain ⟨h1, h2⟩ := hashStr_append (by simpa [hashValue] using he)
    exact ⟨by rw [h1], h2⟩
  | arr a b ha hb _ ih =>
    intro r r' he
    rw [hashValue, hashValue, List.append_assoc, List.append_assoc] at he
    obtain ⟨h1, h2⟩ := le8_append ha hb he
    obtain ⟨h3, h4⟩ := items_prefix h1 ih _ _ h2
    exact ⟨by rw [h3], h4⟩
  | obj a b ha hb _ ih =>
    intro r r' he
    rw [hashValue, hashValue, List.append_assoc, List.append_assoc] at he
    obtain ⟨h1, h2⟩ := le8_append ha hb he
    obtain ⟨h3, h4⟩ := members_prefix h1 ih _ _ h2
    exact ⟨by rw [h3], h4⟩

section
variable (ryu : Nat → List Char) (raw : String → Json) (S : Schema)

/-- The values have the same representation. -/
def SameRep (s : List Sel) (v w : Value) : Prop :=
  (v = .null ↔ w = .null) ∧ rep ryu raw S s v = rep ryu raw S s w

theorem feedValue_prefix {s : List Sel} {on : Fields → Fields → Prop}
    (ho : ∀ a b, on a b → ∀ r r', feedFields S s a ++ r = feedFields S s b ++ r' →
      rep ryu raw S s (.obj a) = rep ryu raw S s (.obj b) ∧ r = r')
    {v w : Value} (h : SameShape on v w) : ∀ r r',
    feedValue (feedFields S s) v ++ r = feedValue (feedFields S s) w ++ r' →
    SameRep ryu raw S s v w ∧ r = r' := by
  induction h with
  | obj a b hab =>
    intro r r' he
    rw [feedValue, feedValue] at he
    obtain ⟨h1, h2⟩ := ho a b hab r r' he
    exact ⟨⟨by simp, h1⟩, h2⟩
  | arr a b hl _ ih =>
    intro r r' he
    rw [feedValue, feedValue] at he
    suffices ∀ r r', feedValues (feedFields S s) a ++ r = feedValues (feedFields S s) b ++ r' →
        repItems ryu raw (repObject ryu raw S s (members ryu raw S s)) a =
        repItems ryu raw (repObject ryu raw S s (members ryu raw S s)) b ∧ r = r' by
      obtain ⟨h1, h2⟩ := this r r' he
      refine ⟨⟨by simp, ?_⟩, h2⟩
      unfold rep
      rw [repValue, repValue, h1]
    clear he r r'
    rename_i h0
    clear h0
    induction a generalizing b with
    | nil =>
      cases b with
      | nil => intro r r' he; exact ⟨rfl, he⟩
      | cons => simp at hl
    | cons v a iha =>
      cases b with
      | nil => simp at hl
      | cons w b =>
        intro r r' he
        rw [feedValues, feedValues, List.append_assoc, List.append_assoc] at he
        obtain ⟨h1, h2⟩ := ih 0 v w rfl rfl _ _ he
        obtain ⟨h3, h4⟩ := iha b (by simpa using hl) (fun i v w hv hw => ih (i + 1) v w hv hw) _ _ h2
        refine ⟨?_, h4⟩
        rw [repItems, repItems, h3]
        have := h1.2
        unfold rep at this
        rw [this]
  | other v w ho ha hk =>
    intro r r' he
    have : v = w ∧ r = r' := by
      refine hashValue_prefix hk r r' ?_
      cases hk <;> first
        | exact absurd rfl (ho _)
        | exact absurd rfl (ha _)
        | exact he
    rw [this.1]
    exact ⟨⟨Iff.rfl, rfl⟩, this.2⟩

theorem rep_obj_eq {s : List Sel} {a b : Fields} (hs : s.isEmpty = false)
    (hm : members ryu raw S s a = members ryu raw S s b) (ht : touched S a s = touched S b s)
    (hy : typeOf a = typeOf b) : rep ryu raw S s (.obj a) = rep ryu raw S s (.obj b) := by
  unfold rep
  rw [repValue, repValue]
  unfold repObject
  rw [hs, hm, ht, hy]
  simp only [Bool.false_eq_true, if_false]

theorem feedFields_prefix (sels : List Sel) : ∀ {a b : Fields}, SortedKeys a → SortedKeys b →
    AlikeFields S sels a b → ∀ r r', feedFields S sels a ++ r = feedFields S sels b ++ r' →
    members ryu raw S sels a = members ryu raw S sels b ∧ touched S a sels = touched S b sels ∧
    (hasTypename sels = true → typeOf a = typeOf b) ∧ r = r' := by
  induction sels using Sels.ind with
  | nil => intro a b _ _ _ r r' he; exact ⟨by rw [members, members], by rw [touched, touched], by simp [hasTypename], by simpa [feedFields] using he⟩
  | field f s rest ihs ih =>
    intro a b sa sb hk r r' he
    rw [AlikeFields] at hk
    obtain ⟨hb, hn, hr⟩ := hk
    rw [feedFields, feedFields, getKey_eq_lookup sa, getKey_eq_lookup sb] at he
    rcases hb with ⟨h1, h2⟩ | ⟨v, w, h1, h2, hvw⟩
    · rw [h1, h2] at he
      obtain ⟨k1, k2, k3, k4⟩ := ih sa sb hr r r' he
      have f1 : found a f = none := by unfold found; rw [h1]; exact (hn h1).1
      have f2 : found b f = none := by unfold found; rw [h2]; exact (hn h1).2
      refine ⟨?_, ?_, ?_, k4⟩
      · rw [members, members, k1]
        unfold repField
        rw [f1, f2]
      · rw [touched, touched, k2, f1, f2]
      · rw [hasTypename, Bool.or_eq_true]
        rintro (h | h)
        · simp at h
          unfold typeOf
          rw [← h.1, h1, h2]
        · exact k3 h
    · rw [h1, h2] at he
      simp only [List.append_assoc] at he
      obtain ⟨_, he⟩ := hashStr_append he
      have f1 : found a f = some v := by unfold found; rw [h1]
      have f2 : found b f = some w := by unfold found; rw [h2]
      have key : SameRep ryu raw S s v w ∧ (s.isEmpty = true → v = w) ∧
          feedFields S rest a ++ r = feedFields S rest b ++ r' := by
        unfold feedBy at he
        cases hs : s.isEmpty with
        | true =>
          rw [hs] at he hvw
          simp only [if_true] at he hvw
          obtain ⟨h3, h4⟩ := hashValue_prefix hvw _ _ he
          exact ⟨by rw [h3]; exact ⟨Iff.rfl, rfl⟩, fun _ => h3, h4⟩
        | false =>
          rw [hs] at he hvw
          simp only [Bool.false_eq_true, if_false] at he hvw
          refine (fun h => ⟨h.1, (fun h' => by cases h'), h.2⟩ : _ ∧ _ → _ ∧ _ ∧ _)
            (feedValue_prefix ryu raw S ?_ hvw _ _ he)
          intro a b hab r r' he
          obtain ⟨ht, ha, hb, hab⟩ := hab
          obtain ⟨m1, m2, m3, m4⟩ := ihs ha hb hab r r' he
          refine ⟨?_, m4⟩
          have ht' : typeOf a = typeOf b := ht.elim id m3
          exact rep_obj_eq ryu raw S hs m1 m2 ht'
      obtain ⟨k0, k00, he⟩ := key
      obtain ⟨k1, k2, k3, k4⟩ := ih sa sb hr r r' he
      refine ⟨?_, ?_, ?_, k4⟩
      · rw [members, members, k1]
        congr 1
        unfold repField
        rw [f1, f2]
        have k0' := k0.2
        unfold rep at k0'
        by_cases hv : v = .null
        · rw [hv, k0.1.1 hv]
        · have hw : w ≠ .null := fun h => hv (k0.1.2 h)
          split
          · rfl
          · cases v <;> cases w <;> first
              | exact absurd rfl hv
              | exact absurd rfl hw
              | (simp only [k0'])
      · rw [touched, touched, k2, f1, f2]; rfl
      · rw [hasTypename, Bool.or_eq_true]
        rintro (h | h)
        · rw [Bool.and_eq_true] at h
          have hname : f.name = "__typename" := by simpa using h.1
          unfold typeOf
          rw [← hname, h1, h2, k00 h.2]
        · exact k3 h
  | frag g s rest ihs ih =>
    intro a b sa sb hk r r' he
    rw [AlikeFields] at hk
    obtain ⟨⟨h1, h2, h3, h4⟩, hr⟩ := hk
    rw [feedFields, feedFields, ← h1, List.append_assoc, List.append_assoc] at he
    cases hap : hashApplies S a g.cond with
    | true =>
      rw [hap] at he
      simp only [if_true] at he
      obtain ⟨m1, m2, m3, he⟩ := ihs sa sb h4 _ _ he
      obtain ⟨k1, k2, k3, k4⟩ := ih sa sb hr r r' he
      refine ⟨?_, ?_, ?_, k4⟩
      · rw [members, members, h2, h3, ← h1, hap, k1, m1]
      · rw [touched, touched, h2, h3, ← h1, hap, k2, m2]
      · rw [hasTypename]; exact k3; simp
    | false =>
      rw [hap] at he
      simp only [Bool.false_eq_true, if_false, List.nil_append] at he
      obtain ⟨k1, k2, k3, k4⟩ := ih sa sb hr r r' he
      refine ⟨?_, ?_, ?_, k4⟩
      · rw [members, members, h2, h3, ← h1, hap, k1]; simp
      · rw [touched, touched, h2, h3, ← h1, hap, k2]; simp
      · rw [hasTypename]; exact k3; simp
  | spread n rest ih =>
    intro a b sa sb hk r r' he
    rw [AlikeFields] at hk
    rw [feedFields, feedFields] at he
    obtain ⟨k1, k2, k3, k4⟩ := ih sa sb hk r r' he
    exact ⟨by rw [members, members, k1], by rw [touched, touched, k2], by rw [hasTypename]; exact k3; simp, k4⟩

/-! ## The property -/

/-- Fragments that each begin with the type name, as the query planner makes them for keys. -/
def Keyed (sels : List Sel) : Prop :=
  ∀ x ∈ sels, ∃ g f s, x = .frag g (.field f [] :: s) ∧ f.name = "__typename"

theorem feed_begins {sels : List Sel} (hk : Keyed sels) {a : Fields} (ha : SortedKeys a) {t : String}
    (ht : typeOf a = some t) (hf : ∃ g s, Sel.frag g s ∈ sels ∧ S.satisfies t g.cond = true) :
    ∃ r, feedFields S sels a = hashStr "__typename" ++ (hashStr t ++ r) := by
  have hl : lookup "__typename" a = some (.str t) := by
    unfold typeOf at ht
    split at ht
    · rename_i h; cases ht; exact h
    · cases ht
  have happ : ∀ c, hashApplies S a c = S.satisfies t c := by
    intro c; unfold hashApplies; rw [typenameOf_eq ha, ht]; rfl
  induction sels with
  | nil => obtain ⟨_, _, h, _⟩ := hf; cases h
  | cons x rest ih =>
    obtain ⟨g, f, s, rfl, hn⟩ := hk _ (List.mem_cons_self ..)
    rw [feedFields, happ]
    cases hs : S.satisfies t g.cond with
    | true =>
      refine ⟨feedFields S s a ++ feedFields S rest a, ?_⟩
      rw [if_pos rfl, feedFields, getKey_eq_lookup ha, hn, hl]
      simp [feedBy, hashValue]
    | false =>
      rw [if_neg (by simp), List.nil_append]
      refine ih (fun x hx => hk x (by simp [hx])) ?_
      obtain ⟨g', s', h1, h2⟩ := hf
      rcases List.mem_cons.1 h1 with h1 | h1
      · simp only [Sel.frag.injEq] at h1
        rw [h1.1, hs] at h2; cases h2
      · exact ⟨g', s', h1, h2⟩

/-- C23, under assumptions about the data: two entities that state their types, for which there are
fragments, and whose required values are of the same kind if the types are the same, have the same
representation if they feed the same bytes to the hasher. The examples below show that each of the
assumptions is needed. -/
theorem C23_same_partial {sels : List Sel} (hk : Keyed sels) {a b : Fields} (ha : SortedKeys a)
    (hb : SortedKeys b) {t u : String} (hta : typeOf a = some t) (htb : typeOf b = some u)
    (hfa : ∃ g s, Sel.frag g s ∈ sels ∧ S.satisfies t g.cond = true)
    (hfb : ∃ g s, Sel.frag g s ∈ sels ∧ S.satisfies u g.cond = true)
    (hal : t = u → AlikeFields S sels a b)
    (he : feed S sels (.obj a) = feed S sels (.obj b)) :
    rep ryu raw S sels (.obj a) = rep ryu raw S sels (.obj b) := by
  have hne : sels.isEmpty = false := by
    obtain ⟨_, _, h, _⟩ := hfa
    cases sels with
    | nil => cases h
    | cons => rfl
  unfold feed feedBy at he
  rw [hne] at he
  simp only [Bool.false_eq_true, if_false] at he
  rw [feedValue, feedValue] at he
  obtain ⟨r, hr⟩ := feed_begins S hk ha hta hfa
  obtain ⟨r', hr'⟩ := feed_begins S hk hb htb hfb
  have htu : t = u := by
    have he' := he
    rw [hr, hr'] at he'
    exact (hashStr_append (hashStr_append he').2).1
  obtain ⟨m1, m2, _, _⟩ := feedFields_prefix ryu raw S sels ha hb (hal htu) [] [] (by simpa using he)
  exact rep_obj_eq ryu raw S hne m1 m2 (by rw [hta, htb, htu])

end

/-! ## Examples -/

namespace HashEx

def S : Schema := ⟨[], [("Item", ["Item", "T"])]⟩

/-- `... on T { __typename x }`, or with a selection below `x`. -/
def sels (s : List Sel) (alias : Option String := none) : List Sel :=
  [.frag { cond := "T" } [.field { name := "__typename" } [], .field { name := "x", alias := alias } s]]

def y : List Sel := [.field { name := "y" } []]

def ent (v : Value) : Fields := [("__typename", .str "T"), ("x", v)]

theorem sorted (v : Value) : SortedKeys (ent v) := by unfold SortedKeys ent; simp

theorem typeOf_ent (v : Value) : typeOf (ent v) = some "T" := by simp [typeOf, ent, lookup]

theorem keyed (s : List Sel) : Keyed (sels s) := by
  intro x hx
  rw [sels, List.mem_singleton] at hx
  exact ⟨_, _, _, hx, rfl⟩

/-- The assumptions are met by entities whose keys are strings. -/
example (p q : String) (he : feed S (sels []) (.obj (ent (.str p))) = feed S (sels []) (.obj (ent (.str q))))
    (ryu : Nat → List Char) (raw : String → Json) :
    rep ryu raw S (sels []) (.obj (ent (.str p))) = rep ryu raw S (sels []) (.obj (ent (.str q))) := by
  have hap : ∀ v, hashApplies S (ent v) "T" = true := by
    intro v; unfold hashApplies; rw [typenameOf_eq (sorted v), typeOf_ent]; rfl
  have hap' : ∀ v, Applies S (ent v) "T" = true := by
    intro v; unfold Applies; rw [typeOf_ent]; rfl
  have hf : ∃ g s, Sel.frag g s ∈ sels [] ∧ S.satisfies "T" g.cond = true :=
    ⟨{ cond := "T" }, _, List.mem_singleton.2 rfl, rfl⟩
  refine C23_same_partial ryu raw S (keyed []) (sorted _) (sorted _) (typeOf_ent _) (typeOf_ent _) hf hf
    (fun _ => ?_) he
  simp only [sels, AlikeFields, hap, hap', true_and, and_true]
  refine ⟨Or.inr ⟨.str "T", .str "T", rfl, rfl, .str _ _⟩, fun h => ?_,
    Or.inr ⟨.str p, .str q, by simp [ent, lookup], by simp [ent, lookup], .str _ _⟩, fun h => ?_⟩
  · simp [ent, lookup] at h
  · simp [ent, lookup] at h

theorem feed_ent (s : List Sel) (v : Value) : feed S (sels s) (.obj (ent v)) =
    hashStr "__typename" ++ hashStr "T" ++ (hashStr "x" ++ feedBy s (feedFields S s) v) := by
  have hap : hashApplies S (ent v) "T" = true := by
    unfold hashApplies; rw [typenameOf_eq (sorted v), typeOf_ent]; rfl
  have h1 : lookup "__typename" (ent v) = some (.str "T") := by simp [ent, lookup]
  have h2 : lookup "x" (ent v) = some v := by simp [ent, lookup]
  simp only [feed, feedBy, sels, List.isEmpty_cons, Bool.false_eq_true, if_false, feedValue, feedFields,
    hap, if_true, getKey_eq_lookup (sorted v), h1, h2, List.isEmpty_nil, hashValue, List.append_nil,
    List.append_assoc]

theorem rep_ent (ryu : Nat → List Char) (raw : String → Json) (s : List Sel) (v : Value)
    (hv : v ≠ .null) : rep ryu raw S (sels s) (.obj (ent v)) =
    some (.obj (("__typename".toList, .str "T".toList) ::
      (rep ryu raw S s v).toList.map fun j => ("x".toList, j))) := by
  have hap : Applies S (ent v) "T" = true := by unfold Applies; rw [typeOf_ent]; rfl
  have h2 : found (ent v) { name := "x" } = some v := by simp [found, ent, lookup]
  have ht : touched S (ent v) (sels s) = true := by
    simp [sels, touched, hap, h2, FieldInfo.key]
  have hm : members ryu raw S (sels s) (ent v) =
      (rep ryu raw S s v).toList.map fun j => ("x".toList, j) := by
    simp only [sels, members, hap, if_true, List.append_nil]
    have : repField { name := "__typename" } (repValue ryu raw (repObject ryu raw S [] (members ryu raw S [])))
        (ent v) = [] := rfl
    rw [this, List.nil_append]
    unfold repField
    rw [if_neg (by simp [FieldInfo.key]), h2]
    cases v <;> first | exact absurd rfl hv | rfl
  have ho : onlyTypename (sels s) = false := rfl
  have he : (sels s).isEmpty = false := rfl
  show repValue _ _ _ _ = _
  rw [repValue]
  unfold repObject
  rw [typeOf_ent, he, ho, ht, hm]
  simp only [Bool.false_eq_true, if_false, if_true]

end HashEx

open HashEx in
/-- C23 does not hold for lists within lists: their lengths are not fed. -/
theorem C23_nested_lists (ryu : Nat → List Char) (raw : String → Json) :
    let v := Value.arr [.arr [.obj [("y", .str "1")]], .arr [.obj [("y", .str "2")]]]
    let w := Value.arr [.arr [.obj [("y", .str "1")], .obj [("y", .str "2")]]]
    feed S (sels y) (.obj (ent v)) = feed S (sels y) (.obj (ent w)) ∧
    rep ryu raw S (sels y) (.obj (ent v)) ≠ rep ryu raw S (sels y) (.obj (ent w)) := by
  intro v w
  refine ⟨?_, ?_⟩
  · rw [feed_ent, feed_ent]
    simp [feedBy, v, w, feedValue, feedValues, y]
  · rw [rep_ent _ _ _ _ (by simp [v]), rep_ent _ _ _ _ (by simp [w])]
    simp [v, w, rep, repValue, repItems, repObject, y, members, typeOf, lookup, repField, found,
      FieldInfo.key, toJson]

open HashEx in
/-- C23 does not hold for values of different types: a number feeds the same as a string. -/
theorem C23_number_as_text (ryu : Nat → List Char) (raw : String → Json) :
    let v := Value.u64 0xff67666564636261
    let w := Value.str "abcdefg"
    feed S (sels []) (.obj (ent v)) = feed S (sels []) (.obj (ent w)) ∧
    rep ryu raw S (sels []) (.obj (ent v)) ≠ rep ryu raw S (sels []) (.obj (ent w)) := by
  intro v w
  refine ⟨?_, ?_⟩
  · rw [feed_ent, feed_ent]
    have : hashValue v = hashValue w := by simp only [v, w, hashValue]; decide
    simp [feedBy, this]
  · rw [rep_ent _ _ _ _ (by simp [v]), rep_ent _ _ _ _ (by simp [w])]
    simp [v, w, rep, repValue, toJson]

open HashEx in
/-- Nor for negative numbers and large ones. -/
theorem C23_signed (ryu : Nat → List Char) (raw : String → Json) :
    let v := Value.i64 (-1)
    let w := Value.u64 0xffffffffffffffff
    feed S (sels []) (.obj (ent v)) = feed S (sels []) (.obj (ent w)) ∧
    rep ryu raw S (sels []) (.obj (ent v)) ≠ rep ryu raw S (sels []) (.obj (ent w)) := by
  intro v w
  refine ⟨?_, ?_⟩
  · rw [feed_ent, feed_ent]
    have : hashValue v = hashValue w := by simp only [v, w, hashValue]; decide
    simp [feedBy, this]
  · rw [rep_ent _ _ _ _ (by simp [v]), rep_ent _ _ _ _ (by simp [w])]
    have hne : decimalInt (-1) ≠ decimal 0xffffffffffffffff := by
      intro h
      have h := congrArg List.getLast? h
      rw [decimal, dif_neg (by decide)] at h
      have h1 : decimalInt (-1) = ['-', '1'] := by
        show '-' :: decimal 1 = _
        rw [decimal, dif_pos (by decide)]
      rw [h1] at h
      simp at h
    intro h
    simp only [v, w, rep, repValue, toJson, Option.toList_some, List.map_cons, List.map_nil,
      Option.some.injEq, Json.obj.injEq, List.cons.injEq, Prod.mk.injEq, Json.num.injEq, true_and,
      and_true] at h
    exact hne h

open HashEx in
/-- Nor for required objects that differ only in their type, which is sent but not hashed. -/
theorem C23_nested_type (ryu : Nat → List Char) (raw : String → Json) :
    let v := Value.obj [("__typename", .str "A"), ("y", .str "1")]
    let w := Value.obj [("__typename", .str "B"), ("y", .str "1")]
    feed S (sels y) (.obj (ent v)) = feed S (sels y) (.obj (ent w)) ∧
    rep ryu raw S (sels y) (.obj (ent v)) ≠ rep ryu raw S (sels y) (.obj (ent w)) := by
  intro v w
  have hs : ∀ t : String, SortedKeys [("__typename", Value.str t), ("y", .str "1")] := by
    intro t; unfold SortedKeys; simp
  refine ⟨?_, ?_⟩
  · rw [feed_ent, feed_ent]
    simp [feedBy, v, w, feedValue, y, feedFields, getKey_eq_lookup (hs _), lookup]
  · rw [rep_ent _ _ _ _ (by simp [v]), rep_ent _ _ _ _ (by simp [w])]
    simp [v, w, rep, repValue, repObject, y, members, typeOf, lookup, repField, found, touched,
      FieldInfo.key, toJson, onlyTypename]

open HashEx in
/-- Nor if a required field is only there by its response key: it is sent but not hashed. -/
theorem C23_alias (ryu : Nat → List Char) (raw : String → Json) :
    let v : Fields := [("__typename", .str "T"), ("x2", .str "1")]
    let w : Fields := [("__typename", .str "T"), ("x2", .str "2")]
    feed S (sels [] (some "x2")) (.obj v) = feed S (sels [] (some "x2")) (.obj w) ∧
    rep ryu raw S (sels [] (some "x2")) (.obj v) ≠ rep ryu raw S (sels [] (some "x2")) (.obj w) := by
  intro v w
  have hs : ∀ t : String, SortedKeys [("__typename", .str "T"), ("x2", Value.str t)] := by
    intro t; unfold SortedKeys; simp
  refine ⟨?_, ?_⟩
  · simp [feed, feedBy, v, w, feedValue, feedFields, getKey_eq_lookup (hs _), lookup, sels, hashApplies,
      typenameOf_eq (hs _), typeOf]
  · simp [v, w, rep, repValue, repObject, sels, members, typeOf, lookup, repField, found, touched,
      FieldInfo.key, toJson, onlyTypename, Applies, satisfies_self]

open HashEx in
/-- Nor if an entity states the name of an interface: the fragments on the object types apply when it is
sent, but not when it is hashed. -/
theorem C23_interface (ryu : Nat → List Char) (raw : String → Json) :
    let v : Fields := [("__typename", .str "Item"), ("x", .str "1")]
    let w : Fields := [("__typename", .str "Item"), ("x", .str "2")]
    feed S (sels []) (.obj v) = feed S (sels []) (.obj w) ∧
    rep ryu raw S (sels []) (.obj v) ≠ rep ryu raw S (sels []) (.obj w) := by
  intro v w
  have hs : ∀ t : String, SortedKeys [("__typename", .str "Item"), ("x", Value.str t)] := by
    intro t; unfold SortedKeys; simp
  have h1 : S.satisfies "Item" "T" = false := rfl
  have h2 : S.satisfies "T" "Item" = true := rfl
  refine ⟨?_, ?_⟩
  · simp [feed, feedBy, v, w, feedValue, feedFields, sels, hashApplies,
      typenameOf_eq (hs _), typeOf, lookup, h1]
  · simp [v, w, rep, repValue, repObject, sels, members, typeOf, lookup, repField, found, touched,
      FieldInfo.key, toJson, onlyTypename, Applies, h1, h2]

end Verif.Entities
