import Verif.Entities.FetchSpec
import Verif.Entities.FetchLemmas

/-!
# Entity fetches: C42, C24, C27
-/

namespace Verif.Entities

open Verif.Json
open Verif.Projection

/-! ## C42 -/

/-- C42. For an entity whose data is well formed, and a tidy selection, nothing is written if it has
no representation, and else the JSON text of its representation, after a comma if it is not the
first. -/
theorem C42_representation (ryu : Nat → List Char)
    (hryu : ∀ n, finite n = true → IsNumber (ryu n)) (raw : String → Json) (S : Schema)
    (sels : List Sel) (ht : Tidy S sels) (v : Value) (hr : RawOk raw v) (hw : v.WF) :
    match rep ryu raw S sels v with
    | none => ∀ b first, send ryu S sels v b first = (b, false)
    | some j => ∃ t, Denotes t j ∧
        ∀ b first, send ryu S sels v b first = (b ++ (if first then [] else [',']) ++ t, true) := by
  have := send_spec ryu hryu raw S sels ht v hr hw
  unfold send
  cases hj : rep ryu raw S sels v with
  | none => rw [hj] at this; exact fun b first => this b first none
  | some j =>
    rw [hj] at this
    obtain ⟨t, h1, h2⟩ := this
    exact ⟨t, h1, fun b first => by rw [h2]; simp [startText]⟩

theorem within_members {raw : String → Json} {sels : List Sel} {ms : List (List Char × Json)}
    (hm : ∀ m ∈ ms, ∃ f s, Selects sels f s ∧ m.1 = f.key.toList ∧ Within raw s m.2) :
    Within raw sels (.obj ms) := by
  induction ms with
  | nil => exact .nothing sels
  | cons m ms ih =>
    obtain ⟨k, j⟩ := m
    obtain ⟨f, s, h1, h2, h3⟩ := hm (k, j) (by simp)
    simp only at h2
    subst h2
    exact .field sels f s j _ h1 h3 (ih fun m hm' => hm m (by simp [hm']))

theorem within_value {ryu : Nat → List Char} {raw : String → Json} {sels : List Sel}
    {object : Fields → Option Json} (ho : ∀ fs j, object fs = some j → Within raw sels j) (v : Value) :
    ∀ j, repValue ryu raw object v = some j → Within raw sels j := by
  induction v using Value.ind with
  | null => intro j h; simp [repValue] at h
  | bool x => intro j h; simp [repValue, toJson] at h; subst h; exact .bool _ _
  | f64 x =>
    intro j h; simp only [repValue, toJson, Option.some.injEq] at h; subst h
    split
    · exact .num _ _
    · exact .null _
  | i64 x => intro j h; simp [repValue, toJson] at h; subst h; exact .num _ _
  | u64 x => intro j h; simp [repValue, toJson] at h; subst h; exact .num _ _
  | str x => intro j h; simp [repValue, toJson] at h; subst h; exact .str _ _
  | raw x => intro j h; simp [repValue, toJson] at h; subst h; exact .raw _ _
  | obj fs _ => intro j h; rw [repValue] at h; exact ho fs j h
  | arr vs ih =>
    intro j h
    rw [repValue, Option.some.injEq] at h
    subst h
    refine .arr _ _ ?_
    induction vs with
    | nil => simp [repItems]
    | cons v vs ihv =>
      intro j hj
      rw [repItems, List.mem_append] at hj
      rcases hj with hj | hj
      · exact ih v (by simp) j (by simpa using hj)
      · exact ihv (fun v hv => ih v (by simp [hv])) j hj

theorem within_spec {ryu : Nat → List Char} {raw : String → Json} {S : Schema} (sels : List Sel) :
    ∀ fs, ∀ m ∈ members ryu raw S sels fs,
      ∃ f s, Selects sels f s ∧ m.1 = f.key.toList ∧ Within raw s m.2 := by
  induction sels using Sels.ind with
  | nil => intro fs m hm; simp [members] at hm
  | field f s rest ihs ih =>
    intro fs m hm
    rw [members, List.mem_append] at hm
    rcases hm with hm | hm
    · have ho : ∀ fs j, repObject ryu raw S s (members ryu raw S s) fs = some j → Within raw s j := by
        intro fs j h
        unfold repObject at h
        split at h
        · rename_i he
          rw [List.isEmpty_iff] at he
          subst he
          exact .leaf j
        · split at h
          · split at h
            · cases h; exact .typename _ _ _ (.nothing _)
            · split at h
              · cases h; exact .typename _ _ _ (within_members (ihs fs))
              · cases h
          · split at h
            · cases h
            · cases h; exact within_members (ihs fs)
      refine ⟨f, s, .here f s rest, ?_⟩
      unfold repField at hm
      split at hm
      · simp at hm
      · split at hm
        · simp at hm
        · simp at hm; subst hm; exact ⟨rfl, .null _⟩
        · rename_i v _ _
          simp only [List.mem_map, Option.mem_toList] at hm
          obtain ⟨j, h1, h2⟩ := hm
          subst h2
          exact ⟨rfl, within_value ho v j h1⟩
    · obtain ⟨f', s', h1, h2⟩ := ih fs m hm
      exact ⟨f', s', .later _ _ _ _ h1, h2⟩
  | frag g s rest ihs ih =>
    intro fs m hm
    rw [members, List.mem_append] at hm
    rcases hm with hm | hm
    · split at hm
      · obtain ⟨f', s', h1, h2⟩ := ihs fs m hm
        exact ⟨f', s', .frag _ _ _ _ _ h1, h2⟩
      · simp at hm
    · obtain ⟨f', s', h1, h2⟩ := ih fs m hm
      exact ⟨f', s', .later _ _ _ _ h1, h2⟩
  | spread n rest ih =>
    intro fs m hm
    rw [members] at hm
    obtain ⟨f', s', h1, h2⟩ := ih fs m hm
    exact ⟨f', s', .later _ _ _ _ h1, h2⟩

/-- C42. A representation has, besides type names, only required fields. -/
theorem C42_only_required (ryu : Nat → List Char) (raw : String → Json) (S : Schema)
    (sels : List Sel) (v : Value) (j : Json) (h : rep ryu raw S sels v = some j) :
    Within raw sels j := by
  refine within_value (fun fs j h => ?_) v j h
  unfold repObject at h
  split at h
  · rename_i he
    rw [List.isEmpty_iff] at he
    subst he
    exact .leaf j
  · split at h
    · split at h
      · cases h; exact .typename _ _ _ (.nothing _)
      · split at h
        · cases h; exact .typename _ _ _ (within_members (within_spec sels fs))
        · cases h
    · split at h
      · cases h
      · cases h; exact within_members (within_spec sels fs)

/-- C42. The representation of an object states its type, if the data does. -/
theorem C42_typename (ryu : Nat → List Char) (raw : String → Json) (S : Schema) (sels : List Sel)
    (hn : sels ≠ []) (fs : Fields) (t : String) (ht : typeOf fs = some t) (j : Json)
    (h : rep ryu raw S sels (.obj fs) = some j) :
    ∃ ms, j = .obj (("__typename".toList, .str t.toList) :: ms) := by
  unfold rep at h
  rw [repValue, repObject, if_neg (by simpa using hn), ht] at h
  simp only at h
  split at h
  · cases h; exact ⟨[], rfl⟩
  · split at h
    · cases h; exact ⟨_, rfl⟩
    · cases h

theorem selectsFor_touched {S : Schema} {fs : Fields} {sels : List Sel} {f : FieldInfo}
    {s : List Sel} (h : SelectsFor S fs sels f s) (hk : f.key ≠ "__typename") {v : Value}
    (hv : found fs f = some v) : touched S fs sels = true ∧ onlyTypename sels = false := by
  induction h with
  | here f s rest =>
    refine ⟨by simp [touched, hk, hv], ?_⟩
    cases rest <;> simp [onlyTypename, hk]
  | frag g s rest f t ha _ ih => exact ⟨by simp [touched, ha, (ih hk hv).1], by simp [onlyTypename]⟩
  | later x rest f t _ ih =>
    refine ⟨?_, ?_⟩
    · cases x <;> simp [touched, (ih hk hv).1]
    · cases rest with
      | nil => have := (ih hk hv).1; simp [touched] at this
      | cons => cases x <;> simp [onlyTypename]

theorem selectsFor_member {ryu : Nat → List Char} {raw : String → Json} {S : Schema} {fs : Fields}
    {sels : List Sel} {f : FieldInfo} {s : List Sel} (h : SelectsFor S fs sels f s)
    (hk : f.key ≠ "__typename") {v : Value} (hv : found fs f = some v) :
    (v = .null → (f.key.toList, Json.null) ∈ members ryu raw S sels fs) ∧
    ∀ j, rep ryu raw S s v = some j → (f.key.toList, j) ∈ members ryu raw S sels fs := by
  induction h with
  | here f s rest =>
    rw [members]
    refine ⟨?_, ?_⟩
    · rintro rfl; simp [repField, hk, hv]
    · intro j hj
      refine List.mem_append_left _ ?_
      unfold rep at hj
      unfold repField
      rw [if_neg hk, hv]
      cases v <;> simp_all [repValue]
  | frag g s rest f t ha _ ih =>
    rw [members, ha]
    exact ⟨fun hn => List.mem_append_left _ ((ih hk hv).1 hn),
      fun j hj => List.mem_append_left _ ((ih hk hv).2 j hj)⟩
  | later x rest f t _ ih =>
    cases x <;> rw [members] <;> first
      | exact ⟨fun hn => List.mem_append_right _ ((ih hk hv).1 hn),
          fun j hj => List.mem_append_right _ ((ih hk hv).2 j hj)⟩
      | exact ih hk hv

/-- C42. Every required field that the entity has is sent: as `null` if it is `null`, and as its own
representation if it has one. -/
theorem C42_required_sent (ryu : Nat → List Char) (raw : String → Json) (S : Schema)
    (sels : List Sel) (fs : Fields) (f : FieldInfo) (s : List Sel) (h : SelectsFor S fs sels f s)
    (hk : f.key ≠ "__typename") (v : Value) (hv : lookup f.name fs = some v) (j : Json)
    (hj : (v = .null ∧ j = .null) ∨ rep ryu raw S s v = some j) :
    ∃ ms, rep ryu raw S sels (.obj fs) = some (.obj ms) ∧ (f.key.toList, j) ∈ ms := by
  have hf : found fs f = some v := by unfold found; rw [hv]
  have ht := selectsFor_touched h hk hf
  have hm : (f.key.toList, j) ∈ members ryu raw S sels fs := by
    have := selectsFor_member (ryu := ryu) (raw := raw) h hk hf
    rcases hj with ⟨h1, h2⟩ | hj
    · rw [h2]; exact this.1 h1
    · exact this.2 j hj
  have hne : sels.isEmpty = false := by cases h <;> rfl
  unfold rep
  rw [repValue, repObject, hne]
  simp only [Bool.false_eq_true, if_false]
  cases typeOf fs with
  | some t =>
    simp only [ht.2, ht.1, Bool.false_eq_true, if_false, if_true]
    exact ⟨_, rfl, List.mem_cons_of_mem _ hm⟩
  | none =>
    have : (members ryu raw S sels fs).isEmpty = false := by
      cases hc : members ryu raw S sels fs with
      | nil => rw [hc] at hm; cases hm
      | cons => rfl
    simp only [this, Bool.false_eq_true, if_false]
    exact ⟨_, rfl, hm⟩

/-- C45, for values without `null` in their lists: a required value without a selection is sent as it
is. -/
theorem C45_unchanged_partial (ryu : Nat → List Char) (raw : String → Json) (S : Schema) (v : Value)
    (hn : v ≠ .null) (h : NoNullItems v) : rep ryu raw S [] v = some (toJson ryu raw v) := by
  unfold rep
  induction h with
  | other v ha =>
    cases v with
    | null => exact absurd rfl hn
    | arr vs => exact absurd rfl (ha vs)
    | obj fs => simp [repValue, repObject]
    | _ => simp [repValue]
  | arr vs h1 _ ih =>
    rw [repValue, toJson]
    congr 2
    induction vs with
    | nil => simp [repItems, toJsons]
    | cons v vs ihv =>
      rw [repItems, toJsons, ih v (by simp) (h1 v (by simp)),
        ihv (fun v hv => h1 v (by simp [hv])) (fun v hv => ‹∀ v ∈ _, NoNullItems v› v (by simp [hv]))
          (fun v hv => ih v (by simp [hv])) (by simp)]
      rfl

/-- C45 does not hold: `null` items of a required list are left out, so `[1, null, 2]` reaches the
subgraph as `[1, 2]`. -/
theorem C45_null_items_dropped (ryu : Nat → List Char) (raw : String → Json) (S : Schema) :
    rep ryu raw S [] (.arr [.u64 1, .null, .u64 2]) = some (.arr [.num ['1'], .num ['2']]) := by
  simp [rep, repValue, repItems, toJson, decimal]

end Verif.Entities
