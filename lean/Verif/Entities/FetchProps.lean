import Verif.Entities.Props

/-!
# Entity fetches: C24, C27
-/

namespace Verif.Entities

open Verif.Json
open Verif.Projection

theorem reaches_get {S : Schema} {path : List Seg} {d : Value} {pos : Pos} {t : Value}
    (h : Reaches S path d pos t) : get d pos = some t := by
  induction h with
  | here v _ => exact get_nil v
  | item vs i v hi => rw [get_arr, hi]; exact get_nil v
  | list p vs i v pos t hi _ ih => rw [get_arr, hi]; exact ih
  | field p fs name v pos t hl _ ih => rw [get_obj, hl]; exact ih
  | cond p fs ts pos t _ _ ih => exact ih
  | condItem p vs ts i v pos t hi _ ih => rw [get_arr, hi]; exact ih

/-- The slot of a position. -/
def slotOf (hash : Value → Nat) (table : List (Nat × Nat)) (data : Value) (pos : Pos) : Option Nat :=
  ((get data pos).bind (hashOf hash)).bind (List.lookup · table)

theorem slotOf_reaches {hash : Value → Nat} {table : List (Nat × Nat)} {S : Schema} {path : List Seg}
    {data : Value} {pos : Pos} {t : Value} (h : Reaches S path data pos t) :
    slotOf hash table data pos = (hashOf hash t).bind (List.lookup · table) := by
  unfold slotOf; rw [reaches_get h]; rfl

theorem placed_eq (table : List (Nat × Nat)) (entities : List Value) (h : Option Nat) (t : Value) :
    placed table entities h t = result (h.bind (List.lookup · table)) entities t := by
  unfold placed result
  cases h.bind (List.lookup · table) with
  | none => rfl
  | some i => simp only [Option.bind_some]; cases entities[i]? <;> rfl

theorem positions_eq {S : Schema} {path : List Seg} {d d' : Value} (hw : d.WF) (hw' : d'.WF)
    (h : SamePositions S path d d') :
    (targets S path d).map (·.1) = (targets S path d').map (·.1) := by
  refine inOrder_ext (inOrder_targets S path d) (inOrder_targets S path d') fun p => ?_
  have mem : ∀ {d : Value}, d.WF → (p ∈ (targets S path d).map (·.1) ↔ ∃ t, Reaches S path d p t) := by
    intro d hw
    rw [List.mem_map]
    constructor
    · rintro ⟨⟨q, t⟩, h1, rfl⟩; exact ⟨t, (mem_targets S path d hw _ _).1 h1⟩
    · rintro ⟨t, h1⟩; exact ⟨(p, t), (mem_targets S path d hw _ _).2 h1, rfl⟩
  rw [mem hw, mem hw']
  exact h p

/-- Placing along one path. -/
theorem filled {S : Schema} {hash : Value → Nat} {table : List (Nat × Nat)} {entities : List Value}
    {path : List Seg} {data data' : Value} (hw : data.WF) (hw' : data'.WF)
    (hp : SamePositions S path data data') (m : Option ErrMap) :
    let r := placeAll S ((targets S path data).map fun x => hashOf hash x.2) table entities path data' m
    Filled S path (slotOf hash table data) entities data' r.1 ∧
    r.2 = m.map fun m => (targets S path data).foldl
      (fun m x => noted table (hashOf hash x.2) x.1 m) m := by
  have hm := positions_eq hw hw' hp
  obtain ⟨h1, h2⟩ := placeAll_spec S hash table entities path data data' hw' hm m
  refine ⟨⟨?_, ?_⟩, ?_⟩
  · intro pos t' hr'
    obtain ⟨t, hr⟩ := (hp pos).2 ⟨t', hr'⟩
    have hz := zip_mem hm (inOrder_targets S path data) ((mem_targets S path data hw _ _).2 hr)
      ((mem_targets S path data' hw' _ _).2 hr')
    rw [slotOf_reaches hr, ← placed_eq]
    exact h1.1 (pos, _) (List.mem_map.2 ⟨_, hz, rfl⟩)
  · intro pos ha
    refine h1.2 pos fun o ho => ?_
    obtain ⟨x, hx, rfl⟩ := List.mem_map.1 ho
    exact ha x.2.1 x.2.2 ((mem_targets S path data' hw' _ _).1 (mem_zip hm hx).2.1)
  · rw [h2]
    congr 1
    funext m
    generalize targets S path data = l at *
    generalize targets S path data' = l' at *
    clear h1 h2 hp
    induction l generalizing l' m with
    | nil => rfl
    | cons x l ih =>
      cases l' with
      | nil => simp at hm
      | cons y l' =>
        simp only [List.map_cons, List.cons.injEq] at hm
        rw [List.zip_cons_cons, List.foldl_cons, List.foldl_cons, ih _ l' hm.2, hm.1]

theorem repOf_of_ne {ryu : Nat → List Char} {raw : String → Json} {S : Schema} {sels : List Sel}
    {rewrite : Value → Value} {v : Value} (h : v ≠ .null) :
    repOf ryu raw S sels rewrite v = rep ryu raw S sels (rewrite v) := by
  cases v <;> first | exact absurd rfl h | rfl

theorem slots_of_inv {S : Schema} {paths : List (List Seg)} {data : Value} {hash : Value → Nat}
    {R : Value → Option Json} (hn : R .null = none) {seen : List Value} {s : Sent}
    {xs : List (List Char × Json)} (hi : Inv hash R seen s xs)
    (hseen : ∀ t, t ∈ seen ↔ ∃ pos, Reached S paths data pos t)
    (hc : ∀ u ∈ seen, ∀ v ∈ seen, u ≠ .null → v ≠ .null → hash u = hash v → R u = R v) :
    Slots S paths data R (xs.map (·.2)) (slotOf hash s.table data) := by
  have slot : ∀ {pos t}, Reached S paths data pos t →
      slotOf hash s.table data pos = (hashOf hash t).bind (List.lookup · s.table) := by
    rintro pos t ⟨p, _, h⟩; exact slotOf_reaches h
  refine ⟨?_, ?_, ?_⟩
  · intro pos t hr h
    rw [slot hr]
    by_cases ht : t = .null
    · subst ht; rfl
    · rw [hashOf_of_ne ht, Option.bind_some]
      cases hl : s.table.lookup (hash t) with
      | none => rfl
      | some i =>
        obtain ⟨u, h1, h2, h3, j, h4, _⟩ := hi.tab _ _ hl
        have := hc u h1 t ((hseen t).2 ⟨pos, hr⟩) h2 ht h3
        rw [h4, h] at this; cases this
  · intro pos t j hr h
    have ht : t ≠ .null := by rintro rfl; rw [hn] at h; cases h
    rw [slot hr, hashOf_of_ne ht, Option.bind_some]
    cases hl : s.table.lookup (hash t) with
    | none =>
      have := hi.miss t ((hseen t).2 ⟨pos, hr⟩) ht hl
      rw [h] at this; cases this
    | some i =>
      obtain ⟨u, h1, h2, h3, j', h4, h5⟩ := hi.tab _ _ hl
      have := hc u h1 t ((hseen t).2 ⟨pos, hr⟩) h2 ht h3
      rw [h4, h, Option.some.injEq] at this
      exact ⟨i, rfl, by rw [List.getElem?_map, h5, this]⟩
  · intro i h
    obtain ⟨v, h1, h2, h3⟩ := hi.used i (by simpa using h)
    obtain ⟨pos, hr⟩ := (hseen v).1 h1
    exact ⟨pos, v, hr, by rw [slot hr, hashOf_of_ne h2]; exact h3⟩

theorem text_of_inv {hash : Value → Nat} {R : Value → Option Json} {seen : List Value} {s : Sent}
    {xs : List (List Char × Json)} (hi : Inv hash R seen s xs) :
    Denotes s.text (.arr (xs.map (·.2))) := by
  unfold Sent.text
  rw [hi.buf]
  exact .arr xs hi.den

theorem sends {ryu : Nat → List Char} (hryu : ∀ n, finite n = true → IsNumber (ryu n))
    {raw : String → Json} {S : Schema} {sels : List Sel} (ht : Tidy S sels) {rewrite : Value → Value}
    {v : Value} (hv : v ≠ .null) (hr : RawOk raw (rewrite v)) (hw : (rewrite v).WF) :
    Sends (send ryu S sels) (rewrite v) (repOf ryu raw S sels rewrite v) := by
  have := C42_representation ryu hryu raw S sels ht (rewrite v) hr hw
  rw [repOf_of_ne hv]
  unfold Sends
  cases hj : rep ryu raw S sels (rewrite v) <;> (rw [hj] at this; exact this)

/-- The targets of a path that is visited. -/
theorem visitPath_eq {S : Schema} {hash : Value → Nat} {rewrite : Value → Value}
    {send : Value → Buf → Bool → Buf × Bool} {path : List Seg} {data : Value} (hw : data.WF) (s : Sent) :
    visitPath S hash rewrite send path data s =
      (targets S path data).foldl (fun s x => visit hash rewrite send x.2 s) ⟨[], s⟩ := by
  unfold visitPath; exact walk_eq S _ path data hw _

theorem visitPaths_inv {S : Schema} {hash : Value → Nat} {rewrite : Value → Value}
    {send : Value → Buf → Bool → Buf × Bool} {R : Value → Option Json} {data : Value} (hw : data.WF)
    (ps : List (List Seg)) : ∀ {done : List (List Seg × List (Option Nat))} {s : Sent}
    {seen : List Value} {xs : List (List Char × Json)}, Inv hash R seen s xs →
    (∀ x ∈ done, x.2 = (targets S x.1 data).map fun y => hashOf hash y.2) →
    (∀ x ∈ done, ∀ y ∈ targets S x.1 data, y.2 ∈ seen) →
    (∀ p ∈ ps, ∀ y ∈ targets S p data, y.2 ≠ .null → Sends send (rewrite y.2) (R y.2)) →
    (∀ u v, (u ∈ seen ∨ ∃ p ∈ ps, ∃ pos, (pos, u) ∈ targets S p data) →
      (v ∈ seen ∨ ∃ p ∈ ps, ∃ pos, (pos, v) ∈ targets S p data) → u ≠ .null → v ≠ .null →
      hash u = hash v → R u = R v) →
    ∃ seen' ys, Inv hash R seen' (visitPaths S hash rewrite send data ps done s).2 ys ∧
      (∀ x ∈ (visitPaths S hash rewrite send data ps done s).1,
        x.2 = (targets S x.1 data).map fun y => hashOf hash y.2) ∧
      (∀ p, (p ∈ ps ∨ p ∈ done.map (·.1)) →
        p ∈ (visitPaths S hash rewrite send data ps done s).1.map (·.1)) ∧
      ∀ t, t ∈ seen' ↔ t ∈ seen ∨ ∃ p ∈ ps, ∃ pos, (pos, t) ∈ targets S p data := by
  induction ps with
  | nil =>
    intro done s seen xs hi hd _ _ _
    exact ⟨seen, xs, hi, hd, by simp [visitPaths], by simp⟩
  | cons p ps ih =>
    intro done s seen xs hi hd hds hs hc
    rw [visitPaths]
    cases hl : done.lookup p with
    | some hs' =>
      have hmem : ∃ x ∈ done, x.1 = p := by
        clear hd hds hs hc hi
        induction done with
        | nil => simp at hl
        | cons x done ihd =>
          obtain ⟨q, h⟩ := x
          rw [List.lookup_cons] at hl
          split at hl
          · rename_i he; exact ⟨(q, h), by simp, (by simpa using he : p = q).symm⟩
          · obtain ⟨y, h1, h2⟩ := ihd hl; exact ⟨y, by simp [h1], h2⟩
      obtain ⟨x, hx, hxp⟩ := hmem
      obtain ⟨seen', ys, h1, h2, h3, h4⟩ := ih hi hd hds (fun q hq => hs q (by simp [hq]))
        (fun u v hu hv => hc u v (hu.imp id fun ⟨q, h, h'⟩ => ⟨q, by simp [h], h'⟩)
          (hv.imp id fun ⟨q, h, h'⟩ => ⟨q, by simp [h], h'⟩))
      refine ⟨seen', ys, h1, h2, ?_, ?_⟩
      · rintro q (hq | hq)
        · rcases List.mem_cons.1 hq with rfl | hq
          · exact h3 _ (Or.inr (List.mem_map.2 ⟨x, hx, hxp⟩))
          · exact h3 _ (Or.inl hq)
        · exact h3 _ (Or.inr hq)
      · intro t
        rw [h4]
        constructor
        · rintro (h | ⟨q, hq, h⟩)
          · exact Or.inl h
          · exact Or.inr ⟨q, by simp [hq], h⟩
        · rintro (h | ⟨q, hq, pos, h⟩)
          · exact Or.inl h
          · rcases List.mem_cons.1 hq with rfl | hq
            · exact Or.inl (hds x hx (pos, t) (by rw [hxp]; exact h))
            · exact Or.inr ⟨q, hq, pos, h⟩
    | none =>
      obtain ⟨k1, ys, k2, k3, k4⟩ := visits_inv (s := ⟨[], s⟩) (targets S p data) hi (hs p (by simp))
        (by
          have key : ∀ u ∈ seen ++ (targets S p data).map (·.2),
              u ∈ seen ∨ ∃ q ∈ p :: ps, ∃ pos, (pos, u) ∈ targets S q data := by
            intro u hu
            rcases List.mem_append.1 hu with hu | hu
            · exact Or.inl hu
            · obtain ⟨y, hy, rfl⟩ := List.mem_map.1 hu
              exact Or.inr ⟨p, by simp, y.1, hy⟩
          intro u hu v hv
          exact hc u v (key u hu) (key v hv))
      rw [← visitPath_eq hw] at k1 k2
      have mem : ∀ t, t ∈ (targets S p data).map (·.2) ↔ ∃ pos, (pos, t) ∈ targets S p data := by
        intro t
        rw [List.mem_map]
        constructor
        · rintro ⟨⟨q, u⟩, h, rfl⟩; exact ⟨q, h⟩
        · rintro ⟨q, h⟩; exact ⟨(q, t), h, rfl⟩
      obtain ⟨seen', zs, h1, h2, h3, h4⟩ := ih 
        (done := done ++ [(p, (visitPath S hash rewrite send p data s).hashes)]) k2
        (by
          intro x hx
          rcases List.mem_append.1 hx with hx | hx
          · exact hd x hx
          · rw [List.mem_singleton.1 hx, k1]; rfl)
        (by
          intro x hx y hy
          rcases List.mem_append.1 hx with hx | hx
          · exact List.mem_append_left _ (hds x hx y hy)
          · rw [List.mem_singleton.1 hx] at hy
            exact List.mem_append_right _ (List.mem_map.2 ⟨y, hy, rfl⟩))
        (fun q hq => hs q (by simp [hq]))
        (by
          have key : ∀ u, (u ∈ seen ++ (targets S p data).map (·.2) ∨
              ∃ q ∈ ps, ∃ pos, (pos, u) ∈ targets S q data) →
              u ∈ seen ∨ ∃ q ∈ p :: ps, ∃ pos, (pos, u) ∈ targets S q data := by
            rintro u (hu | ⟨q, hq, h⟩)
            · rcases List.mem_append.1 hu with hu | hu
              · exact Or.inl hu
              · exact Or.inr ⟨p, by simp, (mem u).1 hu⟩
            · exact Or.inr ⟨q, by simp [hq], h⟩
          intro u v hu hv
          exact hc u v (key u hu) (key v hv))
      refine ⟨seen', zs, h1, h2, ?_, ?_⟩
      · rintro q (hq | hq)
        · rcases List.mem_cons.1 hq with rfl | hq
          · exact h3 _ (Or.inr (by simp))
          · exact h3 _ (Or.inl hq)
        · exact h3 _ (Or.inr (by rw [List.map_append]; exact List.mem_append_left _ hq))
      · intro t
        rw [h4, List.mem_append, mem]
        constructor
        · rintro ((h | h) | ⟨q, hq, h⟩)
          · exact Or.inl h
          · exact Or.inr ⟨p, by simp, h⟩
          · exact Or.inr ⟨q, by simp [hq], h⟩
        · rintro (h | ⟨q, hq, h⟩)
          · exact Or.inl (Or.inl h)
          · rcases List.mem_cons.1 hq with rfl | hq
            · exact Or.inl (Or.inr h)
            · exact Or.inr ⟨q, hq, h⟩

theorem told_annotate (subgraph : String) (affected : Option String) (e : GErr) :
    Told subgraph affected e (annotate subgraph affected e) :=
  ⟨rfl, rfl, rfl, by cases affected <;> rfl⟩

/-- The error map after all paths. -/
def errMap (S : Schema) (hash : Value → Nat) (table : List (Nat × Nat)) (paths : List (List Seg))
    (data : Value) : ErrMap :=
  (paths.flatMap (targets S · data)).foldl (fun m x => noted table (hashOf hash x.2) x.1 m) []

theorem reported {S : Schema} {hash : Value → Nat} {table : List (Nat × Nat)}
    {paths : List (List Seg)} {data : Value} (hw : data.WF) {R : Value → Option Json}
    {reps : List Json} (hs : Slots S paths data R reps (slotOf hash table data)) {subgraph : String}
    {affected : Option String} {key : String} {e e0 : GErr} (ht : Told subgraph affected e e0)
    (hp : e0.path = keptPath key e.path)
    (hk : key = "_entities" ∨ ∀ k p, e.path = some (.key k :: p) → k = key) :
    Reported S paths data reps (slotOf hash table data) subgraph affected key e
      (normalizeError (errMap S hash table paths data) e0) := by
  have mem : ∀ p t, (p, t) ∈ paths.flatMap (targets S · data) ↔ Reached S paths data p t := by
    intro p t
    rw [List.mem_flatMap]
    constructor
    · rintro ⟨q, h1, h2⟩; exact ⟨q, h1, (mem_targets S q data hw _ _).1 h2⟩
    · rintro ⟨q, h1, h2⟩; exact ⟨q, h1, (mem_targets S q data hw _ _).2 h2⟩
  have slot : ∀ {pos t}, Reached S paths data pos t →
      slotOf hash table data pos = (hashOf hash t).bind (List.lookup · table) := by
    rintro pos t ⟨p, _, h⟩; exact slotOf_reaches h
  have ps : ∀ i p, p ∈ ((paths.flatMap (targets S · data)).filter fun x =>
      (hashOf hash x.2).bind (List.lookup · table) == some i).map (·.1) ↔
      (∃ t, Reached S paths data p t) ∧ slotOf hash table data p = some i := by
    intro i p
    rw [List.mem_map]
    constructor
    · rintro ⟨⟨q, t⟩, h, rfl⟩
      rw [List.mem_filter, mem] at h
      exact ⟨⟨t, h.1⟩, by rw [slot h.1]; simpa using h.2⟩
    · rintro ⟨⟨t, h1⟩, h2⟩
      exact ⟨(p, t), List.mem_filter.2 ⟨(mem p t).2 h1, by rw [slot h1] at h2; simpa using h2⟩, rfl⟩
  have lk := lookup_noted table (fun x : Pos × Value => hashOf hash x.2) (·.1)
    (paths.flatMap (targets S · data)) []
  have small : ∀ i p, (∃ t, Reached S paths data p t) → slotOf hash table data p = some i →
      i < reps.length := by
    rintro i p ⟨t, hr⟩ h
    cases hR : R t with
    | none => rw [hs.none_sent p t hr hR] at h; cases h
    | some j =>
      obtain ⟨i', h1, h2⟩ := hs.sent p t j hr hR
      rw [h1] at h
      cases h
      exact (List.getElem?_eq_some_iff.1 h2).1
  have about : ∀ i rest, AboutEntity key e i rest → e0.path.bind entityIndex = some (i, rest) := by
    intro i rest h
    rw [hp, h]
    simp [keptPath, entityIndex]
  have notAbout : (∀ i rest, ¬ AboutEntity key e i rest) → e0.path.bind entityIndex = none := by
    intro h
    rw [hp]
    cases he : e.path with
    | none => rfl
    | some p =>
      match p, he with
      | [], _ => rfl
      | .idx _ :: _, _ => rfl
      | .key k :: [], _ => simp [keptPath, entityIndex]
      | .key k :: .key _ :: _, _ => simp [keptPath, entityIndex]
      | .key k :: .idx i :: rest, he =>
        by_cases hkk : k = key
        · subst hkk; exact absurd he (h i rest)
        · rcases hk with rfl | hk
          · simp [keptPath, entityIndex, hkk]
          · exact absurd (hk k _ he) hkk
  refine ⟨?_, ?_, ?_⟩
  · intro e' he'
    unfold normalizeError at he'
    split at he'
    · rw [List.mem_singleton.1 he']; exact ht
    · split at he'
      · rw [List.mem_singleton.1 he']; exact ht
      · obtain ⟨p, _, rfl⟩ := List.mem_map.1 he'
        exact ⟨ht.1, ht.2, ht.3, ht.4⟩
  · intro i rest ha hi
    refine ⟨_, ?_, ps i, ?_⟩
    · intro hl
      obtain ⟨p, rfl⟩ := List.length_eq_one_iff.1 hl
      rw [List.flatMap_singleton]
      refine List.Pairwise.imp (R := Before) (fun {a b} hab => ?_) ?_
      · rintro rfl; exact Before.irrefl _ hab
      · have := inOrder_targets S p data
        unfold InOrder at this
        rw [List.pairwise_map] at this ⊢
        exact this.filter _
    · obtain ⟨pos, t, h1, h2⟩ := hs.used i hi
      have hne := (ps i pos).2 ⟨⟨t, h1⟩, h2⟩
      have hl := lk i
      rw [if_neg (List.ne_nil_of_mem hne)] at hl
      simp only [List.lookup_nil, Option.getD_none, List.nil_append] at hl
      unfold normalizeError errMap
      rw [about i rest ha]
      simp only [hl, List.map_map]
      rfl
  · intro h
    refine ⟨e0, ?_, hp⟩
    unfold normalizeError
    by_cases hx : ∃ i rest, AboutEntity key e i rest
    · obtain ⟨i, rest, ha⟩ := hx
      have hl := lk i
      rw [if_pos] at hl
      · unfold errMap
        rw [about i rest ha]
        simp only [hl, List.lookup_nil]
      · rw [List.eq_nil_iff_forall_not_mem]
        intro p hp
        obtain ⟨h1, h2⟩ := (ps i p).1 hp
        exact h i rest ha (small i p h1 h2)
    · rw [notAbout fun i rest ha => hx ⟨i, rest, ha⟩]

theorem takeEntities_eq {key : String} {fs : Fields} (hs : SortedKeys fs) {vs : List Value}
    (hl : lookup key fs = some (.arr vs)) : takeEntities key (.obj fs) = some vs := by
  unfold takeEntities
  simp only [getKey_eq_lookup hs, hl]

/-! ## Flatten fetches -/

section
variable (ryu : Nat → List Char) (raw : String → Json) (S : Schema) (sels : List Sel)
  (rewrite : Value → Value) (hash : Value → Nat)

/-- What is known once a flatten fetch was prepared. -/
theorem prepared (hryu : ∀ n, finite n = true → IsNumber (ryu n)) (ht : Tidy S sels)
    (path : List Seg) (data : Value)
    (hs : Sound raw S [path] data rewrite hash (repOf ryu raw S sels rewrite)) :
    (visitPath S hash rewrite (send ryu S sels) path data .start).hashes =
      (targets S path data).map (fun x => hashOf hash x.2) ∧
    ∃ xs, Inv hash (repOf ryu raw S sels rewrite) ((targets S path data).map (·.2))
      (visitPath S hash rewrite (send ryu S sels) path data .start).sent xs ∧
      Slots S [path] data (repOf ryu raw S sels rewrite) (xs.map (·.2))
        (slotOf hash (visitPath S hash rewrite (send ryu S sels) path data .start).sent.table data) := by
  have re : ∀ {x : Pos × Value}, x ∈ targets S path data → Reached S [path] data x.1 x.2 :=
    fun hx => ⟨path, by simp, (mem_targets S path data hs.data_wf _ _).1 hx⟩
  have hc : ∀ u ∈ (targets S path data).map (·.2), ∀ v ∈ (targets S path data).map (·.2), u ≠ .null →
      v ≠ .null → hash u = hash v →
      repOf ryu raw S sels rewrite u = repOf ryu raw S sels rewrite v := by
    intro u hu v hv
    obtain ⟨x, hx, rfl⟩ := List.mem_map.1 hu
    obtain ⟨y, hy, rfl⟩ := List.mem_map.1 hv
    exact hs.clash _ _ _ _ (re hx) (re hy)
  obtain ⟨h1, xs, h2, _, _⟩ := visits_inv (R := repOf ryu raw S sels rewrite) (s := ⟨[], .start⟩)
    (targets S path data) (Inv.start hash _) (fun x hx hn => sends hryu ht hn
      (hs.target_raw _ _ (re hx) hn) (hs.target_wf _ _ (re hx) hn)) (by simpa using hc)
  rw [← visitPath_eq hs.data_wf] at h1 h2
  rw [List.nil_append] at h2 h1
  refine ⟨h1, xs, h2, slots_of_inv rfl h2 (fun t => ?_) hc⟩
  rw [List.mem_map]
  constructor
  · rintro ⟨x, hx, rfl⟩; exact ⟨x.1, re hx⟩
  · rintro ⟨pos, p, hp, hr⟩
    rw [List.mem_singleton] at hp
    subst hp
    exact ⟨(pos, t), (mem_targets S p data hs.data_wf _ _).2 hr, rfl⟩

/-- C24. If a fetch is made, it sends a JSON list of the representations of the targets, and whatever
the subgraph returns and whatever the data became in the meantime, as long as the path still leads to
the same positions: each target is merged with the entity at the place of its representation, and all
other data stays as it is. -/
theorem C24_results (hryu : ∀ n, finite n = true → IsNumber (ryu n)) (ht : Tidy S sels)
    (path : List Seg) (data : Value)
    (hs : Sound raw S [path] data rewrite hash (repOf ryu raw S sels rewrite)) (v : Visit)
    (hv : prepareFlatten S hash rewrite (send ryu S sels) path data = some v) :
    ∃ reps slot, Denotes v.sent.text (.arr reps) ∧ reps ≠ [] ∧
      Slots S [path] data (repOf ryu raw S sels rewrite) reps slot ∧
      ∀ data' : Value, data'.WF → SamePositions S path data data' →
      ∀ subgraph affected (response : Fields) entities errors, SortedKeys response →
        lookup "_entities" response = some (.arr entities) →
        Filled S path slot entities data'
          (finishFlatten S subgraph affected path v (.obj response) errors data').1 := by
  obtain ⟨h1, xs, h2, h3⟩ := prepared ryu raw S sels rewrite hash hryu ht path data hs
  unfold prepareFlatten at hv
  simp only at hv
  split at hv
  · cases hv
  · rename_i hne
    cases hv
    refine ⟨_, _, text_of_inv h2, ?_, h3, ?_⟩
    · intro he
      rw [List.map_eq_nil_iff] at he
      rw [h2.emp, he] at hne
      exact hne rfl
    · intro data' hw' hp subgraph affected response entities errors hsr hl
      unfold finishFlatten
      rw [takeEntities_eq hsr hl, h1]
      exact (filled hs.data_wf hw' hp _).1

/-- C24. If no fetch is made, no target has a representation. -/
theorem C24_nothing_sent (hryu : ∀ n, finite n = true → IsNumber (ryu n)) (ht : Tidy S sels)
    (path : List Seg) (data : Value)
    (hs : Sound raw S [path] data rewrite hash (repOf ryu raw S sels rewrite))
    (hv : prepareFlatten S hash rewrite (send ryu S sels) path data = none) (pos : Pos) (t : Value)
    (hr : Reaches S path data pos t) : repOf ryu raw S sels rewrite t = none := by
  obtain ⟨_, xs, h2, h3⟩ := prepared ryu raw S sels rewrite hash hryu ht path data hs
  unfold prepareFlatten at hv
  simp only at hv
  split at hv
  · rename_i he
    rw [h2.emp, List.isEmpty_iff] at he
    subst he
    cases hR : repOf ryu raw S sels rewrite t with
    | none => rfl
    | some j =>
      obtain ⟨i, _, h5⟩ := h3.sent pos t j ⟨path, by simp, hr⟩ hR
      simp at h5
  · cases hv

/-- C27. When the subgraph returns entities, its errors become those that `Reported` says: an error
about an entity is reported at each place whose representation it was, others once. -/
theorem C27_errors (hryu : ∀ n, finite n = true → IsNumber (ryu n)) (ht : Tidy S sels)
    (path : List Seg) (data : Value)
    (hs : Sound raw S [path] data rewrite hash (repOf ryu raw S sels rewrite)) (v : Visit)
    (hv : prepareFlatten S hash rewrite (send ryu S sels) path data = some v) :
    ∃ reps slot, Denotes v.sent.text (.arr reps) ∧
      Slots S [path] data (repOf ryu raw S sels rewrite) reps slot ∧
      ∀ data' : Value, data'.WF → SamePositions S path data data' →
      ∀ subgraph affected (response : Fields) entities errors, SortedKeys response →
        lookup "_entities" response = some (.arr entities) →
        ∃ out : GErr → List GErr,
          (finishFlatten S subgraph affected path v (.obj response) (some errors) data').2 =
            errors.flatMap out ∧
          ∀ e ∈ errors, Reported S [path] data reps slot subgraph (some affected) "_entities" e (out e) := by
  obtain ⟨h1, xs, h2, h3⟩ := prepared ryu raw S sels rewrite hash hryu ht path data hs
  unfold prepareFlatten at hv
  simp only at hv
  split at hv
  · cases hv
  · cases hv
    refine ⟨_, _, text_of_inv h2, h3, ?_⟩
    intro data' hw' hp subgraph affected response entities errors hsr hl
    refine ⟨_, ?_, fun e he => reported hs.data_wf h3 (told_annotate _ _ e) ?_ (Or.inl rfl)⟩
    · unfold finishFlatten
      rw [takeEntities_eq hsr hl, h1]
      simp only [(filled hs.data_wf hw' hp _).2]
      unfold handleErrors errMap
      simp
    · show e.path = _
      cases he : e.path with
      | none => rfl
      | some p =>
        match p, he with
        | [], _ => rfl
        | .idx _ :: _, _ => rfl
        | .key k :: p, _ => simp [keptPath]

/-- C27. When it does not, each error is reported once, with its own path. -/
theorem C27_no_entities (path : List Seg) (v : Visit) (data : Value) (subgraph affected : String)
    (response : Value) (hr : ∀ fs, response = .obj fs → SortedKeys fs ∧
      ∀ vs, lookup "_entities" fs ≠ some (.arr vs)) (errors : List GErr) :
    (finishFlatten S subgraph affected path v response (some errors) data).1 = data ∧
    ∃ out : GErr → GErr,
      (finishFlatten S subgraph affected path v response (some errors) data).2 = errors.map out ∧
      ∀ e, Told subgraph (some affected) e (out e) ∧ (out e).path = e.path := by
  have hn : takeEntities "_entities" response = none := by
    unfold takeEntities
    cases response with
    | obj fs =>
      have := hr fs rfl
      simp only [getKey_eq_lookup this.1]
      cases hl : lookup "_entities" fs with
      | none => rfl
      | some x => cases x <;> first | rfl | exact absurd hl (this.2 _)
    | _ => rfl
  unfold finishFlatten
  rw [hn]
  refine ⟨rfl, annotate subgraph (some affected), ?_, fun e => ⟨told_annotate _ _ e, rfl⟩⟩
  show handleErrors subgraph (some affected) errors none = _
  unfold handleErrors
  induction errors with
  | nil => rfl
  | cons e es ih => rw [List.flatMap_cons, ih]; rfl

/-! ## Batches -/

/-- What is known once an alias of a batch was prepared. -/
theorem preparedAlias (hryu : ∀ n, finite n = true → IsNumber (ryu n)) (ht : Tidy S sels)
    (paths : List (List Seg)) (data : Value)
    (hs : Sound raw S paths data rewrite hash (repOf ryu raw S sels rewrite)) :
    let a := prepareAlias S hash rewrite (send ryu S sels) data paths
    a.1 = paths.map (fun p => (p, (targets S p data).map fun x => hashOf hash x.2)) ∧
    ∃ seen xs, Inv hash (repOf ryu raw S sels rewrite) seen a.2 xs ∧
      Slots S paths data (repOf ryu raw S sels rewrite) (xs.map (·.2))
        (slotOf hash a.2.table data) := by
  have re : ∀ {p}, p ∈ paths → ∀ {x : Pos × Value}, x ∈ targets S p data →
      Reached S paths data x.1 x.2 :=
    fun {_} hp {x} hx => ⟨_, hp, (mem_targets S _ data hs.data_wf _ _).1 hx⟩
  have hc : ∀ u v, (u ∈ ([] : List Value) ∨ ∃ p ∈ paths, ∃ pos, (pos, u) ∈ targets S p data) →
      (v ∈ ([] : List Value) ∨ ∃ p ∈ paths, ∃ pos, (pos, v) ∈ targets S p data) → u ≠ .null →
      v ≠ .null → hash u = hash v →
      repOf ryu raw S sels rewrite u = repOf ryu raw S sels rewrite v := by
    rintro u v (hu | ⟨p, hp, pos, hu⟩) (hv | ⟨q, hq, pos', hv⟩)
    · cases hu
    · cases hu
    · cases hv
    · exact hs.clash _ _ _ _ (re hp hu) (re hq hv)
  obtain ⟨seen, xs, h1, h2, h3, h4⟩ := visitPaths_inv hs.data_wf paths (done := [])
    (Inv.start hash (repOf ryu raw S sels rewrite)) (by simp) (by simp)
    (fun p hp y hy hn => sends hryu ht hn (hs.target_raw _ _ (re hp hy) hn)
      (hs.target_wf _ _ (re hp hy) hn)) hc
  refine ⟨?_, seen, xs, h1, slots_of_inv rfl h1 (fun t => ?_) (fun u hu v hv => hc u v ?_ ?_)⟩
  · unfold prepareAlias
    simp only
    refine List.map_congr_left fun p hp => ?_
    have hm := h3 p (Or.inl hp)
    revert h2 hm
    generalize (visitPaths S hash rewrite (send ryu S sels) data paths [] Sent.start).1 = l
    intro h2 hm
    congr 1
    induction l with
    | nil => simp at hm
    | cons x l ih =>
      obtain ⟨q, hq⟩ := x
      rw [List.lookup_cons]
      by_cases he : p = q
      · subst he
        simp only [beq_self_eq_true]
        exact h2 (p, hq) (by simp)
      · have hb : (p == q) = false := by simpa using he
        simp only [hb]
        refine ih (fun x hx => h2 x (by simp [hx])) ?_
        simpa [he] using hm
  · rw [h4]
    constructor
    · rintro (h | ⟨p, hp, pos, h⟩)
      · cases h
      · exact ⟨pos, re hp h⟩
    · rintro ⟨pos, p, hp, h⟩
      exact Or.inr ⟨p, hp, pos, (mem_targets S p data hs.data_wf _ _).2 h⟩
  · exact (h4 u).1 hu
  · exact (h4 v).1 hv

/-- The data and the error positions after the first `k` paths of an alias. -/
def stage (table : List (Nat × Nat)) (entities : List Value)
    (paths : List (List Seg × List (Option Nat))) (data : Value) (hasErrors : Bool) (k : Nat) :
    Value × Option ErrMap :=
  placeAlias S table (some entities) (paths.take k) data hasErrors

theorem stages {paths : List (List Seg)} {data : Value} (hw : data.WF) {table : List (Nat × Nat)}
    {entities : List Value} {start : Value} {hasErrors : Bool}
    (hsteady : ∀ k path, paths[k]? = some path →
      (stage S table entities (paths.map fun p => (p, (targets S p data).map fun x => hashOf hash x.2))
        start hasErrors k).1.WF ∧
      SamePositions S path data (stage S table entities
        (paths.map fun p => (p, (targets S p data).map fun x => hashOf hash x.2)) start hasErrors k).1)
    (hne : table.isEmpty = false) : ∀ k ≤ paths.length,
    (stage S table entities (paths.map fun p => (p, (targets S p data).map fun x => hashOf hash x.2))
        start hasErrors k).2 =
      (if hasErrors then some (errMap S hash table (paths.take k) data) else none) ∧
    ∀ path, paths[k]? = some path → Filled S path (slotOf hash table data) entities
      (stage S table entities (paths.map fun p => (p, (targets S p data).map fun x => hashOf hash x.2))
        start hasErrors k).1
      (stage S table entities (paths.map fun p => (p, (targets S p data).map fun x => hashOf hash x.2))
        start hasErrors (k + 1)).1 := by
  have succ : ∀ k path, paths[k]? = some path →
      stage S table entities (paths.map fun p => (p, (targets S p data).map fun x => hashOf hash x.2))
        start hasErrors (k + 1) =
      placeAll S ((targets S path data).map fun x => hashOf hash x.2) table entities path
        (stage S table entities (paths.map fun p => (p, (targets S p data).map fun x => hashOf hash x.2))
          start hasErrors k).1
        (stage S table entities (paths.map fun p => (p, (targets S p data).map fun x => hashOf hash x.2))
          start hasErrors k).2 := by
    intro k path hk
    unfold stage placeAlias
    simp only [hne, Bool.false_eq_true, if_false]
    rw [List.take_add_one, List.getElem?_map, hk, List.foldl_append]
    rfl
  intro k
  induction k with
  | zero =>
    intro _
    refine ⟨?_, ?_⟩
    · unfold stage placeAlias errMap
      cases hasErrors <;> simp [hne]
    · intro path hk
      rw [succ 0 path hk]
      exact (filled hw (hsteady 0 path hk).1 (hsteady 0 path hk).2 _).1
  | succ k ih =>
    intro hlt
    refine ⟨?_, ?_⟩
    · obtain ⟨path, hk⟩ : ∃ path, paths[k]? = some path := ⟨_, List.getElem?_eq_getElem (by omega)⟩
      rw [succ k path hk, (filled hw (hsteady k path hk).1 (hsteady k path hk).2 _).2,
        (ih (by omega)).1]
      cases hasErrors
      · rfl
      · simp only [if_true, Option.map_some, errMap]
        rw [List.take_add_one, hk, List.flatMap_append, List.foldl_append]
        simp
    · intro path hk
      rw [succ (k + 1) path hk]
      exact (filled hw (hsteady (k + 1) path hk).1 (hsteady (k + 1) path hk).2 _).1

theorem slotOf_nil (data : Value) (pos : Pos) : slotOf hash [] data pos = none := by
  unfold slotOf; cases (get data pos).bind (hashOf hash) <;> rfl

theorem errMap_nil (paths : List (List Seg)) (data : Value) : errMap S hash [] paths data = [] := by
  unfold errMap
  generalize paths.flatMap (targets S · data) = l
  induction l with
  | nil => rfl
  | cons x l ih =>
    rw [List.foldl_cons]
    have : noted [] (hashOf hash x.2) x.1 [] = [] := by
      unfold noted; cases hashOf hash x.2 <;> rfl
    rw [this, ih]

/-- C24 for a fetch of a batch, which may be for several paths. As the data changes from path to path
and may have changed before, it is assumed that each path still leads to the same positions when its
turn comes. -/
theorem C24_batch (hryu : ∀ n, finite n = true → IsNumber (ryu n)) (ht : Tidy S sels)
    (paths : List (List Seg)) (data : Value)
    (hs : Sound raw S paths data rewrite hash (repOf ryu raw S sels rewrite)) :
    let a := prepareAlias S hash rewrite (send ryu S sels) data paths
    ∃ reps slot, Denotes a.2.text (.arr reps) ∧
      Slots S paths data (repOf ryu raw S sels rewrite) reps slot ∧
      ∀ entities start hasErrors,
        (∀ k path, paths[k]? = some path →
          (stage S a.2.table entities a.1 start hasErrors k).1.WF ∧
          SamePositions S path data (stage S a.2.table entities a.1 start hasErrors k).1) →
        ∀ k path, paths[k]? = some path → Filled S path slot entities
          (stage S a.2.table entities a.1 start hasErrors k).1
          (stage S a.2.table entities a.1 start hasErrors (k + 1)).1 := by
  obtain ⟨h1, seen, xs, h2, h3⟩ := preparedAlias ryu raw S sels rewrite hash hryu ht paths data hs
  refine ⟨_, _, text_of_inv h2, h3, ?_⟩
  intro entities start hasErrors hsteady k path hk
  rw [h1] at hsteady ⊢
  cases hne : (prepareAlias S hash rewrite (send ryu S sels) data paths).2.table.isEmpty with
  | false =>
    exact (stages S hash hs.data_wf hsteady hne k (by
      rw [List.getElem?_eq_some_iff] at hk; exact Nat.le_of_lt hk.1)).2 path hk
  | true =>
    rw [List.isEmpty_iff] at hne
    rw [hne]
    have same : ∀ k, (stage S [] entities (paths.map fun p =>
        (p, (targets S p data).map fun x => hashOf hash x.2)) start hasErrors k).1 = start := by
      intro k; unfold stage placeAlias; rfl
    rw [same, same]
    refine ⟨fun pos t hr => ?_, fun pos _ => rfl⟩
    rw [slotOf_nil]
    exact reaches_get hr

/-- C27 for a fetch of a batch: `errors` are those whose path begins with its name. -/
theorem C27_batch (hryu : ∀ n, finite n = true → IsNumber (ryu n)) (ht : Tidy S sels)
    (paths : List (List Seg)) (data : Value)
    (hs : Sound raw S paths data rewrite hash (repOf ryu raw S sels rewrite)) :
    let a := prepareAlias S hash rewrite (send ryu S sels) data paths
    ∃ reps slot, Denotes a.2.text (.arr reps) ∧
      Slots S paths data (repOf ryu raw S sels rewrite) reps slot ∧
      ∀ entities start,
        (∀ k path, paths[k]? = some path →
          (stage S a.2.table entities a.1 start true k).1.WF ∧
          SamePositions S path data (stage S a.2.table entities a.1 start true k).1) →
        ∀ subgraph affected name (errors : List GErr),
          (∀ e ∈ errors, ∃ p, e.path = some (.key name :: p)) →
          ∃ out : GErr → List GErr,
            handleErrors subgraph affected (errors.map toEntities)
              (placeAlias S a.2.table (some entities) a.1 start true).2 = errors.flatMap out ∧
            ∀ e ∈ errors, Reported S paths data reps slot subgraph affected name e (out e) := by
  obtain ⟨h1, seen, xs, h2, h3⟩ := preparedAlias ryu raw S sels rewrite hash hryu ht paths data hs
  refine ⟨_, _, text_of_inv h2, h3, ?_⟩
  intro entities start hsteady subgraph affected name errors hname
  have hm : (placeAlias S (prepareAlias S hash rewrite (send ryu S sels) data paths).2.table
      (some entities) (prepareAlias S hash rewrite (send ryu S sels) data paths).1 start true).2 =
      some (errMap S hash (prepareAlias S hash rewrite (send ryu S sels) data paths).2.table paths
        data) := by
    rw [h1] at hsteady ⊢
    cases hne : (prepareAlias S hash rewrite (send ryu S sels) data paths).2.table.isEmpty with
    | false =>
      have := (stages S hash hs.data_wf hsteady hne paths.length (Nat.le_refl _)).1
      rw [if_pos rfl, List.take_length] at this
      rw [← this]
      unfold stage
      rw [List.take_of_length_le (by simp)]
    | true =>
      rw [List.isEmpty_iff] at hne
      rw [hne, errMap_nil]
      rfl
  rw [hm]
  refine ⟨fun e => normalizeError _ (annotate subgraph affected (toEntities e)), ?_, fun e he =>
    reported hs.data_wf h3 (e0 := annotate subgraph affected (toEntities e)) ?_ ?_ (Or.inr ?_)⟩
  · unfold handleErrors
    rw [List.flatMap_map]
  all_goals obtain ⟨p, hp⟩ := hname e he
  · have : Told subgraph affected (toEntities e) (annotate subgraph affected (toEntities e)) :=
      told_annotate _ _ _
    have hr : (toEntities e).rest = e.rest ∧ (toEntities e).service = e.service ∧
        (toEntities e).code = e.code ∧ (toEntities e).affected = e.affected := by
      unfold toEntities; rw [hp]; exact ⟨rfl, rfl, rfl, rfl⟩
    exact ⟨by rw [this.1, hr.1], by rw [this.2, hr.2.1], by rw [this.3, hr.2.2.1],
      by rw [this.4, hr.2.2.2]⟩
  · show (toEntities e).path = _
    unfold toEntities
    rw [hp]
    simp [keptPath]
  · intro k q hk
    rw [hp] at hk
    simp only [Option.some.injEq, List.cons.injEq, PSeg.key.injEq] at hk
    exact hk.1.symm

/-! ### No error is lost -/

theorem editItems_inv {σ : Type} {P : σ → Prop} {k : Step σ}
    (h : ∀ v ep s, P s → P (k v ep s).2) (ep : Option Pos) (vs : List Value) :
    ∀ i s, P s → P (editItems k ep i vs s).2 := by
  induction vs with
  | nil => intro i s hs; exact hs
  | cons v vs ih => intro i s hs; exact ih _ _ (h v _ s hs)

theorem edit_inv {σ : Type} (P : σ → Prop) {cb : Step σ} (h : ∀ v ep s, P s → P (cb v ep s).2)
    (p : List Seg) : ∀ v ep s, P s → P (edit S cb p v ep s).2 := by
  induction p with
  | nil =>
    intro v ep s hs
    cases v with
    | arr vs => exact editItems_inv h ep vs 0 s hs
    | _ => exact h _ ep s hs
  | cons q p ih =>
    cases q with
    | list =>
      intro v ep s hs
      cases v with
      | arr vs => exact editItems_inv ih ep vs 0 s hs
      | _ => exact hs
    | field name =>
      intro v ep s hs
      cases v with
      | obj fs =>
        show P (editField name (edit S cb p) (.obj fs) ep s).2
        unfold editField
        simp only
        split
        · exact hs
        · split
          · exact ih _ _ s hs
          · exact hs
      | _ => exact hs
    | cond ts =>
      intro v
      show ∀ ep s, P s → P (editCond S ts (edit S cb p) v ep s).2
      induction v using Value.ind with
      | obj fs _ =>
        intro ep s hs
        rw [editCond]
        split
        · exact ih _ _ s hs
        · exact hs
      | arr vs ihv =>
        intro ep s hs
        rw [editCond]
        simp only [editConds_eq]
        generalize 0 = i
        induction vs generalizing i s with
        | nil => exact hs
        | cons v vs ihvs =>
          exact ihvs (fun v hv => ihv v (by simp [hv])) _ (ihv v (by simp) _ s hs) (i + 1)
      | _ => intro ep s hs; rw [editCond]; exact hs; all_goals simp

/-- Each index of an error map has a position. -/
def Full (m : ErrMap) : Prop := ∀ i ps, m.lookup i = some ps → ps ≠ []

theorem place_full (hashes : List (Option Nat)) (table : List (Nat × Nat)) (entities : List Value)
    (v : Value) (ep : Option Pos) (s : Nat × Option ErrMap) (h : ∀ m, s.2 = some m → Full m) :
    ∀ m, (place hashes table entities v ep s).2.2 = some m → Full m := by
  have key : ∀ i p m', s.2 = some m' → Full (m'.push i p) := by
    intro i p m' hm' j ps hj
    rw [lookup_push] at hj
    split at hj
    · cases hj; simp
    · exact h m' hm' j ps hj
  obtain ⟨k, mo⟩ := s
  intro m hm
  unfold place at hm
  simp only at hm key h
  split at hm
  · split at hm
    · exact h m hm
    · cases ep with
      | none => split at hm <;> exact h m hm
      | some p =>
        cases mo with
        | none => split at hm <;> cases hm
        | some m' => split at hm <;> (cases hm; exact key _ _ m' rfl)
  · exact h m hm

theorem placeAlias_full (table : List (Nat × Nat)) (entities : Option (List Value))
    (paths : List (List Seg × List (Option Nat))) (data : Value) (hasErrors : Bool) :
    ∀ m, (placeAlias S table entities paths data hasErrors).2 = some m → Full m := by
  have h0 : ∀ m, (if hasErrors then some ([] : ErrMap) else none) = some m → Full m := by
    intro m hm i ps hi
    cases hasErrors
    · cases hm
    · cases hm; cases hi
  unfold placeAlias
  cases entities with
  | none => exact h0
  | some es =>
    simp only
    split
    · exact h0
    · suffices ∀ r : Value × Option ErrMap, (∀ m, r.2 = some m → Full m) → ∀ m,
          (paths.foldl (fun r p => placeAll S p.2 table es p.1 r.1 r.2) r).2 = some m → Full m from
        this _ h0
      induction paths with
      | nil => intro r hr; exact hr
      | cons p paths ih =>
        intro r hr
        refine ih _ ?_
        exact edit_inv S (fun s : Nat × Option ErrMap => ∀ m, s.2 = some m → Full m)
          (fun v ep s hs => place_full _ _ _ v ep s hs) p.1 r.1 _ _ hr

/-- What is reported for an error. -/
theorem handle_one (subgraph : String) (affected : Option String) (errors : List GErr)
    (m : Option ErrMap) (hm : ∀ m', m = some m' → Full m') :
    (∀ e ∈ errors, ∃ e' ∈ handleErrors subgraph affected errors m, Told subgraph affected e e') ∧
    ∀ e' ∈ handleErrors subgraph affected errors m, ∃ e ∈ errors, Told subgraph affected e e' := by
  have norm : ∀ m', Full m' → ∀ e, (normalizeError m' (annotate subgraph affected e) ≠ []) ∧
      ∀ e' ∈ normalizeError m' (annotate subgraph affected e), Told subgraph affected e e' := by
    intro m' hf e
    have ht := told_annotate subgraph affected e
    unfold normalizeError
    split
    · exact ⟨by simp, fun e' he' => by rw [List.mem_singleton.1 he']; exact ht⟩
    · split
      · exact ⟨by simp, fun e' he' => by rw [List.mem_singleton.1 he']; exact ht⟩
      · rename_i ps hps
        refine ⟨by simpa using hf _ _ hps, fun e' he' => ?_⟩
        obtain ⟨p, _, rfl⟩ := List.mem_map.1 he'
        exact ⟨ht.1, ht.2, ht.3, ht.4⟩
  unfold handleErrors
  cases m with
  | none =>
    refine ⟨fun e he => ⟨_, List.mem_flatMap.2 ⟨e, he, List.mem_singleton_self _⟩,
      told_annotate subgraph affected e⟩, fun e' he' => ?_⟩
    obtain ⟨e, he, h⟩ := List.mem_flatMap.1 he'
    rw [List.mem_singleton.1 h]
    exact ⟨e, he, told_annotate subgraph affected e⟩
  | some m' =>
    refine ⟨fun e he => ?_, fun e' he' => ?_⟩
    · obtain ⟨h1, h2⟩ := norm m' (hm m' rfl) e
      obtain ⟨e', h3⟩ := List.exists_mem_of_ne_nil _ h1
      exact ⟨e', List.mem_flatMap.2 ⟨e, he, h3⟩, h2 e' h3⟩
    · obtain ⟨e, he, h⟩ := List.mem_flatMap.1 he'
      exact ⟨e, he, (norm m' (hm m' rfl) e).2 e' h⟩

/-- `e'` is a report of `e`: the same error, with the name of a subgraph and a code. -/
def Reports (subgraph : String) (e e' : GErr) : Prop :=
  e'.rest = e.rest ∧ e'.service = some (e.service.getD subgraph) ∧
    e'.code = some (e.code.getD "DOWNSTREAM_SERVICE_ERROR")

theorem reports_toEntities {subgraph : String} {affected : Option String} {e e' : GErr}
    (h : Told subgraph affected (toEntities e) e') : Reports subgraph e e' := by
  have hr : (toEntities e).rest = e.rest ∧ (toEntities e).service = e.service ∧
      (toEntities e).code = e.code := by
    unfold toEntities; split <;> exact ⟨rfl, rfl, rfl⟩
  exact ⟨by rw [h.1, hr.1], by rw [h.2, hr.2.1], by rw [h.3, hr.2.2]⟩

theorem errorsOf_mem {names : List String} {errors : List GErr} {i : Nat} {x : GErr} :
    x ∈ (errorsOf names errors i).getD [] ↔
      ∃ e ∈ errors, aliasOf names e = some i ∧ x = toEntities e := by
  unfold errorsOf
  have : x ∈ (errors.filter (aliasOf names · = some i)).map toEntities ↔
      ∃ e ∈ errors, aliasOf names e = some i ∧ x = toEntities e := by
    rw [List.mem_map]
    constructor
    · rintro ⟨e, h, rfl⟩
      rw [List.mem_filter] at h
      exact ⟨e, h.1, by simpa using h.2, rfl⟩
    · rintro ⟨e, h1, h2, rfl⟩
      exact ⟨e, List.mem_filter.2 ⟨h1, by simpa using h2⟩, rfl⟩
  rw [← this]
  cases errors.filter (aliasOf names · = some i) <;> rfl

theorem finishAliases_mem (subgraph : String) (names : List String) (response : Value)
    (errors : List GErr) (as : List AliasState) : ∀ i data out,
    (∀ x ∈ out, x ∈ (finishAliases S subgraph names response errors i as data out).2) ∧
    (∀ e ∈ errors, ∀ j, aliasOf names e = some j → i ≤ j → j < i + as.length →
      ∃ e' ∈ (finishAliases S subgraph names response errors i as data out).2, Reports subgraph e e') ∧
    ∀ e' ∈ (finishAliases S subgraph names response errors i as data out).2,
      e' ∈ out ∨ ∃ e ∈ errors, Reports subgraph e e' := by
  induction as with
  | nil =>
    intro i data out
    refine ⟨fun x hx => hx, ?_, fun e' he' => Or.inl he'⟩
    intro e _ j _ h1 h2
    simp at h2; omega
  | cons a as ih =>
    intro i data out
    rw [finishAliases]
    obtain ⟨h1, h2, h3⟩ := ih (i + 1)
      (placeAlias S a.table (takeEntities a.name response) a.paths data (errorsOf names errors i).isSome).1
      (out ++ handleErrors subgraph a.affected ((errorsOf names errors i).getD [])
        (placeAlias S a.table (takeEntities a.name response) a.paths data
          (errorsOf names errors i).isSome).2)
    have ho := handle_one subgraph a.affected ((errorsOf names errors i).getD []) _
      (placeAlias_full S a.table (takeEntities a.name response) a.paths data
        (errorsOf names errors i).isSome)
    refine ⟨fun x hx => h1 x (by simp [hx]), ?_, ?_⟩
    · intro e he j hj hij hlt
      by_cases hji : j = i
      · subst hji
        obtain ⟨e', h4, h5⟩ := ho.1 (toEntities e) (errorsOf_mem.2 ⟨e, he, hj, rfl⟩)
        exact ⟨e', h1 e' (List.mem_append_right _ h4), reports_toEntities h5⟩
      · exact h2 e he j hj (by omega) (by simp at hlt; omega)
    · intro e' he'
      rcases h3 e' he' with h | h
      · rcases List.mem_append.1 h with h | h
        · exact Or.inl h
        · obtain ⟨x, h4, h5⟩ := ho.2 e' h
          obtain ⟨e, h6, _, rfl⟩ := errorsOf_mem.1 h4
          exact Or.inr ⟨e, h6, reports_toEntities h5⟩
      · exact Or.inr h

/-- C27. Whatever is in the response of a batch, each of its errors is reported at least once, and
nothing else is. -/
theorem C27_batch_none_lost (subgraph : String) (aliases : List AliasState) (response : Value)
    (errors : List GErr) (data : Value) :
    (∀ e ∈ errors, ∃ e' ∈ (finishBatch S subgraph aliases response errors data).2,
      Reports subgraph e e') ∧
    ∀ e' ∈ (finishBatch S subgraph aliases response errors data).2, ∃ e ∈ errors,
      Reports subgraph e e' := by
  obtain ⟨h1, h2, h3⟩ := finishAliases_mem S subgraph (aliases.map (·.name)) response errors aliases 0
    data []
  have ho := handle_one subgraph none (unmatched (aliases.map (·.name)) errors) none (by simp)
  unfold finishBatch
  refine ⟨?_, ?_⟩
  · intro e he
    cases ha : aliasOf (aliases.map (·.name)) e with
    | none =>
      obtain ⟨e', h4, h5⟩ := ho.1 e (List.mem_filter.2 ⟨he, by simpa using ha⟩)
      exact ⟨e', List.mem_append_right _ h4, h5.1, h5.2, h5.3⟩
    | some j =>
      have hj : j < aliases.length := by
        unfold aliasOf at ha
        split at ha
        · rw [List.findIdx?_eq_some_iff_getElem] at ha
          simpa using ha.1
        · cases ha
      obtain ⟨e', h4, h5⟩ := h2 e he j ha (Nat.zero_le _) (by omega)
      exact ⟨e', List.mem_append_left _ h4, h5⟩
  · intro e' he'
    rcases List.mem_append.1 he' with h | h
    · rcases h3 e' h with h | h
      · cases h
      · exact h
    · obtain ⟨e, h4, h5⟩ := ho.2 e' h
      exact ⟨e, (List.mem_filter.1 h4).1, h5.1, h5.2, h5.3⟩

end

end Verif.Entities
