import Verif.Extensions.Model

/-!
# C117: which extensions of subgraphs a client gets
-/

namespace Verif.Extensions

/-! ## What the property is stated in -/

/-- What a response says of a key. -/
def Ext.says {α : Type} (k : String) : Ext α → List α
  | .object es => (es.filter (fun p => p.1 = k)).map (·.2)
  | .other => []

/-- What all responses say of a key, in order. -/
def offered {α : Type} (es : List (Ext α)) (k : String) : List α := es.flatMap (Ext.says k)

/-- Whether a key may be propagated. -/
def Allowed (p : Plan) (k : String) : Prop := k ≠ "queryPlan" ∧ ∀ ks, p.allow = some ks → k ∈ ks

/-- What the client gets of what is offered. -/
def chosen {α : Type} (s : Strategy) (vs : List α) : Option (Out α) :=
  if vs = [] then none
  else match s with
    | .first => vs.head?.map .one
    | .last => vs.getLast?.map .one
    | .append => some (.many vs)

/-! ## Proofs -/

theorem find_append {β : Type} (m m' : List (String × β)) (k : String) :
    find (m ++ m') k = (find m k).or (find m' k) := by
  unfold find
  rw [List.find?_append]
  cases m.find? (fun p => p.1 = k) <;> simp

theorem find_single {β : Type} (k k' : String) (b : β) :
    find [(k, b)] k' = if k = k' then some b else none := by
  unfold find
  by_cases h : k = k' <;> simp [h]

theorem find_put {β : Type} (m : List (String × β)) (k k' : String) (b : β) :
    find (put m k b) k' = if k = k' then (find m k).map (fun _ => b) else find m k' := by
  induction m with
  | nil => simp [find, put]
  | cons p m ih =>
    unfold find put at *
    by_cases hp : p.1 = k
    · by_cases hk : k = k'
      · subst hk; simp [hp]
      · simp only [hk, if_false] at ih ⊢
        have : ¬ p.1 = k' := by rw [hp]; exact hk
        simp [hp, hk]
        simpa [this] using ih
    · by_cases hk : k = k'
      · subst hk
        simp only [if_true] at ih ⊢
        simp [hp]
        simpa using ih
      · simp only [hk, if_false] at ih ⊢
        by_cases hq : p.1 = k'
        · rw [List.map_cons, if_neg hp, List.find?_cons_of_pos (by simpa using hq),
            List.find?_cons_of_pos (by simpa using hq)]
        · simp [hp, hq]
          simpa using ih

/-- What is kept of the values that were offered so far. -/
def kept {α : Type} (s : Strategy) (vs : List α) : Option (Strategy × List α) :=
  if vs = [] then none
  else match s with
    | .first => some (s, vs.take 1)
    | .last => some (s, vs.getLast?.toList)
    | .append => some (s, vs)

theorem find_write {α : Type} {m : Agg α} {k : String} {v : α} {s : Strategy} {vs : List α}
    (h : find m k = kept s vs) (k' : String) :
    find (write m k v s) k' = if k = k' then kept s (vs ++ [v]) else find m k' := by
  unfold write
  cases vs with
  | nil =>
    have h : find m k = none := h
    rw [h]
    dsimp only
    rw [find_append, find_single]
    by_cases hk : k = k'
    · subst hk
      rw [h]
      cases s <;> simp [kept]
    · simp [hk]
  | cons w vs =>
    cases s with
    | first =>
      have h : find m k = some (.first, [w]) := h
      rw [h]
      dsimp only
      by_cases hk : k = k'
      · subst hk; rw [h]; simp [kept]
      · simp [hk]
    | last =>
      have h : ∃ l, find m k = some (.last, l) := ⟨_, h⟩
      obtain ⟨l, h⟩ := h
      rw [h]
      dsimp only
      rw [find_put, h]
      have hl : (w :: (vs ++ [v])).getLast? = some v := by
        rw [← List.cons_append, List.getLast?_append]; rfl
      by_cases hk : k = k' <;> simp [hk, kept, hl]
    | append =>
      have h : find m k = some (.append, w :: vs) := h
      rw [h]
      dsimp only
      rw [find_put, h]
      by_cases hk : k = k' <;> simp [hk, kept]

/-- What the entries say of a key. -/
theorem find_applyEntries {α : Type} (p : Plan) (es : List (String × α)) (m : Agg α) (vs : String → List α)
    (h : ∀ k, find m k = if k = reservedKey ∨ p.allow.any (fun ks => !ks.contains k) = true then none
      else kept p.strategy (vs k)) (k : String) :
    find (applyEntries p m es) k =
      if k = reservedKey ∨ p.allow.any (fun ks => !ks.contains k) = true then none
      else kept p.strategy (vs k ++ (Ext.object es).says k) := by
  induction es generalizing m vs with
  | nil => simp only [applyEntries, Ext.says, List.filter_nil, List.map_nil, List.append_nil]; exact h k
  | cons e es ih =>
    obtain ⟨k1, v⟩ := e
    have hs : (Ext.object ((k1, v) :: es)).says k =
        (if k1 = k then [v] else []) ++ (Ext.object es).says k := by
      by_cases hk : k1 = k <;> simp [Ext.says, hk]
    unfold applyEntries
    split
    · rename_i hr
      rw [ih m vs h, hs]
      by_cases hk : k1 = k
      · subst hk; simp [hr]
      · simp [hk]
    · rename_i hr
      split
      · rename_i ha
        rw [ih m vs h, hs]
        by_cases hk : k1 = k
        · subst hk; simp only [ha, or_true, if_true]
        · simp [hk]
      · rename_i ha
        have hk1 : find m k1 = kept p.strategy (vs k1) := by
          rw [h k1, if_neg (by rintro (h | h); exact hr h; exact ha h)]
        rw [ih (write m k1 v p.strategy) (fun x => if k1 = x then vs x ++ [v] else vs x) ?_, hs]
        · by_cases hk : k1 = k <;> simp [hk]
        · intro x
          rw [find_write hk1]
          by_cases hx : k1 = x
          · subst hx
            have hno : ¬ (k1 = reservedKey ∨ p.allow.any (fun ks => !ks.contains k1) = true) := by
              rintro (h' | h')
              · exact hr h'
              · exact ha h'
            rw [if_neg hno, if_pos rfl]
            simp only [if_true]
          · simp only [hx, if_false]
            exact h x

/-- What has been collected of a key. -/
theorem find_apply {α : Type} (p : Plan) (es : List (Ext α)) (m : Agg α) (vs : String → List α)
    (h : ∀ k, find m k = if k = reservedKey ∨ p.allow.any (fun ks => !ks.contains k) = true then none
      else kept p.strategy (vs k)) (k : String) :
    find (es.foldl (applyOne (some p)) m) k =
      if k = reservedKey ∨ p.allow.any (fun ks => !ks.contains k) = true then none
      else kept p.strategy (vs k ++ offered es k) := by
  induction es generalizing m vs with
  | nil => simpa [offered] using h k
  | cons e es ih =>
    rw [List.foldl_cons]
    have : offered (e :: es) k = e.says k ++ offered es k := by simp [offered]
    rw [this, ← List.append_assoc]
    cases e with
    | other => exact (ih m vs h).trans (by simp [Ext.says])
    | object l =>
      exact ih (applyEntries p m l) (fun k => vs k ++ (Ext.object l).says k)
        (fun k => find_applyEntries p l m vs h k)

theorem apply_none {α : Type} (es : List (Ext α)) (m : Agg α) : es.foldl (applyOne none) m = m := by
  induction es generalizing m with
  | nil => rfl
  | cons e es ih => cases e <;> simpa [applyOne] using ih m

theorem find_merge {α : Type} (m : Agg α) (t : List (String × Out α)) (k : String)
    (hn : (m.map (·.1)).Nodup) (ho : ∀ p ∈ m, (out p.2).isSome) :
    find (mergeInto t m) k = (find t k).or ((find m k).bind out) := by
  induction m generalizing t with
  | nil => simp [mergeInto, find]
  | cons p m ih =>
    obtain ⟨k1, e⟩ := p
    obtain ⟨o, he⟩ := Option.isSome_iff_exists.1 (ho (k1, e) (by simp))
    dsimp only at he
    rw [List.map_cons, List.nodup_cons] at hn
    have ih := fun t => ih t hn.2 (fun p hp => ho p (.tail _ hp))
    have hf : find ((k1, e) :: m) k = if k1 = k then some e else find m k := by
      by_cases hk : k1 = k <;> simp [find, hk]
    have hkm : k1 = k → find m k = none := by
      intro hk
      unfold find
      rw [Option.map_eq_none_iff, List.find?_eq_none]
      intro x hx hxk
      exact hn.1 (List.mem_map.2 ⟨x, hx, by rw [hk]; simpa using hxk⟩)
    unfold mergeInto
    rw [hf, he]
    cases ht : find t k1 with
    | none =>
      dsimp only
      rw [ih, find_append, find_single]
      by_cases hk : k1 = k
      · subst hk; simp [ht, he]
      · simp [hk]
    | some x =>
      dsimp only
      rw [ih]
      by_cases hk : k1 = k
      · subst hk; simp [ht]
      · simp [hk]

/-- Keys are written once. -/
theorem write_keys {α : Type} (m : Agg α) (k : String) (v : α) (s : Strategy) (h : (m.map (·.1)).Nodup) :
    ((write m k v s).map (·.1)).Nodup := by
  have hput : ∀ b, (put m k b).map (·.1) = m.map (·.1) := by
    intro b
    unfold put
    rw [List.map_map]
    apply List.map_congr_left
    intro p _
    by_cases hp : p.1 = k <;> simp [hp]
  unfold write
  cases hf : find m k with
  | none =>
    dsimp only
    rw [List.map_append, List.nodup_append]
    refine ⟨h, by simp, ?_⟩
    intro a ha b hb e
    simp only [List.map_cons, List.map_nil, List.mem_singleton] at hb
    subst hb
    subst e
    obtain ⟨x, hx, hxa⟩ := List.mem_map.1 ha
    unfold find at hf
    rw [Option.map_eq_none_iff, List.find?_eq_none] at hf
    exact hf x hx (by simpa using hxa)
  | some q =>
    obtain ⟨s0, vs⟩ := q
    cases s
    · exact h
    · dsimp only; rw [hput]; exact h
    · dsimp only; rw [hput]; exact h

theorem applyEntries_keys {α : Type} (p : Plan) (es : List (String × α)) (m : Agg α)
    (h : (m.map (·.1)).Nodup) : ((applyEntries p m es).map (·.1)).Nodup := by
  induction es generalizing m with
  | nil => exact h
  | cons e es ih =>
    unfold applyEntries
    split
    · exact ih m h
    · split
      · exact ih m h
      · exact ih _ (write_keys _ _ _ _ h)

theorem apply_keys {α : Type} (p : Option Plan) (es : List (Ext α)) (m : Agg α)
    (h : (m.map (·.1)).Nodup) : ((es.foldl (applyOne p) m).map (·.1)).Nodup := by
  induction es generalizing m with
  | nil => exact h
  | cons e es ih =>
    rw [List.foldl_cons]
    apply ih
    cases e with
    | other => exact h
    | object l =>
      cases p with
      | none => exact h
      | some p => exact applyEntries_keys p l m h

theorem out_kept {α : Type} (s : Strategy) (vs : List α) : (kept s vs).bind out = chosen s vs := by
  cases vs with
  | nil => rfl
  | cons v vs =>
    cases s
    · rfl
    · simp [kept, chosen, out, List.getLast?_cons]
    · rfl

theorem find_of_mem {β : Type} {m : List (String × β)} (hn : (m.map (·.1)).Nodup) {p : String × β}
    (hp : p ∈ m) : find m p.1 = some p.2 := by
  induction m with
  | nil => cases hp
  | cons q m ih =>
    rw [List.map_cons, List.nodup_cons] at hn
    cases hp with
    | head => simp [find]
    | tail _ hp =>
      have : ¬ q.1 = p.1 := fun e => hn.1 (List.mem_map.2 ⟨p, hp, e.symm⟩)
      have := ih hn.2 hp
      unfold find at *
      simpa [List.find?_cons, ‹¬ q.1 = p.1›] using this

/-- There always is a value to take: the aggregator never panics. -/
theorem C117_some {α : Type} (p : Option Plan) (es : List (Ext α)) :
    ∀ e ∈ es.foldl (applyOne p) [], (out e.2).isSome := by
  cases p with
  | none => rw [apply_none]; intro e he; cases he
  | some p =>
    intro e he
    have hn := apply_keys (some p) es ([] : Agg α) (by simp)
    have h1 := find_of_mem hn he
    rw [find_apply p es [] (fun _ => []) (by intro k; simp [find, kept]) e.1] at h1
    split at h1
    · cases h1
    · cases hv : [] ++ offered es e.1 with
      | nil => rw [hv] at h1; cases h1
      | cons v vs =>
        rw [hv] at h1
        have hk := out_kept p.strategy (v :: vs)
        rw [h1] at hk
        rw [show out e.2 = (some e.2).bind out from rfl, hk]
        cases p.strategy <;> simp [chosen, List.getLast?_cons]

/-- **C117.** For every configuration, whatever subgraphs answer: extensions that the router or a plugin set
stay. Of other keys, a client gets those that may be propagated and that a subgraph gave, with the first
value, the last one or all of them in order, as configured. Without propagation it gets none. -/
theorem C117_extensions {α : Type} (own : List (String × Out α)) (es : List (Ext α)) (k : String) :
    (∀ o, find own k = some o → ∀ p, find (extensions p own es) k = some o) ∧
    (find own k = none →
      find (extensions none own es) k = none ∧
      ∀ p, (Allowed p k → find (extensions (some p) own es) k = chosen p.strategy (offered es k)) ∧
        (¬ Allowed p k → find (extensions (some p) own es) k = none)) := by
  have hm : ∀ p, find (extensions p own es) k =
      (find own k).or ((find (es.foldl (applyOne p) []) k).bind out) := by
    intro p
    exact find_merge _ _ _ (apply_keys p es [] (by simp)) (C117_some p es)
  refine ⟨?_, ?_⟩
  · intro o ho p
    rw [hm, ho]
    rfl
  · intro ho
    refine ⟨by rw [hm, ho, apply_none]; rfl, ?_⟩
    intro p
    have hp := find_apply p es [] (fun _ => []) (by intro k; simp [find, kept]) k
    have hA : Allowed p k ↔ ¬ (k = reservedKey ∨ p.allow.any (fun ks => !ks.contains k) = true) := by
      unfold Allowed reservedKey
      cases p.allow <;> simp
    constructor
    · intro ha
      rw [hm, ho, hp, if_neg (hA.1 ha)]
      simpa using out_kept p.strategy (offered es k)
    · intro ha
      have : k = reservedKey ∨ p.allow.any (fun ks => !ks.contains k) = true :=
        Decidable.byContradiction (fun h => ha (hA.2 h))
      rw [hm, ho, hp, if_pos this]
      rfl

/-- Two subgraphs that say something of the same key, one of which would also give a query plan. -/
example : find (extensions (some ⟨.last, some ["a", "queryPlan"]⟩) [("own", .one 0)]
      [.object [("a", 1), ("b", 2), ("own", 3)], .other, .object [("a", 4), ("queryPlan", 5)]]) "a" =
    some (.one 4) := by decide +kernel

example : Allowed ⟨.last, some ["a", "queryPlan"]⟩ "a" := ⟨by decide, by simp⟩

example : ¬ Allowed ⟨.last, some ["a", "queryPlan"]⟩ "queryPlan" := fun h => h.1 rfl

example : extensions (some ⟨.append, none⟩) [("own", .one 0)]
      [.object [("a", 1), ("b", 2), ("own", 3)], .other, .object [("a", 4), ("queryPlan", 5)]] =
    [("own", .one 0), ("a", .many [1, 4]), ("b", .many [2])] := by decide +kernel

end Verif.Extensions
