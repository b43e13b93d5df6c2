import Verif.Keys.Lemmas

namespace Verif.Keys

/-! ## JSON values and maps -/

theorem items_prefix {a b : List Value} (hl : a.length = b.length)
    (h : ∀ v ∈ a, ∀ w ∈ b, ∀ r r', jsonBytes v ++ r = jsonBytes w ++ r' → v = w ∧ r = r') :
    ∀ r r', itemsBytes a ++ r = itemsBytes b ++ r' → a = b ∧ r = r' := by
  induction a generalizing b with
  | nil =>
    cases b with
    | nil => intro r r' he; exact ⟨rfl, by simpa [itemsBytes] using he⟩
    | cons => simp at hl
  | cons v a ih =>
    cases b with
    | nil => simp at hl
    | cons w b =>
      intro r r' he
      rw [itemsBytes, itemsBytes, List.append_assoc, List.append_assoc] at he
      obtain ⟨h1, h2⟩ := h v (by simp) w (by simp) _ _ he
      obtain ⟨h3, h4⟩ := ih (by simpa using hl) (fun v hv w hw => h v (by simp [hv]) w (by simp [hw])) _ _ h2
      exact ⟨by rw [h1, h3], h4⟩

theorem members_prefix {a b : Fields} (hl : a.length = b.length)
    (h : ∀ v ∈ a, ∀ w ∈ b, ∀ r r', jsonBytes v.2 ++ r = jsonBytes w.2 ++ r' → v.2 = w.2 ∧ r = r') :
    ∀ r r', membersBytes a ++ r = membersBytes b ++ r' → a = b ∧ r = r' := by
  induction a generalizing b with
  | nil =>
    cases b with
    | nil => intro r r' he; exact ⟨rfl, by simpa [membersBytes] using he⟩
    | cons => simp at hl
  | cons v a ih =>
    cases b with
    | nil => simp at hl
    | cons w b =>
      obtain ⟨k, v⟩ := v
      obtain ⟨k', w⟩ := w
      intro r r' he
      rw [membersBytes, membersBytes] at he
      simp only [List.append_assoc] at he
      obtain ⟨h0, he⟩ := hashStr_append he
      obtain ⟨h1, h2⟩ := h (k, v) (by simp) (k', w) (by simp) _ _ he
      obtain ⟨h3, h4⟩ := ih (by simpa using hl) (fun v hv w hw => h v (by simp [hv]) w (by simp [hw])) _ _ h2
      simp only at h1
      exact ⟨by rw [h0, h1, h3], h4⟩

theorem json_prefix {v : Value} (hv : Readable v) : ∀ w, Readable w → ∀ r r',
    jsonBytes v ++ r = jsonBytes w ++ r' → v = w ∧ r = r' := by
  induction hv with
  | null =>
    intro w hw r r' h
    cases hw <;> simp [jsonBytes] at h ⊢ <;> try exact h
  | bool b =>
    intro w hw r r' h
    cases hw <;> simp [jsonBytes] at h
    rename_i b'
    refine ⟨?_, h.2⟩
    have := h.1
    revert this
    cases b <;> cases b' <;> simp
  | i64 i h1 h2 =>
    intro w hw r r' h
    cases hw <;> simp [jsonBytes] at h
    rename_i i' h3 h4
    obtain ⟨h5, h6⟩ := le8_append (by unfold bits; omega) (by unfold bits; omega) h
    exact ⟨by congr 1; unfold bits at h5; omega, h6⟩
  | u64 n h1 h2 =>
    intro w hw r r' h
    cases hw <;> simp [jsonBytes] at h
    rename_i n' h3 h4
    obtain ⟨h5, h6⟩ := le8_append h2 h4 h
    exact ⟨by rw [h5], h6⟩
  | f64 n h1 =>
    intro w hw r r' h
    cases hw <;> simp [jsonBytes] at h
    rename_i n' h3
    obtain ⟨h5, h6⟩ := le8_append h1 h3 h
    exact ⟨by rw [h5], h6⟩
  | str s =>
    intro w hw r r' h
    cases hw <;> simp [jsonBytes] at h
    obtain ⟨h5, h6⟩ := hashStr_append h
    exact ⟨by rw [h5], h6⟩
  | arr vs hl _ ih =>
    intro w hw r r' h
    cases hw <;> simp [jsonBytes] at h
    rename_i ws hl' hws
    obtain ⟨h5, h6⟩ := le8_append hl hl' h
    obtain ⟨h7, h8⟩ := items_prefix h5 (fun v hv w hw => ih v hv w (hws w hw)) _ _ h6
    exact ⟨by rw [h7], h8⟩
  | obj vs hl _ ih =>
    intro w hw r r' h
    cases hw <;> simp [jsonBytes] at h
    rename_i ws hl' hws
    obtain ⟨h5, h6⟩ := le8_append hl hl' h
    obtain ⟨h7, h8⟩ := members_prefix h5 (fun v hv w hw => ih v hv w.2 (hws w hw)) _ _ h6
    exact ⟨by rw [h7], h8⟩

/-- The entries in the order they are fed. -/
def sortedEntries (m : List (String × Value)) : List (String × Value) :=
  ((m.map (·.1)).mergeSort (fun a b => decide (a ≤ b))).filterMap fun k => (lookup k m).map (k, ·)

theorem lookup_isSome {m : List (String × Value)} {k : String} (h : k ∈ m.map (·.1)) :
    ∃ v, lookup k m = some v ∧ (k, v) ∈ m := by
  cases hl : lookup k m with
  | none =>
    obtain ⟨kv, hm, he⟩ := List.mem_map.1 h
    exact absurd he (lookup_eq_none.1 hl kv hm)
  | some v => exact ⟨v, rfl, lookup_mem hl⟩

theorem mem_sortedEntries {m : List (String × Value)} {k : String} {v : Value} :
    (k, v) ∈ sortedEntries m ↔ lookup k m = some v := by
  unfold sortedEntries
  constructor
  · intro h
    obtain ⟨k', _, h⟩ := List.mem_filterMap.1 h
    cases hl : lookup k' m with
    | none => simp [hl] at h
    | some v' => simp [hl] at h; rw [← h.1, ← h.2]; exact hl
  · intro h
    refine List.mem_filterMap.2 ⟨k, ?_, by simp [h]⟩
    rw [List.mem_mergeSort]
    exact List.mem_map.2 ⟨(k, v), lookup_mem h, rfl⟩

theorem mapBytes_eq (m : List (String × Value)) :
    mapBytes m = le8 (sortedEntries m).length ++ membersBytes (sortedEntries m) := by
  unfold mapBytes sortedEntries
  simp only
  have : ∀ k ∈ (m.map (·.1)).mergeSort (fun a b => decide (a ≤ b)), ∃ v, lookup k m = some v := by
    intro k hk
    rw [List.mem_mergeSort] at hk
    obtain ⟨v, h, _⟩ := lookup_isSome hk
    exact ⟨v, h⟩
  generalize (m.map (·.1)).mergeSort (fun a b => decide (a ≤ b)) = ks at this
  have hl : (ks.filterMap fun k => (lookup k m).map (k, ·)).length = ks.length := by
    induction ks with
    | nil => rfl
    | cons k ks ih =>
      obtain ⟨v, hv⟩ := this k (by simp)
      simp [List.filterMap_cons, hv, ih (fun k hk => this k (by simp [hk]))]
  rw [hl]
  congr 1
  clear hl
  induction ks with
  | nil => rfl
  | cons k ks ih =>
    obtain ⟨v, hv⟩ := this k (by simp)
    simp only [List.flatMap_cons, List.filterMap_cons, hv, Option.map_some, membersBytes,
      List.append_assoc]
    rw [ih (fun k hk => this k (by simp [hk]))]

theorem sortedEntries_ok {m : List (String × Value)} (h : ReadableMap m) :
    (sortedEntries m).length < 2 ^ 64 ∧ ∀ kv ∈ sortedEntries m, Readable kv.2 := by
  constructor
  · refine Nat.lt_of_le_of_lt ?_ h.size
    refine Nat.le_trans (List.length_filterMap_le _ _) ?_
    rw [List.length_mergeSort, List.length_map]
    exact Nat.le_refl _
  · intro kv hkv
    obtain ⟨k, v⟩ := kv
    exact h.values _ (lookup_mem (mem_sortedEntries.1 hkv))

theorem map_same {m n : List (String × Value)} (hm : ReadableMap m) (hn : ReadableMap n)
    (h : mapBytes m = mapBytes n) : SameMap m n := by
  rw [mapBytes_eq, mapBytes_eq] at h
  obtain ⟨h1, h2⟩ := sortedEntries_ok hm
  obtain ⟨h3, h4⟩ := sortedEntries_ok hn
  obtain ⟨h5, h6⟩ := le8_append h1 h3 h
  obtain ⟨h7, _⟩ := members_prefix h5 (fun v hv w hw => json_prefix (h2 v hv) w.2 (h4 w hw)) [] []
    (by simpa using h6)
  intro k
  cases ha : lookup k m with
  | some v => exact (mem_sortedEntries.1 (h7 ▸ mem_sortedEntries.2 ha)).symm
  | none =>
    cases hb : lookup k n with
    | none => rfl
    | some v =>
      have := mem_sortedEntries.1 (h7.symm ▸ mem_sortedEntries.2 hb)
      rw [ha] at this; simp at this

/-! ## Headers -/

/-- Pairs of strings, as they are fed. -/
def pairsBytes (ps : List (String × String)) : List Nat :=
  le8 ps.length ++ ps.flatMap fun h => hashStr h.1 ++ hashStr h.2

theorem pairs_prefix {a b : List (String × String)} (ha : a.length < 2 ^ 64) (hb : b.length < 2 ^ 64)
    {r r' : List Nat} (h : pairsBytes a ++ r = pairsBytes b ++ r') : a = b ∧ r = r' := by
  unfold pairsBytes at h
  rw [List.append_assoc, List.append_assoc] at h
  have hb' := le8_append ha hb h
  clear ha hb h
  obtain ⟨hl, h⟩ := hb'
  induction a generalizing b with
  | nil =>
    cases b with
    | nil => exact ⟨rfl, by simpa using h⟩
    | cons => simp at hl
  | cons x a ih =>
    cases b with
    | nil => simp at hl
    | cons y b =>
      simp only [List.flatMap_cons, List.append_assoc] at h
      obtain ⟨h1, h⟩ := hashStr_append h
      obtain ⟨h2, h⟩ := hashStr_append h
      obtain ⟨h3, h4⟩ := ih (by simpa using hl) h
      exact ⟨by rw [h3]; congr 1; exact Prod.ext h1 h2, h4⟩

/-- The bytes of a text. -/
def textBytes (s : String) : List Nat := s.toList.map Char.toNat

theorem headerText_of {v : List Nat} (h : ∀ b ∈ v, (32 ≤ b ∧ b < 127) ∨ b = 9) :
    headerText v = some (String.ofList (v.map Char.ofNat)) := by
  unfold headerText
  rw [if_pos]
  rw [List.all_eq_true]
  intro b hb
  have := h b hb
  simp
  omega

theorem textBytes_of {v : List Nat} (h : ∀ b ∈ v, (32 ≤ b ∧ b < 127) ∨ b = 9) :
    textBytes (String.ofList (v.map Char.ofNat)) = v := by
  unfold textBytes
  rw [String.toList_ofList, List.map_map]
  refine (List.map_congr_left ?_).trans (List.map_id v)
  intro b hb
  have := h b hb
  have hv : b.isValidChar := by unfold Nat.isValidChar; omega
  simp only [Function.comp, Char.ofNat, dif_pos hv, id]
  rfl

theorem counted_selected (p : HeaderPolicy) (hs : List (String × List Nat)) :
    hs.filter (fun h => p.includes h.1) = selected p hs := by
  cases p <;> simp [selected, HeaderPolicy.includes]

theorem counted_perm {p : HeaderPolicy} {hs ks : List (String × List Nat)}
    (h1 : Textual (selected p hs)) (h2 : Textual (selected p ks))
    (h : countedHeaders p hs = countedHeaders p ks) : (selected p hs).Perm (selected p ks) := by
  have key : ∀ l : List (String × List Nat), Textual l →
      (l.filterMap fun h => (headerText h.2).map (h.1, ·)).map (fun x => (x.1, textBytes x.2)) = l := by
    intro l hl
    induction l with
    | nil => rfl
    | cons x l ih =>
      have hx := hl x (by simp)
      simp only [List.filterMap_cons, headerText_of hx, Option.map_some, List.map_cons, textBytes_of hx]
      rw [ih (fun y hy => hl y (by simp [hy]))]
  have hp : ((selected p hs).filterMap fun h => (headerText h.2).map (h.1, ·)).Perm
      ((selected p ks).filterMap fun h => (headerText h.2).map (h.1, ·)) := by
    refine (List.mergeSort_perm _ pairLe).symm.trans (List.Perm.trans ?_ (List.mergeSort_perm _ pairLe))
    rw [countedHeaders, countedHeaders, counted_selected, counted_selected] at h
    exact List.Perm.of_eq h
  have := hp.map (fun x => (x.1, textBytes x.2))
  rwa [key _ h1, key _ h2] at this

theorem counted_length (p : HeaderPolicy) (hs : List (String × List Nat)) :
    (countedHeaders p hs).length ≤ hs.length := by
  unfold countedHeaders
  rw [List.length_mergeSort]
  exact Nat.le_trans (List.length_filterMap_le _ _) (List.length_filter_le _ _)

theorem connection_eq (p : HeaderPolicy) (r : Request) : connectionBytes p r =
    le8 r.method ++ (hashStr r.path ++ (pairsBytes (countedHeaders p r.headers) ++ le8 r.schema)) := rfl

theorem lookup_insertKey {α : Type} (k k' : String) (v : α) (m : List (String × α)) :
    lookup k' (insertKey k v m) = if k = k' then some v else lookup k' m := by
  induction m with
  | nil => simp [insertKey, lookup]
  | cons x m ih =>
    obtain ⟨k2, v2⟩ := x
    unfold insertKey
    split
    · simp [lookup]
    · split
      · rename_i h; subst h; by_cases hk : k = k' <;> simp [lookup, hk]
      · rw [lookup, ih, lookup]
        rename_i h1 h2
        by_cases hk : k2 = k'
        · have : k ≠ k' := fun h => h2 (h.trans hk.symm)
          simp [hk, this]
        · simp [hk]

theorem insertKey_length {α : Type} (k : String) (v : α) (m : List (String × α)) :
    (insertKey k v m).length ≤ m.length + 1 := by
  induction m with
  | nil => simp [insertKey]
  | cons x m ih =>
    obtain ⟨k2, v2⟩ := x
    unfold insertKey
    split
    · simp
    · split
      · simp
      · simp; exact ih

theorem headerMap_length (hs : List (String × List Nat)) : (headerMap hs).length ≤ hs.length := by
  have : ∀ (hs : List (String × List Nat)) (m : List (String × String)),
      (hs.foldl addHeader m).length ≤ m.length + hs.length := by
    intro hs
    induction hs with
    | nil => simp
    | cons h hs ih =>
      intro m
      rw [List.foldl_cons]
      refine Nat.le_trans (ih _) ?_
      unfold addHeader
      cases headerText h.2 with
      | none => simp only [List.length_cons]; omega
      | some t =>
        have := insertKey_length h.1 t m
        simp only [List.length_cons]; omega
  simpa [headerMap] using this hs []

theorem headerMap_lookup {hs : List (String × List Nat)} (ht : Textual hs) (hn : (hs.map (·.1)).Nodup)
    (k : String) (t : String) :
    lookup k (headerMap hs) = some t ↔ ∃ v, (k, v) ∈ hs ∧ headerText v = some t := by
  have key : ∀ (hs : List (String × List Nat)), Textual hs → (hs.map (·.1)).Nodup →
      ∀ m : List (String × String), lookup k (hs.foldl addHeader m) = some t ↔ (∃ v, (k, v) ∈ hs ∧ headerText v = some t) ∨
          (k ∉ hs.map (·.1) ∧ lookup k m = some t) := by
    intro hs
    induction hs with
    | nil => intro _ _ m; simp
    | cons x hs ih =>
      intro ht hn m
      obtain ⟨k2, v2⟩ := x
      have hx := headerText_of (ht (k2, v2) (by simp))
      simp only [List.map_cons, List.nodup_cons] at hn
      rw [List.foldl_cons, ih (fun y hy => ht y (by simp [hy])) hn.2]
      simp only at hx
      have ha : addHeader m (k2, v2) = insertKey k2 (String.ofList (v2.map Char.ofNat)) m := by unfold addHeader; rw [hx]
      rw [ha, lookup_insertKey]
      by_cases hk : k2 = k
      · subst hk
        have h1 : ∀ v, (k2, v) ∉ hs := fun v hv => hn.1 (List.mem_map.2 ⟨_, hv, rfl⟩)
        simp [h1]
        rw [hx]; simp
      · have hk' : k ≠ k2 := fun h => hk h.symm
        simp [hk, hk']
  have := key hs ht hn []
  simpa [headerMap, lookup] using this

end Verif.Keys
