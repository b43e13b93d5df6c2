import Verif.Persisted.Spec

/-! Lemmas on the extraction of ids. -/

namespace Verif.Persisted

/-! ## Lookup -/

theorem lookup_some_mem {α : Type} {k : String} {v : α} : ∀ {fs : List (String × α)},
    lookup k fs = some v → (k, v) ∈ fs
  | [], h => by simp [lookup] at h
  | (k', v') :: fs, h => by
    simp only [lookup] at h
    split at h
    · rename_i hk
      simp only [Option.some.injEq] at h
      simp [hk, h]
    · exact List.mem_cons_of_mem _ (lookup_some_mem h)

theorem lookup_of_mem {α : Type} {k : String} {v : α} : ∀ {fs : List (String × α)},
    (fs.map (·.1)).Nodup → (k, v) ∈ fs → lookup k fs = some v
  | [], _, h => by simp at h
  | (k', v') :: fs, hn, h => by
    simp only [List.map_cons, List.nodup_cons] at hn
    simp only [lookup]
    rcases List.mem_cons.1 h with h | h
    · cases h
      simp
    · have : k' ≠ k := by
        rintro rfl
        exact hn.1 (List.mem_map.2 ⟨_, h, rfl⟩)
      rw [if_neg this]
      exact lookup_of_mem hn.2 h

theorem lookup_iff {α : Type} {k : String} {v : α} {fs : List (String × α)}
    (hn : (fs.map (·.1)).Nodup) : lookup k fs = some v ↔ (k, v) ∈ fs :=
  ⟨lookup_some_mem, lookup_of_mem hn⟩

theorem nodup_reverse_map {α : Type} {fs : List (String × α)} (hn : (fs.map (·.1)).Nodup) :
    (fs.reverse.map (·.1)).Nodup := by
  rw [List.map_reverse]
  unfold List.Nodup at *
  rw [List.pairwise_reverse]
  exact hn.imp fun h => h.symm

/-! ## JSON paths -/

theorem asId_nonEmpty (v : Value) (id : String) : (asId v).bind nonEmpty = some id ↔ IsId v id := by
  constructor
  · intro h
    cases v <;> simp only [asId, Option.bind_none, Option.bind_some, reduceCtorEq] at h
    case str s =>
      simp only [nonEmpty] at h
      split at h
      · cases h
      · cases h
        exact .str _ ‹_›
    case u64 n =>
      simp only [nonEmpty] at h
      split at h
      · cases h
      · cases h
        exact .num n
  · intro h
    cases h with
    | str _ hs => simp [asId, nonEmpty, hs]
    | num n =>
      have : Nat.repr n ≠ "" := by
        intro h
        have h2 : 0 < (Nat.repr n).toList.length := by
          rw [Nat.toList_repr]
          exact Nat.length_toDigits_pos
        rw [h] at h2
        simp at h2
      simp [asId, nonEmpty, this]

theorem jsonAt_iff : ∀ (keys : List String) (v : Value), Uniq v → ∀ id,
    (jsonAt v keys).bind nonEmpty = some id ↔ ∃ w, At v keys w ∧ IsId w id
  | [], v, _, id => by
    rw [show jsonAt v [] = asId v by cases v <;> rfl, asId_nonEmpty]
    exact ⟨fun h => ⟨v, .here v, h⟩, fun ⟨w, h, hi⟩ => by cases h; exact hi⟩
  | k :: keys, v, hu, id => by
    constructor
    · intro h
      cases v <;> simp only [jsonAt, Option.bind_none, reduceCtorEq] at h
      case obj fs =>
        cases hu with
        | obj hn hv =>
          split at h
          · cases h
          · rename_i v hl
            obtain ⟨w, ha, hi⟩ := (jsonAt_iff keys v (hv _ (lookup_some_mem hl)) id).1 h
            exact ⟨w, .field _ _ _ _ _ (lookup_some_mem hl) ha, hi⟩
    · rintro ⟨w, ha, hi⟩
      cases ha with
      | field fs k v path w hm ha =>
        cases hu with
        | obj hn hv =>
          simp only [jsonAt, lookup_of_mem hn hm]
          exact (jsonAt_iff keys v (hv _ hm) id).2 ⟨w, ha, hi⟩

/-! ## The body -/

/-- The keys that have their own places. -/
def std (k : String) : Bool :=
  k = "query" || k = "operationName" || k = "variables" || k = "extensions" || k = "documentId"

theorem once_eq {α : Type} {slot x : Option α} {decode : Value → Option α} {v : Value}
    (hnull : decode .null = none) (h : once slot decode v = some x) : slot = none ∧ x = decode v := by
  unfold once at h
  split at h
  · cases h
  · rename_i hs
    have hs : slot = none := by cases slot <;> simp_all
    refine ⟨hs, ?_⟩
    split at h
    · cases h; rw [hnull]
    · cases hd : decode v with
      | none => rw [hd] at h; cases h
      | some y => rw [hd] at h; cases h; rfl

theorem field_documentId {p p' : PostInput} {k : String} {v : Value} (h : p.field k v = some p') :
    p'.documentId = if k = "documentId" then asId v else p.documentId := by
  unfold PostInput.field at h
  split at h
  · obtain ⟨x, _, rfl⟩ := Option.map_eq_some_iff.1 h
    simp [*]
  split at h
  · obtain ⟨x, _, rfl⟩ := Option.map_eq_some_iff.1 h
    simp [*]
  split at h
  · obtain ⟨x, _, rfl⟩ := Option.map_eq_some_iff.1 h
    simp [*]
  split at h
  · obtain ⟨x, _, rfl⟩ := Option.map_eq_some_iff.1 h
    simp [*]
  split at h
  · obtain ⟨x, hx, rfl⟩ := Option.map_eq_some_iff.1 h
    simp [*, (once_eq rfl hx).2]
  · split at h <;> cases h <;> simp [*]

theorem field_extensions {p p' : PostInput} {k : String} {v : Value} (h : p.field k v = some p') :
    p'.extensions = if k = "extensions" then asMap v else p.extensions := by
  unfold PostInput.field at h
  split at h
  · obtain ⟨x, _, rfl⟩ := Option.map_eq_some_iff.1 h
    simp [*]
  split at h
  · obtain ⟨x, _, rfl⟩ := Option.map_eq_some_iff.1 h
    simp [*]
  split at h
  · obtain ⟨x, _, rfl⟩ := Option.map_eq_some_iff.1 h
    simp [*]
  split at h
  · obtain ⟨x, hx, rfl⟩ := Option.map_eq_some_iff.1 h
    simp [*, (once_eq rfl hx).2]
  split at h
  · obtain ⟨x, _, rfl⟩ := Option.map_eq_some_iff.1 h
    simp [*]
  · split at h <;> cases h <;> simp [*]

theorem field_extra {p p' : PostInput} {k : String} {v : Value} (h : p.field k v = some p') :
    p'.extra = if std k then p.extra else p.extra.map ((k, v) :: ·) := by
  unfold PostInput.field at h
  split at h
  · obtain ⟨x, _, rfl⟩ := Option.map_eq_some_iff.1 h
    simp [*, std]
  split at h
  · obtain ⟨x, _, rfl⟩ := Option.map_eq_some_iff.1 h
    simp [*, std]
  split at h
  · obtain ⟨x, _, rfl⟩ := Option.map_eq_some_iff.1 h
    simp [*, std]
  split at h
  · obtain ⟨x, _, rfl⟩ := Option.map_eq_some_iff.1 h
    simp [*, std]
  split at h
  · obtain ⟨x, _, rfl⟩ := Option.map_eq_some_iff.1 h
    simp [*, std]
  · split at h <;> cases h <;> simp [*, std]

theorem fields_cons {p p' : PostInput} {k : String} {v : Value} {fs : Fields}
    (h : PostInput.fields p ((k, v) :: fs) = some p') :
    ∃ q, p.field k v = some q ∧ PostInput.fields q fs = some p' := by
  simp only [PostInput.fields] at h
  cases hq : p.field k v with
  | none => rw [hq] at h; cases h
  | some q => rw [hq] at h; exact ⟨q, rfl, h⟩

theorem fields_documentId : ∀ {fs : Fields} {p p' : PostInput}, (fs.map (·.1)).Nodup →
    PostInput.fields p fs = some p' →
    p'.documentId = (match lookup "documentId" fs with | some v => asId v | none => p.documentId)
  | [], p, p', _, h => by
    simp only [PostInput.fields, Option.some.injEq] at h
    rw [h]
    rfl
  | (k, v) :: fs, p, p', hn, h => by
    obtain ⟨q, hq, h⟩ := fields_cons h
    simp only [List.map_cons, List.nodup_cons] at hn
    rw [fields_documentId hn.2 h, field_documentId hq]
    simp only [lookup]
    by_cases hk : k = "documentId"
    · rw [if_pos hk, if_pos hk]
      have : lookup "documentId" fs = none := by
        rw [lookup_eq_none]
        rintro kv hkv rfl'
        exact hn.1 (List.mem_map.2 ⟨kv, hkv, by rw [rfl', hk]⟩)
      rw [this]
    · rw [if_neg hk, if_neg hk]

theorem fields_extensions : ∀ {fs : Fields} {p p' : PostInput}, (fs.map (·.1)).Nodup →
    PostInput.fields p fs = some p' →
    p'.extensions = (match lookup "extensions" fs with | some v => asMap v | none => p.extensions)
  | [], p, p', _, h => by
    simp only [PostInput.fields, Option.some.injEq] at h
    rw [h]
    rfl
  | (k, v) :: fs, p, p', hn, h => by
    obtain ⟨q, hq, h⟩ := fields_cons h
    simp only [List.map_cons, List.nodup_cons] at hn
    rw [fields_extensions hn.2 h, field_extensions hq]
    simp only [lookup]
    by_cases hk : k = "extensions"
    · rw [if_pos hk, if_pos hk]
      have : lookup "extensions" fs = none := by
        rw [lookup_eq_none]
        rintro kv hkv rfl'
        exact hn.1 (List.mem_map.2 ⟨kv, hkv, by rw [rfl', hk]⟩)
      rw [this]
    · rw [if_neg hk, if_neg hk]

theorem fields_extra : ∀ {fs : Fields} {p p' : PostInput}, PostInput.fields p fs = some p' →
    p'.extra = p.extra.map ((fs.filter fun kv => !std kv.1).reverse ++ ·)
  | [], p, p', h => by
    simp only [PostInput.fields, Option.some.injEq] at h
    rw [h]
    cases p'.extra <;> simp
  | (k, v) :: fs, p, p', h => by
    obtain ⟨q, hq, h⟩ := fields_cons h
    rw [fields_extra h, field_extra hq]
    cases hs : std k <;> cases p.extra <;> simp [hs]

/-! ## Query strings -/

theorem pairs_ne (q : Bytes) : pairs q ≠ [] := by
  cases q with
  | nil => simp [pairs]
  | cons c q =>
    simp only [pairs]
    split
    · simp
    · split <;> simp

/-- The first pair, and the rest behind the `&`. -/
theorem pairs_eq : ∀ q : Bytes, pairs q = q.takeWhile (· ≠ 38) ::
    (match q.dropWhile (· ≠ 38) with | [] => [] | _ :: rest => pairs rest)
  | [] => by simp [pairs]
  | c :: q => by
    rw [pairs]
    by_cases h : c = 38
    · simp [h]
    · rw [if_neg h, pairs_eq q]
      simp [h]

/-- Away from a boundary the scan goes to behind the next `&`. -/
theorem findFirst_skip (name : Bytes) : ∀ q : Bytes, findFirst name false q =
    (match q.dropWhile (· ≠ 38) with | [] => none | _ :: rest => findFirst name true rest)
  | [] => by simp [findFirst]
  | c :: q => by
    rw [findFirst, if_neg (by simp)]
    by_cases h : c = 38
    · subst h
      simp [amp]
    · have : decide (c = amp) = false := by simp [amp, h]
      rw [this, findFirst_skip name q]
      simp [h]

theorem takeWhile_append_stop {α : Type} (p : α → Bool) (a b : List α) (h : ∀ x ∈ a, p x = true) :
    (a ++ b).takeWhile p = a ++ b.takeWhile p := by
  induction a with
  | nil => rfl
  | cons x a ih =>
    simp only [List.cons_append]
    rw [List.takeWhile_cons_of_pos (h x List.mem_cons_self), ih fun y hy => h y (List.mem_cons_of_mem _ hy)]

theorem dropWhile_append_stop {α : Type} (p : α → Bool) (a b : List α) (h : ∀ x ∈ a, p x = true) :
    (a ++ b).dropWhile p = b.dropWhile p := by
  induction a with
  | nil => rfl
  | cons x a ih =>
    simp only [List.cons_append]
    rw [List.dropWhile_cons_of_pos (h x List.mem_cons_self), ih fun y hy => h y (List.mem_cons_of_mem _ hy)]

/-- The value of the first pair with the name, if it is not empty. -/
def specFirst (name : Bytes) (ps : List Bytes) : Option Bytes :=
  match ps.find? (fun p => pairKey p == name) with
  | none => none
  | some p => if pairValue p = [] then none else some (pairValue p)

theorem mem_takeWhile {α : Type} (p : α → Bool) (x : α) : ∀ l : List α, x ∈ l.takeWhile p → p x = true
  | [], h => by simp at h
  | y :: l, h => by
    simp only [List.takeWhile_cons] at h
    split at h
    · rcases List.mem_cons.1 h with rfl | h
      · assumption
      · exact mem_takeWhile p x l h
    · simp at h

theorem takeWhile_le_prefix (p : UInt8 → Bool) (a b : Bytes) (h : (a ++ b).takeWhile p = a) :
    b.head?.all (fun c => !p c) = true := by
  by_cases ha : ∀ x ∈ a, p x = true
  · rw [takeWhile_append_stop p a b ha] at h
    cases b with
    | nil => rfl
    | cons c b =>
      cases hc : p c with
      | false => simp [hc]
      | true =>
        rw [List.takeWhile_cons_of_pos hc] at h
        simp at h
  · exfalso
    apply ha
    rw [← h]
    intro x hx
    exact mem_takeWhile p x _ hx

theorem pairKey_prefix (p : Bytes) : pairKey p <+: p := List.takeWhile_prefix _

theorem specFirst_skip (name p : Bytes) (ps : List Bytes) (h : pairKey p ≠ name) :
    specFirst name (p :: ps) = specFirst name ps := by
  simp [specFirst, h]

theorem specFirst_hit (name p : Bytes) (ps : List Bytes) (h : pairKey p = name) :
    specFirst name (p :: ps) = if pairValue p = [] then none else some (pairValue p) := by
  simp [specFirst, h]

theorem findFirst_spec (name : Bytes) (hne : name ≠ []) (ha : (38 : UInt8) ∉ name)
    (he : (61 : UInt8) ∉ name) : ∀ (n : Nat) (q : Bytes), q.length ≤ n →
    findFirst name true q = specFirst name (pairs q)
  | _, [], _ => by
    rw [findFirst, pairs, specFirst_skip]
    · simp [specFirst]
    · simpa [pairKey] using fun h => hne h
  | 0, c :: q, hl => by simp at hl
  | n + 1, c :: rest, hl => by
    have hl' : rest.length ≤ n := by simpa using hl
    -- the rest behind the first pair
    have skip : c ≠ 38 → findFirst name (decide (c = amp)) rest =
        specFirst name (match (c :: rest).dropWhile (· ≠ 38) with | [] => [] | _ :: r => pairs r) := by
      intro hc
      have h1 : decide (c = amp) = false := by simp [amp, hc]
      rw [h1, findFirst_skip]
      have h2 : (c :: rest).dropWhile (· ≠ 38) = rest.dropWhile (· ≠ 38) := by simp [hc]
      rw [h2]
      cases hd : rest.dropWhile (· ≠ 38) with
      | nil => rfl
      | cons x r =>
        refine findFirst_spec name hne ha he n r ?_
        have := (List.dropWhile_suffix (l := rest) (fun b => decide (b ≠ 38))).length_le
        rw [hd] at this
        simp at this
        omega
    have hna : ∀ x ∈ name, decide (x ≠ 38) = true := by
      intro x hx
      simp only [ne_eq, decide_not, Bool.not_eq_true', decide_eq_false_iff_not]
      rintro rfl
      exact ha hx
    have hne' : ∀ x ∈ name, decide (x ≠ 61) = true := by
      intro x hx
      simp only [ne_eq, decide_not, Bool.not_eq_true', decide_eq_false_iff_not]
      rintro rfl
      exact he hx
    rw [findFirst, pairs_eq]
    by_cases hp : name <+: (c :: rest)
    · rw [if_pos ⟨rfl, hp⟩]
      obtain ⟨r, hr⟩ := hp
      have hc : c ≠ 38 := by
        rintro rfl
        cases name with
        | nil => exact hne rfl
        | cons x name =>
          simp only [List.cons_append, List.cons.injEq] at hr
          exact ha (by rw [hr.1]; exact List.mem_cons_self)
      have hdrop : (c :: rest).drop name.length = r := by rw [← hr]; simp
      rw [hdrop]
      have hp0 : (c :: rest).takeWhile (· ≠ 38) = name ++ r.takeWhile (· ≠ 38) := by
        rw [← hr]
        exact takeWhile_append_stop _ _ _ hna
      rw [hp0]
      cases r with
      | nil =>
        rw [specFirst_hit]
        · have : pairValue name = [] := by
            unfold pairValue
            have := dropWhile_append_stop (fun b => decide (b ≠ 61)) name [] hne'
            rw [List.append_nil] at this
            simp only [ne_eq, decide_not] at this ⊢
            rw [this]
            simp
          simp [this]
        · have := takeWhile_append_stop (fun b => decide (b ≠ 61)) name [] hne'
          simpa [pairKey] using this
      | cons s v =>
        dsimp only
        by_cases hs : s = 38
        · rw [if_pos (by simpa [amp] using hs), specFirst_hit]
          · have : pairValue (name ++ (s :: v).takeWhile (· ≠ 38)) = [] := by
              unfold pairValue
              have := dropWhile_append_stop (fun b => decide (b ≠ 61)) name [] hne'
              simp only [List.append_nil, ne_eq, decide_not] at this
              simp [hs, this]
            rw [if_pos this]
          · have := takeWhile_append_stop (fun b => decide (b ≠ 61)) name [] hne'
            simpa [pairKey, hs] using this
        · rw [if_neg (by simpa [amp] using hs)]
          by_cases hs2 : s = 61
          · subst hs2
            rw [if_neg (by simp [eqs]), specFirst_hit]
            · have : pairValue (name ++ (61 :: v).takeWhile (· ≠ 38)) = v.takeWhile (· ≠ 38) := by
                unfold pairValue
                rw [dropWhile_append_stop (fun b => decide (b ≠ 61)) name _ hne']
                simp
              rw [this]
              cases v with
              | nil => simp
              | cons x v =>
                by_cases hx : x = 38
                · simp [hx, amp]
                · simp [hx, amp]
                  exact congrArg (fun f => List.takeWhile f v) (funext fun y => decide_not)
            · unfold pairKey
              rw [takeWhile_append_stop (fun b => decide (b ≠ 61)) name _ hne']
              simp
          · rw [if_pos (by simpa [eqs] using hs2), specFirst_skip, skip hc]
            unfold pairKey
            rw [takeWhile_append_stop (fun b => decide (b ≠ 61)) name _ hne']
            simp [hs, hs2]
    · rw [if_neg (by simp [hp]), specFirst_skip]
      · by_cases hc : c = 38
        · subst hc
          simp only [amp, decide_true, ne_eq, not_true_eq_false, decide_false, Bool.false_eq_true,
            not_false_eq_true, List.dropWhile_cons_of_neg]
          exact findFirst_spec name hne ha he n rest hl'
        · exact skip hc
      · intro hk
        apply hp
        rw [← hk]
        exact (pairKey_prefix _).trans (List.takeWhile_prefix _)

theorem specFirst_iff (name q v : Bytes) :
    specFirst name (pairs q) = some v ↔ FirstValue name q v ∧ v ≠ [] := by
  unfold specFirst FirstValue
  constructor
  · intro h
    cases hf : (pairs q).find? (fun p => pairKey p == name) with
    | none => rw [hf] at h; cases h
    | some p =>
      rw [hf] at h
      obtain ⟨hp, pre, post, hpq, hpre⟩ := List.find?_eq_some_iff_append.1 hf
      dsimp only at h
      split at h
      · cases h
      · cases h
        exact ⟨⟨pre, p, post, hpq, by simpa using hpre, by simpa using hp, rfl⟩, ‹_›⟩
  · rintro ⟨⟨pre, p, post, hpq, hpre, hp, rfl⟩, hv⟩
    have : (pairs q).find? (fun p => pairKey p == name) = some p :=
      List.find?_eq_some_iff_append.2 ⟨by simpa using hp, pre, post, hpq, by simpa using hpre⟩
    rw [this]
    simp [hv]

/-- Without escapes decoding does nothing. -/
theorem percentDecode_plain : ∀ (n : Nat) (v : Bytes), v.length ≤ n → percent ∉ v → percentDecode v = v
  | _, [], _, _ => by simp [percentDecode]
  | 0, _ :: _, hl, _ => by simp at hl
  | n + 1, c :: v, hl, h => by
    have hc : c ≠ 37 := by
      rintro rfl
      exact h List.mem_cons_self
    have hv : percent ∉ v := fun hm => h (List.mem_cons_of_mem _ hm)
    rw [percentDecode.eq_def]
    split
    · rename_i heq
      simp only [List.cons.injEq] at heq
      exact absurd heq.1 hc
    · rename_i c' r _ heq
      simp only [List.cons.injEq] at heq
      obtain ⟨rfl, rfl⟩ := heq
      rw [percentDecode_plain n _ (by simpa using hl) hv]
    · rename_i heq
      cases heq

theorem decodeIfNeeded_eq (utf8 : Bytes → Option String) (v : Bytes) :
    decodeIfNeeded utf8 v = utf8 (percentDecode (v.map fun b => if b = 43 then 32 else b)) := by
  have hmap : plus ∉ v → v.map (fun b => if b = 43 then (32 : UInt8) else b) = v := by
    intro h
    rw [List.map_congr_left (g := id), List.map_id]
    intro b hb
    have : b ≠ 43 := by
      rintro rfl
      exact h hb
    simp [this]
  unfold decodeIfNeeded
  split
  · rename_i h
    simp only [List.contains_iff_mem] at h
    rw [hmap h.2, percentDecode_plain _ v (Nat.le_refl _) h.1]
  · split
    · rename_i h
      simp only [List.contains_iff_mem] at h
      rw [hmap h]
    · rfl

/-! ## Paths -/

theorem segments_join : ∀ (s : Bytes) (ss : List Bytes), (47 : UInt8) ∉ s → (∀ p ∈ ss, (47 : UInt8) ∉ p) →
    segments (s ++ path ss) = s :: ss
  | [], [], _, _ => rfl
  | [], p :: ss, _, h => by
    rw [path, List.nil_append, segments, if_pos rfl,
      segments_join p ss (h p List.mem_cons_self) fun q hq => h q (List.mem_cons_of_mem _ hq)]
  | c :: s, ss, hs, h => by
    have hc : c ≠ 47 := by
      rintro rfl
      exact hs List.mem_cons_self
    rw [List.cons_append, segments, if_neg hc,
      segments_join s ss (fun hm => hs (List.mem_cons_of_mem _ hm)) h]

theorem segments_eq : ∀ (p s : Bytes) (ss : List Bytes), segments p = s :: ss →
    p = s ++ path ss ∧ (47 : UInt8) ∉ s ∧ ∀ q ∈ ss, (47 : UInt8) ∉ q
  | [], s, ss, h => by
    simp only [segments, List.cons.injEq] at h
    obtain ⟨rfl, rfl⟩ := h
    simp [path]
  | c :: p, s, ss, h => by
    rw [segments] at h
    split at h
    · rename_i hc
      simp only [List.cons.injEq] at h
      obtain ⟨rfl, rfl⟩ := h
      cases hp : segments p with
      | nil =>
        exfalso
        cases p with
        | nil => simp [segments] at hp
        | cons d p =>
          rw [segments] at hp
          split at hp
          · cases hp
          · split at hp <;> cases hp
      | cons t ts =>
        obtain ⟨rfl, h1, h2⟩ := segments_eq p t ts hp
        refine ⟨by simp [path, hc], by simp, ?_⟩
        intro q hq
        rcases List.mem_cons.1 hq with rfl | hq
        · exact h1
        · exact h2 q hq
    · rename_i hc
      cases hp : segments p with
      | nil =>
        exfalso
        cases p with
        | nil => simp [segments] at hp
        | cons d p =>
          rw [segments] at hp
          split at hp
          · cases hp
          · split at hp <;> cases hp
      | cons t ts =>
        rw [hp] at h
        simp only [List.cons.injEq] at h
        obtain ⟨rfl, rfl⟩ := h
        obtain ⟨rfl, h1, h2⟩ := segments_eq p t ts hp
        refine ⟨rfl, ?_, h2⟩
        intro hm
        rcases List.mem_cons.1 hm with hm | hm
        · exact hc hm.symm
        · exact h1 hm

theorem matchSegs_iff : ∀ (t : List Seg) (ps : List Bytes) (o : Option Bytes),
    matchSegs t ps = some o ↔ Fits t ps o
  | [], [], o => by
    simp only [matchSegs, Option.some.injEq]
    exact ⟨fun h => h ▸ .nil, fun h => by cases h; rfl⟩
  | [], p :: ps, o => by
    simp only [matchSegs, reduceCtorEq, false_iff]
    intro h
    cases h
  | t :: ts, [], o => by
    have : matchSegs (t :: ts) [] = none := by cases t <;> rfl
    rw [this]
    simp only [reduceCtorEq, false_iff]
    intro h
    cases h
  | .lit s :: ts, p :: ps, o => by
    simp only [matchSegs]
    split
    · rename_i h
      subst h
      rw [matchSegs_iff]
      exact ⟨fun h => .lit _ _ _ _ h, fun h => by cases h; assumption⟩
    · rename_i hne
      simp only [reduceCtorEq, false_iff]
      intro h
      cases h
      exact hne rfl
  | .wild :: ts, p :: ps, o => by
    simp only [matchSegs]
    split
    · simp only [reduceCtorEq, false_iff]
      intro h
      cases h
      contradiction
    · rw [matchSegs_iff]
      exact ⟨fun h => .wild _ _ _ _ ‹_› h, fun h => by cases h; assumption⟩
  | .id :: ts, p :: ps, o => by
    simp only [matchSegs]
    split
    · simp only [reduceCtorEq, false_iff]
      intro h
      cases h
      contradiction
    · constructor
      · intro h
        obtain ⟨x, hx, rfl⟩ := Option.map_eq_some_iff.1 h
        exact .id _ _ _ _ ‹_› ((matchSegs_iff ts ps x).1 hx)
      · intro h
        cases h with
        | id _ _ _ x _ hf => rw [(matchSegs_iff ts ps x).2 hf]; rfl

theorem nonEmpty_iff (s id : String) : nonEmpty s = some id ↔ s = id ∧ id ≠ "" := by
  unfold nonEmpty
  split
  · simp_all
  · simp only [Option.some.injEq]
    constructor
    · rintro rfl
      exact ⟨rfl, ‹_›⟩
    · exact fun h => h.1

end Verif.Persisted
