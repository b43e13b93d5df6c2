import Verif.Entities.Fetch
import Verif.Entities.RequiresLemmas
import Verif.Entities.TraverseLemmas

/-!
# The state of an entity fetch
-/

namespace Verif.Entities

open Verif.Json
open Verif.Projection

/-- What `send` does with the values that are visited, in the terms of `rep`. -/
def Sends (send : Value → Buf → Bool → Buf × Bool) (v : Value) : Option Json → Prop
  | none => ∀ b first, send v b first = (b, false)
  | some j => ∃ t, Denotes t j ∧
      ∀ b first, send v b first = (b ++ (if first then [] else [',']) ++ t, true)

/-- What `representations` and the table are after the values `seen`. -/
structure Inv (hash : Value → Nat) (R : Value → Option Json) (seen : List Value) (s : Sent)
    (xs : List (List Char × Json)) : Prop where
  buf : s.buf = '[' :: commaSep (xs.map (·.1))
  den : ∀ x ∈ xs, Denotes x.1 x.2
  idx : s.index = xs.length
  emp : s.table.isEmpty = xs.isEmpty
  from_seen : ∀ x ∈ xs, ∃ v ∈ seen, v ≠ .null ∧ R v = some x.2
  tab : ∀ h i, s.table.lookup h = some i → ∃ v ∈ seen, v ≠ .null ∧ hash v = h ∧
    ∃ j, R v = some j ∧ (xs[i]?).map (·.2) = some j
  miss : ∀ v ∈ seen, v ≠ .null → s.table.lookup (hash v) = none → R v = none
  used : ∀ i < xs.length, ∃ v ∈ seen, v ≠ .null ∧ s.table.lookup (hash v) = some i

theorem Inv.start (hash : Value → Nat) (R : Value → Option Json) : Inv hash R [] .start [] :=
  ⟨rfl, by simp, rfl, rfl, by simp, by simp [Sent.start], by simp, by simp⟩

theorem commaSep_snoc (ts : List (List Char)) (t : List Char) :
    commaSep (ts ++ [t]) = commaSep ts ++ (if ts.isEmpty then [] else [',']) ++ t := by
  cases ts with
  | nil => simp [commaSep]
  | cons x xs => rw [List.cons_append, commaSep_flat, commaSep_flat]; simp

/-- The hash recorded for a value. -/
def hashOf (hash : Value → Nat) : Value → Option Nat
  | .null => none
  | v => some (hash v)

theorem hashOf_of_ne {hash : Value → Nat} {v : Value} (h : v ≠ .null) : hashOf hash v = some (hash v) := by
  cases v <;> first | exact absurd rfl h | rfl

theorem visit_of_ne {hash : Value → Nat} {rewrite : Value → Value}
    {send : Value → Buf → Bool → Buf × Bool} {v : Value} (h : v ≠ .null) (s : Visit) :
    visit hash rewrite send v s =
      match s.sent.table.lookup (hash v) with
      | some _ => { s with hashes := s.hashes ++ [some (hash v)] }
      | none =>
        let r := send (rewrite v) s.sent.buf s.sent.table.isEmpty
        if r.2 then ⟨s.hashes ++ [some (hash v)],
          ⟨(hash v, s.sent.index) :: s.sent.table, s.sent.index + 1, r.1⟩⟩
        else ⟨s.hashes ++ [some (hash v)], { s.sent with buf := r.1 }⟩ := by
  cases v <;> first | exact absurd rfl h | rfl

theorem visit_inv {hash : Value → Nat} {rewrite : Value → Value}
    {send : Value → Buf → Bool → Buf × Bool} {R : Value → Option Json} {seen : List Value}
    {s : Visit} {xs : List (List Char × Json)} (hi : Inv hash R seen s.sent xs) (v : Value)
    (hs : v ≠ .null → Sends send (rewrite v) (R v))
    (hc : ∀ u ∈ seen, u ≠ .null → v ≠ .null → hash u = hash v → R u = R v) :
    (visit hash rewrite send v s).hashes = s.hashes ++ [hashOf hash v] ∧
      ∃ ys, Inv hash R (seen ++ [v]) (visit hash rewrite send v s).sent ys ∧ xs <+: ys ∧
        ∀ h i, s.sent.table.lookup h = some i →
          (visit hash rewrite send v s).sent.table.lookup h = some i := by
  have more : ∀ i < xs.length, ∃ u ∈ seen ++ [v], u ≠ .null ∧
      s.sent.table.lookup (hash u) = some i := by
    intro i h
    obtain ⟨u, h1, h2⟩ := hi.used i h
    exact ⟨u, by simp [h1], h2⟩
  by_cases hv : v = .null
  · subst hv
    refine ⟨rfl, xs, ⟨hi.buf, hi.den, hi.idx, hi.emp, ?_, ?_, ?_, fun i h => more i h⟩, List.prefix_rfl, fun h i hh => hh⟩
    · intro x hx
      obtain ⟨u, h1, h2⟩ := hi.from_seen x hx
      exact ⟨u, by simp [h1], h2⟩
    · intro h i hh
      obtain ⟨u, h1, h2⟩ := hi.tab h i hh
      exact ⟨u, by simp [h1], h2⟩
    · intro u hu hn hl
      rcases List.mem_append.1 hu with hu | hu
      · exact hi.miss u hu hn hl
      · exact absurd (List.mem_singleton.1 hu) hn
  · rw [visit_of_ne hv, hashOf_of_ne hv]
    cases hl : s.sent.table.lookup (hash v) with
    | some i =>
      refine ⟨rfl, xs, ⟨hi.buf, hi.den, hi.idx, hi.emp, ?_, ?_, ?_, fun i h => more i h⟩, List.prefix_rfl, fun h i hh => hh⟩
      · intro x hx
        obtain ⟨u, h1, h2⟩ := hi.from_seen x hx
        exact ⟨u, by simp [h1], h2⟩
      · intro h i hh
        obtain ⟨u, h1, h2⟩ := hi.tab h i hh
        exact ⟨u, by simp [h1], h2⟩
      · intro u hu hn hl'
        rcases List.mem_append.1 hu with hu | hu
        · exact hi.miss u hu hn hl'
        · rw [List.mem_singleton.1 hu] at hl'
          rw [hl] at hl'; cases hl'
    | none =>
      have hs := hs hv
      cases hr : R v with
      | none =>
        rw [hr] at hs
        have hs : ∀ b first, send (rewrite v) b first = (b, false) := hs
        simp only [hs]
        refine ⟨rfl, xs, ⟨hi.buf, hi.den, hi.idx, hi.emp, ?_, ?_, ?_, fun i h => more i h⟩, List.prefix_rfl, fun h i hh => hh⟩
        · intro x hx
          obtain ⟨u, h1, h2⟩ := hi.from_seen x hx
          exact ⟨u, by simp [h1], h2⟩
        · intro h i hh
          obtain ⟨u, h1, h2⟩ := hi.tab h i hh
          exact ⟨u, by simp [h1], h2⟩
        · intro u hu hn hl'
          rcases List.mem_append.1 hu with hu | hu
          · exact hi.miss u hu hn hl'
          · rw [List.mem_singleton.1 hu]; exact hr
      | some j =>
        rw [hr] at hs
        obtain ⟨t, hd, hs⟩ := hs
        simp only [hs, if_true]
        refine ⟨trivial, xs ++ [(t, j)], ⟨?_, ?_, ?_, ?_, ?_, ?_, ?_, ?_⟩, List.prefix_append _ _, ?_⟩
        · simp only [hi.buf, hi.emp, List.map_append, List.map_cons, List.map_nil, commaSep_snoc,
            List.isEmpty_map]
          simp
        · intro x hx
          rcases List.mem_append.1 hx with hx | hx
          · exact hi.den x hx
          · rw [List.mem_singleton.1 hx]; exact hd
        · simp [hi.idx]
        · simp
        · intro x hx
          rcases List.mem_append.1 hx with hx | hx
          · obtain ⟨u, h1, h2⟩ := hi.from_seen x hx
            exact ⟨u, by simp [h1], h2⟩
          · rw [List.mem_singleton.1 hx]; exact ⟨v, by simp, hv, hr⟩
        · intro h i hh
          simp only [List.lookup_cons] at hh
          split at hh
          · rename_i he
            refine ⟨v, by simp, hv, (by simpa using he : h = hash v).symm, j, hr, ?_⟩
            rw [← Option.some.inj hh, hi.idx]; simp
          · obtain ⟨u, h1, h2, h3, j', h4, h5⟩ := hi.tab h i hh
            refine ⟨u, by simp [h1], h2, h3, j', h4, ?_⟩
            obtain ⟨y, hy, hy2⟩ := Option.map_eq_some_iff.1 h5
            rw [List.getElem?_append_left (by
              rw [List.getElem?_eq_some_iff] at hy; exact hy.1), hy]
            simp [hy2]
        · intro u hu hn hl'
          simp only [List.lookup_cons] at hl'
          split at hl'
          · cases hl'
          · rename_i hne
            rcases List.mem_append.1 hu with hu | hu
            · exact hi.miss u hu hn hl'
            · rw [List.mem_singleton.1 hu] at hne; simp at hne
        · intro i h
          rw [List.length_append, List.length_singleton] at h
          by_cases h' : i < xs.length
          · obtain ⟨u, h1, h2, h3⟩ := more i h'
            refine ⟨u, h1, h2, ?_⟩
            rw [List.lookup_cons]
            split
            · rename_i he
              rw [(by simpa using he : hash u = hash v), hl] at h3; cases h3
            · exact h3
          · refine ⟨v, by simp, hv, ?_⟩
            simp only [List.lookup_cons, beq_self_eq_true, hi.idx, Option.some.injEq]
            omega
        · intro h i hh
          simp only [List.lookup_cons]
          split
          · rename_i he
            rw [(by simpa using he : h = hash v), hl] at hh; cases hh
          · exact hh

theorem visits_inv {hash : Value → Nat} {rewrite : Value → Value}
    {send : Value → Buf → Bool → Buf × Bool} {R : Value → Option Json} (ts : List (Pos × Value)) :
    ∀ {seen : List Value} {s : Visit} {xs : List (List Char × Json)}, Inv hash R seen s.sent xs →
    (∀ x ∈ ts, x.2 ≠ .null → Sends send (rewrite x.2) (R x.2)) →
    (∀ u ∈ seen ++ ts.map (·.2), ∀ v ∈ seen ++ ts.map (·.2), u ≠ .null → v ≠ .null →
      hash u = hash v → R u = R v) →
    (ts.foldl (fun s x => visit hash rewrite send x.2 s) s).hashes =
        s.hashes ++ ts.map (fun x => hashOf hash x.2) ∧
      ∃ ys, Inv hash R (seen ++ ts.map (·.2))
        (ts.foldl (fun s x => visit hash rewrite send x.2 s) s).sent ys ∧ xs <+: ys ∧
        ∀ h i, s.sent.table.lookup h = some i →
          (ts.foldl (fun s x => visit hash rewrite send x.2 s) s).sent.table.lookup h = some i := by
  induction ts with
  | nil => intro seen s xs hi _ _; exact ⟨by simp, xs, by simpa using hi, List.prefix_rfl, fun h i hh => hh⟩
  | cons x ts ih =>
    intro seen s xs hi hs hc
    obtain ⟨h1, ys, h2, h3, h4⟩ := visit_inv hi x.2 (hs x (by simp)) (fun u hu hn hv he =>
      hc u (by simp [hu]) x.2 (by simp) hn hv he)
    obtain ⟨k1, zs, k2, k3, k4⟩ := ih h2 (fun y hy => hs y (by simp [hy])) (by simpa using hc)
    refine ⟨?_, zs, ?_, h3.trans k3, fun h i hh => k4 h i (h4 h i hh)⟩
    · rw [List.foldl_cons, k1, h1]; simp
    · rw [List.foldl_cons]; simpa using k2

/-! ## Placing -/

/-- What becomes of a target. -/
def placed (table : List (Nat × Nat)) (entities : List Value) (h : Option Nat) (t : Value) : Value :=
  match (h.bind (List.lookup · table)).bind (entities[·]?) with
  | some e => deepMerge t e
  | none => t

/-- What becomes of the error map. -/
def noted (table : List (Nat × Nat)) (h : Option Nat) (p : Pos) (m : ErrMap) : ErrMap :=
  match h.bind (List.lookup · table) with
  | some i => m.push i p
  | none => m

theorem place_eq (hashes : List (Option Nat)) (table : List (Nat × Nat)) (entities : List Value)
    (t : Value) (ep : Option Pos) (k : Nat) (m : Option ErrMap) (h : Option Nat)
    (hk : hashes[k]? = some h) (he : ep.isSome = m.isSome) :
    place hashes table entities t ep (k, m) = (placed table entities h t,
      (k + 1, m.map fun m => noted table h (ep.getD []) m)) := by
  unfold place placed noted
  simp only [hk]
  cases h with
  | none => cases m <;> simp
  | some h =>
    simp only [Option.bind_some]
    cases hl : table.lookup h with
    | none => cases m <;> simp
    | some i =>
      simp only [Option.bind_some]
      cases m with
      | none =>
        cases ep with
        | some => simp at he
        | none => cases entities[i]? <;> simp
      | some m =>
        cases ep with
        | none => simp at he
        | some p => cases entities[i]? <;> simp

theorem run_place (table : List (Nat × Nat)) (entities : List Value) (ts : List (Pos × Value)) :
    ∀ (hs before : List (Option Nat)) (m : Option ErrMap) (q : Pos), hs.length = ts.length →
    run (place (before ++ hs) table entities) ts (m.map fun _ => q) (before.length, m) =
      ((hs.zip ts).map fun x => (x.2.1, placed table entities x.1 x.2.2),
        (before.length + hs.length,
          m.map fun m => (hs.zip ts).foldl (fun m x => noted table x.1 (q ++ x.2.1) m) m)) := by
  induction ts with
  | nil =>
    intro hs before m q hl
    rw [List.length_eq_zero_iff.1 hl]
    cases m <;> simp [run]
  | cons x ts ih =>
    intro hs before m q hl
    cases hs with
    | nil => simp at hl
    | cons h hs =>
      obtain ⟨p, t⟩ := x
      have hk : (before ++ h :: hs)[before.length]? = some h := by simp
      rw [run]
      rw [place_eq _ _ _ _ _ _ _ _ hk (by cases m <;> simp)]
      have := ih hs (before ++ [h]) (m.map fun m => noted table h (q ++ p) m) q (by simpa using hl)
      cases m with
      | none => simp at this ⊢; simp [this]; omega
      | some m => simp at this ⊢; simp [this]; omega

theorem zip_mem {l l' : List (Pos × Value)} (hm : l.map (·.1) = l'.map (·.1))
    (hp : (l.map (·.1)).Pairwise Before) {p : Pos} {t t' : Value} (h : (p, t) ∈ l)
    (h' : (p, t') ∈ l') : ((p, t), (p, t')) ∈ l.zip l' := by
  induction l generalizing l' with
  | nil => cases h
  | cons x l ih =>
    cases l' with
    | nil => simp at hm
    | cons y l' =>
      simp only [List.map_cons, List.cons.injEq] at hm
      rw [List.map_cons, List.pairwise_cons] at hp
      rw [List.zip_cons_cons]
      have key : ∀ {q : Pos} {u : Value} {m : List (Pos × Value)}, (q, u) ∈ m →
          q ∈ m.map (·.1) := fun hu => List.mem_map.2 ⟨_, hu, rfl⟩
      rcases List.mem_cons.1 h with h | h <;> rcases List.mem_cons.1 h' with h' | h'
      · rw [← h, ← h']; simp
      · subst h
        exact absurd (hp.1 p (by rw [hm.2]; exact key h')) (Before.irrefl p)
      · subst h'
        have := hp.1 p (key h)
        rw [hm.1] at this
        exact absurd this (Before.irrefl p)
      · exact List.mem_cons_of_mem _ (ih hm.2 hp.2 h h')

theorem mem_zip {l l' : List (Pos × Value)} (hm : l.map (·.1) = l'.map (·.1))
    {x y : Pos × Value} (h : (x, y) ∈ l.zip l') : x ∈ l ∧ y ∈ l' ∧ x.1 = y.1 := by
  induction l generalizing l' with
  | nil => simp at h
  | cons a l ih =>
    cases l' with
    | nil => simp at h
    | cons b l' =>
      simp only [List.map_cons, List.cons.injEq] at hm
      rw [List.zip_cons_cons] at h
      rcases List.mem_cons.1 h with h | h
      · simp only [Prod.mk.injEq] at h
        rw [h.1, h.2]
        exact ⟨by simp, by simp, hm.1⟩
      · obtain ⟨h1, h2, h3⟩ := ih hm.2 h
        exact ⟨by simp [h1], by simp [h2], h3⟩

theorem placeAll_spec (S : Schema) (hash : Value → Nat) (table : List (Nat × Nat))
    (entities : List Value) (path : List Seg) (data data' : Value) (hw' : data'.WF)
    (hm : (targets S path data).map (·.1) = (targets S path data').map (·.1)) (m : Option ErrMap) :
    let r := placeAll S ((targets S path data).map fun x => hashOf hash x.2) table entities path data' m
    Patched data' r.1 (((targets S path data).zip (targets S path data')).map fun x =>
      (x.2.1, placed table entities (hashOf hash x.1.2) x.2.2)) ∧
    r.2 = m.map fun m => ((targets S path data).zip (targets S path data')).foldl
      (fun m x => noted table (hashOf hash x.1.2) x.2.1 m) m := by
  have hl : (targets S path data).length = (targets S path data').length := by
    have := congrArg List.length hm
    simpa using this
  have hg := edit_good S (place ((targets S path data).map fun x => hashOf hash x.2) table entities) path
    data' hw' (m.map fun _ => []) (0, m)
  have hr := run_place table entities (targets S path data')
    ((targets S path data).map fun x => hashOf hash x.2) [] m [] (by simpa using hl)
  rw [List.nil_append, List.length_nil] at hr
  rw [hr] at hg
  unfold placeAll
  simp only
  simp only [List.zip_map_left, List.map_map, List.foldl_map] at hg
  refine ⟨hg.2, ?_⟩
  rw [hg.1]
  rfl

/-! ## The error map -/

theorem lookup_push (m : ErrMap) (i : Nat) (p : Pos) (j : Nat) : (m.push i p).lookup j =
    if j = i then some ((m.lookup i).getD [] ++ [p]) else m.lookup j := by
  induction m with
  | nil =>
    by_cases h : j = i
    · simp [ErrMap.push, h]
    · simp [ErrMap.push, h]
  | cons x m ih =>
    obtain ⟨k, ps⟩ := x
    unfold ErrMap.push
    by_cases hk : k = i
    · subst hk
      by_cases h : j = k
      · simp [h]
      · have hb : (j == k) = false := by simp [h]
        simp [List.lookup_cons, h, hb]
    · rw [if_neg hk, List.lookup_cons, ih]
      have hk' : (i == k) = false := by simp; omega
      by_cases h : j = i
      · subst h; simp [List.lookup_cons, hk']
      · simp [List.lookup_cons, h]

/-- The positions noted for an index, in order. -/
theorem lookup_noted {α : Type} (table : List (Nat × Nat)) (H : α → Option Nat) (P : α → Pos)
    (l : List α) : ∀ (m : ErrMap) (i : Nat),
    (l.foldl (fun m x => noted table (H x) (P x) m) m).lookup i =
      let ps := (l.filter fun x => (H x).bind (List.lookup · table) == some i).map P
      if ps = [] then m.lookup i else some ((m.lookup i).getD [] ++ ps) := by
  induction l with
  | nil => intro m i; simp
  | cons x l ih =>
    intro m i
    rw [List.foldl_cons, ih]
    unfold noted
    cases hx : (H x).bind (List.lookup · table) with
    | none => simp [List.filter_cons, hx]
    | some j =>
      simp only [lookup_push, List.filter_cons, hx]
      by_cases hj : i = j
      · subst hj
        simp
      · have : (some j == some i) = false := by simp; omega
        simp [hj, this]

end Verif.Entities
