import Verif.Auth.TrieLemmas
import Verif.Auth.FilterLemmas

namespace Verif.Auth

/-! ## What the rebuilder sees of the trie -/

/-- From position `i` the trie spells out exactly the non-empty paths of `P`. -/
structure View (t : Trie) (i : Nat) (P : List Seg → Bool) : Prop where
  inv : t.Inv
  known : ∀ q, q ≠ [] → ((t.walk i q).isSome ↔ ∃ r, P (q ++ r) = true)
  marked : ∀ q j, q ≠ [] → t.walk i q = some j → (t.markedAt j = true ↔ P q = true)

theorem View.root (ps : List (List Seg)) :
    View (Trie.fromPaths ps) 0 (fun q => ps.contains q) := by
  have h := Trie.fromPaths_says ps
  refine ⟨h.inv, fun q hq => ?_, fun q j hq hw => ?_⟩
  · rw [h.known]
    simp only [hq, false_or, List.contains_iff_mem]
    constructor
    · rintro ⟨r, hr, s, rfl⟩; exact ⟨s, hr⟩
    · rintro ⟨r, hr⟩; exact ⟨_, hr, r, rfl⟩
  · rw [h.marked q j hw]; simp [hq]

theorem View.child {t : Trie} {i : Nat} {P : List Seg → Bool} (h : View t i P) {s : Seg} {j : Nat}
    (hc : t.child i s = some j) : View t j (fun q => P (s :: q)) := by
  have hw : ∀ q, t.walk i (s :: q) = t.walk j q := by intro q; simp [Trie.walk, hc]
  refine ⟨h.inv, fun q _ => ?_, fun q k _ hk => ?_⟩
  · rw [← hw]; exact h.known (s :: q) (by simp)
  · rw [← hw] at hk; exact h.marked (s :: q) k (by simp) hk

theorem View.find_none {t : Trie} {i : Nat} {P : List Seg → Bool} (h : View t i P) {s : Seg}
    (hf : t.find i s = none) (q : List Seg) : P (s :: q) = false := by
  simp only [Trie.find, Option.map_eq_none_iff] at hf
  cases hp : P (s :: q) with
  | false => rfl
  | true =>
    have := (h.known [s] (by simp)).2 ⟨q, by simpa using hp⟩
    simp [Trie.walk, hf] at this

theorem View.find_some {t : Trie} {i : Nat} {P : List Seg → Bool} (h : View t i P) {s : Seg}
    {j : Nat} {b : Bool} (hf : t.find i s = some (j, b)) :
    b = P [s] ∧ View t j (fun q => P (s :: q)) := by
  simp only [Trie.find, Option.map_eq_some_iff, Prod.mk.injEq] at hf
  obtain ⟨j', hc, rfl, hb⟩ := hf
  refine ⟨?_, h.child hc⟩
  have := h.marked [s] j' (by simp) (by simp [Trie.walk, hc])
  simp only [Trie.markedAt] at this
  rw [hb] at this
  exact Bool.eq_iff_iff.2 this

theorem View.hasChildren {t : Trie} {i : Nat} {P : List Seg → Bool} (h : View t i P)
    (hc : t.hasChildren i = false) (s : Seg) (q : List Seg) : P (s :: q) = false := by
  apply h.find_none
  simp only [Trie.hasChildren] at hc
  simp only [Trie.find, Trie.child]
  cases ht : t[i]? with
  | none => simp
  | some n =>
    rw [ht] at hc; simp at hc
    simp [hc]

/-! ## Soundness: nothing denied is left -/

section
variable {S : Schema} {vars : Vars}

theorem Requests.cons {p : String} {x : Sel} {rest : List Sel} {a b c : String} :
    Requests S vars p (x :: rest) a b c ↔
      Requests S vars p [x] a b c ∨ Requests S vars p rest a b c := by
  constructor
  · intro h
    cases h with
    | here h1 h2 h3 h4 =>
      rcases List.mem_cons.1 h1 with rfl | h1
      · exact Or.inl (.here (List.mem_singleton.2 rfl) h2 h3 h4)
      · exact Or.inr (.here h1 h2 h3 h4)
    | inField h1 h2 h3 h4 h5 =>
      rcases List.mem_cons.1 h1 with rfl | h1
      · exact Or.inl (.inField (List.mem_singleton.2 rfl) h2 h3 h4 h5)
      · exact Or.inr (.inField h1 h2 h3 h4 h5)
    | inFrag h1 h2 h3 =>
      rcases List.mem_cons.1 h1 with rfl | h1
      · exact Or.inl (.inFrag (List.mem_singleton.2 rfl) h2 h3)
      · exact Or.inr (.inFrag h1 h2 h3)
  · rintro (h | h)
    · cases h with
      | here h1 h2 h3 h4 => exact .here (List.mem_cons.2 (Or.inl (List.mem_singleton.1 h1))) h2 h3 h4
      | inField h1 h2 h3 h4 h5 =>
        exact .inField (List.mem_cons.2 (Or.inl (List.mem_singleton.1 h1))) h2 h3 h4 h5
      | inFrag h1 h2 h3 => exact .inFrag (List.mem_cons.2 (Or.inl (List.mem_singleton.1 h1))) h2 h3
    · cases h with
      | here h1 h2 h3 h4 => exact .here (List.mem_cons_of_mem _ h1) h2 h3 h4
      | inField h1 h2 h3 h4 h5 => exact .inField (List.mem_cons_of_mem _ h1) h2 h3 h4 h5
      | inFrag h1 h2 h3 => exact .inFrag (List.mem_cons_of_mem _ h1) h2 h3

theorem Requests.nil {p a b c : String} : ¬ Requests S vars p [] a b c := by
  intro h; cases h <;> simp_all

theorem Requests.field_iff {p : String} {f : FieldInfo} {s : List Sel} {a b c : String} :
    Requests S vars p [.field f s] a b c ↔ Live vars f.skipIf f.includeIf ∧
      f.name ≠ "__typename" ∧ ∃ info, S.field p f.name = some info ∧
        ((a = p ∧ b = f.name ∧ c = info.out) ∨ Requests S vars info.out s a b c) := by
  constructor
  · intro h
    cases h with
    | here h1 h2 h3 h4 =>
      simp at h1; obtain ⟨rfl, rfl⟩ := h1
      exact ⟨h2, h3, _, h4, Or.inl ⟨rfl, rfl, rfl⟩⟩
    | inField h1 h2 h3 h4 h5 =>
      simp at h1; obtain ⟨rfl, rfl⟩ := h1
      exact ⟨h2, h3, _, h4, Or.inr h5⟩
    | inFrag h1 => simp at h1
  · rintro ⟨h2, h3, info, h4, ⟨rfl, rfl, rfl⟩ | h5⟩
    · exact .here (List.mem_singleton.2 rfl) h2 h3 h4
    · exact .inField (List.mem_singleton.2 rfl) h2 h3 h4 h5

theorem Requests.frag_iff {p : String} {g : FragInfo} {s : List Sel} {a b c : String} :
    Requests S vars p [.frag g s] a b c ↔ Live vars g.skipIf g.includeIf ∧
      Requests S vars g.cond s a b c := by
  constructor
  · intro h
    cases h with
    | here h1 => simp at h1
    | inField h1 => simp at h1
    | inFrag h1 h2 h3 => simp at h1; obtain ⟨rfl, rfl⟩ := h1; exact ⟨h2, h3⟩
  · rintro ⟨h2, h3⟩; exact .inFrag (List.mem_singleton.2 rfl) h2 h3

/-- Selecting anything at all means selecting a field through fragments. -/
theorem Requests.ftf {p : String} {sels : List Sel} {a b c : String}
    (h : Requests S vars p sels a b c) : ∃ q, FieldThroughFragments sels q := by
  induction h with
  | here h1 => exact ⟨_, .here h1⟩
  | inField h1 => exact ⟨_, .here h1⟩
  | inFrag h1 _ _ ih => obtain ⟨q, hq⟩ := ih; exact ⟨_, .inFrag h1 hq⟩

variable {fieldOk : String → String → String → Prop} {fragOk : String → String → Prop}

theorem requests_ok_of_none_removed {p : String} {sels : List Sel} {a b c : String}
    (h : Requests S vars p sels a b c) (hn : ∀ q, ¬ Removed S vars fieldOk fragOk p sels q) :
    fieldOk a b c := by
  induction h with
  | here h1 h2 h3 h4 =>
    exact Classical.byContradiction fun e => hn _ (.denied h1 h2 h3 h4 e)
  | inField h1 h2 h3 h4 _ ih =>
    have hok := Classical.byContradiction fun e => hn _ (.denied h1 h2 h3 h4 e)
    exact ih fun q hq => hn _ (.inField h1 h2 h3 h4 hok hq)
  | inFrag h1 h2 h3 ih =>
    have hok := Classical.byContradiction fun e =>
      let ⟨q, hq⟩ := h3.ftf
      hn _ (.deniedFrag h1 h2 e hq)
    exact ih fun q hq => hn _ (.inFrag h1 h2 hok hq)

theorem rebuildItems_field (t : Trie) (i : Nat) (f : FieldInfo) (s rest : List Sel) :
    rebuildItems t i (.field f s :: rest) =
      match t.find i (.field f.key) with
      | none => (.field f s :: (rebuildItems t i rest).1,
          fieldVars f ++ selVars s ++ (rebuildItems t i rest).2)
      | some (j, nulled) =>
        if nulled then rebuildItems t i rest
        else if (rebuild t j s).1.isEmpty && !s.isEmpty then
          ((rebuildItems t i rest).1, (rebuild t j s).2 ++ (rebuildItems t i rest).2)
        else (.field f (rebuild t j s).1 :: (rebuildItems t i rest).1,
          fieldVars f ++ (rebuild t j s).2 ++ (rebuildItems t i rest).2) := by
  rw [rebuildItems]; rfl

theorem rebuildItems_frag (t : Trie) (i : Nat) (g : FragInfo) (s rest : List Sel) :
    rebuildItems t i (.frag g s :: rest) =
      match t.find i (.fragment g.cond) with
      | none => (.frag g s :: (rebuildItems t i rest).1,
          fragVars g ++ selVars s ++ (rebuildItems t i rest).2)
      | some (j, _) =>
        if (rebuild t j s).1.isEmpty && !s.isEmpty then
          ((rebuildItems t i rest).1, (rebuild t j s).2 ++ (rebuildItems t i rest).2)
        else (.frag g (rebuild t j s).1 :: (rebuildItems t i rest).1,
          fragVars g ++ (rebuild t j s).2 ++ (rebuildItems t i rest).2) := by
  rw [rebuildItems]; rfl

/-- `rebuild` either goes item by item or returns its input. -/
theorem rebuild_cases (t : Trie) (i : Nat) (s : List Sel) :
    (t.hasChildren i = true ∧ rebuild t i s = rebuildItems t i s) ∨
    (t.hasChildren i = false ∧ rebuild t i s = (s, selVars s)) := by
  unfold rebuild
  cases h : t.hasChildren i <;> simp

/-- If every field reachable through fragments is marked, nothing is left. -/
theorem rebuildItems_kills (t : Trie) (sels : List Sel) : ∀ (i : Nat) (P : List Seg → Bool),
    View t i P → (∀ q, FieldThroughFragments sels q → P q = true) →
    ∀ q, ¬ FieldThroughFragments (rebuildItems t i sels).1 q := by
  induction sels using Sels.ind with
  | nil => intro i P _ _ q h; simp [rebuildItems] at h; cases h <;> simp_all
  | spread n rest ih =>
    intro i P hv hP q h
    simp only [rebuildItems] at h
    exact ih i P hv (fun q hq => hP q (ftf_cons.2 (Or.inr hq))) q h
  | field f s rest _ ih =>
    intro i P hv hP q h
    have hrest := ih i P hv (fun q hq => hP q (ftf_cons.2 (Or.inr hq)))
    have hk : P [.field f.key] = true := hP _ (.here (List.mem_cons_self ..))
    simp only [rebuildItems_field] at h
    cases hf : t.find i (.field f.key) with
    | none => have := hv.find_none hf []; rw [hk] at this; simp at this
    | some jb =>
      obtain ⟨j, b⟩ := jb
      obtain ⟨rfl, _⟩ := hv.find_some hf
      simp only [hf, hk, if_true] at h
      exact hrest q h
  | frag g s rest ihs ih =>
    intro i P hv hP q h
    have hrest := ih i P hv (fun q hq => hP q (ftf_cons.2 (Or.inr hq)))
    have hs : ∀ q, FieldThroughFragments s q → P (.fragment g.cond :: q) = true :=
      fun q hq => hP _ (.inFrag (List.mem_cons_self ..) hq)
    simp only [rebuildItems_frag] at h
    cases hf : t.find i (.fragment g.cond) with
    | none =>
      simp only [hf] at h
      rcases ftf_cons.1 h with h | h
      · cases h with
        | here h1 => simp at h1
        | inFrag h1 h2 =>
          simp at h1; obtain ⟨rfl, rfl⟩ := h1
          have h3 := hs _ h2
          rw [hv.find_none hf] at h3; simp at h3
      · exact hrest q h
    | some jb =>
      obtain ⟨j, b⟩ := jb
      obtain ⟨_, hv'⟩ := hv.find_some hf
      simp only [hf] at h
      have hnone : ∀ q, ¬ FieldThroughFragments (rebuild t j s).1 q := by
        intro q hq
        rcases rebuild_cases t j s with ⟨_, he⟩ | ⟨hc, he⟩
        · rw [he] at hq; exact ihs j _ hv' hs q hq
        · rw [he] at hq
          have h1 := hs q hq
          have hq0 : ∃ a q', q = a :: q' := by
            cases hq with
            | here _ => exact ⟨_, _, rfl⟩
            | inFrag _ _ => exact ⟨_, _, rfl⟩
          obtain ⟨a, q', rfl⟩ := hq0
          have h2 := hv'.hasChildren hc a q'
          simp [h1] at h2
      cases he : ((rebuild t j s).1.isEmpty && !s.isEmpty) <;> simp only [he, if_true, Bool.false_eq_true, if_false] at h
      case true => exact hrest q h
      case false =>
        rcases ftf_cons.1 h with h | h
        · cases h with
          | here h1 => simp at h1
          | inFrag h1 h2 => simp at h1; obtain ⟨rfl, rfl⟩ := h1; exact hnone _ h2
        · exact hrest q h

theorem rebuild_kills (t : Trie) (s : List Sel) (j : Nat) (P : List Seg → Bool) (hv : View t j P)
    (hs : ∀ q, FieldThroughFragments s q → P q = true) (q : List Seg) :
    ¬ FieldThroughFragments (rebuild t j s).1 q := by
  intro hq
  rcases rebuild_cases t j s with ⟨_, he⟩ | ⟨hc, he⟩
  · rw [he] at hq; exact rebuildItems_kills t s j P hv hs q hq
  · rw [he] at hq
    have h1 := hs q hq
    have hq0 : ∃ a q', q = a :: q' := by
      cases hq with
      | here _ => exact ⟨_, _, rfl⟩
      | inFrag _ _ => exact ⟨_, _, rfl⟩
    obtain ⟨a, q', rfl⟩ := hq0
    have h2 := hv.hasChildren hc a q'
    simp [h1] at h2

theorem Removed.ne_nil {p : String} {sels : List Sel} {q : List Seg}
    (h : Removed S vars fieldOk fragOk p sels q) : ∃ s q', q = s :: q' := by
  cases h <;> exact ⟨_, _, rfl⟩

theorem rebuildItems_sound (t : Trie) (sels : List Sel) :
    ∀ (i : Nat) (P : List Seg → Bool) (p a b c : String), View t i P →
    (∀ q, Removed S vars fieldOk fragOk p sels q → P q = true) →
    Requests S vars p (rebuildItems t i sels).1 a b c → fieldOk a b c := by
  induction sels using Sels.ind with
  | nil => intro i P p a b c _ _ h; simp [rebuildItems] at h; exact absurd h Requests.nil
  | spread n rest ih =>
    intro i P p a b c hv hP h
    simp only [rebuildItems] at h
    exact ih i P p a b c hv (fun q hq => hP q (removed_cons.2 (Or.inr hq))) h
  | field f s rest ihs ih =>
    intro i P p a b c hv hP h
    have hrest := ih i P p a b c hv (fun q hq => hP q (removed_cons.2 (Or.inr hq)))
    have hthis : ∀ q, Removed S vars fieldOk fragOk p [.field f s] q → P q = true :=
      fun q hq => hP q (removed_cons.2 (Or.inl hq))
    simp only [rebuildItems_field] at h
    cases hf : t.find i (.field f.key) with
    | none =>
      simp only [hf] at h
      rcases Requests.cons.1 h with h | h
      · refine requests_ok_of_none_removed (fragOk := fragOk) h fun q hq => ?_
        have h1 := hthis q hq
        obtain ⟨_, _, info, _, h2⟩ := removed_field.1 hq
        have : ∃ q', q = .field f.key :: q' := by
          rcases h2 with ⟨rfl, _⟩ | ⟨_, q', rfl, _⟩
          · exact ⟨[], rfl⟩
          · exact ⟨q', rfl⟩
        obtain ⟨q', rfl⟩ := this
        rw [hv.find_none hf q'] at h1; simp at h1
      · exact hrest h
    | some jb =>
      obtain ⟨j, nulled⟩ := jb
      obtain ⟨rfl, hv'⟩ := hv.find_some hf
      simp only [hf] at h
      split at h
      · exact hrest h
      · rename_i hnn
        have hsub : ∀ s', Requests S vars p [.field f s'] a b c →
            (∀ info, S.field p f.name = some info → Requests S vars info.out s' a b c →
              Live vars f.skipIf f.includeIf → f.name ≠ "__typename" →
              fieldOk p f.name info.out → fieldOk a b c) → fieldOk a b c := by
          intro s' hr hk
          obtain ⟨h1, h2, info, h3, h4⟩ := Requests.field_iff.1 hr
          have hok : fieldOk p f.name info.out := by
            refine Classical.byContradiction fun e => hnn ?_
            exact hthis _ (removed_field.2 ⟨h1, h2, info, h3, Or.inl ⟨rfl, fun x => absurd x e⟩⟩)
          rcases h4 with ⟨rfl, rfl, rfl⟩ | h4
          · exact hok
          · exact hk info h3 h4 h1 h2 hok
        have hinner : Requests S vars p [.field f (rebuild t j s).1] a b c → fieldOk a b c := by
          intro hr
          refine hsub _ hr fun info h3 h4 h1 h2 hok => ?_
          have hPs : ∀ q, Removed S vars fieldOk fragOk info.out s q →
              P (.field f.key :: q) = true := fun q hq =>
            hthis _ (removed_field.2 ⟨h1, h2, info, h3, Or.inr ⟨hok, q, rfl, hq⟩⟩)
          rcases rebuild_cases t j s with ⟨_, he⟩ | ⟨hc, he⟩
          · rw [he] at h4; exact ihs j _ info.out a b c hv' hPs h4
          · rw [he] at h4
            refine requests_ok_of_none_removed (fragOk := fragOk) h4 fun q hq => ?_
            obtain ⟨x, q', rfl⟩ := hq.ne_nil
            have h1 := hPs _ hq
            have h2 := hv'.hasChildren hc x q'
            simp [h1] at h2
        cases he : ((rebuild t j s).1.isEmpty && !s.isEmpty) <;> simp only [he, if_true, Bool.false_eq_true, if_false] at h
        case true => exact hrest h
        case false =>
          rcases Requests.cons.1 h with h | h
          · exact hinner h
          · exact hrest h
  | frag g s rest ihs ih =>
    intro i P p a b c hv hP h
    have hrest := ih i P p a b c hv (fun q hq => hP q (removed_cons.2 (Or.inr hq)))
    have hthis : ∀ q, Removed S vars fieldOk fragOk p [.frag g s] q → P q = true :=
      fun q hq => hP q (removed_cons.2 (Or.inl hq))
    simp only [rebuildItems_frag] at h
    cases hf : t.find i (.fragment g.cond) with
    | none =>
      simp only [hf] at h
      rcases Requests.cons.1 h with h | h
      · refine requests_ok_of_none_removed (fragOk := fragOk) h fun q hq => ?_
        have h1 := hthis q hq
        obtain ⟨_, q', rfl, _⟩ := removed_frag.1 hq
        rw [hv.find_none hf q'] at h1; simp at h1
      · exact hrest h
    | some jb =>
      obtain ⟨j, nulled⟩ := jb
      obtain ⟨_, hv'⟩ := hv.find_some hf
      simp only [hf] at h
      have hinner : Requests S vars p [.frag g (rebuild t j s).1] a b c → fieldOk a b c := by
        intro hr
        obtain ⟨hl, hr⟩ := Requests.frag_iff.1 hr
        by_cases hok : fragOk g.cond p
        · have hPs : ∀ q, Removed S vars fieldOk fragOk g.cond s q →
              P (.fragment g.cond :: q) = true := fun q hq =>
            hthis _ (removed_frag.2 ⟨hl, q, rfl, Or.inl ⟨hok, hq⟩⟩)
          rcases rebuild_cases t j s with ⟨_, he⟩ | ⟨hc, he⟩
          · rw [he] at hr; exact ihs j _ g.cond a b c hv' hPs hr
          · rw [he] at hr
            refine requests_ok_of_none_removed (fragOk := fragOk) hr fun q hq => ?_
            obtain ⟨x, q', rfl⟩ := hq.ne_nil
            have h1 := hPs _ hq
            have h2 := hv'.hasChildren hc x q'
            simp [h1] at h2
        · obtain ⟨q, hq⟩ := hr.ftf
          exact absurd hq (rebuild_kills t s j _ hv' (fun q hq =>
            hthis _ (removed_frag.2 ⟨hl, q, rfl, Or.inr ⟨hok, hq⟩⟩)) q)
      cases he : ((rebuild t j s).1.isEmpty && !s.isEmpty) <;> simp only [he, if_true, Bool.false_eq_true, if_false] at h
      case true => exact hrest h
      case false =>
        rcases Requests.cons.1 h with h | h
        · exact hinner h
        · exact hrest h

theorem rebuild_sound (t : Trie) (sels : List Sel) {P : List Seg → Bool} {p a b c : String}
    (hv : View t 0 P) (hP : ∀ q, Removed S vars fieldOk fragOk p sels q → P q = true)
    (h : Requests S vars p (rebuild t 0 sels).1 a b c) : fieldOk a b c := by
  rcases rebuild_cases t 0 sels with ⟨_, he⟩ | ⟨hc, he⟩
  · rw [he] at h; exact rebuildItems_sound t sels 0 P p a b c hv hP h
  · rw [he] at h
    refine requests_ok_of_none_removed (fragOk := fragOk) h fun q hq => ?_
    obtain ⟨x, q', rfl⟩ := hq.ne_nil
    have h1 := hP _ hq
    have h2 := hv.hasChildren hc x q'
    simp [h1] at h2
end

/-! ## Completeness: exactly the marked leaves go -/

/-- Some non-empty prefix of the path is marked. -/
def blocked (P : List Seg → Bool) : List Seg → Bool
  | [] => false
  | s :: q => P [s] || blocked (fun r => P (s :: r)) q

theorem blocked_iff (P : List Seg → Bool) (q : List Seg) :
    blocked P q = true ↔ ∃ r, r ≠ [] ∧ r <+: q ∧ P r = true := by
  induction q generalizing P with
  | nil =>
    simp only [blocked, Bool.false_eq_true, List.prefix_nil, false_iff]
    rintro ⟨r, h1, h2, _⟩; exact h1 h2
  | cons s q ih =>
    simp only [blocked, Bool.or_eq_true, ih]
    constructor
    · rintro (h | ⟨r, _, h2, h3⟩)
      · exact ⟨[s], by simp, ⟨q, rfl⟩, h⟩
      · exact ⟨s :: r, by simp, List.cons_prefix_cons.2 ⟨rfl, h2⟩, h3⟩
    · rintro ⟨r, h1, h2, h3⟩
      cases r with
      | nil => exact absurd rfl h1
      | cons x r =>
        rw [List.cons_prefix_cons] at h2
        obtain ⟨rfl, h2⟩ := h2
        by_cases hr : r = []
        · subst hr; exact Or.inl h3
        · exact Or.inr ⟨r, hr, h2, h3⟩

theorem blocked_of_none {P : List Seg → Bool} (h : ∀ q, P q = false) (q : List Seg) :
    blocked P q = false := by
  cases hb : blocked P q with
  | false => rfl
  | true => obtain ⟨r, _, _, h3⟩ := (blocked_iff P q).1 hb; simp [h] at h3

theorem blocked_of_none' {P : List Seg → Bool} (h : ∀ s q, P (s :: q) = false) (q : List Seg) :
    blocked P q = false := by
  cases hb : blocked P q with
  | false => rfl
  | true =>
    obtain ⟨r, h1, _, h3⟩ := (blocked_iff P q).1 hb
    cases r with
    | nil => exact absurd rfl h1
    | cons x r => simp [h] at h3

def keepLeaf (P : List Seg → Bool) (c : List Anc) : Bool := !blocked P (c.map Anc.seg)

theorem filter_map_cons (P : List Seg → Bool) (a : Anc) (l : List (List Anc))
    (h : P [a.seg] = false) :
    (l.map (a :: ·)).filter (keepLeaf P) =
      (l.filter (keepLeaf fun q => P (a.seg :: q))).map (a :: ·) := by
  rw [List.filter_map]
  congr 1
  apply List.filter_congr
  intro c _
  simp [keepLeaf, blocked, h]

theorem filter_map_cons_none (P : List Seg → Bool) (a : Anc) (l : List (List Anc))
    (h : P [a.seg] = true) : (l.map (a :: ·)).filter (keepLeaf P) = [] := by
  rw [List.filter_eq_nil_iff]
  intro c hc
  obtain ⟨c', _, rfl⟩ := List.mem_map.1 hc
  simp [keepLeaf, blocked, h]

theorem filter_keep_all {P : List Seg → Bool} (h : ∀ s q, P (s :: q) = false)
    (l : List (List Anc)) : l.filter (keepLeaf P) = l := by
  rw [List.filter_eq_self]
  intro c _
  simp [keepLeaf, blocked_of_none' h]

/-- A fragment segment is never itself marked. -/
def NoFragMarks (P : List Seg → Bool) : Prop := ∀ q t, P (q ++ [.fragment t]) = false

theorem NoFragMarks.sub {P : List Seg → Bool} (h : NoFragMarks P) (s : Seg) :
    NoFragMarks fun q => P (s :: q) := fun q t => h (s :: q) t

theorem leaves_field_cons (f : FieldInfo) (s rest : List Sel) (h : s ≠ []) :
    leaves (.field f s :: rest) = (leaves s).map (.field f :: ·) ++ leaves rest := by
  cases s with
  | nil => exact absurd rfl h
  | cons x xs => rw [leaves]

theorem rebuildItems_leaves (t : Trie) (sels : List Sel) : ∀ (i : Nat) (P : List Seg → Bool),
    View t i P → NoFragMarks P →
    leaves (rebuildItems t i sels).1 = (leaves sels).filter (keepLeaf P) := by
  induction sels using Sels.ind with
  | nil => intro i P _ _; simp [rebuildItems, leaves]
  | spread n rest ih => intro i P hv hm; simp only [rebuildItems, leaves]; exact ih i P hv hm
  | field f s rest ihs ih =>
    intro i P hv hm
    have hrest := ih i P hv hm
    simp only [rebuildItems_field]
    cases hf : t.find i (.field f.key) with
    | none =>
      have hnone := hv.find_none hf
      simp only
      by_cases hs : s = []
      · subst hs
        simp only [leaves, List.filter_cons]
        rw [hrest]
        have : keepLeaf P [.field f] = true := by
          simp [keepLeaf, blocked, Anc.seg, hnone]
        simp [this]
      · rw [leaves_field_cons _ _ _ hs, leaves_field_cons _ _ _ hs, List.filter_append,
          filter_map_cons P _ _ (by simpa [Anc.seg] using hnone []), hrest]
        simp only [Anc.seg]
        rw [filter_keep_all (P := fun q => P (.field f.key :: q)) (fun s q => hnone (s :: q))]
    | some jb =>
      obtain ⟨j, nulled⟩ := jb
      obtain ⟨hb, hv'⟩ := hv.find_some hf

      have hrs : leaves (rebuild t j s).1 =
          (leaves s).filter (keepLeaf fun q => P (.field f.key :: q)) := by
        rcases rebuild_cases t j s with ⟨_, he⟩ | ⟨hc, he⟩
        · rw [he]; exact ihs j _ hv' (hm.sub _)
        · rw [he, filter_keep_all (hv'.hasChildren hc)]
      cases nulled with
      | true =>
        simp only [if_true]
        by_cases hs : s = []
        · subst hs
          simp only [leaves, List.filter_cons]
          have : keepLeaf P [.field f] = false := by simp [keepLeaf, blocked, Anc.seg, ← hb]
          simp [this, hrest]
        · rw [leaves_field_cons _ _ _ hs, List.filter_append,
            filter_map_cons_none P _ _ (by simpa [Anc.seg] using hb.symm), hrest]
          simp
      | false =>
        simp only [Bool.false_eq_true, if_false]
        by_cases hs : s = []
        · subst hs
          have hempty : (rebuild t j []).1 = [] := by
            rcases rebuild_cases t j [] with ⟨_, he⟩ | ⟨_, he⟩
            · rw [he]; simp [rebuildItems]
            · rw [he]
          simp only [hempty, List.isEmpty_nil, Bool.not_true, Bool.and_false, Bool.false_eq_true,
            if_false, leaves, List.filter_cons]
          have : keepLeaf P [.field f] = true := by simp [keepLeaf, blocked, Anc.seg, ← hb]
          simp [this, hrest]
        · rw [leaves_field_cons _ _ _ hs, List.filter_append,
            filter_map_cons P _ _ (by simpa [Anc.seg] using hb.symm)]
          simp only [Anc.seg]
          rw [← hrs]
          by_cases hs' : (rebuild t j s).1 = []
          · simp [hs', hs, leaves, hrest]
          · have hie : (rebuild t j s).1.isEmpty = false := by
              cases h : (rebuild t j s).1 with
              | nil => exact absurd h hs'
              | cons => rfl
            simp only [hie, Bool.false_and, Bool.false_eq_true, if_false]
            rw [leaves_field_cons _ _ _ hs', hrest]
  | frag g s rest ihs ih =>
    intro i P hv hm
    have hrest := ih i P hv hm
    have hmk : P [.fragment g.cond] = false := hm [] g.cond
    simp only [rebuildItems_frag]
    cases hf : t.find i (.fragment g.cond) with
    | none =>
      have hnone := hv.find_none hf
      simp only [leaves, List.filter_append]
      rw [filter_map_cons P _ _ (by simpa [Anc.seg] using hmk), hrest]
      simp only [Anc.seg]
      rw [filter_keep_all (P := fun q => P (.fragment g.cond :: q)) (fun s q => hnone (s :: q))]
    | some jb =>
      obtain ⟨j, nulled⟩ := jb
      obtain ⟨_, hv'⟩ := hv.find_some hf

      have hrs : leaves (rebuild t j s).1 =
          (leaves s).filter (keepLeaf fun q => P (.fragment g.cond :: q)) := by
        rcases rebuild_cases t j s with ⟨_, he⟩ | ⟨hc, he⟩
        · rw [he]; exact ihs j _ hv' (hm.sub _)
        · rw [he, filter_keep_all (hv'.hasChildren hc)]
      simp only [leaves, List.filter_append]
      rw [filter_map_cons P _ _ (by simpa [Anc.seg] using hmk)]
      simp only [Anc.seg]
      rw [← hrs]
      by_cases h : ((rebuild t j s).1.isEmpty && !s.isEmpty) = true
      · simp only [h, if_true]
        simp at h
        simp [h.1, leaves, hrest]
      · simp only [h, if_false, leaves, Bool.false_eq_true]; rw [hrest]

theorem rebuild_leaves (t : Trie) (sels : List Sel) {P : List Seg → Bool} (hv : View t 0 P)
    (hm : NoFragMarks P) : leaves (rebuild t 0 sels).1 = (leaves sels).filter (keepLeaf P) := by
  rcases rebuild_cases t 0 sels with ⟨_, he⟩ | ⟨hc, he⟩
  · rw [he]; exact rebuildItems_leaves t sels 0 P hv hm
  · rw [he, filter_keep_all (hv.hasChildren hc)]

theorem Removed.no_frag {S : Schema} {vars : Vars} {fieldOk : String → String → String → Prop}
    {fragOk : String → String → Prop} {p : String} {sels : List Sel} {q : List Seg}
    (h : Removed S vars fieldOk fragOk p sels q) : ∃ r k, q = r ++ [.field k] := by
  have ftf : ∀ {s : List Sel} {q : List Seg}, FieldThroughFragments s q →
      ∃ r k, q = r ++ [.field k] := by
    intro s q h
    induction h with
    | here _ => exact ⟨[], _, rfl⟩
    | inFrag _ _ ih => obtain ⟨r, k, rfl⟩ := ih; exact ⟨_ :: r, k, rfl⟩
  induction h with
  | denied => exact ⟨[], _, rfl⟩
  | bubbled => exact ⟨[], _, rfl⟩
  | inField _ _ _ _ _ _ ih => obtain ⟨r, k, rfl⟩ := ih; exact ⟨_ :: r, k, rfl⟩
  | inFrag _ _ _ _ ih => obtain ⟨r, k, rfl⟩ := ih; exact ⟨_ :: r, k, rfl⟩
  | deniedFrag _ _ _ h => obtain ⟨r, k, rfl⟩ := ftf h; exact ⟨_ :: r, k, rfl⟩

/-! ## Variables -/

theorem selVars_rebuildItems (t : Trie) (sels : List Sel) : ∀ (i : Nat) (x : String),
    x ∈ selVars (rebuildItems t i sels).1 → x ∈ (rebuildItems t i sels).2 := by
  induction sels using Sels.ind with
  | nil => intro i x h; simp [rebuildItems, selVars] at h
  | spread n rest ih => intro i x h; simp only [rebuildItems] at h ⊢; exact ih i x h
  | field f s rest ihs ih =>
    intro i x h
    have hsub : ∀ j, x ∈ selVars (rebuild t j s).1 → x ∈ (rebuild t j s).2 := by
      intro j hx
      rcases rebuild_cases t j s with ⟨_, he⟩ | ⟨_, he⟩
      · rw [he] at hx ⊢; exact ihs j x hx
      · rw [he] at hx ⊢; exact hx
    simp only [rebuildItems_field] at h ⊢
    cases hf : t.find i (.field f.key) with
    | none =>
      simp only [hf, selVars, List.mem_append] at h ⊢
      rcases h with h | h
      · exact Or.inl h
      · exact Or.inr (ih i x h)
    | some jb =>
      obtain ⟨j, b⟩ := jb
      simp only [hf] at h ⊢
      cases b
      case true => simp only [if_true] at h ⊢; exact ih i x h
      case false =>
        cases he : ((rebuild t j s).1.isEmpty && !s.isEmpty) <;>
          simp only [he, Bool.false_eq_true, if_false, if_true, selVars, List.mem_append] at h ⊢
        case true => exact Or.inr (ih i x h)
        case false =>
          rcases h with (h | h) | h
          · exact Or.inl (Or.inl h)
          · exact Or.inl (Or.inr (hsub j h))
          · exact Or.inr (ih i x h)
  | frag g s rest ihs ih =>
    intro i x h
    have hsub : ∀ j, x ∈ selVars (rebuild t j s).1 → x ∈ (rebuild t j s).2 := by
      intro j hx
      rcases rebuild_cases t j s with ⟨_, he⟩ | ⟨_, he⟩
      · rw [he] at hx ⊢; exact ihs j x hx
      · rw [he] at hx ⊢; exact hx
    simp only [rebuildItems_frag] at h ⊢
    cases hf : t.find i (.fragment g.cond) with
    | none =>
      simp only [hf, selVars, List.mem_append] at h ⊢
      rcases h with h | h
      · exact Or.inl h
      · exact Or.inr (ih i x h)
    | some jb =>
      obtain ⟨j, b⟩ := jb
      simp only [hf] at h ⊢
      cases he : ((rebuild t j s).1.isEmpty && !s.isEmpty) <;>
        simp only [he, Bool.false_eq_true, if_false, if_true, selVars, List.mem_append] at h ⊢
      case true => exact Or.inr (ih i x h)
      case false =>
        rcases h with (h | h) | h
        · exact Or.inl (Or.inl h)
        · exact Or.inl (Or.inr (hsub j h))
        · exact Or.inr (ih i x h)

theorem selVars_rebuild (t : Trie) (i : Nat) (sels : List Sel) (x : String)
    (h : x ∈ selVars (rebuild t i sels).1) : x ∈ (rebuild t i sels).2 := by
  rcases rebuild_cases t i sels with ⟨_, he⟩ | ⟨_, he⟩
  · rw [he] at h ⊢; exact selVars_rebuildItems t sels i x h
  · rw [he] at h ⊢; exact h

theorem selVars_mem_field {f : FieldInfo} {s sels : List Sel} (h : Sel.field f s ∈ sels)
    {x : String} (hx : x ∈ fieldVars f ∨ x ∈ selVars s) : x ∈ selVars sels := by
  induction sels with
  | nil => simp at h
  | cons y rest ih =>
    rcases List.mem_cons.1 h with rfl | h
    · simp only [selVars, List.mem_append]; exact Or.inl hx
    · have := ih h
      cases y <;> simp only [selVars, List.mem_append]
      · exact Or.inr this
      · exact Or.inr this
      · exact this

theorem selVars_mem_frag {g : FragInfo} {s sels : List Sel} (h : Sel.frag g s ∈ sels)
    {x : String} (hx : x ∈ fragVars g ∨ x ∈ selVars s) : x ∈ selVars sels := by
  induction sels with
  | nil => simp at h
  | cons y rest ih =>
    rcases List.mem_cons.1 h with rfl | h
    · simp only [selVars, List.mem_append]; exact Or.inl hx
    · have := ih h
      cases y <;> simp only [selVars, List.mem_append]
      · exact Or.inr this
      · exact Or.inr this
      · exact this

theorem mentions_selVars {sels : List Sel} {x : String} (h : Mentions sels x) :
    x ∈ selVars sels := by
  induction h with
  | arg h1 h2 h3 h4 =>
    refine selVars_mem_field h1 (Or.inl ?_)
    simp only [fieldVars, List.mem_append, h2, Option.getD_some]
    exact Or.inl (Or.inl (List.mem_flatMap.2 ⟨_, h3, h4⟩))
  | skip h1 h2 => exact selVars_mem_field h1 (Or.inl (by simp [fieldVars, h2]))
  | incl h1 h2 => exact selVars_mem_field h1 (Or.inl (by simp [fieldVars, h2]))
  | fragSkip h1 h2 => exact selVars_mem_frag h1 (Or.inl (by simp [fragVars, h2]))
  | fragIncl h1 h2 => exact selVars_mem_frag h1 (Or.inl (by simp [fragVars, h2]))
  | inField h1 _ ih => exact selVars_mem_field h1 (Or.inr ih)
  | inFrag h1 _ ih => exact selVars_mem_frag h1 (Or.inr ih)

end Verif.Auth
