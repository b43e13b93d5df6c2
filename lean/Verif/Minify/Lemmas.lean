import Verif.Minify.Spec
/-!
# Lemmas about minification
-/
namespace Verif.Minify
open Verif Verif.Keys

/-! ## Same selections -/

/-- The number of selections. -/
def size : List Sel → Nat
  | [] => 0
  | .field _ s :: r => 1 + size s + size r
  | .frag _ s :: r => 1 + size s + size r
  | .spread _ :: r => 1 + size r

theorem same_refl : ∀ s : List Sel, Same s s :=
  Sels.ind .nil (fun _ _ _ h1 h2 => .field h1 h2) (fun _ _ _ h1 h2 => .frag h1 h2) (fun _ _ h => .spread h)

theorem same_size {a b : List Sel} (h : Same a b) : size a = size b := by
  induction h with
  | nil => rfl
  | field _ _ h1 h2 => simp only [size, h1, h2]
  | frag _ _ h1 h2 => simp only [size, h1, h2]
  | spread _ h => simp only [size, h]
  | @swap x y r => cases x <;> cases y <;> simp only [size] <;> omega
  | trans _ _ h1 h2 => exact h1.trans h2

theorem same_symm {a b : List Sel} (h : Same a b) : Same b a := by
  induction h with
  | nil => exact .nil
  | field _ _ h1 h2 => exact .field h1 h2
  | frag _ _ h1 h2 => exact .frag h1 h2
  | spread _ h => exact .spread h
  | swap => exact .swap
  | trans _ _ h1 h2 => exact .trans h2 h1

theorem size_zero : ∀ {s : List Sel}, size s = 0 → s = []
  | [], _ => rfl
  | x :: r, h => by cases x <;> simp only [size] at h <;> omega

theorem same_nil {s : List Sel} (h : Same s []) : s = [] := size_zero (by simpa [size] using same_size h)

theorem size_mem_field {f : FieldInfo} {sub : List Sel} : ∀ {items : List Sel}, Sel.field f sub ∈ items →
    size sub < size items
  | x :: r, h => by
    rcases List.mem_cons.1 h with rfl | h
    · simp only [size]; omega
    · have := size_mem_field h
      cases x <;> simp only [size] <;> omega

theorem size_mem_frag {g : FragInfo} {sub : List Sel} : ∀ {items : List Sel}, Sel.frag g sub ∈ items →
    size sub < size items
  | x :: r, h => by
    rcases List.mem_cons.1 h with rfl | h
    · simp only [size]; omega
    · have := size_mem_frag h
      cases x <;> simp only [size] <;> omega

theorem child_size {S : Schema} {t u : String} {items s : List Sel} (h : Child S t items u s) :
    size s < size items := by
  cases h with
  | field h _ _ _ => exact size_mem_field h
  | frag h => exact size_mem_frag h
  | entities h _ _ h2 => exact Nat.lt_trans (size_mem_frag h2) (size_mem_field h)

theorem child_mono {S : Schema} {t u : String} {x : Sel} {r s : List Sel} (h : Child S t r u s) :
    Child S t (x :: r) u s := by
  cases h with
  | field a b c d => exact .field (List.mem_cons_of_mem _ a) b c d
  | frag a => exact .frag (List.mem_cons_of_mem _ a)
  | entities a b c d => exact .entities (List.mem_cons_of_mem _ a) b c d

theorem part_size {S : Schema} {t u : String} {items s : List Sel} (h : Part S t items u s) :
    (u = t ∧ s = items) ∨ size s < size items := by
  induction h with
  | refl => exact .inl ⟨rfl, rfl⟩
  | step _ hc ih =>
    right
    have := child_size hc
    rcases ih with ⟨_, rfl⟩ | h
    · exact this
    · omega

/-! ## Expanding -/

theorem expands_mono {S : Schema} {D D' : List Frag} (h : ∀ x ∈ D, x ∈ D') {t : String} {a b : List Sel}
    (e : Expands S D t a b) : Expands S D' t a b := by
  induction e with
  | nil => exact .nil
  | intro a _ h1 => exact .intro a h1
  | field a b _ _ h1 h2 => exact .field a b h1 h2
  | frag _ _ h1 h2 => exact .frag h1 h2
  | spread a b c _ _ h1 h2 => exact .spread (h _ a) b c h1 h2

theorem expands_nil {S : Schema} {D : List Frag} {t : String} {a b : List Sel} (e : Expands S D t a b) :
    a = [] ↔ b = [] := by
  induction e with
  | nil => simp
  | intro => simp
  | field => simp
  | frag => simp
  | spread _ _ hne _ _ h1 _ =>
    simp only [List.cons_ne_nil, false_iff, List.append_eq_nil_iff, not_and]
    intro h; exact absurd (h1.2 h) hne

theorem names_inj {a b : Frag} : ∀ {D : List Frag}, (D.map Frag.name).Nodup → a ∈ D → b ∈ D →
    a.name = b.name → a = b
  | d :: D, hn, ha, hb, h => by
    rw [List.map_cons, List.nodup_cons] at hn
    rcases List.mem_cons.1 ha with h1 | ha' <;> rcases List.mem_cons.1 hb with h2 | hb'
    · rw [h1, h2]
    · subst h1; exact absurd (List.mem_map.2 ⟨b, hb', h.symm⟩) hn.1
    · subst h2; exact absurd (List.mem_map.2 ⟨a, ha', h⟩) hn.1
    · exact names_inj hn.2 ha' hb' h

theorem expands_unique {S : Schema} {D : List Frag} (hn : (D.map Frag.name).Nodup) {t : String}
    {a b c : List Sel} (e : Expands S D t a b) (e' : Expands S D t a c) : b = c := by
  induction e generalizing c with
  | nil => cases e'; rfl
  | intro h _ ih =>
    cases e' with
    | intro _ e => rw [ih e]
    | field h' => rw [h] at h'; cases h'
  | field h hu _ _ ih1 ih2 =>
    cases e' with
    | intro h' _ => rw [h] at h'; cases h'
    | field _ hu' e1 e2 =>
      rw [hu] at hu'
      cases hu'
      rw [ih1 e1, ih2 e2]
  | frag _ _ ih1 ih2 =>
    cases e' with
    | frag e1 e2 => rw [ih1 e1, ih2 e2]
  | @spread t fr items' r r' hm ht _ _ _ ih1 ih2 =>
    generalize hs : Sel.spread fr.name :: r = l at e'
    cases e' with
    | nil => cases hs
    | intro => cases hs
    | field => cases hs
    | frag => cases hs
    | @spread _ fr' _ _ _ hm' ht' _ e1 e2 =>
      obtain ⟨h1, rfl⟩ := List.cons.inj hs
      have h1 := (Sel.spread.injEq _ _).mp h1
      have : fr = fr' := names_inj hn hm hm' h1
      subst this
      rw [ih1 e1, ih2 e2]

/-! ## Names -/

theorem alphabet_inj : ∀ a < 52, ∀ b < 52, alphabet.getD a 'a' = alphabet.getD b 'a' → a = b := by
  decide +kernel

theorem digits_inj : ∀ (n m i j : Nat), i ≤ n → j ≤ m → digits n i = digits m j → i = j
  | 0, m, i, j, hi, hj, h => by
    have : i = 0 := by omega
    subst this
    cases m with
    | zero => omega
    | succ m =>
      simp only [digits] at h
      split at h
      · next h' => exact h'.symm
      · cases h
  | n + 1, 0, i, j, hi, hj, h => by
    have : j = 0 := by omega
    subst this
    simp only [digits] at h
    split at h
    · next h' => exact h'
    · cases h
  | n + 1, m + 1, i, j, hi, hj, h => by
    simp only [digits] at h
    split at h
    · next h1 =>
      split at h
      · next h2 => rw [h1, h2]
      · cases h
    · split at h
      · cases h
      · obtain ⟨h1, h2⟩ := List.cons.inj h
        have e1 := alphabet_inj _ (Nat.mod_lt _ (by omega)) _ (Nat.mod_lt _ (by omega)) h1
        have e2 := digits_inj n m (i / 52) (j / 52) (by omega) (by omega) h2
        omega

theorem digits_length {n i : Nat} (h : i ≤ n) (hi : 52 ≤ i) : 2 ≤ (digits n i).length := by
  match n with
  | 0 => omega
  | 1 => omega
  | n + 2 =>
    simp only [digits]
    rw [if_neg (by omega), if_neg (by omega)]
    simp

theorem fragName_inj {i j : Nat} (h : fragName i = fragName j) : i = j := by
  unfold fragName at h
  split at h <;> split at h <;> rw [String.ofList_inj] at h
  · next h1 h2 => exact alphabet_inj _ h1 _ h2 (List.cons.inj h).1
  · next h1 h2 =>
    have := digits_length (Nat.le_refl j) (by omega)
    rw [← h] at this
    simp at this
  · next h1 h2 =>
    have := digits_length (Nat.le_refl i) (by omega)
    rw [h] at this
    simp at this
  · exact digits_inj i j i j (Nat.le_refl _) (Nat.le_refl _) h

/-! ## Counting -/

/-- Valid below `_entities`. -/
def OkEntities (S : Schema) (sub : List Sel) : Prop :=
  (∀ h s, Sel.field h s ∈ sub → introspection h = true) ∧ Valid S "_Entity" sub

/-- What was added to the count comes from sets of the operation. -/
def Added (H : Hashers) (P : String → List Sel → Prop) (n : Nat) (added : List Nat) : Prop :=
  ∀ i ∈ added, ∃ u s, P u s ∧ s ≠ [] ∧ selId H u s = i ∧ size s < n

theorem Added.append {H : Hashers} {P : String → List Sel → Prop} {n : Nat} {a b : List Nat}
    (h1 : Added H P n a) (h2 : Added H P n b) : Added H P n (a ++ b) := by
  intro i hi
  rcases List.mem_append.1 hi with h | h
  · exact h1 i h
  · exact h2 i h

theorem Added.mono {H : Hashers} {P : String → List Sel → Prop} {n m : Nat} {a : List Nat}
    (h1 : Added H P n a) (h : n ≤ m) : Added H P m a := by
  intro i hi
  obtain ⟨u, s, a, b, c, d⟩ := h1 i hi
  exact ⟨u, s, a, b, c, by omega⟩

theorem enter_spec {H : Hashers} {S : Schema} {P : String → List Sel → Prop} {t : String} {items : List Sel}
    {k : List (String × String) → List Nat → Except Err (List Nat)}
    (hp : P t items) (hd : items = [] ∨ (S.defs.lookup t).isSome)
    (hk : ∀ fields, S.defs.lookup t = some fields → ∀ seen, ∃ added, k fields seen = .ok (added ++ seen) ∧
      Added H P (size items) added) (seen : List Nat) :
    ∃ added, enter H S t items k seen = .ok (added ++ seen) ∧ Added H P (size items + 1) added := by
  unfold enter
  split
  · exact ⟨[], rfl, fun i hi => absurd hi List.not_mem_nil⟩
  · next hne =>
    have hne : items ≠ [] := fun e => hne (by rw [e]; rfl)
    have hone : Added H P (size items + 1) [selId H t items] := by
      intro i hi
      rw [List.mem_singleton] at hi
      exact ⟨t, items, hp, hne, hi.symm, by omega⟩
    simp only
    split
    · exact ⟨[selId H t items], rfl, hone⟩
    · rcases hd with h | h
      · exact absurd h hne
      · obtain ⟨fields, hf⟩ := Option.isSome_iff_exists.1 h
        obtain ⟨added, h1, h2⟩ := hk fields hf (selId H t items :: seen)
        refine ⟨added ++ [selId H t items], ?_, (h2.mono (by omega)).append hone⟩
        rw [hf]
        simp only [h1, List.append_assoc, List.singleton_append]

theorem walk_spec {H : Hashers} {S : Schema} {P : String → List Sel → Prop}
    (hP : ∀ u s v w, P u s → Child S u s v w → P v w) : ∀ items : List Sel,
    (∀ t fields seen, Valid S t items → S.defs.lookup t = some fields → (∀ u s, Child S t items u s → P u s) →
      ∃ added, walkItems H S fields items seen = .ok (added ++ seen) ∧ Added H P (size items) added) ∧
    (∀ seen, OkEntities S items → (∀ g s, Sel.frag g s ∈ items → P g.cond s) →
      ∃ added, walkEntities H S items seen = .ok (added ++ seen) ∧ Added H P (size items) added) := by
  refine Sels.ind ?_ ?_ ?_ ?_
  · refine ⟨fun t fields seen _ _ _ => ⟨[], by simp [walkItems], fun i hi => absurd hi List.not_mem_nil⟩,
      fun seen _ _ => ⟨[], by simp [walkEntities], fun i hi => absurd hi List.not_mem_nil⟩⟩
  · intro f sub r ihs ihr
    refine ⟨fun t fields seen hv hf hc => ?_, fun seen hv hc => ?_⟩
    · have hr := fun seen (hv : Valid S t r) => ihr.1 t fields seen hv hf (fun u s h => hc u s (child_mono h))
      generalize hx : Sel.field f sub :: r = l at hv
      cases hv with
      | nil => cases hx
      | frag => cases hx
      | intro hi hv =>
        cases hx
        obtain ⟨added, h1, h2⟩ := hr seen hv
        exact ⟨added, by rw [walkItems, if_pos hi, h1], h2.mono (by simp only [size]; omega)⟩
      | @field _ u _ _ _ hi hne hu hs hv1 hv2 =>
        cases hx
        obtain ⟨fs, e1, e2⟩ := hu
        rw [hf] at e1
        cases e1
        have hfu : fieldType S t f = some u := by rw [fieldType, if_neg hne, hf]; exact e2
        have hpu : P u sub := hc u sub (.field (List.mem_cons_self ..) hi hne hfu)
        obtain ⟨a1, h1, h1'⟩ := enter_spec (H := H) hpu hs
          (k := fun fs seen => walkItems H S fs sub seen) (fun fields' hf' seen =>
            ihs.1 u fields' seen hv1 hf' (fun v w h => hP _ _ _ _ hpu h)) seen
        obtain ⟨a2, h2, h2'⟩ := hr (a1 ++ seen) hv2
        refine ⟨a2 ++ a1, ?_, (h2'.mono (by simp only [size]; omega)).append (h1'.mono (by simp only [size]; omega))⟩
        rw [walkItems, if_neg (by simp [hi]), if_neg hne]
        simp only [e2, h1, h2, List.append_assoc]
      | entities hi hne he hve hv2 =>
        cases hx
        obtain ⟨a1, h1, h1'⟩ := ihs.2 seen ⟨he, hve⟩ (fun g s h =>
          hc _ _ (.entities (List.mem_cons_self ..) hi hne h))
        obtain ⟨a2, h2, h2'⟩ := hr (a1 ++ seen) hv2
        refine ⟨a2 ++ a1, ?_, (h2'.mono (by simp only [size]; omega)).append (h1'.mono (by simp only [size]; omega))⟩
        rw [walkItems, if_neg (by simp [hi]), if_pos hne]
        simp only [h1, h2, List.append_assoc]
    · have hi := hv.1 f sub (List.mem_cons_self ..)
      have hv' : OkEntities S r := by
        refine ⟨fun h s hm => hv.1 h s (List.mem_cons_of_mem _ hm), ?_⟩
        have h2 := hv.2
        generalize hx : Sel.field f sub :: r = l at h2
        cases h2 with
        | nil => cases hx
        | frag => cases hx
        | intro _ h => cases hx; exact h
        | field _ _ _ _ _ h => cases hx; exact h
        | entities _ _ _ _ h => cases hx; exact h
      obtain ⟨added, h1, h2⟩ := ihr.2 seen hv' (fun g s h => hc g s (List.mem_cons_of_mem _ h))
      exact ⟨added, by rw [walkEntities, if_pos hi, h1], h2.mono (by simp only [size]; omega)⟩
  · intro g sub r ihs ihr
    have key : ∀ (t : String) (seen : List Nat), Valid S t (.frag g sub :: r) → P g.cond sub →
        (Valid S t r ∧ ∃ added, enter H S g.cond sub (fun fs seen => walkItems H S fs sub seen) seen
          = .ok (added ++ seen) ∧ Added H P (size sub + 1) added) := by
      intro t seen hv hp
      generalize hx : Sel.frag g sub :: r = l at hv
      cases hv with
      | nil => cases hx
      | intro => cases hx
      | field => cases hx
      | entities => cases hx
      | frag hs h1 h2 =>
        cases hx
        exact ⟨h2, enter_spec hp hs (fun fields hf seen =>
          ihs.1 _ fields seen h1 hf (fun v w h => hP _ _ _ _ hp h)) seen⟩
    refine ⟨fun t fields seen hv hf hc => ?_, fun seen hv hc => ?_⟩
    · obtain ⟨hvr, a1, h1, h1'⟩ := key t seen hv (hc _ _ (.frag (List.mem_cons_self ..)))
      obtain ⟨a2, h2, h2'⟩ := ihr.1 t fields (a1 ++ seen) hvr hf (fun u s h => hc u s (child_mono h))
      refine ⟨a2 ++ a1, ?_, (h2'.mono (by simp only [size]; omega)).append (h1'.mono (by simp only [size]; omega))⟩
      rw [walkItems]
      simp only [h1, h2, List.append_assoc]
    · obtain ⟨hvr, a1, h1, h1'⟩ := key _ seen hv.2 (hc _ _ (List.mem_cons_self ..))
      obtain ⟨a2, h2, h2'⟩ := ihr.2 (a1 ++ seen)
        ⟨fun h s hm => hv.1 h s (List.mem_cons_of_mem _ hm), hvr⟩ (fun g s h => hc g s (List.mem_cons_of_mem _ h))
      refine ⟨a2 ++ a1, ?_, (h2'.mono (by simp only [size]; omega)).append (h1'.mono (by simp only [size]; omega))⟩
      rw [walkEntities]
      simp only [h1, h2, List.append_assoc]
  · intro n r _
    refine ⟨fun t fields seen hv _ _ => ?_, fun seen hv _ => ?_⟩
    · generalize hx : Sel.spread n :: r = l at hv
      cases hv <;> cases hx
    · have h2 := hv.2
      generalize hx : Sel.spread n :: r = l at h2
      cases h2 <;> cases hx

/-! ## Finite maps -/

theorem lookup_none {l : List (Nat × Frag)} {i : Nat} (h : l.lookup i = none) : i ∉ l.map (·.1) := by
  induction l with
  | nil => simp
  | cons p r ih =>
    obtain ⟨k, v⟩ := p
    rw [List.lookup_cons] at h
    split at h
    · cases h
    · next hk =>
      simp only [List.map_cons, List.mem_cons, not_or]
      exact ⟨by simpa using hk, ih h⟩

theorem lookup_mem {l : List (Nat × Frag)} {i : Nat} {fr : Frag} (h : l.lookup i = some fr) : (i, fr) ∈ l := by
  induction l with
  | nil => cases h
  | cons p r ih =>
    obtain ⟨k, v⟩ := p
    rw [List.lookup_cons] at h
    split at h
    · next hk =>
      have hk := beq_iff_eq.1 hk
      cases h; subst hk; exact List.mem_cons_self ..
    · exact List.mem_cons_of_mem _ (ih h)

theorem lookup_filter {l : List (Nat × Frag)} {i j : Nat} (h : j ≠ i) :
    (l.filter (fun p => p.1 != i)).lookup j = l.lookup j := by
  induction l with
  | nil => rfl
  | cons p r ih =>
    obtain ⟨k, v⟩ := p
    rw [List.filter_cons]
    split
    · rw [List.lookup_cons, List.lookup_cons, ih]
    · next hk =>
      have hk : k = i := by simpa using hk
      have hjk : (j == k) = false := by subst hk; simpa using h
      rw [List.lookup_cons, ih, hjk]

theorem perm_filter {l : List (Nat × Frag)} {i : Nat} {fr : Frag} (hn : (l.map (·.1)).Nodup)
    (h : (i, fr) ∈ l) : l.Perm ((i, fr) :: l.filter (fun p => p.1 != i)) := by
  induction l with
  | nil => cases h
  | cons p r ih =>
    rw [List.map_cons, List.nodup_cons] at hn
    rcases List.mem_cons.1 h with rfl | h
    · rw [List.filter_cons, if_neg (by simp)]
      rw [List.filter_eq_self.2]
      intro q hq
      simp only [bne_iff_ne, ne_eq]
      intro e
      exact hn.1 (List.mem_map.2 ⟨q, hq, e⟩)
    · have hne : p.1 ≠ i := by
        rintro rfl
        exact hn.1 (List.mem_map.2 ⟨_, h, rfl⟩)
      rw [List.filter_cons, if_pos (by simpa using hne)]
      exact ((ih hn.2 h).cons p).trans (.swap ..)

/-! ## The invariant -/

/-- The fragments that are finished: not those of the sets being worked on. -/
def doneFrags (st : St) (opn : List Nat) : List Frag :=
  (st.frags.filter (fun p => decide (p.1 ∉ opn))).map (·.2)

theorem mem_done {st : St} {opn : List Nat} {fr : Frag} :
    fr ∈ doneFrags st opn ↔ ∃ i, (i, fr) ∈ st.frags ∧ i ∉ opn := by
  simp only [doneFrags, List.mem_map, List.mem_filter, decide_eq_true_eq]
  constructor
  · rintro ⟨⟨i, fr'⟩, ⟨h1, h2⟩, rfl⟩; exact ⟨i, h1, h2⟩
  · rintro ⟨i, h1, h2⟩; exact ⟨(i, fr), ⟨h1, h2⟩, rfl⟩

structure Inv (H : Hashers) (S : Schema) (P : String → List Sel → Prop) (st : St) (opn : List Nat) : Prop where
  keys : (st.frags.map (·.1)).Nodup
  names : (st.frags.map (fun p => p.2.name)).Nodup
  used : ∀ p ∈ st.frags, ∃ k, k < st.next ∧ p.2.name = fragName k
  good : ∀ i fr, (i, fr) ∈ st.frags → i ∉ opn → ∃ s e, P fr.cond s ∧ selId H fr.cond s = i ∧ fr.items ≠ [] ∧
    Expands S (doneFrags st opn) fr.cond fr.items e ∧ Same e s

structure Next (H : Hashers) (S : Schema) (P : String → List Sel → Prop) (opn : List Nat) (st st' : St) :
    Prop where
  inv : Inv H S P st' opn
  more : ∀ x ∈ doneFrags st opn, x ∈ doneFrags st' opn
  kept : ∀ i ∈ opn, st'.frags.lookup i = st.frags.lookup i

theorem Next.refl {H : Hashers} {S : Schema} {P : String → List Sel → Prop} {opn : List Nat} {st : St}
    (h : Inv H S P st opn) : Next H S P opn st st := ⟨h, fun _ h => h, fun _ _ => rfl⟩

theorem Next.trans {H : Hashers} {S : Schema} {P : String → List Sel → Prop} {opn : List Nat} {a b c : St}
    (h1 : Next H S P opn a b) (h2 : Next H S P opn b c) : Next H S P opn a c :=
  ⟨h2.inv, fun x hx => h2.more x (h1.more x hx), fun i hi => (h2.kept i hi).trans (h1.kept i hi)⟩

/-- The sets being worked on are at least as large as `n`. -/
def Open (H : Hashers) (P : String → List Sel → Prop) (opn : List Nat) (n : Nat) : Prop :=
  ∀ i ∈ opn, ∃ u s, P u s ∧ selId H u s = i ∧ n ≤ size s

/-- The result of a transformation: it expands to the same selections. -/
def Result (H : Hashers) (S : Schema) (P : String → List Sel → Prop) (opn : List Nat) (t : String)
    (items : List Sel) (st : St) (r : Except Err (List Sel × St)) : Prop :=
  ∃ out st', r = .ok (out, st') ∧ Next H S P opn st st' ∧
    ∃ e, Expands S (doneFrags st' opn) t out e ∧ Same e items

theorem orFragment_spec {H : Hashers} {S : Schema} {P : String → List Sel → Prop} {dup : Nat → Bool}
    (hF : ∀ u s v w, P u s → P v w → selId H u s = selId H v w → u = v ∧ Same s w)
    {t : String} {items : List Sel} {k : St → Except Err (List Sel × St)} (hp : P t items)
    (hd : dup (selId H t items) = true → items ≠ [])
    (hk : ∀ opn st, Inv H S P st opn → Open H P opn (size items) → Result H S P opn t items st (k st))
    {opn : List Nat} {st : St} (hi : Inv H S P st opn) (ho : Open H P opn (size items + 1)) :
    Result H S P opn t items st (orFragment H dup t items k st) := by
  have hout : selId H t items ∉ opn := by
    intro h
    obtain ⟨u, s, h1, h2, h3⟩ := ho _ h
    have := same_size (hF _ _ _ _ h1 hp h2).2
    omega
  have ho' : Open H P opn (size items) := by
    intro i hi
    obtain ⟨u, s, h1, h2, h3⟩ := ho i hi
    exact ⟨u, s, h1, h2, by omega⟩
  unfold orFragment
  simp only
  split
  · next hdup =>
    split
    · next fr hl =>
      have hm := lookup_mem hl
      obtain ⟨s, e, h1, h2, h3, h4, h5⟩ := hi.good _ _ hm hout
      obtain ⟨h6, h7⟩ := hF _ _ _ _ h1 hp h2
      refine ⟨_, st, rfl, .refl hi, e, ?_, .trans h5 h7⟩
      have := Expands.spread (r := []) (r' := []) (mem_done.2 ⟨_, hm, hout⟩) h6 h3 (h6 ▸ h4) .nil
      rwa [List.append_nil] at this
    · next hl =>
      have hnk := lookup_none hl
      let i := selId H t items
      let ph : Frag := ⟨fragName st.next, t, []⟩
      let st1 : St := ⟨(i, ph) :: st.frags, st.next + 1⟩
      have hdone : doneFrags st1 (i :: opn) = doneFrags st opn := by
        simp only [doneFrags, st1]
        rw [List.filter_cons, if_neg (by simp)]
        congr 1
        refine List.filter_congr fun p hp => ?_
        have : p.1 ≠ i := by
          intro e
          exact hnk (List.mem_map.2 ⟨p, hp, e⟩)
        simp [this]
      have hinv1 : Inv H S P st1 (i :: opn) := by
        refine ⟨?_, ?_, ?_, ?_⟩
        · simp only [st1, List.map_cons, List.nodup_cons]
          exact ⟨hnk, hi.keys⟩
        · simp only [st1, List.map_cons, List.nodup_cons]
          refine ⟨fun h => ?_, hi.names⟩
          obtain ⟨p, hp, e⟩ := List.mem_map.1 h
          obtain ⟨k, hk', e'⟩ := hi.used p hp
          have : k = st.next := fragName_inj (e'.symm.trans e)
          omega
        · intro p hp
          rcases List.mem_cons.1 hp with rfl | hp
          · exact ⟨st.next, by simp [st1], rfl⟩
          · obtain ⟨k, hk', e'⟩ := hi.used p hp
            exact ⟨k, by simp only [st1]; omega, e'⟩
        · intro j fr hm hj
          rw [hdone]
          rw [List.mem_cons, not_or] at hj
          rcases List.mem_cons.1 hm with e | hm
          · exact absurd (Prod.mk.inj e).1 hj.1
          · exact hi.good j fr hm hj.2
      have ho1 : Open H P (i :: opn) (size items) := by
        intro j hj
        rcases List.mem_cons.1 hj with rfl | hj
        · exact ⟨t, items, hp, rfl, Nat.le_refl _⟩
        · exact ho' j hj
      obtain ⟨new, st', e, hn, ex, he1, he2⟩ := hk (i :: opn) st1 hinv1 ho1
      have e : k ⟨(selId H t items, ⟨fragName st.next, t, []⟩) :: st.frags, st.next + 1⟩ = .ok (new, st') := e
      rw [e]
      simp only
      let fin : Frag := ⟨fragName st.next, t, new⟩
      let st2 : St := ⟨(i, fin) :: st'.frags.filter (fun p => p.1 != i), st'.next⟩
      have hlook : st'.frags.lookup i = some ph := by
        rw [hn.kept i (List.mem_cons_self ..)]
        simp only [st1, List.lookup_cons, BEq.rfl]
      have hperm := perm_filter hn.inv.keys (lookup_mem hlook)
      have hnew : new ≠ [] := by
        intro h
        have := (expands_nil he1).1 h
        subst this
        exact hd hdup (same_nil (same_symm he2))
      have hdone2 : ∀ x, x ∈ doneFrags st2 opn ↔ x = fin ∨ x ∈ doneFrags st' (i :: opn) := by
        intro x
        rw [mem_done, mem_done]
        simp only [st2, List.mem_cons, List.mem_filter, bne_iff_ne, ne_eq, Prod.mk.injEq, not_or]
        constructor
        · rintro ⟨j, ⟨rfl, rfl⟩ | ⟨h1, h2⟩, h3⟩
          · exact .inl rfl
          · exact .inr ⟨j, h1, h2, h3⟩
        · rintro (rfl | ⟨j, h1, h2, h3⟩)
          · exact ⟨i, .inl ⟨rfl, rfl⟩, hout⟩
          · exact ⟨j, .inr ⟨h1, h2⟩, h3⟩
      have hinv2 : Inv H S P st2 opn := by
        refine ⟨?_, ?_, ?_, ?_⟩
        · have := (hperm.map (·.1)).nodup_iff.1 hn.inv.keys
          simpa only [List.map_cons, st2] using this
        · have := (hperm.map (fun p => p.2.name)).nodup_iff.1 hn.inv.names
          simpa only [List.map_cons, st2, fin, ph] using this
        · intro p hp
          rcases List.mem_cons.1 hp with rfl | hp
          · obtain ⟨k, h1, h2⟩ := hn.inv.used _ (lookup_mem hlook)
            exact ⟨k, h1, h2⟩
          · exact hn.inv.used p (List.mem_filter.1 hp).1
        · intro j fr hm hj
          have hmono : ∀ x ∈ doneFrags st' (i :: opn), x ∈ doneFrags st2 opn := fun x hx => (hdone2 x).2 (.inr hx)
          rcases List.mem_cons.1 hm with e | hm
          · obtain ⟨rfl, rfl⟩ := Prod.mk.inj e
            exact ⟨items, ex, hp, rfl, hnew, expands_mono hmono he1, he2⟩
          · obtain ⟨hm, hne⟩ := List.mem_filter.1 hm
            have hne : j ≠ i := by simpa using hne
            obtain ⟨s, e, a, b, c, d, f⟩ := hn.inv.good j fr hm (by simp [hne, hj])
            exact ⟨s, e, a, b, c, expands_mono hmono d, f⟩
      refine ⟨_, st2, rfl, ⟨hinv2, fun x hx => ?_, fun j hj => ?_⟩, ex, ?_, he2⟩
      · exact (hdone2 x).2 (.inr (hn.more x (by rw [hdone]; exact hx)))
      · have hne : j ≠ i := by rintro rfl; exact hout hj
        have h1 := hn.kept j (List.mem_cons_of_mem _ hj)
        have hne' : (j == i) = false := by simpa using hne
        simp only [st2, List.lookup_cons, hne', lookup_filter hne, h1, st1]
      · have hmem : fin ∈ doneFrags st2 opn := (hdone2 _).2 (.inl rfl)
        have := Expands.spread (r := []) (r' := []) hmem rfl hnew
          (expands_mono (fun x hx => (hdone2 x).2 (.inr hx)) he1) .nil
        rwa [List.append_nil] at this
  · exact hk opn st hi ho'

/-! ## The transformation -/

theorem Open.le {H : Hashers} {P : String → List Sel → Prop} {opn : List Nat} {n m : Nat} (h : Open H P opn n)
    (hm : m ≤ n) : Open H P opn m := by
  intro i hi
  obtain ⟨u, s, h1, h2, h3⟩ := h i hi
  exact ⟨u, s, h1, h2, by omega⟩

/-- The result keeps the heads of the selections, too. -/
def ResultB (H : Hashers) (S : Schema) (P : String → List Sel → Prop) (opn : List Nat) (t : String)
    (items : List Sel) (st : St) (r : Except Err (List Sel × St)) : Prop :=
  ∃ out st', r = .ok (out, st') ∧ Next H S P opn st st' ∧ out.map bare = items.map bare ∧
    ∃ e, Expands S (doneFrags st' opn) t out e ∧ Same e items

theorem ResultB.result {H : Hashers} {S : Schema} {P : String → List Sel → Prop} {opn : List Nat} {t : String}
    {items : List Sel} {st : St} {r : Except Err (List Sel × St)} (h : ResultB H S P opn t items st r) :
    Result H S P opn t items st r := by
  obtain ⟨a, b, c, d, _, e⟩ := h
  exact ⟨a, b, c, d, e⟩

theorem tItems_spec {H : Hashers} {S : Schema} {P : String → List Sel → Prop} {dup : Nat → Bool}
    (hP : ∀ u s v w, P u s → Child S u s v w → P v w)
    (hF : ∀ u s v w, P u s → P v w → selId H u s = selId H v w → u = v ∧ Same s w)
    (hD : ∀ t, ∀ items, P t items → dup (selId H t items) = true → items ≠ []) : ∀ items : List Sel,
    (∀ t opn st, Valid S t items → (∀ u s, Child S t items u s → P u s) → Inv H S P st opn →
      Open H P opn (size items) → ResultB H S P opn t items st (tItems H S dup t items st)) ∧
    (∀ opn st, OkEntities S items → (∀ g s, Sel.frag g s ∈ items → P g.cond s) → Inv H S P st opn →
      Open H P opn (size items) → ResultB H S P opn "_Entity" items st (tEntities H S dup items st)) := by
  refine Sels.ind ?_ ?_ ?_ ?_
  · exact ⟨fun t opn st _ _ hi _ => ⟨[], st, by rw [tItems], .refl hi, rfl, [], .nil, .nil⟩,
      fun opn st _ _ hi _ => ⟨[], st, by rw [tEntities], .refl hi, rfl, [], .nil, .nil⟩⟩
  · intro f sub r ihs ihr
    refine ⟨fun t opn st hv hc hi ho => ?_, fun opn st hv hc hi ho => ?_⟩
    · have hr := fun st (hv : Valid S t r) (hi : Inv H S P st opn) =>
        ihr.1 t opn st hv (fun u s h => hc u s (child_mono h)) hi (ho.le (by simp only [size]; omega))
      generalize hx : Sel.field f sub :: r = l at hv
      cases hv with
      | nil => cases hx
      | frag => cases hx
      | intro hin hv =>
        cases hx
        obtain ⟨out, st', e, hn, hb, ex, h1, h2⟩ := hr st hv hi
        refine ⟨.field f sub :: out, st', ?_, hn, by simp [hb, bare], .field f sub :: ex, .intro hin h1,
          .field (same_refl _) h2⟩
        rw [tItems, if_pos hin, e]
      | @field _ u _ _ _ hin hne hu hs hv1 hv2 =>
        cases hx
        obtain ⟨fs, e1, e2⟩ := hu
        have hfu : fieldType S t f = some u := by rw [fieldType, if_neg hne, e1]; exact e2
        have hpu : P u sub := hc u sub (.field (List.mem_cons_self ..) hin hne hfu)
        obtain ⟨new, st1, h1, hn1, ex1, he1, hs1⟩ := orFragment_spec (dup := dup)
          (k := fun st => tItems H S dup u sub st) hF hpu (hD _ _ hpu)
          (fun opn st hi ho => (ihs.1 u opn st hv1 (fun v w h => hP _ _ _ _ hpu h) hi ho).result) hi
          (ho.le (by simp only [size]; omega))
        obtain ⟨out, st2, h2, hn2, hb, ex2, he2, hs2⟩ := hr st1 hv2 hn1.inv
        refine ⟨.field f new :: out, st2, ?_, hn1.trans hn2, by simp [hb, bare], .field f ex1 :: ex2,
          .field hin hfu (expands_mono hn2.more he1) he2, .field hs1 hs2⟩
        rw [tItems, if_neg (by simp [hin]), if_neg hne]
        simp only [e1, Option.bind_some, e2, h1, h2]
      | entities hin hne he hve hv2 =>
        cases hx
        obtain ⟨new, st1, h1, hn1, _, ex1, he1, hs1⟩ := ihs.2 opn st ⟨he, hve⟩ (fun g s h =>
          hc _ _ (.entities (List.mem_cons_self ..) hin hne h)) hi (ho.le (by simp only [size]; omega))
        obtain ⟨out, st2, h2, hn2, hb, ex2, he2, hs2⟩ := hr st1 hv2 hn1.inv
        refine ⟨.field f new :: out, st2, ?_, hn1.trans hn2, by simp [hb, bare], .field f ex1 :: ex2,
          .field hin (by rw [fieldType, if_pos hne]) (expands_mono hn2.more he1) he2, .field hs1 hs2⟩
        rw [tItems, if_neg (by simp [hin]), if_pos hne]
        simp only [h1, h2]
    · have hin := hv.1 f sub (List.mem_cons_self ..)
      have hv' : OkEntities S r := by
        refine ⟨fun h s hm => hv.1 h s (List.mem_cons_of_mem _ hm), ?_⟩
        have h2 := hv.2
        generalize hx : Sel.field f sub :: r = l at h2
        cases h2 with
        | nil => cases hx
        | frag => cases hx
        | intro _ h => cases hx; exact h
        | field _ _ _ _ _ h => cases hx; exact h
        | entities _ _ _ _ h => cases hx; exact h
      obtain ⟨out, st', e, hn, hb, ex, h1, h2⟩ := ihr.2 opn st hv' (fun g s h => hc g s (List.mem_cons_of_mem _ h))
        hi (ho.le (by simp only [size]; omega))
      refine ⟨.field f sub :: out, st', ?_, hn, by simp [hb, bare], .field f sub :: ex, .intro hin h1,
        .field (same_refl _) h2⟩
      rw [tEntities, if_pos hin, e]
  · intro g sub r ihs ihr
    have key : ∀ (t : String) (opn : List Nat) (st : St), Valid S t (.frag g sub :: r) → P g.cond sub →
        Inv H S P st opn → Open H P opn (size (.frag g sub :: r)) → Valid S t r ∧
        Result H S P opn g.cond sub st
          (orFragment H dup g.cond sub (fun st => tItems H S dup g.cond sub st) st) := by
      intro t opn st hv hp hi ho
      generalize hx : Sel.frag g sub :: r = l at hv
      cases hv with
      | nil => cases hx
      | intro => cases hx
      | field => cases hx
      | entities => cases hx
      | frag hs h1 h2 =>
        cases hx
        exact ⟨h2, orFragment_spec (dup := dup) (k := fun st => tItems H S dup g.cond sub st) hF hp (hD _ _ hp)
          (fun opn st hi ho => (ihs.1 _ opn st h1 (fun v w h => hP _ _ _ _ hp h) hi ho).result) hi
          (ho.le (by simp only [size]; omega))⟩
    refine ⟨fun t opn st hv hc hi ho => ?_, fun opn st hv hc hi ho => ?_⟩
    · obtain ⟨hvr, new, st1, h1, hn1, ex1, he1, hs1⟩ := key t opn st hv (hc _ _ (.frag (List.mem_cons_self ..))) hi ho
      obtain ⟨out, st2, h2, hn2, hb, ex2, he2, hs2⟩ := ihr.1 t opn st1 hvr (fun u s h => hc u s (child_mono h))
        hn1.inv (ho.le (by simp only [size]; omega))
      refine ⟨.frag g new :: out, st2, ?_, hn1.trans hn2, by simp [hb, bare], .frag g ex1 :: ex2,
        .frag (expands_mono hn2.more he1) he2, .frag hs1 hs2⟩
      rw [tItems]
      simp only [h1, h2]
    · obtain ⟨hvr, new, st1, h1, hn1, ex1, he1, hs1⟩ := key _ opn st hv.2 (hc _ _ (List.mem_cons_self ..)) hi ho
      obtain ⟨out, st2, h2, hn2, hb, ex2, he2, hs2⟩ := ihr.2 opn st1
        ⟨fun h s hm => hv.1 h s (List.mem_cons_of_mem _ hm), hvr⟩ (fun g s h => hc g s (List.mem_cons_of_mem _ h))
        hn1.inv (ho.le (by simp only [size]; omega))
      refine ⟨.frag g new :: out, st2, ?_, hn1.trans hn2, by simp [hb, bare], .frag g ex1 :: ex2,
        .frag (expands_mono hn2.more he1) he2, .frag hs1 hs2⟩
      rw [tEntities]
      simp only [h1, h2]
  · intro n r _
    refine ⟨fun t opn st hv _ _ _ => ?_, fun opn st hv _ _ _ => ?_⟩
    · generalize hx : Sel.spread n :: r = l at hv
      cases hv <;> cases hx
    · have h2 := hv.2
      generalize hx : Sel.spread n :: r = l at h2
      cases h2 <;> cases hx

/-! ## Sorting -/

theorem insertFrag_perm (x : Frag) : ∀ l : List Frag, (insertFrag x l).Perm (x :: l)
  | [] => .refl _
  | y :: r => by
    simp only [insertFrag]
    split
    · exact .refl _
    · exact ((insertFrag_perm x r).cons y).trans (.swap ..)

theorem sortFrags_perm : ∀ l : List Frag, (sortFrags l).Perm l
  | [] => .refl _
  | x :: r => (insertFrag_perm x _).trans ((sortFrags_perm r).cons x)

end Verif.Minify
