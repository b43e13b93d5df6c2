import Verif.Valid.Model

/-!
# Searches go where they can and nowhere else
-/

namespace Verif.Valid

/-- There is a way along `next`, of any length. -/
inductive Way {α : Type} (next : α → List α) : α → α → Prop
  | refl (a : α) : Way next a a
  | step {a b c : α} : b ∈ next a → Way next b c → Way next a c

theorem Way.tail {α : Type} {next : α → List α} {a b c : α} (h : Way next a b) (hc : c ∈ next b) :
    Way next a c := by
  induction h with
  | refl _ => exact .step hc (.refl _)
  | step h1 _ ih => exact .step h1 (ih hc)

section
variable {α : Type} [DecidableEq α]

/-- How many of `U` are not in `seen`. -/
def free (U seen : List α) : Nat := (U.filter (fun x => decide (x ∉ seen))).length

theorem free_mono (U : List α) {seen r : List α} (h : ∀ x ∈ seen, x ∈ r) : free U r ≤ free U seen := by
  unfold free
  induction U with
  | nil => simp
  | cons u us ih =>
    simp only [List.filter_cons]
    by_cases h1 : u ∈ r
    · by_cases h2 : u ∈ seen
      · simp [h1, h2]; simpa using ih
      · simp [h1, h2]; simp at ih; omega
    · have h2 : u ∉ seen := fun hh => h1 (h u hh)
      simp [h1, h2]; simpa using ih

theorem free_lt (U : List α) {seen : List α} {a : α} (ha : a ∈ U) (hn : a ∉ seen) :
    free U (seen ++ [a]) + 1 ≤ free U seen := by
  induction U with
  | nil => cases ha
  | cons u us ih =>
    unfold free at *
    simp only [List.filter_cons]
    by_cases hu : u = a
    · subst hu
      have h1 : u ∈ seen ++ [u] := by simp
      simp only [h1, hn, not_true, not_false_iff, decide_false, decide_true, if_true]
      have := free_mono us (seen := seen) (r := seen ++ [u]) (fun x hx => by simp [hx])
      unfold free at this
      simp
      simpa using this
    · have hm : a ∈ us := by
        rcases List.mem_cons.1 ha with h | h
        · exact absurd h.symm hu
        · exact h
      have ih' := ih hm
      by_cases h2 : u ∈ seen
      · have h1 : u ∈ seen ++ [a] := by simp [h2]
        simp only [h1, h2, not_true, decide_false]
        simpa using ih'
      · have h1 : u ∉ seen ++ [a] := by simp [h2, hu]
        simp only [h1, h2, not_false_iff, decide_true, if_true, List.length_cons]
        omega

theorem free_zero (U : List α) {seen : List α} {a : α} (ha : a ∈ U) (h : free U seen = 0) : a ∈ seen := by
  refine Decidable.byContradiction (fun hn => ?_)
  have := free_lt U ha hn
  omega

/-- What a search from `seen` to `r` gives. -/
structure Went (next : α → List α) (seen : List α) (r : List α) (P : α → Prop) : Prop where
  keep : ∀ x ∈ seen, x ∈ r
  closed : ∀ b ∈ r, b ∉ seen → ∀ c ∈ next b, c ∈ r
  only : ∀ b ∈ r, b ∈ seen ∨ P b

theorem went_refl (next : α → List α) (seen : List α) (P : α → Prop) : Went next seen seen P :=
  ⟨fun _ h => h, fun _ h h' => absurd h h', fun _ h => Or.inl h⟩

theorem search_spec (next : α → List α) (U : List α) (hU : ∀ a, ∀ b ∈ next a, b ∈ U) :
    ∀ (n : Nat) (seen : List α) (a : α), a ∈ U → free U seen ≤ n →
      Went next seen (search next n seen a) (Way next a) ∧ a ∈ search next n seen a := by
  intro n
  induction n with
  | zero =>
    intro seen a ha hf
    simp only [search]
    exact ⟨went_refl _ _ _, free_zero U ha (by omega)⟩
  | succ n ih =>
    intro seen a ha hf
    simp only [search]
    split
    · rename_i hs; exact ⟨went_refl _ _ _, hs⟩
    · rename_i hs
      have hf' : free U (seen ++ [a]) ≤ n := by have := free_lt U ha hs; omega
      -- the fold
      have key : ∀ (l : List α) (r : List α), (∀ b ∈ l, b ∈ next a) →
          Went next (seen ++ [a]) r (Way next a) →
          Went next (seen ++ [a]) (l.foldl (search next n) r) (Way next a) ∧
            ∀ b ∈ l, b ∈ l.foldl (search next n) r := by
        intro l
        induction l with
        | nil => intro r _ hr; exact ⟨hr, fun b hb => by cases hb⟩
        | cons b bs ihl =>
          intro r hl hr
          have hb : b ∈ next a := hl b (by simp)
          have hfr : free U r ≤ n := by
            have := free_mono U (seen := seen ++ [a]) (r := r) hr.keep
            omega
          obtain ⟨hw, hmem⟩ := ih r b (hU a b hb) hfr
          have hr' : Went next (seen ++ [a]) (search next n r b) (Way next a) := by
            refine ⟨fun x hx => hw.keep x (hr.keep x hx), ?_, ?_⟩
            · intro y hy hny c hc
              by_cases hyr : y ∈ r
              · exact hw.keep c (hr.closed y hyr hny c hc)
              · exact hw.closed y hy hyr c hc
            · intro y hy
              rcases hw.only y hy with h | h
              · exact hr.only y h
              · exact Or.inr (.step hb h)
          obtain ⟨h1, h2⟩ := ihl (search next n r b) (fun x hx => hl x (by simp [hx])) hr'
          simp only [List.foldl_cons]
          refine ⟨h1, ?_⟩
          intro x hx
          rcases List.mem_cons.1 hx with h | h
          · subst h
            -- kept
            have keepFold : ∀ (l : List α) (r : List α), (∀ b ∈ l, b ∈ next a) →
                free U r ≤ n → ∀ x ∈ r, x ∈ l.foldl (search next n) r := by
              intro l
              induction l with
              | nil => intro r _ _ x hx; exact hx
              | cons c cs ihc =>
                intro r hl hfr x hx
                simp only [List.foldl_cons]
                obtain ⟨hw2, _⟩ := ih r c (hU a c (hl c (by simp))) hfr
                have hm := free_mono U (seen := r) (r := search next n r c) hw2.keep
                exact ihc _ (fun z hz => hl z (by simp [hz])) (by omega) x (hw2.keep x hx)
            have hm := free_mono U (seen := r) (r := search next n r x) hw.keep
            exact keepFold bs _ (fun z hz => hl z (by simp [hz])) (by omega) x hmem
          · exact h2 x h
      have start : Went next (seen ++ [a]) (seen ++ [a]) (Way next a) := went_refl _ _ _
      obtain ⟨h1, h2⟩ := key (next a) (seen ++ [a]) (fun b hb => hb) start
      refine ⟨⟨fun x hx => h1.keep x (by simp [hx]), ?_, ?_⟩, h1.keep a (by simp)⟩
      · intro b hb hnb c hc
        by_cases hba : b = a
        · subst hba; exact h2 c hc
        · exact h1.closed b hb (by simp [hnb, hba]) c hc
      · intro b hb
        rcases h1.only b hb with h | h
        · rcases List.mem_append.1 h with h | h
          · exact Or.inl h
          · simp at h; subst h; exact Or.inr (.refl _)
        · exact Or.inr h

/-- A search from nothing goes exactly where there is a way. -/
theorem mem_search (next : α → List α) (U : List α) (hU : ∀ a, ∀ b ∈ next a, b ∈ U) (a b : α) :
    b ∈ search next (U.length + 1) [] a ↔ Way next a b := by
  have hf : free (a :: U) [] ≤ U.length + 1 := by
    unfold free
    exact (List.length_filter_le _ _)
  obtain ⟨hw, ha⟩ := search_spec next (a :: U) (fun x y hy => by simp [hU x y hy]) (U.length + 1) [] a
    (by simp) hf
  constructor
  · intro h
    rcases hw.only b h with h | h
    · cases h
    · exact h
  · intro h
    have : ∀ x y, Way next x y → x ∈ search next (U.length + 1) [] a →
        y ∈ search next (U.length + 1) [] a := by
      intro x y hxy
      induction hxy with
      | refl _ => exact id
      | step h1 _ ih => intro hx; exact ih (hw.closed _ hx (by simp) _ h1)
    exact this a b h ha

end

/-! ## The queue -/

/-- What is still to be put in the queue. -/
def weight (m : List (Name × List Name)) (reached : List Name) : Nat :=
  ((m.filter (fun e => decide (e.1 ∉ reached))).map (fun e => e.2.length)).sum

theorem weight_le (m : List (Name × List Name)) (reached : List Name) :
    weight m reached ≤ (m.map (fun e => e.2.length)).sum := by
  unfold weight
  induction m with
  | nil => simp
  | cons e es ih =>
    simp only [List.filter_cons]
    split
    · simp only [List.map_cons, List.sum_cons]; omega
    · simp only [List.map_cons, List.sum_cons]; omega

theorem weight_anti (m : List (Name × List Name)) (reached : List Name) (x : Name) :
    weight m (reached ++ [x]) ≤ weight m reached := by
  unfold weight
  induction m with
  | nil => simp
  | cons e es ih =>
    simp only [List.filter_cons]
    by_cases h1 : e.1 ∈ reached
    · have h2 : e.1 ∈ reached ++ [x] := by simp [h1]
      simp only [h1, h2, not_true, decide_false]; simpa using ih
    · by_cases h2 : e.1 ∈ reached ++ [x]
      · simp only [h1, h2, not_true, not_false_iff, decide_false, decide_true, if_true,
          List.map_cons, List.sum_cons]
        simp only [Bool.false_eq_true, if_false]
        omega
      · simp only [h1, h2, not_false_iff, decide_true, if_true, List.map_cons, List.sum_cons]
        omega

theorem weight_drop (m : List (Name × List Name)) (reached : List Name) (x : Name)
    (hx : x ∉ reached) :
    weight m (reached ++ [x]) + ((m.lookup x).getD []).length ≤ weight m reached := by
  induction m with
  | nil => simp [weight]
  | cons e es ih =>
    by_cases he : x = e.1
    · have h1 : e.1 ∉ reached := by rw [← he]; exact hx
      have h2 : e.1 ∈ reached ++ [x] := by simp [he]
      have := weight_anti es reached x
      have hl : (List.lookup x (e :: es)).getD [] = e.2 := by
        obtain ⟨k, v⟩ := e
        simp at he
        subst he
        simp [List.lookup]
      rw [hl]
      unfold weight at *
      simp only [List.filter_cons, h1, h2, not_true, not_false_iff, decide_false, decide_true,
        if_true, List.map_cons, List.sum_cons]
      simp only [Bool.false_eq_true, if_false]
      omega
    · have hl : List.lookup x (e :: es) = List.lookup x es := by
        obtain ⟨k, v⟩ := e
        have hk : (x == k) = false := by simpa using he
        simp [List.lookup, hk]
      rw [hl]
      unfold weight at *
      simp only [List.filter_cons]
      by_cases h1 : e.1 ∈ reached
      · have h2 : e.1 ∈ reached ++ [x] := by simp [h1]
        simp only [h1, h2, not_true, decide_false]; simpa using ih
      · have h2 : e.1 ∉ reached ++ [x] := by simp [h1]; exact fun h => he h.symm
        simp only [h1, h2, not_false_iff, decide_true, if_true, List.map_cons, List.sum_cons]
        omega

theorem queueLoop_spec (m : List (Name × List Name)) (P : Name → Prop) :
    let next := fun n => (m.lookup n).getD []
    ∀ (n : Nat) (reached queue : List Name), queue.length + weight m reached ≤ n →
      (∀ b ∈ reached, ∀ c ∈ next b, c ∈ reached ∨ c ∈ queue) →
      (∀ b ∈ reached, P b) → (∀ b ∈ queue, P b) → (∀ b, P b → ∀ c ∈ next b, P c) →
      (∀ b ∈ reached, b ∈ queueLoop next n reached queue) ∧
      (∀ b ∈ queue, b ∈ queueLoop next n reached queue) ∧
      (∀ b ∈ queueLoop next n reached queue, ∀ c ∈ next b, c ∈ queueLoop next n reached queue) ∧
      (∀ b ∈ queueLoop next n reached queue, P b) := by
  intro next n
  induction n with
  | zero =>
    intro reached queue hn hc hr hq _
    have hq0 : queue = [] := List.eq_nil_of_length_eq_zero (by omega)
    subst hq0
    simp only [queueLoop]
    refine ⟨fun b h => h, fun b h => (List.not_mem_nil h).elim, ?_, hr⟩
    intro b hb c hcc
    rcases hc b hb c hcc with h | h
    · exact h
    · cases h
  | succ n ih =>
    intro reached queue hn hc hr hq hP
    cases queue with
    | nil =>
      simp only [queueLoop]
      refine ⟨fun b h => h, fun b h => (List.not_mem_nil h).elim, ?_, hr⟩
      intro b hb c hcc
      rcases hc b hb c hcc with h | h
      · exact h
      · cases h
    | cons x queue =>
      simp only [queueLoop]
      simp only [List.length_cons] at hn
      split
      · rename_i hx
        obtain ⟨h1, h2, h3, h4⟩ := ih reached queue (by omega) (by
          intro b hb c hcc
          rcases hc b hb c hcc with h | h
          · exact Or.inl h
          · rcases List.mem_cons.1 h with h | h
            · subst h; exact Or.inl hx
            · exact Or.inr h) hr (fun b hb => hq b (by simp [hb])) hP
        refine ⟨h1, ?_, h3, h4⟩
        intro b hb
        rcases List.mem_cons.1 hb with h | h
        · subst h; exact h1 b hx
        · exact h2 b h
      · rename_i hx
        have hPx : P x := hq x (by simp)
        have hwd := weight_drop m reached x hx
        have hfl : ((next x).filter (fun y => decide (y ∉ reached ++ [x]))).length ≤ (next x).length :=
          List.length_filter_le _ _
        obtain ⟨h1, h2, h3, h4⟩ := ih (reached ++ [x])
          (queue ++ (next x).filter (fun y => decide (y ∉ reached ++ [x])))
          (by
            simp only [List.length_append]
            show queue.length + ((next x).filter _).length + weight m (reached ++ [x]) ≤ n
            have : (next x).length = ((m.lookup x).getD []).length := rfl
            omega)
          (by
            intro b hb c hcc
            rcases List.mem_append.1 hb with h | h
            · rcases hc b h c hcc with h' | h'
              · exact Or.inl (by simp [h'])
              · rcases List.mem_cons.1 h' with h' | h'
                · exact Or.inl (by simp [h'])
                · exact Or.inr (by simp [h'])
            · simp at h; subst h
              by_cases hm : c ∈ reached ++ [b]
              · exact Or.inl hm
              · exact Or.inr (List.mem_append.2 (Or.inr (List.mem_filter.2 ⟨hcc, by simpa using hm⟩))))
          (by
            intro b hb
            rcases List.mem_append.1 hb with h | h
            · exact hr b h
            · simp at h; subst h; exact hPx)
          (by
            intro b hb
            rcases List.mem_append.1 hb with h | h
            · exact hq b (by simp [h])
            · exact hP x hPx b (List.mem_filter.1 h).1)
          hP
        refine ⟨fun b hb => h1 b (by simp [hb]), ?_, h3, h4⟩
        intro b hb
        rcases List.mem_cons.1 hb with h | h
        · subst h; exact h1 b (by simp)
        · exact h2 b (by simp [h])

end Verif.Valid
