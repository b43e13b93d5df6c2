import Verif.Valid.Spreads

/-!
# The root field of subscriptions
-/

namespace Verif.Valid

theorem condMatches_iff (s : Schema) (c : Option Name) (t : TypeDef)
    (ht : ∃ n is fs, t = .object n is fs) : condMatches s c t = true ↔ AppliesTo s c t := by
  unfold condMatches AppliesTo
  cases c with
  | none => simp
  | some n =>
    simp only [Option.some.injEq, forall_eq']
    cases s.typeByName n with
    | none => simp
    | some u =>
      simp only [Bool.or_eq_true, decide_eq_true_eq, Bool.and_eq_true, Option.some.injEq,
        exists_eq_left']
      obtain ⟨m, is, fs, rfl⟩ := ht
      cases u <;>
        simp [IsA, TypeDef.isAbstract, TypeDef.hasSubType, TypeDef.ifaces, TypeDef.name, eq_comm]

/-- A field of the name is selected without a spread. -/
inductive NearField (s : Schema) (t : TypeDef) (n : Name) : List Sel → Prop
  | field {ss : List Sel} {al args ds sub} : Sel.field al n args ds sub ∈ ss → NearField s t n ss
  | inline {ss : List Sel} {c ds sub} : Sel.inline c ds sub ∈ ss → condMatches s c t = true →
      NearField s t n sub → NearField s t n ss

/-- The fragment is spread without another spread. -/
inductive NearSpr (s : Schema) (t : TypeDef) (n : Name) : List Sel → Prop
  | spread {ss : List Sel} {ds} : Sel.spread n ds ∈ ss → NearSpr s t n ss
  | inline {ss : List Sel} {c ds sub} : Sel.inline c ds sub ∈ ss → condMatches s c t = true →
      NearSpr s t n sub → NearSpr s t n ss

/-- What is near in the selections has been found. -/
def Found (s : Schema) (t : TypeDef) (st : Coll) (ss : List Sel) : Prop :=
  (∀ n, NearField s t n ss → n ∈ st.1) ∧ ∀ n, NearSpr s t n ss → n ∈ st.2

/-- More has been found. -/
def More (a b : Coll) : Prop := (∀ n ∈ a.1, n ∈ b.1) ∧ ∀ n ∈ a.2, n ∈ b.2

theorem More.refl (a : Coll) : More a a := ⟨fun _ h => h, fun _ h => h⟩

theorem More.trans {a b c : Coll} (h : More a b) (g : More b c) : More a c :=
  ⟨fun n hn => g.1 n (h.1 n hn), fun n hn => g.2 n (h.2 n hn)⟩

theorem Found.mono {s : Schema} {t : TypeDef} {a b : Coll} {ss : List Sel} (h : Found s t a ss)
    (m : More a b) : Found s t b ss :=
  ⟨fun n hn => m.1 n (h.1 n hn), fun n hn => m.2 n (h.2 n hn)⟩

/-- What is near in the fragments of the name has been found. -/
def FragFound (s : Schema) (d : Doc) (t : TypeDef) (st : Coll) (m : Name) : Prop :=
  ∀ f, knownFrag d m = some f → condMatches s (some f.cond) t = true → Found s t st f.sels

/-- The fragments that have not been entered. -/
def todo (d : Doc) (st : Coll) : List Frag := (frags d).filter (fun f => !st.2.contains f.name)

theorem todo_mono (d : Doc) {a b : Coll} (h : More a b) : (todo d b).length ≤ (todo d a).length := by
  unfold todo
  rw [← List.countP_eq_length_filter, ← List.countP_eq_length_filter]
  apply List.countP_mono_left
  intro f _ hf
  simp only [Bool.not_eq_true', List.contains_eq_mem, decide_eq_false_iff_not] at hf ⊢
  exact fun hn => hf (h.2 _ hn)

/-- What a run has done. -/
def Ran (s : Schema) (d : Doc) (t : TypeDef) (st st' : Coll) : Prop :=
  More st st' ∧ ∀ m ∈ st'.2, m ∉ st.2 → FragFound s d t st' m

theorem Ran.refl (s : Schema) (d : Doc) (t : TypeDef) (st : Coll) : Ran s d t st st :=
  ⟨.refl st, fun _ h h' => absurd h h'⟩

theorem Ran.trans {s : Schema} {d : Doc} {t : TypeDef} {a b c : Coll} (h : Ran s d t a b)
    (g : Ran s d t b c) : Ran s d t a c := by
  refine ⟨h.1.trans g.1, fun m hm hn => ?_⟩
  by_cases hb : m ∈ b.2
  · exact fun f hf hc => (h.2 m hb hn f hf hc).mono g.1
  · exact g.2 m hm hb

/-- Entering a fragment does what it should as long as few enough are left. -/
def IntoGood (s : Schema) (d : Doc) (t : TypeDef) (k : Nat) (into : Coll → Frag → Coll) : Prop :=
  ∀ st f, (todo d st).length < k → Ran s d t st (into st f) ∧ Found s t (into st f) f.sels

theorem todo_enter (d : Doc) (st : Coll) (n : Name) (f : Frag) (hk : knownFrag d n = some f)
    (hn : n ∉ st.2) : (todo d (st.1, st.2 ++ [n])).length < (todo d st).length := by
  have h1 : f ∈ frags d := by simpa using List.mem_of_find?_eq_some hk
  have h2 : f.name = n := by simpa using List.find?_some hk
  have : todo d (st.1, st.2 ++ [n]) = (todo d st).filter (fun f => decide (f.name ≠ n)) := by
    unfold todo
    rw [List.filter_filter]
    apply List.filter_congr
    intro g _
    simp only [List.contains_eq_mem, List.mem_append, List.mem_singleton, ne_eq]
    by_cases h1 : g.name ∈ st.2 <;> by_cases h2 : g.name = n <;> simp [h1, h2]
  rw [this]
  have hmem : f ∈ todo d st := by
    unfold todo
    rw [List.mem_filter]
    exact ⟨h1, by simp [h2, hn]⟩
  refine Nat.lt_of_le_of_ne (List.length_filter_le _ _) (fun he => ?_)
  have := List.length_filter_eq_length_iff.1 he f hmem
  simp [h2] at this

theorem nearField_cons (s : Schema) (t : TypeDef) (n : Name) (x : Sel) (xs : List Sel) :
    NearField s t n (x :: xs) ↔ NearField s t n [x] ∨ NearField s t n xs := by
  constructor
  · intro h
    cases h with
    | field h =>
      rcases List.mem_cons.1 h with h | h
      · exact Or.inl (.field (by rw [h]; simp))
      · exact Or.inr (.field h)
    | inline h hc hs =>
      rcases List.mem_cons.1 h with h | h
      · exact Or.inl (.inline (by rw [h]; simp) hc hs)
      · exact Or.inr (.inline h hc hs)
  · rintro (h | h)
    · cases h with
      | field h => exact .field (by rw [List.mem_singleton.1 h]; simp)
      | inline h hc hs => exact .inline (by rw [List.mem_singleton.1 h]; simp) hc hs
    · cases h with
      | field h => exact .field (List.mem_cons_of_mem _ h)
      | inline h hc hs => exact .inline (by simp only [List.mem_cons]; exact Or.inr h) hc hs

theorem nearSpr_cons (s : Schema) (t : TypeDef) (n : Name) (x : Sel) (xs : List Sel) :
    NearSpr s t n (x :: xs) ↔ NearSpr s t n [x] ∨ NearSpr s t n xs := by
  constructor
  · intro h
    cases h with
    | spread h =>
      rcases List.mem_cons.1 h with h | h
      · exact Or.inl (.spread (by rw [h]; simp))
      · exact Or.inr (.spread h)
    | inline h hc hs =>
      rcases List.mem_cons.1 h with h | h
      · exact Or.inl (.inline (by rw [h]; simp) hc hs)
      · exact Or.inr (.inline h hc hs)
  · rintro (h | h)
    · cases h with
      | spread h => exact .spread (by rw [List.mem_singleton.1 h]; simp)
      | inline h hc hs => exact .inline (by rw [List.mem_singleton.1 h]; simp) hc hs
    · cases h with
      | spread h => exact .spread (List.mem_cons_of_mem _ h)
      | inline h hc hs => exact .inline (by simp only [List.mem_cons]; exact Or.inr h) hc hs

theorem found_cons (s : Schema) (t : TypeDef) (st : Coll) (x : Sel) (xs : List Sel) :
    Found s t st (x :: xs) ↔ Found s t st [x] ∧ Found s t st xs := by
  unfold Found
  constructor
  · rintro ⟨h1, h2⟩
    exact ⟨⟨fun n hn => h1 n ((nearField_cons ..).2 (Or.inl hn)), fun n hn => h2 n ((nearSpr_cons ..).2 (Or.inl hn))⟩,
      fun n hn => h1 n ((nearField_cons ..).2 (Or.inr hn)), fun n hn => h2 n ((nearSpr_cons ..).2 (Or.inr hn))⟩
  · rintro ⟨⟨h1, h2⟩, h3, h4⟩
    exact ⟨fun n hn => ((nearField_cons ..).1 hn).elim (h1 n) (h3 n),
      fun n hn => ((nearSpr_cons ..).1 hn).elim (h2 n) (h4 n)⟩

mutual
theorem collectSel_ran (s : Schema) (d : Doc) (t : TypeDef) (k : Nat) (into : Coll → Frag → Coll)
    (hi : IntoGood s d t k into) (x : Sel) (st : Coll) (hk : (todo d st).length ≤ k) :
    Ran s d t st (collectSel s d t into st x) ∧ Found s t (collectSel s d t into st x) [x] := by
  match x with
  | .field al n args ds sub =>
    rw [collectSel]
    refine ⟨⟨⟨fun m hm => by simp [hm], fun m hm => hm⟩, fun m hm hn => absurd hm hn⟩, ?_, ?_⟩
    · intro m hm
      cases hm with
      | field h => rw [List.mem_singleton] at h; cases h; simp
      | inline h => rw [List.mem_singleton] at h; cases h
    · intro m hm
      cases hm with
      | spread h => rw [List.mem_singleton] at h; cases h
      | inline h => rw [List.mem_singleton] at h; cases h
  | .inline c ds sub =>
    rw [collectSel]
    by_cases hc : condMatches s c t = true
    · rw [if_pos hc]
      obtain ⟨h1, h2⟩ := collectSels_ran s d t k into hi sub st hk
      refine ⟨h1, ?_, ?_⟩
      · intro m hm
        cases hm with
        | field h => rw [List.mem_singleton] at h; cases h
        | inline h _ hs => rw [List.mem_singleton] at h; cases h; exact h2.1 m hs
      · intro m hm
        cases hm with
        | spread h => rw [List.mem_singleton] at h; cases h
        | inline h _ hs => rw [List.mem_singleton] at h; cases h; exact h2.2 m hs
    · rw [if_neg hc]
      refine ⟨.refl .., ?_, ?_⟩
      · intro m hm
        cases hm with
        | field h => rw [List.mem_singleton] at h; cases h
        | inline h hc' _ => rw [List.mem_singleton] at h; cases h; exact absurd hc' hc
      · intro m hm
        cases hm with
        | spread h => rw [List.mem_singleton] at h; cases h
        | inline h hc' _ => rw [List.mem_singleton] at h; cases h; exact absurd hc' hc
  | .spread n ds =>
    have hfound : ∀ st' : Coll, n ∈ st'.2 → Found s t st' [.spread n ds] := by
      intro st' hn
      refine ⟨?_, ?_⟩
      · intro m hm
        cases hm with
        | field h => rw [List.mem_singleton] at h; cases h
        | inline h => rw [List.mem_singleton] at h; cases h
      · intro m hm
        cases hm with
        | spread h => rw [List.mem_singleton] at h; cases h; exact hn
        | inline h => rw [List.mem_singleton] at h; cases h
    rw [collectSel]
    by_cases hn : st.2.contains n = true
    · rw [if_pos hn]
      exact ⟨.refl .., hfound st (by simpa using hn)⟩
    · rw [if_neg hn]
      have hn' : n ∉ st.2 := by simpa using hn
      have hmore : More st (st.1, st.2 ++ [n]) := ⟨fun _ h => h, fun m hm => by simp [hm]⟩
      cases hkf : knownFrag d n with
      | none =>
        refine ⟨⟨hmore, fun m hm hms => ?_⟩, hfound _ (by simp)⟩
        have : m = n := by
          rcases List.mem_append.1 hm with h | h
          · exact absurd h hms
          · exact List.mem_singleton.1 h
        subst this
        intro f hf
        rw [hkf] at hf
        cases hf
      | some f =>
        simp only
        by_cases hc : condMatches s (some f.cond) t = true
        · rw [if_pos hc]
          obtain ⟨h1, h2⟩ := hi (st.1, st.2 ++ [n]) f (by have := todo_enter d st n f hkf hn'; omega)
          refine ⟨⟨hmore.trans h1.1, fun m hm hms => ?_⟩, hfound _ (h1.1.2 n (by simp))⟩
          by_cases hmn : m = n
          · subst hmn
            intro g hg _
            rw [hkf] at hg
            cases hg
            exact h2
          · exact h1.2 m hm (by simp [hms, hmn])
        · rw [if_neg hc]
          refine ⟨⟨hmore, fun m hm hms => ?_⟩, hfound _ (by simp)⟩
          have : m = n := by
            rcases List.mem_append.1 hm with h | h
            · exact absurd h hms
            · exact List.mem_singleton.1 h
          subst this
          intro g hg hcg
          rw [hkf] at hg
          cases hg
          exact absurd hcg hc
theorem collectSels_ran (s : Schema) (d : Doc) (t : TypeDef) (k : Nat) (into : Coll → Frag → Coll)
    (hi : IntoGood s d t k into) (xs : List Sel) (st : Coll) (hk : (todo d st).length ≤ k) :
    Ran s d t st (collectSels s d t into st xs) ∧ Found s t (collectSels s d t into st xs) xs := by
  match xs with
  | [] =>
    rw [collectSels]
    refine ⟨.refl .., ?_, ?_⟩
    · intro m hm
      cases hm with
      | field h => cases h
      | inline h => cases h
    · intro m hm
      cases hm with
      | spread h => cases h
      | inline h => cases h
  | x :: xs =>
    rw [collectSels]
    obtain ⟨h1, h2⟩ := collectSel_ran s d t k into hi x st hk
    obtain ⟨h3, h4⟩ := collectSels_ran s d t k into hi xs _ (Nat.le_trans (todo_mono d h1.1) hk)
    exact ⟨h1.trans h3, (found_cons ..).2 ⟨h2.mono h3.1, h4⟩⟩
end

theorem collectFrag_good (s : Schema) (d : Doc) (t : TypeDef) (k : Nat) :
    IntoGood s d t k (collectFrag s d t k) := by
  induction k with
  | zero => intro st f hk; omega
  | succ k ih =>
    intro st f hk
    rw [collectFrag]
    exact collectSels_ran s d t k _ ih f.sels st (by omega)

/-- A field of the name is selected on an object of the type, directly or through fragments. -/
inductive FarField (s : Schema) (d : Doc) (t : TypeDef) (n : Name) : List Sel → Prop
  | near {ss} : NearField s t n ss → FarField s d t n ss
  | far {ss m f} : NearSpr s t m ss → knownFrag d m = some f → condMatches s (some f.cond) t = true →
      FarField s d t n f.sels → FarField s d t n ss

mutual
theorem collectSel_sound (s : Schema) (d : Doc) (t : TypeDef) (into : Coll → Frag → Coll)
    (hi : ∀ st f n, n ∈ (into st f).1 → n ∈ st.1 ∨ FarField s d t n f.sels) (x : Sel) (st : Coll) (n : Name)
    (h : n ∈ (collectSel s d t into st x).1) : n ∈ st.1 ∨ FarField s d t n [x] := by
  match x with
  | .field al m args ds sub =>
    rw [collectSel] at h
    simp only [List.mem_append, List.mem_singleton] at h
    rcases h with h | rfl
    · exact Or.inl h
    · exact Or.inr (.near (.field (List.mem_singleton_self _)))
  | .inline c ds sub =>
    rw [collectSel] at h
    by_cases hc : condMatches s c t = true
    · rw [if_pos hc] at h
      rcases collectSels_sound s d t into hi sub st n h with h | h
      · exact Or.inl h
      · cases h with
        | near h => exact Or.inr (.near (.inline (List.mem_singleton_self _) hc h))
        | far h h1 h2 h3 => exact Or.inr (.far (.inline (List.mem_singleton_self _) hc h) h1 h2 h3)
    · rw [if_neg hc] at h
      exact Or.inl h
  | .spread m ds =>
    rw [collectSel] at h
    by_cases hm : st.2.contains m = true
    · rw [if_pos hm] at h; exact Or.inl h
    · rw [if_neg hm] at h
      cases hk : knownFrag d m with
      | none => rw [hk] at h; exact Or.inl h
      | some f =>
        rw [hk] at h
        simp only at h
        by_cases hc : condMatches s (some f.cond) t = true
        · rw [if_pos hc] at h
          rcases hi _ _ _ h with h | h
          · exact Or.inl h
          · exact Or.inr (.far (.spread (List.mem_singleton_self _) : NearSpr s t m [.spread m ds]) hk hc h)
        · rw [if_neg hc] at h
          exact Or.inl h
theorem collectSels_sound (s : Schema) (d : Doc) (t : TypeDef) (into : Coll → Frag → Coll)
    (hi : ∀ st f n, n ∈ (into st f).1 → n ∈ st.1 ∨ FarField s d t n f.sels) (xs : List Sel) (st : Coll) (n : Name)
    (h : n ∈ (collectSels s d t into st xs).1) : n ∈ st.1 ∨ FarField s d t n xs := by
  match xs with
  | [] => rw [collectSels] at h; exact Or.inl h
  | x :: xs =>
    rw [collectSels] at h
    rcases collectSels_sound s d t into hi xs _ n h with h | h
    · rcases collectSel_sound s d t into hi x st n h with h | h
      · exact Or.inl h
      · cases h with
        | near h => exact Or.inr (.near ((nearField_cons ..).2 (Or.inl h)))
        | far h h1 h2 h3 => exact Or.inr (.far ((nearSpr_cons ..).2 (Or.inl h)) h1 h2 h3)
    · cases h with
      | near h => exact Or.inr (.near ((nearField_cons ..).2 (Or.inr h)))
      | far h h1 h2 h3 => exact Or.inr (.far ((nearSpr_cons ..).2 (Or.inr h)) h1 h2 h3)
end

theorem collectFrag_sound (s : Schema) (d : Doc) (t : TypeDef) (k : Nat) (st : Coll) (f : Frag) (n : Name)
    (h : n ∈ (collectFrag s d t k st f).1) : n ∈ st.1 ∨ FarField s d t n f.sels := by
  induction k generalizing st f n with
  | zero => rw [collectFrag] at h; exact Or.inl h
  | succ k ih =>
    rw [collectFrag] at h
    exact collectSels_sound s d t _ (fun st f n h => ih st f n h) f.sels st n h

theorem mem_collectFields_far (s : Schema) (d : Doc) (t : TypeDef) (ss : List Sel) (n : Name) :
    n ∈ collectFields s d t ss ↔ FarField s d t n ss := by
  unfold collectFields
  constructor
  · intro h
    rcases collectSels_sound s d t _ (collectFrag_sound s d t _) ss _ n h with h | h
    · cases h
    · exact h
  · intro h
    obtain ⟨h1, h2⟩ := collectSels_ran s d t _ _ (collectFrag_good s d t ((frags d).length + 1)) ss ([], [])
      (Nat.le_trans (List.length_filter_le _ _) (Nat.le_succ _))
    generalize collectSels s d t (collectFrag s d t ((frags d).length + 1)) ([], []) ss = st' at h1 h2
    induction h with
    | near h => exact h2.1 _ h
    | far hs hk hc _ ih => exact ih (h1.2 _ (h2.2 _ hs) (by simp) _ hk hc)

theorem far_iff (s : Schema) (d : Doc) (hd : ((frags d).map (·.name)).Nodup) (t : TypeDef)
    (ht : ∃ n is fs, t = .object n is fs) (n : Name) (ss : List Sel) :
    FarField s d t n ss ↔ ∃ k, RootField s d t n k ss := by
  have near : ∀ ss, NearField s t n ss → ∃ k, RootField s d t n k ss := by
    intro ss h
    induction h with
    | field h => exact ⟨_, .field h rfl⟩
    | inline h hc _ ih =>
      obtain ⟨k, hk⟩ := ih
      exact ⟨k, .inline h ((condMatches_iff s _ t ht).1 hc) hk⟩
  have spr : ∀ m f k, knownFrag d m = some f → condMatches s (some f.cond) t = true →
      RootField s d t n k f.sels → ∀ ss, NearSpr s t m ss → RootField s d t n k ss := by
    intro m f k hf hc hr ss h
    obtain ⟨h1, h2⟩ := (knownFrag_iff d hd m f).1 hf
    induction h with
    | spread h => exact .spread h h1 h2 ((condMatches_iff s _ t ht).1 hc) hr
    | inline h hc _ ih => exact .inline h ((condMatches_iff s _ t ht).1 hc) ih
  constructor
  · intro h
    induction h with
    | near h => exact near _ h
    | far hs hk hc _ ih =>
      obtain ⟨k, ih⟩ := ih
      exact ⟨k, spr _ _ k hk hc ih _ hs⟩
  · rintro ⟨k, h⟩
    induction h with
    | field h _ => exact .near (.field h)
    | inline h hc _ ih =>
      have hc := (condMatches_iff s _ t ht).2 hc
      cases ih with
      | near ih => exact .near (.inline h hc ih)
      | far h1 h2 h3 h4 => exact .far (.inline h hc h1) h2 h3 h4
    | spread h hf hn hc _ ih =>
      exact .far (.spread h) ((knownFrag_iff d hd _ _).2 ⟨hf, hn⟩) ((condMatches_iff s _ t ht).2 hc) ih

theorem eraseDups_le_one (l : List Name) : l.eraseDups.length ≤ 1 ↔ ∀ a ∈ l, ∀ b ∈ l, a = b := by
  cases l with
  | nil => simp
  | cons x xs =>
    rw [List.eraseDups_cons]
    simp only [List.length_cons]
    constructor
    · intro h
      have hz : (xs.filter (fun b => !b == x)).eraseDups.length = 0 := by omega
      have hall : ∀ y ∈ xs, y = x := by
        intro y hy
        refine Classical.byContradiction (fun hne => ?_)
        have : y ∈ (xs.filter (fun b => !b == x)).eraseDups := by
          rw [List.mem_eraseDups, List.mem_filter]
          exact ⟨hy, by simp [hne]⟩
        rw [List.length_eq_zero_iff.1 hz] at this
        cases this
      intro a ha b hb
      rcases List.mem_cons.1 ha with h1 | h1 <;> rcases List.mem_cons.1 hb with h2 | h2
      · rw [h1, h2]
      · rw [h1, hall b h2]
      · rw [h2, hall a h1]
      · rw [hall a h1, hall b h2]
    · intro h
      have : xs.filter (fun b => !b == x) = [] := by
        rw [List.filter_eq_nil_iff]
        intro y hy
        simp [h y (by simp [hy]) x (by simp)]
      rw [this]
      simp

/-- The rule on subscriptions. -/
theorem singleFieldSubscriptions_iff (s : Schema) (d : Doc) (hd : ((frags d).map (·.name)).Nodup)
    (hs : ∀ t, s.subscription.bind s.typeByName = some t → ∃ n is fs, t = .object n is fs) :
    singleFieldSubscriptions s d = false ↔
      ∀ o ∈ ops d, o.kind = .subscription → ∀ t, s.subscription.bind s.typeByName = some t →
        (∀ n k n' k', RootField s d t n k o.sels → RootField s d t n' k' o.sels → n = n') ∧
        (∀ n k, RootField s d t n k o.sels → ¬ Reserved n) := by
  unfold singleFieldSubscriptions
  rw [List.any_eq_false]
  refine forall_congr' fun o => forall_congr' fun _ => ?_
  rw [Bool.not_eq_true, Bool.and_eq_false_iff]
  cases hk : o.kind with
  | query => simp
  | mutation => simp
  | subscription =>
    simp only [beq_self_eq_true, Bool.true_eq_false, false_or, true_implies]
    cases ht : s.subscription.bind s.typeByName with
    | none => simp
    | some t =>
      simp only [Option.some.injEq, forall_eq', Bool.or_eq_false_iff, decide_eq_false_iff_not,
        List.any_eq_false]
      have hm : ∀ n, n ∈ collectFields s d t o.sels ↔ ∃ k, RootField s d t n k o.sels :=
        fun n => (mem_collectFields_far s d t o.sels n).trans (far_iff s d hd t (hs t ht) n o.sels)
      rw [Nat.not_lt, eraseDups_le_one]
      constructor
      · rintro ⟨h1, h2⟩
        refine ⟨fun n k n' k' h h' => h1 n ((hm n).2 ⟨k, h⟩) n' ((hm n').2 ⟨k', h'⟩), fun n k h hr => ?_⟩
        exact h2 n ((hm n).2 ⟨k, h⟩) ((reserved_iff n).2 hr)
      · rintro ⟨h1, h2⟩
        refine ⟨fun a ha b hb => ?_, fun n hn hr => ?_⟩
        · obtain ⟨k, ha⟩ := (hm a).1 ha
          obtain ⟨k', hb⟩ := (hm b).1 hb
          exact h1 _ _ _ _ ha hb
        · obtain ⟨k, hn⟩ := (hm n).1 hn
          exact h2 n k hn ((reserved_iff n).1 hr)

end Verif.Valid
