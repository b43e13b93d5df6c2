import Verif.Normalize.Spec
/-!
# Normalization: the semantics of lists, and the passes without errors
-/
namespace Verif.Normalize

variable {S : Schema} {σ : Name → Bool} {frs : List Frag}

/-! ## Picks, one item at a time -/

theorem picks_nil {h : Name × Label} {p : Path} : ¬ Picks S σ frs [] (h :: p) := by
  intro hp
  cases hp with
  | field hm _ _ => cases hm
  | frag hm _ _ _ => cases hm
  | spread hm _ _ _ _ => cases hm

theorem picks_mono {s t : List Sel} {p : Path} (hst : ∀ x ∈ s, x ∈ t) (h : Picks S σ frs s p) :
    Picks S σ frs t p := by
  cases h with
  | here => exact .here _
  | field hm hi hp => exact .field (hst _ hm) hi hp
  | frag hm hi ha hp => exact .frag (hst _ hm) hi ha hp
  | spread hm hi hf hc hp => exact .spread (hst _ hm) hi hf hc hp

theorem picks_exists {s : List Sel} {h : Name × Label} {p : Path} :
    Picks S σ frs s (h :: p) ↔ ∃ x ∈ s, Picks S σ frs [x] (h :: p) := by
  constructor
  · intro hp
    cases hp with
    | field hm hi hp => exact ⟨_, hm, .field (by simp) hi hp⟩
    | frag hm hi ha hp => exact ⟨_, hm, .frag (by simp) hi ha hp⟩
    | spread hm hi hf hc hp => exact ⟨_, hm, .spread (by simp) hi hf hc hp⟩
  · rintro ⟨x, hx, hp⟩
    exact picks_mono (by simpa using hx) hp

theorem picks_append {s t : List Sel} {h : Name × Label} {p : Path} :
    Picks S σ frs (s ++ t) (h :: p) ↔ Picks S σ frs s (h :: p) ∨ Picks S σ frs t (h :: p) := by
  rw [picks_exists, picks_exists (s := s), picks_exists (s := t)]
  constructor
  · rintro ⟨x, hx, hp⟩
    rcases List.mem_append.1 hx with h | h
    · exact .inl ⟨x, h, hp⟩
    · exact .inr ⟨x, h, hp⟩
  · rintro (⟨x, hx, hp⟩ | ⟨x, hx, hp⟩)
    · exact ⟨x, List.mem_append.2 (.inl hx), hp⟩
    · exact ⟨x, List.mem_append.2 (.inr hx), hp⟩

theorem picks_cons {x : Sel} {s : List Sel} {h : Name × Label} {p : Path} :
    Picks S σ frs (x :: s) (h :: p) ↔ Picks S σ frs [x] (h :: p) ∨ Picks S σ frs s (h :: p) :=
  picks_append (s := [x])

theorem picks_field {a : Option Name} {n : Name} {args : Args} {ds : List Dir} {sub : List Sel}
    {T : Name} {l : Label} {p : Path} :
    Picks S σ frs [.field a n args ds sub] ((T, l) :: p) ↔
      Included σ ds ∧ l = labelOf a n args ∧ Picks S σ frs sub p := by
  constructor
  · intro h
    cases h with
    | field hm hi hp =>
      simp only [List.mem_singleton, Sel.field.injEq] at hm
      obtain ⟨rfl, rfl, rfl, rfl, rfl⟩ := hm
      exact ⟨hi, rfl, hp⟩
    | frag hm _ _ _ => simp at hm
    | spread hm _ _ _ _ => simp at hm
  · rintro ⟨hi, rfl, hp⟩
    exact .field (by simp) hi hp

theorem picks_frag {c : Option Name} {ds : List Dir} {sub : List Sel}
    {T : Name} {l : Label} {p : Path} :
    Picks S σ frs [.frag c ds sub] ((T, l) :: p) ↔
      Included σ ds ∧ Applies S T c ∧ Picks S σ frs sub ((T, l) :: p) := by
  constructor
  · intro h
    cases h with
    | field hm _ _ => simp at hm
    | frag hm hi ha hp =>
      simp only [List.mem_singleton, Sel.frag.injEq] at hm
      obtain ⟨rfl, rfl, rfl⟩ := hm
      exact ⟨hi, ha, hp⟩
    | spread hm _ _ _ _ => simp at hm
  · rintro ⟨hi, ha, hp⟩
    exact .frag (by simp) hi ha hp

theorem picks_spread {n : Name} {ds : List Dir} {T : Name} {l : Label} {p : Path} :
    Picks S σ frs [.spread n ds] ((T, l) :: p) ↔
      Included σ ds ∧ ∃ f ∈ frs, f.name = n ∧ IsPossible S T f.cond ∧
        Picks S σ frs f.sels ((T, l) :: p) := by
  constructor
  · intro h
    cases h with
    | field hm _ _ => simp at hm
    | frag hm _ _ _ => simp at hm
    | spread hm hi hf hc hp =>
      simp only [List.mem_singleton, Sel.spread.injEq] at hm
      obtain ⟨rfl, rfl⟩ := hm
      exact ⟨hi, _, hf, rfl, hc, hp⟩
  · rintro ⟨hi, f, hf, rfl, hc, hp⟩
    exact .spread (by simp) hi hf hc hp

theorem included_nil : Included σ [] := ⟨by simp, by simp⟩

theorem included_append {a b : List Dir} :
    Included σ (a ++ b) ↔ Included σ a ∧ Included σ b := by
  unfold Included
  constructor
  · rintro ⟨h1, h2⟩
    exact ⟨⟨fun d hd => h1 d (by simp [hd]), fun d hd => h2 d (by simp [hd])⟩,
      ⟨fun d hd => h1 d (by simp [hd]), fun d hd => h2 d (by simp [hd])⟩⟩
  · rintro ⟨⟨h1, h2⟩, h3, h4⟩
    refine ⟨fun d hd => ?_, fun d hd => ?_⟩
    · rcases List.mem_append.1 hd with h | h
      · exact h1 d h
      · exact h3 d h
    · rcases List.mem_append.1 hd with h | h
      · exact h2 d h
      · exact h4 d h

theorem included_congr {a b : List Dir} (h : ∀ d, d ∈ a ↔ d ∈ b) : Included σ a ↔ Included σ b := by
  unfold Included
  simp only [h]

/-! ## drop_skipped_fields -/

theorem extract_of_mem {dn : Name} {b : Bool} : ∀ {ds : List Dir}, DirsOk ds → dn = "skip" ∨ dn = "include" →
    (extractCondition dn ds = some b ↔ ∃ d ∈ ds, d.name = dn ∧ d.args = [("if", .bool b)])
  | [], _, _ => by simp [extractCondition]
  | d :: r, h, hn => by
    have hr : DirsOk r := ⟨(List.nodup_cons.1 h.1).2, fun d hd => h.2 d (by simp [hd])⟩
    have ih := extract_of_mem (b := b) hr hn
    unfold extractCondition
    by_cases hd : d.name = dn
    · have hds : d.name = "skip" ∨ d.name = "include" := hd ▸ hn
      have hno : ∀ e ∈ r, e.name ≠ dn := by
        intro e he hen
        have := (List.nodup_cons.1 h.1).1
        exact this (List.mem_map.2 ⟨e, he, by rw [hen, hd]⟩)
      have hnone : extractCondition dn r ≠ some b := by
        intro hc
        obtain ⟨e, he, hen, _⟩ := ih.1 hc
        exact hno e he hen
      rcases h.2 d (by simp) hds with ⟨b', hb⟩ | ⟨v, hv⟩
      · simp only [hd, bne_self_eq_false, Bool.false_eq_true, if_false, hb, literalIf, beq_self_eq_true, if_true]
        constructor
        · intro hbb
          refine ⟨d, by simp, hd, ?_⟩
          rw [hb]
          simpa using hbb
        · rintro ⟨e, he, hen, hea⟩
          rcases List.mem_cons.1 he with rfl | he
          · rw [hb] at hea
            simpa using hea
          · exact absurd hen (hno e he)
      · simp only [hd, bne_self_eq_false, Bool.false_eq_true, if_false, hv, literalIf]
        constructor
        · intro hc
          exact absurd hc hnone
        · rintro ⟨e, he, hen, hea⟩
          rcases List.mem_cons.1 he with rfl | he
          · rw [hv] at hea
            simp at hea
          · exact absurd hen (hno e he)
    · have : (d.name != dn) = true := by simpa using hd
      simp only [this, if_true, ih, List.mem_cons, exists_eq_or_imp, hd, false_and, false_or]

/-- Directives that do not drop their selection for every variable assignment. -/
def Live (ds : List Dir) : Prop := DirsOk ds ∧ shouldKeep ds = true

theorem lookup_one {v : Val} : ([("if", v)] : Args).lookup "if" = some v := rfl

theorem not_keep_not_included {ds : List Dir} (h : DirsOk ds) (hk : shouldKeep ds = false) :
    ¬ Included σ ds := by
  rintro ⟨h1, h2⟩
  have : extractCondition "skip" ds = some true ∨ extractCondition "include" ds = some false := by
    unfold shouldKeep at hk
    by_cases hs : extractCondition "skip" ds = some true
    · exact .inl hs
    · right
      simpa [hs] using hk
  rcases this with hs | hs
  · obtain ⟨d, hd, hn, ha⟩ := (extract_of_mem h (.inl rfl)).1 hs
    exact h1 d hd hn (.inl (by rw [ha]; rfl))
  · obtain ⟨d, hd, hn, ha⟩ := (extract_of_mem h (.inr rfl)).1 hs
    rcases h2 d hd hn with h | ⟨v, h, _⟩ <;> rw [ha, lookup_one] at h <;> simp at h

theorem keep_of_included {ds : List Dir} (h : DirsOk ds) (hi : Included σ ds) :
    shouldKeep ds = true := by
  cases hk : shouldKeep ds with
  | true => rfl
  | false => exact absurd hi (not_keep_not_included h hk)

/-- A spread-free or not selection as validation leaves it, every list of directives. -/
def AllOk (D : List Dir → Prop) (s : List Sel) : Prop := ∀ x ∈ s, SelOk D x

theorem allOk_nil {D : List Dir → Prop} : AllOk D [] := by intro x hx; cases hx

theorem allOk_cons {D : List Dir → Prop} {x : Sel} {r : List Sel} :
    AllOk D (x :: r) ↔ SelOk D x ∧ AllOk D r := by
  unfold AllOk
  simp

theorem allOk_append {D : List Dir → Prop} {a b : List Sel} :
    AllOk D (a ++ b) ↔ AllOk D a ∧ AllOk D b := by
  unfold AllOk
  constructor
  · intro h
    exact ⟨fun x hx => h x (by simp [hx]), fun x hx => h x (by simp [hx])⟩
  · rintro ⟨h1, h2⟩ x hx
    rcases List.mem_append.1 hx with h | h
    · exact h1 x h
    · exact h2 x h

theorem selOk_field {D : List Dir → Prop} {a n args ds sub} :
    SelOk D (.field a n args ds sub) ↔ ArgsOk args ∧ D ds ∧ AllOk D sub := by
  constructor
  · intro h
    cases h with
    | field h1 h2 h3 => exact ⟨h1, h2, h3⟩
  · rintro ⟨h1, h2, h3⟩
    exact .field h1 h2 h3

theorem selOk_frag {D : List Dir → Prop} {c ds sub} :
    SelOk D (.frag c ds sub) ↔ D ds ∧ AllOk D sub := by
  constructor
  · intro h
    cases h with
    | frag h2 h3 => exact ⟨h2, h3⟩
  · rintro ⟨h2, h3⟩
    exact .frag h2 h3

theorem selOk_spread {D : List Dir → Prop} {n ds} : SelOk D (.spread n ds) ↔ D ds := by
  constructor
  · intro h
    cases h with
    | spread h => exact h
  · exact .spread

theorem mem_dropSkipped : ∀ {s : List Sel} {y : Sel},
    y ∈ dropSkipped s ↔ ∃ x ∈ s, y ∈ dropSkipped1 x
  | [], y => by simp [dropSkipped]
  | x :: r, y => by simp [dropSkipped, mem_dropSkipped (s := r)]

mutual
theorem dropSkipped1_ok : ∀ {x : Sel}, SelOk DirsOk x → AllOk Live (dropSkipped1 x)
  | .field a n args ds sub, h => by
    obtain ⟨h1, h2, h3⟩ := selOk_field.1 h
    unfold dropSkipped1
    split
    · rename_i hk
      exact allOk_cons.2 ⟨selOk_field.2 ⟨h1, ⟨h2, hk⟩, dropSkipped_ok h3⟩, allOk_nil⟩
    · exact allOk_nil
  | .frag c ds sub, h => by
    obtain ⟨h2, h3⟩ := selOk_frag.1 h
    unfold dropSkipped1
    split
    · rename_i hk
      exact allOk_cons.2 ⟨selOk_frag.2 ⟨⟨h2, hk⟩, dropSkipped_ok h3⟩, allOk_nil⟩
    · exact allOk_nil
  | .spread n ds, h => by
    unfold dropSkipped1
    split
    · rename_i hk
      exact allOk_cons.2 ⟨selOk_spread.2 ⟨selOk_spread.1 h, hk⟩, allOk_nil⟩
    · exact allOk_nil
theorem dropSkipped_ok : ∀ {s : List Sel}, AllOk DirsOk s → AllOk Live (dropSkipped s)
  | [], _ => by simp [dropSkipped, allOk_nil]
  | x :: r, h => by
    obtain ⟨h1, h2⟩ := allOk_cons.1 h
    unfold dropSkipped
    exact allOk_append.2 ⟨dropSkipped1_ok h1, dropSkipped_ok h2⟩
end

/-- The fragments after the pass. -/
def dropFrags (frs : List Frag) : List Frag :=
  frs.map (fun f => { f with sels := dropSkipped f.sels })

theorem dropSkipped_picks_mp {s : List Sel} {p : Path} (hp : Picks S σ frs s p)
    (hs : AllOk DirsOk s) (hf : ∀ f ∈ frs, AllOk DirsOk f.sels) :
    Picks S σ (dropFrags frs) (dropSkipped s) p := by
  induction hp with
  | here => exact .here _
  | field hm hi _ ih =>
    obtain ⟨_, h2, h3⟩ := selOk_field.1 (hs _ hm)
    refine .field (mem_dropSkipped.2 ⟨_, hm, ?_⟩) hi (ih h3)
    unfold dropSkipped1
    rw [if_pos (keep_of_included h2 hi)]
    simp
  | frag hm hi ha _ ih =>
    obtain ⟨h2, h3⟩ := selOk_frag.1 (hs _ hm)
    refine .frag (mem_dropSkipped.2 ⟨_, hm, ?_⟩) hi ha (ih h3)
    unfold dropSkipped1
    rw [if_pos (keep_of_included h2 hi)]
    simp
  | @spread s ds f T l p hm hi hfm hc _ ih =>
    have h2 := selOk_spread.1 (hs _ hm)
    have : shouldKeep ds = true := by
      cases hk : shouldKeep ds with
      | true => rfl
      | false => exact absurd hi (not_keep_not_included h2 hk)
    exact .spread (f := { f with sels := dropSkipped f.sels })
      (mem_dropSkipped.2 ⟨_, hm, by unfold dropSkipped1; rw [if_pos this]; simp⟩) hi
      (List.mem_map.2 ⟨f, hfm, rfl⟩) hc (ih (hf f hfm))

theorem mem_dropSkipped1_field {x : Sel} {a n args ds sub}
    (h : Sel.field a n args ds sub ∈ dropSkipped1 x) :
    ∃ sub', x = .field a n args ds sub' ∧ sub = dropSkipped sub' := by
  cases x with
  | field a' n' args' ds' sub' =>
    unfold dropSkipped1 at h
    split at h
    · simp only [List.mem_singleton, Sel.field.injEq] at h
      obtain ⟨rfl, rfl, rfl, rfl, rfl⟩ := h
      exact ⟨_, rfl, rfl⟩
    · cases h
  | frag c ds' sub' =>
    unfold dropSkipped1 at h
    split at h <;> simp at h
  | spread n' ds' =>
    unfold dropSkipped1 at h
    split at h <;> simp at h

theorem mem_dropSkipped1_frag {x : Sel} {c ds sub}
    (h : Sel.frag c ds sub ∈ dropSkipped1 x) :
    ∃ sub', x = .frag c ds sub' ∧ sub = dropSkipped sub' := by
  cases x with
  | field a' n' args' ds' sub' =>
    unfold dropSkipped1 at h
    split at h <;> simp at h
  | frag c' ds' sub' =>
    unfold dropSkipped1 at h
    split at h
    · simp only [List.mem_singleton, Sel.frag.injEq] at h
      obtain ⟨rfl, rfl, rfl⟩ := h
      exact ⟨_, rfl, rfl⟩
    · cases h
  | spread n' ds' =>
    unfold dropSkipped1 at h
    split at h <;> simp at h

theorem mem_dropSkipped1_spread {x : Sel} {n ds}
    (h : Sel.spread n ds ∈ dropSkipped1 x) : x = .spread n ds := by
  cases x with
  | field a' n' args' ds' sub' =>
    unfold dropSkipped1 at h
    split at h <;> simp at h
  | frag c' ds' sub' =>
    unfold dropSkipped1 at h
    split at h <;> simp at h
  | spread n' ds' =>
    unfold dropSkipped1 at h
    split at h
    · simp only [List.mem_singleton, Sel.spread.injEq] at h
      obtain ⟨rfl, rfl⟩ := h
      rfl
    · cases h

theorem dropSkipped_picks_mpr {t : List Sel} {p : Path} (hp : Picks S σ (dropFrags frs) t p) :
    ∀ s, t = dropSkipped s → Picks S σ frs s p := by
  induction hp with
  | here => intro s _; exact .here _
  | field hm hi _ ih =>
    rintro s rfl
    obtain ⟨x, hx, hy⟩ := mem_dropSkipped.1 hm
    obtain ⟨sub', rfl, hs⟩ := mem_dropSkipped1_field hy
    exact .field hx hi (ih _ hs)
  | frag hm hi ha _ ih =>
    rintro s rfl
    obtain ⟨x, hx, hy⟩ := mem_dropSkipped.1 hm
    obtain ⟨sub', rfl, hs⟩ := mem_dropSkipped1_frag hy
    exact .frag hx hi ha (ih _ hs)
  | spread hm hi hfm hc _ ih =>
    rintro s rfl
    obtain ⟨x, hx, hy⟩ := mem_dropSkipped.1 hm
    have := mem_dropSkipped1_spread hy
    subst this
    obtain ⟨f, hf, rfl⟩ := List.mem_map.1 hfm
    exact .spread (f := f) hx hi hf hc (ih _ rfl)

theorem dropSkipped_picks {s : List Sel} {p : Path}
    (hs : AllOk DirsOk s) (hf : ∀ f ∈ frs, AllOk DirsOk f.sels) :
    Picks S σ (dropFrags frs) (dropSkipped s) p ↔ Picks S σ frs s p :=
  ⟨fun h => dropSkipped_picks_mpr h s rfl, fun h => dropSkipped_picks_mp h hs hf⟩

/-! ## normalize_fields -/

theorem mem_insertKey {α : Type} {key : α → Name} {x y : α} : ∀ {l : List α},
    y ∈ insertKey key x l ↔ y = x ∨ y ∈ l
  | [] => by simp [insertKey]
  | z :: r => by
    unfold insertKey
    split
    · simp
    · simp only [List.mem_cons, mem_insertKey (l := r)]
      constructor
      · rintro (h | h | h) <;> simp [h]
      · rintro (h | h | h) <;> simp [h]

theorem insertKey_perm {α : Type} {key : α → Name} {x : α} : ∀ {l : List α},
    (insertKey key x l).Perm (x :: l)
  | [] => List.Perm.refl _
  | z :: r => by
    unfold insertKey
    split
    · exact List.Perm.refl _
    · exact (List.Perm.cons z insertKey_perm).trans (List.Perm.swap x z r)

theorem foldl_insert_perm {α : Type} {key : α → Name} : ∀ (l acc : List α),
    (l.foldl (fun acc x => insertKey key x acc) acc).Perm (l ++ acc)
  | [], acc => List.Perm.refl _
  | x :: r, acc => by
    refine (foldl_insert_perm r (insertKey key x acc)).trans ?_
    exact (List.Perm.append_left r insertKey_perm).trans List.perm_middle

theorem sortKey_perm {α : Type} {key : α → Name} {l : List α} : (sortKey key l).Perm l := by
  have := foldl_insert_perm (key := key) l []
  rwa [List.append_nil] at this

theorem mem_sortKey {α : Type} {key : α → Name} {l : List α} {y : α} :
    y ∈ sortKey key l ↔ y ∈ l := sortKey_perm.mem_iff

theorem lookup_perm {x : Name} : ∀ {a b : Args}, a.Perm b → ArgsOk a → a.lookup x = b.lookup x := by
  intro a b h
  induction h with
  | nil => intro _; rfl
  | cons y _ ih =>
    intro ha
    obtain ⟨k, v⟩ := y
    have := ih (List.nodup_cons.1 ha).2
    simp only [List.lookup_cons, this]
  | swap y z l =>
    intro ha
    obtain ⟨k, v⟩ := y
    obtain ⟨k', v'⟩ := z
    have hne : k' ≠ k := by
      intro h
      have := (List.nodup_cons.1 ha).1
      simp [h] at this
    simp only [List.lookup_cons]
    by_cases h1 : x = k
    · have : ¬ x = k' := by rw [h1]; exact fun h => hne h.symm
      simp [h1, this, beq_eq_false_iff_ne.2 (fun h => hne h.symm)]
    · have : (x == k) = false := by simpa using h1
      simp [this]
  | trans h1 _ ih1 ih2 =>
    intro ha
    rw [ih1 ha]
    exact ih2 ((h1.map (fun x : Name × Val => x.1)).nodup_iff.1 ha)

theorem argsOk_sort {args : Args} (h : ArgsOk args) : ArgsOk (sortKey (·.1) args) :=
  ((sortKey_perm.map (fun x : Name × Val => x.1)).nodup_iff).2 h

theorem labelOf_sort {a : Option Name} {n : Name} {args : Args} (h : ArgsOk args) :
    labelOf (dropAlias a n) n (sortKey (·.1) args) = labelOf a n args := by
  unfold labelOf dropAlias
  congr 1
  · split
    · rename_i ha
      have : a = some n := by simpa using ha
      simp [this]
    · rfl
  · funext x
    exact lookup_perm sortKey_perm (argsOk_sort h)

theorem extract_perm {dn : Name} (hn : dn = "skip" ∨ dn = "include") {b : Bool} {ds es : List Dir} (h : ds.Perm es) (ho : DirsOk ds)
    (ho' : DirsOk es) : (extractCondition dn ds = some b ↔ extractCondition dn es = some b) := by
  rw [extract_of_mem ho hn, extract_of_mem ho' hn]
  constructor
  · rintro ⟨d, hd, h1⟩; exact ⟨d, h.mem_iff.1 hd, h1⟩
  · rintro ⟨d, hd, h1⟩; exact ⟨d, h.mem_iff.2 hd, h1⟩

theorem dirsOk_perm {ds es : List Dir} (h : ds.Perm es) (ho : DirsOk ds) : DirsOk es :=
  ⟨((h.map Dir.name).nodup_iff).1 ho.1, fun d hd => ho.2 d (h.mem_iff.2 hd)⟩

theorem live_perm {ds es : List Dir} (h : ds.Perm es) (ho : Live ds) : Live es := by
  have h' := dirsOk_perm h ho.1
  refine ⟨h', ?_⟩
  have hk := ho.2
  unfold shouldKeep at hk ⊢
  simp only [Bool.and_eq_true, Bool.not_eq_true', beq_eq_false_iff_ne, ne_eq] at hk ⊢
  exact ⟨fun hc => hk.1 ((extract_perm (.inl rfl) h ho.1 h').2 hc),
    fun hc => hk.2 ((extract_perm (.inr rfl) h ho.1 h').2 hc)⟩

theorem included_sort {ds : List Dir} : Included σ (sortKey Dir.name ds) ↔ Included σ ds :=
  included_congr fun _ => mem_sortKey

mutual
theorem normalize1_ok : ∀ {x : Sel}, SelOk Live x → SelOk Live (normalize1 x)
  | .field a n args ds sub, h => by
    obtain ⟨h1, h2, h3⟩ := selOk_field.1 h
    unfold normalize1
    exact selOk_field.2 ⟨argsOk_sort h1, live_perm sortKey_perm.symm h2, h3⟩
  | .frag c ds sub, h => by
    obtain ⟨h2, h3⟩ := selOk_frag.1 h
    unfold normalize1
    exact selOk_frag.2 ⟨live_perm sortKey_perm.symm h2, normalizeFields_ok h3⟩
  | .spread n ds, h => by
    unfold normalize1
    exact h
theorem normalizeFields_ok : ∀ {s : List Sel}, AllOk Live s → AllOk Live (normalizeFields s)
  | [], _ => by simp [normalizeFields, allOk_nil]
  | x :: r, h => by
    obtain ⟨h1, h2⟩ := allOk_cons.1 h
    unfold normalizeFields
    exact allOk_cons.2 ⟨normalize1_ok h1, normalizeFields_ok h2⟩
end

theorem mem_normalizeFields : ∀ {s : List Sel} {y : Sel},
    y ∈ normalizeFields s ↔ ∃ x ∈ s, y = normalize1 x
  | [], y => by simp [normalizeFields]
  | x :: r, y => by simp [normalizeFields, mem_normalizeFields (s := r)]

/-- The fragments after the pass. -/
def normalizeFrags (frs : List Frag) : List Frag :=
  frs.map (fun f => { f with sels := normalizeFields f.sels })

/-- A field's own selections are not visited, but the fragments they spread are, so the
statement is about both. -/
theorem normalize_picks_mp {s : List Sel} {p : Path} (hp : Picks S σ frs s p)
    (hs : AllOk Live s) (hf : ∀ f ∈ frs, AllOk Live f.sels) :
    Picks S σ (normalizeFrags frs) s p ∧ Picks S σ (normalizeFrags frs) (normalizeFields s) p := by
  induction hp with
  | here => exact ⟨.here _, .here _⟩
  | field hm hi _ ih =>
    obtain ⟨h1, h2, h3⟩ := selOk_field.1 (hs _ hm)
    refine ⟨.field hm hi (ih h3).1, ?_⟩
    rw [← labelOf_sort h1]
    exact .field (ds := sortKey Dir.name _) (mem_normalizeFields.2 ⟨_, hm, by unfold normalize1; rfl⟩)
      (included_sort.2 hi) (ih h3).1
  | frag hm hi ha _ ih =>
    obtain ⟨h2, h3⟩ := selOk_frag.1 (hs _ hm)
    exact ⟨.frag hm hi ha (ih h3).1, .frag (ds := sortKey Dir.name _)
      (mem_normalizeFields.2 ⟨_, hm, by unfold normalize1; rfl⟩) (included_sort.2 hi) ha (ih h3).2⟩
  | @spread s ds f T l p hm hi hfm hc _ ih =>
    have := (ih (hf f hfm)).2
    exact ⟨.spread (f := { f with sels := normalizeFields f.sels }) hm hi
        (List.mem_map.2 ⟨f, hfm, rfl⟩) hc this,
      .spread (f := { f with sels := normalizeFields f.sels })
        (mem_normalizeFields.2 ⟨_, hm, by unfold normalize1; rfl⟩) hi
        (List.mem_map.2 ⟨f, hfm, rfl⟩) hc this⟩

theorem normalize_picks_mpr {t : List Sel} {p : Path} (hp : Picks S σ (normalizeFrags frs) t p)
    (hf : ∀ f ∈ frs, AllOk Live f.sels) :
    ∀ s, AllOk Live s → (t = s ∨ t = normalizeFields s) → Picks S σ frs s p := by
  induction hp with
  | here => intro s _ _; exact .here _
  | field hm hi _ ih =>
    rintro s hs (rfl | rfl)
    · obtain ⟨h1, h2, h3⟩ := selOk_field.1 (hs _ hm)
      exact .field hm hi (ih _ h3 (.inl rfl))
    · obtain ⟨x, hx, hy⟩ := mem_normalizeFields.1 hm
      cases x with
      | field a n args ds sub =>
        obtain ⟨h1, h2, h3⟩ := selOk_field.1 (hs _ hx)
        unfold normalize1 at hy
        simp only [Sel.field.injEq] at hy
        obtain ⟨rfl, rfl, rfl, rfl, rfl⟩ := hy
        rw [labelOf_sort h1]
        exact .field hx (included_sort.1 hi) (ih _ h3 (.inl rfl))
      | frag c ds sub => unfold normalize1 at hy; cases hy
      | spread n ds => unfold normalize1 at hy; cases hy
  | frag hm hi ha _ ih =>
    rintro s hs (rfl | rfl)
    · obtain ⟨h2, h3⟩ := selOk_frag.1 (hs _ hm)
      exact .frag hm hi ha (ih _ h3 (.inl rfl))
    · obtain ⟨x, hx, hy⟩ := mem_normalizeFields.1 hm
      cases x with
      | field a n args ds sub => unfold normalize1 at hy; cases hy
      | frag c ds sub =>
        obtain ⟨h2, h3⟩ := selOk_frag.1 (hs _ hx)
        unfold normalize1 at hy
        simp only [Sel.frag.injEq] at hy
        obtain ⟨rfl, rfl, rfl⟩ := hy
        exact .frag hx (included_sort.1 hi) ha (ih _ h3 (.inr rfl))
      | spread n ds => unfold normalize1 at hy; cases hy
  | spread hm hi hfm hc _ ih =>
    obtain ⟨f, hf', rfl⟩ := List.mem_map.1 hfm
    have hb := ih f.sels (hf f hf') (.inr rfl)
    rintro s hs (rfl | rfl)
    · exact .spread (f := f) hm hi hf' hc hb
    · obtain ⟨x, hx, hy⟩ := mem_normalizeFields.1 hm
      cases x with
      | field a n args ds sub => unfold normalize1 at hy; cases hy
      | frag c ds sub => unfold normalize1 at hy; cases hy
      | spread n ds =>
        unfold normalize1 at hy
        simp only [Sel.spread.injEq] at hy
        obtain ⟨rfl, rfl⟩ := hy
        exact .spread (f := f) hx hi hf' hc hb

theorem normalize_picks {s : List Sel} {p : Path} (hs : AllOk Live s)
    (hf : ∀ f ∈ frs, AllOk Live f.sels) :
    Picks S σ (normalizeFrags frs) (normalizeFields s) p ↔ Picks S σ frs s p :=
  ⟨fun h => normalize_picks_mpr h hf s hs (.inr rfl), fun h => (normalize_picks_mp h hs hf).2⟩

end Verif.Normalize
