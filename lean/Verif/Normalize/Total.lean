import Verif.Normalize.Props
/-!
# Normalization of valid operations does not fail

What GraphQL validation guarantees of an operation, as far as the passes depend on it, and the
proof that under these guarantees every pass succeeds: no error, no panic, and the step counters
of the model never run out.
-/
namespace Verif.Normalize

variable {S : Schema} {frs : List Frag}

/-! ## What validation guarantees -/

/-- Every fragment spread inside is of a known fragment of a rank below `r` (rules
`KnownFragmentNames` and `NoFragmentCycles`). -/
inductive SpreadsBelow (frs : List Frag) (rank : Name → Nat) (r : Nat) : Sel → Prop where
  | field {a : Option Name} {n : Name} {args : Args} {ds : List Dir} {sub : List Sel} :
      (∀ x ∈ sub, SpreadsBelow frs rank r x) → SpreadsBelow frs rank r (.field a n args ds sub)
  | frag {c : Option Name} {ds : List Dir} {sub : List Sel} :
      (∀ x ∈ sub, SpreadsBelow frs rank r x) → SpreadsBelow frs rank r (.frag c ds sub)
  | spread {f : Frag} {ds : List Dir} :
      f ∈ frs → rank f.name < r → SpreadsBelow frs rank r (.spread f.name ds)

/-- The selection is one on the type `P`, with `some P`; with `none` it is one below an
introspection field, of which only this is asked: inline fragments have a type condition. Fields
exist and their types are known (rules `FieldsOnCorrectType`, `KnownTypeNames`). `bare` says whether
inline fragments without type condition may occur elsewhere. -/
inductive Typed (S : Schema) (frs : List Frag) (bare : Bool) : Option Name → Sel → Prop where
  | field {P A : Name} {a : Option Name} {n : Name} {args : Args} {ds : List Dir}
      {sub : List Sel} : isIntro n = false → S.fieldTy P n = some A →
      (∀ x ∈ sub, Typed S frs bare (some A) x) → Typed S frs bare (some P) (.field a n args ds sub)
  | intro {P : Name} {a : Option Name} {n : Name} {args : Args} {ds : List Dir} {sub : List Sel} :
      isIntro n = true → (∀ x ∈ sub, Typed S frs bare none x) →
      Typed S frs bare (some P) (.field a n args ds sub)
  | inner {a : Option Name} {n : Name} {args : Args} {ds : List Dir} {sub : List Sel} :
      (∀ x ∈ sub, Typed S frs bare none x) → Typed S frs bare none (.field a n args ds sub)
  | bare {P : Name} {ds : List Dir} {sub : List Sel} : bare = true →
      (∀ x ∈ sub, Typed S frs bare (some P) x) → Typed S frs bare (some P) (.frag none ds sub)
  | frag {P C : Name} {ds : List Dir} {sub : List Sel} : (S.get C).isSome = true →
      (∀ x ∈ sub, Typed S frs bare (some C) x) → Typed S frs bare (some P) (.frag (some C) ds sub)
  | fragInner {C : Name} {ds : List Dir} {sub : List Sel} :
      (∀ x ∈ sub, Typed S frs bare none x) → Typed S frs bare none (.frag (some C) ds sub)
  | spread {P : Name} {f : Frag} {ds : List Dir} : f ∈ frs → (S.get f.cond).isSome = true →
      (∀ x ∈ f.sels, Typed S frs bare (some f.cond) x) →
      Typed S frs bare (some P) (.spread f.name ds)
  | spreadInner {f : Frag} {ds : List Dir} : f ∈ frs →
      (∀ x ∈ f.sels, Typed S frs bare none x) → Typed S frs bare none (.spread f.name ds)

/-- A valid document: fragment cycles do not exist and the operation is one on its root type. -/
structure OpValid (S : Schema) (frs : List Frag) (R : Name) (s : List Sel) : Prop where
  acyclic : ∃ rank : Name → Nat, (∀ f ∈ frs, ∀ x ∈ f.sels, SpreadsBelow frs rank (rank f.name) x) ∧
    ∃ r, ∀ x ∈ s, SpreadsBelow frs rank r x
  typed : ∀ x ∈ s, Typed S frs true (some R) x
  unique : (frs.map Frag.name).Nodup
  root : (S.get R).isSome = true

/-- A valid schema: `Sub B A` is GraphQL's "is a subtype of" on named types. An object is a subtype
of the interfaces and unions it belongs to, a subtype has the fields of its supertypes with the
same types or subtypes, and types of fields and possible types are defined. -/
structure SchemaTyped (S : Schema) (Sub : Name → Name → Prop) : Prop where
  possible : ∀ T P, IsPossible S T P → Sub T P ∧ S.isObject T = true
  field : ∀ B A n X, Sub B A → S.fieldTy A n = some X → ∃ Y, S.fieldTy B n = some Y ∧ Sub Y X
  known : ∀ P n A, S.fieldTy P n = some A → (S.get A).isSome = true

/-! ## Depth -/

theorem depth_le {d : Nat} : ∀ {s : List Sel}, depth s ≤ d ↔ ∀ x ∈ s, depth1 x ≤ d
  | [] => by simp [depth]
  | x :: r => by
    unfold depth
    rw [Nat.max_le, depth_le (s := r)]
    simp

theorem depth1_mem {s : List Sel} {x : Sel} (h : x ∈ s) : depth1 x ≤ depth s :=
  depth_le.1 (Nat.le_refl _) x h

theorem depth_append {s t : List Sel} {d : Nat} : depth (s ++ t) ≤ d ↔ depth s ≤ d ∧ depth t ≤ d := by
  simp only [depth_le, List.mem_append]
  constructor
  · intro h; exact ⟨fun x hx => h x (.inl hx), fun x hx => h x (.inr hx)⟩
  · rintro ⟨h1, h2⟩ x (hx | hx)
    · exact h1 x hx
    · exact h2 x hx

theorem depth_field {s : List Sel} {a n args ds sub} (h : Sel.field a n args ds sub ∈ s) :
    depth sub + 1 ≤ depth s := depth1_mem h

theorem depth_frag {s : List Sel} {c ds sub} (h : Sel.frag c ds sub ∈ s) :
    depth sub + 1 ≤ depth s := depth1_mem h

theorem depth_spread {s : List Sel} {n ds} (h : Sel.spread n ds ∈ s) : 1 ≤ depth s := depth1_mem h

theorem depth_one {x : Sel} : depth [x] = depth1 x := by
  simp [depth]

theorem fragDepth_mem {f : Frag} : ∀ {l : List Frag}, f ∈ l → depth f.sels ≤ fragDepth l
  | [], h => by cases h
  | g :: r, h => by
    unfold fragDepth
    rcases List.mem_cons.1 h with rfl | h
    · exact Nat.le_max_left _ _
    · exact Nat.le_trans (fragDepth_mem h) (Nat.le_max_right _ _)

/-! ## Loops -/

theorem concatM_total {α β : Type} {f : α → Except Err (List β)} : ∀ {l : List α},
    (∀ a ∈ l, ∃ y, f a = .ok y) → ∃ r, concatM f l = .ok r
  | [], _ => ⟨[], rfl⟩
  | a :: l, h => by
    obtain ⟨y, hy⟩ := h a (by simp)
    obtain ⟨r, hr⟩ := concatM_total (l := l) fun b hb => h b (by simp [hb])
    exact ⟨y ++ r, by unfold concatM; rw [hy]; simp only [bind, Except.bind]; rw [hr]⟩

theorem foldM_total {f : List Sel → Sel → Except Err (List Sel)} {I : List Sel → Prop} :
    ∀ {s acc : List Sel}, I acc → (∀ acc a, a ∈ s → I acc → ∃ y, f acc a = .ok y ∧ I y) →
    ∃ r, foldM f acc s = .ok r ∧ I r
  | [], acc, hI, _ => ⟨acc, rfl, hI⟩
  | a :: s, acc, hI, h => by
    obtain ⟨y, hy, hIy⟩ := h acc a (by simp) hI
    obtain ⟨r, hr, hIr⟩ := foldM_total (s := s) hIy fun acc b hb => h acc b (by simp [hb])
    exact ⟨r, by unfold foldM; rw [hy]; exact hr, hIr⟩

theorem length_le_of_subset : ∀ {a b : List Name}, a.Nodup → (∀ x ∈ a, x ∈ b) → a.length ≤ b.length
  | [], b, _, _ => Nat.zero_le _
  | x :: a, b, hn, h => by
    obtain ⟨h1, h2⟩ := List.nodup_cons.1 hn
    have hx : x ∈ b := h x (by simp)
    have := length_le_of_subset (a := a) (b := b.erase x) h2 (by
      intro y hy
      have hne : y ≠ x := by rintro rfl; exact h1 hy
      exact (List.mem_erase_of_ne hne).2 (h y (by simp [hy])))
    rw [List.length_erase_of_mem hx] at this
    have hpos : 0 < b.length := List.length_pos_of_mem hx
    simp only [List.length_cons]
    omega

/-! ## inline_fragment_spreads -/

theorem spreads_field {rank : Name → Nat} {r : Nat} {a n args ds sub}
    (h : SpreadsBelow frs rank r (.field a n args ds sub)) :
    ∀ x ∈ sub, SpreadsBelow frs rank r x := by
  cases h with
  | field h => exact h

theorem spreads_frag {rank : Name → Nat} {r : Nat} {c ds sub}
    (h : SpreadsBelow frs rank r (.frag c ds sub)) : ∀ x ∈ sub, SpreadsBelow frs rank r x := by
  cases h with
  | frag h => exact h

theorem spreads_spread {rank : Name → Nat} {r : Nat} {n : Name} {ds}
    (h : SpreadsBelow frs rank r (.spread n ds)) : ∃ f ∈ frs, f.name = n ∧ rank n < r := by
  generalize hx : Sel.spread n ds = x at h
  cases h with
  | field h => cases hx
  | frag h => cases hx
  | spread hf hr =>
    cases hx
    exact ⟨_, hf, rfl, hr⟩

theorem getFrag_some (h : (frs.map Frag.name).Nodup) {f : Frag} (hf : f ∈ frs) :
    getFrag (fragMap frs) f.name = some f := by
  cases hg : getFrag (fragMap frs) f.name with
  | none =>
    unfold getFrag at hg
    have := List.find?_eq_none.1 hg f ((mem_fragMap h f).2 hf)
    simp at this
  | some g =>
    obtain ⟨h1, h2⟩ := getFrag_iff h hg
    rw [frag_unique h h1 hf h2]

theorem fragMap_names (h : (frs.map Frag.name).Nodup) (n : Name) :
    n ∈ (fragMap frs).map Frag.name ↔ n ∈ frs.map Frag.name := by
  simp only [List.mem_map, mem_fragMap h]

theorem walkChain_total (h : (frs.map Frag.name).Nodup) {rank : Name → Nat}
    (hr : ∀ f ∈ frs, ∀ x ∈ f.sels, SpreadsBelow frs rank (rank f.name) x) {pc : Option Name} :
    ∀ (left : Nat) (n : Name) (ds : List Dir) (vis : List Name), (∃ f ∈ frs, f.name = n) →
    vis.Nodup → (∀ v ∈ vis, v ∈ frs.map Frag.name ∧ rank n < rank v) →
    vis.length + left = (fragMap frs).length →
    ∃ ds' d, walkChain (fragMap frs) pc left n ds = .ok (ds', d) ∧ d ∈ frs ∧
      rank d.name ≤ rank n := by
  intro left
  induction left with
  | zero =>
    intro n ds vis hn hv hvis hlen
    obtain ⟨f, hf, rfl⟩ := hn
    unfold walkChain
    rw [getFrag_some h hf]
    have hcon : ∀ n' ds', onlySpread f.sels ≠ some (n', ds') := by
      intro n' ds' ho
      have hs : SpreadsBelow frs rank (rank f.name) (.spread n' ds') :=
        hr f hf _ (by rw [onlySpread_eq ho]; simp)
      have hnot : f.name ∉ vis := fun hm => Nat.lt_irrefl _ (hvis _ hm).2
      have := length_le_of_subset (a := f.name :: vis) (b := (fragMap frs).map Frag.name)
        (List.nodup_cons.2 ⟨hnot, hv⟩) (by
          intro v hvm
          rw [fragMap_names h]
          rcases List.mem_cons.1 hvm with rfl | hvm
          · exact List.mem_map.2 ⟨f, hf, rfl⟩
          · exact (hvis v hvm).1)
      simp only [List.length_cons, List.length_map] at this
      omega
    simp only
    split
    · split
      · rename_i ho
        exact absurd ho (hcon _ _)
      · exact ⟨ds, f, rfl, hf, Nat.le_refl _⟩
    · exact ⟨ds, f, rfl, hf, Nat.le_refl _⟩
  | succ k ih =>
    intro n ds vis hn hv hvis hlen
    obtain ⟨f, hf, rfl⟩ := hn
    unfold walkChain
    rw [getFrag_some h hf]
    simp only
    split
    · split
      · rename_i n' ds' ho
        have hs : SpreadsBelow frs rank (rank f.name) (.spread n' ds') :=
          hr f hf _ (by rw [onlySpread_eq ho]; simp)
        obtain ⟨g, hg, hgn, hlt⟩ := spreads_spread hs
        have hnot : f.name ∉ vis := fun hm => Nat.lt_irrefl _ (hvis _ hm).2
        obtain ⟨ds'', d, hw, hd, hle⟩ := ih n' ds' (f.name :: vis) ⟨g, hg, hgn⟩
          (List.nodup_cons.2 ⟨hnot, hv⟩) (by
            intro v hvm
            rcases List.mem_cons.1 hvm with rfl | hvm
            · exact ⟨List.mem_map.2 ⟨f, hf, rfl⟩, hlt⟩
            · exact ⟨(hvis v hvm).1, Nat.lt_trans hlt (hvis v hvm).2⟩) (by
            simp only [List.length_cons]; omega)
        exact ⟨ds'', d, hw, hd, Nat.le_trans hle (Nat.le_of_lt hlt)⟩
      · exact ⟨ds, f, rfl, hf, Nat.le_refl _⟩
    · exact ⟨ds, f, rfl, hf, Nat.le_refl _⟩

theorem inlineSet_total (h : (frs.map Frag.name).Nodup) {rank : Name → Nat}
    (hr : ∀ f ∈ frs, ∀ x ∈ f.sels, SpreadsBelow frs rank (rank f.name) x) :
    ∀ (k r : Nat) (pc : Option Name) (active : List Name) (s : List Sel),
    (∀ x ∈ s, SpreadsBelow frs rank r x) → (∀ a ∈ active, r ≤ rank a) → active.Nodup →
    (∀ a ∈ active, a ∈ frs.map Frag.name) →
    ((fragMap frs).length - active.length) * (fragDepth (fragMap frs) + 1) + depth s < k →
    ∃ s', inlineSet (fragMap frs) k pc active s = .ok s'
  | 0, r, pc, active, s, _, _, _, _, hk => by omega
  | k + 1, r, pc, active, s, hs, ha, hn, hsub, hk => by
    unfold inlineSet
    refine concatM_total fun x hx => ?_
    cases x with
    | field a n args ds sub =>
      have hd := depth_field hx
      obtain ⟨s', h1⟩ := inlineSet_total h hr k r none active sub (spreads_field (hs _ hx)) ha hn
        hsub (by omega)
      exact ⟨_, by simp only [inlineItem, h1, bind, Except.bind]; rfl⟩
    | frag c ds sub =>
      have hd := depth_frag hx
      obtain ⟨s', h1⟩ := inlineSet_total h hr k r c active sub (spreads_frag (hs _ hx)) ha hn
        hsub (by omega)
      exact ⟨_, by simp only [inlineItem, h1, bind, Except.bind]; rfl⟩
    | spread n ds =>
      have hd := depth_spread hx
      obtain ⟨f, hf, hfn, hlt⟩ := spreads_spread (hs _ hx)
      obtain ⟨ds', d, hw, hdm, hle⟩ := walkChain_total h hr (pc := pc) (fragMap frs).length n ds []
        ⟨f, hf, hfn⟩ (by simp) (by simp) (by simp)
      have hnot : d.name ∉ active := by
        intro hm
        have := ha _ hm
        omega
      have hnames : d.name ∈ frs.map Frag.name := List.mem_map.2 ⟨d, hdm, rfl⟩
      have hlen : active.length + 1 ≤ (fragMap frs).length := by
        have := length_le_of_subset (a := d.name :: active) (b := (fragMap frs).map Frag.name)
          (List.nodup_cons.2 ⟨hnot, hn⟩) (by
            intro v hv
            rw [fragMap_names h]
            rcases List.mem_cons.1 hv with rfl | hv
            · exact hnames
            · exact hsub v hv)
        simpa using this
      have hdd : depth d.sels ≤ fragDepth (fragMap frs) :=
        fragDepth_mem ((mem_fragMap h d).2 hdm)
      have hmeas : ((fragMap frs).length - (d.name :: active).length) *
          (fragDepth (fragMap frs) + 1) + depth d.sels < k := by
        have he : (fragMap frs).length - active.length =
            ((fragMap frs).length - (d.name :: active).length) + 1 := by
          simp only [List.length_cons]; omega
        rw [he, Nat.add_mul] at hk
        omega
      have key : ∀ pc', ∃ s', inlineSet (fragMap frs) k pc' (d.name :: active) d.sels = .ok s' :=
        fun pc' => inlineSet_total h hr k (rank d.name) pc' (d.name :: active) d.sels (hr d hdm)
          (by
            intro a hm
            rcases List.mem_cons.1 hm with rfl | hm
            · exact Nat.le_refl _
            · have := ha a hm
              omega)
          (List.nodup_cons.2 ⟨hnot, hn⟩) (by
            intro a hm
            rcases List.mem_cons.1 hm with rfl | hm
            · exact hnames
            · exact hsub a hm) hmeas
      have hc : active.contains d.name = false := by
        simpa [List.contains_iff_mem] using hnot
      simp only [inlineItem, hw, bind, Except.bind, hc]
      simp only [Bool.false_eq_true, if_false]
      split
      · obtain ⟨s', h1⟩ := key pc
        exact ⟨s', h1⟩
      · obtain ⟨s', h1⟩ := key (some d.cond)
        exact ⟨_, by rw [h1]⟩

theorem inlineSpreads_total (h : (frs.map Frag.name).Nodup) {rank : Name → Nat}
    (hr : ∀ f ∈ frs, ∀ x ∈ f.sels, SpreadsBelow frs rank (rank f.name) x) {r : Nat} {s : List Sel}
    (hs : ∀ x ∈ s, SpreadsBelow frs rank r x) : ∃ s', inlineSpreads frs s = .ok s' := by
  unfold inlineSpreads
  have hb : ∀ d, ((fragMap frs).length - ([] : List Name).length) * (fragDepth (fragMap frs) + 1) + d <
      ((fragMap frs).length + 1) * (fragDepth (fragMap frs) + 1) + d + 1 := by
    intro d
    rw [Nat.add_mul]
    simp only [List.length_nil, Nat.sub_zero]
    omega
  obtain ⟨s', h1⟩ := inlineSet_total h hr _ r none [] s hs (by simp) (by simp) (by simp) (hb _)
  obtain ⟨t, h2⟩ := concatM_total (f := fun f : Frag => inlineSet (fragMap frs)
      (((fragMap frs).length + 1) * (fragDepth (fragMap frs) + 1) + depth f.sels + 1)
      (some f.cond) [] f.sels) (l := frs) (fun f hf =>
        inlineSet_total h hr _ (rank f.name) _ [] f.sels (hr f hf) (by simp) (by simp) (by simp)
          (hb _))
  exact ⟨s', by simp only [h1, h2, bind, Except.bind]⟩

/-! ## The first two passes keep the guarantees -/

theorem dropSkipped1_field {a n args ds sub} {y : Sel}
    (h : y ∈ dropSkipped1 (.field a n args ds sub)) : y = .field a n args ds (dropSkipped sub) := by
  unfold dropSkipped1 at h
  split at h
  · simpa using h
  · cases h

theorem dropSkipped1_frag {c ds sub} {y : Sel}
    (h : y ∈ dropSkipped1 (.frag c ds sub)) : y = .frag c ds (dropSkipped sub) := by
  unfold dropSkipped1 at h
  split at h
  · simpa using h
  · cases h

theorem dropSkipped1_spread {n ds} {y : Sel}
    (h : y ∈ dropSkipped1 (.spread n ds)) : y = .spread n ds := by
  unfold dropSkipped1 at h
  split at h
  · simpa using h
  · cases h

theorem mem_dropFrags {f : Frag} (h : f ∈ frs) :
    { f with sels := dropSkipped f.sels } ∈ dropFrags frs := List.mem_map.2 ⟨f, h, rfl⟩

theorem mem_normalizeFrags {f : Frag} (h : f ∈ frs) :
    { f with sels := normalizeFields f.sels } ∈ normalizeFrags frs := List.mem_map.2 ⟨f, h, rfl⟩

theorem drop_spreads {rank : Name → Nat} {r : Nat} {x : Sel} (h : SpreadsBelow frs rank r x) :
    ∀ y ∈ dropSkipped1 x, SpreadsBelow (dropFrags frs) rank r y := by
  induction h with
  | field _ ih =>
    intro y hy
    rw [dropSkipped1_field hy]
    refine .field fun z hz => ?_
    obtain ⟨w, hw, hzw⟩ := mem_dropSkipped.1 hz
    exact ih w hw z hzw
  | frag _ ih =>
    intro y hy
    rw [dropSkipped1_frag hy]
    refine .frag fun z hz => ?_
    obtain ⟨w, hw, hzw⟩ := mem_dropSkipped.1 hz
    exact ih w hw z hzw
  | @spread f ds hf hr =>
    intro y hy
    rw [dropSkipped1_spread hy]
    exact SpreadsBelow.spread (f := { f with sels := dropSkipped f.sels }) (mem_dropFrags hf) hr

theorem drop_spreads_set {rank : Name → Nat} {r : Nat} {s : List Sel}
    (h : ∀ x ∈ s, SpreadsBelow frs rank r x) :
    ∀ x ∈ dropSkipped s, SpreadsBelow (dropFrags frs) rank r x := by
  intro x hx
  obtain ⟨w, hw, hxw⟩ := mem_dropSkipped.1 hx
  exact drop_spreads (h w hw) x hxw

theorem drop_typed {b : Bool} {ctx : Option Name} {x : Sel} (h : Typed S frs b ctx x) :
    ∀ y ∈ dropSkipped1 x, Typed S (dropFrags frs) b ctx y := by
  have set : ∀ {ctx : Option Name} {sub : List Sel},
      (∀ x ∈ sub, ∀ y ∈ dropSkipped1 x, Typed S (dropFrags frs) b ctx y) →
      ∀ z ∈ dropSkipped sub, Typed S (dropFrags frs) b ctx z := by
    intro ctx sub ih z hz
    obtain ⟨w, hw, hzw⟩ := mem_dropSkipped.1 hz
    exact ih w hw z hzw
  induction h with
  | field hn hA _ ih => intro y hy; rw [dropSkipped1_field hy]; exact .field hn hA (set ih)
  | intro hn _ ih => intro y hy; rw [dropSkipped1_field hy]; exact .intro hn (set ih)
  | inner _ ih => intro y hy; rw [dropSkipped1_field hy]; exact .inner (set ih)
  | bare hb _ ih => intro y hy; rw [dropSkipped1_frag hy]; exact .bare hb (set ih)
  | frag hC _ ih => intro y hy; rw [dropSkipped1_frag hy]; exact .frag hC (set ih)
  | fragInner _ ih => intro y hy; rw [dropSkipped1_frag hy]; exact .fragInner (set ih)
  | @spread P f ds hf hC _ ih =>
    intro y hy
    rw [dropSkipped1_spread hy]
    exact Typed.spread (f := { f with sels := dropSkipped f.sels }) (mem_dropFrags hf) hC (set ih)
  | @spreadInner f ds hf _ ih =>
    intro y hy
    rw [dropSkipped1_spread hy]
    exact Typed.spreadInner (f := { f with sels := dropSkipped f.sels }) (mem_dropFrags hf) (set ih)

theorem drop_typed_set {b : Bool} {ctx : Option Name} {s : List Sel}
    (h : ∀ x ∈ s, Typed S frs b ctx x) : ∀ x ∈ dropSkipped s, Typed S (dropFrags frs) b ctx x := by
  intro x hx
  obtain ⟨w, hw, hxw⟩ := mem_dropSkipped.1 hx
  exact drop_typed (h w hw) x hxw

theorem norm_spreads {rank : Name → Nat} {r : Nat} {x : Sel} (h : SpreadsBelow frs rank r x) :
    SpreadsBelow (normalizeFrags frs) rank r x ∧
      SpreadsBelow (normalizeFrags frs) rank r (normalize1 x) := by
  induction h with
  | field _ ih =>
    have hs := fun z hz => (ih z hz).1
    exact ⟨.field hs, by unfold normalize1; exact .field hs⟩
  | frag _ ih =>
    refine ⟨.frag fun z hz => (ih z hz).1, ?_⟩
    unfold normalize1
    refine .frag fun z hz => ?_
    obtain ⟨w, hw, rfl⟩ := mem_normalizeFields.1 hz
    exact (ih w hw).2
  | spread hf hr =>
    have := fun ds => SpreadsBelow.spread (rank := rank) (r := r) (ds := ds) (mem_normalizeFrags hf) hr
    exact ⟨this _, by unfold normalize1; exact this _⟩

theorem norm_spreads_set {rank : Name → Nat} {r : Nat} {s : List Sel}
    (h : ∀ x ∈ s, SpreadsBelow frs rank r x) :
    ∀ x ∈ normalizeFields s, SpreadsBelow (normalizeFrags frs) rank r x := by
  intro x hx
  obtain ⟨w, hw, rfl⟩ := mem_normalizeFields.1 hx
  exact (norm_spreads (h w hw)).2

theorem norm_typed {b : Bool} {ctx : Option Name} {x : Sel} (h : Typed S frs b ctx x) :
    Typed S (normalizeFrags frs) b ctx x ∧ Typed S (normalizeFrags frs) b ctx (normalize1 x) := by
  have set : ∀ {ctx : Option Name} {sub : List Sel},
      (∀ x ∈ sub, Typed S (normalizeFrags frs) b ctx x ∧
        Typed S (normalizeFrags frs) b ctx (normalize1 x)) →
      ∀ z ∈ normalizeFields sub, Typed S (normalizeFrags frs) b ctx z := by
    intro ctx sub ih z hz
    obtain ⟨w, hw, rfl⟩ := mem_normalizeFields.1 hz
    exact (ih w hw).2
  induction h with
  | field hn hA _ ih =>
    have hs := fun z hz => (ih z hz).1
    exact ⟨.field hn hA hs, by unfold normalize1; exact .field hn hA hs⟩
  | intro hn _ ih =>
    have hs := fun z hz => (ih z hz).1
    exact ⟨.intro hn hs, by unfold normalize1; exact .intro hn hs⟩
  | inner _ ih =>
    have hs := fun z hz => (ih z hz).1
    exact ⟨.inner hs, by unfold normalize1; exact .inner hs⟩
  | bare hb _ ih =>
    exact ⟨.bare hb fun z hz => (ih z hz).1, by unfold normalize1; exact .bare hb (set ih)⟩
  | frag hC _ ih =>
    exact ⟨.frag hC fun z hz => (ih z hz).1, by unfold normalize1; exact .frag hC (set ih)⟩
  | fragInner _ ih =>
    exact ⟨.fragInner fun z hz => (ih z hz).1, by unfold normalize1; exact .fragInner (set ih)⟩
  | spread hf hC _ ih =>
    have := fun P ds => Typed.spread (S := S) (P := P) (ds := ds) (mem_normalizeFrags hf) hC (set ih)
    exact ⟨this _ _, by unfold normalize1; exact this _ _⟩
  | spreadInner hf _ ih =>
    have := fun ds => Typed.spreadInner (S := S) (ds := ds) (mem_normalizeFrags hf) (set ih)
    exact ⟨this _, by unfold normalize1; exact this _⟩

theorem norm_typed_set {b : Bool} {ctx : Option Name} {s : List Sel}
    (h : ∀ x ∈ s, Typed S frs b ctx x) :
    ∀ x ∈ normalizeFields s, Typed S (normalizeFrags frs) b ctx x := by
  intro x hx
  obtain ⟨w, hw, rfl⟩ := mem_normalizeFields.1 hx
  exact (norm_typed (h w hw)).2

/-! ## Types after inlining -/

theorem typed_field {b : Bool} {ctx : Option Name} {a n args ds sub}
    (h : Typed S frs b ctx (.field a n args ds sub)) :
    (∃ P A, ctx = some P ∧ isIntro n = false ∧ S.fieldTy P n = some A ∧
      ∀ x ∈ sub, Typed S frs b (some A) x) ∨
    ((ctx = none ∨ isIntro n = true) ∧ ∀ x ∈ sub, Typed S frs b none x) := by
  generalize hx : Sel.field a n args ds sub = y at h
  cases h with
  | field hn hA h => cases hx; exact .inl ⟨_, _, rfl, hn, hA, h⟩
  | intro hn h => cases hx; exact .inr ⟨.inr hn, h⟩
  | inner h => cases hx; exact .inr ⟨.inl rfl, h⟩
  | bare _ h => cases hx
  | frag _ h => cases hx
  | fragInner h => cases hx
  | spread _ _ h => cases hx
  | spreadInner _ h => cases hx

theorem typed_frag {b : Bool} {ctx c : Option Name} {ds sub}
    (h : Typed S frs b ctx (.frag c ds sub)) :
    (∃ P, ctx = some P ∧ c = none ∧ b = true ∧ ∀ x ∈ sub, Typed S frs b (some P) x) ∨
    (∃ P C, ctx = some P ∧ c = some C ∧ (S.get C).isSome = true ∧
      ∀ x ∈ sub, Typed S frs b (some C) x) ∨
    (∃ C, ctx = none ∧ c = some C ∧ ∀ x ∈ sub, Typed S frs b none x) := by
  generalize hx : Sel.frag c ds sub = y at h
  cases h with
  | field hn hA h => cases hx
  | intro hn h => cases hx
  | inner h => cases hx
  | bare hb h => cases hx; exact .inl ⟨_, rfl, rfl, hb, h⟩
  | frag hC h => cases hx; exact .inr (.inl ⟨_, _, rfl, rfl, hC, h⟩)
  | fragInner h => cases hx; exact .inr (.inr ⟨_, rfl, rfl, h⟩)
  | spread _ _ h => cases hx
  | spreadInner _ h => cases hx

/-- The contents of a spread fragment, on its type or below an introspection field. -/
def FragTyped (S : Schema) (frs : List Frag) (b : Bool) (ctx : Option Name) (f : Frag) : Prop :=
  match ctx with
  | some _ => (S.get f.cond).isSome = true ∧ ∀ x ∈ f.sels, Typed S frs b (some f.cond) x
  | none => ∀ x ∈ f.sels, Typed S frs b none x

theorem typed_spread {b : Bool} {ctx : Option Name} {n ds}
    (h : Typed S frs b ctx (.spread n ds)) :
    ∃ f ∈ frs, f.name = n ∧ FragTyped S frs b ctx f := by
  generalize hx : Sel.spread n ds = y at h
  cases h with
  | field hn hA h => cases hx
  | intro hn h => cases hx
  | inner h => cases hx
  | bare hb h => cases hx
  | frag hC h => cases hx
  | fragInner h => cases hx
  | spread hf hC h => cases hx; exact ⟨_, hf, rfl, hC, h⟩
  | spreadInner hf h => cases hx; exact ⟨_, hf, rfl, h⟩

theorem walkChain_typed (h : (frs.map Frag.name).Nodup) {b : Bool} {ctx pc : Option Name}
    (hpc : ∀ P C, ctx = some P → pc = some C → P = C) :
    ∀ {left : Nat} {n : Name} {ds : List Dir} {ds' : List Dir} {d : Frag},
      walkChain (fragMap frs) pc left n ds = .ok (ds', d) → Typed S frs b ctx (.spread n ds) →
      FragTyped S frs b ctx d := by
  intro left
  induction left with
  | zero =>
    intro n ds ds' d hw ht
    obtain ⟨f, hf, rfl, hc⟩ := typed_spread ht
    unfold walkChain at hw
    rw [getFrag_some h hf] at hw
    simp only at hw
    split at hw
    · split at hw
      · cases hw
      · cases hw; exact hc
    · cases hw; exact hc
  | succ k ih =>
    intro n ds ds' d hw ht
    obtain ⟨f, hf, rfl, hc⟩ := typed_spread ht
    unfold walkChain at hw
    rw [getFrag_some h hf] at hw
    simp only at hw
    split at hw
    · rename_i hcond
      split at hw
      · rename_i n' ds'' ho
        refine ih hw ?_
        have hm : Sel.spread n' ds'' ∈ f.sels := by rw [onlySpread_eq ho]; simp
        cases hctx : ctx with
        | none =>
          rw [hctx] at hc
          exact hc _ hm
        | some P =>
          rw [hctx] at hc
          rw [hpc P f.cond hctx hcond.1]
          exact hc.2 _ hm
      · cases hw; exact hc
    · cases hw; exact hc

theorem inlineSet_typed (h : (frs.map Frag.name).Nodup) {b : Bool} : ∀ (k : Nat)
    {pc ctx : Option Name} {active : List Name} {s s' : List Sel},
    inlineSet (fragMap frs) k pc active s = .ok s' →
    (∀ P C, ctx = some P → pc = some C → P = C) →
    (∀ x ∈ s, Typed S frs b ctx x) → ∀ x ∈ s', Typed S [] b ctx x
  | 0, pc, ctx, active, s, s', hs, _, _ => by cases hs
  | k + 1, pc, ctx, active, s, s', hs, hpc, ht => by
    unfold inlineSet at hs
    intro y hy
    obtain ⟨x, hx, t, hxt, hyt⟩ := (concatM_mem hs y).1 hy
    cases x with
    | field a n args ds sub =>
      simp only [inlineItem] at hxt
      obtain ⟨sub', h1, h2⟩ := bind_ok hxt
      cases h2
      rw [List.mem_singleton] at hyt
      subst hyt
      rcases typed_field (ht _ hx) with ⟨P, A, rfl, hn, hA, hsub⟩ | ⟨hcn, hsub⟩
      · exact .field hn hA (inlineSet_typed h k h1 (by simp) hsub)
      · have := inlineSet_typed h k (ctx := none) h1 (by simp) hsub
        cases ctx with
        | none => exact .inner this
        | some P =>
          rcases hcn with hcn | hcn
          · cases hcn
          · exact .intro hcn this
    | frag c ds sub =>
      simp only [inlineItem] at hxt
      obtain ⟨sub', h1, h2⟩ := bind_ok hxt
      cases h2
      rw [List.mem_singleton] at hyt
      subst hyt
      rcases typed_frag (ht _ hx) with ⟨P, rfl, rfl, hb, hsub⟩ | ⟨P, C, rfl, rfl, hC, hsub⟩ |
        ⟨C, rfl, rfl, hsub⟩
      · exact .bare hb (inlineSet_typed h k h1 (by simp) hsub)
      · exact .frag hC (inlineSet_typed h k h1 (by rintro P' C' ⟨⟩ ⟨⟩; rfl) hsub)
      · exact .fragInner (inlineSet_typed h k h1 (by simp) hsub)
    | spread n ds =>
      simp only [inlineItem] at hxt
      obtain ⟨⟨ds', d⟩, h1, h2⟩ := bind_ok hxt
      have hd := walkChain_typed h hpc h1 (ht _ hx)
      simp only at h2
      split at h2
      · cases h2
      · split at h2
        · rename_i hc
          refine inlineSet_typed h k h2 hpc ?_ y hyt
          cases ctx with
          | none => exact hd
          | some P =>
            rw [hpc P d.cond rfl hc.1]
            exact hd.2
        · obtain ⟨sub', h3, h4⟩ := bind_ok h2
          cases h4
          rw [List.mem_singleton] at hyt
          subst hyt
          cases ctx with
          | none => exact .fragInner (inlineSet_typed h k h3 (by simp) hd)
          | some P => exact .frag hd.1 (inlineSet_typed h k h3 (by rintro P' C' ⟨⟩ ⟨⟩; rfl) hd.2)

/-! ## Subtypes -/

theorem typed_sub {Sub : Name → Name → Prop} (hS : SchemaTyped S Sub) {b : Bool} {ctx : Option Name}
    {x : Sel} (h : Typed S frs b ctx x) : ∀ A B, ctx = some A → Sub B A → Typed S frs b (some B) x := by
  induction h with
  | field hn hA _ ih =>
    rintro A B ⟨⟩ hs
    obtain ⟨Y, hY, hYX⟩ := hS.field _ _ _ _ hs hA
    exact .field hn hY fun x hx => ih x hx _ _ rfl hYX
  | intro hn h _ => rintro A B ⟨⟩ _; exact .intro hn h
  | inner h _ => rintro A B ⟨⟩
  | bare hb _ ih => rintro A B ⟨⟩ hs; exact .bare hb fun x hx => ih x hx _ _ rfl hs
  | frag hC h _ => rintro A B ⟨⟩ _; exact .frag hC h
  | fragInner h _ => rintro A B ⟨⟩
  | spread hf hC h _ => rintro A B ⟨⟩ _; exact .spread hf hC h
  | spreadInner hf h _ => rintro A B ⟨⟩

theorem typed_weaken {b : Bool} {ctx : Option Name} {x : Sel} (h : Typed S frs b ctx x) :
    Typed S frs true ctx x := by
  induction h with
  | field hn hA _ ih => exact .field hn hA ih
  | intro hn _ ih => exact .intro hn ih
  | inner _ ih => exact .inner ih
  | bare hb _ ih => exact .bare rfl ih
  | frag hC _ ih => exact .frag hC ih
  | fragInner _ ih => exact .fragInner ih
  | spread hf hC _ ih => exact .spread hf hC ih
  | spreadInner hf _ ih => exact .spreadInner hf ih

/-- Below an introspection field no fragment lacks its type condition. -/
theorem typed_none {b b' : Bool} {ctx : Option Name} {x : Sel} (h : Typed S frs b ctx x) :
    ctx = none → Typed S frs b' none x := by
  induction h with
  | field _ _ _ _ => rintro ⟨⟩
  | intro _ _ _ => rintro ⟨⟩
  | inner _ ih => intro _; exact .inner fun x hx => ih x hx rfl
  | bare _ _ _ => rintro ⟨⟩
  | frag _ _ _ => rintro ⟨⟩
  | fragInner _ ih => intro _; exact .fragInner fun x hx => ih x hx rfl
  | spread _ _ _ _ => rintro ⟨⟩
  | spreadInner hf _ ih => intro _; exact .spreadInner hf fun x hx => ih x hx rfl

/-! ## flatten_fragments -/

/-- Every item is a selection on the type `P`. -/
def AllTyped (S : Schema) (b : Bool) (P : Name) (s : List Sel) : Prop :=
  ∀ x ∈ s, Typed S [] b (some P) x

theorem allTyped_one {b : Bool} {P : Name} {x : Sel} (h : Typed S [] b (some P) x) :
    AllTyped S b P [x] := by
  intro y hy
  rw [List.mem_singleton] at hy
  rw [hy]
  exact h

theorem allTyped_append {b : Bool} {P : Name} {s t : List Sel} :
    AllTyped S b P (s ++ t) ↔ AllTyped S b P s ∧ AllTyped S b P t := by
  constructor
  · intro h
    exact ⟨fun x hx => h x (by simp [hx]), fun x hx => h x (by simp [hx])⟩
  · rintro ⟨h1, h2⟩ x hx
    rcases List.mem_append.1 hx with hx | hx
    · exact h1 x hx
    · exact h2 x hx

theorem allTyped_frag {b : Bool} {P C : Name} {ds : List Dir} {s : List Sel}
    (hC : (S.get C).isSome = true) (h : AllTyped S b C s) :
    AllTyped S b P [.frag (some C) ds s] := allTyped_one (.frag hC h)

theorem isSome_object {T : Name} (h : S.isObject T = true) : (S.get T).isSome = true := by
  unfold Schema.isObject at h
  split at h
  · rename_i hg; rw [hg]; rfl
  · cases h

theorem not_none_of_some {C : Name} (h : (S.get C).isSome = true) : ¬ (S.get C).isNone = true := by
  cases hg : S.get C with
  | none => rw [hg] at h; cases h
  | some d => simp

/-- A call that succeeds on typed sets of a depth below `k`, and does not make them deeper. -/
def TotalRec (S : Schema) (b b' : Bool) (k : Nat) (rec : Name → List Sel → Except Err (List Sel)) :
    Prop :=
  ∀ P s, (S.get P).isSome = true → AllTyped S b P s → depth s < k →
    ∃ s', rec P s = .ok s' ∧ AllTyped S b' P s' ∧ depth s' ≤ depth s

theorem depth_filter {q : Sel → Bool} {s : List Sel} : depth (s.filter q) ≤ depth s :=
  depth_le.2 fun _ hx => depth1_mem (List.mem_filter.1 hx).1

theorem depth_flatMap {l : List (List Dir × List Sel)} {d : Nat} (h : ∀ f ∈ l, depth f.2 ≤ d) :
    depth (l.flatMap (·.2)) ≤ d := by
  rw [depth_le]
  intro x hx
  obtain ⟨f, hf, hxf⟩ := List.mem_flatMap.1 hx
  exact Nat.le_trans (depth1_mem hxf) (h f hf)

theorem subFragments_typed {Sub : Name → Name → Prop} (hS : SchemaTyped S Sub) {b : Bool}
    {C o : Name} (ho : IsPossible S o C) {s : List Sel} (hs : AllTyped S b C s)
    {f : List Dir × List Sel} (hf : f ∈ subFragments S o s) :
    AllTyped S b o f.2 ∧ depth f.2 + 1 ≤ depth s := by
  obtain ⟨c, hm, ha⟩ := subFragments_mem.1 hf
  refine ⟨?_, depth_frag hm⟩
  obtain ⟨hsub, hobj⟩ := hS.possible o C ho
  have hap := (applies_iff hobj).1 ha
  rcases typed_frag (hs _ hm) with ⟨P, hP, rfl, hb, h⟩ | ⟨P, D, hP, rfl, hD, h⟩ | ⟨D, hP, _⟩
  · cases hP
    exact fun x hx => typed_sub hS (h x hx) _ _ rfl hsub
  · exact fun x hx => typed_sub hS (h x hx) _ _ rfl (hS.possible o D hap).1
  · cases hP

theorem expandChild_total {Sub : Name → Name → Prop} (hS : SchemaTyped S Sub) {k : Nat}
    {rec : Name → List Sel → Except Err (List Sel)} (hr : TotalRec S true false k rec) {P o : Name}
    (ho : S.isObject o = true) {ds : List Dir} {f : List Dir × List Sel} (ht : AllTyped S true o f.2)
    (hk : depth f.2 < k) : ∃ y, expandChild rec o ds f = .ok y ∧ AllTyped S false P y ∧
      depth y ≤ depth f.2 + 2 := by
  have hg := isSome_object ho
  obtain ⟨sub, h1, h2, h3⟩ := hr o f.2 hg ht hk
  simp only [expandChild, h1, bind, Except.bind]
  split
  · exact ⟨[], rfl, by simp [AllTyped], by simp [depth]⟩
  · split
    · refine ⟨_, rfl, allTyped_frag hg (allTyped_frag hg h2), ?_⟩
      simp only [depth_one, depth1]
      omega
    · refine ⟨_, rfl, allTyped_frag hg h2, ?_⟩
      simp only [depth_one, depth1]
      omega

theorem expandFor_total {Sub : Name → Name → Prop} (hS : SchemaTyped S Sub) {k : Nat}
    {rec : Name → List Sel → Except Err (List Sel)} (hr : TotalRec S true false k rec) {P C o : Name}
    (ho : IsPossible S o C) {ds : List Dir} {sub : List Sel} (ht : AllTyped S true C sub)
    (hk : depth sub < k) : ∃ y, expandFor S rec ds sub o = .ok y ∧ AllTyped S false P y ∧
      depth y ≤ depth sub + 1 := by
  obtain ⟨hsub, hobj⟩ := hS.possible o C ho
  have hg := isSome_object hobj
  have hfil : AllTyped S true o (sub.filter isField) :=
    fun x hx => typed_sub hS (ht x (List.mem_filter.1 hx).1) _ _ rfl hsub
  have hdf : depth (sub.filter isField) ≤ depth sub := depth_filter
  unfold expandFor
  rw [if_neg (not_none_of_some hg)]
  split
  · obtain ⟨inh, h1, h2, h3⟩ := hr o _ hg hfil (by omega)
    have hch : ∀ f ∈ subFragments S o sub, ∃ y, expandChild rec o ds f = .ok y ∧
        AllTyped S false P y ∧ depth y ≤ depth f.2 + 2 := by
      intro f hf
      obtain ⟨h4, h5⟩ := subFragments_typed hS ho ht hf
      exact expandChild_total hS hr hobj h4 (by omega)
    obtain ⟨rest, h4⟩ := concatM_total (l := subFragments S o sub)
      (f := expandChild rec o ds) fun f hf => (hch f hf).imp fun _ h => h.1
    refine ⟨_, by simp only [h1, h4, bind, Except.bind]; rfl, ?_, ?_⟩
    · refine allTyped_append.2 ⟨?_, ?_⟩
      · split
        · simp [AllTyped]
        · exact allTyped_frag hg h2
      · intro x hx
        obtain ⟨f, hf, y, hy, hxy⟩ := (concatM_mem h4 x).1 hx
        obtain ⟨y', hy', ht', _⟩ := hch f hf
        rw [hy] at hy'
        cases hy'
        exact ht' x hxy
    · refine depth_append.2 ⟨?_, ?_⟩
      · split
        · simp [depth]
        · simp only [depth_one, depth1]
          omega
      · rw [depth_le]
        intro x hx
        obtain ⟨f, hf, y, hy, hxy⟩ := (concatM_mem h4 x).1 hx
        obtain ⟨y', hy', _, hd'⟩ := hch f hf
        rw [hy] at hy'
        cases hy'
        have := depth1_mem hxy
        have := (subFragments_typed hS ho ht hf).2
        omega
  · have hfm : AllTyped S true o ((subFragments S o sub).flatMap (·.2)) := by
      intro x hx
      obtain ⟨f, hf, hxf⟩ := List.mem_flatMap.1 hx
      exact (subFragments_typed hS ho ht hf).1 x hxf
    have hdm : depth ((subFragments S o sub).flatMap (·.2)) ≤ depth sub :=
      depth_flatMap fun f hf => by have := (subFragments_typed hS ho ht hf).2; omega
    have hda := depth_append.2 ⟨hdf, hdm⟩
    obtain ⟨all, h1, h2, h3⟩ := hr o (sub.filter isField ++ (subFragments S o sub).flatMap (·.2))
      hg (allTyped_append.2 ⟨hfil, hfm⟩) (by omega)
    refine ⟨_, by simp only [h1, bind, Except.bind]; rfl, ?_, ?_⟩
    · split
      · simp [AllTyped]
      · exact allTyped_frag hg h2
    · split
      · simp [depth]
      · simp only [depth_one, depth1]
        omega

theorem possibleOf_total {C : Name} (h : S.isAbstract C = true) : ∃ l, possibleOf S C = .ok l := by
  obtain ⟨l, hl⟩ := abstract_possible h
  exact ⟨l, by unfold possibleOf; rw [hl]⟩

theorem expandAbstract_total {Sub : Name → Name → Prop} (hS : SchemaTyped S Sub) {k : Nat}
    {rec : Name → List Sel → Except Err (List Sel)} (hr : TotalRec S true false k rec) {P C : Name}
    (hC : S.isAbstract C = true) {ds : List Dir} {sub : List Sel} (ht : AllTyped S true C sub)
    (hk : depth sub < k) : ∃ y, expandAbstract S rec P C ds sub = .ok y ∧ AllTyped S false P y ∧
      depth y ≤ depth sub + 1 := by
  obtain ⟨cs, h1⟩ := possibleOf_total hC
  have h2 : ∃ ps, parentObjects S P = .ok ps := by
    unfold parentObjects
    split
    · rename_i hP; exact possibleOf_total hP
    · exact ⟨_, rfl⟩
  obtain ⟨ps, h2⟩ := h2
  have hch : ∀ o ∈ intersect cs ps, ∃ y, expandFor S rec ds sub o = .ok y ∧
      AllTyped S false P y ∧ depth y ≤ depth sub + 1 := by
    intro o ho
    exact expandFor_total hS hr ((possibleOf_iff h1).1 (mem_intersect.1 ho).1) ht hk
  obtain ⟨y, h3⟩ := concatM_total (l := intersect cs ps) (f := expandFor S rec ds sub)
    fun o ho => (hch o ho).imp fun _ h => h.1
  refine ⟨y, by simp only [expandAbstract, h1, h2, h3, bind, Except.bind], ?_, ?_⟩
  · intro x hx
    obtain ⟨f, hf, z, hz, hxz⟩ := (concatM_mem h3 x).1 hx
    obtain ⟨z', hz', ht', _⟩ := hch f hf
    rw [hz] at hz'
    cases hz'
    exact ht' x hxz
  · rw [depth_le]
    intro x hx
    obtain ⟨f, hf, z, hz, hxz⟩ := (concatM_mem h3 x).1 hx
    obtain ⟨z', hz', _, hd'⟩ := hch f hf
    rw [hz] at hz'
    cases hz'
    exact Nat.le_trans (depth1_mem hxz) hd'

theorem flattenFrag_total {Sub : Name → Name → Prop} (hS : SchemaTyped S Sub) {k : Nat}
    {rec : Name → List Sel → Except Err (List Sel)} (hr : TotalRec S true false k rec) {P : Name}
    {c : Option Name} {ds : List Dir} {sub : List Sel}
    (hP : (S.get P).isSome = true)
    (ht : Typed S [] true (some P) (.frag c ds sub)) (hk : depth sub < k) :
    ∃ y, flattenFrag S rec P c ds sub = .ok y ∧ AllTyped S false P y ∧
      depth y ≤ depth sub + 1 := by
  rcases typed_frag ht with ⟨P', hPe, rfl, _, hsub⟩ | ⟨P', C, hPe, rfl, hC, hsub⟩ | ⟨C, hPe, _⟩
  · cases hPe
    obtain ⟨sub', h1, h2, h3⟩ := hr P sub hP hsub hk
    simp only [flattenFrag, h1, bind, Except.bind]
    split
    · exact ⟨_, rfl, h2, by omega⟩
    · split
      · rename_i hab
        obtain ⟨y, h4, h5, h6⟩ := expandAbstract_total hS hr (P := P) hab (ds := ds)
          (fun x hx => typed_weaken (h2 x hx)) (by omega)
        exact ⟨y, h4, h5, by omega⟩
      · exact ⟨_, rfl, allTyped_frag hP h2, by simp only [depth_one, depth1]; omega⟩
  · cases hPe
    unfold flattenFrag
    simp only
    split
    · rename_i hCP
      subst hCP
      obtain ⟨sub', h1, h2, h3⟩ := hr C sub hC hsub hk
      simp only [h1, bind, Except.bind]
      split
      · exact ⟨_, rfl, h2, by omega⟩
      · exact ⟨_, rfl, allTyped_frag hC h2, by simp only [depth_one, depth1]; omega⟩
    · unfold expandCond
      rw [if_neg (not_none_of_some hC)]
      split
      · rename_i hab
        exact expandAbstract_total hS hr hab hsub hk
      · split
        · split
          · exact ⟨[], rfl, by simp [AllTyped], by simp [depth]⟩
          · obtain ⟨sub', h1, h2, h3⟩ := hr C sub hC hsub hk
            refine ⟨_, by simp only [h1, bind, Except.bind]; rfl, allTyped_frag hC h2, ?_⟩
            simp only [depth_one, depth1]
            omega
        · exact ⟨[], rfl, by simp [AllTyped], by simp [depth]⟩
  · cases hPe

/-- The items of a typed set, one at a time: what a loop needs. -/
theorem loop_total {b' : Bool} {f : Sel → Except Err (List Sel)} {P : Name} {s : List Sel}
    {g : Nat → Nat}
    (h : ∀ x ∈ s, ∃ y, f x = .ok y ∧ AllTyped S b' P y ∧ depth y ≤ g (depth1 x))
    (hg : ∀ m n, m ≤ n → g m ≤ g n) :
    ∃ r, concatM f s = .ok r ∧ AllTyped S b' P r ∧ depth r ≤ g (depth s) := by
  obtain ⟨r, hr⟩ := concatM_total (f := f) (l := s) fun x hx => (h x hx).imp fun _ h => h.1
  refine ⟨r, hr, ?_, ?_⟩
  · intro x hx
    obtain ⟨a, ha, z, hz, hxz⟩ := (concatM_mem hr x).1 hx
    obtain ⟨z', hz', ht', _⟩ := h a ha
    rw [hz] at hz'
    cases hz'
    exact ht' x hxz
  · rw [depth_le]
    intro x hx
    obtain ⟨a, ha, z, hz, hxz⟩ := (concatM_mem hr x).1 hx
    obtain ⟨z', hz', _, hd'⟩ := h a ha
    rw [hz] at hz'
    cases hz'
    exact Nat.le_trans (depth1_mem hxz) (Nat.le_trans hd' (hg _ _ (depth1_mem ha)))

theorem childType_total {Sub : Name → Name → Prop} (hS : SchemaTyped S Sub) {P n A : Name}
    (h : S.fieldTy P n = some A) : childType S P n = .ok A := by
  unfold childType
  rw [h]
  simp only
  rw [if_neg (not_none_of_some (hS.known _ _ _ h))]

theorem typed_leaf {b b' : Bool} {P : Name} {a n args ds}
    (h : Typed S [] b (some P) (.field a n args ds [])) :
    Typed S [] b' (some P) (.field a n args ds []) := by
  rcases typed_field h with ⟨P', A, hP, hn, hA, _⟩ | ⟨hn, _⟩
  · cases hP
    exact .field hn hA (by simp)
  · rcases hn with hn | hn
    · cases hn
    · exact .intro hn (by simp)

theorem typed_intro {b b' : Bool} {P : Name} {a n args ds sub} (hn : isIntro n = true)
    (h : Typed S [] b (some P) (.field a n args ds sub)) :
    Typed S [] b' (some P) (.field a n args ds sub) := by
  rcases typed_field h with ⟨P', A, hP, hn', hA, _⟩ | ⟨_, h⟩
  · rw [hn] at hn'
    cases hn'
  · exact .intro hn fun x hx => typed_none (h x hx) rfl

theorem typed_proper {b : Bool} {P : Name} {a n args ds sub} (hn : isIntro n = false)
    (h : Typed S [] b (some P) (.field a n args ds sub)) :
    ∃ A, S.fieldTy P n = some A ∧ AllTyped S b A sub := by
  rcases typed_field h with ⟨P', A, hP, hn', hA, h⟩ | ⟨hc | hc, _⟩
  · cases hP
    exact ⟨A, hA, h⟩
  · cases hc
  · rw [hn] at hc
    cases hc

theorem flattenSet_total {Sub : Name → Name → Prop} (hS : SchemaTyped S Sub) : ∀ (k : Nat),
    TotalRec S true false k (flattenSet S k)
  | 0, P, s, _, _, hk => by omega
  | k + 1, P, s, hP, ht, hk => by
    have hr : TotalRec S true false k (flattenSet S k) := flattenSet_total hS k
    unfold flattenSet
    refine loop_total (g := fun n => n) ?_ (fun _ _ h => h)
    intro x hx
    have htx := ht x hx
    have hdx := depth1_mem hx
    cases x with
    | field a n args ds sub =>
      simp only [depth1] at hdx
      simp only [flattenItem]
      split
      · rename_i hc
        refine ⟨_, rfl, allTyped_one ?_, by simp [depth_one]⟩
        rw [Bool.or_eq_true] at hc
        rcases hc with hc | hc
        · exact typed_intro hc htx
        · have : sub = [] := by simpa using hc
          subst this
          exact typed_leaf htx
      · rename_i hc
        have hn : isIntro n = false := by
          cases hi : isIntro n with
          | false => rfl
          | true => simp [hi] at hc
        obtain ⟨A, hA, hsub⟩ := typed_proper hn htx
        obtain ⟨sub', h1, h2, h3⟩ := hr A sub (hS.known _ _ _ hA) hsub (by omega)
        refine ⟨_, by simp only [childType_total hS hA, h1, bind, Except.bind]; rfl,
          allTyped_one (.field hn hA h2), ?_⟩
        simp only [depth_one, depth1]
        omega
    | frag c ds sub =>
      simp only [depth1] at hdx
      simp only [flattenItem]
      exact flattenFrag_total hS hr hP htx (by omega)
    | spread n ds =>
      obtain ⟨f, hf, _⟩ := typed_spread htx
      cases hf

/-! ## type_expand -/

theorem expansion_total {Sub : Name → Name → Prop} (hS : SchemaTyped S Sub) (P n : Name) :
    ∃ e, expansion S P n = .ok e := by
  unfold expansion
  split
  · rename_i jts fs hg
    have hab : S.isAbstract P = true := by unfold Schema.isAbstract; rw [hg]
    obtain ⟨os, h1⟩ := possibleOf_total hab
    simp only [h1, bind, Except.bind]
    split
    · rename_i hno
      obtain ⟨o, ho, hnob⟩ := List.any_eq_true.1 hno
      have := (hS.possible o P ((possibleOf_iff h1).1 ho)).2
      rw [this] at hnob
      cases hnob
    · split
      · exact ⟨_, rfl⟩
      · exact ⟨_, rfl⟩
  · exact ⟨_, rfl⟩

/-- As `TotalRec`, without a bound on the result. -/
def TotalRec' (S : Schema) (b : Bool) (k : Nat) (rec : Name → List Sel → Except Err (List Sel)) :
    Prop :=
  ∀ P s, (S.get P).isSome = true → AllTyped S b P s → depth s < k →
    ∃ s', rec P s = .ok s' ∧ AllTyped S b P s'

theorem loop_total' {b' : Bool} {α : Type} {f : α → Except Err (List Sel)} {P : Name} {s : List α}
    (h : ∀ x ∈ s, ∃ y, f x = .ok y ∧ AllTyped S b' P y) :
    ∃ r, concatM f s = .ok r ∧ AllTyped S b' P r := by
  obtain ⟨r, hr⟩ := concatM_total (f := f) (l := s) fun x hx => (h x hx).imp fun _ h => h.1
  refine ⟨r, hr, ?_⟩
  intro x hx
  obtain ⟨a, ha, z, hz, hxz⟩ := (concatM_mem hr x).1 hx
  obtain ⟨z', hz', ht'⟩ := h a ha
  rw [hz] at hz'
  cases hz'
  exact ht' x hxz

theorem expandFieldFor_total {Sub : Name → Name → Prop} (hS : SchemaTyped S Sub) {b : Bool} {k : Nat}
    {rec : Name → List Sel → Except Err (List Sel)} (hr : TotalRec' S b k rec) {P o : Name}
    (ho : IsPossible S o P) {a : Option Name} {n : Name} {args : Args} {ds : List Dir}
    {sub : List Sel} (hn : isIntro n = false)
    (ht : Typed S [] b (some P) (.field a n args ds sub)) (hk : depth sub < k) :
    ∃ y, expandFieldFor S rec a n args ds sub o = .ok y ∧ AllTyped S b P y := by
  obtain ⟨hso, hobj⟩ := hS.possible o P ho
  have hg := isSome_object hobj
  have hto := typed_sub hS ht _ _ rfl hso
  unfold expandFieldFor
  split
  · exact ⟨_, rfl, allTyped_frag hg (allTyped_one hto)⟩
  · split
    · exact ⟨_, rfl, allTyped_frag hg (allTyped_one hto)⟩
    · rename_i A hA
      have hkn := hS.known _ _ _ hA
      rw [if_neg (not_none_of_some hkn)]
      obtain ⟨A', hA', hsub⟩ := typed_proper hn hto
      rw [hA] at hA'
      cases hA'
      obtain ⟨sub', h1, h2⟩ := hr A sub hkn hsub hk
      exact ⟨_, by simp only [h1, bind, Except.bind]; rfl,
        allTyped_frag hg (allTyped_one (.field hn hA h2))⟩

theorem typeExpandSet_total {Sub : Name → Name → Prop} (hS : SchemaTyped S Sub) : ∀ (k : Nat),
    TotalRec' S false k (typeExpandSet S k)
  | 0, P, s, _, _, hk => by omega
  | k + 1, P, s, hP, ht, hk => by
    have hr : TotalRec' S false k (typeExpandSet S k) := typeExpandSet_total hS k
    unfold typeExpandSet
    refine loop_total' ?_
    intro x hx
    have htx := ht x hx
    have hdx := depth1_mem hx
    cases x with
    | field a n args ds sub =>
      simp only [depth1] at hdx
      simp only [typeExpandItem]
      split
      · exact ⟨_, rfl, allTyped_one htx⟩
      · rename_i hn
        have hn : isIntro n = false := by simpa using hn
        obtain ⟨A, hA, hsub⟩ := typed_proper hn htx
        have hkn := hS.known _ _ _ hA
        rw [hA]
        simp only
        obtain ⟨e, he⟩ := expansion_total hS P n
        simp only [he, bind, Except.bind]
        cases e with
        | some os =>
          simp only
          exact loop_total' fun o ho => expandFieldFor_total hS hr ((expansion_some he o).1 ho) hn htx
            (by omega)
        | none =>
          simp only
          split
          · exact ⟨_, rfl, allTyped_one htx⟩
          · rw [if_neg (not_none_of_some hkn)]
            obtain ⟨sub', h1, h2⟩ := hr A sub hkn hsub (by omega)
            exact ⟨_, by simp only [h1]; rfl, allTyped_one (.field hn hA h2)⟩
    | frag c ds sub =>
      simp only [depth1] at hdx
      rcases typed_frag htx with ⟨P', hPe, rfl, hb, hsub⟩ | ⟨P', C, hPe, rfl, hC, hsub⟩ |
        ⟨C, hPe, _⟩
      · cases hb
      · simp only [typeExpandItem]
        rw [if_neg (not_none_of_some hC)]
        obtain ⟨sub', h1, h2⟩ := hr C sub hC hsub (by omega)
        exact ⟨_, by simp only [h1, bind, Except.bind]; rfl, allTyped_frag hC h2⟩
      · cases hPe
    | spread n ds =>
      obtain ⟨f, hf, _⟩ := typed_spread htx
      cases hf

/-! ## merge_inline_fragments -/

theorem flattenNested_total {b : Bool} {C : Name} {ds : List Dir} : ∀ {s : List Sel} {d : Nat},
    AllTyped S b C s → depth s ≤ d →
    AllTyped S b C (flattenNested (some C) ds s) ∧ depth (flattenNested (some C) ds s) ≤ d
  | [], d, h, hd => ⟨h, hd⟩
  | x :: r, d, h, hd => by
    have hx := h x (by simp)
    have hr : AllTyped S b C r := fun y hy => h y (by simp [hy])
    have hd' := depth_append (s := [x]) (t := r).1 hd
    obtain ⟨h1, h2⟩ := flattenNested_total (ds := ds) hr hd'.2
    have hkeep : AllTyped S b C (x :: flattenNested (some C) ds r) ∧
        depth (x :: flattenNested (some C) ds r) ≤ d :=
      ⟨allTyped_append.2 ⟨allTyped_one hx, h1⟩, depth_append.2 ⟨hd'.1, h2⟩⟩
    cases x with
    | field a n args ds' sub => simp only [flattenNested]; exact hkeep
    | spread n ds' => simp only [flattenNested]; exact hkeep
    | frag c' ds' sub =>
      simp only [flattenNested]
      split
      · rename_i hc
        have hds : depth sub ≤ d := by
          have := hd'.1
          simp only [depth_one, depth1] at this
          omega
        refine ⟨allTyped_append.2 ⟨?_, h1⟩, depth_append.2 ⟨hds, h2⟩⟩
        rcases typed_frag hx with ⟨P', hPe, hcn, hb, hsub⟩ | ⟨P', D, hPe, hcs, hC, hsub⟩ |
          ⟨D, hPe, _⟩
        · rw [hc.1] at hcn
          cases hcn
        · rw [hc.1] at hcs
          cases hcs
          exact hsub
        · cases hPe
      · exact hkeep

theorem mergeIntoFrag_total {b : Bool} {k : Nat} {rec : Name → List Sel → Except Err (List Sel)}
    (hr : TotalRec S b b k rec) {P C : Name} (hC : (S.get C).isSome = true) {ds : List Dir}
    {sub : List Sel} (ht : AllTyped S b C sub) {d : Nat} (hd : depth sub + 1 ≤ d) (hk : d ≤ k) :
    ∀ {acc : List Sel}, AllTyped S b P acc → depth acc ≤ d →
    ∃ o, mergeIntoFrag (rec C) (some C) ds sub acc = .ok o ∧
      ∀ r, o = some r → AllTyped S b P r ∧ depth r ≤ d
  | [], _, _ => ⟨none, rfl, by simp⟩
  | x :: acc, ha, hda => by
    have hx := ha x (by simp)
    have hacc : AllTyped S b P acc := fun y hy => ha y (by simp [hy])
    have hd' := depth_append (s := [x]) (t := acc).1 hda
    obtain ⟨o, h1, h2⟩ := mergeIntoFrag_total hr hC (ds := ds) ht hd hk hacc hd'.2
    have hkeep : ∃ o', (do
        let o ← mergeIntoFrag (rec C) (some C) ds sub acc
        Except.ok (o.map (fun l => x :: l)) : Except Err (Option (List Sel))) = .ok o' ∧
        ∀ r, o' = some r → AllTyped S b P r ∧ depth r ≤ d := by
      refine ⟨o.map (fun l => x :: l), by simp only [h1, bind, Except.bind], ?_⟩
      intro r hr
      rw [Option.map_eq_some_iff] at hr
      obtain ⟨l, hl, rfl⟩ := hr
      obtain ⟨h3, h4⟩ := h2 l hl
      exact ⟨allTyped_append.2 ⟨allTyped_one hx, h3⟩, depth_append.2 ⟨hd'.1, h4⟩⟩
    cases x with
    | field a n args ds' sub' => simp only [mergeIntoFrag]; exact hkeep
    | spread n ds' => simp only [mergeIntoFrag]; exact hkeep
    | frag c' ds' sub' =>
      simp only [mergeIntoFrag]
      split
      · rename_i hc
        obtain ⟨hc1, _⟩ := hc
        subst hc1
        have hds : depth sub' + 1 ≤ d := by
          have := hd'.1
          simpa only [depth_one, depth1] using this
        have hsub' : AllTyped S b C sub' := by
          rcases typed_frag hx with ⟨P', hPe, hcn, hb, hsub⟩ | ⟨P', D, hPe, hcs, hC, hsub⟩ |
            ⟨D, hPe, _⟩
          · cases hcn
          · cases hcs
            exact hsub
          · cases hPe
        have hdd : depth (sub' ++ sub) ≤ d - 1 := depth_append.2 ⟨by omega, by omega⟩
        obtain ⟨m, h3, h4, h5⟩ := hr C (sub' ++ sub) hC (allTyped_append.2 ⟨hsub', ht⟩) (by omega)
        refine ⟨some (.frag (some C) ds' m :: acc), by simp only [h3, bind, Except.bind], ?_⟩
        intro r hr
        cases hr
        refine ⟨allTyped_append (s := [_]).2 ⟨allTyped_frag hC h4, hacc⟩,
          depth_append (s := [_]).2 ⟨?_, hd'.2⟩⟩
        simp only [depth_one, depth1]
        omega
      · exact hkeep

theorem mergeFragSet_total {Sub : Name → Name → Prop} (hS : SchemaTyped S Sub) : ∀ (k : Nat),
    TotalRec S false false k (mergeFragSet S k)
  | 0, P, s, _, _, hk => by omega
  | k + 1, P, s, hP, ht, hk => by
    have hr : TotalRec S false false k (mergeFragSet S k) := mergeFragSet_total hS k
    unfold mergeFragSet
    refine foldM_total (I := fun acc => AllTyped S false P acc ∧ depth acc ≤ depth s)
      ⟨by simp [AllTyped], by simp [depth]⟩ ?_
    intro acc x hx ⟨ha, hda⟩
    have htx := ht x hx
    have hdx := depth1_mem hx
    cases x with
    | field a n args ds sub =>
      simp only [depth1] at hdx
      simp only [mergeFragItem]
      split
      · refine ⟨_, rfl, allTyped_append.2 ⟨ha, allTyped_one htx⟩, depth_append.2 ⟨hda, ?_⟩⟩
        simp only [depth_one, depth1]
        omega
      · rename_i hc
        have hn : isIntro n = false := by
          cases hi : isIntro n with
          | false => rfl
          | true => simp [hi] at hc
        obtain ⟨A, hA, hsub⟩ := typed_proper hn htx
        obtain ⟨sub', h1, h2, h3⟩ := hr A sub (hS.known _ _ _ hA) hsub (by omega)
        refine ⟨_, by simp only [childType_total hS hA, h1, bind, Except.bind]; rfl,
          allTyped_append.2 ⟨ha, allTyped_one (.field hn hA h2)⟩, depth_append.2 ⟨hda, ?_⟩⟩
        simp only [depth_one, depth1]
        omega
    | frag c ds sub =>
      simp only [depth1] at hdx
      rcases typed_frag htx with ⟨P', hPe, rfl, hb, hsub⟩ | ⟨P', C, hPe, rfl, hC, hsub⟩ |
        ⟨C, hPe, _⟩
      · cases hb
      · have hbelow : belowFrag S P (some C) = C := by simp [belowFrag, hC]
        obtain ⟨sub', h1, h2, h3⟩ := hr C sub hC hsub (by omega)
        obtain ⟨h4, h5⟩ := flattenNested_total (ds := ds) h2 h3
        obtain ⟨o, h6, h7⟩ := mergeIntoFrag_total hr hC (ds := ds) h4 (d := depth s) (by omega)
          (by omega) ha hda
        simp only [mergeFragItem, hbelow, h1, h6, bind, Except.bind]
        cases o with
        | some acc' => exact ⟨_, rfl, h7 acc' rfl⟩
        | none =>
          refine ⟨_, rfl, allTyped_append.2 ⟨ha, allTyped_frag hC h4⟩, depth_append.2 ⟨hda, ?_⟩⟩
          simp only [depth_one, depth1]
          omega
      · cases hPe
    | spread n ds =>
      obtain ⟨f, hf, _⟩ := typed_spread htx
      cases hf

/-! ## flatten_matching_object_fragments -/

theorem flattenMatching_total {b : Bool} {C : Name} : ∀ {s : List Sel} {d : Nat},
    AllTyped S b C s → depth s ≤ d →
    AllTyped S b C (flattenMatching C s) ∧ depth (flattenMatching C s) ≤ d
  | [], d, h, hd => ⟨h, hd⟩
  | x :: r, d, h, hd => by
    have hx := h x (by simp)
    have hr : AllTyped S b C r := fun y hy => h y (by simp [hy])
    have hd' := depth_append (s := [x]) (t := r).1 hd
    obtain ⟨h1, h2⟩ := flattenMatching_total hr hd'.2
    have hkeep : AllTyped S b C (x :: flattenMatching C r) ∧
        depth (x :: flattenMatching C r) ≤ d :=
      ⟨allTyped_append.2 ⟨allTyped_one hx, h1⟩, depth_append.2 ⟨hd'.1, h2⟩⟩
    cases x with
    | field a n args ds' sub => simp only [flattenMatching]; exact hkeep
    | spread n ds' => simp only [flattenMatching]; exact hkeep
    | frag c' ds' sub =>
      simp only [flattenMatching]
      split
      · rename_i hc
        have hds : depth sub ≤ d := by
          have := hd'.1
          simp only [depth_one, depth1] at this
          omega
        refine ⟨allTyped_append.2 ⟨?_, h1⟩, depth_append.2 ⟨hds, h2⟩⟩
        rcases typed_frag hx with ⟨P', hPe, hcn, hb, hsub⟩ | ⟨P', D, hPe, hcs, hC, hsub⟩ |
          ⟨D, hPe, _⟩
        · rw [hc.2.1] at hcn
          cases hcn
        · rw [hc.2.1] at hcs
          cases hcs
          exact hsub
        · cases hPe
      · exact hkeep

theorem matchingSet_total {Sub : Name → Name → Prop} (hS : SchemaTyped S Sub) : ∀ (k : Nat),
    TotalRec S false false k (matchingSet S k)
  | 0, P, s, _, _, hk => by omega
  | k + 1, P, s, hP, ht, hk => by
    have hr : TotalRec S false false k (matchingSet S k) := matchingSet_total hS k
    unfold matchingSet
    refine loop_total (g := fun n => n) ?_ (fun _ _ h => h)
    intro x hx
    have htx := ht x hx
    have hdx := depth1_mem hx
    cases x with
    | field a n args ds sub =>
      simp only [depth1] at hdx
      simp only [matchingItem]
      split
      · exact ⟨_, rfl, allTyped_one htx, by simp [depth_one]⟩
      · rename_i hc
        have hn : isIntro n = false := by
          cases hi : isIntro n with
          | false => rfl
          | true => simp [hi] at hc
        obtain ⟨A, hA, hsub⟩ := typed_proper hn htx
        obtain ⟨sub', h1, h2, h3⟩ := hr A sub (hS.known _ _ _ hA) hsub (by omega)
        obtain ⟨h4, h5⟩ := flattenMatching_total h2 h3
        refine ⟨_, by simp only [childType_total hS hA, h1, bind, Except.bind]; rfl,
          allTyped_one (.field hn hA ?_), ?_⟩
        · split
          · exact h4
          · exact h2
        · simp only [depth_one, depth1]
          split <;> omega
    | frag c ds sub =>
      simp only [depth1] at hdx
      rcases typed_frag htx with ⟨P', hPe, rfl, hb, hsub⟩ | ⟨P', C, hPe, rfl, hC, hsub⟩ |
        ⟨C, hPe, _⟩
      · cases hb
      · have hbelow : belowFrag S P (some C) = C := by simp [belowFrag, hC]
        obtain ⟨sub', h1, h2, h3⟩ := hr C sub hC hsub (by omega)
        refine ⟨_, by simp only [matchingItem, hbelow, h1, bind, Except.bind]; rfl,
          allTyped_frag hC h2, ?_⟩
        simp only [depth_one, depth1]
        omega
      · cases hPe
    | spread n ds =>
      obtain ⟨f, hf, _⟩ := typed_spread htx
      cases hf

/-! ## merge_fields and drop_duplicated_fields -/

/-- Every inline fragment has a type condition; there are no spreads. -/
inductive Conditioned : Sel → Prop where
  | field {a : Option Name} {n : Name} {args : Args} {ds : List Dir} {sub : List Sel} :
      (∀ x ∈ sub, Conditioned x) → Conditioned (.field a n args ds sub)
  | frag {C : Name} {ds : List Dir} {sub : List Sel} :
      (∀ x ∈ sub, Conditioned x) → Conditioned (.frag (some C) ds sub)

theorem conditioned_field {a n args ds sub} (h : Conditioned (.field a n args ds sub)) :
    ∀ x ∈ sub, Conditioned x := by
  cases h with
  | field h => exact h

theorem conditioned_frag {c ds sub} (h : Conditioned (.frag c ds sub)) :
    (∃ C, c = some C) ∧ ∀ x ∈ sub, Conditioned x := by
  cases h with
  | frag h => exact ⟨⟨_, rfl⟩, h⟩

theorem conditioned_spread {n ds} (h : Conditioned (.spread n ds)) : False := by
  cases h

theorem typed_conditioned {ctx : Option Name} {x : Sel} (h : Typed S [] false ctx x) :
    Conditioned x := by
  induction h with
  | field _ _ _ ih => exact .field ih
  | intro _ _ ih => exact .field ih
  | inner _ ih => exact .field ih
  | bare hb => cases hb
  | frag _ _ ih => exact .frag ih
  | fragInner _ ih => exact .frag ih
  | spread hf => cases hf
  | spreadInner hf => cases hf

/-- Every selection of the list. -/
def AllConditioned (s : List Sel) : Prop := ∀ x ∈ s, Conditioned x

theorem allConditioned_append {s t : List Sel} :
    AllConditioned (s ++ t) ↔ AllConditioned s ∧ AllConditioned t := by
  simp only [AllConditioned, List.mem_append]
  constructor
  · intro h; exact ⟨fun x hx => h x (.inl hx), fun x hx => h x (.inr hx)⟩
  · rintro ⟨h1, h2⟩ x (hx | hx)
    · exact h1 x hx
    · exact h2 x hx

theorem allConditioned_one {x : Sel} (h : Conditioned x) : AllConditioned [x] := by
  intro y hy
  rw [List.mem_singleton] at hy
  subst hy
  exact h

/-- As `TotalRec`, for the pass that does not look at types. -/
def TotalRec0 (k : Nat) (rec : List Sel → Except Err (List Sel)) : Prop :=
  ∀ s, AllConditioned s → depth s < k → ∃ s', rec s = .ok s' ∧ AllConditioned s' ∧ depth s' ≤ depth s

theorem mergeIntoField_total {k : Nat} {rec : List Sel → Except Err (List Sel)}
    (hr : TotalRec0 k rec) {a : Option Name} {n : Name} {args : Args} {ds : List Dir}
    {sub : List Sel} (ht : AllConditioned sub) {d : Nat} (hd : depth sub + 1 ≤ d) (hk : d ≤ k) :
    ∀ {acc : List Sel}, AllConditioned acc → depth acc ≤ d →
    ∃ o, mergeIntoField rec a n args ds sub acc = .ok o ∧
      ∀ r, o = some r → AllConditioned r ∧ depth r ≤ d
  | [], _, _ => ⟨none, rfl, by simp⟩
  | x :: acc, ha, hda => by
    have hx := ha x (by simp)
    have hacc : AllConditioned acc := fun y hy => ha y (by simp [hy])
    have hd' := depth_append (s := [x]) (t := acc).1 hda
    obtain ⟨o, h1, h2⟩ := mergeIntoField_total hr (a := a) (n := n) (args := args) (ds := ds) ht hd hk
      hacc hd'.2
    have hkeep : ∃ o', (do
        let o ← mergeIntoField rec a n args ds sub acc
        Except.ok (o.map (fun l => x :: l)) : Except Err (Option (List Sel))) = .ok o' ∧
        ∀ r, o' = some r → AllConditioned r ∧ depth r ≤ d := by
      refine ⟨o.map (fun l => x :: l), by simp only [h1, bind, Except.bind], ?_⟩
      intro r hr
      rw [Option.map_eq_some_iff] at hr
      obtain ⟨l, hl, rfl⟩ := hr
      obtain ⟨h3, h4⟩ := h2 l hl
      exact ⟨allConditioned_append (s := [x]).2 ⟨allConditioned_one hx, h3⟩,
        depth_append (s := [x]).2 ⟨hd'.1, h4⟩⟩
    cases x with
    | frag c' ds' sub' => simp only [mergeIntoField]; exact hkeep
    | spread n ds' => exact (conditioned_spread hx).elim
    | field a' n' args' ds' sub' =>
      simp only [mergeIntoField]
      split
      · have hds : depth sub' + 1 ≤ d := by
          have := hd'.1
          simpa only [depth_one, depth1] using this
        have hdd : depth (sub' ++ sub) ≤ d - 1 := depth_append.2 ⟨by omega, by omega⟩
        obtain ⟨m, h3, h4, h5⟩ := hr (sub' ++ sub)
          (allConditioned_append.2 ⟨conditioned_field hx, ht⟩) (by omega)
        refine ⟨some (.field a' n' args' ds' m :: acc), by simp only [h3, bind, Except.bind], ?_⟩
        intro r hr
        cases hr
        refine ⟨allConditioned_append (s := [_]).2 ⟨allConditioned_one (.field h4), hacc⟩,
          depth_append (s := [_]).2 ⟨?_, hd'.2⟩⟩
        simp only [depth_one, depth1]
        omega
      · exact hkeep

theorem mergeFieldSet_total : ∀ (k : Nat), TotalRec0 k (mergeFieldSet k)
  | 0, s, _, hk => by omega
  | k + 1, s, ht, hk => by
    have hr : TotalRec0 k (mergeFieldSet k) := mergeFieldSet_total k
    unfold mergeFieldSet
    refine foldM_total (I := fun acc => AllConditioned acc ∧ depth acc ≤ depth s)
      ⟨by simp [AllConditioned], by simp [depth]⟩ ?_
    intro acc x hx ⟨ha, hda⟩
    have htx := ht x hx
    have hdx := depth1_mem hx
    cases x with
    | field a n args ds sub =>
      simp only [depth1] at hdx
      obtain ⟨sub', h1, h2, h3⟩ := hr sub (conditioned_field htx) (by omega)
      obtain ⟨o, h6, h7⟩ := mergeIntoField_total hr (a := a) (n := n) (args := args) (ds := ds) h2
        (d := depth s) (by omega) (by omega) ha hda
      simp only [mergeFieldItem, h1, h6, bind, Except.bind]
      cases o with
      | some acc' => exact ⟨_, rfl, h7 acc' rfl⟩
      | none =>
        refine ⟨_, rfl, allConditioned_append.2 ⟨ha, allConditioned_one (.field h2)⟩,
          depth_append.2 ⟨hda, ?_⟩⟩
        simp only [depth_one, depth1]
        omega
    | frag c ds sub =>
      simp only [depth1] at hdx
      obtain ⟨⟨C, rfl⟩, hsub⟩ := conditioned_frag htx
      obtain ⟨sub', h1, h2, h3⟩ := hr sub hsub (by omega)
      refine ⟨_, by simp only [mergeFieldItem, h1, bind, Except.bind]; rfl,
        allConditioned_append.2 ⟨ha, allConditioned_one (.frag h2)⟩, depth_append.2 ⟨hda, ?_⟩⟩
      simp only [depth_one, depth1]
      omega
    | spread n ds => exact (conditioned_spread htx).elim

mutual
theorem dedup1_conditioned : ∀ {x : Sel}, Conditioned x → Conditioned (dedup1 x)
  | .field _ _ _ _ _, h => h
  | .spread _ _, h => h
  | .frag c ds sub, h => by
    obtain ⟨⟨C, rfl⟩, hsub⟩ := conditioned_frag h
    unfold dedup1
    refine .frag ?_
    split
    · exact hsub
    · exact dedupLoop_conditioned (by simp [AllConditioned]) hsub
theorem dedupLoop_conditioned : ∀ {s acc : List Sel}, AllConditioned acc → AllConditioned s →
    AllConditioned (dedupLoop acc s)
  | [], _, ha, _ => ha
  | x :: r, acc, ha, hs => by
    have hx := hs x (by simp)
    have hr : AllConditioned r := fun y hy => hs y (by simp [hy])
    unfold dedupLoop
    split
    · exact dedupLoop_conditioned ha hr
    · exact dedupLoop_conditioned
        (allConditioned_append.2 ⟨ha, allConditioned_one (dedup1_conditioned hx)⟩) hr
end

theorem dropDuplicates_conditioned {s : List Sel} (h : AllConditioned s) :
    AllConditioned (dropDuplicates s) := by
  unfold dropDuplicates
  split
  · exact h
  · exact dedupLoop_conditioned (by simp [AllConditioned]) h

mutual
theorem convert1_total : ∀ {x : Sel}, Conditioned x → ∃ i, convert1 x = .ok i
  | .field a n args ds sub, h => by
    obtain ⟨is, h1⟩ := convert_total (conditioned_field h)
    exact ⟨_, by simp only [convert1, h1, bind, Except.bind]; rfl⟩
  | .spread _ _, h => (conditioned_spread h).elim
  | .frag c ds sub, h => by
    obtain ⟨⟨C, rfl⟩, hsub⟩ := conditioned_frag h
    obtain ⟨is, h1⟩ := convert_total hsub
    exact ⟨_, by simp only [convert1, h1, bind, Except.bind]; rfl⟩
theorem convert_total : ∀ {s : List Sel}, AllConditioned s → ∃ is, convert s = .ok is
  | [], _ => ⟨[], rfl⟩
  | x :: r, h => by
    obtain ⟨i, h1⟩ := convert1_total (h x (by simp))
    obtain ⟨is, h2⟩ := convert_total (s := r) fun y hy => h y (by simp [hy])
    exact ⟨_, by simp only [convert, h1, h2, bind, Except.bind]; rfl⟩
end

/-! ## The whole pipeline -/

theorem normalizeSels_total {Sub : Name → Name → Prop} (hS : SchemaTyped S Sub) {R : Name}
    {s : List Sel} (hv : OpValid S frs R s) :
    ∃ s', normalizeSels S frs R s = .ok s' ∧ AllConditioned s' := by
  obtain ⟨rank, hf, r, hs⟩ := hv.acyclic
  have hu' : ((normalizeFrags (dropFrags frs)).map Frag.name).Nodup := by
    unfold normalizeFrags dropFrags
    rw [map_names, map_names]
    exact hv.unique
  have hf' : ∀ f ∈ normalizeFrags (dropFrags frs), ∀ x ∈ f.sels,
      SpreadsBelow (normalizeFrags (dropFrags frs)) rank (rank f.name) x := by
    intro f hfm
    obtain ⟨g, hg, rfl⟩ := List.mem_map.1 hfm
    obtain ⟨g', hg', rfl⟩ := List.mem_map.1 hg
    exact norm_spreads_set (drop_spreads_set (hf g' hg'))
  obtain ⟨s1, h1⟩ := inlineSpreads_total hu' hf' (norm_spreads_set (drop_spreads_set hs))
  have h1' : inlineSpreads (normalizeFrags (dropFrags frs)) (normalizeFields (dropSkipped s)) =
    .ok s1 := h1
  obtain ⟨k, hk⟩ := inlineSpreads_ok h1
  have t1 : AllTyped S true R s1 := inlineSet_typed hu' k (ctx := some R) hk
    (fun _ _ _ h => by cases h) (norm_typed_set (drop_typed_set hv.typed))
  obtain ⟨s2, h2, t2, _⟩ := flattenSet_total hS (depth s1 + 1) R s1 hv.root t1 (Nat.lt_succ_self _)
  obtain ⟨s3, h3, t3⟩ := typeExpandSet_total hS (depth s2 + 1) R s2 hv.root t2 (Nat.lt_succ_self _)
  obtain ⟨s4, h4, t4, _⟩ := mergeFragSet_total hS (depth s3 + 1) R s3 hv.root t3 (Nat.lt_succ_self _)
  obtain ⟨s5, h5, t5, _⟩ := matchingSet_total hS (depth s4 + 1) R s4 hv.root t4 (Nat.lt_succ_self _)
  obtain ⟨s6, h6, t6, _⟩ := mergeFieldSet_total (depth s5 + 1) s5 (fun x hx => typed_conditioned (t5 x hx))
    (Nat.lt_succ_self _)
  refine ⟨dropDuplicates s6, ?_, dropDuplicates_conditioned t6⟩
  unfold normalizeSels
  have hroot : ¬ (S.get R).isNone = true := not_none_of_some hv.root
  unfold normalizeFrags dropFrags at h1
  simp only [h1, bind, Except.bind, if_neg hroot, h2, h3, h4, h5, h6]

theorem chooseOp_of_asked {opName : Option Name} {op : Op} : ∀ {ops : List Op},
    (ops.map Op.name).Nodup → Asked ops opName op → chooseOp opName ops = some op := by
  intro ops hn ha
  unfold chooseOp
  cases opName with
  | none =>
    obtain ⟨rest, rfl⟩ := ha
    rfl
  | some n =>
    obtain ⟨hm, hname⟩ := ha
    simp only
    induction ops with
    | nil => cases hm
    | cons o r ih =>
      rw [List.map_cons, List.nodup_cons] at hn
      rw [List.find?_cons]
      rcases List.mem_cons.1 hm with rfl | hm
      · simp [hname]
      · have hne : o.name ≠ some n := by
          intro he
          exact hn.1 (List.mem_map.2 ⟨op, hm, by rw [hname, he]⟩)
        simp only [beq_eq_false_iff_ne.2 hne]
        exact ih hn.2 hm

theorem rootType_total {k : Kind} {R : Name} (h : RootOf S k R) : rootType S k = .ok R := by
  unfold rootType
  cases k with
  | query => rw [show S.query = R from h]
  | mutation => rw [show S.mutation = some R from h]
  | subscription => rw [show S.subscription = some R from h]

/-- C39: the operation a request asks for is normalized, without error or panic, when it is valid:
its fields and types exist, fragments are known and not cyclic, and inline fragments below
introspection fields have a type condition (`C39_introspection_panics_always` shows that this one
is needed). -/
theorem C39_valid_succeeds {Sub : Name → Name → Prop} (hS : SchemaTyped S Sub) {doc : Doc}
    {opName : Option Name} {op : Op} {R : Name} (hn : (doc.ops.map Op.name).Nodup)
    (ha : Asked doc.ops opName op) (hR : RootOf S op.kind R) (hv : OpValid S doc.frags R op.sels) :
    ∃ items, normalizeOperation S doc opName = .ok (op.kind, items) := by
  obtain ⟨s, h1, h2⟩ := normalizeSels_total hS hv
  obtain ⟨is, h3⟩ := convert_total h2
  refine ⟨inject S R is, ?_⟩
  unfold normalizeOperation
  rw [chooseOp_of_asked hn ha]
  simp only [rootType_total hR, h1, h3, bind, Except.bind]

/-! ## A request that meets the hypotheses -/

/-- `SchemaTyped` as a computation, for the subtypes given by possible types. -/
def typedCheck (S : Schema) : Bool :=
  S.defs.all fun d =>
    d.2.fields.all (fun f => (S.get f.2.ty).isSome) &&
    (possList S d.1).all fun T => S.isObject T &&
      d.2.fields.all fun f => match S.fieldTy T f.1 with
        | some Y => Y == f.2.ty || (possList S f.2.ty).contains Y
        | none => false

theorem fieldTy_def {P n A : Name} (h : S.fieldTy P n = some A) :
    ∃ d fd, S.get P = some d ∧ (n, fd) ∈ d.fields ∧ fd.ty = A := by
  unfold Schema.fieldTy at h
  cases hd : S.get P with
  | none =>
    rw [hd] at h
    cases h
  | some d =>
    rw [hd] at h
    simp only [Option.map_eq_some_iff] at h
    obtain ⟨fd, hfd, hty⟩ := h
    exact ⟨d, fd, rfl, lookup_pair_mem hfd, hty⟩

theorem schemaTyped_of_check {S : Schema} (h : typedCheck S = true) :
    SchemaTyped S (fun B A => B = A ∨ IsPossible S B A) := by
  unfold typedCheck at h
  have key : ∀ P d, S.get P = some d → _ := fun P d hd => List.all_eq_true.1 h _ (lookup_pair_mem hd)
  simp only [Bool.and_eq_true] at key
  refine ⟨fun T P hP => ⟨.inr hP, ?_⟩, ?_, ?_⟩
  · obtain ⟨d, hd⟩ := get_of_possible hP
    have h2 := List.all_eq_true.1 (key P d hd).2 T (mem_possList hP)
    simp only [Bool.and_eq_true] at h2
    exact h2.1
  · intro B A n X hB hX
    rcases hB with rfl | hB
    · exact ⟨X, hX, .inl rfl⟩
    · obtain ⟨d, fd, hd, hfd, rfl⟩ := fieldTy_def hX
      have h2 := List.all_eq_true.1 (key A d hd).2 B (mem_possList hB)
      simp only [Bool.and_eq_true] at h2
      have h3 := List.all_eq_true.1 h2.2 _ hfd
      simp only at h3
      split at h3
      · rename_i Y hY
        refine ⟨Y, hY, ?_⟩
        rw [Bool.or_eq_true] at h3
        rcases h3 with h3 | h3
        · exact .inl (by simpa using h3)
        · exact .inr (possList_mem (List.contains_iff_mem.1 h3))
      · cases h3
  · intro P n A hA
    obtain ⟨d, fd, hd, hfd, rfl⟩ := fieldTy_def hA
    exact List.all_eq_true.1 (key P d hd).1 _ hfd

theorem demo_typed : SchemaTyped demo (fun B A => B = A ∨ IsPossible demo B A) :=
  schemaTyped_of_check (by decide +kernel)

/-- A request with an inline fragment without type condition, one on an interface, a nested spread
and an introspection field:
`{ items(first: 2) { ... @include(if: $g) { id } ...F } hit { ... on Item { id } } __schema { types { name } } }`. -/
def demoDoc2 : Doc where
  ops := [⟨.query, none, [
    .field none "items" [("first", .other 2)] [] [
      .frag none [⟨"include", [("if", .var "g")]⟩] [.field none "id" [] [] []], .spread "F" []],
    .field none "hit" [] [] [.frag (some "Item") [] [.field none "id" [] [] []]],
    .field none "__schema" [] [] [.field none "types" [] [] [.field none "name" [] [] []]]]⟩]
  frags := demoFrags

theorem demoDoc2_valid : ∀ op ∈ demoDoc2.ops, OpValid demo demoDoc2.frags "Query" op.sels := by
  intro op hop
  simp only [demoDoc2, List.mem_singleton] at hop
  subst hop
  have hF : (⟨"F", "Item", [.field (some "t") "title" [] [] [],
      .spread "G" [⟨"include", [("if", .var "g")]⟩]]⟩ : Frag) ∈ demoFrags := by simp [demoFrags]
  have hG : (⟨"G", "Book", [.field none "pages" [] [] [], .field none "id" [] [] []]⟩ : Frag) ∈
      demoFrags := by simp [demoFrags]
  have two : ∀ {q : Sel → Prop} {x y : Sel}, q x → q y → ∀ z ∈ [x, y], q z := by
    intro q x y hx hy z hz
    simp only [List.mem_cons, List.not_mem_nil, or_false] at hz
    rcases hz with rfl | rfl
    · exact hx
    · exact hy
  have one : ∀ {q : Sel → Prop} {x : Sel}, q x → ∀ z ∈ [x], q z := by
    intro q x hx z hz
    rw [List.mem_singleton] at hz
    subst hz
    exact hx
  have three : ∀ {q : Sel → Prop} {x y w : Sel}, q x → q y → q w → ∀ z ∈ [x, y, w], q z := by
    intro q x y w hx hy hw z hz
    simp only [List.mem_cons, List.not_mem_nil, or_false] at hz
    rcases hz with rfl | rfl | rfl
    · exact hx
    · exact hy
    · exact hw
  refine ⟨⟨fun n => if n = "F" then 1 else 0, ?_, 2, ?_⟩, ?_, by simp [demoDoc2, demoFrags], rfl⟩
  · intro f hf
    simp only [demoDoc2, demoFrags, List.mem_cons, List.not_mem_nil, or_false] at hf
    rcases hf with rfl | rfl
    · exact two (.field (by simp)) (.spread hG (by decide))
    · exact two (.field (by simp)) (.field (by simp))
  · exact three (.field (two (.frag (one (.field (by simp)))) (.spread hF (by decide))))
      (.field (one (.frag (one (.field (by simp))))))
      (.field (one (.field (one (.field (by simp))))))
  · have leaf : ∀ {P A n : Name} {a : Option Name}, isIntro n = false → demo.fieldTy P n = some A →
        Typed demo demoFrags true (some P) (.field a n [] [] []) :=
      fun h1 h2 => .field h1 h2 (by simp)
    refine three (.field (A := "Item") rfl rfl (two (.bare rfl (one (leaf (A := "ID") rfl rfl)))
        (.spread hF rfl (two (leaf (A := "String") rfl rfl)
          (.spread hG rfl (two (leaf (A := "Int") rfl rfl) (leaf (A := "ID") rfl rfl)))))))
      (.field (A := "Hit") rfl rfl (one (.frag rfl (one (leaf (A := "ID") rfl rfl)))))
      (.intro rfl (one (.inner (one (.inner (by simp))))))

/-- The hypotheses of `C39_valid_succeeds` are met. -/
example : ∃ items, normalizeOperation demo demoDoc2 none = .ok (.query, items) :=
  C39_valid_succeeds demo_typed (op := demoDoc2.ops.head (by simp [demoDoc2])) (R := "Query")
    (by simp [demoDoc2]) ⟨_, rfl⟩ rfl (demoDoc2_valid _ (List.head_mem _))

end Verif.Normalize
