import Verif.Limits.Spec

namespace Verif.Limits

/-! ## Termination -/

/-- How many of the fragments have not been visited. -/
def unvisited (l : List Name) (m : Marks) : Nat := (l.filter fun f => (m f).isNone).length

theorem unvisited_mono (l : List Name) {m m' : Marks} (h : ∀ g, m g ≠ none → m' g ≠ none) :
    unvisited l m' ≤ unvisited l m := by
  unfold unvisited
  induction l with
  | nil => simp
  | cons f l ih =>
    simp only [List.filter_cons]
    cases hm : m' f with
    | none =>
      have : m f = none := by
        by_cases hx : m f = none
        · exact hx
        · exact absurd hm (h f hx)
      simp [this]; exact ih
    | some k =>
      cases m f with
      | none => simp; omega
      | some k => simp; exact ih

theorem unvisited_set (l : List Name) {m : Marks} {f : Name} {k : Mark} (hf : f ∈ l)
    (hm : m f = none) : unvisited l (m.set f k) + 1 ≤ unvisited l m := by
  unfold unvisited
  induction l with
  | nil => simp at hf
  | cons g l ih =>
    simp only [List.filter_cons]
    have hmono : (l.filter fun g => ((m.set f k) g).isNone).length ≤
        (l.filter fun g => (m g).isNone).length := by
      refine unvisited_mono l (m := m) (m' := m.set f k) ?_
      intro x hx
      unfold Marks.set
      split <;> simp_all
    by_cases hg : g = f
    · subst hg
      simp only [Marks.set, if_true, Option.isNone_some, Bool.false_eq_true, if_false, hm,
        Option.isNone_none, List.length_cons]
      simp only [Marks.set] at hmono
      omega
    · rcases List.mem_cons.1 hf with rfl | hf
      · exact absurd rfl hg
      · have := ih hf
        simp only [Marks.set, hg, if_false] at this ⊢
        cases m g <;> simp <;> omega

theorem size_pos (i : Item) : 0 < i.size := by cases i <;> simp [Item.size] <;> omega

theorem sizes_le {c : Item} {cs : List Item} (h : c ∈ cs) : c.size ≤ Item.size.sizes cs := by
  induction cs with
  | nil => simp at h
  | cons a cs ih =>
    simp only [Item.size.sizes]
    rcases List.mem_cons.1 h with rfl | h
    · omega
    · have := ih h; omega

theorem child_size {i c : Item} (h : c ∈ i.children) : c.size < i.size := by
  cases i <;> simp only [Item.children] at h <;> simp only [Item.size]
  · have := sizes_le h; omega
  · have := sizes_le h; omega
  · simp at h

theorem set_ne {m : Marks} {f : Name} {k : Mark} (g : Name) (h : m g ≠ none) :
    (m.set f k) g ≠ none := by
  unfold Marks.set; split <;> simp_all

theorem depthLoop_total (cfg : DepthConfig) (rec : Marks → Item → Nat → Option Outcome) (p : Nat) :
    ∀ (cs : List Item) (depth : Nat) (m : Marks) (Q : Marks → Prop), Q m →
    (∀ c ∈ cs, ∀ m q, Q m → ∃ out, rec m c q = some out ∧ Q out.2) →
    ∃ out, depthLoop cfg rec p cs depth m = some out ∧ Q out.2 := by
  intro cs
  induction cs with
  | nil => intro depth m Q hq _; exact ⟨_, rfl, hq⟩
  | cons c cs ih =>
    intro depth m Q hq h
    simp only [depthLoop]
    obtain ⟨⟨r, m1⟩, h1, h2⟩ := h c (List.mem_cons_self ..) m (p + increase cfg c) hq
    rw [h1]
    cases r with
    | error e => exact ⟨_, rfl, h2⟩
    | ok d => exact ih _ _ Q h2 fun c hc => h c (List.mem_cons_of_mem _ hc)

theorem countDepth_total (cfg : DepthConfig) (known : Fragments) (l : List Name) (B : Nat)
    (hl : ∀ f body, known f = some body → f ∈ l ∧ body.size ≤ B) :
    ∀ fuel m node p, unvisited l m * (B + 1) + node.size ≤ fuel →
    ∃ out, countDepth cfg known fuel m node p = some out ∧ ∀ g, m g ≠ none → out.2 g ≠ none := by
  intro fuel
  induction fuel with
  | zero => intro m node p h; have := size_pos node; omega
  | succ fuel ih =>
    intro m node p hf
    simp only [countDepth]
    split
    · exact ⟨_, rfl, fun g h => h⟩
    split
    · exact ⟨_, rfl, fun g h => h⟩
    obtain ⟨⟨r, m1⟩, h1, h2⟩ := depthLoop_total cfg (countDepth cfg known fuel) p node.children p m
      (fun m' => ∀ g, m g ≠ none → m' g ≠ none) (fun g h => h) (by
        intro c hc m' q hq
        have hs := child_size hc
        have hu := unvisited_mono l hq
        have hmul := Nat.mul_le_mul_right (B + 1) hu
        obtain ⟨out, ho, hg⟩ := ih m' c q (by omega)
        exact ⟨out, ho, fun g h => hg g (hq g h)⟩)
    rw [h1]
    cases r with
    | error e => exact ⟨_, rfl, h2⟩
    | ok depth =>
      cases node with
      | field => exact ⟨_, rfl, h2⟩
      | inline => exact ⟨_, rfl, h2⟩
      | spread f d =>
        simp only [depthSpread]
        generalize (if cfg.flattenFragments = true then p else p + 1) = q
        cases hm : m1 f with
        | some k =>
          cases k with
          | counted k => simp only; split <;> exact ⟨_, rfl, h2⟩
          | visiting => exact ⟨_, rfl, h2⟩
        | none =>
          simp only
          cases hk : known f with
          | none => exact ⟨_, rfl, fun g h => set_ne g (h2 g h)⟩
          | some body =>
            simp only
            obtain ⟨hfl, hB⟩ := hl f body hk
            have hu := unvisited_set (m := m1) (k := .visiting) l hfl hm
            have hu2 : unvisited l m1 ≤ unvisited l m := unvisited_mono l h2
            simp only [Item.size] at hf
            have hmul : (unvisited l (m1.set f .visiting) + 1) * (B + 1) ≤
                unvisited l m * (B + 1) := Nat.mul_le_mul_right _ (by omega)
            rw [Nat.add_mul] at hmul
            obtain ⟨⟨r, m2⟩, h3, h4⟩ := ih (m1.set f .visiting) body 0 (by omega)
            rw [h3]
            have h5 : ∀ g, m g ≠ none → m2 g ≠ none := fun g h => h4 g (set_ne g (h2 g h))
            cases r with
            | error e => exact ⟨_, rfl, h5⟩
            | ok k =>
              simp only
              split <;> exact ⟨_, rfl, fun g h => set_ne g (h5 g h)⟩

theorem sumLoop_total (n : Nat) (rec : Marks → Item → Option Outcome) :
    ∀ (cs : List Item) (total : Nat) (m : Marks) (Q : Marks → Prop), Q m →
    (∀ c ∈ cs, ∀ m, Q m → ∃ out, rec m c = some out ∧ Q out.2) →
    ∃ out, sumLoop n rec cs total m = some out ∧ Q out.2 := by
  intro cs
  induction cs with
  | nil => intro total m Q hq _; exact ⟨_, rfl, hq⟩
  | cons c cs ih =>
    intro total m Q hq h
    simp only [sumLoop]
    obtain ⟨⟨r, m1⟩, h1, h2⟩ := h c (List.mem_cons_self ..) m hq
    rw [h1]
    cases r with
    | error e => exact ⟨_, rfl, h2⟩
    | ok d =>
      simp only
      split
      · exact ⟨_, rfl, h2⟩
      · exact ih _ _ Q h2 fun c hc => h c (List.mem_cons_of_mem _ hc)

theorem countSum_total (own : Item → Nat) (n : Nat) (known : Fragments) (l : List Name) (B : Nat)
    (hl : ∀ f body, known f = some body → f ∈ l ∧ body.size ≤ B) :
    ∀ fuel m node, unvisited l m * (B + 1) + node.size ≤ fuel →
    ∃ out, countSum own n known fuel m node = some out ∧ ∀ g, m g ≠ none → out.2 g ≠ none := by
  intro fuel
  induction fuel with
  | zero => intro m node h; have := size_pos node; omega
  | succ fuel ih =>
    intro m node hf
    simp only [countSum]
    split
    · exact ⟨_, rfl, fun g h => h⟩
    obtain ⟨⟨r, m1⟩, h1, h2⟩ := sumLoop_total n (countSum own n known fuel) node.children
      (own node) m (fun m' => ∀ g, m g ≠ none → m' g ≠ none) (fun g h => h) (by
        intro c hc m' hq
        have hs := child_size hc
        have hu := unvisited_mono l hq
        have hmul := Nat.mul_le_mul_right (B + 1) hu
        obtain ⟨out, ho, hg⟩ := ih m' c (by omega)
        exact ⟨out, ho, fun g h => hg g (hq g h)⟩)
    rw [h1]
    cases r with
    | error e => exact ⟨_, rfl, h2⟩
    | ok total =>
      cases node with
      | field => exact ⟨_, rfl, h2⟩
      | inline => exact ⟨_, rfl, h2⟩
      | spread f d =>
        simp only [sumSpread]
        cases hm : m1 f with
        | some k =>
          cases k with
          | counted k => simp only; split <;> exact ⟨_, rfl, h2⟩
          | visiting => exact ⟨_, rfl, h2⟩
        | none =>
          simp only
          cases hk : known f with
          | none => exact ⟨_, rfl, fun g h => set_ne g (h2 g h)⟩
          | some body =>
            simp only
            obtain ⟨hfl, hB⟩ := hl f body hk
            have hu := unvisited_set (m := m1) (k := .visiting) l hfl hm
            have hu2 : unvisited l m1 ≤ unvisited l m := unvisited_mono l h2
            simp only [Item.size] at hf
            have hmul : (unvisited l (m1.set f .visiting) + 1) * (B + 1) ≤
                unvisited l m * (B + 1) := Nat.mul_le_mul_right _ (by omega)
            rw [Nat.add_mul] at hmul
            obtain ⟨⟨r, m2⟩, h3, h4⟩ := ih (m1.set f .visiting) body (by omega)
            rw [h3]
            have h5 : ∀ g, m g ≠ none → m2 g ≠ none := fun g h => h4 g (set_ne g (h2 g h))
            cases r with
            | error e => exact ⟨_, rfl, h5⟩
            | ok k =>
              simp only
              split <;> exact ⟨_, rfl, fun g h => set_ne g (h5 g h)⟩

/-! ## Expansion -/

theorem spreads_sub {c : Item} {cs : List Item} (h : c ∈ cs) :
    ∀ g ∈ c.spreads, g ∈ Item.spreads.all cs := by
  induction cs with
  | nil => simp at h
  | cons a cs ih =>
    intro g hg
    simp only [Item.spreads.all, List.mem_append]
    rcases List.mem_cons.1 h with rfl | h
    · exact Or.inl hg
    · exact Or.inr (ih h g hg)

theorem expandsAll_exists (known : Fragments) : ∀ cs : List Item,
    (∀ c ∈ cs, ∃ t, Expands known c t) → ∃ ts, ExpandsAll known cs ts := by
  intro cs
  induction cs with
  | nil => intro _; exact ⟨[], .nil⟩
  | cons c cs ih =>
    intro h
    obtain ⟨t, ht⟩ := h c (List.mem_cons_self ..)
    obtain ⟨ts, hts⟩ := ih fun c hc => h c (List.mem_cons_of_mem _ hc)
    exact ⟨t :: ts, .cons ht hts⟩

/-- In a document without cyclic fragments, every item can be written out. -/
theorem expands_exists (known : Fragments) (rank : Name → Nat)
    (hr : ∀ f body, known f = some body → ∀ g ∈ body.spreads, rank g < rank f) :
    ∀ (r : Nat) (k : Nat) (i : Item), i.size ≤ k → (∀ g ∈ i.spreads, rank g < r) →
      ∃ t, Expands known i t := by
  intro r
  induction r with
  | zero =>
    intro k
    induction k with
    | zero => intro i hi; have := size_pos i; omega
    | succ k ih =>
      intro i hi hg
      cases i with
      | field n a d cs =>
        obtain ⟨ts, h⟩ := expandsAll_exists known cs fun c hc =>
          ih c (by have := sizes_le hc; simp only [Item.size] at hi; omega) fun g hgc =>
            hg g (spreads_sub hc g hgc)
        exact ⟨_, .field h⟩
      | inline d cs =>
        obtain ⟨ts, h⟩ := expandsAll_exists known cs fun c hc =>
          ih c (by have := sizes_le hc; simp only [Item.size] at hi; omega) fun g hgc =>
            hg g (spreads_sub hc g hgc)
        exact ⟨_, .inline h⟩
      | spread f d =>
        have := hg f (by simp [Item.spreads])
        omega
  | succ r ihr =>
    intro k
    induction k with
    | zero => intro i hi; have := size_pos i; omega
    | succ k ih =>
      intro i hi hg
      cases i with
      | field n a d cs =>
        obtain ⟨ts, h⟩ := expandsAll_exists known cs fun c hc =>
          ih c (by have := sizes_le hc; simp only [Item.size] at hi; omega) fun g hgc =>
            hg g (spreads_sub hc g hgc)
        exact ⟨_, .field h⟩
      | inline d cs =>
        obtain ⟨ts, h⟩ := expandsAll_exists known cs fun c hc =>
          ih c (by have := sizes_le hc; simp only [Item.size] at hi; omega) fun g hgc =>
            hg g (spreads_sub hc g hgc)
        exact ⟨_, .inline h⟩
      | spread f d =>
        cases hk : known f with
        | none => exact ⟨_, .unknown hk⟩
        | some body =>
          obtain ⟨t, ht⟩ := ihr body.size body (Nat.le_refl _) fun g hgb => by
            have h1 := hr f body hk g hgb
            have h2 := hg f (by simp [Item.spreads])
            omega
          exact ⟨_, .known hk ht⟩

/-! ## Depth -/

theorem depths_cons (cfg : DepthConfig) (p : Nat) (c : Item) (cs : List Item) :
    Item.depths cfg p (c :: cs) =
      max (Item.depth cfg (p + increase cfg c) c) (Item.depths cfg p cs) := by
  cases c <;> simp only [Item.depths, increase]

theorem depth_ignored (cfg : DepthConfig) (p : Nat) (i : Item) (h : ignored cfg i = true) :
    i.depth cfg p = 0 := by
  cases i with
  | field n a d cs =>
    simp only [ignored, Bool.and_eq_true, Bool.or_eq_true, beq_iff_eq] at h
    rw [Item.depth, if_pos h]
  | inline => simp [ignored] at h
  | spread => simp [ignored] at h

theorem depth_not_ignored (cfg : DepthConfig) (p : Nat) (i : Item) (h : ignored cfg i = false) :
    i.depth cfg p = max p (Item.depths cfg p i.children) := by
  cases i with
  | field n a d cs =>
    have : ¬ (cfg.ignoreIntrospection = true ∧ (n = "__schema" ∨ n = "__type")) := by
      intro hx
      have : ignored cfg (.field n a d cs) = true := by
        simpa only [ignored, Bool.and_eq_true, Bool.or_eq_true, beq_iff_eq] using hx
      rw [this] at h; simp at h
    rw [Item.depth, if_neg this]; rfl
  | inline => rw [Item.depth]; rfl
  | spread => rw [Item.depth]; simp [Item.children, Item.depths]

theorem depth_shift (cfg : DepthConfig) (p : Nat) : ∀ (k : Nat) (i : Item), i.size ≤ k →
    ignored cfg i = false → ∀ q, i.depth cfg (p + q) = p + i.depth cfg q := by
  intro k
  induction k with
  | zero => intro i hi; have := size_pos i; omega
  | succ k ih =>
    intro i hi hn q
    rw [depth_not_ignored cfg _ i hn, depth_not_ignored cfg _ i hn]
    have : ∀ cs : List Item, (∀ c ∈ cs, c.size ≤ k) →
        max (p + q) (Item.depths cfg (p + q) cs) = p + max q (Item.depths cfg q cs) := by
      intro cs
      induction cs with
      | nil => intro _; simp [Item.depths]
      | cons c cs ihc =>
        intro hc
        have h1 := ihc fun c h => hc c (List.mem_cons_of_mem _ h)
        rw [depths_cons, depths_cons]
        by_cases hi : ignored cfg c = true
        · rw [depth_ignored cfg _ c hi, depth_ignored cfg _ c hi]
          omega
        · have h2 := ih c (hc c (List.mem_cons_self ..)) (by simpa using hi) (q + increase cfg c)
          have h3 : p + q + increase cfg c = p + (q + increase cfg c) := by omega
          rw [h3, h2]
          omega
    refine this i.children fun c hc => ?_
    have := child_size hc
    omega

/-- What the marks say is right. -/
def GoodMarks (known : Fragments) (value : Item → Nat) (n : Nat) (m : Marks) : Prop :=
  ∀ f d, m f = some (.counted d) →
    ∃ body, known f = some body ∧ d ≤ n ∧ ∀ t, Expands known body t → d = value t

theorem depthLoop_spec (cfg : DepthConfig) (rec : Marks → Item → Nat → Option Outcome) (p : Nat)
    (known : Fragments) (Q : Marks → Prop) :
    ∀ (cs ts : List Item) (depth : Nat) (m : Marks) (out : Outcome), ExpandsAll known cs ts →
    depth ≤ cfg.n → Q m →
    (∀ c ∈ cs, ∀ t m q out, Expands known c t → Q m → rec m c q = some out →
      (∀ d, out.1 = .ok d → d = t.depth cfg q ∧ d ≤ cfg.n ∧ Q out.2) ∧
      (out.1 = .error () → cfg.n < t.depth cfg q)) →
    depthLoop cfg rec p cs depth m = some out →
      (∀ d, out.1 = .ok d → d = max depth (Item.depths cfg p ts) ∧ d ≤ cfg.n ∧ Q out.2) ∧
      (out.1 = .error () → cfg.n < Item.depths cfg p ts) := by
  intro cs
  induction cs with
  | nil =>
    intro ts depth m out he hd hq _ ho
    cases he
    simp only [depthLoop, Option.some.injEq] at ho
    subst ho
    refine ⟨?_, by simp⟩
    intro d hd'
    simp only [Except.ok.injEq] at hd'
    subst hd'
    exact ⟨by simp [Item.depths], hd, hq⟩
  | cons c cs ih =>
    intro ts depth m out he hd hq hrec ho
    cases he with
    | @cons _ t _ ts hct hcs =>
    have hinc : increase cfg t = increase cfg c := by cases hct <;> rfl
    simp only [depthLoop] at ho
    cases h1 : rec m c (p + increase cfg c) with
    | none => simp [h1] at ho
    | some o =>
      obtain ⟨r, m1⟩ := o
      obtain ⟨hok, herr⟩ := hrec c (List.mem_cons_self ..) t m _ _ hct hq h1
      rw [depths_cons, hinc]
      cases r with
      | error e =>
        simp only [h1, Option.some.injEq] at ho
        subst ho
        refine ⟨by simp, ?_⟩
        intro _
        have := herr rfl
        omega
      | ok d1 =>
        simp only [h1] at ho
        obtain ⟨h2, h3, h4⟩ := hok d1 rfl
        obtain ⟨g1, g2⟩ := ih ts (max depth d1) m1 out hcs (by omega) h4
          (fun c hc => hrec c (List.mem_cons_of_mem _ hc)) ho
        refine ⟨?_, ?_⟩
        · intro d hd'
          obtain ⟨h5, h6, h7⟩ := g1 d hd'
          exact ⟨by rw [h5, ← h2]; omega, h6, h7⟩
        · intro h; have := g2 h; omega

theorem countDepth_spec (cfg : DepthConfig) (known : Fragments) (rank : Name → Nat)
    (hr : ∀ f body, known f = some body → ∀ g ∈ body.spreads, rank g < rank f)
    (hinl : ∀ f body, known f = some body → ∃ d cs, body = .inline d cs) :
    ∀ fuel m node p r t out, Expands known node t → (∀ g ∈ node.spreads, rank g < r) →
    GoodMarks known (Item.depth cfg 0) cfg.n m →
    (∀ f, m f = some .visiting → known f = none ∨ r ≤ rank f) →
    countDepth cfg known fuel m node p = some out →
      (∀ d, out.1 = .ok d → d = t.depth cfg p ∧ d ≤ cfg.n ∧
        GoodMarks known (Item.depth cfg 0) cfg.n out.2 ∧
        (∀ f, out.2 f = some .visiting → known f = none ∨ m f = some .visiting)) ∧
      (out.1 = .error () → cfg.n < t.depth cfg p) := by
  intro fuel
  induction fuel with
  | zero => intro m node p r t out _ _ _ _ h; simp [countDepth] at h
  | succ fuel ih =>
    intro m node p r t out he hs hg hv ho
    have hign : ignored cfg t = ignored cfg node := by cases he <;> rfl
    simp only [countDepth] at ho
    by_cases hi : ignored cfg node = true
    · simp only [hi, if_true, Option.some.injEq] at ho
      subst ho
      refine ⟨?_, by simp⟩
      intro d hd
      simp only [Except.ok.injEq] at hd
      subst hd
      exact ⟨by rw [depth_ignored cfg p t (by rw [hign]; exact hi)], by omega, hg,
        fun f h => Or.inr h⟩
    simp only [hi, Bool.false_eq_true, if_false] at ho
    have hni : ignored cfg t = false := by rw [hign]; simpa using hi
    have hdt := depth_not_ignored cfg p t hni
    by_cases hp : p > cfg.n
    · simp only [hp, if_true, Option.some.injEq] at ho
      subst ho
      exact ⟨by simp, fun _ => by omega⟩
    simp only [hp, if_false] at ho
    -- the state invariant of the loop
    have key : ∀ (ts : List Item), ExpandsAll known node.children ts → ∀ o,
        depthLoop cfg (countDepth cfg known fuel) p node.children p m = some o →
        (∀ d, o.1 = .ok d → d = max p (Item.depths cfg p ts) ∧ d ≤ cfg.n ∧
          (GoodMarks known (Item.depth cfg 0) cfg.n o.2 ∧
          (∀ f, o.2 f = some .visiting → known f = none ∨ m f = some .visiting))) ∧
        (o.1 = .error () → cfg.n < Item.depths cfg p ts) := by
      intro ts hts o hol
      refine depthLoop_spec cfg (countDepth cfg known fuel) p known
        (fun m' => GoodMarks known (Item.depth cfg 0) cfg.n m' ∧
          (∀ f, m' f = some .visiting → known f = none ∨ m f = some .visiting))
        node.children ts p m o hts (by omega) ⟨hg, fun f h => Or.inr h⟩ ?_ hol
      intro c hc t' m' q o' hct hq ho'
      have := ih m' c q r t' o' hct (by
        intro g hgc
        apply hs
        cases node with
        | field n a d cs => exact spreads_sub hc g hgc
        | inline d cs => exact spreads_sub hc g hgc
        | spread f d => simp [Item.children] at hc) hq.1 (by
          intro f hf
          rcases hq.2 f hf with h | h
          · exact Or.inl h
          · exact hv f h) ho'
      refine ⟨?_, this.2⟩
      intro d hd
      obtain ⟨h1, h2, h3, h4⟩ := this.1 d hd
      refine ⟨h1, h2, h3, ?_⟩
      intro f hf
      rcases h4 f hf with h | h
      · exact Or.inl h
      · exact hq.2 f h
    cases hl : depthLoop cfg (countDepth cfg known fuel) p node.children p m with
    | none => simp [hl] at ho
    | some o =>
      obtain ⟨r1, m1⟩ := o
      rw [hl] at ho
      cases he with
      | field hts =>
        rename_i ts _ _ _
        obtain ⟨k1, k2⟩ := key ts hts _ hl
        cases r1 with
        | error e =>
          simp only [Option.some.injEq] at ho; subst ho
          refine ⟨by simp, fun _ => ?_⟩
          have := k2 rfl
          rw [hdt]; simp only [Item.children]; omega
        | ok depth =>
          simp only [Option.some.injEq] at ho; subst ho
          refine ⟨?_, by simp⟩
          intro d' hd'
          simp only [Except.ok.injEq] at hd'; subst hd'
          obtain ⟨h1, h2, h3⟩ := k1 _ rfl
          exact ⟨by rw [hdt, h1]; rfl, h2, h3⟩
      | inline hts =>
        rename_i ts _
        obtain ⟨k1, k2⟩ := key ts hts _ hl
        cases r1 with
        | error e =>
          simp only [Option.some.injEq] at ho; subst ho
          refine ⟨by simp, fun _ => ?_⟩
          have := k2 rfl
          rw [hdt]; simp only [Item.children]; omega
        | ok depth =>
          simp only [Option.some.injEq] at ho; subst ho
          refine ⟨?_, by simp⟩
          intro d' hd'
          simp only [Except.ok.injEq] at hd'; subst hd'
          obtain ⟨h1, h2, h3⟩ := k1 _ rfl
          exact ⟨by rw [hdt, h1]; rfl, h2, h3⟩
      | @known f body t d hk hbt =>
        simp only [Item.children, depthLoop, Option.some.injEq, Prod.mk.injEq] at hl
        obtain ⟨rfl, rfl⟩ := hl
        simp only [depthSpread] at ho
        obtain ⟨bd, bcs, rfl⟩ := hinl f body hk
        have hti : ignored cfg t = false := by cases hbt; rfl
        have htinc : increase cfg t = if cfg.flattenFragments then 0 else 1 := by cases hbt; rfl
        -- the depth of the wrapped content
        have hdep : Item.depth cfg p (.inline d [t]) =
            (if cfg.flattenFragments = true then p else p + 1) + Item.depth cfg 0 t := by
          rw [hdt]
          simp only [Item.children, depths_cons, htinc, Item.depths]
          rw [show (if cfg.flattenFragments = true then p else p + 1) =
            p + (if cfg.flattenFragments = true then 0 else 1) by split <;> rfl]
          generalize (if cfg.flattenFragments = true then 0 else 1) = w
          have := depth_shift cfg (p + w) t.size t (Nat.le_refl _) hti 0
          simp only [Nat.add_zero] at this
          rw [this]
          omega
        generalize (if cfg.flattenFragments = true then p else p + 1) = q at ho hdep
        have hrf : rank f < r := hs f (by simp [Item.spreads])
        cases hm : m f with
        | some k =>
          cases k with
          | counted k =>
            simp only [hm] at ho
            obtain ⟨body', hb1, hb2, hb3⟩ := hg f k hm
            rw [hk] at hb1
            simp only [Option.some.injEq] at hb1; subst hb1
            have hkt := hb3 t hbt
            by_cases hx : q + k > cfg.n
            · simp only [hx, if_true, Option.some.injEq] at ho; subst ho
              exact ⟨by simp, fun _ => by rw [hdep, ← hkt]; omega⟩
            · simp only [hx, if_false, Option.some.injEq] at ho; subst ho
              refine ⟨?_, by simp⟩
              intro d' hd'
              simp only [Except.ok.injEq] at hd'; subst hd'
              exact ⟨by rw [hdep, ← hkt], by omega, hg, fun f h => Or.inr h⟩
          | visiting =>
            rcases hv f hm with h | h
            · rw [hk] at h; simp at h
            · omega
        | none =>
          simp only [hm, hk] at ho
          cases hrec : countDepth cfg known fuel (m.set f .visiting) (.inline bd bcs) 0 with
          | none => simp [hrec] at ho
          | some o =>
            obtain ⟨r2, m2⟩ := o
            have IH := ih (m.set f .visiting) (.inline bd bcs) 0 (rank f) t _ hbt
              (fun g hgb => hr f _ hk g hgb) (by
                intro g k hgk
                unfold Marks.set at hgk
                split at hgk
                · simp at hgk
                · exact hg g k hgk) (by
                intro g hgv
                unfold Marks.set at hgv
                split at hgv
                · rename_i heq; subst heq; exact Or.inr (Nat.le_refl _)
                · rcases hv g hgv with h | h
                  · exact Or.inl h
                  · exact Or.inr (by omega)) hrec
            rw [hrec] at ho
            cases r2 with
            | error e =>
              simp only [Option.some.injEq] at ho; subst ho
              refine ⟨by simp, fun _ => ?_⟩
              have := IH.2 rfl
              rw [hdep]; omega
            | ok k =>
              obtain ⟨h1, h2, h3, h4⟩ := IH.1 k rfl
              have hgood : GoodMarks known (Item.depth cfg 0) cfg.n (m2.set f (.counted k)) := by
                intro g k' hgk
                unfold Marks.set at hgk
                split at hgk
                · rename_i heq; subst heq
                  simp only [Option.some.injEq, Mark.counted.injEq] at hgk; subst hgk
                  refine ⟨_, hk, h2, ?_⟩
                  intro t' ht'
                  have IH' := ih (m.set g .visiting) (.inline bd bcs) 0 (rank g) t' _ ht'
                    (fun g' hgb => hr g _ hk g' hgb) (by
                      intro g' k' hgk
                      unfold Marks.set at hgk
                      split at hgk
                      · simp at hgk
                      · exact hg g' k' hgk) (by
                      intro g' hgv
                      unfold Marks.set at hgv
                      split at hgv
                      · rename_i heq; subst heq; exact Or.inr (Nat.le_refl _)
                      · rcases hv g' hgv with h | h
                        · exact Or.inl h
                        · exact Or.inr (by omega)) hrec
                  exact (IH'.1 k rfl).1
                · exact h3 g k' hgk
              have hvis : ∀ g, (m2.set f (.counted k)) g = some .visiting →
                  known g = none ∨ m g = some .visiting := by
                intro g hgv
                unfold Marks.set at hgv
                split at hgv
                · simp at hgv
                · rename_i hne
                  rcases h4 g hgv with h | h
                  · exact Or.inl h
                  · right
                    unfold Marks.set at h
                    rw [if_neg hne] at h
                    exact h
              simp only at ho
              by_cases hx : q + k > cfg.n
              · simp only [hx, if_true, Option.some.injEq] at ho; subst ho
                exact ⟨by simp, fun _ => by rw [hdep, ← h1]; omega⟩
              · simp only [hx, if_false, Option.some.injEq] at ho; subst ho
                refine ⟨?_, by simp⟩
                intro d' hd'
                simp only [Except.ok.injEq] at hd'; subst hd'
                have hpq : p ≤ q + k := by
                  have h5 := hdep
                  rw [hdt, ← h1] at h5
                  omega
                refine ⟨by rw [hdep, ← h1]; omega, by omega, hgood, hvis⟩
      | @unknown f d hk =>
        simp only [Item.children, depthLoop, Option.some.injEq, Prod.mk.injEq] at hl
        obtain ⟨rfl, rfl⟩ := hl
        simp only [depthSpread, hk] at ho
        have hdep : Item.depth cfg p (.inline d []) = p := by
          rw [hdt]; simp [Item.children, Item.depths]
        cases hm : m f with
        | some k =>
          cases k with
          | counted k =>
            obtain ⟨body', hb1, _⟩ := hg f k hm
            rw [hk] at hb1; simp at hb1
          | visiting =>
            simp only [hm, Option.some.injEq] at ho; subst ho
            refine ⟨?_, by simp⟩
            intro d' hd'
            simp only [Except.ok.injEq] at hd'; subst hd'
            exact ⟨hdep.symm, by omega, hg, fun f h => Or.inr h⟩
        | none =>
          simp only [hm, Option.some.injEq] at ho; subst ho
          refine ⟨?_, by simp⟩
          intro d' hd'
          simp only [Except.ok.injEq] at hd'; subst hd'
          refine ⟨hdep.symm, by omega, ?_, ?_⟩
          · intro g k hgk
            simp only [Marks.set] at hgk
            split at hgk
            · simp at hgk
            · exact hg g k hgk
          · intro g hgv
            simp only [Marks.set] at hgv
            split at hgv
            · rename_i heq; subst heq; exact Or.inl hk
            · exact Or.inr hgv


/-! ## Sums -/

theorem sumLoop_spec (own : Item → Nat) (n : Nat) (rec : Marks → Item → Option Outcome)
    (known : Fragments) (Q : Marks → Prop) :
    ∀ (cs ts : List Item) (total : Nat) (m : Marks) (out : Outcome), ExpandsAll known cs ts →
    total ≤ n → Q m →
    (∀ c ∈ cs, ∀ t m out, Expands known c t → Q m → rec m c = some out →
      (∀ d, out.1 = .ok d → d = t.total own ∧ d ≤ n ∧ Q out.2) ∧
      (out.1 = .error () → n < t.total own)) →
    sumLoop n rec cs total m = some out →
      (∀ d, out.1 = .ok d → d = total + Item.totals own ts ∧ d ≤ n ∧ Q out.2) ∧
      (out.1 = .error () → n < total + Item.totals own ts) := by
  intro cs
  induction cs with
  | nil =>
    intro ts total m out he hd hq _ ho
    cases he
    simp only [sumLoop, Option.some.injEq] at ho
    subst ho
    refine ⟨?_, by simp⟩
    intro d hd'
    simp only [Except.ok.injEq] at hd'
    subst hd'
    exact ⟨by simp [Item.totals], hd, hq⟩
  | cons c cs ih =>
    intro ts total m out he hd hq hrec ho
    cases he with
    | @cons _ t _ ts hct hcs =>
    simp only [sumLoop] at ho
    cases h1 : rec m c with
    | none => simp [h1] at ho
    | some o =>
      obtain ⟨r, m1⟩ := o
      obtain ⟨hok, herr⟩ := hrec c (List.mem_cons_self ..) t m _ hct hq h1
      rw [Item.totals]
      cases r with
      | error e =>
        simp only [h1, Option.some.injEq] at ho
        subst ho
        refine ⟨by simp, ?_⟩
        intro _
        have := herr rfl
        omega
      | ok d1 =>
        simp only [h1] at ho
        obtain ⟨h2, h3, h4⟩ := hok d1 rfl
        by_cases hx : total + d1 > n
        · simp only [hx, if_true, Option.some.injEq] at ho; subst ho
          exact ⟨by simp, fun _ => by omega⟩
        simp only [hx, if_false] at ho
        obtain ⟨g1, g2⟩ := ih ts (total + d1) m1 out hcs (by omega) h4
          (fun c hc => hrec c (List.mem_cons_of_mem _ hc)) ho
        refine ⟨?_, ?_⟩
        · intro d hd'
          obtain ⟨h5, h6, h7⟩ := g1 d hd'
          exact ⟨by omega, h6, h7⟩
        · intro h; have := g2 h; omega

theorem countSum_spec (own : Item → Nat) (n : Nat) (known : Fragments) (rank : Name → Nat)
    (hr : ∀ f body, known f = some body → ∀ g ∈ body.spreads, rank g < rank f)
    (hf : ∀ nm a d cs ts, own (.field nm a d cs) = own (.field nm a d ts))
    (hi : ∀ d cs ts, own (.inline d cs) = own (.inline d ts))
    (hsp : ∀ f d ts, own (.spread f d) = own (.inline d ts)) :
    ∀ fuel m node r t out, Expands known node t → (∀ g ∈ node.spreads, rank g < r) →
    GoodMarks known (Item.total own) n m →
    (∀ f, m f = some .visiting → known f = none ∨ r ≤ rank f) →
    countSum own n known fuel m node = some out →
      (∀ d, out.1 = .ok d → d = t.total own ∧ d ≤ n ∧
        GoodMarks known (Item.total own) n out.2 ∧
        (∀ f, out.2 f = some .visiting → known f = none ∨ m f = some .visiting)) ∧
      (out.1 = .error () → n < t.total own) := by
  intro fuel
  induction fuel with
  | zero => intro m node r t out _ _ _ _ h; simp [countSum] at h
  | succ fuel ih =>
    intro m node r t out he hs hg hv ho
    simp only [countSum] at ho
    have hown : own node ≤ t.total own := by
      cases he with
      | field h => rename_i ts _ _ _; rw [Item.total, hf _ _ _ _ ts]; omega
      | inline h => rename_i ts _; rw [Item.total, hi _ _ ts]; omega
      | known hk h => rename_i t _; rw [Item.total, hsp _ _ [t]]; omega
      | unknown h => rw [Item.total, hsp _ _ []]; omega
    by_cases hp : own node > n
    · simp only [hp, if_true, Option.some.injEq] at ho
      subst ho
      exact ⟨by simp, fun _ => by omega⟩
    simp only [hp, if_false] at ho
    -- the state invariant of the loop
    have key : ∀ (ts : List Item), ExpandsAll known node.children ts → ∀ o,
        sumLoop n (countSum own n known fuel) node.children (own node) m = some o →
        (∀ d, o.1 = .ok d → d = own node + Item.totals own ts ∧ d ≤ n ∧
          (GoodMarks known (Item.total own) n o.2 ∧
          (∀ f, o.2 f = some .visiting → known f = none ∨ m f = some .visiting))) ∧
        (o.1 = .error () → n < own node + Item.totals own ts) := by
      intro ts hts o hol
      refine sumLoop_spec own n (countSum own n known fuel) known
        (fun m' => GoodMarks known (Item.total own) n m' ∧
          (∀ f, m' f = some .visiting → known f = none ∨ m f = some .visiting))
        node.children ts (own node) m o hts (by omega) ⟨hg, fun f h => Or.inr h⟩ ?_ hol
      intro c hc t' m' o' hct hq ho'
      have := ih m' c r t' o' hct (by
        intro g hgc
        apply hs
        cases node with
        | field n a d cs => exact spreads_sub hc g hgc
        | inline d cs => exact spreads_sub hc g hgc
        | spread f d => simp [Item.children] at hc) hq.1 (by
          intro f hf
          rcases hq.2 f hf with h | h
          · exact Or.inl h
          · exact hv f h) ho'
      refine ⟨?_, this.2⟩
      intro d hd
      obtain ⟨h1, h2, h3, h4⟩ := this.1 d hd
      refine ⟨h1, h2, h3, ?_⟩
      intro f hf
      rcases h4 f hf with h | h
      · exact Or.inl h
      · exact hq.2 f h
    cases hl : sumLoop n (countSum own n known fuel) node.children (own node) m with
    | none => simp [hl] at ho
    | some o =>
      obtain ⟨r1, m1⟩ := o
      rw [hl] at ho
      cases he with
      | field hts =>
        rename_i ts _ _ _
        obtain ⟨k1, k2⟩ := key ts hts _ hl
        rw [Item.total, ← hf _ _ _ _ ts]
        cases r1 with
        | error e =>
          simp only [Option.some.injEq] at ho; subst ho
          exact ⟨by simp, fun _ => k2 rfl⟩
        | ok depth =>
          simp only [Option.some.injEq] at ho; subst ho
          exact ⟨k1, by simp⟩
      | inline hts =>
        rename_i ts _
        obtain ⟨k1, k2⟩ := key ts hts _ hl
        rw [Item.total, ← hi _ _ ts]
        cases r1 with
        | error e =>
          simp only [Option.some.injEq] at ho; subst ho
          exact ⟨by simp, fun _ => k2 rfl⟩
        | ok depth =>
          simp only [Option.some.injEq] at ho; subst ho
          exact ⟨k1, by simp⟩
      | @known f body t d hk hbt =>
        simp only [Item.children, sumLoop, Option.some.injEq, Prod.mk.injEq] at hl
        obtain ⟨rfl, rfl⟩ := hl
        simp only [sumSpread] at ho
        have hdep : Item.total own (.inline d [t]) = own (.spread f d) + t.total own := by
          rw [Item.total, hsp _ _ [t]]; simp [Item.totals]
        generalize own (.spread f d) = q at ho hdep
        have hrf : rank f < r := hs f (by simp [Item.spreads])
        cases hm : m f with
        | some k =>
          cases k with
          | counted k =>
            simp only [hm] at ho
            obtain ⟨body', hb1, hb2, hb3⟩ := hg f k hm
            rw [hk] at hb1
            simp only [Option.some.injEq] at hb1; subst hb1
            have hkt := hb3 t hbt
            by_cases hx : q + k > n
            · simp only [hx, if_true, Option.some.injEq] at ho; subst ho
              exact ⟨by simp, fun _ => by rw [hdep, ← hkt]; omega⟩
            · simp only [hx, if_false, Option.some.injEq] at ho; subst ho
              refine ⟨?_, by simp⟩
              intro d' hd'
              simp only [Except.ok.injEq] at hd'; subst hd'
              exact ⟨by rw [hdep, ← hkt], by omega, hg, fun f h => Or.inr h⟩
          | visiting =>
            rcases hv f hm with h | h
            · rw [hk] at h; simp at h
            · omega
        | none =>
          simp only [hm, hk] at ho
          cases hrec : countSum own n known fuel (m.set f .visiting) body with
          | none => simp [hrec] at ho
          | some o =>
            obtain ⟨r2, m2⟩ := o
            have IH : ∀ t', Expands known body t' → _ := fun t' ht' =>
              ih (m.set f .visiting) body (rank f) t' _ ht'
              (fun g hgb => hr f _ hk g hgb) (by
                intro g k hgk
                unfold Marks.set at hgk
                split at hgk
                · simp at hgk
                · exact hg g k hgk) (by
                intro g hgv
                unfold Marks.set at hgv
                split at hgv
                · rename_i heq; subst heq; exact Or.inr (Nat.le_refl _)
                · rcases hv g hgv with h | h
                  · exact Or.inl h
                  · exact Or.inr (by omega)) hrec
            rw [hrec] at ho
            cases r2 with
            | error e =>
              simp only [Option.some.injEq] at ho; subst ho
              refine ⟨by simp, fun _ => ?_⟩
              have := (IH t hbt).2 rfl
              rw [hdep]; omega
            | ok k =>
              obtain ⟨h1, h2, h3, h4⟩ := (IH t hbt).1 k rfl
              have hgood : GoodMarks known (Item.total own) n (m2.set f (.counted k)) := by
                intro g k' hgk
                unfold Marks.set at hgk
                split at hgk
                · rename_i heq; subst heq
                  simp only [Option.some.injEq, Mark.counted.injEq] at hgk; subst hgk
                  exact ⟨_, hk, h2, fun t' ht' => ((IH t' ht').1 k rfl).1⟩
                · exact h3 g k' hgk
              have hvis : ∀ g, (m2.set f (.counted k)) g = some .visiting →
                  known g = none ∨ m g = some .visiting := by
                intro g hgv
                unfold Marks.set at hgv
                split at hgv
                · simp at hgv
                · rename_i hne
                  rcases h4 g hgv with h | h
                  · exact Or.inl h
                  · right
                    unfold Marks.set at h
                    rw [if_neg hne] at h
                    exact h
              simp only at ho
              by_cases hx : q + k > n
              · simp only [hx, if_true, Option.some.injEq] at ho; subst ho
                exact ⟨by simp, fun _ => by rw [hdep, ← h1]; omega⟩
              · simp only [hx, if_false, Option.some.injEq] at ho; subst ho
                refine ⟨?_, by simp⟩
                intro d' hd'
                simp only [Except.ok.injEq] at hd'; subst hd'
                refine ⟨by rw [hdep, ← h1], by omega, hgood, hvis⟩
      | @unknown f d hk =>
        simp only [Item.children, sumLoop, Option.some.injEq, Prod.mk.injEq] at hl
        obtain ⟨rfl, rfl⟩ := hl
        simp only [sumSpread, hk] at ho
        have hdep : Item.total own (.inline d []) = own (.spread f d) := by
          rw [Item.total, hsp _ _ []]; simp [Item.totals]
        cases hm : m f with
        | some k =>
          cases k with
          | counted k =>
            obtain ⟨body', hb1, _⟩ := hg f k hm
            rw [hk] at hb1; simp at hb1
          | visiting =>
            simp only [hm, Option.some.injEq] at ho; subst ho
            refine ⟨?_, by simp⟩
            intro d' hd'
            simp only [Except.ok.injEq] at hd'; subst hd'
            exact ⟨hdep.symm, by omega, hg, fun f h => Or.inr h⟩
        | none =>
          simp only [hm, Option.some.injEq] at ho; subst ho
          refine ⟨?_, by simp⟩
          intro d' hd'
          simp only [Except.ok.injEq] at hd'; subst hd'
          refine ⟨hdep.symm, by omega, ?_, ?_⟩
          · intro g k hgk
            simp only [Marks.set] at hgk
            split at hgk
            · simp at hgk
            · exact hg g k hgk
          · intro g hgv
            simp only [Marks.set] at hgv
            split at hgv
            · rename_i heq; subst heq; exact Or.inl hk
            · exact Or.inr hgv

/-! ## Documents -/

theorem runOps_total (count : Marks → Item → Option Outcome) : ∀ (ops : List Definition) (m : Marks),
    (∀ op ∈ ops, ∀ m, ∃ out, count m op.node = some out) → ∃ k, runOps count ops m = some k := by
  intro ops
  induction ops with
  | nil => intro m _; exact ⟨0, rfl⟩
  | cons op ops ih =>
    intro m h
    obtain ⟨⟨r, m1⟩, h1⟩ := h op (List.mem_cons_self ..) m
    obtain ⟨k, hk⟩ := ih m1 fun op hop => h op (List.mem_cons_of_mem _ hop)
    cases r with
    | ok d => exact ⟨k, by simp only [runOps, h1, hk]⟩
    | error e => exact ⟨k + 1, by simp only [runOps, h1, hk, Option.map_some]⟩

theorem runOps_zero (count : Marks → Item → Option Outcome) (Q : Marks → Prop)
    (good : Definition → Prop) : ∀ (ops : List Definition) (m : Marks), Q m →
    (∀ op ∈ ops, ∀ m, Q m → ∀ out, count m op.node = some out →
      (∀ d, out.1 = .ok d → good op ∧ Q out.2) ∧ (out.1 = .error () → ¬ good op)) →
    ∀ k, runOps count ops m = some k → (k = 0 ↔ ∀ op ∈ ops, good op) := by
  intro ops
  induction ops with
  | nil => intro m _ _ k h; simp only [runOps, Option.some.injEq] at h; subst h; simp
  | cons op ops ih =>
    intro m hq h k hk
    simp only [runOps] at hk
    cases h1 : count m op.node with
    | none => simp [h1] at hk
    | some o =>
      obtain ⟨r, m1⟩ := o
      obtain ⟨g1, g2⟩ := h op (List.mem_cons_self ..) m hq _ h1
      rw [h1] at hk
      cases r with
      | ok d =>
        obtain ⟨g3, g4⟩ := g1 d rfl
        simp only at hk
        rw [ih m1 g4 (fun op hop => h op (List.mem_cons_of_mem _ hop)) k hk]
        simp [g3]
      | error e =>
        have g3 := g2 rfl
        cases h2 : runOps count ops m1 with
        | none => simp [h2] at hk
        | some k' =>
          simp only [h2, Option.map_some, Option.some.injEq] at hk
          subst hk
          simp [g3]

theorem lookup_mem {α} (f : Name) (x : α) : ∀ l : List (Name × α), l.lookup f = some x →
    (f, x) ∈ l := by
  intro l
  induction l with
  | nil => simp
  | cons p l ih =>
    obtain ⟨g, y⟩ := p
    intro h
    rw [List.lookup_cons] at h
    split at h
    · rename_i heq
      have : f = g := by simpa using heq
      simp only [Option.some.injEq] at h
      subst this; subst h
      exact List.mem_cons_self ..
    · exact List.mem_cons_of_mem _ (ih h)

theorem le_sum {x : Nat} : ∀ {l : List Nat}, x ∈ l → x ≤ l.sum := by
  intro l
  induction l with
  | nil => simp
  | cons a l ih =>
    intro h
    rw [List.sum_cons]
    rcases List.mem_cons.1 h with rfl | h
    · omega
    · have := ih h; omega

theorem known_size (d : Doc) (f : Name) (body : Item) (h : d.known f = some body) :
    f ∈ d.fragments.map Prod.fst ∧ body.size ≤ (d.fragments.map fun f => f.2.node.size).sum := by
  unfold Doc.known at h
  cases hl : d.fragments.lookup f with
  | none => simp [hl] at h
  | some x =>
    simp only [hl, Option.map_some, Option.some.injEq] at h
    subst h
    have hm := lookup_mem f x d.fragments hl
    exact ⟨List.mem_map.2 ⟨_, hm, rfl⟩, le_sum (List.mem_map.2 ⟨_, hm, rfl⟩)⟩

theorem known_inline (d : Doc) (f : Name) (body : Item) (h : d.known f = some body) :
    ∃ k cs, body = .inline k cs := by
  unfold Doc.known at h
  cases hl : d.fragments.lookup f with
  | none => simp [hl] at h
  | some x =>
    simp only [hl, Option.map_some, Option.some.injEq] at h
    exact ⟨x.dirs, x.selections, h.symm⟩

theorem fuel_enough (d : Doc) (op : Definition) (h : op ∈ d.operations) (m : Marks) :
    unvisited (d.fragments.map Prod.fst) m * ((d.fragments.map fun f => f.2.node.size).sum + 1) +
      op.node.size ≤ d.fuel := by
  have h1 : unvisited (d.fragments.map Prod.fst) m ≤ d.fragments.length := by
    unfold unvisited
    exact Nat.le_trans (List.length_filter_le _ _) (by simp)
  have h2 : op.node.size ≤ (d.operations.map fun o => o.node.size).sum :=
    le_sum (List.mem_map.2 ⟨_, h, rfl⟩)
  unfold Doc.fuel
  generalize (d.fragments.map fun f => f.2.node.size).sum = F at *
  generalize (d.operations.map fun o => o.node.size).sum = O at *
  generalize unvisited (d.fragments.map Prod.fst) m = u at *
  have h3 : u * (F + 1) ≤ d.fragments.length * (F + O + 1) :=
    Nat.mul_le_mul h1 (by omega)
  rw [Nat.add_mul]
  omega

end Verif.Limits
