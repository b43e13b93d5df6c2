import Verif.Keys.Spec

namespace Verif.Keys

/-! ## Operations -/

/-- What can follow the selections of a place. -/
def Stop (p : Place) : List Word → Prop
  | [] => True
  | .num _ :: _ => True
  | .str s :: r => isDirective s = true ∨ (p.frags = false ∧ ∃ t r', r = .str t :: r')

theorem stop_start {p : Place} {r : List Word} (h : Stop .start r) : Stop p r := by
  match r, h with
  | [], _ => exact True.intro
  | .num _ :: _, _ => exact True.intro
  | .str s :: r, h =>
    rcases h with h | ⟨h, _⟩
    · exact Or.inl h
    · simp [Place.frags] at h

theorem stop_afterFrag {p : Place} (hp : p.frags = true) {r : List Word} (h : Stop p r) :
    Stop .start r := by
  match r, h with
  | [], _ => exact True.intro
  | .num _ :: _, _ => exact True.intro
  | .str s :: r, h =>
    rcases h with h | ⟨h, _⟩
    · exact Or.inl h
    · rw [hp] at h; simp at h

theorem optWords_prefix {a b : Option String} {r r' : List Word}
    (h : optWords a ++ r = optWords b ++ r') : a = b ∧ r = r' := by
  cases a <;> cases b <;> simp_all [optWords]

theorem argsHash_eq (fx : List Word → Nat) (m : List (String × Lit)) :
    argsHash fx m = xorAll fx (argWords m) := by
  simp [argsHash, xorAll, argWords, List.foldl_map]

theorem varsHash_eq (fx : List Word → Nat) (vs : List VarDef) :
    varsHash fx vs = xorAll fx (vs.map varWords) := by
  simp [varsHash, xorAll, List.foldl_map]

/-- The hash of arguments tells lists of arguments apart. -/
def Apart (fx : List Word → Nat) (a b : List Sel) : Prop :=
  (∀ m ∈ argLists a, ∀ n ∈ argLists b, argsHash fx m = argsHash fx n → m = n) ∧
  (∀ m ∈ argLists a ++ argLists b, 2 ≤ argsHash fx m)

theorem condWords_prefix {d : String} {a b : Option String} {r r' : List Word}
    (hr : ∀ t, r.head? ≠ some (.str t) ∨ t ≠ d) (hr' : ∀ t, r'.head? ≠ some (.str t) ∨ t ≠ d)
    (h : condWords d a ++ r = condWords d b ++ r') : a = b ∧ r = r' := by
  cases a <;> cases b
  · exact ⟨rfl, by simpa [condWords] using h⟩
  · simp [condWords] at h
    have := hr d
    simp [h] at this
  · simp [condWords] at h
    have := hr' d
    simp [← h] at this
  · simpa [condWords] using h

theorem fieldEnd_prefix {fx : List Word → Nat} {f g : FieldInfo} {r r' : List Word}
    (he : ∀ m n, f.args = some m → g.args = some n → argsHash fx m = argsHash fx n → m = n)
    (hf : ∀ m, f.args = some m → 2 ≤ argsHash fx m) (hg : ∀ m, g.args = some m → 2 ≤ argsHash fx m)
    (h : fieldEnd fx f ++ r = fieldEnd fx g ++ r') :
    f.args = g.args ∧ f.includeIf = g.includeIf ∧ f.skipIf = g.skipIf ∧ f.omitted = g.omitted ∧
      r = r' := by
  have rest : ∀ {r r' : List Word}, condWords "@include" f.includeIf ++
      (condWords "@skip" f.skipIf ++ ([.num f.omitted.toNat] ++ r)) =
      condWords "@include" g.includeIf ++ (condWords "@skip" g.skipIf ++ ([.num g.omitted.toNat] ++ r')) →
      f.includeIf = g.includeIf ∧ f.skipIf = g.skipIf ∧ f.omitted = g.omitted ∧ r = r' := by
    intro r r' h
    have hd : ∀ (x : Option String) (k : Nat) (s : List Word), ∀ t,
        (condWords "@skip" x ++ ([Word.num k] ++ s)).head? ≠ some (.str t) ∨ t ≠ "@include" := by
      intro x k s t
      cases x with
      | none => simp [condWords]
      | some x => 
        by_cases h : t = "@include"
        · left; subst h; simp [condWords]
        · exact .inr h
    obtain ⟨h1, h⟩ := condWords_prefix (hd _ _ _) (hd _ _ _) h
    obtain ⟨h2, h⟩ := condWords_prefix (by simp) (by simp) h
    simp at h
    refine ⟨h1, h2, ?_, h.2⟩
    have := h.1
    revert this
    cases f.omitted <;> cases g.omitted <;> simp
  have small : ∀ {g : FieldInfo} {r r' : List Word} {n : Nat}, 2 ≤ n → Word.num n :: r =
      condWords "@include" g.includeIf ++ (condWords "@skip" g.skipIf ++ ([.num g.omitted.toNat] ++ r')) →
      False := by
    intro g r r' n hn h
    cases h1 : g.includeIf <;> cases h2 : g.skipIf <;> simp [h1, h2, condWords] at h
    have : g.omitted.toNat ≤ 1 := by cases g.omitted <;> simp
    omega
  unfold fieldEnd at h
  simp only [List.append_assoc] at h
  cases h1 : f.args with
  | none =>
    cases h2 : g.args with
    | none =>
      rw [h1, h2] at h
      obtain ⟨h3, h4, h5, h6⟩ := rest (by simpa [argsWords] using h)
      exact ⟨rfl, h3, h4, h5, h6⟩
    | some n =>
      rw [h1, h2] at h
      exact (small (hg n h2) (by simpa [argsWords] using h.symm)).elim
  | some m =>
    cases h2 : g.args with
    | none =>
      rw [h1, h2] at h
      exact (small (hf m h1) (by simpa [argsWords] using h)).elim
    | some n =>
      rw [h1, h2] at h
      simp only [argsWords, List.cons_append, List.nil_append, List.cons.injEq, Word.num.injEq] at h
      obtain ⟨h3, h4, h5, h6⟩ := rest (by simpa using h.2)
      exact ⟨by rw [he m n h1 h2 h.1], h3, h4, h5, h6⟩

theorem fieldEnd_stop (fx : List Word → Nat) (f : FieldInfo) (r : List Word) :
    Stop .start (fieldEnd fx f ++ r) := by
  unfold fieldEnd
  cases f.args <;> cases f.includeIf <;> cases f.skipIf <;>
    simp [argsWords, condWords, Stop, isDirective]

theorem field_second {fx : List Word → Nat} {f : FieldInfo} {x : List Word} :
    ∃ n y, optWords f.alias ++ x = .num n :: y := by
  cases f.alias <;> simp [optWords]

theorem tidy_frag_second {fx : List Word → Nat} {s : List Sel} (h : Tidy .inFrag s) (hs : s ≠ [])
    (x : List Word) : ∃ n y, selWords fx s ++ x = .str n :: y := by
  cases s with
  | nil => exact absurd rfl hs
  | cons a rest =>
    cases a with
    | field f s => exact ⟨_, _, by rw [selWords]; rfl⟩
    | frag g s => simp [Tidy, Place.frags] at h
    | spread n => simp [Tidy] at h

theorem sel_prefix {fx : List Word → Nat} (a : List Sel) : ∀ (p : Place) (b : List Sel) (r r' : List Word),
    Tidy p a → Tidy p b → Apart fx a b → Stop p r → Stop p r' →
    selWords fx a ++ r = selWords fx b ++ r' → a = b ∧ r = r' := by
  induction a using Sels.ind with
  | nil =>
    intro p b r r' _ hb _ hr _ h
    cases b with
    | nil => exact ⟨rfl, by simpa [selWords] using h⟩
    | cons y b =>
      exfalso
      rw [selWords, List.nil_append] at h
      cases y with
      | field f s =>
        rw [Tidy] at hb
        rw [h, selWords, List.cons_append] at hr
        rcases hr with hr | ⟨_, t, r'', hr⟩
        · rw [hb.2.1] at hr; simp at hr
        · obtain ⟨n, y, hy⟩ := field_second (fx := fx) (f := f)
            (x := selWords fx s ++ (fieldEnd fx f ++ selWords fx b) ++ r')
          rw [List.append_assoc, List.append_assoc, List.append_assoc] at hr
          simp only [List.append_assoc] at hy
          rw [hy] at hr
          simp at hr
      | frag g s =>
        rw [Tidy] at hb
        rw [h, selWords, List.cons_append] at hr
        rcases hr with hr | ⟨hp, _⟩
        · rw [hb.2.1] at hr; simp at hr
        · rw [hb.1] at hp; simp at hp
      | spread n => simp [Tidy] at hb
  | field f s rest ihs ihr =>
    intro p b r r' ha hb hd hr hr' h
    rw [Tidy] at ha
    rw [selWords] at h
    simp only [List.cons_append, List.append_assoc] at h
    cases b with
    | nil =>
      exfalso
      rw [selWords, List.nil_append] at h
      rw [← h] at hr'
      rcases hr' with hr' | ⟨_, t, r'', hr'⟩
      · rw [ha.2.1] at hr'; simp at hr'
      · obtain ⟨n, y, hy⟩ := field_second (fx := fx) (f := f)
          (x := selWords fx s ++ (fieldEnd fx f ++ (selWords fx rest ++ r)))
        rw [hy] at hr'; simp at hr'
    | cons y b =>
      cases y with
      | field g t =>
        rw [Tidy] at hb
        rw [selWords] at h
        simp only [List.cons_append, List.append_assoc, List.cons.injEq, Word.str.injEq] at h
        obtain ⟨h1, h⟩ := h
        obtain ⟨h2, h⟩ := optWords_prefix h
        obtain ⟨d1, d2⟩ := hd
        simp only [argLists, List.mem_append] at d1 d2
        obtain ⟨h3, h⟩ := ihs .start t _ _ ha.2.2.1 hb.2.2.1
          ⟨fun m hm n hn => d1 m (.inr (.inl hm)) n (.inr (.inl hn)), fun m hm => d2 m (by
            rcases List.mem_append.1 hm with hm | hm
            · exact .inl (.inr (.inl hm))
            · exact .inr (.inr (.inl hm)))⟩
          (fieldEnd_stop fx f _) (fieldEnd_stop fx g _) h
        obtain ⟨h4, h5, h6, h7, h⟩ := fieldEnd_prefix
          (fun m n hm hn => d1 m (.inl (by simp [hm])) n (.inl (by simp [hn])))
          (fun m hm => d2 m (.inl (.inl (by simp [hm])))) (fun m hm => d2 m (.inr (.inl (by simp [hm])))) h
        obtain ⟨h8, h⟩ := ihr p b _ _ ha.2.2.2 hb.2.2.2
          ⟨fun m hm n hn => d1 m (.inr (.inr hm)) n (.inr (.inr hn)), fun m hm => d2 m (by
            rcases List.mem_append.1 hm with hm | hm
            · exact .inl (.inr (.inr hm))
            · exact .inr (.inr (.inr hm)))⟩ hr hr' h
        refine ⟨?_, h⟩
        obtain ⟨n1, a1, g1, s1, i1, o1⟩ := f
        obtain ⟨n2, a2, g2, s2, i2, o2⟩ := g
        simp only at h1 h2 h4 h5 h6 h7
        rw [h1, h2, h3, h4, h5, h6, h7, h8]
      | frag g t =>
        exfalso
        rw [Tidy] at hb
        rw [selWords] at h
        simp only [List.cons_append, List.append_assoc, List.cons.injEq] at h
        obtain ⟨n, y, hy⟩ := field_second (fx := fx) (f := f)
          (x := selWords fx s ++ (fieldEnd fx f ++ (selWords fx rest ++ r)))
        obtain ⟨m, z, hz⟩ := tidy_frag_second (fx := fx) hb.2.2.2.2.2.1 hb.2.2.1
          (condWords "@include" g.includeIf ++ (condWords "@skip" g.skipIf ++ (selWords fx b ++ r')))
        rw [hy, hz] at h
        simp at h
      | spread n => simp [Tidy] at hb
  | frag g s rest ihs ihr =>
    intro p b r r' ha hb hd hr hr' h
    rw [Tidy] at ha
    rw [selWords] at h
    simp only [List.cons_append, List.append_assoc] at h
    cases b with
    | nil =>
      exfalso
      rw [selWords, List.nil_append] at h
      rw [← h] at hr'
      rcases hr' with hr' | ⟨hp, _⟩
      · rw [ha.2.1] at hr'; simp at hr'
      · rw [ha.1] at hp; simp at hp
    | cons y b =>
      cases y with
      | field f t =>
        exfalso
        rw [Tidy] at hb
        rw [selWords] at h
        simp only [List.cons_append, List.append_assoc, List.cons.injEq] at h
        obtain ⟨n, y, hy⟩ := field_second (fx := fx) (f := f)
          (x := selWords fx t ++ (fieldEnd fx f ++ (selWords fx b ++ r')))
        obtain ⟨m, z, hz⟩ := tidy_frag_second (fx := fx) ha.2.2.2.2.2.1 ha.2.2.1
          (condWords "@include" g.includeIf ++ (condWords "@skip" g.skipIf ++ (selWords fx rest ++ r)))
        rw [hy, hz] at h
        simp at h
      | frag k t =>
        rw [Tidy] at hb
        rw [selWords] at h
        simp only [List.cons_append, List.append_assoc, List.cons.injEq, Word.str.injEq] at h
        obtain ⟨h1, h⟩ := h
        obtain ⟨a1, a2, a3, a4, a5, a6, a7⟩ := ha
        obtain ⟨b1, b2, b3, b4, b5, b6, b7⟩ := hb
        rw [a4, a5, b4, b5] at h
        simp only [condWords, List.nil_append] at h
        obtain ⟨d1, d2⟩ := hd
        simp only [argLists, List.mem_append] at d1 d2
        have after : ∀ {u : List Sel} {x : List Word}, Tidy .afterFrag u → Stop p x →
            Stop .inFrag (selWords fx u ++ x) := by
          intro u x hu hx
          cases u with
          | nil => rw [selWords]; exact stop_start (stop_afterFrag a1 hx)
          | cons y u =>
            cases y with
            | field => simp [Tidy, Place.fields] at hu
            | spread => simp [Tidy] at hu
            | frag k t =>
              rw [Tidy] at hu
              rw [selWords, List.cons_append]
              obtain ⟨m, z, hz⟩ := tidy_frag_second (fx := fx) hu.2.2.2.2.2.1 hu.2.2.1
                (condWords "@include" k.includeIf ++ (condWords "@skip" k.skipIf ++ (selWords fx u ++ x)))
              refine Or.inr ⟨rfl, m, z, ?_⟩
              simp only [List.append_assoc]
              exact hz
        obtain ⟨h3, h⟩ := ihs .inFrag t _ _ a6 b6
          ⟨fun m hm n hn => d1 m (.inl hm) n (.inl hn), fun m hm => d2 m (by
            rcases List.mem_append.1 hm with hm | hm
            · exact .inl (.inl hm)
            · exact .inr (.inl hm))⟩ (after a7 hr) (after b7 hr') h
        obtain ⟨h8, h⟩ := ihr .afterFrag b _ _ a7 b7
          ⟨fun m hm n hn => d1 m (.inr hm) n (.inr hn), fun m hm => d2 m (by
            rcases List.mem_append.1 hm with hm | hm
            · exact .inl (.inr hm)
            · exact .inr (.inr hm))⟩ (stop_start (stop_afterFrag a1 hr)) (stop_start (stop_afterFrag a1 hr')) h
        refine ⟨?_, h⟩
        obtain ⟨n1, s1, i1⟩ := g
        obtain ⟨n2, s2, i2⟩ := k
        simp only at h1 a4 a5 b4 b5
        rw [h1, h3, h8, a4, a5, b4, b5]
      | spread n => simp [Tidy] at hb
  | spread n rest _ => intro p b r r' ha; simp [Tidy] at ha

theorem args_inj {m n : List (String × Lit)} (h : argWords m = argWords n)
    (hi : ∀ v ∈ m.map (·.2), ∀ w ∈ n.map (·.2), litWords v = litWords w → v = w) : m = n := by
  induction m generalizing n with
  | nil => cases n with
    | nil => rfl
    | cons => simp [argWords] at h
  | cons x m ih =>
    cases n with
    | nil => simp [argWords] at h
    | cons y n =>
      obtain ⟨k, v⟩ := x
      obtain ⟨l, w⟩ := y
      simp only [argWords, List.map_cons, List.cons.injEq, Word.str.injEq] at h
      obtain ⟨⟨h1, h2⟩, h3⟩ := h
      rw [h1, hi v (by simp) w (by simp) h2,
        ih h3 (fun v hv w hw => hi v (by simp only [List.map_cons, List.mem_cons]; exact .inr hv) w
          (by simp only [List.map_cons, List.mem_cons]; exact .inr hw))]

theorem type_prefix : ∀ (a b : TypeNode) (r r' : List Word), (∀ t x, r ≠ .str t :: x) →
    (∀ t x, r' ≠ .str t :: x) → typeWords a ++ r = typeWords b ++ r' → a = b ∧ r = r' := by
  have ne : ∀ t, typeWords t ≠ [] := fun t => by cases t <;> simp [typeWords]
  have hd : ∀ t x, ∃ s y, typeWords t ++ x = .str s :: y := fun t x => by
    cases t <;> simp [typeWords]
  intro a
  induction a with
  | named n =>
    intro b r r' hr hr' h
    cases b with
    | named m => simp [typeWords] at h; exact ⟨by rw [h.1], h.2⟩
    | list t =>
      obtain ⟨s, y, hy⟩ := hd t r'
      simp [typeWords, hy] at h; exact absurd h.2 (hr s y)
    | nonNull t =>
      obtain ⟨s, y, hy⟩ := hd t r'
      simp [typeWords, hy] at h; exact absurd h.2 (hr s y)
  | list a ih =>
    intro b r r' hr hr' h
    cases b with
    | named m =>
      obtain ⟨s, y, hy⟩ := hd a r
      simp [typeWords, hy] at h; exact absurd h.2.symm (hr' s y)
    | list t =>
      simp [typeWords] at h
      obtain ⟨h1, h2⟩ := ih t r r' hr hr' h
      exact ⟨by rw [h1], h2⟩
    | nonNull t => simp [typeWords] at h
  | nonNull a ih =>
    intro b r r' hr hr' h
    cases b with
    | named m =>
      obtain ⟨s, y, hy⟩ := hd a r
      simp [typeWords, hy] at h; exact absurd h.2.symm (hr' s y)
    | list t => simp [typeWords] at h
    | nonNull t =>
      simp [typeWords] at h
      obtain ⟨h1, h2⟩ := ih t r r' hr hr' h
      exact ⟨by rw [h1], h2⟩

theorem var_inj {v w : VarDef} (h : varWords v = varWords w)
    (hi : ∀ x y, v.default = some x → w.default = some y → litWords x = litWords y → x = y) : v = w := by
  obtain ⟨n, t, d⟩ := v
  obtain ⟨n', t', d'⟩ := w
  unfold varWords at h
  simp only [List.cons.injEq, Word.str.injEq] at h
  have hd : ∀ d : Option Lit, ∀ t x, defaultWords d ≠ .str t :: x := by
    intro d t x; cases d <;> simp [defaultWords]
  obtain ⟨h1, h2⟩ := type_prefix t t' _ _ (hd d) (hd d') h.2
  rw [h.1, h1]
  cases d <;> cases d' <;> simp [defaultWords] at h2
  · rfl
  · rw [hi _ _ rfl rfl h2]

theorem op_same {fx : List Word → Nat} {a b : Op} (ta : Tidy .start a.sels) (tb : Tidy .start b.sels)
    (hc : NoClash fx a b) (hu : Unconfused a b) (h : opWords fx a = opWords fx b) : SameOp a b := by
  unfold opWords at h
  simp only [List.cons.injEq, Word.str.injEq, true_and] at h
  have hk : a.kind.getD .query = b.kind.getD .query := by
    have := h.1
    revert this
    generalize a.kind.getD .query = x
    generalize b.kind.getD .query = y
    cases x <;> cases y <;> simp [kindText]
  have mem : ∀ {o : Op} {m}, m ∈ argLists o.sels → ∀ v ∈ m.map (·.2), v ∈ literals o := by
    intro o m hm v hv
    exact List.mem_append.2 (.inl (List.mem_flatMap.2 ⟨m, hm, hv⟩))
  obtain ⟨h1, h2⟩ := sel_prefix a.sels .start b.sels (varsWords fx a.vars) (varsWords fx b.vars) ta tb
    ⟨fun m hm n hn he => args_inj (hc.args m hm n hn (by rw [← argsHash_eq, ← argsHash_eq]; exact he))
      (fun v hv w hw => hu v (mem hm v hv) w (mem hn w hw)), fun m hm => by rw [argsHash_eq]; exact hc.flag m hm⟩
    (by cases a.vars <;> simp [varsWords, Stop]) (by cases b.vars <;> simp [varsWords, Stop]) h.2
  refine ⟨hk, h1, ?_, ?_⟩
  · cases ha : a.vars <;> cases hb : b.vars <;> simp [ha, hb, varsWords] at h2 ⊢
  · cases ha : a.vars with
    | none => cases hb : b.vars with
      | none => simp
      | some => simp [ha, hb, varsWords] at h2
    | some vs => cases hb : b.vars with
      | none => simp [ha, hb, varsWords] at h2
      | some ws =>
        simp only [ha, hb, varsWords, List.cons.injEq, Word.num.injEq, true_and, and_true] at h2
        have hm := hc.vars vs ws ha hb (by rw [← varsHash_eq, ← varsHash_eq]; exact h2)
        have dm : ∀ {o : Op} {us : List VarDef}, o.vars = some us → ∀ u ∈ us, ∀ x, u.default = some x →
            x ∈ literals o := by
          intro o us ho u hu x hx
          refine List.mem_append.2 (.inr (List.mem_filterMap.2 ⟨u, by simpa [ho] using hu, hx⟩))
        intro v
        simp only [Option.getD_some]
        constructor
        · intro hv
          obtain ⟨w, hw, he⟩ := List.mem_map.1 ((hm _).1 (List.mem_map.2 ⟨v, hv, rfl⟩))
          have := var_inj he.symm (fun x y hx hy => hu x (dm ha v hv x hx) y (dm hb w hw y hy))
          rw [this]; exact hw
        · intro hv
          obtain ⟨w, hw, he⟩ := List.mem_map.1 ((hm _).2 (List.mem_map.2 ⟨v, hv, rfl⟩))
          have := var_inj he (fun x y hx hy => hu x (dm ha w hw x hx) y (dm hb v hv y hy))
          rw [← this]; exact hw

end Verif.Keys
