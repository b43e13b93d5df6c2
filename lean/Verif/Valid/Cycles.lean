import Verif.Valid.Names

/-!
# Lemmas about the rule on cycles of fragments
-/

namespace Verif.Valid

/-- The fragments of the document that the search goes to from a name. -/
def nextFrag (d : Doc) (a : Name) : List Name :=
  match knownFrag d a with
  | none => []
  | some f => (nearSpreads f.sels).filter (fun m => (knownFrag d m).isSome)

/-- A way that comes back. -/
def Loop (d : Doc) (a : Name) : Prop := ∃ b ∈ nextFrag d a, Way (nextFrag d) b a

theorem mem_topSpreads (ss : List Sel) (n : Name) : n ∈ topSpreads ss ↔ ∃ ds, Sel.spread n ds ∈ ss := by
  unfold topSpreads
  rw [List.mem_flatMap]
  constructor
  · rintro ⟨x, hx, h⟩
    cases x with
    | field al m args ds sub => simp at h
    | spread m ds => simp at h; subst h; exact ⟨ds, hx⟩
    | inline c ds sub => simp at h
  · rintro ⟨ds, h⟩
    exact ⟨_, h, by simp⟩

theorem mem_nearSpreads (ss : List Sel) (n : Name) : n ∈ nearSpreads ss ↔ NearSpread ss n := by
  unfold nearSpreads NearSpread
  rw [List.mem_flatMap]
  constructor
  · rintro ⟨x, hx, h⟩
    cases x with
    | field al m args ds sub =>
      obtain ⟨ds', h'⟩ := (mem_topSpreads sub n).1 h
      exact Or.inr (Or.inl ⟨al, m, args, ds, sub, ds', hx, h'⟩)
    | spread m ds => simp at h; subst h; exact Or.inl ⟨ds, hx⟩
    | inline c ds sub =>
      obtain ⟨ds', h'⟩ := (mem_topSpreads sub n).1 h
      exact Or.inr (Or.inr ⟨c, ds, sub, ds', hx, h'⟩)
  · rintro (⟨ds, h⟩ | ⟨al, m, args, ds, sub, ds', h, h'⟩ | ⟨c, ds, sub, ds', h, h'⟩)
    · exact ⟨_, h, by simp⟩
    · exact ⟨_, h, (mem_topSpreads sub n).2 ⟨ds', h'⟩⟩
    · exact ⟨_, h, (mem_topSpreads sub n).2 ⟨ds', h'⟩⟩

theorem knownFrag_of_mem {d : Doc} (hd : ((frags d).map (·.name)).Nodup) {f : Frag}
    (hf : f ∈ frags d) : knownFrag d f.name = some f := by
  cases hk : knownFrag d f.name with
  | none =>
    have := (knownFrag_none d f.name).1 (by simp [hk])
    exact absurd ⟨f, hf, rfl⟩ this
  | some g =>
    obtain ⟨hg, hn⟩ := knownFrag_some hk
    exact congrArg some (List.inj_on_of_nodup_map hd hg hf hn)

/-- What has been seen and is not on the path leads only to such, and never back. -/
def Settled (d : Doc) (path seen : List Name) : Prop :=
  ∀ b ∈ seen, b ∉ path → (∀ c ∈ nextFrag d b, c ∈ seen ∧ c ∉ path) ∧ ¬ Loop d b

/-- One turn of the loop over the spreads of a fragment. -/
def detectOne (d : Doc) (n : Nat) (path : List Name) (st : Cyc) (m : Name) : Cyc :=
  if m ∈ path then { st with bad := true }
  else match knownFrag d m with
    | none => st
    | some g => detect d n path st g

theorem detect_succ (d : Doc) (n : Nat) (path : List Name) (st : Cyc) (f : Frag) :
    detect d (n + 1) path st f =
      if f.name ∈ st.seen then st
      else (nearSpreads f.sels).foldl (detectOne d n (f.name :: path))
        { st with seen := st.seen ++ [f.name] } := by
  rfl

theorem fold_bad {d : Doc} {n : Nat} (ih : ∀ path st f, st.bad = true → (detect d n path st f).bad = true)
    (path : List Name) (l : List Name) (st : Cyc) (h : st.bad = true) :
    (l.foldl (detectOne d n path) st).bad = true := by
  induction l generalizing st with
  | nil => exact h
  | cons m ms ihl =>
    rw [List.foldl_cons]
    refine ihl _ ?_
    unfold detectOne
    split
    · rfl
    · split
      · exact h
      · exact ih _ _ _ h

theorem detect_bad (d : Doc) : ∀ n path st f, st.bad = true → (detect d n path st f).bad = true := by
  intro n
  induction n with
  | zero => intro path st f h; exact h
  | succ n ih =>
    intro path st f h
    rw [detect_succ]
    split
    · exact h
    · exact fold_bad ih _ _ _ h

theorem detect_settled (d : Doc) (hd : ((frags d).map (·.name)).Nodup) :
    ∀ (n : Nat) (path : List Name) (st : Cyc) (f : Frag), f ∈ frags d →
      free ((frags d).map (·.name)) st.seen ≤ n → f.name ∉ path → (∀ p ∈ path, p ∈ st.seen) →
      Settled d path st.seen → (detect d n path st f).bad = false →
      Settled d path (detect d n path st f).seen ∧ f.name ∈ (detect d n path st f).seen ∧
        ∀ x ∈ st.seen, x ∈ (detect d n path st f).seen := by
  intro n
  induction n with
  | zero =>
    intro path st f hf hfr _ _ hs _
    simp only [detect]
    exact ⟨hs, free_zero ((frags d).map (·.name)) (List.mem_map.2 ⟨f, hf, rfl⟩) (by omega), fun _ h => h⟩
  | succ n ih =>
    intro path st f hf hfr hp hps hs hb
    rw [detect_succ] at hb ⊢
    split at hb
    · rename_i h; rw [if_pos h]; exact ⟨hs, h, fun _ h => h⟩
    · rename_i h
      rw [if_neg h]
      have hfr' : free ((frags d).map (·.name)) (st.seen ++ [f.name]) ≤ n := by
        have := free_lt ((frags d).map (·.name)) (List.mem_map.2 ⟨f, hf, rfl⟩) h
        omega
      have key : ∀ (l : List Name) (st1 : Cyc), (∀ x ∈ st.seen ++ [f.name], x ∈ st1.seen) →
          Settled d (f.name :: path) st1.seen →
          (l.foldl (detectOne d n (f.name :: path)) st1).bad = false →
          Settled d (f.name :: path) (l.foldl (detectOne d n (f.name :: path)) st1).seen ∧
          (∀ x ∈ st1.seen, x ∈ (l.foldl (detectOne d n (f.name :: path)) st1).seen) ∧
          (∀ m ∈ l, (knownFrag d m).isSome →
            m ∈ (l.foldl (detectOne d n (f.name :: path)) st1).seen ∧ m ∉ f.name :: path) := by
        intro l
        induction l with
        | nil =>
          intro st1 _ hs1 _
          exact ⟨hs1, fun _ h => h, fun m hm => by cases hm⟩
        | cons m ms ihl =>
          intro st1 hk1 hs1 hb1
          rw [List.foldl_cons] at hb1 ⊢
          have hb2 : (detectOne d n (f.name :: path) st1 m).bad = false := by
            cases hbb : (detectOne d n (f.name :: path) st1 m).bad with
            | false => rfl
            | true =>
              have := fold_bad (detect_bad d n) (f.name :: path) ms _ hbb
              rw [this] at hb1; exact absurd hb1 (by simp)
          -- one turn
          have one : Settled d (f.name :: path) (detectOne d n (f.name :: path) st1 m).seen ∧
              (∀ x ∈ st1.seen, x ∈ (detectOne d n (f.name :: path) st1 m).seen) ∧
              ((knownFrag d m).isSome →
                m ∈ (detectOne d n (f.name :: path) st1 m).seen ∧ m ∉ f.name :: path) := by
            unfold detectOne at hb2 ⊢
            by_cases hm : m ∈ f.name :: path
            · rw [if_pos hm] at hb2; simp at hb2
            · rw [if_neg hm] at hb2 ⊢
              cases hk : knownFrag d m with
              | none => simp only; exact ⟨hs1, fun _ h => h, fun h => by simp at h⟩
              | some g =>
                rw [hk] at hb2
                simp only at hb2 ⊢
                obtain ⟨hg, hgn⟩ := knownFrag_some hk
                subst hgn
                have hfr1 : free ((frags d).map (·.name)) st1.seen ≤ n := by
                  have := free_mono ((frags d).map (·.name)) hk1
                  omega
                obtain ⟨i1, i2, i3⟩ := ih (f.name :: path) st1 g hg hfr1 hm (by
                  intro p hpp
                  rcases List.mem_cons.1 hpp with h | h
                  · subst h; exact hk1 _ (by simp)
                  · exact hk1 p (by simp [hps p h])) hs1 hb2
                exact ⟨i1, i3, fun _ => ⟨i2, hm⟩⟩
          obtain ⟨o1, o2, o3⟩ := one
          obtain ⟨r1, r2, r3⟩ := ihl _ (fun x hx => o2 x (hk1 x hx)) o1 hb1
          refine ⟨r1, fun x hx => r2 x (o2 x hx), ?_⟩
          intro x hx hxk
          rcases List.mem_cons.1 hx with h | h
          · subst h
            obtain ⟨q1, q2⟩ := o3 hxk
            exact ⟨r2 _ q1, q2⟩
          · exact r3 x h hxk
      have start : Settled d (f.name :: path) (st.seen ++ [f.name]) := by
        intro b hb' hbp
        have hbs : b ∈ st.seen := by
          rcases List.mem_append.1 hb' with h' | h'
          · exact h'
          · simp at h'; subst h'; simp at hbp
        have hbp' : b ∉ path := fun h' => hbp (by simp [h'])
        obtain ⟨h1, h2⟩ := hs b hbs hbp'
        refine ⟨fun c hc => ?_, h2⟩
        obtain ⟨h3, h4⟩ := h1 c hc
        refine ⟨by simp [h3], ?_⟩
        intro h'
        rcases List.mem_cons.1 h' with h' | h'
        · subst h'; exact h h3
        · exact h4 h'
      obtain ⟨k1, k2, k3⟩ := key (nearSpreads f.sels) { st with seen := st.seen ++ [f.name] }
        (fun _ h => h) start hb
      generalize hR : (nearSpreads f.sels).foldl (detectOne d n (f.name :: path))
        { st with seen := st.seen ++ [f.name] } = R at k1 k2 k3 hb
      have hnext : ∀ c ∈ nextFrag d f.name, c ∈ R.seen ∧ c ∉ f.name :: path := by
        intro c hc
        unfold nextFrag at hc
        rw [knownFrag_of_mem hd hf] at hc
        simp only [List.mem_filter] at hc
        exact k3 c hc.1 hc.2
      have stay : ∀ x y, Way (nextFrag d) x y → x ∈ R.seen → x ∉ f.name :: path →
          y ∉ f.name :: path := by
        intro x y hw
        induction hw with
        | refl _ => exact fun _ h => h
        | step h1 _ ihw =>
          intro hx1 hx2
          obtain ⟨h3, h4⟩ := (k1 _ hx1 hx2).1 _ h1
          exact ihw h3 h4
      refine ⟨?_, k2 _ (by simp), fun x hx => k2 x (by simp [hx])⟩
      intro b hb' hbp
      by_cases hbf : b = f.name
      · subst hbf
        refine ⟨fun c hc => ?_, ?_⟩
        · obtain ⟨h3, h4⟩ := hnext c hc
          exact ⟨h3, fun h' => h4 (by simp [h'])⟩
        · rintro ⟨c, hc, hw⟩
          obtain ⟨h3, h4⟩ := hnext c hc
          exact stay c _ hw h3 h4 (by simp)
      · obtain ⟨h1, h2⟩ := k1 b hb' (by simp [hbf, hbp])
        refine ⟨fun c hc => ?_, h2⟩
        obtain ⟨h3, h4⟩ := h1 c hc
        exact ⟨h3, fun h' => h4 (by simp [h'])⟩

theorem detect_loop (d : Doc) (hd : ((frags d).map (·.name)).Nodup) :
    ∀ (n : Nat) (path : List Name) (st : Cyc) (f : Frag), f ∈ frags d → st.bad = false →
      (∀ p ∈ path, (knownFrag d p).isSome ∧ Way (nextFrag d) p f.name) →
      (detect d n path st f).bad = true → ∃ g ∈ frags d, Loop d g.name := by
  intro n
  induction n with
  | zero => intro path st f _ hb _ h; simp only [detect] at h; rw [hb] at h; cases h
  | succ n ih =>
    intro path st f hf hb hp h
    rw [detect_succ] at h
    split at h
    · rw [hb] at h; cases h
    · have key : ∀ (l : List Name) (st1 : Cyc), (∀ m ∈ l, m ∈ nearSpreads f.sels) → st1.bad = false →
          (l.foldl (detectOne d n (f.name :: path)) st1).bad = true → ∃ g ∈ frags d, Loop d g.name := by
        intro l
        induction l with
        | nil => intro st1 _ hb1 h1; rw [List.foldl_nil, hb1] at h1; cases h1
        | cons m ms ihl =>
          intro st1 hl hb1 h1
          rw [List.foldl_cons] at h1
          have hm : m ∈ nearSpreads f.sels := hl m (by simp)
          have hnext : (knownFrag d m).isSome → m ∈ nextFrag d f.name := by
            intro hk
            unfold nextFrag
            rw [knownFrag_of_mem hd hf]
            exact List.mem_filter.2 ⟨hm, hk⟩
          cases hbb : (detectOne d n (f.name :: path) st1 m).bad with
          | false => exact ihl _ (fun x hx => hl x (by simp [hx])) hbb h1
          | true =>
            unfold detectOne at hbb
            by_cases hmp : m ∈ f.name :: path
            · rcases List.mem_cons.1 hmp with h' | h'
              · subst h'
                refine ⟨f, hf, f.name, hnext ?_, .refl _⟩
                rw [knownFrag_of_mem hd hf]; rfl
              · obtain ⟨hk, hw⟩ := hp m h'
                obtain ⟨g, hg⟩ := Option.isSome_iff_exists.1 hk
                obtain ⟨hg1, hg2⟩ := knownFrag_some hg
                subst hg2
                have : Way (nextFrag d) g.name g.name := hw.tail (hnext hk)
                have hstep := hnext hk
                refine ⟨f, hf, g.name, hstep, hw⟩
            · rw [if_neg hmp] at hbb
              cases hk : knownFrag d m with
              | none => rw [hk] at hbb; simp only at hbb; rw [hb1] at hbb; cases hbb
              | some g =>
                rw [hk] at hbb
                simp only at hbb
                obtain ⟨hg1, hg2⟩ := knownFrag_some hk
                subst hg2
                refine ih (f.name :: path) st1 g hg1 hb1 ?_ hbb
                intro p hpp
                rcases List.mem_cons.1 hpp with h' | h'
                · subst h'
                  exact ⟨by rw [knownFrag_of_mem hd hf]; rfl, .step (hnext (by rw [hk]; rfl)) (.refl _)⟩
                · exact ⟨(hp p h').1, (hp p h').2.tail (hnext (by rw [hk]; rfl))⟩
      exact key (nearSpreads f.sels) { st with seen := st.seen ++ [f.name] } (fun _ h => h) hb h

/-- The fragments that are told of. -/
def fragEv : Ev → List Frag
  | .frag f => [f]
  | _ => []

theorem noFragmentsCycle_fold (s : Schema) (d : Doc) :
    noFragmentsCycle s d =
      ((frags d).foldl (detect d ((frags d).length + 1) []) ({} : Cyc)).bad := by
  unfold noFragmentsCycle
  rw [foldl_flatMap' _ fragEv (detect d ((frags d).length + 1) []) (by
    rintro st ⟨c, e⟩
    cases e <;> rfl)]
  rw [flatMap_visit fragEv (by intro e he; cases e <;> first | rfl | simp [Ev.outer] at he) rfl rfl]
  suffices h : d.flatMap (fun x => (outline x).flatMap fragEv) = frags d by rw [h]
  unfold frags
  generalize d = d'
  induction d' with
  | nil => rfl
  | cons x xs ih =>
    rw [List.flatMap_cons, ih]
    cases x <;> simp [outline, fragEv, Def.frag?, List.filterMap_cons]

theorem nearReaches_way (d : Doc) (hd : ((frags d).map (·.name)).Nodup) {f : Frag}
    (hf : f ∈ frags d) (n : Name) (hn : (knownFrag d n).isSome) :
    NearReaches d f.sels n ↔ ∃ b ∈ nextFrag d f.name, Way (nextFrag d) b n := by
  have hnf : ∀ (g : Frag), g ∈ frags d → ∀ m, m ∈ nextFrag d g.name ↔
      NearSpread g.sels m ∧ (knownFrag d m).isSome := by
    intro g hg m
    unfold nextFrag
    rw [knownFrag_of_mem hd hg]
    simp only [List.mem_filter, mem_nearSpreads]
  constructor
  · intro h
    generalize hss : f.sels = ss at h
    induction h generalizing f with
    | direct h1 =>
      subst hss
      exact ⟨_, (hnf f hf _).2 ⟨h1, hn⟩, .refl _⟩
    | through h1 h2 _ ih =>
      subst hss
      obtain ⟨b, hb, hw⟩ := ih h2 hn rfl
      exact ⟨_, (hnf f hf _).2 ⟨h1, by rw [knownFrag_of_mem hd h2]; rfl⟩, .step hb hw⟩
  · rintro ⟨b, hb, hw⟩
    induction hw generalizing f with
    | refl a => exact .direct ((hnf f hf _).1 hb).1
    | step h1 _ ih =>
      obtain ⟨h3, h4⟩ := (hnf f hf _).1 hb
      obtain ⟨g, hg⟩ := Option.isSome_iff_exists.1 h4
      obtain ⟨hg1, hg2⟩ := knownFrag_some hg
      subst hg2
      exact .through h3 hg1 (ih hg1 hn h1)

theorem noFragmentsCycle_iff (s : Schema) (d : Doc) (hd : ((frags d).map (·.name)).Nodup) :
    noFragmentsCycle s d = false ↔ ∀ f ∈ frags d, ¬ NearReaches d f.sels f.name := by
  rw [noFragmentsCycle_fold]
  have hloop : ∀ f ∈ frags d, (NearReaches d f.sels f.name ↔ Loop d f.name) := fun f hf =>
    nearReaches_way d hd hf f.name (by rw [knownFrag_of_mem hd hf]; rfl)
  constructor
  · intro h
    have key : ∀ (l : List Frag) (st : Cyc), (∀ f ∈ l, f ∈ frags d) → Settled d [] st.seen →
        (l.foldl (detect d ((frags d).length + 1) []) st).bad = false →
        Settled d [] (l.foldl (detect d ((frags d).length + 1) []) st).seen ∧
        (∀ x ∈ st.seen, x ∈ (l.foldl (detect d ((frags d).length + 1) []) st).seen) ∧
        ∀ f ∈ l, f.name ∈ (l.foldl (detect d ((frags d).length + 1) []) st).seen := by
      intro l
      induction l with
      | nil => intro st _ hs _; exact ⟨hs, fun _ h => h, fun f hf => by cases hf⟩
      | cons g gs ih =>
        intro st hl hs hb
        rw [List.foldl_cons] at hb ⊢
        have hb2 : (detect d ((frags d).length + 1) [] st g).bad = false := by
          cases hbb : (detect d ((frags d).length + 1) [] st g).bad with
          | false => rfl
          | true =>
            have : ∀ (l : List Frag) (st : Cyc), st.bad = true →
                (l.foldl (detect d ((frags d).length + 1) []) st).bad = true := by
              intro l
              induction l with
              | nil => exact fun _ h => h
              | cons y ys ihy => exact fun st h => ihy _ (detect_bad d _ _ _ _ h)
            rw [this gs _ hbb] at hb; cases hb
        obtain ⟨i1, i2, i3⟩ := detect_settled d hd _ [] st g (hl g (by simp)) (by
          have : free ((frags d).map (·.name)) st.seen ≤ ((frags d).map (·.name)).length :=
            List.length_filter_le _ _
          simp at this
          omega) (by simp) (by simp) hs hb2
        obtain ⟨j1, j2, j3⟩ := ih _ (fun x hx => hl x (by simp [hx])) i1 hb
        refine ⟨j1, fun x hx => j2 x (i3 x hx), ?_⟩
        intro f hf
        rcases List.mem_cons.1 hf with h' | h'
        · subst h'; exact j2 _ i2
        · exact j3 f h'
    obtain ⟨h1, _, h3⟩ := key (frags d) {} (fun _ h => h) (by intro b hb; cases hb) h
    intro f hf hr
    exact (h1 _ (h3 f hf) (by simp)).2 ((hloop f hf).1 hr)
  · intro h
    cases hb : ((frags d).foldl (detect d ((frags d).length + 1) []) ({} : Cyc)).bad with
    | false => rfl
    | true =>
      exfalso
      have key : ∀ (l : List Frag) (st : Cyc), (∀ f ∈ l, f ∈ frags d) → st.bad = false →
          (l.foldl (detect d ((frags d).length + 1) []) st).bad = true →
          ∃ g ∈ frags d, Loop d g.name := by
        intro l
        induction l with
        | nil => intro st _ hs hb; rw [List.foldl_nil, hs] at hb; cases hb
        | cons g gs ih =>
          intro st hl hs hb
          rw [List.foldl_cons] at hb
          cases hbb : (detect d ((frags d).length + 1) [] st g).bad with
          | false => exact ih _ (fun x hx => hl x (by simp [hx])) hbb hb
          | true => exact detect_loop d hd _ [] st g (hl g (by simp)) hs (by simp) hbb
      obtain ⟨g, hg, hl⟩ := key (frags d) {} (fun _ h => h) rfl hb
      exact h g hg ((hloop g hg).2 hl)

end Verif.Valid
