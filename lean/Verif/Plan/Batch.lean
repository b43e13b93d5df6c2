import Verif.Plan.Traces

/-!
# Batching keeps the work
-/

namespace Verif.Plan

open Verif.Keys (VarDef)

/-! ## Partitions -/

theorem addShape_perm (H : Hashers) (c : Cand) (gs : List (List Cand)) :
    (addShape H c gs).flatten.Perm (gs.flatten ++ [c]) := by
  induction gs with
  | nil => exact .refl _
  | cons g gs ih =>
    cases g with
    | nil => simpa [addShape] using ih
    | cons a as =>
      rw [addShape]
      split
      · simp only [List.flatten_cons, List.cons_append, List.append_assoc, List.nil_append]
        refine .cons _ (.append_left _ ?_)
        exact (List.perm_append_singleton c gs.flatten).symm
      · simp only [List.flatten_cons, List.append_assoc]
        exact .append_left _ ih

theorem byShape_perm_aux (H : Hashers) (cs : List Cand) : ∀ gs : List (List Cand),
    (cs.foldl (fun gs c => addShape H c gs) gs).flatten.Perm (gs.flatten ++ cs) := by
  induction cs with
  | nil => intro gs; simp
  | cons c cs ih =>
    intro gs
    refine (ih (addShape H c gs)).trans ?_
    have := (addShape_perm H c gs).append_right cs
    simpa using this

theorem byShape_perm (H : Hashers) (cs : List Cand) : (byShape H cs).flatten.Perm cs := by
  simpa [byShape] using byShape_perm_aux H cs []

/-- A group: not empty, and all of the shape of its first one. -/
def GroupOk (H : Hashers) : List Cand → Prop
  | [] => False
  | a :: as => ∀ c ∈ as, eqShape H a c = true

theorem addShape_ok (H : Hashers) (c : Cand) (gs : List (List Cand)) (h : ∀ g ∈ gs, GroupOk H g) :
    ∀ g ∈ addShape H c gs, GroupOk H g := by
  induction gs with
  | nil => intro g hg; simp only [addShape, List.mem_singleton] at hg; subst hg; simp [GroupOk]
  | cons g gs ih =>
    cases g with
    | nil => exact absurd (h [] (by simp)) id
    | cons a as =>
      rw [addShape]
      have ha := h (a :: as) (by simp)
      split
      · rename_i he
        intro g hg
        rcases List.mem_cons.1 hg with rfl | hg
        · intro x hx
          rcases List.mem_append.1 hx with hx | hx
          · exact ha x hx
          · simp only [List.mem_singleton] at hx; subst hx; exact he
        · exact h g (by simp [hg])
      · intro g hg
        rcases List.mem_cons.1 hg with rfl | hg
        · exact ha
        · exact ih (fun g hg => h g (by simp [hg])) g hg

theorem byShape_ok (H : Hashers) (cs : List Cand) : ∀ g ∈ byShape H cs, GroupOk H g := by
  have : ∀ (cs : List Cand) (gs : List (List Cand)), (∀ g ∈ gs, GroupOk H g) →
      ∀ g ∈ cs.foldl (fun gs c => addShape H c gs) gs, GroupOk H g := by
    intro cs
    induction cs with
    | nil => intro gs h; exact h
    | cons c cs ih => intro gs h; exact ih _ (addShape_ok H c gs h)
  exact this cs [] (by simp)

theorem addVars_perm (c : Cand) (gs : List (List Cand × List VarDef)) :
    ((addVars c gs).flatMap (·.1)).Perm (gs.flatMap (·.1) ++ [c]) := by
  induction gs with
  | nil => exact .refl _
  | cons g gs ih =>
    obtain ⟨cs, vs⟩ := g
    rw [addVars]
    split
    · simp only [List.flatMap_cons, List.append_assoc]
      refine .append_left _ ?_
      exact (List.perm_append_singleton c _).symm
    · simp only [List.flatMap_cons, List.append_assoc]
      exact .append_left _ ih

theorem byVars_perm (cs : List Cand) : ((byVars cs).flatMap (·.1)).Perm cs := by
  have : ∀ (cs : List Cand) (gs : List (List Cand × List VarDef)),
      ((cs.foldl (fun gs c => addVars c gs) gs).flatMap (·.1)).Perm (gs.flatMap (·.1) ++ cs) := by
    intro cs
    induction cs with
    | nil => intro gs; simp
    | cons c cs ih =>
      intro gs
      refine (ih (addVars c gs)).trans ?_
      have := (addVars_perm c gs).append_right cs
      simpa using this
  simpa [byVars] using this cs []

/-! ## Names -/

theorem repName_inj (m n : Nat) (h : repName m = repName n) : m = n := by
  unfold repName at h
  exact Nat.repr_injective ((String.append_right_inj _).1 h)

theorem aliasName_inj (m n : Nat) (h : "_e" ++ Nat.repr m = "_e" ++ Nat.repr n) : m = n :=
  Nat.repr_injective ((String.append_right_inj _).1 h)

theorem nextRep_spec (used : List String) (fuel : Nat) : ∀ n,
    repName (nextRep used fuel n) ∉ used ∨
      (nextRep used fuel n = n + fuel ∧ ∀ k < fuel, repName (n + k) ∈ used) := by
  induction fuel with
  | zero => intro n; exact .inr ⟨rfl, by simp⟩
  | succ fuel ih =>
    intro n
    rw [nextRep]
    split
    · rename_i hc
      rcases ih (n + 1) with h | ⟨h1, h2⟩
      · exact .inl h
      · refine .inr ⟨by omega, fun k hk => ?_⟩
        cases k with
        | zero => simpa using hc
        | succ k =>
          have := h2 k (by omega)
          rwa [Nat.add_right_comm] at this
    · rename_i hc
      exact .inl (by simpa using hc)

theorem nextRep_fresh (used : List String) (n : Nat) :
    repName (nextRep used used.length n) ∉ used := by
  rcases nextRep_spec used used.length n with h | ⟨h1, h2⟩
  · exact h
  · intro hm
    rw [h1] at hm
    have hnd : ((List.range (used.length + 1)).map fun k => repName (n + k)).Nodup := by
      unfold List.Nodup
      rw [List.pairwise_map]
      refine List.Pairwise.imp ?_ (List.nodup_range (n := used.length + 1))
      intro a b hab he
      exact hab (by have := repName_inj _ _ he; omega)
    have := length_le_of_nodup _ used hnd (by
      intro x hx
      obtain ⟨k, hk, rfl⟩ := List.mem_map.1 hx
      rw [List.mem_range] at hk
      by_cases hkl : k < used.length
      · exact h2 k hkl
      · have : k = used.length := by omega
        subst this; exact hm)
    simp at this
    omega

/-! ## No clashes -/

/-- Among the selections of fetches with `P`, those that the code takes for equal are equal. -/
structure Distinct (H : Hashers) (P : Fetch → Prop) : Prop where
  requires : ∀ f f' r r', P f → P f' → f.requires = some r → f'.requires = some r' →
    H.xxh (setWords (itemHashes H.fx r)) = H.xxh (setWords (itemHashes H.fx r')) → selEq r r' = true →
    r = r'
  sels : ∀ f f' c c', P f → P f' → f.call = some c → f'.call = some c' →
    H.xxh (setWords (itemHashes H.fx c.sels)) = H.xxh (setWords (itemHashes H.fx c'.sels)) →
    selEq c.sels c'.sels = true → c.sels = c'.sels
  reps : ∀ f f' r r' i p, P f → P f' → f.requires = some r → f'.requires = some r' →
    H.std ⟨r, i, p⟩ = H.std ⟨r', i, p⟩ → selEq r r' = true → r = r'

/-- The candidate is of a fetch with `P`. -/
structure CandOk (P : Fetch → Prop) (c : Cand) : Prop where
  fetch : P c.fetch
  requires : c.fetch.requires = some c.requires
  call : ∃ x, c.fetch.call = some x ∧ x.sels = c.sels ∧ c.vars = c.fetch.vars.filter (·.name ≠ x.repVar)

/-- The work of a candidate. -/
def Cand.work (c : Cand) : Work :=
  .entities c.fetch.service c.path c.requires c.fetch.inputRw c.sels c.fetch.outputRw

theorem work_of_cand (P : Fetch → Prop) (c : Cand) (h : CandOk P c) : c.fetch.work c.path = c.work := by
  obtain ⟨x, h1, h2, _⟩ := h.call
  unfold Fetch.work
  rw [h1, h.requires]
  simp [Cand.work, h2]

/-- The work of a group: that of its first one, at all paths. -/
def groupWork (service : String) : List Cand → List Work
  | [] => []
  | r :: cs => (mergePaths [] ((r :: cs).map (·.path))).map fun p =>
      .entities service p r.requires r.fetch.inputRw r.sels r.fetch.outputRw

theorem eqShape_work (H : Hashers) (P : Fetch → Prop) (hD : Distinct H P) (a c : Cand) (ha : CandOk P a)
    (hc : CandOk P c) (h : eqShape H a c = true) :
    a.requires = c.requires ∧ a.sels = c.sels ∧ a.fetch.inputRw = c.fetch.inputRw ∧
      a.fetch.outputRw = c.fetch.outputRw := by
  simp only [eqShape, Cand.key, Bool.and_eq_true, beq_iff_eq, Prod.mk.injEq] at h
  obtain ⟨⟨⟨⟨⟨h1, h2, h3, h4⟩, h5⟩, h6⟩, h7⟩, h8⟩ := h
  obtain ⟨x, hx1, hx2, _⟩ := ha.call
  obtain ⟨y, hy1, hy2, _⟩ := hc.call
  refine ⟨hD.requires _ _ _ _ ha.fetch hc.fetch ha.requires hc.requires h1 h5, ?_, h7, h8⟩
  rw [← hx2, ← hy2]
  refine hD.sels _ _ _ _ ha.fetch hc.fetch hx1 hy1 ?_ ?_
  · rw [hx2, hy2]; exact h2
  · rw [hx2, hy2]; exact h6

theorem group_collapse (H : Hashers) (P : Fetch → Prop) (hD : Distinct H P) (service : String)
    (g : List Cand) (hg : GroupOk H g) (hok : ∀ c ∈ g, CandOk P c ∧ c.fetch.service = service) :
    Collapse (g.map Cand.work) (groupWork service g) := by
  cases g with
  | nil => exact absurd hg id
  | cons r cs =>
    have hr := hok r (by simp)
    have : (r :: cs).map Cand.work = ((r :: cs).map (·.path)).map fun p =>
        Work.entities service p r.requires r.fetch.inputRw r.sels r.fetch.outputRw := by
      rw [List.map_map]
      apply List.map_congr_left
      intro c hc
      rcases List.mem_cons.1 hc with rfl | hcs
      · simp [Cand.work, hr.2]
      · obtain ⟨h1, h2, h3, h4⟩ := eqShape_work H P hD r c hr.1 (hok c hc).1 (hg c hcs)
        simp [Cand.work, (hok c hc).2, h1, h2, h3, h4]
    rw [this, groupWork]
    apply Collapse.map
    simpa using mergePaths_collapse ((r :: cs).map (·.path)) [] [] .nil

/-! ## The builder -/

/-- The work of an alias with its field. -/
def pairWork (service : String) (d : Alias × Field) : List Work :=
  d.1.paths.map fun p => .entities service p d.1.requires d.1.inputRw d.2.sels d.1.outputRw

/-- What an alias and its field say. -/
def pairSig (d : Alias × Field) : List Path × List Sel × Rewrites × Rewrites × List Sel :=
  (d.1.paths, d.1.requires, d.1.inputRw, d.1.outputRw, d.2.sels)

/-- What those of a group should say. -/
def groupSig : List Cand → List Path × List Sel × Rewrites × Rewrites × List Sel
  | [] => ([], [], none, none, [])
  | r :: cs => (mergePaths [] ((r :: cs).map (·.path)), r.requires, r.fetch.inputRw, r.fetch.outputRw, r.sels)

def Alias.key (a : Alias) : RepKey := ⟨a.requires, a.inputRw, a.paths⟩

/-- What holds after `i` groups, with the aliases and fields `D`. -/
structure BuilderOk (P : Fetch → Prop) (client : List String) (b : Builder) (i : Nat)
    (D : List (Alias × Field)) : Prop where
  aliases : b.aliases = D.map (·.1)
  fields : b.fields = D.map (·.2)
  names : D.map (·.1.alias) = (List.range i).map fun k => "_e" ++ Nat.repr k
  same : ∀ d ∈ D, d.2.alias = d.1.alias ∧ d.2.repVar = d.1.repVar
  keyed : ∀ d ∈ D, (d.1.key, d.1.repVar) ∈ b.reps
  functional : (b.reps.map (·.2)).Nodup
  used : b.used = (b.reps.map (·.2)).reverse ++ client
  fresh : ∀ v ∈ b.reps.map (·.2), v ∉ client
  source : ∀ kv ∈ b.reps, ∃ f, P f ∧ f.requires = some kv.1.requires
  defs : b.varDefs = b.reps.map fun kv => ⟨kv.2, anyType, none⟩

theorem repVar_ok (H : Hashers) (P : Fetch → Prop) (hD : Distinct H P) (client : List String)
    (b : Builder) (i : Nat) (D : List (Alias × Field)) (h : BuilderOk P client b i D) (k : RepKey)
    (hk : ∃ f, P f ∧ f.requires = some k.requires) :
    BuilderOk P client (b.repVar H k).1 i D ∧ (k, (b.repVar H k).2) ∈ (b.repVar H k).1.reps ∧
      (b.repVar H k).1.usages = b.usages := by
  unfold Builder.repVar
  cases hf : b.reps.find? (fun kv => kv.1.matches H k) with
  | some kv =>
    have hm := List.mem_of_find?_eq_some hf
    have hp := List.find?_some hf
    simp only [RepKey.matches, Bool.and_eq_true, beq_iff_eq] at hp
    obtain ⟨⟨⟨h1, h2⟩, h3⟩, h4⟩ := hp
    refine ⟨h, ?_, rfl⟩
    have : kv.1 = k := by
      obtain ⟨f, hf1, hf2⟩ := h.source kv hm
      obtain ⟨f', hf1', hf2'⟩ := hk
      have hr := hD.reps f f' kv.1.requires k.requires k.inputRw k.paths hf1 hf1' hf2 hf2' (by
        rw [← h1]
        congr 1
        rw [← h3, ← h4]) h2
      obtain ⟨⟨r, i, p⟩, v⟩ := kv
      simp only at hr h3 h4
      rw [hr, h3, h4]
    rw [← this]
    exact hm
  | none =>
    have hfr := nextRep_fresh b.used b.next
    refine ⟨⟨h.aliases, h.fields, h.names, h.same, ?_, ?_, ?_, ?_, ?_, ?_⟩, by simp, rfl⟩
    · intro d hd
      exact List.mem_append_left _ (h.keyed d hd)
    · simp only [List.map_append, List.map_cons, List.map_nil]
      rw [List.nodup_append]
      refine ⟨h.functional, by simp, ?_⟩
      intro x hx y hy hxy
      simp only [List.mem_singleton] at hy
      apply hfr
      have : x ∈ b.used := by
        rw [h.used]
        exact List.mem_append_left _ (List.mem_reverse.2 hx)
      rw [← hy, ← hxy]
      exact this
    · simp [h.used]
    · intro v hv
      simp only [List.map_append, List.map_cons, List.map_nil, List.mem_append, List.mem_singleton] at hv
      rcases hv with hv | rfl
      · exact h.fresh v hv
      · intro hc
        apply hfr
        have : ∀ x ∈ client, x ∈ b.used := by
          intro x hx
          rw [h.used]
          exact List.mem_append_right _ hx
        exact this _ hc
    · intro kv hkv
      rcases List.mem_append.1 hkv with hkv | hkv
      · exact h.source kv hkv
      · simp only [List.mem_singleton] at hkv
        subst hkv
        exact hk
    · simp [h.defs]

theorem add_ok (H : Hashers) (P : Fetch → Prop) (hD : Distinct H P) (client : List String)
    (b : Builder) (i : Nat) (D : List (Alias × Field)) (h : BuilderOk P client b i D) (r : Cand)
    (cs : List Cand) (hr : CandOk P r) :
    ∃ d : Alias × Field, BuilderOk P client (b.add H i (r :: cs)) (i + 1) (D ++ [d]) ∧
      (∀ s, pairWork s d = groupWork s (r :: cs)) ∧ pairSig d = groupSig (r :: cs) ∧
      (b.add H i (r :: cs)).usages = b.usages ++ (r :: cs).flatMap fun c => c.fetch.usages.getD [] := by
  have h0 : BuilderOk P client ({ b with usages := b.usages ++ (r :: cs).flatMap (fun c => c.fetch.usages.getD []) } :
      Builder) i D :=
    ⟨h.aliases, h.fields, h.names, h.same, h.keyed, h.functional, h.used, h.fresh, h.source, h.defs⟩
  obtain ⟨h1, h2, h3⟩ := repVar_ok H P hD client _ i D h0
    ⟨r.requires, r.fetch.inputRw, mergePaths [] ((r :: cs).map (·.path))⟩ ⟨r.fetch, hr.fetch, hr.requires⟩
  have hadd : b.add H i (r :: cs) =
      let x := Builder.repVar H ({ b with usages := b.usages ++ (r :: cs).flatMap (fun c =>
        c.fetch.usages.getD []) } : Builder) ⟨r.requires, r.fetch.inputRw, mergePaths [] ((r :: cs).map (·.path))⟩
      { x.1 with
        fields := x.1.fields ++ [⟨"_e" ++ Nat.repr i, x.2, r.sels⟩]
        aliases := x.1.aliases ++ [⟨"_e" ++ Nat.repr i, x.2, mergePaths [] ((r :: cs).map (·.path)),
          r.requires, r.fetch.inputRw, r.fetch.outputRw⟩] } := rfl
  rw [hadd]
  clear hadd h0
  revert h1 h2 h3
  generalize Builder.repVar H _ _ = x
  intro h1 h2 h3
  refine ⟨(⟨"_e" ++ Nat.repr i, x.2, mergePaths [] ((r :: cs).map (·.path)), r.requires, r.fetch.inputRw,
      r.fetch.outputRw⟩, ⟨"_e" ++ Nat.repr i, x.2, r.sels⟩),
    ⟨?_, ?_, ?_, ?_, ?_, h1.functional, h1.used, h1.fresh, h1.source, h1.defs⟩, ?_, rfl, h3⟩
  · simp only [h1.aliases, List.map_append, List.map_cons, List.map_nil]
  · simp only [h1.fields, List.map_append, List.map_cons, List.map_nil]
  · simp [h1.names, List.range_succ]
  · intro d hd
    rcases List.mem_append.1 hd with hd | hd
    · exact h1.same d hd
    · simp only [List.mem_singleton] at hd
      subst hd
      exact ⟨rfl, rfl⟩
  · intro d hd
    rcases List.mem_append.1 hd with hd | hd
    · exact h1.keyed d hd
    · simp only [List.mem_singleton] at hd
      subst hd
      exact h2
  · intro s
    rfl

theorem addGroups_ok (H : Hashers) (P : Fetch → Prop) (hD : Distinct H P) (client : List String)
    (gs : List (List Cand)) : ∀ (b : Builder) (i : Nat) (D : List (Alias × Field)),
    BuilderOk P client b i D → (∀ g ∈ gs, g ≠ [] ∧ ∀ c ∈ g, CandOk P c) →
    ∃ D', BuilderOk P client (addGroups H i b gs) (i + gs.length) (D ++ D') ∧
      (∀ s, D'.flatMap (pairWork s) = gs.flatMap (groupWork s)) ∧ D'.map pairSig = gs.map groupSig ∧
      (addGroups H i b gs).usages = b.usages ++ gs.flatten.flatMap fun c => c.fetch.usages.getD [] := by
  induction gs with
  | nil => intro b i D h _; exact ⟨[], by simpa [addGroups] using h, by simp, rfl, by simp [addGroups]⟩
  | cons g gs ih =>
    intro b i D h hg
    cases g with
    | nil => exact absurd rfl (hg [] (by simp)).1
    | cons r cs =>
      obtain ⟨d, h1, h2, hsig, h3⟩ := add_ok H P hD client b i D h r cs
        ((hg (r :: cs) (by simp)).2 r (by simp))
      obtain ⟨D', h4, h5, h6, h7⟩ := ih (b.add H i (r :: cs)) (i + 1) (D ++ [d]) h1
        (fun g hgs => hg g (by simp [hgs]))
      refine ⟨d :: D', ?_, ?_, by simp [h6, hsig], ?_⟩
      · have : i + ((r :: cs) :: gs).length = i + 1 + gs.length := by simp; omega
        rw [this, addGroups]
        simpa using h4
      · intro s
        simp only [List.flatMap_cons, h2, h5]
      · rw [addGroups, h7, h3]
        simp [List.flatMap_append]

/-- The builder at first. -/
theorem builder_init (P : Fetch → Prop) (client : List String) :
    BuilderOk P client ⟨[], [], [], client, 0, [], []⟩ 0 [] :=
  ⟨rfl, rfl, rfl, by simp, by simp, by simp, by simp, by simp, by simp, rfl⟩

theorem find?_by_key {α : Type} (l : List α) (k : α → String) (h : (l.map k).Nodup) (a : α) (ha : a ∈ l) :
    l.find? (fun x => k x == k a) = some a := by
  induction l with
  | nil => cases ha
  | cons x l ih =>
    simp only [List.map_cons, List.nodup_cons] at h
    rcases List.mem_cons.1 ha with rfl | hal
    · simp
    · have hne : k x ≠ k a := fun he => h.1 (he ▸ List.mem_map.2 ⟨a, hal, rfl⟩)
      rw [List.find?_cons_of_neg (by simpa using hne)]
      exact ih h.2 hal

theorem range_names_nodup (n : Nat) : ((List.range n).map fun k => "_e" ++ Nat.repr k).Nodup := by
  unfold List.Nodup
  rw [List.pairwise_map]
  refine List.Pairwise.imp ?_ (List.nodup_range (n := n))
  intro a b hab he
  exact hab (aliasName_inj a b he)

theorem functional_of_nodup {α β : Type} (l : List (α × β)) (h : (l.map (·.2)).Nodup) (a a' : α) (b : β)
    (h1 : (a, b) ∈ l) (h2 : (a', b) ∈ l) : a = a' := by
  induction l with
  | nil => cases h1
  | cons x l ih =>
    simp only [List.map_cons, List.nodup_cons] at h
    rcases List.mem_cons.1 h1 with rfl | h1'
    · rcases List.mem_cons.1 h2 with h2 | h2
      · cases h2; rfl
      · exact absurd (List.mem_map.2 ⟨_, h2, rfl⟩) h.1
    · rcases List.mem_cons.1 h2 with rfl | h2
      · exact absurd (List.mem_map.2 ⟨_, h1', rfl⟩) h.1
      · exact ih h.2 h1' h2

/-- The work of a batch is that of its aliases. -/
theorem batch_work_pairs (P : Fetch → Prop) (client : List String) (b : Builder) (i : Nat)
    (D : List (Alias × Field)) (h : BuilderOk P client b i D) (batch : Batch)
    (hf : batch.fields = b.fields) (ha : batch.aliases = b.aliases) :
    batch.work = D.flatMap (pairWork batch.service) := by
  unfold Batch.work
  rw [hf, h.fields, List.flatMap_map]
  unfold List.flatMap
  congr 1
  apply List.map_congr_left
  intro d hd
  obtain ⟨hs1, hs2⟩ := h.same d hd
  have hnd : (batch.aliases.map (·.alias)).Nodup := by
    rw [ha, h.aliases, List.map_map]
    have : (D.map ((·.alias) ∘ (·.1))) = D.map (·.1.alias) := rfl
    rw [this, h.names]
    exact range_names_nodup i
  have hmem : d.1 ∈ batch.aliases := by
    rw [ha, h.aliases]
    exact List.mem_map.2 ⟨d, hd, rfl⟩
  have h1 : batch.aliases.find? (fun a => a.alias == d.2.alias) = some d.1 := by
    rw [hs1]
    exact find?_by_key _ _ hnd d.1 hmem
  cases h2 : batch.aliases.find? (fun a => a.repVar == d.2.repVar) with
  | none =>
    have := List.find?_eq_none.1 h2 d.1 hmem
    simp [hs2] at this
  | some src =>
    have hsm := List.mem_of_find?_eq_some h2
    have hsp := List.find?_some h2
    simp only [beq_iff_eq] at hsp
    rw [ha, h.aliases] at hsm
    obtain ⟨e, he, rfl⟩ := List.mem_map.1 hsm
    have hk : e.1.key = d.1.key := by
      refine functional_of_nodup b.reps h.functional _ _ e.1.repVar (h.keyed e he) ?_
      rw [hsp, hs2]
      exact h.keyed d hd
    simp only [Alias.key, RepKey.mk.injEq] at hk
    obtain ⟨k1, k2, k3⟩ := hk
    simp only [Batch.fieldWork, h1, h2, k3, if_true, k1, k2]
    rfl

theorem buildBatch_work (H : Hashers) (P : Fetch → Prop) (hD : Distinct H P) (first : Cand)
    (groups : List (List Cand)) (vars : List VarDef)
    (hg : ∀ g ∈ groups, GroupOk H g ∧ ∀ c ∈ g, CandOk P c ∧ c.fetch.service = first.fetch.service) :
    Collapse (groups.flatten.map Cand.work) (buildBatch H first groups vars).work := by
  obtain ⟨D, h1, h2, h3, h4⟩ := addGroups_ok H P hD (vars.map (·.name)) groups _ 0 []
    (builder_init P (vars.map (·.name))) (by
      intro g hgs
      refine ⟨?_, fun c hc => ((hg g hgs).2 c hc).1⟩
      intro he
      subst he
      exact (hg [] hgs).1)
  rw [batch_work_pairs P _ _ _ _ h1 (buildBatch H first groups vars) rfl rfl]
  rw [List.nil_append, h2]
  have : groups.flatten.map Cand.work = groups.flatMap fun g => g.map Cand.work := by
    rw [List.map_flatten, List.flatMap]
  rw [this]
  exact Collapse.flatMap _ _ _ fun g hgs => group_collapse H P hD _ g (hg g hgs).1 (hg g hgs).2

/-! ## Variables -/

theorem canMerge_snoc (vs : List VarDef) (o : VarDef) (os : List VarDef)
    (hn : o.name ∉ os.map (·.name)) (h : canMergeVars vs os = true) : canMergeVars (vs ++ [o]) os = true := by
  induction os with
  | nil => rfl
  | cons p os ih =>
    simp only [List.map_cons, List.mem_cons, not_or] at hn
    rw [canMergeVars] at h ⊢
    rw [List.find?_append]
    have h2 : [o].find? (fun v => v.name == p.name) = none := by simp [hn.1]
    rw [h2]
    cases hf : vs.find? (fun v => v.name == p.name) with
    | none =>
      rw [hf] at h
      exact ih hn.2 h
    | some v =>
      rw [hf] at h
      simp only [Option.some_or] at h ⊢
      split at h
      · rename_i hc
        rw [if_pos hc]
        exact ih hn.2 h
      · cases h

theorem mergeVars_sub (os : List VarDef) : ∀ vs v, v ∈ vs → v ∈ mergeVars vs os := by
  induction os with
  | nil => intro vs v h; exact h
  | cons o os ih =>
    intro vs v h
    rw [mergeVars]
    split
    · exact ih vs v h
    · exact ih _ v (by simp [h])

theorem mergeVars_all (os : List VarDef) : ∀ vs, (os.map (·.name)).Nodup → canMergeVars vs os = true →
    ∀ o ∈ os, o ∈ mergeVars vs os := by
  induction os with
  | nil => intro vs _ _ o h; cases h
  | cons p os ih =>
    intro vs hn hc o ho
    simp only [List.map_cons, List.nodup_cons] at hn
    rw [mergeVars]
    cases hf : vs.find? (fun v => v.name == p.name) with
    | none =>
      rw [canMergeVars, hf] at hc
      have hany : ¬ (vs.any (fun v => v.name == p.name) = true) := by
        rw [List.find?_eq_none] at hf
        simpa using hf
      rw [if_neg hany]
      rcases List.mem_cons.1 ho with rfl | ho
      · exact mergeVars_sub os _ _ (by simp)
      · exact ih _ hn.2 (canMerge_snoc vs p os hn.1 hc) o ho
    | some v =>
      rw [canMergeVars, hf] at hc
      simp only at hc
      split at hc
      · rename_i he
        have hvm := List.mem_of_find?_eq_some hf
        have hany : vs.any (fun v => v.name == p.name) = true := by
          rw [List.any_eq_true]
          exact ⟨v, hvm, by simpa using he.1⟩
        rw [if_pos hany]
        have hvp : v = p := by
          obtain ⟨h1, h2, h3⟩ := he
          cases v; cases p
          simp only at h1 h2 h3
          rw [h1, h2, h3]
        rcases List.mem_cons.1 ho with rfl | ho
        · exact mergeVars_sub os _ _ (hvp ▸ hvm)
        · exact ih vs hn.2 hc o ho
      · cases hc

theorem mergeVars_nodup (os : List VarDef) : ∀ vs : List VarDef, (vs.map (·.name)).Nodup →
    ((mergeVars vs os).map (·.name)).Nodup := by
  induction os with
  | nil => intro vs h; exact h
  | cons o os ih =>
    intro vs h
    rw [mergeVars]
    split
    · exact ih vs h
    · rename_i hc
      refine ih _ ?_
      rw [List.map_append, List.nodup_append]
      refine ⟨h, by simp, ?_⟩
      intro a ha b hb hab
      simp only [List.map_cons, List.map_nil, List.mem_singleton] at hb
      obtain ⟨v, hv, rfl⟩ := List.mem_map.1 ha
      apply hc
      rw [List.any_eq_true]
      exact ⟨v, hv, by simpa using hab.trans hb⟩

/-- The variables of a group: those of all its candidates. -/
def VarsOk (g : List Cand × List VarDef) : Prop :=
  (g.2.map (·.name)).Nodup ∧ ∀ c ∈ g.1, ∀ v ∈ c.vars, v ∈ g.2

theorem addVars_ok (c : Cand) (hc : (c.vars.map (·.name)).Nodup) (gs : List (List Cand × List VarDef))
    (h : ∀ g ∈ gs, VarsOk g) : ∀ g ∈ addVars c gs, VarsOk g := by
  induction gs with
  | nil =>
    intro g hg
    simp only [addVars, List.mem_singleton] at hg
    subst hg
    exact ⟨hc, by simp⟩
  | cons g gs ih =>
    obtain ⟨cs, vs⟩ := g
    rw [addVars]
    obtain ⟨h1, h2⟩ := h (cs, vs) (by simp)
    split
    · rename_i hm
      intro g hg
      rcases List.mem_cons.1 hg with rfl | hg
      · refine ⟨mergeVars_nodup _ _ h1, ?_⟩
        intro d hd v hv
        rcases List.mem_append.1 hd with hd | hd
        · exact mergeVars_sub _ _ _ (h2 d hd v hv)
        · simp only [List.mem_singleton] at hd
          subst hd
          exact mergeVars_all _ _ hc hm v hv
      · exact h g (by simp [hg])
    · intro g hg
      rcases List.mem_cons.1 hg with rfl | hg
      · exact ⟨h1, h2⟩
      · exact ih (fun g hg => h g (by simp [hg])) g hg

theorem byVars_ok (cs : List Cand) (hc : ∀ c ∈ cs, (c.vars.map (·.name)).Nodup) :
    ∀ g ∈ byVars cs, VarsOk g := by
  have : ∀ (cs : List Cand) (gs : List (List Cand × List VarDef)),
      (∀ c ∈ cs, (c.vars.map (·.name)).Nodup) → (∀ g ∈ gs, VarsOk g) →
      ∀ g ∈ cs.foldl (fun gs c => addVars c gs) gs, VarsOk g := by
    intro cs
    induction cs with
    | nil => intro gs _ h; exact h
    | cons c cs ih =>
      intro gs hc h
      exact ih _ (fun d hd => hc d (by simp [hd])) (addVars_ok c (hc c (by simp)) gs h)
  exact this cs [] hc (by simp)

theorem buildBatch_vars (H : Hashers) (P : Fetch → Prop) (hD : Distinct H P) (first : Cand)
    (groups : List (List Cand)) (vars : List VarDef)
    (hg : ∀ g ∈ groups, GroupOk H g ∧ ∀ c ∈ g, CandOk P c) (hv : (vars.map (·.name)).Nodup) :
    (((buildBatch H first groups vars).vars).map (·.name)).Nodup ∧
      (∀ v ∈ vars, v ∈ (buildBatch H first groups vars).vars) ∧
      (∀ a ∈ (buildBatch H first groups vars).aliases,
        ⟨a.repVar, anyType, none⟩ ∈ (buildBatch H first groups vars).vars ∧ a.repVar ∉ vars.map (·.name)) ∧
      (buildBatch H first groups vars).usages = groups.flatten.flatMap fun c => c.fetch.usages.getD [] := by
  obtain ⟨D, h1, h2, h3, h4⟩ := addGroups_ok H P hD (vars.map (·.name)) groups _ 0 []
    (builder_init P (vars.map (·.name))) (by
      intro g hgs
      refine ⟨?_, (hg g hgs).2⟩
      intro he
      subst he
      exact (hg [] hgs).1)
  refine ⟨?_, fun v hv => List.mem_append_right _ hv, ?_, ?_⟩
  · unfold buildBatch
    simp only
    rw [List.map_append, h1.defs, List.map_map, List.nodup_append]
    refine ⟨h1.functional, hv, ?_⟩
    intro a ha b hb hab
    exact h1.fresh a ha (hab ▸ hb)
  · intro a ha
    unfold buildBatch at ha ⊢
    simp only at ha ⊢
    rw [h1.aliases] at ha
    obtain ⟨d, hd, rfl⟩ := List.mem_map.1 ha
    have hk := h1.keyed d hd
    refine ⟨List.mem_append_left _ ?_, h1.fresh _ (List.mem_map.2 ⟨_, hk, rfl⟩)⟩
    rw [h1.defs]
    exact List.mem_map.2 ⟨_, hk, rfl⟩
  · unfold buildBatch
    simp only
    rw [h4]
    rfl

/-- Each candidate has an alias and a field. -/
theorem buildBatch_alias (H : Hashers) (P : Fetch → Prop) (hD : Distinct H P) (first : Cand)
    (groups : List (List Cand)) (vars : List VarDef)
    (hg : ∀ g ∈ groups, GroupOk H g ∧ ∀ c ∈ g, CandOk P c) (c : Cand) (hc : c ∈ groups.flatten) :
    ∃ a ∈ (buildBatch H first groups vars).aliases, ∃ f ∈ (buildBatch H first groups vars).fields,
      a.alias = f.alias ∧ a.repVar = f.repVar ∧ c.path ∈ a.paths ∧ a.requires = c.requires ∧
      a.inputRw = c.fetch.inputRw ∧ a.outputRw = c.fetch.outputRw ∧ f.sels = c.sels := by
  obtain ⟨D, h1, h2, h3, h4⟩ := addGroups_ok H P hD (vars.map (·.name)) groups _ 0 []
    (builder_init P (vars.map (·.name))) (by
      intro g hgs
      refine ⟨?_, (hg g hgs).2⟩
      intro he
      subst he
      exact (hg [] hgs).1)
  rw [List.nil_append] at h1
  obtain ⟨g, hgm, hcg⟩ := List.mem_flatten.1 hc
  have hsig : groupSig g ∈ D.map pairSig := by
    rw [h3]
    exact List.mem_map.2 ⟨g, hgm, rfl⟩
  obtain ⟨d, hd, hds⟩ := List.mem_map.1 hsig
  obtain ⟨hok, hcs⟩ := hg g hgm
  cases g with
  | nil => exact absurd hok id
  | cons r cs =>
    simp only [pairSig, groupSig, Prod.mk.injEq] at hds
    obtain ⟨e1, e2, e3, e4, e5⟩ := hds
    have hrc : r.requires = c.requires ∧ r.sels = c.sels ∧ r.fetch.inputRw = c.fetch.inputRw ∧
        r.fetch.outputRw = c.fetch.outputRw := by
      rcases List.mem_cons.1 hcg with rfl | hcg'
      · exact ⟨rfl, rfl, rfl, rfl⟩
      · exact eqShape_work H P hD r c (hcs r (by simp)) (hcs c hcg) (hok c hcg')
    obtain ⟨hs1, hs2⟩ := h1.same d hd
    refine ⟨d.1, ?_, d.2, ?_, hs1.symm, hs2.symm, ?_, e2.trans hrc.1, e3.trans hrc.2.2.1,
      e4.trans hrc.2.2.2, e5.trans hrc.2.1⟩
    · change d.1 ∈ (addGroups H 0 _ groups).aliases
      rw [h1.aliases]
      exact List.mem_map.2 ⟨d, hd, rfl⟩
    · change d.2 ∈ (addGroups H 0 _ groups).fields
      rw [h1.fields]
      exact List.mem_map.2 ⟨d, hd, rfl⟩
    · rw [e1]
      have hcol := mergePaths_collapse ((r :: cs).map (·.path)) [] [] .nil
      obtain ⟨l, hp, hst⟩ := hcol
      have hm : c.path ∈ l := by
        rw [hp.mem_iff, List.nil_append]
        exact List.mem_map.2 ⟨c, hcg, rfl⟩
      obtain ⟨ks, rfl, hks⟩ := copies_of_stutter _ _ hst
      rw [hks]
      obtain ⟨k, hk, hkm⟩ := List.mem_flatMap.1 hm
      rw [List.mem_replicate] at hkm
      exact List.mem_map.2 ⟨k, hk, hkm.2.symm⟩

end Verif.Plan
