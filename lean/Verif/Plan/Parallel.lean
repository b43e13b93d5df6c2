import Verif.Plan.Batch

/-!
# Parallel nodes keep their work
-/

namespace Verif.Plan

open Verif.Keys (VarDef)

/-- The work of a node among parallel ones. -/
def works (vars : Option (List (String × Value))) (n : Node) : List Work := (jobOf vars n).getD []

def Cand.node (c : Cand) : Node := .flatten c.path c.fetch

/-- The node is no flattened fetch, or one of a fetch with `P`. -/
def FlatOk (P : Fetch → Prop) : Node → Prop
  | .flatten _ f => P f
  | _ => True

/-! ## The candidates -/

theorem ofNode_ok (P : Fetch → Prop) (i : Nat) (n : Node) (c : Cand) (h : Cand.ofNode i n = some c)
    (hn : FlatOk P n) : c.index = i ∧ n = c.node ∧ CandOk P c := by
  cases n with
  | flatten p f =>
    unfold Cand.ofNode at h
    simp only at h
    cases hc : f.call with
    | none => rw [hc] at h; cases h
    | some x =>
      cases hr : f.requires with
      | none => rw [hc, hr] at h; cases h
      | some r =>
        rw [hc, hr] at h
        simp only [Option.some.injEq] at h
        subst h
        exact ⟨rfl, rfl, hn, hr, x, hc, rfl, rfl⟩
  | fetch f => cases h
  | batch f => cases h
  | seq f => cases h
  | par f => cases h
  | cond f => cases h
  | subscription f => cases h

theorem candsFrom_ok (P : Fetch → Prop) (ns : List Node) : ∀ i, (∀ n ∈ ns, FlatOk P n) →
    ((candsFrom i ns).map (·.index)).Nodup ∧
      ∀ c ∈ candsFrom i ns, (c.node, c.index) ∈ ns.zipIdx i ∧ CandOk P c ∧ i ≤ c.index := by
  induction ns with
  | nil => intro i _; simp [candsFrom]
  | cons n ns ih =>
    intro i h
    obtain ⟨h1, h2⟩ := ih (i + 1) fun m hm => h m (by simp [hm])
    rw [candsFrom]
    cases hc : Cand.ofNode i n with
    | none =>
      refine ⟨h1, fun c hcm => ?_⟩
      obtain ⟨h3, h4, h5⟩ := h2 c hcm
      exact ⟨by rw [List.zipIdx_cons]; exact List.mem_cons_of_mem _ h3, h4, by omega⟩
    | some c =>
      obtain ⟨hi, hn, hok⟩ := ofNode_ok P i n c hc (h n (by simp))
      refine ⟨?_, ?_⟩
      · simp only [List.map_cons, List.nodup_cons]
        refine ⟨?_, h1⟩
        intro hm
        obtain ⟨d, hd, hde⟩ := List.mem_map.1 hm
        have := (h2 d hd).2.2
        omega
      · intro d hd
        rcases List.mem_cons.1 hd with rfl | hd
        · rw [List.zipIdx_cons, hi, ← hn]
          exact ⟨by simp, hok, Nat.le_refl _⟩
        · obtain ⟨h3, h4, h5⟩ := h2 d hd
          exact ⟨by rw [List.zipIdx_cons]; exact List.mem_cons_of_mem _ h3, h4, by omega⟩

theorem services_nodup (cs : List Cand) : (services cs).Nodup := by
  induction cs with
  | nil => simp [services]
  | cons c cs ih =>
    rw [services, List.nodup_cons]
    exact ⟨by simp, ih.filter _⟩

theorem inj_of_index (cs : List Cand) (h : (cs.map (·.index)).Nodup) (a b : Cand) (ha : a ∈ cs)
    (hb : b ∈ cs) (he : a.index = b.index) : a = b := by
  induction cs with
  | nil => cases ha
  | cons c cs ih =>
    simp only [List.map_cons, List.nodup_cons] at h
    rcases List.mem_cons.1 ha with rfl | ha'
    · rcases List.mem_cons.1 hb with rfl | hb'
      · rfl
      · exact absurd (List.mem_map.2 ⟨b, hb', he.symm⟩) h.1
    · rcases List.mem_cons.1 hb with rfl | hb'
      · exact absurd (List.mem_map.2 ⟨a, ha', he⟩) h.1
      · exact ih h.2 ha' hb'

/-! ## The batches -/

theorem filterMap_flatMap_sublist {α β γ : Type} (l : List α) (f : α → Option β) (p : β → List γ)
    (q : α → List γ) (h : ∀ x y, f x = some y → p y = q x) :
    ((l.filterMap f).flatMap p).Sublist (l.flatMap q) := by
  induction l with
  | nil => exact .refl _
  | cons x l ih =>
    rw [List.filterMap_cons]
    cases hf : f x with
    | none =>
      simp only [List.flatMap_cons]
      exact ih.trans (List.sublist_append_right _ _)
    | some y =>
      simp only [List.flatMap_cons, h x y hf]
      exact List.Sublist.append (.refl _) ih

/-- The batch of a group of candidates of one service. -/
def batchOf (H : Hashers) (g : List Cand × List VarDef) : Option (Cand × List Cand × Batch) :=
  if g.1.length < 2 then none
  else
    match byShape H g.1 with
    | (first :: rest) :: groups =>
      some (first, g.1, buildBatch H first ((first :: rest) :: groups) g.2)
    | _ => none

/-- The batches of a service. -/
def batchesOf (H : Hashers) (cands : List Cand) (s : String) : List (Cand × List Cand × Batch) :=
  if (cands.filter (·.fetch.service = s)).length < 2 then []
  else (byVars (cands.filter (·.fetch.service = s))).filterMap (batchOf H)

theorem batches_eq (H : Hashers) (ns : List Node) :
    batches H ns = (services (candsFrom 0 ns)).flatMap (batchesOf H (candsFrom 0 ns)) := rfl

theorem batchOf_spec (H : Hashers) (g : List Cand × List VarDef) (b : Cand × List Cand × Batch)
    (h : batchOf H g = some b) : b.2.1 = g.1 ∧ b.1 ∈ g.1 ∧ 2 ≤ g.1.length ∧
      b.2.2 = buildBatch H b.1 (byShape H g.1) g.2 := by
  unfold batchOf at h
  split at h
  · cases h
  · rename_i hl
    split at h
    · rename_i first rest groups hs
      simp only [Option.some.injEq] at h
      subst h
      refine ⟨rfl, ?_, by omega, by rw [hs]⟩
      have := byShape_perm H g.1
      rw [hs] at this
      exact this.mem_iff.1 (by simp)
    · cases h

/-- What holds of the batches of a parallel node. -/
structure BatchesOk (ns : List Node) (bs : List (Cand × List Cand × Batch)) : Prop where
  index : ((bs.flatMap (·.2.1)).map (·.index)).Nodup
  mem : ∀ b ∈ bs, b.1 ∈ b.2.1
  cands : ∀ b ∈ bs, ∀ c ∈ b.2.1, (c.node, c.index) ∈ ns.zipIdx 0
  work : ∀ b ∈ bs, Collapse (b.2.1.map Cand.work) b.2.2.work

theorem batches_ok (H : Hashers) (P : Fetch → Prop) (hD : Distinct H P) (ns : List Node)
    (hP : ∀ n ∈ ns, FlatOk P n) : BatchesOk ns (batches H ns) := by
  obtain ⟨hidx, hc⟩ := candsFrom_ok P ns 0 hP
  generalize hcs : candsFrom 0 ns = cands at hidx hc
  have hb : batches H ns = (services cands).flatMap (batchesOf H cands) := by rw [batches_eq, hcs]
  have hsub : ∀ s b, b ∈ batchesOf H cands s → ∃ g, g ∈ byVars (cands.filter (·.fetch.service = s)) ∧
      batchOf H g = some b := by
    intro s b hbm
    unfold batchesOf at hbm
    split at hbm
    · cases hbm
    · exact List.mem_filterMap.1 hbm
  have hcand : ∀ s b, b ∈ batchesOf H cands s → ∀ c ∈ b.2.1, c ∈ cands ∧ c.fetch.service = s := by
    intro s b hbm c hcm
    obtain ⟨g, hg, hbo⟩ := hsub s b hbm
    rw [(batchOf_spec H g b hbo).1] at hcm
    have : c ∈ (byVars (cands.filter (·.fetch.service = s))).flatMap (·.1) :=
      List.mem_flatMap.2 ⟨g, hg, hcm⟩
    rw [(byVars_perm _).mem_iff, List.mem_filter] at this
    exact ⟨this.1, by simpa using this.2⟩
  have hper : ∀ s, (((batchesOf H cands s).flatMap (·.2.1)).map (·.index)).Nodup := by
    intro s
    unfold batchesOf
    split
    · simp
    · have h1 := filterMap_flatMap_sublist (byVars (cands.filter (·.fetch.service = s))) (batchOf H)
        (·.2.1) (·.1) (fun x y h => (batchOf_spec H x y h).1)
      have h2 := byVars_perm (cands.filter (·.fetch.service = s))
      have h3 : ((cands.filter (·.fetch.service = s)).map (·.index)).Nodup :=
        hidx.sublist (List.filter_sublist.map _)
      exact ((h2.map (·.index)).nodup_iff.2 h3).sublist (h1.map _)
  refine ⟨?_, ?_, ?_, ?_⟩
  · rw [hb]
    have : ((services cands).flatMap (batchesOf H cands)).flatMap (·.2.1) =
        (services cands).flatMap fun s => (batchesOf H cands s).flatMap (·.2.1) := by
      rw [List.flatMap_assoc]
    rw [this, List.map_flatMap]
    unfold List.Nodup
    rw [List.pairwise_flatMap]
    refine ⟨fun s _ => hper s, ?_⟩
    refine List.Pairwise.imp ?_ (services_nodup cands)
    intro s s' hss x hx y hy hxy
    obtain ⟨c, hcm, rfl⟩ := List.mem_map.1 hx
    obtain ⟨c', hcm', rfl⟩ := List.mem_map.1 hy
    obtain ⟨b, hb1, hb2⟩ := List.mem_flatMap.1 hcm
    obtain ⟨b', hb1', hb2'⟩ := List.mem_flatMap.1 hcm'
    obtain ⟨h1, h2⟩ := hcand s b hb1 c hb2
    obtain ⟨h1', h2'⟩ := hcand s' b' hb1' c' hb2'
    have := inj_of_index cands hidx c c' h1 h1' hxy
    subst this
    exact hss (h2.symm.trans h2')
  · intro b hbm
    rw [hb] at hbm
    obtain ⟨s, _, hbs⟩ := List.mem_flatMap.1 hbm
    obtain ⟨g, hg, hbo⟩ := hsub s b hbs
    obtain ⟨h1, h2, _⟩ := batchOf_spec H g b hbo
    rw [h1]; exact h2
  · intro b hbm c hcm
    rw [hb] at hbm
    obtain ⟨s, _, hbs⟩ := List.mem_flatMap.1 hbm
    exact (hc c (hcand s b hbs c hcm).1).1
  · intro b hbm
    rw [hb] at hbm
    obtain ⟨s, _, hbs⟩ := List.mem_flatMap.1 hbm
    obtain ⟨g, hg, hbo⟩ := hsub s b hbs
    obtain ⟨h1, h2, _, h4⟩ := batchOf_spec H g b hbo
    have hperm := byShape_perm H g.1
    rw [h4, h1]
    refine Collapse.perm_left ?_ (hperm.map Cand.work)
    refine buildBatch_work H P hD b.1 (byShape H g.1) g.2 ?_
    intro gr hgr
    refine ⟨byShape_ok H g.1 gr hgr, fun c hcg => ?_⟩
    have hcm : c ∈ g.1 := hperm.mem_iff.1 (List.mem_flatten.2 ⟨gr, hgr, hcg⟩)
    have hx := hcand s b hbs c (by rw [h1]; exact hcm)
    have hy := hcand s b hbs b.1 (by rw [h1]; exact h2)
    exact ⟨(hc c hx.1).2.1, hx.2.trans hy.2.symm⟩

/-! ## Replacing -/

/-- What is put in the place of a node. -/
def repl (bs : List (Cand × List Cand × Batch)) (x : Node × Nat) : List Node :=
  match bs.find? (fun b => b.1.index == x.2) with
  | some b => [.batch b.2.2]
  | none => if bs.any (fun b => b.2.1.any fun c => c.index == x.2) then [] else [x.1]

theorem replaceFrom_eq (bs : List (Cand × List Cand × Batch)) (ns : List Node) : ∀ i,
    replaceFrom bs i ns = (ns.zipIdx i).flatMap (repl bs) := by
  induction ns with
  | nil => intro i; rfl
  | cons n ns ih =>
    intro i
    rw [replaceFrom, List.zipIdx_cons, List.flatMap_cons, ih (i + 1)]
    unfold repl
    simp only
    cases bs.find? (fun b => b.1.index == i) with
    | some b => rfl
    | none =>
      simp only
      split <;> rfl

/-- The first candidate of a batch is found, others are not. -/
theorem find_first (bs : List (Cand × List Cand × Batch))
    (hidx : ((bs.flatMap (·.2.1)).map (·.index)).Nodup) (hmem : ∀ b ∈ bs, b.1 ∈ b.2.1)
    (b : Cand × List Cand × Batch) (hb : b ∈ bs) (c : Cand) (hc : c ∈ b.2.1) :
    bs.find? (fun b => b.1.index == c.index) = if b.1.index = c.index then some b else none := by
  induction bs with
  | nil => cases hb
  | cons x bs ih =>
    simp only [List.flatMap_cons, List.map_append] at hidx
    rw [List.nodup_append] at hidx
    obtain ⟨hx, hbs, hdis⟩ := hidx
    have hxm := hmem x (by simp)
    rcases List.mem_cons.1 hb with rfl | hb'
    · by_cases he : b.1.index = c.index
      · rw [if_pos he, List.find?_cons_of_pos (by simpa using he)]
      · rw [if_neg he, List.find?_cons_of_neg (by simpa using he), List.find?_eq_none]
        intro b' hb' he'
        simp only [beq_iff_eq] at he'
        refine hdis c.index (List.mem_map.2 ⟨c, hc, rfl⟩) b'.1.index ?_ he'.symm
        exact List.mem_map.2 ⟨b'.1, List.mem_flatMap.2 ⟨b', hb', hmem b' (by simp [hb'])⟩, rfl⟩
    · have hne : x.1.index ≠ c.index := by
        refine hdis x.1.index (List.mem_map.2 ⟨x.1, hxm, rfl⟩) c.index ?_
        exact List.mem_map.2 ⟨c, List.mem_flatMap.2 ⟨b, hb', hc⟩, rfl⟩
      rw [List.find?_cons_of_neg (by simpa using hne)]
      exact ih hbs (fun b hb => hmem b (by simp [hb])) hb'

theorem flatMap_one {γ : Type} (cs : List Cand) (h : (cs.map (·.index)).Nodup) (a : Cand) (ha : a ∈ cs)
    (w : List γ) : (cs.flatMap fun c => if a.index = c.index then w else []) = w := by
  induction cs with
  | nil => cases ha
  | cons c cs ih =>
    simp only [List.map_cons, List.nodup_cons] at h
    rw [List.flatMap_cons]
    rcases List.mem_cons.1 ha with rfl | ha'
    · rw [if_pos rfl]
      have : (cs.flatMap fun c => if a.index = c.index then w else []) = [] := by
        rw [List.flatMap_eq_nil_iff]
        intro c hc
        rw [if_neg]
        intro he
        exact h.1 (he ▸ List.mem_map.2 ⟨c, hc, rfl⟩)
      rw [this, List.append_nil]
    · rw [if_neg, List.nil_append]
      · exact ih h.2 ha'
      · intro he
        exact h.1 (he ▸ List.mem_map.2 ⟨a, ha', rfl⟩)

theorem zipIdx_fun {α : Type} (ns : List α) : ∀ i (x y : α × Nat), x ∈ ns.zipIdx i → y ∈ ns.zipIdx i →
    x.2 = y.2 → x = y := by
  intro i x y hx hy he
  obtain ⟨a, k⟩ := x
  obtain ⟨b, l⟩ := y
  simp only at he
  subst he
  rw [List.mem_zipIdx_iff_le_and_getElem?_sub] at hx hy
  simp only at hx hy
  rw [hx.2] at hy
  simp only [Option.some.injEq] at hy
  rw [hy.2]

theorem works_cand (P : Fetch → Prop) (vars : Option (List (String × Value))) (c : Cand) (h : CandOk P c) :
    works vars c.node = [c.work] := by
  simp [works, Cand.node, jobOf, work_of_cand P c h]

theorem optPar_collapse (H : Hashers) (P : Fetch → Prop) (hD : Distinct H P) (ns : List Node)
    (hP : ∀ n ∈ ns, FlatOk P n) (vars : Option (List (String × Value))) :
    Collapse (ns.flatMap (works vars)) ((optPar H ns).flatMap (works vars)) := by
  have hok := batches_ok H P hD ns hP
  have hcok : ∀ b ∈ batches H ns, ∀ c ∈ b.2.1, CandOk P c := by
    intro b hb c hc
    obtain ⟨_, hc'⟩ := candsFrom_ok P ns 0 hP
    rw [batches_eq] at hb
    obtain ⟨s, _, hbs⟩ := List.mem_flatMap.1 hb
    unfold batchesOf at hbs
    split at hbs
    · cases hbs
    · obtain ⟨g, hg, hbo⟩ := List.mem_filterMap.1 hbs
      rw [(batchOf_spec H g b hbo).1] at hc
      have : c ∈ (byVars ((candsFrom 0 ns).filter (·.fetch.service = s))).flatMap (·.1) :=
        List.mem_flatMap.2 ⟨g, hg, hc⟩
      rw [(byVars_perm _).mem_iff, List.mem_filter] at this
      exact (hc' c this.1).2.1
  revert hok hcok
  unfold optPar
  generalize batches H ns = bs
  intro hok hcok
  rw [replaceFrom_eq, List.flatMap_assoc]
  have hU : ns.flatMap (works vars) = (ns.zipIdx 0).flatMap fun x => works vars x.1 := by
    have : ns = (ns.zipIdx 0).map (·.1) := by simp
    conv => lhs; rw [this]
    rw [List.flatMap_map]
  rw [hU]
  let inI : Node × Nat → Bool := fun x => bs.any (fun b => b.2.1.any fun c => c.index == x.2)
  have hin : ∀ x, inI x = true ↔ ∃ b ∈ bs, ∃ c ∈ b.2.1, c.index = x.2 := by
    intro x
    simp only [inI, List.any_eq_true, beq_iff_eq]
  have hsplit : (ns.zipIdx 0).Perm
      ((ns.zipIdx 0).filter (fun x => !inI x) ++ (ns.zipIdx 0).filter inI) := by
    have := List.filter_append_perm inI (ns.zipIdx 0)
    exact (List.perm_append_comm.trans this).symm
  have hC : ((ns.zipIdx 0).filter inI).Perm ((bs.flatMap (·.2.1)).map fun c => (c.node, c.index)) := by
    rw [List.perm_ext_iff_of_nodup]
    · rintro x
      rw [List.mem_filter, hin, List.mem_map]
      constructor
      · rintro ⟨hx, b, hb, c, hc, he⟩
        refine ⟨c, List.mem_flatMap.2 ⟨b, hb, hc⟩, ?_⟩
        exact zipIdx_fun ns 0 _ _ (hok.cands b hb c hc) hx he
      · rintro ⟨c, hc, rfl⟩
        obtain ⟨b, hb, hc⟩ := List.mem_flatMap.1 hc
        exact ⟨hok.cands b hb c hc, b, hb, c, hc, rfl⟩
    · refine List.Pairwise.filter _ ?_
      have h1 : ((ns.zipIdx 0).map (·.2)).Nodup := by
        rw [List.zipIdx_map_snd]
        exact List.nodup_range'
      unfold List.Nodup at h1
      rw [List.pairwise_map] at h1
      exact h1.imp fun h he => h (congrArg Prod.snd he)
    · have h1 := hok.index
      unfold List.Nodup at h1 ⊢
      rw [List.pairwise_map] at h1 ⊢
      exact h1.imp fun h he => h (congrArg Prod.snd he)
  -- both sides along the split
  refine Collapse.perm_left ?_ (List.Perm.flatMap_right _ hsplit).symm
  refine Collapse.perm_right ?_ (List.Perm.flatMap_right _ hsplit)
  rw [List.flatMap_append, List.flatMap_append]
  refine Collapse.append ?_ ?_
  · apply Collapse.of_perm
    have : ∀ x ∈ (ns.zipIdx 0).filter (fun x => !inI x),
        (repl bs x).flatMap (works vars) = works vars x.1 := by
      intro x hx
      rw [List.mem_filter] at hx
      have hno : inI x = false := by simpa using hx.2
      have hf : bs.find? (fun b => b.1.index == x.2) = none := by
        rw [List.find?_eq_none]
        intro b hb he
        have : inI x = true := (hin x).2 ⟨b, hb, b.1, hok.mem b hb, by simpa using he⟩
        rw [hno] at this
        cases this
      unfold repl
      rw [hf]
      simp only
      rw [if_neg (by rw [show (bs.any fun b => b.2.1.any fun c => c.index == x.2) = inI x from rfl, hno]; simp)]
      simp
    rw [List.flatMap, List.flatMap, List.map_congr_left this]
  · refine Collapse.perm_left ?_ (List.Perm.flatMap_right _ hC).symm
    refine Collapse.perm_right ?_ (List.Perm.flatMap_right _ hC)
    rw [List.flatMap_map, List.flatMap_map, List.flatMap_assoc, List.flatMap_assoc]
    refine Collapse.flatMap _ _ _ fun b hb => ?_
    have h1 : (b.2.1.flatMap fun c => works vars c.node) = b.2.1.map Cand.work := by
      have : ∀ c ∈ b.2.1, works vars c.node = [c.work] := fun c hc => works_cand P vars c (hcok b hb c hc)
      rw [List.flatMap, List.map_congr_left this]
      rw [← List.flatMap_def, ← List.map_eq_flatMap]
    have h2 : (b.2.1.flatMap fun c => (repl bs (c.node, c.index)).flatMap (works vars)) = b.2.2.work := by
      have : ∀ c ∈ b.2.1, (repl bs (c.node, c.index)).flatMap (works vars) =
          if b.1.index = c.index then b.2.2.work else [] := by
        intro c hc
        unfold repl
        rw [find_first bs hok.index hok.mem b hb c hc]
        by_cases he : b.1.index = c.index
        · rw [if_pos he, if_pos he]
          simp [works, jobOf]
        · rw [if_neg he, if_neg he]
          simp only
          rw [if_pos ((hin (c.node, c.index)).2 ⟨b, hb, c, hc, rfl⟩)]
          rfl
      rw [List.flatMap, List.map_congr_left this, ← List.flatMap_def]
      refine flatMap_one b.2.1 ?_ b.1 (hok.mem b hb) _
      have h3 := hok.index
      rw [List.map_flatMap] at h3
      unfold List.Nodup at h3
      rw [List.pairwise_flatMap] at h3
      exact h3.1 b hb
    rw [h1, h2]
    exact hok.work b hb

/-! ## Batches -/

/-- Where a batch comes from. -/
theorem batches_source (H : Hashers) (P : Fetch → Prop) (ns : List Node) (hP : ∀ n ∈ ns, FlatOk P n)
    (b : Cand × List Cand × Batch) (hb : b ∈ batches H ns) :
    ∃ g s, g ∈ byVars ((candsFrom 0 ns).filter (·.fetch.service = s)) ∧ b.2.1 = g.1 ∧
      b.2.2 = buildBatch H b.1 (byShape H g.1) g.2 ∧ b.1 ∈ g.1 ∧
      ∀ c ∈ g.1, CandOk P c ∧ c.fetch.service = s ∧ c.node ∈ ns := by
  obtain ⟨_, hc'⟩ := candsFrom_ok P ns 0 hP
  rw [batches_eq] at hb
  obtain ⟨s, _, hbs⟩ := List.mem_flatMap.1 hb
  unfold batchesOf at hbs
  split at hbs
  · cases hbs
  · obtain ⟨g, hg, hbo⟩ := List.mem_filterMap.1 hbs
    obtain ⟨h1, h2, _, h4⟩ := batchOf_spec H g b hbo
    refine ⟨g, s, hg, h1, h4, h2, fun c hc => ?_⟩
    have : c ∈ (byVars ((candsFrom 0 ns).filter (·.fetch.service = s))).flatMap (·.1) :=
      List.mem_flatMap.2 ⟨g, hg, hc⟩
    rw [(byVars_perm _).mem_iff, List.mem_filter] at this
    obtain ⟨h5, h6, _⟩ := hc' c this.1
    exact ⟨h6, by simpa using this.2, List.fst_mem_of_mem_zipIdx h5⟩

theorem byShape_cands (H : Hashers) (P : Fetch → Prop) (cs : List Cand) (h : ∀ c ∈ cs, CandOk P c) :
    ∀ g ∈ byShape H cs, GroupOk H g ∧ ∀ c ∈ g, CandOk P c := by
  intro g hg
  refine ⟨byShape_ok H cs g hg, fun c hc => h c ?_⟩
  exact (byShape_perm H cs).mem_iff.1 (List.mem_flatten.2 ⟨g, hg, hc⟩)

theorem batch_mem_optPar (H : Hashers) (P : Fetch → Prop) (hD : Distinct H P) (ns : List Node)
    (hP : ∀ n ∈ ns, FlatOk P n) (b : Cand × List Cand × Batch) (hb : b ∈ batches H ns) :
    Node.batch b.2.2 ∈ optPar H ns := by
  have hok := batches_ok H P hD ns hP
  unfold optPar
  rw [replaceFrom_eq, List.mem_flatMap]
  refine ⟨(b.1.node, b.1.index), hok.cands b hb b.1 (hok.mem b hb), ?_⟩
  unfold repl
  rw [find_first _ hok.index hok.mem b hb b.1 (hok.mem b hb), if_pos rfl]
  simp

/-- The variables of the fetches have distinct names. -/
def VarNames (P : Fetch → Prop) : Prop := ∀ f, P f → (f.vars.map (·.name)).Nodup

theorem cand_vars (P : Fetch → Prop) (hV : VarNames P) (c : Cand) (hc : CandOk P c) :
    (c.vars.map (·.name)).Nodup := by
  obtain ⟨x, _, _, h⟩ := hc.call
  rw [h]
  exact (hV c.fetch hc.fetch).sublist (List.filter_sublist.map _)

theorem optPar_batch (H : Hashers) (P : Fetch → Prop) (hD : Distinct H P) (hV : VarNames P)
    (ns : List Node) (hP : ∀ n ∈ ns, FlatOk P n) (b : Batch) (hb : Node.batch b ∈ optPar H ns)
    (hn : Node.batch b ∉ ns) :
    (b.vars.map (·.name)).Nodup ∧ (b.aliases.map (·.alias)).Nodup ∧
      b.fields.map (fun f => (f.alias, f.repVar)) = b.aliases.map (fun a => (a.alias, a.repVar)) ∧
      ∀ a ∈ b.aliases, ⟨a.repVar, anyType, none⟩ ∈ b.vars := by
  unfold optPar at hb
  rw [replaceFrom_eq, List.mem_flatMap] at hb
  obtain ⟨x, hx, hb⟩ := hb
  unfold repl at hb
  split at hb
  · rename_i e he
    simp only [List.mem_singleton, Node.batch.injEq] at hb
    subst hb
    have hem := List.mem_of_find?_eq_some he
    obtain ⟨g, s, h1, h2, h3, h4, h5⟩ := batches_source H P ns hP e hem
    have hgs := byShape_cands H P g.1 fun c hc => (h5 c hc).1
    have hvars := byVars_ok _ (fun c hc => by
      rw [List.mem_filter] at hc
      exact cand_vars P hV c ((candsFrom_ok P ns 0 hP).2 c hc.1).2.1) g h1
    obtain ⟨v1, v2, v3, v4⟩ := buildBatch_vars H P hD e.1 (byShape H g.1) g.2 hgs hvars.1
    rw [h3]
    obtain ⟨D, d1, d2, d3, d4⟩ := addGroups_ok H P hD (g.2.map (·.name)) (byShape H g.1) _ 0 []
      (builder_init P (g.2.map (·.name))) (by
        intro gr hgr
        refine ⟨?_, (hgs gr hgr).2⟩
        intro hee
        subst hee
        exact (hgs [] hgr).1)
    rw [List.nil_append] at d1
    refine ⟨v1, ?_, ?_, fun a ha => (v3 a ha).1⟩
    · change ((addGroups H 0 _ (byShape H g.1)).aliases.map (·.alias)).Nodup
      rw [d1.aliases, List.map_map]
      have : (D.map ((·.alias) ∘ (·.1))) = D.map (·.1.alias) := rfl
      rw [this, d1.names]
      exact range_names_nodup _
    · change (addGroups H 0 _ (byShape H g.1)).fields.map _ = (addGroups H 0 _ (byShape H g.1)).aliases.map _
      rw [d1.aliases, d1.fields, List.map_map, List.map_map]
      apply List.map_congr_left
      intro d hd
      obtain ⟨s1, s2⟩ := d1.same d hd
      simp [s1, s2]
  · split at hb
    · cases hb
    · simp only [List.mem_singleton] at hb
      exact absurd (hb ▸ List.fst_mem_of_mem_zipIdx hx) hn

theorem optPar_kept (H : Hashers) (P : Fetch → Prop) (hD : Distinct H P) (hV : VarNames P)
    (ns : List Node) (hP : ∀ n ∈ ns, FlatOk P n) (p : Path) (f : Fetch) (c : Call) (r : List Sel)
    (hn : Node.flatten p f ∈ ns) (hc : f.call = some c) (hr : f.requires = some r) :
    Node.flatten p f ∈ optPar H ns ∨
      ∃ b, Node.batch b ∈ optPar H ns ∧ b.service = f.service ∧
        (∃ a ∈ b.aliases, ∃ fl ∈ b.fields, a.alias = fl.alias ∧ a.repVar = fl.repVar ∧ p ∈ a.paths ∧
          a.requires = r ∧ a.inputRw = f.inputRw ∧ a.outputRw = f.outputRw ∧ fl.sels = c.sels) ∧
        (∀ v ∈ f.vars, v.name ≠ c.repVar → v ∈ b.vars) ∧
        ∀ u ∈ f.usages.getD [], u ∈ b.usages := by
  obtain ⟨x, hx, hxn⟩ : ∃ x ∈ ns.zipIdx 0, x.1 = Node.flatten p f := by
    have : ns = (ns.zipIdx 0).map (·.1) := by simp
    rw [this] at hn
    obtain ⟨x, h1, h2⟩ := List.mem_map.1 hn
    exact ⟨x, h1, h2⟩
  have hok := batches_ok H P hD ns hP
  by_cases hin : ∃ b ∈ batches H ns, ∃ d ∈ b.2.1, d.index = x.2
  · obtain ⟨b, hb, d, hd, hdx⟩ := hin
    have hdn : (d.node, d.index) = x := zipIdx_fun ns 0 _ _ (hok.cands b hb d hd) hx hdx
    have hdf : Node.flatten d.path d.fetch = Node.flatten p f := by
      rw [← hxn, ← hdn]; rfl
    simp only [Node.flatten.injEq] at hdf
    obtain ⟨rfl, rfl⟩ := hdf
    right
    obtain ⟨g, s, h1, h2, h3, h4, h5⟩ := batches_source H P ns hP b hb
    have hgs := byShape_cands H P g.1 fun c hc => (h5 c hc).1
    have hvars := byVars_ok _ (fun c hc => by
      rw [List.mem_filter] at hc
      exact cand_vars P hV c ((candsFrom_ok P ns 0 hP).2 c hc.1).2.1) g h1
    obtain ⟨v1, v2, v3, v4⟩ := buildBatch_vars H P hD b.1 (byShape H g.1) g.2 hgs hvars.1
    rw [h2] at hd
    have hdok := (h5 d hd).1
    have hdfl : d ∈ (byShape H g.1).flatten := (byShape_perm H g.1).mem_iff.2 hd
    obtain ⟨a, ha, fl, hfl, e1, e2, e3, e4, e5, e6, e7⟩ :=
      buildBatch_alias H P hD b.1 (byShape H g.1) g.2 hgs d hdfl
    obtain ⟨y, y1, y2, y3⟩ := hdok.call
    rw [hc] at y1
    simp only [Option.some.injEq] at y1
    subst y1
    have hdr := hdok.requires
    rw [hr] at hdr
    simp only [Option.some.injEq] at hdr
    refine ⟨b.2.2, batch_mem_optPar H P hD ns hP b hb, ?_, ?_, ?_, ?_⟩
    · rw [h3]
      exact (h5 b.1 h4).2.1.trans (h5 d hd).2.1.symm
    · rw [h3]
      exact ⟨a, ha, fl, hfl, e1, e2, e3, e4.trans hdr.symm, e5, e6, e7.trans y2.symm⟩
    · intro v hv hvn
      rw [h3]
      refine v2 v (hvars.2 d hd v ?_)
      rw [y3, List.mem_filter]
      exact ⟨hv, by simpa using hvn⟩
    · intro u hu
      rw [h3, v4]
      exact List.mem_flatMap.2 ⟨d, hdfl, hu⟩
  · left
    unfold optPar
    rw [replaceFrom_eq, List.mem_flatMap]
    refine ⟨x, hx, ?_⟩
    unfold repl
    have hf : (batches H ns).find? (fun b => b.1.index == x.2) = none := by
      rw [List.find?_eq_none]
      intro b hb he
      exact hin ⟨b, hb, b.1, hok.mem b hb, by simpa using he⟩
    rw [hf]
    simp only
    rw [if_neg]
    · simp [hxn]
    · intro hany
      rw [List.any_eq_true] at hany
      obtain ⟨b, hb, hany⟩ := hany
      rw [List.any_eq_true] at hany
      obtain ⟨d, hd, he⟩ := hany
      exact hin ⟨b, hb, d, hd, by simpa using he⟩

end Verif.Plan
