import Verif.Valid.OverlapSpec
import Mathlib.Data.List.Nodup
import Mathlib.Data.List.Perm.Subperm

/-!
# What the comparison of values, arguments and types answers
-/

namespace Verif.Valid

/-! ## Equal keys -/

theorem value_unique {fs : List (Name × Val)} (h : (fs.map (·.1)).Nodup) {p q : Name × Val}
    (hp : p ∈ fs) (hq : q ∈ fs) (e : p.1 = q.1) : p = q :=
  List.inj_on_of_nodup_map h hp hq e

/-- If all the keys of the first are keys of the second, and these are as many, then also the other
way around. -/
theorem keys_perm {as bs : List (Name × Val)} (h : (as.map (·.1)).Nodup) (hl : as.length = bs.length)
    (hs : ∀ p ∈ as, ∃ v, (p.1, v) ∈ bs) : (as.map (·.1)).Perm (bs.map (·.1)) := by
  have hsub : as.map (·.1) ⊆ bs.map (·.1) := by
    intro k hk
    obtain ⟨p, hp, rfl⟩ := List.mem_map.1 hk
    obtain ⟨v, hv⟩ := hs p hp
    exact List.mem_map.2 ⟨_, hv, rfl⟩
  exact (List.subperm_of_subset h hsub).perm_of_length_le (by simp [hl])

/-- The relation on the fields of objects, turned around. -/
theorem fields_symm {R : Val → Val → Prop} {as bs : List (Name × Val)} (h : (as.map (·.1)).Nodup)
    (hl : as.length = bs.length) (hs : ∀ p ∈ as, ∃ v, (p.1, v) ∈ bs ∧ R p.2 v) :
    (bs.map (·.1)).Nodup ∧ ∀ q ∈ bs, ∃ v, (q.1, v) ∈ as ∧ R v q.2 := by
  have hp := keys_perm h hl (fun p hp => let ⟨v, hv, _⟩ := hs p hp; ⟨v, hv⟩)
  have hb : (bs.map (·.1)).Nodup := hp.nodup_iff.1 h
  refine ⟨hb, fun q hq => ?_⟩
  obtain ⟨p, hpa, he⟩ := List.mem_map.1 (hp.mem_iff.2 (List.mem_map.2 ⟨q, hq, rfl⟩))
  obtain ⟨v, hv, hr⟩ := hs p hpa
  have : (p.1, v) = q := value_unique hb hv hq he
  refine ⟨p.2, ?_, ?_⟩
  · rw [← he]; exact hpa
  · rw [← this]; exact hr

theorem mem_zip_swap {α β : Type} {as : List α} {bs : List β} {p : β × α} (h : p ∈ bs.zip as) :
    (p.2, p.1) ∈ as.zip bs := by
  induction as generalizing bs with
  | nil => simp at h
  | cons a as ih =>
    cases bs with
    | nil => simp at h
    | cons b bs =>
      simp only [List.zip_cons_cons, List.mem_cons] at h ⊢
      rcases h with rfl | h
      · exact .inl rfl
      · exact .inr (ih h)

theorem SameVal.symm {a b : Val} (h : SameVal a b) : SameVal b a := by
  match a, b, h with
  | _, _, .refl v => exact .refl v
  | _, _, .list hl hs =>
    exact .list hl.symm (fun p hp => (hs _ (mem_zip_swap hp)).symm)
  | _, _, @SameVal.obj as bs hn hl he hs =>
    have hs' : ∀ p ∈ as, ∀ v, (p.1, v) ∈ bs → SameVal v p.2 := fun p hp v hv => (hs p hp v hv).symm
    obtain ⟨h1, h2⟩ := fields_symm (R := fun x y => SameVal y x) hn hl
      (fun p hp => let ⟨v, hv⟩ := he p hp; ⟨v, hv, hs' p hp v hv⟩)
    refine .obj h1 hl.symm (fun q hq => let ⟨v, hv, _⟩ := h2 q hq; ⟨v, hv⟩) (fun q hq v hv => ?_)
    obtain ⟨w, hw, hr⟩ := h2 q hq
    have : (q.1, w) = (q.1, v) := value_unique hn hw hv rfl
    cases this
    exact hr
termination_by structural h

theorem SameArgs.symm {as bs : Args} (h : SameArgs as bs) : SameArgs bs as := by
  obtain ⟨hn, hl, hs⟩ := h
  obtain ⟨h1, h2⟩ := fields_symm (R := SameVal) hn hl hs
  exact ⟨h1, hl.symm, fun q hq => let ⟨v, hv, hr⟩ := h2 q hq; ⟨v, hv, hr.symm⟩⟩

/-! ## Values -/

theorem takeFirst_head {α : Type} {p : α → Bool} {x : α} {xs : List α} (h : p x = true) :
    takeFirst p (x :: xs) = some xs := by simp [takeFirst, h]

mutual
theorem cmpVal_refl : ∀ v : Val, cmpVal v v = true
  | .null => rfl
  | .bool b => by simp [cmpVal]
  | .int i => by simp [cmpVal]
  | .float t => by simp [cmpVal]
  | .str t => by simp [cmpVal]
  | .enum n => by simp [cmpVal]
  | .var n => by simp [cmpVal]
  | .list vs => by simp [cmpVal, cmpZip_refl vs]
  | .obj fs => by simp [cmpVal, cmpObj_refl fs]
theorem cmpZip_refl : ∀ vs : List Val, cmpZip vs vs = true
  | [] => rfl
  | v :: vs => by simp [cmpZip, cmpVal_refl v, cmpZip_refl vs]
theorem cmpObj_refl : ∀ fs : List (Name × Val), cmpObj fs fs = true
  | [] => by simp [cmpObj]
  | p :: ps => by simp [cmpObj, cmpPair_refl p ps, cmpObj_refl ps]
theorem cmpPair_refl : ∀ (p : Name × Val) (ps : List (Name × Val)), cmpPair p (p :: ps) = some ps
  | (k, v), ps => by
    rw [cmpPair]
    exact takeFirst_head (by simp [cmpVal_refl v])
end

theorem takeFirst_mem {α : Type} {p : α → Bool} {l rest : List α} (h : takeFirst p l = some rest) :
    ∃ x ∈ l, p x = true ∧ l.Perm (x :: rest) := by
  induction l generalizing rest with
  | nil => simp [takeFirst] at h
  | cons y ys ih =>
    simp only [takeFirst] at h
    split at h
    · cases h
      exact ⟨y, List.mem_cons_self, by assumption, .refl _⟩
    · obtain ⟨r, hr, rfl⟩ := Option.map_eq_some_iff.1 h
      obtain ⟨x, hx, hp, hq⟩ := ih hr
      exact ⟨x, List.mem_cons_of_mem _ hx, hp, (hq.cons y).trans (.swap x y r)⟩

theorem takeFirst_some {α : Type} {p : α → Bool} {l : List α} {x : α} (hx : x ∈ l) (h : p x = true) :
    ∃ rest, takeFirst p l = some rest := by
  induction l with
  | nil => simp at hx
  | cons y ys ih =>
    simp only [takeFirst]
    split
    · exact ⟨_, rfl⟩
    · rcases List.mem_cons.1 hx with rfl | hx
      · contradiction
      · obtain ⟨r, hr⟩ := ih hx
        exact ⟨y :: r, by simp [hr]⟩

mutual
/-- Values that are the same are found to be. -/
theorem cmpVal_of_same : ∀ (a b : Val), SameVal a b → cmpVal a b = true
  | .list as, b, h => by
    cases h with
    | refl => exact cmpVal_refl _
    | list hl hs => exact cmpZip_of_same as _ hs
  | .obj as, b, h => by
    cases h with
    | refl => exact cmpVal_refl _
    | obj hn hl he hs => simp [cmpVal, hl, cmpObj_of_same as _ hn he hs]
  | .null, b, h => by cases h; rfl
  | .bool _, b, h => by cases h; exact cmpVal_refl _
  | .int _, b, h => by cases h; exact cmpVal_refl _
  | .float _, b, h => by cases h; exact cmpVal_refl _
  | .str _, b, h => by cases h; exact cmpVal_refl _
  | .enum _, b, h => by cases h; exact cmpVal_refl _
  | .var _, b, h => by cases h; exact cmpVal_refl _
theorem cmpZip_of_same : ∀ (as bs : List Val), (∀ p ∈ as.zip bs, SameVal p.1 p.2) → cmpZip as bs = true
  | [], bs, _ => by simp [cmpZip]
  | a :: as, [], _ => by simp [cmpZip]
  | a :: as, b :: bs, h => by
    simp only [cmpZip, Bool.and_eq_true]
    exact ⟨cmpVal_of_same a b (h (a, b) (by simp)),
      cmpZip_of_same as bs (fun p hp => h p (by simp [hp]))⟩
theorem cmpObj_of_same : ∀ (as bs : List (Name × Val)), (as.map (·.1)).Nodup →
    (∀ p ∈ as, ∃ v, (p.1, v) ∈ bs) → (∀ p ∈ as, ∀ v, (p.1, v) ∈ bs → SameVal p.2 v) → cmpObj as bs = true
  | [], _, _, _, _ => by simp [cmpObj]
  | p :: ps, bs, hn, he, hs => by
    rw [List.map_cons, List.nodup_cons] at hn
    obtain ⟨rest, hr, x, hx, hk, hp⟩ := cmpPair_of_same p bs (he p List.mem_cons_self)
      (hs p List.mem_cons_self)
    simp only [cmpObj, hr]
    refine cmpObj_of_same ps rest hn.2 (fun q hq => ?_) (fun q hq v hv =>
      hs q (List.mem_cons_of_mem _ hq) v (hp.mem_iff.2 (List.mem_cons_of_mem _ hv)))
    obtain ⟨v, hv⟩ := he q (List.mem_cons_of_mem _ hq)
    rcases List.mem_cons.1 (hp.mem_iff.1 hv) with e | h
    · exact absurd (List.mem_map.2 ⟨q, hq, by rw [hk, ← e]⟩) hn.1
    · exact ⟨v, h⟩
theorem cmpPair_of_same : ∀ (p : Name × Val) (bs : List (Name × Val)), (∃ v, (p.1, v) ∈ bs) →
    (∀ v, (p.1, v) ∈ bs → SameVal p.2 v) →
    ∃ rest, cmpPair p bs = some rest ∧ ∃ x ∈ bs, p.1 = x.1 ∧ bs.Perm (x :: rest)
  | (k, v), bs, he, hs => by
    obtain ⟨w, hw⟩ := he
    obtain ⟨rest, hr⟩ := takeFirst_some (p := fun q => k == q.1 && cmpVal v q.2) hw
      (by simp [cmpVal_of_same v w (hs w hw)])
    obtain ⟨x, hx, hp, hq⟩ := takeFirst_mem hr
    simp only [Bool.and_eq_true, beq_iff_eq] at hp
    exact ⟨rest, by rw [cmpPair]; exact hr, x, hx, hp.1, hq⟩
end

mutual
/-- Values without lists that are found to be the same are. -/
theorem same_of_cmpVal : ∀ (a b : Val), PlainVal a → PlainVal b → cmpVal a b = true → SameVal a b
  | .list as, b, h, _, _ => nomatch h
  | .obj as, b, ha, hb, h => by
    cases b with
    | obj bs =>
      simp only [cmpVal, Bool.and_eq_true, beq_iff_eq] at h
      cases ha with
      | obj hn hv =>
        cases hb with
        | obj hm hw =>
          obtain h1 := same_of_cmpObj as bs hv hw h.2
          refine .obj hn h.1 (fun p hp => let ⟨v, hv, _⟩ := h1 p hp; ⟨v, hv⟩) (fun p hp v hv' => ?_)
          obtain ⟨w, hw', hs⟩ := h1 p hp
          have e := value_unique hm hw' hv' rfl
          simp only [Prod.mk.injEq, true_and] at e
          rw [← e]
          exact hs
    | _ => simp [cmpVal] at h
  | .null, b, _, _, h => by cases b <;> simp [cmpVal] at h; exact .refl _
  | .bool _, b, _, _, h => by cases b <;> simp [cmpVal] at h; subst h; exact .refl _
  | .int _, b, _, _, h => by cases b <;> simp [cmpVal] at h; subst h; exact .refl _
  | .float _, b, _, _, h => by cases b <;> simp [cmpVal] at h; subst h; exact .refl _
  | .str _, b, _, _, h => by cases b <;> simp [cmpVal] at h; subst h; exact .refl _
  | .enum _, b, _, _, h => by cases b <;> simp [cmpVal] at h; subst h; exact .refl _
  | .var _, b, _, _, h => by cases b <;> simp [cmpVal] at h; subst h; exact .refl _
theorem same_of_cmpObj : ∀ (as bs : List (Name × Val)), (∀ p ∈ as, PlainVal p.2) →
    (∀ p ∈ bs, PlainVal p.2) → cmpObj as bs = true → ∀ p ∈ as, ∃ v, (p.1, v) ∈ bs ∧ SameVal p.2 v
  | [], _, _, _, _, p, hp => by simp at hp
  | p :: ps, bs, ha, hb, h, q, hq => by
    simp only [cmpObj] at h
    split at h
    · rename_i rest hr
      obtain ⟨h1, h2⟩ := same_of_cmpPair p bs rest (ha p List.mem_cons_self) hb hr
      rcases List.mem_cons.1 hq with rfl | hq
      · exact h1
      · obtain ⟨v, hv, hs⟩ := same_of_cmpObj ps rest (fun p hp => ha p (List.mem_cons_of_mem _ hp))
          (fun p hp => hb p (h2 p hp)) h q hq
        exact ⟨v, h2 _ hv, hs⟩
    · simp at h
theorem same_of_cmpPair : ∀ (p : Name × Val) (bs rest : List (Name × Val)), PlainVal p.2 →
    (∀ p ∈ bs, PlainVal p.2) → cmpPair p bs = some rest →
    (∃ v, (p.1, v) ∈ bs ∧ SameVal p.2 v) ∧ ∀ q ∈ rest, q ∈ bs
  | (k, v), bs, rest, ha, hb, h => by
    rw [cmpPair] at h
    obtain ⟨x, hx, hp, hq⟩ := takeFirst_mem h
    simp only [Bool.and_eq_true, beq_iff_eq] at hp
    refine ⟨⟨x.2, ?_, same_of_cmpVal v x.2 ha (hb x hx) hp.2⟩, fun q h =>
      hq.mem_iff.2 (List.mem_cons_of_mem _ h)⟩
    have e : (k, x.2) = x := by rw [hp.1]
    rw [e]; exact hx
end

/-! ## Arguments -/

theorem sameArgs_of_same {as bs : Args} (h : SameArgs as bs) : sameArgs as bs = true := by
  obtain ⟨hn, hl, hs⟩ := h
  have hb := (fields_symm (R := SameVal) hn hl hs).1
  simp only [sameArgs, Bool.and_eq_true, beq_iff_eq, List.all_eq_true]
  refine ⟨hl, fun p hp => ?_⟩
  obtain ⟨v, hv, hr⟩ := hs p hp
  cases hf : bs.find? (fun q => p.1 == q.1) with
  | none =>
    have := List.find?_eq_none.1 hf _ hv
    simp at this
  | some q =>
    have h1 : p.1 = q.1 := by simpa using List.find?_some hf
    have : (p.1, v) = q := value_unique hb hv (List.mem_of_find?_eq_some hf) h1
    subst this
    exact cmpVal_of_same _ _ hr

theorem same_of_sameArgs {as bs : Args} (ha : PlainArgs as) (hb : PlainArgs bs)
    (h : sameArgs as bs = true) : SameArgs as bs := by
  simp only [sameArgs, Bool.and_eq_true, beq_iff_eq, List.all_eq_true] at h
  refine ⟨ha.1, h.1, fun p hp => ?_⟩
  have := h.2 p hp
  split at this
  · rename_i q hf
    have h1 : p.1 = q.1 := by simpa using List.find?_some hf
    have hq := List.mem_of_find?_eq_some hf
    refine ⟨q.2, by rw [h1]; exact hq, same_of_cmpVal _ _ (ha.2 p hp) (hb.2 q hq) this⟩
  · simp at this

/-! ## Types -/

theorem leafName_iff (s : Schema) (n : Name) :
    leafName s n = true ↔ ∃ t, s.typeByName n = some t ∧ Leaf t := by
  unfold leafName Leaf
  cases h : s.typeByName n with
  | none => simp
  | some t => cases t <;> simp

theorem typeConflict_iff (s : Schema) (t u : Ty) : typeConflict s t u = false ↔ SameShape s t u := by
  induction t generalizing u with
  | named a =>
    cases u with
    | named b =>
      have h : SameShape s (.named a) (.named b) ↔
          ((∃ t, (s.typeByName a = some t ∨ s.typeByName b = some t) ∧ Leaf t) → a = b) :=
        ⟨fun h => by cases h; assumption, .named⟩
      rw [h]
      simp only [typeConflict, Bool.and_eq_false_iff, bne_eq_false_iff_eq]
      constructor
      · rintro (h1 | h1) ⟨t, ht, hl⟩
        · rw [Bool.or_eq_false_iff] at h1
          rcases ht with ht | ht
          · have := (leafName_iff s a).2 ⟨t, ht, hl⟩
            simp [this] at h1
          · have := (leafName_iff s b).2 ⟨t, ht, hl⟩
            simp [this] at h1
        · exact h1
      · intro h1
        by_cases e : a = b
        · exact .inr e
        · refine .inl ?_
          rw [Bool.or_eq_false_iff]
          refine ⟨Bool.eq_false_iff.2 fun hh => ?_, Bool.eq_false_iff.2 fun hh => ?_⟩
          · obtain ⟨t, ht, hl⟩ := (leafName_iff s a).1 hh
            exact e (h1 ⟨t, .inl ht, hl⟩)
          · obtain ⟨t, ht, hl⟩ := (leafName_iff s b).1 hh
            exact e (h1 ⟨t, .inr ht, hl⟩)
    | list u => exact ⟨by simp [typeConflict], (nomatch ·)⟩
    | nonNull u => exact ⟨by simp [typeConflict], (nomatch ·)⟩
  | list t ih =>
    cases u with
    | list u => exact (ih u).trans ⟨.list, fun h => by cases h; assumption⟩
    | named b => exact ⟨by simp [typeConflict], (nomatch ·)⟩
    | nonNull u => exact ⟨by simp [typeConflict], (nomatch ·)⟩
  | nonNull t ih =>
    cases u with
    | nonNull u => exact (ih u).trans ⟨.nonNull, fun h => by cases h; assumption⟩
    | named b => exact ⟨by simp [typeConflict], (nomatch ·)⟩
    | list u => exact ⟨by simp [typeConflict], (nomatch ·)⟩

theorem SameShape.refl (s : Schema) (t : Ty) : SameShape s t t := by
  induction t with
  | named a => exact .named fun _ => rfl
  | list t ih => exact .list ih
  | nonNull t ih => exact .nonNull ih

theorem SameShape.symm {s : Schema} {t u : Ty} (h : SameShape s t u) : SameShape s u t := by
  induction h with
  | list _ ih => exact .list ih
  | nonNull _ ih => exact .nonNull ih
  | named h => exact .named fun ⟨t, ht, hl⟩ => (h ⟨t, ht.symm, hl⟩).symm

end Verif.Valid
