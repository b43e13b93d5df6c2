import Verif.Valid.OverlapEnds

/-!
# Without spreads and lists every conflict is found
-/

namespace Verif.Valid

/-- A selection set without spreads whose arguments are plain. -/
structure Tame (ss : List Sel) : Prop where
  spreads : NoSpreads ss
  args : ∀ al n as ds sub, Inside (.field al n as ds sub) ss → PlainArgs as

/-- A field with plain arguments and tame selections. -/
structure TameOcc (o : Occ) : Prop where
  args : PlainArgs o.args
  sub : Tame o.sub

theorem Tame.field {ss sub : List Sel} {al n args ds} (h : Tame ss) (hx : Sel.field al n args ds sub ∈ ss) :
    Tame sub :=
  ⟨fun _ _ hi => h.spreads _ _ (.field hx hi), fun _ _ _ _ _ hi => h.args _ _ _ _ _ (.field hx hi)⟩

theorem Tame.inline {ss sub : List Sel} {c ds} (h : Tame ss) (hx : Sel.inline c ds sub ∈ ss) : Tame sub :=
  ⟨fun _ _ hi => h.spreads _ _ (.inline hx hi), fun _ _ _ _ _ hi => h.args _ _ _ _ _ (.inline hx hi)⟩

theorem occSels_of_mem {s : Schema} {p : Option TypeDef} {x : Sel} {ss : List Sel} {o : Occ} (hx : x ∈ ss)
    (ho : o ∈ occSel s p x) : o ∈ occSels s p ss := by
  induction ss with
  | nil => simp at hx
  | cons y ys ih =>
    simp only [occSels, List.mem_append]
    rcases List.mem_cons.1 hx with rfl | hx
    · exact .inl ho
    · exact .inr (ih hx)

theorem collected_tame {s : Schema} {d : Doc} {p : Option TypeDef} {ss : List Sel} {o : Occ}
    (h : Collected s d p ss o) : Tame ss → TameOcc o ∧ o ∈ (fieldMap s p ss).occs := by
  induction h with
  | field hx =>
    intro ht
    exact ⟨⟨ht.args _ _ _ _ _ (.here hx), ht.field hx⟩, occSels_of_mem hx (List.mem_singleton_self _)⟩
  | inline hx hq _ ih =>
    intro ht
    obtain ⟨h1, h2⟩ := ih (ht.inline hx)
    rw [inScope_iff] at hq
    subst hq
    exact ⟨h1, occSels_of_mem hx h2⟩
  | spread hx => exact fun ht => absurd (.here hx) (ht.spreads _ _)

/-- A comparison of two fields that are in conflict that comes to an end finds it, in either order. -/
theorem find_complete {s : Schema} {d : Doc} {P : Prop} {a b : Occ} (h : Clash s d P a b) :
    ∀ (me : Bool) (k : Nat) (st st' : OvSt) (r : Bool), (me = true → P) → TameOcc a → TameOcc b →
      runTask s d k (.find a b me) st = some (r, st') → r = true := by
  induction h with
  | @name P a b h1 h2 h3 =>
    intro me k st st' r hp _ _ hr
    cases k with
    | zero => simp [runTask] at hr
    | succ k =>
      simp only [runTask, stepTask] at hr
      have hm : me = false := by cases me <;> simp_all
      have he : exclusive a.parent b.parent = false :=
        Bool.eq_false_iff.2 fun e => h2 ((exclusive_iff a b).1 e)
      rw [if_pos (by simp [hm, he, h3])] at hr
      simp_all
  | @args P a b h1 h2 h3 =>
    intro me k st st' r hp ha hb hr
    cases k with
    | zero => simp [runTask] at hr
    | succ k =>
      simp only [runTask, stepTask] at hr
      have hm : me = false := by cases me <;> simp_all
      have he : exclusive a.parent b.parent = false :=
        Bool.eq_false_iff.2 fun e => h2 ((exclusive_iff a b).1 e)
      have hs : sameArgs a.args b.args = false :=
        Bool.eq_false_iff.2 fun e => h3 (same_of_sameArgs ha.args hb.args e)
      by_cases hn : a.name = b.name
      · rw [if_neg (by simp [hn]), if_pos (by simp [hm, he, hs])] at hr
        simp_all
      · rw [if_pos (by simp [hm, he, hn])] at hr
        simp_all
  | @types P a b f g hf hg h3 =>
    intro me k st st' r _ _ _ hr
    cases k with
    | zero => simp [runTask] at hr
    | succ k =>
      simp only [runTask, stepTask] at hr
      have ht : occTypes s a b = true := by
        simp only [occTypes, hf, hg]
        exact Bool.of_not_eq_false fun e => h3 ((typeConflict_iff s _ _).1 e)
      split at hr
      · simp_all
      · split at hr
        · simp_all
        · simp_all
  | @sub P a b x y hx hy hk _ ih =>
    intro me k st st' r hp ha hb hr
    cases k with
    | zero => simp [runTask] at hr
    | succ k =>
      obtain ⟨hxt, hxm⟩ := collected_tame hx ha.sub
      obtain ⟨hyt, hym⟩ := collected_tame hy hb.sub
      simp only [runTask, stepTask] at hr
      split at hr
      · simp_all
      · split at hr
        · simp_all
        · split at hr
          · simp_all
          · have hne : (!a.sub.isEmpty && !b.sub.isEmpty) = true := by
              rw [Bool.and_eq_true]
              constructor
              · cases hs : a.sub with
                | nil => rw [hs] at hxm; simp [fieldMap, occSels] at hxm
                | cons => rfl
              · cases hs : b.sub with
                | nil => rw [hs] at hym; simp [fieldMap, occSels] at hym
                | cons => rfl
            rw [if_pos hne] at hr
            cases r with
            | true => rfl
            | false =>
              cases k with
              | zero => simp [runTask] at hr
              | succ k =>
                simp only [runTask, stepTask] at hr
                obtain ⟨s1, s2, h1⟩ := seqRun_false hr _ List.mem_cons_self
                cases k with
                | zero => simp [runTask] at h1
                | succ k =>
                  simp only [runTask, stepTask] at h1
                  obtain ⟨s3, s4, h2⟩ := seqRun_false h1 _
                    (mem_betweenTasks.2 ⟨x, hxm, y, hym, hk, rfl⟩)
                  refine ih _ k s3 s4 false (fun e => ?_) hxt hyt h2
                  rw [Bool.or_eq_true, exclusive_iff] at e
                  exact e.imp hp id

theorem overlapFrom_false {s : Schema} {d : Doc} {k : Nat} {es : Told} {cmp : List (Name × Name × Bool)}
    (h : overlapFrom s d k es cmp = some false) : ∀ c ss, (c, Ev.sels ss) ∈ es → ∃ st st',
      seqRun (runTask s d k) (setTasks s c.parent ss) st = some (false, st') := by
  induction es generalizing cmp with
  | nil => intro c ss hm; simp at hm
  | cons e es ih =>
    obtain ⟨c, e⟩ := e
    by_cases he : ∃ ss, e = .sels ss
    · obtain ⟨ss, rfl⟩ := he
      simp only [overlapFrom] at h
      cases h1 : seqRun (runTask s d k) (setTasks s c.parent ss) ⟨cmp, []⟩ with
      | none => simp [h1] at h
      | some r =>
        obtain ⟨b, st⟩ := r
        simp only [h1] at h
        cases h2 : overlapFrom s d k es st.compared with
        | none => simp [h2] at h
        | some r =>
          simp only [h2, Option.some.injEq, Bool.or_eq_false_iff] at h
          obtain ⟨rfl, rfl⟩ := h
          intro c' ss' hm
          rcases List.mem_cons.1 hm with e | hm
          · cases e
            exact ⟨_, _, h1⟩
          · exact ih h2 c' ss' hm
    · have : overlapFrom s d k es cmp = some false := by
        cases e <;> first | exact h | exact absurd ⟨_, rfl⟩ he
      intro c' ss' hm
      rcases List.mem_cons.1 hm with e' | hm
      · cases e'
        exact absurd ⟨_, rfl⟩ he
      · exact ih this c' ss' hm

theorem inside_trans {x : Sel} {ss : List Sel} {p q : Option TypeDef} {s : Schema} {y : Sel}
    (h : On s p ss q y) : (∀ al n args ds sub, y = .field al n args ds sub → Inside x sub → Inside x ss) ∧
      ∀ c ds sub, y = .inline c ds sub → Inside x sub → Inside x ss := by
  induction h with
  | here hx => exact ⟨fun _ _ _ _ _ e hi => .field (e ▸ hx) hi, fun _ _ _ e hi => .inline (e ▸ hx) hi⟩
  | field hx _ ih => exact ⟨fun _ _ _ _ _ e hi => .field hx (ih.1 _ _ _ _ _ e hi),
      fun _ _ _ e hi => .field hx (ih.2 _ _ _ e hi)⟩
  | cond hx _ ih => exact ⟨fun _ _ _ _ _ e hi => .inline hx (ih.1 _ _ _ _ _ e hi),
      fun _ _ _ e hi => .inline hx (ih.2 _ _ _ e hi)⟩
  | plain hx _ ih => exact ⟨fun _ _ _ _ _ e hi => .inline hx (ih.1 _ _ _ _ _ e hi),
      fun _ _ _ e hi => .inline hx (ih.2 _ _ _ e hi)⟩

/-- What is inside a selection set of a document is inside a definition of it. -/
theorem hasSet_inside {s : Schema} {d : Doc} {p : Option TypeDef} {ss : List Sel} (h : HasSet s d p ss)
    {x : Sel} (hi : Inside x ss) : ∃ df ∈ d, Inside x df.sels := by
  cases h with
  | root hx => exact ⟨_, hx, hi⟩
  | field h => obtain ⟨df, hd, h⟩ := h; exact ⟨df, hd, (inside_trans h).1 _ _ _ _ _ rfl hi⟩
  | cond h => obtain ⟨df, hd, h⟩ := h; exact ⟨df, hd, (inside_trans h).2 _ _ _ rfl hi⟩
  | plain h => obtain ⟨df, hd, h⟩ := h; exact ⟨df, hd, (inside_trans h).2 _ _ _ rfl hi⟩

theorem on_trans {s : Schema} {p q : Option TypeDef} {ss : List Sel} {y : Sel} (h : On s p ss q y) :
    ∀ {sub q' z}, (∀ al n args ds, y = .field al n args ds sub → On s (typeOfField s q n) sub q' z →
      On s p ss q' z) ∧ (∀ c ds, y = .inline (some c) ds sub → On s (s.typeByName c) sub q' z →
      On s p ss q' z) ∧ (∀ ds, y = .inline none ds sub → On s q sub q' z → On s p ss q' z) := by
  intro sub q' z
  induction h with
  | here hx => exact ⟨fun _ _ _ _ e h => .field (e ▸ hx) h, fun _ _ e h => .cond (e ▸ hx) h,
      fun _ e h => .plain (e ▸ hx) h⟩
  | field hx _ ih => exact ⟨fun _ _ _ _ e h => .field hx (ih.1 _ _ _ _ e h),
      fun _ _ e h => .field hx (ih.2.1 _ _ e h), fun _ e h => .field hx (ih.2.2 _ e h)⟩
  | cond hx _ ih => exact ⟨fun _ _ _ _ e h => .cond hx (ih.1 _ _ _ _ e h),
      fun _ _ e h => .cond hx (ih.2.1 _ _ e h), fun _ e h => .cond hx (ih.2.2 _ e h)⟩
  | plain hx _ ih => exact ⟨fun _ _ _ _ e h => .plain hx (ih.1 _ _ _ _ e h),
      fun _ _ e h => .plain hx (ih.2.1 _ _ e h), fun _ e h => .plain hx (ih.2.2 _ e h)⟩

theorem hasSet_selects {s : Schema} {d : Doc} {p : Option TypeDef} {ss : List Sel} (h : HasSet s d p ss)
    {q : Option TypeDef} {x : Sel} (hi : On s p ss q x) : Selects s d q x := by
  cases h with
  | root hx => exact ⟨_, hx, hi⟩
  | field h => obtain ⟨df, hd, h⟩ := h; exact ⟨df, hd, (on_trans h).1 _ _ _ _ rfl hi⟩
  | cond h => obtain ⟨df, hd, h⟩ := h; exact ⟨df, hd, (on_trans h).2.1 _ _ rfl hi⟩
  | plain h => obtain ⟨df, hd, h⟩ := h; exact ⟨df, hd, (on_trans h).2.2 _ rfl hi⟩

theorem hasSet_tame {s : Schema} {d : Doc} (hd : PlainDoc s d) {p : Option TypeDef} {ss : List Sel}
    (h : HasSet s d p ss) : Tame ss :=
  ⟨fun _ _ hi => let ⟨_, hx, hj⟩ := hasSet_inside h hi; hd.spreads _ hx _ _ hj,
   fun _ _ _ _ _ hi => let ⟨_, hx, hj⟩ := hasSet_inside h hi; hd.args _ hx _ _ _ _ _ hj⟩

/-- The selections of a field that belongs to a selection set are a selection set. -/
theorem hasSet_collected {s : Schema} {d : Doc} (hd : PlainDoc s d) {p : Option TypeDef} {ss : List Sel}
    {o : Occ} (ho : Collected s d p ss o) : HasSet s d p ss → HasSet s d (o.ty s) o.sub := by
  induction ho with
  | field hx => exact fun h => .field (hasSet_selects h (.here hx))
  | @inline p q ss c ds sub o hx hq _ ih =>
    intro h
    refine ih ?_
    rw [inScope_iff] at hq
    subst hq
    cases c with
    | none => exact .plain (hasSet_selects h (.here hx))
    | some n =>
      obtain ⟨_, hx', hi⟩ := hasSet_inside h (.here hx)
      obtain ⟨t, ht⟩ := hd.conds _ hx' _ _ _ hi
      have : condScope s p (some n) = s.typeByName n := by simp [condScope, ht]
      rw [this]
      exact .cond (hasSet_selects h (.here hx))
  | spread hx =>
    intro h
    exact absurd (.here hx) ((hasSet_tame hd h).spreads _ _)

theorem PlainDoc.noCycle {s : Schema} {d : Doc} (hd : PlainDoc s d) : NoCycle d := by
  intro f hf h
  have hx : Def.frag f ∈ d := by
    obtain ⟨x, hx, e⟩ := List.mem_filterMap.1 hf
    cases x with
    | op => simp [Def.frag?] at e
    | frag g => simp only [Def.frag?, Option.some.injEq] at e; exact e ▸ hx
  cases h with
  | direct h => obtain ⟨ds, h⟩ := h; exact hd.spreads _ hx _ _ h
  | through h => obtain ⟨ds, h⟩ := h; exact hd.spreads _ hx _ _ h

theorem sameArgs_refl {as : Args} (h : PlainArgs as) : SameArgs as as :=
  ⟨h.1, rfl, fun p hp => ⟨p.2, hp, .refl _⟩⟩

/-- If a selection set of a plain document has fields in conflict then some comparison is made of
fields in conflict. -/
theorem exists_compared {s : Schema} {d : Doc} (hd : PlainDoc s d) {P : Prop} {a b : Occ}
    (h : Clash s d P a b) : ¬ P → ∀ {p ss}, HasSet s d p ss → Collected s d p ss a →
      Collected s d p ss b → a.key = b.key → ∃ p ss x y, HasSet s d p ss ∧ Collected s d p ss x ∧
        Collected s d p ss y ∧ .find x y false ∈ withinTasks (fieldMap s p ss).occs ∧
        Clash s d False x y := by
  induction h with
  | @name P a b h1 h2 h3 =>
    intro hp p ss hs ha hb hk
    have ht := hasSet_tame hd hs
    have hc : Clash s d False a b := .name id h2 h3
    rcases withinTasks_mem (collected_tame ha ht).2 (collected_tame hb ht).2 hk with h | h | h
    · exact absurd (h ▸ rfl) h3
    · exact ⟨p, ss, a, b, hs, ha, hb, h, hc⟩
    · exact ⟨p, ss, b, a, hs, hb, ha, h, hc.symm⟩
  | @args P a b h1 h2 h3 =>
    intro hp p ss hs ha hb hk
    have ht := hasSet_tame hd hs
    have hc : Clash s d False a b := .args id h2 h3
    rcases withinTasks_mem (collected_tame ha ht).2 (collected_tame hb ht).2 hk with h | h | h
    · exact absurd (h ▸ sameArgs_refl (collected_tame ha ht).1.args) h3
    · exact ⟨p, ss, a, b, hs, ha, hb, h, hc⟩
    · exact ⟨p, ss, b, a, hs, hb, ha, h, hc.symm⟩
  | @types P a b f g hf hg h3 =>
    intro hp p ss hs ha hb hk
    have ht := hasSet_tame hd hs
    have hc : Clash s d False a b := .types hf hg h3
    rcases withinTasks_mem (collected_tame ha ht).2 (collected_tame hb ht).2 hk with h | h | h
    · subst h
      rw [hf] at hg
      cases hg
      exact absurd (SameShape.refl s _) h3
    · exact ⟨p, ss, a, b, hs, ha, hb, h, hc⟩
    · exact ⟨p, ss, b, a, hs, hb, ha, h, hc.symm⟩
  | @sub P a b x y hx hy hk' hcl ih =>
    intro hp p ss hs ha hb hk
    have ht := hasSet_tame hd hs
    have hc : Clash s d False a b := .sub hx hy hk' (hcl.weaken (fun h => h.imp False.elim id))
    rcases withinTasks_mem (collected_tame ha ht).2 (collected_tame hb ht).2 hk with h | h | h
    · subst h
      refine ih ?_ (hasSet_collected hd ha hs) hx hy hk'
      rintro (h | ⟨n, _, _, m, _, _, h1, h2, h3⟩)
      · exact hp h
      · rw [h1] at h2
        cases h2
        exact h3 rfl
    · exact ⟨p, ss, a, b, hs, ha, hb, h, hc⟩
    · exact ⟨p, ss, b, a, hs, hb, ha, h, hc.symm⟩

/-- In a plain document every conflict is reported. -/
theorem overlapping_complete {s : Schema} {d : Doc} (hd : PlainDoc s d) {k : Nat}
    (h : overlapping s d k = some false) : ¬ Conflicting s d := by
  rintro ⟨p, ss, a, b, hs, ha, hb, hk, hc⟩
  obtain ⟨p, ss, x, y, hs, hx, hy, hm, hc⟩ := exists_compared hd hc id hs ha hb hk
  obtain ⟨c, hv, rfl⟩ := sels_visit.2 hs
  obtain ⟨st, st', hr⟩ := overlapFrom_false h c ss hv
  obtain ⟨s1, s2, h1⟩ := seqRun_false hr (.find x y false) (by
    simp only [setTasks, List.mem_append]
    exact .inl hm)
  have ht := hasSet_tame hd hs
  have := find_complete hc false k s1 s2 false (by simp) (collected_tame hx ht).1 (collected_tame hy ht).1 h1
  simp at this

end Verif.Valid
