import Verif.Valid.OverlapVals
import Verif.Valid.Types
import Verif.Valid.Names

/-!
# The conflicts that are found are conflicts
-/

namespace Verif.Valid

theorem OnDifferent.symm {a b : Occ} (h : OnDifferent a b) : OnDifferent b a := by
  obtain ⟨n, is, fs, m, js, gs, h1, h2, h3⟩ := h
  exact ⟨m, js, gs, n, is, fs, h2, h1, fun e => h3 e.symm⟩

theorem exclusive_iff (a b : Occ) : exclusive a.parent b.parent = true ↔ OnDifferent a b := by
  unfold OnDifferent exclusive
  constructor
  · intro h
    split at h
    · rename_i n is fs m js gs h1 h2
      exact ⟨n, is, fs, m, js, gs, h1, h2, by simpa using h⟩
    · simp at h
  · rintro ⟨n, is, fs, m, js, gs, h1, h2, h3⟩
    simp [h1, h2, h3]

/-- Fields that conflict even if no response has both conflict in any case. -/
theorem Clash.weaken {s : Schema} {d : Doc} {P : Prop} {a b : Occ} (h : Clash s d P a b) :
    ∀ {Q : Prop}, (Q → P) → Clash s d Q a b := by
  induction h with
  | name h1 h2 h3 => exact fun hq => .name (fun h => h1 (hq h)) h2 h3
  | args h1 h2 h3 => exact fun hq => .args (fun h => h1 (hq h)) h2 h3
  | types h1 h2 h3 => exact fun _ => .types h1 h2 h3
  | sub h1 h2 h3 _ ih => exact fun hq => .sub h1 h2 h3 (ih fun h => h.imp hq id)

theorem Clash.symm {s : Schema} {d : Doc} {P : Prop} {a b : Occ} (h : Clash s d P a b) :
    Clash s d P b a := by
  induction h with
  | name h1 h2 h3 => exact .name h1 (fun h => h2 h.symm) (fun e => h3 e.symm)
  | args h1 h2 h3 => exact .args h1 (fun h => h2 h.symm) (fun h => h3 h.symm)
  | types h1 h2 h3 => exact .types h2 h1 (fun h => h3 h.symm)
  | sub h1 h2 h3 _ ih =>
    exact .sub h2 h1 h3.symm (ih.weaken fun h => h.imp id OnDifferent.symm)

theorem inScope_iff (s : Schema) (p q : Option TypeDef) (c : Option Name) :
    InScope s p c q ↔ q = condScope s p c := by
  unfold InScope condScope
  cases c with
  | none => simp
  | some n => cases h : s.typeByName n <;> simp [h]

mutual
theorem collected_of_occSel {s : Schema} (d : Doc) : ∀ (p : Option TypeDef) (x : Sel) (ss : List Sel)
    (o : Occ), x ∈ ss → o ∈ occSel s p x → Collected s d p ss o
  | p, .field al n args ds sub, ss, o, hx, h => by
    simp only [occSel, List.mem_singleton] at h
    subst h
    exact .field hx
  | p, .spread _ _, ss, o, hx, h => by simp [occSel] at h
  | p, .inline c ds sub, ss, o, hx, h => by
    simp only [occSel] at h
    exact .inline hx ((inScope_iff s p _ c).2 rfl) (collected_of_occSels d _ sub sub o (fun _ h => h) h)
theorem collected_of_occSels {s : Schema} (d : Doc) : ∀ (p : Option TypeDef) (xs ss : List Sel)
    (o : Occ), (∀ x ∈ xs, x ∈ ss) → o ∈ occSels s p xs → Collected s d p ss o
  | p, [], ss, o, _, h => by simp [occSels] at h
  | p, x :: xs, ss, o, hx, h => by
    simp only [occSels, List.mem_append] at h
    rcases h with h | h
    · exact collected_of_occSel d p x ss o (hx x List.mem_cons_self) h
    · exact collected_of_occSels d p xs ss o (fun y hy => hx y (List.mem_cons_of_mem _ hy)) h
end

theorem collected_occs {s : Schema} (d : Doc) {p : Option TypeDef} {ss : List Sel} {o : Occ}
    (h : o ∈ (fieldMap s p ss).occs) : Collected s d p ss o :=
  collected_of_occSels d p ss ss o (fun _ h => h) h

mutual
theorem collected_of_spreadSel {s : Schema} {d : Doc} {f : Frag} {o : Occ} (hf : f ∈ frags d)
    (ho : Collected s d (s.typeByName f.cond) f.sels o) : ∀ (p : Option TypeDef) (x : Sel)
    (ss : List Sel), x ∈ ss → f.name ∈ spreadSel x → Collected s d p ss o
  | p, .field al n args ds sub, ss, hx, h => by simp [spreadSel] at h
  | p, .spread _ _, ss, hx, h => by
    simp only [spreadSel, List.mem_singleton] at h
    exact .spread hx hf h ho
  | p, .inline c ds sub, ss, hx, h => by
    simp only [spreadSel] at h
    exact .inline hx ((inScope_iff s p _ c).2 rfl)
      (collected_of_spreadSels hf ho _ sub sub (fun _ h => h) h)
theorem collected_of_spreadSels {s : Schema} {d : Doc} {f : Frag} {o : Occ} (hf : f ∈ frags d)
    (ho : Collected s d (s.typeByName f.cond) f.sels o) : ∀ (p : Option TypeDef) (xs ss : List Sel),
    (∀ x ∈ xs, x ∈ ss) → f.name ∈ spreadSels xs → Collected s d p ss o
  | p, [], ss, _, h => by simp [spreadSels] at h
  | p, x :: xs, ss, hx, h => by
    simp only [spreadSels, List.mem_append] at h
    rcases h with h | h
    · exact collected_of_spreadSel hf ho p x ss (hx x List.mem_cons_self) h
    · exact collected_of_spreadSels hf ho p xs ss (fun y hy => hx y (List.mem_cons_of_mem _ hy)) h
end

theorem mem_names (s : Schema) (p : Option TypeDef) (ss : List Sel) (n : Name) :
    n ∈ (fieldMap s p ss).names ↔ n ∈ spreadSels ss := by
  simp [fieldMap]

theorem collected_names {s : Schema} {d : Doc} {p : Option TypeDef} {ss : List Sel} {f : Frag} {o : Occ}
    (hn : f.name ∈ (fieldMap s p ss).names) (hf : f ∈ frags d)
    (ho : Collected s d (s.typeByName f.cond) f.sels o) : Collected s d p ss o :=
  collected_of_spreadSels hf ho p ss ss (fun _ h => h) ((mem_names s p ss _).1 hn)

/-! ## Calls one after the other -/

theorem seqRun_true {rec : Task → OvSt → Ans} {ts : List Task} {st st' : OvSt}
    (h : seqRun rec ts st = some (true, st')) : ∃ t ∈ ts, ∃ s1 s2, rec t s1 = some (true, s2) := by
  induction ts generalizing st st' with
  | nil => simp [seqRun] at h
  | cons t ts ih =>
    simp only [seqRun] at h
    cases h1 : rec t st with
    | none => simp [h1] at h
    | some r =>
      obtain ⟨b, s1⟩ := r
      simp only [h1] at h
      cases h2 : seqRun rec ts s1 with
      | none => simp [h2] at h
      | some r =>
        obtain ⟨c, s2⟩ := r
        simp only [h2, Option.some.injEq, Prod.mk.injEq, Bool.or_eq_true] at h
        rcases h.1 with rfl | rfl
        · exact ⟨t, List.mem_cons_self, st, s1, h1⟩
        · obtain ⟨u, hu, hr⟩ := ih h2
          exact ⟨u, List.mem_cons_of_mem _ hu, hr⟩

theorem seqRun_false {rec : Task → OvSt → Ans} {ts : List Task} {st st' : OvSt}
    (h : seqRun rec ts st = some (false, st')) : ∀ t ∈ ts, ∃ s1 s2, rec t s1 = some (false, s2) := by
  induction ts generalizing st st' with
  | nil => simp
  | cons t ts ih =>
    simp only [seqRun] at h
    cases h1 : rec t st with
    | none => simp [h1] at h
    | some r =>
      obtain ⟨b, s1⟩ := r
      simp only [h1] at h
      cases h2 : seqRun rec ts s1 with
      | none => simp [h2] at h
      | some r =>
        obtain ⟨c, s2⟩ := r
        simp only [h2, Option.some.injEq, Prod.mk.injEq, Bool.or_eq_false_iff] at h
        obtain ⟨⟨rfl, rfl⟩, rfl⟩ := h
        intro u hu
        rcases List.mem_cons.1 hu with rfl | hu
        · exact ⟨st, s1, h1⟩
        · exact ih h2 u hu

theorem seqRun_some {rec : Task → OvSt → Ans} {ts : List Task}
    (h : ∀ t ∈ ts, ∀ st, ∃ r, rec t st = some r) (st : OvSt) : ∃ r, seqRun rec ts st = some r := by
  induction ts generalizing st with
  | nil => exact ⟨_, rfl⟩
  | cons t ts ih =>
    obtain ⟨⟨b, s1⟩, h1⟩ := h t List.mem_cons_self st
    obtain ⟨⟨c, s2⟩, h2⟩ := ih (fun u hu => h u (List.mem_cons_of_mem _ hu)) s1
    exact ⟨(b || c, s2), by simp [seqRun, h1, h2]⟩

theorem nexts_true {rec : Task → OvSt → Ans} {m : List Occ} {me : Bool} {ns : List Name} {st st' : OvSt}
    (h : nexts rec m me ns st = some (true, st')) :
    ∃ n ∈ ns, ∃ s1 s2, rec (.fieldsFrag m n me) s1 = some (true, s2) := by
  induction ns generalizing st st' with
  | nil => simp [nexts] at h
  | cons n ns ih =>
    simp only [nexts] at h
    split at h
    · simp at h
    · cases h1 : rec (.fieldsFrag m n me) { st with visited := st.visited ++ [n] } with
      | none => simp [h1] at h
      | some r =>
        obtain ⟨b, s1⟩ := r
        simp only [h1] at h
        cases h2 : nexts rec m me ns s1 with
        | none => simp [h2] at h
        | some r =>
          obtain ⟨c, s2⟩ := r
          simp only [h2, Option.some.injEq, Prod.mk.injEq, Bool.or_eq_true] at h
          rcases h.1 with rfl | rfl
          · exact ⟨n, List.mem_cons_self, _, s1, h1⟩
          · obtain ⟨u, hu, hr⟩ := ih h2
            exact ⟨u, List.mem_cons_of_mem _ hu, hr⟩

theorem nexts_some {rec : Task → OvSt → Ans} {m : List Occ} {me : Bool} {ns : List Name}
    (h : ∀ n ∈ ns, ∀ st, ∃ r, rec (.fieldsFrag m n me) st = some r) (st : OvSt) :
    ∃ r, nexts rec m me ns st = some r := by
  induction ns generalizing st with
  | nil => exact ⟨_, rfl⟩
  | cons n ns ih =>
    by_cases hv : n ∈ st.visited
    · exact ⟨(false, st), by simp [nexts, hv]⟩
    · obtain ⟨⟨b, s1⟩, h1⟩ := h n List.mem_cons_self { st with visited := st.visited ++ [n] }
      obtain ⟨⟨c, s2⟩, h2⟩ := ih (fun u hu => h u (List.mem_cons_of_mem _ hu)) s1
      exact ⟨(b || c, s2), by simp [nexts, hv, h1, h2]⟩

/-! ## What is found -/

/-- There is a conflict of the kind that a call looks for. -/
def TaskClash (s : Schema) (d : Doc) : Task → Prop
  | .find a b me => Clash s d (me = true) a b
  | .subs me p1 ss1 p2 ss2 => ∃ x y, Collected s d p1 ss1 x ∧ Collected s d p2 ss2 y ∧ x.key = y.key ∧
      Clash s d (me = true) x y
  | .between me m1 m2 => ∃ x ∈ m1, ∃ y ∈ m2, x.key = y.key ∧ Clash s d (me = true) x y
  | .fieldsFrag m n me => ∃ x ∈ m, ∃ f ∈ frags d, f.name = n ∧ ∃ y,
      Collected s d (s.typeByName f.cond) f.sels y ∧ x.key = y.key ∧ Clash s d (me = true) x y
  | .frags a b me => ∃ f ∈ frags d, f.name = a ∧ ∃ g ∈ frags d, g.name = b ∧ ∃ x y,
      Collected s d (s.typeByName f.cond) f.sels x ∧ Collected s d (s.typeByName g.cond) g.sels y ∧
      x.key = y.key ∧ Clash s d (me = true) x y

theorem mem_betweenTasks {me : Bool} {m1 m2 : List Occ} {t : Task} :
    t ∈ betweenTasks me m1 m2 ↔ ∃ a ∈ m1, ∃ b ∈ m2, a.key = b.key ∧ t = .find a b me := by
  simp only [betweenTasks, List.mem_flatMap, List.mem_map, List.mem_filter, beq_iff_eq,
    List.mem_eraseDups]
  constructor
  · rintro ⟨k, _, a, ⟨ha, rfl⟩, b, ⟨hb, e⟩, rfl⟩
    exact ⟨a, ha, b, hb, e.symm, rfl⟩
  · rintro ⟨a, ha, b, hb, e, rfl⟩
    exact ⟨a.key, ⟨a, ha, rfl⟩, a, ⟨ha, rfl⟩, b, ⟨hb, e.symm⟩, rfl⟩

theorem stepTask_sound {s : Schema} {d : Doc} {rec : Task → OvSt → Ans}
    (ih : ∀ t st st', rec t st = some (true, st') → TaskClash s d t) (t : Task) (st st' : OvSt)
    (h : stepTask s d rec t st = some (true, st')) : TaskClash s d t := by
  cases t with
  | find a b me =>
    simp only [stepTask] at h
    have hx : (me || exclusive a.parent b.parent) = true ↔ (me = true ∨ OnDifferent a b) := by
      rw [Bool.or_eq_true, exclusive_iff]
    have hn : ∀ {P : Prop}, ((!(me || exclusive a.parent b.parent)) = true ∧ P) →
        ¬ (me = true) ∧ ¬ OnDifferent a b := by
      rintro P ⟨h, _⟩
      rw [Bool.not_eq_true', Bool.eq_false_iff] at h
      exact ⟨fun e => h (hx.2 (.inl e)), fun e => h (hx.2 (.inr e))⟩
    split at h
    · rename_i hc
      rw [Bool.and_eq_true] at hc
      exact .name (hn hc).1 (hn hc).2 (by simpa using hc.2)
    · split at h
      · rename_i hc
        rw [Bool.and_eq_true] at hc
        refine .args (hn hc).1 (hn hc).2 (fun hs => ?_)
        have := sameArgs_of_same hs
        simp [this] at hc
      · split at h
        · rename_i hc
          unfold occTypes at hc
          split at hc
          · rename_i f g hf hg
            refine .types hf hg (fun hs => ?_)
            rw [(typeConflict_iff s _ _).2 hs] at hc
            simp at hc
          · simp at hc
        · split at h
          · obtain ⟨x, y, h1, h2, h3, h4⟩ := ih _ _ _ h
            exact .sub h1 h2 h3 (h4.weaken hx.2)
          · simp at h
  | subs me p1 ss1 p2 ss2 =>
    simp only [stepTask] at h
    obtain ⟨t, ht, s1, s2, hr⟩ := seqRun_true h
    have hc := ih _ _ _ hr
    simp only [List.mem_cons, List.mem_append, List.mem_map, List.mem_flatMap] at ht
    rcases ht with rfl | (⟨n, hn, rfl⟩ | ⟨n, hn, rfl⟩) | ⟨a, ha, b, hb, rfl⟩
    · obtain ⟨x, hx, y, hy, h1, h2⟩ := hc
      exact ⟨x, y, collected_occs d hx, collected_occs d hy, h1, h2⟩
    · obtain ⟨x, hx, f, hf, rfl, y, hy, h1, h2⟩ := hc
      exact ⟨x, y, collected_occs d hx, collected_names hn hf hy, h1, h2⟩
    · obtain ⟨x, hx, f, hf, rfl, y, hy, h1, h2⟩ := hc
      exact ⟨y, x, collected_names hn hf hy, collected_occs d hx, h1.symm, h2.symm⟩
    · obtain ⟨f, hf, rfl, g, hg, rfl, x, y, hx, hy, h1, h2⟩ := hc
      exact ⟨x, y, collected_names ha hf hx, collected_names hb hg hy, h1, h2⟩
  | between me m1 m2 =>
    simp only [stepTask] at h
    obtain ⟨t, ht, s1, s2, hr⟩ := seqRun_true h
    obtain ⟨a, ha, b, hb, e, rfl⟩ := mem_betweenTasks.1 ht
    exact ⟨a, ha, b, hb, e, ih _ _ _ hr⟩
  | fieldsFrag m n me =>
    simp only [stepTask] at h
    cases hk : knownFrag d n with
    | none => simp [hk] at h
    | some f =>
      obtain ⟨hf, rfl⟩ := knownFrag_some hk
      simp only [hk] at h
      split at h
      · simp at h
      · cases h1 : rec (.between me m (fragMap s f).occs) st with
        | none => simp [h1] at h
        | some r =>
          obtain ⟨b, s1⟩ := r
          simp only [h1] at h
          cases h2 : nexts rec m me (fragMap s f).names s1 with
          | none => simp [h2] at h
          | some r =>
            obtain ⟨c, s2⟩ := r
            simp only [h2, Option.some.injEq, Prod.mk.injEq, Bool.or_eq_true] at h
            rcases h.1 with rfl | rfl
            · obtain ⟨x, hx, y, hy, he, hc⟩ := ih _ _ _ h1
              exact ⟨x, hx, f, hf, rfl, y, collected_occs d hy, he, hc⟩
            · obtain ⟨n, hn, u1, u2, hr⟩ := nexts_true h2
              obtain ⟨x, hx, g, hg, rfl, y, hy, he, hc⟩ := ih _ _ _ hr
              exact ⟨x, hx, f, hf, rfl, y, collected_names hn hg hy, he, hc⟩
  | frags a b me =>
    simp only [stepTask] at h
    split at h
    · simp at h
    · split at h
      · simp at h
      · split at h
        · rename_i f g hf hg
          have ⟨hf, rfl⟩ := knownFrag_some hf
          have ⟨hg, rfl⟩ := knownFrag_some hg
          obtain ⟨t, ht, s1, s2, hr⟩ := seqRun_true h
          have hc := ih _ _ _ hr
          simp only [List.mem_cons, List.mem_append, List.mem_map] at ht
          rcases ht with rfl | ⟨n, hn, rfl⟩ | ⟨n, hn, rfl⟩
          · obtain ⟨x, hx, y, hy, h1, h2⟩ := hc
            exact ⟨f, hf, rfl, g, hg, rfl, x, y, collected_occs d hx, collected_occs d hy, h1, h2⟩
          · obtain ⟨f', hf', e', g', hg', rfl, x, y, hx, hy, h1, h2⟩ := hc
            exact ⟨f', hf', e', g, hg, rfl, x, y, hx, collected_names hn hg' hy, h1, h2⟩
          · obtain ⟨f', hf', rfl, g', hg', e', x, y, hx, hy, h1, h2⟩ := hc
            exact ⟨f, hf, rfl, g', hg', e', x, y, collected_names hn hf' hx, hy, h1, h2⟩
        · simp at h

theorem runTask_sound (s : Schema) (d : Doc) (k : Nat) : ∀ (t : Task) (st st' : OvSt),
    runTask s d k t st = some (true, st') → TaskClash s d t := by
  induction k with
  | zero => intro t st st' h; simp [runTask] at h
  | succ k ih => exact stepTask_sound ih

theorem mem_pairsOf {α : Type} {l : List α} {p : α × α} (h : p ∈ pairsOf l) : p.1 ∈ l ∧ p.2 ∈ l := by
  induction l with
  | nil => simp [pairsOf] at h
  | cons x xs ih =>
    simp only [pairsOf, List.mem_append, List.mem_map] at h
    rcases h with ⟨y, hy, rfl⟩ | h
    · exact ⟨List.mem_cons_self, List.mem_cons_of_mem _ hy⟩
    · exact ⟨List.mem_cons_of_mem _ (ih h).1, List.mem_cons_of_mem _ (ih h).2⟩

theorem pairsOf_mem {α : Type} {l : List α} {a b : α} (ha : a ∈ l) (hb : b ∈ l) :
    a = b ∨ (a, b) ∈ pairsOf l ∨ (b, a) ∈ pairsOf l := by
  induction l with
  | nil => simp at ha
  | cons x xs ih =>
    simp only [pairsOf, List.mem_append, List.mem_map]
    rcases List.mem_cons.1 ha with rfl | ha <;> rcases List.mem_cons.1 hb with rfl | hb
    · exact .inl rfl
    · exact .inr (.inl (.inl ⟨b, hb, rfl⟩))
    · rename_i h
      exact .inr (.inr (.inl ⟨a, h, rfl⟩))
    · rcases ih ha hb with h | h | h
      · exact .inl h
      · exact .inr (.inl (.inr h))
      · exact .inr (.inr (.inr h))

theorem mem_withinTasks {m : List Occ} {t : Task} (h : t ∈ withinTasks m) :
    ∃ a ∈ m, ∃ b ∈ m, a.key = b.key ∧ t = .find a b false := by
  simp only [withinTasks, List.mem_flatMap, List.mem_map] at h
  obtain ⟨k, _, p, hp, rfl⟩ := h
  obtain ⟨h1, h2⟩ := mem_pairsOf hp
  simp only [List.mem_filter, beq_iff_eq] at h1 h2
  exact ⟨p.1, h1.1, p.2, h2.1, h1.2.trans h2.2.symm, rfl⟩

theorem withinTasks_mem {m : List Occ} {a b : Occ} (ha : a ∈ m) (hb : b ∈ m) (hk : a.key = b.key) :
    a = b ∨ .find a b false ∈ withinTasks m ∨ .find b a false ∈ withinTasks m := by
  have ha' : a ∈ m.filter (·.key == a.key) := by simp [ha]
  have hb' : b ∈ m.filter (·.key == a.key) := by simp [hb, hk]
  have hmem : ∀ p ∈ pairsOf (m.filter (·.key == a.key)), .find p.1 p.2 false ∈ withinTasks m := by
    intro p hp
    simp only [withinTasks, List.mem_flatMap, List.mem_map, List.mem_eraseDups]
    exact ⟨a.key, ⟨a, ha, rfl⟩, p, hp, rfl⟩
  rcases pairsOf_mem ha' hb' with h | h | h
  · exact .inl h
  · exact .inr (.inl (hmem _ h))
  · exact .inr (.inr (hmem _ h))

theorem mem_spreadTasks {m : List Occ} {ns : List Name} {t : Task} (h : t ∈ spreadTasks m ns) :
    (∃ n ∈ ns, t = .fieldsFrag m n false) ∨ ∃ a ∈ ns, ∃ b ∈ ns, t = .frags a b false := by
  induction ns with
  | nil => simp [spreadTasks] at h
  | cons n ns ih =>
    simp only [spreadTasks, List.mem_cons, List.mem_append, List.mem_map] at h
    rcases h with rfl | ⟨b, hb, rfl⟩ | h
    · exact .inl ⟨n, List.mem_cons_self, rfl⟩
    · exact .inr ⟨n, List.mem_cons_self, b, List.mem_cons_of_mem _ hb, rfl⟩
    · rcases ih h with ⟨n', hn, e⟩ | ⟨a, ha, b, hb, e⟩
      · exact .inl ⟨n', List.mem_cons_of_mem _ hn, e⟩
      · exact .inr ⟨a, List.mem_cons_of_mem _ ha, b, List.mem_cons_of_mem _ hb, e⟩

theorem setTasks_sound {s : Schema} {d : Doc} {p : Option TypeDef} {ss : List Sel} {k : Nat}
    {st st' : OvSt} (h : seqRun (runTask s d k) (setTasks s p ss) st = some (true, st')) :
    ∃ a b, Collected s d p ss a ∧ Collected s d p ss b ∧ a.key = b.key ∧ Clash s d False a b := by
  obtain ⟨t, ht, s1, s2, hr⟩ := seqRun_true h
  have hc := runTask_sound s d k _ _ _ hr
  simp only [setTasks, List.mem_append] at ht
  rcases ht with ht | ht
  · obtain ⟨a, ha, b, hb, e, rfl⟩ := mem_withinTasks ht
    exact ⟨a, b, collected_occs d ha, collected_occs d hb, e, Clash.weaken hc (by simp)⟩
  · rcases mem_spreadTasks ht with ⟨n, hn, rfl⟩ | ⟨a, ha, b, hb, rfl⟩
    · obtain ⟨x, hx, f, hf, rfl, y, hy, h1, h2⟩ := hc
      exact ⟨x, y, collected_occs d hx, collected_names hn hf hy, h1, h2.weaken (by simp)⟩
    · obtain ⟨f, hf, rfl, g, hg, rfl, x, y, hx, hy, h1, h2⟩ := hc
      exact ⟨x, y, collected_names ha hf hx, collected_names hb hg hy, h1, h2.weaken (by simp)⟩

theorem overlapFrom_true {s : Schema} {d : Doc} {k : Nat} {es : Told} {cmp : List (Name × Name × Bool)}
    (h : overlapFrom s d k es cmp = some true) : ∃ c ss, (c, Ev.sels ss) ∈ es ∧ ∃ st st',
      seqRun (runTask s d k) (setTasks s c.parent ss) st = some (true, st') := by
  induction es generalizing cmp with
  | nil => simp [overlapFrom] at h
  | cons e es ih =>
    obtain ⟨c, e⟩ := e
    by_cases he : ∃ ss, e = .sels ss
    · obtain ⟨ss, rfl⟩ := he
      simp only [overlapFrom] at h
      cases h1 : seqRun (runTask s d k) (setTasks s c.parent ss) ⟨cmp, []⟩ with
      | none => simp [h1] at h
      | some r =>
        obtain ⟨b, st⟩ := r
        simp only [h1] at h
        cases h2 : overlapFrom s d k es st.compared with
        | none => simp [h2] at h
        | some r =>
          simp only [h2, Option.some.injEq, Bool.or_eq_true] at h
          rcases h with rfl | rfl
          · exact ⟨c, ss, List.mem_cons_self, _, _, h1⟩
          · obtain ⟨c', ss', hm, hr⟩ := ih h2
            exact ⟨c', ss', List.mem_cons_of_mem _ hm, hr⟩
    · have : overlapFrom s d k es cmp = some true := by
        cases e <;> first | exact h | exact absurd ⟨_, rfl⟩ he
      obtain ⟨c', ss', hm, hr⟩ := ih this
      exact ⟨c', ss', List.mem_cons_of_mem _ hm, hr⟩

/-! ## The selection sets that are visited -/

/-- The type that is in scope in the set of selections of a selection. -/
theorem sels_own {s : Schema} {c c' : Ctx} {y : Sel} {ss : List Sel} :
    (c', Ev.sels ss) ∈ own s c y ↔
      (∃ al n args ds, y = .field al n args ds ss ∧ c' = inSet s (inField c n)) ∨
      (∃ cond ds, y = .inline cond ds ss ∧ c' = inSet s (inCond c cond)) := by
  have ho : (Ev.sels ss).own = true := rfl
  cases y with
  | field al n args ds sub =>
    simp only [own, List.mem_cons, List.mem_append, not_mem_visitArgs ho, not_mem_visitDirs ho,
      Prod.mk.injEq, reduceCtorEq, and_false, false_or, or_false, List.not_mem_nil, Ev.sels.injEq,
      Sel.field.injEq, exists_false, false_and]
    constructor
    · rintro ⟨h, rfl⟩; exact ⟨al, n, args, ds, ⟨rfl, rfl, rfl, rfl, rfl⟩, h⟩
    · rintro ⟨_, _, _, _, ⟨rfl, rfl, rfl, rfl, rfl⟩, h⟩; exact ⟨h, rfl⟩
  | spread n ds =>
    simp [own, not_mem_visitDirs ho]
  | inline cond ds sub =>
    simp only [own, List.mem_cons, List.mem_append, not_mem_visitDirs ho,
      Prod.mk.injEq, reduceCtorEq, and_false, false_or, or_false, List.not_mem_nil, Ev.sels.injEq,
      Sel.inline.injEq, exists_false, false_and]
    constructor
    · rintro ⟨h, rfl⟩; exact ⟨cond, ds, ⟨rfl, rfl, rfl⟩, h⟩
    · rintro ⟨_, _, ⟨rfl, rfl, rfl⟩, h⟩; exact ⟨h, rfl⟩

theorem sels_visitDef {s : Schema} {x : Def} {c : Ctx} {ss : List Sel} :
    (c, Ev.sels ss) ∈ visitDef s x ↔ (c = inSet s (x.ctx s) ∧ ss = x.sels) ∨
      ∃ c' y, DefAt s x c' y ∧ (c, Ev.sels ss) ∈ own s c' y := by
  have ho : (Ev.sels ss).own = true := rfl
  rw [mem_visitDef]
  simp only [not_mem_visitDirs ho, not_mem_visitVars ho, false_or, Prod.mk.injEq, reduceCtorEq,
    and_false, false_and, or_false, Ev.sels.injEq]
  constructor
  · rintro (⟨_, h⟩ | h)
    · cases x <;> simp [Def.enter] at h
    · exact h
  · exact .inr

theorem defAt_scope {s : Schema} {x : Def} {c : Ctx} {y : Sel} (h : DefAt s x c y) :
    c.parent = c.cur s := (at_on s h rfl).1

/-- The selection sets of a document are those that the visitor comes to, each with its type. -/
theorem sels_visit {s : Schema} {d : Doc} {p : Option TypeDef} {ss : List Sel} :
    (∃ c, (c, Ev.sels ss) ∈ visit s d ∧ c.parent = p) ↔ HasSet s d p ss := by
  have hv : ∀ c, (c, Ev.sels ss) ∈ visit s d ↔ ∃ x ∈ d, (c, Ev.sels ss) ∈ visitDef s x := by
    intro c
    simp [visit, List.mem_flatMap]
  constructor
  · rintro ⟨c, h, rfl⟩
    obtain ⟨x, hx, h⟩ := (hv c).1 h
    rcases sels_visitDef.1 h with ⟨rfl, rfl⟩ | ⟨c', y, hy, h⟩
    · have : (inSet s (x.ctx s)).parent = x.on s := ctx_cur s x
      rw [this]
      exact .root hx
    · have hs : Selects s d c'.parent y := ⟨x, hx, (defAt_on s x _ y).1 ⟨c', hy, rfl⟩⟩
      rcases sels_own.1 h with ⟨al, n, args, ds, rfl, rfl⟩ | ⟨cond, ds, rfl, rfl⟩
      · have : (inSet s (inField c' n)).parent = typeOfField s c'.parent n := cur_inField s c' n
        rw [this]
        exact .field hs
      · cases cond with
        | none =>
          have : (inSet s (inCond c' none)).parent = c'.parent := (defAt_scope hy).symm
          rw [this]
          exact .plain hs
        | some n => exact .cond hs
  · intro h
    cases h with
    | root hx => exact ⟨_, (hv _).2 ⟨_, hx, sels_visitDef.2 (.inl ⟨rfl, rfl⟩)⟩, ctx_cur s _⟩
    | @field q al n args ds sub hs =>
      obtain ⟨x, hx, hs⟩ := hs
      obtain ⟨c', hc, rfl⟩ := (defAt_on s x _ _).2 hs
      exact ⟨_, (hv _).2 ⟨x, hx, sels_visitDef.2 (.inr ⟨c', _, hc,
        sels_own.2 (.inl ⟨al, n, args, ds, rfl, rfl⟩)⟩)⟩, cur_inField s c' n⟩
    | @cond q c ds sub hs =>
      obtain ⟨x, hx, hs⟩ := hs
      obtain ⟨c', hc, rfl⟩ := (defAt_on s x _ _).2 hs
      exact ⟨_, (hv _).2 ⟨x, hx, sels_visitDef.2 (.inr ⟨c', _, hc,
        sels_own.2 (.inr ⟨some c, ds, rfl, rfl⟩)⟩)⟩, rfl⟩
    | @plain q ds sub hs =>
      obtain ⟨x, hx, hs⟩ := hs
      obtain ⟨c', hc, rfl⟩ := (defAt_on s x _ _).2 hs
      exact ⟨_, (hv _).2 ⟨x, hx, sels_visitDef.2 (.inr ⟨c', _, hc,
        sels_own.2 (.inr ⟨none, ds, rfl, rfl⟩)⟩)⟩, (defAt_scope hc).symm⟩

/-- A conflict that is reported is one. -/
theorem overlapping_sound {s : Schema} {d : Doc} {k : Nat} (h : overlapping s d k = some true) :
    Conflicting s d := by
  obtain ⟨c, ss, hm, st, st', hr⟩ := overlapFrom_true h
  obtain ⟨a, b, h1, h2, h3, h4⟩ := setTasks_sound hr
  exact ⟨c.parent, ss, a, b, sels_visit.1 ⟨c, hm, rfl⟩, h1, h2, h3, h4⟩

end Verif.Valid
