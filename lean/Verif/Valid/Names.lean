import Verif.Valid.Walk
import Verif.Valid.Search
import Mathlib.Data.List.Nodup
import Mathlib.Data.List.Induction

/-!
# Lemmas about the rules on names
-/

namespace Verif.Valid

/-! ## What is told, by definitions -/

/-- What a definition is told as, but for what is inside it. -/
def outline : Def → List Ev
  | .op o => [.op o]
  | .frag f => [.frag f, .leaveFrag]

theorem flatMap_inner {β : Type} (g : Ev → List β) (hg : ∀ e, e.outer = false → g e = [])
    (l : Told) (hl : ∀ e ∈ l, e.2.outer = false) : l.flatMap (fun e => g e.2) = [] := by
  rw [List.flatMap_eq_nil_iff]
  exact fun e he => hg _ (hl e he)

theorem flatMap_visitDef {β : Type} (g : Ev → List β) (hg : ∀ e, e.outer = false → g e = [])
    (s : Schema) (x : Def) : (visitDef s x).flatMap (fun e => g e.2) = (outline x).flatMap g := by
  cases x with
  | op o =>
    simp only [visitDef, List.flatMap_cons, List.flatMap_append, outline, List.flatMap_nil,
      List.append_nil]
    rw [flatMap_inner g hg _ inner_visitDirs, flatMap_inner g hg _ inner_visitVars,
      flatMap_inner g hg _ inner_visitSet]
    simp
  | frag f =>
    simp only [visitDef, List.flatMap_cons, List.flatMap_append, outline, List.flatMap_nil,
      List.append_nil]
    rw [flatMap_inner g hg _ inner_visitDirs, flatMap_inner g hg _ inner_visitSet]
    simp

theorem flatMap_visit {β : Type} (g : Ev → List β) (hg : ∀ e, e.outer = false → g e = [])
    (h1 : g .doc = []) (h2 : g .leaveDoc = []) (s : Schema) (d : Doc) :
    (visit s d).flatMap (fun e => g e.2) = d.flatMap (fun x => (outline x).flatMap g) := by
  simp only [visit, List.flatMap_cons, List.flatMap_append, h1, h2, List.flatMap_nil, List.nil_append,
    List.append_nil, List.flatMap_assoc]
  congr 1
  funext x
  exact flatMap_visitDef g hg s x

theorem foldl_flatMap' {σ β : Type} (f : σ → Ctx × Ev → σ) (g : Ev → List β) (h : σ → β → σ)
    (hf : ∀ st e, f st e = (g e.2).foldl h st) (l : Told) (st : σ) :
    l.foldl f st = (l.flatMap (fun e => g e.2)).foldl h st := by
  induction l generalizing st with
  | nil => rfl
  | cons e es ih => simp only [List.foldl_cons, List.flatMap_cons, List.foldl_append, ih, hf]

/-! ## Counting -/

theorem mem_countUp (m : List (Name × Nat)) (n : Name) (hm : (m.map (·.1)).Nodup) (e : Name × Nat) :
    e ∈ countUp m n ↔
      (e.1 ≠ n ∧ e ∈ m) ∨ (e.1 = n ∧ ((∃ k, (n, k) ∈ m ∧ e.2 = k + 1) ∨ (n ∉ m.map (·.1) ∧ e.2 = 1))) := by
  induction m with
  | nil => 
    obtain ⟨a, k⟩ := e
    simp [countUp]
  | cons p ps ih =>
    obtain ⟨q, k⟩ := p
    obtain ⟨a, b⟩ := e
    simp only [List.map_cons, List.nodup_cons] at hm
    simp only [countUp]
    by_cases hq : q = n
    · subst hq
      simp only [if_pos]
      constructor
      · intro h
        rcases List.mem_cons.1 h with h0 | h0
        · obtain ⟨h1, h2⟩ := Prod.mk.inj h0
          exact Or.inr ⟨h1, Or.inl ⟨k, by simp, h2⟩⟩
        · refine Or.inl ⟨?_, List.mem_cons_of_mem _ h0⟩
          rintro h'
          have h'' : a = q := h'
          subst h''
          exact hm.1 (List.mem_map.2 ⟨(a, b), h0, rfl⟩)
      · rintro (⟨h1, h2⟩ | ⟨h1, ⟨j, h2, h3⟩ | ⟨h2, _⟩⟩)
        · rcases List.mem_cons.1 h2 with h | h
          · exact absurd (Prod.mk.inj h).1 h1
          · exact List.mem_cons_of_mem _ h
        · subst h1 h3
          rcases List.mem_cons.1 h2 with h | h
          · rw [(Prod.mk.inj h).2]; simp
          · exact absurd (List.mem_map.2 ⟨_, h, rfl⟩) hm.1
        · simp at h2
    · simp only [if_neg hq, List.mem_cons, ih hm.2, List.map_cons]
      constructor
      · rintro (h | h | ⟨h1, h | h⟩)
        · obtain ⟨h1, h2⟩ := Prod.mk.inj h
          subst h1 h2
          exact Or.inl ⟨hq, Or.inl rfl⟩
        · exact Or.inl ⟨h.1, Or.inr h.2⟩
        · obtain ⟨j, h2, h3⟩ := h
          exact Or.inr ⟨h1, Or.inl ⟨j, Or.inr h2, h3⟩⟩
        · exact Or.inr ⟨h1, Or.inr ⟨by
            rintro (h' | h')
            · exact hq h'.symm
            · exact h.1 h', h.2⟩⟩
      · rintro (⟨h1, h | h⟩ | ⟨h1, ⟨j, h2, h3⟩ | ⟨h2, h3⟩⟩)
        · exact Or.inl h
        · exact Or.inr (Or.inl ⟨h1, h⟩)
        · rcases h2 with h2 | h2
          · exact absurd (Prod.mk.inj h2).1.symm hq
          · exact Or.inr (Or.inr ⟨h1, Or.inl ⟨j, h2, h3⟩⟩)
        · exact Or.inr (Or.inr ⟨h1, Or.inr ⟨fun h' => h2 (Or.inr h'), h3⟩⟩)

theorem keys_countUp (m : List (Name × Nat)) (n : Name) :
    (countUp m n).map (·.1) = if n ∈ m.map (·.1) then m.map (·.1) else m.map (·.1) ++ [n] := by
  induction m with
  | nil => simp [countUp]
  | cons p ps ih =>
    obtain ⟨q, k⟩ := p
    simp only [countUp]
    by_cases hq : q = n
    · subst hq; simp
    · simp only [if_neg hq, List.map_cons, ih]
      have : (n = q) = False := by simp; exact fun h => hq h.symm
      by_cases h : n ∈ ps.map (·.1)
      · simp [h]
      · simp [h, this]

theorem count_spec (l : List Name) :
    ((l.foldl countUp []).map (·.1)).Nodup ∧
      ∀ e, e ∈ l.foldl countUp [] ↔ e.1 ∈ l ∧ e.2 = l.count e.1 := by
  induction l using List.reverseRecOn with
  | nil => simp
  | append_singleton l n ih =>
    obtain ⟨hn, hm⟩ := ih
    simp only [List.foldl_append, List.foldl_cons, List.foldl_nil]
    have hk : ∀ a, a ∈ (l.foldl countUp []).map (·.1) ↔ a ∈ l := by
      intro a
      constructor
      · intro h
        obtain ⟨e, he, rfl⟩ := List.mem_map.1 h
        exact ((hm e).1 he).1
      · intro h
        exact List.mem_map.2 ⟨(a, l.count a), (hm _).2 ⟨h, rfl⟩, rfl⟩
    refine ⟨?_, ?_⟩
    · rw [keys_countUp]
      split
      · exact hn
      · rename_i h
        exact List.Nodup.append hn (by simp) (by simpa using h)
    · intro e
      rw [mem_countUp _ _ hn]
      obtain ⟨a, k⟩ := e
      simp only [List.mem_append, List.mem_singleton, List.count_append, hk]
      by_cases ha : a = n
      · subst ha
        simp only [ne_eq, not_true, false_and, true_and, false_or, or_true, List.count_cons_self,
          List.count_nil]
        constructor
        · rintro (⟨j, h1, h2⟩ | ⟨h1, h2⟩)
          · have : j = l.count a := ((hm _).1 h1).2
            omega
          · rw [h2, List.count_eq_zero.2 h1]
        · intro h
          by_cases hl : a ∈ l
          · exact Or.inl ⟨l.count a, (hm _).2 ⟨hl, rfl⟩, by omega⟩
          · exact Or.inr ⟨hl, by rw [h, List.count_eq_zero.2 hl]⟩
      · have h0 : List.count a [n] = 0 := List.count_eq_zero.2 (by simpa using ha)
        simp only [ha, ne_eq, not_false_iff, true_and, false_and, or_false, hm, h0, Nat.add_zero]

theorem count_any (l : List Name) :
    (l.foldl countUp []).any (fun e => decide (e.2 > 1)) = false ↔ l.Nodup := by
  rw [List.nodup_iff_count_le_one, List.any_eq_false]
  constructor
  · intro h a
    by_cases ha : a ∈ l
    · have := h (a, l.count a) ((count_spec l).2 _ |>.2 ⟨ha, rfl⟩)
      simp at this
      exact this
    · rw [List.count_eq_zero.2 ha]; omega
  · intro h e he
    have := ((count_spec l).2 e).1 he
    have h2 := h e.1
    simp
    omega

/-- The names of operations that are told. -/
def opName : Ev → List Name
  | .op o => o.name.toList
  | _ => []

/-- The names of fragments that are told. -/
def fragName : Ev → List Name
  | .frag f => [f.name]
  | _ => []

theorem uniqueOperationNames_iff (s : Schema) (d : Doc) :
    uniqueOperationNames s d = false ↔ ((ops d).filterMap (·.name)).Nodup := by
  unfold uniqueOperationNames
  rw [foldl_flatMap' _ opName countUp (by
    rintro st ⟨c, e⟩
    cases e <;> try rfl
    rename_i o
    obtain ⟨k, n, vs, ds, ss⟩ := o
    cases n <;> rfl)]
  rw [flatMap_visit opName (by intro e he; cases e <;> first | rfl | simp [Ev.outer] at he) rfl rfl,
    count_any]
  suffices h : d.flatMap (fun x => (outline x).flatMap opName) = (ops d).filterMap (·.name) by rw [h]
  unfold ops
  induction d with
  | nil => rfl
  | cons x xs ih =>
    rw [List.flatMap_cons, ih]
    cases x with
    | op o =>
      obtain ⟨k, n, vs, ds, ss⟩ := o
      cases n <;> simp [outline, opName, Def.op?, List.filterMap_cons]
    | frag f => simp [outline, opName, Def.op?, List.filterMap_cons]

theorem uniqueFragmentNames_iff (s : Schema) (d : Doc) :
    uniqueFragmentNames s d = false ↔ ((frags d).map (·.name)).Nodup := by
  unfold uniqueFragmentNames
  rw [foldl_flatMap' _ fragName countUp (by
    rintro st ⟨c, e⟩
    cases e <;> rfl)]
  rw [flatMap_visit fragName (by intro e he; cases e <;> first | rfl | simp [Ev.outer] at he) rfl rfl,
    count_any]
  suffices h : d.flatMap (fun x => (outline x).flatMap fragName) = (frags d).map (·.name) by rw [h]
  unfold frags
  induction d with
  | nil => rfl
  | cons x xs ih =>
    rw [List.flatMap_cons, ih]
    cases x with
    | op o => simp [outline, fragName, Def.frag?, List.filterMap_cons]
    | frag f => simp [outline, fragName, Def.frag?, List.filterMap_cons]

theorem loneAnonymousOperation_iff (d : Doc) :
    loneAnonymousOperation d = false ↔ ∀ o ∈ ops d, o.name = none → ops d = [o] := by
  unfold loneAnonymousOperation
  rw [List.any_eq_false]
  constructor
  · intro h o ho hn
    have := h o ho
    simp [hn] at this
    match hd : ops d, this with
    | [], _ => rw [hd] at ho; cases ho
    | [p], _ => rw [hd] at ho; simp at ho; rw [ho]
    | p :: q :: r, ht => simp at ht
  · intro h o ho
    cases hn : o.name with
    | some n => simp
    | none =>
      have := h o ho hn
      simp [this]

/-! ## Spreads -/

/-- The visit of a document is the visits of its definitions. -/
theorem mem_visit (s : Schema) (d : Doc) (e : Ctx × Ev) (h1 : e.2 ≠ .doc) (h2 : e.2 ≠ .leaveDoc) :
    e ∈ visit s d ↔ ∃ x ∈ d, e ∈ visitDef s x := by
  simp only [visit, List.mem_cons, List.mem_append, List.mem_flatMap, List.not_mem_nil, or_false]
  constructor
  · rintro (h | h | h)
    · exact absurd (by rw [h]) h1
    · exact h
    · exact absurd (by rw [h]) h2
  · exact fun h => Or.inr (Or.inl h)

/-- The spread that is told of. -/
def spreadEv : Ev → List Name
  | .spread n _ => [n]
  | _ => []

theorem mem_spreadEv (l : Told) (n : Name) :
    n ∈ l.flatMap (fun e => spreadEv e.2) ↔ ∃ c es, (c, Ev.spread n es) ∈ l := by
  simp only [List.mem_flatMap]
  constructor
  · rintro ⟨⟨c, e⟩, he, hn⟩
    cases e <;> simp [spreadEv] at hn
    subst hn
    exact ⟨c, _, he⟩
  · rintro ⟨c, es, h⟩
    exact ⟨_, h, by simp [spreadEv]⟩

theorem spread_visitVars (s : Schema) (c c' : Ctx) (vs : List VarDef) (n : Name) (es : List Dir) :
    (c', Ev.spread n es) ∉ visitVars s c vs := by
  intro h
  obtain ⟨v, _, h⟩ := List.mem_flatMap.1 h
  rcases List.mem_cons.1 h with h | h
  · simp at h
  · cases hd : v.default_ with
    | none => simp [hd] at h
    | some x =>
      simp only [hd] at h
      have := visitVal_isVal _ _ _ _ h; simp [Ev.isVal] at this

theorem spread_visitSet (s : Schema) (c : Ctx) (ss : List Sel) (n : Name) :
    (∃ c' es, (c', Ev.spread n es) ∈ visitSet s c ss) ↔ SpreadIn ss n := by
  rw [← spread_visitSels s (inSet s c) ss n]
  simp [visitSet]

theorem spread_visitDef (s : Schema) (x : Def) (n : Name) :
    (∃ c' es, (c', Ev.spread n es) ∈ visitDef s x) ↔ SpreadIn x.sels n := by
  cases x with
  | op o =>
    rw [Def.sels, ← spread_visitSet s (startCtx (rootOf s o.kind)) o.sels n]
    simp only [visitDef, List.mem_cons, List.mem_append, spread_visitDirs, spread_visitVars, false_or]
    simp
  | frag f =>
    rw [Def.sels, ← spread_visitSet s (startCtx (some f.cond)) f.sels n]
    simp only [visitDef, List.mem_cons, List.mem_append, spread_visitDirs, false_or,
      List.not_mem_nil, or_false]
    simp

theorem knownFrag_none (d : Doc) (n : Name) :
    (knownFrag d n).isNone = true ↔ ¬ ∃ f ∈ frags d, f.name = n := by
  unfold knownFrag
  rw [Option.isNone_iff_eq_none, List.find?_eq_none]
  simp

theorem knownFrag_some {d : Doc} {n : Name} {f : Frag} (h : knownFrag d n = some f) :
    f ∈ frags d ∧ f.name = n := by
  unfold knownFrag at h
  refine ⟨by simpa using List.mem_of_find?_eq_some h, by simpa using List.find?_some h⟩

theorem knownFragmentNames_iff (s : Schema) (d : Doc) :
    knownFragmentNames s d = false ↔
      ∀ x ∈ d, ∀ n, SpreadIn x.sels n → ∃ f ∈ frags d, f.name = n := by
  unfold knownFragmentNames
  rw [List.any_eq_false]
  constructor
  · intro h x hx n hn
    obtain ⟨c, es, hc⟩ := (spread_visitDef s x n).2 hn
    have := h _ ((mem_visit s d _ (by simp) (by simp)).2 ⟨x, hx, hc⟩)
    simp only at this
    rw [knownFrag_none] at this
    exact Classical.not_not.1 this
  · rintro h ⟨c, e⟩ he
    cases e <;> try simp
    rename_i n es
    obtain ⟨x, hx, hc⟩ := (mem_visit s d _ (by simp) (by simp)).1 he
    have := h x hx n ((spread_visitDef s x n).1 ⟨c, es, hc⟩)
    have h2 := mt (knownFrag_none d n).1 (not_not_intro this)
    cases hk : knownFrag d n with
    | none => simp [hk] at h2
    | some f => simp

/-! ## Unused fragments -/

theorem unusedStep_other (u : Unused) (c : Ctx) (ev : Ev) (h : ev.outer = false)
    (h2 : spreadEv ev = []) : unusedStep u (c, ev) = u := by
  cases ev <;> first
    | rfl
    | (simp [Ev.outer] at h; done)
    | (simp [spreadEv] at h2; done)

theorem unused_inner (l : Told) (hl : ∀ e ∈ l, e.2.outer = false) (u : Unused) :
    l.foldl unusedStep u =
      if u.current.isSome then { u with spreads := u.spreads ++ l.flatMap (fun e => spreadEv e.2) }
      else { u with inUse := u.inUse ++ l.flatMap (fun e => spreadEv e.2) } := by
  induction l generalizing u with
  | nil => simp
  | cons e es ih =>
    have h1 := hl e (by simp)
    have h2 : ∀ x ∈ es, x.2.outer = false := fun x hx => hl x (by simp [hx])
    simp only [List.foldl_cons, List.flatMap_cons]
    rw [ih h2]
    obtain ⟨c, ev⟩ := e
    by_cases hs : spreadEv ev = []
    · rw [unusedStep_other u c ev h1 hs]
      simp [hs]
    · cases ev <;> first
        | exact absurd rfl hs
        | skip
      rename_i n
      cases hc : u.current <;> simp [unusedStep, spreadEv, hc]

/-- The spreads in a definition, as they are told. -/
def toldSpreads (s : Schema) (x : Def) : List Name := (visitDef s x).flatMap (fun e => spreadEv e.2)

theorem mem_toldSpreads (s : Schema) (x : Def) (n : Name) :
    n ∈ toldSpreads s x ↔ SpreadIn x.sels n := by
  unfold toldSpreads
  rw [mem_spreadEv, spread_visitDef]

theorem unused_def (s : Schema) (x : Def) (u : Unused) (hu : u.current = none) :
    ((visitDef s x).foldl unusedStep u).current = none ∧
    ((visitDef s x).foldl unusedStep u).inUse =
      u.inUse ++ (match x with | .op _ => toldSpreads s x | .frag _ => []) ∧
    ((visitDef s x).foldl unusedStep u).map =
      (match x with | .op _ => [] | .frag f => [(f.name, toldSpreads s x)]) ++ u.map := by
  cases x with
  | op o =>
    have e : toldSpreads s (.op o) =
        (visitDirs s (startCtx (rootOf s o.kind)) o.dirs ++
          visitVars s (startCtx (rootOf s o.kind)) o.vars ++
          visitSet s (startCtx (rootOf s o.kind)) o.sels).flatMap (fun e => spreadEv e.2) := by
      simp [toldSpreads, visitDef, spreadEv]
    simp only [visitDef, List.foldl_cons]
    rw [unused_inner _ (by
      intro e he
      simp only [List.mem_append] at he
      rcases he with (h | h) | h
      · exact inner_visitDirs e h
      · exact inner_visitVars e h
      · exact inner_visitSet e h)]
    simp only [unusedStep, hu, e]
    simp
  | frag f =>
    have e : toldSpreads s (.frag f) =
        (visitDirs s (startCtx (some f.cond)) f.dirs ++
          visitSet s (startCtx (some f.cond)) f.sels).flatMap (fun e => spreadEv e.2) := by
      simp [toldSpreads, visitDef, spreadEv]
    simp only [visitDef, List.foldl_cons, List.foldl_append, List.foldl_nil]
    rw [← List.foldl_append, unused_inner _ (by
      intro e he
      simp only [List.mem_append] at he
      rcases he with h | h
      · exact inner_visitDirs e h
      · exact inner_visitSet e h)]
    simp only [unusedStep, e]
    simp

theorem unused_defs (s : Schema) (d : Doc) (u : Unused) (hu : u.current = none) :
    ((d.flatMap (visitDef s)).foldl unusedStep u).current = none ∧
    ((d.flatMap (visitDef s)).foldl unusedStep u).inUse =
      u.inUse ++ (ops d).flatMap (fun o => toldSpreads s (.op o)) ∧
    ((d.flatMap (visitDef s)).foldl unusedStep u).map =
      ((frags d).map (fun f => (f.name, toldSpreads s (.frag f)))).reverse ++ u.map := by
  induction d generalizing u with
  | nil => simp [ops, frags, hu]
  | cons x xs ih =>
    simp only [List.flatMap_cons, List.foldl_append]
    obtain ⟨h1, h2, h3⟩ := unused_def s x u hu
    obtain ⟨g1, g2, g3⟩ := ih _ h1
    refine ⟨g1, ?_, ?_⟩
    · rw [g2, h2]
      cases x <;> simp [ops, Def.op?, List.filterMap_cons]
    · rw [g3, h3]
      cases x <;> simp [frags, Def.frag?, List.filterMap_cons]

theorem unused_visit (s : Schema) (d : Doc) :
    ((visit s d).foldl unusedStep {}).inUse = (ops d).flatMap (fun o => toldSpreads s (.op o)) ∧
    ((visit s d).foldl unusedStep {}).map =
      ((frags d).map (fun f => (f.name, toldSpreads s (.frag f)))).reverse := by
  obtain ⟨h1, h2, h3⟩ := unused_defs s d {} rfl
  simp only [visit, List.foldl_cons, List.foldl_append, List.foldl_nil]
  have e1 : unusedStep {} (startCtx none, .doc) = {} := rfl
  have e2 : ∀ u c, unusedStep u (c, .leaveDoc) = u := fun _ _ => rfl
  rw [e1, e2]
  exact ⟨by simpa using h2, by simpa using h3⟩

theorem lookup_of_nodup {β : Type} (m : List (Name × β)) (hm : (m.map (·.1)).Nodup) (n : Name) (b : β) :
    m.lookup n = some b ↔ (n, b) ∈ m := by
  induction m with
  | nil => simp
  | cons p ps ih =>
    obtain ⟨k, v⟩ := p
    simp only [List.map_cons, List.nodup_cons] at hm
    by_cases h : n = k
    · subst h
      simp only [List.lookup, beq_self_eq_true, List.mem_cons, Prod.mk.injEq, true_and,
        Option.some.injEq]
      constructor
      · intro h; exact Or.inl h.symm
      · rintro (h | h)
        · exact h.symm
        · exact absurd (List.mem_map.2 ⟨_, h, rfl⟩) hm.1
    · have hk : (n == k) = false := by simpa using h
      simp only [List.lookup, hk, List.mem_cons, Prod.mk.injEq, h, false_and, false_or]
      exact ih hm.2

theorem nodup_reverse_map {β : Type} (m : List (Name × β)) (h : (m.map (·.1)).Nodup) :
    (m.reverse.map (·.1)).Nodup := by
  rw [List.map_reverse]
  exact List.nodup_reverse.2 h

theorem get_spec (s : Schema) (d : Doc) (hd : ((frags d).map (·.name)).Nodup) (n m : Name) :
    m ∈ ((visit s d).foldl unusedStep {}).get n ↔
      ∃ f ∈ frags d, f.name = n ∧ SpreadIn f.sels m := by
  unfold Unused.get
  rw [(unused_visit s d).2]
  have hn := nodup_reverse_map ((frags d).map (fun f => (f.name, toldSpreads s (.frag f)))) (by
    simpa [List.map_map, Function.comp_def] using hd)
  constructor
  · intro h
    cases hl : List.lookup n ((frags d).map (fun f => (f.name, toldSpreads s (.frag f)))).reverse with
    | none => simp [hl] at h
    | some b =>
      rw [hl] at h
      have := (lookup_of_nodup _ hn n b).1 hl
      simp only [List.mem_reverse, List.mem_map] at this
      obtain ⟨f, hf, he⟩ := this
      obtain ⟨h1, h2⟩ := Prod.mk.inj he
      refine ⟨f, hf, h1, ?_⟩
      have := (mem_toldSpreads s (.frag f) m).1 (by rw [h2]; simpa using h)
      exact this
  · rintro ⟨f, hf, h1, h2⟩
    have : List.lookup n ((frags d).map (fun f => (f.name, toldSpreads s (.frag f)))).reverse =
        some (toldSpreads s (.frag f)) := by
      rw [lookup_of_nodup _ hn]
      simp only [List.mem_reverse, List.mem_map]
      exact ⟨f, hf, by rw [h1]⟩
    rw [this]
    exact (mem_toldSpreads s (.frag f) m).2 h2

theorem reaches_tail {d : Doc} {ss : List Sel} {f : Frag} {m : Name} (h : Reaches d ss f.name)
    (hf : f ∈ frags d) (hm : SpreadIn f.sels m) : Reaches d ss m := by
  generalize hn : f.name = n at h
  induction h with
  | direct h => subst hn; exact .through h hf (.direct hm)
  | through h1 h2 _ ih => exact .through h1 h2 (ih hn)

theorem noUnusedFragments_iff (s : Schema) (d : Doc) (hd : ((frags d).map (·.name)).Nodup) :
    noUnusedFragments s d = false ↔ ∀ f ∈ frags d, ∃ o ∈ ops d, Reaches d o.sels f.name := by
  unfold noUnusedFragments
  simp only
  obtain ⟨hu, hm⟩ := unused_visit s d
  have hget := get_spec s d hd
  generalize (visit s d).foldl unusedStep {} = u at hu hm hget
  obtain ⟨-, h2, h3, h4⟩ := queueLoop_spec u.map (fun n => ∃ o ∈ ops d, Reaches d o.sels n) (turns u)
    [] u.inUse (by have := weight_le u.map []; simp only [turns]; omega) (by simp) (by simp)
    (by
      intro b hb
      rw [hu] at hb
      obtain ⟨o, ho, h⟩ := List.mem_flatMap.1 hb
      exact ⟨o, ho, .direct ((mem_toldSpreads s (.op o) b).1 h)⟩)
    (by
      rintro b ⟨o, ho, hr⟩ c hc
      obtain ⟨f, hf, h1, h2⟩ := (hget b c).1 hc
      subst h1
      exact ⟨o, ho, reaches_tail hr hf h2⟩)
  have key : ∀ n, n ∈ queueLoop u.get (turns u) [] u.inUse ↔ ∃ o ∈ ops d, Reaches d o.sels n := by
    intro n
    refine ⟨h4 n, ?_⟩
    rintro ⟨o, ho, hr⟩
    have gen : ∀ (ss : List Sel) n, Reaches d ss n →
        (∀ m, SpreadIn ss m → m ∈ queueLoop u.get (turns u) [] u.inUse) →
        n ∈ queueLoop u.get (turns u) [] u.inUse := by
      intro ss n hr
      induction hr with
      | direct h => intro hs; exact hs _ h
      | through h1 h2' _ ih =>
        intro hs
        exact ih (fun m hm' => h3 _ (hs _ h1) m ((hget _ m).2 ⟨_, h2', rfl, hm'⟩))
    refine gen o.sels n hr (fun m hm' => h2 m ?_)
    rw [hu]
    exact List.mem_flatMap.2 ⟨o, ho, (mem_toldSpreads s (.op o) m).2 hm'⟩
  rw [List.any_eq_false]
  constructor
  · intro h f hf
    have := h f hf
    simp at this
    exact (key _).1 this
  · intro h f hf
    have := (key _).2 (h f hf)
    simpa using this

end Verif.Valid
