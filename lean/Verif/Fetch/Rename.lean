import Verif.Fetch.Safe

/-!
# Lemmas: what the safe merger renames

A selection set by the names of its fields instead of their response keys: the safe merger gives aliases to
fields, but it neither loses nor adds a field.
-/

namespace Verif.Fetch

variable {v : Vars}

theorem meant_append {a b : List Sel} : meant v (a ++ b) = meant v a ++ meant v b := by
  induction a with
  | nil => simp [meant]
  | cons x r ih => simp [meant, ih]

theorem meantBy_setAlias {a : String} {s : Sel} : meantBy v (setAlias a s) = meantBy v s := by
  cases s <;> rfl

theorem meant_modify {a : String} : ∀ {ts : List Sel} {i : Nat}, meant v (ts.modify i (setAlias a)) = meant v ts
  | [], i => by cases i <;> simp
  | x :: r, 0 => by simp [meant, meantBy_setAlias]
  | x :: r, i + 1 => by simp [meant, meant_modify (ts := r)]

/-- The fields an action adds. -/
def meantAct (v : Vars) : Action → List (List Named)
  | .copy s => meantBy v s
  | .source s => meantBy v s
  | .target _ => []

theorem runActions_meant {path : MPath} : ∀ {acts : List Action} {ts : List Sel} {c : Nat},
    meant v (runActions path acts ts c).1 = meant v ts ++ acts.flatMap (meantAct v)
  | [], ts, c => by simp [runActions]
  | .copy s :: r, ts, c => by
    simp [runActions, runActions_meant (acts := r), meant_append, meant, meantAct]
  | .source s :: r, ts, c => by
    simp [runActions, runActions_meant (acts := r), meant_append, meant, meantAct, meantBy_setAlias]
  | .target i :: r, ts, c => by
    simp [runActions, runActions_meant (acts := r), meantAct, meant_modify]

/-- What there is after the loop. -/
def loopMeant (v : Vars) (r : List Sel × Nat × Aliases × List Action) : List (List Named) :=
  meant v r.1 ++ r.2.2.2.flatMap (meantAct v)

theorem finish_meant {path : MPath} {r : List Sel × Nat × Aliases × List Action} {us : List Sel} {c : Nat}
    {al : Aliases} (h : finish path (.ok r) = .ok (us, c, al)) : meant v us = loopMeant v r := by
  simp only [Fetch.finish, Except.ok.injEq, Prod.mk.injEq] at h
  rw [← h.1, runActions_meant]
  rfl

theorem resolve_meant {used : Bool × Bool} {s : Sel} {i : Nat} {acts : List Action}
    (h : resolve used s i = .ok acts) : acts.flatMap (meantAct v) = meantBy v s := by
  unfold resolve at h
  split at h <;> cases h <;> simp [meantAct]

theorem mem_mid {a b : List Sel} {x : Sel} {z : List Named} :
    z ∈ meant v (a ++ x :: b) ↔ z ∈ meant v a ∨ z ∈ meantBy v x ∨ z ∈ meant v b := by
  simp [meant_append, meant]

theorem meantBy_field {f g : FieldInfo} {ss us us' : List Sel} (hc : condOf f = condOf g) (hn : f.name = g.name)
    (ha : argsOf f = argsOf g) (hu : ∀ z, z ∈ meant v us' ↔ z ∈ meant v us ∨ z ∈ meant v ss) (z : List Named) :
    z ∈ meantBy v (.field g us') ↔ z ∈ meantBy v (.field g us) ∨ z ∈ meantBy v (.field f ss) := by
  simp only [meantBy, hc, hn, ha]
  split
  · simp only [List.mem_cons, List.mem_map]
    constructor
    · rintro (h | ⟨y, hy, rfl⟩)
      · exact .inl (.inl h)
      · rcases (hu y).1 hy with hy | hy
        · exact .inl (.inr ⟨y, hy, rfl⟩)
        · exact .inr (.inr ⟨y, hy, rfl⟩)
    · rintro ((h | ⟨y, hy, rfl⟩) | (h | ⟨y, hy, rfl⟩))
      · exact .inl h
      · exact .inr ⟨y, (hu y).2 (.inl hy), rfl⟩
      · exact .inl h
      · exact .inr ⟨y, (hu y).2 (.inr hy), rfl⟩
  · simp

theorem meantBy_frag {f g : FragInfo} {ss us us' : List Sel} (hc : fragCond f = fragCond g)
    (hu : ∀ z, z ∈ meant v us' ↔ z ∈ meant v us ∨ z ∈ meant v ss) (z : List Named) :
    z ∈ meantBy v (.frag g us') ↔ z ∈ meantBy v (.frag g us) ∨ z ∈ meantBy v (.frag f ss) := by
  simp only [meantBy, hc]
  split
  · exact hu z
  · simp

mutual
theorem safeItem_meant (used : Bool × Bool) : ∀ (s : Sel) {path : MPath} {ts ts' : List Sel} {c c' : Nat}
    {al : Aliases}, FitBy Unnamed (fun _ => True) s → safeItem used path s ts c = .ok (ts', c', al) →
    ∀ z, z ∈ meant v ts' ↔ z ∈ meant v ts ∨ z ∈ meantBy v s
  | .field f ss, path, ts, ts', c, c', al, hs, h => by
    intro z
    simp only [safeItem, safeInto] at h
    rcases updateIn_ok h with ⟨a, g, us, us', b, rfl, hp, hu, rfl⟩ | ⟨a, g, us, us', b, rfl, hp, hu, rfl⟩
    · simp only [sameKey, clashes, Bool.and_eq_true, beq_iff_eq, decide_eq_true_eq, Bool.not_eq_true',
        Bool.or_eq_false_iff, Bool.not_eq_false'] at hp
      obtain ⟨⟨hk, hc⟩, ha, hl⟩ := hp
      have hfa : f.alias = none := hs.1
      have hn : f.name = g.name := by
        have : g.alias = none := by rw [← hl, hfa]
        simpa [FieldInfo.key, hfa, this] using hk
      obtain ⟨x, hx⟩ := finish_ok hu
      rw [hx] at hu
      have key := fun z => (finish_meant (v := v) hu ▸ safeLoop_meant used ss hs.2 hx z :
        z ∈ meant v us' ↔ z ∈ meant v us ∨ z ∈ meant v ss)
      rw [mem_mid, mem_mid, meantBy_field hc hn (by simp [argsOf, ha]) key]
      constructor
      · rintro (h | (h | h) | h) <;> simp [h]
      · rintro ((h | h | h) | h) <;> simp [h]
    · simp [sameKey] at hp
  | .frag f ss, path, ts, ts', c, c', al, hs, h => by
    intro z
    simp only [safeItem, safeInto] at h
    rcases updateIn_ok h with ⟨a, g, us, us', b, rfl, hp, hu, rfl⟩ | ⟨a, g, us, us', b, rfl, hp, hu, rfl⟩
    · simp [sameKey] at hp
    · simp only [sameKey, Bool.and_eq_true, beq_iff_eq, decide_eq_true_eq] at hp
      obtain ⟨x, hx⟩ := finish_ok hu
      rw [hx] at hu
      have key := fun z => (finish_meant (v := v) hu ▸ safeLoop_meant used ss hs.2 hx z :
        z ∈ meant v us' ↔ z ∈ meant v us ∨ z ∈ meant v ss)
      rw [mem_mid, mem_mid, meantBy_frag hp.1.2 key]
      constructor
      · rintro (h | (h | h) | h) <;> simp [h]
      · rintro ((h | h | h) | h) <;> simp [h]
  | .spread _, _, _, _, _, _, _, _, h => by simp [safeItem] at h
theorem safeLoop_meant (used : Bool × Bool) : ∀ (ss : List Sel) {path : MPath} {ts : List Sel} {c : Nat}
    {r : List Sel × Nat × Aliases × List Action}, Fit Unnamed (fun _ => True) ss →
    safeLoop used path ss ts c = .ok r → ∀ z, z ∈ loopMeant v r ↔ z ∈ meant v ts ∨ z ∈ meant v ss
  | [], path, ts, c, r, _, h => by
    simp only [safeLoop] at h
    cases h
    intro z
    simp [loopMeant, meant]
  | s :: l, path, ts, c, r, hs, h => by
    simp only [safeLoop] at h
    split at h
    next => cases h
    next =>
      split at h
      next =>
        split at h
        next => cases h
        next ts1 c1 al1 hi =>
          have k := safeItem_meant used s hs.1 hi
          split at h
          next => cases h
          next ts2 c2 al2 acts hl =>
            cases h
            intro z
            have j := safeLoop_meant used l hs.2 hl z
            simp only [loopMeant, meant, List.mem_append] at j ⊢
            rw [j, k z, or_assoc]
      next =>
        split at h
        next => cases h
        next now hnow =>
          split at h
          next => cases h
          next ts2 c2 al2 acts hl =>
            cases h
            intro z
            have j := safeLoop_meant used l hs.2 hl z
            have e : now.flatMap (meantAct v) = meantBy v s := by
              split at hnow
              next => cases hnow; simp [meantAct]
              next => exact resolve_meant hnow
            simp only [loopMeant, meant, List.mem_append, List.flatMap_append, e] at j ⊢
            constructor
            · rintro (h | h | h)
              · rcases j.1 (.inl h) with h | h <;> simp [h]
              · simp [h]
              · rcases j.1 (.inr h) with h | h <;> simp [h]
            · rintro (h | h | h)
              · rcases j.2 (.inl h) with h | h <;> simp [h]
              · simp [h]
              · rcases j.2 (.inr h) with h | h <;> simp [h]
end

theorem safeMerge_meant {used : Bool × Bool} {path : MPath} {ss ts us : List Sel} {c c' : Nat} {al : Aliases}
    (hs : Fit Unnamed (fun _ => True) ss) (h : safeMerge used path ss ts c = .ok (us, c', al)) (z : List Named) :
    z ∈ meant v us ↔ z ∈ meant v ts ∨ z ∈ meant v ss := by
  simp only [safeMerge] at h
  obtain ⟨x, hx⟩ := finish_ok h
  rw [hx] at h
  rw [finish_meant h]
  exact safeLoop_meant used ss hs hx z

/-! ## Fields of the client keep their response keys -/

/-- An action that leaves what is there alone. -/
def Action.adds : Action → Bool
  | .target _ => false
  | _ => true

theorem runActions_keeps {path : MPath} : ∀ {acts : List Action} {ts : List Sel} {c : Nat},
    acts.all Action.adds = true → ∃ r, (runActions path acts ts c).1 = ts ++ r
  | [], ts, c, _ => ⟨[], by simp [runActions]⟩
  | .copy s :: l, ts, c, h => by
    obtain ⟨r, hr⟩ := runActions_keeps (path := path) (acts := l) (ts := ts ++ [s]) (c := c)
      (by simpa [Action.adds] using h)
    exact ⟨s :: r, by simp [runActions, hr]⟩
  | .source s :: l, ts, c, h => by
    obtain ⟨r, hr⟩ := runActions_keeps (path := path) (acts := l)
      (ts := ts ++ [setAlias (nextAlias ts (2 * ts.length) c).1 s]) (c := (nextAlias ts (2 * ts.length) c).2)
      (by simpa [Action.adds] using h)
    exact ⟨setAlias (nextAlias ts (2 * ts.length) c).1 s :: r, by simp [runActions, hr]⟩
  | .target i :: l, ts, c, h => by simp [Action.adds] at h

theorem finish_stays {path : MPath} {ts : List Sel} {r : List Sel × Nat × Aliases × List Action} {us : List Sel}
    {c : Nat} {al : Aliases} (hr : Keeps v ts r.1 ∧ r.2.2.2.all Action.adds = true)
    (h : finish path (.ok r) = .ok (us, c, al)) : Keeps v ts us := by
  simp only [Fetch.finish, Except.ok.injEq, Prod.mk.injEq] at h
  obtain ⟨q, hq⟩ := runActions_keeps (path := path) (ts := r.1) (c := r.2.1) hr.2
  rw [← h.1, hq]
  exact hr.1.trans Keeps.left

mutual
theorem safeItem_stays (req : Bool) : ∀ (s : Sel) {path : MPath} {ts ts' : List Sel} {c c' : Nat}
    {al : Aliases}, safeItem (false, req) path s ts c = .ok (ts', c', al) → Keeps v ts ts'
  | .field f ss, path, ts, ts', c, c', al, h => by
    simp only [safeItem, safeInto] at h
    rcases updateIn_ok h with ⟨a, g, us, us', b, rfl, hp, hu, rfl⟩ | ⟨a, g, us, us', b, rfl, hp, hu, rfl⟩
    · obtain ⟨x, hx⟩ := finish_ok hu
      rw [hx] at hu
      exact Keeps.mid (askedBy_field_mono rfl rfl (finish_stays (safeLoop_stays req ss hx) hu))
    · simp [sameKey] at hp
  | .frag f ss, path, ts, ts', c, c', al, h => by
    simp only [safeItem, safeInto] at h
    rcases updateIn_ok h with ⟨a, g, us, us', b, rfl, hp, hu, rfl⟩ | ⟨a, g, us, us', b, rfl, hp, hu, rfl⟩
    · simp [sameKey] at hp
    · obtain ⟨x, hx⟩ := finish_ok hu
      rw [hx] at hu
      exact Keeps.mid (askedBy_frag_mono rfl (finish_stays (safeLoop_stays req ss hx) hu))
  | .spread _, _, _, _, _, _, _, h => by simp [safeItem] at h
theorem safeLoop_stays (req : Bool) : ∀ (ss : List Sel) {path : MPath} {ts : List Sel} {c : Nat}
    {r : List Sel × Nat × Aliases × List Action}, safeLoop (false, req) path ss ts c = .ok r →
    Keeps v ts r.1 ∧ r.2.2.2.all Action.adds = true
  | [], path, ts, c, r, h => by
    simp only [safeLoop] at h
    cases h
    exact ⟨Keeps.refl, rfl⟩
  | s :: l, path, ts, c, r, h => by
    simp only [safeLoop] at h
    split at h
    next => cases h
    next =>
      split at h
      next =>
        split at h
        next => cases h
        next ts1 c1 al1 hi =>
          have k := safeItem_stays req s hi
          split at h
          next => cases h
          next ts2 c2 al2 acts hl =>
            cases h
            obtain ⟨j1, j2⟩ := safeLoop_stays req l hl
            exact ⟨k.trans j1, j2⟩
      next =>
        split at h
        next => cases h
        next now hnow =>
          split at h
          next => cases h
          next ts2 c2 al2 acts hl =>
            cases h
            obtain ⟨j1, j2⟩ := safeLoop_stays req l hl
            refine ⟨j1, ?_⟩
            have e : now.all Action.adds = true := by
              split at hnow
              next => cases hnow; rfl
              next => cases req <;> simp [resolve] at hnow <;> subst hnow <;> rfl
            simp [e, j2]
end

theorem safeMerge_stays {req : Bool} {path : MPath} {ss ts us : List Sel} {c c' : Nat} {al : Aliases}
    (h : safeMerge (false, req) path ss ts c = .ok (us, c', al)) : Keeps v ts us := by
  simp only [safeMerge] at h
  obtain ⟨x, hx⟩ := finish_ok h
  rw [hx] at h
  exact finish_stays (safeLoop_stays req ss hx) h

end Verif.Fetch
