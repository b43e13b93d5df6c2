import Verif.Fetch.Passes

/-!
# Lemmas: a fetch graph grows while it is built
-/

namespace Verif.Fetch

open Verif.Graph (OpKind Moves Edge Weight FieldMove Req)
open Verif.Walker (Cond Env)

variable {v : Vars}

/-- Nothing is said about fields. -/
abbrev anyField : FieldInfo → Prop := fun _ => True

mutual
theorem fitBy_any : ∀ x : Sel, FitBy anyField (fun _ => True) x
  | .field _ ss => ⟨trivial, fit_any ss⟩
  | .frag _ ss => ⟨trivial, fit_any ss⟩
  | .spread _ => trivial
theorem fit_any : ∀ ss : List Sel, Fit anyField (fun _ => True) ss
  | [] => trivial
  | x :: r => ⟨fitBy_any x, fit_any r⟩
end

theorem blind_any : Blind anyField := fun _ _ _ => trivial

/-- A step that asks for more. -/
structure Grown (v : Vars) (s s' : Step) : Prop where
  path : s'.path = s.path
  cond : s'.cond = s.cond
  service : s'.service = s.service
  entity : s'.entity = s.entity
  asks : ∀ x ∈ askedAll v s.output, x ∈ askedAll v s'.output

theorem Grown.refl {s : Step} : Grown v s s := ⟨rfl, rfl, rfl, rfl, fun _ h => h⟩

theorem Grown.trans {a b c : Step} (h : Grown v a b) (k : Grown v b c) : Grown v a c :=
  ⟨k.path.trans h.path, k.cond.trans h.cond, k.service.trans h.service, k.entity.trans h.entity,
    fun x hx => k.asks x (h.asks x hx)⟩

theorem Grown.on {s s' : Step} (h : Grown v s s') : s'.on v = s.on v := by
  simp [Step.on, h.path, h.cond]

/-- A graph with more steps and edges, whose steps ask for more. -/
structure Grow (v : Vars) (g g' : Graph) : Prop where
  steps : ∀ n s, g.get n = .ok s → ∃ s', g'.get n = .ok s' ∧ Grown v s s'
  edges : ∀ e ∈ g.edges, e ∈ g'.edges
  size : g.steps.length ≤ g'.steps.length

theorem Grow.refl {g : Graph} : Grow v g g := ⟨fun _ s h => ⟨s, h, .refl⟩, fun _ h => h, Nat.le_refl _⟩

theorem Grow.trans {a b c : Graph} (h : Grow v a b) (k : Grow v b c) : Grow v a c := by
  refine ⟨?_, fun e he => k.edges e (h.edges e he), Nat.le_trans h.size k.size⟩
  intro n s hs
  obtain ⟨s1, h1, h2⟩ := h.steps n s hs
  obtain ⟨s2, h3, h4⟩ := k.steps n s1 h1
  exact ⟨s2, h3, h2.trans h4⟩

theorem mem_stepAsked' {s : Step} {x : List String × Ask} :
    x ∈ s.asked v ↔ s.on v = true ∧ ∃ y ∈ askedAll v s.output, (pathKeys s.path ++ y.1, y.2) = x := by
  unfold Step.asked
  split
  next h => simp [h, askedAll]
  next h => simp [h]

theorem Grow.asked {g g' : Graph} (h : Grow v g g') {x : List String × Ask} (hx : x ∈ g.asked v) :
    x ∈ g'.asked v := by
  obtain ⟨n, s, hs, hx⟩ := mem_graphAsked.1 hx
  obtain ⟨s', hs', hg⟩ := h.steps n s hs
  obtain ⟨h1, y, hy, h2⟩ := mem_stepAsked'.1 hx
  exact mem_graphAsked.2 ⟨n, s', hs', mem_stepAsked'.2 ⟨hg.on ▸ h1, y, hg.asks y hy, by rw [hg.path]; exact h2⟩⟩

/-! ## Changes of graphs -/

theorem connect_get {g : Graph} {a b n : Nat} : (g.connect a b).get n = g.get n := by
  simp [Graph.get, connect_steps]

theorem connect_grow {g : Graph} {a b : Nat} : Grow v g (g.connect a b) :=
  ⟨fun _ s h => ⟨s, by rw [connect_get]; exact h, .refl⟩,
    fun e he => connect_edges.2 (.inr he), by rw [connect_steps]; exact Nat.le_refl _⟩

theorem add_get {g : Graph} {s t : Step} {n : Nat} :
    (g.add s).get n = .ok t ↔ g.get n = .ok t ∨ (n = g.steps.length ∧ t = s) := by
  simp only [get_ok, Graph.add]
  rcases Nat.lt_trichotomy n g.steps.length with h | h | h
  · simp only [List.getElem?_append_left h]
    constructor
    · exact .inl
    · rintro (h' | ⟨h', _⟩)
      · exact h'
      · omega
  · subst h
    simp [eq_comm]
  · rw [List.getElem?_append_right (by omega), List.getElem?_eq_none (by simp; omega),
      List.getElem?_eq_none (by omega)]
    constructor
    · simp
    · rintro (h' | ⟨h', _⟩)
      · simp at h'
      · omega

theorem add_grow {g : Graph} {s : Step} : Grow v g (g.add s) :=
  ⟨fun _ t h => ⟨t, add_get.2 (.inl h), .refl⟩, fun _ h => h, by simp [Graph.add]⟩

theorem get_length {g : Graph} {n : Nat} {s : Step} (h : g.get n = .ok s) : n < g.steps.length :=
  (List.getElem?_eq_some_iff.1 (get_ok.1 h)).1

theorem set_get' {g : Graph} {n m : Nat} {x z : Step} (hx : g.get n = .ok x) :
    (g.set n z).get m = if m = n then .ok z else g.get m := by
  have hl := get_length hx
  unfold Graph.get Graph.set
  by_cases h : m = n
  · subst h
    simp [hl]
  · rw [if_neg h]
    simp only [List.getElem?_set]
    rw [if_neg (Ne.symm h)]

theorem modify_ok {g g' : Graph} {n : Nat} {u : Step → Except Err Step} (h : g.modify n u = .ok g') :
    ∃ s s', g.get n = .ok s ∧ u s = .ok s' ∧ g' = g.set n s' := by
  unfold Graph.modify at h
  split at h
  next => cases h
  next s hs =>
    split at h
    next => cases h
    next s' hs' =>
      cases h
      exact ⟨s, s', hs, hs', rfl⟩

theorem modify_grow {g g' : Graph} {n : Nat} {u : Step → Except Err Step}
    (hu : ∀ s s', u s = .ok s' → Grown v s s') (h : g.modify n u = .ok g') : Grow v g g' := by
  obtain ⟨s, s', hs, hs', rfl⟩ := modify_ok h
  refine ⟨?_, fun _ h => h, by simp [Graph.set]⟩
  intro m t ht
  rw [set_get' hs]
  by_cases hm : m = n
  · subst hm
    rw [hs] at ht
    cases ht
    exact ⟨s', by simp, hu _ _ hs'⟩
  · exact ⟨t, by simp [hm, ht], .refl⟩

theorem modify_edges {g g' : Graph} {n : Nat} {u : Step → Except Err Step} (h : g.modify n u = .ok g') :
    g'.edges = g.edges := by
  obtain ⟨s, s', hs, hs', rfl⟩ := modify_ok h
  rfl

/-! ## Changes of steps -/

theorem addInput_grown {items : List Sel} {s s' : Step} (h : addInput items s = .ok s') : Grown v s s' := by
  unfold addInput at h
  split at h
  next => cases h
  next => cases h; exact ⟨rfl, rfl, rfl, rfl, fun _ h => h⟩

theorem addRewrite_grown {t : String} {s : Step} : Grown v s (addRewrite t s) := by
  unfold addRewrite
  split
  · exact .refl
  · exact ⟨rfl, rfl, rfl, rfl, fun _ h => h⟩

theorem addOutput_ok {path : MPath} {items : List Sel} {first : Bool} {s s' : Step}
    (h : addOutput path items first s = .ok s') : Grown v s s' ∧
      (pathHolds v path = true → ∀ x ∈ under (pathKeys path) (Fetch.asked v items), x ∈ askedAll v s'.output) := by
  unfold addOutput at h
  split at h
  next => cases h
  next o ho =>
    cases h
    unfold addPath at ho
    split at ho
    next => cases ho
    next t ht =>
      obtain ⟨h1, h2, _⟩ := addAt_adds (v := v) blind_any (fun o _ => fit_any o.2) (fit_any items) ho
      exact ⟨⟨rfl, rfl, rfl, rfl, h1⟩, h2⟩

theorem modify_output {g g' : Graph} {n : Nat} {path : MPath} {items : List Sel} {first : Bool}
    (h : g.modify n (addOutput path items first) = .ok g') : Grow v g g' ∧
    ∀ s, g.get n = .ok s → s.on v = true → pathHolds v path = true →
      ∀ x ∈ Fetch.asked v items, (pathKeys s.path ++ (pathKeys path ++ x.1), x.2) ∈ g'.asked v := by
  refine ⟨modify_grow (fun s s' h => (addOutput_ok h).1) h, ?_⟩
  intro s hs hon hp x hx
  obtain ⟨t, s', ht, hs', rfl⟩ := modify_ok h
  rw [hs] at ht
  cases ht
  obtain ⟨k1, k2⟩ := addOutput_ok (v := v) hs'
  refine mem_graphAsked.2 ⟨n, s', by rw [set_get' hs]; simp, mem_stepAsked'.2 ⟨k1.on ▸ hon,
    (pathKeys path ++ x.1, x.2), k2 hp _ (mem_under.2 ⟨x, hx, rfl⟩), by rw [k1.path]⟩⟩

theorem findChild_ok {g : Graph} {parent n : Nat} {p : Step → Bool} (h : findChild g parent p = some n) :
    ∃ s, g.get n = .ok s ∧ p s = true ∧ (parent, n) ∈ g.edges := by
  unfold findChild at h
  have h1 := List.find?_some h
  have h2 := List.mem_of_find?_eq_some h
  split at h1
  next s hs => exact ⟨s, get_ok.2 hs, h1, mem_children.1 h2⟩
  next => cases h1

theorem ensureStep_ok {g g' : Graph} {parent n : Nat} {service inType outType : String} {path : MPath} {key : Req}
    {c : Cond} {req : Bool} (h : ensureStep g parent service inType outType path key c req = .ok (g', n)) :
    Grow v g g' ∧ ∃ s, g'.get n = .ok s ∧ s.path = path ∧ s.cond = c ∧ s.service = service := by
  unfold ensureStep at h
  split at h
  next m hm =>
    cases h
    obtain ⟨s, h1, h2, _⟩ := findChild_ok hm
    simp only [reusable, Bool.and_eq_true, decide_eq_true_eq, beq_iff_eq] at h2
    exact ⟨.refl, s, h1, h2.1.1.1.2, h2.1.1.2, h2.1.1.1.1.1⟩
  next =>
    split at h
    next => cases h
    next s hs =>
      cases h
      refine ⟨add_grow, s, add_get.2 (.inr ⟨rfl, rfl⟩), ?_⟩
      have := addInput_grown (v := v) hs
      exact ⟨this.path, this.cond, this.service⟩

theorem ensureReqStep_ok {g g' : Graph} {parent n : Nat} {service type : String} {path : MPath}
    {c : Cond} {r : Req} (h : ensureReqStep g parent service type path c r = (g', n)) :
    Grow v g g' ∧ ∃ s, g'.get n = .ok s ∧ s.path = path ∧ s.cond = c ∧ s.service = service := by
  unfold ensureReqStep at h
  split at h
  next m hm =>
    cases h
    obtain ⟨s, h1, h2, _⟩ := findChild_ok hm
    simp only [reusableReq, Bool.and_eq_true, decide_eq_true_eq, beq_iff_eq] at h2
    exact ⟨.refl, s, h1, h2.1.2, h2.1.1.1.2, h2.1.1.1.1⟩
  next =>
    cases h
    exact ⟨add_grow, _, add_get.2 (.inr ⟨rfl, rfl⟩), rfl, rfl, rfl⟩

end Verif.Fetch
