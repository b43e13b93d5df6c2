import Verif.Reload.Props

/-!
# Reloading the supergraph: cases, and where the code does not have the property
-/

namespace Verif.Reload

namespace Ex

/-- The source changes from `a` to `b` while `a` is being built, then the supergraph `c` cannot be built. -/
def es : List Ev :=
  [ .hive [.failed, .ok (some 1) (some "a")], .send, .recv, .hive [.notModified], .hive [.ok (some 2) (some "b")],
    .send, .built true, .recv, .built true, .hive [.ok (some 3) (some "c")], .send, .recv, .built false,
    .hive [.failed, .failed] ]

end Ex

open Ex

/-- `C111_order`, `C111_keeps`: a run. -/
example : ∃ s, run .hive true St.start es = some s ∧ s.slot = some "b" ∧
    served .hive true St.start es = ["a", "b"] := by
  refine ⟨_, rfl, rfl, ?_⟩
  decide +kernel

theorem steps_run {k : Kind} {polls : Bool} {P : Ev → Prop} {w : Source} {es : List Ev} {s s' : St}
    (hp : ∀ e ∈ es, P e) (hh : ∀ e ∈ es, ∀ seen, Honest w seen e) (h : run k polls s es = some s') :
    Steps k polls P w s s' := by
  have key : ∀ s₀, Steps k polls P w s₀ s → Steps k polls P w s₀ s' := by
    induction es generalizing s with
    | nil => cases h; exact fun _ h => h
    | cons e es ih =>
      intro s₀ h0
      simp only [run] at h
      cases hs : step k polls s e with
      | none => rw [hs] at h; cases h
      | some s1 =>
        rw [hs] at h
        exact ih (fun e he => hp e (List.mem_cons_of_mem _ he)) (fun e he => hh e (List.mem_cons_of_mem _ he)) h
          s₀ (.step h0 (hp e List.mem_cons_self) (hh e List.mem_cons_self _) hs)
  exact key s .refl

theorem reach_run {k : Kind} {polls : Bool} {P : Ev → Prop} {later : Tag → Tag → Prop} {w : Source}
    {s s' : St} (h0 : Reach k polls P later w s) (h : Steps k polls P w s s') : Reach k polls P later w s' := by
  induction h with
  | refl => exact h0
  | step _ hp hh hs ih => exact .step ih hp hh hs

/-- `C112_fresh_partial`: a file that is changed between looking when it was modified and reading it. -/
example : ∃ w s e s₁ s₂, Reach .file true Good (· < ·) w s ∧ Good e ∧ Honest w s.seen e ∧
    step .file true s e = some s₁ ∧ Answered s₁ e ∧ Steps .file true Good w s₁ s₂ ∧ Settled s₂ ∧
    s₂.slot = some "b" ∧ s₂.seen = some 1 := by
  have r0 : Reach .file true Good (· < ·) { tag := 1, sdl := "a", past := [] } St.start := .start
  have r1 : Reach .file true Good (· < ·) { tag := 1, sdl := "a", past := [] }
      { St.start with pc := .reading 1 } :=
    .step (e := .stat (some 1)) r0 ⟨by simp [Builds], trivial, by simp⟩ (Or.inr rfl) rfl
  have r2 : Reach .file true Good (· < ·) { tag := 2, sdl := "b", past := [1] }
      { St.start with pc := .reading 1 } :=
    .publish r1 (by simp) (by simp) (by intro u hu; simp at hu; simp [hu])
  refine ⟨_, _, .read (some "b"), _, _, r2, ⟨by simp [Builds], trivial, by simp⟩, Or.inr rfl, rfl, by simp [Answered],
    steps_run (es := [.send, .recv, .built true]) ?_ ?_ rfl, ?_, rfl, rfl⟩
  · intro e he
    simp only [List.mem_cons, List.not_mem_nil, or_false] at he
    rcases he with rfl | rfl | rfl <;> exact ⟨by simp [Builds], trivial, by simp⟩
  · intro e he seen
    simp only [List.mem_cons, List.not_mem_nil, or_false] at he
    rcases he with rfl | rfl | rfl <;> trivial
  · exact ⟨fun x hx => (by cases hx), rfl, rfl⟩

/-- An answer of the source without its body, for each kind. -/
def again : Kind → List Ev
  | .file => [.stat (some 1)]
  | .hive => [.hive [.notModified]]
  | .storage => [.storage .notModified]
  | .uplink => [.uplink [.unchanged 1]]

/-- Asking for the first time, for each kind. -/
def first : Kind → List Ev
  | .file => [.stat (some 1), .read (some "a")]
  | .hive => [.hive [.ok (some 1) (some "a")]]
  | .storage => [.storage (.ok (some 1) (some "a"))]
  | .uplink => [.uplink [.result 1 "a"]]

/-- If building fails once, for whatever reason, the supergraph is not built again as long as the source
does not change: the router answers no request however often the source is asked. What is built includes
the persisted documents of a storage, which may be out of reach for a moment. -/
theorem C112_build_refuted (k : Kind) (n : Nat) :
    ∃ s, run k true St.start (first k ++ [.send, .recv, .built false]) = some s ∧ Settled s ∧
      run k true s (List.replicate n (again k)).flatten = some s ∧ s.slot = none := by
  have key : ∀ (s : St), run k true s (again k) = some s →
      run k true s (List.replicate n (again k)).flatten = some s := by
    intro s h
    have ha : ∀ es es' : List Ev, ∀ s s', run k true s es = some s' →
        run k true s (es ++ es') = run k true s' es' := by
      intro es es'
      induction es with
      | nil => intro s s' h; cases h; rfl
      | cons e es ih =>
        intro s s' h
        simp only [run] at h
        simp only [List.cons_append, run]
        cases hs : step k true s e with
        | none => rw [hs] at h; cases h
        | some s1 => rw [hs] at h; exact ih s1 s' h
    induction n with
    | zero => rfl
    | succ n ih =>
      rw [List.replicate_succ, List.flatten_cons, ha _ _ _ _ h]
      exact ih
  cases k <;> exact ⟨_, rfl, ⟨fun x hx => (by cases hx), rfl, rfl⟩, key _ rfl, rfl⟩

/-- The same is `Fresh`: it does not hold if building may fail. -/
theorem C112_build_fresh_refuted (k : Kind) : ¬ Fresh k true Whole (· < ·) := by
  intro h
  have r0 : Reach k true Whole (· < ·) { tag := 1, sdl := "a", past := [] } St.start := .start
  have hst : ∀ e ∈ [Ev.send, .recv, .built false], ∀ w seen, Whole e ∧ Honest w seen e := by
    intro e he w seen
    simp only [List.mem_cons, List.not_mem_nil, or_false] at he
    rcases he with rfl | rfl | rfl <;> exact ⟨trivial, trivial⟩
  cases k with
  | file =>
    have r1 := Reach.step (e := .stat (some 1)) r0 trivial (Or.inr rfl) rfl
    exact absurd (h _ _ (.read (some "a")) _ _ r1 trivial (Or.inr rfl) rfl (by simp [Answered])
      (steps_run (es := [.send, .recv, .built false]) (fun e he => (hst e he ⟨0, "", []⟩ none).1)
        (fun e he seen => (hst e he _ seen).2) rfl) ⟨fun x hx => (by cases hx), rfl, rfl⟩) (by simp [St.start, polled])
  | hive =>
    exact absurd (h _ _ (.hive [.ok (some 1) (some "a")]) _ _ r0 (by simp [Whole]) (by simp [Honest, HonestHttp]) rfl
      (by simp [Answered])
      (steps_run (es := [.send, .recv, .built false]) (fun e he => (hst e he ⟨0, "", []⟩ none).1)
        (fun e he seen => (hst e he _ seen).2) rfl) ⟨fun x hx => (by cases hx), rfl, rfl⟩) (by simp [St.start, polled, hivePoll])
  | storage =>
    exact absurd (h _ _ (.storage (.ok (some 1) (some "a"))) _ _ r0 trivial (by simp [Honest, HonestHttp]) rfl
      (by simp [Answered])
      (steps_run (es := [.send, .recv, .built false]) (fun e he => (hst e he ⟨0, "", []⟩ none).1)
        (fun e he seen => (hst e he _ seen).2) rfl) ⟨fun x hx => (by cases hx), rfl, rfl⟩) (by simp [St.start, polled, storagePoll])
  | uplink =>
    exact absurd (h _ _ (.uplink [.result 1 "a"]) _ _ r0 trivial (by simp [Honest, HonestUplink]) rfl
      (by simp [Answered])
      (steps_run (es := [.send, .recv, .built false]) (fun e he => (hst e he ⟨0, "", []⟩ none).1)
        (fun e he seen => (hst e he _ seen).2) rfl) ⟨fun x hx => (by cases hx), rfl, rfl⟩) (by simp [St.start, polled, uplinkPoll])

/-- If the connection to the CDN is lost while the body is read, the ETag of what was not read is kept, and
the CDN is right to say that nothing has changed: the router has the old supergraph, or none, although
the source answers every poll after that. -/
theorem C112_body_refuted : ¬ Fresh .hive true Builds (· < ·) := by
  intro h
  have r0 : Reach .hive true Builds (· < ·) { tag := 1, sdl := "a", past := [] } St.start := .start
  have r1 := Reach.step (e := .hive [.ok (some 1) none]) r0 (by simp [Builds])
    (by simp [Honest, HonestHttp]) rfl
  exact absurd (h _ _ (.hive [.notModified]) _ _ r1 (by simp [Builds])
    (by intro a ha; simp only [List.mem_singleton] at ha; subst ha; rfl) rfl
    ⟨_, List.mem_cons_self, by simp⟩ .refl ⟨fun x hx => (by cases hx), rfl, rfl⟩)
    (by simp [St.start, polled, hivePoll])

/-- If a file is replaced by one with an older time of modification, as when a release is rolled back, the
change is not seen. -/
theorem C112_time_refuted : ¬ Fresh .file true Good (fun _ _ => True) := by
  intro h
  let later : Tag → Tag → Prop := fun _ _ => True
  have good : ∀ e ∈ [Ev.stat (some 5), .read (some "a"), .send, .recv, .built true, .stat (some 3)], Good e := by
    intro e he
    simp only [List.mem_cons, List.not_mem_nil, or_false] at he
    rcases he with rfl | rfl | rfl | rfl | rfl | rfl <;> exact ⟨by simp [Builds], trivial, by simp⟩
  have r0 : Reach .file true Good later { tag := 5, sdl := "a", past := [] } St.start := .start
  have r1 := reach_run r0 (steps_run (es := [.stat (some 5), .read (some "a"), .send, .recv, .built true])
    (s' := { St.start with seen := some 5, slot := some "a" })
    (fun e he => good e (by simp only [List.mem_cons, List.not_mem_nil, or_false] at he ⊢; tauto))
    (by
      intro e he seen
      simp only [List.mem_cons, List.not_mem_nil, or_false] at he
      rcases he with rfl | rfl | rfl | rfl | rfl <;> simp [Honest]) rfl)
  have r2 : Reach .file true Good later { tag := 3, sdl := "b", past := [5] } _ :=
    .publish r1 (by simp) (by simp) (fun _ _ => trivial)
  exact absurd (h _ _ (.stat (some 3)) _ _ r2 (good _ (by simp)) (Or.inr rfl) rfl
    ⟨by simp, fun t ht => (by cases ht)⟩ .refl ⟨fun x hx => (by cases hx), rfl, rfl⟩)
    (by simp)

/-- A source that is not polled is asked once. If it cannot be reached then, it is never asked again, and
the router never answers a request. -/
theorem C112_once_refuted : ∃ s, run .storage false St.start [.storage .failed] = some s ∧
    ∀ es s', run .storage false s es = some s' → es = [] ∧ s'.slot = none := by
  refine ⟨_, rfl, fun es s' h => ?_⟩
  cases es with
  | nil => cases h; exact ⟨rfl, rfl⟩
  | cons e es =>
    exfalso
    simp only [run] at h
    cases e with
    | stat m => cases h
    | read c => cases h
    | hive as => cases h
    | storage a => cases h
    | uplink as => cases h
    | send => cases h
    | recv => cases h
    | built b => cases h

end Verif.Reload
