import Verif.Reload.Spec

/-!
# Reloading the supergraph: C111 and C112
-/

namespace Verif.Reload

/-! ## A bad supergraph does not replace a good one -/

/-- What is on its way to requests, the next first. -/
def pipeline (s : St) : List Sdl :=
  s.building.toList ++ s.chan.toList ++ (match s.pc with | .sending sdl => [sdl] | _ => [])

theorem find_flatMap {α : Type} {p : α → Bool} {f : α → List Sdl} {as : List α} {a : α}
    (h : as.find? p = some a) : (f a).Sublist (as.flatMap f) := by
  have hm := List.mem_of_find?_eq_some h
  obtain ⟨l, r, rfl⟩ := List.append_of_mem hm
  rw [List.flatMap_append, List.flatMap_cons]
  exact ((List.sublist_append_left _ _)).trans (List.sublist_append_right _ _)

theorem polled_pipeline (polls : Bool) (s : St) (l : Loaded × Option Tag) (bs : List Sdl)
    (hp : ∀ x, s.pc ≠ .sending x) (hb : ∀ x, l.1 = .changed x → [x].Sublist bs) :
    (pipeline (polled polls s l)).Sublist (pipeline s ++ bs) ∧ (polled polls s l).slot = s.slot := by
  obtain ⟨l, t⟩ := l
  have h0 : pipeline s = s.building.toList ++ s.chan.toList := by
    unfold pipeline
    cases h : s.pc <;> simp
    exact absurd h (hp _)
  have hrest : ∀ (s' : St), s'.building = s.building → s'.chan = s.chan → s'.pc = rest polls →
      pipeline s' = s.building.toList ++ s.chan.toList := by
    intro s' h1 h2 h3
    unfold pipeline
    rw [h1, h2, h3]
    cases polls <;> simp [rest]
  cases l with
  | changed x =>
    refine ⟨?_, rfl⟩
    rw [h0]
    simp only [polled, pipeline]
    exact List.Sublist.append (List.Sublist.refl _) (hb x rfl)
  | unchanged =>
    refine ⟨?_, rfl⟩
    rw [hrest (polled polls s (.unchanged, t)) rfl rfl rfl, h0]
    exact List.sublist_append_left _ _
  | failed =>
    refine ⟨?_, rfl⟩
    rw [hrest (polled polls s (.failed, t)) rfl rfl rfl, h0]
    exact List.sublist_append_left _ _

theorem hive_body {seen : Option Tag} {as : List Http} {x : Sdl}
    (h : (hivePoll seen as).1 = .changed x) : [x].Sublist (bodies (.hive as)) := by
  unfold hivePoll at h
  cases hf : as.find? (fun a => a ≠ .failed) with
  | none => rw [hf] at h; simp only at h; split at h <;> cases h
  | some a =>
    rw [hf] at h
    cases a with
    | failed => cases h
    | notModified => cases h
    | ok etag body =>
      cases body with
      | none => cases h
      | some b =>
        cases h
        exact find_flatMap (f := fun a => match a with | Http.ok _ b => b.toList | _ => []) hf

theorem storage_body {seen : Option Tag} {a : Http} {x : Sdl}
    (h : (storagePoll seen a).1 = .changed x) : [x].Sublist (bodies (.storage a)) := by
  cases a with
  | failed => cases h
  | notModified => cases h
  | ok etag body =>
    cases body with
    | none => cases h
    | some b => cases h; exact List.Sublist.refl _

theorem uplink_body {seen : Option Tag} {as : List Uplink} {x : Sdl}
    (h : (uplinkPoll seen as).1 = .changed x) : [x].Sublist (bodies (.uplink as)) := by
  unfold uplinkPoll at h
  cases hf : as.find? (fun a => a ≠ .failed) with
  | none => rw [hf] at h; cases h
  | some a =>
    rw [hf] at h
    cases a with
    | result id sdl =>
      cases h
      exact find_flatMap (f := fun a => match a with | Uplink.result _ sdl => [sdl] | _ => []) hf
    | _ => cases h

/-- One step: what it puts in the place of requests and what is on its way then was on its way before or
came from the source. -/
theorem step_pipeline {k : Kind} {polls : Bool} {s s' : St} {e : Ev} (h : step k polls s e = some s') :
    ((if e = .built true then s'.slot.toList else []) ++ pipeline s').Sublist (pipeline s ++ bodies e) ∧
    (e ≠ .built true → s'.slot = s.slot) ∧ (e = .built true → s'.slot ≠ none) := by
  have hidle : s.pc = .idle → ∀ x, s.pc ≠ .sending x := fun h x h' => by rw [h] at h'; cases h'
  cases e with
  | stat m =>
    simp only [step] at h
    split at h
    · rename_i hk
      have h0 : pipeline s = s.building.toList ++ s.chan.toList := by simp [pipeline, hk.2]
      have hr : ∀ pc, (∀ x, pc ≠ Pc.sending x) → pipeline { s with pc := pc } = pipeline s := by
        intro pc hpc
        rw [h0]
        unfold pipeline
        cases pc <;> simp
        exact absurd rfl (hpc _)
      have hrest : ∀ x, rest polls ≠ Pc.sending x := by
        intro x; unfold rest; split <;> simp
      cases m with
      | none =>
        cases h
        simp [hr _ hrest]
      | some t =>
        simp only at h
        split at h <;> cases h
        · simp [hr (.reading t) (by simp)]
        · simp [hr _ hrest]
    · cases h
  | read c =>
    simp only [step] at h
    cases hpc : s.pc with
    | reading t =>
      rw [hpc] at h
      have hns : ∀ x, s.pc ≠ .sending x := fun x h' => by rw [hpc] at h'; cases h'
      cases c with
      | some x =>
        cases h
        have := polled_pipeline polls s (.changed x, some t) [x] hns (fun y hy => by cases hy; simp)
        simpa [bodies] using this
      | none =>
        cases h
        have := polled_pipeline polls s (.failed, s.seen) [] hns (fun y hy => by cases hy)
        simpa [bodies] using this
    | idle => rw [hpc] at h; cases h
    | sending _ => rw [hpc] at h; cases h
    | ended => rw [hpc] at h; cases h
  | hive as =>
    simp only [step] at h
    split at h
    · rename_i hk
      cases h
      have := polled_pipeline polls s (hivePoll s.seen as) (bodies (.hive as)) (hidle hk.2)
        (fun x hx => hive_body hx)
      simpa using this
    · cases h
  | storage a =>
    simp only [step] at h
    split at h
    · rename_i hk
      cases h
      have := polled_pipeline polls s (storagePoll s.seen a) (bodies (.storage a)) (hidle hk.2)
        (fun x hx => storage_body hx)
      simpa using this
    · cases h
  | uplink as =>
    simp only [step] at h
    split at h
    · rename_i hk
      cases h
      have := polled_pipeline polls s (uplinkPoll s.seen as) (bodies (.uplink as)) (hidle hk.2)
        (fun x hx => uplink_body hx)
      simpa using this
    · cases h
  | send =>
    simp only [step] at h
    split at h
    · rename_i x h1 h2
      cases h
      have : (match rest polls with | Pc.sending sdl => [sdl] | _ => []) = ([] : List Sdl) := by
        cases polls <;> rfl
      simp [pipeline, h1, h2, this, bodies]
    · cases h
  | recv =>
    simp only [step] at h
    split at h
    · rename_i x h1 h2
      cases h
      simp [pipeline, h1, h2, bodies]
    · cases h
  | built ok =>
    simp only [step] at h
    split at h
    · rename_i x h1
      cases h
      cases ok
      · simp [pipeline, h1, bodies]
      · simp [pipeline, h1, bodies]
    · cases h

theorem getLast_append_or {α : Type} (l r : List α) : (l ++ r).getLast? = r.getLast?.or l.getLast? := by
  cases r with
  | nil => simp
  | cons x r =>
    rw [List.getLast?_append]

theorem served_run {k : Kind} {polls : Bool} {es : List Ev} {s s' : St} (h : run k polls s es = some s') :
    (served k polls s es).Sublist (pipeline s ++ es.flatMap bodies) ∧
    s'.slot = (served k polls s es).getLast?.or s.slot := by
  induction es generalizing s with
  | nil => cases h; simp [served]
  | cons e es ih =>
    simp only [run] at h
    cases hs : step k polls s e with
    | none => rw [hs] at h; cases h
    | some s1 =>
      rw [hs] at h
      obtain ⟨h1, h2⟩ := ih h
      obtain ⟨g1, g2, g3⟩ := step_pipeline hs
      simp only [served, hs]
      constructor
      · refine ((List.Sublist.refl _).append h1).trans ?_
        rw [← List.append_assoc, List.flatMap_cons, ← List.append_assoc]
        exact g1.append (List.Sublist.refl _)
      · rw [getLast_append_or, Option.or_assoc, h2]
        by_cases he : e = .built true
        · rw [if_pos he]
          cases hslot : s1.slot with
          | none => exact absurd hslot (g3 he)
          | some x => simp
        · rw [if_neg he, g2 he]
          simp

/-- What requests get is always what was built last, and what is built comes in the order in which the
source sent it: an older supergraph never replaces a newer one. -/
theorem C111_order {k : Kind} {polls : Bool} {es : List Ev} {s : St}
    (h : run k polls St.start es = some s) :
    (served k polls St.start es).Sublist (es.flatMap bodies) ∧
    s.slot = (served k polls St.start es).getLast? := by
  obtain ⟨h1, h2⟩ := served_run h
  refine ⟨by simpa [pipeline, St.start] using h1, ?_⟩
  rw [h2]
  simp [St.start]

/-- Once requests get a supergraph they always do, and it stays the same until another is built:
polls that fail, sources that do not answer and supergraphs that cannot be built change nothing. -/
theorem C111_keeps {k : Kind} {polls : Bool} {es : List Ev} {s s' : St} (h : run k polls s es = some s') :
    (s.slot ≠ none → s'.slot ≠ none) ∧ (Ev.built true ∉ es → s'.slot = s.slot) := by
  induction es generalizing s with
  | nil => cases h; simp
  | cons e es ih =>
    simp only [run] at h
    cases hs : step k polls s e with
    | none => rw [hs] at h; cases h
    | some s1 =>
      rw [hs] at h
      obtain ⟨h1, h2⟩ := ih h
      obtain ⟨_, g2, g3⟩ := step_pipeline hs
      constructor
      · intro hn
        by_cases he : e = .built true
        · exact h1 (g3 he)
        · exact h1 (by rw [g2 he]; exact hn)
      · intro hn
        have := List.not_mem_of_not_mem_cons hn
        rw [h2 this, g2 (fun he => hn (he ▸ List.mem_cons_self))]

/-! ## What the source has is what requests get -/

/-- The newest that is on its way, or what requests get. -/
def newest (s : St) : Option Sdl :=
  match s.pc with
  | .sending sdl => some sdl
  | _ => s.chan.or (s.building.or s.slot)

/-- What holds always: what is remembered has a name that the source has given, and if it is the name of
what the source has, that is the newest. -/
structure Inv (k : Kind) (later : Tag → Tag → Prop) (w : Source) (s : St) : Prop where
  seen : ∀ t, s.seen = some t → t = w.tag ∨ t ∈ w.past
  reading : ∀ t, s.pc = .reading t → t = w.tag ∨ t ∈ w.past
  newest : s.seen = some w.tag → newest s = some w.sdl
  past : ∀ u ∈ w.past, u ≠ w.tag ∧ later u w.tag

theorem newest_rest (polls : Bool) (s : St) (t : Option Tag) (h : ∀ x, s.pc ≠ .sending x) :
    newest { s with seen := t, pc := rest polls } = newest s := by
  unfold newest
  cases hp : s.pc with
  | sending x => exact absurd hp (h x)
  | _ => cases polls <;> simp [rest]

theorem newest_quiet {s s' : St} (h1 : ∀ x, s.pc ≠ .sending x) (h2 : ∀ x, s'.pc ≠ .sending x)
    (h3 : s'.chan = s.chan) (h4 : s'.building = s.building) (h5 : s'.slot = s.slot) :
    newest s' = newest s := by
  unfold newest
  cases hp : s.pc with
  | sending x => exact absurd hp (h1 x)
  | _ =>
    cases hp' : s'.pc with
    | sending x => exact absurd hp' (h2 x)
    | _ => simp [h3, h4, h5]

/-- How a poll ends, and what it has to do with the source. -/
theorem poll_ends {w : Source} {s : St} {polls : Bool} {l : Loaded × Option Tag}
    (hns : ∀ x, s.pc ≠ .sending x)
    (hn : s.seen = some w.tag → newest s = some w.sdl)
    (hold : ∀ t, s.seen = some t → t = w.tag ∨ t ∈ w.past)
    (hl : (∃ t, l = (.changed w.sdl, t) ∧ (∀ u, t = some u → u = w.tag ∨ u ∈ w.past)) ∨
      (l = (.failed, s.seen)) ∨ (l = (.unchanged, s.seen) ∧ s.seen = some w.tag)) :
    (∀ t, (polled polls s l).seen = some t → t = w.tag ∨ t ∈ w.past) ∧
    (∀ t, (polled polls s l).pc ≠ .reading t) ∧
    ((polled polls s l).seen = some w.tag → newest (polled polls s l) = some w.sdl) ∧
    (l.1 ≠ .failed → newest (polled polls s l) = some w.sdl) ∧
    (newest s = some w.sdl → newest (polled polls s l) = some w.sdl) := by
  have hr : ∀ t, rest polls ≠ Pc.reading t := by intro t; cases polls <;> simp [rest]
  rcases hl with ⟨t, rfl, ht⟩ | rfl | ⟨rfl, hs⟩
  · exact ⟨ht, fun t h => (by cases h), fun _ => rfl, fun _ => rfl, fun _ => rfl⟩
  · have he : newest (polled polls s (.failed, s.seen)) = newest s := newest_rest polls s _ hns
    exact ⟨hold, fun t h => hr t h, fun h => by rw [he]; exact hn h, fun h => absurd rfl h,
      fun h => by rw [he]; exact h⟩
  · have he : newest (polled polls s (.unchanged, s.seen)) = newest s := newest_rest polls s _ hns
    exact ⟨hold, fun t h => hr t h, fun h => by rw [he]; exact hn h, fun _ => by rw [he]; exact hn hs,
      fun h => by rw [he]; exact h⟩

theorem hive_ends {w : Source} {seen : Option Tag} {as : List Http} (hh : ∀ a ∈ as, HonestHttp w seen a)
    (hw : ∀ a ∈ as, ∀ etag, a ≠ .ok etag none) (hne : as ≠ []) :
    ((∃ t, hivePoll seen as = (.changed w.sdl, t) ∧ (∀ u, t = some u → u = w.tag ∨ u ∈ w.past)) ∨
      hivePoll seen as = (.failed, seen) ∨ (hivePoll seen as = (.unchanged, seen) ∧ seen = some w.tag)) ∧
    ((∃ a ∈ as, a ≠ .failed) → (hivePoll seen as).1 ≠ .failed) := by
  unfold hivePoll
  cases hf : as.find? (fun a => a ≠ .failed) with
  | none =>
    rw [List.find?_eq_none] at hf
    simp only []
    rw [if_neg hne]
    refine ⟨Or.inr (Or.inl rfl), fun ⟨a, ha, hn⟩ => ?_⟩
    exact absurd (by simpa using hf a ha) hn
  | some a =>
    have hm := List.mem_of_find?_eq_some hf
    have h1 := hh a hm
    have h2 := hw a hm
    cases a with
    | failed =>
      have := List.find?_some hf
      simp at this
    | notModified => exact ⟨Or.inr (Or.inr ⟨rfl, h1⟩), fun _ h => by cases h⟩
    | ok etag body =>
      cases body with
      | none => exact absurd rfl (h2 etag)
      | some b =>
        obtain ⟨h1, hb⟩ := h1
        have hb : b = w.sdl := by simpa using hb
        subst hb
        refine ⟨Or.inl ⟨etag, rfl, fun u hu => ?_⟩, fun _ h => by cases h⟩
        rcases h1 with h1 | h1
        · rw [h1] at hu; cases hu
        · rw [h1] at hu; cases hu; exact Or.inl rfl

theorem storage_ends {w : Source} {seen : Option Tag} {a : Http} (hh : HonestHttp w seen a) :
    ((∃ t, storagePoll seen a = (.changed w.sdl, t) ∧ (∀ u, t = some u → u = w.tag ∨ u ∈ w.past)) ∨
      storagePoll seen a = (.failed, seen) ∨ (storagePoll seen a = (.unchanged, seen) ∧ seen = some w.tag)) ∧
    (a ≠ .failed ∧ (∀ etag, a ≠ .ok etag none) → (storagePoll seen a).1 ≠ .failed) := by
  cases a with
  | failed => exact ⟨Or.inr (Or.inl rfl), fun h => absurd rfl h.1⟩
  | notModified => exact ⟨Or.inr (Or.inr ⟨rfl, hh⟩), fun _ h => by cases h⟩
  | ok etag body =>
    cases body with
    | none => exact ⟨Or.inr (Or.inl rfl), fun h => absurd rfl (h.2 etag)⟩
    | some b =>
      obtain ⟨h1, hb⟩ := hh
      have hb : b = w.sdl := by simpa using hb
      subst hb
      refine ⟨Or.inl ⟨etag, rfl, fun u hu => ?_⟩, fun _ h => by cases h⟩
      rcases h1 with h1 | h1
      · rw [h1] at hu; cases hu
      · rw [h1] at hu; cases hu; exact Or.inl rfl

theorem uplink_ends {w : Source} {seen : Option Tag} {as : List Uplink}
    (hh : ∀ a ∈ as, HonestUplink w seen a) :
    ((∃ t, uplinkPoll seen as = (.changed w.sdl, t) ∧ (∀ u, t = some u → u = w.tag ∨ u ∈ w.past)) ∨
      uplinkPoll seen as = (.failed, seen) ∨ (uplinkPoll seen as = (.unchanged, seen) ∧ seen = some w.tag)) ∧
    ((∃ a, as.find? (fun a => a ≠ .failed) = some a ∧ a ≠ .fetchError) → (uplinkPoll seen as).1 ≠ .failed) := by
  unfold uplinkPoll
  cases hf : as.find? (fun a => a ≠ .failed) with
  | none => exact ⟨Or.inr (Or.inl rfl), fun ⟨a, ha, _⟩ => by cases ha⟩
  | some a =>
    have h1 := hh a (List.mem_of_find?_eq_some hf)
    cases a with
    | failed =>
      have := List.find?_some hf
      simp at this
    | result id sdl =>
      obtain ⟨rfl, rfl⟩ := h1
      exact ⟨Or.inl ⟨_, rfl, fun u hu => by cases hu; exact Or.inl rfl⟩, fun _ h => by cases h⟩
    | unchanged id =>
      obtain ⟨rfl, h2⟩ := h1
      refine ⟨Or.inr (Or.inr ⟨by rw [h2], h2⟩), fun _ h => by cases h⟩
    | fetchError => exact ⟨Or.inr (Or.inl rfl), fun ⟨a, ha, hn⟩ => by cases ha; exact absurd rfl hn⟩

/-- What is allowed: building succeeds, no body is lost and there are endpoints. -/
def Good (e : Ev) : Prop := Builds e ∧ Whole e ∧ e ≠ .hive []

theorem inv_step {k : Kind} {polls : Bool} {later : Tag → Tag → Prop} {w : Source} {s s' : St} {e : Ev}
    (hlater : k = .file → ∀ u t, later u t → u < t)
    (hi : Inv k later w s) (hg : Good e) (hh : Honest w s.seen e) (h : step k polls s e = some s') :
    Inv k later w s' ∧ (Answered s' e → newest s' = some w.sdl) ∧
    (newest s = some w.sdl → newest s' = some w.sdl) := by
  have hidle : s.pc = .idle → ∀ x, s.pc ≠ .sending x := fun h x h' => by rw [h] at h'; cases h'
  have hrr : ∀ t, rest polls ≠ Pc.reading t := by intro t; cases polls <;> simp [rest]
  have hrs : ∀ t, rest polls ≠ Pc.sending t := by intro t; cases polls <;> simp [rest]
  cases e with
  | stat m =>
    simp only [step] at h
    split at h
    · rename_i hk
      have hns := hidle hk.2
      cases m with
      | none =>
        cases h
        have he : newest { s with pc := rest polls } = newest s := newest_quiet hns hrs rfl rfl rfl
        exact ⟨⟨hi.seen, fun t ht => absurd ht (hrr t), fun hs => by rw [he]; exact hi.newest hs, hi.past⟩,
          fun ha => absurd rfl ha.1, fun hn => by rw [he]; exact hn⟩
      | some t =>
        have ht : t = w.tag := by simpa [Honest] using hh
        subst ht
        simp only at h
        split at h
        · cases h
          have he : newest { s with pc := .reading w.tag } = newest s :=
            newest_quiet hns (fun x hx => by cases hx) rfl rfl rfl
          exact ⟨⟨hi.seen, fun t ht => by cases ht; exact Or.inl rfl, fun hs => by rw [he]; exact hi.newest hs,
            hi.past⟩, fun ha => absurd rfl (ha.2 w.tag), fun hn => by rw [he]; exact hn⟩
        · rename_i hnew
          cases h
          have he : newest { s with pc := rest polls } = newest s := newest_quiet hns hrs rfl rfl rfl
          have hseen : s.seen = some w.tag := by
            cases hs : s.seen with
            | none => rw [hs] at hnew; exact absurd rfl hnew
            | some u =>
              rw [hs] at hnew
              rcases hi.seen u hs with rfl | hu
              · rfl
              · have := hlater hk.1 _ _ (hi.past u hu).2
                exact absurd (by simpa [newer] using this) hnew
          exact ⟨⟨hi.seen, fun t ht => absurd ht (hrr t), fun hs => by rw [he]; exact hi.newest hs, hi.past⟩,
            fun _ => by rw [he]; exact hi.newest hseen, fun hn => by rw [he]; exact hn⟩
    · cases h
  | read c =>
    simp only [step] at h
    cases hpc : s.pc with
    | reading t =>
      rw [hpc] at h
      have hns : ∀ x, s.pc ≠ .sending x := fun x h' => by rw [hpc] at h'; cases h'
      cases c with
      | some x =>
        have hx : x = w.sdl := by simpa [Honest] using hh
        subst hx
        cases h
        obtain ⟨h1, h2, h3, h4, h5⟩ := poll_ends (polls := polls) (l := (.changed w.sdl, some t)) hns hi.newest
          hi.seen (Or.inl ⟨_, rfl, fun u hu => by cases hu; exact hi.reading t hpc⟩)
        exact ⟨⟨h1, fun t ht => absurd ht (h2 t), h3, hi.past⟩, fun _ => h4 (fun h => by cases h), h5⟩
      | none =>
        cases h
        obtain ⟨h1, h2, h3, h4, h5⟩ := poll_ends (polls := polls) (l := (.failed, s.seen)) hns hi.newest
          hi.seen (Or.inr (Or.inl rfl))
        exact ⟨⟨h1, fun t ht => absurd ht (h2 t), h3, hi.past⟩, fun ha => absurd rfl ha, h5⟩
    | idle => rw [hpc] at h; cases h
    | sending _ => rw [hpc] at h; cases h
    | ended => rw [hpc] at h; cases h
  | hive as =>
    simp only [step] at h
    split at h
    · rename_i hk
      cases h
      obtain ⟨g1, g2⟩ := hive_ends hh hg.2.1 (fun he => hg.2.2 (by rw [he]))
      obtain ⟨h1, h2, h3, h4, h5⟩ := poll_ends (polls := polls) (hidle hk.2) hi.newest hi.seen g1
      exact ⟨⟨h1, fun t ht => absurd ht (h2 t), h3, hi.past⟩, fun ha => h4 (g2 ha), h5⟩
    · cases h
  | storage a =>
    simp only [step] at h
    split at h
    · rename_i hk
      cases h
      obtain ⟨g1, g2⟩ := storage_ends hh
      obtain ⟨h1, h2, h3, h4, h5⟩ := poll_ends (polls := polls) (hidle hk.2) hi.newest hi.seen g1
      exact ⟨⟨h1, fun t ht => absurd ht (h2 t), h3, hi.past⟩, fun ha => h4 (g2 ha), h5⟩
    · cases h
  | uplink as =>
    simp only [step] at h
    split at h
    · rename_i hk
      cases h
      obtain ⟨g1, g2⟩ := uplink_ends hh
      obtain ⟨h1, h2, h3, h4, h5⟩ := poll_ends (polls := polls) (hidle hk.2) hi.newest hi.seen g1
      exact ⟨⟨h1, fun t ht => absurd ht (h2 t), h3, hi.past⟩, fun ha => h4 (g2 ha), h5⟩
    · cases h
  | send =>
    simp only [step] at h
    split at h
    · rename_i x h1 h2
      cases h
      have he : newest { s with pc := rest polls, chan := some x } = newest s := by
        have : newest s = some x := by simp [newest, h1]
        rw [this]
        cases polls <;> simp [newest, rest]
      exact ⟨⟨hi.seen, fun t ht => absurd ht (hrr t), fun hs => by rw [he]; exact hi.newest hs, hi.past⟩,
        fun ha => ha.elim, fun hn => by rw [he]; exact hn⟩
    · cases h
  | recv =>
    simp only [step] at h
    split at h
    · rename_i x h1 h2
      cases h
      have he : newest { s with chan := none, building := some x } = newest s := by
        unfold newest
        cases hp : s.pc <;> simp [h1]
      exact ⟨⟨hi.seen, hi.reading, fun hs => by rw [he]; exact hi.newest hs, hi.past⟩,
        fun ha => ha.elim, fun hn => by rw [he]; exact hn⟩
    · cases h
  | built ok =>
    simp only [step] at h
    split at h
    · rename_i x h1
      cases h
      have hok : ok = true := by
        cases ok
        · exact absurd rfl hg.1
        · rfl
      subst hok
      have he : newest { s with building := none, slot := if true then some x else s.slot } = newest s := by
        unfold newest
        cases hp : s.pc <;> simp [h1]
      exact ⟨⟨hi.seen, hi.reading, fun hs => by rw [he]; exact hi.newest hs, hi.past⟩,
        fun ha => ha.elim, fun hn => by rw [he]; exact hn⟩
    · cases h

theorem inv_reach {k : Kind} {polls : Bool} {later : Tag → Tag → Prop} {w : Source} {s : St}
    (hlater : k = .file → ∀ u t, later u t → u < t) (h : Reach k polls Good later w s) : Inv k later w s := by
  induction h with
  | start =>
    exact ⟨fun t h => (by cases h), fun t h => (by cases h), fun h => (by cases h), fun u h => (by cases h)⟩
  | @publish w s t sdl _ h1 h2 h3 ih =>
    refine ⟨fun u hu => Or.inr ?_, fun u hu => Or.inr ?_, fun hs => ?_, fun u hu => ?_⟩
    · exact List.mem_cons.2 (ih.seen u hu)
    · exact List.mem_cons.2 (ih.reading u hu)
    · rcases ih.seen t hs with h | h
      · exact absurd h h1
      · exact absurd h h2
    · have hu' := List.mem_cons.1 hu
      refine ⟨?_, h3 u hu'⟩
      rintro rfl
      exact hu'.elim h1 h2
  | step _ hp hh hs ih => exact (inv_step hlater ih hp hh hs).1

/-- If building succeeds and no body is lost: whenever the source was asked and answered after its last
change and nothing is on its way any more, requests get what the source has. A file has to be modified
at later and later times. What is missing: `C112_build_refuted`, `C112_body_refuted`,
`C112_time_refuted`, `C112_once_refuted`. -/
theorem C112_fresh_partial (k : Kind) (polls : Bool) (later : Tag → Tag → Prop)
    (hlater : k = .file → ∀ u t, later u t → u < t) : Fresh k polls Good later := by
  intro w s e s₁ s₂ hr hp hh hs ha hst hset
  have hi := inv_step hlater (inv_reach hlater hr) hp hh hs
  have hn : Inv k later w s₂ ∧ newest s₂ = some w.sdl := by
    clear hset
    induction hst with
    | refl => exact ⟨hi.1, hi.2.1 ha⟩
    | step _ hp hh hs ih =>
      have := inv_step hlater ih.1 hp hh hs
      exact ⟨this.1, this.2.2 ih.2⟩
  obtain ⟨h1, h2, h3⟩ := hset
  have := hn.2
  unfold newest at this
  cases hp : s₂.pc with
  | sending x => exact absurd hp (h1 x)
  | _ => rw [hp] at this; simpa [h2, h3] using this

end Verif.Reload
