import Verif.Traces.Model
import Mathlib.Data.List.Perm.Basic

/-!
# C118: no span gets lost unnoticed
-/

namespace Verif.Traces

/-! ## What the property is stated in -/

/-- The spans of traces. -/
def spansOf (ts : List Trace) : List Span := ts.flatMap (·.spans)

/-- The spans that wait in the channel. -/
def inChan (ms : List Msg) : List Span := ms.filterMap (fun m => match m with | .span x => some x | _ => none)

/-- What a trace that is exported consists of: of what the thread took, the spans of this trace from some point
on up to its root, in order and without gaps, but no more than the limit. -/
def Part (c : Cfg) (taken : List Span) (t : Trace) : Prop :=
  ∃ pre seg post r, taken = pre ++ seg ++ [r] ++ post ∧ r.trace = t.id ∧ r.root = true ∧
    (∀ x ∈ seg, x.trace = t.id → x.root = false) ∧
    t.spans = ((seg ++ [r]).filter (fun x => x.trace = t.id)).take c.maxSpans

/-- A trace that is not finished: the same, without the root. -/
def Begun (c : Cfg) (taken : List Span) (t : Trace) : Prop :=
  ∃ pre seg, taken = pre ++ seg ∧ (∀ x ∈ seg, x.trace = t.id → x.root = false) ∧
    t.spans = (seg.filter (fun x => x.trace = t.id)).take c.maxSpans

/-! ## The invariant -/

/-- How often a span is somewhere. -/
def places (s : St) (x : Span) : Nat :=
  (inChan s.chan).count x + (spansOf s.active).count x + (spansOf s.queue).count x +
    (spansOf s.tasks.flatten).count x + (spansOf s.exported.flatten).count x + s.dropped.count x

/-- See `C118`. -/
structure Inv (c : Cfg) (s : St) : Prop where
  all : ∀ x, s.sent.count x = places s x
  counted : s.dropped.length = s.count + s.countLimit
  ids : (s.active.map (·.id)).Nodup
  open_ : ∀ t ∈ s.active, t.ended = false
  room : s.active.length ≤ c.maxTraces
  begun : ∀ t ∈ s.active, Begun c s.taken t
  queue : ∀ t ∈ s.queue, Part c s.taken t
  tasks : ∀ b ∈ s.tasks, b.length ≤ c.batch ∧ ∀ t ∈ b, Part c s.taken t
  exported : ∀ b ∈ s.exported, b.length ≤ c.batch ∧ ∀ t ∈ b, Part c s.taken t
  few : s.tasks.length ≤ max 1 c.conc
  one : c.conc = 1 → s.tasks = []

theorem spansOf_append (a b : List Trace) : spansOf (a ++ b) = spansOf a ++ spansOf b := by
  simp [spansOf]

theorem inChan_append (a b : List Msg) : inChan (a ++ b) = inChan a ++ inChan b := by
  simp [inChan]

theorem count_filter_not (p : Trace → Bool) (ts : List Trace) (x : Span) :
    (spansOf ts).count x = (spansOf (ts.filter p)).count x + (spansOf (ts.filter (fun t => !p t))).count x := by
  induction ts with
  | nil => rfl
  | cons t ts ih =>
    have h : spansOf (t :: ts) = t.spans ++ spansOf ts := by simp [spansOf]
    rw [h, List.count_append, ih]
    cases hp : p t with
    | true =>
      have h1 : spansOf ((t :: ts).filter p) = t.spans ++ spansOf (ts.filter p) := by
        simp [spansOf, hp]
      have h2 : (t :: ts).filter (fun t => !p t) = ts.filter (fun t => !p t) := by simp [hp]
      rw [h1, h2, List.count_append]; omega
    | false =>
      have h1 : spansOf ((t :: ts).filter (fun t => !p t)) = t.spans ++ spansOf (ts.filter (fun t => !p t)) := by
        simp [spansOf, hp]
      have h2 : (t :: ts).filter p = ts.filter p := by simp [hp]
      rw [h1, h2, List.count_append]; omega

/-- Traces other than one. -/
def others (ts : List Trace) (k : Nat) : List Trace := ts.filter (fun u => u.id ≠ k)

theorem count_find {ts : List Trace} {k : Nat} {t : Trace} (hn : (ts.map (·.id)).Nodup)
    (hf : ts.find? (fun t => t.id = k) = some t) (x : Span) :
    (spansOf ts).count x = (spansOf (others ts k)).count x + t.spans.count x := by
  induction ts with
  | nil => cases hf
  | cons u ts ih =>
    rw [List.map_cons, List.nodup_cons] at hn
    have h : spansOf (u :: ts) = u.spans ++ spansOf ts := by simp [spansOf]
    rw [h, List.count_append]
    by_cases hu : u.id = k
    · rw [List.find?_cons_of_pos (by simpa using hu)] at hf
      obtain rfl : u = t := by simpa using hf
      have : others (u :: ts) k = ts := by
        unfold others
        rw [List.filter_cons_of_neg (by simpa using hu), List.filter_eq_self]
        intro v hv
        have : v.id ≠ k := fun e => hn.1 (List.mem_map.2 ⟨v, hv, by rw [e, hu]⟩)
        simpa using this
      rw [this]; omega
    · rw [List.find?_cons_of_neg (by simpa using hu)] at hf
      have : spansOf (others (u :: ts) k) = u.spans ++ spansOf (others ts k) := by
        simp [others, spansOf, hu]
      rw [this, List.count_append, ih hn.2 hf]; omega

theorem count_map {ts : List Trace} {k : Nat} {t : Trace} (t' : Trace) (hn : (ts.map (·.id)).Nodup)
    (hf : ts.find? (fun t => t.id = k) = some t) (x : Span) :
    (spansOf (ts.map (fun u => if u.id = k then t' else u))).count x =
      (spansOf (others ts k)).count x + t'.spans.count x := by
  induction ts with
  | nil => cases hf
  | cons u ts ih =>
    rw [List.map_cons, List.nodup_cons] at hn
    have h : ∀ v : Trace, ∀ vs, spansOf (v :: vs) = v.spans ++ spansOf vs := by simp [spansOf]
    rw [List.map_cons, h, List.count_append]
    by_cases hu : u.id = k
    · rw [if_pos hu]
      have h1 : others (u :: ts) k = ts := by
        unfold others
        rw [List.filter_cons_of_neg (by simpa using hu), List.filter_eq_self]
        intro v hv
        have : v.id ≠ k := fun e => hn.1 (List.mem_map.2 ⟨v, hv, by rw [e, hu]⟩)
        simpa using this
      have h2 : ts.map (fun u => if u.id = k then t' else u) = ts := by
        conv => rhs; rw [← List.map_id ts]
        apply List.map_congr_left
        intro v hv
        have : v.id ≠ k := fun e => hn.1 (List.mem_map.2 ⟨v, hv, by rw [e, hu]⟩)
        simp [this]
      rw [h1, h2]; omega
    · rw [if_neg hu, ]
      rw [List.find?_cons_of_neg (by simpa using hu)] at hf
      have : spansOf (others (u :: ts) k) = u.spans ++ spansOf (others ts k) := by
        simp [others, spansOf, hu]
      rw [this, List.count_append, ih hn.2 hf]; omega

/-! ## Sweeping and draining -/

theorem sweep_inv {c : Cfg} {s : St} (h : Inv c s) : Inv c (sweep c s) ∧ (sweep c s).queue = s.queue ∧
    (sweep c s).active.Sublist s.active := by
  have hdone : s.active.filter (fun t => t.ended && !t.spans.isEmpty) = [] := by
    rw [List.filter_eq_nil_iff]
    intro t ht
    simp [h.open_ t ht]
  have hq : (sweep c s).queue = s.queue := by
    show s.queue ++ s.active.filter (fun t => t.ended && !t.spans.isEmpty) = s.queue
    rw [hdone, List.append_nil]
  have ha : (sweep c s).active = s.active.filter (fun t => !expired c s.now t) := by
    show s.active.filter (fun t => !t.ended && !expired c s.now t) = _
    apply List.filter_congr
    intro t ht
    simp [h.open_ t ht]
  have hsub : (sweep c s).active.Sublist s.active := by rw [ha]; exact List.filter_sublist
  refine ⟨?_, hq, hsub⟩
  refine { all := ?_, counted := ?_, ids := ?_, open_ := ?_, room := ?_, begun := ?_, queue := ?_,
           tasks := h.tasks, exported := h.exported, few := h.few, one := h.one }
  · intro x
    have := h.all x
    unfold places at this ⊢
    rw [hq, ha]
    show s.sent.count x = _ + _ + _ + _ + _ + (s.dropped ++ (s.active.filter (expired c s.now)).flatMap (·.spans)).count x
    rw [List.count_append]
    have hs := count_filter_not (expired c s.now) s.active x
    unfold spansOf at hs this ⊢
    show s.sent.count x = (inChan s.chan).count x + _ + _ + ((s.tasks.flatten).flatMap (·.spans)).count x +
      ((s.exported.flatten).flatMap (·.spans)).count x + _
    omega
  · show (s.dropped ++ (s.active.filter (expired c s.now)).flatMap (·.spans)).length =
      s.count + ((s.active.filter (expired c s.now)).flatMap (·.spans)).length + s.countLimit
    rw [List.length_append, h.counted]; omega
  · exact (hsub.map _).nodup h.ids
  · intro t ht; exact h.open_ t (hsub.subset ht)
  · exact Nat.le_trans hsub.length_le h.room
  · intro t ht; exact h.begun t (hsub.subset ht)
  · rw [hq]; exact h.queue

theorem drain_inv {c : Cfg} {s : St} (h : Inv c s) : Inv c (drain s) := by
  have hdone : s.active.filter (fun t => t.ended && !t.spans.isEmpty) = [] := by
    rw [List.filter_eq_nil_iff]
    intro t ht
    simp [h.open_ t ht]
  have hq : (drain s).queue = s.queue := by
    show s.queue ++ s.active.filter (fun t => t.ended && !t.spans.isEmpty) = s.queue
    rw [hdone, List.append_nil]
  have hall : s.active.filter (fun t => !t.ended) = s.active := by
    rw [List.filter_eq_self]
    intro t ht
    simp [h.open_ t ht]
  refine { all := ?_, counted := ?_, ids := by simp [drain], open_ := by simp [drain],
           room := by simp [drain], begun := by simp [drain], queue := by rw [hq]; exact h.queue,
           tasks := h.tasks, exported := h.exported, few := h.few, one := h.one }
  · intro x
    have := h.all x
    unfold places at this ⊢
    rw [hq]
    show s.sent.count x = (inChan s.chan).count x + (spansOf []).count x + (spansOf s.queue).count x +
      (spansOf s.tasks.flatten).count x + (spansOf s.exported.flatten).count x +
      (s.dropped ++ (s.active.filter (fun t => !t.ended)).flatMap (·.spans)).count x
    rw [hall, List.count_append]
    have h0 : (spansOf []).count x = 0 := rfl
    have h1 : (s.active.flatMap (·.spans)).count x = (spansOf s.active).count x := rfl
    omega
  · show (s.dropped ++ (s.active.filter (fun t => !t.ended)).flatMap (·.spans)).length =
      s.count + ((s.active.filter (fun t => !t.ended)).flatMap (·.spans)).length + s.countLimit
    rw [List.length_append, h.counted]; omega

/-! ## A span -/

theorem Part.more {c : Cfg} {taken : List Span} {t : Trace} (h : Part c taken t) (x : Span) :
    Part c (taken ++ [x]) t := by
  obtain ⟨pre, seg, post, r, rfl, h⟩ := h
  exact ⟨pre, seg, post ++ [x], r, by simp, h⟩

theorem Begun.more {c : Cfg} {taken : List Span} {t : Trace} (h : Begun c taken t) {x : Span}
    (hx : x.trace ≠ t.id) : Begun c (taken ++ [x]) t := by
  obtain ⟨pre, seg, rfl, h1, h2⟩ := h
  refine ⟨pre, seg ++ [x], by simp, ?_, ?_⟩
  · intro y hy hyt
    rcases List.mem_append.1 hy with hy | hy
    · exact h1 y hy hyt
    · rw [List.mem_singleton] at hy; subst hy; exact absurd hyt hx
  · rw [h2]
    simp [List.filter_append, hx]

theorem take_add {l : List Span} {n : Nat} (x : Span) :
    (if (l.take n).length < n then l.take n ++ [x] else l.take n) = (l ++ [x]).take n := by
  rw [List.length_take]
  by_cases h : l.length < n
  · rw [if_pos (by omega), List.take_of_length_le (by omega), List.take_of_length_le (by simp; omega)]
  · rw [if_neg (by omega), List.take_append_of_le_length (by omega)]

theorem addSpan_spans (c : Cfg) {t : Trace} {x : Span} {seg : List Span} (hx : x.trace = t.id)
    (h : t.spans = (seg.filter (fun y => y.trace = t.id)).take c.maxSpans) :
    (addSpan c t x).spans = ((seg ++ [x]).filter (fun y => y.trace = t.id)).take c.maxSpans := by
  show (if t.spans.length < c.maxSpans then t.spans ++ [x] else t.spans) = _
  rw [h, take_add, List.filter_append]
  simp [hx]

theorem Begun.add {c : Cfg} {taken : List Span} {t : Trace} (h : Begun c taken t) {x : Span}
    (hx : x.trace = t.id) (hr : x.root = false) : Begun c (taken ++ [x]) (addSpan c t x) := by
  obtain ⟨pre, seg, rfl, h1, h2⟩ := h
  refine ⟨pre, seg ++ [x], by simp, ?_, addSpan_spans c hx h2⟩
  intro y hy hyt
  rcases List.mem_append.1 hy with hy | hy
  · exact h1 y hy hyt
  · rw [List.mem_singleton] at hy; subst hy; exact hr

theorem Begun.finish {c : Cfg} {taken : List Span} {t : Trace} (h : Begun c taken t) {x : Span}
    (hx : x.trace = t.id) (hr : x.root = true) : Part c (taken ++ [x]) (addSpan c t x) := by
  obtain ⟨pre, seg, rfl, h1, h2⟩ := h
  exact ⟨pre, seg, [], x, by simp, hx, hr, h1, addSpan_spans c hx h2⟩

/-- What is there but for the span that is being handled. -/
structure Mid (c : Cfg) (s : St) (x : Span) : Prop where
  all : ∀ y, s.sent.count y = places s y + [x].count y
  counted : s.dropped.length = s.count + s.countLimit
  ids : (s.active.map (·.id)).Nodup
  open_ : ∀ t ∈ s.active, t.ended = false
  room : s.active.length ≤ c.maxTraces
  begun : ∃ taken, s.taken = taken ++ [x] ∧ ∀ t ∈ s.active, Begun c taken t
  queue : ∀ t ∈ s.queue, Part c s.taken t
  tasks : ∀ b ∈ s.tasks, b.length ≤ c.batch ∧ ∀ t ∈ b, Part c s.taken t
  exported : ∀ b ∈ s.exported, b.length ≤ c.batch ∧ ∀ t ∈ b, Part c s.taken t
  few : s.tasks.length ≤ max 1 c.conc
  one : c.conc = 1 → s.tasks = []

theorem sweep_mid {c : Cfg} {s : St} {x : Span} (h : Mid c s x) : Mid c (sweep c s) x := by
  have hdone : s.active.filter (fun t => t.ended && !t.spans.isEmpty) = [] := by
    rw [List.filter_eq_nil_iff]
    intro t ht
    simp [h.open_ t ht]
  have hq : (sweep c s).queue = s.queue := by
    show s.queue ++ s.active.filter (fun t => t.ended && !t.spans.isEmpty) = s.queue
    rw [hdone, List.append_nil]
  have ha : (sweep c s).active = s.active.filter (fun t => !expired c s.now t) := by
    show s.active.filter (fun t => !t.ended && !expired c s.now t) = _
    apply List.filter_congr
    intro t ht
    simp [h.open_ t ht]
  have hsub : (sweep c s).active.Sublist s.active := by rw [ha]; exact List.filter_sublist
  refine { all := ?_, counted := ?_, ids := ?_, open_ := ?_, room := ?_, begun := ?_, queue := ?_,
           tasks := h.tasks, exported := h.exported, few := h.few, one := h.one }
  · intro y
    have := h.all y
    unfold places at this ⊢
    rw [hq, ha]
    show s.sent.count y = (inChan s.chan).count y + (spansOf (s.active.filter (fun t => !expired c s.now t))).count y +
      (spansOf s.queue).count y + (spansOf s.tasks.flatten).count y + (spansOf s.exported.flatten).count y +
      (s.dropped ++ spansOf (s.active.filter (expired c s.now))).count y + _
    rw [List.count_append]
    have hs := count_filter_not (expired c s.now) s.active y
    omega
  · show (s.dropped ++ (s.active.filter (expired c s.now)).flatMap (·.spans)).length =
      s.count + ((s.active.filter (expired c s.now)).flatMap (·.spans)).length + s.countLimit
    rw [List.length_append, h.counted]; omega
  · exact (hsub.map _).nodup h.ids
  · intro t ht; exact h.open_ t (hsub.subset ht)
  · exact Nat.le_trans hsub.length_le h.room
  · obtain ⟨tk, h1, h2⟩ := h.begun
    exact ⟨tk, h1, fun t ht => h2 t (hsub.subset ht)⟩
  · rw [hq]; exact h.queue

theorem drop_inv {c : Cfg} {s : St} {x : Span} (h : Mid c s x) (hx : ∀ t ∈ s.active, t.id ≠ x.trace) :
    Inv c (drop s x) := by
  obtain ⟨tk, h1, h2⟩ := h.begun
  refine { all := ?_, counted := ?_, ids := h.ids, open_ := h.open_, room := h.room, begun := ?_,
           queue := h.queue, tasks := h.tasks, exported := h.exported, few := h.few, one := h.one }
  · intro y
    have := h.all y
    unfold places at this ⊢
    show s.sent.count y = (inChan s.chan).count y + (spansOf s.active).count y + (spansOf s.queue).count y +
      (spansOf s.tasks.flatten).count y + (spansOf s.exported.flatten).count y + (s.dropped ++ [x]).count y
    rw [List.count_append]; omega
  · show (s.dropped ++ [x]).length = s.count + 1 + s.countLimit
    rw [List.length_append, h.counted, List.length_singleton]; omega
  · intro t ht
    show Begun c s.taken t
    rw [h1]
    exact (h2 t ht).more (fun e => hx t ht e.symm)

/-- What adding a span does to the counts. -/
theorem add_count (c : Cfg) (s : St) (t : Trace) (x y : Span) :
    (addSpan c t x).spans.count y + (addCount c s t x).dropped.count y =
      t.spans.count y + s.dropped.count y + [x].count y := by
  unfold addSpan addCount dropLimit
  by_cases h : t.spans.length < c.maxSpans
  · simp only [h, if_true, List.count_append]; omega
  · simp only [h, if_false, List.count_append]; omega

theorem add_counted (c : Cfg) (s : St) (t : Trace) (x : Span) (h : s.dropped.length = s.count + s.countLimit) :
    (addCount c s t x).dropped.length = (addCount c s t x).count + (addCount c s t x).countLimit := by
  unfold addCount dropLimit
  split
  · exact h
  · simp only [List.length_append, List.length_singleton]; omega

theorem add_same (c : Cfg) (s : St) (t : Trace) (x : Span) :
    (addCount c s t x).active = s.active ∧ (addCount c s t x).queue = s.queue ∧
    (addCount c s t x).tasks = s.tasks ∧ (addCount c s t x).exported = s.exported ∧
    (addCount c s t x).sent = s.sent ∧ (addCount c s t x).taken = s.taken ∧
    (addCount c s t x).chan = s.chan := by
  unfold addCount dropLimit
  split <;> exact ⟨rfl, rfl, rfl, rfl, rfl, rfl, rfl⟩

/-- A trace is finished with the span. -/
theorem finish_inv {c : Cfg} {s : St} {x : Span} {t : Trace} {as : List Trace} (h : Mid c s x)
    (hsub : as.Sublist s.active) (hne : ∀ u ∈ as, u.id ≠ x.trace) (ht : t.id = x.trace)
    (hb : ∃ tk, s.taken = tk ++ [x] ∧ Begun c tk t) (hr : x.root = true)
    (hc : ∀ y, (spansOf s.active).count y = (spansOf as).count y + t.spans.count y) :
    Inv c (enqueue { addCount c s t x with active := as } (addSpan c t x)) := by
  obtain ⟨tk, h1, h2⟩ := h.begun
  obtain ⟨tk', h1', hb⟩ := hb
  have htk : tk' = tk := List.append_cancel_right (h1'.symm.trans h1)
  subst htk
  obtain ⟨e1, e2, e3, e4, e5, e6, e7⟩ := add_same c s t x
  have hpart : Part c s.taken (addSpan c t x) := by rw [h1]; exact hb.finish ht.symm hr
  have key : Inv c { addCount c s t x with active := as, queue := s.queue ++ [addSpan c t x] } ∧
      ((addSpan c t x).spans = [] → Inv c { addCount c s t x with active := as }) := by
    have hall : ∀ y, s.sent.count y = (inChan s.chan).count y + (spansOf as).count y +
        ((spansOf s.queue).count y + (addSpan c t x).spans.count y) + (spansOf s.tasks.flatten).count y +
        (spansOf s.exported.flatten).count y + (addCount c s t x).dropped.count y := by
      intro y
      have := h.all y
      have hy := hc y
      have ha := add_count c s t x y
      unfold places at this
      omega
    constructor
    · refine { all := ?_, counted := add_counted c s t x h.counted, ids := (hsub.map _).nodup h.ids,
               open_ := fun u hu => h.open_ u (hsub.subset hu), room := Nat.le_trans hsub.length_le h.room,
               begun := ?_, queue := ?_, tasks := ?_, exported := ?_, few := ?_, one := ?_ }
      · intro y
        show (addCount c s t x).sent.count y = (inChan (addCount c s t x).chan).count y + (spansOf as).count y +
          (spansOf (s.queue ++ [addSpan c t x])).count y + (spansOf (addCount c s t x).tasks.flatten).count y +
          (spansOf (addCount c s t x).exported.flatten).count y + (addCount c s t x).dropped.count y
        rw [e3, e4, e5, e7, spansOf_append, List.count_append]
        have : spansOf [addSpan c t x] = (addSpan c t x).spans := by simp [spansOf]
        rw [this]; exact hall y
      · intro u hu
        show Begun c (addCount c s t x).taken u
        rw [e6, h1]
        exact (h2 u (hsub.subset hu)).more (fun e => hne u hu e.symm)
      · intro u hu
        show Part c (addCount c s t x).taken u
        rw [e6]
        rcases List.mem_append.1 hu with hu | hu
        · exact h.queue u hu
        · rw [List.mem_singleton] at hu; subst hu; exact hpart
      · show ∀ b ∈ (addCount c s t x).tasks, _ ∧ ∀ u ∈ b, Part c (addCount c s t x).taken u
        rw [e3, e6]; exact h.tasks
      · show ∀ b ∈ (addCount c s t x).exported, _ ∧ ∀ u ∈ b, Part c (addCount c s t x).taken u
        rw [e4, e6]; exact h.exported
      · show (addCount c s t x).tasks.length ≤ _
        rw [e3]; exact h.few
      · show _ → (addCount c s t x).tasks = []
        rw [e3]; exact h.one
    · intro he
      refine { all := ?_, counted := add_counted c s t x h.counted, ids := (hsub.map _).nodup h.ids,
               open_ := fun u hu => h.open_ u (hsub.subset hu), room := Nat.le_trans hsub.length_le h.room,
               begun := ?_, queue := ?_, tasks := ?_, exported := ?_, few := ?_, one := ?_ }
      · intro y
        show (addCount c s t x).sent.count y = (inChan (addCount c s t x).chan).count y + (spansOf as).count y +
          (spansOf (addCount c s t x).queue).count y + (spansOf (addCount c s t x).tasks.flatten).count y +
          (spansOf (addCount c s t x).exported.flatten).count y + (addCount c s t x).dropped.count y
        rw [e2, e3, e4, e5, e7]
        have := hall y
        rw [he, List.count_nil] at this
        exact this
      · intro u hu
        show Begun c (addCount c s t x).taken u
        rw [e6, h1]
        exact (h2 u (hsub.subset hu)).more (fun e => hne u hu e.symm)
      · show ∀ u ∈ (addCount c s t x).queue, Part c (addCount c s t x).taken u
        rw [e2, e6]; exact h.queue
      · show ∀ b ∈ (addCount c s t x).tasks, _ ∧ ∀ u ∈ b, Part c (addCount c s t x).taken u
        rw [e3, e6]; exact h.tasks
      · show ∀ b ∈ (addCount c s t x).exported, _ ∧ ∀ u ∈ b, Part c (addCount c s t x).taken u
        rw [e4, e6]; exact h.exported
      · show (addCount c s t x).tasks.length ≤ _
        rw [e3]; exact h.few
      · show _ → (addCount c s t x).tasks = []
        rw [e3]; exact h.one
  unfold enqueue
  split
  · rename_i he; exact key.2 he
  · show Inv c { addCount c s t x with active := as, queue := (addCount c s t x).queue ++ [addSpan c t x] }
    rw [e2]; exact key.1

/-- A trace goes on with the span. -/
theorem go_inv {c : Cfg} {s : St} {x : Span} {t : Trace} {as : List Trace} (h : Mid c s x)
    (hids : (as.map (·.id)).Nodup) (hlen : as.length ≤ c.maxTraces)
    (hmem : ∀ u ∈ as, u = addSpan c t x ∨ (u ∈ s.active ∧ u.id ≠ x.trace)) (ht : t.id = x.trace)
    (hb : ∃ tk, s.taken = tk ++ [x] ∧ Begun c tk t) (hr : x.root = false) (ho : t.ended = false)
    (hc : ∀ y, (spansOf as).count y + t.spans.count y = (spansOf s.active).count y + (addSpan c t x).spans.count y) :
    Inv c { addCount c s t x with active := as } := by
  obtain ⟨tk, h1, h2⟩ := h.begun
  obtain ⟨tk', h1', hb⟩ := hb
  have htk : tk' = tk := List.append_cancel_right (h1'.symm.trans h1)
  subst htk
  obtain ⟨e1, e2, e3, e4, e5, e6, e7⟩ := add_same c s t x
  refine { all := ?_, counted := add_counted c s t x h.counted, ids := hids,
           open_ := ?_, room := hlen, begun := ?_, queue := ?_, tasks := ?_, exported := ?_, few := ?_, one := ?_ }
  · intro y
    show (addCount c s t x).sent.count y = (inChan (addCount c s t x).chan).count y + (spansOf as).count y +
      (spansOf (addCount c s t x).queue).count y + (spansOf (addCount c s t x).tasks.flatten).count y +
      (spansOf (addCount c s t x).exported.flatten).count y + (addCount c s t x).dropped.count y
    rw [e2, e3, e4, e5, e7]
    have := h.all y
    have hy := hc y
    have ha := add_count c s t x y
    unfold places at this
    omega
  · intro u hu
    rcases hmem u hu with rfl | ⟨hu, -⟩
    · show (t.ended || x.root) = false
      rw [ho, hr]; rfl
    · exact h.open_ u hu
  · intro u hu
    show Begun c (addCount c s t x).taken u
    rw [e6, h1]
    rcases hmem u hu with rfl | ⟨hu, hne⟩
    · exact hb.add ht.symm hr
    · exact (h2 u hu).more (fun e => hne e.symm)
  · show ∀ u ∈ (addCount c s t x).queue, Part c (addCount c s t x).taken u
    rw [e2, e6]; exact h.queue
  · show ∀ b ∈ (addCount c s t x).tasks, _ ∧ ∀ u ∈ b, Part c (addCount c s t x).taken u
    rw [e3, e6]; exact h.tasks
  · show ∀ b ∈ (addCount c s t x).exported, _ ∧ ∀ u ∈ b, Part c (addCount c s t x).taken u
    rw [e4, e6]; exact h.exported
  · show (addCount c s t x).tasks.length ≤ _
    rw [e3]; exact h.few
  · show _ → (addCount c s t x).tasks = []
    rw [e3]; exact h.one

theorem newTrace_inv {c : Cfg} {s : St} {x : Span} (h : Mid c s x) (hx : ∀ t ∈ s.active, t.id ≠ x.trace)
    (hl : s.active.length < c.maxTraces) : Inv c (newTrace c s x) := by
  obtain ⟨tk, h1, h2⟩ := h.begun
  have hb : ∃ tk, s.taken = tk ++ [x] ∧ Begun c tk ⟨x.trace, [], false, s.now⟩ :=
    ⟨tk, h1, tk, [], by simp, by simp, by simp⟩
  unfold newTrace
  obtain ⟨e1, -⟩ := add_same c s ⟨x.trace, [], false, s.now⟩ x
  dsimp only
  cases hr : x.root with
  | true =>
    rw [if_pos rfl]
    have := finish_inv (t := ⟨x.trace, [], false, s.now⟩) (as := s.active) h (List.Sublist.refl _) hx rfl hb hr
      (fun y => by simp)
    rw [← e1] at this
    exact this
  | false =>
    rw [if_neg (by simp), e1]
    refine go_inv h ?_ ?_ ?_ rfl hb hr rfl ?_
    · rw [List.map_append, List.nodup_append]
      refine ⟨h.ids, by simp, ?_⟩
      intro a ha b hb e
      simp only [List.map_cons, List.map_nil, List.mem_singleton] at hb
      obtain ⟨u, hu, rfl⟩ := List.mem_map.1 ha
      exact hx u hu (e.trans hb)
    · simp; omega
    · intro u hu
      rcases List.mem_append.1 hu with hu | hu
      · exact .inr ⟨hu, hx u hu⟩
      · rw [List.mem_singleton] at hu; exact .inl hu
    · intro y
      rw [spansOf_append, List.count_append]
      simp [spansOf]

theorem handle_inv {c : Cfg} {s : St} {x : Span} (h : Mid c s x) : Inv c (handleSpan c s x) := by
  unfold handleSpan
  cases hf : s.active.find? (fun t => t.id = x.trace) with
  | none =>
    have hx : ∀ t ∈ s.active, t.id ≠ x.trace := by
      rw [List.find?_eq_none] at hf
      intro t ht e
      exact hf t ht (by simpa using e)
    dsimp only
    split
    · have hm := sweep_mid h
      have hx' : ∀ t ∈ (sweep c s).active, t.id ≠ x.trace :=
        fun t ht => hx t (List.mem_filter.1 (show t ∈ s.active.filter _ from ht)).1
      split
      · exact drop_inv hm hx'
      · exact newTrace_inv hm hx' (by omega)
    · exact newTrace_inv h hx (by omega)
  | some t =>
    have hm := List.mem_of_find?_eq_some hf
    have ht : t.id = x.trace := by simpa using List.find?_some hf
    obtain ⟨e1, -⟩ := add_same c s t x
    have hb : ∃ tk, s.taken = tk ++ [x] ∧ Begun c tk t := by
      obtain ⟨tk, h1, h2⟩ := h.begun
      exact ⟨tk, h1, h2 t hm⟩
    dsimp only
    rw [e1]
    cases hr : x.root with
    | true =>
      rw [if_pos (by simp [h.open_ t hm])]
      exact finish_inv h List.filter_sublist (fun u hu => by simpa using (List.mem_filter.1 hu).2) ht hb hr
        (fun y => count_find h.ids hf y)
    | false =>
      rw [if_neg (by simp)]
      refine go_inv h ?_ (by simpa using h.room) ?_ ht hb hr (h.open_ t hm) ?_
      · have : (s.active.map (fun u => if u.id = x.trace then addSpan c t x else u)).map (·.id) =
            s.active.map (·.id) := by
          rw [List.map_map]
          apply List.map_congr_left
          intro u _
          by_cases hu : u.id = x.trace
          · simp only [Function.comp, hu, if_true]; exact ht
          · simp [hu]
        rw [this]; exact h.ids
      · intro u hu
        obtain ⟨v, hv, rfl⟩ := List.mem_map.1 hu
        by_cases hv' : v.id = x.trace
        · rw [if_pos hv']; exact .inl rfl
        · rw [if_neg hv']; exact .inr ⟨hv, hv'⟩
      · intro y
        have h1 := count_find h.ids hf y
        have h2 := count_map (addSpan c t x) h.ids hf y
        omega

/-! ## Steps -/

/-- Only what the invariant speaks of matters. -/
theorem Inv.of {c : Cfg} {s s' : St} (h : Inv c s) (h1 : s'.active = s.active) (h2 : s'.queue = s.queue)
    (h3 : s'.tasks = s.tasks) (h4 : s'.exported = s.exported) (h5 : s'.count = s.count)
    (h6 : s'.countLimit = s.countLimit) (h7 : s'.dropped = s.dropped) (h8 : s'.taken = s.taken)
    (h9 : s'.sent = s.sent) (h10 : inChan s'.chan = inChan s.chan) : Inv c s' := by
  refine { all := ?_, counted := ?_, ids := ?_, open_ := ?_, room := ?_, begun := ?_, queue := ?_, tasks := ?_,
           exported := ?_, few := ?_, one := ?_ }
  · intro x; have := h.all x; unfold places at *; rw [h1, h2, h3, h4, h7, h9, h10]; exact this
  · rw [h5, h6, h7]; exact h.counted
  · rw [h1]; exact h.ids
  · rw [h1]; exact h.open_
  · rw [h1]; exact h.room
  · rw [h1, h8]; exact h.begun
  · rw [h2, h8]; exact h.queue
  · rw [h3, h8]; exact h.tasks
  · rw [h4, h8]; exact h.exported
  · rw [h3]; exact h.few
  · rw [h3]; exact h.one

theorem step_inv {c : Cfg} {s s' : St} {a : Act} (h : Inv c s) (hs : step c s a = some s') : Inv c s' := by
  cases a with
  | ended x =>
    simp only [step, Option.some.injEq] at hs
    subst hs
    split
    · refine { all := ?_, counted := h.counted, ids := h.ids, open_ := h.open_, room := h.room, begun := h.begun,
               queue := h.queue, tasks := h.tasks, exported := h.exported, few := h.few, one := h.one }
      intro y
      have := h.all y
      unfold places at *
      dsimp only
      rw [inChan_append, List.count_append, List.count_append]
      have : (inChan [Msg.span x]).count y = [x].count y := rfl
      omega
    · refine { all := ?_, counted := ?_, ids := h.ids, open_ := h.open_, room := h.room, begun := h.begun,
               queue := h.queue, tasks := h.tasks, exported := h.exported, few := h.few, one := h.one }
      · intro y
        have := h.all y
        unfold places at *
        simp only [drop, List.count_append]
        omega
      · have := h.counted
        simp only [drop, List.length_append, List.length_singleton]
        omega
  | askFlush =>
    simp only [step, Option.some.injEq] at hs
    subst hs
    split
    · exact h.of rfl rfl rfl rfl rfl rfl rfl rfl rfl (by rw [inChan_append]; simp [inChan])
    · exact h
  | ask =>
    simp only [step, Option.some.injEq] at hs
    subst hs
    split
    · exact h.of rfl rfl rfl rfl rfl rfl rfl rfl rfl (by rw [inChan_append]; simp [inChan])
    · exact h
  | sweepTick now =>
    simp only [step] at hs
    split at hs
    · cases hs
      have h1 : Inv c { s with now := now } := h.of rfl rfl rfl rfl rfl rfl rfl rfl rfl rfl
      have h2 := (sweep_inv h1).1
      split
      · exact h2.of rfl rfl rfl rfl rfl rfl rfl rfl rfl rfl
      · exact h2
    · cases hs
  | batchTick now =>
    simp only [step] at hs
    split at hs
    · cases hs
      split
      · exact h.of rfl rfl rfl rfl rfl rfl rfl rfl rfl rfl
      · exact h.of rfl rfl rfl rfl rfl rfl rfl rfl rfl rfl
    · cases hs
  | recv now =>
    simp only [step] at hs
    split at hs
    · cases hs
    · rename_i m ms hc
      split at hs
      · cases hs
        cases m with
        | span x =>
          have hm : Mid c { s with now := now, chan := ms, taken := s.taken ++ [x] } x := by
            refine { all := ?_, counted := h.counted, ids := h.ids, open_ := h.open_, room := h.room,
                     begun := ⟨s.taken, rfl, h.begun⟩, queue := fun t ht => (h.queue t ht).more x,
                     tasks := fun b hb => ⟨(h.tasks b hb).1, fun t ht => ((h.tasks b hb).2 t ht).more x⟩,
                     exported := fun b hb => ⟨(h.exported b hb).1, fun t ht => ((h.exported b hb).2 t ht).more x⟩,
                     few := h.few, one := h.one }
            intro y
            have := h.all y
            unfold places at *
            rw [hc] at this
            have hi : inChan (Msg.span x :: ms) = [x] ++ inChan ms := rfl
            rw [hi, List.count_append] at this
            dsimp only
            omega
          have hi := handle_inv hm
          simp only [process]
          split
          · exact hi.of rfl rfl rfl rfl rfl rfl rfl rfl rfl rfl
          · exact hi
        | flush =>
          have h1 : Inv c { s with now := now, chan := ms } :=
            h.of rfl rfl rfl rfl rfl rfl rfl rfl rfl (by rw [hc]; rfl)
          exact (sweep_inv h1).1.of rfl rfl rfl rfl rfl rfl rfl rfl rfl rfl
        | shutdown =>
          have h1 : Inv c { s with now := now, chan := ms } :=
            h.of rfl rfl rfl rfl rfl rfl rfl rfl rfl (by rw [hc]; rfl)
          exact (drain_inv h1).of rfl rfl rfl rfl rfl rfl rfl rfl rfl rfl
      · cases hs
  | spawn =>
    simp only [step] at hs
    split at hs
    · split at hs
      · cases hs
      · split at hs
        · cases hs
        · rename_i hne hroom
          generalize hk : s.queue.length - min s.queue.length c.batch = k at hs
          have hsplit : ∀ y, (spansOf s.queue).count y =
              (spansOf (s.queue.take k)).count y + (spansOf (s.queue.drop k).reverse).count y := by
            intro y
            have h1 : (spansOf (s.queue.drop k).reverse).count y = (spansOf (s.queue.drop k)).count y :=
              ((List.reverse_perm (s.queue.drop k)).flatMap_right (fun t : Trace => t.spans)).count_eq y
            rw [h1, ← List.count_append, ← spansOf_append, List.take_append_drop]
          have hlen : (s.queue.drop k).reverse.length ≤ c.batch := by
            rw [List.length_reverse, List.length_drop]; omega
          have hpart : ∀ t ∈ (s.queue.drop k).reverse, Part c s.taken t :=
            fun t ht => h.queue t (List.mem_of_mem_drop (List.mem_reverse.1 ht))
          split at hs
          · rename_i h1
            cases hs
            refine { all := ?_, counted := h.counted, ids := h.ids, open_ := h.open_, room := h.room,
                     begun := h.begun, queue := fun t ht => h.queue t (List.mem_of_mem_take ht),
                     tasks := h.tasks, exported := ?_, few := h.few, one := h.one }
            · intro y
              have := h.all y
              have hy := hsplit y
              unfold places at *
              dsimp only
              rw [List.flatten_append, spansOf_append, List.count_append]
              have : spansOf [(s.queue.drop k).reverse].flatten = spansOf (s.queue.drop k).reverse := by simp
              rw [this]; omega
            · intro b hb
              rcases List.mem_append.1 hb with hb | hb
              · exact h.exported b hb
              · rw [List.mem_singleton] at hb; subst hb; exact ⟨hlen, hpart⟩
          · rename_i h1
            cases hs
            refine { all := ?_, counted := h.counted, ids := h.ids, open_ := h.open_, room := h.room,
                     begun := h.begun, queue := fun t ht => h.queue t (List.mem_of_mem_take ht),
                     tasks := ?_, exported := h.exported, few := ?_, one := fun e => absurd e h1 }
            · intro y
              have := h.all y
              have hy := hsplit y
              unfold places at *
              dsimp only
              rw [List.flatten_append, spansOf_append, List.count_append]
              have : spansOf [(s.queue.drop k).reverse].flatten = spansOf (s.queue.drop k).reverse := by simp
              rw [this]; omega
            · intro b hb
              rcases List.mem_append.1 hb with hb | hb
              · exact h.tasks b hb
              · rw [List.mem_singleton] at hb; subst hb; exact ⟨hlen, hpart⟩
            · dsimp only
              rw [List.length_append, List.length_singleton]
              by_cases ht : s.tasks = []
              · rw [ht, List.length_nil]; omega
              · have : ¬ c.conc ≤ s.tasks.length := fun e => hroom ⟨ht, e⟩
                omega
    · cases hs
  | done i =>
    simp only [step] at hs
    split at hs
    · cases hs
    · split at hs
      · rename_i b hb
        cases hs
        have hmem : b ∈ s.tasks := List.mem_of_getElem? hb
        have hp : s.tasks.Perm (b :: s.tasks.eraseIdx i) := by
          obtain ⟨hi, rfl⟩ := List.getElem?_eq_some_iff.1 hb
          exact (List.getElem_cons_eraseIdx_perm hi).symm
        refine { all := ?_, counted := h.counted, ids := h.ids, open_ := h.open_, room := h.room,
                 begun := h.begun, queue := h.queue, tasks := fun b' hb' => h.tasks b' (List.mem_of_mem_eraseIdx hb'),
                 exported := ?_, few := ?_, one := ?_ }
        · intro y
          have := h.all y
          have h1 : (spansOf s.tasks.flatten).count y =
              (spansOf b).count y + (spansOf (s.tasks.eraseIdx i).flatten).count y := by
            have := ((hp.flatten).flatMap_right (fun t : Trace => t.spans)).count_eq y
            rw [List.flatten_cons] at this
            unfold spansOf
            rw [this, List.flatMap_append, List.count_append]
          unfold places at *
          dsimp only
          rw [List.flatten_append, spansOf_append, List.count_append]
          have : spansOf [b].flatten = spansOf b := by simp
          rw [this]; omega
        · intro b' hb'
          rcases List.mem_append.1 hb' with hb' | hb'
          · exact h.exported b' hb'
          · rw [List.mem_singleton] at hb'; subst hb'; exact h.tasks _ hmem
        · exact Nat.le_trans (List.eraseIdx_sublist ..).length_le h.few
        · intro e
          dsimp only
          rw [h.one e]; rfl
      · cases hs
  | settle =>
    simp only [step] at hs
    split at hs
    · split at hs
      · cases hs; exact h.of rfl rfl rfl rfl rfl rfl rfl rfl rfl rfl
      · cases hs
    · cases hs
  | waited =>
    simp only [step] at hs
    split at hs
    · cases hs; exact h.of rfl rfl rfl rfl rfl rfl rfl rfl rfl rfl
    · cases hs
  | halt =>
    simp only [step] at hs
    split at hs
    · cases hs; exact h.of rfl rfl rfl rfl rfl rfl rfl rfl rfl rfl
    · cases hs
  | gone =>
    simp only [step] at hs
    split at hs
    · cases hs; exact h.of rfl rfl rfl rfl rfl rfl rfl rfl rfl rfl
    · cases hs

theorem start_inv (c : Cfg) : Inv c St.start := by
  refine { all := fun x => rfl, counted := rfl, ids := by simp [St.start], open_ := by simp [St.start],
           room := Nat.zero_le _, begun := by simp [St.start], queue := by simp [St.start],
           tasks := by simp [St.start], exported := by simp [St.start], few := Nat.zero_le _, one := fun _ => rfl }

theorem run_inv {c : Cfg} {as : List Act} {s s' : St} (h : Inv c s) (hr : run c s as = some s') : Inv c s' := by
  induction as generalizing s with
  | nil => cases hr; exact h
  | cons a as ih =>
    obtain ⟨s1, h1, h2⟩ := Option.bind_eq_some_iff.1 hr
    exact ih (step_inv h h1) h2

/-- **C118.** At every point of every run, each span that has ended is in exactly one place: it waits in the
channel, in a trace that is not finished or in one that is to be exported, it was handed to the exporter, or it
was given up; and those that were given up are counted. -/
theorem C118_account {c : Cfg} {as : List Act} {s : St} (h : run c St.start as = some s) :
    s.sent.Perm (inChan s.chan ++ spansOf s.active ++ spansOf s.queue ++ spansOf s.tasks.flatten ++
      spansOf s.exported.flatten ++ s.dropped) ∧ s.dropped.length = s.count + s.countLimit := by
  have hi := run_inv (start_inv c) h
  refine ⟨List.perm_iff_count.2 (fun x => ?_), hi.counted⟩
  rw [hi.all x]
  simp only [places, List.count_append]

/-- **C118.** What is held is bounded: the number of traces that are not finished, the spans of each, the
traces in a batch and the batches that are exported at the same time. -/
theorem C118_bounded {c : Cfg} {as : List Act} {s : St} (h : run c St.start as = some s) :
    s.active.length ≤ c.maxTraces ∧ (∀ t ∈ s.active, t.spans.length ≤ c.maxSpans) ∧
    (∀ b ∈ s.exported, b.length ≤ c.batch ∧ ∀ t ∈ b, t.spans.length ≤ c.maxSpans) ∧
    s.tasks.length ≤ max 1 c.conc := by
  have hi := run_inv (start_inv c) h
  refine ⟨hi.room, ?_, ?_, hi.few⟩
  · intro t ht
    obtain ⟨pre, seg, -, -, h2⟩ := hi.begun t ht
    rw [h2, List.length_take]; omega
  · intro b hb
    refine ⟨(hi.exported b hb).1, ?_⟩
    intro t ht
    obtain ⟨pre, seg, post, r, -, -, -, -, h2⟩ := (hi.exported b hb).2 t ht
    rw [h2, List.length_take]; omega

/-- **C118.** What is exported is a trace up to its root: all its spans from some point on, in order, up to
the limit, and none of another trace. -/
theorem C118_whole {c : Cfg} {as : List Act} {s : St} (h : run c St.start as = some s) :
    ∀ b ∈ s.exported, ∀ t ∈ b, Part c s.taken t :=
  fun b hb t ht => ((run_inv (start_inv c) h).exported b hb).2 t ht

/-! ## The end -/

/-- Once shutdown is under way, no trace is open, and at its end, and at that of a
flush, none waits to be exported. -/
def Stop (s : St) : Prop :=
  (s.pc = .flushing .stop → s.active = []) ∧ (s.pc = .stopping → s.active = [] ∧ s.queue = []) ∧
  (s.pc = .waiting → s.queue = [])

theorem step_stop {c : Cfg} {s s' : St} {a : Act} (h : Stop s) (hs : step c s a = some s') : Stop s' := by
  cases a with
  | ended x =>
    simp only [step, Option.some.injEq] at hs
    subst hs
    split
    · exact h
    · exact h
  | askFlush =>
    simp only [step, Option.some.injEq] at hs
    subst hs
    split
    · exact h
    · exact h
  | ask =>
    simp only [step, Option.some.injEq] at hs
    subst hs
    split
    · exact h
    · exact h
  | sweepTick now =>
    simp only [step] at hs
    split at hs
    · rename_i hp
      cases hs
      split
      · exact ⟨(fun e => nomatch e), (fun e => nomatch e), (fun e => nomatch e)⟩
      · have : (sweep c { s with now := now }).pc = .idle := hp
        exact ⟨(fun e => nomatch this.symm.trans e), (fun e => nomatch this.symm.trans e), (fun e => nomatch this.symm.trans e)⟩
    · cases hs
  | batchTick now =>
    simp only [step] at hs
    split at hs
    · rename_i hp
      cases hs
      split
      · exact ⟨(fun e => nomatch hp.symm.trans e), (fun e => nomatch hp.symm.trans e), (fun e => nomatch hp.symm.trans e)⟩
      · exact ⟨(fun e => nomatch e), (fun e => nomatch e), (fun e => nomatch e)⟩
    · cases hs
  | recv now =>
    simp only [step] at hs
    split at hs
    · cases hs
    · rename_i m ms hc
      split at hs
      · rename_i hp
        cases hs
        cases m with
        | span x =>
          have hpc : ∀ s : St, ∀ t, (addCount c s t x).pc = s.pc := by
            intro s t; unfold addCount dropLimit; split <;> rfl
          have hen : ∀ s : St, ∀ t, (enqueue s t).pc = s.pc := by
            intro s t; unfold enqueue; split <;> rfl
          have hnew : ∀ s : St, (newTrace c s x).pc = s.pc := by
            intro s; unfold newTrace; dsimp only; split
            · rw [hen, hpc]
            · exact hpc _ _
          have hh : ∀ s : St, (handleSpan c s x).pc = s.pc := by
            intro s; unfold handleSpan; split
            · dsimp only; split
              · rw [hen]; exact hpc _ _
              · exact hpc _ _
            · split
              · dsimp only; split
                · rfl
                · rw [hnew]; rfl
              · exact hnew _
          simp only [process]
          split
          · exact ⟨(fun e => nomatch e), (fun e => nomatch e), (fun e => nomatch e)⟩
          · have := (hh { s with now := now, chan := ms, taken := s.taken ++ [x] }).trans hp
            exact ⟨(fun e => nomatch this.symm.trans e), (fun e => nomatch this.symm.trans e), (fun e => nomatch this.symm.trans e)⟩
        | flush => exact ⟨(fun e => nomatch e), (fun e => nomatch e), (fun e => nomatch e)⟩
        | shutdown => exact ⟨fun _ => rfl, (fun e => nomatch e), (fun e => nomatch e)⟩
      · cases hs
  | spawn =>
    simp only [step] at hs
    split at hs
    · rename_i a hp
      split at hs
      · cases hs
      · split at hs
        · cases hs
        · split at hs
          · cases hs; exact ⟨h.1, (fun e => nomatch hp.symm.trans e), (fun e => nomatch hp.symm.trans e)⟩
          · cases hs; exact ⟨h.1, (fun e => nomatch hp.symm.trans e), (fun e => nomatch hp.symm.trans e)⟩
    · cases hs
  | done i =>
    simp only [step] at hs
    split at hs
    · cases hs
    · split at hs
      · cases hs; exact h
      · cases hs
  | settle =>
    simp only [step] at hs
    split at hs
    · rename_i a hp
      split at hs
      · rename_i hq
        cases hs
        cases a with
        | back => exact ⟨(fun e => nomatch e), (fun e => nomatch e), (fun e => nomatch e)⟩
        | wait => exact ⟨(fun e => nomatch e), (fun e => nomatch e), fun _ => hq⟩
        | stop => exact ⟨(fun e => nomatch e), fun _ => ⟨h.1 hp, hq⟩, (fun e => nomatch e)⟩
      · cases hs
    · cases hs
  | waited =>
    simp only [step] at hs
    split at hs
    · cases hs; exact ⟨(fun e => nomatch e), (fun e => nomatch e), (fun e => nomatch e)⟩
    · cases hs
  | halt =>
    simp only [step] at hs
    split at hs
    · cases hs; exact ⟨(fun e => nomatch e), (fun e => nomatch e), (fun e => nomatch e)⟩
    · cases hs
  | gone =>
    simp only [step] at hs
    split at hs
    · cases hs; exact ⟨(fun e => nomatch e), (fun e => nomatch e), (fun e => nomatch e)⟩
    · cases hs

theorem run_stop {c : Cfg} {as : List Act} {s s' : St} (h : Stop s) (hr : run c s as = some s') : Stop s' := by
  induction as generalizing s with
  | nil => cases hr; exact h
  | cons a as ih =>
    obtain ⟨s1, h1, h2⟩ := Option.bind_eq_some_iff.1 hr
    exact ih (step_stop h h1) h2

/-- **C118.** When the thread has ended because it was told to shut down, and exports one batch at a time, each
span that ended before was handed to the exporter or is counted as dropped, save those that still were in the
channel, behind the message to shut down. Partial: not with more than one export at a time, and not when the
message could not be sent. -/
theorem C118_shutdown_partial {c : Cfg} (hc : c.conc = 1) {as : List Act} {s s' : St}
    (h : run c St.start as = some s) (hs : step c s .halt = some s') :
    s'.pc = .stopped ∧ s'.sent.Perm (inChan s'.chan ++ spansOf s'.exported.flatten ++ s'.dropped) ∧
    s'.dropped.length = s'.count + s'.countLimit := by
  have hi := run_inv (start_inv c) h
  have hp := run_stop (s := St.start) ⟨(fun e => nomatch e), (fun e => nomatch e), (fun e => nomatch e)⟩ h
  have hi' := step_inv hi hs
  simp only [step] at hs
  split at hs
  · rename_i hpc
    cases hs
    refine ⟨rfl, List.perm_iff_count.2 (fun x => ?_), hi'.counted⟩
    have := hi'.all x
    unfold places at this
    dsimp only at this ⊢
    rw [(hp.2.1 hpc).1, (hp.2.1 hpc).2, hi.one hc] at this
    rw [List.count_append, List.count_append, this]
    simp [spansOf]
  · cases hs

/-- **C118.** When a flush has been answered, nothing of what was complete waits any more, however many exports
run at a time: each span that ended was handed to the exporter, is counted as dropped, belongs to a trace that
is not finished, or is still in the channel. -/
theorem C118_flush {c : Cfg} {as : List Act} {s s' : St}
    (h : run c St.start as = some s) (hs : step c s .waited = some s') :
    s'.sent.Perm (inChan s'.chan ++ spansOf s'.active ++ spansOf s'.exported.flatten ++ s'.dropped) := by
  have hp := run_stop (s := St.start) ⟨(fun e => nomatch e), (fun e => nomatch e), (fun e => nomatch e)⟩ h
  have hi' := step_inv (run_inv (start_inv c) h) hs
  simp only [step] at hs
  split at hs
  · rename_i hpc
    cases hs
    refine List.perm_iff_count.2 (fun x => ?_)
    have := hi'.all x
    unfold places at this
    dsimp only at this ⊢
    rw [hp.2.2 hpc.1, hpc.2] at this
    rw [List.count_append, List.count_append, List.count_append, this]
    simp [spansOf]
  · cases hs

/-! ## What goes on in time -/

/-- **C118.** A round of exporting gets on: with batches of at least one trace, each round takes traces from
those that wait, so exporting comes to an end. -/
theorem C118_progress {c : Cfg} (hb : 0 < c.batch) {s s' : St} (hs : step c s .spawn = some s') :
    s'.queue.length < s.queue.length ∧ s'.queue.length = s.queue.length - min s.queue.length c.batch := by
  simp only [step] at hs
  split at hs
  · split at hs
    · cases hs
    · rename_i hq
      have hl : 0 < s.queue.length := List.length_pos_iff.2 hq
      split at hs
      · cases hs
      · split at hs <;> · cases hs; simp only [List.length_take]; omega
  · cases hs

/-- **C118.** A trace that is too old is gone with the next sweep, and its spans are counted; one that is not
stays. -/
theorem C118_sweep {c : Cfg} {as : List Act} {s s' : St} {now : Nat} (h : run c St.start as = some s)
    (hs : step c s (.sweepTick now) = some s') :
    s'.active = s.active.filter (fun t => now - t.first ≤ c.lifetime) ∧
    s'.dropped = s.dropped ++ spansOf (s.active.filter (fun t => c.lifetime < now - t.first)) := by
  have hi := run_inv (start_inv c) h
  simp only [step] at hs
  split at hs
  · cases hs
    have h1 : (sweep c { s with now := now }).active = s.active.filter (fun t => now - t.first ≤ c.lifetime) := by
      show s.active.filter (fun t => !t.ended && !expired c now t) = _
      apply List.filter_congr
      intro t ht
      rw [Bool.eq_iff_iff]
      simp [expired, hi.open_ t ht]
    have h2 : (sweep c { s with now := now }).dropped =
        s.dropped ++ spansOf (s.active.filter (fun t => c.lifetime < now - t.first)) := by
      show s.dropped ++ (s.active.filter (expired c now)).flatMap (·.spans) = _
      unfold spansOf
      congr 2
      apply List.filter_congr
      intro t ht
      simp [expired, hi.open_ t ht]
    split
    · exact ⟨h1, h2⟩
    · exact ⟨h1, h2⟩
  · cases hs

/-- Why a span is given up in a step: it ended while the channel was full or the thread gone; it was taken while
there were as many unfinished traces as allowed, or its trace had as many spans as allowed; or it belongs to an
unfinished trace that is too old, or that is unfinished at shutdown. -/
def Reason (c : Cfg) (s : St) (a : Act) (x : Span) : Prop :=
  (a = .ended x ∧ (s.pc = .stopped ∨ c.cap ≤ s.chan.length)) ∨
  (∃ now, a = .recv now ∧ s.chan.head? = some (.span x) ∧
    (c.maxTraces ≤ s.active.length ∨ c.maxSpans = 0 ∨
      ∃ t ∈ s.active, t.id = x.trace ∧ c.maxSpans ≤ t.spans.length)) ∨
  (∃ t ∈ s.active, x ∈ t.spans ∧
    ((∃ now, (a = .recv now ∨ a = .sweepTick now) ∧ c.lifetime < now - t.first) ∨
      ∃ now, a = .recv now ∧ s.chan.head? = some .shutdown))

theorem addCount_dropped (c : Cfg) (s : St) (t : Trace) (x : Span) :
    ∃ ds, (addCount c s t x).dropped = s.dropped ++ ds ∧ ∀ y ∈ ds, y = x ∧ c.maxSpans ≤ t.spans.length := by
  unfold addCount dropLimit
  split
  · exact ⟨[], by simp, by simp⟩
  · rename_i h
    exact ⟨[x], rfl, fun y hy => ⟨List.mem_singleton.1 hy, by omega⟩⟩

theorem enqueue_dropped (s : St) (t : Trace) : (enqueue s t).dropped = s.dropped := by
  unfold enqueue; split <;> rfl

theorem newTrace_dropped (c : Cfg) (s : St) (x : Span) :
    ∃ ds, (newTrace c s x).dropped = s.dropped ++ ds ∧ ∀ y ∈ ds, y = x ∧ c.maxSpans = 0 := by
  obtain ⟨ds, h1, h2⟩ := addCount_dropped c s ⟨x.trace, [], false, s.now⟩ x
  refine ⟨ds, ?_, fun y hy => ⟨(h2 y hy).1, Nat.le_zero.1 (h2 y hy).2⟩⟩
  unfold newTrace
  dsimp only
  split
  · rw [enqueue_dropped]; exact h1
  · exact h1

theorem mem_expired {c : Cfg} {now : Nat} {ts : List Trace} {x : Span}
    (h : x ∈ (ts.filter (expired c now)).flatMap (·.spans)) :
    ∃ t ∈ ts, x ∈ t.spans ∧ c.lifetime < now - t.first := by
  obtain ⟨t, ht, hx⟩ := List.mem_flatMap.1 h
  obtain ⟨ht, he⟩ := List.mem_filter.1 ht
  simp only [expired, Bool.and_eq_true, decide_eq_true_eq] at he
  exact ⟨t, ht, hx, he.2⟩

/-- **C118.** Spans are given up for these reasons only. -/
theorem C118_reason {c : Cfg} {s s' : St} {a : Act} (hs : step c s a = some s') :
    ∃ ds, s'.dropped = s.dropped ++ ds ∧ ∀ x ∈ ds, Reason c s a x := by
  have none_ : ∀ {s' : St}, s'.dropped = s.dropped → ∃ ds, s'.dropped = s.dropped ++ ds ∧ ∀ x ∈ ds, Reason c s a x :=
    fun h => ⟨[], by rw [h, List.append_nil], by simp⟩
  cases a with
  | ended x =>
    simp only [step, Option.some.injEq] at hs
    subst hs
    split
    · exact none_ rfl
    · rename_i h
      refine ⟨[x], rfl, fun y hy => ?_⟩
      rw [List.mem_singleton] at hy
      subst hy
      refine .inl ⟨rfl, ?_⟩
      by_cases hp : s.pc = .stopped
      · exact .inl hp
      · exact .inr (Nat.le_of_not_lt (fun e => h ⟨hp, e⟩))
  | askFlush =>
    simp only [step, Option.some.injEq] at hs
    subst hs
    split <;> exact none_ rfl
  | ask =>
    simp only [step, Option.some.injEq] at hs
    subst hs
    split <;> exact none_ rfl
  | sweepTick now =>
    simp only [step] at hs
    split at hs
    · cases hs
      have key : ∃ ds, (sweep c { s with now := now }).dropped = s.dropped ++ ds ∧
          ∀ x ∈ ds, Reason c s (.sweepTick now) x := by
        refine ⟨_, rfl, fun x hx => ?_⟩
        obtain ⟨t, ht, hx, he⟩ := mem_expired hx
        exact .inr (.inr ⟨t, ht, hx, .inl ⟨now, .inr rfl, he⟩⟩)
      split <;> exact key
    · cases hs
  | batchTick now =>
    simp only [step] at hs
    split at hs
    · cases hs; split <;> exact none_ rfl
    · cases hs
  | recv now =>
    simp only [step] at hs
    split at hs
    · cases hs
    · rename_i m ms hc
      have hh : s.chan.head? = some m := by rw [hc]; rfl
      split at hs
      · cases hs
        cases m with
        | span x =>
          have key : ∃ ds, (handleSpan c { s with now := now, chan := ms, taken := s.taken ++ [x] } x).dropped =
              s.dropped ++ ds ∧ ∀ y ∈ ds, Reason c s (.recv now) y := by
            unfold handleSpan
            dsimp only
            split
            · rename_i t hf
              have hm := List.mem_of_find?_eq_some hf
              have ht : t.id = x.trace := by simpa using List.find?_some hf
              obtain ⟨ds, h1, h2⟩ := addCount_dropped c { s with now := now, chan := ms, taken := s.taken ++ [x] } t x
              refine ⟨ds, ?_, fun y hy => ?_⟩
              · split
                · rw [enqueue_dropped]; exact h1
                · exact h1
              · obtain ⟨rfl, hl⟩ := h2 y hy
                exact .inr (.inl ⟨now, rfl, hh, .inr (.inr ⟨t, hm, ht, hl⟩)⟩)
            · have hexp : ∀ y ∈ (s.active.filter (expired c now)).flatMap (·.spans), Reason c s (.recv now) y := by
                intro y hy
                obtain ⟨t, ht, hx, he⟩ := mem_expired hy
                exact .inr (.inr ⟨t, ht, hx, .inl ⟨now, .inl rfl, he⟩⟩)
              split
              · rename_i hroom
                split
                · refine ⟨(s.active.filter (expired c now)).flatMap (·.spans) ++ [x], ?_, ?_⟩
                  · simp only [drop, sweep, List.append_assoc]
                  · intro y hy
                    rcases List.mem_append.1 hy with hy | hy
                    · exact hexp y hy
                    · rw [List.mem_singleton] at hy
                      subst hy
                      exact .inr (.inl ⟨now, rfl, hh, .inl hroom⟩)
                · obtain ⟨ds, h1, h2⟩ := newTrace_dropped c
                    (sweep c { s with now := now, chan := ms, taken := s.taken ++ [x] }) x
                  refine ⟨(s.active.filter (expired c now)).flatMap (·.spans) ++ ds, ?_, ?_⟩
                  · rw [h1]; simp only [sweep, List.append_assoc]
                  · intro y hy
                    rcases List.mem_append.1 hy with hy | hy
                    · exact hexp y hy
                    · obtain ⟨rfl, h0⟩ := h2 y hy
                      exact .inr (.inl ⟨now, rfl, hh, .inr (.inl h0)⟩)
              · obtain ⟨ds, h1, h2⟩ := newTrace_dropped c
                  { s with now := now, chan := ms, taken := s.taken ++ [x] } x
                refine ⟨ds, h1, fun y hy => ?_⟩
                obtain ⟨rfl, h0⟩ := h2 y hy
                exact .inr (.inl ⟨now, rfl, hh, .inr (.inl h0)⟩)
          simp only [process]
          split <;> exact key
        | flush =>
          refine ⟨_, rfl, fun x hx => ?_⟩
          obtain ⟨t, ht, hx, he⟩ := mem_expired hx
          exact .inr (.inr ⟨t, ht, hx, .inl ⟨now, .inl rfl, he⟩⟩)
        | shutdown =>
          refine ⟨_, rfl, fun x hx => ?_⟩
          obtain ⟨t, ht, hx⟩ := List.mem_flatMap.1 hx
          exact .inr (.inr ⟨t, (List.mem_filter.1 ht).1, hx, .inr ⟨now, rfl, hh⟩⟩)
      · cases hs
  | spawn =>
    simp only [step] at hs
    split at hs
    · split at hs
      · cases hs
      · split at hs
        · cases hs
        · split at hs <;> · cases hs; exact none_ rfl
    · cases hs
  | done i =>
    simp only [step] at hs
    split at hs
    · cases hs
    · split at hs
      · cases hs; exact none_ rfl
      · cases hs
  | settle =>
    simp only [step] at hs
    split at hs
    · split at hs
      · cases hs; exact none_ rfl
      · cases hs
    · cases hs
  | waited =>
    simp only [step] at hs
    split at hs
    · cases hs; exact none_ rfl
    · cases hs
  | halt =>
    simp only [step] at hs
    split at hs
    · cases hs; exact none_ rfl
    · cases hs
  | gone =>
    simp only [step] at hs
    split at hs
    · cases hs; exact none_ rfl
    · cases hs

theorem enqueue_queue {c : Cfg} (hm : 0 < c.maxSpans) (s : St) (t : Trace) (x : Span) :
    (enqueue s (addSpan c t x)).queue = s.queue ++ [addSpan c t x] ∧
    (enqueue s (addSpan c t x)).active = s.active := by
  have : (addSpan c t x).spans ≠ [] := by
    show (if t.spans.length < c.maxSpans then t.spans ++ [x] else t.spans) ≠ []
    split
    · simp
    · intro e
      rename_i h
      rw [e, List.length_nil] at h
      omega
  unfold enqueue
  rw [if_neg this]
  exact ⟨rfl, rfl⟩

/-- **C118.** With the root, a trace is finished at once: it waits to be exported and is not open any more. -/
theorem C118_root {c : Cfg} (hm : 0 < c.maxSpans) {as : List Act} {s s' : St} {now : Nat} {x : Span}
    (h : run c St.start as = some s) (hs : step c s (.recv now) = some s')
    (hx : s.chan.head? = some (.span x)) (hr : x.root = true)
    (hroom : (∃ t ∈ s.active, t.id = x.trace) ∨ s.active.length < c.maxTraces) :
    (∃ t, t.id = x.trace ∧ s'.queue = s.queue ++ [t]) ∧ ∀ t ∈ s'.active, t.id ≠ x.trace := by
  have hi := run_inv (start_inv c) h
  simp only [step] at hs
  split at hs
  · cases hs
  · rename_i m ms hc
    rw [hc] at hx
    obtain rfl : m = .span x := by simpa using hx
    split at hs
    · cases hs
      have key : ∀ s1 : St, s1.active = s.active → s1.queue = s.queue →
          (∃ t, t.id = x.trace ∧ (handleSpan c s1 x).queue = s.queue ++ [t]) ∧
          ∀ t ∈ (handleSpan c s1 x).active, t.id ≠ x.trace := by
        intro s1 ha hq
        unfold handleSpan
        rw [ha]
        cases hf : s.active.find? (fun t => t.id = x.trace) with
        | some t =>
          have ht : t.id = x.trace := by simpa using List.find?_some hf
          have ho := hi.open_ t (List.mem_of_find?_eq_some hf)
          obtain ⟨-, e2, -⟩ := add_same c s1 t x
          dsimp only
          rw [if_pos (by simp [hr, ho])]
          refine ⟨⟨addSpan c t x, ht, ?_⟩, ?_⟩
          · rw [(enqueue_queue hm ..).1]
            show (addCount c s1 t x).queue ++ _ = _
            rw [e2, hq]
          · rw [(enqueue_queue hm ..).2]
            intro u hu
            simpa using (List.mem_filter.1 hu).2
        | none =>
          have hn : ∀ t ∈ s.active, t.id ≠ x.trace := by
            rw [List.find?_eq_none] at hf
            intro t ht e
            exact hf t ht (by simpa using e)
          have hl : ¬ c.maxTraces ≤ s.active.length := by
            rcases hroom with ⟨t, ht, he⟩ | hl
            · exact absurd he (hn t ht)
            · omega
          dsimp only
          rw [if_neg hl]
          unfold newTrace
          obtain ⟨e1, e2, -⟩ := add_same c s1 ⟨x.trace, [], false, s1.now⟩ x
          dsimp only
          rw [if_pos hr]
          refine ⟨⟨addSpan c ⟨x.trace, [], false, s1.now⟩ x, rfl, ?_⟩, ?_⟩
          · rw [(enqueue_queue hm ..).1, e2, hq]
          · rw [(enqueue_queue hm ..).2, e1, ha]; exact hn
      have k := key { s with now := now, chan := ms, taken := s.taken ++ [x] } rfl rfl
      simp only [process]
      split <;> exact k
    · cases hs

/-! ## Cases -/

namespace Case

/-- Limits: two traces, two spans each, batches of one, one export at a time. -/
def cfg : Cfg := ⟨2, 2, 1, 1, 10, 5⟩

/-- As `cfg`, with two exports at a time. -/
def two : Cfg := { cfg with conc := 2 }

/-- Two spans and the root of a trace with the limit of two; another trace; and one too many. -/
def acts : List Act :=
  [.ended ⟨1, 1, false⟩, .ended ⟨2, 2, false⟩, .ended ⟨3, 3, false⟩, .ended ⟨4, 1, true⟩,
   .recv 0, .recv 0, .recv 0, .recv 0, .spawn, .settle]

/-- Spans are exported, open and dropped. -/
theorem mixed : (run cfg St.start acts).map (fun s => (s.exported.map (·.map (·.spans.map (·.id))),
    s.active.map (·.id), s.dropped.map (·.id), s.count)) = some ([[[1, 4]]], [2], [3], 1) := by decide +kernel

example : ∃ s, run cfg St.start acts = some s ∧ s.exported ≠ [] ∧ s.active ≠ [] ∧ s.dropped ≠ [] := by
  refine ⟨_, rfl, ?_, ?_, ?_⟩ <;> decide +kernel

/-- And then shutdown. -/
example : ∃ s s', run cfg St.start (acts ++ [.ask, .recv 0, .settle]) = some s ∧
    step cfg s .halt = some s' ∧ s'.exported ≠ [] := by
  refine ⟨_, _, rfl, rfl, ?_⟩; decide +kernel

example : ∃ s s', run cfg St.start acts = some s ∧ step cfg s (.sweepTick 6) = some s' ∧ s'.active = [] := by
  refine ⟨_, _, rfl, rfl, ?_⟩; rfl

/-- A flush with two exports at a time. -/
example : ∃ s s', run two St.start [.ended ⟨1, 1, true⟩, .askFlush, .recv 0, .spawn, .settle, .recv 0, .settle,
    .done 0] = some s ∧ step two s .waited = some s' ∧ s'.exported ≠ [] := by
  refine ⟨_, _, rfl, rfl, ?_⟩; decide +kernel

/-- The last span of `acts` is the root of its trace. -/
example : ∃ s s', run cfg St.start (acts.take 7) = some s ∧ step cfg s (.recv 0) = some s' ∧
    s.chan.head? = some (.span ⟨4, 1, true⟩) ∧ (∃ t ∈ s.active, t.id = 1) ∧ s'.queue ≠ [] := by
  refine ⟨_, _, rfl, rfl, rfl, ⟨_, List.mem_cons_self, rfl⟩, ?_⟩; decide +kernel

/-- **C118 is refuted** with more than one export at a time: a trace that was complete before the shutdown is
not handed to the exporter, and its spans are not counted. -/
theorem C118_shutdown_refuted : ∃ s s', run two St.start
      [.ended ⟨1, 1, true⟩, .ask, .recv 0, .spawn, .settle, .recv 0, .settle] = some s ∧
    step two s .halt = some s' ∧ s'.pc = .stopped ∧ s'.sent = [⟨1, 1, true⟩] ∧ s'.exported = [] ∧
    s'.count = 0 ∧ s'.countLimit = 0 := by
  exact ⟨_, _, rfl, rfl, rfl, rfl, rfl, rfl, rfl⟩

/-- **C118 is refuted** when the channel is full as shutdown is asked for: the message is lost, and a trace
that is complete goes with the thread, uncounted. -/
theorem C118_full_refuted : ∃ s, run { cfg with cap := 1, batch := 2 } St.start
      [.ended ⟨1, 1, true⟩, .ask, .recv 0, .gone] = some s ∧ s.pc = .stopped ∧
    s.sent = [⟨1, 1, true⟩] ∧ s.exported = [] ∧ s.count = 0 ∧ s.countLimit = 0 := by
  exact ⟨_, rfl, rfl, rfl, rfl, rfl, rfl⟩

/-- **C118 is refuted** for spans that end after the root: they are not exported with their trace, they wait
until they are too old and are dropped. -/
theorem C118_late_refuted : ∃ s, run cfg St.start
      [.ended ⟨1, 1, true⟩, .ended ⟨2, 1, false⟩, .recv 0, .spawn, .settle, .recv 0, .sweepTick 6] = some s ∧
    s.exported.map (·.map (·.spans)) = [[[⟨1, 1, true⟩]]] ∧ s.dropped = [⟨2, 1, false⟩] := by
  exact ⟨_, rfl, rfl, rfl⟩

/-- **C118 is refuted** for batches of no traces, which the configuration admits: a round of exporting leaves
all traces where they are. -/
theorem C118_progress_refuted : ∃ s s', run { cfg with batch := 0 } St.start [.ended ⟨1, 1, true⟩, .recv 0] = some s ∧
    s.queue ≠ [] ∧ step { cfg with batch := 0 } s .spawn = some s' ∧ s'.queue.map (·.id) = s.queue.map (·.id) := by
  refine ⟨_, _, rfl, ?_, rfl, rfl⟩; decide +kernel

end Case

end Verif.Traces
