import Verif.Headers.Spec

namespace Verif.Headers

/-! ## Header maps -/

theorem getAll_append (h g : HeaderMap) (n : Name) :
    HeaderMap.getAll (h ++ g) n = h.getAll n ++ g.getAll n := by
  simp [HeaderMap.getAll]

theorem getAll_app (h : HeaderMap) (m n : Name) (v : Text) :
    (h.append m v).getAll n = h.getAll n ++ if m = n then [v] else [] := by
  show HeaderMap.getAll (h ++ [(m, v)]) n = _
  rw [getAll_append]
  congr 1
  by_cases hm : m = n <;> simp [HeaderMap.getAll, hm]

theorem getAll_filter_ne (h : HeaderMap) (m n : Name) (hne : m ≠ n) :
    (h.remove m).getAll n = h.getAll n := by
  unfold HeaderMap.remove HeaderMap.getAll
  induction h with
  | nil => rfl
  | cons e h ih =>
    by_cases he : e.1 = m
    · rw [List.filter_cons_of_neg (by simpa using he), ih]
      have : e.1 ≠ n := by rw [he]; exact hne
      simp [this]
    · rw [List.filter_cons_of_pos (by simpa using he)]
      simp only [List.filterMap_cons, ih]

theorem getAll_remove_self (h : HeaderMap) (n : Name) : (h.remove n).getAll n = [] := by
  unfold HeaderMap.remove HeaderMap.getAll
  rw [List.filterMap_eq_nil_iff]
  intro e he
  have := (List.mem_filter.1 he).2
  simp at this
  simp [this]

theorem getAll_insert (h : HeaderMap) (m n : Name) (v : Text) :
    (h.insert m v).getAll n = if m = n then [v] else h.getAll n := by
  unfold HeaderMap.insert
  rw [getAll_app]
  by_cases hm : m = n
  · subst hm; simp [getAll_remove_self]
  · simp [hm, getAll_filter_ne _ _ _ hm]

theorem getAll_filter_false (h : HeaderMap) (p : Name × Text → Bool) (n : Name)
    (hp : ∀ v, p (n, v) = false) : HeaderMap.getAll (h.filter p) n = [] := by
  unfold HeaderMap.getAll
  rw [List.filterMap_eq_nil_iff]
  rintro ⟨m, v⟩ he
  have := (List.mem_filter.1 he).2
  by_cases hm : m = n
  · subst hm; rw [hp] at this; simp at this
  · simp [hm]

/-! ## Request rules -/

theorem propagateRequestNames_denied (client : HeaderMap) (rename : Option Name) (d : Name)
    (hd : isDenied d = true) (hr : rename ≠ some d) : ∀ names out,
    (propagateRequestNames client rename names out).1.getAll d = out.getAll d := by
  intro names
  induction names with
  | nil => intro out; rfl
  | cons n ns ih =>
    intro out
    simp only [propagateRequestNames]
    by_cases hn : isDenied n = true
    · simp [hn, ih]
    · simp only [hn, Bool.false_eq_true, if_false]
      cases hc : client.get n with
      | none => simp [ih]
      | some v =>
        simp only [ih, getAll_app]
        have : rename.getD n ≠ d := by
          cases rename with
          | none => simp only [Option.getD_none]; rintro rfl; exact hn hd
          | some x => simp only [Option.getD_some]; rintro rfl; exact hr rfl
        simp [this]

/-- The name a rule is told to rename to. -/
def RequestRule.target : RequestRule → Option Name
  | .propagateNamed _ _ rename => rename
  | _ => none

def ResponseRule.target : ResponseRule → Option Name
  | .propagateNamed _ rename _ _ => rename
  | _ => none

theorem request_denied (client : HeaderMap) (d : Name) (hd : isDenied d = true) (r : RequestRule)
    (out out' : HeaderMap) (hr : r.target ≠ some d) (h : r.apply client out = .ok out') :
    out'.getAll d = out.getAll d := by
  have hput : ∀ (o : HeaderMap) n v, isDenied n = false → (putRequest o n v).getAll d = o.getAll d := by
    intro o n v hn
    have hne : n ≠ d := by rintro rfl; rw [hd] at hn; simp at hn
    unfold putRequest
    by_cases hj : isNeverJoin n = true
    · simp [hj, getAll_app, hne]
    · simp [hj, getAll_insert, hne]
  cases r with
  | propagateNamed names default rename =>
    simp only [RequestRule.target] at hr
    simp only [RequestRule.apply] at h
    have hp := propagateRequestNames_denied client rename d hd hr names out
    generalize hq : propagateRequestNames client rename names out = q at h hp
    obtain ⟨o, b⟩ := q
    cases b with
    | true => simp at h; subst h; exact hp
    | false =>
      simp only at h
      cases hdf : default with
      | none => simp [hdf] at h; subst h; exact hp
      | some dv =>
        cases names with
        | nil => simp [hdf] at h; subst h; exact hp
        | cons first ns =>
          simp only [hdf, List.head?_cons] at h
          by_cases hx : isDenied (rename.getD first) = true
          · simp [hx] at h; subst h; exact hp
          · simp [hx] at h; subst h
            rw [getAll_app]
            have : rename.getD first ≠ d := by intro h; rw [h] at hx; exact hx hd
            simp [this]; exact hp
  | propagateRegex incl excl =>
    simp only [RequestRule.apply, Except.ok.injEq] at h
    subst h
    rw [getAll_append, getAll_filter_false _ _ _ (by intro v; simp [regexSelects, hd])]
    simp
  | insertStatic n v =>
    simp only [RequestRule.apply, Except.ok.injEq] at h
    by_cases hn : isDenied n = true
    · simp [hn] at h; subst h; rfl
    · simp [hn] at h; subst h; exact hput _ _ _ (by simpa using hn)
  | insertExpression n eval =>
    simp only [RequestRule.apply] at h
    by_cases hn : isDenied n = true
    · simp [hn] at h; subst h; rfl
    · simp only [hn, Bool.false_eq_true, if_false] at h
      cases eval with
      | error e => simp at h
      | ok o =>
        cases o with
        | none => simp at h; subst h; rfl
        | some v => simp at h; subst h; exact hput _ _ _ (by simpa using hn)
  | removeNamed names =>
    simp only [RequestRule.apply, Except.ok.injEq] at h
    subst h
    clear hr
    induction names generalizing out with
    | nil => rfl
    | cons n ns ih =>
      simp only [List.foldl_cons]
      rw [ih]
      by_cases hn : isDenied n = true
      · simp [hn]
      · simp only [hn, Bool.false_eq_true, if_false]
        exact getAll_filter_ne _ _ _ (by rintro rfl; exact hn hd)
  | removeRegex r =>
    simp only [RequestRule.apply, Except.ok.injEq] at h
    subst h
    have : ∀ (gone : List Name), (∀ n ∈ gone, n ≠ d) → ∀ (o : HeaderMap),
        (gone.foldl HeaderMap.remove o).getAll d = o.getAll d := by
      intro gone
      induction gone with
      | nil => intro _ o; rfl
      | cons n ns ih =>
        intro hg o
        simp only [List.foldl_cons]
        rw [ih (fun m hm => hg m (List.mem_cons_of_mem _ hm)),
          getAll_filter_ne _ _ _ (hg n (List.mem_cons_self ..))]
    apply this
    intro n hn
    have hx := (List.mem_filter.1 hn).2
    rintro rfl
    simp [hd] at hx

/-! ## Response rules as events -/

/-- One event on the aggregator. -/
def Event.step (a : Aggregator) : Event → Aggregator
  | .offer n v s => a.write n v s
  | .withdraw p => a.filter fun x => !p x.1

theorem get_eq_take (sub : HeaderMap) (n : Name) : (sub.get n).toList = (sub.getAll n).take 1 := by
  unfold HeaderMap.get
  cases sub.getAll n <;> simp

theorem propagateResponseNames_eq (sub : HeaderMap) (rename : Option Name) (s : Strategy) :
    ∀ names a, propagateResponseNames sub rename s names a =
      ((((names.filter fun n => !isDeniedResponse n).flatMap fun n =>
          (seen sub n).map fun v => Event.offer (rename.getD n) v s).foldl Event.step a),
        !((names.filter fun n => !isDeniedResponse n).flatMap fun n =>
          (seen sub n).map fun v => Event.offer (rename.getD n) v s).isEmpty) := by
  intro names
  induction names with
  | nil => intro a; rfl
  | cons n ns ih =>
    intro a
    simp only [propagateResponseNames]
    by_cases hn : isDeniedResponse n = true
    · simp [hn, ih]
    · simp only [hn, Bool.false_eq_true, if_false, ih]
      have hs : (if isNeverJoin n = true then sub.getAll n else (sub.get n).toList) = seen sub n := by
        rw [get_eq_take]; rfl
      rw [hs]
      have hf : (n :: ns).filter (fun n => !isDeniedResponse n) =
          n :: ns.filter (fun n => !isDeniedResponse n) := by simp [hn]
      rw [hf, List.flatMap_cons]
      congr 1
      · rw [List.foldl_append, List.foldl_map]; rfl
      · cases seen sub n <;> simp

theorem write_neverJoin (a : Aggregator) (n : Name) (v : Text) (s : Strategy) :
    a.write n v (if isNeverJoin n then .append else s) = a.write n v s := by
  unfold Aggregator.write
  by_cases h : isNeverJoin n = true <;> simp [h]

theorem apply_events (sub : HeaderMap) (r : ResponseRule) (a a' : Aggregator)
    (h : r.apply sub a = .ok a') : a' = (r.events sub).foldl Event.step a := by
  cases r with
  | propagateNamed names rename default s =>
    simp only [ResponseRule.apply, propagateResponseNames_eq] at h
    simp only [ResponseRule.events]
    generalize ((names.filter fun n => !isDeniedResponse n).flatMap fun n =>
          (seen sub n).map fun v => Event.offer (rename.getD n) v s) = found at h ⊢
    cases found with
    | cons e es => simp at h; subst h; simp
    | nil =>
      simp only [List.isEmpty_nil, Bool.not_true, List.foldl_nil] at h
      simp only [ne_eq, not_true_eq_false, if_false]
      cases default with
      | none => simp at h; subst h; rfl
      | some d =>
        cases names with
        | nil => simp at h; subst h; rfl
        | cons first ns =>
          simp only [List.head?_cons] at h
          by_cases hx : isDeniedResponse (rename.getD first) = true
          · simp [hx] at h; subst h; simp [hx]
          · simp [hx] at h; subst h; simp [hx, Event.step]
  | propagateRegex incl excl s =>
    simp only [ResponseRule.apply, Except.ok.injEq] at h
    subst h
    simp only [ResponseRule.events, List.foldl_map]
    congr 1
    apply List.filter_congr
    intro e _
    cases incl <;> cases excl <;> simp [regexSelects]
  | insertStatic n v s =>
    simp only [ResponseRule.apply] at h
    by_cases hn : isDeniedResponse n = true
    · simp [hn] at h; subst h; simp [ResponseRule.events, hn]
    · simp only [hn, Bool.false_eq_true, if_false, write_neverJoin, Except.ok.injEq] at h
      subst h; simp [ResponseRule.events, hn, Event.step]
  | insertExpression n eval s =>
    simp only [ResponseRule.apply] at h
    by_cases hn : isDeniedResponse n = true
    · simp [hn] at h; subst h
      cases eval with
      | error => rfl
      | ok o => cases o <;> simp [ResponseRule.events, hn]
    · simp only [hn, Bool.false_eq_true, if_false] at h
      cases eval with
      | error e => simp at h
      | ok o =>
        cases o with
        | none => simp at h; subst h; rfl
        | some v =>
          simp only [write_neverJoin, Except.ok.injEq] at h
          subst h; simp [ResponseRule.events, hn, Event.step]
  | removeNamed names =>
    simp only [ResponseRule.apply, Except.ok.injEq] at h
    subst h
    simp only [ResponseRule.events]
    induction names generalizing a with
    | nil => rfl
    | cons n ns ih =>
      simp only [List.foldl_cons]
      rw [ih]
      by_cases hn : isDeniedResponse n = true
      · simp [hn]
      · simp only [hn, Bool.false_eq_true, if_false]
        rw [List.filter_cons_of_pos (by simpa using hn)]
        simp only [List.map_cons, List.foldl_cons]
        congr 1
        unfold Aggregator.remove Event.step
        simp only [ne_eq, decide_not]
  | removeRegex r =>
    simp only [ResponseRule.apply, Except.ok.injEq] at h
    subst h
    simp only [ResponseRule.events, List.foldl_cons, List.foldl_nil, Event.step]
    apply List.filter_congr
    intro x _
    simp

theorem applyResponse_events (sub : HeaderMap) : ∀ (rules : List ResponseRule) (a a' : Aggregator),
    applyResponse sub rules a = .ok a' →
    a' = (rules.flatMap (ResponseRule.events sub)).foldl Event.step a := by
  intro rules
  induction rules with
  | nil => intro a a' h; simp [applyResponse] at h; subst h; rfl
  | cons r rs ih =>
    intro a a' h
    simp only [applyResponse] at h
    cases hr : r.apply sub a with
    | error e => simp [hr] at h
    | ok b =>
      simp only [hr] at h
      rw [List.flatMap_cons, List.foldl_append, ← apply_events sub r a b hr]
      exact ih b a' h

theorem collect_events : ∀ (rs : List (List ResponseRule × HeaderMap)) (a a' : Aggregator),
    collect rs a = .ok a' → a' = (history rs).foldl Event.step a := by
  intro rs
  induction rs with
  | nil => intro a a' h; simp [collect] at h; subst h; rfl
  | cons r rs ih =>
    obtain ⟨rules, sub⟩ := r
    intro a a' h
    simp only [collect] at h
    cases hr : applyResponse sub rules a with
    | error e => simp [hr] at h
    | ok b =>
      simp only [hr] at h
      simp only [history, List.flatMap_cons, List.foldl_append]
      rw [← applyResponse_events sub rules a b hr]
      exact ih b a' h

/-! ## The aggregator holds what stands -/

/-- What the aggregator keeps of standing offers. -/
def kept (n : Name) : List (Text × Strategy) → Option (Strategy × List Text)
  | [] => none
  | (v, s) :: rest =>
    some (match (if isNeverJoin n then Strategy.append else s) with
      | .first => (.first, [v])
      | .last => (.last, [(rest.map (·.1)).getLastD v])
      | .append => (.append, v :: rest.map (·.1)))

theorem lookup_filter_ne (a : Aggregator) (p : Name → Bool) (n : Name) :
    Aggregator.get (a.filter fun x => !p x.1) n = if p n then none else a.get n := by
  unfold Aggregator.get
  induction a with
  | nil => simp
  | cons x a ih =>
    obtain ⟨m, e⟩ := x
    by_cases hp : p m = true
    · rw [List.filter_cons_of_neg (by simp [hp]), ih]
      by_cases hn : p n = true
      · simp [hn]
      · have : n ≠ m := by rintro rfl; exact hn hp
        simp [List.lookup, beq_eq_false_iff_ne.2 this]
    · rw [List.filter_cons_of_pos (by simp [hp])]
      by_cases hnm : n = m
      · subst hnm; simp [List.lookup, hp]
      · simp [List.lookup, beq_eq_false_iff_ne.2 hnm, ih]

theorem get_set (a : Aggregator) (m n : Name) (e : Strategy × List Text) :
    (a.set m e).get n = if m = n then some e else a.get n := by
  by_cases h : m = n
  · subst h; simp [Aggregator.set, Aggregator.get, List.lookup]
  · have h' : n ≠ m := fun h2 => h h2.symm
    have : Aggregator.get (a.set m e) n = Aggregator.get (a.filter fun x => x.1 ≠ m) n := by
      simp [Aggregator.set, Aggregator.get, List.lookup, beq_eq_false_iff_ne.2 h']
    rw [this]
    have := lookup_filter_ne a (fun x => decide (x = m)) n
    simp only [ne_eq, decide_not] at this ⊢
    rw [this]; simp [h, h']

theorem kept_snoc (n : Name) (l : List (Text × Strategy)) (v : Text) (s : Strategy) (a : Aggregator)
    (h : a.get n = kept n l) : (a.write n v s).get n = kept n (l ++ [(v, s)]) := by
  unfold Aggregator.write
  cases l with
  | nil =>
    simp only [kept] at h
    simp only [h, get_set, if_true, List.nil_append, kept]
    by_cases hj : isNeverJoin n = true
    · simp [hj]
    · cases s <;> simp [hj]
  | cons x l =>
    obtain ⟨v0, s0⟩ := x
    simp only [kept, List.cons_append] at h ⊢
    by_cases hj : isNeverJoin n = true
    · simp only [hj, if_true] at h ⊢
      simp [h, get_set]
    · simp only [hj, Bool.false_eq_true, if_false] at h ⊢
      cases s0 with
      | first => simp only [h]
      | last => simp [h, get_set]
      | append => simp [h, get_set]

theorem write_other (n m : Name) (hne : m ≠ n) (v : Text) (s : Strategy) (a : Aggregator) :
    (a.write m v s).get n = a.get n := by
  unfold Aggregator.write
  simp only
  split <;> simp [get_set, hne]

theorem steps_kept (n : Name) : ∀ (evs : List Event) (l : List (Text × Strategy)) (a : Aggregator),
    a.get n = kept n l →
    (evs.foldl Event.step a).get n = kept n (evs.foldl (stand n) l) := by
  intro evs
  induction evs with
  | nil => intro l a h; exact h
  | cons e evs ih =>
    intro l a h
    simp only [List.foldl_cons]
    apply ih
    cases e with
    | offer m v s =>
      simp only [Event.step, stand]
      by_cases hm : m = n
      · subst hm; simp only [if_true]; exact kept_snoc _ _ _ _ _ h
      · simp only [hm, if_false]; rw [write_other n m hm, h]
    | withdraw p =>
      simp only [Event.step, stand, lookup_filter_ne]
      by_cases hp : p n = true
      · simp [hp, kept]
      · simp only [hp, Bool.false_eq_true, if_false]; exact h

/-- Names are distinct in the aggregator. -/
def Distinct (a : Aggregator) : Prop := (a.map (·.1)).Nodup

theorem distinct_filter {a : Aggregator} (h : Distinct a) (p : Name × (Strategy × List Text) → Bool) :
    Distinct (a.filter p) :=
  List.Sublist.nodup (List.Sublist.map _ List.filter_sublist) h

theorem distinct_set {a : Aggregator} (h : Distinct a) (n : Name) (e : Strategy × List Text) :
    Distinct (a.set n e) := by
  have := distinct_filter h fun x => x.1 ≠ n
  simp only [Distinct, Aggregator.set, List.map_cons, List.nodup_cons]
  refine ⟨?_, this⟩
  simp

theorem distinct_step {a : Aggregator} (h : Distinct a) (e : Event) : Distinct (e.step a) := by
  cases e with
  | offer n v s =>
    simp only [Event.step, Aggregator.write]
    split <;> first | exact distinct_set h _ _ | exact h
  | withdraw p => exact distinct_filter h _

theorem distinct_steps : ∀ (evs : List Event) (a : Aggregator), Distinct a →
    Distinct (evs.foldl Event.step a) := by
  intro evs
  induction evs with
  | nil => intro a h; exact h
  | cons e evs ih => intro a h; exact ih _ (distinct_step h e)

/-! ## Flushing -/

/-- The lines for `n` after writing the entry `e` for it. -/
def linesOf (n : Name) (base : List Text) : Option (Strategy × List Text) → List Text
  | none => base
  | some (_, []) => base
  | some (s, v :: vs) =>
    if isNeverJoin n then base ++ v :: vs
    else if vs.isEmpty then [v] else if s = .append then [joinComma (v :: vs)] else base

theorem flushEntry_getAll (h : HeaderMap) (m n : Name) (e : Strategy × List Text) :
    (flushEntry h m e).getAll n = if m = n then linesOf n (h.getAll n) (some e) else h.getAll n := by
  obtain ⟨s, vs⟩ := e
  cases vs with
  | nil => simp [flushEntry, linesOf]
  | cons v vs =>
    simp only [flushEntry, linesOf]
    by_cases hmn : m = n
    · subst hmn
      simp only [if_true]
      by_cases hj : isNeverJoin m = true
      · simp only [hj, if_true, getAll_append]
        congr 1
        generalize v :: vs = ws
        unfold HeaderMap.getAll
        induction ws with
        | nil => rfl
        | cons w ws ih => simp at ih ⊢; exact ih
      · simp only [hj, Bool.false_eq_true, if_false]
        by_cases hv : vs.isEmpty = true
        · simp [hv, getAll_insert]
        · simp only [hv, Bool.false_eq_true, if_false]
          by_cases hs : s = .append <;> simp [hs, getAll_insert]
    · simp only [hmn, if_false]
      by_cases hj : isNeverJoin m = true
      · simp only [hj, if_true, getAll_append]
        have : HeaderMap.getAll ((v :: vs).map fun v => (m, v)) n = [] := by
          unfold HeaderMap.getAll
          rw [List.filterMap_eq_nil_iff]
          intro x hx
          simp only [List.mem_map] at hx
          obtain ⟨w, _, rfl⟩ := hx
          simp [hmn]
        rw [this, List.append_nil]
      · simp only [hj, Bool.false_eq_true, if_false]
        by_cases hv : vs.isEmpty = true
        · simp [hv, getAll_insert, hmn]
        · simp only [hv, Bool.false_eq_true, if_false]
          by_cases hs : s = .append <;> simp [hs, getAll_insert, hmn]

theorem flush_getAll (n : Name) : ∀ (a : Aggregator) (h : HeaderMap), Distinct a →
    (flush h a).getAll n = linesOf n (h.getAll n) (a.get n) := by
  intro a
  induction a with
  | nil => intro h _; rfl
  | cons x a ih =>
    intro h hd
    obtain ⟨m, e⟩ := x
    simp only [Distinct, List.map_cons, List.nodup_cons] at hd
    simp only [flush, List.foldl_cons] at ih ⊢
    rw [ih _ hd.2, flushEntry_getAll]
    by_cases hmn : m = n
    · subst hmn
      have : Aggregator.get a m = none := by
        unfold Aggregator.get
        rw [List.lookup_eq_none_iff]
        intro y hy
        simp only [bne_iff_ne, ne_eq]
        rintro rfl
        exact hd.1 (List.mem_map.2 ⟨y, hy, rfl⟩)
      rw [this]
      simp [linesOf, Aggregator.get, List.lookup]
    · have : Aggregator.get ((m, e) :: a) n = Aggregator.get a n := by
        simp [Aggregator.get, List.lookup, beq_eq_false_iff_ne.2 (Ne.symm hmn)]
      rw [this]; simp [hmn]

theorem linesOf_kept (n : Name) (base : List Text) (l : List (Text × Strategy)) :
    linesOf n base (kept n l) = clientLines n base l := by
  cases l with
  | nil => rfl
  | cons x l =>
    obtain ⟨v, s⟩ := x
    simp only [kept, clientLines]
    by_cases hj : isNeverJoin n = true
    · simp [hj, linesOf]
    · cases s with
      | first => simp [hj, linesOf]
      | last => simp [hj, linesOf]
      | append =>
        cases l with
        | nil => simp [hj, linesOf, joinComma]
        | cons y l => simp [hj, linesOf]

end Verif.Headers
