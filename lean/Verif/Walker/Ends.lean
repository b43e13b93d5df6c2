import Verif.Walker.Served

/-!
# The search ends

In a graph whose edges lead to types of subgraphs no loop goes on for ever, and nothing is looked up in vain.
-/

namespace Verif.Walker

open Verif.Graph

/-- An error that is not an answer: a loop that does not end, a panic, or a look-up in the graph that
fails. -/
def Err.Bad : Err → Prop
  | .fuel => True
  | .panic => True
  | .graph => True
  | .tailMissing => True
  | _ => False

/-- Not such an error. -/
def Fine {α : Type} (x : Except Err α) : Prop := ∀ e, x = .error e → ¬ e.Bad

theorem Fine.ok {α : Type} (a : α) : Fine (.ok a : Except Err α) := by intro e h; simp at h

theorem Fine.error {α : Type} {e : Err} (h : ¬ e.Bad) : Fine (.error e : Except Err α) := by
  intro e' h'; simp only [Except.error.injEq] at h'; subst h'; exact h

theorem Fine.err {α β : Type} {x : Except Err α} {e : Err} (h : Fine x) (he : x = .error e) :
    Fine (.error e : Except Err β) := Fine.error (h e he)

/-- The path ends in a type of a subgraph. -/
def OnType (G : Moves) (p : Path) : Prop := ∃ t g i s, G.node p.tail = some (.type t g i s)

def FineSat (G : Moves) (sat : Sat) : Prop :=
  ∀ e p ex, e ∈ G.edges → e.src = p.tail → OnType G p → Fine (sat e p ex)

theorem advance_onType {G : Moves} (hc : Connected G) {e : Edge} (he : e ∈ G.edges) (p : Path)
    (rs : List Path) (t : Target) : OnType G (advance G p e rs t) := by
  rw [OnType, advance_tail]; exact (hc e he).2

theorem collect_fine {α β : Type} {f : α → Except Err (Option β)} : ∀ {l : List α},
    (∀ x ∈ l, Fine (f x)) → Fine (collect f l) := by
  intro l
  induction l with
  | nil => intro _; exact Fine.ok _
  | cons a l ih =>
    intro h
    simp only [collect]
    split
    next e he => exact (h a (by simp)).err he
    · split
      next e he => exact (ih fun x hx => h x (by simp [hx])).err he
      · exact Fine.ok _

theorem tryAdvance_fine {G : Moves} {sat : Sat} (hs : FineSat G sat) {p : Path} (hp : OnType G p)
    {t : Target} {e : Edge} (he : e ∈ G.edgesFrom p.tail) : Fine (tryAdvance G sat p t e) := by
  obtain ⟨h1, h2⟩ := mem_edgesFrom he
  simp only [tryAdvance]
  split
  next x hx => exact (hs e p _ h1 h2 hp).err hx
  · exact Fine.ok _
  · exact Fine.ok _

theorem tryAdvance_onType {G : Moves} (hc : Connected G) {sat : Sat} {p : Path} {t : Target} {e : Edge}
    (he : e ∈ G.edges) {q : Path} (h : tryAdvance G sat p t e = .ok (some q)) :
    OnType G q ∧ q.segs ≠ [] := by
  simp only [tryAdvance] at h
  split at h
  · simp at h
  · simp at h
  · simp only [Except.ok.injEq, Option.some.injEq] at h; subst h
    exact ⟨advance_onType hc he _ _ _, by simp [advance, Path.segs]⟩

theorem findDirect_fine {G : Moves} {sat : Sat} (hs : FineSat G sat) {p : Path} (hp : OnType G p)
    {t : Target} : Fine (findDirect G sat p t) := by
  simp only [findDirect]
  split
  · exact collect_fine fun e he => tryAdvance_fine hs hp (List.mem_filter.mp he).1
  · exact Fine.ok _

theorem findDirect_onType {G : Moves} (hc : Connected G) {sat : Sat} {p : Path} {t : Target}
    {ds : List Path} (h : findDirect G sat p t = .ok ds) : ∀ q ∈ ds, OnType G q ∧ q.segs ≠ [] := by
  simp only [findDirect] at h
  split at h
  · intro q hq
    obtain ⟨e, he, h1⟩ := collect_mem h q hq
    exact tryAdvance_onType hc (mem_edgesFrom (List.mem_filter.mp he).1).1 h1
  · simp only [Except.ok.injEq] at h; subst h; simp

theorem track_fine {G : Moves} {p : Path} (hp : OnType G p) (t : Tracker) : Fine (track G p t) := by
  obtain ⟨a, b, c, d, h⟩ := hp
  simp only [track, h, Node.graph]
  exact Fine.ok _

theorem trackAll_fine {G : Moves} : ∀ {ps : List Path}, (∀ p ∈ ps, OnType G p) →
    ∀ t, Fine (trackAll G ps t) := by
  intro ps
  induction ps with
  | nil => intro _ t; exact Fine.ok _
  | cons p r ih =>
    intro h t
    simp only [trackAll]
    split
    next e he => exact (track_fine (h p (by simp)) t).err he
    next t' _ => exact ih (fun q hq => h q (by simp [hq])) t'

/-! ## Other subgraphs -/

theorem expand_fine {G : Moves} (hc : Connected G) {S : Super} {sat : Sat} (hs : FineSat G sat)
    {cur source : String} {t : Target} {it : Item} (hit : OnType G it.path) : ∀ {es : List Edge},
    (∀ e ∈ es, e ∈ G.edgesFrom it.path.tail) → ∀ (tr : Tracker) (q : List Item),
    Fine (expand G S sat cur source t it es tr q) := by
  intro es
  induction es with
  | nil => intro _ tr q; exact Fine.ok _
  | cons e es ih =>
    intro hes tr q
    have ih' := ih fun x hx => hes x (by simp [hx])
    obtain ⟨h1, h2⟩ := mem_edgesFrom (hes e (by simp))
    obtain ⟨a, b, c, d, hd⟩ := (hc e h1).2
    simp only [expand, hd, Node.graph]
    split
    · exact ih' tr q
    · split
      next x hx => exact (hs e _ _ h1 h2 hit).err hx
      · exact ih' tr q
      next rs _ =>
        have hn := advance_onType hc h1 it.path rs t
        split
        next x hx => exact (findDirect_fine hs hn).err hx
        · exact ih' tr _
        next dd ds hdd =>
          split
          next x hx =>
            exact (trackAll_fine (fun p hp => (findDirect_onType hc hdd p hp).1) tr).err hx
          next tr' _ => exact ih' tr' q

theorem expand_onType {G : Moves} (hc : Connected G) {S : Super} {sat : Sat}
    {cur source : String} {t : Target} {it : Item} : ∀ {es : List Edge} {tr tr' : Tracker}
    {q q' : List Item}, expand G S sat cur source t it es tr q = .ok (tr', q') →
    (∀ e ∈ es, e ∈ G.edges) → (∀ x ∈ q, OnType G x.path) →
    (∀ p ∈ tr.best, OnType G p ∧ p.segs ≠ []) →
    (∀ x ∈ q', OnType G x.path) ∧ q'.length ≤ q.length + es.length ∧
      ∀ p ∈ tr'.best, OnType G p ∧ p.segs ≠ [] := by
  intro es
  induction es with
  | nil =>
    intro tr tr' q q' h _ hq ht
    simp only [expand, Except.ok.injEq, Prod.mk.injEq] at h
    obtain ⟨rfl, rfl⟩ := h
    exact ⟨hq, by simp, ht⟩
  | cons e es ih =>
    intro tr tr' q q' h hes hq ht
    have hes' : ∀ e ∈ es, e ∈ G.edges := fun x hx => hes x (by simp [hx])
    simp only [expand] at h
    split at h
    · simp at h
    · split at h
      · simp at h
      · split at h
        · obtain ⟨h1, h2, h3⟩ := ih h hes' hq ht
          exact ⟨h1, by simp only [List.length_cons]; omega, h3⟩
        · split at h
          · simp at h
          · obtain ⟨h1, h2, h3⟩ := ih h hes' hq ht
            exact ⟨h1, by simp only [List.length_cons]; omega, h3⟩
          next rs _ =>
            split at h
            · simp at h
            · obtain ⟨h1, h2, h3⟩ := ih h hes' (by
                intro x hx
                rcases List.mem_cons.mp hx with rfl | hx
                · exact advance_onType hc (hes e (by simp)) _ _ _
                · exact hq x hx) ht
              exact ⟨h1, by simp only [List.length_cons] at h2 ⊢; omega, h3⟩
            next d ds hd =>
              split at h
              · simp at h
              next t1 ht1 =>
                obtain ⟨h1, h2, h3⟩ := ih h hes' hq (by
                  intro p hp
                  rcases trackAll_mem ht1 p hp with hp | hp
                  · exact findDirect_onType hc hd p hp
                  · exact ht p hp)
                exact ⟨h1, by simp only [List.length_cons]; omega, h3⟩

/-- The edges that leave nodes not yet seen. -/
def unseen (G : Moves) (seen : List Nat) : Nat := (G.edges.filter fun e => !seen.contains e.src).length

theorem unseen_cons (n : Nat) (seen : List Nat) (h : seen.contains n = false) : ∀ es : List Edge,
    (es.filter fun e => !(n :: seen).contains e.src).length + (es.filter (·.src == n)).length =
      (es.filter fun e => !seen.contains e.src).length
  | [] => rfl
  | e :: es => by
    have ih := unseen_cons n seen h es
    by_cases h1 : e.src = n
    · have h2 : seen.contains e.src = false := by rw [h1]; exact h
      have h3 : (n :: seen).contains e.src = true := by rw [h1]; simp
      rw [List.filter_cons_of_neg (by rw [h3]; simp), List.filter_cons_of_pos (by simp [h1]),
        List.filter_cons_of_pos (by rw [h2]; simp)]
      simp only [List.length_cons]; omega
    · have h3 : (n :: seen).contains e.src = seen.contains e.src := by
        simp [List.contains_cons, h1]
      rw [List.filter_cons_of_neg (p := fun e : Edge => e.src == n) (by simp [h1])]
      by_cases h4 : seen.contains e.src = true
      · rw [List.filter_cons_of_neg (by rw [h3, h4]; simp), List.filter_cons_of_neg (by rw [h4]; simp)]
        exact ih
      · have h4 : seen.contains e.src = false := by simpa using h4
        rw [List.filter_cons_of_pos (by rw [h3, h4]; simp), List.filter_cons_of_pos (by rw [h4]; simp)]
        simp only [List.length_cons]; omega

theorem edgesFrom_length (G : Moves) (n : Nat) :
    (G.edgesFrom n).length = (G.edges.filter (·.src == n)).length := by
  rw [Moves.edgesFrom, List.filter_reverse, List.length_reverse]

theorem indirectLoop_fine {G : Moves} (hc : Connected G) {S : Super} {sat : Sat} (hs : FineSat G sat)
    {cur source : String} {t : Target} : ∀ (n : Nat) (q : List Item) (seen : List Nat) (tr : Tracker),
    q.length + unseen G seen < n → (∀ x ∈ q, OnType G x.path) →
    (∀ p ∈ tr.best, OnType G p ∧ p.segs ≠ []) →
    Fine (indirectLoop G S sat cur source t n q seen tr) ∧
    ∀ tr', indirectLoop G S sat cur source t n q seen tr = .ok tr' →
      ∀ p ∈ tr'.best, OnType G p ∧ p.segs ≠ [] := by
  intro n
  induction n with
  | zero => intro q seen tr h; omega
  | succ n ih =>
    intro q seen tr h hq ht
    cases q with
    | nil =>
      refine ⟨Fine.ok _, fun tr' h => ?_⟩
      simp only [indirectLoop, Except.ok.injEq] at h; subst h; exact ht
    | cons it q =>
      have hq' : ∀ x ∈ q, OnType G x.path := fun x hx => hq x (by simp [hx])
      simp only [List.length_cons] at h
      simp only [indirectLoop]
      by_cases hseen : seen.contains it.path.tail = true
      · rw [if_pos hseen]
        exact ih q seen tr (by omega) hq' ht
      · rw [if_neg hseen]
        have hseen : seen.contains it.path.tail = false := by simpa using hseen
        have hf := expand_fine hc (S := S) hs (cur := cur) (source := source) (t := t) (hq it (by simp))
          (es := (G.edgesFrom it.path.tail).filter isHop) (fun e he => (List.mem_filter.mp he).1) tr q
        split
        next x hx => exact ⟨hf.err hx, fun tr' h => by simp at h⟩
        next t1 q1 he =>
          obtain ⟨h1, h2, h3⟩ := expand_onType hc he
            (fun e he => (mem_edgesFrom (List.mem_filter.mp he).1).1) hq' ht
          refine ih q1 _ t1 ?_ h1 h3
          have h4 := unseen_cons it.path.tail seen hseen G.edges
          have h5 := List.length_filter_le isHop (G.edgesFrom it.path.tail)
          rw [edgesFrom_length] at h5
          simp only [unseen] at h ⊢
          omega

theorem unseen_nil (G : Moves) : unseen G [] = G.edges.length := by
  simp [unseen]

theorem findIndirect_fine {G : Moves} (hc : Connected G) {S : Super} {sat : Sat} (hs : FineSat G sat)
    {p : Path} (hp : OnType G p) {t : Target} {ex : Excl} :
    Fine (findIndirect G S sat p t ex) ∧ ∀ is, findIndirect G S sat p t ex = .ok is →
      ∀ q ∈ is, OnType G q ∧ q.segs ≠ [] := by
  obtain ⟨a, b, c, d, hn⟩ := hp
  simp only [findIndirect, hn, Node.graph]
  split
  · obtain ⟨h1, h2⟩ := indirectLoop_fine hc (S := S) hs (cur := (Node.type a b c d).name) (source := b)
      (t := t) (G.edges.length + 2) [⟨ex.graphs, ex.reqs, p⟩] [] []
      (by rw [unseen_nil]; simp only [List.length_cons, List.length_nil]; omega)
      (by intro x hx; simp only [List.mem_singleton] at hx; subst hx; exact ⟨a, b, c, d, hn⟩)
      (by simp [Tracker.best])
    split
    next e he => exact ⟨h1.err he, fun is h => by simp at h⟩
    next tr he =>
      refine ⟨Fine.ok _, fun is h => ?_⟩
      simp only [Except.ok.injEq] at h; subst h
      exact h2 tr he
  · refine ⟨Fine.ok _, fun is h => ?_⟩
    simp only [Except.ok.injEq] at h; subst h; simp

/-! ## Requirements -/

theorem tailNames_fine {G : Moves} : ∀ {ps : List Path}, (∀ p ∈ ps, OnType G p) → Fine (tailNames G ps) := by
  intro ps
  induction ps with
  | nil => intro _; exact Fine.ok _
  | cons p r ih =>
    intro h
    obtain ⟨a, b, c, d, hn⟩ := h p (by simp)
    simp only [tailNames, hn]
    split
    next e he => exact (ih fun q hq => h q (by simp [hq])).err he
    · exact Fine.ok _

theorem targetIds_fine {G : Moves} {S : Super} {f : FieldInfo} {ps : List Path}
    (h : ∀ p ∈ ps, OnType G p) : Fine (targetIds G S f ps) := by
  simp only [targetIds]
  split
  next e he => exact (tailNames_fine h).err he
  · split <;> exact Fine.ok _

theorem eachPath_fine {f : Path → Except Err (List Path × List Path)} : ∀ {ps : List Path},
    (∀ p ∈ ps, Fine (f p)) → Fine (eachPath f ps) := by
  intro ps
  induction ps with
  | nil => intro _; exact Fine.ok _
  | cons p r ih =>
    intro h
    simp only [eachPath]
    split
    next e he => exact (h p (by simp)).err he
    · split
      next e he => exact (ih fun q hq => h q (by simp [hq])).err he
      · exact Fine.ok _

/-- All paths end in types. -/
def AllOn (G : Moves) (ps : List Path) : Prop := ∀ p ∈ ps, OnType G p

theorem fieldFrom_fine {G : Moves} (hc : Connected G) {S : Super} {sat : Sat} (hs : FineSat G sat)
    {ex : Excl} {direct : Bool} {f : FieldInfo} {ss : List Sel} {ids : Option (List String)} {p : Path}
    (hp : OnType G p) : Fine (fieldFrom G S sat ex direct f ss ids p) ∧
      ∀ d i, fieldFrom G S sat ex direct f ss ids p = .ok (d, i) → AllOn G (d ++ i) := by
  simp only [fieldFrom]
  split
  next e he => exact ⟨(findDirect_fine hs hp).err he, fun d i h => by simp at h⟩
  next ds hd =>
    split
    · split
      next e he => exact ⟨(findIndirect_fine hc hs hp).1.err he, fun d i h => by simp at h⟩
      next is hi =>
        refine ⟨Fine.ok _, fun d i h => ?_⟩
        simp only [Except.ok.injEq, Prod.mk.injEq] at h
        obtain ⟨rfl, rfl⟩ := h
        intro q hq
        rcases List.mem_append.mp hq with hq | hq
        · exact (findDirect_onType hc hd q hq).1
        · exact ((findIndirect_fine hc hs hp).2 _ hi q hq).1
    · refine ⟨Fine.ok _, fun d i h => ?_⟩
      simp only [Except.ok.injEq, Prod.mk.injEq] at h
      obtain ⟨rfl, rfl⟩ := h
      intro q hq
      exact (findDirect_onType hc hd q (by simpa using hq)).1

theorem validateField_fine {G : Moves} (hc : Connected G) {S : Super} {sat : Sat} (hs : FineSat G sat)
    {ex : Excl} {direct : Bool} {f : FieldInfo} {ss : List Sel} {ps : List Path} (hp : AllOn G ps) :
    Fine (validateField G S sat ex direct f ss ps) ∧
    ∀ next, validateField G S sat ex direct f ss ps = .ok (some next) → AllOn G next := by
  simp only [validateField]
  split
  next e he => exact ⟨(targetIds_fine hp).err he, fun n h => by simp at h⟩
  next ids _ =>
    split
    next e he =>
      exact ⟨(eachPath_fine fun p hp' => (fieldFrom_fine hc hs (hp p hp')).1).err he,
        fun n h => by simp at h⟩
    next ds is he =>
      split
      · exact ⟨Fine.ok _, fun n h => by simp at h⟩
      · refine ⟨Fine.ok _, fun n h => ?_⟩
        simp only [Except.ok.injEq, Option.some.injEq] at h; subst h
        intro q hq
        obtain ⟨p, hp', d, i, hf, hq⟩ := eachPath_mem he q hq
        exact (fieldFrom_fine hc hs (hp p hp')).2 d i hf q hq

theorem fragFrom_fine {G : Moves} (hc : Connected G) {S : Super} {sat : Sat} (hs : FineSat G sat)
    {ex : Excl} {type : String} {p : Path}
    (hp : OnType G p) : Fine (fragFrom G S sat ex type p) ∧
      ∀ d i, fragFrom G S sat ex type p = .ok (d, i) → AllOn G (d ++ i) := by
  have hp' := hp
  obtain ⟨a, b, c, d, hn⟩ := hp'
  simp only [fragFrom, hn]
  split
  next e he =>
    refine ⟨?_, fun d i h => by simp at h⟩
    split at he
    · simp at he
    · exact (findDirect_fine hs hp).err he
  next ds hd =>
    split
    next e he => exact ⟨(findIndirect_fine hc hs hp).1.err he, fun d i h => by simp at h⟩
    next is hi =>
      refine ⟨Fine.ok _, fun d i h => ?_⟩
      simp only [Except.ok.injEq, Prod.mk.injEq] at h
      obtain ⟨rfl, rfl⟩ := h
      intro q hq
      rcases List.mem_append.mp hq with hq | hq
      · split at hd
        · simp only [Except.ok.injEq] at hd; subst hd
          simp only [List.mem_singleton] at hq; subst hq; exact hp
        · exact (findDirect_onType hc hd q hq).1
      · exact ((findIndirect_fine hc hs hp).2 _ hi q hq).1

theorem validateFrag_fine {G : Moves} (hc : Connected G) {S : Super} {sat : Sat} (hs : FineSat G sat)
    {ex : Excl} {type : String} {ps : List Path} (hp : AllOn G ps) :
    Fine (validateFrag G S sat ex type ps) ∧
    ∀ next, validateFrag G S sat ex type ps = .ok (some next) → AllOn G next := by
  simp only [validateFrag]
  split
  next e he =>
    exact ⟨(eachPath_fine fun p hp' => (fragFrom_fine hc hs (hp p hp')).1).err he,
      fun n h => by simp at h⟩
  next ds is he =>
    split
    · exact ⟨Fine.ok _, fun n h => by simp at h⟩
    · refine ⟨Fine.ok _, fun n h => ?_⟩
      simp only [Except.ok.injEq, Option.some.injEq] at h; subst h
      intro q hq
      obtain ⟨p, hp', d, i, hf, hq⟩ := eachPath_mem he q hq
      exact (fragFrom_fine hc hs (hp p hp')).2 d i hf q hq

/-- The work left in a queue of requirements. -/
def work : List Need → Nat
  | [] => 0
  | nd :: r => selCost nd.sel + work r

theorem work_append : ∀ a b : List Need, work (a ++ b) = work a + work b
  | [], b => by simp [work]
  | nd :: a, b => by simp only [List.cons_append, work, work_append a b]; omega

theorem work_reverse : ∀ a : List Need, work a.reverse = work a
  | [] => rfl
  | nd :: a => by simp only [List.reverse_cons, work_append, work_reverse a, work]; omega

theorem work_map (ps : List Path) : ∀ ss : List Sel, work (ss.map (⟨ps, ·⟩)) = selsCost ss
  | [] => rfl
  | x :: ss => by simp only [List.map_cons, work, selsCost, work_map ps ss]

theorem selCost_pos : ∀ x : Sel, 0 < selCost x
  | .field _ _ => by simp only [selCost]; omega
  | .frag _ _ => by simp only [selCost]; omega
  | .spread _ => by simp [selCost]

theorem reqLoop_fine {G : Moves} (hc : Connected G) {S : Super} {sat : Sat} (hs : FineSat G sat)
    {ex : Excl} {direct : Bool} {p : Path} : ∀ (n : Nat) (q : List Need) (acc : List Path),
    work q < n → (∀ nd ∈ q, AllOn G nd.paths) → Fine (reqLoop G S sat ex direct p n q acc) := by
  intro n
  induction n with
  | zero => intro q acc h; omega
  | succ n ih =>
    intro q acc h hq
    cases q with
    | nil => exact Fine.ok _
    | cons nd q =>
      obtain ⟨paths, sel⟩ := nd
      have hp : AllOn G paths := hq ⟨paths, sel⟩ (by simp)
      have hq' : ∀ nd ∈ q, AllOn G nd.paths := fun nd hnd => hq nd (by simp [hnd])
      simp only [work] at h
      simp only [reqLoop]
      cases sel with
      | spread s =>
        have := selCost_pos (.spread s)
        exact ih q acc (by omega) hq'
      | field f ss =>
        simp only
        obtain ⟨h1, h2⟩ := validateField_fine hc (S := S) hs (ex := ex) (direct := direct) (f := f)
          (ss := ss) hp
        split
        next e he => exact h1.err he
        · exact Fine.ok _
        next next hn =>
          refine ih _ _ ?_ ?_
          · simp only [work_append, work_reverse, work_map, selCost] at h ⊢; omega
          · intro nd hnd
            rcases List.mem_append.mp hnd with hnd | hnd
            · exact hq' nd hnd
            · simp only [List.mem_reverse, List.mem_map] at hnd
              obtain ⟨y, _, rfl⟩ := hnd
              exact h2 next hn
      | frag g ss =>
        simp only
        obtain ⟨h1, h2⟩ := validateFrag_fine hc (S := S) hs (ex := ex) (type := g.cond) hp
        split
        next e he => exact h1.err he
        · exact Fine.ok _
        next next hn =>
          refine ih _ _ ?_ ?_
          · simp only [work_append, work_reverse, work_map, selCost] at h ⊢; omega
          · intro nd hnd
            rcases List.mem_append.mp hnd with hnd | hnd
            · exact hq' nd hnd
            · simp only [List.mem_reverse, List.mem_map] at hnd
              obtain ⟨y, _, rfl⟩ := hnd
              exact h2 next hn

theorem checkReqs_fine {env : Env} (hc : Connected env.G) {sat : Sat} (hs : FineSat env.G sat)
    {direct : Bool} {e : Edge} {p : Path} (hp : OnType env.G p) {ex : Excl} :
    Fine (checkReqs env sat direct e p ex) := by
  simp only [checkReqs]
  split
  · split
    · exact Fine.ok _
    next r _ =>
      refine reqLoop_fine hc hs _ _ _ (by rw [work_map]; omega) ?_
      intro nd hnd
      obtain ⟨y, _, rfl⟩ := List.mem_map.mp hnd
      intro q hq
      simp only [List.mem_singleton] at hq; subst hq; exact hp
  · exact Fine.ok _

/-! ## How deep the checks nest -/

theorem nodup_le {α : Type} [DecidableEq α] : ∀ {a b : List α}, a.Nodup → (∀ x ∈ a, x ∈ b) →
    a.length ≤ b.length
  | [], _, _, _ => by simp
  | x :: a, b, hn, hs => by
    rw [List.nodup_cons] at hn
    have hx := hs x (by simp)
    have h1 := nodup_le (a := a) (b := b.erase x) hn.2 (by
      intro y hy
      have hne : y ≠ x := by intro h; subst h; exact hn.1 hy
      exact (List.mem_erase_of_ne hne).mpr (hs y (by simp [hy])))
    rw [List.length_erase_of_mem hx] at h1
    have := List.length_pos_of_mem hx
    simp only [List.length_cons]; omega

theorem canSatisfy_fine {env : Env} (hc : Connected env.G) : ∀ (n : Nat) (active : List (Nat × Nat)),
    active.Nodup → (∀ a ∈ active, ∃ e ∈ env.G.edges, a = (e.src, e.id)) →
    env.G.edges.length < n + active.length → FineSat env.G (canSatisfy env n active)
  | 0, active, hn, hs, hl => by
    have := nodup_le (b := env.G.edges.map fun e => (e.src, e.id)) hn (by
      intro a ha
      obtain ⟨e, he, rfl⟩ := hs a ha
      exact List.mem_map.mpr ⟨e, he, rfl⟩)
    rw [List.length_map] at this
    omega
  | n + 1, active, hn, hs, hl => by
    intro e p ex he hsrc hp
    simp only [canSatisfy]
    split
    · exact Fine.ok _
    next hna =>
      refine checkReqs_fine hc (canSatisfy_fine hc n _ ?_ ?_ ?_) hp
      · exact List.nodup_cons.mpr ⟨by simpa using hna, hn⟩
      · intro a ha
        rcases List.mem_cons.mp ha with rfl | ha
        · exact ⟨e, he, by rw [hsrc]⟩
        · exact hs a ha
      · simp only [List.length_cons]; omega

theorem sat_fine {env : Env} (hc : Connected env.G) : FineSat env.G (sat env) :=
  canSatisfy_fine hc _ _ (by simp) (by simp) (by simp)

/-! ## Walking -/

/-- Paths an operation goes on from: they end in types and are not empty. -/
def Ready (G : Moves) (ps : List Path) : Prop := ∀ p ∈ ps, OnType G p ∧ p.segs ≠ []

theorem Ready.on {G : Moves} {ps : List Path} (h : Ready G ps) : AllOn G ps := fun p hp => (h p hp).1

theorem mapPaths_fine {f : Path → Except Err (List Path)} : ∀ {ps : List Path},
    (∀ p ∈ ps, Fine (f p)) → Fine (mapPaths f ps) := by
  intro ps
  induction ps with
  | nil => intro _; exact Fine.ok _
  | cons p r ih =>
    intro h
    simp only [mapPaths]
    split
    next e he => exact (h p (by simp)).err he
    · split
      next e he => exact (ih fun q hq => h q (by simp [hq])).err he
      · exact Fine.ok _

theorem mapPaths_ready {G : Moves} {f : Path → Except Err (List Path)} {ps l : List Path}
    (hf : ∀ p ∈ ps, ∀ l', f p = .ok l' → Ready G l') (h : mapPaths f ps = .ok l) : Ready G l := by
  intro q hq
  obtain ⟨p, hp, l', hl', hq⟩ := mapPaths_mem h q hq
  exact hf p hp l' hl' q hq

theorem firstSelfie_fine {env : Env} (hc : Connected env.G) {p : Path} (hp : OnType env.G p)
    {type : String} {cond : Cond} : ∀ {es : List Edge}, (∀ e ∈ es, e ∈ env.G.edgesFrom p.tail) →
    Fine (firstSelfie env p type cond es) ∧
    ∀ q, firstSelfie env p type cond es = .ok q → OnType env.G q ∧ q.segs ≠ [] := by
  intro es
  induction es with
  | nil => intro _; exact ⟨Fine.error (by simp [Err.Bad]), fun q h => by simp [firstSelfie] at h⟩
  | cons e es ih =>
    intro h
    simp only [firstSelfie]
    split
    next x hx => exact ⟨(tryAdvance_fine (sat_fine hc) hp (h e (by simp))).err hx, fun q h => by simp at h⟩
    next q' hq =>
      refine ⟨Fine.ok _, fun q h' => ?_⟩
      simp only [Except.ok.injEq] at h'; subst h'
      exact tryAdvance_onType hc (mem_edgesFrom (h e (by simp))).1 hq
    · exact ih fun x hx => h x (by simp [hx])

theorem ontoFrom_fine {env : Env} (hc : Connected env.G) {g : FragInfo} {loc : List String} {p : Path}
    (hp : OnType env.G p) : Fine (ontoFrom env g loc p) ∧
      ∀ l, ontoFrom env g loc p = .ok l → Ready env.G l := by
  simp only [ontoFrom]
  split
  next e he => exact ⟨(findDirect_fine (sat_fine hc) hp).err he, fun l h => by simp at h⟩
  next ds hd =>
    have hd' := findDirect_onType hc hd
    split
    · have hi' := findIndirect_fine hc (S := env.S) (sat_fine hc) hp
        (t := .type g.cond (g.skipIf, g.includeIf)) (ex := {})
      split
      next e he => exact ⟨hi'.1.err he, fun l h => by simp at h⟩
      next is hi =>
        refine ⟨Fine.ok _, fun l h => ?_⟩
        simp only [Except.ok.injEq] at h; subst h
        intro q hq
        rcases List.mem_append.mp hq with hq | hq
        · exact hd' q (List.mem_of_mem_take hq)
        · exact hi'.2 is hi q (List.mem_of_mem_take hq)
    · refine ⟨Fine.ok _, fun l h => ?_⟩
      simp only [Except.ok.injEq] at h; subst h
      exact fun q hq => hd' q (List.mem_of_mem_take hq)

theorem onlyTypename_fine {env : Env} (hc : Connected env.G) {ps : List Path} (hp : AllOn env.G ps) :
    Fine (onlyTypename env ps) := by
  have h1 : ∀ p ∈ ps, Fine (typenameFrom env p) := by
    intro p hp'
    simp only [typenameFrom]
    split
    next e he => exact (findDirect_fine (sat_fine hc) (hp p hp')).err he
    · exact Fine.error (by simp [Err.Bad])
    · exact Fine.ok _
  simp only [onlyTypename]
  split
  next e he => exact (mapPaths_fine h1).err he
  next l hl =>
    have h2 : Ready env.G l := by
      refine mapPaths_ready ?_ hl
      intro p _ l' hl'
      simp only [typenameFrom] at hl'
      split at hl'
      · simp at hl'
      · simp at hl'
      next d ds hd =>
        simp only [Except.ok.injEq] at hl'; subst hl'
        exact findDirect_onType hc hd
    split
    next e he => exact (trackAll_fine h2.on _).err he
    · split
      · exact Fine.error (by simp [Err.Bad])
      · exact Fine.ok _

/-- What is still to be resolved has paths to go on from. -/
def ReadyOut (G : Moves) (st : List (Sel × List Path)) : Prop :=
  ∀ x ∈ st, x.2 ≠ [] ∧ Ready G x.2

/-- The work left on the stack. -/
def load : List (Sel × List Path) → Nat
  | [] => 0
  | x :: r => selCost x.1 + load r

theorem load_append : ∀ a b : List (Sel × List Path), load (a ++ b) = load a + load b
  | [], b => by simp [load]
  | x :: a, b => by simp only [List.cons_append, load, load_append a b]; omega

theorem load_map (ps : List Path) : ∀ ss : List Sel, load (ss.map (·, ps)) = selsCost ss
  | [] => rfl
  | x :: ss => by simp only [List.map_cons, load, selsCost, load_map ps ss]

/-- A step ends, and leaves paths to go on from and less work than there was. -/
def GoodStep (G : Moves) (bound : Nat) (x : Except Err Out) : Prop :=
  Fine x ∧ ∀ o, x = .ok o → ReadyOut G o.1 ∧ load o.1 < bound

theorem fragStep_good {env : Env} (hc : Connected env.G) {g : FragInfo} {ss : List Sel}
    {k : List Path → Except Err Out} {ps : List Path} {loc : List String}
    (hk : ∀ qs, qs ≠ [] → Ready env.G qs → GoodStep env.G (selsCost ss + 1) (k qs))
    (hne : ps ≠ []) (hp : Ready env.G ps) :
    GoodStep env.G (selsCost ss + 1) (fragStep env g k ps loc) := by
  unfold fragStep
  split
  · exact absurd rfl hne
  next p rest =>
    have hp1 := hp p (by simp)
    split
    next he => exact absurd (by simpa using he) hp1.2
    · obtain ⟨a, b, c, d, hn⟩ := hp1.1
      simp only [hn]
      split
      · split
        · exact hk _ hne hp
        · have f1 : ∀ p' ∈ p :: rest, Fine (match selfie env g.cond (g.skipIf, g.includeIf) p' with
                | .error e => .error e
                | .ok q => .ok [q] : Except Err (List Path)) := by
            intro p' hp'
            split
            next e he =>
              exact (firstSelfie_fine hc (hp p' hp').1 fun e he => (List.mem_filter.mp he).1).1.err he
            · exact Fine.ok _
          split
          next e he => exact ⟨(mapPaths_fine f1).err he, fun o h => by simp at h⟩
          next next hm =>
            refine hk next ?_ ?_
            · intro h0
              subst h0
              obtain ⟨l, hl, hl'⟩ := mapPaths_has hm p (by simp)
              split at hl
              · simp at hl
              next q _ =>
                simp only [Except.ok.injEq] at hl; subst hl
                have := hl' q (by simp); simp at this
            · refine mapPaths_ready ?_ hm
              intro p' hp' l hl
              split at hl
              · simp at hl
              next q hq =>
                simp only [Except.ok.injEq] at hl; subst hl
                intro x hx
                simp only [List.mem_singleton] at hx; subst hx
                exact (firstSelfie_fine hc (hp p' hp').1 fun e he => (List.mem_filter.mp he).1).2 x hq
      · split
        next e he =>
          exact ⟨(mapPaths_fine fun p' hp' => (ontoFrom_fine hc (hp p' hp').1).1).err he,
            fun o h => by simp at h⟩
        · refine ⟨onlyTypename_fine hc hp.on, fun o h => ?_⟩
          simp only [onlyTypename] at h
          split at h
          · simp at h
          · split at h
            · simp at h
            · split at h
              · simp at h
              · simp only [Except.ok.injEq] at h; subst h
                exact ⟨by simp [ReadyOut], by simp [load]⟩
        next n next hm =>
          exact hk _ (by simp) (mapPaths_ready (fun p' hp' => (ontoFrom_fine hc (hp p' hp').1).2) hm)

theorem filterPaths_fine {f : Path → Except Err Bool} : ∀ {ps : List Path},
    (∀ p ∈ ps, Fine (f p)) → Fine (filterPaths f ps) := by
  intro ps
  induction ps with
  | nil => intro _; exact Fine.ok _
  | cons p r ih =>
    intro h
    simp only [filterPaths]
    split
    next e he => exact (h p (by simp)).err he
    · split
      next e he => exact (ih fun q hq => h q (by simp [hq])).err he
      · exact Fine.ok _

theorem localFields_fine {env : Env} (hc : Connected env.G) {f : FieldInfo} {ss : List Sel}
    {next : List Path} : Fine (localFields env f ss next) := by
  simp only [localFields]
  split
  · exact Fine.ok _
  · split
    · exact Fine.ok _
    next e he =>
      have hm : e ∈ env.G.edges := by
        obtain ⟨p, _, hl⟩ := List.exists_of_findSome?_eq_some he
        unfold lastFieldMove at hl
        split at hl
        · simp at hl
        · split at hl
          next e' he' =>
            split at hl
            · simp only [Option.some.injEq] at hl; subst hl
              exact List.mem_of_find?_eq_some he'
            · simp at hl
          · simp at hl
      obtain ⟨⟨n, hn⟩, a, b, c, d, hd⟩ := hc e hm
      simp only [hn, hd]
      split
      · exact Fine.error (by simp [Err.Bad])
      · split
        · exact Fine.error (by simp [Err.Bad])
        · split
          · exact Fine.error (by simp [Err.Bad])
          · split <;> exact Fine.ok _

theorem fieldStep_good {env : Env} (hc : Connected env.G) {f : FieldInfo} {ss : List Sel}
    {ok : Path → List String → Except Err Bool} {ps : List Path} {loc : List String}
    (hok : ∀ c l, OnType env.G c → c.segs ≠ [] → Fine (ok c l)) (hp : Ready env.G ps) :
    GoodStep env.G (selsCost ss + 1) (fieldStep env f ss ok ps loc) := by
  simp only [fieldStep]
  split
  next e he =>
    refine ⟨?_, fun o h => by simp at h⟩
    split at he
    · exact (targetIds_fine hp.on).err he
    · simp at he
  next ids _ =>
    have key : ∀ p ∈ ps, Fine (fieldPaths env f ss loc ids p) ∧
        ∀ l, fieldPaths env f ss loc ids p = .ok l → Ready env.G l := by
      intro p hp'
      have hon := (hp p hp').1
      simp only [fieldPaths]
      split
      next e he => exact ⟨(findDirect_fine (sat_fine hc) hon).err he, fun l h => by simp at h⟩
      next ds hd =>
        have hd' := findDirect_onType hc hd
        split
        · have hi' := findIndirect_fine hc (S := env.S) (sat_fine hc) hon (t := .field f ss ids) (ex := {})
          split
          next e he => exact ⟨hi'.1.err he, fun l h => by simp at h⟩
          next is hi =>
            refine ⟨Fine.ok _, fun l h => ?_⟩
            simp only [Except.ok.injEq] at h; subst h
            intro q hq
            rcases List.mem_append.mp hq with hq | hq
            · exact hd' q hq
            · exact hi'.2 is hi q hq
        · refine ⟨Fine.ok _, fun l h => ?_⟩
          simp only [Except.ok.injEq] at h; subst h
          exact hd'
    split
    next e he => exact ⟨(mapPaths_fine fun p hp' => (key p hp').1).err he, fun o h => by simp at h⟩
    next found hf =>
      have r1 : Ready env.G found := mapPaths_ready (fun p hp' => (key p hp').2) hf
      split
      next e he => exact ⟨(trackAll_fine r1.on _).err he, fun o h => by simp at h⟩
      next tk ht =>
        have r2 : Ready env.G tk.best := by
          intro q hq
          rcases trackAll_mem ht q hq with h | h
          · exact r1 q h
          · simp [Tracker.best] at h
        split
        · exact ⟨Fine.error (by simp [Err.Bad]), fun o h => by simp at h⟩
        next n next hn =>
          have r3 : Ready env.G (n :: next) := by
            rw [← hn]
            intro q hq
            obtain ⟨p, hp', ha, _⟩ := narrow_mem q hq
            have := r2 p hp'
            exact ⟨by rw [OnType, ha.tail]; exact this.1, by rw [ha.2.1]; exact this.2⟩
          simp only [fieldOut]
          split
          next e he => exact ⟨(localFields_fine hc).err he, fun o h => by simp at h⟩
          next lc hlc =>
            split
            next e he =>
              refine ⟨?_, fun o h => by simp at h⟩
              split at he
              · simp at he
              · exact (filterPaths_fine fun p hp' => hok p _ (r3 p hp').1 (r3 p hp').2).err he
            next nx hnx =>
              have r4 : Ready env.G nx := by
                split at hnx
                · simp only [Except.ok.injEq] at hnx; subst hnx; exact r3
                · exact fun q hq => r3 q (filterPaths_mem hnx q hq)
              split
              · refine ⟨Fine.ok _, fun o h => ?_⟩
                simp only [Except.ok.injEq] at h; subst h
                exact ⟨by simp [ReadyOut], by simp [load]⟩
              · split
                · exact ⟨Fine.error (by simp [Err.Bad]), fun o h => by simp at h⟩
                next hne =>
                  refine ⟨Fine.ok _, fun o h => ?_⟩
                  simp only [Except.ok.injEq] at h; subst h
                  refine ⟨?_, by rw [load_map]; omega⟩
                  intro x hx
                  obtain ⟨y, _, rfl⟩ := List.mem_map.mp hx
                  exact ⟨by simpa using hne, r4⟩

mutual
theorem processSel_good {env : Env} (hc : Connected env.G) : ∀ (x : Sel) {ps : List Path}
    {loc : List String}, ps ≠ [] → Ready env.G ps → GoodStep env.G (selCost x) (processSel env x ps loc)
  | .field f ss, ps, loc, hne, hp => by
    simp only [processSel, selCost]
    rw [Nat.add_comm]
    exact fieldStep_good hc (fun c l h1 h2 => childrenOk_fine hc ss h1 h2) hp
  | .frag g ss, ps, loc, hne, hp => by
    simp only [processSel, selCost]
    rw [Nat.add_comm]
    exact fragStep_good hc (fun qs h1 h2 => processSels_good hc ss h1 h2) hne hp
  | .spread n, ps, loc, hne, hp => by
    simp only [processSel]
    refine ⟨Fine.ok _, fun o h => ?_⟩
    simp only [Except.ok.injEq] at h; subst h
    exact ⟨by simp [ReadyOut], by simp [load, selCost]⟩
theorem processSels_good {env : Env} (hc : Connected env.G) : ∀ (ss : List Sel) {ps : List Path}
    {loc : List String}, ps ≠ [] → Ready env.G ps →
    GoodStep env.G (selsCost ss + 1) (processSels env ss ps loc)
  | [], ps, loc, hne, hp => by
    simp only [processSels]
    refine ⟨Fine.ok _, fun o h => ?_⟩
    simp only [Except.ok.injEq] at h; subst h
    exact ⟨by simp [ReadyOut], by simp [load]⟩
  | x :: r, ps, loc, hne, hp => by
    simp only [processSels, selsCost]
    obtain ⟨f1, g1⟩ := processSel_good hc x (loc := loc) hne hp
    obtain ⟨f2, g2⟩ := processSels_good hc r (loc := loc) hne hp
    split
    next e he => exact ⟨f1.err he, fun o h => by simp at h⟩
    next s g hx =>
      split
      next e he => exact ⟨f2.err he, fun o h => by simp at h⟩
      next s' g' hr =>
        refine ⟨Fine.ok _, fun o h => ?_⟩
        simp only [Except.ok.injEq] at h; subst h
        obtain ⟨a1, b1⟩ := g1 _ hx
        obtain ⟨a2, b2⟩ := g2 _ hr
        refine ⟨?_, ?_⟩
        · intro y hy
          rcases List.mem_append.mp hy with hy | hy
          · exact a1 y hy
          · exact a2 y hy
        · simp only [load_append] at *; omega
theorem childrenOk_fine {env : Env} (hc : Connected env.G) : ∀ (ss : List Sel) {c : Path}
    {loc : List String}, OnType env.G c → c.segs ≠ [] → Fine (childrenOk env ss c loc)
  | [], c, loc, h1, h2 => by simp only [childrenOk]; exact Fine.ok _
  | x :: r, c, loc, h1, h2 => by
    simp only [childrenOk]
    obtain ⟨f1, _⟩ := processSel_good hc x (ps := [c]) (loc := loc) (by simp)
      (by intro p hp; simp only [List.mem_singleton] at hp; subst hp; exact ⟨h1, h2⟩)
    split
    next he => exact f1.err he
    next he => exact f1.err he
    · exact Fine.ok _
    · split
      · exact Fine.ok _
      · exact childrenOk_fine hc r h1 h2
end

theorem walkLoop_fine {env : Env} (hc : Connected env.G) : ∀ (n : Nat) (st : List (Sel × List Path))
    (acc : List (List Path)), load st < n → ReadyOut env.G st → Fine (walkLoop env n st acc) := by
  intro n
  induction n with
  | zero => intro st acc h; omega
  | succ n ih =>
    intro st acc h hr
    cases st with
    | nil => exact Fine.ok _
    | cons x st =>
      obtain ⟨x, ps⟩ := x
      obtain ⟨h1, h2⟩ := hr (x, ps) (by simp)
      obtain ⟨f1, g1⟩ := processSel_good hc x (loc := []) h1 h2
      simp only [load] at h
      simp only [walkLoop]
      split
      next e he => exact f1.err he
      next s g hs =>
        obtain ⟨a, b⟩ := g1 _ hs
        refine ih _ _ (by simp only [load_append] at *; omega) ?_
        intro y hy
        rcases List.mem_append.mp hy with hy | hy
        · exact a y hy
        · exact hr y (by simp [hy])

theorem walkRoots_fine {env : Env} (hc : Connected env.G) {start : List Path} (hne : start ≠ [])
    (hs : Ready env.G start) : ∀ sels : List Sel, Fine (walkRoots env start sels) := by
  intro sels
  induction sels with
  | nil => exact Fine.ok _
  | cons x r ih =>
    simp only [walkRoots]
    split
    next e he =>
      refine (walkLoop_fine hc _ _ _ (by simp [load]) ?_).err he
      intro y hy
      simp only [List.mem_singleton] at hy; subst hy
      exact ⟨hne, hs⟩
    · split
      next e he => exact ih.err he
      · exact Fine.ok _

theorem entry_ready {env : Env} (hc : Connected env.G) {kind : OpKind} {es : List Edge}
    (h : entrypoints env.G kind = .ok es) : Ready env.G (es.map entryPath) := by
  intro p hp
  obtain ⟨e, he, rfl⟩ := List.mem_map.mp hp
  refine ⟨?_, by simp [entryPath, Path.segs]⟩
  obtain ⟨a, b, c, d, hd⟩ := (hc e (entrypoints_mem h e he).1).2
  exact ⟨a, b, c, d, by simpa [entryPath, Path.tail, Path.root, Path.segs, endOf] using hd⟩

theorem walk_fine {env : Env} (hc : Connected env.G) {kind : OpKind}
    (hr : ∀ r, rootOf env.G kind = some r → ∃ e ∈ env.G.edges, e.src = r) (sels : List Sel) :
    Fine (walk env kind sels) := by
  simp only [walk]
  split
  next e he =>
    have : entrypoints env.G kind = match rootOf env.G kind with
      | none => .error .missingRoot
      | some r => .ok (env.G.edges.filter (·.src == r)) := by cases kind <;> rfl
    rw [this] at he
    split at he
    · simp only [Except.error.injEq] at he; subst he; exact Fine.error (by simp [Err.Bad])
    · simp at he
  next es he =>
    refine walkRoots_fine hc ?_ (entry_ready hc he) sels
    intro h0
    have : entrypoints env.G kind = match rootOf env.G kind with
      | none => .error .missingRoot
      | some r => .ok (env.G.edges.filter (·.src == r)) := by cases kind <;> rfl
    rw [this] at he
    split at he
    · simp at he
    next r hroot =>
      simp only [Except.ok.injEq] at he; subst he
      obtain ⟨e, he, hsrc⟩ := hr r hroot
      have : e ∈ env.G.edges.filter (·.src == r) := List.mem_filter.mpr ⟨he, by simp [hsrc]⟩
      simp only [List.map_eq_nil_iff] at h0
      rw [h0] at this; simp at this

end Verif.Walker
