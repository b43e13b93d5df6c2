import Verif.Valid.OverlapExact

/-!
# Fields that are merged into one response: the theorems

The schema of the examples has `type T { a: T, f(l: [Int]): Int, x: Int, y: Int, s: String }` as the
type of queries, `type U { s: Int }`, `union TU = T | U` and a field `u: TU` on `T`.
-/

namespace Verif.Valid

def ovS : Schema :=
  { types := [
      .object "T" [] [⟨"a", [], .named "T"⟩, ⟨"f", [⟨"l", .list (.named "Int"), none⟩], .named "Int"⟩,
        ⟨"x", [⟨"o", .named "O", none⟩, ⟨"n", .named "Int", none⟩], .named "Int"⟩,
        ⟨"y", [], .named "Int"⟩, ⟨"s", [], .named "String"⟩, ⟨"u", [], .named "TU"⟩],
      .object "U" [] [⟨"s", [], .named "Int"⟩, ⟨"y", [], .named "Int"⟩],
      .union "TU" ["T", "U"],
      .input "O" [⟨"p", .named "Int", none⟩, ⟨"q", .named "Int", none⟩],
      .scalar "Int", .scalar "String"]
    dirs := [], query := "T", mutation := none, subscription := none }

/-- A field, with an alias perhaps. -/
def ovF (al : Option Name) (n : Name) (args : Args) (sub : List Sel) : Sel := .field al n args [] sub

/-- A document of one query and some fragments on `T`. -/
def ovD (ss : List Sel) (fs : List (Name × List Sel)) : Doc :=
  .op ⟨.query, none, [], [], ss⟩ :: fs.map fun p => .frag ⟨p.1, "T", [], p.2⟩

mutual
/-- All the selections inside a selection, with itself. -/
def deepSel : Sel → List Sel
  | .field al n args ds sub => .field al n args ds sub :: deepSels sub
  | .spread n ds => [.spread n ds]
  | .inline c ds sub => .inline c ds sub :: deepSels sub
/-- All the selections inside a selection set. -/
def deepSels : List Sel → List Sel
  | [] => []
  | x :: xs => deepSel x ++ deepSels xs
end

theorem deepSels_of_mem {x y : Sel} {ss : List Sel} (hx : x ∈ ss) (h : y ∈ deepSel x) : y ∈ deepSels ss := by
  induction ss with
  | nil => simp at hx
  | cons z zs ih =>
    simp only [deepSels, List.mem_append]
    rcases List.mem_cons.1 hx with rfl | hx
    · exact .inl h
    · exact .inr (ih hx)

theorem inside_deep {x : Sel} {ss : List Sel} (h : Inside x ss) : x ∈ deepSels ss := by
  induction h with
  | here hx => exact deepSels_of_mem hx (by cases x <;> simp [deepSel])
  | field hx _ ih => exact deepSels_of_mem hx (by simp [deepSel, ih])
  | inline hx _ ih => exact deepSels_of_mem hx (by simp [deepSel, ih])

/-- There is no cycle if fragments only spread those of a lower rank. -/
theorem noCycle_of_rank {d : Doc} (rank : Name → Nat)
    (h : (frags d).all (fun f => (deepSels f.sels).all (fun x => match x with
      | .spread n _ => rank n < rank f.name
      | _ => true)) = true) : NoCycle d := by
  have h1 : ∀ f ∈ frags d, ∀ n, SpreadIn f.sels n → rank n < rank f.name := by
    rintro f hf n ⟨ds, hi⟩
    have := List.all_eq_true.1 (List.all_eq_true.1 h f hf) _ (inside_deep hi)
    simpa using this
  have h2 : ∀ (ss : List Sel) n, Reaches d ss n → ∀ f ∈ frags d, f.sels = ss → rank n < rank f.name := by
    intro ss n hr
    induction hr with
    | direct hs => intro f hf e; exact h1 f hf _ (e ▸ hs)
    | through hs hg _ ih =>
      intro f hf e
      exact Nat.lt_trans (ih _ hg rfl) (h1 f hf _ (e ▸ hs))
  exact fun f hf hr => Nat.lt_irrefl _ (h2 _ _ hr f hf rfl)

mutual
/-- Whether a value is plain. -/
def plainVal : Val → Bool
  | .list _ => false
  | .obj fs => (fs.map (·.1)).Nodup && plainVals fs
  | _ => true
/-- Whether the values of the fields are plain. -/
def plainVals : List (Name × Val) → Bool
  | [] => true
  | p :: ps => plainPair p && plainVals ps
/-- Whether the value of a field is plain. -/
def plainPair : Name × Val → Bool
  | (_, v) => plainVal v
end

mutual
theorem plainVal_sound : ∀ v : Val, plainVal v = true → PlainVal v
  | .null, _ => .null
  | .bool b, _ => .bool b
  | .int i, _ => .int i
  | .float t, _ => .float t
  | .str t, _ => .str t
  | .enum n, _ => .enum n
  | .var n, _ => .var n
  | .list vs, h => by simp [plainVal] at h
  | .obj fs, h => by
    simp only [plainVal, Bool.and_eq_true, decide_eq_true_eq] at h
    exact .obj h.1 (plainVals_sound fs h.2)
theorem plainVals_sound : ∀ fs : List (Name × Val), plainVals fs = true → ∀ p ∈ fs, PlainVal p.2
  | [], _, p, hp => by simp at hp
  | q :: ps, h, p, hp => by
    simp only [plainVals, Bool.and_eq_true] at h
    rcases List.mem_cons.1 hp with e | hp
    · rw [e]; exact plainPair_sound q h.1
    · exact plainVals_sound ps h.2 p hp
theorem plainPair_sound : ∀ p : Name × Val, plainPair p = true → PlainVal p.2
  | (_, v), h => plainVal_sound v (by simpa only [plainPair] using h)
end

/-- Whether a selection is one of a plain document. -/
def plainSel (s : Schema) : Sel → Bool
  | .field _ _ args _ _ => (args.map (·.1)).Nodup && plainVals args
  | .spread _ _ => false
  | .inline (some c) _ _ => (s.typeByName c).isSome
  | .inline none _ _ => true

theorem plain_of_check {s : Schema} {d : Doc}
    (h : d.all (fun x => (deepSels x.sels).all (plainSel s)) = true) : PlainDoc s d := by
  have h1 : ∀ x ∈ d, ∀ y, Inside y x.sels → plainSel s y = true := fun x hx y hi =>
    List.all_eq_true.1 (List.all_eq_true.1 h x hx) _ (inside_deep hi)
  refine ⟨fun x hx n ds hi => ?_, fun x hx al n as ds sub hi => ?_, fun x hx c ds sub hi => ?_⟩
  · simpa [plainSel] using h1 x hx _ hi
  · have := h1 x hx _ hi
    simp only [plainSel, Bool.and_eq_true, decide_eq_true_eq] at this
    exact ⟨this.1, plainVals_sound as this.2⟩
  · exact Option.isSome_iff_exists.1 (h1 x hx _ hi)

/-! ## C86: fields with one key in the response -/

/-- The full property: the rule rejects exactly the documents with a selection set in which two fields
with one key in the response are in conflict. -/
def ConflictsFound : Prop := ∀ (s : Schema) (d : Doc), ∃ k, ∀ fuel, k ≤ fuel →
  ∃ r, overlapping s d fuel = some r ∧ (r = true ↔ Conflicting s d)

/-- No document is rejected by the rule that has no conflict, whatever fragments it has. -/
theorem C86_no_false_alarm (s : Schema) (d : Doc) (fuel : Nat) (h : overlapping s d fuel = some true) :
    Conflicting s d :=
  overlapping_sound h

/-- `_partial`: of the documents without spreads, whose arguments have no lists, whose arguments and
objects give nothing twice, and whose inline fragments are on types that exist, exactly those are
rejected that have a conflict. Missing: spreads, where conflicts are missed, and lists, of which only
as many elements are compared as both have. -/
theorem C86_conflicts_partial (s : Schema) (d : Doc) (hd : PlainDoc s d) : ∃ k, ∀ fuel, k ≤ fuel →
    ∃ r, overlapping s d fuel = some r ∧ (r = true ↔ Conflicting s d) := by
  obtain ⟨k, r, hk⟩ := overlapping_ends (s := s) hd.noCycle
  refine ⟨k, fun fuel hf => ⟨r, hk fuel hf, fun e => ?_, fun hc => ?_⟩⟩
  · exact overlapping_sound (e ▸ hk fuel hf)
  · cases r with
    | true => rfl
    | false => exact absurd hc (overlapping_complete hd (hk fuel hf))

/-- `{ k: x(o: {p: 1, q: 2}, n: 3) k: x(n: 3, o: {q: 2, p: 1}) }`: not in conflict. -/
def ovGood : Doc := ovD
  [ovF (some "k") "x" [("o", .obj [("p", .int 1), ("q", .int 2)]), ("n", .int 3)] [],
   ovF (some "k") "x" [("n", .int 3), ("o", .obj [("q", .int 2), ("p", .int 1)])] []] []

/-- `{ u { ... on T { s } ... on U { s } } }`: the values of `s` have different types. -/
def ovShape : Doc := ovD
  [ovF none "u" [] [.inline (some "T") [] [ovF none "s" [] []], .inline (some "U") [] [ovF none "s" [] []]]]
  []

/-- `{ u { ... on T { k: x } ... on U { k: y } } }`: never in one response. -/
def ovApart : Doc := ovD
  [ovF none "u" [] [.inline (some "T") [] [ovF (some "k") "x" [] []],
    .inline (some "U") [] [ovF (some "k") "y" [] []]]] []

/-- `{ a { k: x } a { ... on T { k: y } } }`: in conflict, below. -/
def ovBelow : Doc := ovD
  [ovF none "a" [] [ovF (some "k") "x" [] []],
   ovF none "a" [] [.inline (some "T") [] [ovF (some "k") "y" [] []]]] []

example : PlainDoc ovS ovGood ∧ PlainDoc ovS ovShape ∧ PlainDoc ovS ovApart ∧ PlainDoc ovS ovBelow :=
  ⟨plain_of_check (by decide +kernel), plain_of_check (by decide +kernel),
    plain_of_check (by decide +kernel), plain_of_check (by decide +kernel)⟩

/-- For a plain document, one answer settles whether there is a conflict. -/
theorem C86_decided (s : Schema) (d : Doc) (hd : PlainDoc s d) (fuel : Nat) (r : Bool)
    (h : overlapping s d fuel = some r) : r = true ↔ Conflicting s d := by
  cases r with
  | true => exact ⟨fun _ => overlapping_sound h, fun _ => rfl⟩
  | false => exact ⟨(nomatch ·), fun hc => absurd hc (overlapping_complete hd h)⟩

example : overlapping ovS ovGood 10 = some false ∧ overlapping ovS ovShape 10 = some true ∧
    overlapping ovS ovApart 10 = some false ∧ overlapping ovS ovBelow 20 = some true := by
  decide +kernel

/-- More fuel does not change an answer. -/
theorem overlapping_unique {s : Schema} {d : Doc} {k k' : Nat} {r r' : Bool}
    (h : overlapping s d k = some r) (h' : overlapping s d k' = some r') : r = r' := by
  have h1 := overlapFrom_mono (Nat.le_max_left k k') h
  have h2 := overlapFrom_mono (Nat.le_max_right k k') h'
  rw [h1] at h2
  simpa using h2

/-- `{ k: f(l: [1]) k: f(l: [1, 2]) }`. -/
def ovList : Doc := ovD
  [ovF (some "k") "f" [("l", .list [.int 1])] [], ovF (some "k") "f" [("l", .list [.int 1, .int 2])] []] []

theorem not_different {a b : Occ} (h : a.parent = b.parent) : ¬ OnDifferent a b := by
  rintro ⟨n, is, fs, m, js, gs, h1, h2, h3⟩
  rw [h1, h2] at h
  cases h
  exact h3 rfl

theorem ovList_conflicting : Conflicting ovS ovList := by
  refine ⟨_, _, _, _, .root (List.mem_singleton_self _), .field List.mem_cons_self,
    .field (List.mem_cons_of_mem _ List.mem_cons_self), rfl, .args id ?_ ?_⟩
  · exact not_different rfl
  · rintro ⟨_, _, h⟩
    obtain ⟨v, hv, hs⟩ := h _ List.mem_cons_self
    simp only [List.mem_singleton, Prod.mk.injEq, true_and] at hv
    subst hv
    cases hs with
    | list hl _ => simp at hl

/-- The property does not hold: lists are compared as far as both go. -/
theorem C86_lists_refuted : ¬ ConflictsFound := by
  intro h
  obtain ⟨k, hk⟩ := h ovS ovList
  obtain ⟨r, h1, h2⟩ := hk k (Nat.le_refl _)
  have h3 := overlapping_unique h1 (show overlapping ovS ovList 10 = some false by decide +kernel)
  have := h2.2 ovList_conflicting
  simp [h3] at this

/-- `{ q: a { k: x } q: a { ...F } r: a { k: y } r: a { ...F } } fragment F on T { ...G }
fragment G on T { k: x }`: the two fields `r` are in conflict below. -/
def ovMissed : Doc := ovD
  [ovF (some "q") "a" [] [ovF (some "k") "x" [] []], ovF (some "q") "a" [] [.spread "F" []],
   ovF (some "r") "a" [] [ovF (some "k") "y" [] []], ovF (some "r") "a" [] [.spread "F" []]]
  [("F", [.spread "G" []]), ("G", [ovF (some "k") "x" [] []])]

theorem ovMissed_conflicting : Conflicting ovS ovMissed := by
  refine ⟨_, _, _, _, .root List.mem_cons_self,
    .field (List.mem_cons_of_mem _ (List.mem_cons_of_mem _ List.mem_cons_self)),
    .field (List.mem_cons_of_mem _ (List.mem_cons_of_mem _ (List.mem_cons_of_mem _ List.mem_cons_self))),
    rfl, .sub (.field List.mem_cons_self)
      (.spread (f := ⟨"F", "T", [], [.spread "G" []]⟩) List.mem_cons_self List.mem_cons_self rfl
        (.spread (f := ⟨"G", "T", [], [ovF (some "k") "x" [] []]⟩) List.mem_cons_self
          (List.mem_cons_of_mem _ List.mem_cons_self) rfl (.field List.mem_cons_self)))
      rfl (.name ?_ ?_ ?_)⟩
  · rintro (h | h)
    · exact h
    · exact not_different rfl h
  · exact not_different rfl
  · decide

/-- The property does not hold for fragments either: once a fragment that is spread in another has been
compared with some fields of the selection set, it is not compared with others. Here all the other
rules accept the document. -/
theorem C86_fragments_refuted : ∃ (s : Schema) (d : Doc), NoCycle d ∧ Conflicting s d ∧
    ∀ fuel, overlapping s d fuel ≠ some true := by
  refine ⟨ovS, ovMissed, ?_, ovMissed_conflicting, fun fuel h => ?_⟩
  · exact noCycle_of_rank (fun n => if n = "F" then 1 else 0) (by decide +kernel)
  · have := overlapping_unique h (show overlapping ovS ovMissed 20 = some false by decide +kernel)
    simp at this

/-! ## C87: the comparison comes to an end -/

/-- The full property: for every document it is found out, in finitely many steps, whether it has
conflicts. -/
def ComparisonEnds : Prop := ∀ (s : Schema) (d : Doc), ∃ fuel r, overlapping s d fuel = some r

/-- `_partial`: it comes to an end for every document in which no fragment is reached from itself, and
then no more fuel would change the answer. Missing: documents with cycles of fragments, which are
compared all the same; the rule that rejects such is run in the same walk, and does not find those
that are more than one field deep (C76). -/
theorem C87_ends_partial (s : Schema) (d : Doc) (h : NoCycle d) :
    ∃ k r, ∀ fuel, k ≤ fuel → overlapping s d fuel = some r :=
  overlapping_ends h

/-- `{ a { ...A } ...A } fragment A on T { a { a { ...A } } }`. -/
def ovLoop : Doc := ovD
  [ovF none "a" [] [.spread "A" []], .spread "A" []]
  [("A", [ovF none "a" [] [ovF none "a" [] [.spread "A" []]]])]

/-- The field `a { ...A }`. -/
def ovOcc : Occ := ⟨ovS.typeByName "T", "a", "a", [], (ovS.typeByName "T").bind (·.fieldByName "a"),
  [.spread "A" []]⟩

theorem seqRun_none {rec : Task → OvSt → Ans} {ts : List Task} {t : Task} (ht : t ∈ ts)
    (h : ∀ st, rec t st = none) (st : OvSt) : seqRun rec ts st = none := by
  cases hr : seqRun rec ts st with
  | none => rfl
  | some r =>
    exfalso
    induction ts generalizing st r with
    | nil => simp at ht
    | cons u us ih =>
      simp only [seqRun] at hr
      rcases List.mem_cons.1 ht with rfl | ht
      · simp [h] at hr
      · cases h1 : rec u st with
        | none => simp [h1] at hr
        | some q =>
          simp only [h1] at hr
          cases h2 : seqRun rec us q.2 with
          | none => simp [h2] at hr
          | some q' => exact ih ht _ _ h2

theorem overlapFrom_some {s : Schema} {d : Doc} {k : Nat} {es : Told} {cmp : List (Name × Name × Bool)}
    {r : Bool} (h : overlapFrom s d k es cmp = some r) : ∀ c ss, (c, Ev.sels ss) ∈ es → ∃ st q,
      seqRun (runTask s d k) (setTasks s c.parent ss) st = some q := by
  induction es generalizing cmp r with
  | nil => intro c ss hm; simp at hm
  | cons e es ih =>
    obtain ⟨c, e⟩ := e
    intro c' ss' hm
    by_cases he : ∃ ss, e = .sels ss
    · obtain ⟨ss, rfl⟩ := he
      simp only [overlapFrom] at h
      cases h1 : seqRun (runTask s d k) (setTasks s c.parent ss) ⟨cmp, []⟩ with
      | none => simp [h1] at h
      | some q =>
        simp only [h1] at h
        cases h2 : overlapFrom s d k es q.2.compared with
        | none => simp [h2] at h
        | some r =>
          rcases List.mem_cons.1 hm with e | hm
          · cases e
            exact ⟨_, _, h1⟩
          · exact ih h2 c' ss' hm
    · rcases List.mem_cons.1 hm with e' | hm
      · cases e'
        exact absurd ⟨_, rfl⟩ he
      · refine ih (r := r) (cmp := cmp) ?_ c' ss' hm
        cases e <;> first | exact h | exact absurd ⟨_, rfl⟩ he

/-- Comparing `a { ...A }` with `A` comes back to itself: `a` with `a { a { ...A } }` of the fragment, so
`...A` with `a { ...A }`. -/
theorem loop_none (k : Nat) (me : Bool) (st : OvSt) :
    runTask ovS ovLoop k (.fieldsFrag [ovOcc] "A" me) st = none := by
  induction k using Nat.strongRecOn generalizing me st with
  | _ k ih =>
    match k with
    | 0 => rfl
    | k + 1 =>
      have hb : ∀ st, runTask ovS ovLoop k (.between me [ovOcc] [{ ovOcc with
          sub := [ovF none "a" [] [.spread "A" []]] }]) st = none := by
        intro st
        match k with
        | 0 => rfl
        | k + 1 =>
          refine seqRun_none (t := .find ovOcc { ovOcc with sub := [ovF none "a" [] [.spread "A" []]] } me)
            (List.mem_singleton_self _) (fun st => ?_) st
          match k with
          | 0 => rfl
          | k + 1 =>
            have hs : ∀ me st, runTask ovS ovLoop k (.subs me (ovS.typeByName "T") [.spread "A" []]
                (ovS.typeByName "T") [ovF none "a" [] [.spread "A" []]]) st = none := by
              intro me st
              match k with
              | 0 => rfl
              | k + 1 =>
                exact seqRun_none (t := .fieldsFrag [ovOcc] "A" me)
                  (List.mem_cons_of_mem _ (List.mem_singleton_self _)) (ih k (by omega) me) st
            cases me
            · exact hs false st
            · exact hs true st
      have := hb st
      change (match runTask ovS ovLoop k (.between me [ovOcc] [{ ovOcc with
          sub := [ovF none "a" [] [.spread "A" []]] }]) st with
        | none => none
        | some (b, st1) =>
          match nexts (runTask ovS ovLoop k) [ovOcc] me [] st1 with
          | none => none
          | some (c, st2) => some (b || c, st2)) = none
      rw [this]

/-- The property does not hold: for this document, which the rule on cycles accepts, the functions call
each other without end. -/
theorem C87_ends_refuted : ∃ (s : Schema) (d : Doc), noFragmentsCycle s d = false ∧
    ∀ fuel, overlapping s d fuel = none := by
  refine ⟨ovS, ovLoop, by decide +kernel, fun fuel => ?_⟩
  have hs : HasSet ovS ovLoop (ovS.typeByName "T") [ovF none "a" [] [.spread "A" []], .spread "A" []] :=
    .root (x := .op ⟨.query, none, [], [], [ovF none "a" [] [.spread "A" []], .spread "A" []]⟩)
      List.mem_cons_self
  obtain ⟨c, hc, hp⟩ := sels_visit.2 hs
  cases hr : overlapping ovS ovLoop fuel with
  | none => rfl
  | some r =>
    obtain ⟨st, q, h⟩ := overlapFrom_some hr c _ hc
    rw [hp] at h
    exact (nomatch h.symm.trans (seqRun_none (t := .fieldsFrag [ovOcc] "A" false)
      (List.mem_singleton_self _) (loop_none fuel false) st))

theorem C87_not_all : ¬ ComparisonEnds := by
  intro h
  obtain ⟨s, d, _, hn⟩ := C87_ends_refuted
  obtain ⟨fuel, r, hr⟩ := h s d
  simp [hn] at hr

end Verif.Valid
