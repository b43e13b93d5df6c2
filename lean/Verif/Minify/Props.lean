import Verif.Minify.Lemmas
/-!
# C50: a minified operation selects what the operation selects
-/
namespace Verif.Minify
open Verif Verif.Keys

theorem part_closed {S : Schema} {t : String} {items : List Sel} :
    ∀ u s v w, Part S t items u s → Child S u s v w → Part S t items v w :=
  fun _ _ _ _ h c => .step h c

/-- The counts of a valid operation. -/
theorem stats_spec {H : Hashers} {S : Schema} {root : String} {items : List Sel}
    (hv : Valid S root items) (hd : (S.defs.lookup root).isSome) (hne : items ≠ []) :
    ∃ added, enter H S root items (fun fs seen => walkItems H S fs items seen) []
        = .ok (added ++ [selId H root items]) ∧ Added H (Part S root items) (size items) added := by
  obtain ⟨fields, hf⟩ := Option.isSome_iff_exists.1 hd
  obtain ⟨added, h1, h2⟩ := (walk_spec (H := H) (S := S) (P := Part S root items) part_closed items).1 root fields
    [selId H root items] hv hf (fun u s h => .step .refl h)
  refine ⟨added, ?_, h2⟩
  unfold enter
  rw [if_neg (by simpa using hne)]
  simp only [List.count_cons_self, List.count_nil]
  rw [if_neg (by omega), hf]
  exact h1

/-- **C50**: if no two different selection sets of an operation get the same id, the operation is minified
without failing; the document has one fragment for each name; its spreads can be replaced by the fragments they
name, in one way only, each where a fragment of that type applies; and this gives the selections of the
operation, up to the order of siblings inside fragments. At the top everything stays in its order. -/
theorem C50_same_selections {H : Hashers} {S : Schema} {op : Op} {root : String}
    (hroot : rootType S op.kind = some root) (hdef : (S.defs.lookup root).isSome)
    (hv : Valid S root op.items) (hF : Faithful H S root op.items) :
    ∃ doc, minify H S op = .ok doc ∧ doc.kind = op.kind ∧ (doc.frags.map Frag.name).Nodup ∧
      doc.items.map bare = op.items.map bare ∧
      (∃ e, Expands S doc.frags root doc.items e ∧ Same e op.items) ∧
      (∀ e, Expands S doc.frags root doc.items e → Same e op.items) := by
  have finish : ∀ doc : Doc, minify H S op = .ok doc → doc.kind = op.kind → (doc.frags.map Frag.name).Nodup →
      doc.items.map bare = op.items.map bare → (∃ e, Expands S doc.frags root doc.items e ∧ Same e op.items) →
      ∃ doc, minify H S op = .ok doc ∧ doc.kind = op.kind ∧ (doc.frags.map Frag.name).Nodup ∧
      doc.items.map bare = op.items.map bare ∧
      (∃ e, Expands S doc.frags root doc.items e ∧ Same e op.items) ∧
      (∀ e, Expands S doc.frags root doc.items e → Same e op.items) := by
    intro doc h1 h2 h3 h4 h5
    refine ⟨doc, h1, h2, h3, h4, h5, fun e he => ?_⟩
    obtain ⟨e', he', hs⟩ := h5
    rw [expands_unique h3 he he']
    exact hs
  have hself : ∀ {t : String} {items : List Sel}, Valid S t items → Expands S [] t items items := by
    intro t items h
    induction h with
    | nil => exact .nil
    | intro a _ ih => exact .intro a ih
    | field a b c _ _ _ ih1 ih2 =>
      obtain ⟨fs, c1, c2⟩ := c
      exact .field a (by rw [fieldType, if_neg b, c1]; exact c2) ih1 ih2
    | entities a b _ _ _ ih1 ih2 => exact .field a (by rw [fieldType, if_pos b]) ih1 ih2
    | frag _ _ _ ih1 ih2 => exact .frag ih1 ih2
  have hunch : ∀ h : minify H S op = .ok ⟨op.kind, op.items, []⟩,
      ∃ doc, minify H S op = .ok doc ∧ doc.kind = op.kind ∧ (doc.frags.map Frag.name).Nodup ∧
      doc.items.map bare = op.items.map bare ∧
      (∃ e, Expands S doc.frags root doc.items e ∧ Same e op.items) ∧
      (∀ e, Expands S doc.frags root doc.items e → Same e op.items) := fun h =>
    finish _ h rfl (by simp) rfl ⟨op.items, hself hv, same_refl _⟩
  by_cases hne : op.items = []
  · refine hunch ?_
    unfold minify
    rw [hroot]
    simp [enter, hne]
  · obtain ⟨added, h1, h2⟩ := stats_spec (H := H) hv hdef hne
    by_cases hall : (added ++ [selId H root op.items]).all
        (fun i => (added ++ [selId H root op.items]).count i ≤ 1) = true
    · refine hunch ?_
      unfold minify
      rw [hroot]
      simp only [h1, hall, if_true]
    · -- ids of the operation's sets that are counted belong to sets with something in them
      have hcount : ∀ i, decide (1 < (added ++ [selId H root op.items]).count i) = true →
          ∃ u s, Part S root op.items u s ∧ s ≠ [] ∧ selId H u s = i := by
        intro i hi
        have hpos : 0 < (added ++ [selId H root op.items]).count i := by
          have := decide_eq_true_iff.1 hi; omega
        rcases List.mem_append.1 (List.count_pos_iff.1 hpos) with h | h
        · obtain ⟨u, s, a, b, c, _⟩ := h2 i h
          exact ⟨u, s, a, b, c⟩
        · rw [List.mem_singleton] at h
          exact ⟨root, op.items, .refl, hne, h.symm⟩
      -- the whole operation is counted once
      have hroot1 : decide (1 < (added ++ [selId H root op.items]).count (selId H root op.items)) = false := by
        rw [decide_eq_false_iff_not, List.count_append]
        have : added.count (selId H root op.items) = 0 := by
          rw [List.count_eq_zero]
          intro hm
          obtain ⟨u, s, a, _, c, d⟩ := h2 _ hm
          have := same_size (hF _ _ _ _ a .refl c).2
          omega
        simp [this]
      have hD : ∀ t, ∀ items, Part S root op.items t items →
          decide (1 < (added ++ [selId H root op.items]).count (selId H t items)) = true → items ≠ [] := by
        intro t items hp hdup e
        obtain ⟨u, s, a, b, c⟩ := hcount _ hdup
        have := (hF _ _ _ _ a hp c).2
        rw [e] at this
        exact b (same_nil this)
      obtain ⟨out, st, e, hn, hb, ex, he, hs⟩ := (tItems_spec (H := H) (P := Part S root op.items)
        (dup := fun i => decide (1 < (added ++ [selId H root op.items]).count i)) part_closed hF hD op.items).1
        root [] ⟨[], 0⟩ hv (fun u s h => .step .refl h)
        ⟨by simp, by simp, fun p hp => absurd hp List.not_mem_nil, fun i fr hm => absurd hm List.not_mem_nil⟩
        (fun i hi => absurd hi List.not_mem_nil)
      have hmin : minify H S op = .ok ⟨op.kind, out, sortFrags (st.frags.map (·.2))⟩ := by
        unfold minify
        rw [hroot]
        simp only [h1]
        rw [if_neg hall]
        simp only [orFragment, hroot1, Bool.false_eq_true, if_false, e]
      refine finish _ hmin rfl ?_ hb ⟨ex, ?_, hs⟩
      · refine ((sortFrags_perm _).map Frag.name).nodup_iff.2 ?_
        rw [List.map_map]
        exact hn.inv.names
      · refine expands_mono (fun x hx => ?_) he
        obtain ⟨i, hm, _⟩ := mem_done.1 hx
        exact (sortFrags_perm _).mem_iff.2 (List.mem_map.2 ⟨_, hm, rfl⟩)

/-- **C50**: names of fragments never repeat, however many there are. -/
theorem C50_names_distinct {i j : Nat} (h : fragName i = fragName j) : i = j := fragName_inj h

/-! ## Values that hash alike -/

/-- A schema with two fields of one type. -/
def exSchema : Schema :=
  { defs := [("Query", [("a", "T"), ("b", "T")]), ("T", [("f", "Int")])]
    query := "Query", mutation := none, subscription := none }

/-- `f(x: v)`. -/
def exField (v : Lit) : Sel := .field { name := "f", args := some [("x", v)] } []

/-- `{ a { f(x: v) } b { f(x: w) } }`. -/
def exOp (v w : Lit) : Op :=
  ⟨some .query, [.field { name := "a" } [exField v], .field { name := "b" } [exField w]]⟩

theorem exIntro (v : Lit) : introspection { name := "f", args := some [("x", v)] } = false := by
  show ("f".toList.take 2 == ['_', '_']) = false
  decide

theorem exValid (v w : Lit) : Valid exSchema "Query" (exOp v w).items := by
  have hf : ∀ v, Valid exSchema "T" [exField v] := fun v =>
    .field (u := "Int") (exIntro v) (by simp) ⟨_, rfl, rfl⟩ (.inl rfl) .nil .nil
  exact .field (u := "T") (by decide) (by decide) ⟨_, rfl, rfl⟩ (.inr rfl) (hf v)
    (.field (u := "T") (by decide) (by decide) ⟨_, rfl, rfl⟩ (.inr rfl) (hf w) .nil)

/-- Some field, anywhere, is like this. -/
def anyField (p : FieldInfo → Bool) : List Sel → Bool
  | [] => false
  | .field f s :: r => p f || anyField p s || anyField p r
  | .frag _ s :: r => anyField p s || anyField p r
  | .spread _ :: r => anyField p r

theorem same_anyField {p : FieldInfo → Bool} {a b : List Sel} (h : Same a b) : anyField p a = anyField p b := by
  induction h with
  | nil => rfl
  | field _ _ h1 h2 => simp only [anyField, h1, h2]
  | frag _ _ h1 h2 => simp only [anyField, h1, h2]
  | spread _ h => simp only [anyField, h]
  | @swap x y r => cases x <;> cases y <;> simp only [anyField] <;> ac_rfl
  | trans _ _ h1 h2 => exact h1.trans h2

/-- A field with a string argument. -/
def stringArg (f : FieldInfo) : Bool :=
  match f.args with
  | some [(_, .str _)] => true
  | _ => false

/-- **C50** (the hypothesis is needed): `null` and `"null"` hash alike, whatever the hash functions are. So
`{ a { f(x: null) } b { f(x: "null") } }` is sent to the subgraph with `f(x: null)` in both places. The
hypothesis only says that the whole operation does not collide with its parts. -/
theorem C50_null_argument (H : Hashers)
    (hne : selId H "Query" (exOp .null (.str "null")).items ≠ selId H "T" [exField .null])
    (hne' : selId H "Int" [] ≠ selId H "T" [exField .null]) :
    ∃ doc, minify H exSchema (exOp .null (.str "null")) = .ok doc ∧
      doc.items = [.field { name := "a" } [.spread "a"], .field { name := "b" } [.spread "a"]] ∧
      doc.frags = [⟨"a", "T", [exField .null]⟩] ∧
      Expands exSchema doc.frags "Query" doc.items (exOp .null .null).items ∧
      ¬ Same (exOp .null .null).items (exOp .null (.str "null")).items := by
  have heq : selId H "T" [exField (.str "null")] = selId H "T" [exField .null] := by
    simp [selId, setHash, exField, fieldEnd, argsWords, argsHash, litWords]
  have i1 : introspection { name := "a" } = false := by decide
  have i2 : introspection { name := "b" } = false := by decide
  have i3 := exIntro
  refine ⟨⟨some .query, [.field { name := "a" } [.spread "a"], .field { name := "b" } [.spread "a"]],
    [⟨"a", "T", [exField .null]⟩]⟩, ?_, rfl, rfl, ?_, ?_⟩
  · have hq : ∀ fields seen, fields = [("f", "Int")] → ∀ v, walkItems H exSchema fields [exField v] seen = .ok seen := by
      intro fields seen h v
      subst h
      simp [walkItems, exField, i3, enter]
    have hw : enter H exSchema "Query" (exOp .null (.str "null")).items
        (fun fs seen => walkItems H exSchema fs (exOp .null (.str "null")).items seen) []
        = .ok [selId H "T" [exField .null], selId H "T" [exField .null],
            selId H "Query" (exOp .null (.str "null")).items] := by
      unfold enter
      simp only [exOp, List.isEmpty_cons, Bool.false_eq_true, if_false, List.count_cons_self, List.count_nil]
      rw [if_neg (by omega)]
      have hT : exSchema.defs.lookup "T" = some [("f", "Int")] := by decide
      have hQ : exSchema.defs.lookup "Query" = some [("a", "T"), ("b", "T")] := by decide
      have hne := hne
      simp only [exOp] at hne
      simp only [hQ, walkItems, i1, i2, enter, hT, heq, List.isEmpty_cons, Bool.false_eq_true, if_false]
      simp [hq, hne, hT, List.lookup_cons]
      exact heq
    have ht : ∀ (dup : Nat → Bool) st, dup (selId H "Int" []) = false →
        tItems H exSchema dup "T" [exField .null] st = .ok ([exField .null], st) := by
      intro dup st h
      have hT : (exSchema.defs.lookup "T").bind (·.lookup "f") = some "Int" := by decide
      simp [tItems, exField, i3, hT, orFragment, h]
    have e1 : (exSchema.defs.lookup "Query").bind (·.lookup "a") = some "T" := by decide
    have e2 : (exSchema.defs.lookup "Query").bind (·.lookup "b") = some "T" := by decide
    have hn : fragName 0 = "a" := by decide
    unfold minify
    have hr : rootType exSchema (exOp .null (.str "null")).kind = some "Query" := rfl
    rw [hr]
    simp only [hw]
    generalize hq : selId H "Query" (exOp .null (.str "null")).items = q at *
    generalize htt : selId H "T" [exField .null] = t at *
    generalize hin : selId H "Int" [] = n at *
    have c1 : List.count q [t, t, q] = 1 := by simp [List.count_cons, Ne.symm hne]
    have c2 : List.count t [t, t, q] = 2 := by simp [List.count_cons, hne]
    have c3 : List.count n [t, t, q] ≤ 1 := by
      simp only [List.count_cons, List.count_nil, beq_iff_eq, Ne.symm hne', if_false]
      split <;> omega
    rw [if_neg (by simp [c2])]
    simp only [orFragment, hq, c1]
    have c3' : decide (1 < List.count n [t, t, q]) = false := by simpa using c3
    have ht' := fun st => ht (fun i => decide (1 < List.count i [t, t, q])) st c3'
    have c2' : decide (1 < List.count t [t, t, q]) = true := by rw [c2]; decide
    generalize hdup : (fun i => decide (1 < List.count i [t, t, q])) = dup at ht'
    have c2'' : dup t = true := by rw [← hdup]; exact c2'
    simp [exOp, tItems, i1, i2, e1, e2, orFragment, htt, heq, c2'', ht', hn, sortFrags, insertFrag]
  · have hx : Expands exSchema [⟨"a", "T", [exField .null]⟩] "T" [.spread "a"] ([exField .null] ++ []) :=
      .spread (fr := ⟨"a", "T", [exField .null]⟩) (by simp) rfl (by simp)
        (.field (u := "Int") (i3 _) rfl .nil .nil) .nil
    exact .field i1 (u := "T") rfl hx (.field i2 (u := "T") rfl hx .nil)
  · intro h
    have := same_anyField (p := stringArg) h
    simp [anyField, exOp, exField, stringArg] at this

/-! ## The hypotheses of the theorem hold for an operation with a repeated selection set -/

/-- Hash functions that tell apart types by the length of their names. -/
def exHashers : Hashers := ⟨fun _ => 0, fun t _ => t.length⟩

theorem exParts {u : String} {s : List Sel} (h : Part exSchema "Query" (exOp .null .null).items u s) :
    (u = "Query" ∧ s = (exOp .null .null).items) ∨ (u = "T" ∧ s = [exField .null]) ∨ (u = "Int" ∧ s = []) := by
  induction h with
  | refl => exact .inl ⟨rfl, rfl⟩
  | step _ c ih =>
    rcases ih with ⟨rfl, rfl⟩ | ⟨rfl, rfl⟩ | ⟨rfl, rfl⟩
    · cases c with
      | field hm _ _ ht =>
        simp only [exOp, List.mem_cons, List.not_mem_nil, or_false, Sel.field.injEq] at hm
        rcases hm with ⟨rfl, rfl⟩ | ⟨rfl, rfl⟩
        · have : fieldType exSchema "Query" { name := "a" } = some "T" := by decide
          rw [this] at ht; cases ht; exact .inr (.inl ⟨rfl, rfl⟩)
        · have : fieldType exSchema "Query" { name := "b" } = some "T" := by decide
          rw [this] at ht; cases ht; exact .inr (.inl ⟨rfl, rfl⟩)
      | frag hm => simp [exOp] at hm
      | entities hm _ hn _ =>
        simp only [exOp, List.mem_cons, List.not_mem_nil, or_false, Sel.field.injEq] at hm
        rcases hm with ⟨rfl, rfl⟩ | ⟨rfl, rfl⟩ <;> simp at hn
    · cases c with
      | field hm _ _ ht =>
        simp only [exField, List.mem_cons, List.not_mem_nil, or_false, Sel.field.injEq] at hm
        obtain ⟨rfl, rfl⟩ := hm
        have : fieldType exSchema "T" { name := "f", args := some [("x", Lit.null)] } = some "Int" := by
          show (if "f" = "_entities" then some "_Entity"
            else (exSchema.defs.lookup "T").bind (·.lookup "f")) = some "Int"
          decide
        rw [this] at ht; cases ht; exact .inr (.inr ⟨rfl, rfl⟩)
      | frag hm => simp [exField] at hm
      | entities hm _ hn _ =>
        simp only [exField, List.mem_cons, List.not_mem_nil, or_false, Sel.field.injEq] at hm
        obtain ⟨rfl, rfl⟩ := hm
        simp at hn
    · cases c with
      | field hm => exact absurd hm List.not_mem_nil
      | frag hm => exact absurd hm List.not_mem_nil
      | entities hm => exact absurd hm List.not_mem_nil

theorem exFaithful : Faithful exHashers exSchema "Query" (exOp .null .null).items := by
  intro u s v w h1 h2 h
  have h : u.length = v.length := h
  rcases exParts h1 with ⟨rfl, rfl⟩ | ⟨rfl, rfl⟩ | ⟨rfl, rfl⟩ <;>
    rcases exParts h2 with ⟨rfl, rfl⟩ | ⟨rfl, rfl⟩ | ⟨rfl, rfl⟩ <;>
    first
      | exact ⟨rfl, same_refl _⟩
      | exact absurd h (by decide)

example : ∃ doc, minify exHashers exSchema (exOp .null .null) = .ok doc ∧
    ∀ e, Expands exSchema doc.frags "Query" doc.items e → Same e (exOp .null .null).items := by
  obtain ⟨doc, h, _, _, _, _, h'⟩ := C50_same_selections (op := exOp .null .null) (root := "Query") rfl (by decide)
    (exValid _ _) exFaithful
  exact ⟨doc, h, h'⟩

-- The same hash functions meet the hypotheses of `C50_null_argument`.
example : selId exHashers "Query" (exOp .null (.str "null")).items ≠ selId exHashers "T" [exField .null] ∧
    selId exHashers "Int" [] ≠ selId exHashers "T" [exField .null] := ⟨by decide, by decide⟩

example : (fragName 0, fragName 51, fragName 52, fragName 2704) = ("a", "Z", "ab", "aab") := by decide +kernel

end Verif.Minify
