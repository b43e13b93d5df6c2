import Verif.Text.PrintVals
/-!
# Written documents read as what they are
-/
namespace Verif.Text

section
variable {F : Type} {S : Floats F}

theorem piece_spaced_cons {t : Txt} {u : Txt} {us : List Txt} {ts tss : List Tok} (h : Piece t ts)
    (h' : Piece (spaced (u :: us)) tss) : Piece (spaced (t :: u :: us)) (ts ++ tss) := by
  have := (h.close (free_skip (c := ' ') (by decide)) (by decide)).then h'
  rw [List.append_nil] at this
  exact this

theorem calmStart_setTxt (ts : List Txt) : CalmStart (setTxt ts) := by
  cases ts with
  | nil => exact calmStart_nil
  | cons t ts => exact calmStart_cons (by decide)

/-- A selection set that is not empty. -/
theorem set_reads {ps : List (PSel F)} {ts : List Tok} {ss : List (Sel F)}
    (h1 : Piece (spaced (selTxts S ps)) ts) (h2 : GSels S ts ss) (h3 : SelsSay S ps ss)
    (hne : ps ≠ []) :
    ∃ b, Free (setTxt (selTxts S ps)) b ∧ GSet S b ss := by
  cases ps with
  | nil => exact absurd rfl hne
  | cons p ps =>
    refine ⟨_, free_brackets (o := .lcur) (c := .rcur) rfl rfl (by decide) h1, .mk ts ss ?_ h2⟩
    intro e
    subst e
    cases h3

theorem alias_reads (al : Option Txt) (h : GoodName al) :
    ∃ ts, Free (aliasTxt al) ts ∧ GAlias ts al := by
  cases al with
  | none => exact ⟨[], free_nil, .none⟩
  | some a => exact ⟨_, (piece_name (h a rfl)).close free_colon (by decide), .some a⟩

theorem isName_on : IsName kwOn := ⟨'o', ['n'], rfl, by decide, by decide⟩

mutual
theorem sel_reads (hf : FloatsOk S) : ∀ p : PSel F, GoodSel S p →
    ∃ ts s, Piece (selTxt S p) ts ∧ GSel S ts s ∧ SelSays S p s
  | .field al n as sk inc ss, h => by
    rw [GoodSel] at h
    obtain ⟨hal, hn, has, hsk, hinc, hss⟩ := h
    obtain ⟨ta, a1, a2⟩ := alias_reads al hal
    obtain ⟨t, ws, b1, b2, b3, b4⟩ := args_read hf as has
    obtain ⟨d, c1, c2, c3⟩ := conds_read (S := S) sk inc hsk hinc
    obtain ⟨us, s, d1, d2, d3⟩ := sels_read hf ss hss
    have e : selTxt S (.field al n as sk inc ss) = aliasTxt al ++ (n ++ (argsTxt S as ++
        ((condTxt skipTxt sk ++ condTxt includeTxt inc) ++ setTxt (selTxts S ss)))) := by
      simp [selTxt]
    rw [e]
    by_cases hne : ss = []
    · subst hne
      cases d3
      have q := a1.then ((piece_name hn).append (b1.append c1 c3) (b4.append c3))
      refine ⟨_, _, ?_, .leaf al n ta t d ws _ a2 b2 c2,
        .field al n as ws sk inc [] [] b3 .nil⟩
      simpa [selTxts, setTxt] using q
    · obtain ⟨b, e1, e2⟩ := set_reads d1 d2 d3 hne
      have hc := calmStart_setTxt (selTxts S ss)
      have q := a1.then ((piece_name hn).append (b1.append (c1.append e1.piece hc) (c3.append hc))
        (b4.append (c3.append hc)))
      refine ⟨_, _, ?_, .field al n ta t d b ws _ s a2 b2 c2 e2,
        .field al n as ws sk inc ss s b3 d3⟩
      simpa using q
  | .inline c sk inc ss, h => by
    rw [GoodSel] at h
    obtain ⟨hc, hsk, hinc, hne, hss⟩ := h
    obtain ⟨d, c1, c2, c3⟩ := conds_read (S := S) sk inc hsk hinc
    obtain ⟨us, s, d1, d2, d3⟩ := sels_read hf ss hss
    obtain ⟨b, e1, e2⟩ := set_reads d1 d2 d3 hne
    have hcs := calmStart_setTxt (selTxts S ss)
    have q := (free_p .dots).append ((piece_name isName_on).close
      (free_skip (c := ' ') (by decide)) (by decide))
    have q2 := q.then ((piece_name hc).append (c1.append e1.piece hcs) (c3.append hcs))
    refine ⟨_, _, ?_, .inlineOn c d b _ s c2 e2, .inline c sk inc ss s d3⟩
    simpa [selTxt, P.txt, kwOn] using q2
  | .spread n, h => by
    rw [GoodSel] at h
    have q := (free_p .dots).then (piece_name h.1)
    refine ⟨[.p .dots, .name n], _, ?_, .spread n [] [] h.2 (.nil false), .spread n⟩
    simpa [selTxt, P.txt] using q
termination_by structural p => p
theorem sels_read (hf : FloatsOk S) : ∀ ps : List (PSel F), GoodSels S ps →
    ∃ ts ss, Piece (spaced (selTxts S ps)) ts ∧ GSels S ts ss ∧ SelsSay S ps ss
  | [], _ => ⟨[], [], free_nil.piece, .nil, .nil⟩
  | p :: ps, h => by
    rw [GoodSels] at h
    obtain ⟨ts, s, h1, h2, h3⟩ := sel_reads hf p h.1
    obtain ⟨tss, ss, g1, g2, g3⟩ := sels_read hf ps h.2
    refine ⟨_, _, ?_, .cons ts tss s ss h2 g2, .cons p s ps ss h3 g3⟩
    cases ps with
    | nil =>
      cases g3
      cases g2
      rw [List.append_nil]
      exact h1
    | cons u us => exact piece_spaced_cons h1 g1
termination_by structural ps => ps
end

theorem set_reads' (hf : FloatsOk S) {ps : List (PSel F)} (h : GoodSels S ps) (hne : ps ≠ []) :
    ∃ b ss, Free (setTxt (selTxts S ps)) b ∧ GSet S b ss ∧ SelsSay S ps ss := by
  obtain ⟨ts, ss, h1, h2, h3⟩ := sels_read hf ps h
  obtain ⟨b, g1, g2⟩ := set_reads h1 h2 h3 hne
  exact ⟨b, ss, g1, g2, h3⟩

/-- One variable. -/
theorem var_reads (hf : FloatsOk S) (v : PVar F) (h : GoodVar S v) :
    ∃ t d dv, Piece (varTxt S v) (.p .dollar :: .name v.name :: .p .colon :: t ++ d) ∧
      GType t v.ty ∧ GDefault S d dv ∧ DefaultSays S v.default dv := by
  obtain ⟨hn, ht, hd⟩ := h
  obtain ⟨t, t1, t2⟩ := type_reads v.ty ht
  have q := ((free_p .dollar).append ((piece_name hn).close (free_p .colon) (by decide))).then t1
  cases hdef : v.default with
  | none =>
    refine ⟨t, [], none, ?_, t2, .none, .none⟩
    simpa [varTxt, hdef, P.txt] using q
  | some p =>
    obtain ⟨d, w, d1, d2, d3⟩ := val_reads hf true p (hd p hdef)
    have q2 := q.append ((free_p .eq).then d1) (calmStart_cons (by decide))
    refine ⟨t, _, some w, ?_, t2, .some d w d2, .some p w d3⟩
    simpa [varTxt, hdef, P.txt] using q2

theorem vars_read (hf : FloatsOk S) (vs : List (PVar F)) (h : ∀ v ∈ vs, GoodVar S v) :
    ∃ ts ws, Piece (commas (vs.map (varTxt S))) ts ∧ GVars S ts ws ∧ VarsSay S vs ws := by
  induction vs with
  | nil => exact ⟨[], [], free_nil.piece, .nil, .nil⟩
  | cons v vs ih =>
    obtain ⟨t, d, dv, h1, h2, h3, h4⟩ := var_reads hf v (h v (by simp))
    obtain ⟨ts, ws, g1, g2, g3⟩ := ih fun w hw => h w (by simp [hw])
    have hg := GVars.cons v.name t d [] ts v.ty dv [] ws h2 h3 (.nil true) g2
    rw [List.append_nil] at hg
    refine ⟨_, _, ?_, hg, .cons v.name v.ty v.default dv vs ws h4 g3⟩
    cases vs with
    | nil =>
      cases g3
      cases g2
      rw [List.append_nil]
      exact h1
    | cons u us => exact piece_commas_cons h1 g1

theorem varsTxt_reads (hf : FloatsOk S) (o : Option (List (PVar F)))
    (h : ∀ v ∈ o.getD [], GoodVar S v) :
    ∃ ts ws, Free (varsTxt S o) ts ∧ GVarDefs S ts ws ∧ VarsSay S (o.getD []) ws ∧
      CalmStart (varsTxt S o) := by
  match o, h with
  | none, _ => exact ⟨[], [], free_nil, .none, .nil, calmStart_nil⟩
  | some [], _ => exact ⟨[], [], free_nil, .none, .nil, calmStart_nil⟩
  | some (v :: vs), h =>
    obtain ⟨ts, ws, h1, h2, h3⟩ := vars_read hf (v :: vs) h
    refine ⟨_, ws, free_brackets (o := .lpar) (c := .rpar) rfl rfl (by decide) h1,
      .some ts ws ?_ h2, h3, calmStart_cons (by decide)⟩
    intro e
    subst e
    cases h3

theorem isName_kind (k : Kind) : IsName (kindTxt k) := by
  cases k
  · exact ⟨'q', _, rfl, by decide, by decide⟩
  · exact ⟨'m', _, rfl, by decide, by decide⟩
  · exact ⟨'s', _, rfl, by decide, by decide⟩

theorem kindTxt_eq (k : Kind) : kindTxt k = kwKind k := by cases k <;> rfl

/-- The name of an operation: nothing, or two spaces around it. -/
theorem opName_reads (o : Option Txt) (h : GoodName (nameOf o)) :
    ∃ ts, Free (opNameTxt o) ts ∧ GOpName ts (nameOf o) ∧ CalmStart (opNameTxt o) := by
  have hs : Free [' '] [] := free_skip (c := ' ') (by decide)
  match o, h with
  | none, _ => exact ⟨[], free_nil, .none, calmStart_nil⟩
  | some [], _ => exact ⟨[], hs.append hs, .none, calmStart_cons (by decide)⟩
  | some (c :: cs), h =>
    have hn : IsName (c :: cs) := h _ rfl
    refine ⟨[.name (c :: cs)], ?_, .some _, calmStart_cons (by decide)⟩
    have := hs.append ((piece_name hn).close hs (by decide))
    simpa [opNameTxt] using this

theorem isShort_iff (o : POp F) : isShort o = true ↔
    o.kind.getD .query = .query ∧ nameOf o.name = none ∧ o.vars.getD [] = [] := by
  obtain ⟨k, n, v, s⟩ := o
  simp only [isShort, Bool.and_eq_true, Bool.or_eq_true, beq_iff_eq, List.isEmpty_iff]
  have h1 : (k = none ∨ k = some Kind.query) ↔ k.getD .query = .query := by
    cases k with
    | none => simp
    | some k => cases k <;> simp
  have h2 : (n = none ∨ n = some []) ↔ nameOf n = none := by
    cases n with
    | none => simp [nameOf]
    | some n => cases n <;> simp [nameOf]
  rw [h1, h2, and_assoc]

/-- Operations read as what they are. -/
theorem op_reads (hf : FloatsOk S) (o : POp F) (h : GoodOp S o) :
    ∃ ts d, Free (opTxt S o) ts ∧ GDef S ts d ∧ OpSays S o d := by
  obtain ⟨hn, hv, hne, hs, hk⟩ := h
  obtain ⟨b, ss, b1, b2, b3⟩ := set_reads' hf hs hne
  unfold opTxt
  split
  · next hsh =>
    obtain ⟨s1, s2, s3⟩ := (isShort_iff o).1 hsh
    exact ⟨b, _, b1, .short b ss b2, .short o ss s1 s2 s3 b3⟩
  · next hsh =>
    obtain ⟨tv, ws, v1, v2, v3, v4⟩ := varsTxt_reads hf o.vars hv
    obtain ⟨tn, n1, n2, n3⟩ := opName_reads o.name hn
    cases hkind : o.kind with
    | none =>
      exact absurd ((isShort_iff o).2 ⟨by rw [hkind]; rfl, (hk hkind).1, (hk hkind).2⟩) hsh
    | some k =>
      have q := (n1.append (v1.append b1))
      have hc : ∃ c u, opNameTxt o.name ++ (varsTxt S o.vars ++ setTxt (selTxts S o.sels)) = c :: u ∧
          CalmC c := by
        have hcs : CalmStart (opNameTxt o.name ++ (varsTxt S o.vars ++ setTxt (selTxts S o.sels))) :=
          n3.append (v4.append (calmStart_setTxt _))
        cases hx : opNameTxt o.name ++ (varsTxt S o.vars ++ setTxt (selTxts S o.sels)) with
        | nil =>
          exfalso
          cases hsel : o.sels with
          | nil => exact hne hsel
          | cons p ps => simp [hsel, selTxts, setTxt] at hx
        | cons c u =>
          refine ⟨c, u, rfl, ?_⟩
          rw [hx] at hcs
          exact hcs [] calm_nil c u (by simp)
      obtain ⟨c, u, hcu, hcalm⟩ := hc
      rw [hcu] at q
      have q2 := (piece_name (isName_kind k)).close q hcalm
      rw [← hcu] at q2
      have hop := OpSays.op o ws ss v3 b3
      rw [hkind] at hop
      have hg := GDef.op k (nameOf o.name) tn tv [] b ws [] ss n2 v2 (.nil false) b2
      refine ⟨_, _, ?_, hg, hop⟩
      rw [← kindTxt_eq]
      simpa using q2

theorem isName_fragment : IsName kwFragment :=
  ⟨'f', ['r', 'a', 'g', 'm', 'e', 'n', 't'], rfl, by decide, by decide⟩

theorem frag_reads (hf : FloatsOk S) (f : PFrag F) (h : GoodFrag S f) :
    ∃ ts s, Free (fragTxt S f) ts ∧ GDef S ts (.frag f.name f.cond [] s) ∧ SelsSay S f.sels s := by
  obtain ⟨hn, hon, hc, hne, hs⟩ := h
  obtain ⟨b, ss, b1, b2, b3⟩ := set_reads' hf hs hne
  have sp : Free [' '] [] := free_skip (c := ' ') (by decide)
  have q1 := (piece_name isName_fragment).close sp (by decide)
  have q2 := (piece_name hn).close sp (by decide)
  have q3 := (piece_name isName_on).close sp (by decide)
  have q4 := (piece_name hc).close sp (by decide)
  have q := q1.append (q2.append (q3.append (q4.append b1)))
  refine ⟨_, ss, ?_, .frag f.name f.cond [] b [] ss hon (.nil false) b2, b3⟩
  simpa [fragTxt, kwFragment, kwOn] using q

theorem frags_read (hf : FloatsOk S) (fs : List (PFrag F)) (h : ∀ f ∈ fs, GoodFrag S f) :
    ∃ ts ds, Free (fs.flatMap (fun f => fragTxt S f ++ ['\n'])) ts ∧ GDefs S ts ds ∧
      FragsSay S fs ds := by
  induction fs with
  | nil => exact ⟨[], [], free_nil, .nil, .nil⟩
  | cons f fs ih =>
    obtain ⟨t, s, h1, h2, h3⟩ := frag_reads hf f (h f (by simp))
    obtain ⟨ts, ds, g1, g2, g3⟩ := ih fun g hg => h g (by simp [hg])
    have sp : Free ['\n'] [] := free_skip (c := '\n') (by decide)
    refine ⟨_, _, ?_, .cons t ts _ ds h2 g2, .cons f s fs ds h3 g3⟩
    rw [List.flatMap_cons]
    have := (h1.append sp).append g1
    rw [List.append_nil] at this
    exact this

/-- The text of a document reads as the document. -/
theorem doc_reads (hf : FloatsOk S) (d : PDoc F) (h : Printable S d) :
    ∃ ts D, Free (docTxt S d) ts ∧ GDoc S ts D ∧ PlanSays S d D := by
  obtain ⟨t, o, o1, o2, o3⟩ := op_reads hf d.op h.1
  obtain ⟨ts, ds, f1, f2, f3⟩ := frags_read hf d.frags h.2
  have sp : Free ['\n', '\n'] [] :=
    (free_skip (c := '\n') (by decide)).append (free_skip (c := '\n') (by decide))
  refine ⟨t ++ ts, o :: ds, ?_, ⟨by simp, .cons t ts o ds o2 f2⟩, o, ds, rfl, o3, f3⟩
  unfold docTxt
  split
  · next he =>
    rw [List.isEmpty_iff] at he
    rw [he] at f3
    cases f3
    cases f2
    rw [List.append_nil]
    exact o1
  · have := (o1.append sp).append f1
    rw [List.append_nil] at this
    exact this

end
end Verif.Text
