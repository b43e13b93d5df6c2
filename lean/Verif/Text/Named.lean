import Verif.Text.PrintDocs
/-!
# The text of an operation with a name written into it
-/
namespace Verif.Text

section
variable {F : Type} {S : Floats F}

/-- The operation with a name. -/
def POp.named (o : POp F) (n : Txt) : POp F :=
  { o with kind := some (o.kind.getD .query), name := some n }

/-- Variables and selections begin with a parenthesis or a brace. -/
theorem body_head (o : POp F) (hne : o.sels ≠ []) :
    ∃ c u, varsTxt S o.vars ++ setTxt (selTxts S o.sels) = c :: u ∧ (c = '(' ∨ c = '{') := by
  cases hsel : o.sels with
  | nil => exact absurd hsel hne
  | cons p ps =>
    match hv : o.vars with
    | none => exact ⟨_, _, rfl, .inr rfl⟩
    | some [] => exact ⟨_, _, rfl, .inr rfl⟩
    | some (v :: vs) => exact ⟨_, _, rfl, .inl rfl⟩

theorem op_named_reads (hf : FloatsOk S) (o : POp F) (n : Txt) (hn : IsName n)
    (hv : ∀ v ∈ o.vars.getD [], GoodVar S v) (hne : o.sels ≠ []) (hs : GoodSels S o.sels) (k : Kind)
    (hk : o.kind = some k) :
    ∃ ts d, Free (kindTxt k ++ ' ' :: n ++ (varsTxt S o.vars ++ setTxt (selTxts S o.sels))) ts ∧
      GDef S ts d ∧ OpSays S (o.named n) d := by
  obtain ⟨b, ss, b1, b2, b3⟩ := set_reads' hf hs hne
  obtain ⟨tv, ws, v1, v2, v3, v4⟩ := varsTxt_reads hf o.vars hv
  obtain ⟨c, u, hcu, hc⟩ := body_head (S := S) o hne
  have hcalm : CalmC c := by rcases hc with rfl | rfl <;> decide
  have q := v1.append b1
  rw [hcu] at q
  have q1 := (piece_name hn).close q hcalm
  rw [← hcu] at q1
  have q2 := (piece_name (isName_kind k)).close (free_skip (c := ' ') (by decide)) (by decide)
  have q3 := q2.append q1
  have hop := OpSays.op (S := S) (o.named n) ws ss v3 b3
  obtain ⟨x, xs, rfl, hx⟩ := hn
  have hg := GDef.op k (some (x :: xs)) [.name (x :: xs)] tv [] b ws [] ss (.some _) v2 (.nil false) b2
  have e : (POp.named o (x :: xs)).kind.getD .query = k := by
    show (o.kind.getD .query) = k
    rw [hk]; rfl
  rw [e] at hop
  refine ⟨_, _, ?_, hg, hop⟩
  rw [← kindTxt_eq]
  simpa using q3

theorem stripPrefix_append (k t : Txt) : stripPrefix k (k ++ t) = some t := by
  induction k with
  | nil => rfl
  | cons c k ih => rw [List.cons_append, stripPrefix, if_pos rfl, ih]

theorem posAfter_kind (k : Kind) {c : Char} {u : Txt} (hc : c = '(' ∨ c = '{') :
    posAfter (kindTxt k) (kindTxt k ++ c :: u) = some (kindTxt k).length := by
  unfold posAfter
  rw [stripPrefix_append]
  rcases hc with rfl | rfl <;> rfl

theorem namePos_kind (k : Kind) {c : Char} {u : Txt} (hc : c = '(' ∨ c = '{') :
    namePos (kindTxt k ++ c :: u) = (kindTxt k).length := by
  unfold namePos
  cases k with
  | query => rw [posAfter_kind .query hc]; rfl
  | mutation =>
    have : posAfter (kindTxt .query) (kindTxt .mutation ++ c :: u) = none := rfl
    rw [posAfter_kind .mutation hc, this]; rfl
  | subscription =>
    have h1 : posAfter (kindTxt .query) (kindTxt .subscription ++ c :: u) = none := rfl
    have h2 : posAfter (kindTxt .mutation) (kindTxt .subscription ++ c :: u) = none := rfl
    rw [posAfter_kind .subscription hc, h1, h2]; rfl

theorem namePos_brace (u : Txt) : namePos ('{' :: u) = 0 := rfl

/-- The text of the fragments after an operation. -/
def tailTxt (S : Floats F) (d : PDoc F) : Txt :=
  if d.frags.isEmpty then [] else ['\n', '\n'] ++ d.frags.flatMap (fun f => fragTxt S f ++ ['\n'])

theorem docTxt_tail (d : PDoc F) : docTxt S d = opTxt S d.op ++ tailTxt S d := by
  unfold docTxt tailTxt
  split
  · rw [List.append_nil]
  · rw [List.append_assoc]

theorem tail_reads (hf : FloatsOk S) (d : PDoc F) (h : ∀ f ∈ d.frags, GoodFrag S f) :
    ∃ ts ds, Free (tailTxt S d) ts ∧ GDefs S ts ds ∧ FragsSay S d.frags ds := by
  obtain ⟨ts, ds, f1, f2, f3⟩ := frags_read hf d.frags h
  have sp : Free ['\n', '\n'] [] :=
    (free_skip (c := '\n') (by decide)).append (free_skip (c := '\n') (by decide))
  unfold tailTxt
  split
  · next he =>
    rw [List.isEmpty_iff] at he
    rw [he] at f3
    cases f3
    cases f2
    exact ⟨[], [], free_nil, .nil, by rw [he]; exact .nil⟩
  · exact ⟨ts, ds, by have := sp.append f1; rwa [List.nil_append] at this, f2, f3⟩

theorem withName_kind (k : Kind) (n : Txt) {c : Char} {u : Txt} (hc : c = '(' ∨ c = '{') :
    withName n (namePos (kindTxt k ++ c :: u)) (kindTxt k ++ c :: u)
      = kindTxt k ++ ' ' :: n ++ c :: u := by
  rw [namePos_kind k hc]
  have hl : 0 < (kindTxt k).length := by cases k <;> decide
  unfold withName
  rw [if_neg (by omega), if_pos hl, List.take_left, List.drop_left]
  simp

/-- The text with a name reads as the document with the name. -/
theorem doc_named_reads (hf : FloatsOk S) (d : PDoc F) (h : Printable S d) (ha : d.op.name = none)
    (n : Txt) (hn : IsName n) :
    ∃ ts D, Free (withName n (namePos (docTxt S d)) (docTxt S d)) ts ∧ GDoc S ts D ∧
      PlanSays S { d with op := d.op.named n } D := by
  obtain ⟨⟨_, hv, hne, hs, hk⟩, hfr⟩ := h
  obtain ⟨ts, ds, f1, f2, f3⟩ := tail_reads hf d hfr
  obtain ⟨c, u, hcu, hc⟩ := body_head (S := S) d.op hne
  -- it is enough that the text is that of the named operation
  have key : ∀ k, (d.op.kind.getD .query) = k →
      withName n (namePos (docTxt S d)) (docTxt S d)
        = kindTxt k ++ ' ' :: n ++ (varsTxt S d.op.vars ++ setTxt (selTxts S d.op.sels))
          ++ tailTxt S d ∨
      withName n (namePos (docTxt S d)) (docTxt S d)
        = kindTxt k ++ ' ' :: n ++ ' ' :: (varsTxt S d.op.vars ++ setTxt (selTxts S d.op.sels))
          ++ tailTxt S d := by
    intro k hk'
    rw [docTxt_tail]
    unfold opTxt
    split
    · next hsh =>
      right
      obtain ⟨s1, s2, s3⟩ := (isShort_iff d.op).1 hsh
      have hv0 : varsTxt S d.op.vars = [] := by
        match hvars : d.op.vars with
        | none => rfl
        | some [] => rfl
        | some (v :: vs) => rw [hvars] at s3; cases s3
      rw [hv0, List.nil_append] at hcu ⊢
      rw [s1] at hk'
      subst hk'
      have : c = '{' := by
        cases hsel : d.op.sels with
        | nil => exact absurd hsel hne
        | cons p ps =>
          rw [hsel] at hcu
          cases hcu
          rfl
      subst this
      rw [hcu, List.cons_append, namePos_brace]
      show ['q', 'u', 'e', 'r', 'y', ' '] ++ n ++ [' '] ++ '{' :: (u ++ tailTxt S d) = _
      simp [kindTxt]
    · next hsh =>
      left
      cases hkind : d.op.kind with
      | none =>
        exact absurd ((isShort_iff d.op).2 ⟨by rw [hkind]; rfl, (hk hkind).1, (hk hkind).2⟩) hsh
      | some k' =>
        rw [hkind] at hk'
        have hk'' : k' = k := hk'
        subst hk''
        rw [ha]
        have e : ((some k').map kindTxt).getD [] ++ opNameTxt none ++ varsTxt S d.op.vars
            ++ setTxt (selTxts S d.op.sels) ++ tailTxt S d
            = kindTxt k' ++ (varsTxt S d.op.vars ++ setTxt (selTxts S d.op.sels)) ++ tailTxt S d := by
          simp [opNameTxt]
        rw [e, hcu, List.append_assoc, List.cons_append, withName_kind k' n hc]
        simp
  obtain ⟨t, o, o1, o2, o3⟩ := op_named_reads hf { d.op with kind := some (d.op.kind.getD .query) }
    n hn hv hne hs _ rfl
  have o3' : OpSays S (d.op.named n) o := o3
  have sp : Free [' '] [] := free_skip (c := ' ') (by decide)
  rcases key _ rfl with e | e
  · refine ⟨t ++ ts, o :: ds, ?_, ⟨by simp, .cons t ts o ds o2 f2⟩, o, ds, rfl, o3', f3⟩
    rw [e]
    exact o1.append f1
  · obtain ⟨t', o', p1, p2, p3⟩ := op_reads hf (d.op.named n) ⟨by
      intro m hm
      obtain ⟨x, xs, rfl, hx⟩ := hn
      cases hm
      exact ⟨x, xs, rfl, hx⟩, hv, hne, hs, by intro h; cases h⟩
    refine ⟨t' ++ ts, o' :: ds, ?_, ⟨by simp, .cons t' ts o' ds p2 f2⟩, o', ds, rfl, p3, f3⟩
    rw [e]
    have e2 : opTxt S (d.op.named n) = kindTxt (d.op.kind.getD .query) ++ ' ' :: n ++
        ' ' :: (varsTxt S d.op.vars ++ setTxt (selTxts S d.op.sels)) := by
      unfold opTxt
      rw [if_neg]
      · simp [POp.named, opNameTxt]
      · intro hsh
        have := ((isShort_iff _).1 hsh).2.1
        obtain ⟨x, xs, rfl, hx⟩ := hn
        cases this
    rw [← e2]
    exact p1.append f1

theorem fetchName_isName {client : Txt} (h : IsName client) (id : Nat) : IsName (fetchName client id) := by
  obtain ⟨c, cs, rfl, hc, hcs⟩ := h
  refine ⟨c, cs ++ ['_', '_'] ++ Nat.toDigits 10 id, rfl, hc, ?_⟩
  intro d hd
  simp only [List.mem_append] at hd
  rcases hd with (hd | hd) | hd
  · exact hcs d hd
  · simp only [List.mem_cons, List.not_mem_nil, or_false, or_self] at hd
    subst hd
    decide
  · exact .inr (toDigits_digit hd)

end
end Verif.Text
