import Verif.Text.Pieces
/-!
# Written values, types, variables and conditions read as what they are
-/
namespace Verif.Text

section
variable {F : Type} {S : Floats F}

theorem free_lpar : Free ['('] [.p .lpar] := free_p .lpar
theorem free_rpar : Free [')'] [.p .rpar] := free_p .rpar
theorem free_colon : Free [':', ' '] [.p .colon] :=
  (free_p .colon).append (free_skip (c := ' ') (by decide))
theorem free_comma : Free [',', ' '] [] :=
  (free_skip (c := ',') (by decide)).append (free_skip (c := ' ') (by decide))

/-- `key: value` -/
theorem piece_entry {k t : Txt} {ts : List Tok} (hk : IsName k) (h : Piece t ts) :
    Piece (k ++ [':', ' '] ++ t) (.name k :: .p .colon :: ts) :=
  ((piece_name hk).close free_colon (by decide)).then h

/-- Pieces with commas between them. -/
theorem piece_commas_cons {t : Txt} {u : Txt} {us : List Txt} {ts tss : List Tok} (h : Piece t ts)
    (h' : Piece (commas (u :: us)) tss) : Piece (commas (t :: u :: us)) (ts ++ tss) := by
  have := (h.close free_comma (by decide)).then h'
  rw [List.append_nil] at this
  exact this

theorem free_brackets {o c : P} {oc cc : Char} (ho : o.txt = [oc]) (hc : c.txt = [cc])
    (hcalm : CalmC cc) {t : Txt} {ts : List Tok} (h : Piece t ts) :
    Free (oc :: t ++ [cc]) (.p o :: ts ++ [.p c]) := by
  have h1 : Free [oc] [.p o] := by rw [← ho]; exact free_p o
  have h2 : Free [cc] [.p c] := by rw [← hc]; exact free_p c
  exact h1.append (h.close h2 hcalm)

theorem free_brackets_piece {o c : P} {oc cc : Char} (ho : o.txt = [oc]) (hc : c.txt = [cc])
    (hcalm : CalmC cc) {t : Txt} {ts : List Tok} (h : Piece t ts) :
    Piece (oc :: t ++ [cc]) (.p o :: ts ++ [.p c]) := (free_brackets ho hc hcalm h).piece

mutual
theorem val_reads (hf : FloatsOk S) (c : Bool) : ∀ v : PVal F, GoodVal S c v →
    ∃ ts w, Piece (valTxt S v) ts ∧ GVal S c ts w ∧ ValSays S v w
  | .var n, h => by
    rw [GoodVal] at h
    obtain ⟨rfl, h⟩ := h
    exact ⟨_, _, (free_p .dollar).then (piece_name h), .var n, .var n⟩
  | .int i, _ => by
    refine ⟨_, _, piece_int (isInt_intTxt i), .int c _, ?_⟩
    have e : valTxt S (PVal.int i) = intTxt i := rfl
    rw [e, intOf_intTxt]
    exact .int i
  | .float f, h => by
    rw [GoodVal] at h
    rcases hf.literal f h with hi | hi
    · exact ⟨_, _, piece_int hi, .int c _, .whole f _ hi (hf.back f h)⟩
    · refine ⟨_, _, piece_float hi, .float c _ hi, ?_⟩
      have e : valTxt S (PVal.float f) = S.disp f := rfl
      rw [e, hf.back f h]
      exact .float f
  | .str s, _ => ⟨_, _, piece_strLit s, .str c _ s (strChars_escape s), .str s⟩
  | .bool true, _ => ⟨_, _, piece_name ⟨'t', ['r', 'u', 'e'], rfl, by decide, by decide⟩, .tru c, .bool true⟩
  | .bool false, _ =>
    ⟨_, _, piece_name ⟨'f', ['a', 'l', 's', 'e'], rfl, by decide, by decide⟩, .fals c, .bool false⟩
  | .null, _ => ⟨_, _, piece_name ⟨'n', ['u', 'l', 'l'], rfl, by decide, by decide⟩, .null c, .null⟩
  | .enum e, h => by
    rw [GoodVal] at h
    exact ⟨_, _, piece_name h.1, .enum c e h.2.1 h.2.2.1 h.2.2.2, .enum e⟩
  | .list vs, h => by
    rw [GoodVal] at h
    obtain ⟨ts, ws, h1, h2, h3⟩ := vals_read hf c vs h
    exact ⟨_, _, free_brackets_piece (o := .lbr) (c := .rbr) rfl rfl (by decide) h1,
      .list c ts ws h2, .list vs ws h3⟩
  | .obj fs, h => by
    rw [GoodVal] at h
    obtain ⟨ts, ws, h1, h2, h3⟩ := entries_read hf c fs h
    exact ⟨_, _, free_brackets_piece (o := .lcur) (c := .rcur) rfl rfl (by decide) h1,
      .obj c ts ws h2, .obj fs ws h3⟩
termination_by structural v => v
theorem vals_read (hf : FloatsOk S) (c : Bool) : ∀ vs : List (PVal F), GoodVals S c vs →
    ∃ ts ws, Piece (commas (valTxts S vs)) ts ∧ GVals S c ts ws ∧ ValsSay S vs ws
  | [], _ => ⟨[], [], free_nil.piece, .nil c, .nil⟩
  | v :: vs, h => by
    rw [GoodVals] at h
    obtain ⟨ts, w, h1, h2, h3⟩ := val_reads hf c v h.1
    obtain ⟨tss, ws, g1, g2, g3⟩ := vals_read hf c vs h.2
    refine ⟨_, _, ?_, .cons c ts tss w ws h2 g2, .cons v w vs ws h3 g3⟩
    cases vs with
    | nil =>
      cases g3
      cases g2
      rw [List.append_nil]
      exact h1
    | cons u us => exact piece_commas_cons h1 g1
termination_by structural vs => vs
theorem entries_read (hf : FloatsOk S) (c : Bool) : ∀ es : List (Txt × PVal F), GoodEntries S c es →
    ∃ ts ws, Piece (commas (entryTxts S es)) ts ∧ GEntries S c ts ws ∧ EntriesSay S es ws
  | [], _ => ⟨[], [], free_nil.piece, .nil c, .nil⟩
  | e :: es, h => by
    rw [GoodEntries] at h
    obtain ⟨ts, w, h1, h2, h3⟩ := entry_reads hf c e h.1
    obtain ⟨tss, ws, g1, g2, g3⟩ := entries_read hf c es h.2
    refine ⟨_, _, ?_, .cons c e.1 ts tss w ws h2 g2, .cons e.1 e.2 w es ws h3 g3⟩
    cases es with
    | nil =>
      cases g3
      cases g2
      rw [List.append_nil]
      exact h1
    | cons u us => exact piece_commas_cons h1 g1
termination_by structural es => es
theorem entry_reads (hf : FloatsOk S) (c : Bool) : ∀ e : Txt × PVal F, GoodEntry S c e →
    ∃ ts w, Piece (entryTxt S e) (.name e.1 :: .p .colon :: ts) ∧ GVal S c ts w ∧ ValSays S e.2 w
  | (k, v), h => by
    rw [GoodEntry] at h
    obtain ⟨ts, w, h1, h2, h3⟩ := val_reads hf c v h.2
    exact ⟨ts, w, piece_entry h.1 h1, h2, h3⟩
termination_by structural e => e
end

/-- Whatever follows calmly, a text that is empty or begins calmly is calm with it. -/
def CalmStart (t : Txt) : Prop := ∀ rest, Calm rest → Calm (t ++ rest)

theorem calmStart_nil : CalmStart [] := fun _ h => h
theorem calmStart_cons {c : Char} {t : Txt} (h : CalmC c) : CalmStart (c :: t) :=
  fun _ _ => calm_cons h

theorem CalmStart.append {t u : Txt} (h : CalmStart t) (h' : CalmStart u) : CalmStart (t ++ u) := by
  intro rest hr
  rw [List.append_assoc]
  exact h _ (h' _ hr)

theorem args_read (hf : FloatsOk S) (es : List (Txt × PVal F)) (h : GoodEntries S false es) :
    ∃ ts ws, Piece (argsTxt S es) ts ∧ GArgs S false ts ws ∧ EntriesSay S es ws ∧
      CalmStart (argsTxt S es) := by
  cases es with
  | nil => exact ⟨[], [], free_nil.piece, .none false, .nil, calmStart_nil⟩
  | cons e es =>
    obtain ⟨ts, ws, h1, h2, h3⟩ := entries_read hf false (e :: es) h
    refine ⟨_, ws, free_brackets_piece (o := .lpar) (c := .rpar) rfl rfl (by decide) h1,
      .some false ts ws ?_ h2, h3, calmStart_cons (by decide)⟩
    intro e
    subst e
    cases h3

theorem type_reads (t : Ty) (h : GoodType t) : ∃ ts, Piece (tyTxt t) ts ∧ GType ts t := by
  induction t with
  | named n => exact ⟨_, piece_name h, .named n⟩
  | list t ih =>
    obtain ⟨ts, h1, h2⟩ := ih h
    exact ⟨_, free_brackets_piece (o := .lbr) (c := .rbr) rfl rfl (by decide) h1, .list ts t h2⟩
  | nonNull t ih =>
    obtain ⟨ts, h1, h2⟩ := ih h.2
    exact ⟨_, (h1.close (free_p .bang) (by decide)).piece, .nonNull ts t h2 h.1⟩

theorem isName_if : IsName ['i', 'f'] := ⟨'i', ['f'], rfl, by decide, by decide⟩

/-- A condition reads as its directive. -/
theorem cond_reads (d : Txt) (hd : IsName d) (o : Option Txt) (h : GoodName o) :
    ∃ ts, Piece (condTxt d o) ts ∧ GDirs S false ts (ifDir d o) ∧ CalmStart (condTxt d o) := by
  cases o with
  | none => exact ⟨[], free_nil.piece, .nil false, calmStart_nil⟩
  | some v =>
    have hv : IsName v := h v rfl
    have h0 : Free [' ', '@'] [.p .at] := (free_skip (c := ' ') (by decide)).append (free_p .at)
    have h1 : Free (d ++ ['(']) [.name d, .p .lpar] :=
      (piece_name hd).close free_lpar (by decide)
    have h2 : Free (['i', 'f'] ++ [':', ' ']) [.name ['i', 'f'], .p .colon] :=
      (piece_name isName_if).close free_colon (by decide)
    have h3 : Free ('$' :: v ++ [')']) [.p .dollar, .name v, .p .rpar] :=
      (free_p .dollar).append ((piece_name hv).close free_rpar (by decide))
    have hall := (h0.append (h1.append (h2.append h3))).piece
    refine ⟨[.p .at, .name d, .p .lpar, .name ['i', 'f'], .p .colon, .p .dollar, .name v, .p .rpar],
      ?_, ?_, ?_⟩
    · have e : condTxt d (some v) =
          [' ', '@'] ++ (d ++ ['('] ++ (['i', 'f'] ++ [':', ' '] ++ ('$' :: v ++ [')']))) := by
        simp [condTxt]
      rw [e]
      exact hall
    · have ha : GArgs S false [.p .lpar, .name ['i', 'f'], .p .colon, .p .dollar, .name v, .p .rpar]
          [(['i', 'f'], .var v)] :=
        .some false [.name ['i', 'f'], .p .colon, .p .dollar, .name v] _ (by simp)
          (.cons false ['i', 'f'] [.p .dollar, .name v] [] (.var v) [] (.var v) (.nil false))
      exact .cons false d _ [] _ [] ha (.nil false)
    · exact calmStart_cons (by decide)

theorem gdirs_append {c : Bool} {t u : List Tok} {ds es : List (Dir F)} (h : GDirs S c t ds)
    (h' : GDirs S c u es) : GDirs S c (t ++ u) (ds ++ es) := by
  induction h with
  | nil => exact h'
  | cons n t ts as ds ha hd ih =>
    have := GDirs.cons c n t (ts ++ u) as (ds ++ es) ha ih
    simpa using this

theorem isName_skip : IsName skipTxt := ⟨'s', ['k', 'i', 'p'], rfl, by decide, by decide⟩
theorem isName_include : IsName includeTxt :=
  ⟨'i', ['n', 'c', 'l', 'u', 'd', 'e'], rfl, by decide, by decide⟩

/-- Both conditions. -/
theorem conds_read (sk inc : Option Txt) (h : GoodName sk) (h' : GoodName inc) :
    ∃ ts, Piece (condTxt skipTxt sk ++ condTxt includeTxt inc) ts ∧
      GDirs S false ts (ifDirs sk inc) ∧ CalmStart (condTxt skipTxt sk ++ condTxt includeTxt inc) := by
  obtain ⟨ts, h1, h2, h3⟩ := cond_reads (S := S) skipTxt isName_skip sk h
  obtain ⟨us, g1, g2, g3⟩ := cond_reads (S := S) includeTxt isName_include inc h'
  exact ⟨_, h1.append g1 g3, gdirs_append h2 g2, h3.append g3⟩

end
end Verif.Text
