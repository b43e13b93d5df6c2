import Verif.Text.Limit
import Verif.Text.Named
/-!
# What is sent to subgraphs, and what is read from clients
-/
namespace Verif.Text

variable {F : Type} {S : Floats F}

/-! ## C88: the text sent to a subgraph -/

/-- C88. The text of a planned document reads, by the grammar of the language, as the document that
says the same, and as no other. What is missing: numbers that are not finite, see
`C88_infinite_refuted`. -/
theorem C88_sent_text_partial (hf : FloatsOk S) (d : PDoc F) (h : Printable S d) :
    ∃ D, PlanSays S d D ∧ Reads S (docTxt S d) D ∧ ∀ D', Reads S (docTxt S d) D' → D' = D := by
  obtain ⟨ts, D, h1, h2, h3⟩ := doc_reads hf d h
  have hl := h1 [] [] .done
  rw [List.append_nil, List.append_nil] at hl
  have hr : Reads S (docTxt S d) D := ⟨ts, hl, h2⟩
  exact ⟨D, h3, hr, fun D' h' => reads_unique h' hr⟩

/-- C88. With the name for a fetch written into it, it reads as the same document with that name. -/
theorem C88_sent_named_partial (hf : FloatsOk S) (d : PDoc F) (h : Printable S d)
    (ha : d.op.name = none) (client : Txt) (hc : IsName client) (id : Nat) :
    ∃ D, PlanSays S { d with op := { d.op with
          kind := some (d.op.kind.getD .query), name := some (client ++ ['_', '_'] ++ Nat.toDigits 10 id) } } D ∧
      Reads S (withName (fetchName client id) (namePos (docTxt S d)) (docTxt S d)) D ∧
      ∀ D', Reads S (withName (fetchName client id) (namePos (docTxt S d)) (docTxt S d)) D' →
        D' = D := by
  obtain ⟨ts, D, h1, h2, h3⟩ := doc_named_reads hf d h ha _ (fetchName_isName hc id)
  have hl := h1 [] [] .done
  rw [List.append_nil, List.append_nil] at hl
  have hr : Reads S (withName (fetchName client id) (namePos (docTxt S d)) (docTxt S d)) D :=
    ⟨ts, hl, h2⟩
  exact ⟨D, h3, hr, fun D' h' => reads_unique h' hr⟩

/-! ## C89: what is read -/

theorem agrees_of {limit : Option Nat} {t : Txt} (ho : Ordinary t) :
    AllAgree S (codeLits S) (lex limit t) := by
  intro x hx
  rcases lex_shape limit t x hx with rfl | ⟨text, hi, hs⟩
  · trivial
  · cases x with
    | int raw =>
      intro i e
      have e : readInt raw = some i := e
      rw [readInt_eq] at e
      split at e
      · cases e; rfl
      · cases e
    | float raw =>
      intro f e
      have e : readFloat S raw = some f := e
      unfold readFloat at e
      split at e
      · cases e
      · next hn => cases e; exact ⟨rfl, hs.resolve_right hn⟩
    | str raw =>
      intro s e
      obtain ⟨rfl, hb⟩ := hs
      have hin : raw <:+: t := List.IsInfix.trans ⟨['"'], ['"'], by simp⟩ hi
      refine unquote_sound _ (Nat.le_refl _) hb ⟨ho.noReturn raw hi ?_, fun h => ho.noBackspace (h.trans hin),
        fun h => ho.noPlus (h.trans hin)⟩ e
      have key : ∀ (raw : Txt) (esc : Bool), bodyOk esc raw → '\n' ∉ raw := by
        intro raw
        induction raw with
        | nil => intro _ _ h; cases h
        | cons c r ih =>
          intro esc h hm
          rcases List.mem_cons.1 hm with e | hm
          · exact h.2.1 e.symm
          · exact ih _ h.2.2 hm
      exact key raw false hb
    | block raw =>
      obtain ⟨rfl, _⟩ := hs
      exact absurd (List.IsInfix.trans ⟨[], raw ++ ['"', '"', '"'], by simp⟩ hi) ho.noBlock
    | _ => trivial

theorem float_no_sign {raw : Txt} (h : IsFloat raw) :
    ¬ (raw.getLast? = some '+' ∨ raw.getLast? = some '-') := by
  obtain ⟨i, f, e, rfl, hi, hfe⟩ := h
  have hlast : ∀ (a ds : Txt), Digits ds → ¬ ((a ++ ds).getLast? = some '+' ∨
      (a ++ ds).getLast? = some '-') := by
    intro a ds hd
    obtain ⟨x, hx⟩ : ∃ x, ds.getLast? = some x := by
      cases hx : ds.getLast? with
      | none => exact absurd (List.getLast?_eq_none_iff.1 hx) hd.1
      | some x => exact ⟨x, rfl⟩
    have hm := hd.2 x (List.mem_of_getLast? hx)
    rw [List.getLast?_append, hx]
    rintro (e | e) <;> (cases e; revert hm; decide)
  rcases hfe with ⟨⟨ds, rfl, hd⟩, rfl⟩ | ⟨rfl, x, ds, _, hd, rfl | rfl | rfl⟩ |
    ⟨⟨ds', rfl, _⟩, x, ds, _, hd, rfl | rfl | rfl⟩
  · have := hlast (i ++ ['.']) ds hd
    simpa using this
  · have := hlast (i ++ [x]) ds hd
    simpa using this
  · have := hlast (i ++ [x, '+']) ds hd
    simpa using this
  · have := hlast (i ++ [x, '-']) ds hd
    simpa using this
  · have := hlast (i ++ '.' :: ds' ++ [x]) ds hd
    simpa using this
  · have := hlast (i ++ '.' :: ds' ++ [x, '+']) ds hd
    simpa using this
  · have := hlast (i ++ '.' :: ds' ++ [x, '-']) ds hd
    simpa using this

/-- The tokens of an accepted document. -/
theorem accepted_lexes {limit : Option Nat} {t : Txt} {d : Doc F}
    (h : parse S limit t = .document d) (ho : Ordinary t)
    (hn : ∀ n c ds ss, Def.frag n c ds ss ∈ d → n ≠ ['o', 'n']) :
    Lexes t (lex limit t) ∧ GDoc S (lex limit t) d := by
  have hg : GDoc S (lex limit t) d := by
    refine parse_sound (agrees_of ho) h ?_
    intro x hx
    cases x with
    | frag n c ds ss => exact hn n c ds ss hx
    | _ => trivial
  refine ⟨lex_sound ?_, hg⟩
  intro x hx
  have hk := gdoc_known hg x hx
  cases x with
  | bad => exact hk.elim
  | float raw =>
    have := float_no_sign hk
    exact ⟨by simp, fun e => this (.inl e), fun e => this (.inr e)⟩
  | str raw => exact ⟨by simp, hk⟩
  | _ => exact ⟨by simp, trivial⟩

/-- C89. What is accepted is the document that the text reads as by the grammar of the language.
What is missing: texts that are not `Ordinary`, and fragments with the name `on`. -/
theorem C89_accepted_reads_partial {limit : Option Nat} {t : Txt} {d : Doc F}
    (h : parse S limit t = .document d) (ho : Ordinary t)
    (hn : ∀ n c ds ss, Def.frag n c ds ss ∈ d → n ≠ ['o', 'n']) : Reads S t d :=
  ⟨lex limit t, accepted_lexes h ho hn⟩

/-- C89. A text of the language is accepted as the document it reads as, if its tokens are tame, its
numbers apart from what follows, at most 50 brackets open at any place, and no variable has
directives. -/
theorem C89_read_accepted_partial {t : Txt} {ts : List Tok} {d : Doc F} (h : LexesBy Apart t ts)
    (hg : GDoc S ts d) (ht : ∀ x ∈ ts, TameTok x) (hn : Nested 50 ts)
    (hv : ∀ k nm vs ds ss, Def.op k nm vs ds ss ∈ d → ∀ v ∈ vs, v.dirs = []) :
    parse S none t = .document d := by
  unfold parse
  rw [lex_complete h (fun raw hr => ht _ hr) hn]
  refine parse_complete hg ?_ ?_
  · intro x hx
    have htx := ht x hx
    have hk := gdoc_known hg x hx
    cases x with
    | int raw =>
      show readInt raw = some (intOf raw)
      rw [readInt_eq]
      exact if_pos htx
    | float raw =>
      show readFloat S raw = some (S.read raw)
      unfold readFloat
      rw [if_neg (float_no_sign hk)]
    | str raw =>
      intro s
      obtain ⟨s', h1, h2⟩ := unquote_complete htx
      constructor
      · intro e
        have e : unquote raw = some s := e
        rw [h1] at e
        cases e
        exact h2
      · intro hs
        show unquote raw = some s
        rw [h1, strChars_unique h2 hs]
    | block raw => exact htx.elim
    | _ => trivial
  · intro x hx
    cases x with
    | op k nm vs ds ss => exact .inr (hv k nm vs ds ss hx)
    | _ => trivial

/-! ## Documents with one argument, for examples -/

/-- `{a(b:v)}` -/
def argText (v : Txt) : Txt := ['{', 'a', '(', 'b', ':'] ++ v ++ [')', '}']

def argDoc (v : Val F) : Doc F := [.short [.field none ['a'] [(['b'], v)] [] []]]

theorem isName_one {c : Char} (h : NameStart c) : IsName [c] := ⟨c, [], rfl, h, by simp⟩

theorem lx_p {p : P} {rest : Txt} {ts : List Tok} (h : Lexes rest ts) :
    Lexes (p.txt ++ rest) (.p p :: ts) :=
  .tok _ _ _ _ (.punct p) (by cases rest <;> trivial) h

theorem lx_name {n rest : Txt} {ts : List Tok} (hn : IsName n)
    (hm : ∀ c r, rest = c :: r → ¬ NameContinue c) (h : Lexes rest ts) :
    Lexes (n ++ rest) (.name n :: ts) := by
  refine .tok _ _ _ _ (.name n hn) ?_ h
  cases rest with
  | nil => trivial
  | cons c r => exact hm c r rfl

theorem notCont_p {c : Char} (h : c ∈ ['(', ':', '}', ')', '{', '$', '@', '[', ']', ' ']) :
    ¬ NameContinue c := by
  simp only [List.mem_cons, List.not_mem_nil, or_false] at h
  unfold NameContinue NameStart Digit
  rcases h with rfl | rfl | rfl | rfl | rfl | rfl | rfl | rfl | rfl | rfl <;> decide

theorem end_lexes : Lexes [')', '}'] [.p .rpar, .p .rcur] := lx_p (p := .rpar) (lx_p (p := .rcur) .done)

theorem reads_arg {text : Txt} {tv : List Tok} {v : Val F} (hv : GVal S false tv v)
    (hl : Lexes (text ++ [')', '}']) (tv ++ [.p .rpar, .p .rcur])) : Reads S (argText text) (argDoc v) := by
  refine ⟨.p .lcur :: (([] ++ .name ['a'] :: (.p .lpar ::
      (.name ['b'] :: .p .colon :: tv ++ []) ++ [.p .rpar]) ++ []) ++ []) ++ [.p .rcur], ?_, ?_⟩
  · have h1 : Lexes (argText text) (.p .lcur :: .name ['a'] :: .p .lpar :: .name ['b'] :: .p .colon ::
        (tv ++ [.p .rpar, .p .rcur])) := by
      unfold argText
      rw [List.append_assoc]
      refine lx_p (p := .lcur) (lx_name (n := ['a']) (isName_one (by unfold NameStart; decide)) ?_
        (lx_p (p := .lpar) (lx_name (n := ['b']) (isName_one (by unfold NameStart; decide)) ?_
          (lx_p (p := .colon) hl))))
      · intro c r e; cases e; exact notCont_p (by decide)
      · intro c r e; cases e; exact notCont_p (by decide)
    simpa using h1
  · refine ⟨by simp [argDoc], ?_⟩
    have hs : GSel S ([] ++ .name ['a'] :: (.p .lpar :: (.name ['b'] :: .p .colon :: tv ++ []) ++
        [.p .rpar]) ++ []) (.field none ['a'] [(['b'], v)] [] []) :=
      .leaf none ['a'] [] _ [] _ [] .none (.some _ _ _ (by simp) (.cons _ _ _ _ _ _ hv (.nil _))) (.nil _)
    have hd : GDef S _ (.short [.field none ['a'] [(['b'], v)] [] []]) :=
      .short _ _ (.mk _ _ (by simp) (.cons _ _ _ _ hs .nil))
    have := GDefs.cons _ [] _ [] hd .nil
    rw [List.append_nil] at this
    exact this

/-! ## Where C89 fails -/

/-- C89 is false of the code: `"\b"` is the backspace U+0008, and is read as U+0010. -/
theorem C89_backspace_refuted (S : Floats F) :
    Reads S (argText ['"', '\\', 'b', '"']) (argDoc (.str ['\u0008'])) ∧
      parse S none (argText ['"', '\\', 'b', '"']) = .document (argDoc (.str ['\u0010'])) := by
  have hs : StrChars ['\\', 'b'] ['\u0008'] := .esc 'b' _ [] [] rfl .nil
  exact ⟨reads_arg (.str false _ _ hs) (.tok _ _ _ _ (.str _ _ hs) (by trivial) end_lexes), rfl⟩

/-- C89 is false of the code: `1e9` is a float, and is rejected. -/
theorem C89_exponent_refuted (S : Floats F) :
    Reads S (argText ['1', 'e', '9']) (argDoc (.float (S.read ['1', 'e', '9']))) ∧
      parse S none (argText ['1', 'e', '9']) = .error := by
  have hf : IsFloat ['1', 'e', '9'] :=
    ⟨['1'], [], ['e', '9'], rfl, .inl (.inr ⟨'1', [], rfl, by decide, by simp; unfold Digit; decide⟩),
      .inr (.inl ⟨rfl, 'e', ['9'], .inl rfl, ⟨by simp, by simp; unfold Digit; decide⟩, .inl rfl⟩)⟩
  refine ⟨reads_arg (.float false _ hf) (.tok _ _ _ _ (.float _ hf) ?_ end_lexes), rfl⟩
  exact ⟨by unfold Digit; decide, by decide, by unfold NameStart; decide⟩

/-- C89 is false of the code: a character outside of the basic plane, written as a pair of escapes,
is rejected. -/
theorem C89_surrogates_refuted (S : Floats F) :
    Reads S (argText ("\"\\uD83D\\uDE00\"".toList)) (argDoc (.str ['😀'])) ∧
      parse S none (argText ("\"\\uD83D\\uDE00\"".toList)) = .error := by
  have hs : StrChars "\\uD83D\\uDE00".toList ['😀'] :=
    .pair ['D', '8', '3', 'D'] ['D', 'E', '0', '0'] 0xD83D 0xDE00 [] [] rfl rfl rfl rfl (by decide)
      (by decide) (by decide) (by decide) .nil
  exact ⟨reads_arg (.str false _ _ hs) (.tok _ _ _ _ (.str _ _ hs) (by trivial) end_lexes), rfl⟩

/-- C89 is false of the code: `[1"c"]` is a list of two values, and is rejected. -/
theorem C89_adjacent_refuted (S : Floats F) :
    Reads S (argText ("[1\"c\"]".toList)) (argDoc (.list [.int 1, .str ['c']])) ∧
      parse S none (argText ("[1\"c\"]".toList)) = .error := by
  have hs : StrChars ['c'] ['c'] := .plain 'c' [] [] (by decide) (by decide) (by decide) (by decide) .nil
  have hi : IsInt ['1'] := .inl (.inr ⟨'1', [], rfl, by decide, by simp; unfold Digit; decide⟩)
  refine ⟨reads_arg (tv := .p .lbr :: ([.int ['1']] ++ ([.str ['c']] ++ [])) ++ [.p .rbr])
    (.list _ _ _ (.cons _ _ _ _ _ (.int false ['1']) (.cons _ _ _ _ _ (.str _ _ _ hs) (.nil _)))) ?_, rfl⟩
  refine lx_p (p := .lbr) (.tok (.int ['1']) ['1'] _ _ (.int _ hi) ?_
    (.tok (.str ['c']) ['"', 'c', '"'] _ _ (.str _ _ hs) (by trivial) (lx_p (p := .rbr) end_lexes)))
  exact ⟨by unfold Digit; decide, by decide, by unfold NameStart; decide⟩

/-- C89 is false of the code: in a block string, a blank line that is shorter than the indent keeps
its spaces. -/
theorem C89_block_refuted (S : Floats F) :
    Reads S (argText ("\"\"\"\n    x\n  \n    y\n\"\"\"".toList)) (argDoc (.str "x\n\ny".toList)) ∧
      parse S none (argText ("\"\"\"\n    x\n  \n    y\n\"\"\"".toList)) =
        .document (argDoc (.str "x\n  \ny".toList)) := by
  have hb : BlockChars "\n    x\n  \n    y\n".toList :=
    (takeBlock_inv (t := "\n    x\n  \n    y\n\"\"\"".toList) (rest := []) (esc := false) _
      (Nat.le_refl _) rfl).2.1 rfl
  refine ⟨?_, rfl⟩
  have := reads_arg (S := S) (.block false "\n    x\n  \n    y\n".toList)
    (.tok _ _ _ _ (.block _ hb) (by trivial) end_lexes)
  exact this

/-- C89 is false of the code: directives on variables are rejected. -/
theorem C89_variable_directive_refuted (S : Floats F) :
    Reads S ("query($a:I@d){a}".toList) [.op .query none [⟨['a'], .named ['I'], none, [⟨['d'], []⟩]⟩] []
        [.field none ['a'] [] [] []]] ∧
      parse S none ("query($a:I@d){a}".toList) = .error := by
  refine ⟨⟨[.name (kwKind .query), .p .lpar, .p .dollar, .name ['a'], .p .colon, .name ['I'], .p .at,
    .name ['d'], .p .rpar, .p .lcur, .name ['a'], .p .rcur], ?_, ?_⟩, rfl⟩
  · have hc : ∀ c r (rest : Txt), rest = c :: r →
        c ∈ ['(', ':', '}', ')', '{', '$', '@', '[', ']', ' '] → ∀ c' r', rest = c' :: r' →
        ¬ NameContinue c' := by
      intro c r rest e hm c' r' e'
      rw [e] at e'
      cases e'
      exact notCont_p hm
    have hq : IsName (kwKind .query) :=
      ⟨'q', _, rfl, by unfold NameStart; decide, by
        intro d hd
        simp only [List.mem_cons, List.not_mem_nil, or_false] at hd
        rcases hd with rfl | rfl | rfl | rfl <;> (unfold NameContinue NameStart; decide)⟩
    refine lx_name hq (hc _ _ _ rfl (by decide)) (lx_p (p := .lpar) (lx_p (p := .dollar)
      (lx_name (n := ['a']) (isName_one (by unfold NameStart; decide)) (hc _ _ _ rfl (by decide))
      (lx_p (p := .colon) (lx_name (n := ['I']) (isName_one (by unfold NameStart; decide))
      (hc _ _ _ rfl (by decide)) (lx_p (p := .at) (lx_name (n := ['d'])
      (isName_one (by unfold NameStart; decide)) (hc _ _ _ rfl (by decide)) (lx_p (p := .rpar)
      (lx_p (p := .lcur) (lx_name (n := ['a']) (isName_one (by unfold NameStart; decide))
      (hc _ _ _ rfl (by decide)) (lx_p (p := .rcur) .done)))))))))))
  · refine ⟨by simp, ?_⟩
    have hs : GSel S ([] ++ .name ['a'] :: [] ++ []) (.field none ['a'] [] [] []) :=
      .leaf none ['a'] [] [] [] [] [] .none (.none _) (.nil _)
    have hset : GSet S (.p .lcur :: ([] ++ .name ['a'] :: [] ++ [] ++ []) ++ [.p .rcur]) _ :=
      .mk _ _ (by simp) (.cons _ _ _ _ hs .nil)
    have hv : GVars S _ _ := .cons ['a'] [.name ['I']] [] (.p .at :: .name ['d'] :: [] ++ []) [] _ none
      [⟨['d'], []⟩] [] (.named ['I']) .none (.cons _ ['d'] [] [] [] [] (.none _) (.nil _)) .nil
    exact GDefs.cons _ [] _ [] (.op .query none [] _ [] _ _ [] _ .none (.some _ _ (by simp) hv) (.nil _)
      hset) .nil

/-- C89 is false of the code: a fragment with the name `on` is accepted. -/
theorem C89_fragment_on_refuted (S : Floats F) :
    parse S none ("fragment on on T{a}".toList) =
        .document [.frag ['o', 'n'] ['T'] [] [.field none ['a'] [] [] []]] ∧
      ∀ d, ¬ Reads S ("fragment on on T{a}".toList) d := by
  refine ⟨rfl, ?_⟩
  rintro d ⟨ts, hl, hg⟩
  have hl' : Lexes ("fragment on on T{a}".toList) (lex none ("fragment on on T{a}".toList)) := by
    apply lex_sound
    have e : lex none ("fragment on on T{a}".toList) = [.name kwFragment, .name ['o', 'n'],
      .name ['o', 'n'], .name ['T'], .p .lcur, .name ['a'], .p .rcur] := rfl
    rw [e]
    intro x hx
    simp only [List.mem_cons, List.not_mem_nil, or_false] at hx
    rcases hx with rfl | rfl | rfl | rfl | rfl | rfl | rfl <;> exact ⟨by simp, trivial⟩
  have e := lexes_unique hl hl'
  subst e
  have ho : ∀ d : Def F, DefDirsOk (idealLits S) d := by
    intro d
    cases d with
    | op => exact .inl rfl
    | _ => trivial
  have h1 := parse_complete hg (ideal_faithful S _) (fun d _ => ho d)
  have h2 : parseToks (idealLits S) (lex none ("fragment on on T{a}".toList)) =
    .document [.frag ['o', 'n'] ['T'] [] [.field none ['a'] [] [] []]] := rfl
  rw [h1] at h2
  cases h2
  obtain ⟨_, hg⟩ := hg
  generalize lex none ("fragment on on T{a}".toList) = ts at hg
  cases hg with
  | cons t ts _ _ h _ =>
    cases h with
    | frag _ _ _ _ _ _ hne _ _ => exact hne rfl

/-! ## C88: where it fails -/

/-- Two numbers: one and a half, and infinity. -/
def twoFloats : Floats (Option Unit) where
  read _ := some ()
  disp f := if f.isSome then ['1', '.', '5'] else ['i', 'n', 'f']
  finite f := f.isSome

theorem twoFloats_ok : FloatsOk twoFloats where
  literal f h := by
    cases f with
    | none => cases h
    | some u =>
      exact .inr ⟨['1'], ['.', '5'], [], rfl,
        .inl (.inr ⟨'1', [], rfl, by decide, by simp; unfold Digit; decide⟩),
        .inl ⟨⟨['5'], rfl, by simp, by simp; unfold Digit; decide⟩, rfl⟩⟩
  back f h := by
    cases f with
    | none => cases h
    | some u => rfl
  other f h := by
    cases f with
    | none => exact .inl rfl
    | some u => cases h

/-- A query for a field with one argument. -/
def argPlan {F : Type} (v : PVal F) : PDoc F :=
  ⟨⟨none, none, none, [.field none ['a'] [(['b'], v)] none none []]⟩, []⟩

theorem ordinary_of {t : Txt} (h : '"' ∉ t) (h' : '\\' ∉ t) : Ordinary t where
  noBlock hi := h (hi.subset (by simp))
  noReturn raw hi := absurd (hi.subset (by simp)) h
  noBackspace hi := h' (hi.subset (by simp))
  noPlus hi := h' (hi.subset (by simp))

/-- C88 is false of the code for a number that is not finite: the text reads as an enum value. -/
theorem C88_infinite_refuted : ∃ D, Reads twoFloats (docTxt twoFloats (argPlan (.float none))) D ∧
    D = argDoc (.enum ['i', 'n', 'f']) ∧ ¬ PlanSays twoFloats (argPlan (.float none)) D := by
  refine ⟨_, C89_accepted_reads_partial (limit := none)
    (d := argDoc (.enum ['i', 'n', 'f'])) rfl (ordinary_of (by decide) (by decide)) ?_, rfl, ?_⟩
  · intro n c ds ss h
    simp [argDoc] at h
  · rintro ⟨o, fs, e, h, _⟩
    cases e
    cases h with
    | short _ _ _ _ h =>
      cases h with
      | cons _ _ _ _ h _ =>
        cases h with
        | field _ _ _ _ _ _ _ _ h _ =>
          cases h with
          | cons _ _ _ _ _ h _ => cases h

/-- One number, written as an integer. -/
def oneFloat : Floats Unit where
  read _ := ()
  disp _ := ['1']
  finite _ := true

/-- C88: a planned float that is a whole number is sent as an integer literal. The specification
`PlanSays` lets that pass, since it is the same number. -/
theorem C88_float_kind_refuted : FloatsOk oneFloat ∧
    Reads oneFloat (docTxt oneFloat (argPlan (.float ()))) (argDoc (.int 1)) := by
  refine ⟨⟨fun _ _ => .inl (.inl (.inr ⟨'1', [], rfl, by decide, by
      intro d hd
      have hd : d ∈ ['1'] := hd
      simp at hd
      subst hd
      unfold Digit
      decide⟩)), fun _ _ => rfl,
    fun _ h => by cases h⟩, C89_accepted_reads_partial (limit := none) rfl
      (ordinary_of (by decide) (by decide)) ?_⟩
  intro n c ds ss h
  simp [argDoc] at h

/-! ## C90: reading does not crash -/

/-- C90. Reading a text ends with a document or an error, not with a panic, if the text has no white
space of more than one byte, or has no block strings. -/
theorem C90_no_crash_partial (S : Floats F) (limit : Option Nat) (t : Txt)
    (h : (∀ c ∈ t, ¬ WideSpace c) ∨ ¬ ['"', '"', '"'] <:+: t) : parse S limit t ≠ .crash := by
  apply parse_no_crash
  intro raw hm
  rcases lex_shape limit t _ hm with e | ⟨text, hi, rfl, _⟩
  · cases e
  rcases h with h | h
  · apply unquoteBlock_some
    intro c hc hs
    have hct : c ∈ t := hi.subset (by simp [hc])
    have hw := h c hct
    unfold rustSpace at hs
    simp only [Bool.or_eq_true, Bool.and_eq_true, decide_eq_true_eq, beq_iff_eq] at hs
    unfold WideSpace at hw
    simp only [List.mem_cons, List.not_mem_nil, or_false] at hw
    have hlt : c.toNat ≤ 0x7f := by omega
    have hv : c.val ≤ 0x7f := by
      rw [UInt32.le_iff_toNat_le]
      exact hlt
    exact if_pos hv
  · exact absurd (List.IsInfix.trans ⟨[], raw ++ ['"', '"', '"'], by simp⟩ hi) h

/-- C90 is false of the code: a block string with a wide blank in a line that is shorter than the
others makes it panic. -/
theorem C90_block_refuted (S : Floats F) :
    parse S none (argText ("\"\"\"x\n y\n　\n z\"\"\"".toList)) = .crash := rfl

/-! ## C91: the limit of tokens -/

theorem plainCount_eq {ts : List Tok} (h : Tok.bad ∉ ts) : plainCount ts = countOf ts := by
  unfold plainCount countOf
  congr 1
  apply List.filter_congr
  intro x hx
  cases x with
  | bad => exact absurd hx h
  | _ => rfl

/-- C91. With a limit of `n`, those documents are accepted that are accepted without a limit and have
fewer than `n` tokens other than strings and floats. What is missing: strings and floats, which are
not counted, documents with exactly `n` tokens, and texts that are not `Ordinary`. -/
theorem C91_limit_partial (S : Floats F) (n : Nat) (t : Txt) (d : Doc F) (ho : Ordinary t)
    (hn : ∀ n c ds ss, Def.frag n c ds ss ∈ d → n ≠ ['o', 'n']) :
    parse S (some n) t = .document d ↔
      parse S none t = .document d ∧ ∃ ts, Lexes t ts ∧ plainCount ts < n := by
  rw [parse_limit]
  have key : ∀ h : parse S none t = .document d, plainCount (lex none t) = countOf (lex none t) := by
    intro h
    obtain ⟨u, hu, hb⟩ := accepted_tokens (L := codeLits S) (ts := lex none t) h
    exact plainCount_eq (by rw [hu]; simp [hb])
  constructor
  · rintro ⟨h, hlt⟩
    exact ⟨h, lex none t, (accepted_lexes h ho hn).1, by rw [key h]; exact hlt⟩
  · rintro ⟨h, ts, hl, hlt⟩
    rw [lexes_unique hl (accepted_lexes h ho hn).1, key h] at hlt
    exact ⟨h, hlt⟩

/-- C91. Without the condition on texts: whatever is accepted under a limit is accepted without one,
as the same document. -/
theorem C91_limit_only_rejects (S : Floats F) (n : Nat) (t : Txt) (d : Doc F)
    (h : parse S (some n) t = .document d) : parse S none t = .document d :=
  ((parse_limit S n t d).1 h).1

/-- C91. A higher limit accepts what a lower limit accepts. -/
theorem C91_limit_grows (S : Floats F) (m n : Nat) (hmn : m ≤ n) (t : Txt) (d : Doc F)
    (h : parse S (some m) t = .document d) : parse S (some n) t = .document d := by
  rw [parse_limit] at h ⊢
  exact ⟨h.1, by omega⟩

/-- C91 is false of the code: strings are not counted, so a document with more tokens than the limit
is accepted. -/
theorem C91_strings_refuted (S : Floats F) :
    ∃ ts d, Lexes (argText "[\"x\" \"x\" \"x\" \"x\"]".toList) ts ∧ ts.length = 13 ∧
      parse S (some 10) (argText "[\"x\" \"x\" \"x\" \"x\"]".toList) = .document d := by
  have h : parse S (some 10) (argText "[\"x\" \"x\" \"x\" \"x\"]".toList) =
      .document (argDoc (.list [.str ['x'], .str ['x'], .str ['x'], .str ['x']])) := rfl
  refine ⟨lex none (argText "[\"x\" \"x\" \"x\" \"x\"]".toList), _, lex_sound ?_, rfl, h⟩
  have e : lex none (argText "[\"x\" \"x\" \"x\" \"x\"]".toList) = [.p .lcur, .name ['a'], .p .lpar,
    .name ['b'], .p .colon, .p .lbr, .str ['x'], .str ['x'], .str ['x'], .str ['x'], .p .rbr, .p .rpar,
    .p .rcur] := rfl
  have hs : StrChars ['x'] ['x'] := .plain 'x' [] [] (by decide) (by decide) (by decide) (by decide) .nil
  rw [e]
  intro x hx
  simp only [List.mem_cons, List.not_mem_nil, or_false] at hx
  rcases hx with rfl | rfl | rfl | rfl | rfl | rfl | rfl | rfl | rfl | rfl | rfl | rfl | rfl
  all_goals first | exact ⟨by simp, trivial⟩ | exact ⟨by simp, ['x'], hs⟩

/-- C91 is false of the code: a document with as many tokens as the limit is rejected. -/
theorem C91_boundary_refuted (S : Floats F) :
    Lexes "{a}".toList [.p .lcur, .name ['a'], .p .rcur] ∧
      parse S (some 3) "{a}".toList = .error ∧
      parse S (some 4) "{a}".toList = .document [.short [.field none ['a'] [] [] []]] := by
  refine ⟨?_, rfl, rfl⟩
  refine lx_p (p := .lcur) (lx_name (n := ['a']) (isName_one (by unfold NameStart; decide)) ?_
    (lx_p (p := .rcur) .done))
  intro c r e
  cases e
  exact notCont_p (by decide)

/-! ## The hypotheses are met -/

/-- C88: a mutation with a variable, an alias, arguments of several kinds, conditions and an inline
fragment, and a fragment. -/
def samplePlan : PDoc (Option Unit) :=
  ⟨⟨some .mutation, none, some [⟨['v'], .nonNull (.list (.named ['I'])), some (.list [.int 3])⟩],
    [.field (some ['x']) ['a'] [(['b'], .obj [(['c'], .str ['"', '\n']), (['d'], .float (some ()))]),
        (['e'], .list [.var ['v'], .enum ['E'], .null, .bool true, .int (-7)])] (some ['v']) none
      [.inline ['T'] none (some ['v']) [.field none ['y'] [] none none []], .spread ['F']]]⟩,
    [⟨['F'], ['T'], [.field none ['z'] [] none none []]⟩]⟩

theorem ns {c : Char} (h : ('a' ≤ c ∧ c ≤ 'z') ∨ ('A' ≤ c ∧ c ≤ 'Z') ∨ c = '_') : IsName [c] :=
  isName_one h

example : Printable twoFloats samplePlan := by
  have gn : ∀ {o : Option Txt} {c : Char}, (('a' ≤ c ∧ c ≤ 'z') ∨ ('A' ≤ c ∧ c ≤ 'Z') ∨ c = '_') →
      o = some [c] → GoodName o := by
    intro o c h e t ht
    rw [e] at ht
    cases ht
    exact ns h
  have gnn : GoodName none := fun t h => by cases h
  refine ⟨⟨gnn, ?_, by simp [samplePlan], ?_, fun h => by cases h⟩, ?_⟩
  · intro v hv
    simp only [samplePlan, Option.getD_some, List.mem_singleton] at hv
    subst hv
    refine ⟨ns (by decide), ⟨by simp, ns (by decide)⟩, ?_⟩
    intro d hd
    cases hd
    exact ⟨trivial, trivial⟩
  · refine ⟨⟨gn (c := 'x') (by decide) rfl, ns (by decide), ?_, gn (c := 'v') (by decide) rfl, gnn, ?_⟩,
      trivial⟩
    · refine ⟨⟨ns (by decide), ⟨ns (by decide), trivial⟩, ⟨ns (by decide), rfl⟩, trivial⟩,
        ⟨ns (by decide), ⟨rfl, ns (by decide)⟩, ⟨ns (by decide), by decide, by decide, by decide⟩,
          trivial, trivial, trivial, trivial⟩, trivial⟩
    · exact ⟨⟨ns (by decide), gnn, gn (c := 'v') (by decide) rfl, by simp,
        ⟨gnn, ns (by decide), trivial, gnn, gnn, trivial⟩, trivial⟩, ⟨ns (by decide), by decide⟩, trivial⟩
  · intro f hf
    simp only [samplePlan, List.mem_singleton] at hf
    subst hf
    exact ⟨ns (by decide), by decide, ns (by decide), by simp,
      ⟨gnn, ns (by decide), trivial, gnn, gnn, trivial⟩, trivial⟩

example : docTxt twoFloats samplePlan =
    "mutation($v:[I]!=[3]){x: a(b: {c: \"\\\"\\n\", d: 1.5}, e: [$v, E, null, true, -7]) @skip(if: $v){...on T @include(if: $v){y} ...F}}\n\nfragment F on T {z}\n".toList := by
  decide +kernel

/-- C89: a document with a comment, a variable with a default value, a list, an object, a string with
escapes, directives, and a fragment. -/
def sampleText : Txt :=
  "query Q($a:[I!]=[-1,2])@d{#c\nx:f(s:\"\\\"\\u0041\",o:{k:$a}){...F}}fragment F on T{y}".toList

theorem sample_ordinary : Ordinary sampleText where
  noBlock := by decide +kernel
  noReturn raw h _ hm := by
    have : '\r' ∈ sampleText := h.subset (by simp [hm])
    revert this
    decide +kernel
  noBackspace := by decide +kernel
  noPlus := by decide +kernel

set_option maxRecDepth 20000 in
example : ∃ d, Reads twoFloats sampleText d := by
  refine ⟨_, C89_accepted_reads_partial (limit := some 60) rfl sample_ordinary ?_⟩
  intro n c ds ss h
  simp at h
  rw [h.1]
  decide

/-- C89: `{a(b:[-12 "x"])}` meets the conditions for being accepted. -/
example : LexesBy Apart (argText ['[', '-', '1', '2', ' ', '"', 'x', '"', ']']) [.p .lcur, .name ['a'], .p .lpar,
    .name ['b'], .p .colon, .p .lbr, .int ['-', '1', '2'], .str ['x'], .p .rbr, .p .rpar, .p .rcur] ∧
    TameTok (.int ['-', '1', '2']) ∧ TameTok (.str ['x']) ∧
    Nested 50 [.p .lcur, .name ['a'], .p .lpar, .name ['b'], .p .colon, .p .lbr, .int ['-', '1', '2'],
      .str ['x'], .p .rbr, .p .rpar, .p .rcur] := by
  have hp : ∀ {p : P} {rest : Txt} {ts : List Tok}, LexesBy Apart rest ts →
      LexesBy Apart (p.txt ++ rest) (.p p :: ts) := fun h =>
    .tok _ _ _ _ (.punct _) (by cases ‹Txt› <;> trivial) (by cases ‹Txt› <;> trivial) h
  have hi : IsInt ['-', '1', '2'] := .inr ⟨['1', '2'], rfl, .inr ⟨'1', ['2'], rfl, by decide, by
    simp; unfold Digit; decide⟩⟩
  refine ⟨?_, ⟨by decide, by decide⟩, .plain 'x' [] (by decide) (by decide) (by decide) (by decide) .nil, ?_⟩
  · refine hp (p := .lcur) (.tok (.name ['a']) ['a'] _ _ (.name _ (ns (by decide))) (notCont_p (by decide))
      trivial (hp (p := .lpar) (.tok (.name ['b']) ['b'] _ _ (.name _ (ns (by decide)))
      (notCont_p (by decide)) trivial (hp (p := .colon) (hp (p := .lbr)
      (.tok (.int ['-', '1', '2']) ['-', '1', '2'] _ _ (.int _ hi) ⟨by unfold Digit; decide, by decide,
        by unfold NameStart; decide⟩ ⟨by decide, by decide, by decide⟩ (.skip ' ' _ _ (by unfold Ignored; decide)
      (.tok (.str ['x']) ['"', 'x', '"'] _ _ (.str _ ['x'] (.plain 'x' [] [] (by decide) (by decide)
        (by decide) (by decide) .nil)) trivial trivial (hp (p := .rbr) (hp (p := .rpar)
        (hp (p := .rcur) .done)))))))))))
  · intro pre hpre
    have := List.Sublist.filter (fun t => decide (t = Tok.p .lpar ∨ t = .p .lbr ∨ t = .p .lcur))
      hpre.sublist
    have := this.length_le
    have h3 : ([Tok.p .lcur, .name ['a'], .p .lpar, .name ['b'], .p .colon, .p .lbr,
      .int ['-', '1', '2'], .str ['x'], .p .rbr, .p .rpar, .p .rcur].filter
      (fun t => decide (t = Tok.p .lpar ∨ t = .p .lbr ∨ t = .p .lcur))).length = 3 := by decide
    rw [h3] at this
    unfold opened
    omega

/-- C91: both sides of the limit. -/
example (S : Floats F) : parse S (some 9) (argText ['1']) = .document (argDoc (.int 1)) ∧
    parse S (some 8) (argText ['1']) = .error := ⟨rfl, rfl⟩

end Verif.Text
