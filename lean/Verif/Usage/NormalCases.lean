import Verif.Usage.NormalReads
import Mathlib.Data.List.Sort
/-!
# Operations for which order matters, and a concrete operation
-/
namespace Verif.Usage

open Verif.Text

/-- Sorting by insertion: a sort that keeps the order of equal items. So the code sorts short lists. -/
def insertion : Sorter where
  sort k l := l.insertionSort fun a b => k a ≤ k b
  perm k l := List.perm_insertionSort _ l
  sorted k l :=
    haveI : Std.Total fun a b => k a ≤ k b := ⟨fun a b => le_total (k a) (k b)⟩
    haveI : IsTrans _ fun a b => k a ≤ k b := ⟨fun a b c h h' => le_trans h h'⟩
    List.pairwise_insertionSort _ l

def rd : Floats Nat := ⟨fun t => if t = zeroTxt then 0 else 1, fun _ => zeroTxt, fun _ => true⟩

def wr : Nat → Txt := fun _ => zeroTxt

/-- `query Q($v:Int=3){b(y:"s",x:[1,$v])@d(f:2.5) alias:a{...F}}` and a fragment. -/
def op1 : Doc Nat :=
  [.frag "F".toList "A".toList [] [.field none "c".toList [] [] []],
   .op .query (some "Q".toList) [⟨"v".toList, .named "Int".toList, some (.int 3), []⟩] []
    [.field none "b".toList [("y".toList, .str "s".toList), ("x".toList, .list [.int 1, .var "v".toList])]
      [⟨"d".toList, [("f".toList, .float 1)]⟩] [],
     .field (some "alias".toList) "a".toList [] [] [.spread "F".toList []]]]

/-- The same with other literals, another alias, in another order. -/
def op2 : Doc Nat :=
  [.op .query (some "Q".toList) [⟨"v".toList, .named "Int".toList, some (.int 7), []⟩] []
    [.field (some "secret".toList) "a".toList [] [] [.spread "F".toList []],
     .field none "b".toList [("x".toList, .list [.int 5, .var "v".toList]), ("y".toList, .str "t".toList)]
      [⟨"d".toList, [("f".toList, .float 0)]⟩] []],
   .frag "F".toList "A".toList [] [.field none "c".toList [] [] []]]

/-- What is reported for both. -/
example : String.ofList (reported insertion wr 0 op1) =
    "query Q($v:Int=0){a{...F}b(x:[0$v]y:\"\")@d(f:0.0)}fragment F on A{c}" ∧
    reported insertion wr 0 op2 = reported insertion wr 0 op1 := by
  constructor <;> decide +kernel

/-- `C105_order_partial` applies to them. -/
example : SameDoc true op1 op2 ∧ ApartDoc op1 ∧ NoVarDirs op1 := by
  refine ⟨?_, ⟨?_, ?_⟩, ?_⟩
  · refine .perm _ _ _ rfl (.cons _ _ _ _ ?_ (.cons _ _ _ _ ?_ .nil)) (.swap _ _ _)
    · exact .frag _ _ _ _ _ _ .nil (.cons _ _ _ _ (.field _ _ _ _ _ _ _ _ _ .nil .nil .nil) .nil)
    · refine .op _ _ _ _ _ _ _ _ (.cons _ _ _ _ _ _ (.some _ _ (.int _ _)) .nil) .nil ?_
      refine .perm _ _ _ rfl (.cons _ _ _ _ ?_ (.cons _ _ _ _ ?_ .nil)) (.swap _ _ _)
      · refine .field _ _ _ _ _ _ _ _ _ ?_ ?_ .nil
        · exact .perm _ _ _ rfl (.cons _ _ _ _ _ (.str _ _) (.cons _ _ _ _ _ (.list _ _
            (.cons _ _ _ _ (.int _ _) (.cons _ _ _ _ (.var _) .nil))) .nil)) (.swap _ _ _)
        · exact .cons _ _ _ _ _ (.cons _ _ _ _ _ (.float _ _) .nil) .nil
      · exact .field _ _ _ _ _ _ _ _ _ .nil .nil (.cons _ _ _ _ (.spread _ _ _ .nil) .nil)
  · simp [op1, fragOf]
  · simp [op1, ApartDef, ApartSet, ApartSels, ApartSel, ApartArgs, ApartDirs, tagOf]
  · intro k n vs ds ss h
    simp only [op1, List.mem_cons, List.not_mem_nil, or_false] at h
    rcases h with h | h
    · cases h
    · cases h
      simp

theorem Sorter.one (S : Sorter) {α : Type} (k : α → List Nat) (a : α) : S.sort k [a] = [a] :=
  List.perm_singleton.1 (S.perm k [a])

/-- `{...F@a@b}` -/
def spreadDirs (x y : Txt) : Doc Nat := [.short [.spread ['F'] [⟨x, []⟩, ⟨y, []⟩]]]

/-- C105, for directives of spreads: however lists are sorted, their order is told. -/
theorem C105_order_refuted (S : Sorter) : ∃ d d' : Doc Nat, SameDoc true d d' ∧
    reported S wr 0 d ≠ reported S wr 0 d' := by
  refine ⟨spreadDirs ['a'] ['b'], spreadDirs ['b'] ['a'], ?_, ?_⟩
  · exact .cons _ _ _ _ (.short _ _ (.cons _ _ _ _ (.spread _ _ _ (.perm _ _ _ rfl
      (.cons _ _ _ _ _ .nil (.cons _ _ _ _ _ .nil .nil)) (.swap _ _ _))) .nil)) .nil
  · have e : ∀ x y, reported S wr 0 (spreadDirs x y) =
        minifyToks false (docToks wr (spreadDirs x y)) := by
      intro x y
      unfold reported normalize strip spreadDirs
      simp only [List.map_cons, List.map_nil, stripDef, sortDef, sortSels, stripSels, sortEach, stripSel,
        sortSel, stripDir, stripEntries, Sorter.one]
    rw [e, e]
    decide +kernel

/-- `fragment F on A@d(x:true y:null){c}` -/
def fragArgs (as : List (Txt × Val Nat)) : Doc Nat :=
  [.frag ['F'] ['A'] [⟨['d'], as⟩] [.field none ['c'] [] [] []]]

/-- C105, for arguments of directives of fragments: however lists are sorted, their order is told. Those of
operations are sorted. -/
theorem C105_fragment_refuted (S : Sorter) : ∃ d d' : Doc Nat, SameDoc true d d' ∧
    reported S wr 0 d ≠ reported S wr 0 d' := by
  refine ⟨fragArgs [(['x'], .bool true), (['y'], .null)], fragArgs [(['y'], .null), (['x'], .bool true)], ?_, ?_⟩
  · exact .cons _ _ _ _ (.frag _ _ _ _ _ _ (.cons _ _ _ _ _ (.perm _ _ _ rfl (.cons _ _ _ _ _ (.bool _)
      (.cons _ _ _ _ _ .null .nil)) (.swap _ _ _)) .nil)
      (.cons _ _ _ _ (.field _ _ _ _ _ _ _ _ _ .nil .nil .nil) .nil)) .nil
  · have hs : ∀ {α : Type} (k : α → List Nat), S.sort k [] = [] := fun k => (S.perm k []).eq_nil
    have e : ∀ a b : Txt × Val Nat, reported S wr 0 (fragArgs [a, b]) =
        minifyToks false (docToks wr (fragArgs [stripEntry 0 a, stripEntry 0 b])) := by
      intro a b
      unfold reported normalize strip fragArgs
      simp only [List.map_cons, List.map_nil, stripDef, sortDef, sortSels, stripSels, sortEach, stripSel,
        sortSel, stripDir, stripEntries, Sorter.one, sortArgs, sortDirs, hs]
    rw [e, e]
    decide +kernel

/-- `{x:a{b}y:a{c}}` -/
def twice (b c : Txt) : Doc Nat :=
  [.short [.field (some ['x']) ['a'] [] [] [.field none b [] [] []],
    .field (some ['y']) ['a'] [] [] [.field none c [] [] []]]]

/-- C105, for fields of the same name: their order is told, if lists are sorted by insertion. -/
theorem C105_fields_refuted : ∃ d d' : Doc Nat, SameDoc true d d' ∧
    reported insertion wr 0 d ≠ reported insertion wr 0 d' := by
  refine ⟨twice ['b'] ['c'], twice ['c'] ['b'], ?_, by decide +kernel⟩
  exact .cons _ _ _ _ (.short _ _ (.perm _ _ _ rfl (.cons _ _ _ _ (.field _ _ _ _ _ _ _ _ _ .nil .nil
    (.cons _ _ _ _ (.field none none _ _ _ _ _ _ _ .nil .nil .nil) .nil)) (.cons _ _ _ _
      (.field _ _ _ _ _ _ _ _ _ .nil .nil (.cons _ _ _ _ (.field none none _ _ _ _ _ _ _ .nil .nil .nil) .nil)) .nil))
    (.swap _ _ _))) .nil

/-- `C105_reads` and `C104_reads` apply: `{a(x:7)}` is reported as `{a(x:0)}`. -/
example : ∃ t, Reads rd t [.short [.field none ['a'] [(['x'], .int 7)] [] []]] ∧ wr 0 = zeroTxt ∧
    rd.read zeroTxt = 0 ∧
    String.ofList (reported insertion wr 0 [.short [.field none ['a'] [(['x'], .int 7)] [] []]]) = "{a(x:0)}" := by
  refine ⟨minifyToks false [.p .lcur, .name ['a'], .p .lpar, .name ['x'], .p .colon, .int ['7'], .p .rpar,
    .p .rcur], ⟨_, lexes_minify _ false ?_ ?_, by simp, ?_⟩, rfl, by decide +kernel, by decide +kernel⟩
  · refine lexy_p _ (lexy_name ?_ (lexy_p _ (lexy_name ?_ (lexy_p _ (lexy_cons (.int _ ?_) (lexy_p _ (lexy_p _ lexy_nil)))))))
    · exact ⟨_, _, rfl, by simp only [NameStart]; decide, by simp⟩
    · exact ⟨_, _, rfl, by simp only [NameStart]; decide, by simp⟩
    · exact .inl (.inr ⟨_, _, rfl, by decide, by simp only [Digit]; decide⟩)
  · simp [Spread, isNum]
  · exact .cons _ [] _ _ (.short _ _ (.mk [.name ['a'], .p .lpar, .name ['x'], .p .colon, .int ['7'], .p .rpar] _
      (by simp) (.cons _ [] _ _ (.leaf none ['a'] [] [.p .lpar, .name ['x'], .p .colon, .int ['7'], .p .rpar] []
        _ _ .none (.some false [.name ['x'], .p .colon, .int ['7']] _ (by simp)
          (.cons false ['x'] [.int ['7']] [] _ _ (.int false ['7']) (.nil false))) (.nil false)) .nil))) .nil

end Verif.Usage
