import Verif.Valid.Rules

/-!
# Validation of documents: fields that are merged into one response

Models lib/graphql-tools/src/validation/rules/overlapping_fields_can_be_merged.rs. In the code the
functions call each other without a bound; here every call that the code makes takes one unit of fuel,
and no answer is given when it runs out. So a comparison that has no answer for any fuel is one that
does not come to an end in the code.

Left out: the positions and reasons of the conflicts: the answer is whether there is one.
-/

namespace Verif.Valid

/-! ## Comparing values -/

/-- Takes the first element out of a list that a predicate holds of. -/
def takeFirst {α : Type} (p : α → Bool) : List α → Option (List α)
  | [] => none
  | x :: xs => if p x then some xs else (takeFirst p xs).map (x :: ·)

mutual
/-- `Value::compare` (lib/graphql-tools/src/ast/ext.rs:241-272). -/
def cmpVal : Val → Val → Bool
  | .null, .null => true
  | .bool a, .bool b => a == b
  | .int a, .int b => a == b
  | .float a, .float b => a == b
  | .str a, .str b => a == b
  | .enum a, .enum b => a == b
  | .list as, .list bs => cmpZip as bs
  | .obj as, .obj bs => as.length == bs.length && cmpObj as bs
  | .var a, .var b => a == b
  | _, _ => false
termination_by structural a => a
/-- The elements of two lists, as far as both go (ext.rs:249). -/
def cmpZip : List Val → List Val → Bool
  | a :: as, b :: bs => cmpVal a b && cmpZip as bs
  | _, _ => true
termination_by structural a => a
/-- The fields of two objects: for each of the first, one of the second that was not yet taken
(ext.rs:254-266). The fields of the second that are left are passed on, rather than the marks of those
that were taken. -/
def cmpObj : List (Name × Val) → List (Name × Val) → Bool
  | [], _ => true
  | p :: ps, bs =>
      match cmpPair p bs with
      | some rest => cmpObj ps rest
      | none => false
termination_by structural a => a
/-- The field of the second object that a field of the first one is matched with (ext.rs:255-261). -/
def cmpPair : Name × Val → List (Name × Val) → Option (List (Name × Val))
  | (k, v), bs => takeFirst (fun q => k == q.1 && cmpVal v q.2) bs
termination_by structural a => a
end

/-- `is_same_arguments` (overlapping_fields_can_be_merged.rs:296-308). -/
def sameArgs (as bs : Args) : Bool :=
  as.length == bs.length &&
    as.all fun p =>
      match bs.find? (fun q => p.1 == q.1) with
      | some q => cmpVal p.2 q.2
      | none => false

/-- Whether a name is that of a scalar or an enum (overlapping_fields_can_be_merged.rs:339-344). -/
def leafName (s : Schema) (n : Name) : Bool :=
  match s.typeByName n with
  | some (.scalar _) => true
  | some (.enum _ _) => true
  | _ => false

/-- `is_type_conflict` (overlapping_fields_can_be_merged.rs:313-348). -/
def typeConflict (s : Schema) : Ty → Ty → Bool
  | .list t, .list u => typeConflict s t u
  | .list _, _ => true
  | _, .list _ => true
  | .nonNull t, .nonNull u => typeConflict s t u
  | .nonNull _, _ => true
  | _, .nonNull _ => true
  | .named a, .named b => (leafName s a || leafName s b) && a != b

/-! ## Fields and fragments of a selection set -/

/-- A field of a selection set: what it is selected on, the key it gets in the response, the field
itself and its definition. Models `AstAndDef` and the key it is stored at
(overlapping_fields_can_be_merged.rs:754-790). -/
structure Occ where
  parent : Option TypeDef
  key : Name
  name : Name
  args : Args
  def_ : Option FieldDef
  sub : List Sel
deriving Repr

/-- The fields and the names of the fragments of a selection set. The fields are in order; the map
of the code has, for each key in the order in which the keys came up, those of that key. -/
structure FieldMap where
  occs : List Occ
  names : List Name

/-- The type an inline fragment is on: the one in scope, unless it names one of the schema
(overlapping_fields_can_be_merged.rs:806-815). -/
def condScope (s : Schema) (p : Option TypeDef) (c : Option Name) : Option TypeDef :=
  (c.bind s.typeByName).or p

mutual
/-- One selection (overlapping_fields_can_be_merged.rs:779-824). -/
def occSel (s : Schema) (p : Option TypeDef) : Sel → List Occ
  | .field al n args _ sub => [⟨p, al.getD n, n, args, p.bind (·.fieldByName n), sub⟩]
  | .spread _ _ => []
  | .inline c _ sub => occSels s (condScope s p c) sub
/-- The fields of `collect_fields_and_fragment_names`
(overlapping_fields_can_be_merged.rs:771-826). -/
def occSels (s : Schema) (p : Option TypeDef) : List Sel → List Occ
  | [] => []
  | x :: xs => occSel s p x ++ occSels s p xs
end

mutual
/-- One selection (overlapping_fields_can_be_merged.rs:779-824). -/
def spreadSel : Sel → List Name
  | .field _ _ _ _ _ => []
  | .spread n _ => [n]
  | .inline _ _ sub => spreadSels sub
/-- The names of the fragments, as often as they are spread. -/
def spreadSels : List Sel → List Name
  | [] => []
  | x :: xs => spreadSel x ++ spreadSels xs
end

/-- `get_fields_and_fragment_names` (overlapping_fields_can_be_merged.rs:754-769): every name once,
in the order in which they came up. -/
def fieldMap (s : Schema) (p : Option TypeDef) (ss : List Sel) : FieldMap :=
  ⟨occSels s p ss, (spreadSels ss).eraseDups⟩

/-- `get_referenced_fields_and_fragment_names` (overlapping_fields_can_be_merged.rs:701-710). -/
def fragMap (s : Schema) (f : Frag) : FieldMap := fieldMap s (s.typeByName f.cond) f.sels

/-! ## The comparison -/

/-- What is kept between calls: the pairs of fragments that were compared, with whether as mutually
exclusive, and the fragments that were visited for the selection set. -/
structure OvSt where
  compared : List (Name × Name × Bool)
  visited : List Name
deriving Repr

/-- `PairSet::contains` (overlapping_fields_can_be_merged.rs:179-189). -/
def wasCompared (l : List (Name × Name × Bool)) (a b : Name) (me : Bool) : Bool :=
  match l.find? (fun p => p.1 == a && p.2.1 == b) with
  | some p => if me then true else !p.2.2
  | none => false

/-- `PairSet::insert` (overlapping_fields_can_be_merged.rs:191-195): the last entry is the one that is
found. -/
def setCompared (l : List (Name × Name × Bool)) (a b : Name) (me : Bool) : List (Name × Name × Bool) :=
  (b, a, me) :: (a, b, me) :: l

/-- A call that the code makes. -/
inductive Task where
  /-- `find_conflict` -/
  | find (a b : Occ) (me : Bool)
  /-- `find_conflicts_between_sub_selection_sets` -/
  | subs (me : Bool) (p1 : Option TypeDef) (ss1 : List Sel) (p2 : Option TypeDef) (ss2 : List Sel)
  /-- `collect_conflicts_between` -/
  | between (me : Bool) (m1 m2 : List Occ)
  /-- `collect_conflicts_between_fields_and_fragment` -/
  | fieldsFrag (m : List Occ) (n : Name) (me : Bool)
  /-- `collect_conflicts_between_fragments` -/
  | frags (a b : Name) (me : Bool)

/-- Whether there is a conflict, and what is kept; nothing if the fuel ran out. -/
abbrev Ans := Option (Bool × OvSt)

/-- Calls made one after the other, all of them whatever they answer. -/
def seqRun (rec : Task → OvSt → Ans) : List Task → OvSt → Ans
  | [], st => some (false, st)
  | t :: ts, st =>
      match rec t st with
      | none => none
      | some (b, st1) =>
          match seqRun rec ts st1 with
          | none => none
          | some (c, st2) => some (b || c, st2)

/-- The loop over the fragments that are spread in a fragment, which ends at the first that was
visited before (overlapping_fields_can_be_merged.rs:600-616). -/
def nexts (rec : Task → OvSt → Ans) (m : List Occ) (me : Bool) : List Name → OvSt → Ans
  | [], st => some (false, st)
  | n :: ns, st =>
      if st.visited.contains n then some (false, st)
      else
        match rec (.fieldsFrag m n me) { st with visited := st.visited ++ [n] } with
        | none => none
        | some (b, st1) =>
            match nexts rec m me ns st1 with
            | none => none
            | some (c, st2) => some (b || c, st2)

/-- Whether two objects are selected on that are different, so that only one of two fields is in a
response (overlapping_fields_can_be_merged.rs:376-393). -/
def exclusive (p q : Option TypeDef) : Bool :=
  match p, q with
  | some (.object a _ _), some (.object b _ _) => a != b
  | _, _ => false

/-- The type that a field has (overlapping_fields_can_be_merged.rs:426-427, 446-448, 508-509). -/
def Occ.ty (s : Schema) (o : Occ) : Option TypeDef :=
  o.def_.bind (fun f => s.typeByName f.ty.inner)

/-- Whether the types of two fields conflict (overlapping_fields_can_be_merged.rs:426-440). -/
def occTypes (s : Schema) (a b : Occ) : Bool :=
  match a.def_, b.def_ with
  | some f, some g => typeConflict s f.ty g.ty
  | _, _ => false

/-- The comparisons of two maps: for each key of the first, each of its fields with each of those of
the second (overlapping_fields_can_be_merged.rs:717-749). -/
def betweenTasks (me : Bool) (m1 m2 : List Occ) : List Task :=
  (m1.map (·.key)).eraseDups.flatMap fun k =>
    (m1.filter (·.key == k)).flatMap fun a => (m2.filter (·.key == k)).map fun b => .find a b me

/-- What one call does, given what the calls it makes do. -/
def stepTask (s : Schema) (d : Doc) (rec : Task → OvSt → Ans) : Task → OvSt → Ans
  -- overlapping_fields_can_be_merged.rs:352-464
  | .find a b me, st =>
      let excl := me || exclusive a.parent b.parent
      if !excl && a.name != b.name then some (true, st)
      else if !excl && !sameArgs a.args b.args then some (true, st)
      else if occTypes s a b then some (true, st)
      else if !a.sub.isEmpty && !b.sub.isEmpty then rec (.subs excl (a.ty s) a.sub (b.ty s) b.sub) st
      else some (false, st)
  -- overlapping_fields_can_be_merged.rs:497-569
  | .subs me p1 ss1 p2 ss2, st =>
      let m1 := fieldMap s p1 ss1
      let m2 := fieldMap s p2 ss2
      seqRun rec (.between me m1.occs m2.occs ::
        (m2.names.map (.fieldsFrag m1.occs · me) ++ m1.names.map (.fieldsFrag m2.occs · me) ++
          m1.names.flatMap fun a => m2.names.map fun b => .frags a b me)) st
  -- overlapping_fields_can_be_merged.rs:717-749
  | .between me m1 m2, st => seqRun rec (betweenTasks me m1 m2) st
  -- overlapping_fields_can_be_merged.rs:571-617
  | .fieldsFrag m n me, st =>
      match knownFrag d n with
      | none => some (false, st)
      | some f =>
          let m2 := fragMap s f
          if m2.names.contains n then some (false, st)
          else
            match rec (.between me m m2.occs) st with
            | none => none
            | some (b, st1) =>
                match nexts rec m me m2.names st1 with
                | none => none
                | some (c, st2) => some (b || c, st2)
  -- overlapping_fields_can_be_merged.rs:621-697
  | .frags a b me, st =>
      if a == b then some (false, st)
      else if wasCompared st.compared a b me then some (false, st)
      else
        let st' := { st with compared := setCompared st.compared a b me }
        match knownFrag d a, knownFrag d b with
        | some f, some g =>
            let m1 := fragMap s f
            let m2 := fragMap s g
            seqRun rec (.between me m1.occs m2.occs ::
              (m2.names.map (.frags a · me) ++ m1.names.map (.frags · b me))) st'
        | _, _ => some (false, st')

/-- A call, with so much fuel. -/
def runTask (s : Schema) (d : Doc) : Nat → Task → OvSt → Ans
  | 0, _, _ => none
  | k + 1, t, st => stepTask s d (runTask s d k) t st

/-- The pairs of a list, the earlier one first. -/
def pairsOf {α : Type} : List α → List (α × α)
  | [] => []
  | x :: xs => xs.map (x, ·) ++ pairsOf xs

/-- `collect_conflicts_within` (overlapping_fields_can_be_merged.rs:264-294). -/
def withinTasks (m : List Occ) : List Task :=
  (m.map (·.key)).eraseDups.flatMap fun k =>
    (pairsOf (m.filter (·.key == k))).map fun p => .find p.1 p.2 false

/-- The fragments of a selection set: each with the fields, and then with those after it
(overlapping_fields_can_be_merged.rs:234-258). -/
def spreadTasks (m : List Occ) : List Name → List Task
  | [] => []
  | n :: ns => .fieldsFrag m n false :: (ns.map (.frags n · false) ++ spreadTasks m ns)

/-- `find_conflicts_within_selection_set` (overlapping_fields_can_be_merged.rs:216-261). -/
def setTasks (s : Schema) (p : Option TypeDef) (ss : List Sel) : List Task :=
  let m := fieldMap s p ss
  withinTasks m.occs ++ spreadTasks m.occs m.names

/-- The selection sets that the visitor comes to, one after the other. `enter_selection_set`
(overlapping_fields_can_be_merged.rs:843-868): the compared pairs are kept, the visited fragments are
not. -/
def overlapFrom (s : Schema) (d : Doc) (fuel : Nat) : Told → List (Name × Name × Bool) → Option Bool
  | [], _ => some false
  | (c, .sels ss) :: es, cmp =>
      match seqRun (runTask s d fuel) (setTasks s c.parent ss) ⟨cmp, []⟩ with
      | none => none
      | some (b, st) =>
          match overlapFrom s d fuel es st.compared with
          | none => none
          | some r => some (b || r)
  | _ :: es, cmp => overlapFrom s d fuel es cmp

/-- Whether `OverlappingFieldsCanBeMerged` finds a conflict in a document, with so much fuel for each
call. -/
def overlapping (s : Schema) (d : Doc) (fuel : Nat) : Option Bool :=
  overlapFrom s d fuel (visit s d) []

end Verif.Valid
