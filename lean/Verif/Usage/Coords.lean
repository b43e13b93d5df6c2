import Verif.Valid.TypeSpec

/-!
# Usage reporting: the parts of the schema that an operation uses

A report says which fields, arguments, input fields, enum values and scalars of the schema an operation
uses. They are collected in one walk over the document, the same walk that validation makes
(`Verif.Valid.Model`). Here collecting is a fold over what the visitor is told on that walk.

A coordinate is kept as what it is of; the code keeps its text (`Type`, `Type.field`,
`Type.field.argument`, with a `!` at the end if a value was given), and as names have neither `.` nor
`!` in them, different coordinates have different texts.
-/

namespace Verif.Usage.Coords

open Verif.Valid

/-- A part of the schema, as `format!("{}.{}", ..)` names it
(lib/hive-console-sdk/src/agent/utils.rs:245, 319, 430). Fields of objects, fields of input objects and
values of enums are all named by the type and the member. -/
inductive Coord where
  | type (t : Name)
  | member (t m : Name)
  | arg (t f a : Name)
deriving DecidableEq, Repr

/-- A coordinate, and whether it has a `!` at the end: a value was given. -/
abbrev Used := Coord × Bool

/-- `is_builtin_scalar` (utils.rs:64-66). -/
def builtin (n : Name) : Bool :=
  n == "String" || n == "Int" || n == "Float" || n == "Boolean" || n == "ID"

/-- What is kept on the walk. Models `SchemaCoordinatesContext` and `SchemaCoordinatesVisitor`
(utils.rs:20-33, 86-88). Sets are lists. -/
structure Acc where
  coords : List Used
  used : List Name
  counts : List (Coord × Nat)
  defaults : List Name
  visited : List Name
  error : Bool

/-- `collect_schema_coordinates` starts with nothing (utils.rs:38-50). -/
def Acc.new : Acc :=
  { coords := [], used := [], counts := [], defaults := [], visited := [], error := false }

/-- `schema_coordinates.insert`. -/
def Acc.add (st : Acc) (us : List Used) : Acc := { st with coords := us ++ st.coords }

/-- How often a value was provided for the coordinate. -/
def countOf : List (Coord × Nat) → Coord → Nat
  | [], _ => 0
  | (d, k) :: rest, c => if d = c then k else countOf rest c

/-- `count_input_value_provided` (utils.rs:78-81). -/
def Acc.count (st : Acc) (c : Coord) : Acc :=
  { st with counts := (c, countOf st.counts c + 1) :: st.counts }

/-- `mark_as_used` (utils.rs:68-76). -/
def Acc.mark (st : Acc) (c : Coord) : Acc :=
  if 0 < countOf st.counts c then
    { st with counts := (c, countOf st.counts c - 1) :: st.counts,
              coords := (c, false) :: (c, true) :: st.coords }
  else { st with coords := (c, false) :: st.coords }

/-- A scalar that the schema has or that every schema has (utils.rs:377-385, 404-410). -/
def scalarCoord (s : Schema) (t : Name) : List Used :=
  if builtin t then [(.type t, false)]
  else match s.typeByName t with
    | some (.scalar _) => [(.type t, false)]
    | _ => []

/-- A scalar that the schema has (utils.rs:361-366, 461-466). -/
def ownScalar (s : Schema) (t : Name) : List Used :=
  match s.typeByName t with
  | some (.scalar _) => [(.type t, false)]
  | _ => []

mutual
/-- `process_default_value` (utils.rs:91-131). -/
def defaultCoords (s : Schema) (t : Name) : Val → List Used
  | .obj fs => defaultFields s t fs
  | .list vs => defaultItems s t vs
  | .enum x => [(.member t x, false)]
  | _ => []
/-- The items of a list (utils.rs:119-123). -/
def defaultItems (s : Schema) (t : Name) : List Val → List Used
  | [] => []
  | v :: vs => defaultCoords s t v ++ defaultItems s t vs
/-- The fields of an object (utils.rs:98-118). -/
def defaultFields (s : Schema) (t : Name) : List (Name × Val) → List Used
  | [] => []
  | f :: fs => defaultPair s t f ++ defaultFields s t fs
/-- One field of an object (utils.rs:102-116). -/
def defaultPair (s : Schema) (t : Name) : Name × Val → List Used
  | (n, v) =>
      match (s.typeByName t).bind (·.inputByName n) with
      | some b => (.member t n, true) :: (.member t n, false) :: defaultCoords s b.ty.inner v
      | none => []
end

/-- `_resolve_references` (utils.rs:150-173). The depth is bounded by a number; no type is entered
twice, so with more than there are types the bound is not met. -/
def refs (s : Schema) : Nat → Name → List Name → List Name
  | 0, _, vis => vis
  | k + 1, n, vis =>
      if n ∈ vis then vis
      else match s.typeByName n with
        | some (.input _ fs) => fs.foldl (fun vis f => refs s k f.ty.inner vis) (n :: vis)
        | _ => n :: vis

/-- `collect_nested_input_type`, `collect_nested_input_fields` (utils.rs:175-223), on the input objects
that were entered and the coordinates. The depth is bounded as in `refs`. -/
def nested (s : Schema) : Nat → Name → List Name × List Used → List Name × List Used
  | 0, _, st => st
  | k + 1, n, st =>
      match s.typeByName n with
      | some (.scalar m) => (st.1, (.type m, false) :: st.2)
      | some (.input m fs) =>
          if m ∈ st.1 then st
          else fs.foldl (fun st f => nested s k f.ty.inner (st.1, (.member m f.name, false) :: st.2))
            (m :: st.1, st.2)
      | some (.enum m vs) => (st.1, vs.map (fun v => (.member m v, false)) ++ st.2)
      | some _ => st
      | none => if builtin n then (st.1, (.type n, false) :: st.2) else st

/-- `nested`, with a depth that is enough. -/
def nestedAll (s : Schema) (n : Name) (st : List Name × List Used) : List Name × List Used :=
  nested s (s.types.length + 1) n st

/-- `nestedAll` on what is kept on the walk. -/
def Acc.nest (s : Schema) (st : Acc) (n : Name) : Acc :=
  { st with visited := (nestedAll s n (st.visited, st.coords)).1,
            coords := (nestedAll s n (st.visited, st.coords)).2 }

/-- What `enter_field` inserts (utils.rs:241-265). -/
def fieldCoords (s : Schema) (p : TypeDef) (n : Name) : List Used :=
  (.member p.name n, false) ::
    match (p.fieldByName n).bind (fun f => s.typeByName f.ty.inner) with
    | some (.enum e vs) => vs.map (fun v => (.member e v, false))
    | _ => []

/-- A value is given: not `null`, and a variable only if it has a default (utils.rs:323-329,
431-436). -/
def Acc.given (st : Acc) : Val → Bool
  | .null => false
  | .var n => st.defaults.contains n
  | _ => true

/-- What `enter_argument` inserts for the value (utils.rs:339-387). -/
def argCoords (s : Schema) (t : Name) : Val → List Used
  | .enum x => [(.member t x, false)]
  | .list _ => []
  | .obj _ => ownScalar s t
  | .var _ => []
  | _ => scalarCoord s t

/-- `enter_argument` (utils.rs:298-391), where the type in scope is `p` and the field is `f`. -/
def argStep (s : Schema) (st : Acc) (p : TypeDef) (f : FieldDef) (a : Name × Val) : Acc :=
  (((if st.given a.2 then st.count (.arg p.name f.name a.1) else st).mark (.arg p.name f.name a.1))).add
    (match (p.fieldByName f.name).bind (fun g => g.args.find? (fun b => b.name = a.1)) with
     | some b => argCoords s b.ty.inner a.2
     | none => [])

/-- What `enter_list_value` inserts for one item (utils.rs:398-421). -/
def itemCoords (s : Schema) (t : Name) : Val → List Used
  | .enum x => [(.member t x, false)]
  | .obj _ => []
  | .list _ => []
  | .var _ => []
  | _ => scalarCoord s t

/-- What is done for the value of a field of an input object (utils.rs:449-510). -/
def pairStep (s : Schema) (st : Acc) (t : Name) : Val → Acc
  | .enum x => st.add [(.member t x, false)]
  | .list _ => st
  | .obj _ => st.add (ownScalar s t)
  | .null =>
      match s.typeByName t with
      | some (.input _ _) => st.nest s t
      | _ => st
  | _ => st.add (scalarCoord s t)

/-- `enter_object_value`, for one field (utils.rs:424-511). -/
def objStep (s : Schema) (m : Name) (defs : List InputDef) (st : Acc) (f : Name × Val) : Acc :=
  match defs.find? (fun b => b.name = f.1) with
  | none => st
  | some b =>
      pairStep s
        (((st.add [(.member m b.name, false)]).add
          (if st.given f.2 then [(.member m b.name, true)] else [])).mark (.member m b.name))
        b.ty.inner f.2

/-- The methods of `SchemaCoordinatesVisitor` (utils.rs:226-514). The field is the one the visitor is
in (`current_field`). -/
def step (s : Schema) (st : Acc) : Option FieldDef × Ctx × Ev → Acc
  | (_, c, .field _ n _ _ _) =>
      if st.error then st
      else match c.parent with
        | some p => st.add (fieldCoords s p n)
        | none => { st with error := true }
  | (_, _, .varDef v) =>
      if st.error then st
      else
        ({ st with
          defaults := if v.default_.isSome then v.name :: st.defaults else st.defaults,
          used := v.ty.inner :: (refs s (s.types.length + 1) v.ty.inner [] ++ st.used) } : Acc).add
          (match v.default_ with
           | some x => defaultCoords s v.ty.inner x
           | none => [])
  | (f, c, .arg a) =>
      if st.error then st
      else match c.parent with
        | none => { st with error := true }
        | some p =>
          match f with
          | some fd => argStep s st p fd a
          | none => st
  | (_, c, .list vs) =>
      if st.error then st
      else match c.input.bind (fun t => s.typeByName t.inner) with
        | some t => st.add (vs.flatMap (itemCoords s t.name))
        | none => st
  | (_, c, .obj fs) =>
      match c.input.bind (fun t => s.typeByName t.inner) with
      | some (.input m defs) => fs.foldl (objStep s m defs) st
      | _ => st
  | _ => st

/-- `with_field` (lib/graphql-tools/src/ast/operation_visitor.rs:82-96, 363-381): the fields that the
visitor is in, after what it tells of. -/
def push (st : List (Option FieldDef)) (e : Ctx × Ev) : List (Option FieldDef) :=
  match e.2 with
  | .field _ n _ _ _ => e.1.parent.bind (·.fieldByName n) :: st
  | .leaveField => st.tail
  | _ => st

/-- `current_field` (operation_visitor.rs:147-149). -/
def top : List (Option FieldDef) → Option FieldDef
  | [] => none
  | f :: _ => f

/-- What the visitor tells of, with the field that it is in. -/
def track : List (Option FieldDef) → Told → List (Option FieldDef × Ctx × Ev)
  | _, [] => []
  | st, e :: es => (top st, e) :: track (push st e) es

/-- The walk of `collect_schema_coordinates` (utils.rs:52). -/
def walk (s : Schema) (d : Doc) : Acc := (track [] (visit s d)).foldl (step s) Acc.new

/-- The end of `collect_schema_coordinates` (utils.rs:57-61): the types of the variables, in the order in
which they come out of their set. -/
def finish (s : Schema) (order : List Name) (st : Acc) : List Used :=
  (order.foldl (Acc.nest s) st).coords

/-- `collect_schema_coordinates` (utils.rs:35-62), for one order of the set. -/
def collect (s : Schema) (d : Doc) (order : List Name) : Option (List Used) :=
  if (walk s d).error then none else some (finish s order (walk s d))

/-- A query that asks for `__schema` or `__type` at the top (utils.rs:841-853). A bare selection set is
not asked; collecting fails for it, as the fields inside are on no type that is known. -/
def introspects (d : Doc) : Bool :=
  (ops d).any (fun o => o.kind == .query && o.sels.any (fun x =>
    match x with
    | .field _ n _ _ _ => n == "__schema" || n == "__type"
    | _ => false))

/-- The coordinates of a report, if there is one: `OperationProcessor::transform` (utils.rs:832-876). -/
def report (s : Schema) (d : Doc) (order : List Name) : Option (List Used) :=
  if introspects d then none else collect s d order

/-- What can be reported: the set of types comes out in any order. -/
def Reports (s : Schema) (d : Doc) (us : List Used) : Prop :=
  ∃ order, (∀ n, n ∈ order ↔ n ∈ (walk s d).used) ∧ report s d order = some us

end Verif.Usage.Coords
