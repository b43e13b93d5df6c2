import Verif.Core.Value
import Verif.Core.Schema

/-!
# Conditions of the response projection

`bin/router/src/executor/projection/plan.rs:24-229` and `:518-816`, and `check` of `response.rs`.
Hash sets are lists without duplicates; their order plays no role.
-/

namespace Verif.Projection

/-- `HashSet::insert`. -/
def setInsert (s : List String) (x : String) : List String := if s.contains x then s else s ++ [x]

/-- `HashSet::extend`. -/
def setExtend (s : List String) : List String → List String
  | [] => s
  | x :: xs => setExtend (setInsert s x) xs

/-- `HashSet::eq`. -/
def setEq (s t : List String) : Bool := s.all t.contains && t.all s.contains

/-- `TypeCondition`, `plan.rs:25-28`. -/
inductive TypeCond where
  | exact (name : String)
  | oneOf (names : List String)

/-- `TypeCondition::matches`, `plan.rs:31-36`. -/
def TypeCond.accepts : TypeCond → String → Bool
  | .exact a, t => t == a
  | .oneOf s, t => s.contains t

/-- `TypeCondition::union`, `plan.rs:38-60`. -/
def TypeCond.union : TypeCond → TypeCond → TypeCond
  | .exact a, .exact b => if a = b then .exact a else .oneOf [a, b]
  | .oneOf s, .exact a => .oneOf (setInsert s a)
  | .exact a, .oneOf s => .oneOf (setInsert s a)
  | .oneOf s, .oneOf t => .oneOf (setExtend s t)

/-- `TypeCondition::intersect`, `plan.rs:62-98`. -/
def TypeCond.intersect : TypeCond → TypeCond → TypeCond
  | .exact a, .exact b => if a = b then .exact a else .oneOf []
  | .oneOf s, .exact a => if s.contains a then .exact a else .oneOf []
  | .exact a, .oneOf s => if s.contains a then .exact a else .oneOf []
  | .oneOf s, .oneOf t =>
    match s.filter t.contains with
    | [a] => .exact a
    | l => .oneOf l

/-- The derived `PartialEq` of `TypeCondition`, `plan.rs:24`. -/
def TypeCond.eq : TypeCond → TypeCond → Bool
  | .exact a, .exact b => a == b
  | .oneOf s, .oneOf t => setEq s t
  | _, _ => false

/-- `FieldProjectionCondition`, `plan.rs:153-162`. -/
inductive Cond where
  | incl (name : String)
  | skip (name : String)
  | parent (tc : TypeCond)
  | field (tc : TypeCond)
  | enum (values : List String)
  | or (a b : Cond)
  | and (a b : Cond)

/-- The derived `PartialEq`, `plan.rs:153`. -/
def Cond.eq : Cond → Cond → Bool
  | .incl v, .incl w => v == w
  | .skip v, .skip w => v == w
  | .parent t, .parent u => t.eq u
  | .field t, .field u => t.eq u
  | .enum s, .enum t => setEq s t
  | .or a b, .or c d => a.eq c && b.eq d
  | .and a b, .and c d => a.eq c && b.eq d
  | _, _ => false

/-- `FieldProjectionCondition::and`, `plan.rs:180-196`. -/
def Cond.andThen : Cond → Cond → Cond
  | .parent l, .parent r => .parent (l.intersect r)
  | .field l, .field r => .field (l.intersect r)
  | .enum l, .enum r => .enum (l.filter r.contains)
  | l, r => .and l r

/-- The second half of `FieldProjectionCondition::or`, `plan.rs:209-222`. -/
def Cond.orMerge : Cond → Cond → Cond
  | .parent l, .parent r => .parent (l.union r)
  | .field l, .field r => .field (l.union r)
  | .enum l, .enum r => .enum (setExtend l r)
  | l, r => .or l r

/-- `FieldProjectionCondition::or`, `plan.rs:203-223`. -/
def Cond.orElse (l r : Cond) : Cond := if l.eq r then l else l.orMerge r

/-- `ProjectionError`, `executor/projection/error.rs`: the two kinds that projection raises. -/
inductive Err where
  | missingType (name : String)
  | missingField (typeName fieldName : String)

/-- `FieldProjectionConditionError`, `plan.rs:164-170`. -/
inductive CondErr where
  | invalidParentType
  | invalidFieldType
  | skip
  | invalidEnumValue
  | fatal (e : Err)

/-- What `check` looks at: the (lazily computed) names of the parent type and of the field's type,
the value of the field, and which variables are `true`. A variable that is absent or not a Boolean
counts as not `true`, `response.rs:513-536`. -/
structure Env where
  parentType : Except Err String
  fieldType : Except Err String
  value : Option Value
  isTrue : String → Bool

/-- A type name compared with a condition, `response.rs:537-548`. -/
def typeVerdict (name : Except Err String) (accepts : String → Bool) (bad : CondErr) :
    Except CondErr Unit :=
  match name with
  | .error x => .error (.fatal x)
  | .ok t => if accepts t then .ok () else .error bad

/-- `check`, `response.rs:467-562`. -/
def check (e : Env) : Cond → Except CondErr Unit
  | .and a b => match check e a with
    | .ok _ => check e b
    | .error x => .error x
  | .or a b => match check e a with
    | .ok u => .ok u
    | .error _ => check e b
  | .incl v => if e.isTrue v then .ok () else .error .skip
  | .skip v => if e.isTrue v then .error .skip else .ok ()
  | .parent tc => typeVerdict e.parentType tc.accepts .invalidParentType
  | .field tc => typeVerdict e.fieldType tc.accepts .invalidFieldType
  | .enum s => match e.value with
    | some (.str v) => if s.contains v then .ok () else .error .invalidEnumValue
    | _ => .ok ()

/-- `check` on the optional conditions of a plan, `response.rs:344-365`: none are always met. -/
def checkOpt (e : Env) : Option Cond → Except CondErr Unit
  | none => .ok ()
  | some c => check e c

/-- `combine_optional`, `plan.rs:541-550`. -/
def combine {α : Type} (f : α → α → α) : Option α → Option α → Option α
  | none, none => none
  | some c, none => some c
  | none, some c => some c
  | some l, some r => some (f l r)

/-- `or_optional`, `plan.rs:553-562`. -/
def orOpt : Option Cond → Option Cond → Option Cond
  | some l, some r => some (l.orElse r)
  | _, _ => none

/-- `and_optional`, `plan.rs:565-570`. -/
def andOpt : Option Cond → Option Cond → Option Cond := combine Cond.andThen

/-- `apply_directive_conditions`, `plan.rs:518-539`. -/
def applyDirectives (c : Option Cond) (includeIf skipIf : Option String) : Option Cond :=
  let c := match includeIf with
    | some v => andOpt c (some (.incl v))
    | none => c
  match skipIf with
  | some v => andOpt c (some (.skip v))
  | none => c

/-- `conditions_for_child_selections`, `plan.rs:575-593`. -/
def childConds : Cond → Option Cond
  | .incl v => some (.incl v)
  | .skip v => some (.skip v)
  | .and l r => andOpt (childConds l) (childConds r)
  | .or l r => orOpt (childConds l) (childConds r)
  | _ => none

/-- `condition_with_guard`, `plan.rs:612-621`. -/
def withGuard (g : TypeCond) : Option Cond → Cond
  | some c => (Cond.parent g).andThen c
  | none => .parent g

/-- `condition_with_optional_guard`, `plan.rs:596-604`. -/
def withOptGuard : Option TypeCond → Option Cond → Option Cond
  | none, c => c
  | some g, c => some (withGuard g c)

/-- The derived equality of optional guards. -/
def guardEq : Option TypeCond → Option TypeCond → Bool
  | none, none => true
  | some a, some b => a.eq b
  | _, _ => false

/-- `merge_conditions`, `plan.rs:627-654`. -/
def mergeConds (lg : Option TypeCond) (l : Option Cond) (rg : Option TypeCond) (r : Option Cond) :
    Option Cond :=
  if guardEq lg rg then orOpt l r else orOpt (withOptGuard lg l) (withOptGuard rg r)

/-- `simplify_condition`, `plan.rs:769-816`, below its first three lines. -/
def simplifyExact (g : String) : Cond → Option Cond
  | .parent (.exact a) => if a = g then none else some (.parent (.exact a))
  | .parent (.oneOf s) => if s = [g] then none else some (.parent (.oneOf s))
  | .and l r =>
    match simplifyExact g l, simplifyExact g r with
    | none, none => none
    | some c, none => some c
    | none, some c => some c
    | some l, some r => some (l.andThen r)
  | .or l r => orOpt (simplifyExact g l) (simplifyExact g r)
  | c => some c

/-- `simplify_condition`, `plan.rs:769-816`. -/
def simplify (c : Cond) : Option TypeCond → Option Cond
  | some (.exact g) => simplifyExact g c
  | _ => some c

/-- `get_type_guard`, `plan.rs:1041-1058`. -/
def typeGuard : Cond → Option TypeCond
  | .parent tc => some tc
  | .and a b => combine TypeCond.intersect (typeGuard a) (typeGuard b)
  | .or a b => combine TypeCond.union (typeGuard a) (typeGuard b)
  | _ => none

end Verif.Projection
