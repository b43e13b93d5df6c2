/-!
# Schema metadata

`executor/introspection/schema.rs`: the parts of the consumer schema that the executor reads.
-/

namespace Verif

/-- `FieldNullability`, `executor/introspection/schema.rs:19-27`. -/
inductive Nullability where
  | leaf (nonNull : Bool)
  | list (nonNull : Bool) (item : Nullability)

/-- `FieldNullability::is_non_null`, `schema.rs:49-55`. -/
def Nullability.isNonNull : Nullability → Bool
  | .leaf b => b
  | .list b _ => b

/-- `FieldTypeInfo`, `schema.rs:12-15`. -/
structure FieldType where
  out : String
  nullability : Nullability

/-- The two maps of `SchemaMetadata` (`schema.rs:68-79`) that are read here. Rust hash maps are
association lists whose first entry wins. -/
structure Schema where
  typeFields : List (String × List (String × FieldType))
  possible : List (String × List String)

/-- `schema_metadata.get_type_fields(parent).and_then(|fields| fields.get(name))`,
`schema.rs:98-100` as used in `executor/operation_filter.rs:189-192`. -/
def Schema.field (S : Schema) (parent name : String) : Option FieldType :=
  (S.typeFields.lookup parent).bind (·.lookup name)

/-- `PossibleTypes::entity_satisfies_type_condition`, `schema.rs:137-145`. -/
def Schema.satisfies (S : Schema) (typeName cond : String) : Bool :=
  if typeName = cond then true
  else match S.possible.lookup cond with
    | some ts => ts.contains typeName
    | none => false

end Verif
