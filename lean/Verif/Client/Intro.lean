import Verif.Client.Model

/-!
# The definitions of introspection

`query_planner/consumer_schema/introspection_schema.graphql`, definition by definition.
-/

namespace Verif.Client

/-- `introspection_schema.graphql`. -/
def introspection : Doc :=
  [ .directive { name := "skip", desc := some "Directs the executor to skip this field or fragment when the `if` argument is true.", args := [{ name := "if", desc := some "Skipped when true.", ty := .nonNull (.named "Boolean") }], locations := ["FIELD", "FRAGMENT_SPREAD", "INLINE_FRAGMENT"] },
    .directive { name := "include", desc := some "Directs the executor to include this field or fragment only when the `if` argument is true.", args := [{ name := "if", desc := some "Included when true.", ty := .nonNull (.named "Boolean") }], locations := ["FIELD", "FRAGMENT_SPREAD", "INLINE_FRAGMENT"] },
    .directive { name := "deprecated", args := [{ name := "reason", ty := .named "String", default_ := some "\"No longer supported\"" }], locations := ["FIELD_DEFINITION", "ENUM_VALUE", "INPUT_FIELD_DEFINITION"] },
    .directive { name := "specifiedBy", args := [{ name := "url", ty := .nonNull (.named "String") }], locations := ["SCALAR"] },
    .directive { name := "oneOf", locations := ["OBJECT", "INTERFACE", "UNION"] },
    .type (.scalar { name := "Boolean", desc := some "The `Boolean` scalar type represents `true` or `false` values." }),
    .type (.scalar { name := "Float", desc := some "The `Float` scalar type represents signed double-precision fractional values as specified by [IEEE 754](https://en.wikipedia.org/wiki/IEEE_floating_point). Float can represent values between -(2^53 - 1) and 2^53 - 1, inclusive." }),
    .type (.scalar { name := "Int", desc := some "The `Int` scalar type represents non-fractional signed whole numeric values. Int can represent values between -(2^31) and 2^31 - 1." }),
    .type (.scalar { name := "ID", desc := some "The `ID` scalar type represents a unique identifier, often used to refetch an object or as key for a cache. The ID type appears in a JSON response as a String; however, it is not intended to be human-readable. When expected as an input type, any string (such as `\"4\"`) or integer (such as `4`) input value will be accepted as an ID." }),
    .type (.scalar { name := "String", desc := some "The `String` scalar type represents textual data, represented as UTF-8 character sequences. The String type is most often used by GraphQL to represent free-form human-readable text." }),
    .type (.object { name := "Query", fields := [
      { name := "__schema", ty := .nonNull (.named "__Schema") },
      { name := "__type", args := [{ name := "name", ty := .nonNull (.named "String") }], ty := .named "__Type" }] }),
    .type (.object { name := "__Schema", fields := [
      { name := "description", ty := .named "String" },
      { name := "types", ty := .nonNull (.list (.nonNull (.named "__Type"))) },
      { name := "queryType", ty := .nonNull (.named "__Type") },
      { name := "mutationType", ty := .named "__Type" },
      { name := "subscriptionType", ty := .named "__Type" },
      { name := "directives", ty := .nonNull (.list (.nonNull (.named "__Directive"))) }] }),
    .type (.object { name := "__Type", fields := [
      { name := "kind", ty := .nonNull (.named "__TypeKind") },
      { name := "name", ty := .named "String" },
      { name := "description", ty := .named "String" },
      { name := "specifiedByURL", ty := .named "String" },
      { name := "fields", args := [{ name := "includeDeprecated", ty := .named "Boolean", default_ := some "false" }], ty := .list (.nonNull (.named "__Field")) },
      { name := "interfaces", ty := .list (.nonNull (.named "__Type")) },
      { name := "possibleTypes", ty := .list (.nonNull (.named "__Type")) },
      { name := "enumValues", args := [{ name := "includeDeprecated", ty := .named "Boolean", default_ := some "false" }], ty := .list (.nonNull (.named "__EnumValue")) },
      { name := "inputFields", args := [{ name := "includeDeprecated", ty := .named "Boolean", default_ := some "false" }], ty := .list (.nonNull (.named "__InputValue")) },
      { name := "ofType", ty := .named "__Type" },
      { name := "isOneOf", ty := .named "Boolean" }] }),
    .type (.object { name := "__Field", fields := [
      { name := "name", ty := .nonNull (.named "String") },
      { name := "description", ty := .named "String" },
      { name := "args", args := [{ name := "includeDeprecated", ty := .named "Boolean", default_ := some "false" }], ty := .nonNull (.list (.nonNull (.named "__InputValue"))) },
      { name := "type", ty := .nonNull (.named "__Type") },
      { name := "isDeprecated", ty := .nonNull (.named "Boolean") },
      { name := "deprecationReason", ty := .named "String" }] }),
    .type (.object { name := "__InputValue", fields := [
      { name := "name", ty := .nonNull (.named "String") },
      { name := "description", ty := .named "String" },
      { name := "type", ty := .nonNull (.named "__Type") },
      { name := "defaultValue", ty := .named "String" },
      { name := "isDeprecated", ty := .nonNull (.named "Boolean") },
      { name := "deprecationReason", ty := .named "String" }] }),
    .type (.object { name := "__EnumValue", fields := [
      { name := "name", ty := .nonNull (.named "String") },
      { name := "description", ty := .named "String" },
      { name := "isDeprecated", ty := .nonNull (.named "Boolean") },
      { name := "deprecationReason", ty := .named "String" }] }),
    .type (.enum { name := "__TypeKind", values := [
      { name := "SCALAR" },
      { name := "OBJECT" },
      { name := "INTERFACE" },
      { name := "UNION" },
      { name := "ENUM" },
      { name := "INPUT_OBJECT" },
      { name := "LIST" },
      { name := "NON_NULL" }] }),
    .type (.object { name := "__Directive", fields := [
      { name := "name", ty := .nonNull (.named "String") },
      { name := "description", ty := .named "String" },
      { name := "locations", ty := .nonNull (.list (.nonNull (.named "__DirectiveLocation"))) },
      { name := "args", args := [{ name := "includeDeprecated", ty := .named "Boolean", default_ := some "false" }], ty := .nonNull (.list (.nonNull (.named "__InputValue"))) },
      { name := "isRepeatable", ty := .nonNull (.named "Boolean") }] }),
    .type (.enum { name := "__DirectiveLocation", values := [
      { name := "QUERY" },
      { name := "MUTATION" },
      { name := "SUBSCRIPTION" },
      { name := "FIELD" },
      { name := "FRAGMENT_DEFINITION" },
      { name := "FRAGMENT_SPREAD" },
      { name := "INLINE_FRAGMENT" },
      { name := "SCHEMA" },
      { name := "SCALAR" },
      { name := "OBJECT" },
      { name := "FIELD_DEFINITION" },
      { name := "ARGUMENT_DEFINITION" },
      { name := "INTERFACE" },
      { name := "UNION" },
      { name := "ENUM" },
      { name := "ENUM_VALUE" },
      { name := "INPUT_OBJECT" },
      { name := "INPUT_FIELD_DEFINITION" }] }) ]

end Verif.Client
