import Verif.Client.ResolveProps

/-!
# C101: the root type of an operation
-/

namespace Verif.Client

/-- The usual name of a root type. -/
def OpKind.usual : OpKind → String
  | .query => "Query"
  | .mutation => "Mutation"
  | .subscription => "Subscription"

/-- The name that a schema definition gives to a root type. -/
def OpKind.pick : OpKind → SchemaDef → Option String
  | .query => (·.query)
  | .mutation => (·.mutation)
  | .subscription => (·.subscription)

/-- **C101**, for the type name of an operation, unless the schema definition does not name a root type but
there is an object of its usual name. -/
theorem C101_root_partial {d : Doc} (hs : Sound d) (kind : OpKind) (hu : ¬ Unnamed d kind.usual kind.pick)
    (n : String) : rootName d kind = some n ↔ RootIs d kind.usual kind.pick n := by
  cases kind <;> exact rootLoop_iff hs.one hu n

/-- The query type of `shop` is `Query`, and it has no subscription type. -/
example : RootIs shop "Query" (·.query) "Query" ∧ ∀ n, ¬ RootIs shop "Subscription" (·.subscription) n := by
  constructor
  · refine (C101_root_partial shop_sound .query ?_ "Query").1 (by decide +kernel)
    rintro ⟨⟨s, hs, hn⟩, -⟩
    have := List.mem_singleton.1 (show s ∈ [{ query := some "Query" }] from mem_schemasOf.2 hs)
    subst this
    cases hn
  · intro n h
    have := (C101_root_partial shop_sound .subscription ?_ n).2 h
    · cases (show none = some n from this)
    · rintro ⟨-, o, ho, hn⟩
      have : ∀ t ∈ typesOf shop, t.name ≠ "Subscription" := by decide +kernel
      exact this _ (mem_typesOf.2 ho) hn

end Verif.Client
