import Verif.Builder.Answer

/-!
# The plan of the response is the operation's
-/

namespace Verif.Builder

open Verif.Projection Verif.Json
open Verif.Normalize (Item)

variable {S : Meta}

theorem operation_level (hS : MetaOk S) {root : String} {s : List Item} (hop : OperationOk S root s) :
    (∀ p ∈ fromSelectionSet S (depth s) root none s, Stat S (depth s) p) ∧
    (fromSelectionSet S (depth s) root none s).Pairwise Apart ∧
    (∀ p ∈ fromSelectionSet S (depth s) root none s, Good S root (Obj S root) p) ∧
    ∀ V path, path ≠ [] → Fits S (Obj S root) path →
      (Shows V (fromSelectionSet S (depth s) root none s) path ↔ Asks S V s path) := by
  have hpc : PcOk S root (Obj S root) none := PcOk.none root _
  have hv := addItems_stat hS (k := depth s) s (m := []) hpc (Nat.le_refl _) (Nat.le_refl _)
    (VarOk.nil _)
  have hb := addItems_ok hS (k := depth s) s (m := []) hpc (fun _ h => h) hop.items (Nat.le_refl _)
    (Nat.le_refl _) (VarOk.nil _) (by simp [flat]) (by
      refine (unambiguous_congr ?_).2 hop.unambiguous
      intro path hne hf
      have : ¬ Shows .free (flat []) path := shows_empty hne
      simp [this])
  obtain ⟨h1, h2⟩ := resolve_ok hS (keeps hS (Nat.le_refl (depth s)) root) (P := root) hv
  obtain ⟨l1, l2⟩ := level hS (Nat.le_refl _) hpc (fun _ h => h) hv hb hop.unambiguous
  refine ⟨h1, h2, l1, ?_⟩
  intro V path hne hf
  rw [l2 V path hne hf]
  exact ⟨fun h => h.2, fun h => ⟨trivial, h⟩⟩

/-- **C51.** The plan made of an operation shows a path, for whatever variables, exactly if the
operation asks for it. -/
theorem C51_selected_partial (hS : MetaOk S) {root : String} {s : List Item}
    (hop : OperationOk S root s) (V : Val) {path : List Step} (hne : path ≠ [])
    (hf : Fits S (Obj S root) path) :
    Shows V (fromOperation S root s) path ↔ Asks S V s path := by
  obtain ⟨h1, h2, h3, h4⟩ := operation_level hS hop
  rw [← h4 V path hne hf]
  exact tidyAll_shows hS (depth s) h1 h3 (by intro l h; cases h) V path hf

/-- **C51.** For data that is as the schema says, the response has the fields the operation asks for
with the variables of the request, and no others, each once, at every level. -/
theorem C51_response_partial (ryu : Nat → List Char) (raw : String → Json) (hS : MetaOk S)
    {root : String} (hroot : root ∈ S.objects) {s : List Item} (hop : OperationOk S root s)
    (σ : String → Bool) {fs : Fields} (hfs : Conforms S (Asks S .free s) root fs)
    {ms : List (List Char × Json)}
    (hms : completeFields ryu raw S.toSchema σ (fromOperation S root s) fs (.ok root) =
      .ok (some ms)) :
    Answers S (Asks S (.of σ) s) root fs ms := by
  obtain ⟨h1, h2, h3, h4⟩ := operation_level hS hop
  have hr : Obj S root root := ⟨hroot, Or.inl rfl⟩
  have hat := tidy_at hS (depth s) h1 h2 h3 (poss := none) (by intro l h; cases h) root hr
  have hw : ∀ path, Fits S (· = root) path → Fits S (Obj S root) path :=
    fun path hf => fits_mono (fun T hT => by rw [hT]; exact hr) hf
  exact answers hS hat
    (fun path hne hf => C51_selected_partial hS hop (.of σ) hne (hw path hf))
    (fun path hne hf => C51_selected_partial hS hop .free hne (hw path hf)) hfs hms

/-! ## A schema and operations -/

/-- `interface Node { id: ID! }`, `User` and `Post` implement it. -/
def demo : Meta where
  typeFields := [("Query", [("node", ⟨"Node", .leaf false⟩)]), ("Node", [("id", ⟨"ID", .leaf true⟩)]),
    ("User", [("id", ⟨"ID", .leaf true⟩), ("name", ⟨"String", .leaf true⟩)]),
    ("Post", [("id", ⟨"ID", .leaf true⟩)])]
  possible := [("Node", ["User", "Post"])]
  enums := []
  objects := ["Query", "User", "Post"]
  scalars := ["ID", "String"]
  unions := []
  interfaces := ["Node"]
  query := some "Query"
  mutation := none
  subscription := none

def leafItem (n : String) : Item := .field none n [] none none false []

/-- `{ me: node { id ... on User @include(if: $a) { name } ... on User { id } } }` -/
def demoOp : List Item := [.field (some "me") "node" [] none none false [leafItem "id",
  .frag "User" none (some "a") [leafItem "name"], .frag "User" none none [leafItem "id"]]]

/-- `{ node { ... on Node @include(if: $a) { id ... on User { name } } } }` -/
def nestedOp : List Item := [.field none "node" [] none none false
  [.frag "Node" none (some "a") [leafItem "id", .frag "User" none none [leafItem "name"]]]]

/-- `{ node { ... on User { name @skip(if: true) } } }` after normalization. -/
def emptiedOp : List Item := [.field none "node" [] none none false [.frag "User" none none []]]

/-- The text of the response. -/
def textOf (S : Meta) (s : List Item) (data : Value) : Option (List Char) :=
  match projectByOperation (fun _ => []) S.toSchema (fun v => v == "a") data (fun _ => none) none
    "Query" (fromOperation S "Query" s) with
  | .ok b => some b
  | .error _ => none

def postData : Value := .obj [("node", .obj [("__typename", .str "Post"), ("id", .str "1")])]
def userData : Value :=
  .obj [("node", .obj [("__typename", .str "User"), ("id", .str "1"), ("name", .str "x")])]

/-- The fragment on `User` is within one on `Node`, and its guard is lost: a post is asked for a name,
has none, and is dropped. (Without the outer fragment it is shown.) -/
theorem C51_nested_fragment : textOf demo nestedOp postData = some "{\"data\":{\"node\":null}}".toList ∧
    textOf demo [.field none "node" [] none none false
      [leafItem "id", .frag "User" none none [leafItem "name"]]] postData =
        some "{\"data\":{\"node\":{\"id\":\"1\"}}}".toList := by
  decide +kernel

/-- A selection set with nothing left in it shows the whole object. -/
theorem C51_emptied_fragment : textOf demo emptiedOp userData =
    some "{\"data\":{\"node\":{\"__typename\":\"User\",\"id\":\"1\",\"name\":\"x\"}}}".toList := by
  decide +kernel

/-- `union Thing = A | B`; both implement `interface Owned { owner: Node }`, `A` with `owner: User`, `B`
with `owner: Post`. -/
def narrowed : Meta where
  typeFields := [("Query", [("thing", ⟨"Thing", .leaf false⟩)]), ("Node", [("id", ⟨"ID", .leaf true⟩)]),
    ("User", [("id", ⟨"ID", .leaf true⟩)]), ("Post", [("id", ⟨"ID", .leaf true⟩)]),
    ("Owned", [("owner", ⟨"Node", .leaf false⟩)]), ("A", [("owner", ⟨"User", .leaf false⟩)]),
    ("B", [("owner", ⟨"Post", .leaf false⟩)])]
  possible := [("Node", ["User", "Post"]), ("Thing", ["A", "B"]), ("Owned", ["A", "B"])]
  enums := []
  objects := ["Query", "User", "Post", "A", "B"]
  scalars := ["ID"]
  unions := ["Thing"]
  interfaces := ["Node", "Owned"]
  query := some "Query"
  mutation := none
  subscription := none

/-- `{ thing { ... on Owned { owner @include(if: $a) { id } owner { ... on User { id } } } } }` -/
def narrowedOp : List Item := [.field none "thing" [] none none false [.frag "Owned" none none
  [.field none "owner" [] none (some "a") false [leafItem "id"],
   .field none "owner" [] none none false [.frag "User" none none [leafItem "id"]]]]]

/-- Where an object type narrows the field of its interface, fields can get lost: the owner of a `B`
is a post, and its `id` is not in the response. (It is if the hash set of the guard happens to come
in another order.) -/
theorem C51_narrowed_field : textOf narrowed narrowedOp (.obj [("thing", .obj [("__typename", .str "B"),
    ("owner", .obj [("__typename", .str "Post"), ("id", .str "1")])])]) =
      some "{\"data\":{\"thing\":{\"owner\":{}}}}".toList := by
  decide +kernel

/-! ## The hypotheses can be met -/

theorem lookup_mem {β : Type} {k : String} {v : β} : ∀ {l : List (String × β)},
    l.lookup k = some v → (k, v) ∈ l
  | (a, b) :: l, h => by
    rw [List.lookup_cons] at h
    by_cases he : k = a
    · subst he; simp at h; simp [h]
    · have : (k == a) = false := by simp [he]
      rw [this] at h
      exact List.mem_cons_of_mem _ (lookup_mem h)

theorem demo_ofType (T C : String) :
    OfType demo T C ↔ T = C ∨ (C = "Node" ∧ (T = "User" ∨ T = "Post")) := by
  constructor
  · rintro (h | ⟨l, h1, h2⟩)
    · exact Or.inl h
    · have := lookup_mem h1
      simp only [demo, List.mem_singleton, Prod.mk.injEq] at this
      obtain ⟨rfl, rfl⟩ := this
      right; simpa using h2
  · rintro (h | ⟨rfl, h⟩)
    · exact Or.inl h
    · exact Or.inr ⟨["User", "Post"], by decide, by simpa using h⟩

theorem demo_obj (P T : String) : Obj demo P T ↔ (T = "Query" ∨ T = "User" ∨ T = "Post") ∧
    (T = P ∨ (P = "Node" ∧ (T = "User" ∨ T = "Post"))) := by
  unfold Obj
  rw [demo_ofType]
  simp [demo]

theorem demo_ok : MetaOk demo where
  sets C l h := by
    have := lookup_mem h
    simp only [demo, List.mem_singleton, Prod.mk.injEq] at this
    rw [this.2]; decide
  object C h := by
    simp only [demo, List.mem_cons, List.not_mem_nil, or_false] at h
    rcases h with rfl | rfl | rfl <;> decide
  scalar C h := by
    simp only [demo, List.mem_cons, List.not_mem_nil, or_false] at h
    rcases h with rfl | rfl <;> decide
  string := by decide
  trans A B C h1 h2 := by
    rw [demo_ofType] at h1 h2 ⊢
    rcases h1 with rfl | ⟨rfl, h1⟩
    · exact h2
    · rcases h2 with rfl | ⟨rfl, h2⟩
      · exact Or.inr ⟨rfl, h1⟩
      · exact absurd h2 (by decide)
  fields Q T n ft h1 h2 := by
    rw [demo_ofType] at h1
    rcases h1 with rfl | ⟨rfl, h1⟩
    · exact ⟨ft, h2, rfl⟩
    · have h3 : demo.field "Node" n = [("id", (⟨"ID", .leaf true⟩ : FieldType))].lookup n := rfl
      rw [h3] at h2
      have := lookup_mem h2
      simp only [List.mem_singleton, Prod.mk.injEq] at this
      obtain ⟨rfl, rfl⟩ := this
      rcases h1 with rfl | rfl
      · exact ⟨⟨"ID", .leaf true⟩, rfl, rfl⟩
      · exact ⟨⟨"ID", .leaf true⟩, rfl, rfl⟩

mutual
/-- A response key stands for one field throughout. -/
def Keyed (f : String → String) : Item → Prop
  | .field a n _ _ _ _ sub => n = f (a.getD n) ∧ KeyedAll f sub
  | .frag _ _ _ sub => KeyedAll f sub
  | .spread _ => True
def KeyedAll (f : String → String) : List Item → Prop
  | [] => True
  | x :: r => Keyed f x ∧ KeyedAll f r
end

theorem keyed_mem {f : String → String} : ∀ {s : List Item}, KeyedAll f s → ∀ x ∈ s, Keyed f x
  | y :: s, h, x, hx => by
    rcases List.mem_cons.1 hx with rfl | hx
    · exact h.1
    · exact keyed_mem h.2 x hx

theorem keyed_collects {f : String → String} {V : Val} {T : String} {s : List Item} {k n : String}
    {sub : List Item} (hc : Collects S V T s k n sub) (h : KeyedAll f s) : n = f k ∧ KeyedAll f sub := by
  induction hc with
  | field hm _ => exact keyed_mem h _ hm
  | frag hm _ _ _ ih => exact ih (keyed_mem h _ hm)

theorem keyed_asks {f : String → String} {V : Val} : ∀ {path : List Step} {s : List Item},
    KeyedAll f s → Asks S V s path → ∀ st ∈ path, st.name = f st.key
  | st :: rest, s, h, ⟨sub, h1, h2⟩, x, hx => by
    obtain ⟨h3, h4⟩ := keyed_collects h1 h
    rcases List.mem_cons.1 hx with rfl | hx
    · exact h3
    · exact keyed_asks h4 h2 x hx

theorem unambiguous_keyed {f : String → String} {D : String → Prop} {V : Val} {s : List Item}
    (h : KeyedAll f s) : Unambiguous S D (Asks S V s) := by
  intro pre a b _ _ _ hk ha hb
  rw [keyed_asks h ha a (by simp), keyed_asks h hb b (by simp), hk]

theorem demo_scalar {t : String} (h : t = "ID" ∨ t = "String") (T : String) : ¬ Obj demo t T := by
  rw [demo_obj]
  rcases h with rfl | rfl <;> rintro ⟨rfl | rfl | rfl, h⟩ <;> revert h <;> decide

theorem demoOp_ok : OperationOk demo "Query" demoOp where
  items x hx := by
    simp only [demoOp, List.mem_singleton] at hx
    subst hx
    refine .node (ft := ⟨"Node", .leaf false⟩) (by decide) rfl ?_ ?_
    · intro y hy
      simp only [List.mem_cons, List.not_mem_nil, or_false] at hy
      rcases hy with rfl | rfl | rfl
      · exact .leaf (ft := ⟨"ID", .leaf true⟩) (by decide) rfl (demo_scalar (Or.inl rfl))
      · refine .frag ?_ (by simp)
        intro z hz
        simp only [List.mem_singleton] at hz
        subst hz
        exact .leaf (ft := ⟨"String", .leaf true⟩) (by decide) rfl (demo_scalar (Or.inr rfl))
      · refine .frag ?_ (by simp)
        intro z hz
        simp only [List.mem_singleton] at hz
        subst hz
        exact .leaf (ft := ⟨"ID", .leaf true⟩) (by decide) rfl (demo_scalar (Or.inl rfl))
    · exact ⟨"User", "id", "id", [], (demo_obj _ _).2 ⟨by simp, by simp⟩,
        .field (a := none) (s := [leafItem "id", _, _]) (List.mem_cons_self ..) (by simp [Lets])⟩
  unambiguous := unambiguous_keyed (f := fun k => if k = "me" then "node" else k)
    (by simp [demoOp, leafItem, KeyedAll, Keyed])

theorem collects_inv {V : Val} {T : String} {s : List Item} {k n : String} {sub : List Item}
    (h : Collects S V T s k n sub) :
    (∃ a args si ii, Item.field a n args si ii false sub ∈ s ∧ a.getD n = k ∧ Lets V si ii) ∨
    ∃ c si ii sub', Item.frag c si ii sub' ∈ s ∧ Lets V si ii ∧ OfType S T c ∧
      Collects S V T sub' k n sub := by
  cases h with
  | field hm hl => exact Or.inl ⟨_, _, _, _, hm, rfl, hl⟩
  | frag hm hl ho hc => exact Or.inr ⟨_, _, _, _, hm, hl, ho, hc⟩

/-- The path `me.name` of a user is shown and asked for if `$a` is true, and not if it is not. -/
example : (Shows (.of fun v => v == "a") (fromOperation demo "Query" demoOp)
      [⟨"Query", "me", "node"⟩, ⟨"User", "name", "name"⟩]) ∧
    ¬ (Shows (.of fun _ => false) (fromOperation demo "Query" demoOp)
      [⟨"Query", "me", "node"⟩, ⟨"User", "name", "name"⟩]) := by
  have hf : Fits demo (Obj demo "Query") [⟨"Query", "me", "node"⟩, ⟨"User", "name", "name"⟩] := by
    refine ⟨(demo_obj _ _).2 ⟨by simp, by simp⟩, Or.inr ⟨by decide, ⟨"Node", .leaf false⟩, rfl, ?_⟩⟩
    exact ⟨(demo_obj _ _).2 ⟨by simp, by simp⟩, Or.inl rfl⟩
  rw [C51_selected_partial demo_ok demoOp_ok _ (by simp) hf,
    C51_selected_partial demo_ok demoOp_ok _ (by simp) hf]
  constructor
  · refine ⟨_, .field (List.mem_singleton.2 rfl) (by simp [Lets]), [], ?_, trivial⟩
    exact .frag (c := "User") (si := none) (ii := some "a") (sub := [leafItem "name"])
      (by simp) (by simp [Lets, Val.of]) (Or.inl rfl)
      (.field (a := none) (List.mem_singleton.2 rfl) (by simp [Lets]))
  · rintro ⟨sub, hc, sub', hc', _⟩
    have hsub : sub = [leafItem "id", .frag "User" none (some "a") [leafItem "name"],
        .frag "User" none none [leafItem "id"]] := by
      rcases collects_inv hc with ⟨a, args, si, ii, hm, _⟩ | ⟨c, si, ii, sub2, hm, _⟩
      · simp only [demoOp, List.mem_singleton, Item.field.injEq] at hm
        exact hm.2.2.2.2.2.2
      · simp [demoOp] at hm
    subst hsub
    rcases collects_inv hc' with ⟨a, args, si, ii, hm, _⟩ | ⟨c, si, ii, sub2, hm, hl, _, hin⟩
    · simp [leafItem] at hm
    · simp only [leafItem, List.mem_cons, List.not_mem_nil, or_false, Item.frag.injEq, reduceCtorEq,
        false_or] at hm
      rcases hm with ⟨rfl, rfl, rfl, rfl⟩ | ⟨rfl, rfl, rfl, rfl⟩
      · have := hl.1 "a" rfl
        simp [Val.of] at this
      · rcases collects_inv hin with ⟨a, args, si, ii, hm, _⟩ | ⟨c, si, ii, sub2, hm, _⟩
        · simp at hm
        · simp at hm

def demoUser : Fields := [("__typename", .str "User"), ("id", .str "1"), ("name", .str "x")]

theorem demo_conforms : Conforms demo (Asks demo .free demoOp) "Query" [("me", .obj demoUser)] := by
  have htop : ∀ k n rest, Asks demo .free demoOp (⟨"Query", k, n⟩ :: rest) → k = "me" ∧ n = "node" := by
    rintro k n rest ⟨sub, hc, _⟩
    rcases collects_inv hc with ⟨a, args, si, ii, hm, hk, _⟩ | ⟨c, si, ii, sub2, hm, _⟩
    · simp only [demoOp, List.mem_singleton, Item.field.injEq] at hm
      obtain ⟨rfl, rfl, _⟩ := hm
      exact ⟨hk.symm, rfl⟩
    · simp [demoOp] at hm
  have hget : getKey [("me", Value.obj demoUser)] "me" = some (.obj demoUser) := by
    rw [getKey_eq_lookup (by unfold SortedKeys; simp)]; simp [lookup]
  have hin : ∀ fs', Inside (.obj demoUser) fs' → fs' = demoUser := by
    intro fs' h; cases h; rfl
  have hty : typeOf "Node" demoUser = "User" := by decide +kernel
  refine .mk ?_ ?_ ?_
  · intro k n ft v ha _ hft hv
    obtain ⟨rfl, rfl⟩ := htop k n [] ha
    cases (show some (⟨"Node", .leaf false⟩ : FieldType) = some ft from hft)
    rw [hget] at hv
    cases hv
    refine ⟨by intro vals h; simp [demo] at h, ?_⟩
    intro t ht
    rw [show ownTypename (some (.obj demoUser)) = some "User" by decide +kernel] at ht
    cases ht
    exact (demo_ofType _ _).2 (by simp)
  · intro k n ft v fs' ha _ hft hv hi _
    obtain ⟨rfl, rfl⟩ := htop k n [] ha
    cases (show some (⟨"Node", .leaf false⟩ : FieldType) = some ft from hft)
    rw [hget] at hv
    cases hv
    rw [hin fs' hi, hty]
    exact (demo_obj _ _).2 ⟨by simp, by simp⟩
  · intro k n ft v fs' ha _ hft hv hi _
    obtain ⟨rfl, rfl⟩ := htop k n [] ha
    cases (show some (⟨"Node", .leaf false⟩ : FieldType) = some ft from hft)
    rw [hget] at hv
    cases hv
    rw [hin fs' hi, hty]
    have hfield : ∀ n ft, demo.field "User" n = some ft → ft.out = "ID" ∨ ft.out = "String" := by
      intro n ft h
      have := lookup_mem (l := [("id", (⟨"ID", .leaf true⟩ : FieldType)), ("name", ⟨"String", .leaf true⟩)]) h
      simp only [List.mem_cons, Prod.mk.injEq, List.not_mem_nil, or_false] at this
      rcases this with ⟨_, rfl⟩ | ⟨_, rfl⟩ <;> simp
    have hval : ∀ k v, getKey demoUser k = some v → ∃ x, v = .str x := by
      intro k v h
      simp only [getKey, Option.bind_eq_some_iff, Option.map_eq_some_iff] at h
      obtain ⟨i, _, x, hx, rfl⟩ := h
      have := List.mem_of_getElem? hx
      simp only [demoUser, List.mem_cons, List.not_mem_nil, or_false] at this
      rcases this with rfl | rfl | rfl <;> exact ⟨_, rfl⟩
    refine .mk ?_ ?_ ?_
    · intro k n ft v _ _ hft hv
      obtain ⟨x, rfl⟩ := hval k v hv
      exact ⟨by intro vals h; simp [demo] at h, by intro t h; simp [ownTypename] at h⟩
    · rintro k n ft v fs'' _ _ hft _ _ ⟨T', hT'⟩
      exact absurd hT' (demo_scalar (hfield n ft hft) T')
    · rintro k n ft v fs'' _ _ hft _ _ ⟨T', hT'⟩
      exact absurd hT' (demo_scalar (hfield n ft hft) T')

/-- The response for a user with `$a` true. -/
example : ∃ ms, completeFields (fun _ => []) (fun _ => .null) demo.toSchema (fun v => v == "a")
      (fromOperation demo "Query" demoOp) [("me", .obj demoUser)] (.ok "Query") = .ok (some ms) ∧
    Answers demo (Asks demo (.of fun v => v == "a") demoOp) "Query" [("me", .obj demoUser)] ms := by
  have h : (match completeFields (fun _ => []) (fun _ => .null) demo.toSchema (fun v => v == "a")
      (fromOperation demo "Query" demoOp) [("me", .obj demoUser)] (.ok "Query") with
    | .ok (some ms) => ms.map (·.1) == ["me".toList]
    | _ => false) = true := by decide +kernel
  split at h
  · rename_i ms hms
    exact ⟨ms, hms, C51_response_partial _ _ demo_ok (by decide) demoOp_ok _ demo_conforms hms⟩
  · cases h

end Verif.Builder
