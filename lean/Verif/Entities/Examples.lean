import Verif.Entities.FetchProps

/-!
# Entity fetches: cases that meet the hypotheses, and what they are needed for
-/

namespace Verif.Entities

open Verif.Json
open Verif.Projection

namespace Ex

def S : Schema := ⟨[], [("Item", ["Item", "Book"])]⟩

/-- `... on Book { __typename id }` -/
def sels : List Sel :=
  [.frag { cond := "Book" } [.field { name := "__typename" } [], .field { name := "id" } []]]

def book (n : Nat) : Value := .obj [("__typename", .str "Book"), ("id", .u64 n)]

/-- Three places with two entities, and a `null`. -/
def data : Value := .obj [("items", .arr [book 1, .null, book 2, book 1])]

def path : List Seg := [.field "items"]

def hash : Value → Nat
  | .obj [_, (_, .u64 n)] => n
  | _ => 0

def ryu : Nat → List Char := fun _ => ['0']

def raw : String → Json := fun _ => .null

theorem ryu_ok : ∀ n, finite n = true → IsNumber (ryu n) := fun _ _ =>
  ⟨[], ['0'], [], [], rfl, Or.inl rfl, ⟨by decide, by decide⟩, Or.inl rfl, Or.inl rfl, Or.inl rfl⟩

theorem tidy : Tidy S sels := by
  simp only [sels, Tidy]
  refine ⟨⟨?_, trivial, Or.inl rfl, ?_, trivial, Or.inr (by simp [mayBares]), trivial⟩, by simp, trivial⟩ <;>
    (unfold Plain; decide)

theorem book_wf (n : Nat) : (book n).WF :=
  .obj (by unfold SortedKeys; simp) (by simp; exact ⟨.str _, .u64 _⟩)

theorem book_raw (n : Nat) : RawOk raw (book n) :=
  .obj _ (by simp; exact ⟨.str _, .u64 _⟩)

theorem data_wf : data.WF := by
  refine .obj (by unfold SortedKeys; simp) ?_
  simp only [List.mem_singleton, forall_eq]
  refine .arr ?_
  simp only [List.mem_cons, List.not_mem_nil, or_false]
  rintro v (rfl | rfl | rfl | rfl) <;> first | exact book_wf _ | exact .null

theorem targets_eq : targets S path data =
    [([.key "items", .idx 0], book 1), ([.key "items", .idx 1], .null),
      ([.key "items", .idx 2], book 2), ([.key "items", .idx 3], book 1)] := by
  simp [targets, path, data, fieldT, lookup, endT, itemsT, pre]

theorem reached {pos : Pos} {t : Value} (h : Reached S [path] data pos t) (hn : t ≠ .null) :
    ∃ n, t = book n := by
  obtain ⟨p, hp, hr⟩ := h
  rw [List.mem_singleton] at hp
  subst hp
  rw [← mem_targets S path data data_wf, targets_eq] at hr
  simp only [List.mem_cons, Prod.mk.injEq, List.not_mem_nil, or_false] at hr
  rcases hr with ⟨_, rfl⟩ | ⟨_, rfl⟩ | ⟨_, rfl⟩ | ⟨_, rfl⟩ <;> first | exact ⟨_, rfl⟩ | exact absurd rfl hn

theorem sound : Sound raw S [path] data id hash (repOf ryu raw S sels id) where
  data_wf := data_wf
  target_wf := fun pos t h hn => by obtain ⟨n, rfl⟩ := reached h hn; exact book_wf n
  target_raw := fun pos t h hn => by obtain ⟨n, rfl⟩ := reached h hn; exact book_raw n
  clash := fun p q t u ht hu hn hn' he => by
    obtain ⟨n, rfl⟩ := reached ht hn
    obtain ⟨m, rfl⟩ := reached hu hn'
    have : n = m := he
    rw [this]

theorem book_rep (n : Nat) : rep ryu raw S sels (book n) =
    some (.obj [("__typename".toList, .str "Book".toList), ("id".toList, .num (decimal n))]) := by
  simp (decide := true) [rep, repValue, repObject, sels, book, typeOf, lookup, touched, members, Applies,
    S, Schema.satisfies, repField, found, FieldInfo.key, toJson, onlyTypename, bareOr]

/-- The fetch is made, so `C24_results` and `C27_errors` are about it. -/
example : ∃ v, prepareFlatten S hash id (send ryu S sels) path data = some v := by
  cases h : prepareFlatten S hash id (send ryu S sels) path data with
  | some v => exact ⟨v, rfl⟩
  | none =>
    have hr : Reaches S path data [.key "items", .idx 0] (book 1) := by
      rw [← mem_targets S path data data_wf, targets_eq]; simp
    have := C24_nothing_sent ryu raw S sels id hash ryu_ok tidy path data sound h _ _ hr
    rw [repOf_of_ne (by simp [book])] at this
    rw [id, book_rep] at this
    cases this

/-- What `C24_results` says here: the first and last target get the entity of the same place. -/
example (v : Visit) (h : prepareFlatten S hash id (send ryu S sels) path data = some v)
    (e1 e2 : Value) : ∃ i j : Nat, ∀ sub aff, let out := (finishFlatten S sub aff path v
      (.obj [("_entities", .arr [e1, e2])]) none data).1
    get out [.key "items", .idx 0] = some (result (some i) [e1, e2] (book 1)) ∧
    get out [.key "items", .idx 1] = some .null ∧
    get out [.key "items", .idx 2] = some (result (some j) [e1, e2] (book 2)) ∧ i ≠ j := by
  obtain ⟨reps, slot, _, _, hs, hf⟩ := C24_results ryu raw S sels id hash ryu_ok tidy path data sound v h
  have r0 : Reaches S path data [.key "items", .idx 0] (book 1) := by
    rw [← mem_targets S path data data_wf, targets_eq]; simp
  have r1 : Reaches S path data [.key "items", .idx 1] .null := by
    rw [← mem_targets S path data data_wf, targets_eq]; simp
  have r2 : Reaches S path data [.key "items", .idx 2] (book 2) := by
    rw [← mem_targets S path data data_wf, targets_eq]; simp
  obtain ⟨i, h1, h2⟩ := hs.sent _ _ _ ⟨path, by simp, r0⟩ (book_rep 1)
  obtain ⟨j, h3, h4⟩ := hs.sent _ _ _ ⟨path, by simp, r2⟩ (book_rep 2)
  refine ⟨i, j, fun sub aff => ?_⟩
  have := (hf data data_wf (fun _ => Iff.rfl) sub aff [("_entities", .arr [e1, e2])] [e1, e2] none
    (by unfold SortedKeys; simp) (by simp [lookup])).1
  refine ⟨by rw [← h1]; exact this _ _ r0, ?_, by rw [← h3]; exact this _ _ r2, ?_⟩
  · have h0 := this _ _ r1
    rw [hs.none_sent _ _ ⟨path, by simp, r1⟩ rfl] at h0
    exact h0
  · rintro rfl
    rw [h2] at h4
    simp [decimal] at h4

end Ex

/-! ## Limits -/

/-- C42 needs the selection to be tidy. With `... on Product { __typename id } ... on Book { __typename }`
both applying to a book, what is sent is `{"__typename":"Book","id":"1"{"__typename":"Book"}`. -/
theorem C42_malformed (ryu : Nat → List Char) (S : Schema)
    (hS : S.satisfies "Book" "Product" = true) :
    send ryu S [.frag { cond := "Product" } [.field { name := "__typename" } [], .field { name := "id" } []],
        .frag { cond := "Book" } [.field { name := "__typename" } []]]
      (.obj [("__typename", .str "Book"), ("id", .str "1")]) [] true =
    (['{'] ++ typenameText "Book" ++ [',', '"'] ++ "id".toList ++ ['"', ':'] ++ quoted "1" ++ ['{'] ++
      typenameText "Book" ++ ['}'], true) := by
  have hs : SortedKeys [("__typename", Value.str "Book"), ("id", .str "1")] := by
    unfold SortedKeys; simp
  have ht : typeOf [("__typename", Value.str "Book"), ("id", .str "1")] = some "Book" := by
    simp [typeOf, lookup]
  have hf : found [("__typename", Value.str "Book"), ("id", .str "1")] { name := "id" } =
      some (.str "1") := by simp [found, lookup]
  have e1 : onlyTypename [.field { name := "__typename" } [], .field { name := "id" } []] = false := rfl
  have e2 : onlyTypename [.field { name := "__typename" } []] = true := by simp [onlyTypename, FieldInfo.key]
  have e3 : ∀ c, fragApplies S [("__typename", Value.str "Book"), ("id", .str "1")] c =
      (S.satisfies "Book" c || S.satisfies c "Book") := by
    intro c; rw [fragApplies_eq]; unfold Applies; rw [ht]
  have e4 : ∀ b first key pf send, sendField [("__typename", Value.str "Book"), ("id", .str "1")]
      { name := "__typename" } send b first key pf = (b, first) := by
    intros; rfl
  have e5 : ∀ b key pf send, sendField [("__typename", Value.str "Book"), ("id", .str "1")]
      { name := "id" } send b true key pf =
      (let r := send (.str "1") (b ++ startText pf key ++ ['{'] ++ typenameText "Book") false (some "id")
       if r.2 then (r.1, false) else (r.1, false)) := by
    intro b key pf send
    unfold sendField
    rw [if_neg (by simp [FieldInfo.key]), requiredValue_eq hs, hf, typenameOf_eq hs, ht]
    simp [FieldInfo.key]
  have e6 : ∀ b, bareStart [.field { name := "__typename" } []]
      [("__typename", Value.str "Book"), ("id", .str "1")] b true none =
      some (b ++ ['{'] ++ typenameText "Book") := by
    intro b
    unfold bareStart
    rw [if_pos e2, typenameOf_eq hs, ht]
    simp [startText]
  have e7 : sendFields ryu S [.frag { cond := "Product" } [.field { name := "__typename" } [], .field { name := "id" } []],
        .frag { cond := "Book" } [.field { name := "__typename" } []]]
      [("__typename", .str "Book"), ("id", .str "1")] [] true none true =
      (['{'] ++ typenameText "Book" ++ [',', '"'] ++ "id".toList ++ ['"', ':'] ++ quoted "1" ++ ['{'] ++
      typenameText "Book", false) := by
    rw [sendFields, e3, hS, Bool.true_or, if_pos rfl]
    rw [bareStart, e1, if_neg (by simp), bareOr, sendFields, e4]
    simp only []
    rw [sendFields, e5, sendValue]
    simp only []
    rw [if_pos trivial, sendFields, sendFields, e3, satisfies_self, Bool.true_or, if_pos rfl]
    simp only []
    rw [e6, bareOr, sendFields, serialize]
    simp only [startText]
    generalize typenameText "Book" = t
    generalize quoted "1" = q
    simp
  have e8 : bareStart [.frag { cond := "Product" } [.field { name := "__typename" } [], .field { name := "id" } []],
        .frag { cond := "Book" } [.field { name := "__typename" } []]]
      [("__typename", .str "Book"), ("id", .str "1")] [] true none = none := rfl
  rw [send, sendValue, sendObject, List.isEmpty_cons, if_neg (by simp), List.isEmpty_cons,
    if_neg (by simp), e7, e8]
  rfl

/-- C24 needs the path to lead to the same positions when the entities arrive: if an item that was
`null` became an object in the meantime, it gets the entity of the next one. -/
theorem C24_shifted (S : Schema) (send : Value → Buf → Bool → Buf × Bool)
    (hsend : ∀ v b first, (send v b first).2 = true) (x y e : Value) :
    let v := visitPath S (fun _ => 0) id send [.list, .cond ["T"]]
      (.arr [.null, .obj [("id", y)]]) .start
    (placeAll S v.hashes v.sent.table [e] [.list, .cond ["T"]]
      (.arr [.obj [("id", x)], .obj [("id", y)]]) none).1 =
        .arr [deepMerge (.obj [("id", x)]) e, .obj [("id", y)]] := by
  have hc : ∀ z : Value, condOk S ["T"] [("id", z)] = true := by
    intro z
    have hs : SortedKeys [("id", z)] := by unfold SortedKeys; simp
    unfold condOk typenameOf
    rw [getKey_eq_lookup hs]
    simp [lookup]
  simp [visitPath, walk, walkList, walkItems, walkCond, hc, walkEnd, visit, Sent.start, hsend, placeAll,
    edit, editList, editItems, editCond, editEnd, place, extend]

/-- C27 does not hold if the subgraph fails altogether: without entities in the response, an error
about an entity reaches the client with a path into `_entities`, which is not in its response. -/
theorem C27_path_leaks (S : Schema) (path : List Seg) (v : Visit) (data : Value)
    (subgraph affected : String) (e : GErr) (i : Nat) (rest : Pos)
    (h : AboutEntity "_entities" e i rest) :
    ∃ e', (finishFlatten S subgraph affected path v (.obj [("_entities", .null)]) (some [e]) data).2 =
      [e'] ∧ e'.path = some (.key "_entities" :: .idx i :: rest) := by
  obtain ⟨_, out, h1, h2⟩ := C27_no_entities S path v data subgraph affected
    (.obj [("_entities", .null)]) (by
      intro fs hfs
      cases hfs
      exact ⟨by unfold SortedKeys; simp, by simp [lookup]⟩) [e]
  exact ⟨out e, h1, (h2 e).2.trans h⟩

end Verif.Entities
