import Verif.Keys.RequestLemmas

/-!
# Keys identify what they stand for: C21, C22, C46
-/

namespace Verif.Keys

/-! ## C22: plans -/

/-- Overrides within the ranges of the Rust types. -/
structure OverridesOk (c : Overrides) : Prop where
  flags : c.flags.length < 2 ^ 64
  percentages : c.percentages.length < 2 ^ 64
  values : ∀ kv ∈ c.percentages, kv.1 < 2 ^ 64

theorem bool_inj {a b : Bool} (h : a.toNat = b.toNat) : a = b := by
  cases a <;> cases b <;> simp_all

theorem flags_prefix {a b : List (String × Bool)} (hl : a.length = b.length) {r r' : List Nat}
    (h : a.flatMap (fun kv => hashStr kv.1 ++ [kv.2.toNat]) ++ r =
      b.flatMap (fun kv => hashStr kv.1 ++ [kv.2.toNat]) ++ r') : a = b ∧ r = r' := by
  induction a generalizing b with
  | nil =>
    cases b with
    | nil => exact ⟨rfl, by simpa using h⟩
    | cons => simp at hl
  | cons x a ih =>
    cases b with
    | nil => simp at hl
    | cons y b =>
      simp only [List.flatMap_cons, List.append_assoc] at h
      obtain ⟨h1, h⟩ := hashStr_append h
      simp only [List.cons_append, List.nil_append, List.cons.injEq] at h
      obtain ⟨h3, h4⟩ := ih (by simpa using hl) h.2
      exact ⟨by rw [h3]; congr 1; exact Prod.ext h1 (bool_inj h.1), h4⟩

theorem percentages_prefix {a b : List (Nat × Bool)} (hl : a.length = b.length)
    (ha : ∀ kv ∈ a, kv.1 < 2 ^ 64) (hb : ∀ kv ∈ b, kv.1 < 2 ^ 64) {r r' : List Nat}
    (h : a.flatMap (fun kv => le8 kv.1 ++ [kv.2.toNat]) ++ r =
      b.flatMap (fun kv => le8 kv.1 ++ [kv.2.toNat]) ++ r') : a = b ∧ r = r' := by
  induction a generalizing b with
  | nil =>
    cases b with
    | nil => exact ⟨rfl, by simpa using h⟩
    | cons => simp at hl
  | cons x a ih =>
    cases b with
    | nil => simp at hl
    | cons y b =>
      simp only [List.flatMap_cons, List.append_assoc] at h
      obtain ⟨h1, h⟩ := le8_append (ha x (by simp)) (hb y (by simp)) h
      simp only [List.cons_append, List.nil_append, List.cons.injEq] at h
      obtain ⟨h3, h4⟩ := ih (by simpa using hl) (fun kv hkv => ha kv (by simp [hkv]))
        (fun kv hkv => hb kv (by simp [hkv])) h.2
      exact ⟨by rw [h3]; congr 1; exact Prod.ext h1 (bool_inj h.1), h4⟩

theorem overrides_inj {c d : Overrides} (hc : OverridesOk c) (hd : OverridesOk d)
    (h : overrideBytes c = overrideBytes d) : c = d := by
  unfold overrideBytes at h
  simp only [List.append_assoc] at h
  obtain ⟨h1, h⟩ := le8_append hc.flags hd.flags h
  obtain ⟨h2, h⟩ := flags_prefix h1 h
  obtain ⟨h3, h⟩ := le8_append hc.percentages hd.percentages h
  obtain ⟨h4, _⟩ := percentages_prefix h3 hc.values hd.values (r := []) (r' := []) (by simpa using h)
  cases c; cases d; simp_all

/-- **C22** (partial: for operations whose fragments come last, are not nested in one another and
have no conditions of their own, and whose literals are not confused with one another) A query plan
is taken from the cache only for the same operation, up to the order of variable definitions, and the
same outcome of progressive overrides, unless the hash function itself clashes. -/
theorem C22_plan_partial (xxh : List Nat → Nat) (fx : List Word → Nat) (a b : Op) (c d : Overrides)
    (hfx : ∀ x, fx x < 2 ^ 64) (hc : OverridesOk c) (hd : OverridesOk d)
    (ta : Tidy .start a.sels) (tb : Tidy .start b.sels) (hu : Unconfused a b)
    (hn : NoClash fx a b)
    (hx : xxh (le8 (opHash fx a) ++ overrideBytes c) = xxh (le8 (opHash fx b) ++ overrideBytes d) →
      le8 (opHash fx a) ++ overrideBytes c = le8 (opHash fx b) ++ overrideBytes d)
    (h : planKey xxh fx a c = planKey xxh fx b d) : SameOp a b ∧ c = d := by
  obtain ⟨h1, h2⟩ := le8_append (hfx _) (hfx _) (hx h)
  exact ⟨op_same ta tb hn hu (hn.op h1), overrides_inj hc hd h2⟩

/-- Literals that are never confused: variables and integers. -/
def Plain (op : Op) : Prop :=
  ∀ v ∈ literals op, (∃ n, v = .var n) ∨ ∃ i : Int, v = .int i ∧ -2 ^ 63 ≤ i ∧ i < 2 ^ 63

/-- **C22** Operations whose values are all passed in variables, or are integers, are not
confused. -/
theorem C22_plain_literals (a b : Op) (ha : Plain a) (hb : Plain b) : Unconfused a b := by
  intro v hv w hw h
  rcases ha v hv with ⟨n, rfl⟩ | ⟨i, rfl, h1, h2⟩ <;> rcases hb w hw with ⟨m, rfl⟩ | ⟨j, rfl, h3, h4⟩
  · simp [litWords] at h; rw [h]
  · simp [litWords] at h
  · simp [litWords] at h
  · simp [litWords, bits] at h; congr 1; omega

/-- **C22** Reordering the variable definitions does not matter. -/
theorem C22_variable_order (xxh : List Nat → Nat) (fx : List Word → Nat) (k : Option Kind) (s : List Sel)
    (vs ws : List VarDef) (c : Overrides) (h : vs.Perm ws) :
    planKey xxh fx ⟨k, s, some vs⟩ c = planKey xxh fx ⟨k, s, some ws⟩ c := by
  have : varsHash fx vs = varsHash fx ws := by
    unfold varsHash
    generalize 0 = n
    induction h generalizing n with
    | nil => rfl
    | cons x _ ih => exact ih _
    | swap x y l =>
      simp only [List.foldl_cons]
      rw [Nat.xor_assoc, Nat.xor_assoc, Nat.xor_comm (fx (varWords y))]
    | trans _ _ ih1 ih2 => rw [ih1, ih2]
  simp [planKey, opHash, opWords, varsWords, this]

/-- **C22** The caches of parsed and of normalized operations: the text and the operation name are
those of the request. -/
theorem C22_documents (q q' n n' : Option String) (h : normalizeBytes q n = normalizeBytes q' n')
    (hq : q.isSome) (hq' : q'.isSome) : q = q' ∧ n = n' := by
  obtain ⟨q, rfl⟩ := Option.isSome_iff_exists.1 hq
  obtain ⟨q', rfl⟩ := Option.isSome_iff_exists.1 hq'
  have ne : ∀ s : String, hashStr s ≠ [] := by intro s; simp [hashStr]
  cases n <;> cases n' <;> simp only [normalizeBytes, parseBytes, optBytes, List.append_assoc] at h
  · obtain ⟨_, h⟩ := le8_append (by omega) (by omega) h
    obtain ⟨h, _⟩ := hashStr_append (r := []) (r' := []) (by simpa using h)
    exact ⟨by rw [h], rfl⟩
  · obtain ⟨_, h⟩ := le8_append (by omega) (by omega) h
    obtain ⟨_, h⟩ := hashStr_append (r := []) (by simpa using h)
    exact absurd h.symm (ne _)
  · obtain ⟨_, h⟩ := le8_append (by omega) (by omega) h
    obtain ⟨_, h⟩ := hashStr_append (r' := []) (by simpa using h)
    exact absurd h (ne _)
  · obtain ⟨_, h⟩ := le8_append (by omega) (by omega) h
    obtain ⟨h, h'⟩ := hashStr_append h
    obtain ⟨h', _⟩ := hashStr_append (r := []) (r' := []) (by simpa using h')
    exact ⟨by rw [h], by rw [h']⟩

/-! ### Operations that share a key, whatever the hash functions are -/

private def fld (n : String) (s : List Sel := []) : Sel := .field { name := n } s
private def arg (n k : String) (v : Lit) : Sel := .field { name := n, alias := some (n ++ k), args := some [(k, v)] } []

/-- `{ node { ... on A { x } y } }` and `{ node { ... on A { x y } } }`: the first asks every node
for `y`, the second only those of type `A`. -/
theorem C22_fragment_scope (xxh : List Nat → Nat) (fx : List Word → Nat) (c : Overrides) :
    let a : Op := ⟨none, [fld "node" [.frag { cond := "A" } [fld "x"], fld "y"]], none⟩
    let b : Op := ⟨none, [fld "node" [.frag { cond := "A" } [fld "x", fld "y"]]], none⟩
    planKey xxh fx a c = planKey xxh fx b c ∧ a.sels ≠ b.sels := by
  refine ⟨?_, by simp [fld]⟩
  simp [planKey, opHash, opWords, selWords, fld, optWords, fieldEnd, argsWords, condWords]

/-- `{ node { ... on A { x ... on B @include(if: $v) { y } } } }` and
`{ node { ... on A @include(if: $v) { x ... on B { y } } } }`: in the second `x` is conditional too. -/
theorem C22_fragment_condition (xxh : List Nat → Nat) (fx : List Word → Nat) (c : Overrides)
    (vars : Option (List VarDef)) :
    let a : Op := ⟨none, [fld "node" [.frag { cond := "A" }
      [fld "x", .frag { cond := "B", includeIf := some "v" } [fld "y"]]]], vars⟩
    let b : Op := ⟨none, [fld "node" [.frag { cond := "A", includeIf := some "v" }
      [fld "x", .frag { cond := "B" } [fld "y"]]]], vars⟩
    planKey xxh fx a c = planKey xxh fx b c ∧ a.sels ≠ b.sels := by
  refine ⟨?_, by simp [fld]⟩
  simp [planKey, opHash, opWords, selWords, fld, optWords, fieldEnd, argsWords, condWords]

/-- `query ($id: ID!) { a: user(id: $id) b: user(id: "id") }` and
`query ($id: ID!) { a: user(id: "id") b: user(id: $id) }`. -/
theorem C22_variable_as_string (xxh : List Nat → Nat) (fx : List Word → Nat) (c : Overrides)
    (vars : Option (List VarDef)) :
    let user (k : String) (v : Lit) : Sel :=
      .field { name := "user", alias := some k, args := some [("id", v)] } []
    let a : Op := ⟨none, [user "a" (.var "id"), user "b" (.str "id")], vars⟩
    let b : Op := ⟨none, [user "a" (.str "id"), user "b" (.var "id")], vars⟩
    planKey xxh fx a c = planKey xxh fx b c ∧ a.sels ≠ b.sels := by
  refine ⟨?_, by simp⟩
  simp [planKey, opHash, opWords, selWords, fieldEnd, argsWords, argsHash, litWords]

/-- `{ find(by: {a: {b: 1}, c: 2}) }` and `{ find(by: {a: {b: 1, c: 2}}) }`. -/
theorem C22_nested_object (xxh : List Nat → Nat) (fx : List Word → Nat) (c : Overrides) :
    let a : Op := ⟨none, [.field { name := "find", args := some [("by",
      .obj [("a", .obj [("b", .int 1)]), ("c", .int 2)])] } []], none⟩
    let b : Op := ⟨none, [.field { name := "find", args := some [("by",
      .obj [("a", .obj [("b", .int 1), ("c", .int 2)])])] } []], none⟩
    planKey xxh fx a c = planKey xxh fx b c ∧ a.sels ≠ b.sels := by
  refine ⟨?_, by simp⟩
  simp [planKey, opHash, opWords, selWords, fieldEnd, argsWords, argsHash, litWords, entriesWords]

/-- `{ rename(to: null) }` and `{ rename(to: "null") }`. -/
theorem C22_null_as_string (xxh : List Nat → Nat) (fx : List Word → Nat) (c : Overrides) :
    let a : Op := ⟨none, [.field { name := "rename", args := some [("to", .null)] } []], none⟩
    let b : Op := ⟨none, [.field { name := "rename", args := some [("to", .str "null")] } []], none⟩
    planKey xxh fx a c = planKey xxh fx b c ∧ a.sels ≠ b.sels := by
  refine ⟨?_, by simp⟩
  simp [planKey, opHash, opWords, selWords, fieldEnd, argsWords, argsHash, litWords]

/-- `{ f(x: [[1], [2]]) }` and `{ f(x: [[1, 2]]) }`. -/
theorem C22_nested_list (xxh : List Nat → Nat) (fx : List Word → Nat) (c : Overrides) :
    let a : Op := ⟨none, [.field { name := "f", args := some [("x",
      .list [.list [.int 1], .list [.int 2]])] } []], none⟩
    let b : Op := ⟨none, [.field { name := "f", args := some [("x", .list [.list [.int 1, .int 2]])] } []], none⟩
    planKey xxh fx a c = planKey xxh fx b c ∧ a.sels ≠ b.sels := by
  refine ⟨?_, by simp⟩
  simp [planKey, opHash, opWords, selWords, fieldEnd, argsWords, argsHash, litWords, litsWords]

/-! ## C21: requests -/

/-- All that is fed to `xxh` for a request. -/
def streams (xxh : List Nat → Nat) (fx : List Word → Nat) (p : HeaderPolicy) (r : Request) :
    List (List Nat) :=
  [connectionBytes p r, mapBytes r.variables,
    le8 (opHash fx r.op) ++ (match r.intro with
      | none => [0]
      | some i => [1] ++ le8 (opHash fx i)),
    le8 (xxh (connectionBytes p r)) ++ (le8 (combinedHash xxh fx r.op r.intro) ++
      (le8 (xxh (mapBytes r.variables)) ++ le8 (extensionsHash xxh r.extensions)))] ++
    r.extensions.toList.map mapBytes

/-- A request within the ranges of the Rust types, with values that can be read and selected headers
that are text. -/
structure Ordinary (p : HeaderPolicy) (r : Request) : Prop where
  method : r.method < 2 ^ 64
  schema : r.schema < 2 ^ 64
  headers : r.headers.length < 2 ^ 64
  textual : Textual (selected p r.headers)
  variables : ReadableMap r.variables
  extensions : ∀ m, r.extensions = some m → ReadableMap m
  op : Tidy .start r.op.sels
  intro : ∀ i, r.intro = some i → Tidy .start i.sels

/-- Operations both absent, or the same. -/
def SameOptOp : Option Op → Option Op → Prop
  | none, none => True
  | some a, some b => SameOp a b
  | _, _ => False

/-- Requests that may share a response. -/
structure SameRequest (p : HeaderPolicy) (r s : Request) : Prop where
  method : r.method = s.method
  path : r.path = s.path
  schema : r.schema = s.schema
  headers : (selected p r.headers).Perm (selected p s.headers)
  op : SameOp r.op s.op
  intro : SameOptOp r.intro s.intro
  variables : SameMap r.variables s.variables
  extensions : SameOptMap r.extensions s.extensions

/-- No clash of either hash function on two requests. -/
structure NoClashes (xxh : List Nat → Nat) (fx : List Word → Nat) (p : HeaderPolicy) (r s : Request) :
    Prop where
  bytes : ∀ x ∈ streams xxh fx p r, ∀ y ∈ streams xxh fx p s, xxh x = xxh y → x = y
  zero : ∀ x ∈ streams xxh fx p r ++ streams xxh fx p s, xxh x ≠ 0
  op : NoClash fx r.op s.op
  intro : ∀ i j, r.intro = some i → s.intro = some j → NoClash fx i j
  unconfused : Unconfused r.op s.op
  unconfusedIntro : ∀ i j, r.intro = some i → s.intro = some j → Unconfused i j

/-- **C21** (partial: for operations as in `C22_plan_partial` and selected headers that are text)
Requests that share a fingerprint, and so a response, have the same method, path, selected headers,
schema, operation, variables and extensions, unless a hash function clashes. -/
theorem C21_same_partial (xxh : List Nat → Nat) (fx : List Word → Nat) (p : HeaderPolicy) (r s : Request)
    (hx : ∀ x, xxh x < 2 ^ 64) (hfx : ∀ x, fx x < 2 ^ 64) (hr : Ordinary p r) (hs : Ordinary p s)
    (hn : NoClashes xxh fx p r s) (h : fingerprint xxh fx p r = fingerprint xxh fx p s) :
    SameRequest p r s := by
  have h0 := hn.bytes _ (by simp [streams]) _ (by simp [streams]) h
  have hex : ∀ e, extensionsHash xxh e < 2 ^ 64 := by
    intro e; cases e
    · simp [extensionsHash]
    · exact hx _
  have hco : ∀ a i, combinedHash xxh fx a i < 2 ^ 64 := by
    intro a i; cases i <;> exact hx _
  obtain ⟨h1, h0⟩ := le8_append (hx _) (hx _) h0
  obtain ⟨h2, h0⟩ := le8_append (hco _ _) (hco _ _) h0
  obtain ⟨h3, h0⟩ := le8_append (hx _) (hx _) h0
  have h4 := le8_inj (hex _) (hex _) h0
  have hconn := hn.bytes _ (by simp [streams]) _ (by simp [streams]) h1
  rw [connection_eq, connection_eq] at hconn
  obtain ⟨c1, hconn⟩ := le8_append hr.method hs.method hconn
  obtain ⟨c2, hconn⟩ := hashStr_append hconn
  obtain ⟨c3, hconn⟩ := pairs_prefix
    (Nat.lt_of_le_of_lt (counted_length p r.headers) hr.headers)
    (Nat.lt_of_le_of_lt (counted_length p s.headers) hs.headers) hconn
  have c4 := le8_inj hr.schema hs.schema hconn
  have hvars := hn.bytes _ (by simp [streams]) _ (by simp [streams]) h3
  have hop : opHash fx r.op = opHash fx s.op ∧ SameOptOp r.intro s.intro := by
    have hb := hn.bytes (le8 (opHash fx r.op) ++ (match r.intro with
      | none => [0]
      | some i => [1] ++ le8 (opHash fx i))) (by simp only [streams, List.mem_append, List.mem_cons]; simp)
      (le8 (opHash fx s.op) ++ (match s.intro with
      | none => [0]
      | some i => [1] ++ le8 (opHash fx i))) (by simp only [streams, List.mem_append, List.mem_cons]; simp)
    cases hi : r.intro with
    | none =>
      cases hj : s.intro with
      | none =>
        rw [hi, hj] at h2 hb
        exact ⟨(le8_append (hfx _) (hfx _) (hb h2)).1, True.intro⟩
      | some j =>
        rw [hi, hj] at h2 hb
        have := (le8_append (hfx _) (hfx _) (hb h2)).2
        simp at this
    | some i =>
      cases hj : s.intro with
      | none =>
        rw [hi, hj] at h2 hb
        have := (le8_append (hfx _) (hfx _) (hb h2)).2
        simp at this
      | some j =>
        rw [hi, hj] at h2 hb
        obtain ⟨e1, e2⟩ := le8_append (hfx _) (hfx _) (hb h2)
        simp at e2
        have e3 := le8_inj (hfx _) (hfx _) e2
        have hc := hn.intro i j hi hj
        exact ⟨e1, op_same (hr.intro i hi) (hs.intro j hj) hc (hn.unconfusedIntro i j hi hj) (hc.op e3)⟩
  refine ⟨c1, c2, c4, counted_perm hr.textual hs.textual c3,
    op_same hr.op hs.op hn.op hn.unconfused (hn.op.op hop.1), hop.2,
    map_same hr.variables hs.variables hvars, ?_⟩
  cases he : r.extensions with
  | none =>
    cases hf : s.extensions with
    | none => exact True.intro
    | some n =>
      rw [he, hf] at h4
      exact absurd h4.symm (hn.zero _ (by simp [streams, hf]))
  | some m =>
    cases hf : s.extensions with
    | none =>
      rw [he, hf] at h4
      exact absurd h4 (hn.zero _ (by simp [streams, he]))
    | some n =>
      rw [he, hf] at h4
      exact map_same (hr.extensions m he) (hs.extensions n hf)
        (hn.bytes _ (by simp [streams, he]) _ (by simp [streams, hf]) h4)

/-- **C21** Headers that are not selected do not matter. -/
theorem C21_ignored (xxh : List Nat → Nat) (fx : List Word → Nat) (p : HeaderPolicy) (r : Request)
    (hs : List (String × List Nat)) (h : selected p hs = selected p r.headers) :
    fingerprint xxh fx p { r with headers := hs } = fingerprint xxh fx p r := by
  have hc : countedHeaders p hs = countedHeaders p r.headers := by
    unfold countedHeaders
    rw [counted_selected, counted_selected, h]
  simp only [fingerprint, connectionBytes, hc]

/-- **C21** The order of headers does not matter. -/
theorem C21_order (xxh : List Nat → Nat) (fx : List Word → Nat) (p : HeaderPolicy) (r : Request)
    (hs : List (String × List Nat)) (h : r.headers.Perm hs) :
    fingerprint xxh fx p { r with headers := hs } = fingerprint xxh fx p r := by
  have hc : countedHeaders p hs = countedHeaders p r.headers := by
    unfold countedHeaders
    have hp := ((h.filter fun h => p.includes h.1).filterMap fun h => (headerText h.2).map (h.1, ·))
    have trans : ∀ a b c : String × String, pairLe a b → pairLe b c → pairLe a c := by
      intro a b c h1 h2
      simp only [pairLe, Bool.or_eq_true, decide_eq_true_eq, Bool.and_eq_true, beq_iff_eq] at *
      rcases h1 with h1 | ⟨h1, h1'⟩ <;> rcases h2 with h2 | ⟨h2, h2'⟩
      · exact .inl (str_lt_trans h1 h2)
      · exact .inl (h2 ▸ h1)
      · exact .inl (h1 ▸ h2)
      · exact .inr ⟨h1.trans h2, String.le_trans h1' h2'⟩
    have total : ∀ a b : String × String, pairLe a b || pairLe b a := by
      intro a b
      simp only [pairLe, Bool.or_eq_true, decide_eq_true_eq, Bool.and_eq_true, beq_iff_eq]
      rcases str_lt_or_eq_or_gt a.1 b.1 with h | h | h
      · exact .inl (.inl h)
      · rcases String.le_total a.2 b.2 with h' | h'
        · exact .inl (.inr ⟨h, h'⟩)
        · exact .inr (.inr ⟨h.symm, h'⟩)
      · exact .inr (.inl h)
    refine List.Perm.eq_of_pairwise (le := fun a b => pairLe a b = true) ?_
      (List.pairwise_mergeSort trans total _) (List.pairwise_mergeSort trans total _)
      ((List.mergeSort_perm _ _).trans (hp.symm.trans (List.mergeSort_perm _ _).symm))
    intro a b _ _ h1 h2
    simp only [pairLe, Bool.or_eq_true, decide_eq_true_eq, Bool.and_eq_true, beq_iff_eq] at h1 h2
    rcases h1 with h1 | ⟨h1, h1'⟩
    · rcases h2 with h2 | ⟨h2, _⟩
      · exact absurd h2 (str_lt_asymm h1)
      · exact absurd h2.symm (str_lt_ne h1)
    · rcases h2 with h2 | ⟨_, h2'⟩
      · exact absurd h1.symm (str_lt_ne h2)
      · exact Prod.ext h1 (String.le_antisymm h1' h2')
  simp only [fingerprint, connectionBytes, hc]

/-- **C21** The order of variables and of extensions does not matter. -/
theorem C21_map_order (m n : List (String × Value)) (hm : (m.map (·.1)).Nodup) (h : m.Perm n) :
    mapBytes m = mapBytes n := by
  have hn : (n.map (·.1)).Nodup := (h.map (·.1)).nodup_iff.1 hm
  have hl : ∀ k, lookup k m = lookup k n := by
    have mem : ∀ {l : List (String × Value)}, (l.map (·.1)).Nodup → ∀ {k v}, (k, v) ∈ l → lookup k l = some v := by
      intro l
      induction l with
      | nil => intro _ k v h; simp at h
      | cons x l ih =>
        intro hd k v h
        obtain ⟨k2, v2⟩ := x
        simp only [List.map_cons, List.nodup_cons] at hd
        rcases List.mem_cons.1 h with h | h
        · simp at h; simp [lookup, h.1, h.2]
        · have : k2 ≠ k := fun he => hd.1 (List.mem_map.2 ⟨_, h, he.symm⟩)
          simp [lookup, this, ih hd.2 h]
    intro k
    cases hk : lookup k m with
    | some v => exact (mem hn (h.mem_iff.1 (lookup_mem hk))).symm
    | none =>
      cases hk' : lookup k n with
      | none => rfl
      | some v => rw [mem hm (h.mem_iff.2 (lookup_mem hk'))] at hk; simp at hk
  have hk : (m.map (·.1)).mergeSort (fun a b => decide (a ≤ b)) =
      (n.map (·.1)).mergeSort (fun a b => decide (a ≤ b)) := by
    have trans : ∀ a b c : String, decide (a ≤ b) → decide (b ≤ c) → decide (a ≤ c) := by
      intro a b c h1 h2
      exact decide_eq_true (String.le_trans (of_decide_eq_true h1) (of_decide_eq_true h2))
    have total : ∀ a b : String, decide (a ≤ b) || decide (b ≤ a) := by
      intro a b; simpa using String.le_total a b
    refine List.Perm.eq_of_pairwise (le := fun a b => decide (a ≤ b) = true) ?_
      (List.pairwise_mergeSort trans total _) (List.pairwise_mergeSort trans total _)
      ((List.mergeSort_perm _ _).trans ((h.map (·.1)).trans (List.mergeSort_perm _ _).symm))
    intro a b _ _ h1 h2
    exact String.le_antisymm (of_decide_eq_true h1) (of_decide_eq_true h2)
  simp only [mapBytes, hk, hl]

/-- **C21** is not met by headers that are not text: a request whose `authorization` has a byte
outside ASCII shares the response of one without that header, and of one with another such value. -/
theorem C21_binary_header (xxh : List Nat → Nat) (fx : List Word → Nat) (r : Request) (v : List Nat)
    (hv : ∃ b ∈ v, 127 ≤ b) :
    fingerprint xxh fx .all { r with headers := ("authorization", v) :: r.headers } =
      fingerprint xxh fx .all r := by
  have : headerText v = none := by
    unfold headerText
    rw [if_neg]
    rw [List.all_eq_true]
    intro h
    obtain ⟨b, hb, h127⟩ := hv
    have := h b hb
    simp at this
    omega
  have hc : countedHeaders .all (("authorization", v) :: r.headers) = countedHeaders .all r.headers := by
    unfold countedHeaders
    simp [HeaderPolicy.includes, List.filterMap_cons, this]
  simp only [fingerprint, connectionBytes, hc]

/-! ## C46: requests to subgraphs -/

/-- **C46** (partial: for headers that are text and occur once) Requests to subgraphs that are taken
for the same have the same method, endpoint, headers and body, unless the hash function clashes. -/
theorem C46_same_partial (a b : Outgoing) (ha : a.method < 2 ^ 64) (hb : b.method < 2 ^ 64)
    (sa : a.headers.length < 2 ^ 64) (sb : b.headers.length < 2 ^ 64)
    (ba : a.body.length < 2 ^ 64) (bb : b.body.length < 2 ^ 64)
    (ta : Textual a.headers) (tb : Textual b.headers)
    (na : (a.headers.map (·.1)).Nodup) (nb : (b.headers.map (·.1)).Nodup)
    (h : outgoingBytes a = outgoingBytes b) :
    a.method = b.method ∧ a.endpoint = b.endpoint ∧ a.body = b.body ∧
      ∀ x, x ∈ a.headers ↔ x ∈ b.headers := by
  unfold outgoingBytes at h
  obtain ⟨h1, h⟩ := le8_append ha hb h
  obtain ⟨h2, h⟩ := hashStr_append h
  obtain ⟨h3, h⟩ := pairs_prefix (Nat.lt_of_le_of_lt (headerMap_length _) sa)
    (Nat.lt_of_le_of_lt (headerMap_length _) sb) h
  obtain ⟨_, h4⟩ := le8_append ba bb h
  have half : ∀ {hs ks : List (String × List Nat)}, Textual hs → Textual ks → (hs.map (·.1)).Nodup →
      (ks.map (·.1)).Nodup → headerMap hs = headerMap ks → ∀ x ∈ hs, x ∈ ks := by
    intro hs ks t1 t2 n1 n2 he x hx
    obtain ⟨k, v⟩ := x
    have hv := headerText_of (t1 (k, v) hx)
    simp only at hv
    have := (headerMap_lookup t1 n1 k _).2 ⟨v, hx, hv⟩
    rw [he] at this
    obtain ⟨w, hw, hwt⟩ := (headerMap_lookup t2 n2 k _).1 this
    have hw' := headerText_of (t2 (k, w) hw)
    simp only at hw'
    rw [hw'] at hwt
    have e : textBytes (String.ofList (w.map Char.ofNat)) = textBytes (String.ofList (v.map Char.ofNat)) := by
      rw [Option.some.inj hwt]
    rw [textBytes_of (t2 (k, w) hw), textBytes_of (t1 (k, v) hx)] at e
    simp only at e
    rw [← e]; exact hw
  exact ⟨h1, h2, h4, fun x => ⟨half ta tb na nb h3 x, half tb ta nb na h3.symm x⟩⟩

/-- **C46** is not met by headers with several values: only the last counts. -/
theorem C46_repeated_header (o : Outgoing) (n : String) (v w : List Nat) (t u : String)
    (hv : headerText v = some t) (hw : headerText w = some u) :
    outgoingBytes { o with headers := [(n, v), (n, w)] } = outgoingBytes { o with headers := [(n, w)] } := by
  have : headerMap [(n, v), (n, w)] = headerMap [(n, w)] := by
    simp [headerMap, addHeader, hv, hw, insertKey, String.lt_irrefl]
  simp only [outgoingBytes, this]

/-- **C46** is not met by headers that are not text: they do not count. -/
theorem C46_binary_header (o : Outgoing) (n : String) (v : List Nat) (hv : headerText v = none) :
    outgoingBytes { o with headers := o.headers ++ [(n, v)] } = outgoingBytes o := by
  have : headerMap (o.headers ++ [(n, v)]) = headerMap o.headers := by
    simp [headerMap, List.foldl_append, addHeader, hv]
  simp only [outgoingBytes, this]

/-! ## Concrete cases -/

namespace Ex

def word : Word → Nat
  | .str s => s.toList.foldl (fun h c => h * 131 + c.toNat) 7
  | .num n => n + 5

/-- A small hash function. -/
def fx (ws : List Word) : Nat := ws.foldl (fun h w => (h * 1000003 + word w) % 2 ^ 64) 17

/-- Another one, good enough here. -/
def bytes (bs : List Nat) : Nat := (bs.length + 1) % 2 ^ 64

def sels : List Sel :=
  [.field { name := "node", args := some [("id", .var "id")], skipIf := some "s" }
    [fld "y", .frag { cond := "A" } [fld "x"], .frag { cond := "B" } [fld "x"]]]

def v1 : VarDef := ⟨"id", .nonNull (.named "ID"), none⟩
def v2 : VarDef := ⟨"s", .named "Boolean", some (.int 1)⟩

def a : Op := ⟨some .query, sels, some [v1, v2]⟩
def b : Op := ⟨none, sels, some [v2, v1]⟩

def c : Overrides := ⟨[("blue", true)], [(50, false)]⟩

theorem tidy : Tidy .start sels := by
  simp [sels, Tidy, fld, Place.fields, Place.frags, isDirective]

theorem fx_lt : ∀ x, fx x < 2 ^ 64 := by
  intro x
  unfold fx
  rcases List.eq_nil_or_concat x with rfl | ⟨l, w, rfl⟩
  · decide
  · simp only [List.foldl_append, List.concat_eq_append, List.foldl_cons, List.foldl_nil]
    exact Nat.mod_lt _ (by decide)

theorem bytes_lt : ∀ x, bytes x < 2 ^ 64 := fun _ => Nat.mod_lt _ (by decide)

theorem argLists_sels : argLists sels = [[("id", .var "id")]] := by
  simp [sels, argLists, fld]

theorem plain_a : Plain a := by
  intro v hv
  simp [literals, a, argLists_sels, v1, v2] at hv
  rcases hv with rfl | rfl
  · exact .inl ⟨_, rfl⟩
  · exact .inr ⟨1, rfl, by decide, by decide⟩

theorem plain_b : Plain b := by
  intro v hv
  simp [literals, b, argLists_sels, v1, v2] at hv
  rcases hv with rfl | rfl
  · exact .inl ⟨_, rfl⟩
  · exact .inr ⟨1, rfl, by decide, by decide⟩

theorem words_eq : opWords fx a = opWords fx b := by
  have : varsHash fx [v1, v2] = varsHash fx [v2, v1] := by
    simp only [varsHash, List.foldl_cons, List.foldl_nil]
    rw [Nat.xor_assoc, Nat.xor_assoc, Nat.xor_comm (fx (varWords v1))]
  simp [opWords, a, b, varsWords, this]

theorem noClash : NoClash fx a b where
  op _ := words_eq
  args := by
    intro m hm n hn _
    simp [a, b, argLists_sels] at hm hn
    rw [hm, hn]
  flag := by
    intro m hm
    simp [a, b, argLists_sels] at hm
    subst hm
    simp only [xorAll, argWords, List.map_cons, List.map_nil, List.foldl_cons, List.foldl_nil, litWords]
    decide +kernel
  vars := by
    intro vs ws h1 h2 _ x
    simp [a, b] at h1 h2
    subst h1; subst h2
    simp only [List.map_cons, List.map_nil, List.mem_cons, List.not_mem_nil, or_false]
    exact Or.comm

/-- The hypotheses of `C22_plan_partial` can be met, by two operations that are written
differently. -/
example : SameOp a b ∧ c = c :=
  C22_plan_partial bytes fx a b c c fx_lt
    ⟨by decide, by decide, by intro kv h; simp [c] at h; subst h; decide⟩
    ⟨by decide, by decide, by intro kv h; simp [c] at h; subst h; decide⟩
    tidy tidy (C22_plain_literals a b plain_a plain_b) noClash
    (by intro _; simp only [opHash]; rw [words_eq]) (by simp only [planKey, opHash]; rw [words_eq])

def r : Request where
  method := 1
  path := "/graphql"
  headers := [("authorization", [65, 66]), ("accept", [42])]
  schema := 9
  op := a
  intro := none
  variables := [("s", .bool true), ("id", .i64 (-3))]
  extensions := none

def r' : Request :=
  { r with
    headers := [("accept", [47]), ("authorization", [65, 66])]
    op := b
    variables := [("id", .i64 (-3)), ("s", .bool true)] }

def p : HeaderPolicy := .only ["authorization"]

theorem ordinary : Ordinary p r where
  method := by decide
  schema := by decide
  headers := by decide
  textual := by
    intro h hh b hb
    simp [selected, r, p, HeaderPolicy.includes] at hh
    subst hh; simp at hb; omega
  variables := ⟨by decide, by decide, by
    intro kv h
    simp [r] at h
    rcases h with rfl | rfl
    · exact .bool _
    · exact .i64 _ (by decide) (by decide)⟩
  extensions := by intro m h; simp [r] at h
  op := tidy
  intro := by intro i h; simp [r] at h

theorem ordinary' : Ordinary p r' where
  method := by decide
  schema := by decide
  headers := by decide
  textual := by
    intro h hh b hb
    simp [selected, r', p, HeaderPolicy.includes] at hh
    subst hh; simp at hb; omega
  variables := ⟨by decide, by decide, by
    intro kv h
    simp [r'] at h
    rcases h with rfl | rfl
    · exact .i64 _ (by decide) (by decide)
    · exact .bool _⟩
  extensions := by intro m h; simp [r', r] at h
  op := tidy
  intro := by intro i h; simp [r', r] at h

theorem conn_eq : connectionBytes p r = connectionBytes p r' := by
  have : countedHeaders p r.headers = countedHeaders p r'.headers := by
    simp [countedHeaders, r, r', p, HeaderPolicy.includes]
  simp only [connectionBytes, this]
  rfl

theorem vars_eq : mapBytes r.variables = mapBytes r'.variables :=
  C21_map_order _ _ (by decide) (List.Perm.swap _ _ _)

theorem hash_eq : opHash fx a = opHash fx b := by simp only [opHash]; rw [words_eq]

theorem comb_eq : combinedHash bytes fx r.op r.intro = combinedHash bytes fx r'.op r'.intro := by
  show bytes (le8 (opHash fx a) ++ [0]) = bytes (le8 (opHash fx b) ++ [0])
  rw [hash_eq]

theorem streams_eq : streams bytes fx p r = streams bytes fx p r' := by
  have h1 : opHash fx r.op = opHash fx r'.op := hash_eq
  have h2 : r.intro = r'.intro := rfl
  have h3 : r.extensions = r'.extensions := rfl
  unfold streams
  rw [conn_eq, vars_eq, comb_eq, h1, h3]
  rfl

theorem vars_bytes : mapBytes r'.variables =
    le8 2 ++ ((hashStr "id" ++ jsonBytes (.i64 (-3))) ++ (hashStr "s" ++ jsonBytes (.bool true))) := by
  have : (r'.variables.map (·.1)).mergeSort (fun a b => decide (a ≤ b)) = ["id", "s"] :=
    List.mergeSort_of_pairwise (by decide)
  unfold mapBytes
  rw [this]
  simp [lookup, r']

theorem conn_bytes : connectionBytes p r' = le8 1 ++ (hashStr "/graphql" ++ ((le8 1 ++
    (hashStr "authorization" ++ hashStr "AB")) ++ le8 9)) := by
  have : countedHeaders p r'.headers = [("authorization", "AB")] := by
    simp [countedHeaders, r', p, HeaderPolicy.includes, headerText]
  unfold connectionBytes
  rw [this]
  simp [r', r]

theorem noClashes : NoClashes bytes fx p r r' where
  bytes := by
    rw [streams_eq]
    have l1 : (connectionBytes p r').length = 50 := by
      rw [conn_bytes]
      simp only [List.length_append, le8_length]
      decide
    have l2 : (mapBytes r'.variables).length = 25 := by
      rw [vars_bytes]
      simp only [List.length_append, le8_length]
      decide
    intro x hx y hy h
    simp only [streams, List.mem_append, List.mem_cons, List.not_mem_nil, or_false] at hx hy
    simp [r', r] at hx hy
    rcases hx with rfl | rfl | rfl | rfl <;> rcases hy with rfl | rfl | rfl | rfl <;> first
      | rfl
      | (exfalso; revert h; simp only [bytes, List.length_append, le8_length]
         first
           | (have := l1; have := l2; simp only [r', r] at *; simp_all)
           | skip)
  zero := by
    rw [streams_eq]
    have l1 : (connectionBytes p r').length = 50 := by
      rw [conn_bytes]
      simp only [List.length_append, le8_length]
      decide
    have l2 : (mapBytes r'.variables).length = 25 := by
      rw [vars_bytes]
      simp only [List.length_append, le8_length]
      decide
    intro x hx
    simp only [streams, List.mem_append, List.mem_cons, List.not_mem_nil, or_false] at hx
    simp [r', r] at hx
    rcases hx with rfl | rfl | rfl | rfl <;>
      (simp only [bytes, List.length_append, le8_length]; simp only [r', r] at *; simp_all)
  op := noClash
  intro := by intro i j h; simp [r] at h
  unconfused := C22_plain_literals a b plain_a plain_b
  unconfusedIntro := by intro i j h; simp [r] at h

/-- The two requests are the same, though their headers, variables and operations are in a different
order, and they share a fingerprint. -/
example : SameRequest p r r' :=
  C21_same_partial bytes fx p r r' bytes_lt fx_lt ordinary ordinary' noClashes
    (by unfold fingerprint; rw [conn_eq, vars_eq, comb_eq]; rfl)

/-- Two requests to a subgraph, with the headers in a different order. -/
example : (∀ x, x ∈ [("a", [65]), ("b", [66])] ↔ x ∈ [("b", [66]), ("a", [65])]) :=
  (C46_same_partial ⟨1, "http://a/", [("a", [65]), ("b", [66])], [1]⟩
    ⟨1, "http://a/", [("b", [66]), ("a", [65])], [1]⟩ (by decide) (by decide) (by decide) (by decide)
    (by decide) (by decide) (by intro h hh b hb; simp at hh; rcases hh with rfl | rfl <;> simp at hb <;> omega)
    (by intro h hh b hb; simp at hh; rcases hh with rfl | rfl <;> simp at hb <;> omega)
    (by decide) (by decide) (by
      have : headerMap [("a", [65]), ("b", [66])] = headerMap [("b", [66]), ("a", [65])] := by
        simp (decide := true) [headerMap, addHeader, headerText, insertKey]
      simp only [outgoingBytes, this])).2.2.2

end Ex

end Verif.Keys
