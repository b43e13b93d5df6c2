import Verif.Limits.Lemmas

/-!
# C13, C14: the depth, alias and directive limits are exact and always terminate
-/

namespace Verif.Limits

/-- **C13**, termination: whatever the document, with cyclic or unknown fragments too, the depth
rule comes to an end (the recursion bound, a number computed from the size of the document, is
never reached). -/
theorem C13_terminates (cfg : DepthConfig) (d : Doc) : ∃ k, maxDepth cfg d = some k := by
  refine runOps_total _ _ _ fun op hop m => ?_
  obtain ⟨out, h, _⟩ := countDepth_total cfg d.known _ _ (known_size d) d.fuel m op.node 0
    (fuel_enough d op hop m)
  exact ⟨out, h⟩

/-- **C14**, termination. -/
theorem C14_terminates (n : Nat) (d : Doc) :
    (∃ k, maxAliases n d = some k) ∧ (∃ k, maxDirectives n d = some k) := by
  constructor
  · refine runOps_total _ _ _ fun op hop m => ?_
    obtain ⟨out, h, _⟩ := countSum_total ownAliases n d.known _ _ (known_size d) d.fuel m op.node
      (fuel_enough d op hop m)
    exact ⟨out, h⟩
  · refine runOps_total _ _ _ fun op hop m => ?_
    obtain ⟨out, h, _⟩ := countSum_total ownDirectives n d.known _ _ (known_size d) d.fuel m
      op.node (fuel_enough d op hop m)
    exact ⟨out, h⟩

mutual
/-- There is only one way to write out an item. -/
theorem expands_unique {known : Fragments} {i t t' : Item} :
    Expands known i t → Expands known i t' → t = t'
  | .field h, h' => by cases h' with | field h' => rw [expandsAll_unique h h']
  | .inline h, h' => by cases h' with | inline h' => rw [expandsAll_unique h h']
  | .known hk h, h' => by
    cases h' with
    | known hk' h' =>
      rw [hk] at hk'
      simp only [Option.some.injEq] at hk'
      subst hk'
      rw [expands_unique h h']
    | unknown hk' => rw [hk] at hk'; simp at hk'
  | .unknown hk, h' => by
    cases h' with
    | known hk' h' => rw [hk] at hk'; simp at hk'
    | unknown hk' => rfl
theorem expandsAll_unique {known : Fragments} {cs ts ts' : List Item} :
    ExpandsAll known cs ts → ExpandsAll known cs ts' → ts = ts'
  | .nil, h' => by cases h'; rfl
  | .cons h hs, h' => by
    cases h' with
    | cons h' hs' => rw [expands_unique h h', expandsAll_unique hs hs']
end

theorem acyclic_expands {known : Fragments} (ha : Acyclic known) (i : Item) :
    ∃ t, Expands known i t := by
  obtain ⟨rank, hr⟩ := ha
  refine expands_exists known rank hr ((i.spreads.map rank).sum + 1) i.size i (Nat.le_refl _) ?_
  intro g hg
  have := le_sum (List.mem_map.2 ⟨g, hg, rfl⟩ : rank g ∈ i.spreads.map rank)
  omega

/-- In a document without cyclic fragments every operation can be written out without fragment
spreads, in one way; the theorems below speak about the result. -/
theorem C13_written_out {known : Fragments} (ha : Acyclic known) (i : Item) :
    ∃ t, Expands known i t ∧ ∀ t', Expands known i t' → t' = t := by
  obtain ⟨t, ht⟩ := acyclic_expands ha i
  exact ⟨t, ht, fun t' ht' => expands_unique ht' ht⟩

/-- **C13**: a document without cyclic fragments passes the depth rule iff every operation, with its
fragments written out, has depth at most the limit; otherwise there is an error. -/
theorem C13_depth_limit (cfg : DepthConfig) (d : Doc) (ha : Acyclic d.known) :
    maxDepth cfg d = some 0 ↔
      ∀ op ∈ d.operations, ∀ t, Expands d.known op.node t → t.depth cfg 0 ≤ cfg.n := by
  obtain ⟨k, hk⟩ := C13_terminates cfg d
  obtain ⟨rank, hr⟩ := id ha
  have := runOps_zero (fun m op => countDepth cfg d.known d.fuel m op 0)
    (fun m => GoodMarks d.known (Item.depth cfg 0) cfg.n m ∧
      ∀ f, m f = some .visiting → d.known f = none)
    (fun op => ∀ t, Expands d.known op.node t → t.depth cfg 0 ≤ cfg.n)
    d.operations (fun _ => none) ⟨by intro f k h; simp at h, by intro f h; simp at h⟩ (by
      intro op hop m ⟨hq1, hq2⟩ out ho
      obtain ⟨t, ht, hu⟩ := C13_written_out ha op.node
      obtain ⟨h1, h2⟩ := countDepth_spec cfg d.known rank hr (known_inline d) d.fuel m op.node 0
        ((op.node.spreads.map rank).sum + 1) t out ht (by
          intro g hg
          have := le_sum (List.mem_map.2 ⟨g, hg, rfl⟩ : rank g ∈ op.node.spreads.map rank)
          omega) hq1 (fun f hf => Or.inl (hq2 f hf)) ho
      constructor
      · intro k hk
        obtain ⟨h3, h4, h5, h6⟩ := h1 k hk
        refine ⟨?_, h5, ?_⟩
        · intro t' ht'; rw [hu t' ht']; omega
        · intro f hf
          rcases h6 f hf with h | h
          · exact h
          · exact hq2 f h
      · intro he hx
        have := h2 he
        have := hx t ht
        omega) k hk
  rw [hk, ← this]
  simp

theorem sum_limit (own : Item → Nat) (n : Nat)
    (hf : ∀ nm a d cs ts, own (.field nm a d cs) = own (.field nm a d ts))
    (hi : ∀ d cs ts, own (.inline d cs) = own (.inline d ts))
    (hsp : ∀ f d ts, own (.spread f d) = own (.inline d ts)) (d : Doc) (ha : Acyclic d.known) :
    runOps (countSum own n d.known d.fuel) d.operations (fun _ => none) = some 0 ↔
      ∀ op ∈ d.operations, ∀ t, Expands d.known op.node t → t.total own ≤ n := by
  obtain ⟨k, hk⟩ := runOps_total (countSum own n d.known d.fuel) d.operations (fun _ => none)
    fun op hop m => by
      obtain ⟨out, h, _⟩ := countSum_total own n d.known _ _ (known_size d) d.fuel m op.node
        (fuel_enough d op hop m)
      exact ⟨out, h⟩
  obtain ⟨rank, hr⟩ := id ha
  have := runOps_zero (countSum own n d.known d.fuel)
    (fun m => GoodMarks d.known (Item.total own) n m ∧
      ∀ f, m f = some .visiting → d.known f = none)
    (fun op => ∀ t, Expands d.known op.node t → t.total own ≤ n)
    d.operations (fun _ => none) ⟨by intro f k h; simp at h, by intro f h; simp at h⟩ (by
      intro op hop m ⟨hq1, hq2⟩ out ho
      obtain ⟨t, ht, hu⟩ := C13_written_out ha op.node
      obtain ⟨h1, h2⟩ := countSum_spec own n d.known rank hr hf hi hsp d.fuel m op.node
        ((op.node.spreads.map rank).sum + 1) t out ht (by
          intro g hg
          have := le_sum (List.mem_map.2 ⟨g, hg, rfl⟩ : rank g ∈ op.node.spreads.map rank)
          omega) hq1 (fun f hf => Or.inl (hq2 f hf)) ho
      constructor
      · intro k hk
        obtain ⟨h3, h4, h5, h6⟩ := h1 k hk
        refine ⟨?_, h5, ?_⟩
        · intro t' ht'; rw [hu t' ht']; omega
        · intro f hf
          rcases h6 f hf with h | h
          · exact h
          · exact hq2 f h
      · intro he hx
        have := h2 he
        have := hx t ht
        omega) k hk
  rw [hk, ← this]
  simp

/-- **C14**, aliases: a document without cyclic fragments passes iff in every operation, with its
fragments written out, at most `n` fields carry an alias. -/
theorem C14_alias_limit (n : Nat) (d : Doc) (ha : Acyclic d.known) :
    maxAliases n d = some 0 ↔ ∀ op ∈ d.operations, ∀ t, Expands d.known op.node t →
      t.total (fun | .field _ a _ _ => if a then 1 else 0 | _ => 0) ≤ n := by
  have : ownAliases = (fun | .field _ a _ _ => if a then 1 else 0 | _ => 0) := by
    funext i
    cases i with
    | field n a d cs => cases a <;> rfl
    | inline => rfl
    | spread => rfl
  rw [← this]
  exact sum_limit ownAliases n (by intro _ a _ _ _; cases a <;> rfl) (by intros; rfl)
    (by intros; rfl) d ha

/-- **C14**, directives: a document without cyclic fragments passes iff every operation, with its
fragments written out, carries at most `n` directives (those of the operation, fragment spreads
and fragment definitions included). -/
theorem C14_directive_limit (n : Nat) (d : Doc) (ha : Acyclic d.known) :
    maxDirectives n d = some 0 ↔ ∀ op ∈ d.operations, ∀ t, Expands d.known op.node t →
      t.total (fun | .field _ _ k _ => k | .inline k _ => k | .spread _ k => k) ≤ n := by
  have : ownDirectives = (fun | .field _ _ k _ => k | .inline k _ => k | .spread _ k => k) := by
    funext i; cases i <;> rfl
  rw [← this]
  exact sum_limit ownDirectives n (by intros; rfl) (by intros; rfl) (by intros; rfl) d ha

/-- With `flatten_fragments: false`, moving selections from an inline fragment to a named fragment
adds a level: the spread counts one and the definition counts one. `query { ... { a } }` passes a
limit of 2, `query { ...F } fragment F { a }` does not. -/
theorem C13_spread_counts_twice :
    maxDepth ⟨2, false, false⟩ ⟨[⟨0, [.inline 0 [.field "a" false 0 []]]⟩], []⟩ = some 0 ∧
    maxDepth ⟨2, false, false⟩ ⟨[⟨0, [.spread "F" 0]⟩], [("F", ⟨0, [.field "a" false 0 []]⟩)]⟩ =
      some 1 := by
  constructor <;> rfl

/-! ### Examples -/

namespace Example

/-- `query { a { ...F } x: b { ...F } } fragment F on T { c { ...G } } fragment G on U @d { y: e }` -/
def doc : Doc :=
  ⟨[⟨0, [.field "a" false 0 [.spread "F" 0], .field "b" true 0 [.spread "F" 1]]⟩],
    [("F", ⟨0, [.field "c" false 0 [.spread "G" 0]]⟩), ("G", ⟨1, [.field "e" true 0 []]⟩)]⟩

theorem doc_acyclic : Acyclic doc.known := by
  refine ⟨fun f => if f = "F" then 1 else 0, ?_⟩
  intro f body h g hg
  unfold Doc.known at h
  cases hl : doc.fragments.lookup f with
  | none => simp [hl] at h
  | some x =>
    simp only [hl, Option.map_some, Option.some.injEq] at h
    subst h
    have hm := lookup_mem f x _ hl
    simp only [doc, List.mem_cons, Prod.mk.injEq, List.not_mem_nil, or_false] at hm
    rcases hm with ⟨rfl, rfl⟩ | ⟨rfl, rfl⟩
    · simp [Definition.node, Item.spreads, Item.spreads.all] at hg
      subst hg; decide
    · simp [Definition.node, Item.spreads, Item.spreads.all] at hg

example : maxDepth ⟨3, false, true⟩ doc = some 0 ∧ maxDepth ⟨2, false, true⟩ doc = some 1 ∧
    maxDepth ⟨7, false, false⟩ doc = some 0 ∧ maxDepth ⟨6, false, false⟩ doc = some 1 ∧
    maxAliases 3 doc = some 0 ∧ maxAliases 2 doc = some 1 ∧
    maxDirectives 3 doc = some 0 ∧ maxDirectives 2 doc = some 1 := by decide

/-- `query { ...F } fragment F { a { ...F } }`: cyclic, and yet the rules end. -/
example : maxDepth ⟨3, false, true⟩
    ⟨[⟨0, [.spread "F" 0]⟩], [("F", ⟨0, [.field "a" false 0 [.spread "F" 0]]⟩)]⟩ = some 0 := by
  decide

end Example

end Verif.Limits
