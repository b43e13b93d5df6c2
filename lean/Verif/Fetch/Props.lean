import Verif.Fetch.Passes2
import Verif.Fetch.Order2
import Verif.Fetch.Examples
import Verif.Fetch.Rename
import Verif.Fetch.Typed
import Verif.Fetch.Draft
import Verif.Walker.Props
import Verif.Fetch.Ends2

/-!
# Properties of fetch graphs

C57 to C64, and what C54 says about operations with `@requires`. `plans S ctx fuel kind sels` is what
becomes of an operation: one fetch graph for each way to choose paths for its leaves. The theorems about
`optimize` speak of any fetch graph that is optimized, whether an operation leads to it or not.
-/

namespace Verif.Fetch

open Verif.Graph (Super)
open Verif.Walker.Ex (off fld)
open Ex

/-- The graphs the rounds of `optimize` start with. -/
def starts (S : Super) (fuel : Nat) : Nat → Graph → List Graph
  | 0, _ => []
  | n + 1, g =>
    g :: match round S fuel g with
      | .error _ => []
      | .ok g' => if g.size = g'.size then [] else starts S fuel n g'

/-- Every round starts with a graph in which all steps but one wait for another one, and only for steps at the
same places, or above or below them. -/
def Steady (S : Super) (fuel : Nat) (g : Graph) : Prop := ∀ h ∈ starts S fuel fuel g, Rooted h ∧ Chained h

instance (S : Super) (fuel : Nat) (g : Graph) : Decidable (Steady S fuel g) :=
  inferInstanceAs (Decidable (∀ h ∈ starts S fuel fuel g, Rooted h ∧ Chained h))

/-! ## Lemmas -/

theorem Chained.edged {g : Graph} (h : Chained g) : Edged (tagsOf g) g := by
  intro a b hab
  have nil : ∀ p : MPath, Below [] p := fun p => ⟨by simp, by simp⟩
  unfold tagsOf
  match ha : g.get a, hb : g.get b with
  | .ok x, .ok y =>
    exact h (a, b) hab x (by simp [ha, Except.toOption]) y (by simp [hb, Except.toOption])
  | .ok _, .error _ => exact .inr (nil _)
  | .error _, .ok _ => exact .inl (nil _)
  | .error _, .error _ => exact .inl (nil _)

theorem Rooted.fed {g : Graph} (h : Rooted g) : Fed g := by
  intro n s hs hsv
  match hp : g.parents n with
  | p :: _ => exact ⟨p, mem_parents.1 (by rw [hp]; exact List.mem_cons_self ..)⟩
  | [] =>
    refine absurd (h n ?_ hp s (by simp [hs, Except.toOption])) hsv
    have := get_ok.1 hs
    simp only [Graph.indices, List.mem_filter, List.mem_range]
    exact ⟨(List.getElem?_eq_some_iff.1 this).1, by simp [Graph.has, this]⟩

theorem rounds_ok {v : Vars} {M : Meaning} {S : Super} {fuel : Nat} : ∀ (n : Nat) {g g' : Graph}, AllCalm M g →
    (∀ h ∈ starts S fuel n g, Rooted h ∧ Chained h) → rounds S fuel n g = .ok g' → AllCalm M g' ∧ Asks v g g'
  | 0, _, _, _, _, h => by simp [rounds] at h
  | n + 1, g, g', hg, hs, h => by
    simp only [rounds] at h
    simp only [starts, List.mem_cons, forall_eq_or_imp] at hs
    split at h
    next => cases h
    next g1 h1 =>
      obtain ⟨k1, k2⟩ := round_ok (v := v) hg hs.1.2.edged hs.1.1.fed h1
      split at h
      next =>
        cases h
        exact ⟨k1, k2⟩
      next hne =>
        rw [h1] at hs
        dsimp only at hs
        rw [if_neg hne] at hs
        obtain ⟨j1, j2⟩ := rounds_ok n k1 hs.2 h
        exact ⟨j1, fun x => (k2 x).trans (j2 x)⟩

theorem same_steps {g g' : Graph} (h : g'.steps = g.steps) : g'.all = g.all := by
  unfold Graph.all
  rw [h]

theorem optimize_ok {v : Vars} {M : Meaning} {S : Super} {fuel : Nat} {g g' : Graph} (hg : AllCalm M g)
    (hs : Steady S fuel g) (h : optimize S fuel g = .ok g') : AllCalm M g' ∧ Asks v g g' := by
  unfold optimize at h
  split at h
  next => cases h
  next g1 h1 =>
    obtain ⟨k1, k2⟩ := rounds_ok (v := v) fuel hg hs h1
    split at h
    next => cases h
    next g2 h2 =>
      have ha := same_steps (sequence_steps h2)
      have k3 : AllCalm M g2 := by
        unfold AllCalm
        rw [ha]
        exact k1
      rw [patchAliases_calm k3] at h
      cases h
      refine ⟨k3, ?_⟩
      intro x
      rw [k2 x]
      unfold Graph.asked
      rw [ha]

theorem means_rival {v : Vars} {M : Meaning} {Q : FragInfo → Prop} {f : FieldInfo} (hf : Means M f) :
    ∀ {r : List Sel}, Fit (Means M) Q r → r.any (rival v f) = false
  | [], _ => rfl
  | .field g ss :: r, h => by
    rw [List.any_cons, means_rival hf h.2, Bool.or_false]
    by_cases hk : f.key = g.key
    · obtain ⟨h1, _, h3⟩ := hf.eq h.1.1 hk
      simp [rival, h1, h3]
    · simp [rival, hk]
  | .frag _ _ :: r, h => by
    rw [List.any_cons, means_rival hf h.2]
    rfl
  | .spread _ :: r, h => by
    rw [List.any_cons, means_rival hf h.2]
    rfl

mutual
theorem mixedIn_calm {v : Vars} {M : Meaning} {Q : FragInfo → Prop} : ∀ {x : Sel}, FitBy (Means M) Q x →
    mixedIn v x = false
  | .field f ss, h => by
    simp only [mixedIn, mixed_calm h.2, Bool.and_false]
  | .frag g ss, h => by
    simp only [mixedIn, mixed_calm h.2, Bool.and_false]
  | .spread _, _ => rfl
theorem mixed_calm {v : Vars} {M : Meaning} {Q : FragInfo → Prop} : ∀ {ss : List Sel}, Fit (Means M) Q ss →
    mixed v ss = false
  | [], _ => rfl
  | x :: r, h => by
    simp only [mixed, mixedIn_calm h.1, mixed_calm h.2, Bool.or_false]
    match x, h with
    | .field f ss, h => simp only [hasRival, means_rival h.1.1 h.2, Bool.and_false]
    | .frag _ _, _ => rfl
    | .spread _, _ => rfl
end

mutual
theorem asksBy_means {v : Vars} {M : Meaning} {Q : FragInfo → Prop} : ∀ {y : Sel}, FitBy (Means M) Q y →
    ∀ x ∈ askedBy v y, ∃ f : FieldInfo, Means M f ∧ x.2 = askOf f
  | .field f ss, h, x, hx => by
    simp only [askedBy] at hx
    split at hx
    · rcases List.mem_cons.1 hx with rfl | hx
      · exact ⟨f, h.1, rfl⟩
      · obtain ⟨z, hz, rfl⟩ := List.mem_map.1 hx
        exact asks_means h.2 z hz
    · cases hx
  | .frag g ss, h, x, hx => by
    simp only [askedBy] at hx
    split at hx
    · exact asks_means h.2 x hx
    · cases hx
  | .spread _, _, x, hx => by simp [askedBy] at hx
theorem asks_means {v : Vars} {M : Meaning} {Q : FragInfo → Prop} : ∀ {ss : List Sel}, Fit (Means M) Q ss →
    ∀ x ∈ asked v ss, ∃ f : FieldInfo, Means M f ∧ x.2 = askOf f
  | [], _, x, hx => by simp [asked] at hx
  | y :: r, h, x, hx => by
    simp only [asked, List.mem_append] at hx
    rcases hx with hx | hx
    · exact asksBy_means h.1 x hx
    · exact asks_means h.2 x hx
end

mutual
theorem inputField_fit {P : FieldInfo → Prop} {Q : FragInfo → Prop} : ∀ {y : Sel}, FitBy P Q y →
    ∀ x ∈ inputField y, P x.2
  | .field f ss, h, x, hx => by
    simp only [inputField] at hx
    rcases List.mem_cons.1 hx with rfl | hx
    · exact h.1
    · obtain ⟨z, hz, rfl⟩ := List.mem_map.1 hx
      exact inputFields_fit h.2 z hz
  | .frag g ss, h, x, hx => inputFields_fit h.2 x hx
  | .spread _, _, x, hx => by simp [inputField] at hx
theorem inputFields_fit {P : FieldInfo → Prop} {Q : FragInfo → Prop} : ∀ {ss : List Sel}, Fit P Q ss →
    ∀ x ∈ inputFields ss, P x.2
  | [], _, x, hx => by simp [inputFields] at hx
  | y :: r, h, x, hx => by
    simp only [inputFields, List.mem_append] at hx
    rcases hx with hx | hx
    · exact inputField_fit h.1 x hx
    · exact inputFields_fit h.2 x hx
end

theorem sendsOther_calm {v : Vars} {M : Meaning} {g : Graph} (hg : AllCalm M g) {s : Step} (hs : s ∈ g.all) :
    sendsOther v g s = false := by
  rw [sendsOther, List.any_eq_false]
  intro x hx
  obtain ⟨i, hi, hx⟩ := List.mem_flatMap.1 hx
  obtain ⟨b1, b2⟩ := inputFields_fit ((hg s hs).2.2.2.1.2 i hi) x hx
  dsimp only
  rw [Bool.and_eq_true, not_and]
  intro hne
  rw [List.all_eq_true]
  intro hall
  have hne' : (List.filter (fun y => decide (y.1 = pathKeys s.path ++ x.1 ∧ y.2.key = x.2.name)) (g.asked v)) ≠ [] := by
    intro h
    rw [h] at hne
    simp at hne
  obtain ⟨y, hy⟩ := List.exists_mem_of_ne_nil _ hne'
  have h1 := hall y hy
  obtain ⟨hy1, hy2⟩ := List.mem_filter.1 hy
  simp only [decide_eq_true_eq] at hy2
  obtain ⟨n, t, ht, hyt⟩ := mem_graphAsked.1 hy1
  have ct := allCalm_get hg ht
  obtain ⟨_, _, q3⟩ := mem_stepAsked.1 hyt
  obtain ⟨z, hz, rfl⟩ := mem_under.1 q3
  obtain ⟨o, ho, hz⟩ := mem_askedAll.1 hz
  obtain ⟨f, hf, hzf⟩ := asks_means (ct.2.2.2.2 o ho) z hz
  have hk : f.key = x.2.key := by
    have h2 : z.2.key = x.2.name := hy2.2
    rw [hzf] at h2
    have h3 : f.key = x.2.name := h2
    rw [h3]
    simp [FieldInfo.key, b1]
  obtain ⟨e1, e2, e3⟩ := hf.eq b2 hk
  simp only [hzf, askOf, b1, Option.getD_none, e1, argsOf, e3, and_self, decide_true, Bool.not_true,
    Bool.false_eq_true] at h1

/-! ## C57: in an operation for a subgraph, every response key has one meaning -/

/-- The operation `{ product { id: sku price } }` is sent as `{ product { id: sku __typename id } }`: the key of
the entity is asked for under the response key the client has given to another field. -/
theorem C57_alias_refuted : ∃ g, plans boxes off 100 .query [fld "product" [as "id" "sku", fld "price"]] = [.ok g] ∧
    ∃ s ∈ g.all, ∃ o ∈ s.output, mixed yes o.2 = true := by
  obtain ⟨g, h1, h2⟩ := only_some (p := fun g => g.all.any fun s => s.output.any fun o => mixed yes o.2)
    (l := plans boxes off 100 .query [fld "product" [as "id" "sku", fld "price"]]) (by decide +kernel)
  simp only [List.any_eq_true] at h2
  exact ⟨g, h1, h2⟩

/-- The same happens with a field of another value for its argument, if it has a condition: `w(u: 2)` is asked
for side by side with `w(u: 1)`, which `flat` requires. -/
theorem C57_condition_refuted :
    ∃ g, plans boxes off 100 .query [fld "product" [inc "x" (fa "w" 2), fld "flat"]] = [.ok g] ∧
      ∃ s ∈ g.all, ∃ o ∈ s.output, mixed yes o.2 = true := by
  obtain ⟨g, h1, h2⟩ := only_some (p := fun g => g.all.any fun s => s.output.any fun o => mixed yes o.2)
    (l := plans boxes off 100 .query [fld "product" [inc "x" (fa "w" 2), fld "flat"]]) (by decide +kernel)
  simp only [List.any_eq_true] at h2
  exact ⟨g, h1, h2⟩

/-- Without a condition, the required field gets an alias. -/
example : only (fun g => g.all.any fun s => s.output.any fun o => mixed yes o.2)
    (plans boxes off 100 .query [fld "product" [fa "w" 2, fld "flat"]]) = false := by decide +kernel

/-- If every response key has one meaning in all of the graph, and only fields have conditions, then no
optimization makes two fields with different meanings meet. Missing: graphs in which response keys have several
meanings, for which there are the aliases the merging makes; see `C57_alias_refuted`. -/
theorem C57_one_meaning_partial {M : Meaning} {S : Super} {fuel : Nat} {g g' : Graph} (hg : AllCalm M g)
    (hs : Steady S fuel g) (h : optimize S fuel g = .ok g') (v : Vars) :
    ∀ s ∈ g'.all, ∀ o ∈ s.output, mixed v o.2 = false :=
  fun s hm o ho => mixed_calm (((optimize_ok (v := v) hg hs h).1 s hm).2.2.2.2 o ho)

/-- The response keys are the names of fields without arguments. -/
def plain : Meaning := fun k => (k, none, none)

/-- The graphs of an operation, before they are optimized. -/
def unoptimized (S : Super) (kind : Verif.Graph.OpKind) (sels : List Sel) : List (Except Err Graph) :=
  match Verif.Graph.build S with
  | .error _ => []
  | .ok G =>
    match Walker.walk ⟨G, S, off⟩ kind sels with
    | .error _ => []
    | .ok roots => (combos (roots.map combos)).map fun chosen =>
      match mergeAll (rootTrees kind 0 chosen) with
      | [] => .error .internal
      | t :: _ => buildTree ⟨G, S, off⟩ t kind

/-- The hypotheses hold for `{ product { sku @include(if: $x) price fy } }`: there are six steps before it is
optimized, and three afterwards. -/
example : only (fun g => decide (AllCalm plain g) && decide (Steady boxes 100 g) &&
      decide (g.all.length = 6) && only (fun g' => decide (g'.all.length = 3)) [optimize boxes 100 g])
    (unoptimized boxes .query [fld "product" [inc "x" (fld "sku"), fld "price", fld "fy"]]) = true := by
  decide +kernel

/-! ## C58: the values that are sent for a field are the values it requires -/

/-- `{ shop { product { w(u: 2) flat } } }`: `flat` requires `w(u: 1)`, which is asked for under an alias. What
is sent to the subgraph of `flat` is `w(u: 2)`. -/
theorem C58_other_arguments_refuted :
    ∃ g, plans shops off 100 .query [fld "shop" [fld "product" [fa "w" 2, fld "flat"]]] = [.ok g] ∧
      ∃ s ∈ g.all, sendsOther yes g s = true := by
  obtain ⟨g, h1, h2⟩ := only_some (p := fun g => g.all.any (sendsOther yes g))
    (l := plans shops off 100 .query [fld "shop" [fld "product" [fa "w" 2, fld "flat"]]]) (by decide +kernel)
  simp only [List.any_eq_true] at h2
  exact ⟨g, h1, h2⟩

/-- `{ product { flat fy flat2 } }`: `flat` requires `w(u: 1)`, and `flat2` requires `w(u: 2)`. Both are asked of
one subgraph in one step, to which only one value can be sent as `w`. -/
theorem C58_two_values_refuted :
    ∃ g, plans boxes off 100 .query [fld "product" [fld "flat", fld "fy", fld "flat2"]] = [.ok g] ∧
      ∃ s ∈ g.all, ∃ i ∈ s.input, mixed yes i.2 = true := by
  obtain ⟨g, h1, h2⟩ := only_some (p := fun g => g.all.any fun s => s.input.any fun o => mixed yes o.2)
    (l := plans boxes off 100 .query [fld "product" [fld "flat", fld "fy", fld "flat2"]]) (by decide +kernel)
  simp only [List.any_eq_true] at h2
  exact ⟨g, h1, h2⟩

/-- `{ product { box { w(u: 2) } shipping } }`, where `shipping` requires `box { w(u: 1) }`, ends in a panic. -/
theorem C58_panic_refuted :
    plans boxes off 100 .query [fld "product" [fld "box" [fa "w" 2], fld "shipping"]] = [.error .panic] :=
  fails_some (by decide +kernel)

/-- If every response key has one meaning in all of the graph, then all values that are sent are those of the
required fields, with their arguments. Missing: as for `C57_one_meaning_partial`. -/
theorem C58_right_values_partial {M : Meaning} {S : Super} {fuel : Nat} {g g' : Graph} (hg : AllCalm M g)
    (hs : Steady S fuel g) (h : optimize S fuel g = .ok g') (v : Vars) :
    ∀ s ∈ g'.all, sendsOther v g' s = false :=
  fun _ hm => sendsOther_calm (optimize_ok (v := v) hg hs h).1 hm

/-! ## C54: what the subgraphs can resolve together is planned -/

/-- `{ product { est { q } } }`: there is a path for `q`, but no plan, for a step has several parents. -/
theorem C54_requires_refuted :
    plans estimates off 100 .query [fld "product" [fld "est" [fld "q"]]] = [.error (.nonSingleParent 3)] :=
  fails_some (by decide +kernel)

/-- `{ ... on Query @include(if: $v) { product { flat fy } } }`: there are paths, but no plan. -/
theorem C54_fragment_refuted :
    plans boxes off 100 .query [incOn "v" "Query" [fld "product" [fld "flat", fld "fy"]]] = [.error .missingPath] :=
  fails_some (by decide +kernel)

/-- `{ product { flat } }`, where products are found by a key of one subgraph, and the key of the subgraph of `flat`
has to be asked of another one: there is a path, but no plan. -/
theorem C54_third_subgraph_refuted :
    plans thirds off 100 .query [fld "product" [fld "flat"]] = [.error (.nonSingleParent 2)] :=
  fails_some (by decide +kernel)

/-- `{ product { related { flat } } }`: there is a path for `flat`, but no plan. That `product` and `related` are of
the same type, and `related` and `flat` in the same subgraph, is taken to mean that `flat` is a field of `product`. -/
theorem C54_recursive_type_refuted :
    plans relatives off 100 .query [fld "product" [fld "related" [fld "flat"]]] = [.error .missingPath] :=
  fails_some (by decide +kernel)

/-- Without the fragment there is a plan. -/
example : only (fun _ => true) (plans boxes off 100 .query [fld "product" [fld "flat", fld "fy"]]) = true := by
  decide +kernel

/-! ## C59: mutations are executed one after the other -/

theorem patchAll_steps : ∀ {l : List Nat} {al : Aliases} {g g' : Graph}, patchBelow al l g = .ok g' →
    g'.edges = g.edges
  | [], _, _, _, h => by
    simp only [patchBelow] at h
    cases h
    rfl
  | n :: r, al, g, g', h => by
    simp only [patchBelow] at h
    split at h
    next => cases h
    next g1 h1 =>
      rw [patchAll_steps h]
      unfold Graph.modify at h1
      split at h1
      next => cases h1
      next =>
        split at h1
        next => cases h1
        next =>
          cases h1
          rfl

theorem patchFrom_edges {n : Nat} : ∀ {l : List (String × Aliases)} {g g' : Graph}, patchFrom n l g = .ok g' →
    g'.edges = g.edges
  | [], _, _, h => by
    simp only [patchFrom] at h
    cases h
    rfl
  | (_, al) :: r, g, g', h => by
    simp only [patchFrom] at h
    split at h
    next => cases h
    next g1 h1 => rw [patchFrom_edges h, patchAll_steps h1]

theorem patchNodes_edges : ∀ {l : List (Nat × List (String × Aliases))} {g g' : Graph}, patchNodes l g = .ok g' →
    g'.edges = g.edges
  | [], _, _, h => by
    simp only [patchNodes] at h
    cases h
    rfl
  | (n, al) :: r, g, g', h => by
    simp only [patchNodes] at h
    split at h
    next => cases h
    next g1 h1 => rw [patchNodes_edges h, patchFrom_edges h1]

/-- The steps for the root fields of a mutation are executed one after the other, in the order of their
positions. Missing: the steps below them; see `C59_nested_refuted`. -/
theorem C59_root_fields_in_order_partial {S : Super} {fuel : Nat} {g g₁ g' : Graph} {root a b i j : Nat} {x y : Step}
    (h₁ : rounds S fuel fuel g = .ok g₁) (hk : g₁.kind = .mutation) (hr : g₁.root = some root)
    (ha : (root, a) ∈ g₁.edges) (hb : (root, b) ∈ g₁.edges) (hx : g₁.get a = .ok x) (hy : g₁.get b = .ok y)
    (hi : x.pos = some i) (hj : y.pos = some j) (hij : i < j) (h : optimize S fuel g = .ok g') :
    After g' a b ∧ After g' root a := by
  unfold optimize at h
  rw [h₁] at h
  dsimp only at h
  split at h
  next => cases h
  next g2 h2 =>
    obtain ⟨k1, k2⟩ := sequence_after hk hr ha hb hx hy hi hj hij h2
    have he := patchNodes_edges h
    exact ⟨k1.mono (fun e h => he ▸ h), k2.mono (fun e h => he ▸ h)⟩

/-- Does a step ask for a field. -/
def asksAt (g : Graph) (n : Nat) (x : List String × Ask) : Bool :=
  match g.get n with
  | .ok s => decide (x ∈ s.asked yes)
  | .error _ => false

theorem asksAt_some {g : Graph} {n : Nat} {x : List String × Ask} (h : asksAt g n x = true) :
    ∃ s, g.get n = .ok s ∧ x ∈ s.asked yes := by
  unfold asksAt at h
  split at h
  next s hs => exact ⟨s, hs, by simpa using h⟩
  next => cases h

/-- The hypotheses hold for `mutation { wipe touch }`: there is a step for each. -/
example : only (fun g => only (fun h => decide (h.kind = .mutation ∧ h.root = some 0 ∧
        (0, 1) ∈ h.edges ∧ (0, 2) ∈ h.edges ∧ ((h.get 1).toOption.map (·.pos)) = some (some 0) ∧
        ((h.get 2).toOption.map (·.pos)) = some (some 1))) [rounds muts 100 100 g] &&
      only (fun _ => true) [optimize muts 100 g])
    (unoptimized muts .mutation [fld "wipe", fld "touch"]) = true := by decide +kernel

/-- `mutation { make { name price } wipe touch }`, where `make` and `touch` are in `a`, `price` and `wipe` in `b`:
the step for `price` does not wait for that of `wipe`, nor that of `wipe` for that of `price`. The second field is
executed, and may change what the first one returns, while that is still completed. -/
theorem C59_nested_refuted :
    ∃ g, plans muts off 100 .mutation [fld "make" [fld "name", fld "price"], fld "wipe", fld "touch"] = [.ok g] ∧
      (∃ s, g.get 2 = .ok s ∧ (["make"], ⟨"price", "price", none⟩) ∈ s.asked yes) ∧
      (∃ s, g.get 3 = .ok s ∧ ([], ⟨"wipe", "wipe", none⟩) ∈ s.asked yes) ∧
      ¬ After g 2 3 ∧ ¬ After g 3 2 := by
  obtain ⟨g, h1, h2⟩ := only_some (p := fun g => closed g [2] && closed g [3, 4] &&
      asksAt g 2 (["make"], ⟨"price", "price", none⟩) && asksAt g 3 ([], ⟨"wipe", "wipe", none⟩))
    (l := plans muts off 100 .mutation [fld "make" [fld "name", fld "price"], fld "wipe", fld "touch"])
    (by decide +kernel)
  simp only [Bool.and_eq_true] at h2
  obtain ⟨⟨⟨c1, c2⟩, p1⟩, p2⟩ := h2
  refine ⟨g, h1, ?_, ?_, ?_, ?_⟩
  · exact asksAt_some p1
  · exact asksAt_some p2
  · intro h
    have := closed_after c1 h (by simp)
    simp at this
  · intro h
    have := closed_after c2 h (by simp)
    simp at this

/-! ## C60: a field that is skipped is not asked for -/

/-- `{ product { price @include(if: $x) sku @include(if: $x) } }`: `sku` is asked for, also if `$x` is false. -/
theorem C60_skipped_refuted :
    ([], ⟨"product", "product", none⟩) ∈
        asked no [fld "product" [inc "x" (fld "price"), inc "x" (fld "sku")]] ∧
    (["product"], ⟨"sku", "sku", none⟩) ∉
        asked no [fld "product" [inc "x" (fld "price"), inc "x" (fld "sku")]] ∧
    ∃ g, plans boxes off 100 .query [fld "product" [inc "x" (fld "price"), inc "x" (fld "sku")]] = [.ok g] ∧
      (["product"], ⟨"sku", "sku", none⟩) ∈ g.asked no := by
  refine ⟨by decide +kernel, by decide +kernel, ?_⟩
  obtain ⟨g, h1, h2⟩ := only_some (p := fun g => decide ((["product"], ⟨"sku", "sku", none⟩) ∈ g.asked no))
    (l := plans boxes off 100 .query [fld "product" [inc "x" (fld "price"), inc "x" (fld "sku")]])
    (by decide +kernel)
  exact ⟨g, h1, by simpa using h2⟩

/-- What an optimized graph asks for, the graph it is made of asks for as well, whatever the variables are.
Missing: graphs in which fragments or steps have conditions, and how the graph is made in the first place. -/
theorem C60_optimizing_asks_for_nothing_new_partial {M : Meaning} {S : Super} {fuel : Nat} {g g' : Graph}
    (hg : AllCalm M g) (hs : Steady S fuel g) (h : optimize S fuel g = .ok g') (v : Vars) :
    ∀ x ∈ g'.asked v, x ∈ g.asked v :=
  fun x hx => ((optimize_ok (v := v) hg hs h).2 x).2 hx

/-! ## C61: what an operation asks for is asked for, however its plan is optimized -/

/-- `mutation { make { query { x } query @include(if: $v) { y } } }`, where the queries are in another subgraph:
`x` is not asked for if `$v` is false. -/
theorem C61_lost_refuted :
    (["make", "query"], ⟨"x", "x", none⟩) ∈
        asked no [fld "make" [fld "query" [fld "x"], inc "v" (fld "query" [fld "y"])]] ∧
    ∃ g, plans reentry off 100 .mutation [fld "make" [fld "query" [fld "x"], inc "v" (fld "query" [fld "y"])]] =
        [.ok g] ∧ (["make", "query"], ⟨"x", "x", none⟩) ∉ g.asked no := by
  refine ⟨by decide +kernel, ?_⟩
  obtain ⟨g, h1, h2⟩ := only_some (p := fun g => decide ((["make", "query"], ⟨"x", "x", none⟩) ∉ g.asked no))
    (l := plans reentry off 100 .mutation [fld "make" [fld "query" [fld "x"], inc "v" (fld "query" [fld "y"])]])
    (by decide +kernel)
  exact ⟨g, h1, by simpa using h2⟩

/-- When two steps are merged, everything they ask for is asked for, whatever conditions they have, and whatever
the variables are: provided that the path of the one begins with that of the other, that response keys have one
meaning, and that the step which stays is for entities or has no condition, which is what `C61_lost_refuted`
lacks. -/
theorem C61_merged_steps_ask_for_all_partial {M : Meaning} {force : Bool} {t s z : Step}
    (ht : ∀ o ∈ t.output, Fit (Means M) (fun _ => True) o.2) (hs : ∀ o ∈ s.output, Fit (Means M) (fun _ => True) o.2)
    (hi : s.cond ≠ (none, none) → ∀ i ∈ s.input, Fit (Means M) (fun _ => True) i.2)
    (hc : t.entity = true ∨ t.cond = (none, none)) (hp : Below t.path s.path)
    (h : mergeSteps force t s = .ok z) (v : Vars) :
    (∀ x ∈ t.asked v, x ∈ z.asked v) ∧ ∀ x ∈ s.asked v, x ∈ z.asked v :=
  mergeSteps_asked blind_means (fun _ h => h) ht hs hi hc hp.aligned h

/-- Selection sets that may have response keys with several meanings are merged by giving aliases to fields. By
their names, the fields afterwards are those of both, at any depth and whatever the variables are, if those that
are merged in have no aliases: so it is with fields that are needed for a key or for `@requires`. -/
theorem C61_renaming_loses_no_field {used : Bool × Bool} {path : MPath} {ss ts us : List Sel} {c c' : Nat}
    {al : Aliases} (hs : Fit Unnamed (fun _ => True) ss) (h : safeMerge used path ss ts c = .ok (us, c', al))
    (v : Vars) (z : List Named) : z ∈ meant v us ↔ z ∈ meant v ts ∨ z ∈ meant v ss :=
  safeMerge_meant hs h z

/-- `{ box { w(u: 1) } id }` is merged into `{ box { w(u: 2) } id: sku }`: the result has all of them. -/
example : (match safeMerge (false, true) [] [fld "box" [fa "w" 1], fld "id"]
      [fld "box" [fa "w" 2], as "id" "sku"] 0 with
    | .ok (us, _, al) => decide (us.length = 3 ∧ al.length = 2 ∧ [("id", none)] ∈ meant yes us)
    | .error _ => false) = true ∧
    Fit Unnamed (fun _ => True) [fld "box" [fa "w" 1], fld "id"] := by decide +kernel

/-- With aliases it is not so: `x: bar` is lost, when it is merged into `x: foo`. No valid operation has both for
one type. -/
theorem C61_same_alias_refuted : ∃ us c al, safeMerge (false, true) [] [as "x" "bar"] [as "x" "foo"] 0 = .ok (us, c, al) ∧
    [("bar", none)] ∈ meant yes [as "x" "bar"] ∧ [("bar", none)] ∉ meant yes us :=
  ⟨[as "x" "foo"], 0, [], rfl, by decide +kernel, by decide +kernel⟩

/-- What is merged into a step that is not there for `@requires` leaves the response keys of that step as they
are, whatever it asks for. -/
theorem C61_the_client_keeps_its_keys {req : Bool} {path : MPath} {ss ts us : List Sel} {c c' : Nat} {al : Aliases}
    (h : safeMerge (false, req) path ss ts c = .ok (us, c', al)) (v : Vars) :
    ∀ x ∈ asked v ts, x ∈ asked v us := safeMerge_stays h

/-- Two steps with conditions that meet the hypotheses: `{ price @skip(if: $x) }` with `@include(if: $y)` and
`{ fy }` without a condition, for the same products. -/
example : (match mergeSteps false
      { service := "b", path := [.field "product" none none (none, none)], input := [("Product", [fld "id"])],
        output := [("Product", [fld "fy"])], entity := true, cond := (none, some "x") }
      { service := "b", path := [.field "product" none none (none, none)], input := [("Product", [fld "id"])],
        output := [("Product", [inc "y" (fld "price")])], entity := true } with
    | .ok z => decide (z.cond = (none, none) ∧ (["product"], ⟨"price", "price", none⟩) ∈ z.asked fun v => v == "y")
    | .error _ => false) = true := by decide +kernel

/-- What a graph asks for, the optimized graph asks for, whatever the variables are. Missing: graphs in which
response keys have several meanings, or in which fragments or steps have conditions. -/
theorem C61_optimizing_loses_nothing_partial {M : Meaning} {S : Super} {fuel : Nat} {g g' : Graph}
    (hg : AllCalm M g) (hs : Steady S fuel g) (h : optimize S fuel g = .ok g') (v : Vars) :
    ∀ x ∈ g.asked v, x ∈ g'.asked v :=
  fun x hx => ((optimize_ok (v := v) hg hs h).2 x).1 hx

/-- The last pass, which flattens fragments and merges fields: for objects of any types, a selection set asks for
the same fields as before. `K` is the place of its objects, `P` says of which types the objects at any place are. -/
theorem C61_normalizing_asks_for_the_same {S : Super} {t : String} {ss r : List Sel} {P : Types} {K : List String}
    (h : normSels S t ss [] = .ok r) (hP : P K t = true) (hs : Typed S P K t ss) (v : Vars) :
    ∀ z, z ∈ ofTypes P v K r ↔ z ∈ ofTypes P v K ss := by
  intro z
  have := normSels_types (v := v) ss hP hs h z
  simpa only [ofTypes, List.not_mem_nil, false_or] using this

/-- There is a product at the root, and anything below it. -/
def oneProduct : Types := fun K t => !K.isEmpty || t == "Product"

/-- A fragment on products is flattened, one with a condition is not, nor is one on another type. -/
example : normSels boxes "Product" [fld "id", Verif.Walker.Ex.on "Product" [fld "id", fld "price"],
      incOn "x" "Product" [fld "w"], Verif.Walker.Ex.on "Box" [fld "w"]] [] =
        .ok [fld "id", fld "price", incOn "x" "Product" [fld "w"], Verif.Walker.Ex.on "Box" [fld "w"]] ∧
    oneProduct [] "Product" = true ∧
    Typed boxes oneProduct [] "Product" [fld "id", Verif.Walker.Ex.on "Product" [fld "id", fld "price"],
      incOn "x" "Product" [fld "w"], Verif.Walker.Ex.on "Box" [fld "w"]] := by
  refine ⟨rfl, rfl, ?_⟩
  simp [Typed, TypedBy, Verif.Walker.Ex.on, fld, incOn, oneProduct]

/-- A batch of steps for several types is executed whatever the condition of its steps was: the condition is
moved to what it asks for, for each of the types of its path. It asks for the same. -/
theorem C61_a_batch_keeps_its_condition {path : MPath} {s : Step} (h : ∀ o ∈ s.output, o.1 ∈ pathTypes path)
    (v : Vars) : (afterBatch path s).asked v = Step.asked v { s with path := path } := afterBatch_asked h

/-- A step for books and films with a condition. -/
example : decide ((∀ o ∈ ([("Book", [fld "a"]), ("Film", [fld "b"])] : Selections),
      o.1 ∈ pathTypes [.field "m" none none (none, none), .type ["Book", "Film"] (none, none)]) ∧
    (let s := afterBatch [.field "m" none none (none, none), .type ["Book", "Film"] (none, none)]
      { service := "b", input := [], output := [("Book", [fld "a"]), ("Film", [fld "b"])], entity := true,
        cond := (none, some "x") }
     s.cond = (none, none) ∧ s.asked yes = [(["m"], ⟨"a", "a", none⟩), (["m"], ⟨"b", "b", none⟩)] ∧
      s.asked no = [])) = true := by
  decide +kernel

/-! ## C62: merging and pruning steps keeps their order -/

/-- A step for a field of a product. -/
def stepFor (n : String) : Step :=
  { service := "b", path := [], input := [("Product", [fld "id"])], output := [("Product", [fld n])], entity := true }

/-- A graph of four steps: the second and the third wait for the first, the fourth for both. -/
def four : Graph :=
  { steps := [some (stepFor "w"), some (stepFor "sku"), some (stepFor "y"), some (stepFor "price")],
    edges := [(0, 1), (0, 2), (1, 3), (2, 3)], root := some 0 }

/-- There is an order, the second and the third can be merged, and the fourth waits for the first. -/
example : Ranked four ∧ After four 0 3 ∧ ((performMerge false 1 2 four).toOption.isSome = true) ∧
    four.parents 1 = [0] := by
  refine ⟨⟨id, ?_⟩, .trans (.edge (b := 1) (by decide)) (by decide), by decide +kernel, by decide⟩
  intro a b h
  simp only [four, List.mem_cons, Prod.mk.injEq, List.not_mem_nil, or_false] at h
  simp only [id]
  omega

/-- When a step is merged into another one, everything still waits for what it waited for. -/
theorem C62_merging_keeps_the_order {force : Bool} {t s a b : Nat} {g g' : Graph}
    (h : performMerge force t s g = .ok g') (hab : After g a b) :
    heir t s a = heir t s b ∨ After g' (heir t s a) (heir t s b) := by
  obtain ⟨x, y, z, hne, hx, hy, hz, rfl⟩ := set_performMerge h
  exact rewire_after hne (After.mono (g := g) (g' := g.set t z) (fun e h => h) hab)

/-- No step comes to wait for itself, if the merged step does not wait for a third one that waits for the one it
is merged into. Missing: that this is so for all steps the passes merge; see `C62_children_can_be_merged`. -/
theorem C62_merging_makes_no_cycle_partial {force : Bool} {t s : Nat} {g g' : Graph} (hg : NoCycle g)
    (hm : Mergeable g t s) (h : performMerge force t s g = .ok g') : NoCycle g' := by
  obtain ⟨x, y, z, hne, hx, hy, hz, rfl⟩ := set_performMerge h
  have same : ∀ {a b}, After (g.set t z) a b → After g a b := fun h =>
    After.mono (g := g.set t z) (g' := g) (fun e h => h) h
  refine rewire_noCycle (fun a ha => hg a (same ha)) ⟨fun h => hm.1 (same h), ?_⟩
  exact fun c h1 h2 => hm.2 c (same h1) (same h2)

/-- It is so for a step with a single parent, which is merged into that. -/
theorem C62_children_can_be_merged {g : Graph} {t s : Nat} (hg : NoCycle g) (h : g.parents s = [t]) :
    Mergeable g t s := mergeable_only hg h

/-- Pruning removes steps that nothing waits for, and edges. All other steps still wait for what they waited
for. -/
theorem C62_pruning_keeps_the_order {g : Graph} (hg : Ranked g) {a b : Nat} {y : Step} (h : After g a b)
    (hb : (prune g).get b = .ok y) : After (prune g) a b :=
  prune_after hg h (prune_get.1 hb).1

/-- In `four` nothing waits for itself, and all edges are between its steps. -/
theorem four_sound : NoCycle four ∧ EdgesIn four := by
  refine ⟨ranked_noCycle ⟨id, ?_⟩, ?_⟩ <;>
  · intro a b h
    simp only [four, List.mem_cons, Prod.mk.injEq, List.not_mem_nil, or_false] at h
    simp only [four, id, List.length_cons, List.length_nil]
    omega

/-- Merging steps with their only parent makes no step wait for itself. -/
theorem C62_merging_passthroughs_makes_no_cycle {fuel : Nat} {g g' : Graph} (hg : NoCycle g) (hi : EdgesIn g)
    (h : mergePassthrough fuel g = .ok g') : NoCycle g' ∧ EdgesIn g' := mergePassthrough_sound ⟨hg, hi⟩ h

/-- Neither does merging steps nothing waits for. -/
theorem C62_merging_leafs_makes_no_cycle {fuel : Nat} {g g' : Graph} (hg : NoCycle g) (hi : EdgesIn g)
    (h : mergeLeafs fuel g = .ok g') : NoCycle g' ∧ EdgesIn g' := mergeLeafs_sound fuel ⟨hg, hi⟩ h

/-- Nor batching steps for several types. -/
theorem C62_batching_makes_no_cycle {fuel : Nat} {g g' : Graph} (hg : NoCycle g) (hi : EdgesIn g)
    (h : batchTypes fuel g = .ok g') : NoCycle g' ∧ EdgesIn g' := batchTypes_sound ⟨hg, hi⟩ h

/-- Nor pruning, normalizing, or renaming what is sent. -/
theorem C62_the_other_passes_make_no_cycle {S : Super} {g g' : Graph} (hg : NoCycle g) (hi : EdgesIn g)
    (h : g' = prune g ∨ normalize S g = .ok g' ∨ patchAliases g = .ok g') : NoCycle g' ∧ EdgesIn g' := by
  rcases h with rfl | h | h
  · exact prune_sound ⟨hg, hi⟩
  · exact normalize_sound ⟨hg, hi⟩ h
  · exact patchAliases_sound ⟨hg, hi⟩ h

/-- All of them succeed for `four`. -/
example : (NoCycle four ∧ EdgesIn four) ∧ (mergePassthrough 20 four).toOption.isSome = true ∧
    (mergeLeafs 20 four).toOption.isSome = true ∧ (batchTypes 20 four).toOption.isSome = true ∧
    (normalize boxes four).toOption.isSome = true ∧ (patchAliases four).toOption.isSome = true :=
  ⟨four_sound, by decide +kernel⟩

/-- A step can be merged with one that waits for it, as the pass that merges children decides, if that one does
not wait for it in a roundabout way too. See `C62_shared_parents_refuted` for why this is needed. -/
theorem C62_shared_parents_can_be_merged {g : Graph} {p a b : Nat} (hg : NoCycle g) (hs : Straight g)
    (hp : (p, a) ∈ g.edges) (hab : (a, b) ∈ g.edges) (h : canMerge g a b = true) : Mergeable g a b :=
  mergeable_shared hg hs hp hab h

/-- The second step waits for the first, the third for both. -/
def three : Graph :=
  { steps := [some (stepFor "w"), some (stepFor "x"), some (stepFor "y")],
    edges := [(0, 1), (1, 2), (0, 2)], root := some 0 }

/-- The third can be merged into the second. -/
example : NoCycle three ∧ Straight three ∧ canMerge three 1 2 = true ∧ three.parents 2 ≠ [1] := by
  have hr : ∀ a b, (a, b) ∈ three.edges → id a < id b ∧ b < 3 := by
    intro a b h
    simp only [three, List.mem_cons, Prod.mk.injEq, List.not_mem_nil, or_false] at h
    simp only [id]
    omega
  have lt : ∀ {a b}, After three a b → a < b ∧ b < 3 := by
    intro a b h
    induction h with
    | edge e => exact hr _ _ e
    | trans _ e ih => have := hr _ _ e; simp only [id] at this; omega
  refine ⟨ranked_noCycle ⟨id, fun a b h => (hr a b h).1⟩, ?_, by decide +kernel, by decide⟩
  intro p a b h1 h2 _ x h3 h4
  have := hr _ _ h1
  have := lt h3
  have := lt h4
  simp only [id] at *
  omega

/-- Two steps of which neither waits for the other can be merged, and this is what siblings that are merged are
like. -/
theorem C62_siblings_can_be_merged {g : Graph} {a b : Nat} (hg : EdgesIn g) (h : canSiblings g a b = true) :
    Mergeable g a b := mergeable_siblings hg h

example : EdgesIn four ∧ canSiblings four 1 2 = true := ⟨four_sound.2, by decide +kernel⟩

/-- A step for a product, of another subgraph. -/
def stepOf (g n : String) : Step := { stepFor n with service := g }

/-- A graph in which a step waits for another one, for what that one waits for, and for a third one in between. -/
def roundabout : Graph :=
  { steps := [some (stepOf "*" "q"), some (stepOf "a" "w"), some (stepOf "b" "x"), some (stepOf "c" "y"),
      some (stepOf "b" "z")],
    edges := [(0, 1), (1, 2), (2, 3), (3, 4), (2, 4), (1, 4)], root := some 0 }

/-- There is a graph without a cycle in which the pass that merges children decides to merge a step into one it
waits for, and in which two steps wait for each other then. No operation is known to lead to it. -/
theorem C62_shared_parents_refuted : NoCycle roundabout ∧ canMerge roundabout 2 4 = true ∧
    ∃ g', performMerge false 2 4 roundabout = .ok g' ∧ ¬ NoCycle g' := by
  refine ⟨ranked_noCycle ⟨id, ?_⟩, by decide +kernel, ?_⟩
  · intro a b h
    simp only [roundabout, List.mem_cons, Prod.mk.injEq, List.not_mem_nil, or_false] at h
    simp only [id]
    omega
  · obtain ⟨g', hg, h⟩ : ∃ g', performMerge false 2 4 roundabout = .ok g' ∧ (2, 3) ∈ g'.edges ∧ (3, 2) ∈ g'.edges := by
      have := (by decide +kernel : (match performMerge false 2 4 roundabout with
        | .ok g => decide ((2, 3) ∈ g.edges ∧ (3, 2) ∈ g.edges)
        | .error _ => false) = true)
      split at this
      next g he => exact ⟨g, he, of_decide_eq_true this⟩
      next => cases this
    exact ⟨g', hg, fun hn => hn 2 (.trans (.edge h.1) h.2)⟩

/-- A graph with two steps of one subgraph and two of another, all waiting for the first step. The second step of
each subgraph waits for the first of the other. -/
def crossed : Graph :=
  { steps := [some (stepOf "*" "q"), some (stepOf "a" "w"), some (stepOf "b" "x"), some (stepOf "a" "y"),
      some (stepOf "b" "z")],
    edges := [(0, 1), (0, 2), (0, 3), (0, 4), (1, 4), (2, 3)], root := some 0 }

/-- There is a graph without a cycle in which the pass that merges siblings chooses two pairs, each of which can be
merged, but not both: merging both makes two steps wait for each other. -/
theorem C62_crossed_siblings_refuted : NoCycle crossed ∧ siblingPairs crossed [1, 2, 3, 4] = [(1, 3), (2, 4)] ∧
    ∃ g' g'', performMerge false 1 3 crossed = .ok g' ∧ performMerge false 2 4 g' = .ok g'' ∧ ¬ NoCycle g'' := by
  refine ⟨ranked_noCycle ⟨id, ?_⟩, by decide +kernel, ?_⟩
  · intro a b h
    simp only [crossed, List.mem_cons, Prod.mk.injEq, List.not_mem_nil, or_false] at h
    simp only [id]
    omega
  · obtain ⟨g', g'', h1, h2, h⟩ : ∃ g' g'', performMerge false 1 3 crossed = .ok g' ∧
        performMerge false 2 4 g' = .ok g'' ∧ (1, 2) ∈ g''.edges ∧ (2, 1) ∈ g''.edges := by
      have := (by decide +kernel : (match performMerge false 1 3 crossed with
        | .ok g => match performMerge false 2 4 g with
          | .ok g => decide ((1, 2) ∈ g.edges ∧ (2, 1) ∈ g.edges)
          | .error _ => false
        | .error _ => false) = true)
      split at this
      next g he =>
        split at this
        next g2 he2 => exact ⟨g, g2, he, he2, of_decide_eq_true this⟩
        next => cases this
      next => cases this
    exact ⟨g', g'', h1, h2, fun hn => hn 1 (.trans (.edge h.1) h.2)⟩

/-- Does a step wait for a step that waits for it. -/
def crosses (g : Graph) : Bool := g.edges.any fun e => g.edges.contains (e.2, e.1)

theorem crosses_cycle {g : Graph} (h : crosses g = true) : ¬ NoCycle g := by
  simp only [crosses, List.any_eq_true, List.contains_iff_mem] at h
  obtain ⟨e, h1, h2⟩ := h
  exact fun hn => hn e.1 (.trans (.edge h1) h2)

/-- Before siblings are merged no step waits for itself. After `n` steps have been looked at one does. -/
def tangles (n : Nat) (g : Graph) : Bool :=
  soundly g && match mergePassthrough n g with
  | .error _ => false
  | .ok g1 =>
    match mergeChildren n g1 with
    | .error _ => false
    | .ok g2 => soundly g2 && match g2.root with
      | none => false
      | some r =>
        match siblingRun n [r] g2 with
        | .error _ => false
        | .ok (_, g3) => crosses g3

/-- `{ product { t r } }`, where `t` is got from `a` once `q` and `s` are known, which are got from `b` once `p` and
`r` are known, which are got from `a`. No step waits for itself in the graph that is built for it, nor after the
first two passes. The pass that merges siblings makes two steps wait for each other. -/
theorem C62_tangled_refuted : ∃ g g1 g2 r q g3,
    drafts endless off .query [fld "product" [fld "t", fld "r"]] = [.ok g] ∧ NoCycle g ∧
    mergePassthrough 150 g = .ok g1 ∧ mergeChildren 150 g1 = .ok g2 ∧ NoCycle g2 ∧
    g2.root = some r ∧ siblingRun 150 [r] g2 = .ok (q, g3) ∧ ¬ NoCycle g3 := by
  obtain ⟨g, hg, h⟩ := only_some (p := tangles 150)
    (l := drafts endless off .query [fld "product" [fld "t", fld "r"]]) (by decide +kernel)
  simp only [tangles, Bool.and_eq_true] at h
  obtain ⟨h0, h⟩ := h
  split at h
  next => cases h
  next g1 h1 =>
    split at h
    next => cases h
    next g2 h2 =>
      simp only [Bool.and_eq_true] at h
      obtain ⟨h3, h⟩ := h
      split at h
      next => cases h
      next r hr =>
        split at h
        next => cases h
        next q g3 h4 =>
          exact ⟨g, g1, g2, r, q, g3, hg, (soundly_spec h0).1, h1, h2, (soundly_spec h3).1, hr, h4, crosses_cycle h⟩

/-! ## C63: a subgraph is asked for what it has, by keys it knows -/

/-- `{ product { flat } }`: `a` is asked for the `sku` of a product, which it does not have. -/
theorem C63_foreign_field_refuted : ∃ g, plans skus off 100 .query [fld "product" [fld "flat"]] = [.ok g] ∧
    ∃ s ∈ g.all, ∃ o ∈ s.output, foreign skus s.service o.1 o.2 = true := by
  obtain ⟨g, hg, h⟩ := only_some (p := fun g => g.all.any fun s => s.output.any fun o =>
    foreign skus s.service o.1 o.2) (l := plans skus off 100 .query [fld "product" [fld "flat"]]) (by decide +kernel)
  simp only [List.any_eq_true] at h
  exact ⟨g, hg, h⟩

/-- `b` is asked for a product that is given by its `sku`, but the key of products in `b` is their `id`. -/
theorem C63_foreign_key_refuted : ∃ g, plans skus off 100 .query [fld "product" [fld "flat"]] = [.ok g] ∧
    ∃ s ∈ g.all, s.entity = true ∧ ∃ i ∈ s.input,
      (keysOf skus s.service i.1).any (fun k => hasKey i.2 k) = false := by
  obtain ⟨g, hg, h⟩ := only_some (p := fun g => g.all.any fun s => s.entity && s.input.any fun i =>
      !((keysOf skus s.service i.1).any (fun k => hasKey i.2 k)))
    (l := plans skus off 100 .query [fld "product" [fld "flat"]]) (by decide +kernel)
  simp only [List.any_eq_true, Bool.and_eq_true, Bool.not_eq_true'] at h
  obtain ⟨s, hs, he, hi⟩ := h
  exact ⟨g, hg, s, hs, he, hi⟩

/-- In the plan of `{ product { flat price } }` for `boxes` there are no such steps. -/
example : only (fun g => g.all.all fun s => s.service == "*" || (s.output.all fun o => !foreign boxes s.service o.1 o.2) &&
      (!s.entity || s.input.all fun i => (keysOf boxes s.service i.1).any (fun k => hasKey i.2 k)))
    (plans boxes off 100 .query [fld "product" [fld "flat", fld "price"]]) = true := by decide +kernel

/-! ## C64: every field of an operation is asked for -/

/-- Every field of an operation, on the way to a leaf, is asked for by some step, when the conditions on the way
to it hold: at its place, by its name, alias and arguments, and in a subgraph that has the field. A fragment for
a type which no subgraph on the way gives has one leaf only, `__typename`. Missing: interface objects, fields
that provide something but are resolved elsewhere, and what optimizing does then; for that see
`C64_plans_ask_for_everything_partial`. -/
theorem C64_drafts_ask_for_everything_partial {S : Super} (hS : Verif.Graph.Proper S)
    (hio : Verif.Graph.NoInterfaceObjects S) (ho : Verif.Graph.ProvidesOwn S) {G : Verif.Graph.Moves}
    (hb : Verif.Graph.build S = .ok G) {ctx : Overrides.Context} {kind : Verif.Graph.OpKind} {sels : List Sel}
    {g : Graph} (hg : .ok g ∈ drafts S ctx kind sels) {x : Sel} (hx : x ∈ sels) :
    ∃ ts, Walker.Leaves ⟨G, S, ctx⟩ kind [] x ts ∧ ∀ v tr f tr', tr ++ .field f :: tr' ∈ ts →
      trailHolds v (tr ++ [.field f]) = true → AsksFor S kind v g tr f :=
  drafts_send hS hio ho hb hg hx

/-- There are no fragments among the selections, at any depth. -/
def PlainBy : Sel → Prop
  | .field _ ss => ∀ x ∈ ss, PlainBy x
  | _ => False

mutual
theorem plainBy_ok {env : Walker.Env} {kind : Verif.Graph.OpKind} : ∀ {x : Sel} {tr : Walker.Trail}, PlainBy x →
    OpenBy env kind tr x ∧ FilledBy x
  | .field f ss, tr, h => by
    simp only [OpenBy, FilledBy, PlainBy] at h ⊢
    exact plain_ok h
  | .frag _ _, _, h => by simp [PlainBy] at h
  | .spread _, _, h => by simp [PlainBy] at h
theorem plain_ok {env : Walker.Env} {kind : Verif.Graph.OpKind} : ∀ {ss : List Sel} {tr : Walker.Trail},
    (∀ x ∈ ss, PlainBy x) → Open env kind tr ss ∧ Filled ss
  | [], _, _ => ⟨trivial, trivial⟩
  | x :: r, tr, h => by
    have h1 := plainBy_ok (env := env) (kind := kind) (tr := tr) (h x (List.mem_cons_self ..))
    have h2 := plain_ok (env := env) (kind := kind) (tr := tr) (ss := r) fun y hy => h y (List.mem_cons_of_mem _ hy)
    exact ⟨⟨h1.1, h2.1⟩, h1.2, h2.2⟩
end

/-- All that an operation asks for, its fetch graph asks for. -/
theorem C64_all_is_asked_for_partial {S : Super} (hS : Verif.Graph.Proper S)
    (hio : Verif.Graph.NoInterfaceObjects S) (ho : Verif.Graph.ProvidesOwn S) {G : Verif.Graph.Moves}
    (hb : Verif.Graph.build S = .ok G) {ctx : Overrides.Context} {kind : Verif.Graph.OpKind} {sels : List Sel}
    {g : Graph} (hg : .ok g ∈ drafts S ctx kind sels) (hopen : Open ⟨G, S, ctx⟩ kind [] sels) (hf : Filled sels)
    (v : Vars) : ∀ y ∈ asked v sels, y ∈ g.asked v :=
  drafts_ask hS hio ho hb hg hopen hf

theorem plans_drafts {S : Super} {ctx : Overrides.Context} {fuel : Nat} {kind : Verif.Graph.OpKind}
    {sels : List Sel} {g' : Graph} (h : .ok g' ∈ plans S ctx fuel kind sels) :
    ∃ g, .ok g ∈ drafts S ctx kind sels ∧ optimize S fuel g = .ok g' := by
  simp only [plans] at h
  split at h
  next => simp at h
  next G hG =>
    split at h
    next => simp at h
    next roots hr =>
      obtain ⟨c, hc, he⟩ := List.mem_map.1 h
      simp only [planOf] at he
      split at he
      next => simp at he
      next g hd => exact ⟨g, by simp only [drafts, hG, hr]; exact List.mem_map.2 ⟨c, hc, hd⟩, he⟩

/-- And so does its plan, after optimizing. Missing: fetch graphs in which response keys have several meanings or
steps have conditions, see `C61_lost_refuted`. -/
theorem C64_plans_ask_for_everything_partial {S : Super} (hS : Verif.Graph.Proper S)
    (hio : Verif.Graph.NoInterfaceObjects S) (ho : Verif.Graph.ProvidesOwn S) {ctx : Overrides.Context}
    {kind : Verif.Graph.OpKind} {sels : List Sel} (hp : ∀ x ∈ sels, PlainBy x) {M : Meaning} {fuel : Nat}
    (hc : ∀ g, .ok g ∈ drafts S ctx kind sels → AllCalm M g ∧ Steady S fuel g) {g' : Graph}
    (hg : .ok g' ∈ plans S ctx fuel kind sels) (v : Vars) : ∀ y ∈ asked v sels, y ∈ g'.asked v := by
  obtain ⟨g, hd, ho'⟩ := plans_drafts hg
  obtain ⟨G, hb⟩ : ∃ G, Verif.Graph.build S = .ok G := by
    cases hb : Verif.Graph.build S with
    | error => rw [drafts, hb] at hd; simp at hd
    | ok G => exact ⟨G, rfl⟩
  have hk := plain_ok (env := ⟨G, S, ctx⟩) (kind := kind) (tr := []) hp
  exact fun y hy => C61_optimizing_loses_nothing_partial (hc g hd).1 (hc g hd).2 ho' v y
    (C64_all_is_asked_for_partial hS hio ho hb hd hk.1 hk.2 v y hy)

theorem Ex.boxes_proper : Verif.Graph.Proper boxes :=
  ⟨by decide, by decide, by decide, by decide, by decide, Walker.providesOk_spec (by decide)⟩

/-- The subgraphs of `boxes` meet what the theorems ask for, and `{ product { fy price } }` is planned. -/
example : Verif.Graph.NoInterfaceObjects boxes ∧ Verif.Graph.ProvidesOwn boxes ∧
    (∀ x ∈ [fld "product" [fld "fy", fld "price"]], PlainBy x) ∧
    (drafts boxes off .query [fld "product" [fld "fy", fld "price"]]).length = 1 ∧
    (∀ g, .ok g ∈ drafts boxes off .query [fld "product" [fld "fy", fld "price"]] →
      AllCalm plain g ∧ Steady boxes 100 g) ∧
    only (fun g => decide ((["product"], ⟨"fy", "fy", none⟩) ∈ g.asked no))
      (plans boxes off 100 .query [fld "product" [fld "fy", fld "price"]]) = true := by
  refine ⟨by unfold Verif.Graph.NoInterfaceObjects; decide, by unfold Verif.Graph.ProvidesOwn; decide, ?_,
    by decide +kernel, ?_, by decide +kernel⟩
  · simp [PlainBy, fld]
  · obtain ⟨g, hg, h⟩ := only_some (p := fun g => decide (AllCalm plain g ∧ Steady boxes 100 g))
      (l := drafts boxes off .query [fld "product" [fld "fy", fld "price"]]) (by decide +kernel)
    intro g' hg'
    rw [hg, List.mem_singleton] at hg'
    cases hg'
    exact of_decide_eq_true h

/-! ## C65: planning comes to an end

The loops of the model have a bound, the fuel, and give up with the error `fuel` when it is reached. The loops of the
code have none. So the code comes to an end if there is a bound that is not reached, and then every larger bound
gives the same result. -/

/-- `{ product { t r } }` is never planned: merging siblings goes on for ever, whatever the bound. -/
theorem C65_planning_goes_on_refuted (fuel : Nat) :
    plans endless off fuel .query [fld "product" [fld "t", fld "r"]] = [.error .fuel] := by
  obtain ⟨g, hg, h⟩ := only_some (p := trapped 150)
    (l := drafts endless off .query [fld "product" [fld "t", fld "r"]]) (by decide +kernel)
  rw [plans_finish, hg]
  simp only [List.map_cons, List.map_nil, outcome, trapped_spec h]

/-- Asked for on its own `t` is planned. -/
example : (plans endless off 100 .query [fld "product" [fld "t"]]).map (fun r => r.toOption.isSome) = [true] := by
  decide +kernel

/-- Merging passthrough steps ends. -/
theorem C65_merging_passthroughs_ends {g : Graph} (hg : NoCycle g) (hi : EdgesIn g) :
    ∃ n, mergePassthrough n g ≠ .error .fuel := mergePassthrough_ends ⟨hg, hi⟩

/-- Merging leafs ends. -/
theorem C65_merging_leafs_ends (g : Graph) : ∃ n, mergeLeafs n g ≠ .error .fuel :=
  mergeLeafs_ends _ g (Nat.le_refl _)

/-- Batching ends. -/
theorem C65_batching_ends {g : Graph} (hg : NoCycle g) (hi : EdgesIn g) :
    ∃ n, batchTypes n g ≠ .error .fuel := batchTypes_ends ⟨hg, hi⟩

/-- Merging children ends if no step comes to wait for itself on the way. -/
theorem C65_merging_children_ends_partial {g : Graph}
    (hg : ∀ r, g.root = some r → DownSound canMerge (performMerge false) [r] [(r, r)] g) :
    ∃ n, mergeChildren n g ≠ .error .fuel := mergeChildren_ends hg

/-- Merging siblings ends if no step comes to wait for itself on the way. -/
theorem C65_merging_siblings_ends_partial {g : Graph} (hg : ∀ r, g.root = some r → SiblingsSound [r] g) :
    ∃ n, mergeSiblings n g ≠ .error .fuel := mergeSiblings_ends hg

/-- More fuel does not change what has been found. -/
theorem C65_a_larger_bound_changes_nothing {S : Super} {n m : Nat} {g : Graph} (h : n ≤ m)
    (hd : round S n g ≠ .error .fuel) : round S m g = round S n g :=
  (round_fuel S g n m h).resolve_left hd

/-- Rounds are repeated until one changes nothing. Optimizing ends if in no round a step comes to wait for itself
while steps are merged with their children or siblings. -/
theorem C65_optimizing_ends_partial {S : Super} {g : Graph} (hg : NoCycle g) (hi : EdgesIn g)
    (hr : ∀ h, Starts S g h → RoundSound h) : ∃ N, ∀ n, N ≤ n → optimize S n g ≠ .error .fuel :=
  optimize_ends ⟨hg, hi⟩ hr

/-- The steps of an operation of two subgraphs, and of one whose steps wait for each other in turn, meet this. -/
theorem meets {S : Super} {n k : Nat} {g : Graph} (h : (soundly g && allSoundly S n k g) = true) :
    NoCycle g ∧ EdgesIn g ∧ ∀ h, Starts S g h → RoundSound h := by
  simp only [Bool.and_eq_true] at h
  exact ⟨(soundly_spec h.1).1, (soundly_spec h.1).2, allSoundly_spec k h.2⟩

example : ∃ g, drafts endless off .query [fld "product" [fld "t"]] = [.ok g] ∧ 10 < live g ∧
    NoCycle g ∧ EdgesIn g ∧ ∀ h, Starts endless g h → RoundSound h := by
  obtain ⟨g, hg, h⟩ := only_some (p := fun g => decide (10 < live g) && (soundly g && allSoundly endless 100 5 g))
    (l := drafts endless off .query [fld "product" [fld "t"]]) (by decide +kernel)
  rw [Bool.and_eq_true] at h
  exact ⟨g, hg, of_decide_eq_true h.1, meets h.2⟩

example : ∃ g, drafts boxes off .query [fld "product" [fld "flat", fld "w"]] = [.ok g] ∧
    NoCycle g ∧ EdgesIn g ∧ ∀ h, Starts boxes g h → RoundSound h := by
  obtain ⟨g, hg, h⟩ := only_some (p := fun g => soundly g && allSoundly boxes 100 5 g)
    (l := drafts boxes off .query [fld "product" [fld "flat", fld "w"]]) (by decide +kernel)
  exact ⟨g, hg, meets h⟩

end Verif.Fetch
