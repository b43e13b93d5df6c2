import Verif.Masking.Model

/-!
# Error masking: C26
-/

namespace Verif.Masking

/-! ## Specification -/

/-- A key of the extensions of an error as the client sees it. -/
def field (e : Exts) (k : String) : Option Value :=
  if k = "code" then e.code.map .str
  else if k = "service" then e.service.map .str
  else if k = "affectedPath" then e.affectedPath.map .str
  else lookup k e.rest

/-- The configuration asks for the messages of a subgraph to be masked: its own setting, or else the
one for all. -/
def masks (c : Config) (g : String) : Bool :=
  match lookup g (c.subgraphs.getD []) with
  | some s => s.enabled.getD c.allEnabled
  | none => c.allEnabled

/-- The extensions policy of a subgraph: its own, or else the one for all. -/
def policy (c : Config) (g : String) : Option Plan :=
  match lookup g (c.subgraphs.getD []) with
  | some s => if s.extensions.isSome then s.extensions else c.allExtensions
  | none => c.allExtensions

/-- A policy lets a key through. -/
def lets : Option Plan → String → Prop
  | none, _ => True
  | some (.allow keys), k => k ∈ keys
  | some (.deny keys), k => k ∉ keys

def reserved : List String := ["code", "service", "affectedPath"]

/-- Reserved keys are in their own places, as after reading. -/
def Exts.Tidy (e : Exts) : Prop := ∀ kv ∈ e.rest, kv.1 ∉ reserved

/-- What the client is to see of an error of a subgraph. -/
structure Masked (c : Config) (g : String) (e e' : Error) : Prop where
  message : e'.message = if masks c g then c.message else e.message
  hidden : ∀ k, ¬ lets (policy c g) k → field e'.exts k = none
  kept : ∀ k, lets (policy c g) k → field e'.exts k = field e.exts k

/-- The lists are as long, and related item by item. -/
inductive Each {α β : Type} (R : α → β → Prop) : List α → List β → Prop
  | nil : Each R [] []
  | cons {a b l m} : R a b → Each R l m → Each R (a :: l) (b :: m)

/-! ## Lemmas -/

theorem lookup_filter (p : String → Bool) (k : String) (m : List (String × Value)) :
    lookup k (m.filter fun kv => p kv.1) = if p k then lookup k m else none := by
  induction m with
  | nil => simp [lookup]
  | cons x m ih =>
    obtain ⟨a, v⟩ := x
    by_cases ha : a = k
    · subst ha
      by_cases hp : p a
      · simp [hp, lookup]
      · rw [List.filter_cons]
        simp only [hp, Bool.false_eq_true, if_false, ih]
    · by_cases hp : p a
      · rw [List.filter_cons]
        simp only [hp, if_true, lookup, ha, if_false, ih]
      · rw [List.filter_cons]
        simp only [hp, Bool.false_eq_true, if_false, ih, lookup, ha]

theorem lookup_map {α β : Type} (f : α → β) (k : String) (m : List (String × α)) :
    lookup k (m.map fun kv => (kv.1, f kv.2)) = (lookup k m).map f := by
  induction m with
  | nil => rfl
  | cons x m ih =>
    obtain ⟨a, v⟩ := x
    by_cases ha : a = k <;> simp [lookup, ha, ih]

theorem allow_field (keys : List String) (e : Exts) (k : String) :
    field (allowOnly keys e) k = if k ∈ keys then field e k else none := by
  unfold field allowOnly
  by_cases h1 : k = "code"
  · subst h1; by_cases h : "code" ∈ keys <;> simp [h]
  · by_cases h2 : k = "service"
    · subst h2; by_cases h : "service" ∈ keys <;> simp [h]
    · by_cases h3 : k = "affectedPath"
      · subst h3; by_cases h : "affectedPath" ∈ keys <;> simp [h]
      · simp only [h1, h2, h3, if_false]
        rw [lookup_filter (fun a => (keys.filter fun k => k ≠ "code" ∧ k ≠ "service" ∧ k ≠ "affectedPath").contains a)]
        by_cases h : k ∈ keys <;> simp [h, h1, h2, h3]

theorem remove_field (e : Exts) (k k' : String) :
    field (removeField e k') k = if k = k' then none else field e k := by
  unfold removeField
  split
  · rename_i h; subst h
    by_cases hk : k = "code" <;> simp [field, hk]
  · split
    · rename_i h; subst h
      by_cases hk : k = "service"
      · simp [field, hk]
      · by_cases hk1 : k = "code" <;> simp [field, hk, hk1]
    · split
      · rename_i h; subst h
        by_cases hk : k = "affectedPath"
        · simp [field, hk]
        · by_cases hk1 : k = "code"
          · simp [field, hk1]
          · by_cases hk2 : k = "service" <;> simp [field, hk, hk1, hk2]
      · rename_i h1 h2 h3
        unfold field
        by_cases hk : k = k'
        · subst hk
          simp only [h1, h2, h3, if_false, if_true]
          have := lookup_filter (fun a => decide (a ≠ k)) k e.rest
          simpa using this
        · have := lookup_filter (fun a => decide (a ≠ k')) k e.rest
          simp only [hk, ne_eq, not_false_eq_true, decide_true, if_true] at this
          simp only [this, ne_eq, hk, if_false]

theorem deny_field (keys : List String) : ∀ (e : Exts) (k : String),
    field (keys.foldl removeField e) k = if k ∈ keys then none else field e k := by
  induction keys with
  | nil => intro e k; simp
  | cons a keys ih =>
    intro e k
    rw [List.foldl_cons, ih, remove_field]
    by_cases h : k ∈ keys
    · simp [h]
    · by_cases h2 : k = a <;> simp [h, h2]

theorem plan_field (p : Option Plan) (e : Exts) (k : String) :
    (lets p k → field (match p with | some p => p.apply e | none => e) k = field e k) ∧
    (¬ lets p k → field (match p with | some p => p.apply e | none => e) k = none) := by
  match p with
  | none => simp [lets]
  | some (.allow keys) =>
    simp only [lets, Plan.apply, allow_field]
    by_cases h : k ∈ keys <;> simp [h]
  | some (.deny keys) =>
    simp only [lets, Plan.apply, deny_field]
    by_cases h : k ∈ keys <;> simp [h]

theorem apply_masked (c : Config) (r : Runtime) (h : compile c = some r) (g : String) (e : Error)
    (he : e.exts.service = some g) : Masked c g e (r.apply e) := by
  unfold compile at h
  split at h
  · simp only [Option.some.injEq] at h
    have hm : (lookup g r.masking).getD r.defaultMasking = masks c g := by
      subst h
      rw [masks]
      simp only
      rw [lookup_map (fun s : SubgraphConfig => s.enabled.getD c.allEnabled)]
      cases lookup g (c.subgraphs.getD []) <;> rfl
    have hp : extensionsPlan r g = policy c g := by
      subst h
      rw [policy, extensionsPlan]
      simp only
      rw [lookup_map (fun s : SubgraphConfig => s.extensions)]
      cases hl : lookup g (c.subgraphs.getD []) with
      | none => rfl
      | some s => cases hs : s.extensions <;> simp [hs]
    have hmsg : r.message = c.message := by subst h; rfl
    have hr : r.apply e = { message := if masks c g then c.message else e.message
                            exts := match policy c g with | some p => p.apply e.exts | none => e.exts } := by
      unfold Runtime.apply
      rw [he]
      simp only [hm, hp, hmsg]
      rfl
    rw [hr]
    exact ⟨rfl, fun k hk => (plan_field _ _ k).2 hk, fun k hk => (plan_field _ _ k).1 hk⟩
  · cases h

theorem handled_service (g : String) (affected : Option String) (es : List Error)
    (hs : ∀ e ∈ es, e.exts.service = none ∨ e.exts.service = some g) :
    ∀ e ∈ handleErrors g affected es, e.exts.service = some g := by
  intro e he
  obtain ⟨e0, he0, rfl⟩ := List.mem_map.1 he
  rcases hs e0 he0 with h | h <;> cases affected <;> simp [addSubgraphName, addAffectedPath, h]

/-! ## Theorems -/

/-- **C26** (partial: for errors whose `extensions.service`, if any, is the subgraph itself) With
masking on, the errors of a fetch reach the client with the configured message where the policy of
the subgraph asks for it, without the extensions its policy does not let through, and with the others
unchanged. -/
theorem C26_fetch_partial (c : Config) (hc : c.enabled = true) (g : String) (affected : Option String)
    (es : List Error) (hs : ∀ e ∈ es, e.exts.service = none ∨ e.exts.service = some g) :
    Each (Masked c g) (handleErrors g affected es) (shownFetch c g affected es) := by
  have hr : ∃ r, compile c = some r := ⟨_, by unfold compile; rw [if_pos hc]⟩
  obtain ⟨r, hr⟩ := hr
  unfold shownFetch mask
  rw [hr]
  simp only
  have := handled_service g affected es hs
  revert this
  generalize handleErrors g affected es = l
  intro this
  induction l with
  | nil => exact .nil
  | cons e l ih =>
    exact .cons (apply_masked c r hr g e (this e (by simp))) (ih fun x hx => this x (by simp [hx]))

/-- **C26** The message of a masked subgraph does not reach the client: if masking is asked for, what
the client sees as message is the configured one, for every error. -/
theorem C26_message_partial (c : Config) (hc : c.enabled = true) (g : String) (hm : masks c g = true)
    (affected : Option String) (es : List Error)
    (hs : ∀ e ∈ es, e.exts.service = none ∨ e.exts.service = some g) :
    ∀ e ∈ shownFetch c g affected es, e.message = c.message := by
  have h := C26_fetch_partial c hc g affected es hs
  revert h
  generalize shownFetch c g affected es = l'
  generalize handleErrors g affected es = l
  intro h
  induction h with
  | nil => simp
  | cons hh _ ih =>
    intro e he
    rcases List.mem_cons.1 he with rfl | he
    · rw [hh.message, hm]; rfl
    · exact ih e he

/-- **C26** A failure of the event stream of a subscription is masked. -/
theorem C26_stream_failure (c : Config) (hc : c.enabled = true) (g message code : String) :
    ∃ e, shownStreamFailure c g message code = [e] ∧
      Masked c g (addSubgraphName g { message, exts := { code := some code } }) e := by
  have hr : ∃ r, compile c = some r := ⟨_, by unfold compile; rw [if_pos hc]⟩
  obtain ⟨r, hr⟩ := hr
  refine ⟨_, ?_, apply_masked c r hr g _ ?_⟩
  · unfold shownStreamFailure mask; rw [hr]; rfl
  · simp [addSubgraphName]

/-- **C26** With masking off nothing is changed. -/
theorem C26_off (c : Config) (hc : c.enabled = false) (g : String) (affected : Option String)
    (es : List Error) : shownFetch c g affected es = handleErrors g affected es := by
  simp [shownFetch, mask, compile, hc]

theorem readKey_tidy (k : String) (v : Value) (e e' : Exts) (he : e.Tidy) (h : readKey k v e = some e') :
    e'.Tidy := by
  unfold readKey at h
  split at h
  · split at h
    · cases h; exact he
    · cases h
  · split at h
    · split at h
      · cases h; exact he
      · cases h
    · split at h
      · split at h
        · cases h; exact he
        · cases h; exact he
        · cases h
      · rename_i h1 h2 h3
        cases h
        intro kv hkv
        simp only [insertExt, List.mem_cons, List.mem_filter] at hkv
        rcases hkv with rfl | ⟨hkv, _⟩
        · simp [reserved, h1, h2, h3]
        · exact he kv hkv

/-- The extensions of an error that was read are tidy: what `field` shows of them is all there is to
serialize. -/
theorem C26_read_tidy (kvs : List (String × Value)) (e : Exts) (h : readExts kvs {} = some e) : e.Tidy := by
  have : ∀ (kvs : List (String × Value)) (e0 e : Exts), e0.Tidy → readExts kvs e0 = some e → e.Tidy := by
    intro kvs
    induction kvs with
    | nil => intro e0 e h0 h; simp [readExts] at h; exact h ▸ h0
    | cons x kvs ih =>
      intro e0 e h0 h
      obtain ⟨k, v⟩ := x
      rw [readExts] at h
      cases hk : readKey k v e0 with
      | none => simp [hk] at h
      | some e1 =>
        simp only [hk, Option.bind_some] at h
        exact ih e1 e (readKey_tidy k v e0 e1 h0 hk) h
  exact this kvs {} e (by intro kv h; simp at h) h

theorem masked_tidy (p : Plan) (e : Exts) (h : e.Tidy) : (p.apply e).Tidy := by
  cases p with
  | allow keys =>
    intro kv hkv
    exact h kv (List.mem_filter.1 hkv).1
  | deny keys =>
    simp only [Plan.apply]
    revert h
    revert e
    induction keys with
    | nil => intro e h; exact h
    | cons k keys ih =>
      intro e h
      rw [List.foldl_cons]
      refine ih _ ?_
      unfold removeField
      split
      · exact h
      · split
        · exact h
        · split
          · exact h
          · intro kv hkv; exact h kv (List.mem_filter.1 hkv).1

/-- The text sent for the extensions has exactly the entries `field` shows: those of the rest are
entries under keys that are not reserved, and hidden keys are not among them. -/
theorem C26_nothing_else (c : Config) (hc : c.enabled = true) (g : String) (affected : Option String)
    (e : Error) (hs : e.exts.service = none ∨ e.exts.service = some g) (ht : e.exts.Tidy) :
    ∀ e' ∈ shownFetch c g affected [e], ∀ kv ∈ e'.exts.rest, lets (policy c g) kv.1 := by
  have hr : ∃ r, compile c = some r := ⟨_, by unfold compile; rw [if_pos hc]⟩
  obtain ⟨r, hr⟩ := hr
  intro e' he' kv hkv
  have hf := C26_fetch_partial c hc g affected [e] (by simpa using hs)
  have hl : ∃ e1, handleErrors g affected [e] = [e1] ∧ e1.exts.Tidy := by
    refine ⟨_, rfl, ?_⟩
    cases affected <;> exact ht
  obtain ⟨e1, hl, ht1⟩ := hl
  have he1 : e' = r.apply e1 := by
    unfold shownFetch mask at he'
    rw [hr, hl] at he'
    simpa using he'
  have hsv := handled_service g affected [e] (by simpa using hs) e1 (by rw [hl]; simp)
  have hm := apply_masked c r hr g e1 hsv
  rw [← he1] at hm
  have ht' : e'.exts.Tidy := by
    rw [he1]
    unfold Runtime.apply
    rw [hsv]
    simp only
    split
    · exact masked_tidy _ _ ht1
    · exact ht1
  by_cases hlet : lets (policy c g) kv.1
  · exact hlet
  · exfalso
    have h0 := hm.hidden kv.1 hlet
    have hres := ht' kv hkv
    simp [reserved] at hres
    simp only [field, hres, if_false] at h0
    have : ∀ (m : List (String × Value)), kv ∈ m → lookup kv.1 m ≠ none := by
      intro m
      induction m with
      | nil => simp
      | cons x m ih =>
        intro hx
        rcases List.mem_cons.1 hx with rfl | hx'
        · simp [lookup]
        · obtain ⟨a, v⟩ := x
          by_cases ha : a = kv.1
          · simp [lookup, ha]
          · simp only [lookup, ha, if_false]; exact ih hx'
    exact this _ hkv h0

/-! ## Where the code does less than C26 -/

/-- **C26** is not met by events of subscriptions: whatever is configured, an error in an event of a
subgraph reaches the client as the subgraph wrote it. -/
theorem C26_subscription_event (c : Config) (g : String) (es : List Error)
    (hs : ∀ e ∈ es, e.exts.service = none) : shownEvent c g es = es := by
  unfold shownEvent mask
  split
  · rename_i r _
    rw [List.map_eq_iff]
    intro i
    cases hi : es[i]? with
    | none => rfl
    | some e =>
      have := hs e (List.mem_of_getElem? hi)
      simp [Runtime.apply, this]
  · rfl

/-- **C26** is not met if a subgraph names another one in `extensions.service`: then the policy of that
one counts. A subgraph whose messages are to be masked gets around it by naming one whose are not. -/
theorem C26_other_service (c : Config) (g h : String) (e : Error)
    (hh : e.exts.service = some h) (hm : masks c h = false) (affected : Option String) :
    ∀ e' ∈ shownFetch c g affected [e], e'.message = e.message := by
  intro e' he'
  unfold shownFetch mask at he'
  cases hr : compile c with
  | none =>
    rw [hr] at he'
    cases affected <;> simp [handleErrors, addSubgraphName, addAffectedPath] at he' <;> simp [he']
  | some r =>
    rw [hr] at he'
    obtain ⟨e1, he1, rfl⟩ := List.mem_map.1 he'
    have hs : e1.exts.service = some h ∧ e1.message = e.message := by
      cases affected <;> simp [handleErrors, addSubgraphName, addAffectedPath, hh] at he1 <;>
        subst he1 <;> simp
    rw [(apply_masked c r hr h e1 hs.1).message, hm]
    exact hs.2

/-! ## Concrete cases -/

namespace Ex

def c : Config where
  enabled := true
  message := "Unexpected error"
  allEnabled := true
  allExtensions := some (.allow ["code", "service"])
  subgraphs := some [("open", ⟨some false, none⟩), ("secret", ⟨none, some (.deny ["stack"])⟩)]

def e : Error where
  message := "db password wrong"
  exts := { rest := [("stack", .str "at x"), ("hint", .str "retry")] }

example : readExts [("stack", .str "at x"), ("hint", .str "retry")] {} =
    some { rest := [("hint", .str "retry"), ("stack", .str "at x")] } := by rfl

/-- The hypotheses of the theorems can be met. -/
example : shownFetch c "users" (some "a.b") [e] =
    [{ message := "Unexpected error", exts := { code := some "DOWNSTREAM_SERVICE_ERROR", service := some "users" } }] := by
  rfl

example : shownFetch c "secret" none [e] =
    [{ message := "Unexpected error",
       exts := { code := some "DOWNSTREAM_SERVICE_ERROR", service := some "secret", rest := [("hint", .str "retry")] } }] := by
  rfl

example : e.exts.Tidy := by
  intro kv h
  simp [e] at h
  rcases h with rfl | rfl <;> decide

/-- The leaks are real: masking is on for all, and the message is shown. -/
example : shownEvent c "users" [e] = [e] ∧ masks c "users" = true :=
  ⟨C26_subscription_event c "users" [e] (by simp [e]), rfl⟩

example : ∀ e' ∈ shownFetch c "users" none [{ e with exts := { service := some "open" } }],
    e'.message = "db password wrong" :=
  C26_other_service c "users" "open" _ rfl rfl none

end Ex

end Verif.Masking
