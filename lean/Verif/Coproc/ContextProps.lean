import Verif.Coproc.Context

/-!
# What a coprocessor can do to the request context (C115)
-/

namespace Verif.Coproc

/-- What the context says for a key. -/
def Ctx.says (c : Ctx) (k : String) : Option JV := lookup (reserved c ++ c.custom) k

/-- A value; `null` is none. -/
def present : JV → Option JV
  | .null => none
  | v => some v

/-- What a patch says last for a key; `null` takes the key away. -/
def lastFor (k : String) (ps : List (String × JV)) (old : Option JV) : Option JV :=
  ps.foldl (fun r p => if p.1 = k then present p.2 else r) old

/-- What the router alone may say: who asks, what is asked and by which client. -/
structure SameOwn (c c' : Ctx) : Prop where
  opName : c'.opName = c.opName
  opKind : c'.opKind = c.opKind
  unresolved : c'.unresolved = c.unresolved
  jwtScopes : c'.jwtScopes = c.jwtScopes
  jwtStatus : c'.jwtStatus = c.jwtStatus
  clientName : c'.clientName = c.clientName
  clientVersion : c'.clientVersion = c.clientVersion

theorem SameOwn.refl (c : Ctx) : SameOwn c c := ⟨rfl, rfl, rfl, rfl, rfl, rfl, rfl⟩

theorem SameOwn.trans {a b c : Ctx} (h : SameOwn a b) (k : SameOwn b c) : SameOwn a c :=
  ⟨k.opName.trans h.opName, k.opKind.trans h.opKind, k.unresolved.trans h.unresolved,
    k.jwtScopes.trans h.jwtScopes, k.jwtStatus.trans h.jwtStatus, k.clientName.trans h.clientName,
    k.clientVersion.trans h.clientVersion⟩

theorem own_setLabels {c c' : Ctx} {v : JV} (h : setLabels c v = some c') :
    SameOwn c c' ∧ c'.custom = c.custom ∧ c'.skip = c.skip := by
  cases v <;> simp only [setLabels, Option.map_eq_some_iff, Option.some.injEq] at h
  · subst h; exact ⟨⟨rfl, rfl, rfl, rfl, rfl, rfl, rfl⟩, rfl, rfl⟩
  all_goals
    obtain ⟨_, _, rfl⟩ := h
    exact ⟨⟨rfl, rfl, rfl, rfl, rfl, rfl, rfl⟩, rfl, rfl⟩

theorem own_setSkip {c c' : Ctx} {v : JV} (h : setSkip c v = some c') :
    SameOwn c c' ∧ c'.custom = c.custom ∧ c'.labels = c.labels := by
  cases v <;> simp only [setSkip, Option.some.injEq, reduceCtorEq] at h
  all_goals
    subst h
    exact ⟨⟨rfl, rfl, rfl, rfl, rfl, rfl, rfl⟩, rfl, rfl⟩

/-- The keys that a coprocessor may set besides its own. -/
theorem setReserved_some {c c' : Ctx} {k : String} {v : JV} (h : setReserved c k v = some c') :
    (k = "hive::progressive_override::labels_to_override" ∧ setLabels c v = some c') ∨
    (k = "hive::persisted_documents::skip_enforcement" ∧ setSkip c v = some c') := by
  unfold setReserved at h
  split at h
  · cases h
  split at h
  · split at h
    · cases h
    split at h
    · exact Or.inl ⟨‹_›, h⟩
    · cases h
  split at h
  · cases h
  split at h
  · cases h
  split at h
  · split at h
    · exact Or.inr ⟨‹_›, h⟩
    · cases h
  · cases h

theorem own_setKey {c c' : Ctx} {k : String} {v : JV} (h : setKey c k v = some c') : SameOwn c c' := by
  unfold setKey at h
  split at h
  · rcases setReserved_some h with ⟨_, h⟩ | ⟨_, h⟩
    · exact (own_setLabels h).1
    · exact (own_setSkip h).1
  · cases h
    exact ⟨rfl, rfl, rfl, rfl, rfl, rfl, rfl⟩

/-- No answer of a coprocessor changes what the router says of the operation, of authentication, of the
client, or of the labels that are to be decided. -/
theorem C115_own {c c' : Ctx} {ps : List (String × JV)} (h : applyPatch c ps = some c') : SameOwn c c' := by
  induction ps generalizing c with
  | nil => cases h; exact SameOwn.refl _
  | cons p ps ih =>
    obtain ⟨k, v⟩ := p
    obtain ⟨c1, h1, h2⟩ := Option.bind_eq_some_iff.1 h
    exact (own_setKey h1).trans (ih h2)

/-- An answer that sets a key of the router's that is not open to coprocessors is refused, wherever in the
answer it stands. -/
theorem C115_refused {c : Ctx} {ps : List (String × JV)} {k : String} {v : JV} (hm : (k, v) ∈ ps)
    (hk : starts hive k = true) (h1 : k ≠ "hive::progressive_override::labels_to_override")
    (h2 : k ≠ "hive::persisted_documents::skip_enforcement") : applyPatch c ps = none := by
  induction ps generalizing c with
  | nil => cases hm
  | cons p ps ih =>
    obtain ⟨k', v'⟩ := p
    cases hs : setKey c k' v' with
    | none => simp [applyPatch, hs]
    | some c1 =>
      rcases List.mem_cons.1 hm with he | hm
      · cases he
        unfold setKey at hs
        rw [if_pos hk] at hs
        rcases setReserved_some hs with ⟨h, _⟩ | ⟨h, _⟩
        · exact absurd h h1
        · exact absurd h h2
      · simp [applyPatch, hs, ih hm]

/-! ## Keys of the coprocessor's own -/

/-- What a coprocessor may say of a key: anything of its own, and of two of the router's keys what they can
be. -/
def Open (k : String) (v : JV) : Prop :=
  starts hive k = false ∨
  (k = "hive::progressive_override::labels_to_override" ∧ (v = .null ∨ ∃ ls : List String, v = .arr (ls.map .str))) ∨
  (k = "hive::persisted_documents::skip_enforcement" ∧ (v = .null ∨ ∃ b, v = .bool b))

theorem strings_str (ls : List String) : strings (.arr (ls.map .str)) = some ls := by
  unfold strings
  dsimp only
  induction ls with
  | nil => rfl
  | cons l ls ih => simp [ih]

/-- An answer that says only what a coprocessor may say is not refused. -/
theorem C115_accepted {ps : List (String × JV)} (h : ∀ p ∈ ps, Open p.1 p.2) (c : Ctx) :
    ∃ c', applyPatch c ps = some c' := by
  induction ps generalizing c with
  | nil => exact ⟨c, rfl⟩
  | cons p ps ih =>
    obtain ⟨k, v⟩ := p
    have h1 : ∃ c1, setKey c k v = some c1 := by
      rcases h (k, v) (by simp) with hk | ⟨hk, hv⟩ | ⟨hk, hv⟩
      · dsimp only at hk
        exact ⟨_, by rw [setKey, hk]; rfl⟩
      · dsimp only at hk hv
        subst hk
        have hr : setKey c "hive::progressive_override::labels_to_override" v = setLabels c v := by
          unfold setKey setReserved
          rw [if_pos (by decide +kernel), if_neg (by decide +kernel), if_pos (by decide +kernel),
            if_neg (by decide +kernel), if_pos rfl]
        rw [hr]
        rcases hv with rfl | ⟨ls, rfl⟩
        · exact ⟨_, rfl⟩
        · exact ⟨_, by rw [setLabels, strings_str]; rfl; simp⟩
      · dsimp only at hk hv
        subst hk
        have hr : setKey c "hive::persisted_documents::skip_enforcement" v = setSkip c v := by
          unfold setKey setReserved
          rw [if_pos (by decide +kernel), if_neg (by decide +kernel), if_neg (by decide +kernel),
            if_neg (by decide +kernel), if_neg (by decide +kernel), if_pos (by decide +kernel), if_pos rfl]
        rw [hr]
        rcases hv with rfl | ⟨b, rfl⟩
        · exact ⟨_, rfl⟩
        · exact ⟨_, rfl⟩
    obtain ⟨c1, h1⟩ := h1
    obtain ⟨c', h2⟩ := ih (fun q hq => h q (.tail _ hq)) c1
    exact ⟨c', by simp [applyPatch, h1, h2]⟩

theorem lookup_filter (cs : List (String × JV)) (k k' : String) :
    lookup (cs.filter (fun p => p.1 ≠ k)) k' = if k' = k then none else lookup cs k' := by
  unfold lookup
  induction cs with
  | nil => simp
  | cons p cs ih =>
    by_cases h : p.1 = k
    · rw [List.filter_cons_of_neg (by simp [h]), ih]
      split
      · rfl
      · rename_i hk
        rw [List.find?_cons_of_neg (by simp [h]; exact fun h' => hk h'.symm)]
    · rw [List.filter_cons_of_pos (by simp [h])]
      by_cases hp : p.1 = k'
      · have hk : k' ≠ k := fun e => h (hp.trans e)
        simp [hp, hk]
      · rw [List.find?_cons_of_neg (by simp [hp]), ih, List.find?_cons_of_neg (by simp [hp])]

theorem lookup_update (k : String) (v : JV) (cs : List (String × JV)) (k' : String)
    (h : cs.any (fun p => p.1 = k) = true) :
    lookup (customUpdate k v cs) k' = if k' = k then some v else lookup cs k' := by
  unfold lookup
  induction cs with
  | nil => simp at h
  | cons p cs ih =>
    rw [customUpdate]
    split
    · rename_i hp
      by_cases hk : k' = k
      · subst hk; simp
      · have : p.1 ≠ k' := fun e => hk (e.symm.trans hp)
        simp [hk, Ne.symm hk, this]
    · rename_i hp
      by_cases hk : p.1 = k'
      · have : k' ≠ k := fun e => hp (hk.trans e)
        simp [hk, this]
      · rw [List.find?_cons_of_neg (by simp [hk]), ih (by simpa [hp] using h),
          List.find?_cons_of_neg (by simp [hk])]

theorem lookup_push (cs : List (String × JV)) (k : String) (v : JV) (k' : String)
    (h : ¬ cs.any (fun p => p.1 = k) = true) :
    lookup (cs ++ [(k, v)]) k' = if k' = k then some v else lookup cs k' := by
  have hn : ∀ x ∈ cs, ¬ x.1 = k := fun x hx e => h (List.any_eq_true.2 ⟨x, hx, by simpa using e⟩)
  unfold lookup
  rw [List.find?_append]
  by_cases hk : k' = k
  · subst hk
    rw [List.find?_eq_none.2 (fun x hx => by simpa using hn x hx)]
    simp
  · have hk' : ¬ k = k' := fun e => hk e.symm
    simp [hk, hk']

theorem lookup_customSet (cs : List (String × JV)) (k : String) (v : JV) (k' : String) :
    lookup (customSet cs k v) k' =
      if k = k' then present v else lookup cs k' := by
  have key : ∀ w : JV, lookup (if cs.any (fun p => p.1 = k) then customUpdate k w cs else cs ++ [(k, w)]) k' =
      if k = k' then some w else lookup cs k' := by
    intro w
    have he : (k = k') = (k' = k) := propext ⟨Eq.symm, Eq.symm⟩
    simp only [he]
    split
    · exact lookup_update _ _ _ _ ‹_›
    · exact lookup_push _ _ _ _ ‹_›
  cases v with
  | null =>
    have he : (k = k') = (k' = k) := propext ⟨Eq.symm, Eq.symm⟩
    simp only [customSet, lookup_filter, he, present]
  | bool _ => exact key _
  | num _ => exact key _
  | str _ => exact key _
  | arr _ => exact key _
  | obj _ => exact key _

theorem lookup_setKey {c c' : Ctx} {k : String} {v : JV} (h : setKey c k v = some c') {k' : String}
    (hk : starts hive k' = false) : lookup c'.custom k' =
      if k = k' then present v else lookup c.custom k' := by
  unfold setKey at h
  split at h
  · rename_i hh
    have hne : ¬ k = k' := by
      intro e
      rw [e, hk] at hh
      cases hh
    rw [if_neg hne]
    rcases setReserved_some h with ⟨_, h⟩ | ⟨_, h⟩
    · rw [(own_setLabels h).2.1]
    · rw [(own_setSkip h).2.1]
  · cases h
    exact lookup_customSet c.custom k v k'

/-- For keys of its own, the context has what the coprocessor said last, and what it said nothing of stays. -/
theorem C115_custom {c c' : Ctx} {ps : List (String × JV)} (h : applyPatch c ps = some c') {k : String}
    (hk : starts hive k = false) : lookup c'.custom k = lastFor k ps (lookup c.custom k) := by
  induction ps generalizing c with
  | nil => cases h; rfl
  | cons p ps ih =>
    obtain ⟨k', v⟩ := p
    obtain ⟨c1, h1, h2⟩ := Option.bind_eq_some_iff.1 h
    rw [ih h2, lookup_setKey h1 hk]
    rfl

theorem keys_customSet {cs : List (String × JV)} {k : String} {v : JV} {p : String × JV}
    (h : p ∈ customSet cs k v) : p.1 = k ∨ p ∈ cs := by
  have hu : ∀ cs : List (String × JV), p ∈ customUpdate k v cs → p.1 = k ∨ p ∈ cs := by
    intro cs
    induction cs with
    | nil => intro h; cases h
    | cons q cs ih =>
      intro h
      rw [customUpdate] at h
      split at h
      · rcases List.mem_cons.1 h with rfl | h
        · exact Or.inl rfl
        · exact Or.inr (List.mem_cons_of_mem _ h)
      · rcases List.mem_cons.1 h with rfl | h
        · exact Or.inr List.mem_cons_self
        · exact (ih h).imp_right (List.mem_cons_of_mem _)
  cases v with
  | null => exact Or.inr (List.mem_filter.1 h).1
  | _ =>
    simp only [customSet] at h
    split at h
    · exact hu cs h
    · rcases List.mem_append.1 h with h | h
      · exact Or.inr h
      · exact Or.inl (by rw [List.mem_singleton.1 h])

/-- Whatever coprocessors answer, no key of the router's is among their own, so the two cannot be mixed
up. -/
theorem C115_apart {c c' : Ctx} {ps : List (String × JV)} (h : applyPatch c ps = some c')
    (hc : ∀ p ∈ c.custom, starts hive p.1 = false) : ∀ p ∈ c'.custom, starts hive p.1 = false := by
  induction ps generalizing c with
  | nil => cases h; exact hc
  | cons p ps ih =>
    obtain ⟨k, v⟩ := p
    obtain ⟨c1, h1, h2⟩ := Option.bind_eq_some_iff.1 h
    refine ih h2 ?_
    unfold setKey at h1
    split at h1
    · rcases setReserved_some h1 with ⟨_, h⟩ | ⟨_, h⟩
      · rw [(own_setLabels h).2.1]; exact hc
      · rw [(own_setSkip h).2.1]; exact hc
    · rename_i hk
      cases h1
      intro q hq
      rcases keys_customSet hq with h | h
      · rw [h]; simpa using hk
      · exact hc q h

/-! ## The two keys of the router's that are open -/

theorem mapM_strings {vs : List JV} {ls : List String}
    (h : vs.mapM (fun v => match v with | .str s => some s | _ => none) = some ls) : vs = ls.map .str := by
  induction vs generalizing ls with
  | nil => cases h; rfl
  | cons v vs ih =>
    simp only [List.mapM_cons, Option.bind_eq_bind, Option.bind_eq_some_iff] at h
    obtain ⟨s, hv, ls', h2, h3⟩ := h
    cases h3
    cases v <;> cases hv
    rw [List.map_cons, ih h2]

/-- The labels are those that were said last; the only values that are taken are `null` and lists of
strings. -/
theorem C115_labels {c c' : Ctx} {v : JV}
    (h : applyPatch c [("hive::progressive_override::labels_to_override", v)] = some c') :
    (v = .null ∧ c'.labels = none ∨ ∃ ls : List String, v = .arr (ls.map .str) ∧ c'.labels = some ls) ∧
    c'.skip = c.skip ∧ c'.custom = c.custom := by
  have hs : setLabels c v = some c' := by
    simp only [applyPatch, Option.bind_eq_some_iff] at h
    obtain ⟨c1, h1, h2⟩ := h
    cases h2
    unfold setKey at h1
    rw [if_pos (by decide)] at h1
    rcases setReserved_some h1 with ⟨_, h⟩ | ⟨h, _⟩
    · exact h
    · simp at h
  refine ⟨?_, (own_setLabels hs).2.2, (own_setLabels hs).2.1⟩
  cases v with
  | null => simp only [setLabels, Option.some.injEq] at hs; subst hs; exact Or.inl ⟨rfl, rfl⟩
  | arr vs =>
    simp only [setLabels, strings, Option.map_eq_some_iff] at hs
    obtain ⟨ls, h1, rfl⟩ := hs
    exact Or.inr ⟨ls, by rw [mapM_strings h1], rfl⟩
  | bool b => simp [setLabels, strings] at hs
  | num t => simp [setLabels, strings] at hs
  | str s => simp [setLabels, strings] at hs
  | obj fs => simp [setLabels, strings] at hs

/-- Whether stored documents are required is what was said last; the only values that are taken are `null`,
`true` and `false`. -/
theorem C115_skip {c c' : Ctx} {v : JV}
    (h : applyPatch c [("hive::persisted_documents::skip_enforcement", v)] = some c') :
    (v = .null ∧ c'.skip = none ∨ ∃ b, v = .bool b ∧ c'.skip = some b) ∧
    c'.labels = c.labels ∧ c'.custom = c.custom := by
  have hs : setSkip c v = some c' := by
    simp only [applyPatch, Option.bind_eq_some_iff] at h
    obtain ⟨c1, h1, h2⟩ := h
    cases h2
    unfold setKey at h1
    rw [if_pos (by decide)] at h1
    rcases setReserved_some h1 with ⟨h, _⟩ | ⟨_, h⟩
    · simp at h
    · exact h
  refine ⟨?_, (own_setSkip hs).2.2, (own_setSkip hs).2.1⟩
  cases v <;> simp only [setSkip, Option.some.injEq, reduceCtorEq] at hs
  · subst hs; exact Or.inl ⟨rfl, rfl⟩
  · subst hs; exact Or.inr ⟨_, rfl, rfl⟩

/-! ## What is told -/

theorem lookup_append (a b : List (String × JV)) (k : String) :
    lookup (a ++ b) k = (lookup a k).or (lookup b k) := by
  unfold lookup
  rw [List.find?_append]
  cases a.find? (fun p => p.1 = k) <;> simp

theorem reserved_prefix {c : Ctx} {p : String × JV} (h : p ∈ reserved c) :
    prefixes.any (fun q => starts q p.1) = true := by
  simp only [reserved, List.mem_append, Option.mem_toList, Option.map_eq_some_iff] at h
  rcases h with (((((((h | h) | h) | h) | h) | h) | h) | h) | h <;>
    (obtain ⟨_, _, rfl⟩ := h; dsimp only; decide)

theorem lookup_reserved_none {c : Ctx} {k : String} (h : ¬ prefixes.any (fun q => starts q k) = true) :
    lookup (reserved c) k = none := by
  unfold lookup
  rw [Option.map_eq_none_iff, List.find?_eq_none]
  intro p hp he
  have he : p.1 = k := by simpa using he
  exact h (he ▸ reserved_prefix hp)

theorem starts_hive {k : String} (h : prefixes.any (fun q => starts q k) = true) : starts hive k = true := by
  have key : ∀ p : String, hive.toList <+: p.toList → starts p k = true → starts hive k = true := by
    intro p hp hs
    unfold starts at *
    rw [List.isPrefixOf_iff_prefix] at *
    exact hp.trans hs
  simp only [prefixes, List.any_cons, List.any_nil, Bool.or_false, Bool.or_eq_true] at h
  rcases h with h | h | h | h | h
  all_goals exact key _ (List.isPrefixOf_iff_prefix.1 (by decide)) h

/-- A coprocessor that is sent the keys of a list is sent exactly what the context says for those keys, and
nothing of any other key; one that is sent no context is sent none. -/
theorem C115_told {c : Ctx} (hc : ∀ p ∈ c.custom, starts hive p.1 = false) :
    toldContext c .none = none ∧
    ∀ ks, ∃ l, toldContext c (.keys ks) = some l ∧ ∀ k v, (k, v) ∈ l ↔ k ∈ ks ∧ c.says k = some v := by
  refine ⟨rfl, fun ks => ⟨_, rfl, fun k v => ?_⟩⟩
  have key : ∀ k, (if prefixes.any (fun p => starts p k) then (lookup (reserved c) k).map (fun v => (k, v))
      else (lookup c.custom k).map (fun v => (k, v))) = (c.says k).map (fun v => (k, v)) := by
    intro k
    unfold Ctx.says
    rw [lookup_append]
    split
    · rename_i h
      have : lookup c.custom k = none := by
        unfold lookup
        rw [Option.map_eq_none_iff, List.find?_eq_none]
        intro p hp he
        have he : p.1 = k := by simpa using he
        have h1 := hc p hp
        rw [he, starts_hive h] at h1
        cases h1
      rw [this, Option.or_none]
    · rename_i h
      rw [lookup_reserved_none h, Option.none_or]
  simp only [List.mem_filterMap, key, Option.map_eq_some_iff, Prod.mk.injEq]
  constructor
  · rintro ⟨k', hk, v', hv, rfl, rfl⟩
    exact ⟨hk, hv⟩
  · rintro ⟨hk, hv⟩
    exact ⟨k, hk, v, hv, rfl, rfl⟩

theorem lookup_piece {α : Type} (o : Option α) (f : α → JV) (key k : String) :
    lookup (o.map (fun a => (key, f a))).toList k = if key = k then o.map f else none := by
  cases o with
  | none => simp [lookup]
  | some a => by_cases h : key = k <;> simp [lookup, h]

/-- What the context says is what it holds: for each of the router's keys the part of that name, and for
others what was set. Whoever is sent all of it is sent the same. -/
theorem C115_says {c : Ctx} (hc : ∀ p ∈ c.custom, starts hive p.1 = false) :
    (c.says "hive::operation::name" = c.opName.map .str ∧
     c.says "hive::operation::kind" = c.opKind.map .str ∧
     c.says "hive::progressive_override::unresolved_labels" = c.unresolved.map (fun l => .arr (l.map .str)) ∧
     c.says "hive::progressive_override::labels_to_override" = c.labels.map (fun l => .arr (l.map .str)) ∧
     c.says "hive::authentication::jwt_scopes" = c.jwtScopes.map (fun l => .arr (l.map .str)) ∧
     c.says "hive::authentication::jwt_status" = c.jwtStatus.map .bool ∧
     c.says "hive::telemetry::client_name" = c.clientName.map .str ∧
     c.says "hive::telemetry::client_version" = c.clientVersion.map .str ∧
     c.says "hive::persisted_documents::skip_enforcement" = c.skip.map .bool) ∧
    (∀ k, starts hive k = false → c.says k = lookup c.custom k) ∧
    ∃ l, toldContext c .all = some l ∧ ∀ k, lookup l k = c.says k := by
  have hn : ∀ k, starts hive k = true → lookup c.custom k = none := by
    intro k hk
    unfold lookup
    rw [Option.map_eq_none_iff, List.find?_eq_none]
    intro p hp he
    have he : p.1 = k := by simpa using he
    have h1 := hc p hp
    rw [he, hk] at h1
    cases h1
  refine ⟨?_, ?_, ⟨_, rfl, fun k => rfl⟩⟩
  · refine ⟨?_, ?_, ?_, ?_, ?_, ?_, ?_, ?_, ?_⟩
    all_goals
      unfold Ctx.says reserved
      rw [lookup_append, hn _ (by decide +kernel)]
      simp only [lookup_append, lookup_piece]
      simp
  · intro k hk
    unfold Ctx.says
    rw [lookup_append, lookup_reserved_none, Option.none_or]
    intro h
    rw [starts_hive h] at hk
    cases hk

/-! ## Cases -/

namespace Ex

def ctx : Ctx :=
  { opName := some "Q", opKind := some "query", unresolved := some ["new"], labels := none,
    jwtScopes := some ["read"], jwtStatus := some true, clientName := none, clientVersion := none,
    skip := none, custom := [("tenant", .str "a")] }

/-- `C115_own`, `C115_custom`, `C115_apart`: an answer that sets a label and takes a key of its own away. -/
example : ∃ c', applyPatch ctx [("hive::progressive_override::labels_to_override", .arr [.str "new"]),
      ("tenant", .null), ("plan", .str "pro")] = some c' ∧
    c'.labels = some ["new"] ∧ c'.jwtScopes = some ["read"] ∧ c'.custom.length = 1 ∧
    (∀ p ∈ ctx.custom, starts hive p.1 = false) ∧ starts hive "plan" = false := by
  refine ⟨_, rfl, rfl, rfl, by decide, ?_, by decide⟩
  intro p hp
  cases List.mem_singleton.1 hp
  decide

/-- `C115_refused`: scopes cannot be set. -/
example : applyPatch ctx [("tenant", .null), ("hive::authentication::jwt_scopes", .arr [.str "admin"])] =
    none :=
  C115_refused (k := "hive::authentication::jwt_scopes") (v := .arr [.str "admin"])
    (by simp) (by decide) (by decide) (by decide)

/-- `C115_told`: of two keys that are asked for, one of them hidden by not being there. -/
example : toldContext ctx (.keys ["tenant", "hive::authentication::jwt_status", "x"]) =
    some [("tenant", .str "a"), ("hive::authentication::jwt_status", .bool true)] := by
  simp [toldContext, prefixes, starts, lookup, reserved, ctx]

end Ex

end Verif.Coproc
