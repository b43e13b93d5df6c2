import Verif.Client.ResolveSpec
import Verif.Client.TableProps

/-!
# Lemmas on answers to introspection
-/

namespace Verif.Client
open Verif (Value Sel Lit SortedKeys)

/-! ## Sorting -/

theorem insertKey_perm {α : Type} (x : String × α) : ∀ l, (insertKey x l).Perm (x :: l)
  | [] => .refl _
  | y :: ys => by
    unfold insertKey
    split
    · exact .refl _
    · exact ((insertKey_perm x ys).cons y).trans (.swap x y ys)

theorem sortKeys_perm {α : Type} : ∀ l : List (String × α), (sortKeys l).Perm l
  | [] => .refl _
  | x :: xs => (insertKey_perm x _).trans ((sortKeys_perm xs).cons x)

theorem insertKey_sorted {α : Type} (x : String × α) :
    ∀ l, SortedKeys l → x.1 ∉ l.map (·.1) → SortedKeys (insertKey x l)
  | [], _, _ => by simp [insertKey, SortedKeys]
  | y :: ys, h, hx => by
    unfold SortedKeys at h
    rw [List.pairwise_cons] at h
    simp only [List.map_cons, List.mem_cons, not_or] at hx
    unfold insertKey
    split
    · next hle =>
      have hlt : x.1 < y.1 := by
        rcases str_lt_or_eq_or_gt x.1 y.1 with h1 | h1 | h1
        · exact h1
        · exact absurd h1 hx.1
        · exact absurd h1 (String.not_lt.2 hle)
      unfold SortedKeys
      rw [List.pairwise_cons]
      refine ⟨?_, List.pairwise_cons.2 h⟩
      intro z hz
      rcases List.mem_cons.1 hz with rfl | hz
      · exact hlt
      · exact str_lt_trans hlt (h.1 z hz)
    · next hle =>
      have hlt : y.1 < x.1 := String.not_le.1 hle
      unfold SortedKeys
      rw [List.pairwise_cons]
      refine ⟨?_, insertKey_sorted x ys h.2 hx.2⟩
      intro z hz
      rcases List.mem_cons.1 ((insertKey_perm x ys).mem_iff.1 hz) with rfl | hz
      · exact hlt
      · exact h.1 z hz

theorem sortKeys_sorted {α : Type} : ∀ l : List (String × α), (l.map (·.1)).Nodup → SortedKeys (sortKeys l)
  | [], _ => .nil
  | x :: xs, h => by
    rw [List.map_cons, List.nodup_cons] at h
    refine insertKey_sorted x _ (sortKeys_sorted xs h.2) ?_
    rw [((sortKeys_perm xs).map (·.1)).mem_iff]
    exact h.1

/-- An answer with distinct keys is an object. -/
theorem asObject_ok {P : List (String × Value) → Prop} {r : Option (List (String × Value))}
    {es : List (String × Value)} (hr : r = some es) (hn : (es.map (·.1)).Nodup) (hp : P es) :
    ∃ v, asObject r = some v ∧ IsObject P v := by
  subst hr
  exact ⟨_, rfl, _, es, rfl, sortKeys_sorted es hn, sortKeys_perm es, hp⟩

/-! ## Lists -/

theorem each_ok {α : Type} {R : Node → Value → Prop} {f : α → Option Value} (node : α → Node) :
    ∀ xs : List α, (∀ x ∈ xs, ∃ v, f x = some v ∧ R (node x) v) →
      ∃ vs, each f xs = some vs ∧ Along R (xs.map node) vs
  | [], _ => ⟨[], rfl, rfl⟩
  | x :: xs, h => by
    obtain ⟨v, hv, hr⟩ := h x List.mem_cons_self
    obtain ⟨vs, hvs, hrs⟩ := each_ok node xs (fun y hy => h y (List.mem_cons_of_mem _ hy))
    exact ⟨v :: vs, by simp [each, hv, hvs], v, vs, rfl, hr, hrs⟩

theorem asArray_ok {α : Type} {ok : Node → List (String × Value) → Prop} {f : α → Option Value}
    (node : α → Node) (xs : List α) (h : ∀ x ∈ xs, ∃ v, f x = some v ∧ IsObject (ok (node x)) v) :
    ∃ v, asArray f xs = some v ∧ Shows ok (.nodes (xs.map node)) v := by
  obtain ⟨vs, hvs, ha⟩ := each_ok (R := fun n v => IsObject (ok n) v) node xs h
  exact ⟨.arr vs, by simp [asArray, hvs], vs, rfl, ha⟩

theorem kept_filter {α : Type} {P : α → Prop} {p : α → Bool} (h : ∀ x, p x = true ↔ P x) :
    ∀ xs : List α, Kept P xs (xs.filter p)
  | [] => .nil
  | x :: xs => by
    rw [List.filter_cons]
    by_cases hx : p x = true
    · rw [if_pos hx]; exact .keep ((h x).1 hx) (kept_filter h xs)
    · rw [if_neg hx]; exact .drop (fun hp => hx ((h x).2 hp)) (kept_filter h xs)

theorem kept_all {α : Type} {P : α → Prop} : ∀ xs : List α, (∀ x ∈ xs, P x) → Kept P xs xs
  | [], _ => .nil
  | x :: xs, h => .keep (h x List.mem_cons_self) (kept_all xs (fun y hy => h y (List.mem_cons_of_mem _ hy)))

theorem mem_keys (n : String) : ∀ ns, n ∈ keys ns ↔ n ∈ ns
  | [] => Iff.rfl
  | m :: ns => by
    have ih := mem_keys n ns
    unfold keys
    split
    · next h =>
      rw [ih, List.mem_cons]
      have hm : m ∈ ns := by simpa using h
      constructor
      · exact .inr
      · rintro (rfl | h)
        · exact hm
        · exact h
    · rw [List.mem_cons, List.mem_cons, ih]

theorem keys_nodup : ∀ ns, (keys ns).Nodup
  | [] => .nil
  | m :: ns => by
    unfold keys
    split
    · exact keys_nodup ns
    · next h =>
      rw [List.nodup_cons]
      refine ⟨?_, keys_nodup ns⟩
      rw [mem_keys]
      simpa using h

/-! ## Types by name -/

theorem typeByName_some {d : Doc} {n : String} {t : TypeDef} (h : typeByName d n = some t) :
    Def.type t ∈ d ∧ t.name = n := by
  obtain ⟨x, hx, hf⟩ := List.exists_of_findSome?_eq_some h
  cases x with
  | schema s => cases hf
  | directive s => cases hf
  | type u =>
    simp only at hf
    split at hf
    · next hn => cases hf; exact ⟨hx, hn⟩
    · cases hf

theorem typeByName_none {d : Doc} {n : String} (h : typeByName d n = none) :
    ∀ t, Def.type t ∈ d → t.name ≠ n := by
  intro t ht hn
  have := List.findSome?_eq_none_iff.1 h _ ht
  simp [hn] at this

theorem typeByName_of {d : Doc} (hn : (typeNames d).Nodup) {t : TypeDef} (h : Def.type t ∈ d) :
    typeByName d t.name = some t := by
  cases hb : typeByName d t.name with
  | none => exact absurd rfl (typeByName_none hb t h)
  | some u =>
    have := typeByName_some hb
    rw [one_type hn this.1 h this.2]

theorem lastByName_of {d : Doc} (hn : (typeNames d).Nodup) {t : TypeDef} (h : Def.type t ∈ d) :
    lastByName d t.name = some t := by
  unfold lastByName
  cases hb : typeByName d.reverse t.name with
  | none => exact absurd rfl (typeByName_none hb t (List.mem_reverse.2 h))
  | some u =>
    have := typeByName_some hb
    rw [one_type hn (List.mem_reverse.1 this.1) h this.2]

/-- The types that have the names in a list. -/
theorem filterMap_types {d : Doc} (hn : (typeNames d).Nodup) {look : String → Option TypeDef}
    (hl : ∀ t, Def.type t ∈ d → look t.name = some t)
    (hs : ∀ n t, look n = some t → Def.type t ∈ d ∧ t.name = n) {ns : List String} (hd : ns.Nodup) :
    (ns.filterMap look).Nodup ∧ ∀ t, t ∈ ns.filterMap look ↔ Def.type t ∈ d ∧ t.name ∈ ns := by
  constructor
  · induction ns with
    | nil => exact .nil
    | cons n ns ih =>
      rw [List.nodup_cons] at hd
      rw [List.filterMap_cons]
      cases hb : look n with
      | none => exact ih hd.2
      | some t =>
        rw [List.nodup_cons]
        refine ⟨?_, ih hd.2⟩
        intro hm
        obtain ⟨m, hm, hmt⟩ := List.mem_filterMap.1 hm
        have h1 := (hs n t hb).2
        have h2 := (hs m t hmt).2
        rw [← h1, h2] at hd
        exact hd.1 hm
  · intro t
    rw [List.mem_filterMap]
    constructor
    · rintro ⟨n, hm, ht⟩
      obtain ⟨h1, rfl⟩ := hs n t ht
      exact ⟨h1, hm⟩
    · rintro ⟨h1, h2⟩
      exact ⟨_, h2, hl t h1⟩

theorem map_type_nodup {ts : List TypeDef} (h : ts.Nodup) : (ts.map Node.type).Nodup :=
  List.Pairwise.map _ (fun _ _ hab he => hab (Node.type.inj he)) h

theorem mem_map_type {ts : List TypeDef} {n : Node} : n ∈ ts.map Node.type ↔ ∃ t ∈ ts, n = .type t := by
  rw [List.mem_map]
  exact ⟨fun ⟨t, h, e⟩ => ⟨t, h, e.symm⟩, fun ⟨t, h, e⟩ => ⟨t, h, e.symm⟩⟩

/-! ## Directives -/

theorem find_beq (n : String) : ∀ dirs : List Dir,
    dirs.find? (fun d => d.name == n) = dirs.find? (fun d => d.name = n) := by
  intro dirs
  congr 1

theorem find_lookup (n : String) : ∀ args : List (String × DVal),
    (args.find? (fun a => a.1 = n)).map (·.2) = args.lookup n
  | [] => rfl
  | (k, v) :: args => by
    rw [List.find?_cons, List.lookup_cons]
    by_cases h : k = n
    · subst h; simp
    · have h' : (n == k) = false := by simpa using fun e => h e.symm
      simp only [h, decide_false, h']
      exact find_lookup n args

theorem dirString_eq (dir arg : String) (dirs : List Dir) :
    dirString dir arg dirs =
      match dirs.find? (fun d => d.name == dir) with
      | none => none
      | some d =>
        match d.args.lookup arg with
        | some (.str s) => some s
        | _ => none := by
  unfold dirString
  rw [find_beq]
  cases dirs.find? (fun d => d.name = dir) with
  | none => rfl
  | some d =>
    simp only
    rw [← find_lookup]
    cases d.args.find? (fun a => a.1 = arg) with
    | none => rfl
    | some a => obtain ⟨k, v⟩ := a; cases v <;> rfl

theorem url_eq (dirs : List Dir) : specifiedByUrl dirs = url dirs := by
  unfold specifiedByUrl url
  rw [dirString_eq]
  cases dirs.find? (fun d => d.name == "specifiedBy") with
  | none => rfl
  | some d =>
    simp only
    cases d.args.lookup "url" with
    | none => rfl
    | some v => cases v <;> rfl

theorem strOrNull_eq (s : Option String) : strOrNull s = text s := by cases s <;> rfl

theorem isDeprecated_iff (dirs : List Dir) : isDeprecated dirs = true ↔ Deprecated dirs := by
  simp [isDeprecated, Deprecated]

theorem isDeprecated_eq (dirs : List Dir) : isDeprecated dirs = dirs.any (·.name == "deprecated") := by
  unfold isDeprecated; congr 1

theorem reason_eq (dirs : List Dir) (h : ¬ NoReason dirs) : deprecationReason dirs = reason dirs := by
  unfold deprecationReason reason
  rw [dirString_eq]
  cases hd : dirs.find? (fun d => d.name == "deprecated") with
  | none => rfl
  | some d =>
    simp only
    cases hl : d.args.lookup "reason" with
    | none => exact absurd ⟨d, hd, hl⟩ h
    | some v => cases v <;> rfl

theorem includeDeprecated_iff (c : Ctx) (args : Args) :
    includeDeprecated c args = true ↔ WantsDeprecated c.vars args := by
  unfold includeDeprecated WantsDeprecated Args.get boolVar
  cases (args.getD []).lookup "includeDeprecated" with
  | none => simp
  | some l =>
    cases l with
    | var x =>
      simp only [Option.some.injEq, reduceCtorEq, false_or, Lit.var.injEq]
      cases hv : c.vars x with
      | none => simp [hv]
      | some v => cases v <;> simp [hv]
    | bool b => simp
    | _ => simp

/-! ## Root types -/

theorem rootLoop_schema {usual : String} {pick : SchemaDef → Option String} {n : String} :
    ∀ {d : Doc} {fb : Option String}, (∃ s, Def.schema s ∈ d ∧ pick s = some n) →
      (∀ s s', Def.schema s ∈ d → Def.schema s' ∈ d → s = s') → rootLoop usual pick fb d = some n
  | [], _, ⟨_, h, _⟩, _ => by cases h
  | x :: d, fb, ⟨s, hs, hp⟩, one => by
    cases x with
    | schema s0 =>
      have : s = s0 := one s s0 hs List.mem_cons_self
      subst this
      simp [rootLoop, hp]
    | directive dd =>
      have hs' : Def.schema s ∈ d := by simpa using hs
      exact rootLoop_schema (d := d) ⟨s, hs', hp⟩
        (fun a b ha hb => one a b (List.mem_cons_of_mem _ ha) (List.mem_cons_of_mem _ hb))
    | type t =>
      have hs' : Def.schema s ∈ d := by simpa using hs
      have ih := fun fb => rootLoop_schema (usual := usual) (d := d) (fb := fb) ⟨s, hs', hp⟩
        (fun a b ha hb => one a b (List.mem_cons_of_mem _ ha) (List.mem_cons_of_mem _ hb))
      cases t <;> exact ih _

theorem rootLoop_usual {usual : String} {pick : SchemaDef → Option String} :
    ∀ (d : Doc) (fb : Option String), (∀ s, Def.schema s ∈ d → pick s = none) →
      (∀ f, fb = some f → f = usual) →
      (∀ m, rootLoop usual pick fb d = some m ↔
        m = usual ∧ (fb = some usual ∨ ∃ o : Obj, Def.type (.object o) ∈ d ∧ o.name = usual))
  | [], fb, _, hf => by
    intro m
    simp only [rootLoop, List.not_mem_nil, false_and, exists_false, or_false]
    cases fb with
    | none => simp
    | some f => have := hf f rfl; subst this; simp [eq_comm]
  | x :: d, fb, hp, hf => by
    intro m
    have hp' : ∀ s, Def.schema s ∈ d → pick s = none := fun s hs => hp s (List.mem_cons_of_mem _ hs)
    cases x with
    | schema s =>
      have h0 := hp s List.mem_cons_self
      simp only [rootLoop, h0]
      rw [rootLoop_usual d fb hp' hf]
      simp
    | directive dd =>
      simp only [rootLoop]
      rw [rootLoop_usual d fb hp' hf]
      simp
    | type t =>
      cases t with
      | object o =>
        simp only [rootLoop]
        rw [rootLoop_usual d _ hp' (by
          intro f h
          split at h
          · next hc =>
            simp only [Bool.and_eq_true, decide_eq_true_eq] at hc
            cases h; exact hc.2
          · exact hf f h)]
        refine and_congr Iff.rfl ?_
        constructor
        · rintro (h | ⟨o', ho', hn⟩)
          · split at h
            · next hc =>
              simp only [Bool.and_eq_true, decide_eq_true_eq] at hc
              exact .inr ⟨o, List.mem_cons_self, hc.2⟩
            · exact .inl h
          · exact .inr ⟨o', List.mem_cons_of_mem _ ho', hn⟩
        · rintro (h | ⟨o', ho', hn⟩)
          · left; rw [if_neg (by simp [h])]; exact h
          · rcases List.mem_cons.1 ho' with he | hd
            · cases he
              left
              cases fb with
              | none => simp [hn]
              | some f => have := hf f rfl; subst this; simp
            · exact .inr ⟨o', hd, hn⟩
      | _ =>
        simp only [rootLoop]
        rw [rootLoop_usual d fb hp' hf]
        simp

/-- A root type that the router finds is the root type. -/
theorem rootLoop_iff {d : Doc} {usual : String} {pick : SchemaDef → Option String}
    (one : ∀ s s', Def.schema s ∈ d → Def.schema s' ∈ d → s = s') (hu : ¬ Unnamed d usual pick) (n : String) :
    rootLoop usual pick none d = some n ↔ RootIs d usual pick n := by
  by_cases hs : ∃ s m, Def.schema s ∈ d ∧ pick s = some m
  · obtain ⟨s, m, hs, hp⟩ := hs
    rw [rootLoop_schema ⟨s, hs, hp⟩ one]
    constructor
    · rintro ⟨⟩; exact .inl ⟨s, hs, hp⟩
    · rintro (⟨s', hs', hp'⟩ | ⟨h, _⟩)
      · rw [one s' s hs' hs, hp] at hp'; exact hp'
      · exact absurd hs (h s)
  · have hp : ∀ s, Def.schema s ∈ d → pick s = none := by
      intro s h
      cases hp : pick s with
      | none => rfl
      | some m => exact absurd ⟨s, m, h, hp⟩ hs
    rw [rootLoop_usual d none hp (by simp)]
    simp only [reduceCtorEq, false_or]
    constructor
    · rintro ⟨rfl, ho⟩
      refine .inr ⟨?_, rfl, ho⟩
      intro s h
      exact hu ⟨⟨s, h, hp s h⟩, ho⟩
    · rintro (⟨s, h, hps⟩ | ⟨_, rfl, ho⟩)
      · rw [hp s h] at hps; cases hps
      · exact ⟨rfl, ho⟩

/-! ## Possible types -/

theorem kind_object {t : TypeDef} (h : t.kind = "OBJECT") : ∃ o, t = .object o := by
  cases t <;> simp [TypeDef.kind] at h ⊢

theorem kind_interface {t : TypeDef} (h : t.kind = "INTERFACE") : ∃ o, t = .interface o := by
  cases t <;> simp [TypeDef.kind] at h ⊢

/-- Of what may be possible, objects are what is of the type. -/
theorem possible_object {d : Doc} (h : WellFormed d) {o : Obj} (ho : Def.type (.object o) ∈ d) {x : String}
    (hx : o.name ≠ x) : o.name ∈ ((tables d).possible x).getD [] ↔ IsA d o x := by
  rw [← C94_conditions h ho x]
  unfold Tables.satisfies
  rw [if_neg hx]
  cases (tables d).possible x with
  | none => simp
  | some ys => simp

/-- What is under a type that no interface implements is an object. -/
theorem possible_only {d : Doc} (h : WellFormed d) {t u : TypeDef} (ht : Def.type t ∈ d) (hu : Def.type u ∈ d)
    (hk : t.kind = "INTERFACE" ∨ t.kind = "UNION")
    (hi : ¬ ∃ i : Obj, Def.type (.interface i) ∈ d ∧ t.name ∈ i.impls)
    (hp : u.name ∈ ((tables d).possible t.name).getD []) : ∃ o, u = .object o := by
  have imp : ∀ w, Def.type w ∈ d → t.name ∈ w.impls → ∃ o, w = .object o := by
    intro w hw hm
    cases w with
    | object o => exact ⟨o, rfl⟩
    | interface i => exact absurd ⟨i, hw, hm⟩ hi
    | _ => simp [TypeDef.impls] at hm
  rw [mem_possible h] at hp
  obtain ⟨y, hy, hz⟩ := hp
  rw [mem_first_iff h] at hy
  have second : ∀ w, Def.type w ∈ d → w.kind = "OBJECT" → u.name ∉ ((tables d).first w.name).getD [] := by
    intro w hw hkw hm
    rw [mem_first_iff h] at hm
    rcases hm with ⟨v, hv, _, hm⟩ | ⟨v, hv, hn, _⟩
    · have := h.implements v w hv hw hm
      rw [hkw] at this
      exact absurd this (by decide)
    · have := one_type h.distinct hw hv hn.symm
      rw [this] at hkw
      exact absurd hkw (by simp [TypeDef.kind])
  rcases hy with ⟨w, hw, rfl, hm⟩ | ⟨v, hv, hn, hm⟩
  · obtain ⟨o, rfl⟩ := imp w hw hm
    rcases hz with hz | hz
    · exact ⟨o, one_type h.distinct hu hw hz⟩
    · exact absurd hz (second _ hw rfl)
  · rcases hz with rfl | hz
    · exact kind_object (h.members (.union v) u hv hu hm)
    · rw [mem_first_iff h] at hz
      rcases hz with ⟨w, hw, _, hm'⟩ | ⟨v', hv', hn', hm'⟩
      · exact absurd hm (h.known w y hw hm' v hv)
      · have := h.members (.union v) (.union v') hv hv' (by rw [TypeDef.members, TypeDef.name, hn']; exact hm)
        exact absurd this (by simp [TypeDef.kind])

end Verif.Client
