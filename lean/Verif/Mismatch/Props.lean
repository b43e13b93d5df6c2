import Verif.Mismatch.Model
import Mathlib.Data.List.Perm.Subperm
import Std.Data.String.ToNat

/-!
# C119: what a subgraph is asked for, it can answer under one key
-/

namespace Verif.Mismatch

open Verif.Fetch

/-! ## What the property is stated in -/

/-- A field stands at a level of a selection set: in it, or in fragments of it. -/
inductive At (S : Sub) : String → List Sel → FieldInfo → List Sel → Ty → Prop where
  | here {t ss f s ty} (hm : Sel.field f s ∈ ss) (hn : meta_ f.name = false) (ht : S.field t f.name = some ty) :
      At S t ss f s ty
  | frag {t ss g gs f s ty} (hm : Sel.frag g gs ∈ ss) (h : At S g.cond gs f s ty) : At S t ss f s ty

/-- The levels of a selection set: the uppermost, and those of its fields. -/
inductive Level (S : Sub) : String → List Sel → String → List Sel → Prop where
  | top {t ss} : Level S t ss t ss
  | down {t ss f s ty t' ss'} (h : At S t ss f s ty) (hs : s ≠ []) (hk : S.known ty.inner = true)
      (hl : Level S ty.inner s t' ss') : Level S t ss t' ss'

/-- Two types can stand under one key: they are the same, or both are composite. -/
def Ok (S : Sub) (a b : Ty) : Prop := a = b ∨ (S.composite a.inner = true ∧ S.composite b.inner = true)

/-- Fields with one key at a level can stand beside each other. -/
def Clean (S : Sub) (t : String) (ss : List Sel) : Prop :=
  ∀ f s ty f' s' ty', At S t ss f s ty → At S t ss f' s' ty' → f.key = f'.key → Ok S ty ty'

/-! ## Types -/

theorem merges_iff {a b : Ty} : a.merges b = true ↔ a = b := by
  induction a generalizing b with
  | named n => cases b <;> simp [Ty.merges]
  | list t ih => cases b <;> simp [Ty.merges, ih]
  | nonNull t ih => cases b <;> simp [Ty.merges, ih]

theorem clash_iff {S : Sub} {a b : Ty} : clash S a b = false ↔ Ok S a b := by
  unfold clash Ok
  rw [← merges_iff]
  cases a.merges b <;> cases S.composite a.inner <;> cases S.composite b.inner <;> simp

theorem Ok.refl {S : Sub} (a : Ty) : Ok S a a := .inl rfl

theorem Ok.symm {S : Sub} {a b : Ty} : Ok S a b → Ok S b a
  | .inl h => .inl h.symm
  | .inr h => .inr ⟨h.2, h.1⟩

theorem Ok.trans {S : Sub} {a b c : Ty} : Ok S a b → Ok S b c → Ok S a c
  | .inl h, h' => h ▸ h'
  | .inr h, .inl h' => .inr ⟨h.1, h' ▸ h.2⟩
  | .inr h, .inr h' => .inr ⟨h.1, h'.2⟩

/-! ## The queue -/

abbrev Queue := List (String × MPath × List Sel)

/-- A field stands at the level that a queue is of. -/
def AtQ (S : Sub) (q : Queue) (f : FieldInfo) (s : List Sel) (ty : Ty) : Prop :=
  ∃ x ∈ q, At S x.1 x.2.2 f s ty

/-- What no conflict in a queue means. -/
structure CleanQ (S : Sub) (q : Queue) (enc : List (String × Ty)) : Prop where
  met : ∀ f s ty a, AtQ S q f s ty → met f.key enc = some a → Ok S a ty
  each : ∀ f s ty f' s' ty', AtQ S q f s ty → AtQ S q f' s' ty' → f.key = f'.key → Ok S ty ty'
  below : ∀ f s ty, AtQ S q f s ty → s ≠ [] → S.known ty.inner = true →
    ∀ t' ss', Level S ty.inner s t' ss' → Clean S t' ss'

theorem atQ_nil {S : Sub} {f s ty} : ¬ AtQ S [] f s ty := by rintro ⟨x, hx, -⟩; cases hx

theorem at_nil {S : Sub} {t f s ty} : ¬ At S t [] f s ty := by
  intro h; cases h with
  | here hm => cases hm
  | frag hm => cases hm

theorem atQ_empty {S : Sub} {t p q f s ty} : AtQ S ((t, p, []) :: q) f s ty ↔ AtQ S q f s ty := by
  constructor
  · rintro ⟨x, hx, h⟩
    rcases List.mem_cons.1 hx with rfl | hx
    · exact absurd h at_nil
    · exact ⟨x, hx, h⟩
  · rintro ⟨x, hx, h⟩; exact ⟨x, List.mem_cons_of_mem _ hx, h⟩

theorem at_cons_field {S : Sub} {t f0 s0 r f s ty} : At S t (.field f0 s0 :: r) f s ty ↔
    (f = f0 ∧ s = s0 ∧ meta_ f0.name = false ∧ S.field t f0.name = some ty) ∨ At S t r f s ty := by
  constructor
  · intro h
    cases h with
    | here hm hn ht =>
      rcases List.mem_cons.1 hm with h | hm
      · cases h; exact .inl ⟨rfl, rfl, hn, ht⟩
      · exact .inr (.here hm hn ht)
    | frag hm h =>
      rcases List.mem_cons.1 hm with h' | hm
      · cases h'
      · exact .inr (.frag hm h)
  · rintro (⟨rfl, rfl, hn, ht⟩ | h)
    · exact .here List.mem_cons_self hn ht
    · cases h with
      | here hm hn ht => exact .here (List.mem_cons_of_mem _ hm) hn ht
      | frag hm h => exact .frag (List.mem_cons_of_mem _ hm) h

theorem at_cons_frag {S : Sub} {t g gs r f s ty} : At S t (.frag g gs :: r) f s ty ↔
    At S g.cond gs f s ty ∨ At S t r f s ty := by
  constructor
  · intro h
    cases h with
    | here hm hn ht =>
      rcases List.mem_cons.1 hm with h | hm
      · cases h
      · exact .inr (.here hm hn ht)
    | frag hm h =>
      rcases List.mem_cons.1 hm with h' | hm
      · cases h'; exact .inl h
      · exact .inr (.frag hm h)
  · rintro (h | h)
    · exact .frag List.mem_cons_self h
    · cases h with
      | here hm hn ht => exact .here (List.mem_cons_of_mem _ hm) hn ht
      | frag hm h => exact .frag (List.mem_cons_of_mem _ hm) h

theorem atQ_cons {S : Sub} {x q f s ty} : AtQ S (x :: q) f s ty ↔ At S x.1 x.2.2 f s ty ∨ AtQ S q f s ty := by
  simp [AtQ]

theorem atQ_field {S : Sub} {t p f0 s0 r q f s ty} : AtQ S ((t, p, .field f0 s0 :: r) :: q) f s ty ↔
    (f = f0 ∧ s = s0 ∧ meta_ f0.name = false ∧ S.field t f0.name = some ty) ∨
    AtQ S ((t, p, r) :: q) f s ty := by
  rw [atQ_cons, atQ_cons, at_cons_field, or_assoc]

theorem atQ_frag {S : Sub} {t p p' g gs r q f s ty} : AtQ S ((t, p, .frag g gs :: r) :: q) f s ty ↔
    AtQ S ((t, p, r) :: (q ++ [(g.cond, p', gs)])) f s ty := by
  rw [atQ_cons, atQ_cons, at_cons_frag]
  have : AtQ S (q ++ [(g.cond, p', gs)]) f s ty ↔ AtQ S q f s ty ∨ At S g.cond gs f s ty := by
    simp only [AtQ, List.mem_append, List.mem_singleton]
    constructor
    · rintro ⟨x, hx | rfl, h⟩
      · exact .inl ⟨x, hx, h⟩
      · exact .inr h
    · rintro (⟨x, hx, h⟩ | h)
      · exact ⟨x, .inl hx, h⟩
      · exact ⟨_, .inr rfl, h⟩
  rw [this]
  constructor
  · rintro ((h | h) | h)
    · exact .inr (.inr h)
    · exact .inl h
    · exact .inr (.inl h)
  · rintro (h | h | h)
    · exact .inl (.inr h)
    · exact .inr h
    · exact .inl (.inl h)

theorem CleanQ.congr {S : Sub} {q q' : Queue} {enc} (h : ∀ f s ty, AtQ S q f s ty ↔ AtQ S q' f s ty) :
    CleanQ S q enc ↔ CleanQ S q' enc := by
  constructor
  · rintro ⟨h1, h2, h3⟩
    exact ⟨fun f s ty a hx => h1 f s ty a ((h ..).2 hx),
      fun f s ty f' s' ty' hx hy => h2 f s ty f' s' ty' ((h ..).2 hx) ((h ..).2 hy),
      fun f s ty hx => h3 f s ty ((h ..).2 hx)⟩
  · rintro ⟨h1, h2, h3⟩
    exact ⟨fun f s ty a hx => h1 f s ty a ((h ..).1 hx),
      fun f s ty f' s' ty' hx hy => h2 f s ty f' s' ty' ((h ..).1 hx) ((h ..).1 hy),
      fun f s ty hx => h3 f s ty ((h ..).1 hx)⟩

/-- A level and all below. -/
theorem clean_single {S : Sub} {t : String} {p : MPath} {ss : List Sel} :
    CleanQ S [(t, p, ss)] [] ↔ ∀ t' ss', Level S t ss t' ss' → Clean S t' ss' := by
  have hq : ∀ f s ty, AtQ S [(t, p, ss)] f s ty ↔ At S t ss f s ty := by
    intro f s ty
    rw [atQ_cons]
    exact ⟨fun h => h.elim id (fun h => absurd h atQ_nil), .inl⟩
  constructor
  · rintro ⟨-, h2, h3⟩ t' ss' hl
    cases hl with
    | top => exact fun f s ty f' s' ty' hx hy => h2 f s ty f' s' ty' ((hq ..).2 hx) ((hq ..).2 hy)
    | down h hs hk hl => exact h3 _ _ _ ((hq ..).2 h) hs hk _ _ hl
  · intro h
    refine ⟨(fun f s ty a _ he => nomatch he), fun f s ty f' s' ty' hx hy => ?_, fun f s ty hx hs hk t' ss' hl => ?_⟩
    · exact h _ _ .top f s ty f' s' ty' ((hq ..).1 hx) ((hq ..).1 hy)
    · exact h _ _ (.down ((hq ..).1 hx) hs hk hl)

/-- One field more. -/
theorem clean_field {S : Sub} {t p f0 s0 r q enc ty0} (hn : meta_ f0.name = false)
    (ht : S.field t f0.name = some ty0) :
    CleanQ S ((t, p, .field f0 s0 :: r) :: q) enc ↔
      (∀ a, met f0.key enc = some a → Ok S a ty0) ∧
      (s0 ≠ [] → S.known ty0.inner = true → ∀ t' ss', Level S ty0.inner s0 t' ss' → Clean S t' ss') ∧
      CleanQ S ((t, p, r) :: q) (keep f0.key ty0 enc) := by
  unfold keep
  have hat : ∀ f s ty, AtQ S ((t, p, .field f0 s0 :: r) :: q) f s ty ↔
      (f = f0 ∧ s = s0 ∧ ty = ty0) ∨ AtQ S ((t, p, r) :: q) f s ty := by
    intro f s ty
    rw [atQ_field, ht]
    constructor
    · rintro (⟨h1, h2, -, h3⟩ | h)
      · exact .inl ⟨h1, h2, (Option.some.inj h3).symm⟩
      · exact .inr h
    · rintro (⟨h1, h2, h3⟩ | h)
      · exact .inl ⟨h1, h2, hn, by rw [h3]⟩
      · exact .inr h
  have h0 : AtQ S ((t, p, .field f0 s0 :: r) :: q) f0 s0 ty0 := (hat ..).2 (.inl ⟨rfl, rfl, rfl⟩)
  have hr : ∀ {f s ty}, AtQ S ((t, p, r) :: q) f s ty → AtQ S ((t, p, .field f0 s0 :: r) :: q) f s ty :=
    fun h => (hat ..).2 (.inr h)
  constructor
  · rintro ⟨h1, h2, h3⟩
    refine ⟨fun a ha => h1 _ _ _ a h0 ha, h3 _ _ _ h0, ?_, ?_, ?_⟩
    · intro f s ty a hx ha
      cases hm : met f0.key enc with
      | some b => rw [hm] at ha; exact h1 _ _ _ a (hr hx) ha
      | none =>
        rw [hm] at ha
        simp only [met] at ha
        split at ha
        · rename_i hk
          cases ha
          exact h2 _ _ _ _ _ _ h0 (hr hx) hk
        · exact h1 _ _ _ a (hr hx) ha
    · intro f s ty f' s' ty' hx hy; exact h2 _ _ _ _ _ _ (hr hx) (hr hy)
    · intro f s ty hx; exact h3 _ _ _ (hr hx)
  · rintro ⟨h1, h2, h3, h4, h5⟩
    have hmet : ∀ f s ty, AtQ S ((t, p, r) :: q) f s ty → f.key = f0.key → Ok S ty0 ty := by
      intro f s ty hx hk
      cases hm : met f0.key enc with
      | some b =>
        rw [hm] at h3
        exact (h1 b hm).symm.trans (h3 f s ty b hx (by rw [hk]; exact hm))
      | none =>
        rw [hm] at h3
        exact h3 f s ty ty0 hx (by simp [met, hk])
    refine ⟨?_, ?_, ?_⟩
    · intro f s ty a hx ha
      rcases (hat ..).1 hx with ⟨rfl, rfl, rfl⟩ | hx
      · exact h1 a ha
      · cases hm : met f0.key enc with
        | some b => rw [hm] at h3; exact h3 f s ty a hx ha
        | none =>
          rw [hm] at h3
          refine h3 f s ty a hx ?_
          simp only [met]
          rw [if_neg]
          · exact ha
          · intro e; rw [e] at hm; rw [hm] at ha; cases ha
    · intro f s ty f' s' ty' hx hy hk
      rcases (hat ..).1 hx with ⟨e1, e2, e3⟩ | hx <;> rcases (hat ..).1 hy with ⟨e1', e2', e3'⟩ | hy
      · rw [e3, e3']; exact .refl _
      · rw [e3]; exact hmet _ _ _ hy (by rw [← hk, e1])
      · rw [e3']; exact (hmet _ _ _ hx (by rw [hk, e1'])).symm
      · exact h4 _ _ _ _ _ _ hx hy hk
    · intro f s ty hx
      rcases (hat ..).1 hx with ⟨rfl, rfl, rfl⟩ | hx
      · exact h2
      · exact h5 _ _ _ hx

theorem go_clean (S : Sub) (q : Queue) (enc : List (String × Ty)) :
    ∀ ms, go S q enc = some ms → (ms = [] ↔ CleanQ S q enc) := by
  induction q, enc using go.induct S with
  | case1 enc =>
    intro ms h
    rw [go] at h
    cases h
    exact ⟨fun _ => ⟨fun _ _ _ _ h => absurd h atQ_nil, fun _ _ _ _ _ _ h => absurd h atQ_nil,
      fun _ _ _ h => absurd h atQ_nil⟩, fun _ => rfl⟩
  | case2 enc t p q ih =>
    intro ms h
    rw [go] at h
    rw [ih ms h]
    exact CleanQ.congr (fun f s ty => atQ_empty.symm)
  | case3 t p f ss r q enc hn ih =>
    intro ms h
    rw [go, if_pos hn] at h
    rw [ih ms h]
    refine CleanQ.congr (fun f s ty => ?_)
    rw [atQ_field]
    exact ⟨.inr, fun h => h.elim (fun h => absurd h.2.2.1 (by rw [hn]; simp)) id⟩
  | case4 t p f ss r q enc hn ht =>
    intro ms h
    rw [go, if_neg hn, ht] at h
    cases h
  | case5 t p f ss r q enc hn ty ht a b hb ha ih1 ih2 =>
    intro ms h
    rw [go, if_neg hn, ht] at h
    have ha' : (if ss.isEmpty || !S.known ty.inner then some [] else
        go S [(ty.inner, p ++ [segOf f], ss)] []) = some a := by
      by_cases hc : (ss.isEmpty || !S.known ty.inner) = true
      · rw [if_pos hc]; rw [dif_pos hc] at ha; exact ha
      · rw [if_neg hc]; rw [dif_neg hc] at ha; exact ha
    dsimp only at h
    rw [ha'] at h
    rw [hb] at h
    simp only [Option.some.injEq] at h
    subst h
    rw [clean_field (by simpa using hn) ht, ← ih2 b hb]
    have h1 : report S p f ty enc = [] ↔ ∀ a, met f.key enc = some a → Ok S a ty := by
      unfold report
      cases met f.key enc with
      | none => simp
      | some c =>
        simp only [Option.some.injEq, forall_eq']
        rw [← clash_iff]
        cases clash S c ty <;> simp
    have h2 : a = [] ↔ (ss ≠ [] → S.known ty.inner = true → ∀ t' ss', Level S ty.inner ss t' ss' →
        Clean S t' ss') := by
      by_cases hc : (ss.isEmpty || !S.known ty.inner) = true
      · rw [if_pos hc] at ha'
        cases ha'
        refine ⟨fun _ hs hk => ?_, fun _ => rfl⟩
        rw [Bool.or_eq_true, List.isEmpty_iff] at hc
        rcases hc with hc | hc
        · exact absurd hc hs
        · rw [hk] at hc; cases hc
      · rw [if_neg hc] at ha'
        rw [ih1 a ha', clean_single]
        simp only [Bool.or_eq_true, List.isEmpty_iff, not_or, Bool.not_eq_true'] at hc
        exact ⟨fun h _ _ => h, fun h => h hc.1 (by simpa using hc.2)⟩
    rw [← h1, ← h2, List.append_eq_nil_iff, List.append_eq_nil_iff, and_assoc]
  | case6 t p f ss r q enc hn ty ht hno ih1 ih2 =>
    intro ms h
    exfalso
    rw [go, if_neg hn, ht] at h
    dsimp only at h
    split at h
    · rename_i a b ha hb
      refine hno a b ?_ hb
      by_cases hc : (ss.isEmpty || !S.known ty.inner) = true
      · rw [dif_pos hc]; rw [if_pos hc] at ha; exact ha
      · rw [dif_neg hc]; rw [if_neg hc] at ha; exact ha
    · cases h
  | case7 t p g ss r q enc hk ih =>
    intro ms h
    rw [go, if_pos hk] at h
    rw [ih ms h]
    exact CleanQ.congr (fun f s ty => atQ_frag.symm)
  | case8 t p g ss r q enc hk =>
    intro ms h
    rw [go, if_neg hk] at h
    cases h
  | case9 t p n r q enc =>
    intro ms h
    rw [go] at h
    cases h

/-- **C119.** When the planner looks through what a subgraph is asked for, it finds no conflict exactly when at
each level all fields with one key have the same type, or types that are all composite. -/
theorem C119_found {S : Sub} {out : Selections} {ms : List (String × MPath)} (h : find S out = some ms) :
    ms = [] ↔ ∀ x ∈ out, ∀ t ss, Level S x.1 x.2 t ss → Clean S t ss := by
  induction out generalizing ms with
  | nil => cases h; simp
  | cons x out ih =>
    obtain ⟨t, ss⟩ := x
    rw [find] at h
    split at h
    · split at h
      · rename_i a b ha hb
        cases h
        have h1 := (go_clean S _ _ a ha).trans clean_single
        rw [List.append_eq_nil_iff, List.map_eq_nil_iff, h1, ih hb]
        simp only [List.forall_mem_cons]
      · cases h
    · cases h

/-- A field that is reported from a queue. -/
def RealQ (S : Sub) (q : Queue) (enc : List (String × Ty)) (m : MPath) : Prop :=
  ∃ f s ty a, m.getLast? = some (segOf f) ∧ ¬ Ok S a ty ∧
    ((AtQ S q f s ty ∧ (met f.key enc = some a ∨ ∃ f' s', AtQ S q f' s' a ∧ f'.key = f.key)) ∨
     (∃ f0 s0 ty0 t' ss' f' s', AtQ S q f0 s0 ty0 ∧ s0 ≠ [] ∧ S.known ty0.inner = true ∧
       Level S ty0.inner s0 t' ss' ∧ At S t' ss' f s ty ∧ At S t' ss' f' s' a ∧ f'.key = f.key))

theorem RealQ.mono {S : Sub} {q q' : Queue} {enc : List (String × Ty)} {m : MPath}
    (h : ∀ f s ty, AtQ S q f s ty → AtQ S q' f s ty) : RealQ S q enc m → RealQ S q' enc m := by
  rintro ⟨f, s, ty, a, h1, h2, ⟨h3, h4⟩ | ⟨f0, s0, ty0, t', ss', f', s', h3, h4⟩⟩
  · refine ⟨f, s, ty, a, h1, h2, .inl ⟨h _ _ _ h3, ?_⟩⟩
    rcases h4 with h4 | ⟨f', s', h4, h5⟩
    · exact .inl h4
    · exact .inr ⟨f', s', h _ _ _ h4, h5⟩
  · exact ⟨f, s, ty, a, h1, h2, .inr ⟨f0, s0, ty0, t', ss', f', s', h _ _ _ h3, h4⟩⟩

theorem atQ_single {S : Sub} {t p ss f s ty} : AtQ S [(t, p, ss)] f s ty ↔ At S t ss f s ty := by
  rw [atQ_cons]
  exact ⟨fun h => h.elim id (fun h => absurd h atQ_nil), .inl⟩

theorem go_real (S : Sub) (q : Queue) (enc : List (String × Ty)) :
    ∀ ms, go S q enc = some ms → ∀ m ∈ ms, RealQ S q enc m := by
  induction q, enc using go.induct S with
  | case1 enc =>
    intro ms h
    rw [go] at h
    cases h
    simp
  | case2 enc t p q ih =>
    intro ms h m hm
    rw [go] at h
    exact (ih ms h m hm).mono (fun f s ty => atQ_empty.2)
  | case3 t p f ss r q enc hn ih =>
    intro ms h m hm
    rw [go, if_pos hn] at h
    exact (ih ms h m hm).mono (fun f s ty hx => atQ_field.2 (.inr hx))
  | case4 t p f ss r q enc hn ht =>
    intro ms h
    rw [go, if_neg hn, ht] at h
    cases h
  | case5 t p f ss r q enc hn ty ht a b hb ha ih1 ih2 =>
    intro ms h m hm
    rw [go, if_neg hn, ht] at h
    have ha' : (if ss.isEmpty || !S.known ty.inner then some [] else
        go S [(ty.inner, p ++ [segOf f], ss)] []) = some a := by
      by_cases hc : (ss.isEmpty || !S.known ty.inner) = true
      · rw [if_pos hc]; rw [dif_pos hc] at ha; exact ha
      · rw [if_neg hc]; rw [dif_neg hc] at ha; exact ha
    dsimp only at h
    rw [ha', hb] at h
    simp only [Option.some.injEq] at h
    subst h
    have h0 : AtQ S ((t, p, .field f ss :: r) :: q) f ss ty :=
      atQ_field.2 (.inl ⟨rfl, rfl, by simpa using hn, ht⟩)
    have hr : ∀ f' s' ty', AtQ S ((t, p, r) :: q) f' s' ty' → AtQ S ((t, p, .field f ss :: r) :: q) f' s' ty' :=
      fun _ _ _ h => atQ_field.2 (.inr h)
    rcases List.mem_append.1 hm with hm | hm
    · rcases List.mem_append.1 hm with hm | hm
      · unfold report at hm
        cases hmet : met f.key enc with
        | none => rw [hmet] at hm; cases hm
        | some c =>
          rw [hmet] at hm
          dsimp only at hm
          split at hm
          · rename_i hcl
            rw [List.mem_singleton] at hm
            subst hm
            refine ⟨f, ss, ty, c, by simp, ?_, .inl ⟨h0, .inl hmet⟩⟩
            intro hok
            rw [clash_iff.2 hok] at hcl
            cases hcl
          · cases hm
      · by_cases hc : (ss.isEmpty || !S.known ty.inner) = true
        · rw [if_pos hc] at ha'
          cases ha'
          cases hm
        · rw [if_neg hc] at ha'
          simp only [Bool.or_eq_true, List.isEmpty_iff, not_or] at hc
          have hk : S.known ty.inner = true := by simpa using hc.2
          obtain ⟨g, s, ty', c, h1, h2, ⟨h3, h4⟩ | ⟨f0, s0, ty0, t', ss', f', s', h3, h4, h5, h6, h7⟩⟩ :=
            ih1 a ha' m hm
          · rcases h4 with h4 | ⟨f', s', h4, h5⟩
            · cases h4
            · exact ⟨g, s, ty', c, h1, h2, .inr ⟨f, ss, ty, _, _, f', s', h0, hc.1, hk, .top,
                atQ_single.1 h3, atQ_single.1 h4, h5⟩⟩
          · exact ⟨g, s, ty', c, h1, h2, .inr ⟨f, ss, ty, t', ss', f', s', h0, hc.1, hk,
              .down (atQ_single.1 h3) h4 h5 h6, h7⟩⟩
    · obtain ⟨g, s, ty', c, h1, h2, ⟨h3, h4⟩ | ⟨f0, s0, ty0, t', ss', f', s', h3, h4⟩⟩ := ih2 b hb m hm
      · refine ⟨g, s, ty', c, h1, h2, .inl ⟨hr _ _ _ h3, ?_⟩⟩
        rcases h4 with h4 | ⟨f', s', h4, h5⟩
        · unfold keep at h4
          cases hmet : met f.key enc with
          | some d => rw [hmet] at h4; exact .inl h4
          | none =>
            rw [hmet] at h4
            dsimp only [met] at h4
            split at h4
            · rename_i hk
              cases h4
              exact .inr ⟨f, ss, h0, hk⟩
            · exact .inl h4
        · exact .inr ⟨f', s', hr _ _ _ h4, h5⟩
      · exact ⟨g, s, ty', c, h1, h2, .inr ⟨f0, s0, ty0, t', ss', f', s', hr _ _ _ h3, h4⟩⟩
  | case6 t p f ss r q enc hn ty ht hno ih1 ih2 =>
    intro ms h
    exfalso
    rw [go, if_neg hn, ht] at h
    dsimp only at h
    split at h
    · rename_i a b ha hb
      refine hno a b ?_ hb
      by_cases hc : (ss.isEmpty || !S.known ty.inner) = true
      · rw [dif_pos hc]; rw [if_pos hc] at ha; exact ha
      · rw [dif_neg hc]; rw [if_neg hc] at ha; exact ha
    · cases h
  | case7 t p g ss r q enc hk ih =>
    intro ms h m hm
    rw [go, if_pos hk] at h
    exact (ih ms h m hm).mono (fun f s ty => atQ_frag.2)
  | case8 t p g ss r q enc hk =>
    intro ms h
    rw [go, if_neg hk] at h
    cases h
  | case9 t p n r q enc =>
    intro ms h
    rw [go] at h
    cases h

/-- **C119.** What is found is a conflict: the path leads to a field that stands at a level beside one with the
same key and a type that cannot stand there with its own. -/
theorem C119_real {S : Sub} {out : Selections} {ms : List (String × MPath)} (h : find S out = some ms)
    {m : String × MPath} (hm : m ∈ ms) :
    ∃ ss, (m.1, ss) ∈ out ∧ ∃ t' ss' f s ty f' s' ty', Level S m.1 ss t' ss' ∧ m.2.getLast? = some (segOf f) ∧
      At S t' ss' f s ty ∧ At S t' ss' f' s' ty' ∧ f'.key = f.key ∧ ¬ Ok S ty' ty := by
  induction out generalizing ms with
  | nil => cases h; cases hm
  | cons x out ih =>
    obtain ⟨t, ss⟩ := x
    rw [find] at h
    split at h
    · split at h
      · rename_i a b ha hb
        cases h
        rcases List.mem_append.1 hm with hm | hm
        · obtain ⟨p, hp, rfl⟩ := List.mem_map.1 hm
          refine ⟨ss, List.mem_cons_self, ?_⟩
          obtain ⟨f, s, ty, c, h1, h2, ⟨h3, h4⟩ | ⟨f0, s0, ty0, t', ss', f', s', h3, h4, h5, h6, h7, h8, h9⟩⟩ :=
            go_real S _ _ a ha p hp
          · rcases h4 with h4 | ⟨f', s', h4, h5⟩
            · cases h4
            · exact ⟨t, ss, f, s, ty, f', s', c, .top, h1, atQ_single.1 h3, atQ_single.1 h4, h5, h2⟩
          · exact ⟨t', ss', f, s, ty, f', s', c, .down (atQ_single.1 h3) h4 h5 h6, h1, h7, h8, h9, h2⟩
        · obtain ⟨ss', h1, h2⟩ := ih hb hm
          exact ⟨ss', List.mem_cons_of_mem _ h1, h2⟩
      · cases h
    · cases h

/-- **C119.** Where there is no conflict, nothing is renamed. -/
theorem C119_untouched {S : Sub} {out : Selections} {ms : List (String × MPath)} (h : find S out = some ms)
    (hc : ∀ x ∈ out, ∀ t ss, Level S x.1 x.2 t ss → Clean S t ss) : fix S out = some (out, []) := by
  rw [fix, h, (C119_found h).2 hc]; rfl

/-! ## The alias -/

theorem nextAlias_or (ts : List Sel) : ∀ n c, ts.any (taken (nextAlias ts n c).1) = false ∨
    ∀ i ≤ n, ts.any (taken (aliasName (c + i))) = true := by
  intro n
  induction n with
  | zero =>
    intro c
    rw [nextAlias]
    cases h : ts.any (taken (aliasName c)) with
    | false => exact .inl rfl
    | true =>
      refine .inr (fun i hi => ?_)
      rw [Nat.le_zero.1 hi]; exact h
  | succ n ih =>
    intro c
    rw [nextAlias]
    cases h : ts.any (taken (aliasName c)) with
    | false => simp only [Bool.false_eq_true, if_false]; exact .inl h
    | true =>
      rw [if_pos rfl]
      rcases ih (c + 1) with h' | h'
      · exact .inl h'
      · refine .inr (fun i hi => ?_)
        cases i with
        | zero => exact h
        | succ i =>
          have := h' i (by omega)
          rwa [show c + 1 + i = c + (i + 1) by omega] at this

/-- The names that items take. -/
def namesOf : List Sel → List String
  | [] => []
  | .field f _ :: r => f.name :: (f.alias.toList ++ namesOf r)
  | _ :: r => namesOf r

theorem namesOf_length : ∀ ts : List Sel, (namesOf ts).length ≤ 2 * ts.length
  | [] => by simp [namesOf]
  | .field f _ :: r => by
    have := namesOf_length r
    have ha : f.alias.toList.length ≤ 1 := by cases f.alias <;> simp
    simp only [namesOf, List.length_cons, List.length_append]; omega
  | .frag _ _ :: r => by
    have := namesOf_length r
    simp only [namesOf, List.length_cons]; omega
  | .spread _ :: r => by
    have := namesOf_length r
    simp only [namesOf, List.length_cons]; omega

theorem taken_names {a : String} : ∀ ts : List Sel, ts.any (taken a) = true → a ∈ namesOf ts
  | [], h => by cases h
  | .field f _ :: r, h => by
    simp only [List.any_cons, Bool.or_eq_true] at h
    simp only [namesOf, List.mem_cons, List.mem_append]
    rcases h with h | h
    · simp only [taken, Bool.or_eq_true, beq_iff_eq] at h
      rcases h with h | h
      · exact .inl h.symm
      · exact .inr (.inl (by rw [h]; simp))
    · exact .inr (.inr (taken_names r h))
  | .frag _ _ :: r, h => by
    simp only [List.any_cons, taken, Bool.false_or] at h
    exact taken_names r h
  | .spread _ :: r, h => by
    simp only [List.any_cons, taken, Bool.false_or] at h
    exact taken_names r h

theorem nextAlias_fresh (ts : List Sel) : ts.any (taken (nextAlias ts (2 * ts.length) 0).1) = false := by
  rcases nextAlias_or ts (2 * ts.length) 0 with h | h
  · exact h
  · exfalso
    have hn : ((List.range (2 * ts.length + 1)).map aliasName).Nodup := by
      refine List.Pairwise.map _ (fun m n hne e => hne ?_) List.nodup_range
      exact Nat.repr_injective ((String.append_right_inj _).1 e)
    have hs : (List.range (2 * ts.length + 1)).map aliasName ⊆ namesOf ts := by
      intro a ha
      obtain ⟨i, hi, rfl⟩ := List.mem_map.1 ha
      have := h i (by have := List.mem_range.1 hi; omega)
      rw [Nat.zero_add] at this
      exact taken_names ts this
    have := (hn.subperm hs).length_le
    have hl := namesOf_length ts
    simp at this
    omega

theorem updateFirst_some {p : Sel → Bool} {u : Sel → Sel} : ∀ {l l' : List Sel}, updateFirst p u l = some l' →
    ∃ pre x post, l = pre ++ x :: post ∧ l' = pre ++ u x :: post ∧ p x = true ∧ ∀ y ∈ pre, p y = false
  | [], _, h => by cases h
  | y :: l, l', h => by
    rw [updateFirst] at h
    split at h
    · rename_i hp
      cases h
      exact ⟨[], y, l, rfl, rfl, hp, by simp⟩
    · rename_i hp
      obtain ⟨l1, h1, rfl⟩ := Option.map_eq_some_iff.1 h
      obtain ⟨pre, x, post, rfl, rfl, hx, hpre⟩ := updateFirst_some h1
      refine ⟨y :: pre, x, post, rfl, rfl, hx, ?_⟩
      intro z hz
      rcases List.mem_cons.1 hz with rfl | hz
      · simpa using hp
      · exact hpre z hz

/-- **C119.** A field that is renamed gets a key that nothing else in its selection set has; nothing else is
changed; and what is noted for the response renames this key back to the one the field had. -/
theorem C119_renamed {s : Seg} {p q : MPath} {items items' : List Sel} {a k : String}
    (h : alias_ s p items = .ok (items', (q, a, k))) :
    q = p ∧ ∃ pre f ss post, items = pre ++ .field f ss :: post ∧
      items' = pre ++ .field { f with «alias» := some a } ss :: post ∧ fits s (.field f ss) = true ∧ k = f.key ∧
      ∀ g gs, Sel.field g gs ∈ items → g.key ≠ a := by
  unfold alias_ at h
  dsimp only at h
  split at h
  · rename_i f0 s0 hf
    split at h
    · rename_i is' hu
      simp only [Except.ok.injEq, Prod.mk.injEq] at h
      obtain ⟨rfl, rfl, rfl, rfl⟩ := h
      obtain ⟨pre, x, post, rfl, rfl, hx, hpre⟩ := updateFirst_some hu
      have hx0 : x = .field f0 s0 := by
        rw [List.find?_append, List.find?_eq_none.2 (fun y hy => by simp [hpre y hy]), Option.none_or,
          List.find?_cons_of_pos hx] at hf
        exact Option.some.inj hf
      subst hx0
      refine ⟨rfl, pre, f0, s0, post, rfl, rfl, hx, rfl, ?_⟩
      intro g gs hg e
      have hfresh := nextAlias_fresh (pre ++ Sel.field f0 s0 :: post)
      rw [List.any_eq_false] at hfresh
      refine hfresh _ hg ?_
      unfold taken
      rw [← e]
      unfold FieldInfo.key
      cases hga : g.alias <;> simp [hga]
    · cases h
  · cases h

/-! ## Cases -/

namespace Case

/-- Types `A`, `B` and `C` with a field `f` that is a list in each, with three ways of being nullable, and fields
`x` with more below; as they may be in types of one interface. -/
def sub : Sub where
  field := fun t n =>
    if n = "f" then
      (if t = "A" then some (.list (.named "Int"))
       else if t = "B" then some (.list (.nonNull (.named "Int")))
       else if t = "C" then some (.nonNull (.list (.named "Int")))
       else if t = "X" then some (.named "Int")
       else if t = "Y" then some (.nonNull (.named "Int")) else none)
    else if n = "x" then
      (if t = "A" then some (.named "X") else if t = "B" then some (.named "Y")
       else if t = "C" then some (.nonNull (.named "X")) else none)
    else none
  known := fun t => ["Q", "A", "B", "C", "X", "Y"].contains t
  composite := fun t => ["Q", "A", "B", "C", "X", "Y"].contains t

/-- A field. -/
def fld (n : String) (ss : List Sel := []) : Sel := .field { name := n } ss

/-- A fragment. -/
def on (t : String) (ss : List Sel) : Sel := .frag { cond := t } ss

/-- The path of a field in a fragment. -/
def under (t n : String) : String × MPath := ("Q", [.type [t] (none, none), segOf { name := n }])

/-- Two types: one conflict. -/
theorem two_found : find sub [("Q", [on "A" [fld "f"], on "B" [fld "f"]])] = some [under "B" "f"] := by
  simp [find, go, sub, on, fld, meta_, report, keep, met, clash, Ty.merges, Ty.inner, FieldInfo.key, under, fragCond]

/-- It is repaired. -/
theorem two : ∃ out rs, fix sub [("Q", [on "A" [fld "f"], on "B" [fld "f"]])] = some (out, rs) ∧
    rs.map (·.2) = [("_internal_qp_alias_0", "f")] ∧ find sub out = some [] := by
  refine ⟨[("Q", [on "A" [fld "f"], on "B" [.field { name := "f", «alias» := some (aliasName 0) } []]])],
    [([.type ["B"] (none, none)], aliasName 0, "f")], ?_, by decide +kernel, ?_⟩
  · rw [fix, two_found]; rfl
  · have : aliasName 0 ≠ "f" := by decide +kernel
    have h2 : "f" ≠ aliasName 0 := by decide +kernel
    simp [find, go, sub, on, fld, meta_, report, keep, met, clash, Ty.merges, Ty.inner, FieldInfo.key, this, h2]

/-- **C119 is refuted** for three types: the second and the third field get the same alias, as each is chosen
within its own fragment, and are in conflict. -/
theorem C119_three_refuted : ∃ out rs, fix sub [("Q", [on "A" [fld "f"], on "B" [fld "f"], on "C" [fld "f"]])] =
      some (out, rs) ∧ rs.map (·.2) = [("_internal_qp_alias_0", "f"), ("_internal_qp_alias_0", "f")] ∧
    ∃ m, find sub out = some [m] := by
  have h : find sub [("Q", [on "A" [fld "f"], on "B" [fld "f"], on "C" [fld "f"]])] =
      some [under "B" "f", under "C" "f"] := by
    simp [find, go, sub, on, fld, meta_, report, keep, met, clash, Ty.merges, Ty.inner, FieldInfo.key, under, fragCond]
  refine ⟨[("Q", [on "A" [fld "f"], on "B" [.field { name := "f", «alias» := some (aliasName 0) } []],
      on "C" [.field { name := "f", «alias» := some (aliasName 0) } []]])],
    [([.type ["B"] (none, none)], aliasName 0, "f"), ([.type ["C"] (none, none)], aliasName 0, "f")],
    ?_, by decide +kernel, ?_⟩
  · rw [fix, h]; rfl
  · have : aliasName 0 ≠ "f" := by decide +kernel
    have h2 : "f" ≠ aliasName 0 := by decide +kernel
    simp [find, go, sub, on, fld, meta_, report, keep, met, clash, Ty.merges, Ty.inner, FieldInfo.key, this, h2]

/-- **C119 is refuted** below fields of one key: `x` is composite in both types, and below it `f` is of type
`Int` in one and `Int!` in the other, under the same keys; it is not found. -/
theorem C119_below_refuted :
    find sub [("Q", [on "A" [fld "x" [fld "f"]], on "B" [fld "x" [fld "f"]]])] = some [] ∧
    sub.field "X" "f" = some (.named "Int") ∧ sub.field "Y" "f" = some (.nonNull (.named "Int")) := by
  refine ⟨?_, ?_, ?_⟩
  · simp [find, go, sub, on, fld, meta_, report, keep, met, clash, Ty.merges, Ty.inner, FieldInfo.key]
  · decide +kernel
  · decide +kernel

/-- **C119 is refuted** for objects: `x` may be null in one type and not in the other, which GraphQL does not let
stand under one key; it is not found. -/
theorem C119_null_refuted :
    find sub [("Q", [on "A" [fld "x" [fld "f"]], on "C" [fld "x" [fld "f"]]])] = some [] ∧
    sub.field "A" "x" = some (.named "X") ∧ sub.field "C" "x" = some (.nonNull (.named "X")) := by
  refine ⟨?_, ?_, ?_⟩
  · simp [find, go, sub, on, fld, meta_, report, keep, met, clash, Ty.merges, Ty.inner, FieldInfo.key]
  · decide +kernel
  · decide +kernel

/-- Fields `f` at the uppermost level of two types, which are in conflict. -/
example : ¬ Clean sub "Q" [on "A" [fld "f"], on "B" [fld "f"]] := by
  intro h
  have := h { name := "f" } [] (.list (.named "Int")) { name := "f" } []
    (.list (.nonNull (.named "Int")))
    (.frag (g := { cond := "A" }) (gs := [fld "f"]) (by simp [on]) (.here (by simp [fld]) (by decide) (by decide)))
    (.frag (g := { cond := "B" }) (gs := [fld "f"]) (by simp [on]) (.here (by simp [fld]) (by decide) (by decide))) rfl
  rcases this with h | ⟨h, -⟩
  · exact absurd h (by decide)
  · revert h; decide

/-- A field to be renamed beside one that has the first alias. -/
example : ∃ items' a, alias_ (segOf { name := "f" }) []
    [fld "f", .field { name := "g", «alias» := some "_internal_qp_alias_0" } []] =
    .ok (items', ([], a, "f")) ∧ a = "_internal_qp_alias_1" := by
  exact ⟨_, _, rfl, by decide +kernel⟩

end Case

end Verif.Mismatch
