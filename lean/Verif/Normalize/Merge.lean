import Verif.Normalize.Passes
/-!
# Normalization: merging, deduplication and conversion keep the selected paths
-/
namespace Verif.Normalize

variable {S : Schema} {σ : Name → Bool} {frs : List Frag}

/-! ## Folds -/

theorem foldM_cons {α β : Type} {f : β → α → Except Err β} {acc : β} {a : α} {l : List α} {r : β}
    (h : foldM f acc (a :: l) = .ok r) : ∃ b, f acc a = .ok b ∧ foldM f b l = .ok r := by
  unfold foldM at h
  exact bind_ok h

theorem foldM_picks {f : List Sel → Sel → Except Err (List Sel)} {x : Name × Label} {p : Path} :
    ∀ {s acc r : List Sel}, foldM f acc s = .ok r →
    (∀ acc a y, a ∈ s → f acc a = .ok y →
      (Picks S σ frs y (x :: p) ↔ Picks S σ frs acc (x :: p) ∨ Picks S σ frs [a] (x :: p))) →
    (Picks S σ frs r (x :: p) ↔ Picks S σ frs acc (x :: p) ∨ Picks S σ frs s (x :: p))
  | [], acc, r, h, _ => by
    cases h
    constructor
    · exact .inl
    · rintro (h | h)
      · exact h
      · exact absurd h picks_nil
  | a :: s, acc, r, h, hf => by
    obtain ⟨b, h1, h2⟩ := foldM_cons h
    rw [foldM_picks h2 (fun acc a' y ha => hf acc a' y (by simp [ha])), hf acc a b (by simp) h1,
      picks_cons (s := s), or_assoc]

theorem foldM_ok {D : List Dir → Prop} {f : List Sel → Sel → Except Err (List Sel)} :
    ∀ {s acc r : List Sel}, foldM f acc s = .ok r → AllOk D acc → AllOk D s →
    (∀ acc a y, SelOk D a → AllOk D acc → f acc a = .ok y → AllOk D y) → AllOk D r
  | [], acc, r, h, ha, _, _ => by cases h; exact ha
  | a :: s, acc, r, h, ha, hs, hf => by
    obtain ⟨b, h1, h2⟩ := foldM_cons h
    obtain ⟨h3, h4⟩ := allOk_cons.1 hs
    exact foldM_ok h2 (hf acc a b h3 ha h1) h4 hf

/-! ## merge_inline_fragments -/

theorem flattenNested_picks {c : Option Name} {ds : List Dir} {T : Name} {l : Label} {p : Path}
    (hc : Applies S T c) (hi : Included σ ds) : ∀ {s : List Sel},
    Picks S σ frs (flattenNested c ds s) ((T, l) :: p) ↔ Picks S σ frs s ((T, l) :: p)
  | [] => by simp [flattenNested]
  | .field a n args ds' sub :: r => by
    simp only [flattenNested]
    rw [picks_cons, picks_cons (s := r), flattenNested_picks hc hi (s := r)]
  | .spread n ds' :: r => by
    simp only [flattenNested]
    rw [picks_cons, picks_cons (s := r), flattenNested_picks hc hi (s := r)]
  | .frag c' ds' sub :: r => by
    simp only [flattenNested]
    split
    · rename_i h
      rw [picks_append, picks_cons (s := r), flattenNested_picks hc hi (s := r), picks_frag]
      have hi' : Included σ ds' := by
        rcases h.2 with h | h
        · rw [h]; exact included_nil
        · rw [h]; exact hi
      rw [h.1]
      constructor
      · rintro (h | h)
        · exact .inl ⟨hi', hc, h⟩
        · exact .inr h
      · rintro (⟨_, _, h⟩ | h)
        · exact .inl h
        · exact .inr h
    · rw [picks_cons, picks_cons (s := r), flattenNested_picks hc hi (s := r)]

theorem flattenNested_ok {D : List Dir → Prop} {c : Option Name} {ds : List Dir} :
    ∀ {s : List Sel}, AllOk D s → AllOk D (flattenNested c ds s)
  | [], h => h
  | .field a n args ds' sub :: r, h => by
    obtain ⟨h1, h2⟩ := allOk_cons.1 h
    simp only [flattenNested]
    exact allOk_cons.2 ⟨h1, flattenNested_ok h2⟩
  | .spread n ds' :: r, h => by
    obtain ⟨h1, h2⟩ := allOk_cons.1 h
    simp only [flattenNested]
    exact allOk_cons.2 ⟨h1, flattenNested_ok h2⟩
  | .frag c' ds' sub :: r, h => by
    obtain ⟨h1, h2⟩ := allOk_cons.1 h
    simp only [flattenNested]
    split
    · exact allOk_append.2 ⟨(selOk_frag.1 h1).2, flattenNested_ok h2⟩
    · exact allOk_cons.2 ⟨h1, flattenNested_ok h2⟩

theorem mergeIntoFrag_picks {rec : List Sel → Except Err (List Sel)} {c : Option Name}
    {ds : List Dir} {sub : List Sel} {T : Name} {l : Label} {p : Path}
    (hr : Applies S T c → ∀ s s', rec s = .ok s' →
      (Picks S σ frs s ((T, l) :: p) ↔ Picks S σ frs s' ((T, l) :: p))) :
    ∀ {acc r : List Sel}, mergeIntoFrag rec c ds sub acc = .ok (some r) →
    (Picks S σ frs r ((T, l) :: p) ↔
      Picks S σ frs acc ((T, l) :: p) ∨ Picks S σ frs [.frag c ds sub] ((T, l) :: p))
  | [], r, h => by cases h
  | .field a n args ds' sub' :: acc, r, h => by
    simp only [mergeIntoFrag] at h
    obtain ⟨o, h1, h2⟩ := bind_ok h
    cases o with
    | none => simp at h2
    | some o =>
      simp only [Option.map_some, Except.ok.injEq, Option.some.injEq] at h2
      subst h2
      rw [picks_cons, picks_cons (s := acc), mergeIntoFrag_picks hr h1, or_assoc]
  | .spread n ds' :: acc, r, h => by
    simp only [mergeIntoFrag] at h
    obtain ⟨o, h1, h2⟩ := bind_ok h
    cases o with
    | none => simp at h2
    | some o =>
      simp only [Option.map_some, Except.ok.injEq, Option.some.injEq] at h2
      subst h2
      rw [picks_cons, picks_cons (s := acc), mergeIntoFrag_picks hr h1, or_assoc]
  | .frag c' ds' sub' :: acc, r, h => by
    simp only [mergeIntoFrag] at h
    split at h
    · rename_i he
      obtain ⟨m, h1, h2⟩ := bind_ok h
      simp only [Except.ok.injEq, Option.some.injEq] at h2
      subst h2
      obtain ⟨rfl, rfl⟩ := he
      rw [picks_cons (s := acc), picks_cons (s := acc), picks_frag, picks_frag, picks_frag]
      constructor
      · rintro (⟨hi, ha, hp⟩ | hp)
        · rcases picks_append.1 ((hr ha _ _ h1).2 hp) with h | h
          · exact .inl (.inl ⟨hi, ha, h⟩)
          · exact .inr ⟨hi, ha, h⟩
        · exact .inl (.inr hp)
      · rintro ((⟨hi, ha, hp⟩ | hp) | ⟨hi, ha, hp⟩)
        · exact .inl ⟨hi, ha, (hr ha _ _ h1).1 (picks_append.2 (.inl hp))⟩
        · exact .inr hp
        · exact .inl ⟨hi, ha, (hr ha _ _ h1).1 (picks_append.2 (.inr hp))⟩
    · obtain ⟨o, h1, h2⟩ := bind_ok h
      cases o with
      | none => simp at h2
      | some o =>
        simp only [Option.map_some, Except.ok.injEq, Option.some.injEq] at h2
        subst h2
        rw [picks_cons, picks_cons (s := acc), mergeIntoFrag_picks hr h1, or_assoc]

theorem mergeIntoFrag_ok {D : List Dir → Prop} {rec : List Sel → Except Err (List Sel)}
    {c : Option Name} {ds : List Dir} {sub : List Sel}
    (hr : ∀ s s', rec s = .ok s' → AllOk D s → AllOk D s') (hsub : AllOk D sub) :
    ∀ {acc r : List Sel}, mergeIntoFrag rec c ds sub acc = .ok (some r) → AllOk D acc → AllOk D r
  | [], r, h, _ => by cases h
  | .field a n args ds' sub' :: acc, r, h, hacc => by
    obtain ⟨ha, hacc⟩ := allOk_cons.1 hacc
    simp only [mergeIntoFrag] at h
    obtain ⟨o, h1, h2⟩ := bind_ok h
    cases o with
    | none => simp at h2
    | some o =>
      simp only [Option.map_some, Except.ok.injEq, Option.some.injEq] at h2
      subst h2
      exact allOk_cons.2 ⟨ha, mergeIntoFrag_ok hr hsub h1 hacc⟩
  | .spread n ds' :: acc, r, h, hacc => by
    obtain ⟨ha, hacc⟩ := allOk_cons.1 hacc
    simp only [mergeIntoFrag] at h
    obtain ⟨o, h1, h2⟩ := bind_ok h
    cases o with
    | none => simp at h2
    | some o =>
      simp only [Option.map_some, Except.ok.injEq, Option.some.injEq] at h2
      subst h2
      exact allOk_cons.2 ⟨ha, mergeIntoFrag_ok hr hsub h1 hacc⟩
  | .frag c' ds' sub' :: acc, r, h, hacc => by
    obtain ⟨ha, hacc⟩ := allOk_cons.1 hacc
    simp only [mergeIntoFrag] at h
    split at h
    · obtain ⟨m, h1, h2⟩ := bind_ok h
      simp only [Except.ok.injEq, Option.some.injEq] at h2
      subst h2
      obtain ⟨h3, h4⟩ := selOk_frag.1 ha
      exact allOk_cons.2 ⟨selOk_frag.2 ⟨h3, hr _ _ h1 (allOk_append.2 ⟨h4, hsub⟩)⟩, hacc⟩
    · obtain ⟨o, h1, h2⟩ := bind_ok h
      cases o with
      | none => simp at h2
      | some o =>
        simp only [Option.map_some, Except.ok.injEq, Option.some.injEq] at h2
        subst h2
        exact allOk_cons.2 ⟨ha, mergeIntoFrag_ok hr hsub h1 hacc⟩

theorem fits_below {P T : Name} {c : Option Name} {l : Label} {p : Path}
    (hf : Fits S P ((T, l) :: p)) (ha : Applies S T c) : Fits S (belowFrag S P c) ((T, l) :: p) := by
  cases c with
  | none => exact hf
  | some C =>
    simp only [belowFrag]
    by_cases h : (S.get C).isSome = true
    · rw [if_pos h]
      exact ⟨ha, hf.2⟩
    · rw [if_neg h]
      exact hf

theorem mergeFragSet_picks (hS : SchemaOk S) : ∀ (k : Nat), KeepsRec S σ (mergeFragSet S k)
  | 0, P, s, s', h => by cases h
  | k + 1, P, s, s', h => by
    intro p hf
    cases p with
    | nil => exact ⟨fun _ => .here _, fun _ => .here _⟩
    | cons x p =>
      obtain ⟨T, l⟩ := x
      have hr : KeepsRec S σ (mergeFragSet S k) := mergeFragSet_picks hS k
      unfold mergeFragSet at h
      suffices hh : Picks S σ [] s' ((T, l) :: p) ↔
          Picks S σ [] [] ((T, l) :: p) ∨ Picks S σ [] s ((T, l) :: p) by
        rw [hh]
        exact ⟨.inr, fun h => h.resolve_left picks_nil⟩
      refine foldM_picks h ?_
      intro acc a y _ hy
      cases a with
      | field a n args ds sub =>
        simp only [mergeFragItem] at hy
        split at hy
        · cases hy
          exact picks_append
        · rename_i hc
          obtain ⟨A, h1, h2⟩ := bind_ok hy
          obtain ⟨sub', h3, h4⟩ := bind_ok h2
          cases h4
          have hn : isIntro n = false := by
            cases hi : isIntro n with
            | false => rfl
            | true => simp [hi] at hc
          rw [picks_append, picks_field, picks_field]
          refine or_congr Iff.rfl ?_
          constructor
          · rintro ⟨hi, rfl, hp⟩
            exact ⟨hi, rfl, (field_equiv hS hn (childType_ok h1) hf (hr _ _ _ h3)).2 hp⟩
          · rintro ⟨hi, rfl, hp⟩
            exact ⟨hi, rfl, (field_equiv hS hn (childType_ok h1) hf (hr _ _ _ h3)).1 hp⟩
      | frag c ds sub =>
        simp only [mergeFragItem] at hy
        obtain ⟨sub', h1, h2⟩ := bind_ok hy
        obtain ⟨o, h3, h4⟩ := bind_ok h2
        have hrc : Applies S T c → ∀ s s', mergeFragSet S k (belowFrag S P c) s = .ok s' →
            (Picks S σ [] s ((T, l) :: p) ↔ Picks S σ [] s' ((T, l) :: p)) :=
          fun ha s s' hs => hr _ _ _ hs _ (fits_below hf ha)
        have hfr : Picks S σ [] [.frag c ds (flattenNested c ds sub')] ((T, l) :: p) ↔
            Picks S σ [] [.frag c ds sub] ((T, l) :: p) := by
          rw [picks_frag, picks_frag]
          constructor
          · rintro ⟨hi, ha, hp⟩
            exact ⟨hi, ha, (hrc ha _ _ h1).2 ((flattenNested_picks ha hi).1 hp)⟩
          · rintro ⟨hi, ha, hp⟩
            exact ⟨hi, ha, (flattenNested_picks ha hi).2 ((hrc ha _ _ h1).1 hp)⟩
        cases o with
        | some acc' =>
          cases h4
          rw [mergeIntoFrag_picks hrc h3, hfr]
        | none =>
          cases h4
          rw [picks_append, hfr]
      | spread n ds =>
        simp only [mergeFragItem] at hy
        cases hy
        constructor
        · exact .inl
        · rintro (h | h)
          · exact h
          · obtain ⟨_, f, hf, _⟩ := picks_spread.1 h
            cases hf

theorem mergeFragSet_ok {D : List Dir → Prop} : ∀ (k : Nat), OkRec D (mergeFragSet S k)
  | 0, P, s, s', h, _ => by cases h
  | k + 1, P, s, s', h, hs => by
    have hr : OkRec D (mergeFragSet S k) := mergeFragSet_ok k
    unfold mergeFragSet at h
    refine foldM_ok h allOk_nil hs ?_
    intro acc a y ha hacc hy
    cases a with
    | field a n args ds sub =>
      simp only [mergeFragItem] at hy
      split at hy
      · cases hy
        exact allOk_append.2 ⟨hacc, allOk_cons.2 ⟨ha, allOk_nil⟩⟩
      · obtain ⟨A, h1, h2⟩ := bind_ok hy
        obtain ⟨sub', h3, h4⟩ := bind_ok h2
        cases h4
        obtain ⟨h5, h6, h7⟩ := selOk_field.1 ha
        exact allOk_append.2 ⟨hacc, allOk_cons.2 ⟨selOk_field.2 ⟨h5, h6, hr _ _ _ h3 h7⟩, allOk_nil⟩⟩
    | frag c ds sub =>
      simp only [mergeFragItem] at hy
      obtain ⟨sub', h1, h2⟩ := bind_ok hy
      obtain ⟨o, h3, h4⟩ := bind_ok h2
      obtain ⟨h5, h6⟩ := selOk_frag.1 ha
      have hn : AllOk D (flattenNested c ds sub') := flattenNested_ok (hr _ _ _ h1 h6)
      cases o with
      | some acc' =>
        cases h4
        exact mergeIntoFrag_ok (hr _) hn h3 hacc
      | none =>
        cases h4
        exact allOk_append.2 ⟨hacc, allOk_cons.2 ⟨selOk_frag.2 ⟨h5, hn⟩, allOk_nil⟩⟩
    | spread n ds =>
      simp only [mergeFragItem] at hy
      cases hy
      exact hacc

/-! ## flatten_matching_object_fragments -/

theorem flattenMatching_picks {o : Name} (ho : S.isObject o = true) {l : Label} {p : Path} :
    ∀ {s : List Sel},
    Picks S σ frs (flattenMatching o s) ((o, l) :: p) ↔ Picks S σ frs s ((o, l) :: p)
  | [] => by simp [flattenMatching]
  | .field a n args ds' sub :: r => by
    simp only [flattenMatching]
    rw [picks_cons, picks_cons (s := r), flattenMatching_picks ho (s := r)]
  | .spread n ds' :: r => by
    simp only [flattenMatching]
    rw [picks_cons, picks_cons (s := r), flattenMatching_picks ho (s := r)]
  | .frag c' ds' sub :: r => by
    simp only [flattenMatching]
    split
    · rename_i h
      rw [picks_append, picks_cons (s := r), flattenMatching_picks ho (s := r), picks_frag]
      rw [h.1, h.2.1]
      constructor
      · rintro (h | h)
        · exact .inl ⟨included_nil, (possible_self ho).2 rfl, h⟩
        · exact .inr h
      · rintro (⟨_, _, h⟩ | h)
        · exact .inl h
        · exact .inr h
    · rw [picks_cons, picks_cons (s := r), flattenMatching_picks ho (s := r)]

theorem flattenMatching_ok {D : List Dir → Prop} {o : Name} :
    ∀ {s : List Sel}, AllOk D s → AllOk D (flattenMatching o s)
  | [], h => h
  | .field a n args ds' sub :: r, h => by
    obtain ⟨h1, h2⟩ := allOk_cons.1 h
    simp only [flattenMatching]
    exact allOk_cons.2 ⟨h1, flattenMatching_ok h2⟩
  | .spread n ds' :: r, h => by
    obtain ⟨h1, h2⟩ := allOk_cons.1 h
    simp only [flattenMatching]
    exact allOk_cons.2 ⟨h1, flattenMatching_ok h2⟩
  | .frag c' ds' sub :: r, h => by
    obtain ⟨h1, h2⟩ := allOk_cons.1 h
    simp only [flattenMatching]
    split
    · exact allOk_append.2 ⟨(selOk_frag.1 h1).2, flattenMatching_ok h2⟩
    · exact allOk_cons.2 ⟨h1, flattenMatching_ok h2⟩

theorem matchingSet_picks (hS : SchemaOk S) : ∀ (k : Nat), KeepsRec S σ (matchingSet S k)
  | 0, P, s, s', h => by cases h
  | k + 1, P, s, s', h => by
    intro p hf
    cases p with
    | nil => exact ⟨fun _ => .here _, fun _ => .here _⟩
    | cons x p =>
      obtain ⟨T, l⟩ := x
      have hr : KeepsRec S σ (matchingSet S k) := matchingSet_picks hS k
      unfold matchingSet at h
      refine concatM_items h ?_
      intro a _ y hy
      cases a with
      | field a n args ds sub =>
        simp only [matchingItem] at hy
        split at hy
        · cases hy; exact Iff.rfl
        · rename_i hc
          obtain ⟨A, h1, h2⟩ := bind_ok hy
          obtain ⟨sub', h3, h4⟩ := bind_ok h2
          cases h4
          have hn : isIntro n = false := by
            cases hi : isIntro n with
            | false => rfl
            | true => simp [hi] at hc
          have he : Equiv S σ A sub (if S.isObject A then flattenMatching A sub' else sub') := by
            intro q hq
            rw [hr _ _ _ h3 q hq]
            split
            · rename_i ho
              cases q with
              | nil => exact ⟨fun _ => .here _, fun _ => .here _⟩
              | cons y q =>
                obtain ⟨U, m⟩ := y
                have : U = A := (possible_self ho).1 hq.1
                subst this
                exact (flattenMatching_picks ho).symm
            · exact Iff.rfl
          rw [picks_field, picks_field]
          constructor
          · rintro ⟨hi, rfl, hp⟩
            exact ⟨hi, rfl, (field_equiv hS hn (childType_ok h1) hf he).1 hp⟩
          · rintro ⟨hi, rfl, hp⟩
            exact ⟨hi, rfl, (field_equiv hS hn (childType_ok h1) hf he).2 hp⟩
      | frag c ds sub =>
        simp only [matchingItem] at hy
        obtain ⟨sub', h1, h2⟩ := bind_ok hy
        cases h2
        rw [picks_frag, picks_frag]
        constructor
        · rintro ⟨hi, ha, hp⟩
          exact ⟨hi, ha, (hr _ _ _ h1 _ (fits_below hf ha)).1 hp⟩
        · rintro ⟨hi, ha, hp⟩
          exact ⟨hi, ha, (hr _ _ _ h1 _ (fits_below hf ha)).2 hp⟩
      | spread n ds =>
        simp only [matchingItem] at hy
        cases hy
        exact Iff.rfl

theorem matchingSet_ok {D : List Dir → Prop} : ∀ (k : Nat), OkRec D (matchingSet S k)
  | 0, P, s, s', h, _ => by cases h
  | k + 1, P, s, s', h, hs => by
    have hr : OkRec D (matchingSet S k) := matchingSet_ok k
    unfold matchingSet at h
    refine concatM_allOk h fun x hx y hy => ?_
    have hx := hs x hx
    cases x with
    | field a n args ds sub =>
      obtain ⟨h1, h2, h3⟩ := selOk_field.1 hx
      simp only [matchingItem] at hy
      split at hy
      · cases hy; exact allOk_cons.2 ⟨hx, allOk_nil⟩
      · obtain ⟨A, h4, h5⟩ := bind_ok hy
        obtain ⟨sub', h6, h7⟩ := bind_ok h5
        cases h7
        refine allOk_cons.2 ⟨selOk_field.2 ⟨h1, h2, ?_⟩, allOk_nil⟩
        split
        · exact flattenMatching_ok (hr _ _ _ h6 h3)
        · exact hr _ _ _ h6 h3
    | frag c ds sub =>
      obtain ⟨h2, h3⟩ := selOk_frag.1 hx
      simp only [matchingItem] at hy
      obtain ⟨sub', h6, h7⟩ := bind_ok hy
      cases h7
      exact allOk_cons.2 ⟨selOk_frag.2 ⟨h2, hr _ _ _ h6 h3⟩, allOk_nil⟩
    | spread n ds =>
      simp only [matchingItem] at hy
      cases hy
      exact allOk_cons.2 ⟨hx, allOk_nil⟩

/-! ## merge_fields -/

theorem mergeIntoField_picks {rec : List Sel → Except Err (List Sel)} {a : Option Name} {n : Name}
    {args : Args} {ds : List Dir} {sub : List Sel} {T : Name} {l : Label} {p : Path}
    (hr : ∀ s s', rec s = .ok s' → ∀ p, (Picks S σ frs s p ↔ Picks S σ frs s' p)) :
    ∀ {acc r : List Sel}, mergeIntoField rec a n args ds sub acc = .ok (some r) →
    (Picks S σ frs r ((T, l) :: p) ↔
      Picks S σ frs acc ((T, l) :: p) ∨ Picks S σ frs [.field a n args ds sub] ((T, l) :: p))
  | [], r, h => by cases h
  | .frag c ds' sub' :: acc, r, h => by
    simp only [mergeIntoField] at h
    obtain ⟨o, h1, h2⟩ := bind_ok h
    cases o with
    | none => simp at h2
    | some o =>
      simp only [Option.map_some, Except.ok.injEq, Option.some.injEq] at h2
      subst h2
      rw [picks_cons, picks_cons (s := acc), mergeIntoField_picks hr h1, or_assoc]
  | .spread n ds' :: acc, r, h => by
    simp only [mergeIntoField] at h
    obtain ⟨o, h1, h2⟩ := bind_ok h
    cases o with
    | none => simp at h2
    | some o =>
      simp only [Option.map_some, Except.ok.injEq, Option.some.injEq] at h2
      subst h2
      rw [picks_cons, picks_cons (s := acc), mergeIntoField_picks hr h1, or_assoc]
  | .field a' n' args' ds' sub' :: acc, r, h => by
    simp only [mergeIntoField] at h
    split at h
    · rename_i he
      obtain ⟨m, h1, h2⟩ := bind_ok h
      simp only [Except.ok.injEq, Option.some.injEq] at h2
      subst h2
      obtain ⟨rfl, rfl, rfl, rfl⟩ := he
      rw [picks_cons (s := acc), picks_cons (s := acc), picks_field, picks_field, picks_field]
      have happ : Picks S σ frs (sub' ++ sub) p ↔ Picks S σ frs sub' p ∨ Picks S σ frs sub p := by
        cases p with
        | nil => exact ⟨fun _ => .inl (.here _), fun _ => .here _⟩
        | cons x p => exact picks_append
      rw [← hr _ _ h1, happ]
      constructor
      · rintro (⟨hi, hl, hp | hp⟩ | hp)
        · exact .inl (.inl ⟨hi, hl, hp⟩)
        · exact .inr ⟨hi, hl, hp⟩
        · exact .inl (.inr hp)
      · rintro ((⟨hi, ha, hp⟩ | hp) | ⟨hi, ha, hp⟩)
        · exact .inl ⟨hi, ha, .inl hp⟩
        · exact .inr hp
        · exact .inl ⟨hi, ha, .inr hp⟩
    · obtain ⟨o, h1, h2⟩ := bind_ok h
      cases o with
      | none => simp at h2
      | some o =>
        simp only [Option.map_some, Except.ok.injEq, Option.some.injEq] at h2
        subst h2
        rw [picks_cons, picks_cons (s := acc), mergeIntoField_picks hr h1, or_assoc]

theorem mergeIntoField_ok {D : List Dir → Prop} {rec : List Sel → Except Err (List Sel)}
    {a : Option Name} {n : Name} {args : Args} {ds : List Dir} {sub : List Sel}
    (hr : ∀ s s', rec s = .ok s' → AllOk D s → AllOk D s') (hsub : AllOk D sub) :
    ∀ {acc r : List Sel}, mergeIntoField rec a n args ds sub acc = .ok (some r) →
    AllOk D acc → AllOk D r
  | [], r, h, _ => by cases h
  | .frag c ds' sub' :: acc, r, h, hacc => by
    obtain ⟨ha, hacc⟩ := allOk_cons.1 hacc
    simp only [mergeIntoField] at h
    obtain ⟨o, h1, h2⟩ := bind_ok h
    cases o with
    | none => simp at h2
    | some o =>
      simp only [Option.map_some, Except.ok.injEq, Option.some.injEq] at h2
      subst h2
      exact allOk_cons.2 ⟨ha, mergeIntoField_ok hr hsub h1 hacc⟩
  | .spread n ds' :: acc, r, h, hacc => by
    obtain ⟨ha, hacc⟩ := allOk_cons.1 hacc
    simp only [mergeIntoField] at h
    obtain ⟨o, h1, h2⟩ := bind_ok h
    cases o with
    | none => simp at h2
    | some o =>
      simp only [Option.map_some, Except.ok.injEq, Option.some.injEq] at h2
      subst h2
      exact allOk_cons.2 ⟨ha, mergeIntoField_ok hr hsub h1 hacc⟩
  | .field a' n' args' ds' sub' :: acc, r, h, hacc => by
    obtain ⟨ha, hacc⟩ := allOk_cons.1 hacc
    simp only [mergeIntoField] at h
    split at h
    · obtain ⟨m, h1, h2⟩ := bind_ok h
      simp only [Except.ok.injEq, Option.some.injEq] at h2
      subst h2
      obtain ⟨h3, h4, h5⟩ := selOk_field.1 ha
      exact allOk_cons.2 ⟨selOk_field.2 ⟨h3, h4, hr _ _ h1 (allOk_append.2 ⟨h5, hsub⟩)⟩, hacc⟩
    · obtain ⟨o, h1, h2⟩ := bind_ok h
      cases o with
      | none => simp at h2
      | some o =>
        simp only [Option.map_some, Except.ok.injEq, Option.some.injEq] at h2
        subst h2
        exact allOk_cons.2 ⟨ha, mergeIntoField_ok hr hsub h1 hacc⟩

theorem mergeFieldSet_picks : ∀ (k : Nat) (s s' : List Sel), mergeFieldSet k s = .ok s' →
    ∀ p, (Picks S σ [] s p ↔ Picks S σ [] s' p)
  | 0, s, s', h, _ => by cases h
  | k + 1, s, s', h, [] => ⟨fun _ => .here _, fun _ => .here _⟩
  | k + 1, s, s', h, (T, l) :: p => by
    have hr := mergeFieldSet_picks k
    unfold mergeFieldSet at h
    suffices hh : Picks S σ [] s' ((T, l) :: p) ↔
        Picks S σ [] [] ((T, l) :: p) ∨ Picks S σ [] s ((T, l) :: p) by
      rw [hh]
      exact ⟨.inr, fun h => h.resolve_left picks_nil⟩
    refine foldM_picks h ?_
    intro acc a y _ hy
    cases a with
    | field a n args ds sub =>
      simp only [mergeFieldItem] at hy
      obtain ⟨sub', h1, h2⟩ := bind_ok hy
      obtain ⟨o, h3, h4⟩ := bind_ok h2
      have hfr : Picks S σ [] [.field a n args ds sub'] ((T, l) :: p) ↔
          Picks S σ [] [.field a n args ds sub] ((T, l) :: p) := by
        rw [picks_field, picks_field, hr _ _ h1]
      cases o with
      | some acc' =>
        cases h4
        rw [mergeIntoField_picks hr h3, hfr]
      | none =>
        cases h4
        rw [picks_append, hfr]
    | frag c ds sub =>
      simp only [mergeFieldItem] at hy
      obtain ⟨sub', h1, h2⟩ := bind_ok hy
      cases h2
      rw [picks_append, picks_frag, picks_frag, hr _ _ h1]
    | spread n ds =>
      simp only [mergeFieldItem] at hy
      cases hy
      constructor
      · exact .inl
      · rintro (h | h)
        · exact h
        · obtain ⟨_, f, hf, _⟩ := picks_spread.1 h
          cases hf

theorem mergeFieldSet_ok {D : List Dir → Prop} : ∀ (k : Nat) (s s' : List Sel),
    mergeFieldSet k s = .ok s' → AllOk D s → AllOk D s'
  | 0, s, s', h, _ => by cases h
  | k + 1, s, s', h, hs => by
    have hr := mergeFieldSet_ok (D := D) k
    unfold mergeFieldSet at h
    refine foldM_ok h allOk_nil hs ?_
    intro acc a y ha hacc hy
    cases a with
    | field a n args ds sub =>
      simp only [mergeFieldItem] at hy
      obtain ⟨sub', h1, h2⟩ := bind_ok hy
      obtain ⟨o, h3, h4⟩ := bind_ok h2
      obtain ⟨h5, h6, h7⟩ := selOk_field.1 ha
      have hn := hr _ _ h1 h7
      cases o with
      | some acc' =>
        cases h4
        exact mergeIntoField_ok hr hn h3 hacc
      | none =>
        cases h4
        exact allOk_append.2 ⟨hacc, allOk_cons.2 ⟨selOk_field.2 ⟨h5, h6, hn⟩, allOk_nil⟩⟩
    | frag c ds sub =>
      simp only [mergeFieldItem] at hy
      obtain ⟨sub', h1, h2⟩ := bind_ok hy
      cases h2
      obtain ⟨h5, h6⟩ := selOk_frag.1 ha
      exact allOk_append.2 ⟨hacc, allOk_cons.2 ⟨selOk_frag.2 ⟨h5, hr _ _ h1 h6⟩, allOk_nil⟩⟩
    | spread n ds =>
      simp only [mergeFieldItem] at hy
      cases hy
      exact hacc

/-! ## drop_duplicated_fields -/

theorem shallowEqual_eq {x y : Sel} (h : shallowEqual x y = true) : x = y := by
  cases x <;> cases y <;> simp only [shallowEqual, Bool.false_eq_true, Bool.and_eq_true,
    beq_iff_eq, List.isEmpty_iff] at h
  obtain ⟨⟨⟨⟨⟨rfl, rfl⟩, rfl⟩, rfl⟩, rfl⟩, rfl⟩ := h
  rfl

mutual
theorem dedup1_picks {x : Name × Label} {p : Path} : ∀ (y : Sel),
    Picks S σ frs [dedup1 y] (x :: p) ↔ Picks S σ frs [y] (x :: p)
  | .field a n args ds sub => by simp [dedup1]
  | .spread n ds => by simp [dedup1]
  | .frag c ds sub => by
    obtain ⟨T, l⟩ := x
    unfold dedup1
    rw [picks_frag, picks_frag]
    split
    · exact Iff.rfl
    · have := dedupLoop_picks (x := (T, l)) (p := p) [] sub
      rw [this]
      constructor
      · rintro ⟨hi, ha, h⟩
        exact ⟨hi, ha, h.resolve_left picks_nil⟩
      · rintro ⟨hi, ha, h⟩
        exact ⟨hi, ha, .inr h⟩
theorem dedupLoop_picks {x : Name × Label} {p : Path} : ∀ (acc s : List Sel),
    Picks S σ frs (dedupLoop acc s) (x :: p) ↔
      Picks S σ frs acc (x :: p) ∨ Picks S σ frs s (x :: p)
  | acc, [] => by
    unfold dedupLoop
    constructor
    · exact .inl
    · rintro (h | h)
      · exact h
      · exact absurd h picks_nil
  | acc, y :: r => by
    unfold dedupLoop
    split
    · rename_i hd
      rw [dedupLoop_picks acc r, picks_cons (s := r)]
      constructor
      · rintro (h | h)
        · exact .inl h
        · exact .inr (.inr h)
      · rintro (h | h | h)
        · exact .inl h
        · rw [Bool.and_eq_true] at hd
          obtain ⟨z, hz, he⟩ := List.any_eq_true.1 hd.2
          have := shallowEqual_eq he
          subst this
          exact .inl (picks_mono (by simpa using hz) h)
        · exact .inr h
    · rw [dedupLoop_picks _ r, picks_append, picks_cons (s := r), dedup1_picks y, or_assoc]
end

theorem dropDuplicates_picks {x : Name × Label} {p : Path} (s : List Sel) :
    Picks S σ frs (dropDuplicates s) (x :: p) ↔ Picks S σ frs s (x :: p) := by
  unfold dropDuplicates
  split
  · exact Iff.rfl
  · rw [dedupLoop_picks]
    exact ⟨fun h => h.resolve_left picks_nil, .inr⟩

mutual
theorem dedup1_ok {D : List Dir → Prop} : ∀ (y : Sel), SelOk D y → SelOk D (dedup1 y)
  | .field a n args ds sub, h => by unfold dedup1; exact h
  | .spread n ds, h => by unfold dedup1; exact h
  | .frag c ds sub, h => by
    obtain ⟨h1, h2⟩ := selOk_frag.1 h
    unfold dedup1
    refine selOk_frag.2 ⟨h1, ?_⟩
    split
    · exact h2
    · exact dedupLoop_ok [] sub allOk_nil h2
theorem dedupLoop_ok {D : List Dir → Prop} : ∀ (acc s : List Sel), AllOk D acc → AllOk D s →
    AllOk D (dedupLoop acc s)
  | acc, [], ha, _ => by unfold dedupLoop; exact ha
  | acc, y :: r, ha, hs => by
    obtain ⟨h1, h2⟩ := allOk_cons.1 hs
    unfold dedupLoop
    split
    · exact dedupLoop_ok acc r ha h2
    · exact dedupLoop_ok _ r (allOk_append.2 ⟨ha, allOk_cons.2 ⟨dedup1_ok y h1, allOk_nil⟩⟩) h2
end

theorem dropDuplicates_ok {D : List Dir → Prop} (s : List Sel) (h : AllOk D s) :
    AllOk D (dropDuplicates s) := by
  unfold dropDuplicates
  split
  · exact h
  · exact dedupLoop_ok [] s allOk_nil h

end Verif.Normalize
