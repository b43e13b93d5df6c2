import Verif.Headers.Spec

namespace Verif.Headers

/-! ## Parsing -/

theorem trim_nil : trim [] = [] := rfl

theorem dropWhile_idem (p : Char → Bool) (l : Text) :
    (l.dropWhile p).dropWhile p = l.dropWhile p := by
  induction l with
  | nil => rfl
  | cons a l ih =>
    by_cases h : p a = true
    · simp [List.dropWhile, h, ih]
    · simp [List.dropWhile, h]

theorem parsePart_eq (p : CacheControl) (part : Text) : parsePart p part =
    if trim part = [] then some p else
    if dirName (trim part) = "no-store".toList then some { p with noStore := true }
    else if dirName (trim part) = "no-cache".toList then some { p with noCache := true }
    else if dirName (trim part) = "must-revalidate".toList then
      some { p with mustRevalidate := true }
    else if dirName (trim part) = "private".toList then some { p with isPrivate := true }
    else if dirName (trim part) = "public".toList then some { p with isPublic := true }
    else if dirName (trim part) = "max-age".toList then
      ((dirArg (trim part)).bind parseU32).map fun n => { p with maxAge := some n }
    else none := by
  unfold parsePart dirName dirArg
  generalize trim part = d
  by_cases he : d = []
  · simp only [he, if_true]
  · simp only [he, if_false]
    cases splitOnce '=' d with
    | none => simp only [Option.map_none, Option.bind_none]
    | some x => obtain ⟨a, b⟩ := x; simp only [Option.map_some, Option.bind_some]

/-- Folding the parts is reading the directives. -/
theorem parseParts_spec : ∀ (ps : List Text) (p q : CacheControl), parseParts ps p = some q →
    let ds := (ps.map trim).filter (· ≠ [])
    (q.noStore = true ↔ p.noStore = true ∨ ∃ d ∈ ds, dirName d = "no-store".toList) ∧
    (q.noCache = true ↔ p.noCache = true ∨ ∃ d ∈ ds, dirName d = "no-cache".toList) ∧
    (q.mustRevalidate = true ↔ p.mustRevalidate = true ∨
      ∃ d ∈ ds, dirName d = "must-revalidate".toList) ∧
    (q.isPrivate = true ↔ p.isPrivate = true ∨ ∃ d ∈ ds, dirName d = "private".toList) ∧
    (q.isPublic = true ↔ p.isPublic = true ∨ ∃ d ∈ ds, dirName d = "public".toList) ∧
    (∀ n, q.maxAge = some n ↔
      (∃ pre d post, ds = pre ++ d :: post ∧ dirName d = "max-age".toList ∧
        (dirArg d).bind parseU32 = some n ∧ ∀ e ∈ post, dirName e ≠ "max-age".toList) ∨
      (p.maxAge = some n ∧ ∀ e ∈ ds, dirName e ≠ "max-age".toList)) ∧
    (∀ d ∈ ds, dirName d ∈ ["no-store".toList, "no-cache".toList, "must-revalidate".toList,
      "private".toList, "public".toList] ∨
      (dirName d = "max-age".toList ∧ ∃ n, (dirArg d).bind parseU32 = some n)) := by
  intro ps
  induction ps with
  | nil =>
    intro p q h
    simp only [parseParts, Option.some.injEq] at h
    subst h; simp
  | cons part ps ih =>
    intro p q h
    simp only [parseParts] at h
    cases hp : parsePart p part with
    | none => simp [hp] at h
    | some p1 =>
      simp [hp] at h
      have IH := ih p1 q h
      simp only at IH ⊢
      rw [parsePart_eq] at hp
      by_cases he : trim part = []
      · simp only [he, if_true, Option.some.injEq] at hp
        subst hp
        simpa [he] using IH
      · simp only [he, if_false] at hp
        have hds : ((part :: ps).map trim).filter (· ≠ []) =
            trim part :: (ps.map trim).filter (· ≠ []) := by simp [he]
        rw [hds]
        generalize hds' : (ps.map trim).filter (· ≠ []) = ds at IH
        generalize hd : trim part = d at he hp
        have hne : ∀ (n : Nat) (pre' : List Text) (x : Text) (post : List Text),
            d :: ds = pre' ++ x :: post → dirName x = "max-age".toList →
            dirName d ≠ "max-age".toList → ∃ pre, pre' = d :: pre ∧ ds = pre ++ x :: post := by
          intro n pre' x post h1 h2 h3
          cases pre' with
          | nil => simp at h1; rw [← h1.1] at h2; exact absurd h2 h3
          | cons a pre => simp at h1; exact ⟨pre, by rw [h1.1], h1.2⟩
        have hage : ∀ n, p1.maxAge = p.maxAge → dirName d ≠ "max-age".toList →
            ((∃ pre e post, ds = pre ++ e :: post ∧ dirName e = "max-age".toList ∧
              (dirArg e).bind parseU32 = some n ∧ ∀ e ∈ post, dirName e ≠ "max-age".toList) ∨
            (p1.maxAge = some n ∧ ∀ e ∈ ds, dirName e ≠ "max-age".toList)) →
            ((∃ pre e post, d :: ds = pre ++ e :: post ∧ dirName e = "max-age".toList ∧
              (dirArg e).bind parseU32 = some n ∧ ∀ e ∈ post, dirName e ≠ "max-age".toList) ∨
            (p.maxAge = some n ∧ ∀ e ∈ d :: ds, dirName e ≠ "max-age".toList)) := by
          intro n hp1 hdn hh
          rcases hh with ⟨pre, e, post, h1, h2, h3, h4⟩ | ⟨h1, h2⟩
          · exact Or.inl ⟨d :: pre, e, post, by simp [h1], h2, h3, h4⟩
          · refine Or.inr ⟨by rw [← hp1]; exact h1, ?_⟩
            intro e he
            rcases List.mem_cons.1 he with rfl | he
            · exact hdn
            · exact h2 e he
        have hage' : ∀ n, p1.maxAge = p.maxAge → dirName d ≠ "max-age".toList →
            ((∃ pre e post, d :: ds = pre ++ e :: post ∧ dirName e = "max-age".toList ∧
              (dirArg e).bind parseU32 = some n ∧ ∀ e ∈ post, dirName e ≠ "max-age".toList) ∨
            (p.maxAge = some n ∧ ∀ e ∈ d :: ds, dirName e ≠ "max-age".toList)) →
            ((∃ pre e post, ds = pre ++ e :: post ∧ dirName e = "max-age".toList ∧
              (dirArg e).bind parseU32 = some n ∧ ∀ e ∈ post, dirName e ≠ "max-age".toList) ∨
            (p1.maxAge = some n ∧ ∀ e ∈ ds, dirName e ≠ "max-age".toList)) := by
          intro n hp1 hdn hh
          rcases hh with ⟨pre, e, post, h1, h2, h3, h4⟩ | ⟨h1, h2⟩
          · obtain ⟨pre', rfl, h5⟩ := hne n pre e post h1 h2 hdn
            exact Or.inl ⟨pre', e, post, h5, h2, h3, h4⟩
          · exact Or.inr ⟨by rw [hp1]; exact h1, fun e he => h2 e (List.mem_cons_of_mem _ he)⟩
        obtain ⟨i1, i2, i3, i4, i5, i6, i7⟩ := IH
        by_cases c1 : dirName d = "no-store".toList
        · simp only [c1, if_true, Option.some.injEq] at hp
          subst hp
          refine ⟨?_, ?_, ?_, ?_, ?_, fun n => ?_, ?_⟩
          · rw [i1]; simp [c1]
          · rw [i2]; simp [c1]
          · rw [i3]; simp [c1]
          · rw [i4]; simp [c1]
          · rw [i5]; simp [c1]
          · rw [i6]; exact ⟨hage n rfl (by rw [c1]; decide), hage' n rfl (by rw [c1]; decide)⟩
          · intro x hx
            rcases List.mem_cons.1 hx with rfl | hx
            · left; rw [c1]; decide
            · exact i7 x hx
        simp only [c1, if_false] at hp
        by_cases c2 : dirName d = "no-cache".toList
        · simp only [c2, if_true, Option.some.injEq] at hp
          subst hp
          refine ⟨?_, ?_, ?_, ?_, ?_, fun n => ?_, ?_⟩
          · rw [i1]; simp [c2]
          · rw [i2]; simp [c2]
          · rw [i3]; simp [c2]
          · rw [i4]; simp [c2]
          · rw [i5]; simp [c2]
          · rw [i6]; exact ⟨hage n rfl (by rw [c2]; decide), hage' n rfl (by rw [c2]; decide)⟩
          · intro x hx
            rcases List.mem_cons.1 hx with rfl | hx
            · left; rw [c2]; decide
            · exact i7 x hx
        simp only [c2, if_false] at hp
        by_cases c3 : dirName d = "must-revalidate".toList
        · simp only [c3, if_true, Option.some.injEq] at hp
          subst hp
          refine ⟨?_, ?_, ?_, ?_, ?_, fun n => ?_, ?_⟩
          · rw [i1]; simp [c3]
          · rw [i2]; simp [c3]
          · rw [i3]; simp [c3]
          · rw [i4]; simp [c3]
          · rw [i5]; simp [c3]
          · rw [i6]; exact ⟨hage n rfl (by rw [c3]; decide), hage' n rfl (by rw [c3]; decide)⟩
          · intro x hx
            rcases List.mem_cons.1 hx with rfl | hx
            · left; rw [c3]; decide
            · exact i7 x hx
        simp only [c3, if_false] at hp
        by_cases c4 : dirName d = "private".toList
        · simp only [c4, if_true, Option.some.injEq] at hp
          subst hp
          refine ⟨?_, ?_, ?_, ?_, ?_, fun n => ?_, ?_⟩
          · rw [i1]; simp [c4]
          · rw [i2]; simp [c4]
          · rw [i3]; simp [c4]
          · rw [i4]; simp [c4]
          · rw [i5]; simp [c4]
          · rw [i6]; exact ⟨hage n rfl (by rw [c4]; decide), hage' n rfl (by rw [c4]; decide)⟩
          · intro x hx
            rcases List.mem_cons.1 hx with rfl | hx
            · left; rw [c4]; decide
            · exact i7 x hx
        simp only [c4, if_false] at hp
        by_cases c5 : dirName d = "public".toList
        · simp only [c5, if_true, Option.some.injEq] at hp
          subst hp
          refine ⟨?_, ?_, ?_, ?_, ?_, fun n => ?_, ?_⟩
          · rw [i1]; simp [c5]
          · rw [i2]; simp [c5]
          · rw [i3]; simp [c5]
          · rw [i4]; simp [c5]
          · rw [i5]; simp [c5]
          · rw [i6]; exact ⟨hage n rfl (by rw [c5]; decide), hage' n rfl (by rw [c5]; decide)⟩
          · intro x hx
            rcases List.mem_cons.1 hx with rfl | hx
            · left; rw [c5]; decide
            · exact i7 x hx
        simp only [c5, if_false] at hp
        by_cases c6 : dirName d = "max-age".toList
        · simp only [c6, if_true] at hp
          · simp only [Option.map_eq_some_iff] at hp
            obtain ⟨k, hk, rfl⟩ := hp
            refine ⟨?_, ?_, ?_, ?_, ?_, fun n => ?_, ?_⟩
            · rw [i1]; simp [c6]
            · rw [i2]; simp [c6]
            · rw [i3]; simp [c6]
            · rw [i4]; simp [c6]
            · rw [i5]; simp [c6]
            · rw [i6]
              constructor
              · rintro (⟨pre, e, post, h1, h2, h3, h4⟩ | ⟨h1, h2⟩)
                · exact Or.inl ⟨d :: pre, e, post, by simp [h1], h2, h3, h4⟩
                · simp only [Option.some.injEq] at h1; subst h1
                  exact Or.inl ⟨[], d, ds, rfl, c6, by simp [hk], h2⟩
              · rintro (⟨pre, e, post, h1, h2, h3, h4⟩ | ⟨h1, h2⟩)
                · cases pre with
                  | nil =>
                    simp at h1
                    obtain ⟨rfl, rfl⟩ := h1
                    simp [hk] at h3
                    exact Or.inr ⟨by simp [h3], h4⟩
                  | cons a pre =>
                    simp at h1
                    exact Or.inl ⟨pre, e, post, h1.2, h2, h3, h4⟩
                · exact absurd c6 (h2 d (List.mem_cons_self ..))
            · intro x hx
              rcases List.mem_cons.1 hx with rfl | hx
              · right; exact ⟨c6, k, by simp [hk]⟩
              · exact i7 x hx
        · simp only [c6, if_false] at hp
          simp at hp

theorem parseParts_ok : ∀ (ps : List Text) (p : CacheControl),
    (∀ d ∈ (ps.map trim).filter (· ≠ []),
      dirName d ∈ ["no-store".toList, "no-cache".toList, "must-revalidate".toList,
        "private".toList, "public".toList] ∨
      (dirName d = "max-age".toList ∧ ∃ n, (dirArg d).bind parseU32 = some n)) →
    ∃ q, parseParts ps p = some q := by
  intro ps
  induction ps with
  | nil => intro p _; exact ⟨p, rfl⟩
  | cons part ps ih =>
    intro p h
    have hone : ∃ p1, parsePart p part = some p1 := by
      rw [parsePart_eq]
      by_cases he : trim part = []
      · simp [he]
      · simp only [he, if_false]
        generalize hd : trim part = d at *
        have := h d (by rw [List.mem_filter]; exact ⟨by simp [hd], by simpa using he⟩)
        rcases this with hm | ⟨hm, n, hn⟩
        · simp only [List.mem_cons, List.not_mem_nil, or_false] at hm
          rcases hm with hm | hm | hm | hm | hm <;> rw [hm] <;> simp
        · rw [hm]
          simp [hn]
    obtain ⟨p1, hp1⟩ := hone
    obtain ⟨q, hq⟩ := ih p1 (by
      intro d hd
      apply h d
      rw [List.mem_filter] at hd ⊢
      exact ⟨by simp at hd ⊢; exact Or.inr hd.1, hd.2⟩)
    exact ⟨q, by simp [parseParts, hp1, hq]⟩

/-- What `parse` returns is what the text says. -/
structure Means (h : Text) (p : CacheControl) : Prop where
  noStore : p.noStore = true ↔ Says h "no-store"
  noCache : p.noCache = true ↔ Says h "no-cache"
  must : p.mustRevalidate = true ↔ Says h "must-revalidate"
  priv : p.isPrivate = true ↔ Says h "private"
  pub : p.isPublic = true ↔ Says h "public"
  age : ∀ n, p.maxAge = some n ↔ MaxAge h n

theorem parse_means {h : Text} {p : CacheControl} (hp : parse h = some p) : Means h p := by
  simp only [parse] at hp
  by_cases he : trim h = []
  · simp [he] at hp
  · simp only [he, if_false] at hp
    obtain ⟨h1, h2, h3, h4, h5, h6, _⟩ := parseParts_spec _ _ _ hp
    constructor
    · simpa [Says, directives] using h1
    · simpa [Says, directives] using h2
    · simpa [Says, directives] using h3
    · simpa [Says, directives] using h4
    · simpa [Says, directives] using h5
    · intro n
      have := h6 n
      simpa [MaxAge, directives] using this

theorem recognised_iff (h : Text) :
    Recognised h ↔ isStr h = true ∧ ∃ p, parse h = some p := by
  simp only [Recognised]
  refine and_congr Iff.rfl ?_
  constructor
  · rintro ⟨h1, h2⟩
    obtain ⟨q, hq⟩ := parseParts_ok (splitOn ',' (trim h)) {} (by simpa [directives] using h2)
    exact ⟨q, by simp [parse, h1, hq]⟩
  · rintro ⟨p, hp⟩
    simp only [parse] at hp
    by_cases he : trim h = []
    · simp [he] at hp
    · simp only [he, if_false] at hp
      obtain ⟨_, _, _, _, _, _, h7⟩ := parseParts_spec _ _ _ hp
      exact ⟨he, by simpa [directives] using h7⟩

/-! ## Merging -/

def CacheControl.poisoned (p : CacheControl) : Bool := p.noStore || p.noCache || p.isPrivate

/-- `m` is the merge of the parsed headers `ps`. -/
structure Merged (ps : List CacheControl) (m : CacheControl) : Prop where
  poison : m.poisoned = true ↔ ∃ p ∈ ps, p.poisoned = true
  pub : m.poisoned = false → (m.isPublic = true ↔ ∀ p ∈ ps, p.isPublic = true)
  must : m.poisoned = false → (m.mustRevalidate = true ↔ ∃ p ∈ ps, p.mustRevalidate = true)
  age : m.poisoned = false → ∀ n, m.maxAge = some n →
    (∃ p ∈ ps, p.maxAge = some n) ∧ ∀ p ∈ ps, ∀ k, p.maxAge = some k → n ≤ k
  ageNone : m.poisoned = false → m.maxAge = none → ∀ p ∈ ps, p.maxAge = none

theorem merged_step {ps : List CacheControl} {m p : CacheControl} (h : Merged ps m) :
    Merged (ps ++ [p]) (mergeInto (some m) p) := by
  by_cases hp : m.poisoned = true ∨ p.poisoned = true
  · have hm : mergeInto (some m) p = { noStore := true, noCache := true } := by
      simp only [mergeInto]
      rw [if_pos]
      simp only [CacheControl.poisoned, Bool.or_eq_true] at hp ⊢
      rcases hp with ((hp | hp) | hp) | ((hp | hp) | hp) <;> simp [hp]
    rw [hm]
    refine ⟨?_, by simp [CacheControl.poisoned], by simp [CacheControl.poisoned],
      by simp [CacheControl.poisoned], by simp [CacheControl.poisoned]⟩
    simp only [CacheControl.poisoned, Bool.true_or, true_iff]
    rcases hp with hp | hp
    · obtain ⟨x, hx, h1⟩ := h.poison.1 hp
      exact ⟨x, by simp [hx], h1⟩
    · exact ⟨p, by simp, hp⟩
  · simp only [not_or, Bool.not_eq_true] at hp
    obtain ⟨hm, hpp⟩ := hp
    have hnp : ¬ ∃ q ∈ ps, q.poisoned = true := by rw [← h.poison]; simp [hm]
    have hif : (m.noStore || m.noCache || m.isPrivate || p.noStore || p.noCache || p.isPrivate)
        = false := by
      simp only [CacheControl.poisoned, Bool.or_eq_false_iff] at hm hpp ⊢
      exact ⟨⟨⟨⟨hm.1, hm.2⟩, hpp.1.1⟩, hpp.1.2⟩, hpp.2⟩
    have hpois : (mergeInto (some m) p).poisoned = false := by
      simp only [mergeInto, hif, Bool.false_eq_true, if_false]; exact hm
    refine ⟨?_, ?_, ?_, ?_, ?_⟩
    · simp only [hpois]
      simp only [Bool.false_eq_true, false_iff]
      rintro ⟨q, hq, h1⟩
      rcases List.mem_append.1 hq with hq | hq
      · exact hnp ⟨q, hq, h1⟩
      · simp at hq; subst hq; rw [hpp] at h1; simp at h1
    · intro _
      simp only [mergeInto, hif, Bool.false_eq_true, if_false, Bool.and_eq_true, List.mem_append, List.mem_singleton]
      rw [h.pub hm]
      constructor
      · rintro ⟨h1, h2⟩ q (hq | rfl)
        · exact h1 q hq
        · exact h2
      · intro hh; exact ⟨fun q hq => hh q (Or.inl hq), hh p (Or.inr rfl)⟩
    · intro _
      simp only [mergeInto, hif, Bool.false_eq_true, if_false, Bool.or_eq_true, List.mem_append, List.mem_singleton]
      rw [h.must hm]
      constructor
      · rintro (⟨q, hq, h1⟩ | h1)
        · exact ⟨q, Or.inl hq, h1⟩
        · exact ⟨p, Or.inr rfl, h1⟩
      · rintro ⟨q, hq | rfl, h1⟩
        · exact Or.inl ⟨q, hq, h1⟩
        · exact Or.inr h1
    · intro _ n hn
      simp only [mergeInto, hif, Bool.false_eq_true, if_false] at hn
      simp only [List.mem_append, List.mem_singleton]
      cases ha : m.maxAge with
      | none =>
        have hnone := h.ageNone hm ha
        cases hb : p.maxAge with
        | none => simp [ha, hb] at hn
        | some b =>
          simp [ha, hb] at hn; subst hn
          refine ⟨⟨p, Or.inr rfl, hb⟩, ?_⟩
          rintro q (hq | rfl) k hk
          · rw [hnone q hq] at hk; simp at hk
          · rw [hb] at hk; simp at hk; omega
      | some a =>
        obtain ⟨⟨x, hx, hxa⟩, hmin⟩ := h.age hm a ha
        cases hb : p.maxAge with
        | none =>
          simp [ha, hb] at hn; subst hn
          refine ⟨⟨x, Or.inl hx, hxa⟩, ?_⟩
          rintro q (hq | rfl) k hk
          · exact hmin q hq k hk
          · rw [hb] at hk; simp at hk
        | some b =>
          simp [ha, hb] at hn; subst hn
          refine ⟨?_, ?_⟩
          · by_cases hab : a ≤ b
            · exact ⟨x, Or.inl hx, by rw [hxa]; simp; omega⟩
            · exact ⟨p, Or.inr rfl, by rw [hb]; simp; omega⟩
          · rintro q (hq | rfl) k hk
            · have := hmin q hq k hk; omega
            · rw [hb] at hk; simp at hk; omega
    · intro _ hn
      simp only [mergeInto, hif, Bool.false_eq_true, if_false] at hn
      simp only [List.mem_append, List.mem_singleton]
      cases ha : m.maxAge with
      | some a => cases hb : p.maxAge <;> simp [ha, hb] at hn
      | none =>
        cases hb : p.maxAge with
        | some b => simp [ha, hb] at hn
        | none =>
          rintro q (hq | rfl)
          · exact h.ageNone hm ha q hq
          · exact hb

theorem merged_one (p : CacheControl) : Merged [p] p := by
  refine ⟨by simp, by simp, by simp, ?_, ?_⟩
  · intro _ n hn
    refine ⟨⟨p, by simp, hn⟩, ?_⟩
    intro q hq k hk
    simp at hq; subst hq
    rw [hn] at hk; simp at hk; omega
  · intro _ hn q hq; simp at hq; subst hq; exact hn

/-- The parsed forms of the readable values. -/
def parsedOf (vs : List Text) : List CacheControl :=
  vs.filterMap fun v => if isStr v then parse v else none

theorem mergeValues_spec : ∀ (vs : List Text) (done : List CacheControl)
    (acc : Option CacheControl),
    (done = [] ∧ acc = none ∨ ∃ m, acc = some m ∧ Merged done m) →
    (done ++ parsedOf vs = [] ∧ mergeValues vs acc = none ∨
      ∃ m, mergeValues vs acc = some m ∧ Merged (done ++ parsedOf vs) m) := by
  intro vs
  induction vs with
  | nil => intro done acc h; simpa [mergeValues, parsedOf] using h
  | cons v vs ih =>
    intro done acc h
    simp only [mergeValues, parsedOf, List.filterMap_cons]
    cases hs : isStr v with
    | false => simpa [hs, parsedOf] using ih done acc h
    | true =>
      simp only [if_true]
      cases hp : parse v with
      | none => simpa [hp, parsedOf] using ih done acc h
      | some p =>
        simp only
        have := ih (done ++ [p]) (some (mergeInto acc p)) (Or.inr ⟨_, rfl, by
          rcases h with ⟨rfl, rfl⟩ | ⟨m, rfl, hm⟩
          · exact merged_one p
          · exact merged_step hm⟩)
        simpa [parsedOf] using this

/-! ## Reading the written header -/

theorem splitOn_no (c : Char) (t : Text) (h : c ∉ t) : splitOn c t = [t] := by
  induction t with
  | nil => rfl
  | cons a t ih =>
    simp at h
    simp [splitOn, Ne.symm h.1, ih h.2]

theorem splitOn_append (c : Char) (a b : Text) (h : c ∉ a) :
    splitOn c (a ++ c :: b) = a :: splitOn c b := by
  induction a with
  | nil => simp [splitOn]
  | cons x a ih =>
    simp at h
    simp [splitOn, Ne.symm h.1, ih h.2]

/-- A directive as the router writes it: no commas, no blanks at the ends. -/
def Clean (t : Text) : Prop := ',' ∉ t ∧ t ≠ [] ∧ ∀ c ∈ t, isSpace c = false

theorem dropWhile_clean {t : Text} (h : ∀ c ∈ t, isSpace c = false) : t.dropWhile isSpace = t := by
  cases t with
  | nil => rfl
  | cons a t => simp [List.dropWhile, h a (by simp)]

theorem trim_clean {t : Text} (h : ∀ c ∈ t, isSpace c = false) : trim t = t := by
  simp only [trim]
  rw [dropWhile_clean h, dropWhile_clean (by simpa using h), List.reverse_reverse]

theorem trim_space (t : Text) : trim (' ' :: t) = trim t := by
  simp [trim, List.dropWhile, isSpace]

theorem splitOn_join : ∀ (ps : List Text), ps ≠ [] → (∀ p ∈ ps, Clean p) →
    (splitOn ',' (joinComma ps)).map trim = ps
  | [], h, _ => absurd rfl h
  | [p], _, h => by
    have := h p (by simp)
    simp [joinComma, splitOn_no _ _ this.1, trim_clean this.2.2]
  | p :: q :: ps, _, h => by
    have hp := h p (by simp)
    have ih := splitOn_join (q :: ps) (by simp) (fun x hx => h x (by simp [hx]))
    simp only [joinComma, List.append_assoc, List.cons_append, List.nil_append]
    rw [splitOn_append _ _ _ hp.1]
    cases hs : splitOn ',' (joinComma (q :: ps)) with
    | nil => rw [hs] at ih; simp at ih
    | cons a t =>
      have hsp : splitOn ',' (' ' :: joinComma (q :: ps)) = (' ' :: a) :: t := by
        rw [splitOn, hs]; simp
      rw [hs] at ih
      rw [hsp]
      simp only [List.map_cons] at ih ⊢
      rw [trim_space, trim_clean hp.2.2, ih]

theorem joinComma_head : ∀ (ps : List Text), ps ≠ [] → (∀ p ∈ ps, Clean p) →
    ∃ a t, joinComma ps = a :: t ∧ isSpace a = false
  | [], h, _ => absurd rfl h
  | [p], _, h => by
    obtain ⟨_, h2, h3⟩ := h p (by simp)
    cases p with
    | nil => exact absurd rfl h2
    | cons a t => exact ⟨a, t, rfl, h3 a (by simp)⟩
  | p :: q :: ps, _, h => by
    obtain ⟨_, h2, h3⟩ := h p (by simp)
    cases p with
    | nil => exact absurd rfl h2
    | cons a t => exact ⟨a, _, rfl, h3 a (by simp)⟩

theorem joinComma_last : ∀ (ps : List Text), ps ≠ [] → (∀ p ∈ ps, Clean p) →
    ∃ a t, joinComma ps = t ++ [a] ∧ isSpace a = false
  | [], h, _ => absurd rfl h
  | [p], _, h => by
    obtain ⟨_, h2, h3⟩ := h p (by simp)
    exact ⟨p.getLast h2, p.dropLast, by simp [joinComma, List.dropLast_concat_getLast],
      h3 _ (List.getLast_mem h2)⟩
  | p :: q :: ps, _, h => by
    obtain ⟨a, t, h1, h2⟩ := joinComma_last (q :: ps) (by simp) (fun x hx => h x (by simp [hx]))
    exact ⟨a, p ++ [',', ' '] ++ t, by simp only [joinComma, h1]; simp, h2⟩

theorem trim_join (ps : List Text) (h : ∀ p ∈ ps, Clean p) : trim (joinComma ps) = joinComma ps := by
  by_cases hne : ps = []
  · subst hne; rfl
  · obtain ⟨a, t, h1, h2⟩ := joinComma_head ps hne h
    obtain ⟨b, u, h3, h4⟩ := joinComma_last ps hne h
    simp only [trim]
    rw [show (joinComma ps).dropWhile isSpace = joinComma ps by
      rw [h1]; simp [List.dropWhile, h2]]
    rw [h3]
    simp [List.dropWhile, h4]

theorem directives_join (ps : List Text) (h : ∀ p ∈ ps, Clean p) :
    directives (joinComma ps) = ps := by
  simp only [directives]
  rw [trim_join ps h]
  by_cases hne : ps = []
  · subst hne; rfl
  · rw [splitOn_join ps hne h]
    rw [List.filter_eq_self]
    intro p hp
    simpa using (h p hp).2.1

theorem digitChar_lt : ∀ d, d < 10 → digitVal (digitChar d) = some d ∧ isSpace (digitChar d) = false
    ∧ digitChar d ≠ ',' ∧ digitChar d ≠ '+' := by decide

theorem parseDigits_append : ∀ (a : Text) (acc : Nat) (d : Nat) (n : Nat), d < 10 →
    parseDigits acc a = some n → parseDigits acc (a ++ [digitChar d]) = some (n * 10 + d)
  | [], acc, d, n, hd, h => by
    simp [parseDigits] at h; subst h
    simp [parseDigits, (digitChar_lt d hd).1]
  | c :: a, acc, d, n, hd, h => by
    simp only [parseDigits, List.cons_append] at h ⊢
    cases hc : digitVal c with
    | none => simp [hc] at h
    | some k => simp [hc] at h ⊢; exact parseDigits_append a _ d n hd h

theorem showDigits_spec : ∀ (fuel n : Nat), n < fuel → parseDigits 0 (showDigits fuel n) = some n ∧
    (∀ c ∈ showDigits fuel n, ∃ d, d < 10 ∧ c = digitChar d) ∧ showDigits fuel n ≠ [] := by
  intro fuel
  induction fuel with
  | zero => intro n h; omega
  | succ fuel ih =>
    intro n hn
    rw [showDigits]
    by_cases h : n < 10
    · simp only [h, if_true]
      exact ⟨by simp [parseDigits, (digitChar_lt n h).1], by simpa using ⟨n, h, rfl⟩, by simp⟩
    · simp only [h, if_false]
      obtain ⟨h1, h2, h3⟩ := ih (n / 10) (by omega)
      refine ⟨?_, ?_, by simp⟩
      · rw [parseDigits_append _ _ _ _ (by omega) h1]
        congr 1; omega
      · intro c hc
        rcases List.mem_append.1 hc with hc | hc
        · exact h2 c hc
        · simp at hc; exact ⟨n % 10, by omega, hc⟩

theorem showNat_spec (n : Nat) : parseDigits 0 (showNat n) = some n ∧
    (∀ c ∈ showNat n, ∃ d, d < 10 ∧ c = digitChar d) ∧ showNat n ≠ [] :=
  showDigits_spec (n + 1) n (by omega)

theorem showNat_clean (n : Nat) : ',' ∉ showNat n ∧ ∀ c ∈ showNat n, isSpace c = false := by
  obtain ⟨_, h, _⟩ := showNat_spec n
  constructor
  · intro hc
    obtain ⟨d, hd, he⟩ := h _ hc
    exact (digitChar_lt d hd).2.2.1 he.symm
  · intro c hc
    obtain ⟨d, hd, rfl⟩ := h c hc
    exact (digitChar_lt d hd).2.1

theorem parseU32_showNat (n : Nat) (h : n < 2 ^ 32) : parseU32 (showNat n) = some n := by
  obtain ⟨h1, h2, h3⟩ := showNat_spec n
  have hplus : ∀ rest, showNat n ≠ '+' :: rest := by
    intro rest heq
    obtain ⟨d, hd, he⟩ := h2 '+' (by rw [heq]; simp)
    exact absurd he.symm (digitChar_lt d hd).2.2.2
  have hdp : dropPlus (showNat n) = showNat n := by
    generalize showNat n = s at *
    unfold dropPlus
    split
    · exact absurd rfl (hplus _)
    · rfl
  unfold parseU32
  rw [hdp, if_neg h3, h1, Option.bind_some, if_pos h]

/-- Everything a parsed header carries fits in 32 bits. -/
def Fits (p : CacheControl) : Prop := ∀ n, p.maxAge = some n → n < 2 ^ 32

theorem parseU32_lt {t : Text} {n : Nat} (h : parseU32 t = some n) : n < 2 ^ 32 := by
  unfold parseU32 at h
  generalize dropPlus t = ds at h
  by_cases hd : ds = []
  · simp [hd] at h
  · rw [if_neg hd, Option.bind_eq_some_iff] at h
    obtain ⟨k, _, hk⟩ := h
    by_cases hlt : k < 2 ^ 32
    · rw [if_pos hlt] at hk; cases hk; exact hlt
    · rw [if_neg hlt] at hk; cases hk

theorem headerParts_clean (p : CacheControl) : ∀ x ∈ headerParts p, Clean x := by
  intro x hx
  simp only [headerParts, List.mem_append] at hx
  rcases hx with (hx | hx) | hx
  · split at hx
    · simp at hx; subst hx; exact ⟨by decide, by decide, by decide⟩
    · simp at hx
  · split at hx
    · rename_i a _
      simp only [List.mem_singleton] at hx; subst hx
      obtain ⟨h1, h2⟩ := showNat_clean a
      refine ⟨?_, by simp, ?_⟩
      · rw [List.mem_append, not_or]; exact ⟨by decide, h1⟩
      · intro c hc
        rcases List.mem_append.1 hc with hc | hc
        · exact (by decide : ∀ c ∈ "max-age=".toList, isSpace c = false) c hc
        · exact h2 c hc
    · simp at hx
  · split at hx
    · simp at hx; subst hx; exact ⟨by decide, by decide, by decide⟩
    · simp at hx

theorem splitOnce_maxAge (a : Nat) :
    splitOnce '=' ("max-age=".toList ++ showNat a) = some ("max-age".toList, showNat a) := by
  simp [splitOnce]

/-- Reading back a header without poison. -/
theorem toHeader_means {p : CacheControl} (hp : p.poisoned = false) (hf : Fits p) :
    Means (toHeader p) p := by
  have hd : directives (toHeader p) = headerParts p := by
    have : toHeader p = joinComma (headerParts p) := by
      simp only [toHeader]
      simp only [CacheControl.poisoned] at hp
      simp [hp]
    rw [this, directives_join _ (headerParts_clean p)]
  have hn1 : dirName "public".toList = "public".toList := by decide
  have hn2 : dirName "must-revalidate".toList = "must-revalidate".toList := by decide
  have hn3 : ∀ a, dirName ("max-age=".toList ++ showNat a) = "max-age".toList := by
    intro a; simp only [dirName, splitOnce_maxAge]; decide
  have ha3 : ∀ a, dirArg ("max-age=".toList ++ showNat a) = some (showNat a) := by
    intro a; simp only [dirArg, splitOnce_maxAge, Option.map_some, trim_clean (showNat_clean a).2]
  simp only [CacheControl.poisoned, Bool.or_eq_false_iff] at hp
  obtain ⟨⟨hp1, hp2⟩, hp3⟩ := hp
  have hsays : ∀ name : String, Says (toHeader p) name ↔
      (p.isPublic = true ∧ name = "public") ∨
      (p.maxAge.isSome = true ∧ name = "max-age") ∨
      (p.mustRevalidate = true ∧ name = "must-revalidate") := by
    intro name
    simp only [Says, hd, headerParts]
    constructor
    · rintro ⟨d, hdm, hdn⟩
      simp only [List.mem_append] at hdm
      rcases hdm with (hx | hx) | hx
      · split at hx
        · simp only [List.mem_singleton] at hx; subst hx
          rw [hn1] at hdn; exact Or.inl ⟨by assumption, (String.toList_inj.1 hdn).symm⟩
        · simp at hx
      · split at hx
        · rename_i a ha
          simp only [List.mem_singleton] at hx; subst hx
          rw [hn3] at hdn; exact Or.inr (Or.inl ⟨by simp [ha], (String.toList_inj.1 hdn).symm⟩)
        · simp at hx
      · split at hx
        · simp only [List.mem_singleton] at hx; subst hx
          rw [hn2] at hdn; exact Or.inr (Or.inr ⟨by assumption, (String.toList_inj.1 hdn).symm⟩)
        · simp at hx
    · rintro (⟨h1, h2⟩ | ⟨h1, h2⟩ | ⟨h1, h2⟩)
      · exact ⟨"public".toList, by rw [if_pos h1]; exact List.mem_append_left _ (List.mem_append_left _ (List.mem_singleton.2 rfl)), by rw [hn1, h2]⟩
      · obtain ⟨a, ha⟩ := Option.isSome_iff_exists.1 h1
        exact ⟨_, by rw [ha]; simp only [List.mem_append, List.mem_singleton]; exact Or.inl (Or.inr rfl), by rw [hn3, h2]⟩
      · exact ⟨"must-revalidate".toList, by rw [if_pos h1]; exact List.mem_append_right _ (List.mem_singleton.2 rfl), by rw [hn2, h2]⟩
  constructor
  · rw [hsays, hp1]; simp only [Bool.false_eq_true, false_iff]; rintro (⟨_, h⟩ | ⟨_, h⟩ | ⟨_, h⟩) <;> exact absurd h (by decide)
  · rw [hsays, hp2]; simp only [Bool.false_eq_true, false_iff]; rintro (⟨_, h⟩ | ⟨_, h⟩ | ⟨_, h⟩) <;> exact absurd h (by decide)
  · rw [hsays]
    exact ⟨fun h => Or.inr (Or.inr ⟨h, rfl⟩), by
      rintro (⟨_, h⟩ | ⟨_, h⟩ | ⟨h, _⟩)
      · exact absurd h (by decide)
      · exact absurd h (by decide)
      · exact h⟩
  · rw [hsays, hp3]; simp only [Bool.false_eq_true, false_iff]; rintro (⟨_, h⟩ | ⟨_, h⟩ | ⟨_, h⟩) <;> exact absurd h (by decide)
  · rw [hsays]
    exact ⟨fun h => Or.inl ⟨h, rfl⟩, by
      rintro (⟨h, _⟩ | ⟨_, h⟩ | ⟨_, h⟩)
      · exact h
      · exact absurd h (by decide)
      · exact absurd h (by decide)⟩
  · intro n
    simp only [MaxAge, hd, headerParts]
    constructor
    · intro hn
      refine ⟨if p.isPublic then ["public".toList] else [], "max-age=".toList ++ showNat n,
        if p.mustRevalidate then ["must-revalidate".toList] else [], by rw [hn, List.append_assoc]; rfl, hn3 n, ?_, ?_⟩
      · rw [ha3]; exact parseU32_showNat n (hf n hn)
      · intro e he
        split at he
        · simp only [List.mem_singleton] at he; subst he; rw [hn2]; decide
        · simp at he
    · rintro ⟨pre, d, post, h1, h2, h3, _⟩
      have hmem : d ∈ headerParts p := by
        simp only [headerParts]; rw [h1]; simp
      simp only [headerParts, List.mem_append] at hmem
      rcases hmem with (hx | hx) | hx
      · split at hx
        · simp only [List.mem_singleton] at hx; subst hx
          rw [hn1] at h2; exact absurd h2 (by decide)
        · simp at hx
      · split at hx
        · rename_i a ha
          simp only [List.mem_singleton] at hx; subst hx
          rw [ha3] at h3
          simp only [Option.bind_some] at h3
          rw [parseU32_showNat a (hf a ha)] at h3
          simp at h3; rw [ha, h3]
        · simp at hx
      · split at hx
        · simp only [List.mem_singleton] at hx; subst hx
          rw [hn2] at h2; exact absurd h2 (by decide)
        · simp at hx

theorem poison_says : Says "no-store, no-cache".toList "no-store" ∧
    Says "no-store, no-cache".toList "no-cache" ∧
    ¬ Says "no-store, no-cache".toList "public" ∧
    (∀ n, ¬ MaxAge "no-store, no-cache".toList n) ∧
    ¬ Says "no-store, no-cache".toList "must-revalidate" := by
  have hd : directives "no-store, no-cache".toList = ["no-store".toList, "no-cache".toList] := by
    decide
  refine ⟨⟨"no-store".toList, by rw [hd]; simp, by decide⟩, ⟨"no-cache".toList, by rw [hd]; simp, by decide⟩, ?_, ?_, ?_⟩
  · rintro ⟨d, h1, h2⟩
    rw [hd] at h1; simp only [List.mem_cons, List.not_mem_nil, or_false] at h1
    rcases h1 with rfl | rfl <;> exact absurd h2 (by decide)
  · rintro n ⟨pre, d, post, h1, h2, _⟩
    have : d ∈ directives "no-store, no-cache".toList := by rw [h1]; simp
    rw [hd] at this; simp only [List.mem_cons, List.not_mem_nil, or_false] at this
    rcases this with rfl | rfl <;> exact absurd h2 (by decide)
  · rintro ⟨d, h1, h2⟩
    rw [hd] at h1; simp only [List.mem_cons, List.not_mem_nil, or_false] at h1
    rcases h1 with rfl | rfl <;> exact absurd h2 (by decide)

end Verif.Headers
