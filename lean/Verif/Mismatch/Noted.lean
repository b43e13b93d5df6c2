import Verif.Fetch.Safe
import Verif.Mismatch.Props

/-!
# Every renaming is noted for the response

What is renamed in the request of a step and what is noted to be renamed back in its response go together.
-/

namespace Verif.Mismatch

open Verif.Fetch

/-! ## Specification -/

/-- One field of a selection set has the key `k`, and gets the key `a`, which nothing in it has. -/
def Renamed (a k : String) (items items' : List Sel) : Prop :=
  ∃ pre f ss post, items = pre ++ .field f ss :: post ∧
    items' = pre ++ .field { f with «alias» := some a } ss :: post ∧ k = f.key ∧
    ∀ g gs, Sel.field g gs ∈ items → g.key ≠ a

/-- A selection set is changed at the end of a path, and nowhere else. -/
inductive Within (R : List Sel → List Sel → Prop) : MPath → List Sel → List Sel → Prop
  | here {ss ss' : List Sel} : R ss ss' → Within R [] ss ss'
  | list {p : MPath} {ss ss' : List Sel} : Within R p ss ss' → Within R (.list :: p) ss ss'
  | field {s : Seg} {p : MPath} {pre post us us' : List Sel} {f : FieldInfo} : fits s (.field f us) = true →
      Within R p us us' → Within R (s :: p) (pre ++ .field f us :: post) (pre ++ .field f us' :: post)
  | frag {s : Seg} {p : MPath} {pre post us us' : List Sel} {g : FragInfo} : fits s (.frag g us) = true →
      Within R p us us' → Within R (s :: p) (pre ++ .frag g us :: post) (pre ++ .frag g us' :: post)

/-- The selections of a step before and after renamings, each of which is noted: where it was done, the key the
field has got, and the one it had. -/
inductive Noted : Selections → List Rewrite → Selections → Prop
  | none (o : Selections) : Noted o [] o
  | more {o : Selections} {rs : List Rewrite} {pre post : Selections} {t : String} {ss ss' : List Sel} {p : MPath}
      {a k : String} : Noted o rs (pre ++ (t, ss) :: post) → Within (Renamed a k) p ss ss' →
      Noted o (rs ++ [(p, a, k)]) (pre ++ (t, ss') :: post)

/-! ## Proof -/

theorem alias_renamed {s : Seg} {p q : MPath} {items items' : List Sel} {a k : String}
    (h : alias_ s p items = .ok (items', (q, a, k))) : q = p ∧ Renamed a k items items' := by
  obtain ⟨h1, pre, f, ss, post, h2, h3, -, h5, h6⟩ := C119_renamed h
  exact ⟨h1, pre, f, ss, post, h2, h3, h5, h6⟩

theorem updateAt_within {α : Type} {R : α → List Sel → List Sel → Prop} {u : List Sel → Except Err (List Sel × α)}
    (hu : ∀ ss ss' r, u ss = .ok (ss', r) → R r ss ss') : ∀ (p : MPath) {ss ss' : List Sel} {r : α},
    updateAt u p ss = .ok (ss', r) → Within (R r) p ss ss'
  | [], _, _, _, h => .here (hu _ _ _ h)
  | .list :: p, _, _, _, h => .list (updateAt_within hu p (by simpa only [updateAt] using h))
  | .field .. :: p, _, _, _, h => by
    simp only [updateAt] at h
    rcases updateIn_ok h with ⟨a, f, us, us', b, rfl, hp, hu', rfl⟩ | ⟨a, g, us, us', b, rfl, hp, hu', rfl⟩
    · exact .field hp (updateAt_within hu p hu')
    · exact .frag hp (updateAt_within hu p hu')
  | .type .. :: p, _, _, _, h => by
    simp only [updateAt] at h
    rcases updateIn_ok h with ⟨a, f, us, us', b, rfl, hp, hu', rfl⟩ | ⟨a, g, us, us', b, rfl, hp, hu', rfl⟩
    · exact .field hp (updateAt_within hu p hu')
    · exact .frag hp (updateAt_within hu p hu')

theorem updateDef_ok {α : Type} {t : String} {u : List Sel → Except Err (List Sel × α)} :
    ∀ {o o' : Selections} {r : α}, updateDef t u o = .ok (o', r) →
      ∃ pre ss ss' post, o = pre ++ (t, ss) :: post ∧ u ss = .ok (ss', r) ∧ o' = pre ++ (t, ss') :: post
  | [], _, _, h => by simp [updateDef] at h
  | (k, ss) :: l, o', r, h => by
    unfold updateDef at h
    split at h
    next e =>
      subst e
      cases hu : u ss with
      | error e => simp [hu, Except.map] at h
      | ok y =>
        simp only [hu, Except.map, Except.ok.injEq, Prod.mk.injEq] at h
        obtain ⟨rfl, rfl⟩ := h
        exact ⟨[], ss, y.1, l, rfl, hu, rfl⟩
    next =>
      cases hu : updateDef t u l with
      | error e => simp [hu, Except.map] at h
      | ok y =>
        simp only [hu, Except.map, Except.ok.injEq, Prod.mk.injEq] at h
        obtain ⟨rfl, rfl⟩ := h
        obtain ⟨pre, s1, s2, post, rfl, h1, h2⟩ := updateDef_ok (o := l) (o' := y.1) (r := y.2) hu
        exact ⟨(k, ss) :: pre, s1, s2, post, rfl, h1, by rw [h2]; rfl⟩

theorem fixOne_noted {o : Selections} {x : Selections × List Rewrite} {m : String × MPath}
    (h : Noted o x.2 x.1) : Noted o (fixOne x m).2 (fixOne x m).1 := by
  unfold fixOne
  split
  · exact h
  next s _ =>
    split
    next o' r e =>
      obtain ⟨pre, ss, ss', post, h1, h2, rfl⟩ := updateDef_ok e
      obtain ⟨q, a, k⟩ := r
      have hw := updateAt_within (R := fun (r : Rewrite) s1 s2 => r.1 = m.2.dropLast ∧ Renamed r.2.1 r.2.2 s1 s2)
        (fun s1 s2 r hr => alias_renamed (q := r.1) (a := r.2.1) (k := r.2.2) hr) _ h2
      have hq : q = m.2.dropLast ∧ Within (Renamed a k) m.2.dropLast ss ss' := by
        clear h2 e
        generalize m.2.dropLast = d at hw
        have : ∀ {P : Prop} {d : MPath} {ss ss' : List Sel},
            Within (fun s1 s2 => P ∧ Renamed a k s1 s2) d ss ss' → P ∧ Within (Renamed a k) d ss ss' := by
          intro P d ss ss' hw
          induction hw with
          | here h => exact ⟨h.1, .here h.2⟩
          | list _ ih => exact ⟨ih.1, .list ih.2⟩
          | field hp _ ih => exact ⟨ih.1, .field hp ih.2⟩
          | frag hp _ ih => exact ⟨ih.1, .frag hp ih.2⟩
        exact this hw
      obtain ⟨rfl, hw'⟩ := hq
      rw [h1] at h
      exact .more h hw'
    next => exact h

/-! ## Theorem -/

/-- **C119.** For every step: what is sent is what was to be sent with some fields renamed, one after another, and
for each of them, and for nothing else, it is noted where it is, the key it has got, which was not used there, and
the key that is to be given back to it. -/
theorem C119_noted {S : Sub} {out out' : Selections} {rs : List Rewrite} (h : fix S out = some (out', rs)) :
    Noted out rs out' := by
  unfold fix at h
  obtain ⟨ms, -, hm⟩ := Option.map_eq_some_iff.1 h
  have : ∀ (ms : List (String × MPath)) (x : Selections × List Rewrite), Noted out x.2 x.1 →
      Noted out (ms.foldl fixOne x).2 (ms.foldl fixOne x).1 := by
    intro ms
    induction ms with
    | nil => exact fun _ h => h
    | cons m r ih => exact fun x hx => ih _ (fixOne_noted hx)
  have := this ms (out, []) (.none out)
  rwa [hm] at this

/-- There are steps in which something is renamed. -/
example : ∃ out rs, fix Case.sub [("Q", [Case.on "A" [Case.fld "f"], Case.on "B" [Case.fld "f"]])] = some (out, rs) ∧
    rs ≠ [] := by
  obtain ⟨out, rs, h, hr, -⟩ := Case.two
  refine ⟨out, rs, h, ?_⟩
  rintro rfl
  cases hr

end Verif.Mismatch
