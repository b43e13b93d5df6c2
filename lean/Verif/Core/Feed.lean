/-!
# What is fed to a hasher

The implementations of `Hash` in Rust's standard library write to a hasher; these are the bytes they
write, on a little-endian machine with 64-bit `usize`. Hashers are functions of the bytes.
-/

namespace Verif

/-- A 64-bit integer. -/
def le8 (n : Nat) : List Nat := (List.range 8).map fun i => n / 256 ^ i % 256

/-- `str::hash`: the bytes and `0xff`. -/
def hashStr (s : String) : List Nat := (s.toList.flatMap String.utf8EncodeChar).map (·.toNat) ++ [255]

theorem le8_length (n : Nat) : (le8 n).length = 8 := by simp [le8]

theorem le8_inj {m n : Nat} (hm : m < 2 ^ 64) (hn : n < 2 ^ 64) (h : le8 m = le8 n) : m = n := by
  simp [le8, List.range, List.range.loop] at h
  omega

theorem le8_append {m n : Nat} (hm : m < 2 ^ 64) (hn : n < 2 ^ 64) {r r' : List Nat}
    (h : le8 m ++ r = le8 n ++ r') : m = n ∧ r = r' := by
  have := List.append_inj h (by rw [le8_length, le8_length])
  exact ⟨le8_inj hm hn this.1, this.2⟩

theorem utf8_lt (c : Char) : ∀ b ∈ String.utf8EncodeChar c, b.toNat < 255 := by
  have hc : c.val.toNat < 0x110000 := by
    have := c.valid
    unfold UInt32.isValidChar Nat.isValidChar at this
    omega
  unfold String.utf8EncodeChar
  simp only
  split
  · intro b hb; have hv : c.toNat = c.val.toNat := rfl
    simp at hb; subst hb; simp; omega
  · split
    · intro b hb; simp at hb; rcases hb with rfl | rfl <;> simp <;> omega
    · split
      · intro b hb; simp at hb; rcases hb with rfl | rfl | rfl <;> simp <;> omega
      · intro b hb; simp at hb; rcases hb with rfl | rfl | rfl | rfl <;> simp <;> omega

theorem utf8_inj {l m : List Char}
    (h : l.flatMap String.utf8EncodeChar = m.flatMap String.utf8EncodeChar) : l = m := by
  have h1 : l.utf8Encode = m.utf8Encode := by unfold List.utf8Encode; rw [h]
  have h2 := List.utf8Decode?_utf8Encode (l := l)
  rw [h1, List.utf8Decode?_utf8Encode] at h2
  simpa using h2.symm

theorem sep_unique {a b r r' : List Nat} (ha : 255 ∉ a) (hb : 255 ∉ b)
    (h : a ++ 255 :: r = b ++ 255 :: r') : a = b ∧ r = r' := by
  induction a generalizing b with
  | nil =>
    cases b with
    | nil => simpa using h
    | cons y ys => simp at h; exact absurd (by simp [← h.1]) hb
  | cons x xs ih =>
    cases b with
    | nil => simp at h; exact absurd (by simp [h.1]) ha
    | cons y ys =>
      simp only [List.cons_append, List.cons.injEq] at h
      obtain ⟨h1, h2⟩ := ih (fun h => ha (by simp [h])) (fun h => hb (by simp [h])) h.2
      exact ⟨by rw [h.1, h1], h2⟩

theorem hashStr_append {s t : String} {r r' : List Nat} (h : hashStr s ++ r = hashStr t ++ r') :
    s = t ∧ r = r' := by
  have no : ∀ s : String, 255 ∉ (s.toList.flatMap String.utf8EncodeChar).map (·.toNat) := by
    intro s hs
    obtain ⟨b, hb, he⟩ := List.mem_map.1 hs
    obtain ⟨c, _, hc⟩ := List.mem_flatMap.1 hb
    have := utf8_lt c b hc
    omega
  unfold hashStr at h
  rw [List.append_assoc, List.append_assoc] at h
  obtain ⟨h1, h2⟩ := sep_unique (no s) (no t) h
  have h3 := List.map_inj_right (f := UInt8.toNat) (fun x y hxy => UInt8.toNat_inj.1 hxy) |>.1 h1
  exact ⟨String.toList_inj.1 (utf8_inj h3), h2⟩

end Verif
