import Verif.Json.Escape

/-!
# C11: strings survive JSON escaping
-/

namespace Verif.Json

/-! ## Specification: RFC 8259, section 7 -/

/-- The value of a hexadecimal digit. -/
def hexVal (b : Byte) : Option Nat :=
  if 0x30 ≤ b ∧ b ≤ 0x39 then some (b.toNat - 0x30)
  else if 0x61 ≤ b ∧ b ≤ 0x66 then some (b.toNat - 0x61 + 10)
  else if 0x41 ≤ b ∧ b ≤ 0x46 then some (b.toNat - 0x41 + 10)
  else none

/-- UTF-8 of a code point of the basic plane that is not a surrogate. (Pairs of `\u` escapes for
code points beyond it are not read: the writer never makes them.) -/
def utf8Code (n : Nat) : Option (List Byte) :=
  if n < 0x80 then some [UInt8.ofNat n]
  else if n < 0x800 then some [UInt8.ofNat (0xc0 + n / 64), UInt8.ofNat (0x80 + n % 64)]
  else if 0xd800 ≤ n ∧ n < 0xe000 then none
  else some [UInt8.ofNat (0xe0 + n / 4096), UInt8.ofNat (0x80 + n / 64 % 64),
    UInt8.ofNat (0x80 + n % 64)]

/-- What a one-letter escape stands for. -/
def shortEscape (b : Byte) : Option Byte :=
  if b = 0x22 then some 0x22        -- quotation mark
  else if b = 0x5c then some 0x5c   -- reverse solidus
  else if b = 0x2f then some 0x2f   -- solidus
  else if b = 0x62 then some 0x08   -- b
  else if b = 0x66 then some 0x0c   -- f
  else if b = 0x6e then some 0x0a   -- n
  else if b = 0x72 then some 0x0d   -- r
  else if b = 0x74 then some 0x09   -- t
  else none

/-- The characters between the quotation marks, and the bytes they stand for. -/
inductive Chars : List Byte → List Byte → Prop
  | nil : Chars [] []
  | unescaped (b : Byte) {t s : List Byte} : 0x20 ≤ b → b ≠ 0x22 → b ≠ 0x5c → Chars t s →
      Chars (b :: t) (b :: s)
  | short (c e : Byte) {t s : List Byte} : shortEscape c = some e → Chars t s →
      Chars (0x5c :: c :: t) (e :: s)
  | unicode (h1 h2 h3 h4 : Byte) (n1 n2 n3 n4 : Nat) (u : List Byte) {t s : List Byte} :
      hexVal h1 = some n1 → hexVal h2 = some n2 → hexVal h3 = some n3 → hexVal h4 = some n4 →
      utf8Code (((n1 * 16 + n2) * 16 + n3) * 16 + n4) = some u → Chars t s →
      Chars (0x5c :: 0x75 :: h1 :: h2 :: h3 :: h4 :: t) (u ++ s)

/-- A JSON string and the bytes it stands for: characters between quotation marks. -/
def IsLiteral (lit bytes : List Byte) : Prop :=
  ∃ chars, lit = 0x22 :: chars ++ [0x22] ∧ Chars chars bytes

/-- A literal stands for one string only. -/
theorem Chars.unique {t s s' : List Byte} (h : Chars t s) (h' : Chars t s') : s = s' := by
  induction h generalizing s' with
  | nil => cases h'; rfl
  | unescaped b h1 h2 h3 _ ih =>
    cases h' with
    | unescaped _ _ _ _ h4 => rw [ih h4]
    | short => exact absurd rfl h3
    | unicode => exact absurd rfl h3
  | short c e he _ ih =>
    cases h' with
    | unescaped _ _ _ h3 => exact absurd rfl h3
    | short _ e' he' h4 => rw [he] at he'; simp only [Option.some.injEq] at he'; rw [he', ih h4]
    | unicode => simp [shortEscape] at he
  | unicode a1 a2 a3 a4 n1 n2 n3 n4 u e1 e2 e3 e4 hu _ ih =>
    cases h' with
    | unescaped _ _ _ h3 => exact absurd rfl h3
    | short _ e' he' h4 => simp [shortEscape] at he'
    | unicode _ _ _ _ k1 k2 k3 k4 v f1 f2 f3 f4 hv h4 =>
      rw [e1, Option.some.injEq] at f1
      rw [e2, Option.some.injEq] at f2
      rw [e3, Option.some.injEq] at f3
      rw [e4, Option.some.injEq] at f4
      subst f1 f2 f3 f4
      rw [hu, Option.some.injEq] at hv
      rw [hv, ih h4]

/-! ## The escape table -/

/-- What is written for a byte. -/
def esc (b : Byte) : List Byte := if needEscaped b then quoteText b else [b]

theorem byte_cases (P : Byte → Prop) (h : ∀ i : Fin 256, P (UInt8.ofNat i.val)) (b : Byte) : P b := by
  have := h ⟨b.toNat, b.toNat_lt⟩
  simpa using this

theorem quoteText_len (b : Byte) : (quoteText b).length ≤ 6 := by
  refine byte_cases (fun b => (quoteText b).length ≤ 6) ?_ b
  decide +kernel

theorem quoteText_ne (b : Byte) (h : needEscaped b = true) : (quoteText b).length ≠ 0 := by
  refine byte_cases (fun b => needEscaped b = true → (quoteText b).length ≠ 0) ?_ b h
  decide +kernel

theorem esc_len (b : Byte) : (esc b).length ≤ 6 := by
  unfold esc; split
  · exact quoteText_len b
  · simp

theorem is_fin (b : Byte) : ∃ i : Fin 256, b = UInt8.ofNat i.val :=
  ⟨⟨b.toNat, b.toNat_lt⟩, by simp⟩

/-- The escape of a byte, put before characters, stands for the byte before their bytes. -/
theorem chars_esc (b : Byte) {t s : List Byte} (h : Chars t s) : Chars (esc b ++ t) (b :: s) := by
  obtain ⟨i, rfl⟩ := is_fin b
  by_cases hn : needEscaped (UInt8.ofNat i.val) = true
  · have hcase : i.val < 0x20 ∨ i.val = 0x22 ∨ i.val = 0x5c := by
      revert hn; revert i; decide +kernel
    by_cases hs : i.val = 8 ∨ i.val = 9 ∨ i.val = 10 ∨ i.val = 12 ∨ i.val = 13 ∨
        i.val = 0x22 ∨ i.val = 0x5c
    · have short : esc (UInt8.ofNat i.val) = [0x5c, (esc (UInt8.ofNat i.val)).getD 1 0] ∧
          shortEscape ((esc (UInt8.ofNat i.val)).getD 1 0) = some (UInt8.ofNat i.val) := by
        revert hs; clear hcase hn; revert i; decide +kernel
      rw [short.1]
      exact .short _ _ short.2 h
    · have long : esc (UInt8.ofNat i.val) = [0x5c, 0x75, (esc (UInt8.ofNat i.val)).getD 2 0,
            (esc (UInt8.ofNat i.val)).getD 3 0, (esc (UInt8.ofNat i.val)).getD 4 0,
            (esc (UInt8.ofNat i.val)).getD 5 0] ∧
          hexVal ((esc (UInt8.ofNat i.val)).getD 2 0) = some 0 ∧
          hexVal ((esc (UInt8.ofNat i.val)).getD 3 0) = some 0 ∧
          hexVal ((esc (UInt8.ofNat i.val)).getD 4 0) = some (i.val / 16) ∧
          hexVal ((esc (UInt8.ofNat i.val)).getD 5 0) = some (i.val % 16) ∧
          utf8Code (((0 * 16 + 0) * 16 + i.val / 16) * 16 + i.val % 16) =
            some [UInt8.ofNat i.val] := by
        have : i.val < 0x20 ∧ ¬ (i.val = 8 ∨ i.val = 9 ∨ i.val = 10 ∨ i.val = 12 ∨ i.val = 13) := by
          omega
        clear hcase hs hn; revert this; revert i; decide +kernel
      obtain ⟨e, e1, e2, e3, e4, e5⟩ := long
      rw [e]
      exact .unicode _ _ _ _ _ _ _ _ _ e1 e2 e3 e4 e5 h
  · have he : esc (UInt8.ofNat i.val) = [UInt8.ofNat i.val] := by unfold esc; rw [if_neg hn]
    have hb : 0x20 ≤ UInt8.ofNat i.val ∧ UInt8.ofNat i.val ≠ 0x22 ∧ UInt8.ofNat i.val ≠ 0x5c := by
      revert hn; clear he; revert i; decide +kernel
    rw [he]
    exact .unescaped _ hb.1 hb.2.1 hb.2.2 h

theorem chars_flatMap (bs : List Byte) : Chars (bs.flatMap esc) bs := by
  induction bs with
  | nil => exact .nil
  | cons b bs ih => rw [List.flatMap_cons]; exact chars_esc b ih

/-! ## Memory -/

theorem store_some {buf : List Byte} {p : Nat} {bs : List Byte} (h : p + bs.length ≤ buf.length) :
    store buf p bs = some (buf.take p ++ bs ++ buf.drop (p + bs.length)) := by
  unfold store; rw [if_pos h]

/-- After a write, what lies before the position and as much of what was written as one likes. -/
theorem store_take {buf buf' : List Byte} {p : Nat} {bs : List Byte} (h : store buf p bs = some buf')
    (k : Nat) (hk : k ≤ bs.length) :
    buf'.take (p + k) = buf.take p ++ bs.take k ∧ buf'.length = buf.length := by
  unfold store at h
  split at h
  · rename_i hle
    simp only [Option.some.injEq] at h
    subst h
    have hp : (buf.take p).length = p := by rw [List.length_take]; omega
    constructor
    · rw [List.append_assoc, List.take_append, hp, List.take_of_length_le (by omega)]
      congr 1
      rw [show p + k - p = k by omega, List.take_append_of_le_length hk]
    · simp only [List.length_append, List.length_take, List.length_drop]; omega
  · simp at h

theorem load_some {m : Mem} {i lanes : Nat} (h : ∀ k, k < lanes → m.Mapped (i + k)) :
    m.load i lanes = some ((List.range lanes).map fun k => m.get (i + k)) := by
  unfold Mem.load; rw [if_pos h]

theorem get_eq {m : Mem} {i : Nat} (h : i < m.bytes.length) : m.get i = m.bytes[i] := by
  unfold Mem.get; rw [dif_pos h]

/-- The first bytes of a chunk that begins inside the string. -/
theorem chunk_take {m : Mem} {i lanes k : Nat} (hk : k ≤ lanes) (h : i + k ≤ m.bytes.length) :
    ((List.range lanes).map fun k => m.get (i + k)).take k = (m.bytes.drop i).take k := by
  apply List.ext_getElem
  · simp only [List.length_take, List.length_map, List.length_range, List.length_drop]; omega
  · intro j h1 h2
    simp only [List.length_take, List.length_map, List.length_range] at h1
    rw [List.getElem_take, List.getElem_map, List.getElem_range, get_eq (by omega),
      List.getElem_take, List.getElem_drop]

/-! ## The loops -/

/-- What holds between the steps: `pre` and the escaped bytes up to `i` have been written. -/
structure Inv (m : Mem) (pre : List Byte) (s : St) : Prop where
  len : s.i + s.r = m.bytes.length
  out : s.buf.take s.p = pre ++ (m.bytes.take s.i).flatMap esc
  pos : s.p = (pre ++ (m.bytes.take s.i).flatMap esc).length
  cap : pre.length + 6 * m.bytes.length + 34 ≤ s.buf.length

theorem flatMap_len (bs : List Byte) : (bs.flatMap esc).length ≤ 6 * bs.length := by
  induction bs with
  | nil => simp
  | cons b bs ih =>
    rw [List.flatMap_cons, List.length_append, List.length_cons]
    have := esc_len b
    omega

theorem Inv.pos_le {m : Mem} {pre : List Byte} {s : St} (h : Inv m pre s) :
    s.p ≤ pre.length + 6 * s.i := by
  rw [h.pos, List.length_append]
  have := flatMap_len (m.bytes.take s.i)
  rw [List.length_take] at this
  omega

theorem flatMap_clean (bs : List Byte) (h : ∀ b ∈ bs, needEscaped b = false) :
    bs.flatMap esc = bs := by
  induction bs with
  | nil => rfl
  | cons b bs ih =>
    rw [List.flatMap_cons, ih fun c hc => h c (List.mem_cons_of_mem _ hc)]
    unfold esc
    rw [h b (List.mem_cons_self ..)]
    rfl

theorem take_add {bs : List Byte} (i k : Nat) :
    bs.take (i + k) = bs.take i ++ (bs.drop i).take k := by
  rw [List.take_add]

/-- Clean bytes copied by the speculative write. -/
theorem Inv.copy {m : Mem} {pre : List Byte} {s : St} (h : Inv m pre s) {chunk buf : List Byte}
    (k : Nat) (hk : k ≤ s.r) (hkc : k ≤ chunk.length)
    (hchunk : chunk.take k = (m.bytes.drop s.i).take k)
    (hclean : ∀ b ∈ chunk.take k, needEscaped b = false) (hst : store s.buf s.p chunk = some buf) :
    Inv m pre ⟨s.i + k, s.r - k, s.p + k, buf⟩ := by
  have hlen := h.len
  obtain ⟨h1, h2⟩ := store_take hst k hkc
  have hout : pre ++ (m.bytes.take (s.i + k)).flatMap esc =
      (pre ++ (m.bytes.take s.i).flatMap esc) ++ chunk.take k := by
    rw [take_add, List.flatMap_append, ← hchunk, flatMap_clean _ hclean, List.append_assoc]
  constructor
  · simp only; omega
  · simp only
    rw [h1, h.out, hout]
  · simp only
    rw [hout, List.length_append, ← h.pos, List.length_take]
    omega
  · simp only
    rw [h2]; exact h.cap

theorem escape_spec (m : Mem) (pre : List Byte) : ∀ (fuel : Nat) (s : St), Inv m pre s →
    1 ≤ s.r → s.r < fuel → needEscaped (m.get s.i) = true →
    ∃ s', escapeUnchecked m fuel s = some s' ∧ Inv m pre s' ∧ s'.r < s.r := by
  intro fuel
  induction fuel with
  | zero => intro s _ _ h; omega
  | succ fuel ih =>
    intro s hI hr hf hneed
    have hi : s.i < m.bytes.length := by have := hI.len; omega
    rw [get_eq hi] at hneed
    have hbyte : m.byte s.i = some m.bytes[s.i] := by
      unfold Mem.byte; rw [List.getElem?_eq_getElem hi]
    have hq := quoteText_ne _ hneed
    have h6 := quoteText_len m.bytes[s.i]
    have hesc : esc m.bytes[s.i] = quoteText m.bytes[s.i] := by unfold esc; rw [if_pos hneed]
    have htab : (quoteTab m.bytes[s.i]).2.length = 8 := by
      unfold quoteTab
      simp only [List.length_append, List.length_replicate]
      omega
    have hfit : s.p + (quoteTab m.bytes[s.i]).2.length ≤ s.buf.length := by
      have h1 := hI.pos_le
      have h2 := hI.cap
      rw [htab]; omega
    have hst := store_some hfit
    obtain ⟨ht, hl⟩ := store_take hst (quoteTab m.bytes[s.i]).1 (by
      rw [htab]; unfold quoteTab; simp only; omega)
    have htake : (quoteTab m.bytes[s.i]).2.take (quoteTab m.bytes[s.i]).1 = esc m.bytes[s.i] := by
      unfold quoteTab
      rw [hesc]
      simp only
      rw [List.take_append_of_le_length (Nat.le_refl _), List.take_length]
    have hout : pre ++ (m.bytes.take (s.i + 1)).flatMap esc =
        (pre ++ (m.bytes.take s.i).flatMap esc) ++ esc m.bytes[s.i] := by
      rw [List.take_add_one, List.getElem?_eq_getElem hi, List.flatMap_append, Option.toList_some,
        List.flatMap_singleton, List.append_assoc]
    have hI' : Inv m pre ⟨s.i + 1, s.r - 1, s.p + (quoteTab m.bytes[s.i]).1,
        s.buf.take s.p ++ (quoteTab m.bytes[s.i]).2 ++
          s.buf.drop (s.p + (quoteTab m.bytes[s.i]).2.length)⟩ := by
      constructor
      · have := hI.len; simp only; omega
      · simp only
        rw [ht, htake, hI.out, hout]
      · simp only
        rw [hout, List.length_append, ← hI.pos, hesc]; rfl
      · simp only
        rw [hl]; exact hI.cap
    unfold escapeUnchecked
    rw [if_neg (by omega), hbyte]
    have hq1 : (quoteTab m.bytes[s.i]).1 ≠ 0 := hq
    simp only [Option.bind_eq_bind, Option.bind_some, if_neg hq1, hst]
    by_cases hz : s.r - 1 = 0
    · rw [if_pos hz]
      exact ⟨_, rfl, hI', by simp only; omega⟩
    · rw [if_neg hz]
      have hi2 : s.i + 1 < m.bytes.length := by have := hI.len; omega
      have hb2 : m.byte (s.i + 1) = some m.bytes[s.i + 1] := by
        unfold Mem.byte; rw [List.getElem?_eq_getElem hi2]
      simp only [hb2, Option.bind_some]
      by_cases hn : needEscaped m.bytes[s.i + 1] = false
      · rw [if_pos hn]
        exact ⟨_, rfl, hI', by simp only; omega⟩
      · rw [if_neg hn]
        obtain ⟨s', e1, e2, e3⟩ := ih _ hI' (by simp only; omega) (by simp only; omega) (by
          simp only; rw [get_eq hi2]; simpa using hn)
        exact ⟨s', e1, e2, by simp only at e3; omega⟩

theorem all_false {mask : List Bool} (h : mask.all (· == false) = true) : ∀ b ∈ mask, b = false := by
  rw [List.all_eq_true] at h
  intro b hb
  simpa using h b hb

theorem first_spec {mask : List Bool} (h : ¬ mask.all (· == false) = true) :
    ∃ n, firstOffset mask = n ∧ n < mask.length ∧ mask[n]? = some true ∧
      ∀ j, j < n → mask[j]? = some false := by
  have hlt : firstOffset mask < mask.length := by
    unfold firstOffset
    apply List.findIdx_lt_length_of_exists
    apply Classical.byContradiction
    intro hn
    apply h
    rw [List.all_eq_true]
    intro b hb
    cases b with
    | false => rfl
    | true => exact absurd ⟨true, hb, rfl⟩ hn
  refine ⟨_, rfl, hlt, ?_, ?_⟩
  · have := List.findIdx_getElem (xs := mask) (p := id) (w := hlt)
    rw [List.getElem?_eq_getElem hlt]
    exact congrArg some this
  · intro j hj
    have := List.not_of_lt_findIdx (p := id) (xs := mask) hj
    rw [List.getElem?_eq_getElem (by omega)]
    exact congrArg some (by simpa using this)

theorem mapped_in {m : Mem} {i : Nat} (h : i < m.bytes.length) : m.Mapped i := ⟨i, h, rfl⟩

theorem main_spec (m : Mem) (lanes : Nat) (hl : 0 < lanes) (hl2 : lanes ≤ 32) (pre : List Byte) :
    ∀ (fuel : Nat) (s : St), Inv m pre s → s.r < fuel →
    ∃ s', mainLoop m lanes fuel s = some s' ∧ Inv m pre s' ∧ s'.r < lanes ∧ s'.r ≤ s.r := by
  intro fuel
  induction fuel with
  | zero => intro s _ h; omega
  | succ fuel ih =>
    intro s hI hf
    unfold mainLoop
    by_cases hge : s.r ≥ lanes
    · rw [if_pos hge]
      have hlen := hI.len
      have hload : m.load s.i lanes = some ((List.range lanes).map fun k => m.get (s.i + k)) :=
        load_some fun k hk => mapped_in (by omega)
      generalize hc : (List.range lanes).map (fun k => m.get (s.i + k)) = chunk at hload
      have hcl : chunk.length = lanes := by rw [← hc]; simp
      have hfit : s.p + chunk.length ≤ s.buf.length := by
        have h1 := hI.pos_le; have h2 := hI.cap; omega
      have hst := store_some hfit
      simp only [hload, Option.bind_eq_bind, Option.bind_some, hst]
      by_cases hall : (chunk.map needEscaped).all (· == false) = true
      · rw [if_pos hall]
        have hclean : ∀ b ∈ chunk.take lanes, needEscaped b = false := fun b hb =>
          all_false hall _ (List.mem_map_of_mem (List.mem_of_mem_take hb))
        have hI' := hI.copy lanes hge (by omega)
          (by rw [← hc]; exact chunk_take (Nat.le_refl _) (by omega)) hclean hst
        obtain ⟨s', e1, e2, e3, e4⟩ := ih _ hI' (by simp only; omega)
        exact ⟨s', e1, e2, e3, by simp only at e4; omega⟩
      · rw [if_neg hall]
        obtain ⟨cn, h0, h1, h2, h3⟩ := first_spec hall
        rw [h0]
        rw [List.length_map, hcl] at h1
        have hclean : ∀ b ∈ chunk.take cn, needEscaped b = false := by
          intro b hb
          obtain ⟨j, hj, rfl⟩ := List.getElem_of_mem hb
          rw [List.length_take] at hj
          have := h3 j (by omega)
          rw [List.getElem?_map, List.getElem?_eq_getElem (by omega)] at this
          rw [List.getElem_take]; simpa using this
        have hI' := hI.copy cn (by omega) (by omega)
          (by rw [← hc]; exact chunk_take (by omega) (by omega)) hclean hst
        have hneed : needEscaped (m.get (s.i + cn)) = true := by
          rw [← hc, List.getElem?_map, List.getElem?_map, List.getElem?_range h1] at h2
          simpa using h2
        obtain ⟨s1, e1, e2, e3⟩ := escape_spec m pre (s.r + 1) _ hI' (by simp only; omega)
          (by simp only; omega) hneed
        simp only [e1, Option.bind_some]
        simp only at e3
        obtain ⟨s', f1, f2, f3, f4⟩ := ih _ e2 (by omega)
        exact ⟨s', f1, f2, f3, by omega⟩
    · rw [if_neg hge]
      exact ⟨s, rfl, hI, by omega, Nat.le_refl _⟩

theorem not_cross_mapped {m : Mem} {i lanes : Nat} (hi : i < m.bytes.length)
    (h : crossPage (m.addr + i) lanes = false) : ∀ k, k < lanes → m.Mapped (i + k) := by
  intro k hk
  refine ⟨i, hi, ?_⟩
  unfold crossPage at h
  simp only [gt_iff_lt, decide_eq_false_iff_not] at h
  omega

/-- The tail loop ends with everything written: the position is past the last byte. -/
theorem tail_spec (m : Mem) (lanes : Nat) (hl2 : lanes ≤ 32) (pre : List Byte) :
    ∀ (fuel : Nat) (temp : List Byte) (s : St), Inv m pre s → temp.length = lanes → s.r ≤ lanes →
    s.r < fuel →
    ∃ s', tailLoop m lanes fuel temp s = some s' ∧
      s'.buf.take s'.p = pre ++ m.bytes.flatMap esc ∧
      pre.length + 6 * m.bytes.length + 34 ≤ s'.buf.length ∧
      s'.p = (pre ++ m.bytes.flatMap esc).length := by
  intro fuel
  induction fuel with
  | zero => intro _ s _ _ _ h; omega
  | succ fuel ih =>
    intro temp s hI htl hrl hf
    have hlen := hI.len
    unfold tailLoop
    by_cases hgt : s.r > 0
    · rw [if_pos hgt]
      have hi : s.i < m.bytes.length := by omega
      -- the chunk, however it was loaded
      have hld : ∃ chunk temp', (if crossPage (m.addr + s.i) lanes = true then
            (copyTemp m s.i s.r temp).map fun t => (t, t)
          else (m.load s.i lanes).map fun c => (c, temp)) = some (chunk, temp') ∧
          chunk.length = lanes ∧ temp'.length = lanes ∧
          chunk.take s.r = (m.bytes.drop s.i).take s.r := by
        by_cases hx : crossPage (m.addr + s.i) lanes = true
        · rw [if_pos hx]
          unfold copyTemp
          rw [if_pos (by omega)]
          have hbl : ((m.bytes.drop s.i).take s.r).length = s.r := by
            rw [List.length_take, List.length_drop]; omega
          have hst := store_some (buf := temp) (p := 0) (bs := (m.bytes.drop s.i).take s.r)
            (by rw [hbl]; omega)
          obtain ⟨h1, h2⟩ := store_take hst s.r (by omega)
          rw [hst]
          refine ⟨_, _, rfl, by rw [h2, htl], by rw [h2, htl], ?_⟩
          rw [Nat.zero_add] at h1
          rw [h1, List.take_zero, List.nil_append, List.take_take, Nat.min_self]
        · rw [if_neg hx]
          have := load_some (not_cross_mapped hi (by simpa using hx))
          rw [this]
          exact ⟨_, _, rfl, by simp, htl, chunk_take hrl (by omega)⟩
      obtain ⟨chunk, temp', hld, hcl, htl', hct⟩ := hld
      rw [hld]
      simp only
      have hfit : s.p + chunk.length ≤ s.buf.length := by
        have h1 := hI.pos_le; have h2 := hI.cap; omega
      have hst := store_some hfit
      simp only [Option.bind_eq_bind, hst, Option.bind_some]
      have hmask : clearHigh (chunk.map needEscaped) s.r = (chunk.take s.r).map needEscaped := by
        unfold clearHigh; rw [List.map_take]
      rw [hmask]
      by_cases hall : ((chunk.take s.r).map needEscaped).all (· == false) = true
      · rw [if_pos hall]
        have hI' := hI.copy s.r (Nat.le_refl _) (by omega) hct
          (fun b hb => all_false hall _ (List.mem_map_of_mem hb)) hst
        have hfull : m.bytes.take (s.i + s.r) = m.bytes := by
          rw [hlen, List.take_length]
        have h1 := hI'.out
        have h2 := hI'.pos
        simp only at h1 h2
        rw [hfull] at h1 h2
        exact ⟨_, rfl, h1, hI'.cap, h2⟩
      · rw [if_neg hall]
        obtain ⟨cn, h0, h1, h2, h3⟩ := first_spec hall
        rw [h0]
        rw [List.length_map, List.length_take] at h1
        have hclean : ∀ b ∈ chunk.take cn, needEscaped b = false := by
          intro b hb
          obtain ⟨j, hj, rfl⟩ := List.getElem_of_mem hb
          rw [List.length_take] at hj
          have := h3 j (by omega)
          rw [List.getElem?_map, List.getElem?_take_of_lt (by omega),
            List.getElem?_eq_getElem (by omega)] at this
          rw [List.getElem_take]; simpa using this
        have hct' : chunk.take cn = (m.bytes.drop s.i).take cn := by
          have := congrArg (List.take cn) hct
          rw [List.take_take, List.take_take, Nat.min_eq_left (by omega)] at this
          exact this
        have hI' := hI.copy cn (by omega) (by omega) hct' hclean hst
        have hneed : needEscaped (m.get (s.i + cn)) = true := by
          rw [hct, List.getElem?_map, List.getElem?_take_of_lt (by omega), List.getElem?_drop,
            List.getElem?_eq_getElem (by omega)] at h2
          rw [get_eq (by omega)]
          simpa using h2
        obtain ⟨s1, e1, e2, e3⟩ := escape_spec m pre (s.r + 1) _ hI' (by simp only; omega)
          (by simp only; omega) hneed
        simp only [e1, Option.bind_some]
        simp only at e3
        obtain ⟨s', f1, f2, f3, f4⟩ := ih temp' _ e2 htl' (by omega) (by omega)
        exact ⟨s', f1, f2, f3, f4⟩
    · rw [if_neg hgt]
      have hfull : m.bytes.take s.i = m.bytes := by
        rw [show s.i = m.bytes.length by omega, List.take_length]
      refine ⟨s, rfl, ?_, hI.cap, ?_⟩
      · rw [hI.out, hfull]
      · rw [hI.pos, hfull]

/-- The whole writer. -/
theorem format_spec (m : Mem) (lanes : Nat) (hl : 0 < lanes) (hl2 : lanes ≤ 32)
    (written spare : List Byte) (hsp : worstCase m.bytes.length ≤ spare.length) (q : Bool) :
    formatString lanes m written spare q =
      some (written ++ (if q then [0x22] else []) ++ m.bytes.flatMap esc ++
        (if q then [0x22] else [])) := by
  unfold worstCase at hsp
  cases q with
  | true =>
    unfold formatString
    have hst := store_some (buf := written ++ spare) (p := written.length) (bs := [quote])
      (by rw [List.length_append]; simp only [List.length_singleton]; omega)
    obtain ⟨h1, h2⟩ := store_take hst 1 (Nat.le_refl _)
    simp only [if_true, hst, Option.bind_eq_bind, Option.bind_some]
    have hI : Inv m (written ++ [quote]) ⟨0, m.bytes.length, written.length + 1,
        (written ++ spare).take written.length ++ [quote] ++
          (written ++ spare).drop (written.length + [quote].length)⟩ := by
      constructor
      · simp
      · simp only
        rw [h1, List.take_append_of_le_length (Nat.le_refl _), List.take_length]
        simp
      · simp
      · simp only
        rw [h2, List.length_append, List.length_append]
        simp only [List.length_singleton]
        omega
    obtain ⟨s, e1, e2, e3, e4⟩ := main_spec m lanes hl hl2 _ (m.bytes.length + 1) _ hI (by simp)
    simp only [e1, Option.bind_some]
    simp only at e4
    obtain ⟨s', f1, f2, f3, f4⟩ := tail_spec m lanes hl2 _ (m.bytes.length + 1)
      (List.replicate lanes 0) s e2 (by simp) (by omega) (by omega)
    simp only [f1, Option.bind_some]
    have hfit : s'.p + [quote].length ≤ s'.buf.length := by
      have := flatMap_len m.bytes
      rw [f4, List.length_append]
      simp only [List.length_singleton]
      omega
    have hst2 := store_some hfit
    obtain ⟨g1, _⟩ := store_take hst2 1 (Nat.le_refl _)
    simp only [hst2, Option.bind_some]
    rw [g1, f2]
    rfl
  | false =>
    unfold formatString
    simp only [Bool.false_eq_true, if_false, Option.bind_eq_bind, Option.bind_some, Nat.add_zero]
    have hI : Inv m written ⟨0, m.bytes.length, written.length, written ++ spare⟩ := by
      constructor
      · simp
      · simp
      · simp
      · simp only
        rw [List.length_append]
        omega
    obtain ⟨s, e1, e2, e3, e4⟩ := main_spec m lanes hl hl2 _ (m.bytes.length + 1) _ hI (by simp)
    simp only [e1, Option.bind_some]
    simp only at e4
    obtain ⟨s', f1, f2, f3, f4⟩ := tail_spec m lanes hl2 _ (m.bytes.length + 1)
      (List.replicate lanes 0) s e2 (by simp) (by omega) (by omega)
    simp only [f1, Option.bind_some]
    rw [f2]
    simp

/-! ## Theorems -/

/-- **C11**: for every string, wherever it lies in memory and whatever comes after it there,
whatever has been written before and whatever the spare memory holds, the writer ends, keeps within
the memory it reserved, reads only from pages the string lies on, and appends a JSON literal that
stands for the string (and for no other: `Chars.unique`). -/
theorem C11_round_trip (m : Mem) (lanes : Nat) (hl : 0 < lanes) (hl2 : lanes ≤ 32)
    (written spare : List Byte) (hsp : 6 * m.bytes.length + 35 ≤ spare.length) :
    ∃ lit, writeAndEscape lanes m written spare = some (written ++ lit) ∧ IsLiteral lit m.bytes := by
  refine ⟨_, ?_, _, rfl, chars_flatMap m.bytes⟩
  unfold writeAndEscape
  rw [format_spec m lanes hl hl2 written spare (by unfold worstCase; omega) true]
  simp [List.append_assoc]

/-- **C11**: what is appended depends on the string only: not on the number of lanes of the machine,
the address, the memory after the string or the state of the buffer. -/
theorem C11_independent (m m' : Mem) (lanes lanes' : Nat) (hl : 0 < lanes) (hl2 : lanes ≤ 32)
    (hl' : 0 < lanes') (hl2' : lanes' ≤ 32) (written written' spare spare' : List Byte)
    (hsame : m.bytes = m'.bytes) (hsp : 6 * m.bytes.length + 35 ≤ spare.length)
    (hsp' : 6 * m'.bytes.length + 35 ≤ spare'.length) :
    ∃ lit, writeAndEscape lanes m written spare = some (written ++ lit) ∧
      writeAndEscape lanes' m' written' spare' = some (written' ++ lit) := by
  refine ⟨[0x22] ++ m.bytes.flatMap esc ++ [0x22], ?_, ?_⟩
  · unfold writeAndEscape
    rw [format_spec m lanes hl hl2 written spare (by unfold worstCase; omega) true]
    simp [List.append_assoc]
  · unfold writeAndEscape
    rw [format_spec m' lanes' hl' hl2' written' spare' (by unfold worstCase; omega) true, hsame]
    simp [List.append_assoc]

/-- **C11**: different strings get different texts, and none is the beginning of another. -/
theorem C11_injective (m m' : Mem) (lanes : Nat) (hl : 0 < lanes) (hl2 : lanes ≤ 32)
    (spare : List Byte) (hsp : 6 * m.bytes.length + 35 ≤ spare.length)
    (hsp' : 6 * m'.bytes.length + 35 ≤ spare.length)
    (h : writeAndEscape lanes m [] spare = writeAndEscape lanes m' [] spare) :
    m.bytes = m'.bytes := by
  obtain ⟨lit, h1, chars, h2, h3⟩ := C11_round_trip m lanes hl hl2 [] spare hsp
  obtain ⟨lit', h1', chars', h2', h3'⟩ := C11_round_trip m' lanes hl hl2 [] spare hsp'
  rw [h1, h1'] at h
  simp only [List.nil_append, Option.some.injEq] at h
  rw [h2, h2'] at h
  have : chars = chars' := by simpa using h
  subst this
  exact h3.unique h3'

/-! ### The operation sent to a subgraph -/

theorem env_format (e : Env) (lanes : Nat) (hl : 0 < lanes) (hl2 : lanes ≤ 32) (k : Nat)
    (bytes written : List Byte) (h : worstCase bytes.length ≤ (e.spare k).length) :
    e.format lanes k bytes written = some (written ++ bytes.flatMap esc) := by
  unfold Env.format
  rw [format_spec ⟨e.addr k, bytes, e.after k⟩ lanes hl hl2 written (e.spare k) h false]
  simp

/-- The operation text with the name put in: `query` is spelled out before a name of a shorthand
query, a space parts the keyword from the name. -/
def withName (name : List Byte) (pos : Nat) (input : List Byte) : List Byte :=
  if pos = 0 ∧ input.head? = some 0x7b then ascii "query " ++ name ++ ascii " " ++ input
  else if pos = 0 then name ++ input
  else input.take pos ++ ascii " " ++ name ++ input.drop pos

/-- **C11**, for the operation sent to a subgraph: the text with the operation name put in is one
JSON string that stands for exactly that text, although it is written in pieces. -/
theorem C11_named_operation (e : Env) (lanes : Nat) (hl : 0 < lanes) (hl2 : lanes ≤ 32)
    (written name input : List Byte) (pos : Nat)
    (hsp : ∀ k, 6 * (name.length + input.length + 6) + 35 ≤ (e.spare k).length) :
    ∃ lit, writeNamed e lanes written name pos input = some (written ++ lit) ∧
      IsLiteral lit (withName name pos input) := by
  have hf : ∀ k (bytes w : List Byte), bytes.length ≤ name.length + input.length + 6 →
      e.format lanes k bytes w = some (w ++ bytes.flatMap esc) := fun k bytes w h =>
    env_format e lanes hl hl2 k bytes w (by unfold worstCase; have := hsp k; omega)
  refine ⟨0x22 :: (withName name pos input).flatMap esc ++ [0x22], ?_, _, rfl, chars_flatMap _⟩
  have l1 : (ascii "query ").length = 6 := by decide
  have l2 : (ascii " ").length = 1 := by decide
  unfold writeNamed withName
  by_cases h0 : pos = 0 ∧ input.head? = some 0x7b
  · rw [if_pos (by simp [h0]), if_pos h0]
    simp only [Option.bind_eq_bind]
    rw [hf 0 _ _ (by omega), Option.bind_some, hf 1 _ _ (by omega), Option.bind_some,
      hf 2 _ _ (by omega), Option.bind_some, hf 3 _ _ (by omega), Option.bind_some]
    simp only [List.flatMap_append, quote, List.append_assoc, List.cons_append, List.nil_append]
  · rw [if_neg (by simpa using h0), if_neg h0]
    simp only [Option.bind_eq_bind]
    rw [hf 0 _ _ (by rw [List.length_take]; omega), Option.bind_some]
    by_cases hp : pos = 0
    · rw [if_neg (by omega), if_pos hp, Option.bind_some, hf 2 _ _ (by omega), Option.bind_some,
        hf 3 _ _ (by rw [List.length_drop]; omega), Option.bind_some]
      subst hp
      simp only [List.take_zero, List.drop_zero, List.flatMap_nil, List.flatMap_append, quote,
        List.append_assoc, List.cons_append, List.nil_append]
    · rw [if_pos (by omega), if_neg hp, hf 1 _ _ (by omega), Option.bind_some,
        hf 2 _ _ (by omega), Option.bind_some, hf 3 _ _ (by rw [List.length_drop]; omega),
        Option.bind_some]
      simp only [List.flatMap_append, quote, List.append_assoc, List.cons_append, List.nil_append]

/-! ### Characters

The escapes touch ASCII characters only, so escaping the UTF-8 bytes of a text is the same as
encoding the escaped text. The models of larger texts use characters. -/

/-- What is written for a character. -/
def escChar (c : Char) : List Char :=
  if c.toNat < 0x20 then (controlTab.getD c.toNat "").toList
  else if c = '"' then ['\\', '"']
  else if c = '\\' then ['\\', '\\']
  else [c]

/-- UTF-8. -/
def utf8 (cs : List Char) : List Byte := cs.flatMap String.utf8EncodeChar

theorem utf8_ascii {c : Char} (h : c.toNat < 0x80) : String.utf8EncodeChar c = [UInt8.ofNat c.toNat] := by
  unfold String.utf8EncodeChar
  simp only
  rw [if_pos (by show c.toNat ≤ 127; omega)]
  rfl

theorem utf8_high {c : Char} (h : 0x80 ≤ c.toNat) :
    ∀ b ∈ String.utf8EncodeChar c, needEscaped b = false := by
  have hb : ∀ n : Nat, 128 ≤ n → n < 256 → needEscaped (UInt8.ofNat n) = false := by
    have : ∀ i : Fin 256, 128 ≤ i.val → needEscaped (UInt8.ofNat i.val) = false := by decide +kernel
    intro n h1 h2
    exact this ⟨n, h2⟩ h1
  intro b
  unfold String.utf8EncodeChar
  simp only
  have h7 : ¬ c.val.toNat ≤ 127 := by show ¬ c.toNat ≤ 127; omega
  rw [if_neg h7]
  split
  · intro hm
    simp only [List.mem_cons, List.not_mem_nil, or_false] at hm
    rcases hm with rfl | rfl <;> exact hb _ (by omega) (by omega)
  split
  · intro hm
    simp only [List.mem_cons, List.not_mem_nil, or_false] at hm
    rcases hm with rfl | rfl | rfl <;> exact hb _ (by omega) (by omega)
  · intro hm
    simp only [List.mem_cons, List.not_mem_nil, or_false] at hm
    rcases hm with rfl | rfl | rfl | rfl <;> exact hb _ (by omega) (by omega)

theorem utf8_escChar (c : Char) : (String.utf8EncodeChar c).flatMap esc = utf8 (escChar c) := by
  by_cases h : c.toNat < 0x80
  · have hall : ∀ i : Fin 128, esc (UInt8.ofNat i.val) = utf8 (escChar (Char.ofNat i.val)) := by
      decide +kernel
    have := hall ⟨c.toNat, h⟩
    simp only [Char.ofNat_toNat] at this
    rw [utf8_ascii h, List.flatMap_singleton, this]
  · have h1 : escChar c = [c] := by
      unfold escChar
      rw [if_neg (by omega), if_neg, if_neg]
      · rintro rfl; exact h (by decide)
      · rintro rfl; exact h (by decide)
    rw [h1, flatMap_clean _ (utf8_high (by omega))]
    simp [utf8]

/-- Escaping the bytes of a text is encoding the escaped characters. -/
theorem utf8_esc (cs : List Char) : (utf8 cs).flatMap esc = utf8 (cs.flatMap escChar) := by
  induction cs with
  | nil => rfl
  | cons c cs ih =>
    unfold utf8 at *
    rw [List.flatMap_cons, List.flatMap_append, utf8_escChar, ih, List.flatMap_cons,
      List.flatMap_append]
    rfl

/-- What `write_and_escape_string` appends for a text, in characters. -/
theorem C11_characters (m : Mem) (lanes : Nat) (hl : 0 < lanes) (hl2 : lanes ≤ 32) (cs : List Char)
    (hcs : m.bytes = utf8 cs) (written spare : List Byte)
    (hsp : 6 * m.bytes.length + 35 ≤ spare.length) :
    writeAndEscape lanes m written spare =
      some (written ++ utf8 ('"' :: cs.flatMap escChar ++ ['"'])) := by
  unfold writeAndEscape
  rw [format_spec m lanes hl hl2 written spare (by unfold worstCase; omega) true, hcs, utf8_esc]
  have h1 : String.utf8EncodeChar '"' = [0x22] := by decide
  simp only [utf8, List.flatMap_append, List.flatMap_cons, List.flatMap_nil, h1, if_true,
    List.append_assoc, List.append_nil, List.cons_append, List.nil_append]

/-! ### Examples -/

namespace Example

/-- A string of 40 bytes at the end of a page, with escapes in both loops and garbage after it that
would need escaping. -/
def mem : Mem where
  addr := 4060
  bytes := ascii "0123456789\n0123456789012345678901\t\"end\\"
  after := fun _ => 0x22

example : 32 < mem.bytes.length := by decide

example : (writeAndEscape 32 mem [0x5b] (List.replicate 300 0xaa)) =
    some (ascii "[\"0123456789\\n0123456789012345678901\\t\\\"end\\\\\"") := by
  decide +kernel

end Example

end Verif.Json
