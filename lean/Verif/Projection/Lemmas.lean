import Verif.Projection.Spec

namespace Verif.Projection

open Verif.Json

/-! ## Numbers -/

theorem digit_char : ∀ n, n < 10 → '0' ≤ Char.ofNat (48 + n) ∧ Char.ofNat (48 + n) ≤ '9' := by
  have : ∀ i : Fin 10, '0' ≤ Char.ofNat (48 + i.val) ∧ Char.ofNat (48 + i.val) ≤ '9' := by decide
  exact fun n h => this ⟨n, h⟩

theorem decimal_digits (n : Nat) : Digits (decimal n) := by
  induction n using Nat.strongRecOn with
  | ind n ih =>
    unfold decimal
    split
    · rename_i h
      exact ⟨by simp, by intro c hc; simp only [List.mem_singleton] at hc; subst hc; exact digit_char n h⟩
    · have := ih (n / 10) (by omega)
      refine ⟨by simp, ?_⟩
      intro c hc
      rcases List.mem_append.1 hc with hc | hc
      · exact this.2 c hc
      · simp only [List.mem_singleton] at hc; subst hc; exact digit_char _ (by omega)

theorem decimal_head (n : Nat) : decimal n = ['0'] ∨ (0 < n ∧ (decimal n).head? ≠ some '0') := by
  induction n using Nat.strongRecOn with
  | ind n ih =>
    unfold decimal
    split
    · rename_i h
      have : ∀ i : Fin 10, [Char.ofNat (48 + i.val)] = ['0'] ∨
          (0 < i.val ∧ [Char.ofNat (48 + i.val)].head? ≠ some '0') := by decide
      exact this ⟨n, h⟩
    · rename_i h
      right
      refine ⟨by omega, ?_⟩
      have hd := (decimal_digits (n / 10)).1
      rcases ih (n / 10) (by omega) with h0 | h1
      · exfalso
        have hne : n / 10 ≠ 0 := by omega
        -- a positive number is not written `0`
        have : ∀ m, decimal m = ['0'] → m = 0 := by
          intro m hm
          unfold decimal at hm
          split at hm
          · rename_i hlt
            have : ∀ i : Fin 10, [Char.ofNat (48 + i.val)] = ['0'] → i.val = 0 := by decide
            exact this ⟨m, hlt⟩ hm
          · exfalso
            have hl := (decimal_digits (m / 10)).1
            have : (decimal (m / 10)).length + 1 = 1 := by
              have := congrArg List.length hm; simpa using this
            exact hl (List.eq_nil_of_length_eq_zero (by omega))
        exact hne (this _ h0)
      · cases hdec : decimal (n / 10) with
        | nil => exact absurd hdec hd
        | cons c cs => rw [hdec] at h1; simpa using h1.2

theorem decimal_number (n : Nat) : IsNumber (decimal n) :=
  ⟨[], decimal n, [], [], by simp, Or.inl rfl, decimal_digits n,
    (decimal_head n).imp id (·.2), Or.inl rfl, Or.inl rfl⟩

theorem decimalInt_number (i : Int) : IsNumber (decimalInt i) := by
  cases i with
  | ofNat n => exact decimal_number n
  | negSucc n =>
    exact ⟨['-'], decimal (n + 1), [], [], by simp [decimalInt], Or.inr rfl, decimal_digits _,
      (decimal_head _).imp id (·.2), Or.inl rfl, Or.inl rfl⟩

/-! ## Strings -/

/-- A text is an escape for a character. -/
def escapes (t : List Char) (c : Char) : Bool :=
  match t with
  | [b, x] => b == '\\' && shortChar x == some c
  | [b, u, h1, h2, h3, h4] => b == '\\' && u == 'u' &&
    match hexChar h1, hexChar h2, hexChar h3, hexChar h4 with
    | some n1, some n2, some n3, some n4 =>
      decide (((n1 * 16 + n2) * 16 + n3) * 16 + n4).isValidChar &&
        Char.ofNat (((n1 * 16 + n2) * 16 + n3) * 16 + n4) == c
    | _, _, _, _ => false
  | _ => false

theorem escapes_body {t : List Char} {c : Char} (h : escapes t c = true) {u s : List Char}
    (hb : StrBody u s) : StrBody (t ++ u) (c :: s) := by
  unfold escapes at h
  split at h
  · rename_i b x
    simp only [Bool.and_eq_true, beq_iff_eq] at h
    obtain ⟨rfl, h⟩ := h
    exact StrBody.short x c h hb
  · rename_i b u' h1 h2 h3 h4
    simp only [Bool.and_eq_true, beq_iff_eq] at h
    obtain ⟨⟨rfl, rfl⟩, h⟩ := h
    split at h
    · rename_i n1 n2 n3 n4 e1 e2 e3 e4
      simp only [Bool.and_eq_true, beq_iff_eq, decide_eq_true_eq] at h
      obtain ⟨hv, rfl⟩ := h
      exact StrBody.unicode h1 h2 h3 h4 n1 n2 n3 n4 e1 e2 e3 e4 hv hb
    · simp at h
  · simp at h

theorem escChar_body (c : Char) {u s : List Char} (hb : StrBody u s) :
    StrBody (escChar c ++ u) (c :: s) := by
  by_cases h : c.toNat < 0x20
  · have hall : ∀ i : Fin 32, escapes (escChar (Char.ofNat i.val)) (Char.ofNat i.val) = true := by
      decide +kernel
    have := hall ⟨c.toNat, h⟩
    rw [Char.ofNat_toNat] at this
    exact escapes_body this hb
  · unfold escChar
    rw [if_neg h]
    split
    · rename_i h1; subst h1; exact StrBody.short '"' '"' (by decide) hb
    split
    · rename_i h1; subst h1; exact StrBody.short '\\' '\\' (by decide) hb
    · exact StrBody.unescaped c (by omega) (by assumption) (by assumption) hb

theorem quoted_body (s : List Char) : StrBody (s.flatMap escChar) s := by
  induction s with
  | nil => exact .nil
  | cons c s ih => rw [List.flatMap_cons]; exact escChar_body c ih

theorem plain_body {s : String} (h : Plain s) : StrBody s.toList s.toList := by
  unfold Plain at h
  revert h
  generalize s.toList = l
  intro h
  induction l with
  | nil => exact .nil
  | cons c l ih =>
    have hc := h c (by simp)
    exact .unescaped c hc.1 hc.2.1 hc.2.2 (ih fun x hx => h x (by simp [hx]))

/-! ## Lists of texts -/

/-- The rest of a comma-separated list after its first `first` texts. -/
def sepFrom : Bool → List (List Char) → List Char
  | true, ts => commaSep ts
  | false, ts => ts.flatMap (',' :: ·)

theorem sepFrom_nil (f : Bool) : sepFrom f [] = [] := by cases f <;> rfl

theorem commaSep_flat (t : List Char) (ts : List (List Char)) :
    commaSep (t :: ts) = t ++ ts.flatMap (',' :: ·) := by
  induction ts generalizing t with
  | nil => simp [commaSep]
  | cons u us ih => rw [commaSep, ih]; simp

theorem sepFrom_cons (f : Bool) (t : List Char) (ts : List (List Char)) :
    sepFrom f (t :: ts) = (if f then [] else [',']) ++ t ++ sepFrom false ts := by
  cases f
  · simp [sepFrom]
  · simp [sepFrom, commaSep_flat]

/-! ## Serializing -/

theorem Clean.rawOk {raw : String → Json} {v : Value} (h : Clean raw v) : RawOk raw v := by
  induction h with
  | null => exact .null
  | bool b => exact .bool b
  | u64 n => exact .u64 n
  | i64 n => exact .i64 n
  | f64 n => exact .f64 n
  | str s => exact .str s
  | raw s h => exact .raw s h
  | arr vs _ ih => exact .arr vs ih
  | obj fs _ _ ih => exact .obj fs ih

theorem serialize_spec (ryu : Nat → List Char) (hryu : ∀ n, finite n = true → IsNumber (ryu n))
    (raw : String → Json) (v : Value) : RawOk raw v →
    ∃ t, (∀ b, serialize ryu v b = b ++ t) ∧ Denotes t (toJson ryu raw v) := by
  induction v using Value.ind with
  | null => intro _; exact ⟨_, fun b => by rw [serialize], by rw [toJson]; exact .null⟩
  | f64 n =>
    intro _
    refine ⟨_, fun b => by rw [serialize], ?_⟩
    rw [toJson]; unfold writeF64
    split
    · rename_i h; exact .num _ (hryu n h)
    · exact .null
  | i64 n => intro _; exact ⟨_, fun b => by rw [serialize], by rw [toJson]; exact .num _ (decimalInt_number n)⟩
  | u64 n => intro _; exact ⟨_, fun b => by rw [serialize], by rw [toJson]; exact .num _ (decimal_number n)⟩
  | bool x =>
    intro _
    cases x
    · exact ⟨_, fun b => by rw [serialize], by rw [toJson]; exact .false⟩
    · exact ⟨_, fun b => by rw [serialize], by rw [toJson]; exact .true⟩
  | str s =>
    intro _
    exact ⟨_, fun b => by rw [serialize], by rw [toJson]; exact .str _ _ (quoted_body _)⟩
  | raw s =>
    intro h
    cases h with
    | raw _ h => exact ⟨_, fun b => by rw [serialize], by rw [toJson]; exact h⟩
  | arr vs ih =>
    intro h
    cases h with
    | arr _ h =>
      have : ∀ us : List Value, (∀ v ∈ us, RawOk raw v → ∃ t, (∀ b, serialize ryu v b = b ++ t) ∧
          Denotes t (toJson ryu raw v)) → (∀ v ∈ us, RawOk raw v) →
          ∃ xs : List (List Char × Json), xs.map (·.2) = toJsons ryu raw us ∧
            (∀ x ∈ xs, Denotes x.1 x.2) ∧
            ∀ f b, serializeItems ryu f us b = b ++ sepFrom f (xs.map (·.1)) := by
        intro us
        induction us with
        | nil => intro _ _; exact ⟨[], by simp [toJsons], by simp, fun f b => by simp [serializeItems, sepFrom_nil]⟩
        | cons u us ihu =>
          intro h1 h2
          obtain ⟨t, ht, hd⟩ := h1 u (by simp) (h2 u (by simp))
          obtain ⟨xs, e1, e2, e3⟩ := ihu (fun v hv => h1 v (by simp [hv])) (fun v hv => h2 v (by simp [hv]))
          refine ⟨(t, toJson ryu raw u) :: xs, by simp [toJsons, e1], ?_, ?_⟩
          · intro x hx
            rcases List.mem_cons.1 hx with rfl | hx
            · exact hd
            · exact e2 x hx
          · intro f b
            rw [serializeItems, ht, e3, List.map_cons, sepFrom_cons]
            cases f <;> simp
      obtain ⟨xs, e1, e2, e3⟩ := this vs ih h
      refine ⟨'[' :: commaSep (xs.map (·.1)) ++ [']'], ?_, ?_⟩
      · intro b; rw [serialize, e3]; simp [sepFrom]
      · rw [toJson, ← e1]; exact .arr xs e2
  | obj fs ih =>
    intro h
    cases h with
    | obj _ h =>
      have : ∀ us : Fields, (∀ kv ∈ us, RawOk raw kv.2 → ∃ t, (∀ b, serialize ryu kv.2 b = b ++ t) ∧
          Denotes t (toJson ryu raw kv.2)) → (∀ kv ∈ us, RawOk raw kv.2) →
          ∃ ms : List Member, ms.map (fun m => (m.name, m.value)) = toMembers ryu raw us ∧
            (∀ m ∈ ms, StrBody m.nameText m.name) ∧ (∀ m ∈ ms, Denotes m.text m.value) ∧
            ∀ f b, serializeMembers ryu f us b = b ++ sepFrom f (ms.map (·.full)) := by
        intro us
        induction us with
        | nil => intro _ _; exact ⟨[], by simp [toMembers], by simp, by simp, fun f b => by simp [serializeMembers, sepFrom_nil]⟩
        | cons u us ihu =>
          intro h1 h2
          obtain ⟨k, v⟩ := u
          obtain ⟨t, ht, hd⟩ := h1 (k, v) (by simp) (h2 (k, v) (by simp))
          obtain ⟨ms, e1, e2, e3, e4⟩ := ihu (fun v hv => h1 v (by simp [hv])) (fun v hv => h2 v (by simp [hv]))
          refine ⟨⟨k.toList.flatMap escChar, k.toList, t, toJson ryu raw v⟩ :: ms,
            by simp [toMembers, e1], ?_, ?_, ?_⟩
          · intro m hm
            rcases List.mem_cons.1 hm with rfl | hm
            · exact quoted_body _
            · exact e2 m hm
          · intro m hm
            rcases List.mem_cons.1 hm with rfl | hm
            · exact hd
            · exact e3 m hm
          · intro f b
            rw [serializeMembers]
            simp only at ht
            rw [ht, e4, List.map_cons, sepFrom_cons]
            cases f <;> simp [Member.full, quoted]
      obtain ⟨ms, e1, e2, e3, e4⟩ := this fs ih h
      refine ⟨'{' :: commaSep (ms.map (·.full)) ++ ['}'], ?_, ?_⟩
      · intro b; rw [serialize, e4]; simp [sepFrom]
      · rw [toJson, ← e1]; exact .obj ms e2 e3

/-! ## Completing values -/

/-- A piece of the writer does what the specification says. -/
def Does (f : Buf → Nat → Except Err Out) : Except Err (Option Json) → Prop
  | .error e => ∀ b n, f b n = .error e
  | .ok r => ∃ t m, Denotes t (r.getD .null) ∧ ∀ b n, f b n = .ok ⟨b ++ t, n + m, r.isNone⟩

/-- The same for the items of a list. -/
def DoesItems (f : Nat → Bool → Buf → Nat → Except Err Out) : Except Err (Option (List Json)) → Prop
  | .error e => ∀ cp first b n, f cp first b n = .error e
  | .ok none => ∃ m, ∀ cp first b n, cp ≤ b.length →
      f cp first b n = .ok ⟨b.take cp ++ nullText, n + m, true⟩
  | .ok (some js) => ∃ xs : List (List Char × Json), xs.map (·.2) = js ∧
      (∀ x ∈ xs, Denotes x.1 x.2) ∧ ∃ m, ∀ cp first b n,
        f cp first b n = .ok ⟨b ++ sepFrom first (xs.map (·.1)) ++ [']'], n + m, false⟩

theorem itemOf_eq (nb : Nullability) : (listItem nb).getD nb = itemOf nb := by cases nb <;> rfl

theorem itemNonNull_eq (nb : Nullability) :
    (listItem nb).any Nullability.isNonNull = itemNonNull nb := by cases nb <;> rfl

theorem take_append_of_le {α : Type} {cp : Nat} {b t : List α} (h : cp ≤ b.length) :
    (b ++ t).take cp = b.take cp := by
  rw [List.take_append, Nat.sub_eq_zero_of_le h, List.take_zero, List.append_nil]

theorem projectValue_spec (ryu : Nat → List Char) (hryu : ∀ n, finite n = true → IsNumber (ryu n))
    (raw : String → Json) (onObj : OnObject) (object : Value → Fields → Except Err (Option Json))
    (ho : ∀ fs : Fields, Clean raw (.obj fs) → Does (onObj (.obj fs) fs) (object (.obj fs) fs))
    (v : Value) : ∀ nb, Clean raw v →
    Does (projectValue ryu onObj nb v) (completeValue ryu raw object nb v) := by
  have scalar : ∀ (v : Value) (r : Except Err (Option Json)) (f : Buf → Nat → Except Err Out),
      Clean raw v → r = .ok (some (toJson ryu raw v)) →
      (∀ b n, f b n = .ok ⟨serialize ryu v b, n, false⟩) → Does f r := by
    rintro v r f hv rfl hf
    obtain ⟨t, h1, h2⟩ := serialize_spec ryu hryu raw v hv.rawOk
    exact ⟨t, 0, h2, fun b n => by rw [hf, h1]; rfl⟩
  induction v using Value.ind with
  | null =>
    intro nb _
    rw [completeValue]
    exact ⟨nullText, 0, .null, fun b n => by rw [projectValue]; rfl⟩
  | f64 n => intro nb h; exact scalar _ _ _ h (by rw [completeValue]) (fun b n => by rw [projectValue])
  | i64 n => intro nb h; exact scalar _ _ _ h (by rw [completeValue]) (fun b n => by rw [projectValue])
  | u64 n => intro nb h; exact scalar _ _ _ h (by rw [completeValue]) (fun b n => by rw [projectValue])
  | bool x => intro nb h; exact scalar _ _ _ h (by rw [completeValue]) (fun b n => by rw [projectValue])
  | str s => intro nb h; exact scalar _ _ _ h (by rw [completeValue]) (fun b n => by rw [projectValue])
  | raw s => intro nb h; exact scalar _ _ _ h (by rw [completeValue]) (fun b n => by rw [projectValue])
  | obj fs _ =>
    intro nb h
    have := ho fs h
    rw [completeValue]
    have he : projectValue ryu onObj nb (.obj fs) = onObj (.obj fs) fs := by
      funext b n; rw [projectValue]
    rw [he]; exact this
  | arr vs ih =>
    intro nb h
    cases h with
    | arr _ h =>
      have : ∀ us : List Value, (∀ v ∈ us, ∀ nb, Clean raw v →
          Does (projectValue ryu onObj nb v) (completeValue ryu raw object nb v)) →
          (∀ v ∈ us, Clean raw v) →
          DoesItems (fun cp first => projectItems ryu onObj nb cp first us)
            (completeItems ryu raw object nb us) := by
        intro us
        induction us with
        | nil =>
          intro _ _
          rw [completeItems]
          exact ⟨[], rfl, by simp, 0, fun cp first b n => by simp [projectItems, sepFrom_nil]⟩
        | cons u us ihu =>
          intro h1 h2
          have hu := h1 u (by simp) (itemOf nb) (h2 u (by simp))
          have hus := ihu (fun v hv => h1 v (by simp [hv])) (fun v hv => h2 v (by simp [hv]))
          rw [completeItems]
          cases hc : completeValue ryu raw object (itemOf nb) u with
          | error e =>
            rw [hc] at hu
            intro cp first b n
            show projectItems ryu onObj nb cp first (u :: us) b n = _
            rw [projectItems, itemOf_eq, hu]
          | ok r =>
            rw [hc] at hu
            obtain ⟨t, m, hd, hf⟩ := hu
            simp only
            cases hst : settle (itemNonNull nb) r with
            | none =>
              have hr : r = none ∧ itemNonNull nb = true := by
                cases r with
                | none => simpa [settle] using hst
                | some j => simp [settle] at hst
              refine ⟨m, fun cp first b n hcp => ?_⟩
              show projectItems ryu onObj nb cp first (u :: us) b n = _
              rw [projectItems, itemOf_eq, hf, itemNonNull_eq]
              simp only [hr.1, hr.2, Option.isNone_none, Bool.and_self, if_true]
              cases first <;> simp [List.append_assoc, take_append_of_le hcp]
            | some j =>
              have hj : r.getD .null = j ∧ (r.isNone && itemNonNull nb) = false := by
                cases r with
                | none =>
                  simp only [settle] at hst
                  split at hst
                  · simp at hst
                  · rename_i hn
                    simp only [Option.some.injEq] at hst
                    exact ⟨hst, by simpa using hn⟩
                | some j' => simpa [settle] using hst
              have step : ∀ cp first b n, projectItems ryu onObj nb cp first (u :: us) b n =
                  projectItems ryu onObj nb cp false us
                    ((if first then b else b ++ [',']) ++ t) (n + m) := by
                intro cp first b n
                rw [projectItems, itemOf_eq, hf, itemNonNull_eq]
                simp only [hj.2, Bool.false_eq_true, if_false]
              rw [hj.1] at hd
              cases hci : completeItems ryu raw object nb us with
              | error e =>
                rw [hci] at hus
                intro cp first b n
                show projectItems ryu onObj nb cp first (u :: us) b n = _
                rw [step]; exact hus _ _ _ _
              | ok r' =>
                rw [hci] at hus
                cases r' with
                | none =>
                  obtain ⟨m', hf'⟩ := hus
                  refine ⟨m + m', fun cp first b n hcp => ?_⟩
                  show projectItems ryu onObj nb cp first (u :: us) b n = _
                  have hf' : ∀ cp first b n, cp ≤ b.length → projectItems ryu onObj nb cp first us b n =
                    .ok ⟨b.take cp ++ nullText, n + m', true⟩ := hf'
                  rw [step, hf' _ _ _ _ (by cases first <;> simp <;> omega)]
                  cases first <;> simp [List.append_assoc, take_append_of_le hcp, Nat.add_assoc]
                | some js =>
                  obtain ⟨xs, e1, e2, m', hf'⟩ := hus
                  refine ⟨(t, j) :: xs, by simp [e1], ?_, m + m', fun cp first b n => ?_⟩
                  · intro x hx
                    rcases List.mem_cons.1 hx with rfl | hx
                    · exact hd
                    · exact e2 x hx
                  · show projectItems ryu onObj nb cp first (u :: us) b n = _
                    have hf' : ∀ cp first b n, projectItems ryu onObj nb cp first us b n =
                      .ok ⟨b ++ sepFrom first (xs.map (·.1)) ++ [']'], n + m', false⟩ := hf'
                    rw [step, hf', List.map_cons, sepFrom_cons]
                    cases first <;> simp [Nat.add_assoc]
      have hv := this vs ih h
      rw [completeValue]
      cases hci : completeItems ryu raw object nb vs with
      | error e =>
        rw [hci] at hv
        intro b n
        rw [projectValue]; exact hv _ _ _ _
      | ok r =>
        rw [hci] at hv
        cases r with
        | none =>
          obtain ⟨m, hf⟩ := hv
          refine ⟨nullText, m, .null, fun b n => ?_⟩
          have hf : ∀ cp first b n, cp ≤ b.length → projectItems ryu onObj nb cp first vs b n =
            .ok ⟨b.take cp ++ nullText, n + m, true⟩ := hf
          rw [projectValue, hf _ _ _ _ (by simp)]
          simp
        | some js =>
          obtain ⟨xs, e1, e2, m, hf⟩ := hv
          refine ⟨'[' :: commaSep (xs.map (·.1)) ++ [']'], m, ?_, fun b n => ?_⟩
          · show Denotes _ (Json.arr js)
            rw [← e1]; exact .arr xs e2
          · have hf : ∀ cp first b n, projectItems ryu onObj nb cp first vs b n =
              .ok ⟨b ++ sepFrom first (xs.map (·.1)) ++ [']'], n + m, false⟩ := hf
            rw [projectValue, hf]
            simp [sepFrom]

/-! ## Completing objects -/

theorem getKey_mem {α : Type} {fs : List (String × α)} {k : String} {v : α}
    (h : getKey fs k = some v) : ∃ k', (k', v) ∈ fs := by
  unfold getKey at h
  cases hf : findKey fs k with
  | none => simp [hf] at h
  | some i =>
    rw [hf] at h
    simp only [Option.bind_some, Option.map_eq_some_iff] at h
    obtain ⟨⟨k', v'⟩, h1, h2⟩ := h
    subst h2
    exact ⟨k', List.mem_of_getElem? h1⟩

/-- The type's name, if known, is plain. -/
def PlainName (t : TypeName) : Prop := ∀ s, t = .ok s → Plain s

theorem plain_string : Plain "String" := by unfold Plain; decide

theorem resolve_plain {S : Schema} (hS : PlainSchema S) {raw : String → Json} (info : PlanInfo)
    (v : Option Value) (hv : ∀ x, v = some x → Clean raw x) (parent : TypeName) :
    PlainName (resolveTypeName S info v parent) := by
  intro s hs
  unfold resolveTypeName at hs
  split at hs
  · cases hs; exact plain_string
  · split at hs
    · rename_i t ht
      cases hs
      unfold ownTypename at ht
      split at ht
      · rename_i fs
        split at ht
        · rename_i t' hk
          cases ht
          have := hv _ rfl
          cases this with
          | obj _ h1 _ => exact h1 _ hk
        · simp at ht
      · simp at ht
    · split at hs
      · simp at hs
      · split at hs
        · simp at hs
        · rename_i fields hf
          split at hs
          · rename_i f hff
            cases hs
            exact hS _ _ _ _ hf hff
          · simp at hs

/-- The selections of an object do what the specification says. -/
def DoesFields (f : Bool → Buf → Nat → Except Err ObjOut) :
    Except Err (Option (List (List Char × Json))) → Prop
  | .error e => ∀ first b n, f first b n = .error e
  | .ok none => ∃ u m, ∀ first b n, ∃ pre first', f first b n = .ok ⟨b ++ pre ++ u, n + m, first', true⟩
  | .ok (some ms) => ∃ xs : List Member, xs.map (fun m => (m.name, m.value)) = ms ∧
      (∀ m ∈ xs, StrBody m.nameText m.name) ∧ (∀ m ∈ xs, Denotes m.text m.value) ∧
      ∃ m, ∀ first b n, f first b n = .ok ⟨b ++ (if first && !xs.isEmpty then ['{'] else []) ++
        sepFrom first (xs.map (·.full)), n + m, first && xs.isEmpty, false⟩

theorem finish_spec {f : Bool → Buf → Nat → Except Err ObjOut}
    {r : Except Err (Option (List (List Char × Json)))} (h : DoesFields f r) :
    Does (fun b n => finishObject b.length (f true b n)) (r.map (Option.map Json.obj)) := by
  cases r with
  | error e => intro b n; simp only [h true b n, finishObject]
  | ok r =>
    cases r with
    | none =>
      obtain ⟨u, m, hf⟩ := h
      refine ⟨nullText, m, .null, fun b n => ?_⟩
      obtain ⟨pre, first', hf⟩ := hf true b n
      simp only [hf, finishObject, if_true, List.append_assoc, List.take_left', Option.map_none,
        Option.isNone_none]
    | some ms =>
      obtain ⟨xs, e1, e2, e3, m, hf⟩ := h
      refine ⟨'{' :: commaSep (xs.map (·.full)) ++ ['}'], m, ?_, fun b n => ?_⟩
      · show Denotes _ (Json.obj ms)
        rw [← e1]; exact .obj xs e2 e3
      · simp only [hf, finishObject, Bool.false_eq_true, if_false, Bool.true_and]
        cases xs with
        | nil => simp [sepFrom, commaSep]
        | cons x xs => simp [sepFrom]

theorem writeKey_eq (first : Bool) (key : String) (b : Buf) :
    writeKey first key b = b ++ (if first then ['{'] else [',']) ++ ('"' :: key.toList ++ ['"', ':']) := by
  cases first <;> simp [writeKey]

/-- One more member in front. -/
theorem fields_cons {f g : Bool → Buf → Nat → Except Err ObjOut} {key : String} (hk : Plain key)
    {j : Json} {t : List Char} (hd : Denotes t j) (m : Nat)
    (hg : ∀ first b n, g first b n = f false (writeKey first key b ++ t) (n + m))
    {r : Except Err (Option (List (List Char × Json)))} (h : DoesFields f r) :
    DoesFields g (r.map (Option.map ((key.toList, j) :: ·))) := by
  cases r with
  | error e => intro first b n; rw [hg]; exact h _ _ _
  | ok r =>
    cases r with
    | none =>
      obtain ⟨u, m', hf⟩ := h
      refine ⟨u, m + m', fun first b n => ?_⟩
      obtain ⟨pre, first', hf⟩ := hf false (writeKey first key b ++ t) (n + m)
      refine ⟨(if first then ['{'] else [',']) ++ ('"' :: key.toList ++ ['"', ':']) ++ t ++ pre, first', ?_⟩
      rw [hg, hf, writeKey_eq]
      simp [Nat.add_assoc]
    | some ms =>
      obtain ⟨xs, e1, e2, e3, m', hf⟩ := h
      refine ⟨⟨key.toList, key.toList, t, j⟩ :: xs, by simp [e1], ?_, ?_, m + m', fun first b n => ?_⟩
      · intro x hx
        rcases List.mem_cons.1 hx with rfl | hx
        · exact plain_body hk
        · exact e2 x hx
      · intro x hx
        rcases List.mem_cons.1 hx with rfl | hx
        · exact hd
        · exact e3 x hx
      · rw [hg, hf, writeKey_eq, List.map_cons, sepFrom_cons]
        cases first <;> simp [Member.full, Nat.add_assoc]

/-- A `null` that ends the object. -/
theorem fields_stop {g : Bool → Buf → Nat → Except Err ObjOut} {key : String} {t : List Char} (m : Nat)
    (hg : ∀ first b n, g first b n = .ok ⟨writeKey first key b ++ t, n + m, false, true⟩) :
    DoesFields g (.ok none) := by
  refine ⟨t, m, fun first b n => ?_⟩
  exact ⟨(if first then ['{'] else [',']) ++ ('"' :: key.toList ++ ['"', ':']), false, by
    rw [hg, writeKey_eq]; simp⟩

mutual
theorem projectPlan_spec (ryu : Nat → List Char) (hryu : ∀ n, finite n = true → IsNumber (ryu n))
    (raw : String → Json) (S : Schema) (hS : PlainSchema S) (isTrue : String → Bool) :
    ∀ (p : Plan) (fs : Fields) (parent : TypeName), p.PlainKeys → (∀ kv ∈ fs, Clean raw kv.2) →
      PlainName parent →
      Does (projectPlan ryu S isTrue p fs parent) (completeField ryu raw S isTrue p fs parent)
  | .null _, fs, parent, _, _, _ => by
    rw [completeField]
    exact ⟨nullText, 0, .null, fun b n => by rw [projectPlan]; rfl⟩
  | .leaf info, fs, parent, _, hfs, hp => by
    rw [completeField]
    split
    · rename_i ht
      cases parent with
      | error e => intro b n; rw [projectPlan]; simp [ht]
      | ok t =>
        refine ⟨'"' :: t.toList ++ ['"'], 0, .str _ _ (plain_body (hp _ rfl)), fun b n => ?_⟩
        rw [projectPlan]; simp [ht]
    · rename_i ht
      cases hk : getKey fs info.responseKey with
      | none =>
        exact ⟨nullText, 0, .null, fun b n => by simp [projectPlan, ht, hk]⟩
      | some v =>
        obtain ⟨k', hm⟩ := getKey_mem hk
        have hv : Clean raw v := hfs _ hm
        have := projectValue_spec ryu hryu raw (fun v _ b n => .ok ⟨serialize ryu v b, n, false⟩)
          (fun v _ => .ok (some (toJson ryu raw v))) (by
            intro fs h
            obtain ⟨t, h1, h2⟩ := serialize_spec ryu hryu raw _ h.rawOk
            exact ⟨t, 0, h2, fun b n => by simp [h1]⟩) v info.nullability hv
        have he : projectPlan ryu S isTrue (.leaf info) fs parent =
            projectValue ryu (fun v _ b n => .ok ⟨serialize ryu v b, n, false⟩) info.nullability v := by
          funext b n; simp [projectPlan, ht, hk]
        rw [he]; exact this
  | .node info sels, fs, parent, hkeys, hfs, hp => by
    rw [completeField]
    split
    · rename_i ht
      cases parent with
      | error e => intro b n; rw [projectPlan]; simp [ht]
      | ok t =>
        refine ⟨'"' :: t.toList ++ ['"'], 0, .str _ _ (plain_body (hp _ rfl)), fun b n => ?_⟩
        rw [projectPlan]; simp [ht]
    · rename_i ht
      cases hk : getKey fs info.responseKey with
      | none =>
        exact ⟨nullText, 0, .null, fun b n => by simp [projectPlan, ht, hk]⟩
      | some v =>
        obtain ⟨k', hm⟩ := getKey_mem hk
        have hv : Clean raw v := hfs _ hm
        rw [Plan.PlainKeys] at hkeys
        have := projectValue_spec ryu hryu raw
          (fun v fs b n => finishObject b.length
            (projectPlans ryu S isTrue sels fs (resolveTypeName S info (some v) parent) true b n))
          (fun v fs => (completeFields ryu raw S isTrue sels fs
            (resolveTypeName S info (some v) parent)).map (Option.map Json.obj)) (by
            intro fs h
            apply finish_spec
            cases h with
            | obj _ h1 h2 =>
              exact projectPlans_spec ryu hryu raw S hS isTrue sels fs _ hkeys.2 h2
                (resolve_plain hS info _ (by rintro x ⟨⟩; exact .obj _ h1 h2) parent))
          v info.nullability hv
        have he : projectPlan ryu S isTrue (.node info sels) fs parent =
            projectValue ryu (fun v fs b n => finishObject b.length
              (projectPlans ryu S isTrue sels fs (resolveTypeName S info (some v) parent) true b n))
              info.nullability v := by
          funext b n; simp [projectPlan, ht, hk]
        rw [he]; exact this

theorem projectPlans_spec (ryu : Nat → List Char) (hryu : ∀ n, finite n = true → IsNumber (ryu n))
    (raw : String → Json) (S : Schema) (hS : PlainSchema S) (isTrue : String → Bool) :
    ∀ (ps : List Plan) (fs : Fields) (parent : TypeName), plainKeys ps →
      (∀ kv ∈ fs, Clean raw kv.2) → PlainName parent →
      DoesFields (projectPlans ryu S isTrue ps fs parent) (completeFields ryu raw S isTrue ps fs parent)
  | [], fs, parent, _, _, _ => by
    rw [completeFields]
    exact ⟨[], rfl, by simp, by simp, 0, fun first b n => by
      rw [projectPlans]; simp [sepFrom_nil]⟩
  | p :: ps, fs, parent, hkeys, hfs, hp => by
    rw [plainKeys] at hkeys
    have hrest := projectPlans_spec ryu hryu raw S hS isTrue ps fs parent hkeys.2 hfs hp
    have hkey : Plain p.info.responseKey := by
      have := hkeys.1
      cases p with
      | null i => exact this
      | leaf i => exact this
      | node i s => rw [Plan.PlainKeys] at this; exact this.1
    rw [completeFields]
    cases hv : verdict S isTrue p.info fs parent with
    | error e => intro first b n; rw [projectPlans, hv]
    | ok v =>
      cases v with
      | leaveOut =>
        have he : projectPlans ryu S isTrue (p :: ps) fs parent = projectPlans ryu S isTrue ps fs parent := by
          funext first b n; rw [projectPlans, hv]
        rw [he]; exact hrest
      | writeNull err =>
        simp only
        by_cases hnn : p.info.nullability.isNonNull = true
        · simp only [hnn, settle, if_true]
          refine fields_stop (t := nullText) (key := p.info.responseKey) (if err then 1 else 0) ?_
          intro first b n
          rw [projectPlans, hv]
          simp only [hnn, if_true]
          cases err <;> simp
        · have hnn : p.info.nullability.isNonNull = false := by simpa using hnn
          simp only [hnn, settle, Bool.false_eq_true, if_false]
          refine fields_cons hkey .null (if err then 1 else 0) ?_ hrest
          intro first b n
          rw [projectPlans, hv]
          simp only [hnn, Bool.false_eq_true, if_false]
          cases err <;> simp [nullText]
      | go =>
        simp only
        have hplan := projectPlan_spec ryu hryu raw S hS isTrue p fs parent hkeys.1 hfs hp
        cases hc : completeField ryu raw S isTrue p fs parent with
        | error e =>
          rw [hc] at hplan
          intro first b n
          rw [projectPlans, hv]
          simp only [hplan _ _]
        | ok r =>
          rw [hc] at hplan
          obtain ⟨t, m, hd, hf⟩ := hplan
          simp only
          have hstep : ∀ first b n, projectPlans ryu S isTrue (p :: ps) fs parent first b n =
              if r.isNone && p.info.nullability.isNonNull then
                .ok ⟨writeKey first p.info.responseKey b ++ t, n + m, false, true⟩
              else projectPlans ryu S isTrue ps fs parent false
                (writeKey first p.info.responseKey b ++ t) (n + m) := by
            intro first b n
            rw [projectPlans, hv]
            simp only [hf]
          cases r with
          | some j =>
            simp only [settle]
            exact fields_cons hkey hd m (fun first b n => by rw [hstep]; simp) hrest
          | none =>
            by_cases hnn : p.info.nullability.isNonNull = true
            · simp only [hnn, settle, if_true]
              exact fields_stop (t := t) (key := p.info.responseKey) m (fun first b n => by rw [hstep]; simp [hnn])
            · have hnn : p.info.nullability.isNonNull = false := by simpa using hnn
              simp only [hnn, settle, Bool.false_eq_true, if_false]
              exact fields_cons hkey hd m (fun first b n => by rw [hstep]; simp [hnn]) hrest
end

end Verif.Projection
