import Verif.Projection.Lemmas
import Verif.Entities.RequiresSpec

/-!
# What is sent is the representation
-/

namespace Verif.Entities

open Verif.Json
open Verif.Projection

theorem satisfies_self (S : Schema) (c : String) : S.satisfies c c = true := by
  simp [Schema.satisfies]

theorem typenameOf_eq {fs : Fields} (h : SortedKeys fs) : typenameOf fs = typeOf fs := by
  unfold typenameOf typeOf; rw [getKey_eq_lookup h]; rfl

theorem requiredValue_eq {fs : Fields} (h : SortedKeys fs) (f : FieldInfo) :
    requiredValue fs f = found fs f := by
  unfold requiredValue found; rw [getKey_eq_lookup h, getKey_eq_lookup h]; rfl

theorem fragApplies_eq (S : Schema) (fs : Fields) (c : String) :
    fragApplies S fs c = Applies S fs c := by
  unfold fragApplies Applies typeOf
  cases lookup "__typename" fs with
  | none => simp [satisfies_self]
  | some v => cases v <;> simp [satisfies_self]

theorem wf_sortedKeys {fs : Fields} (h : (Value.obj fs).WF) : SortedKeys fs := by
  cases h with | obj h _ => exact h

theorem wf_member {fs : Fields} (h : (Value.obj fs).WF) {k : String} {v : Value}
    (hv : lookup k fs = some v) : v.WF := by
  cases h with | obj _ h => exact h _ (lookup_mem hv)

theorem rawOk_member {raw : String → Json} {fs : Fields} (h : RawOk raw (.obj fs)) {k : String}
    {v : Value} (hv : lookup k fs = some v) : RawOk raw v := by
  cases h with | obj _ h => exact h _ (lookup_mem hv)

theorem found_lookup {fs : Fields} {f : FieldInfo} {v : Value} (h : found fs f = some v) :
    ∃ k, lookup k fs = some v := by
  unfold found at h
  split at h
  · rename_i w hw; exact ⟨_, by rw [hw]; exact h⟩
  · exact ⟨_, h⟩

/-! ## Values -/

/-- A piece of the writer sends what it should. -/
def DoesSend (f : Buf → Bool → Option String → Buf × Bool) : Option Json → Prop
  | none => ∀ b first key, f b first key = (b, false)
  | some j => ∃ t, Denotes t j ∧ ∀ b first key, f b first key = (b ++ startText first key ++ t, true)

theorem sendValue_spec (ryu : Nat → List Char) (hryu : ∀ n, finite n = true → IsNumber (ryu n))
    (raw : String → Json) (onObj : OnEntity) (object : Fields → Option Json)
    (ho : ∀ fs : Fields, RawOk raw (.obj fs) → (Value.obj fs).WF → DoesSend (onObj fs) (object fs))
    (v : Value) : RawOk raw v → v.WF →
    DoesSend (sendValue ryu onObj v) (repValue ryu raw object v) := by
  have scalar : ∀ (v : Value) (f : Buf → Bool → Option String → Buf × Bool), RawOk raw v →
      (∀ b first key, f b first key = (serialize ryu v (b ++ startText first key), true)) →
      DoesSend f (some (toJson ryu raw v)) := by
    intro v f hv hf
    obtain ⟨t, h1, h2⟩ := serialize_spec ryu hryu raw v hv
    exact ⟨t, h2, fun b first key => by rw [hf, h1]⟩
  induction v using Value.ind with
  | null => intro _ _; rw [repValue]; intro b first key; rw [sendValue]
  | bool x => intro h _; rw [repValue]; exact scalar _ _ h (fun b first key => by rw [sendValue])
  | f64 x => intro h _; rw [repValue]; exact scalar _ _ h (fun b first key => by rw [sendValue])
  | i64 x => intro h _; rw [repValue]; exact scalar _ _ h (fun b first key => by rw [sendValue])
  | u64 x => intro h _; rw [repValue]; exact scalar _ _ h (fun b first key => by rw [sendValue])
  | str x => intro h _; rw [repValue]; exact scalar _ _ h (fun b first key => by rw [sendValue])
  | raw x => intro h _; rw [repValue]; exact scalar _ _ h (fun b first key => by rw [sendValue])
  | obj fs _ =>
    intro h hw
    rw [repValue]
    have := ho fs h hw
    cases hc : object fs with
    | none =>
      rw [hc] at this
      intro b first key; rw [sendValue]; exact this b first key
    | some j =>
      rw [hc] at this
      obtain ⟨t, h1, h2⟩ := this
      exact ⟨t, h1, fun b first key => by rw [sendValue]; exact h2 b first key⟩
  | arr vs ih =>
    intro h hw
    cases h with
    | arr _ h =>
      cases hw with
      | arr hw =>
        have : ∀ us : List Value,
            (∀ v ∈ us, RawOk raw v → v.WF → DoesSend (sendValue ryu onObj v) (repValue ryu raw object v)) →
            (∀ v ∈ us, RawOk raw v) → (∀ v ∈ us, v.WF) →
            ∃ xs : List (List Char × Json), xs.map (·.2) = repItems ryu raw object us ∧
              (∀ x ∈ xs, Denotes x.1 x.2) ∧
              ∀ first b, sendItems ryu onObj us b first = b ++ sepFrom first (xs.map (·.1)) := by
          intro us
          induction us with
          | nil => intro _ _ _; exact ⟨[], by simp [repItems], by simp, fun f b => by simp [sendItems, sepFrom_nil]⟩
          | cons u us ihu =>
            intro h1 h2 h3
            have hu := h1 u (by simp) (h2 u (by simp)) (h3 u (by simp))
            obtain ⟨xs, e1, e2, e3⟩ := ihu (fun v hv => h1 v (by simp [hv]))
              (fun v hv => h2 v (by simp [hv])) (fun v hv => h3 v (by simp [hv]))
            cases hr : repValue ryu raw object u with
            | none =>
              rw [hr] at hu
              have hu : ∀ b first key, sendValue ryu onObj u b first key = (b, false) := hu
              refine ⟨xs, by rw [repItems, hr, e1]; simp, e2, fun first b => ?_⟩
              rw [sendItems]; simp only [hu, e3]; simp
            | some j =>
              rw [hr] at hu
              obtain ⟨t, d, ht⟩ := hu
              refine ⟨(t, j) :: xs, by rw [repItems, hr, ← e1]; simp, ?_, fun first b => ?_⟩
              · intro x hx
                rcases List.mem_cons.1 hx with rfl | hx
                · exact d
                · exact e2 x hx
              · rw [sendItems]; simp only [ht, e3, List.map_cons, sepFrom_cons, if_true]
                cases first <;> simp [startText]
        obtain ⟨xs, e1, e2, e3⟩ := this vs ih h hw
        rw [repValue, ← e1]
        exact ⟨_, .arr xs e2, fun b first key => by rw [sendValue, e3]; simp [sepFrom]⟩

/-! ## Objects -/

/-- What a part of the loop over the required fields does: `start` opens the object. -/
def loopOut (start : List Char) (tn : Option String) (tch : Bool) (ms : List (List Char))
    (first : Bool) (b : Buf) : Buf × Bool :=
  if first then
    match tn with
    | some t => if tch then (b ++ start ++ ['{'] ++ sepFrom true (typenameText t :: ms), false)
        else (b, true)
    | none => if ms.isEmpty then (b, true) else (b ++ start ++ ['{'] ++ sepFrom true ms, false)
  else (b ++ sepFrom false ms, false)

theorem sepFrom_append (f : Bool) (x : List Char) (xs ys : List (List Char)) :
    sepFrom f (x :: (xs ++ ys)) = sepFrom f (x :: xs) ++ sepFrom false ys := by
  rw [sepFrom_cons, sepFrom_cons]; simp [sepFrom]

theorem loopOut_comp (start : List Char) (tn : Option String) (t1 t2 : Bool)
    (ms1 ms2 : List (List Char)) (first : Bool) (b : Buf) (h1 : t1 = false → ms1 = [])
    (_h2 : t2 = false → ms2 = []) :
    loopOut start tn t2 ms2 (loopOut start tn t1 ms1 first b).2 (loopOut start tn t1 ms1 first b).1 =
      loopOut start tn (t1 || t2) (ms1 ++ ms2) first b := by
  cases first with
  | false => simp [loopOut, sepFrom]
  | true =>
    cases tn with
    | some t =>
      cases t1 with
      | false => simp [loopOut, h1 rfl]
      | true => simp [loopOut, sepFrom_append]
    | none =>
      cases ms1 with
      | nil => simp [loopOut]
      | cons x xs => simp [loopOut, sepFrom_append]

theorem loopOut_first (start : List Char) (t : String) (t1 st : Bool) (ms : List (List Char))
    (b : Buf) : (loopOut start (some t) t1 ms (!st) b).2 = !(st || t1) := by
  cases st <;> cases t1 <;> simp [loopOut]

/-- Whether a required field is there. -/
def fieldTouched (fs : Fields) (f : FieldInfo) : Bool :=
  f.key != "__typename" && (found fs f).isSome

/-- A fragment that is just `__typename` only comes first. -/
def calm (S : Schema) (fs : Fields) : List Sel → Bool → Prop
  | [], _ => True
  | .field f _ :: rest, st => calm S fs rest (st || fieldTouched fs f)
  | .frag g s :: rest, st =>
    (Applies S fs g.cond = true → (onlyTypename s = true → st = false) ∧ calm S fs s st) ∧
      calm S fs rest (st || (Applies S fs g.cond && (onlyTypename s || touched S fs s)))
  | .spread _ :: rest, st => calm S fs rest st

/-- The selections below the fields are tidy. -/
def TidyBelow (S : Schema) : List Sel → Prop
  | [] => True
  | .field f s :: rest => Plain f.key ∧ Tidy S s ∧ TidyBelow S rest
  | .frag _ s :: rest => TidyBelow S s ∧ TidyBelow S rest
  | .spread _ :: rest => TidyBelow S rest

theorem Tidy.below {S : Schema} {sels : List Sel} (h : Tidy S sels) : TidyBelow S sels := by
  induction sels using Sels.ind with
  | nil => rw [TidyBelow]; trivial
  | field f s rest _ ih => rw [Tidy] at h; rw [TidyBelow]; exact ⟨h.1, h.2.1, ih h.2.2.2⟩
  | frag g s rest ihs ih => rw [Tidy] at h; rw [TidyBelow]; exact ⟨ihs h.1, ih h.2.2⟩
  | spread n rest ih => rw [Tidy] at h; rw [TidyBelow]; exact ih h

theorem mayBares_mem {xs : List Sel} {x : Sel} (h : mayBares xs = false) (hx : x ∈ xs) :
    mayBare x = false := by
  induction xs with
  | nil => cases hx
  | cons y ys ih =>
    rw [mayBares, Bool.or_eq_false_iff] at h
    rcases List.mem_cons.1 hx with rfl | hx
    · exact h.1
    · exact ih h.2 hx

/-- An applying fragment. -/
def selApplies (S : Schema) (fs : Fields) : Sel → Bool
  | .frag g _ => Applies S fs g.cond
  | _ => true

theorem Tidy.calm {S : Schema} {fs : Fields} {t : String} (ht : typeOf fs = some t)
    {sels : List Sel} (h : Tidy S sels) : ∀ st,
    (st = true → ∀ x ∈ sels, mayBare x = true → selApplies S fs x = false) → calm S fs sels st := by
  induction sels using Sels.ind with
  | nil => intro st _; rw [Entities.calm]; trivial
  | field f s rest _ ih =>
    intro st hst
    rw [Tidy] at h
    rw [Entities.calm]
    refine ih h.2.2.2 _ (fun hs x hx hb => ?_)
    rw [Bool.or_eq_true] at hs
    rcases hs with hs | hs
    · exact hst hs x (by simp [hx]) hb
    · rcases h.2.2.1 with hk | hk
      · simp [fieldTouched, hk] at hs
      · rw [mayBares_mem hk hx] at hb; cases hb
  | frag g s rest ihs ih =>
    intro st hst
    rw [Tidy] at h
    rw [Entities.calm]
    refine ⟨fun ha => ⟨fun hb => ?_, ihs h.1 st (fun hs x hx hb => ?_)⟩, ih h.2.2 _ (fun hs x hx hb => ?_)⟩
    · cases st with
      | false => rfl
      | true =>
        have := hst rfl (.frag g s) (by simp) (by simp [mayBare, hb])
        simp [selApplies, ha] at this
    · have := hst hs (.frag g s) (by simp) (by
        rw [mayBare]
        cases hm : mayBares s with
        | true => simp
        | false => rw [mayBares_mem hm hx] at hb; cases hb)
      simp [selApplies, ha] at this
    · rw [Bool.or_eq_true] at hs
      rcases hs with hs | hs
      · exact hst hs x (by simp [hx]) hb
      · rw [Bool.and_eq_true] at hs
        have he := h.2.1 x hx hb
        cases x with
        | field => simp [mayBare] at hb
        | spread => simp [mayBare] at hb
        | frag g' s' =>
          have := he t
          rw [selApplies]
          have ha := hs.1
          unfold Applies at ha ⊢
          rw [ht] at ha ⊢
          simp only at ha ⊢
          rw [Bool.eq_false_iff]
          exact fun hc => this ⟨ha, hc⟩
  | spread n rest ih =>
    intro st hst
    rw [Tidy] at h
    rw [Entities.calm]
    exact ih h st (fun hs x hx => hst hs x (by simp [hx]))

theorem members_nil (ryu : Nat → List Char) (raw : String → Json) (S : Schema) (fs : Fields)
    (sels : List Sel) (h : touched S fs sels = false) : members ryu raw S sels fs = [] := by
  induction sels using Sels.ind with
  | nil => rw [members]
  | field f s rest _ ih =>
    rw [touched, Bool.or_eq_false_iff] at h
    rw [members, ih h.2, List.append_nil]
    unfold repField
    split
    · rfl
    · rename_i hk
      have := h.1
      simp only [Bool.and_eq_false_iff, bne_eq_false_iff_eq, hk, false_or,
        Option.isSome_eq_false_iff, Option.isNone_iff_eq_none] at this
      rw [this]
  | frag g s rest ihs ih =>
    rw [touched, Bool.or_eq_false_iff, Bool.and_eq_false_iff, Bool.or_eq_false_iff] at h
    rw [members, ih h.2, List.append_nil]
    rcases h.1 with h1 | h1
    · rw [h1]; rfl
    · rw [ihs h1.2]; simp
  | spread n rest ih => rw [touched] at h; rw [members]; exact ih h

theorem typenameText_eq (t : String) : typenameText t =
    (Member.mk "__typename".toList "__typename".toList (quoted t) (.str t.toList)).full := by
  unfold typenameText Member.full
  rfl

theorem start_some (first : Bool) (k : String) :
    startText first (some k) = (if first then [] else [',']) ++ '"' :: k.toList ++ ['"', ':'] := by
  simp [startText]

theorem sendField_spec {ryu : Nat → List Char} {raw : String → Json} {fs : Fields}
    (hs : SortedKeys fs) {f : FieldInfo} (hk : Plain f.key)
    {send : Value → Buf → Bool → Option String → Buf × Bool} {rp : Value → Option Json}
    (hr : ∀ v, found fs f = some v → DoesSend (send v) (rp v)) :
    ∃ ms : List Member, ms.map (fun m => (m.name, m.value)) = repField f rp fs ∧
      (∀ m ∈ ms, StrBody m.nameText m.name) ∧ (∀ m ∈ ms, Denotes m.text m.value) ∧
      ∀ b first key pf, sendField fs f send b first key pf =
        loopOut (startText pf key) (typeOf fs) (fieldTouched fs f) (ms.map (·.full)) first b := by
  unfold repField fieldTouched sendField
  rw [requiredValue_eq hs, typenameOf_eq hs]
  by_cases hn : f.key = "__typename"
  · refine ⟨[], by simp [hn], by simp, by simp, fun b first key pf => ?_⟩
    simp only [hn, if_true]
    cases first <;> cases typeOf fs <;> simp [loopOut, sepFrom]
  · simp only [hn, if_false]
    have hn' : (f.key != "__typename") = true := by simp [hn]
    cases hf : found fs f with
    | none =>
      refine ⟨[], by simp, by simp, by simp, fun b first key pf => ?_⟩
      cases first <;> cases typeOf fs <;> simp [loopOut, sepFrom]
    | some v =>
      have hv := hr v hf
      by_cases hnull : v = .null
      · subst hnull
        refine ⟨[⟨f.key.toList, f.key.toList, nullText, .null⟩], by simp, ?_, ?_, fun b first key pf => ?_⟩
        · simpa using plain_body hk
        · intro m hm; rw [List.mem_singleton.1 hm]; exact Denotes.null
        · cases first <;> cases typeOf fs <;>
            simp [loopOut, sepFrom, commaSep, start_some, Member.full, hn']
      · cases hp : rp v with
        | none =>
          rw [hp] at hv
          refine ⟨[], ?_, by simp, by simp, fun b first key pf => ?_⟩
          · cases v <;> first | exact absurd rfl hnull | simp [hp]
          · have hv' : ∀ b first key, send v b first key = (b, false) := hv
            cases v <;> first
              | exact absurd rfl hnull
              | (cases first <;> cases typeOf fs <;> simp [loopOut, sepFrom, commaSep, hn', hv'])
        | some j =>
          rw [hp] at hv
          obtain ⟨t, d, ht⟩ := hv
          refine ⟨[⟨f.key.toList, f.key.toList, t, j⟩], ?_, ?_, ?_, fun b first key pf => ?_⟩
          · cases v <;> first | exact absurd rfl hnull | simp [hp]
          · simpa using plain_body hk
          · simpa using d
          · cases v <;> first
              | exact absurd rfl hnull
              | (cases first <;> cases typeOf fs <;>
                  simp [loopOut, sepFrom, commaSep, hn', ht, start_some, Member.full])


theorem bareStart_eq {sels : List Sel} {fs : Fields} (hs : SortedKeys fs) (b : Buf) (first : Bool)
    (key : Option String) : bareStart sels fs b first key =
      if onlyTypename sels then
        (typeOf fs).map fun t => b ++ startText first key ++ ['{'] ++ typenameText t
      else none := by
  rw [bareStart, typenameOf_eq hs]

/-- What the loop over the required fields does. -/
theorem sendFields_spec (ryu : Nat → List Char) (hryu : ∀ n, finite n = true → IsNumber (ryu n))
    (raw : String → Json) (S : Schema) (sels : List Sel) : TidyBelow S sels →
    (∀ s f, Selects sels f s → ∀ fs : Fields, RawOk raw (.obj fs) → (Value.obj fs).WF →
      DoesSend (sendObject ryu s (sendFields ryu S s) fs) (repObject ryu raw S s (members ryu raw S s) fs)) →
    ∀ fs : Fields, RawOk raw (.obj fs) → (Value.obj fs).WF →
    ∃ ms : List Member, ms.map (fun m => (m.name, m.value)) = members ryu raw S sels fs ∧
      (∀ m ∈ ms, StrBody m.nameText m.name) ∧ (∀ m ∈ ms, Denotes m.text m.value) ∧
      ∀ b first key pf st, ((typeOf fs).isSome → calm S fs sels st ∧ first = !st) →
        sendFields ryu S sels fs b first key pf =
        loopOut (startText pf key) (typeOf fs) (touched S fs sels) (ms.map (·.full)) first b := by
  induction sels using Sels.ind with
  | nil =>
    intro _ _ fs _ _
    refine ⟨[], by simp [members], by simp, by simp, fun b first key pf st _ => ?_⟩
    cases first <;> cases typeOf fs <;> simp [loopOut, sepFrom, touched, sendFields]
  | field f s rest _ ih =>
    intro ht ho fs hr hw
    rw [TidyBelow] at ht
    obtain ⟨m1, a1, a2, a3, a4⟩ := sendField_spec (ryu := ryu) (raw := raw) (wf_sortedKeys hw) ht.1
      (send := sendValue ryu (sendObject ryu s (sendFields ryu S s)))
      (rp := repValue ryu raw (repObject ryu raw S s (members ryu raw S s))) (fun v hv => by
        obtain ⟨k, hk⟩ := found_lookup hv
        exact sendValue_spec ryu hryu raw _ _ (ho s f (.here f s rest)) v (rawOk_member hr hk)
          (wf_member hw hk))
    obtain ⟨m2, b1, b2, b3, b4⟩ := ih ht.2.2 (fun s' f' hs' => ho s' f' (.later _ _ _ _ hs')) fs hr hw
    refine ⟨m1 ++ m2, by rw [members, List.map_append, a1, b1], ?_, ?_, fun b first key pf st hst => ?_⟩
    · intro m hm
      rcases List.mem_append.1 hm with hm | hm
      · exact a2 m hm
      · exact b2 m hm
    · intro m hm
      rcases List.mem_append.1 hm with hm | hm
      · exact a3 m hm
      · exact b3 m hm
    · rw [calm] at hst
      rw [sendFields, touched, List.map_append]
      simp only [a4]
      rw [b4 _ _ _ _ (st || fieldTouched fs f), loopOut_comp]
      · rfl
      · intro hf
        have : repField f (repValue ryu raw (repObject ryu raw S s (members ryu raw S s))) fs = [] := by
          have h0 := members_nil ryu raw S fs [.field f s] (by
            rw [touched, touched, Bool.or_false]; exact hf)
          rw [members, members, List.append_nil] at h0
          exact h0
        rw [this] at a1
        rw [List.map_eq_nil_iff.1 a1]; rfl
      · intro hf
        rw [members_nil ryu raw S fs rest hf] at b1
        rw [List.map_eq_nil_iff.1 b1]; rfl
      · intro ht'
        refine ⟨(hst ht').1, ?_⟩
        obtain ⟨t, ht'⟩ := Option.isSome_iff_exists.1 ht'
        rw [(hst (by rw [ht']; rfl)).2, ht', loopOut_first]
  | frag g s rest ihs ih =>
    intro ht ho fs hr hw
    rw [TidyBelow] at ht
    obtain ⟨m1, a1, a2, a3, a4⟩ := ihs ht.1 (fun s' f' hs' => ho s' f' (.frag _ _ _ _ _ hs')) fs hr hw
    obtain ⟨m2, b1, b2, b3, b4⟩ := ih ht.2 (fun s' f' hs' => ho s' f' (.later _ _ _ _ hs')) fs hr hw
    have hb : ∀ (ms : List Member) t, (t = false → ms = []) →
        (∀ m ∈ ms, StrBody m.nameText m.name) → (∀ m ∈ ms, Denotes m.text m.value) →
        ms.map (fun m => (m.name, m.value)) =
          (if Applies S fs g.cond then members ryu raw S s fs else []) →
        t = (Applies S fs g.cond && (onlyTypename s || touched S fs s)) →
        (∀ b first key pf st, ((typeOf fs).isSome → calm S fs (.frag g s :: rest) st ∧ first = !st) →
          (if fragApplies S fs g.cond then
            bareOr (bareStart s fs b pf key) (sendFields ryu S s fs b first key pf)
          else (b, first)) =
          loopOut (startText pf key) (typeOf fs) t (ms.map (·.full)) first b) →
        ∃ ms : List Member, ms.map (fun m => (m.name, m.value)) =
            members ryu raw S (.frag g s :: rest) fs ∧
          (∀ m ∈ ms, StrBody m.nameText m.name) ∧ (∀ m ∈ ms, Denotes m.text m.value) ∧
          ∀ b first key pf st, ((typeOf fs).isSome → calm S fs (.frag g s :: rest) st ∧ first = !st) →
            sendFields ryu S (.frag g s :: rest) fs b first key pf =
            loopOut (startText pf key) (typeOf fs) (touched S fs (.frag g s :: rest))
              (ms.map (·.full)) first b := by
      intro ms t h0 h1 h2 h3 h4 h5
      refine ⟨ms ++ m2, by rw [members, List.map_append, h3, b1], ?_, ?_, fun b first key pf st hst => ?_⟩
      · intro m hm
        rcases List.mem_append.1 hm with hm | hm
        · exact h1 m hm
        · exact b2 m hm
      · intro m hm
        rcases List.mem_append.1 hm with hm | hm
        · exact h2 m hm
        · exact b3 m hm
      · rw [sendFields, touched, List.map_append, ← h4]
        have h5' := h5 b first key pf st hst
        rw [calm, ← h4] at hst
        simp only [h5']
        rw [b4 _ _ _ _ (st || t), loopOut_comp]
        · intro hf; rw [h0 hf]; rfl
        · intro hf
          rw [members_nil ryu raw S fs rest hf] at b1
          rw [List.map_eq_nil_iff.1 b1]; rfl
        · intro ht'
          refine ⟨(hst ht').1.2, ?_⟩
          obtain ⟨t', ht'⟩ := Option.isSome_iff_exists.1 ht'
          rw [(hst (by rw [ht']; rfl)).2, ht', loopOut_first]
    by_cases ha : Applies S fs g.cond = true
    · have hfn : (Applies S fs g.cond && (onlyTypename s || touched S fs s)) = false → m1 = [] := by
        intro hf
        rw [ha, Bool.true_and, Bool.or_eq_false_iff] at hf
        rw [members_nil ryu raw S fs s hf.2] at a1
        exact List.map_eq_nil_iff.1 a1
      refine hb m1 _ hfn a2 a3 (by rw [a1, ha]; rfl) rfl (fun b first key pf st hst => ?_)
      rw [calm] at hst
      have hst : (typeOf fs).isSome → ((onlyTypename s = true → st = false) ∧ calm S fs s st) ∧
          first = !st := fun h => ⟨(hst h).1.1 ha, (hst h).2⟩
      have hst' : (typeOf fs).isSome → calm S fs s st ∧ first = !st :=
        fun h => ⟨(hst h).1.2, (hst h).2⟩
      rw [fragApplies_eq, ha, if_pos rfl, bareStart_eq (wf_sortedKeys hw), Bool.true_and]
      by_cases ho : onlyTypename s = true
      · have hn : m1 = [] := by
          have : touched S fs s = false := by
            cases s with
            | nil => simp [onlyTypename] at ho
            | cons x xs =>
              cases xs with
              | cons => simp [onlyTypename] at ho
              | nil =>
                cases x with
                | field f s => simp [onlyTypename] at ho; simp [touched, ho]
                | frag => simp [onlyTypename] at ho
                | spread => simp [onlyTypename] at ho
          rw [members_nil ryu raw S fs s this] at a1
          exact List.map_eq_nil_iff.1 a1
        rw [if_pos ho]
        cases htn : typeOf fs with
        | none =>
          simp only [Option.map_none, bareOr]
          rw [a4 b first key pf st hst', hn, htn]
          cases first <;> simp [loopOut]
        | some t =>
          have h0 := hst (by rw [htn]; rfl)
          rw [h0.2, h0.1.1 ho]
          simp [loopOut, ho, hn, sepFrom, commaSep, bareOr]
      · rw [if_neg ho]
        rw [Bool.not_eq_true] at ho
        rw [ho, Bool.false_or]
        exact a4 b first key pf st hst'
    · rw [Bool.not_eq_true] at ha
      refine hb [] false (fun _ => rfl) (by simp) (by simp) (by rw [ha]; rfl) (by rw [ha]; rfl)
        (fun b first key pf st _ => ?_)
      rw [fragApplies_eq, ha]
      cases first <;> cases typeOf fs <;> simp [loopOut, sepFrom]
  | spread n rest ih =>
    intro ht ho fs hr hw
    rw [TidyBelow] at ht
    obtain ⟨m2, b1, b2, b3, b4⟩ := ih ht (fun s' f' hs' => ho s' f' (.later _ _ _ _ hs')) fs hr hw
    refine ⟨m2, by rw [members, b1], b2, b3, fun b first key pf st hst => ?_⟩
    rw [calm] at hst
    rw [sendFields, touched]
    exact b4 b first key pf st hst

theorem onlyTypename_nonempty {sels : List Sel} (h : onlyTypename sels = true) :
    sels.isEmpty = false := by
  cases sels with
  | nil => simp [onlyTypename] at h
  | cons => rfl

theorem sendObject_spec (ryu : Nat → List Char) (hryu : ∀ n, finite n = true → IsNumber (ryu n))
    (raw : String → Json) (S : Schema) (sels : List Sel) (ht : Tidy S sels)
    (ho : ∀ s f, Selects sels f s → ∀ fs : Fields, RawOk raw (.obj fs) → (Value.obj fs).WF →
      DoesSend (sendObject ryu s (sendFields ryu S s) fs)
        (repObject ryu raw S s (members ryu raw S s) fs))
    (fs : Fields) (hr : RawOk raw (.obj fs)) (hw : (Value.obj fs).WF) :
    DoesSend (sendObject ryu sels (sendFields ryu S sels) fs)
      (repObject ryu raw S sels (members ryu raw S sels) fs) := by
  by_cases he : sels.isEmpty = true
  · obtain ⟨t, h1, h2⟩ := serialize_spec ryu hryu raw _ hr
    unfold repObject
    rw [if_pos he]
    exact ⟨t, h2, fun b first key => by rw [sendObject, if_pos he, h1]⟩
  · obtain ⟨ms, e1, e2, e3, e4⟩ := sendFields_spec ryu hryu raw S sels ht.below ho fs hr hw
    unfold repObject
    rw [if_neg he]
    cases htn : typeOf fs with
    | some t =>
      have hf : fs.isEmpty = false := by
        cases fs with
        | nil => simp [typeOf, lookup] at htn
        | cons => rfl
      have hq : StrBody (t.toList.flatMap Verif.Json.escChar) t.toList := quoted_body _
      have htm : Denotes (quoted t) (.str t.toList) := .str _ _ hq
      have hname : StrBody "__typename".toList "__typename".toList :=
        plain_body (by unfold Plain; decide)
      simp only
      by_cases hb : onlyTypename sels = true
      · rw [if_pos hb]
        have := Denotes.obj [⟨"__typename".toList, "__typename".toList, quoted t, .str t.toList⟩]
          (by simpa using hname) (by simpa using htm)
        refine ⟨_, this, fun b first key => ?_⟩
        rw [sendObject, if_neg he, hf, bareStart_eq (wf_sortedKeys hw), if_pos hb, htn]
        simp [commaSep, typenameText_eq, bareOr]
      · rw [if_neg hb]
        have hc := ht.calm htn false (fun h => absurd h (by decide))
        have hl : ∀ b first key, sendFields ryu S sels fs b true key first =
            loopOut (startText first key) (some t) (touched S fs sels) (ms.map (·.full)) true b :=
          fun b first key => by rw [e4 b true key first false (fun _ => ⟨hc, rfl⟩), htn]
        by_cases htc : touched S fs sels = true
        · rw [if_pos htc]
          have := Denotes.obj (⟨"__typename".toList, "__typename".toList, quoted t, .str t.toList⟩ :: ms)
            (by intro m hm
                rcases List.mem_cons.1 hm with rfl | hm
                · exact hname
                · exact e2 m hm)
            (by intro m hm
                rcases List.mem_cons.1 hm with rfl | hm
                · exact htm
                · exact e3 m hm)
          rw [List.map_cons, List.map_cons, e1] at this
          refine ⟨_, this, fun b first key => ?_⟩
          rw [sendObject, if_neg he, hf, bareStart_eq (wf_sortedKeys hw), if_neg hb]
          simp only [hl, bareOr]
          simp [loopOut, htc, typenameText_eq, sepFrom]
        · rw [if_neg htc]
          intro b first key
          rw [sendObject, if_neg he, hf, bareStart_eq (wf_sortedKeys hw), if_neg hb]
          simp only [hl, bareOr]
          simp [loopOut, htc]
    | none =>
      have hl : ∀ b first key, sendFields ryu S sels fs b true key first =
          loopOut (startText first key) none (touched S fs sels) (ms.map (·.full)) true b :=
        fun b first key => by
          rw [e4 b true key first false (fun h => by rw [htn] at h; cases h), htn]
      have hbs : ∀ b first key, bareStart sels fs b first key = none := by
        intro b first key
        rw [bareStart_eq (wf_sortedKeys hw), htn]; simp
      simp only
      by_cases hm : (members ryu raw S sels fs).isEmpty = true
      · rw [if_pos hm]
        intro b first key
        have hms : ms = [] := by
          rw [List.isEmpty_iff] at hm
          rw [hm] at e1
          exact List.map_eq_nil_iff.1 e1
        rw [sendObject, if_neg he]
        by_cases hf : fs.isEmpty = true
        · rw [if_pos hf]
        · rw [if_neg hf]; simp only [hbs, hl, bareOr]; simp [loopOut, hms]
      · rw [if_neg hm]
        have hms : ms ≠ [] := by
          intro h
          rw [h] at e1
          rw [← e1] at hm
          simp at hm
        have hf : fs.isEmpty = false := by
          cases fs with
          | nil =>
            exfalso
            apply hm
            have := members_nil ryu raw S [] sels
            by_cases htc : touched S [] sels = true
            · -- nothing is found in an empty object
              have hn : ∀ sels : List Sel, members ryu raw S sels [] = [] := by
                intro sels
                induction sels using Sels.ind with
                | nil => rw [members]
                | field f s rest _ ih =>
                  rw [members, ih]; simp [repField, found, lookup]
                | frag g s rest ihs ih => rw [members, ih, ihs]; simp
                | spread n rest ih => rw [members, ih]
              rw [hn]; rfl
            · rw [this (by simpa using htc)]; rfl
          | cons => rfl
        have := Denotes.obj ms e2 e3
        rw [e1] at this
        refine ⟨_, this, fun b first key => ?_⟩
        rw [sendObject, if_neg he, hf]
        simp only [hbs, hl, bareOr]
        simp [loopOut, hms, sepFrom]

theorem objects_spec (ryu : Nat → List Char) (hryu : ∀ n, finite n = true → IsNumber (ryu n))
    (raw : String → Json) (S : Schema) (sels : List Sel) : TidyBelow S sels →
    ∀ s f, Selects sels f s → ∀ fs : Fields, RawOk raw (.obj fs) → (Value.obj fs).WF →
      DoesSend (sendObject ryu s (sendFields ryu S s) fs)
        (repObject ryu raw S s (members ryu raw S s) fs) := by
  induction sels using Sels.ind with
  | nil => intro _ s f h; cases h
  | field f s rest ihs ih =>
    intro ht s' f' h
    rw [TidyBelow] at ht
    cases h with
    | here => exact sendObject_spec ryu hryu raw S s ht.2.1 (ihs ht.2.1.below)
    | later _ _ _ _ h => exact ih ht.2.2 s' f' h
  | frag g s rest ihs ih =>
    intro ht s' f' h
    rw [TidyBelow] at ht
    cases h with
    | frag _ _ _ _ _ h => exact ihs ht.1 s' f' h
    | later _ _ _ _ h => exact ih ht.2 s' f' h
  | spread n rest ih =>
    intro ht s' f' h
    rw [TidyBelow] at ht
    cases h with
    | later _ _ _ _ h => exact ih ht s' f' h

theorem send_spec (ryu : Nat → List Char) (hryu : ∀ n, finite n = true → IsNumber (ryu n))
    (raw : String → Json) (S : Schema) (sels : List Sel) (ht : Tidy S sels) (v : Value)
    (hr : RawOk raw v) (hw : v.WF) :
    DoesSend (sendValue ryu (sendObject ryu sels (sendFields ryu S sels)) v)
      (rep ryu raw S sels v) :=
  sendValue_spec ryu hryu raw _ _
    (sendObject_spec ryu hryu raw S sels ht (objects_spec ryu hryu raw S sels ht.below)) v hr hw

end Verif.Entities
