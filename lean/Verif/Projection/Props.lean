import Verif.Projection.Lemmas
import Verif.Projection.CondProps

/-!
# C09 and C10: the body of the response
-/

namespace Verif.Projection

open Verif.Json

/-! ## C10 -/

/-- The data of the response as a JSON value. -/
def completeData (ryu : Nat → List Char) (raw : String → Json) (S : Schema) (isTrue : String → Bool)
    (root : String) (plans : List Plan) : Value → Except Err Json
  | .obj fs => (completeFields ryu raw S isTrue plans fs (.ok root)).map fun r =>
      match r with
      | some ms => .obj ms
      | none => .null
  | _ => .ok .null

theorem body_member {t u : List Char} {name : String} {pre : List Member}
    (ht : t = '{' :: commaSep (pre.map (·.full))) (hpre : pre ≠ []) :
    bodyMember name (some u) t =
      '{' :: commaSep ((pre ++ [(⟨name.toList, name.toList, u, .null⟩ : Member)]).map (fun m => m.full)) := by
  subst ht
  cases pre with
  | nil => exact absurd rfl hpre
  | cons m ms =>
    have : ∀ (xs : List (List Char)) (x y : List Char),
        commaSep (x :: xs ++ [y]) = commaSep (x :: xs) ++ ',' :: y := by
      intro xs x y
      rw [List.cons_append, commaSep_flat, commaSep_flat]; simp
    simp only [List.map_append, List.map_cons, List.map_nil, this]
    simp [bodyMember, Member.full]

/-- The members that follow `data`. -/
def optMember (name : String) : Option Json → List (List Char × Json)
  | none => []
  | some j => [(name.toList, j)]

/-- **C10**: the body is the JSON text of an object with the completed data and, if there are any, the
errors and the extensions. (`errors n` is the text for the errors if `n` were added by the
projection.) -/
theorem C10_body (ryu : Nat → List Char) (hryu : ∀ n, finite n = true → IsNumber (ryu n))
    (raw : String → Json) (S : Schema) (hS : PlainSchema S) (isTrue : String → Bool)
    (data : Value) (hdata : Clean raw data) (root : String) (hroot : Plain root)
    (plans : List Plan) (hplans : plainKeys plans)
    (errors : Nat → Option (List Char)) (errorsJson : Nat → Option Json)
    (herr : ∀ n, match errors n, errorsJson n with
      | some t, some j => Denotes t j
      | none, none => True
      | _, _ => False)
    (extensions : Option (List Char)) (extensionsJson : Option Json)
    (hext : match extensions, extensionsJson with
      | some t, some j => Denotes t j
      | none, none => True
      | _, _ => False) :
    match completeData ryu raw S isTrue root plans data with
    | .error e => projectByOperation ryu S isTrue data errors extensions root plans = .error e
    | .ok j => ∃ body n, projectByOperation ryu S isTrue data errors extensions root plans = .ok body ∧
        Denotes body (.obj (("data".toList, j) :: optMember "errors" (errorsJson n) ++
          optMember "extensions" extensionsJson)) := by
  have hname : ∀ s : String, Plain s → StrBody s.toList s.toList := fun s h => plain_body h
  have hd : StrBody "data".toList "data".toList := hname _ (by unfold Plain; decide)
  have he : StrBody "errors".toList "errors".toList := hname _ (by unfold Plain; decide)
  have hx : StrBody "extensions".toList "extensions".toList := hname _ (by unfold Plain; decide)
  -- the members after the data
  have tail : ∀ (t : List Char) (j : Json) (n : Nat), Denotes t j →
      Denotes (bodyMember "extensions" extensions (bodyMember "errors" (errors n)
        ("{\"data\":".toList ++ t)) ++ ['}'])
        (.obj (("data".toList, j) :: optMember "errors" (errorsJson n) ++
          optMember "extensions" extensionsJson)) := by
    intro t j n ht
    have h0 : "{\"data\":".toList ++ t =
        '{' :: commaSep ([(⟨"data".toList, "data".toList, t, j⟩ : Member)].map (·.full)) := by
      have : "{\"data\":".toList = ['{', '"', 'd', 'a', 't', 'a', '"', ':'] := by decide
      have h2 : "data".toList = ['d', 'a', 't', 'a'] := by decide
      simp [commaSep, Member.full, this, h2]
    have full_value : ∀ (a b c : List Char) (j j' : Json),
        (⟨a, b, c, j⟩ : Member).full = (⟨a, b, c, j'⟩ : Member).full := fun _ _ _ _ _ => rfl
    have hn := herr n
    cases hen : errors n with
    | none =>
      cases hej : errorsJson n with
      | some _ => simp [hen, hej] at hn
      | none =>
        cases extensions with
        | none =>
          cases extensionsJson with
          | some _ => simp at hext
          | none =>
            simp only [bodyMember, h0, optMember, List.append_nil]
            exact Denotes.obj [⟨"data".toList, "data".toList, t, j⟩] (by
              intro m hm; rw [List.mem_singleton.1 hm]; exact hd) (by
              intro m hm; rw [List.mem_singleton.1 hm]; exact ht)
        | some tx =>
          cases extensionsJson with
          | none => simp at hext
          | some jx =>
            simp only at hext
            show Denotes (bodyMember "extensions" (some tx) ("{\"data\":".toList ++ t) ++ ['}']) _
            rw [body_member h0 (by simp)]
            exact Denotes.obj [⟨"data".toList, "data".toList, t, j⟩,
              ⟨"extensions".toList, "extensions".toList, tx, jx⟩] (by
                intro m hm; simp only [List.mem_cons, List.not_mem_nil, or_false] at hm
                rcases hm with rfl | rfl <;> assumption) (by
                intro m hm; simp only [List.mem_cons, List.not_mem_nil, or_false] at hm
                rcases hm with rfl | rfl <;> assumption)
    | some te =>
      cases hej : errorsJson n with
      | none => simp [hen, hej] at hn
      | some je =>
        simp only [hen, hej] at hn
        have h1 := body_member (name := "errors") (u := te) h0 (by simp)
        cases extensions with
        | none =>
          cases extensionsJson with
          | some _ => simp at hext
          | none =>
            show Denotes (bodyMember "errors" (some te) ("{\"data\":".toList ++ t) ++ ['}']) _
            rw [h1]
            exact Denotes.obj [⟨"data".toList, "data".toList, t, j⟩,
              ⟨"errors".toList, "errors".toList, te, je⟩] (by
                intro m hm; simp only [List.mem_cons, List.not_mem_nil, or_false] at hm
                rcases hm with rfl | rfl <;> assumption) (by
                intro m hm; simp only [List.mem_cons, List.not_mem_nil, or_false] at hm
                rcases hm with rfl | rfl <;> assumption)
        | some tx =>
          cases extensionsJson with
          | none => simp at hext
          | some jx =>
            simp only at hext
            rw [body_member h1 (by simp)]
            exact Denotes.obj [⟨"data".toList, "data".toList, t, j⟩,
              ⟨"errors".toList, "errors".toList, te, je⟩,
              ⟨"extensions".toList, "extensions".toList, tx, jx⟩] (by
                intro m hm; simp only [List.mem_cons, List.not_mem_nil, or_false] at hm
                rcases hm with rfl | rfl | rfl <;> assumption) (by
                intro m hm; simp only [List.mem_cons, List.not_mem_nil, or_false] at hm
                rcases hm with rfl | rfl | rfl <;> assumption)
  have other : (∀ fs, data ≠ .obj fs) → ∃ body n,
      projectByOperation ryu S isTrue data errors extensions root plans = .ok body ∧
        Denotes body (.obj (("data".toList, .null) :: optMember "errors" (errorsJson n) ++
          optMember "extensions" extensionsJson)) := by
    intro hne
    refine ⟨_, 0, ?_, tail nullText .null 0 .null⟩
    cases data with
    | obj fs => exact absurd rfl (hne fs)
    | _ => simp [projectByOperation]
  cases data with
  | obj fs =>
    have hf : DoesFields (projectPlans ryu S isTrue plans fs (.ok root))
        (completeFields ryu raw S isTrue plans fs (.ok root)) := by
      cases hdata with
      | obj _ _ h2 =>
        exact projectPlans_spec ryu hryu raw S hS isTrue plans fs (.ok root) hplans h2
          (by rintro s ⟨⟩; exact hroot)
    have hfin := finish_spec hf
    simp only [completeData]
    cases hc : completeFields ryu raw S isTrue plans fs (.ok root) with
    | error e =>
      rw [hc] at hfin
      simp only [Except.map]
      unfold projectByOperation
      have := hfin "{\"data\":".toList 0
      simp only at this
      simp only [this]
    | ok r =>
      rw [hc] at hfin
      obtain ⟨t, m, hd', ho⟩ := hfin
      have := ho "{\"data\":".toList 0
      simp only at this
      simp only [Except.map]
      refine ⟨_, m, ?_, tail t _ m (by cases r <;> exact hd')⟩
      unfold projectByOperation
      simp only [this, Nat.zero_add]
  | null => exact other (by simp)
  | f64 n => exact other (by simp)
  | i64 n => exact other (by simp)
  | u64 n => exact other (by simp)
  | bool n => exact other (by simp)
  | str n => exact other (by simp)
  | raw n => exact other (by simp)
  | arr n => exact other (by simp)

/-- **C10**: a plan's field is put in the response exactly when its guard names the type of the
object and its conditions are met. -/
theorem C10_selected (S : Schema) (isTrue : String → Bool) (info : PlanInfo) (fs : Fields)
    (parent field : String)
    (hfield : resolveTypeName S info (getKey fs info.responseKey) (.ok parent) = .ok field) :
    verdict S isTrue info fs (.ok parent) = .ok .go ↔
      GuardMeans parent info.guard ∧
        MeansOpt parent field (getKey fs info.responseKey) isTrue info.conditions := by
  rw [← C38_check, verdict, hfield]
  have hg : guardPasses (.ok parent) info.guard = .ok true ↔ GuardMeans parent info.guard := by
    cases info.guard with
    | none => simp [guardPasses, GuardMeans]
    | some g => simp [guardPasses, GuardMeans, accepts_iff]
  rw [← hg]
  cases guardPasses (.ok parent) info.guard with
  | error e => simp
  | ok b =>
    cases b with
    | false => simp
    | true =>
      cases checkOpt ⟨.ok parent, .ok field, getKey fs info.responseKey, isTrue⟩ info.conditions with
      | ok u => simp
      | error e => cases e <;> simp

/-! ## C09 -/

/-- The type with its own nullability replaced. -/
def withNull (b : Bool) : Nullability → Nullability
  | .leaf _ => .leaf b
  | .list _ i => .list b i

theorem toJson_ne_null {ryu : Nat → List Char} {raw : String → Json} {v : Value} (hv : Structured v)
    (hn : v ≠ .null) : toJson ryu raw v ≠ .null := by
  cases hv <;> simp_all [toJson]

/-- Completing a value, given what holds of objects, respects the type. -/
theorem completeValue_respects (ryu : Nat → List Char) (raw : String → Json)
    (object : Value → Fields → Except Err (Option Json)) (objOk : List (List Char × Json) → Prop)
    (ho : ∀ fs j, Structured (.obj fs) → object (.obj fs) fs = .ok (some j) →
      j ≠ .null ∧ (∀ js, j ≠ .arr js) ∧ ∀ ms, j = .obj ms → objOk ms)
    (v : Value) : ∀ nb j, Structured v → completeValue ryu raw object nb v = .ok (some j) →
      j ≠ .null ∧ ∀ b, Respects objOk (withNull b nb) j := by
  have scalar : ∀ (nb : Nullability) (v : Value) (j : Json), toJson ryu raw v = j →
      Structured v → v ≠ .null → (∀ vs, v ≠ .arr vs) → (∀ fs, v ≠ .obj fs) →
      j ≠ .null ∧ ∀ b, Respects objOk (withNull b nb) j := by
    rintro nb v j rfl hs h1 h2 h3
    have hn := toJson_ne_null (ryu := ryu) (raw := raw) hs h1
    have ha : ∀ js, toJson ryu raw v ≠ .arr js := by
      cases hs <;> simp_all [toJson]
    have ho : ∀ ms, toJson ryu raw v ≠ .obj ms := by
      cases hs <;> simp_all [toJson]
    refine ⟨hn, fun b => ?_⟩
    cases nb with
    | leaf _ => exact ⟨fun h => absurd h hn, fun ms h => absurd h (ho ms)⟩
    | list _ i => exact ⟨fun h => absurd h hn, fun ms h => absurd h (ho ms), fun js h => absurd h (ha js)⟩
  induction v using Value.ind with
  | null => intro nb j _ h; rw [completeValue] at h; simp at h
  | f64 n => intro nb j hs h; rw [completeValue] at h; simp only [Except.ok.injEq, Option.some.injEq] at h
             exact scalar nb _ j h hs (by simp) (by simp) (by simp)
  | i64 n => intro nb j hs h; rw [completeValue] at h; simp only [Except.ok.injEq, Option.some.injEq] at h
             exact scalar nb _ j h hs (by simp) (by simp) (by simp)
  | u64 n => intro nb j hs h; rw [completeValue] at h; simp only [Except.ok.injEq, Option.some.injEq] at h
             exact scalar nb _ j h hs (by simp) (by simp) (by simp)
  | bool n => intro nb j hs h; rw [completeValue] at h; simp only [Except.ok.injEq, Option.some.injEq] at h
              exact scalar nb _ j h hs (by simp) (by simp) (by simp)
  | str n => intro nb j hs h; rw [completeValue] at h; simp only [Except.ok.injEq, Option.some.injEq] at h
             exact scalar nb _ j h hs (by simp) (by simp) (by simp)
  | raw n => intro nb j hs h; cases hs
  | obj fs _ =>
    intro nb j hs h
    rw [completeValue] at h
    obtain ⟨h1, h2, h3⟩ := ho fs j hs h
    refine ⟨h1, fun b => ?_⟩
    cases nb with
    | leaf _ => exact ⟨fun h => absurd h h1, h3⟩
    | list _ i => exact ⟨fun h => absurd h h1, h3, fun js h => absurd h (h2 js)⟩
  | arr vs ih =>
    intro nb j hs h
    cases hs with
    | arr _ hs =>
      rw [completeValue] at h
      cases hci : completeItems ryu raw object nb vs with
      | error e => simp [hci, Except.map] at h
      | ok r =>
        cases r with
        | none => simp [hci, Except.map] at h
        | some js =>
          simp only [hci, Except.map, Option.map_some, Except.ok.injEq, Option.some.injEq] at h
          subst h
          refine ⟨by simp, fun b => ?_⟩
          cases nb with
          | leaf _ => exact ⟨by simp, by simp⟩
          | list nn item =>
            refine ⟨by simp, by simp, ?_⟩
            rintro js' ⟨⟩ x hx
            have : ∀ (us : List Value) (js : List Json), (∀ v ∈ us, ∀ nb j, Structured v →
                completeValue ryu raw object nb v = .ok (some j) → j ≠ .null ∧
                  ∀ b, Respects objOk (withNull b nb) j) →
                (∀ v ∈ us, Structured v) →
                completeItems ryu raw object (.list nn item) us = .ok (some js) →
                ∀ x ∈ js, Respects objOk item x := by
              intro us
              induction us with
              | nil =>
                intro js _ _ h x hx
                rw [completeItems] at h
                simp only [Except.ok.injEq, Option.some.injEq] at h
                subst h; simp at hx
              | cons u us ihu =>
                intro js h1 h2 h x hx
                rw [completeItems] at h
                cases hu : completeValue ryu raw object (itemOf (.list nn item)) u with
                | error e => simp [hu] at h
                | ok r =>
                  simp only [hu] at h
                  cases hst : settle (itemNonNull (.list nn item)) r with
                  | none => simp [hst] at h
                  | some j =>
                    simp only [hst] at h
                    cases hrest : completeItems ryu raw object (.list nn item) us with
                    | error e => simp [hrest, Except.map] at h
                    | ok r' =>
                      cases r' with
                      | none => simp [hrest, Except.map] at h
                      | some js' =>
                        simp only [hrest, Except.map, Option.map_some, Except.ok.injEq,
                          Option.some.injEq] at h
                        subst h
                        rcases List.mem_cons.1 hx with rfl | hx
                        · cases r with
                          | some j' =>
                            simp only [settle, Option.some.injEq] at hst
                            subst hst
                            have := (h1 u (by simp) _ _ (h2 u (by simp)) hu).2 item.isNonNull
                            cases item <;> exact this
                          | none =>
                            simp only [settle] at hst
                            split at hst
                            · simp at hst
                            · rename_i hn
                              simp only [Option.some.injEq] at hst
                              subst hst
                              have hn : item.isNonNull = false := by simpa [itemNonNull] using hn
                              cases item with
                              | leaf b => exact ⟨fun _ => hn, by simp⟩
                              | list b i => exact ⟨fun _ => hn, by simp, by simp⟩
                        · exact ihu js' (fun v hv => h1 v (by simp [hv])) (fun v hv => h2 v (by simp [hv]))
                            hrest x hx
            exact this vs js ih hs hci x hx

theorem respects_settle {objOk : List (List Char × Json) → Prop} {nb : Nullability}
    {r : Option Json} {j : Json} (hst : settle nb.isNonNull r = some j)
    (h : ∀ j, r = some j → j ≠ .null ∧
      ∀ b, Respects objOk (withNull b nb) j) :
    Respects objOk nb j := by
  cases r with
  | some j' =>
    simp only [settle, Option.some.injEq] at hst
    subst hst
    have := (h _ rfl).2 nb.isNonNull
    cases nb <;> exact this
  | none =>
    simp only [settle] at hst
    split at hst
    · simp at hst
    · rename_i hn
      simp only [Option.some.injEq] at hst
      subst hst
      have hn : nb.isNonNull = false := by simpa using hn
      cases nb with
      | leaf b => exact ⟨fun _ => hn, by simp⟩
      | list b i => exact ⟨fun _ => hn, by simp, by simp⟩

theorem typename_respects {objOk : List (List Char × Json) → Prop} {nb : Nullability}
    {parent : TypeName} {r : Option Json}
    (h : parent.map (fun t => some (Json.str t.toList)) = .ok r) :
    ∀ j, r = some j → j ≠ .null ∧
      ∀ b, Respects objOk (withNull b nb) j := by
  cases parent with
  | error e => simp [Except.map] at h
  | ok t =>
    simp only [Except.map, Except.ok.injEq] at h
    subst h
    rintro j ⟨⟩
    refine ⟨by simp, fun b => ?_⟩
    cases nb with
    | leaf _ => exact ⟨by simp, by simp⟩
    | list _ i => exact ⟨by simp, by simp, by simp⟩

theorem respectedBy_mono {ps : List Plan} {p : Plan} {m : List Char × Json}
    (h : respectedBy ps m) : respectedBy (p :: ps) m := by
  rw [respectedBy]; exact Or.inr h

mutual
theorem completeField_respects (ryu : Nat → List Char) (raw : String → Json) (S : Schema)
    (isTrue : String → Bool) : ∀ (p : Plan) (fs : Fields) (parent : TypeName) (r : Option Json)
      (j : Json), (∀ kv ∈ fs, Structured kv.2) → completeField ryu raw S isTrue p fs parent = .ok r →
      settle p.info.nullability.isNonNull r = some j → p.Respected j
  | .null info, fs, parent, r, j, _, h, hst => by
    rw [completeField] at h
    simp only [Except.ok.injEq] at h
    subst h
    rw [Plan.Respected]
    exact respects_settle hst (by simp)
  | .leaf info, fs, parent, r, j, hfs, h, hst => by
    rw [completeField] at h
    rw [Plan.Respected]
    refine respects_settle hst ?_
    split at h
    · exact typename_respects h
    · cases hk : getKey fs info.responseKey with
      | none => simp only [hk, Except.ok.injEq] at h; subst h; simp
      | some v =>
        obtain ⟨k', hm⟩ := getKey_mem hk
        simp only [hk] at h
        rintro j' rfl
        exact completeValue_respects ryu raw _ (fun _ => True) (by
          intro fs j hs hj
          simp only [Except.ok.injEq, Option.some.injEq] at hj
          subst hj
          rw [toJson]; simp) v info.nullability j' (hfs _ hm) h
  | .node info sels, fs, parent, r, j, hfs, h, hst => by
    rw [completeField] at h
    rw [Plan.Respected]
    refine respects_settle hst ?_
    split at h
    · exact typename_respects h
    · cases hk : getKey fs info.responseKey with
      | none => simp only [hk, Except.ok.injEq] at h; subst h; simp
      | some v =>
        obtain ⟨k', hm⟩ := getKey_mem hk
        simp only [hk] at h
        rintro j' rfl
        refine completeValue_respects ryu raw _ _ ?_ v info.nullability j' (hfs _ hm) h
        intro fs' j hs hj
        cases hc : completeFields ryu raw S isTrue sels fs'
            (resolveTypeName S info (some (.obj fs')) parent) with
        | error e => simp [hc, Except.map] at hj
        | ok r =>
          cases r with
          | none => simp [hc, Except.map] at hj
          | some ms =>
            simp only [hc, Except.map, Option.map_some, Except.ok.injEq, Option.some.injEq] at hj
            subst hj
            refine ⟨by simp, by simp, ?_⟩
            rintro ms' ⟨⟩
            cases hs with
            | obj _ hs => exact completeFields_respects ryu raw S isTrue sels fs' _ ms hs hc

theorem completeFields_respects (ryu : Nat → List Char) (raw : String → Json) (S : Schema)
    (isTrue : String → Bool) : ∀ (ps : List Plan) (fs : Fields) (parent : TypeName)
      (ms : List (List Char × Json)), (∀ kv ∈ fs, Structured kv.2) →
      completeFields ryu raw S isTrue ps fs parent = .ok (some ms) → ∀ m ∈ ms, respectedBy ps m
  | [], fs, parent, ms, _, h => by
    rw [completeFields] at h
    simp only [Except.ok.injEq, Option.some.injEq] at h
    subst h; simp
  | p :: ps, fs, parent, ms, hfs, h => by
    rw [completeFields] at h
    have hrest := fun ms => completeFields_respects ryu raw S isTrue ps fs parent ms hfs
    -- what remains once the value of the first plan is known
    have fin : ∀ r : Option Json,
        (∀ j, settle p.info.nullability.isNonNull r = some j → p.Respected j) →
        (match settle p.info.nullability.isNonNull r with
          | none => Except.ok none
          | some j => (completeFields ryu raw S isTrue ps fs parent).map
            (Option.map ((p.info.responseKey.toList, j) :: ·))) = .ok (some ms) →
        ∀ m ∈ ms, respectedBy (p :: ps) m := by
      intro r hr h
      cases hst : settle p.info.nullability.isNonNull r with
      | none => simp [hst] at h
      | some j =>
        simp only [hst] at h
        cases hc : completeFields ryu raw S isTrue ps fs parent with
        | error e => simp [hc, Except.map] at h
        | ok r' =>
          cases r' with
          | none => simp [hc, Except.map] at h
          | some ms' =>
            simp only [hc, Except.map, Option.map_some, Except.ok.injEq, Option.some.injEq] at h
            subst h
            intro m hm
            rcases List.mem_cons.1 hm with rfl | hm
            · rw [respectedBy]; exact Or.inl ⟨rfl, hr j hst⟩
            · exact respectedBy_mono (hrest ms' hc m hm)
    cases hv : verdict S isTrue p.info fs parent with
    | error e => simp [hv] at h
    | ok v =>
      cases v with
      | leaveOut =>
        simp only [hv] at h
        exact fun m hm => respectedBy_mono (hrest ms h m hm)
      | writeNull err =>
        simp only [hv] at h
        refine fin none ?_ h
        intro j hst
        cases p with
        | null i => rw [Plan.Respected]; exact respects_settle hst (by simp)
        | leaf i => rw [Plan.Respected]; exact respects_settle hst (by simp)
        | node i s => rw [Plan.Respected]; exact respects_settle hst (by simp)
      | go =>
        simp only [hv] at h
        cases hc : completeField ryu raw S isTrue p fs parent with
        | error e => simp [hc] at h
        | ok r =>
          simp only [hc] at h
          exact fin r (fun j hst => completeField_respects ryu raw S isTrue p fs parent r j hfs hc hst) h
end

/-- **C09** (for data without custom scalars, see `C09_custom_scalar`): whatever the subgraphs
returned, the body the router writes holds no `null` where the types do not allow one, at any
depth, unless the whole of `data` is `null`. -/
theorem C09_nonnull_partial (ryu : Nat → List Char) (hryu : ∀ n, finite n = true → IsNumber (ryu n))
    (raw : String → Json) (S : Schema) (hS : PlainSchema S) (isTrue : String → Bool)
    (data : Value) (hdata : Clean raw data) (hstr : Structured data) (root : String)
    (hroot : Plain root) (plans : List Plan) (hplans : plainKeys plans)
    (body : Buf) (hbody : projectByOperation ryu S isTrue data (fun _ => none) none root plans = .ok body) :
    ∃ d, Denotes body (.obj [("data".toList, d)]) ∧
      (d = .null ∨ ∃ ms, d = .obj ms ∧ ∀ m ∈ ms, respectedBy plans m) := by
  have h := C10_body ryu hryu raw S hS isTrue data hdata root hroot plans hplans (fun _ => none)
    (fun _ => none) (fun _ => trivial) none none trivial
  cases hc : completeData ryu raw S isTrue root plans data with
  | error e => rw [hc] at h; rw [h] at hbody; simp at hbody
  | ok j =>
    rw [hc] at h
    obtain ⟨body', n, h1, h2⟩ := h
    rw [h1] at hbody
    simp only [Except.ok.injEq] at hbody
    subst hbody
    refine ⟨j, h2, ?_⟩
    cases data with
    | obj fs =>
      simp only [completeData] at hc
      cases hf : completeFields ryu raw S isTrue plans fs (.ok root) with
      | error e => simp [hf, Except.map] at hc
      | ok r =>
        cases r with
        | none => simp only [hf, Except.map, Except.ok.injEq] at hc; exact Or.inl hc.symm
        | some ms =>
          simp only [hf, Except.map, Except.ok.injEq] at hc
          refine Or.inr ⟨ms, hc.symm, ?_⟩
          cases hstr with
          | obj _ hs => exact completeFields_respects ryu raw S isTrue plans fs _ ms hs hf
    | null => simp only [completeData, Except.ok.injEq] at hc; exact Or.inl hc.symm
    | f64 n => simp only [completeData, Except.ok.injEq] at hc; exact Or.inl hc.symm
    | i64 n => simp only [completeData, Except.ok.injEq] at hc; exact Or.inl hc.symm
    | u64 n => simp only [completeData, Except.ok.injEq] at hc; exact Or.inl hc.symm
    | bool n => simp only [completeData, Except.ok.injEq] at hc; exact Or.inl hc.symm
    | str n => simp only [completeData, Except.ok.injEq] at hc; exact Or.inl hc.symm
    | raw n => simp only [completeData, Except.ok.injEq] at hc; exact Or.inl hc.symm
    | arr n => simp only [completeData, Except.ok.injEq] at hc; exact Or.inl hc.symm

/-! ### Nothing is nulled for nothing -/

/-- **C09**: an object is given up only because one of its fields may not be `null` and is. -/
theorem C09_object_reason (ryu : Nat → List Char) (raw : String → Json) (S : Schema)
    (isTrue : String → Bool) (ps : List Plan) (fs : Fields) (parent : TypeName)
    (h : completeFields ryu raw S isTrue ps fs parent = .ok none) :
    ∃ p ∈ ps, p.info.nullability.isNonNull = true ∧
      ((verdict S isTrue p.info fs parent = .ok .go ∧
        completeField ryu raw S isTrue p fs parent = .ok none) ∨
       ∃ err, verdict S isTrue p.info fs parent = .ok (.writeNull err)) := by
  induction ps with
  | nil => rw [completeFields] at h; simp at h
  | cons p ps ih =>
    rw [completeFields] at h
    have later : completeFields ryu raw S isTrue ps fs parent = .ok none → _ := fun h =>
      (ih h).imp fun q hq => And.intro (List.mem_cons_of_mem p hq.1) hq.2
    have fin : ∀ r : Option Json,
        (match settle p.info.nullability.isNonNull r with
          | none => Except.ok none
          | some j => (completeFields ryu raw S isTrue ps fs parent).map
            (Option.map ((p.info.responseKey.toList, j) :: ·))) = .ok none →
        (r = none ∧ p.info.nullability.isNonNull = true) ∨
          completeFields ryu raw S isTrue ps fs parent = .ok none := by
      intro r h
      cases hst : settle p.info.nullability.isNonNull r with
      | none =>
        left
        cases r with
        | none => exact ⟨rfl, by simpa [settle] using hst⟩
        | some j => simp [settle] at hst
      | some j =>
        right
        simp only [hst] at h
        cases hc : completeFields ryu raw S isTrue ps fs parent with
        | error e => simp [hc, Except.map] at h
        | ok r' =>
          cases r' with
          | none => rfl
          | some ms => simp [hc, Except.map] at h
    cases hv : verdict S isTrue p.info fs parent with
    | error e => simp [hv] at h
    | ok v =>
      cases v with
      | leaveOut => simp only [hv] at h; exact later h
      | writeNull err =>
        simp only [hv] at h
        rcases fin none h with ⟨_, hn⟩ | h
        · exact ⟨p, by simp, hn, Or.inr ⟨err, hv⟩⟩
        · exact later h
      | go =>
        simp only [hv] at h
        cases hc : completeField ryu raw S isTrue p fs parent with
        | error e => simp [hc] at h
        | ok r =>
          simp only [hc] at h
          rcases fin r h with ⟨rfl, hn⟩ | h
          · exact ⟨p, by simp, hn, Or.inl ⟨hv, hc⟩⟩
          · exact later h

/-- Whether a plan is not left out by its guard and conditions. -/
def kept (S : Schema) (isTrue : String → Bool) (fs : Fields) (parent : TypeName) (p : Plan) : Bool :=
  match verdict S isTrue p.info fs parent with
  | .ok .leaveOut => false
  | _ => true

/-- **C09**: an object that survives has a member for every plan that is not left out by its guard
and conditions, in the order of the plans, and no other. -/
theorem C09_keys (ryu : Nat → List Char) (raw : String → Json) (S : Schema)
    (isTrue : String → Bool) (ps : List Plan) (fs : Fields) (parent : TypeName)
    (ms : List (List Char × Json))
    (h : completeFields ryu raw S isTrue ps fs parent = .ok (some ms)) :
    ms.map (·.1) = (ps.filter (kept S isTrue fs parent)).map (·.info.responseKey.toList) := by
  induction ps generalizing ms with
  | nil => rw [completeFields] at h; simp at h; subst h; rfl
  | cons p ps ih =>
    rw [completeFields] at h
    have fin : ∀ r : Option Json, kept S isTrue fs parent p = true →
        (match settle p.info.nullability.isNonNull r with
          | none => Except.ok none
          | some j => (completeFields ryu raw S isTrue ps fs parent).map
            (Option.map ((p.info.responseKey.toList, j) :: ·))) = .ok (some ms) →
        ms.map (·.1) = ((p :: ps).filter (kept S isTrue fs parent)).map (·.info.responseKey.toList) := by
      intro r hk h
      cases hst : settle p.info.nullability.isNonNull r with
      | none => simp [hst] at h
      | some j =>
        simp only [hst] at h
        cases hc : completeFields ryu raw S isTrue ps fs parent with
        | error e => simp [hc, Except.map] at h
        | ok r' =>
          cases r' with
          | none => simp [hc, Except.map] at h
          | some ms' =>
            simp only [hc, Except.map, Option.map_some, Except.ok.injEq, Option.some.injEq] at h
            subst h
            simp [hk, ih ms' hc]
    cases hv : verdict S isTrue p.info fs parent with
    | error e => simp [hv] at h
    | ok v =>
      cases v with
      | leaveOut =>
        simp only [hv] at h
        have hk : kept S isTrue fs parent p = false := by simp [kept, hv]
        simp [hk, ih ms h]
      | writeNull err =>
        simp only [hv] at h
        exact fin none (by simp [kept, hv]) h
      | go =>
        simp only [hv] at h
        cases hc : completeField ryu raw S isTrue p fs parent with
        | error e => simp [hc] at h
        | ok r =>
          simp only [hc] at h
          exact fin r (by simp [kept, hv]) h

/-- **C09**: a list is given up only because one of its items may not be `null` and is. -/
theorem C09_list_reason (ryu : Nat → List Char) (raw : String → Json)
    (object : Value → Fields → Except Err (Option Json)) (nb : Nullability) (vs : List Value)
    (h : completeValue ryu raw object nb (.arr vs) = .ok none) :
    itemNonNull nb = true ∧ ∃ v ∈ vs, completeValue ryu raw object (itemOf nb) v = .ok none := by
  rw [completeValue] at h
  replace h : completeItems ryu raw object nb vs = .ok none := by
    cases hc : completeItems ryu raw object nb vs with
    | error e => simp [hc, Except.map] at h
    | ok r =>
      cases r with
      | none => rfl
      | some js => simp [hc, Except.map] at h
  induction vs with
  | nil => rw [completeItems] at h; simp at h
  | cons v vs ih =>
    rw [completeItems] at h
    cases hc : completeValue ryu raw object (itemOf nb) v with
    | error e => simp [hc] at h
    | ok r =>
      simp only [hc] at h
      cases hst : settle (itemNonNull nb) r with
      | none =>
        cases r with
        | none => exact ⟨by simpa [settle] using hst, v, by simp, hc⟩
        | some j => simp [settle] at hst
      | some j =>
        simp only [hst] at h
        cases hci : completeItems ryu raw object nb vs with
        | error e => simp [hci, Except.map] at h
        | ok r' =>
          cases r' with
          | none =>
            obtain ⟨h1, w, h2, h3⟩ := ih hci
            exact ⟨h1, w, by simp [h2], h3⟩
          | some js => simp [hci, Except.map] at h

/-! ## Disagreements -/

theorem getKey_one {α : Type} (k : String) (v : α) : getKey [(k, v)] k = some v := by
  rw [getKey_eq_lookup (by unfold SortedKeys; simp)]; simp [lookup]

/-- A plan for a field without conditions. -/
def plainInfo (name : String) (nb : Nullability) : PlanInfo := ⟨name, name, name == "__typename", nb, none, none⟩

/-- A disagreement with C09: the value of a custom scalar is kept as raw text, `null` included
(`subgraph_response.rs:164-167`), so a `null` for a field of type `Scalar!` is written out. -/
theorem C09_custom_scalar (ryu : Nat → List Char) (S : Schema) (isTrue : String → Bool) :
    ∃ body, projectByOperation ryu S isTrue (.obj [("s", .raw "null")]) (fun _ => none) none "Query"
        [.leaf (plainInfo "s" (.leaf true))] = .ok body ∧
      Denotes body (.obj [("data".toList, .obj [("s".toList, .null)])]) ∧
      ¬ respectedBy [.leaf (plainInfo "s" (.leaf true))] ("s".toList, .null) := by
  refine ⟨"{\"data\":{\"s\":null}}".toList, ?_, ?_, ?_⟩
  · simp (decide := true) [projectByOperation, projectPlans, verdict, plainInfo, Plan.info, guardPasses,
      checkOpt, projectPlan, getKey_one, projectValue, serialize, Nullability.isNonNull, finishObject,
      writeKey, bodyMember]
  · have : "{\"data\":{\"s\":null}}".toList = '{' :: commaSep ([(⟨"data".toList, "data".toList,
        '{' :: commaSep ([(⟨"s".toList, "s".toList, ['n', 'u', 'l', 'l'], .null⟩ : Member)].map (·.full)) ++ ['}'],
        .obj [("s".toList, .null)]⟩ : Member)].map (·.full)) ++ ['}'] := by decide
    rw [this]
    refine Denotes.obj _ ?_ ?_
    · intro m hm
      simp only [List.mem_singleton] at hm
      subst hm
      exact plain_body (by unfold Plain; decide)
    · intro m hm
      simp only [List.mem_singleton] at hm
      subst hm
      refine Denotes.obj _ ?_ ?_
      · intro m hm
        simp only [List.mem_singleton] at hm
        subst hm
        exact plain_body (by unfold Plain; decide)
      · intro m hm
        simp only [List.mem_singleton] at hm
        subst hm
        exact .null
  · rw [respectedBy, respectedBy, Plan.Respected]
    rintro (⟨_, h, _⟩ | h)
    · exact absurd (h rfl) (by decide)
    · exact h

/-- The hypotheses of `C10_body` and `C09_nonnull_partial` are met by data with a `null` in a list of
type `[Int!]`, whose completion is `null` for the list. -/
example (ryu : Nat → List Char) (raw : String → Json) (isTrue : String → Bool) :
    let data := Value.obj [("xs", .arr [.i64 1, .null])]
    let plans := [Plan.leaf (plainInfo "xs" (.list false (.leaf true)))]
    Clean raw data ∧ Structured data ∧ Plain "Query" ∧ plainKeys plans ∧ PlainSchema ⟨[], []⟩ ∧
      completeData ryu raw ⟨[], []⟩ isTrue "Query" plans data =
        .ok (.obj [("xs".toList, .null)]) ∧
      completeData ryu raw ⟨[], []⟩ isTrue "Query"
        [Plan.leaf (plainInfo "xs" (.list true (.leaf true)))] data = .ok .null := by
  refine ⟨?_, ?_, ?_, ?_, ?_, ?_, ?_⟩
  · refine .obj _ ?_ ?_
    · intro t h
      rw [getKey_eq_lookup (by unfold SortedKeys; simp)] at h
      simp [lookup] at h
    · intro kv hkv
      simp only [List.mem_singleton] at hkv
      subst hkv
      refine .arr _ ?_
      intro v hv
      simp only [List.mem_cons, List.not_mem_nil, or_false] at hv
      rcases hv with rfl | rfl
      · exact .i64 _
      · exact .null
  · refine .obj _ ?_
    intro kv hkv
    simp only [List.mem_singleton] at hkv
    subst hkv
    refine .arr _ ?_
    intro v hv
    simp only [List.mem_cons, List.not_mem_nil, or_false] at hv
    rcases hv with rfl | rfl
    · exact .i64 _
    · exact .null
  · unfold Plain; decide
  · simp only [plainKeys, Plan.PlainKeys, and_true]; unfold Plain; decide
  · intro t fields f ft h; simp at h
  · simp (decide := true) [completeData, completeFields, verdict, plainInfo, Plan.info, guardPasses,
      checkOpt, completeField, getKey_one, completeValue, completeItems, settle, itemNonNull, itemOf,
      Nullability.isNonNull, Except.map]
  · simp (decide := true) [completeData, completeFields, verdict, plainInfo, Plan.info, guardPasses,
      checkOpt, completeField, getKey_one, completeValue, completeItems, settle, itemNonNull, itemOf,
      Nullability.isNonNull, Except.map]

/-- A disagreement with C10: a type name from a subgraph is written as it is, so it can break out of
its string. Here the client, who asked for `a { __typename }`, is served a member `role`. -/
theorem C10_typename_breaks_out (ryu : Nat → List Char) (S : Schema) (isTrue : String → Bool) :
    ∃ body, projectByOperation ryu S isTrue
        (.obj [("a", .obj [("__typename", .str "A\",\"role\":\"admin")])]) (fun _ => none) none "Query"
        [.node (plainInfo "a" (.leaf false)) [.leaf (plainInfo "__typename" (.leaf true))]] = .ok body ∧
      Denotes body (.obj [("data".toList, .obj [("a".toList,
        .obj [("__typename".toList, .str ['A']), ("role".toList, .str "admin".toList)])])]) := by
  refine ⟨"{\"data\":{\"a\":{\"__typename\":\"A\",\"role\":\"admin\"}}}".toList, ?_, ?_⟩
  · have hk : ∀ k : String, ("a" == k) = false → getKey [("a", Value.null)] k = none ∨ True := fun _ _ => Or.inr trivial
    simp (decide := true) [projectByOperation, projectPlans, verdict, plainInfo, Plan.info, guardPasses,
      checkOpt, projectPlan, getKey_one, projectValue, Nullability.isNonNull, finishObject,
      writeKey, bodyMember, resolveTypeName, ownTypename]
  · have : "{\"data\":{\"a\":{\"__typename\":\"A\",\"role\":\"admin\"}}}".toList =
        '{' :: commaSep ([(⟨"data".toList, "data".toList,
          '{' :: commaSep ([(⟨"a".toList, "a".toList,
            '{' :: commaSep ([(⟨"__typename".toList, "__typename".toList, '"' :: ['A'] ++ ['"'], .str ['A']⟩ : Member),
              ⟨"role".toList, "role".toList, '"' :: "admin".toList ++ ['"'], .str "admin".toList⟩].map (·.full)) ++ ['}'],
            .obj [("__typename".toList, .str ['A']), ("role".toList, .str "admin".toList)]⟩ : Member)].map (·.full)) ++ ['}'],
          .obj [("a".toList, .obj [("__typename".toList, .str ['A']), ("role".toList, .str "admin".toList)])]⟩ : Member)].map
            (·.full)) ++ ['}'] := by decide
    rw [this]
    have hp : ∀ s : String, Plain s → StrBody s.toList s.toList := fun s h => plain_body h
    refine Denotes.obj _ ?_ ?_
    · intro m hm
      simp only [List.mem_singleton] at hm
      subst hm
      exact plain_body (by unfold Plain; decide)
    · intro m hm
      simp only [List.mem_singleton] at hm
      subst hm
      refine Denotes.obj _ ?_ ?_
      · intro m hm
        simp only [List.mem_singleton] at hm
        subst hm
        exact plain_body (by unfold Plain; decide)
      · intro m hm
        simp only [List.mem_singleton] at hm
        subst hm
        refine Denotes.obj _ ?_ ?_
        · intro m hm
          simp only [List.mem_cons, List.not_mem_nil, or_false] at hm
          rcases hm with rfl | rfl
          · exact plain_body (by unfold Plain; decide)
          · exact plain_body (by unfold Plain; decide)
        · intro m hm
          simp only [List.mem_cons, List.not_mem_nil, or_false] at hm
          rcases hm with rfl | rfl
          · exact .str _ _ (.unescaped 'A' (by decide) (by decide) (by decide) .nil)
          · exact .str _ _ (plain_body (by unfold Plain; decide))

end Verif.Projection
