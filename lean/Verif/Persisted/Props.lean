import Verif.Persisted.Ids

/-! # C29: with persisted documents required only stored documents are executed -/

namespace Verif.Persisted

theorem required_prepare {cfg : Config} {req : Request} (h : Required cfg req) {op : Prepared}
    (hd : decode cfg req = .ok op) :
    prepare cfg req =
      match op.id with
      | none => .error .idRequired
      | some _ => resolveQuery cfg { op with params := { op.params with query := none } } := by
  have hs : (cfg.skip req).getD false = false := by
    have := h.noSkip
    cases hk : cfg.skip req with
    | none => rfl
    | some b =>
      cases b with
      | false => rfl
      | true => exact absurd hk this
  unfold prepare
  rw [hd]
  simp only [enforce, h.enabled, h.require, hs]
  cases hid : op.id with
  | none => rfl
  | some id => rfl

theorem decode_of_text {cfg : Config} {req : Request} {t : String} (h : textOf cfg req = .ok t) :
    ∃ op, decode cfg req = .ok op := by
  unfold textOf prepare at h
  cases hd : decode cfg req with
  | error e => rw [hd] at h; cases h
  | ok op => exact ⟨op, rfl⟩

theorem required_text {cfg : Config} {req : Request} (h : Required cfg req) {op : Prepared}
    (hd : decode cfg req = .ok op) :
    textOf cfg req =
      match op.id with
      | none => .error .idRequired
      | some id =>
        match cfg.store with
        | none => .error .internal
        | some store => store id := by
  unfold textOf
  rw [required_prepare h hd]
  cases hid : op.id with
  | none => rfl
  | some id =>
    simp only [resolveQuery, hid]
    cases cfg.store with
    | none => rfl
    | some store =>
      cases hs : store id with
      | error e => simp only [hs]
      | ok t => simp only [hs]

/-- The text that is executed is the one the store has for the id of the request. -/
theorem C29_stored (cfg : Config) (req : Request) (hr : Regular cfg req)
    (hg : ∀ s ∈ cfg.selectors, GoodSelector s) (h : Required cfg req) (t : String)
    (ht : textOf cfg req = .ok t) :
    ∃ id store, HasId cfg req id ∧ cfg.store = some store ∧ store id = .ok t := by
  obtain ⟨op, hd⟩ := decode_of_text ht
  rw [required_text h hd] at ht
  cases hid : op.id with
  | none => rw [hid] at ht; cases ht
  | some id =>
    rw [hid] at ht
    cases hs : cfg.store with
    | none => rw [hs] at ht; cases ht
    | some store =>
      rw [hs] at ht
      exact ⟨id, store, (decode_id cfg req hr h.enabled hg op hd id).1 hid, rfl, ht⟩

/-- And a request with an id gets what the store says, whether that is a text or an error. -/
theorem C29_served (cfg : Config) (req : Request) (hr : Regular cfg req)
    (hg : ∀ s ∈ cfg.selectors, GoodSelector s) (h : Required cfg req) (op : Prepared)
    (hd : decode cfg req = .ok op) (id : String) (hid : HasId cfg req id)
    (store : String → Except Err String) (hs : cfg.store = some store) :
    textOf cfg req = store id := by
  rw [required_text h hd, (decode_id cfg req hr h.enabled hg op hd id).2 hid]
  simp only [hs]

/-- A request without an id is rejected, whatever text it has. -/
theorem C29_no_id (cfg : Config) (req : Request) (hr : Regular cfg req)
    (hg : ∀ s ∈ cfg.selectors, GoodSelector s) (h : Required cfg req)
    (hid : ∀ id, ¬ HasId cfg req id) :
    (∀ t, textOf cfg req ≠ .ok t) ∧
      ∀ op, decode cfg req = .ok op → textOf cfg req = .error .idRequired := by
  refine ⟨fun t ht => ?_, fun op hd => ?_⟩
  · obtain ⟨id, _, hi, _⟩ := C29_stored cfg req hr hg h t ht
    exact hid id hi
  · rw [required_text h hd]
    cases ho : op.id with
    | none => rfl
    | some id => exact absurd ((decode_id cfg req hr h.enabled hg op hd id).1 ho) (hid id)

/-- A request has at most one id. -/
theorem C29_unique (cfg : Config) (req : Request) (hr : Regular cfg req) (hen : cfg.enabled = true)
    (hg : ∀ s ∈ cfg.selectors, GoodSelector s) (op : Prepared) (hd : decode cfg req = .ok op)
    (i j : String) (hi : HasId cfg req i) (hj : HasId cfg req j) : i = j := by
  have h1 := (decode_id cfg req hr hen hg op hd i).2 hi
  have h2 := (decode_id cfg req hr hen hg op hd j).2 hj
  rw [h1] at h2
  exact Option.some.inj h2

/-! ## The text sent by the client -/

/-- The body with another text as its `query`. -/
def withQuery (t : String) : Value → Value
  | .obj fs => .obj (fs.map fun kv =>
      if kv.1 = "query" then
        match kv.2 with
        | .str _ => (kv.1, .str t)
        | v => (kv.1, v)
      else kv)
  | v => v

/-- The request with another text. -/
def Request.withQuery (req : Request) (t : String) : Request :=
  { req with
    body := req.body.map (Persisted.withQuery t)
    get := req.get.map (fun g => { g with query := g.query.map fun _ => t })
    ws := req.ws.map (fun p => { p with query := p.query.map fun _ => t }) }

theorem field_withQuery (t : String) (p : PostInput) (k : String) (v : Value) :
    PostInput.field { p with query := p.query.map fun _ => t }
        (if k = "query" then match v with | .str _ => (k, Value.str t) | v => (k, v) else (k, v)).1
        (if k = "query" then match v with | .str _ => (k, Value.str t) | v => (k, v) else (k, v)).2 =
      (p.field k v).map fun p' => { p' with query := p'.query.map fun _ => t } := by
  by_cases hk : k = "query"
  · subst hk
    rw [if_pos rfl]
    obtain ⟨q, o, vs, e, d, x⟩ := p
    cases v <;> cases q <;> simp [PostInput.field, once, asString]
  · rw [if_neg hk]
    simp only [PostInput.field, if_neg hk]
    split
    · cases once p.operationName asString v <;> rfl
    · split
      · cases once p.variables asMap v <;> rfl
      · split
        · cases once p.extensions asMap v <;> rfl
        · split
          · cases once p.documentId asId v <;> rfl
          · cases hx : p.extra <;> simp [hx]

theorem fields_withQuery (t : String) : ∀ (fs : Fields) (p : PostInput),
    PostInput.fields { p with query := p.query.map fun _ => t }
        (fs.map fun kv => if kv.1 = "query" then
          match kv.2 with
          | .str _ => (kv.1, .str t)
          | v => (kv.1, v) else kv) =
      (PostInput.fields p fs).map fun p' => { p' with query := p'.query.map fun _ => t }
  | [], p => rfl
  | (k, v) :: fs, p => by
    have h := field_withQuery t p k v
    rw [List.map_cons]
    generalize hkv : (if (k, v).1 = "query" then
          match (k, v).2 with
          | .str _ => ((k, v).1, Value.str t)
          | v => ((k, v).1, v) else (k, v)) = kv
    have h' : PostInput.field { p with query := p.query.map fun _ => t } kv.1 kv.2 =
        (p.field k v).map fun p' => { p' with query := p'.query.map fun _ => t } := by
      rw [← h, ← hkv]
    obtain ⟨k', v'⟩ := kv
    simp only [PostInput.fields]
    rw [h']
    cases hp : p.field k v with
    | none => rfl
    | some q => exact fields_withQuery t fs q

theorem visit_withQuery (c : Bool) (t : String) (v : Value) :
    visit c (withQuery t v) = (visit c v).map fun p' => { p' with query := p'.query.map fun _ => t } := by
  cases v with
  | obj fs => exact fields_withQuery t fs { extra := if c then some [] else none }
  | _ => rfl

/-- Only the text changes when a request is decoded. -/
def Same : Except Err Prepared → Except Err Prepared → Prop
  | .ok a, .ok b => a.id = b.id
  | .error a, .error b => a = b
  | _, _ => False

theorem decode_withQuery (cfg : Config) (req : Request) (t : String) :
    Same (decode cfg req) (decode cfg (req.withQuery t)) := by
  obtain ⟨method, path, rawQuery, jsonContent, get, body, ws⟩ := req
  unfold decode Request.withQuery
  cases ws with
  | some p => exact rfl
  | none =>
    simp only [Option.map_none]
    cases method with
    | other => exact rfl
    | get =>
      dsimp only
      simp only [decodeGet]
      cases rawQuery with
      | none =>
        simp only [Option.isNone_none, if_true]
        exact rfl
      | some q =>
        simp only [Option.isNone_some, Bool.false_eq_true, if_false]
        cases get with
        | none => exact rfl
        | some g =>
          simp only [Option.map_some]
          cases getJson cfg.json g.variables with
          | none => exact rfl
          | some vs =>
            dsimp only
            cases getJson cfg.json g.extensions with
            | none => exact rfl
            | some es => exact rfl
    | post =>
      dsimp only
      simp only [decodePost]
      split
      · exact rfl
      · cases body with
        | none => exact rfl
        | some v =>
          simp only [Option.bind_some, Option.map_some]
          rw [visit_withQuery]
          cases visit (cfg.enabled && cfg.selectors.any Selector.needsExtra) v with
          | none => exact rfl
          | some p => exact rfl

/-- What a client sends as its text makes no difference, in a body, a URL that is decoded by the
library, or an operation of a WebSocket. -/
theorem C29_query_ignored (cfg : Config) (req : Request) (t : String) (h : Required cfg req)
    (h' : Required cfg (req.withQuery t)) : textOf cfg (req.withQuery t) = textOf cfg req := by
  have hs := decode_withQuery cfg req t
  cases hd : decode cfg req with
  | error e =>
    cases hd' : decode cfg (req.withQuery t) with
    | error e' =>
      rw [hd, hd'] at hs
      cases hs
      simp only [textOf, prepare, hd, hd']
    | ok op' =>
      rw [hd, hd'] at hs
      cases hs
  | ok op =>
    cases hd' : decode cfg (req.withQuery t) with
    | error e' =>
      rw [hd, hd'] at hs
      cases hs
    | ok op' =>
      rw [hd, hd'] at hs
      rw [required_text h hd, required_text h' hd', show op'.id = op.id from (hs : op.id = op'.id).symm]

/-- Without the requirement a text of the client wins, and the store is not asked. -/
theorem C29_optional (cfg : Config) (req : Request) (op : Prepared) (hd : decode cfg req = .ok op)
    (hreq : cfg.requireId req = .ok false ∨ cfg.enabled = false) (q : String)
    (hq : op.params.query = some q) : textOf cfg req = .ok q := by
  unfold textOf prepare
  rw [hd]
  simp only [enforce]
  cases hen : cfg.enabled with
  | false => simp [hq]
  | true =>
    rcases hreq with h | h
    · simp [h, hq]
    · rw [hen] at h; cases h

/-- An error of the expression is an error of the request. -/
theorem C29_expression_error (cfg : Config) (req : Request) (hen : cfg.enabled = true) (e : Err)
    (h : cfg.requireId req = .error e) (t : String) : textOf cfg req ≠ .ok t := by
  intro ht
  obtain ⟨op, hd⟩ := decode_of_text ht
  unfold textOf prepare at ht
  rw [hd] at ht
  simp only [enforce, hen, h] at ht
  cases ht

/-! ## Ids in URLs -/

/-- Upper case digits. -/
def digit (n : UInt8) : UInt8 := if n < 10 then n + 48 else n + 55

/-- `%XX` for every byte. -/
def percentEncode (b : Bytes) : Bytes :=
  b.flatMap fun c => [37, digit (c / 16), digit (c % 16)]

theorem hex_digit : ∀ n : UInt8, n < 16 → hex (digit n) = some n := by
  have h : ∀ f : Fin 256, (⟨⟨f⟩⟩ : UInt8) < 16 → hex (digit ⟨⟨f⟩⟩) = some ⟨⟨f⟩⟩ := by decide +kernel
  exact fun ⟨⟨f⟩⟩ => h f

theorem byte_parts : ∀ c : UInt8, c / 16 < 16 ∧ c % 16 < 16 ∧ c / 16 * 16 + c % 16 = c := by
  have h : ∀ f : Fin 256, (⟨⟨f⟩⟩ : UInt8) / 16 < 16 ∧ (⟨⟨f⟩⟩ : UInt8) % 16 < 16 ∧
      (⟨⟨f⟩⟩ : UInt8) / 16 * 16 + ⟨⟨f⟩⟩ % 16 = ⟨⟨f⟩⟩ := by decide +kernel
  exact fun ⟨⟨f⟩⟩ => h f

/-- An id that is percent-encoded arrives as it was. -/
theorem C29_percent : ∀ b : Bytes, percentDecode (percentEncode b) = b
  | [] => by simp [percentEncode, percentDecode]
  | c :: b => by
    obtain ⟨h1, h2, h3⟩ := byte_parts c
    have : percentEncode (c :: b) = 37 :: digit (c / 16) :: digit (c % 16) :: percentEncode b := rfl
    rw [this, percentDecode, hex_digit _ h1, hex_digit _ h2]
    simp only [h3]
    rw [C29_percent b]

/-- So does one with bytes that need no escape. -/
theorem C29_percent_plain : ∀ b : Bytes, (37 : UInt8) ∉ b → percentDecode b = b :=
  fun b h => percentDecode_plain _ b (Nat.le_refl _) h

/-! ## Ids of the Hive CDN -/

theorem takeWhile_dropWhile_tilde (s : List Char) :
    '~' ∉ s.takeWhile (· ≠ '~') ∧
      ((s.dropWhile (· ≠ '~') = [] ∧ s.takeWhile (· ≠ '~') = s) ∨
        ∃ r, s.dropWhile (· ≠ '~') = '~' :: r ∧ s = s.takeWhile (· ≠ '~') ++ '~' :: r) := by
  induction s with
  | nil => simp
  | cons c s ih =>
    by_cases hc : c = '~'
    · subst hc
      simp
    · obtain ⟨h1, h2⟩ := ih
      have e1 : (c :: s).takeWhile (· ≠ '~') = c :: s.takeWhile (· ≠ '~') := by simp [hc]
      have e2 : (c :: s).dropWhile (· ≠ '~') = s.dropWhile (· ≠ '~') := by simp [hc]
      rw [e1, e2]
      refine ⟨?_, ?_⟩
      · intro h
        rcases List.mem_cons.1 h with h | h
        · exact hc h.symm
        · exact h1 h
      · rcases h2 with ⟨h2, h3⟩ | ⟨r, h2, h3⟩
        · exact .inl ⟨h2, by rw [h3]⟩
        · exact .inr ⟨r, h2, by rw [List.cons_append, ← h3]⟩

theorem split_unique {a b r s : List Char} (ha : '~' ∉ a) (hb : '~' ∉ b)
    (h : a ++ '~' :: r = b ++ '~' :: s) : a = b ∧ r = s := by
  induction a generalizing b with
  | nil =>
    cases b with
    | nil => simpa using h
    | cons c b =>
      simp only [List.nil_append, List.cons_append, List.cons.injEq] at h
      exact absurd (by rw [h.1]; exact List.mem_cons_self) hb
  | cons c a ih =>
    cases b with
    | nil =>
      simp only [List.nil_append, List.cons_append, List.cons.injEq] at h
      exact absurd (by rw [← h.1]; exact List.mem_cons_self) ha
    | cons d b =>
      simp only [List.cons_append, List.cons.injEq] at h
      obtain ⟨h1, h2⟩ := ih (fun hm => ha (List.mem_cons_of_mem _ hm))
        (fun hm => hb (List.mem_cons_of_mem _ hm)) h.2
      exact ⟨by rw [h.1, h1], h2⟩

/-- Which ids are whole ids, which are ids of the client's app, and that the others are errors. -/
theorem C29_hive_syntax (s : List Char) :
    (isAppId s = .ok true ↔ AppForm s) ∧ (isAppId s = .ok false ↔ '~' ∉ s) := by
  obtain ⟨h1, h2⟩ := takeWhile_dropWhile_tilde s
  unfold isAppId
  rcases h2 with ⟨h2, h3⟩ | ⟨r, h2, h3⟩
  · rw [h3] at h1
    rw [h2]
    refine ⟨⟨(fun h => by cases h), ?_⟩, by simp [h1]⟩
    rintro ⟨a, b, c, rfl, _⟩
    exact absurd (by simp) h1
  · rw [h2]
    dsimp only
    have hin : '~' ∈ s := by rw [h3]; simp
    generalize s.takeWhile (· ≠ '~') = a at h1 h3 ⊢
    subst h3
    have key : AppForm (a ++ '~' :: r) ↔ a ≠ [] ∧ ∃ b c : List Char, r = b ++ '~' :: c ∧ b ≠ [] ∧ c ≠ [] ∧
        '~' ∉ b ∧ '~' ∉ c := by
      constructor
      · rintro ⟨a', b, c, he, ha, hb, hc, ta, tb, tc⟩
        obtain ⟨rfl, rfl⟩ := split_unique h1 ta he
        exact ⟨ha, b, c, rfl, hb, hc, tb, tc⟩
      · rintro ⟨ha, b, c, rfl, hb, hc, tb, tc⟩
        exact ⟨a, b, c, rfl, ha, hb, hc, h1, tb, tc⟩
    rw [key]
    by_cases ha : a = []
    · simp [ha]
    rw [if_neg ha]
    obtain ⟨k1, k2⟩ := takeWhile_dropWhile_tilde r
    rcases k2 with ⟨k2, k3⟩ | ⟨r2, k2, k3⟩
    · rw [k3] at k1
      rw [k2]
      refine ⟨⟨(fun h => by cases h), ?_⟩, by simp⟩
      rintro ⟨_, b, c, rfl, _⟩
      exact absurd (by simp) k1
    · rw [k2]
      dsimp only
      generalize r.takeWhile (· ≠ '~') = b at k1 k3 ⊢
      subst k3
      by_cases hb : b = []
      · rw [if_pos hb]
        refine ⟨⟨(fun h => by cases h), ?_⟩, by simp⟩
        rintro ⟨_, b', c, he, hb', _, tb, _⟩
        obtain ⟨rfl, _⟩ := split_unique k1 tb he
        exact absurd hb hb'
      rw [if_neg hb]
      have key2 : (∃ b' c : List Char, b ++ '~' :: r2 = b' ++ '~' :: c ∧ b' ≠ [] ∧ c ≠ [] ∧
          '~' ∉ b' ∧ '~' ∉ c) ↔ r2 ≠ [] ∧ '~' ∉ r2 := by
        constructor
        · rintro ⟨b', c, he, _, hc, tb, tc⟩
          obtain ⟨rfl, rfl⟩ := split_unique k1 tb he
          exact ⟨hc, tc⟩
        · rintro ⟨hc, tc⟩
          exact ⟨b, r2, rfl, hb, hc, k1, tc⟩
      rw [key2]
      by_cases hc : r2 = []
      · simp [hc]
      rw [if_neg hc]
      by_cases ht : '~' ∈ r2
      · simp [ht]
      · simp [ht, ha, hc]

/-- Two clients whose names and versions are sensible never get each other's documents: the id that
is asked for tells the app, the version and the id. -/
theorem C29_hive_injective (n v n' v' i i' : List Char) (hn : '~' ∉ n) (hv : '~' ∉ v) (hn' : '~' ∉ n')
    (hv' : '~' ∉ v') (hi : '~' ∉ i) (hi' : '~' ∉ i') (r : List Char)
    (h : appId (some n) (some v) i = .ok r) (h' : appId (some n') (some v') i' = .ok r) :
    n = n' ∧ v = v' ∧ i = i' := by
  unfold appId at h h'
  rw [(C29_hive_syntax i).2.2 hi] at h
  rw [(C29_hive_syntax i').2.2 hi'] at h'
  simp only [Except.ok.injEq, List.append_assoc, List.cons_append] at h h'
  rw [← h'] at h
  obtain ⟨h1, h2⟩ := split_unique hn hn' h
  obtain ⟨h2, h3⟩ := split_unique hv hv' h2
  exact ⟨h1, h2, h3⟩

/-- It is a whole id again if nothing is empty. -/
theorem C29_hive_form (n v i r : List Char) (hn : '~' ∉ n) (hv : '~' ∉ v) (hne : n ≠ []) (hve : v ≠ [])
    (hie : i ≠ []) (h : appId (some n) (some v) i = .ok r) : AppForm r := by
  unfold appId at h
  cases hs : isAppId i with
  | error e => rw [hs] at h; cases h
  | ok b =>
    rw [hs] at h
    cases b with
    | true =>
      simp only [Except.ok.injEq] at h
      subst h
      exact (C29_hive_syntax i).1.1 hs
    | false =>
      simp only [Except.ok.injEq] at h
      subst h
      exact ⟨n, v, i, by simp, hne, hve, hie, hn, hv, (C29_hive_syntax i).2.1 hs⟩

/-- The name and version are headers of the client, and are not checked: a `~` in one of them gives
the id of another app. -/
theorem C29_hive_collision :
    appId (some "a~b".toList) (some "c".toList) "d".toList =
        appId (some "a".toList) (some "b~c".toList) "d".toList ∧
      ∃ r, appId (some "a~b".toList) (some "c".toList) "d".toList = .ok r :=
  ⟨rfl, _, rfl⟩

/-- A client that sends one of the two headers gets an error. -/
theorem C29_hive_partial (n : List Char) (i : List Char) (hi : '~' ∉ i) :
    appId (some n) none i = .error .identityPartial ∧ appId none (some n) i = .error .identityPartial ∧
      appId none none i = .error .identityMissing := by
  unfold appId
  rw [(C29_hive_syntax i).2.2 hi]
  exact ⟨rfl, rfl, rfl⟩

theorem fetch_ok : ∀ {answers : List Answer} {last : HiveErr} {t : String},
    fetch last answers = .ok t → Answer.document t ∈ answers
  | [], _, _, h => by cases h
  | .document u :: _, _, t, h => by
    simp only [fetch, Except.ok.injEq] at h
    subst h
    exact List.mem_cons_self
  | .status _ :: _, _, _, h => List.mem_cons_of_mem _ (fetch_ok h)
  | .failed :: _, _, _, h => List.mem_cons_of_mem _ (fetch_ok h)

/-- What the endpoints say, by id; any text they have ever given for an id. -/
def Manager.Sound (Given : List Char → String → Prop) (m : Manager) : Prop :=
  ∀ kv ∈ m.cache, Given kv.1 kv.2

/-- A history in which the endpoints only answer what they are given. -/
inductive Manager.History (Given : List Char → String → Prop) : Manager → Prop
  | start (b : Bool) : History Given ⟨[], [], b⟩
  | resolve (m : Manager) (id : List Char) (answers : List Answer) : History Given m →
      (∀ t, Answer.document t ∈ answers → Given id t) → History Given (m.resolve id answers).1
  | evict (m : Manager) (c : List (List Char × String)) (n : List (List Char)) : History Given m →
      c ⊆ m.cache → n ⊆ m.negative → History Given { m with cache := c, negative := n }

theorem resolve_sound {Given : List Char → String → Prop} {m : Manager} (hm : m.Sound Given)
    {id : List Char} {answers : List Answer} (ha : ∀ t, Answer.document t ∈ answers → Given id t) :
    (m.resolve id answers).1.Sound Given ∧
      ∀ t, (m.resolve id answers).2 = .ok t → Given id t := by
  unfold Manager.resolve
  split
  · exact ⟨hm, fun t h => by cases h⟩
  · split
    · rename_i kv hf
      refine ⟨hm, fun t h => ?_⟩
      simp only [Except.ok.injEq] at h
      subst h
      have h1 := List.mem_of_find?_eq_some hf
      have h2 := List.find?_some hf
      simp only [beq_iff_eq] at h2
      rw [← h2]
      exact hm kv h1
    · split
      · rename_i t ht
        refine ⟨?_, fun u h => ?_⟩
        · intro kv hkv
          rcases List.mem_cons.1 hkv with rfl | hkv
          · exact ha t (fetch_ok ht)
          · exact hm kv hkv
        · simp only [Except.ok.injEq] at h
          subst h
          exact ha t (fetch_ok ht)
      · split
        · exact ⟨hm, fun t h => by cases h⟩
        · exact ⟨hm, fun t h => by cases h⟩

/-- In every history of requests, evictions and failures, a text that is executed for an id was given
by an endpoint for that id. -/
theorem C29_hive_text (Given : List Char → String → Prop) (m : Manager) (h : m.History Given)
    (id : List Char) (answers : List Answer) (ha : ∀ t, Answer.document t ∈ answers → Given id t)
    (t : String) : (m.resolve id answers).2 = .ok t → Given id t := by
  have hs : m.Sound Given := by
    induction h with
    | start b => intro kv hkv; cases hkv
    | resolve m id answers _ ha ih => exact (resolve_sound ih ha).1
    | evict m c n _ hc _ ih => exact fun kv hkv => ih kv (hc hkv)
  exact (resolve_sound hs ha).2 t

/-- But an endpoint that has failed is not told from one that has no document, and the failure is
remembered: the document is not found although the endpoint has it by then. -/
theorem C29_hive_unavailable (id : List Char) (t : String) (n : Nat) :
    let m : Manager := ⟨[], [], true⟩
    (m.resolve id [.status n]).2 = .error .notFound ∧
      ((m.resolve id [.status n]).1.resolve id [.document t]).2 = .error .notFound := by
  simp [Manager.resolve, fetch]

/-- An endpoint that fails is passed over. -/
theorem C29_hive_fallback (m : Manager) (id : List Char) (pre post : List Answer) (t : String)
    (hc : ∀ kv ∈ m.cache, kv.1 ≠ id) (hn : id ∉ m.negative)
    (hpre : ∀ a ∈ pre, ∀ u, a ≠ .document u) :
    (m.resolve id (pre ++ .document t :: post)).2 = .ok t := by
  have hf : ∀ last, fetch last (pre ++ .document t :: post) = .ok t := by
    induction pre with
    | nil => intro last; rfl
    | cons a pre ih =>
      intro last
      cases a with
      | document u => exact absurd rfl (hpre _ List.mem_cons_self u)
      | status n => exact ih (fun a ha => hpre a (List.mem_cons_of_mem _ ha)) _
      | failed => exact ih (fun a ha => hpre a (List.mem_cons_of_mem _ ha)) _
  unfold Manager.resolve
  rw [if_neg (by simp [hn])]
  have : (m.cache.find? fun kv => kv.1 == id) = none := by
    rw [List.find?_eq_none]
    intro kv hkv
    simpa using hc kv hkv
  rw [this]
  dsimp only
  rw [hf]

/-! ## Examples -/

/-- A store with one document. -/
def exStore : String → Except Err String := fun id => if id = "abc" then .ok "{ me }" else .error .notFound

/-- Three selectors. -/
def exCfg : Config :=
  { enabled := true
    selectors := [.jsonPath ["documentId"], .jsonPath ["extensions", "id"], .jsonPath ["doc", "id"]]
    endpoint := []
    requireId := fun _ => .ok true
    skip := fun _ => none
    store := some exStore
    json := fun _ => none
    utf8 := fun _ => none }

/-- A body with a text and an id in two places. -/
def exReq : Request :=
  { method := .post
    path := [47]
    rawQuery := none
    jsonContent := true
    get := none
    body := some (.obj [("query", .str "{ secrets }"),
      ("doc", .obj [("id", .str "abc")]), ("documentId", .str "")]) }

example : Required exCfg exReq := ⟨rfl, rfl, by simp [exCfg]⟩

example : Required exCfg (exReq.withQuery "{ more }") := ⟨rfl, rfl, by simp [exCfg]⟩

theorem exRegular : Regular exCfg exReq := by
  refine ⟨?_, ?_, ?_⟩
  · intro v h
    simp only [exReq, Option.some.injEq] at h
    subst h
    refine .obj (by decide) ?_
    intro kv hkv
    simp only [List.mem_cons, List.not_mem_nil, or_false] at hkv
    rcases hkv with rfl | rfl | rfl
    · exact .str _
    · refine .obj (by decide) ?_
      intro kv hkv
      simp only [List.mem_cons, List.not_mem_nil, or_false] at hkv
      subst hkv
      exact .str _
    · exact .str _
  · intro s v h; cases h
  · intro p fs h; cases h

theorem exGood : ∀ s ∈ exCfg.selectors, GoodSelector s := by
  intro s hs
  simp only [exCfg, List.mem_cons, List.not_mem_nil, or_false] at hs
  rcases hs with rfl | rfl | rfl <;> simp [GoodSelector]

example : textOf exCfg exReq = .ok "{ me }" := by rfl

example : textOf exCfg (exReq.withQuery "{ more }") = .ok "{ me }" := by rfl

example : textOf exCfg { exReq with body := some (.obj [("query", .str "{ me }")]) } = .error .idRequired := by
  rfl

example : HasId exCfg exReq "abc" := by
  exact (decode_id exCfg exReq exRegular rfl exGood _ rfl "abc").1 rfl

end Verif.Persisted
