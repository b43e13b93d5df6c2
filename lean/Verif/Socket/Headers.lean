import Mathlib.Data.List.Perm.Basic

/-!
# The headers of operations over WebSocket (C96)

Models the part of `handle_text_frame` that gathers the headers of an operation
(`bin/router/src/pipeline/websocket_server.rs`:314-353) and `parse_headers_from_object`,
`parse_headers_from_connection_init_payload`, `parse_headers_from_extensions` (812-874), with
`WebSocketHeadersConfig` (`bin/router/src/config/websocket.rs`:31-122).
-/

namespace Verif.Socket.Headers

/-- A JSON value that can be the value of a header, or not (`other`: null, arrays, objects). A number is given by its
text. -/
inductive Json
  | str (s : String)
  | bool (b : Bool)
  | num (text : String)
  | other
deriving DecidableEq, Repr

/-- A field of a payload or of the extensions: an object of values, or any other value. What is inside of objects
inside of an object is never looked at. -/
inductive Field
  | plain (v : Json)
  | obj (fs : List (String × Json))
deriving DecidableEq, Repr

/-- A payload: the fields in the order in which the map yields them. -/
abbrev Fields := List (String × Field)

/-- Headers, by name. -/
abbrev Map := List (String × String)

/-- The characters that the name of a header may have (RFC 9110, `token`). -/
def tokenChar (c : Char) : Bool :=
  c.isAlphanum || "!#$%&'*+-.^_`|~".toList.contains c

/-- `HeaderName::try_from`: names are kept in lower case. -/
def headerName (s : String) : Option String :=
  if s.toList.isEmpty || !s.toList.all tokenChar then none else some (String.ofList (s.toList.map Char.toLower))

/-- The characters that `HeaderValue::try_from` accepts. -/
def valueChar (c : Char) : Bool := c == '\t' || (c.val ≥ 32 && c.val != 127)

/-- The characters that `HeaderValue::to_str` accepts. -/
def visibleChar (c : Char) : Bool := c == '\t' || (c.val ≥ 32 && c.val < 127)

/-- The value of a header (websocket_server.rs:819-832). -/
def headerValue : Json → Option String
  | .str s => if s.toList.all valueChar then some s else none
  | .bool b => some (if b then "true" else "false")
  | .num t => some t
  | .other => none

/-- `HeaderMap::insert`. -/
def insert (m : Map) (n v : String) : Map := (n, v) :: m.filter (fun e => !(e.1 == n))

/-- `HeaderMap::get`. -/
def get (m : Map) (n : String) : Option String := (m.find? (fun e => e.1 == n)).map (·.2)

/-- One turn of the loop of `parse_headers_from_object` (websocket_server.rs:815-835). -/
def parseOne (m : Map) (e : String × Json) : Map :=
  match headerName e.1 with
  | none => m
  | some n =>
    match headerValue e.2 with
    | none => m
    | some v => insert m n v

/-- `parse_headers_from_object` (websocket_server.rs:812-839). -/
def parseObject (fs : List (String × Json)) : Map := fs.foldl parseOne []

/-- A field as the value of a header: objects are ignored. -/
def Field.json : Field → Json
  | .plain v => v
  | .obj _ => .other

/-- `HashMap::get`. -/
def field (fs : Fields) (k : String) : Option Field := (fs.find? (fun e => e.1 == k)).map (·.2)

/-- The object that the headers of a payload are read from: its field `headers` where that is an object, else the
payload. -/
def initObject (fs : Fields) : List (String × Json) :=
  match field fs "headers" with
  | some (.obj o) => o
  | _ => fs.map (fun e => (e.1, e.2.json))

/-- `parse_headers_from_connection_init_payload` (websocket_server.rs:841-863). -/
def initHeaders : Option Fields → Map
  | none => []
  | some fs => parseObject (initObject fs)

/-- The object that the headers of an operation are read from. -/
def extObject : Option Fields → List (String × Json)
  | none => []
  | some fs =>
    match field fs "headers" with
    | some (.obj o) => o
    | _ => []

/-- `parse_headers_from_extensions` (websocket_server.rs:865-875). -/
def extHeaders (ext : Option Fields) : Map := parseObject (extObject ext)

/-- `WebSocketHeadersSource` (config/websocket.rs:33-79). -/
inductive Source
  | none
  | connection
  | operation
  | both
deriving DecidableEq, Repr

/-- `WebSocketHeadersConfig` (config/websocket.rs:81-104). -/
structure Config where
  source : Source
  persist : Bool
deriving DecidableEq, Repr

/-- `accepts_connection_headers` (config/websocket.rs:107-112). -/
def Config.connection (c : Config) : Bool := c.source == .connection || c.source == .both

/-- `accepts_operation_headers` (config/websocket.rs:113-118). -/
def Config.operation (c : Config) : Bool := c.source == .operation || c.source == .both

/-- The headers of an operation (websocket_server.rs:316-334). -/
def headers (c : Config) (init ext : Option Fields) : Map :=
  (if c.operation then extHeaders ext else []).foldl (fun m e => insert m e.1 e.2)
    (if c.connection then initHeaders init else [])

/-- `HashMap::insert`. -/
def putField (fs : Fields) (k : String) (v : Field) : Fields :=
  if fs.any (fun e => e.1 == k) then fs.map (fun e => if e.1 == k then (k, v) else e) else fs ++ [(k, v)]

/-- Keeping the headers of an operation in the payload of the connection (websocket_server.rs:342-353). -/
def keep (fs : Fields) (m : Map) : Fields :=
  m.foldl (fun fs e => if e.2.toList.all visibleChar then putField fs e.1 (.plain (.str e.2)) else fs) fs

/-- The payload after an operation. -/
def kept (c : Config) (init ext : Option Fields) : Option Fields :=
  if c.persist then init.map (fun fs => keep fs (headers c init ext)) else init

/-- The operations of a connection, each with its extensions and the headers that it gets. The payload is a hash map:
for each operation its fields may come in another order. -/
inductive Session (c : Config) : Option Fields → List (Option Fields × Map) → Prop
  | nil {p} : Session c p []
  | bare {ext ops} : Session c none ops → Session c none ((ext, headers c none ext) :: ops)
  | cons {fs fs1 ext ops} : fs1.Perm fs → Session c (kept c (some fs1) ext) ops →
      Session c (some fs) ((ext, headers c (some fs1) ext) :: ops)

/-! ### Specification -/

/-- An object gives the value `v` for the header `n`. -/
def Gives (o : List (String × Json)) (n v : String) : Prop :=
  ∃ k x, (k, x) ∈ o ∧ headerName k = some n ∧ headerValue x = some v

/-- What an operation may get for the header `n`: a value that its extensions give, where they count and give one,
else a value that the payload of the connection gives, where it counts, else nothing. -/
def Right (c : Config) (init ext : Option Fields) (n : String) (r : Option String) : Prop :=
  let byExt := fun v => c.operation = true ∧ Gives (extObject ext) n v
  let byInit := fun v => c.connection = true ∧ ∃ fs, init = some fs ∧ Gives (initObject fs) n v
  match r with
  | some v => byExt v ∨ ((∀ w, ¬ byExt w) ∧ byInit v)
  | none => (∀ w, ¬ byExt w) ∧ ∀ w, ¬ byInit w

/-! ### Lemmas -/

theorem get_insert (m : Map) (n v k : String) : get (insert m n v) k = if n = k then some v else get m k := by
  unfold get insert
  by_cases e : n = k
  · subst e; simp
  · rw [List.find?_cons_of_neg (by simpa using e), if_neg e]
    congr 1
    induction m with
    | nil => rfl
    | cons a m ih =>
      by_cases ha : a.1 = n
      · have : ¬ a.1 = k := fun h => e (ha ▸ h)
        rw [List.filter_cons_of_neg (by simp [ha]), List.find?_cons_of_neg (by simpa using this)]
        exact ih
      · rw [List.filter_cons_of_pos (by simp [ha])]
        by_cases hk : a.1 = k
        · rw [List.find?_cons_of_pos (by simpa using hk), List.find?_cons_of_pos (by simpa using hk)]
        · rw [List.find?_cons_of_neg (by simpa using hk), List.find?_cons_of_neg (by simpa using hk)]
          exact ih

/-- The value that one entry gives. -/
def one (e : String × Json) (n : String) : Option String :=
  if headerName e.1 = some n then headerValue e.2 else none

/-- The last value that an object gives. -/
def last : List (String × Json) → String → Option String
  | [], _ => none
  | e :: o, n => (last o n).or (one e n)

theorem get_parseOne (m : Map) (e : String × Json) (n : String) : get (parseOne m e) n = (one e n).or (get m n) := by
  unfold parseOne one
  cases h : headerName e.1 with
  | none => simp
  | some k =>
    cases hv : headerValue e.2 with
    | none => simp
    | some v =>
      simp only [get_insert, Option.some.injEq]
      by_cases hk : k = n <;> simp [hk]

theorem get_foldl (o : List (String × Json)) : ∀ (m : Map) (n : String),
    get (o.foldl parseOne m) n = (last o n).or (get m n) := by
  induction o with
  | nil => intro m n; rfl
  | cons e o ih =>
    intro m n
    rw [List.foldl_cons, ih, get_parseOne, last, Option.or_assoc]

theorem get_parseObject (o : List (String × Json)) (n : String) : get (parseObject o) n = last o n := by
  rw [parseObject, get_foldl]
  cases last o n <;> rfl

theorem last_some {o : List (String × Json)} {n v : String} (h : last o n = some v) : Gives o n v := by
  induction o with
  | nil => cases h
  | cons e o ih =>
    unfold last at h
    rw [Option.or_eq_some_iff] at h
    rcases h with h | ⟨-, h⟩
    · obtain ⟨k, x, hm, hk, hv⟩ := ih h
      exact ⟨k, x, List.mem_cons_of_mem _ hm, hk, hv⟩
    · unfold one at h
      split at h
      · next hk => exact ⟨e.1, e.2, List.mem_cons_self, hk, h⟩
      · cases h

theorem last_none {o : List (String × Json)} {n : String} (h : last o n = none) : ∀ v, ¬ Gives o n v := by
  induction o with
  | nil => rintro v ⟨k, x, hm, -⟩; simp at hm
  | cons e o ih =>
    unfold last at h
    rw [Option.or_eq_none_iff] at h
    rintro v ⟨k, x, hm, hk, hv⟩
    rcases List.mem_cons.1 hm with rfl | hm
    · have := h.2
      simp [one, hk, hv] at this
    · exact ih h.1 v ⟨k, x, hm, hk, hv⟩

/-- Names are there once. -/
def Once (m : Map) : Prop := (m.map (·.1)).Nodup

theorem once_insert {m : Map} (n v : String) (h : Once m) : Once (insert m n v) := by
  unfold Once insert at *
  rw [List.map_cons, List.nodup_cons]
  refine ⟨?_, ?_⟩
  · intro hm
    obtain ⟨e, he, h1⟩ := List.mem_map.1 hm
    have := (List.mem_filter.1 he).2
    simp [h1] at this
  · exact h.sublist (List.filter_sublist.map _)

theorem once_foldl (o : List (String × Json)) : ∀ m, Once m → Once (o.foldl parseOne m) := by
  induction o with
  | nil => exact fun m h => h
  | cons e o ih =>
    intro m h
    refine ih _ ?_
    unfold parseOne
    split
    · exact h
    · split
      · exact h
      · exact once_insert _ _ h

theorem once_parseObject (o : List (String × Json)) : Once (parseObject o) := once_foldl o [] (by simp [Once])

theorem once_merge (b : Map) : ∀ a, Once a → Once (b.foldl (fun m e => insert m e.1 e.2) a) := by
  induction b with
  | nil => exact fun a h => h
  | cons e b ih => exact fun a h => ih _ (once_insert _ _ h)

theorem get_cons (e : String × String) (m : Map) (n : String) : get (e :: m) n = if e.1 = n then some e.2 else get m n := by
  unfold get
  by_cases h : e.1 = n
  · rw [List.find?_cons_of_pos (by simpa using h), if_pos h]; rfl
  · rw [List.find?_cons_of_neg (by simpa using h), if_neg h]

theorem get_none_of_not_mem {m : Map} {n : String} (h : n ∉ m.map (·.1)) : get m n = none := by
  unfold get
  rw [List.find?_eq_none.2]
  · rfl
  · intro e he hn
    exact h (List.mem_map.2 ⟨e, he, by simpa using hn⟩)

theorem get_merge (b : Map) : ∀ a n, Once b →
    get (b.foldl (fun m e => insert m e.1 e.2) a) n = (get b n).or (get a n) := by
  induction b with
  | nil => intro a n _; rfl
  | cons e b ih =>
    intro a n h
    unfold Once at h
    rw [List.map_cons, List.nodup_cons] at h
    rw [List.foldl_cons, ih _ _ h.2, get_insert, get_cons]
    by_cases he : e.1 = n
    · have := get_none_of_not_mem (m := b) (n := n) (he ▸ h.1)
      simp [he, this]
    · simp [he]

theorem get_mem {m : Map} (h : Once m) {n v : String} : (n, v) ∈ m ↔ get m n = some v := by
  induction m with
  | nil => simp [get]
  | cons e m ih =>
    unfold Once at h
    rw [List.map_cons, List.nodup_cons] at h
    rw [get_cons, List.mem_cons, ih h.2]
    by_cases he : e.1 = n
    · have := get_none_of_not_mem (m := m) (n := n) (he ▸ h.1)
      obtain ⟨a, b⟩ := e
      simp only at he
      subst he
      simp [this, eq_comm]
    · have : (n, v) ≠ e := by rintro rfl; exact he rfl
      simp [this, he]

/-! ### Which headers an operation gets -/

/-- For every setting, payload and extensions, and every header: the operation gets what it should, from the sources
that count and from no other, the extensions before the payload. -/
theorem C96_sources (c : Config) (init ext : Option Fields) (n : String) :
    Right c init ext n (get (headers c init ext) n) := by
  have hext : Once (if c.operation then extHeaders ext else []) := by
    split
    · exact once_parseObject _
    · simp [Once]
  unfold headers
  rw [get_merge _ _ _ hext]
  have h1 : ∀ r, get (if c.operation then extHeaders ext else []) n = r →
      (∀ v, r = some v → c.operation = true ∧ Gives (extObject ext) n v) ∧
      (r = none → ∀ w, ¬ (c.operation = true ∧ Gives (extObject ext) n w)) := by
    intro r hr
    cases ho : c.operation with
    | false =>
      rw [ho] at hr
      have : r = none := by rw [← hr]; rfl
      subst this
      simp
    | true =>
      rw [ho, if_pos rfl, extHeaders, get_parseObject] at hr
      refine ⟨fun v e => ⟨rfl, last_some (hr.trans e)⟩, fun e w h => last_none (hr.trans e) w h.2⟩
  have h2 : ∀ r, get (if c.connection then initHeaders init else []) n = r →
      (∀ v, r = some v → c.connection = true ∧ ∃ fs, init = some fs ∧ Gives (initObject fs) n v) ∧
      (r = none → ∀ w, ¬ (c.connection = true ∧ ∃ fs, init = some fs ∧ Gives (initObject fs) n w)) := by
    intro r hr
    cases ho : c.connection with
    | false =>
      rw [ho] at hr
      have : r = none := by rw [← hr]; rfl
      subst this
      simp
    | true =>
      rw [ho, if_pos rfl] at hr
      cases init with
      | none =>
        have : r = none := by rw [← hr]; rfl
        subst this
        simp
      | some fs =>
        rw [initHeaders, get_parseObject] at hr
        refine ⟨fun v e => ⟨rfl, fs, rfl, last_some (hr.trans e)⟩, ?_⟩
        rintro e w ⟨-, fs', e', h⟩
        injection e' with e'; subst e'
        exact last_none (hr.trans e) w h
  cases e1 : get (if c.operation then extHeaders ext else []) n with
  | some v => exact .inl ((h1 _ e1).1 v rfl)
  | none =>
    cases e2 : get (if c.connection then initHeaders init else []) n with
    | some v => exact .inr ⟨(h1 _ e1).2 rfl, (h2 _ e2).1 v rfl⟩
    | none => exact ⟨(h1 _ e1).2 rfl, (h2 _ e2).2 rfl⟩

/-- Both sources: the extensions win. -/
example :
    let init := some [("Authorization", Field.plain (.str "Bearer a")), ("x-n", .plain (.num "42")), ("x y", .plain (.str "no"))]
    let ext := some [("headers", Field.obj [("authorization", .str "Bearer b"), ("x-o", .other)])]
    headers ⟨.both, false⟩ init ext = [("authorization", "Bearer b"), ("x-n", "42")] := by decide +kernel

/-- Without keeping, no operation has anything to do with another. -/
theorem C96_not_kept {c : Config} (h : c.persist = false) {p : Option Fields} {ops} (hs : Session c p ops) :
    ∀ ext m, (ext, m) ∈ ops → ∃ p1, (p1 = p ∨ ∃ fs fs1, p = some fs ∧ p1 = some fs1 ∧ fs1.Perm fs) ∧ m = headers c p1 ext := by
  have gen : ∀ {p ops}, Session c p ops → ∀ q, (p = q ∨ ∃ fs fs1, q = some fs ∧ p = some fs1 ∧ fs1.Perm fs) →
      ∀ ext m, (ext, m) ∈ ops → ∃ p1, (p1 = q ∨ ∃ fs fs1, q = some fs ∧ p1 = some fs1 ∧ fs1.Perm fs) ∧ m = headers c p1 ext := by
    intro p ops hs
    induction hs with
    | nil => intro q _ ext m hm; simp at hm
    | bare hs ih =>
      intro q hq ext m hm
      rcases List.mem_cons.1 hm with e | hm
      · cases e
        exact ⟨none, hq, rfl⟩
      · exact ih q hq ext m hm
    | @cons fs fs1 ext' ops hp hs ih =>
      intro q hq ext m hm
      have hk : (some fs1 = q ∨ ∃ gs fs2, q = some gs ∧ some fs1 = some fs2 ∧ fs2.Perm gs) := by
        rcases hq with rfl | ⟨gs, fs2, rfl, e, hp2⟩
        · exact .inr ⟨fs, fs1, rfl, rfl, hp⟩
        · injection e with e; subst e
          exact .inr ⟨gs, fs1, rfl, rfl, hp.trans hp2⟩
      rcases List.mem_cons.1 hm with e | hm
      · cases e
        exact ⟨some fs1, hk, rfl⟩
      · have : kept c (some fs1) ext' = some fs1 := by simp [kept, h]
        rw [this] at ih
        exact ih q hk ext m hm
  exact gen hs p (.inl rfl)

/-! ### Keeping the headers of operations -/

/-- A payload whose fields are headers under their own names: no objects, the names in lower case (or no names of
headers), each once, with values of visible characters. -/
structure Flat (fs : Fields) : Prop where
  plain : ∀ k x, (k, x) ∈ fs → ∃ j, x = .plain j
  lower : ∀ k x n, (k, x) ∈ fs → headerName k = some n → n = k
  once : (fs.map (·.1)).Nodup
  visible : ∀ k j v, (k, Field.plain j) ∈ fs → headerValue j = some v → v.toList.all visibleChar = true

/-- The extensions have values of visible characters. -/
def Visible (ext : Option Fields) : Prop :=
  ∀ k j v, (k, j) ∈ extObject ext → headerValue j = some v → v.toList.all visibleChar = true

/-- What the operations of a connection should get when headers are kept: for each header the value of their own
extensions, or the one that was last in use. -/
def Follows (cur : String → Option String) : List (Option Fields × Map) → Prop
  | [] => True
  | (ext, m) :: ops =>
    (∀ n, get m n = (get (extHeaders ext) n).or (cur n)) ∧
    Follows (fun n => (get (extHeaders ext) n).or (cur n)) ops

theorem initObject_flat {fs : Fields} (h : Flat fs) : initObject fs = fs.map (fun e => (e.1, e.2.json)) := by
  unfold initObject
  split
  · next o he =>
    unfold field at he
    cases hf : fs.find? (fun e => e.1 == "headers") with
    | none => rw [hf] at he; cases he
    | some e =>
      rw [hf] at he
      simp at he
      obtain ⟨j, hj⟩ := h.plain e.1 e.2 (List.mem_of_find?_eq_some hf)
      rw [he] at hj; cases hj
  · rfl

theorem gives_flat {fs : Fields} (h : Flat fs) {n v : String} :
    Gives (initObject fs) n v ↔ headerName n = some n ∧ ∃ j, (n, Field.plain j) ∈ fs ∧ headerValue j = some v := by
  rw [initObject_flat h]
  constructor
  · rintro ⟨k, x, hm, hk, hv⟩
    obtain ⟨e, he, e1⟩ := List.mem_map.1 hm
    obtain ⟨a, y⟩ := e
    cases e1
    have := h.lower a y n he hk
    subst this
    obtain ⟨j, rfl⟩ := h.plain n y he
    exact ⟨hk, j, he, hv⟩
  · rintro ⟨hn, j, hm, hv⟩
    exact ⟨n, j, List.mem_map.2 ⟨(n, .plain j), hm, rfl⟩, hn, hv⟩

theorem flat_perm {fs fs1 : Fields} (hp : fs1.Perm fs) (h : Flat fs) : Flat fs1 :=
  ⟨fun k x hm => h.plain k x (hp.mem_iff.1 hm), fun k x n hm => h.lower k x n (hp.mem_iff.1 hm),
   (hp.map (·.1)).nodup_iff.2 h.once, fun k j v hm => h.visible k j v (hp.mem_iff.1 hm)⟩

theorem once_mem {fs : Fields} (h : (fs.map (·.1)).Nodup) {k : String} {x y : Field} (hx : (k, x) ∈ fs) (hy : (k, y) ∈ fs) :
    x = y := by
  induction fs with
  | nil => simp at hx
  | cons e fs ih =>
    rw [List.map_cons, List.nodup_cons] at h
    rcases List.mem_cons.1 hx with h1 | h1 <;> rcases List.mem_cons.1 hy with h2 | h2
    · rw [← h1] at h2; cases h2; rfl
    · exact absurd (List.mem_map.2 ⟨(k, y), h2, by rw [← h1]⟩) h.1
    · exact absurd (List.mem_map.2 ⟨(k, x), h1, by rw [← h2]⟩) h.1
    · exact ih h.2 h1 h2

theorem init_flat {fs : Fields} (h : Flat fs) (n v : String) :
    get (initHeaders (some fs)) n = some v ↔ headerName n = some n ∧ ∃ j, (n, Field.plain j) ∈ fs ∧ headerValue j = some v := by
  rw [initHeaders, get_parseObject]
  constructor
  · intro e; exact (gives_flat h).1 (last_some e)
  · intro hg
    have hg' := (gives_flat h).2 hg
    cases e : last (initObject fs) n with
    | none => exact absurd hg' (last_none e v)
    | some w =>
      obtain ⟨-, j, hm, hv⟩ := hg
      obtain ⟨-, j', hm', hv'⟩ := (gives_flat h).1 (last_some e)
      have := once_mem h.once hm hm'
      injection this with this
      subst this
      rw [hv] at hv'; injection hv' with hv'; rw [hv']

theorem init_perm {fs fs1 : Fields} (h : Flat fs) (hp : fs1.Perm fs) (n : String) :
    get (initHeaders (some fs1)) n = get (initHeaders (some fs)) n := by
  have iff : ∀ v, get (initHeaders (some fs1)) n = some v ↔ get (initHeaders (some fs)) n = some v := by
    intro v
    rw [init_flat h, init_flat (flat_perm hp h)]
    simp only [hp.mem_iff]
  cases e : get (initHeaders (some fs)) n with
  | some v => exact (iff v).2 e
  | none =>
    cases e' : get (initHeaders (some fs1)) n with
    | none => rfl
    | some w => rw [(iff w).1 e'] at e; cases e

theorem mem_putField {fs : Fields} {k : String} {v : Field} {a : String} {x : Field} :
    (a, x) ∈ putField fs k v ↔ (a = k ∧ x = v) ∨ (a ≠ k ∧ (a, x) ∈ fs) := by
  unfold putField
  split
  · next h =>
    simp only [List.any_eq_true, beq_iff_eq] at h
    obtain ⟨e0, he0, hk0⟩ := h
    rw [List.mem_map]
    constructor
    · rintro ⟨e, he, h1⟩
      by_cases hk : e.1 = k
      · simp [hk] at h1; exact .inl ⟨h1.1.symm, h1.2.symm⟩
      · simp [hk] at h1; subst h1; exact .inr ⟨hk, he⟩
    · rintro (⟨rfl, rfl⟩ | ⟨hk, he⟩)
      · exact ⟨e0, he0, by simp [hk0]⟩
      · exact ⟨(a, x), he, by simp [hk]⟩
  · next h =>
    simp only [List.any_eq_true, beq_iff_eq, not_exists, not_and] at h
    simp only [List.mem_append, List.mem_singleton, Prod.mk.injEq]
    constructor
    · rintro (h1 | h1)
      · exact .inr ⟨h _ h1, h1⟩
      · exact .inl h1
    · rintro (h1 | h1)
      · exact .inr h1
      · exact .inl h1.2

theorem once_putField {fs : Fields} (k : String) (v : Field) (h : (fs.map (·.1)).Nodup) :
    ((putField fs k v).map (·.1)).Nodup := by
  unfold putField
  split
  · have : (fs.map (fun e => if e.1 == k then (k, v) else e)).map (·.1) = fs.map (·.1) := by
      rw [List.map_map]
      refine List.map_congr_left (fun e _ => ?_)
      by_cases hk : e.1 = k <;> simp [hk]
    rw [this]; exact h
  · next hn =>
    simp only [List.any_eq_true, beq_iff_eq, not_exists, not_and] at hn
    rw [List.map_append, List.nodup_append]
    refine ⟨h, by simp, fun a ha b hb => ?_⟩
    simp at hb; subst hb
    obtain ⟨e, he, rfl⟩ := List.mem_map.1 ha
    exact hn e he

theorem keep_spec (m : Map) : ∀ fs, (fs.map (·.1)).Nodup → Once m → (∀ e ∈ m, e.2.toList.all visibleChar = true) →
    ((keep fs m).map (·.1)).Nodup ∧
    ∀ a x, (a, x) ∈ keep fs m ↔ (match get m a with | some v => x = .plain (.str v) | none => (a, x) ∈ fs) := by
  induction m with
  | nil => intro fs h _ _; exact ⟨h, fun a x => Iff.rfl⟩
  | cons e m ih =>
    intro fs h ho hv
    unfold Once at ho
    rw [List.map_cons, List.nodup_cons] at ho
    have h1 : keep fs (e :: m) = keep (putField fs e.1 (.plain (.str e.2))) m := by
      rw [keep, List.foldl_cons, if_pos (hv e List.mem_cons_self)]; rfl
    rw [h1]
    obtain ⟨h2, h3⟩ := ih (putField fs e.1 (.plain (.str e.2))) (once_putField _ _ h) ho.2 (fun e he => hv e (List.mem_cons_of_mem _ he))
    refine ⟨h2, fun a x => ?_⟩
    rw [h3, get_cons]
    by_cases ha : e.1 = a
    · have hn := get_none_of_not_mem (m := m) (n := a) (ha ▸ ho.1)
      rw [hn, if_pos ha]
      simp only [mem_putField]
      constructor
      · rintro (h | h)
        · exact h.2
        · exact absurd ha.symm h.1
      · exact fun h => .inl ⟨ha.symm, h⟩
    · rw [if_neg ha]
      cases get m a with
      | some v => exact Iff.rfl
      | none =>
        simp only [mem_putField]
        constructor
        · rintro (h | h)
          · exact absurd h.1.symm ha
          · exact h.2
        · exact fun h => .inr ⟨fun e => ha e.symm, h⟩

theorem toLower_tokenChar (c : Char) (h : tokenChar c = true) : tokenChar c.toLower = true ∧ c.toLower.toLower = c.toLower := by
  have gen : ∀ n : Nat, n < 128 → (tokenChar (Char.ofNat n) = true →
      tokenChar (Char.ofNat n).toLower = true ∧ (Char.ofNat n).toLower.toLower = (Char.ofNat n).toLower) := by
    decide +kernel
  have hlt : c.toNat < 128 := by
    unfold tokenChar at h
    rw [Bool.or_eq_true] at h
    rcases h with h | h
    · simp only [Char.isAlphanum, Char.isAlpha, Char.isUpper, Char.isLower, Char.isDigit, Bool.or_eq_true,
        Bool.and_eq_true, decide_eq_true_eq, ge_iff_le, UInt32.le_iff_toNat_le] at h
      have : c.val.toNat = c.toNat := rfl
      simp at h
      omega
    · have hm : c ∈ "!#$%&'*+-.^_`|~".toList := by simpa using h
      have : ∀ d ∈ "!#$%&'*+-.^_`|~".toList, d.toNat < 128 := by decide +kernel
      exact this c hm
  have := gen c.toNat hlt
  rw [Char.ofNat_toNat] at this
  exact this h

theorem headerName_idem {k n : String} (h : headerName k = some n) : headerName n = some n := by
  unfold headerName at h
  split at h
  · cases h
  · next hc =>
    simp only [Bool.or_eq_true, Bool.not_eq_true', not_or, Bool.not_eq_true, Bool.not_eq_false] at hc
    injection h with h
    subst h
    unfold headerName
    have hl : (String.ofList (k.toList.map Char.toLower)).toList = k.toList.map Char.toLower := by simp
    rw [hl]
    have h1 : (k.toList.map Char.toLower).isEmpty = false := by
      rw [List.isEmpty_map]; exact hc.1
    have h2 : (k.toList.map Char.toLower).all tokenChar = true := by
      rw [List.all_map, List.all_eq_true]
      intro c hcm
      exact (toLower_tokenChar c (List.all_eq_true.1 hc.2 c hcm)).1
    have h3 : (k.toList.map Char.toLower).map Char.toLower = k.toList.map Char.toLower := by
      rw [List.map_map]
      exact List.map_congr_left (fun c hcm => (toLower_tokenChar c (List.all_eq_true.1 hc.2 c hcm)).2)
    rw [h1, h2, h3]
    rfl

theorem parse_canon {o : List (String × Json)} {n v : String} (h : get (parseObject o) n = some v) :
    headerName n = some n := by
  rw [get_parseObject] at h
  obtain ⟨k, x, -, hk, -⟩ := last_some h
  exact headerName_idem hk

theorem visible_valid {v : String} (h : v.toList.all visibleChar = true) : headerValue (.str v) = some v := by
  have : v.toList.all valueChar = true := by
    rw [List.all_eq_true] at h ⊢
    intro c hc
    have := h c hc
    unfold visibleChar at this
    unfold valueChar
    rw [Bool.or_eq_true] at this ⊢
    rcases this with h | h
    · exact .inl h
    · right
      simp only [Bool.and_eq_true, decide_eq_true_eq, bne_iff_ne, ne_eq] at h ⊢
      refine ⟨h.1, fun e => ?_⟩
      rw [e] at h
      exact absurd h.2 (by decide)
  simp [headerValue, this]

/-- The headers of an operation when both sources count. -/
theorem both_get (init ext : Option Fields) (p : Bool) (n : String) :
    get (headers ⟨.both, p⟩ init ext) n = (get (extHeaders ext) n).or (get (initHeaders init) n) :=
  get_merge _ _ _ (once_parseObject _)

theorem init_once (init : Option Fields) : Once (initHeaders init) := by
  cases init with
  | none => simp [initHeaders, Once]
  | some fs => exact once_parseObject _

theorem kept_flat {fs : Fields} (h : Flat fs) {ext : Option Fields} (hv : Visible ext) :
    Flat (keep fs (headers ⟨.both, true⟩ (some fs) ext)) ∧
    ∀ n, get (initHeaders (some (keep fs (headers ⟨.both, true⟩ (some fs) ext)))) n =
      get (headers ⟨.both, true⟩ (some fs) ext) n := by
  have honce : Once (headers ⟨.both, true⟩ (some fs) ext) :=
    once_merge _ _ (by simpa [Config.connection] using init_once (some fs))
  have hvis : ∀ e ∈ headers ⟨.both, true⟩ (some fs) ext, e.2.toList.all visibleChar = true := by
    rintro ⟨n, v⟩ he
    have := (get_mem honce).1 he
    rw [both_get, Option.or_eq_some_iff] at this
    rcases this with h1 | ⟨-, h1⟩
    · rw [extHeaders, get_parseObject] at h1
      obtain ⟨k, x, hm, -, hx⟩ := last_some h1
      exact hv k x v hm hx
    · obtain ⟨-, j, hm, hj⟩ := (init_flat h n v).1 h1
      exact h.visible n j v hm hj
  have hcanon : ∀ n v, get (headers ⟨.both, true⟩ (some fs) ext) n = some v → headerName n = some n := by
    intro n v e
    rw [both_get, Option.or_eq_some_iff] at e
    rcases e with h1 | ⟨-, h1⟩
    · exact parse_canon h1
    · exact parse_canon h1
  obtain ⟨hk1, hk2⟩ := keep_spec (headers ⟨.both, true⟩ (some fs) ext) fs h.once honce hvis
  have hflat : Flat (keep fs (headers ⟨.both, true⟩ (some fs) ext)) := by
    refine ⟨?_, ?_, hk1, ?_⟩
    · intro k x hm
      have := (hk2 k x).1 hm
      split at this
      · exact ⟨_, this⟩
      · exact h.plain k x this
    · intro k x n hm hn
      have := (hk2 k x).1 hm
      split at this
      · next v hg =>
        have := hcanon k v hg
        rw [hn] at this; injection this
      · exact h.lower k x n this hn
    · intro k j v hm hj
      have := (hk2 k (.plain j)).1 hm
      split at this
      · next w hg =>
        injection this with this
        subst this
        have hw := hvis (k, w) ((get_mem honce).2 hg)
        rw [visible_valid hw] at hj
        injection hj with hj
        exact hj ▸ hw
      · exact h.visible k j v this hj
  refine ⟨hflat, fun n => ?_⟩
  cases hg : get (headers ⟨.both, true⟩ (some fs) ext) n with
  | some v =>
    rw [init_flat hflat]
    refine ⟨hcanon n v hg, .str v, ?_, visible_valid (hvis (n, v) ((get_mem honce).2 hg))⟩
    rw [hk2, hg]
  | none =>
    cases e : get (initHeaders (some (keep fs (headers ⟨.both, true⟩ (some fs) ext)))) n with
    | none => rfl
    | some w =>
      obtain ⟨hn, j, hm, hj⟩ := (init_flat hflat n w).1 e
      rw [hk2, hg] at hm
      have : get (initHeaders (some fs)) n = some w := (init_flat h n w).2 ⟨hn, j, hm, hj⟩
      rw [both_get, this] at hg
      simp at hg

/-- When headers are kept, each operation gets the values that were last in use, for payloads in which each header is
a field of its own with its name in lower case. Missing: other payloads, see the theorems below. -/
theorem C96_kept_partial {fs : Fields} {ops} (hs : Session ⟨.both, true⟩ (some fs) ops) (h : Flat fs)
    (hv : ∀ e ∈ ops, Visible e.1) : Follows (get (initHeaders (some fs))) ops := by
  have gen : ∀ {p ops}, Session ⟨.both, true⟩ p ops → ∀ fs, p = some fs → Flat fs → (∀ e ∈ ops, Visible e.1) →
      ∀ cur, (∀ n, get (initHeaders (some fs)) n = cur n) → Follows cur ops := by
    intro p ops hs
    induction hs with
    | nil => intros; trivial
    | bare => intro fs e; cases e
    | @cons gs fs1 ext ops hp hs ih =>
      intro fs e hf hv cur hcur
      injection e with e; subst e
      have hf1 := flat_perm hp hf
      obtain ⟨hk1, hk2⟩ := kept_flat hf1 (hv _ List.mem_cons_self)
      have hget : ∀ n, get (headers ⟨.both, true⟩ (some fs1) ext) n = (get (extHeaders ext) n).or (cur n) := by
        intro n; rw [both_get, init_perm hf hp, hcur]
      refine ⟨hget, ih _ rfl hk1 (fun e he => hv e (List.mem_cons_of_mem _ he)) _ (fun n => ?_)⟩
      rw [hk2, hget]
  exact gen hs fs rfl h hv _ (fun _ => rfl)

/-- A connection with a token, an operation with a new one, and one without any: it gets the new one. -/
example : Session ⟨.both, true⟩ (some [("authorization", .plain (.str "old"))])
    [(some [("headers", .obj [("Authorization", .str "new")])], [("authorization", "new")]),
     (none, [("authorization", "new")])] ∧
    Flat [("authorization", .plain (.str "old"))] ∧
    Visible (some [("headers", .obj [("Authorization", .str "new")])]) ∧ Visible none := by
  refine ⟨?_, ⟨?_, ?_, by decide, ?_⟩, ?_, ?_⟩
  · have h1 : headers ⟨.both, true⟩ (some [("authorization", .plain (.str "old"))])
        (some [("headers", .obj [("Authorization", .str "new")])]) = [("authorization", "new")] := by decide +kernel
    have h2 : kept ⟨.both, true⟩ (some [("authorization", .plain (.str "old"))])
        (some [("headers", .obj [("Authorization", .str "new")])]) = some [("authorization", .plain (.str "new"))] := by
      decide +kernel
    have h3 : headers ⟨.both, true⟩ (some [("authorization", .plain (.str "new"))]) none = [("authorization", "new")] := by
      decide +kernel
    have a := Session.cons (c := ⟨.both, true⟩) (ext := none) (ops := [])
      (List.Perm.refl [("authorization", Field.plain (.str "new"))]) .nil
    rw [h3] at a
    have b := Session.cons (c := ⟨.both, true⟩) (ext := some [("headers", .obj [("Authorization", .str "new")])])
      (ops := [(none, [("authorization", "new")])])
      (List.Perm.refl [("authorization", Field.plain (.str "old"))]) (by rw [h2]; exact a)
    rw [h1] at b
    exact b
  · intro k x hm; simp at hm; exact ⟨_, hm.2⟩
  · intro k x n hm hn
    simp at hm
    rw [hm.1] at hn ⊢
    have : headerName "authorization" = some "authorization" := by decide +kernel
    rw [this] at hn; injection hn with hn; exact hn.symm
  · intro k j v hm hj
    simp at hm
    rw [hm.2] at hj
    have : headerValue (.str "old") = some "old" := by decide +kernel
    rw [this] at hj; injection hj with hj; subst hj; decide +kernel
  · intro k j v hm hj
    have : extObject (some [("headers", .obj [("Authorization", .str "new")])]) = [("Authorization", .str "new")] := by
      decide +kernel
    rw [this] at hm
    simp at hm
    rw [hm.2] at hj
    have : headerValue (.str "new") = some "new" := by decide +kernel
    rw [this] at hj; injection hj with hj; subst hj; decide +kernel
  · intro k j v hm; simp [extObject] at hm

/-- The claim that kept headers are used by later operations is false for the code, even for the payload of the
documentation (config/websocket.rs:98-100): the payload then has the old token as `Authorization` and the new one as
`authorization`, and the one that comes last in the order of the hash map is used. -/
theorem C96_kept_case_refuted : ∃ ops, Session ⟨.both, true⟩ (some [("Authorization", .plain (.str "old"))]) ops ∧
    ops.map (·.1) = [some [("headers", .obj [("Authorization", .str "new")])], none] ∧
    ops.map (·.2) = [[("authorization", "new")], [("authorization", "old")]] := by
  have h1 : headers ⟨.both, true⟩ (some [("Authorization", .plain (.str "old"))])
      (some [("headers", .obj [("Authorization", .str "new")])]) = [("authorization", "new")] := by decide +kernel
  have h2 : kept ⟨.both, true⟩ (some [("Authorization", .plain (.str "old"))])
      (some [("headers", .obj [("Authorization", .str "new")])]) =
      some [("Authorization", .plain (.str "old")), ("authorization", .plain (.str "new"))] := by decide +kernel
  have h3 : headers ⟨.both, true⟩ (some [("authorization", .plain (.str "new")), ("Authorization", .plain (.str "old"))])
      none = [("authorization", "old")] := by decide +kernel
  have a := Session.cons (c := ⟨.both, true⟩) (ext := none) (ops := [])
    (List.Perm.swap ("Authorization", Field.plain (.str "old")) ("authorization", Field.plain (.str "new")) []) .nil
  rw [h3] at a
  have b := Session.cons (c := ⟨.both, true⟩) (ext := some [("headers", .obj [("Authorization", .str "new")])])
    (ops := [(none, [("authorization", "old")])])
    (List.Perm.refl [("Authorization", Field.plain (.str "old"))]) (by rw [h2]; exact a)
  rw [h1] at b
  exact ⟨_, b, rfl, rfl⟩

/-- Nor are they used when the payload has its headers in an object, in which the code looks first: they are kept
beside it. -/
theorem C96_kept_nested_refuted :
    let init := some [("headers", Field.obj [("authorization", .str "old")])]
    let ext := some [("headers", Field.obj [("authorization", .str "new")])]
    headers ⟨.both, true⟩ init ext = [("authorization", "new")] ∧
    headers ⟨.both, true⟩ (kept ⟨.both, true⟩ init ext) none = [("authorization", "old")] := by decide +kernel

/-- Nor are they kept at all when the client initialises without a payload. -/
theorem C96_kept_bare_refuted :
    let ext := some [("headers", Field.obj [("authorization", .str "new")])]
    headers ⟨.both, true⟩ none ext = [("authorization", "new")] ∧
    headers ⟨.both, true⟩ (kept ⟨.both, true⟩ none ext) none = [] := by decide +kernel

end Verif.Socket.Headers
