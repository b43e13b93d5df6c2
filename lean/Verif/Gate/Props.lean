import Verif.Gate.Lemmas

namespace Verif.Gate
open Verif.Keys (parseBytes normalizeBytes Kind)

variable {β : Type}

/-! ## C48: caches and other requests do not change what becomes of a request -/

/-- **C48** Whatever requests came before or are served at the same time, in whatever order their
stages alternate, and whatever the caches hold or have lost: a request ends as it would end in a router
without caches that serves no other request. -/
theorem C48_transparent (e : Engine β) (w : World β) (h : Reachable e w) (hc : NoClash e w.history)
    (i : Nat) (r : Request) (o : Outcome β) (hd : w.stages i = .done r o) : o = alone e r := by
  have := (reachable_ok h hc).2 i
  rw [hd] at this
  exact this.2

/-- **C48** Two requests that are equal end equally, even in different routers with the same
configuration. -/
theorem C48_same (e : Engine β) (w w' : World β) (h : Reachable e w) (h' : Reachable e w')
    (hc : NoClash e w.history) (hc' : NoClash e w'.history) (i j : Nat) (r : Request)
    (o o' : Outcome β) (hd : w.stages i = .done r o) (hd' : w'.stages j = .done r o') : o = o' := by
  rw [C48_transparent e w h hc i r o hd, C48_transparent e w' h' hc' j r o' hd']

theorem alone_ran {e : Engine β} {r : Request} {x : Executed β} {a : Answer}
    (h : alone e r = .ran x a) : ∃ m, negotiate e r = some m ∧ Runs e r x ∧ gate e r m x = .ran x a := by
  unfold alone at h
  split at h
  · cases h
  · cases h
  · rename_i m _ hn
    refine ⟨m, hn, ?_⟩
    split at h
    · cases h
    · rename_i doc hq
      split at h
      · rename_i hv
        split at h
        · cases h
        · rename_i doc' hq'
          split at h
          · cases h
          · rename_i y hy
            have hxy : y = x := by
              unfold gate at h
              repeat' (split at h)
              all_goals first | (cases h; done) | (cases h; rfl)
            subst hxy
            obtain ⟨t, ht, hp⟩ := Option.bind_eq_some_iff.mp hq
            obtain ⟨t', ht', hp'⟩ := Option.bind_eq_some_iff.mp hq'
            exact ⟨⟨t, doc, ht, hp, hv, t', doc', ht', hp', hy⟩, h⟩
      · cases h

/-- **C48** An operation runs only if the text the client sent was parsed and found valid for the
supergraph of the request, and it is the operation asked for in the text that counts. -/
theorem C48_validated (e : Engine β) (w : World β) (h : Reachable e w) (hc : NoClash e w.history)
    (i : Nat) (r : Request) (x : Executed β) (a : Answer) (hd : w.stages i = .done r (.ran x a)) :
    Runs e r x := by
  obtain ⟨_, _, h, _⟩ := alone_ran (C48_transparent e w h hc i r _ hd).symm
  exact h

/-- **C48** Without a coprocessor that rewrites requests, the operation that runs comes from a
document that was found valid. -/
theorem C48_only_valid (e : Engine β) (w : World β) (h : Reachable e w) (hc : NoClash e w.history)
    (i : Nat) (r : Request) (x : Executed β) (a : Answer) (hd : w.stages i = .done r (.ran x a))
    (hr : r.replaced = none) :
    ∃ text doc, r.query = some text ∧ e.parse text = some doc ∧ e.valid r.graph doc = true ∧
      normalizeDoc e r.graph doc r.operationName = some x := by
  obtain ⟨t, d, h1, h2, h3, t', d', h4, h5, h6⟩ := C48_validated e w h hc i r x a hd
  have hf : final r = (r.query, r.operationName) := by simp [final, hr]
  rw [hf] at h4 h6
  simp only at h4 h6
  rw [h1] at h4; cases h4
  rw [h2] at h5; cases h5
  exact ⟨t, d, h1, h2, h3, h6⟩

/-! ## C37: which operation runs, and which does not -/

theorem done_gate {e : Engine β} {w : World β} (h : Reachable e w) : ∀ i,
    (∀ r m, w.stages i = .negotiated r m → negotiate e r = some m) ∧
    (∀ r m d, w.stages i = .parsed r m d → negotiate e r = some m) ∧
    (∀ r m d, w.stages i = .validated r m d → negotiate e r = some m) ∧
    (∀ r m q n d, w.stages i = .ready r m q n d → negotiate e r = some m) ∧
    (∀ r m x, w.stages i = .normalized r m x → negotiate e r = some m) ∧
    (∀ r x a, w.stages i = .done r (.ran x a) → ∃ m, negotiate e r = some m ∧ gate e r m x = .ran x a) := by
  induction h with
  | start => intro i; refine ⟨?_, ?_, ?_, ?_, ?_, ?_⟩ <;> intros <;> simp_all
  | step _ s ih =>
    intro j
    cases s with
    | arrive i r _ =>
      by_cases hj : j = i
      · simp [put, hj]
      · simpa [put, hj] using ih j
    | forget c _ _ _ => exact ih j
    | advance i =>
      by_cases hj : j = i
      · subst hj
        rename_i w _
        obtain ⟨h1, h2, h3, h4, h5, h6⟩ := ih j
        simp only [put, if_true]
        revert h1 h2 h3 h4 h5 h6
        cases w.stages j with
        | idle => simp [advance]
        | arrived r =>
          intro _ _ _ _ _ _
          simp only [advance]
          split
          · simp
          · simp
          · rename_i m _ hn
            simp only [Stage.negotiated.injEq]
            refine ⟨?_, by simp, by simp, by simp, by simp, by simp⟩
            rintro r' m' ⟨rfl, rfl⟩; exact hn
        | negotiated r m =>
          intro h1 _ _ _ _ _
          have := h1 r m rfl
          simp only [advance]
          split
          · simp
          · simp only [Stage.parsed.injEq]
            refine ⟨by simp, ?_, by simp, by simp, by simp, by simp⟩
            rintro r' m' d ⟨rfl, rfl, _⟩; exact this
        | parsed r m d =>
          intro _ h2 _ _ _ _
          have := h2 r m d rfl
          simp only [advance]
          split
          · simp
          · simp only [Stage.validated.injEq]
            refine ⟨by simp, by simp, ?_, by simp, by simp, by simp⟩
            rintro r' m' d ⟨rfl, rfl, _⟩; exact this
        | validated r m d =>
          intro _ _ h3 _ _ _
          have := h3 r m d rfl
          simp only [advance]
          split
          · simp only [Stage.ready.injEq]
            refine ⟨by simp, by simp, by simp, ?_, by simp, by simp⟩
            rintro r' m' _ _ d ⟨rfl, rfl, _⟩; exact this
          · split
            · simp
            · simp only [Stage.ready.injEq]
              refine ⟨by simp, by simp, by simp, ?_, by simp, by simp⟩
              rintro r' m' _ _ d ⟨rfl, rfl, _⟩; exact this
        | ready r m q n d =>
          intro _ _ _ h4 _ _
          have := h4 r m q n d rfl
          simp only [advance]
          split
          · simp
          · simp only [Stage.normalized.injEq]
            refine ⟨by simp, by simp, by simp, by simp, ?_, by simp⟩
            rintro r' m' _ ⟨rfl, rfl, _⟩; exact this
        | normalized r m x =>
          intro _ _ _ _ h5 _
          have := h5 r m x rfl
          simp only [advance, Stage.done.injEq]
          refine ⟨by simp, by simp, by simp, by simp, by simp, ?_⟩
          rintro r' y a ⟨rfl, hg⟩
          refine ⟨m, this, ?_⟩
          have : y = x := by
            unfold gate at hg
            repeat' (split at hg)
            all_goals first | (cases hg; done) | (cases hg; rfl)
          rw [this] at hg ⊢; exact hg
        | done r o =>
          intro _ _ _ _ _ h6
          simp only [advance]
          exact ⟨by simp, by simp, by simp, by simp, by simp, h6⟩
      · simpa [put, hj] using ih j

/-- **C37** In every state that can be reached, whatever the hashes, the caches and the coprocessor do:
no operation executed for a GET request is a mutation. -/
theorem C37_get (e : Engine β) (w : World β) (h : Reachable e w) (i : Nat) (r : Request)
    (x : Executed β) (a : Answer) (hd : w.stages i = .done r (.ran x a)) (hw : r.websocket = false)
    (hg : r.get = true) : x.kind ≠ .mutation := by
  obtain ⟨m, _, hgate⟩ := (done_gate h i).2.2.2.2.2 r x a hd
  intro hk
  simp [gate, hw, hg, hk] at hgate

/-- **C37** A subscription is executed only if subscriptions are enabled and the client accepts a
stream or is connected by a websocket. -/
theorem C37_subscription (e : Engine β) (w : World β) (h : Reachable e w) (i : Nat) (r : Request)
    (x : Executed β) (a : Answer) (hd : w.stages i = .done r (.ran x a)) (hk : x.kind = .subscription) :
    e.subscriptions = true ∧ (r.websocket = true ∨ r.acceptsStream = true) := by
  obtain ⟨m, hn, hgate⟩ := (done_gate h i).2.2.2.2.2 r x a hd
  cases hs : e.subscriptions with
  | false => simp [gate, hk, hs] at hgate
  | true =>
    refine ⟨rfl, ?_⟩
    cases hw : r.websocket with
    | true => exact .inl rfl
    | false =>
      cases ha : r.acceptsStream with
      | true => exact .inr rfl
      | false =>
        exfalso
        simp only [negotiate, hw, ha] at hn
        have hm : m.canStream = false := by
          repeat' (split at hn)
          all_goals first | (cases hn; rfl) | (simp at *; done) | (cases hn)
        simp [gate, hk, hs, hm] at hgate

/-- **C37** A client is never sent a kind of response that it does not accept. -/
theorem C37_answer (e : Engine β) (w : World β) (h : Reachable e w) (i : Nat) (r : Request)
    (x : Executed β) (a : Answer) (hd : w.stages i = .done r (.ran x a)) : Reads r a := by
  obtain ⟨m, hn, hgate⟩ := (done_gate h i).2.2.2.2.2 r x a hd
  have hm : (m.canSingle = true → r.websocket = true ∨ r.acceptsSingle = true) ∧
      (m.canStream = true → r.websocket = true ∨ r.acceptsStream = true) := by
    unfold negotiate at hn
    repeat' (split at hn)
    all_goals first | (cases hn; done) | (cases hn; simp_all [Mode.canSingle, Mode.canStream])
  unfold gate at hgate
  repeat' (split at hgate)
  all_goals first | (cases hgate; done) | skip
  · rename_i hs; cases hgate; exact hm.2 hs
  · cases hgate; trivial
  · rename_i hs; cases hgate; exact hm.1 hs
  · cases hgate; trivial

/-- **C37** Subscriptions stream, everything else does not. -/
theorem C37_stream (e : Engine β) (w : World β) (h : Reachable e w) (i : Nat) (r : Request)
    (x : Executed β) (hd : w.stages i = .done r (.ran x .stream)) : x.kind = .subscription := by
  obtain ⟨m, hn, hgate⟩ := (done_gate h i).2.2.2.2.2 r x _ hd
  unfold gate at hgate
  repeat' (split at hgate)
  all_goals first | (cases hgate; done) | (simp_all; done)

/-- **C37** The operation that runs is the one asked for: of its kind, with its name, and normalized
from a document with this one operation and all fragments. -/
theorem C37_asked (e : Engine β) (graph : Nat) (doc : Doc β) (name : Option String) (x : Executed β)
    (hp : Parsed doc) (h : normalizeDoc e graph doc name = some x) :
    ∃ o kept, Chosen name (operations doc) o ∧ operations kept = [o] ∧ fragments kept = fragments doc ∧
      e.normalize graph kept = some x.body ∧ x.kind = o.kind ∧ x.name = o.name := by
  simp only [normalizeDoc] at h
  split at h
  · rename_i hf
    obtain ⟨o, hc, ho, hfr⟩ := retain_chosen hp hf
    rw [firstOp_eq, ho] at h
    simp only [List.head?_cons] at h
    obtain ⟨b, hb, rfl⟩ := Option.map_eq_some_iff.mp h
    refine ⟨o, _, hc, ho, hfr, hb, rfl, ?_⟩
    simp only
    generalize hs : operations doc = s at hc
    cases hc with
    | first => simp
    | named n before after _ hit first => simp [hit]
  · cases h

/-- **C37** A name that no operation has, or a document without operations, is an error. -/
theorem C37_unknown (e : Engine β) (graph : Nat) (doc : Doc β) (name : Option String) (hp : Parsed doc)
    (h : ∀ o, ¬ Chosen name (operations doc) o) : normalizeDoc e graph doc name = none := by
  simp only [normalizeDoc]
  split
  · rename_i hf
    obtain ⟨o, hc, _⟩ := retain_chosen hp hf
    exact absurd hc (h o)
  · rfl

/-- With distinct names, as validation demands, at most one operation has the name asked for. -/
theorem C37_named_unique (n : String) (os : List (Op β)) (hd : (os.map (·.name)).Nodup) (o p : Op β)
    (ho : Chosen (some n) os o) (hp : p ∈ os) (hn : p.name = some n) : p = o := by
  cases ho with
  | named _ before after _ hit first =>
    rcases List.mem_append.mp hp with hb | ha
    · exact absurd hn (first p hb)
    · rcases List.mem_cons.mp ha with rfl | ha
      · rfl
      · rw [List.map_append, List.map_cons] at hd
        have := (List.nodup_append.mp hd).2.1
        rw [List.nodup_cons] at this
        exact absurd (List.mem_map.mpr ⟨p, ha, by rw [hn, hit]⟩) this.1

/-- **C37** What the specification of GraphQL calls a request error: several operations and no name.
The router runs the first of them. -/
theorem C37_first_of_several (e : Engine β) (graph : Nat) (o p : Op β) (b : β)
    (hb : e.normalize graph [.op o] = some b) :
    normalizeDoc e graph [.op o, .op p] none = some ⟨o.kind, o.name, b⟩ := by
  simp [normalizeDoc, retain, firstOp, hb]

/-- **C37** A client that accepts streams only: its mutation is executed, and then it is told that
its content type is not supported. -/
theorem C37_stream_only_executes (e : Engine β) (r : Request) (x : Executed β) (hw : r.websocket = false)
    (hg : r.get = false) (h1 : r.acceptsSingle = false) (h2 : r.acceptsStream = true)
    (hk : x.kind = .mutation) (hr : Runs e r x) (ha : e.admits r x = true) :
    alone e r = .ran x .unsupported := by
  obtain ⟨t, d, hq, hp, hv, t', d', hq', hp', hx⟩ := hr
  have hn : negotiate e r = some .streamOnly := by simp [negotiate, hw, hg, h1, h2]
  unfold alone
  rw [hn]
  simp [hq, hp, hv, hq', hp', hx, gate, hw, hg, hk, ha, Mode.canSingle]

/-! ## Witnesses -/

namespace Example

/-- A toy hash, without clashes on the texts below. -/
def xxh (bs : List Nat) : Nat := bs.foldl (fun h b => (h * 257 + b + 1) % 2 ^ 64) 7

def q : Op Nat := ⟨.query, some "Q", false, 1⟩
def m : Op Nat := ⟨.mutation, some "M", false, 2⟩

/-- The document `query Q {..} fragment {..} mutation M {..}`. -/
def doc : Doc Nat := [.op q, .frag 3, .op m]

/-- Knows two texts, `both` (the document above, valid) and `bad` (a mutation, not valid). -/
def e : Engine Nat where
  xxh := xxh
  parse t := if t = "both" then some doc else if t = "bad" then some [.op m] else none
  schemaHash g := g % 2 ^ 64
  rulesHash := 5
  valid _ d := d.length == 3
  normalize _ d := (firstOp d).map fun o => o.body + 10 * d.length
  admits _ _ := true
  subscribes _ _ := true
  subscriptions := false
  laboratory := false

/-- POST of `both`, asking for `M`. -/
def post : Request := ⟨false, false, false, true, true, 0, some "both", some "M", none⟩
/-- GET of the same. -/
def get : Request := { post with get := true }
/-- GET without a name. -/
def plain : Request := { post with get := true, operationName := none }
/-- A coprocessor replaces the text by one that is not valid. -/
def sly : Request := { post with replaced := some (some "bad", none) }

theorem parsed : Parsed doc := by
  intro o ho
  simp only [doc, operations, List.mem_cons, List.not_mem_nil, or_false] at ho
  rcases ho with rfl | rfl <;> intro h <;> cases h

theorem noClash : NoClash e [post, get, plain, sly] where
  word x := by
    show xxh x < 2 ^ 64
    have : ∀ (l : List Nat) h, h < 2 ^ 64 → l.foldl (fun h b => (h * 257 + b + 1) % 2 ^ 64) h < 2 ^ 64 := by
      intro l
      induction l with
      | nil => intro h hh; exact hh
      | cons b l ih => intro h _; exact ih _ (Nat.mod_lt _ (by decide))
    exact this x 7 (by decide)
  schema g := Nat.mod_lt _ (by decide)
  rules := by decide
  texts := by decide +kernel
  operations := by decide +kernel
  validations := by decide +kernel

/-- Request `i` arrives and is served to its end. -/
def serve (w : World Nat) (i : Nat) (r : Request) : World Nat :=
  let go (w : World Nat) : World Nat :=
    ⟨(advance e w.caches (w.stages i)).1, put w.stages i (advance e w.caches (w.stages i)).2, w.history⟩
  go (go (go (go (go (go ⟨w.caches, put w.stages i (.arrived r), r :: w.history⟩)))))

theorem serve_reachable {w : World Nat} (h : Reachable e w) (i : Nat) (r : Request)
    (free : w.stages i = .idle) : Reachable e (serve w i r) := by
  have h0 := Reachable.step h (.arrive w i r free)
  have h1 := Reachable.step h0 (.advance _ i)
  have h2 := Reachable.step h1 (.advance _ i)
  have h3 := Reachable.step h2 (.advance _ i)
  have h4 := Reachable.step h3 (.advance _ i)
  have h5 := Reachable.step h4 (.advance _ i)
  exact Reachable.step h5 (.advance _ i)

def start : World Nat := ⟨.empty, fun _ => .idle, []⟩

/-- Four requests, one after the other; the later ones meet filled caches. -/
def world : World Nat := serve (serve (serve (serve start 0 sly) 1 plain) 2 get) 3 post

theorem world_reachable : Reachable e world :=
  serve_reachable (serve_reachable (serve_reachable (serve_reachable .start 0 sly rfl) 1 plain
    (by rfl)) 2 get (by rfl)) 3 post (by rfl)

def outcome : Stage Nat → Option (Outcome Nat)
  | .done _ o => some o
  | _ => none

/-- The mutation runs over POST, is refused over GET, and the query before it runs without a name. -/
theorem outcomes : outcome (world.stages 3) = some (.ran ⟨.mutation, some "M", 22⟩ .single) ∧
    outcome (world.stages 2) = some (.refused .mutationOverGet) ∧
    outcome (world.stages 1) = some (.ran ⟨.query, some "Q", 21⟩ .single) := by decide +kernel

example : NoClash e world.history := noClash

example : Runs e post ⟨.mutation, some "M", 22⟩ :=
  ⟨"both", doc, rfl, rfl, rfl, "both", doc, rfl, rfl, by decide⟩

example : alone e { post with acceptsSingle := false } = .ran ⟨.mutation, some "M", 22⟩ .unsupported :=
  C37_stream_only_executes e _ _ rfl rfl rfl rfl rfl
    ⟨"both", doc, rfl, rfl, rfl, "both", doc, rfl, rfl, by decide⟩ rfl

example : Chosen (some "M") (operations doc) m := .named "M" [q] [] m rfl (by simp [q])

end Example

/-- **C48** A coprocessor may replace the text after validation: what runs then was never found
valid. -/
theorem C48_coprocessor_unvalidated : ∃ (e : Engine Nat) (w : World Nat) (r : Request) (x : Executed Nat)
    (doc : Doc Nat), Reachable e w ∧ NoClash e w.history ∧ w.stages 0 = .done r (.ran x .single) ∧
      (final r).1.bind e.parse = some doc ∧ e.valid r.graph doc = false ∧
      normalizeDoc e r.graph doc (final r).2 = some x :=
  ⟨Example.e, Example.serve Example.start 0 Example.sly, Example.sly, ⟨.mutation, some "M", 12⟩,
    [.op Example.m], Example.serve_reachable .start 0 _ rfl, {
      word := Example.noClash.word, schema := Example.noClash.schema, rules := Example.noClash.rules
      texts := by decide +kernel
      operations := by decide +kernel
      validations := by decide +kernel }, by rfl, rfl, rfl, by decide⟩

end Verif.Gate
