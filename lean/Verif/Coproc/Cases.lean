import Verif.Coproc.Props
import Verif.Coproc.ContextProps

/-!
# Coprocessors: cases, and what does not hold
-/

namespace Verif.Coproc.Case

/-- A request. -/
def req : Request :=
  { method := "POST", path := "/graphql",
    headers := [("host", "a.test"), ("accept", "x/y"), ("x-a", "1"), ("x-a", "2")], body := "q" }

/-- A context. -/
def ctx : Ctx := ⟨none, none, none, none, none, none, none, none, none, []⟩

/-- An answer that lets the request go on, with other headers. -/
def goOn : Answer :=
  { version := 1, control := .cont, headers := some [("X-B", ["3", "4"]), ("Host", ["evil.test"])],
    body := some (.raw "{}"), context := none }

/-- An answer that ends it. -/
def stop : Answer :=
  { version := 1, control := .brk 403, headers := some [("X-B", ["3"])], body := some (.str "no"),
    context := none }

/-- The coprocessor answers this. -/
def says (a : Answer) : Hook := { should := some true, reply := some (200, some a) }

example : Usable [("X-B", ["3", "4"]), ("Host", ["evil.test"])] :=
  (parsed_isSome _).1 (by decide +kernel)

/-- Headers are replaced, and the host is not. -/
example : replaceInto req.headers [("X-B", ["3", "4"]), ("Host", ["evil.test"])] =
    some [("host", "a.test"), ("x-b", "3"), ("x-b", "4")] := by decide +kernel

example : Came (says goOn) goOn := ⟨rfl, rfl, 200, by decide, by decide, rfl⟩

/-- A request that goes on, changed. -/
example : execute applyRouterRequest (says goOn) ctx req = .cont
    { req with headers := [("host", "a.test"), ("x-b", "3"), ("x-b", "4")], body := "{}" } ctx true := by
  have : applyRouterRequest goOn req = some
      { req with headers := [("host", "a.test"), ("x-b", "3"), ("x-b", "4")], body := "{}" } := by
    decide +kernel
  unfold execute says answered
  simp [goOn] at this ⊢
  simp [this]

/-- A request that ends. -/
example : ∃ r, execute applyRouterRequest (says stop) ctx req = .brk r ∧ r.status = 403 :=
  C114_obeyed _ _ _ ⟨rfl, rfl, 200, by decide, by decide, rfl⟩ rfl (by
    intro hs h
    cases h
    exact (parsed_isSome _).1 (by decide +kernel))

/-- Headers that all are text. -/
example : ∃ h', replaceInto req.headers (toldHeaders req.headers) = some h' ∧ vals h' "x-a" = ["1", "2"] := by
  obtain ⟨h', h1, h2⟩ := C114_echo_partial (h := req.headers) (by decide +kernel) (by decide +kernel)
  exact ⟨h', h1, by rw [h2]; decide +kernel⟩

/-- An answer that ends the request with two cookies. -/
def cookies : Answer :=
  { version := 1, control := .brk 200, headers := some [("set-cookie", ["a=1", "b=2"])], body := none,
    context := none }

/-- **C114 does not hold in full.** Of two cookies in an answer that ends the request, the client gets one. -/
theorem C114_break_refuted : ¬ ∀ (hook : Hook) (c : Ctx) (q : Request) (r : Response),
    execute applyRouterRequest hook c q = .brk r → ∀ a, Came hook a → ∀ hs, a.headers = some hs →
      ∀ n, n ∉ hopByHop → vals r.headers n = given hs n := by
  intro h
  have hb : breakOutput cookies 200 = some ⟨200, [("set-cookie", "b=2")], none⟩ := by decide +kernel
  have := h (says cookies) ctx req ⟨200, [("set-cookie", "b=2")], none⟩
    (by
      unfold execute says answered
      simp only [hb, show cookies.control = .brk 200 from rfl]
      rfl)
    cookies ⟨rfl, rfl, 200, by decide, by decide, rfl⟩ _ rfl "set-cookie" (by decide)
  revert this
  decide +kernel

/-- **C114 does not hold in full.** A coprocessor that answers with the headers it was told loses those whose
values are not text. -/
theorem C114_echo_refuted : ¬ ∀ h : HeaderMap, (∀ p ∈ h, headerName p.1 = some p.1) →
    ∃ h', replaceInto h (toldHeaders h) = some h' ∧ ∀ n, vals h' n = vals h n := by
  intro h
  obtain ⟨h', h1, h2⟩ := h [("x-name", "ö")] (by decide +kernel)
  have : replaceInto [("x-name", "ö")] (toldHeaders [("x-name", "ö")]) = some [] := by decide +kernel
  rw [this] at h1
  cases h1
  have := h2 "x-name"
  revert this
  decide +kernel

/-! ## The whole request -/

/-- A router whose documents are their text, of which one is valid. -/
def router : Router String :=
  { params := fun q => some ⟨some q.body, none, "{}", none⟩
    parse := id
    valid := fun d => d == "good"
    run := fun _ _ d => ⟨200, [], some d⟩
    read := fun s => some ⟨some s, none, none, none⟩
    wrap := id
    finish := id
    failed := ⟨500, [], none⟩ }

/-- A coprocessor that gives another document at the GraphQL request. -/
def other : Answer :=
  { version := 1, control := .cont, headers := none, body := some (.str "bad"), context := none }

/-- A coprocessor that gives headers there. -/
def plain : Answer :=
  { version := 1, control := .cont, headers := some [("x-b", ["3"])], body := none, context := none }

/-- A request with the valid document. -/
def good : Request := { method := "POST", path := "/graphql", headers := [], body := "good" }

theorem ran (a : Answer) (g : Gql) (h : applyGraphqlRequest router.read a ⟨[], ⟨some "good", none, "{}", none⟩⟩
    = some g) (h1 : a.version = 1) (h2 : a.control = .cont) (h3 : a.context = none) :
    stage (applyGraphqlRequest router.read) (some (says a)) ctx ⟨[], ⟨some "good", none, "{}", none⟩⟩ =
      .cont g ctx a.body.isSome := by
  unfold stage execute says answered
  simp [h, h1, h2, h3]

/-- What is executed was validated. -/
example : ∃ ex, (handle router ⟨none, some (says plain), none, none, none⟩ good ctx).2 = some ex ∧
    router.valid ex.doc = true := by
  have hex : (handle router ⟨none, some (says plain), none, none, none⟩ good ctx).2 =
      some ⟨⟨[("x-b", "3")], ⟨some "good", none, "{}", none⟩⟩, "good", ctx⟩ := by
    have := ran plain ⟨[("x-b", "3")], ⟨some "good", none, "{}", none⟩⟩ (by decide +kernel) rfl rfl rfl
    unfold handle pipeline
    simp only [stage, good, router] at this ⊢
    simp [this, show plain.body.isSome = false from rfl, analysed, stage]
  refine ⟨_, hex, C116_validated_partial hex ?_⟩
  intro hook a hk hc
  cases hk
  obtain ⟨-, -, st, -, -, hr⟩ := hc
  cases hr
  rfl

/-- **C116 does not hold in full.** A document that a coprocessor gives is executed without being
validated. -/
theorem C116_validated_refuted : ¬ ∀ (r : Router String) (hs : Hooks) (q : Request) (c : Ctx)
    (ex : Executed String), (handle r hs q c).2 = some ex → r.valid ex.doc = true := by
  intro h
  have hex : (handle router ⟨none, some (says other), none, none, none⟩ good ctx).2 =
      some ⟨⟨[], ⟨some "bad", none, "{}", none⟩⟩, "bad", ctx⟩ := by
    have := ran other ⟨[], ⟨some "bad", none, "{}", none⟩⟩ (by decide +kernel) rfl rfl rfl
    unfold handle pipeline
    simp only [stage, good, router] at this ⊢
    simp [this, show other.body.isSome = true from rfl, analysed, stage]
  have := h _ _ _ _ _ hex
  revert this
  decide

/-- An answer that ends the request at the GraphQL request: nothing is executed. -/
example : (handle router ⟨none, some (says stop), none, none, none⟩ good ctx).2 = none := by
  cases hx : (handle router ⟨none, some (says stop), none, none, none⟩ good ctx).2 with
  | none => rfl
  | some ex =>
    obtain ⟨q', c1, b1, p, g, c2, b2, b3, -, -, hg, -⟩ := C116_executed hx
    obtain ⟨r, hr, -⟩ := C114_obeyed (applyGraphqlRequest router.read) (hook := says stop) (a := stop) (s := 403)
      c1 ⟨q'.headers, p⟩ ⟨rfl, rfl, 200, by decide, by decide, rfl⟩ rfl (by
        intro hs h
        cases h
        exact (parsed_isSome _).1 (by decide +kernel))
    simp only [stage] at hg
    rw [hr] at hg
    cases hg

/-- A coprocessor that changes the body of every response. -/
def late : Answer :=
  { version := 1, control := .cont, headers := none, body := some (.str "late"), context := none }

theorem late_goes_on (c : Ctx) (x : Response) :
    stage applyRouterResponse (some (says late)) c x = .cont { x with body := some "late" } c true := by
  unfold stage execute says answered applyRouterResponse newHeaders late
  simp [Body.text]

/-- The status stays. -/
example : (handle router ⟨none, none, none, none, some (says late)⟩ good ctx).1.status = 200 := by
  have := C116_status (r := router) (hs := ⟨none, none, none, none, some (says late)⟩) (q := good) (c := ctx)
    rfl (fun c x => ⟨x, c, false, rfl⟩) (fun c x => ⟨_, _, _, late_goes_on c x⟩)
  rw [this]
  rfl

end Verif.Coproc.Case
