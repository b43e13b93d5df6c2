import Verif.Gate.Spec
import Verif.Keys.Props

namespace Verif.Gate
open Verif.Keys (parseBytes normalizeBytes Kind)

variable {β : Type}

theorem find_mem {κ α : Type} [DecidableEq κ] {k : κ} {v : α} {l : List (κ × α)}
    (h : find k l = some v) : (k, v) ∈ l := by
  induction l with
  | nil => cases h
  | cons x rest ih =>
    obtain ⟨k', v'⟩ := x
    simp only [find] at h
    split at h
    · rename_i hk; cases h; subst hk; exact List.mem_cons_self
    · exact List.mem_cons_of_mem _ (ih h)

/-! ## The choice of the operation -/

theorem retain_found (name : Option String) (doc : Doc β) :
    (retain name true doc).1 = true ∧ operations (retain name true doc).2 = [] ∧
      fragments (retain name true doc).2 = fragments doc := by
  induction doc with
  | nil => exact ⟨rfl, rfl, rfl⟩
  | cons d rest ih =>
    cases d with
    | frag b => simpa [retain, operations, fragments] using ih
    | op o => simpa [retain, fragments] using ih

/-- The loop keeps the operation asked for, alone, and all fragments. -/
theorem retain_chosen {name : Option String} {doc : Doc β} (hp : Parsed doc)
    (h : (retain name false doc).1 = true) :
    ∃ o, Chosen name (operations doc) o ∧ operations (retain name false doc).2 = [o] ∧
      fragments (retain name false doc).2 = fragments doc := by
  induction doc with
  | nil => simp [retain] at h
  | cons d rest ih =>
    cases d with
    | frag b =>
      simp only [retain] at h
      obtain ⟨o, h1, h2, h3⟩ := ih hp h
      exact ⟨o, h1, h2, by simp only [retain, fragments, h3]⟩
    | op o =>
      cases name with
      | none =>
        obtain ⟨_, h2, h3⟩ := retain_found none rest
        refine ⟨o, .first o _, ?_, ?_⟩
        · simp [retain, operations, h2]
        · simp [retain, fragments, h3]
      | some n =>
        have hrest : Parsed rest := fun p hm => hp p (List.mem_cons_of_mem _ hm)
        by_cases hb : bingo n o = true
        · obtain ⟨_, h2, h3⟩ := retain_found (some n) rest
          simp only [bingo, Bool.and_eq_true, Bool.not_eq_true', beq_iff_eq] at hb
          refine ⟨o, .named n [] _ o hb.2 (by simp), ?_, ?_⟩
          · simp [retain, bingo, hb, operations, h2]
          · simp [retain, bingo, hb, fragments, h3]
        · have hn : o.name ≠ some n := by
            intro hn
            apply hb
            simp only [bingo, Bool.and_eq_true, Bool.not_eq_true', beq_iff_eq]
            refine ⟨?_, hn⟩
            cases hs : o.shorthand with
            | false => rfl
            | true => rw [(hp o (by simp [operations]) hs).1] at hn; cases hn
          have he : retain (some n) false (.op o :: rest) = retain (some n) false rest := by
            simp [retain, hb]
          rw [he] at h ⊢
          obtain ⟨p, h1, h2, h3⟩ := ih hrest h
          refine ⟨p, ?_, h2, h3⟩
          simp only [operations]
          generalize operations rest = os at h1
          cases h1 with
          | named _ before after _ hit first =>
            exact .named n (o :: before) after p hit (by
              intro q hq
              rcases List.mem_cons.mp hq with rfl | hq
              · exact hn
              · exact first q hq)

theorem retain_missed {name : Option String} {doc : Doc β} (hp : Parsed doc)
    (h : (retain name false doc).1 = false) : ∀ o, ¬ Chosen name (operations doc) o := by
  induction doc with
  | nil => intro o hc; generalize hs : operations ([] : Doc β) = s at hc; cases hc <;> simp [operations] at hs
  | cons d rest ih =>
    cases d with
    | frag b => simp only [retain] at h; exact ih hp h
    | op o =>
      cases name with
      | none => simp [retain, (retain_found none rest).1] at h
      | some n =>
        by_cases hb : bingo n o = true
        · simp [retain, hb, (retain_found (some n) rest).1] at h
        · have hrest : Parsed rest := fun p hm => hp p (List.mem_cons_of_mem _ hm)
          have he : retain (some n) false (.op o :: rest) = retain (some n) false rest := by
            simp [retain, hb]
          rw [he] at h
          intro p hc
          simp only [operations] at hc
          generalize hs : o :: operations rest = s at hc
          cases hc with
          | named _ before after _ hit first =>
            cases before with
            | nil =>
              simp only [List.nil_append, List.cons.injEq] at hs
              obtain ⟨rfl, _⟩ := hs
              apply hb
              simp only [bingo, Bool.and_eq_true, Bool.not_eq_true', beq_iff_eq]
              refine ⟨?_, hit⟩
              cases hsh : o.shorthand with
              | false => rfl
              | true => rw [(hp o (by simp [operations]) hsh).1] at hit; cases hit
            | cons q before =>
              simp only [List.cons_append, List.cons.injEq] at hs
              apply ih hrest h p
              rw [hs.2]
              exact .named n before after p hit fun q hq => first q (List.mem_cons_of_mem _ hq)

theorem firstOp_eq (doc : Doc β) : firstOp doc = (operations doc).head? := by
  induction doc with
  | nil => rfl
  | cons d rest ih => cases d <;> simp [firstOp, operations, ih]

/-! ## The caches -/

theorem documents {q q' n n' : Option String} (h : normalizeBytes q n = normalizeBytes q' n')
    (hq : q.isSome) (hq' : q'.isSome) : q = q' ∧ n = n' := Verif.Keys.C22_documents q q' n n' h hq hq'

theorem normalizeKey_eq (e : Engine β) (q n : Option String) :
    normalizeKey e q n = e.xxh (normalizeBytes q n) := by
  cases n <;> rfl

/-- What the caches hold was computed for one of these requests. -/
structure CachesOk (e : Engine β) (rs : List Request) (c : Caches β) : Prop where
  parse : ∀ x ∈ c.parse, ∃ r ∈ rs, ∃ p ∈ asked r, ∃ text, p.1 = some text ∧
    x.1 = parseKey e p.1 ∧ e.parse text = some x.2
  validate : ∀ x ∈ c.validate, ∃ r ∈ rs, ∃ text doc, r.query = some text ∧ e.parse text = some doc ∧
    x.1 = (r.graph, e.xxh (validateBytes e r.graph (parseKey e r.query))) ∧ x.2 = e.valid r.graph doc
  normalize : ∀ x ∈ c.normalize, ∃ r ∈ rs, ∃ p ∈ asked r, ∃ text doc, p.1 = some text ∧
    e.parse text = some doc ∧ x.1 = (r.graph, normalizeKey e p.1 p.2) ∧
    normalizeDoc e r.graph doc p.2 = some x.2

theorem CachesOk.mono {e : Engine β} {rs : List Request} {c : Caches β} (h : CachesOk e rs c) (r : Request) :
    CachesOk e (r :: rs) c where
  parse x hx := by obtain ⟨s, hs, h⟩ := h.parse x hx; exact ⟨s, List.mem_cons_of_mem _ hs, h⟩
  validate x hx := by obtain ⟨s, hs, h⟩ := h.validate x hx; exact ⟨s, List.mem_cons_of_mem _ hs, h⟩
  normalize x hx := by obtain ⟨s, hs, h⟩ := h.normalize x hx; exact ⟨s, List.mem_cons_of_mem _ hs, h⟩

theorem NoClash.tail {e : Engine β} {r : Request} {rs : List Request} (h : NoClash e (r :: rs)) :
    NoClash e rs where
  word := h.word
  schema := h.schema
  rules := h.rules
  texts a ha b hb := h.texts a (List.mem_cons_of_mem _ ha) b (List.mem_cons_of_mem _ hb)
  operations a ha b hb := h.operations a (List.mem_cons_of_mem _ ha) b (List.mem_cons_of_mem _ hb)
  validations a ha b hb := h.validations a (List.mem_cons_of_mem _ ha) b (List.mem_cons_of_mem _ hb)

theorem parseCached_ok {e : Engine β} {rs : List Request} {c : Caches β} (hc : NoClash e rs)
    (h : CachesOk e rs c) {r : Request} (hr : r ∈ rs) {p : Option String × Option String}
    (hp : p ∈ asked r) : CachesOk e rs (parseCached e c p.1).1 ∧
      (parseCached e c p.1).2 = p.1.bind e.parse := by
  obtain ⟨q, n⟩ := p
  cases q with
  | none => exact ⟨h, rfl⟩
  | some text =>
    simp only [parseCached, Option.bind_some]
    split
    · rename_i doc hf
      refine ⟨h, ?_⟩
      obtain ⟨s, hs, p, hps, text', hpt, hk, hd⟩ := h.parse _ (find_mem hf)
      have := hc.texts r hr s hs _ hp p hps hk
      have := (documents (n := none) (n' := none) this rfl (by rw [hpt]; rfl)).1
      simp only at this
      rw [hpt] at this
      cases this
      exact hd.symm
    · split
      · rename_i hd; exact ⟨h, hd.symm⟩
      · rename_i doc hd
        refine ⟨⟨?_, h.validate, h.normalize⟩, hd.symm⟩
        intro x hx
        rcases List.mem_cons.mp hx with rfl | hx
        · exact ⟨r, hr, _, hp, text, rfl, rfl, hd⟩
        · exact h.parse x hx

theorem validateBytes_inj {e : Engine β} {rs : List Request} (hc : NoClash e rs) {g a b : Nat}
    (ha : a < 2 ^ 64) (hb : b < 2 ^ 64) (h : validateBytes e g a = validateBytes e g b) : a = b := by
  simp only [validateBytes, List.append_cancel_left_eq] at h
  exact le8_inj ha hb h

theorem validateCached_ok {e : Engine β} {rs : List Request} {c : Caches β} (hc : NoClash e rs)
    (h : CachesOk e rs c) {r : Request} (hr : r ∈ rs) {text : String} {doc : Doc β}
    (ht : r.query = some text) (hd : e.parse text = some doc) :
    CachesOk e rs (validateCached e c r.graph (parseKey e r.query) doc).1 ∧
      (validateCached e c r.graph (parseKey e r.query) doc).2 = e.valid r.graph doc := by
  simp only [validateCached]
  split
  · rename_i b hf
    refine ⟨h, ?_⟩
    obtain ⟨s, hs, text', doc', ht', hd', hk, hv⟩ := h.validate _ (find_mem hf)
    simp only [Prod.mk.injEq] at hk
    obtain ⟨hg, hk⟩ := hk
    have h1 := hc.validations r hr s hs hk
    rw [← hg] at h1
    have h2 := validateBytes_inj hc (hc.word _) (hc.word _) h1
    have h3 := hc.texts r hr s hs _ List.mem_cons_self _ List.mem_cons_self h2
    have h4 := (documents (n := none) (n' := none) h3 (by rw [ht]; rfl) (by rw [ht']; rfl)).1
    simp only [ht, ht', Option.some.injEq] at h4
    subst h4
    rw [hd] at hd'
    cases hd'
    simp only at hv
    rw [hv, hg]
  · refine ⟨⟨h.parse, ?_, h.normalize⟩, rfl⟩
    intro x hx
    rcases List.mem_cons.mp hx with rfl | hx
    · exact ⟨r, hr, text, doc, ht, hd, rfl, rfl⟩
    · exact h.validate x hx

theorem normalizeCached_ok {e : Engine β} {rs : List Request} {c : Caches β} (hc : NoClash e rs)
    (h : CachesOk e rs c) {r : Request} (hr : r ∈ rs) {p : Option String × Option String}
    (hp : p ∈ asked r) {text : String} {doc : Doc β} (ht : p.1 = some text)
    (hd : e.parse text = some doc) : CachesOk e rs (normalizeCached e c r.graph p.1 p.2 doc).1 ∧
      (normalizeCached e c r.graph p.1 p.2 doc).2 = normalizeDoc e r.graph doc p.2 := by
  simp only [normalizeCached]
  split
  · rename_i x hf
    refine ⟨h, ?_⟩
    obtain ⟨s, hs, p', hp', text', doc', ht', hd', hk, hn⟩ := h.normalize _ (find_mem hf)
    simp only [Prod.mk.injEq, normalizeKey_eq] at hk
    obtain ⟨hg, hk⟩ := hk
    have h1 := hc.operations r hr s hs p hp p' hp' hk
    obtain ⟨h2, h3⟩ := documents h1 (by rw [ht]; rfl) (by rw [ht']; rfl)
    rw [ht, ht'] at h2
    cases h2
    rw [hd] at hd'
    cases hd'
    simp only at hn
    rw [hg, h3, hn]
  · split
    · rename_i hn; exact ⟨h, hn.symm⟩
    · rename_i x hn
      refine ⟨⟨h.parse, h.validate, ?_⟩, hn.symm⟩
      intro y hy
      rcases List.mem_cons.mp hy with rfl | hy
      · exact ⟨r, hr, p, hp, text, doc, ht, hd, rfl, hn⟩
      · exact h.normalize y hy

/-! ## The stages -/

/-- A request at this stage has so far been treated as if it were alone. -/
def StageOk (e : Engine β) (rs : List Request) : Stage β → Prop
  | .idle => True
  | .arrived r => r ∈ rs
  | .negotiated r m => r ∈ rs ∧ negotiate e r = some m ∧ m ≠ .laboratory
  | .parsed r m doc => r ∈ rs ∧ (negotiate e r = some m ∧ m ≠ .laboratory) ∧ r.query.bind e.parse = some doc
  | .validated r m doc => r ∈ rs ∧ (negotiate e r = some m ∧ m ≠ .laboratory) ∧
      r.query.bind e.parse = some doc ∧ e.valid r.graph doc = true
  | .ready r m q n doc' => r ∈ rs ∧ (negotiate e r = some m ∧ m ≠ .laboratory) ∧
      (∃ doc, r.query.bind e.parse = some doc ∧ e.valid r.graph doc = true) ∧
      final r = (q, n) ∧ q.bind e.parse = some doc'
  | .normalized r m x => r ∈ rs ∧ (negotiate e r = some m ∧ m ≠ .laboratory) ∧
      (∃ doc, r.query.bind e.parse = some doc ∧ e.valid r.graph doc = true) ∧
      ∃ doc', (final r).1.bind e.parse = some doc' ∧ normalizeDoc e r.graph doc' (final r).2 = some x
  | .done r o => r ∈ rs ∧ o = alone e r

theorem StageOk.mono {e : Engine β} {rs : List Request} {s : Stage β} (h : StageOk e rs s) (r : Request) :
    StageOk e (r :: rs) s := by
  cases s <;> first
    | exact List.mem_cons_of_mem _ h
    | exact trivial
    | exact ⟨List.mem_cons_of_mem _ h.1, h.2⟩

theorem final_mem (r : Request) : final r ∈ asked r := by
  simp only [final, asked]
  cases r.websocket <;> cases r.replaced <;> simp

theorem advance_ok {e : Engine β} {rs : List Request} {c : Caches β} (hc : NoClash e rs)
    (h : CachesOk e rs c) {s : Stage β} (hs : StageOk e rs s) :
    CachesOk e rs (advance e c s).1 ∧ StageOk e rs (advance e c s).2 := by
  cases s with
  | idle => exact ⟨h, trivial⟩
  | done r o => exact ⟨h, hs⟩
  | arrived r =>
    simp only [advance]
    split
    · rename_i hn; exact ⟨h, hs, by simp only [alone, hn]⟩
    · rename_i hn; exact ⟨h, hs, by simp only [alone, hn]⟩
    · rename_i m hl hn; exact ⟨h, hs, hn, hl⟩
  | negotiated r m =>
    obtain ⟨hr, hn, hm⟩ := hs
    have hk := parseCached_ok hc h hr (p := (r.query, r.operationName)) List.mem_cons_self
    simp only [advance]
    split
    · rename_i c' heq
      rw [heq] at hk
      refine ⟨hk.1, hr, ?_⟩
      simp only [alone, hn, ← hk.2]
    · rename_i c' doc heq
      rw [heq] at hk
      exact ⟨hk.1, hr, ⟨hn, hm⟩, hk.2.symm⟩
  | parsed r m doc =>
    obtain ⟨hr, ⟨hn, hm⟩, hd⟩ := hs
    obtain ⟨text, ht, hd'⟩ := Option.bind_eq_some_iff.mp hd
    have hk := validateCached_ok hc h hr ht hd'
    simp only [advance]
    split
    · rename_i c' heq
      rw [heq] at hk
      refine ⟨hk.1, hr, ?_⟩
      simp only [alone, hn, hd, ← hk.2]
      cases m <;> first | rfl | exact absurd rfl hm
    · rename_i c' heq
      rw [heq] at hk
      exact ⟨hk.1, hr, ⟨hn, hm⟩, hd, hk.2.symm⟩
  | validated r m doc =>
    obtain ⟨hr, ⟨hn, hm⟩, hd, hv⟩ := hs
    simp only [advance]
    split
    · rename_i hrep
      refine ⟨h, hr, ⟨hn, hm⟩, ⟨doc, hd, hv⟩, ?_, hd⟩
      simp only [final, hrep, Option.getD_none]
    · rename_i q n hrep
      have hf : final r = (q, n) := by simp only [final, hrep, Option.getD_some]
      have hk := parseCached_ok hc h hr (p := (q, n)) (hf ▸ final_mem r)
      split
      · rename_i c' heq
        rw [heq] at hk
        refine ⟨hk.1, hr, ?_⟩
        simp only [alone, hn, hd, hv, hf, ← hk.2, if_true]
      · rename_i c' doc' heq
        rw [heq] at hk
        exact ⟨hk.1, hr, ⟨hn, hm⟩, ⟨doc, hd, hv⟩, hf, hk.2.symm⟩
  | ready r m q n doc' =>
    obtain ⟨hr, ⟨hn, hm⟩, ⟨doc, hd, hv⟩, hf, hq⟩ := hs
    obtain ⟨text, ht, hd'⟩ := Option.bind_eq_some_iff.mp hq
    have hk := normalizeCached_ok hc h hr (p := (q, n)) (hf ▸ final_mem r) ht hd'
    simp only [advance]
    split
    · rename_i c' heq
      rw [heq] at hk
      refine ⟨hk.1, hr, ?_⟩
      simp only [alone, hn, hd, hv, hf, hq, if_true]
      rw [← hk.2]
    · rename_i c' x heq
      rw [heq] at hk
      refine ⟨hk.1, hr, ⟨hn, hm⟩, ⟨doc, hd, hv⟩, doc', ?_, ?_⟩
      · rw [hf]; exact hq
      · rw [hf]; exact hk.2.symm
  | normalized r m x =>
    obtain ⟨hr, ⟨hn, hm⟩, ⟨doc, hd, hv⟩, doc', hq, hx⟩ := hs
    refine ⟨h, hr, ?_⟩
    simp only [alone, hn, hd, hv, hq, hx, if_true]

theorem reachable_ok {e : Engine β} {w : World β} (h : Reachable e w) : NoClash e w.history →
    CachesOk e w.history w.caches ∧ ∀ i, StageOk e w.history (w.stages i) := by
  induction h with
  | start =>
    intro _
    refine ⟨⟨?_, ?_, ?_⟩, fun _ => trivial⟩ <;> intro x hx <;> cases hx
  | step _ s ih =>
    intro hc
    cases s with
    | arrive i r _ =>
      obtain ⟨h1, h2⟩ := ih hc.tail
      refine ⟨h1.mono r, fun j => ?_⟩
      simp only [put]
      split
      · exact List.mem_cons_self
      · exact (h2 j).mono r
    | advance i =>
      obtain ⟨h1, h2⟩ := ih hc
      have := advance_ok hc h1 (h2 i)
      refine ⟨this.1, fun j => ?_⟩
      simp only [put]
      split
      · exact this.2
      · exact h2 j
    | forget c hp hv hn =>
      obtain ⟨h1, h2⟩ := ih hc
      exact ⟨⟨fun x hx => h1.parse x (hp x hx), fun x hx => h1.validate x (hv x hx),
        fun x hx => h1.normalize x (hn x hx)⟩, h2⟩

end Verif.Gate
