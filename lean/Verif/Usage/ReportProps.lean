import Verif.Usage.Report
/-!
# A report accounts for each operation of its batch
-/
namespace Verif.Usage

/-- The reports of a batch that can be reported, with what the processor makes of them. -/
def reportable (proc : Processor) : List Rep → List (Rep × Processed)
  | [] => []
  | r :: rs =>
    match proc r.body with
    | some (some p) => (r, p) :: reportable proc rs
    | _ => reportable proc rs

theorem reportable_append (proc : Processor) : ∀ (a b : List Rep),
    reportable proc (a ++ b) = reportable proc a ++ reportable proc b
  | [], b => rfl
  | r :: a, b => by
    simp only [List.cons_append, reportable]
    split
    · rw [List.cons_append, reportable_append proc a b]
    · exact reportable_append proc a b

structure Told (done : List (Rep × Processed)) (o : Report) : Prop where
  size : o.size = done.length
  ops : o.operations = done.map fun x => entryOf x.1 x.2
  keys : (o.map.map (·.1)).Nodup
  used : ∀ k m, (k, m) ∈ o.map → ∃ r p before after, done = before ++ (r, p) :: after ∧ p.hash = k ∧
    m = ⟨p.text, nonEmpty r.name, p.coords⟩ ∧ ∀ x ∈ before, x.2.hash ≠ k
  there : ∀ x ∈ done, ∃ m, (x.2.hash, m) ∈ o.map

theorem addOne_told {proc : Processor} {done : List (Rep × Processed)} {o : Report} (h : Told done o) (r : Rep) :
    Told (done ++ reportable proc [r]) (addOne proc o r) := by
  unfold addOne
  cases hp : proc r.body with
  | none => simp only [reportable, hp, List.append_nil]; exact h
  | some q =>
    cases q with
    | none => simp only [reportable, hp, List.append_nil]; exact h
    | some p =>
      have hr : reportable proc [r] = [(r, p)] := by simp [reportable, hp]
      rw [hr]
      have grow : ∀ k m, (∃ r p before after, done = before ++ (r, p) :: after ∧ p.hash = k ∧
          m = (⟨p.text, nonEmpty r.name, p.coords⟩ : MapRecord) ∧ ∀ x ∈ before, x.2.hash ≠ k) →
          ∃ r' p' before after, done ++ [(r, p)] = before ++ (r', p') :: after ∧ p'.hash = k ∧
          m = (⟨p'.text, nonEmpty r'.name, p'.coords⟩ : MapRecord) ∧ ∀ x ∈ before, x.2.hash ≠ k := by
        rintro k m ⟨r', p', b, a, e, e1, e2, e3⟩
        exact ⟨r', p', b, a ++ [(r, p)], by rw [e]; simp, e1, e2, e3⟩
      simp only
      by_cases hk : o.map.any (fun e => e.1 == p.hash) = true
      · simp only [if_pos hk]
        refine ⟨by simp [h.size], by simp [h.ops], h.keys, fun k m hm => grow k m (h.used k m hm), ?_⟩
        intro x hx
        rcases List.mem_append.1 hx with hx | hx
        · exact h.there x hx
        · rw [List.mem_singleton] at hx
          subst hx
          obtain ⟨⟨k, m⟩, hm, he⟩ := List.any_eq_true.1 hk
          have : k = p.hash := by simpa using he
          exact ⟨m, this ▸ hm⟩
      · simp only [if_neg hk]
        have hno : ∀ m, (p.hash, m) ∉ o.map := by
          intro m hm
          exact hk (List.any_eq_true.2 ⟨_, hm, by simp⟩)
        refine ⟨by simp [h.size], by simp [h.ops], ?_, ?_, ?_⟩
        · rw [List.map_append, List.nodup_append]
          refine ⟨h.keys, by simp, ?_⟩
          intro a ha b hb
          simp only [List.map_cons, List.map_nil, List.mem_singleton] at hb
          rintro rfl
          obtain ⟨⟨k, m⟩, hm, rfl⟩ := List.mem_map.1 ha
          simp only at hb
          rw [hb] at hm
          exact hno m hm
        · intro k m hm
          rcases List.mem_append.1 hm with hm | hm
          · exact grow k m (h.used k m hm)
          · rw [List.mem_singleton, Prod.mk.injEq] at hm
            obtain ⟨rfl, rfl⟩ := hm
            refine ⟨r, p, done, [], rfl, rfl, rfl, ?_⟩
            intro x hx e
            obtain ⟨m, hm⟩ := h.there x hx
            exact hno m (e ▸ hm)
        · intro x hx
          rcases List.mem_append.1 hx with hx | hx
          · obtain ⟨m, hm⟩ := h.there x hx
            exact ⟨m, List.mem_append_left _ hm⟩
          · rw [List.mem_singleton] at hx
            subst hx
            exact ⟨_, List.mem_append_right _ (List.mem_singleton.2 rfl)⟩

theorem produce_told (proc : Processor) (b : List Rep) : Told (reportable proc b) (produce proc b) := by
  suffices h : ∀ (b : List Rep) (done : List (Rep × Processed)) (o : Report), Told done o →
      Told (done ++ reportable proc b) (b.foldl (addOne proc) o) by
    have := h b [] ⟨0, [], []⟩ ⟨rfl, rfl, List.nodup_nil, fun k m hm => by (cases hm), fun x hx => by (cases hx)⟩
    rwa [List.nil_append] at this
  intro b
  induction b with
  | nil => intro done o h; rw [reportable, List.append_nil]; exact h
  | cons r b ih =>
    intro done o h
    have h1 := addOne_told (proc := proc) h r
    have h2 := ih _ _ h1
    rw [List.append_assoc, ← reportable_append] at h2
    exact h2

/-- C108. A report has one entry for each operation of its batch that can be processed and is not
introspection, in their order, with its time, its outcome and its client; the size is their number. -/
theorem C108_entries (proc : Processor) (b : List Rep) :
    (produce proc b).operations = (reportable proc b).map (fun x => entryOf x.1 x.2) ∧
      (produce proc b).size = (produce proc b).operations.length := by
  have h := produce_told proc b
  exact ⟨h.ops, by rw [h.size, h.ops, List.length_map]⟩

/-- C108. The key of each entry is in the map once, and all keys of the map are keys of entries. -/
theorem C108_keys (proc : Processor) (b : List Rep) :
    ((produce proc b).map.map (·.1)).Nodup ∧
      ∀ k, k ∈ (produce proc b).map.map (·.1) ↔ k ∈ (produce proc b).operations.map (·.key) := by
  have h := produce_told proc b
  refine ⟨h.keys, fun k => ⟨?_, ?_⟩⟩
  · intro hk
    obtain ⟨⟨k, m⟩, hm, rfl⟩ := List.mem_map.1 hk
    obtain ⟨r, p, bf, af, e, e1, _⟩ := h.used k m hm
    rw [h.ops, List.map_map, e]
    simp only [List.map_append, List.mem_append, List.map_cons, List.mem_cons]
    exact .inr (.inl e1.symm)
  · intro hk
    rw [h.ops, List.map_map] at hk
    obtain ⟨x, hx, rfl⟩ := List.mem_map.1 hk
    obtain ⟨m, hm⟩ := h.there x hx
    exact List.mem_map.2 ⟨_, hm, rfl⟩

/-- C108. What the map says under the key of an entry is the text and the coordinates of the operation
of that entry, if operations with different texts have different hashes and the coordinates are those
of the text. -/
theorem C108_text (proc : Processor) (b : List Rep) (r : Rep) (p : Processed)
    (hm : (r, p) ∈ reportable proc b)
    (hh : ∀ x ∈ reportable proc b, x.2.hash = p.hash → x.2 = p) :
    ∃ m, (p.hash, m) ∈ (produce proc b).map ∧ m.text = p.text ∧ m.fields = p.coords ∧
      ∀ m', (p.hash, m') ∈ (produce proc b).map → m' = m := by
  have h := produce_told proc b
  obtain ⟨m, hm'⟩ := h.there _ hm
  obtain ⟨r1, p1, bf, af, e, e1, e2, _⟩ := h.used _ _ hm'
  have := hh (r1, p1) (by rw [e]; simp) e1
  refine ⟨m, hm', by rw [e2, ← this], by rw [e2, ← this], ?_⟩
  intro m' h2
  have key : ∀ {l : List (String × MapRecord)}, (l.map (·.1)).Nodup → ∀ {k x y}, (k, x) ∈ l → (k, y) ∈ l →
      x = y := by
    intro l
    induction l with
    | nil => intro _ k x y hx; cases hx
    | cons a l ih =>
      intro hn k x y hx hy
      rw [List.map_cons, List.nodup_cons] at hn
      rcases List.mem_cons.1 hx with rfl | hx
      · rcases List.mem_cons.1 hy with hy | hy
        · exact (Prod.mk.inj hy).2.symm
        · exact absurd (List.mem_map.2 ⟨_, hy, rfl⟩) hn.1
      · rcases List.mem_cons.1 hy with e | hy
        · rw [← e] at hn
          exact absurd (List.mem_map.2 ⟨_, hx, rfl⟩) hn.1
        · exact ih hn.2 hx hy
  exact key h.keys h2 hm'

/-- C108. Nothing is sent exactly if no operation of the batch can be reported. -/
theorem C108_nothing (proc : Processor) (b : List Rep) :
    sends (produce proc b) = false ↔ reportable proc b = [] := by
  have h := produce_told proc b
  unfold sends
  rw [h.size]
  simp

/-- The text of a document with two operations, and what the processor makes of it. -/
def twoOps : String := "query A{a}query B{b}"
def twoProc : Processor := fun t =>
  if t = twoOps then some (some ⟨twoOps, "h", ["Query.a", "Query.b"]⟩)
  else if t = "{__schema{queryType{name}}}" then some none else none

def repOf (n : Option String) (t : String) : Rep := ⟨n, none, t, none, some "1", 7, 2 ^ 70, true, 0, none, 0⟩

/-- C108 is false of the code for names: of two operations of one document that are reported together
only the name of the first is told. -/
theorem C108_name_refuted : ∃ b r p, (r, p) ∈ reportable twoProc b ∧ r.name = some "B" ∧
    ∀ m, (p.hash, m) ∈ (produce twoProc b).map → m.name = some "A" := by
  refine ⟨[repOf (some "A") twoOps, repOf (some "B") twoOps], repOf (some "B") twoOps,
    ⟨twoOps, "h", ["Query.a", "Query.b"]⟩, by decide +kernel, rfl, ?_⟩
  have : (produce twoProc [repOf (some "A") twoOps, repOf (some "B") twoOps]).map =
      [("h", ⟨twoOps, some "A", ["Query.a", "Query.b"]⟩)] := by decide +kernel
  rw [this]
  intro m hm
  rw [List.mem_singleton] at hm
  cases hm
  rfl

/-- C108. Alone, an operation is told with its name, if it has one that is not empty. -/
theorem C108_name_partial (proc : Processor) (b : List Rep) (before after : List (Rep × Processed)) (r : Rep)
    (p : Processed) (hb : reportable proc b = before ++ (r, p) :: after)
    (hf : ∀ x ∈ before, x.2.hash ≠ p.hash) :
    ∀ m, (p.hash, m) ∈ (produce proc b).map → m.name = nonEmpty r.name := by
  intro m hm
  obtain ⟨r1, p1, b1, a1, e, e1, e2, e3⟩ := (produce_told proc b).used _ _ hm
  rw [hb] at e
  rcases List.append_eq_append_iff.1 e with ⟨c, h1, h2⟩ | ⟨c, h1, h2⟩
  · cases c with
    | nil =>
      rw [List.nil_append, List.cons.injEq, Prod.mk.injEq] at h2
      obtain ⟨⟨rfl, rfl⟩, _⟩ := h2
      rw [e2]
    | cons x c =>
      rw [List.cons_append, List.cons.injEq] at h2
      exact absurd rfl (h2.1 ▸ e3 x (by rw [h1]; simp))
  · cases c with
    | nil =>
      rw [List.nil_append, List.cons.injEq, Prod.mk.injEq] at h2
      obtain ⟨⟨rfl, rfl⟩, _⟩ := h2
      rw [e2]
    | cons x c =>
      rw [List.cons_append, List.cons.injEq] at h2
      exact absurd e1 (hf (r1, p1) (by rw [h1, h2.1]; simp))

/-- A batch with an introspection query and an operation that cannot be processed. -/
example : produce twoProc [repOf none "{__schema{queryType{name}}}", repOf (some "A") twoOps, repOf none "{"] =
    ⟨1, [("h", ⟨twoOps, some "A", ["Query.a", "Query.b"]⟩)],
      [⟨"h", 7, true, 2 ^ 64 - 1, 0, none, some ("", "1")⟩]⟩ := by decide +kernel

end Verif.Usage
