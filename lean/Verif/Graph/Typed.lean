import Verif.Graph.Lemmas
import Verif.Graph.Spec

/-!
# Moves lead from types to types as the supergraph says
-/

namespace Verif.Graph

/-! ## Lists -/

theorem lookup_mem {α : Type} {k : String} {v : α} : ∀ {l : List (String × α)}, l.lookup k = some v →
    (k, v) ∈ l
  | [], h => by simp at h
  | (a, b) :: l, h => by
    rw [List.lookup_cons] at h
    split at h
    next hb => simp only [Option.some.injEq] at h; subst h; rw [eq_of_beq hb]; simp
    · exact List.mem_cons_of_mem _ (lookup_mem h)

theorem nodup_keys {α : Type} {l : List (String × α)} (h : (l.map (·.1)).Nodup) {k : String} {a b : α}
    (ha : (k, a) ∈ l) (hb : (k, b) ∈ l) : a = b := by
  induction l with
  | nil => simp at ha
  | cons x l ih =>
    rw [List.map_cons, List.nodup_cons] at h
    rcases List.mem_cons.mp ha with ha | ha <;> rcases List.mem_cons.mp hb with hb | hb
    · rw [← hb] at ha; exact (Prod.mk.inj ha).2
    · exact absurd (List.mem_map.mpr ⟨_, hb, by rw [← ha]⟩) h.1
    · exact absurd (List.mem_map.mpr ⟨_, ha, by rw [← hb]⟩) h.1
    · exact ih h.2 ha hb

theorem Proper.def_eq {S : Super} (hS : Proper S) {k : String} {a b : Def} (ha : (k, a) ∈ S.defs)
    (hb : (k, b) ∈ S.defs) : a = b := nodup_keys hS.once ha hb

theorem HasField.unique {S : Super} (hS : Proper S) {t f r r' : String} (h : HasField S t f r)
    (h' : HasField S t f r') : r = r' := by
  obtain ⟨d, fd, h1, h2, h3⟩ := h
  obtain ⟨d', fd', h1', h2', h3'⟩ := h'
  obtain rfl := hS.def_eq h1 h1'
  obtain rfl := nodup_keys (hS.fields _ h1) h2 h2'
  exact h3.symm.trans h3'

/-! ## Names -/

theorem key_name {a b : Node} (h : a.key = b.key) : a.name = b.name := by
  rcases a with ⟨_, n⟩ | ⟨n, g, i, _ | ⟨v⟩ | ⟨u⟩⟩ <;> rcases b with ⟨_, m⟩ | ⟨m, g', i', _ | ⟨v'⟩ | ⟨u'⟩⟩ <;>
    simp_all [Node.key, Node.name]

def Node.isType : Node → Bool
  | .root _ _ => false
  | .type _ _ _ _ => true

theorem key_isType {a b : Node} (h : a.key = b.key) : a.isType = b.isType := by
  rcases a with ⟨_, n⟩ | ⟨n, g, i, _ | ⟨v⟩ | ⟨u⟩⟩ <;> rcases b with ⟨_, m⟩ | ⟨m, g', i', _ | ⟨v'⟩ | ⟨u'⟩⟩ <;>
    simp_all [Node.key, Node.isType]

theorem Node.isType_iff {a : Node} : a.isType = true ↔ ∃ t g i s, a = .type t g i s := by
  cases a <;> simp [Node.isType]

/-! ## The links -/

/-- No object can be an object of the other type. -/
def Apart (S : Super) (a t : String) : Prop := a ≠ t → S.implementsIn a t = false

/-- The link leads where the supergraph says. -/
def Typed (S : Super) (l : Link) : Prop :=
  match l.weight with
  | .entry _ _ => l.tail.name = l.head.name
  | .field m => (m.name = "__typename" ∧ l.tail.name = "String") ∨
      (m.name ≠ "__typename" ∧ HasField S l.head.name m.name l.tail.name)
  | .reentry f _ _ => f ≠ "__typename" ∧ HasField S l.head.name f l.tail.name
  | .entity _ _ _ => l.tail.name = l.head.name
  | .abstract t => l.tail.name = t ∧ Apart S l.head.name t
  | .selfie t => l.tail.name = t ∧ l.head.name = t
  | .ioType _ _ => False

/-- A good link: from a root only into its type, and otherwise between types. -/
structure Good (S : Super) (l : Link) : Prop where
  tail : l.tail.isType = true
  typed : Typed S l
  entry : l.head.isType = false → ∃ g k, l.weight = .entry g k

theorem implementsIn_object {S : Super} (hS : Proper S) {a t : String} (h : S.implementsIn a t = true) :
    ∃ d, (a, d) ∈ S.defs ∧ d.kind = .object ∧ ∃ i ∈ d.implements, i.2 = t := by
  unfold Super.implementsIn at h
  obtain ⟨x, hx, hw⟩ := List.any_eq_true.mp h
  simp only [Bool.and_eq_true, decide_eq_true_eq, beq_iff_eq] at hw
  obtain ⟨⟨h1, h2⟩, h3⟩ := hw
  obtain ⟨i, hi, hi'⟩ := List.any_eq_true.mp h3
  refine ⟨x.2, ?_, h1, i, hi, eq_of_beq hi'⟩
  rw [← h2, hS.names x hx]
  exact hx

theorem apart_of {S : Super} (hS : Proper S) {a t : String}
    (h : ∀ d, (a, d) ∈ S.defs → d.kind = .object → False) : Apart S a t := by
  intro _
  rw [Bool.eq_false_iff]
  intro hi
  obtain ⟨d, h1, h2, _⟩ := implementsIn_object hS hi
  exact h d h1 h2

theorem apart_to {S : Super} (hS : Proper S) {a t : String} (h : ∀ d, (t, d) ∈ S.defs → d.kind = .object)
    (ht : ∃ d, (t, d) ∈ S.defs) : Apart S a t := by
  intro _
  rw [Bool.eq_false_iff]
  intro hi
  obtain ⟨d, h1, h2, i, h3, rfl⟩ := implementsIn_object hS hi
  obtain ⟨d', hd'⟩ := ht
  exact hS.interfaces _ h1 i h3 _ hd' rfl (h d' hd')

theorem rootLinks_good {S : Super} {name : String} {d : Def} {l : Link} (h : l ∈ rootLinks S name d) :
    Good S l := by
  unfold rootLinks at h
  split at h
  · simp at h
  · obtain ⟨g, _, rfl⟩ := List.mem_map.mp h
    exact ⟨rfl, rfl, fun _ => ⟨_, _, rfl⟩⟩

theorem entries_spec {S : Super} (hS : Proper S) {k : OpKind} {n : Node} (h : n ∈ entries S k) :
    n.isType = true ∧ S.rootKind n.name = some k := by
  unfold entries at h
  rw [List.mem_eraseDups, List.mem_filterMap] at h
  obtain ⟨l, hl, hw⟩ := h
  rw [List.mem_flatMap] at hl
  obtain ⟨x, hx, hl⟩ := hl
  unfold rootLinks at hl
  split at hl
  · simp at hl
  next k' hk =>
    obtain ⟨g, _, rfl⟩ := List.mem_map.mp hl
    simp only at hw
    split at hw
    next he =>
      simp only [Option.some.injEq] at hw
      subst hw he
      refine ⟨rfl, ?_⟩
      unfold Super.rootOf at hk
      split at hk
      · rw [hS.names x hx] at hk; exact hk
      · simp at hk
    · simp at hw

/-- The kind of a root tells its type, if the roots have different types. -/
theorem rootKind_name {S : Super} {a b : String} {k : OpKind} (ha : S.rootKind a = some k)
    (hb : S.rootKind b = some k) : a = b := by
  unfold Super.rootKind at ha hb
  repeat' split at ha
  all_goals repeat' split at hb
  all_goals simp_all
  all_goals first
    | (obtain rfl := ha; simp at hb)
    | skip

theorem at_isType (S : Super) (t g : String) : (S.at t g).isType = true := rfl
theorem at_name (S : Super) (t g : String) : (S.at t g).name = t := rfl
theorem view_isType (S : Super) (t g : String) (v : Nat) : (S.view t g v).isType = true := rfl
theorem view_name (S : Super) (t g : String) (v : Nat) : (S.view t g v).name = t := rfl

theorem Good.of {S : Super} {l : Link} (hh : l.head.isType = true) (ht : l.tail.isType = true)
    (h : Typed S l) : Good S l := ⟨ht, h, fun hf => by rw [hh] at hf; simp at hf⟩

theorem hasField {S : Super} {name f : String} {d : Def} {fd : FieldDef} (hd : (name, d) ∈ S.defs)
    (hf : (f, fd) ∈ d.fields) : HasField S name f fd.typeName := ⟨d, fd, hd, hf, rfl⟩

theorem def?_mem {S : Super} {t : String} {d : Def} (h : S.def? t = some d) : (t, d) ∈ S.defs :=
  lookup_mem h

theorem isUnion_apart {S : Super} (hS : Proper S) {u t : String} (h : S.isUnion u = true) :
    Apart S u t := by
  refine apart_of hS ?_
  intro d hd hk
  unfold Super.isUnion at h
  split at h
  next d' hd' =>
    obtain rfl := hS.def_eq hd (def?_mem hd')
    simp [hk] at h
  · simp at h

theorem fieldLinks_good {S : Super} (hS : Proper S) {name g f : String} {d : Def} {fd : FieldDef}
    (hd : (name, d) ∈ S.defs) (hf : (f, fd) ∈ d.fields) {l : Link} (h : l ∈ fieldLinks S name d g f fd) :
    Good S l := by
  have hne := hS.typename _ hd _ hf
  simp only [fieldLinks] at h
  split at h
  · simp at h
  next mj _ =>
    split at h
    · simp at h
    · split at h
      next hu =>
        rw [List.mem_flatMap] at h
        obtain ⟨m, _, h⟩ := h
        simp only [unionLinks, List.mem_cons, List.not_mem_nil, or_false] at h
        rcases h with rfl | rfl | rfl
        · exact .of rfl rfl (.inl ⟨rfl, rfl⟩)
        · exact .of rfl rfl (.inr ⟨hne, hasField hd hf⟩)
        · exact .of rfl rfl ⟨rfl, isUnion_apart hS hu⟩
      · rcases List.mem_cons.mp h with rfl | h
        · exact .of rfl rfl (.inr ⟨hne, hasField hd hf⟩)
        · unfold reentryLinks at h
          split at h
          · simp at h
          next k hk =>
            obtain ⟨n, hn, rfl⟩ := List.mem_map.mp h
            obtain ⟨h1, h2⟩ := entries_spec hS (List.mem_filter.mp hn).1
            refine .of rfl h1 ⟨hne, ?_⟩
            change HasField S name f n.name
            rw [rootKind_name h2 hk]
            exact hasField hd hf

theorem typeLinks_good {S : Super} (hS : Proper S) {name g : String} {d : Def}
    (hd : (name, d) ∈ S.defs) {l : Link} (h : l ∈ typeLinks S name d g) : Good S l := by
  simp only [typeLinks] at h
  rcases List.mem_append.mp h with h | h
  · split at h
    · simp only [List.mem_cons, List.not_mem_nil, or_false] at h
      subst h
      exact .of rfl rfl (.inl ⟨rfl, rfl⟩)
    · simp at h
  · rcases List.mem_cons.mp h with rfl | h
    · exact .of rfl rfl ⟨rfl, rfl⟩
    · rw [List.mem_flatMap] at h
      obtain ⟨f, hf, h⟩ := h
      exact fieldLinks_good hS hd hf h

theorem implLinks_good {S : Super} (hS : Proper S) {name : String} {d : Def}
    (hd : (name, d) ∈ S.defs) {l : Link} (h : l ∈ implLinks S name d) : Good S l := by
  unfold implLinks at h
  split at h
  next hk =>
    obtain ⟨x, hx, rfl⟩ := List.mem_map.mp h
    have hn : d.name = name := hS.names _ hd
    refine .of rfl rfl ⟨hn.symm, ?_⟩
    rw [hn]
    refine apart_of hS ?_
    intro d' hd' hk'
    exact hS.interfaces _ hd x hx _ hd' rfl hk'
  · simp at h

theorem entityLinks_good {S : Super} (hio : NoInterfaceObjects S) {name : String} {d : Def}
    (hd : (name, d) ∈ S.defs) {l : Link} (h : l ∈ entityLinks S name d) : Good S l := by
  unfold entityLinks at h
  rw [List.mem_flatMap] at h
  obtain ⟨j1, hj1, h⟩ := h
  rcases List.mem_append.mp h with h | h
  · rw [List.mem_flatMap] at h
    obtain ⟨j2, _, h⟩ := h
    simp only [keyLinks] at h
    split at h <;> split at h
    · simp only [List.mem_cons, List.not_mem_nil, or_false] at h
      subst h; exact .of rfl rfl rfl
    · simp at h
    · simp only [List.mem_cons, List.not_mem_nil, or_false] at h
      subst h; exact .of rfl rfl rfl
    · simp at h
  · unfold ioLinks at h
    split at h
    next hi _ _ => rw [hio _ hd _ hj1] at hi; simp at hi
    · simp at h

theorem viewKeyLinks_good {S : Super} {d : Def} {g : String} {head : Node} (hn : head.name = d.name)
    (ht : head.isType = true) {l : Link} (h : l ∈ viewKeyLinks S d g head) : Good S l := by
  unfold viewKeyLinks at h
  rw [List.mem_flatMap] at h
  obtain ⟨j, _, h⟩ := h
  split at h
  · split at h
    · simp only [List.mem_cons, List.not_mem_nil, or_false] at h
      subst h
      exact .of ht rfl hn.symm
    · simp at h
  · simp at h

/-- The type conditions are objects. -/
def OnObjects (S : Super) (cs : List String) : Prop :=
  ∀ t ∈ cs, ∀ y ∈ S.defs, y.1 = t → y.2.kind = .object

mutual
theorem viewSel_good {S : Super} (hS : Proper S) {g : String} {v : Nat} : ∀ (x : Sel) {d : Def} {head : Node},
    (head.name, d) ∈ S.defs → head.isType = true → OnObjects S (condsOf x) →
    ∀ {ls}, viewSel S g v d head x = .ok ls → ∀ l ∈ ls, Good S l
  | .field f ss, d, head, hd, ht, hc, ls, h => by
    simp only [viewSel] at h
    split at h
    · simp at h
    next fd hfd =>
      have hf := lookup_mem hfd
      have here : ∀ l ∈ ([⟨S.view fd.typeName g v, S.view fd.typeName g v, .selfie fd.typeName⟩,
          ⟨head, S.view fd.typeName g v, .field {
            name := f.name, typeName := d.name, isLeaf := S.isScalar d.name, isList := fd.isList }⟩] :
          List Link), Good S l := by
        intro l hl
        simp only [List.mem_cons, List.not_mem_nil, or_false] at hl
        rcases hl with rfl | rfl
        · exact .of rfl rfl ⟨rfl, rfl⟩
        · exact .of ht rfl (.inr ⟨hS.typename _ hd _ hf, hasField hd hf⟩)
      split at h
      · simp only [Except.ok.injEq] at h; subst h; exact here
      · split at h
        · simp at h
        next d' hd' =>
          split at h
          · simp at h
          next r hr =>
            simp only [Except.ok.injEq] at h
            subst h
            intro l hl
            rcases List.mem_append.mp hl with hl | hl
            · rcases List.mem_append.mp hl with hl | hl
              · exact here l hl
              · exact viewKeyLinks_good (head := S.view fd.typeName g v) (hS.names _ (def?_mem hd')).symm rfl hl
            · exact viewSels_good hS ss (head := S.view fd.typeName g v) (def?_mem hd') rfl (by simpa only [condsOf] using hc) hr l hl
  | .frag c ss, d, head, hd, ht, hc, ls, h => by
    simp only [viewSel] at h
    split at h
    · simp at h
    next d' hd' =>
      have hm := def?_mem hd'
      split at h
      · simp at h
      next r hr =>
        simp only [Except.ok.injEq] at h
        subst h
        intro l hl
        rcases List.mem_append.mp hl with hl | hl
        · rcases List.mem_append.mp hl with hl | hl
          · simp only [List.mem_cons, List.not_mem_nil, or_false] at hl
            rcases hl with rfl | rfl
            · exact .of rfl rfl ⟨rfl, rfl⟩
            · refine .of ht rfl ⟨rfl, apart_to hS ?_ ⟨d', hm⟩⟩
              intro d'' hd''
              exact hc c.cond (by simp [condsOf]) _ hd'' rfl
          · exact viewKeyLinks_good (head := S.view c.cond g v) (hS.names _ hm).symm rfl hl
        · exact viewSels_good hS ss (head := S.view c.cond g v) hm rfl
            (fun t h' => hc t (by simp [condsOf, h'])) hr l hl
  | .spread _, d, head, hd, ht, hc, ls, h => by simp [viewSel] at h
theorem viewSels_good {S : Super} (hS : Proper S) {g : String} {v : Nat} : ∀ (xs : List Sel) {d : Def}
    {head : Node}, (head.name, d) ∈ S.defs → head.isType = true → OnObjects S (condsOfAll xs) →
    ∀ {ls}, viewSels S g v d head xs = .ok ls → ∀ l ∈ ls, Good S l
  | [], d, head, hd, ht, hc, ls, h => by
    simp only [viewSels, Except.ok.injEq] at h; subst h; simp
  | x :: r, d, head, hd, ht, hc, ls, h => by
    simp only [viewSels] at h
    split at h
    · simp at h
    next a ha =>
      split at h
      · simp at h
      next b hb =>
        simp only [Except.ok.injEq] at h
        subst h
        intro l hl
        rcases List.mem_append.mp hl with hl | hl
        · exact viewSel_good hS x hd ht (fun t h' => hc t (by simp [condsOfAll, h'])) ha l hl
        · exact viewSels_good hS r hd ht (fun t h' => hc t (by simp [condsOfAll, h'])) hb l hl
end

theorem provisions_mem {d : Def} {g : String} {x : String × FieldDef × JoinField × List Sel}
    (h : x ∈ provisions d g) : (x.1, x.2.1) ∈ d.fields ∧ x.2.2.1 ∈ x.2.1.joins ∧
      x.2.2.1.graph = some g ∧ ∃ s, x.2.2.1.provides = some (s, x.2.2.2) := by
  unfold provisions at h
  rw [List.mem_flatMap] at h
  obtain ⟨f, hf, h⟩ := h
  rw [List.mem_filterMap] at h
  obtain ⟨j, hj, h⟩ := h
  split at h
  next hg =>
    cases hp : j.provides with
    | none => rw [hp] at h; simp at h
    | some p =>
      rw [hp] at h
      simp only [Option.map_some, Option.some.injEq] at h
      subst h
      exact ⟨hf, hj, eq_of_beq hg, p.1, hp⟩
  · simp at h

theorem viewsFrom_good {S : Super} (hS : Proper S) {name : String} {d : Def} {g : String}
    (hd : (name, d) ∈ S.defs) : ∀ (ps : List (String × FieldDef × JoinField × List Sel)) {v : Nat},
    (∀ x ∈ ps, x ∈ provisions d g) →
    ∀ {ls}, viewsFrom S name d g v ps = .ok ls → ∀ l ∈ ls, Good S l
  | [], v, _, ls, h => by simp only [viewsFrom, Except.ok.injEq] at h; subst h; simp
  | (fname, fd, j, items) :: r, v, hp, ls, h => by
    obtain ⟨h1, h2, _, s, h4⟩ := provisions_mem (hp _ (List.mem_cons_self ..))
    simp only at h1 h2 h4
    simp only [viewsFrom] at h
    split at h
    · simp at h
    next a ha =>
      split at h
      · simp at h
      next b hb =>
        simp only [Except.ok.injEq] at h
        subst h
        intro l hl
        rcases List.mem_append.mp hl with hl | hl
        · simp only [providesLinks] at ha
          split at ha
          · simp at ha
          next d' hd' =>
            split at ha
            · simp at ha
            next r' hr' =>
              simp only [Except.ok.injEq] at ha
              subst ha
              have hm := def?_mem hd'
              rcases List.mem_append.mp hl with hl | hl
              · rcases List.mem_append.mp hl with hl | hl
                · simp only [List.mem_cons, List.not_mem_nil, or_false] at hl
                  rcases hl with rfl | rfl
                  · exact .of rfl rfl ⟨rfl, rfl⟩
                  · refine .of rfl rfl (.inr ⟨hS.typename _ hd _ h1, ?_⟩)
                    change HasField S d.name fname fd.typeName
                    rw [hS.names _ hd]
                    exact hasField hd h1
                · exact viewKeyLinks_good (head := S.view fd.typeName g v) (hS.names _ hm).symm rfl hl
              · exact viewSels_good hS items (head := S.view fd.typeName g v) hm rfl (hS.provides _ hd _ h1 _ h2 _ h4) hr' l hl
        · exact viewsFrom_good hS hd r (fun x hx => hp x (List.mem_cons_of_mem _ hx)) hb l hl

theorem viewLinks_good {S : Super} (hS : Proper S) {name : String} {d : Def} {g : String}
    (hd : (name, d) ∈ S.defs) {ls : List Link} (h : viewLinks S name d g = .ok ls) : ∀ l ∈ ls, Good S l := by
  unfold viewLinks at h
  split at h
  · simp only [Except.ok.injEq] at h; subst h; simp
  next p ps hps =>
    split at h
    · simp at h
    next a ha =>
      simp only [Except.ok.injEq] at h
      subst h
      intro l hl
      rcases List.mem_append.mp hl with hl | hl
      · exact viewsFrom_good hS hd _ (fun x hx => by rw [hps]; exact hx) ha l hl
      · exact viewKeyLinks_good (d := { d with name := name }) (head := S.at d.name g) (hS.names _ hd) rfl hl

theorem joinAll_mem {α β : Type} {f : α → Except BuildErr (List β)} : ∀ {xs : List α} {bs : List β},
    joinAll f xs = .ok bs → ∀ b ∈ bs, ∃ x ∈ xs, ∃ ys, f x = .ok ys ∧ b ∈ ys
  | [], bs, h => by simp only [joinAll, Except.ok.injEq] at h; subst h; simp
  | x :: r, bs, h => by
    simp only [joinAll] at h
    split at h
    · simp at h
    next a ha =>
      split at h
      · simp at h
      next b hb =>
        simp only [Except.ok.injEq] at h
        subst h
        intro y hy
        rcases List.mem_append.mp hy with hy | hy
        · exact ⟨x, by simp, a, ha, hy⟩
        · obtain ⟨x', h1, h2⟩ := joinAll_mem hb y hy
          exact ⟨x', by simp [h1], h2⟩

/-- Which definition a link comes from. -/
theorem links_cases {S : Super} {ls : List Link} (h : links S = .ok ls) : ∀ l ∈ ls,
    ∃ name d, (name, d) ∈ S.defs ∧
      (l ∈ rootLinks S name d ∨ (∃ g ∈ d.graphs, l ∈ typeLinks S name d g) ∨ l ∈ implLinks S name d ∨
        l ∈ entityLinks S name d ∨ ∃ g ∈ d.graphs, ∃ vs, viewLinks S name d g = .ok vs ∧ l ∈ vs) := by
  unfold links at h
  split at h
  · simp at h
  next views hv =>
    simp only [Except.ok.injEq] at h
    subst h
    intro l hl
    simp only [List.mem_append, List.mem_flatMap] at hl
    rcases hl with (((hl | hl) | hl) | hl) | hl
    · obtain ⟨x, hx, hl⟩ := hl; exact ⟨x.1, x.2, hx, .inl hl⟩
    · obtain ⟨x, hx, hl⟩ := hl; exact ⟨x.1, x.2, hx, .inr (.inl hl)⟩
    · obtain ⟨x, hx, hl⟩ := hl; exact ⟨x.1, x.2, hx, .inr (.inr (.inl hl))⟩
    · obtain ⟨x, hx, hl⟩ := hl; exact ⟨x.1, x.2, hx, .inr (.inr (.inr (.inl hl)))⟩
    · obtain ⟨x, hx, ys, hy, hl⟩ := joinAll_mem hv l hl
      obtain ⟨g, hg, vs, hvs, hl⟩ := joinAll_mem hy l hl
      exact ⟨x.1, x.2, hx, .inr (.inr (.inr (.inr ⟨g, hg, vs, hvs, hl⟩)))⟩

theorem links_good {S : Super} (hS : Proper S) (hio : NoInterfaceObjects S) {ls : List Link}
    (h : links S = .ok ls) : ∀ l ∈ ls, Good S l := by
  intro l hl
  obtain ⟨name, d, hd, hl | ⟨g, _, hl⟩ | hl | hl | ⟨g, _, vs, hvs, hl⟩⟩ := links_cases h l hl
  · exact rootLinks_good hl
  · exact typeLinks_good hS hd hl
  · exact implLinks_good hS hd hl
  · exact entityLinks_good hio hd hl
  · exact viewLinks_good hS hd hvs l hl

end Verif.Graph
