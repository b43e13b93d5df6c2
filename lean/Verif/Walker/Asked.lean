import Verif.Walker.Built
import Verif.Graph.Faithful

/-!
# What a path asks for
-/

namespace Verif.Walker

open Verif.Graph
open Verif.Overrides (Context Label)

/-- The segment is for an edge that may be taken, and what it needs is found by ways. -/
def SegOk (env : Env) (s : Seg Path) : Prop :=
  ∃ e ∈ env.G.edges, s.edge = e.id ∧ Allowed env.ctx e.weight ∧
    ∀ q ∈ s.reqs, ∃ c n t c' m, Way env c n t q.segs c' m

theorem Met.ways {env : Env} {n : Nat} {items : List Sel} {qs : List Path} (h : Met env n items qs) :
    ∀ q ∈ qs, ∃ c n t c' m, Way env c n t q.segs c' m := by
  match h with
  | .mk _ _ _ _ why _ _ _ _ _ h6 => exact fun q hq => ⟨_, _, _, _, _, h6 q hq⟩

theorem Is.ok {env : Env} {n c : Nat} {st : Step} {e : Edge} {s : Seg Path} (h : Is env n c st e s)
    {items : List Sel} (hm : Met env n items s.reqs) : SegOk env s :=
  ⟨e, h.mem, h.edge, h.allowed, hm.ways⟩

theorem Way.segsOk {env : Env} : ∀ {c n tr segs c' m}, Way env c n tr segs c' m → ∀ s ∈ segs, SegOk env s
  | _, _, _, _, _, _, .done _ _, s, hs => by simp at hs
  | _, _, _, _, _, _, .same _ _ _ _ _ _ _ _ _ _ h, s, hs => h.segsOk s hs
  | _, _, _, _, _, _, .hop _ _ _ _ _ _ _ _ _ h1 _ h3 h, s, hs => by
    rcases List.mem_cons.mp hs with rfl | hs
    · exact h1.ok h3
    · exact h.segsOk s hs
  | _, _, _, _, _, _, .step _ _ _ _ _ _ _ _ _ h1 _ h3 h, s, hs => by
    rcases List.mem_cons.mp hs with rfl | hs
    · exact h1.ok h3
    · exact h.segsOk s hs

theorem edge_of_id {S : Super} {ls : List Link} {G : Moves} (hb : Built (roots S) ls G) {e e' : Edge}
    (he : e ∈ G.edges) (he' : e' ∈ G.edges) (h : e.id = e'.id) : e = e' := by
  obtain ⟨i, hi⟩ := List.getElem?_of_mem he
  obtain ⟨j, hj⟩ := List.getElem?_of_mem he'
  have := hb.ids i e hi
  have := hb.ids j e' hj
  have hij : i = j := by omega
  rw [hij, hj, Option.some.injEq] at hi
  exact hi.symm

theorem Uses.mem {env : Env} {p : Path} {e : Edge} (h : Uses env p e) : e ∈ env.G.edges := by
  induction h with
  | here _ _ _ _ he _ => exact he
  | need _ _ _ _ _ _ _ ih => exact ih

theorem uses_allowed {env : Env} {ls : List Link} (hb : Built (roots env.S) ls env.G) {p : Path} {e : Edge}
    (h : Uses env p e) (hp : ∀ s ∈ p.segs, SegOk env s) : Allowed env.ctx e.weight := by
  induction h with
  | here p s e hs he hid =>
    obtain ⟨e', he', hid', hal, _⟩ := hp s hs
    rw [edge_of_id hb he he' (hid.symm.trans hid')]
    exact hal
  | need p s q e hs hq hu ih =>
    obtain ⟨_, _, _, _, hw⟩ := hp s hs
    obtain ⟨_, _, _, _, _, hw⟩ := hw q hq
    exact ih hw.segsOk

theorem arrives_ok {env : Env} (hS : Proper env.S) (hio : NoInterfaceObjects env.S)
    (h : build env.S = .ok env.G) {kind : OpKind} {tr : Trail} {p : Path} (ha : Arrives env kind tr p) :
    ∀ s ∈ p.segs, SegOk env s := by
  have ht := build_wellTyped hS hio h
  obtain ⟨ls, hls, hb⟩ := build_built h
  obtain ⟨e, s, rest, he, hr, h1, h2, h3, h4, h5, h6, w⟩ := ha
  obtain ⟨t, a, hrt, ha, hk⟩ := Built.rootOf hb hr
  obtain ⟨a', b', ha', hb', htyp, hen⟩ := ht e he
  rw [ha] at ha'; simp only [Option.some.injEq] at ha'; subst ha'
  have hnt : a.isType = false := by
    rcases a with ⟨_, n⟩ | ⟨n, g, i, _ | ⟨v⟩ | ⟨u⟩⟩ <;> simp_all [Node.key, Node.isType]
  obtain ⟨g, k, hw⟩ := hen hnt
  rw [h2]
  intro x hx
  rcases List.mem_cons.mp hx with rfl | hx
  · refine ⟨e, he, h3, ?_, ?_⟩
    · intro m hm; rw [hw] at hm; simp at hm
    · rw [h6.1]; simp
  · exact w.segsOk x hx

theorem match_mem {α β : Type} {R : α → β → Prop} {as : List α} {bs : List β} (h : Match R as bs) :
    ∀ b ∈ bs, ∃ a ∈ as, R a b := by
  induction h with
  | nil => simp
  | cons h _ ih =>
    intro b hb
    rcases List.mem_cons.mp hb with rfl | hb
    · exact ⟨_, List.mem_cons_self .., h⟩
    · obtain ⟨a, ha, hr⟩ := ih b hb
      exact ⟨a, List.mem_cons_of_mem _ ha, hr⟩

theorem walk_arrives {env : Env} {kind : OpKind} (hagree : Agree env kind) {sels : List Sel}
    {out : List (List (List Path))} (h : walk env kind sels = .ok out) :
    ∀ gs ∈ out, ∀ g ∈ gs, ∀ p ∈ g, ∃ tr, Arrives env kind tr p := by
  intro gs hgs g hg p hp
  obtain ⟨x, _, ts, gs', _, hperm, hm⟩ := match_mem (walk_resolves hagree h) gs hgs
  obtain ⟨t, _, hs⟩ := match_mem hm g (hperm.mem_iff.mpr hg)
  exact ⟨t, hs.ways p hp⟩

/-- What may be used for this request may be asked for. -/
theorem mayAsk {S : Super} (hS : Proper S) (hj : JoinsOnce S) (ho : OverridesOnce S) {c : Context}
    {type field graph : String} {m : Overrides.FieldMove} (hm : Moved S type field graph m)
    (hu : MayUse c m) : MayAsk S c type field graph := by
  obtain ⟨d, fd, id, hd, hf, hg, h1, h2, h3⟩ := hm
  refine ⟨d, fd, id, hd, hf, hg, ?_, ?_⟩
  · intro j hjm hfrom
    cases ho' : m.overriddenBy with
    | none => exact absurd hfrom (h1 ho' j hjm)
    | some ol =>
      obtain ⟨o, l⟩ := ol
      obtain ⟨j0, hj0, hf0, hl0⟩ := h2 o l ho'
      have := (ho _ hd _ hf j hjm j0 hj0 (by rw [hfrom]; rfl)).1 (hfrom.trans hf0.symm)
      cases l with
      | none => simp only [MayUse, ho'] at hu
      | some l =>
        simp only [MayUse, ho'] at hu
        exact ⟨l, this.trans hl0, hu⟩
  · intro j hjm hgr hfrom l hl
    cases ho' : m.overriddenBy with
    | some ol =>
      obtain ⟨o, l'⟩ := ol
      obtain ⟨j0, hj0, hf0, hl0⟩ := h2 o l' ho'
      exact absurd hf0 ((ho _ hd _ hf j hjm j0 hj0 hfrom).2 id graph hgr hg)
    | none =>
      rcases h3 with ⟨h3, _⟩ | ⟨j0, hj0, hg0, hl0⟩
      · rw [h3] at hjm; simp at hjm
      · have := hj _ hd _ hf j hjm j0 hj0 (hgr.trans hg0.symm) (by rw [hgr]; rfl)
        subst this
        rw [hl] at hl0
        simp only [MayUse, ho', hl0] at hu
        exact hu

end Verif.Walker
