import Verif.Fetch.Walk
import Verif.Fetch.Plan
import Verif.Graph.Faithful
import Verif.Walker.Asked

/-!
# Lemmas: from paths to drafts
-/

namespace Verif.Fetch

open Verif.Graph (OpKind Moves Edge Weight FieldMove Req Super build Proper NoInterfaceObjects ProvidesOwn Says)
open Verif.Walker (Cond Env Trail Way Met Arrives Path)

variable {v : Vars}

/-! ## The graph of moves -/

theorem edge_found {S : Super} {G : Moves} (h : build S = .ok G) {e : Edge} (he : e ∈ G.edges) :
    Walker.Moves.edge? G e.id = some e := by
  obtain ⟨ls, _, hb⟩ := Verif.Graph.build_built h
  obtain ⟨i, hi, hie⟩ := List.getElem_of_mem he
  have hid : ∀ j (hj : j < G.edges.length), (G.edges[j]).id = j := fun j hj =>
    hb.ids j _ (List.getElem?_eq_getElem hj)
  unfold Walker.Moves.edge?
  rw [List.find?_eq_some_iff_getElem]
  refine ⟨by simp, i, hi, hie, fun j hj => ?_⟩
  have h1 := hid j (by omega)
  have h2 := hid i hi
  rw [hie] at h2
  simp [h1, h2]
  omega

theorem build_stays {S : Super} (hS : Proper S) (hio : NoInterfaceObjects S) (ho : ProvidesOwn S) {G : Moves}
    (h : build S = .ok G) : Stays G := by
  intro e he
  obtain ⟨a, b, ha, hb, hs⟩ := Verif.Graph.build_says hS hio ho h e he
  obtain ⟨_, t, gr, i, sp, hd⟩ := Walker.build_connected h e he
  have h1 : graphAt G e.src = a.graph := by simp [graphAt, ha]
  have h2 : graphAt G e.dst = b.graph := by simp [graphAt, hb]
  refine ⟨⟨gr, by simp [graphAt, hd, Verif.Graph.Node.graph]⟩, ?_⟩
  rw [h1, h2]
  cases hw : e.weight <;> rw [hw] at hs <;> simp only [Says] at hs
  · exact hs.1
  · obtain ⟨g, h3, h4, _⟩ := hs
    exact h4.trans h3.symm
  all_goals first | trivial | exact hs.1

/-! ## Ways are paths of the graph -/

theorem met_nil {env : Env} {n : Nat} {qs : List Path} (h : Met env n [] qs) : qs = [] := by
  cases h with
  | mk _ _ _ pick why _ _ _ h4 _ _ =>
    cases qs with
    | nil => rfl
    | cons q r =>
      have := h4 q (List.mem_cons_self ..)
      simp [Walker.reqTrailsAll] at this

mutual
theorem way_okay {env : Env} (hE : ∀ e ∈ env.G.edges, Walker.Moves.edge? env.G e.id = some e) :
    ∀ {c n tr segs c' m}, Way env c n tr segs c' m → Okay env.G n segs
  | _, _, _, _, _, _, .done _ _ => by simp [Okay]
  | _, _, _, _, _, _, .same c n node t tr segs c' m h1 h2 h => way_okay hE h
  | _, _, _, _, _, _, .hop c n e s st tr segs c' m h1 h2 h3 h => by
    have hs := way_okay hE h
    have hq := met_okay hE h3
    obtain ⟨id, t, k, rs, a, cd⟩ := s
    simp only [Okay]
    refine ⟨⟨e, (show id = e.id from h1.edge) ▸ hE e h1.mem, h1.src, h1.tail, fun hn => ?_, fun s k hw => ?_⟩, hq, hs⟩
    · simp only [Walker.needed, hn] at h3
      exact met_nil h3
    · rw [hw] at h2
      cases h2
  | _, _, _, _, _, _, .step c n e s st tr segs c' m h1 h2 h3 h => by
    have hs := way_okay hE h
    have hq := met_okay hE h3
    obtain ⟨id, t, k, rs, a, cd⟩ := s
    simp only [Okay]
    refine ⟨⟨e, (show id = e.id from h1.edge) ▸ hE e h1.mem, h1.src, h1.tail, fun hn => ?_, fun s k hw => ?_⟩, hq, hs⟩
    · simp only [Walker.needed, hn] at h3
      exact met_nil h3
    · rw [hw] at h2
      cases h2
theorem met_okay {env : Env} (hE : ∀ e ∈ env.G.edges, Walker.Moves.edge? env.G e.id = some e) :
    ∀ {n items qs}, Met env n items qs → OkayReqs env.G n qs
  | n, items, qs, .mk _ _ _ pick why h1 h2 h3 h4 h5 h6 => by
    have h6' : ∀ q ∈ qs, Okay env.G n q.segs := fun q hq => way_okay hE (h6 q hq)
    clear h1 h2 h3 h4 h6
    induction qs with
    | nil => simp [OkayReqs]
    | cons q r ih =>
      obtain ⟨root, segs, cost, ky⟩ := q
      simp only [OkayReqs, OkayPath]
      exact ⟨⟨h5 _ (List.mem_cons_self ..), h6' _ (List.mem_cons_self ..)⟩,
        ih (fun q hq => h5 q (List.mem_cons_of_mem _ hq)) fun q hq => h6' q (List.mem_cons_of_mem _ hq)⟩
end

/-! ## What ways lead to -/

theorem way_wants {env : Env} (ht : Walker.WellTyped env.S env.G)
    (hE : ∀ e ∈ env.G.edges, Walker.Moves.edge? env.G e.id = some e) {f : FieldInfo} {tr1 : Trail} :
    ∀ {c n tr segs c' m}, Way env c n tr segs c' m → ∀ {tr0 : Trail}, tr = tr0 ++ .field f :: tr1 →
    trailHolds v (tr0 ++ [.field f]) = true → ∀ {a}, env.G.node n = some a → ∀ {K : List String},
    ∃ e b, e ∈ env.G.edges ∧ Walker.Takes (.field f) e.weight ∧ env.G.node e.src = some b ∧
      Walker.After env.S a.name tr0 b.name ∧ Wants env.G v K segs ⟨e, K ++ trailKeys tr0, askOf f⟩
  | _, _, _, _, _, _, .done _ _, tr0, heq, _, _, _, _ => by
    simp at heq
  | _, _, _, _, _, _, .same c n node t tr segs c' m h1 h2 h, tr0, heq, hh, a, ha, K => by
    cases tr0 with
    | nil => simp at heq
    | cons st tr0 =>
      simp only [List.cons_append, List.cons.injEq] at heq
      obtain ⟨rfl, rfl⟩ := heq
      simp only [List.cons_append, trailHolds, Bool.and_eq_true] at hh
      obtain ⟨e, b, k1, k2, k3, k4, k5⟩ := way_wants ht hE h rfl hh.2 ha (K := K)
      rw [h1] at ha
      cases ha
      exact ⟨e, b, k1, k2, k3, .cons _ _ _ _ _ (.inl ⟨h2, rfl⟩) k4, k5⟩
  | _, _, _, _, _, _, .hop c n e s st tr segs c' m h1 h2 h3 h, tr0, heq, hh, a, ha, K => by
    obtain ⟨a', b', ha', hb', htyp, _⟩ := ht e h1.mem
    rw [h1.src, ha] at ha'
    cases ha'
    rw [← h1.tail] at hb'
    obtain ⟨e', b, k1, k2, k3, k4, k5⟩ := way_wants ht hE h heq hh hb' (K := K ++ attrsKeys s.attrs e.weight)
    have hcond : holds v s.cond = true := by
      have hl := h1.labels
      cases tr0 with
      | nil =>
        simp only [List.nil_append, List.cons.injEq] at heq
        obtain ⟨rfl, _⟩ := heq
        simp only [List.nil_append, trailHolds, Bool.and_true] at hh
        simp only [Walker.Labels] at hl
        rw [hl.2]
        exact hh
      | cons st0 tr0 =>
        simp only [List.cons_append, List.cons.injEq] at heq
        obtain ⟨rfl, _⟩ := heq
        cases st with
        | field f0 =>
          simp only [List.cons_append, trailHolds, Bool.and_eq_true] at hh
          simp only [Walker.Labels] at hl
          rw [hl.2]
          exact hh.1
        | on t c =>
          simp only [List.cons_append, trailHolds, Bool.and_eq_true] at hh
          simp only [Walker.Labels] at hl
          rw [hl.2]
          exact hh.1
    have hnone : Weight.fieldName e.weight = none := by
      cases hw : e.weight <;> rw [hw] at h2 <;> cases h2 <;> rfl
    have hk : attrsKeys s.attrs e.weight = [] := by simp [attrsKeys, hnone]
    refine ⟨e', b, k1, k2, k3, ?_, .next hcond (h1.edge ▸ hE e h1.mem) ?_⟩
    · generalize hw : e.weight = w at h2 htyp
      cases h2 with
      | entity k r i =>
        have : b'.name = a.name := htyp
        rw [← this]; exact k4
      | ioType t r => exact htyp.elim
    · simpa [hk] using k5
  | _, _, _, _, _, _, .step c n e s st tr segs c' m h1 h2 h3 h, tr0, heq, hh, a, ha, K => by
    have hl := h1.labels
    cases tr0 with
    | nil =>
      simp only [List.nil_append, List.cons.injEq] at heq
      obtain ⟨rfl, rfl⟩ := heq
      simp only [List.nil_append, trailHolds, Bool.and_true] at hh
      simp only [Walker.Labels] at hl
      refine ⟨e, a, h1.mem, h2, by rw [h1.src]; exact ha, .nil _, ?_⟩
      have hname : Weight.fieldName e.weight = some f.name := by
        generalize e.weight = w at h2
        cases h2 with
        | field _ m hn => simp [Weight.fieldName, hn]
        | reentry _ nm ty li hn => simp [Weight.fieldName, hn]
      have hask : attrsAsk s.attrs f.name = askOf f := by
        rw [hl.1]
        rfl
      have := Wants.here (G := env.G) (v := v) (K := K) (s := s) (r := segs) (e := e) (name := f.name)
        (by rw [hl.2]; exact hh) (h1.edge ▸ hE e h1.mem) hname
      rw [hask] at this
      simpa [trailKeys] using this
    | cons st0 tr0 =>
      simp only [List.cons_append, List.cons.injEq] at heq
      obtain ⟨rfl, rfl⟩ := heq
      obtain ⟨a', b', ha', hb', htyp, _⟩ := ht e h1.mem
      rw [h1.src, ha] at ha'
      cases ha'
      rw [← h1.tail] at hb'
      have hh' : holds v s.cond = true ∧ trailHolds v (tr0 ++ [.field f]) = true := by
        cases st with
        | field f0 =>
          simp only [List.cons_append, trailHolds, Bool.and_eq_true] at hh
          simp only [Walker.Labels] at hl
          rw [hl.2]
          exact hh
        | on t c =>
          simp only [List.cons_append, trailHolds, Bool.and_eq_true] at hh
          simp only [Walker.Labels] at hl
          rw [hl.2]
          exact hh
      obtain ⟨e', b, k1, k2, k3, k4, k5⟩ := way_wants ht hE h rfl hh'.2 hb' (K := K ++ attrsKeys s.attrs e.weight)
      have hkeys : attrsKeys s.attrs e.weight ++ trailKeys tr0 = trailKeys (st :: tr0) := by
        generalize e.weight = w at h2
        cases h2 with
        | field f0 m hn =>
          simp only [Walker.Labels] at hl
          simp only [attrsKeys, Weight.fieldName, hl.1, hn, trailKeys]
          rfl
        | reentry f0 nm ty li hn =>
          simp only [Walker.Labels] at hl
          simp only [attrsKeys, Weight.fieldName, hl.1, hn, trailKeys]
          rfl
        | abstract t c => rfl
        | ioType t c r => rfl
        | selfie t c => rfl
      refine ⟨e', b, k1, k2, k3, .cons _ _ _ _ _ ?_ k4, .next hh'.1 (h1.edge ▸ hE e h1.mem) ?_⟩
      · generalize hw : e.weight = w at h2 htyp
        cases h2 with
        | field f m hn =>
          rcases htyp with ⟨h5, h6⟩ | ⟨h5, h6⟩
          · exact .inl ⟨hn ▸ h5, h6⟩
          · exact .inr ⟨hn ▸ h5, hn ▸ h6⟩
        | reentry f name ty li hn => exact .inr ⟨hn ▸ htyp.1, hn ▸ htyp.2⟩
        | abstract t c =>
          obtain ⟨h5, h6⟩ := htyp
          by_cases hat : a.name = t
          · exact .inl ⟨.inl hat, h5.trans hat.symm⟩
          · refine .inr ⟨?_, h5⟩
            rintro (h7 | h7)
            · exact hat h7
            · have := h6 hat
              rw [this] at h7; simp at h7
        | ioType t c r => exact htyp.elim
        | selfie t c =>
          obtain ⟨h5, h6⟩ := htyp
          have h6 : a.name = t := h6
          exact .inl ⟨.inl h6, h5.trans h6.symm⟩
      · rw [List.append_assoc, hkeys] at k5
        exact k5

/-! ## Drafts -/

theorem mem_rootTrees {kind : OpKind} : ∀ {chosen : List (List Path)} {i : Nat} {t : Tree},
    t ∈ rootTrees kind i chosen → ∃ pos, ∃ ps ∈ chosen, ∃ p ∈ ps, t = pathTree pos p
  | [], _, _, h => by simp [rootTrees] at h
  | ps :: r, i, t, h => by
    simp only [rootTrees, List.mem_append, List.mem_map] at h
    rcases h with ⟨p, hp, rfl⟩ | h
    · exact ⟨_, ps, List.mem_cons_self .., p, hp, rfl⟩
    · obtain ⟨pos, qs, hq, p, hp, rfl⟩ := mem_rootTrees h
      exact ⟨pos, qs, List.mem_cons_of_mem _ hq, p, hp, rfl⟩

theorem rootTrees_mem {kind : OpKind} : ∀ {chosen : List (List Path)} {i : Nat} {ps : List Path} {p : Path},
    ps ∈ chosen → p ∈ ps → ∃ pos, pathTree pos p ∈ rootTrees kind i chosen
  | [], _, _, _, h, _ => nomatch h
  | qs :: r, i, ps, p, h, hp => by
    rcases List.mem_cons.1 h with rfl | h
    · exact ⟨_, by simp only [rootTrees]; exact List.mem_append_left _ (List.mem_map_of_mem hp)⟩
    · obtain ⟨pos, hm⟩ := rootTrees_mem (kind := kind) (i := i + 1) h hp
      exact ⟨pos, by simp only [rootTrees]; exact List.mem_append_right _ hm⟩

/-- What the chosen paths lead to is sent by the draft. -/
theorem draft_sent {env : Env} (hG : Stays env.G) {kind : OpKind} {root : Nat} {chosen : List (List Path)} {g : Graph}
    (hroot : graphAt env.G root = none) (h : draftOf env kind chosen = .ok g)
    (hp : ∀ ps ∈ chosen, ∀ p ∈ ps, OkayPath env.G root p) {ps : List Path} (hps : ps ∈ chosen) {p : Path} (hpp : p ∈ ps)
    {x : Want} (hx : Wants env.G v [] p.segs x) : Sent env.G v g x := by
  have hlab : ∀ t ∈ rootTrees kind 0 chosen, t.label = { node := root } ∧ Tidy env.G t := by
    intro t ht
    obtain ⟨pos, qs, hq, q, hqq, rfl⟩ := mem_rootTrees ht
    have := hp qs hq q hqq
    refine ⟨?_, path_tidy q this⟩
    rw [pathTree_label]
    obtain ⟨r, segs, cost, ky⟩ := q
    simp only [OkayPath] at this
    simp [Walker.Path.root, this.1]
  obtain ⟨m1, m2⟩ := mergeAll_tidy hlab
  have m3 := mergeAll_sub fun t ht => (hlab t ht).1
  obtain ⟨pos, hpos⟩ := rootTrees_mem (kind := kind) (i := 0) hps hpp
  have hok := hp ps hps p hpp
  have hcar := (path_carried (pos := pos) p hok).mono (us := mergeAll (rootTrees kind 0 chosen)) (subL_iff.2 fun t ht => by
    cases List.mem_singleton.1 ht
    exact subL_iff.1 m3 _ hpos)
  unfold draftOf at h
  split at h
  next => cases h
  next t r hm =>
    rw [hm] at m1 m2 hcar
    cases r with
    | cons => simp at m1
    | nil =>
      obtain ⟨l, rs, cs⟩ := t
      obtain ⟨rt, segs, cost, ky⟩ := p
      simp only [OkayPath] at hok
      obtain ⟨rfl, hok⟩ := hok
      simp only [CarriedPath] at hcar
      obtain ⟨l', qs', cs', hm', rfl, hcar'⟩ := hcar
      cases List.mem_singleton.1 hm'
      have ht := (m2 _ (List.mem_singleton.2 rfl)).2
      simp only [Tidy] at ht
      unfold buildTree at h
      split at h
      next => cases h
      next g1 ls hproc =>
        split at h
        next =>
          cases h
          have hproc' : processKids env cs { parent := some 0 } (({ kind := kind } : Graph).add (noop false)) = .ok (g1, ls) := by
            simp only [process, enter, enterNoop, orCond] at hproc
            exact hproc
          have hat : At env.G v rt [] { parent := some 0 } (({ kind := kind } : Graph).add (noop false)) := by
            refine ⟨⟨0, noop false, rfl, rfl, ?_, rfl, ?_⟩, fun _ => rfl, rfl, rfl, rfl, holds_none⟩
            · simp [Step.on, noop, pathHolds, holds_none]
            · intro gr hgr
              rw [hroot] at hgr
              cases hgr
          have := wants_sent hG hx hok ht.2.2 hcar' hat hproc'
          exact this
        next => cases h

/-! ## Operations -/

theorem arrives_okay {env : Env} (hS : Proper env.S) (hio : NoInterfaceObjects env.S)
    (h : build env.S = .ok env.G) {kind : OpKind} {tr : Trail} {p : Path} (ha : Arrives env kind tr p) :
    ∃ root, Walker.rootOf env.G kind = some root ∧ graphAt env.G root = none ∧ OkayPath env.G root p := by
  have ht := Walker.build_wellTyped hS hio h
  obtain ⟨ls, hls, hb⟩ := Verif.Graph.build_built h
  obtain ⟨e, s, rest, he, hr, h1, h2, h3, h4, h5, h6, w⟩ := ha
  obtain ⟨t, a, hrt, ha, hk⟩ := Walker.Built.rootOf hb hr
  have hnone : graphAt env.G e.src = none := by
    simp only [graphAt, ha, Option.bind_some]
    rcases a with ⟨_, n⟩ | ⟨n, g, i, _ | ⟨v⟩ | ⟨u⟩⟩ <;> simp_all [Verif.Graph.Node.key, Verif.Graph.Node.graph]
  refine ⟨e.src, hr, hnone, ?_⟩
  have hE := fun e he => edge_found h (e := e) he
  obtain ⟨rt, segs, cost, ky⟩ := p
  simp only [Walker.Path.root] at h1
  simp only [Walker.Path.segs] at h2
  subst h2
  obtain ⟨id, t, k, rs, at', cd⟩ := s
  simp only at h3 h4 h6
  simp only [OkayPath, Okay, h6.1, OkayReqs, true_and]
  exact ⟨h1, ⟨e, h3 ▸ hE e he, rfl, h4, fun _ => trivial, fun _ _ _ => hnone⟩, way_okay hE w⟩

theorem arrives_wants {env : Env} (hS : Proper env.S) (hio : NoInterfaceObjects env.S)
    (h : build env.S = .ok env.G) {kind : OpKind} {tr0 tr1 : Trail} {f : FieldInfo} {p : Path}
    (ha : Arrives env kind (tr0 ++ .field f :: tr1) p) (hh : trailHolds v (tr0 ++ [.field f]) = true) :
    ∃ rt e b, Walker.rootType env.S kind = some rt ∧ e ∈ env.G.edges ∧ Walker.Takes (.field f) e.weight ∧
      env.G.node e.src = some b ∧ Walker.After env.S rt tr0 b.name ∧
      Wants env.G v [] p.segs ⟨e, trailKeys tr0, askOf f⟩ := by
  have ht := Walker.build_wellTyped hS hio h
  obtain ⟨ls, hls, hb⟩ := Verif.Graph.build_built h
  obtain ⟨e, s, rest, he, hr, h1, h2, h3, h4, h5, h6, w⟩ := ha
  have hE := fun e he => edge_found h (e := e) he
  obtain ⟨t, a, hrt, ha, hk⟩ := Walker.Built.rootOf hb hr
  obtain ⟨a', b', ha', hb', htyp, hen⟩ := ht e he
  rw [ha] at ha'
  cases ha'
  have hnt : a.isType = false := by
    rcases a with ⟨_, n⟩ | ⟨n, g, i, _ | ⟨v⟩ | ⟨u⟩⟩ <;> simp_all [Verif.Graph.Node.key, Verif.Graph.Node.isType]
  have hname : a.name = t := by
    rcases a with ⟨_, n⟩ | ⟨n, g, i, _ | ⟨v⟩ | ⟨u⟩⟩ <;> simp_all [Verif.Graph.Node.key, Verif.Graph.Node.name]
  obtain ⟨g, k, hw⟩ := hen hnt
  rw [hw] at htyp
  have hn : b'.name = a.name := htyp
  rw [← h4] at hb'
  obtain ⟨e', b, k1, k2, k3, k4, k5⟩ := way_wants (v := v) ht hE w rfl hh hb' (K := [])
  rw [hn, hname] at k4
  refine ⟨t, e', b, hrt, k1, k2, k3, k4, ?_⟩
  rw [h2]
  refine .next (by rw [h6.2.2]; exact holds_none) (h3 ▸ hE e he) ?_
  have : attrsKeys s.attrs e.weight = [] := by simp [attrsKeys, hw, Weight.fieldName]
  simpa [this] using k5

theorem mem_combos {α : Type} : ∀ {ls : List (List α)} {c : List α}, c ∈ combos ls →
    Walker.Match (fun l x => x ∈ l) ls c
  | [], c, h => by
    simp only [combos, List.mem_singleton] at h
    subst h
    exact .nil
  | l :: r, c, h => by
    simp only [combos, List.mem_flatMap, List.mem_map] at h
    obtain ⟨x, hx, c', hc', rfl⟩ := h
    exact .cons hx (mem_combos hc')

theorem match_left {α β : Type} {R : α → β → Prop} {as : List α} {bs : List β} (h : Walker.Match R as bs) :
    ∀ a ∈ as, ∃ b ∈ bs, R a b := by
  induction h with
  | nil => simp
  | cons h _ ih =>
    intro a ha
    rcases List.mem_cons.1 ha with rfl | ha
    · exact ⟨_, List.mem_cons_self .., h⟩
    · obtain ⟨b, hb, hr⟩ := ih a ha
      exact ⟨b, List.mem_cons_of_mem _ hb, hr⟩

theorem match_map {α β γ : Type} {R : γ → β → Prop} {f : α → γ} : ∀ {as : List α} {bs : List β},
    Walker.Match R (as.map f) bs → Walker.Match (fun a b => R (f a) b) as bs
  | [], _, h => by
    cases h
    exact .nil
  | a :: r, _, h => by
    cases h with
    | cons h1 h2 => exact .cons h1 (match_map h2)

theorem says_offers {S : Super} {a b : Verif.Graph.Node} {w : Weight} {f : FieldInfo} (h : Says S a b w)
    (ht : Walker.Takes (.field f) w) : ∃ gr, a.graph = some gr ∧ Offers S a.name f.name gr := by
  cases ht with
  | field _ m hn =>
    obtain ⟨gr, h1, _, h3⟩ := h
    refine ⟨gr, h1, ?_⟩
    rw [← hn]
    rcases h3 with ⟨h3, _⟩ | ⟨_, ⟨needs, h4, _⟩ | ⟨_, _, h4⟩⟩
    · exact .inl h3
    · exact .inr (.inl ⟨needs, h4⟩)
    · exact .inr (.inr h4)
  | reentry _ nm ty li hn =>
    obtain ⟨gr, needs, h1, _, h3⟩ := h
    exact ⟨gr, h1, hn ▸ .inr (.inl ⟨needs, h3⟩)⟩

theorem get_all {g : Graph} {n : Nat} {s : Step} (h : g.get n = .ok s) : s ∈ g.all := by
  unfold Graph.get at h
  split at h
  next hn =>
    cases h
    exact List.mem_filterMap.2 ⟨_, List.mem_of_getElem? hn, rfl⟩
  next => cases h

/-- For each field of the operation, at a place where the operation has it, there is a step that asks a subgraph for
it that has it. -/
theorem drafts_send {S : Super} (hS : Proper S) (hio : NoInterfaceObjects S) (ho : ProvidesOwn S) {G : Moves}
    (hb : build S = .ok G) {ctx : Overrides.Context} {kind : OpKind} {sels : List Sel} {g : Graph}
    (hg : .ok g ∈ drafts S ctx kind sels) {x : Sel} (hx : x ∈ sels) :
    ∃ ts, Walker.Leaves ⟨G, S, ctx⟩ kind [] x ts ∧ ∀ (v : Vars) (tr0 : Trail) (f : FieldInfo) (tr1 : Trail),
      tr0 ++ .field f :: tr1 ∈ ts → trailHolds v (tr0 ++ [.field f]) = true → AsksFor S kind v g tr0 f := by
  unfold drafts at hg
  rw [hb] at hg
  simp only at hg
  split at hg
  next => simp at hg
  next out hwalk =>
    obtain ⟨chosen, hch, hd⟩ := List.mem_map.1 hg
    have hagree := Walker.build_agree (env := ⟨G, S, ctx⟩) hS hio hb kind
    have hres := Walker.walk_resolves hagree hwalk
    have harr := Walker.walk_arrives hagree hwalk
    have hm := match_map (mem_combos hch)
    obtain ⟨gs, hgs, ts, gs', hl, hperm, hserve⟩ := match_left hres x hx
    refine ⟨ts, hl, fun v tr0 f tr1 htr hh => ?_⟩
    obtain ⟨grp, hgrp, hs⟩ := match_left hserve _ htr
    obtain ⟨ps, hps, hpc⟩ := match_left hm gs hgs
    obtain ⟨p, hp, hpg⟩ := match_left (mem_combos hpc) grp (hperm.mem_iff.1 hgrp)
    have hok : ∀ ps ∈ chosen, ∀ p ∈ ps, ∃ tr, Arrives ⟨G, S, ctx⟩ kind tr p := by
      intro qs hqs q hq
      obtain ⟨hs', hhs, hqc⟩ := Walker.match_mem hm qs hqs
      obtain ⟨l, hl, hql⟩ := Walker.match_mem (mem_combos hqc) q hq
      exact harr hs' hhs l hl q hql
    obtain ⟨tr, hatr⟩ := hok ps hps p hp
    obtain ⟨root, hr1, hr2, hr3⟩ := arrives_okay (env := ⟨G, S, ctx⟩) hS hio hb hatr
    obtain ⟨rt, e, b, k1, k2, k3, k4, k5, k6⟩ := arrives_wants (env := ⟨G, S, ctx⟩) hS hio hb (hs.ways p hpg) hh
    obtain ⟨n, s, j1, j2, j3⟩ := draft_sent (env := ⟨G, S, ctx⟩) (build_stays hS hio ho hb) hr2 hd (fun qs hqs q hq => by
      obtain ⟨tr', ha'⟩ := hok qs hqs q hq
      obtain ⟨root', hr1', _, hr3'⟩ := arrives_okay (env := ⟨G, S, ctx⟩) hS hio hb ha'
      rw [hr1] at hr1'
      cases hr1'
      exact hr3') hps hp k6
    obtain ⟨a', b', hs1, hs2, hsays⟩ := Verif.Graph.build_says hS hio ho hb e k2
    rw [k4] at hs1
    cases hs1
    obtain ⟨gr, hgr, hoff⟩ := says_offers hsays k3
    have hsv : s.service = gr := j3 gr (by simp [graphAt, k4, hgr])
    exact ⟨rt, b.name, k1, k5, s, get_all j1, j2, hsv ▸ hoff⟩

/-! ## Without trails -/

mutual
theorem leaves_some {env : Env} {kind : OpKind} : ∀ {x : Sel} {tr : Trail} {ts : List Trail},
    Walker.Leaves env kind tr x ts → FilledBy x → ts ≠ []
  | .field f [], tr, ts, h, _ => by
    cases h
    simp
  | .field f (x :: ss), tr, ts, h, hf => by
    cases h with
    | field _ _ _ _ us h =>
      simp only [FilledBy] at hf
      have := leavesAll_some h hf (by simp)
      simpa using this
  | .frag g ss, tr, ts, h, hf => by
    simp only [FilledBy] at hf
    cases h with
    | frag _ _ _ us h => simpa using leavesAll_some h hf.2 hf.1
    | cut => simp
  | .spread _, _, _, _, hf => by simp [FilledBy] at hf
theorem leavesAll_some {env : Env} {kind : OpKind} : ∀ {ss : List Sel} {tr : Trail} {ts : List Trail},
    Walker.LeavesAll env kind tr ss ts → Filled ss → ss ≠ [] → ts ≠ []
  | [], _, _, _, _, hne => absurd rfl hne
  | x :: r, tr, ts, h, hf, _ => by
    cases h with
    | cons _ _ _ us ws h1 h2 =>
      simp only [Filled] at hf
      have := leaves_some h1 hf.1
      simp [this]
end

mutual
theorem leaves_asked {env : Env} {kind : OpKind} : ∀ {x : Sel} {tr : Trail} {ts : List Trail},
    Walker.Leaves env kind tr x ts → OpenBy env kind tr x → FilledBy x → ∀ {y}, y ∈ askedBy v x →
    ∃ tr0 f tr1, tr0 ++ .field f :: tr1 ∈ ts ∧ trailHolds v (tr0 ++ [.field f]) = true ∧ y = (trailKeys tr0, askOf f)
  | .field f [], tr, ts, h, _, _, y, hy => by
    cases h with
    | leaf =>
      simp only [askedBy, asked] at hy
      split at hy
      next hc =>
        simp at hy
        subst hy
        exact ⟨[], f, [], by simp, by simp [trailHolds, hc], rfl⟩
      next => simp at hy
  | .field f (x :: ss), tr, ts, h, ho, hf, y, hy => by
    cases h with
    | field _ _ _ _ us h =>
      simp only [OpenBy] at ho
      simp only [FilledBy] at hf
      simp only [askedBy] at hy
      split at hy
      next hc =>
        rcases List.mem_cons.1 hy with rfl | hy
        · cases us with
          | nil => exact absurd rfl (leavesAll_some h hf (by simp))
          | cons t us => exact ⟨[], f, t, by simp, by simp [trailHolds, hc], rfl⟩
        · obtain ⟨z, hz, rfl⟩ := List.mem_map.1 hy
          obtain ⟨tr0, f', tr1, k1, k2, k3⟩ := leavesAll_asked h ho hf hz
          refine ⟨.field f :: tr0, f', tr1, List.mem_map.2 ⟨_, k1, rfl⟩, ?_, ?_⟩
          · simp [trailHolds, hc, k2]
          · rw [k3]
            rfl
      next => simp at hy
  | .frag g ss, tr, ts, h, ho, hf, y, hy => by
    simp only [OpenBy] at ho
    simp only [FilledBy] at hf
    simp only [askedBy] at hy
    split at hy
    next hc =>
      cases h with
      | frag _ _ _ us h =>
        obtain ⟨tr0, f', tr1, k1, k2, k3⟩ := leavesAll_asked h ho.2 hf.2 hy
        refine ⟨.on g.cond (g.skipIf, g.includeIf) :: tr0, f', tr1, List.mem_map.2 ⟨_, k1, rfl⟩, ?_, ?_⟩
        · simp only [List.cons_append, trailHolds, k2, Bool.and_true]
          exact hc
        · rw [k3]
          rfl
      | cut _ _ _ h => exact absurd h ho.1
    next => simp at hy
  | .spread _, tr, ts, h, ho, hf, y, hy => by simp [askedBy] at hy
theorem leavesAll_asked {env : Env} {kind : OpKind} : ∀ {ss : List Sel} {tr : Trail} {ts : List Trail},
    Walker.LeavesAll env kind tr ss ts → Open env kind tr ss → Filled ss → ∀ {y}, y ∈ asked v ss →
    ∃ tr0 f tr1, tr0 ++ .field f :: tr1 ∈ ts ∧ trailHolds v (tr0 ++ [.field f]) = true ∧ y = (trailKeys tr0, askOf f)
  | [], _, _, _, _, _, _, hy => by simp [asked] at hy
  | x :: r, tr, ts, h, ho, hf, y, hy => by
    cases h with
    | cons _ _ _ us ws h1 h2 =>
      simp only [Open] at ho
      simp only [Filled] at hf
      simp only [asked, List.mem_append] at hy
      rcases hy with hy | hy
      · obtain ⟨tr0, f', tr1, k1, k2, k3⟩ := leaves_asked h1 ho.1 hf.1 hy
        exact ⟨tr0, f', tr1, List.mem_append_left _ k1, k2, k3⟩
      · obtain ⟨tr0, f', tr1, k1, k2, k3⟩ := leavesAll_asked h2 ho.2 hf.2 hy
        exact ⟨tr0, f', tr1, List.mem_append_right _ k1, k2, k3⟩
end

theorem open_mem {env : Env} {kind : OpKind} {tr : Trail} : ∀ {ss : List Sel}, Open env kind tr ss → ∀ x ∈ ss,
    OpenBy env kind tr x
  | [], _, _, h => nomatch h
  | _ :: _, h, x, hx => by
    simp only [Open] at h
    rcases List.mem_cons.1 hx with rfl | hx
    · exact h.1
    · exact open_mem h.2 x hx

theorem filled_mem : ∀ {ss : List Sel}, Filled ss → ∀ x ∈ ss, FilledBy x
  | [], _, _, h => nomatch h
  | _ :: _, h, x, hx => by
    simp only [Filled] at h
    rcases List.mem_cons.1 hx with rfl | hx
    · exact h.1
    · exact filled_mem h.2 x hx

theorem asked_mem' : ∀ {ss : List Sel} {y : List String × Ask}, y ∈ asked v ss → ∃ x ∈ ss, y ∈ askedBy v x
  | [], _, h => by simp [asked] at h
  | x :: r, y, h => by
    simp only [asked, List.mem_append] at h
    rcases h with h | h
    · exact ⟨x, List.mem_cons_self .., h⟩
    · obtain ⟨z, hz, hy⟩ := asked_mem' h
      exact ⟨z, List.mem_cons_of_mem _ hz, hy⟩

theorem drafts_ask {S : Super} (hS : Proper S) (hio : NoInterfaceObjects S) (ho : ProvidesOwn S) {G : Moves}
    (hb : build S = .ok G) {ctx : Overrides.Context} {kind : OpKind} {sels : List Sel} {g : Graph}
    (hg : .ok g ∈ drafts S ctx kind sels) (hopen : Open ⟨G, S, ctx⟩ kind [] sels) (hf : Filled sels) :
    ∀ y ∈ asked v sels, y ∈ g.asked v := by
  intro y hy
  obtain ⟨x, hx, hyx⟩ := asked_mem' hy
  obtain ⟨ts, hl, hall⟩ := drafts_send hS hio ho hb hg hx
  obtain ⟨tr0, f, tr1, h1, h2, rfl⟩ := leaves_asked hl (open_mem hopen x hx) (filled_mem hf x hx) hyx
  obtain ⟨_, _, _, _, s, hs, ha, _⟩ := hall v tr0 f tr1 h1 h2
  exact List.mem_flatMap.2 ⟨s, hs, ha⟩

end Verif.Fetch
