import Verif.Fetch.Cover

/-!
# Lemmas: how the builder goes through a tree
-/

namespace Verif.Fetch

open Verif.Graph (OpKind Moves Edge Weight FieldMove Req)
open Verif.Walker (Cond Env)

variable {v : Vars}

/-! ## Graphs only grow -/

theorem enter_grow {env : Env} {req : Option Nat} {l : Label} {c c' : Ctx} {g g' : Graph} {todo : Todo}
    (h : enter env req l c g = .ok (g', todo, c')) : Grow v g g' := by
  unfold enter at h
  simp only at h
  split at h
  next =>
    unfold enterNoop at h
    split at h
    · cases h
      exact .refl
    · cases h
      exact add_grow
  next =>
    split at h
    next => cases h
    next parent _ =>
    split at h
    next => cases h
    next e _ =>
    split at h
    next =>
      unfold enterEntry at h
      split at h
      next => cases h
      next =>
        cases h
        exact add_grow.trans connect_grow
    next =>
      unfold enterEntity at h
      split at h
      next => cases h
      next => cases h
      next inType _ _ outType service _ h1 h2 =>
        split at h
        next => cases h
        next g1 n hn =>
        split at h
        next => cases h
        next g2 hg2 =>
        split at h
        next => cases h
        next g3 hg3 =>
        split at h
        next => cases h
        next g4 hg4 =>
          cases h
          refine (ensureStep_ok hn).1.trans ((modify_grow (fun _ _ h => addInput_grown h) hg2).trans
            ((modify_grow (fun s s' h => ?_) hg3).trans ((modify_output hg4).1.trans connect_grow)))
          cases h
          split
          · have := addRewrite_grown (v := v) (t := outType) (s := s)
            exact ⟨this.path, this.cond, this.service, this.entity, this.asks⟩
          · exact .refl
    next =>
      unfold enterReentry at h
      split at h
      next => cases h
      next =>
        split at h
        next => cases h
        next g1 hg1 =>
          cases h
          exact (modify_output hg1).1.trans (add_grow.trans connect_grow)
    next m hw =>
      split at h
      next r hr =>
        unfold enterRequires at h
        split at h
        next grand rn hpar =>
          split at h
          next => cases h
          next type service io hty =>
          split at h
          next => cases h
          next => cases h
          next key ps hkey hps =>
          simp only at h
          generalize (if outputHas ps type then grand else parent) = real at h
          generalize hen : ensureReqStep g real service type c.resp (orCond l.cond c.cond) r = en at h
          obtain ⟨g1, n⟩ := en
          simp only at h
          split at h
          next => cases h
          next g2 hg2 =>
          split at h
          next => cases h
          next g3 hg3 =>
          split at h
          next => cases h
          next g4 hg4 =>
          split at h
          next => cases h
          next g5 hg5 =>
          split at h
          next => cases h
          next st hst =>
          split at h
          next => cases h
          next rs hrs =>
          split at h
          next => cases h
          next hlen =>
          split at h
          next => cases h
          next g7 hg7 =>
          split at h
          next => cases h
          next g8 hg8 =>
            cases h
            refine (ensureReqStep_ok hen).1.trans ((modify_output hg2).1.trans ((modify_grow (fun s s' h => ?_) hg3).trans
              ((modify_grow (fun _ _ h => addInput_grown h) hg4).trans ((modify_grow (fun _ _ h => addInput_grown h) hg5).trans
              (add_grow.trans ((modify_output hg7).1.trans ((modify_output hg8).1.trans connect_grow)))))))
            cases h
            split
            · exact addRewrite_grown
            · exact .refl
        next => cases h
        next => cases h
      next hr =>
        unfold enterField at h
        simp only at h
        split at h
        next => cases h
        next g1 hg1 =>
          cases h
          refine Grow.trans ?_ (modify_output hg1).1
          split
          · exact connect_grow
          · exact .refl
    next =>
      unfold enterSelfie at h
      simp only at h
      split at h
      next => cases h
      next g1 hg1 =>
        cases h
        exact (modify_output hg1).1
    next =>
      unfold enterAbstract at h
      split at h
      next => cases h
      next g1 hg1 =>
        cases h
        exact (modify_output hg1).1
    next =>
      unfold enterIoType at h
      split at h
      next => cases h
      next =>
      split at h
      next => cases h
      next => cases h
      next => cases h
      next headGraph _ iface service _ rn h1 h2 =>
        split at h
        next => cases h
        next g1 n hn =>
        split at h
        next => cases h
        next key hkey =>
        split at h
        next => cases h
        next g2 hg2 =>
        split at h
        next => cases h
        next g3 hg3 =>
        split at h
        next => cases h
        next g4 hg4 =>
        split at h
        next => cases h
        next g5 hg5 =>
        split at h
        next => cases h
        next st hst =>
          cases h
          refine (ensureStep_ok hn).1.trans ((modify_grow (fun _ _ h => addInput_grown h) hg2).trans
            ((modify_grow (fun _ _ h => addInput_grown h) hg3).trans ((modify_grow (fun s s' h => ?_) hg4).trans
            ((modify_output hg5).1.trans (add_grow.trans connect_grow)))))
          cases h
          exact addRewrite_grown

theorem foldConnect_grow {to : Nat} : ∀ {ls : List Nat} {g : Graph},
    Grow v g (ls.foldl (fun g n => g.connect n to) g)
  | [], _ => .refl
  | _ :: r, _ => connect_grow.trans (foldConnect_grow (ls := r))

theorem connectAll_grow {a b : Nat} {ls : List Nat} {g : Graph} : Grow v g (connectAll a b ls g) := by
  unfold connectAll
  split
  · exact connect_grow
  · exact foldConnect_grow

theorem processKids_cons {env : Env} {t : Tree} {r : List Tree} {c : Ctx} {g : Graph} (hr : r ≠ []) :
    processKids env (t :: r) c g = match process env t c g with
      | .error x => .error x
      | .ok (g, a) =>
        match processKids env r c g with
        | .error x => .error x
        | .ok (g, b) => .ok (g, a ++ b) := by
  cases r with
  | nil => exact absurd rfl hr
  | cons u r =>
    rw [processKids]
    · cases process env t c g with
      | error => rfl
      | ok x =>
        obtain ⟨g, a⟩ := x
        simp only
        cases processKids env (u :: r) c g with
        | error => rfl
        | ok x => rfl
    · simp

mutual
theorem process_grow {env : Env} : ∀ (t : Tree) {c : Ctx} {g g' : Graph} {ls : List Nat},
    process env t c g = .ok (g', ls) → Grow v g g'
  | .mk l rs cs, c, g, g', ls, h => by
    simp only [process] at h
    split at h
    next => cases h
    next g1 todo c' h1 =>
      have e1 := enter_grow (v := v) h1
      split at h
      next => exact e1.trans (processKids_grow cs h)
      next c'' =>
        split at h
        next => cases h
        next g2 h2 => exact e1.trans ((processReqs_grow rs h2).trans (processKids_grow cs h))
      next c'' to =>
        split at h
        next => cases h
        next g2 leafs h2 =>
          exact e1.trans ((processFirst_grow rs h2).trans (connectAll_grow.trans (processKids_grow cs h)))
theorem processReqs_grow {env : Env} : ∀ (ts : List Tree) {c : Ctx} {g g' : Graph},
    processReqs env ts c g = .ok g' → Grow v g g'
  | [], _, _, _, h => by
    simp only [processReqs] at h
    cases h
    exact .refl
  | t :: r, c, g, g', h => by
    simp only [processReqs] at h
    split at h
    next => cases h
    next g1 _ h1 => exact (process_grow t h1).trans (processReqs_grow r h)
theorem processFirst_grow {env : Env} : ∀ (ts : List Tree) {c : Ctx} {g g' : Graph} {ls : List Nat},
    processFirst env ts c g = .ok (g', ls) → Grow v g g'
  | [], _, _, _, _, h => by
    simp only [processFirst] at h
    cases h
  | t :: r, c, g, g', ls, h => by
    simp only [processFirst] at h
    exact process_grow t h
theorem processKids_grow {env : Env} : ∀ (ts : List Tree) {c : Ctx} {g g' : Graph} {ls : List Nat},
    processKids env ts c g = .ok (g', ls) → Grow v g g'
  | [], _, _, _, _, h => by
    simp only [processKids] at h
    cases h
    exact .refl
  | [t], c, g, g', ls, h => by
    simp only [processKids] at h
    exact process_grow t h
  | t :: u :: r, c, g, g', ls, h => by
    rw [processKids_cons (by simp)] at h
    split at h
    next => cases h
    next g1 a h1 =>
      split at h
      next => cases h
      next g2 b h2 =>
        cases h
        exact (process_grow t h1).trans (processKids_grow (u :: r) h2)
end

/-! ## Each tree is gone through -/

/-- A tree was gone through at some time between two graphs, and this is where it ended. -/
def Through (env : Env) (v : Vars) (t : Tree) (c : Ctx) (g g' : Graph) (ls : List Nat) : Prop :=
  ∃ g1 g2, Grow v g g1 ∧ process env t c g1 = .ok (g2, ls) ∧ Grow v g2 g'

theorem kids_through {env : Env} : ∀ {ts : List Tree} {c : Ctx} {g g' : Graph} {ls : List Nat},
    processKids env ts c g = .ok (g', ls) → ∀ t ∈ ts, ∃ ms, Through env v t c g g' ms ∧ ∀ m ∈ ms, m ∈ ls
  | [], _, _, _, _, _, _, ht => nomatch ht
  | [t], c, g, g', ls, h, u, hu => by
    cases List.mem_singleton.1 hu
    simp only [processKids] at h
    exact ⟨ls, ⟨g, g', .refl, h, .refl⟩, fun _ h => h⟩
  | t :: w :: r, c, g, g', ls, h, u, hu => by
    rw [processKids_cons (by simp)] at h
    split at h
    next => cases h
    next g1 a h1 =>
      split at h
      next => cases h
      next g2 b h2 =>
        cases h
        rcases List.mem_cons.1 hu with rfl | hu
        · exact ⟨a, ⟨g, g1, .refl, h1, processKids_grow _ h2⟩, fun _ h => List.mem_append_left _ h⟩
        · obtain ⟨ms, ⟨g3, g4, k1, k2, k3⟩, k4⟩ := kids_through h2 u hu
          exact ⟨ms, ⟨g3, g4, (process_grow t h1).trans k1, k2, k3⟩, fun m hm => List.mem_append_right _ (k4 m hm)⟩

theorem reqs_through {env : Env} : ∀ {ts : List Tree} {c : Ctx} {g g' : Graph},
    processReqs env ts c g = .ok g' → ∀ t ∈ ts, ∃ ms, Through env v t c g g' ms
  | [], _, _, _, _, _, ht => nomatch ht
  | t :: r, c, g, g', h, u, hu => by
    simp only [processReqs] at h
    split at h
    next => cases h
    next g1 a h1 =>
      rcases List.mem_cons.1 hu with rfl | hu
      · exact ⟨a, g, g1, .refl, h1, processReqs_grow _ h⟩
      · obtain ⟨ms, g3, g4, k1, k2, k3⟩ := reqs_through h u hu
        exact ⟨ms, g3, g4, (process_grow t h1).trans k1, k2, k3⟩

theorem first_through {env : Env} {ts : List Tree} (hts : ts.length ≤ 1) {c : Ctx} {g g' : Graph} {ls : List Nat}
    (h : processFirst env ts c g = .ok (g', ls)) : ∀ t ∈ ts, Through env v t c g g' ls := by
  intro t ht
  match ts, hts with
  | [u], _ =>
    cases List.mem_singleton.1 ht
    simp only [processFirst] at h
    exact ⟨g, g', .refl, h, .refl⟩

/-! ## What paths lead to is sent -/

theorem Through.sent {env : Env} {t : Tree} {c : Ctx} {g g' : Graph} {ls : List Nat} {G : Moves} {n : Nat}
    {K : List String} {x : Want} (h : Through env v t c g g' ls) (hc : At G v n K c g)
    (hs : ∀ g1 g2, At G v n K c g1 → process env t c g1 = .ok (g2, ls) → Sent G v g2 x) : Sent G v g' x := by
  obtain ⟨g1, g2, k1, k2, k3⟩ := h
  exact k3.sent (hs g1 g2 (hc.grow k1) k2)

/-- What happens at a node of the tree that follows a move. -/
theorem process_node {env : Env} (hG : Stays env.G) {l : Label} {rs cs : List Tree} {e : Edge} {id : Nat}
    (hl : l.edge = some id) (hid : Walker.Moves.edge? env.G id = some e) (hcond : holds v l.cond = true)
    (hn : ∀ s k, e.weight = .entry s k → graphAt env.G e.src = none) {c : Ctx} {g g' : Graph} {ls : List Nat} {K : List String} (hc : At env.G v e.src K c g)
    (hrs : rs.length ≤ 1) (h : process env (.mk l rs cs) c g = .ok (g', ls)) :
    ∃ g1 todo c', Entered env.G v e K l g g1 todo c' ∧
      (∃ g2, Grow v g1 g2 ∧ processKids env cs c' g2 = .ok (g', ls)) ∧
      (e.weight.requires ≠ none → ∀ q ∈ rs, ∃ c'' ms, At env.G v e.src K c'' g1 ∧ Through env v q c'' g1 g' ms) := by
  simp only [process] at h
  split at h
  next => cases h
  next g1 todo c' h1 =>
    have e1 := enter_ok hG hl hid hcond hn hc h1
    refine ⟨g1, todo, c', e1, ?_⟩
    have htodo := e1.todo
    split at h
    next => exact ⟨⟨g1, .refl, h⟩, fun hne => absurd htodo hne⟩
    next c'' =>
      split at h
      next => cases h
      next g2 h2 =>
        refine ⟨⟨g2, processReqs_grow rs h2, h⟩, fun _ q hq => ?_⟩
        obtain ⟨ms, g3, g4, k1, k2, k3⟩ := reqs_through (v := v) h2 q hq
        exact ⟨c'', ms, htodo, g3, g4, k1, k2, k3.trans (processKids_grow cs h)⟩
    next c'' to =>
      split at h
      next => cases h
      next g2 leafs h2 =>
        refine ⟨⟨_, (processFirst_grow rs h2).trans connectAll_grow, h⟩, fun _ q hq => ?_⟩
        obtain ⟨g3, g4, k1, k2, k3⟩ := first_through (v := v) hrs h2 q hq
        exact ⟨c'', leafs, htodo, g3, g4, k1, k2, k3.trans (connectAll_grow.trans (processKids_grow cs h))⟩

/-- A tree that stands for a path goes on with its children. -/
theorem process_root {env : Env} {n : Nat} {rs cs : List Tree} {c : Ctx} {g g' : Graph} {ls : List Nat} {p : Nat}
    (hp : c.parent = some p) (h : process env (.mk { node := n } rs cs) c g = .ok (g', ls)) :
    processKids env cs c g = .ok (g', ls) := by
  cases c
  simp only at hp
  subst hp
  simp only [process, enter, enterNoop, orCond, if_true] at h
  exact h

theorem carriedReqs_mem {q : Walker.Path} : ∀ {ps : List Walker.Path} {ts : List Tree}, CarriedReqs ps ts → q ∈ ps →
    CarriedPath q ts
  | [], _, _, h => nomatch h
  | _ :: _, _, hc, h => by
    simp only [CarriedReqs] at hc
    rcases List.mem_cons.1 h with rfl | h
    · exact hc.1
    · exact carriedReqs_mem hc.2 h

theorem okayReqs_mem {G : Moves} {n : Nat} {q : Walker.Path} : ∀ {ps : List Walker.Path}, OkayReqs G n ps → q ∈ ps →
    OkayPath G n q
  | [], _, h => nomatch h
  | _ :: _, hc, h => by
    simp only [OkayReqs] at hc
    rcases List.mem_cons.1 h with rfl | h
    · exact hc.1
    · exact okayReqs_mem hc.2 h

/-- What segments lead to is sent by the builder that goes through trees that carry them. -/
theorem wants_sent {env : Env} (hG : Stays env.G) {K : List String} {segs : List (Walker.Seg Walker.Path)} {x : Want}
    (hx : Wants env.G v K segs x) : ∀ {ts : List Tree} {c : Ctx} {g g' : Graph} {ls : List Nat} {n : Nat},
    Okay env.G n segs → TidyL env.G ts → Carried segs ts → At env.G v n K c g →
    processKids env ts c g = .ok (g', ls) → Sent env.G v g' x := by
  induction hx with
  | @here K s r e name hs he hname =>
    intro ts c g g' ls n hok htidy hcar hat h
    obtain ⟨id, t, k, rs, a, cd⟩ := s
    simp only [Okay] at hok
    simp only [Carried] at hcar
    obtain ⟨⟨x, hx, rfl, rfl, hnone, hent⟩, hokr, hoks⟩ := hok
    cases (show some x = some e from hx ▸ he)
    obtain ⟨l, qs, cs, hm, h1, h2, h3, h4, h5, h6⟩ := hcar
    obtain ⟨ms, hth, _⟩ := kids_through (v := v) h _ hm
    refine hth.sent hat fun g1 g2 hat1 hp => ?_
    have ht := tidyL_iff.1 htidy _ hm
    simp only [Tidy] at ht
    obtain ⟨g3, todo, c', e1, ⟨g4, e2, e3⟩, _⟩ := process_node hG h2 he (h4 ▸ hs) hent hat1 ht.1 hp
    have := e1.sent name hname
    rw [h3] at this
    exact (e2.trans (processKids_grow cs e3)).sent this
  | @next K s r e x hs he _ ih =>
    intro ts c g g' ls n hok htidy hcar hat h
    obtain ⟨id, t, k, rs, a, cd⟩ := s
    simp only [Okay] at hok
    simp only [Carried] at hcar
    obtain ⟨⟨x, hx, rfl, rfl, hnone, hent⟩, hokr, hoks⟩ := hok
    cases (show some x = some e from hx ▸ he)
    obtain ⟨l, qs, cs, hm, h1, h2, h3, h4, h5, h6⟩ := hcar
    obtain ⟨ms, hth, _⟩ := kids_through (v := v) h _ hm
    refine hth.sent hat fun g1 g2 hat1 hp => ?_
    have ht := tidyL_iff.1 htidy _ hm
    simp only [Tidy] at ht
    obtain ⟨g3, todo, c', e1, ⟨g4, e2, e3⟩, _⟩ := process_node hG h2 he (h4 ▸ hs) hent hat1 ht.1 hp
    refine ih hoks ht.2.2 h6 ?_ e3
    have := e1.at'.grow e2
    rw [h3] at this
    exact this
  | @need K s r q x hs hq _ ih =>
    intro ts c g g' ls n hok htidy hcar hat h
    obtain ⟨id, t, k, rs, a, cd⟩ := s
    simp only [Okay] at hok
    simp only [Carried] at hcar
    obtain ⟨⟨x, hx, rfl, rfl, hnone, hent⟩, hokr, hoks⟩ := hok
    obtain ⟨l, qs, cs, hm, h1, h2, h3, h4, h5, h6⟩ := hcar
    obtain ⟨ms, hth, _⟩ := kids_through (v := v) h _ hm
    refine hth.sent hat fun g1 g2 hat1 hp => ?_
    have ht := tidyL_iff.1 htidy _ hm
    simp only [Tidy] at ht
    obtain ⟨g3, todo, c', e1, ⟨g4, e2, e3⟩, hreq⟩ := process_node hG h2 hx (h4 ▸ hs) hent hat1 ht.1 hp
    have hcp := carriedReqs_mem h5 hq
    have hop := okayReqs_mem hokr hq
    obtain ⟨root, segs, cost, ky⟩ := q
    simp only [CarriedPath] at hcp
    simp only [OkayPath] at hop
    obtain ⟨l', qs', cs', hm', rfl, hcar'⟩ := hcp
    obtain ⟨c'', ms', hat'', hth'⟩ := hreq (fun hn => by rw [hnone hn] at hq; cases hq) _ hm'
    refine hth'.sent hat'' fun g5 g6 hat5 hp' => ?_
    obtain ⟨p, _, hpar, _⟩ := hat5.step
    have htq := (needs_iff.1 ht.2.1 _ hm').2
    simp only [Tidy] at htq
    exact ih hop.2 htq.2.2 hcar' hat5 (process_root hpar hp')

end Verif.Fetch
