import Verif.Entities.TraverseSpec

/-!
# The two walks visit the same targets in the same order
-/

namespace Verif.Entities

/-! ## Targets as a list -/

def pre (q : PSeg) (l : List (Pos × Value)) : List (Pos × Value) := l.map fun x => (q :: x.1, x.2)

def itemsT (T : Value → List (Pos × Value)) : Nat → List Value → List (Pos × Value)
  | _, [] => []
  | i, v :: vs => pre (.idx i) (T v) ++ itemsT T (i + 1) vs

mutual
def condT (S : Schema) (ts : List String) (T : Value → List (Pos × Value)) :
    Value → List (Pos × Value)
  | .obj fs => if condOk S ts fs then T (.obj fs) else []
  | .arr vs => condTs S ts T 0 vs
  | _ => []
def condTs (S : Schema) (ts : List String) (T : Value → List (Pos × Value)) :
    Nat → List Value → List (Pos × Value)
  | _, [] => []
  | i, v :: vs => pre (.idx i) (condT S ts T v) ++ condTs S ts T (i + 1) vs
end

def endT : Value → List (Pos × Value)
  | .arr vs => itemsT (fun v => [([], v)]) 0 vs
  | v => [([], v)]

def listT (T : Value → List (Pos × Value)) : Value → List (Pos × Value)
  | .arr vs => itemsT T 0 vs
  | _ => []

def fieldT (name : String) (T : Value → List (Pos × Value)) : Value → List (Pos × Value)
  | .obj fs => match lookup name fs with
    | some v => pre (.key name) (T v)
    | none => []
  | _ => []

theorem fieldT_obj (name : String) (T : Value → List (Pos × Value)) (fs : Fields) :
    fieldT name T (.obj fs) = (lookup name fs).elim [] (fun v => pre (.key name) (T v)) := by
  show (match lookup name fs with
    | some v => pre (.key name) (T v)
    | none => []) = _
  cases lookup name fs <;> rfl

/-- The targets of a path in the order of the walks. -/
def targets (S : Schema) : List Seg → Value → List (Pos × Value)
  | [] => endT
  | .list :: p => listT (targets S p)
  | .field name :: p => fieldT name (targets S p)
  | .cond ts :: p => condT S ts (targets S p)

theorem condTs_eq (S : Schema) (ts : List String) (T : Value → List (Pos × Value)) (vs : List Value) :
    ∀ i, condTs S ts T i vs = itemsT (condT S ts T) i vs := by
  induction vs with
  | nil => intro i; rw [condTs, itemsT]
  | cons v vs ih => intro i; rw [condTs, itemsT, ih]

/-! ## The reading walk -/

theorem foldl_pre {σ : Type} (f : Value → σ → σ) (q : PSeg) (l : List (Pos × Value)) (s : σ) :
    (pre q l).foldl (fun s x => f x.2 s) s = l.foldl (fun s x => f x.2 s) s := by
  induction l generalizing s with
  | nil => rfl
  | cons x l ih => exact ih _

theorem walkItems_eq {σ : Type} (cb k : Value → σ → σ) (T : Value → List (Pos × Value))
    (vs : List Value) (h : ∀ v ∈ vs, ∀ s, k v s = (T v).foldl (fun s x => cb x.2 s) s) :
    ∀ i s, walkItems k vs s = (itemsT T i vs).foldl (fun s x => cb x.2 s) s := by
  induction vs with
  | nil => intro i s; rfl
  | cons v vs ih =>
    intro i s
    rw [walkItems, itemsT, List.foldl_append, foldl_pre, ← h v (by simp)]
    exact ih (fun w hw => h w (by simp [hw])) _ _

theorem walkConds_eq {σ : Type} (S : Schema) (ts : List String) (k : Value → σ → σ) (vs : List Value) :
    ∀ s, walkConds S ts k vs s = walkItems (walkCond S ts k) vs s := by
  induction vs with
  | nil => intro s; rw [walkConds, walkItems]
  | cons v vs ih => intro s; rw [walkConds, walkItems, ih]

theorem walkCond_eq {σ : Type} (S : Schema) (ts : List String) (cb k : Value → σ → σ)
    (T : Value → List (Pos × Value)) (v : Value) :
    v.WF → (∀ fs, (Value.obj fs).WF → ∀ s, k (.obj fs) s = (T (.obj fs)).foldl (fun s x => cb x.2 s) s) →
    ∀ s, walkCond S ts k v s = (condT S ts T v).foldl (fun s x => cb x.2 s) s := by
  induction v using Value.ind with
  | obj fs _ =>
    intro hwf h s
    rw [walkCond, condT]
    split
    · exact h fs hwf s
    · rfl
  | arr vs ih =>
    intro hwf h s
    rw [walkCond, condT, walkConds_eq, condTs_eq]
    refine walkItems_eq cb _ _ vs (fun v hv => ih v hv ?_ h) 0 s
    cases hwf with
    | arr hh => exact hh v hv
  | _ => intros; rw [walkCond, condT] <;> simp

theorem findKey_lookup {fs : Fields} (hs : SortedKeys fs) (name : String) :
    match findKey fs name with
    | none => lookup name fs = none
    | some i => ∃ v, fs[i]? = some (name, v) ∧ lookup name fs = some v := by
  cases h : findKey fs name with
  | none =>
    have := getKey_eq_lookup hs name
    simp [getKey, h] at this
    exact this.symm
  | some i =>
    obtain ⟨v, hv⟩ := findKey_sound h
    refine ⟨v, hv, ?_⟩
    have := getKey_eq_lookup hs name
    simp [getKey, h, hv] at this
    exact this.symm

theorem wf_lookup {fs : Fields} (h : (Value.obj fs).WF) {k : String} {v : Value}
    (hl : lookup k fs = some v) : v.WF := by
  cases h with
  | obj _ h => exact h _ (lookup_mem hl)

theorem wf_sorted {fs : Fields} (h : (Value.obj fs).WF) : SortedKeys fs := by
  cases h; assumption

theorem wf_item {vs : List Value} (h : (Value.arr vs).WF) {v : Value} (hv : v ∈ vs) : v.WF := by
  cases h with
  | arr h => exact h v hv

theorem walk_eq {σ : Type} (S : Schema) (cb : Value → σ → σ) (p : List Seg) :
    ∀ v : Value, v.WF → ∀ s, walk S cb p v s = (targets S p v).foldl (fun s x => cb x.2 s) s := by
  induction p with
  | nil =>
    intro v _ s
    cases v with
    | arr vs => exact walkItems_eq cb cb _ vs (fun v _ s => rfl) 0 s
    | _ => rfl
  | cons seg p ih =>
    intro v hwf s
    cases seg with
    | list =>
      cases v with
      | arr vs => exact walkItems_eq cb _ _ vs (fun v hv s => ih v (wf_item hwf hv) s) 0 s
      | _ => rfl
    | field name =>
      cases v with
      | obj fs =>
        have hl := findKey_lookup (wf_sorted hwf) name
        show walkField name (walk S cb p) (.obj fs) s = (fieldT name (targets S p) (.obj fs)).foldl _ s
        unfold walkField fieldT
        cases hf : findKey fs name with
        | none => rw [hf] at hl; simp only at hl; simp [hl, hf]
        | some i =>
          rw [hf] at hl
          obtain ⟨v, h1, h2⟩ := hl
          simp only [hf, h1, h2, foldl_pre]
          exact ih v (wf_lookup hwf h2) s
      | _ => rfl
    | cond ts => exact walkCond_eq S ts cb _ _ v hwf (fun fs h s => ih (.obj fs) h s) s

/-! ## The writing walk -/

/-- The callback on a list of targets: what it puts in their places, and the state. -/
def run {σ : Type} (cb : Step σ) : List (Pos × Value) → Option Pos → σ → List (Pos × Value) × σ
  | [], _, s => ([], s)
  | (p, t) :: l, ep, s =>
    let x := cb t (ep.map (· ++ p)) s
    let y := run cb l ep x.2
    ((p, x.1) :: y.1, y.2)

theorem run_append {σ : Type} (cb : Step σ) (ep : Option Pos) (a b : List (Pos × Value)) : ∀ s,
    run cb (a ++ b) ep s =
      ((run cb a ep s).1 ++ (run cb b ep (run cb a ep s).2).1, (run cb b ep (run cb a ep s).2).2) := by
  induction a with
  | nil => intro s; rfl
  | cons x a ih => intro s; obtain ⟨p, t⟩ := x; simp only [List.cons_append, run, ih]

theorem run_pre {σ : Type} (cb : Step σ) (ep : Option Pos) (q : PSeg) (l : List (Pos × Value)) : ∀ s,
    run cb (pre q l) ep s = (pre q (run cb l (extend ep q) s).1, (run cb l (extend ep q) s).2) := by
  induction l with
  | nil => intro s; rfl
  | cons x l ih =>
    intro s
    obtain ⟨p, t⟩ := x
    have : ep.map (· ++ q :: p) = (extend ep q).map (· ++ p) := by
      cases ep <;> simp [extend]
    simp only [pre, List.map_cons, run, this] at ih ⊢
    rw [ih]

/-- `v'` is `v` with the outputs put in their places. -/
def Patched (v v' : Value) (outs : List (Pos × Value)) : Prop :=
  (∀ o ∈ outs, get v' o.1 = some o.2) ∧
    ∀ pos, (∀ o ∈ outs, Apart o.1 pos) → get v' pos = get v pos

/-- A step does what the callback does on the targets. -/
def Good {σ : Type} (cb k : Step σ) (T : Value → List (Pos × Value)) (v : Value) : Prop :=
  ∀ ep s, (k v ep s).2 = (run cb (T v) ep s).2 ∧ Patched v (k v ep s).1 (run cb (T v) ep s).1

theorem Patched.refl (v : Value) : Patched v v [] := ⟨by simp, fun _ _ => rfl⟩

theorem get_arr (vs : List Value) (i : Nat) (p : Pos) :
    get (.arr vs) (.idx i :: p) = (vs[i]?).bind (get · p) := by
  rw [get]; cases vs[i]? <;> rfl

theorem get_obj (fs : Fields) (k : String) (p : Pos) :
    get (.obj fs) (.key k :: p) = (lookup k fs).bind (get · p) := by
  rw [get]; cases lookup k fs <;> rfl

theorem get_nil (v : Value) : get v [] = some v := by cases v <;> rfl

theorem apart_cons {q : PSeg} {p p' : Pos} : Apart (q :: p) (q :: p') ↔ Apart p p' := by
  simp [Apart]

theorem apart_ne {q q' : PSeg} (h : q ≠ q') (p p' : Pos) : Apart (q :: p) (q' :: p') := by
  simp [Apart, h, h.symm]

theorem items_good {σ : Type} (cb k : Step σ) (T : Value → List (Pos × Value)) (vs : List Value)
    (h : ∀ v ∈ vs, Good cb k T v) : ∀ i ep s,
    (editItems k ep i vs s).2 = (run cb (itemsT T i vs) ep s).2 ∧
    (∀ o ∈ (run cb (itemsT T i vs) ep s).1, ∃ j p, o.1 = .idx (i + j) :: p ∧
      ((editItems k ep i vs s).1[j]?).bind (get · p) = some o.2) ∧
    (∀ j p, (∀ o ∈ (run cb (itemsT T i vs) ep s).1, Apart o.1 (.idx (i + j) :: p)) →
      ((editItems k ep i vs s).1[j]?).bind (get · p) = (vs[j]?).bind (get · p)) := by
  induction vs with
  | nil => intro i ep s; simp [editItems, itemsT, run]
  | cons v vs ih =>
    intro i ep s
    have hv := h v (by simp) (extend ep (.idx i)) s
    obtain ⟨h1, h2, h3⟩ := ih (fun w hw => h w (by simp [hw])) (i + 1) ep (k v (extend ep (.idx i)) s).2
    simp only [editItems, itemsT, run_append, run_pre]
    rw [← hv.1]
    refine ⟨h1, ?_, ?_⟩
    · intro o ho
      rcases List.mem_append.1 ho with ho | ho
      · obtain ⟨x, hx, rfl⟩ := List.mem_map.1 ho
        exact ⟨0, x.1, rfl, by simpa using hv.2.1 x hx⟩
      · obtain ⟨j, p, hp, hg⟩ := h2 o ho
        exact ⟨j + 1, p, by rw [hp]; congr 2; omega, by simpa using hg⟩
    · intro j p ha
      cases j with
      | zero =>
        simp only [List.getElem?_cons_zero, Option.bind_some]
        refine hv.2.2 p fun o ho => ?_
        have := ha (.idx i :: o.1, o.2) (List.mem_append.2 (Or.inl (List.mem_map.2 ⟨o, ho, rfl⟩)))
        exact apart_cons.1 this
      | succ j =>
        simp only [List.getElem?_cons_succ]
        refine h3 j p fun o ho => ?_
        have := ha o (List.mem_append.2 (Or.inr ho))
        rwa [show i + (j + 1) = i + 1 + j by omega] at this

theorem arr_patched {vs vs' : List Value} {outs : List (Pos × Value)}
    (h1 : ∀ o ∈ outs, ∃ j p, o.1 = .idx (0 + j) :: p ∧ (vs'[j]?).bind (get · p) = some o.2)
    (h2 : ∀ j p, (∀ o ∈ outs, Apart o.1 (.idx (0 + j) :: p)) →
      (vs'[j]?).bind (get · p) = (vs[j]?).bind (get · p)) :
    Patched (.arr vs) (.arr vs') outs := by
  simp only [Nat.zero_add] at h1 h2
  refine ⟨?_, ?_⟩
  · intro o ho
    obtain ⟨j, p, hp, hg⟩ := h1 o ho
    rw [hp, get_arr, hg]
  · intro pos ha
    cases pos with
    | nil =>
      have hn : outs = [] := by
        cases outs with
        | nil => rfl
        | cons o outs => exact absurd (List.nil_prefix) (ha o (by simp)).2
      subst hn
      have : vs' = vs := by
        apply List.ext_getElem?
        intro j
        have := h2 j [] (by simp)
        simpa [get_nil] using this
      rw [this]
    | cons q p =>
      cases q with
      | key k => rfl
      | idx j => rw [get_arr, get_arr]; exact h2 j p ha

theorem editConds_eq {σ : Type} (S : Schema) (ts : List String) (k : Step σ) (ep : Option Pos)
    (vs : List Value) : ∀ i s, editConds S ts k ep i vs s = editItems (editCond S ts k) ep i vs s := by
  induction vs with
  | nil => intro i s; rw [editConds, editItems]
  | cons v vs ih => intro i s; rw [editConds, editItems, ih]

theorem cond_good {σ : Type} (S : Schema) (ts : List String) (cb k : Step σ)
    (T : Value → List (Pos × Value)) (v : Value) :
    v.WF → (∀ fs, (Value.obj fs).WF → Good cb k T (.obj fs)) →
    Good cb (editCond S ts k) (condT S ts T) v := by
  induction v using Value.ind with
  | obj fs _ =>
    intro hwf h ep s
    rw [editCond, condT]
    split
    · exact h fs hwf ep s
    · exact ⟨rfl, Patched.refl _⟩
  | arr vs ih =>
    intro hwf h ep s
    rw [editCond, condT, condTs_eq]
    simp only [editConds_eq]
    obtain ⟨h1, h2, h3⟩ := items_good cb _ _ vs (fun v hv => ih v hv (wf_item hwf hv) h) 0 ep s
    exact ⟨h1, arr_patched h2 h3⟩
  | _ => intros; intro ep s; rw [editCond, condT] <;> first | exact ⟨rfl, Patched.refl _⟩ | simp

theorem lookup_set {fs : Fields} (hs : SortedKeys fs) {i : Nat} {name : String} {v v' : Value}
    (hi : fs[i]? = some (name, v)) (k : String) :
    lookup k (fs.set i (name, v')) = if k = name then some v' else lookup k fs := by
  induction fs generalizing i with
  | nil => simp at hi
  | cons kv fs ih =>
    have hh : ∀ x ∈ fs, kv.1 < x.1 := (List.pairwise_cons.1 hs).1
    cases i with
    | zero =>
      simp only [List.getElem?_cons_zero, Option.some.injEq] at hi
      subst hi
      simp only [List.set_cons_zero, lookup]
      by_cases hk : k = name
      · simp [hk]
      · simp [hk, Ne.symm hk]
    | succ i =>
      simp only [List.getElem?_cons_succ] at hi
      obtain ⟨k', w⟩ := kv
      simp only [List.set_cons_succ, lookup, ih (List.pairwise_cons.1 hs).2 hi]
      have hne : k' ≠ name := str_lt_ne (hh _ (List.mem_of_getElem? hi))
      by_cases hk : k' = k
      · subst hk; simp [hne]
      · simp [hk]

theorem fields_ext_set {fs : Fields} {i : Nat} {name : String} {v : Value}
    (hi : fs[i]? = some (name, v)) : fs.set i (name, v) = fs := by
  apply List.ext_getElem?
  intro j
  rw [List.getElem?_set]
  split
  · rename_i h; subst h
    obtain ⟨hlt, _⟩ := List.getElem?_eq_some_iff.1 hi
    rw [if_pos hlt, hi]
  · rfl

theorem edit_good {σ : Type} (S : Schema) (cb : Step σ) (p : List Seg) :
    ∀ v : Value, v.WF → Good cb (edit S cb p) (targets S p) v := by
  have here : ∀ v : Value, Good cb cb (fun v => [([], v)]) v := by
    intro v ep s
    have he : (ep.map fun x => x ++ []) = ep := by cases ep <;> simp
    simp only [run, he]
    refine ⟨trivial, ?_, ?_⟩
    · intro o ho; rw [List.mem_singleton.1 ho]; exact get_nil _
    · intro pos ha
      exact absurd List.nil_prefix (ha ([], (cb v ep s).1) (by simp)).1
  induction p with
  | nil =>
    intro v _ ep s
    cases v with
    | arr vs =>
      obtain ⟨h1, h2, h3⟩ := items_good cb cb _ vs (fun v _ => here v) 0 ep s
      exact ⟨h1, arr_patched h2 h3⟩
    | _ => exact here _ ep s
  | cons seg p ih =>
    intro v hwf ep s
    cases seg with
    | list =>
      cases v with
      | arr vs =>
        obtain ⟨h1, h2, h3⟩ := items_good cb _ _ vs (fun v hv => ih v (wf_item hwf hv)) 0 ep s
        exact ⟨h1, arr_patched h2 h3⟩
      | _ => exact ⟨rfl, Patched.refl _⟩
    | field name =>
      cases v with
      | obj fs =>
        have hs := wf_sorted hwf
        have hl := findKey_lookup hs name
        show (editField name (edit S cb p) (.obj fs) ep s).2 =
            (run cb (fieldT name (targets S p) (.obj fs)) ep s).2 ∧
          Patched (.obj fs) (editField name (edit S cb p) (.obj fs) ep s).1
            (run cb (fieldT name (targets S p) (.obj fs)) ep s).1
        unfold editField fieldT
        cases hf : findKey fs name with
        | none => rw [hf] at hl; simp only at hl; simp only [hl, hf]; exact ⟨rfl, Patched.refl _⟩
        | some i =>
          rw [hf] at hl
          obtain ⟨v, h1, h2⟩ := hl
          simp only [hf, h1, h2, run_pre]
          have hv := ih v (wf_lookup hwf h2) (extend ep (.key name)) s
          refine ⟨hv.1, ?_, ?_⟩
          · intro o ho
            obtain ⟨x, hx, rfl⟩ := List.mem_map.1 ho
            simp only [get_obj, lookup_set hs h1, if_true]
            exact hv.2.1 x hx
          · intro pos ha
            cases pos with
            | nil =>
              have hn : (run cb (targets S p v) (extend ep (.key name)) s).1 = [] := by
                cases hc : (run cb (targets S p v) (extend ep (.key name)) s).1 with
                | nil => rfl
                | cons o outs =>
                  rw [hc] at ha
                  exact absurd List.nil_prefix (ha (.key name :: o.1, o.2) (by simp [pre])).2
              rw [hn] at hv
              have := hv.2.2 [] (by simp)
              rw [get_nil, get_nil, Option.some.injEq] at this
              rw [this, fields_ext_set h1]
            | cons q pos =>
              cases q with
              | idx j => rfl
              | key k =>
                rw [get_obj, get_obj, lookup_set hs h1]
                by_cases hk : k = name
                · subst hk
                  simp only [if_true, h2, Option.bind_some]
                  refine hv.2.2 pos fun o ho => ?_
                  have := ha (.key k :: o.1, o.2) (List.mem_map.2 ⟨o, ho, rfl⟩)
                  exact apart_cons.1 this
                · simp [hk]
      | _ => exact ⟨rfl, Patched.refl _⟩
    | cond ts => exact cond_good S ts cb _ _ v hwf (fun fs h => ih (.obj fs) h) ep s

/-! ## Targets are what the path reaches -/

theorem mem_itemsT (T : Value → List (Pos × Value)) (vs : List Value) : ∀ i pos t,
    (pos, t) ∈ itemsT T i vs ↔ ∃ j v p, vs[j]? = some v ∧ pos = .idx (i + j) :: p ∧ (p, t) ∈ T v := by
  induction vs with
  | nil => intro i pos t; simp [itemsT]
  | cons v vs ih =>
    intro i pos t
    rw [itemsT, List.mem_append, ih]
    constructor
    · rintro (h | ⟨j, w, p, h1, h2, h3⟩)
      · obtain ⟨x, hx, he⟩ := List.mem_map.1 h
        simp only [Prod.mk.injEq] at he
        obtain ⟨rfl, rfl⟩ := he
        exact ⟨0, v, x.1, rfl, rfl, hx⟩
      · exact ⟨j + 1, w, p, by simpa using h1, by rw [h2]; congr 2; omega, h3⟩
    · rintro ⟨j, w, p, h1, h2, h3⟩
      cases j with
      | zero =>
        left
        simp only [List.getElem?_cons_zero, Option.some.injEq] at h1
        subst h1
        exact List.mem_map.2 ⟨(p, t), h3, by rw [h2]; rfl⟩
      | succ j =>
        right
        exact ⟨j, w, p, by simpa using h1, by rw [h2]; congr 2; omega, h3⟩

theorem condOk_iff {S : Schema} {ts : List String} {fs : Fields} (hs : SortedKeys fs) :
    condOk S ts fs = true ↔ Passes S ts fs := by
  unfold condOk typenameOf Passes
  rw [getKey_eq_lookup hs]
  cases lookup "__typename" fs with
  | none => simp
  | some v => cases v <;> simp

theorem mem_condT {S : Schema} {ts : List String} {p : List Seg} (v : Value) : v.WF →
    (∀ fs, (Value.obj fs).WF → ∀ pos t, (pos, t) ∈ targets S p (.obj fs) ↔ Reaches S p (.obj fs) pos t) →
    ∀ pos t, (pos, t) ∈ condT S ts (targets S p) v ↔ Reaches S (.cond ts :: p) v pos t := by
  induction v using Value.ind with
  | obj fs _ =>
    intro hwf h pos t
    rw [condT]
    split
    · rename_i hc
      rw [h fs hwf]
      constructor
      · exact Reaches.cond p fs ts pos t ((condOk_iff (wf_sorted hwf)).1 hc)
      · intro hr; cases hr; assumption
    · rename_i hc
      constructor
      · simp
      · intro hr
        cases hr with
        | cond _ _ _ _ _ hp _ => exact absurd ((condOk_iff (wf_sorted hwf)).2 hp) hc
  | arr vs ih =>
    intro hwf h pos t
    rw [condT, condTs_eq, mem_itemsT]
    constructor
    · rintro ⟨j, v, q, h1, rfl, h3⟩
      rw [Nat.zero_add]
      have hm := List.mem_of_getElem? h1
      exact .condItem _ _ _ _ v _ _ h1 ((ih v hm (wf_item hwf hm) h _ _).1 h3)
    · intro hr
      cases hr with
      | condItem _ _ _ i v pos _ h1 h2 =>
        have hm := List.mem_of_getElem? h1
        exact ⟨i, v, pos, h1, by rw [Nat.zero_add], (ih v hm (wf_item hwf hm) h _ _).2 h2⟩
  | _ => intro hwf h pos t; rw [condT] <;> first | (constructor; (· simp); (· intro hr; cases hr)) | simp

/-- The walks visit what the path reaches, and nothing else. -/
theorem mem_targets (S : Schema) (p : List Seg) : ∀ v : Value, v.WF → ∀ pos t,
    (pos, t) ∈ targets S p v ↔ Reaches S p v pos t := by
  induction p with
  | nil =>
    intro v _ pos t
    have other : (∀ vs, v ≠ .arr vs) → ((pos, t) ∈ [(([] : Pos), v)] ↔ Reaches S [] v pos t) := by
      intro hn
      constructor
      · intro h
        simp only [List.mem_singleton, Prod.mk.injEq] at h
        obtain ⟨rfl, rfl⟩ := h
        exact .here _ hn
      · intro h
        cases h with
        | here => simp
        | item vs => exact absurd rfl (hn vs)
    cases v with
    | arr vs =>
      show (pos, t) ∈ itemsT (fun v => [([], v)]) 0 vs ↔ _
      rw [mem_itemsT]
      constructor
      · rintro ⟨j, v, q, h1, rfl, h3⟩
        simp only [List.mem_singleton, Prod.mk.injEq] at h3
        obtain ⟨rfl, rfl⟩ := h3
        rw [Nat.zero_add]
        exact .item vs j _ h1
      · intro h
        cases h with
        | here _ hn => exact absurd rfl (hn vs)
        | item _ i _ h1 => exact ⟨i, t, [], h1, by simp, by simp⟩
    | _ => exact other (by simp)
  | cons seg p ih =>
    intro v hwf pos t
    cases seg with
    | list =>
      cases v with
      | arr vs =>
        show (pos, t) ∈ itemsT (targets S p) 0 vs ↔ _
        rw [mem_itemsT]
        constructor
        · rintro ⟨j, v, q, h1, rfl, h3⟩
          rw [Nat.zero_add]
          exact .list p vs j v q t h1 ((ih v (wf_item hwf (List.mem_of_getElem? h1)) _ _).1 h3)
        · intro h
          cases h with
          | list _ _ i v q _ h1 h2 =>
            exact ⟨i, v, q, h1, by simp, (ih v (wf_item hwf (List.mem_of_getElem? h1)) _ _).2 h2⟩
      | _ => constructor <;> intro h <;> first | cases h | (simp [targets, listT] at h)
    | field name =>
      cases v with
      | obj fs =>
        show (pos, t) ∈ fieldT name (targets S p) (.obj fs) ↔ _
        rw [fieldT_obj]
        cases hl : lookup name fs with
        | none =>
          constructor
          · simp
          · intro h
            cases h with
            | field _ _ _ v _ _ h1 _ => rw [hl] at h1; simp at h1
        | some v =>
          constructor
          · intro h
            obtain ⟨x, hx, he⟩ := List.mem_map.1 h
            simp only [Prod.mk.injEq] at he
            obtain ⟨rfl, rfl⟩ := he
            exact .field p fs name v _ _ hl ((ih v (wf_lookup hwf hl) _ _).1 hx)
          · intro h
            cases h with
            | field _ _ _ w q _ h1 h2 =>
              rw [hl, Option.some.injEq] at h1
              subst h1
              exact List.mem_map.2 ⟨(q, t), (ih v (wf_lookup hwf hl) _ _).2 h2, rfl⟩
      | _ => constructor <;> intro h <;> first | cases h | (simp [targets, fieldT] at h)
    | cond ts => exact mem_condT v hwf (fun fs h => ih (.obj fs) h) pos t

/-! ## Their order -/

/-- The order of positions in the data. -/
inductive Before : Pos → Pos → Prop
  | here (i j : Nat) (p q : Pos) : i < j → Before (.idx i :: p) (.idx j :: q)
  | tail (s : PSeg) (p q : Pos) : Before p q → Before (s :: p) (s :: q)

theorem Before.irrefl (p : Pos) : ¬ Before p p := by
  induction p with
  | nil => intro h; cases h
  | cons s p ih =>
    intro h
    cases h with
    | here _ _ _ _ h => omega
    | tail _ _ _ h => exact ih h

theorem Before.trans {p q : Pos} (h : Before p q) : ∀ {r}, Before q r → Before p r := by
  induction h with
  | here i j p q hij =>
    intro r h
    cases h with
    | here _ k _ _ hjk => exact .here i k _ _ (by omega)
    | tail _ _ _ _ => exact .here i j _ _ hij
  | tail s p q hpq ih =>
    intro r h
    cases h with
    | here i j _ _ hij => exact .here i j _ _ hij
    | tail _ _ _ h => exact .tail s _ _ (ih h)

theorem Before.apart {p q : Pos} (h : Before p q) : Apart p q := by
  induction h with
  | here i j p q hij => exact apart_ne (by simp; omega) _ _
  | tail s p q _ ih => exact apart_cons.2 ih

/-- In the order of positions. -/
def InOrder (l : List (Pos × Value)) : Prop := (l.map (·.1)).Pairwise Before

theorem inOrder_pre {l : List (Pos × Value)} (q : PSeg) (h : InOrder l) : InOrder (pre q l) := by
  unfold InOrder pre at *
  rw [List.map_map, List.pairwise_map]
  rw [List.pairwise_map] at h
  exact h.imp fun h => .tail q _ _ h

theorem inOrder_items (T : Value → List (Pos × Value)) (vs : List Value)
    (h : ∀ v ∈ vs, InOrder (T v)) : ∀ i, InOrder (itemsT T i vs) := by
  induction vs with
  | nil => intro i; simp [InOrder, itemsT]
  | cons v vs ih =>
    intro i
    rw [itemsT, InOrder, List.map_append, List.pairwise_append]
    refine ⟨inOrder_pre _ (h v (by simp)), ih (fun w hw => h w (by simp [hw])) _, ?_⟩
    intro a ha b hb
    obtain ⟨x, hx, rfl⟩ := List.mem_map.1 ha
    obtain ⟨⟨b1, b2⟩, hy, rfl⟩ := List.mem_map.1 hb
    obtain ⟨x', hx', rfl⟩ := List.mem_map.1 hx
    obtain ⟨j, w, p, h1, h2, h3⟩ := (mem_itemsT _ _ _ _ _).1 hy
    simp only at h2 ⊢
    rw [h2]
    exact .here _ _ _ _ (by omega)

theorem inOrder_targets (S : Schema) (p : List Seg) : ∀ v : Value, InOrder (targets S p v) := by
  induction p with
  | nil =>
    intro v
    cases v with
    | arr vs => exact inOrder_items _ vs (fun v _ => by simp [InOrder]) 0
    | _ => simp [InOrder, targets, endT]
  | cons seg p ih =>
    intro v
    cases seg with
    | list =>
      cases v with
      | arr vs => exact inOrder_items _ vs (fun v _ => ih v) 0
      | _ => simp [InOrder, targets, listT]
    | field name =>
      cases v with
      | obj fs =>
        show InOrder (fieldT name (targets S p) (.obj fs))
        rw [fieldT_obj]
        cases lookup name fs with
        | none => simp [InOrder]
        | some v => exact inOrder_pre _ (ih v)
      | _ => simp [InOrder, targets, fieldT]
    | cond ts =>
      show InOrder (condT S ts (targets S p) v)
      induction v using Value.ind with
      | obj fs _ => rw [condT]; split; (· exact ih _); (· simp [InOrder])
      | arr vs ihv => rw [condT, condTs_eq]; exact inOrder_items _ vs ihv 0
      | _ => rw [condT] <;> simp [InOrder]

/-- Two lists of positions in order with the same members are equal. -/
theorem inOrder_ext : ∀ {l l' : List Pos}, l.Pairwise Before → l'.Pairwise Before →
    (∀ p, p ∈ l ↔ p ∈ l') → l = l'
  | [], [], _, _, _ => rfl
  | [], b :: l', _, _, h => absurd ((h b).2 (by simp)) (by simp)
  | a :: l, [], _, _, h => absurd ((h a).1 (by simp)) (by simp)
  | a :: l, b :: l', h1, h2, h => by
    rw [List.pairwise_cons] at h1 h2
    have hab : a = b := by
      rcases List.mem_cons.1 ((h a).1 (by simp)) with e | e
      · exact e
      · rcases List.mem_cons.1 ((h b).2 (by simp)) with e' | e'
        · exact e'.symm
        · exact absurd ((h2.1 a e).trans (h1.1 b e')) (Before.irrefl _)
    subst hab
    congr 1
    refine inOrder_ext h1.2 h2.2 fun p => ?_
    constructor
    · intro hp
      rcases List.mem_cons.1 ((h p).1 (by simp [hp])) with rfl | e
      · exact absurd (h1.1 _ hp) (Before.irrefl _)
      · exact e
    · intro hp
      rcases List.mem_cons.1 ((h p).2 (by simp [hp])) with rfl | e
      · exact absurd (h2.1 _ hp) (Before.irrefl _)
      · exact e

end Verif.Entities
