import Verif.Walker.Ends

/-!
# The search does not give up

Looking for paths fails only with errors that are not answers: that nothing is found is an empty list.
-/

namespace Verif.Walker

open Verif.Graph

/-- Only errors that are not answers. -/
def Firm {α : Type} (x : Except Err α) : Prop := ∀ e, x = .error e → e.Bad

theorem Firm.ok {α : Type} (a : α) : Firm (.ok a : Except Err α) := by intro e h; simp at h

theorem Firm.error {α : Type} {e : Err} (h : e.Bad) : Firm (.error e : Except Err α) := by
  intro e' h'; simp only [Except.error.injEq] at h'; subst h'; exact h

theorem Firm.err {α β : Type} {x : Except Err α} {e : Err} (h : Firm x) (he : x = .error e) :
    Firm (.error e : Except Err β) := Firm.error (h e he)

/-- With neither kind of error there is a result. -/
theorem Firm.isOk {α : Type} {x : Except Err α} (h : Firm x) (hf : Fine x) : ∃ a, x = .ok a := by
  cases x with
  | ok a => exact ⟨a, rfl⟩
  | error e => exact absurd (h e rfl) (hf e rfl)

def FirmSat (sat : Sat) : Prop := ∀ e p ex, Firm (sat e p ex)

theorem collect_firm {α β : Type} {f : α → Except Err (Option β)} (hf : ∀ x, Firm (f x)) :
    ∀ l : List α, Firm (collect f l)
  | [] => Firm.ok _
  | x :: r => by
    simp only [collect]
    split
    next e h => exact (hf x).err h
    · split
      next e h => exact (collect_firm hf r).err h
      · exact Firm.ok _

theorem tryAdvance_firm {G : Moves} {sat : Sat} (hs : FirmSat sat) (p : Path) (t : Target) (e : Edge) :
    Firm (tryAdvance G sat p t e) := by
  simp only [tryAdvance]
  split
  next x h => exact (hs _ _ _).err h
  · exact Firm.ok _
  · exact Firm.ok _

theorem findDirect_firm {G : Moves} {sat : Sat} (hs : FirmSat sat) (p : Path) (t : Target) :
    Firm (findDirect G sat p t) := by
  simp only [findDirect]
  split
  · exact collect_firm (tryAdvance_firm hs p t) _
  · exact Firm.ok _

theorem track_firm (G : Moves) (p : Path) (t : Tracker) : Firm (track G p t) := by
  simp only [track]
  split
  · exact Firm.error trivial
  · split
    · exact Firm.error trivial
    · exact Firm.ok _

theorem trackAll_firm (G : Moves) : ∀ (ps : List Path) (t : Tracker), Firm (trackAll G ps t)
  | [], t => Firm.ok _
  | p :: r, t => by
    simp only [trackAll]
    split
    next e h => exact (track_firm G p t).err h
    · exact trackAll_firm G r _

theorem expand_firm {G : Moves} {S : Super} {sat : Sat} (hs : FirmSat sat) (cur source : String) (t : Target)
    (it : Item) : ∀ (es : List Edge) (tr : Tracker) (q : List Item),
    Firm (expand G S sat cur source t it es tr q)
  | [], tr, q => Firm.ok _
  | e :: es, tr, q => by
    simp only [expand]
    split
    · exact Firm.error trivial
    · split
      · exact Firm.error trivial
      · split
        · exact expand_firm hs cur source t it es tr q
        · split
          next x h => exact (hs _ _ _).err h
          · exact expand_firm hs cur source t it es tr q
          · split
            next x h => exact (findDirect_firm hs _ _).err h
            · exact expand_firm hs cur source t it es tr _
            · split
              next x h => exact (trackAll_firm _ _ _).err h
              · exact expand_firm hs cur source t it es _ q

theorem indirectLoop_firm {G : Moves} {S : Super} {sat : Sat} (hs : FirmSat sat) (cur source : String)
    (t : Target) : ∀ (n : Nat) (q : List Item) (seen : List Nat) (tr : Tracker),
    Firm (indirectLoop G S sat cur source t n q seen tr)
  | 0, q, seen, tr => by simp only [indirectLoop]; exact Firm.error trivial
  | n + 1, [], seen, tr => by simp only [indirectLoop]; exact Firm.ok _
  | n + 1, it :: q, seen, tr => by
    simp only [indirectLoop]
    split
    · exact indirectLoop_firm hs cur source t n q seen tr
    · split
      next x h => exact (expand_firm hs _ _ _ _ _ _ _).err h
      · exact indirectLoop_firm hs cur source t n _ _ _

theorem findIndirect_firm {G : Moves} {S : Super} {sat : Sat} (hs : FirmSat sat) (p : Path) (t : Target)
    (ex : Excl) : Firm (findIndirect G S sat p t ex) := by
  simp only [findIndirect]
  split
  · exact Firm.error trivial
  · split
    · exact Firm.error trivial
    · split
      · split
        next x h => exact (indirectLoop_firm hs _ _ _ _ _ _ _).err h
        · exact Firm.ok _
      · exact Firm.ok _

theorem tailNames_firm (G : Moves) : ∀ ps : List Path, Firm (tailNames G ps)
  | [] => Firm.ok _
  | p :: r => by
    simp only [tailNames]
    split
    · exact Firm.error trivial
    · split
      next e h => exact (tailNames_firm G r).err h
      · exact Firm.ok _

theorem targetIds_firm (G : Moves) (S : Super) (f : FieldInfo) (ps : List Path) :
    Firm (targetIds G S f ps) := by
  simp only [targetIds]
  split
  next e h => exact (tailNames_firm G ps).err h
  · split
    · exact Firm.ok _
    · exact Firm.ok _

theorem eachPath_firm {f : Path → Except Err (List Path × List Path)} (hf : ∀ p, Firm (f p)) :
    ∀ ps : List Path, Firm (eachPath f ps)
  | [] => Firm.ok _
  | p :: r => by
    simp only [eachPath]
    split
    next e h => exact (hf p).err h
    · split
      next e h => exact (eachPath_firm hf r).err h
      · exact Firm.ok _

theorem fieldFrom_firm {G : Moves} {S : Super} {sat : Sat} (hs : FirmSat sat) (ex : Excl) (direct : Bool)
    (f : FieldInfo) (ss : List Sel) (ids : Option (List String)) (p : Path) :
    Firm (fieldFrom G S sat ex direct f ss ids p) := by
  simp only [fieldFrom]
  split
  next e h => exact (findDirect_firm hs _ _).err h
  · split
    · split
      next e h => exact (findIndirect_firm hs _ _ _).err h
      · exact Firm.ok _
    · exact Firm.ok _

theorem validateField_firm {G : Moves} {S : Super} {sat : Sat} (hs : FirmSat sat) (ex : Excl) (direct : Bool)
    (f : FieldInfo) (ss : List Sel) (ps : List Path) : Firm (validateField G S sat ex direct f ss ps) := by
  simp only [validateField]
  split
  next e h => exact (targetIds_firm _ _ _ _).err h
  · split
    next e h => exact (eachPath_firm (fieldFrom_firm hs ex direct f ss _) _).err h
    · split <;> exact Firm.ok _

theorem fragFrom_firm {G : Moves} {S : Super} {sat : Sat} (hs : FirmSat sat) (ex : Excl) (type : String)
    (p : Path) : Firm (fragFrom G S sat ex type p) := by
  simp only [fragFrom]
  split
  · exact Firm.error trivial
  · split
    next e h =>
      split at h
      · simp at h
      · exact (findDirect_firm hs _ _).err h
    · split
      next e h => exact (findIndirect_firm hs _ _ _).err h
      · exact Firm.ok _

theorem validateFrag_firm {G : Moves} {S : Super} {sat : Sat} (hs : FirmSat sat) (ex : Excl) (type : String)
    (ps : List Path) : Firm (validateFrag G S sat ex type ps) := by
  simp only [validateFrag]
  split
  next e h => exact (eachPath_firm (fragFrom_firm hs ex type) _).err h
  · split <;> exact Firm.ok _

theorem reqLoop_firm {G : Moves} {S : Super} {sat : Sat} (hs : FirmSat sat) (ex : Excl) (direct : Bool)
    (p : Path) : ∀ (n : Nat) (q : List Need) (acc : List Path), Firm (reqLoop G S sat ex direct p n q acc)
  | 0, q, acc => by simp only [reqLoop]; exact Firm.error trivial
  | n + 1, [], acc => by simp only [reqLoop]; exact Firm.ok _
  | n + 1, nd :: q, acc => by
    simp only [reqLoop]
    split
    · split
      next e h => exact (validateField_firm hs _ _ _ _ _).err h
      · exact Firm.ok _
      · exact reqLoop_firm hs ex direct p n _ _
    · split
      next e h => exact (validateFrag_firm hs _ _ _).err h
      · exact Firm.ok _
      · exact reqLoop_firm hs ex direct p n _ _
    · exact reqLoop_firm hs ex direct p n _ _

theorem checkReqs_firm (env : Env) {sat : Sat} (hs : FirmSat sat) (direct : Bool) (e : Edge) (p : Path)
    (ex : Excl) : Firm (checkReqs env sat direct e p ex) := by
  simp only [checkReqs]
  split
  · split
    · exact Firm.ok _
    · exact reqLoop_firm hs _ _ _ _ _ _
  · exact Firm.ok _

theorem canSatisfy_firm (env : Env) : ∀ (n : Nat) (active : List (Nat × Nat)), FirmSat (canSatisfy env n active)
  | 0, active => by intro e p ex; simp only [canSatisfy]; exact Firm.error trivial
  | n + 1, active => by
    intro e p ex
    simp only [canSatisfy]
    split
    · exact Firm.ok _
    · exact checkReqs_firm env (canSatisfy_firm env n _) _ _ _ _

theorem sat_firm (env : Env) : FirmSat (sat env) := canSatisfy_firm env _ _

theorem fieldPaths_firm (env : Env) (f : FieldInfo) (ss : List Sel) (loc : List String)
    (ids : Option (List String)) (p : Path) : Firm (fieldPaths env f ss loc ids p) := by
  simp only [fieldPaths]
  split
  next e h => exact (findDirect_firm (sat_firm env) _ _).err h
  · split
    · split
      next e h => exact (findIndirect_firm (sat_firm env) _ _ _).err h
      · exact Firm.ok _
    · exact Firm.ok _

theorem ontoFrom_firm (env : Env) (g : FragInfo) (loc : List String) (p : Path) :
    Firm (ontoFrom env g loc p) := by
  simp only [ontoFrom]
  split
  next e h => exact (findDirect_firm (sat_firm env) _ _).err h
  · split
    · split
      next e h => exact (findIndirect_firm (sat_firm env) _ _ _).err h
      · exact Firm.ok _
    · exact Firm.ok _

theorem mapPaths_firm {f : Path → Except Err (List Path)} (hf : ∀ p, Firm (f p)) :
    ∀ ps : List Path, Firm (mapPaths f ps)
  | [] => Firm.ok _
  | p :: r => by
    simp only [mapPaths]
    split
    next e h => exact (hf p).err h
    · split
      next e h => exact (mapPaths_firm hf r).err h
      · exact Firm.ok _

end Verif.Walker
