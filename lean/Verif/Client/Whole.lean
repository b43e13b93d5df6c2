import Verif.Client.Lemmas

/-!
# The name of the query type, and introspection
-/

namespace Verif.Client

/-! ## Root types -/

def pickOf (pick : SchemaDef → Option String) : Def → Option String
  | .schema s => pick s
  | _ => none

def isObjNamed (n : String) : Def → Bool
  | .type (.object o) => o.name = n
  | _ => false

theorem rootLoop_eq (n : String) (pick : SchemaDef → Option String) :
    ∀ (d : Doc) (fallback : Option String),
      rootLoop n pick fallback d =
        (d.findSome? (pickOf pick)).or (fallback.or (if d.any (isObjNamed n) then some n else none))
  | [], fallback => by cases fallback <;> simp [rootLoop]
  | .schema s :: ds, fallback => by
    unfold rootLoop
    cases hp : pick s with
    | none =>
      simp only
      rw [rootLoop_eq n pick ds]
      simp [List.findSome?_cons, pickOf, hp, isObjNamed]
    | some x => simp [List.findSome?_cons, pickOf, hp]
  | .directive x :: ds, fallback => by
    unfold rootLoop
    rw [rootLoop_eq n pick ds]
    simp [List.findSome?_cons, pickOf, isObjNamed]
  | .type t :: ds, fallback => by
    cases t with
    | object o =>
      unfold rootLoop
      rw [rootLoop_eq n pick ds]
      by_cases hn : o.name = n
      · subst hn; cases fallback <;> simp [List.findSome?_cons, pickOf, isObjNamed]
      · cases fallback <;> simp [List.findSome?_cons, pickOf, isObjNamed, hn]
    | scalar t => unfold rootLoop; rw [rootLoop_eq n pick ds]; simp [List.findSome?_cons, pickOf, isObjNamed]
    | interface t => unfold rootLoop; rw [rootLoop_eq n pick ds]; simp [List.findSome?_cons, pickOf, isObjNamed]
    | union t => unfold rootLoop; rw [rootLoop_eq n pick ds]; simp [List.findSome?_cons, pickOf, isObjNamed]
    | enum t => unfold rootLoop; rw [rootLoop_eq n pick ds]; simp [List.findSome?_cons, pickOf, isObjNamed]
    | input t => unfold rootLoop; rw [rootLoop_eq n pick ds]; simp [List.findSome?_cons, pickOf, isObjNamed]

theorem findSome_seen (pick : SchemaDef → Option String)
    (hp : ∀ s ds, pick { s with dirs := ds } = pick s) :
    ∀ d : Doc, (seen d).findSome? (pickOf pick) = d.findSome? (pickOf pick)
  | [] => rfl
  | x :: d => by
    have ih := findSome_seen pick hp d
    unfold seen at ih ⊢
    rw [List.filterMap_cons]
    cases x with
    | schema s => simp only [seenDef, List.findSome?_cons, pickOf, hp, ih]
    | directive dd =>
      simp only [seenDef]
      split <;> rename_i hh <;> split at hh <;> simp_all [List.findSome?_cons, pickOf]
      subst hh; simp [List.findSome?_cons, pickOf]
    | type t =>
      simp only [seenDef]
      split <;> rename_i hh <;> split at hh <;> simp_all [List.findSome?_cons, pickOf]
      subst hh; simp [List.findSome?_cons, pickOf]

theorem typeNames_mem {d : Doc} {t : TypeDef} (h : Def.type t ∈ d) : t.name ∈ typeNames d :=
  List.mem_filterMap.2 ⟨_, h, rfl⟩

theorem typeNames_cons (x : Def) (d : Doc) : typeNames (x :: d) = typeNames [x] ++ typeNames d := by
  unfold typeNames; rw [List.filterMap_cons]; cases x <;> rfl

/-- With distinct names, a name is that of one type. -/
theorem one_type : ∀ {d : Doc}, (typeNames d).Nodup → ∀ {t u : TypeDef},
    Def.type t ∈ d → Def.type u ∈ d → t.name = u.name → t = u
  | [], _, _, _, h, _, _ => by cases h
  | x :: d, hn, t, u, ht, hu, he => by
    rw [typeNames_cons] at hn
    have hd : (typeNames d).Nodup := (List.nodup_append.1 hn).2.1
    have hne := (List.nodup_append.1 hn).2.2
    rcases List.mem_cons.1 ht with ht' | ht' <;> rcases List.mem_cons.1 hu with hu' | hu'
    · rw [← ht'] at hu'; cases hu'; rfl
    · subst ht'
      exact absurd he (hne t.name (by simp [typeNames]) u.name (typeNames_mem hu'))
    · subst hu'
      exact absurd he.symm (hne u.name (by simp [typeNames]) t.name (typeNames_mem ht'))
    · exact one_type hd ht' hu' he

theorem mem_seen_type {d : Doc} {u : TypeDef} :
    Def.type u ∈ seen d ↔ ∃ t, Shown d t ∧ u = seenType t := by
  unfold seen
  rw [List.mem_filterMap]
  constructor
  · rintro ⟨x, hx, h⟩
    cases x with
    | schema s => simp [seenDef] at h
    | directive dd => simp only [seenDef] at h; split at h <;> simp at h
    | type t =>
      simp only [seenDef] at h
      split at h
      · cases h
      · next hc =>
        rw [not_or] at hc
        cases h
        exact ⟨t, ⟨hx, hc⟩, rfl⟩
  · rintro ⟨t, ⟨hm, hh, hn⟩, rfl⟩
    exact ⟨_, hm, by simp [seenDef, hh, hn]⟩

theorem seenType_name (t : TypeDef) : (seenType t).name = t.name := by cases t <;> rfl

theorem query_seen (d : Doc) (q : String) (h : Composed d q) : queryTypeName (seen d) = some q := by
  obtain ⟨o, ho, hq, _⟩ := h.queryType
  have h0 := h.queryName
  unfold queryTypeName at h0 ⊢
  rw [rootLoop_eq] at h0 ⊢
  rw [findSome_seen _ (fun _ _ => rfl)]
  cases hp : d.findSome? (pickOf (·.query)) with
  | some x => rw [hp] at h0; simpa using h0
  | none =>
    rw [hp] at h0
    simp only [Option.none_or] at h0 ⊢
    split at h0
    · rw [if_pos]
      · exact h0
      · have hqq : "Query" = q := by simpa using h0
        rw [List.any_eq_true]
        refine ⟨.type (.object (seenObj o)), mem_seen_type.2 ⟨_, ho, rfl⟩, ?_⟩
        simp [isObjNamed, seenObj, hq, hqq]
    · cases h0

/-! ## Introspection -/

/-- The fields that introspection adds to a type. -/
def withFields (q : String) (fs : List Fld) : Def → Def
  | .type (.object o) => if o.name = q then .type (.object { o with fields := o.fields ++ fs }) else .type (.object o)
  | d => d

theorem withFields_of_not (q : String) (fs : List Fld) (d : Def) (h : isObjNamed q d = false) :
    withFields q fs d = d := by
  cases d with
  | type t => cases t <;> simp_all [withFields, isObjNamed]
  | schema s => rfl
  | directive d => rfl

theorem extendFirst_eq (q : String) (fs : List Fld) :
    ∀ d : Doc, (typeNames d).Nodup → d.any (isObjNamed q) → extendFirst q fs d = some (d.map (withFields q fs))
  | [], _, h => by simp at h
  | x :: d, hn, h => by
    rw [typeNames_cons] at hn
    have hd : (typeNames d).Nodup := (List.nodup_append.1 hn).2.1
    by_cases hx : isObjNamed q x
    · cases x with
      | schema s => simp [isObjNamed] at hx
      | directive s => simp [isObjNamed] at hx
      | type t =>
        cases t with
        | object o =>
          have ho : o.name = q := by simpa [isObjNamed] using hx
          unfold extendFirst
          rw [if_pos ho, List.map_cons]
          congr 2
          · simp [withFields, ho]
          · symm
            have hid : ∀ y ∈ d, withFields q fs y = y := by
             intro y hy
             apply withFields_of_not
             cases hyo : isObjNamed q y with
             | false => rfl
             | true =>
               exfalso
               cases y with
               | schema s => simp [isObjNamed] at hyo
               | directive s => simp [isObjNamed] at hyo
               | type t =>
                 cases t with
                 | object o' =>
                   have ho' : o'.name = q := by simpa [isObjNamed] using hyo
                   exact (List.nodup_append.1 hn).2.2 o.name (by simp [typeNames, TypeDef.name]) o'.name
                     (typeNames_mem hy) (ho.trans ho'.symm)
                 | _ => simp [isObjNamed] at hyo
            exact (List.map_congr_left hid).trans (List.map_id d)
        | _ => simp [isObjNamed] at hx
    · have hx : isObjNamed q x = false := by simpa using hx
      have hr : d.any (isObjNamed q) := by simpa [hx] using h
      have ih := extendFirst_eq q fs d hd hr
      rw [List.map_cons, withFields_of_not q fs x hx]
      cases x with
      | schema s => simp [extendFirst, ih]
      | directive s => simp [extendFirst, ih]
      | type t =>
        cases t with
        | object o =>
          have ho : ¬ o.name = q := by simpa [isObjNamed] using hx
          simp [extendFirst, ih, ho]
        | _ => simp [extendFirst, ih]

theorem addIntro_pushes (q : String) :
    ∀ (ds result : Doc), ds.any (isObjNamed "Query") = false → addIntro q result ds = result ++ ds
  | [], result, _ => by simp [addIntro]
  | x :: ds, result, h => by
    have hx : isObjNamed "Query" x = false := by
      cases hh : isObjNamed "Query" x with
      | false => rfl
      | true => simp [hh] at h
    have hr : ds.any (isObjNamed "Query") = false := by simpa [hx] using h
    cases x with
    | schema s => rw [addIntro, addIntro_pushes q ds _ hr] <;> simp
    | directive s => rw [addIntro, addIntro_pushes q ds _ hr] <;> simp
    | type t =>
      cases t with
      | object o =>
        have : ¬ o.name = "Query" := by simpa [isObjNamed] using hx
        rw [addIntro, if_neg this, addIntro_pushes q ds _ hr] <;> simp
      | _ => rw [addIntro, addIntro_pushes q ds _ hr] <;> simp

theorem addIntro_append (q : String) :
    ∀ (ds es result : Doc), ds.any (isObjNamed "Query") = false →
      addIntro q result (ds ++ es) = addIntro q (result ++ ds) es
  | [], es, result, _ => by simp
  | x :: ds, es, result, h => by
    have hx : isObjNamed "Query" x = false := by
      cases hh : isObjNamed "Query" x with
      | false => rfl
      | true => simp [hh] at h
    have hr : ds.any (isObjNamed "Query") = false := by simpa [hx] using h
    rw [List.cons_append]
    cases x with
    | schema s => rw [addIntro, addIntro_append q ds es _ hr] <;> simp
    | directive s => rw [addIntro, addIntro_append q ds es _ hr] <;> simp
    | type t =>
      cases t with
      | object o =>
        have : ¬ o.name = "Query" := by simpa [isObjNamed] using hx
        rw [addIntro, if_neg this, addIntro_append q ds es _ hr] <;> simp
      | _ => rw [addIntro, addIntro_append q ds es _ hr] <;> simp

theorem addIntro_split (q : String) (pre post result : Doc) (o : Obj)
    (h1 : pre.any (isObjNamed "Query") = false) (h2 : post.any (isObjNamed "Query") = false)
    (ho : o.name = "Query") (hn : (typeNames (result ++ pre)).Nodup)
    (ha : (result ++ pre).any (isObjNamed q)) :
    addIntro q result (pre ++ Def.type (.object o) :: post) =
      (result ++ pre).map (withFields q o.fields) ++ post := by
  rw [addIntro_append q pre _ _ h1, addIntro, if_pos ho, extendFirst_eq q o.fields _ hn ha,
    Option.getD_some, addIntro_pushes q post _ h2]

theorem create_of (intro d : Doc) (r : Doc) (q : String) (h : strip (prune d) = r)
    (hq : queryTypeName r = some q) : create intro d = some (addIntro q r intro) := by
  unfold create
  rw [h]
  simp only [hq, Option.map_some]

/-- The definitions of introspection before and after those of its query type. -/
def introBefore : Doc := introspection.take 10
def introAfter : Doc := introspection.drop 11

/-- The fields of introspection on the query type. -/
def introFields : List Fld :=
  [{ name := "__schema", ty := .nonNull (.named "__Schema") },
   { name := "__type", args := [{ name := "name", ty := .nonNull (.named "String") }], ty := .named "__Type" }]

theorem introspection_eq :
    introspection = introBefore ++ Def.type (.object { name := "Query", fields := introFields }) :: introAfter :=
  rfl

theorem typeNames_append (a b : Doc) : typeNames (a ++ b) = typeNames a ++ typeNames b := by
  unfold typeNames; rw [List.filterMap_append]

theorem typeNames_seen_sublist (d : Doc) : (typeNames (seen d)).Sublist (typeNames d) := by
  induction d with
  | nil => exact List.Sublist.refl _
  | cons x d ih =>
    unfold seen at ih ⊢
    rw [List.filterMap_cons]
    cases x with
    | schema s => simpa [seenDef, typeNames] using ih
    | directive dd =>
      simp only [seenDef]
      split <;> rename_i hh <;> split at hh
      · simpa [typeNames] using ih
      · cases hh
      · cases hh
      · cases hh; simpa [typeNames] using ih
    | type t =>
      simp only [seenDef]
      split <;> rename_i hh <;> split at hh
      · exact List.Sublist.trans ih (by simp [typeNames])
      · cases hh
      · cases hh
      · cases hh
        have e : ∀ (y : TypeDef) (l : Doc), typeNames (.type y :: l) = y.name :: typeNames l :=
          fun _ _ => rfl
        rw [e, e, seenType_name]
        exact ih.cons_cons _

theorem intro_names : typeNames (introBefore ++ introAfter) = introspectionTypes := by
  decide +kernel

/-- The client's schema as a whole. -/
theorem create_eq (d : Doc) (q : String) (h : Composed d q) :
    create introspection d =
      some ((seen d).map (withFields q introFields) ++ introBefore ++ introAfter) := by
  rw [create_of introspection d (seen d) q (strip_prune d q h) (query_seen d q h)]
  have hsplit : introspectionTypes = typeNames introBefore ++ typeNames introAfter := by
    rw [← intro_names, typeNames_append]
  have hnd : (typeNames (seen d ++ introBefore)).Nodup := by
    rw [typeNames_append, List.nodup_append]
    refine ⟨h.distinct.sublist (typeNames_seen_sublist d), by decide +kernel, ?_⟩
    intro a ha b hb hab
    subst hab
    obtain ⟨x, hx, hxa⟩ := List.mem_filterMap.1 ha
    cases x with
    | schema s => cases hxa
    | directive s => cases hxa
    | type u =>
      simp only [Option.some.injEq] at hxa
      obtain ⟨t, ht, rfl⟩ := mem_seen_type.1 hx
      rw [seenType_name] at hxa
      apply h.own t ht
      rw [hxa, hsplit]
      exact List.mem_append_left _ hb
  obtain ⟨o, ho, hq, _⟩ := h.queryType
  have hany : (seen d ++ introBefore).any (isObjNamed q) := by
    rw [List.any_eq_true]
    exact ⟨.type (.object (seenObj o)), List.mem_append_left _ (mem_seen_type.2 ⟨_, ho, rfl⟩), by
      simp [isObjNamed, seenObj, hq]⟩
  have hk := addIntro_split q introBefore introAfter (seen d) { name := "Query", fields := introFields }
    (by decide +kernel) (by decide +kernel) rfl hnd hany
  rw [introspection_eq, hk, List.map_append]
  have hb : introBefore.any (isObjNamed q) = false := by
    have : ∀ (l : Doc), (l.all (fun x => match x with | .type (.object _) => false | _ => true)) = true →
        l.any (isObjNamed q) = false := by
      intro l
      induction l with
      | nil => intro _; rfl
      | cons x l ih =>
        intro hl
        simp only [List.all_cons, Bool.and_eq_true] at hl
        rw [List.any_cons, ih hl.2, Bool.or_false]
        cases x with
        | type t => cases t <;> simp_all [isObjNamed]
        | _ => rfl
    exact this introBefore (by decide +kernel)
  have hid : ∀ y ∈ introBefore, withFields q introFields y = y := by
    intro y hy
    apply withFields_of_not
    cases hyo : isObjNamed q y with
    | false => rfl
    | true => rw [List.any_eq_false] at hb; exact absurd hyo (hb y hy)
  rw [(List.map_congr_left hid).trans (List.map_id _)]

end Verif.Client
