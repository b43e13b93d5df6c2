import Verif.Persisted.Lemmas

/-! The id that is found is the one the specification says. -/

namespace Verif.Persisted

theorem field_decodes {p p' : PostInput} {k : String} {v : Value} (h : p.field k v = some p') :
    (k = "extensions" → v = .null ∨ ∃ m, v = .obj m) ∧
      (k = "documentId" → v = .null ∨ ∃ i, asId v = some i) := by
  constructor
  · rintro rfl
    simp only [PostInput.field, String.reduceEq, if_false, if_true] at h
    obtain ⟨x, hx, _⟩ := Option.map_eq_some_iff.1 h
    unfold once at hx
    split at hx
    · cases hx
    · split at hx
      · exact .inl rfl
      · right
        obtain ⟨m, hm, _⟩ := Option.map_eq_some_iff.1 hx
        cases v <;> simp only [asMap, reduceCtorEq] at hm
        exact ⟨_, rfl⟩
  · rintro rfl
    simp only [PostInput.field, String.reduceEq, if_false, if_true] at h
    obtain ⟨x, hx, _⟩ := Option.map_eq_some_iff.1 h
    unfold once at hx
    split at hx
    · cases hx
    · split at hx
      · exact .inl rfl
      · obtain ⟨m, hm, _⟩ := Option.map_eq_some_iff.1 hx
        exact .inr ⟨m, hm⟩

theorem fields_decode : ∀ {fs : Fields} {p p' : PostInput}, PostInput.fields p fs = some p' →
    ∀ k v, (k, v) ∈ fs → (k = "extensions" → v = .null ∨ ∃ m, v = .obj m) ∧
      (k = "documentId" → v = .null ∨ ∃ i, asId v = some i)
  | [], _, _, _, k, v, h => by simp at h
  | (k', v') :: fs, p, p', h, k, v, hm => by
    obtain ⟨q, hq, h⟩ := fields_cons h
    rcases List.mem_cons.1 hm with hm | hm
    · cases hm
      exact field_decodes hq
    · exact fields_decode h k v hm

theorem queryParam_iff (cfg : Config) (req : Request) (e : Option Fields) (d : Option String)
    (x : Option Fields) (name : Bytes) (hg : GoodSelector (.queryParam name)) (id : String) :
    Selector.extract cfg.utf8 (endpointPath cfg.endpoint) ⟨e, d, x, req.path, req.rawQuery⟩
        (.queryParam name) = some id ↔ Selects cfg req (.queryParam name) id := by
  obtain ⟨h1, h2, h3⟩ := hg
  simp only [Selector.extract, Ctx.queryParam]
  constructor
  · intro h
    cases hq : req.rawQuery with
    | none => rw [hq] at h; cases h
    | some q =>
      rw [hq] at h
      dsimp only at h
      rw [if_neg h1] at h
      obtain ⟨s, hs, hi⟩ := Option.bind_eq_some_iff.1 h
      obtain ⟨v, hv, hd⟩ := Option.bind_eq_some_iff.1 hs
      obtain ⟨rfl, hne⟩ := (nonEmpty_iff _ _).1 hi
      rw [findFirst_spec name h1 h2 h3 _ q (Nat.le_refl _), specFirst_iff] at hv
      rw [decodeIfNeeded_eq] at hd
      exact .query name q v _ hq hv.1 hv.2 hd hne
  · intro h
    cases h with
    | query _ q v _ hq hf hv hd hne =>
      rw [hq]
      dsimp only
      rw [if_neg h1, findFirst_spec name h1 h2 h3 _ q (Nat.le_refl _), (specFirst_iff name q v).2 ⟨hf, hv⟩,
        Option.bind_some, decodeIfNeeded_eq, hd, Option.bind_some]
      exact (nonEmpty_iff _ _).2 ⟨rfl, hne⟩

theorem Fits.ne_nil {t : List Seg} {ps : List Bytes} {s : Bytes} (h : Fits t ps (some s)) : ps ≠ [] := by
  cases h <;> simp

theorem pathParam_iff (cfg : Config) (req : Request) (e : Option Fields) (d : Option String)
    (x : Option Fields) (t : List Seg) (id : String) :
    Selector.extract cfg.utf8 (endpointPath cfg.endpoint) ⟨e, d, x, req.path, req.rawQuery⟩
        (.pathParam t) = some id ↔ Selects cfg req (.pathParam t) id := by
  simp only [Selector.extract, Ctx.pathParam]
  constructor
  · intro h
    obtain ⟨s, hs, hi⟩ := Option.bind_eq_some_iff.1 h
    obtain ⟨rfl, hne⟩ := (nonEmpty_iff _ _).1 hi
    cases hr : relativePath (endpointPath cfg.endpoint) req.path with
    | none => rw [hr] at hs; cases hs
    | some p =>
      rw [hr] at hs
      dsimp only at hs
      split at hs
      · rename_i ps hp
        obtain ⟨b, hb, hu⟩ := Option.bind_eq_some_iff.1 hs
        obtain ⟨o, ho, hob⟩ := Option.bind_eq_some_iff.1 hb
        cases hob
        have hf := (matchSegs_iff t ps _).1 ho
        obtain ⟨hpe, _, hsl⟩ := segments_eq p [] ps hp
        rw [List.nil_append] at hpe
        unfold relativePath at hr
        split at hr
        · rename_i h47
          cases hr
          exact .path [] t ps b s (.inl ⟨rfl, h47⟩) (by rw [List.nil_append]; exact hpe) hsl hf.ne_nil hf hu hne
        · rename_i h47
          split at hr
          · rename_i hpre
            obtain ⟨r, hr2⟩ := hpre
            have hdrop : req.path.drop (endpointPath cfg.endpoint).length = r := by rw [← hr2]; simp
            rw [hdrop] at hr
            have : r = p := by
              split at hr
              · cases hr; rfl
              · split at hr
                · cases hr; rfl
                · cases hr
            subst this
            exact .path _ t ps b s (.inr ⟨rfl, h47⟩) (by rw [← hr2, hpe]) hsl hf.ne_nil hf hu hne
          · cases hr
      · cases hs
  · intro h
    cases h with
    | path endpoint _ ps s _ he hp hsl hne hf hu hi =>
      have hr : relativePath (endpointPath cfg.endpoint) req.path = some (path ps) := by
        unfold relativePath
        rcases he with ⟨rfl, he⟩ | ⟨rfl, he⟩
        · rw [if_pos he, hp, List.nil_append]
        · rw [if_neg he, if_pos ⟨_, hp.symm⟩]
          have : req.path.drop (endpointPath cfg.endpoint).length = path ps := by rw [hp]; simp
          rw [this]
          cases ps with
          | nil => exact absurd rfl hne
          | cons q ps => rfl
      rw [hr]
      dsimp only
      have hseg : segments (path ps) = [] :: ps := by
        have := segments_join [] ps (by simp) hsl
        rwa [List.nil_append] at this
      rw [hseg]
      dsimp only
      rw [(matchSegs_iff t ps (some s)).2 hf, Option.bind_some]
      simp only [_root_.id, Option.bind_some]
      rw [hu, Option.bind_some]
      exact (nonEmpty_iff _ _).2 ⟨rfl, hi⟩

theorem at_cons {fs : Fields} {k : String} {keys : List String} {w : Value}
    (h : At (.obj fs) (k :: keys) w) : ∃ v, (k, v) ∈ fs ∧ At v keys w := by
  cases h with
  | field _ _ v _ _ hm ha => exact ⟨v, hm, ha⟩

/-- Extensions. -/
theorem extensions_iff (c : Ctx) (m : Fields) (he : c.extensions = some m) (hu : Uniq (.obj m))
    (keys : List String) (id : String) :
    (c.jsonPath ("extensions" :: keys)).bind nonEmpty = some id ↔
      keys ≠ [] ∧ ∃ w, At (.obj m) keys w ∧ IsId w id := by
  cases hu with
  | obj hn hv =>
    simp only [Ctx.jsonPath, String.reduceEq, or_self, if_false, if_true, he]
    cases keys with
    | nil => simp
    | cons k keys =>
      dsimp only
      rw [Option.bind_assoc]
      constructor
      · intro h
        obtain ⟨v, hl, hj⟩ := Option.bind_eq_some_iff.1 h
        have hm : (k, v) ∈ m := List.mem_reverse.1 (lookup_some_mem hl)
        obtain ⟨w, ha, hi⟩ := (jsonAt_iff keys v (hv _ hm) id).1 hj
        exact ⟨by simp, w, .field _ _ _ _ _ hm ha, hi⟩
      · rintro ⟨_, w, ha, hi⟩
        obtain ⟨v, hm, ha⟩ := at_cons ha
        rw [lookup_of_mem (nodup_reverse_map hn) (List.mem_reverse.2 hm), Option.bind_some]
        exact (jsonAt_iff keys v (hv _ hm) id).2 ⟨w, ha, hi⟩

theorem jsonPath_no_extra (c : Ctx) (he : c.extra = none) (k : String) (keys : List String)
    (hk : k ≠ "extensions") : c.jsonPath (k :: keys) = none := by
  simp [Ctx.jsonPath, hk, he]

theorem jsonPath_no_ext (c : Ctx) (he : c.extensions = none) (keys : List String) :
    c.jsonPath ("extensions" :: keys) = none := by
  simp [Ctx.jsonPath, he]

theorem selects_json {cfg : Config} {req : Request} {keys : List String} {id : String}
    (h : Selects cfg req (.jsonPath keys) id) :
    (∃ v w, req.ws = none ∧ req.method = .post ∧ req.body = some v ∧
      keys.head? ≠ some "query" ∧ keys.head? ≠ some "operationName" ∧ keys.head? ≠ some "variables" ∧
      At v keys w ∧ IsId w id) ∨
    (∃ g, keys = ["documentId"] ∧ req.ws = none ∧ req.method = .get ∧ req.rawQuery ≠ none ∧
      req.get = some g ∧ g.documentId = some id ∧ id ≠ "") ∨
    (∃ g s ks v w, keys = "extensions" :: ks ∧ req.ws = none ∧ req.method = .get ∧ req.rawQuery ≠ none ∧
      req.get = some g ∧ g.extensions = some s ∧ s ≠ "" ∧ cfg.json s = some v ∧ At v ks w ∧ ks ≠ [] ∧
      IsId w id) ∨
    (∃ p fs ks w, keys = "extensions" :: ks ∧ req.ws = some p ∧ p.extensions = some fs ∧
      At (.obj fs) ks w ∧ ks ≠ [] ∧ IsId w id) := by
  generalize hs : Selector.jsonPath keys = s at h
  cases h with
  | body _ v w _ h1 h2 h3 h4 h5 h6 h7 h8 =>
    cases hs
    exact .inl ⟨v, w, h1, h2, h3, h4, h5, h6, h7, h8⟩
  | getId g _ h1 h2 h3 h4 h5 h6 =>
    cases hs
    exact .inr (.inl ⟨g, rfl, h1, h2, h3, h4, h5, h6⟩)
  | getExt g s ks v w _ h1 h2 h3 h4 h5 h6 h7 h8 h9 h10 =>
    cases hs
    exact .inr (.inr (.inl ⟨g, s, ks, v, w, rfl, h1, h2, h3, h4, h5, h6, h7, h8, h9, h10⟩))
  | wsExt p fs ks w _ h1 h2 h3 h4 h5 =>
    cases hs
    exact .inr (.inr (.inr ⟨p, fs, ks, w, rfl, h1, h2, h3, h4, h5⟩))
  | query => cases hs
  | path => cases hs

theorem extract_ws (cfg : Config) (req : Request) (hr : Regular cfg req) (p : Params)
    (hw : req.ws = some p) (keys : List String) (hk : keys ≠ []) (id : String) :
    Selector.extract cfg.utf8 (endpointPath cfg.endpoint) ⟨p.extensions, none, none, req.path, req.rawQuery⟩
        (.jsonPath keys) = some id ↔ Selects cfg req (.jsonPath keys) id := by
  simp only [Selector.extract]
  split
  · rename_i hd
    subst hd
    simp only [Option.bind_none, reduceCtorEq, false_iff]
    intro h
    rcases selects_json h with ⟨v, w, h1, h2, h3, h4, h5, h6, h7, h8⟩ | ⟨g2, h1, h2, h3, h4, h5, h6, h7⟩ | ⟨g2, s2, ks, v2, w2, h1, h2, h3, h4, h5, h6, h7, h8, h9, h10, h11⟩ | ⟨p2, fs2, ks, w2, h1, h2, h3, h4, h5, h6⟩ <;> simp_all
  · cases keys with
    | nil => exact absurd rfl hk
    | cons k keys =>
      by_cases hke : k = "extensions"
      · subst hke
        cases hx : p.extensions with
        | none =>
          rw [jsonPath_no_ext _ rfl]
          simp only [Option.bind_none, reduceCtorEq, false_iff]
          intro h
          rcases selects_json h with ⟨v, w, h1, h2, h3, h4, h5, h6, h7, h8⟩ | ⟨g2, h1, h2, h3, h4, h5, h6, h7⟩ | ⟨g2, s2, ks, v2, w2, h1, h2, h3, h4, h5, h6, h7, h8, h9, h10, h11⟩ | ⟨p2, fs2, ks, w2, h1, h2, h3, h4, h5, h6⟩ <;> simp_all
        | some m =>
          rw [extensions_iff _ m rfl (hr.ws p m hw hx)]
          constructor
          · rintro ⟨hne, w, ha, hi⟩
            exact .wsExt p m keys w id hw hx ha hne hi
          · intro h
            rcases selects_json h with ⟨v, w, h1, h2, h3, h4, h5, h6, h7, h8⟩ | ⟨g2, h1, h2, h3, h4, h5, h6, h7⟩ | ⟨g2, s2, ks, v2, w2, h1, h2, h3, h4, h5, h6, h7, h8, h9, h10, h11⟩ | ⟨p2, fs2, ks, w2, h1, h2, h3, h4, h5, h6⟩
            · simp_all
            · simp_all
            · simp_all
            · rw [hw] at h2
              cases h2
              rw [hx] at h3
              cases h3
              cases h1
              exact ⟨h5, w2, h4, h6⟩
      · rw [jsonPath_no_extra _ rfl _ _ hke]
        simp only [Option.bind_none, reduceCtorEq, false_iff]
        intro h
        rcases selects_json h with ⟨v, w, h1, h2, h3, h4, h5, h6, h7, h8⟩ | ⟨g2, h1, h2, h3, h4, h5, h6, h7⟩ | ⟨g2, s2, ks, v2, w2, h1, h2, h3, h4, h5, h6, h7, h8, h9, h10, h11⟩ | ⟨p2, fs2, ks, w2, h1, h2, h3, h4, h5, h6⟩ <;> simp_all

theorem extract_get (cfg : Config) (req : Request) (hr : Regular cfg req) (hw : req.ws = none)
    (hm : req.method = .get) (g : GetInput)
    (hg : (if req.rawQuery.isNone then some {} else req.get) = some g) (exts : Option Fields)
    (he : getJson cfg.json g.extensions = some exts) (keys : List String) (hk : keys ≠ []) (id : String) :
    Selector.extract cfg.utf8 (endpointPath cfg.endpoint) ⟨exts, g.documentId, none, req.path, req.rawQuery⟩
        (.jsonPath keys) = some id ↔ Selects cfg req (.jsonPath keys) id := by
  have hg' : req.rawQuery ≠ none → req.get = some g := by
    intro h
    rwa [if_neg (by simpa using h)] at hg
  have hg'' : req.rawQuery = none → g = {} := by
    intro h
    rw [if_pos (by simp [h])] at hg
    exact (Option.some.inj hg).symm
  simp only [Selector.extract]
  split
  · rename_i hd
    subst hd
    constructor
    · intro h
      obtain ⟨s, hs, hi⟩ := Option.bind_eq_some_iff.1 h
      obtain ⟨rfl, hne⟩ := (nonEmpty_iff _ _).1 hi
      by_cases hq : req.rawQuery = none
      · rw [hg'' hq] at hs
        cases hs
      · exact .getId g s hw hm hq (hg' hq) hs hne
    · intro h
      rcases selects_json h with ⟨v, w, h1, h2, h3, h4, h5, h6, h7, h8⟩ | ⟨g2, h1, h2, h3, h4, h5, h6, h7⟩ | ⟨g2, s2, ks, v2, w2, h1, h2, h3, h4, h5, h6, h7, h8, h9, h10, h11⟩ | ⟨p2, fs2, ks, w2, h1, h2, h3, h4, h5, h6⟩
      · simp_all
      · rw [hg' h4] at h5
        cases h5
        rw [h6, Option.bind_some]
        exact (nonEmpty_iff _ _).2 ⟨rfl, h7⟩
      · simp_all
      · simp_all
  · rename_i hnd
    cases keys with
    | nil => exact absurd rfl hk
    | cons k keys =>
      by_cases hke : k = "extensions"
      · subst hke
        constructor
        · intro h
          cases hx : exts with
          | none =>
            subst hx
            rw [jsonPath_no_ext _ rfl] at h
            cases h
          | some m =>
            subst hx
            cases hge : g.extensions with
            | none => rw [hge] at he; simp [getJson] at he
            | some s =>
              rw [hge] at he
              simp only [getJson] at he
              split at he
              · simp at he
              · rename_i hs
                split at he
                · rename_i fs hj
                  simp only [Option.some.injEq] at he
                  subst he
                  obtain ⟨hne, w, ha, hi⟩ := (extensions_iff _ _ rfl (hr.json s _ hj) _ _).1 h
                  have hq : req.rawQuery ≠ none := by
                    intro hq
                    rw [hg'' hq] at hge
                    cases hge
                  exact .getExt g s keys _ w id hw hm hq (hg' hq) hge hs hj ha hne hi
                · cases he
        · intro h
          rcases selects_json h with ⟨v, w, h1, h2, h3, h4, h5, h6, h7, h8⟩ | ⟨g2, h1, h2, h3, h4, h5, h6, h7⟩ | ⟨g2, s2, ks, v2, w2, h1, h2, h3, h4, h5, h6, h7, h8, h9, h10, h11⟩ | ⟨p2, fs2, ks, w2, h1, h2, h3, h4, h5, h6⟩
          · simp_all
          · simp_all
          · rw [hg' h4] at h5
            cases h5
            cases h1
            rw [h6] at he
            simp only [getJson, if_neg h7, h8] at he
            cases v2 with
            | obj fs =>
              simp only [Option.some.injEq] at he
              subst he
              exact (extensions_iff _ _ rfl (hr.json s2 _ h8) _ _).2 ⟨h10, w2, h9, h11⟩
            | _ => simp at he
          · simp_all
      · rw [jsonPath_no_extra _ rfl _ _ hke]
        simp only [Option.bind_none, reduceCtorEq, false_iff]
        intro h
        rcases selects_json h with ⟨v, w, h1, h2, h3, h4, h5, h6, h7, h8⟩ | ⟨g2, h1, h2, h3, h4, h5, h6, h7⟩ | ⟨g2, s2, ks, v2, w2, h1, h2, h3, h4, h5, h6, h7, h8, h9, h10, h11⟩ | ⟨p2, fs2, ks, w2, h1, h2, h3, h4, h5, h6⟩ <;> simp_all

theorem extract_post (cfg : Config) (req : Request) (hr : Regular cfg req) (hen : cfg.enabled = true)
    (hw : req.ws = none) (hm : req.method = .post) (p : PostInput)
    (hp : req.body.bind (visit (cfg.enabled && cfg.selectors.any Selector.needsExtra)) = some p)
    (keys : List String) (hmem : Selector.jsonPath keys ∈ cfg.selectors) (hk : keys ≠ []) (id : String) :
    Selector.extract cfg.utf8 (endpointPath cfg.endpoint)
        ⟨p.extensions, p.documentId, p.extra, req.path, req.rawQuery⟩ (.jsonPath keys) = some id ↔
      Selects cfg req (.jsonPath keys) id := by
  obtain ⟨v, hb, hv⟩ := Option.bind_eq_some_iff.1 hp
  have hu := hr.body v hb
  cases v with
  | obj fs =>
    simp only [visit] at hv
    cases hu with
    | obj hn huv =>
      have hdoc := fields_documentId hn hv
      have hext := fields_extensions hn hv
      have hdec := fields_decode hv
      have hsel : Selects cfg req (.jsonPath keys) id ↔
          keys.head? ≠ some "query" ∧ keys.head? ≠ some "operationName" ∧ keys.head? ≠ some "variables" ∧
          ∃ w, At (.obj fs) keys w ∧ IsId w id := by
        constructor
        · intro h
          cases h with
          | body _ v w _ _ _ hb' h1 h2 h3 ha hi =>
            rw [hb] at hb'
            cases hb'
            exact ⟨h1, h2, h3, w, ha, hi⟩
          | getId _ _ _ h => rw [hm] at h; cases h
          | getExt _ _ _ _ _ _ _ h => rw [hm] at h; cases h
          | wsExt _ _ _ _ _ h => rw [hw] at h; cases h
        · rintro ⟨h1, h2, h3, w, ha, hi⟩
          exact .body keys _ w id hw hm hb h1 h2 h3 ha hi
      rw [hsel]
      simp only [Selector.extract]
      split
      · rename_i hd
        subst hd
        rw [hdoc]
        constructor
        · intro h
          cases hl : lookup "documentId" fs with
          | none => rw [hl] at h; cases h
          | some v =>
            rw [hl] at h
            exact ⟨by simp, by simp, by simp, v, .field _ _ _ _ _ (lookup_some_mem hl) (.here v),
              (asId_nonEmpty v id).1 h⟩
        · rintro ⟨_, _, _, w, ha, hi⟩
          obtain ⟨v, hmv, ha⟩ := at_cons ha
          cases ha
          rw [lookup_of_mem hn hmv]
          exact (asId_nonEmpty _ _).2 hi
      · rename_i hnd
        cases keys with
        | nil => exact absurd rfl hk
        | cons k keys =>
          by_cases hke : k = "extensions"
          · subst hke
            constructor
            · intro h
              refine ⟨by simp, by simp, by simp, ?_⟩
              cases hx : p.extensions with
              | none =>
                rw [jsonPath_no_ext _ hx] at h
                cases h
              | some m =>
                rw [hx] at hext
                cases hl : lookup "extensions" fs with
                | none => rw [hl] at hext; cases hext
                | some v =>
                  rw [hl] at hext
                  have hvm : v = .obj m := by
                    cases v <;> simp only [asMap, reduceCtorEq, Option.some.injEq] at hext
                    rw [hext]
                  subst hvm
                  have hmv := lookup_some_mem hl
                  obtain ⟨_, w, ha, hi⟩ := (extensions_iff _ m hx (huv _ hmv) _ _).1 h
                  exact ⟨w, .field _ _ _ _ _ hmv ha, hi⟩
            · rintro ⟨_, _, _, w, ha, hi⟩
              obtain ⟨v, hmv, ha⟩ := at_cons ha
              rcases (hdec _ _ hmv).1 rfl with rfl | ⟨m, rfl⟩
              · cases ha
                cases hi
              · rw [lookup_of_mem hn hmv] at hext
                refine (extensions_iff _ m hext (huv _ hmv) _ _).2 ⟨?_, w, ha, hi⟩
                rintro rfl
                cases ha
                cases hi
          · have hcap : cfg.selectors.any Selector.needsExtra = true := by
              rw [List.any_eq_true]
              refine ⟨_, hmem, ?_⟩
              simp only [Selector.needsExtra]
              rw [if_neg]
              · simpa using hke
              · rintro (h | h)
                · exact hnd h
                · simp only [List.cons.injEq] at h
                  exact hke h.1
            have hex := fields_extra hv
            rw [hen, hcap] at hex
            simp only [Bool.and_self, if_true, Option.map_some, List.append_nil] at hex
            by_cases hq : k = "query" ∨ k = "operationName" ∨ k = "variables"
            · have : Ctx.jsonPath ⟨p.extensions, p.documentId, p.extra, req.path, req.rawQuery⟩ (k :: keys) =
                  none := by simp [Ctx.jsonPath, hq]
              rw [this]
              simp only [Option.bind_none, reduceCtorEq, List.head?_cons, ne_eq, Option.some.injEq, false_iff]
              rintro ⟨h1, h2, h3, _⟩
              rcases hq with h | h | h
              · exact h1 h
              · exact h2 h
              · exact h3 h
            · have hnd' : ((fs.filter fun kv => !std kv.1).map (·.1)).Nodup :=
                (List.filter_sublist.map _).nodup hn
              simp only [Ctx.jsonPath, if_neg hq, if_neg hke, hex]
              rw [Option.bind_assoc]
              constructor
              · intro h
                obtain ⟨v, hl, hj⟩ := Option.bind_eq_some_iff.1 h
                have hmv := List.mem_reverse.1 (lookup_some_mem hl)
                have hmv := (List.mem_filter.1 hmv).1
                obtain ⟨w, ha, hi⟩ := (jsonAt_iff keys v (huv _ hmv) id).1 hj
                simp only [List.head?_cons, ne_eq, Option.some.injEq]
                exact ⟨fun h => hq (.inl h), fun h => hq (.inr (.inl h)), fun h => hq (.inr (.inr h)),
                  w, .field _ _ _ _ _ hmv ha, hi⟩
              · rintro ⟨_, _, _, w, ha0, hi⟩
                obtain ⟨v, hmv, ha1⟩ := at_cons ha0
                by_cases hkd : k = "documentId"
                · exfalso
                  subst hkd
                  cases keys with
                  | nil => exact hnd rfl
                  | cons k2 keys =>
                    rcases (hdec _ _ hmv).2 rfl with rfl | ⟨i, hi2⟩
                    · cases ha1
                    · cases v with
                      | obj m => simp [asId] at hi2
                      | _ => cases ha1
                · have hstd : std k = false := by
                    simp only [not_or] at hq
                    simp [std, hq, hke, hkd]
                  have hmem' : (k, v) ∈ fs.filter fun kv => !std kv.1 :=
                    List.mem_filter.2 ⟨hmv, by simp [hstd]⟩
                  rw [lookup_of_mem (nodup_reverse_map hnd') (List.mem_reverse.2 hmem'), Option.bind_some]
                  exact (jsonAt_iff keys v (huv _ hmv) id).2 ⟨w, ha1, hi⟩
  | _ => simp [visit] at hv

/-- The first selector that finds something. -/
theorem resolveId_iff (utf8 : Bytes → Option String) (e : Bytes) (c : Ctx) (id : String) :
    ∀ ss : List Selector, resolveId utf8 e c ss = some id ↔
      ∃ pre s post, ss = pre ++ s :: post ∧ (∀ s' ∈ pre, s'.extract utf8 e c = none) ∧
        s.extract utf8 e c = some id
  | [] => by simp [resolveId]
  | s :: ss => by
    rw [resolveId]
    cases hs : s.extract utf8 e c with
    | some i =>
      dsimp only
      constructor
      · rintro h
        cases h
        exact ⟨[], s, ss, rfl, by simp, hs⟩
      · rintro ⟨pre, s', post, heq, hpre, hid⟩
        cases pre with
        | nil =>
          simp only [List.nil_append, List.cons.injEq] at heq
          rw [← heq.1, hs] at hid
          exact hid
        | cons a pre =>
          simp only [List.cons_append, List.cons.injEq] at heq
          have := hpre a List.mem_cons_self
          rw [← heq.1, hs] at this
          cases this
    | none =>
      dsimp only
      rw [resolveId_iff utf8 e c id ss]
      constructor
      · rintro ⟨pre, s', post, rfl, hpre, hid⟩
        refine ⟨s :: pre, s', post, rfl, ?_, hid⟩
        intro a ha
        rcases List.mem_cons.1 ha with rfl | ha
        · exact hs
        · exact hpre a ha
      · rintro ⟨pre, s', post, heq, hpre, hid⟩
        cases pre with
        | nil =>
          simp only [List.nil_append, List.cons.injEq] at heq
          rw [← heq.1, hs] at hid
          cases hid
        | cons a pre =>
          simp only [List.cons_append, List.cons.injEq] at heq
          exact ⟨pre, s', post, heq.2, fun b hb => hpre b (List.mem_cons_of_mem _ hb), hid⟩

theorem decode_id (cfg : Config) (req : Request) (hr : Regular cfg req) (hen : cfg.enabled = true)
    (hg : ∀ s ∈ cfg.selectors, GoodSelector s) (op : Prepared) (hd : decode cfg req = .ok op)
    (id : String) : op.id = some id ↔ HasId cfg req id := by
  obtain ⟨c, hid, hc⟩ : ∃ c, op.id = resolveId cfg.utf8 (endpointPath cfg.endpoint) c cfg.selectors ∧
      ∀ s ∈ cfg.selectors, ∀ i, s.extract cfg.utf8 (endpointPath cfg.endpoint) c = some i ↔
        Selects cfg req s i := by
    unfold decode at hd
    cases hw : req.ws with
    | some p =>
      rw [hw] at hd
      simp only [Except.ok.injEq] at hd
      subst hd
      refine ⟨_, by simp only [fromParams, hen, if_true]; rfl, ?_⟩
      intro s hs i
      cases s with
      | jsonPath keys => exact extract_ws cfg req hr p hw keys (hg _ hs) i
      | queryParam n => exact queryParam_iff _ _ _ _ _ n (hg _ hs) i
      | pathParam t => exact pathParam_iff _ _ _ _ _ t i
    | none =>
      rw [hw] at hd
      cases hm : req.method with
      | other => rw [hm] at hd; cases hd
      | get =>
        rw [hm] at hd
        simp only [decodeGet] at hd
        cases hgi : (if req.rawQuery.isNone = true then some ({} : GetInput) else req.get) with
        | none => rw [hgi] at hd; cases hd
        | some g =>
          rw [hgi] at hd
          dsimp only at hd
          cases hv : getJson cfg.json g.variables with
          | none => rw [hv] at hd; cases hd
          | some vs =>
            rw [hv] at hd
            dsimp only at hd
            cases he : getJson cfg.json g.extensions with
            | none => rw [he] at hd; cases hd
            | some exts =>
              rw [he] at hd
              simp only [Except.ok.injEq] at hd
              subst hd
              refine ⟨_, by simp only [fromParams, hen, if_true]; rfl, ?_⟩
              intro s hs i
              cases s with
              | jsonPath keys => exact extract_get cfg req hr hw hm g hgi exts he keys (hg _ hs) i
              | queryParam n => exact queryParam_iff _ _ _ _ _ n (hg _ hs) i
              | pathParam t => exact pathParam_iff _ _ _ _ _ t i
      | post =>
        rw [hm] at hd
        simp only [decodePost] at hd
        split at hd
        · cases hd
        · cases hp : req.body.bind (visit (cfg.enabled && cfg.selectors.any Selector.needsExtra)) with
          | none => rw [hp] at hd; cases hd
          | some p =>
            rw [hp] at hd
            simp only [Except.ok.injEq] at hd
            subst hd
            refine ⟨_, by simp only [fromParams, hen, if_true]; rfl, ?_⟩
            intro s hs i
            cases s with
            | jsonPath keys => exact extract_post cfg req hr hen hw hm p hp keys hs (hg _ hs) i
            | queryParam n => exact queryParam_iff _ _ _ _ _ n (hg _ hs) i
            | pathParam t => exact pathParam_iff _ _ _ _ _ t i
  rw [hid, resolveId_iff]
  unfold HasId
  constructor
  · rintro ⟨pre, s, post, heq, hpre, hs⟩
    refine ⟨pre, s, post, heq, ?_, (hc s (by simp [heq]) id).1 hs⟩
    intro s' hs' i hi
    have := (hc s' (by simp [heq, hs']) i).2 hi
    rw [hpre s' hs'] at this
    cases this
  · rintro ⟨pre, s, post, heq, hpre, hs⟩
    refine ⟨pre, s, post, heq, ?_, (hc s (by simp [heq]) id).2 hs⟩
    intro s' hs'
    cases hx : s'.extract cfg.utf8 (endpointPath cfg.endpoint) c with
    | none => rfl
    | some i => exact absurd ((hc s' (by simp [heq, hs']) i).1 hx) (hpre s' hs' i)

end Verif.Persisted
