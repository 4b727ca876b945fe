import Verif.Props.Nulls
/-
C64: the overlay given on the command line.
-/
namespace Yot
open Spec Ex

theorem setQueryFlags_roots (D : Dec) (rs : List Node) (qs : List Query) (h : List.Forall₂ (QueryIs D) rs qs)
    (hn : ∀ r ∈ rs, ¬ Null r) : ∀ acc, setQueryFlags D (rs.map .root) acc = some (acc ++ qs.map some) := by
  induction h with
  | nil => intro acc; simp [setQueryFlags]
  | @cons r q rs qs h1 h2 ih =>
    intro acc
    rw [List.map_cons, setQueryFlags, setQueryFlag,
      ((decodeQuery_decodes D).val r q).2 ⟨hn r (by simp), h1⟩]
    dsimp only
    rw [ih (fun r hr => hn r (by simp [hr]))]
    simp

theorem setQueryFlags_none (D : Dec) (rs : List Node) (hn : ∀ r ∈ rs, ¬ Null r)
    (h : ¬ ∃ qs, List.Forall₂ (QueryIs D) rs qs) : ∀ acc, setQueryFlags D (rs.map .root) acc = none := by
  induction rs with
  | nil => exact absurd ⟨[], .nil⟩ h
  | cons r rs ih =>
    intro acc
    rw [List.map_cons, setQueryFlags, setQueryFlag]
    cases hd : decodeQuery D r with
    | err => rfl
    | skip => exact absurd (((decodeQuery_decodes D).skip r).1 hd) (hn r (by simp))
    | val q =>
      dsimp only
      refine ih (fun r hr => hn r (by simp [hr])) ?_ _
      rintro ⟨qs, hqs⟩
      exact h ⟨q :: qs, .cons (((decodeQuery_decodes D).val r q).1 hd).2 hqs⟩

/-- The overlay `n` of an instructions file says the same as the flags: the queries
`rs`, the action `act` (if given) and the value `val` (if given), and nothing else. -/
structure SaysSame (n : Node) (rs : List Node) (act val : Option Node) : Prop where
  keyed : Keyed n
  query : ∃ v, KeyAt n c!"query" v ∧ v.kind = .sequence ∧ v.content = rs
  action : ∀ v, KeyAt n c!"action" v ↔ act = some v
  value : ∀ v, KeyAt n c!"value" v ↔ val = some v
  others : ∀ k ∈ [c!"name", c!"documentQuery", c!"onMissing", c!"documentIndex"], ¬ ∃ v, KeyAt n k v

/-- The flags that go with it. -/
def flagsOf (rs : List Node) (act val : Option Node) : CliFlags where
  queries := rs.map .root
  action := act.map .root
  value := match val with
    | some v => .root v
    | none => .empty

theorem absent_default {α : Type} {R : Node → α → Prop} {n : Node} {k : Str} {d a : α} (h : SettingIs R n k d a)
    (hno : ¬ ∃ v, KeyAt n k v) : a = d := by
  rcases h with ⟨v, h1, _⟩ | ⟨_, h2⟩
  · exact absurd ⟨v, h1⟩ hno
  · exact h2

/-- **C64** The overlay of the command line is the one that the same text gives in the
instructions file, but for its name: it has the same queries and, on every document,
the same effect; the one is refused if the other is. -/
theorem C64_same_as_in_file_partial (D : Dec) (n : Node) (rs : List Node) (act val : Option Node)
    (hs : SaysSame n rs act val) (hne : rs ≠ []) (hrs : ∀ r ∈ rs, ¬ Null r) (hact : ∀ v, act = some v → ¬ Null v) :
    (∀ d, decodeOverlay D n = .val d →
      ∃ o, adHocOverlay D (flagsOf rs act val) = some (some (d.base.query.map some, o)) ∧
        (∀ i, d.base.checkDocumentIndex i = o.checkDocumentIndex i) ∧
        ∀ E dflt doc, d.apply E dflt doc = Yot.apply E dflt { o with query := d.base.query } doc) ∧
    (decodeOverlay D n = .err → adHocOverlay D (flagsOf rs act val) = none) := by
  obtain ⟨qv, hq1, hq2, hq3⟩ := hs.query
  have hqn : ¬ Null qv := by rintro ⟨h, _⟩; rw [hq2] at h; cases h
  have hfil : rs.filter (fun c => decide (¬ Null c)) = rs := by
    rw [List.filter_eq_self]
    intro a ha
    simpa using hrs a ha
  have hqueries : ∀ qs, QueriesAre D qv qs ↔ List.Forall₂ (QueryIs D) rs qs := by
    intro qs
    unfold QueriesAre ListIs
    have h1 : ∀ x : Query, ¬ QueryIs D qv x := by rintro x ⟨⟨h, _⟩, _⟩; rw [hq2] at h; cases h
    rw [hq3, hfil]
    simp [h1, hq2]
  have hno : ∀ k ∈ [c!"name", c!"documentQuery", c!"onMissing", c!"documentIndex"], ¬ ∃ v, KeyAt n k v := hs.others
  have hval : flagValue (flagsOf rs act val).value = some (val.getD zeroNode) := by
    unfold flagsOf
    cases val <;> rfl
  have hactDec : ∀ a, SettingIs ActionIs n c!"action" .invalid a → (flagsOf rs act val).readAction = some a := by
    intro a h
    unfold CliFlags.readAction flagsOf
    cases hact' : act with
    | none =>
      have := absent_default h (by rintro ⟨v, hv⟩; rw [hs.action, hact'] at hv; cases hv)
      rw [this]
      rfl
    | some v =>
      have hat : KeyAt n c!"action" v := (hs.action v).2 hact'
      have hnv := hact v hact'
      have : ActionIs v a := by
        rcases setting_can hs.keyed h hat with h | ⟨_, h⟩
        · exact absurd h hnv
        · exact h
      simp only [Option.map_some, setActionFlag, (decodeAction_decodes.val v a).2 ⟨hnv, this⟩]
  constructor
  · intro d hd
    obtain ⟨_, H⟩ := ((decodeOverlay_decodes D).val n d).1 hd
    have hqs : List.Forall₂ (QueryIs D) rs d.base.query := by
      rcases setting_can hs.keyed H.query hq1 with h | ⟨_, h⟩
      · exact absurd h hqn
      · exact (hqueries _).1 h
    obtain ⟨t, a, ht, ha, _, hda⟩ := H.nameAndAction
    have e1 : t = [] := absent_default ht (hno _ (by decide))
    have e2 : d.base.action = a := by rw [hda, e1]; simp
    have e3 : d.queries = [] := absent_default H.documentQuery (hno _ (by decide))
    have e4 : d.base.onMissing = {} := absent_default H.onMissing (hno _ (by decide))
    have e5 : d.base.documentIndex = none := absent_default H.documentIndex (hno _ (by decide))
    have e6 : d.base.value = val.getD zeroNode := by
      rcases H.value with h | ⟨h1, h2⟩
      · rw [(hs.value _).1 h]; rfl
      · cases hv : val with
        | none => rw [h2]; rfl
        | some v => exact absurd ⟨v, (hs.value v).2 hv⟩ h1
    refine ⟨{ action := a, value := val.getD zeroNode }, ?_, ?_, ?_⟩
    · unfold adHocOverlay
      rw [show (flagsOf rs act val).queries = rs.map .root from rfl, setQueryFlags_roots D rs _ hqs hrs, hactDec a ha, hval]
      have : ¬ (d.base.query.map some).isEmpty = true := by
        have hl := hqs.length_eq
        have : rs.length ≠ 0 := by simpa using hne
        simp only [List.isEmpty_iff, ← List.length_eq_zero_iff, List.length_map, ← hl]
        exact this
      simp [this]
    · intro i
      unfold Overlay.checkDocumentIndex
      rw [e5]
    · intro E dflt doc
      have e7 := H.rest.2
      unfold DOverlay.apply
      rw [e3, show d.usesNilPath E dflt doc = false by simp [DOverlay.usesNilPath, e7]]
      obtain ⟨⟨b1, b2, b3, b4, b5, b6, b7⟩, b8, b9⟩ := d
      simp only at e2 e3 e4 e5 e6
      subst e2 e4 e5 e6
      unfold checkQueriesN Yot.apply
      dsimp only [List.isEmpty_nil, if_true]
      rw [show checkQueries [] doc = true from rfl]
      rfl
  · intro hd
    have hbad : (¬ ∃ qs, List.Forall₂ (QueryIs D) rs qs) ∨ ¬ ∃ a, SettingIs ActionIs n c!"action" .invalid a := by
      by_contra hc
      simp only [not_or, Classical.not_not] at hc
      obtain ⟨⟨qs, hqs⟩, a, ha⟩ := hc
      have hset : ∀ {α : Type} {R : Node → α → Prop} {k : Str} {d : α},
          k ∈ [c!"name", c!"documentQuery", c!"onMissing", c!"documentIndex"] → SettingIs R n k d d :=
        fun hk => .inr ⟨fun v hv => absurd ⟨v, hv⟩ (hno _ hk), rfl⟩
      have H : OverlayIs D n ⟨{ name := joinWith ',' (qs.map Query.str), query := qs, value := val.getD zeroNode, action := a }, [], false⟩ := by
        refine ⟨hs.keyed, ⟨[], a, hset (by decide), ha, by simp, by simp⟩, .inl ⟨qv, hq1, hqn, (hqueries _).2 hqs⟩, ?_,
          hset (by decide), hset (by decide), hset (by decide), rfl, rfl⟩
        cases hv : val with
        | none => exact .inr ⟨(by rintro ⟨v, h⟩; rw [hs.value, hv] at h; cases h), rfl⟩
        | some v => exact .inl ((hs.value v).2 hv)
      have hnn : ¬ Null n := by rintro ⟨h, _⟩; rw [hs.keyed.1] at h; cases h
      rw [((decodeOverlay_decodes D).val n _).2 ⟨hnn, H⟩] at hd
      cases hd
    unfold adHocOverlay
    rw [show (flagsOf rs act val).queries = rs.map .root from rfl]
    rcases hbad with hbad | hbad
    · rw [setQueryFlags_none D rs hrs hbad]
    · cases hact' : act with
      | none =>
        exfalso
        apply hbad
        exact ⟨.invalid, .inr ⟨fun v hv => (by rw [hs.action, hact'] at hv; cases hv), rfl⟩⟩
      | some v =>
        have : decodeAction v = .err := by
          cases hda : decodeAction v with
          | err => rfl
          | skip => exact absurd ((decodeAction_decodes.skip v).1 hda) (hact v hact')
          | val a =>
            exfalso
            apply hbad
            exact ⟨a, .inl ⟨v, (hs.action v).2 hact', hact v hact', ((decodeAction_decodes.val v a).1 hda).2⟩⟩
        cases setQueryFlags D (rs.map .root) [] with
        | none => rfl
        | some qs =>
          simp only [CliFlags.readAction, flagsOf, Option.map_some, setActionFlag, this]

example : SaysSame (mp [sc c!"query", sq [sc c!"a"], sc c!"action", sc c!"delete"]) [sc c!"a"] (some (sc c!"delete")) none where
  keyed := ⟨rfl, by decide, by decide⟩
  query := ⟨sq [sc c!"a"], ⟨sc c!"query", by simp [mp, pairs], by decide⟩, rfl, rfl⟩
  action := by
    intro v
    constructor
    · rintro ⟨kn, hm, _, _, h⟩
      simp only [mp, pairs, Node.content_mk, List.mem_cons, Prod.mk.injEq, List.not_mem_nil, or_false] at hm
      rcases hm with ⟨rfl, rfl⟩ | ⟨rfl, rfl⟩
      · revert h; decide
      · rfl
    · rintro h
      cases h
      exact ⟨sc c!"action", by simp [mp, pairs], by decide⟩
  value := by
    intro v
    simp only [reduceCtorEq, iff_false]
    rintro ⟨kn, hm, _, _, h⟩
    simp only [mp, pairs, Node.content_mk, List.mem_cons, Prod.mk.injEq, List.not_mem_nil, or_false] at hm
    rcases hm with ⟨rfl, rfl⟩ | ⟨rfl, rfl⟩ <;> revert h <;> decide
  others := by
    rintro k hk ⟨v, kn, hm, _, _, h⟩
    simp only [mp, pairs, Node.content_mk, List.mem_cons, Prod.mk.injEq, List.not_mem_nil, or_false] at hm
    subst h
    rcases hm with ⟨rfl, rfl⟩ | ⟨rfl, rfl⟩ <;> revert hk <;> decide

/-- **C64** Without `--query` nothing is added, whatever the other flags say. -/
theorem C64_no_query (D : Dec) (c : CliFlags) (h : c.queries = []) :
    adHocOverlay D c = some none ∨ (adHocOverlay D c = none ∧ ∃ f, c.action = some f ∧ setActionFlag f .invalid = none) := by
  unfold adHocOverlay CliFlags.readAction
  rw [h]
  cases ha : c.action with
  | none => exact .inl rfl
  | some f =>
    simp only [setQueryFlags, List.isEmpty_nil, if_true]
    cases hf : setActionFlag f .invalid with
    | none => exact .inr ⟨rfl, f, rfl, hf⟩
    | some a => exact .inl rfl

/-- **C64** (The code is wrong here.) An empty `--query`, or one that is null, is
accepted, but the query made from it has no path; using it crashes. -/
theorem C64_empty_query (D : Dec) (qs : List (Option Query)) (r : Node) (hr : Null r) :
    setQueryFlag D .empty qs = some (qs ++ [none]) ∧ setQueryFlag D (.root r) qs = some (qs ++ [none]) := by
  refine ⟨rfl, ?_⟩
  rw [setQueryFlag, ((decodeQuery_decodes D).skip r).2 hr]

/-- **C64** (The code is wrong here.) Using such a query on anything but a document with nothing
in it crashes. -/
theorem C64_empty_query_crashes (D : Dec) (c : CliFlags) (f : Flag) (hf : f ∈ c.queries) (he : f = .empty ∨ ∃ r, f = .root r ∧ Null r)
    (qs : List (Option Query)) (o : Overlay) (h : adHocOverlay D c = some (some (qs, o))) (E : Sed) (dflt : Str) (doc : Node)
    (hd : ¬ (doc.kind = .document ∧ doc.content = [])) : (cliOverlay qs o).apply E dflt doc = .panic := by
  have hqs : setQueryFlags D c.queries [] = some qs := by
    unfold adHocOverlay at h
    split at h
    · cases h
    · rename_i qs' h1
      split at h
      · cases h
      · split at h
        · cases h
        · split at h <;> cases h
          exact h1
  have hnone : none ∈ qs := by
    have keep : ∀ fs acc qs', setQueryFlags D fs acc = some qs' → none ∈ acc → none ∈ qs' := by
      intro fs
      induction fs with
      | nil => intro acc qs' h hn; cases h; exact hn
      | cons g fs ih =>
        intro acc qs' h hn
        rw [setQueryFlags] at h
        split at h
        · rename_i acc' h1
          refine ih _ _ h ?_
          unfold setQueryFlag at h1
          repeat' split at h1
          all_goals first | (cases h1; simp [hn]) | cases h1
        · cases h
    have key : ∀ fs acc qs', f ∈ fs → setQueryFlags D fs acc = some qs' → none ∈ qs' := by
      intro fs
      induction fs with
      | nil => intro acc qs' hf; cases hf
      | cons g fs ih =>
        intro acc qs' hf h
        rw [setQueryFlags] at h
        rcases List.mem_cons.1 hf with rfl | hf
        · have : setQueryFlag D f acc = some (acc ++ [none]) := by
            rcases he with rfl | ⟨r, rfl, hr⟩
            · rfl
            · exact (C64_empty_query D acc r hr).2
          rw [this] at h
          exact keep _ _ _ h (by simp)
        · split at h
          · exact ih _ _ hf h
          · cases h
    exact key _ _ _ hf hqs
  have hp : (qs.any Option.isNone) = true := by
    rw [List.any_eq_true]
    exact ⟨none, hnone, rfl⟩
  have hdoc : emptyDoc doc = false := by
    unfold emptyDoc
    by_cases hk : doc.kind = .document
    · cases hc : doc.content with
      | nil => exact absurd ⟨hk, hc⟩ hd
      | cons _ _ => simp
    · rw [show decide (doc.hd.kind = .document) = false from decide_eq_false hk]
      rfl
  unfold DOverlay.apply cliOverlay
  simp [checkQueriesN, DOverlay.usesNilPath, hp, hdoc]

/-- **C64** On a document with nothing in it a single such query crashes too if what is missing
is to be injected; else the document stays as it is. -/
theorem C64_empty_query_empty_document (o : Overlay) (ho : o.documentQuery = []) (hm : o.onMissing = {}) (E : Sed) (dflt : Str)
    (doc : Node) (hk : doc.kind = .document) (hc : doc.content = []) :
    (cliOverlay [none] o).apply E dflt doc = if dflt.map Char.toLower = c!"inject" then .panic else .ok doc := by
  have he : emptyDoc doc = true := by
    unfold emptyDoc
    rw [show doc.hd.kind = .document from hk, hc]
    rfl
  by_cases hi : dflt.map Char.toLower = c!"inject"
  · rw [if_pos hi]
    have hr : (o.onMissing.resolve dflt).action = .inject := by
      rw [hm]
      unfold OnMissing.resolve isInjectWord
      simp [hi]
    have hn : (cliOverlay [none] o).injectNil E dflt doc = true := by
      unfold DOverlay.injectNil cliOverlay
      dsimp only
      rw [hr]
      obtain ⟨bps, h1, h2⟩ : ∃ bps, newPaths [[]] = .ok bps ∧ ∃ y, buildPaths E bps = .ok y ∧ y.kind = .scalar := ⟨_, rfl, _, rfl, rfl⟩
      obtain ⟨y, h2, h3⟩ := h2
      rw [show List.map Query.str (List.map (fun x : Option Query => x.getD noQuery) [none]) = [[]] from rfl, h1]
      dsimp only
      rw [h2]
      dsimp only
      obtain ⟨yh, yc⟩ := y
      have : ∃ d, mergeNode E doc (.mk yh yc) = .ok d ∧ d.kind = .scalar := by
        unfold mergeNode merge
        rw [show yh.kind = .scalar from h3]
        refine ⟨_, rfl, ?_⟩
        show (mergeScalar E doc yh []).hd.kind = .scalar
        unfold mergeScalar
        rw [if_pos (by rw [show doc.hd.kind = .document from hk]; decide)]
        rfl
      obtain ⟨d, h4, h5⟩ := this
      rw [h4]
      dsimp only
      unfold emptyDoc
      rw [show d.hd.kind = .scalar from h5]
      rfl
    unfold DOverlay.apply
    rw [show checkQueriesN (cliOverlay [none] o).queries doc = some true from rfl]
    dsimp only
    rw [if_pos]
    unfold DOverlay.usesNilPath
    rw [hn, he]
    rfl
  · rw [if_neg hi]
    have hr : (o.onMissing.resolve dflt).action = .default := by
      rw [hm]
      unfold OnMissing.resolve isInjectWord
      simp [hi]
    unfold DOverlay.apply
    rw [show checkQueriesN (cliOverlay [none] o).queries doc = some true from rfl]
    dsimp only
    rw [if_neg]
    · unfold Yot.apply findAll onMissing
      rw [show doc.hd.kind = .document from hk, hc]
      simp [cliOverlay, checkQueries, hr]
    · unfold DOverlay.usesNilPath DOverlay.injectNil
      rw [he]
      simp [cliOverlay, hr]

example : (cliOverlay [none] {}).apply noSed c!"Inject" (.mk { kind := .document } []) = .panic ∧
    (cliOverlay [none] {}).apply noSed c!"ignore" (.mk { kind := .document } []) = .ok (.mk { kind := .document } []) := by
  rw [C64_empty_query_empty_document _ rfl rfl _ _ _ rfl rfl, C64_empty_query_empty_document _ rfl rfl _ _ _ rfl rfl]
  exact ⟨by decide, by decide⟩

/-- **C64** (The code is wrong here.) A path that is YAML syntax for something else than
a text, such as `[0]` or `{a: b}`, is refused on the command line. -/
theorem C64_not_text (D : Dec) (qs : List (Option Query)) (r : Node) (hr : r.kind ≠ .scalar) :
    setQueryFlag D (.root r) qs = none := by
  rw [setQueryFlag]
  have : decodeQuery D r = .err := by
    cases h : decodeQuery D r with
    | err => rfl
    | skip => exact absurd (((decodeQuery_decodes D).skip r).1 h).1 hr
    | val q => exact absurd (((decodeQuery_decodes D).val r q).1 h).2.1.1 hr
  rw [this]

example : setQueryFlag exDec (.root (sq [sc c!"0"])) [] = none := rfl

end Yot
