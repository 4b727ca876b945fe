import Verif.Props.Errors
/-
C33: exactly which overlays crash.
-/
namespace Yot
open Spec Ex

/-- Merging path trees: the result is a document iff both are. -/
theorem merge_pathTree_kind (E : Sed) (o n o' : Node) (ho : PathTree o) (hn : PathTree n) (h : mergeNode E o n = .ok o') :
    o'.hd.kind = .document ↔ o.hd.kind = .document ∧ n.hd.kind = .document := by
  obtain ⟨nh, ncs⟩ := n
  obtain ⟨_, hn⟩ := hn
  simp only [Node.hd_mk, Node.content_mk] at hn
  unfold mergeNode at h
  rcases hn with ⟨hk, _⟩ | ⟨hk, sub, rest, rfl, hsub⟩
  · rw [merge_scalar E o [] hk, Res.ok.injEq] at h
    subst h
    simp only [Node.hd_mk, hk]
    unfold mergeScalar
    dsimp only
    split
    · simp
    · rename_i hks
      simp only [ne_eq, Decidable.not_not] at hks
      simp [(mergeComments_fields E o.hd nh []).1, hks]
  · rw [merge_document E o [] hk] at h
    simp only [Node.hd_mk, hk, and_true]
    split at h
    · rw [Res.ok.injEq] at h; rw [h]
    · split at h
      · simp only [Res.bind_eq_ok, Res.ok.injEq] at h
        obtain ⟨_, _, rfl⟩ := h
        simp [(mergeComments_fields E o.hd nh [o.hd.value]).1]
      · cases h

theorem foldl_pathTree_kind (E : Sed) (ns : List Node) : ∀ n y, PathTree n → (∀ m ∈ ns, PathTree m) →
    ns.foldlM (fun acc n => mergeNode E acc n) n = .ok y →
    (y.hd.kind = .document ↔ ∀ m ∈ n :: ns, m.hd.kind = .document) := by
  induction ns with
  | nil => intro n y _ _ h; simp at h; subst h; simp
  | cons m ns ih =>
    intro n y h0 hn h
    obtain ⟨o', h1, _, h3⟩ := merge_pathTree E n m h0.notEmptied (hn m (by simp))
    rw [List.foldlM_cons, h1, Res.bind_ok] at h
    rw [ih o' y (h3 h0) (fun x hx => hn x (by simp [hx])) h]
    simp only [List.mem_cons, forall_eq_or_imp, merge_pathTree_kind E n m o' h0 (hn m (by simp)) h1, and_assoc]

theorem newPaths_kinds (ps : List Str) (ns : List Node) (h : newPaths ps = .ok ns) :
    (∀ m ∈ ns, m.hd.kind = .document) ↔ ∀ p ∈ ps, p ≠ [] := by
  have := mapM_forall₂ _ _ _ h
  clear h
  induction this with
  | nil => simp
  | @cons p n _ _ h1 h2 ih =>
    simp only [List.mem_cons, forall_eq_or_imp, ih]
    rcases buildPath_shape' _ _ h1 with ⟨rfl, rfl⟩ | ⟨hp, sub, _, rfl⟩
    · simp [leafNode]
    · simp [docNode, hp]

/-- Merging a path tree crashes exactly when a document meets a node that was
emptied. -/
theorem merge_pathTree_panic (E : Sed) (o n : Node) (hn : PathTree n) :
    mergeNode E o n = .panic ↔ ¬ NotEmptied o ∧ n.hd.kind = .document := by
  constructor
  · intro h
    have h1 : ¬ NotEmptied o := by
      intro hc
      obtain ⟨o', h1, _⟩ := merge_pathTree E o n hc hn
      rw [h1] at h; cases h
    refine ⟨h1, ?_⟩
    rcases hn.2 with ⟨hk, _⟩ | ⟨hk, _⟩
    · obtain ⟨nh, ncs⟩ := n
      unfold mergeNode at h
      rw [Node.hd_mk] at hk
      rw [merge_scalar E o [] hk] at h
      cases h
    · exact hk
  · rintro ⟨h1, hk⟩
    unfold NotEmptied at h1
    simp only [not_or, Classical.not_not, Bool.not_eq_true] at h1
    obtain ⟨nh, ncs⟩ := n
    rcases hn.2 with ⟨hk', _⟩ | ⟨_, sub, rest, hc, _⟩
    · rw [hk] at hk'; cases hk'
    · simp only [Node.content_mk] at hc
      subst hc
      unfold mergeNode
      rw [Node.hd_mk] at hk
      rw [merge_document E o [] hk]
      rw [h1.1, h1.2]
      simp [Node.contentIsNil]

theorem doInjectPath_panic (E : Sed) (o : Overlay) (ip : List Query) (doc : Node) :
    doInjectPath E o ip doc = .panic ↔
      (∀ q ∈ ip, PlainPath q.str) ∧ (ip = [] ∨ ¬ NotEmptied doc ∧ ∀ q ∈ ip, q.str ≠ []) := by
  by_cases hp : ∀ q ∈ ip, PlainPath q.str
  · rw [and_iff_right hp]
    obtain ⟨ns, hns⟩ := newPaths_ok (ip.map Query.str) (by simpa using hp)
    obtain ⟨hlen, hpt⟩ := paths_pathTree _ _ hns
    have hk := newPaths_kinds _ _ hns
    unfold doInjectPath
    rw [hns, Res.bind_ok]
    cases ip with
    | nil =>
      simp only [List.map_nil, List.length_nil, List.length_eq_zero_iff] at hlen
      subst hlen
      simp [buildPaths, mergeNodes]
    | cons q qs =>
      match ns, hlen with
      | n :: rest, _ =>
        obtain ⟨y, hy, hpy⟩ := buildPaths_ok E (n :: rest) (by simp) hpt
        have hky : y.hd.kind = .document ↔ ∀ m ∈ n :: rest, m.hd.kind = .document := by
          refine foldl_pathTree_kind E rest n y (hpt n (by simp)) (fun m hm => hpt m (by simp [hm])) ?_
          unfold buildPaths mergeNodes at hy; dsimp only at hy
          cases h : rest.foldlM (fun acc n => mergeNode E acc n) n with
          | ok z => rw [h] at hy; simp at hy; rw [hy]
          | err e => rw [h] at hy; cases hy
          | panic => rw [h] at hy; cases hy
        rw [hy]
        dsimp only
        have hq : (∀ x ∈ q :: qs, x.str ≠ []) ↔ y.hd.kind = .document := by
          rw [hky, hk]; simp
        rw [hq]
        simp only [reduceCtorEq, false_or]
        rw [← merge_pathTree_panic E doc y hpy]
        cases hm : mergeNode E doc y with
        | ok d1 => simp only [Res.bind_ok, reduceCtorEq, iff_false]; exact replaceAllAt_ne_panic _ _ _ _
        | err e => exact absurd hm (merge_pathTree_ne_err E doc y hpy e)
        | panic => simp [Res.bind_panic]
  · have h1 : doInjectPath E o ip doc = .err .invalidPathSyntax := by
      unfold doInjectPath
      rw [newPaths_err _ (by simpa using hp)]; rfl
    rw [h1]
    simp [hp]

/-- The root of the document was deleted: the list of its children is there, and is
empty. -/
def RootDeleted (doc : Node) : Prop := doc.content = [] ∧ doc.hd.nilc = false

theorem not_notEmptied (doc : Node) : ¬ NotEmptied doc ↔ RootDeleted doc := by
  unfold NotEmptied RootDeleted Node.contentIsNil
  simp only [not_or, Classical.not_not, Bool.not_eq_true, Bool.and_eq_false_iff]
  constructor
  · rintro ⟨h, h2⟩; simp [h2] at h; exact ⟨h2, h⟩
  · rintro ⟨h, h2⟩; exact ⟨.inl h2, h⟩

/-- The paths an overlay injects at: its query if that consists of plain paths, else
its injectPath. -/
def InjectsAt (o : Overlay) (ip : List Query) : Prop :=
  ((∀ q ∈ o.query, PlainPath q.str) ∧ ip = o.query) ∨
  ((¬ ∀ q ∈ o.query, PlainPath q.str) ∧ o.onMissing.injectPath = some ip)

/-- **C33**: exactly when an overlay crashes: nothing matches, the value is to be
injected, and the list of (plain) paths to inject at is empty, or the root of the
document was deleted before and no path is the empty text. -/
theorem C33_crashes_exactly (E : Sed) (dflt : Str) (o : Overlay) (doc : Node) (hw : WellFormed doc) (hv : NoDocs o.value) :
    apply E dflt o doc = .panic ↔
      Qualifies o doc ∧ (¬ ∃ m, Matches o.query doc m) ∧ Injects dflt o.onMissing ∧
      ∃ ip, InjectsAt o ip ∧ (∀ q ∈ ip, PlainPath q.str) ∧
        (ip = [] ∨ RootDeleted doc ∧ ∀ q ∈ ip, q.str ≠ []) := by
  by_cases hQ : Qualifies o doc
  · by_cases hm : ∃ m, Matches o.query doc m
    · obtain ⟨ms, _, ha⟩ := (C18_otherwise E dflt o doc hQ).1 hm
      constructor
      · intro h; rw [ha] at h; exact absurd h (doAction_ne_panic E o ms hv doc hw)
      · rintro ⟨_, h, _⟩; exact absurd hm h
    · by_cases hI : Injects dflt o.onMissing
      · rw [(C18_otherwise E dflt o doc hQ).2 hm hI]
        simp only [hQ, hm, hI, not_false_eq_true, true_and]
        unfold handleInjectPath
        by_cases hq : ∀ q ∈ o.query, PlainPath q.str
        · obtain ⟨ns, hns⟩ := newPaths_ok (o.query.map Query.str) (by simpa using hq)
          rw [hns]
          dsimp only
          rw [doInjectPath_panic, not_notEmptied]
          constructor
          · exact fun h => ⟨o.query, .inl ⟨hq, rfl⟩, h⟩
          · rintro ⟨ip, ⟨_, rfl⟩ | ⟨h, _⟩, h2⟩
            · exact h2
            · exact absurd hq h
        · rw [newPaths_err _ (by simpa using hq)]
          dsimp only
          cases hip : o.onMissing.injectPath with
          | none =>
            simp only [reduceCtorEq, false_iff]
            rintro ⟨ip, ⟨h, _⟩ | ⟨_, h⟩, _⟩
            · exact hq h
            · rw [hip] at h; cases h
          | some ip =>
            dsimp only
            rw [doInjectPath_panic, not_notEmptied]
            constructor
            · exact fun h => ⟨ip, .inr ⟨hq, hip⟩, h⟩
            · rintro ⟨ip', ⟨h, _⟩ | ⟨_, h⟩, h2⟩
              · exact absurd h hq
              · rw [hip] at h; cases h; exact h2
      · rw [C18_unqualified_overlay_is_identity E dflt o doc (.inr ⟨hm, hI⟩)]
        simp [hI]
  · rw [C18_unqualified_overlay_is_identity E dflt o doc (.inl hQ)]
    simp [hQ]

/-- C33, for histories: a run over a document crashes exactly if, after some of the
overlays went through, the next one crashes as above. -/
theorem C33_history_crashes_exactly (E : Sed) (dflt : Str) (os : List Overlay) (doc : Node) (hw : WellFormed doc)
    (ho : ∀ o ∈ os, WellFormed o.value ∧ NoDocs o.value) :
    applyAll E dflt os doc = .panic ↔
      ∃ before o after d, os = before ++ o :: after ∧ applyAll E dflt before doc = .ok d ∧
        Qualifies o d.label ∧ (¬ ∃ m, Matches o.query d.label m) ∧ Injects dflt o.onMissing ∧
        ∃ ip, InjectsAt o ip ∧ (∀ q ∈ ip, PlainPath q.str) ∧ (ip = [] ∨ RootDeleted d ∧ ∀ q ∈ ip, q.str ≠ []) := by
  have hl : ∀ d : Node, RootDeleted d.label ↔ RootDeleted d := fun d => by
    unfold RootDeleted
    rw [label_hd, length_ne (label_length d)]
  induction os generalizing doc with
  | nil => simp [applyAll]
  | cons o os ih =>
    have hx := C33_crashes_exactly E dflt o doc.label (label_wf doc hw) (ho o (by simp)).2
    rw [hl] at hx
    unfold applyAll at ih ⊢
    rw [List.foldlM_cons]
    cases h : applyJob E dflt o doc with
    | panic =>
      simp only [Res.bind_panic, true_iff]
      exact ⟨[], o, os, doc, rfl, rfl, hx.1 h⟩
    | err e =>
      simp only [Res.bind_err, reduceCtorEq, false_iff]
      rintro ⟨before, o', after, d, heq, hd, hr⟩
      cases before with
      | nil =>
        simp only [List.nil_append, List.cons.injEq] at heq
        obtain ⟨rfl, rfl⟩ := heq
        simp only [List.foldlM_nil, Res.pure_eq, Res.ok.injEq] at hd
        subst hd
        have := hx.2 hr
        unfold applyJob at h
        rw [h] at this; cases this
      | cons b bs =>
        simp only [List.cons_append, List.cons.injEq] at heq
        obtain ⟨rfl, rfl⟩ := heq
        rw [List.foldlM_cons, h] at hd; cases hd
    | ok d1 =>
      have hw1 : WellFormed d1 := C33_keeps_well_formed E dflt o doc.label d1 (label_wf doc hw) (ho o (by simp)).1 h
      have hih := ih d1 hw1 (fun x hx => ho x (List.mem_cons_of_mem _ hx))
      rw [Res.bind_ok]
      refine hih.trans ?_
      constructor
      · rintro ⟨before, o', after, d, rfl, hd, hr⟩
        exact ⟨o :: before, o', after, d, rfl, by rw [List.foldlM_cons, h, Res.bind_ok, hd], hr⟩
      · rintro ⟨before, o', after, d, heq, hd, hr⟩
        cases before with
        | nil =>
          simp only [List.nil_append, List.cons.injEq] at heq
          obtain ⟨rfl, rfl⟩ := heq
          simp only [List.foldlM_nil, Res.pure_eq, Res.ok.injEq] at hd
          subst hd
          have := hx.2 hr
          unfold applyJob at h
          rw [h] at this; cases this
        | cons b bs =>
          simp only [List.cons_append, List.cons.injEq] at heq
          obtain ⟨rfl, rfl⟩ := heq
          rw [List.foldlM_cons, h, Res.bind_ok] at hd
          exact ⟨bs, o', after, d, rfl, hd, hr⟩

/-- The three crashes meet the three ways; the empty path text spares a document
without root. -/
example : InjectsAt injectNowhere [] ∧ InjectsAt injectKey [keyQuery c!"z"] ∧
    RootDeleted (.mk { kind := .document, nilc := false } []) ∧
    apply noSed c!"" { injectKey with query := [⟨c!"", fun _ => []⟩] } (.mk { kind := .document, nilc := false } []) ≠ .panic := by
  refine ⟨.inl ⟨by simp [injectNowhere], rfl⟩, .inl ⟨?_, rfl⟩, ⟨rfl, rfl⟩, by decide⟩
  intro q hq
  simp only [injectKey, List.mem_singleton] at hq
  subst hq
  exact .inr ⟨by decide, .inr ⟨c!"z", [], rfl, ⟨by decide, by decide⟩, .nil⟩⟩

end Yot
