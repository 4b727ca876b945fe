import Verif.Lemmas.Inject
import Verif.Props.Builder
/-
C26, C27: injecting at a path of names.
-/
namespace Yot
open Spec Ex

/-- The text `s` is the path of the names `ks`: `$` and steps `.name` or
`['name']`, or dotted names alone. -/
def PathOf (ks : List Str) (s : Str) : Prop :=
  (∃ segs : List Segment, (∀ x ∈ segs, x.Ok) ∧ segs.map Segment.name = ks ∧ s = '$' :: segs.flatMap Segment.text) ∨
  (∃ n ns, ks = n :: ns ∧ (∀ x ∈ ks, PlainName x) ∧ n.head? ≠ some '$' ∧ s = dotted ks)

theorem pathOf_builds {ks : List Str} {s : Str} (h : PathOf ks s) : buildPath s = .ok (inDocument (nested ks)) := by
  rcases h with ⟨segs, h1, h2, rfl⟩ | ⟨n, ns, rfl, h1, h2, rfl⟩
  · rw [C31_quoted_names_partial segs h1, h2]
  · exact C30_dotted_without_root n ns h1 h2

theorem updPath_walk (g : Node → Node) (ks : List Str) : ∀ n m, walk ks n = [m] → walk ks (updPath ks g n) = [g m] := by
  induction ks with
  | nil =>
    intro n m h
    simp only [walk, List.cons.injEq, and_true] at h ⊢
    rw [updPath, h]
  | cons k ks ih =>
    intro n m h
    simp only [walk] at h
    cases hf : firstAt k (entriesOf n) with
    | none => simp [hf] at h
    | some v =>
      simp only [hf] at h
      have hk : n.hd.kind = .mapping := by
        by_contra hne
        simp [entriesOf, hne, firstAt] at hf
      simp only [entriesOf, hk, if_true] at hf
      obtain ⟨b, kn, a, _, h2, h3, h4⟩ := pairs_updFirst k (updPath ks g) _ v hf
      rw [walk]
      simp only [updPath, entriesOf, Node.hd_mk, hk, if_true, Node.content_mk, h4, firstAt_append k b a kn _ h2 h3]
      exact ih v m h

/-- Everything about one injection: the outcome, what the query finds in it, and
how it differs from the document. -/
theorem inject_main (E : Sed) (dflt : Str) (o : Overlay) (doc c : Node) (rest : List Node) (q : Query) (ks : List Str)
    (hdoc : doc.hd.kind = .document) (hc : doc.content = c :: rest) (hw : WellFormed c)
    (hp : PathOf ks q.str) (hq : q.find = findNames ks) (hm : ∀ k ∈ ks, NoMarker k)
    (ho : o.query = [q]) (hQ : Qualifies o doc) (hI : Injects dflt o.onMissing)
    (hnone : ¬ ∃ m, Matches o.query doc m) :
    ∃ doc' c' rest' m, apply E dflt o doc = .ok doc' ∧ q.find doc' = [m] ∧ HoldsValue o.value m ∧
      doc'.fresh.hd = doc.fresh.hd ∧ doc'.content = c' :: rest' ∧ rest'.map Node.fresh = rest.map Node.fresh ∧
      Injected o.value ks c.fresh c'.fresh ∧ ∃ x, m = replaceNode E x o.value := by
  rw [(C18_otherwise E dflt o doc hQ).2 hnone hI]
  have hb := pathOf_builds hp
  have hnp : newPaths (o.query.map Query.str) = .ok [inDocument (nested ks)] := by
    rw [ho]
    simp [newPaths, hb]
  have hdo : handleInjectPath E o doc = doInjectPath E o o.query doc := by
    unfold handleInjectPath; rw [hnp]
  rw [hdo]
  -- the scaffolding
  obtain ⟨hd, cs⟩ := doc
  simp only [Node.content_mk, Node.hd_mk] at hc hdoc
  subst hc
  have hmerge : mergeNode E (.mk hd (c :: rest)) (inDocument (nested ks)) = .ok (.mk hd (scaffold ks c :: rest)) := by
    unfold mergeNode inDocument
    rw [merge_document E _ _ rfl]
    simp only [Node.contentIsNil, Node.hd_mk, Node.content_mk, List.isEmpty_cons, Bool.and_false, Bool.or_self,
      Bool.false_eq_true, if_false, merge_nested E ks hm, Res.bind_ok]
    rw [mergeComments_none E hd _ _ rfl rfl rfl]
  have hstep : doInjectPath E o o.query (.mk hd (c :: rest)) =
      replaceAllAt E o.value (Node.mk hd (scaffold ks c :: rest)).label
        (findAll [q] (Node.mk hd (scaffold ks c :: rest)).label) := by
    unfold doInjectPath
    rw [hnp]
    simp only [Res.bind_ok, buildPaths, mergeNodes, List.foldlM_nil, Res.pure_eq, hmerge, ho]
  rw [hstep]
  -- the labelled document
  generalize hmid : (Node.mk hd (scaffold ks c :: rest)).label = mid
  have hfresh : mid.fresh = (Node.mk hd (scaffold ks c :: rest)).fresh := by rw [← hmid, label_fresh]
  have hnd : mid.addrs.Nodup := by rw [← hmid]; exact label_nodup _
  obtain ⟨mh, mcs⟩ := mid
  rw [fresh_mk, fresh_mk] at hfresh
  simp only [Node.mk.injEq] at hfresh
  obtain ⟨hfh, hfc⟩ := hfresh
  cases mcs with
  | nil => simp at hfc
  | cons c1 rest1 =>
  simp only [List.map_cons, List.cons.injEq] at hfc
  have hkind : mh.kind = .document := by
    have := congrArg Hdr.kind hfh
    simpa [hdoc] using this
  obtain ⟨w, hwalk⟩ := walk_scaffold ks c hw
  have hwl : ∃ m0, walk ks c1 = [m0] := by
    have h1 := walk_fresh ks c1
    rw [hfc.1, walk_fresh, hwalk] at h1
    cases hww : walk ks c1 with
    | nil => rw [hww] at h1; simp at h1
    | cons a l =>
      rw [hww] at h1
      cases l with
      | nil => exact ⟨a, rfl⟩
      | cons b l => simp at h1
  obtain ⟨m0, hm0⟩ := hwl
  have hfind : findAll [q] (Node.mk mh (c1 :: rest1)) = [m0] := by
    simp [findAll, hq, findNames, hkind, hm0]
  rw [hfind]
  simp only [Node.addrs, Node.addrss, List.nodup_cons, List.mem_append, not_or] at hnd
  obtain ⟨⟨hr1, hr2⟩, hnd⟩ := hnd
  rw [List.nodup_append] at hnd
  obtain ⟨hn1, hn2, hdis⟩ := hnd
  have hin : m0.hd.addr ∈ c1.addrs := mem_addrs_walk ks c1 m0 (by rw [hm0]; simp)
  have hmod : modifyAt m0.hd.addr (fun x => .ok (replaceNode E x o.value)) (.mk mh (c1 :: rest1)) =
      .ok (.mk mh (updPath ks (fun x => replaceNode E x o.value) c1 :: rest1)) := by
    rw [modifyAt, if_neg (fun e => hr1 (by rw [e]; exact hin)), modifyAts,
      modifyAt_walk _ ks c1 m0 hn1 (by rw [hm0]; simp),
      modifyAts_absent _ _ _ (fun h => hdis _ hin _ h rfl)]
    rfl
  refine ⟨.mk mh (updPath ks (fun x => replaceNode E x o.value) c1 :: rest1),
    updPath ks (fun x => replaceNode E x o.value) c1, rest1, replaceNode E m0 o.value, ?_, ?_, ?_, ?_, rfl, hfc.2, ?_, m0, rfl⟩
  · simp [replaceAllAt, hmod]
  · rw [hq]
    simp only [findNames, Node.hd_mk, hkind, if_true, Node.content_mk]
    exact updPath_walk _ ks c1 m0 hm0
  · exact replaceNode_holds E m0 o.value
  · rw [fresh_hd, fresh_hd]; exact hfh
  · rw [updPath_fresh _ (fun x => replaceNode E x o.value) (fun x => replaceNode_fresh E x o.value), hfc.1, scaffold_fresh]
    exact injected_scaffold _ _ (fun x => replaceNode_holds E x o.value) ks c.fresh (fresh_wf c hw)

/-- C26: when a path of names matches nothing and inject is in effect, afterwards
the query matches exactly one node, which holds the overlay's value. -/
theorem C26_inject_creates_path (E : Sed) (dflt : Str) (o : Overlay) (doc c : Node) (rest : List Node) (q : Query)
    (ks : List Str)
    (hdoc : doc.hd.kind = .document) (hc : doc.content = c :: rest) (hw : WellFormed c)
    (hp : PathOf ks q.str) (hq : q.find = findNames ks) (hm : ∀ k ∈ ks, NoMarker k)
    (ho : o.query = [q]) (hQ : Qualifies o doc) (hI : Injects dflt o.onMissing)
    (hnone : ¬ ∃ m, Matches o.query doc m) :
    ∃ doc' m, apply E dflt o doc = .ok doc' ∧ q.find doc' = [m] ∧ HoldsValue o.value m := by
  obtain ⟨doc', _, _, m, h1, h2, h3, _⟩ := inject_main E dflt o doc c rest q ks hdoc hc hw hp hq hm ho hQ hI hnone
  exact ⟨doc', m, h1, h2, h3⟩

/-- C27: the injection changes nothing but the entries along the path: at every
level all other entries are unchanged and in order (`Injected`), and so are the
fields of the document and of the mappings on the path. -/
theorem C27_inject_frame (E : Sed) (dflt : Str) (o : Overlay) (doc c : Node) (rest : List Node) (q : Query)
    (ks : List Str)
    (hdoc : doc.hd.kind = .document) (hc : doc.content = c :: rest) (hw : WellFormed c)
    (hp : PathOf ks q.str) (hq : q.find = findNames ks) (hm : ∀ k ∈ ks, NoMarker k)
    (ho : o.query = [q]) (hQ : Qualifies o doc) (hI : Injects dflt o.onMissing)
    (hnone : ¬ ∃ m, Matches o.query doc m) (doc' : Node) (h : apply E dflt o doc = .ok doc') :
    doc'.fresh.hd = doc.fresh.hd ∧ ∃ c' rest', doc'.content = c' :: rest' ∧
      rest'.map Node.fresh = rest.map Node.fresh ∧ Injected o.value ks c.fresh c'.fresh := by
  obtain ⟨d, c', rest', m, h1, _, _, h4, h5, h6, h7, _⟩ :=
    inject_main E dflt o doc c rest q ks hdoc hc hw hp hq hm ho hQ hI hnone
  rw [h1, Res.ok.injEq] at h
  subst h
  exact ⟨h4, c', rest', h5, h6, h7⟩

/-- C27, stated for the entries of one mapping on the path: those whose key is not
the next name are the same as before, in the same order. -/
theorem C27_entries_kept (v : Node) (pre : List Str) (k : Str) (post : List Str) : ∀ (old new n : Node),
    Injected v (pre ++ k :: post) old new → walk pre old = [n] → ∃ n', walk pre new = [n'] ∧
      (entriesOf n').filter (fun e => e.1.hd.value ≠ k) = (entriesOf n).filter (fun e => e.1.hd.value ≠ k) := by
  induction pre with
  | nil =>
    intro old new n h hw
    simp only [walk, List.cons.injEq, and_true] at hw
    subst hw
    obtain ⟨hk, _, _, before, kn, x, after, h1, h2, h3, h4⟩ := h
    refine ⟨new, rfl, ?_⟩
    have hnew : entriesOf new = before ++ (kn, x) :: after := by simp [entriesOf, hk, h1]
    rw [hnew]
    rcases h4 with ⟨x0, h5, _⟩ | ⟨h5, h6, _⟩
    · rw [h5]; simp [h2]
    · rw [h5, h6]; simp [h2]
  | cons p pre ih =>
    intro old new n h hw
    obtain ⟨hk, _, _, before, kn, x, after, h1, h2, h3, h4⟩ := h
    have hnew : entriesOf new = before ++ (kn, x) :: after := by simp [entriesOf, hk, h1]
    simp only [walk] at hw ⊢
    rw [hnew, firstAt_append p before after kn x h2 h3]
    rcases h4 with ⟨x0, h5, h6⟩ | ⟨h5, h6, _⟩
    · rw [h5, firstAt_append p before after kn x0 h2 h3] at hw
      exact ih x0 x n h6 hw
    · rw [h5] at hw
      have : firstAt p before = none := by
        cases hf : firstAt p before with
        | none => rfl
        | some y =>
          exfalso
          clear h1 hnew h5 hw
          induction before with
          | nil => simp [firstAt] at hf
          | cons e es ihe =>
            rw [firstAt, if_neg (h3 e (by simp))] at hf
            exact ihe (fun z hz => h3 z (by simp [hz])) hf
      rw [this] at hw
      simp at hw

/-- An injection overlay for `meta.labels.x`. -/
def Ex.injectX : Overlay where
  query := [⟨c!"meta.labels.x", findNames [c!"meta", c!"labels", c!"x"]⟩]
  value := sc c!"new"
  onMissing := ⟨.inject, none⟩

/-- A document that has `meta` but no `meta.labels`. -/
def Ex.metaDoc : Node := (dc (mp [sc c!"a", sc c!"1", sc c!"meta", mp [sc c!"name", sc c!"n"], sc c!"z", sc c!"2"])).label

/-- The hypotheses are met. -/
example : PathOf [c!"meta", c!"labels", c!"x"] c!"meta.labels.x" := by
  refine .inr ⟨_, _, rfl, ?_, by decide, by decide⟩
  intro x hx
  simp only [List.mem_cons, List.not_mem_nil, or_false] at hx
  rcases hx with rfl | rfl | rfl <;> exact ⟨⟨by decide, by decide⟩, by decide⟩
example : (∀ k ∈ [c!"meta", c!"labels", c!"x"], NoMarker k) ∧ ¬ (∃ m, Matches injectX.query metaDoc m) ∧
    Qualifies injectX metaDoc ∧ Injects c!"" injectX.onMissing := by
  refine ⟨by decide, ?_, .inl rfl, ?_⟩
  · rw [← findAll_eq_nil]; decide
  · rw [← resolve_inject_iff]; decide
example : tree (apply noSed c!"" injectX metaDoc) =
    some (dc (mp [sc c!"a", sc c!"1", sc c!"meta", mp [sc c!"name", sc c!"n", .mk { kind := .scalar, value := c!"labels" } [],
      .mk { kind := .mapping, nilc := false } [.mk { kind := .scalar, value := c!"x" } [], sc c!"new"]],
      sc c!"z", sc c!"2"])) := by decide

/-- C27, the limit: a value on the path that is not a mapping is replaced by a
mapping, and its data is gone (here the scalar `meta: gone`, and the sequence
`meta: [gone]`). -/
theorem C27_non_mapping_on_path :
    tree (apply noSed c!"" injectX (dc (mp [sc c!"meta", sc c!"gone"])).label) =
      tree (apply noSed c!"" injectX (dc (mp [sc c!"meta", sq [sc c!"gone"]])).label) ∧
    (tree (apply noSed c!"" injectX (dc (mp [sc c!"meta", sc c!"gone"])).label)).isSome := by decide

end Yot
