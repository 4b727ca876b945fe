import Verif.Spec.InjectMany
import Verif.Lemmas.InjectMany
import Verif.Props.Inject
/-
C72: injecting at several paths of names.
-/
namespace Yot
open Spec Ex

theorem scaffolds_fresh (ps : List (List Str)) : ∀ n, (scaffolds ps n).fresh = scaffolds ps n.fresh := by
  induction ps with
  | nil => intro n; rfl
  | cons p ps ih =>
    intro n
    have := ih (scaffold p n)
    simp only [scaffolds, List.foldl_cons] at this ⊢
    rw [this, scaffold_fresh]

theorem updPaths_fresh (f g : Node → Node) (h : ∀ x, (f x).fresh = g x.fresh) (ps : List (List Str)) :
    ∀ n, (updPaths ps f n).fresh = updPaths ps g n.fresh := by
  induction ps with
  | nil => intro n; rfl
  | cons p ps ih =>
    intro n
    have := ih (updPath p f n)
    simp only [updPaths, List.foldl_cons] at this ⊢
    rw [this, updPath_fresh f g h]

theorem walk_updPaths (g : Node → Node) (ps : List (List Str)) : ∀ n, ps.Pairwise Unrelated →
    (∀ p ∈ ps, ∀ m, walk p n = [m] → walk p (updPaths ps g n) = [g m]) ∧
    ∀ q, (∀ p ∈ ps, Unrelated p q) → walk q (updPaths ps g n) = walk q n := by
  induction ps with
  | nil => intro n _; exact ⟨by simp, fun q _ => rfl⟩
  | cons p ps ih =>
    intro n h
    rw [List.pairwise_cons] at h
    obtain ⟨i1, i2⟩ := ih (updPath p g n) h.2
    have hs : updPaths (p :: ps) g n = updPaths ps g (updPath p g n) := rfl
    rw [hs]
    refine ⟨?_, ?_⟩
    · intro q hq m hm
      rcases List.mem_cons.1 hq with rfl | hq
      · rw [i2 q (fun x hx => unrelated_symm (h.1 x hx))]
        exact updPath_walk g q n m hm
      · exact i1 q hq m (by rw [walk_updPath_unrelated g p q n (h.1 q hq)]; exact hm)
    · intro q hq
      rw [i2 q (fun x hx => hq x (by simp [hx])), walk_updPath_unrelated g p q n (hq p (by simp))]

theorem newPaths_many (qps : List (Query × List Str)) (h : ∀ qp ∈ qps, PathOf qp.2 qp.1.str) :
    newPaths ((qps.map Prod.fst).map Query.str) = .ok (qps.map (fun qp => inDocument (nested qp.2))) := by
  induction qps with
  | nil => rfl
  | cons qp qps ih =>
    have h1 := pathOf_builds (h qp (by simp))
    have h2 := ih (fun x hx => h x (by simp [hx]))
    simp only [newPaths] at h2 ⊢
    simp only [List.map_cons, List.mapM_cons, h1, h2, Res.bind_ok, Res.pure_eq]

theorem merge_inDocument (E : Sed) (hd : Hdr) (c : Node) (rest : List Node) (vals : List Str) (t r : Node)
    (h : merge E c [hd.value] t = .ok r) :
    merge E (.mk hd (c :: rest)) vals (inDocument t) = .ok (.mk hd (r :: rest)) := by
  unfold inDocument
  rw [merge_document E _ _ rfl]
  simp only [Node.contentIsNil, Node.hd_mk, Node.content_mk, List.isEmpty_cons, Bool.and_false, Bool.or_self,
    Bool.false_eq_true, if_false, h, Res.bind_ok]
  rw [mergeComments_none E hd _ _ rfl rfl rfl]

theorem buildPaths_many (E : Sed) (p : List Str) (ps : List (List Str)) (hm : ∀ q ∈ p :: ps, ∀ k ∈ q, NoMarker k) :
    buildPaths E (((p :: ps).map (fun p => inDocument (nested p)))) = .ok (inDocument (scaffolds ps (nested p))) := by
  have : ∀ (ps : List (List Str)) (t : Node), (∀ q ∈ ps, ∀ k ∈ q, NoMarker k) →
      (ps.map (fun p => inDocument (nested p))).foldlM (fun acc n => mergeNode E acc n) (inDocument t) =
        Res.ok (inDocument (scaffolds ps t)) := by
    intro ps
    induction ps with
    | nil => intro t _; rfl
    | cons q ps ih =>
      intro t h
      rw [List.map_cons, List.foldlM_cons]
      have h1 : mergeNode E (inDocument t) (inDocument (nested q)) = .ok (inDocument (scaffold q t)) :=
        merge_inDocument E _ t [] [] (nested q) (scaffold q t) (merge_nested E q (h q (by simp)) t _)
      rw [h1, Res.bind_ok, ih (scaffold q t) (fun x hx => h x (by simp [hx]))]
      rfl
  unfold buildPaths mergeNodes
  rw [List.map_cons]
  simp only [this ps (nested p) (fun q hq => hm q (by simp [hq])), Res.bind_ok, Res.pure_eq]

/-- Injecting at some paths: exactly what becomes of the document. -/
theorem doInjectPath_many (E : Sed) (o : Overlay) (qps : List (Query × List Str)) (hne : qps ≠ [])
    (doc c : Node) (rest : List Node)
    (hdoc : doc.hd.kind = .document) (hc : doc.content = c :: rest) (hw : WellFormed c)
    (hp : ∀ qp ∈ qps, PathOf qp.2 qp.1.str ∧ qp.1.find = findNames qp.2 ∧ ∀ k ∈ qp.2, NoMarker k)
    (hu : PairwiseUnrelated (qps.map Prod.snd)) :
    ∃ mh c1 rest1, doInjectPath E o (qps.map Prod.fst) doc =
        .ok (.mk mh (updPaths (qps.map Prod.snd) (fun x => replaceNode E x o.value) c1 :: rest1)) ∧
      ({ mh with addr := 0 } : Hdr) = { doc.hd with addr := 0 } ∧
      c1.fresh = scaffolds (qps.map Prod.snd) c.fresh ∧ rest1.map Node.fresh = rest.map Node.fresh := by
  obtain ⟨hd, cs⟩ := doc
  simp only [Node.content_mk, Node.hd_mk] at hc hdoc
  subst hc
  have hnp := newPaths_many qps (fun qp hqp => (hp qp hqp).1)
  -- the scaffolding
  have hbuild : ∃ y, buildPaths E (qps.map (fun qp => inDocument (nested qp.2))) = .ok y ∧
      mergeNode E (.mk hd (c :: rest)) y = .ok (.mk hd (scaffolds (qps.map Prod.snd) c :: rest)) := by
    cases qps with
    | nil => exact absurd rfl hne
    | cons qp qps =>
      have hm : ∀ q ∈ (qp :: qps).map Prod.snd, ∀ k ∈ q, NoMarker k := by
        intro q hq
        obtain ⟨x, hx, rfl⟩ := List.mem_map.1 hq
        exact (hp x hx).2.2
      rw [List.map_cons] at hm
      have hb := buildPaths_many E qp.2 (qps.map Prod.snd) hm
      simp only [List.map_cons, List.map_map] at hb
      refine ⟨_, hb, ?_⟩
      simp only [PairwiseUnrelated, List.map_cons, List.pairwise_cons] at hu
      refine merge_inDocument E hd c rest [] _ _ ?_
      refine merge_scaffolds E (qps.map Prod.snd) (nested qp.2) c [hd.value] (scaffold qp.2 c) ?_ hu.2
        (nested_noMarkers _ (hm qp.2 (by simp))) (fun q hq => hm q (by simp [hq])) (nested_wf _) hw
        (merge_nested E qp.2 (hm qp.2 (by simp)) c _)
      intro q hq
      exact fits_nested qp.2 q (hu.1 q hq)
  obtain ⟨y, hb, hmerge⟩ := hbuild
  have hstep : doInjectPath E o (qps.map Prod.fst) (.mk hd (c :: rest)) =
      replaceAllAt E o.value (Node.mk hd (scaffolds (qps.map Prod.snd) c :: rest)).label
        (findAll (qps.map Prod.fst) (Node.mk hd (scaffolds (qps.map Prod.snd) c :: rest)).label) := by
    unfold doInjectPath
    rw [hnp, Res.bind_ok, hb]
    simp only [hmerge, Res.bind_ok]
  rw [hstep]
  generalize hmid : (Node.mk hd (scaffolds (qps.map Prod.snd) c :: rest)).label = mid
  have hfresh : mid.fresh = (Node.mk hd (scaffolds (qps.map Prod.snd) c :: rest)).fresh := by rw [← hmid, label_fresh]
  have hnd : mid.addrs.Nodup := by rw [← hmid]; exact label_nodup _
  have hnz : 0 ∉ mid.addrs := by rw [← hmid]; exact label_ne_zero _
  obtain ⟨mh, mcs⟩ := mid
  rw [fresh_mk, fresh_mk] at hfresh
  simp only [Node.mk.injEq] at hfresh
  obtain ⟨hfh, hfc⟩ := hfresh
  cases mcs with
  | nil => simp at hfc
  | cons c1 rest1 =>
  simp only [List.map_cons, List.cons.injEq] at hfc
  have hkind : mh.kind = .document := by
    have := congrArg Hdr.kind hfh
    simpa [hdoc] using this
  -- what the paths lead to
  have hwalk : ∀ qp ∈ qps, ∃ m, walk qp.2 c1 = [m] := by
    intro qp hqp
    obtain ⟨w, hw1⟩ := (walk_scaffolds (qps.map Prod.snd) c hw hu).1 qp.2 (List.mem_map_of_mem hqp)
    have h1 := walk_fresh qp.2 c1
    rw [hfc.1, walk_fresh, hw1] at h1
    rcases walk_cases qp.2 c1 with h2 | h2
    · rw [h2] at h1; simp at h1
    · exact h2
  have hms : ∃ pms : List (List Str × Node), pms.map Prod.fst = qps.map Prod.snd ∧
      findAll (qps.map Prod.fst) (.mk mh (c1 :: rest1)) = pms.map Prod.snd ∧ ∀ pm ∈ pms, walk pm.1 c1 = [pm.2] := by
    have hfa : findAll (qps.map Prod.fst) (.mk mh (c1 :: rest1)) = qps.flatMap (fun qp => walk qp.2 c1) := by
      unfold findAll
      rw [if_neg (by simp), List.flatMap_map]
      clear hnp hb hmerge hstep hwalk hu hne hmid hfc
      induction qps with
      | nil => rfl
      | cons qp qps ih =>
        rw [List.flatMap_cons, List.flatMap_cons, ih (fun x hx => hp x (by simp [hx])), (hp qp (by simp)).2.1]
        simp [findNames, hkind]
    rw [hfa]
    clear hnp hb hmerge hstep hu hne hfa hmid hfc hp
    induction qps with
    | nil => exact ⟨[], rfl, rfl, by simp⟩
    | cons qp qps ih =>
      obtain ⟨m, hm⟩ := hwalk qp (by simp)
      obtain ⟨pms, i1, i2, i3⟩ := ih (fun x hx => hwalk x (by simp [hx]))
      refine ⟨(qp.2, m) :: pms, by simp [i1], ?_, ?_⟩
      · rw [List.flatMap_cons, hm, i2]; rfl
      · intro pm hpm
        rcases List.mem_cons.1 hpm with rfl | hpm
        · exact hm
        · exact i3 pm hpm
  obtain ⟨pms, e1, e2, e3⟩ := hms
  rw [e2]
  simp only [Node.addrs, Node.addrss, List.nodup_cons, List.mem_append, not_or, List.mem_cons] at hnd hnz
  obtain ⟨⟨hr1, hr2⟩, hnd⟩ := hnd
  rw [List.nodup_append] at hnd
  obtain ⟨hn1, hn2, hdis⟩ := hnd
  refine ⟨mh, c1, rest1, ?_, hfh, ?_, hfc.2⟩
  · rw [← e1]
    refine replaceAllAt_updPaths E o.value mh rest1 pms c1 (by rw [e1]; exact hu) ?_
    intro pm hpm
    have hwk := e3 pm hpm
    have hin : pm.2.hd.addr ∈ c1.addrs := mem_addrs_walk pm.1 c1 pm.2 (by rw [hwk]; simp)
    refine ⟨hwk, Nat.le_antisymm (List.nodup_iff_count.1 hn1 _) (List.count_pos_iff.2 hin), fun e => hnz.2.1 (e ▸ hin), fun e => hr1 (e ▸ hin), fun h => hdis _ hin _ h rfl⟩
  · rw [hfc.1, scaffolds_fresh]

/-- The overlay's queries are paths of names, the texts free of markers. -/
theorem apply_many (E : Sed) (dflt : Str) (o : Overlay) (qps : List (Query × List Str)) (hne : qps ≠ [])
    (doc c : Node) (rest : List Node)
    (hdoc : doc.hd.kind = .document) (hc : doc.content = c :: rest) (hw : WellFormed c)
    (hp : ∀ qp ∈ qps, PathOf qp.2 qp.1.str ∧ qp.1.find = findNames qp.2 ∧ ∀ k ∈ qp.2, NoMarker k)
    (hu : PairwiseUnrelated (qps.map Prod.snd)) (ho : o.query = qps.map Prod.fst)
    (hQ : Qualifies o doc) (hI : Injects dflt o.onMissing) (hnone : ¬ ∃ m, Matches o.query doc m) :
    ∃ mh c1 rest1, apply E dflt o doc =
        .ok (.mk mh (updPaths (qps.map Prod.snd) (fun x => replaceNode E x o.value) c1 :: rest1)) ∧
      ({ mh with addr := 0 } : Hdr) = { doc.hd with addr := 0 } ∧
      c1.fresh = scaffolds (qps.map Prod.snd) c.fresh ∧ rest1.map Node.fresh = rest.map Node.fresh := by
  rw [(C18_otherwise E dflt o doc hQ).2 hnone hI]
  have hnp := newPaths_many qps (fun qp hqp => (hp qp hqp).1)
  have hdo : handleInjectPath E o doc = doInjectPath E o o.query doc := by
    unfold handleInjectPath; rw [ho, hnp]
  rw [hdo, ho]
  exact doInjectPath_many E o qps hne doc c rest hdoc hc hw hp hu

/-- C72: when none of the queries (unrelated paths of names) matches and inject is in
effect, afterwards each of them matches exactly one node, and that holds the
overlay's value. -/
theorem C72_each_path (E : Sed) (dflt : Str) (o : Overlay) (qps : List (Query × List Str)) (hne : qps ≠ [])
    (doc c : Node) (rest : List Node)
    (hdoc : doc.hd.kind = .document) (hc : doc.content = c :: rest) (hw : WellFormed c)
    (hp : ∀ qp ∈ qps, PathOf qp.2 qp.1.str ∧ qp.1.find = findNames qp.2 ∧ ∀ k ∈ qp.2, NoMarker k)
    (hu : PairwiseUnrelated (qps.map Prod.snd)) (ho : o.query = qps.map Prod.fst)
    (hQ : Qualifies o doc) (hI : Injects dflt o.onMissing) (hnone : ¬ ∃ m, Matches o.query doc m) :
    ∃ doc', apply E dflt o doc = .ok doc' ∧ ∀ q ∈ o.query, ∃ m, q.find doc' = [m] ∧ HoldsValue o.value m := by
  obtain ⟨mh, c1, rest1, h1, h2, h3, h4⟩ := apply_many E dflt o qps hne doc c rest hdoc hc hw hp hu ho hQ hI hnone
  refine ⟨_, h1, ?_⟩
  intro q hq
  rw [ho] at hq
  obtain ⟨qp, hqp, rfl⟩ := List.mem_map.1 hq
  have hmem : qp.2 ∈ qps.map Prod.snd := List.mem_map_of_mem hqp
  obtain ⟨w, hw1⟩ := (walk_scaffolds (qps.map Prod.snd) c.fresh (fresh_wf c hw) hu).1 qp.2 hmem
  have hk : mh.kind = .document := by have := congrArg Hdr.kind h2; simpa [hdoc] using this
  have h5 := walk_fresh qp.2 c1
  rw [h3, hw1] at h5
  rcases walk_cases qp.2 c1 with h6 | ⟨m, h6⟩
  · rw [h6] at h5; simp at h5
  · refine ⟨replaceNode E m o.value, ?_, replaceNode_holds E m o.value⟩
    rw [(hp qp hqp).2.1]
    simp only [findNames, Node.hd_mk, hk, if_true, Node.content_mk]
    exact (walk_updPaths _ _ c1 hu).1 qp.2 hmem m h6

theorem injectAll_injected (g : Node → Node) (v : Node) (hv : ∀ x, HoldsValue v (g x)) (hg : ∀ x, WellFormed (g x))
    (ps : List (List Str)) : ∀ n, WellFormed n → InjectedAll v ps n (injectAll ps g n) := by
  induction ps with
  | nil => intro n _; exact .nil n
  | cons p ps ih =>
    intro n hn
    exact .cons p ps n _ _ (injected_scaffold g v hv p n hn) (ih _ (updPath_wf g hg p _ (scaffold_wf p n hn)))

/-- The new document, as data: each path in turn added and given the value. -/
theorem apply_many_fresh (E : Sed) (dflt : Str) (o : Overlay) (qps : List (Query × List Str)) (hne : qps ≠ [])
    (doc c : Node) (rest : List Node)
    (hdoc : doc.hd.kind = .document) (hc : doc.content = c :: rest) (hw : WellFormed c) (hv : WellFormed o.value)
    (hp : ∀ qp ∈ qps, PathOf qp.2 qp.1.str ∧ qp.1.find = findNames qp.2 ∧ ∀ k ∈ qp.2, NoMarker k)
    (hu : PairwiseUnrelated (qps.map Prod.snd)) (ho : o.query = qps.map Prod.fst)
    (hQ : Qualifies o doc) (hI : Injects dflt o.onMissing) (hnone : ¬ ∃ m, Matches o.query doc m) :
    ∃ doc' c' rest', apply E dflt o doc = .ok doc' ∧ doc'.fresh.hd = doc.fresh.hd ∧ doc'.content = c' :: rest' ∧
      rest'.map Node.fresh = rest.map Node.fresh ∧
      c'.fresh = injectAll (qps.map Prod.snd) (fun x => replaceNode E x o.value) c.fresh := by
  obtain ⟨mh, c1, rest1, h1, h2, h3, h4⟩ := apply_many E dflt o qps hne doc c rest hdoc hc hw hp hu ho hQ hI hnone
  refine ⟨_, _, rest1, h1, ?_, rfl, h4, ?_⟩
  · rw [fresh_hd, fresh_hd]; exact h2
  · rw [updPaths_fresh _ (fun x => replaceNode E x o.value) (fun x => replaceNode_fresh E x o.value), h3]
    exact updPaths_scaffolds _ (fun x => replaceNode_wf E x o.value hv) _ _ (fresh_wf c hw) hu

/-- C72: nothing else changes: the new document is the old one with the value put at
the paths one after the other, each time changing only the entries along the path. -/
theorem C72_frame (E : Sed) (dflt : Str) (o : Overlay) (qps : List (Query × List Str)) (hne : qps ≠ [])
    (doc c : Node) (rest : List Node)
    (hdoc : doc.hd.kind = .document) (hc : doc.content = c :: rest) (hw : WellFormed c) (hv : WellFormed o.value)
    (hp : ∀ qp ∈ qps, PathOf qp.2 qp.1.str ∧ qp.1.find = findNames qp.2 ∧ ∀ k ∈ qp.2, NoMarker k)
    (hu : PairwiseUnrelated (qps.map Prod.snd)) (ho : o.query = qps.map Prod.fst)
    (hQ : Qualifies o doc) (hI : Injects dflt o.onMissing) (hnone : ¬ ∃ m, Matches o.query doc m) :
    ∃ doc' c' rest', apply E dflt o doc = .ok doc' ∧ doc'.fresh.hd = doc.fresh.hd ∧ doc'.content = c' :: rest' ∧
      rest'.map Node.fresh = rest.map Node.fresh ∧ InjectedAll o.value (qps.map Prod.snd) c.fresh c'.fresh := by
  obtain ⟨doc', c', rest', h1, h2, h3, h4, h5⟩ :=
    apply_many_fresh E dflt o qps hne doc c rest hdoc hc hw hv hp hu ho hQ hI hnone
  refine ⟨doc', c', rest', h1, h2, h3, h4, ?_⟩
  rw [h5]
  exact injectAll_injected _ _ (fun x => replaceNode_holds E x o.value) (fun x => replaceNode_wf E x o.value hv) _ _
    (fresh_wf c hw)

theorem no_match_names (qps : List (Query × List Str)) (hp : ∀ qp ∈ qps, qp.1.find = findNames qp.2)
    (doc c : Node) (rest : List Node) (hdoc : doc.hd.kind = .document) (hc : doc.content = c :: rest) :
    (¬ ∃ m, Matches (qps.map Prod.fst) doc m) ↔ ∀ qp ∈ qps, walk qp.2 c = [] := by
  rw [← findAll_eq_nil]
  unfold findAll
  rw [if_neg (by simp [hc]), List.flatMap_map, List.flatMap_eq_nil_iff]
  refine forall₂_congr ?_
  intro qp hqp
  rw [hp qp hqp]
  simp [findNames, hdoc, hc]

theorem wf_fresh_iff (n : Node) : WellFormed n.fresh ↔ WellFormed n := by
  induction n using Node.ind with
  | h hd cs ih =>
    rw [fresh_mk, wf_mk, wf_mk]
    simp only [List.length_map, List.mem_map, forall_exists_index, and_imp, forall_apply_eq_imp_iff₂]
    exact and_congr Iff.rfl (forall₂_congr ih)

/-- The overlays with one query each, applied in turn. -/
theorem applyAll_perQuery (E : Sed) (dflt : Str) (o : Overlay) (hv : WellFormed o.value) (hdq : o.documentQuery = [])
    (hI : Injects dflt o.onMissing) (qps : List (Query × List Str)) : ∀ (doc c : Node) (rest : List Node),
    doc.hd.kind = .document → doc.content = c :: rest → WellFormed c →
    (∀ qp ∈ qps, PathOf qp.2 qp.1.str ∧ qp.1.find = findNames qp.2 ∧ ∀ k ∈ qp.2, NoMarker k) →
    PairwiseUnrelated (qps.map Prod.snd) → (∀ qp ∈ qps, walk qp.2 c = []) →
    ∃ doc' c' rest', Spec.applyAll E dflt ((qps.map Prod.fst).map (fun q => { o with query := [q] })) doc = .ok doc' ∧
      doc'.fresh.hd = doc.fresh.hd ∧ doc'.content = c' :: rest' ∧ rest'.map Node.fresh = rest.map Node.fresh ∧
      c'.fresh = injectAll (qps.map Prod.snd) (fun x => replaceNode E x o.value) c.fresh := by
  induction qps with
  | nil => intro doc c rest _ hc _ _ _ _; exact ⟨doc, c, rest, rfl, rfl, hc, rfl, rfl⟩
  | cons qp qps ih =>
    intro doc c rest hdoc hc hw hp hu hno
    -- the first overlay sees the relabelled document
    have hl : doc.label.fresh = doc.fresh := label_fresh doc
    have hlk : doc.label.hd.kind = .document := by
      have := congrArg (fun n => n.hd.kind) hl
      simpa [fresh_hd, hdoc] using this
    have hlc : doc.label.content.map Node.fresh = c.fresh :: rest.map Node.fresh := by
      have := congrArg Node.content hl
      simpa [fresh_content, hc] using this
    cases hcs : doc.label.content with
    | nil => rw [hcs] at hlc; simp at hlc
    | cons cl restl =>
      rw [hcs] at hlc
      simp only [List.map_cons, List.cons.injEq] at hlc
      have hwl : WellFormed cl := (wf_fresh_iff cl).1 (hlc.1 ▸ (wf_fresh_iff c).2 hw)
      have hu1 := hu
      simp only [PairwiseUnrelated, List.map_cons, List.pairwise_cons] at hu1
      have hno1 : walk qp.2 cl = [] := by
        have h1 := walk_fresh qp.2 cl
        rw [hlc.1, walk_fresh, hno qp (by simp)] at h1
        simpa using h1.symm
      obtain ⟨d1, c1, rest1, e1, e2, e3, e4, e5⟩ :=
        apply_many_fresh E dflt { o with query := [qp.1] } [qp] (by simp) doc.label cl restl hlk hcs hwl hv
          (fun x hx => by simp at hx; subst hx; exact hp x (by simp)) (by simp [PairwiseUnrelated]) rfl
          (.inl hdq) hI (by
            have := (no_match_names [qp] (fun x hx => by simp at hx; subst hx; exact (hp x (by simp)).2.1)
              doc.label cl restl hlk hcs).2 (fun x hx => by simp at hx; subst hx; exact hno1)
            simpa using this)
      simp only [List.map_cons, List.map_nil] at e5
      have e5' : c1.fresh = updPath qp.2 (fun x => replaceNode E x o.value) (scaffold qp.2 c.fresh) := by
        rw [e5, hlc.1]; rfl
      have hw1 : WellFormed c1 := by
        rw [← wf_fresh_iff, e5']
        exact updPath_wf _ (fun x => replaceNode_wf E x o.value hv) _ _ (scaffold_wf _ _ (fresh_wf c hw))
      have hk1 : d1.hd.kind = .document := by
        have := congrArg Hdr.kind e2
        simpa [fresh_hd, hlk] using this
      obtain ⟨d', c', rest', f1, f2, f3, f4, f5⟩ := ih d1 c1 rest1 hk1 e3 hw1 (fun x hx => hp x (by simp [hx])) hu1.2
        (fun x hx => by
          have h1 := walk_fresh x.2 c1
          have hun := hu1.1 x.2 (List.mem_map_of_mem hx)
          rw [e5', walk_updPath_unrelated _ qp.2 x.2 _ hun, walk_scaffold_unrelated qp.2 x.2 _ (fresh_wf c hw) hun, walk_fresh,
            hno x (by simp [hx])] at h1
          simpa using h1.symm)
      refine ⟨d', c', rest', ?_, ?_, f3, ?_, ?_⟩
      · rw [List.map_cons, List.map_cons, Spec.applyAll, applyJob, e1, Res.bind_ok]
        exact f1
      · rw [f2, e2, hl]
      · rw [f4, e4, hlc.2]
      · rw [f5, e5']; rfl

/-- C72: one overlay with several queries does what the overlays with one query each
do, one after the other. -/
theorem C72_one_by_one (E : Sed) (dflt : Str) (o : Overlay) (qps : List (Query × List Str)) (hne : qps ≠ [])
    (doc c : Node) (rest : List Node)
    (hdoc : doc.hd.kind = .document) (hc : doc.content = c :: rest) (hw : WellFormed c) (hv : WellFormed o.value)
    (hp : ∀ qp ∈ qps, PathOf qp.2 qp.1.str ∧ qp.1.find = findNames qp.2 ∧ ∀ k ∈ qp.2, NoMarker k)
    (hu : PairwiseUnrelated (qps.map Prod.snd)) (ho : o.query = qps.map Prod.fst)
    (hdq : o.documentQuery = []) (hI : Injects dflt o.onMissing) (hnone : ¬ ∃ m, Matches o.query doc m) :
    SameDocument (apply E dflt o doc) (Spec.applyAll E dflt (perQuery o) doc) := by
  obtain ⟨d, c1, r1, h1, h2, h3, h4, h5⟩ :=
    apply_many_fresh E dflt o qps hne doc c rest hdoc hc hw hv hp hu ho (.inl hdq) hI hnone
  rw [ho, no_match_names qps (fun x hx => (hp x hx).2.1) doc c rest hdoc hc] at hnone
  obtain ⟨d', c2, r2, g1, g2, g3, g4, g5⟩ := applyAll_perQuery E dflt o hv hdq hI qps doc c rest hdoc hc hw hp hu hnone
  refine ⟨d, d', h1, ?_, ?_⟩
  · rw [← g1, perQuery, ho]
  · obtain ⟨dh, dc⟩ := d
    obtain ⟨dh', dc'⟩ := d'
    simp only [Node.content_mk] at h3 g3
    subst h3; subst g3
    rw [← g2] at h2
    simp only [fresh_mk, Node.hd_mk] at h2 ⊢
    rw [List.map_cons, List.map_cons, h2, h5, g5, h4, g4]

/-- C72, for the fallback: when some query is not a plain path, the paths of names
under `injectPath` are used; each of them, whether it existed or not, afterwards leads
to the value. -/
theorem C72_injectPath (E : Sed) (dflt : Str) (o : Overlay) (qps : List (Query × List Str)) (hne : qps ≠ [])
    (doc c : Node) (rest : List Node)
    (hdoc : doc.hd.kind = .document) (hc : doc.content = c :: rest) (hw : WellFormed c) (hv : WellFormed o.value)
    (hp : ∀ qp ∈ qps, PathOf qp.2 qp.1.str ∧ qp.1.find = findNames qp.2 ∧ ∀ k ∈ qp.2, NoMarker k)
    (hu : PairwiseUnrelated (qps.map Prod.snd)) (ho : o.onMissing.injectPath = some (qps.map Prod.fst))
    (hplain : ¬ ∀ q ∈ o.query, PlainPath q.str)
    (hQ : Qualifies o doc) (hI : Injects dflt o.onMissing) (hnone : ¬ ∃ m, Matches o.query doc m) :
    ∃ doc' c' rest', apply E dflt o doc = .ok doc' ∧ doc'.fresh.hd = doc.fresh.hd ∧ doc'.content = c' :: rest' ∧
      rest'.map Node.fresh = rest.map Node.fresh ∧ InjectedAll o.value (qps.map Prod.snd) c.fresh c'.fresh ∧
      ∀ qp ∈ qps, ∃ m, qp.1.find doc' = [m] ∧ HoldsValue o.value m := by
  have hnp := newPaths_many qps (fun qp hqp => (hp qp hqp).1)
  have hdo : apply E dflt o doc = doInjectPath E o (qps.map Prod.fst) doc := by
    rw [(C18_otherwise E dflt o doc hQ).2 hnone hI]
    unfold handleInjectPath
    rw [newPaths_err _ (by simpa using hplain)]
    simp only [ho]
  obtain ⟨mh, c1, rest1, h1, h2, h3, h4⟩ := doInjectPath_many E o qps hne doc c rest hdoc hc hw hp hu
  refine ⟨_, _, rest1, hdo.trans h1, ?_, rfl, h4, ?_, ?_⟩
  · rw [fresh_hd, fresh_hd]; exact h2
  · rw [updPaths_fresh _ (fun x => replaceNode E x o.value) (fun x => replaceNode_fresh E x o.value), h3,
      updPaths_scaffolds _ (fun x => replaceNode_wf E x o.value hv) _ _ (fresh_wf c hw) hu]
    exact injectAll_injected _ _ (fun x => replaceNode_holds E x o.value) (fun x => replaceNode_wf E x o.value hv) _ _
      (fresh_wf c hw)
  · intro qp hqp
    have hmem : qp.2 ∈ qps.map Prod.snd := List.mem_map_of_mem hqp
    obtain ⟨w, hw1⟩ := (walk_scaffolds (qps.map Prod.snd) c.fresh (fresh_wf c hw) hu).1 qp.2 hmem
    have hk : mh.kind = .document := by have := congrArg Hdr.kind h2; simpa [hdoc] using this
    have h5 := walk_fresh qp.2 c1
    rw [h3, hw1] at h5
    rcases walk_cases qp.2 c1 with h6 | ⟨m, h6⟩
    · rw [h6] at h5; simp at h5
    · refine ⟨replaceNode E m o.value, ?_, replaceNode_holds E m o.value⟩
      rw [(hp qp hqp).2.1]
      simp only [findNames, Node.hd_mk, hk, if_true, Node.content_mk]
      exact (walk_updPaths _ _ c1 hu).1 qp.2 hmem m h6

/-- The query for a path of names. -/
def Ex.namesQuery (ks : List Str) : Query := ⟨dotted ks, findNames ks⟩

/-- Injecting `new` at some paths. -/
def Ex.injectAt (pss : List (List Str)) : Overlay where
  query := pss.map namesQuery
  value := sc c!"new"
  action := .merge
  onMissing := ⟨.inject, none⟩

/-- `meta.x`, `meta.labels.y` and `top`. -/
def Ex.threePaths : List (Query × List Str) :=
  [(namesQuery [c!"meta", c!"x"], [c!"meta", c!"x"]), (namesQuery [c!"meta", c!"labels", c!"y"], [c!"meta", c!"labels", c!"y"]),
   (namesQuery [c!"top"], [c!"top"])]

/-- The hypotheses are met. -/
example : ∀ qp ∈ threePaths, PathOf qp.2 qp.1.str ∧ qp.1.find = findNames qp.2 ∧ ∀ k ∈ qp.2, NoMarker k := by
  intro qp hqp
  simp only [threePaths, List.mem_cons, List.not_mem_nil, or_false] at hqp
  rcases hqp with rfl | rfl | rfl <;>
  · refine ⟨.inr ⟨_, _, rfl, ?_, by decide, rfl⟩, rfl, by decide⟩
    intro x hx
    simp only [List.mem_cons, List.not_mem_nil, or_false] at hx
    rcases hx with rfl | rfl | rfl <;> exact ⟨⟨by decide, by decide⟩, by decide⟩
example : PairwiseUnrelated (threePaths.map Prod.snd) := by
  unfold PairwiseUnrelated Unrelated; decide
example : (injectAt (threePaths.map Prod.snd)).query = threePaths.map Prod.fst ∧
    ¬ (∃ m, Matches (injectAt (threePaths.map Prod.snd)).query metaDoc m) ∧
    Injects c!"" (injectAt (threePaths.map Prod.snd)).onMissing ∧ WellFormed (injectAt (threePaths.map Prod.snd)).value := by
  refine ⟨rfl, ?_, ?_, ?_⟩
  · rw [← findAll_eq_nil]; decide
  · rw [← resolve_inject_iff]; decide
  · simp [injectAt, sc, WellFormed, WellFormeds, Shaped]
example : tree (apply noSed c!"" (injectAt (threePaths.map Prod.snd)) metaDoc) =
    some (dc (mp [sc c!"a", sc c!"1", sc c!"meta", mp [sc c!"name", sc c!"n", .mk { kind := .scalar, value := c!"x" } [], sc c!"new",
        .mk { kind := .scalar, value := c!"labels" } [],
        .mk { kind := .mapping, nilc := false } [.mk { kind := .scalar, value := c!"y" } [], sc c!"new"]],
      sc c!"z", sc c!"2", .mk { kind := .scalar, value := c!"top" } [], sc c!"new"])) := by decide +kernel

/-- C72, the limit: when one path leads into the other (`a` and `a.b`), only the shorter one
is there afterwards, in whichever order they are listed. -/
theorem C72_related_paths (pss : List (List Str)) (h : pss = [[c!"a"], [c!"a", c!"b"]] ∨ pss = [[c!"a", c!"b"], [c!"a"]]) :
    tree (apply noSed c!"" (injectAt pss) (dc (mp [])).label) =
        some (dc (.mk { kind := .mapping, tag := c!"!!map", nilc := false } [.mk { kind := .scalar, value := c!"a" } [], sc c!"new"])) ∧
    findNames [c!"a", c!"b"]
      (dc (.mk { kind := .mapping, tag := c!"!!map", nilc := false } [.mk { kind := .scalar, value := c!"a" } [], sc c!"new"])) = [] := by
  rcases h with rfl | rfl <;> decide

/-- C72, the limit: one query that matches is enough for none of the others to be
injected: with `a` there, `b` stays missing. -/
theorem C72_one_match_suppresses :
    (Injects c!"" (injectAt [[c!"a"], [c!"b"]]).onMissing) ∧
    tree (apply noSed c!"" (injectAt [[c!"a"], [c!"b"]]) (dc (mp [sc c!"a", sc c!"old"])).label) =
      some (dc (mp [sc c!"a", sc c!"new"])) := by
  refine ⟨?_, by decide⟩
  rw [← resolve_inject_iff]; decide

end Yot
