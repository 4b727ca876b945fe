import Verif.Lemmas.Again
import Verif.Lemmas.Alike
import Verif.Props.Pipeline
/-
C85: running the same overlays on what they gave.
-/
namespace Yot
open Spec Ex

/-- After a list of repeatable overlays at unrelated paths none of them has anything left to do. -/
theorem all_settled (E : Sed) (dflt : Str) (ps : List (List Str × Overlay)) (hr : ∀ p ∈ ps, Repeatable dflt p.1 p.2)
    (hu : ps.Pairwise (fun p p' => Unrelated p.1 p'.1)) : ∀ (d d1 : Node), ValidDocument d → d.content ≠ [] →
    Spec.applyAll E dflt (ps.map (·.2)) d = .ok d1 →
    ValidDocument d1 ∧ (∀ p ∈ ps, Settled E dflt p.2 p.1 d1.fresh) ∧
    ∀ ks, (∀ p ∈ ps, Unrelated ks p.1) → findNames ks d1.fresh = findNames ks d.fresh := by
  induction ps with
  | nil =>
    intro d d1 hd _ h
    simp only [List.map_nil, Spec.applyAll, Res.ok.injEq] at h
    subst h
    exact ⟨hd, by simp, fun _ _ => rfl⟩
  | cons p ps ih =>
    intro d d1 hd hne h
    simp only [List.map_cons, Spec.applyAll, Res.bind_eq_ok] at h
    obtain ⟨x, hx, h⟩ := h
    have hp := hr p (by simp)
    obtain ⟨s1, s2, s3⟩ := repeatable_step E dflt p.1 p.2 hp d x hd hne hx
    have hvx := C77_apply E dflt p.2 d x hd hp.proper hx
    obtain ⟨hp1, hu'⟩ := List.pairwise_cons.1 hu
    cases ps with
    | nil =>
      simp only [List.map_nil, Spec.applyAll, Res.ok.injEq] at h
      subst h
      exact ⟨hvx, by simpa using s1, fun ks hks => s2 ks (hks p (by simp))⟩
    | cons p' ps =>
      have hks : p.1 ≠ [] := by
        intro h0
        have := (hp1 p' (by simp)).1
        rw [h0] at this
        exact this List.nil_prefix
      obtain ⟨t1, t2, t3⟩ := ih (fun p hp => hr p (by simp [hp])) hu' x d1 hvx (s3 hks) h
      refine ⟨t1, ?_, ?_⟩
      · intro p2 hp2
        rcases List.mem_cons.1 hp2 with rfl | hp2
        · have := t3 p2.1 (fun p3 hp3 => hp1 p3 hp3)
          unfold Settled at s1 ⊢
          rw [this]
          exact s1
        · exact t2 p2 hp2
      · intro ks hks
        rw [t3 ks (fun p hp => hks p (by simp [hp])), s2 ks (hks p (by simp))]

theorem act_alike (E : Sed) (dflt : Str) (ks : List Str) (o : Overlay) (h : Repeatable dflt ks o) (x y : Node) (hxy : Alike x y) :
    AlikeR AlikeO (act E o x) (act E o y) := by
  rcases h.kind with hk | ⟨hk, _⟩ | ⟨hk, _, hs, _⟩
  · simp only [act, hk, AlikeR, AlikeO]
  · simp only [act, hk, AlikeR, AlikeO]
    exact replaceNode_alike E o.value hxy
  · simp only [act, hk]
    refine AlikeR.bind (merge_alike E o.value hs x y [] hxy) ?_
    intro a b hab
    exact hab

theorem plainly_fresh (n : Node) : plainly n.fresh = plainly n := by
  induction n using Node.ind with
  | h hd cs ih =>
    rw [fresh_mk, plainly_mk, plainly_mk, List.map_map]
    congr 1
    exact List.map_congr_left fun c hc => ih c hc

/-- An overlay with nothing to do in a document has nothing to do in one like it. -/
theorem settled_alike (E : Sed) (dflt : Str) (ks : List Str) (o : Overlay) (h : Repeatable dflt ks o) (d d2 : Node)
    (hd : d.hd.kind = .document) (hs : Settled E dflt o ks d.fresh) (ha : Alike d2 d) :
    ∃ d3, applyJob E dflt o d2 = .ok d3 ∧ Alike d3 d := by
  have hd2 : d2.hd.kind = .document := by
    rw [((plainHd_iff _ _).1 ((alike_iff _ _).1 ha).1).1, hd]
  have hff : Alike d2.fresh d.fresh := by unfold Alike; rw [plainly_fresh, plainly_fresh]; exact ha
  have hfn := findNames_alike ks hff
  have hkf : d.fresh.hd.kind = .document := by simp [fresh_hd, hd]
  have hsame : docEdit ks (act E o) d.fresh = .ok d.fresh := by
    rcases hs with ⟨h1, _⟩ | ⟨m, h1, h2⟩
    · exact docEdit_none _ ks d.fresh hkf h1
    · revert h1 hkf
      generalize d.fresh = x
      intro hk h1
      obtain ⟨hx, cs⟩ := x
      cases cs with
      | nil => rw [findNames_empty (by exact hk)] at h1; cases h1
      | cons c rest =>
        rw [findNames_mk (by exact hk)] at h1
        simp only [docEdit, Node.content_mk]
        rw [editPath_settled ks c m h1 h2]
        rfl
  have hI : ¬ Injects dflt o.onMissing ∨ findNames ks d2.fresh ≠ [] := by
    rcases hs with ⟨_, h2⟩ | ⟨m, h1, _⟩
    · exact .inl h2
    · right
      intro h0
      rw [h0, h1] at hfn
      simp at hfn
  have h1 := applyJob_docEdit E dflt o ks h.at h.noDocumentQuery d2 hI hd2
  have h2 := docEdit_alike (act E o) (act_alike E dflt ks o h) ks _ _ hff
  rw [hsame] at h2
  cases hdoc : docEdit ks (act E o) d2.fresh with
  | err e => rw [hdoc] at h2; cases h2
  | panic => rw [hdoc] at h2; cases h2
  | ok x =>
    rw [hdoc] at h1 h2
    obtain ⟨d3, h3, h4⟩ := applyJob_of_freshRes h1
    refine ⟨d3, h3, ?_⟩
    have : Alike x d.fresh := h2
    unfold Alike at this ⊢
    rw [← h4, plainly_fresh, plainly_fresh] at this
    exact this

/-- **C85**: overlays that can be repeated, at paths of names none of which leads to or into what
another leads to: applied once more to the document they gave, they give the same document again. -/
theorem C85_twice (E : Sed) (dflt : Str) (ps : List (List Str × Overlay)) (hr : ∀ p ∈ ps, Repeatable dflt p.1 p.2)
    (hu : ps.Pairwise (fun p p' => Unrelated p.1 p'.1)) (d d1 : Node) (hd : ValidDocument d) (hne : d.content ≠ [])
    (h : Spec.applyAll E dflt (ps.map (·.2)) d = .ok d1) :
    ∃ d2, Spec.applyAll E dflt (ps.map (·.2)) d1 = .ok d2 ∧ d2.fresh = d1.fresh := by
  obtain ⟨h1, h2, _⟩ := all_settled E dflt ps hr hu d d1 hd hne h
  have key : ∀ (l : List (List Str × Overlay)), (∀ p ∈ l, p ∈ ps) → ∀ x : Node, x.fresh = d1.fresh →
      ∃ d2, Spec.applyAll E dflt (l.map (·.2)) x = .ok d2 ∧ d2.fresh = d1.fresh := by
    intro l
    induction l with
    | nil => intro _ x hx; exact ⟨x, rfl, hx⟩
    | cons p l ih =>
      intro hl x hx
      have hkx : x.hd.kind = .document := by
        have := congrArg (fun n => n.hd.kind) hx
        simpa [fresh_hd, h1.1] using this
      have hp := hl p (by simp)
      obtain ⟨x', e1, e2⟩ := settled_apply E dflt p.2 p.1 (hr p hp).at (hr p hp).noDocumentQuery x hkx (hx ▸ h2 p hp)
      obtain ⟨d2, e3, e4⟩ := ih (fun p hp => hl p (by simp [hp])) x' (e2.trans hx)
      exact ⟨d2, by simp only [List.map_cons, Spec.applyAll, e1, Res.bind_ok]; exact e3, e4⟩
  exact key ps (fun _ h => h) d1 rfl

/-- **C85**: also applied to a document that differs from it at most in styles, as what is read
back from a file that was written in another style. -/
theorem C85_again (E : Sed) (dflt : Str) (ps : List (List Str × Overlay)) (hr : ∀ p ∈ ps, Repeatable dflt p.1 p.2)
    (hu : ps.Pairwise (fun p p' => Unrelated p.1 p'.1)) (d d1 d2 : Node) (hd : ValidDocument d) (hne : d.content ≠ [])
    (h : Spec.applyAll E dflt (ps.map (·.2)) d = .ok d1) (ha : Alike d2 d1) :
    ∃ d3, Spec.applyAll E dflt (ps.map (·.2)) d2 = .ok d3 ∧ Alike d3 d1 := by
  obtain ⟨h1, h2, _⟩ := all_settled E dflt ps hr hu d d1 hd hne h
  have key : ∀ (l : List (List Str × Overlay)), (∀ p ∈ l, p ∈ ps) → ∀ x : Node, Alike x d1 →
      ∃ d3, Spec.applyAll E dflt (l.map (·.2)) x = .ok d3 ∧ Alike d3 d1 := by
    intro l
    induction l with
    | nil => intro _ x hx; exact ⟨x, rfl, hx⟩
    | cons p l ih =>
      intro hl x hx
      have hp := hl p (by simp)
      obtain ⟨x', e1, e2⟩ := settled_alike E dflt p.1 p.2 (hr p hp) d1 x h1.1 (h2 p hp) hx
      obtain ⟨d2, e3, e4⟩ := ih (fun p hp => hl p (by simp [hp])) x' e2
      exact ⟨d2, by simp only [List.map_cons, Spec.applyAll, e1, Res.bind_ok]; exact e3, e4⟩
  exact key ps (fun _ h => h) d2 ha

/-! ### What is written -/

theorem alike_valid {x y : Node} (h : Alike x y) (hy : ValidNode y) : ValidNode x := by
  induction y using Node.ind generalizing x with
  | h hd cs ih =>
    obtain ⟨hx, cx⟩ := x
    have h' := (alike_iff _ _).1 h
    simp only [Node.hd_mk, Node.content_mk] at h'
    have hh := (plainHd_iff _ _).1 h'.1
    have hl : cx.length = cs.length := by have := congrArg List.length h'.2; simpa using this
    simp only [ValidNode, ValidNodes_iff] at hy ⊢
    have hkeys : keys cx = keys cs := by
      have e : ∀ l : List Node, keys l = (pairs (l.map plainly)).map (fun e => e.1.hd.value) := by
        intro l
        rw [pairs_map, List.map_map]
        simp only [keys]
        refine List.map_congr_left fun e _ => ?_
        show e.1.hd.value = (plainly e.1).hd.value
        rw [plainly_hd]; rfl
      rw [e, e, h'.2]
    refine ⟨by unfold ValidHdr at hy ⊢; rw [hh.1, hh.2.1]; exact hy.1, by rw [hh.1, hl]; exact hy.2.1,
      by rw [hh.1, hkeys]; exact hy.2.2.1, ?_⟩
    intro c hc
    have : plainly c ∈ cs.map plainly := by rw [← h'.2]; exact List.mem_map_of_mem hc
    obtain ⟨c', hc', e⟩ := List.mem_map.1 this
    exact ih c' hc' (x := c) e.symm (hy.2.2.2 c' hc')

/-- With the same style everywhere, documents that are alike are written alike. -/
theorem setStyle_written (s : Nat) {x y : Node} (h : Alike x y) (hy : ValidNode y) : written (setStyle s x) = written (setStyle s y) := by
  induction y using Node.ind generalizing x with
  | h hd cs ih =>
    obtain ⟨hx, cx⟩ := x
    have h' := (alike_iff _ _).1 h
    simp only [Node.hd_mk, Node.content_mk] at h'
    have hh := (plainHd_iff _ _).1 h'.1
    have hl : cx.length = cs.length := by have := congrArg List.length h'.2; simpa using this
    simp only [ValidNode, ValidNodes_iff] at hy
    have hrec : ∀ (cs cx : List Node), (∀ c ∈ cs, ∀ {x : Node}, Alike x c → written (setStyle s x) = written (setStyle s c)) →
        cx.map plainly = cs.map plainly → mapHdrs writtenHd (setStyles s cx) = mapHdrs writtenHd (setStyles s cs) := by
      intro cs
      induction cs with
      | nil => intro cx _ h; have : cx = [] := by simpa using h
               subst this; rfl
      | cons c cs ihc =>
        intro cx hc h
        cases cx with
        | nil => simp at h
        | cons x cx =>
          simp only [List.map_cons, List.cons.injEq] at h
          simp only [setStyles, mapHdrs]
          have h1 := hc c (by simp) (x := x) h.1
          unfold written at h1
          rw [h1, ihc cx (fun c hc' => hc c (by simp [hc'])) h.2]
    have hcs := hrec cs cx (fun c hc x hxc => ih c hc hxc (hy.2.2.2 c hc)) h'.2
    have hw : ∀ s, writtenHd { hx with style := s } = writtenHd { hd with style := s } := by
      intro s
      simp only [writtenHd, Hdr.mk.injEq]
      simp [hh]
    unfold written at *
    rw [setStyle, setStyle, hh.1]
    have hk := hy.1.1
    rcases hk with hk | hk | hk | hk <;> simp only [hk, mapHdr, Node.mk.injEq]
    · exact ⟨by simpa [hh.1, hk] using hw s, hcs⟩
    · exact ⟨by simpa [hh.1, hk] using hw s, hcs⟩
    · have h0 : cs = [] := by have := hy.2.1; rw [hk] at this; simpa [Shaped] using this
      subst h0
      have : cx = [] := by simpa using hl
      subst this
      exact ⟨by simpa [hh.1, hk] using hw s, rfl⟩
    · exact ⟨by simpa [hh.1, hk] using hw s, hcs⟩

theorem setStyle_doc_written (s : Nat) {x y : Node} (h : Alike x y) (hy : ValidDocument y) :
    written (setStyle s x) = written (setStyle s y) := by
  obtain ⟨hx, cx⟩ := x
  obtain ⟨hd, cs⟩ := y
  have h' := (alike_iff _ _).1 h
  simp only [Node.hd_mk, Node.content_mk] at h'
  have hh := (plainHd_iff _ _).1 h'.1
  obtain ⟨h1, h2, h3⟩ := hy
  simp only [Node.hd_mk, Node.content_mk] at h1 h2 h3
  have hcs : mapHdrs writtenHd (setStyles s cx) = mapHdrs writtenHd (setStyles s cs) := by
    clear h2 h
    replace h' := h'.2
    induction cs generalizing cx with
    | nil => have : cx = [] := by simpa using h'
             subst this; rfl
    | cons c cs ihc =>
      cases cx with
      | nil => simp at h'
      | cons x cx =>
        simp only [List.map_cons, List.cons.injEq] at h'
        simp only [setStyles, mapHdrs]
        have h1 := setStyle_written s (x := x) h'.1 (h3 c (by simp))
        unfold written at h1
        rw [h1, ihc cx (fun c hc' => h3 c (by simp [hc'])) h'.2]
  unfold written
  rw [setStyle, setStyle, hh.1, h1]
  simp only [mapHdr, Node.mk.injEq]
  refine ⟨?_, hcs⟩
  simp only [writtenHd, Hdr.mk.injEq]
  simp [hh]

theorem rendering_alike (emit : Bool → Node → Res Err Str) (style : List Str) (hemit : ∀ b x y, written x = written y → emit b x = emit b y)
    (docs docs' : List Node) (h : List.Forall₂ Alike docs' docs) (hv : ∀ d ∈ docs, ValidDocument d) :
    rendering emit style docs' = rendering emit style docs := by
  unfold rendering encodeNodes
  generalize getStyle (getStyleFromConfig style) = s
  congr 1
  have : ∀ (i : Nat) (w : Bool), encodeLoop emit s i w docs' = encodeLoop emit s i w docs := by
    induction h with
    | nil => intro i w; rfl
    | @cons a b as bs hab _ ih =>
      intro i w
      have hc : a.content.isEmpty = b.content.isEmpty := by
        have := congrArg List.length ((alike_iff _ _).1 hab).2
        simp only [List.length_map] at this
        cases ha : a.content <;> cases hb : b.content <;> simp [ha, hb] at this ⊢
      have ih' := ih (fun d hd => hv d (by simp [hd]))
      rw [encodeLoop, encodeLoop, hc, ih', ih', hemit _ _ _ (setStyle_doc_written s hab (hv b (by simp)))]
  exact this 0 false

theorem applyItems_plain (E : Sed) (dflt : Str) (ps : List (List Str × Overlay)) (hdq : ∀ p ∈ ps, p.2.documentQuery = []) :
    ∀ d, applyItems E dflt (ps.map (fun x => some { base := x.2 })) d = Spec.applyAll E dflt (ps.map (·.2)) d := by
  induction ps with
  | nil => intro d; rfl
  | cons p ps ih =>
    intro d
    simp only [List.map_cons, applyItems, Spec.applyAll]
    have : DOverlay.apply E dflt { base := p.2 } d.label = applyJob E dflt p.2 d := by
      have h0 := hdq p (by simp)
      unfold DOverlay.apply applyJob
      simp only [checkQueriesN, DOverlay.usesNilPath, Bool.false_and, Bool.false_eq_true, if_false]
      rw [← h0]
      rfl
    rw [this]
    cases applyJob E dflt p.2 d with
    | ok x => exact ih (fun p hp => hdq p (by simp [hp])) x
    | err e => rfl
    | panic => rfl

theorem choose_list {α β : Type} (l : List α) : ∀ (R : Nat → α → β → Prop), (∀ i a, l[i]? = some a → ∃ b, R i a b) →
    ∃ l' : List β, l'.length = l.length ∧ ∀ i a, l[i]? = some a → ∃ b, l'[i]? = some b ∧ R i a b := by
  induction l with
  | nil => intro R _; exact ⟨[], rfl, by simp⟩
  | cons a l ih =>
    intro R h
    obtain ⟨b, hb⟩ := h 0 a (by simp)
    obtain ⟨l', h1, h2⟩ := ih (fun i => R (i + 1)) (fun i a ha => h (i + 1) a (by simpa using ha))
    refine ⟨b :: l', by simp [h1], ?_⟩
    intro i x hx
    cases i with
    | zero => simp only [List.getElem?_cons_zero, Option.some.injEq] at hx; subst hx; exact ⟨b, by simp, hb⟩
    | succ i => simp only [List.getElem?_cons_succ] at hx ⊢; exact h2 i x hx

theorem fileResult_unique {T : Task} {P : Setup} {p : Str} {docs docs' : List Node} (h : T.FileResult P p docs) (h' : T.FileResult P p docs') :
    docs = docs' := by
  apply List.ext_getElem?
  intro i
  cases hi : (T.contents P p)[i]? with
  | none =>
    have hle := List.getElem?_eq_none_iff.1 hi
    rw [List.getElem?_eq_none (by rw [h.1]; exact hle), List.getElem?_eq_none (by rw [h'.1]; exact hle)]
  | some d =>
    obtain ⟨a, e1, e2⟩ := h.2 i d hi
    obtain ⟨b, e3, e4⟩ := h'.2 i d hi
    rw [e2] at e4
    cases e4
    rw [e1, e3]

/-- **C85**: run again on what it wrote (or a copy, with the same overlays for it), yot writes the
same text again, if what the YAML library reads from a text differs at most in styles from what
was written, and if what it writes depends on nothing but kinds, tags, texts, anchors, comments
and styles. -/
theorem C85_run (T T' : Task) (P P' : Setup) (p p' : Str) (docs : List Node) (hres : T.FileResult P p docs)
    (hin : ∀ d ∈ T.contents P p, ValidDocument d ∧ d.content ≠ [])
    (hov : ∀ i, ∃ ps : List (List Str × Overlay), T.overlaysOn P p i = ps.map (fun x => some { base := x.2 }) ∧
      (∀ x ∈ ps, Repeatable P.dflt x.1 x.2) ∧ ps.Pairwise (fun x y => Unrelated x.1 y.1))
    (hset : P'.sed = P.sed ∧ P'.dflt = P.dflt ∧ P'.emit = P.emit ∧ P'.style = P.style)
    (hov' : ∀ i, T'.overlaysOn P' p' i = T.overlaysOn P p i)
    (hread : List.Forall₂ Alike (T'.contents P' p') docs)
    (hemit : ∀ b x y, written x = written y → P.emit b x = P.emit b y) :
    (∃ docs', T'.FileResult P' p' docs') ∧
    ∀ docs', T'.FileResult P' p' docs' → rendering P'.emit P'.style docs' = rendering P.emit P.style docs := by
  obtain ⟨s1, s2, s3, s4⟩ := hset
  obtain ⟨hlen, hdocs⟩ := hres
  have hlen' := hread.length_eq
  have hvd : ∀ i d1, docs[i]? = some d1 → ∃ d, (T.contents P p)[i]? = some d ∧ applyItems P.sed P.dflt (T.overlaysOn P p i) d = .ok d1 := by
    intro i d1 hd1
    have hi : i < docs.length := (List.getElem?_eq_some_iff.1 hd1).1
    obtain ⟨d, hd⟩ : ∃ d, (T.contents P p)[i]? = some d := ⟨_, List.getElem?_eq_getElem (by omega)⟩
    obtain ⟨d', e1, e2⟩ := hdocs i d hd
    rw [hd1] at e1
    cases e1
    exact ⟨d, hd, e2⟩
  have hstep : ∀ i d2, (T'.contents P' p')[i]? = some d2 →
      ∃ d3, applyItems P'.sed P'.dflt (T'.overlaysOn P' p' i) d2 = .ok d3 ∧ ∀ d1, docs[i]? = some d1 → Alike d3 d1 := by
    intro i d2 hd2
    have hi : i < (T'.contents P' p').length := (List.getElem?_eq_some_iff.1 hd2).1
    obtain ⟨d1, hd1⟩ : ∃ d1, docs[i]? = some d1 := ⟨_, List.getElem?_eq_getElem (by omega)⟩
    obtain ⟨d, hd, he⟩ := hvd i d1 hd1
    obtain ⟨v1, v2⟩ := hin d (List.mem_of_getElem? hd)
    obtain ⟨ps, o1, o2, o3⟩ := hov i
    have ha : Alike d2 d1 := by
      have := hread.get hi (by omega : i < docs.length)
      rw [List.getElem?_eq_getElem hi] at hd2
      rw [List.getElem?_eq_getElem (by omega)] at hd1
      cases hd1; cases hd2
      exact this
    rw [o1, applyItems_plain _ _ _ (fun x hx => (o2 x hx).noDocumentQuery)] at he
    obtain ⟨d3, e1, e2⟩ := C85_again P.sed P.dflt ps o2 o3 d d1 d2 v1 v2 he ha
    refine ⟨d3, ?_, ?_⟩
    · rw [hov' i, o1, s1, s2, applyItems_plain _ _ _ (fun x hx => (o2 x hx).noDocumentQuery)]
      exact e1
    · intro x hx
      rw [hd1] at hx
      cases hx
      exact e2
  obtain ⟨docs', l1, l2⟩ := choose_list _ _ hstep
  have hfr : T'.FileResult P' p' docs' := by
    refine ⟨l1, fun i d hd => ?_⟩
    obtain ⟨b, e1, e2, _⟩ := l2 i d hd
    exact ⟨b, e1, e2⟩
  refine ⟨⟨docs', hfr⟩, fun docs'' hd'' => ?_⟩
  · rw [fileResult_unique hd'' hfr, s3, s4]
    refine rendering_alike P.emit P.style hemit docs docs' ?_ ?_
    · rw [List.forall₂_iff_get]
      refine ⟨by omega, ?_⟩
      intro i h1 h2
      obtain ⟨d2, hd2⟩ : ∃ d2, (T'.contents P' p')[i]? = some d2 := ⟨_, List.getElem?_eq_getElem (by omega)⟩
      obtain ⟨b, e1, _, e3⟩ := l2 i d2 hd2
      have := e3 _ (List.getElem?_eq_getElem h2)
      rw [List.getElem?_eq_getElem h1] at e1
      cases e1
      exact this
    · intro d1 hd1
      obtain ⟨i, hi⟩ := List.mem_iff_getElem?.1 hd1
      obtain ⟨d, hd, he⟩ := hvd i d1 hi
      obtain ⟨ps, o1, o2, _⟩ := hov i
      refine applyItems_valid P.sed P.dflt _ ?_ d d1 (hin d (List.mem_of_getElem? hd)).1 he
      intro o ho
      rw [o1, List.mem_map] at ho
      obtain ⟨x, hx, e⟩ := ho
      cases e
      exact (o2 x hx).proper

/-! A case: a merge, a deletion, an injection and a replacement. -/

/-- Overlays on `{a: {x: 1, y: 2}, b: 3}`. -/
def againEx : List (List Str × Overlay) :=
  [([c!"a", c!"x"], { query := [⟨c!"a.x", findNames [c!"a", c!"x"]⟩], value := mp [sc c!"k", sc c!"v"], action := .merge }),
   ([c!"a", c!"y"], { query := [⟨c!"a.y", findNames [c!"a", c!"y"]⟩], action := .delete }),
   ([c!"c", c!"d"], { query := [⟨c!"c.d", findNames [c!"c", c!"d"]⟩], value := mp [sc c!"m", sc c!"n"], action := .merge, onMissing := { action := .inject } }),
   ([c!"b"], { query := [⟨c!"b", findNames [c!"b"]⟩], value := sq [sc c!"n"], action := .replace })]

example : (∀ p ∈ againEx, Repeatable c!"" p.1 p.2) ∧ againEx.Pairwise (fun p p' => Unrelated p.1 p'.1) ∧
    (let d := dc (mp [sc c!"a", mp [sc c!"x", sc c!"1", sc c!"y", sc c!"2"], sc c!"b", sc c!"3"])
     ValidDocument d ∧ d.content ≠ [] ∧
     outKeys (Spec.applyAll noSed c!"" (againEx.map (·.2)) d) = some [(.mapping, [c!"a", c!"b", c!"c"])]) := by
  refine ⟨?_, ?_, ?_, ?_, ?_⟩
  · have hni : ¬ Injects c!"" ({} : OnMissing) := by simp [Injects, Effective, AnyCase]; try decide
    intro p hp
    simp only [againEx, List.mem_cons, List.not_mem_nil, or_false] at hp
    rcases hp with rfl | rfl | rfl | rfl
    · refine ⟨rfl, .inr (.inr ⟨rfl, ?_, ?_, ?_⟩), _, rfl, rfl, fun h => absurd h hni⟩
      · simp [mp, sc, ValidNode, ValidNodes, ValidHdr, TagFits, Shaped, scalarTags, keys, pairs]
      · simp [mp, sc, ScalarsAndMaps, ScalarsAndMapsE, keys, pairs]
      · simp only [mp, sc, AllNodes, AllNodess, OnStrings]; decide
    · exact ⟨rfl, .inl rfl, _, rfl, rfl, fun h => absurd h hni⟩
    · refine ⟨rfl, .inr (.inr ⟨rfl, ?_, ?_, ?_⟩), _, rfl, rfl, fun _ => ⟨by decide, rfl, .inr ⟨c!"c", [c!"d"], rfl, ?_, by decide, rfl⟩, ?_⟩⟩
      · simp [mp, sc, ValidNode, ValidNodes, ValidHdr, TagFits, Shaped, scalarTags, keys, pairs]
      · simp [mp, sc, ScalarsAndMaps, ScalarsAndMapsE, keys, pairs]
      · simp only [mp, sc, AllNodes, AllNodess, OnStrings]; decide
      · intro k hk
        simp only [List.mem_cons, List.not_mem_nil, or_false] at hk
        rcases hk with rfl | rfl <;> exact ⟨⟨by decide, by decide⟩, by decide⟩
      · intro k hk
        simp only [List.mem_cons, List.not_mem_nil, or_false] at hk
        rcases hk with rfl | rfl <;> decide
    · refine ⟨rfl, .inr (.inl ⟨rfl, ?_, ?_⟩), _, rfl, rfl, fun h => absurd h hni⟩
      · simp [sq, sc, ValidNode, ValidNodes, ValidHdr, TagFits, Shaped, scalarTags]
      · decide
  · simp only [againEx, Unrelated]
    decide
  · simp [dc, mp, sc, ValidDocument, ValidNode, ValidNodes, ValidHdr, TagFits, Shaped, scalarTags, keys, pairs]
  · decide
  · decide +kernel

/-- A run on `/w/x.yaml` that holds `{k: old}`, and a second one that finds there what the first
wrote. -/
def Ex.againTask : Task where
  common := [some { base := { query := [⟨c!"k", findNames [c!"k"]⟩], value := sc c!"new", action := .replace } }]
  files := [{ path := c!"x.yaml" }]
  cli := none

/-- The first run. -/
def Ex.againFirst : Setup := { Ex.setup with read1 := fun _ => some [dc (mp [sc c!"k", sc c!"old"])], adHocPath := [], adHoc := none }
/-- The second run: the same but for what is read. -/
def Ex.againSecond : Setup := { Ex.againFirst with read1 := fun _ => some [dc (mp [.mk { (sc c!"k").hd with style := 8 } [], sc c!"new"])] }

/-- The hypotheses of `C85_run` are met, with these texts. -/
example : ∃ docs, Ex.againTask.FileResult Ex.againFirst c!"/w/x.yaml" docs ∧
    rendering Ex.againFirst.emit Ex.againFirst.style docs = .ok (some c!"---\n k new") ∧
    (∀ d ∈ Ex.againTask.contents Ex.againFirst c!"/w/x.yaml", ValidDocument d ∧ d.content ≠ []) ∧
    (∀ i, ∃ ps : List (List Str × Overlay), Ex.againTask.overlaysOn Ex.againFirst c!"/w/x.yaml" i = ps.map (fun x => some { base := x.2 }) ∧
      (∀ x ∈ ps, Repeatable Ex.againFirst.dflt x.1 x.2) ∧ ps.Pairwise (fun x y => Unrelated x.1 y.1)) ∧
    (∀ i, Ex.againTask.overlaysOn Ex.againSecond c!"/w/x.yaml" i = Ex.againTask.overlaysOn Ex.againFirst c!"/w/x.yaml" i) ∧
    List.Forall₂ Alike (Ex.againTask.contents Ex.againSecond c!"/w/x.yaml") docs := by
  have hov : ∀ i, Ex.againTask.overlaysOn Ex.againFirst c!"/w/x.yaml" i = Ex.againTask.common := by
    intro i
    rfl
  have hc : Ex.againTask.contents Ex.againFirst c!"/w/x.yaml" = [dc (mp [sc c!"k", sc c!"old"])] := by decide +kernel
  let out : Node := match applyItems noSed c!"%v" Ex.againTask.common (dc (mp [sc c!"k", sc c!"old"])) with
    | .ok d => d
    | _ => .mk {} []
  refine ⟨[out], ⟨by rw [hc]; rfl, ?_⟩, by decide +kernel, ?_, ?_, fun i => rfl, ?_⟩
  · intro i d hd
    rw [hc] at hd
    match i with
    | 0 => cases hd; exact ⟨out, rfl, by rw [hov]; decide +kernel⟩
    | i + 1 => cases hd
  · rw [hc]
    simp [dc, mp, sc, ValidDocument, ValidNode, ValidNodes, ValidHdr, TagFits, Shaped, scalarTags, keys, pairs]
  · intro i
    refine ⟨[([c!"k"], { query := [⟨c!"k", findNames [c!"k"]⟩], value := sc c!"new", action := .replace })], hov i, ?_, by simp⟩
    intro x hx
    simp only [List.mem_singleton] at hx
    subst hx
    refine ⟨rfl, .inr (.inl ⟨rfl, ?_, by decide⟩), _, rfl, rfl, fun h => absurd h ?_⟩
    · simp [sc, ValidNode, ValidNodes, ValidHdr, TagFits, Shaped]
    · simp [Injects, Effective, AnyCase, Ex.againFirst, Ex.setup]; try decide
  · have : Ex.againTask.contents Ex.againSecond c!"/w/x.yaml" = [dc (mp [.mk { (sc c!"k").hd with style := 8 } [], sc c!"new"])] := by decide +kernel
    rw [this]
    refine .cons ?_ .nil
    unfold Alike
    decide +kernel

/-- What C85 leaves out does grow: merging sequences adds their elements again, `%v` takes what
was written the first time, and of two overlays at related paths the second can make what the
first finds in the next run. -/
theorem C85_limits :
    (let o : Overlay := { query := [⟨c!"a", findNames [c!"a"]⟩], value := sq [sc c!"2"], action := .merge }
     let d := dc (mp [sc c!"a", sq [sc c!"1"]])
     tree (Spec.applyAll noSed c!"" [o] d) = some (dc (mp [sc c!"a", sq [sc c!"1", sc c!"2"]])) ∧
     tree (Spec.applyAll noSed c!"" [o, o] d) = some (dc (mp [sc c!"a", sq [sc c!"1", sc c!"2", sc c!"2"]]))) ∧
    (let o : Overlay := { query := [⟨c!"a", findNames [c!"a"]⟩], value := sc c!"x%v", action := .merge }
     let d := dc (mp [sc c!"a", sc c!"1"])
     tree (Spec.applyAll noSed c!"" [o] d) = some (dc (mp [sc c!"a", sc c!"x1"])) ∧
     tree (Spec.applyAll noSed c!"" [o, o] d) = some (dc (mp [sc c!"a", sc c!"xx1"]))) ∧
    (let o : Overlay := { query := [⟨c!"a.b", findNames [c!"a", c!"b"]⟩], value := mp [sc c!"z", sc c!"1"], action := .merge }
     let o' : Overlay := { query := [⟨c!"a", findNames [c!"a"]⟩], value := mp [sc c!"b", mp [sc c!"c", sc c!"1"]], action := .merge }
     let d := dc (mp [sc c!"a", mp []])
     tree (Spec.applyAll noSed c!"" [o, o'] d) = some (dc (mp [sc c!"a", mp [sc c!"b", mp [sc c!"c", sc c!"1"]]])) ∧
     tree (Spec.applyAll noSed c!"" [o, o', o, o'] d) =
       some (dc (mp [sc c!"a", mp [sc c!"b", mp [sc c!"c", sc c!"1", sc c!"z", sc c!"1"]]]))) := by
  refine ⟨⟨?_, ?_⟩, ⟨?_, ?_⟩, ?_, ?_⟩ <;> decide +kernel

end Yot
