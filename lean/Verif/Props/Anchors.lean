import Verif.Lemmas.Anchors
import Verif.Lemmas.Nil
import Verif.Spec.Anchors
import Verif.Spec.FromFile
import Verif.Spec.Build
import Verif.Spec.Inject
import Verif.Spec.Query
import Verif.Props.Edits
import Verif.Lemmas.HeapMerge
/-
C71: anchors and aliases.
-/
namespace Yot
open Spec Ex

theorem applyItems_marks (E : Sed) (dflt : Str) (os : List (Option DOverlay)) (hv : ∀ o, some o ∈ os → marks o.base.value = [])
    (d d' : Node) (h : applyItems E dflt os d = .ok d') : (marks d').Sublist (marks d) := by
  induction os generalizing d with
  | nil => cases h; exact List.Sublist.refl _
  | cons o os ih =>
    cases o with
    | none => cases h
    | some o =>
      simp only [applyItems, Res.bind_eq_ok] at h
      obtain ⟨d1, h1, h2⟩ := h
      refine (ih (fun x hx => hv x (by simp [hx])) d1 h2).trans ?_
      rw [DOverlay.apply_eq] at h1
      split at h1
      · cases h1
      · exact applyJob_marks E dflt o.plain (hv o (by simp)) d d1 h1

/-- C71: whatever the overlays do (any actions, queries, injections), when their values
have no anchors and no aliases the anchors and aliases of a resulting document are some of
those of the input document, in the same order, however comments are removed on the way. -/
theorem C71_nothing_added (T : Task) (P : Setup) (p : Str) (docs : List Node) (h : T.FileResult P p docs)
    (hv : ∀ i, ∀ o, some o ∈ T.overlaysOn P p i → marks o.base.value = []) (i : Nat) (d d' : Node)
    (hd : (T.contents P p)[i]? = some d) (hd' : docs[i]? = some d') : (marks d').Sublist (marks d) := by
  obtain ⟨x, hx, ha⟩ := h.2 i d hd
  rw [hd', Option.some.injEq] at hx
  subst hx
  exact applyItems_marks P.sed P.dflt _ (hv i) d d' ha

/-- C71: removing comments and setting a style leave anchors and aliases alone. -/
theorem C71_output_options (n : Node) (s : Nat) : marks (removeComments n) = marks n ∧ marks (setStyle s n) = marks n :=
  ⟨removeComments_marks n, setStyle_marks s n⟩

theorem resolved_sublist {l l' : List Mark} (hs : l'.Sublist l) (ha : anchorsOf l' = anchorsOf l) (hr : Resolved l) : Resolved l' := by
  have key : ∀ {l l' : List Mark}, l'.Sublist l → anchorsOf l' = anchorsOf l → ∀ pre' a post', l' = pre' ++ .alias a :: post' →
      ∃ pre post, l = pre ++ .alias a :: post ∧ anchorsOf pre' = anchorsOf pre := by
    intro l l' hs
    induction hs with
    | slnil => intro _ pre' a post' h; simp at h
    | @cons l₁ l₂ x hs ih =>
      intro ha pre' a post' h
      have hle : (anchorsOf l₁).length ≤ (anchorsOf l₂).length := (hs.filter _).length_le
      cases x with
      | anchor nm =>
        exfalso
        rw [ha] at hle
        simp only [anchorsOf, List.filter_cons, if_true, List.length_cons] at hle
        omega
      | «alias» nm =>
        have ha' : anchorsOf l₁ = anchorsOf l₂ := by simpa [anchorsOf] using ha
        obtain ⟨pre, post, h1, h2⟩ := ih ha' pre' a post' h
        exact ⟨.alias nm :: pre, post, by rw [h1]; rfl, by simpa [anchorsOf] using h2⟩
    | @cons_cons l₁ l₂ x hs ih =>
      intro ha pre' a post' h
      cases pre' with
      | nil =>
        simp only [List.nil_append, List.cons.injEq] at h
        obtain ⟨rfl, rfl⟩ := h
        exact ⟨[], l₂, rfl, rfl⟩
      | cons y pre' =>
        simp only [List.cons_append, List.cons.injEq] at h
        obtain ⟨rfl, h⟩ := h
        have ha' : anchorsOf l₁ = anchorsOf l₂ := by
          cases x <;> simpa [anchorsOf] using ha
        obtain ⟨pre, post, h1, h2⟩ := ih ha' pre' a post' h
        refine ⟨x :: pre, post, by rw [h1]; rfl, ?_⟩
        cases x <;> simpa [anchorsOf] using h2
  intro pre' a post' h
  obtain ⟨pre, post, h1, h2⟩ := key hs ha pre' a post' h
  have hm := hr pre a post h1
  have : Mark.anchor a ∈ anchorsOf pre := by simp [anchorsOf, hm]
  rw [← h2] at this
  exact (List.mem_filter.1 this).1

/-- C71 (partial): when moreover no anchor went away, every alias of the result refers to an
anchor before it, as in the input. -/
theorem C71_aliases_resolve_partial (T : Task) (P : Setup) (p : Str) (docs : List Node) (h : T.FileResult P p docs)
    (hv : ∀ i, ∀ o, some o ∈ T.overlaysOn P p i → marks o.base.value = []) (i : Nat) (d d' : Node)
    (hd : (T.contents P p)[i]? = some d) (hd' : docs[i]? = some d') (hr : Resolved (marks d))
    (ha : anchorsOf (marks d') = anchorsOf (marks d)) : Resolved (marks d') :=
  resolved_sublist (C71_nothing_added T P p docs h hv i d d' hd hd') ha hr

/-! ### Merging keeps everything -/

theorem mergeScalar_marks_eq (E : Sed) (o : Node) (n : Hdr) (vals : List Str) (hk : o.hd.kind = .scalar) :
    marks (mergeScalar E o n vals) = marks o := by
  have hkc : (mergeComments E o.hd n vals).kind = .scalar := by rw [mergeComments_keepKind, hk]
  unfold mergeScalar
  dsimp only
  rw [if_neg (by simp [hk]), marks_mk, marks_hd o, ← mergeComments_mark E o.hd n vals]
  unfold markOf
  simp [hkc]

theorem pairs_append_even (xs ys : List Node) (h : xs.length % 2 = 0) : pairs (xs ++ ys) = pairs xs ++ pairs ys := by
  induction xs using pairInduction with
  | h0 => rfl
  | h1 a => simp at h
  | h2 k v cs ih => simp only [List.cons_append, pairs]; rw [ih (by simp at h; omega)]

/-- One key of the overlay's value in a mapping. -/
theorem mergeInner_fits (E : Sed) (f : Node → Str → Res Err Node) (nk : Hdr) (hnm : NoMarker nk.value)
    (cs : List Node) (hf : ∀ e ∈ pairs cs, e.1.hd.value = nk.value → ∃ x', f e.2 e.1.hd.value = .ok x' ∧ marks x' = marks e.2) :
    ∃ cs' b, mergeInner E f nk cs = .ok (cs', b) ∧ cs'.flatMap marks = cs.flatMap marks ∧ cs'.length = cs.length ∧
      (∀ e ∈ pairs cs', e.1.hd.value ≠ nk.value → e ∈ pairs cs) := by
  have hcm : checkForMarkers nk.value = false := (checkForMarkers_iff _).2 hnm
  induction cs using pairInduction with
  | h0 => exact ⟨[], false, rfl, rfl, rfl, by simp [pairs]⟩
  | h1 a => exact ⟨[a], false, rfl, rfl, rfl, by simp [pairs]⟩
  | h2 k v cs ih =>
    rw [mergeInner]
    simp only [hcm, Bool.not_false, Bool.true_and, ne_eq, decide_not, Bool.not_eq_eq_eq_not, Bool.not_true, decide_eq_false_iff_not]
    by_cases hkv : k.hd.value = nk.value
    · obtain ⟨x', hx, hmx⟩ := hf (k, v) (by simp [pairs]) hkv
      dsimp only at hx hmx
      simp only [hkv, not_true_eq_false, if_false, if_true]
      rw [hkv] at hx
      simp only [hx, Res.bind_ok, Res.pure_eq]
      refine ⟨_, true, rfl, ?_, by simp, ?_⟩
      · simp only [List.flatMap_cons, hmx]
        rw [marks_mk, mergeComments_mark, ← marks_hd]
      · intro e he hne
        simp only [pairs, List.mem_cons] at he ⊢
        rcases he with rfl | he
        · exfalso
          apply hne
          simp only [Node.hd_mk]
          rw [← hkv]
          unfold mergeComments
          dsimp only
          repeat' split
          all_goals rfl
        · exact Or.inr he
    · obtain ⟨cs', b, h1, h2, h3, h4⟩ := ih (fun e he => hf e (by simp [pairs, he]))
      simp only [hkv, not_false_eq_true, if_true, h1, Res.bind_ok, Res.pure_eq]
      refine ⟨_, b, rfl, by simp only [List.flatMap_cons, h2], by simp [h3], ?_⟩
      intro e he hne
      simp only [pairs, List.mem_cons] at he ⊢
      rcases he with rfl | he
      · exact Or.inl rfl
      · exact Or.inr (h4 e he hne)

theorem merge_fits (E : Sed) (n : Node) : marks n = [] → ∀ (o : Node) (vals : List Str), Fits o n →
    ∃ o', merge E o vals n = .ok o' ∧ marks o' = marks o := by
  induction n using Node.ind with
  | h nh ncs ih =>
    intro hn o vals hfit
    rw [marks_mk, List.append_eq_nil_iff, flatMap_marks_nil] at hn
    cases hfit with
    | scalar ho hk =>
      refine ⟨_, merge_scalar E o vals hk, ?_⟩
      have : ∀ (x : Node) (t : Str), marks (.mk { x.hd with tag := t } x.content) = marks x := by
        intro x t
        rw [marks_mk, marks_hd x]
        rfl
      rw [this]
      exact mergeScalar_marks_eq E o nh vals ho
    | sequence ho hk =>
      refine ⟨_, merge_sequence E o vals hk, ?_⟩
      have h1 : toSequence o = o := by unfold toSequence; simp [ho]
      unfold mergeArray
      dsimp only
      rw [h1]
      split
      · rfl
      · rw [addNode_marks E _ _ (by simpa using hn.2), marks_mk, mergeComments_mark, ← marks_hd]
    | mapping ho he hk hnd hm hv =>
      rw [merge_mapping E o vals (show nh.kind = .mapping from hk)]
      simp only [Node.content_mk] at hnd hm hv
      have key : ∀ ds : List Node, (∀ c ∈ ds, c ∈ ncs) → (keys ds).Nodup → (∀ k ∈ keys ds, NoMarker k) → ∀ o : Node,
          o.hd.kind = .mapping → o.content.length % 2 = 0 →
          (∀ e ∈ pairs ds, ∀ e' ∈ pairs o.content, e'.1.hd.value = e.1.hd.value → Fits e'.2 e.2) →
          ∃ o', mergeEntries E o ds = .ok o' ∧ marks o' = marks o := by
        intro ds
        induction ds using pairInduction with
        | h0 => intro _ _ _ o _ _ _; exact ⟨o, rfl, rfl⟩
        | h1 a => intro _ _ _ o _ _ _; exact ⟨o, rfl, rfl⟩
        | h2 k v ds ihd =>
          intro hsub hnd hm o ho he hv
          have hto : toMapping o = o := by unfold toMapping; simp [ho]
          simp only [keys, pairs, List.map_cons, List.nodup_cons, List.mem_cons, forall_eq_or_imp] at hnd hm hv
          obtain ⟨cs', b, h1, h2, h3, h4⟩ := mergeInner_fits E (fun x key => merge E x [key] v) k.hd hm.1 o.content
            (fun e hem hek => ih v (hsub v (by simp)) (hn.2 v (hsub v (by simp))) e.2 [e.1.hd.value] (hv.1 e hem hek))
          simp only [mergeEntries, hto, h1, Res.bind_ok]
          have hbase : marks (.mk o.hd cs') = marks o := by rw [marks_mk, h2, ← marks_hd]
          cases b with
          | true =>
            simp only [if_true]
            obtain ⟨o', ho', hmo⟩ := ihd (fun c hc => hsub c (by simp [hc])) hnd.2 hm.2 (.mk o.hd cs') ho (by simpa [h3] using he) (by
              intro e hem e' hem' hee
              have hne : e'.1.hd.value ≠ k.hd.value := by
                intro hc
                exact hnd.1 (List.mem_map.2 ⟨e, hem, by rw [← hee, hc]⟩)
              exact hv.2 e hem e' (h4 e' hem' hne) hee)
            exact ⟨o', ho', hmo.trans hbase⟩
          | false =>
            simp only [Bool.false_eq_true, if_false]
            have hadd : addNode E (.mk o.hd cs') [k, v] = .mk { o.hd with nilc := false } (cs' ++ [sanitizeNode E k.fresh, sanitizeNode E v.fresh]) := by
              simp [addNode, appendContent, sanitizeNodes, Node.freshs]
            have hsk : (sanitizeNode E k.fresh).hd.value = k.hd.value := by
              obtain ⟨kh, kcs⟩ := k
              simp only [Node.fresh, sanitizeNode, Node.hd_mk, sanitizeHdr]
              exact format_id E _ hm.1
            obtain ⟨o', ho', hmo⟩ := ihd (fun c hc => hsub c (by simp [hc])) hnd.2 hm.2 (addNode E (.mk o.hd cs') [k, v])
              (by rw [hadd]; exact ho) (by rw [hadd]; simp [h3]; omega) (by
              intro e hem e' hem' hee
              have hne : e'.1.hd.value ≠ k.hd.value := by
                intro hc
                exact hnd.1 (List.mem_map.2 ⟨e, hem, by rw [← hee, hc]⟩)
              rw [hadd] at hem'
              simp only [Node.content_mk] at hem'
              rw [pairs_append_even _ _ (by rw [h3]; exact he)] at hem'
              rcases List.mem_append.1 hem' with hem' | hem'
              · exact hv.2 e hem e' (h4 e' hem' hne) hee
              · simp only [pairs, List.mem_cons, List.not_mem_nil, or_false] at hem'
                subst hem'
                exact absurd hsk hne)
            refine ⟨o', ho', hmo.trans ?_⟩
            rw [addNode_marks, hbase]
            intro c hc
            simp only [List.mem_cons, List.not_mem_nil, or_false] at hc
            rcases hc with rfl | rfl
            · exact hn.2 _ (hsub _ (by simp))
            · exact hn.2 _ (hsub _ (by simp))
      exact key ncs (fun _ h => h) hnd hm o ho he hv

/-- C71: a merge that turns nothing into something else succeeds and keeps every anchor and
every alias of the node it goes into (the overlay's value having none). -/
theorem C71_merge_keeps (E : Sed) (o n : Node) (hn : marks n = []) (hf : Fits o n) :
    ∃ o', mergeNode E o n = .ok o' ∧ marks o' = marks o := merge_fits E n hn o [] hf

/-- C71: so does a combine, when it succeeds. -/
theorem C71_combine_keeps (E : Sed) (o n o' : Node) (h : combineNode E o n = .ok o') : marks o' = marks o :=
  combine_marks E o n o' h

/-- C71: a replaced node has the anchor, and the anchors and aliases inside, of the overlay's value, and
none of its own. -/
theorem C71_replace (E : Sed) (o n : Node) : marks (replaceNode E o n) = marks n := by
  rw [← fresh_marks n, marks_hd n.fresh]
  unfold replaceNode
  dsimp only
  rw [marks_mk]
  rfl

/-! ### Cases -/

/-- The document of the examples: `a: &x {k: 1}` and `b: *x`. -/
def Ex.anchored : Node :=
  mp [sc c!"a", .mk { kind := .mapping, tag := c!"!!map", anchor := c!"x", nilc := false } [sc c!"k", sc c!"1" c!"!!int"],
      sc c!"b", .mk { kind := .alias, value := c!"x", hasAlias := true, nilc := true } []]

/-- An overlay on the value of the key `a`. -/
def Ex.onA (a : Action) (v : Node) : Overlay := { query := [⟨c!"a", fun d => findNames [c!"a"] d⟩], action := a, value := v }

/-- C71, a case: the document has an anchor and an alias for it; the aliases resolve; merging
`{j: 2}` into the anchored mapping fits. -/
example : marks Ex.anchored = [.anchor c!"x", .alias c!"x"] := by decide

/-- C71: merging into the anchored mapping keeps both. -/
example : (tree (applyJob noSed c!"$.x" (Ex.onA .merge (mp [sc c!"j", sc c!"2" c!"!!int"])) (dc Ex.anchored))).map marks =
    some [.anchor c!"x", .alias c!"x"] := by decide

example : Fits Ex.anchored (mp [sc c!"a", mp [sc c!"j", sc c!"2"], sc c!"c", sc c!"3"]) := by
  refine .mapping rfl rfl rfl (by decide) (by decide) ?_
  intro e he e' he' hee
  simp only [Ex.anchored, mp, sc, Node.content_mk, pairs, List.mem_cons, List.not_mem_nil, or_false] at he he'
  rcases he with rfl | rfl <;> rcases he' with rfl | rfl
  · refine .mapping rfl rfl rfl (by decide) (by decide) ?_
    intro e he e' he' hee
    simp only [Node.content_mk, pairs, List.mem_cons, List.not_mem_nil, or_false] at he he'
    subst he he'
    simp at hee
  all_goals simp at hee

/-- C71 fails without the restrictions: replacing (1), deleting (2) or merging a scalar over a
node that has an anchor inside (3) can remove the anchor and leave its aliases, which no YAML
reader accepts; and a value with an alias of its own (4) is installed as it stands. -/
theorem C71_dangling_counterexample :
    (∃ d', applyJob noSed c!"$.x" (Ex.onA .replace (mp [])) (dc Ex.anchored) = .ok d' ∧ marks d' = [.alias c!"x"]) ∧
    (∃ d', applyJob noSed c!"$.x" (Ex.onA .delete (mp [])) (dc Ex.anchored) = .ok d' ∧ marks d' = [.alias c!"x"]) ∧
    (∃ d', applyJob noSed c!"$.x" (Ex.onA .merge (sc c!"s")) (dc (mp [sc c!"a", mp [sc c!"c", Ex.anchored.content.getD 1 (sc [])], sc c!"b",
      Ex.anchored.content.getD 3 (sc [])])) = .ok d' ∧ marks d' = [.alias c!"x"]) ∧
    (∃ d', applyJob noSed c!"$.x" (Ex.onA .replace (Ex.anchored.content.getD 3 (sc []))) (dc (mp [sc c!"a", sc c!"1"])) = .ok d' ∧
      marks d' = [.alias c!"x"]) ∧
    ¬ Resolved [.alias c!"x"] := by
  refine ⟨⟨_, rfl, by decide⟩, ⟨_, rfl, by decide⟩, ⟨_, rfl, by decide⟩, ⟨_, rfl, by decide⟩, ?_⟩
  intro h
  simpa using h [] c!"x" [] rfl

end Yot
