import Verif.Lemmas.Delete
import Verif.Props.Edits
/-
C11-C13: delete.
-/
namespace Yot
open Spec Ex

theorem doAction_delete {E : Sed} {o : Overlay} (ha : o.action = .delete) (root : Node) (nodes : List Node) :
    doAction E o root nodes = (addrsOf nodes).foldlM (fun r a => deleteNode a r) root := by
  unfold doAction
  have : (fun r (n : Node) => doOne E o r n.hd.addr) = fun r n => deleteNode n.hd.addr r := by
    funext r n; simp [doOne, ha]
  rw [this]
  clear this ha
  induction nodes generalizing root with
  | nil => rfl
  | cons n ns ih =>
    simp only [List.foldlM_cons, addrsOf, List.map_cons]
    cases deleteNode n.hd.addr root with
    | ok r => simpa [addrsOf] using ih r
    | err => rfl
    | panic => rfl

theorem delete_fold (root : Node) (hd : Decoded root) (as : List Nat) :
    as.foldlM (fun r a => deleteNode a r) root = .ok (prune (fun a => decide (a ∈ as)) root) := by
  have key : ∀ (as : List Nat) (m : Nat → Bool),
      as.foldlM (fun r a => deleteNode a r) (prune m root)
        = .ok (prune (fun a => m a || decide (a ∈ as)) root) := by
    intro as
    induction as with
    | nil => intro m; simp
    | cons a as ih =>
      intro m
      have hnd : (Node.addrss (prune m root).content).Nodup := by
        have h1 := (prune_addrs m root).nodup hd.distinct
        generalize prune m root = r at h1
        obtain ⟨h, cs⟩ := r
        simp only [Node.addrs, List.nodup_cons] at h1
        exact h1.2
      simp only [List.foldlM_cons, deleteNode_eq a _ (prune_wf m root hd.wf) (prune_nilOk m root hd.wf hd.nil) hnd,
        Res.bind_ok, prune_prune m _ root hd.wf]
      rw [ih]
      congr 2
      funext x
      simp only [List.mem_cons, Bool.or_assoc]
      by_cases h1 : x = a
      · simp [h1]
      · have : (x == a) = false := by simpa using h1
        simp [h1, this]
  have := key as (fun _ => false)
  rw [prune_none] at this
  simpa using this

/-- C11: deleting one match from a document gives exactly the document without
that match (`prune`): the element alone in a sequence or document, the whole entry
in a mapping, nothing else. -/
theorem C11_delete_removes_exactly_the_match (E : Sed) (o : Overlay) (ha : o.action = .delete)
    (root m : Node) (hd : Decoded root) :
    doAction E o root [m] = .ok (prune (fun a => a = m.hd.addr) root) := by
  rw [doAction_delete ha, delete_fold root hd]
  simp [addrsOf]

/-- The specification `prune` read at the place of the match: an element of a
sequence. -/
theorem C11_element (h : Hdr) (hk : h.kind = .sequence) (pre post : List Node) (c : Node)
    (hd : Decoded (.mk h (pre ++ c :: post))) :
    prune (fun a => a = c.hd.addr) (.mk h (pre ++ c :: post)) = .mk h (pre ++ post) := by
  have hnd := hd.distinct
  simp only [Node.addrs, addrss_eq, List.flatMap_append, List.flatMap_cons, List.nodup_cons,
    List.nodup_append] at hnd
  have hc := mem_addrs_self c
  have h1 : ∀ x ∈ pre, ∀ b ∈ x.addrs, decide (b = c.hd.addr) = false := by
    intro x hx b hb
    simp only [decide_eq_false_iff_not]
    rintro rfl
    exact hnd.2.2.2 _ (List.mem_flatMap.2 ⟨x, hx, hb⟩) _ (List.mem_append_left _ hc) rfl
  have h2 : ∀ x ∈ post, ∀ b ∈ x.addrs, decide (b = c.hd.addr) = false := by
    intro x hx b hb
    simp only [decide_eq_false_iff_not]
    rintro rfl
    exact hnd.2.2.1.2.2 _ hc _ (List.mem_flatMap.2 ⟨x, hx, hb⟩) rfl
  rw [prune_items _ _ _ (.inl hk), pruneItems_append, pruneItems_absent _ pre h1, pruneItems]
  simp [pruneItems_absent _ post h2]

/-- The specification `prune` read at the place of the match: an entry of a
mapping, matched by its value or by its key. -/
theorem C11_entry (h : Hdr) (hk : h.kind = .mapping) (pre post : List Node) (k v m : Node)
    (hpre : pre.length % 2 = 0) (hm : m = k ∨ m = v)
    (hd : Decoded (.mk h (pre ++ k :: v :: post))) :
    prune (fun a => a = m.hd.addr) (.mk h (pre ++ k :: v :: post)) = .mk h (pre ++ post) := by
  have hnd := hd.distinct
  simp only [Node.addrs, addrss_eq, List.flatMap_append, List.flatMap_cons, List.nodup_cons,
    List.nodup_append, List.mem_append] at hnd
  have hmm : m.hd.addr ∈ k.addrs ∨ m.hd.addr ∈ v.addrs := by
    rcases hm with rfl | rfl
    · exact .inl (mem_addrs_self m)
    · exact .inr (mem_addrs_self m)
  have h1 : ∀ x ∈ pre, ∀ b ∈ x.addrs, decide (b = m.hd.addr) = false := by
    intro x hx b hb
    simp only [decide_eq_false_iff_not]
    rintro rfl
    exact hnd.2.2.2 _ (List.mem_flatMap.2 ⟨x, hx, hb⟩) _ (by tauto) rfl
  have h2 : ∀ x ∈ post, ∀ b ∈ x.addrs, decide (b = m.hd.addr) = false := by
    intro x hx b hb
    simp only [decide_eq_false_iff_not]
    rintro rfl
    rcases hmm with hmm | hmm
    · exact hnd.2.2.1.2.2 _ hmm _ (.inr (List.mem_flatMap.2 ⟨x, hx, hb⟩)) rfl
    · exact hnd.2.2.1.2.1.2.2 _ hmm _ (List.mem_flatMap.2 ⟨x, hx, hb⟩) rfl
  rw [prune_entries _ _ _ (by simp [hk]), pruneEntries_append _ _ _ hpre, pruneEntries_absent _ pre h1,
    pruneEntries, pruneEntries_absent _ post h2]
  rcases hm with rfl | rfl <;> simp

example :
    let doc := (dc (mp [sc c!"a", sq [sc c!"x", sc c!"y"], sc c!"b", sc c!"2"])).label
    let y := doc.content.head!.content[1]!.content[1]!
    let b := doc.content.head!.content[3]!
    let o : Overlay := { action := .delete }
    Decoded doc ∧
    tree (doAction noSed o doc [y]) = some (dc (mp [sc c!"a", sq [sc c!"x"], sc c!"b", sc c!"2"])) ∧
    tree (doAction noSed o doc [b]) = some (dc (mp [sc c!"a", sq [sc c!"x", sc c!"y"]])) := by
  refine ⟨⟨?_, ?_, label_nodup _⟩, by decide, by decide⟩
  · apply label_wf; simp [Ex.dc, Ex.mp, Ex.sq, Ex.sc, WellFormed, WellFormeds, Shaped]
  · apply label_nilOk; simp [Ex.dc, Ex.mp, Ex.sq, Ex.sc, NilOk, NilOks]

/-! ### C12 -/

theorem deleteScan_wf (a : Nat) (cs : List Node)
    (ih : ∀ c ∈ cs, ∃ c', deleteNode a c = .ok c' ∧ WellFormed c') (hcs : ∀ c ∈ cs, WellFormed c) :
    ∃ cs' i, deleteScan a cs = .ok (cs', i) ∧ cs'.length = cs.length ∧ (∀ c ∈ cs', WellFormed c) ∧
      ∀ j, i = some j → j < cs.length := by
  induction cs with
  | nil => exact ⟨[], none, rfl, rfl, by simp, by simp⟩
  | cons c cs ihc =>
    by_cases hc : c.hd.addr = a
    · exact ⟨c :: cs, some 0, by simp [deleteScan, hc], rfl, hcs, by simp⟩
    · obtain ⟨c', h1, h2⟩ := ih c (by simp)
      obtain ⟨cs', i, h3, h4, h5, h6⟩ := ihc (fun c hc => ih c (by simp [hc])) (fun c hc => hcs c (by simp [hc]))
      refine ⟨c' :: cs', i.map (· + 1), by simp [deleteScan, hc, h1, h3], by simp [h4], ?_, ?_⟩
      · intro x hx
        rcases List.mem_cons.1 hx with rfl | hx
        · exact h2
        · exact h5 x hx
      · intro j hj
        cases i with
        | none => simp at hj
        | some k => simp at hj; have := h6 k rfl; simp; omega

/-- One deletion in any well-formed tree, whatever the addresses: no index is out
of range and the tree stays well formed. -/
theorem deleteNode_wf (a : Nat) (n : Node) : WellFormed n → ∃ n', deleteNode a n = .ok n' ∧ WellFormed n' := by
  induction n using Node.ind with
  | h hd cs ih =>
    intro hw
    rw [wf_mk] at hw
    obtain ⟨cs', i, h1, h2, h3, h4⟩ := deleteScan_wf a cs (fun c hc => ih c hc (hw.2 c hc)) hw.2
    simp only [deleteNode, h1, Res.bind_ok]
    cases i with
    | none => exact ⟨_, rfl, by rw [wf_mk]; exact ⟨by rw [h2]; exact hw.1, h3⟩⟩
    | some j =>
      have hj := h4 j rfl
      have hsub : ∀ (p q : Nat) (x : Node), x ∈ cs'.take p ++ cs'.drop q → WellFormed x := by
        intro p q x hx
        rcases List.mem_append.1 hx with hx | hx
        · exact h3 x (List.mem_of_mem_take hx)
        · exact h3 x (List.mem_of_mem_drop hx)
      dsimp only
      unfold deleteIndex cutRange
      by_cases hk : hd.kind = .sequence ∨ hd.kind = .document
      · rw [if_pos hk]
        dsimp only
        rw [if_pos (by omega)]
        refine ⟨_, rfl, ?_⟩
        rw [wf_mk]
        exact ⟨by rcases hk with hk | hk <;> simp [hk, Shaped], hsub _ _⟩
      · rw [if_neg hk]
        have he := shaped_even hw.1 hk
        have hmap : hd.kind = .mapping := by
          have := hw.1
          simp only [not_or] at hk
          cases hkk : hd.kind <;> simp [hkk, Shaped] at this hk ⊢ <;> simp [this] at hj
        by_cases hp : j % 2 = 0
        · rw [if_pos hp]
          dsimp only
          rw [if_pos (by omega)]
          refine ⟨_, rfl, ?_⟩
          rw [wf_mk]
          refine ⟨?_, hsub _ _⟩
          simp only [hmap, Shaped, List.length_append, List.length_take, List.length_drop]
          omega
        · rw [if_neg hp]
          dsimp only
          rw [if_pos (by omega)]
          refine ⟨_, rfl, ?_⟩
          rw [wf_mk]
          refine ⟨?_, hsub _ _⟩
          simp only [hmap, Shaped, List.length_append, List.length_take, List.length_drop]
          omega

/-- C12: any sequence of delete overlays, each with any list of matches, runs
without an out-of-range index and leaves a document whose mappings still pair keys
with values. -/
theorem C12_deletes_keep_documents_well_formed (E : Sed) (root : Node) (hw : WellFormed root)
    (steps : List (Overlay × List Node)) (ha : ∀ s ∈ steps, s.1.action = .delete) :
    ∃ root', steps.foldlM (fun r s => doAction E s.1 r s.2) root = .ok root' ∧ WellFormed root' := by
  induction steps generalizing root with
  | nil => exact ⟨root, rfl, hw⟩
  | cons s ss ih =>
    have h1 : ∃ r, doAction E s.1 root s.2 = .ok r ∧ WellFormed r := by
      rw [doAction_delete (ha s (by simp))]
      generalize addrsOf s.2 = as
      clear ih
      induction as generalizing root with
      | nil => exact ⟨root, rfl, hw⟩
      | cons a as iha =>
        obtain ⟨r, hr, hr'⟩ := deleteNode_wf a root hw
        obtain ⟨r2, h2, h3⟩ := iha r hr'
        exact ⟨r2, by simp [List.foldlM_cons, hr, h2], h3⟩
    obtain ⟨r, hr, hr'⟩ := h1
    obtain ⟨r2, h2, h3⟩ := ih r hr' (fun s hs => ha s (by simp [hs]))
    exact ⟨r2, by simp [List.foldlM_cons, hr, h2], h3⟩

example :
    let doc := (dc (mp [sc c!"a", mp [sc c!"x", sc c!"1"]])).label
    let k := doc.content.head!.content[0]!
    let x := doc.content.head!.content[1]!.content[1]!
    let o : Overlay := { action := .delete }
    WellFormed doc ∧
    (match [(o, [x, k]), (o, [x, doc])].foldlM (fun r s => doAction noSed s.1 r s.2) doc with
      | .ok d => some d.fresh | _ => none)
      = some (dc (.mk { kind := .mapping, tag := c!"!!map", nilc := false } [])) := by
  refine ⟨?_, by decide⟩
  apply label_wf; simp [Ex.dc, Ex.mp, Ex.sc, WellFormed, WellFormeds, Shaped]

/-! ### C13 -/

/-- C13: deleting any list of matches, in whatever order, with repetitions and
nested matches, is leaving out the set of matches. -/
theorem C13_delete_set (E : Sed) (o : Overlay) (ha : o.action = .delete)
    (root : Node) (hd : Decoded root) (nodes : List Node) :
    doAction E o root nodes = .ok (prune (fun a => decide (a ∈ addrsOf nodes)) root) := by
  rw [doAction_delete ha, delete_fold root hd]

/-- C13: the outcome depends on the set of matches only. -/
theorem C13_order_and_duplicates (E : Sed) (o : Overlay) (ha : o.action = .delete)
    (root : Node) (hd : Decoded root) (nodes nodes' : List Node)
    (h : ∀ a, a ∈ addrsOf nodes ↔ a ∈ addrsOf nodes') :
    doAction E o root nodes = doAction E o root nodes' := by
  rw [C13_delete_set E o ha root hd, C13_delete_set E o ha root hd]
  congr 3
  funext a
  simp [h a]

/-- C13: a match that is not in the document (for example because it went with
its parent) is a no-op. -/
theorem C13_absent_match (E : Sed) (o : Overlay) (ha : o.action = .delete)
    (root m : Node) (hd : Decoded root) (hm : m.hd.addr ∉ root.addrs) :
    doAction E o root [m] = .ok root := by
  rw [C11_delete_removes_exactly_the_match E o ha root m hd, prune_absent]
  intro a h
  simp only [decide_eq_false_iff_not]
  rintro rfl
  apply hm
  obtain ⟨h', cs⟩ := root
  simp only [Node.addrs, List.mem_cons]
  exact .inr h

example :
    let doc := (dc (mp [sc c!"a", mp [sc c!"x", sc c!"1"], sc c!"b", sc c!"2"])).label
    let a := doc.content.head!.content[1]!
    let x := a.content[1]!
    let o : Overlay := { action := .delete }
    tree (doAction noSed o doc [a, x]) = some (dc (mp [sc c!"b", sc c!"2"])) ∧
    tree (doAction noSed o doc [x, a, x]) = some (dc (mp [sc c!"b", sc c!"2"])) := by decide

end Yot
