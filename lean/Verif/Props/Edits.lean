import Verif.Lemmas.Edit
import Verif.Props.Markers
/-
C10, C16, C17: replace, combine and the frame of an overlay.
-/
namespace Yot
open Spec Ex

/-- The addresses of matches. -/
def addrsOf (nodes : List Node) : List Nat := nodes.map (fun n => n.hd.addr)

theorem doAction_fold {E : Sed} {o : Overlay} {root root' : Node} {nodes : List Node}
    {f : Node → Res Err Node} (hf : ∀ r a, doOne E o r a = modifyAt a f r)
    (h : doAction E o root nodes = .ok root') :
    (addrsOf nodes).foldlM (fun r a => modifyAt a f r) root = .ok root' := by
  unfold doAction at h
  simp only [hf] at h
  clear hf
  induction nodes generalizing root with
  | nil => exact h
  | cons n ns ih =>
    simp only [List.foldlM_cons, Res.bind_eq_ok, addrsOf, List.map_cons] at h ⊢
    obtain ⟨r, h1, h2⟩ := h
    exact ⟨r, h1, ih h2⟩

/-! ### C10 -/

/-- C10: a replace overlay.  In the new document every outermost matched node is
the overlay value (kind, tag, text, style, anchor, copies of the children) and
everything outside the matches is as it was.  (No match has the address 0, which
stands for "not in the document".) -/
theorem C10_replace_installs_value (E : Sed) (o : Overlay) (ha : o.action = .replace)
    (root root' : Node) (nodes : List Node) (h0 : 0 ∉ addrsOf nodes)
    (h : doAction E o root nodes = .ok root') :
    EditedAt (· ∈ addrsOf nodes) (Installed o.value) root root' := by
  have hinst : ∀ n c : Node, c.hd.addr = n.hd.addr → Installed o.value n (replaceNode E c o.value) := by
    intro n c hc
    obtain ⟨vh, vcs⟩ := o.value
    refine ⟨hc, rfl, rfl, rfl, rfl, rfl, ?_⟩
    simp only [replaceNode, Node.fresh, Node.content_mk, freshs_eq_map]
    exact List.map_congr_left (fun x _ => fresh_eq_copyOf x)
  refine editedAt_fold (W := fun _ => True) (by simp) (addrsOf nodes)
    (f := fun n => .ok (replaceNode E n o.value)) ?_ ?_ root root' trivial
    (doAction_fold (fun r a => by simp [doOne, ha]) h)
  · intro n c c' _ hh _ hf
    simp only [Res.ok.injEq] at hf
    subst hf
    exact hinst n c (by rw [hh])
  · intro a hmem n c c' _ hP hm
    rcases modifyAt_cases hm with ⟨_, hf⟩ | ⟨_, hh, hc⟩
    · simp only [Res.ok.injEq] at hf
      subst hf
      exact hinst n c hP.1
    · unfold Installed at hP ⊢
      rw [hh]
      refine ⟨hP.1, hP.2.1, hP.2.2.1, hP.2.2.2.1, hP.2.2.2.2.1, hP.2.2.2.2.2.1, ?_⟩
      rw [hP.2.2.2.2.2.2] at hc
      exact map_copyOf_modify (by rintro rfl; exact h0 hmem) hc

/-- C10: replace never fails. -/
theorem C10_replace_succeeds (E : Sed) (o : Overlay) (ha : o.action = .replace)
    (root : Node) (nodes : List Node) : ∃ root', doAction E o root nodes = .ok root' := by
  have hm : ∀ (a : Nat) (g : Node → Node) (n : Node), ∃ n', modifyAt a (fun n => .ok (g n)) n = .ok n' := by
    intro a g n
    induction n using Node.ind with
    | h hd cs ih =>
      have : ∃ cs', modifyAts a (fun n => .ok (g n)) cs = .ok cs' := by
        induction cs with
        | nil => exact ⟨[], rfl⟩
        | cons c cs ihc =>
          obtain ⟨c', h1⟩ := ih c (by simp)
          obtain ⟨cs', h2⟩ := ihc (fun c hc => ih c (by simp [hc]))
          exact ⟨c' :: cs', by simp [modifyAts, h1, h2]⟩
      obtain ⟨cs', h1⟩ := this
      rw [modifyAt]
      split
      · exact ⟨_, rfl⟩
      · exact ⟨.mk hd cs', by simp [h1]⟩
  unfold doAction
  induction nodes generalizing root with
  | nil => exact ⟨root, rfl⟩
  | cons n ns ih =>
    obtain ⟨r, hr⟩ := hm n.hd.addr (fun x => replaceNode E x o.value) root
    obtain ⟨r', hr'⟩ := ih r
    refine ⟨r', ?_⟩
    have h1 : doOne E o root n.hd.addr = .ok r := by simp only [doOne, ha]; exact hr
    simp only [List.foldlM_cons, h1, Res.bind_ok, hr']

example :
    let doc := (dc (mp [sc c!"a", mp [sc c!"x", sc c!"1"], sc c!"b", sc c!"2"])).label
    let m := doc.content.head!.content[1]!
    let o : Overlay := { action := .replace, value := sq [sc c!"new"] }
    m.hd.kind = .mapping ∧ 0 ∉ addrsOf [m] ∧
    tree (doAction noSed o doc [m]) =
      some (dc (mp [sc c!"a", sq [sc c!"new"], sc c!"b", sc c!"2"])) := by decide

/-! ### C16 -/

/-- C16, failure: combine is an error unless both sides are scalars. -/
theorem C16_only_scalars (E : Sed) (n v : Node) (h : ¬ (n.kind = .scalar ∧ v.kind = .scalar)) :
    combineNode E n v = .err .combineOnlyForScalars := by
  unfold combineNode
  rw [if_pos]
  by_cases h1 : n.hd.kind = .scalar
  · exact .inr (fun h2 => h ⟨h1, h2⟩)
  · exact .inl h1

theorem combineNode_fields (E : Sed) (n v n' : Node) (h : combineNode E n v = .ok n') :
    n.hd.kind = .scalar ∧ v.hd.kind = .scalar ∧ n'.content = n.content ∧
    ∃ value head line foot, n'.hd = { n.hd with value := value, head := head, line := line, foot := foot } := by
  have hm : ∀ vals, ∃ head line foot, mergeComments E n.hd v.hd vals = { n.hd with head := head, line := line, foot := foot } := by
    intro vals
    unfold mergeComments
    dsimp only
    split
    · exact ⟨_, _, _, rfl⟩
    · split
      · exact ⟨_, _, _, rfl⟩
      · split
        · exact ⟨_, _, _, rfl⟩
        · exact ⟨n.hd.head, n.hd.line, n.hd.foot, rfl⟩
  obtain ⟨hh, ll, ff, hm⟩ := hm []
  unfold combineNode at h
  split at h
  · simp at h
  · rename_i hk
    simp only [ne_eq, not_or, Decidable.not_not] at hk
    rw [hm] at h
    refine ⟨hk.1, hk.2, ?_⟩
    dsimp only at h
    split at h
    · split at h <;> simp only [Res.ok.injEq, reduceCtorEq] at h
      subst h; exact ⟨rfl, _, _, _, _, rfl⟩
    · split at h
      · split at h <;> simp only [Res.ok.injEq, reduceCtorEq] at h
        subst h; exact ⟨rfl, _, _, _, _, rfl⟩
      · simp only [Res.ok.injEq] at h
        subst h; exact ⟨rfl, _, _, _, _, rfl⟩

/-- C16: a combine overlay that succeeds changes, in the whole document, only the
text and comments of matched nodes, all of which are scalars. -/
theorem C16_combine_changes_text_only (E : Sed) (o : Overlay) (ha : o.action = .combine)
    (root root' : Node) (nodes : List Node) (hw : WellFormed root)
    (h : doAction E o root nodes = .ok root') :
    EditedAt (· ∈ addrsOf nodes) TextOnly root root' := by
  have hWc : ∀ n : Node, WellFormed n → ∀ c ∈ n.content, WellFormed c := by
    intro n hn; rw [wf_iff] at hn; exact hn.2
  have hnil : ∀ n : Node, WellFormed n → n.hd.kind = .scalar → n.content = [] := by
    intro n hn hk
    rw [wf_iff] at hn
    have := hn.1
    rw [hk] at this
    exact List.length_eq_zero_iff.1 this
  refine editedAt_fold (W := WellFormed) hWc (addrsOf nodes)
    (f := fun n => combineNode E n o.value) ?_ ?_ root root' hw
    (doAction_fold (fun r a => by simp [doOne, ha]) h)
  · intro n c c' hn hh hl hf
    obtain ⟨k1, _, k3, k4⟩ := combineNode_fields E c o.value c' hf
    rw [hh] at k1 k4
    have h1 := hnil n hn k1
    have h2 : c.content = [] := List.length_eq_zero_iff.1 (by rw [hl, h1]; rfl)
    exact ⟨k1, by rw [k3, h2, h1], k4⟩
  · intro a _ n c c' hn hP hm
    obtain ⟨p1, p2, v, x, y, z, p3⟩ := hP
    have h1 := hnil n hn p1
    rcases modifyAt_cases hm with ⟨_, hf⟩ | ⟨_, hh, hc⟩
    · obtain ⟨k1, _, k3, v', x', y', z', k4⟩ := combineNode_fields E c o.value c' hf
      exact ⟨p1, k3.trans p2, v', x', y', z', by rw [k4, p3]⟩
    · rw [p2, h1] at hc
      cases hc' : c'.content with
      | nil => exact ⟨p1, by rw [hc', h1], v, x, y, z, by rw [hh, p3]⟩
      | cons => rw [hc'] at hc; cases hc

example :
    let doc := (dc (mp [sc c!"a", sc c!"1" c!"!!int", sc c!"b", sc c!"x"])).label
    let m := doc.content.head!.content[1]!
    let o : Overlay := { action := .combine, value := sc c!"41" c!"!!int" }
    WellFormed doc ∧
    tree (doAction noSed o doc [m]) =
      some (dc (mp [sc c!"a", sc c!"42" c!"!!int", sc c!"b", sc c!"x"])) := by
  refine ⟨?_, by decide⟩
  simp [Node.label, Node.labelFrom, Node.labelsFrom, Ex.dc, Ex.mp, Ex.sc, WellFormed, WellFormeds, Shaped]

/-! ### C17 -/

/-- C17: whatever merge, replace or combine do, everything outside the matched
subtrees stays as it was: same fields, same children in the same order. -/
theorem C17_edits_only_inside_matches (E : Sed) (o : Overlay) (ha : o.action ≠ .delete)
    (root root' : Node) (nodes : List Node) (h : doAction E o root nodes = .ok root') :
    OnlyInside (· ∈ addrsOf nodes) root root' := by
  have key : ∀ f : Node → Res Err Node, (∀ r a, doOne E o r a = modifyAt a f r) →
      OnlyInside (· ∈ addrsOf nodes) root root' := by
    intro f hf
    exact editedAt_fold (W := fun _ => True) (by simp) (addrsOf nodes) (f := f) (by simp) (by simp)
      root root' trivial (doAction_fold hf h)
  cases hact : o.action with
  | delete => exact absurd hact ha
  | replace => exact key _ (fun r a => by simp only [doOne, hact]; rfl)
  | combine => exact key _ (fun r a => by simp only [doOne, hact]; rfl)
  | merge => exact key _ (fun r a => by simp only [doOne, hact]; rfl)
  | invalid => exact key _ (fun r a => by simp only [doOne, hact]; rfl)

/-- C17 for a whole overlay with at least one match. -/
theorem C17_apply (E : Sed) (dflt : Str) (o : Overlay) (ha : o.action ≠ .delete) (doc doc' : Node)
    (hne : findAll o.query doc ≠ []) (h : apply E dflt o doc = .ok doc') :
    OnlyInside (· ∈ addrsOf (findAll o.query doc)) doc doc' := by
  unfold apply at h
  split at h
  · simp only [Res.ok.injEq] at h
    subst h
    have : ∀ n : Node, OnlyInside (· ∈ addrsOf (findAll o.query doc)) n n := by
      intro n
      induction n using Node.ind with
      | h hd cs ih =>
        unfold OnlyInside at *
        rw [editedAt_mk]
        by_cases hm : hd.addr ∈ addrsOf (findAll o.query doc)
        · exact .inl ⟨hm, trivial⟩
        · exact .inr ⟨hm, rfl, by simp only [Node.content_mk]; exact List.forall₂_same.2 ih⟩
    exact this doc
  · dsimp only at h
    rw [if_neg (by simpa using hne)] at h
    exact C17_edits_only_inside_matches E o ha doc doc' _ h

example :
    let doc := (dc (mp [sc c!"a", mp [sc c!"x", sc c!"1"], sc c!"b", sc c!"2"])).label
    let m := doc.content.head!.content[1]!
    let o : Overlay := { value := mp [sc c!"y", sc c!"3"] }
    tree (doAction noSed o doc [m]) =
      some (dc (mp [sc c!"a", mp [sc c!"x", sc c!"1", sc c!"y", sc c!"3"], sc c!"b", sc c!"2"])) := by decide

end Yot
