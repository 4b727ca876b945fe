import Verif.Spec.Rename
import Verif.Lemmas.Heap
import Verif.Lemmas.Delete
namespace Yot
open Spec

/-- The outcome at other addresses. -/
def renameRes (ρ : Nat → Nat) (r : Res Err Node) : Res Err Node := r >>= fun n => .ok (rename ρ n)

@[simp] theorem renameRes_ok (ρ : Nat → Nat) (n : Node) : renameRes ρ (.ok n) = .ok (rename ρ n) := rfl
@[simp] theorem renameRes_err (ρ : Nat → Nat) (e : Err) : renameRes ρ (.err e) = .err e := rfl
@[simp] theorem renameRes_panic (ρ : Nat → Nat) : renameRes ρ .panic = .panic := rfl

theorem renames_eq_map (ρ : Nat → Nat) (cs : List Node) : renames ρ cs = cs.map (rename ρ) := by
  induction cs with
  | nil => rfl
  | cons c cs ih => simp [renames, ih]

theorem rename_mk (ρ : Nat → Nat) (hd : Hdr) (cs : List Node) : rename ρ (.mk hd cs) = .mk (renameHd ρ hd) (cs.map (rename ρ)) := by
  rw [rename, renames_eq_map]

@[simp] theorem rename_hd (ρ : Nat → Nat) (t : Node) : (rename ρ t).hd = renameHd ρ t.hd := by cases t; rw [rename_mk]; rfl
@[simp] theorem rename_content (ρ : Nat → Nat) (t : Node) : (rename ρ t).content = t.content.map (rename ρ) := by
  cases t; rw [rename_mk]; rfl

theorem rename_fresh (ρ : Nat → Nat) (h0 : ρ 0 = 0) (t : Node) : rename ρ t.fresh = t.fresh := by
  induction t using Node.ind with
  | h hd cs ih =>
    rw [Node.fresh, freshs_eq_map, rename_mk, List.map_map]
    congr 1
    · simp [renameHd, h0]
    · exact List.map_congr_left fun c hc => ih c hc

theorem fresh_rename (ρ : Nat → Nat) (t : Node) : (rename ρ t).fresh = t.fresh := by
  induction t using Node.ind with
  | h hd cs ih =>
    rw [rename_mk, Node.fresh, Node.fresh, freshs_eq_map, freshs_eq_map, List.map_map]
    congr 1
    exact List.map_congr_left fun c hc => ih c hc

theorem rename_sanitize (ρ : Nat → Nat) (E : Sed) (t : Node) : rename ρ (sanitizeNode E t) = sanitizeNode E (rename ρ t) := by
  induction t using Node.ind with
  | h hd cs ih =>
    rw [sanitizeNode, rename_mk, rename_mk, sanitizeNode, sanitizeNodes_eq_map, sanitizeNodes_eq_map, List.map_map, List.map_map]
    congr 1
    exact List.map_congr_left fun c hc => ih c hc

theorem rename_addrs (ρ : Nat → Nat) (t : Node) : (rename ρ t).addrs = t.addrs.map ρ := by
  induction t using Node.ind with
  | h hd cs ih =>
    rw [rename_mk, addrs_mk, addrs_mk, List.map_cons]
    congr 1
    clear hd
    induction cs with
    | nil => rfl
    | cons c cs ihc =>
      rw [List.map_cons, Node.addrss, Node.addrss, List.map_append, ih c (by simp), ihc (fun d hd => ih d (by simp [hd]))]

theorem rename_rename (ρ σ : Nat → Nat) (t : Node) : rename σ (rename ρ t) = rename (fun a => σ (ρ a)) t := by
  induction t using Node.ind with
  | h hd cs ih =>
    rw [rename_mk, rename_mk, rename_mk, List.map_map]
    congr 1
    exact List.map_congr_left fun c hc => ih c hc

theorem rename_congr {ρ σ : Nat → Nat} (t : Node) (h : ∀ a ∈ t.addrs, ρ a = σ a) : rename ρ t = rename σ t := by
  induction t using Node.ind with
  | h hd cs ih =>
    rw [addrs_mk] at h
    rw [rename_mk, rename_mk]
    congr 1
    · simp [renameHd, h hd.addr (by simp)]
    · exact List.map_congr_left fun c hc => ih c hc (fun a ha => h a (by simp [addrs_subset hc ha]))

/-! ### Edits do not depend on addresses -/

theorem mergeComments_rename (E : Sed) (ρ : Nat → Nat) (o n : Hdr) (vals : List Str) :
    mergeComments E (renameHd ρ o) n vals = renameHd ρ (mergeComments E o n vals) := by
  have hx : formatVals (renameHd ρ o) vals = formatVals o vals := by
    simp only [formatVals, renameHd]
    congr 1 <;> (rcases vals with _ | ⟨a, _ | ⟨b, c⟩⟩ <;> rfl)
  simp only [mergeComments, hx]
  split_ifs <;> rfl

theorem formatVals_rename (ρ : Nat → Nat) (o : Hdr) (vals : List Str) :
    formatVals (renameHd ρ o) vals = formatVals o vals := by
  simp only [formatVals, renameHd]
  congr 1 <;> (rcases vals with _ | ⟨a, _ | ⟨b, c⟩⟩ <;> rfl)

theorem mergeScalar_rename (E : Sed) (ρ : Nat → Nat) (o : Node) (n : Hdr) (vals : List Str) :
    mergeScalar E (rename ρ o) n vals = rename ρ (mergeScalar E o n vals) := by
  simp only [mergeScalar, rename_hd, formatVals_rename, mergeComments_rename]
  have : (renameHd ρ o.hd).kind = o.hd.kind := rfl
  rw [this]
  split_ifs
  · rw [rename_mk]; rfl
  · rw [rename_mk, rename_content]; rfl

theorem toMapping_rename (ρ : Nat → Nat) (o : Node) : toMapping (rename ρ o) = rename ρ (toMapping o) := by
  obtain ⟨hd, cs⟩ := o
  have hk : (renameHd ρ hd).kind = hd.kind := rfl
  by_cases h : hd.kind = .mapping
  · simp only [toMapping, rename_mk, Node.hd_mk, hk, h, ne_eq, not_true_eq_false, if_false]
  · simp only [toMapping, rename_mk, Node.hd_mk, hk, h, ne_eq, not_false_eq_true, if_true]
    rfl

theorem toSequence_rename (ρ : Nat → Nat) (o : Node) : toSequence (rename ρ o) = rename ρ (toSequence o) := by
  obtain ⟨hd, cs⟩ := o
  have hk : (renameHd ρ hd).kind = hd.kind := rfl
  by_cases h : hd.kind = .sequence
  · simp only [toSequence, rename_mk, Node.hd_mk, hk, h, ne_eq, not_true_eq_false, if_false]
  · simp only [toSequence, rename_mk, Node.hd_mk, hk, h, ne_eq, not_false_eq_true, if_true]
    rfl

theorem addNode_rename (E : Sed) {ρ : Nat → Nat} (h0 : ρ 0 = 0) (o : Node) (nv : List Node) :
    addNode E (rename ρ o) nv = rename ρ (addNode E o nv) := by
  have hn : (sanitizeNodes E (Node.freshs nv)).map (rename ρ) = sanitizeNodes E (Node.freshs nv) := by
    rw [sanitizeNodes_eq_map, freshs_eq_map, List.map_map, List.map_map, List.map_map]
    refine List.map_congr_left fun u _ => ?_
    show rename ρ (sanitizeNode E u.fresh) = sanitizeNode E u.fresh
    rw [rename_sanitize, rename_fresh ρ h0]
  rw [addNode, addNode, appendContent, appendContent, rename_mk, List.map_append, hn, rename_hd, rename_content]
  rfl

theorem mergeArray_rename (E : Sed) {ρ : Nat → Nat} (h0 : ρ 0 = 0) (o n : Node) :
    mergeArray E (rename ρ o) n = rename ρ (mergeArray E o n) := by
  simp only [mergeArray, toSequence_rename]
  split_ifs
  · rfl
  · rw [← addNode_rename E h0, rename_mk, rename_hd, rename_content, mergeComments_rename]
    rfl

theorem mergeInner_rename (E : Sed) {ρ : Nat → Nat} (f : Node → Str → Res Err Node)
    (hf : ∀ x key, f (rename ρ x) key = renameRes ρ (f x key)) (nk : Hdr) (cs : List Node) :
    mergeInner E f nk (cs.map (rename ρ)) = (mergeInner E f nk cs >>= fun r => .ok (r.1.map (rename ρ), r.2)) := by
  have hv : ∀ t : Node, (rename ρ t).hd.value = t.hd.value := fun t => by rw [rename_hd]; rfl
  induction cs using pairInduction with
  | h0 => rfl
  | h1 a => rfl
  | h2 k v cs ih =>
    rw [List.map_cons, List.map_cons, mergeInner, mergeInner, hv]
    split_ifs with hs hm
    · rw [ih]
      cases mergeInner E f nk cs <;> rfl
    · simp only [hf, hv]
      cases f v k.hd.value with
      | ok v' =>
        simp only [renameRes_ok, Res.bind_ok]
        rw [rename_hd, mergeComments_rename, rename_content]
        simp only [Pure.pure, Res.bind_ok, List.map_cons, rename_mk]
      | err e => rfl
      | panic => rfl
    · simp only [hf, hv, ih]
      cases f v k.hd.value with
      | ok v' =>
        simp only [renameRes_ok, Res.bind_ok]
        cases mergeInner E f nk cs with
        | ok r =>
          simp only [Res.bind_ok, Pure.pure]
          rw [rename_hd, mergeComments_rename, rename_content, ← rename_mk, mergeScalar_rename]
          simp only [List.map_cons]
        | err e => rfl
        | panic => rfl
      | err e => rfl
      | panic => rfl

theorem mergeEntries_rename (E : Sed) {ρ : Nat → Nat} (h0 : ρ 0 = 0) (ncs : List Node)
    (ih : ∀ c ∈ ncs, ∀ o vals, merge E (rename ρ o) vals c = renameRes ρ (merge E o vals c)) :
    ∀ o, mergeEntries E (rename ρ o) ncs = renameRes ρ (mergeEntries E o ncs) := by
  induction ncs using pairInduction with
  | h0 => intro o; simp [mergeEntries]
  | h1 a => intro o; simp [mergeEntries]
  | h2 k v ds ihd =>
    intro o
    rw [mergeEntries, mergeEntries, toMapping_rename, rename_content,
      mergeInner_rename E _ (fun x key => ih v (by simp) x [key])]
    cases hm : mergeInner E (fun x key => merge E x [key] v) k.hd (toMapping o).content with
    | ok r =>
      simp only [Res.bind_ok]
      rw [rename_hd, ← rename_mk, addNode_rename E h0]
      have := ihd (fun c hc => ih c (by simp [hc]))
      split_ifs <;> exact this _
    | err e => rfl
    | panic => rfl

theorem merge_rename (E : Sed) {ρ : Nat → Nat} (h0 : ρ 0 = 0) (n : Node) :
    ∀ o vals, merge E (rename ρ o) vals n = renameRes ρ (merge E o vals n) := by
  induction n using Node.ind with
  | h nh ncs ih =>
    intro o vals
    rw [merge.eq_def, merge.eq_def]
    cases hk : nh.kind with
    | document =>
      simp only [hk]
      have hnil : (rename ρ o).contentIsNil = o.contentIsNil := by
        rw [Node.contentIsNil, Node.contentIsNil, rename_hd, rename_content, List.isEmpty_map]; rfl
      have hv : (rename ρ o).hd.value = o.hd.value := by rw [rename_hd]; rfl
      rw [hnil]
      split_ifs
      · rfl
      · rw [rename_content, hv]
        cases o.content with
        | nil => rfl
        | cons oc ocs =>
          cases ncs with
          | nil => rfl
          | cons nc ncs =>
            simp only [List.map_cons]
            rw [ih nc (by simp)]
            cases merge E oc [o.hd.value] nc with
            | ok x =>
              simp only [renameRes_ok, Res.bind_ok]
              rw [rename_hd, mergeComments_rename, rename_mk]; rfl
            | err e => rfl
            | panic => rfl
    | mapping =>
      simp only [hk]
      exact mergeEntries_rename E h0 ncs ih o
    | sequence =>
      simp only [hk]
      rw [mergeArray_rename E h0]; rfl
    | scalar =>
      simp only [hk]
      rw [mergeScalar_rename, rename_hd, rename_content, renameRes_ok, rename_mk]; rfl
    | «alias» => simp only [hk]; rfl
    | zero =>
      simp only [hk]
      rw [rename_hd, rename_content, renameRes_ok, rename_mk]; rfl

theorem replaceNode_rename (E : Sed) {ρ : Nat → Nat} (h0 : ρ 0 = 0) (o n : Node) :
    replaceNode E (rename ρ o) n = rename ρ (replaceNode E o n) := by
  have hc : n.fresh.content.map (rename ρ) = n.fresh.content := by
    have := congrArg Node.content (rename_fresh ρ h0 n)
    rwa [rename_content] at this
  rw [replaceNode, replaceNode, rename_mk, hc, rename_hd, mergeComments_rename]
  rfl

theorem combineNode_rename (E : Sed) (ρ : Nat → Nat) (o n : Node) :
    combineNode E (rename ρ o) n = renameRes ρ (combineNode E o n) := by
  have hkind : (renameHd ρ o.hd).kind = o.hd.kind := rfl
  have hfk : ∀ x : Hdr, (renameHd ρ x).value = x.value := fun _ => rfl
  have hft : ∀ x : Hdr, (renameHd ρ x).tag = x.tag := fun _ => rfl
  simp only [combineNode, rename_hd, rename_content, hkind, mergeComments_rename, hfk, hft]
  generalize mergeComments E o.hd n.hd [] = c
  split_ifs
  · rfl
  · cases atoi c.value <;> cases atoi n.hd.value <;> first | rfl | (simp only [renameRes_ok, rename_mk]; rfl)
  · cases parseBool c.value <;> cases parseBool n.hd.value <;> first | rfl | (simp only [renameRes_ok, rename_mk]; rfl)
  · simp only [renameRes_ok, rename_mk]; rfl

/-! ### Editing at an address -/

mutual
theorem modifyAt_rename {ρ : Nat → Nat} (hi : Function.Injective ρ) (a : Nat) {f : Node → Res Err Node}
    (hf : ∀ x, f (rename ρ x) = renameRes ρ (f x)) :
    ∀ t : Node, modifyAt (ρ a) f (rename ρ t) = renameRes ρ (modifyAt a f t)
  | .mk hd cs => by
    rw [rename_mk, modifyAt, modifyAt]
    have : (renameHd ρ hd).addr = ρ a ↔ hd.addr = a := ⟨fun h => hi h, fun h => by rw [← h]; rfl⟩
    by_cases h : hd.addr = a
    · rw [if_pos h, if_pos (this.2 h), ← rename_mk, hf]
    · rw [if_neg h, if_neg (fun x => h (this.1 x)), modifyAts_rename hi a hf cs]
      cases modifyAts a f cs with
      | ok x => simp only [Res.bind_ok, renameRes_ok, rename_mk]
      | err e => rfl
      | panic => rfl
theorem modifyAts_rename {ρ : Nat → Nat} (hi : Function.Injective ρ) (a : Nat) {f : Node → Res Err Node}
    (hf : ∀ x, f (rename ρ x) = renameRes ρ (f x)) :
    ∀ ts : List Node, modifyAts (ρ a) f (ts.map (rename ρ)) = (modifyAts a f ts >>= fun x => .ok (x.map (rename ρ)))
  | [] => rfl
  | t :: ts => by
    rw [List.map_cons, modifyAts, modifyAts, modifyAt_rename hi a hf t, modifyAts_rename hi a hf ts]
    cases modifyAt a f t with
    | ok x =>
      simp only [renameRes_ok, Res.bind_ok]
      cases modifyAts a f ts <;> rfl
    | err e => rfl
    | panic => rfl
end

mutual
theorem deleteNode_rename {ρ : Nat → Nat} (hi : Function.Injective ρ) (a : Nat) :
    ∀ t : Node, deleteNode (ρ a) (rename ρ t) = renameRes ρ (deleteNode a t)
  | .mk hd cs => by
    rw [rename_mk, deleteNode, deleteNode, deleteScan_rename hi a cs]
    cases deleteScan a cs with
    | ok r =>
      obtain ⟨l, i⟩ := r
      cases i with
      | none => simp only [Res.bind_ok, renameRes_ok, rename_mk]
      | some i =>
        simp only [Res.bind_ok, deleteIndex, List.length_map]
        have hk : (renameHd ρ hd).kind = hd.kind := rfl
        rw [hk]
        split_ifs
        · simp only [Res.bind_ok, renameRes_ok, rename_mk, List.map_append, List.map_take, List.map_drop]; rfl
        · rfl
    | err e => rfl
    | panic => rfl
theorem deleteScan_rename {ρ : Nat → Nat} (hi : Function.Injective ρ) (a : Nat) :
    ∀ ts : List Node, deleteScan (ρ a) (ts.map (rename ρ)) = (deleteScan a ts >>= fun r => .ok (r.1.map (rename ρ), r.2))
  | [] => rfl
  | t :: ts => by
    rw [List.map_cons, deleteScan, deleteScan]
    have : (rename ρ t).hd.addr = ρ a ↔ t.hd.addr = a := by
      rw [rename_hd]; exact ⟨fun h => hi h, fun h => by rw [← h]; rfl⟩
    by_cases h : t.hd.addr = a
    · rw [if_pos h, if_pos (this.2 h)]; rfl
    · rw [if_neg h, if_neg (fun x => h (this.1 x)), deleteNode_rename hi a t, deleteScan_rename hi a ts]
      cases deleteNode a t with
      | ok x =>
        simp only [renameRes_ok, Res.bind_ok]
        cases deleteScan a ts <;> rfl
      | err e => rfl
      | panic => rfl
end

theorem doOne_rename (E : Sed) (o : Overlay) {ρ : Nat → Nat} (h0 : ρ 0 = 0) (hi : Function.Injective ρ) (t : Node) (a : Nat) :
    doOne E o (rename ρ t) (ρ a) = renameRes ρ (doOne E o t a) := by
  have hm : ∀ x, mergeNode E (rename ρ x) o.value = renameRes ρ (mergeNode E x o.value) := fun x => merge_rename E h0 o.value x []
  unfold doOne
  cases o.action with
  | delete => exact deleteNode_rename hi a t
  | replace => exact modifyAt_rename hi a (fun x => by rw [replaceNode_rename E h0]; rfl) t
  | combine => exact modifyAt_rename hi a (fun x => combineNode_rename E ρ x _) t
  | merge => exact modifyAt_rename hi a hm t
  | invalid => exact modifyAt_rename hi a hm t

theorem doAction_rename (E : Sed) (o : Overlay) {ρ : Nat → Nat} (h0 : ρ 0 = 0) (hi : Function.Injective ρ) (ms : List Node) :
    ∀ t : Node, doAction E o (rename ρ t) (ms.map (rename ρ)) = renameRes ρ (doAction E o t ms) := by
  unfold doAction
  induction ms with
  | nil => intro t; rfl
  | cons m ms ih =>
    intro t
    rw [List.map_cons, List.foldlM_cons, List.foldlM_cons, rename_hd]
    have : doOne E o (rename ρ t) (renameHd ρ m.hd).addr = _ := doOne_rename E o h0 hi t m.hd.addr
    rw [this]
    cases doOne E o t m.hd.addr with
    | ok t' => exact ih t'
    | err e => rfl
    | panic => rfl

end Yot
