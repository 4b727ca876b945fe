import Verif.Lemmas.Rename
import Verif.Lemmas.Safety
namespace Yot
open Spec

/-! ### Two layouts of one tree differ by a renaming -/

theorem list_renaming (xs ys : List Nat) (hl : xs.length = ys.length) (hx : xs.Nodup) (hy : ys.Nodup)
    (x0 : 0 ∉ xs) (y0 : 0 ∉ ys) : ∃ ρ : Nat → Nat, Function.Injective ρ ∧ ρ 0 = 0 ∧ xs.map ρ = ys := by
  obtain ⟨B, hB⟩ : ∃ B, ∀ y ∈ ys, y ≤ B := by
    clear hl hy y0
    induction ys with
    | nil => exact ⟨0, by simp⟩
    | cons y ys ih =>
      obtain ⟨B, hB⟩ := ih
      refine ⟨y + B, fun z hz => ?_⟩
      rcases List.mem_cons.1 hz with rfl | hz
      · omega
      · have := hB z hz; omega
  let ρ : Nat → Nat := fun a => if a = 0 then 0 else if h : xs.idxOf a < ys.length then ys[xs.idxOf a] else a + B
  have hin : ∀ a, a ∈ xs ↔ xs.idxOf a < ys.length := fun a => by rw [← hl]; exact List.idxOf_lt_length_iff.symm
  have hpos : ∀ (i : Nat) (h : i < ys.length), 0 < ys[i] ∧ ys[i] ≤ B := fun i h => by
    have hm : ys[i] ∈ ys := List.getElem_mem h
    have : ys[i] ≠ 0 := fun e => y0 (e ▸ hm)
    exact ⟨by omega, hB _ hm⟩
  refine ⟨ρ, ?_, by simp [ρ], ?_⟩
  · intro a b hab
    simp only [ρ] at hab
    by_cases ha : a = 0 <;> by_cases hb : b = 0
    · omega
    · simp only [ha, hb, if_true, if_false] at hab
      split_ifs at hab with h
      · have := (hpos _ h).1; omega
      · omega
    · simp only [ha, hb, if_true, if_false] at hab
      split_ifs at hab with h
      · have := (hpos _ h).1; omega
      · omega
    · simp only [ha, hb, if_false] at hab
      split_ifs at hab with h1 h2 h2
      · have := congrArg ys.idxOf hab
        rw [List.Nodup.idxOf_getElem hy _ h1, List.Nodup.idxOf_getElem hy _ h2] at this
        have ha' := (hin a).2 h1
        have hb' := (hin b).2 h2
        have e1 := List.getElem_idxOf (List.idxOf_lt_length_iff.2 ha')
        have e2 := List.getElem_idxOf (List.idxOf_lt_length_iff.2 hb')
        rw [← e1, ← e2]
        congr 1
      · have := (hpos _ h1).2; omega
      · have := (hpos _ h2).2; omega
      · omega
  · apply List.ext_getElem
    · simp [hl]
    · intro i h1 h2
      rw [List.getElem_map]
      have hi : i < xs.length := by omega
      have hne : xs[i] ≠ 0 := fun e => x0 (e ▸ List.getElem_mem hi)
      have hidx : xs.idxOf xs[i] = i := List.Nodup.idxOf_getElem hx i hi
      simp only [ρ, hne, if_false, hidx, h2, dif_pos]

theorem eq_of_fresh_addrs (s : Node) : ∀ t : Node, s.fresh = t.fresh → s.addrs = t.addrs → s = t := by
  induction s using Node.ind with
  | h hd cs ih =>
    rintro ⟨hd', cs'⟩ hf ha
    rw [addrs_mk, addrs_mk] at ha
    obtain ⟨ha1, ha2⟩ := List.cons.inj ha
    rw [Node.fresh, Node.fresh, freshs_eq_map, freshs_eq_map] at hf
    have hf1 := (Node.mk.inj hf).1
    have hf2 := (Node.mk.inj hf).2
    have e1 : hd = hd' := by
      cases hd; cases hd'; simp_all
    have e2 : cs = cs' := by
      clear hf ha hf1 ha1 e1
      induction cs generalizing cs' with
      | nil => cases cs' with
        | nil => rfl
        | cons _ _ => simp at hf2
      | cons c cs ihc =>
        cases cs' with
        | nil => simp at hf2
        | cons d ds =>
          simp only [List.map_cons, List.cons.injEq] at hf2
          rw [Node.addrss, Node.addrss] at ha2
          have hl : c.addrs.length = d.addrs.length := by
            have h := hf2.1
            rw [← fresh_addrs_length c, ← fresh_addrs_length d, h]
          obtain ⟨p, q⟩ := List.append_inj ha2 hl
          rw [ih c (by simp) d hf2.1 p, ihc (fun x hx => ih x (by simp [hx])) ds q hf2.2]
    rw [e1, e2]
where
  fresh_addrs_length (t : Node) : t.fresh.addrs.length = t.addrs.length := by
    have : t.fresh = rename (fun _ => 0) t := by
      induction t using Node.ind with
      | h hd cs ih =>
        rw [rename_mk, Node.fresh, freshs_eq_map]
        congr 1
        exact List.map_congr_left fun c hc => ih c hc
    rw [this, rename_addrs, List.length_map]

theorem fresh_eq_rename (t : Node) : t.fresh = rename (fun _ => 0) t := by
  induction t using Node.ind with
  | h hd cs ih =>
    rw [rename_mk, Node.fresh, freshs_eq_map]
    congr 1
    exact List.map_congr_left fun c hc => ih c hc

/-- Trees that differ in their addresses only. -/
theorem exists_renaming (s t : Node) (h : s.fresh = t.fresh) (hs : s.addrs.Nodup) (s0 : 0 ∉ s.addrs)
    (ht : t.addrs.Nodup) (t0 : 0 ∉ t.addrs) : ∃ ρ : Nat → Nat, Function.Injective ρ ∧ ρ 0 = 0 ∧ rename ρ t = s := by
  have hl : t.addrs.length = s.addrs.length := by
    have := congrArg (fun x => x.addrs.length) h
    simp only [fresh_eq_rename, rename_addrs, List.length_map] at this
    exact this.symm
  obtain ⟨ρ, h1, h2, h3⟩ := list_renaming t.addrs s.addrs hl ht hs t0 s0
  refine ⟨ρ, h1, h2, eq_of_fresh_addrs _ _ ?_ ?_⟩
  · rw [fresh_rename, h]
  · rw [rename_addrs, h3]

/-! ### Labels depend on the tree only -/

theorem labelFrom_rename (ρ : Nat → Nat) (t : Node) : ∀ k, (rename ρ t).labelFrom k = t.labelFrom k := by
  induction t using Node.ind with
  | h hd cs ih =>
    intro k
    have hL : ∀ ds : List Node, (∀ d ∈ ds, d ∈ cs) → ∀ k, Node.labelsFrom k (ds.map (rename ρ)) = Node.labelsFrom k ds := by
      intro ds
      induction ds with
      | nil => intro _ k; rfl
      | cons d ds ihd =>
        intro hs k
        rw [List.map_cons, Node.labelsFrom, Node.labelsFrom, ih d (hs d (by simp)), ihd (fun x hx => hs x (by simp [hx]))]
    rw [rename_mk, Node.labelFrom, Node.labelFrom, hL cs (fun _ h => h)]
    rfl

theorem label_rename (ρ : Nat → Nat) (t : Node) : (rename ρ t).label = t.label := by
  rw [Node.label, Node.label, labelFrom_rename]

theorem label_of_fresh {s t : Node} (h : s.fresh = t.fresh) : s.label = t.label := by
  rw [← label_rename (fun _ => 0) s, ← label_rename (fun _ => 0) t, ← fresh_eq_rename, ← fresh_eq_rename, h]

/-! ### The overlay's side -/

theorem mergeComments_val (E : Sed) (σ : Nat → Nat) (o n : Hdr) (vals : List Str) :
    mergeComments E o (renameHd σ n) vals = mergeComments E o n vals := rfl

theorem merge_val (E : Sed) (σ : Nat → Nat) (n : Node) : ∀ o vals, merge E o vals (rename σ n) = merge E o vals n := by
  induction n using Node.ind with
  | h nh ncs ih =>
    intro o vals
    rw [rename_mk]
    have hk' : (renameHd σ nh).kind = nh.kind := rfl
    cases hk : nh.kind with
    | document =>
      rw [merge_document E o vals (hk' ▸ hk), merge_document E o vals hk, List.isEmpty_map]
      have : (renameHd σ nh).nilc = nh.nilc := rfl
      rw [this]
      split_ifs
      · rfl
      · cases o.content with
        | nil => rfl
        | cons oc ocs =>
          cases ncs with
          | nil => rfl
          | cons nc ncs =>
            simp only [List.map_cons]
            rw [ih nc (by simp)]
            rfl
    | mapping =>
      rw [merge_mapping E o vals (hk' ▸ hk), merge_mapping E o vals hk]
      clear hk hk'
      induction ncs using pairInduction generalizing o with
      | h0 => rfl
      | h1 a => simp [mergeEntries]
      | h2 k v ds ihd =>
        rw [List.map_cons, List.map_cons, mergeEntries, mergeEntries]
        have hf : (fun x key => merge E x [key] (rename σ v)) = (fun x key => merge E x [key] v) := by
          funext x key; exact ih v (by simp) x [key]
        have hin : mergeInner E (fun x key => merge E x [key] v) (rename σ k).hd (toMapping o).content =
            mergeInner E (fun x key => merge E x [key] v) k.hd (toMapping o).content := by
          rw [rename_hd]
          generalize (toMapping o).content = cs
          induction cs using pairInduction with
          | h0 => rfl
          | h1 a => rfl
          | h2 a b cs ihc => rw [mergeInner, mergeInner, ihc]; rfl
        have hadd : ∀ o2, addNode E o2 [rename σ k, rename σ v] = addNode E o2 [k, v] := by
          intro o2
          rw [addNode, addNode]
          simp only [Node.freshs, fresh_rename]
        simp only [hf, hin, hadd]
        cases mergeInner E (fun x key => merge E x [key] v) k.hd (toMapping o).content with
        | ok r => simp only [Res.bind_ok]; exact ihd (fun c hc => ih c (by simp [hc])) _
        | err e => rfl
        | panic => rfl
    | sequence =>
      rw [merge_sequence E o vals (hk' ▸ hk), merge_sequence E o vals hk]
      congr 1
      have h1 : (Node.mk (renameHd σ nh) (ncs.map (rename σ))).contentIsNil = (Node.mk nh ncs).contentIsNil := by
        simp only [Node.contentIsNil, Node.hd_mk, Node.content_mk, List.isEmpty_map]; rfl
      simp only [mergeArray, h1, Node.hd_mk, Node.content_mk, mergeComments_val]
      have h2 : Node.freshs (ncs.map (rename σ)) = Node.freshs ncs := by
        rw [freshs_eq_map, freshs_eq_map, List.map_map]
        exact List.map_congr_left fun c _ => fresh_rename σ c
      simp only [addNode, h2]
    | scalar =>
      rw [merge_scalar E o vals (hk' ▸ hk), merge_scalar E o vals hk]
      rfl
    | «alias» => rw [merge_alias E o vals (hk' ▸ hk), merge_alias E o vals hk]
    | zero =>
      rw [merge_zero E o vals (hk' ▸ hk), merge_zero E o vals hk]
      rfl

theorem merge_of_fresh (E : Sed) {n n' : Node} (h : n.fresh = n'.fresh) (o : Node) (vals : List Str) :
    merge E o vals n = merge E o vals n' := by
  rw [← merge_val E (fun _ => 0) n, ← merge_val E (fun _ => 0) n', ← fresh_eq_rename, ← fresh_eq_rename, h]

/-! ### Searching -/

theorem cmpEqual_rename (ρ : Nat → Nat) (s : Node) : ∀ t : Node, cmpEqual (rename ρ s) t = cmpEqual s t := by
  induction s using Node.ind with
  | h hd cs ih =>
    rintro ⟨hd', cs'⟩
    rw [rename_mk, cmpEqual, cmpEqual, List.isEmpty_map]
    have hL : ∀ (ds ds' : List Node), (∀ d ∈ ds, d ∈ cs) → cmpEquals (ds.map (rename ρ)) ds' = cmpEquals ds ds' := by
      intro ds
      induction ds with
      | nil => intro ds' _; cases ds' <;> rfl
      | cons d ds ihd =>
        intro ds' hs
        cases ds' with
        | nil => rfl
        | cons d' ds' =>
          rw [List.map_cons, cmpEquals, cmpEquals, ih d (hs d (by simp)), ihd ds' (fun x hx => hs x (by simp [hx]))]
    rw [hL cs cs' (fun _ h => h)]
    rfl

/-- All searches of an overlay. -/
def Overlay.queries (o : Overlay) : List Query :=
  o.query ++ (o.onMissing.injectPath.getD []) ++ (o.documentQuery.flatten.flatMap Condition.query)

theorem findAll_rename {ρ : Nat → Nat} (hi : Function.Injective ρ) {qs : List Query} (hq : ∀ q ∈ qs, AnyPlace q) {t : Node}
    (ht : t.addrs.Nodup) : findAll qs (rename ρ t) = (findAll qs t).map (rename ρ) := by
  unfold findAll
  have hc : ((rename ρ t).hd.kind = .document ∧ (rename ρ t).content = []) ↔ (t.hd.kind = .document ∧ t.content = []) := by
    rw [rename_hd, rename_content, List.map_eq_nil_iff]; rfl
  by_cases h : t.hd.kind = .document ∧ t.content = []
  · rw [if_pos h, if_pos (hc.2 h)]; rfl
  · rw [if_neg h, if_neg (fun x => h (hc.1 x)), List.map_flatMap]
    induction qs with
    | nil => rfl
    | cons q qs ih => rw [List.flatMap_cons, List.flatMap_cons, hq q (by simp) ρ t hi ht, ih (fun x hx => hq x (by simp [hx]))]

theorem checkQueries_rename {ρ : Nat → Nat} (hi : Function.Injective ρ) {dqs : List DocumentQuery}
    (hq : ∀ q ∈ dqs.flatten.flatMap Condition.query, AnyPlace q) {t : Node} (ht : t.addrs.Nodup) :
    checkQueries dqs (rename ρ t) = checkQueries dqs t := by
  have hcond : ∀ dq ∈ dqs, ∀ c ∈ dq, checkCondition c (rename ρ t) = checkCondition c t := by
    intro dq hdq c hc
    have hall : ∀ q ∈ c.query, AnyPlace q := fun q hq' => hq q (List.mem_flatMap.2 ⟨c, List.mem_flatten.2 ⟨dq, hdq, hc⟩, hq'⟩)
    simp only [checkCondition, findAll_rename hi hall ht, List.isEmpty_map, List.all_map, Function.comp_def, cmpEqual_rename]
  have hdq : ∀ dq ∈ dqs, checkQuery dq (rename ρ t) = checkQuery dq t := by
    intro dq hdq
    simp only [checkQuery]
    have := hcond dq hdq
    clear hcond hdq
    induction dq with
    | nil => rfl
    | cons c cs ih => rw [List.all_cons, List.all_cons, this c (by simp), ih (fun x hx => this x (by simp [hx]))]
  simp only [checkQueries]
  have : dqs.any (fun q => checkQuery q (rename ρ t)) = dqs.any (fun q => checkQuery q t) := by
    clear hq hcond
    induction dqs with
    | nil => rfl
    | cons d ds ih => rw [List.any_cons, List.any_cons, hdq d (by simp), ih (fun x hx => hdq x (by simp [hx]))]
  rw [this]

end Yot
