import Verif.Lemmas.HeapAction
namespace Yot
open Spec HM

/-! ### Edits that cannot cut a match off -/

theorem combineNode_addrs {E : Sed} {n v n' : Node} (h : combineNode E n v = .ok n') : n'.addrs = n.addrs := by
  obtain ⟨hd, cs⟩ := n
  unfold combineNode at h
  split at h
  · simp at h
  · dsimp only at h
    repeat' split at h
    all_goals first
      | (simp only [Res.ok.injEq] at h; subst h; rw [addrs_mk, addrs_mk, Node.hd_mk, mergeComments_keepAddr]; rfl)
      | simp at h

theorem modifyAt_addrs {a : Nat} {f : Node → Res Err Node} (hf : ∀ n n', f n = .ok n' → n'.addrs = n.addrs) (t : Node) :
    ∀ t', modifyAt a f t = .ok t' → t'.addrs = t.addrs := by
  induction t using Node.ind with
  | h hd cs ih =>
    intro t' h
    rcases modifyAt_cases h with ⟨-, h⟩ | ⟨-, h1, h2⟩
    · exact hf _ _ h
    · obtain ⟨hd', cs'⟩ := t'
      simp only [Node.hd_mk, Node.content_mk] at h1 h2
      subst h1
      rw [addrs_mk, addrs_mk]
      congr 1
      clear h
      induction h2 with
      | nil => rfl
      | cons hc _ ihc =>
        rw [Node.addrss, Node.addrss, ih _ (by simp) _ hc, ihc (fun c hc' => ih c (by simp [hc']))]

theorem attached_combine {E : Sed} {o : Overlay} (ho : o.action = .combine) (ps : List Nat) :
    ∀ t : Node, (∀ p ∈ ps, p ∈ t.addrs) → Attached E o t ps := by
  induction ps with
  | nil => intro t _; exact trivial
  | cons p ps ih =>
    intro t h
    refine ⟨h p (by simp), fun t' ht => ih t' fun q hq => ?_⟩
    have : doOne E o t p = modifyAt p (fun n => combineNode E n o.value) t := by unfold doOne; rw [ho]
    rw [this] at ht
    rw [modifyAt_addrs (fun n n' h => combineNode_addrs h) t t' ht]
    exact h q (by simp [hq])

theorem neverFails_replace {E : Sed} {o : Overlay} (ho : o.action = .replace) : NeverFails E o := by
  intro n; unfold editNode; rw [ho]; exact ⟨_, rfl⟩

theorem neverFails_merge {E : Sed} {o : Overlay} (h1 : o.action = .merge ∨ o.action = .invalid)
    (h2 : AllNodes (fun h => h.kind ≠ .document ∧ h.kind ≠ .alias) o.value) : NeverFails E o := by
  intro n
  obtain ⟨n', h⟩ := merge_ok E o.value h2 n []
  refine ⟨n', ?_⟩
  unfold editNode
  rcases h1 with h1 | h1 <;> rw [h1] <;> exact h

/-! ### Matches that do not lie inside each other -/

theorem merge_keepAddr (E : Sed) (n : Node) : ∀ o vals o', merge E o vals n = .ok o' → o'.hd.addr = o.hd.addr := by
  induction n using Node.ind with
  | h nh ncs ih =>
    intro o vals o' h
    cases hk : nh.kind with
    | document =>
      rw [merge_document E o vals hk] at h
      split_ifs at h
      · simp only [Res.ok.injEq] at h; rw [h]
      · cases hoc : o.content with
        | nil => rw [hoc] at h; simp at h
        | cons oc ocs =>
          cases ncs with
          | nil => rw [hoc] at h; simp at h
          | cons nc ncs =>
            rw [hoc] at h
            dsimp only at h
            revert h
            generalize merge E oc _ nc = r
            cases r with
            | ok x =>
              simp only [Res.bind_ok, Res.ok.injEq]
              intro h
              rw [← h]; exact mergeComments_keepAddr _ _ _ _
            | err e => simp
            | panic => simp
    | mapping =>
      rw [merge_mapping E o vals hk] at h
      clear ih hk
      induction ncs using pairInduction generalizing o with
      | h0 => simp only [mergeEntries, Res.ok.injEq] at h; rw [h]
      | h1 a => simp only [mergeEntries, Res.ok.injEq] at h; rw [h]
      | h2 k v ds ihd =>
        rw [mergeEntries] at h
        cases hin : mergeInner E (fun x key => merge E x [key] v) k.hd (toMapping o).content with
        | ok r =>
          rw [hin] at h
          simp only [Res.bind_ok] at h
          rw [ihd _ h]
          obtain ⟨hd, cs⟩ := o
          simp only [toMapping]
          split_ifs <;> rfl
        | err e => rw [hin] at h; simp at h
        | panic => rw [hin] at h; simp at h
    | sequence =>
      rw [merge_sequence E o vals hk] at h
      simp only [Res.ok.injEq] at h
      rw [← h]
      obtain ⟨hd, cs⟩ := o
      simp only [mergeArray, toSequence, addNode, appendContent]
      split_ifs <;> simp [mergeComments_keepAddr]
    | scalar =>
      rw [merge_scalar E o vals hk] at h
      simp only [Res.ok.injEq] at h
      rw [← h]
      exact mergeScalar_addr E o nh vals
    | «alias» => rw [merge_alias E o vals hk] at h; simp at h
    | zero =>
      rw [merge_zero E o vals hk] at h
      simp only [Res.ok.injEq] at h
      rw [← h]; rfl

theorem editNode_keepAddr {E : Sed} {a : Action} {v n n' : Node} (h : editNode E a v n = .ok n') : n'.hd.addr = n.hd.addr := by
  unfold editNode at h
  split at h
  · simp only [Res.ok.injEq] at h; rw [← h]; rfl
  · have := combineNode_addrs h
    obtain ⟨x, y⟩ := n; obtain ⟨x', y'⟩ := n'
    rw [addrs_mk, addrs_mk] at this
    exact (List.cons.inj this).1
  · exact merge_keepAddr E v n [] n' h

theorem Spec.Outermost.mem {ms : List Nat} {p : Nat} {t : Node} (h : Outermost ms p t) : p ∈ t.addrs := by
  induction h with
  | here h => rw [addrs_mk, h]; simp
  | inside _ hc _ ih => rw [addrs_mk]; simp [addrs_subset hc ih]

theorem Spec.Outermost.keep {ms : List Nat} {p q : Nat} {t : Node} (h : Outermost ms q t) (hp : p ∈ ms)
    {f : Node → Res Err Node} (hf : ∀ n n', f n = .ok n' → n'.hd.addr = n.hd.addr) :
    ∀ {t'}, modifyAt p f t = .ok t' → Outermost ms q t' := by
  induction h with
  | @here hd cs h =>
    intro t' ht
    obtain ⟨hd', cs'⟩ := t'
    refine .here ?_
    rcases modifyAt_cases ht with ⟨_, h1⟩ | ⟨_, h1, _⟩
    · exact (hf _ _ h1).trans h
    · exact (congrArg Hdr.addr h1).trans h
  | @inside hd cs c hn hc _ ih =>
    intro t' ht
    rcases modifyAt_cases ht with ⟨h1, _⟩ | ⟨-, h1, h2⟩
    · exact absurd (h1 ▸ hp) hn
    · obtain ⟨hd', cs'⟩ := t'
      simp only [Node.hd_mk, Node.content_mk] at h1 h2
      subst h1
      have : ∃ c' ∈ cs', modifyAt p f c = .ok c' := by
        clear ht ih
        induction h2 with
        | nil => simp at hc
        | cons h _ ih =>
          rcases List.mem_cons.1 hc with rfl | hc
          · exact ⟨_, by simp, h⟩
          · obtain ⟨c', h1, h2⟩ := ih hc
            exact ⟨c', by simp [h1], h2⟩
      obtain ⟨c', h3, h4⟩ := this
      exact .inside hn h3 (ih h4)

theorem attached_unnested {E : Sed} {o : Overlay} (ho : o.action ≠ .delete) (qs : List Nat) (ps : List Nat) :
    (∀ p ∈ ps, p ∈ qs) → ∀ t : Node, (∀ p ∈ ps, Outermost qs p t) → Attached E o t ps := by
  induction ps with
  | nil => intro _ t _; exact trivial
  | cons p ps ih =>
    intro hs t h
    refine ⟨(h p (by simp)).mem, fun t' ht => ih (fun q hq => hs q (by simp [hq])) t' fun q hq => ?_⟩
    rw [doOne_edit ho] at ht
    exact (h q (by simp [hq])).keep (hs p (by simp)) (fun n n' h => editNode_keepAddr h) ht

end Yot
