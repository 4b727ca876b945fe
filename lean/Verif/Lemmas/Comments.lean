import Verif.Lemmas.WF
import Verif.Model.Overlay
/-
What edits do to the comments of the nodes that stay in the document.
-/
namespace Yot
open Spec

theorem allNodes_mk (p : Hdr → Prop) (h : Hdr) (cs : List Node) :
    AllNodes p (.mk h cs) ↔ p h ∧ ∀ c ∈ cs, AllNodes p c := by
  rw [AllNodes, AllNodess_iff]

theorem allNodes_iff (p : Hdr → Prop) (n : Node) : AllNodes p n ↔ p n.hd ∧ ∀ c ∈ n.content, AllNodes p c := by
  obtain ⟨h, cs⟩ := n; exact allNodes_mk p h cs

/-- A statement about nodes of the document that looks at the address and the comments
only, holds of new nodes, and survives merging comments from headers with `ok`. -/
structure Steady (E : Sed) (ok p : Hdr → Prop) : Prop where
  same : ∀ {h h' : Hdr}, p h → h.addr = h'.addr → h.head = h'.head → h.line = h'.line → h.foot = h'.foot → p h'
  comm : ∀ h n vals, ok n → p h → p (mergeComments E h n vals)
  new : ∀ h : Hdr, h.addr = 0 → p h

section
variable {E : Sed} {ok p : Hdr → Prop} (S : Steady E ok p)
include S

theorem mergeScalar_steady (o : Node) (n : Hdr) (vals : List Str) (hn : ok n) (h : AllNodes p o) :
    AllNodes p (mergeScalar E o n vals) := by
  rw [allNodes_iff] at h
  have hc := S.comm o.hd n vals hn h.1
  unfold mergeScalar
  dsimp only
  split
  · rw [allNodes_mk]
    exact ⟨S.same hc rfl rfl rfl rfl, by simp⟩
  · rw [allNodes_mk]
    exact ⟨S.same hc rfl rfl rfl rfl, h.2⟩

theorem toMapping_steady (o : Node) (h : AllNodes p o) : AllNodes p (toMapping o) := by
  unfold toMapping
  split
  · rw [allNodes_mk]; exact ⟨S.same ((allNodes_iff _ _).1 h).1 rfl rfl rfl rfl, by simp⟩
  · exact h

theorem toSequence_steady (o : Node) (h : AllNodes p o) : AllNodes p (toSequence o) := by
  unfold toSequence
  split
  · rw [allNodes_mk]; exact ⟨S.same ((allNodes_iff _ _).1 h).1 rfl rfl rfl rfl, by simp⟩
  · exact h

theorem fresh_steady (n : Node) : AllNodes p n.fresh := by
  induction n using Node.ind with
  | h hd cs ih =>
    rw [Node.fresh, freshs_eq_map, allNodes_mk]
    refine ⟨S.new _ rfl, ?_⟩
    intro c hc
    obtain ⟨d, hd, rfl⟩ := List.mem_map.1 hc
    exact ih d hd

theorem sanitize_fresh_steady (n : Node) : AllNodes p (sanitizeNode E n.fresh) := by
  induction n using Node.ind with
  | h hd cs ih =>
    rw [Node.fresh, sanitizeNode, sanitizeNodes_eq_map, freshs_eq_map, allNodes_mk, List.map_map]
    refine ⟨S.new _ rfl, ?_⟩
    intro c hc
    obtain ⟨d, hd, rfl⟩ := List.mem_map.1 hc
    exact ih d hd

theorem addNode_steady (o : Node) (ns : List Node) (h : AllNodes p o) : AllNodes p (addNode E o ns) := by
  rw [allNodes_iff] at h
  simp only [addNode, appendContent]
  rw [allNodes_mk]
  refine ⟨S.same h.1 rfl rfl rfl rfl, ?_⟩
  intro c hc
  rcases List.mem_append.1 hc with hc | hc
  · exact h.2 c hc
  · rw [sanitizeNodes_eq_map, freshs_eq_map, List.map_map] at hc
    obtain ⟨d, _, rfl⟩ := List.mem_map.1 hc
    exact sanitize_fresh_steady S d

theorem mergeInner_steady (f : Node → Str → Res Err Node) (nk : Hdr) (hnk : ok nk)
    (hf : ∀ x key x', AllNodes p x → f x key = .ok x' → AllNodes p x')
    (cs cs' : List Node) (b : Bool) (hcs : ∀ c ∈ cs, AllNodes p c)
    (h : mergeInner E f nk cs = .ok (cs', b)) : ∀ c ∈ cs', AllNodes p c := by
  induction cs using pairInduction generalizing cs' b with
  | h0 => simp [mergeInner] at h; obtain ⟨rfl, rfl⟩ := h; simp
  | h1 a => simp [mergeInner] at h; obtain ⟨rfl, rfl⟩ := h; simpa using hcs
  | h2 k v cs ih =>
    have hcs' : ∀ c ∈ cs, AllNodes p c := fun c hc => hcs c (by simp [hc])
    rw [mergeInner] at h
    split at h
    · simp only [Res.bind_eq_ok, Res.pure_eq, Res.ok.injEq, Prod.mk.injEq] at h
      obtain ⟨⟨r, b'⟩, hr, h1, h2⟩ := h
      have l2 := ih r b' hcs' hr
      subst h1
      intro c hc
      rcases List.mem_cons.1 hc with rfl | hc
      · exact hcs _ (by simp)
      rcases List.mem_cons.1 hc with rfl | hc
      · exact hcs _ (by simp)
      exact l2 c hc
    · dsimp only at h
      simp only [Res.bind_eq_ok] at h
      obtain ⟨v', hv', h⟩ := h
      have hwv := hf _ _ _ (hcs v (by simp)) hv'
      have hk1 : ∀ vals, AllNodes p (.mk (mergeComments E k.hd nk vals) k.content) := by
        intro vals
        have := hcs k (by simp)
        rw [allNodes_iff] at this
        rw [allNodes_mk]
        exact ⟨S.comm _ _ _ hnk this.1, this.2⟩
      split at h
      · simp only [Res.pure_eq, Res.ok.injEq, Prod.mk.injEq] at h
        obtain ⟨rfl, rfl⟩ := h
        intro c hc
        rcases List.mem_cons.1 hc with rfl | hc
        · exact hk1 _
        rcases List.mem_cons.1 hc with rfl | hc
        · exact hwv
        exact hcs' c hc
      · simp only [Res.bind_eq_ok, Res.pure_eq, Res.ok.injEq, Prod.mk.injEq] at h
        obtain ⟨⟨r, b'⟩, hr, h1, h2⟩ := h
        have l2 := ih r b' hcs' hr
        subst h1
        intro c hc
        rcases List.mem_cons.1 hc with rfl | hc
        · exact mergeScalar_steady S _ _ _ hnk (hk1 _)
        rcases List.mem_cons.1 hc with rfl | hc
        · exact hwv
        exact l2 c hc

theorem merge_steady (n : Node) : AllNodes ok n →
    ∀ (o o' : Node) (vals : List Str), AllNodes p o → merge E o vals n = .ok o' → AllNodes p o' := by
  induction n using Node.ind with
  | h nh ncs ih =>
    intro hn o o' vals ho h
    rw [allNodes_mk] at hn
    cases hk : nh.kind with
    | zero =>
      rw [merge_zero E o vals hk] at h; cases h
      rw [allNodes_iff] at ho
      rw [allNodes_mk]; exact ⟨S.same ho.1 rfl rfl rfl rfl, ho.2⟩
    | «alias» => rw [merge_alias E o vals hk] at h; simp at h
    | scalar =>
      rw [merge_scalar E o vals hk] at h; cases h
      have := mergeScalar_steady S o nh vals hn.1 ho
      rw [allNodes_iff] at this
      rw [allNodes_mk]; exact ⟨S.same this.1 rfl rfl rfl rfl, this.2⟩
    | sequence =>
      rw [merge_sequence E o vals hk] at h; cases h
      have h1 := toSequence_steady S o ho
      unfold mergeArray
      dsimp only
      split
      · exact h1
      · refine addNode_steady S _ _ ?_
        rw [allNodes_iff] at h1
        rw [allNodes_mk]
        exact ⟨S.comm _ _ _ hn.1 h1.1, h1.2⟩
    | document =>
      rw [merge_document E o vals hk] at h
      split at h
      · cases h; exact ho
      · split at h
        · rename_i oc ocs nc _ hoc _
          simp only [Res.bind_eq_ok, Res.ok.injEq] at h
          obtain ⟨oc', h1, rfl⟩ := h
          rw [allNodes_iff, hoc] at ho
          have hw := ih nc (by simp) (hn.2 nc (by simp)) oc oc' _ (ho.2 oc (by simp)) h1
          rw [allNodes_mk]
          refine ⟨S.comm _ _ _ hn.1 ho.1, ?_⟩
          intro c hc
          rcases List.mem_cons.1 hc with rfl | hc
          · exact hw
          · exact ho.2 c (by simp [hc])
        · simp at h
    | mapping =>
      rw [merge_mapping E o vals hk] at h
      have key : ∀ ds : List Node, (∀ c ∈ ds, c ∈ ncs) → ∀ o o', AllNodes p o →
          mergeEntries E o ds = .ok o' → AllNodes p o' := by
        intro ds
        induction ds using pairInduction with
        | h0 => intro _ o o' ho h; simp [mergeEntries] at h; subst h; exact ho
        | h1 a => intro _ o o' ho h; simp [mergeEntries] at h; subst h; exact ho
        | h2 k v ds ihd =>
          intro hsub o o' ho h
          simp only [mergeEntries, Res.bind_eq_ok] at h
          obtain ⟨⟨cs', b⟩, hi, h⟩ := h
          have h1 := toMapping_steady S o ho
          rw [allNodes_iff] at h1
          have l2 := mergeInner_steady S _ k.hd ((allNodes_iff _ _).1 (hn.2 k (hsub k (by simp)))).1 (fun x key x' hx hm =>
            ih v (hsub v (by simp)) (hn.2 v (hsub v (by simp))) x x' [key] hx hm) _ _ _ h1.2 hi
          have h2 : AllNodes p (.mk (toMapping o).hd cs') := by
            rw [allNodes_mk]; exact ⟨h1.1, l2⟩
          refine ihd (fun c hc => hsub c (by simp [hc])) _ o' ?_ h
          dsimp only
          split
          · exact h2
          · exact addNode_steady S _ _ h2
      exact key ncs (fun _ h => h) o o' ho h

theorem replace_steady (o n : Node) (hn : ok n.hd) (hno : ∀ h : Hdr, ok h → ok { h with addr := 0 }) (h : AllNodes p o) :
    AllNodes p (replaceNode E o n) := by
  rw [allNodes_iff] at h
  obtain ⟨nh, ncs⟩ := n
  have hf := fresh_steady S (.mk nh ncs)
  rw [Node.fresh, allNodes_mk] at hf
  simp only [replaceNode, Node.fresh, Node.hd_mk, Node.content_mk]
  rw [allNodes_mk]
  refine ⟨S.same (S.comm o.hd { nh with addr := 0 } [] (hno _ hn) h.1) ?_ rfl rfl rfl, hf.2⟩
  unfold mergeComments
  repeat' split
  all_goals rfl

theorem combine_steady (o n o' : Node) (hn : ok n.hd) (h : AllNodes p o) (hc : combineNode E o n = .ok o') :
    AllNodes p o' := by
  rw [allNodes_iff] at h
  have hm := S.comm o.hd n.hd [] hn h.1
  unfold combineNode at hc
  split at hc
  · simp at hc
  · dsimp only at hc
    repeat' split at hc
    all_goals first
      | (cases hc; rw [allNodes_mk]; exact ⟨S.same hm rfl rfl rfl rfl, h.2⟩)
      | simp at hc

theorem modifyAt_steady (a : Nat) (f : Node → Res Err Node) (hf : ∀ x x', AllNodes p x → f x = .ok x' → AllNodes p x')
    (n : Node) : ∀ n', AllNodes p n → modifyAt a f n = .ok n' → AllNodes p n' := by
  induction n using Node.ind with
  | h hd cs ih =>
    intro n' hn h
    rw [modifyAt] at h
    split at h
    · exact hf _ _ hn h
    · rw [allNodes_mk] at hn
      simp only [Res.bind_eq_ok, Res.ok.injEq] at h
      obtain ⟨cs', h1, rfl⟩ := h
      rw [allNodes_mk]
      refine ⟨hn.1, ?_⟩
      have key : ∀ ds ds', (∀ c ∈ ds, c ∈ cs) → modifyAts a f ds = .ok ds' → ∀ c ∈ ds', AllNodes p c := by
        intro ds
        induction ds with
        | nil => intro ds' _ h; simp [modifyAts] at h; subst h; simp
        | cons d ds ihd =>
          intro ds' hsub h
          simp only [modifyAts, Res.bind_eq_ok, Res.ok.injEq] at h
          obtain ⟨d', hd', es, hes, rfl⟩ := h
          intro c hc
          rcases List.mem_cons.1 hc with rfl | hc
          · exact ih d (hsub d (by simp)) _ (hn.2 d (hsub d (by simp))) hd'
          · exact ihd es (fun c hc => hsub c (by simp [hc])) hes c hc
      exact key cs cs' (fun _ h => h) h1

theorem deleteNode_steady (a : Nat) (n : Node) : ∀ n', AllNodes p n → deleteNode a n = .ok n' → AllNodes p n' := by
  induction n using Node.ind with
  | h hd cs ih =>
    intro n' hn h
    rw [allNodes_mk] at hn
    rw [deleteNode] at h
    simp only [Res.bind_eq_ok] at h
    obtain ⟨⟨cs', i⟩, h1, h2⟩ := h
    have key : ∀ ds ds' i, (∀ c ∈ ds, c ∈ cs) → deleteScan a ds = .ok (ds', i) → ∀ c ∈ ds', AllNodes p c := by
      intro ds
      induction ds with
      | nil => intro ds' i _ h; simp [deleteScan] at h; obtain ⟨rfl, _⟩ := h; simp
      | cons d ds ihd =>
        intro ds' i hsub h
        rw [deleteScan] at h
        split at h
        · simp only [Res.ok.injEq, Prod.mk.injEq] at h
          obtain ⟨rfl, _⟩ := h
          exact fun c hc => hn.2 c (hsub c hc)
        · simp only [Res.bind_eq_ok, Res.ok.injEq] at h
          obtain ⟨d', hd', ⟨es, j⟩, hes, h⟩ := h
          simp only [Prod.mk.injEq] at h
          obtain ⟨rfl, _⟩ := h
          intro c hc
          rcases List.mem_cons.1 hc with rfl | hc
          · exact ih d (hsub d (by simp)) _ (hn.2 d (hsub d (by simp))) hd'
          · exact ihd es j (fun c hc => hsub c (by simp [hc])) hes c hc
    have hcs' := key cs cs' i (fun _ h => h) h1
    cases i with
    | none =>
      simp only [Res.ok.injEq] at h2
      subst h2
      rw [allNodes_mk]; exact ⟨hn.1, hcs'⟩
    | some i =>
      simp only [Res.bind_eq_ok, Res.ok.injEq] at h2
      obtain ⟨ds, hds, rfl⟩ := h2
      rw [allNodes_mk]
      refine ⟨S.same hn.1 rfl rfl rfl rfl, ?_⟩
      unfold deleteIndex at hds
      dsimp only at hds
      split at hds
      · cases hds
        intro c hc
        rcases List.mem_append.1 hc with hc | hc
        · exact hcs' c (List.mem_of_mem_take hc)
        · exact hcs' c (List.mem_of_mem_drop hc)
      · simp at hds

theorem doAction_steady (hno : ∀ h : Hdr, ok h → ok { h with addr := 0 }) (o : Overlay) (hv : AllNodes ok o.value)
    (root root' : Node) (nodes : List Node) (hr : AllNodes p root) (h : doAction E o root nodes = .ok root') :
    AllNodes p root' := by
  unfold doAction at h
  induction nodes generalizing root with
  | nil => simp only [List.foldlM_nil, Res.pure_eq, Res.ok.injEq] at h; subst h; exact hr
  | cons m ms ih =>
    simp only [List.foldlM_cons, Res.bind_eq_ok] at h
    obtain ⟨r, h1, h2⟩ := h
    refine ih r ?_ h2
    have hv1 := ((allNodes_iff _ _).1 hv).1
    unfold doOne at h1
    split at h1
    · exact deleteNode_steady S _ _ _ hr h1
    · exact modifyAt_steady S _ _ (fun x x' hx h => by cases h; exact replace_steady S x o.value hv1 hno hx) _ _ hr h1
    · exact modifyAt_steady S _ _ (fun x x' hx h => combine_steady S x o.value x' hv1 hx h) _ _ hr h1
    · exact modifyAt_steady S _ _ (fun x x' hx h => merge_steady S o.value hv x x' [] hx h) _ _ hr h1
end


theorem allNodes_headers (p : Hdr → Prop) (n : Node) : AllNodes p n ↔ ∀ h ∈ headers n, p h := by
  induction n using Node.ind with
  | h hd cs ih =>
    rw [allNodes_mk, headers]
    simp only [List.mem_cons, List.mem_append, forall_eq_or_imp]
    refine and_congr_right fun _ => ?_
    have key : ∀ ds : List Node, (∀ c ∈ ds, c ∈ cs) → ((∀ c ∈ ds, AllNodes p c) ↔ ∀ h ∈ headerss ds, p h) := by
      intro ds
      induction ds with
      | nil => intro _; simp [headerss]
      | cons d ds ihd =>
        intro hsub
        rw [headerss]
        simp only [List.mem_append, List.mem_cons, forall_eq_or_imp]
        rw [ih d (hsub d (by simp)), ihd (fun c hc => hsub c (by simp [hc]))]
        constructor
        · rintro ⟨h1, h2⟩ h (hh | hh)
          · exact h1 h hh
          · exact h2 h hh
        · intro h
          exact ⟨fun x hx => h x (.inl hx), fun x hx => h x (.inr hx)⟩
    exact key cs (fun _ h => h)

end Yot
