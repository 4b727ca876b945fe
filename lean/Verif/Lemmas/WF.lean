import Verif.Lemmas.Frame
namespace Yot
open Spec

theorem WellFormeds_iff (cs : List Node) : WellFormeds cs ↔ ∀ c ∈ cs, WellFormed c := by
  induction cs with
  | nil => simp [WellFormeds]
  | cons c cs ih => simp [WellFormeds, ih]

theorem wf_mk (h : Hdr) (cs : List Node) :
    WellFormed (.mk h cs) ↔ Shaped h.kind cs.length ∧ ∀ c ∈ cs, WellFormed c := by
  rw [WellFormed, WellFormeds_iff]

theorem wf_iff (n : Node) :
    WellFormed n ↔ Shaped n.hd.kind n.content.length ∧ ∀ c ∈ n.content, WellFormed c := by
  obtain ⟨h, cs⟩ := n; exact wf_mk h cs

theorem mapStrings_wf (f : Str → Str) (n : Node) : WellFormed n → WellFormed (mapStrings f n) := by
  induction n using Node.ind with
  | h hd cs ih =>
    rw [wf_mk]
    intro ⟨h1, h2⟩
    rw [mapStrings, mapStringss_eq_map, wf_mk]
    refine ⟨by simpa using h1, ?_⟩
    intro c hc
    obtain ⟨d, hd, rfl⟩ := List.mem_map.1 hc
    exact ih d hd (h2 d hd)

theorem sanitize_fresh_wf (E : Sed) (n : Node) : WellFormed n → WellFormed (sanitizeNode E n.fresh) := by
  induction n using Node.ind with
  | h hd cs ih =>
    rw [wf_mk]
    intro ⟨h1, h2⟩
    rw [Node.fresh, sanitizeNode, sanitizeNodes_eq_map, freshs_eq_map, wf_mk, List.map_map]
    refine ⟨by simpa [sanitizeHdr] using h1, ?_⟩
    intro c hc
    obtain ⟨d, hd, rfl⟩ := List.mem_map.1 hc
    exact ih d hd (h2 d hd)

theorem fresh_wf (n : Node) (h : WellFormed n) : WellFormed n.fresh := by
  rw [fresh_eq_copyOf]; exact mapStrings_wf id n h

theorem mergeScalar_wf (E : Sed) (o : Node) (n : Hdr) (vals : List Str) (h : WellFormed o) :
    WellFormed (mergeScalar E o n vals) := by
  rw [wf_iff] at h
  have hk := mergeComments_fields E o.hd n vals
  unfold mergeScalar
  dsimp only
  split
  · rw [wf_mk]; simp [Shaped]
  · rename_i ho
    simp only [ne_eq, Decidable.not_not] at ho
    rw [wf_mk]
    simp only [hk.1]
    exact h

theorem toMapping_wf (o : Node) (h : WellFormed o) : WellFormed (toMapping o) := by
  unfold toMapping
  split
  · rw [wf_mk]; simp [Shaped]
  · exact h

theorem toSequence_wf (o : Node) (h : WellFormed o) : WellFormed (toSequence o) := by
  unfold toSequence
  split
  · rw [wf_mk]; simp [Shaped]
  · exact h

theorem toMapping_kind (o : Node) : (toMapping o).hd.kind = .mapping := by
  unfold toMapping
  split
  · rfl
  · rename_i h; simpa using h

theorem toSequence_kind (o : Node) : (toSequence o).hd.kind = .sequence := by
  unfold toSequence
  split
  · rfl
  · rename_i h; simpa using h

theorem mergeInner_wf (E : Sed) (f : Node → Str → Res Err Node) (nk : Hdr)
    (hf : ∀ x key x', WellFormed x → f x key = .ok x' → WellFormed x')
    (cs cs' : List Node) (b : Bool) (hcs : ∀ c ∈ cs, WellFormed c)
    (h : mergeInner E f nk cs = .ok (cs', b)) :
    cs'.length = cs.length ∧ ∀ c ∈ cs', WellFormed c := by
  induction cs using pairInduction generalizing cs' b with
  | h0 => simp [mergeInner] at h; obtain ⟨rfl, rfl⟩ := h; simp
  | h1 a => simp [mergeInner] at h; obtain ⟨rfl, rfl⟩ := h; simpa using hcs
  | h2 k v cs ih =>
    have hcs' : ∀ c ∈ cs, WellFormed c := fun c hc => hcs c (by simp [hc])
    rw [mergeInner] at h
    split at h
    · simp only [Res.bind_eq_ok, Res.pure_eq, Res.ok.injEq, Prod.mk.injEq] at h
      obtain ⟨⟨r, b'⟩, hr, h1, h2⟩ := h
      obtain ⟨l1, l2⟩ := ih r b' hcs' hr
      subst h1
      refine ⟨by simp [l1], ?_⟩
      intro c hc
      rcases List.mem_cons.1 hc with rfl | hc
      · exact hcs _ (by simp)
      rcases List.mem_cons.1 hc with rfl | hc
      · exact hcs _ (by simp)
      exact l2 c hc
    · dsimp only at h
      simp only [Res.bind_eq_ok] at h
      obtain ⟨v', hv', h⟩ := h
      have hwv := hf _ _ _ (hcs v (by simp)) hv'
      have hk1 : ∀ vals, WellFormed (.mk (mergeComments E k.hd nk vals) k.content) := by
        intro vals
        have := hcs k (by simp)
        rw [wf_iff] at this
        rw [wf_mk, (mergeComments_fields E k.hd nk vals).1]
        exact this
      split at h
      · simp only [Res.pure_eq, Res.ok.injEq, Prod.mk.injEq] at h
        obtain ⟨rfl, rfl⟩ := h
        refine ⟨by simp, ?_⟩
        intro c hc
        rcases List.mem_cons.1 hc with rfl | hc
        · exact hk1 _
        rcases List.mem_cons.1 hc with rfl | hc
        · exact hwv
        exact hcs' c hc
      · simp only [Res.bind_eq_ok, Res.pure_eq, Res.ok.injEq, Prod.mk.injEq] at h
        obtain ⟨⟨r, b'⟩, hr, h1, h2⟩ := h
        obtain ⟨l1, l2⟩ := ih r b' hcs' hr
        subst h1
        refine ⟨by simp [l1], ?_⟩
        intro c hc
        rcases List.mem_cons.1 hc with rfl | hc
        · exact mergeScalar_wf E _ _ _ (hk1 _)
        rcases List.mem_cons.1 hc with rfl | hc
        · exact hwv
        exact l2 c hc

theorem addNode_wf (E : Sed) (o : Node) (ns : List Node) (ho : WellFormed o)
    (hk : o.hd.kind = .mapping ∧ ns.length % 2 = 0 ∨ o.hd.kind = .sequence)
    (hns : ∀ c ∈ ns, WellFormed c) : WellFormed (addNode E o ns) := by
  rw [wf_iff] at ho
  simp only [addNode, appendContent]
  rw [wf_mk]
  constructor
  · simp only [List.length_append, sanitizeNodes_eq_map, freshs_eq_map, List.length_map]
    rcases hk with ⟨hk, hl⟩ | hk
    · have := ho.1
      simp only [hk, Shaped] at this ⊢
      omega
    · simp [hk, Shaped]
  · intro c hc
    rcases List.mem_append.1 hc with hc | hc
    · exact ho.2 c hc
    · rw [sanitizeNodes_eq_map, freshs_eq_map, List.map_map] at hc
      obtain ⟨d, hd, rfl⟩ := List.mem_map.1 hc
      exact sanitize_fresh_wf E d (hns d hd)

/-- Merging keeps documents well formed. -/
theorem merge_wf (E : Sed) (n : Node) : WellFormed n →
    ∀ (o o' : Node) (vals : List Str), WellFormed o → merge E o vals n = .ok o' → WellFormed o' := by
  induction n using Node.ind with
  | h nh ncs ih =>
    intro hn o o' vals ho h
    rw [wf_mk] at hn
    cases hk : nh.kind with
    | zero =>
      rw [merge_zero E o vals hk] at h; cases h
      rw [wf_mk]; rw [wf_iff] at ho; exact ho
    | «alias» => rw [merge_alias E o vals hk] at h; simp at h
    | scalar =>
      rw [merge_scalar E o vals hk] at h; cases h
      have := mergeScalar_wf E o nh vals ho
      rw [wf_iff] at this
      rw [wf_mk]; exact this
    | sequence =>
      rw [merge_sequence E o vals hk] at h; cases h
      have h1 := toSequence_wf o ho
      unfold mergeArray
      dsimp only
      split
      · exact h1
      · refine addNode_wf E _ _ ?_ (Or.inr ?_) hn.2
        · rw [wf_mk, (mergeComments_fields E _ _ _).1]; rw [wf_iff] at h1; exact h1
        · simp [(mergeComments_fields E _ _ _).1, toSequence_kind]
    | document =>
      rw [merge_document E o vals hk] at h
      split at h
      · cases h; exact ho
      · split at h
        · rename_i oc ocs nc _ hoc _
          simp only [Res.bind_eq_ok, Res.ok.injEq] at h
          obtain ⟨oc', h1, rfl⟩ := h
          rw [wf_iff, hoc] at ho
          have hw := ih nc (by simp) (hn.2 nc (by simp)) oc oc' _ (ho.2 oc (by simp)) h1
          rw [wf_mk, (mergeComments_fields E _ _ _).1]
          refine ⟨by simpa using ho.1, ?_⟩
          intro c hc
          rcases List.mem_cons.1 hc with rfl | hc
          · exact hw
          · exact ho.2 c (by simp [hc])
        · simp at h
    | mapping =>
      rw [merge_mapping E o vals hk] at h
      have key : ∀ ds : List Node, (∀ c ∈ ds, c ∈ ncs) → ∀ o o', WellFormed o →
          mergeEntries E o ds = .ok o' → WellFormed o' := by
        intro ds
        induction ds using pairInduction with
        | h0 => intro _ o o' ho h; simp [mergeEntries] at h; subst h; exact ho
        | h1 a => intro _ o o' ho h; simp [mergeEntries] at h; subst h; exact ho
        | h2 k v ds ihd =>
          intro hsub o o' ho h
          simp only [mergeEntries, Res.bind_eq_ok] at h
          obtain ⟨⟨cs', b⟩, hi, h⟩ := h
          have h1 := toMapping_wf o ho
          rw [wf_iff] at h1
          obtain ⟨l1, l2⟩ := mergeInner_wf E _ k.hd (fun x key x' hx hm =>
            ih v (hsub v (by simp)) (hn.2 v (hsub v (by simp))) x x' [key] hx hm) _ _ _ h1.2 hi
          have h2 : WellFormed (.mk (toMapping o).hd cs') := by
            rw [wf_mk]; exact ⟨by rw [l1]; exact h1.1, l2⟩
          refine ihd (fun c hc => hsub c (by simp [hc])) _ o' ?_ h
          dsimp only
          split
          · exact h2
          · refine addNode_wf E _ _ h2 (Or.inl ⟨toMapping_kind o, by simp⟩) ?_
            intro c hc
            exact hn.2 c (hsub c (by simp at hc ⊢; tauto))
      exact key ncs (fun _ h => h) o o' ho h

end Yot
