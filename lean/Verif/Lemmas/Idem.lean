import Verif.Lemmas.WF
namespace Yot
open Spec

/-- Taking over marker-free comments a second time changes nothing. -/
theorem mergeComments_idem (E : Sed) (o n : Hdr) (v v' : List Str)
    (hm : NoMarker n.head ∧ NoMarker n.line ∧ NoMarker n.foot) :
    mergeComments E (mergeComments E o n v) n v' = mergeComments E o n v := by
  unfold mergeComments
  simp only [format_id E _ hm.1, format_id E _ hm.2.1, format_id E _ hm.2.2]
  by_cases h1 : n.head = [] <;> by_cases h2 : n.line = [] <;> by_cases h3 : n.foot = [] <;>
    simp [h1, h2, h3]

/-- Taking over one's own marker-free comments changes nothing. -/
theorem mergeComments_self (E : Sed) (o n : Hdr) (v : List Str)
    (hm : NoMarker n.head ∧ NoMarker n.line ∧ NoMarker n.foot)
    (h1 : o.head = n.head) (h2 : o.line = n.line) (h3 : o.foot = n.foot) :
    mergeComments E o n v = o := by
  unfold mergeComments
  simp only [format_id E _ hm.1, format_id E _ hm.2.1, format_id E _ hm.2.2]
  cases o
  simp only at h1 h2 h3
  subst h1 h2 h3
  split
  · rfl
  · split
    · rfl
    · split <;> rfl

/-- A scalar that already is what the overlay says is not changed. -/
theorem mergeScalar_fix (E : Sed) (x : Node) (nh : Hdr) (vals : List Str)
    (m1 : NoMarker nh.value) (h1 : x.hd.kind = .scalar) (h2 : x.hd.tag = nh.tag)
    (h3 : x.hd.value = nh.value) (h4 : mergeComments E x.hd nh vals = x.hd) :
    Node.mk { (mergeScalar E x nh vals).hd with tag := nh.tag } (mergeScalar E x nh vals).content
      = x := by
  unfold mergeScalar
  rw [h4, if_neg (not_not.2 h1), format_id E _ m1, ← h2, ← h3]
  cases x; rfl

/-- An entry is absorbed: the first entry with its key exists and merging into it
changes nothing. -/
def Absorbed (E : Sed) (nk nv : Node) (ps : List (Node × Node)) : Prop :=
  ∃ A k v B, ps = A ++ (k, v) :: B ∧ nk.hd.value ∉ A.map (fun e => e.1.hd.value) ∧
    k.hd.value = nk.hd.value ∧ (∀ vals, mergeComments E k.hd nk.hd vals = k.hd) ∧
    ∀ vals, merge E v vals nv = .ok v

theorem absorbed_mergeInner (E : Sed) (nk nv : Node) (hk : NoMarker nk.hd.value) (cs : List Node)
    (h : Absorbed E nk nv (pairs cs)) :
    mergeInner E (fun x key => merge E x [key] nv) nk.hd cs = .ok (cs, true) := by
  have hmk := (checkForMarkers_iff _).2 hk
  induction cs using pairInduction with
  | h0 => obtain ⟨A, k, v, B, h1, _⟩ := h; simp [pairs] at h1
  | h1 a => obtain ⟨A, k, v, B, h1, _⟩ := h; simp [pairs] at h1
  | h2 a b cs ih =>
    obtain ⟨A, k, v, B, h1, h2, h3, h4, h5⟩ := h
    cases A with
    | nil =>
      simp only [pairs, List.nil_append, List.cons.injEq, Prod.mk.injEq] at h1
      obtain ⟨⟨rfl, rfl⟩, _⟩ := h1
      simp only [mergeInner, hmk, h3, Bool.not_false, Bool.true_and, ne_eq, not_true_eq_false,
        decide_false, Bool.false_eq_true, if_false, if_true, h5, Res.bind_ok, h4, Node.eta, Res.pure_eq]
    | cons p A =>
      simp only [pairs, List.cons_append, List.cons.injEq] at h1
      obtain ⟨rfl, h1⟩ := h1
      simp only [List.map_cons, List.mem_cons, not_or] at h2
      have hne : a.hd.value ≠ nk.hd.value := fun e => h2.1 e.symm
      have := ih ⟨A, k, v, B, h1, h2.2, h3, h4, h5⟩
      simp [mergeInner, hmk, hne, this]

/-- After its own step an entry is absorbed. -/
theorem mergeInner_absorbs (E : Sed) (nk nv : Node) (hk : NoMarker nk.hd.value)
    (hm : NoMarker nk.hd.head ∧ NoMarker nk.hd.line ∧ NoMarker nk.hd.foot)
    (cs cs' : List Node) (hcs : ∀ c ∈ cs, WellFormed c)
    (hidem : ∀ o o1 vals vals', WellFormed o → merge E o vals nv = .ok o1 → merge E o1 vals' nv = .ok o1)
    (h : mergeInner E (fun x key => merge E x [key] nv) nk.hd cs = .ok (cs', true)) :
    Absorbed E nk nv (pairs cs') := by
  have hmk := (checkForMarkers_iff _).2 hk
  induction cs using pairInduction generalizing cs' with
  | h0 => simp [mergeInner] at h
  | h1 a => simp [mergeInner] at h
  | h2 k v cs ih =>
    by_cases hkey : k.hd.value = nk.hd.value
    · simp only [mergeInner, hmk, hkey, Bool.not_false, Bool.true_and, ne_eq, not_true_eq_false,
        decide_false, Bool.false_eq_true, if_false, if_true, Res.bind_eq_ok, Res.pure_eq,
        Res.ok.injEq, Prod.mk.injEq, and_true] at h
      obtain ⟨v', hv', rfl⟩ := h
      refine ⟨[], _, _, pairs cs, by simp [pairs]; exact ⟨rfl, rfl⟩, by simp, ?_, ?_, ?_⟩
      · simpa [(mergeComments_fields E k.hd nk.hd _).2.1] using hkey
      · intro vals; exact mergeComments_idem E _ _ _ _ hm
      · intro vals; exact hidem v v' _ vals (hcs v (by simp)) hv'
    · simp [mergeInner, hmk, hkey, Res.bind_eq_ok] at h
      obtain ⟨r, hr, h1⟩ := h
      obtain ⟨A, k', v', B, e1, e2, e3⟩ := ih r (fun c hc => hcs c (by simp [hc])) hr
      subst h1
      refine ⟨(k, v) :: A, k', v', B, by simp [pairs, e1], ?_, e3⟩
      simp only [List.map_cons, List.mem_cons, not_or]
      exact ⟨fun e => hkey e.symm, e2⟩

/-- Steps for other keys do not disturb an absorbed entry. -/
theorem absorbed_kept (E : Sed) (nk nv : Node) (T : List Str) (hT : nk.hd.value ∉ T)
    (ps qs : List (Node × Node)) (h : Absorbed E nk nv ps) (hk : List.Forall₂ (Kept T) ps qs) :
    Absorbed E nk nv qs := by
  obtain ⟨A, k, v, B, rfl, h2, h3, h4⟩ := h
  obtain ⟨A', C', f1, f2, rfl⟩ := forall₂_append_left hk
  cases f2 with
  | @cons _ q _ B' g1 g2 =>
    have hq : q = (k, v) := g1.2 (by simpa [h3] using hT)
    subst hq
    refine ⟨A', k, v, B', rfl, ?_, h3, h4⟩
    have : A'.map (fun e => e.1.hd.value) = A.map (fun e => e.1.hd.value) := by
      clear h2 hk
      induction f1 with
      | nil => rfl
      | cons hd _ ih => simp [hd.1, ih]
    rw [this]; exact h2

theorem absorbed_append (E : Sed) (nk nv : Node) (ps qs : List (Node × Node))
    (h : Absorbed E nk nv ps) : Absorbed E nk nv (ps ++ qs) := by
  obtain ⟨A, k, v, B, rfl, h2⟩ := h
  exact ⟨A, k, v, B ++ qs, by simp, h2⟩

/-- If all entries are absorbed the outer loop does nothing. -/
theorem mergeEntries_absorbed (E : Sed) (ncs : List Node) (o : Node)
    (ho : ncs ≠ [] → o.hd.kind = .mapping)
    (hm : ∀ t ∈ keys ncs, NoMarker t)
    (h : ∀ e ∈ pairs ncs, Absorbed E e.1 e.2 (pairs o.content)) :
    mergeEntries E o ncs = .ok o := by
  induction ncs using pairInduction with
  | h0 => simp [mergeEntries]
  | h1 a => simp [mergeEntries]
  | h2 nk nv ncs ih =>
    have ho' := ho (by simp)
    have hto : toMapping o = o := by simp [toMapping, ho']
    have h1 := absorbed_mergeInner E nk nv (hm _ (by simp [keys, pairs])) o.content
      (h (nk, nv) (by simp [pairs]))
    simp only [mergeEntries, hto, h1, Res.bind_ok, if_true, Node.eta]
    exact ih (fun _ => ho') (fun t ht => hm t (by simp [keys, pairs] at ht ⊢; tauto))
      (fun e he => h e (by simp [pairs, he]))

theorem ScalarsAndMapsE_iff (cs : List Node) :
    ScalarsAndMapsE cs ↔ cs.length % 2 = 0 ∧ ∀ e ∈ pairs cs, ScalarsAndMaps e.2 := by
  induction cs using pairInduction with
  | h0 => simp [ScalarsAndMapsE, pairs]
  | h1 a => simp [ScalarsAndMapsE]
  | h2 a b cs ih =>
    simp only [ScalarsAndMapsE, ih, pairs, List.mem_cons, forall_eq_or_imp, List.length_cons]
    constructor
    · rintro ⟨h1, h2, h3⟩; exact ⟨by omega, h1, h3⟩
    · rintro ⟨h1, h2, h3⟩; exact ⟨h2, by omega, h3⟩

theorem pairs_mem {cs : List Node} {e : Node × Node} (h : e ∈ pairs cs) : e.1 ∈ cs ∧ e.2 ∈ cs := by
  induction cs using pairInduction with
  | h0 => simp [pairs] at h
  | h1 a => simp [pairs] at h
  | h2 a b cs ih =>
    simp only [pairs, List.mem_cons] at h
    rcases h with rfl | h
    · simp
    · have := ih h; simp [this]

theorem fresh_hd (n : Node) : n.fresh.hd = { n.hd with addr := 0 } := by
  obtain ⟨h, cs⟩ := n; rfl

theorem pairs_map (f : Node → Node) (cs : List Node) :
    pairs (cs.map f) = (pairs cs).map (fun e => (f e.1, f e.2)) := by
  induction cs using pairInduction with
  | h0 => rfl
  | h1 a => rfl
  | h2 a b cs ih => simp [pairs, ih]

/-- A copy of an overlay value is a fixed point of merging that value. -/
theorem merge_copy (E : Sed) (n : Node) : AllNodes (OnStrings NoMarker) n → ScalarsAndMaps n →
    ∀ vals, merge E n.fresh vals n = .ok n.fresh := by
  induction n using Node.ind with
  | h nh ncs ih =>
    intro hm hs vals
    obtain ⟨⟨m1, m2, m3, m4⟩, hms⟩ := hm
    rw [AllNodess_iff] at hms
    simp only [ScalarsAndMaps] at hs
    rcases hs with hk | ⟨hk, hnd, hE⟩
    · rw [merge_scalar E _ vals hk]
      have hc := mergeComments_self E (Node.fresh (.mk nh ncs)).hd nh vals ⟨m2, m3, m4⟩ rfl rfl rfl
      have hk' : (Node.fresh (.mk nh ncs)).hd.kind = .scalar := by rw [fresh_hd]; exact hk
      unfold mergeScalar
      rw [hc, if_neg (by simp [hk']), format_id E _ m1]
      rfl
    · rw [merge_mapping E _ vals hk]
      rw [ScalarsAndMapsE_iff] at hE
      refine mergeEntries_absorbed E ncs _ (fun _ => by simpa [fresh_hd] using hk) ?_ ?_
      · intro t ht
        simp only [keys, List.mem_map] at ht
        obtain ⟨e, he, rfl⟩ := ht
        have := hms e.1 (pairs_mem he).1
        obtain ⟨⟨eh, ec⟩, ev⟩ := e
        exact this.1.1
      · intro e he
        obtain ⟨A, B, hAB⟩ := List.append_of_mem he
        have hp : pairs (Node.fresh (.mk nh ncs)).content
            = A.map (fun e => (e.1.fresh, e.2.fresh)) ++ (e.1.fresh, e.2.fresh)
              :: B.map (fun e => (e.1.fresh, e.2.fresh)) := by
          simp only [Node.fresh, Node.content_mk, freshs_eq_map, pairs_map, hAB, List.map_append,
            List.map_cons]
        refine ⟨_, _, _, _, hp, ?_, by simp [fresh_hd], ?_, ?_⟩
        · simp only [List.map_map]
          have hnd' : (A.map (fun e => e.1.hd.value) ++ e.1.hd.value :: B.map (fun e => e.1.hd.value)).Nodup := by
            simpa [keys, hAB] using hnd
          rw [List.nodup_append] at hnd'
          intro hmem
          have heq : A.map ((fun e => e.1.hd.value) ∘ fun e => (e.1.fresh, e.2.fresh))
              = A.map (fun e => e.1.hd.value) := by
            apply List.map_congr_left; intro x _; simp [fresh_hd]
          rw [heq] at hmem
          exact hnd'.2.2 _ hmem _ (by simp) rfl
        · intro v
          have hkm := hms e.1 (pairs_mem he).1
          obtain ⟨⟨eh, ec⟩, ev⟩ := e
          obtain ⟨⟨_, p2, p3, p4⟩, _⟩ := hkm
          exact mergeComments_self E _ _ v ⟨p2, p3, p4⟩ rfl rfl rfl
        · intro v
          exact ih e.2 (pairs_mem he).2 (hms e.2 (pairs_mem he).2) (hE.2 e he) v

/-- Merging the same value twice is merging it once. -/
theorem merge_idem (E : Sed) (n : Node) : AllNodes (OnStrings NoMarker) n → ScalarsAndMaps n →
    WellFormed n → ∀ o o1 vals vals', WellFormed o → merge E o vals n = .ok o1 →
      merge E o1 vals' n = .ok o1 := by
  induction n using Node.ind with
  | h nh ncs ih =>
    intro hm hs hw o o1 vals vals' ho h
    obtain ⟨⟨m1, m2, m3, m4⟩, hms⟩ := hm
    rw [AllNodess_iff] at hms
    rw [wf_mk] at hw
    simp only [ScalarsAndMaps] at hs
    rcases hs with hk | ⟨hk, hnd, hE⟩
    · rw [merge_scalar E _ _ hk] at h ⊢
      simp only [Res.ok.injEq] at h
      subst h
      have hc := fun v v' => mergeComments_idem E o.hd nh v v' ⟨m2, m3, m4⟩
      have hf := mergeComments_fields E o.hd nh vals
      have key : ∀ h : Hdr, h.head = (mergeComments E o.hd nh vals).head →
          h.line = (mergeComments E o.hd nh vals).line → h.foot = (mergeComments E o.hd nh vals).foot →
          mergeComments E h nh vals' = h := by
        intro h h1 h2 h3
        have hi := hc vals vals'
        unfold mergeComments at h1 h2 h3 ⊢
        simp only [format_id E _ m2, format_id E _ m3, format_id E _ m4] at *
        clear hi hc hf ih
        by_cases a1 : nh.head = [] <;> by_cases a2 : nh.line = [] <;> by_cases a3 : nh.foot = [] <;>
          simp_all
        all_goals (cases h; simp_all)
      apply congrArg Res.ok
      apply mergeScalar_fix
      · exact m1
      · unfold mergeScalar; by_cases hok : o.hd.kind = .scalar <;> simp [hok, hf.1]
      · rfl
      · unfold mergeScalar; by_cases hok : o.hd.kind = .scalar <;> simp [hok, format_id E _ m1]
      · unfold mergeScalar
        by_cases hok : o.hd.kind = .scalar
        · rw [if_neg (not_not.2 hok)]; exact key _ rfl rfl rfl
        · rw [if_pos hok]; exact key _ rfl rfl rfl
    · rw [merge_mapping E _ _ hk] at h ⊢
      rw [ScalarsAndMapsE_iff] at hE
      have hkm : ∀ t ∈ keys ncs, NoMarker t := by
        intro t ht
        simp only [keys, List.mem_map] at ht
        obtain ⟨e, he, rfl⟩ := ht
        have := hms e.1 (pairs_mem he).1
        obtain ⟨⟨eh, ec⟩, ev⟩ := e
        exact this.1.1
      -- the outer loop absorbs every entry
      have key : ∀ ds : List Node, (∀ c ∈ ds, c ∈ ncs) → (∀ e ∈ pairs ds, e ∈ pairs ncs) →
          (keys ds).Nodup → ds.length % 2 = 0 →
          ∀ (o o1 : Node) (done : List (Node × Node)), WellFormed o →
          (∀ e ∈ done, Absorbed E e.1 e.2 (pairs o.content)) →
          (∀ e ∈ done, e.1.hd.value ∉ keys ds) → (done ≠ [] → o.hd.kind = .mapping) →
          mergeEntries E o ds = .ok o1 →
          (done ≠ [] ∨ ds ≠ [] → o1.hd.kind = .mapping) ∧
          (∀ e ∈ done, Absorbed E e.1 e.2 (pairs o1.content)) ∧
          (∀ e ∈ pairs ds, Absorbed E e.1 e.2 (pairs o1.content)) := by
        intro ds
        induction ds using pairInduction with
        | h0 =>
          intro _ _ _ _ o o1 done _ h1 _ h3 h
          simp [mergeEntries] at h; subst h
          exact ⟨by simpa using h3, h1, by simp [pairs]⟩
        | h1 a => intro _ _ _ hl; simp at hl
        | h2 nk nv ds ihd =>
          intro hsub hsubp hnd hl o o1 done ho h1 h2 h3 h
          have hmem : (nk, nv) ∈ pairs ncs := hsubp _ (by simp [pairs])
          have hnkm := hms nk (hsub nk (by simp))
          have hnvm := hms nv (hsub nv (by simp))
          have hnk : AllNodes (OnStrings NoMarker) nk := hnkm
          obtain ⟨p1, p2, p3, p4⟩ : OnStrings NoMarker nk.hd := by
            obtain ⟨eh, ec⟩ := nk; exact hnkm.1
          have hnvS := hE.2 _ hmem
          have hnvW := hw.2 nv (hsub nv (by simp))
          have htw := toMapping_wf o ho
          have htk := toMapping_kind o
          rw [wf_iff] at htw
          have heven : (toMapping o).content.length % 2 = 0 := by
            have := htw.1; rwa [htk] at this
          simp only [mergeEntries, Res.bind_eq_ok] at h
          obtain ⟨⟨cs', b⟩, hi, h⟩ := h
          dsimp only at h
          obtain ⟨l1, l2⟩ := mergeInner_kept E _ nk.hd p1 _ _ _ hi
          have hw' := mergeInner_wf E _ nk.hd (fun x key x' hx hm' =>
            merge_wf E nv hnvW x x' [key] hx hm') _ _ _ htw.2 hi
          have hcsw : WellFormed (.mk (toMapping o).hd cs') := by
            rw [wf_mk]; exact ⟨by rw [hw'.1]; exact htw.1, hw'.2⟩
          have hidem : ∀ o o1 vals vals', WellFormed o → merge E o vals nv = .ok o1 →
              merge E o1 vals' nv = .ok o1 :=
            ih nv (hsub nv (by simp)) hnvm hnvS hnvW
          have hkeys : keys (nk :: nv :: ds) = nk.hd.value :: keys ds := by simp [keys, pairs]
          rw [hkeys, List.nodup_cons] at hnd
          -- old entries stay absorbed
          have hdone : ∀ e ∈ done, Absorbed E e.1 e.2 (pairs cs') := by
            intro e he
            have hmap : o.hd.kind = .mapping := h3 (by rintro rfl; simp at he)
            have hto : toMapping o = o := by simp [toMapping, hmap]
            rw [hto] at l2
            have hne := h2 e he
            rw [hkeys] at hne
            simp only [List.mem_cons, not_or] at hne
            exact absorbed_kept E e.1 e.2 [nk.hd.value] (by simpa using hne.1) _ _ (h1 e he) l2
          -- the new entry is absorbed
          have hnew : ∃ o2, o2.hd.kind = .mapping ∧ WellFormed o2 ∧
              (∀ e ∈ (nk, nv) :: done, Absorbed E e.1 e.2 (pairs o2.content)) ∧
              mergeEntries E o2 ds = .ok o1 := by
            cases b with
            | true =>
              simp only [if_true] at h
              refine ⟨.mk (toMapping o).hd cs', htk, hcsw, ?_, h⟩
              intro e he
              rcases List.mem_cons.1 he with rfl | he
              · exact mergeInner_absorbs E nk nv p1 ⟨p2, p3, p4⟩ _ _ htw.2 hidem hi
              · exact hdone e he
            | false =>
              simp only [Bool.false_eq_true, if_false] at h
              have hadd := addNode_wf E (.mk (toMapping o).hd cs') [nk, nv] hcsw
                (Or.inl ⟨htk, by simp⟩) (by
                  intro c hc
                  exact hw.2 c (hsub c (by simp at hc ⊢; tauto)))
              refine ⟨_, by simpa [addNode, appendContent] using htk, hadd, ?_, h⟩
              have hp : pairs (addNode E (Node.mk (toMapping o).hd cs') [nk, nv]).content
                  = pairs cs' ++ [(nk.fresh, nv.fresh)] := by
                simp only [addNode, appendContent, Node.content_mk]
                rw [pairs_append (by rw [hw'.1]; exact heven)]
                have a1 := sanitize_fresh_noMarker E nk hnk
                have a2 := sanitize_fresh_noMarker E nv hnvm
                rw [← fresh_eq_copyOf] at a1 a2
                simp [Node.freshs, sanitizeNodes, pairs, a1, a2]
              rw [hp]
              intro e he
              rcases List.mem_cons.1 he with rfl | he
              · obtain ⟨rfl, habs⟩ := mergeInner_false E _ nk.hd p1 _ _ hi
                refine ⟨_, _, _, [], rfl, habs, by simp [fresh_hd], ?_, ?_⟩
                · intro v
                  exact mergeComments_self E _ _ v ⟨p2, p3, p4⟩ (by simp [fresh_hd])
                    (by simp [fresh_hd]) (by simp [fresh_hd])
                · intro v; exact merge_copy E nv hnvm hnvS v
              · exact absorbed_append E _ _ _ _ (hdone e he)
          obtain ⟨o2, k1, k2, k3, k4⟩ := hnew
          have hrec := ihd (fun c hc => hsub c (by simp [hc])) (fun e he => hsubp e (by simp [pairs, he]))
            hnd.2 (by simp at hl; omega) o2 o1 ((nk, nv) :: done) k2 k3 (by
              intro e he
              rcases List.mem_cons.1 he with rfl | he
              · exact hnd.1
              · have := h2 e he
                rw [hkeys] at this
                simp only [List.mem_cons, not_or] at this
                exact this.2) (fun _ => k1) k4
          refine ⟨fun _ => hrec.1 (Or.inl (by simp)), fun e he => hrec.2.1 e (by simp [he]), ?_⟩
          intro e he
          simp only [pairs, List.mem_cons] at he
          rcases he with rfl | he
          · exact hrec.2.1 _ (by simp)
          · exact hrec.2.2 e he
      have hfin := key ncs (fun _ h => h) (fun _ h => h) hnd hE.1 o o1 [] ho (by simp) (by simp)
        (by simp) h
      exact mergeEntries_absorbed E ncs o1 (fun hne => hfin.1 (Or.inr hne)) hkm hfin.2.2

end Yot
