import Verif.Lemmas.HeapMergeMap
namespace Yot
open Spec HM

theorem mergeMap_impl (E : Sed) {base : Nat} {q : Node} (wf : WellFormed q) (ih : ∀ c ∈ q.content, MergeImpl E c)
    (ns : List Node) : ∀ (npre : List Node) (h : Heap) (o : Node), q.content = npre ++ ns → Apart h o q → base ≤ h.next →
      Impl (fun k => mergeMapH E k o.hd.addr q.hd.addr npre.length) h o (mergeEntries E (forget base o) ns)
        (fun b t _ => forget base t = b) := by
  induction ns using pairInduction with
  | h0 =>
    intro npre h o hq e hb
    have hgq := Forest.get e.val
    refine Impl.call (F := fun _ => pure ()) ?_ (fun k => ?_)
    · rw [mergeEntries]
      · exact Impl.pure e.doc rfl
      · simp
    · rw [mergeMapH, HM.rd_bind, hgq, hq]
      simp only [drop_map_addr]
      rfl
  | h1 c =>
    intro npre h o hq e hb
    have hgq := Forest.get e.val
    refine Impl.call (F := fun _ => pure ()) ?_ (fun k => ?_)
    · rw [mergeEntries]
      · exact Impl.pure e.doc rfl
      · simp
    · rw [mergeMapH, HM.rd_bind, hgq, hq]
      simp only [drop_map_addr]
      rfl
  | h2 nk nv ns ihn =>
    intro npre h o hq e hb
    have hgq := Forest.get e.val
    have hmk : nk ∈ q.content := by rw [hq]; simp
    have hmv : nv ∈ q.content := by rw [hq]; simp
    have hstep : ∀ k, mergeMapH E (k + 1) o.hd.addr q.hd.addr npre.length h =
        (toMappingH o.hd.addr >>= fun _ => mergeScanH E k o.hd.addr q.hd.addr npre.length 0 false >>= fun found =>
          (if found then pure () else addNodeH E k o.hd.addr [nk.hd.addr, nv.hd.addr] : HM Unit) >>= fun _ =>
          mergeMapH E k o.hd.addr q.hd.addr (npre.length + 2) : HM Unit) h := by
      intro k
      rw [mergeMapH, HM.rd_bind, hgq, hq]
      simp only [drop_map_addr, List.map_cons]
    refine Impl.call (F := _) ?_ hstep
    obtain ⟨h1, G1, r1, u1⟩ := toMappingH_run h e.doc
    have e1 := u1.apart e
    have hb1 := Nat.le_trans hb u1.frame.1
    refine Impl.step (Ends.const r1) u1 ?_
    rw [mergeEntries, toMapping_forget, forget_content, forget_hd]
    have hr : (toMapping o).hd.addr = o.hd.addr := u1.root
    revert e1 hr
    generalize toMapping o = o1
    intro e1 hr
    obtain ⟨hd, cs⟩ := o1
    simp only [Node.hd_mk, Node.content_mk] at hr ⊢
    have scan := mergeScan_impl E (base := base) hq (ih nv hmv) cs h1 hd [] false e1 hb1
    simp only [List.nil_append, List.length_nil, List.map_nil, Bool.false_or] at scan
    rw [hr] at scan
    refine Impl.bind scan ?_
    rintro h2 o2 G2 found r - u2 ⟨hf, rfl⟩
    have e2 := u2.apart e1
    have hb2 := Nat.le_trans hb1 u2.frame.1
    have hr2 : o2.hd.addr = o.hd.addr := u2.root.trans hr
    have hlen : (npre ++ [nk, nv]).length = npre.length + 2 := by simp
    have hq2 : q.content = (npre ++ [nk, nv]) ++ ns := by rw [hq]; simp
    by_cases hfound : r.2 = true
    · simp only [hfound, if_true]
      refine Impl.step (Ends.const rfl) (Upd.refl e2.doc) ?_
      have := ihn _ h2 o2 hq2 e2 hb2
      rw [hlen, hr2, hf] at this
      exact this
    · simp only [hfound]
      have fk := forest_kids e2.val
      have fsub : ∀ c ∈ [nk, nv], c ∈ q.content := by simp [hmk, hmv]
      have hadd := addNodeH_impl E (ns := [nk, nv]) (base := base) e2.doc hb2
        ((storeds_iff _ _).2 fun c hc => (storeds_iff _ _).1 fk.stored c (fsub c hc))
        (fun a ha => by
          rw [addrss_eq_flatMap, List.mem_flatMap] at ha
          obtain ⟨c, hc, ha⟩ := ha
          exact (fk.live a (addrs_subset (fsub c hc) ha)).2)
        (fun c hc => by
          have := fsub c hc
          cases q; exact (WellFormeds_iff _).1 wf.2 c this)
      rw [hr2] at hadd
      obtain ⟨h3, o3, G3, _, en3, u3, p3⟩ := hadd
      refine Impl.step en3 u3 ?_
      have e3 := u3.apart e2
      have := ihn _ h3 o3 hq2 e3 (Nat.le_trans hb2 u3.frame.1)
      rw [hlen, u3.root.trans hr2, p3, hf] at this
      exact this

/-- Merging in memory does what merging of trees does. -/
theorem mergeImpl (E : Sed) (n : Node) : WellFormed n → MergeImpl E n := by
  induction n using Node.ind with
  | h nh ncs ih =>
    intro wf base h o vals e hb
    have wfc : ∀ c ∈ ncs, WellFormed c := (WellFormeds_iff _).1 wf.2
    have hgn := Forest.get e.val
    have hgo := Forest.get e.doc
    simp only [Node.hd_mk, Node.content_mk] at hgn
    rw [merge.eq_def]
    cases hk : nh.kind with
    | document =>
      simp only [hk]
      have hnil : (forget base o).contentIsNil = o.contentIsNil := by
        rw [Node.contentIsNil, Node.contentIsNil, forget_hd, forget_content, List.isEmpty_map]; rfl
      have hval : (forget base o).hd.value = o.hd.value := by rw [forget_hd]; rfl
      have hstep : ∀ k, mergeH E (k + 1) o.hd.addr nh.addr vals h =
          (if o.contentIsNil || (nh.nilc && ncs.isEmpty) then pure () else
            (mergeCommentsH E o.hd.addr nh.addr [o.hd.value] >>= fun _ => rd o.hd.addr >>= fun o' => rd nh.addr >>= fun n' =>
              match o'.content, n'.content with
              | oc :: _, nc :: _ => mergeH E k oc nc [o'.hd.value]
              | _, _ => crash) : HM Unit) h := by
        intro k
        rw [mergeH.eq_def]
        simp only [HM.rd_bind, hgn, hk, hgo, Node.contentIsNil, List.isEmpty_map]
        rfl
      refine Impl.call (F := _) ?_ hstep
      rw [hnil]
      by_cases hc : (o.contentIsNil || (nh.nilc && ncs.isEmpty)) = true
      · simp only [hc, if_true]
        exact Impl.pure e.doc rfl
      · simp only [hc]
        have u1 := upd_fields (hd' := mergeComments E o.hd nh [o.hd.value]) e.doc (mergeComments_keepAddr _ _ _ _)
        refine Impl.step (Ends.const (mergeCommentsH_run E e.doc e.val [o.hd.value])) u1 ?_
        have e1 := u1.apart e
        have hb1 : base ≤ (h.write o.hd.addr ⟨mergeComments E o.hd nh [o.hd.value], o.content.map (fun c => c.hd.addr)⟩).next := hb
        simp only [Node.hd_mk]
        generalize h.write o.hd.addr _ = h1 at e1 hb1 ⊢
        have hca : (mergeComments E o.hd nh [o.hd.value]).addr = o.hd.addr := mergeComments_keepAddr _ _ _ _
        have hcv : (mergeComments E o.hd nh [o.hd.value]).value = o.hd.value := by
          simp only [mergeComments]; split_ifs <;> rfl
        have g1 := Forest.get e1.doc
        have g2 := Forest.get e1.val
        simp only [Node.hd_mk, Node.content_mk, hca] at g1 g2
        obtain ⟨oh, ocs⟩ := o
        simp only [Node.hd_mk, Node.content_mk] at *
        rw [forget_content, Node.content_mk]
        cases ocs with
        | nil =>
          refine Impl.congr (F := fun _ => crash) ⟨h1, Ends.const rfl, Untouched.refl _ _⟩ (fun k => ?_)
          rw [HM.rd_bind, HM.rd_bind, g1, g2]; rfl
        | cons oc ocs =>
          cases ncs with
          | nil =>
            refine Impl.congr (F := fun _ => crash) ⟨h1, Ends.const rfl, Untouched.refl _ _⟩ (fun k => ?_)
            rw [HM.rd_bind, HM.rd_bind, g1, g2]; rfl
          | cons nc ncs =>
            refine Impl.congr (F := fun k => mergeH E k oc.hd.addr nc.hd.addr [oh.value]) ?_ (fun k => by
              rw [HM.rd_bind, HM.rd_bind, g1, g2]
              simp only [List.map_cons, hcv])
            simp only [List.map_cons]
            have sub := ih nc (by simp) (wfc nc (by simp)) base h1 oc [oh.value] (e1.sub (by simp) (by simp)) hb1
            have subc := Impl.child (pre := []) (post := ocs) e1.doc sub
            rw [hval]
            refine subc.map ?_
            rintro b t a ⟨c', hc', -, rfl⟩
            rw [forget_mk, forget_hd, Node.hd_mk, mergeComments_forget, ← hc']
            rfl
    | mapping =>
      simp only [hk]
      refine Impl.call (F := fun k => mergeMapH E k o.hd.addr nh.addr 0) ?_ (fun k => ?_)
      · have := mergeMap_impl E (base := base) wf (fun c hc => ih c hc (wfc c hc)) ncs [] h o rfl e hb
        simpa using this
      · rw [mergeH.eq_def]
        simp only [Node.hd_mk, HM.rd_bind, hgn, hk]
    | sequence =>
      simp only [hk]
      refine Impl.call (F := fun k => mergeArrayH E k o.hd.addr nh.addr) ?_ (fun k => ?_)
      · exact mergeArrayH_impl E e hb wf
      · rw [mergeH.eq_def]
        simp only [Node.hd_mk, HM.rd_bind, hgn, hk]
    | scalar =>
      simp only [hk]
      have hrun := mergeScalarH_run E e vals
      obtain ⟨G, u1⟩ := mergeScalarH_upd E e vals
      refine Impl.call (F := fun _ => mergeScalarH E o.hd.addr nh.addr vals >>= fun _ =>
        (rd o.hd.addr >>= fun o' => rd nh.addr >>= fun n' => wr o.hd.addr { o' with hd := { o'.hd with tag := n'.hd.tag } })) ?_ (fun k => ?_)
      · refine Impl.step (Ends.const hrun) u1 ?_
        have e1 := u1.apart e
        have ha : (mergeScalar E o nh vals).hd.addr = o.hd.addr := mergeScalar_addr E o nh vals
        simp only [Node.hd_mk] at e1 ⊢
        generalize h.write o.hd.addr _ = h1 at e1 ⊢
        have g1 := Forest.get e1.doc
        have g2 := Forest.get e1.val
        simp only [Node.hd_mk, Node.content_mk] at g1 g2
        rw [ha] at g1
        refine ⟨_, _, [], (), Ends.const ?_, upd_fields (hd' := { (mergeScalar E o nh vals).hd with tag := nh.tag }) e1.doc rfl, ?_⟩
        · simp only [HM.rd_bind, HM.wr_run, g1, g2, ha]
        · show forget base _ = _
          rw [forget_mk, mergeScalar_forget, forget_hd, forget_content]
          rfl
      · rw [mergeH.eq_def]
        simp only [Node.hd_mk, HM.rd_bind, hgn, hk]
    | «alias» =>
      simp only [hk]
      refine ⟨h, ?_, Untouched.refl _ _⟩
      refine Ends.call (F := fun _ => fail .mergeUnsupportedType) (Ends.const rfl) (fun k => ?_)
      rw [mergeH.eq_def]
      simp only [Node.hd_mk, HM.rd_bind, hgn, hk]
    | zero =>
      simp only [hk]
      refine ⟨_, _, [], (), ?_, upd_fields (hd' := { o.hd with tag := nh.tag }) e.doc rfl, ?_⟩
      · refine Ends.call (F := fun _ => rd o.hd.addr >>= fun o' => wr o.hd.addr { o' with hd := { o'.hd with tag := nh.tag } })
          (Ends.const ?_) (fun k => ?_)
        · simp only [HM.rd_bind, HM.wr_run, hgo]
        · rw [mergeH.eq_def]
          simp only [Node.hd_mk, HM.rd_bind, hgn, hk]
      · show forget base _ = _
        rw [forget_mk, forget_hd, forget_content]
        rfl

end Yot
