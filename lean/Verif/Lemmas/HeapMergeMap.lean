import Verif.Lemmas.HeapMerge
namespace Yot
open Spec HM

/-- Turning a node into a mapping in memory. -/
theorem toMappingH_run (h : Heap) {o : Node} (f : Forest h [o]) : ∃ h1 G,
    toMappingH o.hd.addr h = (.ok (), h1) ∧ Upd h h1 o (toMapping o) G := by
  obtain ⟨hd, cs⟩ := o
  have hget := Forest.get f
  simp only [Node.hd_mk, Node.content_mk] at hget
  by_cases hk : hd.kind = .mapping
  · refine ⟨h, [], ?_, ?_⟩
    · simp [toMappingH, hget, hk]
    · simpa [toMapping, hk] using Upd.refl f
  · refine ⟨h.write hd.addr ⟨{ hd with kind := .mapping, tag := c!"!!map", value := [], nilc := false }, []⟩, cs, ?_, ?_⟩
    · simp [toMappingH, hget, hk]
    · have := upd_write (hd' := { hd with kind := .mapping, tag := c!"!!map", value := [], nilc := false }) (cs' := [])
        (G := cs) f rfl (by simp)
      simpa [toMapping, hk] using this

/-- Turning a node into a sequence in memory. -/
theorem toSequenceH_run (h : Heap) {o : Node} (f : Forest h [o]) : ∃ h1 G,
    toSequenceH o.hd.addr h = (.ok (), h1) ∧ Upd h h1 o (toSequence o) G := by
  obtain ⟨hd, cs⟩ := o
  have hget := Forest.get f
  simp only [Node.hd_mk, Node.content_mk] at hget
  by_cases hk : hd.kind = .sequence
  · refine ⟨h, [], ?_, ?_⟩
    · simp [toSequenceH, hget, hk]
    · simpa [toSequence, hk] using Upd.refl f
  · refine ⟨h.write hd.addr ⟨{ hd with kind := .sequence, tag := c!"!!seq", value := [], nilc := false }, []⟩, cs, ?_, ?_⟩
    · simp [toSequenceH, hget, hk]
    · have := upd_write (hd' := { hd with kind := .sequence, tag := c!"!!seq", value := [], nilc := false }) (cs' := [])
        (G := cs) f rfl (by simp)
      simpa [toSequence, hk] using this

/-- Changing only a node's fields. -/
theorem upd_fields {h : Heap} {o : Node} {hd' : Hdr} (f : Forest h [o]) (ha : hd'.addr = o.hd.addr) :
    Upd h (h.write o.hd.addr ⟨hd', o.content.map (fun c => c.hd.addr)⟩) o (.mk hd' o.content) [] := by
  obtain ⟨hd, cs⟩ := o
  exact upd_write f ha (by simp)

theorem forest_kids {h : Heap} {t : Node} (f : Forest h [t]) : Forest h t.content := by
  cases t; exact (forest_mk.1 f).2.2.2

theorem mergeArrayH_impl (E : Sed) {base : Nat} {h : Heap} {o n : Node} (e : Apart h o n) (hb : base ≤ h.next)
    (wf : WellFormed n) :
    Impl (fun k => mergeArrayH E k o.hd.addr n.hd.addr) h o (.ok (mergeArray E (forget base o) n))
      (fun b t _ => forget base t = b) := by
  obtain ⟨h1, G1, r1, u1⟩ := toSequenceH_run h e.doc
  have e1 := u1.apart e
  have hgn := Forest.get e1.val
  have hgo := Forest.get e1.doc
  have hr : (toSequence o).hd.addr = o.hd.addr := u1.root
  refine Impl.step (Ends.const r1) u1 ?_
  have hrun : ∀ k, (rd n.hd.addr >>= fun n' => if n'.hd.nilc && n'.content.isEmpty then pure ()
      else (rd o.hd.addr >>= fun c => mergeCommentsH E o.hd.addr n.hd.addr [c.hd.value] >>= fun _ =>
        addNodeH E k o.hd.addr n'.content) : HM Unit) h1 =
      (if n.contentIsNil then pure () else (mergeCommentsH E o.hd.addr n.hd.addr [(toSequence o).hd.value] >>= fun _ =>
        addNodeH E k o.hd.addr (n.content.map (fun c => c.hd.addr))) : HM Unit) h1 := by
    intro k
    rw [HM.rd_bind, hgn]
    simp only [Node.contentIsNil, List.isEmpty_map]
    by_cases hn : (n.hd.nilc && n.content.isEmpty) = true
    · exact (congrFun (if_pos hn) h1).trans (congrFun (if_pos hn) h1).symm
    · refine (congrFun (if_neg hn) h1).trans ?_
      symm
      refine (congrFun (if_neg hn) h1).trans ?_
      rw [HM.rd_bind, ← hr, hgo]
  refine Impl.congr ?_ hrun
  by_cases hn : n.contentIsNil = true
  · simp only [hn, if_true]
    refine Impl.pure e1.doc ?_
    simp [mergeArray, hn, toSequence_forget]
  · simp only [hn]
    have hc := mergeCommentsH_run E e1.doc e1.val [(toSequence o).hd.value]
    rw [hr] at hc
    have u2 := upd_fields (hd' := mergeComments E (toSequence o).hd n.hd [(toSequence o).hd.value]) e1.doc
      (mergeComments_keepAddr _ _ _ _)
    rw [hr] at u2
    refine Impl.step (Ends.const hc) u2 ?_
    have e2 := u2.apart e1
    have hk := forest_kids e2.val
    have := addNodeH_impl E (ns := n.content) (base := base) e2.doc
      (Nat.le_trans hb (Nat.le_trans u1.frame.1 u2.frame.1)) hk.stored (fun a ha => (hk.live a ha).2)
      (fun c hc => by cases n; exact (WellFormeds_iff _).1 wf.2 c hc)
    simp only [Node.hd_mk, mergeComments_keepAddr, hr] at this
    have hm : addNode E (forget base (.mk (mergeComments E (toSequence o).hd n.hd [(toSequence o).hd.value])
        (toSequence o).content)) n.content = mergeArray E (forget base o) n := by
      simp only [mergeArray, hn, toSequence_forget, forget_mk, forget_hd, mergeComments_forget, forget_content]
      rfl
    rwa [hm] at this

/-- What a merge of `n` is to do. -/
def MergeImpl (E : Sed) (n : Node) : Prop :=
  ∀ (base : Nat) (h : Heap) (o : Node) (vals : List Str), Apart h o n → base ≤ h.next →
    Impl (fun k => mergeH E k o.hd.addr n.hd.addr vals) h o (merge E (forget base o) vals n) (fun b t _ => forget base t = b)

theorem drop_map_addr (pre cs : List Node) :
    ((pre ++ cs).map (fun c => c.hd.addr)).drop pre.length = cs.map (fun c => c.hd.addr) := by
  simp

theorem mergeScan_impl (E : Sed) {base : Nat} {q : Node} {nk nv : Node} {npre npost : List Node}
    (hq : q.content = npre ++ nk :: nv :: npost) (ih : MergeImpl E nv) (cs : List Node) :
    ∀ (h : Heap) (hd : Hdr) (pre : List Node) (found : Bool), Apart h (.mk hd (pre ++ cs)) q → base ≤ h.next →
      Impl (fun k => mergeScanH E k hd.addr q.hd.addr npre.length pre.length found) h (.mk hd (pre ++ cs))
        (mergeInner E (fun x key => merge E x [key] nv) nk.hd (cs.map (forget base)))
        (fun r t b => forget base t = .mk (forgetHd base hd) (pre.map (forget base) ++ r.1) ∧ b = (found || r.2)) := by
  induction cs using pairInduction with
  | h0 =>
    intro h hd pre found e hb
    have hget := Forest.get e.doc
    simp only [Node.hd_mk, Node.content_mk] at hget
    refine Impl.call (F := fun _ => pure found) ?_ (fun k => ?_)
    · exact Impl.pure e.doc ⟨by rw [forget_mk]; simp, by simp⟩
    · rw [mergeScanH, HM.rd_bind, hget]
      simp only [drop_map_addr]
      rfl
  | h1 c =>
    intro h hd pre found e hb
    have hget := Forest.get e.doc
    simp only [Node.hd_mk, Node.content_mk] at hget
    refine Impl.call (F := fun _ => pure found) ?_ (fun k => ?_)
    · exact Impl.pure e.doc ⟨by rw [forget_mk]; simp, by simp⟩
    · rw [mergeScanH, HM.rd_bind, hget]
      simp only [drop_map_addr]
      rfl
  | h2 ck cv cs ihc =>
    intro h hd pre found e hb
    have hget := Forest.get e.doc
    simp only [Node.hd_mk, Node.content_mk] at hget
    have hgq := Forest.get e.val
    have hmk : nk ∈ q.content := by rw [hq]; simp
    have hmv : nv ∈ q.content := by rw [hq]; simp
    have hgnk := Forest.get (Forest.child e.val hmk)
    have hgck := Forest.get (Forest.child (t := .mk hd (pre ++ ck :: cv :: cs)) e.doc (c := ck) (by simp))
    have hgcv := Forest.get (Forest.child (t := .mk hd (pre ++ ck :: cv :: cs)) e.doc (c := cv) (by simp))
    have hstep : ∀ k, mergeScanH E (k + 1) hd.addr q.hd.addr npre.length pre.length found h =
        (if !checkForMarkers nk.hd.value && ck.hd.value ≠ nk.hd.value then
          mergeScanH E k hd.addr q.hd.addr npre.length (pre.length + 2) found
        else (mergeCommentsH E ck.hd.addr nk.hd.addr [cv.hd.value, ck.hd.value] >>= fun _ =>
          mergeH E k cv.hd.addr nv.hd.addr [ck.hd.value] >>= fun _ =>
          if !checkForMarkers nk.hd.value then pure true
          else (mergeScalarH E ck.hd.addr nk.hd.addr [cv.hd.value, ck.hd.value] >>= fun _ =>
            mergeScanH E k hd.addr q.hd.addr npre.length (pre.length + 2) true)) : HM Bool) h := by
      intro k
      rw [mergeScanH]
      rw [HM.rd_bind, hget]
      simp only [drop_map_addr, List.map_cons]
      rw [HM.rd_bind, hgq, hq]
      simp only [drop_map_addr, List.map_cons]
      rw [HM.rd_bind, hgnk, HM.rd_bind, hgck]
      by_cases hs : (!checkForMarkers nk.hd.value && decide (ck.hd.value ≠ nk.hd.value)) = true
      · rw [if_pos hs, if_pos hs]
      · rw [if_neg hs, if_neg hs, HM.rd_bind, hgcv]
    refine Impl.call (F := _) ?_ hstep
    by_cases hskip : (!checkForMarkers nk.hd.value && decide (ck.hd.value ≠ nk.hd.value)) = true
    · simp only [hskip, if_true]
      have hpre : pre ++ ck :: cv :: cs = (pre ++ [ck, cv]) ++ cs := by simp
      have := ihc h hd (pre ++ [ck, cv]) found (hpre ▸ e) hb
      rw [← hpre] at this
      have hl : (pre ++ [ck, cv]).length = pre.length + 2 := by simp
      rw [hl] at this
      have hinner : mergeInner E (fun x key => merge E x [key] nv) nk.hd ((ck :: cv :: cs).map (forget base)) =
          (mergeInner E (fun x key => merge E x [key] nv) nk.hd (cs.map (forget base)) >>= fun r =>
            .ok (forget base ck :: forget base cv :: r.1, r.2)) := by
        rw [List.map_cons, List.map_cons, mergeInner]
        have : (forget base ck).hd.value = ck.hd.value := by rw [forget_hd]; rfl
        simp only [this, hskip, if_true]
        rfl
      rw [hinner]
      refine this.map ?_
      rintro b t a ⟨h1, h2⟩
      exact ⟨by rw [h1]; simp, h2⟩
    · simp only [hskip]
      -- the key's comments
      have fk := Forest.child (t := .mk hd (pre ++ ck :: cv :: cs)) e.doc (c := ck) (by simp)
      have fnk := Forest.child e.val hmk
      have u1 := (upd_fields (hd' := mergeComments E ck.hd nk.hd [cv.hd.value, ck.hd.value]) fk
        (mergeComments_keepAddr _ _ _ _)).child e.doc
      refine Impl.step (Ends.const (mergeCommentsH_run E fk fnk _)) u1 ?_
      have e1 := u1.apart e
      have hb1 : base ≤ (h.write ck.hd.addr ⟨mergeComments E ck.hd nk.hd [cv.hd.value, ck.hd.value],
        ck.content.map (fun c => c.hd.addr)⟩).next := hb
      generalize h.write ck.hd.addr ⟨mergeComments E ck.hd nk.hd [cv.hd.value, ck.hd.value],
        ck.content.map (fun c => c.hd.addr)⟩ = h1 at e1 hb1 ⊢
      obtain ⟨ck1, hck1⟩ : ∃ ck1, ck1 = Node.mk (mergeComments E ck.hd nk.hd [cv.hd.value, ck.hd.value]) ck.content := ⟨_, rfl⟩
      rw [← hck1] at e1 ⊢
      have hck1a : ck1.hd.addr = ck.hd.addr := by rw [hck1]; exact mergeComments_keepAddr _ _ _ _
      have hck1f : forget base ck1 = .mk (mergeComments E (forget base ck).hd nk.hd [(forget base cv).hd.value, (forget base ck).hd.value])
          (forget base ck).content := by
        rw [hck1, forget_mk, forget_hd, forget_hd, mergeComments_forget, forget_content]
        rfl
      -- the value
      have hl1 : pre ++ ck1 :: cv :: cs = (pre ++ [ck1]) ++ cv :: cs := by simp
      have hsub := e1.sub (c := cv) (m := nv) (by simp) hmv
      have iv := ih base h1 cv [ck.hd.value] hsub hb1
      have ivc := Impl.child (pre := pre ++ [ck1]) (post := cs) (hd := hd) (by rw [← hl1]; exact e1.doc) iv
      rw [← hl1] at ivc
      have hkv : (forget base ck).hd.value = ck.hd.value := by rw [forget_hd]; rfl
      have hinner : mergeInner E (fun x key => merge E x [key] nv) nk.hd ((ck :: cv :: cs).map (forget base)) =
          (merge E (forget base cv) [ck.hd.value] nv >>= fun v' =>
            if !checkForMarkers nk.hd.value then .ok (forget base ck1 :: v' :: cs.map (forget base), true)
            else (mergeInner E (fun x key => merge E x [key] nv) nk.hd (cs.map (forget base)) >>= fun r =>
              .ok (mergeScalar E (forget base ck1) nk.hd [cv.hd.value, ck.hd.value] :: v' :: r.1, true))) := by
        have hcvv : (forget base cv).hd.value = cv.hd.value := by rw [forget_hd]; rfl
        rw [List.map_cons, List.map_cons, mergeInner]
        simp only [hkv, hcvv, hskip]
        rw [hcvv, hkv] at hck1f
        rw [← hck1f]
        rfl
      rw [hinner]
      refine Impl.bind ivc ?_
      rintro h2 o2 G2 - v' - u2 ⟨c', hv', hca, rfl⟩
      have e2 := u2.apart e1
      have hb2 := Nat.le_trans hb1 u2.frame.1
      by_cases hmark : checkForMarkers nk.hd.value = true
      · simp only [hmark, Bool.not_true, if_false, Bool.false_eq_true]
        have e2k : Apart h2 ck1 nk := e2.sub (by simp) hmk
        have hrun := mergeScalarH_run E e2k [cv.hd.value, ck.hd.value]
        obtain ⟨G3, u3⟩ := mergeScalarH_upd E e2k [cv.hd.value, ck.hd.value]
        rw [hck1a] at hrun
        rw [hck1a] at u3
        have e2d := e2.doc
        have hl2 : (pre ++ [ck1]) ++ c' :: cs = pre ++ ck1 :: (c' :: cs) := by simp
        rw [hl2] at e2d ⊢
        rw [hl2] at e2
        have u3c := u3.child e2d
        refine Impl.step (Ends.const hrun) u3c ?_
        have e3 := u3c.apart e2
        have hl3 : pre ++ mergeScalar E ck1 nk.hd [cv.hd.value, ck.hd.value] :: (c' :: cs) =
            (pre ++ [mergeScalar E ck1 nk.hd [cv.hd.value, ck.hd.value], c']) ++ cs := by simp
        rw [hl3] at e3 ⊢
        have fin := ihc _ hd _ true e3 (Nat.le_trans hb2 u3c.frame.1)
        have hll : (pre ++ [mergeScalar E ck1 nk.hd [cv.hd.value, ck.hd.value], c']).length = pre.length + 2 := by simp
        rw [hll] at fin
        refine fin.map ?_
        rintro b t a ⟨f1, f2⟩
        refine ⟨?_, by simp [f2]⟩
        rw [f1, mergeScalar_forget]
        simp [hv']
      · simp only [hmark, Bool.not_false, if_true]
        refine Impl.pure e2.doc ⟨?_, by simp⟩
        rw [forget_mk]
        simp [hv']

end Yot
