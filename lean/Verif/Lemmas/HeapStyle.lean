import Verif.Lemmas.HeapEdit
namespace Yot
open Spec HM

/-! ### Output style -/

theorem setStyles_eq_map' (s : Nat) (cs : List Node) : setStyles s cs = cs.map (setStyle s) := by
  induction cs with
  | nil => rfl
  | cons c cs ih => simp [setStyles, ih]

theorem setStyle_addrs (s : Nat) (t : Node) : (setStyle s t).addrs = t.addrs := by
  induction t using Node.ind with
  | h hd cs ih =>
    have hk : Node.addrss (cs.map (setStyle s)) = Node.addrss cs := by
      rw [addrss_eq_flatMap, addrss_eq_flatMap, List.flatMap_map]
      induction cs with
      | nil => rfl
      | cons c cs ihc =>
        rw [List.flatMap_cons, List.flatMap_cons, ih c (by simp), ihc (fun d hd => ih d (by simp [hd]))]
    rw [setStyle]
    cases hd.kind <;> simp only [addrs_mk, setStyles_eq_map', hk]

/-- Rewriting the children, the node's own fields being as they are to be. -/
theorem inPlace_kids {h h1 : Heap} {hd : Hdr} {cs cs' : List Node} (f : Forest h [.mk hd cs])
    (i : InPlace h h1 (Node.addrss cs)) (g : Forest h1 cs') (hr : cs'.map (fun c => c.hd.addr) = cs.map (fun c => c.hd.addr))
    (hc : Node.addrss cs' = Node.addrss cs) : InPlace h h1 (Node.mk hd cs).addrs ∧ Forest h1 [.mk hd cs'] := by
  rw [forest_mk] at f
  obtain ⟨f1, f2, f3, f4⟩ := f
  refine ⟨i.trans (InPlace.refl h1 []) (by rw [addrs_mk]; simp; tauto) (by simp), ?_⟩
  rw [forest_mk, hr, hc, i.next]
  exact ⟨by rw [i.other _ f3, f1], f2, f3, g⟩

theorem inPlace_fields {h : Heap} {hd hd' : Hdr} {cs : List Node} (f : Forest h [.mk hd cs]) (ha : hd'.addr = hd.addr) :
    InPlace h (h.write hd.addr ⟨hd', cs.map (fun c => c.hd.addr)⟩) (Node.mk hd cs).addrs ∧
    Forest (h.write hd.addr ⟨hd', cs.map (fun c => c.hd.addr)⟩) [.mk hd' cs] :=
  ⟨inPlace_write h hd.addr _ (by rw [addrs_mk]; simp), by
    have := forest_rearrange (cs' := cs) (G := []) f ha (by simp)
    exact this⟩

theorem setStyleH_spec (s : Nat) (t : Node) : Rewrites (setStyleH s) (setStyle s) t := by
  induction t using Node.ind with
  | h hd cs ih =>
    intro h f
    have hget := (forest_mk.1 f).1
    obtain ⟨i1, f1⟩ := inPlace_fields (hd' := { hd with style := s }) f rfl
    obtain ⟨h2, us, e2, i2, g2⟩ := rewrites_list (setStyle_addrs s) ih _ (forest_kids f1)
    have haddr := addr_of_addrs (setStyle_addrs s) cs
    obtain ⟨i3, f3⟩ := inPlace_kids f1 i2 g2 haddr.1 haddr.2
    have hmany : ∀ n : Nat → HM Unit, (∀ k, n (k + 1) h = (wr hd.addr ⟨{ hd with style := s }, cs.map (fun c => c.hd.addr)⟩ >>= fun _ =>
        mapH (setStyleH s k) (cs.map (fun c => c.hd.addr)) >>= fun _ => (pure () : HM Unit)) h) →
        Ends n h (.ok ()) h2 := by
      intro n hn
      refine Ends.call (F := fun k => _) ?_ hn
      exact Ends.bind (Ends.const rfl) (Ends.bind e2 (Ends.const rfl))
    have i4 : InPlace h h2 (Node.mk hd cs).addrs :=
      i1.trans i3 (fun _ h => h) (fun _ h => by rw [addrs_mk] at h ⊢; exact h)
    by_cases hz : hd.kind = .zero
    · refine ⟨h, Ends.call (F := fun _ => pure ()) (Ends.const rfl) (fun k => by
        simp only [Node.hd_mk, setStyleH, HM.rd_bind, hget, hz]), InPlace.refl _ _, ?_⟩
      have : setStyle s (.mk hd cs) = .mk hd cs := by rw [setStyle]; split <;> simp_all
      rwa [this]
    by_cases hs : hd.kind = .scalar
    · have : setStyle s (.mk hd cs) = .mk { hd with style := s } cs := by rw [setStyle]; split <;> simp_all
      rw [this]
      refine ⟨_, ?_, i1, f1⟩
      refine Ends.call (F := fun _ => wr hd.addr ⟨{ hd with style := s }, cs.map (fun c => c.hd.addr)⟩)
        (Ends.const (HM.wr_run _ _ _)) (fun k => ?_)
      simp only [Node.hd_mk, setStyleH, HM.rd_bind, hget]
      cases hk : hd.kind <;> simp_all
    · have : setStyle s (.mk hd cs) = .mk { hd with style := s } (cs.map (setStyle s)) := by
        rw [setStyle, ← setStyles_eq_map']; split <;> simp_all
      rw [this]
      refine ⟨h2, hmany _ (fun k => ?_), i4, f3⟩
      simp only [Node.hd_mk, setStyleH, HM.rd_bind, hget]

/-! ### Comment removal -/

/-- One child of `removeCommentsFromNode`. -/
def stripped (c : Node) : Node := match removeComments c with | .mk h ds => .mk (noComments h) ds

theorem removeCommentsL_eq_map (cs : List Node) : removeCommentsL cs = cs.map stripped := by
  induction cs with
  | nil => rfl
  | cons c cs ih => simp only [removeCommentsL, List.map_cons, ih, stripped]; rfl

theorem stripped_mk (hd : Hdr) (cs : List Node) : stripped (.mk hd cs) = .mk (noComments hd) (cs.map stripped) := by
  rw [stripped, removeComments, removeCommentsL_eq_map]

theorem removeComments_mk (hd : Hdr) (cs : List Node) : removeComments (.mk hd cs) = .mk hd (cs.map stripped) := by
  rw [removeComments, removeCommentsL_eq_map]

theorem stripped_addrs (t : Node) : (stripped t).addrs = t.addrs := by
  induction t using Node.ind with
  | h hd cs ih =>
    have hk : Node.addrss (cs.map stripped) = Node.addrss cs := by
      rw [addrss_eq_flatMap, addrss_eq_flatMap, List.flatMap_map]
      induction cs with
      | nil => rfl
      | cons c cs ihc =>
        rw [List.flatMap_cons, List.flatMap_cons, ih c (by simp), ihc (fun d hd => ih d (by simp [hd]))]
    rw [stripped_mk, addrs_mk, addrs_mk, hk]
    rfl

/-- The body of the loop of `removeCommentsFromNode`. -/
def stripH (k p : Nat) : HM Unit := do
  let x ← rd p
  wr p { x with hd := { x.hd with head := [], line := [], foot := [] } }
  removeCommentsH k p

theorem removeCommentsH_all (t : Node) : ∀ hd : Hdr, Rewrites removeCommentsH removeComments (.mk hd t.content) := by
  induction t using Node.ind with
  | h hd0 cs ih =>
    intro hd h f
    rw [Node.content_mk] at *
    have hget := (forest_mk.1 f).1
    have hstrip : ∀ c ∈ cs, Rewrites stripH stripped c := by
      intro c hc h f
      obtain ⟨ch, cc⟩ := c
      have hg := (forest_mk.1 f).1
      obtain ⟨i1, f1⟩ := inPlace_fields (hd' := noComments ch) f rfl
      obtain ⟨h2, e2, i2, g2⟩ := ih _ hc (noComments ch) _ f1
      refine ⟨h2, ?_, i1.trans i2 (fun _ h => h) (fun _ h => by rw [addrs_mk] at h ⊢; exact h), ?_⟩
      · have : Ends (fun k => wr ch.addr ⟨noComments ch, cc.map (fun c => c.hd.addr)⟩ >>= fun _ => removeCommentsH k ch.addr) h (.ok ()) h2 :=
          Ends.bind (Ends.const rfl) e2
        refine this.congr (fun k => ?_)
        simp only [Node.hd_mk, stripH, HM.rd_bind, hg]
        rfl
      · rw [stripped_mk]; rw [removeComments_mk] at g2; exact g2
    obtain ⟨h2, us, e2, i2, g2⟩ := rewrites_list stripped_addrs hstrip h (forest_kids f)
    have haddr := addr_of_addrs stripped_addrs cs
    obtain ⟨i3, f3⟩ := inPlace_kids f i2 g2 haddr.1 haddr.2
    by_cases hn : (hd.nilc && cs.isEmpty) = true
    · have hcs : cs = [] := by
        simp only [Bool.and_eq_true, List.isEmpty_iff] at hn; exact hn.2
      subst hcs
      refine ⟨h, Ends.call (F := fun _ => pure ()) (Ends.const rfl) (fun k => ?_), InPlace.refl _ _, f⟩
      simp only [Node.hd_mk, removeCommentsH, HM.rd_bind, hget, List.map_nil]
      simp only [List.isEmpty_nil, Bool.and_true] at hn
      simp [hn]
    · refine ⟨h2, Ends.call (F := fun k => mapH (stripH k) (cs.map (fun c => c.hd.addr)) >>= fun _ => pure ())
        (Ends.bind e2 (Ends.const rfl)) (fun k => ?_), i3, by rw [removeComments_mk]; exact f3⟩
      simp only [Node.hd_mk, removeCommentsH, HM.rd_bind, hget, List.isEmpty_map]
      refine (congrFun (if_neg hn) h).trans ?_
      rfl

theorem removeCommentsH_spec (t : Node) : Rewrites removeCommentsH removeComments t := by
  have := removeCommentsH_all t t.hd
  cases t; exact this

end Yot
