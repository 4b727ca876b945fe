import Verif.Lemmas.Heap
namespace Yot
open Spec HM

/-- The outcome of a heap operation on the tree `o` matches the outcome of a tree
operation. -/
def Impl {α β : Type} (x : Nat → HM α) (h : Heap) (o : Node) (r : Res Err β)
    (P : β → Node → α → Prop) : Prop :=
  match r with
  | .ok b => ∃ h' o' G a, Ends x h (.ok a) h' ∧ Upd h h' o o' G ∧ P b o' a
  | .err e => ∃ h', Ends x h (.err e) h' ∧ Untouched h h' o.addrs
  | .panic => ∃ h', Ends x h .panic h' ∧ Untouched h h' o.addrs

theorem Upd.untouched {h h1 h2 : Heap} {t t1 : Node} {G : List Node} (u : Upd h h1 t t1 G)
    (v : Untouched h1 h2 t1.addrs) : Untouched h h2 t.addrs := by
  refine ⟨Nat.le_trans u.frame.1 v.1, fun a ha hb => ?_⟩
  rw [v.2 a (Nat.lt_of_lt_of_le ha u.frame.1), u.frame.2 a ha hb]
  intro hm
  rcases u.sub a (by rw [Node.addrss]; simp [hm]) with hx | hx
  · exact hb hx
  · omega

theorem Impl.bind {α β γ δ : Type} {x : Nat → HM α} {y : Nat → α → HM γ} {h : Heap} {o : Node}
    {r : Res Err β} {k : β → Res Err δ} {P : β → Node → α → Prop} {Q : δ → Node → γ → Prop}
    (hx : Impl x h o r P)
    (hy : ∀ h1 o1 G a b, r = .ok b → Upd h h1 o o1 G → P b o1 a →
      Impl (fun n => y n a) h1 o1 (k b) Q) :
    Impl (fun n => x n >>= y n) h o (r >>= k) Q := by
  cases r with
  | ok b =>
    obtain ⟨h1, o1, G, a, e1, u1, p1⟩ := hx
    have h2 := hy h1 o1 G a b rfl u1 p1
    rw [Res.bind_ok]
    cases hk : k b with
    | ok d =>
      rw [hk] at h2
      obtain ⟨h2, o2, G2, c, e2, u2, p2⟩ := h2
      exact ⟨h2, o2, _, c, Ends.bind e1 e2, u1.trans u2, p2⟩
    | err e =>
      rw [hk] at h2
      obtain ⟨h2, e2, u2⟩ := h2
      exact ⟨h2, Ends.bind e1 e2, u1.untouched u2⟩
    | panic =>
      rw [hk] at h2
      obtain ⟨h2, e2, u2⟩ := h2
      exact ⟨h2, Ends.bind e1 e2, u1.untouched u2⟩
  | err e =>
    obtain ⟨h1, e1, u1⟩ := hx
    exact ⟨h1, Ends.bind_err e1, u1⟩
  | panic =>
    obtain ⟨h1, e1, u1⟩ := hx
    exact ⟨h1, Ends.bind_panic e1, u1⟩

/-- A step of the heap operation without counterpart in the tree operation. -/
theorem Impl.step {α β γ : Type} {x : Nat → HM α} {y : Nat → α → HM γ} {h h1 : Heap} {o o1 : Node}
    {G : List Node} {a : α} {r : Res Err β} {Q : β → Node → γ → Prop} (e : Ends x h (.ok a) h1) (u : Upd h h1 o o1 G)
    (hy : Impl (fun n => y n a) h1 o1 r Q) : Impl (fun n => x n >>= y n) h o r Q := by
  cases r with
  | ok b =>
    obtain ⟨h2, o2, G2, c, e2, u2, p2⟩ := hy
    exact ⟨h2, o2, _, c, Ends.bind e e2, u.trans u2, p2⟩
  | err e' =>
    obtain ⟨h2, e2, u2⟩ := hy
    exact ⟨h2, Ends.bind e e2, u.untouched u2⟩
  | panic =>
    obtain ⟨h2, e2, u2⟩ := hy
    exact ⟨h2, Ends.bind e e2, u.untouched u2⟩

theorem Impl.call {α β : Type} {g F : Nat → HM α} {h : Heap} {o : Node} {r : Res Err β}
    {P : β → Node → α → Prop} (hF : Impl F h o r P) (hg : ∀ n, g (n + 1) h = F n h) : Impl g h o r P := by
  cases r with
  | ok b =>
    obtain ⟨h1, o1, G, a, e, u, p⟩ := hF
    exact ⟨h1, o1, G, a, e.call hg, u, p⟩
  | err e =>
    obtain ⟨h1, e, u⟩ := hF
    exact ⟨h1, e.call hg, u⟩
  | panic =>
    obtain ⟨h1, e, u⟩ := hF
    exact ⟨h1, e.call hg, u⟩

theorem Impl.congr {α β : Type} {g F : Nat → HM α} {h : Heap} {o : Node} {r : Res Err β}
    {P : β → Node → α → Prop} (hF : Impl F h o r P) (hg : ∀ n, g n h = F n h) : Impl g h o r P := by
  cases r with
  | ok b =>
    obtain ⟨h1, o1, G, a, e, u, p⟩ := hF
    exact ⟨h1, o1, G, a, e.congr hg, u, p⟩
  | err e =>
    obtain ⟨h1, e, u⟩ := hF
    exact ⟨h1, e.congr hg, u⟩
  | panic =>
    obtain ⟨h1, e, u⟩ := hF
    exact ⟨h1, e.congr hg, u⟩

theorem Impl.mono {α β : Type} {x : Nat → HM α} {h : Heap} {o : Node} {r : Res Err β}
    {P Q : β → Node → α → Prop} (hx : Impl x h o r P) (hpq : ∀ b t a, r = .ok b → P b t a → Q b t a) :
    Impl x h o r Q := by
  cases r with
  | ok b =>
    obtain ⟨h1, o1, G, a, e, u, p⟩ := hx
    exact ⟨h1, o1, G, a, e, u, hpq _ _ _ rfl p⟩
  | err e => exact hx
  | panic => exact hx

theorem Impl.map {α β γ : Type} {x : Nat → HM α} {h : Heap} {o : Node} {r : Res Err β} {g : β → γ}
    {P : β → Node → α → Prop} {Q : γ → Node → α → Prop} (hx : Impl x h o r P) (hpq : ∀ b t a, P b t a → Q (g b) t a) :
    Impl x h o (r >>= fun b => .ok (g b)) Q := by
  cases r with
  | ok b =>
    obtain ⟨h1, o1, G, a, e, u, p⟩ := hx
    exact ⟨h1, o1, G, a, e, u, hpq _ _ _ p⟩
  | err e => exact hx
  | panic => exact hx

/-- The fields with the address forgotten. -/
def forgetHd (base : Nat) (hd : Hdr) : Hdr := { hd with addr := if hd.addr < base then hd.addr else 0 }

theorem forget_mk (base : Nat) (hd : Hdr) (cs : List Node) :
    forget base (.mk hd cs) = .mk (forgetHd base hd) (cs.map (forget base)) := by
  rw [forget, forgets_eq_map]; rfl

theorem forget_hd (base : Nat) (t : Node) : (forget base t).hd = forgetHd base t.hd := by
  cases t; rw [forget_mk]; rfl

theorem forget_content (base : Nat) (t : Node) : (forget base t).content = t.content.map (forget base) := by
  cases t; rw [forget_mk]; rfl

/-- An operation on a child, seen from the parent. -/
theorem Impl.child {α β : Type} {x : Nat → HM α} {h : Heap} {hd : Hdr} {pre post : List Node} {c : Node}
    {r : Res Err β} {P : β → Node → α → Prop} (f : Forest h [.mk hd (pre ++ c :: post)]) (hx : Impl x h c r P) :
    Impl x h (.mk hd (pre ++ c :: post)) r (fun b t a => ∃ c', P b c' a ∧
      c'.hd.addr = c.hd.addr ∧ t = .mk hd (pre ++ c' :: post)) := by
  have hsub : ∀ a ∈ c.addrs, a ∈ (Node.mk hd (pre ++ c :: post)).addrs := fun a ha => by
    rw [addrs_mk]; exact List.mem_cons_of_mem _ (addrs_subset (by simp) ha)
  cases r with
  | ok b =>
    obtain ⟨h1, o1, G, a, e, u, p⟩ := hx
    exact ⟨h1, _, G, a, e, u.child f, _, p, u.root, rfl⟩
  | err e =>
    obtain ⟨h1, e, u⟩ := hx
    exact ⟨h1, e, u.mono hsub⟩
  | panic =>
    obtain ⟨h1, e, u⟩ := hx
    exact ⟨h1, e, u.mono hsub⟩

/-- Writing the node itself. -/
theorem Impl.write {α β : Type} {x : Nat → HM α} {h : Heap} {hd hd' : Hdr} {cs cs' G : List Node} {b : β}
    {a : α} {P : β → Node → α → Prop} (f : Forest h [.mk hd cs]) (ha : hd'.addr = hd.addr) (p : (cs' ++ G).Perm cs)
    (e : Ends x h (.ok a) (h.write hd.addr ⟨hd', cs'.map (fun c => c.hd.addr)⟩))
    (hp : P b (.mk hd' cs') a) : Impl x h (.mk hd cs) (.ok b) P :=
  ⟨_, _, G, a, e, upd_write f ha p, hp⟩

theorem Impl.pure {α β : Type} {h : Heap} {o : Node} {b : β} {a : α} {P : β → Node → α → Prop}
    (f : Forest h [o]) (hp : P b o a) : Impl (fun _ => (Pure.pure a : HM α)) h o (.ok b) P :=
  ⟨h, o, [], a, Ends.const rfl, Upd.refl f, hp⟩

theorem Upd.apart {h h1 : Heap} {o o1 n : Node} {G : List Node} (u : Upd h h1 o o1 G) (e : Apart h o n) :
    Apart h1 o1 n := by
  obtain ⟨a, b⟩ := u.other e.val (by rw [addrss_single]; exact e.apart)
  refine ⟨(forest_cons.1 u.forest).1, a, fun x hx => ?_⟩
  have := b x (by rw [Node.addrss]; simp [hx])
  rwa [addrss_single] at this

theorem mem_addrs_child {t c : Node} (hc : c ∈ t.content) {a : Nat} (ha : a ∈ c.addrs) : a ∈ t.addrs := by
  cases t; rw [addrs_mk]; exact List.mem_cons_of_mem _ (addrs_subset hc ha)

theorem Forest.child {h : Heap} {t c : Node} (f : Forest h [t]) (hc : c ∈ t.content) : Forest h [c] := by
  cases t; exact (forest_mk.1 f).2.2.2.mem hc

theorem Spec.Apart.sub {h : Heap} {o n c m : Node} (e : Apart h o n) (hc : c ∈ o.content) (hm : m ∈ n.content) : Apart h c m :=
  ⟨Forest.child e.doc hc, Forest.child e.val hm, fun a ha hb => e.apart a (mem_addrs_child hc ha) (mem_addrs_child hm hb)⟩

theorem Spec.Apart.left {h : Heap} {o n c : Node} (e : Apart h o n) (hc : c ∈ o.content) : Apart h c n :=
  ⟨Forest.child e.doc hc, e.val, fun a ha => e.apart a (mem_addrs_child hc ha)⟩

theorem Spec.Apart.right {h : Heap} {o n m : Node} (e : Apart h o n) (hm : m ∈ n.content) : Apart h o m :=
  ⟨e.doc, Forest.child e.val hm, fun a ha hb => e.apart a ha (mem_addrs_child hm hb)⟩

theorem Forest.get {h : Heap} {t : Node} (f : Forest h [t]) :
    h.get t.hd.addr = ⟨t.hd, t.content.map (fun c => c.hd.addr)⟩ := by
  cases t; exact (forest_mk.1 f).1

theorem Spec.Apart.ne {h : Heap} {o n : Node} (e : Apart h o n) : n.hd.addr ≠ o.hd.addr := fun he =>
  e.apart o.hd.addr (root_mem_addrs o) (he ▸ root_mem_addrs n)

/-! ### Fields -/

theorem mergeComments_keepAddr (E : Sed) (o n : Hdr) (vals : List Str) : (mergeComments E o n vals).addr = o.addr := by
  simp only [mergeComments]; split_ifs <;> rfl

theorem mergeComments_keepKind (E : Sed) (o n : Hdr) (vals : List Str) : (mergeComments E o n vals).kind = o.kind := by
  simp only [mergeComments]; split_ifs <;> rfl

theorem mergeComments_forget (E : Sed) (base : Nat) (o n : Hdr) (vals : List Str) :
    mergeComments E (forgetHd base o) n vals = forgetHd base (mergeComments E o n vals) := by
  have hx : formatVals (forgetHd base o) vals = formatVals o vals := by
    simp only [formatVals, forgetHd]
    congr 1 <;> (rcases vals with _ | ⟨a, _ | ⟨b, c⟩⟩ <;> rfl)
  simp only [mergeComments, hx]
  split_ifs <;> rfl

theorem formatVals_forget (base : Nat) (o : Hdr) (vals : List Str) :
    formatVals (forgetHd base o) vals = formatVals o vals := by
  simp only [formatVals, forgetHd]
  congr 1 <;> (rcases vals with _ | ⟨a, _ | ⟨b, c⟩⟩ <;> rfl)

theorem mergeCommentsH_run (E : Sed) {h : Heap} {o n : Node} (fo : Forest h [o]) (fn : Forest h [n]) (vals : List Str) :
    mergeCommentsH E o.hd.addr n.hd.addr vals h =
      (.ok (), h.write o.hd.addr ⟨mergeComments E o.hd n.hd vals, o.content.map (fun c => c.hd.addr)⟩) := by
  simp only [mergeCommentsH, HM.rd_bind, HM.wr_run, Forest.get fo, Forest.get fn]

theorem mergeScalarH_run (E : Sed) {h : Heap} {o n : Node} (e : Apart h o n) (vals : List Str) :
    mergeScalarH E o.hd.addr n.hd.addr vals h =
      (.ok (), h.write o.hd.addr ⟨(mergeScalar E o n.hd vals).hd,
        (mergeScalar E o n.hd vals).content.map (fun c => c.hd.addr)⟩) := by
  simp only [mergeScalarH, HM.rd_bind, Forest.get e.doc]
  rw [HM.bind_ok (mergeCommentsH_run E e.doc e.val vals)]
  simp only [HM.rd_bind, write_same, write_other _ _ e.ne, Forest.get e.val, mergeScalar]
  by_cases hk : o.hd.kind = .scalar
  · simp [hk, mergeComments_keepKind]
  · simp [hk, mergeComments_keepKind]

theorem mergeScalar_addr (E : Sed) (o : Node) (n : Hdr) (vals : List Str) :
    (mergeScalar E o n vals).hd.addr = o.hd.addr := by
  simp only [mergeScalar]; split_ifs <;> exact mergeComments_keepAddr _ _ _ _

theorem mergeScalar_forget (E : Sed) (base : Nat) (o : Node) (n : Hdr) (vals : List Str) :
    mergeScalar E (forget base o) n vals = forget base (mergeScalar E o n vals) := by
  simp only [mergeScalar, forget_hd, formatVals_forget, mergeComments_forget]
  have : (forgetHd base o.hd).kind = o.hd.kind := rfl
  rw [this]
  split_ifs
  · rw [forget_mk]; rfl
  · rw [forget_mk, forget_content]; rfl

/-- What is cut off when a node turns into a scalar. -/
theorem mergeScalar_perm (E : Sed) (o : Node) (n : Hdr) (vals : List Str) :
    ∃ G, ((mergeScalar E o n vals).content ++ G).Perm o.content := by
  simp only [mergeScalar]
  split_ifs
  · exact ⟨o.content, by simp⟩
  · exact ⟨[], by simp⟩

theorem mergeScalarH_upd (E : Sed) {h : Heap} {o n : Node} (e : Apart h o n) (vals : List Str) :
    ∃ G, Upd h (h.write o.hd.addr ⟨(mergeScalar E o n.hd vals).hd,
        (mergeScalar E o n.hd vals).content.map (fun c => c.hd.addr)⟩) o (mergeScalar E o n.hd vals) G := by
  obtain ⟨G, hG⟩ := mergeScalar_perm E o n.hd vals
  refine ⟨G, ?_⟩
  have f := e.doc
  have ha := mergeScalar_addr E o n.hd vals
  revert ha hG
  generalize mergeScalar E o n.hd vals = m
  cases o; cases m
  intro hG ha
  exact upd_write f ha hG

/-! ### Adding copies -/

theorem wf_of_fresh (t : Node) : WellFormed t.fresh → WellFormed t := by
  induction t using Node.ind with
  | h hd cs ih =>
    simp only [Node.fresh, WellFormed, freshs_eq_map, List.length_map, WellFormeds_iff, List.forall_mem_map]
    exact fun ⟨a, b⟩ => ⟨a, fun c hc => ih c hc (b c hc)⟩

theorem fresh_sanitize (E : Sed) (t : Node) : (sanitizeNode E t).fresh = sanitizeNode E t.fresh := by
  induction t using Node.ind with
  | h hd cs ih =>
    simp only [Node.fresh, sanitizeNode, freshs_eq_map, sanitizeNodes_eq_map, List.map_map]
    congr 1
    exact List.map_congr_left fun c hc => ih c hc

theorem addNodeH_impl (E : Sed) {base : Nat} {h : Heap} {o : Node} {ns : List Node} (fo : Forest h [o])
    (hb : base ≤ h.next) (hs : Storeds h ns) (hl : ∀ a ∈ Node.addrss ns, a < h.next) (wf : ∀ n ∈ ns, WellFormed n) :
    Impl (fun n => addNodeH E n o.hd.addr (ns.map (fun c => c.hd.addr))) h o (.ok (addNode E (forget base o) ns))
      (fun b t _ => forget base t = b) := by
  have hlive := fo.live o.hd.addr (by rw [addrss_single]; exact root_mem_addrs o)
  obtain ⟨h1, us, e1, c1⟩ := copyH_list (ts := ns) (fun t _ => copyH_spec t) h (by omega) hs hl
  have wfu : ∀ u ∈ us, WellFormed u := by
    intro u hu
    apply wf_of_fresh
    have : u.fresh ∈ ns.map Node.fresh := c1.same ▸ List.mem_map_of_mem hu
    obtain ⟨n, hn, e⟩ := List.mem_map.1 this
    rw [← e]
    exact fresh_wf n (wf n hn)
  obtain ⟨h2, vs, e2, i2, f2⟩ := rewrites_list (sanitize_addrs E) (fun t ht => sanitizeH_spec E t (wfu t ht)) h1 c1.forest
  have haddr := addr_of_addrs (sanitize_addrs E) us
  have u1 : Untouched h h1 [] := ⟨c1.next, fun a ha _ => c1.old a ha⟩
  have dis : ∀ a ∈ o.addrs, a ∉ Node.addrss us := fun a ha hb => by
    have := (fo.live a (by rwa [addrss_single])).2
    have := c1.new a hb
    omega
  have fo2 : Forest h2 [o] := (fo.frame u1 (by simp)).frame i2.untouched (by rw [addrss_single]; exact dis)
  have fall : Forest h2 (o :: us.map (sanitizeNode E)) := by
    rw [forest_cons]
    exact ⟨fo2, f2, by rw [haddr.2]; exact dis⟩
  have hget := Forest.get fo2
  obtain ⟨hd, cs⟩ := o
  let hd' : Hdr := { hd with nilc := hd.nilc && us.isEmpty }
  have fnew := forest_rearrange (hd' := hd') (cs' := cs ++ us.map (sanitizeNode E)) (G := []) fall rfl (by simp)
  refine ⟨_, _, [], (), ?_, ⟨fnew, ?_, rfl, ?_, ?_⟩, ?_⟩
  · have : Ends (fun n => mapH (copyH n) (ns.map (fun c => c.hd.addr)) >>= fun temp => mapH (sanitizeH E n) temp >>= fun _ =>
        (rd hd.addr >>= fun c => wr hd.addr ⟨{ c.hd with nilc := c.hd.nilc && temp.isEmpty }, c.content ++ temp⟩)) h (.ok ())
        (h2.write hd.addr ⟨hd', (cs ++ us.map (sanitizeNode E)).map (fun c => c.hd.addr)⟩) := by
      refine Ends.bind e1 (Ends.bind e2 (Ends.const ?_))
      simp only [HM.rd_bind, HM.wr_run]
      simp only [Node.hd_mk, Node.content_mk] at hget
      rw [hget, List.map_append, haddr.1]
      simp [hd']
    exact this
  · refine ⟨?_, fun a ha hb => ?_⟩
    · rw [write_next, i2.next]; exact c1.next
    · rw [addrs_mk, List.mem_cons, not_or] at hb
      rw [write_other _ _ hb.1, i2.other a, c1.old a ha]
      intro hm
      have := c1.new a hm
      omega
  · intro a ha
    rw [addrss_single, addrs_mk, addrss_append, haddr.2, List.mem_cons, List.mem_append] at ha
    rw [addrs_mk, List.mem_cons]
    rcases ha with ha | ha | ha
    · exact .inl (.inl ha)
    · exact .inl (.inr ha)
    · exact .inr (c1.new a ha)
  · intro a ha
    rw [addrs_mk, List.mem_cons] at ha
    rw [addrss_single, addrs_mk, addrss_append, List.mem_cons, List.mem_append]
    rcases ha with ha | ha
    · exact .inl ha
    · exact .inr (.inl ha)
  · show forget base _ = addNode E (forget base _) ns
    rw [forget_mk, List.map_append, addNode, appendContent, forget_mk]
    have hnew : (us.map (sanitizeNode E)).map (forget base) = sanitizeNodes E (Node.freshs ns) := by
      rw [sanitizeNodes_eq_map, freshs_eq_map, ← c1.same, List.map_map, List.map_map]
      refine List.map_congr_left fun u hu => ?_
      show forget base (sanitizeNode E u) = sanitizeNode E u.fresh
      rw [forget_fresh, fresh_sanitize]
      intro a ha
      rw [sanitize_addrs] at ha
      exact Nat.le_trans hb (c1.new a (addrs_subset hu ha))
    rw [hnew]
    have hlen : us.isEmpty = (sanitizeNodes E (Node.freshs ns)).isEmpty := by
      rw [← hnew]; cases us <;> rfl
    simp only [Node.content_mk, Node.hd_mk]
    congr 1
    rw [← hlen]
    rfl

/-! ### Changing the kind -/

theorem toMapping_forget (base : Nat) (o : Node) : toMapping (forget base o) = forget base (toMapping o) := by
  obtain ⟨hd, cs⟩ := o
  have hk : (forgetHd base hd).kind = hd.kind := rfl
  by_cases h : hd.kind = .mapping
  · simp only [toMapping, forget_mk, Node.hd_mk, hk, h, ne_eq, not_true_eq_false, if_false]
  · simp only [toMapping, forget_mk, Node.hd_mk, hk, h, ne_eq, not_false_eq_true, if_true]
    rfl

theorem toSequence_forget (base : Nat) (o : Node) : toSequence (forget base o) = forget base (toSequence o) := by
  obtain ⟨hd, cs⟩ := o
  have hk : (forgetHd base hd).kind = hd.kind := rfl
  by_cases h : hd.kind = .sequence
  · simp only [toSequence, forget_mk, Node.hd_mk, hk, h, ne_eq, not_true_eq_false, if_false]
  · simp only [toSequence, forget_mk, Node.hd_mk, hk, h, ne_eq, not_false_eq_true, if_true]
    rfl

end Yot
