import Verif.Lemmas.HeapMergeAll
namespace Yot
open Spec HM

/-! ### Replace -/

theorem replaceH_impl (E : Sed) {base : Nat} {h : Heap} {o n : Node} (e : Apart h o n) (hb : base ≤ h.next) :
    Impl (fun k => replaceH E k o.hd.addr n.hd.addr) h o (.ok (replaceNode E (forget base o) n))
      (fun b t _ => forget base t = b) := by
  have hgo := Forest.get e.doc
  have hgn := Forest.get e.val
  have fk := forest_kids e.val
  have hlive := e.doc.live o.hd.addr (by rw [addrss_single]; exact root_mem_addrs o)
  obtain ⟨h1, us, e1, c1⟩ := copyH_list (ts := n.content) (fun t _ => copyH_spec t) h (by omega) fk.stored
    (fun a ha => (fk.live a ha).2)
  have u1 : Untouched h h1 [] := ⟨c1.next, fun a ha _ => c1.old a ha⟩
  have fo1 : Forest h1 [o] := e.doc.frame u1 (by simp)
  have dis : ∀ a ∈ o.addrs, a ∉ Node.addrss us := fun a ha hb => by
    have := (e.doc.live a (by rwa [addrss_single])).2
    have := c1.new a hb
    omega
  have fall : Forest h1 (o :: us) := by rw [forest_cons]; exact ⟨fo1, c1.forest, dis⟩
  obtain ⟨hd, cs⟩ := o
  let m := mergeComments E hd n.hd []
  let hd' : Hdr := { n.hd with addr := hd.addr, head := m.head, line := m.line, foot := m.foot }
  have fnew := forest_rearrange (hd' := hd') (cs' := us) (G := cs) fall rfl List.perm_append_comm
  refine ⟨_, _, cs, (), ?_, ⟨fnew, ?_, rfl, ?_, ?_⟩, ?_⟩
  · have : Ends (fun k => mapH (copyH k) (n.content.map (fun c => c.hd.addr)) >>= fun kids =>
        (wr hd.addr ⟨{ n.hd with addr := hd.addr }, kids⟩ >>= fun _ => rd hd.addr >>= fun o' =>
          wr hd.addr { o' with hd := { o'.hd with
            head := (mergeComments E hd o'.hd []).head, line := (mergeComments E hd o'.hd []).line,
            foot := (mergeComments E hd o'.hd []).foot } })) h (.ok ())
        (h1.write hd.addr ⟨hd', us.map (fun c => c.hd.addr)⟩) := by
      refine Ends.bind e1 (Ends.const ?_)
      simp only [HM.rd_bind, HM.wr_run, HM.wr_bind, write_same, write_write]
      rfl
    refine this.congr (fun k => ?_)
    simp only [Node.hd_mk, Node.content_mk] at hgo
    simp only [replaceH, HM.rd_bind, Node.hd_mk, hgo, hgn]
  · refine ⟨?_, fun a ha hb => ?_⟩
    · rw [write_next]; exact c1.next
    · rw [addrs_mk, List.mem_cons, not_or] at hb
      rw [write_other _ _ hb.1, c1.old a ha]
  · intro a ha
    rw [Node.addrss, List.mem_append, addrs_mk, List.mem_cons] at ha
    rw [addrs_mk, List.mem_cons]
    rcases ha with (ha | ha) | ha
    · exact .inl (.inl ha)
    · exact .inr (c1.new a ha)
    · exact .inl (.inr ha)
  · intro a ha
    rw [addrs_mk, List.mem_cons] at ha
    rw [Node.addrss, List.mem_append, addrs_mk, List.mem_cons]
    rcases ha with ha | ha
    · exact .inl (.inl ha)
    · exact .inr ha
  · show forget base _ = replaceNode E (forget base _) n
    rw [forget_mk, replaceNode, forget_hd]
    have hkids : us.map (forget base) = n.fresh.content := by
      have : n.fresh.content = n.content.map Node.fresh := by
        cases n; rw [Node.fresh, freshs_eq_map]; rfl
      rw [this, ← c1.same]
      refine List.map_congr_left fun u hu => forget_fresh base u (fun a ha => Nat.le_trans hb (c1.new a (addrs_subset hu ha)))
    rw [hkids]
    have hh : n.fresh.hd = { n.hd with addr := 0 } := by cases n; rw [Node.fresh]; rfl
    have hm : mergeComments E (forgetHd base hd) { n.hd with addr := 0 } [] = forgetHd base m := by
      rw [mergeComments_forget]; rfl
    simp only [Node.hd_mk, hh, hm]
    rfl

/-! ### Combine -/

theorem combineH_impl (E : Sed) {base : Nat} {h : Heap} {o n : Node} (e : Apart h o n) :
    Impl (fun _ => combineH E o.hd.addr n.hd.addr) h o (combineNode E (forget base o) n)
      (fun b t _ => forget base t = b) := by
  have hgo := Forest.get e.doc
  have hgn := Forest.get e.val
  have hne := e.ne
  obtain ⟨hd, cs⟩ := o
  obtain ⟨nh, ncs⟩ := n
  simp only [Node.hd_mk, Node.content_mk] at *
  have hkind : (forgetHd base hd).kind = hd.kind := rfl
  have hfk : ∀ x : Hdr, (forgetHd base x).value = x.value := fun _ => rfl
  have hft : ∀ x : Hdr, (forgetHd base x).tag = x.tag := fun _ => rfl
  simp only [combineNode, forget_mk, Node.hd_mk, Node.content_mk, hkind, mergeComments_forget, hfk, hft]
  have hrun : combineH E hd.addr nh.addr h = (if hd.kind ≠ .scalar ∨ nh.kind ≠ .scalar then fail .combineOnlyForScalars
      else (mergeCommentsH E hd.addr nh.addr [] >>= fun _ => rd hd.addr >>= fun o => rd nh.addr >>= fun n =>
        if o.hd.tag = c!"!!int" then
          match atoi o.hd.value, atoi n.hd.value with
          | some a, some b => wr hd.addr { o with hd := { o.hd with value := itoa (wrap64 (a + b)) } }
          | _, _ => fail .notAnInt
        else if o.hd.tag = c!"!!bool" then
          match parseBool o.hd.value, parseBool n.hd.value with
          | some a, some b => wr hd.addr { o with hd := { o.hd with value := formatBool (a && b) } }
          | _, _ => fail .notABool
        else wr hd.addr { o with hd := { o.hd with value := o.hd.value ++ n.hd.value } } : HM Unit) : HM Unit) h := by
    rw [combineH, HM.rd_bind, hgo, HM.rd_bind, hgn]
    rfl
  refine Impl.congr (F := fun _ => _) ?_ (fun _ => hrun)
  by_cases hk : hd.kind ≠ .scalar ∨ nh.kind ≠ .scalar
  · simp only [hk, if_true]
    exact ⟨h, Ends.const rfl, Untouched.refl _ _⟩
  · simp only [hk, if_false]
    have u1 := upd_fields (hd' := mergeComments E hd nh []) e.doc (mergeComments_keepAddr _ _ _ _)
    refine Impl.step (Ends.const (mergeCommentsH_run E e.doc e.val [])) u1 ?_
    have e1 := u1.apart e
    simp only [Node.hd_mk, Node.content_mk] at e1 ⊢
    generalize h.write hd.addr _ = h1 at e1 ⊢
    have ha : (mergeComments E hd nh []).addr = hd.addr := mergeComments_keepAddr _ _ _ _
    have g1 := Forest.get e1.doc
    have g2 := Forest.get e1.val
    simp only [Node.hd_mk, Node.content_mk, ha] at g1 g2
    generalize mergeComments E hd nh [] = c at *
    have hw : ∀ v : Str, Impl (fun _ => wr hd.addr ⟨{ c with value := v }, cs.map (fun c => c.hd.addr)⟩) h1 (.mk c cs)
        (.ok (.mk { forgetHd base c with value := v } (cs.map (forget base)))) (fun b t _ => forget base t = b) := by
      intro v
      refine Impl.write (a := ()) e1.doc (hd' := { c with value := v }) (cs' := cs) (G := []) rfl (by simp) (Ends.const ?_) ?_
      · rw [HM.wr_run, ← ha]
      · rw [forget_mk]; rfl
    refine Impl.congr (F := fun _ => if c.tag = c!"!!int" then
          match atoi c.value, atoi nh.value with
          | some a, some b => wr hd.addr ⟨{ c with value := itoa (wrap64 (a + b)) }, cs.map (fun c => c.hd.addr)⟩
          | _, _ => fail .notAnInt
        else if c.tag = c!"!!bool" then
          match parseBool c.value, parseBool nh.value with
          | some a, some b => wr hd.addr ⟨{ c with value := formatBool (a && b) }, cs.map (fun c => c.hd.addr)⟩
          | _, _ => fail .notABool
        else wr hd.addr ⟨{ c with value := c.value ++ nh.value }, cs.map (fun c => c.hd.addr)⟩) ?_ (fun _ => ?_)
    · by_cases t1 : c.tag = c!"!!int"
      · simp only [if_pos t1]
        cases atoi c.value <;> cases atoi nh.value
        case some.some a b => exact hw (itoa (wrap64 (a + b)))
        all_goals exact ⟨h1, Ends.const rfl, Untouched.refl _ _⟩
      · simp only [if_neg t1]
        by_cases t2 : c.tag = c!"!!bool"
        · simp only [if_pos t2]
          cases parseBool c.value <;> cases parseBool nh.value
          case some.some a b => exact hw (formatBool (a && b))
          all_goals exact ⟨h1, Ends.const rfl, Untouched.refl _ _⟩
        · simp only [if_neg t2]
          exact hw _
    · rw [HM.rd_bind, HM.rd_bind, g1, g2]

/-! ### Delete -/

theorem forget_addr_iff {base a : Nat} (ha : a ≠ 0) (hb : a < base) (c : Node) :
    (forget base c).hd.addr = a ↔ c.hd.addr = a := by
  rw [forget_hd]
  simp only [forgetHd]
  split_ifs <;> omega

theorem cut_perm {α : Type} (l : List α) {i j : Nat} (h : i ≤ j) :
    ((l.take i ++ l.drop j) ++ (l.take j).drop i).Perm l := by
  have h1 : l = (l.take j).take i ++ ((l.take j).drop i ++ l.drop j) := by
    rw [← List.append_assoc, List.take_append_drop, List.take_append_drop]
  have h2 : (l.take j).take i = l.take i := by rw [List.take_take, Nat.min_eq_left h]
  rw [h2] at h1
  rw [List.append_assoc]
  conv_rhs => rw [h1]
  exact (List.perm_append_comm).append_left _

theorem cutRange_le (k : Kind) (i : Nat) : (cutRange k i).1 ≤ (cutRange k i).2 := by
  simp only [cutRange]; split_ifs <;> simp <;> omega

/-- What the loop of a deletion is to do. -/
def deleteFrom (a : Nat) (hd : Hdr) (pre cs : List Node) : Res Err Node :=
  deleteScan a cs >>= fun r =>
    match r.2 with
    | none => .ok (.mk hd (pre ++ r.1))
    | some i => deleteIndex hd.kind (pre.length + i) (pre ++ r.1) >>= fun cs' => .ok (.mk { hd with nilc := false } cs')

theorem deleteFrom_cons {a : Nat} {hd : Hdr} {pre cs : List Node} {c : Node} (hc : c.hd.addr ≠ a) :
    deleteFrom a hd pre (c :: cs) = (deleteNode a c >>= fun c' => deleteFrom a hd (pre ++ [c']) cs) := by
  rw [deleteFrom, deleteScan, if_neg hc]
  cases deleteNode a c with
  | ok c' =>
    rw [Res.bind_ok, Res.bind_ok, deleteFrom]
    cases deleteScan a cs with
    | ok r =>
      obtain ⟨l, i⟩ := r
      cases i with
      | none => simp [Res.bind_ok]
      | some i =>
        have : pre.length + (i + 1) = pre.length + 1 + i := by omega
        simp [Res.bind_ok, this]
    | err e => rfl
    | panic => rfl
  | err e => rfl
  | panic => rfl

theorem deleteNode_eq_from (a : Nat) (hd : Hdr) (cs : List Node) : deleteNode a (.mk hd cs) = deleteFrom a hd [] cs := by
  rw [deleteNode, deleteFrom]
  congr 1
  funext r
  rcases r with ⟨l, _ | i⟩ <;> simp

theorem deleteFrom_hit {a : Nat} {hd : Hdr} {pre cs : List Node} {c : Node} (hc : c.hd.addr = a) :
    deleteFrom a hd pre (c :: cs) =
      (deleteIndex hd.kind pre.length (pre ++ c :: cs) >>= fun cs' => .ok (.mk { hd with nilc := false } cs')) := by
  rw [deleteFrom, deleteScan, if_pos hc, Res.bind_ok]
  rfl

theorem deleteH_impl {base a : Nat} (ha : a ≠ 0) (hab : a < base) (t : Node) : ∀ h : Heap, Forest h [t] → base ≤ h.next →
    Impl (fun k => deleteH k t.hd.addr a) h t (deleteNode a (forget base t)) (fun b t _ => forget base t = b) := by
  induction t using Node.ind with
  | h hd cs ih =>
    intro h f hb
    -- the loop
    have loop : ∀ (cs' pre : List Node) (h : Heap), (∀ c ∈ cs', c ∈ cs) → Forest h [.mk hd (pre ++ cs')] → base ≤ h.next →
        Impl (fun k => deleteLoopH k hd.addr a pre.length (cs'.map (fun c => c.hd.addr))) h (.mk hd (pre ++ cs'))
          (deleteFrom a (forgetHd base hd) (pre.map (forget base)) (cs'.map (forget base))) (fun b t _ => forget base t = b) := by
      intro cs'
      induction cs' with
      | nil =>
        intro pre h _ f hb
        refine Impl.call (F := fun _ => pure ()) ?_ (fun k => by rw [List.map_nil, deleteLoopH])
        refine Impl.pure f ?_
        rw [forget_mk]; simp
      | cons c cs' ihl =>
        intro pre h hs f hb
        by_cases hc : c.hd.addr = a
        · have hget := Forest.get f
          simp only [Node.hd_mk, Node.content_mk] at hget
          rw [List.map_cons, List.map_cons, deleteFrom_hit ((forget_addr_iff ha hab c).2 hc)]
          have hkind : (forgetHd base hd).kind = hd.kind := rfl
          have hl : (pre.map (forget base) ++ forget base c :: cs'.map (forget base)) = (pre ++ c :: cs').map (forget base) := by simp
          rw [hl, List.length_map, hkind]
          refine Impl.call (F := fun _ => rd hd.addr >>= fun pn =>
            (if (cutRange pn.hd.kind pre.length).2 ≤ pn.content.length then
              wr hd.addr ⟨{ pn.hd with nilc := false }, pn.content.take (cutRange pn.hd.kind pre.length).1 ++
                pn.content.drop (cutRange pn.hd.kind pre.length).2⟩
            else crash : HM Unit)) ?_ (fun k => by rw [deleteLoopH, if_neg (by simpa using hc)])
          generalize pre ++ c :: cs' = l at *
          have hcl := cutRange_le hd.kind pre.length
          simp only [deleteIndex, List.length_map]
          by_cases hle : (cutRange hd.kind pre.length).2 ≤ l.length
          · rw [if_pos hle, Res.bind_ok]
            refine Impl.write (a := ()) f (hd' := { hd with nilc := false })
              (cs' := l.take (cutRange hd.kind pre.length).1 ++ l.drop (cutRange hd.kind pre.length).2)
              (G := (l.take (cutRange hd.kind pre.length).2).drop (cutRange hd.kind pre.length).1) rfl (cut_perm l hcl)
              (Ends.const ?_) ?_
            · rw [HM.rd_bind, hget]
              simp only [List.length_map, hle, if_true]
              simp
            · rw [forget_mk]
              simp only [List.map_append, List.map_take, List.map_drop]
              rfl
          · rw [if_neg hle]
            refine ⟨h, Ends.const ?_, Untouched.refl _ _⟩
            rw [HM.rd_bind, hget]
            simp only [List.length_map, hle, if_false]
            rfl
        · rw [List.map_cons, List.map_cons, deleteFrom_cons (fun x => hc ((forget_addr_iff ha hab c).1 x))]
          have fc : Forest h [c] := Forest.child f (by simp)
          have hgc := Forest.get fc
          refine Impl.call (F := fun k => (if c.contentIsNil then pure () else deleteH k c.hd.addr a : HM Unit) >>= fun _ =>
            deleteLoopH k hd.addr a (pre.length + 1) (cs'.map (fun c => c.hd.addr))) ?_ (fun k => ?_)
          · refine Impl.bind (P := fun b t _ => ∃ c', forget base c' = b ∧ c'.hd.addr = c.hd.addr ∧ t = .mk hd (pre ++ c' :: cs')) ?_ ?_
            · by_cases hn : c.contentIsNil = true
              · simp only [hn, if_true]
                have hcn : c.content = [] := by
                  simp only [Node.contentIsNil, Bool.and_eq_true, List.isEmpty_iff] at hn; exact hn.2
                have : deleteNode a (forget base c) = .ok (forget base c) := by
                  obtain ⟨ch, cc⟩ := c
                  simp only [Node.content_mk] at hcn
                  subst hcn
                  rw [forget_mk, List.map_nil, deleteNode, deleteScan]
                  rfl
                rw [this]
                exact Impl.pure f ⟨c, rfl, rfl, rfl⟩
              · simp only [hn]
                refine (Impl.child f (ih c (hs c (by simp)) h fc hb)).mono ?_
                rintro b t _ - ⟨c', h1, h2, h3⟩
                exact ⟨c', h1, h2, h3⟩
            · rintro h1 o1 G1 - b - u1 ⟨c', rfl, hca, rfl⟩
              have hl : pre ++ c' :: cs' = (pre ++ [c']) ++ cs' := by simp
              have := ihl (pre ++ [c']) h1 (fun x hx => hs x (by simp [hx])) (hl ▸ (forest_cons.1 u1.forest).1)
                (Nat.le_trans hb u1.frame.1)
              rw [← hl, List.map_append] at this
              simpa using this
          · rw [deleteLoopH, if_pos (by simpa using hc), HM.rd_bind, hgc]
            simp only [Node.contentIsNil, List.isEmpty_map]
            rfl
    have hget := Forest.get f
    simp only [Node.hd_mk, Node.content_mk] at hget
    refine Impl.call (F := fun k => deleteLoopH k hd.addr a 0 (cs.map (fun c => c.hd.addr))) ?_ (fun k => ?_)
    · have := loop cs [] h (fun _ h => h) f hb
      rw [forget_mk, deleteNode_eq_from]
      simpa using this
    · rw [Node.hd_mk, deleteH, HM.rd_bind, hget]

/-! ### Editing one node of a document -/

theorem modifyAts_append (a : Nat) (f : Node → Res Err Node) (xs ys : List Node) :
    modifyAts a f (xs ++ ys) = (modifyAts a f xs >>= fun xs' => modifyAts a f ys >>= fun ys' => .ok (xs' ++ ys')) := by
  induction xs with
  | nil =>
    rw [List.nil_append, modifyAts, Res.bind_ok]
    cases modifyAts a f ys <;> rfl
  | cons x xs ih =>
    rw [List.cons_append, modifyAts, modifyAts, ih]
    cases modifyAt a f x with
    | ok x' =>
      simp only [Res.bind_ok]
      cases modifyAts a f xs with
      | ok xs' =>
        simp only [Res.bind_ok]
        cases modifyAts a f ys <;> rfl
      | err e => rfl
      | panic => rfl
    | err e => rfl
    | panic => rfl

mutual
theorem modifyAt_away {a base : Nat} (ha : a ≠ 0) (hab : a < base) (f : Node → Res Err Node) :
    ∀ t : Node, a ∉ t.addrs → modifyAt a f (forget base t) = .ok (forget base t)
  | .mk hd cs => by
    intro h
    rw [addrs_mk, List.mem_cons, not_or] at h
    have hne : ¬ (forgetHd base hd).addr = a := by
      simp only [forgetHd]; split_ifs <;> omega
    rw [forget_mk, modifyAt, if_neg hne, modifyAts_away ha hab f cs h.2]
    rfl
theorem modifyAts_away {a base : Nat} (ha : a ≠ 0) (hab : a < base) (f : Node → Res Err Node) :
    ∀ ts : List Node, a ∉ Node.addrss ts → modifyAts a f (ts.map (forget base)) = .ok (ts.map (forget base))
  | [] => fun _ => rfl
  | t :: ts => by
    intro h
    rw [Node.addrss, List.mem_append, not_or] at h
    rw [List.map_cons, modifyAts, modifyAt_away ha hab f t h.1, modifyAts_away ha hab f ts h.2]
    rfl
end

theorem modifyAt_impl {a base : Nat} (ha : a ≠ 0) (hab : a < base) {x : Nat → HM Unit} {f : Node → Res Err Node} {h : Heap} :
    ∀ t : Node, Forest h [t] → a ∈ t.addrs →
      (∀ c : Node, Forest h [c] → c.hd.addr = a → (∀ b ∈ c.addrs, b ∈ t.addrs) →
        Impl x h c (f (forget base c)) (fun b t _ => forget base t = b)) →
      Impl x h t (modifyAt a f (forget base t)) (fun b t _ => forget base t = b) := by
  intro t
  induction t using Node.ind with
  | h hd cs ih =>
    intro ft hm hx
    rw [forget_mk, modifyAt]
    by_cases hh : hd.addr = a
    · have : (forgetHd base hd).addr = a := by simp only [forgetHd]; split_ifs <;> omega
      rw [if_pos this, ← forget_mk]
      exact hx _ ft hh (fun b hb => hb)
    · have : ¬ (forgetHd base hd).addr = a := by simp only [forgetHd]; split_ifs <;> omega
      rw [if_neg this]
      rw [addrs_mk, List.mem_cons] at hm
      have hm' : a ∈ Node.addrss cs := hm.resolve_left (fun e => hh e.symm)
      rw [addrss_eq_flatMap, List.mem_flatMap] at hm'
      obtain ⟨c, hc, hac⟩ := hm'
      obtain ⟨pre, post, rfl⟩ := List.append_of_mem hc
      have fk := forest_kids ft
      simp only [Node.content_mk] at fk
      have hfa := forest_append.1 fk
      have hfc := forest_cons.1 hfa.2.1
      have hpre : a ∉ Node.addrss pre := fun hp => hfa.2.2 a hp (by rw [Node.addrss]; simp [hac])
      have hpost : a ∉ Node.addrss post := hfc.2.2 a hac
      have sub := ih c (by simp) hfc.1 hac (fun d fd hd' hsub => hx d fd hd' (fun b hb => by
        rw [addrs_mk]; exact List.mem_cons_of_mem _ (addrs_subset (c := c) (by simp) (hsub b hb))))
      have subc := Impl.child ft sub
      rw [List.map_append, List.map_cons, modifyAts_append, modifyAts_away ha hab f pre hpre, Res.bind_ok, modifyAts,
        modifyAts_away ha hab f post hpost]
      have hr : ((modifyAt a f (forget base c) >>= fun c' => (.ok (post.map (forget base)) : Res Err (List Node)) >>= fun cs' =>
            .ok (c' :: cs')) >>= fun ys' => .ok (pre.map (forget base) ++ ys')) >>= (fun cs' => .ok (Node.mk (forgetHd base hd) cs')) =
          (modifyAt a f (forget base c) >>= fun c' => Res.ok (Node.mk (forgetHd base hd) (pre.map (forget base) ++ c' :: post.map (forget base)))) := by
        cases modifyAt a f (forget base c) <;> rfl
      rw [hr]
      refine subc.map ?_
      rintro b t _ ⟨c', h1, h2, rfl⟩
      rw [forget_mk]
      simp [h1]

end Yot
