import Verif.Lemmas.HeapStyle
import Verif.Lemmas.Safety
namespace Yot
open Spec HM

/-- An edit of one matched node, for the actions other than delete. -/
def editNode (E : Sed) (action : Action) (v n : Node) : Res Err Node :=
  match action with
  | .replace => .ok (replaceNode E n v)
  | .combine => combineNode E n v
  | _ => mergeNode E n v

theorem doOne_edit {E : Sed} {o : Overlay} (ha : o.action ≠ .delete) (t : Node) (p : Nat) :
    doOne E o t p = modifyAt p (editNode E o.action o.value) t := by
  unfold doOne editNode
  cases h : o.action <;> simp_all

theorem doOneH_edit (E : Sed) {base : Nat} {h : Heap} {action : Action} {c v : Node} (e : Apart h c v) (wf : WellFormed v)
    (hb : base ≤ h.next) (ha : action ≠ .delete) (root : Nat) :
    Impl (fun k => doOneH E k action root v.hd.addr c.hd.addr) h c (editNode E action v (forget base c))
      (fun b t _ => forget base t = b) := by
  cases action with
  | delete => exact absurd rfl ha
  | replace => exact replaceH_impl E e hb
  | combine => exact combineH_impl E e
  | merge => exact mergeImpl E v wf base h c [] e hb
  | invalid => exact mergeImpl E v wf base h c [] e hb

theorem forget_mem {base a : Nat} (ha : a ≠ 0) (hb : a < base) (t : Node) : a ∈ (forget base t).addrs ↔ a ∈ t.addrs := by
  induction t using Node.ind with
  | h hd cs ih =>
    rw [forget_mk, addrs_mk, addrs_mk, List.mem_cons, List.mem_cons]
    have h1 : a = (forgetHd base hd).addr ↔ a = hd.addr := by
      simp only [forgetHd]; split_ifs <;> omega
    have h2 : a ∈ Node.addrss (cs.map (forget base)) ↔ a ∈ Node.addrss cs := by
      rw [addrss_eq_flatMap, addrss_eq_flatMap, List.mem_flatMap, List.mem_flatMap]
      constructor
      · rintro ⟨x, hx, hax⟩
        obtain ⟨c, hc, rfl⟩ := List.mem_map.1 hx
        exact ⟨c, hc, (ih c hc).1 hax⟩
      · rintro ⟨c, hc, hac⟩
        exact ⟨_, List.mem_map_of_mem hc, (ih c hc).2 hac⟩
    rw [h1, h2]

theorem forget_old {base : Nat} (t : Node) (h : ∀ a ∈ t.addrs, a < base) : forget base t = t := by
  induction t using Node.ind with
  | h hd cs ih =>
    rw [addrs_mk] at h
    rw [forget_mk]
    congr 1
    · simp only [forgetHd, h hd.addr (by simp), if_true]
    · conv_rhs => rw [← List.map_id cs]
      exact List.map_congr_left fun c hc => ih c hc (fun a ha => h a (by simp [addrs_subset hc ha]))

/-- An edit of something that no longer hangs in the document. -/
theorem Upd.garbage {h0 h h' : Heap} {t0 t g g' : Node} {G1 G2 Gg : List Node} (u : Upd h0 h t0 t (G1 ++ g :: G2))
    (v : Upd h h' g g' Gg) : Upd h0 h' t0 t (G1 ++ (g' :: Gg) ++ G2) := by
  have hp : (t :: (G1 ++ g :: G2)).Perm ([g] ++ (t :: (G1 ++ G2))) := by
    have : (t :: (G1 ++ g :: G2)) = (t :: G1) ++ g :: G2 := rfl
    rw [this]
    exact List.perm_middle
  have f := u.forest.perm hp
  obtain ⟨f1, f2, f3⟩ := forest_append.1 f
  rw [addrss_single] at f3
  obtain ⟨k1, k2⟩ := v.other f2 f3
  have hq : ((g' :: Gg) ++ (t :: (G1 ++ G2))).Perm (t :: (G1 ++ (g' :: Gg) ++ G2)) := by
    refine List.perm_middle.trans (List.Perm.cons t ?_)
    rw [← List.append_assoc]
    exact List.perm_append_comm.append_right G2
  have hold : ∀ a, a ∈ Node.addrss (t :: (G1 ++ g :: G2)) ↔ a ∈ g.addrs ∨ a ∈ Node.addrss (t :: (G1 ++ G2)) := by
    intro a
    rw [(addrss_perm hp).mem_iff, addrss_append, addrss_single, List.mem_append]
  have hnew : ∀ a, a ∈ Node.addrss (t :: (G1 ++ (g' :: Gg) ++ G2)) ↔
      a ∈ Node.addrss (g' :: Gg) ∨ a ∈ Node.addrss (t :: (G1 ++ G2)) := by
    intro a
    rw [← (addrss_perm hq).mem_iff, addrss_append, List.mem_append]
  refine ⟨(forest_append.2 ⟨v.forest, k1, k2⟩).perm hq, ?_, u.root, ?_, ?_⟩
  · refine ⟨Nat.le_trans u.frame.1 v.frame.1, fun a ha hb => ?_⟩
    rw [v.frame.2 a (Nat.lt_of_lt_of_le ha u.frame.1), u.frame.2 a ha hb]
    intro hm
    rcases u.sub a ((hold a).2 (.inl hm)) with hx | hx
    · exact hb hx
    · omega
  · intro a ha
    rcases (hnew a).1 ha with hx | hx
    · rcases v.sub a hx with hy | hy
      · exact u.sub a ((hold a).2 (.inl hy))
      · exact .inr (Nat.le_trans u.frame.1 hy)
    · exact u.sub a ((hold a).2 (.inr hx))
  · intro a ha
    rw [hnew]
    rcases (hold a).1 (u.sup a ha) with hx | hx
    · exact .inl (v.sup a hx)
    · exact .inr hx

/-- Each match still hangs in the document when it is its turn. -/
def Attached (E : Sed) (o : Overlay) : Node → List Nat → Prop
  | _, [] => True
  | t, p :: ps => p ∈ t.addrs ∧ ∀ t', doOne E o t p = .ok t' → Attached E o t' ps

/-- The edit never fails. -/
def NeverFails (E : Sed) (o : Overlay) : Prop := ∀ n, ∃ n', editNode E o.action o.value n = .ok n'

/-- The tree outcome that corresponds to an outcome in memory. -/
def failsAs {α β : Type} : Flow α → Res Err β → Prop
  | .err e, r => r = .err e
  | .panic, r => r = .panic
  | _, _ => True

mutual
theorem modifyAt_total {p : Nat} {f : Node → Res Err Node} (hf : ∀ n, ∃ n', f n = .ok n') :
    ∀ t : Node, ∃ t', modifyAt p f t = .ok t'
  | .mk hd cs => by
    rw [modifyAt]
    split_ifs
    · exact hf _
    · obtain ⟨cs', h⟩ := modifyAts_total hf cs
      exact ⟨_, by rw [h]; rfl⟩
theorem modifyAts_total {p : Nat} {f : Node → Res Err Node} (hf : ∀ n, ∃ n', f n = .ok n') :
    ∀ ts : List Node, ∃ ts', modifyAts p f ts = .ok ts'
  | [] => ⟨_, rfl⟩
  | t :: ts => by
    obtain ⟨t', h⟩ := modifyAt_total hf t
    obtain ⟨ts', h'⟩ := modifyAts_total hf ts
    exact ⟨_, by rw [modifyAts, h, Res.bind_ok, h']; rfl⟩
end

/-- What `doAction` from a given point on does. -/
theorem doAction_from (E : Sed) (o : Overlay) {h0 : Heap} {t0 : Node} (e0 : Apart h0 t0 o.value) (wf : WellFormed o.value)
    (ps : List Nat) : ∀ (h : Heap) (t : Node) (G : List Node), Upd h0 h t0 t G → (∀ p ∈ ps, p ∈ t0.addrs) →
      ∃ r h', Ends (fun k => mapH (doOneH E k o.action t0.hd.addr o.value.hd.addr) ps) h r h' ∧ r ≠ .stuck ∧
        Untouched h0 h' t0.addrs ∧
        (∀ l, r = .ok l → ∃ t' G', Upd h0 h' t0 t' G' ∧
          ps.foldlM (fun r p => doOne E o r p) (forget h0.next t) = .ok (forget h0.next t')) ∧
        ((o.action = .delete ∨ NeverFails E o ∨ Attached E o (forget h0.next t) ps) →
          failsAs r (ps.foldlM (fun r p => doOne E o r p) (forget h0.next t))) := by
  induction ps with
  | nil =>
    intro h t G u _
    exact ⟨.ok [], h, Ends.const rfl, by simp, u.frame, fun l _ => ⟨t, G, u, rfl⟩, fun _ => trivial⟩
  | cons p ps ih =>
    intro h t G u hps
    have hp0 : p ∈ t0.addrs := hps p (by simp)
    have hlive := e0.doc.live p (by rwa [addrss_single])
    have hpne : p ≠ 0 := by omega
    have hb : h0.next ≤ h.next := u.frame.1
    have ft : Forest h [t] := (forest_cons.1 u.forest).1
    have hval := (u.other e0.val (by rw [addrss_single]; exact e0.apart))
    rw [addrss_single] at hval
    -- the rest, after a step
    have next : ∀ (h1 : Heap) (t1 : Node) (G1 : List Node), Upd h0 h1 t0 t1 G1 →
        Ends (fun k => doOneH E k o.action t0.hd.addr o.value.hd.addr p) h (.ok ()) h1 →
        doOne E o (forget h0.next t) p = .ok (forget h0.next t1) →
        ∃ r h', Ends (fun k => mapH (doOneH E k o.action t0.hd.addr o.value.hd.addr) (p :: ps)) h r h' ∧ r ≠ .stuck ∧
          Untouched h0 h' t0.addrs ∧
          (∀ l, r = .ok l → ∃ t' G', Upd h0 h' t0 t' G' ∧
            (p :: ps).foldlM (fun r p => doOne E o r p) (forget h0.next t) = .ok (forget h0.next t')) ∧
          ((o.action = .delete ∨ NeverFails E o ∨ Attached E o (forget h0.next t) (p :: ps)) →
            failsAs r ((p :: ps).foldlM (fun r p => doOne E o r p) (forget h0.next t))) := by
      intro h1 t1 G1 u1 e1 d1
      obtain ⟨r, h2, e2, n2, k2, s2, f2⟩ := ih h1 t1 G1 u1 (fun q hq => hps q (by simp [hq]))
      have hfold : (p :: ps).foldlM (fun r p => doOne E o r p) (forget h0.next t) =
          ps.foldlM (fun r p => doOne E o r p) (forget h0.next t1) := by
        rw [List.foldlM_cons, d1]; rfl
      rw [hfold]
      have hall : (o.action = .delete ∨ NeverFails E o ∨ Attached E o (forget h0.next t) (p :: ps)) →
          (o.action = .delete ∨ NeverFails E o ∨ Attached E o (forget h0.next t1) ps) := by
        rintro (h | h | h)
        · exact .inl h
        · exact .inr (.inl h)
        · exact .inr (.inr (h.2 _ d1))
      have hbind : ∀ r', Ends (fun k => mapH (doOneH E k o.action t0.hd.addr o.value.hd.addr) ps >>= fun xs => pure (() :: xs)) h1 r' h2 →
          Ends (fun k => mapH (doOneH E k o.action t0.hd.addr o.value.hd.addr) (p :: ps)) h r' h2 := by
        intro r' hr
        exact Ends.bind (f := fun k x => mapH (doOneH E k o.action t0.hd.addr o.value.hd.addr) ps >>= fun xs => pure (x :: xs)) e1 hr
      cases r with
      | ok l =>
        refine ⟨.ok (() :: l), h2, hbind _ (Ends.bind e2 (Ends.const rfl)), by simp, k2, fun _ _ => s2 l rfl, fun _ => trivial⟩
      | err e =>
        exact ⟨.err e, h2, hbind _ (Ends.bind_err e2), by simp, k2, fun _ h => by simp at h, fun hh => f2 (hall hh)⟩
      | panic =>
        exact ⟨.panic, h2, hbind _ (Ends.bind_panic e2), by simp, k2, fun _ h => by simp at h, fun hh => f2 (hall hh)⟩
      | stuck => exact absurd rfl n2
    have stopErr : ∀ (x : Nat → HM Unit) (e : Err) (h1 : Heap), Ends x h (.err e) h1 → ∀ y : Nat → Unit → HM (List Unit),
        Ends (fun k => x k >>= y k) h (.err e) h1 := fun x e h1 hx y => Ends.bind_err hx
    -- one step, in the document
    have inside : ∀ (fT : Res Err Node), doOne E o (forget h0.next t) p = fT →
        Impl (fun k => doOneH E k o.action t0.hd.addr o.value.hd.addr p) h t fT (fun b t _ => forget h0.next t = b) →
        ∃ r h', Ends (fun k => mapH (doOneH E k o.action t0.hd.addr o.value.hd.addr) (p :: ps)) h r h' ∧ r ≠ .stuck ∧
          Untouched h0 h' t0.addrs ∧
          (∀ l, r = .ok l → ∃ t' G', Upd h0 h' t0 t' G' ∧
            (p :: ps).foldlM (fun r p => doOne E o r p) (forget h0.next t) = .ok (forget h0.next t')) ∧
          ((o.action = .delete ∨ NeverFails E o ∨ Attached E o (forget h0.next t) (p :: ps)) →
            failsAs r ((p :: ps).foldlM (fun r p => doOne E o r p) (forget h0.next t))) := by
      intro fT hfT himp
      have ut : Upd h0 h t0 t G := u
      have uGt : ∀ h', Untouched h h' t.addrs → Untouched h0 h' t0.addrs := fun h' k => ut.untouched k
      cases fT with
      | ok b =>
        obtain ⟨h1, t1, G1, a, e1, u1, rfl⟩ := himp
        exact next h1 t1 _ (ut.trans u1) e1 hfT
      | err e =>
        obtain ⟨h1, e1, k1⟩ := himp
        refine ⟨.err e, h1, Ends.bind_err e1, by simp, uGt _ k1, fun _ h => by simp at h, fun _ => ?_⟩
        rw [List.foldlM_cons, hfT]; rfl
      | panic =>
        obtain ⟨h1, e1, k1⟩ := himp
        refine ⟨.panic, h1, Ends.bind_panic e1, by simp, uGt _ k1, fun _ h => by simp at h, fun _ => ?_⟩
        rw [List.foldlM_cons, hfT]; rfl
    by_cases hdel : o.action = .delete
    · have himp := deleteH_impl hpne hlive.2 t h ft hb
      rw [u.root] at himp
      refine inside _ ?_ (himp.congr (fun k => by rw [hdel]; rfl))
      unfold doOne; rw [hdel]
    · by_cases hin : p ∈ t.addrs
      · refine inside _ (doOne_edit hdel _ _) (modifyAt_impl hpne hlive.2 t ft hin (fun c fc hc hsub => ?_))
        have eapart : Apart h c o.value := ⟨fc, hval.1, fun a ha hb => hval.2 a (by rw [Node.addrss]; simp [hsub a ha]) hb⟩
        have := doOneH_edit E (base := h0.next) eapart wf hb hdel t0.hd.addr
        rwa [hc] at this
      · -- the match has been cut off by an earlier one
        have hG : p ∈ Node.addrss G := by
          have := u.sup p hp0
          rw [Node.addrss, List.mem_append] at this
          exact this.resolve_left hin
        rw [addrss_eq_flatMap, List.mem_flatMap] at hG
        obtain ⟨g, hg, hpg⟩ := hG
        obtain ⟨G1, G2, rfl⟩ := List.append_of_mem hg
        have fg : Forest h [g] := u.forest.mem (by simp)
        have hid : doOne E o (forget h0.next t) p = .ok (forget h0.next t) := by
          rw [doOne_edit hdel]; exact modifyAt_away hpne hlive.2 _ t hin
        have himp := modifyAt_impl (base := h0.next) (x := fun k => doOneH E k o.action t0.hd.addr o.value.hd.addr p)
          (f := editNode E o.action o.value) hpne hlive.2 g fg hpg (fun c fc hc hsub => by
            have eapart : Apart h c o.value := ⟨fc, hval.1, fun a ha hb => hval.2 a (by
              rw [Node.addrss, addrss_append, Node.addrss]; simp [hsub a ha]) hb⟩
            have := doOneH_edit E (base := h0.next) eapart wf hb hdel t0.hd.addr
            rwa [hc] at this)
        have hunt : ∀ h', Untouched h h' g.addrs → Untouched h0 h' t0.addrs := fun h' k => by
          refine ⟨Nat.le_trans u.frame.1 k.1, fun a ha hb => ?_⟩
          rw [k.2 a (Nat.lt_of_lt_of_le ha u.frame.1), u.frame.2 a ha hb]
          intro hm
          rcases u.sub a (by rw [Node.addrss, addrss_append, Node.addrss]; simp [hm]) with hx | hx
          · exact hb hx
          · omega
        have hnofail : (o.action = .delete ∨ NeverFails E o ∨ Attached E o (forget h0.next t) (p :: ps)) → NeverFails E o := by
          rintro (h | h | h)
          · exact absurd h hdel
          · exact h
          · exact absurd ((forget_mem hpne hlive.2 t).1 h.1) hin
        have hsafe : NeverFails E o → ∃ y, modifyAt p (editNode E o.action o.value) (forget h0.next g) = .ok y := by
          intro nf
          exact modifyAt_total nf _
        cases hm : modifyAt p (editNode E o.action o.value) (forget h0.next g) with
        | ok b =>
          rw [hm] at himp
          obtain ⟨h1, g1, Gg, a, e1, u1, -⟩ := himp
          exact next h1 t _ (u.garbage u1) e1 hid
        | err e =>
          rw [hm] at himp
          obtain ⟨h1, e1, k1⟩ := himp
          refine ⟨.err e, h1, Ends.bind_err e1, by simp, hunt _ k1, fun _ h => by simp at h, fun hh => ?_⟩
          obtain ⟨y, hy⟩ := hsafe (hnofail hh)
          rw [hm] at hy; simp at hy
        | panic =>
          rw [hm] at himp
          obtain ⟨h1, e1, k1⟩ := himp
          refine ⟨.panic, h1, Ends.bind_panic e1, by simp, hunt _ k1, fun _ h => by simp at h, fun hh => ?_⟩
          obtain ⟨y, hy⟩ := hsafe (hnofail hh)
          rw [hm] at hy; simp at hy

end Yot
