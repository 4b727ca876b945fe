import Verif.Lemmas.Arrays
/-
`DeleteNode` on slices.  Its loop reads the array as it goes on; nothing it calls writes
that array, unless the nodes form a circle, and then it never ends.
-/
namespace Yot.Arr
open Spec

/-- The search for `ch` in `s` goes on to `c`. -/
def Linked (h : Heap) (ch s c : Nat) : Prop := ∃ pre post, (h.get s).content = pre ++ c :: post ∧ ch ∉ pre ∧ c ≠ ch

/-- The search goes round in `S`. -/
def Loopy (h : Heap) (ch : Nat) (S : List Nat) : Prop := ∀ s ∈ S, ∃ c ∈ S, Linked h ch s c

theorem deleteLoopH_cut (fuel p ch i : Nat) (cs : List Nat) : deleteLoopH (fuel + 1) p ch i (ch :: cs) = cutH p i := by
  rw [deleteLoopH, if_neg (by simp)]
  rfl

theorem cutH_get {p i : Nat} {h : Heap} {s : Nat} (hs : s ≠ p) : ((cutH p i h).2.get s) = h.get s := by
  simp only [cutH, Bind.bind, HM.bind, HM.rd]
  split_ifs
  · simp only [HM.wr, if_neg hs]
  · rfl

theorem Loopy.same {h h' : Heap} {ch : Nat} {S : List Nat} (l : Loopy h ch S) (hs : ∀ s ∈ S, h'.get s = h.get s) : Loopy h' ch S := by
  intro s h1
  obtain ⟨c, h2, pre, post, h3, h4⟩ := l s h1
  exact ⟨c, h2, pre, post, by rw [hs s h1]; exact h3, h4⟩

/-- One step of the loop past another child. -/
theorem deleteLoopH_step (fuel x ch i c : Nat) (cs : List Nat) (h : Heap) (hc : c ≠ ch) :
    deleteLoopH (fuel + 1) x ch i (c :: cs) h =
      if (h.get c).hd.nilc && (h.get c).content.isEmpty then deleteLoopH fuel x ch (i + 1) cs h
      else HM.bind (deleteH fuel c ch) (fun _ => deleteLoopH fuel x ch (i + 1) cs) h := by
  rw [deleteLoopH, if_pos hc]
  simp only [Bind.bind, HM.bind, HM.rd]
  split_ifs with hn
  · rfl
  · rfl

theorem bind_ok {α β : Type} {x : HM α} {f : α → HM β} {h : Heap} {v : β} (e : (HM.bind x f h).1 = .ok v) :
    ∃ u, (x h).1 = .ok u ∧ HM.bind x f h = f u (x h).2 := by
  unfold HM.bind at e ⊢
  rcases hq : x h with ⟨r, h'⟩
  rw [hq] at e
  cases r with
  | ok u => exact ⟨u, rfl, rfl⟩
  | err _ => cases e
  | panic => cases e
  | stuck => cases e

theorem loopy_endless (ch : Nat) (S : List Nat) : ∀ fuel,
    (∀ x h, Loopy h ch S → x ∈ S → (deleteH fuel x ch h).1 ≠ .ok ()) ∧
    (∀ x h, Loopy h ch S → x ∉ S → (deleteH fuel x ch h).1 = .ok () → Loopy (deleteH fuel x ch h).2 ch S) ∧
    (∀ x i pre c post h, Loopy h ch S → ch ∉ pre → c ≠ ch → c ∈ S → (deleteLoopH fuel x ch i (pre ++ c :: post) h).1 ≠ .ok ()) ∧
    (∀ x i cs h, Loopy h ch S → x ∉ S → (deleteLoopH fuel x ch i cs h).1 = .ok () → Loopy (deleteLoopH fuel x ch i cs h).2 ch S)
  | 0 => by
    refine ⟨?_, ?_, ?_, ?_⟩
    · intro x h _ _; rw [deleteH]; exact fun e => nomatch e
    · intro x h _ _; rw [deleteH]; exact fun e => nomatch e
    · intro x i pre c post h _ _ _ _; rw [deleteLoopH]; exact fun e => nomatch e
    · intro x i cs h _ _; rw [deleteLoopH]; exact fun e => nomatch e
  | fuel + 1 => by
    obtain ⟨ih1, ih2, ih3, ih4⟩ := loopy_endless ch S fuel
    have both : ∀ x h, Loopy h ch S → (deleteH fuel x ch h).1 = .ok () → Loopy (deleteH fuel x ch h).2 ch S := by
      intro x h l e
      by_cases hx : x ∈ S
      · exact absurd e (ih1 x h l hx)
      · exact ih2 x h l hx e
    refine ⟨?_, ?_, ?_, ?_⟩
    · intro x h l hx
      obtain ⟨c, hc, pre, post, e, h1, h2⟩ := l x hx
      rw [deleteH]
      simp only [Bind.bind, HM.bind, HM.rd]
      rw [e]
      exact ih3 x 0 pre c post h l h1 h2 hc
    · intro x h l hx
      rw [deleteH]
      simp only [Bind.bind, HM.bind, HM.rd]
      exact ih4 x 0 _ h l hx
    · intro x i pre c post h l h1 h2 hc
      cases pre with
      | nil =>
        rw [List.nil_append, deleteLoopH_step _ _ _ _ _ _ _ h2]
        have hne : (h.get c).content.isEmpty = false := by
          obtain ⟨_, _, pre', post', e, _⟩ := l c hc
          rw [e]; simp
        rw [hne, Bool.and_false, if_neg (by simp)]
        intro e
        obtain ⟨u, e1, _⟩ := bind_ok e
        exact ih1 c h l hc e1
      | cons d pre =>
        rw [List.mem_cons, not_or] at h1
        rw [List.cons_append, deleteLoopH_step _ _ _ _ _ _ _ (Ne.symm h1.1)]
        split_ifs
        · exact ih3 x (i + 1) pre c post h l h1.2 h2 hc
        · intro e
          obtain ⟨u, e1, e2⟩ := bind_ok e
          rw [e2] at e
          exact ih3 x (i + 1) pre c post _ (both d h l e1) h1.2 h2 hc e
    · intro x i cs h l hx
      cases cs with
      | nil => rw [deleteLoopH]; exact fun _ => l
      | cons c cs =>
        by_cases hc : c = ch
        · subst hc
          rw [deleteLoopH_cut]
          exact fun _ => l.same fun s hs => cutH_get (fun e => hx (e ▸ hs))
        · rw [deleteLoopH_step _ _ _ _ _ _ _ hc]
          split_ifs
          · exact ih4 x (i + 1) cs h l hx
          · intro e
            obtain ⟨u, e1, e2⟩ := bind_ok e
            rw [e2] at e ⊢
            exact ih4 x (i + 1) cs _ (both c h l e1) hx e

/-- The calls under way: each of the nodes is being searched, at the next one. -/
def Chain (h : Heap) (ch : Nat) : List Nat → Nat → Prop
  | [], _ => True
  | s :: st, x => Linked h ch s x ∧ Chain h ch st s

theorem Chain.loop {h : Heap} {ch : Nat} : ∀ {st : List Nat} {x z : Nat}, Chain h ch st x → z ∈ st →
    ∃ S : List Nat, z ∈ S ∧ ∀ s ∈ S, ∃ c, (c ∈ S ∨ c = x) ∧ Linked h ch s c
  | s :: st, x, z, ⟨h1, h2⟩, hz => by
    rcases List.mem_cons.1 hz with rfl | hz
    · refine ⟨[z], by simp, fun s hs => ?_⟩
      rw [List.mem_singleton] at hs
      subst hs
      exact ⟨x, .inr rfl, h1⟩
    · obtain ⟨S, h3, h4⟩ := Chain.loop h2 hz
      refine ⟨s :: S, by simp [h3], fun y hy => ?_⟩
      rcases List.mem_cons.1 hy with rfl | hy
      · exact ⟨x, .inr rfl, h1⟩
      · obtain ⟨c, hc, hl⟩ := h4 y hy
        refine ⟨c, .inl ?_, hl⟩
        rcases hc with hc | hc
        · simp [hc]
        · simp [hc]

theorem Chain.loopy {h : Heap} {ch : Nat} {st : List Nat} {x : Nat} (c : Chain h ch st x) (hx : x ∈ st) :
    ∃ S : List Nat, x ∈ S ∧ Loopy h ch S := by
  obtain ⟨S, h1, h2⟩ := c.loop hx
  refine ⟨S, h1, fun s hs => ?_⟩
  obtain ⟨y, hy, hl⟩ := h2 s hs
  rcases hy with hy | rfl
  · exact ⟨y, hy, hl⟩
  · exact ⟨y, h1, hl⟩

theorem Chain.same {h h' : Heap} {ch : Nat} : ∀ {st : List Nat} {x : Nat}, Chain h ch st x → (∀ s ∈ st, h'.get s = h.get s) → Chain h' ch st x
  | [], _, _, _ => trivial
  | s :: st, x, ⟨⟨pre, post, h1, h2⟩, h3⟩, hs =>
    ⟨⟨pre, post, by rw [hs s (by simp)]; exact h1, h2⟩, Chain.same h3 (fun y hy => hs y (by simp [hy]))⟩

/-- The node and its child list are as they were. -/
def Kept (a a' : AHeap) (s : Nat) : Prop :=
  a'.get s = a.get s ∧ ∀ i, i < (a.get s).content.len → a'.mem.cell (a.get s).content.arr i = a.mem.cell (a.get s).content.arr i

theorem Kept.refl (a : AHeap) (s : Nat) : Kept a a s := ⟨rfl, fun _ _ => rfl⟩

theorem Kept.trans {a b c : AHeap} {s : Nat} (h : Kept a b s) (h' : Kept b c s) : Kept a c s := by
  obtain ⟨h1, h2⟩ := h
  obtain ⟨h3, h4⟩ := h'
  refine ⟨h3.trans h1, fun i hi => ?_⟩
  have := h4 i (by rw [h1]; exact hi)
  rw [h1] at this
  rw [this, h2 i hi]

theorem Kept.get {a a' : AHeap} {s : Nat} (h : Kept a a' s) : (asLists a').get s = (asLists a).get s := by
  unfold asLists
  dsimp only
  rw [h.1]
  simp only [Cell.mk.injEq, true_and]
  exact read_congr h.2

theorem cut_kept {a : AHeap} (h : OwnArrays a) {p i s : Nat} (hs : s ≠ p) : Kept a (AM.cut p i a).2 s := by
  unfold AM.cut
  dsimp only
  split_ifs with hc
  · refine ⟨?_, fun j hj => ?_⟩
    · simp only [AM.put, if_neg hs]
    · have := (h.ok s).1
      have := (h.ok p).1
      obtain ⟨hlt, _⟩ := cutRange_lt (a.get p).hd.kind i
      have hne : (a.get s).content.arr ≠ (a.get p).content.arr := h.own s p hs (by omega) (by omega)
      simp only [AM.clearAt, AM.shift]
      rw [if_neg (by tauto), if_neg (by tauto)]
  · exact Kept.refl a s

/-- What is shown of each call: as on lists, and, if it ends well, the nodes being
searched are kept. -/
def SimKeep (st : List Nat) (a : AHeap) (x : AM Unit) (y : HM Unit) : Prop :=
  ((x a).1 = (y (asLists a)).1 ∧ asLists (x a).2 = (y (asLists a)).2 ∧ OwnArrays (x a).2) ∧
  ((x a).1 = .ok () → ∀ s ∈ st, Kept a (x a).2 s)

theorem deleteLoopA_end {fuel p ch i : Nat} {s : Slice} (a : AHeap) (hi : s.len ≤ i) : deleteLoopA (fuel + 1) p ch i s a = (.ok (), a) := by
  rw [deleteLoopA, if_pos hi]; rfl

theorem deleteLoopA_cut {fuel p ch i : Nat} {s : Slice} {a : AHeap} (hi : ¬ s.len ≤ i) (hc : a.mem.cell s.arr i = some ch) :
    deleteLoopA (fuel + 1) p ch i s a = AM.cut p i a := by
  rw [deleteLoopA, if_neg hi]
  simp only [Bind.bind, AM.bind, AM.elem]
  rw [hc]
  dsimp only
  rw [if_neg (by simp)]

theorem deleteLoopA_step {fuel p ch i c : Nat} {s : Slice} {a : AHeap} (ha : OwnArrays a) (hi : ¬ s.len ≤ i)
    (hc : a.mem.cell s.arr i = some c) (hcc : c ≠ ch) :
    deleteLoopA (fuel + 1) p ch i s a =
      if ((asLists a).get c).hd.nilc && ((asLists a).get c).content.isEmpty then deleteLoopA fuel p ch (i + 1) s a
      else AM.bind (deleteA fuel c ch) (fun _ => deleteLoopA fuel p ch (i + 1) s) a := by
  rw [deleteLoopA, if_neg hi]
  simp only [Bind.bind, AM.bind, AM.elem]
  rw [hc]
  dsimp only
  rw [if_pos hcc]
  unfold AM.bind
  rw [rd_eq ha]
  dsimp only
  split_ifs with hn
  · rfl
  · rfl

theorem Sim.deletes (ch : Nat) : ∀ fuel,
    (∀ st x a, OwnArrays a → Chain (asLists a) ch st x → (deleteH fuel x ch (asLists a)).1 ≠ .stuck →
      SimKeep st a (deleteA fuel x ch) (deleteH fuel x ch)) ∧
    (∀ st p i a, OwnArrays a → Chain (asLists a) ch st p → p ∉ st → i ≤ (a.get p).content.len →
      ch ∉ ((asLists a).get p).content.take i →
      (deleteLoopH fuel p ch i (((asLists a).get p).content.drop i) (asLists a)).1 ≠ .stuck →
      SimKeep st a (deleteLoopA fuel p ch i (a.get p).content) (deleteLoopH fuel p ch i (((asLists a).get p).content.drop i)))
  | 0 => by
    refine ⟨?_, ?_⟩
    · intro st x a _ _ hs; rw [deleteH] at hs; exact absurd rfl hs
    · intro st p i a _ _ _ _ _ hs; rw [deleteLoopH] at hs; exact absurd rfl hs
  | fuel + 1 => by
    obtain ⟨ih1, ih2⟩ := Sim.deletes ch fuel
    refine ⟨?_, ?_⟩
    · intro st x a ha hc hs
      have e1 : deleteH (fuel + 1) x ch (asLists a) = deleteLoopH fuel x ch 0 (((asLists a).get x).content.drop 0) (asLists a) := by
        rw [deleteH]; rfl
      have e2 : deleteA (fuel + 1) x ch a = deleteLoopA fuel x ch 0 (a.get x).content a := by
        rw [deleteA]; rfl
      rw [e1] at hs
      unfold SimKeep
      rw [e1, e2]
      by_cases hx : x ∈ st
      · obtain ⟨S, h1, h2⟩ := hc.loopy hx
        have hne := (loopy_endless ch S (fuel + 1)).1 x (asLists a) h2 h1
        rw [e1] at hne
        have := (ih2 [] x 0 a ha trivial (by simp) (Nat.zero_le _) (by simp) hs).1
        exact ⟨this, fun ho => absurd (this.1 ▸ ho) hne⟩
      · exact ih2 st x 0 a ha hc hx (Nat.zero_le _) (by simp) hs
    · intro st p i a ha hc hp hi hch hs
      have hlen : ((asLists a).get p).content.length = (a.get p).content.len := Mem.read_length _ _ (ha.ok p)
      unfold SimKeep
      by_cases hend : (a.get p).content.len ≤ i
      · rw [deleteLoopA_end a hend, List.drop_of_length_le (by omega), deleteLoopH]
        exact ⟨⟨rfl, rfl, ha⟩, fun _ s _ => Kept.refl a s⟩
      · have hil : i < ((asLists a).get p).content.length := by omega
        have hcell : a.mem.cell (a.get p).content.arr i = some (((asLists a).get p).content[i]) := by
          rw [← mem_read_getElem? (ha.ok p) i (by omega)]
          exact List.getElem?_eq_getElem hil
        rw [List.drop_eq_getElem_cons hil] at hs ⊢
        generalize hce : ((asLists a).get p).content[i] = c at hs hcell ⊢
        by_cases hcc : c = ch
        · subst hcc
          rw [deleteLoopH_cut] at hs ⊢
          rw [deleteLoopA_cut hend hcell]
          exact ⟨Sim.cut p i a ha hs, fun _ s h1 => cut_kept ha (fun e => hp (e ▸ h1))⟩
        · rw [deleteLoopH_step _ _ _ _ _ _ _ hcc] at hs
          rw [deleteLoopH_step _ _ _ _ _ _ _ hcc, deleteLoopA_step ha hend hcell hcc]
          have htake : ch ∉ ((asLists a).get p).content.take (i + 1) := by
            rw [List.take_succ_eq_append_getElem hil, List.mem_append, List.mem_singleton, hce]
            rintro (h | h)
            · exact hch h
            · exact hcc h.symm
          split_ifs at hs ⊢ with hn
          · exact ih2 st p (i + 1) a ha hc hp (by omega) htake hs
          · have hlink : Linked (asLists a) ch p c := by
              refine ⟨((asLists a).get p).content.take i, ((asLists a).get p).content.drop (i + 1), ?_, hch, hcc⟩
              rw [← hce, ← List.drop_eq_getElem_cons hil, List.take_append_drop]
            have hns : (deleteH fuel c ch (asLists a)).1 ≠ .stuck := by
              intro e
              apply hs
              unfold HM.bind
              rcases hq : deleteH fuel c ch (asLists a) with ⟨r, h'⟩
              rw [hq] at e
              cases e
              rfl
            obtain ⟨⟨k1, k2, k3⟩, k4⟩ := ih1 (p :: st) c a ha ⟨hlink, hc⟩ hns
            rcases hq : deleteH fuel c ch (asLists a) with ⟨r, h'⟩
            rcases hq' : deleteA fuel c ch a with ⟨r', a'⟩
            rw [hq, hq'] at k1 k2
            rw [hq'] at k3 k4
            dsimp only at k1 k2 k3 k4
            subst k1
            subst k2
            unfold HM.bind at hs ⊢
            unfold AM.bind
            rw [hq] at hs ⊢
            rw [hq']
            cases r' with
            | stuck => exact absurd (by rw [hq]) hns
            | err e => exact ⟨⟨rfl, rfl, k3⟩, fun h => nomatch h⟩
            | panic => exact ⟨⟨rfl, rfl, k3⟩, fun h => nomatch h⟩
            | ok u =>
              dsimp only at hs ⊢
              have k4 := k4 rfl
              have kp := k4 p (by simp)
              have kl := kp.get
              have := ih2 st p (i + 1) a' k3 (hc.same fun s h1 => (k4 s (by simp [h1])).get) hp
                (by rw [kp.1]; omega) (by rw [kl]; exact htake) (by rw [kl]; exact hs)
              rw [kl, kp.1] at this
              obtain ⟨t1, t2⟩ := this
              exact ⟨t1, fun ho s h1 => (k4 s (by simp [h1])).trans (t2 ho s h1)⟩

theorem Sim.delete (fuel p ch : Nat) : Sim (deleteA fuel p ch) (deleteH fuel p ch) :=
  fun a ha hs => ((Sim.deletes ch fuel).1 [] p a ha trivial hs).1

end Yot.Arr
