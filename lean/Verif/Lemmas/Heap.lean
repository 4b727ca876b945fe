import Verif.Lemmas.Tac
import Verif.Lemmas.Tree
import Verif.Lemmas.WF
import Verif.Spec.Heap
namespace Yot
open Spec HM

/-! ### The monad -/

theorem HM.bind_ok {α β : Type} {x : HM α} {f : α → HM β} {h h' : Heap} {a : α}
    (hx : x h = (.ok a, h')) : (x >>= f) h = f a h' := by
  show HM.bind x f h = _
  simp [HM.bind, hx]

theorem HM.bind_err {α β : Type} {x : HM α} {f : α → HM β} {h h' : Heap} {e : Err}
    (hx : x h = (.err e, h')) : (x >>= f) h = (.err e, h') := by
  show HM.bind x f h = _
  simp [HM.bind, hx]

theorem HM.bind_panic {α β : Type} {x : HM α} {f : α → HM β} {h h' : Heap}
    (hx : x h = (.panic, h')) : (x >>= f) h = (.panic, h') := by
  show HM.bind x f h = _
  simp [HM.bind, hx]

@[simp] theorem HM.pure_run {α : Type} (a : α) (h : Heap) : (pure a : HM α) h = (.ok a, h) := rfl
@[simp] theorem HM.rd_bind {β : Type} (p : Nat) (f : Cell → HM β) (h : Heap) : (rd p >>= f) h = f (h.get p) h := rfl
@[simp] theorem HM.pure_bind' {α β : Type} (a : α) (f : α → HM β) (h : Heap) : ((pure a : HM α) >>= f) h = f a h := rfl

/-- Memory after `*p = c`. -/
def Heap.write (h : Heap) (p : Nat) (c : Cell) : Heap := { h with get := fun a => if a = p then c else h.get a }

@[simp] theorem HM.wr_bind {β : Type} (p : Nat) (c : Cell) (f : Unit → HM β) (h : Heap) :
    (wr p c >>= f) h = f () (h.write p c) := rfl
@[simp] theorem HM.wr_run (p : Nat) (c : Cell) (h : Heap) : wr p c h = (.ok (), h.write p c) := rfl
@[simp] theorem write_same (h : Heap) (p : Nat) (c : Cell) : (h.write p c).get p = c := by simp [Heap.write]
@[simp] theorem write_next (h : Heap) (p : Nat) (c : Cell) : (h.write p c).next = h.next := rfl
theorem write_other (h : Heap) {p a : Nat} (c : Cell) (ha : a ≠ p) : (h.write p c).get a = h.get a := by
  simp [Heap.write, ha]
@[simp] theorem write_write (h : Heap) (p : Nat) (c d : Cell) : (h.write p c).write p d = h.write p d := by
  simp only [Heap.write]
  congr 1
  funext a
  by_cases ha : a = p <;> simp [ha]

theorem HM.bind_assoc' {α β γ : Type} (x : HM α) (f : α → HM β) (g : β → HM γ) :
    ((x >>= f) >>= g) = (x >>= fun a => f a >>= g) := by
  funext h
  show HM.bind (HM.bind x f) g h = HM.bind x (fun a => HM.bind (f a) g) h
  simp only [HM.bind]
  rcases x h with ⟨r, h'⟩
  cases r <;> rfl

/-! ### Ending -/

theorem Spec.Ends.const {α : Type} {x : HM α} {h h' : Heap} {r : Flow α} (e : x h = (r, h')) :
    Ends (fun _ => x) h r h' := ⟨0, fun _ _ => e⟩

theorem Spec.Ends.bind {α β : Type} {x : Nat → HM α} {f : Nat → α → HM β} {h h1 h2 : Heap} {a : α} {r : Flow β}
    (hx : Ends x h (.ok a) h1) (hf : Ends (fun n => f n a) h1 r h2) :
    Ends (fun n => x n >>= f n) h r h2 := by
  obtain ⟨K, hK⟩ := hx
  obtain ⟨L, hL⟩ := hf
  exact ⟨max K L, fun n hn => by
    exact (HM.bind_ok (hK n (by omega))).trans (hL n (by omega))⟩

theorem Spec.Ends.bind_err {α β : Type} {x : Nat → HM α} {f : Nat → α → HM β} {h h1 : Heap} {e : Err}
    (hx : Ends x h (.err e) h1) : Ends (fun n => x n >>= f n) h (.err e) h1 := by
  obtain ⟨K, hK⟩ := hx
  exact ⟨K, fun n hn => HM.bind_err (hK n hn)⟩

theorem Spec.Ends.bind_panic {α β : Type} {x : Nat → HM α} {f : Nat → α → HM β} {h h1 : Heap}
    (hx : Ends x h .panic h1) : Ends (fun n => x n >>= f n) h .panic h1 := by
  obtain ⟨K, hK⟩ := hx
  exact ⟨K, fun n hn => HM.bind_panic (hK n hn)⟩

/-- A call to a function with a recursion counter. -/
theorem Spec.Ends.call {α : Type} {g F : Nat → HM α} {h h' : Heap} {r : Flow α} (hF : Ends F h r h')
    (hg : ∀ n, g (n + 1) h = F n h) : Ends g h r h' := by
  obtain ⟨K, hK⟩ := hF
  refine ⟨K + 1, fun n hn => ?_⟩
  obtain ⟨m, rfl⟩ : ∃ m, n = m + 1 := ⟨n - 1, by omega⟩
  rw [hg, hK m (by omega)]

theorem Spec.Ends.congr {α : Type} {x y : Nat → HM α} {h h' : Heap} {r : Flow α} (hx : Ends x h r h')
    (e : ∀ n, y n h = x n h) : Ends y h r h' := by
  obtain ⟨K, hK⟩ := hx
  exact ⟨K, fun n hn => by rw [e, hK n hn]⟩

theorem Spec.Ends.unique {α : Type} {x : Nat → HM α} {h h1 h2 : Heap} {r1 r2 : Flow α} (a : Ends x h r1 h1)
    (b : Ends x h r2 h2) : r1 = r2 ∧ h1 = h2 := by
  obtain ⟨K, hK⟩ := a
  obtain ⟨L, hL⟩ := b
  have := (hK (max K L) (by omega)).symm.trans (hL (max K L) (by omega))
  exact ⟨congrArg Prod.fst this, congrArg Prod.snd this⟩

/-! ### Lists of trees -/

theorem addrss_eq_flatMap (cs : List Node) : Node.addrss cs = cs.flatMap Node.addrs := by
  induction cs with
  | nil => rfl
  | cons c cs ih => simp [Node.addrss, ih]

theorem addrss_append (cs ds : List Node) : Node.addrss (cs ++ ds) = Node.addrss cs ++ Node.addrss ds := by
  simp [addrss_eq_flatMap]

theorem addrss_perm {cs ds : List Node} (h : cs.Perm ds) : (Node.addrss cs).Perm (Node.addrss ds) := by
  rw [addrss_eq_flatMap, addrss_eq_flatMap]
  exact h.flatMap_right _

theorem storeds_iff (h : Heap) (cs : List Node) : Storeds h cs ↔ ∀ c ∈ cs, Stored h c := by
  induction cs with
  | nil => simp [Storeds]
  | cons c cs ih => simp [Storeds, ih]

theorem forgets_eq_map (b : Nat) (cs : List Node) : forgets b cs = cs.map (forget b) := by
  induction cs with
  | nil => rfl
  | cons c cs ih => simp [forgets, ih]

theorem addrs_mk (hd : Hdr) (cs : List Node) : (Node.mk hd cs).addrs = hd.addr :: Node.addrss cs := by
  simp [Node.addrs]

theorem root_mem_addrs (t : Node) : t.hd.addr ∈ t.addrs := by
  cases t; simp [Node.addrs]

theorem addrs_subset {c : Node} {cs : List Node} (h : c ∈ cs) {a : Nat} (ha : a ∈ c.addrs) : a ∈ Node.addrss cs := by
  rw [addrss_eq_flatMap]
  exact List.mem_flatMap.2 ⟨c, h, ha⟩

mutual
theorem stored_frame {h h' : Heap} : ∀ (t : Node), (∀ a ∈ t.addrs, h'.get a = h.get a) → Stored h t → Stored h' t
  | .mk hd cs => by
    intro ha hs
    rw [Node.addrs] at ha
    rw [Stored] at hs ⊢
    refine ⟨by rw [ha _ (by simp)]; exact hs.1, storeds_frame cs (fun a m => ha a (by simp [m])) hs.2⟩
theorem storeds_frame {h h' : Heap} : ∀ (ts : List Node), (∀ a ∈ Node.addrss ts, h'.get a = h.get a) →
    Storeds h ts → Storeds h' ts
  | [] => fun _ _ => trivial
  | c :: cs => by
    intro ha hs
    rw [Node.addrss] at ha
    rw [Storeds] at hs ⊢
    exact ⟨stored_frame c (fun a m => ha a (by simp [m])) hs.1, storeds_frame cs (fun a m => ha a (by simp [m])) hs.2⟩
end

theorem Spec.Stored.get {h : Heap} {t : Node} (hs : Stored h t) :
    h.get t.hd.addr = ⟨t.hd, t.content.map (fun c => c.hd.addr)⟩ := by
  cases t; exact hs.1

theorem Spec.Stored.kids {h : Heap} {t : Node} (hs : Stored h t) : Storeds h t.content := by
  cases t; exact hs.2

/-! ### Forests -/

theorem Spec.Forest.perm {h : Heap} {ts us : List Node} (f : Forest h ts) (p : ts.Perm us) : Forest h us where
  stored := (storeds_iff h us).2 fun c hc => (storeds_iff h ts).1 f.stored c (p.mem_iff.2 hc)
  distinct := (addrss_perm p).nodup_iff.1 f.distinct
  live := fun a ha => f.live a ((addrss_perm p).mem_iff.2 ha)

theorem forest_append {h : Heap} {ts us : List Node} :
    Forest h (ts ++ us) ↔ Forest h ts ∧ Forest h us ∧ ∀ a ∈ Node.addrss ts, a ∉ Node.addrss us := by
  constructor
  · intro f
    have d := f.distinct
    rw [addrss_append, List.nodup_append] at d
    refine ⟨⟨?_, d.1, ?_⟩, ⟨?_, d.2.1, ?_⟩, fun a ha hb => d.2.2 a ha a hb rfl⟩
    · exact (storeds_iff h ts).2 fun c hc => (storeds_iff h _).1 f.stored c (by simp [hc])
    · exact fun a ha => f.live a (by rw [addrss_append]; simp [ha])
    · exact (storeds_iff h us).2 fun c hc => (storeds_iff h _).1 f.stored c (by simp [hc])
    · exact fun a ha => f.live a (by rw [addrss_append]; simp [ha])
  · rintro ⟨f, g, d⟩
    refine ⟨?_, ?_, ?_⟩
    · rw [storeds_iff]
      intro c hc
      rcases List.mem_append.1 hc with hc | hc
      · exact (storeds_iff h ts).1 f.stored c hc
      · exact (storeds_iff h us).1 g.stored c hc
    · rw [addrss_append, List.nodup_append]
      exact ⟨f.distinct, g.distinct, fun a ha b hb e => d a ha (e ▸ hb)⟩
    · intro a ha
      rw [addrss_append, List.mem_append] at ha
      rcases ha with ha | ha
      · exact f.live a ha
      · exact g.live a ha

theorem forest_nil (h : Heap) : Forest h [] := ⟨trivial, by simp [Node.addrss], by simp [Node.addrss]⟩

theorem addrss_single (t : Node) : Node.addrss [t] = t.addrs := by simp [Node.addrss]

theorem forest_cons {h : Heap} {t : Node} {us : List Node} :
    Forest h (t :: us) ↔ Forest h [t] ∧ Forest h us ∧ ∀ a ∈ t.addrs, a ∉ Node.addrss us := by
  have := @forest_append h [t] us
  rwa [addrss_single] at this

theorem Spec.Forest.sub {h : Heap} {ts us : List Node} (f : Forest h ts) (s : us.Subperm ts) : Forest h us := by
  obtain ⟨l, hl, hs⟩ := s
  have f' : Forest h l := by
    clear hl
    induction hs with
    | slnil => exact forest_nil h
    | cons a _ ih => exact ih (forest_cons.1 f).2.1
    | cons_cons a hs' ih =>
      rw [forest_cons] at f ⊢
      refine ⟨f.1, ih f.2.1, fun x hx hx' => f.2.2 x hx ?_⟩
      rw [addrss_eq_flatMap, List.mem_flatMap] at hx' ⊢
      obtain ⟨c, hc, hm⟩ := hx'
      exact ⟨c, hs'.subset hc, hm⟩
  exact f'.perm hl

theorem Spec.Forest.mem {h : Heap} {ts : List Node} (f : Forest h ts) {t : Node} (ht : t ∈ ts) : Forest h [t] :=
  f.sub ⟨[t], List.Perm.refl _, List.singleton_sublist.2 ht⟩

/-- A node is a cell of its own and the trees below it. -/
theorem forest_mk {h : Heap} {hd : Hdr} {cs : List Node} :
    Forest h [.mk hd cs] ↔ h.get hd.addr = ⟨hd, cs.map (fun c => c.hd.addr)⟩ ∧ (0 < hd.addr ∧ hd.addr < h.next) ∧
      hd.addr ∉ Node.addrss cs ∧ Forest h cs := by
  constructor
  · intro f
    have s := f.stored
    have d := f.distinct
    have l := f.live
    simp only [Storeds, Stored, Node.addrss, Node.addrs, List.append_nil, List.nodup_cons, List.mem_cons] at s d l
    exact ⟨s.1.1, l _ (.inl rfl), d.1, s.1.2, d.2, fun a ha => l a (.inr ha)⟩
  · rintro ⟨a, b, c, f⟩
    refine ⟨?_, ?_, ?_⟩
    · simp only [Storeds, Stored]
      exact ⟨⟨a, f.stored⟩, trivial⟩
    · simp only [Node.addrss, Node.addrs, List.append_nil, List.nodup_cons]
      exact ⟨c, f.distinct⟩
    · simp only [Node.addrss, Node.addrs, List.append_nil, List.mem_cons]
      rintro x (rfl | hx)
      · exact b
      · exact f.live x hx

theorem Spec.Forest.frame {h h' : Heap} {ts : List Node} {A : List Nat} (f : Forest h ts) (u : Untouched h h' A)
    (d : ∀ a ∈ Node.addrss ts, a ∉ A) : Forest h' ts where
  stored := storeds_frame ts (fun a ha => u.2 a (f.live a ha).2 (d a ha)) f.stored
  distinct := f.distinct
  live := fun a ha => ⟨(f.live a ha).1, Nat.lt_of_lt_of_le (f.live a ha).2 u.1⟩

theorem Spec.Untouched.refl (h : Heap) (A : List Nat) : Untouched h h A := ⟨Nat.le_refl _, fun _ _ _ => rfl⟩

theorem Spec.Untouched.mono {h h' : Heap} {A B : List Nat} (u : Untouched h h' A) (s : ∀ a ∈ A, a ∈ B) : Untouched h h' B :=
  ⟨u.1, fun a ha hb => u.2 a ha (fun m => hb (s a m))⟩

theorem untouched_write (h : Heap) (p : Nat) (c : Cell) : Untouched h (h.write p c) [p] :=
  ⟨Nat.le_refl _, fun a _ ha => write_other h c (by simpa using ha)⟩

/-- Rearranging what hangs below one node. -/
theorem forest_rearrange {h : Heap} {hd hd' : Hdr} {cs cs' R G : List Node} (f : Forest h (.mk hd cs :: R))
    (ha : hd'.addr = hd.addr) (p : (cs' ++ G).Perm (cs ++ R)) :
    Forest (h.write hd.addr ⟨hd', cs'.map (fun c => c.hd.addr)⟩) (.mk hd' cs' :: G) := by
  rw [forest_cons] at f
  obtain ⟨f1, f2, f3⟩ := f
  rw [forest_mk] at f1
  obtain ⟨g1, g2, g3, g4⟩ := f1
  have hroot : hd.addr ∉ Node.addrss (cs ++ R) := by
    rw [addrss_append, List.mem_append]
    rintro (hx | hx)
    · exact g3 hx
    · exact f3 hd.addr (by simp [Node.addrs]) hx
  have fall : Forest h (cs ++ R) := by
    rw [forest_append]
    exact ⟨g4, f2, fun a ha => f3 a (by rw [addrs_mk]; simp [ha])⟩
  have fnew := (fall.perm p.symm).frame (untouched_write h hd.addr ⟨hd', cs'.map (fun c => c.hd.addr)⟩) (by
    intro a ha hb
    rw [List.mem_singleton] at hb
    subst hb
    exact hroot ((addrss_perm p).mem_iff.1 ha))
  have hroot' : hd.addr ∉ Node.addrss (cs' ++ G) := fun m => hroot ((addrss_perm p).mem_iff.1 m)
  rw [forest_append] at fnew
  rw [addrss_append, List.mem_append, not_or] at hroot'
  rw [forest_cons, forest_mk]
  refine ⟨⟨?_, ?_, ?_, fnew.1⟩, fnew.2.1, ?_⟩
  · rw [ha]; simp
  · rw [ha]; exact g2
  · rw [ha]; exact hroot'.1
  · intro a hm
    rw [addrs_mk, List.mem_cons] at hm
    rcases hm with rfl | hm
    · rw [ha]; exact hroot'.2
    · exact fnew.2.2 a hm

/-! ### An edit of one tree -/

/-- Between `h` and `h'` the tree `t` became `t'`, and `G` was cut off. -/
structure Upd (h h' : Heap) (t t' : Node) (G : List Node) : Prop where
  forest : Forest h' (t' :: G)
  frame : Untouched h h' t.addrs
  root : t'.hd.addr = t.hd.addr
  sub : ∀ a ∈ Node.addrss (t' :: G), a ∈ t.addrs ∨ h.next ≤ a
  sup : ∀ a ∈ t.addrs, a ∈ Node.addrss (t' :: G)

theorem Upd.refl {h : Heap} {t : Node} (f : Forest h [t]) : Upd h h t t [] :=
  ⟨f, Untouched.refl _ _, rfl, fun a ha => .inl (by rwa [addrss_single] at ha), fun a ha => by rwa [addrss_single]⟩

theorem Upd.trans {h h1 h2 : Heap} {t t1 t2 : Node} {G1 G2 : List Node} (u : Upd h h1 t t1 G1)
    (v : Upd h1 h2 t1 t2 G2) : Upd h h2 t t2 (G2 ++ G1) := by
  have f1 := forest_cons.1 u.forest
  have hG1 : Forest h2 G1 := f1.2.1.frame v.frame (fun a ha hb => f1.2.2 a hb ha)
  have e : t2 :: (G2 ++ G1) = (t2 :: G2) ++ G1 := rfl
  refine ⟨?_, ?_, v.root.trans u.root, ?_, ?_⟩
  · rw [e, forest_append]
    refine ⟨v.forest, hG1, fun a ha hb => ?_⟩
    rcases v.sub a ha with hm | hm
    · exact f1.2.2 a hm hb
    · exact absurd (f1.2.1.live a hb).2 (by omega)
  · refine ⟨Nat.le_trans u.frame.1 v.frame.1, fun a ha hb => ?_⟩
    rw [v.frame.2 a (Nat.lt_of_lt_of_le ha u.frame.1), u.frame.2 a ha hb]
    intro hm
    rcases u.sub a (by rw [Node.addrss]; simp [hm]) with hx | hx
    · exact hb hx
    · omega
  · intro a ha
    rw [e, addrss_append, List.mem_append] at ha
    rcases ha with ha | ha
    · rcases v.sub a ha with hm | hm
      · exact u.sub a (by rw [Node.addrss]; simp [hm])
      · exact .inr (Nat.le_trans u.frame.1 hm)
    · exact u.sub a (by rw [Node.addrss]; simp [ha])
  · intro a ha
    rw [e, addrss_append, List.mem_append]
    have := u.sup a ha
    rw [Node.addrss, List.mem_append] at this
    rcases this with hm | hm
    · exact .inl (v.sup a hm)
    · exact .inr hm

/-- Another tree is not affected. -/
theorem Upd.other {h h' : Heap} {t t' : Node} {G R : List Node} (u : Upd h h' t t' G) (f : Forest h R)
    (d : ∀ a ∈ t.addrs, a ∉ Node.addrss R) :
    Forest h' R ∧ ∀ a ∈ Node.addrss (t' :: G), a ∉ Node.addrss R := by
  refine ⟨f.frame u.frame (fun a ha hb => d a hb ha), fun a ha hb => ?_⟩
  rcases u.sub a ha with hm | hm
  · exact d a hm hb
  · exact absurd (f.live a hb).2 (by omega)

/-- Rewriting the node itself and rearranging its children. -/
theorem upd_write {h : Heap} {hd hd' : Hdr} {cs cs' G : List Node} (f : Forest h [.mk hd cs])
    (ha : hd'.addr = hd.addr) (p : (cs' ++ G).Perm cs) :
    Upd h (h.write hd.addr ⟨hd', cs'.map (fun c => c.hd.addr)⟩) (.mk hd cs) (.mk hd' cs') G := by
  have hmem : ∀ a, a ∈ Node.addrss (Node.mk hd' cs' :: G) ↔ a ∈ (Node.mk hd cs).addrs := by
    intro a
    have := (addrss_perm p).mem_iff (a := a)
    rw [addrss_append, List.mem_append] at this
    rw [Node.addrss, addrs_mk, addrs_mk, List.mem_append, List.mem_cons, List.mem_cons, ha, or_assoc, this]
  exact ⟨forest_rearrange f ha (by simpa using p), (untouched_write h hd.addr _).mono (by simp [Node.addrs]), ha,
    fun a h => .inl ((hmem a).1 h), fun a h => (hmem a).2 h⟩

/-- An edit of a child is an edit of the node. -/
theorem Upd.child {h h' : Heap} {hd : Hdr} {pre post : List Node} {c c' : Node} {G : List Node}
    (f : Forest h [.mk hd (pre ++ c :: post)]) (u : Upd h h' c c' G) :
    Upd h h' (.mk hd (pre ++ c :: post)) (.mk hd (pre ++ c' :: post)) G := by
  have f0 := f
  rw [forest_mk] at f
  obtain ⟨g1, g2, g3, g4⟩ := f
  have hp : (pre ++ c :: post).Perm (c :: (pre ++ post)) := List.perm_middle
  have hp' : (pre ++ c' :: post).Perm (c' :: (pre ++ post)) := List.perm_middle
  have g5 := forest_cons.1 (g4.perm hp)
  have hmem : ∀ a, a ∈ Node.addrss (pre ++ c :: post) ↔ a ∈ c.addrs ∨ a ∈ Node.addrss (pre ++ post) := by
    intro a
    rw [(addrss_perm hp).mem_iff, Node.addrss, List.mem_append]
  have hmem' : ∀ a, a ∈ Node.addrss (pre ++ c' :: post) ↔ a ∈ c'.addrs ∨ a ∈ Node.addrss (pre ++ post) := by
    intro a
    rw [(addrss_perm hp').mem_iff, Node.addrss, List.mem_append]
  obtain ⟨o1, o2⟩ := u.other g5.2.1 g5.2.2
  have hr : hd.addr ∉ c.addrs := fun m => g3 ((hmem _).2 (.inl m))
  have hr' : hd.addr ∉ Node.addrss (c' :: G) := by
    intro m
    rcases u.sub _ m with hx | hx
    · exact hr hx
    · omega
  have uf := forest_cons.1 u.forest
  refine ⟨?_, u.frame.mono (fun a ha => by rw [addrs_mk]; exact List.mem_cons_of_mem _ ((hmem a).2 (.inl ha))), rfl, ?_, ?_⟩
  · rw [forest_cons, forest_mk]
    refine ⟨⟨?_, ⟨g2.1, Nat.lt_of_lt_of_le g2.2 u.frame.1⟩, ?_, ?_⟩, uf.2.1, ?_⟩
    · rw [u.frame.2 _ g2.2 hr, g1]
      simp [u.root]
    · rw [hmem', not_or]
      rw [Node.addrss, List.mem_append, not_or] at hr'
      exact ⟨hr'.1, fun m => g3 ((hmem _).2 (.inr m))⟩
    · refine Forest.perm ?_ hp'.symm
      rw [forest_cons]
      exact ⟨uf.1, o1, fun a ha => o2 a (by rw [Node.addrss]; simp [ha])⟩
    · intro a ha hb
      rw [addrs_mk, List.mem_cons, hmem'] at ha
      rcases ha with rfl | ha | ha
      · exact hr' (by rw [Node.addrss]; simp [hb])
      · exact uf.2.2 a ha hb
      · exact o2 a (by rw [Node.addrss]; simp [hb]) ha
  · intro a ha
    rw [Node.addrss, addrs_mk, List.mem_append, List.mem_cons, hmem'] at ha
    rw [addrs_mk, List.mem_cons, hmem]
    rcases ha with (rfl | ha | ha) | ha
    · simp
    · rcases u.sub a (by rw [Node.addrss]; simp [ha]) with hx | hx
      · simp [hx]
      · simp [hx]
    · simp [ha]
    · rcases u.sub a (by rw [Node.addrss]; simp [ha]) with hx | hx
      · simp [hx]
      · simp [hx]
  · intro a ha
    rw [addrs_mk, List.mem_cons, hmem] at ha
    rw [Node.addrss, addrs_mk, List.mem_append, List.mem_cons, hmem']
    rcases ha with rfl | ha | ha
    · simp
    · have := u.sup a ha
      rw [Node.addrss, List.mem_append] at this
      tauto
    · tauto

/-! ### Copying -/

theorem forget_fresh (b : Nat) (t : Node) (h : ∀ a ∈ t.addrs, b ≤ a) : forget b t = t.fresh := by
  induction t using Node.ind with
  | h hd cs ih =>
    rw [addrs_mk] at h
    have h0 : ¬ hd.addr < b := by have := h hd.addr (by simp); omega
    simp only [forget, Node.fresh, forgets_eq_map, freshs_eq_map, h0, if_false]
    congr 1
    exact List.map_congr_left fun c hc => ih c hc fun a ha => h a (List.mem_cons_of_mem _ (addrs_subset hc ha))

/-- A freshly allocated copy. -/
structure Copied (h h' : Heap) (ts us : List Node) : Prop where
  next : h.next ≤ h'.next
  old : ∀ a, a < h.next → h'.get a = h.get a
  forest : Forest h' us
  new : ∀ a ∈ Node.addrss us, h.next ≤ a
  same : us.map Node.fresh = ts.map Node.fresh

theorem mapH_nil {α : Type} (f : Nat → HM α) (h : Heap) : mapH f [] h = (.ok [], h) := rfl

theorem copyH_list {ts : List Node} (ih : ∀ t ∈ ts, ∀ h : Heap, 0 < h.next → Stored h t → (∀ a ∈ t.addrs, a < h.next) →
      ∃ h' u, Ends (fun n => copyH n t.hd.addr) h (.ok u.hd.addr) h' ∧ Copied h h' [t] [u]) :
    ∀ h : Heap, 0 < h.next → Storeds h ts → (∀ a ∈ Node.addrss ts, a < h.next) →
      ∃ h' us, Ends (fun n => mapH (copyH n) (ts.map (fun c => c.hd.addr))) h (.ok (us.map (fun c => c.hd.addr))) h' ∧
        Copied h h' ts us := by
  induction ts with
  | nil =>
    intro h _ _ _
    exact ⟨h, [], ⟨0, fun _ _ => rfl⟩, Nat.le_refl _, fun _ _ => rfl, forest_nil h, by simp [Node.addrss], rfl⟩
  | cons t ts iht =>
    intro h h0 hs hl
    rw [Storeds] at hs
    rw [Node.addrss] at hl
    obtain ⟨h1, u, e1, c1⟩ := ih t (by simp) h h0 hs.1 (fun a ha => hl a (by simp [ha]))
    obtain ⟨h2, us, e2, c2⟩ := iht (fun t' ht' => ih t' (by simp [ht'])) h1 (Nat.lt_of_lt_of_le h0 c1.next)
      (storeds_frame ts (fun a ha => c1.old a (hl a (by simp [ha]))) hs.2)
      (fun a ha => Nat.lt_of_lt_of_le (hl a (by simp [ha])) c1.next)
    refine ⟨h2, u :: us, ?_, Nat.le_trans c1.next c2.next, ?_, ?_, ?_, ?_⟩
    · have : Ends (fun n => copyH n t.hd.addr >>= fun x => mapH (copyH n) (ts.map (fun c => c.hd.addr)) >>= fun xs =>
          pure (x :: xs)) h (.ok ((u :: us).map (fun c => c.hd.addr))) h2 :=
        Ends.bind e1 (Ends.bind e2 (Ends.const rfl))
      exact this
    · intro a ha
      rw [c2.old a (Nat.lt_of_lt_of_le ha c1.next), c1.old a ha]
    · rw [forest_cons]
      refine ⟨c1.forest.frame (A := []) ⟨c2.next, fun a ha _ => c2.old a ha⟩ (by simp), c2.forest, fun a ha hb => ?_⟩
      have := (c1.forest.live a (by rwa [addrss_single])).2
      have := c2.new a hb
      omega
    · intro a ha
      rw [Node.addrss, List.mem_append] at ha
      rcases ha with ha | ha
      · exact c1.new a (by rwa [addrss_single])
      · exact Nat.le_trans c1.next (c2.new a ha)
    · have := c1.same
      simp only [List.map_cons, List.map_nil, List.cons.injEq, and_true] at this
      simp [this, c2.same]

theorem copyH_spec (t : Node) : ∀ h : Heap, 0 < h.next → Stored h t → (∀ a ∈ t.addrs, a < h.next) →
      ∃ h' u, Ends (fun n => copyH n t.hd.addr) h (.ok u.hd.addr) h' ∧ Copied h h' [t] [u] := by
  induction t using Node.ind with
  | h hd cs ih =>
    intro h h0 hs hl
    rw [addrs_mk] at hl
    obtain ⟨h1, us, e1, c1⟩ := copyH_list ih h h0 hs.2 (fun a ha => hl a (by simp [ha]))
    let h2 : Heap := { get := fun a => if a = h1.next then
        ⟨{ hd with addr := h1.next }, us.map (fun c => c.hd.addr)⟩ else h1.get a, next := h1.next + 1 }
    have hold : ∀ a, a < h1.next → h2.get a = h1.get a := fun a ha => by
      simp only [h2]; rw [if_neg (by omega)]
    refine ⟨h2, .mk { hd with addr := h1.next } us, ?_, ?_, ?_, ?_, ?_, ?_⟩
    · have : Ends (fun n => mapH (copyH n) (cs.map (fun c => c.hd.addr)) >>= fun kids =>
          alloc { (h.get hd.addr) with content := kids }) h (.ok h1.next) h2 := by
        refine Ends.bind e1 (Ends.const ?_)
        simp only [HM.alloc, hs.1, h2]
      refine Ends.call this (fun n => ?_)
      show (rd hd.addr >>= fun c => mapH (copyH n) c.content >>= fun kids => alloc { c with content := kids }) h = _
      rw [HM.rd_bind, hs.1]
    · exact Nat.le_trans c1.next (Nat.le_succ _)
    · intro a ha
      rw [hold a (Nat.lt_of_lt_of_le ha c1.next), c1.old a ha]
    · rw [forest_mk]
      refine ⟨by simp [h2], ⟨Nat.lt_of_lt_of_le h0 c1.next, Nat.lt_succ_self _⟩, ?_, ?_⟩
      · intro m
        have := (c1.forest.live _ m).2
        simp at this
      · exact c1.forest.frame (A := []) ⟨Nat.le_succ _, fun a ha _ => hold a ha⟩ (by simp)
    · intro a ha
      rw [addrss_single, addrs_mk, List.mem_cons] at ha
      rcases ha with rfl | ha
      · exact c1.next
      · exact c1.new a ha
    · simp [Node.fresh, freshs_eq_map, c1.same]

/-! ### Rewriting a tree in place -/

/-- Between `h` and `h'` the cells of `t` (and no others) were rewritten. -/
structure InPlace (h h' : Heap) (A : List Nat) : Prop where
  next : h'.next = h.next
  other : ∀ a, a ∉ A → h'.get a = h.get a

theorem InPlace.untouched {h h' : Heap} {A : List Nat} (i : InPlace h h' A) : Untouched h h' A :=
  ⟨i.next ▸ Nat.le_refl _, fun a _ ha => i.other a ha⟩

theorem InPlace.refl (h : Heap) (A : List Nat) : InPlace h h A := ⟨rfl, fun _ _ => rfl⟩

theorem InPlace.trans {h h1 h2 : Heap} {A B C : List Nat} (i : InPlace h h1 A) (j : InPlace h1 h2 B)
    (hA : ∀ a ∈ A, a ∈ C) (hB : ∀ a ∈ B, a ∈ C) : InPlace h h2 C :=
  ⟨j.next.trans i.next, fun a ha => by rw [j.other a (fun m => ha (hB a m)), i.other a (fun m => ha (hA a m))]⟩

theorem inPlace_write (h : Heap) (p : Nat) (c : Cell) {A : List Nat} (hp : p ∈ A) : InPlace h (h.write p c) A :=
  ⟨rfl, fun a ha => write_other h c (fun e => ha (e ▸ hp))⟩

/-- `op` rewrites every tree in place as `f` does. -/
def Rewrites (op : Nat → Nat → HM Unit) (f : Node → Node) (t : Node) : Prop :=
  ∀ h : Heap, Forest h [t] → ∃ h', Ends (fun n => op n t.hd.addr) h (.ok ()) h' ∧ InPlace h h' t.addrs ∧ Forest h' [f t]

theorem rewrites_list {op : Nat → Nat → HM Unit} {f : Node → Node} (hf : ∀ t, (f t).addrs = t.addrs) {ts : List Node}
    (ih : ∀ t ∈ ts, Rewrites op f t) : ∀ h : Heap, Forest h ts → ∃ h' us,
      Ends (fun n => mapH (op n) (ts.map (fun c => c.hd.addr))) h (.ok us) h' ∧ InPlace h h' (Node.addrss ts) ∧
      Forest h' (ts.map f) := by
  induction ts with
  | nil => exact fun h _ => ⟨h, [], Ends.const rfl, InPlace.refl _ _, forest_nil h⟩
  | cons t ts iht =>
    intro h fo
    rw [forest_cons] at fo
    obtain ⟨f1, f2, f3⟩ := fo
    obtain ⟨h1, e1, i1, g1⟩ := ih t (by simp) h f1
    obtain ⟨h2, us, e2, i2, g2⟩ := iht (fun t' ht' => ih t' (by simp [ht'])) h1
      (f2.frame i1.untouched (fun a ha hb => f3 a hb ha))
    have hmap : ∀ ts : List Node, Node.addrss (ts.map f) = Node.addrss ts := by
      intro ts
      induction ts with
      | nil => rfl
      | cons c cs ih => simp [Node.addrss, hf, ih]
    refine ⟨h2, () :: us, ?_, i1.trans i2 (by rw [Node.addrss]; simp; tauto) (by rw [Node.addrss]; simp; tauto), ?_⟩
    · have : Ends (fun n => op n t.hd.addr >>= fun x => mapH (op n) (ts.map (fun c => c.hd.addr)) >>= fun xs =>
          pure (x :: xs)) h (.ok (() :: us)) h2 :=
        Ends.bind e1 (Ends.bind e2 (Ends.const rfl))
      exact this
    · rw [List.map_cons, forest_cons, hf, hmap]
      refine ⟨g1.frame i2.untouched (fun a ha hb => ?_), g2, f3⟩
      rw [addrss_single, hf] at ha
      exact f3 a ha hb

mutual
theorem sanitize_addrs (E : Sed) : ∀ t : Node, (sanitizeNode E t).addrs = t.addrs
  | .mk hd cs => by
    rw [sanitizeNode, addrs_mk, addrs_mk, sanitizes_addrs E cs]; rfl
theorem sanitizes_addrs (E : Sed) : ∀ ts : List Node, Node.addrss (sanitizeNodes E ts) = Node.addrss ts
  | [] => rfl
  | t :: ts => by rw [sanitizeNodes, Node.addrss, Node.addrss, sanitize_addrs E t, sanitizes_addrs E ts]
end

/-- Rewriting a node's own fields, its children being already rewritten. -/
theorem inPlace_node {h h1 : Heap} {hd hd' : Hdr} {cs cs' : List Node} (f : Forest h [.mk hd cs])
    (i : InPlace h h1 (Node.addrss cs)) (g : Forest h1 cs') (hr : cs'.map (fun c => c.hd.addr) = cs.map (fun c => c.hd.addr))
    (hc : Node.addrss cs' = Node.addrss cs) (ha : hd'.addr = hd.addr) :
    h1.get hd.addr = ⟨hd, cs.map (fun c => c.hd.addr)⟩ ∧
    InPlace h (h1.write hd.addr ⟨hd', cs.map (fun c => c.hd.addr)⟩) (Node.mk hd cs).addrs ∧
    Forest (h1.write hd.addr ⟨hd', cs.map (fun c => c.hd.addr)⟩) [.mk hd' cs'] := by
  rw [forest_mk] at f
  obtain ⟨f1, f2, f3, f4⟩ := f
  have hget : h1.get hd.addr = ⟨hd, cs.map (fun c => c.hd.addr)⟩ := by rw [i.other _ f3, f1]
  refine ⟨hget, i.trans (inPlace_write h1 hd.addr _ (A := [hd.addr]) (by simp)) (by rw [addrs_mk]; simp; tauto) (by rw [addrs_mk]; simp), ?_⟩
  have f5 : Forest h1 [.mk hd cs'] := by
    rw [forest_mk, hr, hc, i.next]
    exact ⟨hget, f2, f3, g⟩
  have := forest_rearrange (cs' := cs') (G := []) f5 ha (by simp)
  rwa [hr] at this

theorem addr_of_addrs {f : Node → Node} (hf : ∀ t, (f t).addrs = t.addrs) (cs : List Node) :
    (cs.map f).map (fun c => c.hd.addr) = cs.map (fun c => c.hd.addr) ∧ Node.addrss (cs.map f) = Node.addrss cs := by
  constructor
  · rw [List.map_map]
    refine List.map_congr_left fun c _ => ?_
    have := hf c
    rcases hfc : f c with ⟨h1, c1⟩
    rcases c with ⟨h2, c2⟩
    rw [hfc, addrs_mk, addrs_mk] at this
    simpa [hfc] using (List.cons.inj this).1
  · induction cs with
    | nil => rfl
    | cons c cs ih => simp [Node.addrss, hf, ih]

theorem sanitizeH_spec (E : Sed) (t : Node) : WellFormed t → Rewrites (sanitizeH E) (sanitizeNode E) t := by
  induction t using Node.ind with
  | h hd cs ih =>
    intro wf h f
    rw [WellFormed] at wf
    have hkids : ∃ h1 us, Ends (fun n => mapH (sanitizeH E n) (cs.map (fun c => c.hd.addr))) h (.ok us) h1 ∧
        InPlace h h1 (Node.addrss cs) ∧ Forest h1 (cs.map (sanitizeNode E)) :=
      rewrites_list (sanitize_addrs E) (fun t ht => ih t ht ((WellFormeds_iff cs).1 wf.2 t ht)) h (forest_mk.1 f).2.2.2
    obtain ⟨h1, us, e1, i1, g1⟩ := hkids
    have haddr := addr_of_addrs (sanitize_addrs E) cs
    have hh : (sanitizeHdr E hd).addr = hd.addr := rfl
    obtain ⟨n1, n2, n3⟩ := inPlace_node f i1 g1 haddr.1 haddr.2 hh
    refine ⟨_, ?_, n2, ?_⟩
    · have hget := (forest_mk.1 f).1
      have hfin : Ends (fun n => mapH (sanitizeH E n) (cs.map (fun c => c.hd.addr)) >>= fun _ =>
          (rd hd.addr >>= fun c => wr hd.addr { c with hd := sanitizeHdr E c.hd })) h (.ok ())
          (h1.write hd.addr ⟨sanitizeHdr E hd, cs.map (fun c => c.hd.addr)⟩) := by
        refine Ends.bind e1 (Ends.const ?_)
        rw [HM.rd_bind, n1]
        rfl
      by_cases hk : hd.kind = .scalar ∨ hd.kind = .zero
      · have hcs : cs = [] := by
          have := wf.1
          rcases hk with hk | hk <;> · rw [hk] at this; exact List.eq_nil_of_length_eq_zero this
        subst hcs
        refine Ends.call hfin (fun n => ?_)
        rcases hk with hk | hk <;> simp [sanitizeH, hget, hk, mapH]
      · refine Ends.call hfin (fun n => ?_)
        rw [not_or] at hk
        simp only [sanitizeH, Node.hd_mk, HM.rd_bind, hget]
        cases hkk : hd.kind <;> simp_all [HM.bind_assoc']
    · simpa [sanitizeNode, sanitizeNodes_eq_map] using n3

end Yot
