import Verif.Spec.Arrays
import Verif.Lemmas.Slices
/-
The functions on slices do what the functions on lists do.
-/
namespace Yot.Arr
open Spec

/-- `x` on arrays does what `y` does on lists, unless `y` runs out of stack. -/
def Sim {α : Type} (x : AM α) (y : HM α) : Prop :=
  ∀ a, OwnArrays a → (y (asLists a)).1 ≠ .stuck →
    (x a).1 = (y (asLists a)).1 ∧ asLists (x a).2 = (y (asLists a)).2 ∧ OwnArrays (x a).2

/-- The same at one memory. -/
def SimAt {α : Type} (a : AHeap) (x : AM α) (y : HM α) : Prop :=
  OwnArrays a → (y (asLists a)).1 ≠ .stuck →
    (x a).1 = (y (asLists a)).1 ∧ asLists (x a).2 = (y (asLists a)).2 ∧ OwnArrays (x a).2

theorem Sim.pure {α : Type} (v : α) : Sim (Pure.pure v : AM α) (Pure.pure v : HM α) := fun _ h _ => ⟨rfl, rfl, h⟩
theorem Sim.fail {α : Type} (e : Err) : Sim (AM.fail e : AM α) (HM.fail e) := fun _ h _ => ⟨rfl, rfl, h⟩
theorem Sim.crash {α : Type} : Sim (AM.crash : AM α) HM.crash := fun _ h _ => ⟨rfl, rfl, h⟩
theorem Sim.stop {α : Type} (x : AM α) : Sim x HM.stop := fun _ _ hs => absurd rfl hs

theorem SimAt.then {α β : Type} {a : AHeap} {x : AM α} {y : HM α} {f : α → AM β} {g : α → HM β} (h : SimAt a x y) (hf : ∀ v, Sim (f v) (g v)) :
    SimAt a (x >>= f) (y >>= g) := by
  intro ha hs
  change (HM.bind y g (asLists a)).1 ≠ .stuck at hs
  change (AM.bind x f a).1 = (HM.bind y g (asLists a)).1 ∧ asLists (AM.bind x f a).2 = (HM.bind y g (asLists a)).2 ∧ OwnArrays (AM.bind x f a).2
  have hy : (y (asLists a)).1 ≠ .stuck := by
    intro e
    apply hs
    unfold HM.bind
    rcases hq : y (asLists a) with ⟨r, h'⟩
    rw [hq] at e
    cases e
    rfl
  obtain ⟨h1, h2, h3⟩ := h ha hy
  rcases hq : y (asLists a) with ⟨r, h'⟩
  rcases hp : x a with ⟨r', a'⟩
  rw [hq, hp] at h1 h2
  rw [hp] at h3
  dsimp only at h1 h2 h3
  subst h1
  subst h2
  unfold AM.bind HM.bind
  unfold HM.bind at hs
  rw [hq] at hs ⊢
  rw [hp]
  cases r' with
  | ok v => exact hf v a' h3 hs
  | err e => exact ⟨rfl, rfl, h3⟩
  | panic => exact ⟨rfl, rfl, h3⟩
  | stuck => exact absurd (by rw [hq]) hy

theorem Sim.bind {α β : Type} {x : AM α} {y : HM α} {f : α → AM β} {g : α → HM β} (h : Sim x y) (hf : ∀ v, Sim (f v) (g v)) :
    Sim (x >>= f) (y >>= g) := fun a => SimAt.then (h a) hf

theorem whole_of_ok {m : Mem Nat} {s : Slice} (h : SliceOk m s) : AM.whole m s = true := by
  unfold AM.whole
  rw [List.all_eq_true]
  intro i hi
  exact h.2.2 i (List.mem_range.1 hi)

theorem rd_eq {a : AHeap} (h : OwnArrays a) (p : Nat) : AM.rd p a = (.ok ((asLists a).get p), a) := by
  unfold AM.rd
  rw [if_pos (whole_of_ok (h.ok p))]
  rfl

theorem Sim.rd (p : Nat) : Sim (AM.rd p) (HM.rd p) := by
  intro a h _
  rw [rd_eq h]
  exact ⟨rfl, rfl, h⟩

/-! ### Writes -/

theorem asLists_setHd (a : AHeap) (p : Nat) (hd : Hdr) :
    asLists (AM.put a p ⟨hd, (a.get p).content⟩) =
      { asLists a with get := fun x => if x = p then ⟨hd, ((asLists a).get p).content⟩ else (asLists a).get x } := by
  unfold asLists AM.put
  simp only [Heap.mk.injEq, and_true]
  funext x
  split_ifs with hx
  · rfl
  · rfl

theorem own_setHd {a : AHeap} (h : OwnArrays a) (p : Nat) (hd : Hdr) : OwnArrays (AM.put a p ⟨hd, (a.get p).content⟩) := by
  have key : ∀ x, ((AM.put a p ⟨hd, (a.get p).content⟩).get x).content = (a.get x).content := by
    intro x
    unfold AM.put
    dsimp only
    split_ifs with hx
    · rw [hx]
    · rfl
  constructor
  · intro x; rw [key]; exact h.ok x
  · intro x y hxy; rw [key, key]; exact h.own x y hxy

theorem setHd_eq {a : AHeap} (h : OwnArrays a) (p : Nat) (hd : Hdr) :
    (AM.setHd p hd a).1 = (HM.wr p { (asLists a).get p with hd := hd } (asLists a)).1 ∧
    asLists (AM.setHd p hd a).2 = (HM.wr p { (asLists a).get p with hd := hd } (asLists a)).2 ∧ OwnArrays (AM.setHd p hd a).2 :=
  ⟨rfl, asLists_setHd a p hd, own_setHd h p hd⟩

theorem clear_eq {a : AHeap} (h : OwnArrays a) (p : Nat) (hd : Hdr) :
    (AM.clear p hd a).1 = (HM.wr p ⟨hd, []⟩ (asLists a)).1 ∧
    asLists (AM.clear p hd a).2 = (HM.wr p ⟨hd, []⟩ (asLists a)).2 ∧ OwnArrays (AM.clear p hd a).2 := by
  refine ⟨rfl, ?_, ?_, ?_⟩
  · unfold asLists AM.clear AM.put HM.wr
    simp only [Heap.mk.injEq, and_true]
    funext x
    split_ifs with hx
    · rfl
    · rfl
  · intro x
    unfold AM.clear AM.put
    dsimp only
    split_ifs with hx
    · exact ⟨Nat.le_refl _, fun h => absurd h (by simp), fun i hi => absurd hi (by simp)⟩
    · exact h.ok x
  · intro x y hxy
    unfold AM.clear AM.put
    dsimp only
    split_ifs with hx hy hy
    · simp
    · simp
    · simp
    · exact h.own x y hxy

/-- Replacing one node's slice by one that no other node sees, arrays of the others kept. -/
theorem own_of_put {a : AHeap} (h : OwnArrays a) (p : Nat) (hd : Hdr) (s : Slice) (m : Mem Nat) (n : Nat)
    (hs : SliceOk m s) (hn : a.mem.next ≤ m.next)
    (hk : ∀ x, x ≠ p → ∀ i, i < (a.get x).content.len → m.cell (a.get x).content.arr i = a.mem.cell (a.get x).content.arr i)
    (hd' : ∀ x, x ≠ p → 0 < (a.get x).content.cap → 0 < s.cap → (a.get x).content.arr ≠ s.arr) :
    OwnArrays ⟨fun x => if x = p then ⟨hd, s⟩ else a.get x, n, m⟩ := by
  constructor
  · intro x
    dsimp only
    split_ifs with hx
    · exact hs
    · obtain ⟨h1, h2, h3⟩ := h.ok x
      exact ⟨h1, fun hc => Nat.lt_of_lt_of_le (h2 hc) hn, fun i hi => by rw [hk x hx i hi]; exact h3 i hi⟩
  · intro x y hxy
    dsimp only
    split_ifs with hx hy hy
    · exact absurd (hx.trans hy.symm) hxy
    · exact fun h1 h2 e => hd' y hy h2 h1 e.symm
    · exact fun h1 h2 e => hd' x hx h1 h2 e
    · exact h.own x y hxy

theorem read_congr {m m' : Mem Nat} {s : Slice} (h : ∀ i, i < s.len → m'.cell s.arr i = m.cell s.arr i) : m'.read s = m.read s := by
  unfold Mem.read
  apply List.filterMap_congr
  intro i hi
  exact h i (List.mem_range.1 hi)

theorem lists_of_put (a : AHeap) (p : Nat) (hd : Hdr) (s : Slice) (m : Mem Nat) (n : Nat) (xs : List Nat) (hr : m.read s = xs)
    (hk : ∀ x, x ≠ p → ∀ i, i < (a.get x).content.len → m.cell (a.get x).content.arr i = a.mem.cell (a.get x).content.arr i) :
    asLists ⟨fun x => if x = p then ⟨hd, s⟩ else a.get x, n, m⟩ =
      ⟨fun x => if x = p then ⟨hd, xs⟩ else (asLists a).get x, n⟩ := by
  unfold asLists
  simp only [Heap.mk.injEq, and_true]
  funext x
  split_ifs with hx
  · simp only [hr]
  · simp only [Cell.mk.injEq, true_and]
    exact read_congr (hk x hx)

theorem fresh_spec {rt : Runtime} (sane : Sane rt) {a : AHeap} (h : OwnArrays a) (xs : List Nat) :
    let f := AM.fresh rt a.mem xs
    f.1.read f.2 = xs ∧ SliceOk f.1 f.2 ∧ a.mem.next ≤ f.1.next ∧
    (∀ x, ∀ i, i < (a.get x).content.len → f.1.cell (a.get x).content.arr i = a.mem.cell (a.get x).content.arr i) ∧
    (∀ x, 0 < (a.get x).content.cap → 0 < f.2.cap → (a.get x).content.arr ≠ f.2.arr) := by
  intro f
  have hne : ∀ x, 0 < (a.get x).content.cap → (a.get x).content.arr ≠ a.mem.next := by
    intro x hx
    have := (h.ok x).2.1 hx
    omega
  refine ⟨?_, ⟨sane.room _, fun _ => by show a.mem.next < a.mem.next + 1; omega, ?_⟩, Nat.le_succ _, ?_, fun x hx _ => hne x hx⟩
  · have := filterMap_range_write (fun _ => (none : Option Nat)) 0 xs
    simp only [Nat.zero_add, List.range_zero, List.filterMap_nil, List.nil_append] at this
    show (List.range xs.length).filterMap _ = xs
    rw [← this, this]
    conv_rhs => rw [← this]
    apply List.filterMap_congr
    intro j hj
    have hj := List.mem_range.1 hj
    simp only [f, AM.fresh, Mem.write, true_and, Nat.zero_add]
    rw [if_pos ⟨Nat.zero_le _, hj⟩, if_pos ⟨Nat.zero_le _, hj⟩]
  · intro i hi
    have hi : i < xs.length := hi
    show (Mem.cell (Mem.write _ _ _ _) a.mem.next i).isSome
    simp only [Mem.write, true_and, Nat.zero_add]
    rw [if_pos ⟨Nat.zero_le _, hi⟩]
    simp [hi]
  · intro x i hi
    simp only [f, AM.fresh, Mem.write]
    rw [if_neg]
    intro hc
    exact hne x (by have := (h.ok x).1; omega) hc.1

theorem alloc_eq {rt : Runtime} (sane : Sane rt) {a : AHeap} (h : OwnArrays a) (hd : Hdr) (xs : List Nat) :
    (AM.alloc rt hd xs a).1 = (HM.alloc ⟨hd, xs⟩ (asLists a)).1 ∧
    asLists (AM.alloc rt hd xs a).2 = (HM.alloc ⟨hd, xs⟩ (asLists a)).2 ∧ OwnArrays (AM.alloc rt hd xs a).2 := by
  obtain ⟨f1, f2, f3, f4, f5⟩ := fresh_spec sane h xs
  exact ⟨rfl, lists_of_put a a.next _ _ _ _ xs f1 (fun x _ => f4 x), own_of_put h a.next _ _ _ _ f2 f3 (fun x _ => f4 x) (fun x _ => f5 x)⟩

theorem install_eq {rt : Runtime} (sane : Sane rt) {a : AHeap} (h : OwnArrays a) (p : Nat) (hd : Hdr) (xs : List Nat) :
    (AM.install rt p hd xs a).1 = (HM.wr p ⟨hd, xs⟩ (asLists a)).1 ∧
    asLists (AM.install rt p hd xs a).2 = (HM.wr p ⟨hd, xs⟩ (asLists a)).2 ∧ OwnArrays (AM.install rt p hd xs a).2 := by
  obtain ⟨f1, f2, f3, f4, f5⟩ := fresh_spec sane h xs
  exact ⟨rfl, lists_of_put a p _ _ _ _ xs f1 (fun x _ => f4 x), own_of_put h p _ _ _ _ f2 f3 (fun x _ => f4 x) (fun x _ => f5 x)⟩

theorem extend_eq {rt : Runtime} (sane : Sane rt) {a : AHeap} (h : OwnArrays a) (p : Nat) (hd : Hdr) (xs : List Nat) :
    (AM.extend rt p hd xs a).1 = (HM.wr p ⟨hd, ((asLists a).get p).content ++ xs⟩ (asLists a)).1 ∧
    asLists (AM.extend rt p hd xs a).2 = (HM.wr p ⟨hd, ((asLists a).get p).content ++ xs⟩ (asLists a)).2 ∧
    OwnArrays (AM.extend rt p hd xs a).2 := by
  obtain ⟨r1, r2, r3, r4, r5⟩ := Mem.append_spec rt.grow sane.grow a.mem (a.get p).content xs (h.ok p) _ rfl
  set r := a.mem.append rt.grow (a.get p).content xs with hr
  have hk : ∀ x, x ≠ p → ∀ i, i < (a.get x).content.len → r.1.cell (a.get x).content.arr i = a.mem.cell (a.get x).content.arr i := by
    intro x hx i hi
    have hxc : 0 < (a.get x).content.cap := by have := (h.ok x).1; omega
    have hxn := (h.ok x).2.1 hxc
    rw [hr]
    unfold Mem.append
    split_ifs with hc
    · simp only [Mem.write]
      rw [if_neg]
      rintro ⟨e, h1, h2⟩
      exact h.own x p hx hxc (by omega) e
    · simp only [Mem.write]
      rw [if_neg (by omega), if_neg (by omega)]
  refine ⟨rfl, lists_of_put a p _ _ _ _ _ r1 hk, own_of_put h p _ _ _ _ r2 r3 hk ?_⟩
  intro x hx h1 h2 e
  have hxn := (h.ok x).2.1 h1
  rcases r5 with ⟨h3, _⟩ | ⟨h3, ⟨_, h4⟩ | h4⟩
  · rw [e, h3] at hxn; omega
  · rw [h4] at h2 e; exact h.own x p hx h1 h2 e
  · rw [h3] at e
    exact h.own x p hx h1 (by have := (h.ok p).1; omega) e

theorem mem_read_getElem? {m : Mem Nat} {s : Slice} (h : SliceOk m s) (i : Nat) (hi : i < s.len) : (m.read s)[i]? = m.cell s.arr i := by
  have hl := Mem.read_length m s h
  have h := h.2.2
  unfold Mem.read at hl ⊢
  generalize s.arr = b at h hl
  generalize s.len = n at h hl hi
  induction n with
  | zero => omega
  | succ n ih =>
    have hl' : ((List.range n).filterMap (m.cell b)).length = n := by
      have := Mem.read_length m ⟨b, n, n + (b + 1)⟩
      clear ih this hl hi
      induction n with
      | zero => rfl
      | succ n ih =>
        rw [List.range_succ, List.filterMap_append, List.length_append, ih (fun i hi => h i (by omega))]
        obtain ⟨x, hx⟩ := Option.isSome_iff_exists.1 (h n (by omega))
        simp [hx]
    obtain ⟨x, hx⟩ := Option.isSome_iff_exists.1 (h n (by omega))
    rw [List.range_succ, List.filterMap_append]
    by_cases hin : i < n
    · rw [List.getElem?_append_left (by omega)]
      exact ih (fun j hj => h j (by omega)) hl' hin
    · have : i = n := by omega
      subst this
      rw [List.getElem?_append_right (by omega), hl']
      simp [hx]

theorem read_eq_of {m : Mem Nat} {s : Slice} (h : SliceOk m s) (xs : List Nat) (hl : xs.length = s.len)
    (hx : ∀ i, i < s.len → m.cell s.arr i = xs[i]?) : m.read s = xs := by
  apply List.ext_getElem?
  intro i
  by_cases hi : i < s.len
  · rw [mem_read_getElem? h i hi, hx i hi]
  · rw [List.getElem?_eq_none (by rw [Mem.read_length m s h]; omega), List.getElem?_eq_none (by omega)]

theorem cutRange_lt (k : Kind) (i : Nat) : (cutRange k i).1 < (cutRange k i).2 ∧ (cutRange k i).1 ≤ i := by
  unfold cutRange
  split_ifs <;> constructor <;> dsimp only <;> omega

/-- The cut on lists. (Model/Heap `deleteLoopH`) -/
def cutH (p i : Nat) : HM Unit := do
  let pn ← HM.rd p
  let r := cutRange pn.hd.kind i
  if r.2 ≤ pn.content.length then
    HM.wr p ⟨{ pn.hd with nilc := false }, pn.content.take r.1 ++ pn.content.drop r.2⟩
  else HM.crash

theorem Sim.cut (p i : Nat) : Sim (AM.cut p i) (cutH p i) := by
  intro a h _
  have hlen : ((asLists a).get p).content.length = (a.get p).content.len := Mem.read_length _ _ (h.ok p)
  have hk : ((asLists a).get p).hd = (a.get p).hd := rfl
  have e : cutH p i (asLists a) = if (cutRange (a.get p).hd.kind i).2 ≤ (a.get p).content.len then
      HM.wr p ⟨{ (a.get p).hd with nilc := false }, ((asLists a).get p).content.take (cutRange (a.get p).hd.kind i).1 ++
        ((asLists a).get p).content.drop (cutRange (a.get p).hd.kind i).2⟩ (asLists a) else (.panic, asLists a) := by
    simp only [cutH, Bind.bind, HM.bind, HM.rd]
    rw [hlen, hk]
    split_ifs <;> rfl
  rw [e]
  unfold AM.cut
  dsimp only
  obtain ⟨hlt, _⟩ := cutRange_lt (a.get p).hd.kind i
  generalize hr : cutRange (a.get p).hd.kind i = r at *
  split_ifs with hc
  · obtain ⟨ok1, ok2, ok3⟩ := h.ok p
    have hsl : SliceOk (AM.clearAt (AM.shift a.mem (a.get p).content.arr r.1 r.2 (a.get p).content.len) (a.get p).content.arr
        ((a.get p).content.len - (r.2 - r.1))) { (a.get p).content with len := (a.get p).content.len - (r.2 - r.1) } := by
      refine ⟨by dsimp only; omega, ok2, ?_⟩
      intro j hj
      dsimp only at hj
      simp only [AM.clearAt, AM.shift, true_and]
      rw [if_neg (by omega)]
      split_ifs with hj2
      · exact ok3 _ (by omega)
      · exact ok3 _ (by omega)
    have hk : ∀ x, x ≠ p → ∀ j, j < (a.get x).content.len →
        (AM.clearAt (AM.shift a.mem (a.get p).content.arr r.1 r.2 (a.get p).content.len) (a.get p).content.arr
          ((a.get p).content.len - (r.2 - r.1))).cell (a.get x).content.arr j = a.mem.cell (a.get x).content.arr j := by
      intro x hx j hj
      have hne : (a.get x).content.arr ≠ (a.get p).content.arr :=
        h.own x p hx (by have := (h.ok x).1; omega) (by omega)
      simp only [AM.clearAt, AM.shift]
      rw [if_neg (by tauto), if_neg (by tauto)]
    refine ⟨rfl, lists_of_put a p _ _ _ _ _ (read_eq_of hsl _ ?_ ?_) hk, own_of_put h p _ _ _ _ hsl (Nat.le_refl _) hk ?_⟩
    · rw [List.length_append, List.length_take, List.length_drop, hlen]
      dsimp only; omega
    · intro j hj
      dsimp only at hj
      simp only [AM.clearAt, AM.shift, true_and]
      rw [if_neg (by omega)]
      have ht : (((asLists a).get p).content.take r.1).length = r.1 := by rw [List.length_take, hlen]; omega
      split_ifs with hj2
      · rw [List.getElem?_append_right (by omega), ht, List.getElem?_drop, show r.2 + (j - r.1) = j + (r.2 - r.1) by omega]
        exact (mem_read_getElem? (h.ok p) _ (by omega)).symm
      · rw [List.getElem?_append_left (by omega), List.getElem?_take, if_pos (by omega)]
        exact (mem_read_getElem? (h.ok p) _ (by omega)).symm
    · intro x hx h1 h2
      exact h.own x p hx h1 h2
  · exact ⟨rfl, rfl, h⟩


/-! ### The functions -/

theorem SimAt.rd {β : Type} {a : AHeap} {p : Nat} {f : Cell → AM β} {g : Cell → HM β}
    (h : SimAt a (f ((asLists a).get p)) (g ((asLists a).get p))) : SimAt a (AM.rd p >>= f) (HM.rd p >>= g) := by
  intro ha hs
  have : (AM.rd p >>= f) a = f ((asLists a).get p) a := by
    show AM.bind (AM.rd p) f a = _
    unfold AM.bind
    rw [rd_eq ha]
  rw [this]
  exact h ha hs

theorem SimAt.setHd (a : AHeap) (p : Nat) (hd : Hdr) :
    SimAt a (AM.setHd p hd) (HM.wr p { (asLists a).get p with hd := hd }) := fun h _ => setHd_eq h p hd

theorem SimAt.clear (a : AHeap) (p : Nat) (hd : Hdr) : SimAt a (AM.clear p hd) (HM.wr p ⟨hd, []⟩) := fun h _ => clear_eq h p hd

theorem Sim.at {α : Type} {x : AM α} {y : HM α} (h : Sim x y) (a : AHeap) : SimAt a x y := h a

theorem Sim.ite {α : Type} {c d : Prop} [Decidable c] [Decidable d] (hc : c ↔ d) {x x' : AM α} {y y' : HM α} (h : Sim x y) (h' : Sim x' y') :
    Sim (if c then x else x') (if d then y else y') := by
  by_cases hd : d
  · rw [if_pos hd, if_pos (hc.2 hd)]; exact h
  · rw [if_neg hd, if_neg (fun h => hd (hc.1 h))]; exact h'

theorem SimAt.ite {α : Type} {a : AHeap} {c : Prop} [Decidable c] {x x' : AM α} {y y' : HM α} (h : SimAt a x y) (h' : SimAt a x' y') :
    SimAt a (if c then x else x') (if c then y else y') := by
  by_cases hd : c
  · rw [if_pos hd, if_pos hd]; exact h
  · rw [if_neg hd, if_neg hd]; exact h'

theorem Sim.map {α : Type} {f : Nat → AM α} {g : Nat → HM α} (h : ∀ p, Sim (f p) (g p)) : ∀ ps, Sim (mapA f ps) (mapH g ps)
  | [] => Sim.pure _
  | p :: ps => by
    rw [mapA, mapH]
    exact (h p).bind fun x => (Sim.map h ps).bind fun xs => Sim.pure _

theorem Sim.alloc {rt : Runtime} (sane : Sane rt) (hd : Hdr) (xs : List Nat) : Sim (AM.alloc rt hd xs) (HM.alloc ⟨hd, xs⟩) :=
  fun _ h _ => alloc_eq sane h hd xs

theorem Sim.copy {rt : Runtime} (sane : Sane rt) : ∀ fuel p, Sim (copyA rt fuel p) (copyH fuel p)
  | 0, _ => Sim.stop _
  | fuel + 1, p => by
    rw [copyA, copyH]
    exact (Sim.rd p).bind fun c => (Sim.map (Sim.copy sane fuel) _).bind fun kids => Sim.alloc sane _ _

theorem Sim.sanitize (E : Sed) : ∀ fuel p, Sim (sanitizeA E fuel p) (sanitizeH E fuel p)
  | 0, _ => Sim.stop _
  | fuel + 1, p => by
    have last : Sim (do let c ← AM.rd p; AM.setHd p (sanitizeHdr E c.hd)) (do let c ← HM.rd p; HM.wr p { c with hd := sanitizeHdr E c.hd }) :=
      fun a => SimAt.rd (SimAt.setHd a p _)
    rw [sanitizeA, sanitizeH]
    refine (Sim.rd p).bind fun c => ?_
    cases c.hd.kind <;> first | exact last | exact (Sim.map (Sim.sanitize E fuel) _).bind fun _ => last

theorem Sim.addNode {rt : Runtime} (sane : Sane rt) (E : Sed) (fuel p : Nat) (nv : List Nat) :
    Sim (addNodeA rt E fuel p nv) (addNodeH E fuel p nv) := by
  unfold addNodeA addNodeH
  refine (Sim.map (Sim.copy sane fuel) nv).bind fun temp => (Sim.map (Sim.sanitize E fuel) temp).bind fun _ => ?_
  exact fun a => SimAt.rd (fun h _ => extend_eq sane h p _ _)

theorem Sim.mergeComments (E : Sed) (p q : Nat) (vals : List Str) : Sim (mergeCommentsA E p q vals) (mergeCommentsH E p q vals) :=
  fun a => SimAt.rd (SimAt.rd (SimAt.setHd a p _))

theorem Sim.mergeScalar (E : Sed) (p q : Nat) (vals : List Str) : Sim (mergeScalarA E p q vals) (mergeScalarH E p q vals) := by
  unfold mergeScalarA mergeScalarH
  refine (Sim.rd p).bind fun o => (Sim.mergeComments E p q vals).bind fun _ => ?_
  exact fun a => SimAt.rd (SimAt.rd (SimAt.ite (SimAt.clear a p _) (SimAt.setHd a p _)))

theorem Sim.toMapping (p : Nat) : Sim (toMappingA p) (toMappingH p) :=
  fun a => SimAt.rd (SimAt.ite (SimAt.clear a p _) (Sim.pure () a))

theorem Sim.toSequence (p : Nat) : Sim (toSequenceA p) (toSequenceH p) :=
  fun a => SimAt.rd (SimAt.ite (SimAt.clear a p _) (Sim.pure () a))

theorem Sim.mergeArray {rt : Runtime} (sane : Sane rt) (E : Sed) (fuel p q : Nat) : Sim (mergeArrayA rt E fuel p q) (mergeArrayH E fuel p q) := by
  unfold mergeArrayA mergeArrayH
  refine (Sim.toSequence p).bind fun _ => (Sim.rd q).bind fun n => Sim.ite Iff.rfl (Sim.pure ()) ?_
  exact (Sim.rd p).bind fun o => (Sim.mergeComments E p q _).bind fun _ => Sim.addNode sane E fuel p _

theorem Sim.merge {rt : Runtime} (sane : Sane rt) (E : Sed) : ∀ fuel,
    (∀ p q vals, Sim (mergeA rt E fuel p q vals) (mergeH E fuel p q vals)) ∧
    (∀ p q ni, Sim (mergeMapA rt E fuel p q ni) (mergeMapH E fuel p q ni)) ∧
    (∀ p q ni oi found, Sim (mergeScanA rt E fuel p q ni oi found) (mergeScanH E fuel p q ni oi found))
  | 0 => ⟨fun _ _ _ => by rw [mergeH]; exact Sim.stop _, fun _ _ _ => by rw [mergeMapH]; exact Sim.stop _,
      fun _ _ _ _ _ => by rw [mergeScanH]; exact Sim.stop _⟩
  | fuel + 1 => by
    obtain ⟨ih1, ih2, ih3⟩ := Sim.merge sane E fuel
    refine ⟨?_, ?_, ?_⟩
    · intro p q vals
      rw [mergeA, mergeH]
      refine (Sim.rd q).bind fun n => ?_
      cases n.hd.kind with
      | document =>
        refine (Sim.rd p).bind fun o => Sim.ite Iff.rfl (Sim.pure ()) ?_
        refine (Sim.mergeComments E p q _).bind fun _ => (Sim.rd p).bind fun o => (Sim.rd q).bind fun n => ?_
        rcases o with ⟨oh, _ | ⟨oc, ocs⟩⟩ <;> rcases n with ⟨nh, _ | ⟨nc, ncs⟩⟩
        · exact Sim.crash
        · exact Sim.crash
        · exact Sim.crash
        · exact ih1 _ _ _
      | mapping => exact ih2 _ _ _
      | sequence => exact Sim.mergeArray sane E _ _ _
      | scalar =>
        refine (Sim.mergeScalar E p q vals).bind fun _ => ?_
        exact fun a => SimAt.rd (SimAt.rd (SimAt.setHd a p _))
      | «alias» => exact Sim.fail _
      | zero => exact fun a => SimAt.rd (SimAt.setHd a p _)
    · intro p q ni
      rw [mergeMapA, mergeMapH]
      refine (Sim.rd q).bind fun n => ?_
      rcases n.content.drop ni with _ | ⟨nk, _ | ⟨nv, rest⟩⟩
      · exact Sim.pure ()
      · exact Sim.pure ()
      · refine (Sim.toMapping p).bind fun _ => (ih3 _ _ _ _ _).bind fun found => ?_
        refine Sim.bind ?_ fun _ => ih2 _ _ _
        exact Sim.ite Iff.rfl (Sim.pure ()) (Sim.addNode sane E _ _ _)
    · intro p q ni oi found
      rw [mergeScanA, mergeScanH]
      refine (Sim.rd p).bind fun o => ?_
      rcases o.content.drop oi with _ | ⟨ok, _ | ⟨ov, rest⟩⟩
      · exact Sim.pure _
      · exact Sim.pure _
      · refine (Sim.rd q).bind fun n => ?_
        rcases n.content.drop ni with _ | ⟨nk, _ | ⟨nv, rest'⟩⟩
        · exact Sim.crash
        · exact Sim.crash
        · refine (Sim.rd nk).bind fun ck => (Sim.rd ok).bind fun cok => Sim.ite Iff.rfl (ih3 _ _ _ _ _) ?_
          refine (Sim.rd ov).bind fun cov => (Sim.mergeComments E _ _ _).bind fun _ => (ih1 _ _ _).bind fun _ => ?_
          refine Sim.ite Iff.rfl (Sim.pure _) ((Sim.mergeScalar E _ _ _).bind fun _ => ih3 _ _ _ _ _)

theorem Sim.replace {rt : Runtime} (sane : Sane rt) (E : Sed) (fuel p q : Nat) : Sim (replaceA rt E fuel p q) (replaceH E fuel p q) := by
  unfold replaceA replaceH
  refine (Sim.rd p).bind fun ov => (Sim.rd q).bind fun r => (Sim.map (Sim.copy sane fuel) _).bind fun kids => ?_
  refine Sim.bind (fun a h _ => install_eq sane h p _ kids) fun _ => ?_
  exact fun a => SimAt.rd (SimAt.setHd a p _)

theorem Sim.combine (E : Sed) (p q : Nat) : Sim (combineA E p q) (combineH E p q) := by
  unfold combineA combineH
  refine (Sim.rd p).bind fun o => (Sim.rd q).bind fun n => Sim.ite Iff.rfl (Sim.fail _) ?_
  refine (Sim.mergeComments E p q _).bind fun _ => ?_
  refine fun a => SimAt.rd (SimAt.rd (SimAt.ite ?_ (SimAt.ite ?_ (SimAt.setHd a p _))))
  · cases atoi ((asLists a).get p).hd.value <;> cases atoi ((asLists a).get q).hd.value <;>
      first | exact SimAt.setHd a p _ | exact Sim.fail _ a
  · cases parseBool ((asLists a).get p).hd.value <;> cases parseBool ((asLists a).get q).hd.value <;>
      first | exact SimAt.setHd a p _ | exact Sim.fail _ a

theorem Sim.removeComments : ∀ fuel p, Sim (removeCommentsA fuel p) (removeCommentsH fuel p)
  | 0, _ => Sim.stop _
  | fuel + 1, p => by
    rw [removeCommentsA, removeCommentsH]
    refine (Sim.rd p).bind fun n => Sim.ite Iff.rfl (Sim.pure ()) ((Sim.map (fun c => ?_) _).bind fun _ => Sim.pure ())
    refine fun a => SimAt.rd ?_
    have := Sim.removeComments fuel c
    intro ha hs
    have step := SimAt.setHd a c { ((asLists a).get c).hd with head := [], line := [], foot := [] }
    exact SimAt.then step (fun _ => this) ha hs

theorem Sim.setStyle (s : Nat) : ∀ fuel p, Sim (setStyleA s fuel p) (setStyleH s fuel p)
  | 0, _ => Sim.stop _
  | fuel + 1, p => by
    have kids : ∀ ps, Sim (do let _ ← mapA (setStyleA s fuel) ps; Pure.pure ()) (do let _ ← mapH (setStyleH s fuel) ps; Pure.pure ()) :=
      fun ps => (Sim.map (Sim.setStyle s fuel) ps).bind fun _ => Sim.pure ()
    rw [setStyleA, setStyleH]
    refine fun a => SimAt.rd ?_
    generalize ((asLists a).get p).hd.kind = k
    cases k with
    | zero => exact Sim.pure () a
    | scalar => exact SimAt.setHd a p _
    | _ => exact SimAt.then (SimAt.setHd a p _) fun _ => kids _

end Yot.Arr
