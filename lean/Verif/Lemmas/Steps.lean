import Verif.Model.Steps
import Verif.Lemmas.HeapApply
import Verif.Spec.Rename
/-
The programs of single accesses do what the functions on memory do, keep to their own
nodes and the overlays' values, and write no value.
-/
namespace Yot
open Spec

/-- The nodes a goroutine may use: those of its own documents, those it allocates (from
`base` on); and to read only, those of the overlays' values.  `orig` and `res` are the
overlays' actions at first and after the default has been filled in. -/
structure Turf where
  base : Nat
  mine : Nat → Prop
  vals : Nat → Prop
  orig : Nat → OnMissingAction
  res : Nat → OnMissingAction

/-- Writable. -/
def Turf.W (u : Turf) (a : Nat) : Prop := u.mine a ∨ u.base ≤ a
/-- Readable. -/
def Turf.T (u : Turf) (a : Nat) : Prop := u.W a ∨ u.vals a

/-- The node refers to nodes in `S` only. -/
def CellIn (S : Nat → Prop) (c : Cell) : Prop := S c.hd.addr ∧ ∀ x ∈ c.content, S x

/-- No way leads out of the goroutine's nodes, nor out of the values. -/
structure Typed (u : Turf) (H : Heap) : Prop where
  base : u.base ≤ H.next
  own : ∀ a, u.W a → CellIn u.W (H.get a)
  val : ∀ a, u.vals a → CellIn u.vals (H.get a)

/-- Whatever the other goroutines do to the actions meanwhile, the program keeps to its
turf and ends with `r`.  `K`: the overlays whose action it knows to be filled in. -/
def Good {α : Type} (u : Turf) : Prog α → (Nat → Prop) → Heap → Flow α × Heap → Prop
  | .ret a, _, H, r => r = (.ok a, H)
  | .fail e, _, H, r => r = (.err e, H)
  | .crash, _, H, r => r = (.panic, H)
  | .stop, _, H, r => r = (.stuck, H)
  | .rd p k, K, H, r => u.T p ∧ Good u (k (H.get p)) K H r
  | .wr p c k, K, H, r => u.W p ∧ CellIn u.W c ∧ Good u k K (HM.wr p c H).2 r
  | .alloc c k, K, H, r => (∀ x ∈ c.content, u.W x) ∧ Good u (k H.next) K (HM.alloc c H).2 r
  | .rdAct o k, K, H, r => (¬ K o → Good u (k (u.orig o)) K H r) ∧ Good u (k (u.res o)) (fun x => K x ∨ x = o) H r
  | .wrAct o a k, K, H, r => a = u.res o ∧ Good u k (fun x => K x ∨ x = o) H r

theorem Good.bind {α β : Type} {u : Turf} {f : α → Prog β} {r' : Flow β × Heap} (P : Prog α) : ∀ {K H r}, Good u P K H r →
    (match r with
      | (.ok a, H') => ∀ K', Good u (f a) K' H' r'
      | (.err e, H') => r' = (.err e, H')
      | (.panic, H') => r' = (.panic, H')
      | (.stuck, H') => r' = (.stuck, H')) → Good u (P.bind f) K H r' := by
  induction P with
  | ret a => intro K H r h1 h2; simp only [Good] at h1; subst h1; exact h2 K
  | fail e => intro K H r h1 h2; simp only [Good] at h1; subst h1; exact h2
  | crash => intro K H r h1 h2; simp only [Good] at h1; subst h1; exact h2
  | stop => intro K H r h1 h2; simp only [Good] at h1; subst h1; exact h2
  | rd p k ih => intro K H r h1 h2; exact ⟨h1.1, ih _ h1.2 h2⟩
  | wr p c k ih => intro K H r h1 h2; exact ⟨h1.1, h1.2.1, ih h1.2.2 h2⟩
  | alloc c k ih => intro K H r h1 h2; exact ⟨h1.1, ih _ h1.2 h2⟩
  | rdAct o k ih => intro K H r h1 h2; exact ⟨fun hk => ih _ (h1.1 hk) h2, ih _ h1.2 h2⟩
  | wrAct o a k ih => intro K H r h1 h2; exact ⟨h1.1, ih h1.2 h2⟩

/-- The program does what the function on memory does, keeping to its turf; a result has
property `Q`. -/
def Sim {α : Type} (u : Turf) (P : Prog α) (x : HM α) (Q : α → Prop) : Prop :=
  ∀ K H, Typed u H → Good u P K H (x H) ∧ Typed u (x H).2 ∧ ∀ a, (x H).1 = .ok a → Q a

theorem Sim.bind {α β : Type} {u : Turf} {P : Prog α} {x : HM α} {Q : α → Prop} {f : α → Prog β} {g : α → HM β} {Q' : β → Prop}
    (h1 : Sim u P x Q) (h2 : ∀ a, Q a → Sim u (f a) (g a) Q') : Sim u (P >>= f) (x >>= g) Q' := by
  intro K H ht
  obtain ⟨a1, a2, a3⟩ := h1 K H ht
  have hb : (x >>= g) H = HM.bind x g H := rfl
  have hp : (P >>= f) = P.bind f := rfl
  rw [hb, hp]
  unfold HM.bind
  cases hx : x H with
  | mk fl H' =>
    rw [hx] at a1 a2 a3
    cases fl with
    | ok a =>
      simp only at a2 a3
      have := h2 a (a3 a rfl)
      refine ⟨Good.bind P a1 (fun K' => (this K' H' a2).1), (this K H' a2).2.1, (this K H' a2).2.2⟩
    | err e => exact ⟨Good.bind P a1 rfl, a2, by intro a h; cases h⟩
    | panic => exact ⟨Good.bind P a1 rfl, a2, by intro a h; cases h⟩
    | stuck => exact ⟨Good.bind P a1 rfl, a2, by intro a h; cases h⟩

theorem Good.orCrash {α : Type} {u : Turf} (P : Prog α) : ∀ {K H r}, Good u P K H r →
    Good u (orCrashP P) K H (match r with | (.err _, H') => (.panic, H') | r => r) := by
  induction P with
  | ret a => intro K H r h; simp only [Good] at h; subst h; rfl
  | fail e => intro K H r h; simp only [Good] at h; subst h; rfl
  | crash => intro K H r h; simp only [Good] at h; subst h; rfl
  | stop => intro K H r h; simp only [Good] at h; subst h; rfl
  | rd p k ih => intro K H r h; exact ⟨h.1, ih _ h.2⟩
  | wr p c k ih => intro K H r h; exact ⟨h.1, h.2.1, ih h.2.2⟩
  | alloc c k ih => intro K H r h; exact ⟨h.1, ih _ h.2⟩
  | rdAct o k ih => intro K H r h; exact ⟨fun hk => ih _ (h.1 hk), ih _ h.2⟩
  | wrAct o a k ih => intro K H r h; exact ⟨h.1, ih h.2⟩

theorem Sim.orCrash {α : Type} {u : Turf} {P : Prog α} {x : HM α} {Q : α → Prop} (h : Sim u P x Q) :
    Sim u (orCrashP P) (orCrashH x) Q := by
  intro K H ht
  obtain ⟨a1, a2, a3⟩ := h K H ht
  have := Good.orCrash P a1
  unfold orCrashH
  cases hx : x H with
  | mk fl H' =>
    rw [hx] at this a2 a3
    cases fl with
    | ok a => exact ⟨this, a2, a3⟩
    | err e => exact ⟨this, a2, by intro a h; cases h⟩
    | panic => exact ⟨this, a2, by intro a h; cases h⟩
    | stuck => exact ⟨this, a2, by intro a h; cases h⟩

theorem Sim.mono {α : Type} {u : Turf} {P : Prog α} {x : HM α} {Q Q' : α → Prop} (h : Sim u P x Q) (hq : ∀ a, Q a → Q' a) :
    Sim u P x Q' := fun K H ht => ⟨(h K H ht).1, (h K H ht).2.1, fun a ha => hq a ((h K H ht).2.2 a ha)⟩

theorem Sim.pure {α : Type} {u : Turf} {a : α} {Q : α → Prop} (h : Q a) : Sim u (Pure.pure a) (Pure.pure a) Q :=
  fun _ _ ht => ⟨rfl, ht, by intro b hb; cases hb; exact h⟩

theorem Sim.fail {α : Type} {u : Turf} {e : Err} {Q : α → Prop} : Sim u (failP e) (HM.fail e) Q :=
  fun _ _ ht => ⟨rfl, ht, by intro b hb; cases hb⟩

theorem Sim.crash {α : Type} {u : Turf} {Q : α → Prop} : Sim u (crashP : Prog α) HM.crash Q :=
  fun _ _ ht => ⟨rfl, ht, by intro b hb; cases hb⟩

theorem Sim.stop {α : Type} {u : Turf} {Q : α → Prop} : Sim u (stopP : Prog α) HM.stop Q :=
  fun _ _ ht => ⟨rfl, ht, by intro b hb; cases hb⟩

theorem Sim.rdW {u : Turf} {p : Nat} (hp : u.W p) : Sim u (rdP p) (HM.rd p) (CellIn u.W) :=
  fun _ _ ht => ⟨⟨.inl hp, rfl⟩, ht, by intro c hc; cases hc; exact ht.own p hp⟩

theorem Sim.rdT {u : Turf} {p : Nat} (hp : u.T p) : Sim u (rdP p) (HM.rd p) (CellIn u.T) :=
  fun _ _ ht => ⟨⟨hp, rfl⟩, ht, by
    intro c hc
    cases hc
    rcases hp with h | h
    · exact ⟨.inl (ht.own p h).1, fun x hx => .inl ((ht.own p h).2 x hx)⟩
    · exact ⟨.inr (ht.val p h).1, fun x hx => .inr ((ht.val p h).2 x hx)⟩⟩

theorem Sim.wr {u : Turf} (hd : ∀ a, u.vals a → ¬ u.W a) {p : Nat} {c : Cell} (hp : u.W p) (hc : CellIn u.W c) :
    Sim u (wrP p c) (HM.wr p c) (fun _ => True) := by
  intro K H ht
  refine ⟨⟨hp, hc, rfl⟩, ⟨ht.base, ?_, ?_⟩, fun _ _ => trivial⟩
  · intro a ha
    simp only [HM.wr]
    split
    · exact hc
    · exact ht.own a ha
  · intro a ha
    simp only [HM.wr]
    rw [if_neg (by rintro rfl; exact hd _ ha hp)]
    exact ht.val a ha

theorem Sim.alloc {u : Turf} (hd : ∀ a, u.vals a → ¬ u.W a) {c : Cell} (hc : ∀ x ∈ c.content, u.W x) :
    Sim u (allocP c) (HM.alloc c) u.W := by
  intro K H ht
  have hn : u.W H.next := .inr ht.base
  refine ⟨⟨hc, rfl⟩, ⟨Nat.le_succ_of_le ht.base, ?_, ?_⟩, by intro a ha; cases ha; exact hn⟩
  · intro a ha
    simp only [HM.alloc]
    split
    · exact ⟨hn, hc⟩
    · exact ht.own a ha
  · intro a ha
    simp only [HM.alloc]
    rw [if_neg (by rintro rfl; exact hd _ ha hn)]
    exact ht.val a ha

theorem Sim.map {α : Type} {u : Turf} {f : Nat → Prog α} {g : Nat → HM α} {S : Nat → Prop} {Q : α → Prop}
    (h : ∀ p, S p → Sim u (f p) (g p) Q) : ∀ ps : List Nat, (∀ p ∈ ps, S p) →
    Sim u (mapP f ps) (mapH g ps) (fun xs => ∀ x ∈ xs, Q x) := by
  intro ps
  induction ps with
  | nil => intro _; exact Sim.pure (by simp)
  | cons p ps ih =>
    intro hs
    rw [mapP, mapH]
    refine Sim.bind (h p (hs p (by simp))) ?_
    intro x hx
    refine Sim.bind (ih (fun q hq => hs q (by simp [hq]))) ?_
    intro xs hxs
    refine Sim.pure ?_
    intro y hy
    rcases List.mem_cons.1 hy with rfl | hy
    · exact hx
    · exact hxs y hy

section functions
variable {u : Turf} (hd : ∀ a, u.vals a → ¬ u.W a)
include hd

theorem copy_sim (fuel : Nat) : ∀ p, u.T p → Sim u (copyP fuel p) (copyH fuel p) u.W := by
  induction fuel with
  | zero => intro p _; exact Sim.stop
  | succ fuel ih =>
    intro p hp
    rw [copyP, copyH]
    refine Sim.bind (Sim.rdT hp) (fun c hc => ?_)
    refine Sim.bind (Sim.map ih _ hc.2) (fun kids hk => ?_)
    exact Sim.alloc hd hk

theorem sanitize_sim (E : Sed) (fuel : Nat) : ∀ p, u.W p → Sim u (sanitizeP E fuel p) (sanitizeH E fuel p) (fun _ => True) := by
  induction fuel with
  | zero => intro p _; exact Sim.stop
  | succ fuel ih =>
    intro p hp
    rw [sanitizeP, sanitizeH]
    refine Sim.bind (Sim.rdW hp) (fun c hc => ?_)
    have hlast : Sim u (rdP p >>= fun c => wrP p { c with hd := sanitizeHdr E c.hd })
        (HM.rd p >>= fun c => HM.wr p { c with hd := sanitizeHdr E c.hd }) (fun _ => True) :=
      Sim.bind (Sim.rdW hp) (fun c hc => Sim.wr hd hp hc)
    have hkids : Sim u (mapP (sanitizeP E fuel) c.content) (mapH (sanitizeH E fuel) c.content) (fun _ => True) :=
      Sim.mono (Sim.map ih _ hc.2) (fun _ _ => trivial)
    cases hk : c.hd.kind <;> simp only [hk] <;>
      first
        | exact hlast
        | exact Sim.bind hkids (fun _ _ => hlast)

theorem addNode_sim (E : Sed) (fuel : Nat) (p : Nat) (nv : List Nat) (hp : u.W p) (hn : ∀ q ∈ nv, u.T q) :
    Sim u (addNodeP E fuel p nv) (addNodeH E fuel p nv) (fun _ => True) := by
  rw [addNodeP, addNodeH]
  refine Sim.bind (Sim.map (copy_sim hd fuel) _ hn) (fun temp ht => ?_)
  refine Sim.bind (Sim.map (sanitize_sim hd E fuel) _ ht) (fun _ _ => ?_)
  refine Sim.bind (Sim.rdW hp) (fun c hc => ?_)
  refine Sim.wr hd hp ⟨hc.1, ?_⟩
  intro x hx
  rcases List.mem_append.1 hx with h | h
  · exact hc.2 x h
  · exact ht x h

theorem mergeComments_sim (E : Sed) (p q : Nat) (vals : List Str) (hp : u.W p) (hq : u.T q) :
    Sim u (mergeCommentsP E p q vals) (mergeCommentsH E p q vals) (fun _ => True) := by
  rw [mergeCommentsP, mergeCommentsH]
  refine Sim.bind (Sim.rdW hp) (fun o ho => ?_)
  refine Sim.bind (Sim.rdT hq) (fun n _ => ?_)
  refine Sim.wr hd hp ⟨?_, ho.2⟩
  rw [mergeComments_keepAddr]
  exact ho.1

theorem mergeScalar_sim (E : Sed) (p q : Nat) (vals : List Str) (hp : u.W p) (hq : u.T q) :
    Sim u (mergeScalarP E p q vals) (mergeScalarH E p q vals) (fun _ => True) := by
  rw [mergeScalarP, mergeScalarH]
  refine Sim.bind (Sim.rdW hp) (fun o ho => ?_)
  refine Sim.bind (mergeComments_sim hd E p q vals hp hq) (fun _ _ => ?_)
  refine Sim.bind (Sim.rdW hp) (fun o' ho' => ?_)
  refine Sim.bind (Sim.rdT hq) (fun n _ => ?_)
  by_cases hk : o'.hd.kind ≠ .scalar
  · rw [if_pos hk, if_pos hk]
    exact Sim.wr hd hp ⟨ho'.1, by simp⟩
  · rw [if_neg hk, if_neg hk]
    exact Sim.wr hd hp ⟨ho'.1, ho'.2⟩

theorem toMapping_sim (p : Nat) (hp : u.W p) : Sim u (toMappingP p) (toMappingH p) (fun _ => True) := by
  rw [toMappingP, toMappingH]
  refine Sim.bind (Sim.rdW hp) (fun o ho => ?_)
  by_cases hk : o.hd.kind ≠ .mapping
  · rw [if_pos hk, if_pos hk]
    exact Sim.wr hd hp ⟨ho.1, by simp⟩
  · rw [if_neg hk, if_neg hk]
    exact Sim.pure trivial

theorem toSequence_sim (p : Nat) (hp : u.W p) : Sim u (toSequenceP p) (toSequenceH p) (fun _ => True) := by
  rw [toSequenceP, toSequenceH]
  refine Sim.bind (Sim.rdW hp) (fun o ho => ?_)
  by_cases hk : o.hd.kind ≠ .sequence
  · rw [if_pos hk, if_pos hk]
    exact Sim.wr hd hp ⟨ho.1, by simp⟩
  · rw [if_neg hk, if_neg hk]
    exact Sim.pure trivial

theorem mergeArray_sim (E : Sed) (fuel : Nat) (p q : Nat) (hp : u.W p) (hq : u.T q) :
    Sim u (mergeArrayP E fuel p q) (mergeArrayH E fuel p q) (fun _ => True) := by
  rw [mergeArrayP, mergeArrayH]
  refine Sim.bind (toSequence_sim hd p hp) (fun _ _ => ?_)
  refine Sim.bind (Sim.rdT hq) (fun n hn => ?_)
  by_cases hk : (n.hd.nilc && n.content.isEmpty) = true
  · rw [if_pos hk, if_pos hk]; exact Sim.pure trivial
  · rw [if_neg hk, if_neg hk]
    refine Sim.bind (Sim.rdW hp) (fun o ho => ?_)
    refine Sim.bind (mergeComments_sim hd E p q _ hp hq) (fun _ _ => ?_)
    exact addNode_sim hd E fuel p _ hp hn.2

theorem drop_mem {l : List Nat} {n a b : Nat} {r : List Nat} (h : l.drop n = a :: b :: r) : a ∈ l ∧ b ∈ l := by
  have : ∀ x ∈ l.drop n, x ∈ l := fun x hx => List.mem_of_mem_drop hx
  rw [h] at this
  exact ⟨this a (by simp), this b (by simp)⟩

theorem merge_sim_all (E : Sed) (fuel : Nat) :
    (∀ p q vals, u.W p → u.T q → Sim u (mergeP E fuel p q vals) (mergeH E fuel p q vals) (fun _ => True)) ∧
    (∀ p q ni, u.W p → u.T q → Sim u (mergeMapP E fuel p q ni) (mergeMapH E fuel p q ni) (fun _ => True)) ∧
    (∀ p q ni oi found, u.W p → u.T q → Sim u (mergeScanP E fuel p q ni oi found) (mergeScanH E fuel p q ni oi found) (fun _ => True)) := by
  induction fuel with
  | zero => exact ⟨by intros; rw [mergeP, mergeH]; exact Sim.stop, by intros; rw [mergeMapP, mergeMapH]; exact Sim.stop, by intros; rw [mergeScanP, mergeScanH]; exact Sim.stop⟩
  | succ fuel ih =>
    obtain ⟨i1, i2, i3⟩ := ih
    refine ⟨?_, ?_, ?_⟩
    · intro p q vals hp hq
      rw [mergeP, mergeH]
      refine Sim.bind (Sim.rdT hq) (fun n hn => ?_)
      cases hk : n.hd.kind <;> simp only [hk]
      case zero => exact Sim.bind (Sim.rdW hp) (fun o ho => Sim.wr hd hp ⟨ho.1, ho.2⟩)
      case mapping => exact i2 p q 0 hp hq
      case sequence => exact mergeArray_sim hd E fuel p q hp hq
      case «alias» => exact Sim.fail
      case scalar =>
        refine Sim.bind (mergeScalar_sim hd E p q vals hp hq) (fun _ _ => ?_)
        refine Sim.bind (Sim.rdW hp) (fun o ho => ?_)
        exact Sim.bind (Sim.rdT hq) (fun n _ => Sim.wr hd hp ⟨ho.1, ho.2⟩)
      case document =>
        refine Sim.bind (Sim.rdW hp) (fun o ho => ?_)
        by_cases hc : (o.hd.nilc && o.content.isEmpty || n.hd.nilc && n.content.isEmpty) = true
        · rw [if_pos hc, if_pos hc]; exact Sim.pure trivial
        · rw [if_neg hc, if_neg hc]
          refine Sim.bind (mergeComments_sim hd E p q _ hp hq) (fun _ _ => ?_)
          refine Sim.bind (Sim.rdW hp) (fun o ho => ?_)
          refine Sim.bind (Sim.rdT hq) (fun n hn => ?_)
          cases h1 : o.content with
          | nil => exact Sim.crash
          | cons oc _ =>
            cases h2 : n.content with
            | nil => exact Sim.crash
            | cons nc _ => exact i1 oc nc _ (ho.2 oc (by simp [h1])) (hn.2 nc (by simp [h2]))
    · intro p q ni hp hq
      rw [mergeMapP, mergeMapH]
      refine Sim.bind (Sim.rdT hq) (fun n hn => ?_)
      cases h1 : n.content.drop ni with
      | nil => exact Sim.pure trivial
      | cons nk r =>
        cases r with
        | nil => exact Sim.pure trivial
        | cons nv r =>
          have hm := drop_mem hd h1
          simp only
          refine Sim.bind (toMapping_sim hd p hp) (fun _ _ => ?_)
          refine Sim.bind (i3 p q ni 0 false hp hq) (fun found _ => ?_)
          refine Sim.bind (Q := fun _ => True) ?_ (fun _ _ => i2 p q (ni + 2) hp hq)
          cases found
          · exact addNode_sim hd E fuel p _ hp (by simp [hn.2 nk hm.1, hn.2 nv hm.2])
          · exact Sim.pure trivial
    · intro p q ni oi found hp hq
      rw [mergeScanP, mergeScanH]
      refine Sim.bind (Sim.rdW hp) (fun o ho => ?_)
      cases h1 : o.content.drop oi with
      | nil => exact Sim.pure trivial
      | cons ok r =>
        cases r with
        | nil => exact Sim.pure trivial
        | cons ov r =>
          have hm := drop_mem hd h1
          have hok := ho.2 ok hm.1
          have hov := ho.2 ov hm.2
          simp only
          refine Sim.bind (Sim.rdT hq) (fun n hn => ?_)
          cases h2 : n.content.drop ni with
          | nil => exact Sim.crash
          | cons nk r2 =>
            cases r2 with
            | nil => exact Sim.crash
            | cons nv r2 =>
              have hm2 := drop_mem hd h2
              have hnk := hn.2 nk hm2.1
              have hnv := hn.2 nv hm2.2
              simp only
              refine Sim.bind (Sim.rdT hnk) (fun ck _ => ?_)
              refine Sim.bind (Sim.rdW hok) (fun cok _ => ?_)
              by_cases hc : (!checkForMarkers ck.hd.value && decide (cok.hd.value ≠ ck.hd.value)) = true
              · rw [if_pos hc, if_pos hc]; exact i3 p q ni _ found hp hq
              · rw [if_neg hc, if_neg hc]
                refine Sim.bind (Sim.rdW hov) (fun cov _ => ?_)
                refine Sim.bind (mergeComments_sim hd E ok nk _ hok hnk) (fun _ _ => ?_)
                refine Sim.bind (i1 ov nv _ hov hnv) (fun _ _ => ?_)
                by_cases hc2 : (!checkForMarkers ck.hd.value) = true
                · rw [if_pos hc2, if_pos hc2]; exact Sim.pure trivial
                · rw [if_neg hc2, if_neg hc2]
                  refine Sim.bind (mergeScalar_sim hd E ok nk _ hok hnk) (fun _ _ => ?_)
                  exact i3 p q ni _ true hp hq

theorem replace_sim (E : Sed) (fuel p q : Nat) (hp : u.W p) (hq : u.T q) :
    Sim u (replaceP E fuel p q) (replaceH E fuel p q) (fun _ => True) := by
  rw [replaceP, replaceH]
  refine Sim.bind (Sim.rdW hp) (fun ov _ => ?_)
  refine Sim.bind (Sim.rdT hq) (fun r hr => ?_)
  refine Sim.bind (Sim.map (copy_sim hd fuel) _ hr.2) (fun kids hk => ?_)
  refine Sim.bind (Sim.wr hd hp ⟨hp, hk⟩) (fun _ _ => ?_)
  exact Sim.bind (Sim.rdW hp) (fun o ho => Sim.wr hd hp ⟨ho.1, ho.2⟩)

theorem combine_sim (E : Sed) (p q : Nat) (hp : u.W p) (hq : u.T q) :
    Sim u (combineP E p q) (combineH E p q) (fun _ => True) := by
  rw [combineP, combineH]
  refine Sim.bind (Sim.rdW hp) (fun o _ => ?_)
  refine Sim.bind (Sim.rdT hq) (fun n _ => ?_)
  by_cases hc : o.hd.kind ≠ .scalar ∨ n.hd.kind ≠ .scalar
  · rw [if_pos hc, if_pos hc]; exact Sim.fail
  · rw [if_neg hc, if_neg hc]
    refine Sim.bind (mergeComments_sim hd E p q [] hp hq) (fun _ _ => ?_)
    refine Sim.bind (Sim.rdW hp) (fun o ho => ?_)
    refine Sim.bind (Sim.rdT hq) (fun n _ => ?_)
    by_cases h1 : o.hd.tag = c!"!!int"
    · rw [if_pos h1, if_pos h1]
      cases atoi o.hd.value <;> cases atoi n.hd.value <;> first | exact Sim.fail | exact Sim.wr hd hp ⟨ho.1, ho.2⟩
    · rw [if_neg h1, if_neg h1]
      by_cases h2 : o.hd.tag = c!"!!bool"
      · rw [if_pos h2, if_pos h2]
        cases parseBool o.hd.value <;> cases parseBool n.hd.value <;> first | exact Sim.fail | exact Sim.wr hd hp ⟨ho.1, ho.2⟩
      · rw [if_neg h2, if_neg h2]
        exact Sim.wr hd hp ⟨ho.1, ho.2⟩

theorem delete_sim_all (fuel : Nat) :
    (∀ p child, u.W p → Sim u (deleteP fuel p child) (deleteH fuel p child) (fun _ => True)) ∧
    (∀ p child i cs, u.W p → (∀ c ∈ cs, u.W c) → Sim u (deleteLoopP fuel p child i cs) (deleteLoopH fuel p child i cs) (fun _ => True)) := by
  induction fuel with
  | zero => exact ⟨by intros; rw [deleteP, deleteH]; exact Sim.stop, by intros; rw [deleteLoopP, deleteLoopH]; exact Sim.stop⟩
  | succ fuel ih =>
    obtain ⟨i1, i2⟩ := ih
    refine ⟨?_, ?_⟩
    · intro p child hp
      rw [deleteP, deleteH]
      exact Sim.bind (Sim.rdW hp) (fun c hc => i2 p child 0 _ hp hc.2)
    · intro p child i cs hp hcs
      cases cs with
      | nil => rw [deleteLoopP, deleteLoopH]; exact Sim.pure trivial
      | cons c cs =>
        rw [deleteLoopP, deleteLoopH]
        have hc := hcs c (by simp)
        by_cases h : c ≠ child
        · rw [if_pos h, if_pos h]
          refine Sim.bind (Sim.rdW hc) (fun x _ => ?_)
          refine Sim.bind (Q := fun _ => True) ?_ (fun _ _ => i2 p child (i + 1) cs hp (fun c' h' => hcs c' (by simp [h'])))
          by_cases hx : (x.hd.nilc && x.content.isEmpty) = true
          · rw [if_pos hx, if_pos hx]; exact Sim.pure trivial
          · rw [if_neg hx, if_neg hx]; exact i1 c child hc
        · rw [if_neg h, if_neg h]
          refine Sim.bind (Sim.rdW hp) (fun pn hpn => ?_)
          simp only
          by_cases hl : (cutRange pn.hd.kind i).2 ≤ pn.content.length
          · rw [if_pos hl, if_pos hl]
            refine Sim.wr hd hp ⟨hpn.1, fun x hx => ?_⟩
            rcases List.mem_append.1 hx with h | h
            · exact hpn.2 x (List.mem_of_mem_take h)
            · exact hpn.2 x (List.mem_of_mem_drop h)
          · rw [if_neg hl, if_neg hl]; exact Sim.crash

theorem setStyle_sim (s fuel : Nat) : ∀ p, u.W p → Sim u (setStyleP s fuel p) (setStyleH s fuel p) (fun _ => True) := by
  induction fuel with
  | zero => intro p _; exact Sim.stop
  | succ fuel ih =>
    intro p hp
    rw [setStyleP, setStyleH]
    refine Sim.bind (Sim.rdW hp) (fun n hn => ?_)
    have hw : Sim u (wrP p { n with hd := { n.hd with style := s } }) (HM.wr p { n with hd := { n.hd with style := s } }) (fun _ => True) :=
      Sim.wr hd hp ⟨hn.1, hn.2⟩
    have hkids : Sim u (mapP (setStyleP s fuel) n.content) (mapH (setStyleH s fuel) n.content) (fun _ => True) :=
      Sim.mono (Sim.map ih _ hn.2) (fun _ _ => trivial)
    cases hk : n.hd.kind <;> simp only <;>
      first
        | exact hw
        | exact Sim.bind hw (fun _ _ => Sim.bind hkids (fun _ _ => Sim.pure trivial))
        | exact Sim.pure trivial

theorem doOne_sim (E : Sed) (fuel : Nat) (action : Action) (root v p : Nat) (hr : u.W root) (hv : u.T v) (hp : u.W p) :
    Sim u (doOneP E fuel action root v p) (doOneH E fuel action root v p) (fun _ => True) := by
  unfold doOneP doOneH
  cases action with
  | delete => exact (delete_sim_all hd fuel).1 root p hr
  | replace => exact replace_sim hd E fuel p v hp hv
  | combine => exact combine_sim hd E p v hp hv
  | _ => exact (merge_sim_all hd E fuel).1 p v [] hp hv

theorem doAction_sim (E : Sed) (fuel : Nat) (action : Action) (root v : Nat) (ps : List Nat) (hr : u.W root) (hv : u.T v)
    (hp : ∀ p ∈ ps, u.W p) : Sim u (doActionP E fuel action root v ps) (doActionH E fuel action root v ps) (fun _ => True) := by
  rw [doActionP, doActionH]
  exact Sim.bind (Sim.map (fun p hp => doOne_sim hd E fuel action root v p hr hv hp) ps hp) (fun _ _ => Sim.pure trivial)

theorem read_sim (fuel : Nat) : ∀ p, u.W p → Sim u (readP fuel p) (readH fuel p) (fun t => ∀ a ∈ t.addrs, u.W a) := by
  induction fuel with
  | zero => intro p _; exact Sim.stop
  | succ fuel ih =>
    intro p hp
    rw [readP, readH]
    refine Sim.bind (Sim.rdW hp) (fun c hc => ?_)
    refine Sim.bind (Sim.map ih _ hc.2) (fun kids hk => ?_)
    refine Sim.pure ?_
    intro a ha
    rw [Node.addrs, List.mem_cons] at ha
    rcases ha with rfl | ha
    · exact hc.1
    · obtain ⟨t, ht, hat⟩ := List.mem_flatMap.1 (addrss_eq_flatMap kids ▸ ha)
      exact hk t ht a hat

omit hd in
theorem stores_sim : ∀ cs : List Node, (∀ c ∈ cs, Sim u (storeP c) (storeH c) u.W) →
    Sim u (storesP cs) (storesH cs) (fun ps => ∀ p ∈ ps, u.W p) := by
  intro cs
  induction cs with
  | nil => intro _; rw [storesP, storesH]; exact Sim.pure (by simp)
  | cons c cs ihc =>
    intro h
    rw [storesP, storesH]
    refine Sim.bind (h c (by simp)) (fun p hp => ?_)
    refine Sim.bind (ihc (fun c' hc' => h c' (by simp [hc']))) (fun ps hps => ?_)
    refine Sim.pure ?_
    intro q hq
    rcases List.mem_cons.1 hq with rfl | hq
    · exact hp
    · exact hps q hq

theorem store_sim (t : Node) : Sim u (storeP t) (storeH t) u.W := by
  induction t using Node.ind with
  | h hd' cs ih =>
    rw [storeP, storeH]
    exact Sim.bind (stores_sim cs ih) (fun kids hk => Sim.alloc hd hk)

theorem buildPaths_sim (E : Sed) (fuel : Nat) (bps : List Node) : Sim u (buildPathsP E fuel bps) (buildPathsH E fuel bps) u.W := by
  rw [buildPathsP, buildPathsH]
  refine Sim.bind (stores_sim bps (fun c _ => store_sim hd c)) (fun ps hps => ?_)
  cases ps with
  | nil => exact Sim.crash
  | cons p qs =>
    refine Sim.bind (Sim.map (S := u.W) (Q := fun _ => True) (fun q hq => ?_) qs (fun q hq => hps q (by simp [hq]))) (fun _ _ => ?_)
    · exact (merge_sim_all hd E fuel).1 p q [] (hps p (by simp)) (.inl hq)
    · exact Sim.pure (hps p (by simp))

omit hd in
theorem findAll_in {qs : List Query} (hq : ∀ q ∈ qs, InTree q) {t : Node} (ht : ∀ a ∈ t.addrs, u.W a) :
    ∀ p ∈ (findAll qs t).map (fun m => m.hd.addr), u.W p := by
  intro p hp
  obtain ⟨m, hm, rfl⟩ := List.mem_map.1 hp
  exact ht _ (findAll_mem hq t m hm)

theorem doInjectPath_sim (E : Sed) (fuel v : Nat) (ip : List Query) (root : Nat) (hq : ∀ q ∈ ip, InTree q) (hv : u.T v)
    (hr : u.W root) : Sim u (doInjectPathP E fuel v ip root) (doInjectPathH E fuel v ip root) (fun _ => True) := by
  rw [doInjectPathP, doInjectPathH]
  cases newPaths (ip.map Query.str) with
  | err e => exact Sim.fail
  | panic => exact Sim.crash
  | ok bps =>
    simp only
    · refine Sim.bind (Sim.orCrash (buildPaths_sim hd E fuel bps)) (fun q hqw => ?_)
      refine Sim.bind ((merge_sim_all hd E fuel).1 root q [] hr (.inl hqw)) (fun _ _ => ?_)
      refine Sim.bind (read_sim hd fuel root hr) (fun t ht => ?_)
      exact doAction_sim hd E fuel .replace root v _ hr hv (findAll_in hq ht)

theorem handleInjectPath_sim (E : Sed) (fuel : Nat) (o : Overlay) (v root : Nat) (hq : ∀ q ∈ o.queries, InTree q) (hv : u.T v)
    (hr : u.W root) : Sim u (handleInjectPathP E fuel o v root) (handleInjectPathH E fuel o v root) (fun _ => True) := by
  have hqq : ∀ q ∈ o.query, InTree q := fun q h => hq q (by simp [Overlay.queries, h])
  have hqi : ∀ ip, o.onMissing.injectPath = some ip → ∀ q ∈ ip, InTree q :=
    fun ip hi q h => hq q (by simp [Overlay.queries, hi, h])
  unfold handleInjectPathP handleInjectPathH
  cases newPaths (o.query.map Query.str) with
  | ok _ => exact doInjectPath_sim hd E fuel v o.query root hqq hv hr
  | panic => exact Sim.crash
  | err e =>
    cases e with
    | invalidPathSyntax =>
      simp only
      cases hi : o.onMissing.injectPath with
      | none => exact Sim.pure trivial
      | some ip => exact doInjectPath_sim hd E fuel v ip root (hqi ip hi) hv hr
    | _ => exact Sim.fail

theorem onMissing_sim (E : Sed) (dflt : Str) (fuel ptr : Nat) (o : Overlay) (v root : Nat) (hq : ∀ q ∈ o.queries, InTree q) (hv : u.T v)
    (hr : u.W root) (ho : u.orig ptr = o.onMissing.action) (hres : u.res ptr = (o.onMissing.resolve dflt).action) :
    Sim u (onMissingP E dflt fuel ptr o v root) (onMissingH E dflt fuel o v root) (fun _ => True) := by
  intro K H ht
  have hsim : Sim u (match u.res ptr with | .inject => handleInjectPathP E fuel o v root | _ => pure ())
      (onMissingH E dflt fuel o v root) (fun _ => True) := by
    rw [onMissingH, ← hres]
    cases u.res ptr with
    | inject => exact handleInjectPath_sim hd E fuel o v root hq hv hr
    | _ => exact Sim.pure trivial
  refine ⟨?_, (hsim K H ht).2.1, (hsim K H ht).2.2⟩
  have hnd : ¬ (u.res ptr = .default ∧ isInjectWord dflt) := by
    rw [hres, OnMissing.resolve]
    split <;> simp_all
  have hP : onMissingP E dflt fuel ptr o v root = .rdAct ptr (fun a =>
      (if a = .default ∧ isInjectWord dflt then wrActP ptr .inject else pure () : Prog Unit).bind (fun _ =>
        .rdAct ptr (fun a => match a with | .inject => handleInjectPathP E fuel o v root | _ => pure ()))) := rfl
  rw [hP]
  refine ⟨fun _ => ?_, ?_⟩
  · by_cases hc : u.orig ptr = .default ∧ isInjectWord dflt
    · beta_reduce
      rw [if_pos hc]
      refine ⟨?_, fun hk => (hk (.inr rfl)).elim, (hsim _ H ht).1⟩
      rw [hres, OnMissing.resolve, ← ho, if_pos hc]
    · beta_reduce
      rw [if_neg hc]
      have heq : u.orig ptr = u.res ptr := by rw [hres, OnMissing.resolve, ← ho, if_neg hc, ho]
      exact ⟨fun _ => heq ▸ (hsim _ H ht).1, (hsim _ H ht).1⟩
  · beta_reduce
    rw [if_neg hnd]
    exact ⟨fun hk => (hk (.inr rfl)).elim, (hsim _ H ht).1⟩

theorem apply_sim (E : Sed) (dflt : Str) (fuel ptr : Nat) (o : Overlay) (v root : Nat) (hq : ∀ q ∈ o.queries, InTree q) (hv : u.T v)
    (hr : u.W root) (ho : u.orig ptr = o.onMissing.action) (hres : u.res ptr = (o.onMissing.resolve dflt).action) :
    Sim u (applyP E dflt fuel ptr o v root) (applyH E dflt fuel o v root) (fun _ => True) := by
  have hqq : ∀ q ∈ o.query, InTree q := fun q h => hq q (by simp [Overlay.queries, h])
  rw [applyP, applyH]
  refine Sim.bind (read_sim hd fuel root hr) (fun t ht => ?_)
  by_cases hc : (!checkQueries o.documentQuery t) = true
  · rw [if_pos hc, if_pos hc]; exact Sim.pure trivial
  · rw [if_neg hc, if_neg hc]
    simp only
    by_cases he : (findAll o.query t).isEmpty = true
    · rw [if_pos he, if_pos he]
      exact onMissing_sim hd E dflt fuel ptr o v root hq hv hr ho hres
    · rw [if_neg he, if_neg he]
      exact doAction_sim hd E fuel o.action root v _ hr hv (findAll_in hqq ht)

omit hd in
/-- The workload without the pointer to the overlay. -/
def JobP.plain (j : JobP) : JobH := ⟨j.index, j.overlay, j.value⟩

theorem handleJobs_sim (E : Sed) (dflt : Str) (fuel : Nat) (roots : List Nat) (hr : ∀ p ∈ roots, u.W p) (js : List JobP)
    (hj : ∀ j ∈ js, (∀ q ∈ j.overlay.queries, InTree q) ∧ u.T j.value ∧ u.orig j.ptr = j.overlay.onMissing.action ∧
      u.res j.ptr = (j.overlay.onMissing.resolve dflt).action) :
    Sim u (handleJobsP E dflt fuel roots js) (handleJobsH E dflt fuel roots (js.map JobP.plain)) (fun _ => True) := by
  induction js with
  | nil => exact Sim.pure trivial
  | cons j js ih =>
    rw [handleJobsP, List.map_cons, handleJobsH]
    refine Sim.bind (Q := fun _ => True) ?_ (fun _ _ => ih (fun j' h' => hj j' (by simp [h'])))
    obtain ⟨h1, h2, h3, h4⟩ := hj j (by simp)
    rw [handleJobH]
    show Sim u _ (match roots[j.index]? with
      | none => pure ()
      | some p => applyH E dflt fuel j.overlay j.value p) _
    cases hi : roots[j.index]? with
    | none => exact Sim.pure trivial
    | some p => exact apply_sim hd E dflt fuel j.ptr j.overlay j.value p h1 h2 (hr p (List.mem_of_getElem? hi)) h3 h4

theorem encodeOne_sim (style fuel p : Nat) (hp : u.W p) : Sim u (encodeOneP style fuel p) (encodeOneH style fuel p) (fun _ => True) := by
  rw [encodeOneP, encodeOneH]
  refine Sim.bind (Sim.rdW hp) (fun c _ => ?_)
  by_cases hc : c.content.isEmpty = true
  · rw [if_pos hc, if_pos hc]; exact Sim.pure trivial
  · rw [if_neg hc, if_neg hc]
    refine Sim.bind (setStyle_sim hd style fuel p hp) (fun _ _ => ?_)
    exact Sim.bind (read_sim hd fuel p hp) (fun _ _ => Sim.pure trivial)

theorem file_sim (E : Sed) (dflt : Str) (style fuel : Nat) (roots : List Nat) (hr : ∀ p ∈ roots, u.W p) (js : List JobP)
    (hj : ∀ j ∈ js, (∀ q ∈ j.overlay.queries, InTree q) ∧ u.T j.value ∧ u.orig j.ptr = j.overlay.onMissing.action ∧
      u.res j.ptr = (j.overlay.onMissing.resolve dflt).action) :
    Sim u (fileP E dflt style fuel roots js) (fileH E dflt style fuel roots (js.map JobP.plain)) (fun _ => True) := by
  rw [fileP, fileH]
  refine Sim.bind (handleJobs_sim hd E dflt fuel roots hr js hj) (fun _ _ => ?_)
  exact Sim.mono (Sim.map (encodeOne_sim hd style fuel) roots hr) (fun _ _ => trivial)

end functions

/-! ### Interleavings -/

theorem fromPtr_toPtr (base t a : Nat) : fromPtr t (toPtr base t a) = some a := by
  unfold toPtr
  split <;> simp [fromPtr]

theorem fromShared_toShared (base t : Nat) (c : Cell) : fromShared t (toShared base t c) = some c := by
  have : (c.content.map (toPtr base t)).mapM (fromPtr t) = some c.content := by
    induction c.content with
    | nil => rfl
    | cons x xs ih => simp [List.mapM_cons, fromPtr_toPtr, ih]
  simp only [fromShared, toShared, fromPtr_toPtr, this]

theorem toPtr_inj {base s t a b : Nat} (h : toPtr base s a = toPtr base t b) : a = b ∧ (base ≤ a → s = t) := by
  unfold toPtr at h
  split at h <;> split at h <;> simp at h
  · exact ⟨h, fun _ => by omega⟩
  · exact ⟨h.2, fun _ => h.1⟩

theorem toShared_old {base s t : Nat} {S : Nat → Prop} (hS : ∀ a, S a → a < base) {c : Cell} (hc : CellIn S c) :
    toShared base s c = toShared base t c := by
  have h1 : ∀ a, S a → toPtr base s a = toPtr base t a := fun a ha => by simp [toPtr, hS a ha]
  unfold toShared
  rw [h1 _ hc.1, List.map_congr_left (fun x hx => h1 x (hc.2 x hx))]

/-- The goroutines' parts of memory. -/
structure Parts where
  base : Nat
  mine : Nat → Nat → Prop
  vals : Nat → Prop
  orig : Nat → OnMissingAction
  res : Nat → OnMissingAction
  own : ∀ t a, mine t a → a < base
  val : ∀ a, vals a → a < base
  apart : ∀ s t a, s ≠ t → mine s a → ¬ mine t a
  off : ∀ t a, vals a → ¬ mine t a

/-- The part of goroutine `t`. -/
def Parts.turf (P : Parts) (t : Nat) : Turf := ⟨P.base, P.mine t, P.vals, P.orig, P.res⟩

theorem Parts.hd (P : Parts) (t a : Nat) (h : (P.turf t).vals a) : ¬ (P.turf t).W a := by
  rintro (h' | h')
  · exact P.off t a h h'
  · exact absurd (P.val a h) (Nat.not_lt.2 h')

theorem Parts.clash (P : Parts) {s t a b : Nat} (hst : s ≠ t) (ha : (P.turf s).W a) (hb : (P.turf t).T b)
    (h : toPtr P.base s a = toPtr P.base t b) : False := by
  obtain ⟨rfl, h2⟩ := toPtr_inj h
  rcases ha with ha | ha
  · rcases hb with (hb | hb) | hb
    · exact P.apart s t a hst ha hb
    · exact absurd (P.own s a ha) (Nat.not_lt.2 hb)
    · exact P.off s a hb ha
  · exact hst (h2 ha)

/-- What holds in every state of an interleaving. -/
structure Together {α : Type} (P : Parts) (h : Heap) (r : Nat → Flow α × Heap) (st : World α) (H : Nat → Heap) (K : Nat → Nat → Prop) : Prop where
  good : ∀ t, Good (P.turf t) (st.prog t) (K t) (H t) (r t)
  typed : ∀ t, Typed (P.turf t) (H t)
  next : ∀ t, st.next t = (H t).next
  sees : ∀ t a, (P.turf t).W a → st.node (toPtr P.base t a) = toShared P.base t ((H t).get a)
  val : ∀ t a, P.vals a → (H t).get a = h.get a
  same : ∀ a, P.vals a → st.node (.old a) = toShared P.base 0 (h.get a)
  act : ∀ o, st.act o = P.orig o ∨ st.act o = P.res o
  known : ∀ t o, K t o → st.act o = P.res o
  mixed : st.mixed = false

theorem Together.reads {α : Type} {P : Parts} {h : Heap} {r : Nat → Flow α × Heap} {st : World α} {H : Nat → Heap} {K : Nat → Nat → Prop}
    (i : Together P h r st H K) {t p : Nat} (hp : (P.turf t).T p) :
    fromShared t (st.node (toPtr P.base t p)) = some ((H t).get p) := by
  rcases hp with hp | hp
  · rw [i.sees t p hp, fromShared_toShared]
  · have hlt := P.val p hp
    have : toPtr P.base t p = .old p := by simp [toPtr, hlt]
    rw [this, i.same p hp, toShared_old (t := t) P.val ((i.val t p hp) ▸ (i.typed t).val p hp), fromShared_toShared, i.val t p hp]

theorem upd_same {α : Type} (f : Nat → α) (t : Nat) (a : α) : upd f t a t = a := by simp [upd]
theorem upd_other {α : Type} (f : Nat → α) {s t : Nat} (a : α) (h : s ≠ t) : upd f t a s = f s := by simp [upd, h]

theorem Together.step {α : Type} {P : Parts} {h : Heap} {r : Nat → Flow α × Heap} {st st' : World α} {H : Nat → Heap} {K : Nat → Nat → Prop}
    (i : Together P h r st H K) {t : Nat} (a : Access P.base t st st') : ∃ H' K', Together P h r st' H' K' := by
  have g := i.good t
  cases a with
  | rd hp hc =>
    rename_i p k c
    rw [hp] at g
    have hc' := i.reads g.1
    rw [hc] at hc'
    injection hc' with hc'
    subst hc'
    refine ⟨H, K, ?_, i.typed, i.next, i.sees, i.val, i.same, i.act, i.known, i.mixed⟩
    intro s
    by_cases hs : s = t
    · subst hs; show Good _ (upd st.prog s _ s) _ _ _; rw [upd_same]; exact g.2
    · show Good _ (upd st.prog t _ s) _ _ _; rw [upd_other _ _ hs]; exact i.good s
  | mixed hp hc =>
    rw [hp] at g
    rw [i.reads g.1] at hc
    cases hc
  | wr hp =>
    rename_i p c k
    rw [hp] at g
    obtain ⟨g1, g2, g3⟩ := g
    have w := Sim.wr (P.hd t) g1 g2 (K t) (H t) (i.typed t)
    refine ⟨upd H t (HM.wr p c (H t)).2, K, ?_, ?_, ?_, ?_, ?_, ?_, i.act, i.known, i.mixed⟩
    · intro s
      by_cases hs : s = t
      · subst hs; show Good _ (upd st.prog s _ s) _ _ _; rw [upd_same, upd_same]; exact g3
      · show Good _ (upd st.prog t _ s) _ _ _; rw [upd_other _ _ hs, upd_other _ _ hs]; exact i.good s
    · intro s
      by_cases hs : s = t
      · subst hs; rw [upd_same]; exact w.2.1
      · rw [upd_other _ _ hs]; exact i.typed s
    · intro s
      by_cases hs : s = t
      · subst hs; rw [upd_same]; exact i.next s
      · rw [upd_other _ _ hs]; exact i.next s
    · intro s a ha
      show (if _ = _ then _ else _) = _
      by_cases hs : s = t
      · subst hs
        rw [upd_same]
        by_cases hap : a = p
        · subst hap
          simp [HM.wr]
        · rw [if_neg (fun e => hap (toPtr_inj e).1), i.sees s a ha]
          simp [HM.wr, hap]
      · rw [upd_other _ _ hs, if_neg (fun e => P.clash (Ne.symm hs) g1 (.inl ha) e.symm)]
        exact i.sees s a ha
    · intro s a ha
      by_cases hs : s = t
      · subst hs
        rw [upd_same]
        have : a ≠ p := by rintro rfl; exact P.hd s a ha g1
        simp only [HM.wr, if_neg this]
        exact i.val s a ha
      · rw [upd_other _ _ hs]; exact i.val s a ha
    · intro a ha
      show (if _ = _ then _ else _) = _
      rw [if_neg, i.same a ha]
      intro e
      have : Ptr.old a = toPtr P.base t a := by simp [toPtr, P.val a ha]
      rw [this] at e
      obtain ⟨rfl, _⟩ := toPtr_inj e
      exact P.hd t a ha g1
  | alloc hp =>
    rename_i c k
    rw [hp] at g
    obtain ⟨g1, g2⟩ := g
    have w := Sim.alloc (P.hd t) g1 (K t) (H t) (i.typed t)
    have hb : P.base ≤ (H t).next := (i.typed t).base
    have hn := i.next t
    have hptr : Ptr.new t (H t).next = toPtr P.base t (H t).next := by simp [toPtr, Nat.not_lt.2 hb]
    have hW : (P.turf t).W (H t).next := .inr hb
    rw [hn]
    refine ⟨upd H t (HM.alloc c (H t)).2, K, ?_, ?_, ?_, ?_, ?_, ?_, i.act, i.known, i.mixed⟩
    · intro s
      by_cases hs : s = t
      · subst hs; show Good _ (upd st.prog s _ s) _ _ _; rw [upd_same, upd_same]; exact g2
      · show Good _ (upd st.prog t _ s) _ _ _; rw [upd_other _ _ hs, upd_other _ _ hs]; exact i.good s
    · intro s
      by_cases hs : s = t
      · subst hs; rw [upd_same]; exact w.2.1
      · rw [upd_other _ _ hs]; exact i.typed s
    · intro s
      show upd st.next t _ s = _
      by_cases hs : s = t
      · subst hs; rw [upd_same, upd_same]; rfl
      · rw [upd_other _ _ hs, upd_other _ _ hs]; exact i.next s
    · intro s a ha
      show (if _ = _ then _ else _) = _
      rw [hptr]
      by_cases hs : s = t
      · subst hs
        rw [upd_same]
        by_cases hap : a = (H s).next
        · subst hap
          simp [HM.alloc]
        · rw [if_neg (fun e => hap (toPtr_inj e).1), i.sees s a ha]
          simp [HM.alloc, hap]
      · rw [upd_other _ _ hs, if_neg (fun e => P.clash (Ne.symm hs) hW (.inl ha) e.symm)]
        exact i.sees s a ha
    · intro s a ha
      by_cases hs : s = t
      · subst hs
        rw [upd_same]
        have : a ≠ (H s).next := by rintro rfl; exact P.hd s _ ha hW
        simp only [HM.alloc, if_neg this]
        exact i.val s a ha
      · rw [upd_other _ _ hs]; exact i.val s a ha
    · intro a ha
      show (if Ptr.old a = Ptr.new t (H t).next then
        toShared P.base t { c with hd := { c.hd with addr := (H t).next } } else st.node (.old a)) = _
      rw [if_neg (by simp), i.same a ha]
  | rdAct hp =>
    rename_i o k
    rw [hp] at g
    obtain ⟨g1, g2⟩ := g
    by_cases hk : st.act o = P.res o
    · refine ⟨H, upd K t (fun x => K t x ∨ x = o), ?_, i.typed, i.next, i.sees, i.val, i.same, i.act, ?_, i.mixed⟩
      · intro s
        by_cases hs : s = t
        · subst hs; show Good _ (upd st.prog s _ s) _ _ _; rw [upd_same, upd_same, hk]; exact g2
        · show Good _ (upd st.prog t _ s) _ _ _; rw [upd_other _ _ hs, upd_other _ _ hs]; exact i.good s
      · intro s x hx
        by_cases hs : s = t
        · subst hs
          rw [upd_same] at hx
          rcases hx with hx | rfl
          · exact i.known s x hx
          · exact hk
        · rw [upd_other _ _ hs] at hx; exact i.known s x hx
    · have ho : st.act o = P.orig o := (i.act o).resolve_right hk
      refine ⟨H, K, ?_, i.typed, i.next, i.sees, i.val, i.same, i.act, i.known, i.mixed⟩
      intro s
      by_cases hs : s = t
      · subst hs; show Good _ (upd st.prog s _ s) _ _ _; rw [upd_same, ho]; exact g1 (fun h => hk (i.known s o h))
      · show Good _ (upd st.prog t _ s) _ _ _; rw [upd_other _ _ hs]; exact i.good s
  | wrAct hp =>
    rename_i o a k
    rw [hp] at g
    obtain ⟨g1, g2⟩ := g
    have g1 : a = P.res o := g1
    have hact : ∀ x, upd st.act o a x = P.res x ∨ upd st.act o a x = st.act x := by
      intro x
      by_cases hx : x = o
      · subst hx; rw [upd_same]; exact .inl g1
      · rw [upd_other _ _ hx]; exact .inr rfl
    refine ⟨H, upd K t (fun x => K t x ∨ x = o), ?_, i.typed, i.next, i.sees, i.val, i.same, ?_, ?_, i.mixed⟩
    · intro s
      by_cases hs : s = t
      · subst hs; show Good _ (upd st.prog s _ s) _ _ _; rw [upd_same, upd_same]; exact g2
      · show Good _ (upd st.prog t _ s) _ _ _; rw [upd_other _ _ hs, upd_other _ _ hs]; exact i.good s
    · intro x
      show upd st.act o a x = _ ∨ upd st.act o a x = _
      rcases hact x with h | h
      · exact .inr h
      · rw [h]; exact i.act x
    · intro s x hx
      show upd st.act o a x = _
      by_cases hxo : x = o
      · subst hxo; rw [upd_same]; exact g1
      · rw [upd_other _ _ hxo]
        by_cases hs : s = t
        · subst hs
          rw [upd_same] at hx
          exact i.known s x (hx.resolve_right hxo)
        · rw [upd_other _ _ hs] at hx; exact i.known s x hx

/-- The memory with nothing at the addresses not allocated yet. -/
def Heap.blank (h : Heap) : Heap := ⟨fun a => if a < h.next then h.get a else ⟨{ addr := a }, []⟩, h.next⟩

theorem blank_get {h : Heap} {a : Nat} (ha : a < h.next) : h.blank.get a = h.get a := by simp [Heap.blank, ha]

theorem Parts.typed (P : Parts) (h : Heap) (hb : P.base = h.next) (hm : ∀ t a, P.mine t a → CellIn (P.mine t) (h.get a))
    (hv : ∀ a, P.vals a → CellIn P.vals (h.get a)) (t : Nat) : Typed (P.turf t) h.blank := by
  refine ⟨Nat.le_of_eq hb, ?_, ?_⟩
  · intro a ha
    by_cases hl : a < P.base
    · have h1 : P.mine t a := ha.resolve_right (Nat.not_le.2 hl)
      rw [blank_get (hb ▸ hl)]
      exact ⟨.inl (hm t a h1).1, fun x hx => .inl ((hm t a h1).2 x hx)⟩
    · have : h.blank.get a = ⟨{ addr := a }, []⟩ := by simp [Heap.blank, ← hb, hl]
      rw [this]
      exact ⟨.inr (Nat.not_lt.1 hl), by simp⟩
  · intro a ha
    rw [blank_get (hb ▸ P.val a ha)]
    exact hv a ha

theorem Together.start {α : Type} (P : Parts) (h : Heap) (hb : P.base = h.next) (prog : Nat → Prog α) (r : Nat → Flow α × Heap)
    (hm : ∀ t a, P.mine t a → CellIn (P.mine t) (h.get a)) (hv : ∀ a, P.vals a → CellIn P.vals (h.get a))
    (good : ∀ t, Good (P.turf t) (prog t) (fun _ => False) h.blank (r t)) :
    Together P h r (World.init h P.orig prog) (fun _ => h.blank) (fun _ _ => False) := by
  refine ⟨good, P.typed h hb hm hv, fun _ => rfl, ?_, ?_, ?_, fun _ => .inl rfl, fun _ _ h => h.elim, rfl⟩
  · intro t a ha
    by_cases hl : a < P.base
    · have : toPtr P.base t a = .old a := by simp [toPtr, hl]
      rw [this, blank_get (hb ▸ hl)]
      show toShared h.next 0 (h.get a) = _
      rw [← hb]
      exact toShared_old (P.own t) (hm t a (ha.resolve_right (Nat.not_le.2 hl)))
    · have : toPtr P.base t a = .new t a := by simp [toPtr, hl]
      rw [this]
      have : h.blank.get a = ⟨{ addr := a }, []⟩ := by simp [Heap.blank, ← hb, hl]
      rw [this]
      show (⟨{}, .new t a, []⟩ : GCell) = _
      simp [toShared, toPtr, hl]
  · intro t a ha
    exact blank_get (hb ▸ P.val a ha)
  · intro a ha
    rw [hb]; rfl

theorem Together.all {α : Type} {P : Parts} {h : Heap} {r : Nat → Flow α × Heap} {s0 st : World α}
    (h0 : ∃ H K, Together P h r s0 H K) (hi : Interleaved P.base s0 st) : ∃ H K, Together P h r st H K := by
  induction hi with
  | start => exact h0
  | step _ a ih => obtain ⟨H, K, i⟩ := ih; exact i.step a

end Yot
