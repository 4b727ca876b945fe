import Verif.Spec.Graph
import Mathlib.Data.Fintype.Card
import Mathlib.Data.Fintype.EquivFin
namespace Yot
open Spec GM

theorem GM.bind_def {α β : Type} (x : GM α) (f : α → GM β) (m : GMem) :
    (x >>= f) m = match x m with | none => none | some (a, m') => f a m' := rfl

theorem GM.bind_some {α β : Type} {x : GM α} {f : α → GM β} {m : GMem} {r : β × GMem} :
    (x >>= f) m = some r ↔ ∃ a m', x m = some (a, m') ∧ f a m' = some r := by
  rw [GM.bind_def]
  cases x m with
  | none => simp
  | some y => obtain ⟨a, m'⟩ := y; simp

/-- The memory has grown; what was there is as before. -/
structure Grown (m m' : GMem) : Prop where
  next : m.next ≤ m'.next
  old : ∀ a, a < m.next → m'.get a = m.get a

theorem Grown.refl (m : GMem) : Grown m m := ⟨Nat.le_refl _, fun _ _ => rfl⟩
theorem Grown.trans {a b c : GMem} (h : Grown a b) (k : Grown b c) : Grown a c :=
  ⟨Nat.le_trans h.next k.next, fun x hx => by rw [k.old x (Nat.lt_of_lt_of_le hx h.next), h.old x hx]⟩

theorem Grown.refers {m m' : GMem} (g : Grown m m') {p : Nat} (hp : p < m.next) (q : Nat) : Refers m' p q ↔ Refers m p q := by
  unfold Refers
  rw [g.old p hp]

theorem Grown.look {m m' : GMem} (g : Grown m m') (s : NoDangling m) (w : Hdr → Hdr) (d : Nat) : ∀ p, p < m.next → lookBy w m' d p = lookBy w m d p := by
  induction d with
  | zero => intro p _; rfl
  | succ d ih =>
    intro p hp
    have hs := s p hp
    rw [lookBy, lookBy, g.old p hp]
    congr 1
    · refine List.map_congr_left fun q hq => ih q (hs q (.inr ?_))
      simpa using hq
    · exact List.map_congr_left fun q hq => ih q (hs q (.inl hq))

/-- What copying a list of pointers does. -/
structure CopiedG (m m' : GMem) (ps ps' : List Nat) : Prop where
  grown : Grown m m'
  sound : NoDangling m'
  new : ∀ p ∈ ps', m.next ≤ p ∧ p < m'.next
  closed : ∀ a, m.next ≤ a → a < m'.next → ∀ q, Refers m' a q → m.next ≤ q
  down : ∀ a, m.next ≤ a → a < m'.next → ∀ q, Refers m' a q → q < a
  same : ∀ w d, ps'.map (lookBy w m' d) = ps.map (lookBy w m d)

theorem mapG_copy {f : Nat → GM Nat}
    (hf : ∀ m p p' m', NoDangling m → p < m.next → f p m = some (p', m') → CopiedG m m' [p] [p']) :
    ∀ ps m ps' m', NoDangling m → (∀ p ∈ ps, p < m.next) → mapG f ps m = some (ps', m') → CopiedG m m' ps ps' := by
  intro ps
  induction ps with
  | nil =>
    intro m ps' m' s _ h
    cases h
    exact ⟨Grown.refl _, s, by simp, fun a h1 h2 => by omega, fun a h1 h2 => by omega, fun _ _ => rfl⟩
  | cons p ps ih =>
    intro m ps' m' s hp h
    rw [mapG, GM.bind_some] at h
    obtain ⟨x, m1, h1, h⟩ := h
    rw [GM.bind_some] at h
    obtain ⟨xs, m2, h2, h⟩ := h
    cases h
    have c1 := hf m p x m1 s (hp p (by simp)) h1
    have c2 := ih m1 xs m' c1.sound (fun q hq => Nat.lt_of_lt_of_le (hp q (by simp [hq])) c1.grown.next) h2
    have n1 := c1.new x (by simp)
    refine ⟨c1.grown.trans c2.grown, c2.sound, ?_, ?_, ?_, ?_⟩
    · intro q hq
      rcases List.mem_cons.1 hq with rfl | hq
      · exact ⟨n1.1, Nat.lt_of_lt_of_le n1.2 c2.grown.next⟩
      · have := c2.new q hq
        exact ⟨Nat.le_trans c1.grown.next this.1, this.2⟩
    · intro a ha ha' q hq
      by_cases hx : a < m1.next
      · exact c1.closed a ha hx q ((c2.grown.refers hx q).1 hq)
      · exact Nat.le_trans c1.grown.next (c2.closed a (by omega) ha' q hq)
    · intro a ha ha' q hq
      by_cases hx : a < m1.next
      · exact c1.down a ha hx q ((c2.grown.refers hx q).1 hq)
      · exact c2.down a (by omega) ha' q hq
    · intro w d
      have e1 := c1.same w d
      simp only [List.map_cons, List.map_nil, List.cons.injEq, and_true] at e1 ⊢
      refine ⟨?_, ?_⟩
      · rw [c2.grown.look c1.sound w d x n1.2, e1]
      · rw [c2.same w d]
        exact List.map_congr_left fun q hq => c1.grown.look s w d q (hp q (by simp [hq]))

theorem mapG_opt_length {f : Nat → GM Nat} {o : Option Nat} {m m' : GMem} {xs : List Nat}
    (h : mapG f o.toList m = some (xs, m')) : xs.head?.toList = xs := by
  cases o with
  | none => cases h; rfl
  | some p =>
    simp only [Option.toList_some] at h
    rw [mapG, GM.bind_some] at h
    obtain ⟨x, m1, _, h⟩ := h
    rw [GM.bind_some] at h
    obtain ⟨ys, m2, h2, h⟩ := h
    cases h2
    cases h
    rfl

theorem copyG_copied (fuel : Nat) : ∀ m p p' m', NoDangling m → p < m.next → copyG fuel p m = some (p', m') → CopiedG m m' [p] [p'] := by
  induction fuel with
  | zero => intro m p p' m' _ _ h; cases h
  | succ fuel ih =>
    intro m p p' m' s hp h
    rw [copyG, GM.bind_some] at h
    obtain ⟨c, m0, h0, h⟩ := h
    cases h0
    rw [GM.bind_some] at h
    obtain ⟨al, m1, h1, h⟩ := h
    rw [GM.bind_some] at h
    obtain ⟨ks, m2, h2, h⟩ := h
    cases h
    have hal : ∀ q ∈ (m.get p).alias.toList, q < m.next := fun q hq => s p hp q (.inr (by simpa using hq))
    have hct : ∀ q ∈ (m.get p).content, q < m.next := fun q hq => s p hp q (.inl hq)
    have c1 := mapG_copy ih _ m al m1 s hal h1
    have c2 := mapG_copy ih _ m1 ks m2 c1.sound (fun q hq => Nat.lt_of_lt_of_le (hct q hq) c1.grown.next) h2
    have hlen := mapG_opt_length h1
    let m3 : GMem := { get := fun a => if a = m2.next then ⟨{ (m.get p).hd with addr := m2.next }, al.head?, ks⟩ else m2.get a, next := m2.next + 1 }
    show CopiedG m m3 [p] [m2.next]
    have g3 : Grown m2 m3 := ⟨Nat.le_succ _, fun a ha => by simp only [m3]; rw [if_neg (by omega)]⟩
    have gn : m3.get m2.next = ⟨{ (m.get p).hd with addr := m2.next }, al.head?, ks⟩ := by simp [m3]
    have g12 := c1.grown.trans c2.grown
    have r3 : ∀ q, Refers m3 m2.next q → m.next ≤ q ∧ q < m2.next := by
      intro q hq
      rcases hq with hq | hq
      · rw [gn] at hq
        have := c2.new q hq
        exact ⟨Nat.le_trans c1.grown.next this.1, this.2⟩
      · rw [gn] at hq
        have hq' : al.head? = some q := hq
        have := c1.new q (by rw [← hlen, hq']; simp)
        exact ⟨this.1, Nat.lt_of_lt_of_le this.2 c2.grown.next⟩
    refine ⟨g12.trans g3, ?_, ?_, ?_, ?_, ?_⟩
    · intro a ha q hq
      by_cases hx : a < m2.next
      · exact Nat.lt_succ_of_lt (c2.sound a hx q ((g3.refers hx q).1 hq))
      · have : a = m2.next := by have : a < m2.next + 1 := ha; omega
        subst this
        exact Nat.lt_succ_of_lt (r3 q hq).2
    · intro q hq
      simp only [List.mem_singleton] at hq
      subst hq
      exact ⟨g12.next, Nat.lt_succ_self _⟩
    · intro a ha ha' q hq
      by_cases hx : a < m2.next
      · have hq' := (g3.refers hx q).1 hq
        by_cases hy : a < m1.next
        · exact c1.closed a ha hy q ((c2.grown.refers hy q).1 hq')
        · exact Nat.le_trans c1.grown.next (c2.closed a (by omega) hx q hq')
      · have : a = m2.next := by have : a < m2.next + 1 := ha'; omega
        subst this
        exact (r3 q hq).1
    · intro a ha ha' q hq
      by_cases hx : a < m2.next
      · have hq' := (g3.refers hx q).1 hq
        by_cases hy : a < m1.next
        · exact c1.down a ha hy q ((c2.grown.refers hy q).1 hq')
        · exact c2.down a (by omega) hx q hq'
      · have : a = m2.next := by have : a < m2.next + 1 := ha'; omega
        subst this
        exact (r3 q hq).2
    · intro w d
      cases d with
      | zero => rfl
      | succ d =>
        simp only [List.map_cons, List.map_nil, List.cons.injEq, and_true]
        rw [lookBy, lookBy, gn]
        simp only
        congr 1
        · rw [hlen, ← c1.same w d]
          refine List.map_congr_left fun q hq => ?_
          have := c1.new q hq
          rw [g3.look c2.sound w d q (Nat.lt_of_lt_of_le this.2 c2.grown.next), c2.grown.look c1.sound w d q this.2]
        · have := c2.same w d
          rw [List.map_congr_left (fun q hq => c1.grown.look s w d q (hct q hq))] at this
          rw [← this]
          exact List.map_congr_left fun q hq => g3.look c2.sound w d q (c2.new q hq).2

/-! ### Ending -/

/-- There is a way of `n` references from `p`. -/
def Walk (m : GMem) : Nat → Nat → Prop
  | 0, _ => True
  | n + 1, p => ∃ q, Refers m p q ∧ Walk m n q

theorem Grown.walk {m m' : GMem} (g : Grown m m') (s : NoDangling m) (n : Nat) : ∀ p, p < m.next → Walk m n p → Walk m' n p := by
  induction n with
  | zero => intro p _ _; trivial
  | succ n ih =>
    intro p hp ⟨q, hq, hw⟩
    exact ⟨q, (g.refers hp q).2 hq, ih q (s p hp q hq) hw⟩

theorem mapG_mem {f : Nat → GM Nat}
    (hf : ∀ m p p' m', NoDangling m → p < m.next → f p m = some (p', m') → CopiedG m m' [p] [p']) :
    ∀ ps m r, NoDangling m → (∀ p ∈ ps, p < m.next) → mapG f ps m = some r → ∀ p ∈ ps, ∃ m1 x, Grown m m1 ∧ NoDangling m1 ∧ f p m1 = some x := by
  intro ps
  induction ps with
  | nil => intro m r _ _ _ p hp; cases hp
  | cons q ps ih =>
    intro m r s hs h p hp
    rw [mapG, GM.bind_some] at h
    obtain ⟨x, m1, h1, h⟩ := h
    rw [GM.bind_some] at h
    obtain ⟨xs, m2, h2, _⟩ := h
    rcases List.mem_cons.1 hp with rfl | hp
    · exact ⟨m, _, Grown.refl _, s, h1⟩
    · have c1 := hf m q x m1 s (hs q (by simp)) h1
      obtain ⟨m3, y, g, s3, e⟩ := ih m1 _ c1.sound (fun q hq => Nat.lt_of_lt_of_le (hs q (by simp [hq])) c1.grown.next) h2 p hp
      exact ⟨m3, y, c1.grown.trans g, s3, e⟩

theorem copyG_no_walk (fuel : Nat) : ∀ m p r, NoDangling m → p < m.next → copyG fuel p m = some r → ¬ Walk m fuel p := by
  induction fuel with
  | zero => intro m p r _ _ h; cases h
  | succ fuel ih =>
    intro m p r s hp h ⟨q, hq, hw⟩
    rw [copyG, GM.bind_some] at h
    obtain ⟨c, m0, h0, h⟩ := h
    cases h0
    rw [GM.bind_some] at h
    obtain ⟨al, m1, h1, h⟩ := h
    rw [GM.bind_some] at h
    obtain ⟨ks, m2, h2, _⟩ := h
    have hal : ∀ q ∈ (m.get p).alias.toList, q < m.next := fun q hq => s p hp q (.inr (by simpa using hq))
    have hct : ∀ q ∈ (m.get p).content, q < m.next := fun q hq => s p hp q (.inl hq)
    have hqn := s p hp q hq
    rcases hq with hq | hq
    · have c1 := mapG_copy (copyG_copied fuel) _ m al m1 s hal h1
      obtain ⟨m3, x, g, s3, e⟩ := mapG_mem (copyG_copied fuel) _ m1 _ c1.sound
        (fun q hq => Nat.lt_of_lt_of_le (hct q hq) c1.grown.next) h2 q hq
      have g' := c1.grown.trans g
      exact ih m3 q x s3 (Nat.lt_of_lt_of_le hqn g'.next) e (g'.walk s fuel q hqn hw)
    · obtain ⟨m3, x, g, s3, e⟩ := mapG_mem (copyG_copied fuel) _ m _ s hal h1 q (by simp [hq])
      exact ih m3 q x s3 (Nat.lt_of_lt_of_le hqn g.next) e (g.walk s fuel q hqn hw)

theorem walk_circle {m : GMem} (n : Nat) : ∀ q, Relation.TransGen (Refers m) q q → Walk m n q := by
  have key : ∀ n q r, Relation.TransGen (Refers m) q r → Relation.TransGen (Refers m) r r → Walk m n q := by
    intro n
    induction n with
    | zero => intro q r _ _; trivial
    | succ n ih =>
      intro q r h hr
      obtain ⟨x, hx, hxr⟩ := Relation.TransGen.head'_iff.1 h
      refine ⟨x, hx, ?_⟩
      rcases Relation.reflTransGen_iff_eq_or_transGen.1 hxr with rfl | hxr
      · exact ih _ _ hr hr
      · exact ih _ _ hxr hr
  exact fun q h => key n q q h h

theorem walk_circular {m : GMem} {p : Nat} (h : Circular m p) (n : Nat) : Walk m n p := by
  obtain ⟨q, hq, hc⟩ := h
  induction hq using Relation.ReflTransGen.head_induction_on generalizing n with
  | refl => exact walk_circle n q hc
  | head hxy _ ih =>
    cases n with
    | zero => trivial
    | succ n => exact ⟨_, hxy, ih n⟩

theorem mapG_mono {α : Type} {f g : Nat → GM α} (h : ∀ p m r, f p m = some r → g p m = some r) :
    ∀ ps m r, mapG f ps m = some r → mapG g ps m = some r := by
  intro ps
  induction ps with
  | nil => intro m r h; exact h
  | cons p ps ih =>
    intro m r hr
    rw [mapG, GM.bind_some] at hr ⊢
    obtain ⟨x, m1, h1, hr⟩ := hr
    rw [GM.bind_some] at hr
    obtain ⟨xs, m2, h2, hr⟩ := hr
    exact ⟨x, m1, h _ _ _ h1, GM.bind_some.2 ⟨xs, m2, ih _ _ h2, hr⟩⟩

theorem copyG_mono {k l : Nat} (h : k ≤ l) : ∀ p m r, copyG k p m = some r → copyG l p m = some r := by
  induction k generalizing l with
  | zero => intro p m r h; cases h
  | succ k ih =>
    intro p m r hr
    obtain ⟨l, rfl⟩ : ∃ l', l = l' + 1 := ⟨l - 1, by omega⟩
    have hk : k ≤ l := by omega
    rw [copyG, GM.bind_some] at hr ⊢
    obtain ⟨c, m0, h0, hr⟩ := hr
    rw [GM.bind_some] at hr
    obtain ⟨al, m1, h1, hr⟩ := hr
    rw [GM.bind_some] at hr
    obtain ⟨ks, m2, h2, hr⟩ := hr
    exact ⟨c, m0, h0, GM.bind_some.2 ⟨al, m1, mapG_mono (ih hk) _ _ _ h1, GM.bind_some.2 ⟨ks, m2, mapG_mono (ih hk) _ _ _ h2, hr⟩⟩⟩

/-- Copying `p` ends, in this memory and when it has grown. -/
def Safely (m : GMem) (p : Nat) : Prop := ∃ fuel, ∀ m', Grown m m' → NoDangling m' → ∃ r, copyG fuel p m' = some r

theorem mapG_safely {m : GMem} : ∀ ps : List Nat, (∀ p ∈ ps, p < m.next) → (∀ p ∈ ps, Safely m p) →
    ∃ fuel, ∀ m', Grown m m' → NoDangling m' → ∃ r, mapG (copyG fuel) ps m' = some r := by
  intro ps
  induction ps with
  | nil => intro _ _; exact ⟨0, fun m' _ _ => ⟨_, rfl⟩⟩
  | cons p ps ih =>
    intro hl h
    obtain ⟨k, hk⟩ := h p (by simp)
    obtain ⟨l, hl'⟩ := ih (fun q hq => hl q (by simp [hq])) (fun q hq => h q (by simp [hq]))
    refine ⟨max k l, fun m' g s => ?_⟩
    obtain ⟨⟨x, m1⟩, hx⟩ := hk m' g s
    have c := copyG_copied k m' p x m1 s (Nat.lt_of_lt_of_le (hl p (by simp)) g.next) hx
    obtain ⟨⟨xs, m2⟩, hxs⟩ := hl' m1 (g.trans c.grown) c.sound
    exact ⟨(x :: xs, m2), GM.bind_some.2 ⟨x, m1, copyG_mono (Nat.le_max_left _ _) _ _ _ hx,
      GM.bind_some.2 ⟨xs, m2, mapG_mono (copyG_mono (Nat.le_max_right _ _)) _ _ _ hxs, rfl⟩⟩⟩

theorem safely_of_children {m : GMem} (s : NoDangling m) {p : Nat} (hp : p < m.next) (h : ∀ q, Refers m p q → Safely m q) : Safely m p := by
  have hal : ∀ q ∈ (m.get p).alias.toList, q < m.next := fun q hq => s p hp q (.inr (by simpa using hq))
  have hct : ∀ q ∈ (m.get p).content, q < m.next := fun q hq => s p hp q (.inl hq)
  obtain ⟨k, hk⟩ := mapG_safely _ hal (fun q hq => h q (.inr (by simpa using hq)))
  obtain ⟨l, hl⟩ := mapG_safely _ hct (fun q hq => h q (.inl hq))
  refine ⟨max k l + 1, fun m' g s' => ?_⟩
  have e := g.old p hp
  obtain ⟨⟨al, m1⟩, h1⟩ := hk m' g s'
  have c := mapG_copy (copyG_copied k) _ m' al m1 s' (fun q hq => Nat.lt_of_lt_of_le (hal q hq) g.next) h1
  obtain ⟨⟨ks, m2⟩, h2⟩ := hl m1 (g.trans c.grown) c.sound
  refine ⟨_, GM.bind_some.2 ⟨_, _, rfl, GM.bind_some.2 ⟨al, m1, ?_, GM.bind_some.2 ⟨ks, m2, ?_, rfl⟩⟩⟩⟩
  · rw [e]; exact mapG_mono (copyG_mono (Nat.le_max_left _ _)) _ _ _ h1
  · rw [e]; exact mapG_mono (copyG_mono (Nat.le_max_right _ _)) _ _ _ h2

theorem reachable_lt {m : GMem} (s : NoDangling m) {p q : Nat} (hp : p < m.next) (h : Reachable m p q) : q < m.next := by
  induction h with
  | refl => exact hp
  | tail _ hr ih => exact s _ ih _ hr

theorem safely_of_not_circular {m : GMem} (s : NoDangling m) {p : Nat} (hp : p < m.next) (h : ¬ Circular m p) : Safely m p := by
  let α := { q : Fin m.next // Reachable m p q.1 }
  let R : α → α → Prop := fun a b => Relation.TransGen (Refers m) b.1.1 a.1.1
  have ht : IsTrans α R := ⟨fun a b c h1 h2 => h2.trans h1⟩
  have hi : Std.Irrefl R := ⟨fun a ha => h ⟨a.1.1, a.2, ha⟩⟩
  have : Finite α := Subtype.finite
  have wf : WellFounded R := Finite.wellFounded_of_trans_of_irrefl R
  have : ∀ a : α, Safely m a.1.1 := by
    intro a
    induction a using wf.induction with
    | h a ih =>
      refine safely_of_children s a.1.2 (fun q hq => ?_)
      exact ih ⟨⟨q, s _ a.1.2 q hq⟩, a.2.tail hq⟩ (.single hq)
  exact this ⟨⟨p, hp⟩, .refl⟩

theorem CopiedG.reach {m m' : GMem} {ps ps' : List Nat} (c : CopiedG m m' ps ps') {p q : Nat} (hp : m.next ≤ p ∧ p < m'.next)
    (h : Reachable m' p q) : m.next ≤ q ∧ q < m'.next := by
  induction h with
  | refl => exact hp
  | tail _ hr ih => exact ⟨c.closed _ ih.1 ih.2 _ hr, c.sound _ ih.2 _ hr⟩

theorem CopiedG.copies {m m' : GMem} {ps ps' : List Nat} (c : CopiedG m m' ps ps') : Copies m m' ps ps' :=
  ⟨c.same id, fun p hp _ h => c.reach (c.new p hp) h⟩

/-- What is seen depends only on what can be reached. -/
theorem look_congr {m m' : GMem} (w : Hdr → Hdr) (d : Nat) : ∀ p, (∀ q, Reachable m p q → m'.get q = m.get q) → lookBy w m' d p = lookBy w m d p := by
  induction d with
  | zero => intro p _; rfl
  | succ d ih =>
    intro p h
    rw [lookBy, lookBy, h p .refl]
    congr 1
    · refine List.map_congr_left fun q hq => ih q (fun x hx => h x (.head (.inr ?_) hx))
      simpa using hq
    · exact List.map_congr_left fun q hq => ih q (fun x hx => h x (.head (.inl hq) hx))

/-- What can be reached depends only on what can be reached. -/
theorem reachable_congr {m m' : GMem} {p q : Nat} (h : ∀ q, Reachable m p q → m'.get q = m.get q) (hr : Reachable m' p q) :
    Reachable m p q := by
  induction hr with
  | refl => exact .refl
  | tail _ hr ih =>
    refine ih.tail ?_
    unfold Refers at hr ⊢
    rwa [h _ ih] at hr

theorem Spec.Copies.frame {m m1 m2 : GMem} {ps ps' : List Nat} (c : Copies m m1 ps ps') (hn : m1.next ≤ m2.next)
    (h : ∀ a, m.next ≤ a → a < m1.next → m2.get a = m1.get a) : Copies m m2 ps ps' := by
  have key : ∀ p ∈ ps', ∀ q, Reachable m1 p q → m2.get q = m1.get q := fun p hp q hq => h q (c.2 p hp q hq).1 (c.2 p hp q hq).2
  refine ⟨fun d => ?_, fun p hp q hq => ?_⟩
  · rw [← c.1 d]
    exact List.map_congr_left fun p hp => look_congr id d p (key p hp)
  · have := c.2 p hp q (reachable_congr (key p hp) hq)
    exact ⟨this.1, Nat.lt_of_lt_of_le this.2 hn⟩

/-- A node is circular iff one it refers to is. -/
theorem circular_iff {m : GMem} {p : Nat} : Circular m p ↔ ∃ q, Refers m p q ∧ Circular m q := by
  constructor
  · rintro ⟨q, hq, hc⟩
    rcases Relation.ReflTransGen.cases_head hq with rfl | ⟨x, hx, hxq⟩
    · obtain ⟨x, hx, hxq⟩ := Relation.TransGen.head'_iff.1 hc
      exact ⟨x, hx, p, hxq, hc⟩
    · exact ⟨x, hx, q, hxq, hc⟩
  · rintro ⟨q, hq, x, hx, hc⟩
    exact ⟨x, .head hq hx, hc⟩

theorem copyG_ends_iff {m : GMem} (s : NoDangling m) {p : Nat} (hp : p < m.next) : Finishes (fun k => copyG k p) m ↔ ¬ Circular m p := by
  constructor
  · rintro ⟨k, r, h⟩ hc
    exact copyG_no_walk k m p r s hp h (walk_circular hc k)
  · intro h
    obtain ⟨k, hk⟩ := safely_of_not_circular s hp h
    obtain ⟨r, hr⟩ := hk m (Grown.refl _) s
    exact ⟨k, r, hr⟩

theorem mapG_ends {m : GMem} (s : NoDangling m) {ps : List Nat} (hp : ∀ p ∈ ps, p < m.next) {k : Nat} {r : List Nat × GMem}
    (h : mapG (copyG k) ps m = some r) : ∀ p ∈ ps, ¬ Circular m p := by
  intro p hm hc
  obtain ⟨m1, x, g, s1, e⟩ := mapG_mem (copyG_copied k) ps m r s hp h p hm
  exact copyG_no_walk k m1 p x s1 (Nat.lt_of_lt_of_le (hp p hm) g.next) e (g.walk s k p (hp p hm) (walk_circular hc k))

/-- Texts and comments blanked out. -/
def blank (hd : Hdr) : Hdr := { hd with value := [], head := [], line := [], foot := [] }

/-- Only texts and comments differ. -/
def SameRefs (m m' : GMem) : Prop :=
  m'.next = m.next ∧ ∀ a, (m'.get a).alias = (m.get a).alias ∧ (m'.get a).content = (m.get a).content ∧
    blank (m'.get a).hd = blank (m.get a).hd

theorem SameRefs.refl (m : GMem) : SameRefs m m := ⟨rfl, fun _ => ⟨rfl, rfl, rfl⟩⟩
theorem SameRefs.trans {a b c : GMem} (h : SameRefs a b) (k : SameRefs b c) : SameRefs a c :=
  ⟨k.1.trans h.1, fun x => ⟨(k.2 x).1.trans (h.2 x).1, (k.2 x).2.1.trans (h.2 x).2.1, (k.2 x).2.2.trans (h.2 x).2.2⟩⟩

theorem sanitizeG_ends (E : Sed) (m0 : GMem) (b : Nat) (n : Nat) : ∀ p, b ≤ p → p < n →
    (∀ a, b ≤ a → a ≤ p → ∀ q ∈ (m0.get a).content, b ≤ q ∧ q < a) →
    ∀ m, SameRefs m0 m → ∃ m', sanitizeG E n p m = some ((), m') ∧ SameRefs m0 m' ∧ ∀ a, a < b → m'.get a = m.get a := by
  induction n with
  | zero => intro p _ h; omega
  | succ n ih =>
    intro p hb hp hd m hs
    have hl : ∀ ps : List Nat, (∀ q ∈ ps, b ≤ q ∧ q < p) → ∀ m, SameRefs m0 m →
        ∃ xs m', mapG (sanitizeG E n) ps m = some (xs, m') ∧ SameRefs m0 m' ∧ ∀ a, a < b → m'.get a = m.get a := by
      intro ps
      induction ps with
      | nil => intro _ m hs; exact ⟨[], m, rfl, hs, fun _ _ => rfl⟩
      | cons q ps ihp =>
        intro hq m hs
        have hq0 := hq q (by simp)
        obtain ⟨m1, e1, s1, o1⟩ := ih q hq0.1 (by omega) (fun a h1 h2 => hd a h1 (by omega)) m hs
        obtain ⟨xs, m2, e2, s2, o2⟩ := ihp (fun x hx => hq x (by simp [hx])) m1 s1
        refine ⟨() :: xs, m2, GM.bind_some.2 ⟨(), m1, e1, GM.bind_some.2 ⟨xs, m2, e2, rfl⟩⟩, s2, fun a ha => ?_⟩
        rw [o2 a ha, o1 a ha]
    have hc : ∀ q ∈ (m.get p).content, b ≤ q ∧ q < p := by
      rw [(hs.2 p).2.1]
      exact hd p hb (Nat.le_refl _)
    obtain ⟨xs, m1, e1, s1, o1⟩ : ∃ xs m1, (if (m.get p).hd.kind = .scalar ∨ (m.get p).hd.kind = .zero then pure []
        else mapG (sanitizeG E n) (m.get p).content : GM (List Unit)) m = some (xs, m1) ∧ SameRefs m0 m1 ∧
        ∀ a, a < b → m1.get a = m.get a := by
      split
      · exact ⟨[], m, rfl, hs, fun _ _ => rfl⟩
      · exact hl _ hc m hs
    refine ⟨_, GM.bind_some.2 ⟨_, _, rfl, GM.bind_some.2 ⟨xs, m1, e1, GM.bind_some.2 ⟨_, _, rfl, rfl⟩⟩⟩, ?_, ?_⟩
    · refine ⟨s1.1, fun a => ?_⟩
      simp only
      split
      · next h => subst h; exact ⟨(s1.2 a).1, (s1.2 a).2.1, by rw [← (s1.2 a).2.2]; rfl⟩
      · exact s1.2 a
    · intro a ha
      simp only
      rw [if_neg (by omega), o1 a ha]

theorem sanitizesG_ends (E : Sed) (m0 : GMem) (b N n : Nat) (hN : N ≤ n) (hd : ∀ a, b ≤ a → a < N → ∀ q ∈ (m0.get a).content, b ≤ q ∧ q < a) :
    ∀ ps, (∀ p ∈ ps, b ≤ p ∧ p < N) → ∀ m, SameRefs m0 m →
      ∃ xs m', mapG (sanitizeG E n) ps m = some (xs, m') ∧ SameRefs m0 m' ∧ ∀ a, a < b → m'.get a = m.get a := by
  intro ps
  induction ps with
  | nil => intro _ m hs; exact ⟨[], m, rfl, hs, fun _ _ => rfl⟩
  | cons q ps ihp =>
    intro hq m hs
    have hq0 := hq q (by simp)
    obtain ⟨m1, e1, s1, o1⟩ := sanitizeG_ends E m0 b n q hq0.1 (by omega) (fun a h1 h2 => hd a h1 (by omega)) m hs
    obtain ⟨xs, m2, e2, s2, o2⟩ := ihp (fun x hx => hq x (by simp [hx])) m1 s1
    refine ⟨() :: xs, m2, GM.bind_some.2 ⟨(), m1, e1, GM.bind_some.2 ⟨xs, m2, e2, rfl⟩⟩, s2, fun a ha => ?_⟩
    rw [o2 a ha, o1 a ha]

theorem sanitizeG_mono (E : Sed) {k l : Nat} (h : k ≤ l) : ∀ p m r, sanitizeG E k p m = some r → sanitizeG E l p m = some r := by
  induction k generalizing l with
  | zero => intro p m r h; cases h
  | succ k ih =>
    intro p m r hr
    obtain ⟨l, rfl⟩ : ∃ l', l = l' + 1 := ⟨l - 1, by omega⟩
    have hk : k ≤ l := by omega
    rw [sanitizeG, GM.bind_some] at hr ⊢
    obtain ⟨c, m0, h0, hr⟩ := hr
    rw [GM.bind_some] at hr
    obtain ⟨xs, m1, h1, hr⟩ := hr
    refine ⟨c, m0, h0, GM.bind_some.2 ⟨xs, m1, ?_, hr⟩⟩
    split at h1
    · next hc => rw [if_pos hc]; exact h1
    · next hc => rw [if_neg hc]; exact mapG_mono (ih hk) _ _ _ h1

theorem mapG_sanitize_mono (E : Sed) {k l : Nat} (h : k ≤ l) : ∀ ps m r, mapG (sanitizeG E k) ps m = some r →
    mapG (sanitizeG E l) ps m = some r := mapG_mono (sanitizeG_mono E h)

theorem SameRefs.outline {m m' : GMem} (h : SameRefs m m') (d : Nat) : ∀ p, outline m' d p = outline m d p := by
  induction d with
  | zero => intro p; rfl
  | succ d ih =>
    intro p
    have hl : lookBy (fun hd => { hd with value := [], head := [], line := [], foot := [] }) m' d =
        lookBy (fun hd => { hd with value := [], head := [], line := [], foot := [] }) m d := funext ih
    show lookBy _ m' (d + 1) p = lookBy _ m (d + 1) p
    rw [lookBy, lookBy, (h.2 p).1, (h.2 p).2.1, hl]
    congr 1
    have := congrArg (fun hd : Hdr => { hd with addr := 0 }) (h.2 p).2.2
    exact this

theorem SameRefs.reachable {m m' : GMem} (h : SameRefs m m') {p q : Nat} (hr : Reachable m' p q) : Reachable m p q := by
  induction hr with
  | refl => exact .refl
  | tail _ hr ih =>
    refine ih.tail ?_
    unfold Refers at hr ⊢
    rwa [(h.2 _).1, (h.2 _).2.1] at hr

end Yot
