import Verif.Lemmas.Graph
import Verif.Lemmas.HeapMerge
/-
Copies of values with aliases: where the nodes of a copy are, and what sanitizing makes of it.
-/
namespace Yot
open Spec

mutual
/-- The tree at `p` lies in the memory from `lo` up to `hi`, each part in a region of its own. -/
def Laid (m : GMem) (lo hi p : Nat) : Node → Prop
  | .mk hd ts => ∃ l1, lo ≤ l1 ∧ p < hi ∧ { (m.get p).hd with addr := 0 } = hd ∧ (hd.kind = .scalar ∨ hd.kind = .zero → ts = []) ∧
      LaidAll m l1 p (m.get p).content ts
/-- On lists. -/
def LaidAll (m : GMem) (lo hi : Nat) : List Nat → List Node → Prop
  | [], [] => lo ≤ hi
  | q :: qs, t :: ts => ∃ mid, Laid m lo mid q t ∧ LaidAll m mid hi qs ts
  | _, _ => False
end

theorem laid_bounds (m : GMem) (t : Node) : ∀ lo hi p, Laid m lo hi p t → lo ≤ p ∧ p < hi := by
  induction t using Node.ind with
  | h hd ts ih =>
    intro lo hi p h
    rw [Laid] at h
    obtain ⟨l1, h1, h2, _, _, h3⟩ := h
    have key : ∀ (us : List Node), (∀ u ∈ us, u ∈ ts) → ∀ lo hi qs, LaidAll m lo hi qs us → lo ≤ hi := by
      intro us
      induction us with
      | nil => intro _ lo hi qs h; cases qs <;> simp [LaidAll] at h; exact h
      | cons u us ihu =>
        intro hm lo hi qs h
        cases qs with
        | nil => simp [LaidAll] at h
        | cons q qs =>
          rw [LaidAll] at h
          obtain ⟨mid, a, b⟩ := h
          have := ih u (hm u (by simp)) _ _ _ a
          have := ihu (fun x hx => hm x (by simp [hx])) _ _ _ b
          omega
    have := key ts (fun _ h => h) _ _ _ h3
    omega

theorem laidAll_bounds (m : GMem) : ∀ (us : List Node) lo hi qs, LaidAll m lo hi qs us → lo ≤ hi := by
  intro us
  induction us with
  | nil => intro lo hi qs h; cases qs <;> simp [LaidAll] at h; exact h
  | cons u us ihu =>
    intro lo hi qs h
    cases qs with
    | nil => simp [LaidAll] at h
    | cons q qs =>
      rw [LaidAll] at h
      obtain ⟨mid, a, b⟩ := h
      have := laid_bounds m u _ _ _ a
      have := ihu _ _ _ b
      omega

theorem laid_frame {m m' : GMem} (t : Node) : ∀ lo hi p, (∀ a, lo ≤ a → a < hi → m'.get a = m.get a) → Laid m lo hi p t → Laid m' lo hi p t := by
  induction t using Node.ind with
  | h hd ts ih =>
    intro lo hi p hf h
    have hb := laid_bounds m _ _ _ _ h
    rw [Laid] at h ⊢
    obtain ⟨l1, h1, h2, h3, h4, h5⟩ := h
    rw [hf p hb.1 hb.2]
    refine ⟨l1, h1, h2, h3, h4, ?_⟩
    have key : ∀ (us : List Node), (∀ u ∈ us, u ∈ ts) → ∀ lo' hi' qs, lo ≤ lo' → hi' ≤ hi → LaidAll m lo' hi' qs us → LaidAll m' lo' hi' qs us := by
      intro us
      induction us with
      | nil => intro _ lo hi qs _ _ h; cases qs <;> simp [LaidAll] at h ⊢; exact h
      | cons u us ihu =>
        intro hm lo' hi' qs hlo hhi h
        cases qs with
        | nil => simp [LaidAll] at h
        | cons q qs =>
          rw [LaidAll] at h ⊢
          obtain ⟨mid, a, b⟩ := h
          have b1 := laid_bounds m _ _ _ _ a
          have b2 := laidAll_bounds m _ _ _ _ b
          exact ⟨mid, ih u (hm u (by simp)) _ _ _ (fun x hx hy => hf x (by omega) (by omega)) a,
            ihu (fun x hx => hm x (by simp [hx])) _ _ _ (by omega) hhi b⟩
    exact key ts (fun _ h => h) _ _ _ h1 (by omega) h5

theorem laidAll_frame {m m' : GMem} : ∀ (us : List Node) lo hi qs, (∀ a, lo ≤ a → a < hi → m'.get a = m.get a) → LaidAll m lo hi qs us → LaidAll m' lo hi qs us := by
  intro us
  induction us with
  | nil => intro lo hi qs _ h; cases qs <;> simp [LaidAll] at h ⊢; exact h
  | cons u us ihu =>
    intro lo hi qs hf h
    cases qs with
    | nil => simp [LaidAll] at h
    | cons q qs =>
      rw [LaidAll] at h ⊢
      obtain ⟨mid, a, b⟩ := h
      have b1 := laid_bounds m _ _ _ _ a
      have b2 := laidAll_bounds m _ _ _ _ b
      exact ⟨mid, laid_frame _ _ _ _ (fun x hx hy => hf x (by omega) (by omega)) a, ihu _ _ _ (fun x hx hy => hf x (by omega) hy) b⟩

theorem laid_shows {m : GMem} (t : Node) : ∀ lo hi p, Laid m lo hi p t → Shows m p t := by
  induction t using Node.ind with
  | h hd ts ih =>
    intro lo hi p h
    rw [Laid] at h
    rw [Shows]
    obtain ⟨l1, h1, h2, h3, h4, h5⟩ := h
    refine ⟨h3, h4, ?_⟩
    have key : ∀ (us : List Node), (∀ u ∈ us, u ∈ ts) → ∀ lo hi qs, LaidAll m lo hi qs us → ShowsAll m qs us := by
      intro us
      induction us with
      | nil => intro _ lo hi qs h; cases qs <;> simp [LaidAll] at h; simp [ShowsAll]
      | cons u us ihu =>
        intro hm lo hi qs h
        cases qs with
        | nil => simp [LaidAll] at h
        | cons q qs =>
          rw [LaidAll] at h
          rw [ShowsAll]
          obtain ⟨mid, a, b⟩ := h
          exact ⟨ih u (hm u (by simp)) _ _ _ a, ihu (fun x hx => hm x (by simp [hx])) _ _ _ b⟩
    exact key ts (fun _ h => h) _ _ _ h5

theorem laidAll_shows {m : GMem} : ∀ (us : List Node) lo hi qs, LaidAll m lo hi qs us → ShowsAll m qs us := by
  intro us
  induction us with
  | nil => intro lo hi qs h; cases qs <;> simp [LaidAll] at h; simp [ShowsAll]
  | cons u us ihu =>
    intro lo hi qs h
    cases qs with
    | nil => simp [LaidAll] at h
    | cons q qs =>
      rw [LaidAll] at h
      rw [ShowsAll]
      obtain ⟨mid, a, b⟩ := h
      exact ⟨laid_shows _ _ _ _ a, ihu _ _ _ b⟩

/-- What is shown stays, as long as the memory only grows. -/
theorem shows_grown {m m' : GMem} (g : Grown m m') (s : NoDangling m) (t : Node) : ∀ p, p < m.next → Shows m p t → Shows m' p t := by
  induction t using Node.ind with
  | h hd ts ih =>
    intro p hp h
    rw [Shows] at h ⊢
    rw [g.old p hp]
    refine ⟨h.1, h.2.1, ?_⟩
    have key : ∀ (us : List Node), (∀ u ∈ us, u ∈ ts) → ∀ qs, (∀ q ∈ qs, q < m.next) → ShowsAll m qs us → ShowsAll m' qs us := by
      intro us
      induction us with
      | nil => intro _ qs _ h; cases qs <;> simp [ShowsAll] at h ⊢
      | cons u us ihu =>
        intro hm qs hq h
        cases qs with
        | nil => simp [ShowsAll] at h
        | cons q qs =>
          rw [ShowsAll] at h ⊢
          exact ⟨ih u (hm u (by simp)) _ (hq q (by simp)) h.1, ihu (fun x hx => hm x (by simp [hx])) _ (fun x hx => hq x (by simp [hx])) h.2⟩
    exact key ts (fun _ h => h) _ (fun q hq => s p hp q (.inl hq)) h.2.2

theorem showsAll_grown {m m' : GMem} (g : Grown m m') (s : NoDangling m) : ∀ (us : List Node) qs, (∀ q ∈ qs, q < m.next) → ShowsAll m qs us → ShowsAll m' qs us := by
  intro us
  induction us with
  | nil => intro qs _ h; cases qs <;> simp [ShowsAll] at h ⊢
  | cons u us ihu =>
    intro qs hq h
    cases qs with
    | nil => simp [ShowsAll] at h
    | cons q qs =>
      rw [ShowsAll] at h ⊢
      exact ⟨shows_grown g s _ _ (hq q (by simp)) h.1, ihu _ (fun x hx => hq x (by simp [hx])) h.2⟩

/-- Copies of several nodes, given what a copy of one is. -/
theorem mapG_laid {k : Nat} : ∀ (us : List Node),
    (∀ u ∈ us, ∀ m p p' m', NoDangling m → p < m.next → Shows m p u → copyG k p m = some (p', m') → Laid m' m.next m'.next p' u) →
    ∀ m qs qs' m', NoDangling m → (∀ q ∈ qs, q < m.next) → ShowsAll m qs us → mapG (copyG k) qs m = some (qs', m') →
      LaidAll m' m.next m'.next qs' us := by
  intro us
  induction us with
  | nil =>
    intro _ m qs qs' m' _ _ hs h
    cases qs with
    | nil => cases h; simp [LaidAll]
    | cons _ _ => simp [ShowsAll] at hs
  | cons u us ih =>
    intro hu m qs qs' m' s hq hs h
    cases qs with
    | nil => simp [ShowsAll] at hs
    | cons q qs =>
      rw [ShowsAll] at hs
      rw [mapG, GM.bind_some] at h
      obtain ⟨x, m1, h1, h⟩ := h
      rw [GM.bind_some] at h
      obtain ⟨xs, m2, h2, h⟩ := h
      cases h
      have c1 := copyG_copied k m q x m1 s (hq q (by simp)) h1
      have hq1 : ∀ y ∈ qs, y < m1.next := fun y hy => Nat.lt_of_lt_of_le (hq y (by simp [hy])) c1.grown.next
      have c2 := mapG_copy (copyG_copied k) qs m1 xs m' c1.sound hq1 h2
      rw [LaidAll]
      refine ⟨m1.next, ?_, ?_⟩
      · exact laid_frame _ _ _ _ (fun a _ ha => c2.grown.old a ha) (hu u (by simp) m q x m1 s (hq q (by simp)) hs.1 h1)
      · exact ih (fun v hv => hu v (by simp [hv])) m1 qs xs m' c1.sound hq1
          (showsAll_grown c1.grown s us qs (fun y hy => hq y (by simp [hy])) hs.2) h2

theorem copyG_laid (t : Node) : ∀ k m p p' m', NoDangling m → p < m.next → Shows m p t → copyG k p m = some (p', m') →
    Laid m' m.next m'.next p' t := by
  induction t using Node.ind with
  | h hd ts ih =>
    intro k m p p' m' s hp hs h
    cases k with
    | zero => cases h
    | succ k =>
      rw [copyG, GM.bind_some] at h
      obtain ⟨c, m0, h0, h⟩ := h
      cases h0
      rw [GM.bind_some] at h
      obtain ⟨al, m1, h1, h⟩ := h
      rw [GM.bind_some] at h
      obtain ⟨ks, m2, h2, h⟩ := h
      have hal : ∀ q ∈ (m.get p).alias.toList, q < m.next := fun q hq => s p hp q (.inr (by simpa using hq))
      have hct : ∀ q ∈ (m.get p).content, q < m.next := fun q hq => s p hp q (.inl hq)
      have c1 := mapG_copy (copyG_copied k) _ m al m1 s hal h1
      have hct1 : ∀ q ∈ (m.get p).content, q < m1.next := fun q hq => Nat.lt_of_lt_of_le (hct q hq) c1.grown.next
      have c2 := mapG_copy (copyG_copied k) _ m1 ks m2 c1.sound hct1 h2
      rw [Shows] at hs
      have hl := mapG_laid (k := k) ts (fun u hu => ih u hu k) m1 _ ks m2 c1.sound hct1 (showsAll_grown c1.grown s ts _ hct hs.2.2) h2
      cases h
      rw [Laid]
      refine ⟨m1.next, c1.grown.next, Nat.lt_succ_self _, ?_, hs.2.1, ?_⟩
      · simp only [if_true]
        exact hs.1
      · simp only [if_true]
        exact laidAll_frame _ _ _ _ (fun a _ ha => by simp only; rw [if_neg (by omega)]) hl

/-- Sanitizing what lies in one region. -/
theorem sanitizeG_laid (E : Sed) (t : Node) : ∀ k m lo hi p m', Laid m lo hi p t → sanitizeG E k p m = some ((), m') →
    Laid m' lo hi p (sanitizeNode E t) ∧ ∀ a, a < lo ∨ hi ≤ a → m'.get a = m.get a := by
  induction t using Node.ind with
  | h hd ts ih =>
    intro k m lo hi p m' hl h
    cases k with
    | zero => cases h
    | succ k =>
      have hb := laid_bounds m _ _ _ _ hl
      rw [Laid] at hl
      obtain ⟨l1, h1, h2, h3, h4, h5⟩ := hl
      rw [sanitizeG, GM.bind_some] at h
      obtain ⟨c, m0, h0, h⟩ := h
      cases h0
      rw [GM.bind_some] at h
      obtain ⟨xs, m1, hx, h⟩ := h
      have hkind : (m.get p).hd.kind = hd.kind := by rw [← h3]
      have key : ∀ (us : List Node), (∀ u ∈ us, u ∈ ts) → ∀ m lo hi qs xs m', LaidAll m lo hi qs us → mapG (sanitizeG E k) qs m = some (xs, m') →
          LaidAll m' lo hi qs (sanitizeNodes E us) ∧ ∀ a, a < lo ∨ hi ≤ a → m'.get a = m.get a := by
        intro us
        induction us with
        | nil =>
          intro _ m lo hi qs xs m' hl h
          cases qs with
          | nil => cases h; exact ⟨by simpa [LaidAll, sanitizeNodes] using hl, fun _ _ => rfl⟩
          | cons _ _ => simp [LaidAll] at hl
        | cons u us ihu =>
          intro hm m lo hi qs xs m' hl h
          cases qs with
          | nil => simp [LaidAll] at hl
          | cons q qs =>
            rw [LaidAll] at hl
            obtain ⟨mid, a, b⟩ := hl
            rw [mapG, GM.bind_some] at h
            obtain ⟨x, m1, e1, h⟩ := h
            rw [GM.bind_some] at h
            obtain ⟨ys, m2, e2, h⟩ := h
            cases h
            obtain ⟨r1, r2⟩ := ih u (hm u (by simp)) k m lo mid q m1 a e1
            have b1 := laid_bounds m _ _ _ _ a
            have b2 := laidAll_bounds m _ _ _ _ b
            obtain ⟨t1, t2⟩ := ihu (fun y hy => hm y (by simp [hy])) m1 mid hi qs ys m'
              (laidAll_frame _ _ _ _ (fun z hz _ => r2 z (.inr hz)) b) e2
            rw [sanitizeNodes, LaidAll]
            refine ⟨⟨mid, laid_frame _ _ _ _ (fun z _ hz => t2 z (.inl hz)) r1, t1⟩, fun z hz => ?_⟩
            rw [t2 z (by omega), r2 z (by omega)]
      have hkids : LaidAll m1 l1 p (m.get p).content (sanitizeNodes E ts) ∧ ∀ a, a < l1 ∨ p ≤ a → m1.get a = m.get a := by
        rw [hkind] at hx
        split at hx
        · next hk =>
          cases hx
          have := h4 hk
          subst this
          exact ⟨h5, fun _ _ => rfl⟩
        · exact key ts (fun _ h => h) m l1 p _ xs m1 h5 hx
      have hp1 : m1.get p = m.get p := hkids.2 p (.inr (Nat.le_refl _))
      rw [GM.bind_some] at h
      obtain ⟨c, m2, e, h⟩ := h
      cases e
      cases h
      constructor
      · rw [sanitizeNode, Laid]
        simp only [if_true]
        refine ⟨l1, h1, h2, ?_, ?_, ?_⟩
        · rw [hp1, ← h3]
          rfl
        · intro hk
          rw [h4 hk]
          rfl
        · rw [hp1]
          exact laidAll_frame _ _ _ _ (fun a _ ha => by simp only; rw [if_neg (by omega)]) hkids.1
      · intro a ha
        simp only
        rw [if_neg (by omega), hkids.2 a (by omega)]

theorem sanitizesG_laid (E : Sed) (k : Nat) : ∀ (us : List Node) m lo hi qs xs m', LaidAll m lo hi qs us → mapG (sanitizeG E k) qs m = some (xs, m') →
    LaidAll m' lo hi qs (sanitizeNodes E us) ∧ ∀ a, a < lo ∨ hi ≤ a → m'.get a = m.get a := by
  intro us
  induction us with
  | nil =>
    intro m lo hi qs xs m' hl h
    cases qs with
    | nil => cases h; exact ⟨by simpa [LaidAll, sanitizeNodes] using hl, fun _ _ => rfl⟩
    | cons _ _ => simp [LaidAll] at hl
  | cons u us ihu =>
    intro m lo hi qs xs m' hl h
    cases qs with
    | nil => simp [LaidAll] at hl
    | cons q qs =>
      rw [LaidAll] at hl
      obtain ⟨mid, a, b⟩ := hl
      rw [mapG, GM.bind_some] at h
      obtain ⟨x, m1, e1, h⟩ := h
      rw [GM.bind_some] at h
      obtain ⟨ys, m2, e2, h⟩ := h
      cases h
      obtain ⟨r1, r2⟩ := sanitizeG_laid E u k m lo mid q m1 a e1
      have b1 := laid_bounds m _ _ _ _ a
      have b2 := laidAll_bounds m _ _ _ _ b
      obtain ⟨t1, t2⟩ := ihu m1 mid hi qs ys m' (laidAll_frame _ _ _ _ (fun z hz _ => r2 z (.inr hz)) b) e2
      rw [sanitizeNodes, LaidAll]
      refine ⟨⟨mid, laid_frame _ _ _ _ (fun z _ hz => t2 z (.inl hz)) r1, t1⟩, fun z hz => ?_⟩
      rw [t2 z (by omega), r2 z (by omega)]

theorem shows_fresh {m : GMem} (t : Node) : ∀ {p : Nat}, Shows m p t → t.fresh = t := by
  induction t using Node.ind with
  | h hd ts ih =>
    intro p h
    rw [Shows] at h
    obtain ⟨h1, _, h2⟩ := h
    have key : ∀ (us : List Node), (∀ u ∈ us, u ∈ ts) → ∀ qs, ShowsAll m qs us → Node.freshs us = us := by
      intro us
      induction us with
      | nil => intro _ _ _; rfl
      | cons u us ihu =>
        intro hm qs h
        cases qs with
        | nil => simp [ShowsAll] at h
        | cons q qs =>
          rw [ShowsAll] at h
          rw [Node.freshs, ih u (hm u (by simp)) h.1, ihu (fun x hx => hm x (by simp [hx])) _ h.2]
    rw [Node.fresh, key ts (fun _ h => h) _ h2, ← h1]

theorem mergeComments_addr (E : Sed) (o n : Hdr) (a b : Nat) (vals : List Str) :
    (mergeComments E { o with addr := a } { n with addr := b } vals) = { mergeComments E o n vals with addr := a } := by
  unfold mergeComments formatVals
  dsimp only
  split
  · rfl
  · split
    · rfl
    · split <;> rfl

end Yot
