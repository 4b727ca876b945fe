import Verif.Lemmas.Graph
import Verif.Spec.Build
/-
C79: values with anchors and aliases.
-/
namespace Yot
open Spec GM

/-- C79: copying a value ends exactly if no node in it contains an alias for itself. -/
theorem C79_copy_ends_iff (m : GMem) (s : NoDangling m) (p : Nat) (hp : p < m.next) :
    Finishes (fun k => copyG k p) m ↔ ¬ Circular m p := copyG_ends_iff s hp

/-- C79 (partial): a copy that ends looks like the value, aliases included, shares nothing with
it or with anything else, and leaves all that was there as it is.  Missing: values that
contain an alias for a node around it, for which it does not end. -/
theorem C79_copy_partial (m m' : GMem) (s : NoDangling m) (k p p' : Nat) (hp : p < m.next) (h : copyG k p m = some (p', m')) :
    (∀ a, a < m.next → m'.get a = m.get a) ∧ Copies m m' [p] [p'] :=
  let c := copyG_copied k m p p' m' s hp h
  ⟨c.grown.old, c.copies⟩

/-- C79: replacing a node by the value at `q` ends exactly if the value has no such alias. -/
theorem C79_replace_ends_iff (E : Sed) (m : GMem) (s : NoDangling m) (p q : Nat) (hq : q < m.next) :
    Finishes (fun k => replaceG E k p q) m ↔ ¬ Circular m q := by
  have hal : ∀ x ∈ (m.get q).alias.toList, x < m.next := fun x hx => s q hq x (.inr (by simpa using hx))
  have hct : ∀ x ∈ (m.get q).content, x < m.next := fun x hx => s q hq x (.inl hx)
  constructor
  · rintro ⟨k, r, h⟩ hc
    obtain ⟨x, hx, hcx⟩ := circular_iff.1 hc
    change replaceG E k p q m = some r at h
    rw [replaceG, GM.bind_some] at h
    obtain ⟨c, m0, h0, h⟩ := h
    cases h0
    rw [GM.bind_some] at h
    obtain ⟨c, m0, h0, h⟩ := h
    cases h0
    rw [GM.bind_some] at h
    obtain ⟨al, m1, h1, h⟩ := h
    rw [GM.bind_some] at h
    obtain ⟨ks, m2, h2, _⟩ := h
    have c1 := mapG_copy (copyG_copied k) _ m al m1 s hal h1
    rcases hx with hx | hx
    · obtain ⟨m3, y, g, s3, e⟩ := mapG_mem (copyG_copied k) _ m1 _ c1.sound
        (fun x hx => Nat.lt_of_lt_of_le (hct x hx) c1.grown.next) h2 x hx
      have g' := c1.grown.trans g
      exact copyG_no_walk k m3 x y s3 (Nat.lt_of_lt_of_le (hct x hx) g'.next) e (g'.walk s k x (hct x hx) (walk_circular hcx k))
    · exact mapG_ends s hal h1 x (by simp [hx]) hcx
  · intro h
    have hs : ∀ x, Refers m q x → Safely m x := fun x hx =>
      safely_of_not_circular s (s q hq x hx) (fun hc => h (circular_iff.2 ⟨x, hx, hc⟩))
    obtain ⟨k, hk⟩ := mapG_safely _ hal (fun x hx => hs x (.inr (by simpa using hx)))
    obtain ⟨l, hl⟩ := mapG_safely _ hct (fun x hx => hs x (.inl hx))
    obtain ⟨⟨al, m1⟩, h1⟩ := hk m (Grown.refl _) s
    have c := mapG_copy (copyG_copied k) _ m al m1 s hal h1
    obtain ⟨⟨ks, m2⟩, h2⟩ := hl m1 c.grown c.sound
    exact ⟨max k l, _, GM.bind_some.2 ⟨_, _, rfl, GM.bind_some.2 ⟨_, _, rfl,
      GM.bind_some.2 ⟨al, m1, mapG_mono (copyG_mono (Nat.le_max_left _ _)) _ _ _ h1,
        GM.bind_some.2 ⟨ks, m2, mapG_mono (copyG_mono (Nat.le_max_right _ _)) _ _ _ h2, rfl⟩⟩⟩⟩⟩

/-- C79 (partial): after a replace that ends, the node has the fields of the value but for its
comments, and copies of what the value refers to; nothing else that was there has changed. -/
theorem C79_replace_partial (E : Sed) (m m' : GMem) (s : NoDangling m) (k p q : Nat) (hp : p < m.next) (hq : q < m.next)
    (h : replaceG E k p q m = some ((), m')) :
    OnlyAt m m' p ∧
    (m'.get p).hd.kind = (m.get q).hd.kind ∧ (m'.get p).hd.tag = (m.get q).hd.tag ∧ (m'.get p).hd.value = (m.get q).hd.value ∧
    (m'.get p).hd.anchor = (m.get q).hd.anchor ∧ (m'.get p).hd.style = (m.get q).hd.style ∧
    Copies m m' (m.get q).alias.toList (m'.get p).alias.toList ∧ Copies m m' (m.get q).content (m'.get p).content := by
  have hal : ∀ x ∈ (m.get q).alias.toList, x < m.next := fun x hx => s q hq x (.inr (by simpa using hx))
  have hct : ∀ x ∈ (m.get q).content, x < m.next := fun x hx => s q hq x (.inl hx)
  rw [replaceG, GM.bind_some] at h
  obtain ⟨c, m0, h0, h⟩ := h
  cases h0
  rw [GM.bind_some] at h
  obtain ⟨c, m0, h0, h⟩ := h
  cases h0
  rw [GM.bind_some] at h
  obtain ⟨al, m1, h1, h⟩ := h
  rw [GM.bind_some] at h
  obtain ⟨ks, m2, h2, h⟩ := h
  have c1 := mapG_copy (copyG_copied k) _ m al m1 s hal h1
  have c2 := mapG_copy (copyG_copied k) _ m1 ks m2 c1.sound (fun x hx => Nat.lt_of_lt_of_le (hct x hx) c1.grown.next) h2
  have hlen := mapG_opt_length h1
  have g := c1.grown.trans c2.grown
  have k1 : Copies m m2 (m.get q).alias.toList al := c1.copies.frame c2.grown.next (fun a _ ha => c2.grown.old a ha)
  have k2 : Copies m m2 (m.get q).content ks := by
    refine ⟨fun d => ?_, fun x hx y hy => ?_⟩
    · rw [c2.copies.1 d]
      exact List.map_congr_left fun x hx => c1.grown.look s id d x (hct x hx)
    · have := c2.copies.2 x hx y hy
      exact ⟨Nat.le_trans c1.grown.next this.1, this.2⟩
  cases h
  refine ⟨fun a ha hne => ?_, ?_⟩
  · simp only
    rw [if_neg hne, g.old a ha]
  · simp only [if_true, true_and]
    rw [hlen]
    exact ⟨k1.frame (Nat.le_refl _) (fun a h1 _ => by simp only; rw [if_neg (by omega)]),
      k2.frame (Nat.le_refl _) (fun a h1 _ => by simp only; rw [if_neg (by omega)])⟩

/-- C79: adding nodes of a value during a merge ends exactly if none has such an alias. -/
theorem C79_add_ends_iff (E : Sed) (m : GMem) (s : NoDangling m) (p : Nat) (nv : List Nat) (hn : ∀ q ∈ nv, q < m.next) :
    Finishes (fun k => addNodeG E k p nv) m ↔ ∀ q ∈ nv, ¬ Circular m q := by
  constructor
  · rintro ⟨k, r, h⟩
    change addNodeG E k p nv m = some r at h
    rw [addNodeG, GM.bind_some] at h
    obtain ⟨temp, m1, h1, _⟩ := h
    exact mapG_ends s hn h1
  · intro h
    obtain ⟨k, hk⟩ := mapG_safely nv hn (fun q hq => safely_of_not_circular s (hn q hq) (h q hq))
    obtain ⟨⟨temp, m1⟩, h1⟩ := hk m (Grown.refl _) s
    have c := mapG_copy (copyG_copied k) _ m temp m1 s hn h1
    obtain ⟨xs, m2, h2, _⟩ := sanitizesG_ends E m1 m.next m1.next (max k m1.next) (Nat.le_max_right _ _)
      (fun a h1 h2 q hq => ⟨c.closed a h1 h2 q (.inl hq), c.down a h1 h2 q (.inl hq)⟩) temp c.new m1 (SameRefs.refl _)
    exact ⟨max k m1.next, _, GM.bind_some.2 ⟨temp, m1, mapG_mono (copyG_mono (Nat.le_max_left _ _)) _ _ _ h1,
      GM.bind_some.2 ⟨xs, m2, h2, GM.bind_some.2 ⟨_, _, rfl, rfl⟩⟩⟩⟩

/-- C79 (partial): after nodes were added, by an addition that ends, the target has its children
and new ones after them, which but for texts and comments (C08) look like those of the value,
aliases included, and share nothing with what was there; nothing else has changed. -/
theorem C79_add_partial (E : Sed) (m m' : GMem) (s : NoDangling m) (k p : Nat) (nv : List Nat) (hp : p < m.next) (hn : ∀ q ∈ nv, q < m.next)
    (h : addNodeG E k p nv m = some ((), m')) :
    OnlyAt m m' p ∧ ∃ new, (m'.get p).content = (m.get p).content ++ new ∧
      (∀ d, new.map (outline m' d) = nv.map (outline m d)) ∧
      ∀ x ∈ new, ∀ y, Reachable m' x y → m.next ≤ y ∧ y < m'.next := by
  rw [addNodeG, GM.bind_some] at h
  obtain ⟨temp, m1, h1, h⟩ := h
  have c := mapG_copy (copyG_copied k) _ m temp m1 s hn h1
  obtain ⟨xs, m2, h2, s2, o2⟩ := sanitizesG_ends E m1 m.next m1.next (max k m1.next) (Nat.le_max_right _ _)
      (fun a h1 h2 q hq => ⟨c.closed a h1 h2 q (.inl hq), c.down a h1 h2 q (.inl hq)⟩) temp c.new m1 (SameRefs.refl _)
  rw [GM.bind_some] at h
  obtain ⟨ys, m3, h3, h⟩ := h
  have e3 := mapG_sanitize_mono E (Nat.le_max_left k m1.next) temp m1 _ h3
  rw [h2] at e3
  cases e3
  cases h
  have hnew : ∀ x ∈ temp, ∀ y, Reachable m2 x y → m.next ≤ y ∧ y < m2.next := by
    intro x hx y hy
    have := c.copies.2 x hx y (s2.reachable hy)
    rw [s2.1]
    exact this
  have hframe : ∀ x ∈ temp, ∀ y, Reachable m2 x y → (if y = p then
      { hd := { (m2.get p).hd with nilc := (m2.get p).hd.nilc && temp.isEmpty }, «alias» := (m2.get p).alias,
        content := (m2.get p).content ++ temp : GNode } else m2.get y) = m2.get y := by
    intro x hx y hy
    have := hnew x hx y hy
    rw [if_neg (by omega)]
  refine ⟨fun a ha hne => ?_, temp, ?_, fun d => ?_, fun x hx y hy => hnew x hx y (reachable_congr (hframe x hx) hy)⟩
  · simp only
    rw [if_neg hne, o2 a ha, c.grown.old a ha]
  · simp only [if_true]
    rw [o2 p hp, c.grown.old p hp]
  · rw [← show temp.map (outline m1 d) = nv.map (outline m d) from c.same _ d]
    refine List.map_congr_left fun x hx => ?_
    rw [← s2.outline d x]
    exact look_congr _ d x (hframe x hx)

/-- The memory with the value `&a [*a]` at 1, and a scalar `0` at 3. -/
def ownAlias : GMem :=
  { get := fun a => if a = 1 then ⟨{ addr := 1, kind := .sequence, anchor := c!"a", nilc := false }, none, [2]⟩
      else if a = 2 then ⟨{ addr := 2, kind := .alias, value := c!"a", hasAlias := true }, some 1, []⟩
      else ⟨{ addr := a, kind := .scalar, value := c!"0" }, none, []⟩, next := 4 }

/-- The memory with the value `[&a 1, *a]` at 1, and a scalar `0` at 4. -/
def twoItems : GMem :=
  { get := fun a => if a = 1 then ⟨{ addr := 1, kind := .sequence, nilc := false }, none, [2, 3]⟩
      else if a = 2 then ⟨{ addr := 2, kind := .scalar, anchor := c!"a", value := c!"1" }, none, []⟩
      else if a = 3 then ⟨{ addr := 3, kind := .alias, value := c!"a", hasAlias := true }, some 2, []⟩
      else ⟨{ addr := a, kind := .scalar, value := c!"0" }, none, []⟩, next := 5 }

theorem ownAlias_sound : NoDangling ownAlias := by
  intro p hp q hq
  unfold Refers ownAlias at hq
  show q < 4
  by_cases h1 : p = 1
  · subst h1; simp at hq; omega
  · by_cases h2 : p = 2
    · subst h2; simp at hq; omega
    · simp [h1, h2] at hq

theorem ownAlias_circular : Circular ownAlias 1 :=
  ⟨1, .refl, .tail (.single (b := 2) (.inl (by simp [ownAlias]))) (.inr (by simp [ownAlias]))⟩

/-- **C79 is false of the code** for a value like `&a [*a]`: replacing a node by it, and adding it
in a merge, never end, whatever the size of the stack. -/
theorem C79_self_reference (E : Sed) : NoDangling ownAlias ∧
    (∀ k, replaceG E k 3 1 ownAlias = none) ∧ (∀ k, addNodeG E k 3 [1] ownAlias = none) := by
  refine ⟨ownAlias_sound, fun k => ?_, fun k => ?_⟩
  · cases h : replaceG E k 3 1 ownAlias with
    | none => rfl
    | some r => exact absurd ownAlias_circular ((C79_replace_ends_iff E ownAlias ownAlias_sound 3 1 (by decide)).1 ⟨k, r, h⟩)
  · cases h : addNodeG E k 3 [1] ownAlias with
    | none => rfl
    | some r => exact absurd ownAlias_circular ((C79_add_ends_iff E ownAlias ownAlias_sound 3 [1] (by decide)).1 ⟨k, r, h⟩ 1 (by simp))

example : NoDangling twoItems ∧ Finishes (fun k => replaceG Ex.noSed k 4 1) twoItems ∧ Finishes (fun k => addNodeG Ex.noSed k 4 [1]) twoItems := by
  refine ⟨?_, ⟨5, _, rfl⟩, ⟨5, _, rfl⟩⟩
  intro p hp q hq
  unfold Refers twoItems at hq
  show q < 5
  by_cases h1 : p = 1
  · subst h1; simp at hq; omega
  · by_cases h2 : p = 2
    · subst h2; simp at hq
    · by_cases h3 : p = 3
      · subst h3; simp at hq; omega
      · simp [h1, h2, h3] at hq

end Yot
