import Verif.Spec.Compare
import Verif.Spec.Query
import Verif.Lemmas.Graph
namespace Yot
open Spec

/-! ### It ends -/

/-- The nodes on the left not met yet. -/
def freshOnes (m : GMem) (path : CmpPath) : Nat := ((List.range m.next).filter (fun x => (x, false) ∉ path.map (·.1))).length

theorem freshOnes_push {m : GMem} {path : CmpPath} {x : Nat} {y : Nat × Bool} (hx : x < m.next) (h : (x, false) ∉ path.map (·.1)) :
    freshOnes m (((x, false), y) :: path) < freshOnes m path := by
  unfold freshOnes
  have hsub : ((List.range m.next).filter (fun z => (z, false) ∉ (((x, false), y) :: path).map (·.1))) =
      ((List.range m.next).filter (fun z => (z, false) ∉ path.map (·.1))).filter (fun z => z ≠ x) := by
    rw [List.filter_filter]
    refine List.filter_congr fun z _ => ?_
    simp only [List.map_cons, List.mem_cons, Prod.mk.injEq, and_true, not_or, Bool.decide_and]
  rw [hsub]
  refine List.length_filter_lt_length_iff_exists.2 ⟨x, ?_, by simp⟩
  exact List.mem_filter.2 ⟨List.mem_range.2 hx, by simpa using h⟩

theorem freshOnes_slice (m : GMem) (path : CmpPath) (p : Nat) (y : Nat × Bool) : freshOnes m (((p, true), y) :: path) = freshOnes m path := by
  unfold freshOnes
  congr 1
  refine List.filter_congr fun z _ => ?_
  simp

theorem cmpAllG_ne_none {f : Nat → Nat → Option Bool} (xs : List Nat) : ∀ ys, (∀ x ∈ xs, ∀ y, f x y ≠ none) → cmpAllG f xs ys ≠ none := by
  induction xs with
  | nil => intro ys _; cases ys <;> simp [cmpAllG]
  | cons x xs ih =>
    intro ys h
    cases ys with
    | nil => simp [cmpAllG]
    | cons y ys =>
      rw [cmpAllG]
      have h1 := h x (by simp) y
      have h2 := ih ys (fun x hx => h x (by simp [hx]))
      cases ha : f x y with
      | none => exact absurd ha h1
      | some a =>
        cases hb : cmpAllG f xs ys with
        | none => exact absurd hb h2
        | some b => simp

theorem cmpAtG_ends {m : GMem} (s : NoDangling m) (fuel : Nat) : ∀ (path : CmpPath) (p q : Nat), p < m.next → freshOnes m path < fuel →
    cmpAtG m fuel path p q ≠ none := by
  induction fuel with
  | zero => intro _ _ _ _ h; omega
  | succ fuel ih =>
    intro path p q hp hf
    have ptr : ∀ (path' : CmpPath) (x y : Nat), Refers m p x → freshOnes m path' = freshOnes m path → cmpPtrG (cmpAtG m fuel) path' x y ≠ none := by
      intro path' x y hr he
      unfold cmpPtrG
      split
      · simp
      · rename_i hs
        refine ih _ x y (s p hp x hr) ?_
        have hx : (x, false) ∉ path'.map (·.1) := by
          intro hin
          obtain ⟨e, h1, h2⟩ := List.mem_map.1 hin
          exact hs (List.any_eq_true.2 ⟨e, h1, by simp [h2]⟩)
        have := freshOnes_push (y := (y, false)) (s p hp x hr) hx
        omega
    rw [cmpAtG]
    have hA : cmpAliasG (cmpAtG m fuel) path (m.get p).alias (m.get q).alias ≠ none := by
      cases ha : (m.get p).alias with
      | none => cases (m.get q).alias <;> simp [cmpAliasG]
      | some x =>
        cases (m.get q).alias with
        | none => simp [cmpAliasG]
        | some y => exact ptr path x y (.inr ha) rfl
    have hB : cmpContentG (cmpAtG m fuel) path p q (m.get p) (m.get q) ≠ none := by
      unfold cmpContentG
      split
      · simp
      · split
        · simp
        · exact cmpAllG_ne_none _ _ fun x hx y => ptr _ x y (.inl hx) (freshOnes_slice m path p _)
    cases hA' : cmpAliasG (cmpAtG m fuel) path (m.get p).alias (m.get q).alias with
    | none => exact absurd hA' hA
    | some a =>
      cases hB' : cmpContentG (cmpAtG m fuel) path p q (m.get p) (m.get q) with
      | none => exact absurd hB' hB
      | some b => simp

/-! ### What it says -/

theorem look_succ (g : Hdr → Hdr) (m : GMem) (d p q : Nat) : lookBy g m (d + 1) p = lookBy g m (d + 1) q ↔
    g { (m.get p).hd with addr := 0 } = g { (m.get q).hd with addr := 0 } ∧
    (m.get p).alias.toList.map (lookBy g m d) = (m.get q).alias.toList.map (lookBy g m d) ∧
    (m.get p).content.map (lookBy g m d) = (m.get q).content.map (lookBy g m d) := by
  rw [lookBy, lookBy, View.node.injEq]

theorem look_mono (g : Hdr → Hdr) (m : GMem) (d : Nat) : ∀ p q, lookBy g m (d + 1) p = lookBy g m (d + 1) q → lookBy g m d p = lookBy g m d q := by
  induction d with
  | zero => intro p q _; rfl
  | succ d ih =>
    intro p q h
    rw [look_succ] at h ⊢
    have up : ∀ xs ys : List Nat, xs.map (lookBy g m (d + 1)) = ys.map (lookBy g m (d + 1)) → xs.map (lookBy g m d) = ys.map (lookBy g m d) := by
      intro xs
      induction xs with
      | nil => intro ys h; cases ys with | nil => rfl | cons => simp at h
      | cons x xs ihx =>
        intro ys h
        cases ys with
        | nil => simp at h
        | cons y ys =>
          simp only [List.map_cons, List.cons.injEq] at h ⊢
          exact ⟨ih x y h.1, ihx ys h.2⟩
    exact ⟨h.1, up _ _ h.2.1, up _ _ h.2.2⟩

theorem sameFields_iff {m : GMem} (hn : NilMeans m) (p q : Nat)
    (hnil : ((m.get p).hd.nilc && (m.get p).content.isEmpty) = ((m.get q).hd.nilc && (m.get q).content.isEmpty)) :
    sameFields (m.get p).hd (m.get q).hd = true ↔ counts { (m.get p).hd with addr := 0 } = counts { (m.get q).hd with addr := 0 } := by
  have e : ∀ x, ((m.get x).hd.nilc && (m.get x).content.isEmpty) = (m.get x).hd.nilc := by
    intro x
    cases h : (m.get x).hd.nilc with
    | false => rfl
    | true => rw [hn x h]; rfl
  rw [e, e] at hnil
  simp only [sameFields, counts, Bool.and_eq_true, decide_eq_true_eq, Hdr.mk.injEq, hnil]
  tauto

/-- The pairs on the path look the same down to a depth. -/
def PathOk (m : GMem) (d : Nat) (path : CmpPath) : Prop :=
  (∀ x y, ((x, false), (y, false)) ∈ path → lookBy counts m d x = lookBy counts m d y) ∧
  (∀ x y, ((x, true), (y, true)) ∈ path → ∀ d', d = d' + 1 → (m.get x).content.map (lookBy counts m d') = (m.get y).content.map (lookBy counts m d'))

theorem PathOk.mono {m : GMem} {d : Nat} {path : CmpPath} (h : PathOk m (d + 1) path) : PathOk m d path := by
  refine ⟨fun x y hxy => look_mono _ _ _ _ _ (h.1 x y hxy), fun x y hxy d' hd' => ?_⟩
  subst hd'
  have := h.2 x y hxy (d' + 1) rfl
  generalize (m.get x).content = xs at this ⊢
  generalize (m.get y).content = ys at this ⊢
  clear h hxy
  induction xs generalizing ys with
  | nil => cases ys with | nil => rfl | cons => simp at this
  | cons x xs ih =>
    cases ys with
    | nil => simp at this
    | cons y ys =>
      simp only [List.map_cons, List.cons.injEq] at this ⊢
      exact ⟨look_mono _ _ _ _ _ this.1, ih ys this.2⟩

theorem cmpAllG_true {f : Nat → Nat → Option Bool} {α : Type} (g : Nat → α) (xs : List Nat) : ∀ ys, cmpAllG f xs ys = some true →
    (∀ x ∈ xs, ∀ y ∈ ys, f x y = some true → g x = g y) → xs.map g = ys.map g := by
  induction xs with
  | nil => intro ys h _; cases ys with | nil => rfl | cons => simp [cmpAllG] at h
  | cons x xs ih =>
    intro ys h hf
    cases ys with
    | nil => simp [cmpAllG] at h
    | cons y ys =>
      rw [cmpAllG] at h
      cases ha : f x y with
      | none => rw [ha] at h; simp at h
      | some a =>
        cases hb : cmpAllG f xs ys with
        | none => rw [ha, hb] at h; simp at h
        | some b =>
          rw [ha, hb] at h
          simp only [Option.bind_eq_bind, Option.bind_some, Option.pure_def, Option.some.injEq, Bool.and_eq_true] at h
          obtain ⟨rfl, rfl⟩ := h
          rw [List.map_cons, List.map_cons, hf x (by simp) y (by simp) ha, ih ys hb (fun x hx y hy => hf x (by simp [hx]) y (by simp [hy]))]

/-- The parts of a comparison. -/
theorem cmpAtG_true {m : GMem} {fuel : Nat} {path : CmpPath} {p q : Nat} (h : cmpAtG m (fuel + 1) path p q = some true) :
    sameFields (m.get p).hd (m.get q).hd = true ∧
    (((m.get p).alias = none ∧ (m.get q).alias = none) ∨ ∃ x y, (m.get p).alias = some x ∧ (m.get q).alias = some y ∧ cmpPtrG (cmpAtG m fuel) path x y = some true) ∧
    ((m.get p).hd.nilc && (m.get p).content.isEmpty) = ((m.get q).hd.nilc && (m.get q).content.isEmpty) ∧
    (((m.get p).content = [] ∧ (m.get q).content = []) ∨ ((p, true), (q, true)) ∈ path ∨
      cmpAllG (cmpPtrG (cmpAtG m fuel) (((p, true), (q, true)) :: path)) (m.get p).content (m.get q).content = some true) := by
  rw [cmpAtG] at h
  simp only [Option.bind_eq_bind, Option.bind_eq_some_iff, Option.pure_def, Option.some.injEq, Bool.and_eq_true] at h
  obtain ⟨a, hA, b, hB, ⟨h1, rfl⟩, rfl⟩ := h
  refine ⟨h1, ?_, ?_⟩
  · cases ha : (m.get p).alias with
    | none =>
      rw [ha] at hA
      cases hb : (m.get q).alias with
      | none => exact .inl ⟨rfl, rfl⟩
      | some y => rw [hb] at hA; simp [cmpAliasG] at hA
    | some x =>
      rw [ha] at hA
      cases hb : (m.get q).alias with
      | none => rw [hb] at hA; simp [cmpAliasG] at hA
      | some y => rw [hb] at hA; exact .inr ⟨x, y, rfl, rfl, hA⟩
  · unfold cmpContentG at hB
    split at hB
    · rename_i hnil
      simp only [Option.some.injEq, decide_eq_true_eq] at hB
      refine ⟨hB, .inl ?_⟩
      rw [hB, Bool.or_self, Bool.and_eq_true] at hnil
      have h2 := hB
      rw [hnil.1, hnil.2] at h2
      simp only [Bool.and_self, Bool.and_eq_true, List.isEmpty_iff] at h2
      exact ⟨h2.2, by simpa using hnil.2⟩
    · rename_i hnil
      simp only [Bool.or_eq_true, not_or, Bool.not_eq_true] at hnil
      refine ⟨by rw [hnil.1, hnil.2], ?_⟩
      split at hB
      · simp only [Option.some.injEq, List.contains_iff_mem] at hB
        exact .inr (.inl hB)
      · exact .inr (.inr hB)

theorem cmpAtG_sound {m : GMem} (hn : NilMeans m) (d : Nat) : ∀ (fuel : Nat) (path path0 : CmpPath) (p q : Nat),
    (path = path0 ∨ path = ((p, false), (q, false)) :: path0) → PathOk m d path0 → cmpAtG m fuel path p q = some true →
    lookBy counts m d p = lookBy counts m d q := by
  induction d with
  | zero => intros; rfl
  | succ d ih =>
    intro fuel path path0 p q hpath hok h
    cases fuel with
    | zero => simp [cmpAtG] at h
    | succ fuel =>
      have hself : lookBy counts m d p = lookBy counts m d q := ih (fuel + 1) path path0 p q hpath hok.mono h
      obtain ⟨h1, h2, h3, h4⟩ := cmpAtG_true h
      have hpok : PathOk m d path := by
        rcases hpath with rfl | rfl
        · exact hok.mono
        · refine ⟨fun x y hxy => ?_, fun x y hxy => ?_⟩
          · rcases List.mem_cons.1 hxy with he | hxy
            · cases he; exact hself
            · exact hok.mono.1 x y hxy
          · rcases List.mem_cons.1 hxy with he | hxy
            · cases he
            · exact hok.mono.2 x y hxy
      have ptr : ∀ path' : CmpPath, PathOk m d path' → ∀ x y, cmpPtrG (cmpAtG m fuel) path' x y = some true → lookBy counts m d x = lookBy counts m d y := by
        intro path' hp' x y hc
        unfold cmpPtrG at hc
        split at hc
        · simp only [Option.some.injEq, List.contains_iff_mem] at hc
          exact hp'.1 x y hc
        · exact ih fuel _ path' x y (.inr rfl) hp' hc
      rw [look_succ]
      refine ⟨(sameFields_iff hn p q h3).1 h1, ?_, ?_⟩
      · rcases h2 with ⟨ha, hb⟩ | ⟨x, y, ha, hb, hc⟩
        · rw [ha, hb]
        · rw [ha, hb]
          simp only [Option.toList_some, List.map_cons, List.map_nil, List.cons.injEq, and_true]
          exact ptr path hpok x y hc
      · rcases h4 with ⟨ha, hb⟩ | hin | hall
        · rw [ha, hb]
        · have hin0 : ((p, true), (q, true)) ∈ path0 := by
            rcases hpath with rfl | rfl
            · exact hin
            · simpa using hin
          exact hok.2 p q hin0 d rfl
        · refine cmpAllG_true _ _ _ hall fun x _ y _ hc => ptr _ ?_ x y hc
          refine ⟨fun a b hab => ?_, fun a b hab d' hd' => ?_⟩
          · rcases List.mem_cons.1 hab with he | hab
            · cases he
            · exact hpok.1 a b hab
          · rcases List.mem_cons.1 hab with he | hab
            · cases he
              subst hd'
              exact ((look_succ _ _ _ _ _).1 hself).2.2
            · exact hpok.2 a b hab d' hd'

/-! ### Values that do not contain themselves -/

/-- What is on the path contains the nodes at `p` and `q`. -/
def Above (m : GMem) (path : CmpPath) (p q : Nat) : Prop :=
  ∀ e ∈ path, (Relation.TransGen (Refers m) e.1.1 p ∨ e.1 = (p, false)) ∧ (Relation.TransGen (Refers m) e.2.1 q ∨ e.2 = (q, false))

theorem circular_self {m : GMem} {p : Nat} (h : Relation.TransGen (Refers m) p p) : Circular m p := ⟨p, .refl, h⟩

theorem circular_down {m : GMem} {p x : Nat} (hr : Refers m p x) (h : Circular m x) : Circular m p := by
  obtain ⟨y, h1, h2⟩ := h
  exact ⟨y, .head hr h1, h2⟩

theorem seen_false {m : GMem} {path : CmpPath} {p q x y : Nat} {b : Bool} (hab : Above m path p q) (hcp : ¬ Circular m p) (hcq : ¬ Circular m q)
    (hx : (b = false ∧ Refers m p x) ∨ (b = true ∧ x = p)) (hy : (b = false ∧ Refers m q y) ∨ (b = true ∧ y = q)) : path.seen (x, b) (y, b) = false := by
  rw [CmpPath.seen, List.any_eq_false]
  intro e he hs
  obtain ⟨h1, h2⟩ := hab e he
  have side : ∀ (k : Nat × Bool) (p x : Nat), ¬ Circular m p → (Relation.TransGen (Refers m) k.1 p ∨ k = (p, false)) →
      ((b = false ∧ Refers m p x) ∨ (b = true ∧ x = p)) → k ≠ (x, b) := by
    rintro k p x hc h hx rfl
    rcases hx with ⟨rfl, hr⟩ | ⟨rfl, rfl⟩
    · rcases h with h | h
      · exact hc ⟨x, .single hr, .tail h hr⟩
      · cases h; exact hc (circular_self (.single hr))
    · rcases h with h | h
      · exact hc (circular_self h)
      · cases h
  simp only [Bool.or_eq_true, decide_eq_true_eq] at hs
  rcases hs with hs | hs
  · exact side e.1 p x hcp h1 hx hs
  · exact side e.2 q y hcq h2 hy hs

theorem Above.child {m : GMem} {path : CmpPath} {p q x y : Nat} (h : Above m path p q) (hx : Refers m p x) (hy : Refers m q y) :
    Above m (((x, false), (y, false)) :: path) x y := by
  intro e he
  rcases List.mem_cons.1 he with rfl | he
  · exact ⟨.inr rfl, .inr rfl⟩
  · obtain ⟨h1, h2⟩ := h e he
    refine ⟨.inl ?_, .inl ?_⟩
    · rcases h1 with h1 | h1
      · exact .tail h1 hx
      · rw [h1]; exact .single hx
    · rcases h2 with h2 | h2
      · exact .tail h2 hy
      · rw [h2]; exact .single hy

theorem cmpAtG_complete {m : GMem} (hn : NilMeans m) (fuel : Nat) : ∀ (path : CmpPath) (p q : Nat), Above m path p q → ¬ Circular m p → ¬ Circular m q →
    SameValue m p q → ∀ b, cmpAtG m fuel path p q = some b → b = true := by
  induction fuel with
  | zero => intro _ _ _ _ _ _ _ b h; simp [cmpAtG] at h
  | succ fuel ih =>
    intro path p q hab hcp hcq hsame b h
    have hlook := fun d => (look_succ _ _ _ _ _).1 (hsame (d + 1))
    have hnil : ((m.get p).hd.nilc && (m.get p).content.isEmpty) = ((m.get q).hd.nilc && (m.get q).content.isEmpty) := by
      have h1 := (hlook 0).1
      have h2 : (m.get p).hd.nilc = (m.get q).hd.nilc := by
        simpa [counts] using congrArg Hdr.nilc h1
      have h3 : (m.get p).content.length = (m.get q).content.length := by simpa using congrArg List.length (hlook 0).2.2
      have h4 : (m.get p).content.isEmpty = (m.get q).content.isEmpty := by
        cases h5 : (m.get p).content <;> cases h6 : (m.get q).content <;> simp_all
      rw [h2, h4]
    have hsf := (sameFields_iff hn p q hnil).2 (hlook 0).1
    -- a pointer
    have ptr : ∀ (path' : CmpPath) (x y : Nat), Above m path' p q ∨ (∃ r, path' = ((p, true), (q, true)) :: r ∧ Above m r p q) → Refers m p x → Refers m q y → SameValue m x y →
        ∀ c, cmpPtrG (cmpAtG m fuel) path' x y = some c → c = true := by
      intro path' x y hp' hx hy hs c hc
      have hns : path'.seen (x, false) (y, false) = false := by
        rcases hp' with hp' | ⟨r, rfl, hp'⟩
        · exact seen_false hp' hcp hcq (.inl ⟨rfl, hx⟩) (.inl ⟨rfl, hy⟩)
        · have := seen_false hp' hcp hcq (b := false) (.inl ⟨rfl, hx⟩) (.inl ⟨rfl, hy⟩)
          unfold CmpPath.seen at this ⊢
          rw [List.any_cons, this]
          simp
      unfold cmpPtrG at hc
      rw [hns] at hc
      simp only [Bool.false_eq_true, if_false] at hc
      refine ih _ x y ?_ (fun hc' => hcp (circular_down hx hc')) (fun hc' => hcq (circular_down hy hc')) hs c hc
      rcases hp' with hp' | ⟨r, rfl, hp'⟩
      · exact hp'.child hx hy
      · intro e he
        rcases List.mem_cons.1 he with rfl | he
        · exact ⟨.inr rfl, .inr rfl⟩
        · rcases List.mem_cons.1 he with rfl | he
          · exact ⟨.inl (.single hx), .inl (.single hy)⟩
          · exact (hp'.child hx hy) e (List.mem_cons_of_mem _ he)
    rw [cmpAtG] at h
    simp only [Option.bind_eq_bind, Option.bind_eq_some_iff, Option.pure_def, Option.some.injEq] at h
    obtain ⟨a, hA, c, hB, rfl⟩ := h
    have ha : a = true := by
      have hal := fun d => (hlook d).2.1
      cases hpa : (m.get p).alias with
      | none =>
        rw [hpa] at hA hal
        cases hqa : (m.get q).alias with
        | none => rw [hqa] at hA; simpa [cmpAliasG] using hA.symm
        | some y => rw [hqa] at hal; simpa using hal 0
      | some x =>
        rw [hpa] at hA hal
        cases hqa : (m.get q).alias with
        | none => rw [hqa] at hal; simpa using hal 0
        | some y =>
          rw [hqa] at hA hal
          exact ptr path x y (.inl hab) (.inr hpa) (.inr hqa) (fun d => by simpa using hal d) a hA
    have hc : c = true := by
      unfold cmpContentG at hB
      split at hB
      · simp only [Option.some.injEq] at hB
        rw [← hB]; simpa using hnil
      · rw [seen_false hab hcp hcq (b := true) (.inr ⟨rfl, rfl⟩) (.inr ⟨rfl, rfl⟩)] at hB
        simp only [Bool.false_eq_true, if_false] at hB
        have hall : ∀ (xs ys : List Nat), (∀ d, xs.map (lookBy counts m d) = ys.map (lookBy counts m d)) → (∀ x ∈ xs, Refers m p x) → (∀ y ∈ ys, Refers m q y) →
            ∀ c, cmpAllG (cmpPtrG (cmpAtG m fuel) (((p, true), (q, true)) :: path)) xs ys = some c → c = true := by
          intro xs
          induction xs with
          | nil =>
            intro ys hl _ _ c hc
            cases ys with
            | nil => simpa [cmpAllG] using hc.symm
            | cons y ys => simpa using hl 0
          | cons x xs ihx =>
            intro ys hl hx hy c hc
            cases ys with
            | nil => simpa using hl 0
            | cons y ys =>
              simp only [List.map_cons, List.cons.injEq] at hl
              rw [cmpAllG] at hc
              simp only [Option.bind_eq_bind, Option.bind_eq_some_iff, Option.pure_def, Option.some.injEq] at hc
              obtain ⟨u, hu, w, hw, rfl⟩ := hc
              rw [ptr _ x y (.inr ⟨path, rfl, hab⟩) (hx x (by simp)) (hy y (by simp)) (fun d => (hl d).1) u hu,
                ihx ys (fun d => (hl d).2) (fun x h => hx x (by simp [h])) (fun y h => hy y (by simp [h])) w hw]
              rfl
        exact hall _ _ (fun d => (hlook d).2.2) (fun x hx => .inl hx) (fun y hy => .inl hy) c hB
    rw [ha, hc, hsf]
    rfl

end Yot
