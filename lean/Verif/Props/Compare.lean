import Verif.Lemmas.Compare
import Verif.Lemmas.Query
import Verif.Props.Graph
import Verif.Props.Apply
/-
C95: the comparison of a match with the value of a condition, aliases included.
-/
namespace Yot
open Spec Ex

/-- **C95**: the comparison ends, also for values that contain themselves (copying these does
not, C79). -/
theorem C95_ends (m : GMem) (s : NoDangling m) (p q : Nat) (hp : p < m.next) (fuel : Nat) (hf : m.next < fuel) :
    ∃ b, compareG m fuel p q = some b := by
  have h := cmpAtG_ends s fuel [] p q hp (by
    unfold freshOnes
    have := List.length_filter_le (fun x => decide ((x, false) ∉ ([] : CmpPath).map (·.1))) (List.range m.next)
    rw [List.length_range] at this
    omega)
  cases hc : compareG m fuel p q with
  | none => exact absurd hc h
  | some b => exact ⟨b, rfl⟩

/-- **C95**: what compares as equal has the same kinds, tags, texts and anchors as deep as one
looks, through children and through aliases; this holds for values that contain themselves too. -/
theorem C95_equal_looks_same (m : GMem) (hn : NilMeans m) (fuel p q : Nat) (h : compareG m fuel p q = some true) : SameValue m p q :=
  fun d => cmpAtG_sound hn d fuel [] [] p q (.inl rfl) ⟨by simp, by simp⟩ h

/-- **C95**: values that do not contain themselves compare as equal exactly if they look the same,
through children and through aliases. -/
theorem C95_equal_iff (m : GMem) (s : NoDangling m) (hn : NilMeans m) (p q : Nat) (hp : p < m.next)
    (hcp : ¬ Circular m p) (hcq : ¬ Circular m q) (fuel : Nat) (hf : m.next < fuel) :
    compareG m fuel p q = some true ↔ SameValue m p q := by
  refine ⟨C95_equal_looks_same m hn fuel p q, fun h => ?_⟩
  obtain ⟨b, hb⟩ := C95_ends m s p q hp fuel hf
  rw [hb, cmpAtG_complete hn fuel [] p q (by intro e he; simp at he) hcp hcq h b hb]

/-! ### Values without aliases -/

mutual
/-- How many nodes there are. -/
def treeSize : Node → Nat
  | .mk _ cs => treeSizes cs + 1
/-- On lists. -/
def treeSizes : List Node → Nat
  | [] => 0
  | c :: cs => treeSize c + treeSizes cs
end

theorem treeSizes_mem {c : Node} {cs : List Node} (h : c ∈ cs) : treeSize c ≤ treeSizes cs := by
  induction cs with
  | nil => simp at h
  | cons d cs ih =>
    rw [treeSizes]
    rcases List.mem_cons.1 h with rfl | h
    · omega
    · have := ih h; omega

theorem shows_unique {m : GMem} (t : Node) : ∀ p t', Shows m p t → Shows m p t' → t = t' := by
  induction t using Node.ind with
  | h h cs ih =>
    intro p t' h1 h2
    obtain ⟨h', ds⟩ := t'
    rw [Shows] at h1 h2
    obtain ⟨e1, z1, h1⟩ := h1
    obtain ⟨e2, z2, h2⟩ := h2
    clear z1 z2
    rw [← e1, ← e2]
    congr 1
    clear e1 e2
    generalize (m.get p).content = ps at h1 h2
    induction cs generalizing ps ds with
    | nil =>
      cases ps with
      | nil => cases ds with | nil => rfl | cons => simp [ShowsAll] at h2
      | cons => simp [ShowsAll] at h1
    | cons c cs ih2 =>
      cases ps with
      | nil => simp [ShowsAll] at h1
      | cons x xs =>
        cases ds with
        | nil => simp [ShowsAll] at h2
        | cons d ds =>
          rw [ShowsAll] at h1 h2
          rw [ih c (by simp) x d h1.1 h2.1, ih2 (fun c hc => ih c (by simp [hc])) ds xs h1.2 h2.2]

/-- What is on the path is larger. -/
def Larger (m : GMem) (k : Nat × Bool) (p : Nat) (t : Node) : Prop := (∃ u, Shows m k.1 u ∧ treeSize t < treeSize u) ∨ k = (p, false)

theorem larger_child {m : GMem} {k : Nat × Bool} {p x : Nat} {t u : Node} (h : Larger m k p t) (hs : Shows m p t) (hu : treeSize u < treeSize t) : Larger m k x u := by
  rcases h with ⟨v, h1, h2⟩ | rfl
  · exact .inl ⟨v, h1, by omega⟩
  · exact .inl ⟨t, hs, hu⟩

theorem larger_ne {m : GMem} {k : Nat × Bool} {p : Nat} {t : Node} (h : Larger m k p t) (hs : Shows m p t) : k ≠ (p, true) := by
  rintro rfl
  rcases h with ⟨v, h1, h2⟩ | h
  · rw [shows_unique _ _ _ h1 hs] at h2; omega
  · simp at h

theorem larger_ne_child {m : GMem} {k : Nat × Bool} {p x : Nat} {t u : Node} (h : Larger m k p t) (hs : Shows m p t) (hsu : Shows m x u) (hu : treeSize u < treeSize t) :
    k ≠ (x, false) := by
  rintro rfl
  rcases h with ⟨v, h1, h2⟩ | h
  · rw [shows_unique _ _ _ h1 hsu] at h2; omega
  · simp only [Prod.mk.injEq, and_true] at h
    subst h
    rw [shows_unique _ _ _ hs hsu] at hu; omega

/-- In memory nodes have an alias target exactly if they are said to have one. -/
def TargetsSaid (m : GMem) : Prop := ∀ a, (m.get a).alias.isSome = (m.get a).hd.hasAlias

theorem cmpAtG_tree {m : GMem} (hal : TargetsSaid m) (t' : Node) : ∀ (fuel : Nat) (path : CmpPath) (p q : Nat) (t : Node), Shows m p t → Shows m q t' →
    AllNodes (fun h => h.hasAlias = false) t' → (∀ e ∈ path, Larger m e.1 p t ∧ Larger m e.2 q t') →
    ∀ b, cmpAtG m fuel path p q = some b → b = cmpEqual t t' := by
  induction t' using Node.ind with
  | h h' ds ih =>
    intro fuel path p q t hp hq hno hpath b h
    cases fuel with
    | zero => simp [cmpAtG] at h
    | succ fuel =>
      obtain ⟨h0, cs⟩ := t
      have hp0 := hp
      have hq0 := hq
      rw [Shows] at hp hq
      obtain ⟨hh, _, hcs⟩ := hp
      obtain ⟨hh', _, hds⟩ := hq
      rw [AllNodes] at hno
      obtain ⟨hno, hnos⟩ := hno
      rw [AllNodess_iff] at hnos
      rw [cmpAtG] at h
      simp only [Option.bind_eq_bind, Option.bind_eq_some_iff, Option.pure_def, Option.some.injEq] at h
      obtain ⟨a, hA, c, hB, rfl⟩ := h
      have hqa : (m.get q).alias = none := by
        have h1 := hal q
        have h2 : (m.get q).hd.hasAlias = false := by rw [← hno, ← hh']
        rw [h2] at h1
        simpa using h1
      have ha : a = decide (h0.hasAlias = h'.hasAlias) := by
        rw [hqa] at hA
        have h1 := hal p
        have h2 : (m.get p).hd.hasAlias = h0.hasAlias := by rw [← hh]
        rw [hno]
        cases hpa : (m.get p).alias with
        | none =>
          rw [hpa] at hA h1
          simp only [cmpAliasG, Option.some.injEq] at hA
          rw [← hA, ← h2, ← h1]; rfl
        | some x =>
          rw [hpa] at hA h1
          simp only [cmpAliasG, Option.some.injEq] at hA
          rw [← hA, ← h2, ← h1]; rfl
      have hsf : sameFields (m.get p).hd (m.get q).hd = (decide (h0.kind = h'.kind) && decide (h0.tag = h'.tag) && decide (h0.value = h'.value) && decide (h0.anchor = h'.anchor)) := by
        rw [← hh, ← hh']; rfl
      have hnil1 : (m.get p).hd.nilc = h0.nilc := by rw [← hh]
      have hnil2 : (m.get q).hd.nilc = h'.nilc := by rw [← hh']
      have hemp : ∀ (ps : List Nat) (us : List Node), ShowsAll m ps us → ps.isEmpty = us.isEmpty := by
        intro ps us hs
        cases ps <;> cases us <;> simp_all [ShowsAll]
      have hc : c = (((h0.nilc && cs.isEmpty) == (h'.nilc && ds.isEmpty)) && cmpEquals cs ds) := by
        unfold cmpContentG at hB
        rw [hnil1, hnil2, hemp _ _ hcs, hemp _ _ hds] at hB
        split at hB
        · rename_i hnil
          simp only [Option.some.injEq] at hB
          rw [← hB]
          cases cs with
          | nil => cases ds with
            | nil => simp only [cmpEquals, Bool.and_true]; cases h0.nilc <;> cases h'.nilc <;> rfl
            | cons => simp [cmpEquals] at hnil ⊢; exact hnil
          | cons => cases ds with
            | nil => simp [cmpEquals] at hnil ⊢; exact hnil
            | cons => simp at hnil
        · rename_i hnil
          simp only [Bool.or_eq_true, not_or, Bool.not_eq_true] at hnil
          have hns : path.seen (p, true) (q, true) = false := by
            rw [CmpPath.seen, List.any_eq_false]
            intro e he hs
            simp only [Bool.or_eq_true, decide_eq_true_eq] at hs
            rcases hs with hs | hs
            · exact larger_ne (hpath e he).1 hp0 hs
            · exact larger_ne (hpath e he).2 hq0 hs
          rw [hns] at hB
          simp only [Bool.false_eq_true, if_false] at hB
          rw [hnil.1, hnil.2]
          simp only [beq_self_eq_true, Bool.true_and]
          have hall : ∀ (xs ys : List Nat) (us vs : List Node), ShowsAll m xs us → ShowsAll m ys vs → (∀ u ∈ us, treeSize u < treeSize (.mk h0 cs)) →
              (∀ v ∈ vs, v ∈ ds) → ∀ c, cmpAllG (cmpPtrG (cmpAtG m fuel) (((p, true), (q, true)) :: path)) xs ys = some c → c = cmpEquals us vs := by
            intro xs
            induction xs with
            | nil =>
              intro ys us vs hxs hys _ _ c hc
              cases us with
              | nil =>
                cases ys with
                | nil => cases vs with
                  | nil => simpa [cmpAllG, cmpEquals] using hc.symm
                  | cons => simp [ShowsAll] at hys
                | cons y ys => cases vs with
                  | nil => simp [ShowsAll] at hys
                  | cons => simpa [cmpAllG, cmpEquals] using hc.symm
              | cons => simp [ShowsAll] at hxs
            | cons x xs ihx =>
              intro ys us vs hxs hys hus hvs c hc
              cases us with
              | nil => simp [ShowsAll] at hxs
              | cons u us =>
                cases ys with
                | nil => cases vs with
                  | nil => simpa [cmpAllG, cmpEquals] using hc.symm
                  | cons => simp [ShowsAll] at hys
                | cons y ys =>
                  cases vs with
                  | nil => simp [ShowsAll] at hys
                  | cons v vs =>
                    rw [ShowsAll] at hxs hys
                    rw [cmpAllG] at hc
                    simp only [Option.bind_eq_bind, Option.bind_eq_some_iff, Option.pure_def, Option.some.injEq] at hc
                    obtain ⟨f, hf, g, hg, rfl⟩ := hc
                    rw [cmpEquals, ← ihx ys us vs hxs.2 hys.2 (fun u hu => hus u (by simp [hu])) (fun v hv => hvs v (by simp [hv])) g hg]
                    congr 1
                    have hu := hus u (by simp)
                    have hvd := hvs v (by simp)
                    have hv : treeSize v < treeSize (.mk h' ds) := by rw [treeSize]; have := treeSizes_mem hvd; omega
                    have hns2 : CmpPath.seen (((p, true), (q, true)) :: path) (x, false) (y, false) = false := by
                      rw [CmpPath.seen, List.any_eq_false]
                      intro e he hs
                      simp only [Bool.or_eq_true, decide_eq_true_eq] at hs
                      rcases List.mem_cons.1 he with rfl | he
                      · simp at hs
                      · rcases hs with hs | hs
                        · exact larger_ne_child (hpath e he).1 hp0 hxs.1 hu hs
                        · exact larger_ne_child (hpath e he).2 hq0 hys.1 hv hs
                    unfold cmpPtrG at hf
                    rw [hns2] at hf
                    simp only [Bool.false_eq_true, if_false] at hf
                    refine ih v hvd fuel _ x y u hxs.1 hys.1 (hnos v hvd) ?_ f hf
                    intro e he
                    rcases List.mem_cons.1 he with rfl | he
                    · exact ⟨.inr rfl, .inr rfl⟩
                    · rcases List.mem_cons.1 he with rfl | he
                      · exact ⟨.inl ⟨_, hp0, hu⟩, .inl ⟨_, hq0, hv⟩⟩
                      · exact ⟨larger_child (hpath e he).1 hp0 hu, larger_child (hpath e he).2 hq0 hv⟩
          exact hall _ _ cs ds hcs hds (fun u hu => by rw [treeSize]; have := treeSizes_mem hu; omega) (fun v hv => hv) c hB
      rw [hsf, ha, hc, cmpEqual]
      simp only [Bool.and_assoc]

/-- **C95**: for a value without aliases the comparison is the one of trees (of which C19 speaks),
whatever the match contains. -/
theorem C95_no_alias (m : GMem) (s : NoDangling m) (hal : TargetsSaid m) (p q : Nat) (hp : p < m.next) (t v : Node) (ht : Shows m p t) (hv : Shows m q v)
    (hno : AllNodes (fun h => h.hasAlias = false) v) (fuel : Nat) (hf : m.next < fuel) :
    compareG m fuel p q = some (cmpEqual t v) := by
  obtain ⟨b, hb⟩ := C95_ends m s p q hp fuel hf
  rw [hb, cmpAtG_tree hal v fuel [] p q t ht hv hno (by simp) b hb]

/-! ### Examples -/

/-- The values `[&a 1, *a]` at 1, the same at 4, `[&a 2, *a]` at 7, `&a [*a]` at 10 and at 12. -/
def comparable : GMem :=
  let item (a : Nat) (v : Str) : GNode := ⟨{ addr := a, kind := .scalar, anchor := c!"a", value := v }, none, []⟩
  let ref (a : Nat) (b : Nat) : GNode := ⟨{ addr := a, kind := .alias, value := c!"a", hasAlias := true }, some b, []⟩
  { get := fun a =>
      if a = 1 then ⟨{ addr := 1, kind := .sequence, nilc := false }, none, [2, 3]⟩
      else if a = 2 then item 2 c!"1" else if a = 3 then ref 3 2
      else if a = 4 then ⟨{ addr := 4, kind := .sequence, nilc := false }, none, [5, 6]⟩
      else if a = 5 then item 5 c!"1" else if a = 6 then ref 6 5
      else if a = 7 then ⟨{ addr := 7, kind := .sequence, nilc := false }, none, [8, 9]⟩
      else if a = 8 then item 8 c!"2" else if a = 9 then ref 9 8
      else if a = 10 then ⟨{ addr := 10, kind := .sequence, anchor := c!"a", nilc := false }, none, [11]⟩
      else if a = 11 then ref 11 10
      else if a = 12 then ⟨{ addr := 12, kind := .sequence, anchor := c!"a", nilc := false }, none, [13]⟩
      else if a = 13 then ref 13 12
      else ⟨{ addr := a, kind := .scalar }, none, []⟩
    next := 14 }

/-- C95: an alias counts with what it stands for: two aliases of the same name are different if
the nodes they stand for are. -/
theorem C95_targets_count : compareG comparable 15 3 6 = some true ∧ compareG comparable 15 3 9 = some false ∧
    compareG comparable 15 1 4 = some true ∧ compareG comparable 15 1 7 = some false ∧ compareG comparable 15 10 12 = some true ∧
    compareG comparable 15 3 2 = some false := by decide +kernel

example : NoDangling comparable ∧ NilMeans comparable ∧ TargetsSaid comparable ∧ ¬ Circular comparable 2 ∧ Circular comparable 10 := by
  have hout : ∀ p, 13 < p → comparable.get p = ⟨{ addr := p, kind := .scalar }, none, []⟩ := by
    intro p hp
    simp only [comparable]
    repeat (first | rw [if_neg (by omega)] | rfl)
  refine ⟨?_, ?_, ?_, ?_, ?_⟩
  · intro p hp q hq
    have : ∀ p < 14, (∀ q ∈ (comparable.get p).content, q < 14) ∧ (∀ q ∈ (comparable.get p).alias, q < 14) := by decide +kernel
    rcases hq with h | h
    · exact (this p hp).1 q h
    · exact (this p hp).2 q h
  · intro p h
    by_cases hp : 13 < p
    · rw [hout p hp]
    · have : ∀ p < 14, (comparable.get p).hd.nilc = true → (comparable.get p).content = [] := by decide +kernel
      exact this p (by omega) h
  · intro p
    by_cases hp : 13 < p
    · rw [hout p hp]; rfl
    · have : ∀ p < 14, (comparable.get p).alias.isSome = (comparable.get p).hd.hasAlias := by decide +kernel
      exact this p (by omega)
  · have leaf : ∀ q, ¬ Refers comparable 2 q := by
      intro q h
      simp [Refers, comparable] at h
    rintro ⟨q, h1, h2⟩
    rcases Relation.ReflTransGen.cases_head h1 with rfl | ⟨x, hx, _⟩
    · obtain ⟨x, hx, _⟩ := Relation.TransGen.head'_iff.1 h2
      exact leaf x hx
    · exact leaf x hx
  · exact ⟨10, .refl, .tail (.single (b := 11) (.inl (by simp [comparable]))) (.inr (by simp [comparable]))⟩

end Yot
