import Verif.Spec.JsonPath
import Verif.Lemmas.Delete
import Verif.Lemmas.Edit
/-
Queries as routes.
-/
namespace Yot
open Spec

/-- Well formed and without document nodes. -/
def GoodTree (t : Node) : Prop := WellFormed t ∧ NoDocs t

theorem good_child {t c : Node} (h : GoodTree t) (hc : c ∈ t.content) : GoodTree c := by
  obtain ⟨h1, h2⟩ := h
  obtain ⟨hd, cs⟩ := t
  unfold WellFormed at h1
  unfold NoDocs AllNodes at h2
  refine ⟨(WellFormeds_iff cs).1 h1.2 c hc, (AllNodess_iff _ cs).1 h2.2 c hc⟩

theorem good_leaf {t : Node} (h : GoodTree t) (h1 : t.hd.kind ≠ .mapping) (h2 : t.hd.kind ≠ .sequence) : t.content = [] := by
  obtain ⟨⟨hd, cs⟩⟩ := t
  obtain ⟨w, n⟩ := h
  unfold WellFormed at w
  unfold NoDocs AllNodes at n
  have w := w.1
  have n := n.1
  unfold Shaped at w
  simp only [Node.hd_mk, Node.content_mk] at *
  split at w
  · exact absurd rfl h1
  · exact absurd rfl h2
  · exact absurd rfl n
  · exact List.length_eq_zero_iff.1 w

theorem entryEdges_content (cs : List Node) (h : cs.length % 2 = 0) : ∀ seen, (entryEdges seen cs).map Edge.node = cs := by
  induction cs using pairInduction with
  | h0 => intro _; rfl
  | h1 a => simp at h
  | h2 a b cs ih =>
    intro seen
    simp only [entryEdges, List.map_cons, ih (by simp only [List.length_cons] at h; omega)]

theorem itemEdges_content (n : Nat) (cs : List Node) : ∀ i, (itemEdges n i cs).map Edge.node = cs := by
  induction cs with
  | nil => intro _; rfl
  | cons c cs ih => intro i; simp only [itemEdges, List.map_cons, ih]

theorem good_even {t : Node} (h : GoodTree t) (hk : t.hd.kind = .mapping) : t.content.length % 2 = 0 := by
  obtain ⟨hd, cs⟩ := t
  have w := h.1
  unfold WellFormed Shaped at w
  simp only [Node.hd_mk] at hk
  rw [hk] at w
  exact w.1

theorem edges_content {t : Node} (h : GoodTree t) : (edgesOf t).map Edge.node = t.content := by
  unfold edgesOf
  split
  · rename_i hk; exact entryEdges_content _ (good_even h hk) _
  · split
    · exact itemEdges_content _ _ _
    · rename_i h1 h2; rw [good_leaf h h1 h2]; rfl

theorem edge_mem {t : Node} {e : Edge} (h : GoodTree t) (hc : e ∈ edgesOf t) : e.node ∈ t.content := by
  rw [← edges_content h]
  exact List.mem_map.2 ⟨_, hc, rfl⟩

theorem mem_edge {t c : Node} (h : GoodTree t) (hc : c ∈ t.content) : ∃ e ∈ edgesOf t, e.node = c := by
  rw [← edges_content h] at hc
  exact List.mem_map.1 hc

theorem route_good {t m : Node} {r : List Edge} (hr : Route t r m) (h : GoodTree t) : GoodTree m := by
  induction hr with
  | here => exact h
  | down he _ ih => exact ih (good_child h (edge_mem h he))

theorem route_append {t n m : Node} {r s : List Edge} (h : Route t r n) (h' : Route n s m) : Route t (r ++ s) m := by
  induction h with
  | here => exact h'
  | down he _ ih => exact .down he (ih h')

theorem route_split {t m : Node} {r : List Edge} : ∀ {s}, Route t (r ++ s) m → ∃ n, Route t r n ∧ Route n s m := by
  induction r generalizing t with
  | nil => intro s h; exact ⟨t, .here t, h⟩
  | cons e r ih =>
    intro s h
    cases h with
    | down he h' =>
      obtain ⟨n, h1, h2⟩ := ih h'
      exact ⟨n, .down he h1, h2⟩

/-- Where a route ends. -/
def endOf (t : Node) : List Edge → Node
  | [] => t
  | e :: r => endOf e.node r

theorem route_end {t m : Node} {r : List Edge} (h : Route t r m) : endOf t r = m := by
  induction h with
  | here => rfl
  | down _ _ ih => exact ih

/-! ### Steps -/

theorem nodesOfs_mem (m : Node) (cs : List Node) : m ∈ nodesOfs cs ↔ ∃ c ∈ cs, m ∈ nodesOf c := by
  induction cs with
  | nil => simp [nodesOfs]
  | cons c cs ih => simp [nodesOfs, ih]

theorem nodesOf_mem (m t : Node) : m ∈ nodesOf t ↔ m = t ∨ ∃ c ∈ t.content, m ∈ nodesOf c := by
  obtain ⟨h, cs⟩ := t
  rw [nodesOf, List.mem_cons, nodesOfs_mem]
  rfl

theorem nodesOf_route (t : Node) : GoodTree t → ∀ m, m ∈ nodesOf t ↔ ∃ r, Route t r m := by
  induction t using Node.ind with
  | h h cs ih =>
    intro hg m
    rw [nodesOf_mem]
    constructor
    · rintro (rfl | ⟨c, hc, hm⟩)
      · exact ⟨[], .here _⟩
      · obtain ⟨r, hr⟩ := (ih c hc (good_child hg hc) m).1 hm
        obtain ⟨e, he, rfl⟩ := mem_edge hg hc
        exact ⟨e :: r, .down he hr⟩
    · rintro ⟨r, hr⟩
      cases hr with
      | here => exact .inl rfl
      | down he hr =>
        have hc := edge_mem hg he
        exact .inr ⟨_, hc, (ih _ hc (good_child hg hc) m).2 ⟨_, hr⟩⟩

/-- The step goes to children. -/
def PStep.goesDown : PStep → Bool
  | .anywhere => false
  | .test _ => false
  | _ => true

theorem entryEdges_how {cs : List Node} {e : Edge} : ∀ {seen}, e ∈ entryEdges seen cs →
    ∃ kn v b, (kn, v) ∈ pairs cs ∧ (e = ⟨.key kn.hd.value b, kn⟩ ∨ e = ⟨.value kn.hd.value b, v⟩) := by
  induction cs using pairInduction with
  | h0 => intro _ h; simp [entryEdges] at h
  | h1 a => intro _ h; simp [entryEdges] at h
  | h2 a c cs ih =>
    intro seen h
    simp only [entryEdges, List.mem_cons] at h
    rcases h with rfl | rfl | h
    · exact ⟨a, c, _, by simp [pairs], .inl rfl⟩
    · exact ⟨a, c, _, by simp [pairs], .inr rfl⟩
    · obtain ⟨kn, v, b, h1, h2⟩ := ih h
      exact ⟨kn, v, b, by simp [pairs, h1], h2⟩

theorem entryEdges_of_pair {cs : List Node} {kn v : Node} : ∀ {seen}, (kn, v) ∈ pairs cs →
    ∃ b, (⟨.key kn.hd.value b, kn⟩ : Edge) ∈ entryEdges seen cs ∧ (⟨.value kn.hd.value b, v⟩ : Edge) ∈ entryEdges seen cs := by
  induction cs using pairInduction with
  | h0 => intro _ h; simp [pairs] at h
  | h1 a => intro _ h; simp [pairs] at h
  | h2 a c cs ih =>
    intro seen h
    rw [pairs, List.mem_cons, Prod.mk.injEq] at h
    rcases h with ⟨rfl, rfl⟩ | h
    · exact ⟨decide (kn.hd.value ∉ seen), by simp [entryEdges], by simp [entryEdges]⟩
    · obtain ⟨b, h1, h2⟩ := @ih (a.hd.value :: seen) h
      exact ⟨b, by simp [entryEdges, h1], by simp [entryEdges, h2]⟩

/-- A first entry's key is not among those seen. -/
theorem entryEdges_unseen {cs : List Node} {k : Str} {n : Node} : ∀ {seen},
    (⟨.key k true, n⟩ : Edge) ∈ entryEdges seen cs ∨ (⟨.value k true, n⟩ : Edge) ∈ entryEdges seen cs → k ∉ seen := by
  induction cs using pairInduction with
  | h0 => intro _ h; simp [entryEdges] at h
  | h1 a => intro _ h; simp [entryEdges] at h
  | h2 a c cs ih =>
    intro seen h
    simp only [entryEdges, List.mem_cons, Edge.mk.injEq, How.key.injEq, How.value.injEq, reduceCtorEq, false_and, false_or] at h
    rcases h with (⟨⟨rfl, h⟩, _⟩ | h) | (⟨⟨rfl, h⟩, _⟩ | h)
    · exact of_decide_eq_true h.symm
    · exact fun hk => ih (.inl h) (List.mem_cons_of_mem _ hk)
    · exact of_decide_eq_true h.symm
    · exact fun hk => ih (.inr h) (List.mem_cons_of_mem _ hk)

theorem entryEdges_first {cs : List Node} {k : Str} {n : Node} : ∀ {seen}, k ∉ seen →
    ((⟨.key k true, n⟩ : Edge) ∈ entryEdges seen cs ↔ ∃ v, (pairs cs).find? (fun e => e.1.hd.value = k) = some (n, v)) ∧
    ((⟨.value k true, n⟩ : Edge) ∈ entryEdges seen cs ↔ ∃ kn, (pairs cs).find? (fun e => e.1.hd.value = k) = some (kn, n)) := by
  induction cs using pairInduction with
  | h0 => intro _ _; simp [entryEdges, pairs]
  | h1 a => intro _ _; simp [entryEdges, pairs]
  | h2 a c cs ih =>
    intro seen hs
    simp only [entryEdges, List.mem_cons, Edge.mk.injEq, How.key.injEq, How.value.injEq, reduceCtorEq, false_and, false_or, pairs, List.find?_cons]
    by_cases hk : a.hd.value = k
    · subst hk
      simp only [decide_true, Option.some.injEq, Prod.mk.injEq, exists_eq_right, exists_eq_left', hs, not_false_eq_true, true_and]
      have no := @entryEdges_unseen cs a.hd.value n (a.hd.value :: seen)
      simp only [List.mem_cons, true_or, not_true, imp_false, not_or] at no
      simp [no, eq_comm]
    · simp only [hk, decide_false, Bool.false_eq_true, if_false]
      have := ih (show k ∉ a.hd.value :: seen by simp only [List.mem_cons, not_or]; exact ⟨fun h => hk h.symm, hs⟩)
      rw [this.1, this.2]
      have hk' : ¬ k = a.hd.value := fun h => hk h.symm
      simp [hk']

theorem itemEdges_mem {n : Nat} {e : Edge} {cs : List Node} : ∀ {i},
    e ∈ itemEdges n i cs ↔ ∃ j c, cs[j]? = some c ∧ e = ⟨.item (i + j) n, c⟩ := by
  induction cs with
  | nil => intro i; simp [itemEdges]
  | cons d cs ih =>
    intro i
    rw [itemEdges, List.mem_cons, ih]
    constructor
    · rintro (rfl | ⟨j, c, h1, rfl⟩)
      · exact ⟨0, d, rfl, by simp⟩
      · exact ⟨j + 1, c, h1, by congr 2; omega⟩
    · rintro ⟨j, c, h1, rfl⟩
      cases j with
      | zero => left; simp only [List.getElem?_cons_zero, Option.some.injEq] at h1; rw [h1]; simp
      | succ j => right; exact ⟨j, c, by simpa using h1, by congr 2; omega⟩

theorem pick_numbers {n j : Nat} {p : Pick} : j ∈ p.numbers n ↔ j < n ∧ p.has n j = true := by
  have : j ∈ p.numbers n ↔ j ∈ (List.range n).filter (p.has n) := by
    unfold Pick.numbers
    cases p with
    | one i => exact Iff.rfl
    | slice lo hi st => dsimp only; split <;> simp
  rw [this, List.mem_filter, List.mem_range]

theorem values_edges (root : Node) {t c : Node} : c ∈ childValues t ↔ ∃ e ∈ edgesOf t, PStep.all.along root e = true ∧ e.node = c := by
  unfold childValues edgesOf
  by_cases hk : t.hd.kind = .mapping
  · simp only [hk, if_true, List.mem_map]
    constructor
    · rintro ⟨⟨kn, v⟩, h1, rfl⟩
      obtain ⟨b, _, hb⟩ := entryEdges_of_pair (seen := []) h1
      exact ⟨_, hb, rfl, rfl⟩
    · rintro ⟨e, h1, h2, rfl⟩
      obtain ⟨kn, v, b, h3, rfl | rfl⟩ := entryEdges_how h1
      · simp [PStep.along] at h2
      · exact ⟨_, h3, rfl⟩
  · simp only [hk, if_false]
    split
    · constructor
      · intro h
        obtain ⟨j, hj⟩ := List.mem_iff_getElem?.1 h
        exact ⟨_, itemEdges_mem.2 ⟨j, c, hj, rfl⟩, rfl, rfl⟩
      · rintro ⟨e, h1, h2, rfl⟩
        obtain ⟨j, c, hj, rfl⟩ := itemEdges_mem.1 h1
        exact List.mem_iff_getElem?.2 ⟨j, hj⟩
    · simp

theorem entryOf_mem {t : Node} {k : Str} {x : Node × Node} :
    x ∈ entryOf t k ↔ t.hd.kind = .mapping ∧ (pairs t.content).find? (fun e => e.1.hd.value = k) = some x := by
  unfold entryOf entriesOf
  rw [Option.mem_toList]
  split
  · rename_i h; simp [h]
  · rename_i h; simp [h]

theorem go_edges (root : Node) (s : PStep) (hs : PStep.goesDown s = true) {t : Node} (c : Node) :
    c ∈ s.go root t ↔ ∃ e ∈ edgesOf t, s.along root e = true ∧ e.node = c := by
  have inMap : ∀ {e : Edge} {k b}, e ∈ edgesOf t → (e.how = .value k b ∨ e.how = .key k b) → t.hd.kind = .mapping ∧ e ∈ entryEdges [] t.content := by
    intro e k b he hh
    unfold edgesOf at he
    split at he
    · rename_i hk; exact ⟨hk, he⟩
    · split at he
      · obtain ⟨j, c, _, rfl⟩ := itemEdges_mem.1 he
        simp at hh
      · simp at he
  have inSeq : ∀ {e : Edge} {j n}, e ∈ edgesOf t → e.how = .item j n → t.hd.kind = .sequence ∧ e ∈ itemEdges t.content.length 0 t.content := by
    intro e j n he hh
    unfold edgesOf at he
    split at he
    · obtain ⟨kn, v, b, _, rfl | rfl⟩ := entryEdges_how he <;> simp at hh
    · split at he
      · rename_i hk; exact ⟨hk, he⟩
      · simp at he
  cases s with
  | anywhere => simp [PStep.goesDown] at hs
  | test p => simp [PStep.goesDown] at hs
  | names ks =>
    rw [PStep.go, List.mem_flatMap]
    constructor
    · rintro ⟨k, hk, hc⟩
      obtain ⟨⟨kn, v⟩, h1, rfl⟩ := List.mem_map.1 hc
      obtain ⟨hm, hf⟩ := entryOf_mem.1 h1
      refine ⟨⟨.value k true, v⟩, ?_, by simpa [PStep.along] using hk, rfl⟩
      unfold edgesOf
      rw [if_pos hm]
      exact (entryEdges_first (by simp)).2.2 ⟨kn, hf⟩
    · rintro ⟨⟨how, v⟩, h1, h2, rfl⟩
      rcases how with ⟨k, _ | _⟩ | ⟨k, b⟩ | ⟨j, n⟩ <;> try (simp [PStep.along] at h2; done)
      · obtain ⟨hm, hin⟩ := inMap h1 (.inl rfl)
        obtain ⟨kn, hf⟩ := (entryEdges_first (by simp)).2.1 hin
        exact ⟨_, of_decide_eq_true h2, List.mem_map.2 ⟨(kn, v), entryOf_mem.2 ⟨hm, hf⟩, rfl⟩⟩
  | keysOf ks =>
    rw [PStep.go, List.mem_flatMap]
    constructor
    · rintro ⟨k, hk, hc⟩
      obtain ⟨⟨kn, v⟩, h1, rfl⟩ := List.mem_map.1 hc
      obtain ⟨hm, hf⟩ := entryOf_mem.1 h1
      refine ⟨⟨.key k true, kn⟩, ?_, by simpa [PStep.along] using hk, rfl⟩
      unfold edgesOf
      rw [if_pos hm]
      exact (entryEdges_first (by simp)).1.2 ⟨v, hf⟩
    · rintro ⟨⟨how, v⟩, h1, h2, rfl⟩
      rcases how with ⟨k, b⟩ | ⟨k, _ | _⟩ | ⟨j, n⟩ <;> try (simp [PStep.along] at h2; done)
      · obtain ⟨hm, hin⟩ := inMap h1 (.inr rfl)
        obtain ⟨w, hf⟩ := (entryEdges_first (by simp)).1.1 hin
        exact ⟨_, of_decide_eq_true h2, List.mem_map.2 ⟨(v, w), entryOf_mem.2 ⟨hm, hf⟩, rfl⟩⟩
  | all => exact values_edges root
  | allKeys =>
    rw [PStep.go, List.mem_map]
    unfold entriesOf
    constructor
    · rintro ⟨⟨kn, v⟩, h1, rfl⟩
      split at h1
      · rename_i hm
        obtain ⟨b, hb, _⟩ := entryEdges_of_pair (seen := []) h1
        exact ⟨_, by unfold edgesOf; rw [if_pos hm]; exact hb, rfl, rfl⟩
      · simp at h1
    · rintro ⟨⟨how, v⟩, h1, h2, rfl⟩
      rcases how with ⟨k, b⟩ | ⟨k, b⟩ | ⟨j, n⟩ <;> try (simp [PStep.along] at h2; done)
      · obtain ⟨hm, hin⟩ := inMap h1 (.inr rfl)
        obtain ⟨kn, w, b, h3, h4⟩ := entryEdges_how hin
        simp only [Edge.mk.injEq, reduceCtorEq, false_and, or_false] at h4
        rw [if_pos hm]
        exact ⟨_, h3, h4.2.symm⟩
  | items l =>
    rw [PStep.go]
    constructor
    · intro hc
      split at hc
      · rename_i hk
        obtain ⟨p, hp, hc⟩ := List.mem_flatMap.1 hc
        obtain ⟨j, hj, hg⟩ := List.mem_filterMap.1 hc
        refine ⟨⟨.item j t.content.length, c⟩, ?_, ?_, rfl⟩
        · unfold edgesOf
          rw [if_neg (by rw [hk]; decide), if_pos hk]
          exact itemEdges_mem.2 ⟨j, c, hg, by simp⟩
        · exact List.any_eq_true.2 ⟨p, hp, (pick_numbers.1 hj).2⟩
      · simp at hc
    · rintro ⟨⟨how, v⟩, h1, h2, rfl⟩
      rcases how with ⟨k, b⟩ | ⟨k, b⟩ | ⟨j, n⟩ <;> try (simp [PStep.along] at h2; done)
      · obtain ⟨hm, hin⟩ := inSeq h1 rfl
        obtain ⟨j, c, hg, he⟩ := itemEdges_mem.1 hin
        simp only [Edge.mk.injEq, How.item.injEq, Nat.zero_add] at he
        obtain ⟨⟨rfl, rfl⟩, rfl⟩ := he
        obtain ⟨p, hp, hh⟩ := List.any_eq_true.1 h2
        rw [if_pos hm]
        have hj : j < t.content.length := by
          rcases Nat.lt_or_ge j t.content.length with h | h
          · exact h
          · rw [List.getElem?_eq_none h] at hg; cases hg
        exact List.mem_flatMap.2 ⟨p, hp, List.mem_filterMap.2 ⟨_, pick_numbers.2 ⟨hj, hh⟩, hg⟩⟩
  | filter p =>
    rw [PStep.go, List.mem_filter, values_edges root]
    constructor
    · rintro ⟨⟨⟨how, v⟩, h1, h2, rfl⟩, hp⟩
      refine ⟨_, h1, ?_, rfl⟩
      cases how with
      | value => exact hp
      | item => exact hp
      | key => simp [PStep.along] at h2
    · rintro ⟨⟨how, v⟩, h1, h2, rfl⟩
      cases how with
      | value => exact ⟨⟨_, h1, rfl, rfl⟩, h2⟩
      | item => exact ⟨⟨_, h1, rfl, rfl⟩, h2⟩
      | key => simp [PStep.along] at h2

theorem selects_cons (root : Node) (s : PStep) (hs : PStep.goesDown s = true) (ss : List PStep) (n : Node) (r : List Edge) :
    selects root (s :: ss) n r = true ↔ ∃ e r', r = e :: r' ∧ s.along root e = true ∧ selects root ss e.node r' = true := by
  cases r with
  | nil => cases s <;> simp [PStep.goesDown] at hs <;> simp [selects]
  | cons e r => cases s <;> simp [PStep.goesDown] at hs <;> simp [selects]

theorem selects_anywhere (root : Node) (ss : List PStep) (n : Node) (r : List Edge) :
    selects root (.anywhere :: ss) n r = true ↔ ∃ r1 r2, r = r1 ++ r2 ∧ selects root ss (endOf n r1) r2 = true := by
  rw [selects, List.any_eq_true]
  induction r generalizing n with
  | nil =>
    simp only [ends, List.mem_singleton, exists_eq_left]
    constructor
    · intro h; exact ⟨[], [], rfl, h⟩
    · rintro ⟨r1, r2, h, hs⟩
      have h := h.symm
      rw [List.append_eq_nil_iff] at h
      obtain ⟨rfl, rfl⟩ := h
      exact hs
  | cons e r ih =>
    simp only [ends, List.mem_cons, exists_eq_or_imp, ih]
    constructor
    · rintro (h | ⟨r1, r2, rfl, h⟩)
      · exact ⟨[], e :: r, rfl, h⟩
      · exact ⟨e :: r1, r2, rfl, h⟩
    · rintro ⟨r1, r2, h, hs⟩
      cases r1 with
      | nil => left; rw [List.nil_append] at h; subst h; exact hs
      | cons e' r1 =>
        right
        simp only [List.cons_append, List.cons.injEq] at h
        obtain ⟨rfl, rfl⟩ := h
        exact ⟨r1, r2, rfl, hs⟩

/-- What a search finds is what is selected. -/
theorem follows_route (root : Node) (ss : List PStep) : ∀ t : Node, GoodTree t → ∀ m,
    m ∈ follows root ss t ↔ ∃ r, Route t r m ∧ selects root ss t r = true := by
  induction ss with
  | nil =>
    intro t _ m
    rw [follows, List.mem_singleton]
    constructor
    · rintro rfl; exact ⟨[], .here _, rfl⟩
    · rintro ⟨r, hr, hs⟩
      cases r with
      | nil => cases hr; rfl
      | cons => simp [selects] at hs
  | cons s ss ih =>
    intro t hg m
    rw [follows, List.mem_flatMap]
    by_cases hs : PStep.goesDown s = true
    · constructor
      · rintro ⟨c, h1, h2⟩
        obtain ⟨e, h3, h4, rfl⟩ := (go_edges root s hs c).1 h1
        obtain ⟨r, h5, h6⟩ := (ih e.node (good_child hg (edge_mem hg h3)) m).1 h2
        exact ⟨e :: r, .down h3 h5, (selects_cons root s hs ss _ _).2 ⟨e, r, rfl, h4, h6⟩⟩
      · rintro ⟨r, hr, h3⟩
        obtain ⟨e, r', rfl, h4, h5⟩ := (selects_cons root s hs ss _ _).1 h3
        cases hr with
        | down he hr =>
          exact ⟨_, (go_edges root s hs _).2 ⟨e, he, h4, rfl⟩, (ih _ (good_child hg (edge_mem hg he)) m).2 ⟨r', hr, h5⟩⟩
    · cases s with
      | anywhere =>
        constructor
        · rintro ⟨n, h1, h2⟩
          obtain ⟨r1, hr1⟩ := (nodesOf_route t hg n).1 h1
          obtain ⟨r2, hr2, h3⟩ := (ih n (route_good hr1 hg) m).1 h2
          exact ⟨r1 ++ r2, route_append hr1 hr2, (selects_anywhere root ss _ _).2 ⟨r1, r2, rfl, by rw [route_end hr1]; exact h3⟩⟩
        · rintro ⟨r, hr, h3⟩
          obtain ⟨r1, r2, rfl, h4⟩ := (selects_anywhere root ss _ _).1 h3
          obtain ⟨n, h5, h6⟩ := route_split hr
          rw [route_end h5] at h4
          exact ⟨n, (nodesOf_route t hg n).2 ⟨r1, h5⟩, (ih n (route_good h5 hg) m).2 ⟨r2, h6, h4⟩⟩
      | test p =>
        rw [PStep.go]
        split
        · rename_i hp
          simp only [List.mem_singleton, exists_eq_left, ih t hg m, selects, hp, Bool.true_and]
        · rename_i hp
          simp [selects, hp]
      | _ => simp [PStep.goesDown] at hs

/-! ### The route to an address -/

theorem route_addr {t m : Node} {r : List Edge} (hr : Route t r m) : GoodTree t → m.hd.addr ∈ t.addrs := by
  induction hr with
  | here t => intro _; exact mem_addrs_self t
  | @down t m e r he _ ih =>
    intro hg
    have hc := edge_mem hg he
    have := ih (good_child hg hc)
    obtain ⟨h, cs⟩ := t
    rw [Node.addrs, addrss_eq]
    exact List.mem_cons_of_mem _ (List.mem_flatMap.2 ⟨e.node, hc, this⟩)

theorem nodup_child {t c : Node} (h : t.addrs.Nodup) (hc : c ∈ t.content) : c.addrs.Nodup ∧ t.hd.addr ∉ c.addrs := by
  obtain ⟨hd, cs⟩ := t
  rw [Node.addrs, addrss_eq, List.nodup_cons] at h
  refine ⟨?_, ?_⟩
  · have h2 := h.2
    clear h
    induction cs with
    | nil => simp at hc
    | cons d cs ih =>
      rw [List.flatMap_cons, List.nodup_append] at h2
      rcases List.mem_cons.1 hc with rfl | hc
      · exact h2.1
      · exact ih hc h2.2.1
  · intro hm
    exact h.1 (List.mem_flatMap.2 ⟨c, hc, hm⟩)

/-- Two children of a node that share an address are the same child. -/
theorem same_edge {t : Node} (hg : GoodTree t) (h : t.addrs.Nodup) {e e' : Edge} (h1 : e ∈ edgesOf t)
    (h2 : e' ∈ edgesOf t) {a : Nat} (ha : a ∈ e.node.addrs) (ha' : a ∈ e'.node.addrs) : e = e' := by
  have hc := edges_content hg
  obtain ⟨hd, cs⟩ := t
  rw [Node.addrs, addrss_eq, List.nodup_cons] at h
  have h := h.2
  rw [Node.content_mk] at hc
  rw [← hc] at h
  clear hc hg
  generalize edgesOf (.mk hd cs) = l at h h1 h2
  induction l with
  | nil => simp at h1
  | cons x l ih =>
    rw [List.map_cons, List.flatMap_cons, List.nodup_append] at h
    have out : ∀ y ∈ l, ∀ b ∈ x.node.addrs, b ∉ y.node.addrs := by
      intro y hy b hb hb'
      exact h.2.2 b hb b (List.mem_flatMap.2 ⟨y.node, List.mem_map.2 ⟨y, hy, rfl⟩, hb'⟩) rfl
    rcases List.mem_cons.1 h1 with g1 | g1 <;> rcases List.mem_cons.1 h2 with g2 | g2
    · rw [g1, g2]
    · subst g1; exact absurd ha' (out e' g2 a ha)
    · subst g2; exact absurd ha (out e g1 a ha')
    · exact ih h.2.1 g1 g2

theorem route_unique {t m : Node} {r : List Edge} (hr : Route t r m) : ∀ {m' r'}, GoodTree t → t.addrs.Nodup → Route t r' m' →
    m.hd.addr = m'.hd.addr → r = r' ∧ m = m' := by
  induction hr with
  | here t =>
    intro m' r' hg hn hr' ha
    cases hr' with
    | here => exact ⟨rfl, rfl⟩
    | down he hr' =>
      exfalso
      have hc := edge_mem hg he
      exact (nodup_child hn hc).2 (ha ▸ route_addr hr' (good_child hg hc))
  | @down t m e r he hr ih =>
    intro m' r' hg hn hr' ha
    have hc := edge_mem hg he
    have hm := route_addr hr (good_child hg hc)
    cases hr' with
    | here => exact absurd (ha ▸ hm) (nodup_child hn hc).2
    | down he' hr' =>
      have hc' := edge_mem hg he'
      have hm' := route_addr hr' (good_child hg hc')
      obtain rfl := same_edge hg hn he he' hm (ha ▸ hm')
      obtain ⟨rfl, rfl⟩ := ih (good_child hg hc) (nodup_child hn hc).1 hr' ha
      exact ⟨rfl, rfl⟩

/-! ### Cutting and editing -/

/-- The predicate on addresses tells what is selected below the root. -/
def Tells (isMatch : Nat → Prop) (sel : List Edge → Bool) (t : Node) : Prop :=
  ∀ r m, Route t r m → r ≠ [] → (isMatch m.hd.addr ↔ sel r = true)

theorem tells_child {isMatch : Nat → Prop} {sel : List Edge → Bool} {t : Node} {e : Edge} (h : Tells isMatch sel t) (he : e ∈ edgesOf t) :
    (isMatch e.node.hd.addr ↔ sel [e] = true) ∧ Tells isMatch (fun x => sel (e :: x)) e.node :=
  ⟨h [e] e.node (.down he (.here _)) (by simp), fun r m hr _ => h (e :: r) m (.down he hr) (by simp)⟩

theorem prune_cut (isMatch : Nat → Bool) (t : Node) : ∀ sel, GoodTree t → Tells (fun a => isMatch a = true) sel t → prune isMatch t = cut sel t := by
  induction t using Node.ind with
  | h h cs ih =>
    intro sel hg ht
    have key : ∀ e ∈ edgesOf (.mk h cs), isMatch e.node.hd.addr = sel [e] ∧ prune isMatch e.node = cut (fun x => sel (e :: x)) e.node := by
      intro e he
      obtain ⟨h1, h2⟩ := tells_child ht he
      have hc := edge_mem hg he
      exact ⟨Bool.eq_iff_iff.2 h1, ih _ hc _ (good_child hg hc) h2⟩
    rw [cut]
    split
    · rename_i hk
      rw [prune, if_neg (by rw [hk]; decide)]
      congr 1
      unfold edgesOf at key
      simp only [Node.hd_mk, hk, if_true, Node.content_mk] at key
      clear ih ht hg
      generalize ([] : List Str) = seen at key ⊢
      induction cs using pairInduction generalizing seen with
      | h0 => simp [pruneEntries, cutEntries]
      | h1 a => simp [pruneEntries, cutEntries]
      | h2 a b cs ih2 =>
        rw [pruneEntries, cutEntries]
        have k1 := key ⟨.key a.hd.value (a.hd.value ∉ seen), a⟩ (by simp [entryEdges])
        have k2 := key ⟨.value a.hd.value (a.hd.value ∉ seen), b⟩ (by simp [entryEdges])
        have rest := ih2 (a.hd.value :: seen) (fun e he => key e (by simp [entryEdges, he]))
        simp only at k1 k2
        rw [k1.1, k2.1, k1.2, k2.2, rest]
    · rename_i hk
      split
      · rename_i hk2
        rw [prune, if_pos (.inl hk2)]
        congr 1
        unfold edgesOf at key
        simp only [Node.hd_mk, hk, hk2, if_true, if_false, Node.content_mk] at key
        clear ih ht hg
        generalize cs.length = n at key ⊢
        generalize 0 = i at key ⊢
        rw [if_neg (by decide)] at key
        induction cs generalizing i with
        | nil => simp [pruneItems, cutItems]
        | cons c cs ih2 =>
          rw [pruneItems, cutItems]
          have k1 := key ⟨.item i n, c⟩ (by simp [itemEdges])
          have rest := ih2 (i + 1) (fun e he => key e (by simp [itemEdges, he]))
          simp only at k1
          rw [k1.1, k1.2, rest]
      · rename_i hk2
        have := good_leaf hg hk hk2
        rw [Node.content_mk] at this
        subst this
        rw [prune]
        split <;> simp [pruneItems, pruneEntries]

theorem edited_sel {isMatch : Nat → Prop} {P : Node → Node → Prop} (t : Node) : ∀ sel t', GoodTree t → Tells isMatch sel t →
    ¬ isMatch t.hd.addr → EditedAt isMatch P t t' → EditedSel P sel t t' := by
  induction t using Node.ind with
  | h h cs ih =>
    intro sel t' hg ht hno hed
    rw [editedAt_mk] at hed
    rcases hed with ⟨hm, _⟩ | ⟨hno', hh, hf⟩
    · exact absurd hm hno
    have key : ∀ e ∈ edgesOf (.mk h cs), ∀ c', EditedAt isMatch P e.node c' →
        if sel [e] then P e.node c' else EditedSel P (fun x => sel (e :: x)) e.node c' := by
      intro e he c' hc'
      obtain ⟨h1, h2⟩ := tells_child ht he
      have hc := edge_mem hg he
      by_cases hs : sel [e] = true
      · rw [if_pos hs]
        rw [editedAt_mk] at hc'
        rcases hc' with ⟨_, hp⟩ | ⟨hn, _⟩
        · exact hp
        · exact absurd (h1.2 hs) hn
      · rw [if_neg hs]
        exact ih _ hc _ _ (good_child hg hc) h2 (fun hm => hs (h1.1 hm)) hc'
    rw [EditedSel]
    refine ⟨hh, ?_⟩
    rw [Node.content_mk] at hf
    split
    · rename_i hk
      have hev := good_even hg hk
      unfold edgesOf at key
      simp only [Node.hd_mk, hk, if_true, Node.content_mk] at key hev
      clear ih ht hg hno hno' hh
      generalize ([] : List Str) = seen at key ⊢
      generalize t'.content = ds at hf ⊢
      induction cs using pairInduction generalizing seen ds with
      | h0 => cases hf; simp [EditedEntries]
      | h1 a => simp at hev
      | h2 a b cs ih2 =>
        cases hf with
        | cons h1 hf =>
          cases hf with
          | cons h2 hf =>
            rw [EditedEntries]
            exact ⟨_, _, _, rfl, key ⟨.key a.hd.value (a.hd.value ∉ seen), a⟩ (by simp [entryEdges]) _ h1,
              key ⟨.value a.hd.value (a.hd.value ∉ seen), b⟩ (by simp [entryEdges]) _ h2,
              ih2 (by simp only [List.length_cons] at hev; omega) (a.hd.value :: seen) (fun e he => key e (by simp [entryEdges, he])) _ hf⟩
    · rename_i hk
      split
      · rename_i hk2
        unfold edgesOf at key
        simp only [Node.hd_mk, hk, hk2, if_true, if_false, Node.content_mk] at key
        rw [if_neg (by decide)] at key
        clear ih ht hg hno hno' hh
        generalize t'.content = ds at hf ⊢
        generalize cs.length = n at key ⊢
        generalize 0 = i at key ⊢
        induction cs generalizing i ds with
        | nil => cases hf; simp [EditedItems]
        | cons c cs ih2 =>
          cases hf with
          | cons h1 hf =>
            rw [EditedItems]
            exact ⟨_, _, rfl, key ⟨.item i n, c⟩ (by simp [itemEdges]) _ h1,
              ih2 _ hf (i + 1) (fun e he => key e (by simp [itemEdges, he]))⟩
      · rename_i hk2
        have := good_leaf hg hk hk2
        rw [Node.content_mk] at this
        subst this
        exact List.forall₂_nil_left_iff.1 hf

end Yot
