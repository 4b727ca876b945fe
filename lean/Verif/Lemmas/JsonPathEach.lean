import Verif.Lemmas.JsonPath
import Verif.Lemmas.RenameApply
/-
Overlays act on each match by itself, if no match lies inside another.
-/
namespace Yot
open Spec

theorem nodesOf_self (t : Node) : t ∈ nodesOf t := (nodesOf_mem t t).2 (.inl rfl)

theorem nodesOf_child {t c m : Node} (hc : c ∈ t.content) (hm : m ∈ nodesOf c) : m ∈ nodesOf t :=
  (nodesOf_mem m t).2 (.inr ⟨c, hc, hm⟩)

theorem addrs_nodesOf (t : Node) : ∀ a, a ∈ t.addrs ↔ ∃ m ∈ nodesOf t, m.hd.addr = a := by
  induction t using Node.ind with
  | h h cs ih =>
    intro a
    rw [Node.addrs, addrss_eq, List.mem_cons, List.mem_flatMap]
    constructor
    · rintro (rfl | ⟨c, hc, ha⟩)
      · exact ⟨_, nodesOf_self _, rfl⟩
      · obtain ⟨m, h1, h2⟩ := (ih c hc a).1 ha
        exact ⟨m, nodesOf_child hc h1, h2⟩
    · rintro ⟨m, h1, rfl⟩
      rcases (nodesOf_mem _ _).1 h1 with rfl | ⟨c, hc, h2⟩
      · exact .inl rfl
      · exact .inr ⟨c, hc, (ih c hc _).2 ⟨m, h2, rfl⟩⟩

/-- No address in the list lies inside a node at another. -/
def LieApart (as : List Nat) (t : Node) : Prop :=
  ∀ m ∈ nodesOf t, m.hd.addr ∈ as → ∀ b ∈ as, b ∈ m.addrs → b = m.hd.addr

theorem LieApart.child {as : List Nat} {t c : Node} (h : LieApart as t) (hc : c ∈ t.content) : LieApart as c :=
  fun m hm => h m (nodesOf_child hc hm)

theorem editedAt_none {M : Nat → Prop} {P : Node → Node → Prop} (t : Node) : ∀ t', (∀ a ∈ t.addrs, ¬ M a) → EditedAt M P t t' → t' = t := by
  induction t using Node.ind with
  | h h cs ih =>
    intro t' hn hed
    rw [editedAt_mk] at hed
    rcases hed with ⟨hm, _⟩ | ⟨hno, hh, hf⟩
    · exact absurd hm (hn _ (mem_addrs_self _))
    · obtain ⟨h', ds⟩ := t'
      simp only [Node.hd_mk, Node.content_mk] at hh hf
      subst hh
      congr 1
      have hn' : ∀ c ∈ cs, ∀ a ∈ c.addrs, ¬ M a := fun c hc a ha => hn a (by
        rw [Node.addrs, addrss_eq]; exact List.mem_cons_of_mem _ (List.mem_flatMap.2 ⟨c, hc, ha⟩))
      clear hn hno
      induction hf with
      | nil => rfl
      | @cons c c' cs ds h1 _ ih2 =>
        rw [ih c (by simp) c' (hn' c (by simp)) h1, ih2 (fun c hc => ih c (by simp [hc])) (fun c hc => hn' c (by simp [hc]))]

/-- The edit brings in no addresses. -/
def BringsNone (f : Node → Res Err Node) : Prop := ∀ n n' a, f n = .ok n' → a ≠ 0 → a ∉ n.addrs → a ∉ n'.addrs

/-- Editing one more node, no other edited before. -/
theorem edit_more {f : Node → Res Err Node} (hf : BringsNone f) {a : Nat} {as : List Nat} (h0 : a ≠ 0) (ha : a ∉ as) (t : Node) :
    ∀ cur, LieApart (a :: as) t → EditedAt (· ∈ as) (fun n n' => f n = .ok n') t cur →
    (∀ cur', modifyAt a f cur = .ok cur' → EditedAt (· ∈ a :: as) (fun n n' => f n = .ok n') t cur') ∧
    (∀ e, modifyAt a f cur = .err e → ∃ m ∈ nodesOf t, m.hd.addr = a ∧ f m = .err e) ∧
    (modifyAt a f cur = .panic → ∃ m ∈ nodesOf t, m.hd.addr = a ∧ f m = .panic) := by
  induction t using Node.ind with
  | h h cs ih =>
    intro cur hd hed
    rw [editedAt_mk] at hed
    rcases hed with ⟨hm, hp⟩ | ⟨hno, hh, hF⟩
    · simp only [Node.hd_mk] at hm
      have hna : a ∉ (Node.mk h cs).addrs := fun hin => ha ((hd _ (nodesOf_self _) (List.mem_cons_of_mem _ hm) a (by simp) hin) ▸ hm)
      have hnc := hf _ _ a hp h0 hna
      have hsame := modifyAt_absent a f cur hnc
      rw [hsame]
      refine ⟨?_, by simp, by simp⟩
      intro cur' he
      cases he
      rw [editedAt_mk]
      exact .inl ⟨List.mem_cons_of_mem _ hm, hp⟩
    · simp only [Node.hd_mk, Node.content_mk] at hno hh hF
      by_cases hadd : h.addr = a
      · have hcur : cur = .mk h cs := by
          refine editedAt_none (M := (· ∈ as)) (P := fun n n' => f n = .ok n') _ cur ?_ ((editedAt_mk _ _ _ _).2 (.inr ⟨hno, hh, hF⟩))
          intro b hb hbs
          have := hd _ (nodesOf_self _) (by simp [hadd]) b (by simp [hbs]) hb
          exact hno (this ▸ hbs)
        subst hcur
        rw [modifyAt, if_pos hadd]
        refine ⟨?_, ?_, ?_⟩
        · intro cur' he
          rw [editedAt_mk]
          exact .inl ⟨by simp [hadd], he⟩
        · intro e he; exact ⟨_, nodesOf_self _, hadd, he⟩
        · intro he; exact ⟨_, nodesOf_self _, hadd, he⟩
      · obtain ⟨h', ds⟩ := cur
        simp only [Node.hd_mk, Node.content_mk] at hh hF
        subst hh
        rw [modifyAt, if_neg hadd]
        have key : (∀ ds', modifyAts a f ds = .ok ds' → List.Forall₂ (EditedAt (· ∈ a :: as) (fun n n' => f n = .ok n')) cs ds') ∧
            (∀ e, modifyAts a f ds = .err e → ∃ c ∈ cs, ∃ m ∈ nodesOf c, m.hd.addr = a ∧ f m = .err e) ∧
            (modifyAts a f ds = .panic → ∃ c ∈ cs, ∃ m ∈ nodesOf c, m.hd.addr = a ∧ f m = .panic) := by
          have hd' : ∀ c ∈ cs, LieApart (a :: as) c := fun c hc => hd.child (by simpa using hc)
          clear hd hno hadd
          induction hF with
          | nil =>
            simp only [modifyAts]
            refine ⟨?_, by simp, by simp⟩
            intro ds' he; cases he; exact .nil
          | @cons c c' cs ds h1 _ ih2 =>
            obtain ⟨p1, p2, p3⟩ := ih c (by simp) c' (hd' c (by simp)) h1
            obtain ⟨q1, q2, q3⟩ := ih2 (fun c hc => ih c (by simp [hc])) (fun c hc => hd' c (by simp [hc]))
            rw [modifyAts]
            cases hx : modifyAt a f c' with
            | err e =>
              refine ⟨by simp, ?_, by simp⟩
              intro e' he
              simp only [Res.bind_err, Res.err.injEq] at he
              subst he
              exact ⟨c, by simp, p2 e hx⟩
            | panic =>
              refine ⟨by simp, by simp, ?_⟩
              intro _
              exact ⟨c, by simp, p3 hx⟩
            | ok x =>
              simp only [Res.bind_ok]
              cases hy : modifyAts a f ds with
              | err e =>
                refine ⟨by simp, ?_, by simp⟩
                intro e' he
                simp only [Res.bind_err, Res.err.injEq] at he
                subst he
                obtain ⟨c, hc, hr⟩ := q2 e hy
                exact ⟨c, by simp [hc], hr⟩
              | panic =>
                refine ⟨by simp, by simp, ?_⟩
                intro _
                obtain ⟨c, hc, hr⟩ := q3 hy
                exact ⟨c, by simp [hc], hr⟩
              | ok ys =>
                refine ⟨?_, by simp, by simp⟩
                intro ds' he
                simp only [Res.bind_ok, Res.ok.injEq] at he
                subst he
                exact .cons (p1 x hx) (q1 ys hy)
        obtain ⟨k1, k2, k3⟩ := key
        cases hx : modifyAts a f ds with
        | err e =>
          refine ⟨by simp, ?_, by simp⟩
          intro e' he
          simp only [Res.bind_err, Res.err.injEq] at he
          subst he
          obtain ⟨c, hc, m, hm, hr⟩ := k2 e hx
          exact ⟨m, nodesOf_child hc hm, hr⟩
        | panic =>
          refine ⟨by simp, by simp, ?_⟩
          intro _
          obtain ⟨c, hc, m, hm, hr⟩ := k3 hx
          exact ⟨m, nodesOf_child hc hm, hr⟩
        | ok ds' =>
          refine ⟨?_, by simp, by simp⟩
          intro cur' he
          simp only [Res.bind_ok, Res.ok.injEq] at he
          subst he
          rw [editedAt_mk]
          exact .inr ⟨by simp only [Node.hd_mk, List.mem_cons, not_or]; exact ⟨hadd, hno⟩, rfl, k1 ds' hx⟩

/-- Editing nodes that lie apart: each by itself. -/
theorem edit_each {f : Node → Res Err Node} (hf : BringsNone f) (t : Node) (as : List Nat) (h0 : 0 ∉ as) (hn : as.Nodup) (hd : LieApart as t) :
    (∀ t', as.foldlM (fun r a => modifyAt a f r) t = .ok t' → EditedAt (· ∈ as) (fun n n' => f n = .ok n') t t') ∧
    (∀ e, as.foldlM (fun r a => modifyAt a f r) t = .err e → ∃ m ∈ nodesOf t, m.hd.addr ∈ as ∧ f m = .err e) ∧
    (as.foldlM (fun r a => modifyAt a f r) t = .panic → ∃ m ∈ nodesOf t, m.hd.addr ∈ as ∧ f m = .panic) := by
  have refl : EditedAt (· ∈ ([] : List Nat)) (fun n n' => f n = .ok n') t t := by
    clear hd
    induction t using Node.ind with
    | h h cs ih =>
      rw [editedAt_mk]
      exact .inr ⟨by simp, rfl, by simp only [Node.content_mk]; exact List.forall₂_same.2 ih⟩
  suffices H : ∀ (bs done : List Nat) (cur : Node), (bs ++ done).Nodup → (∀ x, x ∈ bs ++ done ↔ x ∈ as) →
      EditedAt (· ∈ done) (fun n n' => f n = .ok n') t cur →
      (∀ t', bs.foldlM (fun r a => modifyAt a f r) cur = .ok t' → EditedAt (· ∈ as) (fun n n' => f n = .ok n') t t') ∧
      (∀ e, bs.foldlM (fun r a => modifyAt a f r) cur = .err e → ∃ m ∈ nodesOf t, m.hd.addr ∈ as ∧ f m = .err e) ∧
      (bs.foldlM (fun r a => modifyAt a f r) cur = .panic → ∃ m ∈ nodesOf t, m.hd.addr ∈ as ∧ f m = .panic) by
    exact H as [] t (by simpa using hn) (by simp) refl
  intro bs
  induction bs with
  | nil =>
    intro done cur _ hx hed
    simp only [List.foldlM_nil, Res.pure_eq]
    refine ⟨?_, by simp, by simp⟩
    intro t' he
    cases he
    exact editedAt_congr (by simpa using hx) hed
  | cons b bs ih =>
    intro done cur hnd hx hed
    have hb : b ∈ as := (hx b).1 (by simp)
    simp only [List.cons_append, List.nodup_cons, List.mem_append, not_or] at hnd
    have hdis : LieApart (b :: done) t := by
      intro m hm hma c hc
      have sub : ∀ x ∈ b :: done, x ∈ as := by
        intro x hx'
        rcases List.mem_cons.1 hx' with rfl | h
        · exact hb
        · exact (hx x).1 (by simp [h])
      exact hd m hm (sub _ hma) c (sub c hc)
    obtain ⟨p1, p2, p3⟩ := edit_more hf (by rintro rfl; exact h0 hb) hnd.1.2 t cur hdis hed
    rw [List.foldlM_cons]
    cases hm : modifyAt b f cur with
    | err e =>
      refine ⟨by simp, ?_, by simp⟩
      intro e' he
      simp only [Res.bind_err, Res.err.injEq] at he
      subst he
      obtain ⟨m, h1, h2, h3⟩ := p2 e hm
      exact ⟨m, h1, h2 ▸ hb, h3⟩
    | panic =>
      refine ⟨by simp, by simp, ?_⟩
      intro _
      obtain ⟨m, h1, h2, h3⟩ := p3 hm
      exact ⟨m, h1, h2 ▸ hb, h3⟩
    | ok cur' =>
      simp only [Res.bind_ok]
      refine ih (b :: done) cur' ?_ ?_ (p1 cur' hm)
      · refine (List.perm_middle.symm).nodup ?_
        simp only [List.nodup_cons, List.mem_append, not_or]
        exact hnd
      · intro x
        rw [← hx x]
        simp only [List.mem_append, List.mem_cons]
        tauto

theorem actOn_local (E : Sed) (o : Overlay) : BringsNone (actOn E o) := by
  intro n n' a h h0 ha
  let ρ : Nat → Nat := fun x => if x = a then 0 else x
  have hρ0 : ρ 0 = 0 := by show (if 0 = a then 0 else 0) = 0; split <;> rfl
  have hid : rename ρ n = n := by
    have : rename ρ n = rename id n := rename_congr n (fun x hx => by
      show (if x = a then 0 else x) = x
      rw [if_neg (by rintro rfl; exact ha hx)])
    rw [this]
    clear this h ha
    induction n using Node.ind with
    | h hd cs ih =>
      rw [rename_mk]
      congr 1
      exact (List.map_congr_left ih).trans (List.map_id _)
  have hren : renameRes ρ (actOn E o n) = actOn E o n := by
    have : actOn E o (rename ρ n) = renameRes ρ (actOn E o n) := by
      unfold actOn
      split
      · rw [replaceNode_rename E hρ0]; rfl
      · exact combineNode_rename E ρ n o.value
      · exact merge_rename E hρ0 o.value n []
    rw [← this, hid]
  rw [h, renameRes_ok, Res.ok.injEq] at hren
  rw [← hren, rename_addrs]
  intro hmem
  obtain ⟨x, _, hx⟩ := List.mem_map.1 hmem
  have : (if x = a then 0 else x) = a := hx
  split at this
  · exact h0 this.symm
  · rename_i h; exact h this

/-! ### Each match once -/

theorem pairs_snd_sublist (cs : List Node) : ((pairs cs).map (·.2)).Sublist cs := by
  induction cs using pairInduction with
  | h0 => exact .slnil
  | h1 a => simp [pairs]
  | h2 a b cs ih => simp only [pairs, List.map_cons]; exact .cons _ (.cons₂ _ ih)

theorem pairs_fst_sublist (cs : List Node) : ((pairs cs).map (·.1)).Sublist cs := by
  induction cs using pairInduction with
  | h0 => exact .slnil
  | h1 a => simp [pairs]
  | h2 a b cs ih => simp only [pairs, List.map_cons]; exact .cons₂ _ (.cons _ ih)

theorem values_sublist (t : Node) : (childValues t).Sublist t.content := by
  unfold childValues
  split
  · exact pairs_snd_sublist _
  · split
    · exact List.Sublist.refl _
    · exact List.nil_sublist _

theorem edge_content {t : Node} {e : Edge} (he : e ∈ edgesOf t) : e.node ∈ t.content := by
  unfold edgesOf at he
  split at he
  · obtain ⟨kn, v, b, h, rfl | rfl⟩ := entryEdges_how he
    · exact (pairs_fst_sublist _).subset (List.mem_map.2 ⟨_, h, rfl⟩)
    · exact (pairs_snd_sublist _).subset (List.mem_map.2 ⟨_, h, rfl⟩)
  · split at he
    · obtain ⟨j, c, hg, rfl⟩ := itemEdges_mem.1 he
      exact List.mem_iff_getElem?.2 ⟨j, hg⟩
    · simp at he

theorem go_mem {root : Node} {s : PStep} (hs : PStep.goesDown s = true) {t c : Node} (hc : c ∈ s.go root t) : c ∈ t.content := by
  obtain ⟨e, he, _, rfl⟩ := (go_edges root s hs c).1 hc
  exact edge_content he

theorem nodup_addrs_content {t : Node} (h : t.addrs.Nodup) :
    t.content.Pairwise (fun c d => ∀ a ∈ c.addrs, ∀ b ∈ d.addrs, a ≠ b) := by
  obtain ⟨hd, cs⟩ := t
  rw [Node.addrs, addrss_eq, List.nodup_cons] at h
  exact (List.pairwise_flatMap.1 h.2).2

theorem numbers_nodup (n : Nat) (p : Pick) : (p.numbers n).Nodup := by
  have h : ((List.range n).filter (p.has n)).Nodup := List.nodup_range.filter _
  unfold Pick.numbers
  cases p with
  | one i => exact h
  | slice lo hi st =>
    dsimp only
    split
    · exact (List.reverse_perm _).nodup_iff.2 h
    · exact h

/-- A plain step leads to no child twice. -/
theorem go_apart (root : Node) (s : PStep) (hs : PStep.goesDown s = true) (hp : s.Plain) {t : Node} (hg : GoodTree t) (hn : t.addrs.Nodup) :
    (s.go root t).Pairwise (fun c d => ∀ a ∈ c.addrs, ∀ b ∈ d.addrs, a ≠ b) := by
  have sub : ∀ {l : List Node}, l.Sublist t.content → l.Pairwise (fun c d => ∀ a ∈ c.addrs, ∀ b ∈ d.addrs, a ≠ b) :=
    fun h => (nodup_addrs_content hn).sublist h
  have same : ∀ {e e' : Edge}, e ∈ edgesOf t → e' ∈ edgesOf t → e ≠ e' → ∀ a ∈ e.node.addrs, ∀ b ∈ e'.node.addrs, a ≠ b := by
    intro e e' he he' hne a ha b hb hab
    subst hab
    exact hne (same_edge hg hn he he' ha hb)
  have single : ∀ {k : Str} (f : Node × Node → Node), ((entryOf t k).map f).Pairwise (fun c d => ∀ a ∈ c.addrs, ∀ b ∈ d.addrs, a ≠ b) := by
    intro k f
    unfold entryOf
    cases (entriesOf t).find? (fun e => e.1.hd.value = k) <;> simp
  cases s with
  | anywhere => simp [PStep.goesDown] at hs
  | test p => simp [PStep.goesDown] at hs
  | all => exact sub (values_sublist t)
  | filter p => exact sub (List.filter_sublist.trans (values_sublist t))
  | allKeys =>
    rw [PStep.go]
    unfold entriesOf
    split
    · exact sub (pairs_fst_sublist _)
    · simp
  | names ks =>
    rw [PStep.go, List.pairwise_flatMap]
    refine ⟨fun k _ => single _, ?_⟩
    refine List.Pairwise.imp ?_ hp
    intro k k' hne c hc d hd
    obtain ⟨⟨kn, v⟩, h1, rfl⟩ := List.mem_map.1 hc
    obtain ⟨⟨kn', v'⟩, h2, rfl⟩ := List.mem_map.1 hd
    obtain ⟨hm, hf⟩ := entryOf_mem.1 h1
    obtain ⟨_, hf'⟩ := entryOf_mem.1 h2
    refine same (e := ⟨.value k true, v⟩) (e' := ⟨.value k' true, v'⟩) ?_ ?_ ?_
    · unfold edgesOf; rw [if_pos hm]; exact (entryEdges_first (by simp)).2.2 ⟨kn, hf⟩
    · unfold edgesOf; rw [if_pos hm]; exact (entryEdges_first (by simp)).2.2 ⟨kn', hf'⟩
    · intro h
      simp only [Edge.mk.injEq, How.value.injEq] at h
      exact hne h.1.1
  | keysOf ks =>
    rw [PStep.go, List.pairwise_flatMap]
    refine ⟨fun k _ => single _, ?_⟩
    refine List.Pairwise.imp ?_ hp
    intro k k' hne c hc d hd
    obtain ⟨⟨kn, v⟩, h1, rfl⟩ := List.mem_map.1 hc
    obtain ⟨⟨kn', v'⟩, h2, rfl⟩ := List.mem_map.1 hd
    obtain ⟨hm, hf⟩ := entryOf_mem.1 h1
    obtain ⟨_, hf'⟩ := entryOf_mem.1 h2
    refine same (e := ⟨.key k true, kn⟩) (e' := ⟨.key k' true, kn'⟩) ?_ ?_ ?_
    · unfold edgesOf; rw [if_pos hm]; exact (entryEdges_first (by simp)).1.2 ⟨v, hf⟩
    · unfold edgesOf; rw [if_pos hm]; exact (entryEdges_first (by simp)).1.2 ⟨v', hf'⟩
    · intro h
      simp only [Edge.mk.injEq, How.key.injEq] at h
      exact hne h.1.1
  | items l =>
    rw [PStep.go]
    split
    case isFalse => simp
    rename_i hk
    have edge : ∀ {j : Nat} {c : Node}, t.content[j]? = some c → (⟨.item j t.content.length, c⟩ : Edge) ∈ edgesOf t := by
      intro j c hg
      unfold edgesOf
      rw [if_neg (by rw [hk]; decide), if_pos hk]
      exact itemEdges_mem.2 ⟨j, c, hg, by simp⟩
    have two : ∀ {i j : Nat} {c d : Node}, t.content[i]? = some c → t.content[j]? = some d → i ≠ j → ∀ a ∈ c.addrs, ∀ b ∈ d.addrs, a ≠ b := by
      intro i j c d h1 h2 hne
      refine same (edge h1) (edge h2) ?_
      intro h
      simp only [Edge.mk.injEq, How.item.injEq] at h
      exact hne h.1.1
    rw [List.pairwise_flatMap]
    refine ⟨?_, ?_⟩
    · intro p _
      rw [List.pairwise_filterMap]
      refine (numbers_nodup t.content.length p).imp ?_
      intro i j hne c hc d hd
      exact two hc hd hne
    · refine List.Pairwise.imp ?_ hp
      intro p q hpq c hc d hd
      obtain ⟨i, hi, h1⟩ := List.mem_filterMap.1 hc
      obtain ⟨j, hj, h2⟩ := List.mem_filterMap.1 hd
      refine two h1 h2 ?_
      rintro rfl
      obtain ⟨hlt, h3⟩ := pick_numbers.1 hi
      exact absurd (pick_numbers.1 hj).2 (by rw [hpq _ _ hlt h3]; simp)

theorem descents_cons (s : PStep) (ss : List PStep) : descents ss ≤ descents (s :: ss) ∧ (s = .anywhere → descents (s :: ss) = descents ss + 1) ∧
    (s ≠ .anywhere → descents (s :: ss) = descents ss) := by
  unfold descents
  cases s <;> simp

theorem selects_length (root : Node) (ss : List PStep) : ∀ n r, descents ss = 0 → selects root ss n r = true →
    r.length = (ss.filter PStep.goesDown).length := by
  induction ss with
  | nil => intro n r _ h; cases r with | nil => rfl | cons => simp [selects] at h
  | cons s ss ih =>
    intro n r hn h
    have hs : s ≠ .anywhere := by
      intro hs
      have := (descents_cons s ss).2.1 hs
      omega
    have hn' : descents ss = 0 := by have := (descents_cons s ss).1; omega
    by_cases hd : PStep.goesDown s = true
    · obtain ⟨e, r', rfl, _, h2⟩ := (selects_cons root s hd ss n r).1 h
      simp [hd, ih _ r' hn' h2]
    · rw [List.filter_cons_of_neg hd]
      cases s with
      | anywhere => exact absurd rfl hs
      | test p =>
        rw [selects, Bool.and_eq_true] at h
        exact ih n r hn' h.2
      | _ => simp [PStep.goesDown] at hd

theorem addr_inj {t m m' : Node} {r r' : List Edge} (hg : GoodTree t) (hn : t.addrs.Nodup) (h : Route t r m) (h' : Route t r' m')
    (ha : m.hd.addr = m'.hd.addr) : r = r' ∧ m = m' := route_unique h hg hn h' ha

theorem route_nodup {t m : Node} {r : List Edge} (h : Route t r m) : GoodTree t → t.addrs.Nodup → m.addrs.Nodup := by
  induction h with
  | here => intro _ h; exact h
  | down he _ ih => intro hg hn; exact ih (good_child hg (edge_mem hg he)) (nodup_child hn (edge_mem hg he)).1

theorem nodesOfs_eq (cs : List Node) : nodesOfs cs = cs.flatMap nodesOf := by
  induction cs with
  | nil => rfl
  | cons c cs ih => rw [nodesOfs, ih]; rfl

theorem nodesOf_addrs (t : Node) : (nodesOf t).map (fun m => m.hd.addr) = t.addrs := by
  induction t using Node.ind with
  | h h cs ih =>
    rw [nodesOf, Node.addrs, List.map_cons, nodesOfs_eq, addrss_eq]
    congr 1
    clear h
    induction cs with
    | nil => rfl
    | cons c cs ih2 => rw [List.flatMap_cons, List.flatMap_cons, List.map_append, ih c (by simp), ih2 (fun c hc => ih c (by simp [hc]))]

theorem route_det {t m n : Node} {r : List Edge} (h : Route t r m) (h' : Route t r n) : m = n :=
  (route_end h).symm.trans (route_end h')

/-- Such a query finds no node twice. -/
theorem follows_nodup (root : Node) (ss : List PStep) : ∀ t : Node, Once ss → GoodTree t → t.addrs.Nodup →
    (follows root ss t).Pairwise (fun m n => m.hd.addr ≠ n.hd.addr) := by
  induction ss with
  | nil => intro t _ _ _; simp [follows]
  | cons s ss ih =>
    intro t ho hg hn
    have hp : s.Plain := ho.2 s (by simp)
    have ho' : Once ss := ⟨Nat.le_trans (descents_cons s ss).1 ho.1, fun x hx => ho.2 x (by simp [hx])⟩
    rw [follows]
    by_cases hd : PStep.goesDown s = true
    · rw [List.pairwise_flatMap]
      refine ⟨?_, ?_⟩
      · intro c hc
        have hc' := go_mem hd hc
        exact ih c ho' (good_child hg hc') (nodup_child hn hc').1
      · refine (go_apart root s hd hp hg hn).imp_of_mem ?_
        intro c d hc hdd h x hx y hy
        have gc := good_child hg (go_mem hd hc)
        have gd := good_child hg (go_mem hd hdd)
        obtain ⟨r1, h1, _⟩ := (follows_route root ss c gc x).1 hx
        obtain ⟨r2, h2, _⟩ := (follows_route root ss d gd y).1 hy
        exact h _ (route_addr h1 gc) _ (route_addr h2 gd)
    · cases s with
      | test p =>
        rw [PStep.go]
        split
        · simpa using ih t ho' hg hn
        · simp
      | anywhere =>
        have hss : descents ss = 0 := by
          have := (descents_cons .anywhere ss).2.1 rfl
          have := ho.1
          omega
        rw [List.pairwise_flatMap]
        refine ⟨?_, ?_⟩
        · intro n hnn
          obtain ⟨r, hr⟩ := (nodesOf_route t hg n).1 hnn
          exact ih n ho' (route_good hr hg) (route_nodup hr hg hn)
        · have hpw : (nodesOf t).Pairwise (fun m n => m.hd.addr ≠ n.hd.addr) := by
            have := hn
            rw [← nodesOf_addrs] at this
            exact List.pairwise_map.1 this
          refine hpw.imp_of_mem ?_
          intro m n hm hn' hne x hx y hy hxy
          obtain ⟨r1, hr1⟩ := (nodesOf_route t hg m).1 hm
          obtain ⟨r2, hr2⟩ := (nodesOf_route t hg n).1 hn'
          obtain ⟨s1, hs1, q1⟩ := (follows_route root ss m (route_good hr1 hg) x).1 hx
          obtain ⟨s2, hs2, q2⟩ := (follows_route root ss n (route_good hr2 hg) y).1 hy
          obtain ⟨he, _⟩ := route_unique (route_append hr1 hs1) hg hn (route_append hr2 hs2) hxy
          have hl : s1.length = s2.length := (selects_length root ss _ s1 hss q1).trans (selects_length root ss _ s2 hss q2).symm
          obtain ⟨rfl, rfl⟩ := List.append_inj' he hl
          exact hne (by rw [route_det hr1 hr2])
      | _ => simp [PStep.goesDown] at hd

end Yot
