import Verif.Spec.Overlap
import Verif.Lemmas.JsonPathEach
import Verif.Lemmas.HeapSafe
import Verif.Lemmas.Query
namespace Yot
open Spec

theorem times_last (f : Node → Res Err Node) (k : Nat) : ∀ n, times f (k + 1) n = times f k n >>= f := by
  induction k with
  | zero => intro n; simp only [times, Res.bind_ok]; cases f n <;> rfl
  | succ k ih =>
    intro n
    rw [times]
    conv => rhs; rw [times]
    cases h : f n with
    | ok x => simp only [Res.bind_ok]; exact ih x
    | err e => rfl
    | panic => rfl

/-- The action keeps the address. -/
def KeepsAddr (f : Node → Res Err Node) : Prop := ∀ n n', f n = .ok n' → n'.hd.addr = n.hd.addr

theorem times_keeps {f : Node → Res Err Node} (hf : KeepsAddr f) (k : Nat) : ∀ n n', times f k n = .ok n' → n'.hd.addr = n.hd.addr := by
  induction k with
  | zero => intro n n' h; cases h; rfl
  | succ k ih =>
    intro n n' h
    rw [times, Res.bind_eq_ok] at h
    obtain ⟨x, h1, h2⟩ := h
    rw [ih x n' h2, hf n x h1]

theorem times_brings {f : Node → Res Err Node} (hf : BringsNone f) (k : Nat) : BringsNone (times f k) := by
  induction k with
  | zero => intro n n' a h _ ha; cases h; exact ha
  | succ k ih =>
    intro n n' a h h0 ha
    rw [times, Res.bind_eq_ok] at h
    obtain ⟨x, h1, h2⟩ := h
    exact ih x n' a h2 h0 (hf n x a h1 h0 ha)

theorem times_err {f : Node → Res Err Node} {k l : Nat} (h : k ≤ l) : ∀ {n : Node} {e}, times f k n = .err e → times f l n = .err e := by
  induction h with
  | refl => exact fun h => h
  | step _ ih => intro n e h; rw [times_last, ih h]; rfl

theorem times_panic {f : Node → Res Err Node} {k l : Nat} (h : k ≤ l) : ∀ {n : Node}, times f k n = .panic → times f l n = .panic := by
  induction h with
  | refl => exact fun h => h
  | step _ ih => intro n h; rw [times_last, ih h]; rfl

/-- What is made of the nodes when the addresses of the list have been edited. -/
def Timed (f : Node → Res Err Node) (as : List Nat) (n n' : Node) : Prop := times f (as.count n.hd.addr) n = .ok n'

/-- Editing one more node, perhaps edited before. -/
theorem edit_again {f : Node → Res Err Node} (hf : BringsNone f) (hk : KeepsAddr f) {a : Nat} {as : List Nat} (h0 : a ≠ 0) (t : Node) :
    ∀ cur, LieApart (a :: as) t → EditedAt (· ∈ as) (Timed f as) t cur →
    (∀ cur', modifyAt a f cur = .ok cur' → EditedAt (· ∈ a :: as) (Timed f (a :: as)) t cur') ∧
    (∀ e, modifyAt a f cur = .err e → ∃ m ∈ nodesOf t, m.hd.addr = a ∧ times f (as.count a + 1) m = .err e) ∧
    (modifyAt a f cur = .panic → ∃ m ∈ nodesOf t, m.hd.addr = a ∧ times f (as.count a + 1) m = .panic) := by
  induction t using Node.ind with
  | h h cs ih =>
    intro cur hd hed
    rw [editedAt_mk] at hed
    rcases hed with ⟨hm, hp⟩ | ⟨hno, hh, hF⟩
    · simp only [Node.hd_mk] at hm
      by_cases hadd : h.addr = a
      · unfold Timed at hp
        simp only [Node.hd_mk, hadd] at hp
        have hcur : cur.hd.addr = a := (times_keeps hk _ _ _ hp).trans hadd
        have hmod : modifyAt a f cur = times f (as.count a + 1) (.mk h cs) := by
          obtain ⟨h', ds⟩ := cur
          simp only [Node.hd_mk] at hcur
          rw [modifyAt, if_pos hcur, times_last, hp]
          rfl
        rw [hmod]
        refine ⟨?_, ?_, ?_⟩
        · intro cur' he
          rw [editedAt_mk]
          refine .inl ⟨List.mem_cons_of_mem _ hm, ?_⟩
          unfold Timed
          simpa [Node.hd_mk, hadd] using he
        · intro e he; exact ⟨_, nodesOf_self _, hadd, he⟩
        · intro he; exact ⟨_, nodesOf_self _, hadd, he⟩
      · have hna : a ∉ (Node.mk h cs).addrs := fun hin => hadd (hd _ (nodesOf_self _) (List.mem_cons_of_mem _ hm) a (by simp) hin).symm
        have hnc := times_brings hf _ _ _ a hp h0 hna
        have hsame := modifyAt_absent a f cur hnc
        rw [hsame]
        refine ⟨?_, by simp, by simp⟩
        intro cur' he
        cases he
        rw [editedAt_mk]
        refine .inl ⟨List.mem_cons_of_mem _ hm, ?_⟩
        unfold Timed at hp ⊢
        rwa [Node.hd_mk, List.count_cons_of_ne (Ne.symm hadd)]
    · simp only [Node.hd_mk, Node.content_mk] at hno hh hF
      by_cases hadd : h.addr = a
      · have hcur : cur = .mk h cs := by
          refine editedAt_none (M := (· ∈ as)) (P := Timed f as) _ cur ?_ ((editedAt_mk _ _ _ _).2 (.inr ⟨hno, hh, hF⟩))
          intro b hb hbs
          have := hd _ (nodesOf_self _) (by simp [hadd]) b (by simp [hbs]) hb
          exact hno (this ▸ hbs)
        subst hcur
        have hc0 : as.count a = 0 := List.count_eq_zero.2 (hadd ▸ hno)
        have h1 : times f (as.count a + 1) (.mk h cs) = f (.mk h cs) := by
          rw [hc0, times_last]; rfl
        rw [modifyAt, if_pos hadd]
        refine ⟨?_, ?_, ?_⟩
        · intro cur' he
          rw [editedAt_mk]
          refine .inl ⟨by simp [hadd], ?_⟩
          unfold Timed
          simp only [Node.hd_mk, hadd, List.count_cons_self]
          exact h1.trans he
        · intro e he; exact ⟨_, nodesOf_self _, hadd, h1.trans he⟩
        · intro he; exact ⟨_, nodesOf_self _, hadd, h1.trans he⟩
      · obtain ⟨h', ds⟩ := cur
        simp only [Node.hd_mk, Node.content_mk] at hh hF
        subst hh
        rw [modifyAt, if_neg hadd]
        have key : (∀ ds', modifyAts a f ds = .ok ds' → List.Forall₂ (EditedAt (· ∈ a :: as) (Timed f (a :: as))) cs ds') ∧
            (∀ e, modifyAts a f ds = .err e → ∃ c ∈ cs, ∃ m ∈ nodesOf c, m.hd.addr = a ∧ times f (as.count a + 1) m = .err e) ∧
            (modifyAts a f ds = .panic → ∃ c ∈ cs, ∃ m ∈ nodesOf c, m.hd.addr = a ∧ times f (as.count a + 1) m = .panic) := by
          have hd' : ∀ c ∈ cs, LieApart (a :: as) c := fun c hc => hd.child (by simpa using hc)
          clear hd hno hadd
          induction hF with
          | nil =>
            simp only [modifyAts]
            refine ⟨?_, by simp, by simp⟩
            intro ds' he; cases he; exact .nil
          | @cons c c' cs ds h1 _ ih2 =>
            obtain ⟨p1, p2, p3⟩ := ih c (by simp) c' (hd' c (by simp)) h1
            obtain ⟨q1, q2, q3⟩ := ih2 (fun c hc => ih c (by simp [hc])) (fun c hc => hd' c (by simp [hc]))
            rw [modifyAts]
            cases hx : modifyAt a f c' with
            | err e =>
              refine ⟨by simp, ?_, by simp⟩
              intro e' he
              simp only [Res.bind_err, Res.err.injEq] at he
              subst he
              exact ⟨c, by simp, p2 e hx⟩
            | panic =>
              refine ⟨by simp, by simp, ?_⟩
              intro _
              exact ⟨c, by simp, p3 hx⟩
            | ok x =>
              simp only [Res.bind_ok]
              cases hy : modifyAts a f ds with
              | err e =>
                refine ⟨by simp, ?_, by simp⟩
                intro e' he
                simp only [Res.bind_err, Res.err.injEq] at he
                subst he
                obtain ⟨c, hc, hr⟩ := q2 e hy
                exact ⟨c, by simp [hc], hr⟩
              | panic =>
                refine ⟨by simp, by simp, ?_⟩
                intro _
                obtain ⟨c, hc, hr⟩ := q3 hy
                exact ⟨c, by simp [hc], hr⟩
              | ok ys =>
                refine ⟨?_, by simp, by simp⟩
                intro ds' he
                simp only [Res.bind_ok, Res.ok.injEq] at he
                subst he
                exact .cons (p1 x hx) (q1 ys hy)
        obtain ⟨k1, k2, k3⟩ := key
        cases hx : modifyAts a f ds with
        | err e =>
          refine ⟨by simp, ?_, by simp⟩
          intro e' he
          simp only [Res.bind_err, Res.err.injEq] at he
          subst he
          obtain ⟨c, hc, m, hm, hr⟩ := k2 e hx
          exact ⟨m, nodesOf_child hc hm, hr⟩
        | panic =>
          refine ⟨by simp, by simp, ?_⟩
          intro _
          obtain ⟨c, hc, m, hm, hr⟩ := k3 hx
          exact ⟨m, nodesOf_child hc hm, hr⟩
        | ok ds' =>
          refine ⟨?_, by simp, by simp⟩
          intro cur' he
          simp only [Res.bind_ok, Res.ok.injEq] at he
          subst he
          rw [editedAt_mk]
          exact .inr ⟨by simp only [Node.hd_mk, List.mem_cons, not_or]; exact ⟨hadd, hno⟩, rfl, k1 ds' hx⟩

theorem editedAt_imp {M : Nat → Prop} {P Q : Node → Node → Prop} (t : Node) : ∀ t', (∀ n ∈ nodesOf t, ∀ n', P n n' → Q n n') → EditedAt M P t t' → EditedAt M Q t t' := by
  induction t using Node.ind with
  | h h cs ih =>
    intro t' hpq hed
    rw [editedAt_mk] at hed ⊢
    rcases hed with ⟨hm, hp⟩ | ⟨hno, hh, hF⟩
    · exact .inl ⟨hm, hpq _ (nodesOf_self _) _ hp⟩
    · refine .inr ⟨hno, hh, ?_⟩
      have hsub : ∀ c ∈ cs, ∀ n ∈ nodesOf c, ∀ n', P n n' → Q n n' := fun c hc n hn => hpq n (nodesOf_child (by simpa using hc) hn)
      simp only [Node.content_mk] at hF ⊢
      clear hpq hno hh
      generalize t'.content = ds' at hF ⊢
      induction hF with
      | nil => exact .nil
      | @cons c c' cs ds h1 _ ih2 =>
        exact .cons (ih c (by simp) c' (hsub c (by simp)) h1) (ih2 (fun c hc => ih c (by simp [hc])) (fun c hc => hsub c (by simp [hc])))

theorem editedAt_fun {M : Nat → Prop} {P : Node → Node → Prop} (hP : ∀ n x y, P n x → P n y → x = y) (t : Node) : ∀ x y,
    EditedAt M P t x → EditedAt M P t y → x = y := by
  induction t using Node.ind with
  | h h cs ih =>
    intro x y hx hy
    rw [editedAt_mk] at hx hy
    rcases hx with ⟨hm, hp⟩ | ⟨hno, hh, hF⟩ <;> rcases hy with ⟨hm', hp'⟩ | ⟨hno', hh', hF'⟩
    · exact hP _ _ _ hp hp'
    · exact absurd hm hno'
    · exact absurd hm' hno
    · obtain ⟨h1, c1⟩ := x
      obtain ⟨h2, c2⟩ := y
      simp only [Node.hd_mk, Node.content_mk] at hh hh' hF hF'
      subst hh hh'
      congr 1
      clear hno hno'
      induction hF generalizing c2 with
      | nil => cases hF'; rfl
      | @cons c c' cs ds h1 _ ih2 =>
        cases hF' with
        | cons g1 g2 => rw [ih c (by simp) _ _ h1 g1, ih2 (fun c hc => ih c (by simp [hc])) _ g2]

/-- Each matched node that lies apart from the others was edited. -/
theorem editedAt_acts {as : List Nat} {P : Node → Node → Prop} (t : Node) (hn : t.addrs.Nodup) : ∀ t', LieApart as t → EditedAt (· ∈ as) P t t' →
    ∀ m ∈ nodesOf t, m.hd.addr ∈ as → ∃ m', P m m' := by
  induction t using Node.ind with
  | h h cs ih =>
    intro t' hd hed m hm hma
    have hm' := (nodesOf_mem m _).1 hm
    rw [editedAt_mk] at hed
    rcases hed with ⟨h1, hp⟩ | ⟨hno, hh, hF⟩
    · rcases hm' with rfl | ⟨c, hc, hmc⟩
      · exact ⟨_, hp⟩
      · exfalso
        simp only [Node.content_mk] at hc
        have hin : m.hd.addr ∈ c.addrs := (addrs_nodesOf c _).2 ⟨m, hmc, rfl⟩
        have := hd _ (nodesOf_self _) h1 _ hma (mem_addrs_child (by simpa using hc) hin)
        rw [Node.addrs, addrss_eq, List.nodup_cons] at hn
        exact hn.1 (List.mem_flatMap.2 ⟨c, hc, this ▸ hin⟩)
    · rcases hm' with rfl | ⟨c, hc, hmc⟩
      · exact absurd hma hno
      · simp only [Node.content_mk] at hc hF
        obtain ⟨c', _, h2⟩ : ∃ c' ∈ t'.content, EditedAt (· ∈ as) P c c' := by
          clear ih hn hd hno hh hm hma hmc
          generalize t'.content = ds' at hF ⊢
          induction hF with
          | nil => simp at hc
          | @cons c0 c' cs ds h1 _ ih2 =>
            rcases List.mem_cons.1 hc with rfl | hc
            · exact ⟨_, List.mem_cons_self, h1⟩
            · obtain ⟨x, hx, hr⟩ := ih2 hc
              exact ⟨x, List.mem_cons_of_mem _ hx, hr⟩
        exact ih c hc (nodup_child hn (by simpa using hc)).1 c' (hd.child (by simpa using hc)) h2 m hmc hma

theorem timed_congr {f : Node → Res Err Node} {as bs : List Nat} (h : ∀ a, as.count a = bs.count a) (n n' : Node) : Timed f as n n' ↔ Timed f bs n n' := by
  unfold Timed; rw [h]

/-- Editing nodes that lie apart, in whatever order and however often. -/
theorem edit_all {f : Node → Res Err Node} (hf : BringsNone f) (hk : KeepsAddr f) (t : Node) (as : List Nat) (h0 : 0 ∉ as) (hd : LieApart as t) :
    (∀ t', as.foldlM (fun r a => modifyAt a f r) t = .ok t' → EditedAt (· ∈ as) (Timed f as) t t') ∧
    (∀ e, as.foldlM (fun r a => modifyAt a f r) t = .err e → ∃ m ∈ nodesOf t, m.hd.addr ∈ as ∧ times f (as.count m.hd.addr) m = .err e) ∧
    (as.foldlM (fun r a => modifyAt a f r) t = .panic → ∃ m ∈ nodesOf t, m.hd.addr ∈ as ∧ times f (as.count m.hd.addr) m = .panic) := by
  have refl : EditedAt (· ∈ ([] : List Nat)) (Timed f []) t t := by
    clear hd
    induction t using Node.ind with
    | h h cs ih =>
      rw [editedAt_mk]
      exact .inr ⟨by simp, rfl, by simp only [Node.content_mk]; exact List.forall₂_same.2 ih⟩
  suffices H : ∀ (bs done : List Nat) (cur : Node), (∀ x, (bs ++ done).count x = as.count x) →
      EditedAt (· ∈ done) (Timed f done) t cur →
      (∀ t', bs.foldlM (fun r a => modifyAt a f r) cur = .ok t' → EditedAt (· ∈ as) (Timed f as) t t') ∧
      (∀ e, bs.foldlM (fun r a => modifyAt a f r) cur = .err e → ∃ m ∈ nodesOf t, m.hd.addr ∈ as ∧ times f (as.count m.hd.addr) m = .err e) ∧
      (bs.foldlM (fun r a => modifyAt a f r) cur = .panic → ∃ m ∈ nodesOf t, m.hd.addr ∈ as ∧ times f (as.count m.hd.addr) m = .panic) by
    exact H as [] t (by simp) refl
  intro bs
  induction bs with
  | nil =>
    intro done cur hx hed
    simp only [List.nil_append] at hx
    simp only [List.foldlM_nil, Res.pure_eq]
    refine ⟨?_, by simp, by simp⟩
    intro t' he
    cases he
    refine editedAt_congr (fun a => ?_) (editedAt_imp t cur (fun n _ n' h => (timed_congr hx n n').1 h) hed)
    rw [← List.count_pos_iff, ← List.count_pos_iff, hx a]
  | cons b bs ih =>
    intro done cur hx hed
    have hin : ∀ x, x ∈ b :: bs ++ done → x ∈ as := by
      intro x h
      rw [← List.count_pos_iff, hx x] at h
      exact List.count_pos_iff.1 h
    have hb : b ∈ as := hin b (by simp)
    have hdis : LieApart (b :: done) t := by
      intro m hm hma c hc
      have sub : ∀ x ∈ b :: done, x ∈ as := by
        intro x hx'
        refine hin x ?_
        rcases List.mem_cons.1 hx' with rfl | h
        · simp
        · simp [h]
      exact hd m hm (sub _ hma) c (sub c hc)
    have hcount : ∀ m : Node, m.hd.addr = b → done.count b + 1 ≤ as.count m.hd.addr := by
      intro m hm
      rw [hm, ← hx b]
      simp only [List.cons_append, List.count_cons_self, List.count_append]
      omega
    obtain ⟨p1, p2, p3⟩ := edit_again hf hk (by rintro rfl; exact h0 hb) t cur hdis hed
    rw [List.foldlM_cons]
    cases hm : modifyAt b f cur with
    | err e =>
      refine ⟨by simp, ?_, by simp⟩
      intro e' he
      simp only [Res.bind_err, Res.err.injEq] at he
      subst he
      obtain ⟨m, h1, h2, h3⟩ := p2 e hm
      exact ⟨m, h1, h2 ▸ hb, times_err (hcount m h2) h3⟩
    | panic =>
      refine ⟨by simp, by simp, ?_⟩
      intro _
      obtain ⟨m, h1, h2, h3⟩ := p3 hm
      exact ⟨m, h1, h2 ▸ hb, times_panic (hcount m h2) h3⟩
    | ok cur' =>
      simp only [Res.bind_ok]
      refine ih (b :: done) cur' ?_ (p1 cur' hm)
      intro x
      rw [← hx x]
      exact (List.perm_middle).count_eq x

end Yot
