import Verif.Lemmas.Edit
namespace Yot
open Spec

theorem NilOks_iff (cs : List Node) : NilOks cs ↔ ∀ c ∈ cs, NilOk c := by
  induction cs with
  | nil => simp [NilOks]
  | cons c cs ih => simp [NilOks, ih]

theorem nilOk_mk (n : Node) : NilOk n ↔ (n.hd.nilc = true → n.content = []) ∧ ∀ c ∈ n.content, NilOk c := by
  obtain ⟨h, cs⟩ := n
  simp [NilOk, NilOks_iff]

theorem prune_items (m : Nat → Bool) (h : Hdr) (cs : List Node)
    (hk : h.kind = .sequence ∨ h.kind = .document) :
    prune m (.mk h cs) = .mk h (pruneItems m cs) := by
  rw [prune, if_pos hk]

theorem prune_entries (m : Nat → Bool) (h : Hdr) (cs : List Node)
    (hk : ¬ (h.kind = .sequence ∨ h.kind = .document)) :
    prune m (.mk h cs) = .mk h (pruneEntries m cs) := by
  rw [prune, if_neg hk]

theorem pruneItems_eq (m : Nat → Bool) (cs : List Node) :
    pruneItems m cs = (cs.filter (fun c => !m c.hd.addr)).map (prune m) := by
  induction cs with
  | nil => rfl
  | cons c cs ih =>
    rw [pruneItems, ih]
    by_cases h : m c.hd.addr = true <;> simp [h]

theorem pruneItems_append (m : Nat → Bool) (cs ds : List Node) :
    pruneItems m (cs ++ ds) = pruneItems m cs ++ pruneItems m ds := by
  simp [pruneItems_eq]

theorem pruneEntries_append (m : Nat → Bool) (cs ds : List Node) (h : cs.length % 2 = 0) :
    pruneEntries m (cs ++ ds) = pruneEntries m cs ++ pruneEntries m ds := by
  induction cs using pairInduction with
  | h0 => rfl
  | h1 a => simp at h
  | h2 a b cs ih =>
    have := ih (by simp at h; omega)
    simp only [List.cons_append, pruneEntries, this]
    split <;> simp

theorem mem_addrs_self (n : Node) : n.hd.addr ∈ n.addrs := by
  obtain ⟨h, cs⟩ := n; simp [Node.addrs]

/-- Nothing to prune. -/
theorem prune_absent (m : Nat → Bool) (n : Node) :
    (∀ a ∈ Node.addrss n.content, m a = false) → prune m n = n := by
  induction n using Node.ind with
  | h hd cs ih =>
    intro hm
    simp only [Node.content_mk, addrss_eq, List.mem_flatMap] at hm
    have hself : ∀ c ∈ cs, m c.hd.addr = false := fun c hc => hm _ ⟨c, hc, mem_addrs_self c⟩
    have hsub : ∀ c ∈ cs, prune m c = c := by
      intro c hc
      apply ih c hc
      intro a ha
      refine hm a ⟨c, hc, ?_⟩
      obtain ⟨ch, ccs⟩ := c
      simp only [Node.addrs, List.mem_cons]
      exact .inr ha
    have h1 : pruneItems m cs = cs := by
      clear hm ih
      induction cs with
      | nil => rfl
      | cons c cs ihc =>
        rw [pruneItems, hself c (by simp), hsub c (by simp),
          ihc (fun c hc => hself c (by simp [hc])) (fun c hc => hsub c (by simp [hc]))]
        simp
    have h2 : pruneEntries m cs = cs := by
      clear hm ih h1
      induction cs using pairInduction with
      | h0 => rfl
      | h1 a => rfl
      | h2 a b cs ihc =>
        rw [pruneEntries, hself a (by simp), hself b (by simp), hsub a (by simp), hsub b (by simp),
          ihc (fun c hc => hself c (by simp [hc])) (fun c hc => hsub c (by simp [hc]))]
        simp
    by_cases hk : hd.kind = .sequence ∨ hd.kind = .document
    · rw [prune_items m hd cs hk, h1]
    · rw [prune_entries m hd cs hk, h2]

/-- A list whose trees do not mention the match is not changed. -/
theorem pruneItems_absent (m : Nat → Bool) (cs : List Node)
    (h : ∀ c ∈ cs, ∀ a ∈ c.addrs, m a = false) : pruneItems m cs = cs := by
  induction cs with
  | nil => rfl
  | cons c cs ih =>
    have h1 : m c.hd.addr = false := h c (by simp) _ (mem_addrs_self c)
    have h2 : prune m c = c := by
      apply prune_absent
      intro a ha
      refine h c (by simp) a ?_
      obtain ⟨ch, ccs⟩ := c
      simp only [Node.addrs, List.mem_cons]; exact .inr ha
    rw [pruneItems, h1, h2, ih (fun c hc => h c (by simp [hc]))]
    simp

theorem pruneEntries_absent (m : Nat → Bool) (cs : List Node)
    (h : ∀ c ∈ cs, ∀ a ∈ c.addrs, m a = false) : pruneEntries m cs = cs := by
  have hself : ∀ c ∈ cs, m c.hd.addr = false := fun c hc => h c hc _ (mem_addrs_self c)
  have hsub : ∀ c ∈ cs, prune m c = c := by
    intro c hc
    apply prune_absent
    intro a ha
    refine h c hc a ?_
    obtain ⟨ch, ccs⟩ := c
    simp only [Node.addrs, List.mem_cons]; exact .inr ha
  clear h
  induction cs using pairInduction with
  | h0 => rfl
  | h1 a => rfl
  | h2 a b cs ihc =>
    rw [pruneEntries, hself a (by simp), hself b (by simp), hsub a (by simp), hsub b (by simp),
      ihc (fun c hc => hself c (by simp [hc])) (fun c hc => hsub c (by simp [hc]))]
    simp

/-- The two outcomes of the scan over the children. -/
theorem deleteScan_spec (a : Nat) (cs : List Node) (hnd : (Node.addrss cs).Nodup)
    (ih : ∀ c ∈ cs, deleteNode a c = .ok (prune (· == a) c)) :
    ((∀ c ∈ cs, c.hd.addr ≠ a) ∧ deleteScan a cs = .ok (cs.map (prune (· == a)), none)) ∨
    (∃ pre c post, cs = pre ++ c :: post ∧ c.hd.addr = a ∧ (∀ x ∈ pre, a ∉ x.addrs) ∧
      (∀ x ∈ post, a ∉ x.addrs) ∧ deleteScan a cs = .ok (cs, some pre.length)) := by
  induction cs with
  | nil => left; simp [deleteScan]
  | cons c cs ihc =>
    simp only [Node.addrss, List.nodup_append] at hnd
    by_cases hc : c.hd.addr = a
    · right
      refine ⟨[], c, cs, rfl, hc, by simp, ?_, by simp [deleteScan, hc]⟩
      intro x hx hax
      have : a ∈ Node.addrss cs := by rw [addrss_eq]; exact List.mem_flatMap.2 ⟨x, hx, hax⟩
      exact hnd.2.2 a (hc ▸ mem_addrs_self c) a this rfl
    · rcases ihc hnd.2.1 (fun c hc => ih c (by simp [hc])) with ⟨h1, h2⟩ | ⟨pre, d, post, rfl, h2, h3, h4, h5⟩
      · left
        refine ⟨by intro x hx; rcases List.mem_cons.1 hx with rfl | hx; exact hc; exact h1 x hx, ?_⟩
        simp [deleteScan, hc, ih c (by simp), h2]
      · right
        have hac : a ∉ c.addrs := by
          intro hac
          have : a ∈ Node.addrss (pre ++ d :: post) := by
            rw [addrss_eq]; exact List.mem_flatMap.2 ⟨d, by simp, h2 ▸ mem_addrs_self d⟩
          exact hnd.2.2 a hac a this rfl
        have hpc : prune (· == a) c = c := by
          apply prune_absent
          intro b hb
          have : b ∈ c.addrs := by
            obtain ⟨ch, ccs⟩ := c
            simp only [Node.addrs, List.mem_cons]; exact .inr hb
          simp only [beq_eq_false_iff_ne]
          rintro rfl
          exact hac this
        refine ⟨c :: pre, d, post, rfl, h2, ?_, h4, ?_⟩
        · intro x hx
          rcases List.mem_cons.1 hx with rfl | hx
          · exact hac
          · exact h3 x hx
        · simp [deleteScan, hc, ih c (by simp), h5, hpc]

theorem map_prune_items (m : Nat → Bool) (cs : List Node) (h : ∀ c ∈ cs, m c.hd.addr = false) :
    pruneItems m cs = cs.map (prune m) := by
  rw [pruneItems_eq, List.filter_eq_self.2 (by intro c hc; simp [h c hc])]

theorem map_prune_entries (m : Nat → Bool) (cs : List Node) (h : ∀ c ∈ cs, m c.hd.addr = false)
    (he : cs.length % 2 = 0) : pruneEntries m cs = cs.map (prune m) := by
  induction cs using pairInduction with
  | h0 => rfl
  | h1 a => simp at he
  | h2 a b cs ih =>
    rw [pruneEntries, h a (by simp), h b (by simp), ih (fun c hc => h c (by simp [hc])) (by simp at he; omega)]
    simp

/-- Deleting one address is pruning it. -/
theorem deleteNode_eq (a : Nat) (n : Node) : WellFormed n → NilOk n → (Node.addrss n.content).Nodup →
    deleteNode a n = .ok (prune (· == a) n) := by
  induction n using Node.ind with
  | h hd cs ih =>
    intro hw hn hnd
    rw [wf_iff] at hw
    rw [nilOk_mk] at hn
    simp only [Node.hd_mk, Node.content_mk] at hw hn hnd
    have hsub : ∀ c ∈ cs, deleteNode a c = .ok (prune (· == a) c) := by
      intro c hc
      apply ih c hc (hw.2 c hc) (hn.2 c hc)
      obtain ⟨l1, l2, rfl⟩ := List.append_of_mem hc
      rw [addrss_eq, List.flatMap_append, List.flatMap_cons] at hnd
      have := (List.nodup_append.1 (List.nodup_append.1 hnd).2.1).1
      obtain ⟨ch, ccs⟩ := c
      simp only [Node.addrs, List.nodup_cons] at this
      exact this.2
    rcases deleteScan_spec a cs hnd hsub with ⟨h1, h2⟩ | ⟨pre, c, post, rfl, h2, h3, h4, h5⟩
    · simp only [deleteNode, h2, Res.bind_ok, Res.ok.injEq]
      have hm : ∀ c ∈ cs, (c.hd.addr == a) = false := by
        intro c hc; simpa using h1 c hc
      by_cases hk : hd.kind = .sequence ∨ hd.kind = .document
      · rw [prune_items _ _ _ hk, map_prune_items _ _ hm]
      · rw [prune_entries _ _ _ hk, map_prune_entries _ _ hm]
        have := hw.1
        simp only [not_or] at hk
        cases hkk : hd.kind <;> simp [hkk, Shaped] at this hk ⊢ <;> first | exact this | simp [this]
    · have hnil : hd.nilc = false := by
        cases hb : hd.nilc with
        | false => rfl
        | true => have := hn.1 hb; simp at this
      have hpre : ∀ x ∈ pre, ∀ b ∈ x.addrs, (b == a) = false := by
        intro x hx b hb
        simp only [beq_eq_false_iff_ne]
        rintro rfl; exact h3 x hx hb
      have hpost : ∀ x ∈ post, ∀ b ∈ x.addrs, (b == a) = false := by
        intro x hx b hb
        simp only [beq_eq_false_iff_ne]
        rintro rfl; exact h4 x hx hb
      simp only [deleteNode, h5, Res.bind_ok]
      have hhd : ({ hd with nilc := false } : Hdr) = hd := by rw [← hnil]
      rw [hhd]
      unfold deleteIndex cutRange
      by_cases hk : hd.kind = .sequence ∨ hd.kind = .document
      · rw [prune_items _ _ _ hk, if_pos hk]
        dsimp only
        rw [if_pos (by simp)]
        simp only [Res.bind_ok, Res.ok.injEq]
        congr 1
        rw [pruneItems_append, pruneItems_absent _ pre hpre, pruneItems]
        simp only [h2, beq_self_eq_true, if_true, pruneItems_absent _ post hpost]
        simp [List.drop_append]
      · rw [prune_entries _ _ _ hk, if_neg hk]
        have heven : (pre ++ c :: post).length % 2 = 0 := by
          have := hw.1
          simp only [not_or] at hk
          cases hkk : hd.kind <;> simp [hkk, Shaped] at this hk ⊢
          exact this
        by_cases hpar : pre.length % 2 = 0
        · simp only [hpar, if_true]
          cases post with
          | nil => simp at heven; omega
          | cons v post =>
            rw [if_pos (by simp)]
            simp only [Res.bind_ok, Res.ok.injEq]
            congr 1
            rw [pruneEntries_append _ _ _ hpar, pruneEntries_absent _ pre hpre, pruneEntries]
            simp only [h2, beq_self_eq_true, Bool.true_or, if_true,
              pruneEntries_absent _ post (fun x hx => hpost x (by simp [hx]))]
            simp [List.drop_append]
        · simp only [hpar, if_false]
          obtain ⟨pre', k, rfl⟩ : ∃ pre' k, pre = pre' ++ [k] := by
            rcases List.eq_nil_or_concat pre with rfl | ⟨l, x, rfl⟩
            · simp at hpar
            · exact ⟨l, x, by simp⟩
          rw [if_pos (by simp; omega)]
          simp only [Res.bind_ok, Res.ok.injEq]
          congr 1
          have he' : pre'.length % 2 = 0 := by simp at hpar; omega
          rw [show pre' ++ [k] ++ c :: post = pre' ++ k :: c :: post by simp,
            pruneEntries_append _ _ _ he', pruneEntries_absent _ pre' (fun x hx => hpre x (by simp [hx])),
            pruneEntries]
          simp only [h2, beq_self_eq_true, Bool.or_true, if_true, pruneEntries_absent _ post hpost]
          have e1 : pre'.length + 1 + 1 - pre'.length = 2 := by omega
          have e2 : pre'.drop (pre'.length + 1 + 1) = [] := List.drop_eq_nil_of_le (by omega)
          simp [List.drop_append, e1, e2]

/-! ### Composition -/

theorem prune_hd (m : Nat → Bool) (n : Node) : (prune m n).hd = n.hd := by
  obtain ⟨h, cs⟩ := n
  by_cases hk : h.kind = .sequence ∨ h.kind = .document
  · rw [prune_items m h cs hk]; rfl
  · rw [prune_entries m h cs hk]; rfl

theorem pruneEntries_even (m : Nat → Bool) (cs : List Node) (h : cs.length % 2 = 0) :
    (pruneEntries m cs).length % 2 = 0 := by
  induction cs using pairInduction with
  | h0 => rfl
  | h1 a => simp at h
  | h2 a b cs ih =>
    have := ih (by simp at h; omega)
    rw [pruneEntries]
    split
    · exact this
    · simp; omega

theorem pruneEntries_mem (m : Nat → Bool) (cs : List Node) (h : cs.length % 2 = 0) :
    ∀ x ∈ pruneEntries m cs, ∃ c ∈ cs, x = prune m c := by
  induction cs using pairInduction with
  | h0 => simp [pruneEntries]
  | h1 a => simp at h
  | h2 a b cs ih =>
    have := ih (by simp at h; omega)
    intro x hx
    rw [pruneEntries] at hx
    split at hx
    · obtain ⟨c, hc, rfl⟩ := this x hx; exact ⟨c, by simp [hc], rfl⟩
    · simp only [List.mem_cons] at hx
      rcases hx with rfl | rfl | hx
      · exact ⟨a, by simp, rfl⟩
      · exact ⟨b, by simp, rfl⟩
      · obtain ⟨c, hc, rfl⟩ := this x hx; exact ⟨c, by simp [hc], rfl⟩

theorem shaped_even {k : Kind} {c : Nat} (h : Shaped k c) (hk : ¬ (k = .sequence ∨ k = .document)) :
    c % 2 = 0 := by
  simp only [not_or] at hk
  cases k <;> simp [Shaped] at h hk ⊢ <;> omega

theorem prune_wf (m : Nat → Bool) (n : Node) : WellFormed n → WellFormed (prune m n) := by
  induction n using Node.ind with
  | h hd cs ih =>
    intro hw
    rw [wf_mk] at hw
    by_cases hk : hd.kind = .sequence ∨ hd.kind = .document
    · rw [prune_items m hd cs hk, wf_mk]
      constructor
      · rcases hk with hk | hk <;> simp [hk, Shaped]
      · intro c hc
        rw [pruneItems_eq] at hc
        simp only [List.mem_map, List.mem_filter] at hc
        obtain ⟨d, ⟨hd', _⟩, rfl⟩ := hc
        exact ih d hd' (hw.2 d hd')
    · rw [prune_entries m hd cs hk, wf_mk]
      have he := shaped_even hw.1 hk
      constructor
      · have h2 := pruneEntries_even m cs he
        have h1 := hw.1
        have hnil : cs = [] → pruneEntries m cs = [] := by rintro rfl; rfl
        cases hkk : hd.kind <;> simp [hkk, Shaped] at hk h1 ⊢
        · exact hnil h1
        · exact h2
        · exact hnil h1
        · exact hnil h1
      · intro c hc
        obtain ⟨d, hd', rfl⟩ := pruneEntries_mem m cs he c hc
        exact ih d hd' (hw.2 d hd')

theorem prune_nilOk (m : Nat → Bool) (n : Node) : WellFormed n → NilOk n → NilOk (prune m n) := by
  induction n using Node.ind with
  | h hd cs ih =>
    intro hw hn
    rw [wf_mk] at hw
    rw [nilOk_mk] at hn
    simp only [Node.hd_mk, Node.content_mk] at hn
    by_cases hk : hd.kind = .sequence ∨ hd.kind = .document
    · rw [prune_items m hd cs hk, nilOk_mk]
      constructor
      · intro h; have := hn.1 h; subst this; rfl
      · intro c hc
        simp only [Node.content_mk] at hc
        rw [pruneItems_eq] at hc
        simp only [List.mem_map, List.mem_filter] at hc
        obtain ⟨d, ⟨hd', _⟩, rfl⟩ := hc
        exact ih d hd' (hw.2 d hd') (hn.2 d hd')
    · rw [prune_entries m hd cs hk, nilOk_mk]
      have he := shaped_even hw.1 hk
      constructor
      · intro h; have := hn.1 h; subst this; rfl
      · intro c hc
        obtain ⟨d, hd', rfl⟩ := pruneEntries_mem m cs he c hc
        exact ih d hd' (hw.2 d hd') (hn.2 d hd')

/-- Pruning keeps a sublist of the addresses. -/
theorem prune_addrs (m : Nat → Bool) (n : Node) : (prune m n).addrs.Sublist n.addrs := by
  induction n using Node.ind with
  | h hd cs ih =>
    have hI : ∀ ds : List Node, (∀ d ∈ ds, (prune m d).addrs.Sublist d.addrs) →
        (Node.addrss (pruneItems m ds)).Sublist (Node.addrss ds) := by
      intro ds hds
      induction ds with
      | nil => simp [pruneItems]
      | cons d ds ihd =>
        have h1 := ihd (fun x hx => hds x (by simp [hx]))
        rw [pruneItems]
        split
        · simp only [Node.addrss]; exact h1.trans (List.sublist_append_right _ _)
        · simp only [Node.addrss]; exact (hds d (by simp)).append h1
    have hE : ∀ ds : List Node, (∀ d ∈ ds, (prune m d).addrs.Sublist d.addrs) →
        (Node.addrss (pruneEntries m ds)).Sublist (Node.addrss ds) := by
      intro ds hds
      induction ds using pairInduction with
      | h0 => simp [pruneEntries]
      | h1 a => simp [pruneEntries]
      | h2 a b ds ihd =>
        have h1 := ihd (fun x hx => hds x (by simp [hx]))
        rw [pruneEntries]
        split
        · simp only [Node.addrss]
          exact h1.trans ((List.sublist_append_right _ _).trans (List.sublist_append_right _ _))
        · simp only [Node.addrss]
          exact (hds a (by simp)).append ((hds b (by simp)).append h1)
    by_cases hk : hd.kind = .sequence ∨ hd.kind = .document
    · rw [prune_items m hd cs hk]; simp only [Node.addrs]; exact (hI cs ih).cons_cons _
    · rw [prune_entries m hd cs hk]; simp only [Node.addrs]; exact (hE cs ih).cons_cons _

/-- Pruning twice is pruning by both. -/
theorem prune_prune (m1 m2 : Nat → Bool) (n : Node) : WellFormed n →
    prune m2 (prune m1 n) = prune (fun a => m1 a || m2 a) n := by
  induction n using Node.ind with
  | h hd cs ih =>
    intro hw
    rw [wf_mk] at hw
    by_cases hk : hd.kind = .sequence ∨ hd.kind = .document
    · rw [prune_items m1 hd cs hk, prune_items _ hd _ hk, prune_items _ hd _ hk]
      congr 1
      have hw2 := hw.2
      clear hw
      induction cs with
      | nil => rfl
      | cons c cs ihc =>
        have h1 := ihc (fun x hx => ih x (by simp [hx])) (fun x hx => hw2 x (by simp [hx]))
        rw [pruneItems, pruneItems]
        by_cases g1 : m1 c.hd.addr = true
        · simp [g1, h1]
        · simp only [g1, Bool.false_eq_true, if_false, Bool.false_or]
          rw [pruneItems, prune_hd, h1, ih c (by simp) (hw2 c (by simp))]
    · rw [prune_entries m1 hd cs hk, prune_entries _ hd _ hk, prune_entries _ hd _ hk]
      congr 1
      have he := shaped_even hw.1 hk
      have hw2 := hw.2
      clear hw
      induction cs using pairInduction with
      | h0 => rfl
      | h1 a => simp at he
      | h2 a b cs ihc =>
        have h1 := ihc (fun x hx => ih x (by simp [hx])) (by simp at he; omega) (fun x hx => hw2 x (by simp [hx]))
        rw [pruneEntries, pruneEntries]
        by_cases g1 : m1 a.hd.addr = true
        · simp [g1, h1]
        · by_cases g2 : m1 b.hd.addr = true
          · simp [g2, h1]
          · simp only [g1, g2, Bool.false_eq_true, Bool.or_self, if_false, Bool.false_or]
            rw [pruneEntries, prune_hd, prune_hd, h1, ih a (by simp) (hw2 a (by simp)),
              ih b (by simp) (hw2 b (by simp))]

/-- Pruning nothing. -/
theorem prune_none (n : Node) : prune (fun _ => false) n = n := prune_absent _ n (by simp)

/-! ### Labelling -/

theorem labelFrom_addrs (n : Node) : ∀ k,
    k ≤ (n.labelFrom k).2 ∧ (∀ a ∈ (n.labelFrom k).1.addrs, k ≤ a ∧ a < (n.labelFrom k).2) ∧
    (n.labelFrom k).1.addrs.Nodup := by
  induction n using Node.ind with
  | h hd cs ih =>
    have hL : ∀ ds : List Node, (∀ d ∈ ds, ∀ k, k ≤ (d.labelFrom k).2 ∧
        (∀ a ∈ (d.labelFrom k).1.addrs, k ≤ a ∧ a < (d.labelFrom k).2) ∧ (d.labelFrom k).1.addrs.Nodup) →
        ∀ k, k ≤ (Node.labelsFrom k ds).2 ∧
          (∀ a ∈ Node.addrss (Node.labelsFrom k ds).1, k ≤ a ∧ a < (Node.labelsFrom k ds).2) ∧
          (Node.addrss (Node.labelsFrom k ds).1).Nodup := by
      intro ds hds
      induction ds with
      | nil => intro k; simp [Node.labelsFrom, Node.addrss]
      | cons d ds ihd =>
        intro k
        obtain ⟨a1, a2, a3⟩ := hds d (by simp) k
        obtain ⟨b1, b2, b3⟩ := ihd (fun x hx => hds x (by simp [hx])) (d.labelFrom k).2
        simp only [Node.labelsFrom, Node.addrss, List.mem_append, List.nodup_append]
        refine ⟨by omega, ?_, a3, b3, ?_⟩
        · rintro a (h | h)
          · have := a2 a h; omega
          · have := b2 a h; omega
        · intro x hx y hy
          have := a2 x hx
          have := b2 y hy
          omega
    intro k
    obtain ⟨b1, b2, b3⟩ := hL cs ih (k + 1)
    simp only [Node.labelFrom, Node.addrs, List.mem_cons, List.nodup_cons]
    refine ⟨by omega, ?_, ?_, b3⟩
    · rintro a (rfl | h)
      · omega
      · have := b2 a h; omega
    · intro h; have := b2 k h; omega

theorem label_nodup (n : Node) : n.label.addrs.Nodup := (labelFrom_addrs n 1).2.2

theorem label_ne_zero (n : Node) : 0 ∉ n.label.addrs := by
  intro h; have := (labelFrom_addrs n 1).2.1 0 h; omega

theorem labelFrom_wf (n : Node) : ∀ k, WellFormed n → WellFormed (n.labelFrom k).1 := by
  intro k hw
  induction n using Node.ind generalizing k with
  | h hd cs ih =>
    rw [wf_mk] at hw
    have hL : ∀ ds : List Node, (∀ d ∈ ds, d ∈ cs) → ∀ k, (Node.labelsFrom k ds).1.length = ds.length ∧
        ∀ c ∈ (Node.labelsFrom k ds).1, WellFormed c := by
      intro ds hds
      induction ds with
      | nil => intro k; simp [Node.labelsFrom]
      | cons d ds ihd =>
        intro k
        obtain ⟨h1, h2⟩ := ihd (fun x hx => hds x (by simp [hx])) (d.labelFrom k).2
        simp only [Node.labelsFrom, List.length_cons, h1, List.mem_cons, true_and]
        rintro c (rfl | hc)
        · exact ih d (hds d (by simp)) k (hw.2 d (hds d (by simp)))
        · exact h2 c hc
    obtain ⟨h1, h2⟩ := hL cs (fun _ h => h) (k + 1)
    simp only [Node.labelFrom]
    rw [wf_mk]
    exact ⟨by rw [h1]; exact hw.1, h2⟩

theorem label_wf (n : Node) (h : WellFormed n) : WellFormed n.label := labelFrom_wf n 1 h

theorem labelFrom_nilOk (n : Node) : ∀ k, NilOk n → NilOk (n.labelFrom k).1 := by
  induction n using Node.ind with
  | h hd cs ih =>
    intro k hw
    rw [nilOk_mk] at hw
    simp only [Node.hd_mk, Node.content_mk] at hw
    have hL : ∀ ds : List Node, (∀ d ∈ ds, d ∈ cs) → ∀ k,
        ∀ c ∈ (Node.labelsFrom k ds).1, NilOk c := by
      intro ds hds
      induction ds with
      | nil => intro k; simp [Node.labelsFrom]
      | cons d ds ihd =>
        intro k
        have h2 := ihd (fun x hx => hds x (by simp [hx])) (d.labelFrom k).2
        simp only [Node.labelsFrom, List.mem_cons]
        rintro c (rfl | hc)
        · exact ih d (hds d (by simp)) k (hw.2 d (hds d (by simp)))
        · exact h2 c hc
    rw [nilOk_mk]
    refine ⟨?_, hL cs (fun _ h => h) (k + 1)⟩
    intro h
    have := hw.1 h
    subst this
    simp [Node.labelFrom, Node.labelsFrom]

theorem label_nilOk (n : Node) (h : NilOk n) : NilOk n.label := labelFrom_nilOk n 1 h

/-- Labelling changes nothing but addresses. -/
theorem labelFrom_fresh (n : Node) : ∀ k, (n.labelFrom k).1.fresh = n.fresh := by
  induction n using Node.ind with
  | h hd cs ih =>
    intro k
    have hL : ∀ ds : List Node, (∀ d ∈ ds, d ∈ cs) → ∀ k, Node.freshs (Node.labelsFrom k ds).1 = Node.freshs ds := by
      intro ds hds
      induction ds with
      | nil => intro k; rfl
      | cons d ds ihd =>
        intro k
        simp only [Node.labelsFrom, Node.freshs]
        rw [ih d (hds d (by simp)) k, ihd (fun x hx => hds x (by simp [hx])) _]
    simp only [Node.labelFrom, Node.fresh]
    rw [hL cs (fun _ h => h)]

theorem label_fresh (n : Node) : n.label.fresh = n.fresh := labelFrom_fresh n 1

end Yot
