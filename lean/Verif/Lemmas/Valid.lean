import Verif.Spec.Valid
import Verif.Lemmas.Safety
import Verif.Lemmas.InjectMany
import Verif.Props.Inject
/-
Lemmas for C77: edits keep documents valid.
-/
namespace Yot
open Spec

/-- `ValidNode` with a condition on the keys. -/
def GN (P : Str → Prop) : Node → Prop
  | .mk h cs => ValidHdr h ∧ Shaped h.kind cs.length ∧ (h.kind = .mapping → (keys cs).Nodup ∧ ∀ k ∈ keys cs, P k) ∧
    ∀ c, (_ : c ∈ cs) → GN P c

theorem gn_mk (P : Str → Prop) (h : Hdr) (cs : List Node) : GN P (.mk h cs) ↔
    ValidHdr h ∧ Shaped h.kind cs.length ∧ (h.kind = .mapping → (keys cs).Nodup ∧ ∀ k ∈ keys cs, P k) ∧ ∀ c ∈ cs, GN P c := by
  rw [GN]

theorem gn_iff (P : Str → Prop) (n : Node) : GN P n ↔
    ValidHdr n.hd ∧ Shaped n.hd.kind n.content.length ∧
      (n.hd.kind = .mapping → (keys n.content).Nodup ∧ ∀ k ∈ keys n.content, P k) ∧ ∀ c ∈ n.content, GN P c := by
  obtain ⟨h, cs⟩ := n; exact gn_mk P h cs

theorem ValidNodes_iff (cs : List Node) : ValidNodes cs ↔ ∀ c ∈ cs, ValidNode c := by
  induction cs with
  | nil => simp [ValidNodes]
  | cons c cs ih => simp [ValidNodes, ih]

theorem KeysPlains_iff (cs : List Node) : KeysPlains cs ↔ ∀ c ∈ cs, KeysPlain c := by
  induction cs with
  | nil => simp [KeysPlains]
  | cons c cs ih => simp [KeysPlains, ih]

theorem validNode_mk (h : Hdr) (cs : List Node) : ValidNode (.mk h cs) ↔
    ValidHdr h ∧ Shaped h.kind cs.length ∧ (h.kind = .mapping → (keys cs).Nodup) ∧ ∀ c ∈ cs, ValidNode c := by
  rw [ValidNode, ValidNodes_iff]

theorem keysPlain_mk (h : Hdr) (cs : List Node) : KeysPlain (.mk h cs) ↔
    (h.kind = .mapping → ∀ k ∈ keys cs, NoMarker k) ∧ ∀ c ∈ cs, KeysPlain c := by
  rw [KeysPlain, KeysPlains_iff]

theorem gn_true (n : Node) : GN (fun _ => True) n ↔ ValidNode n := by
  induction n using Node.ind with
  | h hd cs ih =>
    rw [gn_mk, validNode_mk]
    constructor
    · rintro ⟨h1, h2, h3, h4⟩
      exact ⟨h1, h2, fun h => (h3 h).1, fun c hc => (ih c hc).1 (h4 c hc)⟩
    · rintro ⟨h1, h2, h3, h4⟩
      exact ⟨h1, h2, fun h => ⟨h3 h, by simp⟩, fun c hc => (ih c hc).2 (h4 c hc)⟩

theorem gn_plain (n : Node) : GN NoMarker n ↔ ValidNode n ∧ KeysPlain n := by
  induction n using Node.ind with
  | h hd cs ih =>
    rw [gn_mk, validNode_mk, keysPlain_mk]
    constructor
    · rintro ⟨h1, h2, h3, h4⟩
      exact ⟨⟨h1, h2, fun h => (h3 h).1, fun c hc => ((ih c hc).1 (h4 c hc)).1⟩, fun h => (h3 h).2,
        fun c hc => ((ih c hc).1 (h4 c hc)).2⟩
    · rintro ⟨⟨h1, h2, h3, h4⟩, h5, h6⟩
      exact ⟨h1, h2, fun h => ⟨h3 h, h5 h⟩, fun c hc => (ih c hc).2 ⟨h4 c hc, h6 c hc⟩⟩

theorem GN.mono {P Q : Str → Prop} (hPQ : ∀ k, P k → Q k) {n : Node} : GN P n → GN Q n := by
  induction n using Node.ind with
  | h hd cs ih =>
    rw [gn_mk, gn_mk]
    rintro ⟨h1, h2, h3, h4⟩
    exact ⟨h1, h2, fun h => ⟨(h3 h).1, fun k hk => hPQ k ((h3 h).2 k hk)⟩, fun c hc => ih c hc (h4 c hc)⟩

theorem GN.wf {P : Str → Prop} {n : Node} : GN P n → WellFormed n := by
  induction n using Node.ind with
  | h hd cs ih =>
    rw [gn_mk, wf_mk]
    rintro ⟨_, h2, _, h4⟩
    exact ⟨h2, fun c hc => ih c hc (h4 c hc)⟩

/-- The addresses of the keys. -/
def KA (n : Node) : List Nat := (keyNodes n).map (·.hd.addr)

theorem keyNodess_mem (m : Node) (cs : List Node) : m ∈ keyNodess cs ↔ ∃ c ∈ cs, m ∈ keyNodes c := by
  induction cs with
  | nil => simp [keyNodess]
  | cons c cs ih => simp [keyNodess, ih]

theorem valueNodess_mem (m : Node) (cs : List Node) : m ∈ valueNodess cs ↔ ∃ c ∈ cs, m ∈ valueNodes c := by
  induction cs with
  | nil => simp [valueNodess]
  | cons c cs ih => simp [valueNodess, ih]

theorem ka_mk (a : Nat) (h : Hdr) (cs : List Node) : a ∈ KA (.mk h cs) ↔
    (h.kind = .mapping ∧ ∃ e ∈ pairs cs, e.1.hd.addr = a) ∨ ∃ c ∈ cs, a ∈ KA c := by
  simp only [KA, keyNodes, List.map_append, List.mem_append, List.mem_map, keyNodess_mem]
  constructor
  · rintro (⟨m, hm, rfl⟩ | ⟨m, ⟨c, hc, hm⟩, rfl⟩)
    · split at hm
      · rename_i hk
        simp only [List.mem_map] at hm
        obtain ⟨e, he, rfl⟩ := hm
        exact .inl ⟨hk, e, he, rfl⟩
      · simp at hm
    · exact .inr ⟨c, hc, m, hm, rfl⟩
  · rintro (⟨hk, e, he, rfl⟩ | ⟨c, hc, m, hm, rfl⟩)
    · left; exact ⟨e.1, by rw [if_pos hk]; exact List.mem_map_of_mem he, rfl⟩
    · right; exact ⟨m, ⟨c, hc, hm⟩, rfl⟩

theorem ka_iff (a : Nat) (n : Node) : a ∈ KA n ↔
    (n.hd.kind = .mapping ∧ ∃ e ∈ pairs n.content, e.1.hd.addr = a) ∨ ∃ c ∈ n.content, a ∈ KA c := by
  obtain ⟨h, cs⟩ := n; exact ka_mk a h cs

/-- `n'` is valid, at the same place, and has no keys that were not keys before, except new
ones. -/
def Keeps (P : Str → Prop) (n n' : Node) : Prop :=
  GN P n' ∧ n'.hd.addr = n.hd.addr ∧ ∀ a ∈ KA n', a ∈ KA n ∨ a = 0

theorem Keeps.refl {P : Str → Prop} {n : Node} (h : GN P n) : Keeps P n n := ⟨h, rfl, fun _ h => .inl h⟩

theorem Keeps.trans {P : Str → Prop} {a b c : Node} (h1 : Keeps P a b) (h2 : Keeps P b c) : Keeps P a c :=
  ⟨h2.1, h2.2.1.trans h1.2.1, fun x hx => by
    rcases h2.2.2 x hx with h | h
    · exact h1.2.2 x h
    · exact .inr h⟩

theorem forall₂_pairs {R : Node → Node → Prop} {cs ds : List Node} (h : List.Forall₂ R cs ds) :
    List.Forall₂ (fun e f => R e.1 f.1 ∧ R e.2 f.2) (pairs cs) (pairs ds) := by
  induction cs using pairInduction generalizing ds with
  | h0 => cases h; exact .nil
  | h1 a => cases h with | cons h1 h2 => cases h2; exact .nil
  | h2 k v cs ih =>
    cases h with
    | cons h1 h2 => cases h2 with
      | cons h3 h4 => exact .cons ⟨h1, h3⟩ (ih h4)

theorem forall₂_right {α β : Type} {R : α → β → Prop} {cs : List α} {ds : List β} (h : List.Forall₂ R cs ds) :
    ∀ d ∈ ds, ∃ c ∈ cs, R c d := by
  induction h with
  | nil => simp
  | cons h1 _ ih =>
    intro d hd
    rcases List.mem_cons.1 hd with rfl | hd
    · exact ⟨_, by simp, h1⟩
    · obtain ⟨c, hc, h⟩ := ih d hd; exact ⟨c, by simp [hc], h⟩

theorem forall₂_mem_left {α β : Type} {R S : α → β → Prop} {cs : List α} {ds : List β} (h : List.Forall₂ R cs ds)
    (hs : ∀ c ∈ cs, ∀ d, R c d → S c d) : List.Forall₂ S cs ds := by
  induction h with
  | nil => exact .nil
  | cons h1 _ ih => exact .cons (hs _ (by simp) _ h1) (ih (fun c hc => hs c (by simp [hc])))

theorem keeps_level {P : Str → Prop} {h h' : Hdr} {cs cs' : List Node} (hk : h'.kind = h.kind) (ht : h'.tag = h.tag)
    (ha : h'.addr = h.addr) (hn : GN P (.mk h cs)) (hc : List.Forall₂ (Keeps P) cs cs') (hkeys : keys cs' = keys cs) :
    Keeps P (.mk h cs) (.mk h' cs') := by
  rw [gn_mk] at hn
  obtain ⟨h1, h2, h3, h4⟩ := hn
  refine ⟨?_, ha, ?_⟩
  · rw [gn_mk]
    refine ⟨by simpa [ValidHdr, hk, ht] using h1, by rw [hk, ← hc.length_eq]; exact h2, by rw [hk, hkeys]; exact h3, ?_⟩
    intro d hd
    obtain ⟨c, _, hcd⟩ := forall₂_right hc d hd
    exact hcd.1
  · intro a
    rw [ka_mk, ka_mk, hk]
    rintro (⟨hm, e, he, rfl⟩ | ⟨d, hd, had⟩)
    · obtain ⟨f, hf, hfe, _⟩ := forall₂_right (forall₂_pairs hc) e he
      exact .inl (.inl ⟨hm, f, hf, hfe.2.1.symm⟩)
    · obtain ⟨c, hcm, hcd⟩ := forall₂_right hc d hd
      rcases hcd.2.2 a had with h | h
      · exact .inl (.inr ⟨c, hcm, h⟩)
      · exact .inr h

/-- Only the comments, text or style of a node are different. -/
theorem keeps_hdr {P : Str → Prop} {n : Node} {h : Hdr} (hk : h.kind = n.hd.kind) (ht : TagFits h.kind h.tag)
    (ha : h.addr = n.hd.addr) (hn : GN P n) : Keeps P n (.mk h n.content) := by
  obtain ⟨h0, cs⟩ := n
  simp only [Node.hd_mk, Node.content_mk] at *
  refine ⟨?_, ha, ?_⟩
  · rw [gn_mk] at hn ⊢
    exact ⟨⟨by rw [hk]; exact hn.1.1, ht⟩, by rw [hk]; exact hn.2.1, by rw [hk]; exact hn.2.2.1, hn.2.2.2⟩
  · intro a
    rw [ka_mk, ka_mk, hk]
    exact .inl

/-- A leaf. -/
theorem keeps_leaf {P : Str → Prop} {n : Node} {h : Hdr} (hv : ValidHdr h) (ha : h.addr = n.hd.addr) : Keeps P n (.mk h []) := by
  refine ⟨?_, ha, ?_⟩
  · rw [gn_mk]
    refine ⟨hv, ?_, by simp [keys, pairs], by simp⟩
    rcases hv.1 with h | h | h | h <;> simp [h, Shaped]
  · intro a
    rw [ka_mk]
    simp [pairs]

theorem keys_append {cs ds : List Node} (h : cs.length % 2 = 0) : keys (cs ++ ds) = keys cs ++ keys ds := by
  simp [keys, pairs_append h]

theorem ka_zero (n : Node) (h : ∀ a ∈ n.addrs, a = 0) : ∀ a ∈ KA n, a = 0 := by
  induction n using Node.ind with
  | h hd cs ih =>
    simp only [Node.addrs, List.mem_cons, addrss_eq, List.mem_flatMap] at h
    intro a
    rw [ka_mk]
    rintro (⟨_, e, he, rfl⟩ | ⟨c, hc, hac⟩)
    · have : e.1 ∈ cs := by
        clear ih h
        induction cs using pairInduction with
        | h0 => simp [pairs] at he
        | h1 => simp [pairs] at he
        | h2 k v cs ih =>
          simp only [pairs, List.mem_cons] at he
          rcases he with rfl | he
          · simp
          · simp [ih he]
      exact h _ (.inr ⟨e.1, this, mem_addrs_self _⟩)
    · exact ih c hc (fun a ha => h a (.inr ⟨c, hc, ha⟩)) a hac

theorem sanitize_fresh_addrs (E : Sed) (n : Node) : ∀ a ∈ (sanitizeNode E n.fresh).addrs, a = 0 := by
  induction n using Node.ind with
  | h hd cs ih =>
    rw [Node.fresh, sanitizeNode, sanitizeNodes_eq_map, freshs_eq_map, Node.addrs, addrss_eq]
    simp only [sanitizeHdr, List.mem_cons, List.mem_flatMap, List.mem_map]
    rintro a (rfl | ⟨_, ⟨_, ⟨c, hc, rfl⟩, rfl⟩, ha⟩)
    · rfl
    · exact ih c hc a ha

theorem keys_map {f : Node → Node} {cs : List Node} (h : ∀ e ∈ pairs cs, (f e.1).hd.value = e.1.hd.value) :
    keys (cs.map f) = keys cs := by
  induction cs using pairInduction with
  | h0 => rfl
  | h1 a => rfl
  | h2 k v cs ih =>
    simp only [pairs, List.mem_cons, forall_eq_or_imp] at h
    have := ih h.2
    simp only [keys, List.map_cons, pairs] at this ⊢
    rw [h.1, this]

theorem mem_keys {cs : List Node} {e : Node × Node} (h : e ∈ pairs cs) : e.1.hd.value ∈ keys cs :=
  List.mem_map_of_mem (f := fun e : Node × Node => e.1.hd.value) h

theorem sanitize_gn {P : Str → Prop} (E : Sed) (n : Node) : GN NoMarker n → GN P n → GN P (sanitizeNode E n.fresh) := by
  induction n using Node.ind with
  | h hd cs ih =>
    rw [gn_mk, gn_mk]
    rintro ⟨h1, h2, h3, h4⟩ ⟨_, _, p3, p4⟩
    rw [Node.fresh, sanitizeNode, sanitizeNodes_eq_map, freshs_eq_map, List.map_map, gn_mk]
    have hkeys : hd.kind = .mapping → keys (cs.map (sanitizeNode E ∘ Node.fresh)) = keys cs := by
      intro hk
      refine keys_map (fun e he => ?_)
      have hm := (h3 hk).2 _ (mem_keys he)
      obtain ⟨⟨kh, kc⟩, v⟩ := e
      simp only [Function.comp, Node.fresh, sanitizeNode, Node.hd_mk, sanitizeHdr]
      exact format_id E _ hm
    refine ⟨by simpa [sanitizeHdr, ValidHdr] using h1, by simpa [sanitizeHdr] using h2, ?_, ?_⟩
    · intro hk
      have hk' : hd.kind = .mapping := by simpa [sanitizeHdr] using hk
      rw [hkeys hk']
      exact p3 hk'
    · intro c hc
      obtain ⟨d, hd', rfl⟩ := List.mem_map.1 hc
      exact ih d hd' (h4 d hd') (p4 d hd')

theorem fresh_gn {P : Str → Prop} (n : Node) : GN P n → GN P n.fresh := by
  induction n using Node.ind with
  | h hd cs ih =>
    rw [gn_mk]
    rintro ⟨h1, h2, h3, h4⟩
    rw [fresh_mk, gn_mk, keys_map (fun e _ => fresh_value e.1)]
    refine ⟨by simpa [ValidHdr] using h1, by simpa using h2, h3, ?_⟩
    intro c hc
    obtain ⟨d, hd', rfl⟩ := List.mem_map.1 hc
    exact ih d hd' (h4 d hd')

theorem toMapping_keeps {P : Str → Prop} {o : Node} (h : GN P o) : Keeps P o (toMapping o) := by
  unfold toMapping
  split
  · exact keeps_leaf (by simp [ValidHdr, TagFits, scalarTags]) rfl
  · exact .refl h

theorem toSequence_keeps {P : Str → Prop} {o : Node} (h : GN P o) : Keeps P o (toSequence o) := by
  unfold toSequence
  split
  · exact keeps_leaf (by simp [ValidHdr, TagFits, scalarTags]) rfl
  · exact .refl h

theorem mergeComments_keeps {P : Str → Prop} (E : Sed) {o : Node} (n : Hdr) (vals : List Str) (h : GN P o) :
    Keeps P o (.mk (mergeComments E o.hd n vals) o.content) := by
  have hf := mergeComments_fields E o.hd n vals
  have hv := ((gn_iff P o).1 h).1.2
  have haddr : (mergeComments E o.hd n vals).addr = o.hd.addr := by
    unfold mergeComments; dsimp only; split
    · rfl
    · split
      · rfl
      · split <;> rfl
  have htag : (mergeComments E o.hd n vals).tag = o.hd.tag := by
    unfold mergeComments; dsimp only; split
    · rfl
    · split
      · rfl
      · split <;> rfl
  exact keeps_hdr hf.1 (by rw [hf.1, htag]; exact hv) haddr h

theorem addNode_keeps {P : Str → Prop} (E : Sed) {o : Node} {ns : List Node} (ho : GN P o)
    (hk : (o.hd.kind = .mapping ∧ ns.length % 2 = 0 ∧ (keys o.content ++ keys ns).Nodup ∧ (∀ k ∈ keys ns, NoMarker k ∧ P k)) ∨
      o.hd.kind = .sequence)
    (hns : ∀ c ∈ ns, GN NoMarker c ∧ GN P c) : Keeps P o (addNode E o ns) := by
  have hadd : (sanitizeNodes E (Node.freshs ns)) = ns.map (fun n => sanitizeNode E n.fresh) := by
    rw [sanitizeNodes_eq_map, freshs_eq_map, List.map_map]; rfl
  have ho' := (gn_iff P o).1 ho
  obtain ⟨oh, ocs⟩ := o
  simp only [Node.hd_mk, Node.content_mk] at *
  simp only [addNode, appendContent, hadd, Node.hd_mk, Node.content_mk]
  refine ⟨?_, rfl, ?_⟩
  · rw [gn_mk]
    refine ⟨by simpa [ValidHdr] using ho'.1, ?_, ?_, ?_⟩
    · simp only [List.length_append, List.length_map]
      rcases hk with ⟨hk, hl, _⟩ | hk
      · have := ho'.2.1
        simp only [hk, Shaped] at this ⊢
        omega
      · simp [hk, Shaped]
    · intro hm
      rcases hk with ⟨hk, hl, h3, h4⟩ | hk
      · have he : ocs.length % 2 = 0 := by have := ho'.2.1; simpa [hk, Shaped] using this
        have hks : keys (ns.map (fun n => sanitizeNode E n.fresh)) = keys ns := by
          refine keys_map (fun e he => ?_)
          have hm := (h4 _ (mem_keys he)).1
          obtain ⟨⟨kh, kc⟩, v⟩ := e
          simp only [Node.fresh, sanitizeNode, Node.hd_mk, sanitizeHdr]
          exact format_id E _ hm
        rw [keys_append he, hks]
        refine ⟨h3, ?_⟩
        intro k hkk
        rcases List.mem_append.1 hkk with hkk | hkk
        · exact (ho'.2.2.1 hk).2 k hkk
        · exact (h4 k hkk).2
      · simp [hk] at hm
    · intro c hc
      rcases List.mem_append.1 hc with hc | hc
      · exact ho'.2.2.2 c hc
      · obtain ⟨d, hd, rfl⟩ := List.mem_map.1 hc
        exact sanitize_gn E d (hns d hd).1 (hns d hd).2
  · intro a
    rw [ka_mk, ka_mk]
    have hz : ∀ c ∈ ns.map (fun n => sanitizeNode E n.fresh), c.hd.addr = 0 ∧ ∀ a ∈ KA c, a = 0 := by
      intro c hc
      obtain ⟨d, _, rfl⟩ := List.mem_map.1 hc
      exact ⟨sanitize_fresh_addrs E d _ (mem_addrs_self _), ka_zero _ (sanitize_fresh_addrs E d)⟩
    rintro (⟨hm, e, he, rfl⟩ | ⟨c, hc, hac⟩)
    · have he2 : ocs.length % 2 = 0 := by have := ho'.2.1; simp only at hm; simpa [hm, Shaped] using this
      rw [pairs_append he2] at he
      rcases List.mem_append.1 he with he | he
      · exact .inl (.inl ⟨hm, e, he, rfl⟩)
      · refine .inr (hz e.1 ?_).1
        clear hz
        generalize ns.map (fun n => sanitizeNode E n.fresh) = l at he
        induction l using pairInduction with
        | h0 => simp [pairs] at he
        | h1 => simp [pairs] at he
        | h2 k v cs ih =>
          simp only [pairs, List.mem_cons] at he
          rcases he with rfl | he
          · simp
          · simp [ih he]
    · rcases List.mem_append.1 hc with hc | hc
      · exact .inl (.inr ⟨c, hc, hac⟩)
      · exact .inr ((hz c hc).2 a hac)

theorem mergeInner_keeps {P : Str → Prop} (E : Sed) (f : Node → Str → Res Err Node) (nk : Hdr) (hk : NoMarker nk.value)
    (hf : ∀ x key x', GN P x → f x key = .ok x' → Keeps P x x')
    (cs cs' : List Node) (b : Bool) (hcs : ∀ c ∈ cs, GN P c)
    (h : mergeInner E f nk cs = .ok (cs', b)) : List.Forall₂ (Keeps P) cs cs' := by
  have hmk := (checkForMarkers_iff _).2 hk
  have hrefl : ∀ cs : List Node, (∀ c ∈ cs, GN P c) → List.Forall₂ (Keeps P) cs cs := by
    intro cs
    induction cs with
    | nil => intro _; exact .nil
    | cons c cs ih => intro h; exact .cons (.refl (h c (by simp))) (ih (fun d hd => h d (by simp [hd])))
  induction cs using pairInduction generalizing cs' b with
  | h0 => simp [mergeInner] at h; obtain ⟨rfl, rfl⟩ := h; exact .nil
  | h1 a => simp [mergeInner] at h; obtain ⟨rfl, rfl⟩ := h; exact hrefl _ hcs
  | h2 k v cs ih =>
    have hcs' : ∀ c ∈ cs, GN P c := fun c hc => hcs c (by simp [hc])
    by_cases hkey : k.hd.value = nk.value
    · simp only [mergeInner, hmk, hkey, Bool.not_false, Bool.true_and, ne_eq, not_true_eq_false,
        decide_false, Bool.false_eq_true, if_false, if_true, Res.bind_eq_ok, Res.pure_eq,
        Res.ok.injEq, Prod.mk.injEq] at h
      obtain ⟨v', hv', rfl, rfl⟩ := h
      exact .cons (mergeComments_keeps E _ _ (hcs k (by simp))) (.cons (hf _ _ _ (hcs v (by simp)) hv') (hrefl _ hcs'))
    · simp [mergeInner, hmk, hkey, Res.bind_eq_ok] at h
      obtain ⟨r, hr, h1⟩ := h
      subst h1
      exact .cons (.refl (hcs k (by simp))) (.cons (.refl (hcs v (by simp))) (ih _ _ hcs' hr))

theorem mergeInner_keys (E : Sed) (f : Node → Str → Res Err Node) (nk : Hdr) (hk : NoMarker nk.value)
    (cs cs' : List Node) (b : Bool) (h : mergeInner E f nk cs = .ok (cs', b)) : keys cs' = keys cs :=
  kept_keys (mergeInner_kept E f nk hk cs cs' b h).2

/-- Merging keeps nodes valid. -/
theorem merge_keeps {P : Str → Prop} (E : Sed) (n : Node) : GN NoMarker n → GN P n →
    ∀ (o o' : Node) (vals : List Str), GN P o → merge E o vals n = .ok o' → Keeps P o o' := by
  induction n using Node.ind with
  | h nh ncs ih =>
    intro hn hp o o' vals ho h
    rw [gn_mk] at hn hp
    obtain ⟨v1, v2, v3, v4⟩ := hn
    obtain ⟨_, _, p3, p4⟩ := hp
    have ho' := (gn_iff P o).1 ho
    cases hk : nh.kind with
    | zero => simp [ValidHdr, hk] at v1
    | document => simp [ValidHdr, hk] at v1
    | «alias» => rw [merge_alias E o vals hk] at h; simp at h
    | scalar =>
      rw [merge_scalar E o vals hk] at h; cases h
      have htag : TagFits .scalar nh.tag := by have := v1.2; rwa [hk] at this
      have hc := mergeComments_keeps (P := P) E nh vals ho
      unfold mergeScalar
      dsimp only
      split
      · exact keeps_leaf (by simp [ValidHdr, htag]) hc.2.1
      · rename_i hs
        simp only [ne_eq, Decidable.not_not] at hs
        have hks := (mergeComments_fields E o.hd nh vals).1
        exact keeps_hdr hks (by simp only [Node.hd_mk]; rw [hks, hs]; exact htag) hc.2.1 ho
    | sequence =>
      rw [merge_sequence E o vals hk] at h; cases h
      have h1 := toSequence_keeps ho
      unfold mergeArray
      dsimp only
      split
      · exact h1
      · refine h1.trans ((mergeComments_keeps E nh _ h1.1).trans (addNode_keeps E ?_ (.inr ?_) ?_))
        · exact (mergeComments_keeps E nh _ h1.1).1
        · simp [(mergeComments_fields E _ _ _).1, toSequence_kind]
        · intro c hc; exact ⟨v4 c hc, p4 c hc⟩
    | mapping =>
      rw [merge_mapping E o vals hk] at h
      have hev : ncs.length % 2 = 0 := by simpa [hk, Shaped] using v2
      have key : ∀ ds : List Node, ds.length % 2 = 0 → (∀ c ∈ ds, c ∈ ncs) → (∀ k ∈ keys ds, NoMarker k ∧ P k) → ∀ o o', GN P o →
          mergeEntries E o ds = .ok o' → Keeps P o o' := by
        intro ds
        induction ds using pairInduction with
        | h0 => intro _ _ _ o o' ho h; simp [mergeEntries] at h; subst h; exact .refl ho
        | h1 a => intro h0; simp at h0
        | h2 k v ds ihd =>
          intro he hsub hks o o' ho h
          rw [mergeEntries] at h
          simp only [Res.bind_eq_ok] at h
          obtain ⟨⟨cs', b⟩, h1, h2⟩ := h
          have hkm := hks k.hd.value (by simp [keys, pairs])
          have ht := toMapping_keeps ho
          have hin := mergeInner_keeps E _ k.hd hkm.1
            (fun x key x' hx hxx => ih v (hsub v (by simp)) (v4 v (hsub v (by simp))) (p4 v (hsub v (by simp))) x x' [key] hx hxx)
            _ _ _ ((gn_iff P _).1 ht.1).2.2.2 h1
          have hkk := mergeInner_keys E _ k.hd hkm.1 _ _ _ h1
          have h2' : Keeps P o (.mk (toMapping o).hd cs') := by
            refine ht.trans ?_
            have := keeps_level (h' := (toMapping o).hd) rfl rfl rfl (by rw [Node.eta]; exact ht.1) hin hkk
            rwa [Node.eta] at this
          have hrest : ∀ c ∈ ds, c ∈ ncs := fun c hc => hsub c (by simp [hc])
          have hksr : ∀ x ∈ keys ds, NoMarker x ∧ P x := fun x hx => hks x (by
            simp only [keys, pairs, List.map_cons, List.mem_cons]; exact .inr hx)
          have her : ds.length % 2 = 0 := by simp at he; omega
          dsimp only at h2
          split at h2
          · exact h2'.trans (ihd her hrest hksr _ _ h2'.1 h2)
          · rename_i hb
            have hb' : b = false := by simpa using hb
            subst hb'
            obtain ⟨rfl, hnot⟩ := mergeInner_false E _ k.hd hkm.1 _ _ h1
            have ha : Keeps P (.mk (toMapping o).hd (toMapping o).content)
                (addNode E (.mk (toMapping o).hd (toMapping o).content) [k, v]) := by
              refine addNode_keeps E h2'.1 (.inl ⟨toMapping_kind o, by simp, ?_, ?_⟩) ?_
              · have hnd := (((gn_iff P _).1 ht.1).2.2.1 (toMapping_kind o)).1
                simp only [Node.content_mk]
                rw [List.nodup_append]
                refine ⟨hnd, by simp [keys, pairs], ?_⟩
                intro x hx y hy
                simp only [keys, pairs, List.map_cons, List.map_nil, List.mem_singleton] at hy
                subst hy
                rintro rfl
                exact hnot hx
              · intro x hx
                simp only [keys, pairs, List.map_cons, List.map_nil, List.mem_singleton] at hx
                subst hx; exact hkm
              · intro c hc
                simp only [List.mem_cons, List.not_mem_nil, or_false] at hc
                rcases hc with rfl | rfl
                · exact ⟨v4 _ (hsub _ (by simp)), p4 _ (hsub _ (by simp))⟩
                · exact ⟨v4 _ (hsub _ (by simp)), p4 _ (hsub _ (by simp))⟩
            exact h2'.trans (ha.trans (ihd her hrest hksr _ _ ha.1 h2))
      exact key ncs hev (fun _ h => h) (fun k hkk => ⟨(v3 hk).2 k hkk, (p3 hk).2 k hkk⟩) o o' ho h

theorem replaceNode_keeps {P : Str → Prop} (E : Sed) {x v : Node} (hv : GN P v) : Keeps P x (replaceNode E x v) := by
  have h1 := fresh_gn v hv
  rw [gn_iff] at h1
  unfold replaceNode
  refine ⟨?_, rfl, ?_⟩
  · rw [gn_mk]; exact h1
  · intro a ha
    right
    rw [ka_mk] at ha
    exact ka_zero v.fresh (fresh_addrs_zero v) a ((ka_iff a _).2 ha)

theorem combineNode_keeps {P : Str → Prop} (E : Sed) {o n m : Node} (ho : GN P o) (h : combineNode E o n = .ok m) : Keeps P o m := by
  have hc := mergeComments_keeps (P := P) E n.hd [] ho
  have hk := ((gn_mk P _ _).1 hc.1).1.2
  have hkk := (mergeComments_fields E o.hd n.hd []).1
  have key : ∀ s : Str, Keeps P o (.mk { mergeComments E o.hd n.hd [] with value := s } o.content) := by
    intro s
    exact keeps_hdr hkk hk hc.2.1 ho
  unfold combineNode at h
  split at h
  · simp at h
  · dsimp only at h
    split at h
    · split at h
      · simp only [Res.ok.injEq] at h; subst h; exact key _
      · simp at h
    · split at h
      · split at h
        · simp only [Res.ok.injEq] at h; subst h; exact key _
        · simp at h
      · simp only [Res.ok.injEq] at h; subst h; exact key _

theorem keys_of_hd {R : Node → Node → Prop} {cs ds : List Node} (h : List.Forall₂ R cs ds)
    (hk : ∀ e ∈ pairs cs, ∀ d, R e.1 d → d.hd.value = e.1.hd.value) : keys ds = keys cs := by
  have := forall₂_pairs h
  have h2 := forall₂_mem_left (S := fun e f => f.1.hd.value = e.1.hd.value) this (fun c hc d hd => hk c hc d.1 hd.1)
  unfold keys
  generalize pairs cs = l at h2
  generalize pairs ds = m at h2
  clear * - h2
  induction h2 with
  | nil => rfl
  | cons h _ ih => simp [h, ih]

theorem modifyAt_keeps {P : Str → Prop} {a : Nat} {f : Node → Res Err Node} (hf : ∀ x y, GN P x → f x = .ok y → Keeps P x y)
    (n : Node) : ∀ n', GN P n → a ∉ KA n → modifyAt a f n = .ok n' → Keeps P n n' := by
  induction n using Node.ind with
  | h hd cs ih =>
    intro n' hw ha h
    rcases modifyAt_cases h with ⟨_, h1⟩ | ⟨_, h1, h2⟩
    · exact hf _ _ hw h1
    · obtain ⟨hd', cs'⟩ := n'
      simp only [Node.content_mk, Node.hd_mk] at h1 h2
      subst h1
      rw [ka_mk] at ha
      simp only [not_or, not_and, not_exists] at ha
      have hw' := (gn_mk P _ _).1 hw
      by_cases hm : hd'.kind = .mapping
      · refine keeps_level rfl rfl rfl hw (forall₂_mem_left h2 (fun c hc d hcd => ih c hc d (hw'.2.2.2 c hc) (ha.2 c hc) hcd)) ?_
        refine keys_of_hd h2 (fun e he d hed => ?_)
        rcases modifyAt_cases hed with ⟨h3, _⟩ | ⟨_, h4, _⟩
        · exact absurd h3 (ha.1 hm e he)
        · rw [h4]
      · have hall := forall₂_mem_left h2 (fun c hc d hcd => ih c hc d (hw'.2.2.2 c hc) (ha.2 c hc) hcd)
        refine ⟨?_, rfl, ?_⟩
        · rw [gn_mk]
          refine ⟨hw'.1, by rw [← h2.length_eq]; exact hw'.2.1, fun h => absurd h hm, ?_⟩
          intro d hd
          obtain ⟨c, _, h⟩ := forall₂_right hall d hd
          exact h.1
        · intro b
          rw [ka_mk, ka_mk]
          rintro (⟨h, _⟩ | ⟨d, hd, hb⟩)
          · exact absurd h hm
          · obtain ⟨c, hc, h⟩ := forall₂_right hall d hd
            rcases h.2.2 b hb with h | h
            · exact .inl (.inr ⟨c, hc, h⟩)
            · exact .inr h

theorem deleteNode_hd {a : Nat} {n n' : Node} (h : deleteNode a n = .ok n') : ∃ b, n'.hd = { n.hd with nilc := b } := by
  obtain ⟨hd, cs⟩ := n
  simp only [deleteNode, Res.bind_eq_ok] at h
  obtain ⟨⟨cs', i⟩, _, h⟩ := h
  cases i with
  | none => simp only [Res.ok.injEq] at h; subst h; exact ⟨hd.nilc, rfl⟩
  | some j =>
    simp only [Res.bind_eq_ok, Res.ok.injEq] at h
    obtain ⟨_, _, rfl⟩ := h
    exact ⟨false, rfl⟩

theorem deleteScan_steps {a : Nat} (cs : List Node) : ∀ cs' i, deleteScan a cs = .ok (cs', i) →
    List.Forall₂ (fun c c' => c' = c ∨ deleteNode a c = .ok c') cs cs' := by
  induction cs with
  | nil => intro cs' i h; simp [deleteScan] at h; rw [h.1]; exact .nil
  | cons c cs ih =>
    intro cs' i h
    rw [deleteScan] at h
    split at h
    · simp only [Res.ok.injEq, Prod.mk.injEq] at h
      obtain ⟨rfl, _⟩ := h
      exact List.forall₂_same.2 (fun x _ => .inl rfl)
    · simp only [Res.bind_eq_ok, Res.ok.injEq, Prod.mk.injEq] at h
      obtain ⟨c', h1, ⟨r, j⟩, h2, rfl, _⟩ := h
      exact .cons (.inr h1) (ih _ _ h2)

theorem pairs_take_drop (cs : List Node) : ∀ p q, p % 2 = 0 → q % 2 = 0 → p ≤ q → cs.length % 2 = 0 → q ≤ cs.length →
    (pairs (cs.take p ++ cs.drop q)).Sublist (pairs cs) := by
  induction cs using pairInduction with
  | h0 => intro p q _ _ _ _ _; simp [pairs]
  | h1 a => intro p q _ _ _ h; simp at h
  | h2 k v cs ih =>
    intro p q hp hq hpq he hl
    match p, q with
    | 0, 0 => simp
    | 0, 1 => simp at hq
    | 0, q + 2 =>
      have := ih 0 q rfl (by omega) (by omega) (by simp at he; omega) (by simp at hl; omega)
      simp only [List.take_zero, List.nil_append, List.drop_succ_cons, pairs] at this ⊢
      exact this.cons _
    | 1, _ => simp at hp
    | p + 2, 0 => omega
    | p + 2, 1 => omega
    | p + 2, q + 2 =>
      have := ih p q (by omega) (by omega) (by omega) (by simp at he; omega) (by simp at hl; omega)
      simp only [List.take_succ_cons, List.cons_append, List.drop_succ_cons, pairs]
      exact this.cons_cons _

theorem deleteIndex_keeps {P : Str → Prop} {h : Hdr} {i : Nat} {cs cs' : List Node} (b : Bool) (hn : GN P (.mk h cs))
    (hi : i < cs.length) (hd : deleteIndex h.kind i cs = .ok cs') : Keeps P (.mk h cs) (.mk { h with nilc := b } cs') := by
  rw [gn_mk] at hn
  obtain ⟨h1, h2, h3, h4⟩ := hn
  unfold deleteIndex at hd
  dsimp only at hd
  split at hd
  · rename_i hle
    simp only [Res.ok.injEq] at hd
    subst hd
    have hsub : ∀ x ∈ cs.take (cutRange h.kind i).1 ++ cs.drop (cutRange h.kind i).2, x ∈ cs := by
      intro x hx
      rcases List.mem_append.1 hx with hx | hx
      · exact List.mem_of_mem_take hx
      · exact List.mem_of_mem_drop hx
    rcases h1.1 with hk | hk | hk | hk
    · have hpairs : (pairs (cs.take (cutRange h.kind i).1 ++ cs.drop (cutRange h.kind i).2)).Sublist (pairs cs) := by
        have he : cs.length % 2 = 0 := by simpa [hk, Shaped] using h2
        have hr : (cutRange h.kind i).1 % 2 = 0 ∧ (cutRange h.kind i).2 % 2 = 0 ∧ (cutRange h.kind i).1 ≤ (cutRange h.kind i).2 := by
          unfold cutRange
          rw [if_neg (by simp [hk])]
          split <;> dsimp only <;> omega
        exact pairs_take_drop cs _ _ hr.1 hr.2.1 hr.2.2 he hle
      refine ⟨?_, rfl, ?_⟩
      · rw [gn_mk]
        refine ⟨by simpa [ValidHdr] using h1, ?_, ?_, fun c hc => h4 c (hsub c hc)⟩
        · have he : cs.length % 2 = 0 := by simpa [hk, Shaped] using h2
          simp only [hk, Shaped, List.length_append, List.length_take, List.length_drop]
          unfold cutRange at hle ⊢
          simp only [reduceCtorEq, or_self, if_false] at hle ⊢
          rw [hk] at hle
          simp only [reduceCtorEq, or_self, if_false] at hle
          split at hle <;> rename_i hp <;> simp only [hp, if_true, if_false] at hle ⊢ <;> omega
        · intro _
          have hs : (keys (cs.take (cutRange h.kind i).1 ++ cs.drop (cutRange h.kind i).2)).Sublist (keys cs) := hpairs.map _
          exact ⟨(h3 hk).1.sublist hs, fun k hkk => (h3 hk).2 k (hs.subset hkk)⟩
      · intro a
        rw [ka_mk, ka_mk]
        rintro (⟨_, e, he, rfl⟩ | ⟨c, hc, ha⟩)
        · exact .inl (.inl ⟨hk, e, hpairs.subset he, rfl⟩)
        · exact .inl (.inr ⟨c, hsub c hc, ha⟩)
    · refine ⟨?_, rfl, ?_⟩
      · rw [gn_mk]
        exact ⟨by simpa [ValidHdr] using h1, by simp [hk, Shaped], by simp [hk], fun c hc => h4 c (hsub c hc)⟩
      · intro a
        rw [ka_mk, ka_mk]
        rintro (⟨h, _⟩ | ⟨c, hc, ha⟩)
        · simp [hk] at h
        · exact .inl (.inr ⟨c, hsub c hc, ha⟩)
    · simp [hk, Shaped] at h2; simp [h2] at hi
    · simp [hk, Shaped] at h2; simp [h2] at hi
  · simp at hd

theorem deleteScan_index {a : Nat} (cs : List Node) : ∀ cs' i, deleteScan a cs = .ok (cs', i) → ∀ j, i = some j → j < cs'.length := by
  induction cs with
  | nil => intro cs' i h j hj; simp [deleteScan] at h; rw [← h.2] at hj; simp at hj
  | cons c cs ih =>
    intro cs' i h j hj
    rw [deleteScan] at h
    split at h
    · simp only [Res.ok.injEq, Prod.mk.injEq] at h
      obtain ⟨rfl, rfl⟩ := h
      simp at hj; subst hj; simp
    · simp only [Res.bind_eq_ok, Res.ok.injEq, Prod.mk.injEq] at h
      obtain ⟨c', h1, ⟨r, k⟩, h2, rfl, rfl⟩ := h
      cases k with
      | none => simp at hj
      | some m => simp at hj; have := ih _ _ h2 m rfl; simp; omega

theorem deleteScan_keeps {P : Str → Prop} {a : Nat} {cs cs' : List Node} {i : Option Nat} (hcs : ∀ c ∈ cs, GN P c)
    (ih : ∀ c ∈ cs, ∀ c', GN P c → deleteNode a c = .ok c' → Keeps P c c') (h : deleteScan a cs = .ok (cs', i)) :
    List.Forall₂ (Keeps P) cs cs' ∧ keys cs' = keys cs := by
  have hs := deleteScan_steps cs cs' i h
  refine ⟨forall₂_mem_left hs ?_, keys_of_hd hs ?_⟩
  · rintro c hc d (rfl | hd)
    · exact .refl (hcs _ hc)
    · exact ih c hc d (hcs c hc) hd
  · rintro e _ d (rfl | hd)
    · rfl
    · obtain ⟨b, hb⟩ := deleteNode_hd hd; rw [hb]

theorem deleteNode_keeps {P : Str → Prop} (a : Nat) (n : Node) : ∀ n', GN P n → deleteNode a n = .ok n' → Keeps P n n' := by
  induction n using Node.ind with
  | h hd cs ih =>
    intro n' hn h
    simp only [deleteNode, Res.bind_eq_ok] at h
    obtain ⟨⟨cs', i⟩, h1, h2⟩ := h
    obtain ⟨h3, h4⟩ := deleteScan_keeps ((gn_mk P _ _).1 hn).2.2.2 (fun c hc c' => ih c hc c') h1
    have hl : Keeps P (.mk hd cs) (.mk hd cs') := keeps_level rfl rfl rfl hn h3 h4
    cases i with
    | none => simp only [Res.ok.injEq] at h2; subst h2; exact hl
    | some j =>
      simp only [Res.bind_eq_ok, Res.ok.injEq] at h2
      obtain ⟨cs2, h5, rfl⟩ := h2
      exact hl.trans (deleteIndex_keeps _ hl.1 (deleteScan_index _ _ _ h1 j rfl) h5)

/-! Documents. -/

/-- A valid document, with a condition on the keys. -/
def GD (P : Str → Prop) (d : Node) : Prop := d.hd.kind = .document ∧ d.content.length ≤ 1 ∧ ∀ c ∈ d.content, GN P c

theorem gd_true (d : Node) : GD (fun _ => True) d ↔ ValidDocument d := by
  simp only [GD, ValidDocument, gn_true]

/-- The document stays valid, without new keys except fresh ones. -/
def KeepsDoc (P : Str → Prop) (d d' : Node) : Prop :=
  GD P d' ∧ d'.hd.addr = d.hd.addr ∧ ∀ a ∈ KA d', a ∈ KA d ∨ a = 0

theorem KeepsDoc.refl {P : Str → Prop} {n : Node} (h : GD P n) : KeepsDoc P n n := ⟨h, rfl, fun _ h => .inl h⟩

theorem KeepsDoc.trans {P : Str → Prop} {a b c : Node} (h1 : KeepsDoc P a b) (h2 : KeepsDoc P b c) : KeepsDoc P a c :=
  ⟨h2.1, h2.2.1.trans h1.2.1, fun x hx => by
    rcases h2.2.2 x hx with h | h
    · exact h1.2.2 x h
    · exact .inr h⟩

theorem keepsDoc_level {P : Str → Prop} {d : Node} {h' : Hdr} {cs' : List Node} (hd : GD P d) (hk : h'.kind = .document)
    (ha : h'.addr = d.hd.addr) (hl : cs'.length ≤ d.content.length) (hc : ∀ c' ∈ cs', ∃ c ∈ d.content, Keeps P c c') :
    KeepsDoc P d (.mk h' cs') := by
  refine ⟨⟨hk, by have := hd.2.1; simp; omega, fun c' h => by obtain ⟨c, _, h⟩ := hc c' h; exact h.1⟩, ha, ?_⟩
  intro a
  rw [ka_mk, ka_iff]
  rintro (⟨h, _⟩ | ⟨c', h1, h2⟩)
  · simp [hk] at h
  · obtain ⟨c, h3, h4⟩ := hc c' h1
    rcases h4.2.2 a h2 with h | h
    · exact .inl (.inr ⟨c, h3, h⟩)
    · exact .inr h

theorem modifyAt_keepsDoc {P : Str → Prop} {a : Nat} {f : Node → Res Err Node} (hf : ∀ x y, GN P x → f x = .ok y → Keeps P x y)
    {d d' : Node} (hd : GD P d) (h0 : a ≠ d.hd.addr) (ha : a ∉ KA d) (h : modifyAt a f d = .ok d') : KeepsDoc P d d' := by
  rcases modifyAt_cases h with ⟨h1, _⟩ | ⟨_, h1, h2⟩
  · exact absurd h1.symm h0
  · obtain ⟨hh, cs'⟩ := d'
    simp only [Node.hd_mk, Node.content_mk] at h1 h2
    rw [ka_iff] at ha
    simp only [not_or, not_and, not_exists] at ha
    refine keepsDoc_level hd (by rw [h1]; exact hd.1) (by rw [h1]) (Nat.le_of_eq h2.length_eq.symm) ?_
    intro c' hc'
    obtain ⟨c, hc, hcc⟩ := forall₂_right h2 c' hc'
    exact ⟨c, hc, modifyAt_keeps hf c c' (hd.2.2 c hc) (ha.2 c hc) hcc⟩

theorem deleteNode_keepsDoc {P : Str → Prop} {a : Nat} {d d' : Node} (hd : GD P d) (h : deleteNode a d = .ok d') : KeepsDoc P d d' := by
  obtain ⟨hh, cs⟩ := d
  simp only [deleteNode, Res.bind_eq_ok] at h
  obtain ⟨⟨cs', i⟩, h1, h2⟩ := h
  obtain ⟨h3, _⟩ := deleteScan_keeps hd.2.2 (fun c hc c' => deleteNode_keeps a c c') h1
  have hl := h3.length_eq
  cases i with
  | none =>
    simp only [Res.ok.injEq] at h2; subst h2
    exact keepsDoc_level hd hd.1 rfl (Nat.le_of_eq h3.length_eq.symm) (fun c' hc' => forall₂_right h3 c' hc')
  | some j =>
    simp only [Res.bind_eq_ok, Res.ok.injEq] at h2
    obtain ⟨cs2, h5, rfl⟩ := h2
    unfold deleteIndex at h5
    dsimp only at h5
    split at h5
    · rename_i hle
      simp only [Res.ok.injEq] at h5
      subst h5
      refine keepsDoc_level hd hd.1 rfl ?_ (fun c' hc' => ?_)
      · have hk : hh.kind = .document := hd.1
        simp only [Node.content_mk] at hl
        unfold cutRange at hle ⊢
        simp only [hk, reduceCtorEq, or_true, if_true, List.length_append, List.length_take, List.length_drop, Node.content_mk] at hle ⊢
        omega
      · rcases List.mem_append.1 hc' with hx | hx
        · exact forall₂_right h3 c' (List.mem_of_mem_take hx)
        · exact forall₂_right h3 c' (List.mem_of_mem_drop hx)
    · simp at h5

/-- What the overlay's action needs of its value. -/
def ValueOk (P : Str → Prop) (o : Overlay) : Prop :=
  (o.action ≠ .delete → GN P o.value) ∧
  (o.action ≠ .delete ∧ o.action ≠ .replace ∧ o.action ≠ .combine → GN NoMarker o.value)

theorem doOne_keepsDoc {P : Str → Prop} (E : Sed) (o : Overlay) (hv : ValueOk P o) {a : Nat} {d d' : Node} (hd : GD P d)
    (h0 : a ≠ d.hd.addr) (ha : a ∉ KA d) (h : doOne E o d a = .ok d') : KeepsDoc P d d' := by
  unfold doOne at h
  split at h
  · exact deleteNode_keepsDoc hd h
  · rename_i hact
    exact modifyAt_keepsDoc (fun x y _ hxy => by
      simp only [Res.ok.injEq] at hxy; exact hxy ▸ replaceNode_keeps E (hv.1 (by simp [hact]))) hd h0 ha h
  · exact modifyAt_keepsDoc (fun x y hx hxy => combineNode_keeps E hx hxy) hd h0 ha h
  · rename_i h1 h2 h3
    exact modifyAt_keepsDoc (fun x y hx hxy => merge_keeps E o.value (hv.2 ⟨h1, h2, h3⟩) (hv.1 h1) x y [] hx hxy) hd h0 ha h

theorem fold_keepsDoc {P : Str → Prop} {α : Type} (f : Node → α → Res Err Node) (adr : α → Nat)
    (hf : ∀ d x d', GD P d → adr x ≠ d.hd.addr → adr x ∉ KA d → f d x = .ok d' → KeepsDoc P d d')
    (xs : List α) : ∀ d d', GD P d → (∀ x ∈ xs, adr x ≠ d.hd.addr ∧ adr x ∉ KA d ∧ adr x ≠ 0) → xs.foldlM f d = .ok d' → KeepsDoc P d d' := by
  induction xs with
  | nil => intro d d' hd _ h; simp at h; exact h ▸ .refl hd
  | cons x xs ih =>
    intro d d' hd hx h
    simp only [List.foldlM_cons, Res.bind_eq_ok] at h
    obtain ⟨d1, h1, h2⟩ := h
    have hk := hf d x d1 hd (hx x (by simp)).1 (hx x (by simp)).2.1 h1
    refine hk.trans (ih d1 d' hk.1 (fun y hy => ?_) h2)
    have := hx y (by simp [hy])
    refine ⟨by rw [hk.2.1]; exact this.1, ?_, this.2.2⟩
    intro hc
    rcases hk.2.2 _ hc with h | h
    · exact this.2.1 h
    · exact this.2.2 h

theorem gn_fresh {P : Str → Prop} (n : Node) : GN P n.fresh ↔ GN P n := by
  refine ⟨?_, fresh_gn n⟩
  induction n using Node.ind with
  | h hd cs ih =>
    rw [fresh_mk, gn_mk, gn_mk, keys_map (fun e _ => fresh_value e.1)]
    rintro ⟨h1, h2, h3, h4⟩
    exact ⟨by simpa [ValidHdr] using h1, by simpa using h2, h3, fun c hc => ih c hc (h4 _ (List.mem_map_of_mem hc))⟩

theorem gd_fresh {P : Str → Prop} (d : Node) : GD P d.fresh ↔ GD P d := by
  obtain ⟨h, cs⟩ := d
  simp only [GD, fresh_mk, Node.hd_mk, Node.content_mk, List.length_map, List.mem_map, forall_exists_index, and_imp,
    forall_apply_eq_imp_iff₂, gn_fresh]

theorem gd_label {P : Str → Prop} (d : Node) : GD P d.label ↔ GD P d := by
  rw [← gd_fresh d.label, label_fresh, gd_fresh]

theorem merge_keepsDoc {P : Str → Prop} (E : Sed) {n o o' : Node} {vals : List Str} (hn : GD NoMarker n) (hp : GD P n) (ho : GD P o)
    (h : merge E o vals n = .ok o') : KeepsDoc P o o' := by
  obtain ⟨nh, ncs⟩ := n
  have hnk : nh.kind = .document := hn.1
  rw [merge_document E o vals hnk] at h
  split at h
  · cases h; exact .refl ho
  · split at h
    · rename_i oc ocs nc _ hoc _
      simp only [Res.bind_eq_ok, Res.ok.injEq] at h
      obtain ⟨oc', h1, rfl⟩ := h
      have hk := merge_keeps (P := P) E nc (hn.2.2 nc (by simp)) (hp.2.2 nc (by simp)) oc oc' _ (ho.2.2 oc (by simp [hoc])) h1
      have ha : (mergeComments E o.hd nh [o.hd.value]).addr = o.hd.addr := by
        unfold mergeComments; dsimp only; split
        · rfl
        · split
          · rfl
          · split <;> rfl
      refine keepsDoc_level ho (by rw [(mergeComments_fields E _ _ _).1]; exact ho.1) ha (by simp [hoc]) ?_
      intro c hc
      rcases List.mem_cons.1 hc with rfl | hc
      · exact ⟨oc, by simp [hoc], hk⟩
      · exact ⟨c, by simp [hoc, hc], .refl (ho.2.2 c (by simp [hoc, hc]))⟩
    · simp at h

theorem nested_gn (ks : List Str) (h : ∀ k ∈ ks, NoMarker k) : GN NoMarker (nested ks) := by
  induction ks with
  | nil => rw [nested, gn_mk]; simp [ValidHdr, TagFits, Shaped]
  | cons k ks ih =>
    rw [nested, gn_mk]
    refine ⟨by simp [ValidHdr, TagFits, scalarTags], by simp [Shaped], ?_, ?_⟩
    · intro _
      simp [keys, pairs]
      exact h k (by simp)
    · intro c hc
      simp only [List.mem_cons, List.not_mem_nil, or_false] at hc
      rcases hc with rfl | rfl
      · rw [gn_mk]; simp [ValidHdr, TagFits, Shaped]
      · exact ih (fun x hx => h x (by simp [hx]))

/-- The path consists of names without format markers. -/
def NamesOnly (q : Query) : Prop := ∃ ks, PathOf ks q.str ∧ ∀ k ∈ ks, NoMarker k

theorem built_gd {q : Query} {n : Node} (h : NamesOnly q) (hb : buildPath q.str = .ok n) : GD NoMarker n := by
  obtain ⟨ks, h1, h2⟩ := h
  rw [pathOf_builds h1, Res.ok.injEq] at hb
  subst hb
  exact ⟨rfl, by simp [inDocument], by simpa [inDocument] using nested_gn ks h2⟩

theorem doInjectPath_valid {P : Str → Prop} (E : Sed) (o : Overlay) (ip : List Query) {d d' : Node} (hd : GD P d)
    (hP : ∀ k, NoMarker k → P k) (hv : GN P o.value) (hip : ∀ q ∈ ip, PlainPath q.str → NamesOnly q)
    (hf : ∀ d, GD P d → ∀ m ∈ findAll ip d.label, m.hd.addr ≠ d.label.hd.addr ∧ m.hd.addr ∉ KA d.label ∧ m.hd.addr ≠ 0)
    (h : doInjectPath E o ip d = .ok d') : GD P d' := by
  unfold doInjectPath at h
  cases hp : newPaths (ip.map Query.str) with
  | err e => rw [hp] at h; simp at h
  | panic => rw [hp] at h; simp at h
  | ok bps =>
    rw [hp, Res.bind_ok] at h
    have hb : ∀ n ∈ bps, GD NoMarker n := by
      intro n hn
      obtain ⟨s, hs, hsn⟩ := forall₂_right (mapM_forall₂ _ _ _ hp) n hn
      obtain ⟨q, hq, rfl⟩ := List.mem_map.1 hs
      exact built_gd (hip q hq ((C29_accepts_exactly_plain_paths _).1 ⟨n, hsn⟩)) hsn
    split at h
    · rename_i y hy
      have hyd : GD NoMarker y := by
        unfold buildPaths at hy
        simp only [Res.bind_eq_ok] at hy
        obtain ⟨r, h1, h2⟩ := hy
        cases bps with
        | nil => simp [mergeNodes] at h1; subst h1; simp at h2
        | cons b bs =>
          simp only [mergeNodes, Res.bind_eq_ok, Res.pure_eq, Res.ok.injEq] at h1
          obtain ⟨z, h3, rfl⟩ := h1
          simp only [Res.ok.injEq] at h2
          subst h2
          have key : ∀ bs : List Node, (∀ n ∈ bs, GD NoMarker n) → ∀ b z, GD NoMarker b →
              bs.foldlM (fun acc n => mergeNode E acc n) b = .ok z → GD NoMarker z := by
            intro bs
            induction bs with
            | nil => intro _ b z hb h; simp at h; exact h ▸ hb
            | cons x xs ih =>
              intro hx b z hb h
              simp only [List.foldlM_cons, Res.bind_eq_ok] at h
              obtain ⟨b1, h1, h2⟩ := h
              exact ih (fun n hn => hx n (by simp [hn])) b1 z
                (merge_keepsDoc E (hx x (by simp)) (hx x (by simp)) hb h1).1 h2
          exact key bs (fun n hn => hb n (by simp [hn])) b z (hb b (by simp)) h3
      simp only [Res.bind_eq_ok] at h
      obtain ⟨d1, h1, h2⟩ := h
      have hyP : GD P y := ⟨hyd.1, hyd.2.1, fun c hc => (hyd.2.2 c hc).mono hP⟩
      have hd1 := (merge_keepsDoc E hyd hyP hd h1).1
      unfold replaceAllAt at h2
      refine (fold_keepsDoc _ (fun m : Node => m.hd.addr) ?_ _ _ _ ((gd_label d1).2 hd1) (hf d1 hd1) h2).1
      intro x m x' hx h0 ha hxx
      exact modifyAt_keepsDoc (fun x y _ hxy => by
        simp only [Res.ok.injEq] at hxy; exact hxy ▸ replaceNode_keeps E hv) hx h0 ha hxx
    · simp at h

/-! Where values are. -/

theorem pairs_flat (cs : List Node) (h : cs.length % 2 = 0) (f : Node → List Nat) :
    (cs.flatMap f).Perm ((pairs cs).flatMap (fun e => f e.1) ++ (pairs cs).flatMap (fun e => f e.2)) := by
  induction cs using pairInduction with
  | h0 => simp [pairs]
  | h1 a => simp at h
  | h2 k v cs ih =>
    have := ih (by simp at h; omega)
    simp only [List.flatMap_cons, pairs, List.append_assoc]
    refine List.Perm.append_left _ ?_
    refine ((List.Perm.append_left (f v) this).trans ?_)
    rw [← List.append_assoc, ← List.append_assoc]
    exact List.Perm.append_right _ List.perm_append_comm

/-- The nodes of a tree: its root, keys and values. -/
theorem addrs_perm (n : Node) : WellFormed n →
    n.addrs.Perm (n.hd.addr :: (KA n ++ (valueNodes n).map (·.hd.addr))) := by
  induction n using Node.ind with
  | h hd cs ih =>
    intro hw
    rw [wf_mk] at hw
    rw [Node.addrs, addrss_eq]
    refine List.Perm.cons _ ?_
    have hsplit : ∀ ds : List Node, (∀ c ∈ ds, c ∈ cs) → (ds.flatMap Node.addrs).Perm
        (ds.map (·.hd.addr) ++ ((keyNodess ds).map (·.hd.addr) ++ (valueNodess ds).map (·.hd.addr))) := by
      intro ds
      induction ds with
      | nil => intro _; simp [keyNodess, valueNodess]
      | cons c ds ihd =>
        intro hs
        have h1 := ih c (hs c (by simp)) (hw.2 c (hs c (by simp)))
        have h2 := ihd (fun x hx => hs x (by simp [hx]))
        simp only [List.flatMap_cons, List.map_cons, keyNodess, valueNodess, List.map_append]
        refine (List.Perm.append h1 h2).trans ?_
        simp only [KA, List.cons_append]
        refine List.Perm.cons _ ?_
        simp only [List.perm_iff_count, List.count_append]
        intro a; omega
    refine (hsplit cs (fun _ h => h)).trans ?_
    simp only [KA, keyNodes, valueNodes, List.map_append]
    have hc : (cs.map (·.hd.addr)).Perm ((if hd.kind = .mapping then (pairs cs).map (·.1) else []).map (·.hd.addr) ++
        (if hd.kind = .mapping then (pairs cs).map (·.2) else cs).map (·.hd.addr)) := by
      by_cases hm : hd.kind = .mapping
      · have he : cs.length % 2 = 0 := by have := hw.1; simpa [hm, Shaped] using this
        have := pairs_flat cs he (fun n => [n.hd.addr])
        simp only [if_pos hm, List.map_map]
        simpa [List.flatMap_singleton', ← List.map_eq_flatMap, Function.comp_def] using this
      · simp [hm]
    have hc' := List.perm_iff_count.1 hc
    simp only [List.perm_iff_count, List.count_append] at hc' ⊢
    intro a
    have := hc' a
    omega

theorem value_address {n m : Node} (hw : WellFormed n) (hnd : n.addrs.Nodup) (hm : m ∈ valueNodes n) :
    m.hd.addr ≠ n.hd.addr ∧ m.hd.addr ∉ KA n ∧ m.hd.addr ∈ n.addrs := by
  have hp := addrs_perm n hw
  have hnd' := hp.nodup_iff.1 hnd
  have hmem : m.hd.addr ∈ (valueNodes n).map (·.hd.addr) := List.mem_map_of_mem (f := fun x : Node => x.hd.addr) hm
  rw [List.nodup_cons, List.nodup_append] at hnd'
  refine ⟨?_, ?_, ?_⟩
  · intro h; rw [h] at hmem; exact hnd'.1 (List.mem_append_right _ hmem)
  · intro h; exact hnd'.2.2.2 _ h _ hmem rfl
  · rw [hp.mem_iff]; simp [hmem]

end Yot
