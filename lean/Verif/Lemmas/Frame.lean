import Verif.Lemmas.Merge
import Verif.Spec.Build
namespace Yot
open Spec

/-- What happens to one entry under keys `T`: its key text stays, and if the key
is not in `T` nothing changes. -/
def Kept (T : List Str) (p q : Node × Node) : Prop :=
  q.1.hd.value = p.1.hd.value ∧ (p.1.hd.value ∉ T → q = p)

theorem kept_refl (T : List Str) (p : Node × Node) : Kept T p p := ⟨rfl, fun _ => rfl⟩

theorem Kept.mono {T T' : List Str} (hT : ∀ t ∈ T, t ∈ T') {p q : Node × Node} (h : Kept T p q) :
    Kept T' p q := ⟨h.1, fun hn => h.2 (fun hp => hn (hT _ hp))⟩

theorem Kept.trans {T : List Str} {p q r : Node × Node} (h : Kept T p q) (h' : Kept T q r) :
    Kept T p r := by
  refine ⟨h'.1.trans h.1, fun hn => ?_⟩
  have h1 := h.2 hn
  rw [h1] at h'
  exact h'.2 hn

theorem forall₂_kept_refl (T : List Str) (l : List (Node × Node)) : List.Forall₂ (Kept T) l l :=
  List.forall₂_same.2 (fun p _ => kept_refl T p)

theorem forall₂_kept_trans {T : List Str} {l1 l2 l3 : List (Node × Node)}
    (h : List.Forall₂ (Kept T) l1 l2) (h' : List.Forall₂ (Kept T) l2 l3) :
    List.Forall₂ (Kept T) l1 l3 := by
  induction h generalizing l3 with
  | nil => cases h'; exact .nil
  | cons h _ ih => cases h' with | cons h1 h2 => exact .cons (h.trans h1) (ih h2)

theorem forall₂_append_left {α β : Type} {R : α → β → Prop} {l1 l2 : List α} {m : List β}
    (h : List.Forall₂ R (l1 ++ l2) m) :
    ∃ m1 m2, List.Forall₂ R l1 m1 ∧ List.Forall₂ R l2 m2 ∧ m = m1 ++ m2 := by
  induction l1 generalizing m with
  | nil => exact ⟨[], m, .nil, h, rfl⟩
  | cons a l1 ih =>
    cases h with
    | cons h1 h2 =>
      obtain ⟨m1, m2, f1, f2, rfl⟩ := ih h2
      exact ⟨_ :: m1, m2, .cons h1 f1, f2, rfl⟩

theorem pairs_append {cs ds : List Node} (h : cs.length % 2 = 0) :
    pairs (cs ++ ds) = pairs cs ++ pairs ds := by
  induction cs using pairInduction with
  | h0 => rfl
  | h1 a => simp at h
  | h2 a b cs ih => simp [pairs, ih (by simp at h; omega)]

theorem mergeInner_kept (E : Sed) (f : Node → Str → Res Err Node) (nk : Hdr) (hk : NoMarker nk.value)
    (cs cs' : List Node) (b : Bool) (h : mergeInner E f nk cs = .ok (cs', b)) :
    cs'.length = cs.length ∧ List.Forall₂ (Kept [nk.value]) (pairs cs) (pairs cs') := by
  have hmk := (checkForMarkers_iff _).2 hk
  induction cs using pairInduction generalizing cs' b with
  | h0 => simp [mergeInner] at h; obtain ⟨rfl, rfl⟩ := h; simp [pairs]
  | h1 a => simp [mergeInner] at h; obtain ⟨rfl, rfl⟩ := h; simp [pairs]
  | h2 k v cs ih =>
    by_cases hkey : k.hd.value = nk.value
    · simp only [mergeInner, hmk, hkey, Bool.not_false, Bool.true_and, ne_eq, not_true_eq_false,
        decide_false, Bool.false_eq_true, if_false, if_true, Res.bind_eq_ok, Res.pure_eq,
        Res.ok.injEq, Prod.mk.injEq] at h
      obtain ⟨v', _, rfl, rfl⟩ := h
      refine ⟨by simp, ?_⟩
      simp only [pairs]
      refine List.Forall₂.cons ⟨(mergeComments_fields E k.hd nk _).2.1, ?_⟩ (forall₂_kept_refl _ _)
      intro hn; simp [hkey] at hn
    · simp [mergeInner, hmk, hkey, Res.bind_eq_ok] at h
      obtain ⟨r, hr, h1⟩ := h
      obtain ⟨l1, l2⟩ := ih r b hr
      subst h1
      exact ⟨by simp [l1], by simpa [pairs] using ⟨kept_refl _ _, l2⟩⟩

theorem mergeInner_false (E : Sed) (f : Node → Str → Res Err Node) (nk : Hdr)
    (hk : NoMarker nk.value) (cs cs' : List Node)
    (h : mergeInner E f nk cs = .ok (cs', false)) :
    cs' = cs ∧ nk.value ∉ (pairs cs).map (fun e => e.1.hd.value) := by
  have hmk := (checkForMarkers_iff _).2 hk
  induction cs using pairInduction generalizing cs' with
  | h0 => simp [mergeInner] at h; subst h; simp [pairs]
  | h1 a => simp [mergeInner] at h; subst h; simp [pairs]
  | h2 k v cs ih =>
    by_cases hkey : k.hd.value = nk.value
    · simp only [mergeInner, hmk, hkey, Bool.not_false, Bool.true_and, ne_eq, not_true_eq_false,
        decide_false, Bool.false_eq_true, if_false, if_true, Res.bind_eq_ok, Res.pure_eq,
        Res.ok.injEq, Prod.mk.injEq] at h
      obtain ⟨v', _, _, h⟩ := h
      simp at h
    · simp [mergeInner, hmk, hkey, Res.bind_eq_ok] at h
      obtain ⟨r, hr, h1⟩ := h
      obtain ⟨rfl, h2⟩ := ih r hr
      subst h1
      refine ⟨rfl, ?_⟩
      simp only [pairs, List.map_cons, List.mem_cons, not_or]
      exact ⟨fun e => hkey e.symm, h2⟩

theorem kept_keys {T : List Str} {l m : List (Node × Node)} (h : List.Forall₂ (Kept T) l m) :
    m.map (fun e => e.1.hd.value) = l.map (fun e => e.1.hd.value) := by
  induction h with
  | nil => rfl
  | cons h _ ih => simp [h.1, ih]

theorem pairs_length {cs : List Node} (h : cs.length % 2 = 0) : 2 * (pairs cs).length = cs.length := by
  induction cs using pairInduction with
  | h0 => rfl
  | h1 a => simp at h
  | h2 a b cs ih => simp [pairs] at h ⊢; have := ih (by omega); omega

/-- Frame of the outer loop. -/
theorem mergeEntries_kept (E : Sed) (ncs : List Node) :
    ∀ (o o' : Node), o.hd.kind = .mapping → o.content.length % 2 = 0 →
      (∀ t ∈ keys ncs, NoMarker t) → mergeEntries E o ncs = .ok o' →
      (∃ b, o'.hd = { o.hd with nilc := b }) ∧ o'.content.length % 2 = 0 ∧
      ∃ kept added, pairs o'.content = kept ++ added ∧
        List.Forall₂ (Kept (keys ncs)) (pairs o.content) kept ∧
        ∀ q ∈ added, q.1.hd.value ∈ keys ncs ∧ q.1.hd.value ∉ keys o.content := by
  induction ncs using pairInduction with
  | h0 =>
    intro o o' _ he _ h
    simp [mergeEntries] at h; subst h
    exact ⟨⟨o.hd.nilc, rfl⟩, he, _, [], by simp, forall₂_kept_refl _ _, by simp⟩
  | h1 a =>
    intro o o' _ he _ h
    simp [mergeEntries] at h; subst h
    exact ⟨⟨o.hd.nilc, rfl⟩, he, _, [], by simp, forall₂_kept_refl _ _, by simp⟩
  | h2 nk nv ncs ih =>
    intro o o' ho he hm h
    have hto : toMapping o = o := by simp [toMapping, ho]
    have hnk : NoMarker nk.hd.value := hm _ (by simp [keys, pairs])
    simp only [mergeEntries, hto, Res.bind_eq_ok] at h
    obtain ⟨⟨cs', b⟩, hi, h⟩ := h
    obtain ⟨l1, l2⟩ := mergeInner_kept E _ nk.hd hnk _ _ _ hi
    have hkeys : keys (nk :: nv :: ncs) = nk.hd.value :: keys ncs := by simp [keys, pairs]
    rw [hkeys] at hm ⊢
    have hmono : ∀ t ∈ [nk.hd.value], t ∈ nk.hd.value :: keys ncs := by simp
    have hmono2 : ∀ t ∈ keys ncs, t ∈ nk.hd.value :: keys ncs := by simp; tauto
    have l3 := l2.imp (fun _ _ hp => Kept.mono hmono hp)
    have hm' : ∀ t ∈ keys ncs, NoMarker t := fun t ht => hm t (by simp [ht])
    cases b with
    | true =>
      simp only [if_true] at h
      obtain ⟨⟨b', hb'⟩, he', kept, added, e1, e2, e3⟩ := ih (.mk o.hd cs') o' ho (by
        simpa [l1] using he) hm' h
      refine ⟨⟨b', hb'⟩, he', kept, added, e1, ?_, fun q hq => ⟨hmono2 _ (e3 q hq).1, ?_⟩⟩
      rotate_left
      · have := (e3 q hq).2
        simp only [keys, Node.content_mk] at this ⊢
        rwa [kept_keys l2] at this
      have e4 := e2.imp (fun _ _ hp => Kept.mono hmono2 hp)
      exact forall₂_kept_trans l3 e4
    | false =>
      simp only [Bool.false_eq_true, if_false] at h
      have hlen : (sanitizeNodes E (Node.freshs [nk, nv])).length = 2 := by
        simp [Node.freshs, sanitizeNodes]
      obtain ⟨⟨b', hb'⟩, he', kept, added, e1, e2, e3⟩ := ih (addNode E (.mk o.hd cs') [nk, nv]) o'
        (by simpa [addNode, appendContent] using ho) (by
          simp [addNode, appendContent, l1, hlen]; omega) hm' h
      refine ⟨⟨b', by simpa [addNode, appendContent] using hb'⟩, he', ?_⟩
      have hp : pairs (addNode E (Node.mk o.hd cs') [nk, nv]).content
          = pairs cs' ++ [(sanitizeNode E nk.fresh, sanitizeNode E nv.fresh)] := by
        simp only [addNode, appendContent, Node.content_mk]
        rw [pairs_append (by rw [l1]; exact he)]
        simp [Node.freshs, sanitizeNodes, pairs]
      rw [hp] at e2
      have e4 := e2.imp (fun _ _ hp => Kept.mono hmono2 hp)
      obtain ⟨k1, k2, f1, f2, rfl⟩ : ∃ k1 k2, List.Forall₂ (Kept (nk.hd.value :: keys ncs)) (pairs cs') k1 ∧
          List.Forall₂ (Kept (nk.hd.value :: keys ncs))
            [(sanitizeNode E nk.fresh, sanitizeNode E nv.fresh)] k2 ∧ kept = k1 ++ k2 := by
        exact forall₂_append_left e4
      refine ⟨k1, k2 ++ added, by rw [e1]; simp, forall₂_kept_trans l3 f1, ?_⟩
      obtain ⟨rfl, habs⟩ := mergeInner_false E _ nk.hd hnk _ _ hi
      intro q hq
      rcases List.mem_append.1 hq with hq | hq
      · cases f2 with
        | cons hd tl =>
          cases tl
          simp at hq; subst hq
          rw [hd.1]
          obtain ⟨kh, kc⟩ := nk
          simp only [Node.hd_mk] at hnk habs
          simpa [Node.fresh, sanitizeNode, sanitizeHdr, format_id E _ hnk, keys] using habs
      · refine ⟨hmono2 _ (e3 q hq).1, ?_⟩
        have := (e3 q hq).2
        simp only [keys, hp, List.map_append, List.mem_append, not_or] at this
        exact this.1

end Yot
