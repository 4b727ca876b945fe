import Verif.Spec.Edit
import Verif.Lemmas.WF
import Verif.Model.Overlay
namespace Yot
open Spec

/-! ### Modifying a tree at one address -/

theorem EditedAts_iff (m : Nat → Prop) (P : Node → Node → Prop) (cs ds : List Node) :
    EditedAts m P cs ds ↔ List.Forall₂ (EditedAt m P) cs ds := by
  induction cs generalizing ds with
  | nil => simp [EditedAts]
  | cons c cs ih =>
    simp only [EditedAts, ih]
    constructor
    · rintro ⟨c', cs', rfl, h1, h2⟩; exact .cons h1 h2
    · intro h; cases h with | cons h1 h2 => exact ⟨_, _, rfl, h1, h2⟩

theorem editedAt_mk (m : Nat → Prop) (P : Node → Node → Prop) (o n : Node) :
    EditedAt m P o n ↔ (m o.hd.addr ∧ P o n) ∨
      (¬ m o.hd.addr ∧ n.hd = o.hd ∧ List.Forall₂ (EditedAt m P) o.content n.content) := by
  obtain ⟨h, cs⟩ := o
  simp [EditedAt, EditedAts_iff]

theorem modifyAts_forall₂ {a : Nat} {f : Node → Res Err Node} {cs cs' : List Node}
    (h : modifyAts a f cs = .ok cs') : List.Forall₂ (fun c c' => modifyAt a f c = .ok c') cs cs' := by
  induction cs generalizing cs' with
  | nil => simp [modifyAts] at h; subst h; exact .nil
  | cons c cs ih =>
    simp only [modifyAts, Res.bind_eq_ok, Res.ok.injEq] at h
    obtain ⟨c', h1, cs1, h2, rfl⟩ := h
    exact .cons h1 (ih h2)

theorem modifyAt_cases {a : Nat} {f : Node → Res Err Node} {n n' : Node}
    (h : modifyAt a f n = .ok n') :
    (n.hd.addr = a ∧ f n = .ok n') ∨
    (n.hd.addr ≠ a ∧ n'.hd = n.hd ∧
      List.Forall₂ (fun c c' => modifyAt a f c = .ok c') n.content n'.content) := by
  obtain ⟨hd, cs⟩ := n
  rw [modifyAt] at h
  split at h
  · rename_i ha; exact .inl ⟨ha, h⟩
  · rename_i ha
    simp only [Res.bind_eq_ok, Res.ok.injEq] at h
    obtain ⟨cs', h1, rfl⟩ := h
    exact .inr ⟨ha, rfl, modifyAts_forall₂ h1⟩

/-- Nothing happens where the address does not occur. -/
theorem modifyAt_absent (a : Nat) (f : Node → Res Err Node) (n : Node) :
    a ∉ n.addrs → modifyAt a f n = .ok n := by
  induction n using Node.ind with
  | h hd cs ih =>
    intro ha
    simp only [Node.addrs, List.mem_cons, not_or] at ha
    have hcs : modifyAts a f cs = .ok cs := by
      have := ha.2
      clear ha
      induction cs with
      | nil => rfl
      | cons c cs ihc =>
        simp only [Node.addrss, List.mem_append, not_or] at this
        simp [modifyAts, ih c (by simp) this.1, ihc (fun c hc => ih c (by simp [hc])) this.2]
    rw [modifyAt, if_neg (Ne.symm ha.1), hcs]
    rfl

theorem addrss_eq (cs : List Node) : Node.addrss cs = cs.flatMap Node.addrs := by
  induction cs with
  | nil => rfl
  | cons c cs ih => simp [Node.addrss, ih]

/-- A copy has only fresh addresses. -/
theorem copyOf_addrs (n : Node) : ∀ a ∈ (copyOf n).addrs, a = 0 := by
  induction n using Node.ind with
  | h hd cs ih =>
    intro a ha
    simp only [copyOf, mapStrings, Node.addrs, mapStringss_eq_map, addrss_eq, List.mem_cons,
      List.mem_flatMap, List.mem_map] at ha
    rcases ha with rfl | ⟨x, ⟨c, hc, rfl⟩, hx⟩
    · rfl
    · exact ih c hc a hx

theorem map_copyOf_modify {a : Nat} (h0 : a ≠ 0) {f : Node → Res Err Node} {vs ds : List Node}
    (h : List.Forall₂ (fun c c' => modifyAt a f c = .ok c') (vs.map copyOf) ds) :
    ds = vs.map copyOf := by
  induction vs generalizing ds with
  | nil => cases h; rfl
  | cons v vs ih =>
    cases h with
    | cons h1 h2 =>
      rw [modifyAt_absent a f _ (fun hm => h0 (copyOf_addrs v a hm))] at h1
      simp only [Res.ok.injEq] at h1
      rw [← h1, ih h2]; rfl

theorem forall₂_length {α β : Type} {R : α → β → Prop} {l : List α} {m : List β}
    (h : List.Forall₂ R l m) : m.length = l.length := by
  induction h with
  | nil => rfl
  | cons _ _ ih => simp [ih]

/-- One more edit, for relations `P` that absorb it. -/
theorem editedAt_step {D : Nat → Prop} {P : Node → Node → Prop} {W : Node → Prop} {a : Nat}
    {f : Node → Res Err Node} (hW : ∀ n, W n → ∀ c ∈ n.content, W c)
    (hnew : ∀ n c c', W n → n.hd.addr = a → c.hd = n.hd → c.content.length = n.content.length →
      f c = .ok c' → P n c')
    (habs : ∀ n c c', W n → P n c → modifyAt a f c = .ok c' → P n c')
    (old : Node) : W old → ∀ cur cur', EditedAt D P old cur → modifyAt a f cur = .ok cur' →
      EditedAt (fun x => x = a ∨ D x) P old cur' := by
  induction old using Node.ind with
  | h hd cs ih =>
    intro hw cur cur' h1 h2
    rw [editedAt_mk] at h1 ⊢
    rcases h1 with ⟨hD, hP⟩ | ⟨hD, hh, hc⟩
    · exact .inl ⟨.inr hD, habs _ _ _ hw hP h2⟩
    · rcases modifyAt_cases h2 with ⟨ha, hf⟩ | ⟨ha, hh', hc'⟩
      · have ha' : (Node.mk hd cs).hd.addr = a := by rw [← hh]; exact ha
        exact .inl ⟨.inl ha', hnew _ _ _ hw ha' hh (forall₂_length hc) hf⟩
      · refine .inr ⟨?_, hh'.trans hh, ?_⟩
        · rintro (h | h)
          · exact ha (by rw [hh]; exact h)
          · exact hD h
        · simp only [Node.content_mk] at hc ⊢
          have hWc := hW _ hw
          simp only [Node.content_mk] at hWc
          clear h2
          generalize hg : cur.content = ds at hc hc'
          generalize cur'.content = es at hc'
          clear hg hw hD hh hh'
          induction hc generalizing es with
          | nil => cases hc'; exact .nil
          | @cons x y xs ys hxy _ ihl =>
            cases hc' with
            | cons g1 g2 =>
              exact .cons (ih x (by simp) (hWc x (by simp)) _ _ hxy g1)
                (ihl (fun c hc => ih c (by simp [hc])) (fun c hc => hWc c (by simp [hc])) _ g2)

theorem editedAt_refl {D : Nat → Prop} (hD : ∀ a, ¬ D a) (P : Node → Node → Prop) (n : Node) :
    EditedAt D P n n := by
  induction n using Node.ind with
  | h hd cs ih =>
    rw [editedAt_mk]
    refine .inr ⟨hD _, rfl, ?_⟩
    simp only [Node.content_mk]
    exact List.forall₂_same.2 ih

theorem editedAt_congr {D D' : Nat → Prop} (h : ∀ a, D a ↔ D' a) {P : Node → Node → Prop} {n n' : Node}
    (he : EditedAt D P n n') : EditedAt D' P n n' := by
  have : D = D' := funext (fun a => propext (h a))
  exact this ▸ he

/-- A run of edits at matches. -/
theorem editedAt_fold {P : Node → Node → Prop} {W : Node → Prop}
    {f : Node → Res Err Node} (hW : ∀ n, W n → ∀ c ∈ n.content, W c) (as : List Nat)
    (hnew : ∀ n c c', W n → c.hd = n.hd → c.content.length = n.content.length →
      f c = .ok c' → P n c')
    (habs : ∀ a ∈ as, ∀ n c c', W n → P n c → modifyAt a f c = .ok c' → P n c')
    (old new : Node) (hw : W old) (h : as.foldlM (fun r a => modifyAt a f r) old = .ok new) :
    EditedAt (· ∈ as) P old new := by
  have key : ∀ (as : List Nat), (∀ a ∈ as, ∀ n c c', W n → P n c → modifyAt a f c = .ok c' → P n c') →
      ∀ (D : Nat → Prop) (cur : Node), EditedAt D P old cur →
      as.foldlM (fun r a => modifyAt a f r) cur = .ok new → EditedAt (fun x => x ∈ as ∨ D x) P old new := by
    intro as
    induction as with
    | nil =>
      intro _ D cur h1 h2
      simp only [List.foldlM_nil, Res.pure_eq, Res.ok.injEq] at h2
      subst h2
      exact editedAt_congr (by simp) h1
    | cons a as ih =>
      intro habs D cur h1 h2
      simp only [List.foldlM_cons, Res.bind_eq_ok] at h2
      obtain ⟨cur', h3, h4⟩ := h2
      have h5 := editedAt_step hW (fun n c c' w _ => hnew n c c' w) (habs a (by simp)) old hw cur cur' h1 h3
      have := ih (fun b hb => habs b (by simp [hb])) _ cur' h5 h4
      refine editedAt_congr (fun x => ?_) this
      simp only [List.mem_cons]
      tauto
  have := key as habs (fun _ => False) old (editedAt_refl (by simp) P old) h
  exact editedAt_congr (by simp) this

end Yot
