import Verif.Spec.Alike
import Verif.Props.Commute
/-
Overlays do not depend on styles.
-/
namespace Yot
open Spec

theorem mapHdrs_eq_map (f : Hdr → Hdr) (cs : List Node) : mapHdrs f cs = cs.map (mapHdr f) := by
  induction cs with
  | nil => rfl
  | cons c cs ih => simp [mapHdrs, ih]

theorem plainly_mk (h : Hdr) (cs : List Node) : plainly (.mk h cs) = .mk (plainHd h) (cs.map plainly) := by
  unfold plainly
  rw [mapHdr, mapHdrs_eq_map]

theorem plainly_hd (t : Node) : (plainly t).hd = plainHd t.hd := by cases t; rw [plainly_mk]; rfl
theorem plainly_content (t : Node) : (plainly t).content = t.content.map plainly := by cases t; rw [plainly_mk]; rfl

theorem alike_iff (x y : Node) : Alike x y ↔ plainHd x.hd = plainHd y.hd ∧ x.content.map plainly = y.content.map plainly := by
  obtain ⟨h, cs⟩ := x
  obtain ⟨h', cs'⟩ := y
  simp only [Alike, plainly_mk, Node.mk.injEq, Node.hd_mk, Node.content_mk]

theorem plainHd_iff (h h' : Hdr) : plainHd h = plainHd h' ↔ h.kind = h'.kind ∧ h.tag = h'.tag ∧ h.value = h'.value ∧
    h.anchor = h'.anchor ∧ h.hasAlias = h'.hasAlias ∧ h.head = h'.head ∧ h.line = h'.line ∧ h.foot = h'.foot := by
  simp only [plainHd, Hdr.mk.injEq]
  tauto

/-- Both fail alike, or give nodes that are alike. -/
def AlikeR {α : Type} (p : α → α → Prop) : Res Err α → Res Err α → Prop
  | .ok a, .ok b => p a b
  | .err e, .err e' => e = e'
  | .panic, .panic => True
  | _, _ => False

theorem AlikeR.bind {α β : Type} {p : α → α → Prop} {q : β → β → Prop} {r r' : Res Err α} {f f' : α → Res Err β}
    (h : AlikeR p r r') (hf : ∀ a b, p a b → AlikeR q (f a) (f' b)) : AlikeR q (r >>= f) (r' >>= f') := by
  cases r <;> cases r' <;> simp only [AlikeR] at h
  · exact hf _ _ h
  · exact h
  · trivial

theorem formatVals_alike {o o' : Hdr} (h : plainHd o = plainHd o') (vals : List Str) : formatVals o vals = formatVals o' vals := by
  rw [plainHd_iff] at h
  obtain ⟨h1, h2, h3, h4, h5, h6, h7, h8⟩ := h
  simp only [formatVals, h6, h7, h8]
  congr 1 <;> (rcases vals with _ | ⟨a, _ | ⟨b, c⟩⟩ <;> simp [valueAndKey, h3])

theorem mergeComments_alike (E : Sed) {o o' : Hdr} (h : plainHd o = plainHd o') (n : Hdr) (vals : List Str) :
    plainHd (mergeComments E o n vals) = plainHd (mergeComments E o' n vals) := by
  simp only [mergeComments, formatVals_alike h vals]
  rw [plainHd_iff] at h
  obtain ⟨h1, h2, h3, h4, h5, h6, h7, h8⟩ := h
  split_ifs <;> (rw [plainHd_iff]; simp [*])

theorem mergeScalar_alike (E : Sed) {o o' : Node} (h : Alike o o') (n : Hdr) (vals : List Str) :
    Alike (mergeScalar E o n vals) (mergeScalar E o' n vals) := by
  rw [alike_iff] at h
  obtain ⟨h1, h2⟩ := h
  have hc := mergeComments_alike E h1 n vals
  simp only [mergeScalar, formatVals_alike h1 vals]
  rw [plainHd_iff] at h1 hc
  rw [h1.1]
  split_ifs <;> (rw [alike_iff]; simp only [Node.hd_mk, Node.content_mk, plainHd_iff]; simp [hc, h2])

theorem toMapping_alike {o o' : Node} (h : Alike o o') : Alike (toMapping o) (toMapping o') := by
  have h0 := h
  rw [alike_iff, plainHd_iff] at h
  unfold toMapping
  rw [h.1.1]
  split_ifs
  · rw [alike_iff]; simp only [Node.hd_mk, Node.content_mk, plainHd_iff]; simp [h]
  · exact h0

theorem addNode_alike (E : Sed) {o o' : Node} (h : Alike o o') (nv : List Node) : Alike (addNode E o nv) (addNode E o' nv) := by
  rw [alike_iff, plainHd_iff] at h
  simp only [addNode, appendContent]
  rw [alike_iff]; simp only [Node.hd_mk, Node.content_mk, plainHd_iff, List.map_append]; simp [h]

theorem mergeInner_alike (E : Sed) (f : Node → Str → Res Err Node) (nk : Hdr)
    (hf : ∀ x y key, Alike x y → AlikeR Alike (f x key) (f y key)) (cs : List Node) : ∀ cs', cs.map plainly = cs'.map plainly →
    AlikeR (fun a b => a.1.map plainly = b.1.map plainly ∧ a.2 = b.2) (mergeInner E f nk cs) (mergeInner E f nk cs') := by
  induction cs using pairInduction with
  | h0 => intro cs' h; simp at h; subst h; simp [mergeInner, AlikeR]
  | h1 a =>
    intro cs' h
    match cs', h with
    | [b], h => simp only [mergeInner, Res.pure_eq, AlikeR]; exact ⟨h, trivial⟩
    | [], h => simp at h
    | b :: c :: r, h => simp at h
  | h2 k v cs ih =>
    intro cs' h
    match cs', h with
    | [], h => simp at h
    | [b], h => simp at h
    | k' :: v' :: r, h =>
      simp only [List.map_cons, List.cons.injEq] at h
      obtain ⟨hk, hv, hr⟩ := h
      have hk0 : Alike k k' := hk
      have hv0 : Alike v v' := hv
      have hk' := (alike_iff k k').1 hk
      have hv' := (alike_iff v v').1 hv
      have ek := ((plainHd_iff _ _).1 hk'.1).2.2.1
      have ev := ((plainHd_iff _ _).1 hv'.1).2.2.1
      have hk1 : ∀ vals, Alike (.mk (mergeComments E k.hd nk vals) k.content) (.mk (mergeComments E k'.hd nk vals) k'.content) := by
        intro vals
        rw [alike_iff]
        exact ⟨mergeComments_alike E hk'.1 nk vals, hk'.2⟩
      simp only [mergeInner, ek, ev]
      split_ifs
      · refine AlikeR.bind (ih r hr) ?_
        rintro a b ⟨h1, h2⟩
        simp only [Res.pure_eq, AlikeR, List.map_cons]
        exact ⟨by rw [hk, hv, h1], h2⟩
      · refine AlikeR.bind (hf v v' _ hv0) ?_
        intro a b hab
        simp only [Res.pure_eq, AlikeR, List.map_cons]
        have := hk1 [v'.hd.value, k'.hd.value]
        exact ⟨by rw [this, hab, hr], trivial⟩
      · refine AlikeR.bind (hf v v' _ hv0) ?_
        intro a b hab
        refine AlikeR.bind (ih r hr) ?_
        rintro a' b' ⟨h1, h2⟩
        simp only [Res.pure_eq, AlikeR, List.map_cons]
        have := mergeScalar_alike E (hk1 [v'.hd.value, k'.hd.value]) nk [v'.hd.value, k'.hd.value]
        exact ⟨by rw [this, hab, h1], trivial⟩

theorem mergeEntries_alike (E : Sed) (ncs : List Node)
    (ih : ∀ e ∈ pairs ncs, ∀ x y vals, Alike x y → AlikeR Alike (merge E x vals e.2) (merge E y vals e.2)) :
    ∀ x y, Alike x y → AlikeR Alike (mergeEntries E x ncs) (mergeEntries E y ncs) := by
  induction ncs using pairInduction with
  | h0 => intro x y h; simpa [mergeEntries, AlikeR] using h
  | h1 a => intro x y h; simpa [mergeEntries, AlikeR] using h
  | h2 k v ds ihd =>
    intro x y h
    have ht := toMapping_alike h
    have ht' := (alike_iff _ _).1 ht
    rw [mergeEntries, mergeEntries]
    refine AlikeR.bind (mergeInner_alike E _ k.hd (fun a b key hab => ih (k, v) (by simp [pairs]) a b [key] hab) _ _ ht'.2) ?_
    rintro a b ⟨h1, h2⟩
    have ho : Alike (.mk (toMapping x).hd a.1) (.mk (toMapping y).hd b.1) := by rw [alike_iff]; exact ⟨ht'.1, h1⟩
    have := ihd (fun e he => ih e (by simp [pairs, he]))
    simp only [h2]
    split_ifs
    · exact this _ _ ho
    · exact this _ _ (addNode_alike E ho _)

/-- Merging scalars and mappings does not depend on styles. -/
theorem merge_alike (E : Sed) (n : Node) : ScalarsAndMaps n → ∀ x y vals, Alike x y → AlikeR Alike (merge E x vals n) (merge E y vals n) := by
  induction n using Node.ind with
  | h nh ncs ih =>
    intro hs x y vals h
    simp only [ScalarsAndMaps] at hs
    rcases hs with hk | ⟨hk, _, hE⟩
    · rw [merge_scalar E _ vals hk, merge_scalar E _ vals hk]
      have := mergeScalar_alike E h nh vals
      rw [alike_iff, plainHd_iff] at this
      simp only [AlikeR]
      rw [alike_iff]; simp only [Node.hd_mk, Node.content_mk, plainHd_iff]; simp [this]
    · rw [merge_mapping E _ vals hk, merge_mapping E _ vals hk]
      rw [ScalarsAndMapsE_iff] at hE
      exact mergeEntries_alike E ncs (fun e he x y vals => ih e.2 (pairs_mem he).2 (hE.2 e he) x y vals) x y h

theorem replaceNode_alike (E : Sed) (v : Node) {x y : Node} (h : Alike x y) : Alike (replaceNode E x v) (replaceNode E y v) := by
  rw [alike_iff] at h
  have hc := mergeComments_alike E h.1 v.fresh.hd []
  rw [plainHd_iff] at hc
  unfold replaceNode
  rw [alike_iff]; simp only [Node.hd_mk, Node.content_mk, plainHd_iff]; simp [hc]

/-- Edits at a path of names. -/
def AlikeO : Option Node → Option Node → Prop
  | some a, some b => Alike a b
  | none, none => True
  | _, _ => False

theorem updR_alike (k : Str) (f : Node → Res Err (Option Node)) (hf : ∀ x y, Alike x y → AlikeR AlikeO (f x) (f y)) (cs : List Node) :
    ∀ cs', cs.map plainly = cs'.map plainly →
    AlikeR (fun a b => a.1.map plainly = b.1.map plainly ∧ a.2 = b.2) (updR k f cs) (updR k f cs') := by
  induction cs using pairInduction with
  | h0 => intro cs' h; simp at h; subst h; simp [updR, AlikeR]
  | h1 a =>
    intro cs' h
    match cs', h with
    | [b], h => simp only [updR, AlikeR]; exact ⟨h, trivial⟩
    | [], h => simp at h
    | b :: c :: r, h => simp at h
  | h2 kn v cs ih =>
    intro cs' h
    match cs', h with
    | [], h => simp at h
    | [b], h => simp at h
    | k' :: v' :: r, h =>
      simp only [List.map_cons, List.cons.injEq] at h
      obtain ⟨hk, hv, hr⟩ := h
      have ek := ((plainHd_iff _ _).1 ((alike_iff kn k').1 hk).1).2.2.1
      simp only [updR, ek]
      split_ifs
      · refine AlikeR.bind (hf v v' hv) ?_
        intro a b hab
        cases a <;> cases b <;> simp only [AlikeO] at hab
        · exact ⟨hr, rfl⟩
        · simp only [AlikeR, List.map_cons]
          exact ⟨by rw [hk, hab, hr], trivial⟩
      · refine AlikeR.bind (ih r hr) ?_
        rintro a b ⟨h1, h2⟩
        simp only [AlikeR, List.map_cons]
        exact ⟨by rw [hk, hv, h1], h2⟩

theorem cutHd_alike {h h' : Hdr} (e : plainHd h = plainHd h') (r r' : Bool) : plainHd (cutHd h r) = plainHd (cutHd h' r') := by
  rw [plainHd_iff] at e ⊢
  simp [cutHd, e]

theorem editPath_alike (f : Node → Res Err (Option Node)) (hf : ∀ x y, Alike x y → AlikeR AlikeO (f x) (f y)) (ks : List Str) :
    ∀ x y, Alike x y → AlikeR AlikeO (editPath ks f x) (editPath ks f y) := by
  induction ks with
  | nil => intro x y h; exact hf x y h
  | cons k ks ih =>
    intro x y h
    have h' := (alike_iff x y).1 h
    rw [editPath, editPath, ((plainHd_iff _ _).1 h'.1).1]
    split_ifs
    · refine AlikeR.bind (updR_alike k _ ih _ _ h'.2) ?_
      rintro a b ⟨h1, h2⟩
      simp only [AlikeR, AlikeO]
      rw [alike_iff]
      exact ⟨cutHd_alike h'.1 _ _, h1⟩
    · exact h

theorem docEdit_alike (f : Node → Res Err (Option Node)) (hf : ∀ x y, Alike x y → AlikeR AlikeO (f x) (f y)) (ks : List Str)
    (x y : Node) (h : Alike x y) : AlikeR Alike (docEdit ks f x) (docEdit ks f y) := by
  have h' := (alike_iff x y).1 h
  unfold docEdit
  cases hx : x.content with
  | nil =>
    rw [hx] at h'
    have : y.content = [] := by simpa using h'.2.symm
    rw [this]
    exact h
  | cons c rest =>
    rw [hx] at h'
    cases hy : y.content with
    | nil => rw [hy] at h'; simp at h'
    | cons c' rest' =>
      rw [hy] at h'
      simp only [List.map_cons, List.cons.injEq] at h'
      refine AlikeR.bind (editPath_alike f hf ks c c' h'.2.1) ?_
      intro a b hab
      cases a <;> cases b <;> simp only [AlikeO] at hab
      · simp only [AlikeR]
        rw [alike_iff]
        exact ⟨cutHd_alike h'.1 _ _, h'.2.2⟩
      · simp only [AlikeR]
        rw [alike_iff]
        exact ⟨h'.1, by simp only [Node.content_mk, List.map_cons]; rw [hab, h'.2.2]⟩

theorem findNames_alike (ks : List Str) {x y : Node} (h : Alike x y) : (findNames ks x).map plainly = (findNames ks y).map plainly := by
  have hw : ∀ (ks : List Str) (x y : Node), Alike x y → (walk ks x).map plainly = (walk ks y).map plainly := by
    intro ks
    induction ks with
    | nil => intro x y h; simp only [walk, List.map_cons, List.map_nil]; rw [h]
    | cons k ks ih =>
      intro x y h
      have h' := (alike_iff x y).1 h
      have hk := ((plainHd_iff _ _).1 h'.1).1
      have he : (entriesOf x).map (fun e => (plainly e.1, plainly e.2)) = (entriesOf y).map (fun e => (plainly e.1, plainly e.2)) := by
        simp only [entriesOf, hk]
        split_ifs
        · rw [← pairs_map, ← pairs_map, h'.2]
        · rfl
      have hf : ∀ es es' : List (Node × Node), es.map (fun e => (plainly e.1, plainly e.2)) = es'.map (fun e => (plainly e.1, plainly e.2)) →
          AlikeO (firstAt k es) (firstAt k es') := by
        intro es
        induction es with
        | nil => intro es' h; have : es' = [] := by simpa using h.symm
                 subst this; trivial
        | cons e es ihe =>
          intro es' h
          cases es' with
          | nil => simp at h
          | cons e' es' =>
            simp only [List.map_cons, List.cons.injEq, Prod.mk.injEq] at h
            obtain ⟨⟨h1, h2⟩, h3⟩ := h
            have ek := ((plainHd_iff _ _).1 ((alike_iff _ _).1 h1).1).2.2.1
            simp only [firstAt, ek]
            split_ifs
            · exact h2
            · exact ihe es' h3
      have := hf _ _ he
      simp only [walk]
      cases h1 : firstAt k (entriesOf x) <;> cases h2 : firstAt k (entriesOf y) <;> rw [h1, h2] at this <;> simp only [AlikeO] at this
      · exact ih _ _ this
  have h' := (alike_iff x y).1 h
  have hk := ((plainHd_iff _ _).1 h'.1).1
  unfold findNames
  rw [hk]
  split_ifs
  · cases hx : x.content with
    | nil =>
      rw [hx] at h'
      have : y.content = [] := by simpa using h'.2.symm
      rw [this]
    | cons c rest =>
      rw [hx] at h'
      cases hy : y.content with
      | nil => rw [hy] at h'; simp at h'
      | cons c' rest' =>
        rw [hy] at h'
        simp only [List.map_cons, List.cons.injEq] at h'
        exact hw ks c c' h'.2.1
  · exact hw ks x y h

end Yot
