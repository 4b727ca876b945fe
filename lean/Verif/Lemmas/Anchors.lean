import Verif.Lemmas.Comments
import Verif.Spec.Anchors
import Verif.Model.Output
import Verif.Lemmas.Delete
/-
What edits do to anchors and aliases.
-/
namespace Yot
open Spec

theorem markss_eq (cs : List Node) : markss cs = cs.flatMap marks := by
  induction cs with
  | nil => rfl
  | cons c cs ih => rw [markss, ih, List.flatMap_cons]

theorem marks_mk (h : Hdr) (cs : List Node) : marks (.mk h cs) = markOf h ++ cs.flatMap marks := by
  rw [marks, markss_eq]

theorem marks_hd (n : Node) : marks n = markOf n.hd ++ n.content.flatMap marks := by
  obtain ⟨h, cs⟩ := n; exact marks_mk h cs

theorem flatMap_marks_nil {cs : List Node} : cs.flatMap marks = [] ↔ ∀ c ∈ cs, marks c = [] := by
  rw [List.flatMap_eq_nil_iff]

/-- Two headers show the same. -/
theorem markOf_same {h h' : Hdr} (h1 : h.kind = h'.kind) (h2 : h.value = h'.value) (h3 : h.anchor = h'.anchor) : markOf h = markOf h' := by
  unfold markOf; rw [h1, h2, h3]

/-- A header that became something else than an alias shows no more than before. -/
theorem markOf_changed {h h' : Hdr} (h1 : h'.kind ≠ .alias) (h3 : h'.anchor = h.anchor) : (markOf h').Sublist (markOf h) := by
  unfold markOf
  rw [if_neg h1, h3]
  exact List.sublist_append_right _ _

theorem markOf_nil {h : Hdr} : markOf h = [] ↔ h.kind ≠ .alias ∧ h.anchor = [] := by
  unfold markOf
  by_cases h1 : h.kind = .alias <;> by_cases h2 : h.anchor = [] <;> simp [h1, h2]

theorem mergeComments_mark (E : Sed) (o n : Hdr) (vals : List Str) : markOf (mergeComments E o n vals) = markOf o := by
  unfold mergeComments
  dsimp only
  repeat' split
  all_goals rfl

theorem fresh_marks (n : Node) : marks n.fresh = marks n := by
  induction n using Node.ind with
  | h hd cs ih =>
    rw [Node.fresh, freshs_eq_map, marks_mk, marks_mk, List.flatMap_map]
    congr 1
    exact List.flatMap_congr (fun c hc => ih c hc)

theorem sanitize_marks (E : Sed) (n : Node) (h : marks n = []) : marks (sanitizeNode E n) = [] := by
  induction n using Node.ind with
  | h hd cs ih =>
    rw [marks_mk, List.append_eq_nil_iff, flatMap_marks_nil] at h
    rw [sanitizeNode, sanitizeNodes_eq_map, marks_mk, List.append_eq_nil_iff, flatMap_marks_nil]
    refine ⟨?_, ?_⟩
    · rw [markOf_nil] at h ⊢
      exact h.1
    · intro c hc
      obtain ⟨d, hd, rfl⟩ := List.mem_map.1 hc
      exact ih d hd (h.2 d hd)

theorem addNode_marks (E : Sed) (o : Node) (ns : List Node) (h : ∀ n ∈ ns, marks n = []) : marks (addNode E o ns) = marks o := by
  simp only [addNode, appendContent]
  rw [marks_mk, marks_hd o, List.flatMap_append]
  have : (sanitizeNodes E (Node.freshs ns)).flatMap marks = [] := by
    rw [flatMap_marks_nil, sanitizeNodes_eq_map, freshs_eq_map]
    intro c hc
    obtain ⟨d, hd, rfl⟩ := List.mem_map.1 hc
    obtain ⟨e, he, rfl⟩ := List.mem_map.1 hd
    exact sanitize_marks E _ (by rw [fresh_marks]; exact h e he)
  rw [this, List.append_nil]
  rfl

theorem sublist_flatMap {α β : Type} (f : α → List β) {l₁ l₂ : List α} (h : l₁.Sublist l₂) : (l₁.flatMap f).Sublist (l₂.flatMap f) := by
  induction h with
  | slnil => exact List.Sublist.refl _
  | cons a _ ih => exact ih.trans (List.sublist_append_right _ _)
  | cons_cons a _ ih => exact (List.Sublist.refl _).append ih

theorem mergeScalar_marks (E : Sed) (o : Node) (n : Hdr) (vals : List Str) : (marks (mergeScalar E o n vals)).Sublist (marks o) := by
  unfold mergeScalar
  dsimp only
  split
  · rw [marks_mk, marks_hd o]
    refine List.Sublist.append ?_ (by simp)
    refine List.Sublist.trans (markOf_changed (h := mergeComments E o.hd n vals) (by simp) rfl) ?_
    rw [mergeComments_mark]
  · rename_i hk
    have hk : o.hd.kind = .scalar := by simpa using hk
    rw [marks_mk, marks_hd o]
    refine List.Sublist.append ?_ (List.Sublist.refl _)
    refine List.Sublist.trans (markOf_changed (h := mergeComments E o.hd n vals) ?_ rfl) ?_
    · show (mergeComments E o.hd n vals).kind ≠ _
      unfold mergeComments
      dsimp only
      repeat' split
      all_goals (rw [hk]; simp)
    · rw [mergeComments_mark]

theorem toMapping_marks (o : Node) : (marks (toMapping o)).Sublist (marks o) := by
  unfold toMapping
  split
  · rw [marks_mk, marks_hd o]
    exact List.Sublist.append (markOf_changed (by simp) rfl) (by simp)
  · exact List.Sublist.refl _

theorem toSequence_marks (o : Node) : (marks (toSequence o)).Sublist (marks o) := by
  unfold toSequence
  split
  · rw [marks_mk, marks_hd o]
    exact List.Sublist.append (markOf_changed (by simp) rfl) (by simp)
  · exact List.Sublist.refl _

theorem mergeInner_marks (E : Sed) (f : Node → Str → Res Err Node) (nk : Hdr)
    (hf : ∀ x key x', f x key = .ok x' → (marks x').Sublist (marks x))
    (cs cs' : List Node) (b : Bool) (h : mergeInner E f nk cs = .ok (cs', b)) :
    (cs'.flatMap marks).Sublist (cs.flatMap marks) := by
  induction cs using pairInduction generalizing cs' b with
  | h0 => simp [mergeInner] at h; obtain ⟨rfl, rfl⟩ := h; simp
  | h1 a => simp [mergeInner] at h; obtain ⟨rfl, rfl⟩ := h; simp
  | h2 k v cs ih =>
    rw [mergeInner] at h
    split at h
    · simp only [Res.bind_eq_ok, Res.pure_eq, Res.ok.injEq, Prod.mk.injEq] at h
      obtain ⟨⟨r, b'⟩, hr, h1, h2⟩ := h
      subst h1
      simp only [List.flatMap_cons]
      exact (List.Sublist.refl _).append ((List.Sublist.refl _).append (ih r b' hr))
    · dsimp only at h
      simp only [Res.bind_eq_ok] at h
      obtain ⟨v', hv', h⟩ := h
      have hwv := hf _ _ _ hv'
      have hk1 : ∀ vals, marks (.mk (mergeComments E k.hd nk vals) k.content) = marks k := by
        intro vals
        rw [marks_mk, mergeComments_mark, marks_hd k]
      split at h
      · simp only [Res.pure_eq, Res.ok.injEq, Prod.mk.injEq] at h
        obtain ⟨rfl, rfl⟩ := h
        simp only [List.flatMap_cons, hk1]
        exact (List.Sublist.refl _).append (hwv.append (List.Sublist.refl _))
      · simp only [Res.bind_eq_ok, Res.pure_eq, Res.ok.injEq, Prod.mk.injEq] at h
        obtain ⟨⟨r, b'⟩, hr, h1, h2⟩ := h
        subst h1
        simp only [List.flatMap_cons]
        refine List.Sublist.append ?_ (hwv.append (ih r b' hr))
        exact (mergeScalar_marks E _ nk _).trans (by rw [hk1])

theorem merge_marks (E : Sed) (n : Node) : marks n = [] →
    ∀ (o o' : Node) (vals : List Str), merge E o vals n = .ok o' → (marks o').Sublist (marks o) := by
  induction n using Node.ind with
  | h nh ncs ih =>
    intro hn o o' vals h
    rw [marks_mk, List.append_eq_nil_iff, flatMap_marks_nil] at hn
    have tag : ∀ (o : Node) (t : Str), marks (.mk { o.hd with tag := t } o.content) = marks o := by
      intro o t
      rw [marks_mk, marks_hd o]
      rfl
    cases hk : nh.kind with
    | zero =>
      rw [merge_zero E o vals hk] at h; cases h
      rw [tag]
    | «alias» => rw [merge_alias E o vals hk] at h; simp at h
    | scalar =>
      rw [merge_scalar E o vals hk] at h; cases h
      rw [tag]
      exact mergeScalar_marks E o nh vals
    | sequence =>
      rw [merge_sequence E o vals hk] at h; cases h
      have h1 := toSequence_marks o
      unfold mergeArray
      dsimp only
      split
      · exact h1
      · rw [addNode_marks E _ _ (by simpa using hn.2), marks_mk, mergeComments_mark, ← marks_hd]
        exact h1
    | document =>
      rw [merge_document E o vals hk] at h
      split at h
      · cases h; exact List.Sublist.refl _
      · split at h
        · rename_i oc ocs nc _ hoc _
          simp only [Res.bind_eq_ok, Res.ok.injEq] at h
          obtain ⟨oc', h1, rfl⟩ := h
          have hw := ih nc (by simp) (hn.2 nc (by simp)) oc oc' _ h1
          rw [marks_mk, mergeComments_mark, marks_hd o, hoc, List.flatMap_cons, List.flatMap_cons]
          exact (List.Sublist.refl _).append (hw.append (List.Sublist.refl _))
        · simp at h
    | mapping =>
      rw [merge_mapping E o vals hk] at h
      have key : ∀ ds : List Node, (∀ c ∈ ds, c ∈ ncs) → ∀ o o',
          mergeEntries E o ds = .ok o' → (marks o').Sublist (marks o) := by
        intro ds
        induction ds using pairInduction with
        | h0 => intro _ o o' h; simp [mergeEntries] at h; subst h; exact List.Sublist.refl _
        | h1 a => intro _ o o' h; simp [mergeEntries] at h; subst h; exact List.Sublist.refl _
        | h2 k v ds ihd =>
          intro hsub o o' h
          simp only [mergeEntries, Res.bind_eq_ok] at h
          obtain ⟨⟨cs', b⟩, hi, h⟩ := h
          have l2 := mergeInner_marks E _ k.hd (fun x key x' hm =>
            ih v (hsub v (by simp)) (hn.2 v (hsub v (by simp))) x x' [key] hm) _ _ _ hi
          have h2 : (marks (.mk (toMapping o).hd cs')).Sublist (marks o) := by
            refine List.Sublist.trans ?_ (toMapping_marks o)
            rw [marks_mk, marks_hd (toMapping o)]
            exact (List.Sublist.refl _).append l2
          refine List.Sublist.trans (ihd (fun c hc => hsub c (by simp [hc])) _ o' h) ?_
          dsimp only
          split
          · exact h2
          · rw [addNode_marks]
            · exact h2
            · intro c hc
              simp only [List.mem_cons, List.not_mem_nil, or_false] at hc
              rcases hc with rfl | rfl
              · exact hn.2 _ (hsub _ (by simp))
              · exact hn.2 _ (hsub _ (by simp))
      exact key ncs (fun _ h => h) o o' h

theorem replace_marks (E : Sed) (o n : Node) (h : marks n = []) : marks (replaceNode E o n) = [] := by
  rw [← fresh_marks n, marks_hd, List.append_eq_nil_iff] at h
  unfold replaceNode
  dsimp only
  rw [marks_mk, h.2, List.append_nil]
  exact h.1

theorem combine_marks (E : Sed) (o n o' : Node) (hc : combineNode E o n = .ok o') : marks o' = marks o := by
  unfold combineNode at hc
  split at hc
  · simp at hc
  · rename_i hk
    have hk : o.hd.kind = .scalar := by
      rw [not_or] at hk
      simpa using hk.1
    have hko : (mergeComments E o.hd n.hd []).kind = .scalar := by
      unfold mergeComments
      dsimp only
      repeat' split
      all_goals exact hk
    have key : ∀ v, markOf { mergeComments E o.hd n.hd [] with value := v } = markOf o.hd := by
      intro v
      rw [← mergeComments_mark E o.hd n.hd []]
      unfold markOf
      simp [hko]
    dsimp only at hc
    repeat' split at hc
    all_goals first
      | (cases hc; rw [marks_mk, key, marks_hd o])
      | simp at hc

theorem modifyAt_marks (a : Nat) (f : Node → Res Err Node) (hf : ∀ x x', f x = .ok x' → (marks x').Sublist (marks x))
    (n : Node) : ∀ n', modifyAt a f n = .ok n' → (marks n').Sublist (marks n) := by
  induction n using Node.ind with
  | h hd cs ih =>
    intro n' h
    rw [modifyAt] at h
    split at h
    · exact hf _ _ h
    · simp only [Res.bind_eq_ok, Res.ok.injEq] at h
      obtain ⟨cs', h1, rfl⟩ := h
      rw [marks_mk, marks_mk]
      refine (List.Sublist.refl _).append ?_
      have key : ∀ ds ds', (∀ c ∈ ds, c ∈ cs) → modifyAts a f ds = .ok ds' → (ds'.flatMap marks).Sublist (ds.flatMap marks) := by
        intro ds
        induction ds with
        | nil => intro ds' _ h; simp [modifyAts] at h; subst h; simp
        | cons d ds ihd =>
          intro ds' hsub h
          simp only [modifyAts, Res.bind_eq_ok, Res.ok.injEq] at h
          obtain ⟨d', hd', es, hes, rfl⟩ := h
          rw [List.flatMap_cons, List.flatMap_cons]
          exact (ih d (hsub d (by simp)) _ hd').append (ihd es (fun c hc => hsub c (by simp [hc])) hes)
      exact key cs cs' (fun _ h => h) h1

theorem deleteNode_marks (a : Nat) (n : Node) : ∀ n', deleteNode a n = .ok n' → (marks n').Sublist (marks n) := by
  induction n using Node.ind with
  | h hd cs ih =>
    intro n' h
    rw [deleteNode] at h
    simp only [Res.bind_eq_ok] at h
    obtain ⟨⟨cs', i⟩, h1, h2⟩ := h
    have key : ∀ ds ds' i, (∀ c ∈ ds, c ∈ cs) → deleteScan a ds = .ok (ds', i) → (ds'.flatMap marks).Sublist (ds.flatMap marks) := by
      intro ds
      induction ds with
      | nil => intro ds' i _ h; simp [deleteScan] at h; obtain ⟨rfl, _⟩ := h; simp
      | cons d ds ihd =>
        intro ds' i hsub h
        rw [deleteScan] at h
        split at h
        · simp only [Res.ok.injEq, Prod.mk.injEq] at h
          obtain ⟨rfl, _⟩ := h
          exact List.Sublist.refl _
        · simp only [Res.bind_eq_ok, Res.ok.injEq] at h
          obtain ⟨d', hd', ⟨es, j⟩, hes, h⟩ := h
          simp only [Prod.mk.injEq] at h
          obtain ⟨rfl, _⟩ := h
          rw [List.flatMap_cons, List.flatMap_cons]
          exact (ih d (hsub d (by simp)) _ hd').append (ihd es j (fun c hc => hsub c (by simp [hc])) hes)
    have hcs' := key cs cs' i (fun _ h => h) h1
    cases i with
    | none =>
      simp only [Res.ok.injEq] at h2
      subst h2
      rw [marks_mk, marks_mk]
      exact (List.Sublist.refl _).append hcs'
    | some i =>
      simp only [Res.bind_eq_ok, Res.ok.injEq] at h2
      obtain ⟨ds, hds, rfl⟩ := h2
      rw [marks_mk, marks_mk]
      refine List.Sublist.append (List.Sublist.refl _) (List.Sublist.trans ?_ hcs')
      unfold deleteIndex at hds
      dsimp only at hds
      split at hds
      · cases hds
        rename_i hle
        have hr : (cutRange hd.kind i).1 ≤ (cutRange hd.kind i).2 := by
          unfold cutRange
          repeat' split
          all_goals (dsimp only; omega)
        refine sublist_flatMap marks ?_
        conv_rhs => rw [← List.take_append_drop (cutRange hd.kind i).1 cs']
        refine (List.Sublist.refl _).append ?_
        have := List.drop_sublist ((cutRange hd.kind i).2 - (cutRange hd.kind i).1) (cs'.drop (cutRange hd.kind i).1)
        rw [List.drop_drop] at this
        have he : (cutRange hd.kind i).1 + ((cutRange hd.kind i).2 - (cutRange hd.kind i).1) = (cutRange hd.kind i).2 := by omega
        rwa [he] at this
      · simp at hds

theorem doAction_marks (E : Sed) (o : Overlay) (hv : marks o.value = [])
    (root root' : Node) (nodes : List Node) (h : doAction E o root nodes = .ok root') : (marks root').Sublist (marks root) := by
  unfold doAction at h
  induction nodes generalizing root with
  | nil => simp only [List.foldlM_nil, Res.pure_eq, Res.ok.injEq] at h; subst h; exact List.Sublist.refl _
  | cons m ms ih =>
    simp only [List.foldlM_cons, Res.bind_eq_ok] at h
    obtain ⟨r, h1, h2⟩ := h
    refine List.Sublist.trans (ih r h2) ?_
    unfold doOne at h1
    split at h1
    · exact deleteNode_marks _ _ _ h1
    · exact modifyAt_marks _ _ (fun x x' h => by cases h; rw [replace_marks E x o.value hv]; simp) _ _ h1
    · exact modifyAt_marks _ _ (fun x x' h => by rw [combine_marks E x o.value x' h]) _ _ h1
    · exact modifyAt_marks _ _ (fun x x' h => merge_marks E o.value hv x x' [] h) _ _ h1

theorem label_marks (n : Node) : marks n.label = marks n := by
  rw [← fresh_marks n.label, label_fresh, fresh_marks]

/-! ### Building paths -/

theorem newPath_marks : ∀ (ls : List Lexeme) (n : Node), newPath ls = .ok n → marks n = [] := by
  intro ls
  induction ls with
  | nil => intro n h; simp only [newPath, Res.ok.injEq] at h; subst h; rfl
  | cons l ls ih =>
    intro n h
    have hmap : ∀ names sub, marks sub = [] → marks (mapNode names sub) = [] := by
      intro names sub hs
      unfold mapNode
      rw [marks_mk, List.append_eq_nil_iff, flatMap_marks_nil]
      refine ⟨rfl, ?_⟩
      intro c hc
      obtain ⟨x, _, hx⟩ := List.mem_flatMap.1 hc
      simp only [List.mem_cons, List.not_mem_nil, or_false] at hx
      rcases hx with rfl | rfl
      · rfl
      · exact hs
    rw [newPath] at h
    split at h
    · cases h
    · cases h; rfl
    · cases h; rfl
    · simp only [Res.bind_eq_ok, Res.ok.injEq] at h
      obtain ⟨sub, h1, rfl⟩ := h
      unfold docNode
      rw [marks_mk]
      simp [ih sub h1, markOf]
    · dsimp only at h
      split at h
      · cases h
      · split at h
        · cases h
        · simp only [Res.bind_eq_ok, Res.ok.injEq] at h
          obtain ⟨sub, h1, rfl⟩ := h
          exact hmap _ _ (ih sub h1)
    · split at h
      · cases h
      · simp only [Res.bind_eq_ok, Res.ok.injEq] at h
        obtain ⟨sub, h1, rfl⟩ := h
        exact hmap _ _ (ih sub h1)
    · simp only [Res.bind_eq_ok, Res.ok.injEq] at h
      obtain ⟨sub, h1, rfl⟩ := h
      exact hmap _ _ (ih sub h1)

theorem newPaths_marks (paths : List Str) (bps : List Node) (h : newPaths paths = .ok bps) : ∀ b ∈ bps, marks b = [] := by
  unfold newPaths at h
  induction paths generalizing bps with
  | nil => simp at h; subst h; simp
  | cons p ps ih =>
    simp only [List.mapM_cons, Res.bind_eq_ok, Res.pure_eq, Res.ok.injEq] at h
    obtain ⟨b, hb, bs, hbs, rfl⟩ := h
    intro x hx
    rcases List.mem_cons.1 hx with rfl | hx
    · unfold buildPath at hb
      split at hb
      · exact newPath_marks _ _ hb
      · cases hb
    · exact ih bs hbs x hx

theorem mergeNodes_marks (E : Sed) (ns : List Node) (h : ∀ n ∈ ns, marks n = []) (o o' : Node)
    (hr : ns.foldlM (fun acc n => mergeNode E acc n) o = .ok o') : (marks o').Sublist (marks o) := by
  induction ns generalizing o with
  | nil => simp only [List.foldlM_nil, Res.pure_eq, Res.ok.injEq] at hr; subst hr; exact List.Sublist.refl _
  | cons n ns ih =>
    simp only [List.foldlM_cons, Res.bind_eq_ok] at hr
    obtain ⟨r, h1, h2⟩ := hr
    exact (ih (fun x hx => h x (by simp [hx])) r h2).trans (merge_marks E n (h n (by simp)) o r [] h1)

theorem doInjectPath_marks (E : Sed) (o : Overlay) (hv : marks o.value = []) (ip : List Query) (node node' : Node)
    (h : doInjectPath E o ip node = .ok node') : (marks node').Sublist (marks node) := by
  unfold doInjectPath at h
  simp only [Res.bind_eq_ok] at h
  obtain ⟨bps, h1, h2⟩ := h
  split at h2
  · rename_i y hy
    simp only [Res.bind_eq_ok] at h2
    obtain ⟨node1, h3, h4⟩ := h2
    have hb := newPaths_marks _ _ h1
    have hy' : marks y = [] := by
      unfold buildPaths mergeNodes at hy
      cases bps with
      | nil => simp at hy
      | cons b bs =>
        simp only [Res.bind_eq_ok, Res.pure_eq, Res.ok.injEq] at hy
        obtain ⟨r, ⟨r', h5, rfl⟩, h6⟩ := hy
        simp only [Res.ok.injEq] at h6
        subst h6
        have := mergeNodes_marks E bs (fun x hx => hb x (by simp [hx])) b r' h5
        rw [hb b (by simp)] at this
        exact List.sublist_nil.1 this
    have m1 := merge_marks E y hy' node node1 [] h3
    have m2 : (marks node').Sublist (marks node1.label) := by
      unfold replaceAllAt at h4
      revert h4
      generalize node1.label = r0
      generalize findAll ip r0 = ms
      intro h4
      induction ms generalizing r0 with
      | nil => simp only [List.foldlM_nil, Res.pure_eq, Res.ok.injEq] at h4; subst h4; exact List.Sublist.refl _
      | cons m ms ih =>
        simp only [List.foldlM_cons, Res.bind_eq_ok] at h4
        obtain ⟨r, h5, h6⟩ := h4
        refine (ih r h6).trans ?_
        exact modifyAt_marks _ _ (fun x x' h => by cases h; rw [replace_marks E x o.value hv]; simp) _ _ h5
    rw [label_marks] at m2
    exact m2.trans m1
  · cases h2

theorem apply_marks (E : Sed) (dflt : Str) (o : Overlay) (hv : marks o.value = []) (doc doc' : Node)
    (h : apply E dflt o doc = .ok doc') : (marks doc').Sublist (marks doc) := by
  unfold apply at h
  split at h
  · cases h; exact List.Sublist.refl _
  · dsimp only at h
    split at h
    · unfold onMissing at h
      split at h
      · unfold handleInjectPath at h
        split at h
        · split at h
          · cases h; exact List.Sublist.refl _
          · exact doInjectPath_marks E o hv _ _ _ h
        · cases h
        · cases h
        · exact doInjectPath_marks E o hv _ _ _ h
      · cases h; exact List.Sublist.refl _
    · exact doAction_marks E o hv _ _ _ h

theorem applyJob_marks (E : Sed) (dflt : Str) (o : Overlay) (hv : marks o.value = []) (doc doc' : Node)
    (h : applyJob E dflt o doc = .ok doc') : (marks doc').Sublist (marks doc) := by
  rw [← label_marks doc]
  exact apply_marks E dflt o hv _ _ h

theorem removeComments_marks (n : Node) : marks (removeComments n) = marks n := by
  induction n using Node.ind with
  | h hd cs ih =>
    rw [removeComments, marks_mk, marks_mk]
    congr 1
    have key : ∀ ds : List Node, (∀ c ∈ ds, c ∈ cs) → (removeCommentsL ds).flatMap marks = ds.flatMap marks := by
      intro ds
      induction ds with
      | nil => intro _; rfl
      | cons d ds ihd =>
        intro hsub
        rw [removeCommentsL, List.flatMap_cons, List.flatMap_cons, ihd (fun c hc => hsub c (by simp [hc])), ← ih d (hsub d (by simp))]
        congr 1
        cases removeComments d
        rw [marks_mk, marks_mk]
        rfl
    exact key cs (fun _ h => h)

theorem setStyle_marks (s : Nat) (n : Node) : marks (setStyle s n) = marks n := by
  induction n using Node.ind with
  | h hd cs ih =>
    have key : ∀ ds : List Node, (∀ c ∈ ds, c ∈ cs) → (setStyles s ds).flatMap marks = ds.flatMap marks := by
      intro ds
      induction ds with
      | nil => intro _; rfl
      | cons d ds ihd =>
        intro hsub
        rw [setStyles, List.flatMap_cons, List.flatMap_cons, ihd (fun c hc => hsub c (by simp [hc])), ih d (hsub d (by simp))]
    rw [setStyle]
    split
    · rfl
    · rw [marks_mk, marks_mk]; rfl
    · rw [marks_mk, marks_mk, key cs (fun _ h => h)]; rfl

end Yot
