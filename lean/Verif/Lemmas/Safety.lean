import Verif.Props.Delete
import Verif.Props.Builder
import Verif.Lemmas.Inject
/-
Lemmas for C33: what can panic, and preservation of well-formedness.
-/
namespace Yot
open Spec


theorem Res.bind_ne_panic {ε α β : Type} {x : Res ε α} {f : α → Res ε β} (hx : x ≠ .panic)
    (hf : ∀ a, x = .ok a → f a ≠ .panic) : (x >>= f) ≠ .panic := by
  cases x with
  | ok a => exact hf a rfl
  | err e => simp
  | panic => exact absurd rfl hx

theorem mergeInner_ne_panic (E : Sed) (f : Node → Str → Res Err Node) (nk : Hdr) (hf : ∀ x key, f x key ≠ .panic)
    (cs : List Node) : mergeInner E f nk cs ≠ .panic := by
  induction cs using pairInduction with
  | h0 => simp [mergeInner]
  | h1 a => simp [mergeInner]
  | h2 k v cs ih =>
    rw [mergeInner]
    split
    · exact Res.bind_ne_panic ih (fun _ _ => by simp)
    · refine Res.bind_ne_panic (hf _ _) (fun _ _ => ?_)
      split
      · simp
      · exact Res.bind_ne_panic ih (fun _ _ => by simp)

/-- Merging a value without document nodes never panics. -/
theorem merge_ne_panic (E : Sed) (n : Node) : NoDocs n → ∀ o vals, merge E o vals n ≠ .panic := by
  unfold NoDocs
  induction n using Node.ind with
  | h nh ncs ih =>
    intro hn o vals
    simp only [AllNodes, AllNodess_iff] at hn
    cases hk : nh.kind with
    | zero => rw [merge_zero E o vals hk]; simp
    | «alias» => rw [merge_alias E o vals hk]; simp
    | scalar => rw [merge_scalar E o vals hk]; simp
    | sequence => rw [merge_sequence E o vals hk]; simp
    | document => exact absurd hk hn.1
    | mapping =>
      rw [merge_mapping E o vals hk]
      have key : ∀ ds : List Node, (∀ c ∈ ds, c ∈ ncs) → ∀ o, mergeEntries E o ds ≠ .panic := by
        intro ds
        induction ds using pairInduction with
        | h0 => intro _ o; simp [mergeEntries]
        | h1 a => intro _ o; simp [mergeEntries]
        | h2 k v ds ihd =>
          intro hsub o
          have hv := hsub v (by simp)
          rw [mergeEntries]
          refine Res.bind_ne_panic (mergeInner_ne_panic E _ _ (fun x key => ih v hv (hn.2 v hv) x [key]) _) (fun _ _ => ?_)
          exact ihd (fun c hc => hsub c (by simp [hc])) _
      exact key ncs (fun _ h => h) o

theorem mergeInner_ok (E : Sed) (f : Node → Str → Res Err Node) (nk : Hdr) (hf : ∀ x key, ∃ y, f x key = .ok y)
    (cs : List Node) : ∃ r, mergeInner E f nk cs = .ok r := by
  induction cs using pairInduction with
  | h0 => exact ⟨_, rfl⟩
  | h1 a => exact ⟨_, rfl⟩
  | h2 k v cs ih =>
    obtain ⟨r, hr⟩ := ih
    obtain ⟨y, hy⟩ := hf v k.hd.value
    rw [mergeInner]
    split
    · exact ⟨_, by rw [hr]; rfl⟩
    · dsimp only
      rw [hy, Res.bind_ok]
      split
      · exact ⟨_, rfl⟩
      · exact ⟨_, by rw [hr]; rfl⟩

/-- Merging a value without document and alias nodes always succeeds. -/
theorem merge_ok (E : Sed) (n : Node) : AllNodes (fun h => h.kind ≠ .document ∧ h.kind ≠ .alias) n →
    ∀ o vals, ∃ o', merge E o vals n = .ok o' := by
  induction n using Node.ind with
  | h nh ncs ih =>
    intro hn o vals
    simp only [AllNodes, AllNodess_iff] at hn
    cases hk : nh.kind with
    | zero => exact ⟨_, merge_zero E o vals hk⟩
    | «alias» => exact absurd hk hn.1.2
    | scalar => exact ⟨_, merge_scalar E o vals hk⟩
    | sequence => exact ⟨_, merge_sequence E o vals hk⟩
    | document => exact absurd hk hn.1.1
    | mapping =>
      rw [merge_mapping E o vals hk]
      have key : ∀ ds : List Node, (∀ c ∈ ds, c ∈ ncs) → ∀ o, ∃ o', mergeEntries E o ds = .ok o' := by
        intro ds
        induction ds using pairInduction with
        | h0 => intro _ o; exact ⟨o, by simp [mergeEntries]⟩
        | h1 a => intro _ o; exact ⟨o, by simp [mergeEntries]⟩
        | h2 k v ds ihd =>
          intro hsub o
          have hv := hsub v (by simp)
          obtain ⟨r, hr⟩ := mergeInner_ok E (fun x key => merge E x [key] v) k.hd
            (fun x key => ih v hv (hn.2 v hv) x [key]) (toMapping o).content
          rw [mergeEntries]
          dsimp only
          rw [hr, Res.bind_ok]
          exact ihd (fun c hc => hsub c (by simp [hc])) _
      exact key ncs (fun _ h => h) o

theorem combine_ne_panic (E : Sed) (o n : Node) : combineNode E o n ≠ .panic := by
  unfold combineNode
  split
  · simp
  · dsimp only
    repeat' split
    all_goals simp

mutual
theorem modifyAt_ne_panic (a : Nat) (f : Node → Res Err Node) (hf : ∀ x, f x ≠ .panic) : ∀ n, modifyAt a f n ≠ .panic
  | .mk h cs => by
    rw [modifyAt]
    split
    · exact hf _
    · exact Res.bind_ne_panic (modifyAts_ne_panic a f hf cs) (fun _ _ => by simp)
theorem modifyAts_ne_panic (a : Nat) (f : Node → Res Err Node) (hf : ∀ x, f x ≠ .panic) : ∀ cs, modifyAts a f cs ≠ .panic
  | [] => by simp [modifyAts]
  | c :: cs => by
    rw [modifyAts]
    exact Res.bind_ne_panic (modifyAt_ne_panic a f hf c)
      (fun _ _ => Res.bind_ne_panic (modifyAts_ne_panic a f hf cs) (fun _ _ => by simp))
end

/-! Well-formedness through an edit. -/

theorem forall₂_wf {P : Node → Node → Prop} {cs ds : List Node} (h : List.Forall₂ P cs ds)
    (hp : ∀ c ∈ cs, ∀ d, P c d → WellFormed d) : ∀ d ∈ ds, WellFormed d := by
  induction h with
  | nil => simp
  | cons h1 h2 ih =>
    intro d hd
    rcases List.mem_cons.1 hd with rfl | hd
    · exact hp _ (by simp) _ h1
    · exact ih (fun c hc => hp c (by simp [hc])) d hd

theorem modifyAt_wf (a : Nat) (f : Node → Res Err Node) (hf : ∀ x y, WellFormed x → f x = .ok y → WellFormed y) (n : Node) :
    ∀ n', WellFormed n → modifyAt a f n = .ok n' → WellFormed n' := by
  induction n using Node.ind with
  | h hd cs ih =>
    intro n' hw h
    rcases modifyAt_cases h with ⟨_, h1⟩ | ⟨_, h1, h2⟩
    · exact hf _ _ hw h1
    · rw [wf_mk] at hw
      rw [wf_iff, h1]
      simp only [Node.content_mk, Node.hd_mk] at h2 ⊢
      exact ⟨h2.length_eq ▸ hw.1, forall₂_wf h2 (fun c hc d hcd => ih c hc d (hw.2 c hc) hcd)⟩

theorem replaceNode_wf (E : Sed) (x v : Node) (hv : WellFormed v) : WellFormed (replaceNode E x v) := by
  unfold replaceNode
  have := fresh_wf v hv
  rw [wf_iff] at this
  rw [wf_mk]
  exact this

theorem combineNode_wf (E : Sed) (o n m : Node) (ho : WellFormed o) (h : combineNode E o n = .ok m) : WellFormed m := by
  have hk := (mergeComments_fields E o.hd n.hd []).1
  rw [wf_iff] at ho
  unfold combineNode at h
  split at h
  · simp at h
  · dsimp only at h
    split at h
    · split at h
      · simp only [Res.ok.injEq] at h; subst h; rw [wf_mk]; simpa [hk] using ho
      · simp at h
    · split at h
      · split at h
        · simp only [Res.ok.injEq] at h; subst h; rw [wf_mk]; simpa [hk] using ho
        · simp at h
      · simp only [Res.ok.injEq] at h; subst h; rw [wf_mk]; simpa [hk] using ho

theorem doOne_wf (E : Sed) (o : Overlay) (a : Nat) (d d' : Node) (hv : WellFormed o.value) (hd : WellFormed d)
    (h : doOne E o d a = .ok d') : WellFormed d' := by
  unfold doOne at h
  split at h
  · obtain ⟨n', h1, h2⟩ := deleteNode_wf a d hd
    rw [h1, Res.ok.injEq] at h; exact h ▸ h2
  · exact modifyAt_wf a _ (fun x y _ hxy => by simp only [Res.ok.injEq] at hxy; exact hxy ▸ replaceNode_wf E x _ hv) d d' hd h
  · exact modifyAt_wf a _ (fun x y hx hxy => combineNode_wf E x _ y hx hxy) d d' hd h
  · exact modifyAt_wf a _ (fun x y hx hxy => merge_wf E _ hv x y [] hx hxy) d d' hd h

theorem foldlM_wf {α : Type} (f : Node → α → Res Err Node) (hf : ∀ d x d', WellFormed d → f d x = .ok d' → WellFormed d')
    (xs : List α) : ∀ d d', WellFormed d → xs.foldlM f d = .ok d' → WellFormed d' := by
  induction xs with
  | nil => intro d d' hd h; simp at h; exact h ▸ hd
  | cons x xs ih =>
    intro d d' hd h
    simp only [List.foldlM_cons, Res.bind_eq_ok] at h
    obtain ⟨d1, h1, h2⟩ := h
    exact ih d1 d' (hf d x d1 hd h1) h2

theorem foldlM_ne_panic {α : Type} (P : Node → Prop) (f : Node → α → Res Err Node) (xs : List α)
    (hp : ∀ d, P d → ∀ x ∈ xs, f d x ≠ .panic) (hP : ∀ d x d', P d → x ∈ xs → f d x = .ok d' → P d') :
    ∀ d, P d → xs.foldlM f d ≠ .panic := by
  induction xs with
  | nil => intro d _; simp
  | cons x xs ih =>
    intro d hd
    rw [List.foldlM_cons]
    exact Res.bind_ne_panic (hp d hd x (by simp))
      (fun d1 h1 => ih (fun d hd y hy => hp d hd y (by simp [hy])) (fun d y d' hd hy => hP d y d' hd (by simp [hy])) d1
        (hP d x d1 hd (by simp) h1))

/-! The trees the path builder makes. -/

/-- The shape of a built path below the root. -/
inductive Built : Node → Prop
  | leaf : Built leafNode
  | map (names : List Str) (sub : Node) : Built sub → Built (mapNode names sub)

theorem Built.wf {n : Node} (h : Built n) : WellFormed n := by
  induction h with
  | leaf => simp [leafNode, WellFormed, WellFormeds, Shaped]
  | map names sub _ ih =>
    rw [mapNode, wf_mk]
    refine ⟨?_, ?_⟩
    · simp only [Shaped]
      induction names with
      | nil => simp
      | cons x xs ihx => simp only [List.flatMap_cons, List.length_append]; simp
    · intro c hc
      simp only [List.mem_flatMap, List.mem_cons, List.not_mem_nil, or_false] at hc
      obtain ⟨x, _, rfl | rfl⟩ := hc
      · simp [keyNode, WellFormed, WellFormeds, Shaped]
      · exact ih

theorem Built.kinds {n : Node} (h : Built n) : AllNodes (fun h => h.kind ≠ .document ∧ h.kind ≠ .alias) n := by
  induction h with
  | leaf => simp [leafNode, AllNodes, AllNodess]
  | map names sub _ ih =>
    rw [mapNode]
    simp only [AllNodes, AllNodess_iff]
    refine ⟨by simp, ?_⟩
    intro c hc
    simp only [List.mem_flatMap, List.mem_cons, List.not_mem_nil, or_false] at hc
    obtain ⟨x, _, rfl | rfl⟩ := hc
    · simp [keyNode, AllNodes, AllNodess]
    · exact ih

theorem newPath_built (ls : List Lexeme) (h : ∀ x ∈ ls, x.typ ≠ .root) : ∀ n, newPath ls = .ok n → Built n := by
  induction ls with
  | nil => intro n hn; simp [newPath] at hn; subst hn; exact .leaf
  | cons lx ls ih =>
    have ih' := ih (fun x hx => h x (by simp [hx]))
    have hr := h lx (by simp)
    intro n hn
    rw [newPath] at hn
    split at hn
    · simp at hn
    · simp at hn; subst hn; exact .leaf
    · simp at hn; subst hn; exact .leaf
    · rename_i ht; exact absurd ht hr
    · dsimp only at hn
      split at hn
      · simp at hn
      · split at hn
        · simp at hn
        · simp only [Res.bind_eq_ok, Res.ok.injEq] at hn
          obtain ⟨s, h1, rfl⟩ := hn
          exact .map _ _ (ih' s h1)
    · split at hn
      · simp at hn
      · simp only [Res.bind_eq_ok, Res.ok.injEq] at hn
        obtain ⟨s, h1, rfl⟩ := hn
        exact .map _ _ (ih' s h1)
    · simp only [Res.bind_eq_ok, Res.ok.injEq] at hn
      obtain ⟨s, h1, rfl⟩ := hn
      exact .map _ _ (ih' s h1)

theorem handleChild_noRoot (l : Lexer) (t : LexType) (ht : t ≠ .root) :
    (∀ x ∈ (handleChild l t).out, x.typ ≠ .root) ∧ (handleChild l t).next ∈ [none, some .subPath] := by
  unfold handleChild
  dsimp only
  split
  · simp [Lexer.errorf]
  · simp [Lexer.emit, ht]

theorem lexSubPath_noRoot (l : Lexer) (s : Step) (h : lexSubPath l = some s) :
    (∀ x ∈ s.out, x.typ ≠ .root) ∧ s.next ∈ [none, some .subPath] := by
  have herr : (∀ x ∈ l.errorf.out, x.typ ≠ .root) ∧ l.errorf.next ∈ [none, some .subPath] := by simp [Lexer.errorf]
  unfold lexSubPath at h
  split at h
  · cases h; exact herr
  · cases h; simp [emitEnd, Lexer.emit]
  · cases h; exact handleChild_noRoot _ _ (by simp)
  · split at h
    · unfold handleBracket at h
      split at h
      · simp at h
      · split at h
        · simp at h
        · cases h; exact herr
        · split at h
          · cases h; exact herr
          · simp only [Lexer.emit, Option.some.injEq] at h; subst h; simp
    · split at h
      · cases h; exact handleChild_noRoot _ _ (by simp)
      · cases h; exact herr

theorem lexRun_noRoot (fuel : Nat) : ∀ (l : Lexer) (ls : List Lexeme), lexRun fuel .subPath l = .done ls →
    ∀ x ∈ ls, x.typ ≠ .root := by
  induction fuel with
  | zero => intro l ls h; simp [lexRun] at h
  | succ fuel ih =>
    intro l ls h
    rw [lexRun] at h
    split at h
    · simp at h
    · rename_i s hs
      obtain ⟨h1, h2⟩ := lexSubPath_noRoot l s hs
      split at h
      · simp at h; subst h; exact h1
      · rename_i st' hst
        have : st' = .subPath := by rw [hst] at h2; simpa using h2
        subst this
        split at h
        · rename_i ls' hl
          simp at h; subst h
          intro x hx
          rcases List.mem_append.1 hx with hx | hx
          · exact h1 x hx
          · exact ih _ _ hl x hx
        · rename_i hl
          exact absurd h (hl ls)

/-- What the path builder builds: an empty leaf for the empty text, else a document
around a built tree. -/
theorem buildPath_shape' (s : Str) (n : Node) (h : buildPath s = .ok n) :
    (s = [] ∧ n = leafNode) ∨ (s ≠ [] ∧ ∃ sub, Built sub ∧ n = docNode sub) := by
  unfold buildPath at h
  split at h
  · rename_i ls hls
    unfold lexAll lexInit at hls
    match s with
    | [] => left; simp [lexRun, lexStep, lexPath, emitEnd, Lexer.emit] at hls; subst hls; simp [newPath] at h; exact ⟨rfl, h.symm⟩
    | c :: t =>
      refine .inr ⟨by simp, ?_⟩
      have key : ∀ fuel l ls', lexRun fuel .subPath l = .done ls' → ls = ⟨.root, ['$']⟩ :: ls' →
          ∃ sub, Built sub ∧ n = docNode sub := by
        intro fuel l ls' h1 h2
        subst h2
        rw [newPath] at h
        simp only [Res.bind_eq_ok, Res.ok.injEq] at h
        obtain ⟨sub, h3, rfl⟩ := h
        exact ⟨sub, newPath_built ls' (lexRun_noRoot _ _ _ h1) sub h3, rfl⟩
      by_cases hc : c = '$'
      · subst hc
        obtain ⟨ls', h1, _⟩ := subPath_accepts (t.length + 2) ⟨[], t, .root⟩ rfl (by simp)
        have hrun : lexRun (('$' :: t).length + 3) .path ⟨[], '$' :: t, .eof⟩ = .done ([] ++ ([⟨.root, ['$']⟩] ++ ls')) := by
          simp only [List.length_cons]
          rw [show t.length + 1 + 3 = (t.length + 2) + 1 + 1 by omega]
          exact lexRun_step (s := ⟨⟨[], '$' :: t, .eof⟩, [], some .root⟩) rfl rfl
            (lexRun_step (s := ⟨⟨[], t, .root⟩, [⟨.root, ['$']⟩], some .subPath⟩) rfl rfl h1)
        rw [hrun] at hls
        simp at hls
        exact key _ _ ls' h1 hls.symm
      · obtain ⟨ls', h1, _⟩ := subPath_accepts (t.length + 3) ⟨[], c :: t, .eof⟩ rfl (by simp)
        have hp : lexPath ⟨[], c :: t, .eof⟩ = ⟨⟨[], c :: t, .eof⟩, [⟨.root, ['$']⟩], some .subPath⟩ := by
          unfold lexPath
          split
          · rename_i h; simp at h
          · rename_i h; simp only [List.cons.injEq] at h; exact absurd h.1 hc
          · rfl
        have hrun : lexRun ((c :: t).length + 3) .path ⟨[], c :: t, .eof⟩ = .done ([⟨.root, ['$']⟩] ++ ls') := by
          simp only [List.length_cons]
          rw [show t.length + 1 + 3 = (t.length + 3) + 1 by omega]
          exact lexRun_step (by rw [lexStep, hp]) rfl h1
        rw [hrun] at hls
        simp at hls
        exact key _ _ ls' h1 hls.symm
  · simp at h

theorem buildPath_shape (s : Str) (n : Node) (h : buildPath s = .ok n) : n = leafNode ∨ ∃ sub, Built sub ∧ n = docNode sub := by
  rcases buildPath_shape' s n h with ⟨_, h⟩ | ⟨_, h⟩
  · exact .inl h
  · exact .inr h

theorem buildPath_ne_panic (s : Str) : buildPath s ≠ .panic := by
  rcases buildPath_verdict s with ⟨⟨n, h⟩, _⟩ | ⟨h, _⟩ <;> rw [h] <;> simp

theorem newPaths_ne_panic (ps : List Str) : newPaths ps ≠ .panic := by
  by_cases h : ∀ p ∈ ps, PlainPath p
  · obtain ⟨ns, h⟩ := newPaths_ok ps h; rw [h]; simp
  · rw [newPaths_err ps h]; simp

theorem mapM_forall₂ {α β : Type} (f : α → Res Err β) (xs : List α) : ∀ ys, xs.mapM f = .ok ys →
    List.Forall₂ (fun x y => f x = .ok y) xs ys := by
  induction xs with
  | nil => intro ys h; simp at h; subst h; exact .nil
  | cons x xs ih =>
    intro ys h
    rw [List.mapM_cons] at h
    simp only [Res.bind_eq_ok, Res.pure_eq, Res.ok.injEq] at h
    obtain ⟨y, h1, ys', h2, rfl⟩ := h
    exact .cons h1 (ih ys' h2)

theorem leaf_wf : WellFormed leafNode := Built.leaf.wf

theorem builtPath_wf {n : Node} (hn : n = leafNode ∨ ∃ sub, Built sub ∧ n = docNode sub) : WellFormed n := by
  rcases hn with rfl | ⟨sub, h, rfl⟩
  · exact leaf_wf
  · rw [docNode, wf_mk]; exact ⟨trivial, by simpa using h.wf⟩

/-- Neither documents nor aliases inside. -/
def Kinds (n : Node) : Prop := AllNodes (fun h => h.kind ≠ .document ∧ h.kind ≠ .alias) n

theorem kinds_mk (h : Hdr) (cs : List Node) :
    Kinds (.mk h cs) ↔ (h.kind ≠ .document ∧ h.kind ≠ .alias) ∧ ∀ c ∈ cs, Kinds c := by
  unfold Kinds; simp only [AllNodes, AllNodess_iff]

theorem kinds_iff (n : Node) : Kinds n ↔ (n.hd.kind ≠ .document ∧ n.hd.kind ≠ .alias) ∧ ∀ c ∈ n.content, Kinds c := by
  obtain ⟨h, cs⟩ := n; exact kinds_mk h cs

theorem sanitize_fresh_kinds (E : Sed) (n : Node) : Kinds n → Kinds (sanitizeNode E n.fresh) := by
  induction n using Node.ind with
  | h hd cs ih =>
    rw [kinds_mk]
    intro ⟨h1, h2⟩
    simp only [Node.fresh, sanitizeNode, freshs_eq_map, sanitizeNodes_eq_map, List.map_map]
    rw [kinds_mk]
    refine ⟨h1, ?_⟩
    intro c hc
    simp only [List.mem_map, Function.comp] at hc
    obtain ⟨d, hd', rfl⟩ := hc
    exact ih d hd' (h2 d hd')

theorem addNode_kinds (E : Sed) (o : Node) (ns : List Node) (ho : Kinds o) (hns : ∀ c ∈ ns, Kinds c) :
    Kinds (addNode E o ns) := by
  rw [kinds_iff] at ho
  simp only [addNode, appendContent, freshs_eq_map, sanitizeNodes_eq_map, List.map_map]
  rw [kinds_mk]
  refine ⟨ho.1, ?_⟩
  intro c hc
  rcases List.mem_append.1 hc with hc | hc
  · exact ho.2 c hc
  · simp only [List.mem_map, Function.comp] at hc
    obtain ⟨d, hd', rfl⟩ := hc
    exact sanitize_fresh_kinds E d (hns d hd')

theorem toMapping_kinds (o : Node) (h : Kinds o) : Kinds (toMapping o) := by
  unfold toMapping
  split
  · rw [kinds_mk]; simp
  · exact h

theorem toSequence_kinds (o : Node) (h : Kinds o) : Kinds (toSequence o) := by
  unfold toSequence
  split
  · rw [kinds_mk]; simp
  · exact h

theorem mergeScalar_kinds (E : Sed) (o : Node) (n : Hdr) (vals : List Str) (h : Kinds o) : Kinds (mergeScalar E o n vals) := by
  rw [kinds_iff] at h
  have hk := (mergeComments_fields E o.hd n vals).1
  unfold mergeScalar
  dsimp only
  split
  · rw [kinds_mk]; simp
  · rw [kinds_mk]; simp only [hk]; exact h

theorem mergeInner_kinds (E : Sed) (f : Node → Str → Res Err Node) (nk : Hdr)
    (hf : ∀ x key x', Kinds x → f x key = .ok x' → Kinds x')
    (cs cs' : List Node) (b : Bool) (hcs : ∀ c ∈ cs, Kinds c)
    (h : mergeInner E f nk cs = .ok (cs', b)) : ∀ c ∈ cs', Kinds c := by
  induction cs using pairInduction generalizing cs' b with
  | h0 => simp [mergeInner] at h; obtain ⟨rfl, rfl⟩ := h; simp
  | h1 a => simp [mergeInner] at h; obtain ⟨rfl, rfl⟩ := h; simpa using hcs
  | h2 k v cs ih =>
    have hcs' : ∀ c ∈ cs, Kinds c := fun c hc => hcs c (by simp [hc])
    rw [mergeInner] at h
    split at h
    · simp only [Res.bind_eq_ok, Res.pure_eq, Res.ok.injEq, Prod.mk.injEq] at h
      obtain ⟨⟨r, b'⟩, hr, h1, h2⟩ := h
      have l2 := ih r b' hcs' hr
      subst h1
      simp only [List.mem_cons, forall_eq_or_imp]
      exact ⟨hcs _ (by simp), hcs _ (by simp), l2⟩
    · dsimp only at h
      simp only [Res.bind_eq_ok] at h
      obtain ⟨v', hv', h⟩ := h
      have hwv := hf _ _ _ (hcs v (by simp)) hv'
      have hk1 : ∀ vals, Kinds (.mk (mergeComments E k.hd nk vals) k.content) := by
        intro vals
        have := hcs k (by simp)
        rw [kinds_iff] at this
        rw [kinds_mk, (mergeComments_fields E k.hd nk vals).1]
        exact this
      split at h
      · simp only [Res.pure_eq, Res.ok.injEq, Prod.mk.injEq] at h
        obtain ⟨rfl, rfl⟩ := h
        simp only [List.mem_cons, forall_eq_or_imp]
        exact ⟨hk1 _, hwv, hcs'⟩
      · simp only [Res.bind_eq_ok, Res.pure_eq, Res.ok.injEq, Prod.mk.injEq] at h
        obtain ⟨⟨r, b'⟩, hr, h1, h2⟩ := h
        have l2 := ih r b' hcs' hr
        subst h1
        simp only [List.mem_cons, forall_eq_or_imp]
        exact ⟨mergeScalar_kinds E _ _ _ (hk1 _), hwv, l2⟩

theorem merge_kinds (E : Sed) (n : Node) : Kinds n →
    ∀ (o o' : Node) (vals : List Str), Kinds o → merge E o vals n = .ok o' → Kinds o' := by
  induction n using Node.ind with
  | h nh ncs ih =>
    intro hn o o' vals ho h
    rw [kinds_mk] at hn
    cases hk : nh.kind with
    | zero =>
      rw [merge_zero E o vals hk] at h; cases h
      rw [kinds_mk]; rw [kinds_iff] at ho; exact ho
    | «alias» => exact absurd hk hn.1.2
    | document => exact absurd hk hn.1.1
    | scalar =>
      rw [merge_scalar E o vals hk] at h; cases h
      have := mergeScalar_kinds E o nh vals ho
      rw [kinds_iff] at this
      rw [kinds_mk]; exact this
    | sequence =>
      rw [merge_sequence E o vals hk] at h; cases h
      have h1 := toSequence_kinds o ho
      unfold mergeArray
      dsimp only
      split
      · exact h1
      · refine addNode_kinds E _ _ ?_ hn.2
        rw [kinds_mk, (mergeComments_fields E _ _ _).1]; rw [kinds_iff] at h1; exact h1
    | mapping =>
      rw [merge_mapping E o vals hk] at h
      have key : ∀ ds : List Node, (∀ c ∈ ds, c ∈ ncs) → ∀ o o', Kinds o →
          mergeEntries E o ds = .ok o' → Kinds o' := by
        intro ds
        induction ds using pairInduction with
        | h0 => intro _ o o' ho h; simp [mergeEntries] at h; subst h; exact ho
        | h1 a => intro _ o o' ho h; simp [mergeEntries] at h; subst h; exact ho
        | h2 k v ds ihd =>
          intro hsub o o' ho h
          simp only [mergeEntries, Res.bind_eq_ok] at h
          obtain ⟨⟨cs', b⟩, hi, h⟩ := h
          have h1 := toMapping_kinds o ho
          rw [kinds_iff] at h1
          have l2 := mergeInner_kinds E _ k.hd (fun x key x' hx hm =>
            ih v (hsub v (by simp)) (hn.2 v (hsub v (by simp))) x x' [key] hx hm) _ _ _ h1.2 hi
          have h2 : Kinds (.mk (toMapping o).hd cs') := by rw [kinds_mk]; exact ⟨h1.1, l2⟩
          refine ihd (fun c hc => hsub c (by simp [hc])) _ o' ?_ h
          dsimp only
          split
          · exact h2
          · refine addNode_kinds E _ _ h2 ?_
            intro c hc
            exact hn.2 c (hsub c (by simp at hc ⊢; tauto))
      exact key ncs (fun _ h => h) o o' ho h

theorem mergeComments_nilc (E : Sed) (o n : Hdr) (vals : List Str) : (mergeComments E o n vals).nilc = o.nilc := by
  unfold mergeComments
  dsimp only
  split
  · simp
  · split
    · simp
    · split <;> simp

/-- What `BuildPaths` can return: an empty scalar, or a document with a tree of
mappings and scalars. -/
def PathTree (y : Node) : Prop :=
  WellFormed y ∧ ((y.hd.kind = .scalar ∧ y.contentIsNil = true) ∨
    (y.hd.kind = .document ∧ ∃ sub rest, y.content = sub :: rest ∧ Kinds sub))

theorem pathTree_of_built {n : Node} (hn : n = leafNode ∨ ∃ sub, Built sub ∧ n = docNode sub) : PathTree n := by
  refine ⟨builtPath_wf hn, ?_⟩
  rcases hn with rfl | ⟨sub, h, rfl⟩
  · exact .inl ⟨rfl, rfl⟩
  · exact .inr ⟨rfl, sub, [], rfl, h.kinds⟩

/-- Merging such a tree into a node that was not emptied succeeds. -/
theorem merge_pathTree (E : Sed) (o n : Node) (ho : NotEmptied o) (hn : PathTree n) :
    ∃ o', mergeNode E o n = .ok o' ∧ NotEmptied o' ∧ (PathTree o → PathTree o') := by
  obtain ⟨nh, ncs⟩ := n
  obtain ⟨hwf, hn⟩ := hn
  simp only [Node.hd_mk, Node.content_mk] at hn
  have wf : ∀ o', mergeNode E o (.mk nh ncs) = .ok o' → WellFormed o → WellFormed o' :=
    fun o' h h' => merge_wf E _ hwf o o' [] h' h
  unfold mergeNode at *
  rcases hn with ⟨hk, hc⟩ | ⟨hk, sub, rest, rfl, hsub⟩
  · rw [merge_scalar E o [] hk] at *
    refine ⟨_, rfl, ?_, ?_⟩
    · unfold mergeScalar NotEmptied Node.contentIsNil
      dsimp only
      split
      · simp
      · simp only [Node.hd_mk, Node.content_mk, mergeComments_nilc E o.hd nh []]
        exact ho
    · intro hy
      refine ⟨wf _ rfl hy.1, .inl ?_⟩
      unfold mergeScalar Node.contentIsNil
      dsimp only
      split
      · simp
      · rename_i hks
        simp only [ne_eq, Decidable.not_not] at hks
        rcases hy.2 with ⟨_, h2⟩ | ⟨h1, _⟩
        · simp only [Node.hd_mk, Node.content_mk, mergeComments_nilc E o.hd nh [],
            (mergeComments_fields E o.hd nh []).1]
          exact ⟨hks, h2⟩
        · rw [hks] at h1; simp at h1
  · rw [merge_document E o [] hk] at *
    split
    · exact ⟨o, rfl, ho, id⟩
    · rename_i hc
      rw [if_neg hc] at wf
      split
      · rename_i oc ocs nc ncs' hoc hnc
        simp only [List.cons.injEq] at hnc
        obtain ⟨rfl, rfl⟩ := hnc
        obtain ⟨oc', h1⟩ := merge_ok E _ hsub oc [o.hd.value]
        refine ⟨_, by rw [h1]; rfl, .inr (by simp), ?_⟩
        intro hy
        refine ⟨wf _ (by rw [hoc]; simp only [h1, Res.bind_ok]) hy.1, .inr ?_⟩
        rcases hy.2 with ⟨_, h2⟩ | ⟨h2, s, r, h3, h4⟩
        · simp [Node.contentIsNil, hoc] at h2
        · rw [hoc, List.cons.injEq] at h3
          obtain ⟨rfl, rfl⟩ := h3
          exact ⟨by simp [(mergeComments_fields E o.hd nh [o.hd.value]).1, h2], oc', ocs, rfl, merge_kinds E _ hsub _ _ _ h4 h1⟩
      · rename_i h1
        exfalso
        simp only [Bool.or_eq_true, not_or] at hc
        rcases ho with ho | ho
        · exact hc.1 ho
        · obtain ⟨oc, ocs, h2⟩ := List.exists_cons_of_ne_nil ho
          exact h1 oc ocs sub rest h2 rfl

theorem PathTree.notEmptied {y : Node} (h : PathTree y) : NotEmptied y := by
  rcases h.2 with ⟨_, h⟩ | ⟨_, _, _, h, _⟩
  · exact .inl h
  · exact .inr (by simp [h])

theorem buildPaths_ok (E : Sed) (ns : List Node) (hne : ns ≠ []) (hn : ∀ n ∈ ns, PathTree n) :
    ∃ y, buildPaths E ns = .ok y ∧ PathTree y := by
  obtain ⟨n, rest, rfl⟩ := List.exists_cons_of_ne_nil hne
  unfold buildPaths mergeNodes
  have : ∃ y, rest.foldlM (fun acc n => mergeNode E acc n) n = .ok y ∧ PathTree y := by
    have h0 := hn n (by simp)
    have hn' : ∀ n ∈ rest, PathTree n := fun m hm => hn m (by simp [hm])
    clear hn hne
    induction rest generalizing n with
    | nil => exact ⟨n, rfl, h0⟩
    | cons m rest ih =>
      obtain ⟨o', h1, _, h3⟩ := merge_pathTree E n m h0.notEmptied (hn' m (by simp))
      rw [List.foldlM_cons, h1, Res.bind_ok]
      exact ih o' (h3 h0) (fun x hx => hn' x (by simp [hx]))
  obtain ⟨y, hy, hy'⟩ := this
  exact ⟨y, by dsimp only; rw [hy]; rfl, hy'⟩

end Yot
