import Verif.Lemmas.Anchors
import Verif.Lemmas.Nil
import Verif.Spec.FromFile
/-
Where the texts and comments of a result come from: a statement about the texts of single
nodes that survives every edit holds of all nodes below the document.
-/
namespace Yot
open Spec

/-- A statement `p` about the text and the comments of a node of the document, which
holds of (copies of) nodes of the overlays, those with `ok`, and survives what merging does. -/
structure Passes (E : Sed) (ok p : Hdr → Prop) : Prop where
  same : ∀ {h h' : Hdr}, p h → h.value = h'.value → h.head = h'.head → h.line = h'.line → h.foot = h'.foot → p h'
  comm : ∀ h n vals, ok n → p h → p (mergeComments E h n vals)
  val : ∀ h n x, ok n → p h → p { h with value := format E n.value x }
  cleared : ∀ h, p h → p { h with value := [] }
  new : ∀ h, ok h → p h
  newSan : ∀ h, ok h → p (sanitizeHdr E h)
  okSame : ∀ {h h' : Hdr}, ok h → h.value = h'.value → h.head = h'.head → h.line = h'.line → h.foot = h'.foot → ok h'
  repl : ∀ h n, ok n → p h → p { n with head := h.head, line := h.line, foot := h.foot }

/-- What an edit does to the statement, at a node and below it. -/
def KeepsTo (p : Hdr → Prop) (o o' : Node) : Prop :=
  (p o.hd → p o'.hd) ∧ ((∀ c ∈ o.content, AllNodes p c) → ∀ c ∈ o'.content, AllNodes p c)

theorem KeepsTo.refl (p : Hdr → Prop) (o : Node) : KeepsTo p o o := ⟨id, id⟩

theorem KeepsTo.trans {p : Hdr → Prop} {a b c : Node} (h : KeepsTo p a b) (h' : KeepsTo p b c) : KeepsTo p a c :=
  ⟨fun x => h'.1 (h.1 x), fun x => h'.2 (h.2 x)⟩

theorem KeepsTo.all {p : Hdr → Prop} {a b : Node} (h : KeepsTo p a b) (ha : AllNodes p a) : AllNodes p b := by
  rw [allNodes_iff] at ha ⊢
  exact ⟨h.1 ha.1, h.2 ha.2⟩

section
variable {E : Sed} {ok p : Hdr → Prop} (S : Passes E ok p)
include S

theorem Passes.hdOnly (o : Node) (h : Hdr) (h' : p o.hd → p h) : KeepsTo p o (.mk h o.content) := ⟨h', id⟩

theorem Passes.mergeScalar (o : Node) (n : Hdr) (vals : List Str) (hn : ok n) : KeepsTo p o (mergeScalar E o n vals) := by
  have hc := S.comm o.hd n vals hn
  unfold Yot.mergeScalar
  dsimp only
  split
  · exact ⟨fun h => S.same (S.val _ n (formatVals o.hd vals) hn (hc h)) rfl rfl rfl rfl, by simp⟩
  · exact ⟨fun h => S.val _ n (formatVals o.hd vals) hn (hc h), id⟩

theorem Passes.toMapping (o : Node) : KeepsTo p o (toMapping o) := by
  unfold Yot.toMapping
  split
  · exact ⟨fun h => S.same (S.cleared _ h) rfl rfl rfl rfl, by simp⟩
  · exact KeepsTo.refl p o

theorem Passes.toSequence (o : Node) : KeepsTo p o (toSequence o) := by
  unfold Yot.toSequence
  split
  · exact ⟨fun h => S.same (S.cleared _ h) rfl rfl rfl rfl, by simp⟩
  · exact KeepsTo.refl p o

theorem Passes.fresh (n : Node) (hn : AllNodes ok n) : AllNodes ok n.fresh := by
  induction n using Node.ind with
  | h hd cs ih =>
    rw [allNodes_mk] at hn
    rw [Node.fresh, freshs_eq_map, allNodes_mk]
    refine ⟨S.okSame hn.1 rfl rfl rfl rfl, ?_⟩
    intro c hc
    obtain ⟨d, hd, rfl⟩ := List.mem_map.1 hc
    exact ih d hd (hn.2 d hd)

theorem Passes.ofOk (n : Node) (hn : AllNodes ok n) : AllNodes p n := by
  induction n using Node.ind with
  | h hd cs ih =>
    rw [allNodes_mk] at hn ⊢
    exact ⟨S.new _ hn.1, fun c hc => ih c hc (hn.2 c hc)⟩

theorem Passes.sanitize (n : Node) (hn : AllNodes ok n) : AllNodes p (sanitizeNode E n) := by
  induction n using Node.ind with
  | h hd cs ih =>
    rw [allNodes_mk] at hn
    rw [sanitizeNode, sanitizeNodes_eq_map, allNodes_mk]
    refine ⟨S.newSan _ hn.1, ?_⟩
    intro c hc
    obtain ⟨d, hd, rfl⟩ := List.mem_map.1 hc
    exact ih d hd (hn.2 d hd)

theorem Passes.addNode (o : Node) (ns : List Node) (hn : ∀ n ∈ ns, AllNodes ok n) : KeepsTo p o (addNode E o ns) := by
  simp only [Yot.addNode, appendContent]
  refine ⟨fun h => S.same h rfl rfl rfl rfl, fun h c hc => ?_⟩
  rcases List.mem_append.1 hc with hc | hc
  · exact h c hc
  · rw [sanitizeNodes_eq_map, freshs_eq_map, List.map_map] at hc
    obtain ⟨d, hd, rfl⟩ := List.mem_map.1 hc
    exact S.sanitize _ (S.fresh d (hn d hd))

theorem Passes.mergeInner (f : Node → Str → Res Err Node) (nk : Hdr) (hnk : ok nk)
    (hf : ∀ x key x', f x key = .ok x' → KeepsTo p x x')
    (cs cs' : List Node) (b : Bool) (hcs : ∀ c ∈ cs, AllNodes p c)
    (h : mergeInner E f nk cs = .ok (cs', b)) : ∀ c ∈ cs', AllNodes p c := by
  induction cs using pairInduction generalizing cs' b with
  | h0 => simp [Yot.mergeInner] at h; obtain ⟨rfl, rfl⟩ := h; simp
  | h1 a => simp [Yot.mergeInner] at h; obtain ⟨rfl, rfl⟩ := h; simpa using hcs
  | h2 k v cs ih =>
    have hcs' : ∀ c ∈ cs, AllNodes p c := fun c hc => hcs c (by simp [hc])
    rw [Yot.mergeInner] at h
    split at h
    · simp only [Res.bind_eq_ok, Res.pure_eq, Res.ok.injEq, Prod.mk.injEq] at h
      obtain ⟨⟨r, b'⟩, hr, h1, h2⟩ := h
      have l2 := ih r b' hcs' hr
      subst h1
      intro c hc
      rcases List.mem_cons.1 hc with rfl | hc
      · exact hcs _ (by simp)
      rcases List.mem_cons.1 hc with rfl | hc
      · exact hcs _ (by simp)
      exact l2 c hc
    · dsimp only at h
      simp only [Res.bind_eq_ok] at h
      obtain ⟨v', hv', h⟩ := h
      have hwv := (hf _ _ _ hv').all (hcs v (by simp))
      have hk1 : ∀ vals, AllNodes p (.mk (mergeComments E k.hd nk vals) k.content) := fun vals =>
        (S.hdOnly k _ (S.comm _ _ vals hnk)).all (hcs k (by simp))
      split at h
      · simp only [Res.pure_eq, Res.ok.injEq, Prod.mk.injEq] at h
        obtain ⟨rfl, rfl⟩ := h
        intro c hc
        rcases List.mem_cons.1 hc with rfl | hc
        · exact hk1 _
        rcases List.mem_cons.1 hc with rfl | hc
        · exact hwv
        exact hcs' c hc
      · simp only [Res.bind_eq_ok, Res.pure_eq, Res.ok.injEq, Prod.mk.injEq] at h
        obtain ⟨⟨r, b'⟩, hr, h1, h2⟩ := h
        have l2 := ih r b' hcs' hr
        subst h1
        intro c hc
        rcases List.mem_cons.1 hc with rfl | hc
        · exact (S.mergeScalar _ _ _ hnk).all (hk1 _)
        rcases List.mem_cons.1 hc with rfl | hc
        · exact hwv
        exact l2 c hc

theorem Passes.merge (n : Node) : AllNodes ok n →
    ∀ (o o' : Node) (vals : List Str), merge E o vals n = .ok o' → KeepsTo p o o' := by
  induction n using Node.ind with
  | h nh ncs ih =>
    intro hn o o' vals h
    rw [allNodes_mk] at hn
    cases hk : nh.kind with
    | zero =>
      rw [merge_zero E o vals hk] at h; cases h
      exact S.hdOnly o _ fun h => S.same h rfl rfl rfl rfl
    | «alias» => rw [merge_alias E o vals hk] at h; simp at h
    | scalar =>
      rw [merge_scalar E o vals hk] at h; cases h
      exact (S.mergeScalar o nh vals hn.1).trans (S.hdOnly _ _ fun h => S.same h rfl rfl rfl rfl)
    | sequence =>
      rw [merge_sequence E o vals hk] at h; cases h
      have h1 := S.toSequence o
      unfold mergeArray
      dsimp only
      split
      · exact h1
      · exact (h1.trans (S.hdOnly _ _ (S.comm _ _ _ hn.1))).trans (S.addNode _ _ hn.2)
    | document =>
      rw [merge_document E o vals hk] at h
      split at h
      · cases h; exact KeepsTo.refl p o
      · split at h
        · rename_i oc ocs nc _ hoc _
          simp only [Res.bind_eq_ok, Res.ok.injEq] at h
          obtain ⟨oc', h1, rfl⟩ := h
          have hw := ih nc (by simp) (hn.2 nc (by simp)) oc oc' _ h1
          refine ⟨S.comm _ _ _ hn.1, fun ho => ?_⟩
          rw [hoc] at ho
          intro c hc
          rcases List.mem_cons.1 hc with rfl | hc
          · exact hw.all (ho oc (by simp))
          · exact ho c (by simp [hc])
        · simp at h
    | mapping =>
      rw [merge_mapping E o vals hk] at h
      have key : ∀ ds : List Node, (∀ c ∈ ds, c ∈ ncs) → ∀ o o',
          mergeEntries E o ds = .ok o' → KeepsTo p o o' := by
        intro ds
        induction ds using pairInduction with
        | h0 => intro _ o o' h; simp [mergeEntries] at h; subst h; exact KeepsTo.refl p o
        | h1 a => intro _ o o' h; simp [mergeEntries] at h; subst h; exact KeepsTo.refl p o
        | h2 k v ds ihd =>
          intro hsub o o' h
          simp only [mergeEntries, Res.bind_eq_ok] at h
          obtain ⟨⟨cs', b⟩, hi, h⟩ := h
          have h1 := S.toMapping o
          have h2 : KeepsTo p o (.mk (Yot.toMapping o).hd cs') := by
            refine h1.trans ⟨id, fun hh => ?_⟩
            exact S.mergeInner _ k.hd ((allNodes_iff _ _).1 (hn.2 k (hsub k (by simp)))).1 (fun x key x' hm =>
              ih v (hsub v (by simp)) (hn.2 v (hsub v (by simp))) x x' [key] hm) _ _ _ hh hi
          refine KeepsTo.trans ?_ (ihd (fun c hc => hsub c (by simp [hc])) _ o' h)
          dsimp only
          split
          · exact h2
          · refine h2.trans (S.addNode _ _ ?_)
            intro c hc
            simp only [List.mem_cons, List.not_mem_nil, or_false] at hc
            rcases hc with rfl | rfl
            · exact hn.2 _ (hsub _ (by simp))
            · exact hn.2 _ (hsub _ (by simp))
      exact key ncs (fun _ h => h) o o' h

theorem Passes.replace (o n : Node) (hn : AllNodes ok n) : KeepsTo p o (replaceNode E o n) := by
  have hf := S.fresh n hn
  rw [allNodes_iff] at hf
  unfold replaceNode
  dsimp only
  exact ⟨fun h => S.same (S.repl _ _ hf.1 (S.comm o.hd n.fresh.hd [] hf.1 h)) rfl rfl rfl rfl,
    fun _ c hc => S.ofOk c (hf.2 c hc)⟩

omit S in
theorem keeps_modifyAt (a : Nat) (f : Node → Res Err Node) (hf : ∀ x x', f x = .ok x' → KeepsTo p x x')
    (n : Node) : ∀ n', modifyAt a f n = .ok n' → KeepsTo p n n' := by
  induction n using Node.ind with
  | h hd cs ih =>
    intro n' h
    rw [modifyAt] at h
    split at h
    · exact hf _ _ h
    · simp only [Res.bind_eq_ok, Res.ok.injEq] at h
      obtain ⟨cs', h1, rfl⟩ := h
      refine ⟨id, fun hn => ?_⟩
      have key : ∀ ds ds', (∀ c ∈ ds, c ∈ cs) → modifyAts a f ds = .ok ds' → ∀ c ∈ ds', AllNodes p c := by
        intro ds
        induction ds with
        | nil => intro ds' _ h; simp [modifyAts] at h; subst h; simp
        | cons d ds ihd =>
          intro ds' hsub h
          simp only [modifyAts, Res.bind_eq_ok, Res.ok.injEq] at h
          obtain ⟨d', hd', es, hes, rfl⟩ := h
          intro c hc
          rcases List.mem_cons.1 hc with rfl | hc
          · exact (ih d (hsub d (by simp)) _ hd').all (hn d (hsub d (by simp)))
          · exact ihd es (fun c hc => hsub c (by simp [hc])) hes c hc
      exact key cs cs' (fun _ h => h) h1

theorem Passes.deleteNode (a : Nat) (n : Node) : ∀ n', deleteNode a n = .ok n' → KeepsTo p n n' := by
  induction n using Node.ind with
  | h hd cs ih =>
    intro n' h
    rw [Yot.deleteNode] at h
    simp only [Res.bind_eq_ok] at h
    obtain ⟨⟨cs', i⟩, h1, h2⟩ := h
    have key : (∀ c ∈ cs, AllNodes p c) → ∀ ds ds' i, (∀ c ∈ ds, c ∈ cs) → deleteScan a ds = .ok (ds', i) → ∀ c ∈ ds', AllNodes p c := by
      intro hn ds
      induction ds with
      | nil => intro ds' i _ h; simp [deleteScan] at h; obtain ⟨rfl, _⟩ := h; simp
      | cons d ds ihd =>
        intro ds' i hsub h
        rw [deleteScan] at h
        split at h
        · simp only [Res.ok.injEq, Prod.mk.injEq] at h
          obtain ⟨rfl, _⟩ := h
          exact fun c hc => hn c (hsub c hc)
        · simp only [Res.bind_eq_ok, Res.ok.injEq] at h
          obtain ⟨d', hd', ⟨es, j⟩, hes, h⟩ := h
          simp only [Prod.mk.injEq] at h
          obtain ⟨rfl, _⟩ := h
          intro c hc
          rcases List.mem_cons.1 hc with rfl | hc
          · exact (ih d (hsub d (by simp)) _ hd').all (hn d (hsub d (by simp)))
          · exact ihd es j (fun c hc => hsub c (by simp [hc])) hes c hc
    cases i with
    | none =>
      simp only [Res.ok.injEq] at h2
      subst h2
      exact ⟨id, fun hn => key hn cs cs' none (fun _ h => h) h1⟩
    | some i =>
      simp only [Res.bind_eq_ok, Res.ok.injEq] at h2
      obtain ⟨ds, hds, rfl⟩ := h2
      refine ⟨fun h => S.same h rfl rfl rfl rfl, fun hn => ?_⟩
      have hcs' := key hn cs cs' _ (fun _ h => h) h1
      unfold deleteIndex at hds
      dsimp only at hds
      split at hds
      · cases hds
        intro c hc
        rcases List.mem_append.1 hc with hc | hc
        · exact hcs' c (List.mem_of_mem_take hc)
        · exact hcs' c (List.mem_of_mem_drop hc)
      · simp at hds

theorem Passes.doAction (o : Overlay) (hv : AllNodes ok o.value)
    (hc : o.action = .combine → ∀ x x', combineNode E x o.value = .ok x' → KeepsTo p x x')
    (root root' : Node) (nodes : List Node) (h : doAction E o root nodes = .ok root') : KeepsTo p root root' := by
  unfold Yot.doAction at h
  induction nodes generalizing root with
  | nil => simp only [List.foldlM_nil, Res.pure_eq, Res.ok.injEq] at h; subst h; exact KeepsTo.refl p _
  | cons m ms ih =>
    simp only [List.foldlM_cons, Res.bind_eq_ok] at h
    obtain ⟨r, h1, h2⟩ := h
    refine KeepsTo.trans ?_ (ih r h2)
    unfold doOne at h1
    split at h1
    · exact S.deleteNode _ _ _ h1
    · exact keeps_modifyAt _ _ (fun x x' h => by cases h; exact S.replace x o.value hv) _ _ h1
    · rename_i ha
      exact keeps_modifyAt _ _ (hc ha) _ _ h1
    · exact keeps_modifyAt _ _ (fun x x' h => S.merge o.value hv x x' [] h) _ _ h1

theorem Passes.label (n : Node) : (p n.hd ↔ p n.label.hd) ∧ (AllNodes p n ↔ AllNodes p n.label) ∧
    ((∀ c ∈ n.content, AllNodes p c) ↔ ∀ c ∈ n.label.content, AllNodes p c) := by
  have fr : ∀ n : Node, AllNodes p n ↔ AllNodes p n.fresh := by
    intro n
    induction n using Node.ind with
    | h hd cs ih =>
      rw [Node.fresh, freshs_eq_map, allNodes_mk, allNodes_mk]
      refine and_congr ⟨fun h => S.same h rfl rfl rfl rfl, fun h => S.same h rfl rfl rfl rfl⟩ ?_
      constructor
      · intro h c hc
        obtain ⟨d, hd, rfl⟩ := List.mem_map.1 hc
        exact (ih d hd).1 (h d hd)
      · intro h c hc
        exact (ih c hc).2 (h _ (List.mem_map.2 ⟨c, hc, rfl⟩))
  have frb : ∀ n : Node, (∀ c ∈ n.content, AllNodes p c) ↔ ∀ c ∈ n.fresh.content, AllNodes p c := by
    rintro ⟨hd, cs⟩
    rw [Node.fresh, freshs_eq_map, Node.content_mk, Node.content_mk]
    constructor
    · intro h c hc
      obtain ⟨d, hd, rfl⟩ := List.mem_map.1 hc
      exact (fr d).1 (h d hd)
    · intro h c hc
      exact (fr c).2 (h _ (List.mem_map.2 ⟨c, hc, rfl⟩))
  have e := label_fresh n
  have hh : ∀ n : Node, p n.hd ↔ p n.fresh.hd := by
    rintro ⟨hd, cs⟩
    rw [Node.fresh]
    exact ⟨fun h => S.same h rfl rfl rfl rfl, fun h => S.same h rfl rfl rfl rfl⟩
  refine ⟨?_, ?_, ?_⟩
  · rw [hh n, hh n.label, e]
  · rw [fr n, fr n.label, e]
  · rw [frb n, frb n.label, e]

theorem Passes.labelled (n : Node) : KeepsTo p n n.label :=
  ⟨(S.label n).1.1, (S.label n).2.2.1⟩

theorem Passes.mergeAll (ns : List Node) (h : ∀ n ∈ ns, AllNodes ok n) (o o' : Node)
    (hr : ns.foldlM (fun acc n => mergeNode E acc n) o = .ok o') : KeepsTo p o o' := by
  induction ns generalizing o with
  | nil => simp only [List.foldlM_nil, Res.pure_eq, Res.ok.injEq] at hr; subst hr; exact KeepsTo.refl p o
  | cons n ns ih =>
    simp only [List.foldlM_cons, Res.bind_eq_ok] at hr
    obtain ⟨r, h1, h2⟩ := hr
    exact (S.merge n (h n (by simp)) o r [] h1).trans (ih (fun x hx => h x (by simp [hx])) r h2)

/-- `okb`: what is known of the nodes of a built path. -/
theorem Passes.doInjectPath {okb : Hdr → Prop} (Sb : Passes E okb p) (B : Passes E okb okb) (o : Overlay) (hv : AllNodes ok o.value)
    (ip : List Query) (hb : ∀ q ∈ ip, ∀ n, buildPath q.str = .ok n → AllNodes okb n) (node node' : Node)
    (h : doInjectPath E o ip node = .ok node') : KeepsTo p node node' := by
  unfold Yot.doInjectPath at h
  simp only [Res.bind_eq_ok] at h
  obtain ⟨bps, h1, h2⟩ := h
  split at h2
  · rename_i y hy
    simp only [Res.bind_eq_ok] at h2
    obtain ⟨node1, h3, h4⟩ := h2
    have hb : ∀ b ∈ bps, AllNodes okb b := by
      clear hy h3 h4
      unfold newPaths at h1
      induction ip generalizing bps with
      | nil => simp at h1; subst h1; simp
      | cons q qs ih =>
        simp only [List.map_cons, List.mapM_cons, Res.bind_eq_ok, Res.pure_eq, Res.ok.injEq] at h1
        obtain ⟨b, hb', bs, hbs, rfl⟩ := h1
        intro x hx
        rcases List.mem_cons.1 hx with rfl | hx
        · exact hb q (by simp) _ hb'
        · exact ih (fun q hq => hb q (by simp [hq])) bs hbs x hx
    have hy' : AllNodes okb y := by
      unfold buildPaths mergeNodes at hy
      cases bps with
      | nil => simp at hy
      | cons b bs =>
        simp only [Res.bind_eq_ok, Res.pure_eq, Res.ok.injEq] at hy
        obtain ⟨r, ⟨r', h5, rfl⟩, h6⟩ := hy
        simp only [Res.ok.injEq] at h6
        subst h6
        exact (B.mergeAll bs (fun x hx => hb x (by simp [hx])) b r' h5).all (hb b (by simp))
    refine (Sb.merge y hy' node node1 [] h3).trans ((S.labelled node1).trans ?_)
    unfold replaceAllAt at h4
    revert h4
    generalize node1.label = r0
    generalize findAll ip r0 = ms
    intro h4
    induction ms generalizing r0 with
    | nil => simp only [List.foldlM_nil, Res.pure_eq, Res.ok.injEq] at h4; subst h4; exact KeepsTo.refl p _
    | cons m ms ih =>
      simp only [List.foldlM_cons, Res.bind_eq_ok] at h4
      obtain ⟨r, h5, h6⟩ := h4
      refine KeepsTo.trans ?_ (ih r h6)
      exact keeps_modifyAt _ _ (fun x x' h => by cases h; exact S.replace x o.value hv) _ _ h5
  · cases h2

theorem Passes.apply {okb : Hdr → Prop} (Sb : Passes E okb p) (B : Passes E okb okb) (dflt : Str) (o : Overlay) (hv : AllNodes ok o.value)
    (hc : o.action = .combine → ∀ x x', combineNode E x o.value = .ok x' → KeepsTo p x x')
    (hb : ∀ q, q ∈ o.query ∨ q ∈ o.onMissing.injectPath.getD [] → ∀ n, buildPath q.str = .ok n → AllNodes okb n)
    (doc doc' : Node) (h : apply E dflt o doc = .ok doc') : KeepsTo p doc doc' := by
  unfold Yot.apply at h
  split at h
  · cases h; exact KeepsTo.refl p _
  · dsimp only at h
    split at h
    · unfold onMissing at h
      split at h
      · unfold handleInjectPath at h
        split at h
        · split at h
          · cases h; exact KeepsTo.refl p _
          · rename_i ip hip
            exact S.doInjectPath Sb B o hv ip (fun q hq => hb q (.inr (by rw [hip]; exact hq))) _ _ h
        · cases h
        · cases h
        · exact S.doInjectPath Sb B o hv _ (fun q hq => hb q (.inl hq)) _ _ h
      · cases h; exact KeepsTo.refl p _
    · exact S.doAction o hv hc _ _ _ h

theorem Passes.applyItems {okb : Hdr → Prop} (Sb : Passes E okb p) (B : Passes E okb okb) (dflt : Str) (os : List (Option DOverlay))
    (hv : ∀ o, some o ∈ os → AllNodes ok o.base.value)
    (hc : ∀ o, some o ∈ os → o.base.action = .combine → ∀ x x', combineNode E x o.base.value = .ok x' → KeepsTo p x x')
    (hb : ∀ o, some o ∈ os → ∀ q, q ∈ o.plain.query ∨ q ∈ o.plain.onMissing.injectPath.getD [] → ∀ n, buildPath q.str = .ok n → AllNodes okb n)
    (d d' : Node) (h : applyItems E dflt os d = .ok d') : KeepsTo p d d' := by
  induction os generalizing d with
  | nil => cases h; exact KeepsTo.refl p _
  | cons o os ih =>
    cases o with
    | none => cases h
    | some o =>
      simp only [Spec.applyItems, Res.bind_eq_ok] at h
      obtain ⟨d1, h1, h2⟩ := h
      refine KeepsTo.trans ?_ (ih (fun x hx => hv x (by simp [hx])) (fun x hx => hc x (by simp [hx])) (fun x hx => hb x (by simp [hx])) d1 h2)
      rw [DOverlay.apply_eq] at h1
      split at h1
      · cases h1
      · exact (S.labelled d).trans (S.apply Sb B dflt o.plain (hv o (by simp)) (hc o (by simp)) (hb o (by simp)) _ _ h1)

end

end Yot
