import Verif.Spec.Inject
import Verif.Lemmas.Edit
import Verif.Lemmas.Delete
import Verif.Lemmas.Idem
/-
Injecting a value at a path of names.
-/
namespace Yot
open Spec

/-- Rewrite the value of the first entry with key `k`. -/
def updFirst (k : Str) (f : Node → Node) : List Node → List Node
  | kn :: v :: rest => if kn.hd.value = k then kn :: f v :: rest else kn :: v :: updFirst k f rest
  | l => l

/-- Rewrite the node at the end of a path. -/
def updPath : List Str → (Node → Node) → Node → Node
  | [], f, n => f n
  | k :: ks, f, n => .mk n.hd (updFirst k (updPath ks f) n.content)

/-- Merge of the empty leaf. -/
def leafMerge (n : Node) : Node :=
  if n.hd.kind ≠ .scalar then .mk { n.hd with kind := .scalar, nilc := true, value := [], tag := [] } []
  else .mk { n.hd with value := [], tag := [] } n.content

/-- Merge of nested single-key mappings. -/
def scaffold : List Str → Node → Node
  | [], n => leafMerge n
  | k :: ks, n =>
    let m := toMapping n
    if (firstAt k (pairs m.content)).isSome then .mk m.hd (updFirst k (scaffold ks) m.content)
    else .mk { m.hd with nilc := false } (m.content ++ [.mk { kind := .scalar, value := k } [], nested ks])

theorem mergeComments_none (E : Sed) (o n : Hdr) (vals : List Str) (h1 : n.head = []) (h2 : n.line = []) (h3 : n.foot = []) :
    mergeComments E o n vals = o := by
  unfold mergeComments
  simp [h1, h2, h3]

theorem mergeInner_first (E : Sed) (f : Node → Str → Res Err Node) (g : Node → Node) (nk : Hdr)
    (hk : NoMarker nk.value) (h1 : nk.head = []) (h2 : nk.line = []) (h3 : nk.foot = [])
    (hf : ∀ x key, f x key = .ok (g x)) (cs : List Node) :
    mergeInner E f nk cs =
      .ok (if (firstAt nk.value (pairs cs)).isSome then (updFirst nk.value g cs, true) else (cs, false)) := by
  have hmk := (checkForMarkers_iff _).2 hk
  induction cs using pairInduction with
  | h0 => rfl
  | h1 a => rfl
  | h2 a b cs ih =>
    rw [mergeInner]
    simp only [hmk, Bool.not_false, Bool.true_and, decide_eq_true_eq, pairs, firstAt, updFirst]
    by_cases hv : a.hd.value = nk.value
    · simp [hv, hf, mergeComments_none E a.hd nk _ h1 h2 h3]
    · simp only [ne_eq, hv, not_false_iff, if_true, if_false, ih]
      split <;> simp

theorem nested_noMarkers (ks : List Str) (h : ∀ k ∈ ks, NoMarker k) : AllNodes (OnStrings NoMarker) (nested ks) := by
  induction ks with
  | nil => simp only [nested, AllNodes, AllNodess, OnStrings, noMarker_nil, and_self]
  | cons k ks ih =>
    simp only [nested, AllNodes, AllNodess, OnStrings, noMarker_nil, and_self, and_true, true_and]
    exact ⟨h k (by simp), ih (fun x hx => h x (by simp [hx]))⟩

theorem copyOf_nested (ks : List Str) : copyOf (nested ks) = nested ks := by
  induction ks with
  | nil => rfl
  | cons k ks ih =>
    unfold copyOf at ih ⊢
    simp only [nested, mapStrings, mapStringss, id, ih]

theorem merge_nested (E : Sed) (ks : List Str) (h : ∀ k ∈ ks, NoMarker k) :
    ∀ (n : Node) (vals : List Str), merge E n vals (nested ks) = .ok (scaffold ks n) := by
  induction ks with
  | nil =>
    intro n vals
    rw [nested, merge_scalar E n vals rfl]
    unfold mergeScalar scaffold leafMerge
    simp only [format_id E _ noMarker_nil]
    rw [mergeComments_none E n.hd _ vals rfl rfl rfl]
    split <;> rfl
  | cons k ks ih =>
    intro n vals
    have hk := h k (by simp)
    have hks : ∀ x ∈ ks, NoMarker x := fun x hx => h x (by simp [hx])
    rw [nested, merge_mapping E n vals rfl, mergeEntries]
    simp only [Node.hd_mk]
    rw [mergeInner_first E _ (scaffold ks) _ hk rfl rfl rfl (fun x key => ih hks x [key])]
    simp only [Res.bind_ok, scaffold]
    split
    · simp [mergeEntries]
    · have hnm := nested_noMarkers (k :: ks) h
      simp only [nested, AllNodes, AllNodess] at hnm
      have h1 := sanitize_fresh_noMarker E (Node.mk { kind := .scalar, value := k } []) hnm.2.1
      have h2 := sanitize_fresh_noMarker E (nested ks) hnm.2.2.1
      simp only [Bool.false_eq_true, if_false, mergeEntries, addNode, appendContent, sanitizeNodes_eq_map, freshs_eq_map,
        List.map_cons, List.map_nil, h1, h2, copyOf_nested, List.isEmpty_cons, Bool.and_false, Node.hd_mk, Node.content_mk]
      rfl

/-! ### Walking -/

theorem pairs_updFirst (k : Str) (f : Node → Node) (cs : List Node) (v : Node)
    (h : firstAt k (pairs cs) = some v) :
    ∃ before kn after, pairs cs = before ++ (kn, v) :: after ∧ kn.hd.value = k ∧ (∀ e ∈ before, e.1.hd.value ≠ k) ∧
      pairs (updFirst k f cs) = before ++ (kn, f v) :: after := by
  induction cs using pairInduction with
  | h0 => simp [pairs, firstAt] at h
  | h1 a => simp [pairs, firstAt] at h
  | h2 a b cs ih =>
    simp only [pairs, firstAt, updFirst] at h ⊢
    by_cases hv : a.hd.value = k
    · simp only [hv, if_true, Option.some.injEq] at h ⊢
      subst h
      exact ⟨[], a, pairs cs, rfl, hv, by simp, rfl⟩
    · simp only [hv, if_false] at h ⊢
      obtain ⟨before, kn, after, h1, h2, h3, h4⟩ := ih h
      refine ⟨(a, b) :: before, kn, after, by rw [h1]; rfl, h2, ?_, by rw [pairs, h4]; rfl⟩
      intro e he
      rcases List.mem_cons.1 he with rfl | he
      · exact hv
      · exact h3 e he

theorem updFirst_length (k : Str) (f : Node → Node) (cs : List Node) : (updFirst k f cs).length = cs.length := by
  induction cs using pairInduction with
  | h0 => rfl
  | h1 a => rfl
  | h2 a b cs ih =>
    rw [updFirst]
    split
    · rfl
    · simp [ih]

theorem firstAt_append (k : Str) (before after : List (Node × Node)) (kn v : Node) (hk : kn.hd.value = k)
    (h : ∀ e ∈ before, e.1.hd.value ≠ k) : firstAt k (before ++ (kn, v) :: after) = some v := by
  induction before with
  | nil => simp [firstAt, hk]
  | cons e es ih =>
    rw [List.cons_append, firstAt, if_neg (h e (by simp)), ih (fun x hx => h x (by simp [hx]))]

theorem firstAt_none {k : Str} {es : List (Node × Node)} (h : firstAt k es = none) : ∀ e ∈ es, e.1.hd.value ≠ k := by
  induction es with
  | nil => simp
  | cons e es ih =>
    rw [firstAt] at h
    split at h
    · cases h
    · next hne =>
      intro x hx
      rcases List.mem_cons.1 hx with rfl | hx
      · exact hne
      · exact ih h x hx

theorem walk_nested (ks : List Str) : walk ks (nested ks) = [nothing] := by
  induction ks with
  | nil => rfl
  | cons k ks ih => simp [walk, nested, entriesOf, pairs, firstAt, ih]

theorem firstAt_mem {k : Str} {cs : List Node} {v : Node} (h : firstAt k (pairs cs) = some v) : v ∈ cs := by
  obtain ⟨b, kn, a, h1, _⟩ := pairs_updFirst k id cs v h
  exact (pairs_mem (cs := cs) (e := (kn, v)) (by rw [h1]; simp)).2

theorem walk_scaffold (ks : List Str) : ∀ n, WellFormed n → ∃ m, walk ks (scaffold ks n) = [m] := by
  induction ks with
  | nil => intro n _; exact ⟨_, rfl⟩
  | cons k ks ih =>
    intro n hn
    have hw := toMapping_wf n hn
    rw [wf_iff, toMapping_kind] at hw
    simp only [scaffold]
    cases hf : firstAt k (pairs (toMapping n).content) with
    | some v =>
      simp only [Option.isSome_some, if_true]
      obtain ⟨b, kn, a, _, h2, h3, h4⟩ := pairs_updFirst k (scaffold ks) _ v hf
      rw [walk]
      simp only [entriesOf, Node.hd_mk, toMapping_kind, if_true, Node.content_mk, h4, firstAt_append k b a kn _ h2 h3]
      exact ih v (hw.2 v (firstAt_mem hf))
    | none =>
      simp only [Option.isSome_none, Bool.false_eq_true, if_false]
      rw [walk]
      simp only [entriesOf, Node.hd_mk, toMapping_kind, if_true, Node.content_mk]
      rw [pairs_append hw.1]
      rw [show pairs [Node.mk { kind := .scalar, value := k } [], nested ks] =
        [(Node.mk { kind := .scalar, value := k } [], nested ks)] from rfl,
        firstAt_append k _ [] _ _ rfl (firstAt_none hf)]
      exact ⟨_, walk_nested ks⟩

/-! ### Putting the value -/

theorem updPath_nested (f : Node → Node) (v : Node) (hf : ∀ x, HoldsValue v (f x)) (ks : List Str) :
    Injected v ks nothing (updPath ks f (nested ks)) := by
  induction ks with
  | nil => exact hf _
  | cons k ks ih =>
    refine ⟨rfl, ?_, ?_, ?_⟩
    · simp [updPath, nested, updFirst]
    · intro h; cases h
    · exact ⟨[], .mk { kind := .scalar, value := k } [], updPath ks f (nested ks), [],
        by simp [updPath, nested, updFirst, pairs], rfl, by simp, .inr ⟨rfl, rfl, ih⟩⟩

theorem updFirst_comp (k : Str) (f g : Node → Node) (cs : List Node) :
    updFirst k g (updFirst k f cs) = updFirst k (fun x => g (f x)) cs := by
  induction cs using pairInduction with
  | h0 => rfl
  | h1 a => rfl
  | h2 a b cs ih =>
    simp only [updFirst]
    split
    · next h => simp [updFirst, h]
    · next h => simp [updFirst, h, ih]

theorem updFirst_append (k : Str) (f : Node → Node) (cs : List Node) (kn v : Node) (he : cs.length % 2 = 0)
    (h : firstAt k (pairs cs) = none) (hk : kn.hd.value = k) :
    updFirst k f (cs ++ [kn, v]) = cs ++ [kn, f v] := by
  induction cs using pairInduction with
  | h0 => simp [updFirst, hk]
  | h1 a => simp at he
  | h2 a b cs ih =>
    simp only [pairs, firstAt] at h
    split at h
    · cases h
    · next hne =>
      simp only [List.cons_append, updFirst, hne, if_false]
      rw [ih (by simp only [List.length_cons] at he; omega) h]

theorem entriesOf_toMapping (n : Node) : pairs (toMapping n).content = entriesOf n := by
  unfold toMapping entriesOf
  by_cases h : n.hd.kind = .mapping
  · simp [h]
  · simp [h, pairs]

theorem injected_scaffold (f : Node → Node) (v : Node) (hf : ∀ x, HoldsValue v (f x)) (ks : List Str) :
    ∀ n, WellFormed n → Injected v ks n (updPath ks f (scaffold ks n)) := by
  induction ks with
  | nil => intro n _; exact hf _
  | cons k ks ih =>
    intro n hn
    have hw := toMapping_wf n hn
    rw [wf_iff, toMapping_kind] at hw
    have hhd : n.hd.kind = .mapping → (toMapping n).hd = n.hd := by
      intro h; simp [toMapping, h]
    simp only [scaffold, updPath]
    cases hfst : firstAt k (pairs (toMapping n).content) with
    | some x0 =>
      simp only [Option.isSome_some, if_true, Node.hd_mk, Node.content_mk, updFirst_comp]
      obtain ⟨b, kn, a, h1, h2, h3, h4⟩ := pairs_updFirst k (fun x => updPath ks f (scaffold ks x)) _ x0 hfst
      refine ⟨toMapping_kind n, ?_, fun h => ⟨n.hd.nilc, hhd h⟩, b, kn, _, a, h4, h2, h3, .inl ⟨x0, ?_, ?_⟩⟩
      · simp only [Node.content_mk, updFirst_length]; exact hw.1
      · rw [← entriesOf_toMapping, h1]
      · exact ih x0 (hw.2 x0 (firstAt_mem hfst))
    | none =>
      simp only [Option.isSome_none, Bool.false_eq_true, if_false, Node.hd_mk, Node.content_mk]
      rw [updFirst_append k _ _ (.mk { kind := .scalar, value := k } []) _ hw.1 hfst rfl]
      refine ⟨toMapping_kind n, ?_, fun h => ⟨false, by simp only [Node.hd_mk, hhd h]⟩,
        pairs (toMapping n).content, (.mk { kind := .scalar, value := k } []), _, [], ?_, rfl, firstAt_none hfst,
        .inr ⟨(entriesOf_toMapping n).symm, rfl, updPath_nested f v hf ks⟩⟩
      · have := hw.1
        simp only [Shaped] at this
        simp only [Node.content_mk, List.length_append, List.length_cons, List.length_nil]; omega
      · simp only [Node.content_mk]
        rw [pairs_append hw.1]
        rfl

/-! ### Copies -/

theorem fresh_value (n : Node) : n.fresh.hd.value = n.hd.value := by rw [fresh_hd]

theorem fresh_content (n : Node) : n.fresh.content = n.content.map Node.fresh := by
  obtain ⟨h, cs⟩ := n
  simp [Node.fresh, freshs_eq_map]

theorem fresh_mk (h : Hdr) (cs : List Node) : (Node.mk h cs).fresh = .mk { h with addr := 0 } (cs.map Node.fresh) := by
  simp [Node.fresh, freshs_eq_map]

theorem firstAt_fresh (k : Str) (es : List (Node × Node)) :
    firstAt k (es.map fun e => (e.1.fresh, e.2.fresh)) = (firstAt k es).map Node.fresh := by
  induction es with
  | nil => rfl
  | cons e es ih =>
    simp only [List.map_cons, firstAt, fresh_value]
    split
    · rfl
    · exact ih

theorem entriesOf_fresh (n : Node) : entriesOf n.fresh = (entriesOf n).map fun e => (e.1.fresh, e.2.fresh) := by
  unfold entriesOf
  rw [fresh_hd, fresh_content]
  simp only
  split
  · exact pairs_map _ _
  · rfl

theorem walk_fresh (ks : List Str) : ∀ n, walk ks n.fresh = (walk ks n).map Node.fresh := by
  induction ks with
  | nil => intro n; rfl
  | cons k ks ih =>
    intro n
    simp only [walk, entriesOf_fresh, firstAt_fresh]
    cases firstAt k (entriesOf n) with
    | none => rfl
    | some v => exact ih v

theorem updFirst_fresh (k : Str) (f g : Node → Node) (cs : List Node) (h : ∀ x, (f x).fresh = g x.fresh) :
    (updFirst k f cs).map Node.fresh = updFirst k g (cs.map Node.fresh) := by
  induction cs using pairInduction with
  | h0 => rfl
  | h1 a => rfl
  | h2 a b cs ih =>
    simp only [updFirst, List.map_cons, fresh_value]
    split
    · simp [h]
    · simp [ih]

theorem updPath_fresh (f g : Node → Node) (h : ∀ x, (f x).fresh = g x.fresh) (ks : List Str) :
    ∀ n, (updPath ks f n).fresh = updPath ks g n.fresh := by
  induction ks with
  | nil => intro n; exact h n
  | cons k ks ih =>
    intro n
    simp only [updPath, fresh_mk, fresh_hd, fresh_content]
    rw [updFirst_fresh k _ _ _ ih]

theorem toMapping_fresh (n : Node) : (toMapping n).fresh = toMapping n.fresh := by
  unfold toMapping
  rw [fresh_hd]
  simp only
  split
  · simp [fresh_mk]
  · rfl

theorem nested_fresh (ks : List Str) : (nested ks).fresh = nested ks := by
  rw [fresh_eq_copyOf, copyOf_nested]

theorem leafMerge_fresh (n : Node) : (leafMerge n).fresh = leafMerge n.fresh := by
  unfold leafMerge
  rw [fresh_hd]
  simp only
  split
  · simp [fresh_mk]
  · simp [fresh_mk, fresh_content]

theorem scaffold_fresh (ks : List Str) : ∀ n, (scaffold ks n).fresh = scaffold ks n.fresh := by
  induction ks with
  | nil => intro n; exact leafMerge_fresh n
  | cons k ks ih =>
    intro n
    simp only [scaffold, ← toMapping_fresh]
    rw [fresh_content, pairs_map, firstAt_fresh, Option.isSome_map]
    split
    · rw [fresh_mk, fresh_hd, updFirst_fresh k _ _ _ ih]
    · simp [fresh_mk, fresh_hd, nested_fresh]

/-! ### At an address -/

theorem mem_addrs_walk (ks : List Str) : ∀ (n m : Node), m ∈ walk ks n → m.hd.addr ∈ n.addrs := by
  induction ks with
  | nil =>
    intro n m h
    simp only [walk, List.mem_cons, List.not_mem_nil, or_false] at h
    subst h
    obtain ⟨h, cs⟩ := m
    simp [Node.addrs]
  | cons k ks ih =>
    intro n m h
    simp only [walk] at h
    cases hf : firstAt k (entriesOf n) with
    | none => simp [hf] at h
    | some v =>
      simp only [hf] at h
      have hv := ih v m h
      unfold entriesOf at hf
      split at hf
      · have := firstAt_mem hf
        obtain ⟨hd, cs⟩ := n
        simp only [Node.addrs, addrss_eq, List.mem_cons, List.mem_flatMap]
        exact .inr ⟨v, this, hv⟩
      · simp [firstAt] at hf

theorem modifyAts_absent (a : Nat) (f : Node → Res Err Node) (cs : List Node) (h : a ∉ Node.addrss cs) :
    modifyAts a f cs = .ok cs := by
  induction cs with
  | nil => rfl
  | cons c cs ih =>
    simp only [Node.addrss, List.mem_append, not_or] at h
    simp [modifyAts, modifyAt_absent a f c h.1, ih h.2]

theorem modifyAts_first (a : Nat) (f : Node → Res Err Node) (g : Node → Node) (k : Str) (cs : List Node) (v : Node)
    (hnd : (Node.addrss cs).Nodup) (hv : firstAt k (pairs cs) = some v) (ha : a ∈ v.addrs)
    (hm : modifyAt a f v = .ok (g v)) : modifyAts a f cs = .ok (updFirst k g cs) := by
  induction cs using pairInduction with
  | h0 => simp [pairs, firstAt] at hv
  | h1 a => simp [pairs, firstAt] at hv
  | h2 x y cs ih =>
    simp only [Node.addrss] at hnd
    rw [List.nodup_append] at hnd
    obtain ⟨_, hnd2, hd1⟩ := hnd
    rw [List.nodup_append] at hnd2
    obtain ⟨_, hnd3, hd2⟩ := hnd2
    simp only [pairs, firstAt] at hv
    simp only [updFirst]
    split at hv
    · next hk =>
      simp only [Option.some.injEq] at hv
      subst hv
      have hx : a ∉ x.addrs := fun h => hd1 a h a (by simp [ha]) rfl
      have hcs : a ∉ Node.addrss cs := fun h => hd2 a ha a h rfl
      simp only [modifyAts, modifyAt_absent a f x hx, Res.bind_ok, hm, modifyAts_absent a f cs hcs, hk, if_true]
    · next hk =>
      have hin : a ∈ Node.addrss cs := by
        rw [addrss_eq, List.mem_flatMap]
        exact ⟨v, firstAt_mem hv, ha⟩
      have hx : a ∉ x.addrs := fun h => hd1 a h a (by simp [hin]) rfl
      have hy : a ∉ y.addrs := fun h => hd2 a h a hin rfl
      simp only [modifyAts, modifyAt_absent a f x hx, modifyAt_absent a f y hy, Res.bind_ok, ih hnd3 hv, hk, if_false]

theorem addrs_sublist {v : Node} {cs : List Node} (h : v ∈ cs) : v.addrs.Sublist (Node.addrss cs) := by
  induction cs with
  | nil => simp at h
  | cons c cs ih =>
    rw [Node.addrss]
    rcases List.mem_cons.1 h with rfl | h
    · exact List.sublist_append_left _ _
    · exact (ih h).trans (List.sublist_append_right _ _)

theorem modifyAt_walk (g : Node → Node) (ks : List Str) : ∀ (n m : Node), n.addrs.Nodup → m ∈ walk ks n →
    modifyAt m.hd.addr (fun x => .ok (g x)) n = .ok (updPath ks g n) := by
  induction ks with
  | nil =>
    intro n m _ h
    simp only [walk, List.mem_cons, List.not_mem_nil, or_false] at h
    subst h
    obtain ⟨h, cs⟩ := m
    rw [modifyAt]
    simp only [Node.hd_mk, if_true]
    rfl
  | cons k ks ih =>
    intro n m hnd h
    simp only [walk] at h
    cases hf : firstAt k (entriesOf n) with
    | none => simp [hf] at h
    | some v =>
      simp only [hf] at h
      have hv := mem_addrs_walk ks v m h
      unfold entriesOf at hf
      split at hf
      · obtain ⟨hd, cs⟩ := n
        simp only [Node.addrs, List.nodup_cons] at hnd
        simp only [Node.content_mk] at hf
        have hvn : v.addrs.Nodup := by
          have := hnd.2
          have hsub : v.addrs.Sublist (Node.addrss cs) := by
            exact addrs_sublist (firstAt_mem hf)
          exact hsub.nodup this
        have hin : m.hd.addr ∈ Node.addrss cs := by
          rw [addrss_eq, List.mem_flatMap]
          exact ⟨v, firstAt_mem hf, hv⟩
        rw [modifyAt, if_neg (fun e => hnd.1 (by rw [e]; exact hin)),
          modifyAts_first _ _ (updPath ks g) k cs v hnd.2 hf hv (ih v m hvn h)]
        rfl
      · simp [firstAt] at hf

theorem replaceNode_holds (E : Sed) (x v : Node) : HoldsValue v (replaceNode E x v) := by
  unfold replaceNode HoldsValue
  obtain ⟨h, cs⟩ := v
  simp only [Node.fresh, freshs_eq_map, Node.hd_mk, Node.content_mk, true_and]
  exact List.map_congr_left (fun c _ => fresh_eq_copyOf c)

theorem fresh_fresh (n : Node) : n.fresh.fresh = n.fresh := by
  induction n using Node.ind with
  | h hd cs ih =>
    simp only [fresh_mk, List.map_map]
    congr 1
    exact List.map_congr_left ih

theorem replaceNode_fresh (E : Sed) (x v : Node) : (replaceNode E x v).fresh = replaceNode E x.fresh v := by
  unfold replaceNode
  simp only [fresh_mk, fresh_hd, fresh_content]
  congr 1
  · unfold mergeComments formatVals valueAndKey
    simp only
    split
    · rfl
    · split
      · rfl
      · split <;> rfl
  · rw [List.map_map]
    exact List.map_congr_left (fun c _ => fresh_fresh c)

end Yot
