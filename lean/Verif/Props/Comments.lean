import Verif.Props.Markers
import Verif.Props.Merge
import Verif.Lemmas.Comments
/-
C09 (and C06) for entries of mappings, documents and whole overlays.
-/
namespace Yot
open Spec Ex

theorem commentsKept (E : Sed) (o n : Hdr) (vals : List Str)
    (hm : NoMarker n.head ∧ NoMarker n.line ∧ NoMarker n.foot) : CommentsKept o n (mergeComments E o n vals) :=
  mergeComments_spec E o n vals hm.1 hm.2.1 hm.2.2

/-- Merging one plain entry into a mapping that has its key: that entry is edited, the
others stay. -/
theorem merge_entry_at (E : Sed) (o o' nk nv k v : Node) (nh : Hdr) (pre post : List Node)
    (hn : nh.kind = .mapping) (ho : o.kind = .mapping) (hoc : o.content = pre ++ k :: v :: post)
    (hev : pre.length % 2 = 0) (hpre : nk.hd.value ∉ keys pre) (hk : k.hd.value = nk.hd.value)
    (hmk : NoMarker nk.hd.value) (h : mergeNode E o (.mk nh [nk, nv]) = .ok o') :
    ∃ v', merge E v [k.hd.value] nv = .ok v' ∧ o'.hd = o.hd ∧
      o'.content = pre ++ .mk (mergeComments E k.hd nk.hd [v.hd.value, k.hd.value]) k.content :: v' :: post := by
  have hc := (checkForMarkers_iff _).2 hmk
  rw [mergeNode, merge_mapping E o [] hn] at h
  have hto : toMapping o = o := by simp only [toMapping]; rw [if_neg]; simpa using ho
  simp only [mergeEntries, hto, Res.bind_eq_ok] at h
  obtain ⟨⟨cs', b⟩, hi, h⟩ := h
  rw [hoc] at hi
  have key : ∀ pre : List Node, pre.length % 2 = 0 → nk.hd.value ∉ keys pre → ∀ cs' b,
      mergeInner E (fun x key => merge E x [key] nv) nk.hd (pre ++ k :: v :: post) = .ok (cs', b) →
      b = true ∧ ∃ v', merge E v [k.hd.value] nv = .ok v' ∧
        cs' = pre ++ .mk (mergeComments E k.hd nk.hd [v.hd.value, k.hd.value]) k.content :: v' :: post := by
    intro pre
    induction pre using pairInduction with
    | h0 =>
      intro _ _ cs' b hi
      rw [List.nil_append, mergeInner] at hi
      simp only [hc, Bool.not_false, Bool.true_and, hk, ne_eq, not_true_eq_false, decide_false,
        Bool.false_eq_true, if_false, if_true, Res.bind_eq_ok, Res.pure_eq, Res.ok.injEq, Prod.mk.injEq] at hi
      obtain ⟨v', h1, rfl, rfl⟩ := hi
      exact ⟨rfl, v', by rw [hk]; exact h1, by rw [hk]; rfl⟩
    | h1 a => intro hl; simp at hl
    | h2 a c pre ih =>
      intro hl hnk cs' b hi
      have hl' : pre.length % 2 = 0 := by simp only [List.length_cons] at hl; omega
      have hnk' : ¬ a.hd.value = nk.hd.value ∧ nk.hd.value ∉ keys pre := by
        simp only [keys, pairs, List.map_cons, List.mem_cons, not_or] at hnk
        exact ⟨fun e => hnk.1 e.symm, hnk.2⟩
      rw [List.cons_append, List.cons_append, mergeInner] at hi
      simp only [hc, Bool.not_false, Bool.true_and, ne_eq, hnk'.1, not_false_eq_true, decide_true, if_true,
        Res.bind_eq_ok, Res.pure_eq, Res.ok.injEq, Prod.mk.injEq] at hi
      obtain ⟨⟨r, b'⟩, hr, h1, h2⟩ := hi
      obtain ⟨rfl, v', hv', hrr⟩ := ih hl' hnk'.2 r b' hr
      refine ⟨h2.symm, v', hv', ?_⟩
      rw [← h1]
      simp only [hrr, List.cons_append]
  obtain ⟨rfl, v', hv', rfl⟩ := key pre hev hpre cs' b hi
  simp only [mergeEntries, if_true, Res.ok.injEq] at h
  subst h
  exact ⟨v', hv', rfl, rfl⟩

/-- C09 (partial), the key of an entry that the overlay merges into. -/
theorem C09_merge_key_partial (E : Sed) (o o' nk nv k v : Node) (nh : Hdr) (pre post : List Node)
    (hn : nh.kind = .mapping) (ho : o.kind = .mapping) (hoc : o.content = pre ++ k :: v :: post)
    (hev : pre.length % 2 = 0) (hpre : nk.hd.value ∉ keys pre) (hk : k.hd.value = nk.hd.value)
    (hmk : NoMarker nk.hd.value)
    (hm : NoMarker nk.hd.head ∧ NoMarker nk.hd.line ∧ NoMarker nk.hd.foot)
    (h : mergeNode E o (.mk nh [nk, nv]) = .ok o') :
    ∃ k' v', o'.content = pre ++ k' :: v' :: post ∧ k'.content = k.content ∧ k'.hd.value = k.hd.value ∧
      CommentsKept k.hd nk.hd k'.hd := by
  obtain ⟨v', _, _, h2⟩ := merge_entry_at E o o' nk nv k v nh pre post hn ho hoc hev hpre hk hmk h
  exact ⟨_, v', h2, rfl, (mergeComments_kind E k.hd nk.hd _).2.1.trans rfl, commentsKept E _ _ _ hm⟩

/-- C09 (partial), the value of such an entry, if the overlay has a scalar there. -/
theorem C09_merge_value_partial (E : Sed) (o o' nk nv k v : Node) (nh : Hdr) (pre post : List Node)
    (hn : nh.kind = .mapping) (ho : o.kind = .mapping) (hoc : o.content = pre ++ k :: v :: post)
    (hev : pre.length % 2 = 0) (hpre : nk.hd.value ∉ keys pre) (hk : k.hd.value = nk.hd.value)
    (hmk : NoMarker nk.hd.value) (hnv : nv.kind = .scalar)
    (hm : NoMarker nv.hd.head ∧ NoMarker nv.hd.line ∧ NoMarker nv.hd.foot)
    (h : mergeNode E o (.mk nh [nk, nv]) = .ok o') :
    ∃ k' v', o'.content = pre ++ k' :: v' :: post ∧ CommentsKept v.hd nv.hd v'.hd := by
  obtain ⟨v', h1, _, h2⟩ := merge_entry_at E o o' nk nv k v nh pre post hn ho hoc hev hpre hk hmk h
  exact ⟨_, v', h2, C09_merge_scalar_partial E v nv v' _ hnv hm h1⟩

/-- C06 (partial) for an entry of a mapping: the markers in the overlay's scalar are
replaced by the texts of the entry it is merged into, `%k` by its key. Provisos as
for `C06_exact_partial`. -/
theorem C06_entry_partial (E : Sed) (o o' nk nv k v : Node) (nh : Hdr) (pre post : List Node)
    (hn : nh.kind = .mapping) (ho : o.kind = .mapping) (hoc : o.content = pre ++ k :: v :: post)
    (hev : pre.length % 2 = 0) (hpre : nk.hd.value ∉ keys pre) (hk : k.hd.value = nk.hd.value)
    (hmk : NoMarker nk.hd.value) (hnv : nv.kind = .scalar)
    (hs : Safe (fun l => bare (originals v.hd.value k.hd.value v.hd.line v.hd.head v.hd.foot l))
      (sedResult E.compile E.run) (parse nv.hd.value))
    (h : mergeNode E o (.mk nh [nk, nv]) = .ok o') :
    ∃ k' v', o'.content = pre ++ k' :: v' :: post ∧
      v'.hd.value = meaning (fun l => bare (originals v.hd.value k.hd.value v.hd.line v.hd.head v.hd.foot l))
        (sedResult E.compile E.run) (parse nv.hd.value) := by
  obtain ⟨v', h1, _, h2⟩ := merge_entry_at E o o' nk nv k v nh pre post hn ho hoc hev hpre hk hmk h
  exact ⟨_, v', h2, C06_exact_partial E v nv v' [k.hd.value] (by simp) hnv hs h1⟩

/-- C09: the comments of a mapping itself always survive a merge of a mapping. -/
theorem C09_merge_mapping (E : Sed) (o n o' : Node) (hn : n.kind = .mapping) (h : mergeNode E o n = .ok o') :
    o'.hd.head = o.hd.head ∧ o'.hd.line = o.hd.line ∧ o'.hd.foot = o.hd.foot := by
  obtain ⟨nh, ncs⟩ := n
  replace hn : nh.kind = .mapping := hn
  rw [mergeNode, merge_mapping E o [] hn] at h
  induction ncs using pairInduction generalizing o with
  | h0 => simp only [mergeEntries, Res.ok.injEq] at h; subst h; exact ⟨rfl, rfl, rfl⟩
  | h1 a => simp only [mergeEntries, Res.ok.injEq] at h; subst h; exact ⟨rfl, rfl, rfl⟩
  | h2 k v cs ih =>
    simp only [mergeEntries, Res.bind_eq_ok] at h
    obtain ⟨⟨cs', b⟩, _, h⟩ := h
    have := ih _ h
    have ht : (toMapping o).hd.head = o.hd.head ∧ (toMapping o).hd.line = o.hd.line ∧ (toMapping o).hd.foot = o.hd.foot := by
      unfold toMapping; split <;> simp
    cases b <;> simpa [addNode, appendContent, ht] using this

/-- C09 (partial), two documents (as in values files and injected paths): the comments
of the document node. -/
theorem C09_merge_document_partial (E : Sed) (o n o' : Node) (hn : n.kind = .document)
    (hoc : o.content ≠ []) (hnc : n.content ≠ [])
    (hm : NoMarker n.hd.head ∧ NoMarker n.hd.line ∧ NoMarker n.hd.foot)
    (h : mergeNode E o n = .ok o') : CommentsKept o.hd n.hd o'.hd := by
  obtain ⟨nh, ncs⟩ := n
  obtain ⟨oh, ocs⟩ := o
  simp only [Node.content_mk] at hoc hnc
  replace hn : nh.kind = .document := hn
  rw [mergeNode, merge_document E _ [] hn] at h
  cases ocs with
  | nil => exact absurd rfl hoc
  | cons oc ocs =>
    cases ncs with
    | nil => exact absurd rfl hnc
    | cons nc ncs =>
      simp only [Node.contentIsNil, Node.hd_mk, Node.content_mk, List.isEmpty_cons, Bool.and_false, Bool.or_self,
        Bool.false_eq_true, if_false, Res.bind_eq_ok, Res.ok.injEq] at h
      obtain ⟨oc', _, rfl⟩ := h
      exact commentsKept E oh nh _ hm

/-! ### Whole overlays -/

theorem keeps_of {α : Type} (f : Hdr → α) (E : Sed) (ok : Hdr → Prop)
    (hf : ∀ h h' : Hdr, h.head = h'.head → h.line = h'.line → h.foot = h'.foot → f h = f h')
    (hok : ∀ h n vals, ok n → f (mergeComments E h n vals) = f h)
    (hno : ∀ h : Hdr, ok h → ok { h with addr := 0 }) (o : Overlay) (hv : AllNodes ok o.value)
    (root root' : Node) (nodes : List Node) (h : doAction E o root nodes = .ok root') : Keeps f root root' := by
  have S : Steady E ok (fun h' => h'.addr ≠ 0 → ∃ h ∈ headers root, h.addr = h'.addr ∧ f h = f h') := by
    refine ⟨?_, ?_, fun h h0 hn => absurd h0 hn⟩
    · intro h h' hp ha h1 h2 h3
      rw [← ha, ← hf h h' h1 h2 h3]
      exact hp
    · intro h n vals hn hp
      rw [hok h n vals hn, (mergeComments_kind E h n vals).2.2.2.2.2.1]
      exact hp
  have := doAction_steady S hno o hv root root' nodes ?_ h
  · rw [allNodes_headers] at this; exact this
  · rw [allNodes_headers]
    exact fun h hh _ => ⟨h, hh, rfl, rfl⟩

/-- **C09**: if the overlay's value has no comments, then whatever the action, every
node that stays in the document keeps its three comments. -/
theorem C09_commentless_overlay (E : Sed) (o : Overlay)
    (hv : AllNodes (fun h => h.head = [] ∧ h.line = [] ∧ h.foot = []) o.value)
    (root root' : Node) (nodes : List Node) (h : doAction E o root nodes = .ok root') :
    Keeps (fun h => (h.head, h.line, h.foot)) root root' := by
  refine keeps_of _ E _ (fun h h' h1 h2 h3 => by simp [h1, h2, h3]) ?_ (fun h hh => hh) o hv root root' nodes h
  intro h n vals ⟨h1, h2, h3⟩
  simp [mergeComments, h1, h2, h3]

/-- **C09**: head comments stay if the overlay has none. -/
theorem C09_head_comments (E : Sed) (o : Overlay) (hv : AllNodes (fun h => h.head = []) o.value)
    (root root' : Node) (nodes : List Node) (h : doAction E o root nodes = .ok root') :
    Keeps (fun h => h.head) root root' := by
  refine keeps_of _ E _ (fun h h' h1 _ _ => h1) ?_ (fun h hh => hh) o hv root root' nodes h
  intro h n vals h1
  unfold mergeComments
  simp only [h1, ne_eq, not_true_eq_false, if_false]
  split
  · rfl
  · split <;> rfl

/-- C09 (partial): line comments stay if the overlay has none, and no head comments. -/
theorem C09_line_comments_partial (E : Sed) (o : Overlay) (hv : AllNodes (fun h => h.head = [] ∧ h.line = []) o.value)
    (root root' : Node) (nodes : List Node) (h : doAction E o root nodes = .ok root') :
    Keeps (fun h => h.line) root root' := by
  refine keeps_of _ E _ (fun h h' _ h2 _ => h2) ?_ (fun h hh => hh) o hv root root' nodes h
  intro h n vals ⟨h1, h2⟩
  unfold mergeComments
  simp only [h1, h2, ne_eq, not_true_eq_false, if_false]
  split <;> rfl

/-- The hypotheses of the theorems above, on a mapping with comments. -/
example :
    let d := dc (mp [sc c!"a", .mk { kind := .scalar, value := c!"1", line := c!"# one" } [],
      .mk { kind := .scalar, value := c!"b", head := c!"# head" } [], sc c!"2"])
    let o : Overlay := { query := [⟨c!"$", fun n => n.content⟩], value := mp [sc c!"b", sc c!"3"], action := .merge }
    AllNodes (fun h => h.head = [] ∧ h.line = [] ∧ h.foot = []) o.value ∧
    (match apply noSed [] o d.label with
      | .ok r => (headers r).map (fun h => (h.addr, h.head, h.line))
      | _ => []) = (headers d.label).map (fun h => (h.addr, h.head, h.line)) ∧
    ((headers d.label).filter (fun h => h.head ≠ [] ∨ h.line ≠ [])).length = 2 := by
  refine ⟨?_, ?_, ?_⟩
  · simp [AllNodes, AllNodess, mp, sc]
  · decide
  · decide

example :
    let o := mp [sc c!"x", sc c!"0", .mk { kind := .scalar, value := c!"a", line := c!"# keep" } [], sc c!"1"]
    (match mergeNode noSed o (mp [sc c!"a", sc c!"%k=%v"]) with
      | .ok r => (r.content.map (fun c => (c.hd.value, c.hd.line)))
      | _ => []) = [(c!"x", []), (c!"0", []), (c!"a", c!"# keep"), (c!"a=1", [])] := by decide

end Yot
