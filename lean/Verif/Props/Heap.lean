import Verif.Lemmas.HeapSafe
/-
C52, C53: the edits in memory.

Proved for all memories, documents and overlay values; the document and the value
are trees in memory that share no cell (`Apart`).
-/
namespace Yot
open Spec HM

theorem Impl.does {x : Nat → HM Unit} {h : Heap} {t : Node} {r : Res Err Node}
    (i : Impl x h t r (fun b t' _ => forget h.next t' = b)) : Does x h t r := by
  cases r with
  | ok b =>
    obtain ⟨h', t', G, _, e, u, p⟩ := i
    exact ⟨h', t', e, u.frame, (forest_cons.1 u.forest).1, u.root,
      fun a ha => u.sub a (by rw [Node.addrss]; simp [ha]), p⟩
  | err e => exact i
  | panic => exact i

theorem forget_live {h : Heap} {t : Node} (f : Forest h [t]) : forget h.next t = t :=
  forget_old t (fun a ha => (f.live a (by rwa [addrss_single])).2)

/-! ### C53 -/

/-- Merging in memory is merging of trees. -/
theorem C53_merge (E : Sed) (h : Heap) (o n : Node) (vals : List Str) (a : Apart h o n) (wf : WellFormed n) :
    Does (fun k => mergeH E k o.hd.addr n.hd.addr vals) h o (merge E o vals n) := by
  have := (mergeImpl E n wf h.next h o vals a (Nat.le_refl _)).does
  rwa [forget_live a.doc] at this

/-- Replacing in memory is replacing of trees. -/
theorem C53_replace (E : Sed) (h : Heap) (o n : Node) (a : Apart h o n) :
    Does (fun k => replaceH E k o.hd.addr n.hd.addr) h o (.ok (replaceNode E o n)) := by
  have := (replaceH_impl E a (Nat.le_refl h.next)).does
  rwa [forget_live a.doc] at this

/-- Combining in memory is combining of trees. -/
theorem C53_combine (E : Sed) (h : Heap) (o n : Node) (a : Apart h o n) :
    Does (fun _ => combineH E o.hd.addr n.hd.addr) h o (combineNode E o n) := by
  have := (combineH_impl E (base := h.next) a).does
  rwa [forget_live a.doc] at this

/-- Deleting the node a pointer points to in memory is deleting of trees. -/
theorem C53_delete (h : Heap) (t : Node) (f : Forest h [t]) (p : Nat) (hp : 0 < p ∧ p < h.next) :
    Does (fun k => deleteH k t.hd.addr p) h t (deleteNode p t) := by
  have := (deleteH_impl (by omega) hp.2 t h f (Nat.le_refl _)).does
  rwa [forget_live f] at this

theorem Rewrites.does {op : Nat → Nat → HM Unit} {f : Node → Node} {t : Node} (r : Rewrites op f t)
    (hf : (f t).addrs = t.addrs) (h : Heap) (fo : Forest h [t]) : Does (fun k => op k t.hd.addr) h t (.ok (f t)) := by
  obtain ⟨h', e, i, g⟩ := r h fo
  refine ⟨h', f t, e, i.untouched, g, ?_, fun a ha => .inl (hf ▸ ha), ?_⟩
  · obtain ⟨a, b⟩ := t
    generalize hx : f (Node.mk a b) = x at *
    cases x
    rw [addrs_mk, addrs_mk] at hf
    exact (List.cons.inj hf).1
  · exact forget_old _ (fun a ha => (fo.live a (by rw [addrss_single, ← hf]; exact ha)).2)

/-- Comment removal in memory. -/
theorem C53_remove_comments (h : Heap) (t : Node) (f : Forest h [t]) :
    Does (fun k => removeCommentsH k t.hd.addr) h t (.ok (removeComments t)) := by
  refine (removeCommentsH_spec t).does ?_ h f
  obtain ⟨hd, cs⟩ := t
  rw [removeComments_mk, addrs_mk, addrs_mk, (addr_of_addrs stripped_addrs cs).2]

/-- The output style in memory. -/
theorem C53_set_style (s : Nat) (h : Heap) (t : Node) (f : Forest h [t]) :
    Does (fun k => setStyleH s k t.hd.addr) h t (.ok (setStyle s t)) :=
  (setStyleH_spec s t).does (setStyle_addrs s t) h f

/-- Sanitizing (format.go:21-38) in memory. -/
theorem C53_sanitize (E : Sed) (h : Heap) (t : Node) (f : Forest h [t]) (wf : WellFormed t) :
    Does (fun k => sanitizeH E k t.hd.addr) h t (.ok (sanitizeNode E t)) :=
  (sanitizeH_spec E t wf).does (sanitize_addrs E t) h f

theorem foldlM_map_addr (E : Sed) (o : Overlay) (ms : List Node) (t : Node) :
    (ms.map (fun m => m.hd.addr)).foldlM (fun r p => doOne E o r p) t = doAction E o t ms := by
  unfold doAction
  induction ms generalizing t with
  | nil => rfl
  | cons m ms ih =>
    rw [List.map_cons, List.foldlM_cons, List.foldlM_cons]
    cases doOne E o t m.hd.addr with
    | ok t' => exact ih t'
    | err e => rfl
    | panic => rfl

theorem doActionH_spec (E : Sed) (o : Overlay) {h : Heap} {t : Node} (a : Apart h t o.value) (wf : WellFormed o.value)
    (ms : List Node) (hm : InDoc t ms) :
    ∃ r h', Ends (fun k => doActionH E k o.action t.hd.addr o.value.hd.addr (ms.map (fun m => m.hd.addr))) h r h' ∧ r ≠ .stuck ∧
      Untouched h h' t.addrs ∧
      (r = .ok () → ∃ t' G, Upd h h' t t' G ∧ doAction E o t ms = .ok (forget h.next t')) ∧
      ((o.action = .delete ∨ NeverFails E o ∨ Attached E o t (ms.map (fun m => m.hd.addr))) → failsAs r (doAction E o t ms)) := by
  obtain ⟨r, h', e, n, k, s, f⟩ := doAction_from E o a wf (ms.map (fun m => m.hd.addr)) h t [] (Upd.refl a.doc)
    (fun p hp => by obtain ⟨m, hm', rfl⟩ := List.mem_map.1 hp; exact hm m hm')
  rw [forget_live a.doc, foldlM_map_addr] at s f
  cases r with
  | ok l => exact ⟨.ok (), h', Ends.bind e (Ends.const rfl), by simp, k, fun _ => s l rfl, fun _ => trivial⟩
  | err er => exact ⟨.err er, h', Ends.bind_err e, by simp, k, fun h => by simp at h, f⟩
  | panic => exact ⟨.panic, h', Ends.bind_panic e, by simp, k, fun h => by simp at h, f⟩
  | stuck => exact absurd rfl n


/-- A whole `doAction` in memory is `doAction` on trees: always for delete, replace
and combine; for merge if the overlay's value has no alias (and no document) node, or
no match lies inside another. -/
theorem C53_action (E : Sed) (o : Overlay) (h : Heap) (t : Node) (a : Apart h t o.value) (wf : WellFormed o.value)
    (ms : List Node) (hm : InDoc t ms)
    (hs : o.action = .delete ∨ o.action = .replace ∨ o.action = .combine ∨
      AllNodes (fun hd => hd.kind ≠ .document ∧ hd.kind ≠ .alias) o.value ∨
      Unnested t (ms.map (fun m => m.hd.addr))) :
    Does (fun k => doActionH E k o.action t.hd.addr o.value.hd.addr (ms.map (fun m => m.hd.addr))) h t (doAction E o t ms) := by
  have hps : ∀ p ∈ ms.map (fun m => m.hd.addr), p ∈ t.addrs := fun p hp => by
    obtain ⟨m, hm', rfl⟩ := List.mem_map.1 hp; exact hm m hm'
  have hok : o.action = .delete ∨ NeverFails E o ∨ Attached E o t (ms.map (fun m => m.hd.addr)) := by
    by_cases h1 : o.action = .delete
    · exact .inl h1
    by_cases h2 : o.action = .replace
    · exact .inr (.inl (neverFails_replace h2))
    by_cases h3 : o.action = .combine
    · exact .inr (.inr (attached_combine h3 _ t hps))
    have h4 : o.action = .merge ∨ o.action = .invalid := by
      cases hk : o.action <;> simp_all
    rcases hs with hs | hs | hs | hs | hs
    · exact absurd hs h1
    · exact absurd hs h2
    · exact absurd hs h3
    · exact .inr (.inl (neverFails_merge h4 hs))
    · exact .inr (.inr (attached_unnested h1 _ _ (fun _ h => h) t hs))
  obtain ⟨r, h', e, n, u, s, f⟩ := doActionH_spec E o a wf ms hm
  have f := f hok
  cases r with
  | ok x =>
    obtain ⟨t', G, u', d⟩ := s rfl
    rw [d]
    exact ⟨h', t', e, u, (forest_cons.1 u'.forest).1, u'.root, fun a ha => u'.sub a (by rw [Node.addrss]; simp [ha]), rfl⟩
  | err er => rw [show doAction E o t ms = .err er from f]; exact ⟨h', e, u⟩
  | panic => rw [show doAction E o t ms = .panic from f]; exact ⟨h', e, u⟩
  | stuck => exact absurd rfl n

/-- Whatever the overlay: if `doAction` in memory succeeds then it has done what
`doAction` on trees does. -/
theorem C53_action_success (E : Sed) (o : Overlay) (h h' : Heap) (t : Node) (a : Apart h t o.value) (wf : WellFormed o.value)
    (ms : List Node) (hm : InDoc t ms)
    (hr : Ends (fun k => doActionH E k o.action t.hd.addr o.value.hd.addr (ms.map (fun m => m.hd.addr))) h (.ok ()) h') :
    ∃ t', Forest h' [t'] ∧ t'.hd.addr = t.hd.addr ∧ doAction E o t ms = .ok (forget h.next t') := by
  obtain ⟨r, h'', e, _, _, s, _⟩ := doActionH_spec E o a wf ms hm
  obtain ⟨hr', rfl⟩ := hr.unique e
  obtain ⟨t', G, u', d⟩ := s hr'.symm
  exact ⟨t', (forest_cons.1 u'.forest).1, u'.root, d⟩

/-! ### C52 -/

/-- `doAction` leaves everything in memory but the document as it is, whatever it
does and however it ends: the overlay's value and all other trees are still there.
If it succeeds, the document shares no cell with them. -/
theorem C52_action (E : Sed) (o : Overlay) (h : Heap) (t : Node) (R : List Node) (f : Forest h (t :: o.value :: R))
    (wf : WellFormed o.value) (ms : List Node) (hm : InDoc t ms) :
    ∃ r h', Ends (fun k => doActionH E k o.action t.hd.addr o.value.hd.addr (ms.map (fun m => m.hd.addr))) h r h' ∧
      r ≠ .stuck ∧ Forest h' (o.value :: R) ∧
      (r = .ok () → ∃ t', t'.hd.addr = t.hd.addr ∧ Forest h' (t' :: o.value :: R)) := by
  obtain ⟨f1, f2, f3⟩ := forest_cons.1 f
  obtain ⟨f4, f5, f6⟩ := forest_cons.1 f2
  have a : Apart h t o.value := ⟨f1, f4, fun x hx hy => f3 x hx (by rw [Node.addrss]; simp [hy])⟩
  obtain ⟨r, h', e, n, u, s, _⟩ := doActionH_spec E o a wf ms hm
  refine ⟨r, h', e, n, f2.frame u (fun x hx hy => f3 x hy hx), fun hr => ?_⟩
  obtain ⟨t', G, u', -⟩ := s hr
  obtain ⟨k1, k2⟩ := u'.other f2 f3
  exact ⟨t', u'.root, forest_cons.2 ⟨(forest_cons.1 u'.forest).1, k1, fun x hx => k2 x (by rw [Node.addrss]; simp [hx])⟩⟩

end Yot
