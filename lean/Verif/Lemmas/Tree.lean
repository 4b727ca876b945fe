import Verif.Lemmas.Format
import Verif.Model.Actions
import Verif.Spec.Tree
namespace Yot
open Spec

theorem AllNodess_iff (p : Hdr → Prop) (cs : List Node) :
    AllNodess p cs ↔ ∀ c ∈ cs, AllNodes p c := by
  induction cs with
  | nil => simp [AllNodess]
  | cons c cs ih => simp [AllNodess, ih]

theorem AllNodes_mono {p q : Hdr → Prop} (h : ∀ x, p x → q x) (n : Node) :
    AllNodes p n → AllNodes q n := by
  induction n using Node.ind with
  | h hd cs ih =>
    simp only [AllNodes, AllNodess_iff]
    exact fun ⟨h1, h2⟩ => ⟨h _ h1, fun c hc => ih c hc (h2 c hc)⟩

theorem freshs_eq_map (cs : List Node) : Node.freshs cs = cs.map Node.fresh := by
  induction cs with
  | nil => rfl
  | cons c cs ih => simp [Node.freshs, ih]

theorem sanitizeNodes_eq_map (E : Sed) (cs : List Node) :
    sanitizeNodes E cs = cs.map (sanitizeNode E) := by
  induction cs with
  | nil => rfl
  | cons c cs ih => simp [sanitizeNodes, ih]

theorem mapStringss_eq_map (f : Str → Str) (cs : List Node) :
    mapStringss f cs = cs.map (mapStrings f) := by
  induction cs with
  | nil => rfl
  | cons c cs ih => simp [mapStringss, ih]

theorem fresh_eq_copyOf (n : Node) : n.fresh = copyOf n := by
  induction n using Node.ind with
  | h hd cs ih =>
    simp only [Node.fresh, copyOf, mapStrings, freshs_eq_map, mapStringss_eq_map, id]
    congr 1
    exact List.map_congr_left (fun c hc => ih c hc)

/-- Deep copy and sanitizing together rewrite the strings of the whole tree. -/
theorem sanitize_fresh_eq (E : Sed) (f : Str → Str) (n : Node)
    (h : AllNodes (OnStrings (fun s => format E s {} = f s)) n) :
    sanitizeNode E n.fresh = mapStrings f n := by
  induction n using Node.ind with
  | h hd cs ih =>
    obtain ⟨⟨h1, h2, h3, h4⟩, h5⟩ := h
    rw [AllNodess_iff] at h5
    simp only [Node.fresh, sanitizeNode, mapStrings, freshs_eq_map, mapStringss_eq_map,
      sanitizeNodes_eq_map, sanitizeHdr, h1, h2, h3, h4, List.map_map]
    congr 1
    exact List.map_congr_left (fun c hc => ih c hc (h5 c hc))

theorem sanitize_fresh_list (E : Sed) (f : Str → Str) (ns : List Node)
    (h : ∀ n ∈ ns, AllNodes (OnStrings (fun s => format E s {} = f s)) n) :
    sanitizeNodes E (Node.freshs ns) = ns.map (mapStrings f) := by
  rw [sanitizeNodes_eq_map, freshs_eq_map, List.map_map]
  exact List.map_congr_left (fun c hc => sanitize_fresh_eq E f c (h c hc))

/-- Marker-free trees are inserted as exact copies. -/
theorem sanitize_fresh_noMarker (E : Sed) (n : Node)
    (h : AllNodes (OnStrings NoMarker) n) : sanitizeNode E n.fresh = copyOf n := by
  refine sanitize_fresh_eq E id n (AllNodes_mono ?_ n h)
  rintro x ⟨h1, h2, h3, h4⟩
  exact ⟨format_id E _ h1, format_id E _ h2, format_id E _ h3, format_id E _ h4⟩

theorem merge_scalar (E : Sed) (o : Node) (vals : List Str) {nh : Hdr} {ncs : List Node}
    (hn : nh.kind = .scalar) :
    merge E o vals (.mk nh ncs) =
      .ok (.mk { (mergeScalar E o nh vals).hd with tag := nh.tag } (mergeScalar E o nh vals).content) := by
  rw [merge.eq_def]; simp only [hn]

theorem merge_zero (E : Sed) (o : Node) (vals : List Str) {nh : Hdr} {ncs : List Node}
    (hn : nh.kind = .zero) :
    merge E o vals (.mk nh ncs) = .ok (.mk { o.hd with tag := nh.tag } o.content) := by
  rw [merge.eq_def]; simp only [hn]

theorem merge_alias (E : Sed) (o : Node) (vals : List Str) {nh : Hdr} {ncs : List Node}
    (hn : nh.kind = .alias) :
    merge E o vals (.mk nh ncs) = .err .mergeUnsupportedType := by
  rw [merge.eq_def]; simp only [hn]

theorem merge_sequence (E : Sed) (o : Node) (vals : List Str) {nh : Hdr} {ncs : List Node}
    (hn : nh.kind = .sequence) :
    merge E o vals (.mk nh ncs) = .ok (mergeArray E o (.mk nh ncs)) := by
  rw [merge.eq_def]; simp only [hn]

theorem merge_mapping (E : Sed) (o : Node) (vals : List Str) {nh : Hdr} {ncs : List Node}
    (hn : nh.kind = .mapping) :
    merge E o vals (.mk nh ncs) = mergeEntries E o ncs := by
  rw [merge.eq_def]; simp only [hn]

theorem merge_document (E : Sed) (o : Node) (vals : List Str) {nh : Hdr} {ncs : List Node}
    (hn : nh.kind = .document) :
    merge E o vals (.mk nh ncs) =
      if o.contentIsNil || (nh.nilc && ncs.isEmpty) then .ok o
      else match o.content, ncs with
        | oc :: ocs, nc :: _ =>
          merge E oc [o.hd.value] nc >>= fun oc' =>
            .ok (.mk (mergeComments E o.hd nh [o.hd.value]) (oc' :: ocs))
        | _, _ => .panic := by
  rw [merge.eq_def]; simp only [hn]
  rfl

/-- Induction over alternating keys and values. -/
theorem pairInduction {α : Type} {P : List α → Prop} (h0 : P []) (h1 : ∀ a, P [a])
    (h2 : ∀ a b l, P l → P (a :: b :: l)) : ∀ l, P l
  | [] => h0
  | [a] => h1 a
  | a :: b :: l => h2 a b l (pairInduction h0 h1 h2 l)

/-- The inner loop when the key is absent. -/
theorem mergeInner_absent (E : Sed) (f : Node → Str → Res Err Node) (nk : Hdr) (cs : List Node)
    (hk : NoMarker nk.value) (hne : ∀ c ∈ cs, c.hd.value ≠ nk.value) :
    mergeInner E f nk cs = .ok (cs, false) := by
  have hmk := (checkForMarkers_iff _).2 hk
  induction cs using pairInduction with
  | h0 => rfl
  | h1 c => rfl
  | h2 a b cs ih =>
    have ha := hne a (by simp)
    simp [mergeInner, hmk, ha, ih (fun c hc => hne c (by simp [hc]))]

end Yot
