import Verif.Lemmas.Layers
import Verif.Props.LastWord
/-
C96: merging in layers.
-/
namespace Yot
open Spec Ex

/-- **C96**: two merges in a row are one merge of the second value merged into the first, as far as
data go, unless the first value comes between the target and the second. -/
theorem C96_two_merges (E : Sed) (o n1 n2 : Node) (a b c : Val) (ho : data o = some a) (h1 : data n1 = some b) (h2 : data n2 = some c)
    (hb : b.NoMarkers) (hc : c.NoMarkers) (hbd : b.KeysDistinct) (hcd : c.KeysDistinct) (hbt : Between a b c) :
    ∃ o1 o2 n o', mergeNode E o n1 = .ok o1 ∧ mergeNode E o1 n2 = .ok o2 ∧
      mergeNode E n1 n2 = .ok n ∧ mergeNode E o n = .ok o' ∧ data o2 = data o' ∧ ∃ r, data o' = some r := by
  obtain ⟨o1, e1, d1⟩ := merge_data E n1 o [] a b ho h1 hb
  obtain ⟨o2, e2, d2⟩ := merge_data E n2 o1 [] _ c d1 h2 hc
  obtain ⟨n, e3, d3⟩ := merge_data E n2 n1 [] b c h1 h2 hc
  obtain ⟨o', e4, d4⟩ := merge_data E n o [] a _ ho d3 (noMarkers_deepMerge c b hb hc)
  exact ⟨o1, o2, n, o', e1, e2, e3, e4, by rw [d2, d4, deepMerge_assoc c a b hbd hcd hbt], _, d4⟩

theorem applyAll_kind_two {E : Sed} {dflt : Str} {o1 o2 : Overlay} {d x y : Node} (h1 : applyJob E dflt o1 d = .ok x) (h2 : applyJob E dflt o2 x = .ok y) :
    Spec.applyAll E dflt [o1, o2] d = .ok y := by
  simp only [Spec.applyAll, h1, Res.bind_ok, h2]

/-- **C96**: two merges with the same query can be written as one: what they make of a document is,
as data, what one merge of the combined value makes of it, unless the first value comes between
what is there and the second. -/
theorem C96_two_overlays (E : Sed) (dflt : Str) (ks : List Str) (o1 o2 o : Overlay) (h1 : Spec.At ks o1) (h2 : Spec.At ks o2) (h : Spec.At ks o)
    (q1 : o1.documentQuery = []) (q2 : o2.documentQuery = []) (q : o.documentQuery = [])
    (a1 : o1.action = .merge) (a2 : o2.action = .merge) (a : o.action = .merge)
    (i1 : ¬ Injects dflt o1.onMissing) (i2 : ¬ Injects dflt o2.onMissing) (i : ¬ Injects dflt o.onMissing)
    (b c : Val) (v1 : data o1.value = some b) (v2 : data o2.value = some c) (v : mergeNode E o1.value o2.value = .ok o.value)
    (hb : b.NoMarkers) (hc : c.NoMarkers) (hbd : b.KeysDistinct) (hcd : c.KeysDistinct)
    (d : Node) (hd : d.hd.kind = .document) (hm : ∀ m ∈ findNames ks d, ∃ x, data m = some x ∧ Between x b c) :
    ∃ d2 d', Spec.applyAll E dflt [o1, o2] d = .ok d2 ∧ applyJob E dflt o d = .ok d' ∧ SameData d2 d' := by
  have hdf : d.fresh.hd.kind = .document := by simp [fresh_hd, hd]
  have e1 := applyJob_docEdit E dflt o1 ks h1 q1 d (.inl i1) hd
  have e := applyJob_docEdit E dflt o ks h q d (.inl i) hd
  have toData : ∀ {x y : Node}, x.fresh = y → x.content.map data = y.content.map data := by
    intro x y hxy
    rw [← hxy, fresh_content, List.map_map]
    exact List.map_congr_left (fun n _ => (data_fresh n).symm)
  rcases findNames_cases ks d hd with h0 | ⟨m, h0⟩
  · have hf0 : findNames ks d.fresh = [] := by rw [findNames_fresh, h0]; rfl
    rw [docEdit_none _ ks _ hdf hf0] at e1 e
    obtain ⟨x, hx, hxf⟩ := applyJob_of_freshRes e1
    obtain ⟨z, hz, hzf⟩ := applyJob_of_freshRes e
    have hxk : x.hd.kind = .document := by have := congrArg (fun n => n.hd.kind) hxf; simpa [fresh_hd, hd] using this
    have e2 := applyJob_docEdit E dflt o2 ks h2 q2 x (.inl i2) hxk
    have hx0 : findNames ks x.fresh = [] := by rw [hxf, hf0]
    rw [docEdit_none _ ks _ (by simp [fresh_hd, hxk]) hx0] at e2
    obtain ⟨y, hy, hyf⟩ := applyJob_of_freshRes e2
    have hyk : y.hd.kind = .document := by have := congrArg (fun n => n.hd.kind) hyf; simpa [fresh_hd, hxk] using this
    have hzk : z.hd.kind = .document := by have := congrArg (fun n => n.hd.kind) hzf; simpa [fresh_hd, hd] using this
    exact ⟨y, z, applyAll_kind_two hx hy, hz, hyk, hzk, by rw [toData (hyf.trans hxf), toData hzf]⟩
  · obtain ⟨va, hva, hbt⟩ := hm m (by simp [h0])
    have hvaf : data m.fresh = some va := by rw [data_fresh]; exact hva
    obtain ⟨m1, m2, n, m3, g1, g2, g3, g4, g5, _⟩ := C96_two_merges E m.fresh o1.value o2.value va b c hvaf v1 v2 hb hc hbd hcd hbt
    rw [v] at g3
    cases g3
    have act_merge : ∀ (o : Overlay) (n n' : Node), o.action = .merge → mergeNode E n o.value = .ok n' → act E o n = .ok (some n') := by
      intro o n n' ha hn
      simp only [act, ha, hn, Res.bind_ok]
    have hf0 : findNames ks d.fresh = [m.fresh] := by rw [findNames_fresh, h0]; rfl
    rcases hdd : d.fresh with ⟨dh, cs⟩
    rw [hdd] at hf0 hdf
    have hdk : dh.kind = .document := hdf
    cases cs with
    | nil => rw [findNames_empty (by exact hdf)] at hf0; cases hf0
    | cons ch rest =>
      rw [findNames_mk (by exact hdf)] at hf0
      obtain ⟨x, y, z, p1, p2, p3, p4⟩ := editPath_data (f := act E o1) (g := act E o2) (h := act E o) ks ch m.fresh m1 m2 m3 hf0
        (act_merge o1 _ _ a1 g1) (act_merge o2 _ _ a2 g2) (act_merge o _ _ a g4) g5
      rw [hdd] at e1 e
      simp only [docEdit, Node.content_mk, p1, p3, Res.bind_ok] at e1 e
      obtain ⟨dx, hx, hxf⟩ := applyJob_of_freshRes e1
      obtain ⟨dz, hz, hzf⟩ := applyJob_of_freshRes e
      have hxk : dx.hd.kind = .document := by have := congrArg (fun n => n.hd.kind) hxf; simpa [fresh_hd, hdk] using this
      have e2 := applyJob_docEdit E dflt o2 ks h2 q2 dx (.inl i2) hxk
      rw [hxf] at e2
      simp only [docEdit, Node.content_mk, p2, Res.bind_ok] at e2
      obtain ⟨dy, hy, hyf⟩ := applyJob_of_freshRes e2
      have hyk : dy.hd.kind = .document := by have := congrArg (fun n => n.hd.kind) hyf; simpa [fresh_hd, hdk] using this
      have hzk : dz.hd.kind = .document := by have := congrArg (fun n => n.hd.kind) hzf; simpa [fresh_hd, hdk] using this
      refine ⟨dy, dz, applyAll_kind_two hx hy, hz, hyk, hzk, ?_⟩
      rw [toData hyf, toData hzf]
      simp [p4]

/-- **C96**: two values files given one after the other can be merged beforehand: the values are
the same, unless the first of the two comes between the earlier files and the second. -/
theorem C96_values_files (E : Sed) (d : Node) (a : Val) (hd : HoldsValues d a) (pre post : List Node) (ps qs : List Val)
    (hpre : List.Forall₂ (fun d v => HoldsValues d v ∧ v.NoMarkers) pre ps) (hpost : List.Forall₂ (fun d v => HoldsValues d v ∧ v.NoMarkers) post qs)
    (d1 d2 d12 : Node) (b c : Val) (h1 : HoldsValues d1 b) (h2 : HoldsValues d2 c) (h12 : HoldsValues d12 (deepMerge b c))
    (hb : b.NoMarkers) (hc : c.NoMarkers) (hbd : b.KeysDistinct) (hcd : c.KeysDistinct) (hbt : Between (ps.foldl deepMerge a) b c) :
    ∃ r r' v, getValues E (d :: (pre ++ d1 :: d2 :: post)) = .ok (some r) ∧ getValues E (d :: (pre ++ d12 :: post)) = .ok (some r') ∧
      HoldsValues r v ∧ HoldsValues r' v := by
  obtain ⟨r, e1, v1⟩ := C45_deep_merge_partial E d a (pre ++ d1 :: d2 :: post) (ps ++ b :: c :: qs) hd
    (List.rel_append hpre (.cons ⟨h1, hb⟩ (.cons ⟨h2, hc⟩ hpost)))
  obtain ⟨r', e2, v2⟩ := C45_deep_merge_partial E d a (pre ++ d12 :: post) (ps ++ deepMerge b c :: qs) hd
    (List.rel_append hpre (.cons ⟨h12, noMarkers_deepMerge c b hb hc⟩ hpost))
  refine ⟨r, r', _, e1, e2, v1, ?_⟩
  rw [List.foldl_append, List.foldl_cons] at v2
  rw [List.foldl_append, List.foldl_cons, List.foldl_cons, deepMerge_assoc c _ b hbd hcd hbt]
  exact v2

/-- C96: a value that comes between makes a difference: the list `[1]`, then a text, then the list
`[2]` gives `[2]`; but the text with the list merged into it is `[2]`, which is appended. -/
theorem C96_between_counts :
    let s (t : Str) := Val.scalar c!"!!int" t
    let a := Val.seq c!"!!seq" [s c!"1"]
    let b := s c!"0"
    let c := Val.seq c!"!!seq" [s c!"2"]
    ¬ Between a b c ∧ deepMerge (deepMerge a b) c = .seq c!"!!seq" [s c!"2"] ∧
      deepMerge a (deepMerge b c) = .seq c!"!!seq" [s c!"1", s c!"2"] := by
  refine ⟨?_, rfl, rfl⟩
  simp [Between, Val.IsSeq, Val.AsksNothing]

example :
    let o := mp [sc c!"a", sc c!"1", sc c!"s", sq [sc c!"x"]]
    let n1 := mp [sc c!"s", sq [sc c!"y"], sc c!"m", mp [sc c!"k", sc c!"v"]]
    let n2 := mp [sc c!"m", mp [sc c!"l", sc c!"w"], sc c!"s", sq [sc c!"z"], sc c!"a", sc c!"2"]
    ∃ a b c, data o = some a ∧ data n1 = some b ∧ data n2 = some c ∧ b.NoMarkers ∧ c.NoMarkers ∧ b.KeysDistinct ∧ c.KeysDistinct ∧ Between a b c := by
  refine ⟨_, _, _, rfl, rfl, rfl, ?_, ?_, ?_, ?_, ?_⟩
  · simp only [Val.NoMarkers, NoMarkersL, NoMarkersE]; decide
  · simp only [Val.NoMarkers, NoMarkersL, NoMarkersE]; decide
  · simp [Val.KeysDistinct, KeysDistinctE, KeysDistinctL]; decide
  · simp [Val.KeysDistinct, KeysDistinctE, KeysDistinctL]; decide
  · simp [Between, BetweenE, Val.IsMap, Val.IsSeq, Val.at, lookup]
    intro x y hx
    rw [if_neg (by decide), if_neg (by decide)] at hx
    cases hx

end Yot
