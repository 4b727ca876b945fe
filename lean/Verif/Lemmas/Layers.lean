import Verif.Spec.Layers
import Verif.Lemmas.Merge
import Verif.Props.Output
import Verif.Lemmas.Again
/-
Deep merge is associative.
-/
namespace Yot
open Spec

/-- One entry put into a value. -/
def putOne (a : Val) (k : Key) (v : Val) : Val := .map (asMap a).1 (setKey k v (fun old => deepMerge old v) (asMap a).2)

theorem putAll_cons (a : Val) (k : Key) (v : Val) (es : List (Key × Val)) : putAll a ((k, v) :: es) = putAll (putOne a k v) es := by
  rw [putAll]; rfl

theorem asMap_putOne (a : Val) (k : Key) (v : Val) : asMap (putOne a k v) = ((asMap a).1, setKey k v (fun old => deepMerge old v) (asMap a).2) := rfl

theorem lookup_setKey_ne {k : Key} {t : Str} (h : t ≠ k.text) (new : Val) (f : Val → Val) (es : List (Key × Val)) :
    lookup t (setKey k new f es) = lookup t es := by
  induction es with
  | nil => simp [setKey, lookup, Ne.symm h]
  | cons e es ih =>
    rw [setKey]
    split
    · rename_i he
      simp only [lookup]
      rw [if_neg (by rw [he]; exact Ne.symm h), if_neg (by rw [he]; exact Ne.symm h)]
    · simp only [lookup, ih]

theorem setKey_setKey_same {k k' : Key} (h : k.text = k'.text) (v v' : Val) (f f' : Val → Val) (es : List (Key × Val)) :
    setKey k' v' f' (setKey k v f es) = setKey k (f' v) (fun x => f' (f x)) es := by
  induction es with
  | nil => simp [setKey, h]
  | cons e es ih =>
    rw [setKey, setKey]
    split
    · rename_i he; simp [setKey, he, h]
    · rename_i he
      rw [setKey, if_neg (by rw [← h]; exact he), ih]

theorem setKey_comm {k k' : Key} (h : k.text ≠ k'.text) (v v' : Val) (f f' : Val → Val) (es : List (Key × Val)) (hin : lookup k.text es ≠ none) :
    setKey k v f (setKey k' v' f' es) = setKey k' v' f' (setKey k v f es) := by
  induction es with
  | nil => simp [lookup] at hin
  | cons e es ih =>
    by_cases h1 : e.1.text = k.text
    · have h2 : ¬ e.1.text = k'.text := fun h2 => h (h1.symm.trans h2)
      simp only [setKey, h1, h2, if_true, if_false, if_neg h]
    · rw [lookup, if_neg h1] at hin
      by_cases h2 : e.1.text = k'.text
      · have h3 : ¬ k'.text = k.text := fun h3 => h h3.symm
        simp only [setKey, h2, if_true, if_neg h3]
      · simp only [setKey, h1, h2, if_false, ih hin]

theorem setKey_congr {k : Key} {v : Val} {f f' : Val → Val} {es : List (Key × Val)} (h : ∀ x, lookup k.text es = some x → f x = f' x) :
    setKey k v f es = setKey k v f' es := by
  induction es with
  | nil => rfl
  | cons e es ih =>
    rw [setKey, setKey]
    split
    · rename_i he
      rw [h e.2 (by simp [lookup, he])]
    · rename_i he
      rw [ih (fun x hx => h x (by simpa [lookup, he] using hx))]

theorem at_eq (k : Str) (a : Val) : a.at k = lookup k (asMap a).2 := by cases a <;> rfl

theorem at_putOne_ne {k : Key} {t : Str} (h : t ≠ k.text) (a : Val) (v : Val) : (putOne a k v).at t = a.at t := by
  rw [at_eq, at_eq, asMap_putOne, lookup_setKey_ne h]

theorem putOne_in (a : Val) (k : Key) (v : Val) : (putOne a k v).at k.text ≠ none := by
  rw [at_eq, asMap_putOne]
  generalize (asMap a).2 = es
  induction es with
  | nil => simp [setKey, lookup]
  | cons e es ih =>
    rw [setKey]
    split
    · rename_i he; simp [lookup, he]
    · rename_i he; simpa [lookup, he] using ih

/-- An entry whose key is there already can be put before or after others. -/
theorem putOne_putAll {k : Key} {v : Val} (es : List (Key × Val)) : ∀ a : Val, a.at k.text ≠ none → (∀ e ∈ es, e.1.text ≠ k.text) →
    putOne (putAll a es) k v = putAll (putOne a k v) es := by
  induction es with
  | nil => intro a _ _; rfl
  | cons e es ih =>
    intro a hin hno
    obtain ⟨k', v'⟩ := e
    have hne : k'.text ≠ k.text := hno (k', v') (by simp)
    rw [putAll_cons, putAll_cons, ih _ (by rw [at_putOne_ne (Ne.symm hne)]; exact hin) (fun e he => hno e (by simp [he]))]
    congr 1
    simp only [putOne, show ∀ t es, asMap (Val.map t es) = (t, es) from fun _ _ => rfl]
    rw [setKey_comm (Ne.symm hne) _ _ _ _ _ (by rwa [← at_eq])]

/-- Putting an entry into what is put. -/
theorem putAll_setKey {k : Key} {v : Val} (es : List (Key × Val)) : ∀ a : Val, (es.map (fun e => e.1.text)).Nodup →
    (∀ x y, a.at k.text = some x → lookup k.text es = some y → deepMerge (deepMerge x y) v = deepMerge x (deepMerge y v)) →
    putAll a (setKey k v (fun old => deepMerge old v) es) = putOne (putAll a es) k v := by
  induction es with
  | nil => intro a _ _; rw [setKey, putAll_cons, putAll, putAll]
  | cons e es ih =>
    intro a hnd h
    obtain ⟨k1, y⟩ := e
    simp only [List.map_cons, List.nodup_cons] at hnd
    rw [setKey]
    split
    · rename_i he
      simp only at he
      rw [putAll_cons, putAll_cons]
      rw [putOne_putAll es (putOne a k1 y) (by rw [← he]; exact putOne_in a k1 y) (by
        intro e hein heq
        exact hnd.1 (List.mem_map.2 ⟨e, hein, heq.trans he.symm⟩))]
      congr 1
      rw [putOne, putOne, asMap_putOne, setKey_setKey_same he]
      congr 1
      refine setKey_congr ?_
      intro x hx
      exact (h x y (by rw [at_eq, ← he]; exact hx) (by simp [lookup, he])).symm
    · rename_i he
      simp only at he
      rw [putAll_cons, putAll_cons]
      refine ih (putOne a k1 y) hnd.2 ?_
      intro x z hx hz
      rw [at_putOne_ne (Ne.symm he)] at hx
      exact h x z hx (by simpa [lookup, he] using hz)

theorem not_isMap {a : Val} (h : ¬ a.IsMap) : asMap a = (c!"!!map", []) := by
  cases a <;> simp_all [Val.IsMap, asMap]

theorem setKey_keys {k : Key} {v : Val} {f : Val → Val} {es : List (Key × Val)} (h : (es.map (fun e => e.1.text)).Nodup) :
    ((setKey k v f es).map (fun e => e.1.text)).Nodup := by
  induction es with
  | nil => simp [setKey]
  | cons e es ih =>
    simp only [List.map_cons, List.nodup_cons] at h
    rw [setKey]
    split
    · simpa using h
    · rename_i he
      simp only [List.map_cons, List.nodup_cons]
      refine ⟨?_, ih h.2⟩
      intro hin
      have : ∀ es : List (Key × Val), e.1.text ∈ (setKey k v f es).map (fun e => e.1.text) → e.1.text ∈ es.map (fun e => e.1.text) := by
        intro es
        induction es with
        | nil => simp [setKey, he]
        | cons d ds ihd =>
          rw [setKey]
          split
          · simp
          · simp only [List.map_cons, List.mem_cons]
            exact Or.imp id ihd
      exact h.1 (this es hin)

/-- The keys of the outermost mapping are distinct. -/
def TopDistinct (a : Val) : Prop := ((asMap a).2.map (fun e => e.1.text)).Nodup

theorem topDistinct_putOne {a : Val} (h : TopDistinct a) (k : Key) (v : Val) : TopDistinct (putOne a k v) := by
  unfold TopDistinct; rw [asMap_putOne]; exact setKey_keys h

theorem isMap_putOne (a : Val) (k : Key) (v : Val) : (putOne a k v).IsMap := trivial

/-- One entry put into a value laid over another. -/
theorem deepMerge_putOne {a b : Val} {k : Key} {v : Val} (hb : TopDistinct b) (hm : a.IsMap → b.IsMap)
    (h : ∀ x y, a.at k.text = some x → b.at k.text = some y → deepMerge (deepMerge x y) v = deepMerge x (deepMerge y v)) :
    deepMerge a (putOne b k v) = putOne (deepMerge a b) k v := by
  by_cases hbm : b.IsMap
  · cases b with
    | map t es =>
      rw [putOne, deepMerge, deepMerge]
      exact putAll_setKey es a hb h
    | _ => simp [Val.IsMap] at hbm
  · have ham : ¬ a.IsMap := fun x => hbm (hm x)
    have hab : ¬ (deepMerge a b).IsMap := by
      cases b with
      | map => simp [Val.IsMap] at hbm
      | seq t ys => cases a <;> simp [deepMerge, Val.IsMap]
      | scalar => simp [deepMerge, Val.IsMap]
      | «alias» => simp [deepMerge, Val.IsMap]
    rw [putOne, not_isMap hbm, setKey, deepMerge, putAll_cons, putAll, putOne, putOne, not_isMap ham, not_isMap hab]

theorem deepMerge_assoc_map {t : Str} (fs : List (Key × Val)) (hfs : (fs.map (fun e => e.1.text)).Nodup)
    (ih : ∀ e ∈ fs, ∀ x y : Val, y.KeysDistinct → Between x y e.2 → deepMerge (deepMerge x y) e.2 = deepMerge x (deepMerge y e.2)) :
    ∀ a b : Val, TopDistinct b → (∀ e ∈ fs, ∀ y, b.at e.1.text = some y → y.KeysDistinct) → BetweenE a b fs →
      deepMerge (deepMerge a b) (.map t fs) = deepMerge a (deepMerge b (.map t fs)) := by
  simp only [deepMerge]
  induction fs with
  | nil => intro a b _ _ _; rfl
  | cons e fs ihf =>
    intro a b hb hbd hbt
    obtain ⟨k, v⟩ := e
    simp only [List.map_cons, List.nodup_cons] at hfs
    rw [BetweenE] at hbt
    obtain ⟨h1, h2, h3⟩ := hbt
    have hne : ∀ e ∈ fs, e.1.text ≠ k.text := fun e he heq => hfs.1 (List.mem_map.2 ⟨e, he, heq⟩)
    rw [putAll_cons, putAll_cons, ← deepMerge_putOne hb h1 (fun x y hx hy => ih (k, v) (by simp) x y (hbd (k, v) (by simp) y hy) (h2 x y hx hy))]
    refine ihf hfs.2 (fun e he => ih e (by simp [he])) a (putOne b k v) (topDistinct_putOne hb k v) ?_ ?_
    · intro e he y hy
      rw [at_putOne_ne (hne e he)] at hy
      exact hbd e (by simp [he]) y hy
    · clear ihf ih hfs hbd
      induction fs with
      | nil => trivial
      | cons e fs ih2 =>
        obtain ⟨k2, v2⟩ := e
        rw [BetweenE] at h3 ⊢
        refine ⟨fun _ => isMap_putOne b k v, ?_, ih2 h3.2.2 (fun e he => hne e (by simp [he]))⟩
        intro x y hx hy
        rw [at_putOne_ne (hne (k2, v2) (by simp))] at hy
        exact h3.2.1 x y hx hy

theorem keysDistinctE_mem {es : List (Key × Val)} (h : KeysDistinctE es) : ∀ e ∈ es, e.2.KeysDistinct := by
  induction es with
  | nil => simp
  | cons e es ih =>
    obtain ⟨k, v⟩ := e
    rw [KeysDistinctE] at h
    intro e he
    rcases List.mem_cons.1 he with rfl | he
    · exact h.1
    · exact ih h.2 e he

theorem keysDistinct_at {b y : Val} {t : Str} (h : b.KeysDistinct) (hy : b.at t = some y) : y.KeysDistinct := by
  cases b with
  | map tg es => rw [Val.KeysDistinct] at h; exact keysDistinct_lookup t y es h.2 hy
  | _ => simp [Val.at] at hy

theorem topDistinct_of {b : Val} (h : b.KeysDistinct) : TopDistinct b := by
  cases b with
  | map tg es => rw [Val.KeysDistinct] at h; exact h.1
  | _ => simp [TopDistinct, asMap]

theorem deepMerge_assoc : ∀ (c a b : Val), b.KeysDistinct → c.KeysDistinct → Between a b c →
    deepMerge (deepMerge a b) c = deepMerge a (deepMerge b c)
  | .alias _, _, _, _, _, _ => by simp [deepMerge]
  | .scalar _ _, _, _, _, _, _ => by simp [deepMerge]
  | .seq t ys, a, b, _, _, hbt => by
    rw [Between] at hbt
    cases b with
    | seq t' xs => cases a <;> simp [deepMerge, List.append_assoc]
    | scalar => cases a <;> simp_all [deepMerge, Val.IsSeq, Val.AsksNothing]
    | «alias» => cases a <;> simp_all [deepMerge, Val.IsSeq, Val.AsksNothing]
    | map t' es =>
      cases es with
      | nil => cases a <;> simp [deepMerge, putAll]
      | cons e es =>
        have ha : ¬ a.IsSeq := fun h => by simpa [Val.IsSeq, Val.AsksNothing] using hbt h
        have hm : (deepMerge a (.map t' (e :: es))).IsMap := by
          obtain ⟨k, v⟩ := e
          rw [deepMerge, putAll_cons]
          have : ∀ (es : List (Key × Val)) (x : Val), x.IsMap → (putAll x es).IsMap := by
            intro es
            induction es with
            | nil => intro x hx; exact hx
            | cons e es ih => intro x _; obtain ⟨k, v⟩ := e; rw [putAll_cons]; exact ih _ trivial
          exact this es _ trivial
        cases hx : deepMerge a (.map t' (e :: es)) with
        | map => cases a <;> simp_all [deepMerge, Val.IsSeq]
        | _ => rw [hx] at hm; simp [Val.IsMap] at hm
  | .map t fs, a, b, hb, hc, hbt => by
    rw [Between] at hbt
    rw [Val.KeysDistinct] at hc
    refine deepMerge_assoc_map fs hc.1 ?_ a b (topDistinct_of hb) (fun e _ y hy => keysDistinct_at hb hy) hbt
    intro e he x y hy hxy
    exact deepMerge_assoc e.2 x y hy (keysDistinctE_mem hc.2 e he) hxy
  termination_by c => sizeOf c
  decreasing_by
    have := List.sizeOf_lt_of_mem he
    obtain ⟨k, v⟩ := e
    simp only [Prod.mk.sizeOf_spec, Val.map.sizeOf_spec] at this ⊢
    omega

end Yot

namespace Yot
open Spec

/-! ### Markers -/

theorem noMarkersL_append {xs ys : List Val} (h : NoMarkersL xs) (h' : NoMarkersL ys) : NoMarkersL (xs ++ ys) := by
  induction xs with
  | nil => exact h'
  | cons x xs ih => rw [NoMarkersL] at h; rw [List.cons_append, NoMarkersL]; exact ⟨h.1, ih h.2⟩

theorem noMarkersE_mem {es : List (Key × Val)} (h : NoMarkersE es) : ∀ e ∈ es, NoMarker e.1.text ∧ e.2.NoMarkers := by
  induction es with
  | nil => simp
  | cons e es ih =>
    obtain ⟨k, v⟩ := e
    rw [NoMarkersE] at h
    intro e he
    rcases List.mem_cons.1 he with rfl | he
    · exact ⟨h.1, h.2.1⟩
    · exact ih h.2.2 e he

theorem noMarkersE_setKey {k : Key} {v : Val} {f : Val → Val} (hk : NoMarker k.text) (hv : v.NoMarkers) (hf : ∀ x : Val, x.NoMarkers → (f x).NoMarkers)
    {es : List (Key × Val)} (h : NoMarkersE es) : NoMarkersE (setKey k v f es) := by
  induction es with
  | nil => simp only [setKey, NoMarkersE]; exact ⟨hk, hv, trivial⟩
  | cons e es ih =>
    obtain ⟨k', v'⟩ := e
    rw [NoMarkersE] at h
    rw [setKey]
    split
    · rw [NoMarkersE]; exact ⟨h.1, hf _ h.2.1, h.2.2⟩
    · rw [NoMarkersE]; exact ⟨h.1, h.2.1, ih h.2.2⟩

theorem noMarkers_asMap {a : Val} (h : a.NoMarkers) : NoMarkersE (asMap a).2 := by
  cases a with
  | map t es => rw [Val.NoMarkers] at h; exact h
  | _ => trivial

theorem noMarkers_deepMerge : ∀ (c a : Val), a.NoMarkers → c.NoMarkers → (deepMerge a c).NoMarkers
  | .alias _, _, _, h => by simp [Val.NoMarkers] at h
  | .scalar _ _, _, _, h => by rw [deepMerge]; exact h
  | .seq t ys, a, ha, h => by
    rw [Val.NoMarkers] at h
    cases a with
    | seq t' xs => rw [Val.NoMarkers] at ha; rw [deepMerge, Val.NoMarkers]; exact noMarkersL_append ha h
    | _ => simpa [deepMerge, Val.NoMarkers] using h
  | .map t fs, a, ha, h => by
    rw [Val.NoMarkers] at h
    rw [deepMerge]
    have step : ∀ (es : List (Key × Val)), (∀ e ∈ es, e ∈ fs) → ∀ a : Val, a.NoMarkers → (putAll a es).NoMarkers := by
      intro es
      induction es with
      | nil => intro _ a ha; exact ha
      | cons e es ih =>
        intro hin a ha
        obtain ⟨k, v⟩ := e
        rw [putAll_cons]
        refine ih (fun e he => hin e (by simp [he])) _ ?_
        have hm := noMarkersE_mem h (k, v) (hin _ (by simp))
        have hmem : (k, v) ∈ fs := hin _ (by simp)
        rw [putOne, Val.NoMarkers]
        exact noMarkersE_setKey hm.1 hm.2 (fun x hx => noMarkers_deepMerge v x hx hm.2) (noMarkers_asMap ha)
    exact step fs (fun _ h => h) a ha
  termination_by c => sizeOf c
  decreasing_by
    have := List.sizeOf_lt_of_mem hmem
    simp only [Prod.mk.sizeOf_spec, Val.map.sizeOf_spec] at this ⊢
    omega

/-! ### Data at the end of a path -/

theorem data_fresh (n : Node) : data n.fresh = data n := by
  induction n using Node.ind with
  | h h cs ih =>
    rw [Node.fresh, freshs_eq_map, data, data]
    have h1 : datas (cs.map Node.fresh) = datas cs := by
      clear h
      induction cs with
      | nil => rfl
      | cons c cs ihc => simp only [List.map_cons, datas, ih c (by simp), ihc (fun c hc => ih c (by simp [hc]))]
    have h2 : dataPairs (cs.map Node.fresh) = dataPairs cs := by
      clear h h1
      induction cs using pairInduction with
      | h0 => rfl
      | h1 a => rfl
      | h2 a b cs ihc =>
        simp only [List.map_cons, dataPairs, ih b (by simp), ihc (fun c hc => ih c (by simp [hc]))]
        rw [fresh_hd]
        simp only [fresh_content, List.isEmpty_map]
    rw [h1, h2]
    simp only [List.isEmpty_map]

theorem dataPairs_congr {A : List Node} (hA : A.length % 2 = 0) (k : Node) {v v' : Node} (h : data v = data v') (B : List Node) :
    dataPairs (A ++ k :: v :: B) = dataPairs (A ++ k :: v' :: B) := by
  induction A using pairInduction with
  | h0 => simp only [List.nil_append, dataPairs, h]
  | h1 a => simp at hA
  | h2 a b cs ih =>
    have : cs.length % 2 = 0 := by simp only [List.length_cons] at hA; omega
    simp only [List.cons_append, dataPairs, ih this]

/-- Two edits of what is at a path, and one that gives the same data there. -/
theorem editPath_data {f g h : Node → Res Err (Option Node)} (ks : List Str) : ∀ (n m m1 m2 m3 : Node), walk ks n = [m] →
    f m = .ok (some m1) → g m1 = .ok (some m2) → h m = .ok (some m3) → data m2 = data m3 →
    ∃ x y z, editPath ks f n = .ok (some x) ∧ editPath ks g x = .ok (some y) ∧ editPath ks h n = .ok (some z) ∧ data y = data z := by
  induction ks with
  | nil =>
    intro n m m1 m2 m3 hn h1 h2 h3 hd
    simp only [walk, List.cons.injEq, and_true] at hn
    subst hn
    exact ⟨m1, m2, m3, h1, h2, h3, hd⟩
  | cons k ks ih =>
    intro n m m1 m2 m3 hn h1 h2 h3 hd
    by_cases hk : n.hd.kind = .mapping
    · simp only [walk, entriesOf, hk, if_true] at hn
      cases hfst : firstAt k (pairs n.content) with
      | none => rw [hfst] at hn; cases hn
      | some v =>
        rw [hfst] at hn
        obtain ⟨A, kn, B, e1, e2, e3, e4⟩ := firstAt_split hfst
        obtain ⟨x, y, z, i1, i2, i3, i4⟩ := ih v m m1 m2 m3 hn h1 h2 h3 hd
        refine ⟨.mk n.hd (A ++ kn :: x :: B), .mk n.hd (A ++ kn :: y :: B), .mk n.hd (A ++ kn :: z :: B), ?_, ?_, ?_, ?_⟩
        · rw [editPath, if_pos hk, e1, updR_split _ e2 e4 e3, i1]
          simp [cutHd_false]
        · rw [editPath, if_pos (by exact hk), Node.content_mk, updR_split _ e2 e4 e3, i2]
          simp [cutHd_false]
        · rw [editPath, if_pos hk, e1, updR_split _ e2 e4 e3, i3]
          simp [cutHd_false]
        · rw [data, data, hk]
          simp only
          rw [dataPairs_congr e2 kn i4 B]
    · simp [walk, entriesOf, hk, firstAt] at hn

end Yot
