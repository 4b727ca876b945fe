import Verif.Lemmas.Tree
import Verif.Spec.Merge
namespace Yot
open Spec

theorem data_scalar {h : Hdr} {cs : List Node} (hk : h.kind = .scalar) :
    data (.mk h cs) = if cs.isEmpty then some (.scalar h.tag h.value) else none := by
  rw [data]; simp only [hk]

theorem data_sequence {h : Hdr} {cs : List Node} (hk : h.kind = .sequence) :
    data (.mk h cs) = (datas cs).map (Val.seq h.tag) := by
  rw [data]; simp only [hk]; cases datas cs <;> rfl

theorem data_mapping {h : Hdr} {cs : List Node} (hk : h.kind = .mapping) :
    data (.mk h cs) = (dataPairs cs).map (Val.map h.tag) := by
  rw [data]; simp only [hk]; cases dataPairs cs <;> rfl

theorem data_cases {n : Node} {a : Val} (h : data n = some a) :
    (n.hd.kind = .scalar ∧ n.content = [] ∧ a = .scalar n.hd.tag n.hd.value) ∨
    (n.hd.kind = .sequence ∧ ∃ xs, datas n.content = some xs ∧ a = .seq n.hd.tag xs) ∨
    (n.hd.kind = .mapping ∧ ∃ es, dataPairs n.content = some es ∧ a = .map n.hd.tag es) ∨
    (n.hd.kind = .alias ∧ n.content = [] ∧ a = .alias n.hd.value) := by
  obtain ⟨hd, cs⟩ := n
  simp only [Node.hd_mk, Node.content_mk]
  rw [data] at h
  cases hk : hd.kind <;> simp only [hk] at h
  case sequence =>
    right; left
    split at h
    · rename_i xs hx
      simp only [Option.some.injEq] at h
      exact ⟨rfl, xs, hx, h.symm⟩
    · simp at h
  case mapping =>
    right; right; left
    split at h
    · rename_i xs hx
      simp only [Option.some.injEq] at h
      exact ⟨rfl, xs, hx, h.symm⟩
    · simp at h
  case scalar =>
    left
    split at h
    · rename_i hc
      simp only [Option.some.injEq] at h
      exact ⟨rfl, by simpa using hc, h.symm⟩
    · simp at h
  case «alias» =>
    right; right; right
    split at h
    · rename_i hc
      simp only [Option.some.injEq] at h
      exact ⟨rfl, by simpa using hc, h.symm⟩
    · simp at h
  all_goals simp at h

/-- `data` sees only kind, tag, text and children. -/
theorem data_congr {h h' : Hdr} {cs : List Node} (h1 : h.kind = h'.kind) (h2 : h.tag = h'.tag)
    (h3 : h.value = h'.value) : data (.mk h cs) = data (.mk h' cs) := by
  rw [data, data, h1, h2, h3]

theorem dataPairs_cons {k v : Node} {cs : List Node} {es : List (Key × Val)}
    (h : dataPairs (k :: v :: cs) = some es) :
    ∃ x es', k.hd.kind = .scalar ∧ k.content = [] ∧ data v = some x ∧ dataPairs cs = some es' ∧
      es = (⟨k.hd.tag, k.hd.value⟩, x) :: es' := by
  rw [dataPairs] at h
  split at h
  · split at h
    · rename_i hk hd hp hc
      simp at h hc
      exact ⟨_, _, hk, hc, hd, hp, h.symm⟩
    · simp at h
  · simp at h

theorem dataPairs_mk {k v : Node} {cs : List Node} {x : Val} {es : List (Key × Val)}
    (h1 : k.hd.kind = .scalar) (h2 : k.content = []) (h3 : data v = some x)
    (h4 : dataPairs cs = some es) :
    dataPairs (k :: v :: cs) = some ((⟨k.hd.tag, k.hd.value⟩, x) :: es) := by
  rw [dataPairs]; simp [h1, h2, h3, h4]

theorem dataPairs_append {cs ds : List Node} {es fs : List (Key × Val)}
    (h1 : dataPairs cs = some es) (h2 : dataPairs ds = some fs) :
    dataPairs (cs ++ ds) = some (es ++ fs) := by
  induction cs using pairInduction generalizing es with
  | h0 => simp [dataPairs] at h1; subst h1; simpa using h2
  | h1 a => simp [dataPairs] at h1
  | h2 a b cs ih =>
    obtain ⟨x, es', k1, k2, k3, k4, rfl⟩ := dataPairs_cons h1
    exact dataPairs_mk k1 k2 k3 (ih k4)

theorem datas_append {cs ds : List Node} {es fs : List Val}
    (h1 : datas cs = some es) (h2 : datas ds = some fs) :
    datas (cs ++ ds) = some (es ++ fs) := by
  induction cs generalizing es with
  | nil => simp [datas] at h1; subst h1; simpa using h2
  | cons a cs ih =>
    simp only [datas] at h1
    split at h1 <;> simp at h1
    rename_i x xs hx hxs
    subst h1
    simp [datas, hx, ih hxs]

/-- Copying and sanitizing does not change marker-free data. -/
theorem data_sanitize_fresh (E : Sed) (n : Node) :
    ∀ b, data n = some b → b.NoMarkers → data (sanitizeNode E n.fresh) = some b := by
  induction n using Node.ind with
  | h hd cs ih =>
    intro b hb hm
    have hL : ∀ ds : List Node, (∀ c ∈ ds, c ∈ cs) → ∀ xs, datas ds = some xs → NoMarkersL xs →
        datas (sanitizeNodes E (Node.freshs ds)) = some xs := by
      intro ds
      induction ds with
      | nil => intro _ xs h _; simpa [Node.freshs, sanitizeNodes] using h
      | cons d ds ihd =>
        intro hsub xs h hmk
        simp only [datas] at h
        split at h <;> simp at h
        rename_i x xs' hx hxs
        subst h
        simp only [NoMarkersL] at hmk
        have h1 := ih d (hsub d (by simp)) x hx hmk.1
        have h2 := ihd (fun c hc => hsub c (by simp [hc])) xs' hxs hmk.2
        simp [Node.freshs, sanitizeNodes, datas, h1, h2]
    have hP : ∀ ds : List Node, (∀ c ∈ ds, c ∈ cs) → ∀ xs, dataPairs ds = some xs → NoMarkersE xs →
        dataPairs (sanitizeNodes E (Node.freshs ds)) = some xs := by
      intro ds
      induction ds using pairInduction with
      | h0 => intro _ xs h _; simpa [Node.freshs, sanitizeNodes] using h
      | h1 a => intro _ xs h _; simp [dataPairs] at h
      | h2 k v ds ihd =>
        intro hsub xs h hmk
        obtain ⟨x, es', k1, k2, k3, k4, rfl⟩ := dataPairs_cons h
        simp only [NoMarkersE] at hmk
        have h1 := ih v (hsub v (by simp)) x k3 hmk.2.1
        have h2 := ihd (fun c hc => hsub c (by simp [hc])) es' k4 hmk.2.2
        simp only [Node.freshs, sanitizeNodes]
        obtain ⟨kh, kc⟩ := k
        simp only [Node.hd_mk, Node.content_mk] at k1 k2
        subst k2
        have h3 := dataPairs_mk (k := sanitizeNode E (Node.fresh (.mk kh []))) (by
          simpa [Node.fresh, sanitizeNode, sanitizeHdr] using k1) (by
          simp [Node.fresh, sanitizeNode, Node.freshs, sanitizeNodes]) h1 h2
        rw [h3]
        simp only [Node.hd_mk] at hmk
        simp [Node.fresh, sanitizeNode, sanitizeHdr, format_id E _ hmk.1]
    rcases data_cases hb with ⟨hk, hc, rfl⟩ | ⟨hk, xs, hx, rfl⟩ | ⟨hk, es, hx, rfl⟩ | ⟨hk, hc, rfl⟩
    · simp only [Node.hd_mk, Node.content_mk] at hk hc
      subst hc
      simp only [Val.NoMarkers, Node.hd_mk] at hm
      simp only [Node.fresh, sanitizeNode, Node.freshs, sanitizeNodes]
      rw [data_scalar (by simpa [sanitizeHdr] using hk)]
      simp [sanitizeHdr, format_id E _ hm]
    · simp only [Node.hd_mk, Node.content_mk] at hk hx
      simp only [Val.NoMarkers] at hm
      simp only [Node.fresh, sanitizeNode]
      rw [data_sequence (by simpa [sanitizeHdr] using hk), hL cs (fun _ h => h) xs hx hm]
      simp [sanitizeHdr]
    · simp only [Node.hd_mk, Node.content_mk] at hk hx
      simp only [Val.NoMarkers] at hm
      simp only [Node.fresh, sanitizeNode]
      rw [data_mapping (by simpa [sanitizeHdr] using hk), hP cs (fun _ h => h) es hx hm]
      simp [sanitizeHdr]
    · simp [Val.NoMarkers] at hm

theorem datas_sanitize_fresh (E : Sed) (ns : List Node) :
    ∀ b, datas ns = some b → NoMarkersL b → datas (sanitizeNodes E (Node.freshs ns)) = some b := by
  induction ns with
  | nil => intro b h _; simpa [Node.freshs, sanitizeNodes] using h
  | cons d ds ihd =>
    intro xs h hmk
    simp only [datas] at h
    split at h <;> simp at h
    rename_i x xs' hx hxs
    subst h
    simp only [NoMarkersL] at hmk
    simp [Node.freshs, sanitizeNodes, datas, data_sanitize_fresh E d x hx hmk.1, ihd xs' hxs hmk.2]

/-- `setKey` without the addition: update the first matching entry, and tell
whether there was one. -/
def updKey (t : Str) (f : Val → Val) : List (Key × Val) → List (Key × Val) × Bool
  | [] => ([], false)
  | e :: r =>
    if e.1.text = t then ((e.1, f e.2) :: r, true)
    else (e :: (updKey t f r).1, (updKey t f r).2)

theorem setKey_eq (k : Key) (new : Val) (f : Val → Val) (es : List (Key × Val)) :
    setKey k new f es =
      if (updKey k.text f es).2 then (updKey k.text f es).1 else (updKey k.text f es).1 ++ [(k, new)] := by
  induction es with
  | nil => rfl
  | cons e r ih =>
    simp only [setKey, updKey]
    by_cases h : e.1.text = k.text
    · simp [h]
    · simp only [h, if_false, ih]
      split <;> simp

theorem mergeComments_fields (E : Sed) (o n : Hdr) (vals : List Str) :
    (mergeComments E o n vals).kind = o.kind ∧ (mergeComments E o n vals).value = o.value ∧
    (mergeComments E o n vals).tag = o.tag := by
  unfold mergeComments
  dsimp only
  split
  · simp
  · split
    · simp
    · split <;> simp

/-- The inner loop of a marker-free entry acts on the data as `updKey`. -/
theorem mergeInner_data (E : Sed) (f : Node → Str → Res Err Node) (g : Val → Val) (nk : Hdr)
    (hk : NoMarker nk.value)
    (hf : ∀ x key d, data x = some d → ∃ x', f x key = .ok x' ∧ data x' = some (g d))
    (cs : List Node) (es : List (Key × Val)) (h : dataPairs cs = some es) :
    ∃ cs', mergeInner E f nk cs = .ok (cs', (updKey nk.value g es).2) ∧
      dataPairs cs' = some (updKey nk.value g es).1 := by
  have hmk := (checkForMarkers_iff _).2 hk
  induction cs using pairInduction generalizing es with
  | h0 => simp [dataPairs] at h; subst h; exact ⟨[], rfl, rfl⟩
  | h1 a => simp [dataPairs] at h
  | h2 k v cs ih =>
    obtain ⟨x, es', k1, k2, k3, k4, rfl⟩ := dataPairs_cons h
    by_cases hkey : k.hd.value = nk.value
    · obtain ⟨v', hv', hd'⟩ := hf v k.hd.value x k3
      refine ⟨.mk (mergeComments E k.hd nk [v.hd.value, k.hd.value]) k.content :: v' :: cs, ?_, ?_⟩
      · simp only [mergeInner, hmk, hkey, Bool.not_false, Bool.true_and, ne_eq, not_true_eq_false,
          decide_false, Bool.false_eq_true, if_false, if_true, updKey]
        rw [← hkey, hv']
        rfl
      · have hm := mergeComments_fields E k.hd nk [v.hd.value, k.hd.value]
        have := dataPairs_mk
          (k := .mk (mergeComments E k.hd nk [v.hd.value, k.hd.value]) k.content) (v := v')
          (by simp only [Node.hd_mk, hm.1]; exact k1) k2 hd' k4
        simp only [Node.hd_mk, hm.2.1, hm.2.2] at this
        rw [hkey] at this ⊢
        simpa [updKey] using this
    · obtain ⟨cs', h1, h2⟩ := ih es' k4
      refine ⟨k :: v :: cs', ?_, ?_⟩
      · simp [mergeInner, hmk, hkey, h1, updKey]
      · have := dataPairs_mk k1 k2 k3 h2
        simpa [updKey, hkey] using this

theorem data_toMapping {o : Node} {a : Val} (h : data o = some a) :
    ∃ es, (toMapping o).hd.kind = .mapping ∧ dataPairs (toMapping o).content = some es ∧
      (toMapping o).hd.tag = (asMap a).1 ∧ es = (asMap a).2 := by
  unfold toMapping
  rcases data_cases h with ⟨hk, hc, rfl⟩ | ⟨hk, xs, hx, rfl⟩ | ⟨hk, es, hx, rfl⟩ | ⟨hk, hc, rfl⟩
  · simp [hk, asMap, dataPairs]
  · simp [hk, asMap, dataPairs]
  · simp [hk, asMap, hx]
  · simp [hk, asMap, dataPairs]

/-- Model merge refines deep merge on plain data. -/
theorem merge_data (E : Sed) (n : Node) :
    ∀ (o : Node) (vals : List Str) (a b : Val), data o = some a → data n = some b → b.NoMarkers →
      ∃ o', merge E o vals n = .ok o' ∧ data o' = some (deepMerge a b) := by
  induction n using Node.ind with
  | h nh ncs ih =>
    intro o vals a b ha hb hm
    rcases data_cases hb with ⟨hk, hc, rfl⟩ | ⟨hk, ys, hy, rfl⟩ | ⟨hk, es, hx, rfl⟩ | ⟨hk, hc, rfl⟩
    · -- scalar
      simp only [Node.hd_mk, Node.content_mk] at hk hc
      simp only [Val.NoMarkers, Node.hd_mk] at hm
      refine ⟨_, merge_scalar E o vals hk, ?_⟩
      have hkc := mergeComments_fields E o.hd nh vals
      unfold mergeScalar
      dsimp only
      split
      · simp [data, deepMerge, format_id E _ hm]
      · rename_i ho
        simp only [ne_eq, Decidable.not_not] at ho
        have : o.content = [] := by
          rcases data_cases ha with ⟨_, hc, _⟩ | ⟨hk', _⟩ | ⟨hk', _⟩ | ⟨hk', _⟩
          · exact hc
          · rw [ho] at hk'; simp at hk'
          · rw [ho] at hk'; simp at hk'
          · rw [ho] at hk'; simp at hk'
        simp only [Node.hd_mk, Node.content_mk, this, deepMerge]
        rw [data_scalar (by simpa [hkc.1] using ho)]
        simp [format_id E _ hm]
    · -- sequence
      simp only [Node.hd_mk, Node.content_mk] at hk hy
      simp only [Val.NoMarkers] at hm
      refine ⟨_, merge_sequence E o vals hk, ?_⟩
      have hto : ∃ t xs, (toSequence o).hd.kind = .sequence ∧ datas (toSequence o).content = some xs ∧
          (toSequence o).hd.tag = t ∧ deepMerge a (.seq nh.tag ys) = .seq t (xs ++ ys) := by
        unfold toSequence
        rcases data_cases ha with ⟨hk', hc, rfl⟩ | ⟨hk', xs, hx, rfl⟩ | ⟨hk', es, hx, rfl⟩ | ⟨hk', hc, rfl⟩
        · simp [hk', datas, deepMerge]
        · simp [hk', hx, deepMerge]
        · simp [hk', datas, deepMerge]
        · simp [hk', datas, deepMerge]
      obtain ⟨t, xs, h1, h2, h3, h4⟩ := hto
      simp only [Node.hd_mk]
      rw [h4]
      unfold mergeArray
      dsimp only
      split
      · rename_i hnil
        simp [Node.contentIsNil] at hnil
        simp only [hnil.2, datas, Option.some.injEq] at hy
        subst hy
        have := data_sequence (h := (toSequence o).hd) (cs := (toSequence o).content) h1
        rw [Node.eta, h2, h3] at this
        simpa using this
      · have hkc := mergeComments_fields E (toSequence o).hd nh [(toSequence o).hd.value]
        simp only [addNode, appendContent, Node.content_mk, Node.hd_mk]
        rw [data_sequence (by simpa [hkc.1] using h1)]
        rw [datas_append h2 (datas_sanitize_fresh E ncs ys hy hm)]
        simp [hkc.2.2, h3]
    · -- mapping
      simp only [Node.hd_mk, Node.content_mk] at hk hx
      simp only [Val.NoMarkers] at hm
      rw [merge_mapping E o vals hk]
      simp only [deepMerge]
      have key : ∀ ds : List Node, (∀ c ∈ ds, c ∈ ncs) → ∀ (o : Node) (a : Val) (es : List (Key × Val)),
          data o = some a → dataPairs ds = some es → NoMarkersE es →
          ∃ o', mergeEntries E o ds = .ok o' ∧ data o' = some (putAll a es) := by
        intro ds
        induction ds using pairInduction with
        | h0 =>
          intro _ o a es ha h _
          simp [dataPairs] at h; subst h
          exact ⟨o, by simp [mergeEntries], by simpa [putAll] using ha⟩
        | h1 c => intro _ o a es _ h _; simp [dataPairs] at h
        | h2 k v ds ihd =>
          intro hsub o a es ha h hmk
          obtain ⟨x, es', k1, k2, k3, k4, rfl⟩ := dataPairs_cons h
          simp only [NoMarkersE] at hmk
          obtain ⟨A, t1, t2, t3, rfl⟩ := data_toMapping ha
          obtain ⟨cs', i1, i2⟩ := mergeInner_data E (fun x key => merge E x [key] v)
            (fun old => deepMerge old x) k.hd hmk.1
            (fun y key d hy => ih v (hsub v (by simp)) y [key] d x hy k3 hmk.2.1)
            (toMapping o).content (asMap a).2 t2
          simp only [mergeEntries, i1, Res.bind_ok, putAll]
          apply ihd (fun c hc => hsub c (by simp [hc])) _ _ _ ?_ k4 hmk.2.2
          rw [setKey_eq]
          simp only
          split
          · rw [data_mapping t1, i2, t3]; rfl
          · simp only [addNode, appendContent, Node.hd_mk, Node.content_mk]
            rw [data_mapping (by simpa using t1)]
            have hkv : dataPairs [k, v] = some [(⟨k.hd.tag, k.hd.value⟩, x)] :=
              dataPairs_mk k1 k2 k3 rfl
            have hs : dataPairs (sanitizeNodes E (Node.freshs [k, v]))
                = some [(⟨k.hd.tag, k.hd.value⟩, x)] := by
              simp only [Node.freshs, sanitizeNodes]
              obtain ⟨kh, kc⟩ := k
              simp only [Node.hd_mk, Node.content_mk] at k1 k2
              subst k2
              have h3 := dataPairs_mk (k := sanitizeNode E (Node.fresh (.mk kh []))) (by
                simpa [Node.fresh, sanitizeNode, sanitizeHdr] using k1) (by
                simp [Node.fresh, sanitizeNode, Node.freshs, sanitizeNodes])
                (data_sanitize_fresh E v x k3 hmk.2.1) (rfl : dataPairs [] = some [])
              rw [h3]
              simp only [Node.hd_mk] at hmk
              simp [Node.fresh, sanitizeNode, sanitizeHdr, format_id E _ hmk.1]
            rw [dataPairs_append i2 hs]
            simp [t3]
      exact key ncs (fun _ h => h) o a es ha hx hm
    · simp [Val.NoMarkers] at hm

end Yot
