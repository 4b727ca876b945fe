import Verif.Lemmas.Idem
import Verif.Props.Markers
/-
C01-C05: merge.
-/
namespace Yot
open Spec Ex

/-! ### C01 -/

/-- C01: merging plain, marker-free, alias-free data into any data succeeds and
gives exactly the deep merge. -/
theorem C01_merge_is_deep_merge (E : Sed) (o n : Node) (a b : Val)
    (ho : data o = some a) (hn : data n = some b) (hm : b.NoMarkers) :
    ∃ o', mergeNode E o n = .ok o' ∧ data o' = some (deepMerge a b) :=
  merge_data E n o [] a b ho hn hm

/-- The deep merge of the specification, read per key: the two values under a key
are merged recursively, a value on one side only is taken as it is. -/
theorem deepMerge_lookup (t : Str) (tag tag' : Str) (fs : List (Key × Val)) :
    ∀ es, (fs.map (fun e => e.1.text)).Nodup →
    ∃ es', deepMerge (.map tag es) (.map tag' fs) = .map tag es' ∧
      lookup t es' = (match lookup t es, lookup t fs with
        | some x, some y => some (deepMerge x y)
        | some x, none => some x
        | none, r => r) := by
  have hset : ∀ (k : Key) (v : Val) (g : Val → Val) (es : List (Key × Val)) (t : Str),
      lookup t (setKey k v g es) = if k.text = t then
        (match lookup t es with | some x => some (g x) | none => some v) else lookup t es := by
    intro k v g es t
    induction es with
    | nil => simp [setKey, lookup]
    | cons e r ih =>
      simp only [setKey]
      by_cases h1 : e.1.text = k.text
      · by_cases h2 : k.text = t
        · simp [lookup, h1, h2]
        · simp [lookup, h1, h2]
      · by_cases h2 : e.1.text = t
        · have h3 : ¬ k.text = t := fun h => h1 (h2.trans h.symm)
          rw [if_neg h1, if_neg h3]
          simp [lookup, h2]
        · simp [lookup, h1, h2, ih]
  simp only [deepMerge]
  induction fs with
  | nil =>
    intro es _
    refine ⟨es, rfl, ?_⟩
    cases lookup t es <;> simp [lookup]
  | cons f fs ih =>
    intro es hnd
    simp only [List.map_cons, List.nodup_cons] at hnd
    obtain ⟨es', h1, h2⟩ := ih (setKey f.1 f.2 (fun old => deepMerge old f.2) es) hnd.2
    refine ⟨es', by simpa [putAll, asMap] using h1, ?_⟩
    rw [h2, hset]
    have hno : f.1.text = t → lookup t fs = none := by
      rintro rfl
      clear ih h1 h2
      have := hnd.1
      clear hnd
      induction fs with
      | nil => rfl
      | cons g gs ihg =>
        simp only [List.map_cons, List.mem_cons, not_or] at this
        simp [lookup, Ne.symm this.1, ihg this.2]
    by_cases hk : f.1.text = t
    · simp only [hk, if_true, hno hk, lookup]
      cases lookup t es <;> simp
    · simp only [hk, if_false, lookup]

/-- The deep merge of the specification, order of keys: the target's keys in
place, then the overlay's new keys in overlay order. -/
theorem deepMerge_keys (tag tag' : Str) (fs : List (Key × Val)) :
    ∀ es, (fs.map (fun e => e.1.text)).Nodup →
    ∃ es', deepMerge (.map tag es) (.map tag' fs) = .map tag es' ∧
      es'.map (fun e => e.1.text) = es.map (fun e => e.1.text) ++
        (fs.map (fun e => e.1.text)).filter (fun t => t ∉ es.map (fun e => e.1.text)) := by
  have hset : ∀ (k : Key) (v : Val) (g : Val → Val) (es : List (Key × Val)),
      (setKey k v g es).map (fun e => e.1.text) = es.map (fun e => e.1.text) ++
        (if k.text ∈ es.map (fun e => e.1.text) then [] else [k.text]) := by
    intro k v g es
    induction es with
    | nil => simp [setKey]
    | cons e r ih =>
      simp only [setKey]
      by_cases h : e.1.text = k.text
      · simp [h]
      · have h' : ¬ k.text = e.1.text := fun x => h x.symm
        simp only [h, if_false, List.map_cons, List.cons_append, ih, List.mem_cons, h', false_or]
  simp only [deepMerge]
  induction fs with
  | nil => intro es _; exact ⟨es, rfl, by simp⟩
  | cons f fs ih =>
    intro es hnd
    simp only [List.map_cons, List.nodup_cons] at hnd
    obtain ⟨es', h1, h2⟩ := ih (setKey f.1 f.2 (fun old => deepMerge old f.2) es) hnd.2
    refine ⟨es', by simpa [putAll, asMap] using h1, ?_⟩
    rw [h2]
    simp only [hset]
    by_cases hk : f.1.text ∈ es.map (fun e => e.1.text)
    · simp only [hk, if_true, List.append_nil, List.map_cons]
      rw [List.filter_cons_of_neg (by simpa using hk)]
    · simp only [hk, if_false, List.append_assoc, List.map_cons]
      congr 1
      rw [List.filter_cons_of_pos (by simpa using hk)]
      simp only [List.singleton_append, List.cons.injEq, true_and]
      apply List.filter_congr
      intro t ht
      have : t ≠ f.1.text := fun e => hnd.1 (e ▸ ht)
      simp [this]

example :
    let o := mp [sc c!"a", sc c!"1", sc c!"s", sq [sc c!"x"], sc c!"al", .mk { kind := .alias, value := c!"b" } []]
    let n := mp [sc c!"s", sq [sc c!"y"], sc c!"m", mp [sc c!"k", sc c!"v"], sc c!"a", sc c!"2"]
    (∃ a, data o = some a) ∧ (∃ b, data n = some b ∧ b.NoMarkers) ∧
    mergeNode noSed o n = .ok (mp [sc c!"a", sc c!"2", sc c!"s", sq [sc c!"x", sc c!"y"],
      sc c!"al", .mk { kind := .alias, value := c!"b" } [], sc c!"m", mp [sc c!"k", sc c!"v"]]) := by
  refine ⟨⟨_, rfl⟩, ⟨_, rfl, ?_⟩, by decide⟩
  simp only [Val.NoMarkers, NoMarkersL, NoMarkersE]
  decide

/-! ### C02 -/

/-- C02: merging a mapping without marker keys into a mapping.  The entries after
the merge are the original ones, in order and under the same keys, followed by
new ones; an original entry whose key the overlay does not mention is the same
pair of nodes as before; the new entries have keys the overlay mentions; of the
mapping node itself only the children change. -/
theorem C02_unmentioned_keys_untouched (E : Sed) (o n o' : Node)
    (ho : o.kind = .mapping) (hw : WellFormed o) (hn : n.kind = .mapping)
    (hm : ∀ t ∈ keys n.content, NoMarker t)
    (h : mergeNode E o n = .ok o') :
    (∃ b, o'.hd = { o.hd with nilc := b }) ∧
    ∃ kept added, pairs o'.content = kept ++ added ∧ o'.content.length = 2 * (kept ++ added).length ∧
      List.Forall₂ (fun p q => q.1.hd.value = p.1.hd.value ∧
        (p.1.hd.value ∉ keys n.content → q = p)) (pairs o.content) kept ∧
      ∀ q ∈ added, q.1.hd.value ∈ keys n.content ∧ q.1.hd.value ∉ keys o.content := by
  obtain ⟨nh, ncs⟩ := n
  simp only [Node.kind, Node.hd_mk, Node.content_mk] at *
  rw [mergeNode, merge_mapping E o [] hn] at h
  rw [wf_iff] at hw
  have he : o.content.length % 2 = 0 := by have := hw.1; rwa [ho] at this
  obtain ⟨h1, h2, kept, added, h3, h4, h5⟩ := mergeEntries_kept E ncs o o' ho he hm h
  refine ⟨h1, kept, added, h3, ?_, h4, h5⟩
  rw [← h3]; exact (pairs_length h2).symm

example :
    let o := mp [sc c!"a", sc c!"1", sc c!"b", sc c!"2"]
    let n := mp [sc c!"b", sc c!"3", sc c!"c", sc c!"4"]
    o.kind = .mapping ∧ n.kind = .mapping ∧ (∀ t ∈ keys n.content, NoMarker t) ∧ o.content.length % 2 = 0 ∧
    mergeNode noSed o n = .ok (mp [sc c!"a", sc c!"1", sc c!"b", sc c!"3", sc c!"c", sc c!"4"]) := by
  decide

/-- C02 at any depth: below keys both mappings have, the same holds again, because
the value under a mentioned key is merged by the same operation. -/
theorem C02_nested (E : Sed) (k v nk nv : Node) (rest : List Node) (h : Hdr)
    (hk : k.hd.value = nk.hd.value) (hm : NoMarker nk.hd.value) (hh : h.kind = .mapping)
    (o' : Node) (nh : Hdr) (hn : nh.kind = .mapping)
    (hmerge : mergeNode E (.mk h (k :: v :: rest)) (.mk nh [nk, nv]) = .ok o') :
    ∃ k' v', o'.content = k' :: v' :: rest ∧ k'.hd.value = k.hd.value ∧
      merge E v [k.hd.value] nv = .ok v' := by
  have hmk := (checkForMarkers_iff _).2 hm
  rw [mergeNode, merge_mapping E _ [] hn] at hmerge
  have hto : toMapping (.mk h (k :: v :: rest)) = .mk h (k :: v :: rest) := by simp [toMapping, hh]
  simp only [mergeEntries, hto, mergeInner, Node.content_mk, Node.hd_mk, hmk, hk, Bool.not_false,
    Bool.true_and, ne_eq, not_true_eq_false, decide_false, Bool.false_eq_true, if_false, if_true,
    Res.bind_eq_ok, Res.pure_eq, Res.ok.injEq] at hmerge
  obtain ⟨r, ⟨v', hv, rfl⟩, rfl⟩ := hmerge
  refine ⟨_, v', rfl, ?_, by rw [hk]; exact hv⟩
  simp [(mergeComments_fields E k.hd nk.hd _).2.1, hk]

/-! ### C03 -/

/-- C03: merging a marker-free overlay value made of scalars and mappings (no
repeated keys) a second time changes nothing at all. -/
theorem C03_merge_idempotent (E : Sed) (o o1 n : Node)
    (hm : AllNodes (OnStrings NoMarker) n) (hs : ScalarsAndMaps n) (hwn : WellFormed n)
    (hwo : WellFormed o) (h : mergeNode E o n = .ok o1) :
    mergeNode E o1 n = .ok o1 :=
  merge_idem E n hm hs hwn o o1 [] [] hwo h

example :
    let o := mp [sc c!"a", sc c!"1", sc c!"s", sq [sc c!"x"]]
    let n := mp [sc c!"m", mp [sc c!"k", .mk { kind := .scalar, tag := c!"!!str", value := c!"v", head := c!"# c" } []], sc c!"a", sc c!"2"]
    AllNodes (OnStrings NoMarker) n ∧ ScalarsAndMaps n ∧ WellFormed n ∧ WellFormed o ∧
    (∃ o1, mergeNode noSed o n = .ok o1 ∧ o1 ≠ o ∧ mergeNode noSed o1 n = .ok o1) := by
  refine ⟨?_, ?_, ?_, ?_, ⟨_, rfl, by decide, by decide⟩⟩ <;>
  simp [Ex.mp, Ex.sc, Ex.sq, AllNodes, AllNodess, OnStrings, ScalarsAndMaps, ScalarsAndMapsE, WellFormed,
    WellFormeds, Shaped, keys, pairs] <;> decide

/-- With sequences merge is not idempotent: they grow. -/
theorem C03_not_with_sequences :
    let n := sq [sc c!"x"]
    mergeNode noSed (sq []) n = .ok (sq [sc c!"x"]) ∧
    mergeNode noSed (sq [sc c!"x"]) n = .ok (sq [sc c!"x", sc c!"x"]) := by decide

/-- With markers merge is not idempotent. -/
theorem C03_not_with_markers :
    mergeNode noSed (sc c!"a") (sc c!"%v!") = .ok (sc c!"a!") ∧
    mergeNode noSed (sc c!"a!") (sc c!"%v!") = .ok (sc c!"a!!") := by decide

/-! ### C04 -/

/-- C04: merging a sequence.  The children afterwards are the target's own
children, unchanged, if it was a sequence (none otherwise), followed by one node
per overlay element, in order: the overlay's node with markers removed, and so an
exact copy if it has none. -/
theorem C04_sequence_appended (E : Sed) (o n o' : Node) (hn : n.kind = .sequence)
    (h : mergeNode E o n = .ok o') :
    o'.kind = .sequence ∧
    ∃ added, o'.content = (if o.kind = .sequence then o.content else []) ++ added ∧
      List.Forall₂ (fun c d => AllNodes (OnStrings NoMarker) c → d = copyOf c) n.content added := by
  obtain ⟨nh, ncs⟩ := n
  simp only [Node.kind, Node.hd_mk, Node.content_mk] at *
  rw [mergeNode, merge_sequence E o [] hn] at h
  simp only [Res.ok.injEq] at h
  subst h
  have hc : (toSequence o).content = if o.hd.kind = .sequence then o.content else [] := by
    unfold toSequence
    by_cases hk : o.hd.kind = .sequence <;> simp [hk]
  unfold mergeArray
  dsimp only
  split
  · rename_i hnil
    simp [Node.contentIsNil] at hnil
    refine ⟨toSequence_kind o, [], by simp [hc], ?_⟩
    rw [hnil.2]; exact .nil
  · refine ⟨?_, sanitizeNodes E (Node.freshs ncs), ?_, ?_⟩
    · simp [addNode, appendContent, (mergeComments_fields E _ nh _).1, toSequence_kind]
    · simp [addNode, appendContent, hc]
    · rename_i hnil
      clear hn hnil
      induction ncs with
      | nil => exact .nil
      | cons c cs ih => exact .cons (sanitize_fresh_noMarker E c) ih

example : mergeNode noSed (sq [sc c!"a"]) (sq [sc c!"b", mp [sc c!"k", sc c!"v"]])
    = .ok (sq [sc c!"a", sc c!"b", mp [sc c!"k", sc c!"v"]]) ∧
  mergeNode noSed (mp [sc c!"a", sc c!"b"]) (sq [sc c!"b"]) = .ok (sq [sc c!"b"]) := by decide

/-! ### C05 -/

/-- Overlay entries are merged one after the other: the whole overlay mapping has
the effect of its first entry followed by that of the others. -/
theorem C05_entry_by_entry (E : Sed) (o : Node) (nh : Hdr) (hn : nh.kind = .mapping)
    (nk nv : Node) (rest : List Node) :
    mergeNode E o (.mk nh (nk :: nv :: rest)) =
      mergeNode E o (.mk nh [nk, nv]) >>= fun o1 => mergeNode E o1 (.mk nh rest) := by
  simp only [mergeNode, merge_mapping E _ [] hn]
  simp only [mergeEntries]
  cases mergeInner E (fun x key => merge E x [key] nv) nk.hd (toMapping o).content <;> rfl

/-- The inner loop under a marker key visits every entry. -/
theorem mergeInner_marker (E : Sed) (f : Node → Str → Res Err Node) (nk : Hdr)
    (hk : ¬ NoMarker nk.value) (cs cs' : List Node) (b : Bool)
    (h : mergeInner E f nk cs = .ok (cs', b)) :
    b = decide (2 ≤ cs.length) ∧ cs'.length = cs.length ∧
    List.Forall₂ (fun p q =>
      q.1 = mergeScalar E (.mk (mergeComments E p.1.hd nk [p.2.hd.value, p.1.hd.value]) p.1.content) nk
        [p.2.hd.value, p.1.hd.value] ∧ f p.2 p.1.hd.value = .ok q.2) (pairs cs) (pairs cs') := by
  have hmk : checkForMarkers nk.value = true := by
    cases hc : checkForMarkers nk.value with
    | true => rfl
    | false => exact absurd ((checkForMarkers_iff _).1 hc) hk
  induction cs using pairInduction generalizing cs' b with
  | h0 => simp [mergeInner] at h; obtain ⟨rfl, rfl⟩ := h; simp [pairs]
  | h1 a => simp [mergeInner] at h; obtain ⟨rfl, rfl⟩ := h; simp [pairs]
  | h2 k v cs ih =>
    simp only [mergeInner, hmk, Bool.not_true, Bool.false_and, Bool.false_eq_true, if_false,
      Res.bind_eq_ok, Res.pure_eq, Res.ok.injEq, Prod.mk.injEq] at h
    obtain ⟨v', hv', ⟨cs1, b1⟩, hr, rfl, rfl⟩ := h
    obtain ⟨h1, h2, h3⟩ := ih cs1 b1 hr
    refine ⟨by simp, by simp [h2], ?_⟩
    simp only [pairs]
    exact .cons ⟨rfl, hv'⟩ h3

/-- C05, full part: an overlay entry whose key contains a marker, merged into a
non-empty mapping, applies to every entry and adds none: as many entries as
before, in the same order, each value being the merge of the overlay's value into
that entry's value (under that entry's own key). -/
theorem C05_marker_key_applies_to_all (E : Sed) (o o' nk nv : Node) (nh : Hdr)
    (hn : nh.kind = .mapping) (ho : o.kind = .mapping) (hw : WellFormed o) (hne : o.content ≠ [])
    (hmk : ¬ NoMarker nk.hd.value)
    (h : mergeNode E o (.mk nh [nk, nv]) = .ok o') :
    o'.hd = o.hd ∧ o'.content.length = o.content.length ∧
    List.Forall₂ (fun p q => merge E p.2 [p.1.hd.value] nv = .ok q.2)
      (pairs o.content) (pairs o'.content) := by
  rw [mergeNode, merge_mapping E o [] hn] at h
  have hto : toMapping o = o := by simp only [toMapping]; rw [if_neg]; simpa using ho
  simp only [mergeEntries, hto, Res.bind_eq_ok] at h
  obtain ⟨⟨cs', b⟩, hi, h⟩ := h
  obtain ⟨h1, h2, h3⟩ := mergeInner_marker E _ nk.hd hmk _ _ _ hi
  have hb : b = true := by
    rw [wf_iff] at hw
    have he : o.content.length % 2 = 0 := by have := hw.1; rw [show o.hd.kind = .mapping from ho] at this; exact this
    rw [h1, decide_eq_true_iff]
    have : o.content.length ≠ 0 := by simpa using hne
    omega
  subst hb
  simp only [if_true, Res.ok.injEq] at h
  subst h
  exact ⟨rfl, h2, h3.imp (fun _ _ h => h.2)⟩

/-- C05, key texts (partial): if the overlay key has no comments of its own, each
key of the outcome is the overlay's key text with every marker replaced by that
entry's own original text (`%k` the key, `%v` the value, `%l %h %f` the key's
comments).  Missing: as for C06, original texts that contain marker text and
templates in which an inserted text completes a marker. -/
theorem C05_key_text_partial (E : Sed) (o o' nk nv : Node) (nh : Hdr)
    (hn : nh.kind = .mapping) (ho : o.kind = .mapping) (hw : WellFormed o) (hne : o.content ≠ [])
    (hmk : ¬ NoMarker nk.hd.value)
    (hc : nk.hd.head = [] ∧ nk.hd.line = [] ∧ nk.hd.foot = [])
    (h : mergeNode E o (.mk nh [nk, nv]) = .ok o') :
    List.Forall₂ (fun p q =>
      let orig := originals p.2.hd.value p.1.hd.value p.1.hd.line p.1.hd.head p.1.hd.foot
      (∀ l, NoMarker (orig l)) → Safe orig (sedResult E.compile E.run) (parse nk.hd.value) →
      q.1.hd.value = meaning orig (sedResult E.compile E.run) (parse nk.hd.value) ∧
      q.1.hd.tag = p.1.hd.tag ∧ q.1.hd.head = p.1.hd.head ∧ q.1.hd.line = p.1.hd.line ∧
      q.1.hd.foot = p.1.hd.foot)
      (pairs o.content) (pairs o'.content) := by
  rw [mergeNode, merge_mapping E o [] hn] at h
  have hto : toMapping o = o := by simp only [toMapping]; rw [if_neg]; simpa using ho
  simp only [mergeEntries, hto, Res.bind_eq_ok] at h
  obtain ⟨⟨cs', b⟩, hi, h⟩ := h
  obtain ⟨h1, h2, h3⟩ := mergeInner_marker E _ nk.hd hmk _ _ _ hi
  have hb : b = true := by
    rw [wf_iff] at hw
    have he : o.content.length % 2 = 0 := by have := hw.1; rw [show o.hd.kind = .mapping from ho] at this; exact this
    rw [h1, decide_eq_true_iff]
    have : o.content.length ≠ 0 := by simpa using hne
    omega
  subst hb
  simp only [if_true, Res.ok.injEq] at h
  subst h
  refine h3.imp (fun p q h => ?_)
  obtain ⟨hq, _⟩ := h
  intro orig hx hs
  have hmc : ∀ (x : Hdr) (vals : List Str), mergeComments E x nk.hd vals = x := by
    intro x vals; simp [mergeComments, hc]
  have hget : (formatVals p.1.hd [p.2.hd.value, p.1.hd.value]).get = orig := by
    funext l
    simp only [orig, formatVals, valueAndKey, Vals.get, originals, trimPrefix_hash]
    grind
  have hf := format_eq E (formatVals p.1.hd [p.2.hd.value, p.1.hd.value]) nk.hd.value
    (by rw [hget]; exact hx) (by rw [hget]; exact hs)
  rw [hget] at hf
  rw [hq, hmc]
  unfold mergeScalar
  simp only [Node.hd_mk, hmc, Node.content_mk]
  split <;> simp [hf]

example :
    let o := mp [sc c!"a", sc c!"1", sc c!"b", sc c!"2"]
    let nk := sc c!"x-%k-%v"
    ¬ NoMarker nk.hd.value ∧ o.content ≠ [] ∧
    mergeNode noSed o (mp [nk, sc c!"%k!"]) =
      .ok (mp [sc c!"x-a-1", sc c!"a!", sc c!"x-b-2", sc c!"b!"]) := by decide

/-- Beside C05: into an empty mapping a marker key is inserted with its markers
removed. -/
theorem C05_empty_target :
    mergeNode noSed (mp []) (mp [sc c!"%k-x", sc c!"1"]) = .ok (mp [sc c!"-x", sc c!"1"]) := by decide

end Yot
