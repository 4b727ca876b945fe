import Verif.Lemmas.Valid
import Verif.Lemmas.HeapStyle
import Verif.Props.Safety
import Verif.Props.JsonPath
import Verif.Props.FromFile
/-
C77: overlays keep documents valid.
-/
namespace Yot
open Spec Ex

/-- The overlay has a valid value, keys without format markers where it is merged, and queries
that find values; where it injects, at paths of names without format markers. -/
structure Spec.Proper (dflt : Str) (o : Overlay) : Prop where
  finds : ∀ q ∈ o.query, FindsValues q
  value : o.action ≠ .delete → ValidNode o.value
  keys : o.action ≠ .delete → o.action ≠ .replace → o.action ≠ .combine → KeysPlain o.value
  injected : Injects dflt o.onMissing → ValidNode o.value ∧
    (∀ q ∈ o.query, PlainPath q.str → NamesOnly q) ∧
    ∀ ip, o.onMissing.injectPath = some ip → ∀ q ∈ ip, FindsValues q ∧ (PlainPath q.str → NamesOnly q)

theorem finds_addr {qs : List Query} (hq : ∀ q ∈ qs, FindsValues q) (d : Node) (hd : GD (fun _ => True) d) :
    ∀ m ∈ findAll qs d.label, m.hd.addr ≠ d.label.hd.addr ∧ m.hd.addr ∉ KA d.label ∧ m.hd.addr ≠ 0 := by
  intro m hm
  rw [mem_findAll] at hm
  have hw : WellFormed d.label := by
    have := (gd_label d).2 hd
    rw [wf_iff]
    exact ⟨by rw [this.1]; trivial, fun c hc => (this.2.2 c hc).wf⟩
  obtain ⟨q, hq1, hq2⟩ : ∃ q ∈ qs, m ∈ q.find d.label := by
    simp only [Matches] at hm
    obtain ⟨_, q, h1, h2⟩ := hm
    exact ⟨q, h1, h2⟩
  obtain ⟨h1, h2, h3⟩ := value_address hw (label_nodup d) (hq q hq1 d ((gd_true d).1 hd) m hq2)
  exact ⟨h1, h2, fun h0 => label_ne_zero d (h0 ▸ h3)⟩

/-- C77: applying an overlay to a valid document gives a valid document. -/
theorem C77_apply (E : Sed) (dflt : Str) (o : Overlay) (d d' : Node) (hd : ValidDocument d) (ho : Proper dflt o)
    (h : applyJob E dflt o d = .ok d') : ValidDocument d' := by
  rw [← gd_true] at hd ⊢
  have hl := (gd_label d).2 hd
  unfold applyJob at h
  rcases apply_cases E dflt o d.label with h1 | ⟨_, h1⟩ | ⟨hI, ⟨e, h1⟩ | h1 | ⟨ip, hip, h1⟩⟩ <;> rw [h1] at h
  · simp only [Res.ok.injEq] at h; exact h ▸ hl
  · unfold doAction at h
    have hv : ValueOk (fun _ => True) o :=
      ⟨fun ha => (gn_true _).2 (ho.value ha), fun ⟨a, b, c⟩ => (gn_plain _).2 ⟨ho.value a, ho.keys a b c⟩⟩
    exact (fold_keepsDoc _ (fun m : Node => m.hd.addr) (fun x m x' hx h0 ha hxx => doOne_keepsDoc E o hv hx h0 ha hxx) _ _ _ hl
      (finds_addr ho.finds d hd) h).1
  · simp at h
  · obtain ⟨i1, i2, _⟩ := ho.injected hI
    exact doInjectPath_valid E o _ hl (fun _ _ => trivial) ((gn_true _).2 i1) i2 (fun d hd => finds_addr ho.finds d hd) h
  · obtain ⟨i1, _, i3⟩ := ho.injected hI
    exact doInjectPath_valid E o _ hl (fun _ _ => trivial) ((gn_true _).2 i1) (fun q hq => (i3 ip hip q hq).2)
      (fun d hd => finds_addr (fun q hq => (i3 ip hip q hq).1) d hd) h

/-- C77: so do any number of overlays one after the other. -/
theorem C77_history (E : Sed) (dflt : Str) (os : List Overlay) (ho : ∀ o ∈ os, Proper dflt o) : ∀ d d', ValidDocument d →
    os.foldlM (fun d o => applyJob E dflt o d) d = .ok d' → ValidDocument d' := by
  induction os with
  | nil => intro d d' hd h; simp at h; exact h ▸ hd
  | cons o os ih =>
    intro d d' hd h
    simp only [List.foldlM_cons, Res.bind_eq_ok] at h
    obtain ⟨d1, h1, h2⟩ := h
    exact ih (fun x hx => ho x (by simp [hx])) d1 d' (C77_apply E dflt o d d1 hd (ho o (by simp)) h1) h2

theorem removeComments_valid (d : Node) (h : ValidDocument d) : ValidDocument (removeComments d) := by
  have key : ∀ n : Node, ValidNode n → ValidNode (stripped n) := by
    intro n
    induction n using Node.ind with
    | h hd cs ih =>
      rw [validNode_mk]
      rintro ⟨h1, h2, h3, h4⟩
      have hs : stripped (.mk hd cs) = .mk (noComments hd) (cs.map stripped) := by
        rw [stripped, removeComments, removeCommentsL_eq_map]
      rw [hs, validNode_mk]
      refine ⟨by simpa [noComments, ValidHdr] using h1, by simpa [noComments] using h2, ?_, ?_⟩
      · intro hk
        rw [keys_map (f := stripped)]
        · exact h3 hk
        · rintro ⟨⟨kh, kc⟩, v⟩ _
          simp [stripped, removeComments, noComments]
      · intro c hc
        obtain ⟨x, hx, rfl⟩ := List.mem_map.1 hc
        exact ih x hx (h4 x hx)
  obtain ⟨hd, cs⟩ := d
  rw [removeComments_mk]
  refine ⟨h.1, by simpa using h.2.1, ?_⟩
  intro c hc
  obtain ⟨x, hx, rfl⟩ := List.mem_map.1 hc
  exact key x (h.2.2 x hx)

theorem setStyle_valid (s : Nat) (d : Node) (h : ValidDocument d) : ValidDocument (setStyle s d) := by
  have key : ∀ n : Node, ValidNode n → ValidNode (setStyle s n) := by
    intro n
    induction n using Node.ind with
    | h hd cs ih =>
      rw [validNode_mk]
      rintro ⟨h1, h2, h3, h4⟩
      have hkk : (setStyle s (.mk hd cs)) = .mk { hd with style := s } (cs.map (setStyle s)) := by
        rw [setStyle, setStyles_eq_map']
        rcases h1.1 with hk | hk | hk | hk <;> simp only [hk]
        simp [hk, Shaped] at h2
        simp [h2]
      rw [hkk, validNode_mk]
      refine ⟨by simpa [ValidHdr] using h1, by simpa using h2, ?_, ?_⟩
      · intro hk
        rw [keys_map (f := setStyle s)]
        · exact h3 hk
        · rintro ⟨⟨kh, kc⟩, v⟩ _
          rw [setStyle]
          split <;> rfl
      · intro c hc
        obtain ⟨x, hx, rfl⟩ := List.mem_map.1 hc
        exact ih x hx (h4 x hx)
  obtain ⟨hd, cs⟩ := d
  have hk : hd.kind = .document := h.1
  rw [setStyle, setStyles_eq_map']
  simp only [hk]
  refine ⟨rfl, by simpa using h.2.1, ?_⟩
  intro c hc
  obtain ⟨x, hx, rfl⟩ := List.mem_map.1 hc
  exact key x (h.2.2 x hx)

theorem applyItems_valid (E : Sed) (dflt : Str) (os : List (Option DOverlay)) (ho : ∀ o, some o ∈ os → Proper dflt o.base) :
    ∀ d d', ValidDocument d → applyItems E dflt os d = .ok d' → ValidDocument d' := by
  induction os with
  | nil => intro d d' hd h; simp [applyItems] at h; exact h ▸ hd
  | cons x os ih =>
    intro d d' hd h
    cases x with
    | none => simp [applyItems] at h
    | some o =>
      simp only [applyItems, Res.bind_eq_ok] at h
      obtain ⟨d1, h1, h2⟩ := h
      refine ih (fun o ho' => ho o (by simp [ho'])) d1 d' ?_ h2
      have hs := ho o (by simp)
      unfold DOverlay.apply at h1
      split at h1
      · simp at h1
      · simp only [Res.ok.injEq] at h1; subst h1
        exact (gd_true _).1 ((gd_label d).2 ((gd_true d).2 hd))
      · split at h1
        · simp at h1
        · exact C77_apply E dflt { o.base with documentQuery := [] } d d1 hd ⟨hs.finds, hs.value, hs.keys, hs.injected⟩ h1

/-- C77: what a run writes.  If the documents of an input are valid and all overlays for it are
proper, every document of the result is valid, and so is what is given to the encoder. -/
theorem C77_run (T : Task) (P : Setup) (p : Str) (docs : List Node)
    (hin : ∀ d ∈ documentsOf P.read1 P.read2 (expand P.fs P.dir T.files) p, ValidDocument d)
    (ho : ∀ i o, some o ∈ T.overlaysOn P p i → Proper P.dflt o.base)
    (h : T.FileResult P p docs) : ∀ d ∈ docs, ValidDocument d ∧ ∀ s, ValidDocument (setStyle s d) := by
  intro d hd
  obtain ⟨i, hi⟩ := List.mem_iff_getElem?.1 hd
  have hlt : i < (T.contents P p).length := by
    rw [← h.1]; exact (List.getElem?_eq_some_iff.1 hi).1
  obtain ⟨d', h1, h2⟩ := h.2 i _ (List.getElem?_eq_getElem hlt)
  rw [hi, Option.some.injEq] at h1
  subst h1
  have hv : ValidDocument (T.contents P p)[i] := by
    have hmem := List.getElem_mem hlt
    generalize (T.contents P p)[i] = x at hmem
    simp only [Task.contents] at hmem
    split at hmem
    · obtain ⟨y, hy, rfl⟩ := List.mem_map.1 hmem
      exact removeComments_valid y (hin y hy)
    · exact hin x hmem
  have := applyItems_valid P.sed P.dflt _ (fun o => ho i o) _ _ hv h2
  exact ⟨this, fun s => setStyle_valid s d this⟩

/-! Which queries find values. -/

theorem valueNodes_mk (m : Node) (h : Hdr) (cs : List Node) : m ∈ valueNodes (.mk h cs) ↔
    m ∈ (if h.kind = .mapping then (pairs cs).map (·.2) else cs) ∨ ∃ c ∈ cs, m ∈ valueNodes c := by
  rw [valueNodes, List.mem_append, valueNodess_mem]

theorem valueNodes_trans {t c m : Node} (hc : c ∈ nodesOf t) (hm : m ∈ valueNodes c) : m ∈ valueNodes t := by
  induction t using Node.ind with
  | h hd cs ih =>
    rw [nodesOf_mem] at hc
    rcases hc with rfl | ⟨x, hx, hc⟩
    · exact hm
    · rw [valueNodes_mk]; exact .inr ⟨x, hx, ih x hx hc⟩

theorem valueNodes_nodes {t m : Node} (hm : m ∈ valueNodes t) : m ∈ nodesOf t := by
  induction t using Node.ind with
  | h hd cs ih =>
    rw [nodesOf_mem]
    rw [valueNodes_mk] at hm
    right
    rcases hm with hm | ⟨c, hc, hm⟩
    · refine ⟨m, ?_, by obtain ⟨mh, ms⟩ := m; simp [nodesOf]⟩
      split at hm
      · obtain ⟨e, he, rfl⟩ := List.mem_map.1 hm
        clear ih
        simp only [Node.content_mk]
        induction cs using pairInduction with
        | h0 => simp [pairs] at he
        | h1 => simp [pairs] at he
        | h2 k v cs ih =>
          simp only [pairs, List.mem_cons] at he
          rcases he with rfl | he
          · simp
          · simp [ih he (List.mem_map_of_mem he)]
      · exact hm
    · exact ⟨c, hc, ih c hc hm⟩

/-- The step goes to values or elements. -/
def PStep.toValues : PStep → Bool
  | .names _ => true
  | .all => true
  | .items _ => true
  | .filter _ => true
  | _ => false

theorem go_values {root : Node} {s : PStep} (hs : PStep.toValues s = true) {t m : Node} (hm : m ∈ s.go root t) : m ∈ valueNodes t := by
  have hm : m ∈ childValues t := by
    have hd : PStep.goesDown s = true := by cases s <;> simp [PStep.toValues] at hs <;> rfl
    obtain ⟨⟨how, c⟩, he, ha, rfl⟩ := (go_edges root s hd m).1 hm
    refine (values_edges root).2 ⟨_, he, ?_, rfl⟩
    cases how with
    | value => rfl
    | item => rfl
    | key => cases s <;> simp [PStep.toValues] at hs <;> simp [PStep.along] at ha
  obtain ⟨h, cs⟩ := t
  rw [valueNodes_mk]
  left
  unfold childValues at hm
  simp only [Node.hd_mk, Node.content_mk] at hm
  split
  · rename_i hk; simpa [hk] using hm
  · rename_i hk
    by_cases hk2 : h.kind = .sequence
    · simpa [hk, hk2] using hm
    · simp [hk, hk2] at hm

theorem nodesOf_trans {t c m : Node} (hc : c ∈ nodesOf t) (hm : m ∈ nodesOf c) : m ∈ nodesOf t := by
  induction t using Node.ind with
  | h hd cs ih =>
    rcases (nodesOf_mem _ _).1 hc with rfl | ⟨x, hx, hc⟩
    · exact hm
    · exact nodesOf_child (t := .mk hd cs) hx (ih x hx hc)

theorem follows_values (root D : Node) (ss : List PStep) : ∀ (top : Bool) (t m : Node), t ∈ nodesOf D → (top = true → t ∈ valueNodes D) →
    endsOnValue top ss = true → m ∈ follows root ss t → m ∈ valueNodes D := by
  induction ss with
  | nil => intro top t m _ hv he hm; simp only [follows, List.mem_singleton] at hm; subst hm; exact hv he
  | cons s ss ih =>
    intro top t m ht hv he hm
    rw [follows, List.mem_flatMap] at hm
    obtain ⟨x, hx, hm⟩ := hm
    have down : PStep.goesDown s = true → x ∈ nodesOf D := fun h => nodesOf_trans ht (nodesOf_child (go_mem h hx) (nodesOf_self x))
    by_cases hs : PStep.toValues s = true
    · refine ih true x m (down ?_) (fun _ => valueNodes_trans ht (go_values hs hx)) ?_ hm
      · cases s <;> simp [PStep.toValues] at hs <;> rfl
      · cases s <;> simp [PStep.toValues] at hs <;> exact he
    · cases s with
      | test p =>
        rw [PStep.go] at hx
        split at hx
        · rw [List.mem_singleton] at hx; subst hx; exact ih top x m ht hv he hm
        · simp at hx
      | keysOf ks => exact ih false x m (down rfl) (by simp) he hm
      | allKeys => exact ih false x m (down rfl) (by simp) he hm
      | anywhere => exact ih false x m (nodesOf_trans ht hx) (by simp) he hm
      | _ => simp [PStep.toValues] at hs

/-- C77: queries that end on values find values. -/
theorem C77_steps_find_values (q : Query) (ss : List PStep) (hq : q.find = findSteps ss) (hl : endsOnValue true ss = true) :
    FindsValues q := by
  intro d hd m hm
  rw [hq, findSteps] at hm
  have hl' := (gd_true d.label).1 ((gd_label d).2 ((gd_true d).2 hd))
  rw [if_pos hl'.1] at hm
  split at hm
  · rename_i c cs hc
    revert hc hl' hm
    generalize d.label = x
    obtain ⟨h, ds⟩ := x
    intro hl' hc hm
    obtain rfl : ds = c :: cs := hc
    refine follows_values _ (.mk h (c :: cs)) ss true c m (nodesOf_child (t := .mk h (c :: cs)) (by simp) (nodesOf_self c)) (fun _ => ?_) hl hm
    rw [valueNodes_mk, if_neg (by simp [show h.kind = .document from hl'.1])]
    exact .inl (by simp)
  · simp at hm

/-! A case, and what goes wrong without the conditions. -/

/-- `{a: 1, b: 2}` -/
def twoKeys : Node := dc (mp [sc c!"a", sc c!"1", sc c!"b", sc c!"2"])
/-- The kinds of what is in the resulting document, with the keys. -/
def outKeys : Res Err Node → Option (List (Kind × List Str))
  | .ok d => some (d.content.map fun c => (c.hd.kind, keys c.content))
  | _ => none

theorem twoKeys_valid : ValidDocument twoKeys := by
  simp [twoKeys, dc, mp, sc, ValidDocument, ValidNode, ValidNodes, ValidHdr, TagFits, Shaped, scalarTags, keys, pairs]

example : ValidDocument (dc (mp [sc c!"a", mp [sc c!"x", sc c!"1"], sc c!"b", sq [sc c!"2"]])) := by
  simp [dc, mp, sq, sc, ValidDocument, ValidNode, ValidNodes, ValidHdr, TagFits, Shaped, scalarTags, keys, pairs]

/-- `{x: 1}` merged at `a` of `{a: 1, b: 2}`. -/
def goodOverlay : Overlay := { query := [⟨c!"$.a", findSteps [.child c!"a"]⟩], value := mp [sc c!"x", sc c!"1"], action := .merge }

example : Proper c!"" goodOverlay ∧
    tree (applyJob noSed c!"" goodOverlay twoKeys) =
      some (dc (mp [sc c!"a", mp [sc c!"x", sc c!"1"], sc c!"b", sc c!"2"])) := by
  refine ⟨⟨?_, ?_, ?_, ?_⟩, by decide⟩
  · intro q hq
    simp only [goodOverlay, List.mem_singleton] at hq
    subst hq
    exact C77_steps_find_values _ _ rfl rfl
  · intro _
    simp [goodOverlay, mp, sc, ValidNode, ValidNodes, ValidHdr, TagFits, Shaped, scalarTags, keys, pairs]
  · intro _ _ _
    simp only [goodOverlay, mp, sc, KeysPlain, KeysPlains, keys, pairs]
    decide
  · intro h
    exact absurd h (by simp [Injects, Effective, goodOverlay, AnyCase]; try decide)

/-- `k` injected at `x.y`. -/
def goodInjection : Overlay := { query := [⟨c!"x.y", findNames [c!"x", c!"y"]⟩], value := sc c!"k", action := .replace, onMissing := { action := .inject } }

example : Proper c!"" goodInjection ∧ Injects c!"" goodInjection.onMissing ∧
    outKeys (applyJob noSed c!"" goodInjection twoKeys) = some [(.mapping, [c!"a", c!"b", c!"x"])] := by
  have hf : ∀ q ∈ goodInjection.query, FindsValues q := by
    intro q hq
    simp only [goodInjection, List.mem_singleton] at hq
    subst hq
    exact C77_steps_find_values _ _ (C75_names [c!"x", c!"y"]).symm rfl
  have hv : ValidNode goodInjection.value := by
    simp [goodInjection, sc, ValidNode, ValidNodes, ValidHdr, TagFits, Shaped]
  refine ⟨⟨hf, fun _ => hv, fun _ h => absurd rfl h, fun _ => ⟨hv, ?_, by simp [goodInjection]⟩⟩, .inl ⟨by decide, rfl⟩, by decide +kernel⟩
  intro q hq _
  simp only [goodInjection, List.mem_singleton] at hq
  subst hq
  refine ⟨[c!"x", c!"y"], .inr ⟨c!"x", [c!"y"], rfl, ?_, by decide, rfl⟩, ?_⟩ <;>
  · intro k hk
    simp only [List.mem_cons, List.not_mem_nil, or_false] at hk
    rcases hk with rfl | rfl <;> first | exact ⟨⟨by decide, by decide⟩, by decide⟩ | decide

theorem outKeys_invalid {r : Res Err Node} {ks : List Str} (h : outKeys r = some [(.mapping, ks)]) (hn : ¬ ks.Nodup) :
    ∃ d', r = .ok d' ∧ ¬ ValidDocument d' := by
  cases r with
  | err e => simp [outKeys] at h
  | panic => simp [outKeys] at h
  | ok d =>
    refine ⟨d, rfl, fun hv => ?_⟩
    simp only [outKeys, Option.some.injEq, List.map_eq_cons_iff, List.map_eq_nil_iff, Prod.mk.injEq] at h
    obtain ⟨⟨hd, cs⟩, _, h1, ⟨h2, h3⟩, _⟩ := h
    have := hv.2.2 (.mk hd cs) (by simp [h1])
    rw [validNode_mk] at this
    have h4 := this.2.2.1 h2
    simp only [Node.content_mk] at h3
    exact hn (h3 ▸ h4)

theorem outKeys_kindless {r : Res Err Node} {ks : List Str} (h : outKeys r = some [(.zero, ks)]) :
    ∃ d', r = .ok d' ∧ ¬ ValidDocument d' := by
  cases r with
  | err e => simp [outKeys] at h
  | panic => simp [outKeys] at h
  | ok d =>
    refine ⟨d, rfl, fun hv => ?_⟩
    simp only [outKeys, Option.some.injEq, List.map_eq_cons_iff, List.map_eq_nil_iff, Prod.mk.injEq] at h
    obtain ⟨⟨hd, cs⟩, _, h1, ⟨h2, h3⟩, _⟩ := h
    have := hv.2.2 (.mk hd cs) (by simp [h1])
    rw [validNode_mk] at this
    have h4 := this.1.1
    simp only [Node.hd_mk] at h2
    simp [h2] at h4

theorem outKeys_inner {r : Res Err Node} {ks : List Str}
    (h : ∃ d hd cs c, r = .ok d ∧ d.content = [.mk hd cs] ∧ c ∈ cs ∧ c.hd.kind = .mapping ∧ keys c.content = ks) (hn : ¬ ks.Nodup) :
    ∃ d', r = .ok d' ∧ ¬ ValidDocument d' := by
  obtain ⟨d, hd, cs, ⟨ch, cc⟩, h1, h2, h3, h4, h5⟩ := h
  refine ⟨d, h1, fun hv => ?_⟩
  have := hv.2.2 (.mk hd cs) (by simp [h2])
  rw [validNode_mk] at this
  have h6 := this.2.2.2 _ h3
  rw [validNode_mk] at h6
  exact hn (h5 ▸ h6.2.2.1 h4)

/-- C77: with a format marker in a key, merging into the valid document `{a: 1, b: 2}` gives two
entries with the same key. -/
theorem C77_marker_key : ValidDocument twoKeys ∧ ∃ d', applyJob noSed c!""
    { query := [⟨c!"$", findNames []⟩], value := mp [sc c!"p%h", sc c!"7"], action := .merge } twoKeys = .ok d' ∧ ¬ ValidDocument d' :=
  ⟨twoKeys_valid, outKeys_invalid (ks := [c!"p", c!"p"]) (by decide) (by decide)⟩

/-- C77: so does a query that finds keys. -/
theorem C77_key_query : ValidDocument twoKeys ∧ ∃ d', applyJob noSed c!""
    { query := [⟨c!"$.*~", keyNodes⟩], value := sc c!"k", action := .replace } twoKeys = .ok d' ∧ ¬ ValidDocument d' :=
  ⟨twoKeys_valid, outKeys_invalid (ks := [c!"k", c!"k"]) (by decide) (by decide)⟩

/-- C77: and injecting at a path that repeats a name in one pair of brackets. -/
theorem C77_repeated_name : ValidDocument twoKeys ∧ ∃ d', applyJob noSed c!""
    { query := [⟨c!"x['y','y']", findNames [c!"x", c!"y"]⟩], value := sc c!"k", action := .replace, onMissing := { action := .inject } }
    twoKeys = .ok d' ∧ ¬ ValidDocument d' :=
  ⟨twoKeys_valid, outKeys_inner (ks := [c!"y", c!"y"]) ⟨_, _, _, _, rfl, rfl, List.mem_of_getElem? (i := 5) rfl, rfl, rfl⟩ (by decide)⟩

/-- C77: and an overlay that replaces and has no value leaves a node of no kind. -/
theorem C77_no_value : ValidDocument twoKeys ∧ ∃ d', applyJob noSed c!""
    { query := [⟨c!"$", findNames []⟩], action := .replace } twoKeys = .ok d' ∧ ¬ ValidDocument d' :=
  ⟨twoKeys_valid, outKeys_kindless (ks := []) (by decide)⟩

end Yot
