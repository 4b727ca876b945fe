import Verif.Lemmas.DecodeStructs
import Verif.Spec.Build
/-
C59–C64: reading the instructions file.
-/
namespace Yot
open Spec Ex

/-- Concrete library functions for the examples: integers are "0" and "1", every text
is a path that finds the root. -/
def exDec : Dec where
  int := fun n => if n.hd.value = c!"0" then some 0 else if n.hd.value = c!"1" then some 1 else none
  path := fun s => if s = c!"[" then none else some (fun n => [n])
  nodes := fun n => if isNull n then some [] else none

/-- A null node. -/
def nul : Node := sc c!"~" c!"!!null"

/-! ### C59 -/

/-- **C59** Reading the instructions file gives the instructions its keys describe, and
succeeds whenever the keys describe some. -/
theorem C59_means_what_it_says (D : Dec) (doc : Node) (i : DInstr) :
    decodeInstructions D (some doc) = some i ↔ InstructionsAre D doc i :=
  decodeInstructions_iff D doc i

/-- **C59** An overlay is read as its keys describe it. -/
theorem C59_overlay (D : Dec) (n : Node) (o : DOverlay) : decodeOverlay D n = .val o ↔ ¬ Null n ∧ OverlayIs D n o :=
  (decodeOverlay_decodes D).val n o

/-- An instructions file with both sections. -/
def exFile : Node := dc (mp [
  sc c!"yamlFiles", sq [mp [sc c!"path", sc c!"a.yaml", sc c!"overlays", sq [mp [
      sc c!"query", sc c!"metadata", sc c!"action", sc c!"Delete", sc c!"documentIndex", sq [sc c!"1"]]]]],
  sc c!"commonOverlays", sq [mp [sc c!"name", sc c!"n", sc c!"query", sq [sc c!"a", sc c!"b"], sc c!"value", sc c!"x"]]])

example : ∃ i, decodeInstructions exDec (some exFile) = some i ∧ i.files.length = 1 ∧ i.common.length = 1 ∧
    (∃ o, i.common = [some o] ∧ o.base.action = .merge ∧ o.base.query.map Query.str = [c!"a", c!"b"]) := by
  exact ⟨_, rfl, rfl, rfl, _, rfl, rfl, rfl⟩

theorem setting_same {α : Type} {R : Node → α → Prop} {n n' : Node} {k : Str} (h : ∀ v, KeyAt n k v ↔ KeyAt n' k v) {d a : α} :
    SettingIs R n k d a ↔ SettingIs R n' k d a := by
  unfold SettingIs
  simp only [h]

theorem nodeSetting_same {n n' : Node} {k : Str} (h : ∀ v, KeyAt n k v ↔ KeyAt n' k v) {a : Node} :
    NodeSetting n k a ↔ NodeSetting n' k a := by
  unfold NodeSetting
  simp only [h]

theorem sameSettings_symm {ks : List Str} {n n' : Node} (h : SameSettings ks n n') : SameSettings ks n' n :=
  ⟨h.2.1, h.1, fun k hk v => (h.2.2 k hk v).symm⟩

/-- The keys of a mapping in another order. -/
theorem sameSettings_perm (ks : List Str) (n n' : Node) (hk : Keyed n) (hm : n'.kind = .mapping)
    (hp : (pairs n.content).Perm (pairs n'.content)) : SameSettings ks n n' := by
  refine ⟨hk, ⟨hm, fun e he => hk.2.1 e (hp.mem_iff.2 he), ?_⟩, ?_⟩
  · exact ((hp.map (fun e : Node × Node => e.1.hd.value)).nodup_iff).1 hk.2.2
  · intro k _ v
    unfold KeyAt
    simp only [hp.mem_iff]

theorem decodes_same {α : Type} {g : Node → Got α} {R : Node → α → Prop} (hg : Decodes g R) {n n' : Node} {ks : List Str}
    (h : SameSettings ks n n') (hR : ∀ a, R n a ↔ R n' a) : g n = g n' := by
  have h1 : ∀ m, Keyed m → ¬ Null m := by
    rintro m hm ⟨h1, _⟩
    rw [hm.1] at h1; cases h1
  cases hn : g n with
  | err =>
    cases hn' : g n' with
    | err => rfl
    | skip => exact absurd ((hg.skip n').1 hn') (h1 n' h.2.1)
    | val a =>
      rw [(hg.val n a).2 ⟨h1 n h.1, (hR a).2 ((hg.val n' a).1 hn').2⟩] at hn; cases hn
  | skip => exact absurd ((hg.skip n).1 hn) (h1 n h.1)
  | val a => exact ((hg.val n' a).2 ⟨h1 n' h.2.1, (hR a).1 ((hg.val n a).1 hn).2⟩).symm

/-- **C59** The order of the keys of an overlay, and keys the tool does not know, do
not matter. -/
theorem C59_overlay_keys (D : Dec) (n n' : Node) (h : SameSettings overlayKeys n n') :
    decodeOverlay D n = decodeOverlay D n' := by
  have dir : ∀ n n', SameSettings overlayKeys n n' → ∀ a, OverlayIs D n a → OverlayIs D n' a := by
    intro n n' h a H
    have e : ∀ k ∈ overlayKeys, ∀ v, KeyAt n k v ↔ KeyAt n' k v := h.2.2
    obtain ⟨t, b, h1, h2, h3⟩ := H.nameAndAction
    exact ⟨h.2.1, ⟨t, b, (setting_same (e _ (by decide))).1 h1, (setting_same (e _ (by decide))).1 h2, h3⟩,
      (setting_same (e _ (by decide))).1 H.query, (nodeSetting_same (e _ (by decide))).1 H.value,
      (setting_same (e _ (by decide))).1 H.documentQuery, (setting_same (e _ (by decide))).1 H.onMissing,
      (setting_same (e _ (by decide))).1 H.documentIndex, H.rest⟩
  exact decodes_same (decodeOverlay_decodes D) h (fun a => ⟨dir n n' h a, dir n' n (sameSettings_symm h) a⟩)

/-- **C59** Nor for an entry under `documents`. -/
theorem C59_document_keys (D : Dec) (n n' : Node) (h : SameSettings documentKeys n n') :
    decodeDocument D n = decodeDocument D n' := by
  have dir : ∀ n n', SameSettings documentKeys n n' → ∀ a, DocumentIs D n a → DocumentIs D n' a := by
    intro n n' h a H
    have e : ∀ k ∈ documentKeys, ∀ v, KeyAt n k v ↔ KeyAt n' k v := h.2.2
    exact ⟨h.2.1, (setting_same (e _ (by decide))).1 H.name, (setting_same (e _ (by decide))).1 H.path,
      (setting_same (e _ (by decide))).1 H.overlays⟩
  exact decodes_same (decodeDocument_decodes D) h (fun a => ⟨dir n n' h a, dir n' n (sameSettings_symm h) a⟩)

/-- **C59** Nor for an entry under `yamlFiles`. -/
theorem C59_file_keys (D : Dec) (n n' : Node) (h : SameSettings fileKeys n n') : decodeFile D n = decodeFile D n' := by
  have dir : ∀ n n', SameSettings fileKeys n n' → ∀ a, FileIs D n a → FileIs D n' a := by
    intro n n' h a H
    have e : ∀ k ∈ fileKeys, ∀ v, KeyAt n k v ↔ KeyAt n' k v := h.2.2
    refine ⟨h.2.1, (setting_same (e _ (by decide))).1 H.name, (setting_same (e _ (by decide))).1 H.overlays,
      (setting_same (e _ (by decide))).1 H.documents, ?_, ?_, (setting_same (e _ (by decide))).1 H.path,
      (setting_same (e _ (by decide))).1 H.outputPath⟩
    · intro hno
      exact H.nodes (fun ⟨v, hv⟩ => hno ⟨v, (e _ (by decide) v).1 hv⟩)
    · intro v hv
      exact H.nodesRead v ((e _ (by decide) v).2 hv)
  exact decodes_same (decodeFile_decodes D) h (fun a => ⟨dir n n' h a, dir n' n (sameSettings_symm h) a⟩)

/-- **C59** Nor for the file as a whole. -/
theorem C59_instruction_keys (D : Dec) (h h' : Hdr) (n n' : Node) (r r' : List Node)
    (hs : SameSettings instructionKeys n n') :
    decodeInstructions D (some (.mk h (n :: r))) = decodeInstructions D (some (.mk h' (n' :: r'))) := by
  have dir : ∀ n n', SameSettings instructionKeys n n' → ∀ a, InstrIs D n a → InstrIs D n' a := by
    intro n n' h a H
    have e : ∀ k ∈ instructionKeys, ∀ v, KeyAt n k v ↔ KeyAt n' k v := h.2.2
    exact ⟨h.2.1, (setting_same (e _ (by decide))).1 H.common, (setting_same (e _ (by decide))).1 H.files⟩
  unfold decodeInstructions
  simp only [Node.content_mk]
  rw [decodes_same (instr_decodes D) hs (fun a => ⟨dir n n' hs a, dir n' n (sameSettings_symm hs) a⟩)]

example : SameSettings overlayKeys
    (mp [sc c!"query", sc c!"a", sc c!"action", sc c!"delete"])
    (mp [sc c!"comment", sc c!"why", sc c!"action", sc c!"delete", sc c!"query", sc c!"a"]) := by
  refine ⟨⟨rfl, by decide, by decide⟩, ⟨rfl, by decide, by decide⟩, ?_⟩
  intro k hk v
  constructor
  · rintro ⟨kn, hm, hr⟩
    exact ⟨kn, by simp [mp, pairs] at hm ⊢; tauto, hr⟩
  · rintro ⟨kn, hm, hr⟩
    refine ⟨kn, ?_, hr⟩
    simp [mp, pairs] at hm ⊢
    rcases hm with ⟨rfl, rfl⟩ | hm | hm
    · exfalso
      have : k = c!"comment" := hr.2.2.symm
      subst this
      revert hk; decide
    · exact .inr hm
    · exact .inl hm

/-- The order of keys matters for nothing: two spellings of one overlay. -/
example : SameSettings overlayKeys (mp [sc c!"query", sc c!"a", sc c!"action", sc c!"delete"])
    (mp [sc c!"action", sc c!"delete", sc c!"query", sc c!"a"]) :=
  sameSettings_perm _ _ _ ⟨rfl, by decide, by decide⟩ rfl (.swap _ _ _)

/-! ### C60 -/

/-- **C60** An overlay without `action` (or with null) merges. -/
theorem C60_action (D : Dec) (n : Node) (o : DOverlay) (h : decodeOverlay D n = .val o)
    (hno : ∀ v, KeyAt n c!"action" v → Null v) (E : Sed) (dflt : Str) (doc : Node) :
    o.apply E dflt doc = { o with base := { o.base with action := .merge } }.apply E dflt doc := by
  obtain ⟨_, H⟩ := (decodeOverlay_decodes D).val n o |>.1 h
  obtain ⟨t, a, _, ha, _, hact⟩ := H.nameAndAction
  have : a = .invalid := by
    rcases ha with ⟨v, h1, h2, _⟩ | ⟨_, h1⟩
    · exact absurd (hno v h1) h2
    · exact h1
  have hcase : o.base.action = .invalid ∨ o.base.action = .merge := by
    rw [hact, this]
    split
    · exact .inr rfl
    · exact .inl rfl
  unfold DOverlay.apply
  have key : Yot.apply E dflt { o.base with documentQuery := [] } doc =
      Yot.apply E dflt { o.base with action := .merge, documentQuery := [] } doc := by
    have hd : ∀ r ns, doAction E { o.base with documentQuery := [] } r ns =
        doAction E { o.base with action := .merge, documentQuery := [] } r ns := by
      intro r ns
      unfold doAction doOne
      rcases hcase with hc | hc <;> simp only [hc]
    unfold Yot.apply
    dsimp only
    rw [hd]
    rfl
  cases checkQueriesN o.queries doc with
  | none => rfl
  | some b =>
    have hp : ∀ o' : DOverlay, o'.pathless = false → o'.usesNilPath E dflt doc = false := by
      intro o' h; simp [DOverlay.usesNilPath, h]
    cases b with
    | false => rfl
    | true =>
      dsimp only
      rw [hp o H.rest.2, hp _ (show DOverlay.pathless { o with base := { o.base with action := .merge } } = false from H.rest.2)]
      exact key

/-- **C60** An overlay without `documentIndex` (or with null) is for all documents; an
empty list means none; otherwise it is for those listed. -/
theorem C60_documentIndex (D : Dec) (n : Node) (o : DOverlay) (h : decodeOverlay D n = .val o) (i : Int) :
    o.base.checkDocumentIndex i = true ↔
      (∀ v, KeyAt n c!"documentIndex" v → Null v) ∨
      ∃ v, KeyAt n c!"documentIndex" v ∧ ∃ c ∈ v.content, ¬ Null c ∧ D.int c = some i := by
  obtain ⟨_, H⟩ := (decodeOverlay_decodes D).val n o |>.1 h
  have hk := H.keyed
  unfold Overlay.checkDocumentIndex
  rcases H.documentIndex with ⟨v, h1, h2, is, ⟨hs, hf⟩, h3⟩ | ⟨h1, h2⟩
  · rw [h3]
    simp only [List.any_eq_true, decide_eq_true_eq]
    have hno : ¬ ∀ v, KeyAt n c!"documentIndex" v → Null v := fun hc => h2 (hc v h1)
    simp only [hno, false_or]
    constructor
    · rintro ⟨j, hj, rfl⟩
      refine ⟨v, h1, ?_⟩
      have hg := List.forall₂_iff_get.1 hf
      obtain ⟨c, hc, hr⟩ : ∃ c ∈ v.content.filter (fun c => decide (¬ Null c)), D.int c = some i := by
        obtain ⟨m, hm, rfl⟩ := List.getElem_of_mem hj
        refine ⟨(v.content.filter (fun c => decide (¬ Null c)))[m]'(by rw [hg.1]; exact hm), ?_, ?_⟩
        · exact List.getElem_mem _
        · exact (hg.2 m (by rw [hg.1]; exact hm) hm).2
      simp only [List.mem_filter, decide_eq_true_eq] at hc
      exact ⟨c, hc.1, hc.2, hr⟩
    · rintro ⟨w, hw, c, hc, hn, hi⟩
      have := at_unique hk hw h1
      subst this
      have hg := List.forall₂_iff_get.1 hf
      have hm : c ∈ w.content.filter (fun c => decide (¬ Null c)) := by simp [hc, hn]
      obtain ⟨m, hm, hmc⟩ := List.getElem_of_mem hm
      have := (hg.2 m hm (by rw [← hg.1]; exact hm)).2
      simp only [List.get_eq_getElem, hmc, hi, Option.some.injEq] at this
      exact ⟨_, List.getElem_mem _, this⟩
  · rw [h2]
    simp only [true_iff]
    exact .inl h1

example : decodeOverlay exDec (mp [sc c!"query", sc c!"a", sc c!"documentIndex", sq []]) =
    .val ⟨{ name := c!"a", query := [⟨c!"a", fun n => [n]⟩], documentIndex := some [] }, [], false⟩ := rfl

/-- **C60** Writing a setting as null is the same as not writing it (but for `value`,
where the null itself is the value). -/
theorem C60_null_is_absent (D : Dec) (n n' : Node) (k : Str) (hk : k ≠ c!"value") (hn : Keyed n) (hn' : Keyed n')
    (hnull : ∃ v, KeyAt n k v ∧ Null v) (habs : ¬ ∃ v, KeyAt n' k v)
    (hsame : ∀ j ∈ overlayKeys, j ≠ k → ∀ v, KeyAt n j v ↔ KeyAt n' j v) : decodeOverlay D n = decodeOverlay D n' := by
  obtain ⟨v0, hv0, hnv0⟩ := hnull
  have nulls : ∀ v, KeyAt n k v → Null v := fun v hv => at_unique hn hv hv0 ▸ hnv0
  have key : ∀ {α : Type} {R : Node → α → Prop} {j : Str}, j ∈ overlayKeys → ∀ {d a : α}, SettingIs R n j d a ↔ SettingIs R n' j d a := by
    intro α R j hj d a
    by_cases hjk : j = k
    · subst hjk
      unfold SettingIs
      constructor
      · rintro (⟨v, h1, h2, _⟩ | ⟨_, h2⟩)
        · exact absurd (nulls v h1) h2
        · exact .inr ⟨fun v hv => absurd ⟨v, hv⟩ habs, h2⟩
      · rintro (⟨v, h1, _⟩ | ⟨_, h2⟩)
        · exact absurd ⟨v, h1⟩ habs
        · exact .inr ⟨nulls, h2⟩
    · exact setting_same (hsame j hj hjk)
  have hval : ∀ {a}, NodeSetting n c!"value" a ↔ NodeSetting n' c!"value" a :=
    nodeSetting_same (hsame _ (by decide) (fun h => hk h.symm))
  have hR : ∀ a, OverlayIs D n a ↔ OverlayIs D n' a := by
    intro a
    constructor
    · intro H
      obtain ⟨t, b, h1, h2, h3⟩ := H.nameAndAction
      exact ⟨hn', ⟨t, b, (key (by decide)).1 h1, (key (by decide)).1 h2, h3⟩, (key (by decide)).1 H.query, hval.1 H.value,
        (key (by decide)).1 H.documentQuery, (key (by decide)).1 H.onMissing, (key (by decide)).1 H.documentIndex, H.rest⟩
    · intro H
      obtain ⟨t, b, h1, h2, h3⟩ := H.nameAndAction
      exact ⟨hn, ⟨t, b, (key (by decide)).2 h1, (key (by decide)).2 h2, h3⟩, (key (by decide)).2 H.query, hval.2 H.value,
        (key (by decide)).2 H.documentQuery, (key (by decide)).2 H.onMissing, (key (by decide)).2 H.documentIndex, H.rest⟩
  exact decodes_same (ks := []) (decodeOverlay_decodes D) ⟨hn, hn', by simp⟩ hR

example : decodeOverlay exDec (mp [sc c!"query", sc c!"a", sc c!"onMissing", nul]) =
    decodeOverlay exDec (mp [sc c!"query", sc c!"a"]) := rfl

/-- **C60** For `value` null is a value: the null node, not the zero node. -/
theorem C60_null_value (D : Dec) (n v : Node) (o : DOverlay) (h : decodeOverlay D n = .val o) (hv : KeyAt n c!"value" v) :
    o.base.value = v := by
  obtain ⟨_, H⟩ := (decodeOverlay_decodes D).val n o |>.1 h
  rcases H.value with h1 | ⟨h1, _⟩
  · exact at_unique H.keyed h1 hv
  · exact absurd ⟨v, hv⟩ h1

/-! ### C61 -/

/-- **C61** A query written as text is a list of that one query. -/
theorem C61_one_query (D : Dec) (q s : Node) (hq : q.kind = .scalar) (hn : ¬ Null q) (hs : s.kind = .sequence)
    (hc : s.content = [q]) : decodeQueries D q = decodeQueries D s := by
  have hd := decodeQueries_decodes D
  have hns : ¬ Null s := by rintro ⟨h, _⟩; rw [hs] at h; cases h
  have hrel : ∀ qs, QueriesAre D q qs ↔ QueriesAre D s qs := by
    intro qs
    unfold QueriesAre ListIs
    rw [hc, hq, hs]
    have h1 : ∀ x : Query, ¬ QueryIs D s x := by rintro x ⟨⟨h, _⟩, _⟩; rw [hs] at h; cases h
    simp only [reduceCtorEq, false_and, or_false, true_and, h1, exists_false, false_or]
    have : ([q] : List Node).filter (fun c => decide (¬ Null c)) = [q] := by simp [hn]
    rw [this]
    constructor
    · rintro ⟨x, h, rfl⟩; exact .cons h .nil
    · intro h
      cases h with
      | cons h1 h2 => cases h2; exact ⟨_, h1, rfl⟩
  cases h1 : decodeQueries D q with
  | skip => exact absurd h1 (hd.skip q)
  | val oa =>
    cases oa with
    | none => exact absurd ((hd.none q).1 h1) hn
    | some a => exact ((hd.val s a).2 ⟨hns, (hrel a).1 ((hd.val q a).1 h1).2⟩).symm
  | err =>
    cases h2 : decodeQueries D s with
    | skip => exact absurd h2 (hd.skip s)
    | err => rfl
    | val oa =>
      cases oa with
      | none => exact absurd ((hd.none s).1 h2) hns
      | some a => rw [(hd.val q a).2 ⟨hn, (hrel a).2 ((hd.val s a).1 h2).2⟩] at h1; cases h1

/-- **C61** A list of queries is read as its items, in order; nulls do not count. -/
theorem C61_list (D : Dec) (n : Node) (qs : List Query) (hn : n.kind = .sequence) :
    decodeQueries D n = .val (some qs) ↔ List.Forall₂ (QueryIs D) (n.content.filter (fun c => ¬ Null c)) qs := by
  rw [(decodeQueries_decodes D).val]
  have h1 : ¬ Null n := by rintro ⟨h, _⟩; rw [hn] at h; cases h
  have h2 : ∀ x : Query, ¬ QueryIs D n x := by rintro x ⟨⟨h, _⟩, _⟩; rw [hn] at h; cases h
  simp [QueriesAre, ListIs, h1, h2, hn]

example : decodeQueries exDec (sc c!"a") = decodeQueries exDec (sq [sc c!"a"]) := rfl

/-! ### C62 -/

/-- **C62** A mapping with a repeated key is refused, wherever an overlay, a document, a
file or the instructions are expected. -/
theorem C62_repeated_key (D : Dec) (n : Node) (hm : n.kind = .mapping)
    (hd : ¬ (keys n.content).Nodup) :
    decodeOverlay D n = .err ∧ decodeDocument D n = .err ∧ decodeFile D n = .err ∧
    ∀ h r, decodeInstructions D (some (.mk h (n :: r))) = none := by
  have hk : ¬ Keyed n := fun h => hd h.2.2
  have hn : ¬ Null n := by rintro ⟨h, _⟩; rw [hm] at h; cases h
  have err : ∀ {α : Type} {g : Node → Got α} {R : Node → α → Prop}, Decodes g R → (∀ a, R n a → Keyed n) → g n = .err := by
    intro α g R hg hR
    cases h : g n with
    | err => rfl
    | skip => exact absurd ((hg.skip n).1 h) hn
    | val a => exact absurd (hR a ((hg.val n a).1 h).2) hk
  refine ⟨err (decodeOverlay_decodes D) (fun a h => h.keyed), err (decodeDocument_decodes D) (fun a h => h.keyed),
    err (decodeFile_decodes D) (fun a h => h.keyed), ?_⟩
  intro h r
  unfold decodeInstructions
  simp only [Node.content_mk]
  rw [err (instr_decodes D) (fun a h => h.keyed)]

/-- **C62** A setting that is neither null nor of the right form makes the whole overlay
an error. -/
theorem C62_bad_setting (D : Dec) (n v : Node) (hn : ¬ Null n) (hv : ¬ Null v)
    (h : (KeyAt n c!"name" v ∧ ¬ ∃ a, TextIs v a) ∨ (KeyAt n c!"query" v ∧ ¬ ∃ a, QueriesAre D v a) ∨
         (KeyAt n c!"action" v ∧ ¬ ∃ a, ActionIs v a) ∨
         (KeyAt n c!"documentQuery" v ∧ ¬ ∃ a, ListOrNullsIs (DocumentQueryIs D) v a) ∨
         (KeyAt n c!"onMissing" v ∧ ¬ ∃ a, OnMissingIs D v a) ∨ (KeyAt n c!"documentIndex" v ∧ ¬ ∃ a, ListIs (IntIs D) v a)) :
    decodeOverlay D n = .err := by
  have hg := decodeOverlay_decodes D
  cases hc : decodeOverlay D n with
  | err => rfl
  | skip => exact absurd ((hg.skip n).1 hc) hn
  | val o =>
    exfalso
    obtain ⟨_, H⟩ := (hg.val n o).1 hc
    obtain ⟨t, a, ht, ha, _⟩ := H.nameAndAction
    have get : ∀ {α : Type} {R : Node → α → Prop} {k : Str} {d a : α}, SettingIs R n k d a → KeyAt n k v → R v a := by
      intro α R k d a h1 h2
      rcases setting_can H.keyed h1 h2 with h | ⟨_, h⟩
      · exact absurd h hv
      · exact h
    rcases h with ⟨h1, h2⟩ | ⟨h1, h2⟩ | ⟨h1, h2⟩ | ⟨h1, h2⟩ | ⟨h1, h2⟩ | ⟨h1, h2⟩
    · exact h2 ⟨_, get ht h1⟩
    · exact h2 ⟨_, get H.query h1⟩
    · exact h2 ⟨_, get ha h1⟩
    · exact h2 ⟨_, get H.documentQuery h1⟩
    · exact h2 ⟨_, get H.onMissing h1⟩
    · obtain ⟨is, h3, _⟩ := get H.documentIndex h1
      exact h2 ⟨is, h3⟩

/-- **C62** In particular: an action that is none of the four words, in any case of
letters. -/
theorem C62_bad_action (D : Dec) (n v : Node) (hn : ¬ Null n) (hv : ¬ Null v) (hat : KeyAt n c!"action" v)
    (hbad : toLowerStr v.hd.value ∉ [c!"merge", c!"replace", c!"delete", c!"combine"]) : decodeOverlay D n = .err := by
  refine C62_bad_setting D n v hn hv (.inr (.inr (.inl ⟨hat, ?_⟩)))
  rintro ⟨a, t, ht, ha, hs⟩
  apply hbad
  rw [ht.2, hs]
  cases a <;> first | exact absurd rfl ha | decide

example : decodeOverlay exDec (mp [sc c!"query", sc c!"a", sc c!"action", sc c!"remove"]) = .err := rfl

/-- **C62** (The code is lenient here.) A misspelt `onMissing` action is taken as the
default, without an error. -/
theorem C62_misspelt_onMissing (v : Node) (hv : ¬ Null v) (hs : v.kind = .scalar)
    (h : toLowerStr v.hd.value ∉ [c!"ignore", c!"inject"]) : decodeOnMissingAction v = .val .default := by
  refine (decodeOnMissingAction_decodes.val v _).2 ⟨hv, v.hd.value, ⟨hs, rfl⟩, ?_, ?_⟩
  · simp only [reduceCtorEq, false_iff]
    intro hc
    exact h (by rw [hc]; decide)
  · simp only [reduceCtorEq, false_iff]
    intro hc
    exact h (by rw [hc]; decide)

/-- **C62** One bad overlay in a list makes the whole list, and with it the whole
instructions file, an error. -/
theorem C62_bad_item (D : Dec) (s c : Node) (hs : s.kind = .sequence) (hc : c ∈ s.content)
    (hbad : decodeOverlay D c = .err) : decodeOverlays D s = .err := by
  have hg := decodeOverlays_decodes D
  have hn : ¬ Null s := by rintro ⟨h, _⟩; rw [hs] at h; cases h
  have ho := decodeOverlay_decodes D
  cases h : decodeOverlays D s with
  | err => rfl
  | skip => exact absurd h (hg.skip s)
  | val oa =>
    exfalso
    cases oa with
    | none => exact hn ((hg.none s).1 h)
    | some as =>
      obtain ⟨_, _, hf⟩ := (hg.val s as).1 h
      obtain ⟨m, hm, hmc⟩ := List.getElem_of_mem hc
      have hg2 := List.forall₂_iff_get.1 hf
      have := hg2.2 m hm (by rw [← hg2.1]; exact hm)
      simp only [List.get_eq_getElem, hmc] at this
      rcases this with ⟨h1, _⟩ | ⟨h1, a, h2, _⟩
      · rw [(ho.skip c).2 h1] at hbad; cases hbad
      · rw [(ho.val c a).2 ⟨h1, h2⟩] at hbad; cases hbad

/-- **C62** An error in either list is an error for the file. -/
theorem C62_bad_list (D : Dec) (h : Hdr) (n v : Node) (r : List Node) (hm : Keyed n)
    (hbad : (KeyAt n c!"commonOverlays" v ∧ decodeOverlays D v = .err) ∨
            (KeyAt n c!"yamlFiles" v ∧ decodeSlice (decodePtr (decodeFile D)) v = .err)) :
    decodeInstructions D (some (.mk h (n :: r))) = none := by
  have hi := instr_decodes D
  have hn : ¬ Null n := by rintro ⟨h, _⟩; rw [hm.1] at h; cases h
  unfold decodeInstructions
  simp only [Node.content_mk]
  cases hc : decodeStruct (setInstructions D) {} n with
  | err => rfl
  | skip => exact absurd ((hi.skip n).1 hc) hn
  | val i =>
    exfalso
    obtain ⟨_, H⟩ := (hi.val n i).1 hc
    rcases hbad with ⟨h1, h2⟩ | ⟨h1, h2⟩
    · exact (decodeOverlays_decodes D).ne_err (can_of hm H.common h1) h2
    · exact (decodePtrSlice_decodes (decodeFile_decodes D)).ne_err (can_of hm H.files h1) h2

/-- **C62** A file without any document is an error. -/
theorem C62_no_document (D : Dec) : decodeInstructions D none = none := rfl

/-- A list of overlays with a bad one. -/
example : decodeInstructions exDec (some (dc (mp [sc c!"commonOverlays",
    sq [mp [sc c!"query", sc c!"a"], mp [sc c!"query", sc c!"["]]]))) = none := rfl

end Yot
