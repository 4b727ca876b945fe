import Verif.Lemmas.DecodeValues
/-
Decoding of the struct types.
-/
namespace Yot
open Spec

theorem store_frame {α σ β : Type} {g : Got α} {s s' : σ} {f : α → σ} {π : σ → β} (h : store g s f = some s')
    (hf : ∀ a, π (f a) = π s) : π s' = π s := by
  cases g with
  | err => cases h
  | skip => simp only [store, Option.some.injEq] at h; rw [h]
  | val a => simp only [store, Option.some.injEq] at h; rw [← h, hf]

/-- Another key does not touch the field. -/
macro "other_field" d:ident : tactic =>
  `(tactic| (intro k' v s s' hne h; unfold $d at h; repeat' (split at h)
             all_goals first
               | (exfalso; apply hne; assumption)
               | (unfold store at h; split at h <;> (cases h <;> rfl))
               | (cases h; rfl)))

theorem can_of {α : Type} {R : Node → α → Prop} {n : Node} (hk : Keyed n) {k : Str} {d a : α} (h : SettingIs R n k d a)
    {v : Node} (hv : KeyAt n k v) : Null v ∨ (¬ Null v ∧ ∃ a, R v a) := by
  rcases setting_can hk h hv with h | ⟨h, h'⟩
  · exact .inl h
  · exact .inr ⟨h, _, h'⟩

theorem can_of' {α β : Type} {R : Node → α → Prop} {R' : Node → β → Prop} (hR : ∀ v b, R' v b → ∃ a, R v a) {n : Node}
    (hk : Keyed n) {k : Str} {d a : β} (h : SettingIs R' n k d a)
    {v : Node} (hv : KeyAt n k v) : Null v ∨ (¬ Null v ∧ ∃ a, R v a) := by
  rcases setting_can hk h hv with h | ⟨h, h'⟩
  · exact .inl h
  · exact .inr ⟨h, hR _ _ h'⟩

/-! ### Conditions -/

theorem condition_query (D : Dec) : Field (setCondition D) (·.query) c!"query" (QueriesAre D) [] :=
  field_of_decodesN (decodeQueries_decodes D) (fun c q => { c with query := q.getD [] })
    (fun v s => by rw [setCondition, if_pos rfl]) (fun _ => rfl) (fun _ _ _ h => h) (by other_field setCondition)

theorem decodeCondition_decodes (D : Dec) : Decodes (decodeCondition D) (ConditionIs D) := by
  have hq := decodeQueries_decodes D
  refine struct_decodes ?_ (fun n s h => h.keyed) ?_ ?_
  · intro n s hk h
    refine ⟨hk, structLoop_setting (condition_query D) n.content h hk.2.2 rfl, ?_⟩
    refine structLoop_node (π := (·.value)) (k := c!"value") ?_ (by other_field setCondition) n hk _ s h rfl
    intro v s
    exact ⟨_, by rw [setCondition, if_neg (by decide), if_pos rfl], rfl⟩
  · intro n s S k v hat s'
    unfold setCondition
    split
    · rename_i h; subst h; exact store_isSome _ _ (hq.ne_err (can_of S.keyed S.query hat))
    · split <;> rfl
  · rintro n ⟨q, v⟩ ⟨q', v'⟩ h1 h2
    have e1 := setting_unique (fun _ _ _ hn ha hb => hq.functional hn ha hb) h1.keyed h1.query h2.query
    have e2 := nodeSetting_unique h1.keyed h1.value h2.value
    simp only at e1 e2
    rw [e1, e2]

/-! ### Document queries -/

theorem documentQuery_conditions (D : Dec) :
    Field (setDocumentQuery D) id c!"conditions" (ListOrNullsIs (ConditionIs D)) [] :=
  field_of_decodesN (decodePtrSlice_decodes (decodeCondition_decodes D)) (fun _ q => q.getD [])
    (fun v s => by rw [setDocumentQuery, if_pos rfl]) (fun _ => rfl) (fun _ _ _ h => h) (by other_field setDocumentQuery)

theorem decodeDocumentQuery_decodes (D : Dec) : Decodes (decodeDocumentQuery D) (DocumentQueryIs D) := by
  have hc := decodePtrSlice_decodes (decodeCondition_decodes D)
  refine struct_decodes ?_ (fun n s h => h.keyed) ?_ ?_
  · intro n s hk h
    exact ⟨hk, structLoop_setting (documentQuery_conditions D) n.content h hk.2.2 rfl⟩
  · intro n s S k v hat s'
    unfold setDocumentQuery
    split
    · rename_i h; subst h; exact store_isSome _ _ (hc.ne_err (can_of S.keyed S.conditions hat))
    · rfl
  · intro n s t h1 h2
    exact setting_unique (fun _ _ _ hn ha hb => hc.functional hn ha hb) h1.keyed h1.conditions h2.conditions

/-! ### onMissing -/

theorem onMissing_action (D : Dec) : Field (setOnMissing D) (·.action) c!"action" OnMissingActionIs .default :=
  field_of_decodes decodeOnMissingAction_decodes (fun m a => { m with action := a })
    (fun v s => by rw [setOnMissing, if_pos rfl]) (fun _ _ => rfl) (by other_field setOnMissing)

theorem onMissing_injectPath (D : Dec) : Field (setOnMissing D) (·.injectPath) c!"injectPath"
    (fun v o => ∃ qs, QueriesAre D v qs ∧ o = some qs) none :=
  field_of_decodesN (decodeQueries_decodes D) (fun m q => { m with injectPath := q })
    (fun v s => by rw [setOnMissing, if_neg (by decide), if_pos rfl]) (fun _ => rfl) (fun _ _ a h => ⟨a, h, rfl⟩)
    (by other_field setOnMissing)

theorem decodeOnMissing_decodes (D : Dec) : Decodes (decodeOnMissing D) (OnMissingIs D) := by
  have hq := decodeQueries_decodes D
  refine struct_decodes ?_ (fun n s h => h.keyed) ?_ ?_
  · intro n s hk h
    exact ⟨hk, structLoop_setting (onMissing_action D) n.content h hk.2.2 rfl,
      structLoop_setting (onMissing_injectPath D) n.content h hk.2.2 rfl⟩
  · intro n s S k v hat s'
    unfold setOnMissing
    split
    · rename_i h; subst h; exact store_isSome _ _ (decodeOnMissingAction_decodes.ne_err (can_of S.keyed S.action hat))
    · split
      · rename_i h; subst h
        exact store_isSome _ _ (hq.ne_err (can_of' (fun _ _ ⟨a, h, _⟩ => ⟨a, h⟩) S.keyed S.injectPath hat))
      · rfl
  · rintro n ⟨a, p⟩ ⟨a', p'⟩ h1 h2
    have e1 := setting_unique (fun _ _ _ hn ha hb => decodeOnMissingAction_decodes.functional hn ha hb) h1.keyed h1.action h2.action
    have e2 := setting_unique (fun _ _ _ hn => by
      rintro ⟨x, hx, rfl⟩ ⟨y, hy, rfl⟩; rw [hq.functional hn hx hy]) h1.keyed h1.injectPath h2.injectPath
    simp only at e1 e2
    rw [e1, e2]

/-! ### Overlays -/

/-- What the struct decoder leaves in an overlay, before names and actions are filled in. -/
structure RawOverlayIs (D : Dec) (n : Node) (o : DOverlay) : Prop where
  keyed : Keyed n
  name : SettingIs TextIs n c!"name" [] o.base.name
  query : SettingIs (QueriesAre D) n c!"query" [] o.base.query
  value : NodeSetting n c!"value" o.base.value
  action : SettingIs ActionIs n c!"action" .invalid o.base.action
  documentQuery : SettingIs (ListOrNullsIs (DocumentQueryIs D)) n c!"documentQuery" [] o.queries
  onMissing : SettingIs (OnMissingIs D) n c!"onMissing" {} o.base.onMissing
  documentIndex : SettingIs (fun v o => ∃ is, ListIs (IntIs D) v is ∧ o = some is) n c!"documentIndex" none o.base.documentIndex
  rest : o.base.documentQuery = [] ∧ o.pathless = false

theorem overlay_name (D : Dec) : Field (setOverlay D) (·.base.name) c!"name" TextIs [] :=
  field_of_decodes decodeStr_decodes (fun o t => { o with base := { o.base with name := t } })
    (fun v s => by rw [setOverlay, if_pos rfl]) (fun _ _ => rfl) (by other_field setOverlay)

theorem overlay_query (D : Dec) : Field (setOverlay D) (·.base.query) c!"query" (QueriesAre D) [] :=
  field_of_decodesN (decodeQueries_decodes D) (fun o q => { o with base := { o.base with query := q.getD [] } })
    (fun v s => by rw [setOverlay, if_neg (by decide), if_pos rfl]) (fun _ => rfl) (fun _ _ _ h => h)
    (by other_field setOverlay)

theorem overlay_action (D : Dec) : Field (setOverlay D) (·.base.action) c!"action" ActionIs .invalid :=
  field_of_decodes decodeAction_decodes (fun o a => { o with base := { o.base with action := a } })
    (fun v s => by rw [setOverlay, if_neg (by decide), if_neg (by decide), if_neg (by decide), if_pos rfl])
    (fun _ _ => rfl) (by other_field setOverlay)

theorem overlay_documentQuery (D : Dec) :
    Field (setOverlay D) (·.queries) c!"documentQuery" (ListOrNullsIs (DocumentQueryIs D)) [] :=
  field_of_decodesN (decodePtrSlice_decodes (decodeDocumentQuery_decodes D)) (fun o q => { o with queries := q.getD [] })
    (fun v s => by
      rw [setOverlay, if_neg (by decide), if_neg (by decide), if_neg (by decide), if_neg (by decide), if_pos rfl])
    (fun _ => rfl) (fun _ _ _ h => h) (by other_field setOverlay)

theorem overlay_onMissing (D : Dec) : Field (setOverlay D) (·.base.onMissing) c!"onMissing" (OnMissingIs D) {} :=
  field_of_decodes (decodeOnMissing_decodes D) (fun o m => { o with base := { o.base with onMissing := m } })
    (fun v s => by
      rw [setOverlay, if_neg (by decide), if_neg (by decide), if_neg (by decide), if_neg (by decide), if_neg (by decide),
        if_pos rfl])
    (fun _ _ => rfl) (by other_field setOverlay)

theorem overlay_documentIndex (D : Dec) : Field (setOverlay D) (·.base.documentIndex) c!"documentIndex"
    (fun v o => ∃ is, ListIs (IntIs D) v is ∧ o = some is) none :=
  field_of_decodesN (decodeSlice_decodes (decodeInt_decodes D))
    (fun o is => { o with base := { o.base with documentIndex := is } })
    (fun v s => by
      rw [setOverlay, if_neg (by decide), if_neg (by decide), if_neg (by decide), if_neg (by decide), if_neg (by decide),
        if_neg (by decide), if_pos rfl])
    (fun _ => rfl) (fun _ _ a h => ⟨a, h, rfl⟩) (by other_field setOverlay)

/-- A field that no key sets. -/
theorem structLoop_const {σ α : Type} {set : Str → Node → σ → Option σ} {π : σ → α}
    (h : ∀ k v s s', set k v s = some s' → π s' = π s) (cs : List Node) : ∀ {s s' : σ}, structLoop set cs s = some s' →
    π s' = π s := by
  induction cs using pairInduction with
  | h0 => intro s s' h; simp [structLoop] at h; rw [h]
  | h1 a => intro s s' h; simp [structLoop] at h; rw [h]
  | h2 a b cs ih =>
    intro s s' h1
    obtain ⟨_, _, ⟨_, h3⟩ | ⟨_, s1, h2, h3⟩⟩ := structLoop_step h1
    · exact ih h3
    · rw [ih h3, h _ _ _ _ h2]

theorem rawOverlay_decodes (D : Dec) : Decodes (decodeStruct (setOverlay D) {}) (RawOverlayIs D) := by
  have hq := decodeQueries_decodes D
  have hdq := decodePtrSlice_decodes (decodeDocumentQuery_decodes D)
  have hi := decodeSlice_decodes (decodeInt_decodes D)
  refine struct_decodes ?_ (fun n s h => h.keyed) ?_ ?_
  · intro n s hk h
    refine ⟨hk, structLoop_setting (overlay_name D) n.content h hk.2.2 rfl,
      structLoop_setting (overlay_query D) n.content h hk.2.2 rfl, ?_,
      structLoop_setting (overlay_action D) n.content h hk.2.2 rfl,
      structLoop_setting (overlay_documentQuery D) n.content h hk.2.2 rfl,
      structLoop_setting (overlay_onMissing D) n.content h hk.2.2 rfl,
      structLoop_setting (overlay_documentIndex D) n.content h hk.2.2 rfl, ?_⟩
    · refine structLoop_node (π := (·.base.value)) (k := c!"value") ?_ (by other_field setOverlay) n hk _ s h rfl
      intro v s
      exact ⟨_, by rw [setOverlay, if_neg (by decide), if_neg (by decide), if_pos rfl], rfl⟩
    · have := structLoop_const (π := fun s : DOverlay => (s.base.documentQuery, s.pathless)) ?_ n.content h
      · simpa using this
      intro k v s s' h
      unfold setOverlay at h
      repeat' (split at h)
      all_goals first
        | exact store_frame (π := fun s : DOverlay => (s.base.documentQuery, s.pathless)) h (fun _ => rfl)
        | (cases h; rfl)
  · intro n s S k v hat s'
    unfold setOverlay
    split
    · rename_i h; subst h; exact store_isSome _ _ (decodeStr_decodes.ne_err (can_of S.keyed S.name hat))
    split
    · rename_i h; subst h; exact store_isSome _ _ (hq.ne_err (can_of S.keyed S.query hat))
    split
    · rfl
    split
    · rename_i h; subst h; exact store_isSome _ _ (decodeAction_decodes.ne_err (can_of S.keyed S.action hat))
    split
    · rename_i h; subst h; exact store_isSome _ _ (hdq.ne_err (can_of S.keyed S.documentQuery hat))
    split
    · rename_i h; subst h; exact store_isSome _ _ ((decodeOnMissing_decodes D).ne_err (can_of S.keyed S.onMissing hat))
    split
    · rename_i h; subst h
      exact store_isSome _ _ (hi.ne_err (can_of' (fun _ _ ⟨a, h, _⟩ => ⟨a, h⟩) S.keyed S.documentIndex hat))
    · rfl
  · rintro n ⟨⟨a1, a2, a3, a4, a5, a6, a7⟩, a8, a9⟩ ⟨⟨b1, b2, b3, b4, b5, b6, b7⟩, b8, b9⟩ h1 h2
    have e1 := setting_unique (fun _ _ _ hn ha hb => decodeStr_decodes.functional hn ha hb) h1.keyed h1.name h2.name
    have e2 := setting_unique (fun _ _ _ hn ha hb => hq.functional hn ha hb) h1.keyed h1.query h2.query
    have e3 := nodeSetting_unique h1.keyed h1.value h2.value
    have e4 := setting_unique (fun _ _ _ hn ha hb => decodeAction_decodes.functional hn ha hb) h1.keyed h1.action h2.action
    have e5 := h1.rest.1.trans h2.rest.1.symm
    have e9 := h1.rest.2.trans h2.rest.2.symm
    have e6 := setting_unique (fun _ _ _ hn ha hb => (decodeOnMissing_decodes D).functional hn ha hb) h1.keyed h1.onMissing h2.onMissing
    have e7 := setting_unique (fun _ _ _ hn => by
      rintro ⟨x, hx, rfl⟩ ⟨y, hy, rfl⟩; rw [hi.functional hn hx hy]) h1.keyed h1.documentIndex h2.documentIndex
    have e8 := setting_unique (fun _ _ _ hn ha hb => hdq.functional hn ha hb) h1.keyed h1.documentQuery h2.documentQuery
    simp only at e1 e2 e3 e4 e5 e6 e7 e8 e9
    rw [e1, e2, e3, e4, e5, e6, e7, e8, e9]

theorem action_str_nil (a : Action) : a.str = [] ↔ a = .invalid := by cases a <;> decide

theorem decodeOverlay_decodes (D : Dec) : Decodes (decodeOverlay D) (OverlayIs D) := by
  have hr := rawOverlay_decodes D
  have fill : ∀ n o, RawOverlayIs D n o → OverlayIs D n { o with base := o.base.afterDecode } := by
    intro n o h
    have key : o.base.afterDecode = { o.base with
        name := if o.base.name = [] then joinWith ',' (o.base.query.map Query.str) else o.base.name
        action := if o.base.action = .invalid ∧ o.base.name ≠ [] then .merge else o.base.action } := by
      unfold Overlay.afterDecode
      by_cases h1 : o.base.name = []
      · simp [h1]
      · by_cases h2 : o.base.action = .invalid <;> simp [h1, h2, action_str_nil]
    refine ⟨h.keyed, ⟨o.base.name, o.base.action, h.name, h.action, ?_, ?_⟩, ?_, ?_, h.documentQuery, ?_, ?_, ?_⟩
    all_goals (try rw [key])
    · exact h.query
    · exact h.value
    · exact h.onMissing
    · exact h.documentIndex
    · exact h.rest
  have uniq : ∀ n o o', OverlayIs D n o → OverlayIs D n o' → o = o' := by
    rintro n ⟨⟨a1, a2, a3, a4, a5, a6, a7⟩, a8, a9⟩ ⟨⟨b1, b2, b3, b4, b5, b6, b7⟩, b8, b9⟩ h1 h2
    have e2 := setting_unique (fun _ _ _ hn ha hb => (decodeQueries_decodes D).functional hn ha hb) h1.keyed h1.query h2.query
    have e3 := nodeSetting_unique h1.keyed h1.value h2.value
    have e5 := h1.rest.1.trans h2.rest.1.symm
    have e9 := h1.rest.2.trans h2.rest.2.symm
    have e6 := setting_unique (fun _ _ _ hn ha hb => (decodeOnMissing_decodes D).functional hn ha hb) h1.keyed h1.onMissing h2.onMissing
    have e7 := setting_unique (fun v a b hn => by
      rintro ⟨x, hx, rfl⟩ ⟨y, hy, rfl⟩
      rw [(decodeSlice_decodes (decodeInt_decodes D)).functional hn hx hy]) h1.keyed h1.documentIndex h2.documentIndex
    have e8 := setting_unique (fun _ _ _ hn ha hb => (decodePtrSlice_decodes (decodeDocumentQuery_decodes D)).functional hn ha hb)
      h1.keyed h1.documentQuery h2.documentQuery
    obtain ⟨t, a, ht, ha, hn, hact⟩ := h1.nameAndAction
    obtain ⟨t', a', ht', ha', hn', hact'⟩ := h2.nameAndAction
    have et := setting_unique (fun _ _ _ hn ha hb => decodeStr_decodes.functional hn ha hb) h1.keyed ht ht'
    have ea := setting_unique (fun _ _ _ hn ha hb => decodeAction_decodes.functional hn ha hb) h1.keyed ha ha'
    subst et ea
    simp only at e2 e3 e5 e6 e7 e8 e9 hn hact hn' hact'
    subst e2 e3 e5 e6 e7 e8 e9
    rw [hn, hact, hn', hact']
  have raw : ∀ n o, OverlayIs D n o → ∃ r, RawOverlayIs D n r := by
    intro n o h
    obtain ⟨t, a, ht, ha, _⟩ := h.nameAndAction
    exact ⟨{ o with base := { o.base with name := t, action := a } }, h.keyed, ht, h.query, h.value, ha, h.documentQuery,
      h.onMissing, h.documentIndex, h.rest⟩
  constructor
  · intro n o
    unfold decodeOverlay
    constructor
    · intro h
      cases hd : decodeStruct (setOverlay D) {} n with
      | err => rw [hd] at h; cases h
      | skip => rw [hd] at h; cases h
      | val r =>
        rw [hd] at h
        simp only [Got.val.injEq] at h
        obtain ⟨h1, h2⟩ := (hr.val n r).1 hd
        exact ⟨h1, h ▸ fill n r h2⟩
    · rintro ⟨hn, h⟩
      obtain ⟨r, hr'⟩ := raw n o h
      rw [(hr.val n r).2 ⟨hn, hr'⟩]
      dsimp only
      rw [uniq n _ o (fill n r hr') h]
  · intro n
    unfold decodeOverlay
    rw [← hr.skip n]
    cases decodeStruct (setOverlay D) {} n <;> simp

theorem decodeOverlays_decodes (D : Dec) : DecodesN (decodeOverlays D) (ListOrNullsIs (OverlayIs D)) :=
  decodePtrSlice_decodes (decodeOverlay_decodes D)

/-! ### Documents and files -/

theorem document_name (D : Dec) : Field (setDocument D) (·.name) c!"name" TextIs [] :=
  field_of_decodes decodeStr_decodes (fun o t => { o with name := t })
    (fun v s => by rw [setDocument, if_pos rfl]) (fun _ _ => rfl) (by other_field setDocument)

theorem document_path (D : Dec) : Field (setDocument D) (·.path) c!"path" (IntIs D) 0 :=
  field_of_decodes (decodeInt_decodes D) (fun o t => { o with path := t })
    (fun v s => by rw [setDocument, if_neg (by decide), if_pos rfl]) (fun _ _ => rfl) (by other_field setDocument)

theorem document_overlays (D : Dec) : Field (setDocument D) (·.overlays) c!"overlays" (ListOrNullsIs (OverlayIs D)) [] :=
  field_of_decodesN (decodeOverlays_decodes D) (fun o q => { o with overlays := q.getD [] })
    (fun v s => by rw [setDocument, if_neg (by decide), if_neg (by decide), if_pos rfl]) (fun _ => rfl) (fun _ _ _ h => h)
    (by other_field setDocument)

theorem decodeDocument_decodes (D : Dec) : Decodes (decodeDocument D) (DocumentIs D) := by
  have ho := decodeOverlays_decodes D
  refine struct_decodes ?_ (fun n s h => h.keyed) ?_ ?_
  · intro n s hk h
    exact ⟨hk, structLoop_setting (document_name D) n.content h hk.2.2 rfl,
      structLoop_setting (document_path D) n.content h hk.2.2 rfl,
      structLoop_setting (document_overlays D) n.content h hk.2.2 rfl⟩
  · intro n s S k v hat s'
    unfold setDocument
    split
    · rename_i h; subst h; exact store_isSome _ _ (decodeStr_decodes.ne_err (can_of S.keyed S.name hat))
    split
    · rename_i h; subst h; exact store_isSome _ _ ((decodeInt_decodes D).ne_err (can_of S.keyed S.path hat))
    split
    · rename_i h; subst h; exact store_isSome _ _ (ho.ne_err (can_of S.keyed S.overlays hat))
    · rfl
  · rintro n ⟨a1, a2, a3⟩ ⟨b1, b2, b3⟩ h1 h2
    have e1 := setting_unique (fun _ _ _ hn ha hb => decodeStr_decodes.functional hn ha hb) h1.keyed h1.name h2.name
    have e2 := setting_unique (fun _ _ _ hn ha hb => (decodeInt_decodes D).functional hn ha hb) h1.keyed h1.path h2.path
    have e3 := setting_unique (fun _ _ _ hn ha hb => ho.functional hn ha hb) h1.keyed h1.overlays h2.overlays
    simp only at e1 e2 e3
    rw [e1, e2, e3]

/-- Another key does not touch the field of a file. -/
macro "other_file" D:ident : tactic =>
  `(tactic| (intro k' v s s' hne h; unfold setFile at h; repeat' (split at h)
             all_goals first
               | (exfalso; apply hne; assumption)
               | (unfold store at h; split at h <;> (cases h <;> rfl))
               | (cases hd : Dec.nodes $D v <;> rw [hd] at h <;> cases h <;> rfl)
               | (cases h; rfl)))

theorem file_name (D : Dec) : Field (setFile D) (·.name) c!"name" TextIs [] :=
  field_of_decodes decodeStr_decodes (fun o t => { o with name := t })
    (fun v s => by rw [setFile, if_pos rfl]) (fun _ _ => rfl) (by other_file D)

theorem file_overlays (D : Dec) : Field (setFile D) (·.overlays) c!"overlays" (ListOrNullsIs (OverlayIs D)) [] :=
  field_of_decodesN (decodeOverlays_decodes D) (fun o q => { o with overlays := q.getD [] })
    (fun v s => by rw [setFile, if_neg (by decide), if_pos rfl]) (fun _ => rfl) (fun _ _ _ h => h) (by other_file D)

theorem file_documents (D : Dec) : Field (setFile D) (·.documents) c!"documents" (ListOrNullsIs (DocumentIs D)) [] :=
  field_of_decodesN (decodePtrSlice_decodes (decodeDocument_decodes D)) (fun o q => { o with documents := q.getD [] })
    (fun v s => by rw [setFile, if_neg (by decide), if_neg (by decide), if_pos rfl]) (fun _ => rfl) (fun _ _ _ h => h)
    (by other_file D)

theorem file_path (D : Dec) : Field (setFile D) (·.path) c!"path" TextIs [] :=
  field_of_decodes decodeStr_decodes (fun o t => { o with path := t })
    (fun v s => by
      rw [setFile, if_neg (by decide), if_neg (by decide), if_neg (by decide), if_neg (by decide), if_pos rfl])
    (fun _ _ => rfl) (by other_file D)

theorem file_outputPath (D : Dec) : Field (setFile D) (·.outputPath) c!"outputPath" TextIs [] :=
  field_of_decodes decodeStr_decodes (fun o t => { o with outputPath := t })
    (fun v s => by
      rw [setFile, if_neg (by decide), if_neg (by decide), if_neg (by decide), if_neg (by decide), if_neg (by decide),
        if_pos rfl])
    (fun _ _ => rfl) (by other_file D)

theorem setFile_nodes (D : Dec) (v : Node) (s : DFile) :
    setFile D c!"nodes" v s = (D.nodes v).map (fun ns => { s with nodes := ns }) := by
  rw [setFile, if_neg (by decide), if_neg (by decide), if_neg (by decide), if_pos rfl]

theorem decodeFile_decodes (D : Dec) : Decodes (decodeFile D) (FileIs D) := by
  have ho := decodeOverlays_decodes D
  have hd := decodePtrSlice_decodes (decodeDocument_decodes D)
  refine struct_decodes ?_ (fun n s h => h.keyed) ?_ ?_
  · intro n s hk h
    have raw := structLoop_raw (π := (·.nodes)) (k := c!"nodes") (R := fun v ns => D.nodes v = some ns) (fun v s s' hs => by
      rw [setFile_nodes] at hs
      cases hv : D.nodes v <;> rw [hv] at hs <;> cases hs
      rfl) (by other_file D) n hk _ s h
    refine ⟨hk, structLoop_setting (file_name D) n.content h hk.2.2 rfl,
      structLoop_setting (file_overlays D) n.content h hk.2.2 rfl,
      structLoop_setting (file_documents D) n.content h hk.2.2 rfl, ?_, ?_,
      structLoop_setting (file_path D) n.content h hk.2.2 rfl,
      structLoop_setting (file_outputPath D) n.content h hk.2.2 rfl⟩
    · intro hno
      rcases raw with ⟨v, h1, _⟩ | ⟨_, h2⟩
      · exact absurd ⟨v, h1⟩ hno
      · exact h2
    · intro v hv
      rcases raw with ⟨w, h1, h2⟩ | ⟨h1, _⟩
      · rw [at_unique hk hv h1]; exact h2
      · exact absurd ⟨v, hv⟩ h1
  · intro n s S k v hat s'
    unfold setFile
    split
    · rename_i h; subst h; exact store_isSome _ _ (decodeStr_decodes.ne_err (can_of S.keyed S.name hat))
    split
    · rename_i h; subst h; exact store_isSome _ _ (ho.ne_err (can_of S.keyed S.overlays hat))
    split
    · rename_i h; subst h; exact store_isSome _ _ (hd.ne_err (can_of S.keyed S.documents hat))
    split
    · rename_i h; subst h; rw [S.nodesRead v hat]; rfl
    split
    · rename_i h; subst h; exact store_isSome _ _ (decodeStr_decodes.ne_err (can_of S.keyed S.path hat))
    split
    · rename_i h; subst h; exact store_isSome _ _ (decodeStr_decodes.ne_err (can_of S.keyed S.outputPath hat))
    · rfl
  · rintro n ⟨a1, a2, a3, a4, a5, a6⟩ ⟨b1, b2, b3, b4, b5, b6⟩ h1 h2
    have e1 := setting_unique (fun _ _ _ hn ha hb => decodeStr_decodes.functional hn ha hb) h1.keyed h1.name h2.name
    have e2 := setting_unique (fun _ _ _ hn ha hb => ho.functional hn ha hb) h1.keyed h1.overlays h2.overlays
    have e3 := setting_unique (fun _ _ _ hn ha hb => hd.functional hn ha hb) h1.keyed h1.documents h2.documents
    have e4 : a4 = b4 := by
      by_cases hv : ∃ v, KeyAt n c!"nodes" v
      · obtain ⟨v, hv⟩ := hv
        have := (h1.nodesRead v hv).symm.trans (h2.nodesRead v hv)
        exact Option.some.inj this
      · exact (h1.nodes hv).trans (h2.nodes hv).symm
    have e5 := setting_unique (fun _ _ _ hn ha hb => decodeStr_decodes.functional hn ha hb) h1.keyed h1.path h2.path
    have e6 := setting_unique (fun _ _ _ hn ha hb => decodeStr_decodes.functional hn ha hb) h1.keyed h1.outputPath h2.outputPath
    simp only at e1 e2 e3 e5 e6
    rw [e1, e2, e3, e4, e5, e6]

/-! ### The instructions -/

/-- The mapping of an instructions file. -/
structure InstrIs (D : Dec) (c : Node) (i : DInstr) : Prop where
  keyed : Keyed c
  common : SettingIs (ListOrNullsIs (OverlayIs D)) c c!"commonOverlays" [] i.common
  files : SettingIs (ListOrNullsIs (FileIs D)) c c!"yamlFiles" [] i.files

theorem instr_common (D : Dec) :
    Field (setInstructions D) (·.common) c!"commonOverlays" (ListOrNullsIs (OverlayIs D)) [] :=
  field_of_decodesN (decodeOverlays_decodes D) (fun i q => { i with common := q.getD [] })
    (fun v s => by rw [setInstructions, if_pos rfl]) (fun _ => rfl) (fun _ _ _ h => h) (by other_field setInstructions)

theorem instr_files (D : Dec) : Field (setInstructions D) (·.files) c!"yamlFiles" (ListOrNullsIs (FileIs D)) [] :=
  field_of_decodesN (decodePtrSlice_decodes (decodeFile_decodes D)) (fun i q => { i with files := q.getD [] })
    (fun v s => by rw [setInstructions, if_neg (by decide), if_pos rfl]) (fun _ => rfl) (fun _ _ _ h => h)
    (by other_field setInstructions)

theorem instr_decodes (D : Dec) : Decodes (decodeStruct (setInstructions D) {}) (InstrIs D) := by
  have ho := decodeOverlays_decodes D
  have hf := decodePtrSlice_decodes (decodeFile_decodes D)
  refine struct_decodes ?_ (fun n s h => h.keyed) ?_ ?_
  · intro n s hk h
    exact ⟨hk, structLoop_setting (instr_common D) n.content h hk.2.2 rfl,
      structLoop_setting (instr_files D) n.content h hk.2.2 rfl⟩
  · intro n s S k v hat s'
    unfold setInstructions
    split
    · rename_i h; subst h; exact store_isSome _ _ (ho.ne_err (can_of S.keyed S.common hat))
    split
    · rename_i h; subst h; exact store_isSome _ _ (hf.ne_err (can_of S.keyed S.files hat))
    · rfl
  · rintro n ⟨a1, a2⟩ ⟨b1, b2⟩ h1 h2
    have e1 := setting_unique (fun _ _ _ hn ha hb => ho.functional hn ha hb) h1.keyed h1.common h2.common
    have e2 := setting_unique (fun _ _ _ hn ha hb => hf.functional hn ha hb) h1.keyed h1.files h2.files
    simp only at e1 e2
    rw [e1, e2]

theorem decodeInstructions_iff (D : Dec) (doc : Node) (i : DInstr) :
    decodeInstructions D (some doc) = some i ↔ InstructionsAre D doc i := by
  have hd := instr_decodes D
  unfold decodeInstructions InstructionsAre
  dsimp only
  cases hc : doc.content with
  | nil => simp
  | cons c rest =>
    have key : (∃ c' rest', c :: rest = c' :: rest' ∧
        ((Null c' ∧ i = {}) ∨
         (Keyed c' ∧ SettingIs (ListOrNullsIs (OverlayIs D)) c' c!"commonOverlays" [] i.common ∧
          SettingIs (ListOrNullsIs (FileIs D)) c' c!"yamlFiles" [] i.files))) ↔
        ((Null c ∧ i = {}) ∨ InstrIs D c i) := by
      constructor
      · rintro ⟨c', r', h, h1⟩
        cases h
        rcases h1 with h1 | ⟨a, b, d⟩
        · exact .inl h1
        · exact .inr ⟨a, b, d⟩
      · rintro (h | ⟨a, b, d⟩)
        · exact ⟨c, rest, rfl, .inl h⟩
        · exact ⟨c, rest, rfl, .inr ⟨a, b, d⟩⟩
    rw [key]
    dsimp only
    by_cases hn : Null c
    · rw [(hd.skip c).2 hn]
      have : ¬ InstrIs D c i := by
        intro h
        have := h.keyed.1
        rw [hn.1] at this
        cases this
      simp [hn, this, eq_comm]
    · cases hg : decodeStruct (setInstructions D) {} c with
      | err =>
        have : ¬ InstrIs D c i := by
          intro h
          rw [(hd.val c i).2 ⟨hn, h⟩] at hg; cases hg
        simp [hn, this]
      | skip => exact absurd ((hd.skip c).1 hg) hn
      | val a =>
        have h1 := ((hd.val c a).1 hg).2
        simp only [Option.some.injEq, hn, false_and, false_or]
        exact ⟨fun h => h ▸ h1, fun h => hd.functional hn h1 h⟩

end Yot
