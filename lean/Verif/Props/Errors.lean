import Verif.Spec.Errors
import Verif.Spec.Build
import Verif.Lemmas.Frame
import Verif.Lemmas.WF
import Verif.Props.Safety
/-
C56: the ways in which an overlay can fail.
-/
namespace Yot
open Spec Ex

theorem PlainKeyss_iff (cs : List Node) : PlainKeyss cs ↔ ∀ c ∈ cs, PlainKeys c := by
  induction cs with
  | nil => simp [PlainKeyss]
  | cons c cs ih => simp [PlainKeyss, ih]

/-- The inner loop for a key without markers. -/
theorem mergeInner_one (E : Sed) (f : Node → Str → Res Err Node) (nk : Hdr) (hk : NoMarker nk.value) (cs : List Node) :
    (firstAt nk.value (pairs cs) = none ∧ mergeInner E f nk cs = .ok (cs, false)) ∨
    ∃ v, firstAt nk.value (pairs cs) = some v ∧
      ((∃ e, f v nk.value = .err e ∧ mergeInner E f nk cs = .err e) ∨
       (f v nk.value = .panic ∧ mergeInner E f nk cs = .panic) ∨
       ∃ v' cs', f v nk.value = .ok v' ∧ mergeInner E f nk cs = .ok (cs', true) ∧ cs'.length = cs.length ∧
         ∀ k, k ≠ nk.value → firstAt k (pairs cs') = firstAt k (pairs cs)) := by
  have hmk := (checkForMarkers_iff _).2 hk
  induction cs using pairInduction with
  | h0 => left; exact ⟨rfl, rfl⟩
  | h1 a => left; exact ⟨rfl, rfl⟩
  | h2 a b cs ih =>
    rw [mergeInner]
    simp only [hmk, Bool.not_false, Bool.true_and, decide_eq_true_eq, pairs, firstAt, if_true]
    by_cases hv : a.hd.value = nk.value
    · right
      simp only [hv, ne_eq, not_true_eq_false, if_false, if_true]
      refine ⟨b, rfl, ?_⟩
      cases hf : f b nk.value with
      | err e => left; exact ⟨e, rfl, rfl⟩
      | panic => right; left; exact ⟨rfl, rfl⟩
      | ok v' =>
        right; right
        refine ⟨v', _, rfl, rfl, rfl, ?_⟩
        intro k hk'
        simp only [pairs, firstAt, Node.hd_mk, (mergeComments_fields E a.hd nk _).2.1, hv]
        simp [Ne.symm hk']
    · simp only [ne_eq, hv, not_false_iff, if_true, if_false]
      rcases ih with ⟨h1, h2⟩ | ⟨v, h1, h2⟩
      · left; exact ⟨h1, by rw [h2]; rfl⟩
      · right
        refine ⟨v, h1, ?_⟩
        rcases h2 with ⟨e, h2, h3⟩ | ⟨h2, h3⟩ | ⟨v', cs', h2, h3, h4, h5⟩
        · left; exact ⟨e, h2, by rw [h3]; rfl⟩
        · right; left; exact ⟨h2, by rw [h3]; rfl⟩
        · right; right
          refine ⟨v', _, h2, by rw [h3]; rfl, by simp [h4], ?_⟩
          intro k hk'
          simp only [pairs, firstAt, h5 k hk']

theorem firstAt_snoc (k : Str) (es : List (Node × Node)) (a b : Node) (h : a.hd.value ≠ k) :
    firstAt k (es ++ [(a, b)]) = firstAt k es := by
  induction es with
  | nil => simp [firstAt, h]
  | cons e es ih => simp only [List.cons_append, firstAt, ih]

theorem sanitize_fresh_value (E : Sed) (n : Node) (h : NoMarker n.hd.value) : (sanitizeNode E n.fresh).hd.value = n.hd.value := by
  obtain ⟨hd, cs⟩ := n
  simp only [Node.fresh, sanitizeNode, sanitizeHdr, Node.hd_mk]
  exact format_id E _ h

theorem firstAt_wf {o v : Node} {k : Str} (hw : WellFormed o) (h : firstAt k (entriesOf o) = some v) : WellFormed v := by
  unfold entriesOf at h
  split at h
  · exact ((wf_iff o).1 hw).2 v (firstAt_mem h)
  · cases h

theorem not_meets_of {o n : Node} (h : n.hd.kind ≠ .alias) (h2 : n.hd.kind ≠ .mapping) : ¬ MeetsAlias o n := by
  rintro ⟨ks, x, a, _, h3, h4⟩
  cases ks with
  | nil => simp only [walk, List.cons.injEq, and_true] at h3; subst h3; exact h h4
  | cons k ks => simp [walk, entriesOf, h2, firstAt] at h3

theorem firstAt_of_mem {k : Node} {v : Node} {es : List (Node × Node)} (hd : (es.map (fun e => e.1.hd.value)).Nodup)
    (h : (k, v) ∈ es) : firstAt k.hd.value es = some v := by
  induction es with
  | nil => cases h
  | cons e es ih =>
    simp only [List.map_cons, List.nodup_cons] at hd
    simp only [firstAt]
    rcases List.mem_cons.1 h with rfl | h
    · simp
    · have : e.1.hd.value ≠ k.hd.value := fun hc => hd.1 (List.mem_map.2 ⟨_, h, hc.symm⟩)
      simp [this, ih hd.2 h]

theorem firstAt_some_mem {k : Str} {v : Node} {es : List (Node × Node)} (h : firstAt k es = some v) :
    ∃ a, (a, v) ∈ es ∧ a.hd.value = k := by
  induction es with
  | nil => cases h
  | cons e es ih =>
    simp only [firstAt] at h
    split at h
    · rename_i hk; cases h; exact ⟨e.1, by simp, hk⟩
    · obtain ⟨a, h1, h2⟩ := ih h; exact ⟨a, by simp [h1], h2⟩

/-- Meeting an alias below a mapping. -/
theorem meets_mapping (o : Node) (nh : Hdr) (ncs : List Node) (hk : nh.kind = .mapping) (hd : (keys ncs).Nodup) :
    MeetsAlias o (.mk nh ncs) ↔ ∃ e ∈ pairs ncs, ∃ ov, firstAt e.1.hd.value (entriesOf o) = some ov ∧ MeetsAlias ov e.2 := by
  have hent : entriesOf (.mk nh ncs) = pairs ncs := by simp [entriesOf, hk]
  constructor
  · rintro ⟨ks, x, a, h1, h2, h3⟩
    cases ks with
    | nil =>
      simp only [walk, List.cons.injEq, and_true] at h2
      subst h2
      exact absurd h3 (by show nh.kind ≠ _; rw [hk]; simp)
    | cons k ks =>
      simp only [walk, hent] at h1 h2
      cases hv : firstAt k (pairs ncs) with
      | none => rw [hv] at h2; cases h2
      | some v =>
        rw [hv] at h2
        cases ho : firstAt k (entriesOf o) with
        | none => rw [ho] at h1; cases h1
        | some ov =>
          rw [ho] at h1
          obtain ⟨kn, hm, hkn⟩ := firstAt_some_mem hv
          exact ⟨(kn, v), hm, ov, by rw [hkn]; exact ho, ks, x, a, h1, h2, h3⟩
  · rintro ⟨⟨kn, v⟩, he, ov, ho, ks, x, a, h1, h2, h3⟩
    refine ⟨kn.hd.value :: ks, x, a, ?_, ?_, h3⟩
    · simp only [walk]; rw [ho]; exact h1
    · simp only [walk, hent]; rw [firstAt_of_mem hd he]; exact h2

theorem merge_meets (E : Sed) (n : Node) : PlainKeys n → NoDocs n → ∀ o vals, WellFormed o →
    (merge E o vals n = .err .mergeUnsupportedType ∧ MeetsAlias o n) ∨
    ((∃ o', merge E o vals n = .ok o') ∧ ¬ MeetsAlias o n) := by
  unfold NoDocs
  induction n using Node.ind with
  | h nh ncs ih =>
    intro hp hn o vals hw
    simp only [AllNodes, AllNodess_iff] at hn
    simp only [PlainKeys, PlainKeyss_iff] at hp
    cases hk : nh.kind with
    | zero => right; exact ⟨⟨_, merge_zero E o vals hk⟩, not_meets_of (by simp [hk]) (by simp [hk])⟩
    | «alias» => left; exact ⟨merge_alias E o vals hk, [], o, _, rfl, rfl, hk⟩
    | scalar => right; exact ⟨⟨_, merge_scalar E o vals hk⟩, not_meets_of (by simp [hk]) (by simp [hk])⟩
    | sequence => right; exact ⟨⟨_, merge_sequence E o vals hk⟩, not_meets_of (by simp [hk]) (by simp [hk])⟩
    | document => exact absurd hk hn.1
    | mapping =>
      rw [merge_mapping E o vals hk, meets_mapping o nh ncs hk (hp.1 hk).1]
      have key : ∀ ds : List Node, (∀ c ∈ ds, c ∈ ncs) → (keys ds).Nodup → (∀ k ∈ keys ds, NoMarker k) →
          ∀ o1, (o1.hd.kind = .mapping → o1.content.length % 2 = 0) →
          (∀ k ∈ keys ds, firstAt k (entriesOf o1) = firstAt k (entriesOf o)) →
          (mergeEntries E o1 ds = .err .mergeUnsupportedType ∧
            ∃ e ∈ pairs ds, ∃ ov, firstAt e.1.hd.value (entriesOf o) = some ov ∧ MeetsAlias ov e.2) ∨
          ((∃ o', mergeEntries E o1 ds = .ok o') ∧
            ¬ ∃ e ∈ pairs ds, ∃ ov, firstAt e.1.hd.value (entriesOf o) = some ov ∧ MeetsAlias ov e.2) := by
        intro ds
        induction ds using pairInduction with
        | h0 => intro _ _ _ o1 _ _; right; exact ⟨⟨o1, by simp [mergeEntries]⟩, by simp [pairs]⟩
        | h1 a => intro _ _ _ o1 _ _; right; exact ⟨⟨o1, by simp [mergeEntries]⟩, by simp [pairs]⟩
        | h2 k v ds ihd =>
          intro hsub hnd hnm o1 heven hsame
          have hvm := hsub v (by simp)
          simp only [keys, pairs, List.map_cons, List.nodup_cons, List.mem_cons, forall_eq_or_imp] at hnd hnm hsame
          have heven1 : (toMapping o1).content.length % 2 = 0 := by
            unfold toMapping
            by_cases hkk : o1.hd.kind = .mapping
            · simp [hkk, heven hkk]
            · simp [hkk]
          have hne : ∀ k' ∈ keys ds, k' ≠ k.hd.value := fun k' hk' hc => hnd.1 (hc ▸ hk')
          rw [mergeEntries]
          rcases mergeInner_one E (fun x key => merge E x [key] v) k.hd hnm.1 (toMapping o1).content with
            ⟨h1, h2⟩ | ⟨ov, h1, h2⟩
          · rw [entriesOf_toMapping, hsame.1] at h1
            rw [h2]
            have := ihd (fun c hc => hsub c (by simp [hc])) hnd.2 hnm.2
              (addNode E (.mk (toMapping o1).hd (toMapping o1).content) [k, v]) (by
                intro _
                simp only [addNode, appendContent, Node.content_mk, List.length_append, sanitizeNodes_eq_map,
                  freshs_eq_map, List.length_map, List.length_cons, List.length_nil]
                omega) (by
                intro k' hk'
                rw [← hsame.2 k' hk', ← entriesOf_toMapping o1]
                unfold entriesOf
                have hkind : (addNode E (.mk (toMapping o1).hd (toMapping o1).content) [k, v]).hd.kind = .mapping := by
                  simp only [addNode, appendContent, Node.hd_mk]; exact toMapping_kind o1
                rw [if_pos hkind]
                simp only [addNode, appendContent, Node.content_mk, sanitizeNodes_eq_map, freshs_eq_map, List.map_cons,
                  List.map_nil]
                rw [pairs_append heven1]
                refine firstAt_snoc _ _ _ _ ?_
                rw [sanitize_fresh_value E k hnm.1]
                exact Ne.symm (hne k' hk'))
            show (mergeEntries E _ ds = _ ∧ _) ∨ ((∃ o', mergeEntries E _ ds = _) ∧ _)
            simp only [if_false, Bool.false_eq_true]
            simpa only [pairs, List.exists_mem_cons_iff, h1, reduceCtorEq, false_and, exists_false, false_or] using this
          · rw [entriesOf_toMapping, hsame.1] at h1
            have hwv : WellFormed ov := firstAt_wf hw h1
            have hm := ih v hvm (hp.2 v hvm) (hn.2 v hvm) ov [k.hd.value] hwv
            rcases h2 with ⟨e, h2, h3⟩ | ⟨h2, h3⟩ | ⟨v', cs', h2, h3, h4, h5⟩
            · rcases hm with ⟨hm1, hm2⟩ | ⟨⟨o', hm1⟩, _⟩
              · rw [hm1] at h2; cases h2
                left
                rw [h3]
                exact ⟨rfl, (k, v), by simp [pairs], ov, h1, hm2⟩
              · rw [hm1] at h2; cases h2
            · rcases hm with ⟨hm1, _⟩ | ⟨⟨o', hm1⟩, _⟩ <;> rw [hm1] at h2 <;> cases h2
            · rcases hm with ⟨hm1, _⟩ | ⟨_, hm2⟩
              · rw [hm1] at h2; cases h2
              rw [h3]
              have := ihd (fun c hc => hsub c (by simp [hc])) hnd.2 hnm.2 (.mk (toMapping o1).hd cs') (by
                  intro _
                  rw [Node.content_mk, h4]; exact heven1) (by
                  intro k' hk'
                  rw [← hsame.2 k' hk', ← entriesOf_toMapping o1, ← h5 k' (hne k' hk')]
                  unfold entriesOf
                  rw [Node.hd_mk, if_pos (toMapping_kind o1)]; rfl)
              show (mergeEntries E _ ds = _ ∧ _) ∨ ((∃ o', mergeEntries E _ ds = _) ∧ _)
              simp only [if_true]
              simpa only [pairs, List.exists_mem_cons_iff, h1, Option.some.injEq, exists_eq_left', hm2, false_or] using this
      exact key ncs (fun _ h => h) (hp.1 hk).1 (hp.1 hk).2 o (fun h => by
        have := ((wf_iff o).1 hw).1
        rw [h] at this; exact this) (fun _ _ => rfl)

/-- **C56**: merging a value whose mappings have distinct keys without markers fails
exactly if, going down by the same names in both, the value has an alias where the
target has a node; there is no other failure. -/
theorem C56_merge_fails_iff (E : Sed) (o v : Node) (hw : WellFormed o) (hv : NoDocs v) (hk : PlainKeys v) :
    (mergeNode E o v = .err .mergeUnsupportedType ↔ MeetsAlias o v) ∧
    ((∃ o', mergeNode E o v = .ok o') ↔ ¬ MeetsAlias o v) := by
  unfold mergeNode
  rcases merge_meets E v hk hv o [] hw with ⟨h1, h2⟩ | ⟨⟨o', h1⟩, h2⟩
  · simp [h1, h2]
  · simp [h1, h2]

/-- `{a: {b: *x}, c: *y}` fails on a target with the names a and b, and on one with
the name c, but not on one with just a. -/
example :
    let v := mp [sc c!"a", mp [sc c!"b", .mk { kind := .alias, value := c!"x" } []], sc c!"c", .mk { kind := .alias, value := c!"y" } []]
    PlainKeys v ∧ NoDocs v ∧
    mergeNode noSed (mp [sc c!"a", mp [sc c!"b", sc c!"1"]]) v = .err .mergeUnsupportedType ∧
    mergeNode noSed (mp [sc c!"c", sc c!"1"]) v = .err .mergeUnsupportedType ∧
    (tree (mergeNode noSed (mp [sc c!"a", sc c!"1"]) v)).isSome := by
  refine ⟨?_, ?_, by decide, by decide, by decide⟩
  · simp only [Ex.mp, Ex.sc, PlainKeys, PlainKeyss, keys, pairs, true_and, and_true]
    decide
  · simp [NoDocs, Ex.mp, Ex.sc, AllNodes, AllNodess]

/-! ### Overlays -/

theorem Res.bind_err_cases {ε α β : Type} {x : Res ε α} {f : α → Res ε β} {e : ε} (h : (x >>= f) = .err e) :
    x = .err e ∨ ∃ a, x = .ok a ∧ f a = .err e := by
  cases x with
  | ok a => exact .inr ⟨a, rfl, h⟩
  | err e' => left; cases h; rfl
  | panic => cases h

theorem mergeInner_err (E : Sed) (f : Node → Str → Res Err Node) (nk : Hdr) (e : Err) (cs : List Node)
    (h : mergeInner E f nk cs = .err e) : ∃ x key, f x key = .err e := by
  induction cs using pairInduction with
  | h0 => simp [mergeInner] at h
  | h1 a => simp [mergeInner] at h
  | h2 k v cs ih =>
    rw [mergeInner] at h
    split at h
    · rcases Res.bind_err_cases h with h | ⟨a, _, h⟩
      · exact ih h
      · cases h
    · rcases Res.bind_err_cases h with h | ⟨a, _, h⟩
      · exact ⟨_, _, h⟩
      · split at h
        · cases h
        · rcases Res.bind_err_cases h with h | ⟨a, _, h⟩
          · exact ih h
          · cases h

/-- The only error of a merge is an alias in the value. -/
theorem merge_err (E : Sed) (n : Node) : ∀ o vals e, merge E o vals n = .err e → e = .mergeUnsupportedType ∧ HasAlias n := by
  unfold HasAlias
  induction n using Node.ind with
  | h nh ncs ih =>
    intro o vals e h
    have sub : ∀ c ∈ ncs, ∀ o vals, merge E o vals c = .err e →
        e = .mergeUnsupportedType ∧ ¬ AllNodes (fun h => h.kind ≠ .alias) (.mk nh ncs) := by
      intro c hc o vals h
      obtain ⟨h1, h2⟩ := ih c hc o vals e h
      refine ⟨h1, fun hall => h2 ?_⟩
      simp only [AllNodes, AllNodess_iff] at hall
      exact hall.2 c hc
    cases hk : nh.kind with
    | zero => rw [merge_zero E o vals hk] at h; cases h
    | «alias» =>
      rw [merge_alias E o vals hk] at h; cases h
      exact ⟨rfl, fun hall => by simp only [AllNodes] at hall; exact hall.1 hk⟩
    | scalar => rw [merge_scalar E o vals hk] at h; cases h
    | sequence => rw [merge_sequence E o vals hk] at h; cases h
    | document =>
      rw [merge_document E o vals hk] at h
      split at h
      · cases h
      split at h
      · rcases Res.bind_err_cases h with h | ⟨a, _, h⟩
        · exact sub _ (by simp) _ _ h
        · cases h
      · cases h
    | mapping =>
      rw [merge_mapping E o vals hk] at h
      have key : ∀ ds : List Node, (∀ c ∈ ds, c ∈ ncs) → ∀ o, mergeEntries E o ds = .err e →
          e = .mergeUnsupportedType ∧ ¬ AllNodes (fun h => h.kind ≠ .alias) (.mk nh ncs) := by
        intro ds
        induction ds using pairInduction with
        | h0 => intro _ o h; simp [mergeEntries] at h
        | h1 a => intro _ o h; simp [mergeEntries] at h
        | h2 k v ds ihd =>
          intro hsub o h
          rw [mergeEntries] at h
          rcases Res.bind_err_cases h with h | ⟨a, _, h⟩
          · obtain ⟨x, key, h⟩ := mergeInner_err E _ _ e _ h
            exact sub v (hsub v (by simp)) _ _ h
          · exact ihd (fun c hc => hsub c (by simp [hc])) _ h
      exact key ncs (fun _ h => h) o h

theorem modifyAt_err (a : Nat) (f : Node → Res Err Node) (e : Err) (n : Node) :
    modifyAt a f n = .err e → ∃ x, f x = .err e := by
  induction n using Node.ind with
  | h hd cs ih =>
    intro h
    rw [modifyAt] at h
    split at h
    · exact ⟨_, h⟩
    · have key : ∀ ds : List Node, (∀ c ∈ ds, c ∈ cs) → modifyAts a f ds = .err e → ∃ x, f x = .err e := by
        intro ds
        induction ds with
        | nil => intro _ h; simp [modifyAts] at h
        | cons d ds ihd =>
          intro hsub h
          rw [modifyAts] at h
          rcases Res.bind_err_cases h with h | ⟨_, _, h⟩
          · exact ih d (hsub d (by simp)) h
          · rcases Res.bind_err_cases h with h | ⟨_, _, h⟩
            · exact ihd (fun c hc => hsub c (by simp [hc])) h
            · cases h
      rcases Res.bind_err_cases h with h | ⟨_, _, h⟩
      · exact key cs (fun _ h => h) h
      · cases h

theorem deleteNode_ne_err (a : Nat) (e : Err) (n : Node) : deleteNode a n ≠ .err e := by
  induction n using Node.ind with
  | h hd cs ih =>
    intro h
    rw [deleteNode] at h
    have key : ∀ ds : List Node, (∀ c ∈ ds, c ∈ cs) → deleteScan a ds ≠ .err e := by
      intro ds
      induction ds with
      | nil => intro _ h; simp [deleteScan] at h
      | cons d ds ihd =>
        intro hsub h
        rw [deleteScan] at h
        split at h
        · cases h
        rcases Res.bind_err_cases h with h | ⟨_, _, h⟩
        · exact ih d (hsub d (by simp)) h
        · rcases Res.bind_err_cases h with h | ⟨_, _, h⟩
          · exact ihd (fun c hc => hsub c (by simp [hc])) h
          · cases h
    rcases Res.bind_err_cases h with h | ⟨r, _, h⟩
    · exact key cs (fun _ h => h) h
    · split at h
      · cases h
      · rcases Res.bind_err_cases h with h | ⟨_, _, h⟩
        · unfold deleteIndex at h
          dsimp only at h
          split at h <;> cases h
        · cases h

theorem foldlM_err {α : Type} (f : Node → α → Res Err Node) (e : Err) (ms : List α) : ∀ d,
    ms.foldlM f d = .err e → ∃ d m, m ∈ ms ∧ f d m = .err e := by
  induction ms with
  | nil => intro d h; cases h
  | cons m ms ih =>
    intro d h
    rw [List.foldlM_cons] at h
    rcases Res.bind_err_cases h with h | ⟨d', _, h⟩
    · exact ⟨d, m, by simp, h⟩
    · obtain ⟨d, m, h1, h2⟩ := ih d' h
      exact ⟨d, m, by simp [h1], h2⟩

theorem combine_err (E : Sed) (o n : Node) (e : Err) (h : combineNode E o n = .err e) :
    e = .combineOnlyForScalars ∨ e = .notAnInt ∨ e = .notABool := by
  unfold combineNode at h
  split at h
  · cases h; simp
  · dsimp only at h
    split at h
    · split at h <;> cases h; simp
    · split at h
      · split at h <;> cases h; simp
      · cases h

theorem merge_pathTree_ne_err (E : Sed) (o n : Node) (hn : PathTree n) (e : Err) : mergeNode E o n ≠ .err e := by
  obtain ⟨nh, ncs⟩ := n
  obtain ⟨_, hn⟩ := hn
  simp only [Node.hd_mk, Node.content_mk] at hn
  intro h
  unfold mergeNode at h
  rcases hn with ⟨hk, _⟩ | ⟨hk, sub, rest, rfl, hsub⟩
  · rw [merge_scalar E o [] hk] at h; cases h
  · rw [merge_document E o [] hk] at h
    split at h
    · cases h
    split at h
    · rename_i oc ocs nc ncs' _ hnc
      simp only [List.cons.injEq] at hnc
      obtain ⟨rfl, rfl⟩ := hnc
      obtain ⟨oc', h1⟩ := merge_ok E _ hsub oc [o.hd.value]
      rw [h1] at h; cases h
    · cases h

theorem doInjectPath_err (E : Sed) (o : Overlay) (ip : List Query) (doc : Node) (e : Err)
    (h : doInjectPath E o ip doc = .err e) : e = .invalidPathSyntax ∧ ¬ ∀ q ∈ ip, PlainPath q.str := by
  by_cases hp : ∀ q ∈ ip, PlainPath q.str
  · exfalso
    obtain ⟨ns, hns⟩ := newPaths_ok (ip.map Query.str) (by simpa using hp)
    unfold doInjectPath at h
    rw [hns, Res.bind_ok] at h
    split at h
    · rename_i y hy
      rcases Res.bind_err_cases h with h | ⟨d, _, h⟩
      · have hpt := (paths_pathTree _ _ hns).2
        have : PathTree y := by
          by_cases hne : ns = []
          · subst hne; simp [buildPaths, mergeNodes] at hy
          · obtain ⟨y', hy', hpy⟩ := buildPaths_ok E ns hne hpt
            rw [hy, Res.ok.injEq] at hy'
            exact hy' ▸ hpy
        exact merge_pathTree_ne_err E doc y this e h
      · obtain ⟨_, _, _, h⟩ := foldlM_err _ e _ _ h
        obtain ⟨_, h⟩ := modifyAt_err _ _ e _ h
        cases h
    · cases h
  · refine ⟨?_, hp⟩
    unfold doInjectPath at h
    rw [newPaths_err _ (by simpa using hp)] at h
    cases h; rfl

/-- **C56**: an overlay fails only in these ways: combine meets something that cannot
be combined; merge meets an alias in its value; nothing matches, the value is to be
injected, and neither the query nor the injectPath is a plain path. In particular
replace and delete do not fail on matches. -/
theorem C56_only_failures (E : Sed) (dflt : Str) (o : Overlay) (doc : Node) (e : Err) (h : apply E dflt o doc = .err e) :
    Qualifies o doc ∧
    (((∃ m, Matches o.query doc m) ∧ o.action = .combine ∧
        (e = .combineOnlyForScalars ∨ e = .notAnInt ∨ e = .notABool)) ∨
     ((∃ m, Matches o.query doc m) ∧ o.action ≠ .combine ∧ o.action ≠ .replace ∧ o.action ≠ .delete ∧
        e = .mergeUnsupportedType ∧ HasAlias o.value) ∨
     ((¬ ∃ m, Matches o.query doc m) ∧ Injects dflt o.onMissing ∧ e = .invalidPathSyntax ∧
        (¬ ∀ q ∈ o.query, PlainPath q.str) ∧ ∃ ip, o.onMissing.injectPath = some ip ∧ ¬ ∀ q ∈ ip, PlainPath q.str)) := by
  have hQ : Qualifies o doc := by
    by_contra hc
    rw [C18_unqualified_overlay_is_identity E dflt o doc (.inl hc)] at h; cases h
  refine ⟨hQ, ?_⟩
  by_cases hm : ∃ m, Matches o.query doc m
  · obtain ⟨ms, _, ha⟩ := (C18_otherwise E dflt o doc hQ).1 hm
    rw [ha] at h
    obtain ⟨d, x, _, h⟩ := foldlM_err _ e _ _ h
    unfold doOne at h
    split at h
    · exact absurd h (deleteNode_ne_err _ _ _)
    · obtain ⟨_, h⟩ := modifyAt_err _ _ e _ h; cases h
    · rename_i hac
      obtain ⟨_, h⟩ := modifyAt_err _ _ e _ h
      exact .inl ⟨hm, hac, combine_err E _ _ e h⟩
    · rename_i h1 h2 h3
      obtain ⟨_, h⟩ := modifyAt_err _ _ e _ h
      obtain ⟨h4, h5⟩ := merge_err E _ _ _ e h
      exact .inr (.inl ⟨hm, h3, h2, h1, h4, h5⟩)
  · by_cases hI : Injects dflt o.onMissing
    · rw [(C18_otherwise E dflt o doc hQ).2 hm hI] at h
      right; right
      unfold handleInjectPath at h
      by_cases hq : ∀ q ∈ o.query, PlainPath q.str
      · exfalso
        obtain ⟨ns, hns⟩ := newPaths_ok (o.query.map Query.str) (by simpa using hq)
        rw [hns] at h
        exact (doInjectPath_err E o _ doc e h).2 hq
      · rw [newPaths_err _ (by simpa using hq)] at h
        dsimp only at h
        split at h
        · cases h
        · rename_i ip hip
          obtain ⟨h1, h2⟩ := doInjectPath_err E o _ doc e h
          exact ⟨hm, hI, h1, hq, ip, hip, h2⟩
    · rw [C18_unqualified_overlay_is_identity E dflt o doc (.inr ⟨hm, hI⟩)] at h; cases h

/-- **C56**: so an overlay that does not combine, has no alias in its value and, if it
injects, has a plain path to inject at, applies to every document whose root has not
been deleted. -/
theorem C56_applies (E : Sed) (dflt : Str) (o : Overlay) (doc : Node) (hw : WellFormed doc) (hr : NotEmptied doc)
    (hv : NoDocs o.value) (hc : o.action ≠ .combine) (ha : ¬ HasAlias o.value)
    (hi : Injects dflt o.onMissing → o.query ≠ [] ∧ ((∀ q ∈ o.query, PlainPath q.str) ∨
      ∃ ip, o.onMissing.injectPath = some ip ∧ ip ≠ [] ∧ ∀ q ∈ ip, PlainPath q.str)) :
    ∃ doc', apply E dflt o doc = .ok doc' := by
  have fin : NamesPlace dflt o → ∃ doc', apply E dflt o doc = .ok doc' := by
    intro hn
    cases h : apply E dflt o doc with
    | ok d => exact ⟨d, rfl⟩
    | panic => exact absurd h (C33_no_crash_partial E dflt o doc hw hr hv hn)
    | err e =>
      exfalso
      obtain ⟨_, ⟨_, h1, _⟩ | ⟨_, _, _, _, _, h1⟩ | ⟨_, hI, _, hq, ip, hip, hnp⟩⟩ := C56_only_failures E dflt o doc e h
      · exact hc h1
      · exact ha h1
      · rcases (hi hI).2 with h2 | ⟨ip', h2, _, h3⟩
        · exact hq h2
        · rw [hip] at h2; cases h2; exact hnp h3
  by_cases hI : Injects dflt o.onMissing
  · obtain ⟨h1, h2 | ⟨ip, h2, h3, _⟩⟩ := hi hI
    · by_cases hm : ∃ m, Matches o.query doc m
      · by_cases hQ : Qualifies o doc
        · obtain ⟨ms, _, hap⟩ := (C18_otherwise E dflt o doc hQ).1 hm
          cases h : apply E dflt o doc with
          | ok d => exact ⟨d, rfl⟩
          | panic => rw [hap] at h; exact absurd h (doAction_ne_panic E o ms hv doc hw)
          | err e =>
            exfalso
            obtain ⟨_, ⟨_, h1, _⟩ | ⟨_, _, _, _, _, h1⟩ | ⟨hm', _⟩⟩ := C56_only_failures E dflt o doc e h
            · exact hc h1
            · exact ha h1
            · exact hm' hm
        · exact ⟨doc, C18_unqualified_overlay_is_identity E dflt o doc (.inl hQ)⟩
      · let o' : Overlay := { o with onMissing := { o.onMissing with injectPath := none } }
        have he : apply E dflt o doc = apply E dflt o' doc := C28_plain_ignores_injectPath E dflt o doc none hm h2
        cases h : apply E dflt o' doc with
        | ok d => exact ⟨d, by rw [he, h]⟩
        | panic => exact absurd h (C33_no_crash_partial E dflt o' doc hw hr hv (fun _ => ⟨h1, by simp [o']⟩))
        | err e =>
          exfalso
          obtain ⟨_, ⟨_, h1, _⟩ | ⟨_, _, _, _, _, h1⟩ | ⟨_, _, _, hq, _⟩⟩ := C56_only_failures E dflt o' doc e h
          · exact hc h1
          · exact ha h1
          · exact hq h2
    · exact fin (fun _ => ⟨h1, by rw [h2]; simp [h3]⟩)
  · exact fin (fun h => absurd h hI)

/-- An overlay and a document to which this applies; the value arrives. -/
example :
    let d := (dc (mp [sc c!"k", sc c!"v"])).label
    WellFormed d ∧ NotEmptied d ∧ NoDocs fallback.value ∧ fallback.action ≠ .combine ∧ ¬ HasAlias fallback.value ∧
    fallback.query ≠ [] ∧ ∃ ip, fallback.onMissing.injectPath = some ip ∧ ip ≠ [] ∧ ∀ q ∈ ip, PlainPath q.str := by
  refine ⟨?_, .inr (by decide), ?_, by decide, ?_, by simp [fallback], _, rfl, by simp, ?_⟩
  · apply label_wf; simp [Ex.dc, Ex.mp, Ex.sc, WellFormed, WellFormeds, Shaped]
  · simp [fallback, NoDocs, Ex.sc, AllNodes, AllNodess]
  · simp [fallback, HasAlias, Ex.sc, AllNodes, AllNodess]
  · intro q hq
    simp only [List.mem_cons, List.not_mem_nil, or_false] at hq
    subst hq
    rw [← C29_accepts_exactly_plain_paths]
    exact ⟨inDocument (nested [c!"z"]), by decide⟩

end Yot
