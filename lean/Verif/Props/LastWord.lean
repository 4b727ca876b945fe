import Verif.Spec.LastWord
import Verif.Lemmas.Again
import Verif.Spec.Build
/-
C90: what a document holds at a path in the end is decided by the overlays at that path.
-/
namespace Yot
open Spec Ex

theorem editPath_append (ks r : List Str) (f : Node → Res Err (Option Node)) : editPath (ks ++ r) f = editPath ks (editPath r f) := by
  induction ks with
  | nil => rfl
  | cons k ks ih => funext n; simp only [List.cons_append, editPath, ih]

theorem docEdit_append (ks r : List Str) (f : Node → Res Err (Option Node)) : docEdit (ks ++ r) f = docEdit ks (editPath r f) := by
  funext d; simp only [docEdit, editPath_append]

theorem documentOf_fresh (ns : List Node) : (documentOf ns).fresh = documentOf (ns.map Node.fresh) := by
  simp [documentOf, Node.fresh, freshs_eq_map]

theorem findNames_cases (ks : List Str) (d : Node) (hd : d.hd.kind = .document) : findNames ks d = [] ∨ ∃ m, findNames ks d = [m] := by
  obtain ⟨h, cs⟩ := d
  cases cs with
  | nil => exact .inl (findNames_empty (by exact hd) ks)
  | cons c rest => rw [findNames_mk (by exact hd)]; exact walk_cases ks c

/-- The edits at or below the path. -/
def editsWithin (E : Sed) (ks : List Str) : List (List Str × Overlay) → Node → Res Err Node
  | [], e => .ok e
  | p :: ps, e => if ks.isPrefixOf p.1 then docEdit (p.1.drop ks.length) (act E p.2) e >>= editsWithin E ks ps else editsWithin E ks ps e

theorem editAll_within (E : Sed) (ks : List Str) (ps : List (List Str × Overlay))
    (hrel : ∀ p ∈ ps, ks <+: p.1 ∨ Unrelated ks p.1) (hdel : ∀ p ∈ ps, p.1 = ks → p.2.action ≠ .delete) :
    ∀ d d' : Node, d.hd.kind = .document → editAll E ps d = .ok d' →
      ∃ e', editsWithin E ks ps (documentOf (findNames ks d)) = .ok e' ∧ e'.content = findNames ks d' := by
  induction ps with
  | nil => intro d d' _ h; cases h; exact ⟨_, rfl, rfl⟩
  | cons p ps ih =>
    intro d d' hd h
    simp only [editAll, Res.bind_eq_ok] at h
    obtain ⟨x, hx, h⟩ := h
    have hxk : x.hd.kind = .document := by rw [docEdit_kind hx, hd]
    obtain ⟨e', i1, i2⟩ := ih (fun p hp => hrel p (by simp [hp])) (fun p hp => hdel p (by simp [hp])) x d' hxk h
    refine ⟨e', ?_, i2⟩
    rw [editsWithin]
    by_cases hpre : ks <+: p.1
    · rw [if_pos (List.isPrefixOf_iff_prefix.2 hpre)]
      obtain ⟨r, hr⟩ := hpre
      have hdrop : p.1.drop ks.length = r := by rw [← hr]; simp
      rw [hdrop]
      rw [← hr, docEdit_append] at hx
      rcases findNames_cases ks d hd with h0 | ⟨m, h0⟩
      · rw [docEdit_none _ ks d hd h0] at hx
        cases hx
        rw [h0] at i1 ⊢
        simpa [docEdit, documentOf] using i1
      · obtain ⟨a, ha, hb⟩ := docEdit_found ks d m x hd h0 hx
        have hsome : ∃ b, a = some b := by
          cases r with
          | cons k r => exact editPath_some _ (by simp) ha
          | nil =>
            have hne := hdel p (by simp) (by rw [← hr]; simp)
            simp only [editPath, act] at ha
            revert ha
            cases hact : p.2.action with
            | delete => exact absurd hact hne
            | replace => simp only []; intro h; cases h; exact ⟨_, rfl⟩
            | combine => simp only [Res.bind_eq_ok]; rintro ⟨y, _, h⟩; cases h; exact ⟨_, rfl⟩
            | merge => simp only [Res.bind_eq_ok]; rintro ⟨y, _, h⟩; cases h; exact ⟨_, rfl⟩
            | invalid => simp only [Res.bind_eq_ok]; rintro ⟨y, _, h⟩; cases h; exact ⟨_, rfl⟩
        obtain ⟨b, rfl⟩ := hsome
        rw [hb b rfl] at i1
        rw [h0]
        simp only [docEdit, documentOf, Node.content_mk, ha, Res.bind_ok]
        exact i1
    · have hu := (hrel p (by simp)).resolve_left hpre
      rw [if_neg (fun h => hpre (List.isPrefixOf_iff_prefix.1 h))]
      rw [docEdit_elsewhere hu hd hx] at i1
      exact i1

theorem applyAll_within (E : Sed) (dflt : Str) (ks : List Str) (ps : List (List Str × Overlay))
    (hdq : ∀ p ∈ ps, p.2.documentQuery = []) (hI : ∀ p ∈ ps, ¬ Injects dflt p.2.onMissing) :
    ∀ e : Node, e.hd.kind = .document → freshRes (Spec.applyAll E dflt (within ks ps) e) = editsWithin E ks ps e.fresh := by
  induction ps with
  | nil => intro e _; rfl
  | cons p ps ih =>
    intro e he
    have ih := ih (fun p hp => hdq p (by simp [hp])) (fun p hp => hI p (by simp [hp]))
    unfold within at ih ⊢
    rw [editsWithin]
    by_cases hpre : ks.isPrefixOf p.1
    · rw [if_pos hpre, List.filter_cons_of_pos (p := fun p : List Str × Overlay => ks.isPrefixOf p.1) hpre, List.map_cons]
      have h1 := applyJob_docEdit E dflt { p.2 with query := [⟨[], findNames (p.1.drop ks.length)⟩] } (p.1.drop ks.length)
        ⟨_, rfl, rfl⟩ (hdq p (by simp)) e (.inl (hI p (by simp))) he
      simp only [Spec.applyAll]
      have hact : act E { p.2 with query := [⟨[], findNames (p.1.drop ks.length)⟩] } = act E p.2 := rfl
      rw [hact] at h1
      rw [← h1]
      cases hj : applyJob E dflt { p.2 with query := [⟨[], findNames (p.1.drop ks.length)⟩] } e with
      | err x => rfl
      | panic => rfl
      | ok e2 =>
        simp only [freshRes, Res.bind_ok]
        refine ih e2 ?_
        rw [hj] at h1
        have := docEdit_kind h1.symm
        simpa [fresh_hd, he] using this
    · rw [if_neg hpre, List.filter_cons_of_neg (p := fun p : List Str × Overlay => ks.isPrefixOf p.1) (by simpa using hpre)]
      exact ih e he

/-- **C90** What a document holds at a path of names after a list of overlays is what those of them
at or below that path make of what it held there, and nothing else: overlays at other paths
neither change it nor decide whether it is there.  (All overlays are at paths of names, none is above
`ks`, none deletes `ks` itself, see `C90_delete_wins`, and nothing is injected.) -/
theorem C90_value_at (E : Sed) (dflt : Str) (ks : List Str) (ps : List (List Str × Overlay)) (hat : ∀ p ∈ ps, Spec.At p.1 p.2)
    (hdq : ∀ p ∈ ps, p.2.documentQuery = []) (hI : ∀ p ∈ ps, ¬ Injects dflt p.2.onMissing)
    (hrel : ∀ p ∈ ps, ks <+: p.1 ∨ Unrelated ks p.1) (hdel : ∀ p ∈ ps, p.1 = ks → p.2.action ≠ .delete)
    (d d' : Node) (hd : d.hd.kind = .document) (h : Spec.applyAll E dflt (ps.map (·.2)) d = .ok d') :
    ∃ e', Spec.applyAll E dflt (within ks ps) (documentOf (findNames ks d)) = .ok e' ∧ SameNodes (findNames ks d') e'.content := by
  have h1 := applyAll_editAll E dflt ps hat hdq hI d hd
  rw [h] at h1
  obtain ⟨e', i1, i2⟩ := editAll_within E ks ps hrel hdel d.fresh d'.fresh (by simp [fresh_hd, hd]) h1.symm
  have h2 := applyAll_within E dflt ks ps hdq hI (documentOf (findNames ks d)) rfl
  rw [documentOf_fresh, ← findNames_fresh, i1] at h2
  obtain ⟨x, hx, hf⟩ := applyJob_of_freshRes h2
  refine ⟨x, hx, ?_⟩
  unfold SameNodes
  rw [← findNames_fresh, ← i2, ← hf, fresh_content]

theorem applyAll_cat (E : Sed) (dflt : Str) (a b : List Overlay) (d : Node) :
    Spec.applyAll E dflt (a ++ b) d = (Spec.applyAll E dflt a d >>= Spec.applyAll E dflt b) := by
  induction a generalizing d with
  | nil => rfl
  | cons o a ih =>
    simp only [List.cons_append, Spec.applyAll]
    cases applyJob E dflt o d with
    | ok x => simp [ih]
    | err e => rfl
    | panic => rfl

theorem editAll_elsewhere (E : Sed) (ks : List Str) (ps : List (List Str × Overlay)) (hu : ∀ p ∈ ps, Unrelated ks p.1) :
    ∀ d d' : Node, d.hd.kind = .document → editAll E ps d = .ok d' → findNames ks d' = findNames ks d := by
  induction ps with
  | nil => intro d d' _ h; cases h; rfl
  | cons p ps ih =>
    intro d d' hd h
    simp only [editAll, Res.bind_eq_ok] at h
    obtain ⟨x, hx, h⟩ := h
    rw [ih (fun p hp => hu p (by simp [hp])) x d' (by rw [docEdit_kind hx, hd]) h]
    exact docEdit_elsewhere (hu p (by simp)) hd hx

/-- **C90** Overlays at other paths leave what is at a path as it is, all of them together. -/
theorem C90_elsewhere (E : Sed) (dflt : Str) (ks : List Str) (ps : List (List Str × Overlay)) (hat : ∀ p ∈ ps, Spec.At p.1 p.2)
    (hdq : ∀ p ∈ ps, p.2.documentQuery = []) (hI : ∀ p ∈ ps, ¬ Injects dflt p.2.onMissing) (hu : ∀ p ∈ ps, Unrelated ks p.1)
    (d d' : Node) (hd : d.hd.kind = .document) (h : Spec.applyAll E dflt (ps.map (·.2)) d = .ok d') :
    SameNodes (findNames ks d') (findNames ks d) := by
  have h1 := applyAll_editAll E dflt ps hat hdq hI d hd
  rw [h] at h1
  have := editAll_elsewhere E ks ps hu d.fresh d'.fresh (by simp [fresh_hd, hd]) h1.symm
  unfold SameNodes
  rw [← findNames_fresh, ← findNames_fresh, this]

/-- **C90** The last word: of all overlays, whatever comes before, the last one at a path, a replace, decides what is
there in the end: exactly its value.  (`d1` is the document when it is its turn.) -/
theorem C90_replace_wins (E : Sed) (dflt : Str) (ks : List Str) (pre : List Overlay) (o : Overlay) (post : List (List Str × Overlay))
    (ho : Spec.At ks o) (hodq : o.documentQuery = []) (hact : o.action = .replace)
    (hat : ∀ p ∈ post, Spec.At p.1 p.2) (hdq : ∀ p ∈ post, p.2.documentQuery = []) (hI : ∀ p ∈ post, ¬ Injects dflt p.2.onMissing)
    (hu : ∀ p ∈ post, Unrelated ks p.1)
    (d d1 d' : Node) (hpre : Spec.applyAll E dflt pre d = .ok d1) (hd1 : d1.hd.kind = .document) (hthere : findNames ks d1 ≠ [])
    (h : Spec.applyAll E dflt (pre ++ o :: post.map (·.2)) d = .ok d') :
    ∃ m, findNames ks d' = [m] ∧ m.hd.kind = o.value.hd.kind ∧ m.hd.tag = o.value.hd.tag ∧ m.hd.value = o.value.hd.value ∧
      m.hd.style = o.value.hd.style ∧ m.hd.anchor = o.value.hd.anchor ∧ SameNodes m.content o.value.content := by
  rw [applyAll_cat, hpre, Res.bind_ok, Spec.applyAll, Res.bind_eq_ok] at h
  obtain ⟨d2, h2, h3⟩ := h
  have hth : findNames ks d1.fresh ≠ [] := by rw [findNames_fresh]; simpa using hthere
  have e2 := applyJob_docEdit E dflt o ks ho hodq d1 (.inr hth) hd1
  rw [h2] at e2
  have e2 : docEdit ks (act E o) d1.fresh = .ok d2.fresh := e2.symm
  have hk2 : d2.hd.kind = .document := by
    have := docEdit_kind e2
    simpa [fresh_hd, hd1] using this
  have hs := C90_elsewhere E dflt ks post hat hdq hI hu d2 d' hk2 h3
  obtain ⟨m, hm⟩ := (findNames_cases ks d1.fresh (by simp [fresh_hd, hd1])).resolve_left hth
  obtain ⟨a, ha, hb⟩ := docEdit_found ks _ m _ (by simp [fresh_hd, hd1]) hm e2
  simp only [act, hact, Res.ok.injEq] at ha
  have hb := hb _ ha.symm
  unfold SameNodes at hs
  rw [← findNames_fresh, ← findNames_fresh, hb] at hs
  have hd' : findNames ks d'.fresh = (findNames ks d').map Node.fresh := findNames_fresh ks d'
  rw [hs] at hd'
  match hf : findNames ks d', hd' with
  | [], hd' => cases hd'
  | [x], hd' =>
    simp only [List.map_cons, List.map_nil, List.cons.injEq, and_true] at hd'
    have hh : x.fresh.hd = (replaceNode E m o.value).hd := by rw [← hd']
    have hc : x.fresh.content = (replaceNode E m o.value).content := by rw [← hd']
    refine ⟨x, rfl, ?_⟩
    rw [fresh_hd] at hh
    have g : ∀ {α : Type} (p : Hdr → α), p { x.hd with addr := 0 } = p (replaceNode E m o.value).hd := fun p => congrArg p hh
    refine ⟨by have := g (·.kind); simpa [replaceNode, fresh_hd] using this, by have := g (·.tag); simpa [replaceNode, fresh_hd] using this, by have := g (·.value); simpa [replaceNode, fresh_hd] using this, by have := g (·.style); simpa [replaceNode, fresh_hd] using this, by have := g (·.anchor); simpa [replaceNode, fresh_hd] using this, ?_⟩
    unfold SameNodes
    rw [← fresh_content, hc]
    simp [replaceNode, fresh_content]
  | x :: y :: l, hd' => simp at hd'

/-- **C90** And so does a delete: what the last overlay at a path deletes, from a valid document and after overlays that
keep documents valid (C77), is not there in the end. -/
theorem C90_delete_wins (E : Sed) (dflt : Str) (ks : List Str) (pre : List Overlay) (o : Overlay) (post : List (List Str × Overlay))
    (ho : Spec.At ks o) (hodq : o.documentQuery = []) (hact : o.action = .delete) (hoI : ¬ Injects dflt o.onMissing)
    (hproper : ∀ x ∈ pre, Proper dflt x)
    (hat : ∀ p ∈ post, Spec.At p.1 p.2) (hdq : ∀ p ∈ post, p.2.documentQuery = []) (hI : ∀ p ∈ post, ¬ Injects dflt p.2.onMissing)
    (hu : ∀ p ∈ post, Unrelated ks p.1)
    (d d' : Node) (hd : ValidDocument d) (h : Spec.applyAll E dflt (pre ++ o :: post.map (·.2)) d = .ok d') :
    findNames ks d' = [] := by
  rw [applyAll_cat, Res.bind_eq_ok] at h
  obtain ⟨d1, h1, h⟩ := h
  rw [Spec.applyAll, Res.bind_eq_ok] at h
  obtain ⟨d2, h2, h3⟩ := h
  have hv1 : ValidDocument d1 := by
    have key : ∀ (os : List Overlay) (d : Node), Spec.applyAll E dflt os d = os.foldlM (fun d o => applyJob E dflt o d) d := by
      intro os
      induction os with
      | nil => intro d; rfl
      | cons x os ih => intro d; rw [Spec.applyAll, List.foldlM_cons]; congr 1; funext y; exact ih y
    rw [key] at h1
    exact C77_history E dflt pre hproper d d1 hd h1
  obtain ⟨e1, _⟩ := C58_delete_again E dflt o ks ho hodq hact hoI d1 d2 (valid_distinct hv1) hv1.1 hv1.2.1 h2
  have hk2 : d2.hd.kind = .document := by
    have e2 := applyJob_docEdit E dflt o ks ho hodq d1 (.inl hoI) hv1.1
    rw [h2] at e2
    have := docEdit_kind e2.symm
    simpa [fresh_hd, hv1.1] using this
  have hs := C90_elsewhere E dflt ks post hat hdq hI hu d2 d' hk2 h3
  rw [e1] at hs
  simpa [SameNodes] using hs

/-- Overlays at `a`, below it, and elsewhere. -/
def lastEx : List (List Str × Overlay) :=
  [([c!"a", c!"x"], { query := [⟨c!"a.x", findNames [c!"a", c!"x"]⟩], action := .delete }),
   ([c!"b"], { query := [⟨c!"b", findNames [c!"b"]⟩], action := .delete }),
   ([c!"a"], { query := [⟨c!"a", findNames [c!"a"]⟩], value := mp [sc c!"y", sc c!"3", sc c!"z", sc c!"4"], action := .merge }),
   ([c!"a", c!"z"], { query := [⟨c!"a.z", findNames [c!"a", c!"z"]⟩], value := sc c!"5", action := .replace }),
   ([c!"c"], { query := [⟨c!"c", findNames [c!"c"]⟩], value := sc c!"6", action := .replace })]

/-- The document `{a: {x: 1, y: 2}, b: 3, c: 4}`. -/
def lastDoc : Node := dc (mp [sc c!"a", mp [sc c!"x", sc c!"1", sc c!"y", sc c!"2"], sc c!"b", sc c!"3", sc c!"c", sc c!"4"])

/-- The hypotheses of `C90_value_at` are met, with these overlays on `{x: 1, y: 2}`, and this outcome. -/
example : (∀ p ∈ lastEx, Spec.At p.1 p.2) ∧ (∀ p ∈ lastEx, [c!"a"] <+: p.1 ∨ Unrelated [c!"a"] p.1) ∧
    (∀ p ∈ lastEx, p.1 = [c!"a"] → p.2.action ≠ .delete) ∧ (∀ p ∈ lastEx, ¬ Injects c!"" p.2.onMissing) ∧
    (within [c!"a"] lastEx).length = 3 ∧
    tree (Spec.applyAll noSed c!"" (lastEx.map (·.2)) lastDoc) =
      some (dc (mp [sc c!"a", mp [sc c!"y", sc c!"3", sc c!"z", sc c!"5"], sc c!"c", sc c!"6"])) ∧
    tree (Spec.applyAll noSed c!"" (within [c!"a"] lastEx) (dc (mp [sc c!"x", sc c!"1", sc c!"y", sc c!"2"]))) =
      some (dc (mp [sc c!"y", sc c!"3", sc c!"z", sc c!"5"])) := by
  have hni : ¬ Injects c!"" ({} : OnMissing) := by simp [Injects, Effective, AnyCase]; try decide
  refine ⟨?_, ?_, ?_, ?_, by decide, by decide +kernel, by decide +kernel⟩
  · intro p hp
    simp only [lastEx, List.mem_cons, List.not_mem_nil, or_false] at hp
    rcases hp with rfl | rfl | rfl | rfl | rfl <;> exact ⟨_, rfl, rfl⟩
  · simp only [Unrelated]; decide
  · decide
  · intro p hp
    simp only [lastEx, List.mem_cons, List.not_mem_nil, or_false] at hp
    rcases hp with rfl | rfl | rfl | rfl | rfl <;> exact hni

/-- The last word at `c`, and a deletion that is followed by overlays elsewhere only: both stand. -/
example :
    let r : Overlay := { query := [⟨c!"c", findNames [c!"c"]⟩], value := sc c!"first", action := .replace }
    let r' : Overlay := { query := [⟨c!"c", findNames [c!"c"]⟩], value := sc c!"last", action := .replace }
    let x : Overlay := { query := [⟨c!"a", findNames [c!"a"]⟩], action := .delete }
    let y : Overlay := { query := [⟨c!"b", findNames [c!"b"]⟩], value := sc c!"7", action := .merge }
    Spec.At [c!"c"] r' ∧ Spec.At [c!"a"] x ∧ Unrelated [c!"c"] [c!"b"] ∧ Unrelated [c!"a"] [c!"b"] ∧
    tree (Spec.applyAll noSed c!"" [r, x, r', y] lastDoc) = some (dc (mp [sc c!"b", sc c!"7", sc c!"c", sc c!"last"])) := by
  refine ⟨⟨_, rfl, rfl⟩, ⟨_, rfl, rfl⟩, ?_, ?_, by decide +kernel⟩ <;> simp only [Unrelated] <;> decide

end Yot
