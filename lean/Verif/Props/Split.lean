import Verif.Spec.Split
import Verif.Props.LastWord
import Verif.Props.Overlap
/-
C98: an overlay with several queries is as good as one overlay for each.
-/
namespace Yot
open Spec Ex

/-! ### Addresses -/

/-- How often the address occurs; not at all if there is no node. -/
def times0 (a : Nat) : Option Node → Nat
  | some n => n.addrs.count a
  | none => 0

theorem editPath_count {f : Node → Res Err (Option Node)} {a : Nat} (ks : List Str) : ∀ (t n : Node) (r : Option Node), walk ks t = [n] →
    (∀ r, f n = .ok r → times0 a r ≤ n.addrs.count a) → editPath ks f t = .ok r → times0 a r ≤ t.addrs.count a := by
  induction ks with
  | nil =>
    intro t n r h hf he
    simp only [walk, List.cons.injEq, and_true] at h
    subst h
    exact hf r he
  | cons k ks ih =>
    intro t n r h hf he
    obtain ⟨hm, v, hfa, hw⟩ := walk_split h
    obtain ⟨A, kn, B, e1, e2, e3, e4⟩ := firstAt_split hfa
    obtain ⟨hd, cs⟩ := t
    simp only [Node.content_mk] at e1
    subst e1
    rw [editPath, if_pos hm, Node.content_mk, updR_split _ e2 e4 e3] at he
    cases hv : editPath ks f v with
    | err e => rw [hv] at he; cases he
    | panic => rw [hv] at he; cases he
    | ok x =>
      have h1 := ih v n x hw hf hv
      rw [hv] at he
      cases x with
      | none =>
        simp only [Res.bind_ok, Res.ok.injEq] at he
        subst he
        simp only [times0, Node.addrs, addrss_append, Node.addrss, List.count_cons, List.count_append, cutHd, Node.hd_mk]
        omega
      | some v' =>
        simp only [Res.bind_ok, Res.ok.injEq] at he
        subst he
        simp only [times0, Node.addrs, addrss_append, Node.addrss, List.count_cons, List.count_append, cutHd, Node.hd_mk] at h1 ⊢
        omega

theorem act_count (E : Sed) (o : Overlay) {n : Node} {r : Option Node} {a : Nat} (h0 : a ≠ 0) (ha : a ∉ n.addrs) (h : act E o n = .ok r) :
    times0 a r = 0 := by
  cases r with
  | none => rfl
  | some n' =>
    refine List.count_eq_zero.2 (actOn_local E o n n' a ?_ h0 ha)
    unfold act at h
    unfold actOn
    cases hac : o.action <;> rw [hac] at h <;> simp only [Res.bind_eq_ok, Res.ok.injEq, Option.some.injEq, reduceCtorEq] at h ⊢
    all_goals first | exact h | (obtain ⟨x, h1, h2⟩ := h; rw [h1, h2])

/-- The paths found lie in the tree once each. -/
def OnceEach (kss : List (List Str)) (d : Node) : Prop :=
  ∀ ks ∈ kss, ∀ m, findNames ks d = [m] → m.hd.addr ≠ 0 ∧ d.addrs.count m.hd.addr ≤ 1

theorem findNames_content {d m : Node} (hk : d.hd.kind = .document) {ks : List Str} (h : findNames ks d = [m]) :
    ∃ c rest, d.content = c :: rest ∧ walk ks c = [m] := by
  unfold findNames at h
  rw [if_pos hk] at h
  cases hc : d.content with
  | nil => rw [hc] at h; cases h
  | cons c rest => rw [hc] at h; exact ⟨c, rest, rfl, h⟩

theorem docEdit_count (E : Sed) (o : Overlay) {ks ks' : List Str} (hu : Unrelated ks ks') {d d' n m : Node} (hk : d.hd.kind = .document)
    (hn : findNames ks d = [n]) (hm : findNames ks' d = [m]) (h0 : m.hd.addr ≠ 0) (h1 : d.addrs.count m.hd.addr ≤ 1)
    (h : docEdit ks (act E o) d = .ok d') : d'.addrs.count m.hd.addr ≤ 1 := by
  obtain ⟨c, rest, hc, hwn⟩ := findNames_content hk hn
  obtain ⟨_, _, hc', hwm⟩ := findNames_content hk hm
  rw [hc] at hc'
  cases hc'
  obtain ⟨hd, cs⟩ := d
  simp only [Node.content_mk] at hc
  subst hc
  have ham := mem_addrs_walk [] m m (by simp [walk])
  have hcu := count_unrelated m.hd.addr ks ks' c n m hu hwn hwm
  have hmc := List.count_pos_iff.2 ham
  simp only [Node.addrs, Node.addrss, List.count_cons, List.count_append] at h1
  have hnn : m.hd.addr ∉ n.addrs := fun hc => by have := List.count_pos_iff.2 hc; omega
  unfold docEdit at h
  simp only [Node.content_mk, Res.bind_eq_ok] at h
  obtain ⟨r, hr, h⟩ := h
  have hle := editPath_count ks c n r hwn (fun r hr => by rw [act_count E o h0 hnn hr]; exact Nat.zero_le _) hr
  cases r with
  | none =>
    cases h
    simp only [Node.addrs, List.count_cons, cutHd, Node.hd_mk]
    omega
  | some c' =>
    cases h
    simp only [Node.addrs, Node.addrss, List.count_cons, List.count_append, times0, Node.hd_mk] at hle ⊢
    omega

theorem once_after (E : Sed) (o : Overlay) {ks : List Str} {kss : List (List Str)} (hu : ∀ ks' ∈ kss, Unrelated ks ks') {d d' n : Node}
    (hk : d.hd.kind = .document) (hn : findNames ks d = [n]) (h1 : OnceEach kss d) (h : docEdit ks (act E o) d = .ok d') : OnceEach kss d' := by
  intro ks' hks' m hm
  have hu' : Unrelated ks' ks := ⟨(hu ks' hks').2, (hu ks' hks').1⟩
  rw [docEdit_elsewhere hu' hk h] at hm
  obtain ⟨a1, a2⟩ := h1 ks' hks' m hm
  exact ⟨a1, docEdit_count E o (hu ks' hks') hk hn hm a1 a2 h⟩

/-- Acting on what has been found at the paths is one edit after another. -/
theorem doAction_editAll (E : Sed) (o : Overlay) (d : Node) (kss : List (List Str)) : ∀ cur : Node, cur.hd.kind = .document → AllUnrelated kss →
    OnceEach kss cur → (∀ ks ∈ kss, findNames ks cur = findNames ks d) →
    doAction E o cur (kss.flatMap (fun ks => findNames ks d)) = editAll E (kss.map (fun ks => (ks, o))) cur := by
  induction kss with
  | nil => intro cur _ _ _ _; rfl
  | cons ks kss ih =>
    intro cur hk hap h1 hsame
    have hap' := List.pairwise_cons.1 hap
    have hks := hsame ks (by simp)
    unfold doAction at ih ⊢
    rw [List.flatMap_cons, List.foldlM_append, List.map_cons, editAll, ← hks]
    rcases findNames_cases ks cur hk with h | ⟨m, h⟩
    · rw [h, docEdit_none _ ks cur hk h]
      simp only [List.foldlM_nil, Res.pure_eq, Res.bind_ok]
      exact ih cur hk hap'.2 (fun k hk' => h1 k (by simp [hk'])) (fun k hk' => hsame k (by simp [hk']))
    · rw [h]
      simp only [List.foldlM_cons, List.foldlM_nil]
      rw [doOne_docEdit_once E o ks cur m hk (h1 ks (by simp) m h).2 h]
      cases he : docEdit ks (act E o) cur with
      | err e => rfl
      | panic => rfl
      | ok cur' =>
        simp only [Res.bind_ok, Res.pure_eq]
        refine ih cur' (by rw [docEdit_kind he, hk]) hap'.2 (once_after E o hap'.1 hk h (fun k hk' => h1 k (by simp [hk'])) he) ?_
        intro k hk'
        have hu := hap'.1 k hk'
        rw [docEdit_elsewhere ⟨hu.2, hu.1⟩ hk he]
        exact hsame k (by simp [hk'])

theorem editAll_fresh (E : Sed) (ps : List (List Str × Overlay)) : ∀ d, freshRes (editAll E ps d) = editAll E ps d.fresh := by
  induction ps with
  | nil => intro d; rfl
  | cons p ps ih =>
    intro d
    simp only [editAll]
    rw [← docEdit_fresh (act_fresh E p.2)]
    cases docEdit p.1 (act E p.2) d with
    | err e => rfl
    | panic => rfl
    | ok d' => simp only [Res.bind_ok, freshRes]; exact ih d'

theorem editAll_absent (E : Sed) (ps : List (List Str × Overlay)) : ∀ d : Node, d.hd.kind = .document → (∀ p ∈ ps, findNames p.1 d = []) →
    editAll E ps d = .ok d := by
  induction ps with
  | nil => intro d _ _; rfl
  | cons p ps ih =>
    intro d hd h
    rw [editAll, docEdit_none _ p.1 d hd (h p (by simp)), Res.bind_ok]
    exact ih d hd (fun p hp => h p (by simp [hp]))

theorem sameOutcome_iff (r r' : Res Err Node) : SameOutcome r r' ↔ freshRes r = freshRes r' := by
  unfold SameOutcome freshRes
  cases r <;> cases r' <;> simp

/-- The paths as the queries of the overlay. -/
theorem oneEach_at {kss : List (List Str)} {o : Overlay} (h : AtAll kss o) : ∃ ps : List (List Str × Overlay),
    oneEach o = ps.map (·.2) ∧ ps.map (·.1) = kss ∧ (∀ p ∈ ps, Spec.At p.1 p.2) ∧
    ∀ p ∈ ps, ∃ q, p.2 = { o with query := [q] } := by
  unfold AtAll at h
  unfold oneEach
  generalize o.query = qs at h
  induction qs generalizing kss with
  | nil =>
    cases kss with
    | nil => exact ⟨[], rfl, rfl, by simp, by simp⟩
    | cons _ _ => simp at h
  | cons q qs ih =>
    cases kss with
    | nil => simp at h
    | cons ks kss =>
      simp only [List.map_cons, List.cons.injEq] at h
      obtain ⟨ps, h1, h2, h3, h4⟩ := ih h.2
      refine ⟨(ks, { o with query := [q] }) :: ps, by simp [h1], by simp [h2], ?_, ?_⟩
      · rintro p hp
        rcases List.mem_cons.1 hp with rfl | hp
        · exact ⟨q, rfl, h.1⟩
        · exact h3 p hp
      · rintro p hp
        rcases List.mem_cons.1 hp with rfl | hp
        · exact ⟨q, rfl⟩
        · exact h4 p hp

theorem editAll_act (E : Sed) (o : Overlay) (ps : List (List Str × Overlay)) (h : ∀ p ∈ ps, ∃ q, p.2 = { o with query := [q] }) :
    editAll E ps = editAll E ((ps.map (·.1)).map (fun ks => (ks, o))) := by
  induction ps with
  | nil => rfl
  | cons p ps ih =>
    funext d
    have ha : act E p.2 = act E o := by
      obtain ⟨q, hq⟩ := h p (by simp)
      rw [hq]
      funext n
      rfl
    simp only [editAll, List.map_cons, ih (fun p hp => h p (by simp [hp])), ha]

theorem applyAll_found (E : Sed) (dflt : Str) (ps : List (List Str × Overlay)) (hat : ∀ p ∈ ps, Spec.At p.1 p.2)
    (hdq : ∀ p ∈ ps, p.2.documentQuery = []) (hap : ps.Pairwise (fun p p' => Unrelated p.1 p'.1)) :
    ∀ d : Node, d.hd.kind = .document → (∀ p ∈ ps, ¬ Injects dflt p.2.onMissing ∨ findNames p.1 d.fresh ≠ []) →
      freshRes (Spec.applyAll E dflt (ps.map (·.2)) d) = editAll E ps d.fresh := by
  induction ps with
  | nil => intro d _ _; rfl
  | cons p ps ih =>
    intro d hd hI
    have h1 := applyJob_docEdit E dflt p.2 p.1 (hat p (by simp)) (hdq p (by simp)) d (hI p (by simp)) hd
    have hap' := List.pairwise_cons.1 hap
    simp only [List.map_cons, Spec.applyAll, editAll]
    rw [← h1]
    cases hj : applyJob E dflt p.2 d with
    | err e => rfl
    | panic => rfl
    | ok d' =>
      rw [hj] at h1
      have hdf : d.fresh.hd.kind = .document := by simp [fresh_hd, hd]
      simp only [freshRes, Res.bind_ok] at h1 ⊢
      refine ih (fun p hp => hat p (by simp [hp])) (fun p hp => hdq p (by simp [hp])) hap'.2 d' ?_ ?_
      · have := docEdit_kind h1.symm
        simpa [fresh_hd, hd] using this
      · intro q hq
        rcases hI q (by simp [hq]) with h | h
        · exact .inl h
        · right
          have hu := hap'.1 q hq
          rw [docEdit_elsewhere ⟨hu.2, hu.1⟩ hdf h1.symm]
          exact h

/-- **C98** An overlay with several queries, paths of names none of which leads to or into what
another one leads to, does what the same overlay does with one query at a time: the outcome is
the same document, error or crash. -/
theorem C98_one_each (E : Sed) (dflt : Str) (o : Overlay) (kss : List (List Str)) (hat : AtAll kss o) (hap : AllUnrelated kss)
    (hdq : o.documentQuery = []) (d : Node) (hd : d.hd.kind = .document)
    (hI : ¬ Injects dflt o.onMissing ∨ kss ≠ [] ∧ ∀ ks ∈ kss, findNames ks d ≠ []) :
    SameOutcome (applyJob E dflt o d) (Spec.applyAll E dflt (oneEach o) d) := by
  rw [sameOutcome_iff]
  obtain ⟨ps, h1, h2, h3, h4⟩ := oneEach_at hat
  have hR : freshRes (Spec.applyAll E dflt (oneEach o) d) = editAll E (kss.map (fun ks => (ks, o))) d.fresh := by
    rw [h1, applyAll_found E dflt ps h3 ?_ ?_ d hd ?_, editAll_act E o ps h4, h2]
    · intro p hp; obtain ⟨q, hq⟩ := h4 p hp; rw [hq]; exact hdq
    · have := hap
      rw [← h2] at this
      exact List.pairwise_map.1 this
    · intro p hp
      rcases hI with hI | ⟨_, hI⟩
      · left; obtain ⟨q, hq⟩ := h4 p hp; rw [hq]; exact hI
      · right
        rw [findNames_fresh]
        intro hc
        exact hI p.1 (by rw [← h2]; exact List.mem_map.2 ⟨p, hp, rfl⟩) (List.map_eq_nil_iff.1 hc)
  have hI' : ¬ Injects dflt o.onMissing ∨ kss ≠ [] ∧ ∀ ks ∈ kss, findNames ks d.label ≠ [] := by
    rcases hI with hI | ⟨h0, hI⟩
    · exact .inl hI
    · refine .inr ⟨h0, fun ks hks hc => hI ks hks ?_⟩
      have e1 := findNames_fresh ks d.label
      rw [label_fresh, findNames_fresh, hc, List.map_nil] at e1
      exact List.map_eq_nil_iff.1 e1
  rw [hR, ← label_fresh d, ← editAll_fresh]
  unfold applyJob
  congr 1
  have hk : d.label.hd.kind = .document := by rw [label_hd_kind, hd]
  have hnd := label_nodup d
  have hz := label_ne_zero d
  generalize d.label = t at hk hnd hz hI'
  have hfa : findAll o.query t = kss.flatMap (fun ks => findNames ks t) := by
    have : o.query.flatMap (fun q => q.find t) = kss.flatMap (fun ks => findNames ks t) := by
      have := congrArg (fun fs => fs.flatMap (fun f => f t)) hat
      simpa only [List.flatMap_map] using this
    rw [findAll, this]
    split
    · rename_i h
      rw [eq_comm, List.flatMap_eq_nil_iff]
      intro ks _
      simp [findNames, h.1, h.2]
    · rfl
  have hc : checkQueries o.documentQuery t = true := by simp [hdq, checkQueries]
  by_cases hnone : findAll o.query t = []
  · have hI : ¬ Injects dflt o.onMissing := by
      rcases hI' with hI | ⟨h0, hI⟩
      · exact hI
      · rw [hfa, List.flatMap_eq_nil_iff] at hnone
        obtain ⟨ks, hks⟩ := List.exists_mem_of_ne_nil _ h0
        exact absurd (hnone ks hks) (hI ks hks)
    rw [C18_unqualified_overlay_is_identity E dflt o t (.inr ⟨?_, hI⟩)]
    · rw [editAll_absent E _ t hk]
      rw [hfa, List.flatMap_eq_nil_iff] at hnone
      intro p hp
      obtain ⟨ks, hks, rfl⟩ := List.mem_map.1 hp
      exact hnone ks hks
    · rintro ⟨m, hm⟩
      have : m ∈ findAll o.query t := by
        obtain ⟨hm1, q, hq, hm2⟩ := hm
        unfold findAll
        rw [if_neg hm1, List.mem_flatMap]
        exact ⟨q, hq, hm2⟩
      rw [hnone] at this
      cases this
  · unfold apply
    rw [hc]
    simp only [Bool.not_true, Bool.false_eq_true, if_false, List.isEmpty_iff, hnone]
    rw [hfa]
    refine doAction_editAll E o t kss t hk hap ?_ (fun _ _ => rfl)
    intro ks _ m hm
    refine ⟨fun hc => hz ?_, List.nodup_iff_count.1 hnd _⟩
    rw [← hc]
    have : m.hd.addr ∈ t.addrs := by
      obtain ⟨c, rest, e1, e2⟩ := findNames_content hk hm
      obtain ⟨th, tcs⟩ := t
      simp only [Node.content_mk] at e1
      subst e1
      simp [Node.addrs, Node.addrss, mem_addrs_walk ks c m (by rw [e2]; simp)]
    exact this

/-- C98: so the order of the queries does not matter, if the overlay succeeds. -/
theorem C98_order (E : Sed) (dflt : Str) (o o' : Overlay) (kss kss' : List (List Str)) (hat : AtAll kss o) (hap : AllUnrelated kss)
    (hp : kss.Perm kss') (ho : ∃ qs, o' = { o with query := qs }) (hat' : AtAll kss' o')
    (hdq : o.documentQuery = []) (hI : ¬ Injects dflt o.onMissing) (d d1 : Node) (hd : d.hd.kind = .document)
    (h : applyJob E dflt o d = .ok d1) : ∃ d2, applyJob E dflt o' d = .ok d2 ∧ d2.fresh = d1.fresh := by
  obtain ⟨qs, rfl⟩ := ho
  have edits : ∀ (o : Overlay) (kss : List (List Str)), AtAll kss o → AllUnrelated kss → o.documentQuery = [] → ¬ Injects dflt o.onMissing →
      freshRes (applyJob E dflt o d) = editAll E (kss.map (fun ks => (ks, o))) d.fresh := by
    intro o kss hat hap hdq hI
    obtain ⟨ps, h1, h2, h3, h4⟩ := oneEach_at hat
    rw [(sameOutcome_iff _ _).1 (C98_one_each E dflt o kss hat hap hdq d hd (.inl hI)), h1, applyAll_editAll E dflt ps h3 ?_ ?_ d hd,
      editAll_act E o ps h4, h2]
    · intro p hp; obtain ⟨q, hq⟩ := h4 p hp; rw [hq]; exact hdq
    · intro p hp; obtain ⟨q, hq⟩ := h4 p hp; rw [hq]; exact hI
  have e1 := edits o kss hat hap hdq hI
  have hap' : AllUnrelated kss' := hp.pairwise hap (fun h => ⟨h.2, h.1⟩)
  have e2 := edits { o with query := qs } kss' hat' hap' hdq hI
  rw [h] at e1
  have hperm := editAll_perm E (hp.map (fun ks => (ks, o))) (List.pairwise_map.2 hap) e1.symm
  have hact : editAll E (kss'.map (fun ks => (ks, ({ o with query := qs } : Overlay)))) = editAll E (kss'.map (fun ks => (ks, o))) := by
    clear * -
    induction kss' with
    | nil => rfl
    | cons ks kss ih =>
      funext d
      simp only [List.map_cons, editAll, ih]
      rfl
  rw [hact, hperm] at e2
  cases h2 : applyJob E dflt { o with query := qs } d with
  | err e => rw [h2] at e2; cases e2
  | panic => rw [h2] at e2; cases e2
  | ok d2 =>
    rw [h2] at e2
    exact ⟨d2, rfl, by simpa [freshRes] using e2⟩

/-! Two keys of a mapping, and a key with what lies below it. -/

/-- Replace what the paths lead to by the mapping `{b: {b: 1}}`. -/
def Ex.replaceAt (kss : List (List Str)) : Overlay :=
  { query := kss.map (fun ks => ⟨[], findNames ks⟩), value := mp [sc c!"b", mp [sc c!"b", sc c!"1"]], action := .replace }

/-- `{a: {b: x}, c: y}` -/
def Ex.nestedDoc : Node := dc (mp [sc c!"a", mp [sc c!"b", sc c!"x"], sc c!"c", sc c!"y"])

example : AtAll [[c!"a"], [c!"c"]] (replaceAt [[c!"a"], [c!"c"]]) ∧ AllUnrelated [[c!"a"], [c!"c"]] ∧
    tree (applyJob noSed [] (replaceAt [[c!"a"], [c!"c"]]) nestedDoc) =
      some (dc (mp [sc c!"a", mp [sc c!"b", mp [sc c!"b", sc c!"1"]], sc c!"c", mp [sc c!"b", mp [sc c!"b", sc c!"1"]]])) :=
  ⟨rfl, by unfold AllUnrelated Unrelated; decide, by decide +kernel⟩

/-- C98: with related paths it does matter: of the overlay with both queries the second finds what
was there before, and that is no longer in the document when it is replaced; with one query at
a time the second finds what the first has put there. -/
theorem C98_related : ∃ o : Overlay, AtAll [[c!"a"], [c!"a", c!"b"]] o ∧ o.documentQuery = [] ∧ ¬ Injects [] o.onMissing ∧
    ¬ SameOutcome (applyJob noSed [] o nestedDoc) (Spec.applyAll noSed [] (oneEach o) nestedDoc) := by
  refine ⟨replaceAt [[c!"a"], [c!"a", c!"b"]], rfl, rfl, ?_, ?_⟩
  · intro h
    unfold Injects Effective at h
    simp [replaceAt, AnyCase] at h
  · have h1 : tree (applyJob noSed [] (replaceAt [[c!"a"], [c!"a", c!"b"]]) nestedDoc) ≠
        tree (Spec.applyAll noSed [] (oneEach (replaceAt [[c!"a"], [c!"a", c!"b"]])) nestedDoc) := by decide +kernel
    intro hs
    apply h1
    have := (sameOutcome_iff _ _).1 hs
    cases h2 : applyJob noSed [] (replaceAt [[c!"a"], [c!"a", c!"b"]]) nestedDoc <;>
      cases h3 : Spec.applyAll noSed [] (oneEach (replaceAt [[c!"a"], [c!"a", c!"b"]])) nestedDoc <;>
      rw [h2, h3] at this <;> simp_all [freshRes, tree]

end Yot
