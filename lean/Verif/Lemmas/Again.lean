import Verif.Spec.Again
import Verif.Props.Commute
import Verif.Props.Valid
import Verif.Props.Errors
/-
Repeating overlays: an overlay that has nothing left to do.
-/
namespace Yot
open Spec

/-- The overlay has nothing to do: it finds nothing and injects nothing, or what it finds is as
it would leave it. -/
def Settled (E : Sed) (dflt : Str) (o : Overlay) (ks : List Str) (d : Node) : Prop :=
  (findNames ks d = [] ∧ ¬ Injects dflt o.onMissing) ∨ ∃ m, findNames ks d = [m] ∧ act E o m = .ok (some m)

theorem editPath_settled {f : Node → Res Err (Option Node)} (ks : List Str) : ∀ (n m : Node), walk ks n = [m] →
    f m = .ok (some m) → editPath ks f n = .ok (some n) := by
  induction ks with
  | nil =>
    intro n m hn hm'
    simp only [walk, List.cons.injEq, and_true] at hn
    subst hn; exact hm'
  | cons k ks ih =>
    intro n m hn hm'
    by_cases hk : n.hd.kind = .mapping
    · simp only [walk, entriesOf, hk, if_true] at hn
      cases hfst : firstAt k (pairs n.content) with
      | none => rw [hfst] at hn; cases hn
      | some v =>
        rw [hfst] at hn
        obtain ⟨A, kn, B, e1, e2, e3, e4⟩ := firstAt_split hfst
        rw [editPath, if_pos hk, e1, updR_split _ e2 e4 e3, ih v m hn hm']
        simp only [Res.bind_ok, cutHd_false, ← e1]
        cases n; rfl
    · rw [editPath, if_neg hk]

/-- An overlay with nothing to do does nothing. -/
theorem settled_apply (E : Sed) (dflt : Str) (o : Overlay) (ks : List Str) (hat : Spec.At ks o) (hdq : o.documentQuery = [])
    (d : Node) (hd : d.hd.kind = .document) (h : Settled E dflt o ks d.fresh) :
    ∃ d', applyJob E dflt o d = .ok d' ∧ d'.fresh = d.fresh := by
  have hk : d.fresh.hd.kind = .document := by simp [fresh_hd, hd]
  rcases h with ⟨h1, h2⟩ | ⟨m, h1, h2⟩
  · have := applyJob_docEdit E dflt o ks hat hdq d (.inl h2) hd
    rw [docEdit_none _ ks d.fresh hk h1] at this
    exact applyJob_of_freshRes this
  · have := applyJob_docEdit E dflt o ks hat hdq d (.inr (by rw [h1]; simp)) hd
    have hs : docEdit ks (act E o) d.fresh = .ok d.fresh := by
      revert h1 hk
      generalize d.fresh = x
      intro hk h1
      obtain ⟨hx, cs⟩ := x
      cases cs with
      | nil => rw [findNames_empty (by exact hk)] at h1; cases h1
      | cons c rest =>
        rw [findNames_mk (by exact hk)] at h1
        simp only [docEdit, Node.content_mk]
        rw [editPath_settled ks c m h1 h2]
        rfl
    rw [hs] at this
    exact applyJob_of_freshRes this

/-- What is found at the edited path afterwards. -/
theorem editPath_found {f : Node → Res Err (Option Node)} (ks : List Str) : ∀ (n m : Node) (r : Option Node), walk ks n = [m] →
    editPath ks f n = .ok r → ∃ a, f m = .ok a ∧ ∀ b, a = some b → ∃ n', r = some n' ∧ walk ks n' = [b] := by
  induction ks with
  | nil =>
    intro n m r hn h
    simp only [walk, List.cons.injEq, and_true] at hn
    subst hn
    exact ⟨r, h, fun b hb => ⟨b, hb, rfl⟩⟩
  | cons k ks ih =>
    intro n m r hn h
    by_cases hk : n.hd.kind = .mapping
    · simp only [walk, entriesOf, hk, if_true] at hn
      cases hfst : firstAt k (pairs n.content) with
      | none => rw [hfst] at hn; cases hn
      | some v =>
        rw [hfst] at hn
        obtain ⟨A, kn, B, e1, e2, e3, e4⟩ := firstAt_split hfst
        rw [editPath, if_pos hk, e1, updR_split _ e2 e4 e3, Res.bind_eq_ok] at h
        obtain ⟨x, hx, h2⟩ := h
        rw [Res.bind_eq_ok] at hx
        obtain ⟨y, hy, hx⟩ := hx
        obtain ⟨a, ha, hb⟩ := ih v m y hn hy
        refine ⟨a, ha, ?_⟩
        intro b hab
        obtain ⟨v', rfl, hv'⟩ := hb b hab
        cases hx
        cases h2
        refine ⟨_, rfl, ?_⟩
        have : firstAt k (pairs (A ++ kn :: v' :: B)) = some v' := by
          rw [pairs_append e2]
          exact firstAt_append k _ _ kn v' e3 e4
        rw [walk_mk (by exact hk), this]
        exact hv'
    · simp [walk, entriesOf, hk, firstAt] at hn

theorem docEdit_found {f : Node → Res Err (Option Node)} (ks : List Str) (d m d' : Node) (hd : d.hd.kind = .document)
    (hn : findNames ks d = [m]) (h : docEdit ks f d = .ok d') : ∃ a, f m = .ok a ∧ ∀ b, a = some b → findNames ks d' = [b] := by
  obtain ⟨hx, cs⟩ := d
  cases cs with
  | nil => rw [findNames_empty (by exact hd)] at hn; cases hn
  | cons c rest =>
    rw [findNames_mk (by exact hd)] at hn
    simp only [docEdit, Node.content_mk, Res.bind_eq_ok] at h
    obtain ⟨r, hr, h⟩ := h
    obtain ⟨a, ha, hb⟩ := editPath_found ks c m r hn hr
    refine ⟨a, ha, fun b hab => ?_⟩
    obtain ⟨n', rfl, hw⟩ := hb b hab
    cases h
    rw [findNames_mk (by exact hd)]
    exact hw

theorem firstAt_updR {k k' : Str} (hkk : k ≠ k') (f : Node → Res Err (Option Node)) (cs : List Node) :
    ∀ r, updR k' f cs = .ok r → firstAt k (pairs r.1) = firstAt k (pairs cs) := by
  intro r h
  cases hfst : firstAt k' (pairs cs) with
  | none => rw [updR_none _ hfst] at h; cases h; rfl
  | some v =>
    obtain ⟨A, kn, B, e1, e2, e3, e4⟩ := firstAt_split hfst
    subst e1
    rw [updR_split _ e2 e4 e3, Res.bind_eq_ok] at h
    obtain ⟨x, _, h⟩ := h
    have hne : kn.hd.value ≠ k := by rw [e3]; exact fun e => hkk e.symm
    have hskip : ∀ w, firstAt k (pairs (A ++ kn :: w :: B)) = firstAt k (pairs (A ++ B)) := by
      intro w
      rw [pairs_append e2, pairs_append e2]
      simp only [pairs]
      clear hfst e4 e2
      induction pairs A with
      | nil => simp [firstAt, hne]
      | cons e es ih => simp only [List.cons_append, firstAt]; split <;> simp [ih]
    cases x with
    | some v' => cases h; rw [hskip, hskip]
    | none => cases h; rw [hskip]

/-- An edit does not change what is found at an unrelated path. -/
theorem editPath_elsewhere {f : Node → Res Err (Option Node)} (ks' : List Str) : ∀ (ks : List Str) (n n' : Node),
    Unrelated ks ks' → editPath ks' f n = .ok (some n') → walk ks n' = walk ks n := by
  induction ks' with
  | nil => intro ks n n' hu; exact absurd (List.nil_prefix) hu.2
  | cons k' ks' ih =>
    intro ks n n' hu h
    cases ks with
    | nil => exact absurd (List.nil_prefix) hu.1
    | cons k ks =>
      by_cases hk : n.hd.kind = .mapping
      · rw [editPath, if_pos hk, Res.bind_eq_ok] at h
        obtain ⟨⟨c1, r⟩, h1, h2⟩ := h
        cases h2
        obtain ⟨nh, cs⟩ := n
        simp only [Node.hd_mk, Node.content_mk] at hk h1
        rw [walk_mk (by exact hk), walk_mk hk]
        by_cases hkk : k = k'
        · subst hkk
          cases hfst : firstAt k (pairs cs) with
          | none => rw [updR_none _ hfst] at h1; cases h1; rw [hfst]
          | some v =>
            obtain ⟨A, kn, B, e1, e2, e3, e4⟩ := firstAt_split hfst
            rw [e1, updR_split _ e2 e4 e3, Res.bind_eq_ok] at h1
            obtain ⟨x, hx, h1⟩ := h1
            have hu' : Unrelated ks ks' :=
              ⟨fun hp => hu.1 (List.cons_prefix_cons.2 ⟨rfl, hp⟩), fun hp => hu.2 (List.cons_prefix_cons.2 ⟨rfl, hp⟩)⟩
            obtain ⟨v', rfl⟩ := editPath_some f (by rintro rfl; exact hu'.2 List.nil_prefix) hx
            cases h1
            have : firstAt k (pairs (A ++ kn :: v' :: B)) = some v' := by
              rw [pairs_append e2]
              exact firstAt_append k _ _ kn v' e3 e4
            rw [this]
            exact ih ks v v' hu' hx
        · rw [firstAt_updR hkk _ _ _ h1]
      · rw [editPath, if_neg hk] at h
        cases h; rfl

theorem docEdit_elsewhere {f : Node → Res Err (Option Node)} {ks ks' : List Str} (hu : Unrelated ks ks') {d d' : Node}
    (hd : d.hd.kind = .document) (h : docEdit ks' f d = .ok d') : findNames ks d' = findNames ks d := by
  obtain ⟨hx, cs⟩ := d
  cases cs with
  | nil => simp only [docEdit, Node.content_mk, Res.ok.injEq] at h; rw [← h]
  | cons c rest =>
    simp only [docEdit, Node.content_mk, Res.bind_eq_ok] at h
    obtain ⟨r, hr, h⟩ := h
    obtain ⟨c', rfl⟩ := editPath_some f (by rintro rfl; exact hu.2 List.nil_prefix) hr
    cases h
    rw [findNames_mk (by exact hd), findNames_mk (by exact hd)]
    exact editPath_elsewhere ks' ks c c' hu hr

/-- Nor does an injection. -/
theorem injected_elsewhere (v : Node) (ks' : List Str) : ∀ (ks : List Str) (n n' : Node), Unrelated ks ks' → Injected v ks' n n' →
    walk ks n' = walk ks n := by
  induction ks' with
  | nil => intro ks n n' hu; exact absurd (List.nil_prefix) hu.2
  | cons k' ks' ih =>
    intro ks n n' hu h
    cases ks with
    | nil => exact absurd (List.nil_prefix) hu.1
    | cons k ks =>
      obtain ⟨h1, _, _, before, kn, x, after, e1, e2, e3, e4⟩ := h
      have hen : entriesOf n' = pairs n'.content := by simp [entriesOf, h1]
      simp only [walk, hen, e1]
      have hskip : k ≠ k' → ∀ (w : Node) (after : List (Node × Node)), firstAt k (before ++ (kn, w) :: after) = firstAt k (before ++ after) := by
        intro hkk w after
        clear e1 e3 e4
        induction before with
        | nil => simp [firstAt, e2, Ne.symm hkk]
        | cons e es ih' => simp only [List.cons_append, firstAt]; split <;> simp [ih']
      by_cases hkk : k = k'
      · subst hkk
        have hu' : Unrelated ks ks' :=
          ⟨fun hp => hu.1 (List.cons_prefix_cons.2 ⟨rfl, hp⟩), fun hp => hu.2 (List.cons_prefix_cons.2 ⟨rfl, hp⟩)⟩
        rw [firstAt_append k _ _ kn x e2 e3]
        rcases e4 with ⟨x0, e4, e5⟩ | ⟨e4, e5, e6⟩
        · rw [e4, firstAt_append k _ _ kn x0 e2 e3]
          exact ih ks x0 x hu' e5
        · have hnone : firstAt k (entriesOf n) = none := by
            rw [e4]
            clear e1 e4 hskip
            induction before with
            | nil => rfl
            | cons e es ih' =>
              simp only [firstAt]
              rw [if_neg (e3 e (by simp))]
              exact ih' (fun e he => e3 e (by simp [he]))
          rw [hnone]
          have := ih ks nothing x hu' e6
          simp only [this]
          cases ks with
          | nil => exact absurd List.nil_prefix hu'.1
          | cons a b => simp [walk, entriesOf, nothing, firstAt]
      · rw [hskip hkk]
        rcases e4 with ⟨x0, e4, _⟩ | ⟨e4, e5, _⟩
        · rw [e4, hskip hkk]
        · rw [e4, e5, List.append_nil]

/-- Merging a value over its own replacement changes nothing. -/
theorem merge_replaced (E : Sed) (x v : Node) (hm : AllNodes (OnStrings NoMarker) v) (hs : ScalarsAndMaps v) (vals : List Str) :
    merge E (replaceNode E x v) vals v = .ok (replaceNode E x v) := by
  obtain ⟨nh, ncs⟩ := v
  have hm0 := hm
  obtain ⟨⟨m1, m2, m3, m4⟩, hms⟩ := hm
  have hs0 := hs
  simp only [ScalarsAndMaps] at hs
  rcases hs with hk | ⟨hk, hnd, hE⟩
  · rw [merge_scalar E _ vals hk]
    congr 1
    refine mergeScalar_fix E _ nh vals m1 ?_ ?_ ?_ ?_
    · simp [replaceNode, fresh_hd, hk]
    · simp [replaceNode, fresh_hd]
    · simp [replaceNode, fresh_hd]
    · simp only [replaceNode, Node.hd_mk, mergeComments, fresh_hd, format_id E _ m2, format_id E _ m3, format_id E _ m4]
      split
      · rfl
      · split
        · rfl
        · split <;> rfl
  · rw [AllNodess_iff] at hms
    rw [merge_mapping E _ vals hk]
    rw [ScalarsAndMapsE_iff] at hE
    refine mergeEntries_absorbed E ncs _ (fun _ => by simpa [replaceNode, fresh_hd] using hk) ?_ ?_
    · intro t ht
      simp only [keys, List.mem_map] at ht
      obtain ⟨e, he, rfl⟩ := ht
      have := hms e.1 (pairs_mem he).1
      obtain ⟨⟨eh, ec⟩, ev⟩ := e
      exact this.1.1
    · intro e he
      obtain ⟨A, B, hAB⟩ := List.append_of_mem he
      have hp : pairs (replaceNode E x (.mk nh ncs)).content
          = A.map (fun e => (e.1.fresh, e.2.fresh)) ++ (e.1.fresh, e.2.fresh)
            :: B.map (fun e => (e.1.fresh, e.2.fresh)) := by
        simp only [replaceNode, Node.fresh, Node.content_mk, freshs_eq_map, pairs_map, hAB, List.map_append,
          List.map_cons]
      refine ⟨_, _, _, _, hp, ?_, by simp [fresh_hd], ?_, ?_⟩
      · simp only [List.map_map]
        have hnd' : (A.map (fun e => e.1.hd.value) ++ e.1.hd.value :: B.map (fun e => e.1.hd.value)).Nodup := by
          simpa [keys, hAB] using hnd
        rw [List.nodup_append] at hnd'
        intro hmem
        have heq : A.map ((fun e => e.1.hd.value) ∘ fun e => (e.1.fresh, e.2.fresh))
            = A.map (fun e => e.1.hd.value) := by
          apply List.map_congr_left; intro x _; simp [fresh_hd]
        rw [heq] at hmem
        exact hnd'.2.2 _ hmem _ (by simp) rfl
      · intro v
        have hkm := hms e.1 (pairs_mem he).1
        obtain ⟨⟨eh, ec⟩, ev⟩ := e
        obtain ⟨⟨_, p2, p3, p4⟩, _⟩ := hkm
        exact mergeComments_self E _ _ v ⟨p2, p3, p4⟩ rfl rfl rfl
      · intro v
        exact merge_copy E e.2 (hms e.2 (pairs_mem he).2) (hE.2 e he) v

theorem Spec.Repeatable.at {dflt : Str} {ks : List Str} {o : Overlay} (h : Repeatable dflt ks o) : Spec.At ks o := by
  obtain ⟨q, h1, h2, _⟩ := h.path
  exact ⟨q, h1, h2⟩

theorem valid_wf {d : Node} (h : ValidDocument d) : WellFormed d := by
  rw [wf_iff]
  refine ⟨by rw [h.1]; trivial, fun c hc => ?_⟩
  exact ((gn_true c).2 (h.2.2 c hc)).wf

theorem validNode_distinct {n : Node} : ValidNode n → DistinctKeys n := by
  induction n using Node.ind with
  | h hd cs ih =>
    intro h
    simp only [ValidNode, ValidNodes_iff] at h
    simp only [DistinctKeys, DistinctKeyss_iff]
    exact ⟨h.2.2.1, fun c hc => ih c hc (h.2.2.2 c hc)⟩

theorem valid_distinct {d : Node} (h : ValidDocument d) : DistinctKeys d := by
  obtain ⟨hd, cs⟩ := d
  obtain ⟨h1, _, h3⟩ := h
  simp only [Node.hd_mk, Node.content_mk] at h1 h3
  simp only [DistinctKeys, DistinctKeyss_iff]
  exact ⟨fun hk => absurd (h1.symm.trans hk) (by simp), fun c hc => validNode_distinct (h3 c hc)⟩

theorem keysPlain_of {n : Node} : AllNodes (OnStrings NoMarker) n → KeysPlain n := by
  induction n using Node.ind with
  | h hd cs ih =>
    intro h
    obtain ⟨_, hms⟩ := h
    rw [AllNodess_iff] at hms
    have : ∀ ds : List Node, (∀ c ∈ ds, KeysPlain c) → KeysPlains ds := by
      intro ds
      induction ds with
      | nil => intro _; simp [KeysPlains]
      | cons a as ih => intro h; rw [KeysPlains]; exact ⟨h a (by simp), ih (fun c hc => h c (by simp [hc]))⟩
    rw [KeysPlain]
    refine ⟨fun _ k hk => ?_, this cs (fun c hc => ih c hc (hms c hc))⟩
    simp only [keys, List.mem_map] at hk
    obtain ⟨e, he, rfl⟩ := hk
    have := hms e.1 (pairs_mem he).1
    obtain ⟨⟨eh, ec⟩, ev⟩ := e
    exact this.1.1

theorem walk_wf (ks : List Str) : ∀ n, WellFormed n → ∀ m ∈ walk ks n, WellFormed m := by
  induction ks with
  | nil => intro n hn m hm; simp only [walk, List.mem_singleton] at hm; exact hm ▸ hn
  | cons k ks ih =>
    intro n hn m hm
    simp only [walk] at hm
    cases hf : firstAt k (entriesOf n) with
    | none => rw [hf] at hm; cases hm
    | some v => rw [hf] at hm; exact ih v (firstAt_wf hn hf) m hm

theorem findNames_wf (ks : List Str) (d : Node) (hd : WellFormed d) : ∀ m ∈ findNames ks d, WellFormed m := by
  intro m hm
  unfold findNames at hm
  split at hm
  · cases hc : d.content with
    | nil => rw [hc] at hm; cases hm
    | cons c rest => rw [hc] at hm; exact walk_wf ks c (((wf_iff d).1 hd).2 c (by rw [hc]; simp)) m hm
  · exact walk_wf ks d hd m hm

/-- A repeatable overlay keeps documents valid. -/
theorem Spec.Repeatable.proper {dflt : Str} {ks : List Str} {o : Overlay} (h : Repeatable dflt ks o) : Proper dflt o := by
  obtain ⟨q, h1, h2, h3⟩ := h.path
  have hv : o.action ≠ .delete → ValidNode o.value := by
    intro hd
    rcases h.kind with hk | ⟨_, hv, _⟩ | ⟨_, hv, _⟩
    · exact absurd hk hd
    · exact hv
    · exact hv
  refine ⟨?_, hv, ?_, ?_⟩
  · intro q' hq'
    rw [h1, List.mem_singleton] at hq'
    subst hq'
    refine C77_steps_find_values _ (ks.map .child) (h2.trans (C75_names ks).symm) ?_
    have : ∀ l : List Str, endsOnValue true (l.map PStep.child) = true := by
      intro l
      induction l with
      | nil => rfl
      | cons a as ih => exact ih
    exact this ks
  · intro a b c
    rcases h.kind with hk | ⟨hk, _⟩ | ⟨_, _, _, hm⟩
    · exact absurd hk a
    · exact absurd hk b
    · exact keysPlain_of hm
  · intro hI
    obtain ⟨i1, i2, i3, i4⟩ := h3 hI
    refine ⟨hv i1, ?_, by rw [i2]; simp⟩
    intro q' hq' _
    rw [h1, List.mem_singleton] at hq'
    subst hq'
    exact ⟨ks, i3, i4⟩

/-- What a repeatable overlay does to a document: it is an edit at its path, or an injection
there.  Afterwards it has nothing left to do, and what is at unrelated paths has not changed. -/
theorem repeatable_step (E : Sed) (dflt : Str) (ks : List Str) (o : Overlay) (h : Repeatable dflt ks o) (d d' : Node)
    (hd : ValidDocument d) (hne : d.content ≠ []) (ha : applyJob E dflt o d = .ok d') :
    Settled E dflt o ks d'.fresh ∧ (∀ ks', Unrelated ks' ks → findNames ks' d'.fresh = findNames ks' d.fresh) ∧
    (ks ≠ [] → d'.content ≠ []) := by
  have hkf : d.fresh.hd.kind = .document := by simp [fresh_hd, hd.1]
  by_cases hI : ¬ Injects dflt o.onMissing ∨ findNames ks d.fresh ≠ []
  · have h1 := applyJob_docEdit E dflt o ks h.at h.noDocumentQuery d hI hd.1
    rw [ha] at h1
    have h1' : docEdit ks (act E o) d.fresh = .ok d'.fresh := h1.symm
    refine ⟨?_, fun ks' hu => docEdit_elsewhere hu hkf h1', ?_⟩
    · have hf1 : findNames ks d.fresh = [] ∨ ∃ m, findNames ks d.fresh = [m] := by
        unfold findNames
        rw [if_pos hkf]
        cases d.fresh.content with
        | nil => exact .inl rfl
        | cons c rest => exact walk_cases _ _
      rcases hf1 with hf1 | ⟨m, hf1⟩
      · have hnI : ¬ Injects dflt o.onMissing := hI.resolve_right (fun hc => hc hf1)
        rw [docEdit_none _ ks d.fresh hkf hf1] at h1'
        cases hdd : (Res.ok d.fresh : Res Err Node) <;> simp_all [Settled]
      · obtain ⟨a, ha1, ha2⟩ := docEdit_found ks _ m _ hkf hf1 h1'
        rcases h.kind with hk | ⟨hk, hv, hm⟩ | ⟨hk, hv, hs, hm⟩
        · have hnI : ¬ Injects dflt o.onMissing := by
            intro hi
            obtain ⟨q, _, _, h3⟩ := h.path
            exact (h3 hi).1 hk
          have := (C58_delete_again E dflt o ks h.at h.noDocumentQuery hk hnI d d' (valid_distinct hd) hd.1 hd.2.1 ha).1
          exact .inl ⟨by rw [findNames_fresh, this]; rfl, hnI⟩
        · simp only [act, hk, Res.ok.injEq] at ha1
          exact .inr ⟨_, ha2 _ ha1.symm, by simp only [act, hk]; rw [replaceNode_again E m o.value hm]⟩
        · simp only [act, hk, Res.bind_eq_ok, Res.ok.injEq] at ha1
          obtain ⟨b, hb, ha1⟩ := ha1
          refine .inr ⟨_, ha2 _ ha1.symm, ?_⟩
          simp only [act, hk]
          have hwm : WellFormed m := findNames_wf ks _ (fresh_wf d (valid_wf hd)) m (by rw [hf1]; simp)
          have := merge_idem E o.value hm hs ((gn_true _).2 hv).wf m b [] [] hwm hb
          unfold mergeNode
          rw [this]
          rfl
    · intro hks hc
      have hc' : d'.fresh.content = [] := by rw [fresh_content, hc]; rfl
      have hne' : d.fresh.content ≠ [] := by rw [fresh_content]; simpa using hne
      revert h1' hne' hc'
      generalize d.fresh = x
      generalize d'.fresh = y
      intro h1' hc' hne'
      obtain ⟨hx, cs⟩ := x
      cases cs with
      | nil => exact absurd rfl hne'
      | cons c rest =>
        simp only [docEdit, Node.content_mk, Res.bind_eq_ok] at h1'
        obtain ⟨r, hr, h1'⟩ := h1'
        obtain ⟨c', rfl⟩ := editPath_some _ hks hr
        cases h1'
        cases hc'
  · simp only [not_or, not_not] at hI
    obtain ⟨hI, hnone⟩ := hI
    obtain ⟨q, ho, hq, h3⟩ := h.path
    obtain ⟨i1, i2, i3, i4⟩ := h3 hI
    have hnl : findNames ks d.label = [] := by
      rw [← label_fresh, findNames_fresh] at hnone
      simpa using hnone
    have hk : d.label.hd.kind = .document := by rw [label_hd_kind, hd.1]
    have hcl : d.label.content ≠ [] := by
      intro hc
      have := congrArg Node.content (label_fresh d)
      rw [fresh_content, fresh_content, hc] at this
      exact hne (by simpa using this.symm)
    obtain ⟨c, rest, hc⟩ := List.exists_cons_of_ne_nil hcl
    have hwc : WellFormed c := ((wf_iff _).1 (label_wf d (valid_wf hd))).2 c (by rw [hc]; simp)
    have hQ : Qualifies o d.label := .inl h.noDocumentQuery
    have hnom : ¬ ∃ m, Matches o.query d.label m := by
      rintro ⟨m, _, q', hq', hm'⟩
      rw [ho] at hq'
      simp only [List.mem_cons, List.not_mem_nil, or_false] at hq'
      subst hq'
      rw [hq, hnl] at hm'
      cases hm'
    obtain ⟨d1, c', rest', m, e1, e2, _, e4, e5, _, e7, x, e8⟩ :=
      inject_main E dflt o d.label c rest q ks hk hc hwc i3 hq i4 ho hQ hI hnom
    have hdd : d' = d1 := by
      have : applyJob E dflt o d = .ok d1 := e1
      rw [ha] at this; cases this; rfl
    subst hdd
    have hd1 : d'.fresh.hd.kind = .document := by
      have := congrArg Hdr.kind e4
      simpa [fresh_hd, hk] using this
    rw [hq] at e2
    refine ⟨.inr ⟨m.fresh, by rw [findNames_fresh, e2]; rfl, ?_⟩, ?_, fun _ => by rw [e5]; simp⟩
    · rw [← act_fresh]
      have : act E o m = .ok (some m) := by
        rcases h.kind with hk | ⟨hk, hv, hm⟩ | ⟨hk, hv, hs, hm⟩
        · exact absurd hk i1
        · simp only [act, hk]; rw [e8, replaceNode_again E x o.value hm]
        · simp only [act, hk, mergeNode]; rw [e8, merge_replaced E x o.value hm hs]; rfl
      rw [this]; rfl
    · intro ks' hu
      have e9 : d'.fresh = .mk d'.fresh.hd (c'.fresh :: rest'.map Node.fresh) := by
        conv_lhs => rw [← Node.eta d'.fresh, fresh_content, e5]
        rfl
      have e10 : d.fresh = .mk d.fresh.hd (c.fresh :: rest.map Node.fresh) := by
        conv_lhs => rw [← Node.eta d.fresh, ← label_fresh, fresh_content, hc]
        rw [label_fresh]; rfl
      rw [e9, e10, findNames_mk hd1, findNames_mk hkf]
      exact injected_elsewhere o.value ks ks' _ _ hu e7

end Yot
