import Verif.Lemmas.Commute
import Verif.Props.Inject
import Verif.Lemmas.Idem
import Verif.Lemmas.WF
/-
C57, C58: when the order of overlays does not matter, and when repeating one does not.
-/
namespace Yot
open Spec Ex

/-! ### Different places -/

theorem editPath_some (f : Node → Res Err (Option Node)) {ks : List Str} (h : ks ≠ []) {n : Node} {r : Option Node}
    (he : editPath ks f n = .ok r) : ∃ a, r = some a := by
  cases ks with
  | nil => exact absurd rfl h
  | cons k ks =>
    rw [editPath] at he
    split at he
    · rw [Res.bind_eq_ok] at he
      obtain ⟨x, _, he⟩ := he
      cases he; exact ⟨_, rfl⟩
    · cases he; exact ⟨_, rfl⟩

theorem updR_comm {k k' : Str} (hkk : k ≠ k') (f g : Node → Res Err (Option Node)) (cs : List Node) :
    ∀ c1 r1 c2 r2, updR k f cs = .ok (c1, r1) → updR k' g c1 = .ok (c2, r2) →
      ∃ c1', updR k' g cs = .ok (c1', r2) ∧ updR k f c1' = .ok (c2, r1) := by
  induction cs using pairInduction with
  | h0 => intro c1 r1 c2 r2 h1 h2; cases h1; cases h2; exact ⟨[], rfl, rfl⟩
  | h1 a => intro c1 r1 c2 r2 h1 h2; cases h1; cases h2; exact ⟨[a], rfl, rfl⟩
  | h2 a b cs ih =>
    intro c1 r1 c2 r2 h1 h2
    rw [updR] at h1
    by_cases ha : a.hd.value = k
    · have ha' : a.hd.value ≠ k' := by rw [ha]; exact hkk
      rw [if_pos ha, Res.bind_eq_ok] at h1
      obtain ⟨r, hr, h1⟩ := h1
      cases r with
      | some v' =>
        cases h1
        rw [updR, if_neg ha', Res.bind_eq_ok] at h2
        obtain ⟨⟨x, r⟩, hx, h2⟩ := h2
        cases h2
        refine ⟨a :: b :: x, ?_, ?_⟩
        · rw [updR, if_neg ha', hx]; rfl
        · rw [updR, if_pos ha, hr]; rfl
      | none =>
        cases h1
        refine ⟨a :: b :: c2, ?_, ?_⟩
        · rw [updR, if_neg ha', h2]; rfl
        · rw [updR, if_pos ha, hr]; rfl
    · rw [if_neg ha, Res.bind_eq_ok] at h1
      obtain ⟨⟨x, r⟩, hx, h1⟩ := h1
      cases h1
      rw [updR] at h2
      by_cases ha' : a.hd.value = k'
      · rw [if_pos ha', Res.bind_eq_ok] at h2
        obtain ⟨r, hr, h2⟩ := h2
        cases r with
        | some v' =>
          cases h2
          refine ⟨a :: v' :: cs, ?_, ?_⟩
          · rw [updR, if_pos ha', hr]; rfl
          · rw [updR, if_neg ha, hx]; rfl
        | none =>
          cases h2
          refine ⟨cs, ?_, ?_⟩
          · rw [updR, if_pos ha', hr]; rfl
          · exact hx
      · rw [if_neg ha', Res.bind_eq_ok] at h2
        obtain ⟨⟨y, s⟩, hy, h2⟩ := h2
        cases h2
        obtain ⟨z, hz1, hz2⟩ := ih _ _ _ _ hx hy
        refine ⟨a :: b :: z, ?_, ?_⟩
        · rw [updR, if_neg ha', hz1]; rfl
        · rw [updR, if_neg ha, hz2]; rfl

theorem editPath_comm (f g : Node → Res Err (Option Node)) (ks : List Str) : ∀ (ks' : List Str) (n a b : Node), Unrelated ks ks' →
    editPath ks f n = .ok (some a) → editPath ks' g a = .ok (some b) →
    ∃ a', editPath ks' g n = .ok (some a') ∧ editPath ks f a' = .ok (some b) := by
  induction ks with
  | nil => intro ks' n a b h; exact absurd (List.nil_prefix) h.1
  | cons k ks ih =>
    intro ks' n a b h h1 h2
    cases ks' with
    | nil => exact absurd (List.nil_prefix) h.2
    | cons k' ks' =>
      rw [editPath] at h1
      by_cases hk : n.hd.kind = .mapping
      · rw [if_pos hk, Res.bind_eq_ok] at h1
        obtain ⟨⟨c1, r1⟩, h1, h3⟩ := h1
        cases h3
        rw [editPath, Node.hd_mk, if_pos (by exact hk), Node.content_mk, Res.bind_eq_ok] at h2
        obtain ⟨⟨c2, r2⟩, h2, h3⟩ := h2
        cases h3
        by_cases hkk : k = k'
        · subst hkk
          have hu : Unrelated ks ks' := by
            refine ⟨fun hp => h.1 ?_, fun hp => h.2 ?_⟩ <;> rw [List.cons_prefix_cons] <;> exact ⟨rfl, hp⟩
          have n1 : ks ≠ [] := by rintro rfl; exact hu.1 List.nil_prefix
          have n2 : ks' ≠ [] := by rintro rfl; exact hu.2 List.nil_prefix
          cases hf : firstAt k (pairs n.content) with
          | none =>
            rw [updR_none _ hf] at h1
            cases h1
            rw [updR_none _ hf] at h2
            cases h2
            refine ⟨n, ?_, ?_⟩ <;> rw [editPath, if_pos hk, updR_none _ hf] <;> simp only [Res.bind_ok, cutHd_false] <;> cases n <;> rfl
          | some v =>
            obtain ⟨A, kn, B, e1, e2, e3, e4⟩ := firstAt_split hf
            rw [e1, updR_split _ e2 e4 e3, Res.bind_eq_ok] at h1
            obtain ⟨r, hr, h1⟩ := h1
            obtain ⟨v1, rfl⟩ := editPath_some f n1 hr
            cases h1
            rw [updR_split _ e2 e4 e3, Res.bind_eq_ok] at h2
            obtain ⟨r, hr', h2⟩ := h2
            obtain ⟨v2, rfl⟩ := editPath_some g n2 hr'
            cases h2
            obtain ⟨w, hw1, hw2⟩ := ih ks' v v1 v2 hu hr hr'
            refine ⟨.mk n.hd (A ++ kn :: w :: B), ?_, ?_⟩
            · rw [editPath, if_pos hk, e1, updR_split _ e2 e4 e3, hw1]
              simp only [Res.bind_ok, cutHd_false]
            · rw [editPath, Node.hd_mk, if_pos hk, Node.content_mk, updR_split _ e2 e4 e3, hw2]
              simp only [Res.bind_ok, cutHd_false]
        · obtain ⟨c1', hc1, hc2⟩ := updR_comm hkk _ _ _ _ _ _ _ h1 h2
          refine ⟨.mk (cutHd n.hd r2) c1', ?_, ?_⟩
          · rw [editPath, if_pos hk, hc1]; rfl
          · rw [editPath, Node.hd_mk, if_pos (by exact hk), Node.content_mk, hc2]
            simp only [Res.bind_ok, cutHd]
            congr 3
            cases n.hd.nilc <;> cases r1 <;> cases r2 <;> rfl
      · rw [if_neg hk] at h1
        cases h1
        rw [editPath, if_neg hk] at h2
        cases h2
        exact ⟨n, by rw [editPath, if_neg hk], by rw [editPath, if_neg hk]⟩

theorem docEdit_comm (f g : Node → Res Err (Option Node)) {ks ks' : List Str} (h : Unrelated ks ks') {d a b : Node}
    (h1 : docEdit ks f d = .ok a) (h2 : docEdit ks' g a = .ok b) :
    ∃ a', docEdit ks' g d = .ok a' ∧ docEdit ks f a' = .ok b := by
  have n1 : ks ≠ [] := by rintro rfl; exact h.1 List.nil_prefix
  have n2 : ks' ≠ [] := by rintro rfl; exact h.2 List.nil_prefix
  obtain ⟨hd, cs⟩ := d
  cases cs with
  | nil =>
    simp only [docEdit, Node.content_mk, Res.ok.injEq] at h1
    subst h1
    simp only [docEdit, Node.content_mk, Res.ok.injEq] at h2
    subst h2
    exact ⟨_, rfl, rfl⟩
  | cons c rest =>
    simp only [docEdit, Node.content_mk, Res.bind_eq_ok] at h1
    obtain ⟨r, hr, h1⟩ := h1
    obtain ⟨c1, rfl⟩ := editPath_some f n1 hr
    cases h1
    simp only [docEdit, Node.content_mk, Res.bind_eq_ok] at h2
    obtain ⟨r, hr', h2⟩ := h2
    obtain ⟨c2, rfl⟩ := editPath_some g n2 hr'
    cases h2
    obtain ⟨w, hw1, hw2⟩ := editPath_comm f g ks ks' c c1 c2 h hr hr'
    exact ⟨.mk hd (w :: rest), by simp [docEdit, hw1], by simp [docEdit, hw2]⟩

theorem docEdit_kind {ks : List Str} {f : Node → Res Err (Option Node)} {d a : Node} (h : docEdit ks f d = .ok a) :
    a.hd.kind = d.hd.kind := by
  obtain ⟨hd, cs⟩ := d
  cases cs with
  | nil => simp only [docEdit, Node.content_mk, Res.ok.injEq] at h; rw [h]
  | cons c rest =>
    simp only [docEdit, Node.content_mk, Res.bind_eq_ok] at h
    obtain ⟨r, _, h⟩ := h
    cases r <;> cases h <;> rfl

/-- A list of overlays, each at its own path, as edits. -/
def editAll (E : Sed) : List (List Str × Overlay) → Node → Res Err Node
  | [], d => .ok d
  | p :: ps, d => docEdit p.1 (act E p.2) d >>= editAll E ps

theorem applyAll_editAll (E : Sed) (dflt : Str) (ps : List (List Str × Overlay)) (hat : ∀ p ∈ ps, At p.1 p.2)
    (hdq : ∀ p ∈ ps, p.2.documentQuery = []) (hI : ∀ p ∈ ps, ¬ Injects dflt p.2.onMissing) :
    ∀ d : Node, d.hd.kind = .document → freshRes (applyAll E dflt (ps.map (·.2)) d) = editAll E ps d.fresh := by
  induction ps with
  | nil => intro d _; rfl
  | cons p ps ih =>
    intro d hd
    have h1 := applyJob_docEdit E dflt p.2 p.1 (hat p (by simp)) (hdq p (by simp)) d (.inl (hI p (by simp))) hd
    simp only [List.map_cons, applyAll, editAll]
    rw [← h1]
    cases hj : applyJob E dflt p.2 d with
    | err e => rfl
    | panic => rfl
    | ok d' =>
      simp only [freshRes, Res.bind_ok]
      refine ih (fun p hp => hat p (by simp [hp])) (fun p hp => hdq p (by simp [hp])) (fun p hp => hI p (by simp [hp])) d' ?_
      rw [hj] at h1
      have := docEdit_kind h1.symm
      simpa [fresh_hd, hd] using this

theorem editAll_perm (E : Sed) {ps ps' : List (List Str × Overlay)} (hp : ps.Perm ps')
    (ha : ps.Pairwise (fun p p' => Unrelated p.1 p'.1)) : ∀ {d d' : Node}, editAll E ps d = .ok d' → editAll E ps' d = .ok d' := by
  induction hp with
  | nil => intro d d' h; exact h
  | cons x _ ih =>
    intro d d' h
    rw [editAll, Res.bind_eq_ok] at h ⊢
    obtain ⟨a, h1, h2⟩ := h
    exact ⟨a, h1, ih (List.pairwise_cons.1 ha).2 h2⟩
  | swap x y l =>
    intro d d' h
    simp only [editAll, Res.bind_eq_ok] at h ⊢
    obtain ⟨a, h1, b, h2, h3⟩ := h
    have := (List.pairwise_cons.1 ha).1 x (by simp)
    obtain ⟨a', h4, h5⟩ := docEdit_comm _ _ this h1 h2
    exact ⟨a', h4, b, h5, h3⟩
  | trans p1 p2 ih1 ih2 =>
    intro d d' h
    refine ih2 ?_ (ih1 ha h)
    exact (p1.pairwise_iff (fun {a b} hab => ⟨hab.2, hab.1⟩)).1 ha

/-- **C57**: overlays at paths of names, none of which leads to or into what another
leads to, give the same document in whatever order they are listed (merge, replace,
combine and delete; paths may lead nowhere; nothing is injected and the overlays have
no documentQuery). -/
theorem C57_order_irrelevant (E : Sed) (dflt : Str) (ps ps' : List (List Str × Overlay)) (hp : ps.Perm ps')
    (hat : ∀ p ∈ ps, At p.1 p.2) (ha : ps.Pairwise (fun p p' => Unrelated p.1 p'.1))
    (hdq : ∀ p ∈ ps, p.2.documentQuery = []) (hI : ∀ p ∈ ps, ¬ Injects dflt p.2.onMissing)
    (d d' : Node) (hd : d.hd.kind = .document) (h : applyAll E dflt (ps.map (·.2)) d = .ok d') :
    ∃ d'', applyAll E dflt (ps'.map (·.2)) d = .ok d'' ∧ d''.fresh = d'.fresh := by
  have h1 := applyAll_editAll E dflt ps hat hdq hI d hd
  rw [h] at h1
  have h2 := editAll_perm E hp ha h1.symm
  have h3 := applyAll_editAll E dflt ps' (fun p hx => hat p (hp.mem_iff.2 hx)) (fun p hx => hdq p (hp.mem_iff.2 hx))
    (fun p hx => hI p (hp.mem_iff.2 hx)) d hd
  rw [h2] at h3
  cases hr : applyAll E dflt (ps'.map (·.2)) d with
  | ok x =>
    rw [hr] at h3
    simp only [freshRes, Res.bind_ok, Res.ok.injEq] at h3
    exact ⟨x, rfl, h3⟩
  | err e => rw [hr] at h3; cases h3
  | panic => rw [hr] at h3; cases h3

/-- **C57**: in particular one order fails iff the other does. -/
theorem C57_fails_alike (E : Sed) (dflt : Str) (ps ps' : List (List Str × Overlay)) (hp : ps.Perm ps')
    (hat : ∀ p ∈ ps, At p.1 p.2) (ha : ps.Pairwise (fun p p' => Unrelated p.1 p'.1))
    (hdq : ∀ p ∈ ps, p.2.documentQuery = []) (hI : ∀ p ∈ ps, ¬ Injects dflt p.2.onMissing)
    (d : Node) (hd : d.hd.kind = .document) :
    (∃ d', applyAll E dflt (ps.map (·.2)) d = .ok d') ↔ ∃ d', applyAll E dflt (ps'.map (·.2)) d = .ok d' := by
  constructor
  · rintro ⟨d', h⟩
    obtain ⟨d'', h', _⟩ := C57_order_irrelevant E dflt ps ps' hp hat ha hdq hI d d' hd h
    exact ⟨d'', h'⟩
  · rintro ⟨d', h⟩
    obtain ⟨d'', h', _⟩ := C57_order_irrelevant E dflt ps' ps hp.symm (fun p hx => hat p (hp.mem_iff.2 hx))
      ((hp.pairwise_iff (fun {a b} hab => ⟨hab.2, hab.1⟩)).1 ha) (fun p hx => hdq p (hp.mem_iff.2 hx))
      (fun p hx => hI p (hp.mem_iff.2 hx)) d d' hd h
    exact ⟨d'', h'⟩

/-- A merge, a deletion and a replacement at different places of `{a: {x: 1, y: 2}, b: 3}`. -/
def apartEx : List (List Str × Overlay) :=
  [([c!"a", c!"x"], { query := [⟨c!"a.x", findNames [c!"a", c!"x"]⟩], value := sc c!"%v0", action := .merge }),
   ([c!"a", c!"y"], { query := [⟨c!"a.y", findNames [c!"a", c!"y"]⟩], action := .delete }),
   ([c!"b"], { query := [⟨c!"b", findNames [c!"b"]⟩], value := sq [sc c!"n"], action := .replace })]

example :
    (∀ p ∈ apartEx, At p.1 p.2) ∧ apartEx.Pairwise (fun p p' => Unrelated p.1 p'.1) ∧
    (∀ p ∈ apartEx, p.2.documentQuery = []) ∧ (∀ p ∈ apartEx, ¬ Injects c!"" p.2.onMissing) ∧
    (let d := dc (mp [sc c!"a", mp [sc c!"x", sc c!"1", sc c!"y", sc c!"2"], sc c!"b", sc c!"3"])
     tree (applyAll noSed c!"" (apartEx.map (·.2)) d) = some (dc (mp [sc c!"a", mp [sc c!"x", sc c!"10"], sc c!"b", sq [sc c!"n"]])) ∧
     tree (applyAll noSed c!"" (apartEx.reverse.map (·.2)) d) = some (dc (mp [sc c!"a", mp [sc c!"x", sc c!"10"], sc c!"b", sq [sc c!"n"]]))) := by
  refine ⟨?_, ?_, ?_, ?_, ?_, ?_⟩
  · intro p hp
    simp only [apartEx, List.mem_cons, List.not_mem_nil, or_false] at hp
    rcases hp with rfl | rfl | rfl <;> exact ⟨_, rfl, rfl⟩
  · simp only [apartEx, List.pairwise_cons, List.mem_cons, List.not_mem_nil, or_false, forall_eq_or_imp, forall_eq,
      Unrelated, List.Pairwise.nil, and_true, false_imp_iff, implies_true]
    decide
  · intro p hp
    simp only [apartEx, List.mem_cons, List.not_mem_nil, or_false] at hp
    rcases hp with rfl | rfl | rfl <;> rfl
  · intro p hp
    have : ¬ AnyCase c!"" c!"inject" := fun h => by cases h
    simp only [apartEx, List.mem_cons, List.not_mem_nil, or_false] at hp
    rcases hp with rfl | rfl | rfl <;> simp [Injects, Effective, this]
  · decide +kernel
  · decide +kernel

/-- C57 needs the paths to be unrelated: replacing a mapping and merging into it do not
commute. -/
theorem C57_related :
    let r : Overlay := { query := [⟨c!"a", findNames [c!"a"]⟩], value := mp [sc c!"x", sc c!"9"], action := .replace }
    let m : Overlay := { query := [⟨c!"a.x", findNames [c!"a", c!"x"]⟩], value := sc c!"%v0", action := .merge }
    let d := dc (mp [sc c!"a", mp [sc c!"x", sc c!"1"]])
    tree (applyAll noSed c!"" [r, m] d) = some (dc (mp [sc c!"a", mp [sc c!"x", sc c!"90"]])) ∧
    tree (applyAll noSed c!"" [m, r] d) = some (dc (mp [sc c!"a", mp [sc c!"x", sc c!"9"]])) := by
  decide +kernel

/-- C57 needs nothing to be injected: added entries come in the order of the overlays. -/
theorem C57_injecting :
    let i (k : Str) : Overlay := { query := [⟨k, findNames [k]⟩], value := sc k, action := .merge, onMissing := { action := .inject } }
    let d := dc (mp [])
    tree (applyAll noSed c!"" [i c!"a", i c!"b"] d) ≠ tree (applyAll noSed c!"" [i c!"b", i c!"a"] d) := by
  decide +kernel

/-! ### Repetition -/

theorem walk_mk {h : Hdr} (hk : h.kind = .mapping) (k : Str) (ks : List Str) (cs : List Node) :
    walk (k :: ks) (.mk h cs) = match firstAt k (pairs cs) with
      | some v => walk ks v
      | none => [] := by
  rw [walk.eq_def]
  simp only [entriesOf, Node.hd_mk, Node.content_mk, hk, if_true]
  cases firstAt k (pairs cs) <;> rfl

theorem findNames_mk {h : Hdr} (hk : h.kind = .document) (ks : List Str) (c : Node) (rest : List Node) :
    findNames ks (.mk h (c :: rest)) = walk ks c := by
  simp only [findNames, Node.hd_mk, Node.content_mk, hk, if_true]

theorem findNames_empty {h : Hdr} (hk : h.kind = .document) (ks : List Str) : findNames ks (.mk h []) = [] := by
  simp only [findNames, Node.hd_mk, Node.content_mk, hk, if_true]

/-- An edit that changes nothing when repeated, at a path. -/
theorem editPath_again (f : Node → Res Err (Option Node)) (ks : List Str) (h0 : ∀ x, f x ≠ .ok none)
    (hf : ∀ x a, WellFormed x → f x = .ok (some a) → f a = .ok (some a)) :
    ∀ n r, WellFormed n → editPath ks f n = .ok r → ∃ a, r = some a ∧ editPath ks f a = .ok (some a) := by
  induction ks with
  | nil =>
    intro n r hw h
    cases r with
    | none => exact absurd h (h0 n)
    | some a => exact ⟨a, rfl, hf n a hw h⟩
  | cons k ks ih =>
    intro n a hw h
    rw [editPath] at h
    by_cases hk : n.hd.kind = .mapping
    · rw [if_pos hk, Res.bind_eq_ok] at h
      obtain ⟨⟨c1, r⟩, h1, h2⟩ := h
      cases h2
      refine ⟨_, rfl, ?_⟩
      cases hfst : firstAt k (pairs n.content) with
      | none =>
        rw [updR_none _ hfst] at h1
        cases h1
        rw [editPath, Node.hd_mk, if_pos (by exact hk), Node.content_mk, updR_none _ hfst]
        simp [cutHd]
      | some v =>
        obtain ⟨A, kn, B, e1, e2, e3, e4⟩ := firstAt_split hfst
        rw [e1, updR_split _ e2 e4 e3, Res.bind_eq_ok] at h1
        obtain ⟨x, hx, h1⟩ := h1
        have hwv : WellFormed v := ((wf_iff n).1 hw).2 v (by rw [e1]; simp)
        obtain ⟨v', rfl, hv'⟩ := ih v x hwv hx
        cases h1
        rw [editPath, Node.hd_mk, if_pos (by exact hk), Node.content_mk, updR_split _ e2 e4 e3, hv']
        simp [cutHd]
    · rw [if_neg hk] at h
      cases h
      exact ⟨n, rfl, by rw [editPath, if_neg hk]⟩

theorem docEdit_again (f : Node → Res Err (Option Node)) (ks : List Str) (h0 : ∀ x, f x ≠ .ok none)
    (hf : ∀ x a, WellFormed x → f x = .ok (some a) → f a = .ok (some a)) (d a : Node) (hw : WellFormed d)
    (h : docEdit ks f d = .ok a) : docEdit ks f a = .ok a := by
  obtain ⟨hd, cs⟩ := d
  cases cs with
  | nil => simp only [docEdit, Node.content_mk, Res.ok.injEq] at h; subst h; rfl
  | cons c rest =>
    simp only [docEdit, Node.content_mk, Res.bind_eq_ok] at h
    obtain ⟨r, hr, h⟩ := h
    obtain ⟨c', rfl, hc'⟩ := editPath_again f ks h0 hf c r (((wf_iff _).1 hw).2 c (by simp)) hr
    cases h
    simp [docEdit, hc']

theorem findNames_docEdit (f : Node → Res Err (Option Node)) (h0 : ∀ x, f x ≠ .ok none) (ks : List Str) (d a : Node)
    (hk : d.hd.kind = .document) (h : docEdit ks f d = .ok a) (hne : findNames ks d ≠ []) : findNames ks a ≠ [] := by
  have key : ∀ (ks : List Str) (n : Node) r, editPath ks f n = .ok r → walk ks n ≠ [] → ∃ a, r = some a ∧ walk ks a ≠ [] := by
    intro ks
    induction ks with
    | nil =>
      intro n r h _
      cases r with
      | none => exact absurd h (h0 n)
      | some a => exact ⟨a, rfl, by simp [walk]⟩
    | cons k ks ih =>
      intro n r h hne
      rw [editPath] at h
      by_cases hk : n.hd.kind = .mapping
      · rw [if_pos hk, Res.bind_eq_ok] at h
        obtain ⟨⟨c1, r⟩, h1, h2⟩ := h
        cases h2
        refine ⟨_, rfl, ?_⟩
        simp only [walk, entriesOf, hk, if_true] at hne
        cases hfst : firstAt k (pairs n.content) with
        | none => rw [hfst] at hne; exact absurd rfl hne
        | some v =>
          rw [hfst] at hne
          obtain ⟨A, kn, B, e1, e2, e3, e4⟩ := firstAt_split hfst
          rw [e1, updR_split _ e2 e4 e3, Res.bind_eq_ok] at h1
          obtain ⟨x, hx, h1⟩ := h1
          obtain ⟨v', rfl, hv'⟩ := ih v x hx hne
          cases h1
          have : firstAt k (pairs (A ++ kn :: v' :: B)) = some v' := by
            rw [pairs_append e2]
            exact firstAt_append k _ _ kn v' e3 e4
          rw [walk_mk (by exact hk), this]
          exact hv'
      · simp [walk, entriesOf, hk, firstAt] at hne
  obtain ⟨hd, cs⟩ := d
  cases cs with
  | nil => simp [findNames, show hd.kind = .document from hk] at hne
  | cons c rest =>
    simp only [docEdit, Node.content_mk, Res.bind_eq_ok] at h
    obtain ⟨r, hr, h⟩ := h
    simp only [findNames, hk, if_true, Node.content_mk] at hne
    obtain ⟨c', rfl, hc'⟩ := key ks c r hr hne
    cases h
    rw [findNames_mk (by exact hk)]
    exact hc'

theorem applyJob_of_freshRes {r : Res Err Node} {d : Node} (h : freshRes r = .ok d) : ∃ x, r = .ok x ∧ x.fresh = d := by
  cases r with
  | ok x => simp only [freshRes, Res.bind_ok, Res.ok.injEq] at h; exact ⟨x, rfl, h⟩
  | err e => cases h
  | panic => cases h

/-- Repeating an overlay whose edit is not changed by repetition. -/
theorem again_of (E : Sed) (dflt : Str) (o : Overlay) (ks : List Str) (hat : At ks o) (hdq : o.documentQuery = [])
    (h0 : ∀ x, act E o x ≠ .ok none) (hf : ∀ x a, WellFormed x → act E o x = .ok (some a) → act E o a = .ok (some a))
    (d d1 : Node) (hw : WellFormed d) (hd : d.hd.kind = .document)
    (hI : ¬ Injects dflt o.onMissing ∨ findNames ks d ≠ []) (h : applyJob E dflt o d = .ok d1) :
    ∃ d2, applyJob E dflt o d1 = .ok d2 ∧ d2.fresh = d1.fresh := by
  have hff : ∀ x : Node, findNames ks x ≠ [] ↔ findNames ks x.fresh ≠ [] := by
    intro x; rw [findNames_fresh]; simp
  have hI1 : ¬ Injects dflt o.onMissing ∨ findNames ks d.fresh ≠ [] := hI.imp_right (hff d).1
  have h1 := applyJob_docEdit E dflt o ks hat hdq d hI1 hd
  rw [h] at h1
  have h1' : docEdit ks (act E o) d.fresh = .ok d1.fresh := h1.symm
  have hd1 : d1.hd.kind = .document := by
    have := docEdit_kind h1'
    simpa [fresh_hd, hd] using this
  have hI2 : ¬ Injects dflt o.onMissing ∨ findNames ks d1.fresh ≠ [] :=
    hI1.imp_right (findNames_docEdit _ h0 ks d.fresh d1.fresh (by simp [fresh_hd, hd]) h1')
  have h2 := applyJob_docEdit E dflt o ks hat hdq d1 hI2 hd1
  rw [docEdit_again _ ks h0 hf _ _ (fresh_wf d hw) h1'] at h2
  exact applyJob_of_freshRes h2

theorem replaceNode_again (E : Sed) (x v : Node) (hm : NoMarker v.hd.head ∧ NoMarker v.hd.line ∧ NoMarker v.hd.foot) :
    replaceNode E (replaceNode E x v) v = replaceNode E x v := by
  obtain ⟨h1, h2, h3⟩ := hm
  unfold replaceNode
  have hc : v.fresh.hd.head = v.hd.head ∧ v.fresh.hd.line = v.hd.line ∧ v.fresh.hd.foot = v.hd.foot := by rw [fresh_hd]; simp
  obtain ⟨c1, c2, c3⟩ := hc
  simp only [Node.hd_mk, mergeComments, c1, c2, c3, format_id E _ h1, format_id E _ h2, format_id E _ h3]
  congr 1
  split
  · rfl
  · split
    · rfl
    · split <;> rfl

/-- **C58**: repeating a replace overlay changes nothing, whether it found its path or
injected it (its own comments without markers). -/
theorem C58_replace_again (E : Sed) (dflt : Str) (o : Overlay) (ks : List Str) (q : Query) (ho : o.query = [q])
    (hq : q.find = findNames ks) (hdq : o.documentQuery = []) (ha : o.action = .replace)
    (hm : NoMarker o.value.hd.head ∧ NoMarker o.value.hd.line ∧ NoMarker o.value.hd.foot)
    (hi : Injects dflt o.onMissing → PathOf ks q.str ∧ ∀ k ∈ ks, NoMarker k)
    (d d1 : Node) (hw : WellFormed d) (hd : d.hd.kind = .document) (hne : d.content ≠ []) (h : applyJob E dflt o d = .ok d1) :
    ∃ d2, applyJob E dflt o d1 = .ok d2 ∧ d2.fresh = d1.fresh := by
  have hat : At ks o := ⟨q, ho, hq⟩
  have h0 : ∀ x, act E o x ≠ .ok none := by intro x; simp [act, ha]
  have hf : ∀ x a, WellFormed x → act E o x = .ok (some a) → act E o a = .ok (some a) := by
    intro x a _ hx
    simp only [act, ha, Res.ok.injEq, Option.some.injEq] at hx ⊢
    rw [← hx, replaceNode_again E x o.value hm]
  by_cases hI : ¬ Injects dflt o.onMissing ∨ findNames ks d ≠ []
  · exact again_of E dflt o ks hat hdq h0 hf d d1 hw hd hI h
  · simp only [not_or, not_not] at hI
    obtain ⟨hI, hnone⟩ := hI
    obtain ⟨hp, hnm⟩ := hi hI
    have hnl : findNames ks d.label = [] := by
      have := findNames_fresh ks d
      rw [hnone, ← label_fresh, findNames_fresh] at this
      simpa using this
    have hk : d.label.hd.kind = .document := by rw [label_hd_kind, hd]
    have hcl : d.label.content ≠ [] := by
      intro hc
      have := congrArg Node.content (label_fresh d)
      rw [fresh_content, fresh_content, hc] at this
      exact hne (by simpa using this.symm)
    obtain ⟨c, rest, hc⟩ := List.exists_cons_of_ne_nil hcl
    have hwc : WellFormed c := ((wf_iff _).1 (label_wf d hw)).2 c (by rw [hc]; simp)
    have hQ : Qualifies o d.label := .inl hdq
    have hnom : ¬ ∃ m, Matches o.query d.label m := by
      rintro ⟨m, _, q', hq', hm'⟩
      rw [ho] at hq'
      simp only [List.mem_cons, List.not_mem_nil, or_false] at hq'
      subst hq'
      rw [hq, hnl] at hm'
      cases hm'
    obtain ⟨d', c', rest', m, e1, e2, _, e4, e5, _, _, x, e8⟩ :=
      inject_main E dflt o d.label c rest q ks hk hc hwc hp hq hnm ho hQ hI hnom
    have hdd : d1 = d' := by
      have : applyJob E dflt o d = .ok d' := e1
      rw [h] at this; cases this; rfl
    subst hdd
    have hd1 : d1.hd.kind = .document := by
      have := congrArg Hdr.kind e4
      simpa [fresh_hd, hk] using this
    rw [hq] at e2
    have hI2 : findNames ks d1.fresh ≠ [] := by rw [findNames_fresh, e2]; simp
    have h2 := applyJob_docEdit E dflt o ks hat hdq d1 (.inr hI2) hd1
    rw [← docEdit_fresh (act_fresh E o)] at h2
    have key : ∀ (ks : List Str) (n m : Node), walk ks n = [m] → act E o m = .ok (some m) → editPath ks (act E o) n = .ok (some n) := by
      intro ks
      induction ks with
      | nil =>
        intro n m hn hm'
        simp only [walk, List.cons.injEq, and_true] at hn
        subst hn; exact hm'
      | cons k ks ih =>
        intro n m hn hm'
        by_cases hk : n.hd.kind = .mapping
        · simp only [walk, entriesOf, hk, if_true] at hn
          cases hfst : firstAt k (pairs n.content) with
          | none => rw [hfst] at hn; cases hn
          | some v =>
            rw [hfst] at hn
            obtain ⟨A, kn, B, e1, e2, e3, e4⟩ := firstAt_split hfst
            rw [editPath, if_pos hk, e1, updR_split _ e2 e4 e3, ih v m hn hm']
            simp only [Res.bind_ok, cutHd_false, ← e1]
            cases n; rfl
        · rw [editPath, if_neg hk]
    have hsame : docEdit ks (act E o) d1 = .ok d1 := by
      obtain ⟨hd1', cs1⟩ := d1
      simp only [Node.content_mk] at e5
      subst e5
      simp only [Node.hd_mk] at hd1
      simp only [findNames, Node.hd_mk, hd1, if_true, Node.content_mk] at e2
      simp only [docEdit, Node.content_mk]
      rw [key ks c' m e2 (by simp only [act, ha]; rw [e8, replaceNode_again E x o.value hm])]
      rfl
    rw [hsame] at h2
    exact applyJob_of_freshRes h2

/-- **C58**: repeating a merge overlay changes nothing if its value consists of scalars
and mappings with distinct keys, without markers (and nothing was injected). -/
theorem C58_merge_again (E : Sed) (dflt : Str) (o : Overlay) (ks : List Str) (hat : At ks o) (hdq : o.documentQuery = [])
    (ha : o.action = .merge) (hm : AllNodes (OnStrings NoMarker) o.value) (hs : ScalarsAndMaps o.value) (hv : WellFormed o.value)
    (d d1 : Node) (hw : WellFormed d) (hd : d.hd.kind = .document)
    (hI : ¬ Injects dflt o.onMissing ∨ findNames ks d ≠ []) (h : applyJob E dflt o d = .ok d1) :
    ∃ d2, applyJob E dflt o d1 = .ok d2 ∧ d2.fresh = d1.fresh := by
  refine again_of E dflt o ks hat hdq ?_ ?_ d d1 hw hd hI h
  · intro x hc
    simp only [act, ha, Res.bind_eq_ok] at hc
    obtain ⟨_, _, hc⟩ := hc
    cases hc
  · intro x a hx hc
    simp only [act, ha, Res.bind_eq_ok, Res.ok.injEq, Option.some.injEq] at hc ⊢
    obtain ⟨y, hc, rfl⟩ := hc
    exact ⟨y, merge_idem E o.value hm hs hv x y [] [] hx hc, rfl⟩

theorem DistinctKeyss_iff (cs : List Node) : DistinctKeyss cs ↔ ∀ c ∈ cs, DistinctKeys c := by
  induction cs with
  | nil => simp [DistinctKeyss]
  | cons c cs ih => simp [DistinctKeyss, ih]

theorem keys_fresh (cs : List Node) : keys (cs.map Node.fresh) = keys cs := by
  simp only [keys, pairs_map, List.map_map]
  refine List.map_congr_left fun e _ => ?_
  simp [fresh_value]

theorem distinctKeys_fresh (n : Node) : DistinctKeys n → DistinctKeys n.fresh := by
  induction n using Node.ind with
  | h hd cs ih =>
    intro h
    simp only [DistinctKeys, DistinctKeyss_iff] at h
    simp only [fresh_mk, DistinctKeys, DistinctKeyss_iff, keys_fresh]
    refine ⟨h.1, ?_⟩
    intro c hc
    obtain ⟨x, hx, rfl⟩ := List.mem_map.1 hc
    exact ih x hx (h.2 x hx)

theorem walk_deleted (ks : List Str) : ∀ (k : Str) (n a : Node), DistinctKeys n →
    editPath (k :: ks) (fun _ => .ok none) n = .ok (some a) → walk (k :: ks) a = [] := by
  have hfa : ∀ (k : Str) (es : List (Node × Node)), (∀ e ∈ es, e.1.hd.value ≠ k) → firstAt k es = none := by
    intro k es
    induction es with
    | nil => intro _; rfl
    | cons e es ih =>
      intro h
      simp only [List.mem_cons, forall_eq_or_imp] at h
      rw [firstAt, if_neg h.1, ih h.2]
  induction ks with
  | nil =>
    intro k n a hn h
    rw [editPath] at h
    by_cases hk : n.hd.kind = .mapping
    · rw [if_pos hk, Res.bind_eq_ok] at h
      obtain ⟨⟨c1, r⟩, h1, h2⟩ := h
      cases h2
      have hnone : firstAt k (pairs c1) = none := by
        cases hfst : firstAt k (pairs n.content) with
        | none => rw [updR_none _ hfst] at h1; cases h1; exact hfst
        | some v =>
          obtain ⟨A, kn, B, e1, e2, e3, e4⟩ := firstAt_split hfst
          rw [e1, updR_split _ e2 e4 e3] at h1
          simp only [editPath, Res.bind_ok, Res.ok.injEq, Prod.mk.injEq] at h1
          obtain ⟨rfl, rfl⟩ := h1
          obtain ⟨hd, cs⟩ := n
          simp only [DistinctKeys] at hn
          have hd' := hn.1 hk
          simp only [Node.content_mk] at e1
          rw [e1, keys, pairs_append e2, pairs, List.map_append, List.map_cons, List.nodup_append] at hd'
          refine hfa k _ ?_
          rw [pairs_append e2]
          intro e he
          rcases List.mem_append.1 he with he | he
          · exact e4 e he
          · intro hc
            have := List.nodup_cons.1 hd'.2.1
            exact this.1 (List.mem_map.2 ⟨e, he, by rw [hc, e3]⟩)
      rw [walk_mk (by exact hk), hnone]
    · rw [if_neg hk] at h
      cases h
      simp [walk, entriesOf, hk, firstAt]
  | cons k' ks ih =>
    intro k n a hn h
    rw [editPath] at h
    by_cases hk : n.hd.kind = .mapping
    · rw [if_pos hk, Res.bind_eq_ok] at h
      obtain ⟨⟨c1, r⟩, h1, h2⟩ := h
      cases h2
      rw [walk_mk (by exact hk)]
      cases hfst : firstAt k (pairs n.content) with
      | none => rw [updR_none _ hfst] at h1; cases h1; rw [hfst]
      | some v =>
        obtain ⟨A, kn, B, e1, e2, e3, e4⟩ := firstAt_split hfst
        rw [e1, updR_split _ e2 e4 e3, Res.bind_eq_ok] at h1
        obtain ⟨x, hx, h1⟩ := h1
        obtain ⟨v', rfl⟩ := editPath_some _ (by simp) hx
        cases h1
        have : firstAt k (pairs (A ++ kn :: v' :: B)) = some v' := by
          rw [pairs_append e2]
          exact firstAt_append k _ _ kn v' e3 e4
        rw [this]
        refine ih k' v v' ?_ hx
        obtain ⟨hd, cs⟩ := n
        simp only [DistinctKeys, DistinctKeyss_iff] at hn
        exact hn.2 v (by simp only [Node.content_mk] at e1; rw [e1]; simp)
    · rw [if_neg hk] at h
      cases h
      simp [walk, entriesOf, hk, firstAt]

/-- **C58**: repeating a delete overlay changes nothing in a document without repeated
keys (unless it injects). -/
theorem C58_delete_again (E : Sed) (dflt : Str) (o : Overlay) (ks : List Str) (hat : At ks o) (hdq : o.documentQuery = [])
    (ha : o.action = .delete) (hI : ¬ Injects dflt o.onMissing)
    (d d1 : Node) (hk : DistinctKeys d) (hd : d.hd.kind = .document) (hone : d.content.length ≤ 1)
    (h : applyJob E dflt o d = .ok d1) :
    findNames ks d1 = [] ∧ ∃ d2, applyJob E dflt o d1 = .ok d2 ∧ d2.fresh = d1.fresh := by
  have hact : act E o = fun _ => .ok none := by funext x; simp [act, ha]
  have h1 := applyJob_docEdit E dflt o ks hat hdq d (.inl hI) hd
  rw [h, hact] at h1
  have h1' : docEdit ks (fun _ => .ok none) d.fresh = .ok d1.fresh := h1.symm
  have hd1 : d1.hd.kind = .document := by
    have := docEdit_kind h1'
    simpa [fresh_hd, hd] using this
  have hkf := distinctKeys_fresh d hk
  have hnone : findNames ks d1.fresh = [] := by
    have hkd1 : d1.fresh.hd.kind = .document := by simp [fresh_hd, hd1]
    have hlen : d.fresh.content.length ≤ 1 := by rw [fresh_content, List.length_map]; exact hone
    revert h1' hkf hlen hkd1
    generalize d.fresh = x
    generalize d1.fresh = y
    intro h1' hkf hkd1 hlen
    obtain ⟨hx, cs⟩ := x
    cases cs with
    | nil =>
      simp only [docEdit, Node.content_mk, Res.ok.injEq] at h1'
      subst h1'
      exact findNames_empty (by exact hkd1) ks
    | cons c rest =>
      have hr : rest = [] := by simpa using hlen
      subst hr
      simp only [docEdit, Node.content_mk, Res.bind_eq_ok] at h1'
      obtain ⟨r, hr, h1'⟩ := h1'
      cases ks with
      | nil =>
        simp only [editPath, Res.ok.injEq] at hr
        subst hr
        cases h1'
        exact findNames_empty (by exact hkd1) []
      | cons k ks =>
        obtain ⟨c', rfl⟩ := editPath_some _ (by simp) hr
        cases h1'
        rw [findNames_mk (by exact hkd1)]
        refine walk_deleted ks k c c' ?_ hr
        simp only [DistinctKeys, DistinctKeyss_iff] at hkf
        exact hkf.2 c (by simp)
  refine ⟨?_, ?_⟩
  · rw [findNames_fresh] at hnone; simpa using hnone
  · have h2 := applyJob_docEdit E dflt o ks hat hdq d1 (.inl hI) hd1
    rw [docEdit_none _ ks d1.fresh (by simp [fresh_hd, hd1]) hnone] at h2
    exact applyJob_of_freshRes h2

/-- A replacement that has to be injected, given twice; and a deletion of an entry. -/
example :
    let o : Overlay := { query := [⟨c!"a.b", findNames [c!"a", c!"b"]⟩], value := sq [sc c!"n"], action := .replace, onMissing := { action := .inject } }
    let x : Overlay := { query := [⟨c!"k", findNames [c!"k"]⟩], action := .delete }
    let d := dc (mp [sc c!"k", sc c!"v"])
    At [c!"a", c!"b"] o ∧ Injects c!"" o.onMissing ∧ PathOf [c!"a", c!"b"] c!"a.b" ∧ WellFormed d ∧ DistinctKeys d ∧
    (tree (applyAll noSed c!"" [o] d)).isSome ∧
    tree (applyAll noSed c!"" [o] d) ≠ some d ∧
    tree (applyAll noSed c!"" [o, o] d) = tree (applyAll noSed c!"" [o] d) ∧
    tree (applyAll noSed c!"" [x] d) ≠ some d ∧
    tree (applyAll noSed c!"" [x, x] d) = tree (applyAll noSed c!"" [x] d) := by
  refine ⟨⟨_, rfl, rfl⟩, .inl ⟨by decide, rfl⟩, .inr ⟨c!"a", [c!"b"], rfl, ?_, by decide, rfl⟩, ?_, ?_, by decide +kernel,
    by decide +kernel, by decide +kernel, by decide +kernel, by decide +kernel⟩
  · intro k hk
    simp only [List.mem_cons, List.not_mem_nil, or_false] at hk
    rcases hk with rfl | rfl <;> exact ⟨⟨by decide, by decide⟩, by decide⟩
  · simp [Ex.dc, Ex.mp, Ex.sc, WellFormed, WellFormeds, Shaped]
  · simp [Ex.dc, Ex.mp, Ex.sc, DistinctKeys, DistinctKeyss, keys, pairs]

/-- C58 for delete needs the keys to be distinct: of two entries with the same key the
second is deleted by the repetition; and one that injects puts the entry back. -/
theorem C58_delete_limits :
    (let x : Overlay := { query := [⟨c!"k", findNames [c!"k"]⟩], action := .delete }
     let d := dc (mp [sc c!"k", sc c!"v", sc c!"k", sc c!"w"])
     tree (applyAll noSed c!"" [x, x] d) ≠ tree (applyAll noSed c!"" [x] d)) ∧
    (let x : Overlay := { query := [⟨c!"k", findNames [c!"k"]⟩], action := .delete, onMissing := { action := .inject } }
     let d := dc (mp [sc c!"k", sc c!"v"])
     tree (applyAll noSed c!"" [x, x] d) ≠ tree (applyAll noSed c!"" [x] d)) := by
  decide +kernel

end Yot
