import Verif.Model.HeapApply
import Verif.Lemmas.HeapSafe
import Verif.Lemmas.RenameApply
import Verif.Props.Safety
import Verif.Props.Heap
namespace Yot
open Spec HM

/-! ### Reading and storing -/

theorem readH_list {ts : List Node} {h : Heap}
    (ih : ∀ t ∈ ts, Stored h t → Ends (fun n => readH n t.hd.addr) h (.ok t) h) : Storeds h ts →
    Ends (fun n => mapH (readH n) (ts.map (fun c => c.hd.addr))) h (.ok ts) h := by
  induction ts with
  | nil => intro _; exact Ends.const rfl
  | cons t ts iht =>
    intro hs
    rw [Storeds] at hs
    have : Ends (fun n => readH n t.hd.addr >>= fun x => mapH (readH n) (ts.map (fun c => c.hd.addr)) >>= fun xs =>
        pure (x :: xs)) h (.ok (t :: ts)) h :=
      Ends.bind (ih t (by simp) hs.1) (Ends.bind (iht (fun t' ht' => ih t' (by simp [ht'])) hs.2) (Ends.const rfl))
    exact this

theorem readH_spec {h : Heap} (t : Node) : Stored h t → Ends (fun n => readH n t.hd.addr) h (.ok t) h := by
  induction t using Node.ind with
  | h hd cs ih =>
    intro hs
    have : Ends (fun n => mapH (readH n) (cs.map (fun c => c.hd.addr)) >>= fun kids =>
        (pure (.mk hd kids) : HM Node)) h (.ok (.mk hd cs)) h :=
      Ends.bind (readH_list ih hs.2) (Ends.const rfl)
    refine Ends.call this (fun n => ?_)
    show (rd hd.addr >>= fun c => mapH (readH n) c.content >>= fun kids => pure (Node.mk c.hd kids)) h = _
    rw [HM.rd_bind, hs.1]

theorem storesH_list {ts : List Node} (ih : ∀ t ∈ ts, ∀ h : Heap, 0 < h.next →
      ∃ h' u, storeH t h = (.ok u.hd.addr, h') ∧ Copied h h' [t] [u]) :
    ∀ h : Heap, 0 < h.next → ∃ h' us, storesH ts h = (.ok (us.map (fun c => c.hd.addr)), h') ∧ Copied h h' ts us := by
  induction ts with
  | nil =>
    intro h _
    exact ⟨h, [], rfl, Nat.le_refl _, fun _ _ => rfl, forest_nil h, by simp [Node.addrss], rfl⟩
  | cons t ts iht =>
    intro h h0
    obtain ⟨h1, u, e1, c1⟩ := ih t (by simp) h h0
    obtain ⟨h2, us, e2, c2⟩ := iht (fun t' ht' => ih t' (by simp [ht'])) h1 (Nat.lt_of_lt_of_le h0 c1.next)
    refine ⟨h2, u :: us, ?_, Nat.le_trans c1.next c2.next, ?_, ?_, ?_, ?_⟩
    · rw [storesH, HM.bind_ok e1, HM.bind_ok e2]; rfl
    · intro a ha
      rw [c2.old a (Nat.lt_of_lt_of_le ha c1.next), c1.old a ha]
    · rw [forest_cons]
      refine ⟨c1.forest.frame (A := []) ⟨c2.next, fun a ha _ => c2.old a ha⟩ (by simp), c2.forest, fun a ha hb => ?_⟩
      have := (c1.forest.live a (by rwa [addrss_single])).2
      have := c2.new a hb
      omega
    · intro a ha
      rw [Node.addrss, List.mem_append] at ha
      rcases ha with ha | ha
      · exact c1.new a (by rwa [addrss_single])
      · exact Nat.le_trans c1.next (c2.new a ha)
    · have := c1.same
      simp only [List.map_cons, List.map_nil, List.cons.injEq, and_true] at this
      simp [this, c2.same]

theorem storeH_spec (t : Node) : ∀ h : Heap, 0 < h.next → ∃ h' u, storeH t h = (.ok u.hd.addr, h') ∧ Copied h h' [t] [u] := by
  induction t using Node.ind with
  | h hd cs ih =>
    intro h h0
    obtain ⟨h1, us, e1, c1⟩ := storesH_list ih h h0
    let h2 : Heap := { get := fun a => if a = h1.next then
        ⟨{ hd with addr := h1.next }, us.map (fun c => c.hd.addr)⟩ else h1.get a, next := h1.next + 1 }
    have hold : ∀ a, a < h1.next → h2.get a = h1.get a := fun a ha => by
      simp only [h2]; rw [if_neg (by omega)]
    refine ⟨h2, .mk { hd with addr := h1.next } us, ?_, ?_, ?_, ?_, ?_, ?_⟩
    · rw [storeH, HM.bind_ok e1]; rfl
    · exact Nat.le_trans c1.next (Nat.le_succ _)
    · intro a ha
      rw [hold a (Nat.lt_of_lt_of_le ha c1.next), c1.old a ha]
    · rw [forest_mk]
      refine ⟨by simp [h2], ⟨Nat.lt_of_lt_of_le h0 c1.next, Nat.lt_succ_self _⟩, ?_, ?_⟩
      · intro m
        have := (c1.forest.live _ m).2
        simp at this
      · exact c1.forest.frame (A := []) ⟨Nat.le_succ _, fun a ha _ => hold a ha⟩ (by simp)
    · intro a ha
      rw [addrss_single, addrs_mk, List.mem_cons] at ha
      rcases ha with rfl | ha
      · exact c1.next
      · exact c1.new a ha
    · simp [Node.fresh, freshs_eq_map, c1.same]

/-! ### Apply -/

/-- What a call that edits the document `t` did, compared with a tree result. -/
structure Edits (x : Nat → HM Unit) (h : Heap) (t : Node) (r : Res Err Node) (safe : Prop) (f : Flow Unit) (h' : Heap) : Prop where
  ends : Ends x h f h'
  done : f ≠ .stuck
  frame : Untouched h h' t.addrs
  good : f = .ok () → ∃ t' G d, Upd h h' t t' G ∧ r = .ok d ∧ t'.fresh = d.fresh
  bad : safe → failsAs f r

theorem Edits.none {x : Nat → HM Unit} {h : Heap} {t : Node} (f : Forest h [t]) (hx : Ends x h (.ok ()) h) {d : Node}
    (hd : d.fresh = t.fresh) (s : Prop) : Edits x h t (.ok d) s (.ok ()) h :=
  ⟨hx, by simp, Untouched.refl _ _, fun _ => ⟨t, [], d, Upd.refl f, rfl, hd.symm⟩, fun _ => trivial⟩

theorem Edits.err {x : Nat → HM Unit} {h : Heap} {t : Node} {e : Err} (hx : Ends x h (.err e) h)
    (s : Prop) : Edits x h t (.err e) s (.err e) h :=
  ⟨hx, by simp, Untouched.refl _ _, fun h => by simp at h, fun _ => rfl⟩

theorem Edits.panic {x : Nat → HM Unit} {h : Heap} {t : Node} (hx : Ends x h .panic h)
    (s : Prop) : Edits x h t .panic s .panic h :=
  ⟨hx, by simp, Untouched.refl _ _, fun h => by simp at h, fun _ => rfl⟩

theorem findAll_mem {qs : List Query} (hq : ∀ q ∈ qs, InTree q) (t : Node) : InDoc t (findAll qs t) := by
  intro m hm
  unfold findAll at hm
  split at hm
  · simp at hm
  · obtain ⟨q, h1, h2⟩ := List.mem_flatMap.1 hm
    exact hq q h1 t m h2

theorem forget_fresh' (b : Nat) (t : Node) : (forget b t).fresh = t.fresh := by
  induction t using Node.ind with
  | h hd cs ih =>
    rw [forget_mk, Node.fresh, Node.fresh, freshs_eq_map, freshs_eq_map, List.map_map]
    congr 1
    exact List.map_congr_left fun c hc => ih c hc

theorem Spec.Forest.nodup {h : Heap} {t : Node} (f : Forest h [t]) : t.addrs.Nodup ∧ 0 ∉ t.addrs := by
  have h1 := f.distinct
  rw [addrss_single] at h1
  refine ⟨h1, fun m => ?_⟩
  have := (f.live 0 (by rwa [addrss_single])).1
  omega

/-- The overlays for which failing is as on trees (see C53_action). -/
def Safe (o : Overlay) : Prop :=
  o.action = .delete ∨ o.action = .replace ∨ o.action = .combine ∨
    AllNodes (fun hd => hd.kind ≠ .document ∧ hd.kind ≠ .alias) o.value

theorem safe_attached {E : Sed} {o : Overlay} (hs : Safe o) {t : Node} {ps : List Nat} (hps : ∀ p ∈ ps, p ∈ t.addrs) :
    o.action = .delete ∨ NeverFails E o ∨ Attached E o t ps := by
  by_cases h1 : o.action = .delete
  · exact .inl h1
  by_cases h2 : o.action = .replace
  · exact .inr (.inl (neverFails_replace h2))
  by_cases h3 : o.action = .combine
  · exact .inr (.inr (attached_combine h3 _ t hps))
  have h4 : o.action = .merge ∨ o.action = .invalid := by
    cases hk : o.action <;> simp_all
  rcases hs with hs | hs | hs | hs
  · exact absurd hs h1
  · exact absurd hs h2
  · exact absurd hs h3
  · exact .inr (.inl (neverFails_merge h4 hs))

/-- `doAction` at the matches found in memory, compared with the same tree elsewhere. -/
theorem doActionH_edits (E : Sed) (o : Overlay) {h : Heap} {t s : Node} {ρ : Nat → Nat} (hi : Function.Injective ρ)
    (h0 : ρ 0 = 0) (hr : rename ρ s = t) (hn : s.addrs.Nodup) (a : Apart h t o.value) (wf : WellFormed o.value)
    {qs : List Query} (hp : ∀ q ∈ qs, AnyPlace q) (hq : ∀ q ∈ qs, InTree q) :
    ∃ f h', Edits (fun k => doActionH E k o.action t.hd.addr o.value.hd.addr ((findAll qs t).map (fun m => m.hd.addr))) h t
      (doAction E o s (findAll qs s)) (Safe o) f h' := by
  have hin := findAll_mem hq t
  obtain ⟨f, h', e, n, u, g, b⟩ := doActionH_spec E o a wf (findAll qs t) hin
  have hren : doAction E o t (findAll qs t) = renameRes ρ (doAction E o s (findAll qs s)) := by
    subst hr
    rw [findAll_rename hi hp hn, doAction_rename E o h0 hi]
  refine ⟨f, h', e, n, u, fun hf => ?_, fun hs => ?_⟩
  · obtain ⟨t', G, u', d⟩ := g hf
    rw [hren] at d
    cases hd : doAction E o s (findAll qs s) with
    | ok x =>
      rw [hd, renameRes_ok, Res.ok.injEq] at d
      refine ⟨t', G, x, u', rfl, ?_⟩
      rw [← fresh_rename ρ x, d, forget_fresh']
    | err e => rw [hd] at d; simp at d
    | panic => rw [hd] at d; simp at d
  · have := b (safe_attached hs fun p hp => by
      obtain ⟨m, hm, rfl⟩ := List.mem_map.1 hp; exact hin m hm)
    rw [hren] at this
    cases hd : doAction E o s (findAll qs s) <;> rw [hd] at this <;> cases f <;> simp_all [failsAs]

theorem replaceAllAt_eq (E : Sed) (o : Overlay) (t : Node) (ms : List Node) :
    replaceAllAt E o.value t ms = doAction E { o with action := .replace } t ms := rfl

/-- The results of merging depend on where the target lies only in where they lie. -/
theorem merge_fresh_target (E : Sed) {u a y n : Node} (hf : u.fresh = a.fresh) (hm : merge E a [] n = .ok y) :
    ∃ z, merge E u [] n = .ok z ∧ z.fresh = y.fresh := by
  have h1 := merge_rename E (ρ := fun _ => 0) rfl n a []
  have h2 := merge_rename E (ρ := fun _ => 0) rfl n u []
  rw [← fresh_eq_rename] at h1 h2
  rw [hf, h1, hm] at h2
  cases hz : merge E u [] n with
  | ok z =>
    rw [hz] at h2
    simp only [renameRes_ok, Res.ok.injEq] at h2
    exact ⟨z, rfl, by rw [fresh_eq_rename, fresh_eq_rename, h2]⟩
  | err e => rw [hz] at h2; simp at h2
  | panic => rw [hz] at h2; simp at h2

/-- Merging several trees in memory into one. -/
theorem mergeAllH_spec (E : Sed) (ns : List Node) : ∀ (us : List Node) (h : Heap) (u a y : Node), Forest h (u :: us) →
    us.map Node.fresh = ns.map Node.fresh → (∀ n ∈ ns, WellFormed n) → u.fresh = a.fresh →
    ns.foldlM (fun acc n => mergeNode E acc n) a = .ok y →
    ∃ xs h' u' G, Ends (fun k => mapH (fun q => mergeH E k u.hd.addr q []) (us.map (fun c => c.hd.addr))) h (.ok xs) h' ∧
      Upd h h' u u' G ∧ u'.fresh = y.fresh := by
  induction ns with
  | nil =>
    intro us h u a y f hs _ hf hy
    have : us = [] := by simpa using hs
    subst this
    rw [List.foldlM_nil, Res.pure_eq, Res.ok.injEq] at hy
    exact ⟨[], h, u, [], Ends.const rfl, Upd.refl f, hf.trans (by rw [hy])⟩
  | cons n ns ih =>
    intro us h u a y f hs hw hf hy
    obtain ⟨v, vs, rfl⟩ : ∃ v vs, us = v :: vs := by
      cases us with
      | nil => simp at hs
      | cons v vs => exact ⟨v, vs, rfl⟩
    simp only [List.map_cons, List.cons.injEq] at hs
    rw [List.foldlM_cons] at hy
    cases hm : mergeNode E a n with
    | err e => rw [hm] at hy; simp at hy
    | panic => rw [hm] at hy; simp at hy
    | ok b =>
      rw [hm, Res.bind_ok] at hy
      obtain ⟨z, hz, hzf⟩ := merge_fresh_target E hf hm
      have f1 := forest_cons.1 f
      have f2 := forest_cons.1 f1.2.1
      have hap : Apart h u v := ⟨f1.1, f2.1, fun x hx hy => f1.2.2 x hx (by rw [Node.addrss]; simp [hy])⟩
      have wfv : WellFormed v := wf_of_fresh v (hs.1 ▸ fresh_wf n (hw n (by simp)))
      have m := mergeImpl E v wfv h.next h u [] hap (Nat.le_refl _)
      rw [forget_live f1.1, merge_of_fresh E hs.1, hz] at m
      obtain ⟨h1, u1, G1, x, e1, v1, ht1⟩ := m
      have d1 : ∀ a ∈ u.addrs, a ∉ Node.addrss vs := fun a ha hb => f1.2.2 a ha (by rw [Node.addrss]; simp [hb])
      have o1 := v1.other f2.2.1 d1
      have f3 : Forest h1 (u1 :: vs) := forest_cons.2 ⟨(forest_cons.1 v1.forest).1, o1.1,
        fun a ha => o1.2 a (by rw [Node.addrss]; simp [ha])⟩
      have hf1 : u1.fresh = b.fresh := by rw [← forget_fresh' h.next u1, ht1, hzf]
      obtain ⟨xs, h2, u2, G2, e2, v2, hf2⟩ := ih vs h1 u1 b y f3 hs.2 (fun n hn => hw n (by simp [hn])) hf1 hy
      rw [v1.root] at e2
      exact ⟨x :: xs, h2, u2, _, Ends.bind e1 (Ends.bind e2 (Ends.const rfl)), v1.trans v2, hf2⟩

/-- The builder puts in new memory what it builds. -/
theorem buildPathsH_spec (E : Sed) (bps : List Node) (y : Node) (hw : ∀ n ∈ bps, WellFormed n) (hb : buildPaths E bps = .ok y)
    (h : Heap) (hpos : 0 < h.next) :
    ∃ h' u, Ends (fun k => orCrashH (buildPathsH E k bps)) h (.ok u.hd.addr) h' ∧ Copied h h' [y] [u] := by
  obtain ⟨h1, us, e1, c1⟩ := storesH_list (ts := bps) (fun t _ => storeH_spec t) h hpos
  unfold buildPaths mergeNodes at hb
  cases bps with
  | nil => simp at hb
  | cons b bps =>
    obtain ⟨u, vs, rfl⟩ : ∃ v vs, us = v :: vs := by
      have := c1.same
      cases us with
      | nil => simp at this
      | cons v vs => exact ⟨v, vs, rfl⟩
    have hs := c1.same
    simp only [List.map_cons, List.cons.injEq] at hs
    dsimp only at hb
    have hy : bps.foldlM (fun acc n => mergeNode E acc n) b = .ok y := by
      cases hr : bps.foldlM (fun acc n => mergeNode E acc n) b with
      | ok z => rw [hr] at hb; simp only [Res.bind_ok, Res.pure_eq, Res.ok.injEq] at hb; rw [hb]
      | err e => rw [hr] at hb; simp at hb
      | panic => rw [hr] at hb; simp at hb
    obtain ⟨xs, h2, u2, G, e2, v2, hf2⟩ := mergeAllH_spec E bps vs h1 u b y c1.forest hs.2 (fun n hn => hw n (by simp [hn])) hs.1 hy
    have hE : Ends (fun k => buildPathsH E k (b :: bps)) h (.ok u2.hd.addr) h2 := by
      rw [v2.root]
      refine Ends.bind (Ends.const e1) ?_
      exact Ends.bind (f := fun k _ => pure u.hd.addr) e2 (Ends.const rfl)
    refine ⟨h2, u2, ?_, Nat.le_trans c1.next v2.frame.1, fun a ha => ?_, (forest_cons.1 v2.forest).1, fun a ha => ?_, by simp [hf2]⟩
    · obtain ⟨K, hK⟩ := hE
      exact ⟨K, fun k hk => by simp only [orCrashH, hK k hk]⟩
    · rw [v2.frame.2 a (Nat.lt_of_lt_of_le ha c1.next), c1.old a ha]
      intro hm
      have := c1.new a (by rw [Node.addrss]; simp [hm])
      omega
    · rw [addrss_single] at ha
      rcases v2.sub a (by rw [Node.addrss]; simp [ha]) with hm | hm
      · exact c1.new a (by rw [Node.addrss]; simp [hm])
      · exact Nat.le_trans c1.next hm

theorem doInjectPathH_spec (E : Sed) (o : Overlay) {h : Heap} {t s : Node} {ρ : Nat → Nat} (hi : Function.Injective ρ)
    (h0 : ρ 0 = 0) (hr : rename ρ s = t) (a : Apart h t o.value) (wf : WellFormed o.value)
    {ip : List Query} (hp : ∀ q ∈ ip, AnyPlace q) (hq : ∀ q ∈ ip, InTree q) (sf : Prop) :
    ∃ f h', Edits (fun k => doInjectPathH E k o.value.hd.addr ip t.hd.addr) h t (doInjectPath E o ip s) sf f h' := by
  unfold doInjectPathH doInjectPath
  cases hnp : newPaths (ip.map Query.str) with
  | err e => exact ⟨_, _, Edits.err (Ends.const rfl) _⟩
  | panic => exact ⟨_, _, Edits.panic (Ends.const rfl) _⟩
  | ok bps =>
    simp only [Res.bind_ok]
    have hpt := (paths_pathTree _ _ hnp).2
    cases hb : buildPaths E bps with
    | err e =>
      exfalso
      by_cases hne : bps = []
      · subst hne; simp [buildPaths, mergeNodes] at hb
      · obtain ⟨y', h2, _⟩ := buildPaths_ok E bps hne hpt
        rw [hb] at h2; simp at h2
    | panic =>
      by_cases hne : bps = []
      · subst hne
        exact ⟨_, _, Edits.panic (Ends.const rfl) _⟩
      · obtain ⟨y', h2, _⟩ := buildPaths_ok E bps hne hpt
        rw [hb] at h2; simp at h2
    | ok y =>
      simp only
      have wfy : WellFormed y := by
        have h1 := (paths_pathTree _ _ hnp).2
        by_cases hne : bps = []
        · subst hne; simp [buildPaths, mergeNodes] at hb
        · obtain ⟨y', h2, h3⟩ := buildPaths_ok E bps hne h1
          rw [hb, Res.ok.injEq] at h2
          exact h2 ▸ h3.1
      have hpos : 0 < h.next := by
        have := a.doc.live t.hd.addr (by rw [addrss_single]; exact root_mem_addrs t)
        omega
      obtain ⟨h1, u, e1, c1⟩ := buildPathsH_spec E bps y (fun n hn => (hpt n hn).1) hb h hpos
      have hfresh : u.fresh = y.fresh := by simpa using c1.same
      have unt1 : Untouched h h1 [] := ⟨c1.next, fun x hx _ => c1.old x hx⟩
      have ft1 : Forest h1 [t] := a.doc.frame unt1 (by simp)
      have fv1 : Forest h1 [o.value] := a.val.frame unt1 (by simp)
      have wfu : WellFormed u := wf_of_fresh u (hfresh ▸ fresh_wf y wfy)
      have a1 : Apart h1 t u := ⟨ft1, c1.forest, fun x hx hy => by
        have := (a.doc.live x (by rwa [addrss_single])).2
        have := c1.new x (by rwa [addrss_single])
        omega⟩
      have m := mergeImpl E u wfu h1.next h1 t [] a1 (Nat.le_refl _)
      rw [forget_live ft1, merge_of_fresh E hfresh] at m
      have hmr : merge E t [] y = renameRes ρ (merge E s [] y) := by
        subst hr; exact merge_rename E h0 y s []
      have upd1 : ∀ {h2 t2 G}, Upd h1 h2 t t2 G → Upd h h2 t t2 G := by
        intro h2 t2 G v
        refine ⟨v.forest, ⟨Nat.le_trans c1.next v.frame.1, fun x hx hn => ?_⟩, v.root, fun x hx => ?_, v.sup⟩
        · rw [v.frame.2 x (Nat.lt_of_lt_of_le hx c1.next) hn, c1.old x hx]
        · rcases v.sub x hx with hy | hy
          · exact .inl hy
          · exact .inr (Nat.le_trans c1.next hy)
      have unt : ∀ {h2}, Untouched h1 h2 t.addrs → Untouched h h2 t.addrs := by
        intro h2 v
        refine ⟨Nat.le_trans c1.next v.1, fun x hx hn => ?_⟩
        rw [v.2 x (Nat.lt_of_lt_of_le hx c1.next) hn, c1.old x hx]
      have hmn : mergeNode E s y = merge E s [] y := rfl
      rw [hmn]
      rw [hmr] at m
      cases hm : merge E s [] y with
      | err e =>
        rw [hm] at m
        obtain ⟨h2, e2, u2⟩ := m
        exact ⟨.err e, h2, Ends.bind e1 (Ends.bind_err e2), by simp, unt u2, fun h => by simp at h, fun _ => rfl⟩
      | panic =>
        rw [hm] at m
        obtain ⟨h2, e2, u2⟩ := m
        exact ⟨.panic, h2, Ends.bind e1 (Ends.bind_panic e2), by simp, unt u2, fun h => by simp at h, fun _ => rfl⟩
      | ok s1 =>
        rw [hm] at m
        obtain ⟨h2, t2, G2, x, e2, u2, ht2⟩ := m
        simp only [Res.bind_ok]
        have v2 := upd1 u2
        have a2 : Apart h2 t2 o.value := v2.apart a
        have hf2 : t2.fresh = s1.label.fresh := by
          rw [label_fresh, ← forget_fresh' h1.next t2, ht2, fresh_rename]
        obtain ⟨ρ2, hi2, z2, hr2⟩ := exists_renaming t2 s1.label hf2 a2.doc.nodup.1 a2.doc.nodup.2 (label_nodup _) (label_ne_zero _)
        obtain ⟨f, h3, ed⟩ := doActionH_edits E { o with action := .replace } hi2 z2 hr2 (label_nodup _) a2 wf hp hq
        rw [replaceAllAt_eq]
        have e3 := ed.ends
        rw [v2.root] at e3
        refine ⟨f, h3, ?_, ed.done, ?_, ?_, fun _ => ed.bad (.inr (.inl rfl))⟩
        · exact Ends.bind e1 (Ends.bind (f := fun k _ => readH k t.hd.addr >>= fun t' =>
            doActionH E k .replace t.hd.addr o.value.hd.addr ((findAll ip t').map (fun m => m.hd.addr))) e2
              (Ends.bind (f := fun k t' => doActionH E k .replace t.hd.addr o.value.hd.addr ((findAll ip t').map (fun m => m.hd.addr)))
                (v2.root ▸ readH_spec t2 a2.doc.stored.1) e3))
        · exact v2.untouched ed.frame
        · intro hf
          obtain ⟨t', G', d, u', r', fr⟩ := ed.good hf
          exact ⟨t', _, d, v2.trans u', r', fr⟩

theorem applyH_edits (E : Sed) (dflt : Str) (o : Overlay) {h : Heap} {t : Node} (a : Apart h t o.value) (wf : WellFormed o.value)
    (hp : ∀ q ∈ o.queries, AnyPlace q) (hq : ∀ q ∈ o.queries, InTree q) :
    ∃ f h', Edits (fun k => applyH E dflt k o o.value.hd.addr t.hd.addr) h t (applyJob E dflt o t) (Safe o) f h' := by
  have hread := readH_spec t a.doc.stored.1
  obtain ⟨ρ, hi, h0, hr⟩ := exists_renaming t t.label (label_fresh t).symm a.doc.nodup.1 a.doc.nodup.2 (label_nodup _) (label_ne_zero _)
  have hpq : ∀ q ∈ o.query, AnyPlace q := fun q h => hp q (by simp [Overlay.queries, h])
  have hqq : ∀ q ∈ o.query, InTree q := fun q h => hq q (by simp [Overlay.queries, h])
  have key : ∃ f h', Edits (fun k => if !checkQueries o.documentQuery t then pure ()
      else if (findAll o.query t).isEmpty then onMissingH E dflt k o o.value.hd.addr t.hd.addr
      else doActionH E k o.action t.hd.addr o.value.hd.addr ((findAll o.query t).map (fun m => m.hd.addr))) h t
      (applyJob E dflt o t) (Safe o) f h' := by
    have hcq : checkQueries o.documentQuery t = checkQueries o.documentQuery t.label := by
      conv_lhs => rw [← hr]
      exact checkQueries_rename hi (fun q h => hp q (by simp only [Overlay.queries, List.mem_append]; exact .inr h)) (label_nodup _)
    have hfq : (findAll o.query t).isEmpty = (findAll o.query t.label).isEmpty := by
      conv_lhs => rw [← hr, findAll_rename hi hpq (label_nodup _), List.isEmpty_map]
    unfold applyJob apply
    dsimp only
    rw [hcq, hfq]
    split_ifs with c1 c2
    · exact ⟨_, _, Edits.none a.doc (Ends.const rfl) (label_fresh t) _⟩
    · · unfold onMissingH onMissing
        cases hact : (o.onMissing.resolve dflt).action
        case inject =>
          simp only
          unfold handleInjectPathH handleInjectPath
          cases hnp : newPaths (o.query.map Query.str) with
          | ok bps => exact doInjectPathH_spec E o hi h0 hr a wf hpq hqq _
          | panic => exact ⟨_, _, Edits.panic (Ends.const rfl) _⟩
          | err e =>
            cases e
            case invalidPathSyntax =>
              simp only
              cases hip : o.onMissing.injectPath with
              | none => exact ⟨_, _, Edits.none a.doc (Ends.const rfl) (label_fresh t) _⟩
              | some ip =>
                refine doInjectPathH_spec E o hi h0 hr a wf (fun q h => hp q ?_) (fun q h => hq q ?_) _ <;>
                  simp [Overlay.queries, hip, h]
            all_goals exact ⟨_, _, Edits.err (Ends.const rfl) _⟩
        all_goals exact ⟨_, _, Edits.none a.doc (Ends.const rfl) (label_fresh t) _⟩
    · exact doActionH_edits E o hi h0 hr (label_nodup _) a wf hpq hqq
  obtain ⟨f, h', ed⟩ := key
  exact ⟨f, h', Ends.bind hread ed.ends, ed.done, ed.frame, ed.good, ed.bad⟩

end Yot
