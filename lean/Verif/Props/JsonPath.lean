import Verif.Lemmas.JsonPathEach
import Verif.Props.Delete
import Verif.Props.Edits
import Verif.Props.Apply
import Verif.Props.Commute
import Verif.Props.HeapApply
import Verif.Spec.Build
/-
C75: overlays whose queries use wildcards, indices, slices, unions, keys, filters and recursive
descent.
-/
namespace Yot
open Spec Ex

/-! ### The matches -/

theorem doc_root {d : Node} (hd : Doc d) (hne : d.content ≠ []) : ∃ c, d.content = [c] ∧ GoodTree c ∧ c.addrs.Nodup ∧ d.hd.addr ∉ c.addrs := by
  obtain ⟨h, cs⟩ := d
  have h1 := hd.single
  simp only [Node.content_mk] at h1 hne
  match cs, h1, hne with
  | [c], _, _ =>
    have hw := hd.decoded.wf
    unfold WellFormed at hw
    have := nodup_child hd.decoded.distinct (c := c) (by simp)
    exact ⟨c, rfl, ⟨(WellFormeds_iff [c]).1 hw.2 c (by simp), hd.root c (by simp)⟩, this⟩
  | _ :: _ :: _, h, _ => simp at h

theorem findAll_steps {o : Overlay} {qs : List (List PStep)} (hq : Queries o qs) {d c : Node} (hk : d.hd.kind = .document)
    (hc : d.content = [c]) : findAll o.query d = qs.flatMap (fun ss => follows d ss c) := by
  unfold findAll
  rw [if_neg (by simp [hc])]
  have : ∀ (l : List Query) (q : List (List PStep)), l.map Query.find = q.map findSteps →
      l.flatMap (fun q => q.find d) = q.flatMap (fun ss => follows d ss c) := by
    intro l
    induction l with
    | nil => intro q h; cases q with | nil => rfl | cons => simp at h
    | cons x l ih =>
      intro q h
      cases q with
      | nil => simp at h
      | cons y q =>
        simp only [List.map_cons, List.cons.injEq] at h
        rw [List.flatMap_cons, List.flatMap_cons, ih q h.2, h.1]
        congr 1
        unfold findSteps
        rw [if_pos hk, hc]
  exact this _ _ hq

theorem matches_routes {o : Overlay} {qs : List (List PStep)} (hq : Queries o qs) {d c : Node} (hk : d.hd.kind = .document)
    (hc : d.content = [c]) (hg : GoodTree c) (m : Node) :
    m ∈ findAll o.query d ↔ ∃ r, Route c r m ∧ selected qs d r = true := by
  rw [findAll_steps hq hk hc, List.mem_flatMap]
  unfold selected
  rw [hc]
  constructor
  · rintro ⟨ss, h1, h2⟩
    obtain ⟨r, h3, h4⟩ := (follows_route d ss c hg m).1 h2
    exact ⟨r, h3, List.any_eq_true.2 ⟨ss, h1, h4⟩⟩
  · rintro ⟨r, h3, h4⟩
    obtain ⟨ss, h1, h2⟩ := List.any_eq_true.1 h4
    exact ⟨ss, h1, (follows_route d ss c hg m).2 ⟨r, h3, h2⟩⟩

theorem matches_addrs {o : Overlay} {qs : List (List PStep)} (hq : Queries o qs) {d c : Node} (hk : d.hd.kind = .document)
    (hc : d.content = [c]) (hg : GoodTree c) (hn : c.addrs.Nodup) {r : List Edge} {m : Node} (hr : Route c r m) :
    m.hd.addr ∈ addrsOf (findAll o.query d) ↔ selected qs d r = true := by
  unfold addrsOf
  rw [List.mem_map]
  constructor
  · rintro ⟨m', h1, h2⟩
    obtain ⟨r', h3, h4⟩ := (matches_routes hq hk hc hg m').1 h1
    obtain ⟨rfl, _⟩ := route_unique h3 hg hn hr h2
    exact h4
  · intro h
    exact ⟨m, (matches_routes hq hk hc hg m).2 ⟨r, hr, h⟩, rfl⟩

/-- C75: what is matched: exactly the nodes whose route is selected. -/
theorem C75_matches (o : Overlay) (qs : List (List PStep)) (hq : Queries o qs) (d : Node) (hd : Doc d) (m : Node) :
    Matches o.query d m ↔ ∃ c ∈ d.content, ∃ r, Route c r m ∧ selected qs d r = true := by
  have hm : Matches o.query d m ↔ m ∈ findAll o.query d := by
    unfold Matches findAll
    by_cases h : d.hd.kind = .document ∧ d.content = []
    · simp [h]
    · simp only [h, if_false, not_false_eq_true, true_and, List.mem_flatMap]
  rw [hm]
  by_cases hne : d.content = []
  · unfold findAll
    rw [if_pos ⟨hd.kind, hne⟩, hne]
    simp
  · obtain ⟨c, hc, hg, _⟩ := doc_root hd hne
    rw [matches_routes hq hd.kind hc hg, hc]
    simp

theorem root_tells {o : Overlay} {qs : List (List PStep)} (hq : Queries o qs) {d c : Node} (hk : d.hd.kind = .document)
    (hc : d.content = [c]) (hg : GoodTree c) (hn : c.addrs.Nodup) : Tells (· ∈ addrsOf (findAll o.query d)) (selected qs d) c :=
  fun _ _ hr _ => matches_addrs hq hk hc hg hn hr

theorem doc_not_match {o : Overlay} {qs : List (List PStep)} (hq : Queries o qs) {d c : Node} (hk : d.hd.kind = .document)
    (hc : d.content = [c]) (hg : GoodTree c) (hno : d.hd.addr ∉ c.addrs) : d.hd.addr ∉ addrsOf (findAll o.query d) := by
  intro h
  obtain ⟨m, h1, h2⟩ := List.mem_map.1 h
  obtain ⟨r, h3, _⟩ := (matches_routes hq hk hc hg m).1 h1
  exact hno (h2 ▸ route_addr h3 hg)

theorem edited_doc {o : Overlay} {qs : List (List PStep)} (hq : Queries o qs) {d c : Node} (hk : d.hd.kind = .document)
    (hc : d.content = [c]) (hg : GoodTree c) (hn : c.addrs.Nodup) (hno : d.hd.addr ∉ c.addrs) {P : Node → Node → Prop} {d' : Node}
    (h : EditedAt (· ∈ addrsOf (findAll o.query d)) P d d') : EditedDoc P (selected qs d) d d' := by
  rw [editedAt_mk] at h
  rcases h with ⟨h, _⟩ | ⟨_, hh, hf⟩
  · exact absurd h (doc_not_match hq hk hc hg hno)
  refine ⟨hh, ?_⟩
  rw [hc] at hf ⊢
  generalize d'.content = ds at hf ⊢
  cases hf with
  | cons h1 hf =>
    cases hf
    refine ⟨_, rfl, ?_⟩
    have hroot := matches_addrs hq hk hc hg hn (.here c)
    split
    · rename_i hs
      rw [editedAt_mk] at h1
      rcases h1 with ⟨_, hp⟩ | ⟨hno', _⟩
      · exact hp
      · exact absurd (hroot.2 hs) hno'
    · rename_i hs
      exact edited_sel c _ _ hg (root_tells hq hk hc hg hn) (fun hm => hs (hroot.1 hm)) h1

/-! ### Delete -/

theorem some_selected {o : Overlay} {qs : List (List PStep)} (hq : Queries o qs) {d : Node} (hd : Doc d) :
    SomeSelected qs d ↔ ∃ m, Matches o.query d m := by
  constructor
  · rintro ⟨c, hc, r, m, h1, h2⟩
    exact ⟨m, (C75_matches o qs hq d hd m).2 ⟨c, hc, r, h1, h2⟩⟩
  · rintro ⟨m, h⟩
    obtain ⟨c, hc, r, h1, h2⟩ := (C75_matches o qs hq d hd m).1 h
    exact ⟨c, hc, r, m, h1, h2⟩

theorem apply_selected {E : Sed} {dflt : Str} {o : Overlay} {qs : List (List PStep)} (hq : Queries o qs) {d : Node} (hd : Doc d)
    (hqual : Qualifies o d) (hs : SomeSelected qs d) :
    d.content ≠ [] ∧ apply E dflt o d = doAction E o d (findAll o.query d) := by
  obtain ⟨m, hm⟩ := (some_selected hq hd).1 hs
  have hmem : m ∈ findAll o.query d := by
    unfold Matches at hm
    unfold findAll
    rw [if_neg hm.1]
    exact List.mem_flatMap.2 hm.2
  refine ⟨?_, ?_⟩
  · obtain ⟨c, hc, _⟩ := hs
    exact List.ne_nil_of_mem hc
  · unfold apply
    have hcq : checkQueries o.documentQuery d = true :=
      (checkQueries_iff _ _).2 hqual
    rw [hcq]
    simp only [Bool.not_true, Bool.false_eq_true, if_false]
    rw [if_neg]
    simp only [List.isEmpty_iff]
    exact List.ne_nil_of_mem hmem

/-- C75: a delete overlay, whatever its queries (overlapping, nested, matching keys): the result
is the document without what is selected.  (If nothing is, an overlay that injects would.) -/
theorem C75_delete (E : Sed) (dflt : Str) (o : Overlay) (ha : o.action = .delete) (qs : List (List PStep)) (hq : Queries o qs)
    (d : Node) (hd : Doc d) (hqual : Qualifies o d) (hs : SomeSelected qs d ∨ ¬ Injects dflt o.onMissing) :
    apply E dflt o d = .ok (cutDoc (selected qs d) d) := by
  by_cases hs : SomeSelected qs d
  case neg =>
    rename_i hor
    have hor : ¬ Injects dflt o.onMissing := hor.resolve_left hs
    rw [C18_unqualified_overlay_is_identity E dflt o d (.inr ⟨fun h => hs ((some_selected hq hd).2 h), hor⟩)]
    congr 1
    by_cases hne : d.content = []
    · obtain ⟨h, cs⟩ := d
      simp only [Node.content_mk] at hne
      subst hne
      rfl
    · obtain ⟨c, hc, hg, hn, hno⟩ := doc_root hd hne
      obtain ⟨h, cs⟩ := d
      simp only [Node.content_mk] at hc
      subst hc
      have none : ∀ r m, Route c r m → selected qs (.mk h [c]) r ≠ true := fun r m hr hx => hs ⟨c, by simp, r, m, hr, hx⟩
      rw [cutDoc, if_neg (none [] c (.here c)), ← prune_cut (fun _ => false) c _ hg, prune_absent _ c (by simp)]
      intro r m hr _
      simp [none r m hr]
  clear * - ha hq hd hqual hs
  obtain ⟨hne, happ⟩ := apply_selected (E := E) (dflt := dflt) hq hd hqual hs
  obtain ⟨c, hc, hg, hn, hno⟩ := doc_root hd hne
  rw [happ, C13_delete_set E o ha d hd.decoded]
  congr 1
  have hk := hd.kind
  have hroot := matches_addrs hq hk hc hg hn (.here c)
  have htell := root_tells hq hk hc hg hn
  obtain ⟨h, cs⟩ := d
  simp only [Node.content_mk] at hc
  subst hc
  simp only [Node.hd_mk] at hk
  rw [prune, if_pos (.inr hk), cutDoc]
  simp only [pruneItems]
  by_cases hsel : selected qs (.mk h [c]) [] = true
  · rw [if_pos hsel, if_pos (decide_eq_true (hroot.2 hsel))]
  · rw [if_neg hsel, if_neg (by simpa using fun hm => hsel (hroot.1 hm))]
    congr 2
    refine prune_cut _ c _ hg ?_
    intro r m hr hne
    exact decide_eq_true_iff.trans (htell r m hr hne)

/-- C75: replace: every outermost selected node becomes the overlay's value, everything else
stays. -/
theorem C75_replace (E : Sed) (dflt : Str) (o : Overlay) (ha : o.action = .replace) (qs : List (List PStep)) (hq : Queries o qs)
    (d : Node) (hd : Doc d) (hqual : Qualifies o d) (hs : SomeSelected qs d) :
    ∃ d', apply E dflt o d = .ok d' ∧ EditedDoc (Installed o.value) (selected qs d) d d' := by
  obtain ⟨hne, happ⟩ := apply_selected (E := E) (dflt := dflt) hq hd hqual hs
  obtain ⟨c, hc, hg, hn, hno⟩ := doc_root hd hne
  obtain ⟨d', hd'⟩ := C10_replace_succeeds E o ha d (findAll o.query d)
  refine ⟨d', happ.trans hd', ?_⟩
  refine edited_doc hq hd.kind hc hg hn hno (C10_replace_installs_value E o ha d d' _ ?_ hd')
  intro h0
  obtain ⟨m, h1, h2⟩ := List.mem_map.1 h0
  obtain ⟨r, h3, _⟩ := (matches_routes hq hd.kind hc hg m).1 h1
  apply hd.zero
  rw [← h2]
  obtain ⟨h, cs⟩ := d
  simp only [Node.content_mk] at hc
  subst hc
  rw [Node.addrs, addrss_eq]
  exact List.mem_cons_of_mem _ (List.mem_flatMap.2 ⟨c, by simp, route_addr h3 hg⟩)

/-- C75: merge, replace and combine change nothing outside what is selected. -/
theorem C75_only_there (E : Sed) (dflt : Str) (o : Overlay) (ha : o.action ≠ .delete) (qs : List (List PStep)) (hq : Queries o qs)
    (d d' : Node) (hd : Doc d) (hs : SomeSelected qs d) (h : apply E dflt o d = .ok d') :
    EditedDoc (fun _ _ => True) (selected qs d) d d' := by
  have hne : d.content ≠ [] := by
    obtain ⟨c, hc, _⟩ := hs
    exact List.ne_nil_of_mem hc
  obtain ⟨c, hc, hg, hn, hno⟩ := doc_root hd hne
  refine edited_doc hq hd.kind hc hg hn hno (C17_apply E dflt o ha d d' ?_ h)
  obtain ⟨c', hc', r, m, h1, h2⟩ := hs
  rw [hc, List.mem_singleton] at hc'
  subst hc'
  exact List.ne_nil_of_mem ((matches_routes hq hd.kind hc hg m).2 ⟨r, h1, h2⟩)

/-- C75: combine changes the text and comments of selected scalars only. -/
theorem C75_combine (E : Sed) (dflt : Str) (o : Overlay) (ha : o.action = .combine) (qs : List (List PStep)) (hq : Queries o qs)
    (d d' : Node) (hd : Doc d) (hqual : Qualifies o d) (hs : SomeSelected qs d) (h : apply E dflt o d = .ok d') :
    EditedDoc TextOnly (selected qs d) d d' := by
  obtain ⟨hne, happ⟩ := apply_selected (E := E) (dflt := dflt) hq hd hqual hs
  obtain ⟨c, hc, hg, hn, hno⟩ := doc_root hd hne
  rw [happ] at h
  exact edited_doc hq hd.kind hc hg hn hno (C16_combine_changes_text_only E o ha d d' _ hd.decoded.wf h)

/-! ### Each selected node by itself -/

theorem foldlM_addrs {E : Sed} {o : Overlay} (ha : o.action ≠ .delete) (nodes : List Node) : ∀ root,
    doAction E o root nodes = (addrsOf nodes).foldlM (fun r a => modifyAt a (actOn E o) r) root := by
  have hf : ∀ r a, doOne E o r a = modifyAt a (actOn E o) r := by
    intro r a
    unfold doOne
    have : ∀ (f g : Node → Res Err Node), f = g → modifyAt a f r = modifyAt a g r := fun f g h => by rw [h]
    cases hact : o.action with
    | delete => exact absurd hact ha
    | replace => exact this _ _ (funext fun n => by simp only [actOn, hact])
    | combine => exact this _ _ (funext fun n => by simp only [actOn, hact])
    | merge => exact this _ _ (funext fun n => by simp only [actOn, hact])
    | invalid => exact this _ _ (funext fun n => by simp only [actOn, hact])
  unfold doAction addrsOf
  induction nodes with
  | nil => intro root; rfl
  | cons n ns ih =>
    intro root
    simp only [List.map_cons, List.foldlM_cons, hf]
    cases modifyAt n.hd.addr (actOn E o) root with
    | ok r => simp only [Res.bind_ok]; rw [← ih r]; simp only [hf]
    | err e => rfl
    | panic => rfl

theorem route_of_addr {t : Node} (hg : GoodTree t) {a : Nat} (h : a ∈ t.addrs) : ∃ r m, Route t r m ∧ m.hd.addr = a := by
  obtain ⟨m, h1, h2⟩ := (addrs_nodesOf t a).1 h
  obtain ⟨r, h3⟩ := (nodesOf_route t hg m).1 h1
  exact ⟨r, m, h3, h2⟩

/-- C75: merge, replace or combine with queries that each have at most one `..` and no repeated
names or elements, where no selected node lies inside another and none is selected by two
queries (with one query, there is nothing to say): the result is the document with the action done once on each selected
node by itself; if the overlay fails, the action fails on one of them. -/
theorem C75_each (E : Sed) (dflt : Str) (o : Overlay) (ha : o.action ≠ .delete) (qs : List (List PStep)) (hq : Queries o qs)
    (h1 : ∀ ss ∈ qs, Once ss) (d : Node) (hd : Doc d) (hqual : Qualifies o d) (hs : SomeSelected qs d)
    (hin : NoneInside qs d) (hsep : Separate qs d) :
    match apply E dflt o d with
    | .ok d' => EditedDoc (fun n n' => actOn E o n = .ok n') (selected qs d) d d'
    | .err e => ∃ c ∈ d.content, ∃ r m, Route c r m ∧ selected qs d r = true ∧ actOn E o m = .err e
    | .panic => ∃ c ∈ d.content, ∃ r m, Route c r m ∧ selected qs d r = true ∧ actOn E o m = .panic := by
  obtain ⟨hne, happ⟩ := apply_selected (E := E) (dflt := dflt) hq hd hqual hs
  obtain ⟨c, hc, hg, hn, hno⟩ := doc_root hd hne
  have hfind := findAll_steps hq hd.kind hc
  have hmem : ∀ a, a ∈ addrsOf (findAll o.query d) → ∃ r m, Route c r m ∧ selected qs d r = true ∧ m.hd.addr = a := by
    intro a h
    obtain ⟨m, h2, h3⟩ := List.mem_map.1 h
    obtain ⟨r, h4, h5⟩ := (matches_routes hq hd.kind hc hg m).1 h2
    exact ⟨r, m, h4, h5, h3⟩
  have haddr : ∀ a ∈ c.addrs, a ∈ d.addrs := by
    intro a h
    obtain ⟨hh, cs⟩ := d
    simp only [Node.content_mk] at hc
    subst hc
    rw [Node.addrs, addrss_eq]
    exact List.mem_cons_of_mem _ (List.mem_flatMap.2 ⟨c, by simp, h⟩)
  have h0 : 0 ∉ addrsOf (findAll o.query d) := by
    intro h
    obtain ⟨r, m, h2, _, h3⟩ := hmem 0 h
    exact hd.zero (haddr 0 (h3 ▸ route_addr h2 hg))
  have hnd : (addrsOf (findAll o.query d)).Nodup := by
    rw [hfind]
    refine List.pairwise_map.2 (List.pairwise_flatMap.2 ⟨fun ss hss => follows_nodup d ss c (h1 ss hss) hg hn, ?_⟩)
    refine List.Pairwise.imp ?_ hsep
    intro ss ss' hno x hx y hy hxy
    obtain ⟨r, h2, h3⟩ := (follows_route d ss c hg x).1 hx
    obtain ⟨r', h4, h5⟩ := (follows_route d ss' c hg y).1 hy
    obtain ⟨rfl, rfl⟩ := route_unique h2 hg hn h4 hxy
    rw [hno c (by rw [hc]; simp) r x h2 h3] at h5
    cases h5
  have hdis : LieApart (addrsOf (findAll o.query d)) d := by
    intro m hm hma b hb hbm
    rcases (nodesOf_mem m d).1 hm with rfl | ⟨c', hc', hm⟩
    · exact absurd hma (doc_not_match hq hd.kind hc hg hno)
    · rw [hc, List.mem_singleton] at hc'
      subst hc'
      obtain ⟨r, hr⟩ := (nodesOf_route c' hg m).1 hm
      obtain ⟨r', m', hr', hb'⟩ := route_of_addr (route_good hr hg) hbm
      have s1 := (matches_addrs hq hd.kind hc hg hn hr).1 hma
      have s2 := (matches_addrs hq hd.kind hc hg hn (route_append hr hr')).1 (by rw [hb']; exact hb)
      have := hin c' (by rw [hc]; simp) r (r ++ r') m m' hr (route_append hr hr') s1 s2 (List.prefix_append _ _)
      have hnil : r' = [] := by simpa using this
      subst hnil
      cases hr'
      exact hb'.symm
  obtain ⟨p1, p2, p3⟩ := edit_each (actOn_local E o) d _ h0 hnd hdis
  have back : ∀ m, m ∈ nodesOf d → m.hd.addr ∈ addrsOf (findAll o.query d) → ∃ c ∈ d.content, ∃ r, Route c r m ∧ selected qs d r = true := by
    intro m hm hma
    rcases (nodesOf_mem m d).1 hm with rfl | ⟨c', hc', hm⟩
    · exact absurd hma (doc_not_match hq hd.kind hc hg hno)
    · rw [hc, List.mem_singleton] at hc'
      subst hc'
      obtain ⟨r, hr⟩ := (nodesOf_route c' hg m).1 hm
      exact ⟨c', by rw [hc]; simp, r, hr, (matches_addrs hq hd.kind hc hg hn hr).1 hma⟩
  rw [happ, foldlM_addrs ha]
  cases hx : (addrsOf (findAll o.query d)).foldlM (fun r a => modifyAt a (actOn E o) r) d with
  | ok d' => exact edited_doc hq hd.kind hc hg hn hno (p1 d' hx)
  | err e =>
    obtain ⟨m, q1, q2, q3⟩ := p2 e hx
    obtain ⟨c, q4, r, q5, q6⟩ := back m q1 q2
    exact ⟨c, q4, r, m, q5, q6, q3⟩
  | panic =>
    obtain ⟨m, q1, q2, q3⟩ := p3 hx
    obtain ⟨c, q4, r, q5, q6⟩ := back m q1 q2
    exact ⟨c, q4, r, m, q5, q6, q3⟩

/-- C75: without `..` no selected node of a query lies inside another. -/
theorem C75_plain_queries (ss : List PStep) (h : descents ss = 0) (d : Node) : NoneInside [ss] d ∧ Separate [ss] d := by
  refine ⟨?_, List.pairwise_singleton _ _⟩
  intro c hc r r' _ _ _ _ h1 h2 h3
  unfold selected at h1 h2
  cases hd : d.content with
  | nil => rw [hd] at hc; simp at hc
  | cons x xs =>
    rw [hd] at h1 h2
    simp only [List.any_cons, List.any_nil, Bool.or_false] at h1 h2
    exact h3.eq_of_length ((selects_length d ss x r h h1).trans (selects_length d ss x r' h h2).symm)

/-! ### Nothing left -/

theorem cut_hd (sel : List Edge → Bool) (t : Node) : (cut sel t).hd = t.hd := by
  obtain ⟨h, cs⟩ := t
  rw [cut]
  split
  · rfl
  · split <;> rfl

theorem cut_noKey (k : Str) (t : Node) : ∀ sel : List Edge → Bool, GoodTree t → DistinctKeys t → (∀ r v, sel (r ++ [⟨.value k true, v⟩]) = true) →
    ∀ m ∈ nodesOf (cut sel t), m.hd.kind = .mapping → k ∉ keys m.content := by
  induction t using Node.ind with
  | h h cs ih =>
    intro sel hg hdk hsel m hm hkind
    have hchild : ∀ c ∈ cs, ∀ e, ∀ m ∈ nodesOf (cut (fun x => sel (e :: x)) c), m.hd.kind = .mapping → k ∉ keys m.content := by
      intro c hc e
      rw [DistinctKeys, DistinctKeyss_iff] at hdk
      exact ih c hc _ (good_child hg hc) (hdk.2 c hc) (fun r => hsel (e :: r))
    rw [DistinctKeys] at hdk
    rw [cut] at hm
    split at hm
    · rename_i hk
      replace hdk := hdk.1 hk
      have hns : ∀ x ∈ keys cs, x ∉ ([] : List Str) := by simp
      have hev : cs.length % 2 = 0 := good_even hg hk
      clear ih hg
      have key : k ∉ keys (cutEntries sel [] cs) ∧ ∀ c ∈ cutEntries sel [] cs, ∀ m ∈ nodesOf c, m.hd.kind = .mapping → k ∉ keys m.content := by
        clear hm
        generalize ([] : List Str) = seen at hns ⊢
        induction cs using pairInduction generalizing seen with
        | h0 => rw [cutEntries] <;> simp [keys, pairs]
        | h1 a => simp at hev
        | h2 a b cs ih2 =>
          rw [keys, pairs, List.map_cons, List.nodup_cons] at hdk
          have hns' : ∀ x ∈ keys cs, x ∉ a.hd.value :: seen := by
            intro x hx
            rw [List.mem_cons, not_or]
            refine ⟨?_, hns x (by rw [keys, pairs, List.map_cons]; exact List.mem_cons_of_mem _ hx)⟩
            rintro rfl
            exact hdk.1 hx
          obtain ⟨q1, q2⟩ := ih2 (fun c hc => hchild c (by simp [hc])) hdk.2 (by simp only [List.length_cons] at hev; omega) (a.hd.value :: seen) hns'
          rw [cutEntries]
          split
          · exact ⟨q1, q2⟩
          · rename_i hno
            have ha : a.hd.value ≠ k := by
              intro hak
              apply hno
              have hs' : a.hd.value ∉ seen := hns _ (by rw [keys, pairs]; simp)
              have := hsel [] b
              simp only [List.nil_append] at this
              rw [hak] at hs' ⊢
              simp [hs', this]
            refine ⟨?_, ?_⟩
            · rw [keys, pairs, List.map_cons, List.mem_cons, not_or]
              refine ⟨?_, q1⟩
              rw [cut_hd]
              exact fun h => ha h.symm
            · intro c hc
              rcases List.mem_cons.1 hc with rfl | hc
              · exact hchild a (by simp) _
              · rcases List.mem_cons.1 hc with rfl | hc
                · exact hchild b (by simp) _
                · exact q2 c hc
      rcases (nodesOf_mem _ _).1 hm with rfl | ⟨c, hc, hm⟩
      · exact key.1
      · exact key.2 c hc m hm hkind
    · rename_i hk
      split at hm
      · rename_i hk2
        have key : ∀ n i, ∀ c ∈ cutItems sel n i cs, ∀ m ∈ nodesOf c, m.hd.kind = .mapping → k ∉ keys m.content := by
          intro n
          clear hm hdk ih hg
          induction cs with
          | nil => intro i c hc; simp [cutItems] at hc
          | cons c cs ih2 =>
            intro i d hd
            rw [cutItems] at hd
            split at hd
            · exact ih2 (fun c hc => hchild c (by simp [hc])) _ d hd
            · rcases List.mem_cons.1 hd with rfl | hd
              · exact hchild c (by simp) _
              · exact ih2 (fun c hc => hchild c (by simp [hc])) _ d hd
        rcases (nodesOf_mem _ _).1 hm with rfl | ⟨c, hc, hm⟩
        · exact absurd hkind hk
        · exact key _ _ c hc m hm hkind
      · rename_i hk2
        have := good_leaf hg hk hk2
        simp only [Node.content_mk] at this
        subst this
        rcases (nodesOf_mem _ _).1 hm with rfl | ⟨c, hc, hm⟩
        · exact absurd hkind hk
        · simp at hc

/-- C75: after deleting `..k` no mapping of the document has the key `k`. -/
theorem C75_delete_anywhere (E : Sed) (dflt : Str) (o : Overlay) (ha : o.action = .delete) (qs : List (List PStep)) (hq : Queries o qs)
    (k : Str) (hk : [.anywhere, .child k] ∈ qs) (d : Node) (hd : Doc d) (hdk : DistinctKeys d) (hqual : Qualifies o d)
    (hs : SomeSelected qs d ∨ ¬ Injects dflt o.onMissing) :
    ∃ d', apply E dflt o d = .ok d' ∧ ∀ m ∈ nodesOf d', m.hd.kind = .mapping → k ∉ keys m.content := by
  refine ⟨_, C75_delete E dflt o ha qs hq d hd hqual hs, ?_⟩
  have hsel : d.content ≠ [] → ∀ r v, selected qs d (r ++ [⟨.value k true, v⟩]) = true := by
    intro hne r v
    unfold selected
    cases hc : d.content with
    | nil => exact absurd hc hne
    | cons c cs =>
      refine List.any_eq_true.2 ⟨_, hk, (selects_anywhere _ _ _ _).2 ⟨r, [⟨.value k true, v⟩], rfl, ?_⟩⟩
      simp [selects, PStep.along]
  have hkd := hd.kind
  by_cases hne : d.content = []
  · obtain ⟨h, cs⟩ := d
    simp only [Node.content_mk] at hne
    subst hne
    intro m hm hmk
    rcases (nodesOf_mem _ _).1 hm with rfl | ⟨c, hc, _⟩
    · simp only [cutDoc, Node.hd_mk] at hmk hkd; rw [hkd] at hmk; cases hmk
    · simp [cutDoc] at hc
  · obtain ⟨c, hc, hg, hn, hno⟩ := doc_root hd hne
    obtain ⟨h, cs⟩ := d
    simp only [Node.content_mk] at hc
    subst hc
    simp only [Node.hd_mk] at hkd
    intro m hm hmk
    rw [cutDoc] at hm
    split at hm
    · rcases (nodesOf_mem _ _).1 hm with rfl | ⟨c, hc, _⟩
      · simp only [Node.hd_mk] at hmk; rw [hkd] at hmk; cases hmk
      · simp at hc
    · rcases (nodesOf_mem _ _).1 hm with rfl | ⟨c', hc, hm⟩
      · simp only [Node.hd_mk] at hmk; rw [hkd] at hmk; cases hmk
      · simp only [Node.content_mk, List.mem_singleton] at hc
        subst hc
        rw [DistinctKeys, DistinctKeyss_iff] at hdk
        exact cut_noKey k c _ hg (hdk.2 c (by simp)) (hsel (by simp)) m hm hmk

/-! ### The documents and the queries meant -/

theorem allNodes_fresh {p : Hdr → Prop} (hp : ∀ h a, p { h with addr := a } ↔ p h) (t : Node) : AllNodes p t.fresh ↔ AllNodes p t := by
  induction t using Node.ind with
  | h h cs ih =>
    rw [fresh_mk, AllNodes, AllNodes, AllNodess_iff, AllNodess_iff]
    refine and_congr (hp h 0) ⟨fun hx c hc => (ih c hc).1 (hx _ (List.mem_map.2 ⟨c, hc, rfl⟩)), ?_⟩
    intro hx c hc
    obtain ⟨c', hc', rfl⟩ := List.mem_map.1 hc
    exact (ih c' hc').2 (hx c' hc')

/-- Any document is such a document, once it lies in memory (`applyJob` is `apply` there). -/
theorem C75_any_document (d : Node) (hk : d.hd.kind = .document) (hw : WellFormed d) (hn : NilOk d) (h1 : d.content.length ≤ 1)
    (hr : ∀ c ∈ d.content, NoDocs c) : Doc d.label := by
  refine ⟨by rw [label_hd_kind]; exact hk, ⟨label_wf d hw, label_nilOk d hn, label_nodup d⟩, label_ne_zero d, ?_, ?_⟩
  · rw [label_length]; exact h1
  · intro c hc
    have hf := congrArg Node.content (label_fresh d)
    have e : ∀ t : Node, t.fresh.content = t.content.map Node.fresh := fun t => by obtain ⟨h, cs⟩ := t; rw [fresh_mk]; rfl
    rw [e, e] at hf
    have : c.fresh ∈ d.content.map Node.fresh := hf ▸ List.mem_map.2 ⟨c, hc, rfl⟩
    obtain ⟨c', hc', he⟩ := List.mem_map.1 this
    have := (allNodes_fresh (p := fun h => h.kind ≠ .document) (fun _ _ => Iff.rfl) c').2 (hr c' hc')
    rw [he] at this
    exact (allNodes_fresh (p := fun h => h.kind ≠ .document) (fun _ _ => Iff.rfl) c).1 this

/-- Paths of names are such queries. -/
theorem C75_names (ks : List Str) : findSteps (ks.map .child) = findNames ks := by
  have h : ∀ root t, follows root (ks.map .child) t = walk ks t := by
    intro root
    induction ks with
    | nil => intro t; rfl
    | cons k ks ih =>
      intro t
      rw [List.map_cons, follows, walk, PStep.go]
      have he : (entryOf t k).map (·.2) = (firstAt k (entriesOf t)).toList := by
        unfold entryOf
        generalize entriesOf t = l
        induction l with
        | nil => rfl
        | cons e l ih2 =>
          rw [firstAt, List.find?_cons]
          by_cases hk : e.1.hd.value = k <;> simp [hk, ih2]
      simp only [List.flatMap_cons, List.flatMap_nil, List.append_nil, he]
      cases firstAt k (entriesOf t) with
      | none => rfl
      | some v => simp [ih]
  funext d
  unfold findSteps findNames
  rw [h d d]
  split
  · cases d.content with
    | nil => rfl
    | cons c cs => exact h d c
  · rfl

theorem nodesOf_rename (ρ : Nat → Nat) (t : Node) : nodesOf (rename ρ t) = (nodesOf t).map (rename ρ) := by
  induction t using Node.ind with
  | h h cs ih =>
    rw [rename_mk, nodesOf, nodesOf, List.map_cons, rename_mk, nodesOfs_eq, nodesOfs_eq]
    congr 1
    clear h
    induction cs with
    | nil => rfl
    | cons c cs ih2 =>
      rw [List.map_cons, List.flatMap_cons, List.flatMap_cons, List.map_append, ih c (by simp), ih2 (fun c hc => ih c (by simp [hc]))]

theorem entryOf_rename (ρ : Nat → Nat) (t : Node) (k : Str) :
    entryOf (rename ρ t) k = (entryOf t k).map (fun e => (rename ρ e.1, rename ρ e.2)) := by
  have hk : (rename ρ t).hd.kind = t.hd.kind := by rw [rename_hd]; rfl
  have : entriesOf (rename ρ t) = (entriesOf t).map (fun e => (rename ρ e.1, rename ρ e.2)) := by
    unfold entriesOf
    rw [hk, rename_content, pairs_rename]
    split_ifs <;> rfl
  unfold entryOf
  rw [this]
  generalize entriesOf t = l
  induction l with
  | nil => rfl
  | cons e l ih =>
    rw [List.map_cons, List.find?_cons, List.find?_cons]
    have : (rename ρ e.1).hd.value = e.1.hd.value := by rw [rename_hd]; rfl
    simp only [this]
    split
    · rfl
    · exact ih

theorem childValues_rename (ρ : Nat → Nat) (t : Node) : childValues (rename ρ t) = (childValues t).map (rename ρ) := by
  have hk : (rename ρ t).hd.kind = t.hd.kind := by rw [rename_hd]; rfl
  unfold childValues
  rw [hk, rename_content, pairs_rename]
  split_ifs <;> simp

theorem go_rename (ρ : Nat → Nat) (root : Node) (s : PStep) (t : Node) : s.go (rename ρ root) (rename ρ t) = (s.go root t).map (rename ρ) := by
  have hk : (rename ρ t).hd.kind = t.hd.kind := by rw [rename_hd]; rfl
  cases s with
  | anywhere => exact nodesOf_rename ρ t
  | names ks =>
    simp only [PStep.go, entryOf_rename, List.map_map, List.map_flatMap]
    rfl
  | keysOf ks =>
    simp only [PStep.go, entryOf_rename, List.map_map, List.map_flatMap]
    rfl
  | all => exact childValues_rename ρ t
  | allKeys =>
    rw [PStep.go, PStep.go]
    unfold entriesOf
    rw [hk, rename_content, pairs_rename]
    split_ifs
    · simp
    · rfl
  | items l =>
    simp only [PStep.go]
    rw [hk, rename_content, List.length_map]
    split
    · rw [List.map_flatMap]
      refine List.flatMap_congr (fun p _ => ?_)
      rw [List.map_filterMap]
      congr 1
      funext j
      rw [List.getElem?_map]
    · rfl
  | filter p =>
    rw [PStep.go, PStep.go, childValues_rename, List.filter_map, fresh_rename]
    congr 1
    refine List.filter_congr (fun c _ => ?_)
    simp only [Function.comp_apply, fresh_rename]
  | test p =>
    rw [PStep.go, PStep.go, fresh_rename, fresh_rename]
    split <;> rfl

theorem follows_rename (ρ : Nat → Nat) (root : Node) (ss : List PStep) : ∀ t,
    follows (rename ρ root) ss (rename ρ t) = (follows root ss t).map (rename ρ) := by
  induction ss with
  | nil => intro t; rfl
  | cons s ss ih =>
    intro t
    rw [follows, follows, go_rename, List.flatMap_map, List.map_flatMap]
    exact List.flatMap_congr (fun c _ => ih c)

theorem follows_in (root : Node) (ss : List PStep) : ∀ t, ∀ m ∈ follows root ss t, m.hd.addr ∈ t.addrs := by
  induction ss with
  | nil => intro t m hm; rw [follows, List.mem_singleton] at hm; subst hm; exact root_mem_addrs m
  | cons s ss ih =>
    intro t m hm
    rw [follows, List.mem_flatMap] at hm
    obtain ⟨c, hc, hm⟩ := hm
    by_cases hs : PStep.goesDown s = true
    · exact mem_addrs_child (go_mem hs hc) (ih c m hm)
    · cases s with
      | anywhere =>
        have h1 := ih c m hm
        clear hm ih
        change c ∈ nodesOf t at hc
        induction t using Node.ind with
        | h h cs ih =>
          rcases (nodesOf_mem _ _).1 hc with rfl | ⟨d, hd, hc⟩
          · exact h1
          · exact mem_addrs_child (t := .mk h cs) hd (ih d hd hc)
      | test p =>
        rw [PStep.go] at hc
        split at hc
        · rw [List.mem_singleton] at hc; subst hc; exact ih c m hm
        · simp at hc
      | _ => simp [PStep.goesDown] at hs

/-- What C52 and C53 ask of searches holds of these. -/
theorem C75_searchable (s : Str) (ss : List PStep) : AnyPlace ⟨s, findSteps ss⟩ ∧ InTree ⟨s, findSteps ss⟩ := by
  constructor
  · intro ρ t _ _
    show findSteps ss (rename ρ t) = (findSteps ss t).map (rename ρ)
    unfold findSteps
    have hk : (rename ρ t).hd.kind = t.hd.kind := by rw [rename_hd]; rfl
    rw [hk, rename_content]
    split_ifs
    · cases t.content with
      | nil => rfl
      | cons c cs => exact follows_rename ρ t ss c
    · exact follows_rename ρ t ss t
  · intro t m hm
    change m ∈ findSteps ss t at hm
    unfold findSteps at hm
    split_ifs at hm
    · cases hc : t.content with
      | nil => rw [hc] at hm; simp at hm
      | cons c cs =>
        rw [hc] at hm
        exact mem_addrs_child (by rw [hc]; simp) (follows_in t ss c m hm)
    · exact follows_in t ss t m hm

/-! ### Examples -/

/-- A document with containers in two places. -/
def exDoc : Node := (dc (mp [sc c!"spec", mp [sc c!"containers", sq [mp [sc c!"name", sc c!"a", sc c!"image", sc c!"x"], mp [sc c!"name", sc c!"b", sc c!"image", sc c!"y"]]],
  sc c!"image", sc c!"z"])).label

/-- An overlay with one such query. -/
def exOverlay (a : Action) (ss : List PStep) (v : Node) : Overlay := { query := [⟨c!"q", findSteps ss⟩], action := a, value := v }

example : Doc exDoc ∧ DistinctKeys exDoc ∧ (∀ a ss v, Queries (exOverlay a ss v) [ss]) := by
  refine ⟨C75_any_document _ rfl ?_ ?_ (by decide) ?_, ?_, fun _ _ _ => rfl⟩
  · simp [Ex.dc, Ex.mp, Ex.sq, Ex.sc, WellFormed, WellFormeds, Shaped]
  · simp [Ex.dc, Ex.mp, Ex.sq, Ex.sc, NilOk, NilOks]
  · simp [Ex.dc, Ex.mp, Ex.sq, Ex.sc, NoDocs, AllNodes, AllNodess]
  · simp [exDoc, Node.label, Node.labelFrom, Node.labelsFrom, Ex.dc, Ex.mp, Ex.sq, Ex.sc, DistinctKeys, DistinctKeyss, keys, pairs]

/-- `spec.containers[*].image` -/
def exQuery : List PStep := [.child c!"spec", .child c!"containers", .all, .child c!"image"]

-- the conditions of C75_each: `spec.containers[*].image` and `image`
example : (∀ ss ∈ [exQuery, [.child c!"image"]], Once ss) ∧ SomeSelected [exQuery, [.child c!"image"]] exDoc ∧
    NoneInside [exQuery, [.child c!"image"]] exDoc ∧ Separate [exQuery, [.child c!"image"]] exDoc := by
  have first : ∀ {c r k ss}, selects exDoc (.child k :: ss) c r = true → ∃ v r', r = ⟨.value k true, v⟩ :: r' ∧ selects exDoc ss v r' = true := by
    intro c r k ss h
    obtain ⟨⟨how, v⟩, r', rfl, h1, h2⟩ := (selects_cons exDoc (.child k) rfl ss c r).1 h
    rcases how with ⟨k', _ | _⟩ | ⟨k', b⟩ | ⟨j, n⟩ <;> try (simp [PStep.along] at h1; done)
    simp only [PStep.along, List.mem_singleton, decide_eq_true_eq] at h1
    subst h1
    exact ⟨v, r', rfl, h2⟩
  have apart : ∀ {c r r'}, selects exDoc exQuery c r = true → selects exDoc [.child c!"image"] c r' = true → ¬ r <+: r' ∧ ¬ r' <+: r := by
    intro c r r' h h'
    obtain ⟨v, s, rfl, _⟩ := first h
    obtain ⟨v', s', rfl, _⟩ := first h'
    simp [List.cons_prefix_cons]
  refine ⟨?_, ?_, ?_, ?_⟩
  · intro ss hss
    simp only [List.mem_cons, List.not_mem_nil, or_false] at hss
    rcases hss with rfl | rfl
    · refine ⟨by decide, fun s hs => ?_⟩
      simp only [exQuery, List.mem_cons, List.not_mem_nil, or_false] at hs
      rcases hs with rfl | rfl | rfl | rfl <;> simp [PStep.Plain]
    · exact ⟨by decide, fun s hs => by simp only [List.mem_singleton] at hs; subst hs; simp [PStep.Plain]⟩
  · have hd : Doc exDoc := C75_any_document _ rfl (by simp [Ex.dc, Ex.mp, Ex.sq, Ex.sc, WellFormed, WellFormeds, Shaped])
      (by simp [Ex.dc, Ex.mp, Ex.sq, Ex.sc, NilOk, NilOks]) (by decide) (by simp [Ex.dc, Ex.mp, Ex.sq, Ex.sc, NoDocs, AllNodes, AllNodess])
    have hq : Queries { exOverlay .merge exQuery (sc []) with query := [⟨c!"q", findSteps exQuery⟩, ⟨c!"r", findSteps [.child c!"image"]⟩] }
        [exQuery, [.child c!"image"]] := rfl
    refine (some_selected hq hd).2 ?_
    have hne : (findSteps exQuery exDoc).isEmpty = false := by decide
    cases hf : findSteps exQuery exDoc with
    | nil => rw [hf] at hne; cases hne
    | cons m ms => exact ⟨m, by simp [exDoc, Node.label, Node.labelFrom, Node.labelsFrom, Ex.dc], _, List.mem_cons_self, by show m ∈ findSteps exQuery exDoc; rw [hf]; simp⟩
  · intro c hc r r' m m' hr hr' h1 h2 h3
    have p1 := C75_plain_queries exQuery rfl exDoc
    have p2 := C75_plain_queries [.child c!"image"] rfl exDoc
    have e : ∀ r, selected [exQuery, [.child c!"image"]] exDoc r = true ↔ selected [exQuery] exDoc r = true ∨ selected [[.child c!"image"]] exDoc r = true := by
      intro r
      unfold selected
      cases exDoc.content <;> simp
    rcases (e r).1 h1 with g1 | g1 <;> rcases (e r').1 h2 with g2 | g2
    · exact p1.1 c hc r r' m m' hr hr' g1 g2 h3
    · exfalso
      unfold selected at g1 g2
      cases hx : exDoc.content with
      | nil => rw [hx] at hc; simp at hc
      | cons x xs =>
        rw [hx] at g1 g2
        simp only [List.any_cons, List.any_nil, Bool.or_false] at g1 g2
        exact (apart g1 g2).1 h3
    · exfalso
      unfold selected at g1 g2
      cases hx : exDoc.content with
      | nil => rw [hx] at hc; simp at hc
      | cons x xs =>
        rw [hx] at g1 g2
        simp only [List.any_cons, List.any_nil, Bool.or_false] at g1 g2
        exact (apart g2 g1).2 h3
    · exact p2.1 c hc r r' m m' hr hr' g1 g2 h3
  · refine List.pairwise_cons.2 ⟨?_, List.pairwise_singleton _ _⟩
    intro ss hss c _ r m _ h1
    rw [List.mem_singleton] at hss
    subst hss
    cases h : selects exDoc [.child c!"image"] c r with
    | false => rfl
    | true => exact absurd (List.prefix_refl r) (apart h1 h).1

-- `..image` deleted; `..containers[-1]` deleted; `$.spec.containers[*].image` replaced
example :
    tree (apply noSed [] (exOverlay .delete [.anywhere, .child c!"image"] (sc [])) exDoc) =
      some (dc (mp [sc c!"spec", mp [sc c!"containers", sq [mp [sc c!"name", sc c!"a"], mp [sc c!"name", sc c!"b"]]]])) ∧
    tree (apply noSed [] (exOverlay .delete [.anywhere, .child c!"containers", .item (-1)] (sc [])) exDoc) =
      some (dc (mp [sc c!"spec", mp [sc c!"containers", sq [mp [sc c!"name", sc c!"a", sc c!"image", sc c!"x"]]], sc c!"image", sc c!"z"])) ∧
    tree (apply noSed [] (exOverlay .replace [.child c!"spec", .child c!"containers", .all, .child c!"image"] (sc c!"new")) exDoc) =
      some (dc (mp [sc c!"spec", mp [sc c!"containers", sq [mp [sc c!"name", sc c!"a", sc c!"image", sc c!"new"], mp [sc c!"name", sc c!"b", sc c!"image", sc c!"new"]]],
        sc c!"image", sc c!"z"])) := by decide +kernel

/-- The filter `@.name == "b"`. -/
def isB (_ n : Node) : Bool := (entryOf n c!"name").any (fun e => e.2.hd.value = c!"b")
/-- The filter `@ == "x"`. -/
def isX (_ n : Node) : Bool := n.hd.kind = .scalar && n.hd.value = c!"x"
/-- The filter `$.image == "z"`, on the whole document. -/
def rootZ (d _ : Node) : Bool := d.content.any (fun c => (entryOf c c!"image").any (fun e => e.2.hd.value = c!"z"))

example : Once [.anywhere, .filter isB, .names [c!"name", c!"image"]] ∧ Once [.anywhere, .items [.one 0, .slice (some 1) none 2]] ∧
    descents [.anywhere, .filter isB] = 1 := by
  refine ⟨⟨by decide, ?_⟩, ⟨by decide, ?_⟩, rfl⟩
  · intro s hs
    simp only [List.mem_cons, List.not_mem_nil, or_false] at hs
    rcases hs with rfl | rfl | rfl <;> simp only [PStep.Plain]
    decide
  · intro s hs
    simp only [List.mem_cons, List.not_mem_nil, or_false] at hs
    rcases hs with rfl | rfl <;> simp only [PStep.Plain, PickedOnce, List.pairwise_cons, List.mem_singleton, forall_eq, List.not_mem_nil,
      false_imp_iff, implies_true, List.Pairwise.nil, and_true]
    intro n j _ h
    have : (j : Int) = 0 := by simpa [Pick.has, fromEnd, eq_comm] using h
    simp [Pick.has, fromEnd, this]
    intro h; exact absurd h (by decide)

-- `spec.containers[?(@.name == "b")]` deleted; `..*[?(@ == "x")]` replaced; `[?($.image == "z")]` replaced;
-- `spec.containers[*].name~` replaced (the keys are renamed); `spec.containers[::-1]['name','image']` replaced
example :
    tree (apply noSed [] (exOverlay .delete [.child c!"spec", .child c!"containers", .filter isB] (sc [])) exDoc) =
      some (dc (mp [sc c!"spec", mp [sc c!"containers", sq [mp [sc c!"name", sc c!"a", sc c!"image", sc c!"x"]]], sc c!"image", sc c!"z"])) ∧
    tree (apply noSed [] (exOverlay .replace [.anywhere, .all, .test isX] (sc c!"new")) exDoc) =
      some (dc (mp [sc c!"spec", mp [sc c!"containers", sq [mp [sc c!"name", sc c!"a", sc c!"image", sc c!"new"], mp [sc c!"name", sc c!"b", sc c!"image", sc c!"y"]]],
        sc c!"image", sc c!"z"])) ∧
    tree (apply noSed [] (exOverlay .replace [.filter rootZ] (sc c!"n")) exDoc) = some (dc (mp [sc c!"spec", sc c!"n", sc c!"image", sc c!"n"])) ∧
    tree (apply noSed [] (exOverlay .replace [.child c!"spec", .child c!"containers", .all, .key c!"name"] (sc c!"id")) exDoc) =
      some (dc (mp [sc c!"spec", mp [sc c!"containers", sq [mp [sc c!"id", sc c!"a", sc c!"image", sc c!"x"], mp [sc c!"id", sc c!"b", sc c!"image", sc c!"y"]]],
        sc c!"image", sc c!"z"])) ∧
    tree (apply noSed [] (exOverlay .replace [.child c!"spec", .child c!"containers", .items [.slice none none (-1)], .names [c!"name", c!"image"]] (sc c!"v")) exDoc) =
      some (dc (mp [sc c!"spec", mp [sc c!"containers", sq [mp [sc c!"name", sc c!"v", sc c!"image", sc c!"v"], mp [sc c!"name", sc c!"v", sc c!"image", sc c!"v"]]],
        sc c!"image", sc c!"z"])) := by decide +kernel

-- slices of a list of six: `[1:4]`, `[-2:]`, `[::2]`, `[::-2]`, `[4:1:-1]`, `[:-4]`
example : (Pick.slice (some 1) (some 4) 1).numbers 6 = [1, 2, 3] ∧ (Pick.slice (some (-2)) none 1).numbers 6 = [4, 5] ∧
    (Pick.slice none none 2).numbers 6 = [0, 2, 4] ∧ (Pick.slice none none (-2)).numbers 6 = [5, 3, 1] ∧
    (Pick.slice (some 4) (some 1) (-1)).numbers 6 = [4, 3, 2] ∧ (Pick.slice none (some (-4)) 1).numbers 6 = [0, 1] := by decide

end Yot
