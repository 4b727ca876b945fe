import Verif.Lemmas.Overlap
import Verif.Props.JsonPath
import Verif.Props.Combine
/-
C94: places that several queries of an overlay find, or one query several times.
-/
namespace Yot
open Spec Ex

/-! ### How often a place is found -/

theorem count_found (qs : List Query) (d : Node) (a : Nat) (h : ¬ (d.hd.kind = .document ∧ d.content = [])) :
    (addrsOf (findAll qs d)).count a = howOften qs d a := by
  unfold addrsOf findAll howOften
  rw [if_neg (by simpa using h)]
  induction qs with
  | nil => rfl
  | cons q qs ih =>
    simp only [List.flatMap_cons, List.map_append, List.count_append, List.map_cons, List.sum_cons, ih]
    congr 1
    generalize q.find d = l
    clear ih
    induction l with
    | nil => rfl
    | cons m l ih =>
      by_cases hm : m.hd.addr = a
      · simp only [List.map_cons, hm, List.count_cons_self, ih, List.filter_cons, decide_true, if_true, List.length_cons]
      · rw [List.map_cons, List.count_cons_of_ne hm, ih, List.filter_cons, if_neg (by simpa using hm)]

theorem found_iff (qs : List Query) (d : Node) (a : Nat) : a ∈ addrsOf (findAll qs d) ↔ Found qs d a := by
  unfold addrsOf Found
  rw [List.mem_map]
  exact exists_congr fun m => and_congr_left fun _ => mem_findAll qs d m

theorem apply_found {E : Sed} {dflt : Str} {o : Overlay} {d : Node} (hqual : Qualifies o d) (hs : ∃ m, Matches o.query d m) :
    ¬ (d.hd.kind = .document ∧ d.content = []) ∧ apply E dflt o d = doAction E o d (findAll o.query d) := by
  obtain ⟨m, hm⟩ := hs
  refine ⟨hm.1, ?_⟩
  have hmem := (mem_findAll _ _ _).2 hm
  unfold apply
  have hcq : checkQueries o.documentQuery d = true := (checkQueries_iff _ _).2 hqual
  rw [hcq]
  simp only [Bool.not_true, Bool.false_eq_true, if_false]
  rw [if_neg]
  simp only [List.isEmpty_iff]
  exact List.ne_nil_of_mem hmem

theorem actOn_keeps (E : Sed) (o : Overlay) : KeepsAddr (actOn E o) := by
  intro n n' h
  exact editNode_keepAddr (E := E) (a := o.action) (v := o.value) (n := n) (by unfold editNode; exact h)

theorem apart_within {qs : List Query} {d : Node} (h : NoneWithin qs d) : LieApart (addrsOf (findAll qs d)) d := by
  intro m hm hma b hb hbm
  exact h m hm ((found_iff _ _ _).1 hma) b hbm ((found_iff _ _ _).1 hb)

theorem found_zero {qs : List Query} (hq : ∀ q ∈ qs, InTree q) {d : Node} (h0 : 0 ∉ d.addrs) : 0 ∉ addrsOf (findAll qs d) := by
  intro h
  obtain ⟨m, hm, ha⟩ := (found_iff _ _ _).1 h
  obtain ⟨q, h1, h2⟩ := hm.2
  exact h0 (ha ▸ hq q h1 d m h2)

/-- **C94**: merge, replace or combine where no node found lies inside another: on each node
found the action is done by itself, as many times as the queries, all together, find it; if the
overlay fails, it does on one of them.  It does not matter in which order they are found. -/
theorem C94_each (E : Sed) (dflt : Str) (o : Overlay) (ha : o.action ≠ .delete) (hq : ∀ q ∈ o.query, InTree q)
    (d : Node) (h0 : 0 ∉ d.addrs) (hqual : Qualifies o d) (hs : ∃ m, Matches o.query d m) (hin : NoneWithin o.query d) :
    match apply E dflt o d with
    | .ok d' => EditedAt (Found o.query d) (fun n n' => times (actOn E o) (howOften o.query d n.hd.addr) n = .ok n') d d'
    | .err e => ∃ m ∈ nodesOf d, Found o.query d m.hd.addr ∧ times (actOn E o) (howOften o.query d m.hd.addr) m = .err e
    | .panic => ∃ m ∈ nodesOf d, Found o.query d m.hd.addr ∧ times (actOn E o) (howOften o.query d m.hd.addr) m = .panic := by
  obtain ⟨hne, happ⟩ := apply_found (E := E) (dflt := dflt) hqual hs
  obtain ⟨p1, p2, p3⟩ := edit_all (actOn_local E o) (actOn_keeps E o) d (addrsOf (findAll o.query d)) (found_zero hq h0) (apart_within hin)
  rw [happ, foldlM_addrs ha]
  cases hx : (addrsOf (findAll o.query d)).foldlM (fun r a => modifyAt a (actOn E o) r) d with
  | ok d' =>
    refine editedAt_congr (found_iff _ _) (editedAt_imp d d' ?_ (p1 d' hx))
    intro n _ n' h
    rw [← count_found _ _ _ hne]
    exact h
  | err e =>
    obtain ⟨m, h1, h2, h3⟩ := p2 e hx
    exact ⟨m, h1, (found_iff _ _ _).1 h2, by rw [← count_found _ _ _ hne]; exact h3⟩
  | panic =>
    obtain ⟨m, h1, h2, h3⟩ := p3 hx
    exact ⟨m, h1, (found_iff _ _ _).1 h2, by rw [← count_found _ _ _ hne]; exact h3⟩

/-- Two overlays that make the same of each node they find. -/
theorem same_outcome {E : Sed} {dflt : Str} {o o' : Overlay} (ha : o.action ≠ .delete) (ho : o' = { o with query := o'.query })
    (hq : ∀ q ∈ o.query, InTree q) (hq' : ∀ q ∈ o'.query, InTree q) {d : Node} (hn : d.addrs.Nodup) (h0 : 0 ∉ d.addrs)
    (hqual : Qualifies o d) (hs : ∃ m, Matches o.query d m) (hin : NoneWithin o.query d)
    (hf : ∀ a, Found o.query d a ↔ Found o'.query d a)
    (hsame : ∀ n ∈ nodesOf d, Found o.query d n.hd.addr → ∀ n', times (actOn E o) (howOften o.query d n.hd.addr) n = .ok n' ↔
      times (actOn E o) (howOften o'.query d n.hd.addr) n = .ok n') (d' : Node) (h : apply E dflt o d = .ok d') :
    apply E dflt o' d = .ok d' := by
  have hact : o'.action = o.action := by rw [ho]
  have hactOn : actOn E o' = actOn E o := by rw [ho]; rfl
  have hs' : ∃ m, Matches o'.query d m := by
    obtain ⟨m, hm⟩ := hs
    obtain ⟨m', hm', _⟩ := (hf m.hd.addr).1 ⟨m, hm, rfl⟩
    exact ⟨m', hm'⟩
  have hqual' : Qualifies o' d := by rw [ho]; exact hqual
  have hin' : NoneWithin o'.query d := fun m hm h1 b hb h2 => hin m hm ((hf _).2 h1) b hb ((hf _).2 h2)
  have r1 := C94_each E dflt o ha hq d h0 hqual hs hin
  rw [h] at r1
  have r2 := C94_each E dflt o' (hact ▸ ha) hq' d h0 hqual' hs' hin'
  have acts : ∀ m ∈ nodesOf d, Found o'.query d m.hd.addr → ∃ m', times (actOn E o) (howOften o'.query d m.hd.addr) m = .ok m' := by
    intro m hm hfm
    have hfm' := (hf _).2 hfm
    obtain ⟨m', hm'⟩ := editedAt_acts (as := addrsOf (findAll o.query d)) d hn d' (apart_within hin)
      (editedAt_congr (fun a => (found_iff _ _ a).symm) r1) m hm ((found_iff _ _ _).2 hfm')
    exact ⟨m', (hsame m hm hfm' m').1 hm'⟩
  rw [hactOn] at r2
  cases hx : apply E dflt o' d with
  | ok x =>
    rw [hx] at r2
    dsimp only at r1 r2
    congr 1
    have r1' : EditedAt (Found o'.query d) (fun n n' => times (actOn E o) (howOften o'.query d n.hd.addr) n = .ok n' ) d d' := by
      refine editedAt_congr hf ?_
      clear acts r2 hx hin hin' h hs hs' hqual hqual' h0 hn
      have : ∀ t, (∀ n ∈ nodesOf t, n ∈ nodesOf d) → ∀ t', EditedAt (Found o.query d) (fun n n' => times (actOn E o) (howOften o.query d n.hd.addr) n = .ok n') t t' →
          EditedAt (Found o.query d) (fun n n' => times (actOn E o) (howOften o'.query d n.hd.addr) n = .ok n') t t' := by
        intro t
        induction t using Node.ind with
        | h h cs ih =>
          intro hsub t' hed
          rw [editedAt_mk] at hed ⊢
          rcases hed with ⟨hm, hp⟩ | ⟨hno, hh, hF⟩
          · exact .inl ⟨hm, (hsame _ (hsub _ (nodesOf_self _)) hm t').1 hp⟩
          · refine .inr ⟨hno, hh, ?_⟩
            have hsub' : ∀ c ∈ cs, ∀ n ∈ nodesOf c, n ∈ nodesOf d := fun c hc n hn => hsub n (nodesOf_child (by simpa using hc) hn)
            simp only [Node.content_mk] at hF ⊢
            clear hno hh hsub
            generalize t'.content = ds' at hF ⊢
            induction hF with
            | nil => exact .nil
            | @cons c c' cs ds h1 _ ih2 =>
              exact .cons (ih c (by simp) (hsub' c (by simp)) c' h1) (ih2 (fun c hc => ih c (by simp [hc])) (fun c hc => hsub' c (by simp [hc])))
      exact this d (fun n hn => hn) d' r1
    refine editedAt_fun ?_ d x d' r2 r1'
    intro n x y hx hy
    rw [hx] at hy
    exact Res.ok.inj hy
  | err e =>
    rw [hx] at r2
    obtain ⟨m, h1, h2, h3⟩ := r2
    obtain ⟨m', h4⟩ := acts m h1 h2
    rw [h4] at h3; cases h3
  | panic =>
    rw [hx] at r2
    obtain ⟨m, h1, h2, h3⟩ := r2
    obtain ⟨m', h4⟩ := acts m h1 h2
    rw [h4] at h3; cases h3

/-- **C94**: where no node found lies inside another, the outcome does not depend on the order
of the queries, nor on which of them finds a node, only on how often each node is found. -/
theorem C94_order (E : Sed) (dflt : Str) (o o' : Overlay) (ha : o.action ≠ .delete) (ho : o' = { o with query := o'.query })
    (hq : ∀ q ∈ o.query, InTree q) (hq' : ∀ q ∈ o'.query, InTree q) (d : Node) (hn : d.addrs.Nodup) (h0 : 0 ∉ d.addrs)
    (hqual : Qualifies o d) (hs : ∃ m, Matches o.query d m) (hin : NoneWithin o.query d)
    (hc : ∀ a, howOften o.query d a = howOften o'.query d a) (d' : Node) :
    apply E dflt o d = .ok d' ↔ apply E dflt o' d = .ok d' := by
  have hne := hs.choose_spec.1
  have hf : ∀ a, Found o.query d a ↔ Found o'.query d a := by
    intro a
    rw [← found_iff, ← found_iff, ← List.count_pos_iff, ← List.count_pos_iff, count_found _ _ _ hne, count_found _ _ _ hne, hc]
  have hs' : ∃ m, Matches o'.query d m := by
    obtain ⟨m, hm⟩ := hs
    obtain ⟨m', hm', _⟩ := (hf m.hd.addr).1 ⟨m, hm, rfl⟩
    exact ⟨m', hm'⟩
  constructor
  · exact same_outcome ha ho hq hq' hn h0 hqual hs hin hf (fun n _ _ n' => by rw [hc]) d'
  · refine same_outcome (by rw [ho]; exact ha) ?_ hq' hq hn h0 (by rw [ho]; exact hqual) hs'
      (fun m hm h1 b hb h2 => hin m hm ((hf _).2 h1) b hb ((hf _).2 h2)) (fun a => (hf a).symm) (fun n _ _ n' => by rw [hc]) d'
    rw [ho]

theorem times_once {f : Node → Res Err Node} {n : Node} (hid : ∀ n', f n = .ok n' → f n' = .ok n') (k : Nat) (hk : 0 < k) (n' : Node) :
    times f k n = .ok n' ↔ f n = .ok n' := by
  obtain ⟨k, rfl⟩ : ∃ j, k = j + 1 := ⟨k - 1, by omega⟩
  have stay : ∀ j x, f x = .ok x → times f j x = .ok x := by
    intro j
    induction j with
    | zero => intro x _; rfl
    | succ j ih => intro x hx; rw [times, hx]; exact ih x hx
  rw [times]
  cases h : f n with
  | ok x =>
    simp only [Res.bind_ok, Res.ok.injEq]
    rw [stay k x (hid x h)]
    simp
  | err e => simp
  | panic => simp

theorem wf_nodesOf (t : Node) : WellFormed t → ∀ m ∈ nodesOf t, WellFormed m := by
  induction t using Node.ind with
  | h h cs ih =>
    intro hw m hm
    rcases (nodesOf_mem m _).1 hm with rfl | ⟨c, hc, hm⟩
    · exact hw
    · rw [wf_mk] at hw
      simp only [Node.content_mk] at hc
      exact ih c hc (hw.2 c hc) m hm

theorem same_places {qs qs' : List Query} {d : Node} (h : SamePlaces qs qs' d) (a : Nat) : Found qs d a ↔ Found qs' d a :=
  exists_congr fun m => and_congr_left fun _ => h m

/-- If doing the action again changes nothing, it does not matter how often a place is found. -/
theorem once_enough (E : Sed) (dflt : Str) (o o' : Overlay) (ha : o.action ≠ .delete) (ho : o' = { o with query := o'.query })
    (hid : ∀ n n', WellFormed n → actOn E o n = .ok n' → actOn E o n' = .ok n')
    (hq : ∀ q ∈ o.query, InTree q) (hq' : ∀ q ∈ o'.query, InTree q) (d : Node) (hw : WellFormed d) (hn : d.addrs.Nodup) (h0 : 0 ∉ d.addrs)
    (hqual : Qualifies o d) (hs : ∃ m, Matches o.query d m) (hin : NoneWithin o.query d)
    (hc : SamePlaces o.query o'.query d) (d' : Node) :
    apply E dflt o d = .ok d' ↔ apply E dflt o' d = .ok d' := by
  have hne := hs.choose_spec.1
  have hf := same_places hc
  have hs' : ∃ m, Matches o'.query d m := by
    obtain ⟨m, hm⟩ := hs
    exact ⟨m, (hc m).1 hm⟩
  have pos : ∀ qs a, Found qs d a → 0 < howOften qs d a := by
    intro qs a h
    rw [← count_found _ _ _ hne]
    exact List.count_pos_iff.2 ((found_iff _ _ _).2 h)
  have hsame : ∀ n ∈ nodesOf d, Found o.query d n.hd.addr → ∀ n', times (actOn E o) (howOften o.query d n.hd.addr) n = .ok n' ↔
      times (actOn E o) (howOften o'.query d n.hd.addr) n = .ok n' := by
    intro n hm hfn n'
    rw [times_once (fun n' => hid n n' (wf_nodesOf d hw n hm)) _ (pos _ _ hfn),
      times_once (fun n' => hid n n' (wf_nodesOf d hw n hm)) _ (pos _ _ ((hf _).1 hfn))]
  have hactOn : actOn E o' = actOn E o := by rw [ho]; rfl
  constructor
  · exact same_outcome ha ho hq hq' hn h0 hqual hs hin hf hsame d'
  · refine same_outcome (by rw [ho]; exact ha) ?_ hq' hq hn h0 (by rw [ho]; exact hqual) hs'
      (fun m hm h1 b hb h2 => hin m hm ((hf _).2 h1) b hb ((hf _).2 h2)) (fun a => (hf a).symm)
      (fun n hm h n' => by rw [hactOn]; exact (hsame n hm ((hf _).2 h) n').symm) d'
    rw [ho]

/-- **C94**: merging scalars and mappings (distinct keys, no markers) where no node found lies
inside another: it does not matter in which order and how often the places are found. -/
theorem C94_merge (E : Sed) (dflt : Str) (o o' : Overlay) (ha : o.action = .merge) (ho : o' = { o with query := o'.query })
    (hm : AllNodes (OnStrings NoMarker) o.value) (hs : ScalarsAndMaps o.value) (hv : WellFormed o.value)
    (hq : ∀ q ∈ o.query, InTree q) (hq' : ∀ q ∈ o'.query, InTree q) (d : Node) (hw : WellFormed d) (hn : d.addrs.Nodup) (h0 : 0 ∉ d.addrs)
    (hqual : Qualifies o d) (hsome : ∃ m, Matches o.query d m) (hin : NoneWithin o.query d)
    (hc : SamePlaces o.query o'.query d) (d' : Node) :
    apply E dflt o d = .ok d' ↔ apply E dflt o' d = .ok d' := by
  refine once_enough E dflt o o' (by rw [ha]; simp) ho ?_ hq hq' d hw hn h0 hqual hsome hin hc d'
  intro n n' hwn h
  unfold actOn at h ⊢
  rw [ha] at h ⊢
  exact merge_idem E o.value hm hs hv n n' [] [] hwn h


/-! ### Replace and delete: nested places too -/

mutual
/-- The value put in the place of each outermost node of the set. -/
def installAt (E : Sed) (v : Node) (S : Nat → Bool) : Node → Node
  | .mk h cs => if S h.addr then replaceNode E (.mk h cs) v else .mk h (installAts E v S cs)
/-- On lists. -/
def installAts (E : Sed) (v : Node) (S : Nat → Bool) : List Node → List Node
  | [] => []
  | c :: cs => installAt E v S c :: installAts E v S cs
end

theorem installAts_map (E : Sed) (v : Node) (S : Nat → Bool) (cs : List Node) : installAts E v S cs = cs.map (installAt E v S) := by
  induction cs with
  | nil => rfl
  | cons c cs ih => rw [installAts, ih]; rfl

theorem installAt_none (E : Sed) (v : Node) (S : Nat → Bool) (t : Node) : (∀ a ∈ t.addrs, S a = false) → installAt E v S t = t := by
  induction t using Node.ind with
  | h h cs ih =>
    intro hn
    rw [installAt, if_neg (by have := hn _ (mem_addrs_self _); simp only [Node.hd_mk] at this; simp [this]), installAts_map]
    congr 1
    conv => rhs; rw [← List.map_id cs]
    refine List.map_congr_left fun c hc => ih c hc fun a ha => hn a (mem_addrs_child (by simpa using hc) ha)

theorem replaceNode_cong (E : Sed) (h : Hdr) (cs ds : List Node) (v : Node) : replaceNode E (.mk h cs) v = replaceNode E (.mk h ds) v := rfl

theorem replaceNode_inside (E : Sed) (n v : Node) : ∀ c ∈ (replaceNode E n v).content, ∀ a ∈ c.addrs, a = 0 := by
  intro c hc a ha
  have hcont : (replaceNode E n v).content = v.fresh.content := rfl
  rw [hcont] at hc
  have := copyOf_addrs v a
  rw [← fresh_eq_copyOf] at this
  exact this (mem_addrs_child hc ha)

theorem installAt_step (E : Sed) (v : Node) (hm : NoMarker v.hd.head ∧ NoMarker v.hd.line ∧ NoMarker v.hd.foot) (S : Nat → Bool) (hS : S 0 = false)
    (a : Nat) (t : Node) : ∃ t', modifyAt a (fun n => .ok (replaceNode E n v)) t = .ok t' ∧ t'.hd.addr = t.hd.addr ∧
      (t'.hd = t.hd ∨ t.hd.addr = a) ∧ installAt E v S t' = installAt E v (fun b => b = a || S b) t := by
  induction t using Node.ind with
  | h h cs ih =>
    by_cases ha : h.addr = a
    · refine ⟨replaceNode E (.mk h cs) v, by rw [modifyAt, if_pos ha], rfl, .inr ha, ?_⟩
      have hr : installAt E v (fun b => decide (b = a) || S b) (.mk h cs) = replaceNode E (.mk h cs) v := by
        rw [installAt, if_pos (by simp [ha])]
      rw [hr]
      have hin := replaceNode_inside E (.mk h cs) v
      have hag := replaceNode_again E (.mk h cs) v hm
      generalize replaceNode E (.mk h cs) v = r at hin hag
      obtain ⟨rh, rcs⟩ := r
      rw [installAt]
      split
      · exact hag
      · rw [installAts_map]
        congr 1
        conv => rhs; rw [← List.map_id rcs]
        refine List.map_congr_left fun c hc => installAt_none E v S c fun b hb => ?_
        rw [hin c hc b hb]; exact hS
    · have key : ∃ ds, modifyAts a (fun n => .ok (replaceNode E n v)) cs = .ok ds ∧
          installAts E v S ds = installAts E v (fun b => b = a || S b) cs := by
        clear ha
        induction cs with
        | nil => exact ⟨[], rfl, rfl⟩
        | cons c cs ih2 =>
          obtain ⟨c', h1, _, _, h2⟩ := ih c (by simp)
          obtain ⟨ds, h3, h4⟩ := ih2 (fun c hc => ih c (by simp [hc]))
          refine ⟨c' :: ds, ?_, ?_⟩
          · rw [modifyAts, h1]; simp only [Res.bind_ok]; rw [h3]; rfl
          · rw [installAts, installAts, h2, h4]
      obtain ⟨ds, h1, h2⟩ := key
      refine ⟨.mk h ds, ?_, rfl, .inl rfl, ?_⟩
      · rw [modifyAt, if_neg ha, h1]; rfl
      · rw [installAt, installAt]
        by_cases hs : S h.addr = true
        · rw [if_pos hs, if_pos (by simp [hs])]; rfl
        · rw [if_neg hs, if_neg (by simp [hs, ha]), h2]

theorem replace_fold (E : Sed) (v : Node) (hm : NoMarker v.hd.head ∧ NoMarker v.hd.line ∧ NoMarker v.hd.foot) (as : List Nat) (h0 : 0 ∉ as) :
    ∀ t, as.foldlM (fun r a => modifyAt a (fun n => .ok (replaceNode E n v)) r) t = .ok (installAt E v (fun b => decide (b ∈ as)) t) := by
  induction as with
  | nil =>
    intro t
    rw [installAt_none E v _ t (by simp)]
    rfl
  | cons a as ih =>
    intro t
    obtain ⟨t', h1, _, _, h2⟩ := installAt_step E v hm (fun b => decide (b ∈ as)) (by simpa using fun h => h0 (List.mem_cons_of_mem _ h)) a t
    rw [List.foldlM_cons, h1]
    simp only [Res.bind_ok]
    rw [ih (fun h => h0 (List.mem_cons_of_mem _ h)) t', h2]
    congr 2
    funext b
    by_cases hb : b = a <;> simp [hb]

/-- **C94**: a replace overlay (its own comments without markers), wherever the places lie: it
does not matter in which order and how often the places are found. -/
theorem C94_replace (E : Sed) (dflt : Str) (o o' : Overlay) (ha : o.action = .replace) (ho : o' = { o with query := o'.query })
    (hm : NoMarker o.value.hd.head ∧ NoMarker o.value.hd.line ∧ NoMarker o.value.hd.foot)
    (hq : ∀ q ∈ o.query, InTree q) (hq' : ∀ q ∈ o'.query, InTree q) (d : Node) (h0 : 0 ∉ d.addrs)
    (hqual : Qualifies o d) (hs : ∃ m, Matches o.query d m) (hc : SamePlaces o.query o'.query d) :
    apply E dflt o d = apply E dflt o' d := by
  have hs' : ∃ m, Matches o'.query d m := hs.imp fun m h => (hc m).1 h
  rw [(apply_found hqual hs).2, (apply_found (o := o') (by rw [ho]; exact hqual) hs').2]
  have hact : ∀ o'' : Overlay, o''.action = .replace → o''.value = o.value → (actOn E o'') = fun n => .ok (replaceNode E n o.value) := by
    intro o'' h h'; funext n; unfold actOn; rw [h, h']
  rw [foldlM_addrs (by rw [ha]; simp), foldlM_addrs (by rw [ho, ha]; simp), hact o ha rfl, hact o' (by rw [ho]; exact ha) (by rw [ho]),
    replace_fold E o.value hm _ (found_zero hq h0), replace_fold E o.value hm _ (found_zero hq' h0)]
  congr 3
  funext b
  congr 1
  rw [found_iff, found_iff]
  exact propext (same_places hc b)

/-- **C94**: a delete overlay, wherever the places lie: it does not matter in which order and how
often the places are found. -/
theorem C94_delete (E : Sed) (dflt : Str) (o o' : Overlay) (ha : o.action = .delete) (ho : o' = { o with query := o'.query })
    (d : Node) (hd : Decoded d) (hqual : Qualifies o d) (hs : ∃ m, Matches o.query d m) (hc : SamePlaces o.query o'.query d) :
    apply E dflt o d = apply E dflt o' d := by
  have hs' : ∃ m, Matches o'.query d m := hs.imp fun m h => (hc m).1 h
  have ha' : o'.action = .delete := by rw [ho]; exact ha
  rw [(apply_found hqual hs).2, (apply_found (o := o') (by rw [ho]; exact hqual) hs').2,
    C13_delete_set E o ha d hd, C13_delete_set E o' ha' d hd]
  congr 3
  funext b
  congr 1
  rw [found_iff, found_iff]
  exact propext (same_places hc b)

/-! ### Combine -/

/-- **C94**: a combine overlay adds its integer once for every time a place is found. -/
theorem C94_combine_adds (E : Sed) (o : Overlay) (ha : o.action = .combine) (x : Int) (hv : o.value.kind = .scalar)
    (hx : IntText o.value.hd.value x) (k : Nat) : ∀ (n : Node) (a : Int), n.kind = .scalar → n.hd.tag = c!"!!int" → IntText n.hd.value a →
    (∀ j ≤ k, InRange (a + j * x)) → InRange x →
    ∃ n', times (actOn E o) k n = .ok n' ∧ IntText n'.hd.value (a + k * x) ∧ n'.hd.tag = c!"!!int" := by
  induction k with
  | zero => intro n a _ ht h _ _; exact ⟨n, rfl, by simpa using h, ht⟩
  | succ k ih =>
    intro n a hn ht h hr rx
    obtain ⟨n1, h1, h2, _⟩ := C14_combine_adds_partial E n o.value a x hn hv ht h hx (by simpa using hr 0 (by omega)) rx (by simpa using hr 1 (by omega))
    have hk : n1.kind = .scalar ∧ n1.hd.tag = c!"!!int" := by
      rw [combine_unfold E n o.value hn hv, if_pos ht] at h1
      split at h1
      · cases h1
        refine ⟨?_, ?_⟩
        · show (mergeComments E n.hd o.value.hd []).kind = _
          rw [mergeComments_keepKind]; exact hn
        · show (mergeComments E n.hd o.value.hd []).tag = _
          have e : (mergeComments E n.hd o.value.hd []).tag = n.hd.tag := by simp only [mergeComments]; split_ifs <;> rfl
          rw [e]; exact ht
      · cases h1
    obtain ⟨n', h3, h4, h5⟩ := ih n1 (a + x) hk.1 hk.2 h2 (fun j hj => by
      have := hr (j + 1) (by omega)
      have e : a + x + j * x = a + ((j + 1 : Nat) : Int) * x := by push_cast; rw [Int.add_mul, Int.one_mul]; omega
      rw [e]; exact this) rx
    refine ⟨n', ?_, ?_, h5⟩
    · rw [times]
      have : actOn E o n = .ok n1 := by unfold actOn; rw [ha]; exact h1
      rw [this]; exact h3
    · have e : a + x + k * x = a + ((k + 1 : Nat) : Int) * x := by push_cast; rw [Int.add_mul, Int.one_mul]; omega
      rw [← e]; exact h4

/-! ### What the proviso excludes -/

/-- The document `a: {x: "0"}, l: [i], n: 1`. -/
def overlapDoc : Node := (dc (mp [sc c!"a", mp [sc c!"x", sc c!"0"], sc c!"l", sq [sc c!"i"], sc c!"n", sc c!"1" c!"!!int"])).label

/-- An overlay with queries made of names. -/
def overlapOverlay (a : Action) (v : Node) (qs : List (List Str)) : Overlay :=
  { query := qs.map (fun ks => ⟨c!"q", findNames ks⟩), action := a, value := v }

/-- C94: merging a sequence appends once for every time the place is found. -/
theorem C94_merge_sequences :
    tree (apply noSed [] (overlapOverlay .merge (sq [sc c!"j"]) [[c!"l"]]) overlapDoc) =
      some (dc (mp [sc c!"a", mp [sc c!"x", sc c!"0"], sc c!"l", sq [sc c!"i", sc c!"j"], sc c!"n", sc c!"1" c!"!!int"])) ∧
    tree (apply noSed [] (overlapOverlay .merge (sq [sc c!"j"]) [[c!"l"], [c!"l"]]) overlapDoc) =
      some (dc (mp [sc c!"a", mp [sc c!"x", sc c!"0"], sc c!"l", sq [sc c!"i", sc c!"j", sc c!"j"], sc c!"n", sc c!"1" c!"!!int"])) := by decide +kernel

/-- C94: merging into places that lie one in the other depends on the order of the queries. -/
theorem C94_merge_nested :
    tree (apply noSed [] (overlapOverlay .merge (mp [sc c!"x", sc c!"1"]) [[c!"a"], [c!"a", c!"x"]]) overlapDoc) =
      some (dc (mp [sc c!"a", mp [sc c!"x", mp [sc c!"x", sc c!"1"]], sc c!"l", sq [sc c!"i"], sc c!"n", sc c!"1" c!"!!int"])) ∧
    tree (apply noSed [] (overlapOverlay .merge (mp [sc c!"x", sc c!"1"]) [[c!"a", c!"x"], [c!"a"]]) overlapDoc) =
      some (dc (mp [sc c!"a", mp [sc c!"x", sc c!"1"], sc c!"l", sq [sc c!"i"], sc c!"n", sc c!"1" c!"!!int"])) := by decide +kernel

-- combine: found three times, added three times; replace: nested places in either order, twice
example :
    tree (apply noSed [] (overlapOverlay .combine (sc c!"5" c!"!!int") [[c!"n"], [c!"n"], [c!"n"]]) overlapDoc) =
      some (dc (mp [sc c!"a", mp [sc c!"x", sc c!"0"], sc c!"l", sq [sc c!"i"], sc c!"n", sc c!"16" c!"!!int"])) ∧
    tree (apply noSed [] (overlapOverlay .replace (sc c!"v") [[c!"a"], [c!"a", c!"x"], [c!"a"]]) overlapDoc) =
      some (dc (mp [sc c!"a", sc c!"v", sc c!"l", sq [sc c!"i"], sc c!"n", sc c!"1" c!"!!int"])) ∧
    tree (apply noSed [] (overlapOverlay .replace (sc c!"v") [[c!"a", c!"x"], [c!"a"]]) overlapDoc) =
      some (dc (mp [sc c!"a", sc c!"v", sc c!"l", sq [sc c!"i"], sc c!"n", sc c!"1" c!"!!int"])) := by decide +kernel

-- the hypotheses of C94_merge and C94_each in a concrete case: `a` and `n`, `a` found twice
example : let o := overlapOverlay .merge (mp [sc c!"y", sc c!"1"]) [[c!"a"], [c!"n"], [c!"a"]]
    (∀ q ∈ o.query, InTree q) ∧ overlapDoc.addrs.Nodup ∧ 0 ∉ overlapDoc.addrs ∧ Qualifies o overlapDoc ∧ (∃ m, Matches o.query overlapDoc m) ∧
    NoneWithin o.query overlapDoc ∧ howOften o.query overlapDoc 4 = 2 ∧
    SamePlaces o.query (overlapOverlay .merge (mp [sc c!"y", sc c!"1"]) [[c!"n"], [c!"a"]]).query overlapDoc ∧
    AllNodes (OnStrings NoMarker) o.value ∧ ScalarsAndMaps o.value ∧ WellFormed o.value := by
  intro o
  have hmem : ∀ a, Found o.query overlapDoc a ↔ a ∈ addrsOf (findAll o.query overlapDoc) := fun a => (found_iff _ _ _).symm
  refine ⟨?_, by decide, by decide, .inl rfl, ?_, ?_, by decide +kernel, ?_, ?_, ?_, ?_⟩
  · intro q hq
    obtain ⟨ks, _, rfl⟩ := List.mem_map.1 hq
    have := (C75_searchable c!"q" (ks.map .child)).2
    rwa [C75_names] at this
  · have hne : (findAll o.query overlapDoc).isEmpty = false := by decide +kernel
    cases hf : findAll o.query overlapDoc with
    | nil => rw [hf] at hne; cases hne
    | cons m ms => exact ⟨m, (mem_findAll _ _ _).1 (by rw [hf]; simp)⟩
  · have hdec : ∀ m ∈ nodesOf overlapDoc, m.hd.addr ∈ addrsOf (findAll o.query overlapDoc) → ∀ b ∈ m.addrs,
        b ∈ addrsOf (findAll o.query overlapDoc) → b = m.hd.addr := by decide +kernel
    exact fun m hm h1 b hb h2 => hdec m hm ((hmem _).1 h1) b hb ((hmem _).1 h2)
  · intro m
    rw [← mem_findAll, ← mem_findAll]
    have e1 : findAll o.query overlapDoc = findNames [c!"a"] overlapDoc ++ (findNames [c!"n"] overlapDoc ++ (findNames [c!"a"] overlapDoc ++ [])) := rfl
    have e2 : findAll (overlapOverlay .merge (mp [sc c!"y", sc c!"1"]) [[c!"n"], [c!"a"]]).query overlapDoc =
        findNames [c!"n"] overlapDoc ++ (findNames [c!"a"] overlapDoc ++ []) := rfl
    rw [e1, e2]
    simp only [List.mem_append, List.not_mem_nil, or_false]
    tauto
  · simp [o, overlapOverlay, Ex.mp, Ex.sc, AllNodes, AllNodess, OnStrings]; decide
  · simp [o, overlapOverlay, Ex.mp, Ex.sc, ScalarsAndMaps, ScalarsAndMapsE, keys, pairs]
  · simp [o, overlapOverlay, Ex.mp, Ex.sc, WellFormed, WellFormeds, Shaped]

end Yot
