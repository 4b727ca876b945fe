import Mathlib.Data.List.Dedup
import Verif.Model.Output
import Verif.Spec.Output
import Verif.Props.Merge
import Verif.Props.Delete
import Verif.Lemmas.GoPath
/-
C41-C45: comment removal, rendering, styles, values files.
-/
namespace Yot
open Spec

/-! ### C41 -/

mutual
theorem removeComments_eq : ∀ n : Node, removeComments n = .mk n.hd (mapHdrs noComments n.content)
  | .mk h cs => by rw [removeComments, removeCommentsL_eq cs]; rfl
theorem removeCommentsL_eq : ∀ cs : List Node, removeCommentsL cs = mapHdrs noComments cs
  | [] => by rw [removeCommentsL, mapHdrs]
  | c :: cs => by
    rw [removeCommentsL, removeCommentsL_eq cs, mapHdrs, removeComments_eq c]
    cases c; simp [mapHdr]
end

mutual
theorem mapHdr_all (f : Hdr → Hdr) (p : Hdr → Prop) (h : ∀ x, p (f x)) : ∀ n, AllNodes p (mapHdr f n)
  | .mk hd cs => by rw [mapHdr, AllNodes]; exact ⟨h hd, mapHdrs_all f p h cs⟩
theorem mapHdrs_all (f : Hdr → Hdr) (p : Hdr → Prop) (h : ∀ x, p (f x)) : ∀ cs, AllNodess p (mapHdrs f cs)
  | [] => by rw [mapHdrs, AllNodess]; trivial
  | c :: cs => by rw [mapHdrs, AllNodess]; exact ⟨mapHdr_all f p h c, mapHdrs_all f p h cs⟩
end

mutual
theorem mapHdr_mapHdr (f g k : Hdr → Hdr) (h : ∀ x, g (f x) = k x) : ∀ n, mapHdr g (mapHdr f n) = mapHdr k n
  | .mk hd cs => by rw [mapHdr, mapHdr, mapHdr, h, mapHdrs_mapHdrs f g k h cs]
theorem mapHdrs_mapHdrs (f g k : Hdr → Hdr) (h : ∀ x, g (f x) = k x) : ∀ cs, mapHdrs g (mapHdrs f cs) = mapHdrs k cs
  | [] => by simp [mapHdrs]
  | c :: cs => by rw [mapHdrs, mapHdrs, mapHdrs, mapHdr_mapHdr f g k h c, mapHdrs_mapHdrs f g k h cs]
end

/-- **C41** (partial): with remove-comments, no node below a document node has a
comment left, and nothing but comments is removed.  Missing: the comments of the
document node itself, see `C41_document_comment`. -/
theorem C41_no_comments_left_partial (ys : List YamlFile) :
    (removeAllComments true ys).length = ys.length ∧
    ∀ (i : Nat) (y z : YamlFile), ys[i]? = some y → (removeAllComments true ys)[i]? = some z →
      z = { y with nodes := z.nodes } ∧ z.nodes.map withoutComments = y.nodes.map withoutComments ∧
      z.nodes.map Node.hd = y.nodes.map Node.hd ∧
      ∀ d ∈ z.nodes, AllNodess Uncommented d.content := by
  have hq : removeAllComments true ys = ys.map (fun y => { y with nodes := y.nodes.map removeComments }) := rfl
  refine ⟨by rw [hq]; simp, ?_⟩
  intro i y z hy hz
  rw [hq, List.getElem?_map, hy, Option.map_some, Option.some.injEq] at hz
  subst hz
  refine ⟨rfl, ?_, ?_, ?_⟩
  · simp only [List.map_map]
    apply List.map_congr_left
    intro d _
    obtain ⟨h, cs⟩ := d
    simp only [Function.comp, removeComments_eq, withoutComments, Node.hd_mk, Node.content_mk, mapHdr, Node.mk.injEq, true_and]
    exact mapHdrs_mapHdrs _ _ _ (fun x => rfl) cs
  · simp only [List.map_map]
    apply List.map_congr_left
    intro d _
    simp [removeComments_eq]
  · intro d hd
    obtain ⟨e, _, rfl⟩ := List.mem_map.1 hd
    rw [removeComments_eq, Node.content_mk]
    exact mapHdrs_all _ _ (fun x => ⟨rfl, rfl, rfl⟩) _

/-- Without the option nothing changes. -/
theorem C41_not_requested (ys : List YamlFile) : removeAllComments false ys = ys := rfl

/-- **C41** fails for the comment at the top of a file that is followed by an empty
line: it belongs to the document node and stays. -/
theorem C41_document_comment :
    let d : Node := .mk { kind := .document, head := c!"# licence", nilc := false } [.mk { kind := .scalar, head := c!"# x", value := c!"1" } []]
    (removeComments d).hd.head = c!"# licence" ∧ (removeComments d).content = [.mk { kind := .scalar, value := c!"1" } []] := by
  decide

/-- **C41**, exactly: every document keeps its own comments, everything below loses them; so the
claim holds of a document iff it has none itself. -/
theorem C41_exactly (d : Node) : removeComments d = .mk d.hd (d.content.map withoutComments) ∧
    (AllNodes Uncommented (removeComments d) ↔ Uncommented d.hd) := by
  have e : ∀ cs : List Node, mapHdrs noComments cs = cs.map withoutComments := by
    intro cs
    induction cs with
    | nil => rfl
    | cons c cs ih => rw [mapHdrs, List.map_cons, ih]; rfl
  refine ⟨by rw [removeComments_eq, e], ?_⟩
  rw [removeComments_eq, AllNodes]
  exact ⟨fun h => h.1, fun h => ⟨h, mapHdrs_all _ _ (fun x => ⟨rfl, rfl, rfl⟩) _⟩⟩

/-! ### C42 -/

theorem encodeLoop_from (emit : Bool → Node → Res Err Str) (s : Nat) (ns : List Node) : ∀ (i : Nat) (w : Bool),
    encodeLoop emit s (i + 1) w ns = textsFrom emit (!w) ((ns.filter (fun n => n.content ≠ [])).map (setStyle s)) := by
  induction ns with
  | nil => intro i w; simp [encodeLoop, textsFrom]
  | cons n ns ih =>
    intro i w
    rw [encodeLoop]
    by_cases h : n.content = []
    · rw [if_pos (by simp [h]), ih, List.filter_cons_of_neg (by simpa using h)]
    · rw [if_neg (by simpa using h), List.filter_cons_of_pos (by simpa using h), List.map_cons, textsFrom]
      congr 1
      funext t
      rw [ih]
      simp

/-- **C42**: the rendering of a file consists of the documents that still have
content, in their order and nothing else (after a `---` line if the first document
is among them). -/
theorem C42_emptied_omitted (emit : Bool → Node → Res Err Str) (style : List Str) (nodes : List Node) :
    encodeNodes emit style nodes =
      textsFrom emit true ((nodes.filter (fun n => n.content ≠ [])).map (setStyle (getStyle (getStyleFromConfig style)))) >>=
        fun t => .ok ((if nodes.head?.any (fun d => d.content ≠ []) then c!"---\n" else []) ++ t) := by
  unfold encodeNodes
  cases nodes with
  | nil => simp [encodeLoop, textsFrom]
  | cons n ns =>
    rw [encodeLoop]
    by_cases h : n.content = []
    · rw [if_pos (by simp [h]), encodeLoop_from, List.filter_cons_of_neg (by simpa using h)]
      have : ((n :: ns).head?.any (fun d => d.content ≠ [])) = false := by simp [h]
      rw [this]
      simp only [Bool.not_false, Bool.false_eq_true, if_false, List.nil_append]
      cases textsFrom emit true ((ns.filter (fun n => n.content ≠ [])).map (setStyle (getStyle (getStyleFromConfig style)))) <;> rfl
    · have hex : ((n :: ns).head?.any (fun d => d.content ≠ [])) = true := by simp [h]
      rw [if_neg (by simpa using h), List.filter_cons_of_pos (by simpa using h), List.map_cons, textsFrom]
      rw [hex]
      simp only [if_true, Bool.not_false]
      cases emit true (setStyle (getStyle (getStyleFromConfig style)) n) with
      | err e => rfl
      | panic => rfl
      | ok t =>
        simp only [Res.bind_ok]
        rw [encodeLoop_from]
        simp only [Bool.not_true]
        cases textsFrom emit false ((ns.filter (fun n => n.content ≠ [])).map (setStyle (getStyle (getStyleFromConfig style)))) with
        | err e => rfl
        | panic => rfl
        | ok r => simp

/-- **C42**: a file is written iff one of its documents has content (no document is
rendered as the empty text). -/
theorem C42_file_omitted (emit : Bool → Node → Res Err Str) (hemit : ∀ b n t, emit b n = .ok t → t ≠ [])
    (style : List Str) (nodes : List Node) (r : Option Str) (h : rendering emit style nodes = .ok r) :
    r = none ↔ ∀ d ∈ nodes, d.content = [] := by
  unfold rendering at h
  rw [C42_emptied_omitted, Res.bind_eq_ok] at h
  obtain ⟨t, ht, h⟩ := h
  rw [Res.bind_eq_ok] at ht
  obtain ⟨u, hu, ht⟩ := ht
  simp only [Res.ok.injEq] at h ht
  subst h
  have hlive : (∀ d ∈ nodes, d.content = []) ↔ nodes.filter (fun n => n.content ≠ []) = [] := by
    rw [List.filter_eq_nil_iff]
    simp
  rw [hlive]
  cases hl : nodes.filter (fun n => n.content ≠ []) with
  | nil =>
    rw [hl] at hu
    simp only [List.map_nil, textsFrom, Res.ok.injEq] at hu
    have hno : (nodes.head?.any (fun d => d.content ≠ [])) = false := by
      cases nodes with
      | nil => rfl
      | cons d ds => simp [hlive.2 hl d (by simp)]
    rw [hno] at ht
    simp only [Bool.false_eq_true, if_false, List.nil_append] at ht
    subst ht; subst hu
    simp
  | cons n ns =>
    rw [hl, List.map_cons, textsFrom, Res.bind_eq_ok] at hu
    obtain ⟨t1, h1, hu⟩ := hu
    rw [Res.bind_eq_ok] at hu
    obtain ⟨t2, _, hu⟩ := hu
    simp only [Res.ok.injEq] at hu
    have hne := hemit _ _ _ h1
    have : t ≠ [] := by
      rw [← ht, ← hu]
      simp [hne]
    simp [this]

example : rendering (fun b n => .ok ((if b then [] else c!"---\n") ++ (n.content.map (fun c => c.hd.value)).flatten)) []
    [.mk { kind := .document } [], .mk { kind := .document } [.mk { kind := .scalar, value := c!"a" } []],
     .mk { kind := .document } [], .mk { kind := .document } [.mk { kind := .scalar, value := c!"b" } []]] =
    .ok (some c!"a---\nb") := by decide

/-- **C42**: deleting the root of a document empties it, so that it is one of the
omitted ones. -/
theorem C42_root_deleted (E : Sed) (dflt : Str) (o : Overlay) (ha : o.action = .delete) (d r : Node) (hd : Decoded d)
    (hk : d.kind = .document) (hr : d.content = [r]) (hq : checkQueries o.documentQuery d = true)
    (hm : r ∈ findAll o.query d) : ∃ d', apply E dflt o d = .ok d' ∧ d'.content = [] := by
  unfold apply
  have hne : (findAll o.query d).isEmpty = false := by
    cases h : findAll o.query d with
    | nil => rw [h] at hm; cases hm
    | cons => rfl
  simp only [hq, Bool.not_true, Bool.false_eq_true, if_false, hne]
  rw [doAction_delete ha, delete_fold d hd]
  refine ⟨_, rfl, ?_⟩
  obtain ⟨h, cs⟩ := d
  simp only [Node.kind, Node.hd_mk, Node.content_mk] at hk hr
  subst hr
  rw [prune_items _ _ _ (.inr hk), Node.content_mk, pruneItems]
  have : r.hd.addr ∈ addrsOf (findAll o.query (.mk h [r])) := List.mem_map.2 ⟨r, hm, rfl⟩
  simp [this, pruneItems]

open Ex in
example :
    let d := (dc (mp [sc c!"a", sc c!"1"])).label
    let o : Overlay := { action := .delete, query := [{ str := c!"$", find := fun n => n.content }] }
    Decoded d ∧ d.kind = .document ∧ d.content = [d.content.head!] ∧ checkQueries o.documentQuery d = true ∧
      d.content.head! ∈ findAll o.query d := by
  refine ⟨⟨?_, ?_, label_nodup _⟩, by decide⟩
  · apply label_wf; simp [Ex.dc, Ex.mp, Ex.sc, WellFormed, WellFormeds, Shaped]
  · apply label_nilOk; simp [Ex.dc, Ex.mp, Ex.sc, NilOk, NilOks]

/-! ### C43 -/

mutual
theorem setStyle_all (s : Nat) : ∀ n, WellFormed n → AllNodes (fun h => h.kind ≠ .zero → h.style = s) (setStyle s n)
  | .mk h cs, hw => by
    rw [setStyle]
    rw [WellFormed] at hw
    obtain ⟨h1, h2⟩ := hw
    have hrec := setStyles_all s cs h2
    cases hk : h.kind <;> simp only [AllNodes, ne_eq, reduceCtorEq, not_false_eq_true, forall_const, true_and, hk, not_true_eq_false, false_implies]
    case zero =>
      have : cs = [] := by simpa [hk, Shaped] using h1
      rw [this, AllNodess]; trivial
    case scalar =>
      have : cs = [] := by simpa [hk, Shaped] using h1
      rw [this, AllNodess]; trivial
    all_goals exact hrec
theorem setStyles_all (s : Nat) : ∀ cs, WellFormeds cs → AllNodess (fun h => h.kind ≠ .zero → h.style = s) (setStyles s cs)
  | [], _ => by rw [setStyles, AllNodess]; trivial
  | c :: cs, hw => by
    rw [WellFormeds] at hw
    rw [setStyles, AllNodess]
    exact ⟨setStyle_all s c hw.1, setStyles_all s cs hw.2⟩
end

mutual
theorem setStyle_only (s : Nat) : ∀ n, withoutStyles (setStyle s n) = withoutStyles n
  | .mk h cs => by
    have := setStyles_only s cs
    unfold withoutStyles at *
    rw [setStyle]
    cases hk : h.kind <;> simp only [mapHdr, Node.mk.injEq] <;> refine ⟨by simp [hk], ?_⟩ <;> first | exact this | rfl | trivial
theorem setStyles_only (s : Nat) : ∀ cs, mapHdrs (fun h => { h with style := 0 }) (setStyles s cs) =
    mapHdrs (fun h => { h with style := 0 }) cs
  | [] => by simp [setStyles]
  | c :: cs => by
    have := setStyle_only s c
    unfold withoutStyles at this
    rw [setStyles, mapHdrs, mapHdrs, this, setStyles_only s cs]
end

/-- **C43**: on output every node gets the style, and nothing else changes. -/
theorem C43_uniform (ss : List StyleName) (n : Node) (hw : WellFormed n) :
    AllNodes (fun h => h.kind ≠ .zero → h.style = getStyle ss) (setStyle (getStyle ss) n) ∧
    withoutStyles (setStyle (getStyle ss) n) = withoutStyles n :=
  ⟨setStyle_all _ n hw, setStyle_only _ n⟩

/-- **C43**: the order of the styles does not matter. -/
theorem C43_order (ss ss' : List StyleName) (h : ss.Perm ss') : getStyle ss = getStyle ss' := by
  unfold getStyle
  rw [(h.map StyleName.bit).sum_nat]

theorem styleBits_perm {ss ss' : List StyleName} (h : ss.Perm ss') : styleBits ss = styleBits ss' := by
  have key : ∀ {l l' : List StyleName}, l.Perm l' → ∀ b, l.foldl (fun b s => b ||| s.bit) b = l'.foldl (fun b s => b ||| s.bit) b := by
    intro l l' h
    induction h with
    | nil => intro b; rfl
    | cons x _ ih => intro b; exact ih _
    | swap x y l =>
      intro b
      simp only [List.foldl_cons]
      rw [Nat.or_assoc, Nat.or_comm y.bit, ← Nat.or_assoc]
    | trans _ _ h1 h2 => intro b; rw [h1, h2]
  exact key h 0

/-- All styles. -/
def allStyles : List StyleName := [.tagged, .doubleQuoted, .singleQuoted, .literal, .folded, .flow, .normal]

/-- **C43** (partial): without repetitions, the style is the set of the listed
styles.  Missing: repetitions, see `C43_repetition`. -/
theorem C43_set_partial (ss : List StyleName) (h : ss.Nodup) : getStyle ss = styleBits ss := by
  have hp : ss.Perm (allStyles.filter (fun s => s ∈ ss)) := by
    apply (List.perm_ext_iff_of_nodup h (List.Nodup.sublist List.filter_sublist (by decide))).2
    intro s
    rw [List.mem_filter]
    constructor
    · intro hs
      exact ⟨by cases s <;> decide, by simpa using hs⟩
    · rintro ⟨_, hs⟩
      simpa using hs
  rw [C43_order _ _ hp, styleBits_perm hp]
  simp only [allStyles, List.filter_cons, List.filter_nil]
  generalize decide (StyleName.tagged ∈ ss) = b1
  generalize decide (StyleName.doubleQuoted ∈ ss) = b2
  generalize decide (StyleName.singleQuoted ∈ ss) = b3
  generalize decide (StyleName.literal ∈ ss) = b4
  generalize decide (StyleName.folded ∈ ss) = b5
  generalize decide (StyleName.flow ∈ ss) = b6
  generalize decide (StyleName.normal ∈ ss) = b7
  cases b1 <;> cases b2 <;> cases b3 <;> cases b4 <;> cases b5 <;> cases b6 <;> cases b7 <;> decide

example : [StyleName.flow, .doubleQuoted].Nodup ∧ getStyle [.flow, .doubleQuoted] = 34 := by decide

/-- **C43** fails for repeated styles: double quotes listed twice are single quotes. -/
theorem C43_repetition : getStyle [.doubleQuoted, .doubleQuoted] = getStyle [.singleQuoted] := by decide

theorem sum_count (ss : List StyleName) : (ss.map StyleName.bit).sum = ss.count .tagged + 2 * ss.count .doubleQuoted + 4 * ss.count .singleQuoted +
    8 * ss.count .literal + 16 * ss.count .folded + 32 * ss.count .flow + 64 * ss.count .normal := by
  induction ss with
  | nil => rfl
  | cons s ss ih => cases s <;> simp [StyleName.bit, ih] <;> omega

theorem styleBits_dedup (ss : List StyleName) : styleBits ss = styleBits ss.dedup := by
  have key : ∀ (l : List StyleName) (b : Nat), l.foldl (fun b s => b ||| s.bit) b = b ||| l.foldl (fun b s => b ||| s.bit) 0 := by
    intro l
    induction l with
    | nil => intro b; simp
    | cons x l ih => intro b; rw [List.foldl_cons, List.foldl_cons, ih, ih (0 ||| x.bit)]; simp [Nat.or_assoc]
  have cons : ∀ x l, styleBits (x :: l) = x.bit ||| styleBits l := by
    intro x l
    unfold styleBits
    rw [List.foldl_cons, key]; simp
  have mem : ∀ (x : StyleName) (l : List StyleName), x ∈ l → x.bit ||| styleBits l = styleBits l := by
    intro x l
    induction l with
    | nil => intro h; cases h
    | cons y l ih =>
      intro h
      rw [cons]
      rcases List.mem_cons.1 h with rfl | h
      · rw [← Nat.or_assoc, Nat.or_self]
      · rw [← Nat.or_assoc, Nat.or_comm x.bit, Nat.or_assoc, ih h]
  induction ss with
  | nil => rfl
  | cons x l ih =>
    by_cases h : x ∈ l
    · rw [List.dedup_cons_of_mem h, ← ih, cons, mem x l h]
    · rw [List.dedup_cons_of_notMem h, cons, cons, ih]

/-- **C43**, exactly: the style is the set of the listed styles iff none is repeated (for lists
shorter than thirty million). -/
theorem C43_exactly (ss : List StyleName) (hl : ss.length < 33554432) : getStyle ss = styleBits ss ↔ ss.Nodup := by
  refine ⟨fun h => ?_, C43_set_partial ss⟩
  rw [styleBits_dedup, ← C43_set_partial _ ss.nodup_dedup] at h
  have hb : ∀ l : List StyleName, (l.map StyleName.bit).sum ≤ 64 * l.length := by
    intro l
    induction l with
    | nil => simp
    | cons x l ih => simp only [List.map_cons, List.sum_cons, List.length_cons]; cases x <;> simp only [StyleName.bit] <;> omega
  have h1 := hb ss
  have h2 := hb ss.dedup
  have h3 : ss.dedup.length ≤ ss.length := (List.dedup_sublist ss).length_le
  unfold getStyle at h
  rw [Nat.mod_eq_of_lt (by omega), Nat.mod_eq_of_lt (by omega), sum_count, sum_count] at h
  have hle : ∀ s, ss.dedup.count s ≤ ss.count s := fun s => (List.dedup_sublist ss).count_le s
  have h1 : ∀ s, ss.dedup.count s ≤ 1 := List.nodup_iff_count_le_one.1 ss.nodup_dedup
  rw [List.nodup_iff_count_le_one]
  have e1 := hle .tagged
  have e2 := hle .doubleQuoted
  have e3 := hle .singleQuoted
  have e4 := hle .literal
  have e5 := hle .folded
  have e6 := hle .flow
  have e7 := hle .normal
  have f1 := h1 .tagged
  have f2 := h1 .doubleQuoted
  have f3 := h1 .singleQuoted
  have f4 := h1 .literal
  have f5 := h1 .folded
  have f6 := h1 .flow
  have f7 := h1 .normal
  intro s
  cases s <;> omega

/-! ### C44 -/

theorem styleOfName_str (s : StyleName) : styleOfName (toLowerStr s.str) = some s := by cases s <;> decide

theorem str_plain (s : StyleName) : ∀ c ∈ toLowerStr s.str, c ≠ ',' ∧ c ≠ '[' ∧ c ≠ ']' := by
  cases s <;> decide

theorem trimSet_bracketed (s : Str) (h : ∀ c ∈ s, c ≠ '[' ∧ c ≠ ']') : trimSet c!"[]" ('[' :: (s ++ [']'])) = s := by
  have hcut : ∀ c ∈ s, (List.contains c!"[]" c) = false := by
    intro c hc
    obtain ⟨h1, h2⟩ := h c hc
    simp [h1, h2]
  have drop : ∀ (l : Str), (∀ c ∈ l, (List.contains c!"[]" c) = false) → ∀ r : Str, (List.contains c!"[]" (']')) = true →
      (l ++ r).dropWhile (fun c => List.contains c!"[]" c) = if l = [] then r.dropWhile (fun c => List.contains c!"[]" c) else l ++ r := by
    intro l hl r _
    cases l with
    | nil => rfl
    | cons x xs =>
      rw [List.cons_append, List.dropWhile_cons_of_neg]
      · simp
      · rw [hl x (by simp)]; simp
  unfold trimSet
  rw [List.dropWhile_cons_of_pos (by decide)]
  cases s with
  | nil => decide
  | cons x xs =>
    rw [drop (x :: xs) hcut [']'] (by decide), if_neg (by simp), List.reverse_append]
    simp only [List.reverse_cons, List.reverse_nil, List.nil_append, List.singleton_append]
    rw [List.dropWhile_cons_of_pos (by decide)]
    have := drop (xs.reverse ++ [x]) (by intro c hc; apply hcut; simpa [or_comm] using hc) [] (by decide)
    simp only [List.append_nil] at this
    rw [this, if_neg (by simp)]
    simp

theorem inBrackets_lower (ns : List Str) : toLowerStr (inBrackets ns) = inBrackets (ns.map toLowerStr) := by
  cases ns with
  | nil => decide
  | cons n ns =>
    simp only [inBrackets, toLowerStr, List.map_cons, List.map_append, List.map_nil, List.cons.injEq]
    refine ⟨by decide, ?_⟩
    rw [show goLower ']' = ']' from by decide]
    congr 2
    induction ns with
    | nil => rfl
    | cons m ms ih =>
      simp only [List.flatMap_cons, List.map_append, List.map_cons, ih]
      rw [show goLower ',' = ',' from by decide]
      rfl

theorem inBrackets_config (ns : List Str) (h : ∀ n ∈ ns, ∀ c ∈ toLowerStr n, c ≠ ',' ∧ c ≠ '[' ∧ c ≠ ']') (t : Str)
    (ht : SameLetters t (inBrackets ns)) : getStyleFromConfig [t] = ns.filterMap (fun n => styleOfName (toLowerStr n)) := by
  simp only [getStyleFromConfig, List.flatMap_cons, List.flatMap_nil, List.append_nil]
  rw [ht, inBrackets_lower]
  have h' : ∀ n ∈ ns.map toLowerStr, ∀ c ∈ n, c ≠ ',' ∧ c ≠ '[' ∧ c ≠ ']' := by
    intro n hn
    obtain ⟨m, hm, rfl⟩ := List.mem_map.1 hn
    exact h m hm
  have hfm : ns.filterMap (fun n => styleOfName (toLowerStr n)) = (ns.map toLowerStr).filterMap styleOfName := by
    rw [List.filterMap_map]; rfl
  rw [hfm]
  generalize ns.map toLowerStr = ms at h'
  cases ms with
  | nil => decide
  | cons m ms =>
    have hj : m ++ ms.flatMap (fun m => ',' :: m) = joinWith ',' (m :: ms) := by
      clear h'
      induction ms generalizing m with
      | nil => simp [joinWith]
      | cons k ks ih =>
        rw [joinWith, ← ih k]; simp
    simp only [inBrackets]
    rw [trimSet_bracketed, hj]
    · rw [splitOn_joinWith ',' (m :: ms) (by simp) (fun n hn hm => (h' n hn ',' hm).1 rfl)]
    · intro c hc
      rw [hj] at hc
      have : ∀ ms : List Str, c ∈ joinWith ',' ms → c = ',' ∨ ∃ n ∈ ms, c ∈ n := by
        intro ms
        induction ms with
        | nil => intro h; cases h
        | cons k ks ih =>
          cases ks with
          | nil => intro h; exact .inr ⟨k, by simp, h⟩
          | cons l ls =>
            rw [joinWith]
            intro h
            rcases List.mem_append.1 h with h | h
            · exact .inr ⟨k, by simp, h⟩
            · rcases List.mem_cons.1 h with h | h
              · exact .inl h
              · rcases ih h with h | ⟨n, hn, h⟩
                · exact .inl h
                · exact .inr ⟨n, by simp [hn], h⟩
      rcases this _ hc with rfl | ⟨n, hn, hcn⟩
      · decide
      · exact ⟨(h' n hn c hcn).2.1, (h' n hn c hcn).2.2⟩

/-- **C44**: any list of styles, written as its names in brackets separated by
commas, in any letter case, is read back as that list. -/
theorem C44_round_trip (ss : List StyleName) (t : Str) (ht : SameLetters t (inBrackets (ss.map StyleName.str))) :
    getStyleFromConfig [t] = ss := by
  rw [inBrackets_config (ss.map StyleName.str) _ t ht]
  · rw [List.filterMap_map]
    have : ((fun n => styleOfName (toLowerStr n)) ∘ StyleName.str) = some := by
      funext s; exact styleOfName_str s
    rw [this, List.filterMap_some]
  · intro n hn
    obtain ⟨s, _, rfl⟩ := List.mem_map.1 hn
    exact str_plain s

theorem styleOfName_mem (m : Str) (s : StyleName) : styleOfName m = some s ↔ m ∈ (styleNames s).map toLowerStr := by
  have he : (styleNames s).map toLowerStr = match s with
    | .normal => [c!"normal", c!"n"]
    | .tagged => [c!"tagged", c!"tag", c!"t"]
    | .doubleQuoted => [c!"doublequoted", c!"doublequote", c!"double", c!"dq"]
    | .singleQuoted => [c!"singlequoted", c!"singlequote", c!"single", c!"sq"]
    | .literal => [c!"literal", c!"l"]
    | .folded => [c!"folded", c!"fold", c!"fo"]
    | .flow => [c!"flow", c!"fl"] := by cases s <;> decide
  rw [he]
  constructor
  · intro h
    unfold styleOfName at h
    repeat' split at h
    all_goals first
      | (cases h; assumption)
      | (cases h)
  · intro h
    cases s <;> simp only [List.mem_cons, List.not_mem_nil, or_false] at h <;>
      (repeat' (rcases h with h | h)) <;> (try subst h) <;> (try decide)

theorem styleOfName_names (n : Str) (s : StyleName) : styleOfName (toLowerStr n) = some s ↔ Names n s := by
  rw [styleOfName_mem, List.mem_map]
  simp only [Names, SameLetters]
  exact ⟨fun ⟨a, h, e⟩ => ⟨a, h, e.symm⟩, fun ⟨a, h, e⟩ => ⟨a, h, e.symm⟩⟩

/-- **C44**: in a bracketed list every name is read as the style it is documented for,
in any letter case, and a name of no style is ignored. -/
theorem C44_names (ns : List Str) (ss : List (Option StyleName)) (t : Str)
    (hp : ∀ n ∈ ns, ∀ c ∈ toLowerStr n, c ≠ ',' ∧ c ≠ '[' ∧ c ≠ ']')
    (h : List.Forall₂ (fun n o => match o with
      | some s => Names n s
      | none => ∀ s, ¬ Names n s) ns ss) (ht : SameLetters t (inBrackets ns)) :
    getStyleFromConfig [t] = ss.filterMap id := by
  rw [inBrackets_config ns hp t ht]
  clear hp ht
  induction h with
  | nil => rfl
  | @cons n o ns ss hno _ ih =>
    have : styleOfName (toLowerStr n) = o := by
      cases o with
      | some s => exact (styleOfName_names n s).2 hno
      | none =>
        cases hs : styleOfName (toLowerStr n) with
        | none => rfl
        | some s => exact absurd ((styleOfName_names n s).1 hs) (hno s)
    cases o <;> simp [this, ih]

/-- **C44**: several configured texts are read one after the other, each being a
bracketed list or a single name. -/
theorem C44_texts (a b : List Str) : getStyleFromConfig (a ++ b) = getStyleFromConfig a ++ getStyleFromConfig b := by
  simp [getStyleFromConfig]

/-- **C44**: a single name without brackets is read the same way. -/
theorem C44_bare_name (n : Str) (s : StyleName) (h : Names n s) : getStyleFromConfig [n] = [s] := by
  have hm := (styleOfName_names n s).2 h
  have hl := (styleOfName_mem _ _).1 hm
  simp only [getStyleFromConfig, List.flatMap_cons, List.flatMap_nil, List.append_nil]
  have : splitOn ',' (trimSet c!"[]" (toLowerStr n)) = [toLowerStr n] := by
    revert hl
    generalize toLowerStr n = m
    intro hl
    rw [List.mem_map] at hl
    obtain ⟨a, ha, rfl⟩ := hl
    cases s <;> simp only [styleNames, List.mem_cons, List.not_mem_nil, or_false] at ha <;>
      (repeat' (rcases ha with ha | ha)) <;> (try subst ha) <;> (try decide)
  rw [this]
  simp [hm]

/-- What the flag's names are: the documented ones, but for `singleQuote`, which it
spells `singleQoute`. -/
theorem styleOfFlag_cases (n : Str) (s : StyleName) (h : styleOfFlag n = some s) :
    Names n s ∨ (SameLetters n c!"singleQoute" ∧ s = .singleQuoted) := by
  unfold styleOfFlag at h
  rw [Option.map_eq_some_iff] at h
  obtain ⟨e, he, rfl⟩ := h
  have hm := List.mem_of_find?_eq_some he
  have ha := List.find?_some he
  rw [List.any_eq_true] at ha
  obtain ⟨a, hin, hl⟩ := ha
  have hl : SameLetters n a := by simpa [SameLetters] using (of_decide_eq_true hl).symm
  by_cases hq : a = c!"singleQoute"
  · subst hq
    refine .inr ⟨hl, ?_⟩
    have hall : ∀ e ∈ flagMap, c!"singleQoute" ∈ e.2 → e.1 = .singleQuoted := by decide
    exact hall e hm hin
  · refine .inl ⟨a, ?_, hl⟩
    clear hl
    have hall : ∀ e ∈ flagMap, ∀ a ∈ e.2, a ≠ c!"singleQoute" → a ∈ styleNames e.1 := by decide
    exact hall e hm a hin hq

theorem showStyles_eq (ss : List StyleName) : showStyles ss = inBrackets (ss.map StyleName.str) := by
  have hs : (fun s => ((flagMap.lookup s).getD []).headD []) = StyleName.str := by
    funext s; cases s <;> decide
  unfold showStyles
  rw [hs]
  generalize ss.map StyleName.str = ns
  cases ns with
  | nil => rfl
  | cons m ms =>
    have hj : m ++ ms.flatMap (fun m => ',' :: m) = joinWith ',' (m :: ms) := by
      induction ms generalizing m with
      | nil => simp [joinWith]
      | cons k ks ih => rw [joinWith, ← ih k]; simp
    simp [inBrackets, ← hj]

/-- **C54**: every value of `--output-style` that is accepted reaches the renderer as
the styles its names stand for, one per name and in that order. The printed form goes
through the configuration and is read back. -/
theorem C54_flag (s : Str) (ss : List StyleName) (h : stylesOfFlag s = some ss) :
    getStyleFromConfig [showStyles ss] = ss ∧
    List.Forall₂ (fun n x => Names n x ∨ (SameLetters n c!"singleQoute" ∧ x = .singleQuoted)) (splitOn ',' s) ss := by
  refine ⟨C44_round_trip ss _ (by rw [showStyles_eq]; rfl), ?_⟩
  unfold stylesOfFlag at h
  generalize splitOn ',' s = ns at h
  induction ns generalizing ss with
  | nil => simp only [List.foldr_nil, Option.some.injEq] at h; subst h; exact .nil
  | cons n ns ih =>
    rw [List.foldr_cons] at h
    split at h
    · rename_i x xs hx hxs
      cases h
      exact .cons (styleOfFlag_cases n x hx) (ih xs hxs)
    · cases h

/-- **C54** (partial): every documented name but one is accepted by the flag. -/
theorem C54_documented_names_partial (n : Str) (s : StyleName) (h : Names n s) (hq : ¬ SameLetters n c!"singleQuote") :
    styleOfFlag n = some s := by
  obtain ⟨a, ha, hl⟩ := h
  have : ∀ s, ∀ a ∈ styleNames s, a ≠ c!"singleQuote" → styleOfFlag a = some s := by
    intro s; cases s <;> decide
  have hf : styleOfFlag n = styleOfFlag a := by
    unfold styleOfFlag
    rw [hl]
  rw [hf]
  exact this s a ha (fun he => hq (he ▸ hl))

/-- The misspelt name: the flag rejects the documented `singleQuote` and takes
`singleQoute`, which the configuration file does not know. -/
theorem C54_misspelt : styleOfFlag c!"singleQuote" = none ∧ getStyleFromConfig [c!"singleQuote"] = [.singleQuoted] ∧
    styleOfFlag c!"singleQoute" = some .singleQuoted ∧ getStyleFromConfig [c!"singleQoute"] = [] := by decide

example : stylesOfFlag c!"FL,dq" = some [.flow, .doubleQuoted] ∧
    showStyles [.flow, .doubleQuoted] = c!"[flow,doubleQuoted]" := by decide

example : Names c!"SQ" .singleQuoted := ⟨c!"sq", by decide, by unfold SameLetters; decide⟩

example : SameLetters c!"[FLOW,doublequoted]" (inBrackets ([StyleName.flow, .doubleQuoted].map StyleName.str)) := by
  unfold SameLetters; decide

/-! ### C45 -/

/-- **C45**: the values are the deep merge of the files in command line order (the
later files free of format markers and aliases). -/
theorem C45_deep_merge_partial (E : Sed) (d : Node) (v : Val) (ds : List Node) (vs : List Val) (hd : HoldsValues d v)
    (hds : List.Forall₂ (fun d v => HoldsValues d v ∧ v.NoMarkers) ds vs) :
    ∃ r, getValues E (d :: ds) = .ok (some r) ∧ HoldsValues r (vs.foldl deepMerge v) := by
  unfold getValues mergeNodes
  induction hds generalizing d v with
  | nil => exact ⟨d, rfl, hd⟩
  | @cons e w es ws he _ ih =>
    obtain ⟨⟨hk, n, hn, hdn⟩, hm⟩ := he
    obtain ⟨hk0, n0, hn0, hdn0⟩ := hd
    obtain ⟨eh, ecs⟩ := e
    obtain ⟨dh, dcs⟩ := d
    simp only [Node.kind, Node.hd_mk, Node.content_mk] at hk hn hk0 hn0
    subst hn; subst hn0
    obtain ⟨n', hn', hdn'⟩ := merge_data E n n0 [dh.value] v w hdn0 hdn hm
    have hstep : mergeNode E (.mk dh [n0]) (.mk eh [n]) = .ok (.mk (mergeComments E dh eh [dh.value]) [n']) := by
      rw [mergeNode, merge.eq_def]
      simp [hk, Node.contentIsNil, hn']
    have hkind : (mergeComments E dh eh [dh.value]).kind = .document := by
      rw [← hk0]
      unfold mergeComments
      simp only
      split <;> (try split) <;> (try split) <;> rfl
    obtain ⟨r, hr1, hr2⟩ := ih (.mk (mergeComments E dh eh [dh.value]) [n']) (deepMerge v w) ⟨hkind, n', rfl, hdn'⟩
    refine ⟨r, ?_, hr2⟩
    simp only at hr1 ⊢
    rw [List.foldlM_cons, hstep, Res.bind_ok]
    exact hr1

theorem follow_nothing {ks : List Str} {v : Val} (h : follow ks v = .nothing) : valueAt ks v = none := by
  unfold valueAt; rw [h]

theorem keysDistinct_lookup (k : Str) (y : Val) : ∀ fs : List (Key × Val), KeysDistinctE fs → lookup k fs = some y → y.KeysDistinct
  | [], _, h => by cases h
  | (kk, x) :: fs, hd, h => by
    rw [KeysDistinctE] at hd
    rw [lookup] at h
    split at h
    · cases h; exact hd.1
    · exact keysDistinct_lookup k y fs hd.2 h

/-- What the merged value has at a path, by what the second value says about it. -/
theorem valueAt_deepMerge (ks : List Str) : ∀ (a b : Val), b.KeysDistinct →
    valueAt ks (deepMerge a b) =
      (match follow ks b with
      | .nothing => valueAt ks a
      | .blocked => none
      | .value y => (match valueAt ks a with
        | some x => some (deepMerge x y)
        | none => some y)) := by
  induction ks with
  | nil => intro a b _; simp [valueAt, follow]
  | cons k ks ih =>
    intro a b hb
    cases b with
    | «alias» n => simp [deepMerge, valueAt, follow]
    | scalar t s => simp [deepMerge, valueAt, follow]
    | seq t ys => cases a <;> simp [deepMerge, valueAt, follow]
    | map tag fs =>
      rw [Val.KeysDistinct] at hb
      -- the target as a mapping
      have hmap : ∀ (tg : Str) (es : List (Key × Val)), valueAt (k :: ks) (deepMerge (.map tg es) (.map tag fs)) =
          (match follow (k :: ks) (.map tag fs) with
          | .nothing => valueAt (k :: ks) (.map tg es)
          | .blocked => none
          | .value y => (match valueAt (k :: ks) (.map tg es) with
            | some x => some (deepMerge x y)
            | none => some y)) := by
        intro tg es
        obtain ⟨es', h1, h2⟩ := deepMerge_lookup k tg tag fs es hb.1
        rw [h1]
        simp only [valueAt, follow]
        rw [h2]
        cases hf : lookup k fs with
        | none => cases he : lookup k es <;> simp
        | some y =>
          have hy := keysDistinct_lookup k y fs hb.2 hf
          cases he : lookup k es with
          | none =>
            simp only
            cases follow ks y <;> rfl
          | some x =>
            simp only
            have := ih x y hy
            simp only [valueAt] at this
            rw [this]
      by_cases hmapa : ∃ tg es, a = .map tg es
      · obtain ⟨tg, es, rfl⟩ := hmapa
        exact hmap tg es
      · have hblock : follow (k :: ks) a = .blocked := by
          cases a with
          | map tg es => exact absurd ⟨tg, es, rfl⟩ hmapa
          | _ => rfl
        have hva : valueAt (k :: ks) a = none := by unfold valueAt; rw [hblock]
        have hasMap : asMap a = (c!"!!map", []) := by
          cases a with
          | map tg es => exact absurd ⟨tg, es, rfl⟩ hmapa
          | _ => rfl
        cases fs with
        | nil =>
          simp only [deepMerge, putAll, follow, lookup]
        | cons f fs =>
          have heq : deepMerge a (.map tag (f :: fs)) = deepMerge (.map c!"!!map" []) (.map tag (f :: fs)) := by
            obtain ⟨fk, fv⟩ := f
            rw [deepMerge, deepMerge, putAll, putAll, hasMap]
            rfl
          rw [heq, hmap, hva]
          have : valueAt (k :: ks) (.map c!"!!map" []) = none := rfl
          rw [this]

/-- **C45**: keys that the later files do not mention are kept. -/
theorem C45_unmentioned_kept (ks : List Str) (v : Val) (vs : List Val) (hd : ∀ w ∈ vs, w.KeysDistinct)
    (h : ∀ w ∈ vs, follow ks w = .nothing) : valueAt ks (vs.foldl deepMerge v) = valueAt ks v := by
  induction vs generalizing v with
  | nil => rfl
  | cons w ws ih =>
    rw [List.foldl_cons, ih _ (fun x hx => hd x (by simp [hx])) (fun x hx => h x (by simp [hx])),
      valueAt_deepMerge ks v w (hd w (by simp)), h w (by simp)]

/-- **C45**: the last file that has a scalar at a path decides, whatever the earlier
files have there. -/
theorem C45_last_decides (ks : List Str) (v : Val) (pre post : List Val) (w : Val) (tag text : Str)
    (hd : ∀ x ∈ pre ++ w :: post, x.KeysDistinct) (hw : follow ks w = .value (.scalar tag text))
    (h : ∀ x ∈ post, follow ks x = .nothing) :
    valueAt ks ((pre ++ w :: post).foldl deepMerge v) = some (.scalar tag text) := by
  rw [List.foldl_append, List.foldl_cons,
    C45_unmentioned_kept ks _ post (fun x hx => hd x (by simp [hx])) h,
    valueAt_deepMerge ks _ w (hd w (by simp)), hw]
  simp only
  cases valueAt ks (pre.foldl deepMerge v) with
  | none => rfl
  | some x => simp [deepMerge]

/-- **C45**: lists under the same key are not replaced but concatenated. -/
theorem C45_lists_concatenated (ks : List Str) (v w : Val) (t t' : Str) (xs ys : List Val) (hd : w.KeysDistinct)
    (hv : valueAt ks v = some (.seq t xs)) (hw : follow ks w = .value (.seq t' ys)) :
    valueAt ks (deepMerge v w) = some (.seq t (xs ++ ys)) := by
  rw [valueAt_deepMerge ks v w hd, hw]
  simp only [hv, deepMerge]

open Ex in
example : HoldsValues (dc (mp [sc c!"a", sc c!"1"])) (.map c!"!!map" [({ tag := c!"!!str", text := c!"a" }, .scalar c!"!!str" c!"1")]) :=
  ⟨rfl, mp [sc c!"a", sc c!"1"], rfl, rfl⟩

example :
    let v : Val := .map c!"!!map" [({ tag := c!"!!str", text := c!"a" }, .map c!"!!map" [({ tag := c!"!!str", text := c!"b" }, .scalar c!"!!int" c!"1"),
      ({ tag := c!"!!str", text := c!"c" }, .scalar c!"!!int" c!"2")])]
    let w : Val := .map c!"!!map" [({ tag := c!"!!str", text := c!"a" }, .map c!"!!map" [({ tag := c!"!!str", text := c!"b" }, .scalar c!"!!int" c!"3")])]
    w.KeysDistinct ∧ w.NoMarkers ∧ follow [c!"a", c!"b"] w = .value (.scalar c!"!!int" c!"3") ∧
      follow [c!"a", c!"c"] w = .nothing ∧
      valueAt [c!"a", c!"c"] (deepMerge v w) = some (.scalar c!"!!int" c!"2") := by
  refine ⟨?_, ?_, rfl, rfl, rfl⟩
  · simp [Val.KeysDistinct, KeysDistinctE]
  · simp only [Val.NoMarkers, NoMarkersE]
    refine ⟨by decide, ⟨by decide, by decide, trivial⟩, trivial⟩

/-- Text with format markers in a later values file is not taken literally. -/
theorem C45_markers_interpreted :
    let doc (s : Str) : Node := .mk { kind := .document, nilc := false } [.mk { kind := .scalar, tag := c!"!!str", value := s } []]
    getValues { compile := fun _ => false, run := fun _ _ => ([], true) } [doc c!"old", doc c!"new-%v"] = .ok (some (doc c!"new-old")) := by
  decide

end Yot
