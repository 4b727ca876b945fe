import Verif.Lemmas.Tree
import Verif.Spec.Build
import Verif.Spec.Comments
/-
C06-C09: format markers and comments.
-/
namespace Yot
open Spec Ex

/-! ### C06 -/

/-- The key name known to an edit: the name under which a node sits in a mapping
(`[key]`), or none at the top of a match (`[]`). -/
def keyOf (vals : List Str) : Str := vals.headD []

theorem formatVals_get (o : Hdr) (vals : List Str) (hv : vals.length ≤ 1) :
    (formatVals o vals).get = originals o.value (keyOf vals) o.line o.head o.foot := by
  funext l
  match vals, hv with
  | [], _ => simp [formatVals, valueAndKey, Vals.get, originals, keyOf, trimPrefix_hash]; grind
  | [k], _ => simp [formatVals, valueAndKey, Vals.get, originals, keyOf, trimPrefix_hash]; grind

/-- C06, text without markers: a scalar overlay without markers is stored
verbatim, whatever it is merged into. -/
theorem C06_plain_text_verbatim (E : Sed) (o n o' : Node) (vals : List Str)
    (hn : n.kind = .scalar) (hm : NoMarker n.hd.value)
    (h : merge E o vals n = .ok o') : o'.hd.value = n.hd.value := by
  obtain ⟨nh, ncs⟩ := n
  simp only [Node.kind, Node.hd_mk] at hn hm
  simp only [merge_scalar E o vals hn, Res.ok.injEq] at h
  subst h
  unfold mergeScalar
  dsimp only
  split <;> simp [format_id E _ hm]

example : merge noSed (sc c!"old") [] (sc c!"50% off") = .ok (sc c!"50% off") ∧
    NoMarker c!"50% off" := by decide

/-- C06 (partial): merging a scalar replaces every marker by the original text
and keeps the rest, provided the original texts contain no marker themselves and
no marker of the template reappears in the text produced before it (`Safe`).
Missing: without these provisos the claim is false, see `C06_interference` and
`C06_marker_in_original`. -/
theorem C06_markers_partial (E : Sed) (o n o' : Node) (vals : List Str)
    (hv : vals.length ≤ 1) (hn : n.kind = .scalar)
    (hx : ∀ l, NoMarker (originals o.hd.value (keyOf vals) o.hd.line o.hd.head o.hd.foot l))
    (hs : Safe (originals o.hd.value (keyOf vals) o.hd.line o.hd.head o.hd.foot)
      (sedResult E.compile E.run) (parse n.hd.value))
    (h : merge E o vals n = .ok o') :
    o'.hd.value = meaning (originals o.hd.value (keyOf vals) o.hd.line o.hd.head o.hd.foot)
      (sedResult E.compile E.run) (parse n.hd.value) := by
  obtain ⟨nh, ncs⟩ := n
  simp only [Node.kind, Node.hd_mk] at hn hs ⊢
  simp only [merge_scalar E o vals hn, Res.ok.injEq] at h
  subst h
  rw [← formatVals_get o.hd vals hv] at hx hs ⊢
  have := format_eq E (formatVals o.hd vals) nh.value hx hs
  unfold mergeScalar
  dsimp only
  split <;> simp [this]

/-- C06 (partial), for all originals: marker text in an original is dropped
(`bare`), and then every marker is replaced by that and the rest is kept, provided no
marker of the template reappears in the text produced before it. -/
theorem C06_exact_partial (E : Sed) (o n o' : Node) (vals : List Str)
    (hv : vals.length ≤ 1) (hn : n.kind = .scalar)
    (hs : Safe (fun l => bare (originals o.hd.value (keyOf vals) o.hd.line o.hd.head o.hd.foot l))
      (sedResult E.compile E.run) (parse n.hd.value))
    (h : merge E o vals n = .ok o') :
    o'.hd.value = meaning (fun l => bare (originals o.hd.value (keyOf vals) o.hd.line o.hd.head o.hd.foot l))
      (sedResult E.compile E.run) (parse n.hd.value) := by
  obtain ⟨nh, ncs⟩ := n
  simp only [Node.kind, Node.hd_mk] at hn hs ⊢
  simp only [merge_scalar E o vals hn, Res.ok.injEq] at h
  subst h
  rw [← formatVals_get o.hd vals hv] at hs ⊢
  have := format_bare E (formatVals o.hd vals) nh.value hs
  unfold mergeScalar
  dsimp only
  split <;> simp [this]

example : (match merge noSed (sc c!"50%vol") [c!"a%kb"] (sc c!"%k=%v!") with | .ok r => r.hd.value | _ => [])
    = c!"ab=50ol!" ∧ bare c!"a%kb" = c!"ab" ∧ bare c!"%%vv" = c!"%v" := by decide

/-- C06 (partial): the proviso of `C06_markers_partial` on the template holds
whenever the outcome contains no marker. -/
theorem C06_clean_outcome_partial (E : Sed) (o n o' : Node) (vals : List Str)
    (hv : vals.length ≤ 1) (hn : n.kind = .scalar)
    (hx : ∀ l, NoMarker (originals o.hd.value (keyOf vals) o.hd.line o.hd.head o.hd.foot l))
    (hs : NoMarker (meaning (originals o.hd.value (keyOf vals) o.hd.line o.hd.head o.hd.foot)
      (sedResult E.compile E.run) (parse n.hd.value)))
    (h : merge E o vals n = .ok o') :
    o'.hd.value = meaning (originals o.hd.value (keyOf vals) o.hd.line o.hd.head o.hd.foot)
      (sedResult E.compile E.run) (parse n.hd.value) :=
  C06_markers_partial E o n o' vals hv hn hx (safe_of_noMarker hs) h

example :
    let o : Node := .mk { kind := .scalar, value := c!"1", line := c!"#one" } []
    let n := sc c!"%k=%v;%l 100%"
    NoMarker (meaning (originals o.hd.value c!"a" o.hd.line o.hd.head o.hd.foot)
      (sedResult noSed.compile noSed.run) (parse n.hd.value)) ∧
    (match merge noSed o [c!"a"] n with | .ok r => r.hd.value | _ => []) = c!"a=1;one 100%" := by
  decide

/-- C06 (partial): a template with one marker needs no proviso on the template. -/
theorem C06_single_marker_partial (E : Sed) (o n o' : Node) (vals : List Str)
    (hv : vals.length ≤ 1) (hn : n.kind = .scalar)
    (hx : ∀ l, NoMarker (originals o.hd.value (keyOf vals) o.hd.line o.hd.head o.hd.foot l))
    (pre post : Str) (l : Char)
    (hp : parse n.hd.value = pre.map Piece.text ++ Piece.marker l :: post.map Piece.text)
    (h : merge E o vals n = .ok o') :
    o'.hd.value =
      pre ++ originals o.hd.value (keyOf vals) o.hd.line o.hd.head o.hd.foot l ++ post := by
  have hplain : ∀ w : Str, ∀ q ∈ w.map Piece.text, q.letter? = none := by
    intro w q hq
    obtain ⟨c, _, rfl⟩ := List.mem_map.1 hq
    rfl
  have htext : ∀ orig sed (w : Str), meaning orig sed (w.map Piece.text) = w := by
    intro orig sed w
    induction w with
    | nil => rfl
    | cons c w ih => simp only [meaning, List.map_cons, List.flatMap_cons] at ih ⊢; rw [ih]; rfl
  have hs := safe_of_single (orig := originals o.hd.value (keyOf vals) o.hd.line o.hd.head o.hd.foot)
    (sed := sedResult E.compile E.run) hp (hplain pre) (hplain post)
  rw [C06_markers_partial E o n o' vals hv hn hx hs h, hp]
  have : ∀ orig sed (a b : List Piece) p,
      meaning orig sed (a ++ p :: b) = meaning orig sed a ++ p.meaning orig sed ++ meaning orig sed b := by
    intro orig sed a b p
    simp [meaning]
  rw [this, htext, htext]
  rfl

example : parse c!"x-%v-y" = c!"x-".map Piece.text ++ Piece.marker 'v' :: c!"-y".map Piece.text ∧
    (match merge noSed (sc c!"%") [] (sc c!"x-%v-y") with | .ok r => r.hd.value | _ => []) = c!"x-%-y" := by
  decide

/-- C06 is false in general: text inserted for one marker can complete a marker
with a `%` written before it, and the next replacement then hits the wrong
place. -/
theorem C06_interference :
    let o : Node := .mk { kind := .scalar, value := c!"A", head := c!"#v1" } []
    let n := sc c!"%%h%v"
    (∀ l ∈ letters, NoMarker (originals c!"A" [] [] c!"#v1" [] l)) ∧
    meaning (originals c!"A" [] [] c!"#v1" []) (sedResult noSed.compile noSed.run) (parse c!"%%h%v")
      = c!"%v1A" ∧
    (match merge noSed o [] n with | .ok r => r.hd.value | _ => []) = c!"A1%v" := by decide

/-- C06 is false in general: marker text in the original value is dropped. -/
theorem C06_marker_in_original :
    meaning (originals c!"50%vol" [] [] [] []) (sedResult noSed.compile noSed.run) (parse c!"%v!")
      = c!"50%vol!" ∧
    (match merge noSed (sc c!"50%vol") [] (sc c!"%v!") with | .ok r => r.hd.value | _ => [])
      = c!"50ol!" := by decide

/-! ### C07 -/

/-- C07 (partial): a template with one marker and a command is replaced by what
the command makes of the original text; the surrounding text is kept.
Missing: originals that themselves contain marker text (it is dropped first, see
`C06_marker_in_original`); several markers are covered by `C06_markers_partial`
under its proviso. -/
theorem C07_command_partial (E : Sed) (o n o' : Node) (vals : List Str)
    (hv : vals.length ≤ 1) (hn : n.kind = .scalar)
    (hx : ∀ l, NoMarker (originals o.hd.value (keyOf vals) o.hd.line o.hd.head o.hd.foot l))
    (pre post : Str) (l : Char) (cmd : Str) (hc : cmd ≠ [])
    (hp : parse n.hd.value = pre.map Piece.text ++ Piece.command l cmd :: post.map Piece.text)
    (h : merge E o vals n = .ok o') :
    o'.hd.value =
      pre ++ sedResult E.compile E.run cmd
        (originals o.hd.value (keyOf vals) o.hd.line o.hd.head o.hd.foot l) ++ post := by
  have hplain : ∀ w : Str, ∀ q ∈ w.map Piece.text, q.letter? = none := by
    intro w q hq
    obtain ⟨c, _, rfl⟩ := List.mem_map.1 hq
    rfl
  have htext : ∀ orig sed (w : Str), meaning orig sed (w.map Piece.text) = w := by
    intro orig sed w
    induction w with
    | nil => rfl
    | cons c w ih => simp only [meaning, List.map_cons, List.flatMap_cons] at ih ⊢; rw [ih]; rfl
  have hs := safe_of_single (orig := originals o.hd.value (keyOf vals) o.hd.line o.hd.head o.hd.foot)
    (sed := sedResult E.compile E.run) hp (hplain pre) (hplain post)
  rw [C06_markers_partial E o n o' vals hv hn hx hs h, hp]
  have : ∀ orig sed (a b : List Piece) p,
      meaning orig sed (a ++ p :: b) = meaning orig sed a ++ p.meaning orig sed ++ meaning orig sed b := by
    intro orig sed a b p
    simp [meaning]
  rw [this, htext, htext]
  simp [Piece.meaning, hc]

/-- C07 (partial), for all originals: the command is applied to the original text
without its marker text. -/
theorem C07_command_exact_partial (E : Sed) (o n o' : Node) (vals : List Str)
    (hv : vals.length ≤ 1) (hn : n.kind = .scalar)
    (pre post : Str) (l : Char) (cmd : Str) (hc : cmd ≠ [])
    (hp : parse n.hd.value = pre.map Piece.text ++ Piece.command l cmd :: post.map Piece.text)
    (h : merge E o vals n = .ok o') :
    o'.hd.value =
      pre ++ sedResult E.compile E.run cmd
        (bare (originals o.hd.value (keyOf vals) o.hd.line o.hd.head o.hd.foot l)) ++ post := by
  have hplain : ∀ w : Str, ∀ q ∈ w.map Piece.text, q.letter? = none := by
    intro w q hq
    obtain ⟨c, _, rfl⟩ := List.mem_map.1 hq
    rfl
  have htext : ∀ orig sed (w : Str), meaning orig sed (w.map Piece.text) = w := by
    intro orig sed w
    induction w with
    | nil => rfl
    | cons c w ih => simp only [meaning, List.map_cons, List.flatMap_cons] at ih ⊢; rw [ih]; rfl
  have hs := safe_of_single (orig := fun l => bare (originals o.hd.value (keyOf vals) o.hd.line o.hd.head o.hd.foot l))
    (sed := sedResult E.compile E.run) hp (hplain pre) (hplain post)
  rw [C06_exact_partial E o n o' vals hv hn hs h, hp]
  have : ∀ orig sed (a b : List Piece) p,
      meaning orig sed (a ++ p :: b) = meaning orig sed a ++ p.meaning orig sed ++ meaning orig sed b := by
    intro orig sed a b p
    simp [meaning]
  rw [this, htext, htext]
  simp [Piece.meaning, hc]

example : (match merge dupSed (sc c!"a%vb") [] (sc c!"<%v{d2}>") with | .ok r => r.hd.value | _ => []) = c!"<abab>" := by
  decide

/-- C07, failing commands: if the engine rejects the command the original text is
used and the run goes on. -/
theorem C07_bad_command_partial (E : Sed) (o n o' : Node) (vals : List Str)
    (hv : vals.length ≤ 1) (hn : n.kind = .scalar)
    (hx : ∀ l, NoMarker (originals o.hd.value (keyOf vals) o.hd.line o.hd.head o.hd.foot l))
    (pre post : Str) (l : Char) (cmd : Str) (hc : cmd ≠ []) (hbad : E.compile cmd = false)
    (hp : parse n.hd.value = pre.map Piece.text ++ Piece.command l cmd :: post.map Piece.text)
    (h : merge E o vals n = .ok o') :
    o'.hd.value =
      pre ++ originals o.hd.value (keyOf vals) o.hd.line o.hd.head o.hd.foot l ++ post := by
  rw [C07_command_partial E o n o' vals hv hn hx pre post l cmd hc hp h]
  simp [sedResult, hbad]

/-- A scalar merge never fails, whatever the template, the command and the
engine. -/
theorem C07_no_failure (E : Sed) (o n : Node) (vals : List Str) (hn : n.kind = .scalar) :
    ∃ o', merge E o vals n = .ok o' := by
  obtain ⟨nh, ncs⟩ := n
  simp only [Node.kind, Node.hd_mk] at hn
  exact ⟨_, merge_scalar E o vals hn⟩

example : parse c!"<%v{d2}>" = c!"<".map Piece.text ++ Piece.command 'v' c!"d2" :: c!">".map Piece.text ∧
    (match merge dupSed (sc c!"ab") [] (sc c!"<%v{d2}>") with | .ok r => r.hd.value | _ => []) = c!"<abab>" ∧
    (match merge noSed (sc c!"ab") [] (sc c!"<%v{d2}>") with | .ok r => r.hd.value | _ => []) = c!"<ab>" := by
  decide

/-! ### C08 -/

/-- What a text becomes when it is inserted where there is no original: markers
stand for nothing. -/
def strip (E : Sed) (s : Str) : Str :=
  meaning (fun _ => []) (sedResult E.compile E.run) (parse s)

theorem format_strip (E : Sed) (s : Str)
    (h : Safe (fun _ => []) (sedResult E.compile E.run) (parse s)) :
    format E s {} = strip E s := by
  have hg : (({} : Vals)).get = fun _ => [] := by
    funext l; simp only [Vals.get]; repeat' split
    all_goals rfl
  have := format_eq E {} s (by intro l; rw [hg]; exact noMarker_nil) (by rw [hg]; exact h)
  rw [hg] at this
  exact this

/-- C08 (partial), appended elements: the elements appended to a sequence are the
overlay's with the markers of every text and comment removed.  Missing: texts in
which removing a marker produces a new one (not `Safe`), see
`C08_marker_recreated`. -/
theorem C08_appended_partial (E : Sed) (o n o' : Node) (vals : List Str)
    (ho : o.kind = .sequence) (hn : n.kind = .sequence)
    (hs : ∀ c ∈ n.content, AllNodes (OnStrings (fun s =>
      Safe (fun _ => []) (sedResult E.compile E.run) (parse s))) c)
    (h : merge E o vals n = .ok o') :
    o'.content = o.content ++ n.content.map (mapStrings (strip E)) := by
  obtain ⟨nh, ncs⟩ := n
  simp only [Node.kind, Node.hd_mk, Node.content_mk] at ho hn hs ⊢
  simp only [merge_sequence E o vals hn, Res.ok.injEq] at h
  subst h
  have hc := sanitize_fresh_list E (strip E) ncs (fun c hc => AllNodes_mono
    (fun x ⟨h1, h2, h3, h4⟩ => ⟨format_strip E _ h1, format_strip E _ h2, format_strip E _ h3,
      format_strip E _ h4⟩) c (hs c hc))
  unfold mergeArray
  simp only [toSequence, ho, ne_eq, not_true_eq_false, if_false]
  split
  · rename_i hnil
    simp [Node.contentIsNil] at hnil
    simp [hnil.2]
  · simp [addNode, appendContent, hc]

/-- C08 (partial), added entries: the same for an entry whose key the target
mapping lacks. -/
theorem C08_added_entry_partial (E : Sed) (o k v o' : Node) (nh : Hdr) (vals : List Str)
    (ho : o.kind = .mapping) (hn : nh.kind = .mapping)
    (hk : NoMarker k.hd.value)
    (hlack : ∀ c ∈ o.content, c.hd.value ≠ k.hd.value)
    (hs : ∀ c ∈ [k, v], AllNodes (OnStrings (fun s =>
      Safe (fun _ => []) (sedResult E.compile E.run) (parse s))) c)
    (h : merge E o vals (.mk nh [k, v]) = .ok o') :
    o'.content = o.content ++ [k, v].map (mapStrings (strip E)) := by
  have hc := sanitize_fresh_list E (strip E) [k, v] (fun c hc => AllNodes_mono
    (fun x ⟨h1, h2, h3, h4⟩ => ⟨format_strip E _ h1, format_strip E _ h2, format_strip E _ h3,
      format_strip E _ h4⟩) c (hs c hc))
  have hinner := mergeInner_absent E (fun x key => merge E x [key] v) k.hd o.content hk hlack
  have h' : mergeEntries E o [k, v] = .ok o' := by
    rw [← merge_mapping E o vals hn]; exact h
  have hto : toMapping o = o := by simp only [toMapping, ne_eq]; rw [if_neg]; simpa using ho
  rw [mergeEntries] at h'
  simp only [hto, hinner, Res.bind_ok, mergeEntries, Res.ok.injEq] at h'
  subst h'
  simp [addNode, appendContent, hc]

/-- C08, texts without markers are inserted verbatim. -/
theorem C08_verbatim (E : Sed) (s : Str) (h : NoMarker s) :
    Safe (fun _ => []) (sedResult E.compile E.run) (parse s) ∧ strip E s = s := by
  have hnone : ∀ p ∈ parse s, p.letter? = none := by
    intro p hp
    have h0 : pieceMatches (parse s) = [] := by
      rw [parse, ← findMatchesGo_eq]; exact findMatches_nil h
    cases p with
    | text c => rfl
    | marker l =>
      have : (⟨l, none⟩ : Mtch) ∈ pieceMatches (parse s) := List.mem_filterMap.2 ⟨_, hp, rfl⟩
      rw [h0] at this; simp at this
    | command l c =>
      have : (⟨l, some c⟩ : Mtch) ∈ pieceMatches (parse s) := List.mem_filterMap.2 ⟨_, hp, rfl⟩
      rw [h0] at this; simp at this
  constructor
  · intro a p b l hps hlet
    have := hnone p (by rw [hps]; simp)
    rw [this] at hlet; simp at hlet
  · rw [strip, meaning_plain _ _ _ hnone, parse_source]

/-- C08: a text whose stripped form contains no marker is stripped correctly, and
so carries no marker afterwards. -/
theorem C08_no_marker_left_partial (E : Sed) (s : Str) (h : NoMarker (strip E s)) :
    Safe (fun _ => []) (sedResult E.compile E.run) (parse s) ∧ NoMarker (format E s {}) := by
  have hs := safe_of_noMarker h
  exact ⟨hs, by rw [format_strip E s hs]; exact h⟩

example : NoMarker (strip noSed c!"a%v-%k{s/x/y/}b") ∧ strip noSed c!"a%v-%k{s/x/y/}b" = c!"a-b" := by
  decide

/-- C08 is false in general: removing a marker can leave a new one. -/
theorem C08_marker_recreated :
    (match merge noSed (sq []) [] (sq [sc c!"%%vv"]) with
      | .ok r => r.content.map (·.hd.value) | _ => []) = [c!"%v"] ∧ ¬ NoMarker c!"%v" := by decide

/-! ### C09 -/

theorem mergeComments_spec (E : Sed) (o n : Hdr) (vals : List Str)
    (hh : NoMarker n.head) (hl : NoMarker n.line) (hf : NoMarker n.foot) :
    CommentsKept o n (mergeComments E o n vals) := by
  unfold mergeComments CommentsKept keepUnless
  simp only [format_id E _ hh, format_id E _ hl, format_id E _ hf]
  by_cases h1 : n.head = [] <;> by_cases h2 : n.line = [] <;> by_cases h3 : n.foot = [] <;>
    simp [h1, h2, h3]

theorem mergeComments_kind (E : Sed) (o n : Hdr) (vals : List Str) :
    (mergeComments E o n vals).kind = o.kind ∧ (mergeComments E o n vals).value = o.value ∧
    (mergeComments E o n vals).tag = o.tag ∧ (mergeComments E o n vals).style = o.style ∧
    (mergeComments E o n vals).anchor = o.anchor ∧ (mergeComments E o n vals).addr = o.addr ∧
    (mergeComments E o n vals).nilc = o.nilc ∧ (mergeComments E o n vals).hasAlias = o.hasAlias ∧
    (mergeComments E o n vals).row = o.row ∧ (mergeComments E o n vals).col = o.col := by
  unfold mergeComments
  dsimp only
  split
  · simp
  · split
    · simp
    · split <;> simp

/-- C09 (partial), merge of a scalar, with marker-free overlay comments: each
comment stays unless the overlay has one of that kind.  Missing, as false of the code: an
overlay with a head comment but no line comment, or with a head or line comment but no
foot comment, erases the comments it does not supply (`C09_line_erased`,
`C09_foot_erased`; `CommentsKept` says what becomes of them). -/
theorem C09_merge_scalar_partial (E : Sed) (o n o' : Node) (vals : List Str)
    (hn : n.kind = .scalar)
    (hm : NoMarker n.hd.head ∧ NoMarker n.hd.line ∧ NoMarker n.hd.foot)
    (h : merge E o vals n = .ok o') :
    CommentsKept o.hd n.hd o'.hd := by
  obtain ⟨nh, ncs⟩ := n
  simp only [Node.kind, Node.hd_mk] at hn hm ⊢
  simp only [merge_scalar E o vals hn, Res.ok.injEq] at h
  subst h
  have hs := mergeComments_spec E o.hd nh vals hm.1 hm.2.1 hm.2.2
  unfold mergeScalar
  dsimp only
  split <;> exact hs

/-- C09 (partial), merge of a non-empty sequence. -/
theorem C09_merge_sequence_partial (E : Sed) (o n o' : Node) (vals : List Str)
    (hn : n.kind = .sequence) (hne : n.content ≠ [])
    (hm : NoMarker n.hd.head ∧ NoMarker n.hd.line ∧ NoMarker n.hd.foot)
    (h : merge E o vals n = .ok o') :
    CommentsKept o.hd n.hd o'.hd := by
  obtain ⟨nh, ncs⟩ := n
  simp only [Node.kind, Node.hd_mk, Node.content_mk] at hn hm hne ⊢
  simp only [merge_sequence E o vals hn, Res.ok.injEq] at h
  subst h
  have hnil : (Node.mk nh ncs).contentIsNil = false := by
    cases ncs with
    | nil => simp at hne
    | cons => simp [Node.contentIsNil]
  have e1 : (toSequence o).hd.head = o.hd.head := by unfold toSequence; split <;> rfl
  have e2 : (toSequence o).hd.line = o.hd.line := by unfold toSequence; split <;> rfl
  have e3 : (toSequence o).hd.foot = o.hd.foot := by unfold toSequence; split <;> rfl
  have hs := mergeComments_spec E (toSequence o).hd nh [(toSequence o).hd.value] hm.1 hm.2.1 hm.2.2
  unfold CommentsKept at hs ⊢
  rw [e1, e2, e3] at hs
  unfold mergeArray
  simp only [hnil, Bool.false_eq_true, if_false]
  exact hs

/-- C09 (partial), replace. -/
theorem C09_replace_partial (E : Sed) (o n : Node)
    (hm : NoMarker n.hd.head ∧ NoMarker n.hd.line ∧ NoMarker n.hd.foot) :
    let o' := replaceNode E o n
    CommentsKept o.hd n.hd o'.hd := by
  obtain ⟨nh, ncs⟩ := n
  have hs := mergeComments_spec E o.hd { nh with addr := 0 } [] hm.1 hm.2.1 hm.2.2
  exact hs

/-- C09 (partial), combine. -/
theorem C09_combine_partial (E : Sed) (o n o' : Node)
    (hm : NoMarker n.hd.head ∧ NoMarker n.hd.line ∧ NoMarker n.hd.foot)
    (h : combineNode E o n = .ok o') :
    CommentsKept o.hd n.hd o'.hd := by
  have hs := mergeComments_spec E o.hd n.hd [] hm.1 hm.2.1 hm.2.2
  unfold combineNode at h
  split at h
  · simp at h
  · dsimp only at h
    split at h
    · split at h <;> simp only [Res.ok.injEq, reduceCtorEq] at h
      subst h; exact hs
    · split at h
      · split at h <;> simp only [Res.ok.injEq, reduceCtorEq] at h
        subst h; exact hs
      · simp only [Res.ok.injEq] at h
        subst h; exact hs

/-- C09 with markers (partial): an overlay comment with markers becomes its
meaning in terms of the original texts of the node (here for the line comment of
a scalar merge; head and foot are alike). -/
theorem C09_line_markers_partial (E : Sed) (o n o' : Node) (vals : List Str)
    (hv : vals.length ≤ 1) (hn : n.kind = .scalar) (hl : n.hd.line ≠ [])
    (hx : ∀ l, NoMarker (originals o.hd.value (keyOf vals) o.hd.line o.hd.head o.hd.foot l))
    (hs : Safe (originals o.hd.value (keyOf vals) o.hd.line o.hd.head o.hd.foot)
      (sedResult E.compile E.run) (parse n.hd.line))
    (h : merge E o vals n = .ok o') :
    o'.hd.line = meaning (originals o.hd.value (keyOf vals) o.hd.line o.hd.head o.hd.foot)
      (sedResult E.compile E.run) (parse n.hd.line) := by
  obtain ⟨nh, ncs⟩ := n
  simp only [Node.kind, Node.hd_mk] at hn hs hl ⊢
  simp only [merge_scalar E o vals hn, Res.ok.injEq] at h
  subst h
  rw [← formatVals_get o.hd vals hv] at hx hs ⊢
  have hf := format_eq E (formatVals o.hd vals) nh.line hx hs
  have : (mergeComments E o.hd nh vals).line = format E nh.line (formatVals o.hd vals) := by
    unfold mergeComments
    by_cases h1 : nh.head = [] <;> simp [h1, hl]
  unfold mergeScalar
  dsimp only
  split <;> simp [this, hf]

/-- C09 is false in general: a head comment in the overlay erases the original
line comment, for every node and every overlay scalar that has a head but no line
comment. -/
theorem C09_line_erased (E : Sed) (o n o' : Node) (vals : List Str)
    (hn : n.kind = .scalar) (h1 : n.hd.head ≠ []) (h2 : n.hd.line = [])
    (h : merge E o vals n = .ok o') : o'.hd.line = [] := by
  obtain ⟨nh, ncs⟩ := n
  simp only [Node.kind, Node.hd_mk] at hn h1 h2
  simp only [merge_scalar E o vals hn, Res.ok.injEq] at h
  subst h
  have : (mergeComments E o.hd nh vals).line = [] := by
    unfold mergeComments
    simp [h1, h2, format_id E _ noMarker_nil]
  unfold mergeScalar
  dsimp only
  split <;> simpa using this

/-- C09 is false in general: a head or line comment in the overlay erases the
original foot comment. -/
theorem C09_foot_erased (E : Sed) (o n o' : Node) (vals : List Str)
    (hn : n.kind = .scalar) (h1 : n.hd.head ≠ [] ∨ n.hd.line ≠ []) (h2 : n.hd.foot = [])
    (h : merge E o vals n = .ok o') : o'.hd.foot = [] := by
  obtain ⟨nh, ncs⟩ := n
  simp only [Node.kind, Node.hd_mk] at hn h1 h2
  simp only [merge_scalar E o vals hn, Res.ok.injEq] at h
  subst h
  have : (mergeComments E o.hd nh vals).foot = [] := by
    unfold mergeComments
    by_cases h3 : nh.head = []
    · have h4 : nh.line ≠ [] := by simpa [h3] using h1
      simp [h3, h4, h2, format_id E _ noMarker_nil]
    · simp [h3, h2, format_id E _ noMarker_nil]
  unfold mergeScalar
  dsimp only
  split <;> simpa using this

/-- The counterexample to C09 in full: the line comment `# keep` is lost. -/
theorem C09_counterexample :
    let o : Node := .mk { kind := .scalar, value := c!"1", line := c!"# keep" } []
    let n : Node := .mk { kind := .scalar, value := c!"2", head := c!"# new" } []
    (match merge noSed o [] n with | .ok r => (r.hd.head, r.hd.line) | _ => ([], [])) = (c!"# new", []) := by
  decide

example :
    let o : Node := .mk { kind := .scalar, value := c!"1", head := c!"# a", line := c!"# keep" } []
    let n : Node := .mk { kind := .scalar, value := c!"2", foot := c!"# f" } []
    (n.hd.head ≠ [] → n.hd.line ≠ []) ∧ (n.hd.head ≠ [] ∨ n.hd.line ≠ [] → n.hd.foot ≠ []) ∧
    (match merge noSed o [] n with | .ok r => (r.hd.head, r.hd.line, r.hd.foot) | _ => ([], [], []))
      = (c!"# a", c!"# keep", c!"# f") := by decide

end Yot
