import Verif.Model.Format
import Verif.Spec.Text
import Verif.Lemmas.Tac
/-
Lemmas relating `Model/Format` to `Spec/Text`.
-/
namespace Yot
open Spec

theorem isMarkerChar_iff (c : Char) : isMarkerChar c = true ↔ c ∈ letters := by
  simp [isMarkerChar, letters, or_assoc]

/-- Hypothesis-friendly form of `hasPrefix`. -/
theorem hasPrefix_iff (p s : Str) : hasPrefix p s = true ↔ p <+: s := by
  simp [hasPrefix]

theorem containsSub_iff (sub s : Str) : containsSub sub s = true ↔ sub <:+: s := by
  induction s with
  | nil => simp [containsSub, List.isEmpty_iff]
  | cons c t ih =>
    rw [containsSub, Bool.or_eq_true, ih, hasPrefix_iff, List.infix_cons_iff]

theorem checkForMarkers_iff (s : Str) : checkForMarkers s = false ↔ NoMarker s := by
  rw [← Bool.not_eq_true]
  simp only [checkForMarkers, markers, List.any_cons, List.any_nil, Bool.or_false,
    Bool.or_eq_true, containsSub_iff, NoMarker, letters, List.mem_cons, List.not_mem_nil, or_false,
    forall_eq_or_imp, forall_eq, markerV, markerL, markerH, markerF, markerK]
  tauto

theorem Spec.NoMarker.sub {s t : Str} (h : NoMarker t) (hs : s <:+: t) : NoMarker s :=
  fun c hc hi => h c hc (hi.trans hs)

theorem Spec.NoMarker.left {s t : Str} (h : NoMarker (s ++ t)) : NoMarker s :=
  h.sub (List.prefix_append s t).isInfix

theorem Spec.NoMarker.tail {c : Char} {t : Str} (h : NoMarker (c :: t)) : NoMarker t :=
  h.sub (List.suffix_cons c t).isInfix

theorem noMarker_nil : NoMarker [] := by decide

/-- Removing a marker from text without markers changes nothing. -/
theorem removeAllGo_zero {old s : Str} (h : ¬ old <:+: s) : removeAllGo old 0 s = s := by
  induction s with
  | nil => rfl
  | cons c t ih =>
    have h1 : ¬ old <+: (c :: t) := fun hp => h hp.isInfix
    have h2 : ¬ old <:+: t := fun hp => h (hp.trans (List.suffix_cons c t).isInfix)
    have h3 : hasPrefix old (c :: t) = false := by
      rw [← Bool.not_eq_true, hasPrefix_iff]; exact h1
    simp [removeAllGo, h3, ih h2]

theorem sanitizeStr_id {s : Str} (h : NoMarker s) : sanitizeStr s = s := by
  have hv := h 'v' (by decide)
  have hk := h 'k' (by decide)
  have hl := h 'l' (by decide)
  have hf := h 'f' (by decide)
  have hh := h 'h' (by decide)
  simp [sanitizeStr, markers, markerV, markerL, markerH, markerF, markerK, removeAll,
    removeAllGo_zero, hv, hk, hl, hf, hh]

/-- The lazily matched command is the text up to the first `}` on the line. -/
theorem lazyUntilBrace_eq (u : Str) :
    lazyUntilBrace u =
      (let cmd := u.takeWhile (fun d => d ≠ '}' && d ≠ '\n')
       if u[cmd.length]? = some '}' then some cmd else none) := by
  induction u with
  | nil => simp [lazyUntilBrace]
  | cons c t ih =>
    simp only [lazyUntilBrace]
    by_cases h1 : c = '}'
    · simp [h1]
    · by_cases h2 : c = '\n'
      · simp [h2]
      · simp only [h1, h2, if_false, ih]
        simp only [List.takeWhile_cons, ne_eq, h1, h2, not_false_eq_true, decide_true, Bool.and_self,
          if_true, List.length_cons, List.getElem?_cons_succ]
        split <;> simp

/-- A match of the model as a piece of the specification. -/
def Mtch.piece (m : Mtch) : Piece :=
  match m.cmd with
  | none => .marker m.letter
  | some c => .command m.letter c

theorem Mtch.piece_source (m : Mtch) : m.piece.source = m.text := by
  cases m with
  | mk l c => cases c <;> simp [Mtch.piece, Mtch.text, Piece.source]

theorem pieceAt_eq (s : Str) : pieceAt s = (matchAt s).map Mtch.piece := by
  match s with
  | [] => simp [pieceAt, matchAt]
  | [c] =>
    simp [pieceAt, matchAt]
  | c :: l :: t =>
    by_cases hc : c = '%'
    · subst hc
      simp only [pieceAt, matchAt]
      by_cases hl : l ∈ letters
      · have := (isMarkerChar_iff l).2 hl
        simp only [hl, this, if_true]
        match t with
        | [] => simp [commandAt, Mtch.piece]
        | d :: u =>
          by_cases hd : d = '{'
          · subst hd
            simp only [commandAt, lazyUntilBrace_eq]
            split <;> simp_all [Mtch.piece]
          · have h1 : commandAt (d :: u) = none := by
              simp only [commandAt]
              split
              · simp_all
              · rfl
            simp only [h1]
            split
            · simp_all
            · simp [Mtch.piece]
      · have : isMarkerChar l = false := by
          rw [← Bool.not_eq_true, isMarkerChar_iff]; exact hl
        simp [hl, this]
    · simp only [pieceAt, matchAt]
      split <;> split <;> simp_all

/-- The marker pieces, as matches. -/
def pieceMatches (ps : List Piece) : List Mtch :=
  ps.filterMap fun p =>
    match p with
    | .text _ => none
    | .marker l => some ⟨l, none⟩
    | .command l c => some ⟨l, some c⟩

theorem pieceMatches_piece (m : Mtch) (ps : List Piece) :
    pieceMatches (m.piece :: ps) = m :: pieceMatches ps := by
  cases m with
  | mk l c => cases c <;> simp [Mtch.piece, pieceMatches]

theorem findMatchesGo_eq (k : Nat) (s : Str) :
    findMatchesGo k s = pieceMatches (parseGo k s) := by
  induction s generalizing k with
  | nil => cases k <;> rfl
  | cons c t ih =>
    cases k with
    | succ k => simp [findMatchesGo, parseGo, ih]
    | zero =>
      simp only [findMatchesGo, parseGo, pieceAt_eq]
      cases h : matchAt (c :: t) with
      | none => simp [ih, pieceMatches]
      | some m => simp [ih, pieceMatches_piece, Mtch.piece_source]

theorem takeWhile_getElem {p : Char → Bool} {u : Str} {c : Char}
    (hx : u[(u.takeWhile p).length]? = some c) : u.takeWhile p ++ [c] <+: u := by
  have h1 := List.takeWhile_append_dropWhile (p := p) (l := u)
  generalize u.takeWhile p = cmd at *
  generalize u.dropWhile p = r at *
  subst h1
  cases r with
  | nil => simp at hx
  | cons a r => simp at hx; subst hx; exact ⟨r, by simp⟩

/-- A piece recognised at the start of a text is written there. -/
theorem pieceAt_prefix {s : Str} {p : Piece} (h : pieceAt s = some p) : p.source <+: s := by
  match s with
  | [] => simp [pieceAt] at h
  | [c] => simp [pieceAt] at h
  | c :: l :: t =>
    by_cases hc : c = '%'
    · subst hc
      simp only [pieceAt] at h
      split at h
      · split at h
        · split at h
          · rename_i hx
            cases h
            simp only [Piece.source, List.cons_append, List.cons_prefix_cons, true_and]
            exact takeWhile_getElem hx
          · cases h; simp [Piece.source]
        · cases h; simp [Piece.source]
      · simp at h
    · simp only [pieceAt] at h
      split at h <;> simp_all

theorem pieceAt_length {s : Str} {p : Piece} (h : pieceAt s = some p) : 0 < p.source.length := by
  cases p <;> simp [Piece.source]

/-- Reading a text loses nothing. -/
theorem parseGo_source (k : Nat) (s : Str) : source (parseGo k s) = s.drop k := by
  induction s generalizing k with
  | nil => cases k <;> rfl
  | cons c t ih =>
    cases k with
    | succ k => simp [parseGo, ih]
    | zero =>
      simp only [parseGo, List.drop_zero]
      cases h : pieceAt (c :: t) with
      | none => simp [source, Piece.source]; simpa [source] using ih 0
      | some p =>
        obtain ⟨r, hr⟩ := pieceAt_prefix h
        have hlen := pieceAt_length h
        simp only [source, List.flatMap_cons]
        have := ih (p.source.length - 1)
        simp only [source] at this
        rw [this]
        conv_rhs => rw [← hr]
        congr 1
        have : (c :: t).drop p.source.length = r := by rw [← hr]; simp
        rw [← this]
        cases hp : p.source.length with
        | zero => omega
        | succ n => simp

theorem parse_source (s : Str) : source (parse s) = s := by
  simp [parse, parseGo_source]

/-- Every piece read from a text that is not plain has a marker letter. -/
theorem pieceAt_letter {s : Str} {p : Piece} (h : pieceAt s = some p) :
    ∃ l ∈ letters, ∃ r, p.source = '%' :: l :: r := by
  match s with
  | [] => simp [pieceAt] at h
  | [c] => simp [pieceAt] at h
  | c :: l :: t =>
    by_cases hc : c = '%'
    · subst hc
      simp only [pieceAt] at h
      split at h
      · rename_i hl
        refine ⟨l, hl, ?_⟩
        split at h
        · split at h <;> cases h <;> simp [Piece.source]
        · cases h; simp [Piece.source]
      · simp at h
    · simp only [pieceAt] at h
      split at h <;> simp_all

theorem parseGo_letters (k : Nat) (s : Str) :
    ∀ m ∈ pieceMatches (parseGo k s), m.letter ∈ letters := by
  induction s generalizing k with
  | nil => cases k <;> simp [parseGo, pieceMatches]
  | cons c t ih =>
    cases k with
    | succ k => simpa [parseGo] using ih k
    | zero =>
      simp only [parseGo]
      cases h : pieceAt (c :: t) with
      | none => simpa [pieceMatches] using ih 0
      | some p =>
        have hp := h
        rw [pieceAt_eq] at h
        cases hm : matchAt (c :: t) with
        | none => simp [hm] at h
        | some m =>
          simp [hm] at h; subst h
          simp only [pieceMatches_piece, List.mem_cons, forall_eq_or_imp]
          refine ⟨?_, ih _⟩
          obtain ⟨l, hl, r, hr⟩ := pieceAt_letter hp
          rw [Mtch.piece_source] at hr
          simp [Mtch.text] at hr
          rw [hr.1]; exact hl

/-- Rewriting the first occurrence of a match text behind a prefix without that
marker hits the intended place. -/
theorem replaceFirst_skip (P r : Str) (l : Char) (m v : Str) (hl : l ∈ letters)
    (hP : ¬ ['%', l] <:+: P) :
    replaceFirst ('%' :: l :: m) v (P ++ ('%' :: l :: m) ++ r) = P ++ v ++ r := by
  induction P with
  | nil =>
    have : hasPrefix ('%' :: l :: m) ('%' :: l :: m ++ r) = true := by
      rw [hasPrefix_iff]; exact List.prefix_append _ _
    rw [List.nil_append, List.nil_append]
    show replaceFirst ('%' :: l :: m) v ('%' :: (l :: m ++ r)) = _
    rw [replaceFirst]
    have h2 : ('%' :: (l :: m ++ r)) = ('%' :: l :: m) ++ r := rfl
    rw [h2, this]; simp
  | cons c P ih =>
    have hne : hasPrefix ('%' :: l :: m) (c :: (P ++ ('%' :: l :: m) ++ r)) = false := by
      rw [← Bool.not_eq_true, hasPrefix_iff]
      intro hpre
      cases P with
      | nil =>
        simp only [List.nil_append, List.cons_append, List.cons_prefix_cons] at hpre
        have : l = '%' := hpre.2.1
        subst this; exact absurd hl (by decide)
      | cons d P =>
        simp only [List.cons_append, List.cons_prefix_cons] at hpre
        obtain ⟨h1, h2, _⟩ := hpre
        subst h1; subst h2
        exact hP ⟨[], P, by simp⟩
    simp only [List.cons_append, replaceFirst]
    simp only [List.cons_append, List.append_assoc] at hne ih ⊢
    rw [hne, if_neg (by simp), ih (fun hi => hP (hi.trans (List.suffix_cons c P).isInfix))]

/-- The texts a `Vals` holds, by letter. -/
theorem substFor_eq (E : Sed) (x : Vals) (m : Mtch) :
    substFor E x m = (m.piece).meaning x.get (processSed E) := by
  cases m with
  | mk l c =>
    cases c with
    | none => simp [substFor, Mtch.piece, Piece.meaning]
    | some c =>
      cases c <;> simp [substFor, Mtch.piece, Piece.meaning]

/-- The rewriting loop computes the meaning of the template as long as no marker
it has yet to replace occurs in what it has produced so far. -/
theorem fold_eq (E : Sed) (x : Vals) (ps : List Piece) (P : Str)
    (hl : ∀ m ∈ pieceMatches ps, m.letter ∈ letters)
    (h : ∀ a p b l, ps = a ++ p :: b → p.letter? = some l →
      ¬ (['%', l] <:+: P ++ meaning x.get (processSed E) a)) :
    (pieceMatches ps).foldl (fun acc m => replaceFirst m.text (substFor E x m) acc)
      (P ++ source ps) = P ++ meaning x.get (processSed E) ps := by
  induction ps generalizing P with
  | nil => simp [pieceMatches, source, meaning]
  | cons p ps ih =>
    have hstep : ∀ Q : Str, Q = P ++ p.meaning x.get (processSed E) →
        ∀ a p' b l, ps = a ++ p' :: b → p'.letter? = some l →
          ¬ (['%', l] <:+: Q ++ meaning x.get (processSed E) a) := by
      intro Q hQ a p' b l hps hlet
      have := h (p :: a) p' b l (by simp [hps]) hlet
      subst hQ
      simpa [meaning] using this
    cases p with
    | text c =>
      have e1 : P ++ source (Piece.text c :: ps) = (P ++ [c]) ++ source ps := by
        simp [source, Piece.source]
      have e2 : P ++ meaning x.get (processSed E) (Piece.text c :: ps)
          = (P ++ [c]) ++ meaning x.get (processSed E) ps := by
        simp [meaning, Piece.meaning]
      have e3 : pieceMatches (Piece.text c :: ps) = pieceMatches ps := by simp [pieceMatches]
      rw [e1, e2, e3]; rw [e3] at hl
      exact ih _ hl (hstep _ rfl)
    | marker l =>
      let m : Mtch := ⟨l, none⟩
      have e3 : pieceMatches (Piece.marker l :: ps) = m :: pieceMatches ps := by simp [pieceMatches, m]
      rw [e3] at hl ⊢
      have hm := hl m (by simp)
      have e1 : P ++ source (Piece.marker l :: ps) = P ++ ('%' :: l :: []) ++ source ps := by
        simp [source, Piece.source]
      have e0 : substFor E x m = (Piece.marker l).meaning x.get (processSed E) := substFor_eq E x m
      have e2 : P ++ meaning x.get (processSed E) (Piece.marker l :: ps)
          = (P ++ substFor E x m) ++ meaning x.get (processSed E) ps := by
        simp [meaning, e0]
      rw [List.foldl_cons, e1, e2]
      have ht : m.text = '%' :: l :: [] := rfl
      rw [ht, replaceFirst_skip P _ l _ _ hm (by simpa [meaning] using h [] _ ps l rfl rfl)]
      exact ih _ (fun a ha => hl a (by simp [ha])) (hstep _ (by rw [e0]))
    | command l c =>
      let m : Mtch := ⟨l, some c⟩
      have e3 : pieceMatches (Piece.command l c :: ps) = m :: pieceMatches ps := by simp [pieceMatches, m]
      rw [e3] at hl ⊢
      have hm := hl m (by simp)
      have e1 : P ++ source (Piece.command l c :: ps)
          = P ++ ('%' :: l :: ('{' :: c ++ ['}'])) ++ source ps := by
        simp [source, Piece.source]
      have e0 : substFor E x m = (Piece.command l c).meaning x.get (processSed E) := substFor_eq E x m
      have e2 : P ++ meaning x.get (processSed E) (Piece.command l c :: ps)
          = (P ++ substFor E x m) ++ meaning x.get (processSed E) ps := by
        simp [meaning, e0]
      rw [List.foldl_cons, e1, e2]
      have ht : m.text = '%' :: l :: ('{' :: c ++ ['}']) := rfl
      rw [ht, replaceFirst_skip P _ l _ _ hm (by simpa [meaning] using h [] _ ps l rfl rfl)]
      exact ih _ (fun a ha => hl a (by simp [ha])) (hstep _ (by rw [e0]))

theorem doFormat_eq (E : Sed) (x : Vals) (s : Str)
    (h : Safe x.get (processSed E) (parse s)) :
    doFormat E x s = meaning x.get (processSed E) (parse s) := by
  have h1 := fold_eq E x (parse s) [] (parseGo_letters 0 s) (by simpa [Safe] using h)
  simp only [List.nil_append, parse_source] at h1
  simpa [doFormat, findMatches, findMatchesGo_eq, parse] using h1

/-- The letters of the pieces read from a text are marker letters. -/
theorem parse_letter {s : Str} {p : Piece} {l : Char} (hp : p ∈ parse s)
    (hl : p.letter? = some l) : l ∈ letters := by
  have h := parseGo_letters 0 s
  cases p with
  | text c => simp [Piece.letter?] at hl
  | marker l' =>
    simp [Piece.letter?] at hl; subst hl
    exact h ⟨l', none⟩ (List.mem_filterMap.2 ⟨_, hp, rfl⟩)
  | command l' c =>
    simp [Piece.letter?] at hl; subst hl
    exact h ⟨l', some c⟩ (List.mem_filterMap.2 ⟨_, hp, rfl⟩)

/-- If the whole outcome contains no marker then the template is safe. -/
theorem safe_of_noMarker {orig : Char → Str} {sed : Str → Str → Str} {s : Str}
    (h : NoMarker (meaning orig sed (parse s))) : Safe orig sed (parse s) := by
  intro a p b l hps hlet hi
  have hl : l ∈ letters := parse_letter (s := s) (p := p) (by rw [hps]; simp) hlet
  refine h l hl (hi.trans ?_)
  rw [hps]
  simp only [meaning, List.flatMap_append]
  exact (List.prefix_append _ _).isInfix

/-- The plain characters before the first marker contain no marker. -/
theorem noMarker_plain_prefix (a rest : List Piece) (s : Str) (hs : parse s = a ++ rest)
    (ha : ∀ p ∈ a, p.letter? = none) : NoMarker (source a) := by
  induction a generalizing s with
  | nil => simpa [source] using noMarker_nil
  | cons p a ih =>
    cases s with
    | nil => simp [parse, parseGo] at hs
    | cons c t =>
      simp only [parse, parseGo] at hs
      cases hp : pieceAt (c :: t) with
      | some q =>
        rw [hp] at hs
        simp only [List.cons_append, List.cons.injEq] at hs
        obtain ⟨l, hl, r, hr⟩ := pieceAt_letter hp
        have := ha p (by simp)
        rw [← hs.1] at this
        cases q <;> simp [Piece.letter?] at this
        simp [Piece.source] at hr
      | none =>
        rw [hp] at hs
        simp only [List.cons_append, List.cons.injEq] at hs
        obtain ⟨h1, h2⟩ := hs
        subst h1
        have hih := ih t h2 (fun p hp => ha p (by simp [hp]))
        have hsrc : source (Piece.text c :: a) = c :: source a := by simp [source, Piece.source]
        rw [hsrc]
        intro l hl hi
        rw [List.infix_cons_iff] at hi
        rcases hi with hi | hi
        · rw [List.cons_prefix_cons] at hi
          obtain ⟨hc, hl'⟩ := hi
          have ht : source (parse t) = t := parse_source t
          rw [parse, h2] at ht
          simp only [source, List.flatMap_append] at ht
          obtain ⟨w, hw⟩ := hl'
          have : t = l :: (w ++ List.flatMap Piece.source rest) := by
            rw [← ht]
            have : List.flatMap Piece.source a = [l] ++ w := by rw [hw]; rfl
            rw [this]; simp
          rw [this, ← hc] at hp
          simp only [pieceAt, hl, if_true] at hp
          split at hp
          · split at hp <;> simp at hp
          · simp at hp
        · exact hih l hl hi

theorem meaning_plain (orig : Char → Str) (sed : Str → Str → Str) (a : List Piece)
    (ha : ∀ p ∈ a, p.letter? = none) : meaning orig sed a = source a := by
  induction a with
  | nil => rfl
  | cons p a ih =>
    have := ha p (by simp)
    cases p <;> simp [Piece.letter?] at this
    simp only [meaning, source, List.flatMap_cons] at ih ⊢
    rw [ih (fun p hp => ha p (by simp [hp]))]
    rfl

/-- A template with a single marker is safe. -/
theorem safe_of_single {orig : Char → Str} {sed : Str → Str → Str} {s : Str}
    {a b : List Piece} {p : Piece} (hs : parse s = a ++ p :: b)
    (ha : ∀ q ∈ a, q.letter? = none) (hb : ∀ q ∈ b, q.letter? = none) :
    Safe orig sed (parse s) := by
  intro a' p' b' l hps hlet hi
  have hl : l ∈ letters := parse_letter (s := s) (p := p') (by rw [hps]; simp) hlet
  have hsub : ∀ q ∈ a', q.letter? = none := by
    rw [hs] at hps
    rw [List.append_eq_append_iff] at hps
    rcases hps with ⟨w, h1, h2⟩ | ⟨w, h1, h2⟩
    · cases w with
      | nil => simp at h1; subst h1; exact ha
      | cons q w =>
        simp only [List.cons_append, List.cons.injEq] at h2
        have : p' ∈ b := by rw [h2.2]; simp
        rw [hb p' this] at hlet; simp at hlet
    · intro q hq; exact ha q (by rw [h1]; simp [hq])
  rw [meaning_plain _ _ _ hsub] at hi
  exact noMarker_plain_prefix a' (p' :: b') s hps hsub l hl hi

/-- Text without markers has no matches. -/
theorem findMatches_nil {s : Str} (h : NoMarker s) : findMatches s = [] := by
  suffices ∀ k, findMatchesGo k s = [] from this 0
  induction s with
  | nil => intro k; cases k <;> rfl
  | cons c t ih =>
    intro k
    cases k with
    | succ k => simpa [findMatchesGo] using ih h.tail k
    | zero =>
      simp only [findMatchesGo]
      have : matchAt (c :: t) = none := by
        match t with
        | [] => simp [matchAt]
        | l :: t =>
          by_cases hc : c = '%'
          · subst hc
            simp only [matchAt]
            have : isMarkerChar l = false := by
              rw [← Bool.not_eq_true, isMarkerChar_iff]
              intro hl
              exact h l hl ⟨[], t, by simp⟩
            simp [this]
          · simp only [matchAt]; split <;> simp_all
      rw [this]
      exact ih h.tail 0

theorem format_id (E : Sed) (x : Vals) {s : Str} (h : NoMarker s) : format E s x = s := by
  simp [format, doFormat, findMatches_nil h]

theorem sanitizeVals_id {x : Vals} (h : ∀ c, NoMarker (x.get c)) : sanitizeVals x = x := by
  have hv := h 'v'
  have hl := h 'l'
  have hh := h 'h'
  have hf := h 'f'
  have hk := h 'k'
  simp [Vals.get] at hv hl hh hf hk
  simp [sanitizeVals, sanitizeStr_id, hv, hl, hh, hf, hk]

theorem trimPrefix_newline (s : Str) : trimPrefix ['\n'] s = dropFirstNewline s := by
  cases s with
  | nil => rfl
  | cons c t =>
    by_cases h : c = '\n'
    · simp [trimPrefix, hasPrefix, dropFirstNewline, h, List.isPrefixOf]
    · have : ('\n' == c) = false := by simp; exact fun e => h e.symm
      simp [trimPrefix, hasPrefix, dropFirstNewline, h, List.isPrefixOf, this]

theorem trimPrefix_hash (s : Str) : trimPrefix ['#'] s = uncomment s := by
  cases s with
  | nil => rfl
  | cons c t =>
    by_cases h : c = '#'
    · simp [trimPrefix, hasPrefix, uncomment, h, List.isPrefixOf]
    · have : ('#' == c) = false := by simp; exact fun e => h e.symm
      simp [trimPrefix, hasPrefix, uncomment, h, List.isPrefixOf, this]

theorem trimSuffix_newline (s : Str) : trimSuffix ['\n'] s = dropLastNewline s := by
  rcases List.eq_nil_or_concat s with rfl | ⟨t, c, rfl⟩
  · rfl
  · by_cases h : c = '\n'
    · subst h
      have : (['\n'] : Str).isSuffixOf (t ++ ['\n']) = true := by
        rw [List.isSuffixOf_iff_suffix]; exact List.suffix_append _ _
      simp [trimSuffix, dropLastNewline, this]
    · have : (['\n'] : Str).isSuffixOf (t ++ [c]) = false := by
        rw [← Bool.not_eq_true, List.isSuffixOf_iff_suffix]
        rintro ⟨w, hw⟩
        have := List.append_inj' hw rfl
        simp at this; exact h this.2.symm
      simp [trimSuffix, dropLastNewline, this, h]

theorem processSed_eq (E : Sed) : processSed E = sedResult E.compile E.run := by
  funext c v
  simp [processSed, sedResult, trimPrefix_newline, trimSuffix_newline]

/-- The general form of C06/C07 for `format`. -/
theorem format_eq (E : Sed) (x : Vals) (s : Str) (hx : ∀ l, NoMarker (x.get l))
    (h : Safe x.get (sedResult E.compile E.run) (parse s)) :
    format E s x = meaning x.get (sedResult E.compile E.run) (parse s) := by
  rw [format, sanitizeVals_id hx, doFormat_eq, processSed_eq]
  rw [processSed_eq]; exact h


theorem removeAll_marker (l : Char) (s : Str) : removeAll ['%', l] s = without l s := by
  unfold removeAll
  induction s using without.induct l with
  | case1 => rfl
  | case2 c =>
    rw [without, removeAllGo, if_neg, removeAllGo]
    simp [hasPrefix]
  | case3 c d t h ih =>
    rw [without, if_pos h, removeAllGo, if_pos]
    · exact ih
    · simp [hasPrefix, h]
  | case4 c d t h ih =>
    rw [without, if_neg h, removeAllGo, if_neg, ih]
    simp only [hasPrefix, List.isPrefixOf, Bool.and_eq_true, beq_iff_eq, and_true]
    exact fun ⟨a, b⟩ => h ⟨a.symm, b.symm⟩

theorem sanitizeStr_bare (s : Str) : sanitizeStr s = bare s := by
  simp only [sanitizeStr, markers, List.foldl, markerV, markerL, markerH, markerF, markerK, removeAll_marker]
  rfl

theorem sanitizeVals_bare (x : Vals) : (sanitizeVals x).get = fun l => bare (x.get l) := by
  funext l
  simp only [sanitizeVals, sanitizeStr_bare, Vals.get]
  split_ifs <;> rfl

/-- `format` without assumptions on the values. -/
theorem format_bare (E : Sed) (x : Vals) (s : Str)
    (h : Safe (fun l => bare (x.get l)) (sedResult E.compile E.run) (parse s)) :
    format E s x = meaning (fun l => bare (x.get l)) (sedResult E.compile E.run) (parse s) := by
  rw [format, doFormat_eq, processSed_eq, sanitizeVals_bare]
  rw [processSed_eq, sanitizeVals_bare]; exact h

end Yot
