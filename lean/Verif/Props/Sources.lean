import Verif.Lemmas.Sources
import Verif.Spec.Sources
import Verif.Props.Output
import Verif.Spec.Build
import Verif.Props.Again
/-
C92, C93: no comment and no text appears from nowhere.
-/
namespace Yot
open Spec Ex

/-- `Q` holds of the three comments. -/
def CommentsAll (Q : Str → Prop) (h : Hdr) : Prop := Q h.head ∧ Q h.line ∧ Q h.foot

theorem format_empty (E : Sed) (x : Vals) : format E [] x = [] := rfl

theorem passes_comments (E : Sed) (R Q : Str → Prop) (h0 : Q []) (hf : ∀ t, R t → Q t ∧ ∀ x, Q (format E t x)) :
    Passes E (CommentsAll R) (CommentsAll Q) where
  same := by
    intro h h' hp _ h1 h2 h3
    unfold CommentsAll at *
    rw [← h1, ← h2, ← h3]; exact hp
  comm := by
    intro h n vals hn hp
    unfold mergeComments
    dsimp only
    repeat' split
    · exact ⟨(hf _ hn.1).2 _, (hf _ hn.2.1).2 _, (hf _ hn.2.2).2 _⟩
    · exact ⟨hp.1, (hf _ hn.2.1).2 _, (hf _ hn.2.2).2 _⟩
    · exact ⟨hp.1, hp.2.1, (hf _ hn.2.2).2 _⟩
    · exact hp
  val := fun h n x _ hp => hp
  cleared := fun h hp => hp
  new := fun h hp => ⟨(hf _ hp.1).1, (hf _ hp.2.1).1, (hf _ hp.2.2).1⟩
  newSan := fun h hp => ⟨(hf _ hp.1).2 _, (hf _ hp.2.1).2 _, (hf _ hp.2.2).2 _⟩
  okSame := by
    intro h h' hp _ h1 h2 h3
    unfold CommentsAll at *
    rw [← h1, ← h2, ← h3]; exact hp
  repl := fun h n _ hp => hp

theorem passes_texts (E : Sed) (R Q : Str → Prop) (h0 : Q []) (hf : ∀ t, R t → Q t ∧ ∀ x, Q (format E t x)) :
    Passes E (fun h => R h.value) (fun h => Q h.value) where
  same := by
    intro h h' hp h0 _ _ _
    rw [← h0]; exact hp
  comm := by
    intro h n vals hn hp
    have : (mergeComments E h n vals).value = h.value := by
      unfold mergeComments
      dsimp only
      repeat' split
      all_goals rfl
    rw [this]; exact hp
  val := fun h n x hn _ => (hf _ hn).2 x
  cleared := fun h _ => h0
  new := fun h hp => (hf _ hp).1
  newSan := fun h hp => (hf _ hp).2 _
  okSame := by
    intro h h' hp h0 _ _ _
    rw [← h0]; exact hp
  repl := fun h n hn _ => (hf _ hn).1

theorem combine_comments (E : Sed) (R Q : Str → Prop) (h0 : Q []) (hf : ∀ t, R t → Q t ∧ ∀ x, Q (format E t x))
    (o n o' : Node) (hn : CommentsAll R n.hd) (hc : combineNode E o n = .ok o') : KeepsTo (CommentsAll Q) o o' := by
  have S := passes_comments E R Q h0 hf
  unfold combineNode at hc
  split at hc
  · simp at hc
  · dsimp only at hc
    repeat' split at hc
    all_goals first
      | (cases hc; exact ⟨fun h => S.comm o.hd n.hd [] hn h, id⟩)
      | simp at hc

theorem mem_commentsAt {h : Hdr} {c : Str} : c ∈ commentsAt h ↔ (c = h.head ∨ c = h.line ∨ c = h.foot) ∧ c ≠ [] := by
  unfold commentsAt
  simp [List.mem_filter]

theorem commentsAll_iff (Q : Str → Prop) (h0 : Q []) (h : Hdr) : CommentsAll Q h ↔ ∀ c ∈ commentsAt h, Q c := by
  constructor
  · intro hq c hc
    rw [mem_commentsAt] at hc
    rcases hc.1 with rfl | rfl | rfl
    exacts [hq.1, hq.2.1, hq.2.2]
  · intro hq
    have key : ∀ c, (c = h.head ∨ c = h.line ∨ c = h.foot) → Q c := by
      intro c hc
      by_cases he : c = []
      · rw [he]; exact h0
      · exact hq c (mem_commentsAt.2 ⟨hc, he⟩)
    exact ⟨key _ (by simp), key _ (by simp), key _ (by simp)⟩

theorem allNodess_headers (p : Hdr → Prop) (cs : List Node) : (∀ c ∈ cs, AllNodes p c) ↔ ∀ h ∈ headerss cs, p h := by
  induction cs with
  | nil => simp [headerss]
  | cons c cs ih =>
    rw [headerss, List.forall_mem_cons, ih, allNodes_headers]
    simp [List.mem_append, or_imp, forall_and]

theorem commentsIn_iff (Q : Str → Prop) (h0 : Q []) (n : Node) : AllNodes (CommentsAll Q) n ↔ ∀ c ∈ commentsIn n, Q c := by
  rw [allNodes_headers]
  unfold commentsIn
  simp only [List.mem_flatMap, forall_exists_index, and_imp]
  exact ⟨fun h c x hx hc => (commentsAll_iff Q h0 x).1 (h x hx) c hc, fun h x hx => (commentsAll_iff Q h0 x).2 (fun c hc => h c x hx hc)⟩

theorem commentsBelow_iff (Q : Str → Prop) (h0 : Q []) (n : Node) :
    (∀ c ∈ n.content, AllNodes (CommentsAll Q) c) ↔ ∀ c ∈ commentsBelow n, Q c := by
  rw [allNodess_headers]
  unfold commentsBelow
  simp only [List.mem_flatMap, forall_exists_index, and_imp]
  exact ⟨fun h c x hx hc => (commentsAll_iff Q h0 x).1 (h x hx) c hc, fun h x hx => (commentsAll_iff Q h0 x).2 (fun c hc => h c x hx hc)⟩

theorem textsIn_iff (Q : Str → Prop) (h0 : Q []) (n : Node) : AllNodes (fun h => Q h.value) n ↔ ∀ c ∈ textsIn n, Q c := by
  rw [allNodes_headers]
  unfold textsIn
  simp only [List.mem_filter, List.mem_map, decide_eq_true_eq, and_imp, forall_exists_index]
  constructor
  · intro h c x hx hc _
    rw [← hc]; exact h x hx
  · intro h x hx
    by_cases he : x.value = []
    · rw [he]; exact h0
    · exact h _ x hx rfl he

theorem textsBelow_iff (Q : Str → Prop) (h0 : Q []) (n : Node) :
    (∀ c ∈ n.content, AllNodes (fun h => Q h.value) c) ↔ ∀ c ∈ textsBelow n, Q c := by
  rw [allNodess_headers]
  unfold textsBelow
  simp only [List.mem_filter, List.mem_map, decide_eq_true_eq, and_imp, forall_exists_index]
  constructor
  · intro h c x hx hc _
    rw [← hc]; exact h x hx
  · intro h x hx
    by_cases he : x.value = []
    · rw [he]; exact h0
    · exact h _ x hx rfl he

/-! ### Built paths have no comments -/

theorem newPath_uncommented : ∀ (ls : List Lexeme) (n : Node), newPath ls = .ok n → AllNodes (CommentsAll (· = [])) n := by
  intro ls
  induction ls with
  | nil => intro n h; simp only [newPath, Res.ok.injEq] at h; subst h; exact ⟨⟨rfl, rfl, rfl⟩, trivial⟩
  | cons l ls ih =>
    intro n h
    have hmap : ∀ names sub, AllNodes (CommentsAll (· = [])) sub → AllNodes (CommentsAll (· = [])) (mapNode names sub) := by
      intro names sub hs
      unfold mapNode
      rw [allNodes_mk]
      refine ⟨⟨rfl, rfl, rfl⟩, ?_⟩
      intro c hc
      obtain ⟨x, _, hx⟩ := List.mem_flatMap.1 hc
      simp only [List.mem_cons, List.not_mem_nil, or_false] at hx
      rcases hx with rfl | rfl
      · exact ⟨⟨rfl, rfl, rfl⟩, trivial⟩
      · exact hs
    rw [newPath] at h
    split at h
    · cases h
    · cases h; exact ⟨⟨rfl, rfl, rfl⟩, trivial⟩
    · cases h; exact ⟨⟨rfl, rfl, rfl⟩, trivial⟩
    · simp only [Res.bind_eq_ok, Res.ok.injEq] at h
      obtain ⟨sub, h1, rfl⟩ := h
      unfold docNode
      rw [allNodes_mk]
      exact ⟨⟨rfl, rfl, rfl⟩, by simpa using ih sub h1⟩
    · dsimp only at h
      split at h
      · cases h
      · split at h
        · cases h
        · simp only [Res.bind_eq_ok, Res.ok.injEq] at h
          obtain ⟨sub, h1, rfl⟩ := h
          exact hmap _ _ (ih sub h1)
    · split at h
      · cases h
      · simp only [Res.bind_eq_ok, Res.ok.injEq] at h
        obtain ⟨sub, h1, rfl⟩ := h
        exact hmap _ _ (ih sub h1)
    · simp only [Res.bind_eq_ok, Res.ok.injEq] at h
      obtain ⟨sub, h1, rfl⟩ := h
      exact hmap _ _ (ih sub h1)

theorem buildPath_uncommented (s : Str) (n : Node) (h : buildPath s = .ok n) : AllNodes (CommentsAll (· = [])) n := by
  unfold buildPath at h
  split at h
  · exact newPath_uncommented _ _ h
  · cases h

theorem applyItems_comments (E : Sed) (dflt : Str) (os : List (Option DOverlay)) (d d' : Node) (I : Str → Prop)
    (h : applyItems E dflt os d = .ok d') :
    KeepsTo (CommentsAll fun c => c = [] ∨ I c ∨ ∃ o, some o ∈ os ∧ ∃ t ∈ commentsIn o.base.value, FilledFrom E t c) d d' := by
  let Q : Str → Prop := fun c => c = [] ∨ I c ∨ ∃ o, some o ∈ os ∧ ∃ t ∈ commentsIn o.base.value, FilledFrom E t c
  let R : Str → Prop := fun c => c = [] ∨ ∃ o, some o ∈ os ∧ ∃ t ∈ commentsIn o.base.value, FilledFrom E t c
  have hRQ : ∀ t, R t → Q t ∧ ∀ x, Q (format E t x) := by
    rintro t (rfl | ⟨o, ho, s, hs, hf⟩)
    · exact ⟨.inl rfl, fun x => .inl rfl⟩
    · exact ⟨.inr (.inr ⟨o, ho, s, hs, hf⟩), fun x => .inr (.inr ⟨o, ho, s, hs, .filled _ x hf⟩)⟩
  have hb : ∀ t, t = [] → Q t ∧ ∀ x, Q (format E t x) := by
    rintro t rfl
    exact ⟨.inl rfl, fun x => .inl rfl⟩
  have S := passes_comments E R Q (.inl rfl) hRQ
  have Sb := passes_comments E (· = []) Q (.inl rfl) hb
  have B := passes_comments E (· = []) (· = []) rfl (by rintro t rfl; exact ⟨rfl, fun x => rfl⟩)
  have hv : ∀ o, some o ∈ os → AllNodes (CommentsAll R) o.base.value := fun o ho =>
    (commentsIn_iff R (.inl rfl) _).2 (fun t ht => .inr ⟨o, ho, t, ht, .itself⟩)
  exact S.applyItems Sb B dflt os hv
    (fun o ho _ x x' hc => combine_comments E R Q (.inl rfl) hRQ x _ x' ((allNodes_iff _ _).1 (hv o ho)).1 hc)
    (fun o ho q _ n hn => buildPath_uncommented q.str n hn) d d' h

theorem mem_commentsIn_ne {n : Node} {c : Str} (h : c ∈ commentsIn n ∨ c ∈ commentsBelow n) : c ≠ [] := by
  rcases h with h | h
  all_goals
    obtain ⟨x, _, hx⟩ := List.mem_flatMap.1 h
    exact (mem_commentsAt.1 hx).2

/-- **C92**: every comment in a resulting document is one of the input document, or one of the
value of an overlay on it (with its markers filled in). -/
theorem C92_sources (T : Task) (P : Setup) (p : Str) (docs : List Node) (h : T.FileResult P p docs) (i : Nat) (d d' : Node)
    (hd : (T.contents P p)[i]? = some d) (hd' : docs[i]? = some d') (c : Str) (hc : c ∈ commentsBelow d') :
    c ∈ commentsBelow d ∨ ∃ o, some o ∈ T.overlaysOn P p i ∧ ∃ t ∈ commentsIn o.base.value, FilledFrom P.sed t c := by
  obtain ⟨x, hx, ha⟩ := h.2 i d hd
  rw [hd', Option.some.injEq] at hx
  subst hx
  have hk := applyItems_comments P.sed P.dflt _ d d' (· ∈ commentsBelow d) ha
  have := (commentsBelow_iff _ (.inl rfl) d').1 (hk.2 ((commentsBelow_iff _ (.inl rfl) d).2 (fun c hc => .inr (.inl hc)))) c hc
  exact this.resolve_left (mem_commentsIn_ne (.inr hc))

/-- **C92**, with the comments of the document node itself. -/
theorem C92_sources_all (T : Task) (P : Setup) (p : Str) (docs : List Node) (h : T.FileResult P p docs) (i : Nat) (d d' : Node)
    (hd : (T.contents P p)[i]? = some d) (hd' : docs[i]? = some d') (c : Str) (hc : c ∈ commentsIn d') :
    c ∈ commentsIn d ∨ ∃ o, some o ∈ T.overlaysOn P p i ∧ ∃ t ∈ commentsIn o.base.value, FilledFrom P.sed t c := by
  obtain ⟨x, hx, ha⟩ := h.2 i d hd
  rw [hd', Option.some.injEq] at hx
  subst hx
  have hk := applyItems_comments P.sed P.dflt _ d d' (· ∈ commentsIn d) ha
  have := (commentsIn_iff _ (.inl rfl) d').1 (hk.all ((commentsIn_iff _ (.inl rfl) d).2 (fun c hc => .inr (.inl hc)))) c hc
  exact this.resolve_left (mem_commentsIn_ne (.inl hc))

theorem removed_below (d : Node) : commentsBelow (removeComments d) = [] := by
  have h : ∀ c ∈ commentsBelow (removeComments d), c = [] := by
    rw [← commentsBelow_iff (· = []) rfl, removeComments_eq]
    exact (AllNodess_iff _ _).1 (mapHdrs_all _ _ (fun x => ⟨rfl, rfl, rfl⟩) _)
  rw [List.eq_nil_iff_forall_not_mem]
  intro c hc
  obtain ⟨x, _, hx⟩ := List.mem_flatMap.1 hc
  exact (mem_commentsAt.1 hx).2 (h c hc)

/-- **C92**, the documented purpose of `--remove-comments`: the comments of the input are
gone before the overlays apply, so that all comments in the result come from the
instructions. -/
theorem C92_removed (T : Task) (P : Setup) (p : Str) (docs : List Node) (h : T.FileResult P p docs) (hr : P.removeComments = true)
    (i : Nat) (d' : Node) (hd' : docs[i]? = some d') (c : Str) (hc : c ∈ commentsBelow d') :
    ∃ o, some o ∈ T.overlaysOn P p i ∧ ∃ t ∈ commentsIn o.base.value, FilledFrom P.sed t c := by
  have hi : i < (T.contents P p).length := by
    rw [← h.1]
    exact (List.getElem?_eq_some_iff.1 hd').1
  have hd := List.getElem?_eq_getElem hi
  rcases C92_sources T P p docs h i _ d' hd hd' c hc with hm | hm
  · exfalso
    have : (T.contents P p)[i] ∈ T.contents P p := List.getElem_mem hi
    revert hm
    generalize (T.contents P p)[i] = x at this
    unfold Task.contents at this
    rw [hr] at this
    obtain ⟨y, _, rfl⟩ := List.mem_map.1 this
    rw [removed_below]
    simp
  · exact hm

theorem filledFrom_plain {E : Sed} {t c : Str} (ht : NoMarker t) (h : FilledFrom E t c) : c = t := by
  induction h with
  | itself => rfl
  | filled s x _ ih => rw [ih, format_id E x ht]

/-- **C92**: when the comments of the overlays have no markers, the comments of the result
are, letter by letter, comments of the overlays; without comments there, there are none. -/
theorem C92_plain (T : Task) (P : Setup) (p : Str) (docs : List Node) (h : T.FileResult P p docs) (hr : P.removeComments = true)
    (i : Nat) (hn : ∀ o, some o ∈ T.overlaysOn P p i → ∀ t ∈ commentsIn o.base.value, NoMarker t)
    (d' : Node) (hd' : docs[i]? = some d') (c : Str) (hc : c ∈ commentsBelow d') :
    ∃ o, some o ∈ T.overlaysOn P p i ∧ c ∈ commentsIn o.base.value := by
  obtain ⟨o, ho, t, ht, hf⟩ := C92_removed T P p docs h hr i d' hd' c hc
  refine ⟨o, ho, ?_⟩
  rw [filledFrom_plain (hn o ho t ht) hf]
  exact ht

/-- **C92**: removing comments, with overlays without comments, gives documents without comments. -/
theorem C92_none (T : Task) (P : Setup) (p : Str) (docs : List Node) (h : T.FileResult P p docs) (hr : P.removeComments = true)
    (i : Nat) (hn : ∀ o, some o ∈ T.overlaysOn P p i → commentsIn o.base.value = []) (d' : Node) (hd' : docs[i]? = some d') :
    commentsBelow d' = [] := by
  rw [List.eq_nil_iff_forall_not_mem]
  intro c hc
  obtain ⟨o, ho, t, ht, _⟩ := C92_removed T P p docs h hr i d' hd' c hc
  rw [hn o ho] at ht
  simp at ht

/-! ### Texts -/

theorem combine_texts (E : Sed) (o n o' : Node) (h : combineNode E o n = .ok o') :
    CombinedOf o.hd.value n.hd.value o'.hd.value ∧ o'.content = o.content := by
  have hv : (mergeComments E o.hd n.hd []).value = o.hd.value := by
    unfold mergeComments
    dsimp only
    repeat' split
    all_goals rfl
  unfold combineNode at h
  split at h
  · simp at h
  · dsimp only at h
    rw [hv] at h
    split at h
    · split at h
      · rename_i a b ha hb
        cases h
        exact ⟨.inr (.inl ⟨a, b, ha, hb, rfl⟩), rfl⟩
      · simp at h
    · split at h
      · split at h
        · rename_i a b ha hb
          cases h
          exact ⟨.inr (.inr ⟨a, b, ha, hb, rfl⟩), rfl⟩
        · simp at h
      · cases h
        exact ⟨.inl rfl, rfl⟩

theorem applyItems_texts (E : Sed) (dflt : Str) (os : List (Option DOverlay))
    (d d' : Node) (h : applyItems E dflt os d = .ok d') (c : Str) (hc : c ∈ textsBelow d') :
    TextFrom E (· ∈ textsBelow d) (ValueText os) (PathText os) (AddedText os) c := by
  let F := TextFrom E (· ∈ textsBelow d) (ValueText os) (PathText os) (AddedText os)
  let Q : Str → Prop := fun c => c = [] ∨ F c
  let R : Str → Prop := fun c => c = [] ∨ (∃ t, ValueText os t ∧ FilledFrom E t c) ∨ ∃ t, PathText os t ∧ FilledFrom E t c
  have hR : ∀ t, R t → ∀ x, R (format E t x) := by
    rintro t (rfl | ⟨s, hs, hf⟩ | ⟨s, hs, hf⟩) x
    · exact .inl rfl
    · exact .inr (.inl ⟨s, hs, .filled _ x hf⟩)
    · exact .inr (.inr ⟨s, hs, .filled _ x hf⟩)
  have hRQ' : ∀ t, R t → Q t := by
    rintro t (h | ⟨s, hs, hf⟩ | ⟨s, hs, hf⟩)
    · exact .inl h
    · exact .inr (.value s t hs hf)
    · exact .inr (.path s t hs hf)
  have hRQ : ∀ t, R t → Q t ∧ ∀ x, Q (format E t x) := fun t ht => ⟨hRQ' t ht, fun x => hRQ' _ (hR t ht x)⟩
  have S := passes_texts E R Q (.inl rfl) hRQ
  have B := passes_texts E R R (.inl rfl) (fun t ht => ⟨ht, hR t ht⟩)
  have hk := S.applyItems S B dflt os
    (fun o ho => (textsIn_iff R (.inl rfl) _).2 (fun t ht => .inr (.inl ⟨t, ⟨o, ho, ht⟩, .itself⟩)))
    (fun o ho ha x x' hx => by
      obtain ⟨h1, h2⟩ := combine_texts E x o.base.value x' hx
      refine ⟨fun hq => .inr (.combined _ _ _ ?_ ⟨o, ho, ha, rfl⟩ h1), by rw [h2]; exact id⟩
      rcases hq with hq | hq
      · rw [hq]; exact .empty
      · exact hq)
    (fun o ho q hq n hn => (textsIn_iff R (.inl rfl) _).2 (fun t ht =>
      .inr (.inr ⟨t, ⟨o, ho, q, List.mem_append.2 hq, n, hn, ht⟩, .itself⟩))) d d' h
  have := (textsBelow_iff Q (.inl rfl) d').1 (hk.2 ((textsBelow_iff Q (.inl rfl) d).2 (fun c hc => .inr (.input c hc)))) c hc
  rcases this with rfl | hq
  · simp [textsBelow] at hc
  · exact hq

/-- **C93**: every text (of a key, a scalar) in a resulting document is one of the input document, or one
of the value of an overlay on it (with its markers filled in), or a name on a path that
such an overlay may create, or what the action combine makes of such a text and the value of its overlay. -/
theorem C93_sources (T : Task) (P : Setup) (p : Str) (docs : List Node) (h : T.FileResult P p docs) (i : Nat) (d d' : Node)
    (hd : (T.contents P p)[i]? = some d) (hd' : docs[i]? = some d') (c : Str) (hc : c ∈ textsBelow d') :
    let os := T.overlaysOn P p i
    TextFrom P.sed (· ∈ textsBelow d) (ValueText os) (PathText os) (AddedText os) c := by
  obtain ⟨x, hx, ha⟩ := h.2 i d hd
  rw [hd', Option.some.injEq] at hx
  subst hx
  exact applyItems_texts P.sed P.dflt _ d d' ha c hc

/-- **C93**: with overlays that combine nothing, and have no markers in their values and paths, every text of the
result stands, letter by letter, in the input, in the value of an overlay, or on a path
that one may create. -/
theorem C93_plain (T : Task) (P : Setup) (p : Str) (docs : List Node) (h : T.FileResult P p docs) (i : Nat)
    (hnc : ∀ o, some o ∈ T.overlaysOn P p i → o.base.action ≠ .combine)
    (hv : ∀ t, ValueText (T.overlaysOn P p i) t ∨ PathText (T.overlaysOn P p i) t → NoMarker t) (d d' : Node)
    (hd : (T.contents P p)[i]? = some d) (hd' : docs[i]? = some d') (c : Str) (hc : c ∈ textsBelow d') :
    c ∈ textsBelow d ∨ ValueText (T.overlaysOn P p i) c ∨ PathText (T.overlaysOn P p i) c := by
  have hne : c ≠ [] := by
    have := (List.mem_filter.1 hc).2
    simpa using this
  have hs := C93_sources T P p docs h i d d' hd hd' c hc
  clear hc
  have key : c ≠ [] → c ∈ textsBelow d ∨ ValueText (T.overlaysOn P p i) c ∨ PathText (T.overlaysOn P p i) c := by
    cases hs with
    | input _ ht => exact fun _ => .inl ht
    | value t _ ht hf => intro _; rw [filledFrom_plain (hv t (.inl ht)) hf]; exact .inr (.inl ht)
    | path t _ ht hf => intro _; rw [filledFrom_plain (hv t (.inr ht)) hf]; exact .inr (.inr ht)
    | empty => exact fun h => absurd rfl h
    | combined a b _ _ hb _ =>
      obtain ⟨o, ho, hc, _⟩ := hb
      exact absurd hc (hnc o ho)
  exact key hne

/-! A case: `x.yaml` holds `k: old # why` and `n: 1`; the overlays merge `new # was %v` into
`k` and combine `n` with 2; comments are removed. -/

/-- What is asked for. -/
def Ex.sourceTask : Task where
  common := [some { base := { query := [⟨c!"k", findNames [c!"k"]⟩], action := .merge, value := .mk { (sc c!"new").hd with line := c!"# was %v" } [] } },
    some { base := { query := [⟨c!"n", findNames [c!"n"]⟩], value := sc c!"2" c!"!!int", action := .combine } }]
  files := [{ path := c!"x.yaml" }]
  cli := none

/-- The run. -/
def Ex.sourceSetup : Setup := { Ex.againFirst with
  removeComments := true,
  read1 := fun _ => some [dc (mp [sc c!"k", .mk { (sc c!"old").hd with line := c!"# why" } [], sc c!"n", sc c!"1" c!"!!int"])] }

/-- The hypotheses of C92 and C93 are met, with the comment `# was old` and the texts `new` and `3` in the result. -/
example : ∃ docs d', Ex.sourceTask.FileResult Ex.sourceSetup c!"/w/x.yaml" docs ∧ Ex.sourceSetup.removeComments = true ∧
    docs[0]? = some d' ∧ commentsBelow d' = [c!"# was old"] ∧ textsBelow d' = [c!"k", c!"new", c!"n", c!"3"] := by
  have hov : ∀ i, Ex.sourceTask.overlaysOn Ex.sourceSetup c!"/w/x.yaml" i = Ex.sourceTask.common := fun i => rfl
  have hc : Ex.sourceTask.contents Ex.sourceSetup c!"/w/x.yaml" =
      [dc (mp [sc c!"k", sc c!"old", sc c!"n", sc c!"1" c!"!!int"])] := by decide +kernel
  let out : Node := match applyItems noSed c!"%v" Ex.sourceTask.common (dc (mp [sc c!"k", sc c!"old", sc c!"n", sc c!"1" c!"!!int"])) with
    | .ok d => d
    | _ => .mk {} []
  refine ⟨[out], out, ⟨by rw [hc]; rfl, ?_⟩, rfl, rfl, by decide +kernel, by decide +kernel⟩
  intro i d hd
  rw [hc] at hd
  match i with
  | 0 => cases hd; exact ⟨out, rfl, by rw [hov]; decide +kernel⟩
  | i + 1 => cases hd

end Yot
