import Verif.Spec.Keys
import Verif.Props.JsonPath
import Verif.Props.Markers
/-
C83: renaming keys.
-/
namespace Yot
open Spec Ex

theorem editedSel_none_aux (P : Node → Node → Prop) (t : Node) : ∀ sel t', (∀ r, sel r = false) → EditedSel P sel t t' → t' = t := by
  induction t using Node.ind with
  | h hd cs ih =>
    intro sel t' hs h
    obtain ⟨hd', cs'⟩ := t'
    unfold EditedSel at h
    obtain ⟨h1, h2⟩ := h
    simp only [Node.hd_mk] at h1
    subst h1
    simp only [Node.content_mk] at h2
    have he : ∀ (l : List Node) (hl : ∀ c ∈ l, c ∈ cs) seen l', EditedEntries P sel seen l l' → l' = l := by
      intro l
      induction l using pairInduction with
      | h0 => intro _ seen l' h; unfold EditedEntries at h; exact h
      | h1 a => intro _ seen l' h; unfold EditedEntries at h; exact h
      | h2 k v r ihr =>
        intro hl seen l' h
        unfold EditedEntries at h
        obtain ⟨k', v', r', rfl, hk, hv, hr⟩ := h
        rw [hs, if_neg (by simp)] at hk hv
        rw [ih k (hl k (by simp)) _ _ (fun _ => hs _) hk, ih v (hl v (by simp)) _ _ (fun _ => hs _) hv,
          ihr (fun c hc => hl c (by simp [hc])) _ _ hr]
    have hi : ∀ (l : List Node) (hl : ∀ c ∈ l, c ∈ cs) n i l', EditedItems P sel n i l l' → l' = l := by
      intro l
      induction l with
      | nil => intro _ n i l' h; unfold EditedItems at h; exact h
      | cons c l ihl =>
        intro hl n i l' h
        unfold EditedItems at h
        obtain ⟨c', l'', rfl, hc, hr⟩ := h
        rw [hs, if_neg (by simp)] at hc
        rw [ih c (hl c (by simp)) _ _ (fun _ => hs _) hc, ihl (fun c hc => hl c (by simp [hc])) _ _ _ hr]
    split at h2
    · rw [he cs (fun c h => h) [] _ h2]
    · split at h2
      · rw [hi cs (fun c h => h) _ _ _ h2]
      · rw [h2]

theorem entries_past (P : Node → Node → Prop) (sel : List Edge → Bool) (l : List Node) : ∀ seen l',
    (∀ k f c r, (f = true → k ∉ seen) → sel (⟨.key k f, c⟩ :: r) = false ∧ sel (⟨.value k f, c⟩ :: r) = false) →
    EditedEntries P sel seen l l' → l' = l := by
  induction l using pairInduction with
  | h0 => intro seen l' _ h; unfold EditedEntries at h; exact h
  | h1 a => intro seen l' _ h; unfold EditedEntries at h; exact h
  | h2 k v r ihr =>
    intro seen l' hs h
    unfold EditedEntries at h
    obtain ⟨k', v', r', rfl, hk, hv, hr⟩ := h
    have hx := fun c x => hs k.hd.value (decide (k.hd.value ∉ seen)) c x (by simp)
    rw [(hx k []).1, if_neg (by simp)] at hk
    rw [(hx v []).2, if_neg (by simp)] at hv
    rw [editedSel_none_aux P k _ _ (fun x => (hx k x).1) hk, editedSel_none_aux P v _ _ (fun x => (hx v x).2) hv]
    rw [ihr (k.hd.value :: seen) r' (fun k f c x hf => hs k f c x (fun h => by have := hf h; simp at this; exact this.2)) hr]

/-- One entry of a mapping is found by its key. -/
theorem keys_split {k : Str} {l : List Node} (h : k ∈ keys l) : ∃ before key v after, l = before ++ key :: v :: after ∧
    before.length % 2 = 0 ∧ key.hd.value = k ∧ k ∉ keys before := by
  induction l using pairInduction with
  | h0 => simp [keys, pairs] at h
  | h1 a => simp [keys, pairs] at h
  | h2 a b r ih =>
    by_cases ha : a.hd.value = k
    · exact ⟨[], a, b, r, rfl, rfl, ha, by simp [keys, pairs]⟩
    · have : k ∈ keys r := by
        simp only [keys, pairs, List.map_cons, List.mem_cons] at h
        rcases h with h | h
        · exact absurd h.symm ha
        · exact h
      obtain ⟨x, y, z, w, rfl, h1, h2, h3⟩ := ih this
      refine ⟨a :: b :: x, y, z, w, rfl, by simp only [List.length_cons]; omega, h2, ?_⟩
      simp only [keys, pairs, List.map_cons, List.mem_cons, not_or]
      exact ⟨fun e => ha e.symm, h3⟩

theorem firstAt_keys {k : Str} {l : List Node} {v : Node} (h : firstAt k (pairs l) = some v) : ∃ before key after,
    l = before ++ key :: v :: after ∧ before.length % 2 = 0 ∧ key.hd.value = k ∧ k ∉ keys before := by
  induction l using pairInduction with
  | h0 => simp [firstAt, pairs] at h
  | h1 a => simp [firstAt, pairs] at h
  | h2 a b r ih =>
    simp only [pairs, firstAt] at h
    by_cases ha : a.hd.value = k
    · rw [if_pos ha] at h
      cases h
      exact ⟨[], a, r, rfl, rfl, ha, by simp [keys, pairs]⟩
    · rw [if_neg ha] at h
      obtain ⟨x, y, w, rfl, h1, h2, h3⟩ := ih h
      refine ⟨a :: b :: x, y, w, rfl, by simp only [List.length_cons]; omega, h2, ?_⟩
      simp only [keys, pairs, List.map_cons, List.mem_cons, not_or]
      exact ⟨fun e => ha e.symm, h3⟩

/-- Entries before the one with the key stay as they are. -/
theorem entries_until (P : Node → Node → Prop) (sel : List Edge → Bool) (k : Str) (key v : Node) (after : List Node) (hkey : key.hd.value = k)
    (hs : ∀ k' f c r, k' ≠ k → sel (⟨.key k' f, c⟩ :: r) = false ∧ sel (⟨.value k' f, c⟩ :: r) = false)
    (before : List Node) : ∀ seen l', before.length % 2 = 0 → k ∉ keys before → k ∉ seen →
      EditedEntries P sel seen (before ++ key :: v :: after) l' → ∃ key' v' after' seen', l' = before ++ key' :: v' :: after' ∧
        k ∉ seen' ∧
        (if sel [⟨.key k true, key⟩] then P key key' else EditedSel P (fun x => sel (⟨.key k true, key⟩ :: x)) key key') ∧
        (if sel [⟨.value k true, v⟩] then P v v' else EditedSel P (fun x => sel (⟨.value k true, v⟩ :: x)) v v') ∧
        EditedEntries P sel (k :: seen') after after' := by
  induction before using pairInduction with
  | h0 =>
    intro seen l' _ _ hseen h
    rw [List.nil_append] at h
    unfold EditedEntries at h
    obtain ⟨key', v', r', rfl, h1, h2, h3⟩ := h
    rw [hkey] at h1 h2 h3
    simp only [hseen, not_false_eq_true, decide_true] at h1 h2
    exact ⟨key', v', r', seen, rfl, hseen, h1, h2, h3⟩
  | h1 a => intro seen l' h; simp at h
  | h2 a b r ih =>
    intro seen l' hl hk hseen h
    simp only [List.length_cons] at hl
    have hak : a.hd.value ≠ k := fun e => hk (by simp [keys, pairs, e])
    have hk' : k ∉ keys r := fun e => hk (by simp only [keys, pairs, List.map_cons, List.mem_cons]; exact Or.inr e)
    simp only [List.cons_append] at h
    unfold EditedEntries at h
    obtain ⟨a', b', r', rfl, h1, h2, h3⟩ := h
    rw [(hs _ _ a [] hak).1, if_neg (by simp)] at h1
    rw [(hs _ _ b [] hak).2, if_neg (by simp)] at h2
    rw [editedSel_none_aux P a _ _ (fun x => (hs _ _ a x hak).1) h1, editedSel_none_aux P b _ _ (fun x => (hs _ _ b x hak).2) h2]
    obtain ⟨key', v', after', seen', rfl, q1, q2, q3, q4⟩ := ih (a.hd.value :: seen) r' (by omega) hk'
      (by simp only [List.mem_cons, not_or]; exact ⟨fun e => hak e.symm, hseen⟩) h3
    exact ⟨key', v', after', seen', rfl, q1, q2, q3, q4⟩

/-- A tree edited where the query `path.k~` says is the tree with another key. -/
theorem keyChanged_of_edited (P : Node → Node → Prop) (root : Node) (k : Str) (path : List Str) : ∀ t t' m : Node, walk path t = [m] →
    m.hd.kind = .mapping → k ∈ keys m.content → EditedSel P (selects root (keySteps path k) t) t t' → KeyChanged P k path t t' := by
  induction path with
  | nil =>
    intro t t' m hw hm hk h
    rw [walk] at hw
    cases hw
    obtain ⟨hd, cs⟩ := t
    obtain ⟨hd', cs'⟩ := t'
    simp only [Node.hd_mk, Node.content_mk] at hm hk
    obtain ⟨before, key, v, after, rfl, hl, hkey, hb⟩ := keys_split hk
    unfold EditedSel at h
    obtain ⟨h1, h2⟩ := h
    rw [if_pos hm] at h2
    simp only [Node.hd_mk, Node.content_mk] at h1 h2
    have hsel : ∀ e r, selects root (keySteps [] k) (.mk hd (before ++ key :: v :: after)) (e :: r) = ((PStep.key k).along root e && r.isEmpty) := by
      intro e r
      simp only [keySteps, List.map_nil, List.nil_append, selects]
    obtain ⟨key', v', after', seen', rfl, q0, q1, q2, q3⟩ := entries_until P _ k key v after hkey (by
      intro k' f c r hne
      rw [hsel, hsel]
      cases f <;> simp [PStep.along, hne]) before [] _ hl hb (by simp) h2
    rw [hsel, show (PStep.key k).along root ⟨.key k true, key⟩ = true from by simp [PStep.along]] at q1
    simp only [List.isEmpty_nil, Bool.and_self, if_true] at q1
    have hv : ∀ f c x, selects root (keySteps [] k) (.mk hd (before ++ key :: v :: after)) (⟨.value k f, c⟩ :: x) = false := by
      intro f c x
      rw [hsel, show (PStep.key k).along root ⟨.value k f, c⟩ = false from by cases f <;> rfl]; rfl
    rw [hv, if_neg (by simp)] at q2
    have ev := editedSel_none_aux P v _ _ (fun x => hv _ _ x) q2
    have ea := entries_past P _ after _ _ (by
      intro k' f c r hf
      rw [hsel, hsel]
      cases f with
      | false => simp [PStep.along]
      | true =>
        have := hf rfl
        simp only [List.mem_cons, not_or] at this
        simp [PStep.along, this.1]) q3
    subst ev ea
    exact ⟨hm, h1, before, key, v', after', key', rfl, hl, hkey, hb, rfl, q1⟩
  | cons c path ih =>
    intro t t' m hw hm hk h
    rw [walk] at hw
    obtain ⟨hd, cs⟩ := t
    obtain ⟨hd', cs'⟩ := t'
    cases hf : firstAt c (entriesOf (.mk hd cs)) with
    | none => rw [hf] at hw; cases hw
    | some v =>
      rw [hf] at hw
      have hmap : hd.kind = .mapping := by
        by_contra hne
        unfold entriesOf at hf
        rw [Node.hd_mk, if_neg hne] at hf
        cases hf
      unfold entriesOf at hf
      rw [Node.hd_mk, if_pos hmap] at hf
      obtain ⟨before, key, after, hcs, hl, hkey, hb⟩ := firstAt_keys hf
      simp only [Node.content_mk] at hcs
      subst hcs
      unfold EditedSel at h
      obtain ⟨h1, h2⟩ := h
      rw [if_pos hmap] at h2
      simp only [Node.hd_mk, Node.content_mk] at h1 h2
      have hsel : ∀ e r, selects root (keySteps (c :: path) k) (.mk hd (before ++ key :: v :: after)) (e :: r) =
          ((PStep.child c).along root e && selects root (keySteps path k) e.node r) := by
        intro e r
        simp only [keySteps, List.map_cons, List.cons_append, selects]
      obtain ⟨key', v', after', seen', rfl, q0, q1, q2, q3⟩ := entries_until P _ c key v after hkey (by
        intro k' f x r hne
        rw [hsel, hsel]
        cases f <;> simp [PStep.along, hne]) before [] _ hl hb (by simp) h2
      have hkk : ∀ f n x, selects root (keySteps (c :: path) k) (.mk hd (before ++ key :: v :: after)) (⟨.key c f, n⟩ :: x) = false := by
        intro f n x
        rw [hsel, show (PStep.child c).along root ⟨.key c f, n⟩ = false from by cases f <;> rfl]; rfl
      rw [hkk, if_neg (by simp)] at q1
      have ek := editedSel_none_aux P key _ _ (fun x => hkk _ _ x) q1
      have hvv : ∀ x, selects root (keySteps (c :: path) k) (.mk hd (before ++ key :: v :: after)) (⟨.value c true, v⟩ :: x) =
          selects root (keySteps path k) v x := by
        intro x
        rw [hsel, show (PStep.child c).along root ⟨.value c true, v⟩ = true from by simp [PStep.along]]; rfl
      have hnil : selects root (keySteps path k) v [] = false := by
        cases path with
        | nil => rfl
        | cons _ _ => rfl
      rw [hvv, hnil, if_neg (by simp)] at q2
      have q2' : EditedSel P (selects root (keySteps path k) v) v v' := by
        have e : (fun x => selects root (keySteps (c :: path) k) (.mk hd (before ++ key :: v :: after)) (⟨.value c true, v⟩ :: x)) =
          selects root (keySteps path k) v := funext hvv
        rw [e] at q2
        exact q2
      have ea := entries_past P _ after _ _ (by
        intro k' f x r hf
        rw [hsel, hsel]
        cases f with
        | false => simp [PStep.along]
        | true =>
          have := hf rfl
          simp only [List.mem_cons, not_or] at this
          simp [PStep.along, this.1]) q3
      subst ek ea
      exact ⟨hmap, h1, before, key', v, after', v', rfl, hl, hkey, hb, rfl, ih v v' m hw hm hk q2'⟩

theorem follows_names (root : Node) (ss : List PStep) (path : List Str) : ∀ t m : Node, walk path t = [m] →
    follows root (path.map .child ++ ss) t = follows root ss m := by
  induction path with
  | nil => intro t m h; rw [walk] at h; cases h; rfl
  | cons c path ih =>
    intro t m h
    rw [walk] at h
    cases hf : firstAt c (entriesOf t) with
    | none => rw [hf] at h; cases h
    | some v =>
      rw [hf] at h
      rw [List.map_cons, List.cons_append, follows]
      have : (PStep.child c).go root t = [v] := by
        simp only [PStep.go, List.flatMap_cons, List.flatMap_nil, List.append_nil, entryOf]
        clear ih h
        generalize entriesOf t = es at hf
        induction es with
        | nil => cases hf
        | cons e es ihe =>
          rw [firstAt] at hf
          by_cases he : e.1.hd.value = c
          · rw [if_pos he] at hf
            cases hf
            rw [List.find?_cons_of_pos (by simpa using he)]
            rfl
          · rw [if_neg he] at hf
            rw [List.find?_cons_of_neg (by simpa using he)]
            exact ihe hf
      rw [this, List.flatMap_cons, List.flatMap_nil, List.append_nil]
      exact ih v m h

/-- If the document has the key, the query selects it. -/
theorem someSelected_key {d : Node} (hd : Doc d) {o : Overlay} {path : List Str} {k : Str} (hq : Queries o [keySteps path k]) (hk : HasKey d path k) :
    SomeSelected [keySteps path k] d := by
  obtain ⟨m, hm, hmap, hkm⟩ := hk
  unfold findNames at hm
  rw [if_pos hd.kind] at hm
  cases hc : d.content with
  | nil => rw [hc] at hm; cases hm
  | cons c cs =>
    rw [hc] at hm
    replace hm : m ∈ walk path c := hm
    have hw : walk path c = [m] := by
      rcases walk_cases path c with h | ⟨x, h⟩
      · rw [h] at hm; cases hm
      · rw [h] at hm ⊢
        rw [List.mem_singleton.1 hm]
    obtain ⟨before, key, v, after, hcs, _, hkey, _⟩ := keys_split hkm
    have hfol : follows d (keySteps path k) c ≠ [] := by
      unfold keySteps
      rw [follows_names d _ path c m hw]
      simp only [follows, PStep.go, entryOf, entriesOf, hmap, if_true, List.flatMap_cons, List.flatMap_nil, List.append_nil]
      have : ∃ e, (pairs m.content).find? (fun e => e.1.hd.value = k) = some e := by
        rw [← Option.isSome_iff_exists, List.find?_isSome]
        obtain ⟨e, he, h2⟩ := List.mem_map.1 hkm
        exact ⟨e, he, by simpa using h2⟩
      obtain ⟨e, he⟩ := this
      rw [he]
      simp
    obtain ⟨n, hn⟩ := List.exists_mem_of_ne_nil _ hfol
    have hne : d.content ≠ [] := by rw [hc]; simp
    obtain ⟨c', hc', hg, _, _⟩ := doc_root hd hne
    rw [hc] at hc'
    cases hc'
    have := (C75_matches o _ hq d hd n).1 ⟨by rw [hc]; simp, by
      have h1 : o.query.map Query.find = [findSteps (keySteps path k)] := hq
      obtain ⟨q, hq', hqf⟩ := List.mem_map.1 (show findSteps (keySteps path k) ∈ o.query.map Query.find by rw [h1]; simp)
      refine ⟨q, hq', ?_⟩
      rw [hqf]
      unfold findSteps
      rw [if_pos hd.kind, hc]
      exact hn⟩
    obtain ⟨c'', h1, r, h2, h3⟩ := this
    exact ⟨c'', h1, r, n, h2, h3⟩

theorem descents_keySteps (path : List Str) (k : Str) : descents (keySteps path k) = 0 := by
  unfold descents keySteps
  rw [List.length_eq_zero_iff, List.filter_eq_nil_iff]
  intro s hs
  rcases List.mem_append.1 hs with h | h
  · obtain ⟨c, _, rfl⟩ := List.mem_map.1 h; simp
  · rw [List.mem_singleton.1 h]; simp

theorem once_keySteps (path : List Str) (k : Str) : Once (keySteps path k) := by
  refine ⟨by rw [descents_keySteps]; omega, ?_⟩
  intro s hs
  rcases List.mem_append.1 hs with h | h
  · obtain ⟨c, _, rfl⟩ := List.mem_map.1 h; simp [PStep.Plain]
  · rw [List.mem_singleton.1 h]; simp [PStep.Plain]

theorem docKeyChanged (P : Node → Node → Prop) {d d' : Node} (hd : Doc d) {path : List Str} {k : Str} (hk : HasKey d path k)
    (h : EditedDoc P (selected [keySteps path k] d) d d') : DocKeyChanged P k path d d' := by
  obtain ⟨m, hm, hmap, hkm⟩ := hk
  unfold findNames at hm
  rw [if_pos hd.kind] at hm
  obtain ⟨h1, h2⟩ := h
  refine ⟨h1, ?_⟩
  cases hc : d.content with
  | nil => rw [hc] at hm; cases hm
  | cons c cs =>
    rw [hc] at hm h2
    replace hm : m ∈ walk path c := hm
    obtain ⟨c', e, h3⟩ := h2
    have hsel : selected [keySteps path k] d = selects d (keySteps path k) c := by
      funext r
      unfold selected
      rw [hc]
      simp
    have hnil : selects d (keySteps path k) c [] = false := by
      cases path with
      | nil => rfl
      | cons _ _ => rfl
    rw [hsel, hnil, if_neg (by simp)] at h3
    refine ⟨c, c', cs, rfl, e, keyChanged_of_edited P d k path c c' m ?_ hmap hkm h3⟩
    rcases walk_cases path c with h | ⟨x, h⟩
    · rw [h] at hm; cases hm
    · rw [h] at hm ⊢
      rw [List.mem_singleton.1 hm]

/-- **C83**: replacing a key found by `path.k~`: the key becomes the overlay's value, the value of
the entry and all else stay. -/
theorem C83_replace_key (E : Sed) (dflt : Str) (o : Overlay) (ha : o.action = .replace) (path : List Str) (k : Str)
    (hq : Queries o [keySteps path k]) (d : Node) (hd : Doc d) (hqual : Qualifies o d) (hk : HasKey d path k) :
    ∃ d', apply E dflt o d = .ok d' ∧ DocKeyChanged (Installed o.value) k path d d' := by
  obtain ⟨d', h1, h2⟩ := C75_replace E dflt o ha _ hq d hd hqual (someSelected_key hd hq hk)
  exact ⟨d', h1, docKeyChanged _ hd hk h2⟩

theorem KeyChanged.mono {P Q : Node → Node → Prop} (h : ∀ n n', P n n' → Q n n') {k : Str} (path : List Str) : ∀ {t t' : Node},
    KeyChanged P k path t t' → KeyChanged Q k path t t' := by
  induction path with
  | nil => rintro t t' ⟨h1, h2, b, key, v, a, key', e1, e2, e3, e4, e5, e6⟩; exact ⟨h1, h2, b, key, v, a, key', e1, e2, e3, e4, e5, h _ _ e6⟩
  | cons c path ih => rintro t t' ⟨h1, h2, b, key, v, a, v', e1, e2, e3, e4, e5, e6⟩; exact ⟨h1, h2, b, key, v, a, v', e1, e2, e3, e4, e5, ih e6⟩

theorem mergeComments_rest (E : Sed) (o n : Hdr) (vals : List Str) : (mergeComments E o n vals).kind = o.kind ∧
    (mergeComments E o n vals).style = o.style ∧ (mergeComments E o n vals).anchor = o.anchor := by
  unfold mergeComments
  split
  · simp
  · split
    · simp
    · split <;> simp

theorem merge_scalar_rest (E : Sed) (o n o' : Node) (vals : List Str) (hn : n.kind = .scalar) (h : merge E o vals n = .ok o') :
    o'.hd.kind = .scalar ∧ o'.hd.tag = n.hd.tag ∧ o'.hd.style = o.hd.style ∧ o'.hd.anchor = o.hd.anchor := by
  obtain ⟨nh, ncs⟩ := n
  have hk : nh.kind = .scalar := hn
  rw [merge_scalar E o vals hk, Res.ok.injEq] at h
  subst h
  obtain ⟨h1, h2, h3⟩ := mergeComments_rest E o.hd nh vals
  unfold mergeScalar
  split
  · exact ⟨rfl, rfl, h2, h3⟩
  · rename_i hne
    exact ⟨h1.trans (not_not.1 hne), rfl, h2, h3⟩

/-- **C83** (partial): merging a text into a key found by `path.k~` renames it: the new key is a
scalar of the overlay's type with the overlay's text, every marker standing for the old key (`%v`)
or its comments, as for any scalar (C06); the value of the entry and all else stay.  Missing: as
for C06, texts in which marker text appears by accident. -/
theorem C83_merge_key_partial (E : Sed) (dflt : Str) (o : Overlay) (ha : o.action = .merge) (hv : o.value.kind = .scalar) (path : List Str) (k : Str)
    (hq : Queries o [keySteps path k]) (d : Node) (hd : Doc d) (hqual : Qualifies o d) (hk : HasKey d path k) :
    ∃ d', apply E dflt o d = .ok d' ∧ DocKeyChanged (fun key key' =>
      key'.hd.kind = .scalar ∧ key'.hd.tag = o.value.hd.tag ∧ key'.hd.style = key.hd.style ∧ key'.hd.anchor = key.hd.anchor ∧
      let orig := originals key.hd.value [] key.hd.line key.hd.head key.hd.foot
      ((∀ l, NoMarker (orig l)) → Spec.Safe orig (sedResult E.compile E.run) (parse o.value.hd.value) →
        key'.hd.value = meaning orig (sedResult E.compile E.run) (parse o.value.hd.value))) k path d d' := by
  have hs := someSelected_key hd hq hk
  have hpl := C75_plain_queries (keySteps path k) (descents_keySteps path k) d
  have h := C75_each E dflt o (by rw [ha]; simp) _ hq (by intro ss hss; rw [List.mem_singleton.1 hss]; exact once_keySteps path k)
    d hd hqual hs hpl.1 hpl.2
  have hact : ∀ n, actOn E o n = merge E n [] o.value := by intro n; unfold actOn; rw [ha]; rfl
  have hok : ∀ n, ∃ n', merge E n [] o.value = .ok n' := by
    intro n
    revert hv
    obtain ⟨vh, vcs⟩ := o.value
    intro hv
    have hk : vh.kind = .scalar := hv
    exact ⟨_, merge_scalar E n [] hk⟩
  cases happ : apply E dflt o d with
  | ok d' =>
    rw [happ] at h
    obtain ⟨e1, c, c', cs, e2, e3, e4⟩ := docKeyChanged _ hd hk h
    refine ⟨d', rfl, e1, c, c', cs, e2, e3, KeyChanged.mono ?_ path e4⟩
    intro key key' hkk
    rw [hact] at hkk
    obtain ⟨r1, r2, r3, r4⟩ := merge_scalar_rest E key o.value key' [] hv hkk
    exact ⟨r1, r2, r3, r4, fun hx hsafe => C06_markers_partial E key o.value key' [] (by simp) hv hx hsafe hkk⟩
  | err e =>
    rw [happ] at h
    obtain ⟨_, _, _, m, _, _, h3⟩ := h
    rw [hact] at h3
    obtain ⟨n', hn'⟩ := hok m
    rw [hn'] at h3; cases h3
  | panic =>
    rw [happ] at h
    obtain ⟨_, _, _, m, _, _, h3⟩ := h
    rw [hact] at h3
    obtain ⟨n', hn'⟩ := hok m
    rw [hn'] at h3; cases h3

/-- The documentation's use case: `metadata.labels.name~` with a template. -/
example : tree (apply noSed c!"ignore" { query := [⟨c!"labels.name~", findSteps (keySteps [c!"labels"] c!"name")⟩], action := .merge, value := sc c!"app/%v" } (dc (mp [sc c!"labels", mp [sc c!"owner", sc c!"me", sc c!"name", sc c!"web"]])).label) =
    some (dc (mp [sc c!"labels", mp [sc c!"owner", sc c!"me", sc c!"app/name", sc c!"web"]])) := by decide +kernel
/-- And with a replace. -/
example : tree (apply noSed c!"ignore" { query := [⟨c!"labels.name~", findSteps (keySteps [c!"labels"] c!"name")⟩], action := .replace, value := sc c!"new" } (dc (mp [sc c!"labels", mp [sc c!"owner", sc c!"me", sc c!"name", sc c!"web"]])).label) =
    some (dc (mp [sc c!"labels", mp [sc c!"owner", sc c!"me", sc c!"new", sc c!"web"]])) := by decide +kernel
example : HasKey (dc (mp [sc c!"labels", mp [sc c!"owner", sc c!"me", sc c!"name", sc c!"web"]])) [c!"labels"] c!"name" :=
  ⟨_, List.mem_singleton.2 rfl, by decide, by decide⟩

end Yot
