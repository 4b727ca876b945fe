import Verif.Lemmas.Inject
import Verif.Lemmas.Commute
/-
Injecting a value at several paths of names.
-/
namespace Yot
open Spec

/-- Adding the path to the tree changes nothing that is there. -/
def Fits : List Str → Node → Prop
  | [], _ => False
  | k :: ks, t => t.hd.kind = .mapping ∧ t.content.length % 2 = 0 ∧ (keys t.content).Nodup ∧
      ∀ v, firstAt k (pairs t.content) = some v → Fits ks v

theorem unrelated_cons {k : Str} {p p' : List Str} (h : Unrelated (k :: p) (k :: p')) : Unrelated p p' := by
  simpa [Unrelated, List.cons_prefix_cons] using h

theorem unrelated_symm {p p' : List Str} (h : Unrelated p p') : Unrelated p' p := ⟨h.2, h.1⟩

theorem fits_nested (p : List Str) : ∀ p', Unrelated p p' → Fits p' (nested p) := by
  induction p with
  | nil => intro p' h; exact absurd (List.nil_prefix) h.1
  | cons k p ih =>
    intro p' h
    cases p' with
    | nil => exact absurd (List.nil_prefix) h.2
    | cons k' p' =>
      refine ⟨rfl, by simp [nested], by simp [nested, keys, pairs], ?_⟩
      intro v hv
      by_cases he : k = k'
      · subst he
        simp [nested, pairs, firstAt] at hv
        subst hv
        exact ih p' (unrelated_cons h)
      · simp [nested, pairs, firstAt, he] at hv

theorem keys_updFirst (k : Str) (f : Node → Node) (cs : List Node) : keys (updFirst k f cs) = keys cs := by
  induction cs using pairInduction with
  | h0 => rfl
  | h1 a => rfl
  | h2 a b cs ih =>
    rw [updFirst]
    split
    · rfl
    · simp only [keys, pairs, List.map_cons] at ih ⊢; rw [ih]

theorem firstAt_updFirst (k k' : Str) (f : Node → Node) (cs : List Node) :
    firstAt k' (pairs (updFirst k f cs)) = if k' = k then (firstAt k' (pairs cs)).map f else firstAt k' (pairs cs) := by
  induction cs using pairInduction with
  | h0 => simp [updFirst, pairs, firstAt]
  | h1 a => simp [updFirst, pairs, firstAt]
  | h2 a b cs ih =>
    rw [updFirst]
    by_cases ha : a.hd.value = k
    · simp only [ha, if_true, pairs, firstAt]
      by_cases hk : k = k'
      · simp [hk]
      · have hk' : ¬ k' = k := fun h => hk h.symm
        simp [hk, hk']
    · simp only [ha, if_false, pairs, firstAt, ih]
      by_cases hk : a.hd.value = k'
      · have : ¬ k' = k := fun h => ha (by rw [hk, h])
        simp [hk, this]
      · simp [hk]

theorem firstAt_append_none {k : Str} {a b : List (Node × Node)} (h : firstAt k a = none) : firstAt k (a ++ b) = firstAt k b := by
  induction a with
  | nil => rfl
  | cons e es ih =>
    rw [firstAt] at h
    split at h
    · cases h
    · next hne => rw [List.cons_append, firstAt, if_neg hne, ih h]

theorem firstAt_append_some {k : Str} {a b : List (Node × Node)} {v : Node} (h : firstAt k a = some v) : firstAt k (a ++ b) = some v := by
  induction a with
  | nil => cases h
  | cons e es ih =>
    rw [List.cons_append, firstAt]
    rw [firstAt] at h
    split at h
    · next he => rw [if_pos he]; exact h
    · next he => rw [if_neg he]; exact ih h

theorem firstAt_none_iff {k : Str} {cs : List Node} : firstAt k (pairs cs) = none ↔ k ∉ keys cs := by
  induction cs using pairInduction with
  | h0 => simp [pairs, firstAt, keys]
  | h1 a => simp [pairs, firstAt, keys]
  | h2 a b cs ih =>
    simp only [pairs, firstAt, keys, List.map_cons, List.mem_cons, not_or] at ih ⊢
    by_cases h : a.hd.value = k
    · simp [h]
    · have : ¬ k = a.hd.value := fun e => h e.symm
      simp [h, this, ih]

theorem toMapping_of {n : Node} (h : n.hd.kind = .mapping) : toMapping n = n := by simp [toMapping, h]

theorem scaffold_some {n v : Node} {k : Str} (ks : List Str) (h : n.hd.kind = .mapping) (hf : firstAt k (pairs n.content) = some v) :
    scaffold (k :: ks) n = .mk n.hd (updFirst k (scaffold ks) n.content) := by
  simp only [scaffold, toMapping_of h, hf, Option.isSome_some, if_true]

theorem scaffold_none {n : Node} {k : Str} (ks : List Str) (h : n.hd.kind = .mapping) (hf : firstAt k (pairs n.content) = none) :
    scaffold (k :: ks) n = .mk { n.hd with nilc := false } (n.content ++ [.mk { kind := .scalar, value := k } [], nested ks]) := by
  simp only [scaffold, toMapping_of h, hf, Option.isSome_none, Bool.false_eq_true, if_false]

theorem fits_scaffold (p : List Str) : ∀ (p' : List Str) (t : Node), Fits p t → Fits p' t → Unrelated p p' → Fits p' (scaffold p t) := by
  induction p with
  | nil => intro p' t h; exact h.elim
  | cons k p ih =>
    intro p' t h h' hu
    cases p' with
    | nil => exact h'.elim
    | cons k' p' =>
      obtain ⟨h1, h2, h3, h4⟩ := h
      obtain ⟨_, _, _, h4'⟩ := h'
      rw [scaffold, toMapping_of h1]
      cases hf : firstAt k (pairs t.content) with
      | some v0 =>
        simp only [Option.isSome_some, if_true]
        refine ⟨h1, by simpa [updFirst_length] using h2, by simpa [keys_updFirst] using h3, ?_⟩
        intro v hv
        simp only [Node.content_mk, firstAt_updFirst] at hv
        split at hv
        · next he =>
          subst he
          rw [hf] at hv
          cases hv
          exact ih p' v0 (h4 v0 hf) (h4' v0 hf) (unrelated_cons hu)
        · exact h4' v hv
      | none =>
        simp only [Option.isSome_none, Bool.false_eq_true, if_false]
        refine ⟨h1, by simp only [Node.content_mk, List.length_append, List.length_cons, List.length_nil]; omega, ?_, ?_⟩
        · simp only [Node.content_mk, keys, pairs_append h2, List.map_append] at h3 ⊢
          rw [List.nodup_append]
          refine ⟨h3, by simp [pairs], ?_⟩
          intro a ha b hb
          simp only [pairs, List.map_cons, List.map_nil, Node.hd_mk, List.mem_cons, List.not_mem_nil, or_false] at hb
          subst hb
          intro he
          subst he
          exact firstAt_none_iff.1 hf ha
        · intro v hv
          simp only [Node.content_mk, pairs_append h2] at hv
          cases hf' : firstAt k' (pairs t.content) with
          | some x => rw [firstAt_append_some hf'] at hv; cases hv; exact h4' _ hf'
          | none =>
            rw [firstAt_append_none hf'] at hv
            by_cases he : k = k'
            · subst he
              simp [pairs, firstAt] at hv
              subst hv
              exact fits_nested p p' (unrelated_cons hu)
            · simp [pairs, firstAt, he] at hv

/-! ### Adding a path to what is merged -/

theorem updFirst_append_of {k : Str} (f : Node → Node) {cs : List Node} (ds : List Node) (h : (firstAt k (pairs cs)).isSome) :
    updFirst k f (cs ++ ds) = updFirst k f cs ++ ds := by
  induction cs using pairInduction with
  | h0 => simp [pairs, firstAt] at h
  | h1 a => simp [pairs, firstAt] at h
  | h2 a b cs ih =>
    simp only [List.cons_append, updFirst]
    simp only [pairs, firstAt] at h
    split
    · rfl
    · next hne => rw [if_neg hne] at h; rw [ih h]; rfl

theorem mergeInner_updFirst (E : Sed) (f : Node → Str → Res Err Node) (nk : Hdr) (k : Str) (g : Node → Node) (hm : NoMarker nk.value)
    (hk : nk.value ≠ k) : ∀ (cs : List Node) (r : List Node × Bool), mergeInner E f nk cs = .ok r →
      mergeInner E f nk (updFirst k g cs) = .ok (updFirst k g r.1, r.2) ∧ (firstAt k (pairs r.1)).isSome = (firstAt k (pairs cs)).isSome := by
  have hmk := (checkForMarkers_iff _).2 hm
  have hco : ∀ (o n : Hdr) (vals : List Str), (mergeComments E o n vals).value = o.value := by
    intro o n vals
    unfold mergeComments
    simp only
    split
    · rfl
    · split
      · rfl
      · split <;> rfl
  intro cs
  induction cs using pairInduction with
  | h0 => intro r h; cases h; exact ⟨rfl, rfl⟩
  | h1 a => intro r h; cases h; exact ⟨rfl, rfl⟩
  | h2 a b cs ih =>
    intro r h
    rw [mergeInner] at h
    simp only [hmk, Bool.not_false, Bool.true_and, decide_eq_true_eq, ne_eq] at h
    by_cases hv : a.hd.value = nk.value
    · have hne : a.hd.value ≠ k := fun e => hk (hv ▸ e)
      simp only [hv, not_true_eq_false, if_false] at h
      rw [Res.bind_eq_ok] at h
      obtain ⟨v', h1, h2⟩ := h
      cases h2
      rw [updFirst, if_neg hne, mergeInner]
      simp only [hmk, hv, Bool.not_false, Bool.true_and, ne_eq, not_true_eq_false, decide_false, Bool.false_eq_true, if_false, h1,
        Res.bind_ok, if_true, Res.pure_eq, updFirst, Node.hd_mk, hco, hk, pairs, firstAt, and_self]
    · simp only [hv, not_false_iff, if_true] at h
      change (mergeInner E f nk cs >>= fun r => pure (a :: b :: r.1, r.2)) = _ at h
      rw [Res.bind_eq_ok] at h
      obtain ⟨r', h1, h2⟩ := h
      cases h2
      obtain ⟨ih1, ih2⟩ := ih r' h1
      by_cases hak : a.hd.value = k
      · rw [updFirst, if_pos hak, mergeInner]
        simp only [hmk, hv, Bool.not_false, Bool.true_and, ne_eq, not_false_iff, decide_true, if_true, h1]
        simp [updFirst, hak, pairs, firstAt]
      · rw [updFirst, if_neg hak, mergeInner]
        simp only [hmk, hv, Bool.not_false, Bool.true_and, ne_eq, not_false_iff, decide_true, if_true, ih1]
        simp [updFirst, hak, pairs, firstAt, ih2]

theorem mergeInner_then (E : Sed) (f f' : Node → Str → Res Err Node) (nk : Hdr) (g : Node → Node) (hm : NoMarker nk.value)
    (hf : ∀ x key y, WellFormed x → f x key = .ok y → f' x key = .ok (g y)) : ∀ (cs : List Node) (r : List Node × Bool),
      (∀ c ∈ cs, WellFormed c) → mergeInner E f nk cs = .ok r →
      mergeInner E f' nk cs = .ok (updFirst nk.value g r.1, r.2) ∧ (firstAt nk.value (pairs r.1)).isSome = r.2 := by
  have hmk := (checkForMarkers_iff _).2 hm
  have hco : ∀ (o n : Hdr) (vals : List Str), (mergeComments E o n vals).value = o.value := by
    intro o n vals
    unfold mergeComments
    simp only
    split
    · rfl
    · split
      · rfl
      · split <;> rfl
  intro cs
  induction cs using pairInduction with
  | h0 => intro r _ h; cases h; exact ⟨rfl, rfl⟩
  | h1 a => intro r _ h; cases h; exact ⟨rfl, rfl⟩
  | h2 a b cs ih =>
    intro r hw h
    rw [mergeInner] at h ⊢
    simp only [hmk, Bool.not_false, Bool.true_and, decide_eq_true_eq, ne_eq] at h ⊢
    by_cases hv : a.hd.value = nk.value
    · simp only [hv, not_true_eq_false, if_false] at h ⊢
      rw [Res.bind_eq_ok] at h
      obtain ⟨v', h1, h2⟩ := h
      cases h2
      rw [hf b _ v' (hw b (by simp)) h1]
      simp [updFirst, hco, hv, pairs, firstAt]
    · simp only [hv, not_false_iff, if_true] at h ⊢
      change (mergeInner E f nk cs >>= fun r => pure (a :: b :: r.1, r.2)) = _ at h
      rw [Res.bind_eq_ok] at h
      obtain ⟨r', h1, h2⟩ := h
      cases h2
      obtain ⟨ih1, ih2⟩ := ih r' (fun c hc => hw c (by simp [hc])) h1
      rw [ih1]
      simp [updFirst, hv, pairs, firstAt, ih2]

theorem mergeEntries_append (E : Sed) (A B : List Node) (hA : A.length % 2 = 0) : ∀ o, mergeEntries E o (A ++ B) = (mergeEntries E o A >>= fun o' => mergeEntries E o' B) := by
  induction A using pairInduction with
  | h0 => intro o; simp [mergeEntries]
  | h1 a => simp at hA
  | h2 a b A ih =>
    intro o
    simp only [List.cons_append, mergeEntries]
    rw [bind_assoc]
    congr 1
    funext r
    exact ih (by simp only [List.length_cons] at hA; omega) _

/-- Merging entries with other keys and rewriting the first entry with key `k` can be swapped. -/
theorem mergeEntries_updFirst (E : Sed) (k : Str) (g : Node → Node) (B : List Node) (hm : ∀ e ∈ pairs B, NoMarker e.1.hd.value)
    (hk : k ∉ keys B) : ∀ (h : Hdr) (cs : List Node) (r : Node), h.kind = .mapping → (firstAt k (pairs cs)).isSome →
      mergeEntries E (.mk h cs) B = .ok r →
      mergeEntries E (.mk h (updFirst k g cs)) B = .ok (.mk r.hd (updFirst k g r.content)) ∧ r.hd.kind = .mapping ∧
        (firstAt k (pairs r.content)).isSome := by
  induction B using pairInduction with
  | h0 => intro h cs r h1 h2 h3; simp only [mergeEntries, Res.ok.injEq] at h3; subst h3; exact ⟨by simp [mergeEntries], h1, h2⟩
  | h1 a => intro h cs r h1 h2 h3; simp only [mergeEntries, Res.ok.injEq] at h3; subst h3; exact ⟨by simp [mergeEntries], h1, h2⟩
  | h2 nk nv B ih =>
    intro h cs r h1 h2 h3
    simp only [pairs, List.mem_cons, forall_eq_or_imp] at hm
    simp only [keys, pairs, List.map_cons, List.mem_cons, not_or] at hk
    rw [mergeEntries, toMapping_of (by exact h1)] at h3
    simp only [Node.content_mk, Node.hd_mk] at h3
    rw [Res.bind_eq_ok] at h3
    obtain ⟨r1, h4, h5⟩ := h3
    obtain ⟨h6, h7⟩ := mergeInner_updFirst E _ nk.hd k g hm.1 (fun e => hk.1 e.symm) cs r1 h4
    rw [mergeEntries, toMapping_of (by exact h1)]
    simp only [Node.content_mk, Node.hd_mk, h6, Res.bind_ok]
    cases hb : r1.2 with
    | true =>
      rw [hb] at h5
      simp only [if_true] at h5 ⊢
      exact ih hm.2 hk.2 h r1.1 r h1 (by rw [h7]; exact h2) h5
    | false =>
      rw [hb] at h5
      simp only [Bool.false_eq_true, if_false, addNode, appendContent, Node.hd_mk, Node.content_mk] at h5 ⊢
      have h8 : (firstAt k (pairs r1.1)).isSome := by rw [h7]; exact h2
      rw [← updFirst_append_of g _ h8]
      refine ih hm.2 hk.2 _ _ r h1 ?_ h5
      obtain ⟨v, hv⟩ := Option.isSome_iff_exists.1 h8
      obtain ⟨A, kn, B', e1, e2, e3, e4⟩ := firstAt_split hv
      rw [e1, List.append_assoc, pairs_append e2]
      simp only [List.cons_append, pairs]
      have : firstAt k (pairs A) = none := by
        rw [firstAt_none_iff]
        intro hc
        simp only [keys, List.mem_map] at hc
        obtain ⟨e, he, he'⟩ := hc
        exact e4 e he he'
      rw [firstAt_append_none this, firstAt, if_pos e3]
      rfl

theorem allNodes_mem {P : Hdr → Prop} {n c : Node} (hn : AllNodes P n) (hc : c ∈ n.content) : AllNodes P c := by
  obtain ⟨h, cs⟩ := n
  rw [AllNodes, AllNodess_iff] at hn
  exact hn.2 c hc

theorem allNodes_hd {P : Hdr → Prop} {n : Node} (hn : AllNodes P n) : P n.hd := by
  obtain ⟨h, cs⟩ := n
  rw [AllNodes] at hn
  exact hn.1

theorem allNodes_of {P : Hdr → Prop} {n : Node} (h1 : P n.hd) (h2 : ∀ c ∈ n.content, AllNodes P c) : AllNodes P n := by
  obtain ⟨h, cs⟩ := n
  rw [AllNodes, AllNodess_iff]
  exact ⟨h1, h2⟩

theorem mem_updFirst {k : Str} {f : Node → Node} {cs : List Node} {c : Node} (h : c ∈ updFirst k f cs) : c ∈ cs ∨ ∃ v ∈ cs, c = f v := by
  induction cs using pairInduction with
  | h0 => cases h
  | h1 a => exact .inl h
  | h2 a b cs ih =>
    rw [updFirst] at h
    split at h
    · simp only [List.mem_cons] at h ⊢
      rcases h with rfl | rfl | h
      · exact .inl (.inl rfl)
      · exact .inr ⟨b, .inr (.inl rfl), rfl⟩
      · exact .inl (.inr (.inr h))
    · simp only [List.mem_cons] at h ⊢
      rcases h with rfl | rfl | h
      · exact .inl (.inl rfl)
      · exact .inl (.inr (.inl rfl))
      · rcases ih h with h | ⟨v, h1, h2⟩
        · exact .inl (.inr (.inr h))
        · exact .inr ⟨v, .inr (.inr h1), h2⟩

theorem scaffold_noMarkers (p : List Str) (hp : ∀ k ∈ p, NoMarker k) : ∀ n, AllNodes (OnStrings NoMarker) n →
    AllNodes (OnStrings NoMarker) (scaffold p n) := by
  induction p with
  | nil =>
    intro n hn
    have h1 := allNodes_hd hn
    simp only [scaffold, leafMerge]
    split
    · refine allNodes_of ?_ (by simp)
      simp only [OnStrings, Node.hd_mk] at h1 ⊢
      exact ⟨noMarker_nil, h1.2⟩
    · refine allNodes_of ?_ (fun c hc => allNodes_mem hn hc)
      simp only [OnStrings, Node.hd_mk] at h1 ⊢
      exact ⟨noMarker_nil, h1.2⟩
  | cons k p ih =>
    intro n hn
    have hp' : ∀ x ∈ p, NoMarker x := fun x hx => hp x (by simp [hx])
    have hm : AllNodes (OnStrings NoMarker) (toMapping n) := by
      unfold toMapping
      split
      · have h1 := allNodes_hd hn
        refine allNodes_of ?_ (by simp)
        simp only [OnStrings, Node.hd_mk] at h1 ⊢
        exact ⟨noMarker_nil, h1.2⟩
      · exact hn
    have h1 := allNodes_hd hm
    simp only [scaffold]
    split
    · refine allNodes_of (by simpa [OnStrings] using h1) ?_
      intro c hc
      rcases mem_updFirst hc with hc | ⟨v, hv, rfl⟩
      · exact allNodes_mem hm hc
      · exact ih hp' v (allNodes_mem hm hv)
    · refine allNodes_of (by simpa [OnStrings] using h1) ?_
      intro c hc
      have hnm := nested_noMarkers (k :: p) hp
      simp only [nested, AllNodes, AllNodess] at hnm
      simp only [Node.content_mk, List.mem_append, List.mem_cons, List.not_mem_nil, or_false] at hc
      rcases hc with hc | rfl | rfl
      · exact allNodes_mem hm hc
      · simp only [AllNodes, AllNodess]; exact hnm.2.1
      · exact hnm.2.2.1

theorem addNode_clean (E : Sed) (o kn v : Node) (hk : AllNodes (OnStrings NoMarker) kn) (hv : AllNodes (OnStrings NoMarker) v) :
    addNode E o [kn, v] = .mk { o.hd with nilc := false } (o.content ++ [kn.fresh, v.fresh]) := by
  simp only [addNode, appendContent, sanitizeNodes_eq_map, freshs_eq_map, List.map_cons, List.map_nil,
    sanitize_fresh_noMarker E kn hk, sanitize_fresh_noMarker E v hv, List.isEmpty_cons, Bool.and_false, ← fresh_eq_copyOf]

theorem updFirst_none {k : Str} {f : Node → Node} {cs : List Node} (h : firstAt k (pairs cs) = none) : updFirst k f cs = cs := by
  induction cs using pairInduction with
  | h0 => rfl
  | h1 a => rfl
  | h2 a b cs ih =>
    simp only [pairs, firstAt] at h
    split at h
    · cases h
    · next hne => rw [updFirst, if_neg hne, ih h]

theorem updFirst_split {k : Str} (f : Node → Node) {A : List Node} (hA : A.length % 2 = 0)
    (h : ∀ e ∈ pairs A, e.1.hd.value ≠ k) {kn : Node} (hk : kn.hd.value = k) (v : Node) (B : List Node) :
    updFirst k f (A ++ kn :: v :: B) = A ++ kn :: f v :: B := by
  induction A using pairInduction with
  | h0 => simp [updFirst, hk]
  | h1 a => simp at hA
  | h2 a b A ih =>
    simp only [pairs, List.mem_cons, forall_eq_or_imp] at h
    simp only [List.cons_append, updFirst, h.1, if_false]
    rw [ih (by simp only [List.length_cons] at hA; omega) h.2]

/-- Adding a path to what is merged adds it to the result. -/
theorem merge_scaffold (E : Sed) (p : List Str) : ∀ (t n : Node) (vals : List Str) (r : Node), Fits p t →
    AllNodes (OnStrings NoMarker) t → (∀ k ∈ p, NoMarker k) → WellFormed t → WellFormed n → merge E n vals t = .ok r →
    merge E n vals (scaffold p t) = .ok (scaffold p r) := by
  induction p with
  | nil => intro t n vals r h; exact h.elim
  | cons k p ih =>
    intro t n vals r hfit hnm hp hwt hwn hr
    obtain ⟨h1, h2, h3, h4⟩ := hfit
    have hp' : ∀ x ∈ p, NoMarker x := fun x hx => hp x (by simp [hx])
    obtain ⟨th, tcs⟩ := t
    simp only [Node.hd_mk, Node.content_mk] at h1 h2 h3 h4
    rw [merge_mapping E n vals h1] at hr
    rw [wf_iff] at hwt
    cases hf : firstAt k (pairs tcs) with
    | none =>
      rw [scaffold_none p (by exact h1) (by exact hf)]
      simp only [Node.content_mk, Node.hd_mk]
      rw [merge_mapping E n vals (by exact h1), mergeEntries_append E _ _ h2, hr, Res.bind_ok,
        ← merge_nested E (k :: p) hp r [], nested, merge_mapping E r [] rfl]
    | some v =>
      rw [scaffold_some p (by exact h1) (by exact hf)]
      simp only [Node.content_mk, Node.hd_mk]
      rw [merge_mapping E n vals (by exact h1)]
      obtain ⟨A, kn, B, e1, e2, e3, e4⟩ := firstAt_split hf
      have hwm : ∀ c ∈ tcs, WellFormed c := hwt.2
      have hnmm : ∀ c ∈ tcs, AllNodes (OnStrings NoMarker) c := fun c hc => allNodes_mem hnm hc
      have hkv : firstAt k (pairs tcs) = some v := hf
      rw [e1] at hr hwm hnmm h3
      rw [e1, updFirst_split _ e2 e4 e3]
      rw [mergeEntries_append E _ _ e2, Res.bind_eq_ok] at hr
      obtain ⟨n1, hr1, hr2⟩ := hr
      rw [mergeEntries_append E _ _ e2, hr1, Res.bind_ok]
      have hwn1 : WellFormed n1 := by
        refine merge_wf E (.mk th A) ?_ n n1 vals hwn (by rw [merge_mapping E n vals h1]; exact hr1)
        rw [wf_mk, h1]
        exact ⟨e2, fun c hc => hwm c (by simp [hc])⟩
      have hw1 := toMapping_wf n1 hwn1
      rw [wf_iff, toMapping_kind] at hw1
      rw [mergeEntries, Res.bind_eq_ok] at hr2
      obtain ⟨r1, hr3, hr4⟩ := hr2
      have hwv : WellFormed v := hwm v (by simp)
      have hnv := hnmm v (by simp)
      have hnk := hnmm kn (by simp)
      have hmk : NoMarker kn.hd.value := by rw [e3]; exact hp k (by simp)
      have hlen := mergeInner_wf E _ kn.hd (fun x key x' hx hx' => merge_wf E v hwv x x' [key] hx hx') _ r1.1 r1.2 hw1.2 hr3
      obtain ⟨hi1, hi2⟩ := mergeInner_then E _ (fun x key => merge E x [key] (scaffold p v)) kn.hd (scaffold p) hmk
        (fun x key y hx hy => ih v x [key] y (h4 v hkv) hnv hp' hwv hx hy) _ r1 hw1.2 hr3
      rw [mergeEntries, hi1, Res.bind_ok]
      have hkB : k ∉ keys B ∧ ∀ e ∈ pairs B, NoMarker e.1.hd.value := by
        constructor
        · simp only [keys, pairs_append e2, pairs, List.map_append, List.map_cons] at h3
          rw [List.nodup_append] at h3
          have := (List.nodup_cons.1 h3.2.1).1
          rw [e3] at this
          exact this
        · intro e he
          have := (pairs_mem he).1
          have := allNodes_hd (hnmm e.1 (by simp [this]))
          exact this.1
      rw [e3] at hi2 ⊢
      cases hb : r1.2 with
      | true =>
        rw [hb] at hr4 hi2
        simp only [if_true] at hr4 ⊢
        obtain ⟨g1, g2, g3⟩ := mergeEntries_updFirst E k (scaffold p) B hkB.2 hkB.1 _ r1.1 r (toMapping_kind n1) hi2 hr4
        rw [g1, scaffold, toMapping_of g2, if_pos g3]
      | false =>
        rw [hb] at hr4 hi2
        have hnone : firstAt k (pairs r1.1) = none := by simpa using hi2
        simp only [Bool.false_eq_true, if_false] at hr4 ⊢
        rw [addNode_clean E _ _ _ hnk hnv] at hr4
        rw [addNode_clean E _ _ _ hnk (scaffold_noMarkers p hp' v hnv), scaffold_fresh]
        simp only [Node.hd_mk, Node.content_mk] at hr4 ⊢
        have hev : r1.1.length % 2 = 0 := by rw [hlen.1]; exact hw1.1
        rw [updFirst_none hnone, ← updFirst_append k (scaffold p) r1.1 kn.fresh v.fresh hev hnone (by rw [fresh_value]; exact e3)]
        obtain ⟨g1, g2, g3⟩ := mergeEntries_updFirst E k (scaffold p) B hkB.2 hkB.1 { (toMapping n1).hd with nilc := false }
          (r1.1 ++ [kn.fresh, v.fresh]) r (toMapping_kind n1) (by
            rw [pairs_append hev, firstAt_append_none hnone]
            simp [pairs, firstAt, fresh_value, e3]) hr4
        rw [g1, scaffold, toMapping_of g2, if_pos g3]

/-! ### Several paths -/

/-- Add the paths one after the other. -/
def scaffolds (ps : List (List Str)) (n : Node) : Node := ps.foldl (fun n p => scaffold p n) n

/-- Rewrite the nodes at the ends of the paths. -/
def updPaths (ps : List (List Str)) (g : Node → Node) (n : Node) : Node := ps.foldl (fun n p => updPath p g n) n

theorem nested_wf (p : List Str) : WellFormed (nested p) := by
  induction p with
  | nil => simp [nested, WellFormed, WellFormeds, Shaped]
  | cons k p ih => simp [nested, WellFormed, WellFormeds, Shaped, ih]

theorem scaffold_wf (p : List Str) : ∀ n, WellFormed n → WellFormed (scaffold p n) := by
  induction p with
  | nil =>
    intro n hn
    simp only [scaffold, leafMerge]
    split
    · simp [WellFormed, WellFormeds, Shaped]
    · rw [wf_iff] at hn ⊢
      exact hn
  | cons k p ih =>
    intro n hn
    have hw := toMapping_wf n hn
    rw [wf_iff, toMapping_kind] at hw
    cases hf : firstAt k (pairs (toMapping n).content) with
    | some v =>
      have : scaffold (k :: p) n = .mk (toMapping n).hd (updFirst k (scaffold p) (toMapping n).content) := by
        simp only [scaffold, hf, Option.isSome_some, if_true]
      rw [this, wf_mk, toMapping_kind, updFirst_length]
      refine ⟨hw.1, fun c hc => ?_⟩
      rcases mem_updFirst hc with hc | ⟨v, hv, rfl⟩
      · exact hw.2 c hc
      · exact ih v (hw.2 v hv)
    | none =>
      have : scaffold (k :: p) n = .mk { (toMapping n).hd with nilc := false }
          ((toMapping n).content ++ [.mk { kind := .scalar, value := k } [], nested p]) := by
        simp only [scaffold, hf, Option.isSome_none, Bool.false_eq_true, if_false]
      rw [this, wf_mk]
      simp only [toMapping_kind]
      have h1 := hw.1
      simp only [Shaped, List.length_append, List.length_cons, List.length_nil] at h1 ⊢
      refine ⟨by omega, fun c hc => ?_⟩
      simp only [List.mem_append, List.mem_cons, List.not_mem_nil, or_false] at hc
      rcases hc with hc | rfl | rfl
      · exact hw.2 c hc
      · simp [WellFormed, WellFormeds, Shaped]
      · exact nested_wf p

theorem merge_scaffolds (E : Sed) (ps : List (List Str)) : ∀ (t n : Node) (vals : List Str) (r : Node), (∀ p ∈ ps, Fits p t) →
    ps.Pairwise Unrelated → AllNodes (OnStrings NoMarker) t → (∀ p ∈ ps, ∀ k ∈ p, NoMarker k) → WellFormed t → WellFormed n →
    merge E n vals t = .ok r → merge E n vals (scaffolds ps t) = .ok (scaffolds ps r) := by
  induction ps with
  | nil => intro t n vals r _ _ _ _ _ _ h; exact h
  | cons p ps ih =>
    intro t n vals r h1 h2 h3 h4 h5 h6 h7
    rw [List.pairwise_cons] at h2
    have hp := h4 p (by simp)
    have h8 := merge_scaffold E p t n vals r (h1 p (by simp)) h3 hp h5 h6 h7
    refine ih (scaffold p t) n vals (scaffold p r) ?_ h2.2 (scaffold_noMarkers p hp t h3) (fun q hq => h4 q (by simp [hq]))
      (scaffold_wf p t h5) h6 h8
    intro q hq
    exact fits_scaffold p q t (h1 p (by simp)) (h1 q (by simp [hq])) (h2.1 q hq)

theorem walk_nested_unrelated (p : List Str) : ∀ p', Unrelated p p' → walk p' (nested p) = [] := by
  induction p with
  | nil => intro p' h; exact absurd (List.nil_prefix) h.1
  | cons k p ih =>
    intro p' h
    cases p' with
    | nil => exact absurd (List.nil_prefix) h.2
    | cons k' p' =>
      simp only [walk, nested, entriesOf, Node.hd_mk, if_true, Node.content_mk]
      by_cases he : k = k'
      · subst he
        simp only [pairs, firstAt, Node.hd_mk, if_true]
        exact ih p' (unrelated_cons h)
      · simp [pairs, firstAt, he]

theorem walk_mapping {n : Node} (h : n.hd.kind = .mapping) (k : Str) (ks : List Str) :
    walk (k :: ks) n = match firstAt k (pairs n.content) with | some v => walk ks v | none => [] := by
  simp only [walk, entriesOf, h, if_true]
  cases firstAt k (pairs n.content) <;> rfl

theorem walk_scaffold_unrelated (p : List Str) : ∀ (p' : List Str) (n : Node), WellFormed n → Unrelated p p' →
    walk p' (scaffold p n) = walk p' n := by
  induction p with
  | nil => intro p' n _ h; exact absurd (List.nil_prefix) h.1
  | cons k p ih =>
    intro p' n hn hu
    cases p' with
    | nil => exact absurd (List.nil_prefix) hu.2
    | cons k' p' =>
      have hw := toMapping_wf n hn
      rw [wf_iff, toMapping_kind] at hw
      have he : walk (k' :: p') n = walk (k' :: p') (toMapping n) := by
        simp only [walk, ← entriesOf_toMapping n]
        simp only [entriesOf, toMapping_kind, if_true]
      rw [he, walk_mapping (toMapping_kind n)]
      cases hf : firstAt k (pairs (toMapping n).content) with
      | some v =>
        have : scaffold (k :: p) n = .mk (toMapping n).hd (updFirst k (scaffold p) (toMapping n).content) := by
          simp only [scaffold, hf, Option.isSome_some, if_true]
        rw [this, walk_mapping (by exact toMapping_kind n)]
        simp only [Node.content_mk, firstAt_updFirst]
        by_cases hk : k' = k
        · subst hk
          simp only [hf, if_true, Option.map_some]
          exact ih p' v (hw.2 v (firstAt_mem hf)) (unrelated_cons hu)
        · simp only [hk, if_false]
      | none =>
        have : scaffold (k :: p) n = .mk { (toMapping n).hd with nilc := false }
            ((toMapping n).content ++ [.mk { kind := .scalar, value := k } [], nested p]) := by
          simp only [scaffold, hf, Option.isSome_none, Bool.false_eq_true, if_false]
        rw [this, walk_mapping (by exact toMapping_kind n)]
        simp only [Node.content_mk]
        rw [pairs_append hw.1]
        cases hf' : firstAt k' (pairs (toMapping n).content) with
        | some v => rw [firstAt_append_some hf']
        | none =>
          rw [firstAt_append_none hf']
          by_cases hk : k = k'
          · subst hk
            simp only [pairs, firstAt, Node.hd_mk, if_true]
            exact walk_nested_unrelated p p' (unrelated_cons hu)
          · simp [pairs, firstAt, hk]

theorem walk_updPath_unrelated (g : Node → Node) (p : List Str) : ∀ (p' : List Str) (n : Node), Unrelated p p' →
    walk p' (updPath p g n) = walk p' n := by
  induction p with
  | nil => intro p' n h; exact absurd (List.nil_prefix) h.1
  | cons k p ih =>
    intro p' n hu
    cases p' with
    | nil => exact absurd (List.nil_prefix) hu.2
    | cons k' p' =>
      by_cases hm : n.hd.kind = .mapping
      · rw [walk_mapping hm, updPath, walk_mapping (by exact hm)]
        simp only [Node.content_mk, firstAt_updFirst]
        by_cases hk : k' = k
        · subst hk
          simp only [if_true]
          cases firstAt k' (pairs n.content) with
          | none => rfl
          | some v => exact ih p' v (unrelated_cons hu)
        · simp only [hk, if_false]
      · simp [walk, updPath, entriesOf, hm, firstAt]

theorem updFirst_congr {k : Str} {f g : Node → Node} {cs : List Node} (h : ∀ v, firstAt k (pairs cs) = some v → f v = g v) :
    updFirst k f cs = updFirst k g cs := by
  induction cs using pairInduction with
  | h0 => rfl
  | h1 a => rfl
  | h2 a b cs ih =>
    simp only [updFirst]
    simp only [pairs, firstAt] at h
    split
    · next he => rw [if_pos he] at h; rw [h b rfl]
    · next he => rw [if_neg he] at h; rw [ih h]

theorem updFirst_comm {k k' : Str} (f g : Node → Node) (cs : List Node) (h : k ≠ k') :
    updFirst k f (updFirst k' g cs) = updFirst k' g (updFirst k f cs) := by
  induction cs using pairInduction with
  | h0 => rfl
  | h1 a => rfl
  | h2 a b cs ih =>
    simp only [updFirst]
    by_cases h1 : a.hd.value = k
    · have h2 : a.hd.value ≠ k' := fun e => h (h1.symm.trans e)
      simp [updFirst, h1, h]
    · by_cases h2 : a.hd.value = k'
      · have h3 : ¬ k' = k := fun e => h e.symm
        simp [updFirst, h2, h3]
      · simp [updFirst, h1, h2, ih]

theorem scaffold_updPath (g : Node → Node) (p : List Str) : ∀ (p' : List Str) (n m : Node), Unrelated p p' → walk p n = [m] →
    scaffold p' (updPath p g n) = updPath p g (scaffold p' n) := by
  induction p with
  | nil => intro p' n m h; exact absurd (List.nil_prefix) h.1
  | cons k p ih =>
    intro p' n m hu hw
    cases p' with
    | nil => exact absurd (List.nil_prefix) hu.2
    | cons k' p' =>
      have hm : n.hd.kind = .mapping := by
        by_contra hne
        simp [walk, entriesOf, hne, firstAt] at hw
      rw [walk_mapping hm] at hw
      cases hf : firstAt k (pairs n.content) with
      | none => rw [hf] at hw; simp at hw
      | some v =>
        rw [hf] at hw
        by_cases hk : k = k'
        · subst hk
          rw [scaffold_some (v := v) p' hm hf, updPath, updPath]
          rw [scaffold_some (v := updPath p g v) p' (by exact hm) (by simp [firstAt_updFirst, hf])]
          simp only [Node.hd_mk, Node.content_mk, updFirst_comp]
          congr 1
          apply updFirst_congr
          intro x hx
          rw [hf] at hx
          cases hx
          exact ih p' v m (unrelated_cons hu) hw
        · have hk' : ¬ k' = k := fun e => hk e.symm
          cases hf' : firstAt k' (pairs n.content) with
          | some v' =>
            rw [scaffold_some (v := v') p' hm hf', updPath, updPath]
            rw [scaffold_some (v := v') p' (by exact hm) (by simp [firstAt_updFirst, hf', hk'])]
            simp only [Node.hd_mk, Node.content_mk]
            rw [updFirst_comm _ _ _ hk]
          | none =>
            rw [scaffold_none p' hm hf', updPath, updPath]
            rw [scaffold_none p' (by exact hm) (by simp [firstAt_updFirst, hf', hk'])]
            simp only [Node.hd_mk, Node.content_mk]
            rw [updFirst_append_of _ _ (by rw [hf]; rfl)]

/-- The paths added and the nodes rewritten path by path. -/
def injectAll (ps : List (List Str)) (g : Node → Node) (n : Node) : Node := ps.foldl (fun n p => updPath p g (scaffold p n)) n

theorem scaffolds_updPath (g : Node → Node) (p : List Str) (ps : List (List Str)) : ∀ (n m : Node), WellFormed n → (∀ q ∈ ps, Unrelated p q) →
    walk p n = [m] → updPath p g (scaffolds ps n) = scaffolds ps (updPath p g n) := by
  induction ps with
  | nil => intro n m _ _ _; rfl
  | cons q ps ih =>
    intro n m hn h hw
    have hq := h q (by simp)
    simp only [scaffolds, List.foldl_cons] at ih ⊢
    rw [ih (scaffold q n) m (scaffold_wf q n hn) (fun x hx => h x (by simp [hx]))
      (by rw [walk_scaffold_unrelated q p n hn (unrelated_symm hq)]; exact hw),
      scaffold_updPath g p q n m hq hw]

theorem updPath_wf (g : Node → Node) (hg : ∀ x, WellFormed (g x)) (p : List Str) : ∀ n, WellFormed n → WellFormed (updPath p g n) := by
  induction p with
  | nil => intro n _; exact hg n
  | cons k p ih =>
    intro n hn
    rw [wf_iff] at hn
    rw [updPath, wf_mk, updFirst_length]
    refine ⟨hn.1, fun c hc => ?_⟩
    rcases mem_updFirst hc with hc | ⟨v, hv, rfl⟩
    · exact hn.2 c hc
    · exact ih v (hn.2 v hv)

/-- Adding all paths and then rewriting is the same as path by path. -/
theorem updPaths_scaffolds (g : Node → Node) (hg : ∀ x, WellFormed (g x)) (ps : List (List Str)) : ∀ n, WellFormed n →
    ps.Pairwise Unrelated → updPaths ps g (scaffolds ps n) = injectAll ps g n := by
  induction ps with
  | nil => intro n _ _; rfl
  | cons p ps ih =>
    intro n hn h
    rw [List.pairwise_cons] at h
    have hw := scaffold_wf p n hn
    obtain ⟨m, hm⟩ := walk_scaffold p n hn
    have h1 := scaffolds_updPath g p ps (scaffold p n) m hw h.1 hm
    have h2 := ih (updPath p g (scaffold p n)) (updPath_wf g hg p _ hw) h.2
    simp only [updPaths, scaffolds, injectAll, List.foldl_cons] at h1 h2 ⊢
    rw [h1, h2]

theorem walk_scaffolds (ps : List (List Str)) : ∀ n, WellFormed n → ps.Pairwise Unrelated →
    (∀ p ∈ ps, ∃ m, walk p (scaffolds ps n) = [m]) ∧ ∀ q, (∀ p ∈ ps, Unrelated p q) → walk q (scaffolds ps n) = walk q n := by
  induction ps with
  | nil => intro n _ _; exact ⟨by simp, fun q _ => rfl⟩
  | cons p ps ih =>
    intro n hn h
    rw [List.pairwise_cons] at h
    obtain ⟨i1, i2⟩ := ih (scaffold p n) (scaffold_wf p n hn) h.2
    have hs : scaffolds (p :: ps) n = scaffolds ps (scaffold p n) := rfl
    rw [hs]
    refine ⟨?_, ?_⟩
    · intro q hq
      rcases List.mem_cons.1 hq with rfl | hq
      · obtain ⟨m, hm⟩ := walk_scaffold q n hn
        exact ⟨m, by rw [i2 q (fun x hx => unrelated_symm (h.1 x hx))]; exact hm⟩
      · exact i1 q hq
    · intro q hq
      rw [i2 q (fun x hx => hq x (by simp [hx])), walk_scaffold_unrelated p q n hn (hq p (by simp))]

/-! ### Addresses -/

theorem walk_split {k : Str} {ks : List Str} {n m : Node} (h : walk (k :: ks) n = [m]) :
    n.hd.kind = .mapping ∧ ∃ v, firstAt k (pairs n.content) = some v ∧ walk ks v = [m] := by
  have hm : n.hd.kind = .mapping := by
    by_contra hne
    simp [walk, entriesOf, hne, firstAt] at h
  rw [walk_mapping hm] at h
  cases hf : firstAt k (pairs n.content) with
  | none => rw [hf] at h; simp at h
  | some v => rw [hf] at h; exact ⟨hm, v, rfl, h⟩

theorem count_updPath (g : Node → Node) (a : Nat) (p : List Str) : ∀ n m, walk p n = [m] →
    (updPath p g n).addrs.count a + m.addrs.count a = n.addrs.count a + (g m).addrs.count a := by
  induction p with
  | nil =>
    intro n m h
    simp only [walk, List.cons.injEq, and_true] at h
    subst h
    rw [updPath]
    omega
  | cons k p ih =>
    intro n m h
    obtain ⟨hm, v, hf, hw⟩ := walk_split h
    obtain ⟨A, kn, B, e1, e2, e3, e4⟩ := firstAt_split hf
    have := ih v m hw
    obtain ⟨hd, cs⟩ := n
    simp only [Node.content_mk] at e1
    subst e1
    rw [updPath, Node.content_mk, updFirst_split _ e2 e4 e3]
    simp only [Node.addrs, addrss_append, Node.addrss, List.count_cons, List.count_append, Node.hd_mk]
    omega

theorem count_le_of_walk (a : Nat) (p : List Str) : ∀ n m, walk p n = [m] → m.addrs.count a ≤ n.addrs.count a := by
  induction p with
  | nil =>
    intro n m h
    simp only [walk, List.cons.injEq, and_true] at h
    subst h
    exact Nat.le_refl _
  | cons k p ih =>
    intro n m h
    obtain ⟨hm, v, hf, hw⟩ := walk_split h
    have h1 := ih v m hw
    obtain ⟨hd, cs⟩ := n
    have h2 := (addrs_sublist (firstAt_mem hf)).count_le a
    simp only [Node.addrs, List.count_cons, Node.content_mk] at h2 ⊢
    omega

theorem count_unrelated (a : Nat) (p : List Str) : ∀ (p' : List Str) (n m m' : Node), Unrelated p p' → walk p n = [m] → walk p' n = [m'] →
    m.addrs.count a + m'.addrs.count a ≤ n.addrs.count a := by
  induction p with
  | nil => intro p' n m m' h; exact absurd (List.nil_prefix) h.1
  | cons k p ih =>
    intro p' n m m' hu h h'
    cases p' with
    | nil => exact absurd (List.nil_prefix) hu.2
    | cons k' p' =>
      obtain ⟨hm, v, hf, hw⟩ := walk_split h
      obtain ⟨_, v', hf', hw'⟩ := walk_split h'
      have hle : (Node.addrss n.content).count a ≤ n.addrs.count a := by
        obtain ⟨hd, cs⟩ := n
        simp only [Node.addrs, List.count_cons, Node.content_mk]
        omega
      by_cases hk : k = k'
      · subst hk
        rw [hf] at hf'
        cases hf'
        have h1 := ih p' v m m' (unrelated_cons hu) hw hw'
        have h2 := (addrs_sublist (firstAt_mem hf)).count_le a
        omega
      · have h1 := count_le_of_walk a p v m hw
        have h2 := count_le_of_walk a p' v' m' hw'
        have h3 : v.addrs.count a + v'.addrs.count a ≤ (Node.addrss n.content).count a := by
          generalize n.content = cs at hf hf'
          induction cs using pairInduction with
          | h0 => simp [pairs, firstAt] at hf
          | h1 a => simp [pairs, firstAt] at hf
          | h2 x y cs ihc =>
            simp only [pairs, firstAt] at hf hf'
            simp only [Node.addrss, List.count_append]
            split at hf
            · next he =>
              rw [if_neg (fun e => hk (he.symm.trans e))] at hf'
              cases hf
              have := (addrs_sublist (firstAt_mem hf')).count_le a
              omega
            · split at hf'
              · cases hf'
                have := (addrs_sublist (firstAt_mem hf)).count_le a
                omega
              · have := ihc hf hf'
                omega
        omega

/-- An address that occurs once is found at the end of the path. -/
theorem modifyAt_walk_once (g : Node → Node) (ks : List Str) : ∀ (n m : Node), n.addrs.count m.hd.addr = 1 → walk ks n = [m] →
    modifyAt m.hd.addr (fun x => .ok (g x)) n = .ok (updPath ks g n) := by
  induction ks with
  | nil =>
    intro n m _ h
    simp only [walk, List.cons.injEq, and_true] at h
    subst h
    obtain ⟨h, cs⟩ := n
    rw [modifyAt]
    simp only [Node.hd_mk, if_true]
    rfl
  | cons k ks ih =>
    intro n m hc h
    obtain ⟨hm, v, hf, hw⟩ := walk_split h
    obtain ⟨A, kn, B, e1, e2, e3, e4⟩ := firstAt_split hf
    obtain ⟨hd, cs⟩ := n
    simp only [Node.content_mk] at e1
    subst e1
    have hin : m.hd.addr ∈ v.addrs := mem_addrs_walk ks v m (by rw [hw]; simp)
    have hpos := List.count_pos_iff.2 hin
    simp only [Node.addrs, addrss_append, Node.addrss, List.count_cons, List.count_append] at hc
    have hv : v.addrs.count m.hd.addr = 1 := by omega
    have hhd : ¬ hd.addr = m.hd.addr := by
      intro e
      rw [e] at hc
      simp only [beq_self_eq_true, if_true] at hc
      omega
    have hA : m.hd.addr ∉ Node.addrss A := by rw [← List.count_eq_zero]; omega
    have hB : m.hd.addr ∉ Node.addrss B := by rw [← List.count_eq_zero]; omega
    have hkn : m.hd.addr ∉ kn.addrs := by rw [← List.count_eq_zero]; omega
    rw [modifyAt, if_neg hhd, modifyAts_append, modifyAts_absent _ _ _ hA, Res.bind_ok, modifyAts, modifyAts,
      modifyAt_absent _ _ _ hkn, Res.bind_ok, ih v m hv hw, Res.bind_ok, modifyAts_absent _ _ _ hB]
    simp only [Res.bind_ok]
    rw [updPath, Node.content_mk, updFirst_split _ e2 e4 e3]
    rfl

theorem fresh_addrs_zero (n : Node) : ∀ a ∈ n.fresh.addrs, a = 0 := by
  induction n using Node.ind with
  | h hd cs ih =>
    intro a ha
    rw [fresh_mk, Node.addrs, List.mem_cons] at ha
    rcases ha with rfl | ha
    · rfl
    · rw [addrss_eq, List.mem_flatMap] at ha
      obtain ⟨c, hc1, hc2⟩ := ha
      obtain ⟨c', hc', rfl⟩ := List.mem_map.1 hc1
      exact ih c' hc' a hc2

theorem replaceAllAt_updPaths (E : Sed) (value : Node) (mh : Hdr) (rest : List Node) (pms : List (List Str × Node)) : ∀ n : Node,
    (pms.map Prod.fst).Pairwise Unrelated →
    (∀ pm ∈ pms, walk pm.1 n = [pm.2] ∧ n.addrs.count pm.2.hd.addr = 1 ∧ pm.2.hd.addr ≠ 0 ∧ pm.2.hd.addr ≠ mh.addr ∧
      pm.2.hd.addr ∉ Node.addrss rest) →
    replaceAllAt E value (.mk mh (n :: rest)) (pms.map Prod.snd) =
      .ok (.mk mh (updPaths (pms.map Prod.fst) (fun x => replaceNode E x value) n :: rest)) := by
  induction pms with
  | nil => intro n _ _; rfl
  | cons pm pms ih =>
    intro n hu h
    obtain ⟨p, m⟩ := pm
    rw [List.map_cons, List.pairwise_cons] at hu
    obtain ⟨h1, h2, h3, h4, h5⟩ := h (p, m) (by simp)
    simp only at h1 h2 h3 h4 h5
    have hstep : modifyAt m.hd.addr (fun x => .ok (replaceNode E x value)) (.mk mh (n :: rest)) =
        .ok (.mk mh (updPath p (fun x => replaceNode E x value) n :: rest)) := by
      rw [modifyAt, if_neg (fun e => h4 e.symm), modifyAts, modifyAt_walk_once _ p n m h2 h1, Res.bind_ok, modifyAts_absent _ _ _ h5]
      rfl
    have := ih (updPath p (fun x => replaceNode E x value) n) hu.2 ?_
    · simp only [replaceAllAt, List.map_cons, List.foldlM_cons, hstep, Res.bind_ok, updPaths, List.foldl_cons] at this ⊢
      exact this
    · intro pm' hpm'
      obtain ⟨g1, g2, g3, g4, g5⟩ := h pm' (by simp [hpm'])
      have hup : Unrelated p pm'.1 := hu.1 pm'.1 (List.mem_map_of_mem hpm')
      refine ⟨by rw [walk_updPath_unrelated _ p _ n hup]; exact g1, ?_, g3, g4, g5⟩
      have c1 := count_updPath (fun x => replaceNode E x value) pm'.2.hd.addr p n m h1
      have c2 := count_unrelated pm'.2.hd.addr p pm'.1 n m pm'.2 hup h1 g1
      have c3 : 1 ≤ pm'.2.addrs.count pm'.2.hd.addr := by
        apply List.count_pos_iff.2
        obtain ⟨ph, pcs⟩ := pm'.2
        simp [Node.addrs]
      have c4 : m.addrs.count pm'.2.hd.addr = 0 := by omega
      have c5 : (replaceNode E m value).addrs.count pm'.2.hd.addr = 0 := by
        rw [List.count_eq_zero]
        intro hc
        have hmem : m.hd.addr ∈ m.addrs := by obtain ⟨ph, pcs⟩ := m; simp [Node.addrs]
        rw [List.count_eq_zero] at c4
        unfold replaceNode at hc
        simp only [Node.addrs, List.mem_cons] at hc
        rcases hc with hc | hc
        · exact c4 (hc ▸ hmem)
        · rw [addrss_eq, List.mem_flatMap] at hc
          obtain ⟨c, hc1, hc2⟩ := hc
          rw [fresh_content] at hc1
          obtain ⟨c', _, rfl⟩ := List.mem_map.1 hc1
          exact g3 (fresh_addrs_zero c' _ hc2)
      omega

end Yot
