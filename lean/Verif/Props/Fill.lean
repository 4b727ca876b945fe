import Verif.Spec.Fill
import Verif.Props.Merge
import Verif.Props.Markers
import Verif.Props.JsonPath
/-
C84: merging templates, as data.
-/
namespace Yot
open Spec Ex

theorem without_pct (l : Char) {s : Str} (h : '%' ∉ s) : without l s = s := by
  induction s using without.induct l with
  | case1 => rfl
  | case2 c => rfl
  | case3 c d t hc ih => exact absurd (by simp [hc.1]) h
  | case4 c d t hc ih =>
    rw [without, if_neg hc, ih (fun hm => h (List.mem_cons_of_mem _ hm))]

theorem bare_pct {s : Str} (h : '%' ∉ s) : bare s = s := by
  unfold bare
  rw [without_pct 'v' h, without_pct 'l' h, without_pct 'h' h, without_pct 'f' h, without_pct 'k' h]

theorem meaning_pct {sed : Str → Str → Str} {s : Str} (ht : Tame sed s) {orig : Char → Str} (hv : '%' ∉ orig 'v') (hk : '%' ∉ orig 'k')
    (ps : List Piece) (hp : ∀ p ∈ ps, p ∈ parse s) : '%' ∉ meaning orig sed ps := by
  unfold meaning
  intro h
  obtain ⟨p, h1, h2⟩ := List.mem_flatMap.1 h
  have := ht p (hp p h1)
  have ho : ∀ l, l = 'v' ∨ l = 'k' → '%' ∉ orig l := by rintro l (rfl | rfl) <;> assumption
  cases p with
  | text c => simp only [Piece.meaning, List.mem_singleton] at h2 this; exact this h2.symm
  | marker l => exact ho l this h2
  | command l cmd =>
    simp only [Piece.meaning] at h2 this
    split at h2
    · exact ho l this.1 h2
    · exact this.2 ‹_› _ (ho l this.1) h2

theorem meaning_congr_tame {sed : Str → Str → Str} {s : Str} (ht : Tame sed s) {f g : Char → Str} (hv : f 'v' = g 'v') (hk : f 'k' = g 'k') :
    meaning f sed (parse s) = meaning g sed (parse s) := by
  unfold meaning
  have : ∀ ps : List Piece, (∀ p ∈ ps, p ∈ parse s) → ps.flatMap (Piece.meaning f sed) = ps.flatMap (Piece.meaning g sed) := by
    intro ps
    induction ps with
    | nil => intro _; rfl
    | cons p ps ih =>
      intro hp
      rw [List.flatMap_cons, List.flatMap_cons, ih (fun q hq => hp q (by simp [hq]))]
      congr 1
      have := ht p (hp p (by simp))
      have ho : ∀ l, l = 'v' ∨ l = 'k' → f l = g l := by rintro l (rfl | rfl) <;> assumption
      cases p with
      | text c => rfl
      | marker l => exact ho l this
      | command l cmd => simp only [Piece.meaning]; rw [ho l this.1]
  exact this _ (fun _ h => h)

/-- Filling in a tame template. -/
theorem format_fill (E : Sed) {s : Str} (ht : Tame (sedResult E.compile E.run) s) (x : Vals) (hv : '%' ∉ x.v) (hk : '%' ∉ x.k) :
    format E s x = fill (sedResult E.compile E.run) s x.v x.k ∧ '%' ∉ fill (sedResult E.compile E.run) s x.v x.k := by
  have e1 : bare (x.get 'v') = x.v := bare_pct hv
  have e2 : bare (x.get 'k') = x.k := bare_pct hk
  have o1 : originals x.v x.k [] [] [] 'v' = x.v := rfl
  have o2 : originals x.v x.k [] [] [] 'k' = x.k := rfl
  refine ⟨?_, meaning_pct ht (by rw [o1]; exact hv) (by rw [o2]; exact hk) _ (fun _ h => h)⟩
  rw [format_bare E x s, fill]
  · exact meaning_congr_tame ht (by rw [e1, o1]) (by rw [e2, o2])
  · intro a p b l hps hl hin
    have hn := meaning_pct ht (orig := fun l => bare (x.get l)) (by rw [e1]; exact hv) (by rw [e2]; exact hk) a
      (fun q hq => by rw [hps]; simp [hq])
    exact hn (hin.subset (by simp))

/-- What is needed of the documents' texts and the templates for templates to mean what `fill` says. -/
structure Filling (E : Sed) (G T : Str → Prop) : Prop where
  nil : G []
  fmt : ∀ {s : Str}, T s → ∀ x : Vals, G x.v → G x.k →
    format E s x = fill (sedResult E.compile E.run) s x.v x.k ∧ G (fill (sedResult E.compile E.run) s x.v x.k)

theorem filling_tame (E : Sed) : Filling E (fun s => '%' ∉ s) (Tame (sedResult E.compile E.run)) where
  nil := by simp
  fmt ht x hv hk := format_fill E ht x hv hk

theorem fill_noMarker (sed : Str → Str → Str) {s : Str} (h : NoMarker s) (v k : Str) : fill sed s v k = s := by
  have hsed : ∀ p ∈ parse s, p.letter? = none := by
    intro p hp
    cases hl : p.letter? with
    | none => rfl
    | some l =>
      exfalso
      have hlet := parse_letter hp hl
      obtain ⟨a, b, hab⟩ := List.append_of_mem hp
      have hsrc := parse_source s
      rw [hab] at hsrc
      refine h l hlet ⟨source a, ?_, ?_⟩
      · exact (p.source.drop 2) ++ source b
      · rw [← hsrc]
        cases p with
        | text c => cases hl
        | marker l' => cases hl; simp [source, Piece.source]
        | command l' c => cases hl; simp [source, Piece.source]
  have hsrc := parse_source s
  unfold fill meaning
  have : ∀ ps : List Piece, (∀ p ∈ ps, p.letter? = none) → ps.flatMap (Piece.meaning (originals v k [] [] []) sed) = source ps := by
    intro ps
    induction ps with
    | nil => intro _; rfl
    | cons p ps ih =>
      intro hp
      rw [List.flatMap_cons, ih (fun q hq => hp q (by simp [hq]))]
      cases p with
      | text c => rfl
      | marker l => have := hp (.marker l) (by simp); cases this
      | command l c => have := hp (.command l c) (by simp); cases this
  rw [this _ hsed, hsrc]

theorem without_noMarker {l : Char} (hl : l ∈ letters) {s : Str} (h : NoMarker s) : without l s = s := by
  induction s using without.induct l with
  | case1 => rfl
  | case2 c => rfl
  | case3 c d t hc ih =>
    obtain ⟨rfl, rfl⟩ := hc
    exact absurd ⟨[], t, by simp⟩ (h _ hl)
  | case4 c d t hc ih =>
    rw [without, if_neg hc, ih (fun l hl hin => h l hl (hin.trans ⟨[c], [], by simp⟩))]

theorem bare_noMarker {s : Str} (h : NoMarker s) : bare s = s := by
  unfold bare
  rw [without_noMarker (by decide) h, without_noMarker (by decide) h, without_noMarker (by decide) h, without_noMarker (by decide) h,
    without_noMarker (by decide) h]

/-- No marker across a boundary. -/
theorem noMarker_join {a b : Str} (ha : NoMarker a) (hb : NoMarker b) (h : a.getLast? = some '%' → ∀ c ∈ letters, b.head? ≠ some c) :
    NoMarker (a ++ b) := by
  rintro l hl ⟨p, q, hpq⟩
  have e : p ++ (['%', l] ++ q) = a ++ b := by rw [← hpq]; simp
  rcases List.append_eq_append_iff.1 e with ⟨c, h1, h2⟩ | ⟨c, h1, h2⟩
  · -- `p` within `a`
    match c, h2 with
    | [], h2 =>
      exact hb l hl ⟨[], q, by simpa using h2⟩
    | [x], h2 =>
      simp only [List.cons_append, List.nil_append, List.cons.injEq] at h2
      obtain ⟨rfl, h2⟩ := h2
      exact h (by rw [h1]; simp) l hl (by rw [← h2]; rfl)
    | x :: y :: c, h2 =>
      simp only [List.cons_append, List.nil_append, List.cons.injEq] at h2
      obtain ⟨rfl, rfl, h2⟩ := h2
      exact ha _ hl ⟨p, c, by rw [h1]; simp⟩
  · exact hb l hl ⟨c, q, by rw [h2]; simp⟩

theorem meaning_spaced {sed : Str → Str → Str} {s : Str} (ht : Spaced sed s) {orig : Char → Str} (hv : NoMarker (orig 'v')) (hk : NoMarker (orig 'k')) :
    ∀ (ps a b : List Piece), parse s = a ++ ps ++ b → NoMarker (meaning orig sed ps) := by
  intro ps
  induction ps with
  | nil => intro a b _ l _ h; simp [meaning] at h
  | cons p ps ih =>
    intro a b hab
    have ho : ∀ l, l = 'v' ∨ l = 'k' → NoMarker (orig l) := by rintro l (rfl | rfl) <;> assumption
    have hrest := ih (a ++ [p]) b (by rw [hab]; simp)
    have hp := ht.1 p (by rw [hab]; simp)
    have hpm : NoMarker (p.meaning orig sed) := by
      cases p with
      | text c =>
        rintro l _ ⟨x, y, hxy⟩
        have := congrArg List.length hxy
        simp [Piece.meaning] at this
        omega
      | marker l => exact ho l hp
      | command l cmd =>
        simp only [Piece.meaning]
        split
        · exact ho l hp.1
        · exact hp.2 ‹_› _ (ho l hp.1)
    have hcons : meaning orig sed (p :: ps) = p.meaning orig sed ++ meaning orig sed ps := by simp [meaning]
    rw [hcons]
    refine noMarker_join hpm hrest ?_
    intro hlast c hc hhead
    cases ps with
    | nil => simp [meaning] at hhead
    | cons q ps =>
      have hmay : MayEndPercent p := by
        cases p with
        | text d => simpa [Piece.meaning, MayEndPercent] using hlast
        | marker _ => trivial
        | command _ _ => trivial
      obtain ⟨d, rfl, hd⟩ := ht.2 a p q (ps ++ b) (by rw [hab]; simp) hmay
      simp [meaning, Piece.meaning] at hhead
      exact hd (hhead ▸ hc)

theorem meaning_congr_spaced {sed : Str → Str → Str} {s : Str} (ht : Spaced sed s) {f g : Char → Str} (hv : f 'v' = g 'v') (hk : f 'k' = g 'k') :
    meaning f sed (parse s) = meaning g sed (parse s) := by
  unfold meaning
  refine List.flatMap_congr fun p hp => ?_
  have := ht.1 p hp
  have ho : ∀ l, l = 'v' ∨ l = 'k' → f l = g l := by rintro l (rfl | rfl) <;> assumption
  cases p with
  | text c => rfl
  | marker l => exact ho l this
  | command l cmd => simp only [Piece.meaning]; rw [ho l this.1]

theorem filling_spaced (E : Sed) : Filling E NoMarker (Spaced (sedResult E.compile E.run)) where
  nil := by decide
  fmt {s} ht x hv hk := by
    have e1 : bare (x.get 'v') = x.v := bare_noMarker hv
    have e2 : bare (x.get 'k') = x.k := bare_noMarker hk
    have o1 : originals x.v x.k [] [] [] 'v' = x.v := rfl
    have o2 : originals x.v x.k [] [] [] 'k' = x.k := rfl
    refine ⟨?_, meaning_spaced ht (by rw [o1]; exact hv) (by rw [o2]; exact hk) _ [] [] (by simp)⟩
    rw [format_bare E x s, fill]
    · exact meaning_congr_spaced ht (by rw [e1, o1]) (by rw [e2, o2])
    · intro a p b l hps hl hin
      exact meaning_spaced ht (orig := fun l => bare (x.get l)) (by rw [e1]; exact hv) (by rw [e2]; exact hk) a [] (p :: b)
        (by rw [hps]; simp) l (parse_letter (by rw [hps]; simp) hl) hin

theorem allNodess_iff {p : Hdr → Prop} (cs : List Node) : AllNodess p cs ↔ ∀ c ∈ cs, AllNodes p c := by
  induction cs with
  | nil => simp [AllNodess]
  | cons c cs ih => simp [AllNodess, ih]

theorem allNodess_append {p : Hdr → Prop} {cs ds : List Node} (h1 : AllNodess p cs) (h2 : AllNodess p ds) : AllNodess p (cs ++ ds) := by
  rw [allNodess_iff] at *
  intro c hc
  rcases List.mem_append.1 hc with h | h
  · exact h1 c h
  · exact h2 c h

theorem strips_text_tame {E : Sed} {G T : Str → Prop} (F : Filling E G T) {h : Hdr} (hk : h.kind = .scalar) (ht : Templates T h) :
    format E h.value {} = fill (sedResult E.compile E.run) h.value [] [] ∧ G (fill (sedResult E.compile E.run) h.value [] []) := by
  rcases ht with ⟨_, ht⟩ | ⟨ht, _⟩
  · exact F.fmt ht {} F.nil F.nil
  · rw [hk] at ht; rcases ht with h | h <;> cases h

theorem format_nil (E : Sed) (x : Vals) : format E [] x = [] := rfl

/-- Copying and sanitizing templates. -/
theorem data_strips {E : Sed} {G T : Str → Prop} (F : Filling E G T) (n : Node) : ∀ b, data n = some b → AllNodes (Templates T) n →
    data (sanitizeNode E n.fresh) = some (strips (sedResult E.compile E.run) b) ∧ AllNodes (Texts G) (sanitizeNode E n.fresh) := by
  induction n using Node.ind with
  | h hd cs ih =>
    intro b hb hm
    have hL : ∀ ds : List Node, (∀ c ∈ ds, c ∈ cs) → ∀ xs, datas ds = some xs → AllNodess (Templates T) ds →
        datas (sanitizeNodes E (Node.freshs ds)) = some (stripsL (sedResult E.compile E.run) xs) ∧
        AllNodess (Texts G) (sanitizeNodes E (Node.freshs ds)) := by
      intro ds
      induction ds with
      | nil => intro _ xs h _; simp [datas] at h; subst h; simp [Node.freshs, sanitizeNodes, datas, stripsL, AllNodess]
      | cons d ds ihd =>
        intro hsub xs h hmk
        simp only [datas] at h
        split at h <;> simp at h
        rename_i x xs' hx hxs
        subst h
        simp only [AllNodess] at hmk
        have h1 := ih d (hsub d (by simp)) x hx hmk.1
        have h2 := ihd (fun c hc => hsub c (by simp [hc])) xs' hxs hmk.2
        simp [Node.freshs, sanitizeNodes, datas, h1.1, h2.1, stripsL, AllNodess, h1.2, h2.2]
    have hP : ∀ ds : List Node, (∀ c ∈ ds, c ∈ cs) → ∀ xs, dataPairs ds = some xs → AllNodess (Templates T) ds →
        dataPairs (sanitizeNodes E (Node.freshs ds)) = some (stripsE (sedResult E.compile E.run) xs) ∧
        AllNodess (Texts G) (sanitizeNodes E (Node.freshs ds)) := by
      intro ds
      induction ds using pairInduction with
      | h0 => intro _ xs h _; simp [dataPairs] at h; subst h; simp [Node.freshs, sanitizeNodes, dataPairs, stripsE, AllNodess]
      | h1 a => intro _ xs h _; simp [dataPairs] at h
      | h2 k v ds ihd =>
        intro hsub xs h hmk
        obtain ⟨x, es', k1, k2, k3, k4, rfl⟩ := dataPairs_cons h
        simp only [AllNodess] at hmk
        have h1 := ih v (hsub v (by simp)) x k3 hmk.2.1
        have h2 := ihd (fun c hc => hsub c (by simp [hc])) es' k4 hmk.2.2
        simp only [Node.freshs, sanitizeNodes]
        obtain ⟨kh, kc⟩ := k
        simp only [Node.hd_mk, Node.content_mk] at k1 k2
        subst k2
        have hkt := strips_text_tame F k1 hmk.1.1
        have h3 := dataPairs_mk (k := sanitizeNode E (Node.fresh (.mk kh []))) (by
          simpa [Node.fresh, sanitizeNode, sanitizeHdr] using k1) (by
          simp [Node.fresh, sanitizeNode, Node.freshs, sanitizeNodes]) h1.1 h2.1
        rw [h3]
        refine ⟨?_, ?_, h1.2, h2.2⟩
        · simp [Node.fresh, sanitizeNode, sanitizeHdr, stripsE, hkt.1]
        · simp [Node.fresh, sanitizeNode, sanitizeHdr, Node.freshs, sanitizeNodes, AllNodes, AllNodess, Texts, hkt.1, hkt.2, k1]
    simp only [AllNodes] at hm
    rcases data_cases hb with ⟨hk, hc, rfl⟩ | ⟨hk, xs, hx, rfl⟩ | ⟨hk, es, hx, rfl⟩ | ⟨hk, hc, rfl⟩
    · simp only [Node.hd_mk, Node.content_mk] at hk hc
      subst hc
      have hkt := strips_text_tame F hk hm.1
      simp only [Node.fresh, sanitizeNode, Node.freshs, sanitizeNodes]
      rw [data_scalar (by simpa [sanitizeHdr] using hk)]
      simp [sanitizeHdr, strips, hkt.1, hkt.2, AllNodes, AllNodess, Texts, hk]
    · simp only [Node.hd_mk, Node.content_mk] at hk hx
      have hv : hd.value = [] := by
        rcases hm.1 with ⟨h, _⟩ | ⟨_, h⟩
        · rw [hk] at h; cases h
        · exact h
      obtain ⟨h1, h2⟩ := hL cs (fun _ h => h) xs hx hm.2
      simp only [Node.fresh, sanitizeNode]
      rw [data_sequence (by simpa [sanitizeHdr] using hk), h1]
      simp [sanitizeHdr, strips, AllNodes, Texts, hv, format_nil, h2, F.nil]
    · simp only [Node.hd_mk, Node.content_mk] at hk hx
      have hv : hd.value = [] := by
        rcases hm.1 with ⟨h, _⟩ | ⟨_, h⟩
        · rw [hk] at h; cases h
        · exact h
      obtain ⟨h1, h2⟩ := hP cs (fun _ h => h) es hx hm.2
      simp only [Node.fresh, sanitizeNode]
      rw [data_mapping (by simpa [sanitizeHdr] using hk), h1]
      simp [sanitizeHdr, strips, AllNodes, Texts, hv, format_nil, h2, F.nil]
    · simp only [Node.hd_mk] at hk
      rcases hm.1 with ⟨h, _⟩ | ⟨h | h, _⟩ <;> rw [hk] at h <;> cases h

theorem datas_strips {E : Sed} {G T : Str → Prop} (F : Filling E G T) (ns : List Node) : ∀ b, datas ns = some b → AllNodess (Templates T) ns →
    datas (sanitizeNodes E (Node.freshs ns)) = some (stripsL (sedResult E.compile E.run) b) ∧
    AllNodess (Texts G) (sanitizeNodes E (Node.freshs ns)) := by
  induction ns with
  | nil => intro xs h _; simp [datas] at h; subst h; simp [Node.freshs, sanitizeNodes, datas, stripsL, AllNodess]
  | cons d ds ihd =>
    intro xs h hmk
    simp only [datas] at h
    split at h <;> simp at h
    rename_i x xs' hx hxs
    subst h
    simp only [AllNodess] at hmk
    have h1 := data_strips F d x hx hmk.1
    have h2 := ihd xs' hxs hmk.2
    simp [Node.freshs, sanitizeNodes, datas, h1.1, h2.1, stripsL, AllNodess, h1.2, h2.2]

/-- The inner loop for a key that is no template. -/
theorem mergeInner_fill {E : Sed} {G T : Str → Prop} (F : Filling E G T) (f : Node → Str → Res Err Node) (g : Str → Val → Val) (nk : Hdr) (hk : NoMarker nk.value)
    (hf : ∀ x key d, data x = some d → AllNodes (Texts G) x → G key → ∃ x', f x key = .ok x' ∧ data x' = some (g key d) ∧ AllNodes (Texts G) x')
    (cs : List Node) (es : List (Key × Val)) (h : dataPairs cs = some es) (hq : AllNodess (Texts G) cs) :
    ∃ cs', mergeInner E f nk cs = .ok (cs', (updKey nk.value (g nk.value) es).2) ∧
      dataPairs cs' = some (updKey nk.value (g nk.value) es).1 ∧ AllNodess (Texts G) cs' := by
  have hmk := (checkForMarkers_iff _).2 hk
  induction cs using pairInduction generalizing es with
  | h0 => simp [dataPairs] at h; subst h; exact ⟨[], rfl, rfl, by simp [AllNodess]⟩
  | h1 a => simp [dataPairs] at h
  | h2 k v cs ih =>
    obtain ⟨x, es', k1, k2, k3, k4, rfl⟩ := dataPairs_cons h
    simp only [AllNodess] at hq
    have hkq : Texts G k.hd := by
      obtain ⟨kh, kc⟩ := k; exact hq.1.1
    by_cases hkey : k.hd.value = nk.value
    · obtain ⟨v', hv', hd', hq'⟩ := hf v k.hd.value x k3 hq.2.1 hkq.1
      have hm := mergeComments_fields E k.hd nk [v.hd.value, k.hd.value]
      refine ⟨.mk (mergeComments E k.hd nk [v.hd.value, k.hd.value]) k.content :: v' :: cs, ?_, ?_, ?_⟩
      · simp only [mergeInner, hmk, hkey, Bool.not_false, Bool.true_and, ne_eq, not_true_eq_false,
          decide_false, Bool.false_eq_true, if_false, if_true, updKey]
        rw [← hkey, hv']
        rfl
      · have := dataPairs_mk
          (k := .mk (mergeComments E k.hd nk [v.hd.value, k.hd.value]) k.content) (v := v')
          (by simp only [Node.hd_mk, hm.1]; exact k1) k2 hd' k4
        simp only [Node.hd_mk, hm.2.1, hm.2.2] at this
        rw [hkey] at this ⊢
        simpa [updKey] using this
      · simp only [AllNodess, AllNodes, k2, and_true]
        refine ⟨⟨by rw [hm.2.1]; exact hkq.1, by rw [hm.2.1, hm.1]; exact hkq.2⟩, hq', hq.2.2⟩
    · obtain ⟨cs', h1, h2, h3⟩ := ih es' k4 hq.2.2
      refine ⟨k :: v :: cs', ?_, ?_, hq.1, hq.2.1, h3⟩
      · simp [mergeInner, hmk, hkey, h1, updKey]
      · have := dataPairs_mk k1 k2 k3 h2
        simpa [updKey, hkey] using this

theorem data_text {E : Sed} {G T : Str → Prop} (F : Filling E G T){n : Node} {a : Val} (h : data n = some a) (hq : AllNodes (Texts G) n) : n.hd.value = a.text ∧ G a.text := by
  have hp : Texts G n.hd := by obtain ⟨nh, nc⟩ := n; exact hq.1
  rcases data_cases h with ⟨hk, _, rfl⟩ | ⟨hk, xs, _, rfl⟩ | ⟨hk, xs, _, rfl⟩ | ⟨hk, _, rfl⟩
  · exact ⟨rfl, hp.1⟩
  · exact ⟨hp.2 (.inr hk), F.nil⟩
  · exact ⟨hp.2 (.inl hk), F.nil⟩
  · exact ⟨rfl, hp.1⟩

/-- The inner loop for a key that is a template. -/
theorem mergeInner_fill_all {E : Sed} {G T : Str → Prop} (F : Filling E G T) (f : Node → Str → Res Err Node) (g : Str → Val → Val) (nk : Hdr) (hk : ¬ NoMarker nk.value)
    (ht : T nk.value)
    (hf : ∀ x key d, data x = some d → AllNodes (Texts G) x → G key → ∃ x', f x key = .ok x' ∧ data x' = some (g key d) ∧ AllNodes (Texts G) x')
    (cs : List Node) (es : List (Key × Val)) (h : dataPairs cs = some es) (hq : AllNodess (Texts G) cs) :
    ∃ cs', mergeInner E f nk cs = .ok (cs', !es.isEmpty) ∧
      dataPairs cs' = some (es.map fun e => (⟨e.1.tag, fill (sedResult E.compile E.run) nk.value e.2.text e.1.text⟩, g e.1.text e.2)) ∧
      AllNodess (Texts G) cs' := by
  have hmk : checkForMarkers nk.value = true := by
    rw [← Bool.not_eq_false, checkForMarkers_iff]; exact hk
  induction cs using pairInduction generalizing es with
  | h0 => simp [dataPairs] at h; subst h; exact ⟨[], rfl, rfl, by simp [AllNodess]⟩
  | h1 a => simp [dataPairs] at h
  | h2 k v cs ih =>
    obtain ⟨x, es', k1, k2, k3, k4, rfl⟩ := dataPairs_cons h
    simp only [AllNodess] at hq
    have hkq : Texts G k.hd := by
      obtain ⟨kh, kc⟩ := k; exact hq.1.1
    obtain ⟨v', hv', hd', hq'⟩ := hf v k.hd.value x k3 hq.2.1 hkq.1
    obtain ⟨cs', h1, h2, h3⟩ := ih es' k4 hq.2.2
    have hm := mergeComments_fields E k.hd nk [v.hd.value, k.hd.value]
    have hm2 := mergeComments_fields E (mergeComments E k.hd nk [v.hd.value, k.hd.value]) nk [v.hd.value, k.hd.value]
    have hx := data_text F k3 hq.2.1
    have hfmt := F.fmt ht (formatVals (mergeComments E k.hd nk [v.hd.value, k.hd.value]) [v.hd.value, k.hd.value])
      (by simp only [formatVals, valueAndKey]; rw [hx.1]; exact hx.2) (by simp only [formatVals, valueAndKey]; exact hkq.1)
    have e1 : (formatVals (mergeComments E k.hd nk [v.hd.value, k.hd.value]) [v.hd.value, k.hd.value]).v = x.text := hx.1
    have e2 : (formatVals (mergeComments E k.hd nk [v.hd.value, k.hd.value]) [v.hd.value, k.hd.value]).k = k.hd.value := rfl
    rw [e1, e2] at hfmt
    have hms : mergeScalar E (.mk (mergeComments E k.hd nk [v.hd.value, k.hd.value]) k.content) nk [v.hd.value, k.hd.value] =
        .mk { mergeComments E (mergeComments E k.hd nk [v.hd.value, k.hd.value]) nk [v.hd.value, k.hd.value] with
          value := fill (sedResult E.compile E.run) nk.value x.text k.hd.value } k.content := by
      unfold mergeScalar
      rw [if_neg (by simp only [Node.hd_mk, hm.1, k1]; simp)]
      simp only [Node.hd_mk, Node.content_mk, hfmt.1]
    refine ⟨mergeScalar E (.mk (mergeComments E k.hd nk [v.hd.value, k.hd.value]) k.content) nk [v.hd.value, k.hd.value] :: v' :: cs', ?_, ?_, ?_⟩
    · simp [mergeInner, hmk, hv', h1]
    · rw [hms]
      have := dataPairs_mk (k := .mk { mergeComments E (mergeComments E k.hd nk [v.hd.value, k.hd.value]) nk [v.hd.value, k.hd.value] with
          value := fill (sedResult E.compile E.run) nk.value x.text k.hd.value } k.content) (v := v')
          (by simp only [Node.hd_mk, hm2.1, hm.1]; exact k1) k2 hd' h2
      rw [this]
      simp only [Node.hd_mk, hm2.2.2, hm.2.2, List.map_cons]
    · rw [hms]
      simp only [AllNodess, AllNodes, k2, and_true]
      refine ⟨⟨hfmt.2, ?_⟩, hq', h3⟩
      simp only [hm2.1, hm.1, k1]
      rintro (h | h) <;> cases h

/-- Merging tame templates refines `fillMerge`. -/
theorem merge_fill {E : Sed} {G T : Str → Prop} (F : Filling E G T) (n : Node) :
    ∀ (o : Node) (vals : List Str) (a b : Val), vals.length ≤ 1 → G (keyOf vals) → data o = some a → AllNodes (Texts G) o →
      data n = some b → AllNodes (Templates T) n →
      ∃ o', merge E o vals n = .ok o' ∧ data o' = some (fillMerge (sedResult E.compile E.run) (keyOf vals) a b) ∧ AllNodes (Texts G) o' := by
  induction n using Node.ind with
  | h nh ncs ih =>
    intro o vals a b hvals hkey ha hqo hb hm
    have hop : Texts G o.hd := by obtain ⟨oh, oc⟩ := o; exact hqo.1
    have hoc : AllNodess (Texts G) o.content := by obtain ⟨oh, oc⟩ := o; exact hqo.2
    simp only [AllNodes] at hm
    rcases data_cases hb with ⟨hk, hc, rfl⟩ | ⟨hk, ys, hy, rfl⟩ | ⟨hk, es, hx, rfl⟩ | ⟨hk, hc, rfl⟩
    · -- scalar
      simp only [Node.hd_mk, Node.content_mk] at hk hc
      have ht : T nh.value := by
        rcases hm.1 with ⟨_, h⟩ | ⟨h | h, _⟩
        · exact h
        · rw [hk] at h; cases h
        · rw [hk] at h; cases h
      refine ⟨_, merge_scalar E o vals hk, ?_⟩
      have hkc := mergeComments_fields E o.hd nh vals
      have hx := data_text F ha hqo
      have e1 : (formatVals o.hd vals).v = a.text ∧ (formatVals o.hd vals).k = keyOf vals := by
        rw [← hx.1]
        match vals, hvals with
        | [], _ => exact ⟨rfl, rfl⟩
        | [k], _ => exact ⟨rfl, rfl⟩
      have hfmt := F.fmt ht (formatVals o.hd vals) (by rw [e1.1]; exact hx.2) (by rw [e1.2]; exact hkey)
      rw [e1.1, e1.2] at hfmt
      unfold mergeScalar
      dsimp only
      split
      · simp [data, fillMerge, hfmt.1, AllNodes, AllNodess, Texts, hfmt.2]
      · rename_i ho
        simp only [ne_eq, Decidable.not_not] at ho
        have : o.content = [] := by
          rcases data_cases ha with ⟨_, hc, _⟩ | ⟨hk', _⟩ | ⟨hk', _⟩ | ⟨hk', _⟩
          · exact hc
          · rw [ho] at hk'; simp at hk'
          · rw [ho] at hk'; simp at hk'
          · rw [ho] at hk'; simp at hk'
        simp only [Node.hd_mk, Node.content_mk, this, fillMerge]
        rw [data_scalar (by simpa [hkc.1] using ho)]
        simp [hfmt.1, AllNodes, AllNodess, Texts, hfmt.2, hkc.1, ho]
    · -- sequence
      simp only [Node.hd_mk, Node.content_mk] at hk hy
      refine ⟨_, merge_sequence E o vals hk, ?_⟩
      have hto : ∃ t xs, (toSequence o).hd.kind = .sequence ∧ datas (toSequence o).content = some xs ∧
          (toSequence o).hd.tag = t ∧ fillMerge (sedResult E.compile E.run) (keyOf vals) a (.seq nh.tag ys) =
            .seq t (xs ++ stripsL (sedResult E.compile E.run) ys) ∧
          AllNodess (Texts G) (toSequence o).content ∧ (toSequence o).hd.value = [] := by
        unfold toSequence
        rcases data_cases ha with ⟨hk', hc, rfl⟩ | ⟨hk', xs, hx, rfl⟩ | ⟨hk', es, hx, rfl⟩ | ⟨hk', hc, rfl⟩
        · simp [hk', datas, fillMerge, AllNodess]
        · simp [hk', hx, fillMerge, hoc, hop.2 (.inr hk')]
        · simp [hk', datas, fillMerge, AllNodess]
        · simp [hk', datas, fillMerge, AllNodess]
      obtain ⟨t, xs, h1, h2, h3, h4, h5, h6⟩ := hto
      simp only [Node.hd_mk]
      rw [h4]
      unfold mergeArray
      dsimp only
      split
      · rename_i hnil
        simp [Node.contentIsNil] at hnil
        simp only [hnil.2, datas, Option.some.injEq] at hy
        subst hy
        have := data_sequence (h := (toSequence o).hd) (cs := (toSequence o).content) h1
        rw [Node.eta, h2, h3] at this
        refine ⟨by simpa [stripsL] using this, ?_⟩
        rw [← Node.eta (toSequence o)]
        exact ⟨⟨by rw [h6]; exact F.nil, fun _ => h6⟩, h5⟩
      · have hkc := mergeComments_fields E (toSequence o).hd nh [(toSequence o).hd.value]
        simp only [addNode, appendContent, Node.content_mk, Node.hd_mk]
        rw [data_sequence (by simpa [hkc.1] using h1)]
        have hs := datas_strips F ncs ys hy hm.2
        rw [datas_append h2 hs.1]
        refine ⟨by simp [hkc.2.2, h3], ?_⟩
        have hv0 : (mergeComments E (toSequence o).hd nh [(toSequence o).hd.value]).value = [] := hkc.2.1.trans h6
        exact ⟨⟨by show G (mergeComments E (toSequence o).hd nh [(toSequence o).hd.value]).value; rw [hv0]; exact F.nil, fun _ => hv0⟩,
          allNodess_append h5 hs.2⟩
    · -- mapping
      simp only [Node.hd_mk, Node.content_mk] at hk hx
      rw [merge_mapping E o vals hk]
      simp only [fillMerge]
      have key : ∀ ds : List Node, (∀ c ∈ ds, c ∈ ncs) → ∀ (o : Node) (a : Val) (es : List (Key × Val)),
          data o = some a → AllNodes (Texts G) o → dataPairs ds = some es → AllNodess (Templates T) ds →
          ∃ o', mergeEntries E o ds = .ok o' ∧ data o' = some (fillAll (sedResult E.compile E.run) a es) ∧ AllNodes (Texts G) o' := by
        intro ds
        induction ds using pairInduction with
        | h0 =>
          intro _ o a es ha hq h _
          simp [dataPairs] at h; subst h
          exact ⟨o, by simp [mergeEntries], by simpa [fillAll] using ha, hq⟩
        | h1 c => intro _ o a es _ _ h _; simp [dataPairs] at h
        | h2 k v ds ihd =>
          intro hsub o a es ha hq h hmk
          obtain ⟨x, es', k1, k2, k3, k4, rfl⟩ := dataPairs_cons h
          simp only [AllNodess] at hmk
          obtain ⟨A, t1, t2, t3, rfl⟩ := data_toMapping ha
          have hop : Texts G o.hd := by obtain ⟨oh, oc⟩ := o; exact hq.1
          have hoc : AllNodess (Texts G) o.content := by obtain ⟨oh, oc⟩ := o; exact hq.2
          have tq : AllNodess (Texts G) (toMapping o).content ∧ (toMapping o).hd.value = [] := by
            unfold toMapping
            split
            · simp [AllNodess]
            · rename_i hne
              exact ⟨hoc, hop.2 (.inl (not_not.1 hne))⟩
          have hkt : T k.hd.value := by
            have : Templates T k.hd := by obtain ⟨kh, kc⟩ := k; exact hmk.1.1
            rcases this with ⟨_, h⟩ | ⟨h | h, _⟩
            · exact h
            · rw [k1] at h; cases h
            · rw [k1] at h; cases h
          have hf : ∀ y key d, data y = some d → AllNodes (Texts G) y → G key → ∃ y', merge E y [key] v = .ok y' ∧
              data y' = some (fillMerge (sedResult E.compile E.run) key d x) ∧ AllNodes (Texts G) y' :=
            fun y key d hy hyq hkq => ih v (hsub v (by simp)) y [key] d x (by simp) hkq hy hyq k3 hmk.2.1
          have hs : dataPairs (sanitizeNodes E (Node.freshs [k, v])) =
              some [(⟨k.hd.tag, fill (sedResult E.compile E.run) k.hd.value [] []⟩, strips (sedResult E.compile E.run) x)] ∧
              AllNodess (Texts G) (sanitizeNodes E (Node.freshs [k, v])) := by
            have hkv : dataPairs [k, v] = some [(⟨k.hd.tag, k.hd.value⟩, x)] := dataPairs_mk k1 k2 k3 rfl
            have hm1 : data (.mk { kind := .mapping } [k, v]) = some (.map [] [(⟨k.hd.tag, k.hd.value⟩, x)]) := by
              rw [data_mapping rfl, hkv]; rfl
            have hm2 := data_strips F (.mk { kind := .mapping } [k, v]) _ hm1
              ⟨.inr ⟨.inl rfl, rfl⟩, hmk.1, hmk.2.1, trivial⟩
            simp only [Node.fresh, sanitizeNode] at hm2
            obtain ⟨h1, h2⟩ := hm2
            rw [data_mapping (by rfl)] at h1
            cases hdp : dataPairs (sanitizeNodes E (Node.freshs [k, v])) with
            | none => rw [hdp] at h1; simp at h1
            | some es =>
              rw [hdp] at h1
              simp only [strips, stripsE, Option.map_some, Option.some.injEq, Val.map.injEq] at h1
              exact ⟨by rw [h1.2], h2.2⟩
          by_cases hnm : NoMarker k.hd.value
          · obtain ⟨cs', i1, i2, i3⟩ := mergeInner_fill F (fun x key => merge E x [key] v)
              (fun key old => fillMerge (sedResult E.compile E.run) key old x) k.hd hnm hf (toMapping o).content (asMap a).2 t2 tq.1
            simp only [mergeEntries, i1, Res.bind_ok, fillAll]
            rw [if_pos hnm]
            have goal : data (if (updKey k.hd.value (fun old => fillMerge (sedResult E.compile E.run) k.hd.value old x) (asMap a).2).2 then
                Node.mk (toMapping o).hd cs' else addNode E (Node.mk (toMapping o).hd cs') [k, v]) =
                some (.map (asMap a).1 (setKey ⟨k.hd.tag, k.hd.value⟩ (strips (sedResult E.compile E.run) x)
                  (fun old => fillMerge (sedResult E.compile E.run) k.hd.value old x) (asMap a).2)) ∧
                AllNodes (Texts G) (if (updKey k.hd.value (fun old => fillMerge (sedResult E.compile E.run) k.hd.value old x) (asMap a).2).2 then
                Node.mk (toMapping o).hd cs' else addNode E (Node.mk (toMapping o).hd cs') [k, v]) := by
              rw [setKey_eq]
              simp only
              split
              · exact ⟨by rw [data_mapping t1, i2, t3]; rfl, ⟨by rw [tq.2]; exact F.nil, fun _ => tq.2⟩, i3⟩
              · simp only [addNode, appendContent, Node.hd_mk, Node.content_mk]
                rw [data_mapping (by simpa using t1), dataPairs_append i2 hs.1]
                refine ⟨by simp [t3, fill_noMarker _ hnm], ?_⟩
                exact ⟨⟨by show G (toMapping o).hd.value; rw [tq.2]; exact F.nil, fun _ => tq.2⟩, allNodess_append i3 hs.2⟩
            exact ihd (fun c hc => hsub c (by simp [hc])) _ _ _ goal.1 goal.2 k4 hmk.2.2
          · obtain ⟨cs', i1, i2, i3⟩ := mergeInner_fill_all F (fun x key => merge E x [key] v)
              (fun key old => fillMerge (sedResult E.compile E.run) key old x) k.hd hnm hkt hf (toMapping o).content (asMap a).2 t2 tq.1
            simp only [mergeEntries, i1, Res.bind_ok, fillAll]
            rw [if_neg hnm]
            by_cases he : (asMap a).2 = []
            · rw [if_pos he]
              have : cs' = [] := by
                rw [he] at t2 i1
                cases hc : (toMapping o).content with
                | nil => rw [hc] at i1; simp [mergeInner] at i1; exact i1
                | cons c cs =>
                  rw [hc] at t2
                  cases cs with
                  | nil => simp [dataPairs] at t2
                  | cons c' cs =>
                    obtain ⟨_, _, _, _, _, _, h⟩ := dataPairs_cons t2
                    cases h
              subst this
              rw [he]
              refine ihd (fun c hc => hsub c (by simp [hc])) _ _ _ ?_ ?_ k4 hmk.2.2
              · simp only [List.isEmpty_nil, Bool.not_true, Bool.false_eq_true, if_false, addNode, appendContent, Node.hd_mk, Node.content_mk, List.nil_append]
                rw [data_mapping (by simpa using t1), hs.1]
                simp [t3]
              · simp only [List.isEmpty_nil, Bool.not_true, Bool.false_eq_true, if_false, addNode, appendContent, Node.hd_mk, Node.content_mk, List.nil_append]
                exact ⟨⟨by show G (toMapping o).hd.value; rw [tq.2]; exact F.nil, fun _ => tq.2⟩, hs.2⟩
            · rw [if_neg he]
              have hne : (asMap a).2.isEmpty = false := by
                cases h : (asMap a).2 with
                | nil => exact absurd h he
                | cons _ _ => rfl
              rw [hne]
              refine ihd (fun c hc => hsub c (by simp [hc])) _ _ _ ?_ ?_ k4 hmk.2.2
              · simp only [Bool.not_false, if_true]
                rw [data_mapping t1, i2, t3]; rfl
              · simp only [Bool.not_false, if_true]
                exact ⟨⟨by rw [tq.2]; exact F.nil, fun _ => tq.2⟩, i3⟩
      exact key ncs (fun _ h => h) o a es ha hqo hx hm.2
    · simp only [Node.hd_mk] at hk
      rcases hm.1 with ⟨h, _⟩ | ⟨h | h, _⟩ <;> rw [hk] at h <;> cases h

/-- **C84** (partial): merging a value whose texts are templates, into any data: the outcome is
`fillMerge`.  In particular a scalar gets the type the overlay's value is tagged with.  Missing:
the markers for comments, which are in C06; for documents whose texts contain a `%` see
`C84_merge_percent_partial`. -/
theorem C84_merge_templates_partial (E : Sed) (o n : Node) (a b : Val) (ha : data o = some a) (ho : AllNodes Percentless o)
    (hb : data n = some b) (hn : AllNodes (TameHdr (sedResult E.compile E.run)) n) :
    ∃ o', mergeNode E o n = .ok o' ∧ data o' = some (fillMerge (sedResult E.compile E.run) [] a b) := by
  obtain ⟨o', h1, h2, _⟩ := merge_fill (filling_tame E) n o [] a b (by simp) (by simp [keyOf]) ha ho hb hn
  exact ⟨o', h1, h2⟩

/-- **C84** (partial): the same where the document's texts may contain `%`, as in `25%`, but no
marker, and the templates are `Spaced`, that is, have nothing right after a marker that could make
one with a `%` at the end of what is put there.  Missing: documents with markers in their texts and
templates with ambiguities, where the claim is false of the code (`C06_interference`). -/
theorem C84_merge_percent_partial (E : Sed) (o n : Node) (a b : Val) (ha : data o = some a) (ho : AllNodes (Texts NoMarker) o)
    (hb : data n = some b) (hn : AllNodes (Templates (Spaced (sedResult E.compile E.run))) n) :
    ∃ o', mergeNode E o n = .ok o' ∧ data o' = some (fillMerge (sedResult E.compile E.run) [] a b) := by
  obtain ⟨o', h1, h2, _⟩ := merge_fill (filling_spaced E) n o [] a b (by simp) (by decide) ha ho hb hn
  exact ⟨o', h1, h2⟩

theorem EditedSel.mono {P Q : Node → Node → Prop} (h : ∀ n n', P n n' → Q n n') (t : Node) : ∀ sel t', EditedSel P sel t t' → EditedSel Q sel t t' := by
  induction t using Node.ind with
  | h hd cs ih =>
    intro sel t' hh
    unfold EditedSel at hh ⊢
    refine ⟨hh.1, ?_⟩
    have hh := hh.2
    have he : ∀ (l : List Node) (_ : ∀ c ∈ l, c ∈ cs) seen l', EditedEntries P sel seen l l' → EditedEntries Q sel seen l l' := by
      intro l
      induction l using pairInduction with
      | h0 => intro _ seen l' h; unfold EditedEntries at h ⊢; exact h
      | h1 a => intro _ seen l' h; unfold EditedEntries at h ⊢; exact h
      | h2 k v r ihr =>
        intro hl seen l' hx
        unfold EditedEntries at hx ⊢
        obtain ⟨k', v', r', rfl, hk, hv, hr⟩ := hx
        refine ⟨k', v', r', rfl, ?_, ?_, ihr (fun c hc => hl c (by simp [hc])) _ _ hr⟩
        · split at hk
          · rw [if_pos ‹_›]; exact h _ _ hk
          · rw [if_neg ‹_›]; exact ih k (hl k (by simp)) _ _ hk
        · split at hv
          · rw [if_pos ‹_›]; exact h _ _ hv
          · rw [if_neg ‹_›]; exact ih v (hl v (by simp)) _ _ hv
    have hi : ∀ (l : List Node) (_ : ∀ c ∈ l, c ∈ cs) n i l', EditedItems P sel n i l l' → EditedItems Q sel n i l l' := by
      intro l
      induction l with
      | nil => intro _ n i l' h; unfold EditedItems at h ⊢; exact h
      | cons c l ihl =>
        intro hl n i l' hx
        unfold EditedItems at hx ⊢
        obtain ⟨c', l'', rfl, hc, hr⟩ := hx
        refine ⟨c', l'', rfl, ?_, ihl (fun c hc => hl c (by simp [hc])) _ _ _ hr⟩
        split at hc
        · rw [if_pos ‹_›]; exact h _ _ hc
        · rw [if_neg ‹_›]; exact ih c (hl c (by simp)) _ _ hc
    split at hh
    · rw [if_pos ‹_›]; exact he _ (fun _ h => h) _ _ hh
    · rw [if_neg ‹_›]
      split at hh
      · rw [if_pos ‹_›]; exact hi _ (fun _ h => h) _ _ _ hh
      · rw [if_neg ‹_›]; exact hh

theorem EditedDoc.mono {P Q : Node → Node → Prop} (h : ∀ n n', P n n' → Q n n') {sel : List Edge → Bool} {d d' : Node}
    (hh : EditedDoc P sel d d') : EditedDoc Q sel d d' := by
  refine ⟨hh.1, ?_⟩
  have hh := hh.2
  cases hc : d.content with
  | nil => rw [hc] at hh; exact hh
  | cons c cs =>
    rw [hc] at hh
    obtain ⟨c', e, h2⟩ := hh
    refine ⟨c', e, ?_⟩
    split at h2
    · rw [if_pos ‹_›]; exact h _ _ h2
    · rw [if_neg ‹_›]; exact EditedSel.mono h c _ _ h2

theorem overlay_fill {E : Sed} {G T : Str → Prop} (F : Filling E G T) (dflt : Str) (o : Overlay) (ha : o.action = .merge) (qs : List (List PStep)) (hq : Queries o qs)
    (h1 : ∀ ss ∈ qs, Once ss) (d : Node) (hd : Doc d) (hqual : Qualifies o d) (hs : SomeSelected qs d)
    (hin : NoneInside qs d) (hsep : Separate qs d) (b : Val) (hb : data o.value = some b)
    (hn : AllNodes (Templates T) o.value)
    (hm : ∀ c ∈ d.content, ∀ r m, Route c r m → selected qs d r = true → (∃ a, data m = some a) ∧ AllNodes (Texts G) m) :
    ∃ d', apply E dflt o d = .ok d' ∧
      EditedDoc (fun n n' => ∀ a, data n = some a → AllNodes (Texts G) n →
        data n' = some (fillMerge (sedResult E.compile E.run) [] a b)) (selected qs d) d d' := by
  have h := C75_each E dflt o (by rw [ha]; simp) qs hq h1 d hd hqual hs hin hsep
  have hact : ∀ n, actOn E o n = mergeNode E n o.value := by intro n; unfold actOn; rw [ha]
  have hbad : ∀ c ∈ d.content, ∀ r m, Route c r m → selected qs d r = true → ∃ m', actOn E o m = .ok m' := by
    intro c hc r m hr hsel
    obtain ⟨⟨a, hma⟩, hmp⟩ := hm c hc r m hr hsel
    obtain ⟨o', h2, _⟩ := merge_fill F o.value m [] a b (by simp) F.nil hma hmp hb hn
    exact ⟨o', (hact m).trans h2⟩
  cases happ : apply E dflt o d with
  | ok d' =>
    rw [happ] at h
    refine ⟨d', rfl, Yot.EditedDoc.mono ?_ h⟩
    intro n n' hnn a hna hnp
    rw [hact, mergeNode] at hnn
    obtain ⟨o', h2, h3, _⟩ := merge_fill F o.value n [] a b (by simp) F.nil hna hnp hb hn
    rw [h2, Res.ok.injEq] at hnn
    rw [← hnn]; exact h3
  | err e =>
    rw [happ] at h
    obtain ⟨c, hc, r, m, hr, hsel, h3⟩ := h
    obtain ⟨m', h4⟩ := hbad c hc r m hr hsel
    rw [h4] at h3; cases h3
  | panic =>
    rw [happ] at h
    obtain ⟨c, hc, r, m, hr, hsel, h3⟩ := h
    obtain ⟨m', h4⟩ := hbad c hc r m hr hsel
    rw [h4] at h3; cases h3

/-- **C84** (partial), for an overlay: on every selected node, and nowhere else, the value is merged
in this way.  (For one query without `..`, `Separate` and `NoneInside` hold by themselves:
`C75_plain_queries`.) -/
theorem C84_overlay_partial (E : Sed) (dflt : Str) (o : Overlay) (ha : o.action = .merge) (qs : List (List PStep)) (hq : Queries o qs)
    (h1 : ∀ ss ∈ qs, Once ss) (d : Node) (hd : Doc d) (hqual : Qualifies o d) (hs : SomeSelected qs d)
    (hin : NoneInside qs d) (hsep : Separate qs d) (b : Val) (hb : data o.value = some b)
    (hn : AllNodes (TameHdr (sedResult E.compile E.run)) o.value)
    (hm : ∀ c ∈ d.content, ∀ r m, Route c r m → selected qs d r = true → (∃ a, data m = some a) ∧ AllNodes Percentless m) :
    ∃ d', apply E dflt o d = .ok d' ∧
      EditedDoc (fun n n' => ∀ a, data n = some a → AllNodes Percentless n →
        data n' = some (fillMerge (sedResult E.compile E.run) [] a b)) (selected qs d) d d' := by
  exact overlay_fill (filling_tame E) dflt o ha qs hq h1 d hd hqual hs hin hsep b hb hn hm

/-- **C84** (partial), for an overlay and documents whose texts may contain `%`. -/
theorem C84_overlay_percent_partial (E : Sed) (dflt : Str) (o : Overlay) (ha : o.action = .merge) (qs : List (List PStep)) (hq : Queries o qs)
    (h1 : ∀ ss ∈ qs, Once ss) (d : Node) (hd : Doc d) (hqual : Qualifies o d) (hs : SomeSelected qs d)
    (hin : NoneInside qs d) (hsep : Separate qs d) (b : Val) (hb : data o.value = some b)
    (hn : AllNodes (Templates (Spaced (sedResult E.compile E.run))) o.value)
    (hm : ∀ c ∈ d.content, ∀ r m, Route c r m → selected qs d r = true → (∃ a, data m = some a) ∧ AllNodes (Texts NoMarker) m) :
    ∃ d', apply E dflt o d = .ok d' ∧
      EditedDoc (fun n n' => ∀ a, data n = some a → AllNodes (Texts NoMarker) n →
        data n' = some (fillMerge (sedResult E.compile E.run) [] a b)) (selected qs d) d d' := by
  exact overlay_fill (filling_spaced E) dflt o ha qs hq h1 d hd hqual hs hin hsep b hb hn hm

/-- **C84 is false of the code** for a scalar found by the query itself: its key is not known, so
`%k` stands for nothing. -/
theorem C84_key_of_match : tree (apply noSed c!"ignore" { query := [⟨c!"a", findNames [c!"a"]⟩], action := .merge, value := sc c!"%k is %v" }
    (dc (mp [sc c!"a", sc c!"1"])).label) = some (dc (mp [sc c!"a", sc c!" is 1"])) := by decide +kernel

/-- **C83 is false of the code** for a key that is a template: the text of the key changes, its type
does not: here `80` becomes `port-80`, still an integer (which no YAML reader accepts). -/
theorem C83_template_key_type : tree (mergeNode noSed (mp [sc c!"80" c!"!!int", sc c!"x"]) (mp [sc c!"port-%k", sc c!"%v"])) =
    some (mp [sc c!"port-80" c!"!!int", sc c!"x"]) := by decide +kernel

mutual
theorem strips_plain (sed : Str → Str → Str) : ∀ b : Val, b.NoMarkers → strips sed b = b
  | .alias _, h => by simp [Val.NoMarkers] at h
  | .scalar t s, h => by simp only [Val.NoMarkers] at h; simp only [strips, fill_noMarker sed h]
  | .seq t xs, h => by simp only [Val.NoMarkers] at h; simp only [strips, stripsL_plain sed xs h]
  | .map t es, h => by simp only [Val.NoMarkers] at h; simp only [strips, stripsE_plain sed es h]
theorem stripsL_plain (sed : Str → Str → Str) : ∀ b : List Val, NoMarkersL b → stripsL sed b = b
  | [], _ => rfl
  | x :: xs, h => by simp only [NoMarkersL] at h; simp only [stripsL, strips_plain sed x h.1, stripsL_plain sed xs h.2]
theorem stripsE_plain (sed : Str → Str → Str) : ∀ b : List (Key × Val), NoMarkersE b → stripsE sed b = b
  | [], _ => rfl
  | (k, v) :: es, h => by
    simp only [NoMarkersE] at h
    simp only [stripsE, strips_plain sed v h.2.1, stripsE_plain sed es h.2.2, fill_noMarker sed h.1]
end

mutual
/-- Without templates this is deep merge (C01). -/
theorem C84_no_templates (sed : Str → Str → Str) : ∀ (key : Str) (a b : Val), b.NoMarkers → fillMerge sed key a b = deepMerge a b
  | _, _, .alias _, h => by simp [Val.NoMarkers] at h
  | _, a, .scalar t s, h => by simp only [Val.NoMarkers] at h; simp only [fillMerge, deepMerge, fill_noMarker sed h]
  | _, a, .seq t xs, h => by
    simp only [Val.NoMarkers] at h
    cases a <;> simp only [fillMerge, deepMerge, stripsL_plain sed xs h]
  | _, a, .map t es, h => by
    simp only [Val.NoMarkers] at h
    simp only [fillMerge, deepMerge]
    exact fillAll_plain sed a es h
theorem fillAll_plain (sed : Str → Str → Str) : ∀ (a : Val) (es : List (Key × Val)), NoMarkersE es → fillAll sed a es = putAll a es
  | _, [], _ => by simp only [fillAll, putAll]
  | a, (k, v) :: es, h => by
    simp only [NoMarkersE] at h
    simp only [fillAll, putAll, if_pos h.1, strips_plain sed v h.2.1]
    rw [fillAll_plain sed _ es h.2.2]
    have : (fun old => fillMerge sed k.text old v) = fun old => deepMerge old v := funext fun old => C84_no_templates sed k.text old v h.2.1
    rw [this]
end

/-- The documentation's labels: every key and value is rewritten. -/
example : tree (mergeNode noSed (mp [sc c!"name", sc c!"web", sc c!"owner", sc c!"me"]) (mp [sc c!"app/%k", sc c!"x-%v"])) =
    some (mp [sc c!"app/name", sc c!"x-web", sc c!"app/owner", sc c!"x-me"]) := by decide +kernel
example : Tame (sedResult noSed.compile noSed.run) c!"app/%k" ∧ Tame (sedResult noSed.compile noSed.run) c!"x-%v" := by
  constructor <;> (rw [Tame]; intro p hp; revert p; simp [parse, parseGo, pieceAt, letters, Piece.source])
example : AllNodes Percentless (mp [sc c!"name", sc c!"web", sc c!"owner", sc c!"me"]) := by
  simp [AllNodes, AllNodess, mp, sc, Percentless, Texts]
/-- Texts with a `%`. -/
example : tree (mergeNode noSed (mp [sc c!"share", sc c!"25%", sc c!"5%", sc c!"x"]) (mp [sc c!"%k (key)", sc c!"at most %v: 100% sure"])) =
    some (mp [sc c!"share (key)", sc c!"at most 25%: 100% sure", sc c!"5% (key)", sc c!"at most x: 100% sure"]) := by decide +kernel
example : AllNodes (Texts NoMarker) (mp [sc c!"share", sc c!"25%", sc c!"5%", sc c!"x"]) := by
  simp [AllNodes, AllNodess, mp, sc, Texts]
  decide
theorem spaced_example : Spaced (sedResult noSed.compile noSed.run) c!"%v: 9% x" := by
  have hp : parse c!"%v: 9% x" = [.marker 'v', .text ':', .text ' ', .text '9', .text '%', .text ' ', .text 'x'] := by decide
  rw [Spaced, hp]
  refine ⟨by simp, ?_⟩
  intro a p q b h hm
  have hi : ∀ i < 6, ∀ x, ([.marker 'v', .text ':', .text ' ', .text '9', .text '%', .text ' ', .text 'x'] : List Piece)[i + 1]? = some x →
      ∃ c, x = .text c ∧ c ∉ letters := by
    intro i hi x hx
    have : i = 0 ∨ i = 1 ∨ i = 2 ∨ i = 3 ∨ i = 4 ∨ i = 5 := by omega
    rcases this with rfl | rfl | rfl | rfl | rfl | rfl <;> simp at hx <;> subst hx <;> exact ⟨_, rfl, by decide⟩
  have hlen := congrArg List.length h
  simp at hlen
  refine hi a.length (by omega) q ?_
  rw [h]
  simp
/-- Without the proviso it is false of the code: a value ending in `%` and the letter after the
marker make a marker. -/
theorem C84_percent_interference : tree (mergeNode noSed (mp [sc c!"a", sc c!"25%"]) (mp [sc c!"a", sc c!"%vk %k"])) =
    some (mp [sc c!"a", sc c!"25a %k"]) := by decide +kernel
/-- Forcing a type with a tag: the number 443 becomes a text. -/
example : tree (mergeNode noSed (mp [sc c!"port", sc c!"443" c!"!!int"]) (mp [sc c!"port", sc c!"%v"])) =
    some (mp [sc c!"port", sc c!"443"]) := by decide +kernel

end Yot
