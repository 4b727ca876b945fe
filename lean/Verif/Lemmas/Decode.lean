import Verif.Spec.Decode
import Verif.Lemmas.Merge
import Mathlib.Data.List.Nodup
/-
Decoding: helper lemmas.
-/
namespace Yot
open Spec

theorem isNull_iff (n : Node) : isNull n = true ↔ Null n := by
  unfold isNull Null Node.kind
  simp

/-- `g` decodes what `R` relates; null stores nothing. -/
structure Decodes {α : Type} (g : Node → Got α) (R : Node → α → Prop) : Prop where
  val : ∀ n a, g n = .val a ↔ ¬ Null n ∧ R n a
  skip : ∀ n, g n = .skip ↔ Null n

/-- `g` decodes what `R` relates; null stores `none`. -/
structure DecodesN {α : Type} (g : Node → Got (Option α)) (R : Node → α → Prop) : Prop where
  val : ∀ n a, g n = .val (some a) ↔ ¬ Null n ∧ R n a
  none : ∀ n, g n = .val none ↔ Null n
  skip : ∀ n, g n ≠ .skip

theorem Decodes.functional {α : Type} {g : Node → Got α} {R : Node → α → Prop} (h : Decodes g R) {n : Node} {a b : α}
    (hn : ¬ Null n) (ha : R n a) (hb : R n b) : a = b := by
  have h1 := (h.val n a).2 ⟨hn, ha⟩
  have h2 := (h.val n b).2 ⟨hn, hb⟩
  rw [h1] at h2
  exact Got.val.inj h2

theorem DecodesN.functional {α : Type} {g : Node → Got (Option α)} {R : Node → α → Prop} (h : DecodesN g R) {n : Node}
    {a b : α} (hn : ¬ Null n) (ha : R n a) (hb : R n b) : a = b := by
  have h1 := (h.val n a).2 ⟨hn, ha⟩
  have h2 := (h.val n b).2 ⟨hn, hb⟩
  rw [h1] at h2
  exact Option.some.inj (Got.val.inj h2)

theorem decodeStr_decodes : Decodes decodeStr TextIs := by
  constructor
  · intro n a
    unfold decodeStr TextIs Node.kind
    rw [← isNull_iff]
    split
    · simp_all
    · split <;> simp_all
  · intro n
    unfold decodeStr
    rw [← isNull_iff]
    split
    · simp_all
    · split <;> simp_all

theorem decodeInt_decodes (D : Dec) : Decodes (decodeInt D) (IntIs D) := by
  constructor
  · intro n a
    unfold decodeInt IntIs Node.kind
    rw [← isNull_iff]
    split
    · simp_all
    · split
      · split <;> simp_all
      · simp_all
  · intro n
    unfold decodeInt
    rw [← isNull_iff]
    split
    · simp_all
    · split
      · split <;> simp_all
      · simp_all

theorem decodeItems_iff {α : Type} {g : Node → Got α} {R : Node → α → Prop} (h : Decodes g R) (cs : List Node) : ∀ as,
    decodeItems g cs = some as ↔ List.Forall₂ R (cs.filter (fun c => ¬ Null c)) as := by
  induction cs with
  | nil => intro as; cases as <;> simp [decodeItems]
  | cons c cs ih =>
    intro as
    rw [decodeItems]
    by_cases hn : Null c
    · rw [(h.skip c).2 hn]
      simp only [hn, not_true_eq_false, decide_false, Bool.false_eq_true, not_false_eq_true, List.filter_cons_of_neg]
      rw [← ih as]
      cases decodeItems g cs <;> simp
    · have : decide (¬ Null c) = true := by simpa using hn
      rw [List.filter_cons_of_pos (p := fun c => decide (¬ Null c)) this]
      cases hg : g c with
      | skip => exact absurd ((h.skip c).1 hg) hn
      | err =>
        simp only [reduceCtorEq, false_iff]
        intro hf
        cases hf with
        | cons h1 _ => rw [(h.val c _).2 ⟨hn, h1⟩] at hg; cases hg
      | val a =>
        have hR := (h.val c a).1 hg
        cases as with
        | nil => cases decodeItems g cs <;> simp
        | cons b bs =>
          rw [List.forall₂_cons, ← ih bs]
          have : R c b ↔ a = b := ⟨fun hb => h.functional hn hR.2 hb, fun hb => hb ▸ hR.2⟩
          rw [this]
          cases decodeItems g cs <;> simp

theorem decodeSlice_decodes {α : Type} {g : Node → Got α} {R : Node → α → Prop} (h : Decodes g R) :
    DecodesN (decodeSlice g) (ListIs R) := by
  have key : ∀ n, ¬ Null n → n.hd.kind = .sequence →
      decodeSlice g n = (match decodeItems g n.content with | some as => .val (some as) | none => .err) := by
    intro n h1 h2
    unfold decodeSlice
    rw [if_neg (by rw [isNull_iff]; exact h1), if_pos h2]
    cases decodeItems _ n.content <;> rfl
  constructor
  · intro n as
    unfold ListIs Node.kind
    by_cases hn : Null n
    · simp [decodeSlice, (isNull_iff n).2 hn, hn]
    · by_cases hk : n.hd.kind = .sequence
      · rw [key n hn hk, ← decodeItems_iff h]
        cases decodeItems g n.content <;> simp [hn, hk]
      · have : ¬ isNull n = true := by rw [isNull_iff]; exact hn
        simp [decodeSlice, this, hk]
  · intro n
    by_cases hn : Null n
    · simp [decodeSlice, (isNull_iff n).2 hn, hn]
    · by_cases hk : n.hd.kind = .sequence
      · rw [key n hn hk]
        cases decodeItems g n.content <;> simp [hn]
      · have : ¬ isNull n = true := by rw [isNull_iff]; exact hn
        simp [decodeSlice, this, hk, hn]
  · intro n
    by_cases hn : Null n
    · simp [decodeSlice, (isNull_iff n).2 hn]
    · by_cases hk : n.hd.kind = .sequence
      · rw [key n hn hk]
        cases decodeItems g n.content <;> simp
      · have : ¬ isNull n = true := by rw [isNull_iff]; exact hn
        simp [decodeSlice, this, hk]

/-- The relation of a pointer: null or the thing itself. -/
def OrNull {α : Type} (R : Node → α → Prop) (c : Node) (oa : Option α) : Prop :=
  (Null c ∧ oa = none) ∨ (¬ Null c ∧ ∃ a, R c a ∧ oa = some a)

theorem decodePtr_iff {α : Type} {g : Node → Got α} {R : Node → α → Prop} (h : Decodes g R) (n : Node) (oa : Option α) :
    decodePtr g n = .val oa ↔ OrNull R n oa := by
  unfold decodePtr OrNull
  by_cases hn : Null n
  · simp [(isNull_iff n).2 hn, hn, eq_comm]
  · have : ¬ isNull n = true := by rw [isNull_iff]; exact hn
    rw [if_neg this]
    cases hg : g n with
    | err =>
      simp only [hn, reduceCtorEq, false_and, not_false_eq_true, true_and, false_or, false_iff, not_exists]
      rintro a ⟨ha, _⟩
      rw [(h.val n a).2 ⟨hn, ha⟩] at hg; cases hg
    | skip => exact absurd ((h.skip n).1 hg) hn
    | val a =>
      have hR := ((h.val n a).1 hg).2
      simp only [Got.val.injEq, hn, false_and, not_false_eq_true, true_and, false_or]
      constructor
      · rintro rfl; exact ⟨a, hR, rfl⟩
      · rintro ⟨b, hb, rfl⟩; rw [h.functional hn hR hb]

theorem decodePtr_ne_skip {α : Type} {g : Node → Got α} {R : Node → α → Prop} (h : Decodes g R) (n : Node) :
    decodePtr g n ≠ .skip := by
  unfold decodePtr
  by_cases hn : Null n
  · simp [(isNull_iff n).2 hn]
  · have : ¬ isNull n = true := by rw [isNull_iff]; exact hn
    rw [if_neg this]
    cases hg : g n with
    | err => simp
    | skip => exact absurd ((h.skip n).1 hg) hn
    | val a => simp

theorem decodePtrs_iff {α : Type} {g : Node → Got α} {R : Node → α → Prop} (h : Decodes g R) (cs : List Node) : ∀ as,
    decodeItems (decodePtr g) cs = some as ↔ List.Forall₂ (OrNull R) cs as := by
  induction cs with
  | nil => intro as; cases as <;> simp [decodeItems]
  | cons c cs ih =>
    intro as
    rw [decodeItems]
    cases hg : decodePtr g c with
    | skip => exact absurd hg (decodePtr_ne_skip h c)
    | err =>
      simp only [reduceCtorEq, false_iff]
      intro hf
      cases hf with
      | cons h1 _ => rw [(decodePtr_iff h c _).2 h1] at hg; cases hg
    | val a =>
      have hR := (decodePtr_iff h c a).1 hg
      cases as with
      | nil => cases decodeItems (decodePtr g) cs <;> simp
      | cons b bs =>
        rw [List.forall₂_cons, ← ih bs, ← decodePtr_iff h, hg, Got.val.injEq]
        cases decodeItems (decodePtr g) cs <;> simp

theorem decodePtrSlice_decodes {α : Type} {g : Node → Got α} {R : Node → α → Prop} (h : Decodes g R) :
    DecodesN (decodeSlice (decodePtr g)) (ListOrNullsIs R) := by
  have key : ∀ n, ¬ Null n → n.hd.kind = .sequence →
      decodeSlice (decodePtr g) n = (match decodeItems (decodePtr g) n.content with | some as => .val (some as) | none => .err) := by
    intro n h1 h2
    unfold decodeSlice
    rw [if_neg (by rw [isNull_iff]; exact h1), if_pos h2]
    cases decodeItems _ n.content <;> rfl
  constructor
  · intro n as
    show _ ↔ _ ∧ n.hd.kind = .sequence ∧ List.Forall₂ (OrNull R) n.content as
    by_cases hn : Null n
    · simp [decodeSlice, (isNull_iff n).2 hn, hn]
    · by_cases hk : n.hd.kind = .sequence
      · rw [key n hn hk, ← decodePtrs_iff h]
        cases decodeItems (decodePtr g) n.content <;> simp [hn, hk]
      · have : ¬ isNull n = true := by rw [isNull_iff]; exact hn
        simp [decodeSlice, this, hk]
  · intro n
    by_cases hn : Null n
    · simp [decodeSlice, (isNull_iff n).2 hn, hn]
    · by_cases hk : n.hd.kind = .sequence
      · rw [key n hn hk]
        cases decodeItems (decodePtr g) n.content <;> simp [hn]
      · have : ¬ isNull n = true := by rw [isNull_iff]; exact hn
        simp [decodeSlice, this, hk, hn]
  · intro n
    by_cases hn : Null n
    · simp [decodeSlice, (isNull_iff n).2 hn]
    · by_cases hk : n.hd.kind = .sequence
      · rw [key n hn hk]
        cases decodeItems (decodePtr g) n.content <;> simp
      · have : ¬ isNull n = true := by rw [isNull_iff]; exact hn
        simp [decodeSlice, this, hk]

/-! ### Structs -/

/-- The entry `v` under key `k` among entries. -/
def AtL (es : List (Node × Node)) (k : Str) (v : Node) : Prop :=
  ∃ kn, (kn, v) ∈ es ∧ kn.kind = .scalar ∧ ¬ Null kn ∧ kn.hd.value = k

/-- Field `k` of a struct, projected by `π`, decoded according to `R`. -/
structure Field {σ α : Type} (set : Str → Node → σ → Option σ) (π : σ → α) (k : Str) (R : Node → α → Prop) (dflt : α) : Prop where
  null : ∀ v s s', Null v → set k v s = some s' → π s = dflt → π s' = dflt
  val : ∀ v s s', ¬ Null v → set k v s = some s' → R v (π s')
  other : ∀ k' v s s', k' ≠ k → set k' v s = some s' → π s' = π s

theorem structLoop_cons {σ : Type} (set : Str → Node → σ → Option σ) (k v : Node) (r : List Node) (s : σ) :
    structLoop set (k :: v :: r) s =
      if isMergeKey k then none
      else match decodeStr k with
      | .err => none
      | .skip => structLoop set r s
      | .val t =>
        match set t v s with
        | some s' => structLoop set r s'
        | none => none := rfl

/-- One step of the loop, for a successful run. -/
theorem structLoop_step {σ : Type} {set : Str → Node → σ → Option σ} {k v : Node} {r : List Node} {s s' : σ}
    (h : structLoop set (k :: v :: r) s = some s') :
    k.kind = .scalar ∧ k.hd.tag ≠ c!"!!merge" ∧
    ((Null k ∧ structLoop set r s = some s') ∨
     (¬ Null k ∧ ∃ s1, set k.hd.value v s = some s1 ∧ structLoop set r s1 = some s')) := by
  rw [structLoop_cons] at h
  split at h
  · cases h
  · rename_i hm
    cases hd : decodeStr k with
    | err => rw [hd] at h; cases h
    | skip =>
      rw [hd] at h
      have hn := (decodeStr_decodes.skip k).1 hd
      refine ⟨hn.1, ?_, .inl ⟨hn, h⟩⟩
      rw [hn.2]; decide
    | val t =>
      rw [hd] at h
      obtain ⟨hn, hk, ht⟩ := (decodeStr_decodes.val k t).1 hd
      refine ⟨hk, ?_, .inr ⟨hn, ?_⟩⟩
      · intro hc
        apply hm
        unfold isMergeKey
        simp [show k.hd.kind = .scalar from hk, hc]
      · dsimp only at h
        cases hs : set t v s with
        | none => rw [hs] at h; cases h
        | some s1 => rw [hs] at h; rw [ht]; exact ⟨s1, hs, h⟩

theorem structLoop_keys {σ : Type} {set : Str → Node → σ → Option σ} (cs : List Node) : ∀ {s s' : σ},
    structLoop set cs s = some s' → ∀ e ∈ pairs cs, e.1.kind = .scalar ∧ e.1.hd.tag ≠ c!"!!merge" := by
  induction cs using pairInduction with
  | h0 => intro s s' _ e he; simp [pairs] at he
  | h1 a => intro s s' _ e he; simp [pairs] at he
  | h2 a b cs ih =>
    intro s s' h e he
    obtain ⟨h1, h2, h3⟩ := structLoop_step h
    simp only [pairs, List.mem_cons] at he
    rcases he with rfl | he
    · exact ⟨h1, h2⟩
    · rcases h3 with ⟨_, h3⟩ | ⟨_, s1, _, h3⟩ <;> exact ih h3 e he

theorem structLoop_frame {σ α : Type} {set : Str → Node → σ → Option σ} {π : σ → α} {k : Str} {R : Node → α → Prop} {dflt : α}
    (F : Field set π k R dflt) (cs : List Node) : ∀ {s s' : σ}, structLoop set cs s = some s' →
    (∀ v, ¬ AtL (pairs cs) k v) → π s' = π s := by
  induction cs using pairInduction with
  | h0 => intro s s' h _; simp [structLoop] at h; rw [h]
  | h1 a => intro s s' h _; simp [structLoop] at h; rw [h]
  | h2 a b cs ih =>
    intro s s' h hno
    obtain ⟨h1, h2, h3⟩ := structLoop_step h
    have hno' : ∀ v, ¬ AtL (pairs cs) k v := by
      rintro v ⟨kn, hm, hr⟩
      exact hno v ⟨kn, by simp [pairs, hm], hr⟩
    rcases h3 with ⟨_, h3⟩ | ⟨hn, s1, hs, h3⟩
    · exact ih h3 hno'
    · rw [ih h3 hno']
      refine F.other _ b s s1 ?_ hs
      intro hc
      exact hno b ⟨a, by simp [pairs], h1, hn, hc⟩

/-- What is in a field after the loop. -/
theorem structLoop_setting {σ α : Type} {set : Str → Node → σ → Option σ} {π : σ → α} {k : Str} {R : Node → α → Prop} {dflt : α}
    (F : Field set π k R dflt) (cs : List Node) : ∀ {s s' : σ}, structLoop set cs s = some s' → (keys cs).Nodup →
    π s = dflt →
    (∃ v, AtL (pairs cs) k v ∧ ¬ Null v ∧ R v (π s')) ∨ ((∀ v, AtL (pairs cs) k v → Null v) ∧ π s' = dflt) := by
  induction cs using pairInduction with
  | h0 => intro s s' h _ h0; simp [structLoop] at h; right; subst h; exact ⟨by rintro v ⟨kn, hm, _⟩; simp [pairs] at hm, h0⟩
  | h1 a => intro s s' h _ h0; simp [structLoop] at h; right; subst h; exact ⟨by rintro v ⟨kn, hm, _⟩; simp [pairs] at hm, h0⟩
  | h2 a b cs ih =>
    intro s s' h hnd h0
    obtain ⟨h1, h2, h3⟩ := structLoop_step h
    simp only [keys, pairs, List.map_cons, List.nodup_cons] at hnd
    have lift : ∀ {v}, AtL (pairs cs) k v → AtL (pairs (a :: b :: cs)) k v := by
      rintro v ⟨kn, hm, hr⟩; exact ⟨kn, by simp [pairs, hm], hr⟩
    have down : a.hd.value ≠ k ∨ Null a → ∀ {v}, AtL (pairs (a :: b :: cs)) k v → AtL (pairs cs) k v := by
      rintro hne v ⟨kn, hm, hsc, hnn, hv⟩
      simp only [pairs, List.mem_cons, Prod.mk.injEq] at hm
      rcases hm with ⟨rfl, rfl⟩ | hm
      · rcases hne with hne | hne
        · exact absurd hv hne
        · exact absurd hne hnn
      · exact ⟨kn, hm, hsc, hnn, hv⟩
    rcases h3 with ⟨hna, h3⟩ | ⟨hn, s1, hs, h3⟩
    · rcases ih h3 hnd.2 h0 with ⟨v, hv, hr⟩ | ⟨hv, hr⟩
      · exact .inl ⟨v, lift hv, hr⟩
      · exact .inr ⟨fun v hh => hv v (down (.inr hna) hh), hr⟩
    · by_cases hk : a.hd.value = k
      · have hno : ∀ v, ¬ AtL (pairs cs) k v := by
          rintro v ⟨kn, hm, _, _, hv⟩
          exact hnd.1 (List.mem_map.2 ⟨(kn, v), hm, by rw [hv, hk]⟩)
        have hfr := structLoop_frame F cs h3 hno
        subst hk
        by_cases hb : Null b
        · right
          refine ⟨?_, by rw [hfr]; exact F.null b s s1 hb hs h0⟩
          rintro v ⟨kn, hm, hsc, hnn, hv⟩
          simp only [pairs, List.mem_cons, Prod.mk.injEq] at hm
          rcases hm with ⟨_, rfl⟩ | hm
          · exact hb
          · exact absurd ⟨kn, hm, hsc, hnn, hv⟩ (hno v)
        · exact .inl ⟨b, ⟨a, by simp [pairs], h1, hn, rfl⟩, hb, by rw [hfr]; exact F.val b s s1 hb hs⟩
      · have h0' : π s1 = dflt := by rw [F.other _ b s s1 hk hs, h0]
        rcases ih h3 hnd.2 h0' with ⟨v, hv, hr⟩ | ⟨hv, hr⟩
        · exact .inl ⟨v, lift hv, hr⟩
        · exact .inr ⟨fun v hh => hv v (down (.inl hk) hh), hr⟩

/-- The loop succeeds if all keys are fine and every value can be stored. -/
theorem structLoop_ok {σ : Type} {set : Str → Node → σ → Option σ} (cs : List Node) : ∀ s : σ,
    (∀ e ∈ pairs cs, e.1.kind = .scalar ∧ e.1.hd.tag ≠ c!"!!merge") →
    (∀ k v, AtL (pairs cs) k v → ∀ s, (set k v s).isSome) → ∃ s', structLoop set cs s = some s' := by
  induction cs using pairInduction with
  | h0 => intro s _ _; exact ⟨s, rfl⟩
  | h1 a => intro s _ _; exact ⟨s, rfl⟩
  | h2 a b cs ih =>
    intro s hk hs
    rw [structLoop_cons]
    obtain ⟨h1, h2⟩ := hk (a, b) (by simp [pairs])
    have hm : ¬ isMergeKey a = true := by unfold isMergeKey; simp [show a.hd.tag ≠ _ from h2]
    rw [if_neg hm]
    have hk' : ∀ e ∈ pairs cs, e.1.kind = .scalar ∧ e.1.hd.tag ≠ c!"!!merge" := fun e he => hk e (by simp [pairs, he])
    have hs' : ∀ k v, AtL (pairs cs) k v → ∀ s, (set k v s).isSome := by
      rintro k v ⟨kn, hm, hr⟩; exact hs k v ⟨kn, by simp [pairs, hm], hr⟩
    by_cases hn : Null a
    · rw [(decodeStr_decodes.skip a).2 hn]; exact ih s hk' hs'
    · rw [(decodeStr_decodes.val a a.hd.value).2 ⟨hn, h1, rfl⟩]
      obtain ⟨s1, h3⟩ := Option.isSome_iff_exists.1 (hs a.hd.value b ⟨a, by simp [pairs], h1, hn, rfl⟩ s)
      dsimp only
      rw [h3]
      exact ih s1 hk' hs'

theorem keyRepeated_iff (k : Node) (cs : List Node) (hk : k.kind = .scalar) (hc : ∀ e ∈ pairs cs, e.1.kind = .scalar) :
    keyRepeated k cs = true ↔ k.hd.value ∈ keys cs := by
  induction cs using pairInduction with
  | h0 => simp [keyRepeated, keys, pairs]
  | h1 a => simp [keyRepeated, keys, pairs]
  | h2 a b cs ih =>
    have ha := hc (a, b) (by simp [pairs])
    have := ih (fun e he => hc e (by simp [pairs, he]))
    rw [keyRepeated, Bool.or_eq_true, this]
    simp only [keys, pairs, List.map_cons, List.mem_cons, Bool.and_eq_true, decide_eq_true_eq]
    rw [show k.hd.kind = .scalar from hk, show a.hd.kind = .scalar from ha]
    simp

theorem dupKeys_iff (cs : List Node) (hc : ∀ e ∈ pairs cs, e.1.kind = .scalar) :
    dupKeys cs = false ↔ (keys cs).Nodup := by
  induction cs using pairInduction with
  | h0 => simp [dupKeys, keys, pairs]
  | h1 a => simp [dupKeys, keys, pairs]
  | h2 a b cs ih =>
    have hc' : ∀ e ∈ pairs cs, e.1.kind = .scalar := fun e he => hc e (by simp [pairs, he])
    rw [dupKeys, Bool.or_eq_false_iff, ih hc', show keys (a :: b :: cs) = a.hd.value :: keys cs from rfl, List.nodup_cons]
    rw [← Bool.not_eq_true, keyRepeated_iff a cs (hc (a, b) (by simp [pairs])) hc']

theorem decodeStruct_val {σ : Type} (set : Str → Node → σ → Option σ) (zero s : σ) (n : Node) :
    decodeStruct set zero n = .val s ↔ Keyed n ∧ structLoop set n.content zero = some s := by
  unfold decodeStruct Keyed Node.kind
  constructor
  · intro h
    split at h
    · cases h
    · split at h
      · rename_i hk
        split at h
        · cases h
        · rename_i hd
          cases hs : structLoop set n.content zero with
          | none => rw [hs] at h; cases h
          | some s1 =>
            rw [hs] at h
            simp only [Got.val.injEq] at h
            have hkeys := structLoop_keys _ hs
            refine ⟨⟨hk, hkeys, ?_⟩, by rw [h]⟩
            exact (dupKeys_iff _ (fun e he => (hkeys e he).1)).1 (by simpa using hd)
      · cases h
  · rintro ⟨⟨hk, hkeys, hnd⟩, hs⟩
    have : ¬ isNull n = true := by rw [isNull_iff]; rintro ⟨h, _⟩; rw [Node.kind, hk] at h; cases h
    have hd := (dupKeys_iff n.content (fun e he => (hkeys e he).1)).2 hnd
    simp [this, hk, hd, hs]

theorem decodeStruct_skip {σ : Type} (set : Str → Node → σ → Option σ) (zero : σ) (n : Node) :
    decodeStruct set zero n = .skip ↔ Null n := by
  unfold decodeStruct
  rw [← isNull_iff]
  constructor
  · intro h
    split at h
    · assumption
    · split at h
      · split at h
        · cases h
        · split at h <;> cases h
      · cases h
  · intro h; simp [h]

theorem at_unique {n : Node} (hk : Keyed n) {k : Str} {v w : Node} (hv : KeyAt n k v) (hw : KeyAt n k w) : v = w := by
  obtain ⟨a, ha, _, _, hav⟩ := hv
  obtain ⟨b, hb, _, _, hbv⟩ := hw
  have hnd := hk.2.2
  have hinj := List.inj_on_of_nodup_map (f := fun e : Node × Node => e.1.hd.value) hnd
  have := hinj ha hb (by simp [hav, hbv])
  exact (Prod.mk.inj this).2

theorem setting_unique {α : Type} {R : Node → α → Prop} (hR : ∀ v a b, ¬ Null v → R v a → R v b → a = b) {n : Node} (hk : Keyed n)
    {k : Str} {d a b : α} (ha : SettingIs R n k d a) (hb : SettingIs R n k d b) : a = b := by
  rcases ha with ⟨v, h1, h2, h3⟩ | ⟨h1, h2⟩ <;> rcases hb with ⟨w, h4, h5, h6⟩ | ⟨h4, h5⟩
  · have := at_unique hk h1 h4; subst this; exact hR v a b h2 h3 h6
  · exact absurd (h4 v h1) h2
  · exact absurd (h1 w h4) h5
  · rw [h2, h5]

theorem nodeSetting_unique {n : Node} (hk : Keyed n) {k : Str} {a b : Node} (ha : NodeSetting n k a) (hb : NodeSetting n k b) :
    a = b := by
  rcases ha with h1 | ⟨h1, h2⟩ <;> rcases hb with h3 | ⟨h3, h4⟩
  · exact at_unique hk h1 h3
  · exact absurd ⟨_, h1⟩ h3
  · exact absurd ⟨_, h3⟩ h1
  · rw [h2, h4]

/-- A written setting can be stored. -/
theorem setting_can {α : Type} {R : Node → α → Prop} {n : Node} (hk : Keyed n) {k : Str} {d a : α} (h : SettingIs R n k d a)
    {v : Node} (hv : KeyAt n k v) : Null v ∨ (¬ Null v ∧ R v a) := by
  rcases h with ⟨w, h1, h2, h3⟩ | ⟨h1, _⟩
  · have := at_unique hk hv h1; subst this; exact .inr ⟨h2, h3⟩
  · exact .inl (h1 v hv)

end Yot
