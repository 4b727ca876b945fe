import Verif.Lemmas.Decode
import Verif.Lemmas.Case
/-
Decoding of simple values and of structs in general.
-/
namespace Yot
open Spec

theorem struct_decodes {σ : Type} {set : Str → Node → σ → Option σ} {zero : σ} {S : Node → σ → Prop}
    (fwd : ∀ n s, Keyed n → structLoop set n.content zero = some s → S n s)
    (keyed : ∀ n s, S n s → Keyed n)
    (can : ∀ n s, S n s → ∀ k v, KeyAt n k v → ∀ s', (set k v s').isSome)
    (uniq : ∀ n s t, S n s → S n t → s = t) : Decodes (decodeStruct set zero) S := by
  constructor
  · intro n s
    rw [decodeStruct_val]
    constructor
    · rintro ⟨hk, h⟩
      refine ⟨?_, fwd n s hk h⟩
      rintro ⟨h1, _⟩
      rw [hk.1] at h1; cases h1
    · rintro ⟨_, hS⟩
      have hk := keyed n s hS
      obtain ⟨s', h'⟩ := structLoop_ok n.content zero hk.2.1 (can n s hS)
      rw [uniq n s s' hS (fwd n s' hk h')]
      exact ⟨hk, h'⟩
  · exact decodeStruct_skip set zero

theorem field_of_decodes {σ α : Type} {set : Str → Node → σ → Option σ} {π : σ → α} {k : Str} {R : Node → α → Prop} {dflt : α}
    {g : Node → Got α} (hg : Decodes g R) (f : σ → α → σ) (hset : ∀ v s, set k v s = store (g v) s (f s))
    (hπ : ∀ s a, π (f s a) = a) (other : ∀ k' v s s', k' ≠ k → set k' v s = some s' → π s' = π s) :
    Field set π k R dflt where
  null := by
    intro v s s' hn h h0
    rw [hset, (hg.skip v).2 hn] at h
    simp only [store, Option.some.injEq] at h
    rw [← h, h0]
  val := by
    intro v s s' hn h
    rw [hset] at h
    cases hv : g v with
    | err => rw [hv] at h; cases h
    | skip => exact absurd ((hg.skip v).1 hv) hn
    | val a =>
      rw [hv] at h
      simp only [store, Option.some.injEq] at h
      rw [← h, hπ]
      exact ((hg.val v a).1 hv).2
  other := other

theorem field_of_decodesN {σ α β : Type} {set : Str → Node → σ → Option σ} {π : σ → β} {k : Str} {R : Node → α → Prop}
    {R' : Node → β → Prop} {dflt : β} {g : Node → Got (Option α)} (hg : DecodesN g R) (f : σ → Option α → σ)
    (hset : ∀ v s, set k v s = store (g v) s (f s)) (hnone : ∀ s, π (f s none) = dflt)
    (hsome : ∀ v s a, R v a → R' v (π (f s (some a))))
    (other : ∀ k' v s s', k' ≠ k → set k' v s = some s' → π s' = π s) : Field set π k R' dflt where
  null := by
    intro v s s' hn h h0
    rw [hset, (hg.none v).2 hn] at h
    simp only [store, Option.some.injEq] at h
    rw [← h, hnone]
  val := by
    intro v s s' hn h
    rw [hset] at h
    cases hv : g v with
    | err => rw [hv] at h; cases h
    | skip => exact absurd hv (hg.skip v)
    | val oa =>
      rw [hv] at h
      simp only [store, Option.some.injEq] at h
      cases oa with
      | none => exact absurd ((hg.none v).1 hv) hn
      | some a => rw [← h]; exact hsome v s a ((hg.val v a).1 hv).2
  other := other

theorem store_isSome {α σ : Type} {g : Got α} (s : σ) (f : α → σ) (h : g ≠ .err) : (store g s f).isSome := by
  cases g <;> simp [store] at *

theorem Decodes.ne_err {α : Type} {g : Node → Got α} {R : Node → α → Prop} (h : Decodes g R) {n : Node}
    (hn : Null n ∨ (¬ Null n ∧ ∃ a, R n a)) : g n ≠ .err := by
  rcases hn with hn | ⟨hn, a, ha⟩
  · rw [(h.skip n).2 hn]; simp
  · rw [(h.val n a).2 ⟨hn, ha⟩]; simp

theorem DecodesN.ne_err {α : Type} {g : Node → Got (Option α)} {R : Node → α → Prop} (h : DecodesN g R) {n : Node}
    (hn : Null n ∨ (¬ Null n ∧ ∃ a, R n a)) : g n ≠ .err := by
  rcases hn with hn | ⟨hn, a, ha⟩
  · rw [(h.none n).2 hn]; simp
  · rw [(h.val n a).2 ⟨hn, ha⟩]; simp

/-! ### Simple values -/

theorem decodeQuery_decodes (D : Dec) : Decodes (decodeQuery D) (QueryIs D) := by
  constructor
  · intro n q
    unfold decodeQuery QueryIs
    cases hd : decodeStr n with
    | err =>
      simp only [reduceCtorEq, false_iff]
      rintro ⟨hn, ht, _⟩
      rw [(decodeStr_decodes.val n _).2 ⟨hn, ht⟩] at hd; cases hd
    | skip => simp [(decodeStr_decodes.skip n).1 hd]
    | val s =>
      obtain ⟨hn, ht⟩ := (decodeStr_decodes.val n s).1 hd
      dsimp only
      have key : TextIs n q.str ↔ s = q.str := ⟨fun h => by rw [← ht.2, h.2], fun h => h ▸ ht⟩
      rw [key]
      cases hp : D.path s with
      | none =>
        simp only [reduceCtorEq, hn, not_false_eq_true, true_and, false_iff]
        rintro ⟨rfl, h⟩; rw [hp] at h; cases h
      | some f =>
        simp only [Got.val.injEq, hn, not_false_eq_true, true_and]
        constructor
        · rintro rfl; exact ⟨rfl, hp⟩
        · rintro ⟨rfl, h⟩; rw [hp] at h; cases h; rfl
  · intro n
    unfold decodeQuery
    rw [← decodeStr_decodes.skip n]
    cases hd : decodeStr n with
    | err => simp
    | skip => simp
    | val s => cases hp : D.path s <;> simp [hp]

theorem decodeQueries_decodes (D : Dec) : DecodesN (decodeQueries D) (QueriesAre D) := by
  have hq := decodeQuery_decodes D
  have hs := decodeSlice_decodes hq
  have hsc : ∀ n, ¬ Null n → n.hd.kind = .scalar → decodeQueries D n =
      (match decodeQuery D n with | .val q => .val (some [q]) | _ => .err) := by
    intro n h1 h2
    unfold decodeQueries
    rw [if_neg (by rw [isNull_iff]; exact h1), if_pos h2]
    cases decodeQuery D n <;> rfl
  have hns : ∀ n, ¬ Null n → n.hd.kind ≠ .scalar → decodeQueries D n = decodeSlice (decodeQuery D) n := by
    intro n h1 h2
    unfold decodeQueries
    rw [if_neg (by rw [isNull_iff]; exact h1), if_neg h2]
  have hnull : ∀ n, Null n → decodeQueries D n = .val none := by
    intro n h
    unfold decodeQueries
    rw [if_pos ((isNull_iff n).2 h)]
  constructor
  · intro n qs
    by_cases hn : Null n
    · simp [hnull n hn, hn]
    · by_cases hk : n.hd.kind = .scalar
      · rw [hsc n hn hk]
        have : ¬ ListIs (QueryIs D) n qs := by rintro ⟨h, _⟩; rw [Node.kind, hk] at h; cases h
        simp only [QueriesAre, this, or_false, hn, not_false_eq_true, true_and]
        cases hd : decodeQuery D n with
        | err =>
          simp only [reduceCtorEq, false_iff]
          rintro ⟨q, h, _⟩; rw [(hq.val n q).2 ⟨hn, h⟩] at hd; cases hd
        | skip => exact absurd ((hq.skip n).1 hd) hn
        | val q =>
          have h1 := ((hq.val n q).1 hd).2
          simp only [Got.val.injEq, Option.some.injEq]
          constructor
          · rintro rfl; exact ⟨q, h1, rfl⟩
          · rintro ⟨q', h2, rfl⟩; rw [hq.functional hn h1 h2]
      · rw [hns n hn hk, hs.val]
        simp only [QueriesAre, hn, not_false_eq_true, true_and]
        constructor
        · exact .inr
        · rintro (⟨q, ⟨h, _⟩, _⟩ | h)
          · exact absurd h.1 hk
          · exact h
  · intro n
    by_cases hn : Null n
    · simp [hnull n hn, hn]
    · by_cases hk : n.hd.kind = .scalar
      · rw [hsc n hn hk]
        cases decodeQuery D n <;> simp [hn]
      · rw [hns n hn hk]; exact hs.none n
  · intro n
    by_cases hn : Null n
    · simp [hnull n hn]
    · by_cases hk : n.hd.kind = .scalar
      · rw [hsc n hn hk]
        cases decodeQuery D n <;> simp
      · rw [hns n hn hk]; exact hs.skip n

theorem actionOfName_iff (s : Str) (a : Action) (ha : a ≠ .invalid) : actionOfName s = a ↔ s = a.str := by
  unfold actionOfName
  constructor
  · intro h
    split at h
    · subst h; assumption
    · split at h
      · subst h; assumption
      · split at h
        · subst h; assumption
        · split at h
          · subst h; assumption
          · exact absurd h.symm ha
  · rintro rfl
    cases a <;> first | exact absurd rfl ha | decide

theorem decodeAction_decodes : Decodes decodeAction ActionIs := by
  constructor
  · intro n a
    unfold decodeAction ActionIs
    cases hd : decodeStr n with
    | err =>
      simp only [reduceCtorEq, false_iff]
      rintro ⟨hn, t, ht, _⟩
      rw [(decodeStr_decodes.val n _).2 ⟨hn, ht⟩] at hd; cases hd
    | skip => simp [(decodeStr_decodes.skip n).1 hd]
    | val s =>
      obtain ⟨hn, ht⟩ := (decodeStr_decodes.val n s).1 hd
      have key : (∃ t, TextIs n t ∧ a ≠ .invalid ∧ toLowerStr t = a.str) ↔ a ≠ .invalid ∧ toLowerStr s = a.str := by
        constructor
        · rintro ⟨t, h, h2⟩; rw [← h.2, ht.2] at h2; exact h2
        · exact fun h => ⟨s, ht, h⟩
      rw [key]
      dsimp only
      unfold parseAction
      dsimp only
      by_cases hi : actionOfName (toLowerStr s) = .invalid
      · rw [if_pos hi]
        simp only [reduceCtorEq, hn, not_false_eq_true, true_and, false_iff]
        rintro ⟨h1, h2⟩
        rw [(actionOfName_iff _ a h1).2 h2] at hi
        exact h1 hi
      · rw [if_neg hi]
        simp only [Got.val.injEq, hn, not_false_eq_true, true_and]
        constructor
        · rintro rfl; exact ⟨hi, (actionOfName_iff _ _ hi).1 rfl⟩
        · rintro ⟨h1, h2⟩; exact (actionOfName_iff _ a h1).2 h2
  · intro n
    unfold decodeAction
    rw [← decodeStr_decodes.skip n]
    cases hd : decodeStr n with
    | err => simp
    | skip => simp
    | val s => cases hp : parseAction s <;> simp [hp]

theorem parseOnMissing_iff (s : Str) (a : OnMissingAction) :
    parseOnMissing s = a ↔ (a = .ignore ↔ toLowerStr s = c!"ignore") ∧ (a = .inject ↔ toLowerStr s = c!"inject") := by
  unfold parseOnMissing
  dsimp only
  have hne : (c!"ignore" : Str) ≠ c!"inject" := by decide
  split
  · rename_i h
    rw [h]
    cases a <;> simp
  · rename_i h
    split
    · rename_i h2
      rw [h2]
      cases a <;> simp
    · rename_i h2
      cases a <;> simp [h, h2]

theorem decodeOnMissingAction_decodes : Decodes decodeOnMissingAction OnMissingActionIs := by
  constructor
  · intro n a
    unfold decodeOnMissingAction OnMissingActionIs
    cases hd : decodeStr n with
    | err =>
      simp only [reduceCtorEq, false_iff]
      rintro ⟨hn, t, ht, _⟩
      rw [(decodeStr_decodes.val n _).2 ⟨hn, ht⟩] at hd; cases hd
    | skip => simp [(decodeStr_decodes.skip n).1 hd]
    | val s =>
      obtain ⟨hn, ht⟩ := (decodeStr_decodes.val n s).1 hd
      dsimp only
      rw [Got.val.injEq, parseOnMissing_iff]
      constructor
      · exact fun h => ⟨hn, s, ht, h⟩
      · rintro ⟨_, t, h, h2⟩; rw [← h.2, ht.2] at h2; exact h2
  · intro n
    unfold decodeOnMissingAction
    rw [← decodeStr_decodes.skip n]
    cases hd : decodeStr n <;> simp

/-! ### Structs -/

/-- Fields that are set from the node, null or not. -/
theorem structLoop_raw {σ α : Type} {set : Str → Node → σ → Option σ} {π : σ → α} {k : Str} {R : Node → α → Prop}
    (here : ∀ v s s', set k v s = some s' → R v (π s'))
    (other : ∀ k' v s s', k' ≠ k → set k' v s = some s' → π s' = π s) (n : Node) (hk : Keyed n) (s s' : σ)
    (h : structLoop set n.content s = some s') :
    (∃ v, KeyAt n k v ∧ R v (π s')) ∨ ((¬ ∃ v, KeyAt n k v) ∧ π s' = π s) := by
  have key : ∀ cs, (keys cs).Nodup → ∀ s s', structLoop set cs s = some s' →
      (∃ v, AtL (pairs cs) k v ∧ R v (π s')) ∨ ((∀ v, ¬ AtL (pairs cs) k v) ∧ π s' = π s) := by
    intro cs
    induction cs using pairInduction with
    | h0 => intro _ s s' h; simp [structLoop] at h; subst h; exact .inr ⟨by rintro v ⟨_, hm, _⟩; simp [pairs] at hm, rfl⟩
    | h1 a => intro _ s s' h; simp [structLoop] at h; subst h; exact .inr ⟨by rintro v ⟨_, hm, _⟩; simp [pairs] at hm, rfl⟩
    | h2 a b cs ih =>
      intro hnd s s' h
      obtain ⟨h1, _, h3⟩ := structLoop_step h
      rw [show keys (a :: b :: cs) = a.hd.value :: keys cs from rfl, List.nodup_cons] at hnd
      have lift : ∀ {v}, AtL (pairs cs) k v → AtL (pairs (a :: b :: cs)) k v := by
        rintro v ⟨kn, hm, hr⟩; exact ⟨kn, by simp [pairs, hm], hr⟩
      have down : a.hd.value ≠ k ∨ Null a → ∀ {v}, AtL (pairs (a :: b :: cs)) k v → AtL (pairs cs) k v := by
        rintro hne v ⟨kn, hm, hsc, hnn, hv⟩
        simp only [pairs, List.mem_cons, Prod.mk.injEq] at hm
        rcases hm with ⟨rfl, rfl⟩ | hm
        · rcases hne with hne | hne
          · exact absurd hv hne
          · exact absurd hne hnn
        · exact ⟨kn, hm, hsc, hnn, hv⟩
      rcases h3 with ⟨hna, h3⟩ | ⟨hn, s1, hs, h3⟩
      · rcases ih hnd.2 s s' h3 with ⟨v, hv, hr⟩ | ⟨hv, hr⟩
        · exact .inl ⟨v, lift hv, hr⟩
        · exact .inr ⟨fun v hh => hv v (down (.inr hna) hh), hr⟩
      · by_cases hka : a.hd.value = k
        · have hno : ∀ v, ¬ AtL (pairs cs) k v := by
            rintro v ⟨kn, hm, _, _, hv⟩
            exact hnd.1 (List.mem_map.2 ⟨(kn, v), hm, by rw [hv, hka]⟩)
          rcases ih hnd.2 s1 s' h3 with ⟨v, hv, _⟩ | ⟨_, hr⟩
          · exact absurd hv (hno _)
          · left
            rw [hka] at hs
            exact ⟨b, ⟨a, by simp [pairs], h1, hn, hka⟩, by rw [hr]; exact here b s s1 hs⟩
        · rcases ih hnd.2 s1 s' h3 with ⟨v, hv, hr⟩ | ⟨hv, hr⟩
          · exact .inl ⟨v, lift hv, hr⟩
          · exact .inr ⟨fun v hh => hv v (down (.inl hka) hh), by rw [hr, other _ b s s1 hka hs]⟩
  rcases key n.content hk.2.2 s s' h with ⟨v, h1, h2⟩ | ⟨h1, h2⟩
  · exact .inl ⟨v, h1, h2⟩
  · exact .inr ⟨fun ⟨v, hv⟩ => h1 v hv, h2⟩

/-- Fields that take the node as it is. -/
theorem structLoop_node {σ : Type} {set : Str → Node → σ → Option σ} {π : σ → Node} {k : Str}
    (here : ∀ v s, ∃ s', set k v s = some s' ∧ π s' = v)
    (other : ∀ k' v s s', k' ≠ k → set k' v s = some s' → π s' = π s) (n : Node) (hk : Keyed n) (s s' : σ)
    (h : structLoop set n.content s = some s') (h0 : π s = zeroNode) : NodeSetting n k (π s') := by
  rcases structLoop_raw (R := fun v a => a = v) (fun v s s' hs => by
    obtain ⟨s2, h4, h5⟩ := here v s
    rw [h4, Option.some.injEq] at hs
    rw [← hs, h5]) other n hk s s' h with ⟨v, h1, h2⟩ | ⟨h1, h2⟩
  · rw [h2]; exact .inl h1
  · exact .inr ⟨h1, by rw [h2, h0]⟩

end Yot
