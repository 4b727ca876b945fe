import Verif.Lemmas.Number
import Verif.Props.Edits
/-
C14, C15: what combine computes.
-/
namespace Yot
open Spec Ex

/-- Comments aside, `mergeComments` changes nothing. -/
theorem mergeComments_value (E : Sed) (o n : Hdr) (vals : List Str) :
    (mergeComments E o n vals).value = o.value ∧ (mergeComments E o n vals).tag = o.tag := by
  unfold mergeComments
  dsimp only
  split
  · exact ⟨rfl, rfl⟩
  · split
    · exact ⟨rfl, rfl⟩
    · split <;> exact ⟨rfl, rfl⟩

theorem combine_unfold (E : Sed) (n v : Node) (h1 : n.kind = .scalar) (h2 : v.kind = .scalar) :
    combineNode E n v =
      if n.hd.tag = c!"!!int" then
        match atoi n.hd.value, atoi v.hd.value with
        | some a, some b =>
          .ok (.mk { mergeComments E n.hd v.hd [] with value := itoa (wrap64 (a + b)) } n.content)
        | _, _ => .err .notAnInt
      else if n.hd.tag = c!"!!bool" then
        match parseBool n.hd.value, parseBool v.hd.value with
        | some a, some b =>
          .ok (.mk { mergeComments E n.hd v.hd [] with value := formatBool (a && b) } n.content)
        | _, _ => .err .notABool
      else .ok (.mk { mergeComments E n.hd v.hd [] with value := n.hd.value ++ v.hd.value } n.content) := by
  have hv := mergeComments_value E n.hd v.hd []
  unfold combineNode
  rw [if_neg (by simp only [Node.kind] at h1 h2; simp [h1, h2])]
  dsimp only
  split <;> rename_i ht <;> rw [hv.2] at ht
  · rw [if_pos ht, hv.1]
    split <;> simp_all
  · rw [if_neg ht]
    split <;> rename_i ht <;> rw [hv.2] at ht
    · rw [if_pos ht, hv.1]
      split <;> simp_all
    · rw [if_neg ht, hv.1]

/-! ### C14 -/

/-- C14 (partial): an integer node combined with an integer value becomes the
usual decimal spelling of the sum, when the operands and the sum fit a 64-bit
integer.  Missing: a sum outside the range, for which the claim is false
(`C14_overflow`). -/
theorem C14_combine_adds_partial (E : Sed) (n v : Node) (a b : Int)
    (hn : n.kind = .scalar) (hv : v.kind = .scalar) (ht : n.hd.tag = c!"!!int")
    (ha : IntText n.hd.value a) (hb : IntText v.hd.value b)
    (ra : InRange a) (rb : InRange b) (rab : InRange (a + b)) :
    ∃ n', combineNode E n v = .ok n' ∧ IntText n'.hd.value (a + b) ∧ Canonical n'.hd.value := by
  rw [combine_unfold E n v hn hv, if_pos ht, (atoi_iff _ _).2 ⟨ha, ra⟩, (atoi_iff _ _).2 ⟨hb, rb⟩]
  refine ⟨_, rfl, ?_⟩
  show IntText (itoa (wrap64 (a + b))) (a + b) ∧ _
  rw [wrap64_id rab]
  exact itoa_spec _

/-- C14, for all operands that fit: the result is the usual decimal spelling of the
64-bit number that differs from the sum by a multiple of 2^64, so it is the sum
exactly if the sum fits. -/
theorem C14_combine_adds_modulo (E : Sed) (n v : Node) (a b : Int)
    (hn : n.kind = .scalar) (hv : v.kind = .scalar) (ht : n.hd.tag = c!"!!int")
    (ha : IntText n.hd.value a) (hb : IntText v.hd.value b) (ra : InRange a) (rb : InRange b) :
    ∃ n' x, combineNode E n v = .ok n' ∧ IntText n'.hd.value x ∧ Canonical n'.hd.value ∧
      InRange x ∧ (2 : Int) ^ 64 ∣ a + b - x ∧ (x = a + b ↔ InRange (a + b)) := by
  rw [combine_unfold E n v hn hv, if_pos ht, (atoi_iff _ _).2 ⟨ha, ra⟩, (atoi_iff _ _).2 ⟨hb, rb⟩]
  have hr : InRange (wrap64 (a + b)) := by unfold InRange wrap64; omega
  refine ⟨_, wrap64 (a + b), rfl, (itoa_spec _).1, (itoa_spec _).2, hr, ?_, ?_⟩
  · unfold wrap64; omega
  · exact ⟨fun h => h ▸ hr, fun h => wrap64_id h⟩

/-- C14: if one of the texts is not a decimal integer that fits 64 bits, combine
on an integer node is an error. -/
theorem C14_not_an_int (E : Sed) (n v : Node)
    (hn : n.kind = .scalar) (hv : v.kind = .scalar) (ht : n.hd.tag = c!"!!int")
    (h : (¬ ∃ a, IntText n.hd.value a ∧ InRange a) ∨ (¬ ∃ b, IntText v.hd.value b ∧ InRange b)) :
    combineNode E n v = .err .notAnInt := by
  rw [combine_unfold E n v hn hv, if_pos ht]
  have hnone : ∀ s, (¬ ∃ a, IntText s a ∧ InRange a) → atoi s = none := by
    intro s hs
    cases hc : atoi s with
    | none => rfl
    | some x => exact absurd ⟨x, (atoi_iff _ _).1 hc⟩ hs
  rcases h with h | h
  · rw [hnone _ h]
  · rw [hnone _ h]
    cases atoi n.hd.value <;> rfl

/-- C14: on an integer node, combine fails only for that reason. -/
theorem C14_succeeds_iff (E : Sed) (n v : Node)
    (hn : n.kind = .scalar) (hv : v.kind = .scalar) (ht : n.hd.tag = c!"!!int") :
    (∃ n', combineNode E n v = .ok n') ↔
      (∃ a, IntText n.hd.value a ∧ InRange a) ∧ (∃ b, IntText v.hd.value b ∧ InRange b) := by
  constructor
  · rintro ⟨n', h⟩
    constructor
    · by_contra hc
      rw [C14_not_an_int E n v hn hv ht (.inl hc)] at h
      cases h
    · by_contra hc
      rw [C14_not_an_int E n v hn hv ht (.inr hc)] at h
      cases h
  · rintro ⟨⟨a, ha⟩, b, hb⟩
    rw [combine_unfold E n v hn hv, if_pos ht, (atoi_iff _ _).2 ha, (atoi_iff _ _).2 hb]
    exact ⟨_, rfl⟩

/-- C14 is false on overflow: the largest integer plus one becomes the smallest. -/
theorem C14_overflow :
    tree (combineNode noSed (sc c!"9223372036854775807" c!"!!int") (sc c!"1" c!"!!int"))
      = some (sc c!"-9223372036854775808" c!"!!int") := by decide

/-- C14: YAML integers in another notation are not added but rejected. -/
theorem C14_other_notations (E : Sed) :
    combineNode E (sc c!"0x10" c!"!!int") (sc c!"1" c!"!!int") = .err .notAnInt ∧
    combineNode E (sc c!"1_000" c!"!!int") (sc c!"1" c!"!!int") = .err .notAnInt := ⟨rfl, rfl⟩

-- the hypotheses of `C14_combine_adds_partial` in a concrete case
example : IntText c!"-12" (-12) ∧ IntText c!"+007" 7 ∧ InRange (-12) ∧ InRange 7 ∧ InRange (-12 + 7) := by
  refine ⟨⟨c!"12", by decide, .inr (.inr ⟨rfl, by decide⟩)⟩,
    ⟨c!"007", by decide, .inr (.inl ⟨rfl, by decide⟩)⟩, ?_⟩
  unfold InRange
  decide
example : tree (combineNode noSed (sc c!"-12" c!"!!int") (sc c!"+007" c!"!!int")) = some (sc c!"-5" c!"!!int") := by
  decide

/-! ### C15 -/

theorem parseBool_iff (s : Str) (b : Bool) : parseBool s = some b ↔ BoolText s b := by
  unfold parseBool BoolText
  have hd : ∀ s ∈ trueWords, s ∉ falseWords := by decide
  have : (s ∈ [c!"1", c!"t", c!"T", c!"TRUE", c!"true", c!"True"]) = (s ∈ trueWords) := rfl
  have h2 : (s ∈ [c!"0", c!"f", c!"F", c!"FALSE", c!"false", c!"False"]) = (s ∈ falseWords) := rfl
  simp only [this, h2]
  cases b
  · simp only [Bool.false_eq_true, if_false]
    by_cases h : s ∈ trueWords
    · simp [h, hd s h]
    · simp [h]
  · simp only [if_true]
    by_cases h : s ∈ trueWords
    · simp [h]
    · by_cases h' : s ∈ falseWords <;> simp [h, h']

/-- C15: a boolean node combined with a boolean value becomes their conjunction,
spelled `true` or `false`, for all accepted spellings of the operands. -/
theorem C15_combine_booleans (E : Sed) (n v : Node) (a b : Bool)
    (hn : n.kind = .scalar) (hv : v.kind = .scalar) (ht : n.hd.tag = c!"!!bool")
    (ha : BoolText n.hd.value a) (hb : BoolText v.hd.value b) :
    ∃ n', combineNode E n v = .ok n' ∧
      n'.hd.value = (if a = true ∧ b = true then c!"true" else c!"false") := by
  rw [combine_unfold E n v hn hv, if_neg (by rw [ht]; decide), if_pos ht,
    (parseBool_iff _ _).2 ha, (parseBool_iff _ _).2 hb]
  refine ⟨_, rfl, ?_⟩
  cases a <;> cases b <;> rfl

/-- C15: any other text on either side of a boolean combine is an error. -/
theorem C15_not_a_boolean (E : Sed) (n v : Node)
    (hn : n.kind = .scalar) (hv : v.kind = .scalar) (ht : n.hd.tag = c!"!!bool")
    (h : (¬ ∃ a, BoolText n.hd.value a) ∨ (¬ ∃ b, BoolText v.hd.value b)) :
    combineNode E n v = .err .notABool := by
  rw [combine_unfold E n v hn hv, if_neg (by rw [ht]; decide), if_pos ht]
  have hnone : ∀ s, (¬ ∃ a, BoolText s a) → parseBool s = none := by
    intro s hs
    cases hc : parseBool s with
    | none => rfl
    | some x => exact absurd ⟨x, (parseBool_iff _ _).1 hc⟩ hs
  rcases h with h | h
  · rw [hnone _ h]
  · rw [hnone _ h]
    cases parseBool n.hd.value <;> rfl

/-- C15: any other scalar is concatenated, original first. -/
theorem C15_combine_concatenates (E : Sed) (n v : Node)
    (hn : n.kind = .scalar) (hv : v.kind = .scalar)
    (h1 : n.hd.tag ≠ c!"!!int") (h2 : n.hd.tag ≠ c!"!!bool") :
    ∃ n', combineNode E n v = .ok n' ∧ n'.hd.value = n.hd.value ++ v.hd.value := by
  rw [combine_unfold E n v hn hv, if_neg h1, if_neg h2]
  exact ⟨_, rfl, rfl⟩

/-! ### Failure of the whole overlay -/

/-- The overlay value `v` can be combined into a node with these fields. -/
def Combinable (v h : Hdr) : Prop :=
  h.kind = .scalar ∧ v.kind = .scalar ∧
  (h.tag = c!"!!int" → (∃ a, IntText h.value a ∧ InRange a) ∧ ∃ b, IntText v.value b ∧ InRange b) ∧
  (h.tag = c!"!!bool" → (∃ a, BoolText h.value a) ∧ ∃ b, BoolText v.value b)

theorem combine_ok_iff (E : Sed) (n v : Node) :
    (∃ n', combineNode E n v = .ok n') ↔ Combinable v.hd n.hd := by
  constructor
  · rintro ⟨n', h⟩
    obtain ⟨hn, hv, _⟩ := combineNode_fields E n v n' h
    refine ⟨hn, hv, fun ht => (C14_succeeds_iff E n v hn hv ht).1 ⟨n', h⟩, fun ht => ?_⟩
    constructor
    · by_contra hc
      rw [C15_not_a_boolean E n v hn hv ht (.inl hc)] at h
      cases h
    · by_contra hc
      rw [C15_not_a_boolean E n v hn hv ht (.inr hc)] at h
      cases h
  · rintro ⟨hn, hv, hi, hb⟩
    by_cases h1 : n.hd.tag = c!"!!int"
    · exact (C14_succeeds_iff E n v hn hv h1).2 (hi h1)
    · by_cases h2 : n.hd.tag = c!"!!bool"
      · obtain ⟨⟨a, ha⟩, b, hb⟩ := hb h2
        obtain ⟨n', h, _⟩ := C15_combine_booleans E n v a b hn hv h2 ha hb
        exact ⟨n', h⟩
      · obtain ⟨n', h, _⟩ := C15_combine_concatenates E n v hn hv h1 h2
        exact ⟨n', h⟩

theorem combine_step (E : Sed) (v : Node) (a : Nat) (p : Hdr → Prop) (n : Node) :
    ∀ n', WellFormed n → modifyAt a (fun n => combineNode E n v) n = .ok n' →
      WellFormed n' ∧ AllNodes (fun h => h.addr = a → Combinable v.hd h) n ∧
      (AllNodes (fun h => h.addr ≠ a → p h) n' → AllNodes (fun h => h.addr ≠ a → p h) n) := by
  induction n using Node.ind with
  | h hd cs ih =>
    rintro ⟨hd', cs'⟩ hw hm
    rw [wf_mk] at hw
    rcases modifyAt_cases hm with ⟨ha, hf⟩ | ⟨ha, hh, hc⟩
    · obtain ⟨hk, hvk, hcs, x, hx, lx, fx, hhd⟩ := combineNode_fields E _ v _ hf
      have hempty : cs = [] := by
        have := hw.1
        simp only [Node.hd_mk] at hk
        rw [hk] at this
        exact List.length_eq_zero_iff.1 this
      subst hempty
      simp only [Node.content_mk, Node.hd_mk] at hcs hhd hk ha
      subst hcs
      subst hhd
      refine ⟨?_, ?_, ?_⟩
      · rw [wf_mk]
        exact hw
      · simp only [AllNodes, AllNodess, and_true]
        intro _
        exact (combine_ok_iff E (.mk hd []) v).1 ⟨_, hf⟩
      · simp only [AllNodes, AllNodess, and_true]
        intro _ h
        exact absurd ha h
    · simp only [Node.hd_mk, Node.content_mk] at ha hh hc
      subst hh
      have hlen := hc.length_eq
      have key : ∀ (xs xs' : List Node), (∀ c ∈ xs, c ∈ cs) →
          List.Forall₂ (fun c c' => modifyAt a (fun n => combineNode E n v) c = .ok c') xs xs' →
          (∀ c ∈ xs', WellFormed c) ∧ (∀ c ∈ xs, AllNodes (fun h => h.addr = a → Combinable v.hd h) c) ∧
          ((∀ c ∈ xs', AllNodes (fun h => h.addr ≠ a → p h) c) →
            ∀ c ∈ xs, AllNodes (fun h => h.addr ≠ a → p h) c) := by
        intro xs xs' hsub hf
        induction hf with
        | nil => simp
        | @cons c c' l l' h1 h2 ihf =>
          obtain ⟨i1, i2, i3⟩ := ihf (fun c hc => hsub c (by simp [hc]))
          obtain ⟨j1, j2, j3⟩ := ih c (hsub c (by simp)) c' (hw.2 c (hsub c (by simp))) h1
          simp only [List.mem_cons, forall_eq_or_imp]
          exact ⟨⟨j1, i1⟩, ⟨j2, i2⟩, fun h => ⟨j3 h.1, i3 h.2⟩⟩
      obtain ⟨k1, k2, k3⟩ := key cs cs' (fun _ h => h) hc
      simp only [AllNodes, AllNodess_iff, wf_mk]
      refine ⟨⟨by rw [← hlen]; exact hw.1, k1⟩, ⟨fun h => absurd h ha, k2⟩, fun h => ⟨h.1, k3 h.2⟩⟩

/-- C14, C15 on a whole document: if any match of a combine overlay cannot be
combined (not a scalar, not a decimal integer in range under `!!int`, not a
boolean word under `!!bool`) then the overlay does not succeed. -/
theorem C14_overlay_succeeds_only_if_all_match (E : Sed) (o : Overlay) (ha : o.action = .combine)
    (root root' : Node) (hw : WellFormed root) (nodes : List Node)
    (h : doAction E o root nodes = .ok root') :
    AllNodes (fun hd => hd.addr ∈ addrsOf nodes → Combinable o.value.hd hd) root := by
  have := doAction_fold (f := fun n => combineNode E n o.value) (fun r a => by simp [doOne, ha]) h
  clear h
  generalize addrsOf nodes = as at this
  induction as generalizing root with
  | nil =>
    refine AllNodes_mono (p := fun _ => True) (fun x _ hx => by simp at hx) root ?_
    clear this hw
    induction root using Node.ind with
    | h hd cs ih => simp only [AllNodes, AllNodess_iff]; exact ⟨trivial, ih⟩
  | cons a as ih =>
    simp only [List.foldlM_cons, Res.bind_eq_ok] at this
    obtain ⟨r, h1, h2⟩ := this
    obtain ⟨k1, k2, k3⟩ := combine_step E o.value a
      (fun hd => hd.addr ∈ as → Combinable o.value.hd hd) root r hw h1
    have k4 := k3 (AllNodes_mono (q := fun hd => hd.addr ≠ a → hd.addr ∈ as → Combinable o.value.hd hd)
      (fun x hx _ => hx) r (ih r k1 h2))
    clear k3 h1 h2 ih
    induction root using Node.ind with
    | h hd cs ih =>
      simp only [AllNodes, AllNodess_iff] at k2 k4 ⊢
      rw [wf_mk] at hw
      refine ⟨fun hm => ?_, fun c hc => ih c hc (hw.2 c hc) (k2.2 c hc) (k4.2 c hc)⟩
      by_cases hx : hd.addr = a
      · exact k2.1 hx
      · exact k4.1 hx ((List.mem_cons.1 hm).resolve_left hx)

example : BoolText c!"T" true ∧ BoolText c!"False" false := by
  unfold BoolText; decide
example : tree (combineNode noSed (sc c!"T" c!"!!bool") (sc c!"1" c!"!!int")) = some (sc c!"true" c!"!!bool") := by
  decide
example : ¬ ∃ a, BoolText c!"yes" a := by
  rintro ⟨_ | _, h⟩ <;> unfold BoolText at h <;> revert h <;> decide
example : tree (combineNode noSed (sc c!"1.5" c!"!!float") (sc c!"2" c!"!!int")) = some (sc c!"1.52" c!"!!float") := by
  decide

end Yot
