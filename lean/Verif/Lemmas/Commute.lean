import Verif.Spec.Commute
import Verif.Lemmas.Inject
import Verif.Lemmas.RenameApply
import Verif.Props.Apply
/-
Overlays at paths of names as edits of the entry the path leads to.
-/
namespace Yot
open Spec

/-- What an overlay makes of a matched node; none if it removes it. -/
def act (E : Sed) (o : Overlay) (n : Node) : Res Err (Option Node) :=
  match o.action with
  | .delete => .ok none
  | .replace => .ok (some (replaceNode E n o.value))
  | .combine => combineNode E n o.value >>= fun r => .ok (some r)
  | _ => mergeNode E n o.value >>= fun r => .ok (some r)

/-- Edit the value of the first entry with a key; whether it was removed. -/
def updR (k : Str) (f : Node → Res Err (Option Node)) : List Node → Res Err (List Node × Bool)
  | kn :: v :: rest =>
    if kn.hd.value = k then
      f v >>= fun r => match r with
        | some v' => .ok (kn :: v' :: rest, false)
        | none => .ok (rest, true)
    else updR k f rest >>= fun r => .ok (kn :: v :: r.1, r.2)
  | l => .ok (l, false)

/-- A cut slice is not nil. -/
def cutHd (h : Hdr) (r : Bool) : Hdr := { h with nilc := h.nilc && !r }

/-- Edit the node at the end of a path of names. -/
def editPath : List Str → (Node → Res Err (Option Node)) → Node → Res Err (Option Node)
  | [], f, n => f n
  | k :: ks, f, n =>
    if n.hd.kind = .mapping then
      updR k (editPath ks f) n.content >>= fun r => .ok (some (.mk (cutHd n.hd r.2) r.1))
    else .ok (some n)

/-- The same in a document. -/
def docEdit (ks : List Str) (f : Node → Res Err (Option Node)) (d : Node) : Res Err Node :=
  match d.content with
  | [] => .ok d
  | c :: rest => editPath ks f c >>= fun r => match r with
    | some c' => .ok (.mk d.hd (c' :: rest))
    | none => .ok (.mk (cutHd d.hd true) rest)

theorem cutHd_false (h : Hdr) : cutHd h false = h := by simp [cutHd]

/-! ### The first entry -/

theorem firstAt_split {k : Str} {cs : List Node} {v : Node} (h : firstAt k (pairs cs) = some v) :
    ∃ A kn B, cs = A ++ kn :: v :: B ∧ A.length % 2 = 0 ∧ kn.hd.value = k ∧ (∀ e ∈ pairs A, e.1.hd.value ≠ k) := by
  induction cs using pairInduction with
  | h0 => cases h
  | h1 a => cases h
  | h2 a b cs ih =>
    simp only [pairs, firstAt] at h
    split at h
    · rename_i hk
      cases h
      exact ⟨[], a, cs, rfl, rfl, hk, by simp [pairs]⟩
    · rename_i hk
      obtain ⟨A, kn, B, h1, h2, h3, h4⟩ := ih h
      refine ⟨a :: b :: A, kn, B, by rw [h1]; rfl, by simp only [List.length_cons]; omega, h3, ?_⟩
      simp only [pairs, List.mem_cons, forall_eq_or_imp]
      exact ⟨hk, h4⟩

theorem updR_split {k : Str} (f : Node → Res Err (Option Node)) {A : List Node} (hA : A.length % 2 = 0)
    (h : ∀ e ∈ pairs A, e.1.hd.value ≠ k) {kn : Node} (hk : kn.hd.value = k) (v : Node) (B : List Node) :
    updR k f (A ++ kn :: v :: B) = (f v >>= fun r => match r with
        | some v' => .ok (A ++ kn :: v' :: B, false)
        | none => .ok (A ++ B, true)) := by
  induction A using pairInduction with
  | h0 => simp [updR, hk]
  | h1 a => simp at hA
  | h2 a b A ih =>
    simp only [pairs, List.mem_cons, forall_eq_or_imp] at h
    simp only [List.cons_append, updR, h.1, if_false]
    rw [ih (by simp only [List.length_cons] at hA; omega) h.2]
    cases f v with
    | ok r => cases r <;> rfl
    | err e => rfl
    | panic => rfl

theorem updR_none {k : Str} (f : Node → Res Err (Option Node)) {cs : List Node} (h : firstAt k (pairs cs) = none) :
    updR k f cs = .ok (cs, false) := by
  induction cs using pairInduction with
  | h0 => rfl
  | h1 a => rfl
  | h2 a b cs ih =>
    simp only [pairs, firstAt] at h
    split at h
    · cases h
    · rename_i hk
      simp only [updR, hk, if_false, ih h, Res.bind_ok]

theorem walk_cases (ks : List Str) : ∀ n, walk ks n = [] ∨ ∃ m, walk ks n = [m] := by
  induction ks with
  | nil => intro n; exact .inr ⟨n, rfl⟩
  | cons k ks ih =>
    intro n
    simp only [walk]
    cases firstAt k (entriesOf n) with
    | none => exact .inl rfl
    | some v => exact ih v

theorem editPath_none (f : Node → Res Err (Option Node)) (ks : List Str) : ∀ n, walk ks n = [] → editPath ks f n = .ok (some n) := by
  induction ks with
  | nil => intro n h; simp [walk] at h
  | cons k ks ih =>
    intro n h
    rw [editPath]
    split
    · rename_i hk
      simp only [walk, entriesOf, hk, if_true] at h
      cases hf : firstAt k (pairs n.content) with
      | none => rw [updR_none _ hf]; simp only [Res.bind_ok, cutHd_false]; cases n; rfl
      | some v =>
        rw [hf] at h
        obtain ⟨A, kn, B, h1, h2, h3, h4⟩ := firstAt_split hf
        rw [h1, updR_split _ h2 h4 h3, ih v h]
        simp only [Res.bind_ok, cutHd_false, ← h1]
        cases n; rfl
    · rfl

/-! ### Addresses -/

theorem modifyAts_append (a : Nat) (f : Node → Res Err Node) (cs ds : List Node) :
    modifyAts a f (cs ++ ds) = (modifyAts a f cs >>= fun cs' => modifyAts a f ds >>= fun ds' => .ok (cs' ++ ds')) := by
  induction cs with
  | nil => simp only [List.nil_append, modifyAts, Res.bind_ok]; cases modifyAts a f ds <;> rfl
  | cons c cs ih =>
    simp only [List.cons_append, modifyAts, ih]
    cases modifyAt a f c with
    | err e => rfl
    | panic => rfl
    | ok c' =>
      simp only [Res.bind_ok]
      cases modifyAts a f cs with
      | err e => rfl
      | panic => rfl
      | ok cs' =>
        simp only [Res.bind_ok]
        cases modifyAts a f ds <;> rfl

/-- The places of a tree around one entry. -/
theorem split_addrs {A B : List Node} {kn v : Node} {a : Nat} (h : (Node.addrss (A ++ kn :: v :: B)).count a ≤ 1) (ha : a ∈ v.addrs) :
    a ∉ Node.addrss A ∧ a ∉ kn.addrs ∧ a ∉ Node.addrss B ∧ v.addrs.count a ≤ 1 := by
  rw [addrss_eq, List.flatMap_append, List.flatMap_cons, List.flatMap_cons, ← addrss_eq, ← addrss_eq,
    List.count_append, List.count_append, List.count_append] at h
  have hv := List.count_pos_iff.2 ha
  refine ⟨fun hc => ?_, fun hc => ?_, fun hc => ?_, by omega⟩ <;> have := List.count_pos_iff.2 hc <;> omega

theorem once_mk {h : Hdr} {cs : List Node} {a : Nat} (ho : (Node.mk h cs).addrs.count a ≤ 1) (ha : a ∈ Node.addrss cs) :
    h.addr ≠ a ∧ (Node.addrss cs).count a ≤ 1 := by
  rw [Node.addrs, List.count_cons] at ho
  have := List.count_pos_iff.2 ha
  refine ⟨fun e => ?_, by omega⟩
  rw [if_pos (by simp [e])] at ho
  omega

theorem modifyAt_editPath (f : Node → Res Err Node) (ks : List Str) : ∀ (n m : Node), n.addrs.count m.hd.addr ≤ 1 → walk ks n = [m] →
    (modifyAt m.hd.addr f n >>= fun r => .ok (some r)) = editPath ks (fun x => f x >>= fun r => .ok (some r)) n := by
  induction ks with
  | nil =>
    intro n m _ h
    simp only [walk, List.cons.injEq, and_true] at h
    subst h
    obtain ⟨hd, cs⟩ := n
    rw [modifyAt]
    simp only [Node.hd_mk, if_true, editPath]
  | cons k ks ih =>
    intro n m hnd h
    have hm : m.hd.addr ∈ n.addrs := mem_addrs_walk (k :: ks) n m (by rw [h]; simp)
    simp only [walk] at h
    cases hf : firstAt k (entriesOf n) with
    | none => rw [hf] at h; cases h
    | some v =>
      rw [hf] at h
      have hv := mem_addrs_walk ks v m (by rw [show walk ks v = [m] from h]; simp)
      have hk : n.hd.kind = .mapping := by
        by_contra hc
        simp [entriesOf, hc, firstAt] at hf
      simp only [entriesOf, hk, if_true] at hf
      obtain ⟨hd, cs⟩ := n
      simp only [Node.content_mk] at hf
      obtain ⟨A, kn, B, h1, h2, h3, h4⟩ := firstAt_split hf
      subst h1
      have hin : m.hd.addr ∈ Node.addrss (A ++ kn :: v :: B) := by
        rw [addrss_eq, List.mem_flatMap]
        exact ⟨v, by simp, hv⟩
      obtain ⟨hne, hnd⟩ := once_mk hnd hin
      obtain ⟨a1, a2, a3, a4⟩ := split_addrs hnd hv
      rw [modifyAt, if_neg hne, modifyAts_append, modifyAts_absent _ f A a1]
      simp only [modifyAts, modifyAt_absent _ f kn a2, modifyAts_absent _ f B a3, Res.bind_ok]
      rw [editPath, if_pos hk, Node.content_mk, updR_split _ h2 h4 h3, ← ih v m a4 h]
      cases modifyAt m.hd.addr f v with
      | ok r => simp only [Res.bind_ok, cutHd_false]; rfl
      | err e => rfl
      | panic => rfl

theorem deleteScan_absent_of (a : Nat) (cs : List Node) (ih : ∀ c ∈ cs, a ∉ c.addrs → deleteNode a c = .ok c)
    (h : a ∉ Node.addrss cs) : deleteScan a cs = .ok (cs, none) := by
  induction cs with
  | nil => rfl
  | cons c cs ihc =>
    simp only [Node.addrss, List.mem_append, not_or] at h
    rw [deleteScan, if_neg (fun (e : c.hd.addr = a) => h.1 (by rw [← e]; exact mem_addrs_self c)), ih c (by simp) h.1,
      Res.bind_ok, ihc (fun c hc => ih c (by simp [hc])) h.2]
    rfl

theorem deleteNode_absent (a : Nat) (n : Node) : a ∉ n.addrs → deleteNode a n = .ok n := by
  induction n using Node.ind with
  | h hd cs ih =>
    intro h
    simp only [Node.addrs, List.mem_cons, not_or] at h
    rw [deleteNode, deleteScan_absent_of a cs ih h.2]
    rfl

theorem deleteScan_absent (a : Nat) (cs : List Node) (h : a ∉ Node.addrss cs) : deleteScan a cs = .ok (cs, none) :=
  deleteScan_absent_of a cs (fun c _ => deleteNode_absent a c) h

theorem deleteScan_append (a : Nat) (A ds : List Node) (h : a ∉ Node.addrss A) :
    deleteScan a (A ++ ds) = (deleteScan a ds >>= fun r => .ok (A ++ r.1, r.2.map (· + A.length))) := by
  induction A with
  | nil =>
    simp only [List.nil_append, List.length_nil, Nat.add_zero]
    cases deleteScan a ds with
    | ok r => simp
    | err e => rfl
    | panic => rfl
  | cons c A ih =>
    simp only [Node.addrss, List.mem_append, not_or] at h
    rw [List.cons_append, deleteScan, if_neg (fun (e : c.hd.addr = a) => h.1 (by rw [← e]; exact mem_addrs_self c)),
      deleteNode_absent a c h.1, Res.bind_ok, ih h.2]
    cases deleteScan a ds with
    | ok r =>
      simp only [Res.bind_ok, List.cons_append, List.length_cons, Option.map_map]
      congr 3
    | err e => rfl
    | panic => rfl

/-- Deleting what a path of names leads to. -/
theorem deleteNode_editPath (ks : List Str) : ∀ (k : Str) (n m : Node), n.addrs.count m.hd.addr ≤ 1 → walk (k :: ks) n = [m] →
    (deleteNode m.hd.addr n >>= fun r => .ok (some r)) = editPath (k :: ks) (fun _ => .ok none) n := by
  induction ks with
  | nil =>
    intro k n m hnd h
    simp only [walk] at h
    cases hf : firstAt k (entriesOf n) with
    | none => rw [hf] at h; cases h
    | some v =>
      rw [hf] at h
      simp only [List.cons.injEq, and_true] at h
      subst h
      have hk : n.hd.kind = .mapping := by
        by_contra hc
        simp [entriesOf, hc, firstAt] at hf
      simp only [entriesOf, hk, if_true] at hf
      obtain ⟨hd, cs⟩ := n
      simp only [Node.content_mk] at hf
      obtain ⟨A, kn, B, h1, h2, h3, h4⟩ := firstAt_split hf
      subst h1
      have hin : v.hd.addr ∈ Node.addrss (A ++ kn :: v :: B) := by
        rw [addrss_eq, List.mem_flatMap]
        exact ⟨v, by simp, mem_addrs_self v⟩
      obtain ⟨a1, a2, a3, a4⟩ := split_addrs (once_mk hnd hin).2 (mem_addrs_self v)
      simp only [Node.hd_mk] at hk
      rw [deleteNode, deleteScan_append _ _ _ a1, deleteScan,
        if_neg (fun (e : kn.hd.addr = _) => a2 (by rw [← e]; exact mem_addrs_self kn)), deleteNode_absent _ kn a2, Res.bind_ok,
        deleteScan, if_pos rfl]
      simp only [Res.bind_ok, Option.map_some, Nat.zero_add, editPath, Node.hd_mk, hk, if_true, Node.content_mk,
        updR_split _ h2 h4 h3]
      have hc : deleteIndex .mapping (1 + A.length) (A ++ kn :: v :: B) = .ok (A ++ B) := by
        have hm : ¬ (1 + A.length) % 2 = 0 := by omega
        simp only [deleteIndex, cutRange, reduceCtorEq, or_self, if_false, hm]
        rw [if_pos (by simp only [List.length_append, List.length_cons]; omega)]
        have e1 : 1 + A.length - 1 = A.length := by omega
        have e2 : 1 + A.length + 1 = A.length + 2 := by omega
        rw [e1, e2, List.take_left', ← List.drop_drop, List.drop_left']
        · rfl
        · rfl
        · rfl
      rw [hc]
      simp [cutHd, hk]
  | cons k' ks ih =>
    intro k n m hnd h
    rw [walk.eq_def] at h; dsimp only at h
    cases hf : firstAt k (entriesOf n) with
    | none => rw [hf] at h; cases h
    | some v =>
      rw [hf] at h
      dsimp only at h
      have hv := mem_addrs_walk (k' :: ks) v m (by rw [show walk (k' :: ks) v = [m] from h]; simp)
      have hk : n.hd.kind = .mapping := by
        by_contra hc
        simp [entriesOf, hc, firstAt] at hf
      simp only [entriesOf, hk, if_true] at hf
      obtain ⟨hd, cs⟩ := n
      simp only [Node.content_mk] at hf
      obtain ⟨A, kn, B, h1, h2, h3, h4⟩ := firstAt_split hf
      subst h1
      have hin : m.hd.addr ∈ Node.addrss (A ++ kn :: v :: B) := by
        rw [addrss_eq, List.mem_flatMap]
        exact ⟨v, by simp, hv⟩
      obtain ⟨a1, a2, a3, a4⟩ := split_addrs (once_mk hnd hin).2 hv
      have hne : v.hd.addr ≠ m.hd.addr := by
        intro e
        obtain ⟨vh, vcs⟩ := v
        have : m.hd.addr ∈ Node.addrss vcs := by
          rw [walk.eq_def] at h; dsimp only at h
          cases hg : firstAt k' (entriesOf (.mk vh vcs)) with
          | none => rw [hg] at h; cases h
          | some w =>
            rw [hg] at h
            have hw := mem_addrs_walk ks w m (by rw [show walk ks w = [m] from h]; simp)
            unfold entriesOf at hg
            split at hg
            · rw [addrss_eq, List.mem_flatMap]; exact ⟨w, firstAt_mem hg, hw⟩
            · cases hg
        exact (once_mk a4 this).1 (by simpa using e)
      simp only [Node.hd_mk] at hk
      rw [deleteNode, deleteScan_append _ _ _ a1, deleteScan,
        if_neg (fun (e : kn.hd.addr = _) => a2 (by rw [← e]; exact mem_addrs_self kn)), deleteNode_absent _ kn a2, Res.bind_ok,
        deleteScan, if_neg hne, deleteScan_absent _ B a3]
      rw [editPath, Node.hd_mk, if_pos hk, Node.content_mk, updR_split _ h2 h4 h3, ← ih k' v m a4 h]
      cases deleteNode m.hd.addr v with
      | ok r => simp only [Res.bind_ok, Option.map_none, cutHd_false]
      | err e => rfl
      | panic => rfl

/-! ### One overlay -/

/-- An outcome without the identity of nodes. -/
def freshRes (r : Res Err Node) : Res Err Node := r >>= fun n => .ok n.fresh

theorem docEdit_none (f : Node → Res Err (Option Node)) (ks : List Str) (d : Node) (hk : d.hd.kind = .document)
    (h : findNames ks d = []) : docEdit ks f d = .ok d := by
  unfold docEdit
  unfold findNames at h
  rw [if_pos hk] at h
  obtain ⟨hd, cs⟩ := d
  cases cs with
  | nil => rfl
  | cons c rest =>
    simp only [Node.content_mk] at h ⊢
    rw [editPath_none f ks c h]
    rfl

theorem doOne_docEdit_once (E : Sed) (o : Overlay) (ks : List Str) (d m : Node) (hk : d.hd.kind = .document) (hnd : d.addrs.count m.hd.addr ≤ 1)
    (h : findNames ks d = [m]) : doOne E o d m.hd.addr = docEdit ks (act E o) d := by
  unfold findNames at h
  rw [if_pos hk] at h
  obtain ⟨hd, cs⟩ := d
  cases cs with
  | nil => cases h
  | cons c rest =>
    simp only [Node.content_mk, Node.hd_mk] at h hk
    have hm : m.hd.addr ∈ c.addrs := mem_addrs_walk ks c m (by rw [h]; simp)
    obtain ⟨hne, hnd⟩ := once_mk hnd (by simp [Node.addrss, hm] : m.hd.addr ∈ Node.addrss (c :: rest))
    rw [Node.addrss, List.count_append] at hnd
    have hm1 := List.count_pos_iff.2 hm
    have n2 : c.addrs.count m.hd.addr ≤ 1 := by omega
    have hrest : m.hd.addr ∉ Node.addrss rest := fun hc => by have := List.count_pos_iff.2 hc; omega
    have mod : ∀ g : Node → Res Err Node, modifyAt m.hd.addr g (.mk hd (c :: rest)) =
        docEdit ks (fun x => g x >>= fun r => .ok (some r)) (.mk hd (c :: rest)) := by
      intro g
      rw [modifyAt, if_neg hne, modifyAts, modifyAts_absent _ g rest hrest]
      unfold docEdit
      simp only [Node.content_mk]
      rw [← modifyAt_editPath g ks c m n2 h]
      cases modifyAt m.hd.addr g c <;> rfl
    unfold doOne
    cases hac : o.action with
    | invalid => dsimp only; rw [mod]; congr 1; funext x; simp [act, hac]
    | merge => dsimp only; rw [mod]; congr 1; funext x; simp [act, hac]
    | replace => dsimp only; rw [mod]; congr 1; funext x; simp [act, hac]
    | combine => dsimp only; rw [mod]; congr 1; funext x; simp [act, hac]
    | delete =>
      have ha : act E o = fun _ => .ok none := by funext x; simp [act, hac]
      rw [ha]
      dsimp only
      unfold docEdit
      simp only [Node.content_mk]
      cases ks with
      | nil =>
        simp only [walk, List.cons.injEq, and_true] at h
        subst h
        rw [deleteNode, deleteScan, if_pos rfl]
        simp only [Res.bind_ok, Node.hd_mk, hk, deleteIndex, cutRange, or_true, if_true, List.length_cons, editPath]
        rw [if_pos (by omega)]
        simp [cutHd, hk]
      | cons k ks =>
        have hne' : c.hd.addr ≠ m.hd.addr := by
          intro e'
          obtain ⟨vh, vcs⟩ := c
          have : m.hd.addr ∈ Node.addrss vcs := by
            rw [walk.eq_def] at h; dsimp only at h
            cases hg : firstAt k (entriesOf (.mk vh vcs)) with
            | none => rw [hg] at h; cases h
            | some w =>
              rw [hg] at h
              have hw := mem_addrs_walk ks w m (by rw [show walk ks w = [m] from h]; simp)
              unfold entriesOf at hg
              split at hg
              · rw [addrss_eq, List.mem_flatMap]; exact ⟨w, firstAt_mem hg, hw⟩
              · cases hg
          exact (once_mk n2 this).1 (by simpa using e')
        rw [deleteNode, deleteScan, if_neg hne', deleteScan_absent _ rest hrest, ← deleteNode_editPath ks k c m n2 h]
        cases deleteNode m.hd.addr c <;> rfl

theorem doOne_docEdit (E : Sed) (o : Overlay) (ks : List Str) (d m : Node) (hk : d.hd.kind = .document) (hnd : d.addrs.Nodup)
    (h : findNames ks d = [m]) : doOne E o d m.hd.addr = docEdit ks (act E o) d :=
  doOne_docEdit_once E o ks d m hk (List.nodup_iff_count.1 hnd _) h

theorem updR_fresh {k : Str} {f g : Node → Res Err (Option Node)} (h : ∀ x, (f x >>= fun r => .ok (r.map Node.fresh)) = g x.fresh)
    (cs : List Node) :
    (updR k f cs >>= fun r => .ok (r.1.map Node.fresh, r.2)) = updR k g (cs.map Node.fresh) := by
  induction cs using pairInduction with
  | h0 => rfl
  | h1 a => rfl
  | h2 a b cs ih =>
    simp only [updR, List.map_cons, fresh_value]
    split
    · rw [← h b]
      cases f b with
      | ok r => cases r <;> simp
      | err e => rfl
      | panic => rfl
    · rw [← ih]
      cases updR k f cs with
      | ok r => simp
      | err e => rfl
      | panic => rfl

theorem editPath_fresh {f g : Node → Res Err (Option Node)} (h : ∀ x, (f x >>= fun r => .ok (r.map Node.fresh)) = g x.fresh)
    (ks : List Str) : ∀ n, (editPath ks f n >>= fun r => .ok (r.map Node.fresh)) = editPath ks g n.fresh := by
  induction ks with
  | nil => intro n; exact h n
  | cons k ks ih =>
    intro n
    simp only [editPath, fresh_hd, fresh_content]
    split
    · rw [← updR_fresh ih]
      cases updR k (editPath ks f) n.content with
      | ok r => simp [fresh_mk, cutHd]
      | err e => rfl
      | panic => rfl
    · rfl

theorem docEdit_fresh {f g : Node → Res Err (Option Node)} (h : ∀ x, (f x >>= fun r => .ok (r.map Node.fresh)) = g x.fresh)
    (ks : List Str) (d : Node) : freshRes (docEdit ks f d) = docEdit ks g d.fresh := by
  unfold docEdit freshRes
  obtain ⟨hd, cs⟩ := d
  cases cs with
  | nil => simp [fresh_mk]
  | cons c rest =>
    simp only [Node.content_mk, fresh_mk, List.map_cons]
    rw [← editPath_fresh h]
    cases editPath ks f c with
    | ok r => cases r <;> simp [fresh_mk, cutHd]
    | err e => rfl
    | panic => rfl

theorem act_fresh (E : Sed) (o : Overlay) (x : Node) : (act E o x >>= fun r => .ok (r.map Node.fresh)) = act E o x.fresh := by
  have hm : mergeNode E x.fresh o.value = renameRes (fun _ => 0) (mergeNode E x o.value) := by
    rw [fresh_eq_rename]; exact merge_rename E rfl o.value x []
  have hc : combineNode E x.fresh o.value = renameRes (fun _ => 0) (combineNode E x o.value) := by
    rw [fresh_eq_rename]; exact combineNode_rename E _ x o.value
  have hf : ∀ r : Res Err Node, ((r >>= fun y => (.ok (some y) : Res Err (Option Node))) >>= fun r => .ok (r.map Node.fresh)) =
      (renameRes (fun _ => 0) r >>= fun y => .ok (some y)) := by
    intro r
    cases r with
    | ok y => simp [fresh_eq_rename]
    | err e => rfl
    | panic => rfl
  unfold act
  cases o.action with
  | invalid => simp only [hm, hf]
  | merge => simp only [hm, hf]
  | combine => simp only [hc, hf]
  | delete => rfl
  | replace => simp only [Res.bind_ok, Option.map_some, replaceNode_fresh]

theorem findNames_fresh (ks : List Str) (d : Node) : findNames ks d.fresh = (findNames ks d).map Node.fresh := by
  unfold findNames
  rw [fresh_hd, fresh_content]
  dsimp only
  split
  · cases d.content with
    | nil => rfl
    | cons c rest => exact walk_fresh ks c
  · exact walk_fresh ks d

theorem label_hd_kind (d : Node) : d.label.hd.kind = d.hd.kind := by
  have := congrArg (fun n => n.hd.kind) (label_fresh d)
  simpa [fresh_hd] using this

/-- An overlay at a path of names that does not inject is an edit at that path. -/
theorem applyJob_docEdit (E : Sed) (dflt : Str) (o : Overlay) (ks : List Str) (hat : At ks o) (hdq : o.documentQuery = [])
    (d : Node) (hI : ¬ Injects dflt o.onMissing ∨ findNames ks d.fresh ≠ []) (hd : d.hd.kind = .document) :
    freshRes (applyJob E dflt o d) = docEdit ks (act E o) d.fresh := by
  obtain ⟨q, ho, hq⟩ := hat
  rw [← label_fresh d, ← docEdit_fresh (act_fresh E o)]
  unfold applyJob
  have hk : d.label.hd.kind = .document := by rw [label_hd_kind, hd]
  have hnd := label_nodup d
  have hI' : ¬ Injects dflt o.onMissing ∨ findNames ks d.label ≠ [] := by
    rcases hI with hI | hI
    · exact .inl hI
    · right
      rw [← label_fresh, findNames_fresh] at hI
      intro h
      rw [h] at hI
      exact hI rfl
  generalize d.label = t at hk hnd hI'
  congr 1
  have hfa : findAll o.query t = findNames ks t := by
    rw [findAll, ho]
    split
    · rename_i h
      simp [findNames, h.1, h.2]
    · simp [hq]
  have hc : checkQueries o.documentQuery t = true := by simp [hdq, checkQueries]
  have hcases : findNames ks t = [] ∨ ∃ m, findNames ks t = [m] := by
    unfold findNames
    rw [if_pos hk]
    cases t.content with
    | nil => exact .inl rfl
    | cons c rest => exact walk_cases _ _
  rcases hcases with h | ⟨m, h⟩
  · rw [docEdit_none _ ks t hk h]
    refine C18_unqualified_overlay_is_identity E dflt o t (.inr ⟨?_, hI'.resolve_right (fun hc => hc h)⟩)
    rintro ⟨m, _, q', hq', hm⟩
    rw [ho] at hq'
    simp only [List.mem_cons, List.not_mem_nil, or_false] at hq'
    subst hq'
    rw [hq, h] at hm
    cases hm
  · unfold apply
    rw [hc, hfa, h]
    simp only [Bool.not_true, Bool.false_eq_true, if_false, List.isEmpty_cons, doAction, List.foldlM_cons, List.foldlM_nil]
    rw [doOne_docEdit E o ks t m hk hnd h]
    cases docEdit ks (act E o) t <;> rfl

end Yot
