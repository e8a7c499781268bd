import Verif.Spec.Turns
import Verif.Proofs.Retries

/-!
# Counting the actions of a call
-/

namespace Rotonda

open Prog Spec

/-! ## Bounded programs -/

namespace Prog
variable {σ τ α β : Type}

/-- Whatever the state is, within `I`, at each of its actions: the program ends after at most `n`
actions, and if it returns, its answer satisfies `Q`. -/
def Bounded (I : σ → Prop) (Q : α → Prop) : Prog σ α → Nat → Prop
  | ret a, _ => Q a
  | act _ _, 0 => False
  | act f k, n + 1 => ∀ s, I s → (k (f s).1).Bounded I Q n
  | panic, _ => True
  | diverge, _ => True

variable {I : σ → Prop} {Q : α → Prop} {Q' : β → Prop}

theorem Bounded.mono {p : Prog σ α} {R : α → Prop} {n m : Nat} (h : p.Bounded I Q n) (hn : n ≤ m)
    (hQ : ∀ a, Q a → R a) : p.Bounded I R m := by
  induction p generalizing n m with
  | ret a => exact hQ a h
  | act f k ih =>
    cases n with
    | zero => exact h.elim
    | succ n =>
      cases m with
      | zero => omega
      | succ m => exact fun s hs => ih _ (h s hs) (by omega)
  | panic => trivial
  | diverge => trivial

theorem Bounded.le {p : Prog σ α} {n m : Nat} (h : p.Bounded I Q n) (hn : n ≤ m) :
    p.Bounded I Q m := h.mono hn fun _ h => h

theorem Bounded.any {p : Prog σ α} {n : Nat} (h : p.Bounded I Q n) :
    p.Bounded I (fun _ => True) n := h.mono le_rfl fun _ _ => trivial

theorem Bounded.bind {p : Prog σ α} {k : α → Prog σ β} {n m : Nat} (h : p.Bounded I Q n)
    (hk : ∀ a, Q a → (k a).Bounded I Q' m) : (p >>= k).Bounded I Q' (n + m) := by
  induction p generalizing n with
  | ret a => exact (hk a h).le (by omega)
  | act f g ih =>
    cases n with
    | zero => exact h.elim
    | succ n =>
      rw [Nat.succ_add]
      exact fun s hs => ih _ (h s hs)
  | panic => trivial
  | diverge => trivial

/-- With the number of actions to be shown as a whole. -/
theorem Bounded.then {p : Prog σ α} {k : α → Prog σ β} {n m l : Nat} (h : p.Bounded I Q n)
    (hl : n + m ≤ l) (hk : ∀ a, Q a → (k a).Bounded I Q' m) : (p >>= k).Bounded I Q' l :=
  (h.bind hk).le hl

theorem Bounded.zoom {L : Lens σ τ} {I' : τ → Prop} (hI : ∀ s, I s → I' (L.get s)) {p : Prog τ α}
    {n : Nat} (h : p.Bounded I' Q n) : (p.zoom L).Bounded I Q n := by
  induction p generalizing n with
  | ret a => exact h
  | act f g ih =>
    cases n with
    | zero => exact h.elim
    | succ n => exact fun s hs => ih _ (h _ (hI s hs))
  | panic => trivial
  | diverge => trivial

theorem some_bind {a : α} {k : α → Prog σ β} : (ofOption (some a) >>= k) = k a := rfl

theorem bounded_ofOption {o : Option α} (h : ∀ a, o = some a → Q a) :
    (ofOption o : Prog σ α).Bounded I Q 0 := by
  cases o with
  | none => trivial
  | some a => exact h a rfl

theorem bounded_read {g : σ → α} (h : ∀ s, I s → Q (g s)) : (Prog.read g).Bounded I Q 1 :=
  fun s hs => h s hs

theorem bounded_atomic {g : σ → α × σ} : (Prog.atomic g).Bounded I (fun _ => True) 1 :=
  fun _ _ => trivial

theorem bounded_read' {g : σ → α} : (Prog.read g).Bounded I (fun _ => True) 1 :=
  fun _ _ => trivial

theorem Bounded.exec {ι : Type} [DecidableEq ι] {A : ι → Type} {i : ι} {Q : A i → Prop}
    {c : Conf σ ι A} {n : Nat} (h : (c.pool i).Bounded I Q n) (t : List ι)
    (hI : ∀ u, u <+: t → I (c.exec u).st) : ((c.exec t).pool i).Bounded I Q (n - t.count i) := by
  induction t generalizing c n with
  | nil => exact h
  | cons j t ih =>
    rw [Conf.exec_cons]
    have hI' : ∀ u, u <+: t → I ((c.step j).exec u).st := fun u hu => by
      rw [← Conf.exec_cons]
      exact hI (j :: u) ((List.prefix_cons_inj j).2 hu)
    have hI0 : I c.st := hI [] (List.nil_prefix)
    by_cases hj : j = i
    · subst hj
      rw [List.count_cons_self]
      have hs : ((c.step j).pool j).Bounded I Q (n - 1) := by
        unfold Conf.step
        cases hp : c.pool j with
        | ret a => simp only; rw [hp] at h ⊢; exact h
        | panic => simp only; rw [hp]; trivial
        | diverge => simp only; rw [hp]; trivial
        | act f k =>
          rw [hp] at h
          simp only [Function.update_self]
          cases n with
          | zero => exact h.elim
          | succ n => exact h _ hI0
      have := ih hs hI'
      rwa [show n - (t.count j + 1) = n - 1 - t.count j by omega]
    · rw [List.count_cons_of_ne hj]
      refine ih ?_ hI'
      unfold Conf.step
      cases hp : c.pool j with
      | act f k => simp only; rwa [Function.update_of_ne (fun e => hj e.symm)]
      | ret a => exact h
      | panic => exact h
      | diverge => exact h

end Prog

/-! ## Walks of a table -/

variable {W : Nat} {E : Type} [Entry E W] {I : Slots E → Prop}

theorem bounded_accessAt {ρ : Type} {a : Addr} {f : E → ρ × E} :
    (accessAt a f).Bounded I (fun _ => True) 1 :=
  bounded_atomic.then (m := 0) le_rfl fun _ _ => bounded_ofOption fun _ _ => trivial

theorem bounded_readAt {ρ : Type} {a : Addr} {f : E → ρ} :
    (readAt a f).Bounded I (fun _ => True) 1 :=
  bounded_read'.then (m := 0) le_rfl fun _ _ => bounded_ofOption fun _ _ => trivial

/-- What a walk knows of an entry it finds on level `n`: past it, there is a next level. -/
def Onward (id : PrefixId W) (n : Nat) (r : Ref W) : Prop :=
  r.id ≠ id → ValidLevel id.len (n + 1) ∧ hIdx id (n + 1) < r.next

theorem onward_of [Fam W] {C : Layout W} {s : Slots E} (hs : ChainInv C s) {id : PrefixId W}
    (hok : C.ok id) {n : Nat} (hv : ValidLevel id.len n) {e : E}
    (he : s (slotAt C id n) = some e) : Onward id n (refOf (slotAt C id n) e) := by
  intro hne
  obtain ⟨hv', hnx⟩ := nextLevel hs hok hv he hne
  refine ⟨hv', ?_⟩
  show hIdx id (n + 1) < Entry.next e
  rw [hnx, slotsForP2, if_neg (by unfold ValidLevel at hv'; unfold lvlBits; omega)]
  exact hIdx_lt (C.clean _ hok) hv'

theorem bounded_sliceGet [Fam W] {C : Layout W} {id : PrefixId W} (hok : C.ok id) {n size : Nat}
    (hv : ValidLevel id.len n) (hsz : hIdx id n < size) :
    (sliceGet (E := E) (bucketAt C id n size) (hIdx id n)).Bounded (ChainInv C)
      (fun o => ∀ r, o = some r → Onward id n r) 1 := by
  unfold sliceGet
  rw [if_pos (show hIdx id n < (bucketAt C id n size).size from hsz)]
  refine bounded_read fun s hs r hr => ?_
  rw [bucketAt_slot] at hr
  cases he : s (slotAt C id n) with
  | none => rw [he] at hr; cases hr
  | some e => rw [he] at hr; cases hr; exact onward_of hs hok hv he

theorem bounded_sliceGetOrInit [Fam W] {C : Layout W} {e : E} (hok : C.ok (Entry.id e)) {n size : Nat}
    (hv : ValidLevel (Entry.id e : PrefixId W).len n) (hsz : hIdx (Entry.id e) n < size) :
    (sliceGetOrInit (bucketAt C (Entry.id e) n size) (hIdx (Entry.id e) n) e).Bounded (ChainInv C)
      (fun x => Onward (Entry.id e) n x.1) 2 := by
  unfold sliceGetOrInit
  rw [if_pos (show hIdx (Entry.id e) n < (bucketAt C (Entry.id e) n size).size from hsz)]
  rw [bucketAt_slot]
  refine Bounded.then (m := 1) (n := 1)
    (Q := fun o => ∀ r, o = some r → Onward (Entry.id e) n r)
    (bounded_read fun s hs r hr => ?_) le_rfl fun o ho => ?_
  · cases he : s (slotAt C (Entry.id e) n) with
    | none => rw [he] at hr; cases hr
    | some e' => rw [he] at hr; cases hr; exact onward_of hs hok hv he
  · cases o with
    | some r => exact ho r rfl
    | none =>
      intro s hs
      simp only
      cases he : s (slotAt C (Entry.id e) n) with
      | none => exact fun h => absurd rfl h
      | some e' => exact onward_of hs hok hv he

theorem levels_pos (len : Nat) : 1 ≤ levels len := by unfold levels; omega

theorem level_lt {len n : Nat} (h : ValidLevel len n) : n < levels len := by
  unfold levels strides
  unfold ValidLevel at h
  omega

theorem nsz_of [hW : Fam W] {id : PrefixId W} (hc : id.Clean) {n : Nat} (hv : ValidLevel id.len n) :
    nodesetSize id.len (n + 1) = some (lvlBits id.len (n + 1)) := by
  have h1 := hc.1
  have h2 := hW.width
  unfold ValidLevel at hv
  rw [nodesetSize_eq (by omega)]
  congr 1
  unfold lvlBits; omega

theorem lvlBits_pos {len n : Nat} (h : ValidLevel len (n + 1)) : 0 < lvlBits len (n + 1) := by
  unfold ValidLevel at h; unfold lvlBits; omega

/-! ## The node table -/

theorem bounded_retrieveNodeLoop [Fam W] {id : NodeId W} (hok : (nodeLayout W).ok id) (fuel : Nat) :
    ∀ n size, ValidLevel id.len n → hIdx id n < size →
    (retrieveNodeLoop id fuel n (bucketAt (nodeLayout W) id n size)).Bounded
      (ChainInv (nodeLayout W)) (fun _ => True) (levels id.len - n) := by
  induction fuel with
  | zero => intros; trivial
  | succ k ih =>
    intro n size hv hsz
    have hcl := (nodeLayout W).clean _ hok
    have hlt := level_lt hv
    unfold retrieveNodeLoop
    rw [show hashId id n = some (hIdx id n) from hashId_eq hcl hv, some_bind]
    refine Bounded.then (n := 1) (m := levels id.len - (n + 1)) (bounded_sliceGet hok hv hsz)
      (by omega) fun o ho => ?_
    cases o with
    | none => trivial
    | some r =>
      simp only
      split
      · trivial
      · rename_i hne
        obtain ⟨hv', hsz'⟩ := ho r rfl fun h => hne h.symm
        rw [nsz_of hcl hv]
        show Bounded _ _ (if 0 < lvlBits id.len (n + 1) then _ else _) _
        rw [if_pos (lvlBits_pos hv'), bucketAt_child]
        exact ih _ _ hv' hsz'

theorem root_fits [Fam W] {id : PrefixId W} (hc : id.Clean) : hIdx id 0 < 16 := by
  have := hIdx_lt hc (Or.inl rfl : ValidLevel id.len 0)
  have h2 : 2 ^ lvlBits id.len 0 ≤ 2 ^ 4 := Nat.pow_le_pow_right (by omega) (by unfold lvlBits; omega)
  exact lt_of_lt_of_le this h2

theorem bounded_retrieveNode [Fam W] {id : NodeId W} (hok : (nodeLayout W).ok id) :
    (retrieveNode id).Bounded (ChainInv (nodeLayout W)) (fun _ => True) (levels id.len) := by
  unfold retrieveNode
  rw [nodeRoot_eq hok]
  exact bounded_retrieveNodeLoop hok _ _ _ (.inl rfl) (root_fits ((nodeLayout W).clean _ hok))

theorem bounded_retrieveNodeForMuiLoop [Fam W] {id : NodeId W} (hok : (nodeLayout W).ok id) {m : Mui}
    (fuel : Nat) : ∀ n size, ValidLevel id.len n → hIdx id n < size →
    (retrieveNodeForMuiLoop id m fuel n (bucketAt (nodeLayout W) id n size)).Bounded
      (ChainInv (nodeLayout W)) (fun _ => True) (2 * (levels id.len - n)) := by
  induction fuel with
  | zero => intros; trivial
  | succ k ih =>
    intro n size hv hsz
    have hcl := (nodeLayout W).clean _ hok
    have hlt := level_lt hv
    unfold retrieveNodeForMuiLoop
    rw [show hashId id n = some (hIdx id n) from hashId_eq hcl hv, some_bind]
    refine Bounded.then (n := 1) (m := 1 + 2 * (levels id.len - (n + 1))) (bounded_sliceGet hok hv hsz)
      (by omega) fun o ho => ?_
    cases o with
    | none => trivial
    | some r =>
      simp only
      refine Bounded.bind bounded_readAt fun has _ => ?_
      split
      · trivial
      split
      · trivial
      · rename_i hne
        obtain ⟨hv', hsz'⟩ := ho r rfl fun h => hne h.symm
        rw [nsz_of hcl hv]
        show Bounded _ _ (if 0 < lvlBits id.len (n + 1) then _ else _) _
        rw [if_pos (lvlBits_pos hv'), bucketAt_child]
        exact ih _ _ hv' hsz'

theorem bounded_retrieveNodeForMui [Fam W] {id : NodeId W} (hok : (nodeLayout W).ok id) {m : Mui} :
    (retrieveNodeForMui id m).Bounded (ChainInv (nodeLayout W)) (fun _ => True)
      (2 * levels id.len) := by
  unfold retrieveNodeForMui
  rw [nodeRoot_eq hok]
  exact bounded_retrieveNodeForMuiLoop hok _ _ _ (.inl rfl) (root_fits ((nodeLayout W).clean _ hok))

theorem bounded_retrieveNodeMutLoop [Fam W] {id : NodeId W} (hok : (nodeLayout W).ok id) {m : Mui}
    (fuel : Nat) : ∀ n size, ValidLevel id.len n → hIdx id n < size →
    (retrieveNodeMutLoop id m fuel n (bucketAt (nodeLayout W) id n size)).Bounded
      (ChainInv (nodeLayout W)) (fun _ => True) (3 * (levels id.len - n) + 1) := by
  induction fuel with
  | zero => intros; trivial
  | succ k ih =>
    intro n size hv hsz
    have hcl := (nodeLayout W).clean _ hok
    have hlt := level_lt hv
    have jp : ∀ node : Ref W, Onward id n node →
        (if id = node.id then updateRbm node.addr m >>= fun _ => Prog.ret (some node)
        else Prog.ofOption (nodesetSize id.len (n + 1)) >>= fun sz =>
          if 0 < sz then retrieveNodeMutLoop id m k (n + 1)
            ((bucketAt (nodeLayout W) id n size).child (hIdx id n) node.next)
          else Prog.ret none : Prog (NSlots W) (Option (Ref W))).Bounded
          (ChainInv (nodeLayout W)) (fun _ => True) (3 * (levels id.len - (n + 1)) + 1) := by
      intro node ho
      split
      · exact Bounded.then (m := 0) bounded_accessAt (by omega) fun _ _ => trivial
      · rename_i hne
        obtain ⟨hv', hsz'⟩ := ho fun h => hne h.symm
        rw [nsz_of hcl hv]
        show Bounded _ _ (if 0 < lvlBits id.len (n + 1) then _ else _) _
        rw [if_pos (lvlBits_pos hv'), bucketAt_child]
        exact ih _ _ hv' hsz'
    unfold retrieveNodeMutLoop
    rw [show hashId id n = some (hIdx id n) from hashId_eq hcl hv, some_bind]
    refine Bounded.then (n := 1) (m := 2 + (3 * (levels id.len - (n + 1)) + 1))
      (bounded_sliceGet hok hv hsz) (by omega) fun o ho => ?_
    cases o with
    | some r => exact (jp r (ho r rfl)).le (by omega)
    | none =>
      show Bounded _ _ (Prog.ofOption (nodesetSize id.len (n + 1)) >>= fun nextLevel =>
        sliceGetOrInit (bucketAt (nodeLayout W) id n size) (hIdx id n)
          (⟨id, 0#16, 0#32, slotsForP2 nextLevel, fun _ => false⟩ : StoredNode W) >>= _) _
      have hnl := nsz_of hcl hv
      refine Bounded.then (n := 0) (Q := fun nl => nl = lvlBits id.len (n + 1))
        (bounded_ofOption fun a ha => by rw [hnl] at ha; cases ha; rfl) (Nat.zero_add _).le fun nl hnl' => ?_
      subst hnl'
      refine Bounded.bind (bounded_sliceGetOrInit (E := StoredNode W)
        (e := ⟨id, 0#16, 0#32, slotsForP2 (lvlBits id.len (n + 1)), fun _ => false⟩) hok hv hsz)
        fun x hx => ?_
      exact jp x.1 hx

theorem bounded_retrieveNodeMut [Fam W] {id : NodeId W} (hok : (nodeLayout W).ok id) {m : Mui} :
    (retrieveNodeMut id m).Bounded (ChainInv (nodeLayout W)) (fun _ => True)
      (3 * levels id.len + 1) := by
  unfold retrieveNodeMut
  rw [nodeRoot_eq hok]
  exact bounded_retrieveNodeMutLoop hok _ _ _ (.inl rfl) (root_fits ((nodeLayout W).clean _ hok))

theorem bounded_casPtrLoop {I : NSlots W → Prop} {a : Addr} {b : BitVec 32} (fuel : Nat) : ∀ cur,
    (casPtrLoop (W := W) a b fuel cur).Bounded I (fun _ => True) fuel := by
  induction fuel with
  | zero => intro _; trivial
  | succ n ih =>
    intro cur
    unfold casPtrLoop
    refine Bounded.then (n := 1) (m := n) bounded_accessAt (by omega) fun o _ => ?_
    cases o with
    | none => trivial
    | some x => exact ih x

theorem bounded_casPfxLoop {I : NSlots W → Prop} {a : Addr} {b : BitVec 32} (fuel : Nat) : ∀ cur,
    (casPfxLoop (W := W) a b fuel cur).Bounded I (fun _ => True) fuel := by
  induction fuel with
  | zero => intro _; trivial
  | succ n ih =>
    intro cur
    unfold casPfxLoop
    refine Bounded.then (n := 1) (m := n) bounded_accessAt (by omega) fun o _ => ?_
    cases o with
    | none => trivial
    | some x => exact ih x

/-- The next node is asked for only before the last stride, and new nodes are empty. -/
theorem bounded_eval {I : NSlots W → Prop} {F : Nat} {a : Addr} {bs : BitSpan} {base : NodeId W}
    {last : Bool} :
    (evalNodeOrPrefixAt F a bs base last).Bounded I
      (fun x => match x with
        | .newNode p q => last = false ∧ p = 0#16 ∧ q = 0#32
        | .existingNode id => last = false ∧ id = base.nextStride
        | _ => True) (F + 4) := by
  unfold evalNodeOrPrefixAt
  refine Bounded.then (n := 1) (m := F + 3) bounded_readAt (by omega) fun ptr _ => ?_
  refine Bounded.then (n := 1) (m := F + 2) bounded_readAt (by omega) fun pfx _ => ?_
  refine Bounded.then (n := 0) (m := F + 2) (Q := fun _ => True) (bounded_ofOption fun _ _ => trivial)
    (by omega) fun bp _ => ?_
  split
  · rename_i hl
    refine Bounded.then (n := 1) (m := F + 1) bounded_readAt (by omega) fun ptr2 _ => ?_
    split
    · exact Bounded.then (m := 0) (bounded_casPtrLoop _ _) (by omega) fun _ _ => ⟨hl, rfl, rfl⟩
    · exact ⟨hl, rfl⟩
  · split
    · exact Bounded.then (m := 0) (bounded_casPfxLoop _ _) (by omega) fun _ _ => trivial
    · trivial

theorem bounded_storeNodeLoop [Fam W] {F : Nat} {id : NodeId W} (hok : (nodeLayout W).ok id) {m : Mui}
    (fuel : Nat) : ∀ n size, ValidLevel id.len n → hIdx id n < size →
    (storeNodeLoop F id m 0#16 0#32 fuel n (bucketAt (nodeLayout W) id n size)).Bounded
      (ChainInv (nodeLayout W)) (· = true) (3 * (levels id.len - n) + 1) := by
  induction fuel with
  | zero => intros; trivial
  | succ k ih =>
    intro n size hv hsz
    have hcl := (nodeLayout W).clean _ hok
    have hlt := level_lt hv
    unfold storeNodeLoop
    rw [show hashId id n = some (hIdx id n) from hashId_eq hcl hv, some_bind]
    refine Bounded.then (n := 1) (m := 2 + (3 * (levels id.len - (n + 1)) + 1))
      (bounded_sliceGet hok hv hsz) (by omega) fun o ho => ?_
    cases o with
    | none =>
      rw [nsz_of hcl hv, some_bind]
      refine Bounded.bind (bounded_sliceGetOrInit (E := StoredNode W)
        (e := ⟨id, 0#16, 0#32, slotsForP2 (lvlBits id.len (n + 1)), fun _ => false⟩) hok hv hsz)
        fun x hx => ?_
      obtain ⟨st, us⟩ := x
      simp only
      split
      · refine Bounded.then (n := 1) (m := 0) bounded_accessAt (by omega) fun _ _ => ?_
        simp only [ne_eq, not_true_eq_false, and_false, if_false]
        rfl
      · rfl
    | some r =>
      simp only
      split
      · refine Bounded.then (n := 1) (m := 0) bounded_accessAt (by omega) fun _ _ => ?_
        simp only [ne_eq, not_true_eq_false, if_false]
        rfl
      · rename_i hne
        obtain ⟨hv', hsz'⟩ := ho r rfl fun h => hne h.symm
        rw [nsz_of hcl hv]
        show Bounded _ _ (if 0 < lvlBits id.len (n + 1) then _ else _) _
        rw [if_pos (lvlBits_pos hv'), bucketAt_child]
        exact (ih _ _ hv' hsz').le (by omega)

theorem bounded_storeNode [Fam W] {F : Nat} {id : NodeId W} (hok : (nodeLayout W).ok id) {m : Mui} :
    (storeNode F id m 0#16 0#32).Bounded NodesOk (· = true) (3 * levels id.len + 2) := by
  unfold storeNode
  refine Bounded.then (n := 1) (m := 3 * levels id.len + 1) bounded_atomic (by omega) fun _ _ => ?_
  rw [nodeRoot_eq hok]
  exact Bounded.zoom (L := Tree.slotsL) (I' := ChainInv (E := StoredNode W) (nodeLayout W))
    (fun (s : Tree W) (hs : NodesOk s) => hs)
    (bounded_storeNodeLoop hok _ _ _ (.inl rfl) (root_fits ((nodeLayout W).clean _ hok)))

theorem nodeLen_eq (len : Nat) : nodeLen len = hostLen len := rfl

theorem levels_mono {a b : Nat} (h : a ≤ b) : levels a ≤ levels b := by
  unfold levels strides; omega

theorem nodeLen_mono {a b : Nat} (h : a ≤ b) : nodeLen a ≤ nodeLen b := by
  unfold nodeLen; omega

theorem existsTurns_mono {a b : Nat} (h : a ≤ b) : existsTurns a ≤ existsTurns b :=
  Nat.add_le_add_right (levels_mono (nodeLen_mono h)) 1

theorem recordsTurns_mono {st : Strategy} {a b : Nat} (h : a ≤ b) :
    recordsTurns st a ≤ recordsTurns st b := by
  have := levels_mono h
  cases st <;> simp only [recordsTurns] <;> omega

theorem nodeIdForPrefix_ok [hW : Fam W] {p : PrefixId W} (hp : p.Clean) :
    ∃ bs n, nodeIdForPrefix p = some (n, bs) ∧ (nodeLayout W).ok n ∧ n.len = nodeLen p.len := by
  have hw := hW.width
  by_cases h0 : p.len = 0
  · refine ⟨_, _, nodeIdForPrefix_zero h0, ⟨clean_truncate p.bits (by omega), by simp [NodeId.newCleaned],
      by simp only [NodeId.newCleaned]; omega⟩, ?_⟩
    simp [NodeId.newCleaned, nodeLen, h0]
  · have h1 := hostLen_lt (len := p.len) (by omega)
    have h2 := hp.1
    refine ⟨_, _, nodeIdForPrefix_eq hp (by omega), ⟨clean_truncate p.bits (by omega), ?_, ?_⟩, rfl⟩
    · exact ⟨(p.len - 1) / 4, rfl⟩
    · show hostLen p.len < W
      omega

theorem bounded_prefixExistsN [Fam W] {p : PrefixId W} (hp : p.Clean) :
    (prefixExistsN p).Bounded (ChainInv (nodeLayout W)) (fun _ => True) (existsTurns p.len) := by
  obtain ⟨bs, n, he, hok, hl⟩ := nodeIdForPrefix_ok hp
  unfold prefixExistsN
  rw [he, some_bind]
  refine Bounded.then (n := levels (nodeLen p.len)) (m := 1) (by rw [← hl]; exact bounded_retrieveNode hok)
    le_rfl fun o _ => ?_
  cases o with
  | none => trivial
  | some r =>
    refine Bounded.then (m := 0) bounded_readAt le_rfl fun x _ => ?_
    exact Bounded.then (m := 0) (n := 0) (Q := fun _ => True) (bounded_ofOption fun _ _ => trivial) le_rfl
      fun _ _ => trivial

theorem bounded_prefixExistsForMuiN [Fam W] {p : PrefixId W} (hp : p.Clean) {m : Mui} :
    (prefixExistsForMuiN p m).Bounded (ChainInv (nodeLayout W)) (fun _ => True)
      (2 * levels (nodeLen p.len) + 1) := by
  obtain ⟨bs, n, he, hok, hl⟩ := nodeIdForPrefix_ok hp
  unfold prefixExistsForMuiN
  rw [he, some_bind]
  refine Bounded.then (n := 2 * levels (nodeLen p.len)) (m := 1)
    (by rw [← hl]; exact bounded_retrieveNodeForMui hok) le_rfl fun o _ => ?_
  cases o with
  | none => trivial
  | some r =>
    refine Bounded.then (m := 0) bounded_readAt le_rfl fun x _ => ?_
    exact Bounded.then (m := 0) (n := 0) (Q := fun _ => True) (bounded_ofOption fun _ _ => trivial) le_rfl
      fun _ _ => trivial

/-! ## Less specifics and longest match -/

theorem bounded_lmLoop [Fam W] {l : Nat} (fuel : Nat) : ∀ p : PrefixId W, p.Clean → p.len ≤ l →
    (lmLoop fuel p).Bounded (ChainInv (nodeLayout W))
      (fun o => ∀ q, o = some q → q.Clean ∧ q.len ≤ p.len) (p.len * existsTurns l) := by
  induction fuel with
  | zero => intros; trivial
  | succ k ih =>
    intro p hp hl
    unfold lmLoop
    split
    · rintro q hq; cases hq
    · rename_i h0
      obtain ⟨j, hj⟩ : ∃ j, p.len = j + 1 := ⟨p.len - 1, by omega⟩
      have hj' : p.len - 1 = j := by omega
      refine Bounded.then (n := existsTurns l) (m := j * existsTurns l)
        ((bounded_prefixExistsN hp).le (existsTurns_mono hl)) ?_ fun b _ => ?_
      · rw [hj, Nat.succ_mul]; omega
      · cases b with
        | true => rintro q hq; cases hq; exact ⟨hp, le_rfl⟩
        | false =>
          rw [hj']
          have hlen : (p.truncateTo j).len = j := rfl
          have := ih (p.truncateTo j) (truncateTo_clean p (by have := hp.1; omega)) (by rw [hlen]; omega)
          rw [hlen] at this
          refine this.mono le_rfl fun o ho q hq => ?_
          obtain ⟨h1, h2⟩ := ho q hq
          exact ⟨h1, by omega⟩

theorem bounded_lsFind [Fam W] {p : PrefixId W} {l : Nat} : ∀ lvl, lvl ≤ W → lvl ≤ l →
    (lsFind p lvl).Bounded (ChainInv (nodeLayout W))
      (fun o => ∀ n, o = some n → 1 ≤ n ∧ n ≤ lvl) (lvl * existsTurns l)
  | 0, _, _ => by unfold lsFind; rintro n hn; cases hn
  | lvl + 1, hW, hl => by
    unfold lsFind
    refine Bounded.then (n := existsTurns l) (m := lvl * existsTurns l)
      ((bounded_prefixExistsN (truncateTo_clean p hW)).le (existsTurns_mono hl)) ?_ fun b _ => ?_
    · rw [Nat.succ_mul]; omega
    · cases b with
      | true => rintro n hn; cases hn; omega
      | false =>
        exact (bounded_lsFind lvl (by omega) (by omega)).mono le_rfl fun o ho n hn => by
          have := ho n hn; omega

end Rotonda
