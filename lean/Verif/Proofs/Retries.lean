import Verif.Spec.Retries
import Verif.Proofs.ConcRun
import Verif.Proofs.PoisonCalls
import Mathlib.Tactic.Ring

/-!
# Counting retries
-/

namespace Rotonda

open Prog Spec

/-! ## Answers of a program -/

namespace Prog
variable {σ τ α β : Type}

/-- Whatever the state is, within `I`, at each of its actions: if the program returns, its answer
satisfies `Q`. -/
def Leaves (I : σ → Prop) (Q : α → Prop) : Prog σ α → Prop
  | ret a => Q a
  | act f k => ∀ s, I s → (k (f s).1).Leaves I Q
  | panic => True
  | diverge => True

/-- The same, whatever the actions yield. -/
def Rets (Q : α → Prop) : Prog σ α → Prop
  | ret a => Q a
  | act _ k => ∀ r, (k r).Rets Q
  | panic => True
  | diverge => True

variable {I : σ → Prop} {Q : α → Prop} {Q' : β → Prop}

theorem Leaves.bind {p : Prog σ α} {k : α → Prog σ β} (h : p.Leaves I Q)
    (hk : ∀ a, Q a → (k a).Leaves I Q') : (p >>= k).Leaves I Q' := by
  induction p with
  | ret a => exact hk a h
  | act f g ih => exact fun s hs => ih _ (h s hs)
  | panic => trivial
  | diverge => trivial

theorem leaves_true (p : Prog σ α) : p.Leaves I (fun _ => True) := by
  induction p with
  | ret a => trivial
  | act f g ih => exact fun s _ => ih _
  | panic => trivial
  | diverge => trivial

theorem Leaves.seq {p : Prog σ α} {k : α → Prog σ β} (hk : ∀ a, (k a).Leaves I Q') :
    (p >>= k).Leaves I Q' := (leaves_true p).bind fun a _ => hk a

theorem Leaves.mono {p : Prog σ α} {R : α → Prop} (h : p.Leaves I Q) (hQ : ∀ a, Q a → R a) :
    p.Leaves I R := by
  induction p with
  | ret a => exact hQ a h
  | act f g ih => exact fun s hs => ih _ (h s hs)
  | panic => trivial
  | diverge => trivial

theorem Leaves.zoom {L : Lens σ τ} {I' : τ → Prop} (hI : ∀ s, I s → I' (L.get s)) {p : Prog τ α}
    (h : p.Leaves I' Q) : (p.zoom L).Leaves I Q := by
  induction p with
  | ret a => exact h
  | act f g ih => exact fun s hs => ih _ (h _ (hI s hs))
  | panic => trivial
  | diverge => trivial

theorem leaves_ofOption {o : Option α} (h : ∀ a, o = some a → Q a) :
    (ofOption o : Prog σ α).Leaves I Q := by
  cases o with
  | none => trivial
  | some a => exact h a rfl

theorem Rets.leaves {p : Prog σ α} (h : p.Rets Q) : p.Leaves I Q := by
  induction p with
  | ret a => exact h
  | act f g ih => exact fun s _ => ih _ (h _)
  | panic => trivial
  | diverge => trivial

theorem Rets.bind {p : Prog σ α} {k : α → Prog σ β} (h : p.Rets Q)
    (hk : ∀ a, Q a → (k a).Rets Q') : (p >>= k).Rets Q' := by
  induction p with
  | ret a => exact hk a h
  | act f g ih => exact fun r => ih r (h r)
  | panic => trivial
  | diverge => trivial

theorem rets_true (p : Prog σ α) : p.Rets (fun _ => True) := by
  induction p with
  | ret a => trivial
  | act f g ih => exact fun r => ih r
  | panic => trivial
  | diverge => trivial

theorem Rets.seq {p : Prog σ α} {k : α → Prog σ β} (hk : ∀ a, (k a).Rets Q') : (p >>= k).Rets Q' :=
  (rets_true p).bind fun a _ => hk a

theorem Rets.zoom {L : Lens σ τ} {p : Prog τ α} (h : p.Rets Q) : (p.zoom L).Rets Q := by
  induction p with
  | ret a => exact h
  | act f g ih => exact fun r => ih r (h r)
  | panic => trivial
  | diverge => trivial

/-- Continuations need to agree only on the answers there can be. -/
theorem Rets.bind_congr {p : Prog σ α} {k k' : α → Prog σ β} (h : p.Rets Q)
    (hk : ∀ a, Q a → k a = k' a) : p >>= k = p >>= k' := by
  induction p with
  | ret a => exact hk a h
  | act f g ih => exact congrArg (act f) (funext fun r => ih r (h r))
  | panic => rfl
  | diverge => rfl

theorem bind_congr' {p : Prog σ α} {k k' : α → Prog σ β} (hk : ∀ a, k a = k' a) :
    p >>= k = p >>= k' := (rets_true p).bind_congr fun a _ => hk a

/-! ## Forgetting a part of the answer -/

theorem mapAns_bind (g : β → τ) (p : Prog σ α) (k : α → Prog σ β) :
    (p >>= k).mapAns g = p >>= fun a => (k a).mapAns g := by
  induction p with
  | ret a => rfl
  | act f h ih => exact congrArg (act f) (funext fun r => ih r)
  | panic => rfl
  | diverge => rfl

theorem bind_mapAns (g : α → β) (p : Prog σ α) (k : β → Prog σ τ) :
    (p.mapAns g) >>= k = p >>= fun a => k (g a) := by
  induction p with
  | ret a => rfl
  | act f h ih => exact congrArg (act f) (funext fun r => ih r)
  | panic => rfl
  | diverge => rfl

theorem mapAns_id (p : Prog σ α) : p.mapAns (fun a => a) = p := by
  induction p with
  | ret a => rfl
  | act f h ih => exact congrArg (act f) (funext fun r => ih r)
  | panic => rfl
  | diverge => rfl

theorem mapAns_zoom {ρ : Type} (L : Lens ρ σ) (g : α → β) (p : Prog σ α) :
    (p.zoom L).mapAns g = (p.mapAns g).zoom L := by
  induction p with
  | ret a => rfl
  | act f h ih => exact congrArg (act _) (funext fun r => ih r)
  | panic => rfl
  | diverge => rfl

end Prog

/-! ## Additions -/

variable {σ : Type} {M : Type} {W : Nat}

theorem leaves_addU32 {I : σ → Prop} {ck : Bool} {a b : Nat} {Q : Nat → Prop}
    (h : (ck = true → a + b < 2 ^ 32) → Q ((a + b) % 2 ^ 32)) : (addU32 ck a b).Leaves I Q := by
  unfold addU32
  split
  · trivial
  · rename_i hn
    exact h fun hc => by
      by_contra hlt
      exact hn ⟨hc, by omega⟩

theorem addU32_ok {ck : Bool} {a b : Nat} (h : a + b < 2 ^ 32) :
    (addU32 ck a b : Prog σ Nat) = Prog.ret (a + b) := by
  unfold addU32
  rw [if_neg (by omega), Nat.mod_eq_of_lt h]

theorem addU32_bind_false {α : Type} (a b : Nat) (k : Nat → Prog σ α) :
    (addU32 false a b >>= k) = k ((a + b) % 2 ^ 32) := by
  unfold addU32
  rw [if_neg (by simp)]
  rfl

/-! ## Failed swaps of one stride -/

theorem rets_casPtrLoopR {ck : Bool} {a : Addr} {bp : BitVec 32} (fuel : Nat) :
    ∀ cur count failed, count = failed % 2 ^ 32 → (ck = true → failed < 2 ^ 32) →
    (casPtrLoopR (W := W) ck a bp fuel cur count failed).Rets fun r =>
      r.1 = r.2 % 2 ^ 32 ∧ r.2 < failed + fuel ∧ (ck = true → r.2 < 2 ^ 32) := by
  induction fuel with
  | zero => intros; trivial
  | succ n ih =>
    intro cur count failed hc hck
    unfold casPtrLoopR
    refine Rets.seq fun r => ?_
    cases r with
    | none => exact ⟨hc, by simp only; omega, hck⟩
    | some x =>
      simp only
      refine Rets.bind (Q := fun c => c = (failed + 1) % 2 ^ 32 ∧ (ck = true → failed + 1 < 2 ^ 32))
        ?_ fun c hc' => ?_
      · unfold addU32; split
        · trivial
        · rename_i hn
          refine ⟨by show (count + 1) % 2 ^ 32 = _; omega, fun h => ?_⟩
          have h1 := hck h
          by_contra h2
          exact hn ⟨h, by omega⟩
      · have := ih x c (failed + 1) hc'.1 hc'.2
        rwa [Nat.add_right_comm, Nat.add_assoc] at this

theorem rets_casPfxLoopR {ck : Bool} {a : Addr} {bp : BitVec 32} (fuel : Nat) :
    ∀ cur count failed, count = failed % 2 ^ 32 → (ck = true → failed < 2 ^ 32) →
    (casPfxLoopR (W := W) ck a bp fuel cur count failed).Rets fun r =>
      r.1 = r.2 % 2 ^ 32 ∧ r.2 < failed + fuel ∧ (ck = true → r.2 < 2 ^ 32) := by
  induction fuel with
  | zero => intros; trivial
  | succ n ih =>
    intro cur count failed hc hck
    unfold casPfxLoopR
    refine Rets.seq fun r => ?_
    cases r with
    | none => exact ⟨hc, by simp only; omega, hck⟩
    | some x =>
      simp only
      refine Rets.bind (Q := fun c => c = (failed + 1) % 2 ^ 32 ∧ (ck = true → failed + 1 < 2 ^ 32))
        ?_ fun c hc' => ?_
      · unfold addU32; split
        · trivial
        · rename_i hn
          refine ⟨by show (count + 1) % 2 ^ 32 = _; omega, fun h => ?_⟩
          have h1 := hck h
          by_contra h2
          exact hn ⟨h, by omega⟩
      · have := ih x c (failed + 1) hc'.1 hc'.2
        rwa [Nat.add_right_comm, Nat.add_assoc] at this

/-- What `eval_node_or_prefix_at` yields: the number of failed swaps, at most `F`, and a node only
before the last stride. -/
theorem rets_evalR {ck : Bool} {F : Nat} {a : Addr} {bs : BitSpan} {base : NodeId W} {isLast : Bool} :
    (evalNodeOrPrefixAtR ck F a bs base isLast).Rets fun r =>
      (r.2.1 = r.2.2 % 2 ^ 32 ∧ r.2.2 ≤ F ∧ (ck = true → r.2.2 < 2 ^ 32)) ∧
      match r.1 with
      | .newNode x y => isLast = false ∧ x = 0#16 ∧ y = 0#32
      | .existingNode _ => isLast = false
      | .newPrefix => isLast = true
      | .existingPrefix => isLast = true := by
  unfold evalNodeOrPrefixAtR
  refine Rets.seq fun ptr => Rets.seq fun pfx => Rets.seq fun bp => ?_
  split
  · rename_i hl
    refine Rets.seq fun ptr2 => ?_
    split
    · refine (rets_casPtrLoopR _ _ 0 0 rfl (by simp)).bind fun n hn => ?_
      exact ⟨⟨hn.1, by have := hn.2.1; show n.2 ≤ F; omega, hn.2.2⟩, hl, rfl, rfl⟩
    · exact ⟨⟨rfl, Nat.zero_le _, by simp⟩, hl⟩
  · rename_i hl
    split
    · refine (rets_casPfxLoopR _ _ 0 0 rfl (by simp)).bind fun n hn => ?_
      exact ⟨⟨hn.1, by have := hn.2.1; show n.2 ≤ F; omega, hn.2.2⟩, by simpa using hl⟩
    · exact ⟨⟨rfl, Nat.zero_le _, by simp⟩, by simpa using hl⟩

/-! ## Without the counts: the programs of `Model/Node`, `Model/Tree`, `Model/Rib` -/

theorem casPtrLoopR_erase {a : Addr} {bp : BitVec 32} (fuel : Nat) : ∀ cur count failed,
    (casPtrLoopR (W := W) false a bp fuel cur count failed).mapAns (fun _ => ()) =
      casPtrLoop a bp fuel cur := by
  induction fuel with
  | zero => intros; rfl
  | succ n ih =>
    intro cur count failed
    unfold casPtrLoopR casPtrLoop
    rw [mapAns_bind]
    refine bind_congr' fun r => ?_
    cases r with
    | none => rfl
    | some x =>
      simp only
      rw [addU32_bind_false]
      exact ih _ _ _

theorem casPfxLoopR_erase {a : Addr} {bp : BitVec 32} (fuel : Nat) : ∀ cur count failed,
    (casPfxLoopR (W := W) false a bp fuel cur count failed).mapAns (fun _ => ()) =
      casPfxLoop a bp fuel cur := by
  induction fuel with
  | zero => intros; rfl
  | succ n ih =>
    intro cur count failed
    unfold casPfxLoopR casPfxLoop
    rw [mapAns_bind]
    refine bind_congr' fun r => ?_
    cases r with
    | none => rfl
    | some x =>
      simp only
      rw [addU32_bind_false]
      exact ih _ _ _

theorem evalR_erase {F : Nat} {a : Addr} {bs : BitSpan} {base : NodeId W} {isLast : Bool} :
    (evalNodeOrPrefixAtR false F a bs base isLast).mapAns (fun r => r.1) =
      evalNodeOrPrefixAt F a bs base isLast := by
  unfold evalNodeOrPrefixAtR evalNodeOrPrefixAt
  rw [mapAns_bind]; refine bind_congr' fun ptr => ?_
  rw [mapAns_bind]; refine bind_congr' fun pfx => ?_
  rw [mapAns_bind]; refine bind_congr' fun bp => ?_
  split
  · rw [mapAns_bind]; refine bind_congr' fun ptr2 => ?_
    split
    · rw [mapAns_bind, ← casPtrLoopR_erase _ _ 0 0, bind_mapAns]; rfl
    · rfl
  · split
    · rw [mapAns_bind, ← casPfxLoopR_erase _ _ 0 0, bind_mapAns]; rfl
    · rfl

theorem storeNodeLoopR_erase {F : Nat} {id : NodeId W} {m : Mui} {ptr : BitVec 16} {pfx : BitVec 32}
    (fuel : Nat) : ∀ level nodes,
    (storeNodeLoopR F id m ptr pfx fuel level nodes).mapAns Option.isSome =
      storeNodeLoop F id m ptr pfx fuel level nodes := by
  induction fuel with
  | zero => intros; rfl
  | succ n ih =>
    intro level nodes
    unfold storeNodeLoopR storeNodeLoop
    rw [mapAns_bind]; refine bind_congr' fun index => ?_
    rw [mapAns_bind]; refine bind_congr' fun o => ?_
    cases o with
    | none =>
      simp only
      rw [mapAns_bind]; refine bind_congr' fun nl => ?_
      rw [mapAns_bind]; refine bind_congr' fun r => ?_
      obtain ⟨r1, r2⟩ := r
      simp only
      split
      · rw [mapAns_bind]; refine bind_congr' fun _ => ?_
        rw [mapAns_bind]
        by_cases h1 : r2 = false ∧ ptr ≠ 0#16 <;> by_cases h2 : r2 = false ∧ pfx ≠ 0#32
        · simp only [if_pos h1, if_pos h2, mapAns_bind, bind_assoc']; rfl
        · simp only [if_pos h1, if_neg h2, mapAns_bind, bind_assoc']; rfl
        · simp only [if_neg h1, if_pos h2, mapAns_bind, bind_assoc', ret_bind]; rfl
        · simp only [if_neg h1, if_neg h2, mapAns_bind, bind_assoc', ret_bind]; rfl
      · rfl
    | some st =>
      simp only
      split
      · rw [mapAns_bind]; refine bind_congr' fun _ => ?_
        rw [mapAns_bind]
        by_cases h1 : ptr ≠ 0#16 <;> by_cases h2 : pfx ≠ 0#32
        · simp only [if_pos h1, if_pos h2, mapAns_bind, bind_assoc']; rfl
        · simp only [if_pos h1, if_neg h2, mapAns_bind, bind_assoc']; rfl
        · simp only [if_neg h1, if_pos h2, mapAns_bind, bind_assoc', ret_bind]; rfl
        · simp only [if_neg h1, if_neg h2, mapAns_bind, bind_assoc', ret_bind]; rfl
      · rw [mapAns_bind]; refine bind_congr' fun sz => ?_
        split
        · exact ih _ _
        · rfl

theorem storeNodeR_erase {F : Nat} {id : NodeId W} {m : Mui} {ptr : BitVec 16} {pfx : BitVec 32} :
    (storeNodeR F id m ptr pfx).mapAns Option.isSome = storeNode F id m ptr pfx := by
  unfold storeNodeR storeNode
  rw [mapAns_bind]; refine bind_congr' fun _ => ?_
  rw [mapAns_bind]; refine bind_congr' fun root => ?_
  rw [mapAns_zoom, storeNodeLoopR_erase]

theorem setPrefixExistsLoopR_erase {F : Nat} {p : PrefixId W} {m : Mui} (fuel : Nat) :
    ∀ start cur acc failed,
    (setPrefixExistsLoopR false F p m fuel start cur acc failed).mapAns (Except.map WalkResult.existed) =
      setPrefixExistsLoop F p m fuel start cur := by
  induction fuel with
  | zero => intros; rfl
  | succ n ih =>
    intro start cur acc failed
    unfold setPrefixExistsLoopR setPrefixExistsLoop
    simp only
    split
    · rfl
    · rw [mapAns_bind]; refine bind_congr' fun bs => ?_
      rw [mapAns_bind]; refine bind_congr' fun o => ?_
      cases o with
      | none => rfl
      | some node =>
        simp only
        rw [mapAns_bind, ← evalR_erase, ← mapAns_zoom, bind_mapAns]
        refine bind_congr' fun r => ?_
        obtain ⟨x, k, f⟩ := r
        cases x with
        | newNode ptr pfx =>
          simp only
          rw [mapAns_bind, ← storeNodeR_erase, bind_mapAns]
          refine bind_congr' fun s => ?_
          cases s with
          | none => exact ih _ _ _ _
          | some j =>
            simp only [addU32_bind_false]
            exact ih _ _ _ _
        | existingNode id =>
          simp only [addU32_bind_false]
          exact ih _ _ _ _
        | newPrefix => simp only [addU32_bind_false]; rfl
        | existingPrefix => simp only [addU32_bind_false]; rfl

theorem setPrefixExistsR_erase {F : Nat} {p : PrefixId W} {m : Mui} :
    (setPrefixExistsR false F p m).mapAns (Except.map WalkResult.existed) = setPrefixExists F p m := by
  unfold setPrefixExistsR setPrefixExists
  split
  · rw [mapAns_bind]; refine bind_congr' fun ex => ?_
    rw [mapAns_bind]; refine bind_congr' fun ok => ?_
    cases ok <;> rfl
  · exact setPrefixExistsLoopR_erase _ _ _ _ _

variable [Meta M]

theorem ribUpsertR_erase {st : Strategy} {F : Nat} {p : PrefixId W} {r : Record M}
    {upd : Option (Meta.TBI M)} :
    (ribUpsertR false st F p r upd).mapAns (Except.map CountedReport.report) =
      ribUpsert st F p r upd := by
  unfold ribUpsertR
  split
  · rename_i h
    subst h
    unfold ribUpsert
    simp only
    rw [mapAns_bind, ← setPrefixExistsR_erase, ← mapAns_zoom, bind_mapAns]
    refine bind_congr' fun x => ?_
    cases x with
    | error e => rfl
    | ok c =>
      simp only
      rw [mapAns_bind]
      rfl
  · rw [mapAns_bind]
    conv_rhs => rw [← bind_ret' (ribUpsert st F p r upd)]
    refine bind_congr' fun x => ?_
    cases x <;> rfl

theorem ribInsertR_erase {st : Strategy} {F : Nat} {p : PrefixId W} {r : Record M}
    {upd : Option (Meta.TBI M)} :
    (ribInsertR false st F p r upd).mapAns (Except.map CountedReport.report) =
      ribInsert st F p r upd := by
  unfold ribInsertR ribInsert
  rw [mapAns_bind, ← setPrefixExistsR_erase, ← mapAns_zoom, bind_mapAns]
  refine bind_congr' fun x => ?_
  cases x with
  | error e => rfl
  | ok c =>
    simp only [Except.map]
    rw [mapAns_bind, ← ribUpsertR_erase, bind_mapAns]
    refine bind_congr' fun y => ?_
    cases y with
    | error e => rfl
    | ok u =>
      simp only [Except.map]
      rw [mapAns_bind]
      split
      · refine bind_congr' fun _ => ?_
        split
        · rw [mapAns_bind]; rfl
        · rfl
      · simp only [Prog.ret_bind]
        split
        · rw [mapAns_bind]; rfl
        · rfl

/-! ## The counts of a whole walk -/

omit [Meta M] in
theorem leaves_read {I : σ → Prop} {α : Type} {g : σ → α} {Q : α → Prop} (h : ∀ s, I s → Q (g s)) :
    (Prog.read g).Leaves I Q := fun s hs => h s hs

omit [Meta M] in
/-- The new node is always stored, and no merge is counted. -/
theorem leaves_storeNodeLoopR [hW : Fam W] {F : Nat} {id : NodeId W} (hok : (nodeLayout W).ok id) {m : Mui}
    (fuel : Nat) : ∀ n size, ValidLevel id.len n → hIdx id n < size →
    (storeNodeLoopR F id m 0#16 0#32 fuel n (bucketAt (nodeLayout W) id n size)).Leaves
      (ChainInv (nodeLayout W)) (· = some 0) := by
  induction fuel with
  | zero => intros; trivial
  | succ k ih =>
    intro n size hv hsz
    have hcl := (nodeLayout W).clean _ hok
    unfold storeNodeLoopR
    rw [show hashId id n = some (hIdx id n) from hashId_eq hcl hv]
    show Leaves _ _ ((sliceGet (bucketAt (nodeLayout W) id n size) (hIdx id n)) >>= _)
    refine Leaves.bind (Q := fun o => ∀ r, o = some r → id ≠ r.id → ValidLevel id.len (n + 1) ∧
      r.next = slotsForP2 (lvlBits id.len (n + 1))) ?_ ?_
    · unfold sliceGet
      rw [if_pos (show hIdx id n < (bucketAt (nodeLayout W) id n size).size from hsz)]
      refine leaves_read fun s hs r hr hne => ?_
      rw [bucketAt_slot] at hr
      cases he : s (slotAt (nodeLayout W) id n) with
      | none => rw [he] at hr; cases hr
      | some e =>
        rw [he] at hr; cases hr
        exact nextLevel hs hok hv he fun h => hne h.symm
    · intro o ho
      cases o with
      | none =>
        simp only
        refine Leaves.seq fun nl => Leaves.seq fun r => ?_
        split
        · refine Leaves.seq fun _ => ?_
          simp only [ne_eq, not_true_eq_false, and_false, if_false, ret_bind]
          rfl
        · rfl
      | some st =>
        simp only
        split
        · refine Leaves.seq fun _ => ?_
          simp only [ne_eq, not_true_eq_false, if_false, ret_bind]
          rfl
        · rename_i hne
          obtain ⟨hv', hnx⟩ := ho st rfl hne
          have hb : n < 32 := by
            have h1 := hcl.1
            have h2 := hW.width
            unfold ValidLevel at hv
            omega
          rw [nodesetSize_eq (by omega)]
          have hp : 0 < lvlBits id.len (n + 1) := by
            unfold ValidLevel at hv'; unfold lvlBits; omega
          show Leaves _ _ (if 0 < 4 - (4 * (n + 1 + 1) - id.len) then _ else _)
          rw [if_pos (by unfold lvlBits at hp; omega), bucketAt_child]
          refine ih _ _ hv' ?_
          rw [hnx, slotsForP2, if_neg (by omega)]
          exact hIdx_lt hcl hv'

/-- The chain invariant of the nodes. -/
def NodesOk (t : Tree W) : Prop := ChainInv (E := StoredNode W) (nodeLayout W) t.slots

omit [Meta M] in
theorem leaves_storeNodeR [Fam W] {F : Nat} {id : NodeId W} (hok : (nodeLayout W).ok id) {m : Mui} :
    (storeNodeR F id m 0#16 0#32).Leaves NodesOk (· = some 0) := by
  unfold storeNodeR
  refine Leaves.seq fun _ => ?_
  rw [nodeRoot_eq hok]
  show Leaves NodesOk _ ((storeNodeLoopR F id m 0#16 0#32 maxLevels 0
    (bucketAt (nodeLayout W) id 0 16)).zoom Tree.slotsL)
  refine Leaves.zoom (L := Tree.slotsL) (I' := ChainInv (E := StoredNode W) (nodeLayout W))
    (fun (s : Tree W) (hs : NodesOk s) => hs) ?_
  refine leaves_storeNodeLoopR hok _ _ _ (.inl rfl) ?_
  have := hIdx_lt ((nodeLayout W).clean _ hok) (Or.inl rfl : ValidLevel id.len 0)
  have h2 : 2 ^ lvlBits id.len 0 ≤ 2 ^ 4 := Nat.pow_le_pow_right (by omega) (by unfold lvlBits; omega)
  exact lt_of_lt_of_le this h2

/-- The count after some strides. -/
def doubled : List Nat → Nat
  | [] => 0
  | x :: l => x * 2 ^ l.length + doubled l

theorem doubled_snoc (l : List Nat) (x : Nat) : doubled (l ++ [x]) = 2 * doubled l + x := by
  induction l with
  | nil => simp [doubled]
  | cons y l ih =>
    simp only [List.cons_append, doubled, ih, List.length_append, List.length_singleton, Nat.pow_succ]
    ring

theorem weighted_snoc (l : List Nat) (x : Nat) : weighted (l ++ [x]) = doubled l + x := by
  induction l with
  | nil => simp [weighted, doubled]
  | cons y l ih =>
    simp only [List.cons_append, weighted, doubled, ih, List.length_append, List.length_singleton,
      Nat.add_sub_cancel]
    ring

/-- What a walk yields. -/
def WalkCount (ck : Bool) (F len : Nat) (c : WalkResult) : Prop :=
  c.count = weighted c.failed % 2 ^ 32 ∧ c.failed.length = strides len ∧ (∀ x ∈ c.failed, x ≤ F) ∧
    (ck = true → weighted c.failed < 2 ^ 32)

omit [Meta M] in
theorem leaves_setPrefixExistsLoopR [hW : Fam W] {ck : Bool} {F : Nat} {p : PrefixId W} (hp : p.Clean)
    {m : Mui} (fuel : Nat) : ∀ (start : Nat) (cur : NodeId W) (acc : Nat) (failed : List Nat),
    4 ∣ start → start < p.len → failed.length = start / 4 → (∀ x ∈ failed, x ≤ F) →
    acc = doubled failed % 2 ^ 32 → (ck = true → doubled failed < 2 ^ 32) →
    (setPrefixExistsLoopR ck F p m fuel start cur acc failed).Leaves NodesOk
      (fun r => ∀ c, r = .ok c → WalkCount ck F p.len c) := by
  have hpW := hp.1
  have hw := hW.width
  induction fuel with
  | zero => intros; trivial
  | succ fuel ih =>
    intro start cur acc failed h4 hlt hlen hle hacc hck
    unfold setPrefixExistsLoopR
    split
    · trivial
    generalize hk : (if p.len < start + 4 then 4 + p.len - (start + 4) else 4) = k
    have hk1 : 1 ≤ k ∧ k ≤ 4 ∧ start + k ≤ W ∧ (start + 4 < p.len → k = 4) := by
      rw [← hk]; split <;> omega
    rw [intoBitSpan_eq hk1.1 hk1.2.1 hk1.2.2.1]
    show Leaves _ _ ((retrieveNodeMut cur m).zoom Tree.slotsL >>= _)
    refine Leaves.seq fun o => ?_
    cases o with
    | none => exact fun c hc => by cases hc
    | some node =>
      simp only
      refine Leaves.bind (Rets.leaves (Rets.zoom rets_evalR)) fun r hr => ?_
      obtain ⟨x, n, f⟩ := r
      obtain ⟨⟨hn, hf, hfk⟩, hx⟩ := hr
      simp only at hn hf hfk hx
      have hle' : ∀ x ∈ failed ++ [f], x ≤ F := by
        intro x hx
        rcases List.mem_append.1 hx with h | h
        · exact hle x h
        · rw [List.mem_singleton.1 h]; exact hf
      have hlen' : (failed ++ [f]).length = (start + 4) / 4 := by
        rw [List.length_append, hlen, List.length_singleton]; omega
      have hds := doubled_snoc failed f
      have hws := weighted_snoc failed f
      have add : ∀ {acc'}, acc' = acc → (addU32 ck acc' n : Prog (Tree W) Nat).Leaves NodesOk
          (fun c => c = (doubled failed + f) % 2 ^ 32 ∧ (ck = true → doubled failed + f < 2 ^ 32)) := by
        rintro _ rfl
        refine leaves_addU32 fun h => ⟨by omega, fun hc => ?_⟩
        have h1 := h hc; have h2 := hck hc; have h3 := hfk hc
        omega
      have last : p.len ≤ start + 4 → ∀ b, (addU32 ck acc n >>= fun c =>
          (Prog.ret (.ok ⟨c, failed ++ [f], b⟩) : Prog (Tree W) (Except StoreError WalkResult))).Leaves
            NodesOk (fun r => ∀ c, r = .ok c → WalkCount ck F p.len c) := by
        intro hl b
        refine Leaves.bind (add rfl) fun c hc => ?_
        intro c' hc'
        cases hc'
        refine ⟨by rw [hws]; exact hc.1, ?_, hle', by rw [hws]; exact hc.2⟩
        simp only [hlen', strides]; omega
      have next : start + 4 < p.len → ∀ id y, y = (doubled failed + f) % 2 ^ 32 →
          (ck = true → doubled failed + f < 2 ^ 32) →
          (addU32 ck acc y >>= fun acc' =>
            setPrefixExistsLoopR ck F p m fuel (start + 4) id acc' (failed ++ [f])).Leaves
            NodesOk (fun r => ∀ c, r = .ok c → WalkCount ck F p.len c) := by
        intro hl id y hy hyk
        refine Leaves.bind (leaves_addU32 (Q := fun c => c = doubled (failed ++ [f]) % 2 ^ 32 ∧
          (ck = true → doubled (failed ++ [f]) < 2 ^ 32)) fun h => ?_) fun c hc => ?_
        · rw [hds]
          refine ⟨by omega, fun hc => ?_⟩
          have h1 := h hc; have h2 := hck hc; have h3 := hyk hc
          omega
        · exact ih _ _ _ _ (by omega) hl hlen' hle' hc.1 hc.2
      cases x with
      | newNode ptr pfx =>
        obtain ⟨hl, rfl, rfl⟩ := hx
        have hl' : start + 4 < p.len := by
          have := of_decide_eq_false hl; omega
        simp only
        have hk4 := hk1.2.2.2 hl'
        subst hk4
        have hanc4 : Touch (NodeId.newCleaned p.bits (start + 4)) p :=
          .inl ⟨by simp only [NodeId.newCleaned]; omega, by simp only [NodeId.newCleaned]; omega, rfl⟩
        refine Leaves.bind (leaves_storeNodeR (hanc4.ok hp)) fun s hs => ?_
        subst hs
        simp only
        refine Leaves.bind (leaves_addU32 (Q := fun x => x = acc) fun h => by omega) fun x hx => ?_
        refine Leaves.bind (add hx) fun y hy => ?_
        exact next hl' _ y hy.1 hy.2
      | existingNode id =>
        simp only at hx ⊢
        refine Leaves.bind (add rfl) fun y hy => ?_
        exact next (by have := of_decide_eq_false hx; omega) _ y hy.1 hy.2
      | newPrefix => exact last (of_decide_eq_true hx) _
      | existingPrefix => exact last (of_decide_eq_true hx) _

omit [Meta M] in
theorem leaves_setPrefixExistsR [Fam W] {ck : Bool} {F : Nat} {p : PrefixId W} (hp : p.Clean) {m : Mui} :
    (setPrefixExistsR ck F p m).Leaves NodesOk
      (fun r => ∀ c, r = .ok c → WalkCount ck F p.len c) := by
  unfold setPrefixExistsR
  split
  · rename_i h0
    refine Leaves.seq fun ex => Leaves.seq fun ok => ?_
    cases ok
    · exact fun c hc => by cases hc
    · rintro c hc
      cases hc
      exact ⟨rfl, by simp [strides, h0], by simp, by simp [weighted]⟩
  · exact leaves_setPrefixExistsLoopR hp _ _ _ _ _ (by omega) (by omega) rfl (by simp) rfl
      (by simp [doubled])

/-- What an insert yields. -/
def InsertCount (ck : Bool) (st : Strategy) (F len : Nat) (x : CountedReport) : Prop :=
  x.casCount = (x.failed.map (fun l => weighted l % 2 ^ 32)).sum ∧ x.failed.length = walks st ∧
    ∀ l ∈ x.failed, l.length = strides len ∧ (∀ n ∈ l, n ≤ F) ∧ (ck = true → weighted l < 2 ^ 32)

/-- The state of the store has sound nodes. -/
def RibOk (s : Rib M W) : Prop := NodesOk s.tree

theorem leaves_ribInsertR [Fam W] {ck : Bool} {st : Strategy} {F : Nat} {p : PrefixId W} (hp : p.Clean)
    {r : Record M} {upd : Option (Meta.TBI M)} :
    (ribInsertR ck st F p r upd).Leaves RibOk
      (fun a => ∀ x, a = .ok x → InsertCount ck st F p.len x) := by
  unfold ribInsertR
  refine Leaves.bind (Leaves.zoom (L := Rib.treeL) (fun (s : Rib M W) (hs : RibOk s) => hs)
    (leaves_setPrefixExistsR hp)) fun y hy => ?_
  cases y with
  | error e => exact fun x hx => by cases hx
  | ok c =>
    have hc := hy c rfl
    simp only
    refine Leaves.bind (Q := fun a => ∀ u, a = .ok u →
      u.casCount = (u.failed.map (fun l => weighted l % 2 ^ 32)).sum ∧ u.failed.length + 1 = walks st ∧
      ∀ l ∈ u.failed, l.length = strides p.len ∧ (∀ n ∈ l, n ≤ F) ∧ (ck = true → weighted l < 2 ^ 32))
      ?_ fun z hz => ?_
    · unfold ribUpsertR
      split
      · rename_i hst
        subst hst
        refine Leaves.bind (Leaves.zoom (L := Rib.treeL) (fun (s : Rib M W) (hs : RibOk s) => hs)
          (leaves_setPrefixExistsR hp)) fun y2 hy2 => ?_
        cases y2 with
        | error e => exact fun x hx => by cases hx
        | ok c2 =>
          have hc2 := hy2 c2 rfl
          simp only
          refine Leaves.seq fun _ => ?_
          rintro u hu
          cases hu
          refine ⟨by simp [hc2.1], rfl, fun l hl => ?_⟩
          rw [List.mem_singleton.1 hl]
          exact hc2.2
      · rename_i hst
        refine Leaves.seq fun y2 => ?_
        cases y2 with
        | error e => exact fun x hx => by cases hx
        | ok rep =>
          rintro u hu
          cases hu
          refine ⟨rfl, ?_, fun l hl => by cases hl⟩
          cases st <;> first | rfl | exact absurd rfl hst
    · cases z with
      | error e => exact fun x hx => by cases hx
      | ok u =>
        obtain ⟨h1, h2, h3⟩ := hz u rfl
        have fin : ∀ rep, InsertCount ck st F p.len ⟨rep, u.casCount + c.count, c.failed :: u.failed⟩ := by
          intro rep
          refine ⟨?_, by rw [← h2]; rfl, fun l hl => ?_⟩
          · simp only [List.map_cons, List.sum_cons]
            rw [h1, hc.1, Nat.add_comm]
          · rcases List.mem_cons.1 hl with rfl | hl
            · exact hc.2
            · exact h3 l hl
        simp only
        refine Leaves.seq fun _ => ?_
        split
        · refine Leaves.seq fun _ => ?_
          rintro x hx; cases hx; exact fin _
        · rintro x hx; cases hx; exact fin _

/-! ## Checked additions -/

omit [Meta M] in
theorem casPtrLoopR_checked {a : Addr} {bp : BitVec 32} (fuel : Nat) :
    ∀ cur count failed, count + fuel < 2 ^ 32 →
    casPtrLoopR (W := W) true a bp fuel cur count failed = casPtrLoopR false a bp fuel cur count failed := by
  induction fuel with
  | zero => intros; rfl
  | succ n ih =>
    intro cur count failed h
    unfold casPtrLoopR
    refine bind_congr' fun r => ?_
    cases r with
    | none => rfl
    | some x =>
      simp only
      rw [addU32_ok (by omega), addU32_ok (by omega)]
      exact ih _ _ _ (by omega)

omit [Meta M] in
theorem casPfxLoopR_checked {a : Addr} {bp : BitVec 32} (fuel : Nat) :
    ∀ cur count failed, count + fuel < 2 ^ 32 →
    casPfxLoopR (W := W) true a bp fuel cur count failed = casPfxLoopR false a bp fuel cur count failed := by
  induction fuel with
  | zero => intros; rfl
  | succ n ih =>
    intro cur count failed h
    unfold casPfxLoopR
    refine bind_congr' fun r => ?_
    cases r with
    | none => rfl
    | some x =>
      simp only
      rw [addU32_ok (by omega), addU32_ok (by omega)]
      exact ih _ _ _ (by omega)

omit [Meta M] in
theorem evalR_checked {F : Nat} (hF : F + 1 < 2 ^ 32) {a : Addr} {bs : BitSpan} {base : NodeId W}
    {isLast : Bool} :
    evalNodeOrPrefixAtR true F a bs base isLast = evalNodeOrPrefixAtR false F a bs base isLast := by
  unfold evalNodeOrPrefixAtR
  refine bind_congr' fun ptr => bind_congr' fun pfx => bind_congr' fun bp => ?_
  rw [casPfxLoopR_checked _ _ _ _ (by omega)]
  split
  · refine bind_congr' fun ptr2 => ?_
    rw [casPtrLoopR_checked _ _ _ _ (by omega)]
  · rfl

omit [Meta M] in
theorem rets_storeNodeLoopR {F : Nat} {id : NodeId W} {m : Mui} (fuel : Nat) : ∀ level nodes,
    (storeNodeLoopR F id m 0#16 0#32 fuel level nodes).Rets fun o => ∀ k, o = some k → k = 0 := by
  induction fuel with
  | zero => intros; trivial
  | succ n ih =>
    intro level nodes
    unfold storeNodeLoopR
    refine Rets.seq fun index => Rets.seq fun o => ?_
    cases o with
    | none =>
      simp only
      refine Rets.seq fun nl => Rets.seq fun r => ?_
      split
      · refine Rets.seq fun _ => ?_
        simp only [ne_eq, not_true_eq_false, and_false, if_false, ret_bind]
        rintro k hk; cases hk; rfl
      · rintro k hk; cases hk; rfl
    | some st =>
      simp only
      split
      · refine Rets.seq fun _ => ?_
        simp only [ne_eq, not_true_eq_false, if_false, ret_bind]
        rintro k hk; cases hk; rfl
      · refine Rets.seq fun sz => ?_
        split
        · exact ih _ _
        · rintro k hk; cases hk

omit [Meta M] in
theorem setPrefixExistsLoopR_checked {F : Nat} (hF : F + 1 < 2 ^ 32) {p : PrefixId W} {m : Mui}
    (hb : F * 2 ^ (strides p.len - 1) < 2 ^ 32) (fuel : Nat) :
    ∀ start cur acc failed, 4 ∣ start → start < p.len → acc + F ≤ F * 2 ^ (start / 4) →
    setPrefixExistsLoopR (W := W) true F p m fuel start cur acc failed =
      setPrefixExistsLoopR false F p m fuel start cur acc failed := by
  induction fuel with
  | zero => intros; rfl
  | succ fuel ih =>
    intro start cur acc failed h4 hlt hacc
    unfold setPrefixExistsLoopR
    split
    · rfl
    refine bind_congr' fun bs => bind_congr' fun o => ?_
    cases o with
    | none => rfl
    | some node =>
      simp only
      rw [evalR_checked hF]
      refine Rets.bind_congr (Rets.zoom rets_evalR) fun r hr => ?_
      obtain ⟨x, n, f⟩ := r
      obtain ⟨⟨hn, hf, _⟩, hx⟩ := hr
      simp only at hn hf hx
      have hnF : n ≤ F := by omega
      have hpow : F * 2 ^ (start / 4) ≤ F * 2 ^ (strides p.len - 1) :=
        Nat.mul_le_mul_left _ (Nat.pow_le_pow_right (by omega) (by unfold strides; omega))
      have hstep : (start + 4) / 4 = start / 4 + 1 := by omega
      have h2 : F * 2 ^ ((start + 4) / 4) = 2 * (F * 2 ^ (start / 4)) := by
        rw [hstep, Nat.pow_succ]; ring
      have next : start + 4 < p.len → ∀ id,
          (addU32 true acc (acc + n) >>= fun acc' =>
            setPrefixExistsLoopR true F p m fuel (start + 4) id acc' (failed ++ [f])) =
          (addU32 false acc (acc + n) >>= fun acc' =>
            setPrefixExistsLoopR false F p m fuel (start + 4) id acc' (failed ++ [f])) := by
        intro hl id
        have hpow2 : F * 2 ^ ((start + 4) / 4) ≤ F * 2 ^ (strides p.len - 1) :=
          Nat.mul_le_mul_left _ (Nat.pow_le_pow_right (by omega) (by unfold strides; omega))
        rw [addU32_ok (by omega), addU32_ok (by omega)]
        exact ih _ _ _ _ (by omega) hl (by omega)
      cases x with
      | newNode ptr pfx =>
        obtain ⟨hl, rfl, rfl⟩ := hx
        have hl' : start + 4 < p.len := by
          have := of_decide_eq_false hl; omega
        simp only
        refine Rets.bind_congr (Q := fun o => ∀ k, o = some k → k = 0) ?_ fun s hs => ?_
        · unfold storeNodeR
          exact Rets.seq fun _ => Rets.seq fun _ => Rets.zoom (rets_storeNodeLoopR _ _ _)
        · cases s with
          | none =>
            simp only
            exact ih _ _ _ _ (by omega) hl' (by omega)
          | some k =>
            have := hs k rfl
            subst this
            simp only
            rw [addU32_ok (by omega), addU32_ok (by omega)]
            simp only [ret_bind, Nat.add_zero]
            rw [addU32_ok (by omega), addU32_ok (by omega)]
            exact next hl' _
      | existingNode id =>
        have hl' : start + 4 < p.len := by
          have := of_decide_eq_false hx; omega
        simp only
        rw [addU32_ok (by omega), addU32_ok (by omega)]
        exact next hl' _
      | newPrefix => simp only; rw [addU32_ok (by omega), addU32_ok (by omega)]
      | existingPrefix => simp only; rw [addU32_ok (by omega), addU32_ok (by omega)]

omit [Meta M] in
theorem setPrefixExistsR_checked {F : Nat} (hF : F + 1 < 2 ^ 32) {p : PrefixId W} {m : Mui}
    (hb : F * 2 ^ (strides p.len - 1) < 2 ^ 32) :
    setPrefixExistsR (W := W) true F p m = setPrefixExistsR false F p m := by
  unfold setPrefixExistsR
  split
  · rfl
  · exact setPrefixExistsLoopR_checked hF hb _ _ _ _ _ (by omega) (by omega) (by simp)

theorem ribInsertR_checked {st : Strategy} {F : Nat} (hF : F + 1 < 2 ^ 32) {p : PrefixId W}
    {r : Record M} {upd : Option (Meta.TBI M)} (hb : F * 2 ^ (strides p.len - 1) < 2 ^ 32) :
    ribInsertR (W := W) true st F p r upd = ribInsertR false st F p r upd := by
  unfold ribInsertR ribUpsertR
  rw [setPrefixExistsR_checked hF hb]

/-! ## Alone -/

omit [Meta M] in
theorem run_ok_bind {α β : Type} {p : Prog σ α} {k : α → Prog σ β} {s s' : σ} {b : β}
    (h : (p >>= k).run s = .ok b s') : ∃ a s1, p.run s = .ok a s1 ∧ (k a).run s1 = .ok b s' := by
  rw [run_bind] at h
  cases hp : p.run s with
  | ok a s1 => rw [hp] at h; exact ⟨a, s1, rfl, h⟩
  | panic => rw [hp] at h; cases h
  | diverge => rw [hp] at h; cases h

omit [Meta M] in
theorem run_ok_readAt {ρ : Type} {a : Addr} {g : StoredNode W → ρ} {s s' : NSlots W} {v : ρ}
    (h : (readAt a g).run s = .ok v s') : s' = s ∧ ∃ e, s a = some e ∧ v = g e := by
  unfold readAt at h
  cases he : s a with
  | none =>
    have : (Prog.ofOption ((s a).map g)).run s = .ok v s' := h
    rw [he] at this; cases this
  | some e =>
    have : (Prog.ofOption ((s a).map g)).run s = .ok v s' := h
    rw [he] at this; cases this
    exact ⟨rfl, e, rfl, rfl⟩

omit [Meta M] in
/-- Alone, no swap fails. -/
theorem evalR_alone {ck : Bool} {F : Nat} {a : Addr} {bs : BitSpan} {base : NodeId W} {isLast : Bool}
    {s s' : NSlots W} {x : NewNodeOrIndex W} {n f : Nat}
    (h : (evalNodeOrPrefixAtR ck F a bs base isLast).run s = .ok (x, n, f) s') : n = 0 ∧ f = 0 := by
  unfold evalNodeOrPrefixAtR at h
  obtain ⟨ptr, s1, h1, k1⟩ := run_ok_bind h
  clear h
  obtain ⟨rfl, e, he, rfl⟩ := run_ok_readAt h1
  obtain ⟨pfx, s2, h2, k2⟩ := run_ok_bind k1
  clear k1
  obtain ⟨rfl, e', he', rfl⟩ := run_ok_readAt h2
  rw [he] at he'; cases he'
  obtain ⟨bp, s3, h3, k3⟩ := run_ok_bind k2
  clear k2
  have hs3 : s3 = s2 := by
    cases hb : bs.intoBitPos with
    | none => rw [hb] at h3; cases h3
    | some y => rw [hb] at h3; cases h3; rfl
  subst hs3
  split at k3
  · obtain ⟨ptr2, s4, h4, k4⟩ := run_ok_bind k3
    clear k3
    obtain ⟨rfl, e', he', rfl⟩ := run_ok_readAt h4
    split at k4
    · obtain ⟨c, s5, h5, k5⟩ := run_ok_bind k4
      cases k5
      unfold casPtrLoopR casPtr at h5
      rw [run_bind, run_accessAtN he] at h5
      simp only [if_true, Outcome.andThen] at h5
      cases h5
      exact ⟨rfl, rfl⟩
    · cases k4; exact ⟨rfl, rfl⟩
  · split at k3
    · obtain ⟨c, s5, h5, k5⟩ := run_ok_bind k3
      cases k5
      unfold casPfxLoopR casPfx at h5
      rw [run_bind, run_accessAtN he] at h5
      simp only [if_true, Outcome.andThen] at h5
      cases h5
      exact ⟨rfl, rfl⟩
    · cases k3; exact ⟨rfl, rfl⟩

omit [Meta M] in
theorem Prog.Rets.run {α : Type} {p : Prog σ α} {Q : α → Prop} (h : p.Rets Q) {s s' : σ} {a : α}
    (hr : p.run s = .ok a s') : Q a := by
  induction p generalizing s with
  | ret b => cases hr; exact h
  | act f k ih => exact ih _ (h _) hr
  | panic => cases hr
  | diverge => cases hr

omit [Meta M] in
theorem run_ok_zoom {τ α : Type} {L : Lens σ τ} (hL : L.Lawful) {p : Prog τ α} {s s' : σ} {a : α}
    (h : (p.zoom L).run s = .ok a s') : ∃ t', p.run (L.get s) = .ok a t' := by
  rw [run_zoom hL] at h
  cases hp : p.run (L.get s) with
  | ok b t => rw [hp] at h; cases h; exact ⟨t, rfl⟩
  | panic => rw [hp] at h; cases h
  | diverge => rw [hp] at h; cases h

omit [Meta M] in
theorem run_ok_addU32 {ck : Bool} {a b c : Nat} {s s' : σ} (h : (addU32 ck a b).run s = .ok c s') :
    c = (a + b) % 2 ^ 32 ∧ s' = s := by
  unfold addU32 at h
  split at h
  · cases h
  · cases h; exact ⟨rfl, rfl⟩

omit [Meta M] in
theorem setPrefixExistsLoopR_alone {ck : Bool} {F : Nat} {p : PrefixId W} {m : Mui} (fuel : Nat) :
    ∀ (start : Nat) (cur : NodeId W) (failed : List Nat) (t t' : Tree W) (c : WalkResult),
    (∀ x ∈ failed, x = 0) →
    (setPrefixExistsLoopR ck F p m fuel start cur 0 failed).run t = .ok (.ok c) t' →
    c.count = 0 ∧ ∀ x ∈ c.failed, x = 0 := by
  induction fuel with
  | zero => intro _ _ _ _ _ _ _ h; cases h
  | succ fuel ih =>
    intro start cur failed t t' c hz h
    unfold setPrefixExistsLoopR at h
    split at h
    · cases h
    obtain ⟨bs, t1, _, k1⟩ := run_ok_bind h
    clear h
    obtain ⟨o, t2, _, k2⟩ := run_ok_bind k1
    clear k1
    cases o with
    | none => cases k2
    | some node =>
      obtain ⟨r, t3, h3, k3⟩ := run_ok_bind k2
      clear k2
      obtain ⟨x, n, f⟩ := r
      obtain ⟨_, h3⟩ := run_ok_zoom Tree.slotsL_lawful h3
      obtain ⟨rfl, rfl⟩ := evalR_alone h3
      have hz' : ∀ x ∈ failed ++ [0], x = 0 := by
        intro x hx
        rcases List.mem_append.1 hx with h | h
        · exact hz x h
        · exact List.mem_singleton.1 h
      cases x with
      | newNode ptr pfx =>
        obtain ⟨s, t4, h4, k4⟩ := run_ok_bind k3
        clear k3
        cases s with
        | none => exact ih _ _ _ _ _ _ hz' k4
        | some k =>
          obtain ⟨_, _, rfl, rfl⟩ := rets_evalR.run h3
          have hk : (storeNodeR F (NodeId.newCleaned p.bits (start + bs.len)) m 0#16 0#32).Rets
              fun o => ∀ k, o = some k → k = 0 := by
            unfold storeNodeR
            exact Rets.seq fun _ => Rets.seq fun _ => Rets.zoom (rets_storeNodeLoopR _ _ _)
          have := hk.run h4 k rfl
          subst this
          obtain ⟨y, t4, h5, k5⟩ := run_ok_bind k4
          obtain ⟨rfl, rfl⟩ := run_ok_addU32 h5
          obtain ⟨y, t4, h6, k6⟩ := run_ok_bind k5
          obtain ⟨rfl, rfl⟩ := run_ok_addU32 h6
          obtain ⟨y, t4, h7, k7⟩ := run_ok_bind k6
          obtain ⟨rfl, rfl⟩ := run_ok_addU32 h7
          exact ih _ _ _ _ _ _ hz' k7
      | existingNode id =>
        obtain ⟨y, t4, h4, k4⟩ := run_ok_bind k3
        obtain ⟨rfl, rfl⟩ := run_ok_addU32 h4
        obtain ⟨y, t4, h5, k5⟩ := run_ok_bind k4
        obtain ⟨rfl, rfl⟩ := run_ok_addU32 h5
        exact ih _ _ _ _ _ _ hz' k5
      | newPrefix =>
        obtain ⟨y, t4, h4, k4⟩ := run_ok_bind k3
        obtain ⟨rfl, rfl⟩ := run_ok_addU32 h4
        cases k4
        exact ⟨rfl, hz'⟩
      | existingPrefix =>
        obtain ⟨y, t4, h4, k4⟩ := run_ok_bind k3
        obtain ⟨rfl, rfl⟩ := run_ok_addU32 h4
        cases k4
        exact ⟨rfl, hz'⟩

omit [Meta M] in
theorem setPrefixExistsR_alone {ck : Bool} {F : Nat} {p : PrefixId W} {m : Mui} {t t' : Tree W}
    {c : WalkResult} (h : (setPrefixExistsR ck F p m).run t = .ok (.ok c) t') :
    c.count = 0 ∧ ∀ x ∈ c.failed, x = 0 := by
  unfold setPrefixExistsR at h
  split at h
  · obtain ⟨ex, t1, _, k1⟩ := run_ok_bind h
    obtain ⟨ok, t2, _, k2⟩ := run_ok_bind k1
    cases ok
    · cases k2
    · cases k2; exact ⟨rfl, by simp⟩
  · exact setPrefixExistsLoopR_alone _ _ _ _ _ _ _ (by simp) h

theorem ribInsertR_alone {ck : Bool} {st : Strategy} {F : Nat} {p : PrefixId W} {r : Record M}
    {upd : Option (Meta.TBI M)} {s s' : Rib M W} {x : CountedReport}
    (h : (ribInsertR ck st F p r upd).run s = .ok (.ok x) s') :
    x.casCount = 0 ∧ ∀ l ∈ x.failed, ∀ n ∈ l, n = 0 := by
  unfold ribInsertR at h
  obtain ⟨y, s1, h1, k1⟩ := run_ok_bind h
  clear h
  cases y with
  | error e => cases k1
  | ok c =>
    obtain ⟨_, h1⟩ := run_ok_zoom Rib.treeL_lawful h1
    obtain ⟨hc, hl⟩ := setPrefixExistsR_alone h1
    obtain ⟨z, s2, h2, k2⟩ := run_ok_bind k1
    clear k1
    cases z with
    | error e => cases k2
    | ok u =>
      have hu : u.casCount = 0 ∧ ∀ l ∈ u.failed, ∀ n ∈ l, n = 0 := by
        unfold ribUpsertR at h2
        split at h2
        · obtain ⟨y, s3, h3, k3⟩ := run_ok_bind h2
          cases y with
          | error e => cases k3
          | ok c2 =>
            obtain ⟨_, h3⟩ := run_ok_zoom Rib.treeL_lawful h3
            obtain ⟨hc2, hl2⟩ := setPrefixExistsR_alone h3
            obtain ⟨_, s4, _, k4⟩ := run_ok_bind k3
            cases k4
            refine ⟨hc2, fun l hl => ?_⟩
            rw [List.mem_singleton.1 hl]
            exact hl2
        · obtain ⟨y, s3, h3, k3⟩ := run_ok_bind h2
          cases y with
          | error e => cases k3
          | ok rep => cases k3; exact ⟨rfl, fun l hl => by cases hl⟩
      have fin : u.casCount + c.count = 0 ∧ ∀ l ∈ c.failed :: u.failed, ∀ n ∈ l, n = 0 := by
        refine ⟨by omega, fun l hl' => ?_⟩
        rcases List.mem_cons.1 hl' with rfl | hl'
        · exact hl
        · exact hu.2 l hl'
      obtain ⟨_, s3, _, k3⟩ := run_ok_bind k2
      clear k2
      split at k3
      · obtain ⟨_, s4, _, k4⟩ := run_ok_bind k3
        cases k4; exact fin
      · cases k3; exact fin

/-! ## In concurrent runs -/

section
variable {ι : Type} [DecidableEq ι]

omit [Meta M] in
theorem leaves_exec {A : ι → Type} {I : σ → Prop} {i : ι} {Q : A i → Prop} {c : Conf σ ι A}
    (h : (c.pool i).Leaves I Q) (t : List ι) (hI : ∀ u, u <+: t → I (c.exec u).st) :
    ((c.exec t).pool i).Leaves I Q := by
  induction t generalizing c with
  | nil => exact h
  | cons j t ih =>
    rw [Conf.exec_cons]
    refine ih ?_ fun u hu => ?_
    · by_cases hj : i = j
      · subst hj
        cases hp : c.pool i with
        | act f k =>
          rw [Conf.step_act hp]
          show (Function.update c.pool i (k (f c.st).1) i).Leaves I Q
          rw [Function.update_self]
          rw [hp] at h
          exact h _ (hI [] (List.nil_prefix))
        | ret a => rw [Conf.step_ret hp]; exact h
        | panic => rw [Conf.step_panic hp]; exact h
        | diverge => rw [Conf.step_diverge hp]; exact h
      · rw [Conf.step_other _ hj]; exact h
    · exact hI (j :: u) (List.cons_prefix_cons.2 ⟨rfl, hu⟩)

variable {calls : ι → Call M W}

theorem countedProg_erase (st : Strategy) (F fuel : Nat) (x : Call M W) :
    (x.countedProg false st F fuel).mapAns x.uncount = x.prog st F fuel := by
  cases x <;> first | exact ribInsertR_erase | exact mapAns_id _

theorem uncounted_step (c : Conf (Rib M W) ι (fun i => (calls i).CountedAns)) (i : ι) :
    uncounted (c.step i) = (uncounted c).step i := by
  cases hp : c.pool i with
  | act f k =>
    have hp' : (uncounted c).pool i = .act f (fun r => (k r).mapAns (calls i).uncount) := by
      show (c.pool i).mapAns _ = _
      rw [hp]; rfl
    rw [Conf.step_act hp, Conf.step_act hp']
    unfold uncounted
    simp only
    congr 1
    funext j
    by_cases hj : j = i
    · subst hj; rw [Function.update_self, Function.update_self]
    · rw [Function.update_of_ne hj, Function.update_of_ne hj]
  | ret a =>
    have hp' : (uncounted c).pool i = .ret ((calls i).uncount a) := by
      show (c.pool i).mapAns _ = _
      rw [hp]; rfl
    rw [Conf.step_ret hp, Conf.step_ret hp']
  | panic =>
    have hp' : (uncounted c).pool i = .panic := by
      show (c.pool i).mapAns _ = _
      rw [hp]; rfl
    rw [Conf.step_panic hp, Conf.step_panic hp']
  | diverge =>
    have hp' : (uncounted c).pool i = .diverge := by
      show (c.pool i).mapAns _ = _
      rw [hp]; rfl
    rw [Conf.step_diverge hp, Conf.step_diverge hp']

theorem uncounted_exec (c : Conf (Rib M W) ι (fun i => (calls i).CountedAns)) (t : List ι) :
    uncounted (c.exec t) = (uncounted c).exec t := by
  induction t generalizing c with
  | nil => rfl
  | cons i t ih => rw [Conf.exec_cons, Conf.exec_cons, ih, uncounted_step]

theorem uncounted_start (st : Strategy) (F fuel : Nat) (s : Rib M W) :
    uncounted (countedStart false st F fuel s calls) = start st F fuel s calls := by
  unfold uncounted countedStart start
  simp only
  congr 1
  funext i
  exact countedProg_erase _ _ _ _

end

end Rotonda
