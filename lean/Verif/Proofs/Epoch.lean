import Verif.Spec.Epoch
import Verif.Proofs.OnceBoxRefine

/-!
# Concurrent use of one epoch-managed pointer

The control points of the calls are named (`EPc`).  The ghost `log` lists the addresses
that were ever in the pointer, oldest first: the position in it is the version number.
-/

namespace Rotonda

open Prog EpochHeap

variable {τ V ι : Type} [DecidableEq τ] [DecidableEq ι] {A : EpochAlloc τ V} {t0 : τ}

/-- Where a call is.  `p` is the pointer it loaded, `n` its version number, `x` its own
block, `k` the fuel left; the last argument of `done` tells whether the call swapped the
pointer. -/
inductive EPc (τ V : Type)
  | start (c : CellCall τ V)
  | readD (p : Nat) (v : V)
  | modD (F : Nat) (f : V → V) (p : Nat × τ) (n : Nat) (v : V)
  | modNew (p : Nat × τ) (n k : Nat) (new : V)
  | modCas (p : Nat × τ) (n k : Nat) (new : V) (x : Nat)
  | modRead (p : Nat × τ) (n k x q : Nat) (v : V)
  | modFree (p : Nat × τ) (n k x : Nat) (v : V)
  | setD (same : V → Bool) (w : V) (p : Nat × τ) (n : Nat) (v : V)
  | setNew (w : V) (p : Nat × τ) (n : Nat)
  | setCas (w : V) (p : Nat × τ) (n x : Nat)
  | setFree (x : Nat)
  | done (a : CellAns τ V) (swapped : Bool)
  | lost

namespace EPc

/-- The rest of a changing loop. -/
def loopProg (A : EpochAlloc τ V) (t0 : τ) (p : Nat × τ) (k : Nat) (new : V) :
    Prog (EpochHeap τ V) (CellAns τ V) := heapLoop A t0 p k new >>= fun _ => Prog.ret .ok

/-- The rest of the program at a control point. -/
def prog (A : EpochAlloc τ V) (t0 : τ) : EPc τ V → Prog (EpochHeap τ V) (CellAns τ V)
  | start c => c.heapProg A t0
  | readD p _ => blockGet p >>= fun v => Prog.ret (.val v)
  | modD F f p _ _ => blockGet p.1 >>= fun v => loopProg A t0 p (F + 1) (f v)
  | modNew p _ k new => loopProg A t0 p (k + 1) new
  | modCas p _ k _ x => ptrSwap p x t0 >>= fun
    | none => Prog.ret .ok
    | some q => blockGet q >>= fun found => blockFree x >>= fun _ => loopProg A t0 p k found
  | modRead p _ k x q _ => blockGet q >>= fun found => blockFree x >>= fun _ => loopProg A t0 p k found
  | modFree p _ k x v => blockFree x >>= fun _ => loopProg A t0 p k v
  | setD same w p _ _ => blockGet p.1 >>= fun v => if same v then Prog.ret .ok else
    blockNew A w >>= fun x => ptrSwap p x t0 >>= fun
    | none => Prog.ret .ok
    | some _ => blockFree x >>= fun _ => Prog.ret .refused
  | setNew w p _ => blockNew A w >>= fun x => ptrSwap p x t0 >>= fun
    | none => Prog.ret .ok
    | some _ => blockFree x >>= fun _ => Prog.ret .refused
  | setCas _ p _ x => ptrSwap p x t0 >>= fun
    | none => Prog.ret .ok
    | some _ => blockFree x >>= fun _ => Prog.ret .refused
  | setFree x => blockFree x >>= fun _ => Prog.ret .refused
  | done a _ => Prog.ret a
  | lost => Prog.diverge

/-- The swap of `verSet`. -/
def verSwap (t0 : τ) (w : V) (cur : Nat × τ) : Prog (VerCell τ V) (CellAns τ V) :=
  Prog.atomic fun c : VerCell τ V =>
    if c.ver = cur.1 ∧ c.tag = cur.2 then (.ok, ⟨c.ver + 1, t0, w⟩) else (.refused, c)

/-- The rest of the program on version numbers. -/
def verProg (t0 : τ) : EPc τ V → Prog (VerCell τ V) (CellAns τ V)
  | start c => c.verProg t0
  | readD _ v => Prog.ret (.val v)
  | modD F f p n v => verLoop t0 (n, p.2) (F + 1) (f v) >>= fun _ => Prog.ret .ok
  | modNew p n k new | modCas p n k new _ => verLoop t0 (n, p.2) (k + 1) new >>= fun _ => Prog.ret .ok
  | modRead p n k _ _ v | modFree p n k _ v => verLoop t0 (n, p.2) k v >>= fun _ => Prog.ret .ok
  | setD same w p n v => if same v then Prog.ret .ok else verSwap t0 w (n, p.2)
  | setNew w p n | setCas w p n _ => verSwap t0 w (n, p.2)
  | setFree _ => Prog.ret .refused
  | done a _ => Prog.ret a
  | lost => Prog.diverge

/-- The block a call has allocated and not yet given away or freed. -/
def own : EPc τ V → Option Nat
  | modCas _ _ _ _ x | modRead _ _ _ x _ _ | modFree _ _ _ x _ | setCas _ _ _ x | setFree x => some x
  | _ => none

/-- What a call knows about the heap. -/
def Ok (h : EpochHeap τ V) (log : List Nat) : EPc τ V → Prop
  | readD p v => p ∈ log ∧ h.blocks p = some v
  | modD _ _ p n v => log[n]? = some p.1 ∧ h.blocks p.1 = some v
  | modNew p n _ _ => log[n]? = some p.1
  | modCas p n _ new x => log[n]? = some p.1 ∧ h.blocks x = some new
  | modRead p n _ _ q v => log[n]? = some p.1 ∧ q ∈ log ∧ h.blocks q = some v
  | modFree p n _ _ _ => log[n]? = some p.1
  | setD _ _ p n v => log[n]? = some p.1 ∧ h.blocks p.1 = some v
  | setNew _ p n => log[n]? = some p.1
  | setCas w p n x => log[n]? = some p.1 ∧ h.blocks x = some w
  | _ => True

/-- Which call a control point belongs to. -/
def Of : CellCall τ V → EPc τ V → Prop
  | c, start c' => c' = c
  | .read, readD _ _ | .modify _ _, modD _ _ _ _ _ | .modify _ _, modNew _ _ _ _
  | .modify _ _, modCas _ _ _ _ _ | .modify _ _, modRead _ _ _ _ _ _ | .modify _ _, modFree _ _ _ _ _
  | .modify _ _, lost | .set _ _, setD _ _ _ _ _ | .set _ _, setNew _ _ _ | .set _ _, setCas _ _ _ _
  | .set _ _, setFree _ => True
  | .modify _ _, done _ s => s = true
  | .set _ _, done a s => s = true → a = .ok
  | .read, done _ s | .tag, done _ s | .mark _, done _ s => s = false
  | _, _ => False

end EPc

/-- The invariant over heap, log, control points and the cell with version numbers. -/
structure EInv (calls : ι → CellCall τ V) (h : EpochHeap τ V) (log : List Nat) (who : List ι)
    (pcs : ι → EPc τ V) (c : VerCell τ V) : Prop where
  nodup : log.Nodup
  len : log.length = c.ver + 1
  last : log[c.ver]? = some h.ptr
  tag : c.tag = h.tag
  val : h.blocks h.ptr = some c.val
  kept : ∀ p ∈ log, ∃ v, h.blocks p = some v
  top : ∀ x v, h.blocks x = some v → x < h.top
  ok : ∀ i, (pcs i).Ok h log
  of : ∀ i, (pcs i).Of (calls i)
  own : ∀ i x, (pcs i).own = some x → (∃ v, h.blocks x = some v) ∧ x ∉ log
  ownInj : ∀ i j x, (pcs i).own = some x → (pcs j).own = some x → i = j
  live : ∀ x v, h.blocks x = some v → x ∈ log ∨ ∃ i, (pcs i).own = some x
  whoNodup : who.Nodup
  whoLen : who.length = c.ver
  whoIff : ∀ i, i ∈ who ↔ ∃ a, pcs i = .done a true

theorem EpochHeap.addr_free {h : EpochHeap τ V} (htop : ∀ x v, h.blocks x = some v → x < h.top) :
    h.blocks (h.addr A) = none := by
  unfold EpochHeap.addr
  split
  · rename_i e; simpa using e
  · cases hx : h.blocks h.top with
    | none => rfl
    | some v => exact absurd (htop _ _ hx) (lt_irrefl _)

/-- What a call knows stays true as long as no block in the log or of its own changes. -/
theorem EPc.Ok.mono {h h' : EpochHeap τ V} {log log' : List Nat} {pc : EPc τ V} (hk : pc.Ok h log)
    (hlog : log <+: log') (hb : ∀ p ∈ log, h'.blocks p = h.blocks p)
    (ho : ∀ x, pc.own = some x → h'.blocks x = h.blocks x) : pc.Ok h' log' := by
  have hget : ∀ {n p : Nat}, log[n]? = some p → log'[n]? = some p := by
    intro n p hn
    obtain ⟨l, rfl⟩ := hlog
    rw [List.getElem?_append_left (List.getElem?_eq_some_iff.1 hn).1]; exact hn
  have hmem : ∀ {n p : Nat}, log[n]? = some p → p ∈ log := fun hn => List.mem_of_getElem? hn
  cases pc with
  | readD p v => exact ⟨hlog.subset hk.1, by rw [hb p hk.1]; exact hk.2⟩
  | modD F f p n v => exact ⟨hget hk.1, by rw [hb _ (hmem hk.1)]; exact hk.2⟩
  | modNew p n k new => exact hget hk
  | modCas p n k new x => exact ⟨hget hk.1, by rw [ho x rfl]; exact hk.2⟩
  | modRead p n k x q v => exact ⟨hget hk.1, hlog.subset hk.2.1, by rw [hb q hk.2.1]; exact hk.2.2⟩
  | modFree p n k x v => exact hget hk
  | setD same w p n v => exact ⟨hget hk.1, by rw [hb _ (hmem hk.1)]; exact hk.2⟩
  | setNew w p n => exact hget hk
  | setCas w p n x => exact ⟨hget hk.1, by rw [ho x rfl]; exact hk.2⟩
  | _ => trivial

/-! ## Steps that keep the invariant -/

section steps
variable {calls : ι → CellCall τ V} {h : EpochHeap τ V} {log : List Nat} {who : List ι}
  {pcs : ι → EPc τ V} {c : VerCell τ V}

theorem EPc.update_cases {P : EPc τ V → Prop} {i : ι} {pc' : EPc τ V} (h1 : P pc')
    (h2 : ∀ j, j ≠ i → P (pcs j)) (j : ι) : P (Function.update pcs i pc' j) := by
  rw [Function.update_apply]
  split
  · exact h1
  · rename_i e; exact h2 j e

theorem EPc.whoIff_same {i : ι} {pc' : EPc τ V} (hw : ∀ i, i ∈ who ↔ ∃ a, pcs i = .done a true)
    (h1 : ∀ a, pcs i ≠ .done a true) (h2 : ∀ a, pc' ≠ .done a true) (j : ι) :
    j ∈ who ↔ ∃ a, Function.update pcs i pc' j = .done a true := by
  rw [hw j, Function.update_apply]
  split
  · rename_i e; subst e
    exact ⟨fun ⟨a, ha⟩ => absurd ha (h1 a), fun ⟨a, ha⟩ => absurd ha (h2 a)⟩
  · exact Iff.rfl

/-- The heap stays as it is, except maybe for the tag. -/
theorem EInv.idle (hi : EInv calls h log who pcs c) (t : τ) {i : ι} {pc' : EPc τ V}
    (hok : pc'.Ok h log) (hof : pc'.Of (calls i)) (hown : pc'.own = (pcs i).own)
    (h1 : ∀ a, pcs i ≠ .done a true) (h2 : ∀ a, pc' ≠ .done a true) :
    EInv calls { h with tag := t } log who (Function.update pcs i pc') { c with tag := t } := by
  have hsame : ∀ j, (Function.update pcs i pc' j).own = (pcs j).own := by
    intro j
    rw [Function.update_apply]
    split
    · rename_i e; subst e; exact hown
    · rfl
  refine ⟨hi.nodup, hi.len, hi.last, rfl, hi.val, hi.kept, hi.top, fun j => ?_, fun j => ?_,
    fun j x hx => hi.own j x (by rw [← hsame]; exact hx),
    fun j k x hj hk => hi.ownInj j k x (by rw [← hsame]; exact hj) (by rw [← hsame]; exact hk),
    fun x v hx => ?_, hi.whoNodup, hi.whoLen, EPc.whoIff_same hi.whoIff h1 h2⟩
  · refine EPc.update_cases (P := fun pc => pc.Ok { h with tag := t } log)
      (hok.mono (List.prefix_refl _) (fun _ _ => rfl) fun _ _ => rfl)
      (fun j _ => (hi.ok j).mono (List.prefix_refl _) (fun _ _ => rfl) fun _ _ => rfl) j
  · rw [Function.update_apply]
    split
    · rename_i e; subst e; exact hof
    · exact hi.of j
  · rcases hi.live x v hx with e | ⟨j, hj⟩
    · exact .inl e
    · exact .inr ⟨j, by rw [hsame]; exact hj⟩

/-- A call allocates a block. -/
theorem EInv.alloc (hi : EInv calls h log who pcs c) {i : ι} {pc' : EPc τ V} {v : V}
    (hok : pc'.Ok { h.setBlock (h.addr A) (some v) with top := max h.top (h.addr A + 1) } log)
    (hof : pc'.Of (calls i)) (hown : (pcs i).own = none) (hown' : pc'.own = some (h.addr A))
    (h1 : ∀ a, pcs i ≠ .done a true) :
    EInv calls { h.setBlock (h.addr A) (some v) with top := max h.top (h.addr A + 1) } log who
      (Function.update pcs i pc') c := by
  have hfree := EpochHeap.addr_free (A := A) hi.top
  have hne : ∀ x w, h.blocks x = some w → x ≠ h.addr A := by
    rintro x w hx rfl; rw [hfree] at hx; cases hx
  have hbl : ∀ x w, h.blocks x = some w →
      (h.setBlock (h.addr A) (some v)).blocks x = h.blocks x := by
    intro x w hx; simp only [setBlock, if_neg (hne x w hx)]
  have hlog : ∀ p ∈ log, (h.setBlock (h.addr A) (some v)).blocks p = h.blocks p := by
    intro p hp; obtain ⟨w, hw⟩ := hi.kept p hp; exact hbl p w hw
  have hat : ∀ j x, (Function.update pcs i pc' j).own = some x →
      (j = i ∧ x = h.addr A) ∨ (j ≠ i ∧ (pcs j).own = some x) := by
    intro j x hx
    rw [Function.update_apply] at hx
    split at hx
    · rename_i e; rw [hown'] at hx; exact .inl ⟨e, (Option.some.inj hx).symm⟩
    · rename_i e; exact .inr ⟨e, hx⟩
  refine ⟨hi.nodup, hi.len, hi.last, hi.tag, (hbl _ _ hi.val).trans hi.val, fun p hp => ?_, fun x w hx => ?_,
    fun j => ?_, fun j => ?_, fun j x hx => ?_, fun j k x hj hk => ?_, fun x w hx => ?_,
    hi.whoNodup, hi.whoLen, EPc.whoIff_same hi.whoIff h1 fun a e => by rw [e] at hown'; cases hown'⟩
  · obtain ⟨w, hw⟩ := hi.kept p hp
    exact ⟨w, (hlog p hp).trans hw⟩
  · simp only [setBlock] at hx ⊢
    split at hx
    · rename_i e; subst e; omega
    · have := hi.top x w hx; omega
  · refine EPc.update_cases (P := fun pc => pc.Ok _ log) hok
      (fun j _ => (hi.ok j).mono (List.prefix_refl _) hlog fun x hx => ?_) j
    obtain ⟨⟨w, hw⟩, _⟩ := hi.own j x hx
    exact hbl x w hw
  · rw [Function.update_apply]
    split
    · rename_i e; subst e; exact hof
    · exact hi.of j
  · rcases hat j x hx with ⟨_, rfl⟩ | ⟨_, hx⟩
    · refine ⟨⟨v, by simp [setBlock]⟩, fun hm => ?_⟩
      obtain ⟨w, hw⟩ := hi.kept _ hm
      exact hne _ _ hw rfl
    · obtain ⟨⟨w, hw⟩, hm⟩ := hi.own j x hx
      exact ⟨⟨w, (hbl x w hw).trans hw⟩, hm⟩
  · rcases hat j x hj with ⟨j1, j2⟩ | ⟨_, hj'⟩ <;> rcases hat k x hk with ⟨k1, k2⟩ | ⟨_, hk'⟩
    · rw [j1, k1]
    · obtain ⟨⟨w, hw⟩, _⟩ := hi.own k _ hk'; exact absurd j2 (hne _ _ hw)
    · obtain ⟨⟨w, hw⟩, _⟩ := hi.own j _ hj'; exact absurd k2 (hne _ _ hw)
    · exact hi.ownInj j k x hj' hk'
  · by_cases e : x = h.addr A
    · exact .inr ⟨i, by rw [Function.update_self, hown', e]⟩
    · simp only [setBlock, if_neg e] at hx
      rcases hi.live x w hx with e' | ⟨j, hj⟩
      · exact .inl e'
      · refine .inr ⟨j, ?_⟩
        rw [Function.update_of_ne]
        · exact hj
        · rintro rfl; rw [hown] at hj; cases hj

/-- A call frees its block. -/
theorem EInv.free (hi : EInv calls h log who pcs c) {i : ι} {pc' : EPc τ V} {x : Nat}
    (hok : pc'.Ok h log) (hof : pc'.Of (calls i)) (hown : (pcs i).own = some x)
    (hown' : pc'.own = none) (h2 : ∀ a, pc' ≠ .done a true) :
    EInv calls (h.setBlock x none) log who (Function.update pcs i pc') c := by
  obtain ⟨⟨u, hu⟩, hxlog⟩ := hi.own i x hown
  have hbl : ∀ y, y ≠ x → (h.setBlock x none).blocks y = h.blocks y := by
    intro y hy; simp only [setBlock, if_neg hy]
  have hlog : ∀ p ∈ log, (h.setBlock x none).blocks p = h.blocks p := by
    rintro p hp; exact hbl p (by rintro rfl; exact hxlog hp)
  have hat : ∀ j y, (Function.update pcs i pc' j).own = some y → j ≠ i ∧ (pcs j).own = some y := by
    intro j y hy
    rw [Function.update_apply] at hy
    split at hy
    · rw [hown'] at hy; cases hy
    · rename_i e; exact ⟨e, hy⟩
  have hother : ∀ j y, j ≠ i → (pcs j).own = some y → y ≠ x := by
    rintro j y hj hy rfl; exact hj (hi.ownInj j i _ hy hown)
  have hptr : h.ptr ∈ log := List.mem_of_getElem? hi.last
  refine ⟨hi.nodup, hi.len, hi.last, hi.tag, (hlog _ hptr).trans hi.val, fun p hp => ?_, fun y w hy => ?_,
    fun j => ?_, fun j => ?_, fun j y hy => ?_, fun j k y hj hk => ?_, fun y w hy => ?_,
    hi.whoNodup, hi.whoLen, EPc.whoIff_same hi.whoIff (fun a e => by rw [e] at hown; cases hown) h2⟩
  · obtain ⟨w, hw⟩ := hi.kept p hp
    exact ⟨w, (hlog p hp).trans hw⟩
  · simp only [setBlock] at hy
    split at hy
    · cases hy
    · exact hi.top y w hy
  · rw [Function.update_apply]
    split
    · exact hok.mono (List.prefix_refl _) hlog fun y hy => by rw [hown'] at hy; cases hy
    · rename_i e
      exact (hi.ok j).mono (List.prefix_refl _) hlog fun y hy => hbl y (hother j y e hy)
  · rw [Function.update_apply]
    split
    · rename_i e; subst e; exact hof
    · exact hi.of j
  · obtain ⟨hj, hy'⟩ := hat j y hy
    obtain ⟨⟨w, hw⟩, hm⟩ := hi.own j y hy'
    exact ⟨⟨w, (hbl y (hother j y hj hy')).trans hw⟩, hm⟩
  · exact hi.ownInj j k y (hat j y hj).2 (hat k y hk).2
  · simp only [setBlock] at hy
    split at hy
    · cases hy
    · rename_i e
      rcases hi.live y w hy with e' | ⟨j, hj⟩
      · exact .inl e'
      · refine .inr ⟨j, ?_⟩
        rw [Function.update_of_ne]
        · exact hj
        · rintro rfl; rw [hown] at hj; exact e (Option.some.inj hj).symm

/-- A call swaps its block in. -/
theorem EInv.swap (hi : EInv calls h log who pcs c) {i : ι} {a : CellAns τ V} {x : Nat} {v : V}
    (hof : (EPc.done a true).Of (calls i)) (hown : (pcs i).own = some x) (hx : h.blocks x = some v) :
    EInv calls { h with ptr := x, tag := t0 } (log ++ [x]) (who ++ [i])
      (Function.update pcs i (.done a true)) ⟨c.ver + 1, t0, v⟩ := by
  obtain ⟨_, hxlog⟩ := hi.own i x hown
  have hni : i ∉ who := fun hm => by
    obtain ⟨b, hb⟩ := (hi.whoIff i).1 hm; rw [hb] at hown; cases hown
  have hat : ∀ j y, (Function.update pcs i (.done a true) j).own = some y → j ≠ i ∧ (pcs j).own = some y := by
    intro j y hy
    rw [Function.update_apply] at hy
    split at hy
    · cases hy
    · rename_i e; exact ⟨e, hy⟩
  refine ⟨?_, ?_, ?_, rfl, hx, fun p hp => ?_, hi.top, fun j => ?_, fun j => ?_, fun j y hy => ?_,
    fun j k y hj hk => hi.ownInj j k y (hat j y hj).2 (hat k y hk).2, fun y w hy => ?_, ?_, ?_, fun j => ?_⟩
  · rw [List.nodup_append]
    exact ⟨hi.nodup, by simp, fun p hp q hq => by
      rw [List.mem_singleton] at hq; subst hq; rintro rfl; exact hxlog hp⟩
  · simp [hi.len]
  · rw [← hi.len]; simp
  · rw [List.mem_append, List.mem_singleton] at hp
    rcases hp with hp | rfl
    · exact hi.kept p hp
    · exact ⟨v, hx⟩
  · refine EPc.update_cases (P := fun pc => pc.Ok { h with ptr := x, tag := t0 } (log ++ [x]))
      (pc' := .done a true) trivial
      (fun j _ => (hi.ok j).mono (List.prefix_append _ _) (fun _ _ => rfl) fun _ _ => rfl) j
  · rw [Function.update_apply]
    split
    · rename_i e; subst e; exact hof
    · exact hi.of j
  · obtain ⟨hj, hy'⟩ := hat j y hy
    obtain ⟨hw, hm⟩ := hi.own j y hy'
    refine ⟨hw, ?_⟩
    rw [List.mem_append, List.mem_singleton, not_or]
    exact ⟨hm, by rintro rfl; exact hj (hi.ownInj j i _ hy' hown)⟩
  · rcases hi.live y w hy with e | ⟨j, hj⟩
    · exact .inl (List.mem_append_left _ e)
    · by_cases e : j = i
      · subst e; rw [hown] at hj; rw [← Option.some.inj hj]; exact .inl (by simp)
      · exact .inr ⟨j, by rw [Function.update_of_ne e]; exact hj⟩
  · rw [List.nodup_append]
    exact ⟨hi.whoNodup, by simp, fun p hp q hq => by
      rw [List.mem_singleton] at hq; subst hq; rintro rfl; exact hni hp⟩
  · simp [hi.whoLen]
  · rw [List.mem_append, List.mem_singleton, hi.whoIff j, Function.update_apply]
    split
    · rename_i e; subst e; exact ⟨fun _ => ⟨a, rfl⟩, fun _ => .inr rfl⟩
    · rename_i e; simp [e]

/-! ## Every step -/

theorem step1_blockGet {α : Type} {x : Nat} {v : V} (k : V → Prog (EpochHeap τ V) α)
    (hx : h.blocks x = some v) : (blockGet x >>= k).step1 h = (h, k v) := by
  simp only [blockGet, Prog.read, bind_assoc', act_bind, ret_bind, step1_act, hx]
  rfl

theorem step1_blockNew {α : Type} {v : V} (k : Nat → Prog (EpochHeap τ V) α) :
    (blockNew A v >>= k).step1 h =
      ({ h.setBlock (h.addr A) (some v) with top := max h.top (h.addr A + 1) }, k (h.addr A)) := rfl

theorem step1_blockFree {α : Type} {x : Nat} {v : V} (k : Unit → Prog (EpochHeap τ V) α)
    (hx : h.blocks x = some v) : (blockFree x >>= k).step1 h = (h.setBlock x none, k ()) := by
  simp only [blockFree, Prog.atomic, bind_assoc', act_bind, ret_bind, step1_act, hx]
  rfl

theorem step1_ptrSwap {α : Type} {cur : Nat × τ} {x : Nat} (k : Option Nat → Prog (EpochHeap τ V) α) :
    (ptrSwap cur x t0 >>= k).step1 h =
      if h.ptr = cur.1 ∧ h.tag = cur.2 then ({ h with ptr := x, tag := t0 }, k none)
      else (h, k (some h.ptr)) := by
  simp only [ptrSwap, Prog.atomic, act_bind, ret_bind, step1_act]
  split <;> rfl

theorem loopProg_succ (p : Nat × τ) (k : Nat) (new : V) :
    EPc.loopProg A t0 p (k + 1) new = blockNew A new >>= fun x => ptrSwap p x t0 >>= fun
    | none => Prog.ret .ok
    | some q => blockGet q >>= fun found => blockFree x >>= fun _ => EPc.loopProg A t0 p k found := by
  unfold EPc.loopProg
  rw [heapLoop, bind_assoc']
  congr 1
  funext x
  rw [bind_assoc']
  congr 1
  funext r
  cases r with
  | none => rfl
  | some q => simp only [bind_assoc']

theorem verLoop_succ (cur : Nat × τ) (k : Nat) (new : V) :
    (verLoop t0 cur (k + 1) new >>= fun _ => Prog.ret (CellAns.ok (τ := τ) (V := V))) =
    Prog.act (fun c : VerCell τ V =>
      if c.ver = cur.1 ∧ c.tag = cur.2 then (none, ⟨c.ver + 1, t0, new⟩) else (some c.val, c)) fun
    | none => Prog.ret .ok
    | some found => verLoop t0 cur k found >>= fun _ => Prog.ret .ok := by
  rw [verLoop, Prog.atomic, bind_assoc', act_bind]
  congr 1
  funext r
  cases r <;> rfl

/-- Pointer and version number are the same as the ones loaded at the same time. -/
theorem EInv.same_iff (hi : EInv calls h log who pcs c) {p : Nat × τ} {n : Nat} (hn : log[n]? = some p.1) :
    (h.ptr = p.1 ∧ h.tag = p.2) ↔ (c.ver = n ∧ c.tag = p.2) := by
  rw [hi.tag]
  refine and_congr_left fun _ => ⟨fun e => ?_, fun e => ?_⟩
  · have hl := hi.last
    rw [e, ← hn] at hl
    exact (List.getElem?_inj (by rw [hi.len]; exact Nat.lt_succ_self _) hi.nodup).1 hl
  · have hl := hi.last
    rw [e, hn] at hl
    exact (Option.some.inj hl).symm

/-- What one step of a call does. -/
def EStep (A : EpochAlloc τ V) (t0 : τ) (calls : ι → CellCall τ V) (h : EpochHeap τ V) (log : List Nat)
    (pcs : ι → EPc τ V) (c : VerCell τ V) (i : ι) : Prop :=
  ∃ h' pc' log' who' c', ((pcs i).prog A t0).step1 h = (h', pc'.prog A t0) ∧
    ((c' = c ∧ pc'.verProg t0 = (pcs i).verProg t0) ∨
      ((pcs i).verProg t0).step1 c = (c', pc'.verProg t0)) ∧
    EInv calls h' log' who' (Function.update pcs i pc') c' ∧ log <+: log' ∧
    ∀ p ∈ log, h'.blocks p = h.blocks p

theorem EInv.same (hi : EInv calls h log who pcs c) {i : ι} {pc' : EPc τ V}
    (hok : pc'.Ok h log) (hof : pc'.Of (calls i)) (hown : pc'.own = (pcs i).own)
    (h1 : ∀ a, pcs i ≠ .done a true) (h2 : ∀ a, pc' ≠ .done a true) :
    EInv calls h log who (Function.update pcs i pc') c := by
  have := hi.idle h.tag hok hof hown h1 h2
  have e : ({ c with tag := h.tag } : VerCell τ V) = c := by rw [← hi.tag]
  rw [e] at this
  exact this

theorem EInv.kept_alloc (hi : EInv calls h log who pcs c) {v : V} :
    ∀ p ∈ log, ({ h.setBlock (h.addr A) (some v) with top := max h.top (h.addr A + 1) } : EpochHeap τ V).blocks p
      = h.blocks p := by
  intro p hp
  obtain ⟨w, hw⟩ := hi.kept p hp
  have : p ≠ h.addr A := by
    rintro rfl; rw [EpochHeap.addr_free hi.top] at hw; cases hw
  simp only [setBlock, if_neg this]

theorem EInv.kept_free (hi : EInv calls h log who pcs c) {i : ι} {x : Nat} (hown : (pcs i).own = some x) :
    ∀ p ∈ log, (h.setBlock x none).blocks p = h.blocks p := by
  intro p hp
  have : p ≠ x := by rintro rfl; exact (hi.own i _ hown).2 hp
  simp only [setBlock, if_neg this]

theorem EInv.step (hi : EInv calls h log who pcs c) (i : ι) : EStep A t0 calls h log pcs c i := by
  have hok := hi.ok i
  have hof := hi.of i
  have hptr : h.ptr ∈ log := List.mem_of_getElem? hi.last
  have hne : ∀ {pc : EPc τ V}, pcs i = pc → (∀ a, pc ≠ .done a true) → ∀ a, pcs i ≠ .done a true :=
    fun e h a => by rw [e]; exact h a
  cases hpc : pcs i with
  | start call =>
    rw [hpc] at hof
    have hcall : call = calls i := hof
    subst hcall
    unfold EStep
    rw [hpc]
    cases hcc : calls i with
    | read =>
      refine ⟨h, .readD h.ptr c.val, log, who, c, ?_, .inr rfl, hi.same ⟨hptr, hi.val⟩ ?_ ?_ ?_ ?_,
        List.prefix_refl _, fun _ _ => rfl⟩
      · rfl
      · rw [hcc]; trivial
      · rw [hpc]; rfl
      · exact hne hpc (by simp)
      · simp
    | tag =>
      refine ⟨h, .done (.tag h.tag) false, log, who, c, rfl, .inr ?_, hi.same trivial ?_ ?_ ?_ ?_,
        List.prefix_refl _, fun _ _ => rfl⟩
      · rw [← hi.tag]; rfl
      · rw [hcc]; rfl
      · rw [hpc]; rfl
      · exact hne hpc (by simp)
      · simp
    | mark t =>
      refine ⟨{ h with tag := t }, .done .ok false, log, who, { c with tag := t }, rfl, .inr rfl,
        hi.idle t trivial ?_ ?_ ?_ ?_, List.prefix_refl _, fun _ _ => rfl⟩
      · rw [hcc]; rfl
      · rw [hpc]; rfl
      · exact hne hpc (by simp)
      · simp
    | modify F f =>
      refine ⟨h, .modD F f (h.ptr, h.tag) c.ver c.val, log, who, c, ?_, .inr ?_,
        hi.same ⟨hi.last, hi.val⟩ ?_ ?_ ?_ ?_, List.prefix_refl _, fun _ _ => rfl⟩
      · rfl
      · rw [← hi.tag]; rfl
      · rw [hcc]; trivial
      · rw [hpc]; rfl
      · exact hne hpc (by simp)
      · simp
    | set same w =>
      refine ⟨h, .setD same w (h.ptr, h.tag) c.ver c.val, log, who, c, ?_, .inr ?_,
        hi.same ⟨hi.last, hi.val⟩ ?_ ?_ ?_ ?_, List.prefix_refl _, fun _ _ => rfl⟩
      · rfl
      · rw [← hi.tag]; rfl
      · rw [hcc]; trivial
      · rw [hpc]; rfl
      · exact hne hpc (by simp)
      · simp
  | readD p v =>
    rw [hpc] at hok hof
    unfold EStep
    rw [hpc]
    refine ⟨h, .done (.val v) false, log, who, c, step1_blockGet _ hok.2, .inl ⟨rfl, rfl⟩,
      hi.same trivial ?_ ?_ ?_ ?_, List.prefix_refl _, fun _ _ => rfl⟩
    · cases hcc : calls i <;> rw [hcc] at hof <;> first | rfl | exact hof.elim
    · rw [hpc]; rfl
    · exact hne hpc (by simp)
    · simp
  | modD F f p n v =>
    rw [hpc] at hok hof
    unfold EStep
    rw [hpc]
    refine ⟨h, .modNew p n F (f v), log, who, c, step1_blockGet _ hok.2, .inl ⟨rfl, rfl⟩,
      hi.same hok.1 ?_ ?_ ?_ ?_, List.prefix_refl _, fun _ _ => rfl⟩
    · cases hcc : calls i <;> rw [hcc] at hof <;> first | trivial | exact hof.elim
    · rw [hpc]; rfl
    · exact hne hpc (by simp)
    · simp
  | modNew p n k new =>
    rw [hpc] at hok hof
    unfold EStep
    rw [hpc]
    refine ⟨_, .modCas p n k new (h.addr A), log, who, c, ?_, .inl ⟨rfl, rfl⟩,
      hi.alloc (A := A) (v := new) ⟨hok, ?_⟩ ?_ ?_ rfl ?_, List.prefix_refl _, hi.kept_alloc⟩
    · simp only [EPc.prog, loopProg_succ]; exact step1_blockNew _
    · simp [setBlock]
    · cases hcc : calls i <;> rw [hcc] at hof <;> first | trivial | exact hof.elim
    · rw [hpc]; rfl
    · exact hne hpc (by simp)
  | modCas p n k new x =>
    rw [hpc] at hok hof
    have hown : (pcs i).own = some x := by rw [hpc]; rfl
    have hs := step1_ptrSwap (h := h) (t0 := t0) (cur := p) (x := x) fun
      | none => Prog.ret .ok
      | some q => blockGet q >>= fun found => blockFree x >>= fun _ => EPc.loopProg A t0 p k found
    have hiff := hi.same_iff hok.1
    unfold EStep
    rw [hpc]
    simp only [EPc.verProg, verLoop_succ, step1_act]
    by_cases he : h.ptr = p.1 ∧ h.tag = p.2
    · rw [if_pos he] at hs
      refine ⟨_, .done .ok true, log ++ [x], who ++ [i], ⟨c.ver + 1, t0, new⟩, hs, .inr ?_,
        hi.swap ?_ hown hok.2, List.prefix_append _ _, fun _ _ => rfl⟩
      · rw [if_pos (hiff.1 he)]
      · cases hcc : calls i <;> rw [hcc] at hof <;> first | rfl | exact hof.elim
    · rw [if_neg he] at hs
      refine ⟨h, .modRead p n k x h.ptr c.val, log, who, c, hs, .inr ?_,
        hi.same ⟨hok.1, hptr, hi.val⟩ ?_ ?_ ?_ ?_, List.prefix_refl _, fun _ _ => rfl⟩
      · rw [if_neg fun e => he (hiff.2 e)]
      · cases hcc : calls i <;> rw [hcc] at hof <;> first | trivial | exact hof.elim
      · rw [hpc]; rfl
      · exact hne hpc (by simp)
      · simp
  | modRead p n k x q v =>
    rw [hpc] at hok hof
    unfold EStep
    rw [hpc]
    refine ⟨h, .modFree p n k x v, log, who, c, step1_blockGet _ hok.2.2, .inl ⟨rfl, rfl⟩,
      hi.same hok.1 ?_ ?_ ?_ ?_, List.prefix_refl _, fun _ _ => rfl⟩
    · cases hcc : calls i <;> rw [hcc] at hof <;> first | trivial | exact hof.elim
    · rw [hpc]; rfl
    · exact hne hpc (by simp)
    · simp
  | modFree p n k x v =>
    rw [hpc] at hok hof
    have hown : (pcs i).own = some x := by rw [hpc]; rfl
    obtain ⟨⟨u, hu⟩, _⟩ := hi.own i x hown
    unfold EStep
    rw [hpc]
    cases k with
    | zero =>
      refine ⟨_, .lost, log, who, c, step1_blockFree _ hu, .inl ⟨rfl, rfl⟩,
        hi.free trivial ?_ hown rfl (by simp), List.prefix_refl _, hi.kept_free hown⟩
      cases hcc : calls i <;> rw [hcc] at hof <;> first | trivial | exact hof.elim
    | succ k =>
      refine ⟨_, .modNew p n k v, log, who, c, step1_blockFree _ hu, .inl ⟨rfl, rfl⟩,
        hi.free hok ?_ hown rfl (by simp), List.prefix_refl _, hi.kept_free hown⟩
      cases hcc : calls i <;> rw [hcc] at hof <;> first | trivial | exact hof.elim
  | setD same w p n v =>
    rw [hpc] at hok hof
    have hs := step1_blockGet (α := CellAns τ V) (h := h) (x := p.1) (v := v) (fun v => if same v then Prog.ret .ok else
      blockNew A w >>= fun x => ptrSwap p x t0 >>= fun
      | none => Prog.ret .ok
      | some _ => blockFree x >>= fun _ => Prog.ret .refused) hok.2
    unfold EStep
    rw [hpc]
    simp only [EPc.verProg]
    by_cases he : same v
    · rw [if_pos he] at hs
      refine ⟨h, .done .ok false, log, who, c, hs, .inl ⟨rfl, ?_⟩, hi.same trivial ?_ ?_ ?_ ?_,
        List.prefix_refl _, fun _ _ => rfl⟩
      · rw [if_pos he]
      · cases hcc : calls i <;> rw [hcc] at hof <;> first | exact hof.elim | exact fun _ => rfl
      · rw [hpc]; rfl
      · exact hne hpc (by simp)
      · simp
    · rw [if_neg he] at hs
      refine ⟨h, .setNew w p n, log, who, c, hs, .inl ⟨rfl, ?_⟩, hi.same hok.1 ?_ ?_ ?_ ?_,
        List.prefix_refl _, fun _ _ => rfl⟩
      · rw [if_neg he]
      · cases hcc : calls i <;> rw [hcc] at hof <;> first | trivial | exact hof.elim
      · rw [hpc]; rfl
      · exact hne hpc (by simp)
      · simp
  | setNew w p n =>
    rw [hpc] at hok hof
    unfold EStep
    rw [hpc]
    refine ⟨_, .setCas w p n (h.addr A), log, who, c, step1_blockNew _, .inl ⟨rfl, rfl⟩,
      hi.alloc (A := A) (v := w) ⟨hok, ?_⟩ ?_ ?_ rfl ?_, List.prefix_refl _, hi.kept_alloc⟩
    · simp [setBlock]
    · cases hcc : calls i <;> rw [hcc] at hof <;> first | trivial | exact hof.elim
    · rw [hpc]; rfl
    · exact hne hpc (by simp)
  | setCas w p n x =>
    rw [hpc] at hok hof
    have hown : (pcs i).own = some x := by rw [hpc]; rfl
    have hs := step1_ptrSwap (h := h) (t0 := t0) (cur := p) (x := x) fun
      | none => Prog.ret (CellAns.ok (τ := τ) (V := V))
      | some _ => blockFree x >>= fun _ => Prog.ret .refused
    have hiff := hi.same_iff hok.1
    unfold EStep
    rw [hpc]
    simp only [EPc.verProg, EPc.verSwap, Prog.atomic, step1_act]
    by_cases he : h.ptr = p.1 ∧ h.tag = p.2
    · rw [if_pos he] at hs
      refine ⟨_, .done .ok true, log ++ [x], who ++ [i], ⟨c.ver + 1, t0, w⟩, hs, .inr ?_,
        hi.swap ?_ hown hok.2, List.prefix_append _ _, fun _ _ => rfl⟩
      · rw [if_pos (hiff.1 he)]
      · cases hcc : calls i <;> rw [hcc] at hof <;> first | exact hof.elim | exact fun _ => rfl
    · rw [if_neg he] at hs
      refine ⟨h, .setFree x, log, who, c, hs, .inr ?_,
        hi.same trivial ?_ ?_ ?_ ?_, List.prefix_refl _, fun _ _ => rfl⟩
      · rw [if_neg fun e => he (hiff.2 e)]
      · cases hcc : calls i <;> rw [hcc] at hof <;> first | trivial | exact hof.elim
      · rw [hpc]; rfl
      · exact hne hpc (by simp)
      · simp
  | setFree x =>
    rw [hpc] at hof
    have hown : (pcs i).own = some x := by rw [hpc]; rfl
    obtain ⟨⟨u, hu⟩, _⟩ := hi.own i x hown
    unfold EStep
    rw [hpc]
    refine ⟨_, .done .refused false, log, who, c, step1_blockFree _ hu, .inl ⟨rfl, rfl⟩,
      hi.free trivial ?_ hown rfl (by simp), List.prefix_refl _, hi.kept_free hown⟩
    cases hcc : calls i <;> rw [hcc] at hof <;> first | exact hof.elim | exact fun h => absurd h (by simp)
  | done a s =>
    unfold EStep
    rw [hpc]
    refine ⟨h, .done a s, log, who, c, rfl, .inl ⟨rfl, rfl⟩, ?_, List.prefix_refl _, fun _ _ => rfl⟩
    rw [← hpc, Function.update_eq_self]; exact hi
  | lost =>
    unfold EStep
    rw [hpc]
    refine ⟨h, .lost, log, who, c, rfl, .inl ⟨rfl, rfl⟩, ?_, List.prefix_refl _, fun _ _ => rfl⟩
    rw [← hpc, Function.update_eq_self]; exact hi

end steps

/-! ## Runs -/

section run
variable {calls : ι → CellCall τ V} {v : V}

theorem EInv.start : EInv calls (EpochHeap.init t0 v) [0] ([] : List ι) (fun i => .start (calls i))
    ⟨0, t0, v⟩ := by
  refine ⟨by simp, rfl, rfl, rfl, rfl, fun p hp => ?_, fun x w hx => ?_, fun i => trivial, fun i => ?_,
    fun i x hx => (by cases hx), fun i j x hx => (by cases hx), fun x w hx => ?_, List.nodup_nil, rfl, fun i => ?_⟩
  · rw [List.mem_singleton] at hp; subst hp; exact ⟨v, rfl⟩
  · simp only [EpochHeap.init] at hx ⊢
    split at hx
    · omega
    · cases hx
  · unfold EPc.Of; cases calls i <;> rfl
  · simp only [EpochHeap.init] at hx
    split at hx
    · left; simpa
    · cases hx
  · simp

/-- A state of a run with the heap and one of a run on version numbers that go together. -/
structure EpochSim (A : EpochAlloc τ V) (t0 : τ) (calls : ι → CellCall τ V)
    (ch : Conf (EpochHeap τ V) ι (fun _ => CellAns τ V)) (cv : Conf (VerCell τ V) ι (fun _ => CellAns τ V))
    (log : List Nat) (who : List ι) (pcs : ι → EPc τ V) : Prop where
  inv : EInv calls ch.st log who pcs cv.st
  heap : ∀ i, ch.pool i = (pcs i).prog A t0
  ver : ∀ i, cv.pool i = (pcs i).verProg t0

theorem EpochSim.run {ch : Conf (EpochHeap τ V) ι (fun _ => CellAns τ V)}
    {cv : Conf (VerCell τ V) ι (fun _ => CellAns τ V)} {log : List Nat} {who : List ι} {pcs : ι → EPc τ V}
    (hs : EpochSim A t0 calls ch cv log who pcs) (u : List ι) : ∃ u' log' who' pcs',
      u'.Sublist u ∧ EpochSim A t0 calls (ch.exec u) (cv.exec u') log' who' pcs' ∧ log <+: log' ∧
      (∀ p ∈ log, (ch.exec u).st.blocks p = ch.st.blocks p) ∧ ∀ i, i ∉ u → pcs' i = pcs i := by
  induction u using List.reverseRecOn with
  | nil => exact ⟨[], log, who, pcs, List.Sublist.refl _, hs, List.prefix_refl _, fun _ _ => rfl, fun _ _ => rfl⟩
  | append_singleton u i ih =>
    obtain ⟨u', log₁, who₁, pcs₁, hsub, ⟨hi, hp, hq⟩, hlog, hb, hidle⟩ := ih
    obtain ⟨h', pc', log', who', c', h1, h2, h3, h4, h5⟩ := hi.step (A := A) (t0 := t0) i
    obtain ⟨g1, g2⟩ := Conf.step_step1 (ch.exec u) i
    rw [hp i, h1] at g1 g2
    have hpool : ∀ j, ((ch.exec u).step i).pool j = (Function.update pcs₁ i pc' j).prog A t0 := by
      intro j
      rw [g2 j, Function.update_apply, Function.update_apply]
      split
      · rfl
      · exact hp j
    have hid : ∀ j, j ∉ u ++ [i] → Function.update pcs₁ i pc' j = pcs j := by
      intro j hj
      simp only [List.mem_append, List.mem_singleton, not_or] at hj
      rw [Function.update_of_ne hj.2]; exact hidle j hj.1
    simp only at g1
    have hst : (ch.exec (u ++ [i])).st = h' := by rw [Conf.exec_append]; exact g1
    have hb' : ∀ p ∈ log, (ch.exec (u ++ [i])).st.blocks p = ch.st.blocks p := by
      intro p hpm; rw [hst, h5 p (hlog.subset hpm)]; exact hb p hpm
    rcases h2 with ⟨rfl, h2⟩ | h2
    · refine ⟨u', log', who', Function.update pcs₁ i pc', hsub.trans (List.sublist_append_left _ _),
        ⟨by rw [hst]; exact h3, by rw [Conf.exec_append]; exact hpool, ?_⟩, hlog.trans h4, hb', hid⟩
      intro j
      rw [Function.update_apply]
      split
      · rename_i e; subst e; rw [h2]; exact hq j
      · exact hq j
    · obtain ⟨k1, k2⟩ := Conf.step_step1 (cv.exec u') i
      rw [hq i, h2] at k1 k2
      simp only at k1
      have hsv : (cv.exec (u' ++ [i])).st = c' := by rw [Conf.exec_append]; exact k1
      refine ⟨u' ++ [i], log', who', Function.update pcs₁ i pc', hsub.append (List.Sublist.refl _),
        ⟨by rw [hst, hsv]; exact h3, by rw [Conf.exec_append]; exact hpool, ?_⟩, hlog.trans h4, hb', hid⟩
      intro j
      rw [Conf.exec_append]
      change (Conf.step _ i).pool j = _
      rw [k2 j, Function.update_apply, Function.update_apply]
      split
      · rfl
      · exact hq j

/-- Every state of a run, and the run on version numbers that goes with it. -/
theorem epoch_run (A : EpochAlloc τ V) (t0 : τ) (v : V) (calls : ι → CellCall τ V) (t : List ι) :
    ∃ t' log who pcs, t'.Sublist t ∧
    EpochSim A t0 calls ((heapStart A t0 v calls).exec t) ((verStart t0 v calls).exec t') log who pcs ∧
    ∀ i, i ∉ t → pcs i = .start (calls i) := by
  obtain ⟨t', log, who, pcs, h1, h2, _, _, h3⟩ := EpochSim.run (A := A) (t0 := t0) (calls := calls)
    (ch := heapStart A t0 v calls) (cv := verStart t0 v calls) ⟨EInv.start, fun _ => rfl, fun _ => rfl⟩ t
  exact ⟨t', log, who, pcs, h1, h2, h3⟩

/-- The control point of a call that has returned. -/
theorem EPc.ret_iff {pc : EPc τ V} {a : CellAns τ V} (h : pc.prog A t0 = .ret a) : ∃ s, pc = .done a s := by
  cases pc with
  | done b s => simp only [EPc.prog, Prog.ret.injEq] at h; exact ⟨s, by rw [h]⟩
  | start c => cases c <;> (change Prog.act _ _ = _ at h; cases h)
  | lost => cases h
  | _ => change Prog.act _ _ = _ at h; cases h

theorem EPc.no_panic {pc : EPc τ V} : pc.prog A t0 ≠ .panic := by
  intro h
  cases pc with
  | start c => cases c <;> (change Prog.act _ _ = _ at h; cases h)
  | done a s => cases h
  | lost => cases h
  | _ => change Prog.act _ _ = _ at h; cases h

theorem EPc.diverge_iff {pc : EPc τ V} (h : pc.prog A t0 = .diverge) : pc = .lost := by
  cases pc with
  | start c => cases c <;> (change Prog.act _ _ = _ at h; cases h)
  | done a s => cases h
  | lost => rfl
  | _ => change Prog.act _ _ = _ at h; cases h

end run

end Rotonda
