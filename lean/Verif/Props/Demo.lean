import Verif.Proofs.QuerySeq

/-!
# Concrete data for the examples next to the property theorems
-/

namespace Rotonda.Demo

open Spec

/-- Metadata of the examples: bytes, ordered by their number. -/
structure Md where
  bytes : List Byte
  deriving DecidableEq, Repr

instance : Meta Md where
  TBI := Unit
  Orderable := Nat
  ord := inferInstance
  asOrderable m _ := leToNat m.bytes
  toBytes m := m.bytes
  ofBytes b := ⟨b⟩

/-- A prefix from an address, host bits cut off. -/
def pfx {W : Nat} (x : BitVec W) (l : Nat) (hl : l ≤ W) : Prefix W :=
  ⟨truncateToLen x l, l, hl, (clean_truncate x hl).2⟩

/-- 10.0.0.0/8 -/
def ten8 : Prefix 32 := pfx 0x0A000000#32 8 (by decide)
/-- 10.1.0.0/16 -/
def ten16 : Prefix 32 := pfx 0x0A010000#32 16 (by decide)
/-- 10.1.2.0/23 -/
def ten23 : Prefix 32 := pfx 0x0A010200#32 23 (by decide)
/-- 10.1.2.3/32 -/
def host : Prefix 32 := pfx 0x0A010203#32 32 (by decide)
/-- 192.168.0.0/16 -/
def other : Prefix 32 := pfx 0xC0A80000#32 16 (by decide)

def rec1 (m t : Nat) (b : Nat) : Record Md := ⟨BitVec.ofNat 32 m, BitVec.ofNat 64 t, .active, ⟨[BitVec.ofNat 8 b]⟩⟩

/-- Five inserts, one status change each way. -/
def hist : History Md 32 :=
  [.activate 9#32, .withdraw 2#32, .withdrawFor ten8 1#32 7#64, .insert host (rec1 2 4 11) none,
    .insert other (rec1 1 3 5) none, .insert ten16 (rec1 2 3 9) none,
    .insert ten8 (rec1 3 2 8) (some ()), .insert ten8 (rec1 1 1 7) none]

/-- Presence in a concrete history can be computed. -/
theorem present_iff {M : Type} [Meta M] {W : Nat} {h : History M W} {p : Prefix W} :
    Present h p ↔ (h.any fun op => match op with
      | .insert q _ _ => q.bits == p.bits && q.len == p.len
      | _ => false) = true := by
  rw [List.any_eq_true]
  constructor
  · rintro ⟨m, r, tbi, hm, _⟩
    exact ⟨_, hm, by simp⟩
  · rintro ⟨op, hm, hop⟩
    cases op with
    | insert q r tbi =>
      simp only [Bool.and_eq_true, beq_iff_eq] at hop
      have : q = p := Prefix.id_inj (by simp only [Prefix.id, hop.1, hop.2])
      subst this
      exact ⟨_, r, tbi, hm, rfl⟩
    | _ => cases hop

instance {M : Type} [Meta M] {W : Nat} (h : History M W) (p : Prefix W) :
    Decidable (Present h p) := decidable_of_iff _ present_iff.symm

instance {W : Nat} (p q : Prefix W) : Decidable (Covers p q) := by
  unfold Covers; infer_instance

instance {M : Type} [Meta M] {W : Nat} (h : History M W) (p : Prefix W) :
    Decidable (Proper h p) := by unfold Proper; infer_instance

example : Present hist ten8 := by decide
example : ¬ Present hist ten23 := by decide
example : Covers ten8 host ∧ ¬ Covers ten16 ten8 ∧ ¬ Covers other host := by decide

end Rotonda.Demo
