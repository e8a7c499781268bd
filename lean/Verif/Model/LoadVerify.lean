import Verif.Model.Loader
import Verif.Model.Af

/-!
# The verification of a load, and the program that tests truncation

`src/bin/load_mrt.rs` and `src/bin/truncate_len.rs`.
-/

namespace Rotonda

variable {M : Type} [Meta M]

/-- `src/bin/load_mrt.rs` 589-638, the last step of `exec_for_store` with `--verify`: the prefixes
listed as persisted are asked for.  The result is the prefix at which it stops with the message
that its records are empty.  What is printed of the records is left out, also that reading a
path from the attributes of a record may panic. -/
def verifyLoop : List AnyPrefix → Nat → Client (StarCall.Ans (M := M)) (Option AnyPrefix)
  | [], _ => .done none
  | p :: ps, maxLen =>
    .call (.getRecords p none false) fun (res : FatalResult (Option (List (Record M)))) =>
      match res with
      | .ok (some values) =>
        if values.isEmpty then .done (some p)
        else if maxLen < values.length then
          .call (.getRecords p none false) fun (res' : FatalResult (Option (List (Record M)))) =>
            match res' with
            | .ok (some _) => verifyLoop ps values.length
            | _ => .panic
        else verifyLoop ps maxLen
      | _ => .panic

/-- `src/bin/truncate_len.rs` 5-14, `truncate_to_len`, for any width; `none` is the panic in 12. -/
def truncShift {W : Nat} (bits : BitVec W) (len : Nat) : Option (BitVec W) :=
  if len = 0 then some 0#W
  else if len < W then some ((bits >>> (W - len)) <<< (W - len))
  else if len = W then some bits
  else none

/-- `src/bin/truncate_len.rs` 16-23, `branchless_trunc`; the same expression as in
`src/types/af.rs`. -/
def branchlessTrunc {W : Nat} (bits : BitVec W) (len : Nat) : BitVec W :=
  bits &&& ((((1#W).rotateRight len ^^^ BitVec.ofNat W (1 - len)) - 1#W) ^^^ BitVec.allOnes W)

end Rotonda
