import Verif.Model.StarConc

/-!
# The first items of an answer
-/

namespace Rotonda.Spec

variable {M : Type} [Meta M]

/-- The first `n` items of the answer of an iteration over the tree; the whole answer if
`n` is not given, and of every other call. -/
def firstItems : Option Nat → (x : StarCall M) → x.Ans → x.Ans
  | some n, .moreIter _ _ _, l => List.take n l
  | some n, .lessIter _ _ _, l => List.take n l
  | some n, .prefixesIter, l => List.take n l
  | some n, .prefixesIter4, l => List.take n l
  | some n, .prefixesIter6, l => List.take n l
  | some n, .recordsForMui4 _ _, l => List.take n l
  | some n, .recordsForMui6 _ _, l => List.take n l
  | _, _, a => a

/-- The answer is one of an iteration over the tree and has at least `n` items. -/
def Plenty : Option Nat → (x : StarCall M) → x.Ans → Prop
  | some n, .moreIter _ _ _, l => n ≤ List.length l
  | some n, .lessIter _ _ _, l => n ≤ List.length l
  | some n, .prefixesIter, l => n ≤ List.length l
  | some n, .prefixesIter4, l => n ≤ List.length l
  | some n, .prefixesIter6, l => n ≤ List.length l
  | some n, .recordsForMui4 _ _, l => n ≤ List.length l
  | some n, .recordsForMui6 _ _, l => n ≤ List.length l
  | _, _, _ => False

end Rotonda.Spec
