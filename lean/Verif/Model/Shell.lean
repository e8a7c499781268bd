import Verif.Model.Client
import Verif.Model.MetaFrom
import Verif.Model.StarConc

/-!
# The shell of `src/bin/cli.rs`

What it does with the store: the lines of a file are inserted, the command `p` lists all prefixes,
and a prefix is a query.  Parsing is left out: a line is a prefix and a number.  The commands `p4`,
`p6` and `n` print counts and items of the public interface as they are.
-/

namespace Rotonda

/-- `src/bin/cli.rs` 44-52 and 83, the record of a line. -/
def shellRecord (asn : BitVec 32) : Record PrefixAs := ⟨0#32, 0#64, .active, .ofU32 asn⟩

/-- `src/bin/cli.rs` 70-84, `main` up to the shell; an error of an insert ends it. -/
def shellLoad : List (AnyPrefix × BitVec 32) →
    Client (StarCall.Ans (M := PrefixAs)) (Except StoreError Unit)
  | [] => .done (.ok ())
  | x :: xs => .call (.insert x.1 (shellRecord x.2) none) fun (res : Except StoreError UpsertReport) =>
    match res with
    | .error e => .done (.error e)
    | .ok _ => shellLoad xs

/-- What a record is printed as: its identifier, time, status and number. -/
abbrev ShellLine := Mui × LTime × RouteStatus × BitVec 32

/-- `src/types/prefix_record.rs` 60-68, `fmt`: the fields in the order of the text. -/
def shellLine (r : Record PrefixAs) : ShellLine := (r.mui, r.ltime, r.status, r.md.asn)

/-- `src/bin/cli.rs` 152-158, a line of the list; `none` is the panic of `unwrap` or of
`pfx.meta[0]`. -/
def shellRow : FatalResult (PubRecord PrefixAs) → Option (AnyPrefix × ShellLine)
  | .ok r => r.recs.head?.map fun x => (r.pfx, shellLine x)
  | .error _ => none

/-- `src/bin/cli.rs` 140-164, command `p`: the list and the total (the counts per family are left
out). -/
def shellList : Client (StarCall.Ans (M := PrefixAs)) (List (AnyPrefix × ShellLine) × UpsertCounters) :=
  .call .prefixesIter fun (items : List (FatalResult (PubRecord PrefixAs))) =>
    match items.mapM shellRow with
    | none => .panic
    | some l => .call .prefixesCount fun (n : UpsertCounters) => .done (l, n)

/-- `src/bin/cli.rs` 229-289 and 290-337, a query for a prefix, which the second of the two places has
made by clearing the host bits: what `match_prefix` gives, and then (after "numatch") the more
specifics and the less specifics that the other two queries give.  An error ends the program. -/
def shellQuery (p : AnyPrefix) : Client (StarCall.Ans (M := PrefixAs)) (FatalResult
    (Star.Result PrefixAs × Option (RecordSet PrefixAs) × Option (RecordSet PrefixAs))) :=
  .call (.matchPrefix p ⟨.exactMatch, true, true, true, none⟩) fun (res : FatalResult (Star.Result PrefixAs)) =>
    match res with
    | .error e => .done (.error e)
    | .ok m => .call (.moreFrom p none false) fun (res : FatalResult (Star.Result PrefixAs)) =>
      match res with
      | .error e => .done (.error e)
      | .ok more => .call (.lessFrom p none false) fun (res : FatalResult (Star.Result PrefixAs)) =>
        match res with
        | .error e => .done (.error e)
        | .ok less => .done (.ok (m, more.moreSpecifics, less.lessSpecifics))

end Rotonda
