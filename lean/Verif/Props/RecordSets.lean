import Verif.Model.RecordSet
import Verif.Props.Demo

/-!
# `RecordSet` keeps what it is given: C34
-/

namespace Rotonda.Props

variable {M : Type}

/-- The records of one family, in order. -/
def ofV4 (l : List (PubRecord M)) : List (PubRecord M) :=
  l.filter fun r => match r.pfx with | .v4 _ => true | .v6 _ => false
def ofV6 (l : List (PubRecord M)) : List (PubRecord M) :=
  l.filter fun r => match r.pfx with | .v4 _ => false | .v6 _ => true

theorem fromIterGo_eq (l a b : List (PubRecord M)) :
    RecordSet.fromIterGo l a b = ⟨a ++ ofV4 l, b ++ ofV6 l⟩ := by
  induction l generalizing a b with
  | nil => simp [RecordSet.fromIterGo, ofV4, ofV6]
  | cons r l ih =>
    cases r with
    | mk p rs => cases p <;> simp [RecordSet.fromIterGo, ih, ofV4, ofV6]

/-- What an iterator has still to yield. -/
def remaining (it : RecordSet.Iter M) : List (PubRecord M) := it.v4.getD [] ++ it.v6

theorem next_eq (it : RecordSet.Iter M) :
    it.next.1 = (remaining it).head? ∧ remaining it.next.2 = (remaining it).tail := by
  cases it with
  | mk a b =>
    cases a with
    | none =>
      cases b with
      | nil => simp [RecordSet.Iter.next, RecordSet.Iter.next6, remaining]
      | cons r b => simp [RecordSet.Iter.next, RecordSet.Iter.next6, remaining]
    | some a =>
      cases a with
      | nil =>
        cases b with
        | nil => simp [RecordSet.Iter.next, RecordSet.Iter.next6, remaining]
        | cons r b => simp [RecordSet.Iter.next, RecordSet.Iter.next6, remaining]
      | cons r a => simp [RecordSet.Iter.next, remaining]

theorem take_eq (n : Nat) (it : RecordSet.Iter M) :
    it.take n = (List.range n).map fun i => (remaining it)[i]? := by
  induction n generalizing it with
  | zero => rfl
  | succ n ih =>
    obtain ⟨h1, h2⟩ := next_eq it
    rw [RecordSet.Iter.take, ih, h1, h2, List.range_succ_eq_map, List.map_cons, List.map_map]
    congr 1
    · cases remaining it <;> rfl
    · apply List.map_congr_left
      intro i _
      cases remaining it <;> rfl

theorem remaining_iter (s : RecordSet M) : remaining s.iter = s.v4 ++ s.v6 := by
  cases s with
  | mk a b => cases a <;> simp [RecordSet.iter, remaining]

/-- C34, iteration: the calls of `next` on the set collected from `l` return first the
IPv4 records of `l`, then the IPv6 records, each family in the order of `l`, and `None`
ever after. -/
theorem recordset_iter (l : List (PubRecord M)) (i n : Nat) (h : i < n) :
    ((RecordSet.fromIter l).iter.take n)[i]? = some (ofV4 l ++ ofV6 l)[i]? := by
  rw [take_eq, remaining_iter, RecordSet.fromIter, fromIterGo_eq]
  simp [h]

/-- C34: nothing is lost, invented or counted twice. -/
theorem recordset_perm (l : List (PubRecord M)) : (ofV4 l ++ ofV6 l).Perm l := by
  induction l with
  | nil => simp [ofV4, ofV6]
  | cons r l ih =>
    cases r with
    | mk p rs =>
      cases p with
      | v4 p => exact ih.cons (⟨.v4 p, rs⟩ : PubRecord M)
      | v6 p =>
        simp only [ofV4, ofV6, List.filter_cons] at ih ⊢
        simp only [Bool.false_eq_true, if_false, if_true]
        exact List.perm_middle.trans (ih.cons _)

/-- C34: `len` is the number of records yielded; `is_empty` agrees with it. -/
theorem recordset_len (l : List (PubRecord M)) :
    (RecordSet.fromIter l).len = l.length ∧
    ((RecordSet.fromIter l).isEmpty = true ↔ l = []) := by
  have hp := (recordset_perm l).length_eq
  rw [List.length_append] at hp
  constructor
  · rw [RecordSet.fromIter, fromIterGo_eq]
    simpa [RecordSet.len] using hp
  · rw [RecordSet.fromIter, fromIterGo_eq]
    simp only [RecordSet.isEmpty, List.nil_append, Bool.and_eq_true, List.isEmpty_iff]
    constructor
    · rintro ⟨h1, h2⟩
      have := recordset_perm l
      rw [h1, h2] at this
      exact this.symm.eq_nil
    · rintro rfl; exact ⟨rfl, rfl⟩

/-- C34: indexing agrees with iteration and panics exactly from `len` on.  This holds
of every set, however made. -/
theorem recordset_index (s : RecordSet M) (i n : Nat) (h : i < n) :
    (s.iter.take n)[i]? = some (s.index i) ∧ (s.index i = none ↔ s.len ≤ i) := by
  rw [take_eq, remaining_iter]
  have : s.index i = (s.v4 ++ s.v6)[i]? := by
    unfold RecordSet.index
    by_cases hi : i < s.v4.length
    · rw [if_pos hi, List.getElem?_append_left hi]
    · rw [if_neg hi, List.getElem?_append_right (by omega)]
  rw [this]
  refine ⟨by simp [h], ?_⟩
  rw [List.getElem?_eq_none_iff, List.length_append]; rfl

/-- C34: `reverse` reverses each family, and keeps IPv4 first. -/
theorem recordset_reverse (l : List (PubRecord M)) :
    (RecordSet.fromIter l).reverse = RecordSet.fromIter l.reverse := by
  rw [RecordSet.fromIter, RecordSet.fromIter, fromIterGo_eq, fromIterGo_eq]
  simp [RecordSet.reverse, ofV4, ofV6]

/-- C34: pushing one by one builds the same set as collecting. -/
theorem recordset_push (l : List (PubRecord M)) :
    l.foldl (fun s r => s.push r.pfx r.recs) RecordSet.new = RecordSet.fromIter l := by
  have : ∀ (s : RecordSet M) (l : List (PubRecord M)),
      l.foldl (fun s r => s.push r.pfx r.recs) s = ⟨s.v4 ++ ofV4 l, s.v6 ++ ofV6 l⟩ := by
    intro s l
    induction l generalizing s with
    | nil => simp [ofV4, ofV6]
    | cons r l ih =>
      cases r with
      | mk p rs =>
        rw [List.foldl_cons, ih]
        cases p <;> simp [RecordSet.push, ofV4, ofV6]
  rw [this, RecordSet.fromIter, fromIterGo_eq]
  rfl

/-- C34: the record of a mui in the record of a prefix: the first one with that mui, and none
only if there is none. -/
theorem recordset_record_for_mui (r : PubRecord M) (m : Mui) :
    (∀ x, r.recordForMui m = some x ↔
      ∃ l l', r.recs = l ++ x :: l' ∧ x.mui = m ∧ ∀ y ∈ l, y.mui ≠ m) ∧
    (r.recordForMui m = none ↔ ∀ y ∈ r.recs, y.mui ≠ m) := by
  refine ⟨fun x => ?_, by simp [PubRecord.recordForMui]⟩
  rw [PubRecord.recordForMui, List.find?_eq_some_iff_append]
  constructor
  · rintro ⟨hx, l, l', h, hl⟩
    exact ⟨l, l', h, by simpa using hx, fun y hy => by simpa using hl y hy⟩
  · rintro ⟨l, l', h, hx, hl⟩
    exact ⟨by simpa using hx, l, l', h, fun y hy => by simpa using hl y hy⟩

example : ((⟨.v4 Demo.ten8, [Demo.rec1 1 1 1, Demo.rec1 2 1 1]⟩ : PubRecord Demo.Md).recordForMui 2#32).map (·.mui) =
      some 2#32 ∧
    ((⟨.v4 Demo.ten8, [Demo.rec1 1 1 1]⟩ : PubRecord Demo.Md).recordForMui 2#32).isNone := by
  decide

/-- A list of the same prefix may appear twice; both families interleaved. -/
def Demo.mixedSet : List (PubRecord Demo.Md) :=
  [⟨.v6 (Demo.pfx 1#128 128 (by decide)), [Demo.rec1 1 1 1]⟩, ⟨.v4 Demo.ten8, []⟩,
    ⟨.v6 (Demo.pfx 1#128 128 (by decide)), [Demo.rec1 2 1 1]⟩, ⟨.v4 Demo.ten16, [Demo.rec1 2 1 1]⟩]

example : (RecordSet.fromIter Demo.mixedSet).len = 4 ∧
    ((RecordSet.fromIter Demo.mixedSet).index 1).map (·.recs.length) = some 1 ∧
    ((RecordSet.fromIter Demo.mixedSet).reverse.index 3).map (fun r => r.recs.map (·.mui)) =
      some [1#32] := by
  decide

end Rotonda.Props
