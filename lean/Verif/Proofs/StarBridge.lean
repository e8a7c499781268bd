import Verif.Proofs.StarConc
import Verif.Proofs.ConcRun

/-!
# From runs of the families to runs of the public interface
-/

namespace Rotonda

open Prog Spec

variable {M : Type} [Meta M] {ι : Type}

/-! ## The schedules of the families -/

namespace Spec.Split
variable {t : List ι} {t4 t6 : ℕ → List ι}

theorem prefix4 (h : Split t t4 t6) {n m : ℕ} (hnm : n ≤ m) (hm : m ≤ t.length) : t4 n <+: t4 m := by
  induction m with
  | zero => rw [Nat.le_zero.1 hnm]
  | succ m ih =>
    rcases Nat.lt_or_ge m n with h' | h'
    · have : n = m + 1 := by omega
      rw [this]
    · refine (ih h' (by omega)).trans ?_
      rcases h.step m (by omega) with ⟨h1, _⟩ | ⟨h1, _⟩ | ⟨h1, _⟩ <;> rw [h1]
      exact List.prefix_append _ _

theorem prefix6 (h : Split t t4 t6) {n m : ℕ} (hnm : n ≤ m) (hm : m ≤ t.length) : t6 n <+: t6 m := by
  induction m with
  | zero => rw [Nat.le_zero.1 hnm]
  | succ m ih =>
    rcases Nat.lt_or_ge m n with h' | h'
    · have : n = m + 1 := by omega
      rw [this]
    · refine (ih h' (by omega)).trans ?_
      rcases h.step m (by omega) with ⟨_, h1⟩ | ⟨_, h1⟩ | ⟨_, h1⟩ <;> rw [h1]
      exact List.prefix_append _ _

theorem mem4 (h : Split t t4 t6) {n : ℕ} (hn : n ≤ t.length) {i : ι} (hi : i ∈ t4 n) :
    i ∈ t.take n := by
  induction n with
  | zero => rw [h.start4] at hi; cases hi
  | succ n ih =>
    rw [List.take_add_one, List.getElem?_eq_getElem (by omega)]
    rcases h.step n (by omega) with ⟨h1, _⟩ | ⟨h1, _⟩ | ⟨h1, _⟩ <;> rw [h1] at hi
    · rcases List.mem_append.1 hi with hi | hi
      · exact List.mem_append_left _ (ih (by omega) hi)
      · exact List.mem_append_right _ (by simpa using hi)
    · exact List.mem_append_left _ (ih (by omega) hi)
    · exact List.mem_append_left _ (ih (by omega) hi)

theorem mem6 (h : Split t t4 t6) {n : ℕ} (hn : n ≤ t.length) {i : ι} (hi : i ∈ t6 n) :
    i ∈ t.take n := by
  induction n with
  | zero => rw [h.start6] at hi; cases hi
  | succ n ih =>
    rw [List.take_add_one, List.getElem?_eq_getElem (by omega)]
    rcases h.step n (by omega) with ⟨_, h1⟩ | ⟨_, h1⟩ | ⟨_, h1⟩ <;> rw [h1] at hi
    · exact List.mem_append_left _ (ih (by omega) hi)
    · rcases List.mem_append.1 hi with hi | hi
      · exact List.mem_append_left _ (ih (by omega) hi)
      · exact List.mem_append_right _ (by simpa using hi)
    · exact List.mem_append_left _ (ih (by omega) hi)

end Spec.Split

/-! ## Which calls have which parts -/

theorem call4_insert {c : StarCall M} {p : Prefix 32} {r : Record M} {tbi : Option (Meta.TBI M)}
    (h : call4 c = .insert p r tbi) : c = .insert (.v4 p) r tbi := by
  cases c with
  | insert q r' tbi' => cases q <;> cases h <;> rfl
  | withdrawFor q | activateFor q | calcBest q | contains q | getRecords q | matchPrefix q
  | moreFrom q | lessFrom q | moreIter q | lessIter q | bestPath q | isPsOutdated q =>
    cases q <;> cases h
  | _ => cases h

theorem call6_insert {c : StarCall M} {p : Prefix 128} {r : Record M} {tbi : Option (Meta.TBI M)}
    (h : call6 c = .insert p r tbi) : c = .insert (.v6 p) r tbi := by
  cases c with
  | insert q r' tbi' => cases q <;> cases h <;> rfl
  | withdrawFor q | activateFor q | calcBest q | contains q | getRecords q | matchPrefix q
  | moreFrom q | lessFrom q | moreIter q | lessIter q | bestPath q | isPsOutdated q =>
    cases q <;> cases h
  | _ => cases h

theorem call4_activate {c : StarCall M} {m : Mui} (h : call4 c = .activate m) : c = .activate4 m := by
  cases c with
  | insert q | withdrawFor q | activateFor q | calcBest q | contains q | getRecords q | matchPrefix q
  | moreFrom q | lessFrom q | moreIter q | lessIter q | bestPath q | isPsOutdated q =>
    cases q <;> cases h
  | _ => cases h <;> rfl

theorem call6_activate {c : StarCall M} {m : Mui} (h : call6 c = .activate m) : c = .activate6 m := by
  cases c with
  | insert q | withdrawFor q | activateFor q | calcBest q | contains q | getRecords q | matchPrefix q
  | moreFrom q | lessFrom q | moreIter q | lessIter q | bestPath q | isPsOutdated q =>
    cases q <;> cases h
  | _ => cases h <;> rfl

theorem call4_withdraw {c : StarCall M} {m : Mui} (h : call4 c = .withdraw m) :
    c = .withdraw4 m ∨ c = .withdraw m := by
  cases c with
  | insert q | withdrawFor q | activateFor q | calcBest q | contains q | getRecords q | matchPrefix q
  | moreFrom q | lessFrom q | moreIter q | lessIter q | bestPath q | isPsOutdated q =>
    cases q <;> cases h
  | _ => cases h <;> first | exact .inl rfl | exact .inr rfl

theorem call6_withdraw {c : StarCall M} {m : Mui} (h : call6 c = .withdraw m) :
    c = .withdraw6 m ∨ c = .withdraw m := by
  cases c with
  | insert q | withdrawFor q | activateFor q | calcBest q | contains q | getRecords q | matchPrefix q
  | moreFrom q | lessFrom q | moreIter q | lessIter q | bestPath q | isPsOutdated q =>
    cases q <;> cases h
  | _ => cases h <;> first | exact .inl rfl | exact .inr rfl

theorem call4_withdrawFor {c : StarCall M} {p : Prefix 32} {m : Mui} {t : LTime}
    (h : call4 c = .withdrawFor p m t) : c = .withdrawFor (.v4 p) m t := by
  cases c with
  | insert q | withdrawFor q | activateFor q | calcBest q | contains q | getRecords q | matchPrefix q
  | moreFrom q | lessFrom q | moreIter q | lessIter q | bestPath q | isPsOutdated q =>
    cases q <;> cases h <;> rfl
  | _ => cases h

theorem call6_withdrawFor {c : StarCall M} {p : Prefix 128} {m : Mui} {t : LTime}
    (h : call6 c = .withdrawFor p m t) : c = .withdrawFor (.v6 p) m t := by
  cases c with
  | insert q | withdrawFor q | activateFor q | calcBest q | contains q | getRecords q | matchPrefix q
  | moreFrom q | lessFrom q | moreIter q | lessIter q | bestPath q | isPsOutdated q =>
    cases q <;> cases h <;> rfl
  | _ => cases h

theorem call4_activateFor {c : StarCall M} {p : Prefix 32} {m : Mui} {t : LTime}
    (h : call4 c = .activateFor p m t) : c = .activateFor (.v4 p) m t := by
  cases c with
  | insert q | withdrawFor q | activateFor q | calcBest q | contains q | getRecords q | matchPrefix q
  | moreFrom q | lessFrom q | moreIter q | lessIter q | bestPath q | isPsOutdated q =>
    cases q <;> cases h <;> rfl
  | _ => cases h

theorem call6_activateFor {c : StarCall M} {p : Prefix 128} {m : Mui} {t : LTime}
    (h : call6 c = .activateFor p m t) : c = .activateFor (.v6 p) m t := by
  cases c with
  | insert q | withdrawFor q | activateFor q | calcBest q | contains q | getRecords q | matchPrefix q
  | moreFrom q | lessFrom q | moreIter q | lessIter q | bestPath q | isPsOutdated q =>
    cases q <;> cases h <;> rfl
  | _ => cases h

/-! ## Answers -/

theorem result_some {σ α : Type} {p : Prog σ α} {a : α} : result p = some a ↔ p = .ret a := by
  cases p with
  | ret b => exact ⟨fun h => (by cases h; rfl), fun h => (by cases h; rfl)⟩
  | act f k => exact ⟨fun h => (by cases h), fun h => (by cases h)⟩
  | panic => exact ⟨fun h => (by cases h), fun h => (by cases h)⟩
  | diverge => exact ⟨fun h => (by cases h), fun h => (by cases h)⟩

theorem answer_v4 {α : Type} {q : Parts M α} {y : Call M 32} {g : y.Ans → α} (hq : q = .v4 y g)
    {o : Option q.call4.Ans} {o' : Option q.call6.Ans} {a : α} (h : q.answer o o' = some a) :
    ∃ (hc : q.call4 = y) (b : y.Ans), o = some (hc ▸ b) ∧ a = g b := by
  subst hq
  obtain ⟨b, hb, e⟩ := Option.map_eq_some_iff.1 h
  exact ⟨rfl, b, hb, e.symm⟩

theorem answer_v6 {α : Type} {q : Parts M α} {y : Call M 128} {g : y.Ans → α} (hq : q = .v6 y g)
    {o : Option q.call4.Ans} {o' : Option q.call6.Ans} {a : α} (h : q.answer o o' = some a) :
    ∃ (hc : q.call6 = y) (b : y.Ans), o' = some (hc ▸ b) ∧ a = g b := by
  subst hq
  obtain ⟨b, hb, e⟩ := Option.map_eq_some_iff.1 h
  exact ⟨rfl, b, hb, e.symm⟩

section
variable [DecidableEq ι] {calls : ι → StarCall M} {st : Strategy} {F fuel : Nat} {s : Star M}
  {t : List ι} {t4 t6 : ℕ → List ι}

/-- The run of the IPv4 parts, and that of the IPv6 parts. -/
abbrev start4 (st : Strategy) (F fuel : Nat) (s : Star M) (calls : ι → StarCall M) :=
  start st F fuel s.v4 (fun i => call4 (calls i))
abbrev start6 (st : Strategy) (F fuel : Nat) (s : Star M) (calls : ι → StarCall M) :=
  start st F fuel s.v6 (fun i => call6 (calls i))

variable (hI : Interleaves (starStart st F fuel s calls) (start4 st F fuel s calls)
  (start6 st F fuel s calls) t t4 t6)
include hI

/-- A call on one family returns what its part returned. -/
theorem returned_v4 {n : ℕ} (hn : n ≤ t.length) {i : ι} {x : StarCall M} {a : x.Ans} {y : Call M 32}
    {g : y.Ans → x.Ans} (hx : parts x = .v4 y g)
    (hr : StarReturned ((starStart st F fuel s calls).exec (t.take n)) i x a) :
    ∃ b, Returned ((start4 st F fuel s calls).exec (t4 n)) i y b ∧ a = g b := by
  obtain ⟨rfl, hp⟩ := hr
  have := hI.answers n hn i
  rw [hp] at this
  obtain ⟨hc, b, hb, he⟩ := answer_v4 hx this.symm
  exact ⟨b, ⟨hc, result_some.1 hb⟩, he⟩

theorem returned_v6 {n : ℕ} (hn : n ≤ t.length) {i : ι} {x : StarCall M} {a : x.Ans} {y : Call M 128}
    {g : y.Ans → x.Ans} (hx : parts x = .v6 y g)
    (hr : StarReturned ((starStart st F fuel s calls).exec (t.take n)) i x a) :
    ∃ b, Returned ((start6 st F fuel s calls).exec (t6 n)) i y b ∧ a = g b := by
  obtain ⟨rfl, hp⟩ := hr
  have := hI.answers n hn i
  rw [hp] at this
  obtain ⟨hc, b, hb, he⟩ := answer_v6 hx this.symm
  exact ⟨b, ⟨hc, result_some.1 hb⟩, he⟩

/-- A call with a part for IPv4 has not returned before this part has, and so on. -/
theorem part4_returned {n : ℕ} (hn : n ≤ t.length) {j : ι} {a}
    (hr : ((starStart st F fuel s calls).exec (t.take n)).pool j = .ret a)
    (h4 : ∀ y g, parts (calls j) ≠ .v6 y g) :
    ∃ b, ((start4 st F fuel s calls).exec (t4 n)).pool j = .ret b := by
  have key : ∀ (q : Parts M (calls j).Ans) (o : Option q.call4.Ans) (o' : Option q.call6.Ans),
      some a = q.answer o o' → (∀ y g, q ≠ .v6 y g) → ∃ b, o = some b := by
    intro q o o' ha hne
    cases q with
    | v4 x g =>
      obtain ⟨b, hb, -⟩ := Option.map_eq_some_iff.1 ha.symm
      exact ⟨b, hb⟩
    | v6 y g => exact (hne _ _ rfl).elim
    | both x y e g =>
      obtain ⟨b, hb, -⟩ := Option.bind_eq_some_iff.1 ha.symm
      exact ⟨b, hb⟩
    | mixed x y g =>
      obtain ⟨b, hb, -⟩ := Option.bind_eq_some_iff.1 ha.symm
      exact ⟨b, hb⟩
  have h' := hI.answers n hn j
  rw [hr] at h'
  obtain ⟨b, hb⟩ := key _ _ _ h' h4
  exact ⟨b, result_some.1 hb⟩

theorem notBefore_v4 {j i : ι} (h4 : ∀ y g, parts (calls j) ≠ .v6 y g)
    (h : NotBefore (start4 st F fuel s calls) (t4 t.length) j i) :
    StarNotBefore (starStart st F fuel s calls) t j i := by
  intro n hi a ha
  have hle : min n t.length ≤ t.length := Nat.min_le_right _ _
  have htk : t.take n = t.take (min n t.length) := by
    rcases Nat.le_total n t.length with h' | h'
    · rw [Nat.min_eq_left h']
    · rw [Nat.min_eq_right h', List.take_length, List.take_of_length_le h']
  rw [htk] at hi ha
  obtain ⟨b, hb⟩ := part4_returned hI hle ha h4
  have hpre := hI.split.prefix4 hle (Nat.le_refl _)
  rw [List.prefix_iff_eq_take.1 hpre] at hb
  refine h _ (fun hm => ?_) b hb
  rw [← List.prefix_iff_eq_take.1 hpre] at hm
  exact hi (hI.split.mem4 hle hm)

theorem part6_returned {n : ℕ} (hn : n ≤ t.length) {j : ι} {a}
    (hr : ((starStart st F fuel s calls).exec (t.take n)).pool j = .ret a)
    (h6 : (∃ y g, parts (calls j) = .v6 y g) ∨ ∃ x y g, parts (calls j) = .both x y (fun _ => none) g) :
    ∃ b, ((start6 st F fuel s calls).exec (t6 n)).pool j = .ret b := by
  have key : ∀ (q : Parts M (calls j).Ans) (o : Option q.call4.Ans) (o' : Option q.call6.Ans),
      some a = q.answer o o' → ((∃ y g, q = .v6 y g) ∨ ∃ x y g, q = .both x y (fun _ => none) g) →
      ∃ b, o' = some b := by
    rintro q o o' ha (⟨y, g, rfl⟩ | ⟨x, y, g, rfl⟩)
    · obtain ⟨b, hb, -⟩ := Option.map_eq_some_iff.1 ha.symm
      exact ⟨b, hb⟩
    · obtain ⟨b, -, hb⟩ := Option.bind_eq_some_iff.1 ha.symm
      obtain ⟨b, hb, -⟩ := Option.map_eq_some_iff.1 hb
      exact ⟨b, hb⟩
  have h' := hI.answers n hn j
  rw [hr] at h'
  obtain ⟨b, hb⟩ := key _ _ _ h' h6
  exact ⟨b, result_some.1 hb⟩

theorem notBefore_v6 {j i : ι}
    (h6 : (∃ y g, parts (calls j) = .v6 y g) ∨ ∃ x y g, parts (calls j) = .both x y (fun _ => none) g)
    (h : NotBefore (start6 st F fuel s calls) (t6 t.length) j i) :
    StarNotBefore (starStart st F fuel s calls) t j i := by
  intro n hi a ha
  have hle : min n t.length ≤ t.length := Nat.min_le_right _ _
  have htk : t.take n = t.take (min n t.length) := by
    rcases Nat.le_total n t.length with h' | h'
    · rw [Nat.min_eq_left h']
    · rw [Nat.min_eq_right h', List.take_length, List.take_of_length_le h']
  rw [htk] at hi ha
  obtain ⟨b, hb⟩ := part6_returned hI hle ha h6
  have hpre := hI.split.prefix6 hle (Nat.le_refl _)
  rw [List.prefix_iff_eq_take.1 hpre] at hb
  refine h _ (fun hm => ?_) b hb
  rw [← List.prefix_iff_eq_take.1 hpre] at hm
  exact hi (hI.split.mem6 hle hm)

end

end Rotonda
