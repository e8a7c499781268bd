import Verif.Spec.WeakCount
import Mathlib.Algebra.BigOperators.Group.Finset.Basic
import Mathlib.Algebra.Order.BigOperators.Group.Finset
import Mathlib.Data.Set.Card.Arithmetic
import Mathlib.Order.Interval.Finset.Nat

/-!
# The counters, with their memory orderings: proofs
-/

namespace Rotonda.WeakCount

open Spec

variable {ι : Type} [DecidableEq ι] {t : List (Event ι)}

/-- The memory before the event number `n`. -/
def Mem.at (t : List (Event ι)) (n : Nat) : Mem ι := (Mem.start ι).run (t.take n)

theorem Mem.at_succ {n : Nat} {e : Event ι} (h : t[n]? = some e) :
    Mem.at t (n + 1) = (Mem.at t n).act e := by
  unfold Mem.at Mem.run
  rw [List.take_add_one, h, List.foldl_append]
  rfl

theorem Mem.at_past {n : Nat} (h : t[n]? = none) : Mem.at t (n + 1) = Mem.at t n := by
  unfold Mem.at
  rw [List.take_add_one, h]
  simp

theorem Mem.at_length : Mem.at t t.length = (Mem.start ι).run t := by
  unfold Mem.at
  rw [List.take_length]

theorem incs_finite (C : Set Counter) (n : Nat) : (incs t C n).Finite :=
  (Set.finite_lt_nat n).subset fun _ hk => hk.1

theorem incs_mono {C D : Set Counter} {m n : Nat} (hC : C ⊆ D) (hn : m ≤ n) :
    incs t C m ⊆ incs t D n := by
  rintro k ⟨hk, i, c, hi, hc⟩
  exact ⟨by omega, i, c, hi, hC hc⟩

theorem incs_hit {n : Nat} {i : ι} {c : Counter} (h : t[n]? = some (.inc i c)) :
    (incs t {c} (n + 1)).ncard = (incs t {c} n).ncard + 1 := by
  rw [← Set.ncard_insert_of_notMem (a := n) (fun hk => by have := hk.1; omega) (incs_finite _ _)]
  congr 1
  ext k
  constructor
  · rintro ⟨hk, j, d, hj, hd⟩
    rcases Nat.lt_or_eq_of_le (Nat.le_of_lt_succ hk) with h' | h'
    · exact .inr ⟨h', j, d, hj, hd⟩
    · exact .inl h'
  · rintro (rfl | ⟨hk, j, d, hj, hd⟩)
    · exact ⟨by omega, i, c, h, rfl⟩
    · exact ⟨by omega, j, d, hj, hd⟩

theorem incs_miss {n : Nat} {c : Counter} (h : ∀ i, t[n]? ≠ some (.inc i c)) :
    (incs t {c} (n + 1)).ncard = (incs t {c} n).ncard := by
  congr 1
  ext k
  constructor
  · rintro ⟨hk, j, d, hj, hd⟩
    rcases Nat.lt_or_eq_of_le (Nat.le_of_lt_succ hk) with h' | h'
    · exact ⟨h', j, d, hj, hd⟩
    · cases hd
      subst h'
      exact absurd hj (h j)
  · rintro ⟨hk, r⟩
    exact ⟨by omega, r⟩

/-- All values up to the number of increments were there, in order; nobody knows of more. -/
structure Inv (t : List (Event ι)) (n : Nat) : Prop where
  hist : ∀ c, (Mem.at t n).hist c = List.range ((incs t {c} n).ncard + 1)
  view : ∀ i c, (Mem.at t n).view i c ≤ (incs t {c} n).ncard
  mail : ∀ s c, (Mem.at t n).mail s c ≤ (incs t {c} n).ncard

theorem place_le {n : Nat} (h : Inv t n) (i : ι) (c : Counter) (m : Nat) :
    (Mem.at t n).view i c ≤ (Mem.at t n).place i c m ∧
      (Mem.at t n).place i c m ≤ (incs t {c} n).ncard := by
  have := h.view i c
  unfold Mem.place
  rw [h.hist, List.length_range]
  omega

theorem inv_at (t : List (Event ι)) : ∀ n, Inv t n := by
  intro n
  induction n with
  | zero =>
    have e : ∀ c, incs t {c} 0 = ∅ := fun c => by ext k; simp [incs]
    refine ⟨fun c => ?_, fun i c => ?_, fun s c => ?_⟩
    · rw [e, Set.ncard_empty]; rfl
    · exact Nat.zero_le _
    · exact Nat.zero_le _
  | succ n ih =>
    have mono : ∀ c, (incs t {c} n).ncard ≤ (incs t {c} (n + 1)).ncard := fun c =>
      Set.ncard_le_ncard (incs_mono (fun _ h => h) (by omega)) (incs_finite _ _)
    rcases he : t[n]? with _ | e
    · have e : ∀ c, (incs t {c} (n + 1)).ncard = (incs t {c} n).ncard := fun c =>
        incs_miss fun i h => by rw [he] at h; cases h
      refine ⟨fun c => ?_, fun i c => ?_, fun s c => ?_⟩
      · rw [Mem.at_past he, e]; exact ih.hist c
      · rw [Mem.at_past he, e]; exact ih.view i c
      · rw [Mem.at_past he, e]; exact ih.mail s c
    · cases e with
      | inc i c =>
        have hc := incs_hit he
        have hd : ∀ d, d ≠ c → (incs t {d} (n + 1)).ncard = (incs t {d} n).ncard := fun d hd =>
          incs_miss fun j h => by rw [he] at h; cases h; exact hd rfl
        refine ⟨fun d => ?_, fun j d => ?_, fun s d => ?_⟩
        · rw [Mem.at_succ he]
          show Function.update (Mem.at t n).hist c _ d = _
          by_cases h : d = c
          · subst h
            rw [Function.update_self, ih.hist, hc, List.range_succ (n := _ + 1)]
            rw [List.range_succ, List.getLastD_concat]
          · rw [Function.update_of_ne h, ih.hist, hd d h]
        · rw [Mem.at_succ he]
          show Function.update (Mem.at t n).view i _ j d ≤ _
          by_cases hj : j = i
          · subst hj
            rw [Function.update_self]
            by_cases h : d = c
            · subst h
              rw [Function.update_self, ih.hist, hc, List.length_range]
            · rw [Function.update_of_ne h, hd d h]
              exact ih.view j d
          · rw [Function.update_of_ne hj]
            exact (ih.view j d).trans (mono d)
        · rw [Mem.at_succ he]
          exact (ih.mail s d).trans (mono d)
      | load i c m =>
        have e : ∀ c, (incs t {c} (n + 1)).ncard = (incs t {c} n).ncard := fun c =>
          incs_miss fun i h => by rw [he] at h; cases h
        refine ⟨fun d => ?_, fun j d => ?_, fun s d => ?_⟩
        · rw [Mem.at_succ he, e]; exact ih.hist d
        · rw [Mem.at_succ he, e]
          show Function.update (Mem.at t n).view i _ j d ≤ _
          by_cases hj : j = i
          · subst hj
            rw [Function.update_self]
            by_cases h : d = c
            · subst h
              rw [Function.update_self]
              exact (place_le ih j d m).2
            · rw [Function.update_of_ne h]
              exact ih.view j d
          · rw [Function.update_of_ne hj]
            exact ih.view j d
        · rw [Mem.at_succ he, e]; exact ih.mail s d
      | send i s =>
        have e : ∀ c, (incs t {c} (n + 1)).ncard = (incs t {c} n).ncard := fun c =>
          incs_miss fun i h => by rw [he] at h; cases h
        refine ⟨fun d => ?_, fun j d => ?_, fun r d => ?_⟩
        · rw [Mem.at_succ he, e]; exact ih.hist d
        · rw [Mem.at_succ he, e]; exact ih.view j d
        · rw [Mem.at_succ he, e]
          show Function.update (Mem.at t n).mail s _ r d ≤ _
          by_cases h : r = s
          · subst h
            rw [Function.update_self]
            exact max_le (ih.mail r d) (ih.view i d)
          · rw [Function.update_of_ne h]
            exact ih.mail r d
      | recv i s =>
        have e : ∀ c, (incs t {c} (n + 1)).ncard = (incs t {c} n).ncard := fun c =>
          incs_miss fun i h => by rw [he] at h; cases h
        refine ⟨fun d => ?_, fun j d => ?_, fun r d => ?_⟩
        · rw [Mem.at_succ he, e]; exact ih.hist d
        · rw [Mem.at_succ he, e]
          show Function.update (Mem.at t n).view i _ j d ≤ _
          by_cases h : j = i
          · subst h
            rw [Function.update_self]
            exact max_le (ih.view j d) (ih.mail s d)
          · rw [Function.update_of_ne h]
            exact ih.view j d
        · rw [Mem.at_succ he, e]; exact ih.mail r d

/-- Nobody forgets. -/
theorem grows (n : Nat) : (∀ i c, (Mem.at t n).view i c ≤ (Mem.at t (n + 1)).view i c) ∧
    ∀ s c, (Mem.at t n).mail s c ≤ (Mem.at t (n + 1)).mail s c := by
  have ih := inv_at t n
  rcases he : t[n]? with _ | e
  · rw [Mem.at_past he]
    exact ⟨fun _ _ => le_rfl, fun _ _ => le_rfl⟩
  · rw [Mem.at_succ he]
    have known : ∀ (i : ι) (c : Counter) (m : Nat), (Mem.at t n).view i c ≤ m → ∀ j d,
        (Mem.at t n).view j d ≤
          Function.update (Mem.at t n).view i (Function.update ((Mem.at t n).view i) c m) j d := by
      intro i c m hm j d
      by_cases hj : j = i
      · subst hj
        rw [Function.update_self]
        by_cases h : d = c
        · subst h
          rw [Function.update_self]
          exact hm
        · rw [Function.update_of_ne h]
      · rw [Function.update_of_ne hj]
    cases e with
    | inc i c =>
      refine ⟨known i c _ ?_, fun _ _ => le_rfl⟩
      rw [ih.hist, List.length_range]
      exact (ih.view i c).trans (Nat.le_succ _)
    | load i c m => exact ⟨known i c _ (place_le ih i c m).1, fun _ _ => le_rfl⟩
    | send i s =>
      refine ⟨fun _ _ => le_rfl, fun r d => ?_⟩
      show _ ≤ Function.update (Mem.at t n).mail s _ r d
      by_cases h : r = s
      · subst h
        rw [Function.update_self]
        exact le_max_left _ _
      · rw [Function.update_of_ne h]
    | recv i s =>
      refine ⟨fun j d => ?_, fun _ _ => le_rfl⟩
      show _ ≤ Function.update (Mem.at t n).view i _ j d
      by_cases h : j = i
      · subst h
        rw [Function.update_self]
        exact le_max_left _ _
      · rw [Function.update_of_ne h]

theorem view_mono {m n : Nat} (h : m ≤ n) (i : ι) (c : Counter) :
    (Mem.at t m).view i c ≤ (Mem.at t n).view i c :=
  monotone_nat_of_le_succ (f := fun n => (Mem.at t n).view i c) (fun n => (grows n).1 i c) h

theorem mail_mono {m n : Nat} (h : m ≤ n) (s : Nat) (c : Counter) :
    (Mem.at t m).mail s c ≤ (Mem.at t n).mail s c :=
  monotone_nat_of_le_succ (f := fun n => (Mem.at t n).mail s c) (fun n => (grows n).2 s c) h

theorem after_inc {k : Nat} {i : ι} {c : Counter} (h : t[k]? = some (.inc i c)) :
    (Mem.at t (k + 1)).view i c = (incs t {c} (k + 1)).ncard := by
  rw [Mem.at_succ h, incs_hit h]
  show Function.update (Mem.at t k).view i _ i c = _
  rw [Function.update_self, Function.update_self, (inv_at t k).hist, List.length_range]

/-- A place that was known to a thread is known to all that are told of that moment. -/
theorem told_view {i : ι} {n k : Nat} (h : Told t i n k) {e : Event ι} (he : t[k]? = some e)
    (c : Counter) : (Mem.at t (k + 1)).view (byThread e) c ≤ (Mem.at t n).view i c := by
  induction h with
  | own e' h' hk =>
    rw [he] at h'
    cases h'
    exact view_mono (by omega) _ c
  | @sync i j s n a b k ha han hb hba _ ih =>
    refine (ih he).trans ?_
    have h1 : (Mem.at t b).view j c ≤ (Mem.at t (b + 1)).mail s c := by
      rw [Mem.at_succ hb]
      show _ ≤ Function.update (Mem.at t b).mail s _ s c
      rw [Function.update_self]
      exact le_max_right _ _
    have h2 : (Mem.at t a).mail s c ≤ (Mem.at t (a + 1)).view i c := by
      rw [Mem.at_succ ha]
      show _ ≤ Function.update (Mem.at t a).view i _ i c
      rw [Function.update_self]
      exact le_max_right _ _
    exact (h1.trans (mail_mono (by omega) s c)).trans (h2.trans (view_mono (by omega) i c))

theorem told_le_view (i : ι) (c : Counter) (n : Nat) :
    (toldIncs t {c} i n).ncard ≤ (Mem.at t n).view i c := by
  have hmaps : ∀ k ∈ toldIncs t {c} i n,
      (incs t {c} (k + 1)).ncard ∈ ((Finset.Icc 1 ((Mem.at t n).view i c) : Finset Nat) : Set Nat) := by
    rintro k ⟨⟨hk, j, d, hj, hd⟩, ht⟩
    cases hd
    rw [Finset.mem_coe, Finset.mem_Icc]
    refine ⟨by rw [incs_hit hj]; omega, ?_⟩
    rw [← after_inc hj]
    exact told_view ht hj c
  have hinj : Set.InjOn (fun k => (incs t {c} (k + 1)).ncard) (toldIncs t {c} i n) := by
    have lt : ∀ a b, a < b → b ∈ incs t {c} n →
        (incs t {c} (a + 1)).ncard < (incs t {c} (b + 1)).ncard := by
      rintro a b hab ⟨_, j, d, hj, hd⟩
      cases hd
      rw [incs_hit hj]
      exact Nat.lt_succ_of_le (Set.ncard_le_ncard (incs_mono (fun _ h => h) hab) (incs_finite _ _))
    intro a ha b hb hab
    dsimp only at hab
    rcases Nat.lt_trichotomy a b with h | h | h
    · have := lt a b h hb.1; omega
    · exact h
    · have := lt b a h ha.1; omega
  have := Set.ncard_le_ncard_of_injOn _ hmaps hinj (Finset.finite_toSet _)
  rw [Set.ncard_coe_finset, Nat.card_Icc] at this
  omega

theorem answer_eq (n : Nat) (i : ι) (c : Counter) (m : Nat) :
    (Mem.at t n).answer i c m = (Mem.at t n).place i c m := by
  have := (place_le (inv_at t n) i c m).2
  unfold Mem.answer
  rw [(inv_at t n).hist, List.getD_eq_getElem?_getD, List.getElem?_range (by omega)]
  rfl

end Rotonda.WeakCount
