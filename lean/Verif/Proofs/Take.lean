import Verif.Model.Take
import Verif.Spec.Take
import Verif.Proofs.ReadOnly
import Verif.Proofs.StarConc

/-!
# Programs that are stopped early
-/

namespace Rotonda
namespace Prog

variable {σ τ α β γ δ : Type}

/-- Every answer the program can give, whatever it reads, satisfies `P`. -/
def All (P : α → Prop) : Prog σ α → Prop
  | ret a => P a
  | act _ k => ∀ r, (k r).All P
  | panic => True
  | diverge => True

theorem All.mono {P Q : α → Prop} (h : ∀ a, P a → Q a) {p : Prog σ α} (hp : p.All P) : p.All Q := by
  induction p with
  | ret a => exact h a hp
  | act f k ih => exact fun r => ih r (hp r)
  | panic => trivial
  | diverge => trivial

theorem All.of_forall {P : α → Prop} (h : ∀ a, P a) (p : Prog σ α) : p.All P := by
  induction p with
  | ret a => exact h a
  | act f k ih => exact ih
  | panic => trivial
  | diverge => trivial

theorem All.bind {P : α → Prop} {Q : β → Prop} {p : Prog σ α} {k : α → Prog σ β} (hp : p.All P)
    (hk : ∀ a, P a → (k a).All Q) : (p.bind k).All Q := by
  induction p with
  | ret a => exact hk a hp
  | act f g ih => exact fun r => ih r (hp r)
  | panic => trivial
  | diverge => trivial

theorem All.zoom {P : α → Prop} (L : Lens σ τ) {p : Prog τ α} (hp : p.All P) : (p.zoom L).All P := by
  induction p with
  | ret a => exact hp
  | act f k ih => exact fun r => ih r (hp r)
  | panic => trivial
  | diverge => trivial

/-- `q` does what `p` does, then gives `c` of the answer of `p`; it may stop early with an
answer `a` for which `e a`, if `p` would have given one with `c` of it equal to `a` and
would only have read. -/
inductive Cut (c : β → α) (e : α → Prop) : Prog σ α → Prog σ β → Prop
  | ret (b : β) : Cut c e (ret (c b)) (ret b)
  | act {ρ : Type} (f : σ → ρ × σ) (k : ρ → Prog σ α) (k' : ρ → Prog σ β)
      (h : ∀ r, Cut c e (k r) (k' r)) : Cut c e (act f k) (act f k')
  | stop (a : α) (p : Prog σ β) (ha : e a) (hr : p.ReadOnly) (hp : p.All fun b => c b = a) :
      Cut c e (ret a) p
  | panic : Cut c e panic panic
  | diverge : Cut c e diverge diverge

theorem Cut.refl (e : α → Prop) (p : Prog σ α) : Cut id e p p := by
  induction p with
  | ret a => exact .ret (c := id) a
  | act f k ih => exact .act f _ _ ih
  | panic => exact .panic
  | diverge => exact .diverge

/-- A common beginning. -/
theorem Cut.after {c : β → α} {e : α → Prop} (m : Prog σ γ) {q : γ → Prog σ α} {p : γ → Prog σ β}
    (h : ∀ x, Cut c e (q x) (p x)) : Cut c e (m.bind q) (m.bind p) := by
  induction m with
  | ret a => exact h a
  | act f k ih => exact .act f _ _ ih
  | panic => exact .panic
  | diverge => exact .diverge

/-- The answers are converted. -/
theorem Cut.map {c : β → α} {e : α → Prop} {c' : δ → γ} {e' : γ → Prop} {q : Prog σ α}
    {p : Prog σ β} (h : Cut c e q p) (g : α → γ) (g' : β → δ) (hg : ∀ b, c' (g' b) = g (c b))
    (he : ∀ a, e a → e' (g a)) :
    Cut c' e' (q.bind fun a => .ret (g a)) (p.bind fun b => .ret (g' b)) := by
  induction h with
  | ret b =>
    show Cut c' e' (.ret (g (c b))) (.ret (g' b))
    rw [← hg b]
    exact .ret (g' b)
  | act f k k' _ ih => exact .act f _ _ ih
  | stop a p ha hr hp =>
    refine .stop _ _ (he a ha) (hr.bind fun _ => trivial) (hp.bind fun b hb => ?_)
    show c' (g' b) = g a
    rw [hg, hb]
  | panic => exact .panic
  | diverge => exact .diverge

theorem Cut.zoom {L : Lens σ τ} (hL : ∀ s, L.set s (L.get s) = s) {c : β → α} {e : α → Prop}
    {q : Prog τ α} {p : Prog τ β} (h : Cut c e q p) : Cut c e (q.zoom L) (p.zoom L) := by
  induction h with
  | ret b => exact .ret b
  | act f k k' _ ih => exact .act _ _ _ ih
  | stop a p ha hr hp => exact .stop a _ ha (hr.zoom hL) (hp.zoom L)
  | panic => exact .panic
  | diverge => exact .diverge

/-- One after the other; if the first stops early so does the second. -/
theorem Cut.seq {c : β → α} {e : α → Prop} {c' : δ → γ} {e' : γ → Prop} {q : Prog σ α} {p : Prog σ β}
    {k : α → Prog σ γ} {k' : β → Prog σ δ} (h : Cut c e q p) (hk : ∀ b, Cut c' e' (k (c b)) (k' b))
    (hs : ∀ a, e a → ∃ x, k a = .ret x ∧ e' x ∧ ∀ b, c b = a → (k' b).All fun d => c' d = x)
    (hr : ∀ b, (k' b).ReadOnly) : Cut c' e' (q.bind k) (p.bind k') := by
  induction h with
  | ret b => exact hk b
  | act f k k' _ ih => exact .act f _ _ ih
  | stop a p ha hp hall =>
    obtain ⟨x, hx, hex, hx'⟩ := hs a ha
    show Cut c' e' (k a) _
    rw [hx]
    exact .stop x _ hex (hp.bind hr) (hall.bind hx')
  | panic => exact .panic
  | diverge => exact .diverge

end Prog

open Prog Spec

variable {M : Type} [Meta M] {W : Nat}

private theorem assoc {σ α β γ : Type} (p : Prog σ α) (k : α → Prog σ β) (l : β → Prog σ γ) :
    (p.bind k).bind l = p.bind fun a => (k a).bind l := bind_assoc' p k l
private theorem bind_id {σ α : Type} (p : Prog σ α) : (p.bind fun a => ret (id a)) = p := bind_ret' p

/-- Asking for `n` items only. -/
theorem cut_lazily {σ β γ : Type} {next : Nat → σ → Prog (NSlots W) (Option (PrefixId W × σ))}
    (hn : ∀ n st, (next n st).ReadOnly) {body : PrefixId W → Prog (Rib M W) β}
    (hb : ∀ p, (body p).ReadOnly) (f : β → Option γ) (fuel : Nat) : ∀ n st,
    Cut (fun l => (l.filterMap f).take n) (fun l => n ≤ l.length)
      (lazilyTake next (fun p => (body p).bind fun x => ret (f x)) fuel n st)
      (lazily next body fuel st) := by
  induction fuel with
  | zero =>
    intro n st
    cases n with
    | zero => exact .stop [] _ (Nat.le_refl _) trivial trivial
    | succ n => exact .diverge
  | succ fuel ih =>
    intro n st
    cases n with
    | zero =>
      exact .stop [] _ (Nat.le_refl _) (readOnly_lazily hn hb _ _) (All.of_forall (fun _ => by simp) _)
    | succ n =>
      unfold lazilyTake lazily
      refine .after _ fun x => ?_
      cases x with
      | none => exact .ret (c := fun l => (l.filterMap f).take (n + 1)) []
      | some x =>
        obtain ⟨p, st'⟩ := x
        show Cut _ _ (((body p).bind fun x => ret (f x)).bind _) ((body p).bind _)
        rw [assoc]
        refine .after _ fun b => ?_
        show Cut _ _ (match f b with
          | none => _
          | some b => _) _
        cases hf : f b with
        | none =>
          have := (ih (n + 1) st').map (c' := fun l => (l.filterMap f).take (n + 1))
            (e' := fun l => n + 1 ≤ l.length) id (b :: ·) (fun l => by simp [hf]) (fun _ h => h)
          rwa [bind_id] at this
        | some y =>
          exact (ih n st').map (y :: ·) (b :: ·) (fun l => by simp [hf]) (fun _ h => Nat.succ_le_succ h)

section

theorem filterItem_eq (st : Strategy) (mui : Option Mui) (iw : Bool) :
    (fun p : PrefixId W => (filterItem (M := M) st mui iw p).bind fun x => ret (id x)) =
      filterItem st mui iw := funext fun _ => bind_ret' _

/-- Iterations of which `n` items are asked for. -/
abbrev CutList {σ β : Type} (n : Nat) : Prog σ (List β) → Prog σ (List β) → Prop :=
  Cut (List.take n) (fun l => n ≤ l.length)

omit [Meta M] in
theorem cut_nil (n : Nat) : CutList n (ret [] : Prog (Rib M W) (List (FatalResult (PrefixRecord M W))))
    (ret []) := by
  have := Cut.ret (σ := Rib M W) (c := List.take n) (e := fun l => n ≤ l.length)
    ([] : List (FatalResult (PrefixRecord M W)))
  rwa [List.take_nil] at this

theorem cut_prefixes_from (st : Strategy) (fuel n : Nat) (i : Option (MsIter W)) :
    CutList n (Star.consumeTake (M := M) st fuel n i) (Star.consume fuel (pfxItem st) i) := by
  cases i with
  | none => exact cut_nil n
  | some it =>
    have := cut_lazily (next := msNext) (W := W) readOnly_msNext (readOnly_pfxItem (M := M) st) some fuel n it
    simp only [List.filterMap_some] at this
    exact this

theorem cut_prefixes (st : Strategy) (fuel n : Nat) :
    CutList n (ribPrefixesTake (M := M) (W := W) st fuel n) (ribPrefixesIter st fuel) := by
  refine Cut.after _ fun i => ?_
  have := cut_prefixes_from (M := M) st fuel n i
  cases i <;> exact this

theorem cut_more (st : Strategy) (fuel n : Nat) (p : PrefixId W) (mui : Option Mui) (iw : Bool) :
    CutList n (ribMoreSpecificsTake (M := M) st fuel n p mui iw)
      (ribMoreSpecificsIter st fuel p mui iw) := by
  suffices key : ∀ stop : Bool, CutList n (if stop = true then ret []
      else takeMore fuel n p (filterItem (M := M) st mui iw)) (if stop = true then ret []
      else (eachMore fuel p (filterItem st mui iw)).bind fun l => ret (l.filterMap id)) by
    unfold ribMoreSpecificsTake ribMoreSpecificsIter
    cases mui with
    | none => exact key false
    | some m =>
      cases iw with
      | true => exact key false
      | false => exact Cut.after _ key
  intro stop
  cases stop with
  | true => exact cut_nil n
  | false =>
    show CutList n ((onNodes (moreSpecificStart p)).bind _) (((onNodes (moreSpecificStart p)).bind _).bind _)
    rw [assoc]
    refine Cut.after _ fun i => ?_
    cases i with
    | none => exact cut_nil n
    | some it =>
      have := (cut_lazily (next := msNext) (W := W) readOnly_msNext (readOnly_filterItem (M := M) st mui iw)
        id fuel n it).map (c' := List.take n) (e' := fun l => n ≤ l.length) id (List.filterMap id)
        (fun _ => rfl) (fun _ h => h)
      rw [filterItem_eq, bind_id] at this
      exact this

theorem cut_less (st : Strategy) (n : Nat) (p : PrefixId W) (mui : Option Mui) (iw : Bool) :
    CutList n (ribLessSpecificsTake (M := M) st n p mui iw) (ribLessSpecificsIter st p mui iw) := by
  have := (cut_lazily (next := fun _ => lsNext p) (W := W) (fun _ _ => readOnly_lsNext _ _)
    (readOnly_filterItem (M := M) st mui iw) id 256 n p.len).map (c' := List.take n)
    (e' := fun l => n ≤ l.length) id (List.filterMap id) (fun _ => rfl) (fun _ h => h)
  rw [filterItem_eq, bind_id] at this
  exact this

theorem cut_mui (st : Strategy) (fuel n : Nat) (m : Mui) (iw : Bool) :
    CutList n (ribRecordsForMuiTake (M := M) (W := W) st fuel n m iw)
      (ribIterRecordsForMui st fuel m iw) := by
  refine Cut.after _ fun wd => ?_
  show CutList n (if wd = true ∧ iw = false then _ else _) (if wd = true ∧ iw = false then _ else _)
  split
  · exact cut_nil n
  · exact cut_more _ _ _ _ _ _

theorem cut_pubs4 {n : Nat} {q p : Prog (Rib M 32) (List (FatalResult (PrefixRecord M 32)))}
    (h : CutList n q p) : CutList n ((q >>= fun l => ret (Star.pubs4 l)).zoom Star.v4L)
      ((p >>= fun l => ret (Star.pubs4 l)).zoom Star.v4L) :=
  (h.map Star.pubs4 Star.pubs4 (fun _ => (List.map_take ..).symm)
    (fun _ h => by simpa [Star.pubs4] using h)).zoom fun _ => rfl

theorem cut_pubs6 {n : Nat} {q p : Prog (Rib M 128) (List (FatalResult (PrefixRecord M 128)))}
    (h : CutList n q p) : CutList n ((q >>= fun l => ret (Star.pubs6 l)).zoom Star.v6L)
      ((p >>= fun l => ret (Star.pubs6 l)).zoom Star.v6L) :=
  (h.map Star.pubs6 Star.pubs6 (fun _ => (List.map_take ..).symm)
    (fun _ h => by simpa [Star.pubs6] using h)).zoom fun _ => rfl

theorem cut_both (st : Strategy) (fuel n : Nat) :
    CutList n (Star.prefixesTake (M := M) st fuel n) (Star.prefixesIter st fuel) := by
  refine Cut.after _ fun i => Cut.after _ fun j => ?_
  refine Cut.seq ((cut_prefixes_from st fuel n i).zoom fun _ => rfl) (fun b => ?_) (fun a ha => ?_)
    fun b => ?_
  · refine ((cut_prefixes_from st fuel (n - (b.take n).length) j).zoom fun _ => rfl).map _
      (fun l => Star.pubs4 b ++ Star.pubs6 l) (fun l => ?_) (fun l h => ?_)
    · rw [List.take_append]
      simp only [Star.pubs4, Star.pubs6, List.map_take, List.length_map, List.length_take]
      congr 2
      omega
    · simp only [Star.pubs4, Star.pubs6, List.length_append, List.length_map]
      have h : n - (b.take n).length ≤ l.length := h
      omega
  · have ha : n ≤ a.length := ha
    refine ⟨Star.pubs4 a, ?_, by simpa [Star.pubs4] using ha, fun b hb => ?_⟩
    · have h0 : n - a.length = 0 := by omega
      show ((Star.consumeTake st fuel (n - a.length) j).zoom Star.v6L).bind _ = _
      rw [h0]
      have : Star.consumeTake (M := M) st fuel 0 j = ret [] := by
        cases j with
        | none => rfl
        | some it => cases fuel <;> rfl
      rw [this]
      show ret (Star.pubs4 a ++ Star.pubs6 []) = _
      simp [Star.pubs6]
    · refine All.bind (All.of_forall (P := fun _ => True) (fun _ => trivial) _) fun l _ => ?_
      show List.take n (Star.pubs4 b ++ Star.pubs6 l) = Star.pubs4 a
      have hl : n ≤ b.length := by
        have := congrArg List.length hb
        rw [List.length_take] at this; omega
      rw [List.take_append_of_le_length (by simpa [Star.pubs4] using hl), ← hb]
      simp [Star.pubs4]
  · refine ReadOnly.bind (ReadOnly.zoom (fun _ => rfl) ?_) fun _ => trivial
    cases j with
    | none => trivial
    | some it => exact readOnly_lazily readOnly_msNext (readOnly_pfxItem st) _ _

/-- Every call of which only the first items are asked for. -/
theorem cut_call (st : Strategy) (F fuel : Nat) (n : Option Nat) (x : StarCall M) :
    Cut (firstItems n x) (Plenty n x) (x.takeProg st F fuel n) (x.prog st F fuel) := by
  have hn : ∀ x : StarCall M, Cut (firstItems none x) (Plenty none x) (x.prog st F fuel) (x.prog st F fuel) := by
    intro x
    exact Cut.refl _ _
  cases n with
  | none => exact hn x
  | some n =>
    cases x with
    | moreIter p mui iw =>
      cases p with
      | v4 p => exact cut_pubs4 (cut_more _ _ _ _ _ _)
      | v6 p => exact cut_pubs6 (cut_more _ _ _ _ _ _)
    | lessIter p mui iw =>
      cases p with
      | v4 p => exact cut_pubs4 (cut_less _ _ _ _ _)
      | v6 p => exact cut_pubs6 (cut_less _ _ _ _ _)
    | prefixesIter => exact cut_both _ _ _
    | prefixesIter4 => exact cut_pubs4 (cut_prefixes _ _ _)
    | prefixesIter6 => exact cut_pubs6 (cut_prefixes _ _ _)
    | recordsForMui4 m iw => exact cut_pubs4 (cut_mui _ _ _ _ _)
    | recordsForMui6 m iw => exact cut_pubs6 (cut_mui _ _ _ _ _)
    | _ => exact hn _

end

/-! ## Runs -/

section
variable {σ ι : Type} [DecidableEq ι] {A B : ι → Type} {c : ∀ i, B i → A i} {e : ∀ i, A i → Prop}

/-- The same state, and every call stopped early or not. -/
def CutConf (c : ∀ i, B i → A i) (e : ∀ i, A i → Prop) (d : Conf σ ι A) (d' : Conf σ ι B) : Prop :=
  d.st = d'.st ∧ ∀ i, Cut (c i) (e i) (d.pool i) (d'.pool i)

theorem cutConf_step {d : Conf σ ι A} {d' : Conf σ ι B} (h : CutConf c e d d') (i : ι) :
    CutConf c e (d.step i) (d'.step i) := by
  obtain ⟨hst, hp⟩ := h
  have hi := hp i
  have other : ∀ (x : Prog σ (A i)) (y : Prog σ (B i)), Cut (c i) (e i) x y → ∀ j,
      Cut (c j) (e j) (Function.update d.pool i x j) (Function.update d'.pool i y j) := by
    intro x y hxy j
    by_cases hj : j = i
    · subst hj; simpa using hxy
    · rw [Function.update_of_ne hj, Function.update_of_ne hj]; exact hp j
  cases hq : d'.pool i with
  | ret b => 
    rw [Conf.step_ret hq]
    rw [hq] at hi
    generalize hx : d.pool i = x at hi
    cases hi with
    | ret b => rw [Conf.step_ret hx]; exact ⟨hst, hp⟩
    | stop a p ha hr hall => rw [Conf.step_ret hx]; exact ⟨hst, hp⟩
  | panic =>
    rw [Conf.step_panic hq]
    rw [hq] at hi
    generalize hx : d.pool i = x at hi
    cases hi with
    | panic => rw [Conf.step_panic hx]; exact ⟨hst, hp⟩
    | stop a p ha hr hall => rw [Conf.step_ret hx]; exact ⟨hst, hp⟩
  | diverge =>
    rw [Conf.step_diverge hq]
    rw [hq] at hi
    generalize hx : d.pool i = x at hi
    cases hi with
    | diverge => rw [Conf.step_diverge hx]; exact ⟨hst, hp⟩
    | stop a p ha hr hall => rw [Conf.step_ret hx]; exact ⟨hst, hp⟩
  | act f k =>
    rw [Conf.step_act hq]
    rw [hq] at hi
    generalize hx : d.pool i = x at hi
    cases hi with
    | act f k k' h =>
      rw [Conf.step_act hx, hst]
      exact ⟨rfl, other _ _ (h _)⟩
    | stop a p ha hr hall =>
      rw [Conf.step_ret hx]
      refine ⟨hst.trans (hr.1 _).symm, fun j => ?_⟩
      by_cases hj : j = i
      · subst hj
        rw [hx]
        simp only [Function.update_self]
        exact .stop a _ ha (hr.2 _) (hall _)
      · show Cut _ _ (d.pool j) (Function.update d'.pool i _ j)
        rw [Function.update_of_ne hj]; exact hp j

theorem cutConf_exec (t : List ι) : ∀ {d : Conf σ ι A} {d' : Conf σ ι B}, CutConf c e d d' →
    CutConf c e (d.exec t) (d'.exec t) := by
  induction t with
  | nil => exact fun h => h
  | cons i t ih => exact fun h => ih (cutConf_step h i)

/-- What a call answers in the end is among what is left of it can answer. -/
theorem all_exec {P : ∀ i, B i → Prop} (t : List ι) : ∀ {d : Conf σ ι B} {i : ι}, (d.pool i).All (P i) →
    ((d.exec t).pool i).All (P i) := by
  induction t with
  | nil => exact fun h => h
  | cons j t ih =>
    intro d i h
    refine ih ?_
    by_cases hj : i = j
    · subst hj
      cases hq : d.pool i with
      | ret b => rw [Conf.step_ret hq]; exact h
      | panic => rw [Conf.step_panic hq]; exact h
      | diverge => rw [Conf.step_diverge hq]; exact h
      | act f k =>
        rw [Conf.step_act hq]
        rw [hq] at h
        simp only [Function.update_self]
        exact h _
    · rw [Conf.step_other _ hj]; exact h

end

end Rotonda
