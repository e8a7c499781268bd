import Verif.Spec.Quiet
import Verif.Proofs.LinUse
import Verif.Proofs.CountRun

/-!
# A store at rest

The invariant that the queries need holds of a store that several threads have changed, as
soon as no insert is under way; stores that hold the same history in that sense answer
alike.
-/

namespace Rotonda

open Prog Spec

variable {M : Type} [Meta M] {W : Nat}

/-! ## Two stores of one history -/

private theorem longest_same {P : Prefix W → Prop} {p : Prefix W} {a b : Option (Prefix W)}
    (ha : match a with
      | some q => IsLongest P p q
      | none => ∀ q, P q → ¬ Covers q p)
    (hb : match b with
      | some q => IsLongest P p q
      | none => ∀ q, P q → ¬ Covers q p) : a = b := by
  cases a with
  | none =>
    cases b with
    | none => rfl
    | some y => exact absurd hb.2.1 (ha y hb.1)
  | some x =>
    cases b with
    | none => exact absurd ha.2.1 (hb x ha.1)
    | some y =>
      have hl : x.len = y.len := Nat.le_antisymm (hb.2.2 _ ha.1 ha.2.1) (ha.2.2 _ hb.1 hb.2.1)
      have : x = y := by
        apply Prefix.id_inj
        rw [← (covers_trunc.1 ha.2.1).2, ← (covers_trunc.1 hb.2.1).2, hl]
      rw [this]

private theorem descending_same {P : Prefix W → Prop} {l l' : List (Prefix W)}
    (h : l.Pairwise (fun a b => b.len < a.len)) (h' : l'.Pairwise (fun a b => b.len < a.len))
    (hm : ∀ q, q ∈ l ↔ P q) (hm' : ∀ q, q ∈ l' ↔ P q) : l = l' := by
  have hp : l.Perm l' := (List.perm_ext_iff_of_nodup
    (h.imp (fun hab he => by rw [he] at hab; omega))
    (h'.imp (fun hab he => by rw [he] at hab; omega))).2 fun q => (hm q).trans (hm' q).symm
  exact hp.eq_of_pairwise (fun a b _ _ h1 h2 => absurd h1 (by omega)) h h'

private theorem nodup_same {P : Prefix W → Prop} {l l' : List (Prefix W)} (h : l.Nodup)
    (h' : l'.Nodup) (hm : ∀ q, q ∈ l ↔ P q) (hm' : ∀ q, q ∈ l' ↔ P q) : l.Perm l' :=
  (List.perm_ext_iff_of_nodup h h').2 fun q => (hm q).trans (hm' q).symm

theorem withValues_perm (st : Strategy) (h : History M W) (mui : Option Mui) (iw : Bool)
    {l l' : List (Prefix W)} (hp : l.Perm l') :
    (withValues st h mui iw l).Perm (withValues st h mui iw l') := hp.filterMap _

theorem QInv.same [Fam W] {st : Strategy} {h : History M W} {s s' : Rib M W} (hi : QInv st h s)
    (hi' : QInv st h s') : SameAnswers st s s' := by
  have more : ∀ (p : Prefix W) mui iw, ∃ (N : Nat) (l l' : List (FatalResult (PrefixRecord M W))),
      (∀ fuel, N ≤ fuel → (ribMoreSpecificsIter st fuel p.id mui iw).run s = .ok l s ∧
        (ribMoreSpecificsIter st fuel p.id mui iw).run s' = .ok l' s') ∧ l.Perm l' := by
    intro p mui iw
    obtain ⟨l, N, hr, hn, hm⟩ := run_moreIter hi p mui iw
    obtain ⟨l', N', hr', hn', hm'⟩ := run_moreIter hi' p mui iw
    refine ⟨N + N', _, _, fun fuel hf => ⟨hr fuel (by omega), hr' fuel (by omega)⟩, ?_⟩
    cases stopped h mui iw with
    | true => exact .refl _
    | false => exact (withValues_perm st h mui iw (nodup_same hn hn' hm hm')).map _
  refine ⟨fun p mui iw => ⟨_, run_ribGetValue hi p mui iw, run_ribGetValue hi' p mui iw⟩,
    fun p => ⟨_, run_prefixExistsId hi p, run_prefixExistsId hi' p⟩,
    fun m => ⟨_, run_muiIsWithdrawn hi m, run_muiIsWithdrawn hi' m⟩,
    fun p o => ?_, fun p mui iw => ?_, more, ?_, fun m iw => ?_⟩
  · obtain ⟨lm, ls, ms, N, h1, ⟨h2, h3⟩, ⟨h4, h5⟩, hr⟩ := run_match hi p o
    obtain ⟨lm', ls', ms', N', h1', ⟨h2', h3'⟩, ⟨h4', h5'⟩, hr'⟩ := run_match hi' p o
    obtain rfl := longest_same h1 h1'
    obtain rfl := descending_same h2 h2' h3 h3'
    refine ⟨N + N', _, _, fun fuel hf => ⟨hr fuel (by omega), hr' fuel (by omega)⟩,
      rfl, rfl, rfl, rfl, ?_⟩
    cases o.includeMoreSpecifics with
    | false => exact ⟨rfl, .refl _⟩
    | true => exact ⟨rfl, withValues_perm st h _ _ (nodup_same h4 h4' h5 h5')⟩
  · obtain ⟨l, hr, hd, hm⟩ := run_lessIter hi p mui iw
    obtain ⟨l', hr', hd', hm'⟩ := run_lessIter hi' p mui iw
    obtain rfl := descending_same hd hd' hm hm'
    exact ⟨_, hr, hr'⟩
  · obtain ⟨l, N, hr, hn, hm⟩ := run_prefixesIter hi
    obtain ⟨l', N', hr', hn', hm'⟩ := run_prefixesIter hi'
    exact ⟨N + N', _, _, fun fuel hf => ⟨hr fuel (by omega), hr' fuel (by omega)⟩,
      (nodup_same hn hn' hm hm').map _⟩
  · obtain ⟨N, l, l', hr, hp⟩ := more (Prefix.root W) (some m) iw
    have hrun : ∀ {x : Rib M W} {y}, QInv st h x → ∀ fuel,
        (ribMoreSpecificsIter st fuel (Prefix.root W).id (some m) iw).run x = .ok y x →
        (ribIterRecordsForMui st fuel m iw).run x =
          .ok (if globWd h m = true ∧ iw = false then [] else y) x := by
      intro x y hx fuel hy
      unfold ribIterRecordsForMui
      rw [run_bind, run_muiIsWithdrawn hx]
      simp only [Outcome.andThen]
      by_cases c : globWd h m = true ∧ iw = false
      · rw [if_pos c, if_pos c]; rfl
      · rw [if_neg c, if_neg c]; exact hy
    refine ⟨N, _, _, fun fuel hf => ⟨hrun hi fuel (hr fuel hf).1, hrun hi' fuel (hr fuel hf).2⟩, ?_⟩
    split
    · exact .refl _
    · exact hp

/-! ## The store after a run -/

section
variable {ι : Type} [DecidableEq ι] {calls : ι → Call M W}

omit [DecidableEq ι] in
theorem pairs_histAfter {h : History M W} {l : List ι} {q : PrefixId W} {m : Mui} :
    pairsOf (histAfter h calls l) q m ↔ begunIds h calls l q m := by
  unfold pairsOf begunIds
  refine exists_congr fun p => and_congr_right fun _ => ?_
  unfold Inserted Begun histAfter
  constructor
  · rintro ⟨r, tbi, hm, hr⟩
    rcases List.mem_append.1 hm with hm | hm
    · obtain ⟨i, hi, hc⟩ := List.mem_filterMap.1 hm
      refine .inr ⟨i, hi, r, tbi, ?_, hr⟩
      cases hx : calls i with
      | insert p' r' tbi' => rw [hx] at hc; cases hc; rfl
      | _ => rw [hx] at hc; cases hc
    · exact .inl ⟨r, tbi, hm, hr⟩
  · rintro (⟨r, tbi, hm, hr⟩ | ⟨i, hi, r, tbi, hc, hr⟩)
    · exact ⟨r, tbi, List.mem_append_right _ hm, hr⟩
    · exact ⟨r, tbi, List.mem_append_left _ (List.mem_filterMap.2 ⟨i, hi, by rw [hc]; rfl⟩), hr⟩

variable [Fam W] {st : Strategy} {F0 F fuel : Nat} (hF : 32 ≤ F) (hf : iterFuel W ≤ fuel)
  {h : History M W} {s : Rib M W} (hs : exec st F0 h = .ok () s)
include hF hf hs

/-- A default route in the tree was inserted. -/
theorem run_default (t : List ι) (hd : ((start st F fuel s calls).exec t).st.tree.defaultExists = true) :
    ∃ p m, begunIds h calls t p m ∧ p.len = 0 := by
  have hz : (⟨0#W, 0⟩ : PrefixId W).Clean := (Prefix.root W).clean
  have key : ∀ n, n ≤ t.length → Known ⟨0#W, 0⟩ ((start st F fuel s calls).at t n).st →
      ∃ p m, begunIds h calls t p m ∧ p.len = 0 := by
    intro n
    induction n with
    | zero =>
      intro _ hk
      rcases hk with ⟨h0, _⟩ | ⟨_, hk⟩
      · exact absurd h0 (Nat.lt_irrefl 0)
      · obtain ⟨p, m, ⟨p', h1, h2⟩, h3⟩ := (exec_ok_inv hs).tree.dflt.1 hk
        exact ⟨p, m, ⟨p', h1, .inl h2⟩, h3⟩
    | succ n ih =>
      intro hn hk
      rcases (run_steps hF hf hs t n hn).2.1 _ hz hk with hk | ⟨p, r, tbi, hc, hp⟩
      · exact ih (by omega) hk
      · exact ⟨_, r.mui, ⟨p, rfl, .inr ⟨t[n], List.getElem_mem hn, r, tbi, hc, rfl⟩⟩, by rw [← hp]⟩
  refine key t.length (Nat.le_refl _) (.inr ⟨rfl, ?_⟩)
  rw [Conf.at_length]; exact hd

/-- When no insert is under way the queries find what they need. -/
theorem run_at_rest {t : List ι} {order : List ι} (ht : Tracked st calls)
    (hq : InsertsDone ((start st F fuel s calls).exec t) t)
    (hin : ∀ i p r tbi a, Returned ((start st F fuel s calls).exec t) i (.insert p r tbi) a → i ∈ order)
    (hsub : ∀ i ∈ order, i ∈ t)
    (hl : LinInv st (poCond st calls) (begunIds h calls t) h calls
      (((start st F fuel s calls).exec t).st, order)) :
    QInv st (histAfter h calls order) ((start st F fuel s calls).exec t).st := by
  have hS : ∀ q m, pairsOf (histAfter h calls order) q m ↔ begunIds h calls t q m := by
    intro q m
    rw [pairs_histAfter]
    constructor
    · rintro ⟨p, hp, hb | ⟨i, hi, hrest⟩⟩
      · exact ⟨p, hp, .inl hb⟩
      · exact ⟨p, hp, .inr ⟨i, hsub i hi, hrest⟩⟩
    · rintro ⟨p, hp, hb | ⟨i, hi, r, tbi, hc, hm⟩⟩
      · exact ⟨p, hp, .inl hb⟩
      · obtain ⟨a, ha⟩ := hq i hi p r tbi hc
        exact ⟨p, hp, .inr ⟨i, hin i p r tbi a ha, r, tbi, hc, hm⟩⟩
  have hpl : ∀ q m, pairsOf (histAfter h calls order) q m →
      Placed q m ((start st F fuel s calls).exec t).st := by
    intro q m hqm
    obtain ⟨p, rfl, hb⟩ := (hS q m).1 hqm
    refine (completed_placed hF hf hs ?_).1
    rcases hb with hb | ⟨i, hi, r, tbi, hc, hm⟩
    · exact .inl hb
    · obtain ⟨a, ha⟩ := hq i hi p r tbi hc
      exact .inr ⟨i, r, tbi, a, ha, hm⟩
  have hsane := hl.sane
  refine ⟨⟨hsane.nodes, hsane.just.mono fun q m hb => (hS q m).2 hb,
    fun q m hqm h0 => (hpl q m hqm).1 h0, ?_, ⟨fun hd => ?_, ?_⟩, fun q m hqm h0 => ((hpl q m hqm).2 h0).2,
    fun q m hqm => hsane.clean q m ((hS q m).1 hqm)⟩, hl.wd, hsane.recs, hl.mem.recs, hl.mem.has,
    fun hst => hl.lsm ⟨hst, ht hst⟩⟩
  · have hg := (run_grow (calls := calls) hF hf hs [] t).1
    obtain ⟨a, e, he, hid⟩ := (exec_ok_inv hs).tree.root
    exact Has.ext ⟨a, e, he, hid⟩ hg.nodes.1.extId
  · obtain ⟨q, m, hb, h0⟩ := run_default hF hf hs t hd
    exact ⟨q, m, (hS q m).2 hb, h0⟩
  · rintro ⟨q, m, hqm, h0⟩
    exact ((hpl q m hqm).2 h0).1

/-- The run and the store it leaves. -/
theorem run_one_by_one (t : List ι) (ht : Tracked st calls) :
    ∃ order, OneByOne (start st F fuel s calls) t order ∧
      LinInv st (poCond st calls) (begunIds h calls t) h calls
        (((start st F fuel s calls).exec t).st, order) := by
  obtain ⟨log, hE, _, _, _, hinv⟩ := run_explained hF hf hs calls t
  have hlen := Nat.le_refl t.length
  have hl := hinv t.length hlen
  rw [Conf.at_length] at hl
  have hfix : t.take t.length = t := List.take_length
  refine ⟨log t.length, ⟨hE.order.nodup hlen, fun i hi => ?_, fun i p r tbi a hr => ?_,
    fun i m a hr => ?_, fun i m a hr => ?_, fun i p m tm a hr => ?_, fun i p m tm a hr => ?_,
    fun l1 j l2 i ho hi hj => ?_⟩, hl⟩
  · have := hE.order.mem hlen hi
    rwa [hfix] at this
  · exact hE.inserts _ hlen i p r tbi a (by rwa [hfix])
  · exact hE.withdrawn _ hlen i m a (by rwa [hfix])
  · exact hE.activated _ hlen i m a (by rwa [hfix])
  · exact hE.withdrawnFor ht _ hlen i p m tm a (by rwa [hfix])
  · exact hE.activatedFor ht _ hlen i p m tm a (by rwa [hfix])
  · refine hE.notBefore hlen ho hi ?_
    cases hc : calls j with
    | insert p r tbi => exact .inl ⟨p, r, tbi, rfl⟩
    | withdraw m => exact .inr (.inl (.inl ⟨m, rfl⟩))
    | activate m => exact .inr (.inl (.inr ⟨m, rfl⟩))
    | withdrawFor p m tm => exact .inr (.inr ⟨ht, p, m, tm, _, .inl ⟨rfl, rfl⟩⟩)
    | activateFor p m tm => exact .inr (.inr ⟨ht, p, m, tm, _, .inr ⟨rfl, rfl⟩⟩)
    | _ => rw [hc] at hj; exact absurd rfl hj

end

end Rotonda
