import Verif.Proofs.StarView
import Verif.Props.StarConc
import Verif.Props.Public
import Verif.Props.ConcWalks
import Verif.Props.Marks

/-!
# Concurrent queries of one family as concurrent queries of the public interface
-/

namespace Rotonda

open Prog Spec Props

variable {M : Type} [Meta M] {ι : Type} [DecidableEq ι]

namespace RunView

variable {W : Nat} {e : Prefix W → AnyPrefix} {h : List (StarOp M)} {g : History M W}
  {calls : ι → StarCall M} {cw : ι → Call M W} {cs : Conf (Star M) ι (fun i => (calls i).Ans)}
  {st : Strategy} {F0 F fuel : Nat} {s : Rib M W} {t u : List ι} {tw : ℕ → List ι}

section
variable {c : Conf (Rib M W) ι (fun i => (cw i).Ans)} (v : RunView W e h g calls cw cs c (t ++ u) tw)
include v

theorem le : t.length ≤ (t ++ u).length := by simp

theorem split : ∃ w, tw (t ++ u).length = tw t.length ++ w := by
  obtain ⟨w, hw⟩ := v.pre v.le (Nat.le_refl _)
  exact ⟨w, hw.symm⟩

theorem notMem {j : ι} (hj : j ∉ t) : j ∉ tw t.length := fun hm =>
  hj (by have := v.mem v.le hm; rwa [List.take_left] at this)

theorem begun' {p : Prefix W} {m : Mui} (hb : Begun g cw (tw (t ++ u).length) p m) :
    StarBegun h calls (t ++ u) (e p) m := by
  have := v.begun (Nat.le_refl _) hb
  rwa [List.take_length] at this

theorem completed' {p : Prefix W} {m : Mui} (hb : StarCompleted h (cs.exec t) (e p) m) :
    Completed g (c.exec (tw t.length)) p m :=
  v.completed v.le (by rwa [List.take_left])

theorem noNewNodes' {p : Prefix W} {R : AnyPrefix → Prop} (hR : ∀ q, Covers p q → R (e q))
    (hq : StarNoNewNodes h (cs.exec t) (t ++ u) R) :
    NoNewNodes g (c.exec (tw t.length)) (tw (t ++ u).length) p :=
  v.noNewNodes v.le (Nat.le_refl _) hR (by rwa [List.take_left, List.take_length])

end

/-- The items of a list of a family as public ones. -/
theorem map_pub (l : List (PrefixRecord M W)) :
    (l.map (.ok : _ → FatalResult _)).map (fun r => r.map (View.pub e)) =
      (l.map (View.pub e)).map .ok := by
  rw [List.map_map, List.map_map]; rfl

variable [Fam W] (v : RunView W e h g calls cw cs (start st F fuel s cw) (t ++ u) tw)
  (hF : 32 ≤ F) (hf : iterFuel W ≤ fuel) (hs : exec st F0 g = .ok () s)
include v hF hf hs

theorem less {j : ι} (hj : j ∉ t) {p : Prefix W} {mui : Option Mui} {iw : Bool}
    {l : List (FatalResult (PrefixRecord M W))}
    (hr : Returned ((start st F fuel s cw).exec (tw (t ++ u).length)) j (.lessIter p mui iw) l) :
    ∃ qs : List (PubRecord M), l.map (fun r => r.map (View.pub e)) = qs.map .ok ∧
      (qs.map PubRecord.pfx).Nodup ∧
      (∀ x ∈ qs, x.recs ≠ [] ∧ Pub.Covers x.pfx (e p) ∧ x.pfx ≠ e p ∧
        ∃ m, StarBegun h calls (t ++ u) x.pfx m) ∧
      (iw = true → ∀ q m, 0 < Pub.len q → Pub.Covers q (e p) → q ≠ e p →
        (mui = none ∨ mui = some m) → StarCompleted h (cs.exec t) q m → ∃ rs, ⟨q, rs⟩ ∈ qs) := by
  obtain ⟨w, hw⟩ := v.split
  rw [hw] at hr
  obtain ⟨qs, rfl, h2, h3, h4⟩ := concurrent_less_specifics_partial hF hf hs (v.notMem hj) hr
  rw [← hw] at h3
  refine ⟨qs.map (View.pub e), map_pub qs, View.nodup_pub v.inj h2, ?_, ?_⟩
  · intro x hx
    obtain ⟨y, hy, rfl⟩ := List.mem_map.1 hx
    obtain ⟨e1, e2, e3, m, e4⟩ := h3 y hy
    exact ⟨e1, v.covers.2 e2, fun he => e3 (v.inj he), m, v.begun' e4⟩
  · intro hiw x m h0 hcov hne hm hc
    obtain ⟨q, rfl⟩ := v.left hcov
    rw [v.len] at h0
    obtain ⟨rs, hmem⟩ := h4 hiw q m h0 (v.covers.1 hcov) (fun he => hne (by rw [he])) hm (v.completed' hc)
    exact ⟨rs, (View.mem_pub v.inj).2 hmem⟩

theorem more {j : ι} (hj : j ∉ t) {p : Prefix W} {mui : Option Mui} {iw : Bool}
    {l : List (FatalResult (PrefixRecord M W))}
    (hr : Returned ((start st F fuel s cw).exec (tw (t ++ u).length)) j (.moreIter p mui iw) l) :
    ∃ qs : List (PubRecord M), l.map (fun r => r.map (View.pub e)) = qs.map .ok ∧
      (qs.map PubRecord.pfx).Nodup ∧
      (∀ x ∈ qs, x.recs ≠ [] ∧ Pub.Covers (e p) x.pfx ∧ ∃ m, StarBegun h calls (t ++ u) x.pfx m) ∧
      (iw = true → StarNoNewNodes h (cs.exec t) (t ++ u) (Pub.Covers (e p)) →
        Pub.len (e p) < Pub.width (e p) → ∀ q m, 0 < Pub.len q → Pub.Covers (e p) q →
        (mui = none ∨ mui = some m) → StarCompleted h (cs.exec t) q m → ∃ rs, ⟨q, rs⟩ ∈ qs) := by
  obtain ⟨w, hw⟩ := v.split
  rw [hw] at hr
  obtain ⟨qs, rfl, h2, h3, h4⟩ := concurrent_more_specifics_partial hF hf hs (v.notMem hj) hr
  rw [← hw] at h3 h4
  refine ⟨qs.map (View.pub e), map_pub qs, View.nodup_pub v.inj h2, ?_, ?_⟩
  · intro x hx
    obtain ⟨y, hy, rfl⟩ := List.mem_map.1 hx
    obtain ⟨e1, e2, m, e4⟩ := h3 y hy
    exact ⟨e1, v.covers.2 e2, m, v.begun' e4⟩
  · intro hiw hq hW x m h0 hcov hm hc
    obtain ⟨q, rfl⟩ := v.right hcov
    rw [v.len] at h0 hW
    rw [v.width] at hW
    obtain ⟨rs, hmem⟩ := h4 hiw (v.noNewNodes' (fun q hc => v.covers.2 hc) hq) hW q m h0
      (v.covers.1 hcov) hm (v.completed' hc)
    exact ⟨rs, (View.mem_pub v.inj).2 hmem⟩

theorem all {j : ι} (hj : j ∉ t) {l : List (FatalResult (PrefixRecord M W))}
    (hr : Returned ((start st F fuel s cw).exec (tw (t ++ u).length)) j .prefixesIter l) :
    ∃ qs : List (PrefixRecord M W), l.map (fun r => r.map (View.pub e)) = (qs.map (View.pub e)).map .ok ∧
      ((qs.map (View.pub e)).map PubRecord.pfx).Nodup ∧
      (∀ x ∈ qs.map (View.pub e), ∃ m, StarBegun h calls (t ++ u) x.pfx m) ∧
      (StarNoNewNodes h (cs.exec t) (t ++ u) (fun q => Pub.width q = W) →
        ∀ q m, 0 < Pub.len (e q) → StarCompleted h (cs.exec t) (e q) m →
          ∃ rs, ⟨e q, rs⟩ ∈ qs.map (View.pub e) ∧ rs ≠ []) := by
  obtain ⟨w, hw⟩ := v.split
  rw [hw] at hr
  obtain ⟨qs, rfl, h2, h3, h4⟩ := concurrent_prefixes_partial hF hf hs (v.notMem hj) hr
  rw [← hw] at h3 h4
  refine ⟨qs, map_pub qs, View.nodup_pub v.inj h2, ?_, ?_⟩
  · intro x hx
    obtain ⟨y, hy, rfl⟩ := List.mem_map.1 hx
    obtain ⟨m, e4⟩ := h3 y hy
    exact ⟨m, v.begun' e4⟩
  · intro hq q m h0 hc
    rw [v.len] at h0
    obtain ⟨rs, hmem, hne⟩ := h4 (v.noNewNodes' (fun q _ => v.width q) hq) q m h0 (v.completed' hc)
    exact ⟨rs, (View.mem_pub v.inj).2 hmem, hne⟩

theorem forMui {j : ι} (hj : j ∉ t) {m : Mui} {iw : Bool} {l : List (FatalResult (PrefixRecord M W))}
    (hr : Returned ((start st F fuel s cw).exec (tw (t ++ u).length)) j (.recordsForMui m iw) l) :
    ∃ qs : List (PubRecord M), l.map (fun r => r.map (View.pub e)) = qs.map .ok ∧
      (qs.map PubRecord.pfx).Nodup ∧
      (∀ x ∈ qs, Pub.width x.pfx = W ∧ x.recs ≠ [] ∧ ∃ m, StarBegun h calls (t ++ u) x.pfx m) ∧
      (iw = true → StarNoNewNodes h (cs.exec t) (t ++ u) (fun q => Pub.width q = W) →
        ∀ q, 0 < Pub.len (e q) → StarCompleted h (cs.exec t) (e q) m → ∃ rs, ⟨e q, rs⟩ ∈ qs) := by
  obtain ⟨w, hw⟩ := v.split
  rw [hw] at hr
  obtain ⟨qs, rfl, h2, h3, h4⟩ := concurrent_records_for_mui_partial hF hf hs (v.notMem hj) hr
  rw [← hw] at h3 h4
  refine ⟨qs.map (View.pub e), map_pub qs, View.nodup_pub v.inj h2, ?_, ?_⟩
  · intro x hx
    obtain ⟨y, hy, rfl⟩ := List.mem_map.1 hx
    obtain ⟨e1, m, e4⟩ := h3 y hy
    exact ⟨v.width _, e1, m, v.begun' e4⟩
  · intro hiw hq q h0 hc
    rw [v.len] at h0
    obtain ⟨rs, hmem⟩ := h4 hiw (v.noNewNodes' (fun q _ => v.width q) hq) q h0 (v.completed' hc)
    exact ⟨rs, (View.mem_pub v.inj).2 hmem⟩

theorem match_ {j : ι} (hj : j ∉ t) {p : Prefix W} {o : MatchOptions}
    {res : FatalResult (QueryResult M W)}
    (hr : Returned ((start st F fuel s cw).exec (tw (t ++ u).length)) j (.matchPrefix p o) res) :
    ∃ x, Except.map (View.res e) res = .ok x ∧
      (∀ q, x.prefix_ = some q → Pub.Covers q (e p) ∧ x.records ≠ [] ∧
        (o.matchType = .exactMatch → q = e p) ∧ ∃ m, StarBegun h calls (t ++ u) q m) ∧
      (o.includeWithdrawn = true → ∀ q m, 0 < Pub.len q → (o.mui = none ∨ o.mui = some m) →
        StarCompleted h (cs.exec t) q m → Pub.Covers q (e p) →
        (o.matchType = .exactMatch → q = e p) →
        (∃ q', x.prefix_ = some q' ∧ Pub.len q ≤ Pub.len q') ∨
        (x.prefix_ = none ∧ o.matchType ≠ .exactMatch ∧
          ∃ q' m', Pub.len q < Pub.len q' ∧ Pub.Covers q' (e p) ∧ StarBegun h calls (t ++ u) q' m' ∧
            ∀ m'', (o.mui = none ∨ o.mui = some m'') → ¬ StarCompleted h (cs.exec t) q' m'')) ∧
      (o.includeLessSpecifics = true → ∃ l, x.lessSpecifics = some l ∧
        ((Pub.items l).map PubRecord.pfx).Nodup ∧
        (∀ y ∈ Pub.items l, y.recs ≠ [] ∧ Pub.Covers y.pfx (e p) ∧ y.pfx ≠ e p ∧
          ∃ m, StarBegun h calls (t ++ u) y.pfx m) ∧
        (o.includeWithdrawn = true → ∀ q m, 0 < Pub.len q → Pub.Covers q (e p) → q ≠ e p →
          (o.mui = none ∨ o.mui = some m) → StarCompleted h (cs.exec t) q m →
          ∃ rs, ⟨q, rs⟩ ∈ Pub.items l)) ∧
      (o.includeMoreSpecifics = true → ∃ l, x.moreSpecifics = some l ∧
        ((Pub.items l).map PubRecord.pfx).Nodup ∧
        (∀ y ∈ Pub.items l, y.recs ≠ [] ∧ Pub.Covers (e p) y.pfx ∧ y.pfx ≠ e p ∧
          ∃ m, StarBegun h calls (t ++ u) y.pfx m) ∧
        (o.includeWithdrawn = true → StarNoNewNodes h (cs.exec t) (t ++ u) (Pub.Covers (e p)) →
          Pub.len (e p) < Pub.width (e p) → ∀ q m, 0 < Pub.len q → Pub.Covers (e p) q → q ≠ e p →
          (o.mui = none ∨ o.mui = some m) → StarCompleted h (cs.exec t) q m →
          ∃ rs, ⟨q, rs⟩ ∈ Pub.items l)) := by
  obtain ⟨w, hw⟩ := v.split
  rw [hw] at hr
  obtain ⟨x, rfl, h1, h2, h3⟩ := concurrent_match_partial hF hf hs (v.notMem hj) hr
  have h4 := fun ho => concurrent_match_more_partial hF hf hs (v.notMem hj) ho hr
  rw [← hw] at h1 h2 h3 h4
  refine ⟨View.res e x, rfl, fun y hy => ?_, fun hiw y m h0 hm hc hcov hex => ?_, fun ho => ?_,
    fun ho => ?_⟩
  · obtain ⟨q, rfl⟩ := View.of_res_prefix hy
    obtain ⟨e1, e2, e3, m, e4⟩ := h1 q ((View.res_prefix v.inj q).1 hy)
    exact ⟨v.covers.2 e1, e2, fun hex => by rw [e3 hex], m, v.begun' e4⟩
  · obtain ⟨q, rfl⟩ := v.left hcov
    rw [v.len] at h0
    rcases h2 hiw q m h0 hm (v.completed' hc) (v.covers.1 hcov) (fun ho => v.inj (hex ho)) with
      ⟨q', e1, e2⟩ | ⟨e1, e2, q', m', e3, e4, e5, e6⟩
    · exact .inl ⟨e q', (View.res_prefix v.inj q').2 e1, by rw [v.len, v.len]; exact e2⟩
    · refine .inr ⟨congrArg (Option.map e) e1, e2, e q', m', ?_, v.covers.2 e4, v.begun' e5, ?_⟩
      · rw [v.len, v.len]; exact e3
      · exact fun m'' hm'' hc' => e6 m'' hm'' (v.completed' hc')
  · obtain ⟨qs, e1, e2, e3, e4⟩ := h3 ho
    refine ⟨_, congrArg (Option.map _) e1, ?_⟩
    rw [show Pub.items (RecordSet.fromIter (qs.map (View.pub e))) = qs.map (View.pub e) from v.items qs]
    refine ⟨View.nodup_pub v.inj e2, fun y hy => ?_, fun hiw y m h0 hcov hne hm hc => ?_⟩
    · obtain ⟨y', hy', rfl⟩ := List.mem_map.1 hy
      obtain ⟨k1, k2, k3, m, k4⟩ := e3 y' hy'
      exact ⟨k1, v.covers.2 k2, fun he => k3 (v.inj he), m, v.begun' k4⟩
    · obtain ⟨q, rfl⟩ := v.left hcov
      rw [v.len] at h0
      obtain ⟨rs, hmem⟩ := e4 hiw q m h0 (v.covers.1 hcov) (fun he => hne (by rw [he])) hm (v.completed' hc)
      exact ⟨rs, (View.mem_pub v.inj).2 hmem⟩
  · obtain ⟨qs, e1, e2, e3, e4⟩ := h4 ho
    refine ⟨_, congrArg (Option.map _) e1, ?_⟩
    rw [show Pub.items (RecordSet.fromIter (qs.map (View.pub e))) = qs.map (View.pub e) from v.items qs]
    refine ⟨View.nodup_pub v.inj e2, fun y hy => ?_, fun hiw hq hW y m h0 hcov hne hm hc => ?_⟩
    · obtain ⟨y', hy', rfl⟩ := List.mem_map.1 hy
      obtain ⟨k1, k2, k3, m, k4⟩ := e3 y' hy'
      exact ⟨k1, v.covers.2 k2, fun he => k3 (v.inj he), m, v.begun' k4⟩
    · obtain ⟨q, rfl⟩ := v.right hcov
      rw [v.len] at h0 hW
      rw [v.width] at hW
      obtain ⟨rs, hmem⟩ := e4 hiw (v.noNewNodes' (fun q hc => v.covers.2 hc) hq) hW q m h0
        (v.covers.1 hcov) (fun he => hne (by rw [he])) hm (v.completed' hc)
      exact ⟨rs, (View.mem_pub v.inj).2 hmem⟩

/-! ## Records read and reported -/

theorem upsertMarked {i : ι} {p : Prefix W} {r : Record M} {tbi : Option (Meta.TBI M)}
    {a : Except StoreError UpsertReport} (ht : StarTracked st calls)
    (hr : StarReturned (cs.exec t) i (.insert (e p) r tbi) a) :
    ∃ j ∈ t ++ u, ∃ r' tbi' w, calls j = .insert (e p) r' tbi' ∧ r'.mui = r.mui ∧
      StarNotBefore cs (t ++ u) j i ∧
      (ribMuiIsWithdrawn r.mui).run ((start st F fuel s cw).exec (tw (t ++ u).length)).st =
        .ok w ((start st F fuel s cw).exec (tw (t ++ u).length)).st ∧
      ∃ r0, (ribGetValue st p.id (some r.mui) true).run
            ((start st F fuel s cw).exec (tw (t ++ u).length)).st =
          .ok (.ok (some [shownAs w r0])) ((start st F fuel s cw).exec (tw (t ++ u).length)).st ∧
        (r0 = asStored st r' ∨ ∃ k ∈ t ++ u, ∃ tm rs, StarMarksRoute (calls k) (e p) r.mui tm rs ∧
          StarNotBefore cs (t ++ u) k j ∧ r0 = marked st tm rs (asStored st r')) := by
  obtain ⟨w, hw⟩ := v.split
  have hr' := v.returned v.le (p := p) (by rw [List.take_left]; exact hr)
  obtain ⟨j, hj, r', tbi', wd, hc, hmui, hnb, hst, r0, hv, hor⟩ :=
    concurrent_upsert_marked_partial hF hf hs (v.tracked ht) hr' w
  rw [← hw] at hj hnb hst hv hor
  have hmem : ∀ {k}, k ∈ tw (t ++ u).length → k ∈ t ++ u := fun hk => by
    have := v.mem (Nat.le_refl _) hk; rwa [List.take_length] at this
  refine ⟨j, hmem hj, r', tbi', wd, v.insert hc, hmui, v.notBefore (.inl ⟨_, _, _, hc⟩) hnb, hst, r0, hv, ?_⟩
  rcases hor with hor | ⟨k, hk, tm, rs, hmk, hnb', he⟩
  · exact .inl hor
  · exact .inr ⟨k, hmem hk, tm, rs, v.marksRoute hmk, v.notBefore (.inr ⟨_, _, _, _, hmk⟩) hnb', he⟩

theorem mark {i : ι} {p : Prefix W} {m : Mui} {tm : LTime} (ht : StarTracked st calls)
    (hr : Returned ((start st F fuel s cw).exec (tw t.length)) i (.withdrawFor p m tm) (.ok ()) ∨
      Returned ((start st F fuel s cw).exec (tw t.length)) i (.activateFor p m tm) (.ok ()))
    (hins : StarCompleted h (cs.exec (t ++ u)) (e p) m) :
    ∃ j ∈ t ++ u, ∃ r0 w, StarNotBefore cs (t ++ u) j i ∧
      (ribMuiIsWithdrawn m).run ((start st F fuel s cw).exec (tw (t ++ u).length)).st =
        .ok w ((start st F fuel s cw).exec (tw (t ++ u).length)).st ∧
      (ribGetValue st p.id (some m) true).run ((start st F fuel s cw).exec (tw (t ++ u).length)).st =
        .ok (.ok (some [shownAs w r0])) ((start st F fuel s cw).exec (tw (t ++ u).length)).st ∧
      r0.mui = m ∧
      ((∃ r' tbi', calls j = .insert (e p) r' tbi' ∧ r'.mui = m ∧ r0 = asStored st r') ∨
        ∃ tm' rs', StarMarksRoute (calls j) (e p) m tm' rs' ∧ r0.ltime = tm' ∧ r0.status = rs') := by
  obtain ⟨w, hw⟩ := v.split
  have hins' := v.completed (Nat.le_refl _) (p := p) (by rw [List.take_length]; exact hins)
  rw [hw] at hins'
  obtain ⟨j, hj, r0, wd, hnb, hst, hv, hm0, hor⟩ :=
    concurrent_mark_partial hF hf hs (v.tracked ht) hr w hins'
  rw [← hw] at hj hnb hst hv
  refine ⟨j, ?_, r0, wd, ?_, hst, hv, hm0, ?_⟩
  · have := v.mem (Nat.le_refl _) hj; rwa [List.take_length] at this
  · rcases hor with ⟨r', tbi', hc, -⟩ | ⟨tm', rs', hmk, -⟩
    · exact v.notBefore (.inl ⟨_, _, _, hc⟩) hnb
    · exact v.notBefore (.inr ⟨_, _, _, _, hmk⟩) hnb
  · rcases hor with ⟨r', tbi', hc, hrest⟩ | ⟨tm', rs', hmk, hrest⟩
    · exact .inl ⟨r', tbi', v.insert hc, hrest⟩
    · exact .inr ⟨tm', rs', v.marksRoute hmk, hrest⟩

theorem upsertWalk {i k : ι} {p : Prefix W} {r : Record M} {tbi : Option (Meta.TBI M)}
    {a : Except StoreError UpsertReport} (ht : StarTracked st calls)
    (hm : ∀ i t, calls i ≠ .withdrawFor (e p) r.mui t ∧ calls i ≠ .activateFor (e p) r.mui t)
    (hr : StarReturned (cs.exec t) i (.insert (e p) r tbi) a) (hk : k ∉ t) {x : Call M W} {b : x.Ans}
    (hb : Returned ((start st F fuel s cw).exec (tw (t ++ u).length)) k x b)
    {mui : Option Mui} (hx : asks x = some (mui, true)) (hmui : ∀ m, mui = some m → m = r.mui)
    {rs : List (Record M)} (hrs : (p, rs) ∈ reports x b) :
    ∃ j ∈ t ++ u, ∃ r' tbi' w, calls j = .insert (e p) r' tbi' ∧ r'.mui = r.mui ∧
      StarNotBefore cs (t ++ u) j i ∧ shownAs w (asStored st r') ∈ rs ∧
      ∀ y ∈ rs, y.mui = r.mui → y = shownAs w (asStored st r') := by
  obtain ⟨w, hw⟩ := v.split
  have hr' := v.returned v.le (p := p) (by rw [List.take_left]; exact hr)
  rw [hw] at hb
  obtain ⟨j, hj, r', tbi', wd, hc, hmr, hnb, hrest⟩ := concurrent_upsert_walk hF hf hs (v.tracked ht)
    (fun i tm => ⟨fun hc => (hm i tm).1 (v.withdrawFor hc), fun hc => (hm i tm).2 (v.activateFor hc)⟩)
    hr' (v.notMem hk) hb hx hmui hrs
  rw [← hw] at hj hnb
  refine ⟨j, ?_, r', tbi', wd, v.insert hc, hmr, v.notBefore (.inl ⟨_, _, _, hc⟩) hnb, hrest⟩
  have := v.mem (Nat.le_refl _) hj; rwa [List.take_length] at this

theorem steady {k : ι} (ht : StarTracked st calls) {q : Prefix W} (h0 : 0 < q.len) {r : Record M}
    {mui : Option Mui} {iw : Bool} (hv : Pub.Visible st h mui iw (e q) r)
    (hT : ∀ i ∈ t ++ u, ¬ StarTouches (calls i) (e q) r.mui) (hk : k ∉ t) {x : Call M W} {b : x.Ans}
    (hb : Returned ((start st F fuel s cw).exec (tw (t ++ u).length)) k x b)
    (hx : asks x = some (mui, iw))
    (hd : Due g ((start st F fuel s cw).exec (tw t.length)) (tw (t ++ u).length) x q) :
    ∃ rs, (q, rs) ∈ reports x b ∧ r ∈ rs := by
  obtain ⟨w, hw⟩ := v.split
  rw [hw] at hb hd
  refine concurrent_steady_partial hF hf hs (v.tracked ht) h0 (by rw [← v.visible]; exact hv) ?_
    (v.notMem hk) hb hx hd
  intro i hi htc
  rw [← hw] at hi
  refine hT i ?_ (v.touches htc)
  have := v.mem (Nat.le_refl _) hi; rwa [List.take_length] at this

end RunView

/-! ## The queries over several prefixes and their parts -/

theorem starOks_map {W : Nat} (f : PrefixRecord M W → PubRecord M)
    (l : List (FatalResult (PrefixRecord M W))) :
    starOks (l.map fun r => r.map f) = (oks l).map f := by
  unfold starOks oks
  induction l with
  | nil => rfl
  | cons a l ih => cases a <;> simpa [Except.map] using ih

theorem starOks_append {α : Type} (l l' : List (FatalResult α)) :
    starOks (l ++ l') = starOks l ++ starOks l' := List.filterMap_append

theorem RunView.reports_match {W : Nat} {e : Prefix W → AnyPrefix} {h : List (StarOp M)}
    {g : History M W} {calls : ι → StarCall M} {cw : ι → Call M W}
    {cs : Conf (Star M) ι (fun i => (calls i).Ans)} {c : Conf (Rib M W) ι (fun i => (cw i).Ans)}
    {t : List ι} {tw : ℕ → List ι} (v : RunView W e h g calls cw cs c t tw) {p : Prefix W}
    {p' : AnyPrefix} {o : MatchOptions} (a : FatalResult (QueryResult M W)) :
    starReports (.matchPrefix p' o) (Except.map (View.res e) a) =
      (reports (.matchPrefix p o) a).map (View.pub e) := by
  have hi : ∀ l : Option (List (PrefixRecord M W)),
      ((l.map fun l => RecordSet.fromIter (l.map (View.pub e))).map Pub.items).getD [] =
        (l.getD []).map (View.pub e) := by
    intro l
    cases l with
    | none => rfl
    | some l => exact v.items l
  cases a with
  | error x => rfl
  | ok x =>
    show (x.prefix_.map e).toList.map (fun q => (⟨q, x.records⟩ : PubRecord M)) ++ _ ++ _ = List.map (View.pub e) (x.prefix_.toList.map (fun q => (q, x.records)) ++
      x.lessSpecifics.getD [] ++ x.moreSpecifics.getD [])
    rw [List.map_append, List.map_append, ← hi, ← hi]
    congr 2
    cases x.prefix_ <;> rfl

theorem answer_both {α : Type} {q : Parts M α} {x : Call M 32} {y : Call M 128}
    {g : x.Ans → y.Ans → α} (hq : q = .both x y (fun _ => none) g ∨ q = .mixed x y g) {o : Option q.call4.Ans}
    {o' : Option q.call6.Ans} {a : α} (h : q.answer o o' = some a) :
    ∃ (hc : q.call4 = x) (hc' : q.call6 = y) (b : x.Ans) (b' : y.Ans),
      o = some (hc ▸ b) ∧ o' = some (hc' ▸ b') ∧ a = g b b' := by
  rcases hq with rfl | rfl <;>
  obtain ⟨b, hb, h⟩ := Option.bind_eq_some_iff.1 h <;>
  obtain ⟨b', hb', e⟩ := Option.map_eq_some_iff.1 h <;>
  exact ⟨rfl, rfl, b, b', hb, hb', e.symm⟩

section
variable {calls : ι → StarCall M} {st : Strategy} {F fuel : Nat} {s : Star M}
  {t : List ι} {t4 t6 : ℕ → List ι}
  (hI : Interleaves (starStart st F fuel s calls) (start4 st F fuel s calls)
    (start6 st F fuel s calls) t t4 t6)
include hI

theorem returned_both {n : ℕ} (hn : n ≤ t.length) {i : ι} {x : StarCall M} {a : x.Ans} {y : Call M 32}
    {z : Call M 128} {g : y.Ans → z.Ans → x.Ans} (hx : parts x = .both y z (fun _ => none) g ∨ parts x = .mixed y z g)
    (hr : StarReturned ((starStart st F fuel s calls).exec (t.take n)) i x a) :
    ∃ b b', Returned ((start4 st F fuel s calls).exec (t4 n)) i y b ∧
      Returned ((start6 st F fuel s calls).exec (t6 n)) i z b' ∧ a = g b b' := by
  obtain ⟨rfl, hp⟩ := hr
  have := hI.answers n hn i
  rw [hp] at this
  obtain ⟨hc, hc', b, b', hb, hb', he⟩ := answer_both hx this.symm
  exact ⟨b, b', ⟨hc, result_some.1 hb⟩, ⟨hc', result_some.1 hb'⟩, he⟩

/-- A query over several prefixes reports the prefixes of the family that its part reports. -/
theorem part4_reports (h : List (StarOp M)) {n : ℕ} (hn : n ≤ t.length) {i : ι} {x : StarCall M}
    {a : x.Ans} (hr : StarReturned ((starStart st F fuel s calls).exec (t.take n)) i x a)
    {o : Option Mui × Bool} (hx : starAsks x = some o) :
    (∃ y b, Returned ((start4 st F fuel s calls).exec (t4 n)) i y b ∧ asks y = some o ∧
      (∀ q rs, ⟨.v4 q, rs⟩ ∈ starReports x a ↔ (q, rs) ∈ reports y b) ∧
      ∀ q k, k ≤ t.length →
        StarDue h ((starStart st F fuel s calls).exec (t.take k)) (t.take n) x (.v4 q) →
        Due (hist4 h) ((start4 st F fuel s calls).exec (t4 k)) (t4 n) y q) ∨
    ((∀ q rs, ⟨.v4 q, rs⟩ ∉ starReports x a) ∧
      ∀ q k, ¬ StarDue h ((starStart st F fuel s calls).exec (t.take k)) (t.take n) x (.v4 q)) := by
  have v := runView4 h hI
  have hp : ∀ (l : List (FatalResult (PrefixRecord M 32))) (q : Prefix 32) (rs : List (Record M)),
      ⟨.v4 q, rs⟩ ∈ starOks (Star.pubs4 l) ↔ (q, rs) ∈ oks l := by
    intro l q rs
    unfold Star.pubs4
    rw [starOks_map]
    exact View.mem_pub (e := .v4) v.inj
  have hno : ∀ (l : List (FatalResult (PrefixRecord M 128))) (q : Prefix 32) (rs : List (Record M)),
      ⟨.v4 q, rs⟩ ∉ starOks (Star.pubs6 l) := by
    intro l q rs hm
    unfold Star.pubs6 at hm
    rw [starOks_map] at hm
    obtain ⟨q', hq'⟩ := View.of_mem_pub (e := .v6) hm
    cases hq'
  have hall : ∀ {k : ℕ}, k ≤ t.length →
      StarNoNewNodes h ((starStart st F fuel s calls).exec (t.take k)) (t.take n)
        (fun q => Pub.width q = 32) →
      ∃ r : Prefix 32, r.len = 0 ∧ NoNewNodes (hist4 h) ((start4 st F fuel s calls).exec (t4 k)) (t4 n) r :=
    fun hk hq => ⟨Prefix.root 32, rfl, v.noNewNodes hk hn (fun q _ => rfl) hq⟩
  cases x with
  | lessIter p mui iw =>
    cases p with
    | v4 p =>
      obtain ⟨b, hb, rfl⟩ := returned_v4 hI hn (x := .lessIter (.v4 p) mui iw)
        (y := .lessIter p mui iw) (g := Star.pubs4) rfl hr
      exact .inl ⟨_, b, hb, hx, hp b, fun q k hk hd => ⟨v.covers.1 hd.1, fun he => hd.2 (by rw [he])⟩⟩
    | v6 p =>
      obtain ⟨b, -, rfl⟩ := returned_v6 hI hn (x := .lessIter (.v6 p) mui iw)
        (y := .lessIter p mui iw) (g := Star.pubs6) rfl hr
      exact .inr ⟨hno b, fun q k hd => hd.1⟩
  | moreIter p mui iw =>
    cases p with
    | v4 p =>
      obtain ⟨b, hb, rfl⟩ := returned_v4 hI hn (x := .moreIter (.v4 p) mui iw)
        (y := .moreIter p mui iw) (g := Star.pubs4) rfl hr
      exact .inl ⟨_, b, hb, hx, hp b, fun q k hk hd =>
        ⟨v.covers.1 hd.1, hd.2.1, v.noNewNodes hk hn (fun q hc => v.covers.2 hc) hd.2.2⟩⟩
    | v6 p =>
      obtain ⟨b, -, rfl⟩ := returned_v6 hI hn (x := .moreIter (.v6 p) mui iw)
        (y := .moreIter p mui iw) (g := Star.pubs6) rfl hr
      exact .inr ⟨hno b, fun q k hd => hd.1⟩
  | prefixesIter =>
    obtain ⟨b, b', hb, hb', rfl⟩ := returned_both hI hn (x := .prefixesIter) (y := .prefixesIter)
      (z := .prefixesIter) (g := fun a b => Star.pubs4 a ++ Star.pubs6 b) (.inr rfl) hr
    refine .inl ⟨_, b, hb, hx, fun q rs => ?_, fun q k hk hd => hall hk hd⟩
    show _ ∈ starOks (Star.pubs4 b ++ Star.pubs6 b') ↔ _
    rw [starOks_append, List.mem_append]
    exact ⟨fun hm => (hp b q rs).1 (hm.resolve_right (hno b' q rs)), fun hm => .inl ((hp b q rs).2 hm)⟩
  | prefixesIter4 =>
    obtain ⟨b, hb, rfl⟩ := returned_v4 hI hn (x := .prefixesIter4) (y := .prefixesIter) (g := Star.pubs4) rfl hr
    exact .inl ⟨_, b, hb, hx, hp b, fun q k hk hd => hall hk hd.2⟩
  | prefixesIter6 =>
    obtain ⟨b, -, rfl⟩ := returned_v6 hI hn (x := .prefixesIter6) (y := .prefixesIter) (g := Star.pubs6) rfl hr
    exact .inr ⟨hno b, fun q k hd => absurd hd.1 (by simp [Pub.width])⟩
  | recordsForMui4 m iw =>
    obtain ⟨b, hb, rfl⟩ := returned_v4 hI hn (x := .recordsForMui4 m iw) (y := .recordsForMui m iw)
      (g := Star.pubs4) rfl hr
    exact .inl ⟨_, b, hb, hx, hp b, fun q k hk hd => hall hk hd.2⟩
  | recordsForMui6 m iw =>
    obtain ⟨b, -, rfl⟩ := returned_v6 hI hn (x := .recordsForMui6 m iw) (y := .recordsForMui m iw)
      (g := Star.pubs6) rfl hr
    exact .inr ⟨hno b, fun q k hd => absurd hd.1 (by simp [Pub.width])⟩
  | matchPrefix p mo =>
    cases p with
    | v4 p =>
      obtain ⟨b, hb, rfl⟩ := returned_v4 hI hn (x := .matchPrefix (.v4 p) mo) (y := .matchPrefix p mo)
        (g := fun a => Except.map Star.result4 a) rfl hr
      refine .inl ⟨_, b, hb, hx, fun q rs => ?_, fun q k hk hd => ?_⟩
      · have := v.reports_match (p := p) (p' := .v4 p) (o := mo) b
        show _ ∈ starReports (.matchPrefix (.v4 p) mo) (Except.map (View.res .v4) b) ↔ _
        rw [this]
        exact View.mem_pub (e := .v4) v.inj
      · rcases hd with hd | ⟨ho, hd, hne⟩ | ⟨ho, hd, hne, hW, hq⟩
        · exact .inl (v.inj hd)
        · exact .inr (.inl ⟨ho, v.covers.1 hd, fun he => hne (by rw [he])⟩)
        · exact .inr (.inr ⟨ho, v.covers.1 hd, fun he => hne (by rw [he]), hW,
            v.noNewNodes hk hn (fun q hc => v.covers.2 hc) hq⟩)
    | v6 p =>
      obtain ⟨b, -, rfl⟩ := returned_v6 hI hn (x := .matchPrefix (.v6 p) mo) (y := .matchPrefix p mo)
        (g := fun a => Except.map Star.result6 a) rfl hr
      refine .inr ⟨fun q rs => ?_, fun q k hd => ?_⟩
      · have := (runView6 h hI).reports_match (p := p) (p' := .v6 p) (o := mo) b
        show _ ∉ starReports (.matchPrefix (.v6 p) mo) (Except.map (View.res .v6) b)
        rw [this]
        intro hm
        obtain ⟨q', hq'⟩ := View.of_mem_pub (e := .v6) hm
        cases hq'
      · rcases hd with hd | ⟨ho, hd, hne⟩ | ⟨ho, hd, hne, hW, hq⟩
        · cases hd
        · exact hd
        · exact hd
  | _ => cases hx

/-- A query over several prefixes reports the prefixes of the family that its part reports. -/
theorem part6_reports (h : List (StarOp M)) {n : ℕ} (hn : n ≤ t.length) {i : ι} {x : StarCall M}
    {a : x.Ans} (hr : StarReturned ((starStart st F fuel s calls).exec (t.take n)) i x a)
    {o : Option Mui × Bool} (hx : starAsks x = some o) :
    (∃ y b, Returned ((start6 st F fuel s calls).exec (t6 n)) i y b ∧ asks y = some o ∧
      (∀ q rs, ⟨.v6 q, rs⟩ ∈ starReports x a ↔ (q, rs) ∈ reports y b) ∧
      ∀ q k, k ≤ t.length →
        StarDue h ((starStart st F fuel s calls).exec (t.take k)) (t.take n) x (.v6 q) →
        Due (hist6 h) ((start6 st F fuel s calls).exec (t6 k)) (t6 n) y q) ∨
    ((∀ q rs, ⟨.v6 q, rs⟩ ∉ starReports x a) ∧
      ∀ q k, ¬ StarDue h ((starStart st F fuel s calls).exec (t.take k)) (t.take n) x (.v6 q)) := by
  have v := runView6 h hI
  have hp : ∀ (l : List (FatalResult (PrefixRecord M 128))) (q : Prefix 128) (rs : List (Record M)),
      ⟨.v6 q, rs⟩ ∈ starOks (Star.pubs6 l) ↔ (q, rs) ∈ oks l := by
    intro l q rs
    unfold Star.pubs6
    rw [starOks_map]
    exact View.mem_pub (e := .v6) v.inj
  have hno : ∀ (l : List (FatalResult (PrefixRecord M 32))) (q : Prefix 128) (rs : List (Record M)),
      ⟨.v6 q, rs⟩ ∉ starOks (Star.pubs4 l) := by
    intro l q rs hm
    unfold Star.pubs4 at hm
    rw [starOks_map] at hm
    obtain ⟨q', hq'⟩ := View.of_mem_pub (e := .v4) hm
    cases hq'
  have hall : ∀ {k : ℕ}, k ≤ t.length →
      StarNoNewNodes h ((starStart st F fuel s calls).exec (t.take k)) (t.take n)
        (fun q => Pub.width q = 128) →
      ∃ r : Prefix 128, r.len = 0 ∧ NoNewNodes (hist6 h) ((start6 st F fuel s calls).exec (t6 k)) (t6 n) r :=
    fun hk hq => ⟨Prefix.root 128, rfl, v.noNewNodes hk hn (fun q _ => rfl) hq⟩
  cases x with
  | lessIter p mui iw =>
    cases p with
    | v6 p =>
      obtain ⟨b, hb, rfl⟩ := returned_v6 hI hn (x := .lessIter (.v6 p) mui iw)
        (y := .lessIter p mui iw) (g := Star.pubs6) rfl hr
      exact .inl ⟨_, b, hb, hx, hp b, fun q k hk hd => ⟨v.covers.1 hd.1, fun he => hd.2 (by rw [he])⟩⟩
    | v4 p =>
      obtain ⟨b, -, rfl⟩ := returned_v4 hI hn (x := .lessIter (.v4 p) mui iw)
        (y := .lessIter p mui iw) (g := Star.pubs4) rfl hr
      exact .inr ⟨hno b, fun q k hd => hd.1⟩
  | moreIter p mui iw =>
    cases p with
    | v6 p =>
      obtain ⟨b, hb, rfl⟩ := returned_v6 hI hn (x := .moreIter (.v6 p) mui iw)
        (y := .moreIter p mui iw) (g := Star.pubs6) rfl hr
      exact .inl ⟨_, b, hb, hx, hp b, fun q k hk hd =>
        ⟨v.covers.1 hd.1, hd.2.1, v.noNewNodes hk hn (fun q hc => v.covers.2 hc) hd.2.2⟩⟩
    | v4 p =>
      obtain ⟨b, -, rfl⟩ := returned_v4 hI hn (x := .moreIter (.v4 p) mui iw)
        (y := .moreIter p mui iw) (g := Star.pubs4) rfl hr
      exact .inr ⟨hno b, fun q k hd => hd.1⟩
  | prefixesIter =>
    obtain ⟨b, b', hb, hb', rfl⟩ := returned_both hI hn (x := .prefixesIter) (y := .prefixesIter)
      (z := .prefixesIter) (g := fun a b => Star.pubs4 a ++ Star.pubs6 b) (.inr rfl) hr
    refine .inl ⟨_, b', hb', hx, fun q rs => ?_, fun q k hk hd => hall hk hd⟩
    show _ ∈ starOks (Star.pubs4 b ++ Star.pubs6 b') ↔ _
    rw [starOks_append, List.mem_append]
    exact ⟨fun hm => (hp b' q rs).1 (hm.resolve_left (hno b q rs)), fun hm => .inr ((hp b' q rs).2 hm)⟩
  | prefixesIter6 =>
    obtain ⟨b, hb, rfl⟩ := returned_v6 hI hn (x := .prefixesIter6) (y := .prefixesIter) (g := Star.pubs6) rfl hr
    exact .inl ⟨_, b, hb, hx, hp b, fun q k hk hd => hall hk hd.2⟩
  | prefixesIter4 =>
    obtain ⟨b, -, rfl⟩ := returned_v4 hI hn (x := .prefixesIter4) (y := .prefixesIter) (g := Star.pubs4) rfl hr
    exact .inr ⟨hno b, fun q k hd => absurd hd.1 (by simp [Pub.width])⟩
  | recordsForMui6 m iw =>
    obtain ⟨b, hb, rfl⟩ := returned_v6 hI hn (x := .recordsForMui6 m iw) (y := .recordsForMui m iw)
      (g := Star.pubs6) rfl hr
    exact .inl ⟨_, b, hb, hx, hp b, fun q k hk hd => hall hk hd.2⟩
  | recordsForMui4 m iw =>
    obtain ⟨b, -, rfl⟩ := returned_v4 hI hn (x := .recordsForMui4 m iw) (y := .recordsForMui m iw)
      (g := Star.pubs4) rfl hr
    exact .inr ⟨hno b, fun q k hd => absurd hd.1 (by simp [Pub.width])⟩
  | matchPrefix p mo =>
    cases p with
    | v6 p =>
      obtain ⟨b, hb, rfl⟩ := returned_v6 hI hn (x := .matchPrefix (.v6 p) mo) (y := .matchPrefix p mo)
        (g := fun a => Except.map Star.result6 a) rfl hr
      refine .inl ⟨_, b, hb, hx, fun q rs => ?_, fun q k hk hd => ?_⟩
      · have := v.reports_match (p := p) (p' := .v6 p) (o := mo) b
        show _ ∈ starReports (.matchPrefix (.v6 p) mo) (Except.map (View.res .v6) b) ↔ _
        rw [this]
        exact View.mem_pub (e := .v6) v.inj
      · rcases hd with hd | ⟨ho, hd, hne⟩ | ⟨ho, hd, hne, hW, hq⟩
        · exact .inl (v.inj hd)
        · exact .inr (.inl ⟨ho, v.covers.1 hd, fun he => hne (by rw [he])⟩)
        · exact .inr (.inr ⟨ho, v.covers.1 hd, fun he => hne (by rw [he]), hW,
            v.noNewNodes hk hn (fun q hc => v.covers.2 hc) hq⟩)
    | v4 p =>
      obtain ⟨b, -, rfl⟩ := returned_v4 hI hn (x := .matchPrefix (.v4 p) mo) (y := .matchPrefix p mo)
        (g := fun a => Except.map Star.result4 a) rfl hr
      refine .inr ⟨fun q rs => ?_, fun q k hd => ?_⟩
      · have := (runView4 h hI).reports_match (p := p) (p' := .v4 p) (o := mo) b
        show _ ∉ starReports (.matchPrefix (.v4 p) mo) (Except.map (View.res .v4) b)
        rw [this]
        intro hm
        obtain ⟨q', hq'⟩ := View.of_mem_pub (e := .v4) hm
        cases hq'
      · rcases hd with hd | ⟨ho, hd, hne⟩ | ⟨ho, hd, hne, hW, hq⟩
        · cases hd
        · exact hd
        · exact hd
  | _ => cases hx

end

end Rotonda
