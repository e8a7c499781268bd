import Verif.Spec.Public
import Verif.Props.Families
import Verif.Props.FromQueries
import Verif.Props.PathSelection
import Verif.Props.RecordSets

/-!
# From the answers of one family to those of the public interface
-/

namespace Rotonda

open Prog Spec Props

variable {M : Type} [Meta M]

/-- The prefixes and the history of one family among all. -/
structure View (W : Nat) (e : Prefix W → AnyPrefix) (h : List (StarOp M)) (g : History M W) :
    Prop where
  inj : ∀ {p q}, e p = e q → p = q
  len : ∀ p, Pub.len (e p) = p.len
  width : ∀ p, Pub.width (e p) = W
  covers : ∀ {p q}, Pub.Covers (e p) (e q) ↔ Covers p q
  left : ∀ {x q}, Pub.Covers x (e q) → ∃ p, x = e p
  right : ∀ {p x}, Pub.Covers (e p) x → ∃ q, x = e q
  present : ∀ p, Pub.Present h (e p) ↔ Present g p
  stored : ∀ st p m, Pub.storedRec st h (e p) m = storedRec st g p m
  wd : ∀ p m, Pub.withdrawn h (e p) m = globWd g m
  items : ∀ l : List (PrefixRecord M W),
    Pub.items (RecordSet.fromIter (l.map fun x => ⟨e x.1, x.2⟩)) = l.map fun x => ⟨e x.1, x.2⟩

theorem recOf_hist4 (h : List (StarOp M)) (p : Prefix 32) (m : Mui) :
    Pub.recOf h (.v4 p) m = recOf (hist4 h) p m := by
  induction h with
  | nil => rfl
  | cons op h ih =>
    unfold hist4 at ih ⊢
    rcases op with (⟨q | q, r, t⟩ | ⟨q | q, k, t⟩ | ⟨q | q, k, t⟩ | k | k | k | k | k | ⟨q | q, t⟩) <;>
      simp [List.filterMap_cons, op4, recOf, Pub.recOf, ih]

theorem recOf_hist6 (h : List (StarOp M)) (p : Prefix 128) (m : Mui) :
    Pub.recOf h (.v6 p) m = recOf (hist6 h) p m := by
  induction h with
  | nil => rfl
  | cons op h ih =>
    unfold hist6 at ih ⊢
    rcases op with (⟨q | q, r, t⟩ | ⟨q | q, k, t⟩ | ⟨q | q, k, t⟩ | k | k | k | k | k | ⟨q | q, t⟩) <;>
      simp [List.filterMap_cons, op6, recOf, Pub.recOf, ih]

theorem keptOf_hist4 (h : List (StarOp M)) (p : Prefix 32) (m : Mui) :
    Pub.keptOf h (.v4 p) m = keptOf (hist4 h) p m := by
  induction h with
  | nil => rfl
  | cons op h ih =>
    unfold hist4 at ih ⊢
    rcases op with (⟨q | q, r, t⟩ | ⟨q | q, k, t⟩ | ⟨q | q, k, t⟩ | k | k | k | k | k | ⟨q | q, t⟩) <;>
      simp [List.filterMap_cons, op4, keptOf, Pub.keptOf, ih]

theorem keptOf_hist6 (h : List (StarOp M)) (p : Prefix 128) (m : Mui) :
    Pub.keptOf h (.v6 p) m = keptOf (hist6 h) p m := by
  induction h with
  | nil => rfl
  | cons op h ih =>
    unfold hist6 at ih ⊢
    rcases op with (⟨q | q, r, t⟩ | ⟨q | q, k, t⟩ | ⟨q | q, k, t⟩ | k | k | k | k | k | ⟨q | q, t⟩) <;>
      simp [List.filterMap_cons, op6, keptOf, Pub.keptOf, ih]

theorem view4 (h : List (StarOp M)) : View 32 .v4 h (hist4 h) where
  inj := fun h => by cases h; rfl
  len := fun _ => rfl
  width := fun _ => rfl
  covers := Iff.rfl
  left := fun {x _} h => by cases x with
    | v4 p => exact ⟨p, rfl⟩
    | v6 p => exact absurd h id
  right := fun {_ x} h => by cases x with
    | v4 p => exact ⟨p, rfl⟩
    | v6 p => exact absurd h id
  present := fun _ => present_hist4.symm
  stored := fun st p m => by
    cases st <;> simp only [Pub.storedRec, storedRec, recOf_hist4, keptOf_hist4]
  wd := fun _ m => (globWd_hist4 m h).symm
  items := fun l => by
    unfold Pub.items RecordSet.fromIter
    rw [fromIterGo_eq]
    simp [ofV4, ofV6, List.filter_map, Function.comp_def]

theorem view6 (h : List (StarOp M)) : View 128 .v6 h (hist6 h) where
  inj := fun h => by cases h; rfl
  len := fun _ => rfl
  width := fun _ => rfl
  covers := Iff.rfl
  left := fun {x _} h => by cases x with
    | v6 p => exact ⟨p, rfl⟩
    | v4 p => exact absurd h id
  right := fun {_ x} h => by cases x with
    | v6 p => exact ⟨p, rfl⟩
    | v4 p => exact absurd h id
  present := fun _ => present_hist6.symm
  stored := fun st p m => by
    cases st <;> simp only [Pub.storedRec, storedRec, recOf_hist6, keptOf_hist6]
  wd := fun _ m => (globWd_hist6 m h).symm
  items := fun l => by
    unfold Pub.items RecordSet.fromIter
    rw [fromIterGo_eq]
    simp [ofV4, ofV6, List.filter_map, Function.comp_def]

namespace View

variable {W : Nat} {e : Prefix W → AnyPrefix} {h : List (StarOp M)} {g : History M W}

theorem proper (v : View W e h g) (p : Prefix W) : Pub.Proper h (e p) ↔ Proper g p := by
  unfold Pub.Proper Proper; rw [v.present, v.len]

theorem effective (v : View W e h g) (p : Prefix W) (r : Record M) :
    Pub.effective h (e p) r = Spec.effective g r := by
  unfold Pub.effective Spec.effective; rw [v.wd]

theorem shown (v : View W e h g) (st : Strategy) (mui : Option Mui) (iw : Bool) (p : Prefix W) :
    Pub.Shown st h mui iw (e p) = Shown st g mui iw p := by
  funext r
  unfold Pub.Shown Shown
  rw [v.stored]
  cases iw <;> simp only [v.effective, v.wd]

theorem visible (v : View W e h g) (st : Strategy) (mui : Option Mui) (iw : Bool) (p : Prefix W) :
    Pub.Visible st h mui iw (e p) = Visible st g mui iw p := by
  funext r
  unfold Pub.Visible Visible
  rw [v.stored]
  cases iw <;> simp only [v.effective, v.wd]

/-- The items of a family as public ones. -/
def pub (e : Prefix W → AnyPrefix) (x : PrefixRecord M W) : PubRecord M := ⟨e x.1, x.2⟩

omit [Meta M] in
theorem mem_pub {e : Prefix W → AnyPrefix} (inj : ∀ {p q}, e p = e q → p = q)
    {l : List (PrefixRecord M W)} {q : Prefix W} {rs : List (Record M)} :
    (⟨e q, rs⟩ : PubRecord M) ∈ l.map (pub e) ↔ (q, rs) ∈ l := by
  rw [List.mem_map]
  constructor
  · rintro ⟨⟨q', rs'⟩, hm, he⟩
    unfold pub at he
    injection he with h1 h2
    cases inj h1; cases h2; exact hm
  · intro hm; exact ⟨_, hm, rfl⟩

omit [Meta M] in
theorem of_mem_pub {l : List (PrefixRecord M W)} {x : AnyPrefix} {rs : List (Record M)}
    (hm : (⟨x, rs⟩ : PubRecord M) ∈ l.map (pub e)) : ∃ q, x = e q := by
  obtain ⟨y, _, he⟩ := List.mem_map.1 hm
  unfold pub at he
  injection he with h1 h2
  exact ⟨_, h1.symm⟩

omit [Meta M] in
theorem nodup_pub (inj : ∀ {p q}, e p = e q → p = q) {l : List (PrefixRecord M W)}
    (hn : (l.map Prod.fst).Nodup) : ((l.map (pub e)).map PubRecord.pfx).Nodup := by
  have : (l.map (pub e)).map PubRecord.pfx = (l.map Prod.fst).map e := by
    rw [List.map_map, List.map_map]; rfl
  rw [this]
  exact hn.map fun _ _ => inj

theorem listing (v : View W e h g) {P : Prefix W → Prop} {P' : AnyPrefix → Prop}
    {V : Prefix W → Record M → Prop} {V' : AnyPrefix → Record M → Prop}
    (hP : ∀ q, P' (e q) ↔ P q) (hx : ∀ x, P' x → ∃ q, x = e q) (hV : ∀ q, V' (e q) = V q)
    {l : List (PrefixRecord M W)} (hl : Listing P V l) : Pub.Listing P' V' (l.map (pub e)) where
  nodup := nodup_pub v.inj hl.nodup
  mem := fun x => by
    constructor
    · rintro ⟨rs, hm⟩
      obtain ⟨q, rfl⟩ := of_mem_pub hm
      rw [hP, hV]
      exact (hl.mem q).1 ⟨rs, (mem_pub v.inj).1 hm⟩
    · rintro ⟨hp, hr⟩
      obtain ⟨q, rfl⟩ := hx x hp
      rw [hP] at hp; rw [hV] at hr
      obtain ⟨rs, hm⟩ := (hl.mem q).2 ⟨hp, hr⟩
      exact ⟨rs, (mem_pub v.inj).2 hm⟩
  recs := fun x rs hm => by
    obtain ⟨q, rfl⟩ := of_mem_pub hm
    rw [hV]
    exact hl.recs q rs ((mem_pub v.inj).1 hm)

theorem descending (v : View W e h g) {l : List (PrefixRecord M W)} (hl : Descending l) :
    Pub.Descending (l.map (pub e)) := by
  unfold Pub.Descending
  rw [List.pairwise_map]
  exact hl.imp fun hab => by simp only [pub, v.len]; exact hab

theorem isLongest (v : View W e h g) (p q : Prefix W) :
    Pub.IsLongest (Pub.Proper h) (e p) (e q) ↔ IsLongest (Proper g) p q := by
  unfold Pub.IsLongest IsLongest
  rw [v.proper, v.covers]
  refine and_congr_right fun _ => and_congr_right fun _ => ?_
  constructor
  · intro hall q' hp hc
    have := hall (e q') ((v.proper q').2 hp) (v.covers.2 hc)
    rwa [v.len, v.len] at this
  · intro hall x hp hc
    obtain ⟨q', rfl⟩ := v.left hc
    rw [v.len, v.len]
    exact hall q' ((v.proper q').1 hp) (v.covers.1 hc)

/-- A result of a family as a public one. -/
def res (e : Prefix W → AnyPrefix) (r : QueryResult M W) : Star.Result M :=
  ⟨r.matchType, r.prefix_.map e, r.records,
    r.lessSpecifics.map fun l => RecordSet.fromIter (l.map (pub e)),
    r.moreSpecifics.map fun l => RecordSet.fromIter (l.map (pub e))⟩

omit [Meta M] in
theorem res_prefix {r : QueryResult M W} (inj : ∀ {p q}, e p = e q → p = q) (q : Prefix W) :
    (res e r).prefix_ = some (e q) ↔ r.prefix_ = some q := by
  unfold res
  rw [Option.map_eq_some_iff]
  constructor
  · rintro ⟨q', h1, h2⟩; cases inj h2; exact h1
  · intro h1; exact ⟨q, h1, rfl⟩

omit [Meta M] in
theorem of_res_prefix {r : QueryResult M W} {x : AnyPrefix} (hx : (res e r).prefix_ = some x) :
    ∃ q, x = e q := by
  obtain ⟨q, _, h2⟩ := Option.map_eq_some_iff.1 hx
  exact ⟨q, h2.symm⟩

theorem hasMatch (v : View W e h g) {ty : MatchType} {found : Prefix W → Prop}
    {found' : AnyPrefix → Prop} {V : Prefix W → Record M → Prop}
    {V' : AnyPrefix → Record M → Prop} (hP : ∀ q, found' (e q) ↔ found q)
    (hx : ∀ x, found' x → ∃ q, x = e q) (hV : ∀ q, V' (e q) = V q) {r : QueryResult M W}
    (hm : HasMatch r ty found V) : Pub.HasMatch (res e r) ty found' V' := by
  obtain ⟨h1, h2, h3⟩ := hm
  refine ⟨fun x => ?_, fun x hx' => ?_, fun hn => ?_⟩
  · constructor
    · intro hr
      obtain ⟨q, rfl⟩ := of_res_prefix hr
      rw [hP, hV]
      exact (h1 q).1 ((res_prefix v.inj q).1 hr)
    · rintro ⟨hp, hr⟩
      obtain ⟨q, rfl⟩ := hx x hp
      rw [hP] at hp; rw [hV] at hr
      exact (res_prefix v.inj q).2 ((h1 q).2 ⟨hp, hr⟩)
  · obtain ⟨q, rfl⟩ := of_res_prefix hx'
    rw [hV]
    exact h2 q ((res_prefix v.inj q).1 hx')
  · exact h3 (Option.map_eq_none_iff.1 hn)

theorem setOf (v : View W e h g) {st : Strategy} {mui : Option Mui} {iw : Bool} {p : Prefix W}
    {P : Prefix W → Prop} {P' : AnyPrefix → Prop} (hP : ∀ q, P' (e q) ↔ P q)
    (hx : ∀ x, P' x → ∃ q, x = e q) {set : Option (List (PrefixRecord M W))}
    (hs : SetOf st g mui iw p P set) :
    Pub.SetOf (Pub.Shown st h mui iw (e p)) P'
      (set.map fun l => RecordSet.fromIter (l.map (pub e))) := by
  obtain ⟨h1, h2⟩ := hs
  refine ⟨?_, fun s hs => ?_⟩
  · rw [Option.map_eq_none_iff, h1, v.shown]
    refine and_congr_left fun _ => ?_
    constructor
    · rintro ⟨q, hq⟩; exact ⟨e q, (hP q).2 hq⟩
    · rintro ⟨x, hq⟩
      obtain ⟨q, rfl⟩ := hx x hq
      exact ⟨q, (hP q).1 hq⟩
  · obtain ⟨l, hl, rfl⟩ := Option.map_eq_some_iff.1 hs
    obtain ⟨k1, k2, k3⟩ := h2 l hl
    have hi : Pub.items (RecordSet.fromIter (l.map (pub e))) = l.map (pub e) := v.items l
    rw [hi]
    refine ⟨nodup_pub v.inj k1, fun x => ?_, fun x rs hm => ?_⟩
    · constructor
      · rintro ⟨rs, hm⟩
        obtain ⟨q, rfl⟩ := of_mem_pub hm
        exact (hP q).2 ((k2 q).1 ⟨rs, (mem_pub v.inj).1 hm⟩)
      · intro hp
        obtain ⟨q, rfl⟩ := hx x hp
        obtain ⟨rs, hm⟩ := (k2 q).2 ((hP q).1 hp)
        exact ⟨rs, (mem_pub v.inj).2 hm⟩
    · obtain ⟨q, rfl⟩ := of_mem_pub hm
      rw [v.shown]
      exact k3 q rs ((mem_pub v.inj).1 hm)

/-! ## The answers of one family -/

variable [Fam W] {st : Strategy} {F : Nat} {s : Rib M W}

theorem covers_refl' (v : View W e h g) (p : Prefix W) : Pub.Covers (e p) (e p) :=
  v.covers.2 (covers_refl p)

theorem eq_iff (v : View W e h g) {p q : Prefix W} : e p = e q ↔ p = q :=
  ⟨v.inj, fun h => by rw [h]⟩

theorem match_prefix (v : View W e h g) (hs : exec st F g = .ok () s) (p : Prefix W)
    (o : MatchOptions) :
    ∃ (N : Nat) (r : QueryResult M W),
      (∀ fuel, N ≤ fuel → (ribMatchPrefix st fuel p.id o).run s = .ok (.ok r) s) ∧
      (o.matchType ≠ .exactMatch → Pub.HasMatch (res e r) .longestMatch
        (Pub.IsLongest (Pub.Proper h) (e p)) (Pub.Shown st h o.mui o.includeWithdrawn)) ∧
      (o.matchType = .exactMatch → Pub.HasMatch (res e r) .exactMatch
        (fun q => q = e p ∧ Pub.Proper h (e p)) (Pub.Shown st h o.mui o.includeWithdrawn)) ∧
      (o.includeLessSpecifics = true → ∃ l, (res e r).lessSpecifics = some l ∧
        Pub.Descending (Pub.items l) ∧
        Pub.Listing (fun q => Pub.Proper h q ∧ Pub.Covers q (e p) ∧ q ≠ e p)
          (Pub.Shown st h o.mui o.includeWithdrawn) (Pub.items l)) ∧
      (o.includeMoreSpecifics = true → ∃ l, (res e r).moreSpecifics = some l ∧
        Pub.Listing (fun q => Pub.Proper h q ∧ Pub.Covers (e p) q ∧ q ≠ e p)
          (Pub.Shown st h o.mui o.includeWithdrawn) (Pub.items l)) ∧
      (o.includeLessSpecifics = false → (res e r).lessSpecifics = none) ∧
      (o.includeMoreSpecifics = false → (res e r).moreSpecifics = none) := by
  obtain ⟨N, r, hrun, h1, h2, h3, h4, h5, h6⟩ := match_prefix_partial hs p o
  refine ⟨N, r, hrun, fun ho => ?_, fun ho => ?_, fun ho => ?_, fun ho => ?_, fun ho => ?_,
    fun ho => ?_⟩
  · exact v.hasMatch (v.isLongest p) (fun x hx => v.left hx.2.1) (v.shown st _ _) (h1 ho)
  · refine v.hasMatch (fun q => ?_) (fun x hx => ⟨p, hx.1⟩) (v.shown st _ _) (h2 ho)
    rw [v.eq_iff, v.proper]
  · obtain ⟨l, k1, k2, k3⟩ := h3 ho
    refine ⟨_, congrArg (Option.map _) k1, ?_, ?_⟩
    · rw [show Pub.items (RecordSet.fromIter (l.map (pub e))) = l.map (pub e) from v.items l]
      exact v.descending k2
    · rw [show Pub.items (RecordSet.fromIter (l.map (pub e))) = l.map (pub e) from v.items l]
      refine v.listing (fun q => ?_) (fun x hx => v.left hx.2.1) (v.shown st _ _) k3
      rw [v.proper, v.covers, Ne, v.eq_iff]
  · obtain ⟨l, k1, k3⟩ := h4 ho
    refine ⟨_, congrArg (Option.map _) k1, ?_⟩
    rw [show Pub.items (RecordSet.fromIter (l.map (pub e))) = l.map (pub e) from v.items l]
    refine v.listing (fun q => ?_) (fun x hx => v.right hx.2.1) (v.shown st _ _) k3
    rw [v.proper, v.covers, Ne, v.eq_iff]
  · exact congrArg (Option.map _) (h5 ho)
  · exact congrArg (Option.map _) (h6 ho)

theorem less_iter (v : View W e h g) (hs : exec st F g = .ok () s) (p : Prefix W)
    (mui : Option Mui) (iw : Bool) :
    ∃ l : List (PrefixRecord M W),
      (ribLessSpecificsIter st p.id mui iw).run s = .ok (l.map .ok) s ∧
      Pub.Descending (l.map (pub e)) ∧
      Pub.Listing (fun q => Pub.Proper h q ∧ Pub.Covers q (e p) ∧ q ≠ e p)
        (Pub.Shown st h mui iw) (l.map (pub e)) := by
  obtain ⟨l, h1, h2, h3⟩ := less_specifics_iter_partial hs p mui iw
  refine ⟨l, h1, v.descending h2,
    v.listing (fun q => ?_) (fun x hx => v.left hx.2.1) (v.shown st _ _) h3⟩
  rw [v.proper, v.covers, Ne, v.eq_iff]; rfl

theorem more_iter (v : View W e h g) (hs : exec st F g = .ok () s) (p : Prefix W)
    (mui : Option Mui) (iw : Bool)
    (hstop : ∀ m, mui = some m → iw = false → Pub.withdrawn h (e p) m = false) :
    ∃ (N : Nat) (l : List (PrefixRecord M W)),
      (∀ fuel, N ≤ fuel → (ribMoreSpecificsIter st fuel p.id mui iw).run s = .ok (l.map .ok) s) ∧
      Pub.Listing (fun q => Pub.len (e p) < Pub.width (e p) ∧ Pub.Proper h q ∧ Pub.Covers (e p) q)
        (Pub.Visible st h mui iw) (l.map (pub e)) := by
  obtain ⟨N, l, h1, h2⟩ := more_specifics_iter_partial hs p mui iw
    (fun m h1 h2 => by rw [← v.wd p]; exact hstop m h1 h2)
  refine ⟨N, l, h1,
    v.listing (fun q => ?_) (fun x hx => v.right hx.2.2) (v.visible st _ _) h2⟩
  rw [v.proper, v.covers, v.len, v.width]; rfl

theorem less_from (v : View W e h g) (hs : exec st F g = .ok () s) (p : Prefix W)
    (mui : Option Mui) (iw : Bool) :
    ∃ r : QueryResult M W, (ribLessSpecificsFrom st p.id mui iw).run s = .ok (.ok r) s ∧
      (res e r).matchType = .emptyMatch ∧ Lists (res e r).records (Pub.Shown st h mui iw (e p)) ∧
      (res e r).moreSpecifics = none ∧
      Pub.SetOf (Pub.Shown st h mui iw (e p))
        (fun q => Pub.Proper h q ∧ Pub.Covers q (e p) ∧ q ≠ e p) (res e r).lessSpecifics ∧
      (mui = none → ((res e r).prefix_ = none ↔ Pub.Proper h (e p))) ∧
      (∀ q, (res e r).prefix_ = some q → q = e p) := by
  obtain ⟨r, h1, h2, h3, h4, h5, h6, h7⟩ := less_from_partial hs p mui iw
  refine ⟨r, h1, h2, ?_, ?_, ?_, ?_, ?_⟩
  · rw [v.shown]; exact h3
  · exact congrArg (Option.map _) h4
  · refine v.setOf (fun q => ?_) (fun x hx => v.left hx.2.1) h5
    rw [v.proper, v.covers, Ne, v.eq_iff]
  · intro hm
    rw [v.proper, ← h6 hm]
    exact Option.map_eq_none_iff
  · intro x hx
    obtain ⟨q, rfl⟩ := of_res_prefix hx
    rw [h7 q ((res_prefix v.inj q).1 hx)]

theorem more_from (v : View W e h g) (hs : exec st F g = .ok () s) (p : Prefix W)
    (mui : Option Mui) (iw : Bool) :
    ∃ (N : Nat) (r : QueryResult M W),
      (∀ fuel, N ≤ fuel → (ribMoreSpecificsFrom st fuel p.id mui iw).run s = .ok (.ok r) s) ∧
      (res e r).matchType = .emptyMatch ∧ Lists (res e r).records (Pub.Shown st h mui iw (e p)) ∧
      (res e r).lessSpecifics = none ∧
      Pub.SetOf (Pub.Shown st h mui iw (e p))
        (fun q => Pub.len (e p) < Pub.width (e p) ∧ Pub.Proper h q ∧ Pub.Covers (e p) q)
        (res e r).moreSpecifics ∧
      (mui = none → ((res e r).prefix_ = none ↔ Pub.Proper h (e p))) ∧
      (∀ q, (res e r).prefix_ = some q → q = e p) := by
  obtain ⟨N, r, h1, h2, h3, h4, h5, h6, h7⟩ := more_from_partial hs p mui iw
  refine ⟨N, r, h1, h2, ?_, ?_, ?_, ?_, ?_⟩
  · rw [v.shown]; exact h3
  · exact congrArg (Option.map _) h4
  · refine v.setOf (fun q => ?_) (fun x hx => v.right hx.2.2) h5
    rw [v.proper, v.covers, v.len, v.width]
  · intro hm
    rw [v.proper, ← h6 hm]
    exact Option.map_eq_none_iff
  · intro x hx
    obtain ⟨q, rfl⟩ := of_res_prefix hx
    rw [h7 q ((res_prefix v.inj q).1 hx)]

theorem records_for_mui (v : View W e h g) (hs : exec st F g = .ok () s) (m : Mui) (iw : Bool) :
    ∃ (N : Nat) (l : List (PrefixRecord M W)),
      (∀ fuel, N ≤ fuel → (ribIterRecordsForMui st fuel m iw).run s = .ok (l.map .ok) s) ∧
      Pub.Listing (fun q => Pub.Proper h q ∧ ∃ p, q = e p) (Pub.Visible st h (some m) iw)
        (l.map (pub e)) ∧
      ∀ q rs, ⟨q, rs⟩ ∈ l.map (pub e) → ∃ r, rs = [r] ∧ r.mui = m := by
  obtain ⟨N, l, h1, -, h3, h4⟩ := records_for_mui_partial hs m iw
  refine ⟨N, l, h1, v.listing (fun q => ?_) (fun x hx => hx.2) (v.visible st _ _) h3, ?_⟩
  · rw [v.proper]
    exact ⟨fun hx => hx.1, fun hx => ⟨hx, q, rfl⟩⟩
  · intro x rs hm
    obtain ⟨q, rfl⟩ := of_mem_pub hm
    exact h4 q rs ((mem_pub v.inj).1 hm)

end View

theorem selects4 {p : Prefix 32} {h : List (StarOp M)} (hn : ∀ o ∈ h, ¬ Pub.Selects (.v4 p) o) :
    ∀ o ∈ hist4 h, ¬ Selects p o := by
  intro o ho hsel
  obtain ⟨x, hx, he⟩ := List.mem_filterMap.1 ho
  refine hn x hx ?_
  rcases x with (⟨q | q, r, t⟩ | ⟨q | q, k, t⟩ | ⟨q | q, k, t⟩ | k | k | k | k | k | ⟨q | q, t⟩) <;>
    simp only [op4, Option.some.injEq, reduceCtorEq] at he <;> subst he <;>
    first | exact congrArg AnyPrefix.v4 hsel | exact absurd hsel id

theorem selects6 {p : Prefix 128} {h : List (StarOp M)} (hn : ∀ o ∈ h, ¬ Pub.Selects (.v6 p) o) :
    ∀ o ∈ hist6 h, ¬ Selects p o := by
  intro o ho hsel
  obtain ⟨x, hx, he⟩ := List.mem_filterMap.1 ho
  refine hn x hx ?_
  rcases x with (⟨q | q, r, t⟩ | ⟨q | q, k, t⟩ | ⟨q | q, k, t⟩ | k | k | k | k | k | ⟨q | q, t⟩) <;>
    simp only [op6, Option.some.injEq, reduceCtorEq] at he <;> subst he <;>
    first | exact congrArg AnyPrefix.v6 hsel | exact absurd hsel id

theorem stores4 {p : Prefix 32} {h : List (StarOp M)} {tbi : Meta.TBI M} {op : StarOp M}
    (hs : Pub.Stores h (.v4 p) tbi op) :
    ∃ op', op4 op = some op' ∧ Stores (hist4 h) p tbi op' := by
  obtain ⟨hp, rfl | ⟨r, rfl⟩⟩ := hs
  · exact ⟨_, rfl, present_hist4.2 hp, .inl rfl⟩
  · exact ⟨_, rfl, present_hist4.2 hp, .inr ⟨r, rfl⟩⟩

theorem stores6 {p : Prefix 128} {h : List (StarOp M)} {tbi : Meta.TBI M} {op : StarOp M}
    (hs : Pub.Stores h (.v6 p) tbi op) :
    ∃ op', op6 op = some op' ∧ Stores (hist6 h) p tbi op' := by
  obtain ⟨hp, rfl | ⟨r, rfl⟩⟩ := hs
  · exact ⟨_, rfl, present_hist6.2 hp, .inl rfl⟩
  · exact ⟨_, rfl, present_hist6.2 hp, .inr ⟨r, rfl⟩⟩

theorem hist4_append (a b : List (StarOp M)) : hist4 (a ++ b) = hist4 a ++ hist4 b :=
  List.filterMap_append
theorem hist6_append (a b : List (StarOp M)) : hist6 (a ++ b) = hist6 a ++ hist6 b :=
  List.filterMap_append

theorem hist4_cons {op : StarOp M} {op' : Op M 32} (ho : op4 op = some op') (h : List (StarOp M)) :
    hist4 (op :: h) = op' :: hist4 h := List.filterMap_cons_some ho
theorem hist6_cons {op : StarOp M} {op' : Op M 128} (ho : op6 op = some op')
    (h : List (StarOp M)) : hist6 (op :: h) = op' :: hist6 h := List.filterMap_cons_some ho

end Rotonda
