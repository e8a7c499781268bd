import Verif.Proofs.Space
import Verif.Props.Concurrent
import Verif.Props.StarConc

/-!
# C82: the room the store takes is bounded by the distinct prefixes of its calls
-/

namespace Rotonda.Props

open Spec Prog Rotonda.Demo

variable {M : Type} [Meta M] {W : Nat} {ι : Type} [DecidableEq ι] {calls : ι → Call M W}

section
variable [Fam W] {st : Strategy} {F0 F fuel : Nat} (hF : 32 ≤ F) (hf : iterFuel W ≤ fuel)
  {h : History M W} {s : Rib M W} (hs : exec st F0 h = .ok () s)
include hF hf hs

/-- C82, what is there: a filled slot of the node table is the root, or the first bits (a multiple
of four, fewer than all) of a prefix an insert was called for. -/
theorem node_slots (t : List ι) {a : Addr} {e : StoredNode W}
    (he : ((start st F fuel s calls).exec t).st.tree.slots a = some e) :
    e.id = rootNodeId W ∨ ∃ p ∈ inserts h calls t, e.id.len < p.len ∧ 4 ∣ e.id.len ∧
      e.id.bits = truncateToLen p.bits e.id.len := by
  refine ((run_sane hF hf hs t).just.node a e he).imp_right ?_
  rintro ⟨q, m, ⟨p, rfl, hb⟩, ha⟩
  refine ⟨p, ?_, ha⟩
  simp only [inserts, List.mem_toFinset, List.mem_append, List.mem_filterMap]
  rcases hb with ⟨r, tbi, hm, -⟩ | ⟨i, hi, r, tbi, hc, -⟩
  · exact .inl ⟨_, hm, rfl⟩
  · exact .inr ⟨i, hi, by rw [hc]; rfl⟩

omit hF hf [Fam W] in
/-- C82, what is there: a filled slot of the prefix table is for a prefix an insert or a change of
status was called for; with `PersistOnly` there is none. -/
theorem entry_slots (t : List ι) {a : Addr} {e : StoredPrefix M W}
    (he : ((start st F fuel s calls).exec t).st.cht.slots a = some e) :
    ∃ p ∈ entries st h calls t, e.id = p.id :=
  onlyFor_run hs calls t a e he

/-- C82: at any time the number of filled slots of the prefix table is at most the number of
distinct prefixes an insert or a change of status was called for. -/
theorem entries_space (t : List ι) :
    (filled ((start st F fuel s calls).exec t).st.cht.slots).encard ≤ (entries st h calls t).card := by
  classical
  set S := ((start st F fuel s calls).exec t).st.cht.slots with hS
  have hmap : Set.MapsTo (fun a => (S a).map StoredPrefix.id) (filled S)
      (((entries st h calls t).image fun p => some p.id : Finset (Option (PrefixId W))) :
        Set (Option (PrefixId W))) := by
    intro a ha
    obtain ⟨e, he⟩ := Option.isSome_iff_exists.1 ha
    obtain ⟨p, hp, hid⟩ := entry_slots (F := F) (fuel := fuel) hs t (hS ▸ he)
    simp only [Finset.coe_image, Set.mem_image, Finset.mem_coe]
    exact ⟨p, hp, by rw [he, Option.map_some, hid]⟩
  have hinj : Set.InjOn (fun a => (S a).map StoredPrefix.id) (filled S) := by
    intro a ha b hb hab
    obtain ⟨e, he⟩ := Option.isSome_iff_exists.1 ha
    obtain ⟨e', he'⟩ := Option.isSome_iff_exists.1 hb
    simp only [he, he', Option.map_some, Option.some.injEq] at hab
    exact (concurrent_one_slot hF hf hs t a b).2 e e' he he' hab
  refine (Set.encard_le_encard_of_injOn hmap hinj).trans ?_
  rw [Set.encard_coe_eq_coe_finsetCard]
  exact_mod_cast Finset.card_image_le

/-- C82: at any time the number of filled slots of the node table is at most one (the root) plus,
for each distinct prefix an insert was called for, the strides above its last. -/
theorem nodes_space (t : List ι) :
    (filled ((start st F fuel s calls).exec t).st.tree.slots).encard ≤
      ((1 + ∑ p ∈ inserts h calls t, (strides p.len - 1) : Nat) : ℕ∞) := by
  classical
  set S := ((start st F fuel s calls).exec t).st.tree.slots with hS
  let anc : Prefix W → Finset (Option (NodeId W)) := fun p =>
    (Finset.range (strides p.len - 1)).image fun k =>
      some ⟨truncateToLen p.bits (4 * (k + 1)), 4 * (k + 1)⟩
  have hmap : Set.MapsTo (fun a => (S a).map StoredNode.id) (filled S)
      ((insert (some (rootNodeId W)) ((inserts h calls t).biUnion anc) : Finset (Option (NodeId W))) :
        Set (Option (NodeId W))) := by
    intro a ha
    obtain ⟨e, he⟩ := Option.isSome_iff_exists.1 ha
    simp only [Finset.mem_coe, he, Option.map_some, Finset.mem_insert, Option.some.injEq]
    rcases node_slots hF hf hs t (hS ▸ he) with hr | ⟨p, hp, h1, ⟨k, h2⟩, h3⟩
    · exact .inl hr
    · cases k with
      | zero =>
        left
        have hid : e.id = ⟨e.id.bits, e.id.len⟩ := rfl
        rw [hid, h3, h2, Nat.mul_zero, truncate_zero]
        rfl
      | succ k =>
        right
        refine Finset.mem_biUnion.2 ⟨p, hp, Finset.mem_image.2 ⟨k, ?_, ?_⟩⟩
        · rw [Finset.mem_range]; unfold strides; omega
        · rw [← h2, ← h3]
  have hinj : Set.InjOn (fun a => (S a).map StoredNode.id) (filled S) := by
    intro a ha b hb hab
    obtain ⟨e, he⟩ := Option.isSome_iff_exists.1 ha
    obtain ⟨e', he'⟩ := Option.isSome_iff_exists.1 hb
    simp only [he, he', Option.map_some, Option.some.injEq] at hab
    exact (concurrent_one_slot hF hf hs t a b).1 e e' he he' hab
  refine (Set.encard_le_encard_of_injOn hmap hinj).trans ?_
  rw [Set.encard_coe_eq_coe_finsetCard]
  refine Nat.cast_le.2 ((Finset.card_insert_le _ _).trans ?_)
  rw [Nat.add_comm]
  refine Nat.add_le_add_left ((Finset.card_biUnion_le).trans (Finset.sum_le_sum fun p _ => ?_)) 1
  exact Finset.card_image_le.trans (Finset.card_range _).le

/-- C82: a slot that was filled stays filled. -/
theorem slots_stay (t u : List ι) :
    filled ((start st F fuel s calls).exec t).st.tree.slots ⊆
        filled ((start st F fuel s calls).exec (t ++ u)).st.tree.slots ∧
      filled ((start st F fuel s calls).exec t).st.cht.slots ⊆
        filled ((start st F fuel s calls).exec (t ++ u)).st.cht.slots := by
  have hg := (run_grow (calls := calls) hF hf hs t u).1
  refine ⟨fun a ha => ?_, fun a ha => ?_⟩
  · obtain ⟨e, he⟩ := Option.isSome_iff_exists.1 ha
    obtain ⟨e', he', -⟩ := hg.nodes.1 a e he
    exact Option.isSome_iff_exists.2 ⟨e', he'⟩
  · obtain ⟨e, he⟩ := Option.isSome_iff_exists.1 ha
    obtain ⟨e', he', -⟩ := hg.recs.ext a e he
    exact Option.isSome_iff_exists.2 ⟨e', he'⟩

end

/-! ## In numbers -/

/-- C82 for IPv4: no more than eight nodes for each prefix. -/
theorem nodes_space4 {st : Strategy} {F0 F fuel : Nat} (hF : 32 ≤ F) (hf : iterFuel 32 ≤ fuel)
    {h : History M 32} {s : Rib M 32} (hs : exec st F0 h = .ok () s) {calls : ι → Call M 32} (t : List ι) :
    (filled ((start st F fuel s calls).exec t).st.tree.slots).encard ≤
      ((1 + (inserts h calls t).card * 7 : Nat) : ℕ∞) := by
  refine (nodes_space hF hf hs t).trans (Nat.cast_le.2 (Nat.add_le_add_left ?_ 1))
  refine Finset.sum_le_card_nsmul _ _ 7 fun p _ => ?_
  have := p.le
  unfold strides
  omega

/-- C82 for IPv6: no more than thirty-two nodes for each prefix. -/
theorem nodes_space6 {st : Strategy} {F0 F fuel : Nat} (hF : 32 ≤ F) (hf : iterFuel 128 ≤ fuel)
    {h : History M 128} {s : Rib M 128} (hs : exec st F0 h = .ok () s) {calls : ι → Call M 128} (t : List ι) :
    (filled ((start st F fuel s calls).exec t).st.tree.slots).encard ≤
      ((1 + (inserts h calls t).card * 31 : Nat) : ℕ∞) := by
  refine (nodes_space hF hf hs t).trans (Nat.cast_le.2 (Nat.add_le_add_left ?_ 1))
  refine Finset.sum_le_card_nsmul _ _ 31 fun p _ => ?_
  have := p.le
  unfold strides
  omega

/-! ## The public interface -/

theorem Split.sub {t : List ι} {t4 t6 : ℕ → List ι} (h : Split t t4 t6) : ∀ n, n ≤ t.length →
    t4 n ⊆ t ∧ t6 n ⊆ t := by
  intro n
  induction n with
  | zero => rw [h.start4, h.start6]; simp
  | succ n ih =>
    intro hn
    obtain ⟨h4, h6⟩ := ih (by omega)
    have ho : [t[n]] ⊆ t := fun x hx => by
      rw [List.mem_singleton] at hx
      exact hx ▸ List.getElem_mem _
    rcases h.step n hn with ⟨e4, e6⟩ | ⟨e4, e6⟩ | ⟨e4, e6⟩ <;> rw [e4, e6]
    · exact ⟨List.append_subset.2 ⟨h4, ho⟩, h6⟩
    · exact ⟨h4, List.append_subset.2 ⟨h6, ho⟩⟩
    · exact ⟨h4, h6⟩

omit [DecidableEq ι] in
theorem entries_sub (st : Strategy) (h : History M W) (calls : ι → Call M W) {t u : List ι}
    (hs : t ⊆ u) : entries st h calls t ⊆ entries st h calls u := by
  intro p hp
  simp only [entries, List.mem_toFinset, List.mem_append, List.mem_filterMap] at hp ⊢
  exact hp.imp_right fun ⟨i, hi, he⟩ => ⟨i, hs hi, he⟩

omit [DecidableEq ι] in
theorem inserts_sub (h : History M W) (calls : ι → Call M W) {t u : List ι}
    (hs : t ⊆ u) : inserts h calls t ⊆ inserts h calls u := by
  intro p hp
  simp only [inserts, List.mem_toFinset, List.mem_append, List.mem_filterMap] at hp ⊢
  exact hp.imp_right fun ⟨i, hi, he⟩ => ⟨i, hs hi, he⟩

/-- C82 for the calls of the public interface: each family takes room for the calls' prefixes of that
family only. -/
theorem star_space {st : Strategy} {F0 F fuel : Nat} (hF : 32 ≤ F) (hf : iterFuel 128 ≤ fuel)
    {h : List (StarOp M)} {s : Star M} (hs : starExec st F0 h = .ok () s) {calls : ι → StarCall M}
    (t : List ι) :
    (filled ((starStart st F fuel s calls).exec t).st.v4.cht.slots).encard ≤
        (entries st (hist4 h) (fun i => call4 (calls i)) t).card ∧
      (filled ((starStart st F fuel s calls).exec t).st.v6.cht.slots).encard ≤
        (entries st (hist6 h) (fun i => call6 (calls i)) t).card ∧
      (filled ((starStart st F fuel s calls).exec t).st.v4.tree.slots).encard ≤
        ((1 + ∑ p ∈ inserts (hist4 h) (fun i => call4 (calls i)) t, (strides p.len - 1) : Nat) : ℕ∞) ∧
      (filled ((starStart st F fuel s calls).exec t).st.v6.tree.slots).encard ≤
        ((1 + ∑ p ∈ inserts (hist6 h) (fun i => call6 (calls i)) t, (strides p.len - 1) : Nat) : ℕ∞) := by
  obtain ⟨t4, t6, hI⟩ := run_interleaves st F fuel s calls t
  obtain ⟨h4, h6⟩ := starExec_ok hs
  have hf4 : iterFuel 32 ≤ fuel := Nat.le_trans (by unfold iterFuel; norm_num) hf
  have hst := hI.state t.length le_rfl
  rw [List.take_length] at hst
  obtain ⟨s4, s6⟩ := Split.sub hI.split t.length le_rfl
  rw [hst]
  refine ⟨?_, ?_, ?_, ?_⟩
  · exact (entries_space hF hf4 h4 _).trans (Nat.cast_le.2 (Finset.card_le_card (entries_sub _ _ _ s4)))
  · exact (entries_space hF hf h6 _).trans (Nat.cast_le.2 (Finset.card_le_card (entries_sub _ _ _ s6)))
  · exact (nodes_space hF hf4 h4 _).trans (Nat.cast_le.2 (Nat.add_le_add_left
      (Finset.sum_le_sum_of_subset (inserts_sub _ _ s4)) 1))
  · exact (nodes_space hF hf h6 _).trans (Nat.cast_le.2 (Nat.add_le_add_left
      (Finset.sum_le_sum_of_subset (inserts_sub _ _ s6)) 1))

/-! ## Concrete runs -/

/-- The slots found for nodes and for prefixes. -/
def nodeAddrs (s : Rib Md 32) (l : List (NodeId 32)) : List Addr := l.filterMap fun id =>
  match (retrieveNode id).run s.tree.slots with
  | .ok (some r) _ => some r.addr
  | _ => none

@[inherit_doc nodeAddrs]
def entryAddrs (s : Rib Md 32) (l : List (Prefix 32)) : List Addr := l.filterMap fun p =>
  match (retrievePrefix (M := Md) p.id).run s.cht.slots with
  | .ok (some r) _ => some r.addr
  | _ => none

/-- 10.1.2.0/23 alone: six different slots are filled, as many as the bound allows. -/
example : after (exec .memoryOnly 0 [.insert ten23 (rec1 1 1 7) none]) (fun s =>
    let l := nodeAddrs s ([0, 4, 8, 12, 16, 20].map fun n => ⟨truncateToLen ten23.bits n, n⟩)
    decide (l.Nodup ∧ l.length = 6) && l.all fun a => (s.tree.slots a).isSome) = true ∧
    1 + ∑ p ∈ inserts (M := Md) [.insert ten23 (rec1 1 1 7) none] (fun i : Empty => nomatch i) [],
      (strides p.len - 1) = 6 := by
  constructor <;> decide +kernel

/-- Changes of the status of prefixes that were never inserted fill slots that stay filled: the
bound counts them, and it is reached. -/
example : after (exec .memoryOnly 0 [.withdrawFor ten16 1#32 2#64, .withdrawFor ten8 1#32 1#64]) (fun s =>
    let l := entryAddrs s [ten8, ten16]
    decide (l.Nodup ∧ l.length = 2) && l.all fun a => (s.cht.slots a).isSome) = true ∧
    (entries (M := Md) .memoryOnly [.withdrawFor ten16 1#32 2#64, .withdrawFor ten8 1#32 1#64]
      (fun i : Empty => nomatch i) []).card = 2 := by
  constructor <;> decide +kernel

/-- Two inserts at the same time, of one prefix: room for one. -/
example : ∃ s, exec .memoryOnly 0 ([] : History Md 32) = .ok () s ∧ ∀ t : List Bool,
    (filled (two .memoryOnly s (.insert ten8 (rec1 1 1 7) none) (.insert ten8 (rec1 2 1 9) none) t).st.cht.slots).encard ≤ 1 := by
  obtain ⟨s, hs, -⟩ := exec_inv (M := Md) (W := 32) .memoryOnly 0 []
  refine ⟨s, hs, fun t => (entries_space (le_refl 32) le_rfl hs t).trans ?_⟩
  have : entries .memoryOnly ([] : History Md 32) (fun i : Bool => if i then
      (.insert ten8 (rec1 1 1 7) none : Call Md 32) else .insert ten8 (rec1 2 1 9) none) t ⊆ {ten8} := by
    intro p hp
    simp only [entries, List.filterMap_nil, List.nil_append, List.mem_toFinset, List.mem_filterMap] at hp
    obtain ⟨i, -, hi⟩ := hp
    rw [Finset.mem_singleton]
    cases i <;> · cases hi; rfl
  exact_mod_cast (Finset.card_le_card this)

end Rotonda.Props
