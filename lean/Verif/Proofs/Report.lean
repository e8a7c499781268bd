import Verif.Proofs.LinPersist

/-!
# What the report of an insert says when other calls run at the same time
-/

namespace Rotonda

open Prog Spec

variable {M : Type} [Meta M] {W : Nat} {ι : Type} [DecidableEq ι]

theorem run_report [Fam W] {st : Strategy} {F0 F fuel : Nat} (hF : 32 ≤ F) (hf : iterFuel W ≤ fuel)
    {h : History M W} {s : Rib M W} (hs : exec st F0 h = .ok () s) {calls : ι → Call M W} {t : List ι}
    {i : ι} {p : Prefix W} {r : Record M} {tbi : Option (Meta.TBI M)}
    {a : Except StoreError UpsertReport}
    (hr : Returned ((start st F fuel s calls).exec t) i (.insert p r tbi) a) :
    (tbi = none → ∃ rep, a = .ok rep) ∧
      ((∃ rep, a = .ok rep ∧ rep.muiNew = false) → Inserted h p r.mui ∨
        ∃ j ∈ t, j ≠ i ∧ ∃ r' tbi', calls j = .insert p r' tbi' ∧ r'.mui = r.mui) := by
  obtain ⟨log, h0, hstep, -, -, hcalls⟩ := run_log hF hf hs calls t
  have ho : EffectOrder t log := ⟨h0, hstep⟩
  have key : ∀ (x : Call M W) (b : x.Ans), Returned ((start st F fuel s calls).exec t) i x b →
      x.Timely = true → ∃ k, x.LinPost st h calls i (log k) b (log t.length)
        ((start st F fuel s calls).at t t.length).st.lsm := by
    intro x b hr hx
    have hx' : (calls i).Timely = true := by rw [hr.1]; exact hx
    refine returned_elim hr (Q := fun x b => ∃ k, x.LinPost st h calls i (log k) b (log t.length)
        ((start st F fuel s calls).at t t.length).st.lsm) fun c hc => ?_
    have hin : i ∈ t := by
      by_contra hn
      rw [Conf.exec_idle _ hn] at hc
      exact (Call.starts st F fuel _ hx').ne _ hc
    obtain ⟨k, _, _, _, hp⟩ := hcalls t.length (Nat.le_refl _) i (by rw [List.take_length]; exact hin) c
      (by unfold Conf.at; rw [List.take_length]; exact hc)
    exact ⟨k, hp⟩
  obtain ⟨k, -, -, hhad, hbad⟩ := key _ _ hr rfl
  constructor
  · intro ht
    subst ht
    cases a with
    | ok rep => exact ⟨rep, rfl⟩
    | error e => exact absurd hr.1 (hbad ⟨e, rfl⟩ p r)
  · intro hm
    obtain ⟨l2, hl, hrec⟩ := hhad hm
    obtain ⟨old, ho'⟩ := Option.ne_none_iff_exists'.1 hrec
    obtain ⟨r', tbi', hin, hmui, -, -⟩ := recOf_origin ho'
    rcases insert_mem_histAfter hin with h1 | ⟨j, hj, h1⟩
    · exact .inl ⟨r', tbi', h1, hmui⟩
    · have hnd := (ho.nodup (Nat.le_refl _)).sublist hl.sublist
      refine .inr ⟨j, ?_, fun e => ?_, r', tbi', h1, hmui⟩
      · have := ho.mem (Nat.le_refl _) (hl.subset (List.mem_cons_of_mem _ hj))
        rwa [List.take_length] at this
      · subst e
        exact (List.nodup_cons.1 hnd).1 hj

end Rotonda
