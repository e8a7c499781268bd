import Verif.Proofs.QuerySeq
import Verif.Spec.PathSel

/-!
# Path selection
-/

namespace Rotonda

open Spec Prog

variable {M : Type} {W : Nat}

section Fold

variable {T : Type} {lt : T → T → Bool}

/-- First and second of a list. -/
def SelIn (lt : T → T → Bool) (l : List T) : Option T × Option T → Prop
  | (none, k) => l = [] ∧ k = none
  | (some b, none) => l = [b]
  | (some b, some k) => b ∈ l ∧ k ∈ l ∧ k ≠ b ∧ lt b k = true ∧
      ∀ x ∈ l, x ≠ b → x ≠ k → lt k x = true

theorem SelIn.step (htr : ∀ a b c, lt a b = true → lt b c = true → lt a c = true)
    (htot : ∀ a b, a ≠ b → lt a b = false → lt b a = true) {l : List T} {acc : Option T × Option T}
    (h : SelIn lt l acc) {c : T} (hc : c ∉ l) : SelIn lt (l ++ [c]) (bestBackupStep lt acc c) := by
  obtain ⟨ob, ok⟩ := acc
  cases ob with
  | none =>
    obtain ⟨rfl, rfl⟩ := h
    simp [bestBackupStep, SelIn]
  | some b =>
    cases ok with
    | none =>
      have h : l = [b] := h
      subst h
      have hne : c ≠ b := by simpa using hc
      simp only [bestBackupStep]
      split
      · rename_i hlt
        refine ⟨by simp, by simp, Ne.symm hne, hlt, ?_⟩
        intro x hx h1 h2
        simp at hx
        rcases hx with rfl | rfl
        · exact absurd rfl h2
        · exact absurd rfl h1
      · rename_i hlt
        refine ⟨by simp, by simp, hne, htot _ _ hne (by simpa using hlt), ?_⟩
        intro x hx h1 h2
        simp at hx
        rcases hx with rfl | rfl
        · exact absurd rfl h1
        · exact absurd rfl h2
    | some k =>
      obtain ⟨hb, hk, hkb, hlt, hall⟩ := h
      have hne : c ≠ b := fun e => hc (e ▸ hb)
      have hnk : c ≠ k := fun e => hc (e ▸ hk)
      simp only [bestBackupStep]
      split
      · rename_i hcb
        refine ⟨by simp, by simp [hb], Ne.symm hne, hcb, ?_⟩
        intro x hx h1 h2
        simp only [List.mem_append, List.mem_singleton] at hx
        rcases hx with hx | rfl
        · by_cases hxk : x = k
          · subst hxk; exact hlt
          · exact htr _ _ _ hlt (hall x hx h2 hxk)
        · exact absurd rfl h1
      · rename_i hcb
        have hbc : lt b c = true := htot _ _ hne (by simpa using hcb)
        split
        · rename_i hck
          refine ⟨by simp [hb], by simp, hne, hbc, ?_⟩
          intro x hx h1 h2
          simp only [List.mem_append, List.mem_singleton] at hx
          rcases hx with hx | rfl
          · by_cases hxk : x = k
            · subst hxk; exact hck
            · exact htr _ _ _ hck (hall x hx h1 hxk)
          · exact absurd rfl h2
        · rename_i hck
          refine ⟨by simp [hb], by simp [hk], hkb, hlt, ?_⟩
          intro x hx h1 h2
          simp only [List.mem_append, List.mem_singleton] at hx
          rcases hx with hx | rfl
          · exact hall x hx h1 h2
          · exact htot _ _ hnk (by simpa using hck)

theorem selIn_foldl (htr : ∀ a b c, lt a b = true → lt b c = true → lt a c = true)
    (htot : ∀ a b, a ≠ b → lt a b = false → lt b a = true) :
    ∀ (l l0 : List T) (acc : Option T × Option T), (l0 ++ l).Nodup → SelIn lt l0 acc →
      SelIn lt (l0 ++ l) (l.foldl (bestBackupStep lt) acc) := by
  intro l
  induction l with
  | nil => intro l0 acc _ h; simpa using h
  | cons c l ih =>
    intro l0 acc hnd h
    have hc : c ∉ l0 := by
      intro hc
      have := List.nodup_append.1 hnd
      exact this.2.2 c hc c (by simp) rfl
    have hnd' : ((l0 ++ [c]) ++ l).Nodup := by simpa using hnd
    have := ih (l0 ++ [c]) _ hnd' (h.step htr htot hc)
    simpa using this

end Fold

theorem pairLt_trans {O : Type} [LinearOrder O] (a b c : O × Mui) (h1 : pairLt a b = true)
    (h2 : pairLt b c = true) : pairLt a c = true := by
  simp only [pairLt, decide_eq_true_eq] at *
  rcases h1 with h1 | ⟨h1, h1'⟩ <;> rcases h2 with h2 | ⟨h2, h2'⟩
  · exact .inl (lt_trans h1 h2)
  · exact .inl (h2 ▸ h1)
  · exact .inl (h1 ▸ h2)
  · exact .inr ⟨h1.trans h2, BitVec.lt_trans h1' h2'⟩

theorem pairLt_total {O : Type} [LinearOrder O] (a b : O × Mui) (hne : a ≠ b)
    (h : pairLt a b = false) : pairLt b a = true := by
  simp only [pairLt, decide_eq_true_eq, decide_eq_false_iff_not, not_or, not_and] at *
  obtain ⟨h1, h2⟩ := h
  rcases lt_trichotomy a.1 b.1 with c | c | c
  · exact absurd c h1
  · refine .inr ⟨c.symm, ?_⟩
    have h3 := h2 c
    have h4 : a.2 ≠ b.2 := fun d => hne (Prod.ext c d)
    bv_omega
  · exact .inl c

variable [Meta M]

/-- The fold selects the best and the backup path, whatever the order of the map. -/
theorem bestBackup_selects {rs : Recs M} (hnd : KeysNodup rs) (tbi : Meta.TBI M) :
    IsSelection tbi (fun m => (rs.get m).map fun v => v.toRecord m) (bestBackup rs tbi) := by
  let f : Mui × MMV M → Meta.Orderable M × Mui := fun kv => (Meta.asOrderable kv.2.md tbi, kv.1)
  have hl : (rs.map f).Nodup := by
    have : ((rs.map f).map Prod.snd).Nodup := by
      rw [List.map_map]; exact hnd
    exact this.of_map _
  have hsel := selIn_foldl pairLt_trans pairLt_total (rs.map f) [] (none, none) (by simpa using hl)
    ⟨rfl, rfl⟩
  rw [List.nil_append] at hsel
  have hget : ∀ m r, ((rs.get m).map fun v => v.toRecord m) = some r ↔
      ∃ v, (m, v) ∈ rs ∧ r = v.toRecord m := by
    intro m r
    rw [Option.map_eq_some_iff]
    constructor
    · rintro ⟨v, hv, rfl⟩; exact ⟨v, (mem_iff_get hnd).2 hv, rfl⟩
    · rintro ⟨v, hv, rfl⟩; exact ⟨v, (mem_iff_get hnd).1 hv, rfl⟩
  have huniq : ∀ {m v v'}, (m, v) ∈ rs → (m, v') ∈ rs → v = v' := by
    intro m v v' h1 h2
    have h1 := (mem_iff_get hnd).1 h1
    have h2 := (mem_iff_get hnd).1 h2
    exact Option.some.inj (h1.symm.trans h2)
  have hb4 : ∀ {m m' : Mui} {v v' : MMV M}, pairLt (f (m, v)) (f (m', v')) = true →
      Before tbi (v.toRecord m) (v'.toRecord m') := by
    intro m m' v v' h
    simpa [pairLt, f, Before, MMV.toRecord] using h
  unfold bestBackup IsSelection
  generalize hacc : (rs.map fun kv => (Meta.asOrderable kv.2.md tbi, kv.1)).foldl
    (bestBackupStep pairLt) (none, none) = acc
  have hsel : SelIn pairLt (rs.map f) acc := by rw [← hacc]; exact hsel
  obtain ⟨ob, ok⟩ := acc
  cases ob with
  | none =>
    obtain ⟨hnil, rfl⟩ := hsel
    have : rs = [] := by simpa using hnil
    subst this
    exact ⟨fun m => rfl, fun m => by simp [without, Recs.get]⟩
  | some b =>
    cases ok with
    | none =>
      have hsel : rs.map f = [b] := hsel
      match rs, hsel with
      | [(m, v)], hsel =>
        have hb : b = f (m, v) := by simpa using hsel.symm
        subst hb
        refine ⟨⟨v.toRecord m, by simp [f, Recs.get], ?_⟩, ?_⟩
        · intro m' r' h' hne
          have hne : (m' == m) = false := by simpa [f] using hne
          simp [Recs.get, List.lookup_cons, hne] at h'
        · intro m'
          unfold without
          split
          · rfl
          · rename_i hne
            have hne : m' ≠ m := by simpa [f] using hne
            have : (m' == m) = false := by simpa using hne
            simp [Recs.get, List.lookup_cons, this]
    | some k =>
      obtain ⟨hb, hk, hkb, hlt, hall⟩ := hsel
      obtain ⟨⟨bm, bv⟩, hbm, rfl⟩ := List.mem_map.1 hb
      obtain ⟨⟨km, kv⟩, hkm, rfl⟩ := List.mem_map.1 hk
      have hne : km ≠ bm := by
        intro e; subst e
        exact hkb (by rw [huniq hkm hbm])
      refine ⟨⟨bv.toRecord bm, (hget _ _).2 ⟨bv, hbm, rfl⟩, ?_⟩, ⟨kv.toRecord km, ?_, ?_⟩⟩
      · intro m' r' h' hm'
        obtain ⟨v', hm2, rfl⟩ := (hget m' r').1 h'
        have hm' : m' ≠ bm := hm'
        apply hb4
        by_cases e : m' = km
        · subst e; rw [huniq hm2 hkm]; exact hlt
        · refine pairLt_trans _ _ _ hlt (hall _ (List.mem_map_of_mem hm2) ?_ ?_)
          · intro he; exact hm' (congrArg Prod.snd he)
          · intro he; exact e (congrArg Prod.snd he)
      · unfold without
        rw [if_neg (by simp [f, hne])]
        exact (hget _ _).2 ⟨kv, hkm, rfl⟩
      · intro m' r' h' hm'
        have hm' : m' ≠ km := hm'
        unfold without at h'
        split at h'
        · cases h'
        · rename_i hnb
          have hnb : m' ≠ bm := by simpa [f] using hnb
          obtain ⟨v', hm2, rfl⟩ := (hget m' r').1 h'
          apply hb4
          refine hall _ (List.mem_map_of_mem hm2) ?_ ?_
          · intro he; exact hnb (congrArg Prod.snd he)
          · intro he; exact hm' (congrArg Prod.snd he)

/-- The first record is unique. -/
theorem IsFirst.unique {tbi : Meta.TBI M} {R : Mui → Option (Record M)} {a b : Option Mui}
    (ha : IsFirst tbi R a) (hb : IsFirst tbi R b) : a = b := by
  cases a with
  | none =>
    cases b with
    | none => rfl
    | some m => obtain ⟨r, hr, _⟩ := hb; rw [ha m] at hr; cases hr
  | some m =>
    obtain ⟨r, hr, hall⟩ := ha
    cases b with
    | none => rw [hb m] at hr; cases hr
    | some n =>
      obtain ⟨r', hr', hall'⟩ := hb
      by_contra hne
      have hne : m ≠ n := fun e => hne (congrArg some e)
      have h1 := hall n r' hr' (Ne.symm hne)
      have h2 := hall' m r hr hne
      rcases h1 with h1 | ⟨h1, h1'⟩ <;> rcases h2 with h2 | ⟨h2, h2'⟩
      · exact lt_asymm h1 h2
      · rw [h2] at h1; exact lt_irrefl _ h1
      · rw [h1] at h2; exact lt_irrefl _ h2
      · exact absurd h2' (by bv_omega)

theorem IsSelection.unique {tbi : Meta.TBI M} {R : Mui → Option (Record M)}
    {a b : Option Mui × Option Mui} (ha : IsSelection tbi R a) (hb : IsSelection tbi R b) : a = b := by
  obtain ⟨a1, a2⟩ := a
  obtain ⟨b1, b2⟩ := b
  have h1 : a1 = b1 := IsFirst.unique ha.1 hb.1
  subst h1
  have h2 : a2 = b2 := IsFirst.unique ha.2 hb.2
  rw [h2]

/-- Selection over the records of a prefix. -/
theorem bestBackup_recsAt {st : Strategy} (hm : st.inMemory = true) (h : History M W) (p : Prefix W)
    (tbi : Meta.TBI M) : IsSelection tbi (recOf h p) (bestBackup (recsAt st h p) tbi) := by
  have h1 := bestBackup_selects (keysNodup_recsAt (st := st) h p) tbi
  have h2 : (fun m => ((recsAt st h p).get m).map fun v => v.toRecord m) = recOf h p := by
    funext m
    rw [get_recsAt hm]
    cases hr : recOf h p m with
    | none => rfl
    | some r =>
      have := recOf_mui hr
      subst this
      rfl
  rwa [h2] at h1

/-! ## Runs -/

theorem run_bestPath [Fam W] {st : Strategy} {h : History M W} {s : Rib M W} (hi : HInv st h s)
    (p : Prefix W) :
    (ribBestPath (M := M) p.id).run s = .ok ((tabOf st h p.id).map fun x =>
      match x.2.val.1 with
      | none => .error .bestPathNotFound
      | some m => match getRecordForMui x.1 m false with
        | some r => .ok r
        | none => .error .storeNotReady) s := by
  unfold ribBestPath
  rcases run_retrievePrefix p.clean hi.tab.inv with ⟨hr, hn⟩ | ⟨ref, e, hr, he, hid⟩
  · have hf := (hi.tab.none_iff _).2 hn
    simp only [run_bind, run_onRecs, hr, Outcome.mapState, Outcome.andThen, pure_def, run, hf,
      Option.map_none]
  · have hf := hi.tab.at he
    rw [hid] at hf
    simp only [run_bind, run_onRecs, hr, Outcome.mapState, Outcome.andThen, run_readAt' he, hf,
      Option.map_some]
    cases hv : e.ps.val.1 with
    | none => simp only [pure_def, run]
    | some m =>
      simp only [run_bind, run_onRecs, Outcome.mapState, Outcome.andThen, run_readAt' he]
      cases getRecordForMui e.recs m false <;> simp only [pure_def, run]

theorem run_isPsOutdated [Fam W] {st : Strategy} {h : History M W} {s : Rib M W} (hi : HInv st h s)
    (p : Prefix W) :
    (ribIsPsOutdated (M := M) p.id).run s = .ok (match tabOf st h p.id with
      | none => .error .storeNotReady
      | some x => .ok x.2.tag) s := by
  unfold ribIsPsOutdated
  rcases run_retrievePrefix p.clean hi.tab.inv with ⟨hr, hn⟩ | ⟨ref, e, hr, he, hid⟩
  · have hf := (hi.tab.none_iff _).2 hn
    simp only [run_bind, run_onRecs, hr, Outcome.mapState, Outcome.andThen, pure_def, run, hf]
  · have hf := hi.tab.at he
    rw [hid] at hf
    simp only [run_bind, run_onRecs, hr, Outcome.mapState, Outcome.andThen, isPsOutdatedAt,
      run_readAt' he, hf, pure_def, run]

/-- The path selection cell of a prefix. -/
def psAt (st : Strategy) (h : History M W) (p : Prefix W) : PsCell :=
  ((tabOf st h p.id).map Prod.snd).getD psInit

theorem psAt_other {st : Strategy} {h : History M W} {p : Prefix W} {op : Op M W}
    (hop : ¬ Selects p op) : psAt st (op :: h) p = psAt st h p := by
  unfold psAt
  cases op with
  | insert q r tbi =>
    have hq : ¬ p = q := fun e => hop e.symm
    simp only [tabOf]
    cases hm : st.inMemory with
    | false => rfl
    | true => simp only [if_true, put_id, if_neg hq]
  | calcBest q tbi =>
    have hq : ¬ p = q := fun e => hop e.symm
    simp only [tabOf]
    cases tabOf st h q.id with
    | none => rfl
    | some x => simp only [put_id, if_neg hq]
  | withdrawFor q m t =>
    simp only [tabOf]
    cases hm : st.inMemory with
    | false => rfl
    | true =>
      simp only [if_true, put_id]
      by_cases hq : p = q
      · subst hq
        rw [if_pos rfl]
        cases tabOf st h p.id <;> rfl
      · rw [if_neg hq]
  | activateFor q m t =>
    simp only [tabOf]
    cases hm : st.inMemory with
    | false => rfl
    | true =>
      simp only [if_true, put_id]
      by_cases hq : p = q
      · subst hq
        rw [if_pos rfl]
        cases tabOf st h p.id <;> rfl
      · rw [if_neg hq]
  | withdraw m => rfl
  | activate m => rfl

theorem psAt_append {st : Strategy} {h h1 : History M W} {p : Prefix W}
    (h1s : ∀ op ∈ h1, ¬ Selects p op) : psAt st (h1 ++ h) p = psAt st h p := by
  induction h1 with
  | nil => rfl
  | cons op h1 ih =>
    rw [List.cons_append, psAt_other (h1s op (by simp)), ih (fun o ho => h1s o (by simp [ho]))]

/-- A prefix with an entry keeps it. -/
theorem tabOf_isSome_cons {st : Strategy} {h : History M W} {p : Prefix W} {op : Op M W}
    (hs : (tabOf st h p.id).isSome) : (tabOf st (op :: h) p.id).isSome := by
  cases op with
  | withdraw m => exact hs
  | activate m => exact hs
  | calcBest q tbi =>
    simp only [tabOf]
    cases hq : tabOf st h q.id with
    | none => exact hs
    | some x =>
      simp only [put_id]
      split
      · rfl
      · exact hs
  | _ =>
    simp only [tabOf]
    split
    · rw [put_id]
      split
      · rfl
      · exact hs
    · exact hs

theorem tabOf_isSome_append {st : Strategy} {h : History M W} {p : Prefix W}
    (hs : (tabOf st h p.id).isSome) (h1 : History M W) : (tabOf st (h1 ++ h) p.id).isSome := by
  induction h1 with
  | nil => exact hs
  | cons op h1 ih => exact tabOf_isSome_cons ih

theorem tabOf_present {st : Strategy} (hm : st.inMemory = true) {h : History M W} {p : Prefix W}
    (hp : Present h p) : (tabOf st h p.id).isSome := by
  obtain ⟨m, r, tbi, hmem, _⟩ := hp
  obtain ⟨h1, h2, rfl⟩ := List.append_of_mem hmem
  apply tabOf_isSome_append
  simp only [tabOf, hm, if_true, put_id]
  rfl

theorem tabOf_eq {st : Strategy} {h : History M W} {p : Prefix W} (hs : (tabOf st h p.id).isSome) :
    tabOf st h p.id = some (recsAt st h p, psAt st h p) := by
  unfold recsAt psAt
  cases hx : tabOf st h p.id with
  | none => rw [hx] at hs; cases hs
  | some x => rfl

end Rotonda
