import Verif.Proofs.LinUse
import Verif.Proofs.Persist

/-!
# What concurrent calls persist
-/

namespace Rotonda

open Prog Spec

variable {M : Type} [Meta M] {W : Nat} {ι : Type}

/-- An invariant that every action of every call keeps. -/
theorem Conf.exec_always {σ ι : Type} [DecidableEq ι] {A : ι → Type} {G : ι → σ → σ → Prop}
    {I : σ → Prop} : ∀ (t : List ι) (c : Conf σ ι A), (∀ i ∈ t, ∀ s s', I s → G i s s' → I s') →
      (∀ i ∈ t, (c.pool i).Always (G i)) → I c.st → I (c.exec t).st := by
  intro t
  induction t with
  | nil => exact fun _ _ _ h => h
  | cons i t ih =>
    intro c hI hA h0
    have hI' : ∀ j ∈ t, ∀ s s', I s → G j s s' → I s' := fun j hj => hI j (List.mem_cons_of_mem _ hj)
    have hi := hA i (by simp)
    change I (((c.step i)).exec t).st
    unfold Conf.step
    split
    · rename_i f k hp
      rw [hp] at hi
      refine ih _ hI' (fun j hj => ?_) (hI i (by simp) _ _ h0 (hi.1 _))
      by_cases hij : j = i
      · subst hij
        simp only [Function.update_self]
        exact hi.2 _
      · simp only [Function.update_of_ne hij]
        exact hA j (List.mem_cons_of_mem _ hj)
    · exact ih _ hI' (fun j hj => hA j (List.mem_cons_of_mem _ hj)) h0

/-- `WriteAhead`: an insert persists its record, other calls persist nothing. -/
def LsmStep (x : Call M W) (s s' : Rib M W) : Prop :=
  ∀ e ∈ s'.lsm, e ∈ s.lsm ∨
    ∃ p r tbi, x = .insert p r tbi ∧ e = ((tagOf p r).key, Meta.toBytes r.md)

theorem LsmStep.of_eq {x : Call M W} {s s' : Rib M W} (h : s'.lsm = s.lsm) : LsmStep x s s' :=
  fun e he => .inl (by rw [← h]; exact he)

theorem lsmStep_cht {α : Type} (x : Call M W) (p : Prog (PCht M W) α) :
    (p.zoom Rib.chtL).Always (LsmStep x) :=
  Always.zoom (G' := fun _ _ => True) (fun _ _ _ => .of_eq rfl) (always_true p)

theorem lsmStep_tree {α : Type} (x : Call M W) (p : Prog (Tree W) α) :
    (p.zoom Rib.treeL : Prog (Rib M W) α).Always (LsmStep x) :=
  Always.zoom (G' := fun _ _ => True) (fun _ _ _ => .of_eq rfl) (always_true p)

theorem lsmStep_recs {α : Type} (x : Call M W) (p : Prog (PSlots M W) α) :
    (onRecs p).Always (LsmStep x) := lsmStep_cht x (p.zoom PCht.slotsL)

theorem lsmStep_markMem (x : Call M W) (p : PrefixId W) (m : Mui) (t : LTime) (rs : RouteStatus) :
    (ribMarkMem (M := M) p m t rs).Always (LsmStep x) := by
  unfold ribMarkMem
  refine Always.bind (lsmStep_recs x _) fun r => ?_
  obtain ⟨sp, found⟩ := r
  dsimp only
  split
  · trivial
  · exact Always.bind (lsmStep_recs x _) fun _ => trivial

theorem lsmStep_call (x : Call M W) (F fuel : Nat) :
    (x.prog .writeAhead F fuel).Always (LsmStep x) := by
  by_cases hx : changeOf x = none
  · exact (silent_query (po := True) x hx F fuel).mono fun _ _ h => .of_eq (h.lsm trivial)
  cases x with
  | insert p r tbi =>
    change (ribInsert .writeAhead F p.id r tbi).Always _
    unfold ribInsert
    refine Always.bind (lsmStep_tree _ _) fun ex => ?_
    cases ex with
    | error e => trivial
    | ok ex =>
      refine Always.bind ?_ fun rep => ?_
      · unfold ribUpsert
        refine Always.bind (always_atomic fun s e he => ?_) fun _ => ?_
        · rcases Lsm.mem_insert_sub he with he | he
          · exact .inr ⟨p, r, tbi, rfl, he⟩
          · exact .inl he
        · refine Always.bind (lsmStep_cht _ _) fun res => ?_
          rcases res with _ | ⟨_, _⟩ <;> trivial
      · cases rep with
        | error e => trivial
        | ok rep =>
          have h1 : (Rib.incRoutes (M := M) (W := W)).Always (LsmStep (.insert p r tbi)) :=
            always_atomic fun s => .of_eq rfl
          have h2 : ∀ n, (Rib.incPrefixes (M := M) (W := W) n).Always (LsmStep (.insert p r tbi)) :=
            fun n => always_atomic fun s => .of_eq rfl
          dsimp only
          always [h1, h2 _]
  | withdrawFor p m t =>
    refine Always.bind (lsmStep_markMem _ _ _ _ _) fun r => ?_
    cases r <;> trivial
  | activateFor p m t =>
    refine Always.bind (lsmStep_markMem _ _ _ _ _) fun r => ?_
    cases r <;> trivial
  | withdraw m => exact lsmStep_tree _ _
  | activate m => exact lsmStep_tree _ _
  | _ => exact absurd rfl hx

/-- The record of a pair comes from an insert, with the status of a later change. -/
theorem recOf_origin {H : History M W} {p : Prefix W} {m : Mui} {old : Record M}
    (ho : recOf H p m = some old) : ∃ r tbi, Op.insert p r tbi ∈ H ∧ r.mui = m ∧ r.md = old.md ∧
      (old = r ∨ ∃ tm, (Op.withdrawFor p m tm ∈ H ∧ old = { r with ltime := tm, status := .withdrawn }) ∨
        Op.activateFor p m tm ∈ H ∧ old = { r with ltime := tm, status := .active }) := by
  induction H generalizing old with
  | nil => cases ho
  | cons op H ih =>
    have lift : recOf H p m = some old → ∃ r tbi, Op.insert p r tbi ∈ op :: H ∧ r.mui = m ∧
        r.md = old.md ∧ (old = r ∨
        ∃ tm, (Op.withdrawFor p m tm ∈ op :: H ∧ old = { r with ltime := tm, status := .withdrawn }) ∨
        Op.activateFor p m tm ∈ op :: H ∧ old = { r with ltime := tm, status := .active }) := by
      intro ho
      obtain ⟨r, tbi, h1, h2, h3, h4⟩ := ih ho
      refine ⟨r, tbi, List.mem_cons_of_mem _ h1, h2, h3, h4.imp_right ?_⟩
      rintro ⟨tm, ⟨h5, h6⟩ | ⟨h5, h6⟩⟩
      · exact ⟨tm, .inl ⟨List.mem_cons_of_mem _ h5, h6⟩⟩
      · exact ⟨tm, .inr ⟨List.mem_cons_of_mem _ h5, h6⟩⟩
    cases op with
    | insert q r tbi =>
      simp only [recOf] at ho
      split at ho
      · rename_i c
        obtain ⟨rfl, rfl⟩ := c
        cases ho
        exact ⟨_, tbi, by simp, rfl, rfl, .inl rfl⟩
      · exact lift ho
    | withdrawFor q k tm =>
      simp only [recOf] at ho
      split at ho
      · rename_i c
        obtain ⟨rfl, rfl⟩ := c
        obtain ⟨r0, h0, rfl⟩ := Option.map_eq_some_iff.1 ho
        obtain ⟨r, tbi, h1, h2, h3, h4⟩ := ih h0
        refine ⟨r, tbi, List.mem_cons_of_mem _ h1, h2, h3, .inr ⟨tm, .inl ⟨by simp, ?_⟩⟩⟩
        rcases h4 with rfl | ⟨tm', ⟨_, rfl⟩ | ⟨_, rfl⟩⟩ <;> rfl
      · exact lift ho
    | activateFor q k tm =>
      simp only [recOf] at ho
      split at ho
      · rename_i c
        obtain ⟨rfl, rfl⟩ := c
        obtain ⟨r0, h0, rfl⟩ := Option.map_eq_some_iff.1 ho
        obtain ⟨r, tbi, h1, h2, h3, h4⟩ := ih h0
        refine ⟨r, tbi, List.mem_cons_of_mem _ h1, h2, h3, .inr ⟨tm, .inr ⟨by simp, ?_⟩⟩⟩
        rcases h4 with rfl | ⟨tm', ⟨_, rfl⟩ | ⟨_, rfl⟩⟩ <;> rfl
      · exact lift ho
    | _ => exact lift ho

theorem changeOf_insert {x : Call M W} {p : Prefix W} {r : Record M} {tbi : Option (Meta.TBI M)}
    (h : changeOf x = some (.insert p r tbi)) : x = .insert p r tbi := by
  cases x <;> cases h; rfl

theorem mem_histAfter {h : History M W} {calls : ι → Call M W} {l : List ι} {op : Op M W}
    (hm : op ∈ histAfter h calls l) : op ∈ h ∨ ∃ j ∈ l, changeOf (calls j) = some op := by
  rcases List.mem_append.1 hm with h1 | h1
  · obtain ⟨j, hj, h2⟩ := List.mem_filterMap.1 h1
    exact .inr ⟨j, hj, h2⟩
  · exact .inl h1

/-- The insert is part of the history or one of the calls. -/
theorem insert_mem_histAfter {h : History M W} {calls : ι → Call M W} {l : List ι} {p : Prefix W}
    {r : Record M} {tbi : Option (Meta.TBI M)} (hm : .insert p r tbi ∈ histAfter h calls l) :
    .insert p r tbi ∈ h ∨ ∃ j ∈ l, calls j = .insert p r tbi := by
  rcases mem_histAfter hm with h1 | ⟨j, hj, h1⟩
  · exact .inl h1
  · exact .inr ⟨j, hj, changeOf_insert h1⟩

/-- Followed by status changes only, a record keeps all but its status and time. -/
theorem recOf_until_insert {h : History M W} {calls : ι → Call M W} {p : Prefix W} {m : Mui}
    {r : Record M} {l0 : List ι} (h0 : recOf (histAfter h calls l0) p m = some r) :
    ∀ l : List ι, (∃ r0, recOf (histAfter h calls (l ++ l0)) p m = some r0 ∧
        (r0 = r ∨ ∃ k ∈ l, ∃ tm rs, MarksRoute (calls k) p m tm rs ∧
          r0 = { r with ltime := tm, status := rs })) ∨
      ∃ l1 j l2 r' tbi' r0, l = l1 ++ j :: l2 ∧ calls j = .insert p r' tbi' ∧ r'.mui = m ∧
        recOf (histAfter h calls (l2 ++ l0)) p m = some r0 ∧
        (r0 = r ∨ ∃ k ∈ l2, ∃ tm rs, MarksRoute (calls k) p m tm rs ∧
          r0 = { r with ltime := tm, status := rs }) := by
  intro l
  induction l with
  | nil => exact .inl ⟨r, h0, .inl rfl⟩
  | cons k l ih =>
    rcases ih with ⟨r0, h1, h2⟩ | ⟨l1, j, l2, r', tbi', r0, rfl, h1⟩
    · by_cases hk : ∃ r' tbi', calls k = .insert p r' tbi' ∧ r'.mui = m
      · obtain ⟨r', tbi', hk, hm⟩ := hk
        exact .inr ⟨[], k, l, r', tbi', r0, rfl, hk, hm, h1, h2⟩
      · refine .inl ?_
        have ht : Tracked .memoryOnly calls := fun c => by cases c
        have hst : ∀ H : History M W, recOf H p m = storedRec .memoryOnly H p m := fun _ => rfl
        by_cases hmk : ∃ tm rs, MarksRoute (calls k) p m tm rs
        · obtain ⟨tm, rs, hmk⟩ := hmk
          refine ⟨{ r0 with ltime := tm, status := rs }, ?_, .inr ⟨k, by simp, tm, rs, hmk, ?_⟩⟩
          · rw [List.cons_append, hst, storedRec_mark ht h hmk, ← hst, h1]
            rfl
          · rcases h2 with rfl | ⟨_, _, _, _, _, rfl⟩ <;> rfl
        · refine ⟨r0, ?_, h2.imp_right ?_⟩
          · rw [List.cons_append, hst, storedRec_skip h (fun r' tbi' hc hr => hk ⟨r', tbi', hc, hr⟩)
              (fun tm rs hc => hmk ⟨tm, rs, hc⟩), ← hst, h1]
          · rintro ⟨k', hk', hx⟩
            exact ⟨k', List.mem_cons_of_mem _ hk', hx⟩
    · exact .inr ⟨k :: l1, j, l2, r', tbi', r0, rfl, h1⟩

/-! ### Persisted records of a history -/

theorem persisted_inserted {h : History M W} {p : Prefix W} {r : Record M} {tbi : Option (Meta.TBI M)}
    (hi : .insert p r tbi ∈ h) : ∃ b, writtenAhead h (tagOf p r) = some b := by
  induction h with
  | nil => cases hi
  | cons op h ih =>
    rcases List.mem_cons.1 hi with rfl | hi
    · exact ⟨_, if_pos rfl⟩
    · obtain ⟨b, hb⟩ := ih hi
      cases op with
      | insert q r' tbi' =>
        simp only [writtenAhead]
        split
        · exact ⟨_, rfl⟩
        · exact ⟨b, hb⟩
      | _ => exact ⟨b, hb⟩

theorem recOf_origin_run {h : History M W} {calls : ι → Call M W} {l t : List ι} {p : Prefix W}
    {m : Mui} {old : Record M} (hl : ∀ i ∈ l, i ∈ t) (ho : recOf (histAfter h calls l) p m = some old) :
    ∃ r, InsertedBy h calls t p r ∧ r.mui = m ∧ r.md = old.md ∧
      (old = r ∨ ∃ tm rs, MarkedBy h calls t p m tm rs ∧ old = { r with ltime := tm, status := rs }) := by
  obtain ⟨r, tbi, h1, h2, h3, h4⟩ := recOf_origin ho
  refine ⟨r, ⟨tbi, (insert_mem_histAfter h1).imp_right fun ⟨j, hj, h⟩ => ⟨j, hl j hj, h⟩⟩, h2, h3,
    h4.imp_right ?_⟩
  rintro ⟨tm, ⟨h5, h6⟩ | ⟨h5, h6⟩⟩
  · refine ⟨tm, .withdrawn, ?_, h6⟩
    rcases mem_histAfter h5 with h7 | ⟨j, hj, h7⟩
    · exact .inl ⟨h7, rfl⟩
    · refine .inr (.inr ⟨j, hl j hj, .inl ⟨?_, rfl⟩⟩)
      revert h7
      cases calls j <;> intro h7 <;> cases h7
      rfl
  · refine ⟨tm, .active, ?_, h6⟩
    rcases mem_histAfter h5 with h7 | ⟨j, hj, h7⟩
    · exact .inr (.inl ⟨h7, rfl⟩)
    · refine .inr (.inr ⟨j, hl j hj, .inr ⟨?_, rfl⟩⟩)
      revert h7
      cases calls j <;> intro h7 <;> cases h7
      rfl

/-- Without status changes of the route: an inserted record is the current one or was
persisted when it was replaced. -/
theorem superseded_inserted {h : History M W} {p : Prefix W} {r : Record M}
    {tbi : Option (Meta.TBI M)}
    (hn : ∀ tm, Op.withdrawFor p r.mui tm ∉ h ∧ Op.activateFor p r.mui tm ∉ h)
    (hi : .insert p r tbi ∈ h) :
    recOf h p r.mui = some r ∨ ∃ b, supersededCode h (tagOf p r) = some b := by
  induction h with
  | nil => cases hi
  | cons op h ih =>
    rcases List.mem_cons.1 hi with rfl | hi
    · exact .inl (if_pos ⟨rfl, rfl⟩)
    · have hn' : ∀ tm, Op.withdrawFor p r.mui tm ∉ h ∧ Op.activateFor p r.mui tm ∉ h :=
        fun tm => ⟨fun c => (hn tm).1 (List.mem_cons_of_mem _ c),
          fun c => (hn tm).2 (List.mem_cons_of_mem _ c)⟩
      have ih := ih hn' hi
      cases op with
      | insert q r' tbi' =>
        simp only [recOf, supersededCode]
        by_cases hq : q = p ∧ r'.mui = r.mui
        · refine .inr ?_
          obtain ⟨rfl, hm⟩ := hq
          rw [hm]
          rcases ih with ih | ⟨b, ih⟩
          · rw [ih]
            exact ⟨_, if_pos rfl⟩
          · cases recOf h q r.mui with
            | none => exact ⟨b, ih⟩
            | some old =>
              dsimp only
              split
              · exact ⟨_, rfl⟩
              · exact ⟨b, ih⟩
        · rw [if_neg hq]
          refine ih.imp_right fun ⟨b, ih⟩ => ?_
          cases recOf h q r'.mui with
          | none => exact ⟨b, ih⟩
          | some old =>
            dsimp only
            split
            · exact ⟨_, rfl⟩
            · exact ⟨b, ih⟩
      | withdrawFor q m t =>
        have hq : ¬ (q = p ∧ m = r.mui) := by
          rintro ⟨rfl, rfl⟩
          exact (hn t).1 List.mem_cons_self
        simp only [recOf, supersededCode, if_neg hq]
        refine ih.imp_right fun ⟨b, ih⟩ => ?_
        split
        · exact ⟨_, rfl⟩
        · exact ⟨b, ih⟩
      | activateFor q m t =>
        have hq : ¬ (q = p ∧ m = r.mui) := by
          rintro ⟨rfl, rfl⟩
          exact (hn t).2 List.mem_cons_self
        simp only [recOf, supersededCode, if_neg hq]
        refine ih.imp_right fun ⟨b, ih⟩ => ?_
        split
        · exact ⟨_, rfl⟩
        · exact ⟨b, ih⟩
      | _ => exact ih

/-- Without status changes of the route everything persisted for it is an inserted record. -/
theorem superseded_origin {h : History M W} {k : Tag W} {b : Bytes}
    (hn : ∀ tm, Op.withdrawFor k.pfx k.mui tm ∉ h ∧ Op.activateFor k.pfx k.mui tm ∉ h)
    (hb : supersededCode h k = some b) :
    ∃ r tbi, Op.insert k.pfx r tbi ∈ h ∧ tagOf k.pfx r = k ∧ b = Meta.toBytes r.md := by
  induction h with
  | nil => cases hb
  | cons op h ih =>
    have hn' : ∀ tm, Op.withdrawFor k.pfx k.mui tm ∉ h ∧ Op.activateFor k.pfx k.mui tm ∉ h :=
      fun tm => ⟨fun c => (hn tm).1 (List.mem_cons_of_mem _ c),
        fun c => (hn tm).2 (List.mem_cons_of_mem _ c)⟩
    have lift : supersededCode h k = some b →
        ∃ r tbi, Op.insert k.pfx r tbi ∈ op :: h ∧ tagOf k.pfx r = k ∧ b = Meta.toBytes r.md :=
      fun hb => by
        obtain ⟨r, tbi, h1, h2⟩ := ih hn' hb
        exact ⟨r, tbi, List.mem_cons_of_mem _ h1, h2⟩
    cases op with
    | insert q r' tbi' =>
      simp only [supersededCode] at hb
      split at hb
      · rename_i old ho
        split at hb
        · rename_i hk
          cases hb
          subst hk
          obtain ⟨r, tbi, h1, h2, h3, h4⟩ := recOf_origin ho
          have hm : old.mui = r'.mui := by
            rcases h4 with rfl | ⟨_, ⟨_, rfl⟩ | ⟨_, rfl⟩⟩ <;> exact h2
          rcases h4 with rfl | ⟨tm, ⟨h4, _⟩ | ⟨h4, _⟩⟩
          · exact ⟨old, tbi, List.mem_cons_of_mem _ h1, rfl, rfl⟩
          · exact absurd h4 (by have := (hn' tm).1; simp only [tagOf, hm] at this; exact this)
          · exact absurd h4 (by have := (hn' tm).2; simp only [tagOf, hm] at this; exact this)
        · exact lift hb
      · exact lift hb
    | withdrawFor q m t =>
      simp only [supersededCode] at hb
      split at hb
      · rename_i hk
        obtain ⟨rfl, _⟩ := hk
        exact absurd List.mem_cons_self (hn t).1
      · exact lift hb
    | activateFor q m t =>
      simp only [supersededCode] at hb
      split at hb
      · rename_i hk
        obtain ⟨rfl, _⟩ := hk
        exact absurd List.mem_cons_self (hn t).2
      · exact lift hb
    | _ => exact lift hb

end Rotonda
