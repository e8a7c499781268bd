import Verif.Proofs.Retries

/-!
# C81: merging the bits of a node (`merge_with`)
-/

namespace Rotonda.Props

open Prog

variable {W : Nat}

/-! ## Alone -/

/-- C81, partial: `merge_with` that runs alone on the child bits of a node returns, the bits then are those
there before and those given, and nothing else has changed. -/
theorem merge_ptr_alone_partial (F : Nat) {a : Addr} {s : NSlots W} {e : StoredNode W} (he : s a = some e)
    (x : BitVec 16) :
    ∃ s', (mergePtr F a x).run s = .ok () s' ∧ s' a = some { e with ptr := e.ptr ||| x } ∧
      ∀ b, b ≠ a → s' b = s b := by
  have h1 : (mergePtr F a x).run s = (mergePtrLoop a e.ptr x (F + 1) (e.ptr ||| x)).run s := by
    show Prog.run ((ofOption ((s a).map StoredNode.ptr)) >>= _) s = _
    rw [he]
    rfl
  have h2 : (mergePtrLoop a e.ptr x (F + 1) (e.ptr ||| x)).run s =
      .ok () (s.set a { e with ptr := e.ptr ||| x }) := by
    show Prog.run (Prog.act _ _ : Prog (NSlots W) Unit) s = _
    simp only [Prog.run, he, if_pos]
    rfl
  exact ⟨_, h1.trans h2, by simp [Slots.set], fun b hb => by simp [Slots.set, hb]⟩

/-- Where a merge can be. -/
def MergingPtr (F : Nat) (a : Addr) (x : BitVec 16) (p : Prog (NSlots W) Unit) (s : NSlots W) : Prop :=
  p = mergePtr F a x ∨ (∃ cur fuel c, p = mergePtrLoop a cur x fuel (c ||| x)) ∨
    (p = .ret () ∧ ∃ e, s a = some e ∧ e.ptr ||| x = e.ptr) ∨ p = .panic ∨ p = .diverge

theorem mergingPtr_step {F : Nat} {a : Addr} {x : BitVec 16} {s : NSlots W} {α : Type}
    {f : NSlots W → α × NSlots W} {k : α → Prog (NSlots W) Unit} (h : MergingPtr F a x (.act f k) s) :
    MergingPtr F a x (k (f s).1) (f s).2 := by
  rcases h with h | ⟨cur, fuel, c, h⟩ | h | h | h
  · injection h with h0 h1 h2
    subst h0
    cases h1
    cases h2
    show MergingPtr F a x (ofOption ((s a).map StoredNode.ptr) >>= _) s
    cases s a with
    | none => exact .inr (.inr (.inr (.inl rfl)))
    | some e => exact .inr (.inl ⟨e.ptr, F + 1, e.ptr, rfl⟩)
  · cases fuel with
    | zero => cases h
    | succ fuel =>
      injection h with h0 h1 h2
      subst h0
      cases h1
      cases h2
      cases hs : s a with
      | none => simp only [hs]; exact .inr (.inr (.inr (.inl rfl)))
      | some e =>
        by_cases hc : e.ptr = cur
        · simp only [hs, if_pos hc]
          refine .inr (.inr (.inl ⟨rfl, _, by simp [Slots.set]; rfl, ?_⟩))
          simp [BitVec.or_assoc]
        · simp only [hs, if_neg hc]
          exact .inr (.inl ⟨cur, fuel, e.ptr, rfl⟩)
  · cases h.1
  · cases h
  · cases h

/-- C81, partial: whatever else goes on, as long as nobody clears bits of the node, once `merge_with` has
returned, the bits given to it are set. -/
theorem merge_ptr_sets_partial {ι : Type} [DecidableEq ι] {F : Nat} {a : Addr} {x : BitVec 16} {i : ι}
    {c : Conf (NSlots W) ι (fun _ => Unit)} (hp : c.pool i = mergePtr F a x) (t : List ι)
    (hmono : ∀ u j e, (u ++ [j]) <+: t → (c.exec u).st a = some e → ∃ e', (c.exec (u ++ [j])).st a = some e' ∧
      e.ptr ||| e'.ptr = e'.ptr) (hr : (c.exec t).pool i = .ret ()) :
    ∃ e, (c.exec t).st a = some e ∧ e.ptr ||| x = e.ptr := by
  have key : ∀ n, n ≤ t.length → MergingPtr F a x ((c.exec (t.take n)).pool i) (c.exec (t.take n)).st := by
    intro n
    induction n with
    | zero => exact fun _ => .inl hp
    | succ n ih =>
      intro hn
      have ih := ih (by omega)
      have ht : t.take (n + 1) = t.take n ++ [t[n]] := (List.take_succ_eq_append_getElem (by omega))
      have hpre : t.take n ++ [t[n]] <+: t := ht ▸ List.take_prefix _ _
      have hm := fun e => hmono _ _ e hpre
      rw [ht]
      generalize t[n] = j at hm ⊢
      generalize t.take n = u at hm ih ⊢
      rw [Conf.exec_append] at hm ⊢
      generalize c.exec u = d at hm ih ⊢
      show MergingPtr F a x ((d.step j).pool i) (d.step j).st
      change ∀ e, d.st a = some e → ∃ e', (d.step j).st a = some e' ∧ e.ptr ||| e'.ptr = e'.ptr at hm
      by_cases hj : j = i
      · subst hj
        unfold Conf.step
        cases hq : d.pool j with
        | act f k =>
          simp only [Function.update_self]
          exact mergingPtr_step (hq ▸ ih)
        | ret a => simp only [hq]; exact hq ▸ ih
        | panic => simp only [hq]; exact hq ▸ ih
        | diverge => simp only [hq]; exact hq ▸ ih
      · have hsame : (d.step j).pool i = d.pool i := by
          unfold Conf.step
          split
          · exact Function.update_of_ne (Ne.symm hj) _ _
          · rfl
        rw [hsame]
        rcases ih with h | h | ⟨h, e, he, hx⟩ | h | h
        · exact .inl h
        · exact .inr (.inl h)
        · obtain ⟨e', he', hx'⟩ := hm e he
          refine .inr (.inr (.inl ⟨h, e', he', ?_⟩))
          rw [← hx', BitVec.or_assoc, BitVec.or_comm e'.ptr, ← BitVec.or_assoc, hx]
        · exact .inr (.inr (.inr (.inl h)))
        · exact .inr (.inr (.inr (.inr h)))
  have := key t.length le_rfl
  rw [List.take_length, hr] at this
  rcases this with h | ⟨cur, fuel, c, h⟩ | h | h | h
  · cases h
  · cases fuel <;> cases h
  · exact h.2
  · cases h
  · cases h

theorem loopPtr_step {a : Addr} {cur x new : BitVec 16} {fuel : Nat} {s : NSlots W} {α : Type}
    {f : NSlots W → α × NSlots W} {k : α → Prog (NSlots W) Unit}
    (h : .act f k = mergePtrLoop a cur x (fuel + 1) new) (hne : ∀ e, s a = some e → e.ptr ≠ cur) :
    ((∃ fuel new, k (f s).1 = mergePtrLoop a cur x fuel new) ∨ k (f s).1 = .panic) ∧ (f s).2 a = s a := by
  injection h with h0 h1 h2
  subst h0
  cases h1
  cases h2
  cases hs : s a with
  | none => simp only [hs]; exact ⟨.inr rfl, trivial⟩
  | some e =>
    simp only [hs, if_neg (hne e hs)]
    exact ⟨.inl ⟨fuel, _, rfl⟩, by simp [Slots.set]⟩

/-- C81 is false: after one failed swap `merge_with` goes on comparing with the value it loaded first.  So
when the bits have changed since, and nobody puts them back, it never returns, however often it tries. -/
theorem merge_ptr_stuck {ι : Type} [DecidableEq ι] {a : Addr} {cur x : BitVec 16} {i : ι}
    {c : Conf (NSlots W) ι (fun _ => Unit)} {fuel : Nat} {new : BitVec 16}
    (hp : c.pool i = mergePtrLoop a cur x fuel new) (t : List ι)
    (hne : ∀ u e, u <+: t → (c.exec u).st a = some e → e.ptr ≠ cur) :
    (c.exec t).pool i ≠ .ret () := by
  suffices h : ((∃ fuel new, (c.exec t).pool i = mergePtrLoop a cur x fuel new) ∨ (c.exec t).pool i = .panic) ∨
      (c.exec t).pool i = .diverge by
    rcases h with (⟨fuel, new, h⟩ | h) | h
    · rw [h]; cases fuel <;> exact fun e => by cases e
    · rw [h]; exact fun e => by cases e
    · rw [h]; exact fun e => by cases e
  induction t using List.reverseRecOn with
  | nil => exact .inl (.inl ⟨fuel, new, hp⟩)
  | append_singleton u j ih =>
    have ih := ih fun v e hv => hne v e (hv.trans (List.prefix_append _ _))
    have hd := fun e => hne u e (List.prefix_append _ _)
    rw [Conf.exec_append]
    generalize c.exec u = d at hd ih ⊢
    change ((∃ fuel new, (d.step j).pool i = mergePtrLoop a cur x fuel new) ∨ (d.step j).pool i = .panic) ∨
      (d.step j).pool i = .diverge
    by_cases hj : j = i
    · subst hj
      rcases ih with (⟨fuel, new, h⟩ | h) | h
      · cases fuel with
        | zero => unfold Conf.step; rw [h]; exact .inr h
        | succ fuel =>
          unfold Conf.step
          cases hq : d.pool j with
          | act f k =>
            simp only [Function.update_self]
            exact .inl (loopPtr_step (hq.symm.trans h) hd).1
          | ret a => rw [hq] at h; cases h
          | panic => rw [hq] at h; cases h
          | diverge => rw [hq] at h; cases h
      · unfold Conf.step; rw [h]; exact .inl (.inr h)
      · unfold Conf.step; rw [h]; exact .inr h
    · have hsame : (d.step j).pool i = d.pool i := by
        unfold Conf.step
        split
        · exact Function.update_of_ne (Ne.symm hj) _ _
        · rfl
      rw [hsame]
      exact ih

/-- C81, partial: `merge_with` that runs alone on the prefix bits of a node returns, the bits then are those
there before and those given, and nothing else has changed. -/
theorem merge_pfx_alone_partial (F : Nat) {a : Addr} {s : NSlots W} {e : StoredNode W} (he : s a = some e)
    (x : BitVec 32) :
    ∃ s', (mergePfx F a x).run s = .ok () s' ∧ s' a = some { e with pfx := e.pfx ||| x } ∧
      ∀ b, b ≠ a → s' b = s b := by
  have h1 : (mergePfx F a x).run s = (mergePfxLoop a e.pfx x (F + 1) (e.pfx ||| x)).run s := by
    show Prog.run ((ofOption ((s a).map StoredNode.pfx)) >>= _) s = _
    rw [he]
    rfl
  have h2 : (mergePfxLoop a e.pfx x (F + 1) (e.pfx ||| x)).run s =
      .ok () (s.set a { e with pfx := e.pfx ||| x }) := by
    show Prog.run (Prog.act _ _ : Prog (NSlots W) Unit) s = _
    simp only [Prog.run, he, if_pos]
    rfl
  exact ⟨_, h1.trans h2, by simp [Slots.set], fun b hb => by simp [Slots.set, hb]⟩

/-- Where a merge can be. -/
def MergingPfx (F : Nat) (a : Addr) (x : BitVec 32) (p : Prog (NSlots W) Unit) (s : NSlots W) : Prop :=
  p = mergePfx F a x ∨ (∃ cur fuel c, p = mergePfxLoop a cur x fuel (c ||| x)) ∨
    (p = .ret () ∧ ∃ e, s a = some e ∧ e.pfx ||| x = e.pfx) ∨ p = .panic ∨ p = .diverge

theorem mergingPfx_step {F : Nat} {a : Addr} {x : BitVec 32} {s : NSlots W} {α : Type}
    {f : NSlots W → α × NSlots W} {k : α → Prog (NSlots W) Unit} (h : MergingPfx F a x (.act f k) s) :
    MergingPfx F a x (k (f s).1) (f s).2 := by
  rcases h with h | ⟨cur, fuel, c, h⟩ | h | h | h
  · injection h with h0 h1 h2
    subst h0
    cases h1
    cases h2
    show MergingPfx F a x (ofOption ((s a).map StoredNode.pfx) >>= _) s
    cases s a with
    | none => exact .inr (.inr (.inr (.inl rfl)))
    | some e => exact .inr (.inl ⟨e.pfx, F + 1, e.pfx, rfl⟩)
  · cases fuel with
    | zero => cases h
    | succ fuel =>
      injection h with h0 h1 h2
      subst h0
      cases h1
      cases h2
      cases hs : s a with
      | none => simp only [hs]; exact .inr (.inr (.inr (.inl rfl)))
      | some e =>
        by_cases hc : e.pfx = cur
        · simp only [hs, if_pos hc]
          refine .inr (.inr (.inl ⟨rfl, _, by simp [Slots.set]; rfl, ?_⟩))
          simp [BitVec.or_assoc]
        · simp only [hs, if_neg hc]
          exact .inr (.inl ⟨cur, fuel, e.pfx, rfl⟩)
  · cases h.1
  · cases h
  · cases h

/-- C81, partial: whatever else goes on, as long as nobody clears bits of the node, once `merge_with` has
returned, the bits given to it are set. -/
theorem merge_pfx_sets_partial {ι : Type} [DecidableEq ι] {F : Nat} {a : Addr} {x : BitVec 32} {i : ι}
    {c : Conf (NSlots W) ι (fun _ => Unit)} (hp : c.pool i = mergePfx F a x) (t : List ι)
    (hmono : ∀ u j e, (u ++ [j]) <+: t → (c.exec u).st a = some e → ∃ e', (c.exec (u ++ [j])).st a = some e' ∧
      e.pfx ||| e'.pfx = e'.pfx) (hr : (c.exec t).pool i = .ret ()) :
    ∃ e, (c.exec t).st a = some e ∧ e.pfx ||| x = e.pfx := by
  have key : ∀ n, n ≤ t.length → MergingPfx F a x ((c.exec (t.take n)).pool i) (c.exec (t.take n)).st := by
    intro n
    induction n with
    | zero => exact fun _ => .inl hp
    | succ n ih =>
      intro hn
      have ih := ih (by omega)
      have ht : t.take (n + 1) = t.take n ++ [t[n]] := (List.take_succ_eq_append_getElem (by omega))
      have hpre : t.take n ++ [t[n]] <+: t := ht ▸ List.take_prefix _ _
      have hm := fun e => hmono _ _ e hpre
      rw [ht]
      generalize t[n] = j at hm ⊢
      generalize t.take n = u at hm ih ⊢
      rw [Conf.exec_append] at hm ⊢
      generalize c.exec u = d at hm ih ⊢
      show MergingPfx F a x ((d.step j).pool i) (d.step j).st
      change ∀ e, d.st a = some e → ∃ e', (d.step j).st a = some e' ∧ e.pfx ||| e'.pfx = e'.pfx at hm
      by_cases hj : j = i
      · subst hj
        unfold Conf.step
        cases hq : d.pool j with
        | act f k =>
          simp only [Function.update_self]
          exact mergingPfx_step (hq ▸ ih)
        | ret a => simp only [hq]; exact hq ▸ ih
        | panic => simp only [hq]; exact hq ▸ ih
        | diverge => simp only [hq]; exact hq ▸ ih
      · have hsame : (d.step j).pool i = d.pool i := by
          unfold Conf.step
          split
          · exact Function.update_of_ne (Ne.symm hj) _ _
          · rfl
        rw [hsame]
        rcases ih with h | h | ⟨h, e, he, hx⟩ | h | h
        · exact .inl h
        · exact .inr (.inl h)
        · obtain ⟨e', he', hx'⟩ := hm e he
          refine .inr (.inr (.inl ⟨h, e', he', ?_⟩))
          rw [← hx', BitVec.or_assoc, BitVec.or_comm e'.pfx, ← BitVec.or_assoc, hx]
        · exact .inr (.inr (.inr (.inl h)))
        · exact .inr (.inr (.inr (.inr h)))
  have := key t.length le_rfl
  rw [List.take_length, hr] at this
  rcases this with h | ⟨cur, fuel, c, h⟩ | h | h | h
  · cases h
  · cases fuel <;> cases h
  · exact h.2
  · cases h
  · cases h

theorem loopPfx_step {a : Addr} {cur x new : BitVec 32} {fuel : Nat} {s : NSlots W} {α : Type}
    {f : NSlots W → α × NSlots W} {k : α → Prog (NSlots W) Unit}
    (h : .act f k = mergePfxLoop a cur x (fuel + 1) new) (hne : ∀ e, s a = some e → e.pfx ≠ cur) :
    ((∃ fuel new, k (f s).1 = mergePfxLoop a cur x fuel new) ∨ k (f s).1 = .panic) ∧ (f s).2 a = s a := by
  injection h with h0 h1 h2
  subst h0
  cases h1
  cases h2
  cases hs : s a with
  | none => simp only [hs]; exact ⟨.inr rfl, trivial⟩
  | some e =>
    simp only [hs, if_neg (hne e hs)]
    exact ⟨.inl ⟨fuel, _, rfl⟩, by simp [Slots.set]⟩

/-- C81 is false: after one failed swap `merge_with` goes on comparing with the value it loaded first.  So
when the bits have changed since, and nobody puts them back, it never returns, however often it tries. -/
theorem merge_pfx_stuck {ι : Type} [DecidableEq ι] {a : Addr} {cur x : BitVec 32} {i : ι}
    {c : Conf (NSlots W) ι (fun _ => Unit)} {fuel : Nat} {new : BitVec 32}
    (hp : c.pool i = mergePfxLoop a cur x fuel new) (t : List ι)
    (hne : ∀ u e, u <+: t → (c.exec u).st a = some e → e.pfx ≠ cur) :
    (c.exec t).pool i ≠ .ret () := by
  suffices h : ((∃ fuel new, (c.exec t).pool i = mergePfxLoop a cur x fuel new) ∨ (c.exec t).pool i = .panic) ∨
      (c.exec t).pool i = .diverge by
    rcases h with (⟨fuel, new, h⟩ | h) | h
    · rw [h]; cases fuel <;> exact fun e => by cases e
    · rw [h]; exact fun e => by cases e
    · rw [h]; exact fun e => by cases e
  induction t using List.reverseRecOn with
  | nil => exact .inl (.inl ⟨fuel, new, hp⟩)
  | append_singleton u j ih =>
    have ih := ih fun v e hv => hne v e (hv.trans (List.prefix_append _ _))
    have hd := fun e => hne u e (List.prefix_append _ _)
    rw [Conf.exec_append]
    generalize c.exec u = d at hd ih ⊢
    change ((∃ fuel new, (d.step j).pool i = mergePfxLoop a cur x fuel new) ∨ (d.step j).pool i = .panic) ∨
      (d.step j).pool i = .diverge
    by_cases hj : j = i
    · subst hj
      rcases ih with (⟨fuel, new, h⟩ | h) | h
      · cases fuel with
        | zero => unfold Conf.step; rw [h]; exact .inr h
        | succ fuel =>
          unfold Conf.step
          cases hq : d.pool j with
          | act f k =>
            simp only [Function.update_self]
            exact .inl (loopPfx_step (hq.symm.trans h) hd).1
          | ret a => rw [hq] at h; cases h
          | panic => rw [hq] at h; cases h
          | diverge => rw [hq] at h; cases h
      · unfold Conf.step; rw [h]; exact .inl (.inr h)
      · unfold Conf.step; rw [h]; exact .inr h
    · have hsame : (d.step j).pool i = d.pool i := by
        unfold Conf.step
        split
        · exact Function.update_of_ne (Ne.symm hj) _ _
        · rfl
      rw [hsame]
      exact ih

/-! ## In the store -/

/-- C81: the store is not affected, because it never merges: the new nodes it stores have no bits … -/
theorem new_nodes_empty (F : Nat) (a : Addr) (bs : BitSpan) (base : NodeId W) (isLast : Bool) :
    (evalNodeOrPrefixAt F a bs base isLast).Rets fun r => ∀ x y, r = .newNode x y → x = 0#16 ∧ y = 0#32 := by
  unfold evalNodeOrPrefixAt
  refine Rets.seq fun ptr => Rets.seq fun pfx => Rets.seq fun bp => ?_
  split
  · refine Rets.seq fun ptr2 => ?_
    split
    · refine Rets.seq fun _ => ?_
      rintro x y ⟨⟩
      exact ⟨rfl, rfl⟩
    · rintro x y ⟨⟩
  · split
    · refine Rets.seq fun _ => ?_
      rintro x y ⟨⟩
    · rintro x y ⟨⟩

/-- … and without bits `store_node` does nothing that depends on the number of retries left to a merge
(that is what the number `F` is for). -/
theorem never_merges (F F' : Nat) (id : NodeId W) (m : Mui) :
    storeNode F id m 0#16 0#32 = storeNode F' id m 0#16 0#32 := by
  have hl : ∀ fuel level b, storeNodeLoop F id m 0#16 0#32 fuel level b =
      storeNodeLoop F' id m 0#16 0#32 fuel level b := by
    intro fuel
    induction fuel with
    | zero => intros; rfl
    | succ fuel ih =>
      intro level b
      simp only [storeNodeLoop, ih, ne_eq, not_true_eq_false, and_false, if_false]
  simp only [storeNode, hl]

/-! ## Examples -/

/-- One node without bits. -/
def bare : NSlots 32 := fun b => if b = ⟨0, []⟩ then some ⟨⟨0#32, 0⟩, 0#16, 0#32, 0, fun _ => false⟩ else none

/-- Two merges into the same node. -/
def merges (F : Nat) : Conf (NSlots 32) Bool (fun _ => Unit) :=
  ⟨bare, fun i => mergePtr F ⟨0, []⟩ (if i then 1#16 else 2#16)⟩

/-- C81 is false: two merges into one node.  Both load the bits, the second swaps them; from then on the
first one never returns, whatever the schedule. -/
theorem merge_livelock (F : Nat) (u : List Bool) :
    ((merges F).exec ([true, false, false] ++ u)).pool true ≠ .ret () := by
  rw [Conf.exec_append]
  have h1 : ((merges F).exec [true, false, false]).pool true =
      mergePtrLoop ⟨0, []⟩ 0#16 1#16 (F + 1) 1#16 := rfl
  refine merge_ptr_stuck h1 u fun v e hv he h0 => ?_
  suffices h : ∀ v : List Bool, let d := ((merges F).exec [true, false, false]).exec v
      d.pool false = .ret () ∧ (∃ e, d.st ⟨0, []⟩ = some e ∧ e.ptr = 2#16) ∧
      ((∃ fuel new, d.pool true = mergePtrLoop ⟨0, []⟩ 0#16 1#16 fuel new) ∨ d.pool true = .panic ∨
        d.pool true = .diverge) by
    obtain ⟨-, ⟨e', he', h2⟩, -⟩ := h v
    rw [he] at he'
    cases he'
    rw [h0] at h2
    revert h2
    decide
  intro v
  induction v using List.reverseRecOn with
  | nil => exact ⟨rfl, ⟨_, rfl, rfl⟩, .inl ⟨F + 1, 1#16, h1⟩⟩
  | append_singleton v j ih =>
    rw [Conf.exec_append]
    generalize ((merges F).exec [true, false, false]).exec v = d at ih ⊢
    obtain ⟨i1, ⟨e', i2, i3⟩, i4⟩ := ih
    have hne : ∀ e, d.st ⟨0, []⟩ = some e → e.ptr ≠ 0#16 := fun e h => by
      rw [i2] at h; cases h; rw [i3]; decide
    show (d.step j).pool false = .ret () ∧ (∃ e, (d.step j).st ⟨0, []⟩ = some e ∧ e.ptr = 2#16) ∧
      ((∃ fuel new, (d.step j).pool true = mergePtrLoop ⟨0, []⟩ 0#16 1#16 fuel new) ∨
        (d.step j).pool true = .panic ∨ (d.step j).pool true = .diverge)
    cases j with
    | false =>
      have : d.step false = d := by unfold Conf.step; rw [i1]
      rw [this]
      exact ⟨i1, ⟨e', i2, i3⟩, i4⟩
    | true =>
      cases hq : d.pool true with
      | act f k =>
        have hs : d.step true = ⟨(f d.st).2, Function.update d.pool true (k (f d.st).1)⟩ := by
          unfold Conf.step; rw [hq]
        rw [hs]
        rcases i4 with ⟨fuel, new, h⟩ | h | h
        · cases fuel with
          | zero => rw [hq] at h; cases h
          | succ fuel =>
            obtain ⟨hk, ha⟩ := loopPtr_step (hq.symm.trans h) hne
            refine ⟨(Function.update_of_ne Bool.false_ne_true (k (f d.st).1) d.pool).trans i1, ⟨e', ha.trans i2, i3⟩, ?_⟩
            simp only [Function.update_self]
            rcases hk with hk | hk
            · exact .inl hk
            · exact .inr (.inl hk)
        · rw [hq] at h; cases h
        · rw [hq] at h; cases h
      | ret x =>
        have : d.step true = d := by unfold Conf.step; rw [hq]
        rw [this]
        exact ⟨i1, ⟨e', i2, i3⟩, i4⟩
      | panic =>
        have : d.step true = d := by unfold Conf.step; rw [hq]
        rw [this]
        exact ⟨i1, ⟨e', i2, i3⟩, i4⟩
      | diverge =>
        have : d.step true = d := by unfold Conf.step; rw [hq]
        rw [this]
        exact ⟨i1, ⟨e', i2, i3⟩, i4⟩

/-- The one that came first returned, and its bits are set. -/
example : ((merges 5).exec [true, false, false]).pool false = .ret () ∧
    (((merges 5).exec [true, false, false]).st ⟨0, []⟩).map StoredNode.ptr = some 2#16 := ⟨rfl, rfl⟩

/-- One after the other, both return and the bits of both are set; `merge_ptr_sets_partial` applies to
the second one. -/
example : ∃ e, ((merges 5).exec [true, true, false, false]).st ⟨0, []⟩ = some e ∧ e.ptr ||| 2#16 = e.ptr := by
  refine merge_ptr_sets_partial (F := 5) (i := false) (c := merges 5) rfl _ (fun u j e hu he => ?_) rfl
  obtain ⟨r, hr⟩ := hu
  rcases u with _ | ⟨x, _ | ⟨y, _ | ⟨z, _ | ⟨w, u⟩⟩⟩⟩
  · injection hr with h1 h2; subst h1; cases he; exact ⟨_, rfl, rfl⟩
  · injection hr with h1 h2; injection h2 with h2 h3; subst h1; subst h2; cases he; exact ⟨_, rfl, rfl⟩
  · injection hr with h1 h2; injection h2 with h2 h3; injection h3 with h3 h4
    subst h1; subst h2; subst h3; cases he; exact ⟨_, rfl, rfl⟩
  · injection hr with h1 h2; injection h2 with h2 h3; injection h3 with h3 h4; injection h4 with h4 h5
    subst h1; subst h2; subst h3; subst h4; cases he; exact ⟨_, rfl, rfl⟩
  · have := congrArg List.length hr
    simp at this

/-- Bits of a node with a prefix, alone. -/
example : ∃ s', (mergePfx 5 ⟨0, []⟩ 6#32).run bare = .ok () s' ∧
    (s' ⟨0, []⟩).map StoredNode.pfx = some 6#32 := by
  obtain ⟨s', h1, h2, -⟩ := merge_pfx_alone_partial 5 (a := ⟨0, []⟩) (s := bare) rfl 6#32
  exact ⟨s', h1, by rw [h2]; rfl⟩

end Rotonda.Props
