import Verif.Proofs.WeakCell
import Verif.Spec.Weak

/-!
# One epoch-managed pointer under weak memory: the invariant
-/

namespace Rotonda.Weak

open Function (update update_self update_of_ne)

/-! ## Schedules in segments -/

section segs
variable {σ ι : Type} [DecidableEq ι] {A : ι → Type}

/-- Two runs that differ only in what is left of `i`. -/
def OffEq (i : ι) (c d : Conf σ ι A) : Prop := c.st = d.st ∧ ∀ j, j ≠ i → c.pool j = d.pool j

theorem OffEq.step {i j : ι} {c d : Conf σ ι A} (h : OffEq i c d) (hj : j ≠ i) :
    OffEq i (c.step j) (d.step j) := by
  have hp := h.2 j hj
  cases hq : c.pool j with
  | act f k =>
    rw [Conf.step_act hq, Conf.step_act (hp.symm.trans hq)]
    refine ⟨by simp [h.1], fun l hl => ?_⟩
    by_cases hlj : l = j
    · subst hlj; simp [h.1]
    · simp [hlj, h.2 l hl]
  | ret a => rw [Conf.step_ret hq, Conf.step_ret (hp.symm.trans hq)]; exact h
  | panic => rw [Conf.step_panic hq, Conf.step_panic (hp.symm.trans hq)]; exact h
  | diverge => rw [Conf.step_diverge hq, Conf.step_diverge (hp.symm.trans hq)]; exact h

theorem OffEq.exec {i : ι} {c d : Conf σ ι A} (h : OffEq i c d) {t : List ι} (ht : i ∉ t) :
    OffEq i (c.exec t) (d.exec t) := by
  induction t generalizing c d with
  | nil => exact h
  | cons j t ih =>
    rw [List.mem_cons, not_or] at ht
    exact ih (h.step (Ne.symm ht.1)) ht.2

end segs

/-- The writes to the pointer that were seen exist. -/
def Bound (n : Nat) (k : Know) : Prop := ∀ w ∈ k.seen, w.1 = cellLoc → w.2 < n

theorem Bound.mono {m n : Nat} {k : Know} (h : Bound m k) (hn : m ≤ n) : Bound n k :=
  fun w hw hc => Nat.lt_of_lt_of_le (h w hw hc) hn

theorem Bound.learn {n m : Nat} {k : Know} {o : MemOrd} {x : Msg} (h : Bound n k) (hx : Bound n x.know)
    (hm : m < n) : Bound n (learn k o cellLoc m x) := by
  intro w hw hc
  unfold Weak.learn at hw
  dsimp only at hw
  split at hw
  · rcases List.mem_append.1 hw with hw | hw
    · rcases List.mem_cons.1 hw with rfl | hw
      · exact hm
      · exact h w hw hc
    · exact hx w hw hc
  · rcases List.mem_cons.1 hw with rfl | hw
    · exact hm
    · exact h w hw hc

theorem choose_coherent {n : Nat} {k : Know} {l : List Msg} (h : Bound l.length k) (hl : 0 < l.length) :
    choose k cellLoc l n < l.length ∧ ∀ w ∈ k.seen, w.1 = cellLoc → w.2 ≤ choose k cellLoc l n := by
  unfold choose
  split
  · rename_i hr
    simp only [readable, Bool.and_eq_true, decide_eq_true_eq, List.all_eq_true, Bool.or_eq_true] at hr
    refine ⟨hr.1, fun w hw hc => ?_⟩
    rcases hr.2 w hw with h1 | h1
    · exact (h1 hc).elim
    · exact h1
  · refine ⟨by omega, fun w hw hc => ?_⟩
    have := h w hw hc
    omega

section
variable {ι α : Type} [DecidableEq ι]

/-- What holds of the machine `m`, with the run of the same threads on the cell. -/
structure CInv (good : Prop) (Q : α → Prog VC α → List CEntry → Prop) (c0 : Conf VC ι (fun _ => α))
    (m : Mach ι α) (H : List CEntry) (own : ι → Option (Nat × Word)) (segs : List (List ι)) : Prop where
  len : (m.mem cellLoc).length = H.length
  pos : 0 < H.length
  msg : ∀ (n : Nat) (e : CEntry), H[n]? = some e → ∃ x, (m.mem cellLoc)[n]? = some x ∧ x.val = e.word ∧
    (n ≠ 0 → x.atomic = true) ∧ (good → (e.addr, 0) ∈ x.know.before ∨ e.addr = firstBlock)
  msgSeen : ∀ x ∈ m.mem cellLoc, Bound H.length x.know
  blocks : ∀ (n : Nat) (e : CEntry), H[n]? = some e →
    m.mem e.addr = [⟨e.st.val, false, .none⟩] ∧ e.addr < m.top ∧ e.addr ≠ cellLoc
  log : LogOk H
  top : 0 < m.top
  owned : ∀ i x v, own i = some (x, v) → m.mem x = [⟨v, false, .none⟩] ∧ x < m.top ∧ x ≠ cellLoc ∧
    (∀ (n : Nat) (e : CEntry), H[n]? = some e → e.addr ≠ x) ∧ (x, 0) ∈ (m.know i).before
  apart : ∀ i j x v w, own i = some (x, v) → own j = some (x, w) → i = j
  know : ∀ i, (cellLoc, 0) ∈ (m.know i).before ∧ (firstBlock, 0) ∈ (m.know i).before ∧
    Bound H.length (m.know i)
  segsLen : segs.length = H.length
  segsSt : ∀ (n : Nat) (e : CEntry), H[n]? = some e → (c0.exec (segs.take (n + 1)).flatten).st = e.st
  segsSeen : ∀ (n : Nat) (l : List ι) (i : ι), segs[n]? = some l → i ∈ l →
    n = 0 ∨ (cellLoc, n) ∈ (m.know i).seen
  sims : ∀ i, csim good (m.pool i) ((c0.exec segs.flatten).pool i) (own i) H (m.know i) Q
  races : good → m.races = []

variable {good : Prop} {Q : α → Prog VC α → List CEntry → Prop} {c0 : Conf VC ι (fun _ => α)}
  {m : Mach ι α} {H : List CEntry} {own : ι → Option (Nat × Word)} {segs : List (List ι)}

/-- Insert a read of write `n`. -/
theorem CInv.insert (h : CInv good Q c0 m H own segs) {i : ι} {n : Nat} {e : CEntry}
    (he : H[n]? = some e) (hn : ∀ w ∈ (m.know i).seen, w.1 = cellLoc → w.2 ≤ n) {q' : Prog VC α}
    (hq : ReadStep e.st ((c0.exec segs.flatten).pool i) q') :
    ∃ segs' : List (List ι), segs'.length = H.length ∧
      (∀ (n : Nat) (e : CEntry), H[n]? = some e → (c0.exec (segs'.take (n + 1)).flatten).st = e.st) ∧
      (∀ (l : Nat) (s : List ι) (j : ι), segs'[l]? = some s → j ∈ s →
        (l = n ∧ j = i) ∨ ∃ s', segs[l]? = some s' ∧ j ∈ s') ∧
      (c0.exec segs'.flatten).pool i = q' ∧
      ∀ j, j ≠ i → (c0.exec segs'.flatten).pool j = (c0.exec segs.flatten).pool j := by
  generalize hp : (c0.exec segs.flatten).pool i = p at hq
  cases hq with
  | silent =>
    exact ⟨segs, h.segsLen, h.segsSt, fun l s j hs hj => .inr ⟨s, hs, hj⟩, hp, fun _ _ => rfl⟩
  | act f k hf =>
    have hlt : n < segs.length := by rw [h.segsLen]; exact (List.getElem?_eq_some_iff.1 he).1
    -- later segments do not mention `i`
    have hlate : ∀ l, i ∉ ((segs.take l).drop (n + 1)).flatten := by
      intro l hi
      obtain ⟨s, hs, his⟩ := List.mem_flatten.1 hi
      obtain ⟨y, hy, hys⟩ := List.mem_iff_getElem.1 hs
      have hget : segs[n + 1 + y]? = some s := by
        rw [List.getElem_drop, List.getElem_take] at hys
        rw [← hys, List.getElem?_eq_getElem]
      rcases h.segsSeen _ _ _ hget his with h0 | h0
      · omega
      · have := hn _ h0 rfl
        omega
    have hsplit : ∀ l, n + 1 ≤ l → (segs.take l).flatten =
        (segs.take (n + 1)).flatten ++ ((segs.take l).drop (n + 1)).flatten := by
      intro l hl
      rw [← List.flatten_append]
      congr 1
      conv_lhs => rw [← List.take_append_drop (n + 1) (segs.take l)]
      rw [List.take_take, Nat.min_eq_left hl]
    have hall : segs.flatten = (segs.take (n + 1)).flatten ++ ((segs.take segs.length).drop (n + 1)).flatten := by
      rw [← hsplit _ (by omega), List.take_length]
    let segs' := segs.set n (segs[n] ++ [i])
    have hset : ∀ l, n + 1 ≤ l → (segs'.take l).flatten =
        (segs.take (n + 1)).flatten ++ i :: ((segs.take l).drop (n + 1)).flatten := by
      intro l hl
      have e1 : segs'.take l = (segs.take l).set n (segs[n] ++ [i]) := by
        simp only [segs', List.take_set]
      have e2 : (segs.take l).set n (segs[n] ++ [i]) = segs.take n ++ (segs[n] ++ [i]) :: (segs.take l).drop (n + 1) := by
        have hl' : n < (segs.take l).length := by rw [List.length_take]; omega
        rw [List.set_eq_take_append_cons_drop, if_pos hl', List.take_take, Nat.min_eq_left (by omega)]
      have e3 : (segs.take (n + 1)).flatten = (segs.take n).flatten ++ segs[n] := by
        rw [← List.take_append_getElem hlt, List.flatten_append, List.flatten_singleton]
      rw [e1, e2, e3]
      simp
    have hpool : (c0.exec (segs.take (n + 1)).flatten).pool i = .act f k := by
      rw [hall, Conf.exec_append, Conf.exec_idle _ (hlate _)] at hp
      exact hp
    have hst := h.segsSt n e he
    have hstep : OffEq i ((c0.exec (segs.take (n + 1)).flatten).step i) (c0.exec (segs.take (n + 1)).flatten) := by
      rw [Conf.step_act hpool, hst]
      exact ⟨hf.trans hst.symm, fun j hj => by simp [hj]⟩
    have hrun : ∀ l, n + 1 ≤ l → OffEq i (c0.exec (segs'.take l).flatten) (c0.exec (segs.take l).flatten) := by
      intro l hl
      rw [hset l hl, hsplit l hl, Conf.exec_append, Conf.exec_cons, Conf.exec_append]
      exact hstep.exec (hlate _)
    have hlen' : segs'.length = segs.length := by simp [segs']
    have hfull := hrun segs.length (by omega)
    rw [List.take_length] at hfull
    rw [← hlen', List.take_length] at hfull
    refine ⟨segs', hlen'.trans h.segsLen, fun l e' he' => ?_, fun l s j hs hj => ?_, ?_, hfull.2⟩
    · by_cases hl : n ≤ l
      · rw [(hrun (l + 1) (by omega)).1]
        exact h.segsSt l e' he'
      · have : segs'.take (l + 1) = segs.take (l + 1) := by
          simp only [segs', List.take_set]
          rw [List.set_eq_of_length_le]
          rw [List.length_take]; omega
        rw [this]
        exact h.segsSt l e' he'
    · by_cases hl : l = n
      · subst hl
        have : segs'[l]? = some (segs[l] ++ [i]) := by
          simp only [segs']
          rw [List.getElem?_set_self hlt]
        rw [this] at hs
        injection hs with hs
        subst hs
        rcases List.mem_append.1 hj with hj | hj
        · exact .inr ⟨segs[l], List.getElem?_eq_getElem hlt, hj⟩
        · exact .inl ⟨rfl, by simpa using hj⟩
      · right
        refine ⟨s, ?_, hj⟩
        rw [← hs]
        simp only [segs']
        rw [List.getElem?_set_ne (Ne.symm hl)]
    · have : segs'.flatten = (segs'.take segs.length).flatten := by rw [← hlen', List.take_length]
      rw [this, hset _ (by omega), Conf.exec_append, Conf.exec_cons, Conf.exec_idle _ (hlate _),
        Conf.step_act hpool, hst]
      exact update_self ..

/-- Thread `i` has read write `n`. -/
theorem CInv.read (hQ : ∀ a q H H', Q a q H → Q a q H') (h : CInv good Q c0 m H own segs) {i : ι} {n : Nat} {e : CEntry}
    (he : H[n]? = some e) (hn : ∀ w ∈ (m.know i).seen, w.1 = cellLoc → w.2 ≤ n) {q' : Prog VC α}
    (hq : ReadStep e.st ((c0.exec segs.flatten).pool i) q') {k' : Know} (hk : (m.know i).le k')
    (hk1 : (cellLoc, n) ∈ k'.seen) (hk2 : Bound H.length k') {p' : WProg α}
    (hs : csim good p' q' (own i) H k' Q) {m' : Mach ι α} (h1 : m'.mem = m.mem) (h2 : m'.top = m.top)
    (h3 : m'.know = update m.know i k') (h4 : m'.pool = update m.pool i p') (h5 : good → m'.races = []) :
    ∃ segs', CInv good Q c0 m' H own segs' := by
  obtain ⟨segs', a1, a2, a3, a4, a5⟩ := h.insert he hn hq
  have hle : ∀ j, (m.know j).le (m'.know j) := by
    intro j
    rw [h3]
    by_cases hj : j = i
    · subst hj; rw [update_self]; exact hk
    · rw [update_of_ne hj]; exact Know.le_refl _
  refine ⟨segs', ?_⟩
  constructor
  · rw [h1]; exact h.len
  · exact h.pos
  · rw [h1]; exact h.msg
  · rw [h1]; exact h.msgSeen
  · rw [h1, h2]; exact h.blocks
  · exact h.log
  · rw [h2]; exact h.top
  · intro j x v hx
    obtain ⟨b1, b2, b3, b4, b5⟩ := h.owned j x v hx
    rw [h1, h2]
    exact ⟨b1, b2, b3, b4, (hle j).1 _ b5⟩
  · exact h.apart
  · intro j
    obtain ⟨b1, b2, b3⟩ := h.know j
    refine ⟨(hle j).1 _ b1, (hle j).1 _ b2, ?_⟩
    rw [h3]
    by_cases hj : j = i
    · subst hj; rw [update_self]; exact hk2
    · rw [update_of_ne hj]; exact b3
  · exact a1
  · exact a2
  · intro l s j hs' hj
    rcases a3 l s j hs' hj with ⟨rfl, rfl⟩ | ⟨s', hs', hj⟩
    · right; rw [h3, update_self]; exact hk1
    · rcases h.segsSeen l s' j hs' hj with h0 | h0
      · exact .inl h0
      · exact .inr ((hle j).2 _ h0)
  · intro j
    rw [h3, h4]
    by_cases hj : j = i
    · subst hj; rw [update_self, update_self, a4]; exact hs
    · rw [update_of_ne hj, update_of_ne hj, a5 j hj]; exact h.sims j
  · exact h5

/-- Thread `i` does something of its own. -/
theorem CInv.local (h : CInv good Q c0 m H own segs) {i : ι} {p' : WProg α}
    (hs : csim good p' ((c0.exec segs.flatten).pool i) (own i) H (m.know i) Q) {m' : Mach ι α}
    (h1 : m'.mem = m.mem) (h2 : m'.top = m.top) (h3 : m'.know = m.know)
    (h4 : m'.pool = update m.pool i p') (h5 : good → m'.races = []) : CInv good Q c0 m' H own segs := by
  constructor
  · rw [h1]; exact h.len
  · exact h.pos
  · rw [h1]; exact h.msg
  · rw [h1]; exact h.msgSeen
  · rw [h1, h2]; exact h.blocks
  · exact h.log
  · rw [h2]; exact h.top
  · rw [h1, h2, h3]; exact h.owned
  · exact h.apart
  · rw [h3]; exact h.know
  · exact h.segsLen
  · exact h.segsSt
  · rw [h3]; exact h.segsSeen
  · intro j
    rw [h3, h4]
    by_cases hj : j = i
    · subst hj; rw [update_self]; exact hs
    · rw [update_of_ne hj]; exact h.sims j
  · exact h5

theorem CInv.alloc (h : CInv good Q c0 m H own segs) {i : ι} (hown : own i = none) {v : Word} {p' : WProg α}
    (hs : csim good p' ((c0.exec segs.flatten).pool i) (some (m.top, v)) H ((m.know i).block m.top 1) Q)
    {m' : Mach ι α} (h1 : m'.mem = initBlock m.mem m.top [v]) (h2 : m'.top = m.top + 2)
    (h3 : m'.know = update m.know i ((m.know i).block m.top 1)) (h4 : m'.pool = update m.pool i p')
    (h5 : good → m'.races = []) : CInv good Q c0 m' H (update own i (some (m.top, v))) segs := by
  have hold : ∀ a : Nat, a < m.top → m'.mem a = m.mem a := by
    intro a ha
    rw [h1]
    have hn : ¬ (m.top ≤ a ∧ a < m.top + [v].length) := by
      rw [List.length_singleton]; omega
    exact if_neg hn
  have hnew : m'.mem m.top = [⟨v, false, .none⟩] := by
    rw [h1]
    unfold initBlock
    simp
  have hle : ∀ j, (m.know j).le (m'.know j) := by
    intro j
    rw [h3]
    by_cases hj : j = i
    · subst hj; rw [update_self]
      exact ⟨fun w hw => List.mem_append_right _ hw, fun w hw => List.mem_append_right _ hw⟩
    · rw [update_of_ne hj]; exact Know.le_refl _
  have hc : m'.mem cellLoc = m.mem cellLoc := hold 0 h.top
  constructor
  · rw [hc]; exact h.len
  · exact h.pos
  · rw [hc]; exact h.msg
  · rw [hc]; exact h.msgSeen
  · intro n e he
    obtain ⟨b1, b2, b3⟩ := h.blocks n e he
    rw [hold _ b2, h2]
    exact ⟨b1, by omega, b3⟩
  · exact h.log
  · rw [h2]; have := h.top; omega
  · intro j x w hx
    by_cases hj : j = i
    · subst hj
      rw [update_self] at hx
      injection hx with hx
      injection hx with e1 e2
      subst e1; subst e2
      have ht := h.top
      refine ⟨hnew, by omega, show ¬ m.top = 0 by omega, fun n e he => ?_, ?_⟩
      · have := (h.blocks n e he).2.1; omega
      · rw [h3, update_self]
        refine List.mem_append_left _ ?_
        simp [blockWrites]
    · rw [update_of_ne hj] at hx
      obtain ⟨b1, b2, b3, b4, b5⟩ := h.owned j x w hx
      rw [hold _ b2, h2]
      exact ⟨b1, by omega, b3, b4, (hle j).1 _ b5⟩
  · intro j l x w w' hx hx'
    have hb : ∀ j w, j ≠ i → update own i (some (m.top, v)) j = some (x, w) → x < m.top := by
      intro j w hj hx
      rw [update_of_ne hj] at hx
      exact (h.owned j x w hx).2.1
    by_cases hj : j = i <;> by_cases hl : l = i
    · rw [hj, hl]
    · subst hj
      have := hb l w' hl hx'
      rw [update_self] at hx
      injection hx with hx
      injection hx with e1 e2
      omega
    · subst hl
      have := hb j w hj hx
      rw [update_self] at hx'
      injection hx' with hx'
      injection hx' with e1 e2
      omega
    · rw [update_of_ne hj] at hx
      rw [update_of_ne hl] at hx'
      exact h.apart j l x w w' hx hx'
  · intro j
    obtain ⟨b1, b2, b3⟩ := h.know j
    refine ⟨(hle j).1 _ b1, (hle j).1 _ b2, ?_⟩
    rw [h3]
    by_cases hj : j = i
    · subst hj; rw [update_self]
      intro w hw hc'
      rcases List.mem_append.1 hw with hw | hw
      · simp only [blockWrites, List.range_one, List.map_cons, List.map_nil, List.mem_singleton] at hw
        subst hw
        have ht := h.top
        have hc' : m.top + 0 = 0 := hc'
        omega
      · exact b3 w hw hc'
    · rw [update_of_ne hj]; exact b3
  · exact h.segsLen
  · exact h.segsSt
  · intro n l j hl hj
    rcases h.segsSeen n l j hl hj with h0 | h0
    · exact .inl h0
    · exact .inr ((hle j).2 _ h0)
  · intro j
    rw [h3, h4]
    by_cases hj : j = i
    · subst hj; rw [update_self, update_self, update_self]; exact hs
    · rw [update_of_ne hj, update_of_ne hj, update_of_ne hj]; exact h.sims j
  · exact h5

theorem CInv.free (h : CInv good Q c0 m H own segs) {i : ι} {x : Nat} {v : Word} (hown : own i = some (x, v))
    {p' : WProg α} (hs : csim good p' ((c0.exec segs.flatten).pool i) none H (m.know i) Q)
    {m' : Mach ι α} (h1 : ∀ b, b ≠ x → m'.mem b = m.mem b) (h2 : m'.top = m.top)
    (h3 : m'.know = m.know) (h4 : m'.pool = update m.pool i p')
    (h5 : good → m'.races = []) : CInv good Q c0 m' H (update own i none) segs := by
  obtain ⟨o1, o2, o3, o4, o5⟩ := h.owned i x v hown
  have hc := h1 _ o3.symm
  constructor
  · rw [hc]; exact h.len
  · exact h.pos
  · rw [hc]; exact h.msg
  · rw [hc]; exact h.msgSeen
  · intro n e he
    rw [h1 _ (o4 n e he), h2]
    exact h.blocks n e he
  · exact h.log
  · rw [h2]; exact h.top
  · intro j y w hy
    by_cases hj : j = i
    · subst hj; rw [update_self] at hy; cases hy
    · rw [update_of_ne hj] at hy
      have hne : y ≠ x := by
        rintro rfl
        exact hj (h.apart j i _ w v hy hown)
      rw [h1 _ hne, h2, h3]
      exact h.owned j y w hy
  · intro j l y w w' hx hx'
    by_cases hj : j = i
    · subst hj; rw [update_self] at hx; cases hx
    · by_cases hl : l = i
      · subst hl; rw [update_self] at hx'; cases hx'
      · rw [update_of_ne hj] at hx
        rw [update_of_ne hl] at hx'
        exact h.apart j l y w w' hx hx'
  · rw [h3]; exact h.know
  · exact h.segsLen
  · exact h.segsSt
  · rw [h3]; exact h.segsSeen
  · intro j
    rw [h3, h4]
    by_cases hj : j = i
    · subst hj; rw [update_self, update_self]; exact hs
    · rw [update_of_ne hj, update_of_ne hj]; exact h.sims j
  · exact h5

theorem LogOk.push {H : List CEntry} (h : LogOk H) {e e' : CEntry} (he : H.getLast? = some e)
    (hs : (e'.st.ver = e.st.ver ∧ e'.st.val = e.st.val ∧ e'.addr = e.addr) ∨
      (e'.st.ver = e.st.ver + 1 ∧ ∀ (n : Nat) (d : CEntry), H[n]? = some d → d.addr ≠ e'.addr)) :
    LogOk (H ++ [e']) := by
  have hl := last_get he
  have hlen : H.length - 1 < H.length := (List.getElem?_eq_some_iff.1 hl).1
  have hle : ∀ {n : Nat} {d : CEntry}, H[n]? = some d → d.st.ver ≤ e.st.ver := fun {n d} hd =>
    h.mono hd hl (by have := (List.getElem?_eq_some_iff.1 hd).1; omega)
  have hget : ∀ {n : Nat} {d : CEntry}, (H ++ [e'])[n]? = some d →
      H[n]? = some d ∨ (n = H.length ∧ d = e') := by
    intro n d hd
    by_cases hn : n < H.length
    · rw [List.getElem?_append_left hn] at hd; exact .inl hd
    · have hn' : n < (H ++ [e']).length := (List.getElem?_eq_some_iff.1 hd).1
      rw [List.length_append, List.length_singleton] at hn'
      have : n = H.length := by omega
      subst this
      rw [List.getElem?_append_right (Nat.le_refl _), Nat.sub_self] at hd
      exact .inr ⟨rfl, by simpa using hd.symm⟩
  have hnew : ∀ {n : Nat} {d : CEntry}, H[n]? = some d →
      (d.addr = e'.addr ↔ d.st.ver = e'.st.ver) ∧ d.st.ver ≤ e'.st.ver ∧
        (d.addr = e'.addr → d.st.val = e'.st.val) := by
    intro n d hd
    have := hle hd
    rcases hs with ⟨h1, h2, h3⟩ | ⟨h1, h2⟩
    · rw [h1, h2, h3]
      exact ⟨h.same hd hl, this, h.val hd hl⟩
    · have hne := h2 n d hd
      exact ⟨⟨fun h => (hne h).elim, fun h => by omega⟩, by omega, fun h => (hne h).elim⟩
  constructor
  · intro m n d d' hm hn
    rcases hget hm with hm' | ⟨rfl, rfl⟩ <;> rcases hget hn with hn' | ⟨rfl, rfl⟩
    · exact h.same hm' hn'
    · exact (hnew hm').1
    · have := (hnew hn').1
      exact ⟨fun h => (this.1 h.symm).symm, fun h => (this.2 h.symm).symm⟩
    · exact Iff.intro (fun _ => rfl) (fun _ => rfl)
  · intro m n d d' hm hn hmn
    rcases hget hm with hm' | ⟨rfl, rfl⟩ <;> rcases hget hn with hn' | ⟨rfl, rfl⟩
    · exact h.mono hm' hn' hmn
    · exact (hnew hm').2.1
    · have := (List.getElem?_eq_some_iff.1 hn').1
      omega
    · exact Nat.le_refl _
  · intro m n d d' hm hn ha
    rcases hget hm with hm' | ⟨rfl, rfl⟩ <;> rcases hget hn with hn' | ⟨rfl, rfl⟩
    · exact h.val hm' hn' ha
    · exact (hnew hm').2.2 ha
    · exact ((hnew hn').2.2 ha.symm).symm
    · rfl

/-- Thread `i` has written to the pointer. -/
theorem CInv.write (hQ : ∀ a q H H', Q a q H → Q a q H') (h : CInv good Q c0 m H own segs) {i : ι}
    {e e' : CEntry} {own' : Option (Nat × Word)} {ok : MemOrd}
    (he : H.getLast? = some e) (hw : Writes1 good ok e (own i) e' own') {q' : Prog VC α}
    (hq : WriteStep e.st e'.st ((c0.exec segs.flatten).pool i) q') {k' : Know} (hk : (m.know i).le k')
    (hk1 : (cellLoc, H.length) ∈ k'.seen) (hk2 : Bound (H.length + 1) k') {x last : Msg} {p' : WProg α}
    (hlast : (m.mem cellLoc)[H.length - 1]? = some last)
    (hxv : x.val = e'.word) (hxa : x.atomic = true)
    (hxk : x.know = if ok.releases then last.know.join k' else last.know)
    (hs : csim good p' q' own' (H ++ [e']) k' Q) {m' : Mach ι α}
    (h1 : m'.mem = update m.mem cellLoc (m.mem cellLoc ++ [x])) (h2 : m'.top = m.top)
    (h3 : m'.know = update m.know i k') (h4 : m'.pool = update m.pool i p') (h5 : good → m'.races = []) :
    CInv good Q c0 m' (H ++ [e']) (update own i own') (segs ++ [[i]]) := by
  have hpre : H <+: H ++ [e'] := List.prefix_append _ _
  have hlen' : (H ++ [e']).length = H.length + 1 := by simp
  have hmem : m'.mem cellLoc = m.mem cellLoc ++ [x] := by rw [h1, update_self]
  have hoth : ∀ b, b ≠ cellLoc → m'.mem b = m.mem b := by intro b hb; rw [h1, update_of_ne hb]
  have hle : ∀ j, (m.know j).le (m'.know j) := by
    intro j
    rw [h3]
    by_cases hj : j = i
    · subst hj; rw [update_self]; exact hk
    · rw [update_of_ne hj]; exact Know.le_refl _
  have hget : ∀ {n : Nat} {d : CEntry}, (H ++ [e'])[n]? = some d →
      H[n]? = some d ∨ (n = H.length ∧ d = e') := by
    intro n d hd
    by_cases hn : n < H.length
    · rw [List.getElem?_append_left hn] at hd; exact .inl hd
    · have hn' : n < (H ++ [e']).length := (List.getElem?_eq_some_iff.1 hd).1
      rw [hlen'] at hn'
      have : n = H.length := by omega
      subst this
      rw [List.getElem?_append_right (Nat.le_refl _), Nat.sub_self] at hd
      exact .inr ⟨rfl, by simpa using hd.symm⟩
  have hl := last_get he
  have hlastmem : last ∈ m.mem cellLoc := List.mem_of_getElem? hlast
  -- the block of the new entry
  have hblk : m.mem e'.addr = [⟨e'.st.val, false, .none⟩] ∧ e'.addr < m.top ∧ e'.addr ≠ cellLoc := by
    generalize hown : own i = ow at hw
    cases hw with
    | swap y v t _ => obtain ⟨b1, b2, b3, _⟩ := h.owned i y v hown; exact ⟨b1, b2, b3⟩
    | mark => exact h.blocks _ e hl
  have hknow : good → (e'.addr, 0) ∈ x.know.before ∨ e'.addr = firstBlock := by
    intro g
    generalize hown : own i = ow at hw
    cases hw with
    | swap y v t ho =>
      left
      rw [hxk, if_pos (ho g)]
      exact List.mem_append_right _ (hk.1 _ (h.owned i y v hown).2.2.2.2)
    | mark =>
      obtain ⟨z, hz, _, _, hz3⟩ := h.msg _ e hl
      rw [hlast] at hz
      injection hz with hz
      subst hz
      rcases hz3 g with h0 | h0
      · left
        rw [hxk]
        split
        · exact List.mem_append_left _ h0
        · exact h0
      · exact .inr h0
  have hlog : LogOk (H ++ [e']) := by
    refine h.log.push he ?_
    generalize hown : own i = ow at hw
    cases hw with
    | swap y v t _ => exact .inr ⟨rfl, fun n d hd => (h.owned i y v hown).2.2.2.1 n d hd⟩
    | mark => exact .inl ⟨rfl, rfl, rfl⟩
  have hown' : own' = none ∨ own' = own i := by
    generalize hown : own i = ow at hw
    cases hw with
    | swap => exact .inl rfl
    | mark => exact .inr rfl
  have hnot : ∀ y v, own' = some (y, v) → e'.addr ≠ y := by
    intro y v hy
    generalize hown : own i = ow at hw
    cases hw with
    | swap => cases hy
    | mark => exact (h.owned i y v (hown.trans hy)).2.2.2.1 _ e hl
  have hother : ∀ j y v, j ≠ i → own j = some (y, v) → e'.addr ≠ y := by
    intro j y v hj hy
    generalize hown : own i = ow at hw
    cases hw with
    | swap z w t _ =>
      rintro rfl
      exact hj (h.apart j i _ v w hy hown)
    | mark => exact (h.owned j y v hy).2.2.2.1 _ e hl
  have hupd : ∀ j y v, update own i own' j = some (y, v) → own j = some (y, v) ∧ e'.addr ≠ y := by
    intro j y v hy
    by_cases hj : j = i
    · subst hj
      rw [update_self] at hy
      rcases hown' with h0 | h0
      · rw [h0] at hy; cases hy
      · exact ⟨h0.symm.trans hy, hnot y v hy⟩
    · rw [update_of_ne hj] at hy
      exact ⟨hy, hother j y v hj hy⟩
  have hflat : (segs ++ [[i]]).flatten = segs.flatten ++ [i] := by simp
  have hstl : (c0.exec segs.flatten).st = e.st := by
    have := h.segsSt _ e hl
    rwa [Nat.sub_add_cancel h.pos, ← h.segsLen, List.take_length] at this
  have hstep : ((c0.exec segs.flatten).step i).st = e'.st ∧ ((c0.exec segs.flatten).step i).pool i = q' := by
    generalize hp : (c0.exec segs.flatten).pool i = p at hq
    cases hq with
    | act f k hf =>
      rw [Conf.step_act hp, hstl]
      exact ⟨hf, update_self ..⟩
  constructor
  · rw [hmem, hlen', List.length_append, h.len]; rfl
  · rw [hlen']; omega
  · intro n d hd
    rcases hget hd with hd | ⟨rfl, rfl⟩
    · obtain ⟨z, hz, hz'⟩ := h.msg n d hd
      refine ⟨z, ?_, hz'⟩
      rw [hmem, List.getElem?_append_left (List.getElem?_eq_some_iff.1 hz).1]
      exact hz
    · refine ⟨x, ?_, hxv, fun _ => hxa, hknow⟩
      rw [hmem, ← h.len, List.getElem?_append_right (Nat.le_refl _), Nat.sub_self]
      rfl
  · intro z hz
    rw [hlen']
    rw [hmem] at hz
    rcases List.mem_append.1 hz with hz | hz
    · exact (h.msgSeen z hz).mono (Nat.le_succ _)
    · rw [List.mem_singleton.1 hz, hxk]
      have hb := (h.msgSeen last hlastmem).mono (Nat.le_succ H.length)
      split
      · intro w hw' hc
        rcases List.mem_append.1 hw' with h0 | h0
        · exact hb w h0 hc
        · exact hk2 w h0 hc
      · exact hb
  · intro n d hd
    rcases hget hd with hd | ⟨rfl, rfl⟩
    · obtain ⟨b1, b2, b3⟩ := h.blocks n d hd
      rw [hoth _ b3, h2]
      exact ⟨b1, b2, b3⟩
    · rw [hoth _ hblk.2.2, h2]
      exact hblk
  · exact hlog
  · rw [h2]; exact h.top
  · intro j y v hy
    obtain ⟨hy1, hy2⟩ := hupd j y v hy
    obtain ⟨b1, b2, b3, b4, b5⟩ := h.owned j y v hy1
    rw [hoth _ b3, h2]
    refine ⟨b1, b2, b3, fun n d hd => ?_, (hle j).1 _ b5⟩
    rcases hget hd with hd | ⟨rfl, rfl⟩
    · exact b4 n d hd
    · exact hy2
  · intro j l y v w hy hy'
    exact h.apart j l y v w (hupd j y v hy).1 (hupd l y w hy').1
  · intro j
    obtain ⟨b1, b2, b3⟩ := h.know j
    refine ⟨(hle j).1 _ b1, (hle j).1 _ b2, ?_⟩
    rw [h3, hlen']
    by_cases hj : j = i
    · subst hj; rw [update_self]; exact hk2
    · rw [update_of_ne hj]; exact b3.mono (Nat.le_succ _)
  · rw [hlen', List.length_append, h.segsLen]; rfl
  · intro n d hd
    rcases hget hd with hd | ⟨rfl, rfl⟩
    · have hn := (List.getElem?_eq_some_iff.1 hd).1
      rw [List.take_append_of_le_length (by rw [h.segsLen]; omega)]
      exact h.segsSt n d hd
    · rw [List.take_of_length_le (by rw [List.length_append, h.segsLen, List.length_singleton]; exact Nat.le_refl _), hflat,
        Conf.exec_append]
      exact hstep.1
  · intro n l j hl' hj
    by_cases hn : n < segs.length
    · rw [List.getElem?_append_left hn] at hl'
      rcases h.segsSeen n l j hl' hj with h0 | h0
      · exact .inl h0
      · exact .inr ((hle j).2 _ h0)
    · have hn' := (List.getElem?_eq_some_iff.1 hl').1
      rw [List.length_append, List.length_singleton] at hn'
      have : n = segs.length := by omega
      subst this
      rw [List.getElem?_append_right (Nat.le_refl _), Nat.sub_self] at hl'
      have : [i] = l := by simpa using hl'
      subst this
      rw [List.mem_singleton.1 hj]
      right
      rw [h3, update_self, h.segsLen]
      exact hk1
  · intro j
    rw [h3, h4, hflat, Conf.exec_append]
    by_cases hj : j = i
    · subst hj
      rw [update_self, update_self, update_self]
      change csim good p' (((c0.exec segs.flatten).step j).pool j) _ _ _ _
      rw [hstep.2]
      exact hs
    · rw [update_of_ne hj, update_of_ne hj, update_of_ne hj]
      change csim good _ (((c0.exec segs.flatten).step i).pool j) _ _ _ _
      rw [Conf.step_other _ hj]
      exact csim_mono (fun a q => hQ a q _ _) (h.sims j) hpre
  · exact h5

/-- The last entry. -/
theorem CInv.last (h : CInv good Q c0 m H own segs) : ∃ e, H.getLast? = some e := by
  rw [List.getLast?_eq_getElem?]
  exact ⟨_, List.getElem?_eq_getElem (by have := h.pos; omega)⟩

theorem CInv.ordered_ptr (h : CInv good Q c0 m H own segs) (i : ι) :
    ordered false (m.know i) cellLoc (m.mem cellLoc) = true := by
  unfold ordered
  have hne : (m.mem cellLoc).isEmpty = false := by
    rw [List.isEmpty_eq_false_iff, ← List.length_pos_iff, h.len]; exact h.pos
  rw [hne]
  simp only [Bool.not_false, Bool.true_and, List.all_eq_true, List.mem_range, Bool.or_eq_true,
    decide_eq_true_eq]
  intro n hn
  by_cases h0 : n = 0
  · subst h0; exact .inr (h.know i).1
  · left
    obtain ⟨z, hz, _, hz2, _⟩ := h.msg n _ (List.getElem?_eq_getElem (by rw [← h.len]; exact hn))
    rw [List.getD_eq_getElem?_getD, hz]
    exact hz2 h0

/-- One step of the machine. -/
theorem CInv.step (hQ : ∀ a q H H', Q a q H → Q a q H') (h : CInv good Q c0 m H own segs) (i : ι) (n : Nat) :
    ∃ H' own' segs', CInv good Q c0 (m.step i n) H' own' segs' := by
  have hsi := h.sims i
  unfold Mach.step
  cases hp : m.pool i with
  | ret a => exact ⟨_, _, _, h⟩
  | panic => exact ⟨_, _, _, h⟩
  | alloc ws f =>
    rw [hp] at hsi
    obtain ⟨h0, v, rfl, h1⟩ := hsi
    exact ⟨_, _, _, h.alloc h0 (h1 H List.prefix_rfl m.top) rfl rfl rfl rfl h.races⟩
  | free a len f =>
    rw [hp] at hsi
    obtain ⟨rfl, ⟨v, h0⟩, h1⟩ := hsi
    obtain ⟨o1, o2, o3, o4, o5⟩ := h.owned i a v h0
    have hord : ∀ j ∈ List.range 1, ordered true (m.know i) (a + j) (m.mem (a + j)) = true := by
      intro j hj
      have : j = 0 := by simpa using hj
      subst this
      rw [Nat.add_zero, o1]
      exact ordered_single o5
    dsimp only
    rw [foldl_access hord]
    refine ⟨_, _, _, h.free h0 (h1 H List.prefix_rfl) (fun b hb => ?_) rfl rfl rfl h.races⟩
    exact if_neg fun h => hb (Nat.le_antisymm (Nat.le_of_lt_succ h.2) h.1)
  | plain a f =>
    rw [hp] at hsi
    obtain ⟨l, e, he, rfl, hk, h1⟩ := hsi
    obtain ⟨b1, b2, b3⟩ := h.blocks l e he
    obtain ⟨m1, m2, m3, m4⟩ := access_mem m i true e.addr
    dsimp only
    refine ⟨_, _, _, h.local (i := i) ?_ m1 m2 m3 rfl (access_races (fun g => ?_) h.races)⟩
    · have hlt : choose (m.know i) e.addr (m.mem e.addr) n = 0 := by
        have := choose_lt (k := m.know i) (a := e.addr) (n := n) (l := m.mem e.addr) (by rw [b1]; simp)
        rw [b1] at this ⊢
        simpa using this
      rw [hlt, b1]
      exact h1 H List.prefix_rfl
    · rw [b1]; exact ordered_single (hk g)
  | load a o f =>
    rw [hp] at hsi
    obtain ⟨rfl, h1⟩ := hsi
    obtain ⟨m1, m2, m3, m4⟩ := access_mem m i false cellLoc
    obtain ⟨c1, c2⟩ := choose_coherent (n := n) (by rw [h.len]; exact (h.know i).2.2)
      (by rw [h.len]; exact h.pos)
    dsimp only
    generalize choose (m.know i) cellLoc (m.mem cellLoc) n = x at c1 c2
    have hx : x < H.length := by rw [← h.len]; exact c1
    obtain ⟨z, hz, hzv, -, hzk⟩ := h.msg x _ (List.getElem?_eq_getElem hx)
    have hgz : (m.mem cellLoc).getD x ⟨none, false, .none⟩ = z := by
      rw [List.getD_eq_getElem?_getD, hz]; rfl
    rw [hgz]
    obtain ⟨q', hq, hs⟩ := h1 H List.prefix_rfl h.log x _ (List.getElem?_eq_getElem hx)
      (learn (m.know i) o cellLoc x z) (Know.le_learn ..) (fun g ha => by
        rcases hzk g with h0 | h0
        · exact (learn_acquires ha).1 _ h0
        · rw [h0]; exact (Know.le_learn ..).1 _ (h.know i).2.1)
    rw [← hzv] at hs
    obtain ⟨segs', hc⟩ := h.read hQ (List.getElem?_eq_getElem hx) c2 hq (Know.le_learn ..)
      (learn_seen ..) ((h.know i).2.2.learn (h.msgSeen z (List.mem_of_getElem? hz)) hx) hs
      (m' := { m.access i false cellLoc with
        know := update m.know i (learn (m.know i) o cellLoc x z)
        pool := update m.pool i (f z.val) }) m1 m2 rfl rfl
      (access_races (fun _ => h.ordered_ptr i) h.races)
    exact ⟨_, _, _, hc⟩
  | cas a old new ok err f =>
    rw [hp] at hsi
    obtain ⟨rfl, h1⟩ := hsi
    obtain ⟨m1, m2, m3, m4⟩ := access_mem m i false cellLoc
    obtain ⟨c1, c2⟩ := choose_coherent (n := n) (by rw [h.len]; exact (h.know i).2.2)
      (by rw [h.len]; exact h.pos)
    dsimp only
    have hsel : ∃ x, (if ((m.mem cellLoc).getD (choose (m.know i) cellLoc (m.mem cellLoc) n)
          ⟨none, false, .none⟩).val = old then (m.mem cellLoc).length - 1
          else choose (m.know i) cellLoc (m.mem cellLoc) n) = x ∧ x < H.length ∧
        (∀ w ∈ (m.know i).seen, w.1 = cellLoc → w.2 ≤ x) ∧
        (((m.mem cellLoc).getD x ⟨none, false, .none⟩).val = old → x = H.length - 1) := by
      have hpos := h.pos
      rw [h.len] at c1 ⊢
      refine ⟨_, rfl, ?_⟩
      split
      · refine ⟨by omega, fun w hw hc => ?_, fun _ => rfl⟩
        have := (h.know i).2.2 w hw hc
        omega
      · rename_i hne
        exact ⟨c1, c2, fun h0 => (hne h0).elim⟩
    obtain ⟨x, hxe, hx, hx2, hx3⟩ := hsel
    rw [hxe]
    obtain ⟨z, hz, hzv, -, hzk⟩ := h.msg x _ (List.getElem?_eq_getElem hx)
    have hgz : (m.mem cellLoc).getD x ⟨none, false, .none⟩ = z := by
      rw [List.getD_eq_getElem?_getD, hz]; rfl
    rw [hgz] at hx3 ⊢
    by_cases hval : z.val = old
    · rw [if_pos hval]
      have hxl := hx3 hval
      subst hxl
      obtain ⟨e, he⟩ := h.last
      have hee : H[H.length - 1] = e := by
        have := last_get he
        rw [List.getElem?_eq_getElem hx] at this
        exact Option.some.inj this
      rw [hee] at hzv hzk
      obtain ⟨e', own', q', w1, w2, w3, w4⟩ := (h1 H List.prefix_rfl h.log).1 e he (hzv.symm.trans hval)
      have hle : (m.know i).le ((learn (m.know i) ok cellLoc (H.length - 1) z).add
          (cellLoc, (m.mem cellLoc).length)) :=
        Know.le_trans (Know.le_learn _ ok cellLoc (H.length - 1) z) (Know.le_add _ _)
      have hs := w4 _ hle
      have hb : Bound (H.length + 1) ((learn (m.know i) ok cellLoc (H.length - 1) z).add
          (cellLoc, (m.mem cellLoc).length)) := by
        intro w hw hc
        rcases List.mem_cons.1 hw with rfl | hw
        · rw [h.len]; exact Nat.lt_succ_self _
        · exact (((h.know i).2.2.learn (h.msgSeen z (List.mem_of_getElem? hz)) hx).mono (Nat.le_succ _)) w hw hc
      rw [← hval] at hs
      exact ⟨_, _, _, h.write hQ he w1 w3 hle (by rw [← h.len]; exact List.mem_cons_self ..) hb hz
        (x := ⟨new, true, _⟩) w2 rfl rfl hs rfl m2 rfl rfl
        (access_races (fun _ => h.ordered_ptr i) h.races)⟩
    · rw [if_neg hval]
      obtain ⟨q', hq, hs⟩ := (h1 H List.prefix_rfl h.log).2 x _ (List.getElem?_eq_getElem hx)
        (by rw [← hzv]; exact hval) (learn (m.know i) err cellLoc x z) (Know.le_learn ..) (fun g ha => by
          rcases hzk g with h0 | h0
          · exact (learn_acquires ha).1 _ h0
          · rw [h0]; exact (Know.le_learn ..).1 _ (h.know i).2.1)
      rw [← hzv] at hs
      obtain ⟨segs', hc⟩ := h.read hQ (List.getElem?_eq_getElem hx) hx2 hq (Know.le_learn ..)
        (learn_seen ..) ((h.know i).2.2.learn (h.msgSeen z (List.mem_of_getElem? hz)) hx) hs
        (m' := { m.access i false cellLoc with
          know := update m.know i (learn (m.know i) err cellLoc x z)
          pool := update m.pool i (f (.error z.val)) }) m1 m2 rfl rfl
        (access_races (fun _ => h.ordered_ptr i) h.races)
      exact ⟨_, _, _, hc⟩

theorem CInv.exec (hQ : ∀ a q H H', Q a q H → Q a q H') (h : CInv good Q c0 m H own segs) (t : List (ι × Nat)) :
    ∃ H' own' segs', CInv good Q c0 (m.exec t) H' own' segs' := by
  unfold Mach.exec
  induction t generalizing m H own segs with
  | nil => exact ⟨_, _, _, h⟩
  | cons x t ih =>
    obtain ⟨H', own', segs', h'⟩ := h.step hQ x.1 x.2
    exact ih h'

theorem CInv.dangling (h : CInv good Q c0 m H own segs) : m.NoDangling := by
  have hptr : m.mem cellLoc ≠ [] := by
    rw [← List.length_pos_iff, h.len]; exact h.pos
  intro i a ha
  have hsi := h.sims i
  cases hp : m.pool i with
  | ret | panic | alloc => rw [hp] at ha; cases ha
  | free x len f =>
    rw [hp] at ha hsi
    obtain ⟨rfl, ⟨v, h0⟩, -⟩ := hsi
    obtain ⟨o1, -⟩ := h.owned i x v h0
    have : a = x := by simpa [WProg.uses] using ha
    rw [this, o1]
    simp
  | plain x f =>
    rw [hp] at ha hsi
    obtain ⟨l, e, he, rfl, -⟩ := hsi
    rw [List.mem_singleton.1 ha, (h.blocks l e he).1]
    simp
  | load x o f =>
    rw [hp] at ha hsi
    rw [List.mem_singleton.1 ha, hsi.1]
    exact hptr
  | cas x old new ok err f =>
    rw [hp] at ha hsi
    rw [List.mem_singleton.1 ha, hsi.1]
    exact hptr

end

/-! ## The threads -/

section
variable {o : CellOrders} {G : Nat}

theorem csim_prog {good : Prop} {β : Type} {Q : CellAns Bool Word → Prog VC β → List CEntry → Prop}
    {rest : CellAns Bool Word → Prog VC β} (hQ : ∀ a H, Q a (rest a) H) {c : CellCall Bool Word}
    (hc : good → o.Sync c) (H : List CEntry) (k : Know) :
    csim good (cellProg o G c) ((c.verProg false).bind rest) none H k Q := by
  cases c with
  | read => exact csim_read hQ hc H k
  | tag => exact csim_tag hQ H k
  | modify F f => exact csim_modify hQ (fun g => (hc g).1) (fun g => (hc g).2.1) (fun g => (hc g).2.2) F f H k
  | set same w => exact csim_set hQ (fun g => (hc g).1) (fun g => (hc g).2) same w H k
  | mark t => exact csim_mark hQ t H k

theorem csim_thread {good : Prop} {β : Type} : ∀ (cs : List (CellCall Bool Word))
    {Q : List (CellAns Bool Word) → Prog VC β → List CEntry → Prop}
    {rest : List (CellAns Bool Word) → Prog VC β} (_ : ∀ a H, Q a (rest a) H)
    (_ : good → ∀ c ∈ cs, o.Sync c) (H : List CEntry) (k : Know),
    csim good (cellThread o G cs) ((verThread cs).bind rest) none H k Q
  | [], _, _, hQ, _, _, _ => ⟨rfl, hQ _ _⟩
  | c :: cs, Q, rest, hQ, hc, H, k => by
    have hq : (verThread (c :: cs)).bind rest =
        (c.verProg false).bind fun a => (verThread cs).bind fun as => rest (a :: as) := by
      change ((c.verProg false >>= fun a => verThread cs >>= fun as => pure (a :: as)) >>= rest) =
        (c.verProg false >>= fun a => verThread cs >>= fun as => rest (a :: as))
      simp only [Prog.bind_assoc', Prog.pure_bind']
    rw [hq]
    refine csim_bind (Q' := fun a q _ => q = (verThread cs).bind fun as => rest (a :: as)) ?_ _
      (csim_prog (fun _ _ => rfl) (fun g => hc g c (List.mem_cons_self ..)) H k)
    rintro a q H' k' rfl
    refine csim_bind (Q' := fun as q _ => q = rest (a :: as)) ?_ _
      (csim_thread cs (fun _ _ => rfl) (fun g d hd => hc g d (List.mem_cons_of_mem _ hd)) H' k')
    rintro as q H'' k'' rfl
    exact ⟨rfl, hQ _ _⟩

theorem cell_inv {ι : Type} [DecidableEq ι] (v : Word) (calls : ι → List (CellCall Bool Word))
    (t : List (ι × Nat)) : ∃ H own segs, CInv (∀ i, ∀ c ∈ calls i, o.Sync c) (fun a q _ => q = .ret a)
      (verThreads v calls) ((cellStart o G v calls).exec t) H own segs := by
  refine CInv.exec (fun _ _ _ _ h => h) (H := [⟨⟨0, false, v⟩, firstBlock⟩]) (own := fun _ => none)
    (segs := [[]]) ?_ t
  have hget : ∀ {n : Nat} {e : CEntry}, ([⟨⟨0, false, v⟩, firstBlock⟩] : List CEntry)[n]? = some e →
      n = 0 ∧ e = ⟨⟨0, false, v⟩, firstBlock⟩ := by
    intro n e he
    have hn : n = 0 := by
      have := (List.getElem?_eq_some_iff.1 he).1
      rw [List.length_singleton] at this
      omega
    subst hn
    exact ⟨rfl, by simpa using he.symm⟩
  constructor
  · rfl
  · exact Nat.zero_lt_one
  · intro n e he
    obtain ⟨rfl, rfl⟩ := hget he
    exact ⟨⟨tagged firstBlock false, false, .none⟩, rfl, rfl, fun h => (h rfl).elim, fun _ => .inr rfl⟩
  · intro x hx w hw
    rw [show (cellStart o G v calls).mem cellLoc = [⟨tagged firstBlock false, false, .none⟩] from rfl,
      List.mem_singleton] at hx
    subst hx
    cases hw
  · intro n e he
    obtain ⟨rfl, rfl⟩ := hget he
    exact ⟨rfl, Nat.one_lt_two, Nat.one_ne_zero⟩
  · constructor
    · intro m n e e' hm hn
      rw [(hget hm).2, (hget hn).2]
      exact Iff.intro (fun _ => rfl) (fun _ => rfl)
    · intro m n e e' hm hn _
      rw [(hget hm).2, (hget hn).2]
      exact Nat.le_refl _
    · intro m n e e' hm hn _
      rw [(hget hm).2, (hget hn).2]
  · exact Nat.two_pos
  · intro i x w h; cases h
  · intro i j x w w' h; cases h
  · intro i
    refine ⟨List.mem_cons_self .., List.mem_cons_of_mem _ (List.mem_cons_self ..), ?_⟩
    intro w hw hc
    rcases List.mem_cons.1 hw with rfl | hw
    · exact Nat.zero_lt_one
    · rcases List.mem_cons.1 hw with rfl | hw
      · exact Nat.zero_lt_one
      · cases hw
  · rfl
  · intro n e he
    obtain ⟨rfl, rfl⟩ := hget he
    rfl
  · intro n l i hl hi
    have hn : n = 0 := by
      have := (List.getElem?_eq_some_iff.1 hl).1
      rw [List.length_singleton] at this
      omega
    exact .inl hn
  · intro i
    have := csim_thread (o := o) (G := G) (good := ∀ i, ∀ c ∈ calls i, o.Sync c) (calls i)
      (Q := fun a q _ => q = .ret a) (rest := .ret) (fun _ _ => rfl) (fun g => g i)
      [⟨⟨0, false, v⟩, firstBlock⟩] ((Know.none.add (firstBlock, 0)).add (cellLoc, 0))
    rw [show (verThread (calls i)).bind Prog.ret = verThread (calls i) from Prog.bind_ret' _] at this
    exact this
  · intro _; rfl

end

end Rotonda.Weak
