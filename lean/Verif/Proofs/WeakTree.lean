import Verif.Proofs.WeakThreads
import Verif.Model.WeakTree
import Mathlib.Data.Nat.Bitwise

/-!
# What the bit arrays of the nodes hold under weak memory
-/

namespace Rotonda.Weak

section
variable {ι : Type} {T : Table} {good : Prop}

theorem Know.block_mono {k k' : Know} (h : k.le k') (a n : Nat) : (k.block a n).le (k'.block a n) :=
  ⟨fun _ hx => List.mem_append.2 ((List.mem_append.1 hx).imp id (h.1 _)),
    fun _ hx => List.mem_append.2 ((List.mem_append.1 hx).imp id (h.2 _))⟩

theorem Know.le_join_left (k k' : Know) : k.le (k.join k') :=
  ⟨fun _ h => List.mem_append_left _ h, fun _ h => List.mem_append_left _ h⟩

theorem Know.le_join_right (k k' : Know) : k'.le (k.join k') :=
  ⟨fun _ h => List.mem_append_right _ h, fun _ h => List.mem_append_right _ h⟩

theorem SeenOk.join {w : World ι} {k k' : Know} (h : SeenOk w k) (h' : SeenOk w k') : SeenOk w (k.join k') :=
  fun x hx => (List.mem_append.1 hx).elim (h x) (h' x)

/-- To know more does no harm. -/
theorem safe_know {α : Type} {i : ι} {p : WProg α} {Q : World ι → Know → α → Prop}
    (hQ : ∀ w k k' a, k.le k' → Q w k a → Q w k' a) {w : World ι} {k k' : Know}
    (h : safe T good i p Q w k) (hk : k.le k') : safe T good i p Q w k' := by
  induction p generalizing w k k' with
  | ret a => exact hQ _ _ _ _ hk h
  | panic => exact h
  | alloc ws f ih =>
    obtain ⟨rs, h1, h2, h3⟩ := h
    exact ⟨rs, h1, h2, fun u hu hi => ih _ (h3 u hu hi) (Know.block_mono hk _ _)⟩
  | free a n p ih =>
    exact ⟨h.1, h.2.1.mono hk, fun u hu hi v hv hv' => ih (h.2.2 u hu hi v hv hv') hk⟩
  | plain a f ih =>
    exact ⟨h.1, fun g => hk.1 _ (h.2.1 g), fun u hu hi v hv => ih _ (h.2.2 u hu hi v hv) hk⟩
  | load a o f ih =>
    rcases h with ⟨r, h1, h2, h3, h4⟩ | ⟨c, path, h1, h2, h3⟩
    · refine .inl ⟨r, h1, h2, fun g => ⟨hk.1 _ (h3 g).1, (h3 g).2⟩, fun u hu hi k1 hk1 => ?_⟩
      obtain ⟨g1, g2⟩ := h4 u hu hi k1 (Know.le_trans hk hk1)
      exact ⟨fun hn => g1 fun hs => hn (hk.2 _ hs), g2⟩
    · exact .inr ⟨c, path, h1, fun g => hk.1 _ (h2 g), fun u hu hi k1 hk1 n v hn hs hm =>
        h3 u hu hi k1 (Know.le_trans hk hk1) n v hn hs fun m hm' => hm m (hk.2 _ hm')⟩
  | cas a old new ok err f ih =>
    rcases h with ⟨h0, r, p, h1, h2, h3, h4, h5, h6, h7⟩ | ⟨c, path, u, v, h1, h2, h3, h4, h5, h6, h7, h8⟩
    · exact .inl ⟨h0, r, p, h1, h2, h3, h4, h5.mono hk, fun g => ⟨hk.1 _ (h6 g).1, (h6 g).2⟩,
        fun u hu hi k1 hk1 hs => h7 u hu hi k1 (Know.le_trans hk hk1) hs⟩
    · refine .inr ⟨c, path, u, v, h1, h2, h3, fun g => hk.1 _ (h4 g), h5, h6, h7, fun w' hw' hi k1 hk1 => ?_⟩
      obtain ⟨g1, g2⟩ := h8 w' hw' hi k1 (Know.le_trans hk hk1)
      exact ⟨g1, fun n u' h1 h2 h3 h4 => g2 n u' h1 h2 h3 fun m hm' => h4 m (hk.2 _ hm')⟩

theorem safe_post {α : Type} {i : ι} {p : WProg α} {Q Q' : World ι → Know → α → Prop}
    (hQ : ∀ w k a, Q w k a → Q' w k a) {w : World ι} {k : Know}
    (h : safe T good i p Q w k) : safe T good i p Q' w k := by
  induction p generalizing w k with
  | ret a => exact hQ _ _ _ h
  | panic => exact h
  | alloc ws f ih =>
    obtain ⟨rs, h1, h2, h3⟩ := h
    exact ⟨rs, h1, h2, fun u hu hi => ih _ (h3 u hu hi)⟩
  | free a n p ih => exact ⟨h.1, h.2.1, fun u hu hi v hv hv' => ih (h.2.2 u hu hi v hv hv')⟩
  | plain a f ih => exact ⟨h.1, h.2.1, fun u hu hi v hv => ih _ (h.2.2 u hu hi v hv)⟩
  | load a o f ih =>
    rcases h with ⟨r, h1, h2, h3, h4⟩ | ⟨c, path, h1, h2, h3⟩
    · exact .inl ⟨r, h1, h2, h3, fun u hu hi k' hk => ⟨fun hn => ih _ ((h4 u hu hi k' hk).1 hn),
        fun p hp hb hkn hs => ih _ ((h4 u hu hi k' hk).2 p hp hb hkn hs)⟩⟩
    · exact .inr ⟨c, path, h1, h2, fun u hu hi k' hk n v hn hs hm => ih _ (h3 u hu hi k' hk n v hn hs hm)⟩
  | cas a old new ok err f ih =>
    rcases h with ⟨h0, r, p, h1, h2, h3, h4, h5, h6, h7⟩ | ⟨c, path, u, v, h1, h2, h3, h4, h5, h6, h7, h8⟩
    · exact .inl ⟨h0, r, p, h1, h2, h3, h4, h5, h6, fun u hu hi k' hk hs =>
        ⟨fun v hv hv' hp hb => ih _ ((h7 u hu hi k' hk hs).1 v hv hv' hp hb),
          fun q hq hb hkn => ih _ ((h7 u hu hi k' hk hs).2 q hq hb hkn)⟩⟩
    · exact .inr ⟨c, path, u, v, h1, h2, h3, h4, h5, h6, h7, fun u hu hi k' hk =>
        ⟨fun w'' n g1 g2 g3 g4 => ih _ ((h8 u hu hi k' hk).1 w'' n g1 g2 g3 g4),
          fun n u' g1 g2 g3 g4 => ih _ ((h8 u hu hi k' hk).2 n u' g1 g2 g3 g4)⟩⟩

/-! ## Bit arrays -/

/-- Later contents of a bit array have all bits of the earlier ones. -/
theorem WInv.grows {w : World ι} (h : WInv T good w) {a f : Nat} {o : Option ι} {path : List Nat}
    (ha : w.role a = some (o, .bits f path)) {m n u v : Nat} (hm : Nth w a m (some u)) (hn : Nth w a n (some v))
    (hmn : m ≤ n) {j : Nat} (hj : u.testBit j = true) : v.testBit j = true := by
  have hc := h.cells a _ _ ha
  obtain ⟨x, hx, hxu⟩ := hm
  obtain ⟨y, hy, hyv⟩ := hn
  rcases Nat.lt_or_ge m n with hlt | hge
  · generalize w.mem a = l at hc hx hy
    cases hc with
    | null h => exact h.elim
    | ptr h => exact h.elim
    | bits _ _ _ h4 _ =>
      obtain ⟨hm', hx'⟩ := List.getElem?_eq_some_iff.1 hx
      obtain ⟨hn', hy'⟩ := List.getElem?_eq_some_iff.1 hy
      have := List.pairwise_iff_getElem.1 h4 m n hm' hn' hlt
      rw [hx', hy'] at this
      exact this u v hxu hyv j hj
  · have : m = n := by omega
    subst this
    rw [hx] at hy
    cases hy
    rw [hxu] at hyv
    cases hyv
    exact hj

theorem WInv.bound {w : World ι} (h : WInv T good w) {a f : Nat} {o : Option ι} {path : List Nat}
    (ha : w.role a = some (o, .bits f path)) {m u : Nat} (hm : Nth w a m (some u)) : u < 2 ^ 32 := by
  have hc := h.cells a _ _ ha
  obtain ⟨x, hx, hxu⟩ := hm
  have hx := List.mem_of_getElem? hx
  generalize w.mem a = l at hc hx
  cases hc with
  | null h => exact h.elim
  | ptr h => exact h.elim
  | bits _ _ h3 =>
    obtain ⟨v, hv, hlt⟩ := h3 x hx
    rw [hxu] at hv
    cases hv
    exact hlt

/-- The number of bits that are set. -/
def ones (v : Nat) : Nat := (List.range 32).countP v.testBit

theorem ones_le (v : Nat) : ones v ≤ 32 := by
  have := List.countP_le_length (p := v.testBit) (l := List.range 32)
  simpa [ones] using this

theorem ones_lt {u v : Nat} (hu : u < 2 ^ 32) (hv : v < 2 ^ 32)
    (h : ∀ j, u.testBit j = true → v.testBit j = true) (hne : v ≠ u) : ones u < ones v := by
  obtain ⟨j, hj⟩ : ∃ j, v.testBit j ≠ u.testBit j := by
    by_contra hall
    push_neg at hall
    exact hne (Nat.eq_of_testBit_eq hall)
  have hv1 : v.testBit j = true ∧ u.testBit j = false := by
    cases h1 : v.testBit j <;> cases h2 : u.testBit j <;> simp_all
  have hj32 : j < 32 := by
    by_contra hge
    rw [Nat.testBit_eq_false_of_lt (Nat.lt_of_lt_of_le hv (Nat.pow_le_pow_right (by omega) (by omega)))] at hv1
    cases hv1.1
  unfold ones
  have key : ∀ l : List Nat, j ∈ l → l.countP u.testBit < l.countP v.testBit := by
    have hle : ∀ l : List Nat, l.countP u.testBit ≤ l.countP v.testBit := fun l =>
      List.countP_mono_left fun x _ hx => h x hx
    intro l hl
    induction l with
    | nil => cases hl
    | cons x l ih =>
      rw [List.countP_cons, List.countP_cons]
      by_cases hx : x = j
      · subst hx
        have := hle l
        simp only [hv1.1, hv1.2]
        simp
        omega
      · have hl' : j ∈ l := by
          rcases List.mem_cons.1 hl with h' | h'
          · exact absurd h'.symm hx
          · exact h'
        have := ih hl'
        have hxx := h x
        cases h1 : u.testBit x <;> cases h2 : v.testBit x <;> simp_all <;> omega
  exact key _ (List.mem_range.2 hj32)

/-- Bit `b` of the array is set, and a thread that knows `k` has seen so. -/
def Has (T : Table) (arr : Arr) (x b : Nat) (w : World ι) (k : Know) : Prop :=
  ∃ p n v, Found T x w (sees k) 0 rootLoc p ∧ Nth w (p + arr.word) n (some v) ∧
    (p + arr.word, n) ∈ k.seen ∧ v.testBit b = true

theorem arr_role {w : World ι} {x n p : Nat} (h : PubBlock T w (.box (path T x n)) p) (arr : Arr) :
    w.role (p + arr.word) = some (none, .bits arr.word (path T x n)) := by
  cases arr
  · exact h 2 _ rfl
  · exact h 3 _ rfl

/-- The table is in order. -/
structure Fine (T : Table) (good : Prop) (w : World ι) : Prop where
  inv : WInv T good w
  root : w.role rootLoc = some (none, .slice [])

theorem Fine.bucket {w : World ι} (h : Fine T good w) (x : Nat) : Bucket T x w 0 rootLoc := h.root

theorem Fine.mono {w w' : World ι} (h : Fine T good w) (hi : WInv T good w') (hw : PubGrow w w') :
    Fine T good w' := ⟨hi, (hw _ _ h.root).1⟩

theorem Found.more {w w' : World ι} {k k' : Know} {x p : Nat} (h : Found T x w (sees k) 0 rootLoc p)
    (hf : Fine T good w) (hw : PubGrow w w') (hk : k.le k') : Found T x w' (sees k') 0 rootLoc p :=
  h.mono hf.inv (hf.bucket x) hw fun _ ha => hk.2 _ ha

theorem Has.mono {w w' : World ι} {k k' : Know} {arr : Arr} {x b : Nat} (h : Has T arr x b w k)
    (hf : Fine T good w) (hw : PubGrow w w') (hk : k.le k') : Has T arr x b w' k' := by
  obtain ⟨p, n, v, h1, h2, h3, h4⟩ := h
  obtain ⟨_, l, hb⟩ := h1.entry hf.inv (hf.bucket x)
  exact ⟨p, n, v, h1.more hf hw hk, h2.mono (arr_role hb arr) hw, hk.2 _ h3, h4⟩

/-- Only bits that belong there are set. -/
theorem Has.just {w : World ι} {k : Know} {arr : Arr} {x b : Nat} (h : Has T arr x b w k)
    (hf : Fine T good w) : T.bits x arr.word b := by
  obtain ⟨p, n, v, h1, ⟨m, hm, hv⟩, h3, h4⟩ := h
  obtain ⟨hval, l, hb⟩ := h1.entry hf.inv (hf.bucket x)
  obtain ⟨q, y, path, hq, hr, hy, hj⟩ :=
    hf.inv.just _ _ _ _ (arr_role hb arr) m (List.mem_of_getElem? hm) v hv b h4
  have hpq : q = p := by omega
  subst hpq
  have := (hf.inv.val hr hval hy).1
  injection this with this
  rw [this]
  exact hj

section calls
variable {ot ob : Orders} {i : ι} {x b p l : Nat} {arr : Arr}

theorem testBit_lor_self (u b : Nat) : (u ||| 2 ^ b).testBit b = true := by
  rw [Nat.testBit_or, Nat.testBit_two_pow_self, Bool.or_true]

theorem casBits_safe (hb : b < 32) (hj : T.bits x arr.word b) {Q : World ι → Know → Word → Prop} :
    ∀ (fuel cur : Nat) {w : World ι} {k : Know} {n : Nat}, Fine T ot.good w →
    PubBlock T w (.box (path T x l)) p → Val w p (some x) →
    (ot.good → Knows k p 4) → Nth w (p + arr.word) n (some cur) → (p + arr.word, n) ∈ k.seen →
    33 ≤ fuel + ones cur →
    (∀ w' k' n v, PubGrow w w' → WInv T ot.good w' → k.le k' → Nth w' (p + arr.word) n (some v) →
      (p + arr.word, n) ∈ k'.seen → v.testBit b = true → Q w' k' (some 0)) →
    safe T ot.good i (casBits ob (p + arr.word) b fuel cur) Q w k
  | 0, cur, w, k, n, _, _, _, _, _, _, hfuel, _ => by have := ones_le cur; omega
  | fuel + 1, cur, w, k, n, hf, hp, hx, hk, hn, hs, hfuel, hQ => by
    have hr := arr_role hp arr
    have hcur := hf.inv.bound hr hn
    refine .inr ⟨arr.word, _, cur, cur ||| 2 ^ b, rfl, rfl, hr, fun g => ?_, ?_, ?_, ?_, fun w1 hw1 hi1 k1 hk1 => ⟨?_, ?_⟩⟩
    · exact hk g arr.word (by cases arr <;> simp [Arr.word])
    · exact Nat.or_lt_two_pow hcur (Nat.pow_lt_pow_right (by omega) hb)
    · intro u v hu hv j hj
      cases hu; cases hv
      rw [Nat.testBit_or, hj, Bool.true_or]
    · intro j hj'
      rw [Nat.testBit_or, Bool.or_eq_true, Nat.testBit_two_pow, decide_eq_true_eq] at hj'
      refine hj'.imp id fun h => ?_
      subst h
      exact ⟨p, x, _, rfl, (entry_role hp).1, hx, hj⟩
    · intro w2 m hw2 hi2 hm hs2
      exact hQ w2 k1 m _ (hw1.1.trans hw2) hi2 hk1 hm hs2 (testBit_lor_self cur b)
    · intro m u' hm hne hs2 hge
      have hmn := hge n hs
      have hr1 := arr_role (hp.mono hw1.1) arr
      have hsub : ∀ j, cur.testBit j = true → u'.testBit j = true := fun j hj =>
        hi1.grows hr1 (hn.mono hr hw1.1) hm hmn hj
      have := ones_lt hcur (hi1.bound hr1 hm) hsub hne
      refine casBits_safe hb hj fuel u' (hf.mono hi1 hw1.1) (hp.mono hw1.1) (hx.mono (entry_role hp).1 hw1.1)
        (fun g => (hk g).mono hk1) hm hs2 (by omega) ?_
      intro w2 k2 n2 v hw2 hi2 hk2
      exact hQ w2 k2 n2 v (hw1.1.trans hw2) hi2 (Know.le_trans hk1 hk2)

theorem setBit_safe (hb : b < 32) (hj : T.bits x arr.word b) {Q : World ι → Know → Word → Prop}
    {w : World ι} {k : Know} (hf : Fine T ot.good w)
    (hp : PubBlock T w (.box (path T x l)) p) (hx : Val w p (some x)) (hk : ot.good → Knows k p 4)
    (hQ : ∀ w' k' a, PubGrow w w' → WInv T ot.good w' → k.le k' → (a = some 0 ∨ a = some 1) →
      (∃ n v, Nth w' (p + arr.word) n (some v) ∧ (p + arr.word, n) ∈ k'.seen ∧ v.testBit b = true) →
      ((∃ n v, Nth w (p + arr.word) n (some v) ∧ (p + arr.word, n) ∈ k.seen ∧ v.testBit b = true) → a = some 1) →
      Q w' k' a) :
    safe T ot.good i (setBit ob arr p b) Q w k := by
  have hr := arr_role hp arr
  refine .inr ⟨arr.word, _, hr, fun g => hk g arr.word (by cases arr <;> simp [Arr.word]),
    fun w1 hw1 hi1 k1 hk1 n cur hn hs hge => ?_⟩
  have hf1 := hf.mono hi1 hw1.1
  have hp1 := hp.mono hw1.1
  have hr1 := arr_role hp1 arr
  have hx1 := hx.mono (entry_role hp).1 hw1.1
  cases arr with
  | pfx =>
    show safe T ot.good i (if cur.testBit b = true then WProg.ret (some 1) else casBits ob (p + Arr.pfx.word) b 33 cur) Q w1 k1
    split
    · rename_i hc
      exact hQ w1 k1 _ hw1.1 hi1 hk1 (.inr rfl) ⟨n, cur, hn, hs, hc⟩ fun _ => rfl
    · rename_i hc
      refine casBits_safe hb hj 33 cur hf1 hp1 hx1 (fun g => (hk g).mono hk1) hn hs (by omega) ?_
      intro w2 k2 m v hw2 hi2 hk2 hm hs2 hv
      refine hQ w2 k2 _ (hw1.1.trans hw2) hi2 (Know.le_trans hk1 hk2) (.inl rfl) ⟨m, v, hm, hs2, hv⟩ ?_
      rintro ⟨m0, v0, h1, h2, h3⟩
      exact absurd (hi1.grows hr1 (h1.mono hr hw1.1) hn (hge _ h2) h3) hc
  | ptr =>
    refine .inr ⟨Arr.ptr.word, _, hr1, fun g => hk1.1 _ (hk g 2 (by omega)),
      fun w2 hw2 hi2 k2 hk2 n2 again hn2 hs2 hge2 => ?_⟩
    have hr2 := arr_role (hp1.mono hw2.1) Arr.ptr
    show safe T ot.good i (if again.testBit b = true then WProg.ret (some 1) else casBits ob (p + Arr.ptr.word) b 33 cur) Q w2 k2
    split
    · rename_i hc
      exact hQ w2 k2 _ (hw1.1.trans hw2.1) hi2 (Know.le_trans hk1 hk2) (.inr rfl) ⟨n2, again, hn2, hs2, hc⟩ fun _ => rfl
    · rename_i hc
      refine casBits_safe hb hj 33 cur (hf1.mono hi2 hw2.1) (hp1.mono hw2.1) (hx1.mono (entry_role hp1).1 hw2.1)
        (fun g => ((hk g).mono hk1).mono hk2) (hn.mono hr1 hw2.1) (hk2.2 _ hs) (by omega) ?_
      intro w3 k3 m v hw3 hi3 hk3 hm hs3 hv
      refine hQ w3 k3 _ (hw1.1.trans (hw2.1.trans hw3)) hi3 (Know.le_trans hk1 (Know.le_trans hk2 hk3)) (.inl rfl)
        ⟨m, v, hm, hs3, hv⟩ ?_
      rintro ⟨m0, v0, h1, h2, h3⟩
      exact absurd (hi2.grows hr2 (h1.mono hr (hw1.1.trans hw2.1)) hn2 (hge2 _ (hk1.2 _ h2)) h3) hc

theorem testBit_safe {Q : World ι → Know → Word → Prop} {w : World ι} {k : Know}
    (hp : PubBlock T w (.box (path T x l)) p) (hk : ot.good → Knows k p 4)
    (hQ : ∀ w' k' a, PubGrow w w' → WInv T ot.good w' → k.le k' → (a = some 0 ∨ (a = some 1 ∧
      (∃ n v, Nth w' (p + arr.word) n (some v) ∧ (p + arr.word, n) ∈ k'.seen ∧ v.testBit b = true))) →
      ((∃ n v, Nth w (p + arr.word) n (some v) ∧ (p + arr.word, n) ∈ k.seen ∧ v.testBit b = true) → a = some 1) →
      Q w' k' a) :
    safe T ot.good i (testBit ob arr p b) Q w k := by
  have hr := arr_role hp arr
  refine .inr ⟨arr.word, _, hr, fun g => hk g arr.word (by cases arr <;> simp [Arr.word]),
    fun w1 hw1 hi1 k1 hk1 n cur hn hs hge => ?_⟩
  have hr1 := arr_role (hp.mono hw1.1) arr
  show Q w1 k1 (some (if cur.testBit b = true then 1 else 0))
  split
  · rename_i hc
    exact hQ w1 k1 _ hw1.1 hi1 hk1 (.inr ⟨rfl, n, cur, hn, hs, hc⟩) fun _ => rfl
  · rename_i hc
    refine hQ w1 k1 _ hw1.1 hi1 hk1 (.inl rfl) ?_
    rintro ⟨m0, v0, h1, h2, h3⟩
    exact absurd (hi1.grows hr1 (h1.mono hr hw1.1) hn (hge _ h2) h3) hc

/-! ## Calls -/

/-- What an answer means. -/
def Post (T : Table) (c : TreeCall) (w : World ι) (k : Know) (a : Word) : Prop :=
  match c with
  | .table (.find x) => ∀ p, a = some p → Found T x w (sees k) 0 rootLoc p
  | .table (.findOrInit x) => ∃ p, a = some p ∧ Found T x w (sees k) 0 rootLoc p
  | .set arr x b => (a = some 0 ∨ a = some 1) ∧ Has T arr x b w k
  | .test arr x b => a = some 0 ∨ (a = some 1 ∧ Has T arr x b w k)

/-- What the answer must be, by what was known when the call began. -/
def Prior (T : Table) (c : TreeCall) (w : World ι) (k : Know) (a : Word) : Prop :=
  match c with
  | .table c => ∀ p, Found T c.id w (sees k) 0 rootLoc p → a = some p
  | .set arr x b | .test arr x b => Has T arr x b w k → a = some 1

theorem Post.mono {c : TreeCall} {w w' : World ι} {k k' : Know} {a : Word} (h : Post T c w k a)
    (hf : Fine T good w) (hw : PubGrow w w') (hk : k.le k') : Post T c w' k' a := by
  match c, h with
  | .table (.find x), h => exact fun p hp => (h p hp).more hf hw hk
  | .table (.findOrInit x), ⟨p, h1, h2⟩ => exact ⟨p, h1, h2.more hf hw hk⟩
  | .set arr x b, ⟨h1, h2⟩ => exact ⟨h1, h2.mono hf hw hk⟩
  | .test arr x b, .inl h => exact .inl h
  | .test arr x b, .inr ⟨h1, h2⟩ => exact .inr ⟨h1, h2.mono hf hw hk⟩

theorem has_of {w : World ι} {k : Know} (hf : Found T x w (sees k) 0 rootLoc p)
    (h : ∃ n v, Nth w (p + arr.word) n (some v) ∧ (p + arr.word, n) ∈ k.seen ∧ v.testBit b = true) :
    Has T arr x b w k := by
  obtain ⟨n, v, h1, h2, h3⟩ := h
  exact ⟨p, n, v, hf, h1, h2, h3⟩

/-- What was known of a bit at the beginning of a call is known of the entry found. -/
theorem Has.at {w w' : World ι} {k k' k1 : Know} (h : Has T arr x b w k) (hf : Fine T good w) (hf' : Fine T good w')
    (hw : PubGrow w w') (hk : k.le k') (hp : Found T x w' (sees k1) 0 rootLoc p) :
    ∃ n v, Nth w' (p + arr.word) n (some v) ∧ (p + arr.word, n) ∈ k'.seen ∧ v.testBit b = true := by
  obtain ⟨q, n, v, h1, h2, h3, h4⟩ := h.mono hf hw hk
  have := h1.unique hf'.inv hp (hf'.bucket x)
  subst this
  exact ⟨n, v, h2, h3, h4⟩

theorem call_safe {levels : Nat} (hT : T.Ok levels) {c : TreeCall} (hid : T.ids c.id)
    (hset : ∀ arr x b, c = .set arr x b → b < 32 ∧ T.bits x arr.word b)
    {Q : World ι → Know → Option (TreeCall × Word) → Prop} {w : World ι} {k : Know} (hf : Fine T ot.good w)
    (hk : ot.good → (rootLoc, 0) ∈ k.before)
    (hQ : ∀ w' k' a, PubGrow w w' → WInv T ot.good w' → k.le k' → Post T c w' k' a → Prior T c w k a →
      Q w' k' (some (c, a))) :
    safe T ot.good i (c.run ot ob T levels) Q w k := by
  have hpos := hT.pos
  refine safe_bind (c.prog ot ob T levels) ?_
  match c, hid, hset, hQ with
  | .table (.find x), hid, _, hQ =>
    refine find_safe hT hid levels (by omega) hpos (hf.bucket x) hk ?_
    intro w1 k1 a hw1 hi1 hk1 hsome hnone
    refine hQ w1 k1 a hw1 hi1 hk1 (fun p hp => (hsome p hp).1) fun p hp => ?_
    cases a with
    | none => exact absurd (hp.more hf hw1 (Know.le_refl k)) (hnone rfl p)
    | some q =>
      have hf1 := hf.mono hi1 hw1
      rw [(hsome q rfl).1.unique hi1 (hp.more hf hw1 hk1) (hf1.bucket x)]
  | .table (.findOrInit x), hid, _, hQ =>
    refine findOrInit_safe hT hid levels (by omega) hpos (hf.bucket x) hk ?_
    intro w1 k1 q hw1 hi1 hk1 hq _
    refine hQ w1 k1 _ hw1 hi1 hk1 ⟨q, rfl, hq⟩ fun p hp => ?_
    rw [hq.unique hi1 (hp.more hf hw1 hk1) ((hf.mono hi1 hw1).bucket x)]
  | .set arr x b, hid, hset, hQ =>
    obtain ⟨hb, hj⟩ := hset arr x b rfl
    refine safe_bind (findOrInit ot T x levels 0 rootLoc) ?_
    refine findOrInit_safe hT hid levels (by omega) hpos (hf.bucket x) hk ?_
    intro w1 k1 q hw1 hi1 hk1 hq hkq
    have hf1 := hf.mono hi1 hw1
    obtain ⟨hval, l, hblk⟩ := hq.entry hi1 (hf1.bucket x)
    refine setBit_safe hb hj hf1 hblk hval hkq ?_
    intro w2 k2 a hw2 hi2 hk2 ha hn hprior
    refine hQ w2 k2 a (hw1.trans hw2) hi2 (Know.le_trans hk1 hk2) ⟨ha, has_of (hq.more hf1 hw2 hk2) hn⟩ fun h => ?_
    exact hprior (h.at hf hf1 hw1 hk1 hq)
  | .test arr x b, hid, _, hQ =>
    refine safe_bind (find ot T x levels 0 rootLoc) ?_
    refine find_safe hT hid levels (by omega) hpos (hf.bucket x) hk ?_
    intro w1 k1 a hw1 hi1 hk1 hsome hnone
    have hf1 := hf.mono hi1 hw1
    cases a with
    | none =>
      refine hQ w1 k1 _ hw1 hi1 hk1 (.inl rfl) ?_
      rintro ⟨p, n, v, h1, -⟩
      exact absurd (h1.more hf hw1 (Know.le_refl k)) (hnone rfl p)
    | some q =>
      obtain ⟨hq, hkq⟩ := hsome q rfl
      obtain ⟨hval, l, hblk⟩ := hq.entry hi1 (hf1.bucket x)
      refine testBit_safe (arr := arr) (b := b) hblk hkq ?_
      intro w2 k2 a hw2 hi2 hk2 ha hprior
      refine hQ w2 k2 a (hw1.trans hw2) hi2 (Know.le_trans hk1 hk2) ?_ fun h => hprior (h.at hf hf1 hw1 hk1 hq)
      exact ha.imp id fun ⟨h1, h2⟩ => ⟨h1, has_of (hq.more hf1 hw2 hk2) h2⟩

end calls

/-! ## Executions -/

theorem step_know [DecidableEq ι] {α : Type} (c : Mach ι α) (i j : ι) (n : Nat) :
    (c.know j).le ((c.step i n).know j) := by
  have upd : ∀ k : Know, (c.know i).le k → (c.know j).le (Function.update c.know i k j) := by
    intro k hk
    by_cases hj : j = i
    · subst hj; rw [Function.update_self]; exact hk
    · rw [Function.update_of_ne hj]; exact Know.le_refl _
  unfold Mach.step
  cases c.pool i with
  | ret => exact Know.le_refl _
  | panic => exact Know.le_refl _
  | alloc ws f => exact upd _ (Know.le_block ..)
  | free a len f =>
    dsimp only
    have : ∀ (l : List Nat) (d : Mach ι α), (l.foldl (fun c j => c.access i true (a + j)) d).know = d.know := by
      intro l
      induction l with
      | nil => intro d; rfl
      | cons x l ih =>
        intro d
        rw [List.foldl_cons, ih]
        exact (access_mem d i true _).2.2.1
    rw [this]
    exact Know.le_refl _
  | plain a f =>
    dsimp only
    rw [(access_mem c i true a).2.2.1]
    exact Know.le_refl _
  | load a o f => exact upd _ (Know.le_learn ..)
  | cas a old new ok err f =>
    dsimp only
    split <;> (try split) <;>
      first
      | exact upd _ (Know.le_learn ..)
      | exact upd _ (Know.le_trans (Know.le_learn ..) (Know.le_add _ _))

/-- The knowledge at a thread or a place. -/
def Sys.knowAt (S : Sys ι) : ι ⊕ Nat → Know
  | .inl i => S.mach.know i
  | .inr s => S.mail s

abbrev Sys.world (S : Sys ι) (role : Nat → Option (Option ι × Role)) : World ι := S.mach.world role

/-- An execution is in order. -/
structure SafeSys (T : Table) (good : Prop) (Q : ι → World ι → Know → Option (TreeCall × Word) → Prop) (S : Sys ι)
    (role : Nat → Option (Option ι × Role)) : Prop where
  mach : SafeAt T good Q S.mach role
  mail : ∀ s, SeenOk (S.world role) (S.mail s)
  fine : Fine T good (S.world role)

/-- The conditions on the ends of the calls that an execution with the events `ok` needs. -/
structure Stable (ot ob : Orders) (T : Table) (levels : Nat) (ok : Event ι → Prop)
    (Q : ι → World ι → Know → Option (TreeCall × Word) → Prop) : Prop where
  rely : ∀ i w w' k a, Rely i w w' → WInv T ot.good w' → Q i w k a → Q i w' k a
  know : ∀ i w k k' a, k.le k' → Q i w k a → Q i w k' a
  begin : ∀ i c, ok (.begin i c) → ∀ w k a, Q i w k a → safe T ot.good i (c.run ot ob T levels) (Q i) w k

variable [DecidableEq ι] {ot ob : Orders} {levels : Nat}

theorem act_begin {S : Sys ι} {i : ι} (h : S.Idle i) (c : TreeCall) : S.act ot ob T levels (.begin i c) =
    { S with mach := { S.mach with pool := Function.update S.mach.pool i (c.run ot ob T levels) } } := by
  obtain ⟨r, hr⟩ := h
  simp only [Sys.act, hr]

theorem act_busy {S : Sys ι} {i : ι} (h : ¬ S.Idle i) (c : TreeCall) : S.act ot ob T levels (.begin i c) = S := by
  unfold Sys.act
  cases hp : S.mach.pool i with
  | ret r => exact (h ⟨r, hp⟩).elim
  | _ => simp only [hp]

theorem act_know (S : Sys ι) (e : Event ι) (a : ι ⊕ Nat) :
    (S.knowAt a).le ((S.act ot ob T levels e).knowAt a) := by
  cases e with
  | begin i c =>
    by_cases h : S.Idle i
    · rw [act_begin h c]; cases a <;> exact Know.le_refl _
    · rw [act_busy h c]; exact Know.le_refl _
  | step i n =>
    cases a with
    | inl j => exact step_know S.mach i j n
    | inr s => exact Know.le_refl _
  | send i s =>
    cases a with
    | inl j => exact Know.le_refl _
    | inr s' =>
      show (S.mail s').le (Function.update S.mail s _ s')
      by_cases hs : s' = s
      · subst hs; rw [Function.update_self]; exact Know.le_join_left ..
      · rw [Function.update_of_ne hs]; exact Know.le_refl _
  | recv i s =>
    cases a with
    | inl j =>
      show (S.mach.know j).le (Function.update S.mach.know i _ j)
      by_cases hj : j = i
      · subst hj; rw [Function.update_self]; exact Know.le_join_left ..
      · rw [Function.update_of_ne hj]; exact Know.le_refl _
    | inr s' => exact Know.le_refl _

variable {ok : Event ι → Prop} {Q : ι → World ι → Know → Option (TreeCall × Word) → Prop}

theorem SafeSys.act (hQ : Stable ot ob T levels ok Q) {S : Sys ι} {role : Nat → Option (Option ι × Role)}
    (h : SafeSys T ot.good Q S role) {e : Event ι} (he : ok e) :
    ∃ role', SafeSys T ot.good Q (S.act ot ob T levels e) role' ∧
      PubGrow (S.world role) ((S.act ot ob T levels e).world role') := by
  obtain ⟨hm, hmail, hfine⟩ := h
  cases e with
  | begin i c =>
    by_cases hi : S.Idle i
    · rw [act_begin hi c]
      obtain ⟨r, hr⟩ := hi
      refine ⟨role, ⟨⟨hm.1, fun j => ?_, hm.2.2⟩, hmail, hfine⟩, .rfl _⟩
      show safe T ot.good j (Function.update S.mach.pool i (c.run ot ob T levels) j) (Q j) (S.world role) (S.mach.know j)
      by_cases hj : j = i
      · subst hj
        rw [Function.update_self]
        have := hm.2.1 j
        rw [hr] at this
        exact hQ.begin j c he _ _ _ this
      · rw [Function.update_of_ne hj]
        exact hm.2.1 j
    · rw [act_busy hi c]
      exact ⟨role, ⟨hm, hmail, hfine⟩, .rfl _⟩
  | step i n =>
    obtain ⟨role', h1, h2, h3⟩ := hm.step hQ.rely i n
    exact ⟨role', ⟨h1, fun s => (hmail s).mono h3, hfine.mono h1.1 h2⟩, h2⟩
  | send i s =>
    refine ⟨role, ⟨hm, fun s' => ?_, hfine⟩, .rfl _⟩
    show SeenOk (S.world role) (Function.update S.mail s _ s')
    by_cases hs : s' = s
    · subst hs; rw [Function.update_self]; exact (hmail s').join (hm.2.2.1 i)
    · rw [Function.update_of_ne hs]; exact hmail s'
  | recv i s =>
    refine ⟨role, ⟨⟨hm.1, fun j => ?_, fun j => ?_, hm.2.2.2⟩, hmail, hfine⟩, .rfl _⟩
    · show safe T ot.good j (S.mach.pool j) (Q j) (S.world role) (Function.update S.mach.know i _ j)
      by_cases hj : j = i
      · subst hj; rw [Function.update_self]
        exact safe_know (hQ.know j) (hm.2.1 j) (Know.le_join_left ..)
      · rw [Function.update_of_ne hj]; exact hm.2.1 j
    · show SeenOk (S.world role) (Function.update S.mach.know i _ j)
      by_cases hj : j = i
      · subst hj; rw [Function.update_self]; exact (hm.2.2.1 j).join (hmail s)
      · rw [Function.update_of_ne hj]; exact hm.2.2.1 j

theorem run_append (S : Sys ι) (t u : List (Event ι)) :
    S.run ot ob T levels (t ++ u) = (S.run ot ob T levels t).run ot ob T levels u := List.foldl_append ..

theorem SafeSys.run (hQ : Stable ot ob T levels ok Q) : ∀ (t : List (Event ι)) {S : Sys ι}
    {role : Nat → Option (Option ι × Role)}, SafeSys T ot.good Q S role → (∀ e ∈ t, ok e) →
    ∃ role', SafeSys T ot.good Q (S.run ot ob T levels t) role' ∧
      PubGrow (S.world role) ((S.run ot ob T levels t).world role')
  | [], S, role, h, _ => ⟨role, h, .rfl _⟩
  | e :: t, S, role, h, ht => by
    obtain ⟨r1, h1, g1⟩ := h.act hQ (ht e (by simp))
    obtain ⟨r2, h2, g2⟩ := SafeSys.run hQ t h1 fun e he => ht e (by simp [he])
    exact ⟨r2, h2, g1.trans g2⟩

/-- What is known and lasts is handed on. -/
theorem SafeSys.carries (hQ : Stable ot ob T levels ok Q) {fact : World ι → Know → Prop}
    (hfact : ∀ w w' k k', Fine T ot.good w → PubGrow w w' → k.le k' → fact w k → fact w' k')
    {t : List (Event ι)} {a b : ι ⊕ Nat} (hc : Carries t a b) (ht : ∀ e ∈ t, ok e) {S : Sys ι}
    {role : Nat → Option (Option ι × Role)} (h : SafeSys T ot.good Q S role) (ha : fact (S.world role) (S.knowAt a)) :
    ∃ role', SafeSys T ot.good Q (S.run ot ob T levels t) role' ∧
      fact ((S.run ot ob T levels t).world role') ((S.run ot ob T levels t).knowAt b) := by
  -- one more event
  have more : ∀ {t : List (Event ι)} {e : Event ι} {b : ι ⊕ Nat}, ok e →
      (∃ role', SafeSys T ot.good Q (S.run ot ob T levels t) role' ∧
        fact ((S.run ot ob T levels t).world role') ((S.run ot ob T levels t).knowAt b)) →
      ∀ b', (((S.run ot ob T levels t).knowAt b).le ((S.run ot ob T levels (t ++ [e])).knowAt b')) →
      ∃ role', SafeSys T ot.good Q (S.run ot ob T levels (t ++ [e])) role' ∧
        fact ((S.run ot ob T levels (t ++ [e])).world role') ((S.run ot ob T levels (t ++ [e])).knowAt b') := by
    rintro t e b he ⟨r, h1, h2⟩ b' hle
    rw [run_append] at hle ⊢
    obtain ⟨r', h3, h4⟩ := h1.act hQ he
    exact ⟨r', h3, hfact _ _ _ _ h1.fine h4 hle h2⟩
  induction hc with
  | nil => exact ⟨role, h, ha⟩
  | keep e _ ih =>
    refine more (ht e (by simp)) (ih (fun e he => ht e (by simp [he])) ha) _ ?_
    rw [run_append]
    exact act_know _ _ _
  | @send t a i s _ ih =>
    refine more (ht _ (by simp)) (ih (fun e he => ht e (by simp [he])) ha) _ ?_
    rw [run_append]
    show ((S.run ot ob T levels t).mach.know i).le (Function.update (S.run ot ob T levels t).mail s
      (((S.run ot ob T levels t).mail s).join ((S.run ot ob T levels t).mach.know i)) s)
    rw [Function.update_self]
    exact Know.le_join_right ..
  | @recv t a s i _ ih =>
    refine more (ht _ (by simp)) (ih (fun e he => ht e (by simp [he])) ha) _ ?_
    rw [run_append]
    show ((S.run ot ob T levels t).mail s).le (Function.update (S.run ot ob T levels t).mach.know i
      (((S.run ot ob T levels t).mach.know i).join ((S.run ot ob T levels t).mail s)) i)
    rw [Function.update_self]
    exact Know.le_join_right ..

/-- What holds between the calls of a thread. -/
def Ready (ot : Orders) (T : Table) (_ : ι) (w : World ι) (k : Know) (r : Option (TreeCall × Word)) : Prop :=
  Fine T ot.good w ∧ (ot.good → (rootLoc, 0) ∈ k.before) ∧ ∀ c a, r = some (c, a) → Post T c w k a

/-- The calls set the bits that belong into the table. -/
def BitCalls (T : Table) (e : Event ι) : Prop := ∀ i c, e = .begin i c →
  T.ids c.id ∧ ∀ arr x b, c = .set arr x b → b < 32 ∧ T.bits x arr.word b

theorem Ready.step {w w' : World ι} {k k' : Know} {r : Option (TreeCall × Word)} {i : ι} (h : Ready ot T i w k r)
    (hi : WInv T ot.good w') (hw : PubGrow w w') (hk : k.le k') : Ready ot T i w' k' r :=
  ⟨h.1.mono hi hw, fun g => hk.1 _ (h.2.1 g), fun c a hr => (h.2.2 c a hr).mono h.1 hw hk⟩

theorem ready_stable (hT : T.Ok levels) : Stable (ι := ι) ot ob T levels (BitCalls T) (Ready ot T) where
  rely i w w' k a hw hi h := h.step hi hw.1 (Know.le_refl _)
  know i w k k' a hk h := h.step h.1.inv (.rfl _) hk
  begin i c hc w k r h := by
    obtain ⟨h1, h2⟩ := hc i c rfl
    refine call_safe hT h1 h2 h.1 h.2.1 ?_
    intro w' k' a hw hi hk hpost _
    refine ⟨h.1.mono hi hw, fun g => hk.1 _ (h.2.1 g), fun c' a' he => ?_⟩
    cases he
    exact hpost

/-- Thread `i` is in the call `c` that it began knowing `k0` in `w0`. -/
def During (ot : Orders) (T : Table) (i : ι) (c : TreeCall) (w0 : World ι) (k0 : Know) (j : ι) (w : World ι) (k : Know)
    (r : Option (TreeCall × Word)) : Prop :=
  Ready ot T j w k r ∧ (j = i → ∀ a, r = some (c, a) → Prior T c w0 k0 a)

theorem during_stable (hT : T.Ok levels) (i : ι) (c : TreeCall) (w0 : World ι) (k0 : Know) :
    Stable ot ob T levels (fun e => BitCalls T e ∧ ∀ d, e ≠ .begin i d) (During ot T i c w0 k0) where
  rely j w w' k a hw hi h := ⟨(ready_stable hT (ob := ob)).rely j w w' k a hw hi h.1, h.2⟩
  know j w k k' a hk h := ⟨(ready_stable hT (ob := ob)).know j w k k' a hk h.1, h.2⟩
  begin j d hd w k r h := by
    have hji : j ≠ i := fun hji => hd.2 d (by rw [hji])
    obtain ⟨h1, h2⟩ := hd.1 j d rfl
    refine call_safe hT h1 h2 h.1.1 h.1.2.1 ?_
    intro w' k' a hw hi hk hpost _
    refine ⟨⟨h.1.1.mono hi hw, fun g => hk.1 _ (h.1.2.1 g), fun c' a' he => ?_⟩, fun hj => (hji hj).elim⟩
    cases he
    exact hpost

theorem tree_start_safe (hpos : 0 < levels) : ∃ role, SafeSys T ot.good (Ready ot T) (treeStart ι) role := by
  let role : Nat → Option (Option ι × Role) := fun a => if a = 0 then some (none, .slice []) else none
  have hinv : WInv T ot.good ((treeStart ι).world role) := by
    refine ⟨fun a ha => ?_, fun a ow r ha => ?_, fun a r ha m hm => ?_, fun a ow f path ha => ?_⟩
    · have ha : 1 ≤ a := ha
      exact if_neg (by omega)
    · have ha' : (if a = 0 then some (none, Role.slice []) else none) = some (ow, r) := ha
      split at ha'
      · rename_i h0
        subst h0
        cases ha'
        exact .null trivial rfl rfl
      · cases ha'
    · have ha' : (if a = 0 then some (none, Role.slice []) else none) = some r := ha
      split at ha'
      · rename_i h0
        subst h0
        have hm : m ∈ [(⟨none, false, .none⟩ : Msg)] := hm
        rw [List.mem_singleton] at hm
        subst hm
        exact seenOk_none _
      · cases ha'
    · have ha' : (if a = 0 then some (none, Role.slice []) else none) = some (ow, .bits f path) := ha
      split at ha' <;> cases ha'
  refine ⟨role, ⟨hinv, fun i => ?_, fun i => ?_, fun _ => rfl⟩, fun s => seenOk_none _, ⟨hinv, rfl⟩⟩
  · exact ⟨⟨hinv, rfl⟩, fun _ => List.mem_cons_self .., fun c a h => by cases h⟩
  · intro x hx
    have hx : x ∈ [((0 : Nat), (0 : Nat))] := hx
    rw [List.mem_singleton] at hx
    subst hx
    exact ⟨Nat.zero_lt_one, fun _ _ => Nat.zero_lt_one⟩

theorem tree_safe (hT : T.Ok levels) {t : List (Event ι)} (ht : ∀ e ∈ t, BitCalls T e) :
    ∃ role, SafeSys T ot.good (Ready ot T) ((treeStart ι).run ot ob T levels t) role := by
  obtain ⟨r, h⟩ := tree_start_safe (ι := ι) (T := T) (ot := ot) hT.pos
  obtain ⟨r', h', _⟩ := h.run (ready_stable hT) t ht
  exact ⟨r', h'⟩

/-- From a fact that is handed to a thread to the answer of the call that it then begins. -/
theorem tree_prior (hT : T.Ok levels) {fact : World ι → Know → Prop}
    (hfact : ∀ w w' k k', Fine T ot.good w → PubGrow w w' → k.le k' → fact w k → fact w' k')
    {t1 t2 t3 : List (Event ι)} {i j : ι} {c1 c : TreeCall} {a1 a : Word}
    (h1 : ∀ e ∈ t1, BitCalls T e) (h2 : ∀ e ∈ t2, BitCalls T e) (h3 : ∀ e ∈ t3, BitCalls T e)
    (hc : BitCalls T (.begin i c))
    (ha : ((treeStart ι).run ot ob T levels t1).Answers j c1 a1)
    (hf : ∀ w k, Fine T ot.good w → Post T c1 w k a1 → fact w k)
    (hcar : Carries t2 (.inl j) (.inl i)) (hidle : ((treeStart ι).run ot ob T levels (t1 ++ t2)).Idle i)
    (hno : ∀ d, Event.begin i d ∉ t3)
    (hans : ((treeStart ι).run ot ob T levels (t1 ++ t2 ++ [.begin i c] ++ t3)).Answers i c a) :
    ∃ w k, Fine T ot.good w ∧ fact w k ∧ Prior T c w k a := by
  obtain ⟨r1, s1⟩ := tree_safe (ot := ot) (ob := ob) hT h1
  have hj := s1.mach.2.1 j
  rw [show ((treeStart ι).run ot ob T levels t1).mach.pool j = _ from ha] at hj
  have f1 := hf _ _ hj.1 (hj.2.2 c1 a1 rfl)
  obtain ⟨r2, s2, f2⟩ := s1.carries (ready_stable hT) hfact hcar h2 (by exact f1)
  rw [← run_append] at s2 f2
  rw [run_append, run_append] at hans
  generalize (treeStart ι).run ot ob T levels (t1 ++ t2) = S at s2 f2 hidle hans
  refine ⟨S.world r2, S.mach.know i, s2.fine, f2, ?_⟩
  change (Sys.run ot ob T levels (S.act ot ob T levels (.begin i c)) t3).Answers i c a at hans
  rw [act_begin hidle c] at hans
  have s3 : SafeSys T ot.good (During ot T i c (S.world r2) (S.mach.know i))
      { S with mach := { S.mach with pool := Function.update S.mach.pool i (c.run ot ob T levels) } } r2 := by
    refine ⟨⟨s2.mach.1, fun l => ?_, s2.mach.2.2⟩, s2.mail, s2.fine⟩
    show safe T ot.good l (Function.update S.mach.pool i (c.run ot ob T levels) l) _ (S.world r2) (S.mach.know l)
    by_cases hl : l = i
    · subst hl
      rw [Function.update_self]
      obtain ⟨r, hr⟩ := hidle
      have hrdy := s2.mach.2.1 l
      rw [hr] at hrdy
      obtain ⟨g1, g2⟩ := hc l c rfl
      refine call_safe hT g1 g2 s2.fine hrdy.2.1 ?_
      intro w' k' a' hw hi hk hpost hprior
      refine ⟨⟨s2.fine.mono hi hw, fun g => hk.1 _ (hrdy.2.1 g), fun c' a'' he => ?_⟩, fun _ a'' he => ?_⟩
      · cases he; exact hpost
      · cases he; exact hprior
    · rw [Function.update_of_ne hl]
      refine safe_post ?_ (s2.mach.2.1 l)
      intro w k r h
      exact ⟨h, fun h' => (hl h').elim⟩
  obtain ⟨r4, s4, _⟩ := s3.run (during_stable hT i c _ _) t3
    fun e he => ⟨h3 e he, fun d hd => hno d (hd ▸ he)⟩
  have := s4.mach.2.1 i
  rw [show Mach.pool _ i = _ from hans] at this
  exact this.2 rfl a rfl

/-! ## The bits of an execution -/

/-- The table with the bits that are set in an execution. -/
def withBits (T : Table) (t : List (Event ι)) : Table :=
  { T with bits := fun x f b => ∃ i arr, arr.word = f ∧ Event.begin i (.set arr x b) ∈ t }

omit [DecidableEq ι] in
theorem withBits_ok {t : List (Event ι)} (hT : T.Ok levels) : (withBits T t).Ok levels := ⟨hT.pos, hT.lt, hT.inj⟩

omit [DecidableEq ι] in
theorem find_bits (o : Orders) (t : List (Event ι)) (x fuel lvl s : Nat) :
    find o (withBits T t) x fuel lvl s = find o T x fuel lvl s := by
  induction fuel generalizing lvl s with
  | zero => rfl
  | succ fuel ih => simp only [find, ih]; rfl

omit [DecidableEq ι] in
theorem findOrInit_bits (o : Orders) (t : List (Event ι)) (x fuel lvl s : Nat) :
    findOrInit o (withBits T t) x fuel lvl s = findOrInit o T x fuel lvl s := by
  induction fuel generalizing lvl s with
  | zero => rfl
  | succ fuel ih => simp only [findOrInit, ih]; rfl

omit [DecidableEq ι] in
theorem call_bits (t : List (Event ι)) (c : TreeCall) :
    c.run ot ob (withBits T t) levels = c.run ot ob T levels := by
  match c with
  | .table (.find x) => simp only [TreeCall.run, TreeCall.prog, TableCall.prog, find_bits]
  | .table (.findOrInit x) => simp only [TreeCall.run, TreeCall.prog, TableCall.prog, findOrInit_bits]
  | .set arr x b => simp only [TreeCall.run, TreeCall.prog, findOrInit_bits]
  | .test arr x b => simp only [TreeCall.run, TreeCall.prog, find_bits]

theorem run_bits (S : Sys ι) (t u : List (Event ι)) :
    S.run ot ob (withBits T t) levels u = S.run ot ob T levels u := by
  have : Sys.act (ι := ι) ot ob (withBits T t) levels = Sys.act ot ob T levels := by
    funext S e
    cases e <;> simp only [Sys.act, call_bits]
  simp only [Sys.run, this]

omit [DecidableEq ι] in
theorem withBits_calls {t : List (Event ι)} (h : OwnCalls T t) : ∀ e ∈ t, BitCalls (withBits T t) e := by
  rintro e he i c rfl
  refine ⟨(h i c he).1, fun arr x b hc => ⟨(h i c he).2 arr x b hc, i, arr, rfl, ?_⟩⟩
  rw [← hc]
  exact he

theorem own_safe (hT : T.Ok levels) {t : List (Event ι)} (ht : OwnCalls T t) :
    ∃ role, SafeSys (withBits T t) ot.good (Ready ot (withBits T t)) ((treeStart ι).run ot ob T levels t) role := by
  have := tree_safe (ot := ot) (ob := ob) (withBits_ok hT) (withBits_calls ht)
  rwa [run_bits] at this

/-- `tree_prior` for the bits of an execution. -/
theorem own_prior (hT : T.Ok levels) {t1 t2 t3 : List (Event ι)} {i j : ι} {c1 c : TreeCall} {a1 a : Word}
    {fact : World ι → Know → Prop}
    (hfact : ∀ w w' k k', Fine (withBits T (t1 ++ t2 ++ [.begin i c] ++ t3)) ot.good w → PubGrow w w' → k.le k' →
      fact w k → fact w' k')
    (ht : OwnCalls T (t1 ++ t2 ++ [.begin i c] ++ t3))
    (ha : ((treeStart ι).run ot ob T levels t1).Answers j c1 a1)
    (hf : ∀ w k, Fine (withBits T (t1 ++ t2 ++ [.begin i c] ++ t3)) ot.good w →
      Post (withBits T (t1 ++ t2 ++ [.begin i c] ++ t3)) c1 w k a1 → fact w k)
    (hcar : Carries t2 (.inl j) (.inl i)) (hidle : ((treeStart ι).run ot ob T levels (t1 ++ t2)).Idle i)
    (hno : ∀ d, Event.begin i d ∉ t3)
    (hans : ((treeStart ι).run ot ob T levels (t1 ++ t2 ++ [.begin i c] ++ t3)).Answers i c a) :
    ∃ w k, Fine (withBits T (t1 ++ t2 ++ [.begin i c] ++ t3)) ot.good w ∧ fact w k ∧
      Prior (withBits T (t1 ++ t2 ++ [.begin i c] ++ t3)) c w k a := by
  have hb := withBits_calls ht
  refine tree_prior (ot := ot) (ob := ob) (withBits_ok hT) hfact (t1 := t1) (t2 := t2) (t3 := t3) (i := i) (j := j)
    (c1 := c1) (a1 := a1)
    (fun e he => hb e (by simp [he])) (fun e he => hb e (by simp [he])) (fun e he => hb e (by simp [he]))
    (hb _ (by simp)) (by rwa [run_bits]) hf hcar (by rwa [run_bits]) hno (by rwa [run_bits])

/-! ## Steps -/

omit [DecidableEq ι] in
theorem within_casBits (o : Orders) (a b : Nat) : ∀ fuel cur, within (casBits o a b fuel cur) fuel
  | 0, _ => trivial
  | fuel + 1, cur => by
    refine ⟨fuel, rfl, fun r => ?_⟩
    match r with
    | .ok _ => trivial
    | .error none => trivial
    | .error (some u) => exact within_casBits o a b fuel u

theorem within_setBit (o : Orders) (arr : Arr) (p b : Nat) : within (setBit o arr p b) 35 := by
  refine ⟨34, rfl, fun v => ?_⟩
  cases v with
  | none => trivial
  | some cur =>
    cases arr with
    | pfx =>
      show within (if cur.testBit b = true then WProg.ret (some 1) else casBits o (p + Arr.pfx.word) b 33 cur) 34
      split
      · trivial
      · exact within_mono (within_casBits ..) (by omega)
    | ptr =>
      refine ⟨33, rfl, fun v => ?_⟩
      cases v with
      | none => trivial
      | some again =>
        show within (if again.testBit b = true then WProg.ret (some 1) else casBits o (p + Arr.ptr.word) b 33 cur) 33
        split
        · trivial
        · exact within_casBits ..

theorem within_call (T : Table) (c : TreeCall) : within (c.run ot ob T levels) (11 * levels + 35) := by
  refine within_mono (m := 11 * levels + 35 + 0) (within_bind (n := 0) ?_ fun a => trivial) (by omega)
  match c with
  | .table (.find x) => exact within_mono (within_find ..) (by omega)
  | .table (.findOrInit x) => exact within_mono (within_findOrInit ..) (by omega)
  | .set arr x b =>
    refine within_bind (within_findOrInit ..) fun v => ?_
    cases v with
    | none => trivial
    | some p => exact within_setBit ..
  | .test arr x b =>
    refine within_bind (within_find ..) fun v => ?_
    cases v with
    | none => trivial
    | some p =>
      refine ⟨34, rfl, fun v => ?_⟩
      cases v <;> trivial

theorem run_within {i : ι} : ∀ (t : List (Event ι)) {S : Sys ι} {m : Nat}, within (S.mach.pool i) m →
    (∀ d, Event.begin i d ∉ t) → within ((S.run ot ob T levels t).mach.pool i) (m - steps i t)
  | [], _, _, h, _ => h
  | e :: t, S, m, h, hno => by
    have hno' : ∀ d, Event.begin i d ∉ t := fun d hd => hno d (List.mem_cons_of_mem _ hd)
    show within (((S.act ot ob T levels e).run ot ob T levels t).mach.pool i) _
    cases e with
    | begin j c =>
      have hji : i ≠ j := fun h => hno c (by rw [h]; exact List.mem_cons_self ..)
      refine run_within t ?_ hno'
      by_cases hi : S.Idle j
      · rw [act_begin hi c]
        show within (Function.update S.mach.pool j _ i) m
        rw [Function.update_of_ne hji]
        exact h
      · rw [act_busy hi c]; exact h
    | step j n =>
      by_cases hj : j = i
      · subst hj
        have : steps j (Event.step j n :: t) = steps j t + 1 := by simp [steps]
        rw [this, Nat.add_comm, ← Nat.sub_sub]
        exact run_within t (step_within h) hno'
      · have : steps i (Event.step j n :: t) = steps i t := by simp [steps, hj]
        rw [this]
        refine run_within t ?_ hno'
        show within ((S.mach.step j n).pool i) m
        rw [step_other (Ne.symm hj)]
        exact h
    | send j s => exact run_within t h hno'
    | recv j s => exact run_within t h hno'

end

end Rotonda.Weak
