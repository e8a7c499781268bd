import Verif.Proofs.Weak

/-!
# What the calls of the chained hash table do under weak memory
-/

namespace Rotonda.Weak

/-- The orderings that make the table free of races. -/
def Orders.good (o : Orders) : Prop :=
  o.load.acquires = true ∧ o.ok.releases = true ∧ o.err.acquires = true

/-- The hash function stays inside of the buckets, and `levels` levels tell all ids
apart. -/
structure Table.Ok (T : Table) (levels : Nat) : Prop where
  pos : 0 < levels
  lt : ∀ x, T.ids x → ∀ l < levels, T.hash x l < T.size l
  inj : ∀ x y, T.ids x → T.ids y → (∀ l < levels, T.hash x l = T.hash y l) → x = y

section
variable {ι : Type} {T : Table} {x : Nat}

/-- The entry of `x` is `p`, from the bucket `s` of level `lvl` on, along pointers in
`S`. -/
inductive Found (T : Table) (x : Nat) (w : World ι) (S : Nat → Prop) : Nat → Nat → Nat → Prop
  | here {lvl s b p : Nat} : T.hash x lvl < T.size lvl → S s → Points w s b → S (b + T.hash x lvl) → Points w (b + T.hash x lvl) p →
      Val w p (some x) → Found T x w S lvl s p
  | next {lvl s b q y p : Nat} : T.hash x lvl < T.size lvl → S s → Points w s b → S (b + T.hash x lvl) →
      Points w (b + T.hash x lvl) q → Val w q (some y) → y ≠ x → Found T x w S (lvl + 1) (q + 1) p →
      Found T x w S lvl s p

def path (T : Table) (x lvl : Nat) : List Nat := (List.range lvl).map (T.hash x)

@[simp] theorem path_length (lvl : Nat) : (path T x lvl).length = lvl := by simp [path]

theorem path_succ (lvl : Nat) : path T x lvl ++ [T.hash x lvl] = path T x (lvl + 1) := by
  simp [path, List.range_succ]

/-- The bucket at level `lvl` on the way to `x`. -/
def Bucket (T : Table) (x : Nat) (w : World ι) (lvl s : Nat) : Prop :=
  w.role s = some (none, .slice (path T x lvl))

theorem Bucket.mono {w w' : World ι} {lvl s : Nat} (h : Bucket T x w lvl s) (hw : PubGrow w w') :
    Bucket T x w' lvl s := (hw _ _ h).1

theorem slot_role {w : World ι} {lvl b : Nat} (hlt : T.hash x lvl < T.size lvl)
    (h : PubBlock T w (.slice (path T x lvl)) b) :
    w.role (b + T.hash x lvl) = some (none, .box (path T x (lvl + 1))) := by
  refine h _ _ ?_
  simp [layout, hlt, path_succ]

theorem entry_role {w : World ι} {lvl p : Nat} (h : PubBlock T w (.box (path T x lvl)) p) :
    w.role p = some (none, .content (path T x lvl)) ∧ Bucket T x w lvl (p + 1) :=
  ⟨h 0 _ rfl, h 1 _ rfl⟩

section
variable {good : Prop}

theorem walk_roles {w : World ι} {lvl s b q : Nat} (hlt : T.hash x lvl < T.size lvl) (h : WInv T good w) (hs : Bucket T x w lvl s)
    (hb : Points w s b) (hq : Points w (b + T.hash x lvl) q) :
    w.role (b + T.hash x lvl) = some (none, .box (path T x (lvl + 1))) ∧
    w.role q = some (none, .content (path T x (lvl + 1))) ∧ Bucket T x w (lvl + 1) (q + 1) := by
  have h1 := slot_role hlt (h.points hs trivial hb).1
  exact ⟨h1, entry_role (h.points h1 trivial hq).1⟩

theorem Found.mono {w w' : World ι} (h : WInv T good w) {S S' : Nat → Prop} {lvl s p : Nat}
    (hf : Found T x w S lvl s p) (hs : Bucket T x w lvl s) (hw : PubGrow w w') (hS : ∀ a, S a → S' a) :
    Found T x w' S' lvl s p := by
  induction hf with
  | here h0 h1 h2 h3 h4 h5 =>
    obtain ⟨r1, r2, r3⟩ := walk_roles h0 h hs h2 h4
    exact .here h0 (hS _ h1) (h2.mono hs hw) (hS _ h3) (h4.mono r1 hw) (h5.mono r2 hw)
  | next h0 h1 h2 h3 h4 h5 h6 _ ih =>
    obtain ⟨r1, r2, r3⟩ := walk_roles h0 h hs h2 h4
    exact .next h0 (hS _ h1) (h2.mono hs hw) (hS _ h3) (h4.mono r1 hw) (h5.mono r2 hw) h6 (ih r3)

/-- An id has one entry. -/
theorem Found.unique {w : World ι} (h : WInv T good w) {S S' : Nat → Prop} {lvl s p p' : Nat}
    (hf : Found T x w S lvl s p) (hf' : Found T x w S' lvl s p') (hs : Bucket T x w lvl s) : p = p' := by
  induction hf with
  | here h0 h1 h2 h3 h4 h5 =>
    cases hf' with
    | here g0 g1 g2 g3 g4 g5 =>
      cases (h.points hs trivial h2).2 _ g2
      obtain ⟨r1, r2, r3⟩ := walk_roles h0 h hs h2 h4
      exact ((h.points r1 trivial h4).2 _ g4).symm
    | next g0 g1 g2 g3 g4 g5 g6 g7 =>
      cases (h.points hs trivial h2).2 _ g2
      obtain ⟨r1, r2, r3⟩ := walk_roles h0 h hs h2 h4
      cases (h.points r1 trivial h4).2 _ g4
      cases (h.val r2 h5 g5).1
      exact (g6 rfl).elim
  | next h0 h1 h2 h3 h4 h5 h6 h7 ih =>
    cases hf' with
    | here g0 g1 g2 g3 g4 g5 =>
      cases (h.points hs trivial h2).2 _ g2
      obtain ⟨r1, r2, r3⟩ := walk_roles h0 h hs h2 h4
      cases (h.points r1 trivial h4).2 _ g4
      cases (h.val r2 h5 g5).1
      exact (h6 rfl).elim
    | next g0 g1 g2 g3 g4 g5 g6 g7 =>
      cases (h.points hs trivial h2).2 _ g2
      obtain ⟨r1, r2, r3⟩ := walk_roles h0 h hs h2 h4
      cases (h.points r1 trivial h4).2 _ g4
      exact ih g7 r3

/-- The entry has the id. -/
theorem Found.entry {w : World ι} (h : WInv T good w) {S : Nat → Prop} {lvl s p : Nat}
    (hf : Found T x w S lvl s p) (hs : Bucket T x w lvl s) :
    Val w p (some x) ∧ ∃ n, PubBlock T w (.box (path T x n)) p := by
  induction hf with
  | here h0 h1 h2 h3 h4 h5 => exact ⟨h5, _, (h.points (walk_roles h0 h hs h2 h4).1 trivial h4).1⟩
  | next h0 h1 h2 h3 h4 h5 h6 h7 ih => exact ih (walk_roles h0 h hs h2 h4).2.2

end

/-! ## The calls -/

section calls
variable {o : Orders} {i : ι}

def sees (k : Know) : Nat → Prop := fun a => (a, 1) ∈ k.seen

theorem ptrGetOrInit_safe {r : Role} {b : Nat} {ws : List Word} {Q : World ι → Know → Nat → Prop}
    {w : World ι} {k : Know} (hr : r.isPtr) (hb : w.role b = some (none, r))
    (hk : o.good → (b, 0) ∈ k.before) (hlen : (layout T r).length = ws.length)
    (hws : ∀ (j : Nat) (r' : Role), (layout T r)[j]? = some r' → ∃ v, ws[j]? = some v ∧
        ((r'.isPtr ∧ v = none) ∨ (∃ path, r' = Role.content path ∧ Fits T path v) ∨
          ∃ f path, r' = Role.bits f path ∧ v = some 0))
    (hQ : ∀ w' k' p, PubGrow w w' → WInv T o.good w' → k.le k' → Points w' b p → PubBlock T w' r p →
      (o.good → Knows k' p (layout T r).length) → sees k' b → Q w' k' p) :
    safe T o.good i (ptrGetOrInit o b ws) Q w k := by
  refine .inl ⟨r, hr, hb, fun g => ⟨hk g, g.1⟩, fun w1 hw1 hi1 k1 hk1 => ⟨fun _ => ?_, fun p hp hpb hkn hs => ?_⟩⟩
  · refine ⟨layout T r, hlen, hws, fun w2 hw2 hi2 => ?_⟩
    have hb2 : w2.role b = some (none, r) := (hw2.1 _ _ (hw1.1 _ _ hb).1).1
    have hal : Rely i w2 (w2.alloc i ws (layout T r)) := alloc_rely hi2 i i
    have hk2 : k1.le (k1.block w2.top ws.length) := Know.le_block ..
    have hkb : Knows (k1.block w2.top ws.length) w2.top (layout T r).length := by
      rw [hlen]; exact knows_block _ _ _
    have hpriv : PrivBlock T (w2.alloc i ws (layout T r)) i r w2.top := by
      intro j x hx
      have hj : j < (layout T r).length := (List.getElem?_eq_some_iff.1 hx).1
      have hc : w2.top ≤ w2.top + j ∧ w2.top + j < w2.top + ws.length := by omega
      have : (w2.alloc i ws (layout T r)).role (w2.top + j) =
          ((layout T r)[w2.top + j - w2.top]?).map fun r => (some i, r) := if_pos hc
      rw [this, Nat.add_sub_cancel_left, hx]; rfl
    refine .inl ⟨rfl, r, w2.top, hr, rfl, (hal.1 _ _ hb2).1, hpriv, hkb,
      fun g => ⟨hk2.1 _ (hk1.1 _ (hk g)), g.2.1, g.2.2⟩, fun w3 hw3 hi3 k3 hk3 hs3 => ⟨?_, ?_⟩⟩
    · intro w4 hw4 hi4 hp4 hb4
      exact hQ w4 k3 _ (hw1.1.trans (hw2.1.trans (hal.1.trans (hw3.1.trans hw4)))) hi4
        (Know.le_trans hk1 (Know.le_trans hk2 hk3)) hp4 hb4 (fun _ => hkb.mono hk3) hs3
    · intro q hq hqb hkq
      have hpriv3 := hpriv.mono hw3
      refine ⟨fun j hj => ?_, hlen ▸ hkb.mono hk3, fun w4 hw4 hi4 w5 hw5 hi5 => ?_⟩
      · exact ⟨_, hpriv3 j _ (List.getElem?_eq_getElem (by omega))⟩
      · have hb3 := (hw3.1 _ _ (hal.1 _ _ hb2).1).1
        exact hQ w5 k3 _ (hw1.1.trans (hw2.1.trans (hal.1.trans (hw3.1.trans (hw4.1.trans hw5))))) hi5
          (Know.le_trans hk1 (Know.le_trans hk2 hk3)) (hq.mono hb3 (hw4.1.trans hw5)) (hqb.mono (hw4.1.trans hw5)) hkq hs3
  · exact hQ w1 k1 p hw1.1 hi1 hk1 hp hpb hkn hs

theorem sliceGet_safe {Q : World ι → Know → Word → Prop} {w : World ι} {k : Know} {lvl s : Nat}
    (hin : T.hash x lvl < T.size lvl) (hs : Bucket T x w lvl s) (hk : o.good → (s, 0) ∈ k.before)
    (hnone : ∀ w' k', PubGrow w w' → WInv T o.good w' → k.le k' →
      (sees k s → ∀ b, Points w' s b → ¬ sees k (b + T.hash x lvl)) → Q w' k' none)
    (hsome : ∀ w' k' b p, PubGrow w w' → WInv T o.good w' → k.le k' → sees k' s → Points w' s b →
      sees k' (b + T.hash x lvl) → Points w' (b + T.hash x lvl) p →
      PubBlock T w' (.box (path T x (lvl + 1))) p → (o.good → Knows k' p 4) → Q w' k' (some p)) :
    safe T o.good i (sliceGet o s (T.size lvl) (T.hash x lvl)) Q w k := by
  refine .inl ⟨.slice (path T x lvl), trivial, hs, fun g => ⟨hk g, g.1⟩, fun w1 hw1 hi1 k1 hk1 => ⟨fun hn => ?_, fun b hb hbb hkn hse => ?_⟩⟩
  · exact hnone w1 k1 hw1.1 hi1 hk1 fun h => (hn h).elim
  · have hsr := slot_role hin hbb
    have hs1 := hs.mono hw1.1
    show safe T o.good i (if _ then boxGet o _ else _) Q w1 k1
    rw [if_pos hin]
    have hlen : (layout T (.slice (path T x lvl))).length = T.size lvl := by simp [layout]
    refine .inl ⟨.box (path T x (lvl + 1)), trivial, hsr, fun g => ⟨hkn g _ (by rw [hlen]; exact hin), g.1⟩,
      fun w2 hw2 hi2 k2 hk2 => ⟨fun hn => ?_, fun p hp hpb hkp hsp => ?_⟩⟩
    · refine hnone w2 k2 (hw1.1.trans hw2.1) hi2 (Know.le_trans hk1 hk2) fun _ b' hb' hse' => hn ?_
      cases (hi2.points (hs1.mono hw2.1) trivial (hb.mono hs1 hw2.1)).2 _ hb'
      exact hk1.2 _ hse'
    · exact hsome w2 k2 b p (hw1.1.trans hw2.1) hi2 (Know.le_trans hk1 hk2) (hk2.2 _ hse)
        (hb.mono hs1 hw2.1) hsp hp hpb hkp

theorem sliceGetOrInit_safe (hx : T.ids x) {Q : World ι → Know → Nat → Prop} {w : World ι} {k : Know} {lvl s : Nat}
    (hin : T.hash x lvl < T.size lvl) (hs : Bucket T x w lvl s) (hk : o.good → (s, 0) ∈ k.before)
    (hsome : ∀ w' k' b p, PubGrow w w' → WInv T o.good w' → k.le k' → sees k' s → Points w' s b →
      sees k' (b + T.hash x lvl) → Points w' (b + T.hash x lvl) p →
      PubBlock T w' (.box (path T x (lvl + 1))) p → (o.good → Knows k' p 4) → Q w' k' p) :
    safe T o.good i (sliceGetOrInit o s (T.size lvl) (T.hash x lvl) (newEntry x)) Q w k := by
  have hlen : (layout T (.slice (path T x lvl))).length = T.size lvl := by simp [layout]
  refine safe_bind (ptrGetOrInit o s _) (ptrGetOrInit_safe (r := .slice (path T x lvl)) trivial hs hk
    (by rw [hlen, List.length_replicate]) ?_ ?_)
  · intro j r' hj
    obtain ⟨hjl, hjr⟩ := List.getElem?_eq_some_iff.1 hj
    refine ⟨none, ?_, .inl ⟨?_, rfl⟩⟩
    · rw [List.getElem?_replicate, if_pos (by rwa [hlen] at hjl)]
    · rw [← hjr]; simp [layout, Role.isPtr]
  · intro w1 k1 b hw1 hi1 hk1 hb hbb hkn hse
    have hsr := slot_role hin hbb
    have hs1 := hs.mono hw1
    show safe T o.good i (if _ then ptrGetOrInit o _ _ else _) Q w1 k1
    rw [if_pos hin]
    refine ptrGetOrInit_safe (r := .box (path T x (lvl + 1))) trivial hsr (fun g => hkn g _ (by rw [hlen]; exact hin)) rfl ?_ ?_
    · intro j r' hj
      match j, hj with
      | 0, hj =>
        cases hj
        exact ⟨some x, rfl, .inr (.inl ⟨_, rfl, x, rfl, hx, by rw [path_length]; rfl⟩)⟩
      | 1, hj =>
        cases hj
        exact ⟨none, rfl, .inl ⟨trivial, rfl⟩⟩
      | 2, hj =>
        cases hj
        exact ⟨some 0, rfl, .inr (.inr ⟨_, _, rfl, rfl⟩)⟩
      | 3, hj =>
        cases hj
        exact ⟨some 0, rfl, .inr (.inr ⟨_, _, rfl, rfl⟩)⟩
    · intro w2 k2 p hw2 hi2 hk2 hp hpb hkp hsp
      exact hsome w2 k2 b p (hw1.trans hw2) hi2 (Know.le_trans hk1 hk2) (hk2.2 _ hse)
        (hb.mono hs1 hw2) hsp hp hpb hkp

/-- Another id in an entry on the way to `x` means that there are more levels. -/
theorem more_levels {levels lvl y : Nat} (hT : T.Ok levels) (hf : Fits T (path T x (lvl + 1)) (some y))
    (hx : T.ids x) (hne : y ≠ x) (hl : lvl < levels) : lvl + 1 < levels := by
  obtain ⟨z, hz, hi, hp⟩ := hf
  cases hz
  by_contra hn
  have he : lvl + 1 = levels := by omega
  refine hne (hT.inj y x hi hx fun l hl' => ?_)
  rw [path_length, path, List.map_inj_left] at hp
  exact (hp l (List.mem_range.2 (by omega))).symm

theorem find_safe {levels : Nat} (hT : T.Ok levels) (hx : T.ids x) {Q : World ι → Know → Word → Prop} (fuel : Nat)
    {w : World ι} {k : Know} {lvl s : Nat} (hfuel : fuel + lvl = levels) (hlvl : lvl < levels)
    (hs : Bucket T x w lvl s) (hk : o.good → (s, 0) ∈ k.before)
    (hQ : ∀ w' k' a, PubGrow w w' → WInv T o.good w' → k.le k' →
      (∀ p, a = some p → Found T x w' (sees k') lvl s p ∧ (o.good → Knows k' p 4)) →
      (a = none → ∀ p, ¬ Found T x w' (sees k) lvl s p) → Q w' k' a) :
    safe T o.good i (find o T x fuel lvl s) Q w k := by
  induction fuel generalizing w k lvl s with
  | zero => omega
  | succ fuel ih =>
    have hin := hT.lt x hx lvl hlvl
    refine safe_bind (sliceGet o s (T.size lvl) (T.hash x lvl)) (sliceGet_safe hin hs hk ?_ ?_)
    · intro w1 k1 hw1 hi1 hk1 hn
      refine hQ w1 k1 none hw1 hi1 hk1 (by intro p hp; cases hp) fun _ p hf => ?_
      cases hf with
      | here h0 h1 h2 h3 => exact hn h1 _ h2 h3
      | next h0 h1 h2 h3 => exact hn h1 _ h2 h3
    · intro w1 k1 b q hw1 hi1 hk1 hss hb hsq hq hqb hkq
      obtain ⟨hc, hb1⟩ := entry_role hqb
      refine ⟨⟨_, hc⟩, fun g => hkq g 0 (by omega), fun w2 hw2 hi2 v hv => ?_⟩
      have hs2 := (hs.mono hw1).mono hw2.1
      have hb2 := hb.mono (hs.mono hw1) hw2.1
      have hq2 := hq.mono (slot_role hin (hi1.points (hs.mono hw1) trivial hb).1) hw2.1
      obtain ⟨r1, r2, r3⟩ := walk_roles hin hi2 hs2 hb2 hq2
      show safe T o.good i (if v = some x then _ else _) Q w2 k1
      split
      · rename_i hv'
        subst hv'
        refine hQ w2 k1 (some q) (hw1.trans hw2.1) hi2 hk1 (fun p hp => ?_) (by intro h; cases h)
        cases hp
        exact ⟨.here hin hss hb2 hsq hq2 hv, hkq⟩
      · rename_i hne
        obtain ⟨y, rfl, hyi, hy⟩ := (hi2.val r2 hv hv).2
        have hyx : y ≠ x := fun h => hne (by rw [h])
        refine ih (by omega) (more_levels hT ⟨y, rfl, hyi, hy⟩ hx hyx hlvl) r3 (fun g => hkq g 1 (by omega)) ?_
        intro w3 k3 a hw3 hi3 hk3 hsome hnone
        have hs3 := hs2.mono hw3
        have hb3 := hb2.mono hs2 hw3
        have hq3 := hq2.mono r1 hw3
        have hv3 := hv.mono r2 hw3
        obtain ⟨t1, t2, t3⟩ := walk_roles hin hi3 hs3 hb3 hq3
        refine hQ w3 k3 a (hw1.trans (hw2.1.trans hw3)) hi3 (Know.le_trans hk1 hk3) (fun p hp => ?_) ?_
        · exact ⟨.next hin (hk3.2 _ hss) hb3 (hk3.2 _ hsq) hq3 hv3 hyx (hsome p hp).1, (hsome p hp).2⟩
        · intro ha p hf
          cases hf with
          | here g0 g1 g2 g3 g4 g5 =>
            cases (hi3.points hs3 trivial hb3).2 _ g2
            cases (hi3.points t1 trivial hq3).2 _ g4
            cases (hi3.val t2 hv3 g5).1
            exact hyx rfl
          | next g0 g1 g2 g3 g4 g5 g6 g7 =>
            cases (hi3.points hs3 trivial hb3).2 _ g2
            cases (hi3.points t1 trivial hq3).2 _ g4
            exact hnone ha p (g7.mono hi3 t3 (.rfl _) fun a ha => hk1.2 _ ha)

theorem findOrInit_safe {levels : Nat} (hT : T.Ok levels) (hx : T.ids x) {Q : World ι → Know → Word → Prop} (fuel : Nat)
    {w : World ι} {k : Know} {lvl s : Nat} (hfuel : fuel + lvl = levels) (hlvl : lvl < levels)
    (hs : Bucket T x w lvl s) (hk : o.good → (s, 0) ∈ k.before)
    (hQ : ∀ w' k' p, PubGrow w w' → WInv T o.good w' → k.le k' →
      Found T x w' (sees k') lvl s p → (o.good → Knows k' p 4) → Q w' k' (some p)) :
    safe T o.good i (findOrInit o T x fuel lvl s) Q w k := by
  induction fuel generalizing w k lvl s with
  | zero => omega
  | succ fuel ih =>
    have hin := hT.lt x hx lvl hlvl
    refine safe_bind _ ?_
    have main : ∀ w1 k1 b q, PubGrow w w1 → WInv T o.good w1 → k.le k1 → sees k1 s → Points w1 s b →
        sees k1 (b + T.hash x lvl) → Points w1 (b + T.hash x lvl) q →
        PubBlock T w1 (.box (path T x (lvl + 1))) q → (o.good → Knows k1 q 4) →
        safe T o.good i (do
          let y ← WProg.plain q .ret
          if y = some x then return some q else findOrInit o T x fuel (lvl + 1) (q + 1)) Q w1 k1 := by
      intro w1 k1 b q hw1 hi1 hk1 hss hb hsq hq hqb hkq
      obtain ⟨hc, hb1⟩ := entry_role hqb
      refine ⟨⟨_, hc⟩, fun g => hkq g 0 (by omega), fun w2 hw2 hi2 v hv => ?_⟩
      have hs2 := (hs.mono hw1).mono hw2.1
      have hb2 := hb.mono (hs.mono hw1) hw2.1
      have hq2 := hq.mono (slot_role hin (hi1.points (hs.mono hw1) trivial hb).1) hw2.1
      obtain ⟨r1, r2, r3⟩ := walk_roles hin hi2 hs2 hb2 hq2
      show safe T o.good i (if v = some x then _ else _) Q w2 k1
      split
      · rename_i hv'
        subst hv'
        exact hQ w2 k1 q (hw1.trans hw2.1) hi2 hk1 (.here hin hss hb2 hsq hq2 hv) hkq
      · rename_i hne
        obtain ⟨y, rfl, hyi, hy⟩ := (hi2.val r2 hv hv).2
        have hyx : y ≠ x := fun h => hne (by rw [h])
        refine ih (by omega) (more_levels hT ⟨y, rfl, hyi, hy⟩ hx hyx hlvl) r3 (fun g => hkq g 1 (by omega)) ?_
        intro w3 k3 p hw3 hi3 hk3 hf hkf
        exact hQ w3 k3 p (hw1.trans (hw2.1.trans hw3)) hi3 (Know.le_trans hk1 hk3)
          (.next hin (hk3.2 _ hss) (hb2.mono hs2 hw3) (hk3.2 _ hsq) (hq2.mono r1 hw3) (hv.mono r2 hw3) hyx hf) hkf
    refine sliceGet_safe hin hs hk ?_ main
    intro w1 k1 hw1 hi1 hk1 _
    refine safe_bind (sliceGetOrInit o s (T.size lvl) (T.hash x lvl) (newEntry x)) ?_
    refine sliceGetOrInit_safe hx hin (hs.mono hw1) (fun g => hk1.1 _ (hk g)) ?_
    intro w2 k2 b q hw2 hi2 hk2
    exact main w2 k2 b q (hw1.trans hw2) hi2 (Know.le_trans hk1 hk2)

end calls
end

end Rotonda.Weak
