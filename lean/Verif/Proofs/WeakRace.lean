import Verif.Proofs.WeakTable

/-!
# Schedules that race
-/

namespace Rotonda.Weak

variable {ι α : Type} [DecidableEq ι] {c : Mach ι α} {i : ι}

theorem choose_single {k : Know} {a n : Nat} {m : Msg} : choose k a [m] n = 0 := by
  have : choose k a [m] n < 1 := choose_lt (by simp)
  omega

theorem step_load {a n : Nat} {o : MemOrd} {f : Word → WProg α} (h : c.pool i = .load a o f) {m : Msg}
    {n' : Nat} (hn : choose (c.know i) a (c.mem a) n = n') (hm : (c.mem a).getD n' ⟨none, false, .none⟩ = m) :
    (c.step i n).mem = c.mem ∧ (c.step i n).top = c.top ∧
    (c.step i n).know = Function.update c.know i (learn (c.know i) o a n' m) ∧
    (c.step i n).pool = Function.update c.pool i (f m.val) := by
  obtain ⟨m1, m2, m3, m4⟩ := access_mem c i false a
  unfold Mach.step
  rw [h]
  dsimp only
  rw [hn, hm]
  exact ⟨m1, m2, rfl, rfl⟩

theorem step_alloc {n : Nat} {ws : List Word} {f : Nat → WProg α} (h : c.pool i = .alloc ws f) :
    (c.step i n).mem = initBlock c.mem c.top ws ∧ (c.step i n).top = c.top + ws.length + 1 ∧
    (c.step i n).know = Function.update c.know i ((c.know i).block c.top ws.length) ∧
    (c.step i n).pool = Function.update c.pool i (f c.top) := by
  unfold Mach.step
  rw [h]
  exact ⟨rfl, rfl, rfl, rfl⟩

theorem step_cas_ok {a n : Nat} {new : Word} {ok err : MemOrd} {f : Except Word Word → WProg α}
    (h : c.pool i = .cas a none new ok err f) {m : Msg} (hm : c.mem a = [m]) (hv : m.val = none) :
    ∃ m1 : Msg, (c.step i n).mem = Function.update c.mem a [m, m1] ∧ m1.val = new ∧
      (ok.releases = false → m1.know = m.know) ∧
      (c.step i n).know = Function.update c.know i ((learn (c.know i) ok a 0 m).add (a, 1)) ∧
      (c.step i n).pool = Function.update c.pool i (f (.ok none)) := by
  unfold Mach.step
  rw [h]
  dsimp only
  have hg0 : ∀ m0 : Msg, List.getD [m] 0 m0 = m := fun _ => rfl
  have hl1 : [m].length - 1 = 0 := rfl
  rw [hm, choose_single, hg0, if_pos hv, hl1, hg0, if_pos hv]
  refine ⟨⟨new, true, _⟩, rfl, rfl, fun hr => ?_, rfl, ?_⟩
  · dsimp only; rw [hr]; rfl
  · dsimp only; rw [hv]

theorem step_cas_err {a n q : Nat} {new : Word} {ok err : MemOrd} {f : Except Word Word → WProg α}
    (h : c.pool i = .cas a none new ok err f) {m m' : Msg} (hm : c.mem a = [m, m']) (hv : m.val = none)
    (hv' : m'.val = some q) : (c.step i n).mem = c.mem ∧
      (c.step i n).know = Function.update c.know i (learn (c.know i) err a 1 m') ∧
      (c.step i n).pool = Function.update c.pool i (f (.error (some q))) := by
  obtain ⟨m1, m2, m3, m4⟩ := access_mem c i false a
  unfold Mach.step
  rw [h]
  dsimp only
  have hx : choose (c.know i) a (c.mem a) n < 2 := by rw [hm]; exact choose_lt (by simp)
  generalize choose (c.know i) a (c.mem a) n = x at hx
  rw [hm]
  have hsel : (if (List.getD [m, m'] x ⟨none, false, .none⟩).val = none then [m, m'].length - 1 else x) = 1 := by
    have : x = 0 ∨ x = 1 := by omega
    rcases this with rfl | rfl
    · rw [if_pos (by exact hv)]; rfl
    · simp
  have hg1 : ∀ m0 : Msg, List.getD [m, m'] 1 m0 = m' := fun _ => rfl
  rw [hsel, hg1, if_neg (by rw [hv']; simp)]
  exact ⟨m1, rfl, by dsimp only; rw [hv']⟩

theorem foldl_access_mem (c : Mach ι α) (i : ι) (l : List Nat) (a : Nat) :
    (l.foldl (fun c j => c.access i true (a + j)) c).know = c.know := by
  induction l generalizing c with
  | nil => rfl
  | cons j l ih => rw [List.foldl_cons, ih, (access_mem ..).2.2.1]

theorem step_free {a n len : Nat} {f : WProg α} (h : c.pool i = .free a len f) :
    (c.step i n).mem = (fun b => if a ≤ b ∧ b < a + len then [] else c.mem b) ∧
      (c.step i n).know = c.know ∧ (c.step i n).pool = Function.update c.pool i f := by
  unfold Mach.step
  rw [h]
  exact ⟨rfl, foldl_access_mem .., rfl⟩

theorem step_race {a n : Nat} {o : MemOrd} {f : Word → WProg α} (h : c.pool i = .load a o f)
    (hr : ordered false (c.know i) a (c.mem a) = false) : (c.step i n).races ≠ [] := by
  have hs : (c.step i n).races = (c.access i false a).races := by unfold Mach.step; rw [h]
  have ha : (c.access i false a).races = (i, a) :: c.races := by
    unfold Mach.access; rw [if_neg (by rw [hr]; simp)]
  rw [hs, ha]
  exact List.cons_ne_nil _ _

/-- The state after a thread has published the root bucket and knows nothing more. -/
structure Published (T : Table) (o : Orders) (c : Mach Bool (List Word)) (p : Nat) : Prop where
  root : ∃ m0 m1, c.mem 0 = [m0, m1] ∧ m0.val = none ∧ m1.val = some p ∧
    (o.ok.releases = false → m1.know = .none)
  slot : ∀ h < T.size 0, c.mem (p + h) = [⟨none, false, .none⟩]

variable {T : Table} {o : Orders} {n x : Nat} {c : Mach Bool (List Word)}

/-- The call up to the publication of the root bucket. -/
theorem publish_root (hroot : c.mem 0 = [⟨none, false, .none⟩]) (htop : 0 < c.top)
    (hp : c.pool true = threadProg o T (n + 1) [.findOrInit x]) (hn : 0 < T.size 0) :
    Published T o (c.exec [(true, 0), (true, 0), (true, 0), (true, 0)]) c.top ∧
    (c.exec [(true, 0), (true, 0), (true, 0), (true, 0)]).pool false = c.pool false ∧
    (c.exec [(true, 0), (true, 0), (true, 0), (true, 0)]).know false = c.know false ∧
    ∀ a, a < c.top → a ≠ 0 → (c.exec [(true, 0), (true, 0), (true, 0), (true, 0)]).mem a = c.mem a := by
  show Published T o ((((c.step true 0).step true 0).step true 0).step true 0) c.top ∧
    ((((c.step true 0).step true 0).step true 0).step true 0).pool false = c.pool false ∧
    ((((c.step true 0).step true 0).step true 0).step true 0).know false = c.know false ∧
    ∀ a, a < c.top → a ≠ 0 → ((((c.step true 0).step true 0).step true 0).step true 0).mem a = c.mem a
  obtain ⟨a1, a2, a3, a4⟩ := step_load (c := c) (i := true) (a := 0) (n := 0) (n' := 0)
    (m := ⟨none, false, .none⟩) hp (by rw [hroot, choose_single]) (by rw [hroot]; rfl)
  generalize c.step true 0 = c1 at *
  have p1 : c1.pool true = _ := (congrFun a4 true).trans (Function.update_self ..)
  have q1 : c1.pool false = c.pool false := (congrFun a4 false).trans (Function.update_of_ne (by simp) ..)
  have k1 : c1.know false = c.know false := (congrFun a3 false).trans (Function.update_of_ne (by simp) ..)
  have r1 : c1.mem 0 = [⟨none, false, .none⟩] := by rw [a1, hroot]
  obtain ⟨b1, b2, b3, b4⟩ := step_load (c := c1) (i := true) (a := 0) (n := 0) (n' := 0)
    (m := ⟨none, false, .none⟩) p1 (by rw [r1, choose_single]) (by rw [r1]; rfl)
  generalize c1.step true 0 = c2 at *
  have p2 : c2.pool true = _ := (congrFun b4 true).trans (Function.update_self ..)
  have q2 : c2.pool false = c.pool false :=
    ((congrFun b4 false).trans (Function.update_of_ne (by simp) ..)).trans q1
  have k2 : c2.know false = c.know false :=
    ((congrFun b3 false).trans (Function.update_of_ne (by simp) ..)).trans k1
  have r2 : c2.mem = c.mem := by rw [b1, a1]
  have t2 : c2.top = c.top := by rw [b2, a2]
  obtain ⟨d1, d2, d3, d4⟩ := step_alloc (c := c2) (i := true) (n := 0) p2
  generalize c2.step true 0 = c3 at *
  have p3 : c3.pool true = _ := (congrFun d4 true).trans (Function.update_self ..)
  have q3 : c3.pool false = c.pool false :=
    ((congrFun d4 false).trans (Function.update_of_ne (by simp) ..)).trans q2
  have k3 : c3.know false = c.know false :=
    ((congrFun d3 false).trans (Function.update_of_ne (by simp) ..)).trans k2
  have r3 : ∀ a, a < c.top → c3.mem a = c.mem a := by
    intro a ha
    rw [d1, t2, r2]
    have hc : ¬ (c.top ≤ a ∧ a < c.top + (List.replicate (T.size 0) (none : Word)).length) := by omega
    exact if_neg hc
  have s3 : ∀ h < T.size 0, c3.mem (c.top + h) = [⟨none, false, .none⟩] := by
    intro h hh
    rw [d1, t2, r2]
    have hc : c.top ≤ c.top + h ∧ c.top + h < c.top + (List.replicate (T.size 0) (none : Word)).length := by
      rw [List.length_replicate]; omega
    refine (if_pos hc).trans ?_
    rw [Nat.add_sub_cancel_left, List.getD_eq_getElem?_getD, List.getElem?_replicate, if_pos hh]; rfl
  have z3 := (r3 0 htop).trans hroot
  obtain ⟨m1, h1, h2, h3, hknow, hpool⟩ := step_cas_ok (c := c3) (i := true) (a := 0) (n := 0)
    (ok := o.ok) (err := o.err) p3 z3 rfl
  have hpool := (congrFun hpool false).trans (Function.update_of_ne (by simp) ..)
  have hknow := (congrFun hknow false).trans (Function.update_of_ne (by simp) ..)
  rw [t2] at h2
  refine ⟨⟨⟨_, m1, by rw [h1, Function.update_self], rfl, h2, h3⟩, fun h hh => ?_⟩, hpool.trans q3, hknow.trans k3,
    fun a ha h0 => ?_⟩
  · have hne : c.top + h ≠ 0 := by omega
    rw [h1, Function.update_of_ne hne]
    exact s3 h hh
  · rw [h1, Function.update_of_ne h0, r3 a ha]

/-- A reader of a published bucket that learned nothing races. -/
theorem slot_race {p h : Nat} {f : Word → WProg (List Word)} {od : MemOrd} (hc : Published T o c p) (hh : h < T.size 0)
    (hp : c.pool false = .load (p + h) od f) (hk : (p + h, 0) ∉ (c.know false).before) (n : Nat) :
    (c.step false n).races ≠ [] := by
  refine step_race hp ?_
  rw [hc.slot h hh]
  simp [ordered, hk]

theorem published_mem {c' : Mach Bool (List Word)} {p : Nat} (hc : Published T o c p) (hm : c'.mem = c.mem) :
    Published T o c' p := by
  obtain ⟨h1, h2⟩ := hc
  exact ⟨by rw [hm]; exact h1, by rw [hm]; exact h2⟩

/-- A lookup in a bucket that was just published. -/
theorem find_races {y p : Nat} (hlt : T.hash y 0 < T.size 0) (hc : Published T o c p) (hp0 : 0 < p)
    (hp : c.pool false = threadProg o T (n + 1) [.find y]) (hk : c.know false = Know.none.add (0, 0))
    (ho : o.load.acquires = false ∨ o.ok.releases = false) :
    (c.exec [(false, 1), (false, 0)]).races ≠ [] := by
  obtain ⟨m0, m1, h0, v0, v1, hr⟩ := hc.root
  obtain ⟨a1, a2, a3, a4⟩ := step_load (c := c) (i := false) (a := 0) (n := 1) (n' := 1)
    (m := m1) hp (by rw [h0, hk]; rfl) (by rw [h0]; rfl)
  show ((c.step false 1).step false 0).races ≠ []
  have p1 : (c.step false 1).pool false = _ := (congrFun a4 false).trans (Function.update_self ..)
  rw [v1] at p1
  refine slot_race (published_mem hc a1) hlt (f := ?_) (od := o.load) (p1.trans ?_) ?_ 0
  rotate_left
  · simp only [hlt, if_true]
    rfl
  · rw [a3, Function.update_self, hk]
    have : (learn (Know.none.add (0, 0)) o.load 0 1 m1).before = [(0, 0)] := by
      unfold learn
      dsimp only
      split
      · rename_i hac
        have hrel : o.ok.releases = false := by
          rcases ho with h | h
          · rw [h] at hac; cases hac
          · exact h
        rw [hr hrel]
        rfl
      · rfl
    rw [this]
    simp
    omega

/-- A creation and a lookup. -/
theorem lookup_races {x y : Nat} (hlt : T.hash y 0 < T.size 0) (hroot : c.mem 0 = [⟨none, false, .none⟩])
    (htop : 0 < c.top) (hp : c.pool true = threadProg o T (n + 1) [.findOrInit x])
    (hp' : c.pool false = threadProg o T (n + 1) [.find y]) (hk : c.know false = Know.none.add (0, 0))
    (ho : o.load.acquires = false ∨ o.ok.releases = false) :
    (c.exec [(true, 0), (true, 0), (true, 0), (true, 0), (false, 1), (false, 0)]).races ≠ [] := by
  obtain ⟨h1, h2, h3, -⟩ := publish_root hroot htop hp (by omega)
  exact find_races hlt h1 htop (h2.trans hp') (h3.trans hk) ho

/-- A creation that loses the race for the root bucket. -/
theorem init_races {y z : Nat} (hlt : T.hash y 0 < T.size 0) (hroot : c.mem 0 = [⟨none, false, .none⟩])
    (htop : 0 < c.top) (hp : c.pool true = threadProg o T (n + 1) [.findOrInit z])
    (hp' : c.pool false = threadProg o T (n + 1) [.findOrInit y])
    (hk : c.know false = Know.none.add (0, 0)) (ho : o.err.acquires = false) :
    (c.exec [(false, 0), (false, 0), (false, 0), (true, 0), (true, 0), (true, 0), (true, 0),
      (false, 1), (false, 0), (false, 0)]).races ≠ [] := by
  have hn : 0 < T.size 0 := by omega
  obtain ⟨a1, a2, a3, a4⟩ := step_load (c := c) (i := false) (a := 0) (n := 0) (n' := 0)
    (m := ⟨none, false, .none⟩) hp' (by rw [hroot, choose_single]) (by rw [hroot]; rfl)
  show ((((((c.step false 0).step false 0).step false 0).exec [(true, 0), (true, 0), (true, 0), (true, 0)]).exec
    [(false, 1), (false, 0), (false, 0)]).races ≠ [])
  generalize c.step false 0 = c1 at *
  have p1 : c1.pool false = _ := (congrFun a4 false).trans (Function.update_self ..)
  have q1 : c1.pool true = c.pool true := (congrFun a4 true).trans (Function.update_of_ne (by simp) ..)
  have l0 : ∀ m : Msg, m.know = .none → ∀ k : Know, ∀ o : MemOrd, (learn k o 0 0 m).before = k.before := by
    intro m hm k o
    unfold learn
    dsimp only
    split
    · rw [hm]; exact List.append_nil _
    · rfl
  have k1 : (c1.know false).before = [(0, 0)] := by
    rw [(congrFun a3 false).trans (Function.update_self ..), l0 _ rfl, hk]; rfl
  have r1 : c1.mem 0 = [⟨none, false, .none⟩] := by rw [a1, hroot]
  obtain ⟨b1, b2, b3, b4⟩ := step_load (c := c1) (i := false) (a := 0) (n := 0) (n' := 0)
    (m := ⟨none, false, .none⟩) p1 (by rw [r1, choose_single]) (by rw [r1]; rfl)
  generalize c1.step false 0 = c2 at *
  have p2 : c2.pool false = _ := (congrFun b4 false).trans (Function.update_self ..)
  have q2 : c2.pool true = c.pool true :=
    ((congrFun b4 true).trans (Function.update_of_ne (by simp) ..)).trans q1
  have k2 : (c2.know false).before = [(0, 0)] := by
    rw [(congrFun b3 false).trans (Function.update_self ..), l0 _ rfl, k1]
  have r2 : c2.mem = c.mem := by rw [b1, a1]
  have t2 : c2.top = c.top := by rw [b2, a2]
  obtain ⟨d1, d2, d3, d4⟩ := step_alloc (c := c2) (i := false) (n := 0) p2
  generalize c2.step false 0 = c3 at *
  have p3 : c3.pool false = _ := (congrFun d4 false).trans (Function.update_self ..)
  have q3 : c3.pool true = threadProg o T (n + 1) [.findOrInit z] :=
    (((congrFun d4 true).trans (Function.update_of_ne (by simp) ..)).trans q2).trans hp
  have k3 : (c3.know false).before = blockWrites c.top (T.size 0) ++ [(0, 0)] := by
    rw [(congrFun d3 false).trans (Function.update_self ..), ← k2, t2, List.length_replicate]; rfl
  have t3 : c3.top = c.top + T.size 0 + 1 := by rw [d2, t2, List.length_replicate]
  have r3 : c3.mem 0 = [⟨none, false, .none⟩] := by
    rw [d1, t2, r2, ← hroot]
    have hc : ¬ (c.top ≤ 0 ∧ 0 < c.top + (List.replicate (T.size 0) (none : Word)).length) := by omega
    exact if_neg hc
  obtain ⟨hpub, q4, k4, -⟩ := publish_root r3 (by omega) q3 hn
  generalize c3.exec [(true, 0), (true, 0), (true, 0), (true, 0)] = c4 at *
  obtain ⟨m0, m1, h0, v0, v1, -⟩ := hpub.root
  obtain ⟨e1, e2, e3⟩ := step_cas_err (c := c4) (i := false) (n := 1) (a := 0) (q4.trans p3) h0 v0 v1
  show (((c4.step false 1).step false 0).step false 0).races ≠ []
  generalize c4.step false 1 = c5 at *
  have p5 : c5.pool false = _ := (congrFun e3 false).trans (Function.update_self ..)
  have k5 : (c5.know false).before = blockWrites c.top (T.size 0) ++ [(0, 0)] := by
    rw [(congrFun e2 false).trans (Function.update_self ..), ← k3, ← k4]
    unfold learn
    rw [ho]; rfl
  obtain ⟨f1, f2, f3⟩ := step_free (c := c5) (i := false) (n := 0) p5
  generalize c5.step false 0 = c6 at *
  have p6 : c6.pool false = _ := (congrFun f3 false).trans (Function.update_self ..)
  have hpub6 : Published T o c6 c3.top := by
    obtain ⟨⟨g0, g1, g2, g3⟩, g4⟩ := published_mem hpub e1
    constructor
    · refine ⟨g0, g1, ?_, g3⟩
      rw [f1, ← g2]
      have hc : ¬ (c2.top ≤ 0 ∧ 0 < c2.top + (List.replicate (T.size 0) (none : Word)).length) := by omega
      exact if_neg hc
    · intro h hh
      rw [f1, ← g4 h hh]
      have hc : ¬ (c2.top ≤ c3.top + h ∧ c3.top + h < c2.top + (List.replicate (T.size 0) (none : Word)).length) := by
        rw [List.length_replicate]; omega
      exact if_neg hc
  refine slot_race hpub6 hlt (f := ?_) (od := o.load) (p6.trans ?_) ?_ 0
  rotate_left
  · simp only [hlt, if_true]
    rfl
  · rw [f2, k5, t3]
    intro hmem
    rcases List.mem_append.1 hmem with h | h
    · obtain ⟨j, hj, he⟩ := List.mem_map.1 h
      have hj := List.mem_range.1 hj
      have : c.top + j = c.top + T.size 0 + 1 + T.hash y 0 := (Prod.mk.inj he).1
      omega
    · have : c.top + T.size 0 + 1 + T.hash y 0 = 0 := (Prod.mk.inj (List.mem_singleton.1 h)).1
      omega

end Rotonda.Weak
