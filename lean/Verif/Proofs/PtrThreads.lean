import Verif.Proofs.PtrRun

/-!
# Runs of calls on the heap of both tables
-/

namespace Rotonda

open Prog TabHeap

/-- The pointers that a call has found. -/
structure Found where
  env : Addr → Option Nat
  envr : Addr → Option Nat
  K : Addr → Nat → Prop
  Kr : Addr → Nat → Prop

variable {M α ι : Type} {W : Nat}

/-- Where a call is: between operations, or inside an operation on one of the tables. -/
inductive TSt (M : Type) (W : Nat) (α : Type) : Type 1
  | idle (c : Found) (t : PtrProg M W α)
  | onN {ρ : Type} (c : Found) (pc : OPc (StoredNode W) W ρ) (k : ρ → PtrProg M W α)
  | onR {ρ : Type} (c : Found) (pc : OPc (StoredPrefix M W) W ρ) (k : ρ → PtrProg M W α)

namespace TSt

def heapProg (A : PtrAlloc M W) : TSt M W α → Prog (PtrRib M W) α
  | idle c t => t.onHeap A c.env c.envr
  | onN c pc k => ((pc.prog A.nodes (entryShape _ 0)).zoom PtrRib.nodesL).bind
      fun r => (k r.1).onHeap A (learn c.env r.2) c.envr
  | onR c pc k => ((pc.prog A.recs (entryShape _ 1)).zoom PtrRib.recsL).bind
      fun r => (k r.1).onHeap A c.env (learn c.envr r.2)

def slotProg : TSt M W α → Prog (Rib M W) α
  | idle _ t => t.onSlots
  | onN _ pc k => (onNodes pc.slotProg).bind fun r => (k r).onSlots
  | onR _ pc k => (onRecs pc.slotProg).bind fun r => (k r).onSlots

def nS : TSt M W α → Option Nat
  | onN _ pc _ => pc.ownSlice
  | _ => none

def nB : TSt M W α → Option Nat
  | onN _ pc _ => pc.ownBox
  | _ => none

def rS : TSt M W α → Option Nat
  | onR _ pc _ => pc.ownSlice
  | _ => none

def rB : TSt M W α → Option Nat
  | onR _ pc _ => pc.ownBox
  | _ => none

def found : TSt M W α → Found
  | idle c _ | onN c _ _ | onR c _ _ => c

/-- What a call knows. -/
def Good (s : PtrRib M W) (t : TSt M W α) : Prop :=
  EnvOk (W := W) s.nodes t.found.K t.found.env ∧ EnvOk (W := W) s.recs t.found.Kr t.found.envr ∧
  match t with
  | idle c t => t.Scoped c.K c.Kr
  | onN c pc k => pc.Good 0 s.nodes ∧ (∀ r, pc.rootOf = some r → r < nodeRoots W) ∧
      ∀ K' r, pc.Post c.K K' r → (k r).Scoped K' c.Kr
  | onR c pc k => pc.Good 1 s.recs ∧ (∀ r, pc.rootOf = some r → r < prefixRoots W) ∧
      ∀ K' r, pc.Post c.Kr K' r → (k r).Scoped c.K K'

/-- The next thing is not the start or the end of an operation. -/
def Settled : TSt M W α → Prop
  | idle _ t => match t with
    | .ret _ | .panic | .diverge | .frame _ _ => True
    | _ => False
  | onN _ pc _ => ¬ pc.Over
  | onR _ pc _ => ¬ pc.Over

/-- The same programs. -/
structure Same (s : PtrRib M W) (t t' : TSt M W α) : Prop where
  heap : ∀ A, t'.heapProg A = t.heapProg A
  slot : t'.slotProg = t.slotProg
  good : t'.Good s
  nS : t'.nS = t.nS
  nB : t'.nB = t.nB
  rS : t'.rS = t.rS
  rB : t'.rB = t.rB

theorem settle_idle {s : PtrRib M W} (c : Found) (t : PtrProg M W α) (hg : (idle c t).Good s) :
    ∃ t', Same s (idle c t) t' ∧ t'.Settled := by
  obtain ⟨h1, h2, h3⟩ := hg
  cases t with
  | raw p => exact h3.elim
  | ret a => exact ⟨_, ⟨fun _ => rfl, rfl, ⟨h1, h2, h3⟩, rfl, rfl, rfl, rfl⟩, trivial⟩
  | panic => exact ⟨_, ⟨fun _ => rfl, rfl, ⟨h1, h2, h3⟩, rfl, rfl, rfl, rfl⟩, trivial⟩
  | diverge => exact ⟨_, ⟨fun _ => rfl, rfl, ⟨h1, h2, h3⟩, rfl, rfl, rfl, rfl⟩, trivial⟩
  | frame f k => exact ⟨_, ⟨fun _ => rfl, rfl, ⟨h1, h2, h3⟩, rfl, rfl, rfl, rfl⟩, trivial⟩
  | nodes op k =>
    obtain ⟨pc, p1, p2, p3, p4, p5, p6, p7, p8⟩ := op.begin (m := 0) h1 h3.1
    refine ⟨.onN c pc k, ⟨fun A => ?_, ?_, ⟨h1, h2, p3, p7, fun K' r hp => h3.2 K' r (p8 K' r hp)⟩, p5, p6,
      rfl, rfl⟩, p4⟩
    · rw [heapProg, heapProg, PtrProg.onHeap, ← p1]; rfl
    · rw [slotProg, slotProg, PtrProg.onSlots, p2]
  | recs op k =>
    obtain ⟨pc, p1, p2, p3, p4, p5, p6, p7, p8⟩ := op.begin (m := 1) h2 h3.1
    refine ⟨.onR c pc k, ⟨fun A => ?_, ?_, ⟨h1, h2, p3, p7, fun K' r hp => h3.2 K' r (p8 K' r hp)⟩, rfl, rfl,
      p5, p6⟩, p4⟩
    · rw [heapProg, heapProg, PtrProg.onHeap, ← p1]; rfl
    · rw [slotProg, slotProg, PtrProg.onSlots, p2]

theorem Same.trans {s : PtrRib M W} {t t' t'' : TSt M W α} (h : Same s t t') (h' : Same s t' t'') :
    Same s t t'' :=
  ⟨fun A => (h'.heap A).trans (h.heap A), h'.slot.trans h.slot, h'.good, h'.nS.trans h.nS, h'.nB.trans h.nB,
    h'.rS.trans h.rS, h'.rB.trans h.rB⟩

theorem settle {s : PtrRib M W} (t : TSt M W α) (hg : t.Good s) : ∃ t', Same s t t' ∧ t'.Settled := by
  cases t with
  | idle c t => exact settle_idle c t hg
  | onN c pc k =>
    by_cases ho : pc.Over
    · obtain ⟨h1, h2, h3, h4, h5⟩ := hg
      obtain ⟨o1, o2⟩ := OPc.over_own ho
      rcases pc.finish h1 ho h3 with ⟨e1, e2⟩ | ⟨r, l, K', e1, e2, e3, e4⟩
      · refine ⟨idle c .panic, ⟨fun A => ?_, ?_, ⟨h1, h2, trivial⟩, o1.symm, o2.symm, rfl, rfl⟩, trivial⟩
        · rw [heapProg, heapProg, e1]; rfl
        · rw [slotProg, slotProg, e2]; rfl
      · have hg' : (idle { c with K := K', env := learn c.env l } (k r)).Good s := ⟨e4, h2, h5 _ _ e3⟩
        obtain ⟨t', ht, hs⟩ := settle_idle _ _ hg'
        refine ⟨t', Same.trans ⟨fun A => ?_, ?_, hg', o1.symm, o2.symm, rfl, rfl⟩ ht, hs⟩
        · rw [heapProg, heapProg, e1]; rfl
        · rw [slotProg, slotProg, e2]; rfl
    · exact ⟨_, ⟨fun _ => rfl, rfl, hg, rfl, rfl, rfl, rfl⟩, ho⟩
  | onR c pc k =>
    by_cases ho : pc.Over
    · obtain ⟨h1, h2, h3, h4, h5⟩ := hg
      obtain ⟨o1, o2⟩ := OPc.over_own ho
      rcases pc.finish h2 ho h3 with ⟨e1, e2⟩ | ⟨r, l, K', e1, e2, e3, e4⟩
      · refine ⟨idle c .panic, ⟨fun A => ?_, ?_, ⟨h1, h2, trivial⟩, rfl, rfl, o1.symm, o2.symm⟩, trivial⟩
        · rw [heapProg, heapProg, e1]; rfl
        · rw [slotProg, slotProg, e2]; rfl
      · have hg' : (idle { c with Kr := K', envr := learn c.envr l } (k r)).Good s := ⟨h1, e4, h5 _ _ e3⟩
        obtain ⟨t', ht, hs⟩ := settle_idle _ _ hg'
        refine ⟨t', Same.trans ⟨fun A => ?_, ?_, hg', rfl, rfl, o1.symm, o2.symm⟩ ht, hs⟩
        · rw [heapProg, heapProg, e1]; rfl
        · rw [slotProg, slotProg, e2]; rfl
    · exact ⟨_, ⟨fun _ => rfl, rfl, hg, rfl, rfl, rfl, rfl⟩, ho⟩

theorem Good.mono {s s' : PtrRib M W} {t : TSt M W α} (hg : t.Good s) (hn : PtrKeeps s.nodes s'.nodes)
    (hr : PtrKeeps s.recs s'.recs)
    (h1 : ∀ x, t.nS = some x → s'.nodes.slices x = s.nodes.slices x)
    (h2 : ∀ x, t.nB = some x → s'.nodes.boxes x = s.nodes.boxes x)
    (h3 : ∀ x, t.rS = some x → s'.recs.slices x = s.recs.slices x)
    (h4 : ∀ x, t.rB = some x → s'.recs.boxes x = s.recs.boxes x) : t.Good s' := by
  obtain ⟨g1, g2, g3⟩ := hg
  refine ⟨g1.mono hn, g2.mono hr, ?_⟩
  cases t with
  | idle c t => exact g3
  | onN c pc k => exact ⟨g3.1.mono hn h1 h2, g3.2⟩
  | onR c pc k => exact ⟨g3.1.mono hr h3 h4, g3.2⟩

end TSt

/-! ## One step -/

variable [DecidableEq ι]

theorem onNodes_isAct {p : Prog (NSlots W) α} (hp : p.IsAct) : (onNodes (M := M) p).IsAct := hp.zoom.zoom

theorem onRecs_isAct {p : Prog (PSlots M W) α} (hp : p.IsAct) : (onRecs p).IsAct := hp.zoom.zoom

theorem onNodes_step {p : Prog (NSlots W) α} (hp : p.IsAct) (s : Rib M W) : (onNodes p).step1 s =
    ({ s with tree := { s.tree with slots := (p.step1 s.tree.slots).1 } }, onNodes (p.step1 s.tree.slots).2) := by
  rw [onNodes, Prog.step1_zoom _ _ hp.zoom, Prog.step1_zoom _ _ hp]
  rfl

theorem onRecs_step {p : Prog (PSlots M W) α} (hp : p.IsAct) (s : Rib M W) : (onRecs p).step1 s =
    ({ s with cht := { s.cht with slots := (p.step1 s.cht.slots).1 } }, onRecs (p.step1 s.cht.slots).2) := by
  rw [onRecs, Prog.step1_zoom _ _ hp.zoom, Prog.step1_zoom _ _ hp]
  rfl

/-- The tables, when the call `i` holds what is given. -/
structure BothOk (s : PtrRib M W) (nS nB rS rB : ι → Option Nat) : Prop where
  nodes : TblOk 0 (nodeRoots W) s.nodes nS nB
  recs : TblOk 1 (prefixRoots W) s.recs rS rB

/-- One step of the call `i`. -/
structure TStep (A : PtrAlloc M W) (i : ι) (s s' : PtrRib M W) (t t' : TSt M W α)
    (nS nB rS rB : ι → Option Nat) : Prop where
  step : (t.heapProg A).step1 s = (s', t'.heapProg A)
  slot : (t'.slotProg = t.slotProg ∧ s'.view = s.view) ∨ t.slotProg.step1 s.view = (s'.view, t'.slotProg)
  ok : BothOk s' (Function.update nS i t'.nS) (Function.update nB i t'.nB) (Function.update rS i t'.rS)
    (Function.update rB i t'.rB)
  good : t'.Good s'
  keepsN : PtrKeeps s.nodes s'.nodes
  keepsR : PtrKeeps s.recs s'.recs
  heldNS : ∀ j, j ≠ i → ∀ x, nS j = some x → s'.nodes.slices x = s.nodes.slices x
  heldNB : ∀ j, j ≠ i → ∀ x, nB j = some x → s'.nodes.boxes x = s.nodes.boxes x
  heldRS : ∀ j, j ≠ i → ∀ x, rS j = some x → s'.recs.slices x = s.recs.slices x
  heldRB : ∀ j, j ≠ i → ∀ x, rB j = some x → s'.recs.boxes x = s.recs.boxes x

theorem TSt.step_settled {A : PtrAlloc M W} {i : ι} {s : PtrRib M W} {nS nB rS rB : ι → Option Nat}
    (hok : BothOk s nS nB rS rB) (t : TSt M W α) (hs : t.Settled) (hg : t.Good s)
    (h1 : nS i = t.nS) (h2 : nB i = t.nB) (h3 : rS i = t.rS) (h4 : rB i = t.rB) :
    ∃ s' t', TStep A i s s' t t' nS nB rS rB := by
  have hupd : ∀ (f : ι → Option Nat) o, f i = o → Function.update f i o = f := by
    intro f o e; rw [← e, Function.update_eq_self]
  have stay : ∀ t' : TSt M W α, (t.heapProg A).step1 s = (s, t'.heapProg A) → t'.slotProg = t.slotProg →
      t'.Good s → t'.nS = t.nS → t'.nB = t.nB → t'.rS = t.rS → t'.rB = t.rB →
      TStep A i s s t t' nS nB rS rB := by
    intro t' e1 e2 e3 e4 e5 e6 e7
    refine ⟨e1, .inl ⟨e2, rfl⟩, ?_, e3, .refl, .refl, fun _ _ _ _ => rfl, fun _ _ _ _ => rfl,
      fun _ _ _ _ => rfl, fun _ _ _ _ => rfl⟩
    rw [hupd nS _ (h1.trans e4.symm), hupd nB _ (h2.trans e5.symm), hupd rS _ (h3.trans e6.symm),
      hupd rB _ (h4.trans e7.symm)]
    exact hok
  cases t with
  | idle c t =>
    cases t with
    | raw p => exact hs.elim
    | nodes op k => exact hs.elim
    | recs op k => exact hs.elim
    | ret a => exact ⟨s, _, stay _ rfl rfl hg rfl rfl rfl rfl⟩
    | panic => exact ⟨s, _, stay _ rfl rfl hg rfl rfl rfl rfl⟩
    | diverge => exact ⟨s, _, stay _ rfl rfl hg rfl rfl rfl rfl⟩
    | frame f k =>
      obtain ⟨g1, g2, g3, g4⟩ := hg
      refine ⟨{ s with rest := (f s.rest).2 }, .idle c (k (f s.rest).1), rfl, .inr ?_, ?_,
        ⟨g1, g2, g4 _⟩, .refl, .refl, fun _ _ _ _ => rfl, fun _ _ _ _ => rfl, fun _ _ _ _ => rfl,
        fun _ _ _ _ => rfl⟩
      · show ((f s.view).2, (k (f s.view).1).onSlots) = _
        rw [PtrRib.view, g3]
        rfl
      · simp only [TSt.nS, TSt.nB, TSt.rS, TSt.rB] at h1 h2 h3 h4 ⊢
        rw [hupd nS none h1, hupd nB none h2, hupd rS none h3, hupd rB none h4]
        exact ⟨hok.nodes, hok.recs⟩
  | onN c pc k =>
    obtain ⟨g1, g2, g3, g4, g5⟩ := hg
    obtain ⟨h', pc', hst⟩ := hok.nodes.step A.nodes i pc hs g3 h1 h2 g4
    refine ⟨{ s with nodes := h' }, .onN c pc' k, ?_, ?_, ⟨hst.ok, ?_⟩,
      ⟨g1.mono hst.keeps, g2, hst.good, fun r hr => g4 r (hst.roots r hr), fun K' r hp => g5 K' r (hst.post _ _ _ hp)⟩,
      hst.keeps, .refl, hst.heldS, hst.heldB, fun _ _ _ _ => rfl, fun _ _ _ _ => rfl⟩
    · rw [TSt.heapProg, Prog.step1_bind _ _ hst.act.zoom, Prog.step1_zoom _ _ hst.act,
        show PtrRib.nodesL.get s = s.nodes from rfl, hst.step]
      rfl
    · rcases hst.slot with ⟨e1, e2⟩ | ⟨e1, e2⟩
      · refine .inl ⟨by rw [TSt.slotProg, TSt.slotProg, e1], ?_⟩
        rw [PtrRib.view, PtrRib.view, e2]
      · refine .inr ?_
        rw [TSt.slotProg, Prog.step1_bind _ _ (onNodes_isAct e1), onNodes_step e1,
          show s.view.tree.slots = s.nodes.toSlots from rfl, e2]
        rfl
    · simp only [TSt.rS, TSt.rB] at h3 h4 ⊢
      rw [hupd rS _ h3, hupd rB _ h4]; exact hok.recs
  | onR c pc k =>
    obtain ⟨g1, g2, g3, g4, g5⟩ := hg
    obtain ⟨h', pc', hst⟩ := hok.recs.step A.recs i pc hs g3 h3 h4 g4
    refine ⟨{ s with recs := h' }, .onR c pc' k, ?_, ?_, ⟨?_, hst.ok⟩,
      ⟨g1, g2.mono hst.keeps, hst.good, fun r hr => g4 r (hst.roots r hr), fun K' r hp => g5 K' r (hst.post _ _ _ hp)⟩,
      .refl, hst.keeps, fun _ _ _ _ => rfl, fun _ _ _ _ => rfl, hst.heldS, hst.heldB⟩
    · rw [TSt.heapProg, Prog.step1_bind _ _ hst.act.zoom, Prog.step1_zoom _ _ hst.act,
        show PtrRib.recsL.get s = s.recs from rfl, hst.step]
      rfl
    · rcases hst.slot with ⟨e1, e2⟩ | ⟨e1, e2⟩
      · refine .inl ⟨by rw [TSt.slotProg, TSt.slotProg, e1], ?_⟩
        rw [PtrRib.view, PtrRib.view, e2]
      · refine .inr ?_
        rw [TSt.slotProg, Prog.step1_bind _ _ (onRecs_isAct e1), onRecs_step e1,
          show s.view.cht.slots = s.recs.toSlots from rfl, e2]
        rfl
    · simp only [TSt.nS, TSt.nB] at h1 h2 ⊢
      rw [hupd nS _ h1, hupd nB _ h2]; exact hok.nodes

/-! ## Runs -/

variable {R : ι → Type}

/-- A run on the heap and a run on the tables as maps agree. -/
structure PtrSim (A : PtrAlloc M W) (c : Conf (PtrRib M W) ι R) (a : Conf (Rib M W) ι R)
    (ts : ∀ i, TSt M W (R i)) : Prop where
  pool : ∀ i, c.pool i = (ts i).heapProg A
  slots : ∀ i, a.pool i = (ts i).slotProg
  st : a.st = c.st.view
  ok : BothOk c.st (fun i => (ts i).nS) (fun i => (ts i).nB) (fun i => (ts i).rS) fun i => (ts i).rB
  good : ∀ i, (ts i).Good c.st

theorem update_own {X : Type} (ts : ∀ i, TSt M W (R i)) (i : ι) (t : TSt M W (R i))
    (f : ∀ {α : Type}, TSt M W α → X) :
    (fun j => f (Function.update ts i t j)) = Function.update (fun j => f (ts j)) i (f t) := by
  funext j
  by_cases e : j = i
  · subst e; simp
  · simp [Function.update_of_ne e]

theorem PtrSim.step {A : PtrAlloc M W} {c : Conf (PtrRib M W) ι R} {a : Conf (Rib M W) ι R}
    {ts : ∀ i, TSt M W (R i)} (h : PtrSim A c a ts) (i : ι) :
    ∃ ts', PtrSim A (c.step i) a ts' ∨ PtrSim A (c.step i) (a.step i) ts' := by
  obtain ⟨t, hsame, hset⟩ := TSt.settle (ts i) (h.good i)
  obtain ⟨s', t', hst⟩ := TSt.step_settled (A := A) (i := i) h.ok t hset hsame.good
    hsame.nS.symm hsame.nB.symm hsame.rS.symm hsame.rB.symm
  obtain ⟨c1, c2⟩ := Conf.step_step1 c i
  obtain ⟨a1, a2⟩ := Conf.step_step1 a i
  have hpc : (c.pool i).step1 c.st = (s', t'.heapProg A) := by rw [h.pool i, ← hsame.heap, hst.step]
  rw [hpc] at c1 c2
  simp only at c1 c2
  have hok' : BothOk s' (fun j => (Function.update ts i t' j).nS) (fun j => (Function.update ts i t' j).nB)
      (fun j => (Function.update ts i t' j).rS) (fun j => (Function.update ts i t' j).rB) := by
    rw [update_own ts i t' TSt.nS, update_own ts i t' TSt.nB, update_own ts i t' TSt.rS,
      update_own ts i t' TSt.rB]
    exact hst.ok
  have hgood' : ∀ j, (Function.update ts i t' j).Good s' := by
    intro j
    by_cases e : j = i
    · subst e; rw [Function.update_self]; exact hst.good
    · rw [Function.update_of_ne e]
      exact (h.good j).mono hst.keepsN hst.keepsR (hst.heldNS j e) (hst.heldNB j e) (hst.heldRS j e)
        (hst.heldRB j e)
  have hpool : ∀ j, (c.step i).pool j = (Function.update ts i t' j).heapProg A := by
    intro j
    rw [c2 j]
    by_cases e : j = i
    · subst e; simp
    · rw [Function.update_of_ne e, Function.update_of_ne e, h.pool j]
  refine ⟨Function.update ts i t', ?_⟩
  rcases hst.slot with ⟨e1, e2⟩ | e1
  · refine .inl ⟨hpool, fun j => ?_, by rw [c1, e2, h.st], by rw [c1]; exact hok', by rw [c1]; exact hgood'⟩
    by_cases e : j = i
    · subst e; rw [Function.update_self, e1, hsame.slot, h.slots]
    · rw [Function.update_of_ne e, h.slots j]
  · have hpa : (a.pool i).step1 a.st = (s'.view, t'.slotProg) := by rw [h.slots i, ← hsame.slot, h.st, e1]
    rw [hpa] at a1 a2
    simp only at a1 a2
    refine .inr ⟨hpool, fun j => ?_, by rw [a1, c1], by rw [c1]; exact hok', by rw [c1]; exact hgood'⟩
    rw [a2 j]
    by_cases e : j = i
    · subst e; simp
    · rw [Function.update_of_ne e, Function.update_of_ne e, h.slots j]

/-- Every run on the heap is a run on the tables as maps, with some of the turns left out. -/
theorem PtrSim.run {A : PtrAlloc M W} {c : Conf (PtrRib M W) ι R} {a : Conf (Rib M W) ι R}
    {ts : ∀ i, TSt M W (R i)} (h : PtrSim A c a ts) (u : List ι) :
    ∃ u' ts', u'.Sublist u ∧ PtrSim A (c.exec u) (a.exec u') ts' := by
  induction u using List.reverseRecOn with
  | nil => exact ⟨[], ts, List.Sublist.refl _, h⟩
  | append_singleton u i ih =>
    obtain ⟨u', ts', hsub, hs⟩ := ih
    obtain ⟨ts'', hn | hn⟩ := hs.step i
    · refine ⟨u', ts'', hsub.trans (List.sublist_append_left _ _), ?_⟩
      rw [Conf.exec, List.foldl_append]; exact hn
    · refine ⟨u' ++ [i], ts'', hsub.append (List.Sublist.refl _), ?_⟩
      rw [Conf.exec, Conf.exec, List.foldl_append, List.foldl_append]; exact hn

/-- A call that has ended on the heap has ended on the maps, in the same way. -/
theorem PtrSim.over {A : PtrAlloc M W} {c : Conf (PtrRib M W) ι R} {a : Conf (Rib M W) ι R}
    {ts : ∀ i, TSt M W (R i)} (h : PtrSim A c a ts) (i : ι) :
    (∀ r, c.pool i = .ret r → a.pool i = .ret r) ∧ (c.pool i = .panic → a.pool i = .panic) ∧
      (c.pool i = .diverge → a.pool i = .diverge) ∧
      (¬ (c.pool i).IsAct → (ts i).nS = none ∧ (ts i).nB = none ∧ (ts i).rS = none ∧ (ts i).rB = none) := by
  obtain ⟨t, hsame, hset⟩ := TSt.settle (ts i) (h.good i)
  rw [h.pool i, h.slots i, ← hsame.heap, ← hsame.slot, ← hsame.nS, ← hsame.nB, ← hsame.rS, ← hsame.rB]
  have hact : ∀ p : Prog (PtrRib M W) (R i), p.IsAct → (∀ r, p ≠ .ret r) ∧ p ≠ .panic ∧ p ≠ .diverge := by
    intro p hp
    cases p with
    | act f k => exact ⟨(fun _ e => by cases e), (fun e => by cases e), (fun e => by cases e)⟩
    | _ => exact hp.elim
  have hcase : (t.heapProg A).IsAct → _ := fun ha => (hact _ ha)
  cases t with
  | idle f t =>
    cases t with
    | raw p => exact hset.elim
    | nodes op k => exact hset.elim
    | recs op k => exact hset.elim
    | ret r => exact ⟨(fun _ e => by cases e; rfl), (fun e => nomatch e), (fun e => nomatch e), fun _ => ⟨rfl, rfl, rfl, rfl⟩⟩
    | panic => exact ⟨(fun _ e => nomatch e), fun _ => rfl, (fun e => nomatch e), fun _ => ⟨rfl, rfl, rfl, rfl⟩⟩
    | diverge => exact ⟨(fun _ e => nomatch e), (fun e => nomatch e), fun _ => rfl, fun _ => ⟨rfl, rfl, rfl, rfl⟩⟩
    | frame f k => exact ⟨(fun _ e => nomatch e), (fun e => nomatch e), (fun e => nomatch e), fun _ => ⟨rfl, rfl, rfl, rfl⟩⟩
  | onN f pc k =>
    have ha : ((TSt.onN f pc k).heapProg A).IsAct := by
      obtain ⟨g1, g2, g3, g4, g5⟩ := hsame.good
      obtain ⟨h', pc', hst⟩ := h.ok.nodes.step A.nodes i pc hset g3 hsame.nS.symm hsame.nB.symm g4
      exact hst.act.zoom.bind
    obtain ⟨n1, n2, n3⟩ := hact _ ha
    exact ⟨fun r e => (n1 r e).elim, fun e => (n2 e).elim, fun e => (n3 e).elim, fun hn => (hn ha).elim⟩
  | onR f pc k =>
    have ha : ((TSt.onR f pc k).heapProg A).IsAct := by
      obtain ⟨g1, g2, g3, g4, g5⟩ := hsame.good
      obtain ⟨h', pc', hst⟩ := h.ok.recs.step A.recs i pc hset g3 hsame.rS.symm hsame.rB.symm g4
      exact hst.act.zoom.bind
    obtain ⟨n1, n2, n3⟩ := hact _ ha
    exact ⟨fun r e => (n1 r e).elim, fun e => (n2 e).elim, fun e => (n3 e).elim, fun hn => (hn ha).elim⟩

/-- No call holds anything. -/
def Calm (s : PtrRib M W) : Prop :=
  BothOk (ι := Unit) s (fun _ => none) (fun _ => none) (fun _ => none) fun _ => none

omit [DecidableEq ι] in
theorem TblOk.none_iff {E : Type} [Entry E W] {ι' : Type} {m n : Nat} {h : TabHeap E} {S B : ι → Option Nat}
    (hS : ∀ i, S i = none) (hB : ∀ i, B i = none) (hok : TblOk m n h S B) :
    TblOk m n h (fun _ : ι' => none) fun _ => none := by
  obtain ⟨⟨ds, db, D, hi⟩, -, -, hr⟩ := hok
  refine ⟨⟨ds, db, D, hi.congr (fun x => ?_) fun x => ?_⟩, (fun _ _ _ e => nomatch e), (fun _ _ _ e => nomatch e), hr⟩
  · simp [hS]
  · simp [hB]

theorem PtrSim.start {A : PtrAlloc M W} {s : PtrRib M W} (hs : Calm s) (t : ∀ i, PtrProg M W (R i))
    (p : ∀ i, Prog (Rib M W) (R i)) (ht : ∀ i, (t i).Runs (p i)) :
    PtrSim A ⟨s, fun i => (t i).start A⟩ ⟨s.view, p⟩
      fun i => .idle ⟨fun _ => none, fun _ => none, fun _ _ => False, fun _ _ => False⟩ (t i) := by
  refine ⟨fun _ => rfl, fun i => (ht i).1.symm, rfl, ⟨hs.nodes.none_iff (fun _ => rfl) fun _ => rfl,
    hs.recs.none_iff (fun _ => rfl) fun _ => rfl⟩, fun i => ⟨?_, ?_, (ht i).2⟩⟩
  · intro a sz h; exact h.elim
  · intro a sz h; exact h.elim

/-- When all calls have ended, none holds anything. -/
theorem PtrSim.calm {A : PtrAlloc M W} {c : Conf (PtrRib M W) ι R} {a : Conf (Rib M W) ι R}
    {ts : ∀ i, TSt M W (R i)} (h : PtrSim A c a ts) (hq : ∀ i, ¬ (c.pool i).IsAct) : Calm c.st :=
  ⟨h.ok.nodes.none_iff (fun i => ((h.over i).2.2.2 (hq i)).1) fun i => ((h.over i).2.2.2 (hq i)).2.1,
    h.ok.recs.none_iff (fun i => ((h.over i).2.2.2 (hq i)).2.2.1) fun i => ((h.over i).2.2.2 (hq i)).2.2.2⟩

theorem Calm.empty : Calm (PtrRib.empty : PtrRib M W) := by
  refine ⟨⟨⟨_, _, _, TabInv.empty.congr (fun x => ?_) fun x => ?_⟩, (fun _ _ _ e => nomatch e),
    (fun _ _ _ e => nomatch e), fun r hr => (hr rfl).elim⟩,
    ⟨⟨_, _, _, TabInv.empty.congr (fun x => ?_) fun x => ?_⟩, (fun _ _ _ e => nomatch e),
    (fun _ _ _ e => nomatch e), fun r hr => (hr rfl).elim⟩⟩ <;> simp

end Rotonda
