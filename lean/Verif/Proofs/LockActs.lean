import Verif.Proofs.Lock
import Verif.Proofs.Always

/-!
# Every action of every call is either a critical section or needs no lock
-/

namespace Rotonda

section
variable {E V : Type} {W : Nat} [Entry E W]

/-- What the field behind the lock must satisfy. -/
structure PartLaws (part : E → V) (setPart : E → V → E) (bare : E → E) : Prop where
  part_set : ∀ e v, part (setPart e v) = v
  bare_set : ∀ e v, bare (setPart e v) = bare e
  ext : ∀ {e e'}, bare e = bare e' → part e = part e' → e = e'
  id : ∀ {e e'}, bare e = bare e' → Entry.id (W := W) e = Entry.id e'
  next : ∀ {e e'}, bare e = bare e' → Entry.next (W := W) e = Entry.next (W := W) e'

variable {part : E → V} {setPart : E → V → E} {bare : E → E}

theorem entryLocks_lawful (h : PartLaws (W := W) part setPart bare) :
    (entryLocks part setPart bare).Lawful where
  refl _ _ := rfl
  symm h a := (h a).symm
  trans h h' a := (h a).trans (h' a)
  ext {s s'} h1 h2 := by
    funext a
    have e1 := h1 a
    have e2 := h2 a
    simp only [entryLocks] at e2
    cases hs : s a <;> cases hs' : s' a <;> simp only [hs, hs', Option.map] at e1 e2 <;>
      first
      | rfl
      | cases e1
      | exact congrArg some (h.ext (Option.some.inj e1) (Option.some.inj e2))
  put_same s a v b := by
    simp only [entryLocks]
    cases he : s a with
    | none => rfl
    | some e =>
      dsimp only
      by_cases hb : b = a
      · subst hb; rw [Slots.set_same, he]; simp [h.bare_set]
      · rw [Slots.set_other _ _ hb]
  get_put {s a u} v hu := by
    simp only [entryLocks] at hu ⊢
    cases hs : s a with
    | none => rw [hs] at hu; cases hu
    | some e => simp [Slots.set_same, h.part_set]
  get_put_ne {s a b} v hb := by
    simp only [entryLocks]
    cases he : s a with
    | none => rfl
    | some e =>
      dsimp only
      rw [Slots.set_other _ _ hb]

theorem neutral_refRead (h : PartLaws (W := W) part setPart bare) (a : Addr) :
    (entryLocks part setPart bare).Neutral fun s : Slots E => ((s a).map (refOf a), s) where
  blind s s' hs := by
    refine ⟨?_, hs, fun _ e => e⟩
    have e1 := hs a
    show (s a).map _ = (s' a).map _
    cases hs : s a <;> cases hs' : s' a <;> simp only [hs, hs', Option.map] at e1 ⊢ <;>
      first
      | cases e1; done
      | (have e := Option.some.inj e1
         simp only [refOf, h.id e, h.next e])
  keeps s a v hv := hv

omit [Entry E W] in
theorem neutral_readAt {ρ : Type} {f : E → ρ} (a : Addr)
    (hf : ∀ e e', bare e = bare e' → f e = f e') :
    (entryLocks part setPart bare).Neutral fun s : Slots E => ((s a).map f, s) where
  blind s s' hs := by
    refine ⟨?_, hs, fun _ e => e⟩
    have e1 := hs a
    show (s a).map _ = (s' a).map _
    cases hs : s a <;> cases hs' : s' a <;> simp only [hs, hs', Option.map] at e1 ⊢ <;>
      first
      | cases e1; done
      | exact congrArg some (hf _ _ (Option.some.inj e1))
  keeps s a v hv := hv

theorem neutral_casInit (h : PartLaws (W := W) part setPart bare) (a : Addr) (e : E) :
    (entryLocks part setPart bare).Neutral fun s : Slots E =>
      match s a with
      | none => ((refOf a e, true), s.set a e)
      | some e' => ((refOf a e', false), s) where
  blind s s' hs := by
    have e1 := hs a
    cases hsa : s a <;> cases hsa' : s' a <;> simp only [hsa, hsa', Option.map] at e1 <;>
      first
      | cases e1; done
      | skip
    · refine ⟨rfl, fun b => ?_, fun b hb => ?_⟩
      · dsimp only
        by_cases hb : b = a
        · subst hb; rw [Slots.set_same, Slots.set_same]
        · rw [Slots.set_other _ _ hb, Slots.set_other _ _ hb]; exact hs b
      · dsimp only [entryLocks] at hb ⊢
        by_cases hb' : b = a
        · subst hb'; rw [Slots.set_same, Slots.set_same]
        · rw [Slots.set_other _ _ hb', Slots.set_other _ _ hb']; exact hb
    · have e := Option.some.inj e1
      exact ⟨by simp only [refOf, h.id e, h.next e], hs, fun _ hb => hb⟩
  keeps s b v hv := by
    dsimp only [entryLocks] at hv ⊢
    split
    · rename_i hn
      have : b ≠ a := by rintro rfl; rw [hn] at hv; cases hv
      simp only [Slots.set_other _ _ this]; exact hv
    · exact hv

omit [Entry E W] in
theorem neutral_accessAt {ρ : Type} {f : E → ρ × E} (a : Addr)
    (hf : ∀ e e', bare e = bare e' → (f e).1 = (f e').1 ∧ bare (f e).2 = bare (f e').2)
    (hp : ∀ e, part (f e).2 = part e) :
    (entryLocks part setPart bare).Neutral fun s : Slots E =>
      match s a with
      | none => (none, s)
      | some e => (some (f e).1, s.set a (f e).2) where
  blind s s' hs := by
    have e1 := hs a
    cases hsa : s a <;> cases hsa' : s' a <;> simp only [hsa, hsa', Option.map] at e1 <;>
      first
      | cases e1; done
      | skip
    · exact ⟨rfl, hs, fun _ hb => hb⟩
    · rename_i x y
      obtain ⟨e2, e3⟩ := hf _ _ (Option.some.inj e1)
      refine ⟨congrArg some e2, fun b => ?_, fun b hb => ?_⟩
      · dsimp only
        by_cases hb : b = a
        · subst hb; rw [Slots.set_same, Slots.set_same]; exact congrArg some e3
        · rw [Slots.set_other _ _ hb, Slots.set_other _ _ hb]; exact hs b
      · dsimp only [entryLocks] at hb ⊢
        by_cases hb' : b = a
        · subst hb'
          rw [Slots.set_same, Slots.set_same]
          rw [hsa, hsa'] at hb
          simpa only [Option.map, hp] using hb
        · rw [Slots.set_other _ _ hb', Slots.set_other _ _ hb']; exact hb
  keeps s b v hv := by
    dsimp only [entryLocks] at hv ⊢
    split
    · exact hv
    · rename_i e he
      by_cases hb : b = a
      · subst hb
        rw [he] at hv
        simpa only [Slots.set_same, Option.map, hp] using hv
      · simp only [Slots.set_other _ _ hb]; exact hv

omit [Entry E W] in
theorem sect_accessAt {ρ : Type} (a : Addr) (g : V → ρ × V) :
    (entryLocks part setPart bare).Act fun s : Slots E =>
      match s a with
      | none => (none, s)
      | some e => (some (g (part e)).1, s.set a (setPart e (g (part e)).2)) := by
  have : (fun s : Slots E =>
      match s a with
      | none => (none, s)
      | some e => (some (g (part e)).1, s.set a (setPart e (g (part e)).2))) =
      (entryLocks part setPart bare).sect a g := by
    funext s
    cases hs : s a <;> simp [Guarded.sect, entryLocks, hs]
  rw [this]
  exact Guarded.Act.sect (P := entryLocks part setPart bare) a g

theorem sect_readAt (h : PartLaws (W := W) part setPart bare) {ρ : Type} (a : Addr) (g : V → ρ) :
    (entryLocks part setPart bare).Act fun s : Slots E => ((s a).map fun e => g (part e), s) := by
  have : (fun s : Slots E => ((s a).map fun e => g (part e), s)) =
      (entryLocks part setPart bare).sect a fun v => (g v, v) := by
    funext s
    cases hs : s a with
    | none => simp [Guarded.sect, entryLocks, hs]
    | some e =>
      have e1 : setPart e (part e) = e := h.ext (h.bare_set ..) (h.part_set ..)
      have e2 : s.set a e = s := by
        funext b
        by_cases hb : b = a
        · subst hb; rw [Slots.set_same, hs]
        · rw [Slots.set_other _ _ hb]
      simp [Guarded.sect, entryLocks, hs, e1, e2]
  rw [this]
  exact Guarded.Act.sect (P := entryLocks part setPart bare) a _

end

/-! ## The tables in the store -/

variable {M : Type} {W : Nat}

theorem recMaps_laws : PartLaws (W := W) (StoredPrefix.recs (M := M))
    (fun e v => { e with recs := v }) (fun e => { e with recs := [] }) where
  part_set _ _ := rfl
  bare_set _ _ := rfl
  ext {e e'} h h' := by
    cases e; cases e'
    simp only [StoredPrefix.mk.injEq, true_and] at h h' ⊢
    exact ⟨h.1, h', h.2⟩
  id {e e'} h := by
    have := congrArg (StoredPrefix.id (M := M)) h
    exact this
  next {e e'} h := by
    have := congrArg (StoredPrefix.next (M := M)) h
    exact this

theorem nodeMuis_laws : PartLaws (W := W) (StoredNode.rbm (W := W))
    (fun e v => { e with rbm := v }) (fun e => { e with rbm := fun _ => false }) where
  part_set _ _ := rfl
  bare_set _ _ := rfl
  ext {e e'} h h' := by
    cases e; cases e'
    simp only [StoredNode.mk.injEq, and_true] at h h' ⊢
    simp_all
  id {e e'} h := by
    have := congrArg StoredNode.id h
    exact this
  next {e e'} h := by
    have := congrArg StoredNode.next h
    exact this

theorem Rib.ext_rest {r r' : Rib M W} (h : r.rest = r'.rest) (hn : r.tree.slots = r'.tree.slots)
    (hp : r.cht.slots = r'.cht.slots) : r = r' := by
  obtain ⟨⟨a1, a2, a3, a4, a5⟩, ⟨b1, b2, b3, b4⟩, l, x, y⟩ := r
  obtain ⟨⟨a1', a2', a3', a4', a5'⟩, ⟨b1', b2', b3', b4'⟩, l', x', y'⟩ := r'
  simp only [Rib.rest, Rib.mk.injEq, Tree.mk.injEq, PCht.mk.injEq] at h hn hp ⊢
  simp_all

theorem ribLocks_lawful : (ribLocks M W).Lawful := by
  have hR := entryLocks_lawful (recMaps_laws (M := M) (W := W))
  have hN := entryLocks_lawful (nodeMuis_laws (W := W))
  exact
  { refl := fun s => ⟨rfl, hR.refl _, hN.refl _⟩
    symm := fun h => ⟨h.1.symm, hR.symm h.2.1, hN.symm h.2.2⟩
    trans := fun h h' => ⟨h.1.trans h'.1, hR.trans h.2.1 h'.2.1, hN.trans h.2.2 h'.2.2⟩
    ext := fun h h' => Rib.ext_rest h.1 (hN.ext h.2.2 fun a => h' (.inr a))
      (hR.ext h.2.1 fun a => h' (.inl a))
    put_same := fun s a v => match a with
      | .inl a => ⟨rfl, hR.put_same _ _ _, hN.refl _⟩
      | .inr a => ⟨rfl, hR.refl _, hN.put_same _ _ _⟩
    get_put := fun {s a u} v h => match a with
      | .inl a => hR.get_put (u := u) v h
      | .inr a => hN.get_put (u := u) v h
    get_put_ne := fun {s a b} v h => match a, b with
      | .inl a, .inl b => hR.get_put_ne v fun e => h (congrArg _ e)
      | .inr a, .inr b => hN.get_put_ne v fun e => h (congrArg _ e)
      | .inl a, .inr b => rfl
      | .inr a, .inl b => rfl }

/-- An action on a component as an action on the whole. -/
def zoomAct {σ τ ρ : Type} (L : Lens σ τ) (f : τ → ρ × τ) : σ → ρ × σ :=
  fun s => ((f (L.get s)).1, L.set s (f (L.get s)).2)

/-- What an action of the tree may be. -/
def TreeAct (M : Type) {W : Nat} {ρ : Type} (f : Tree W → ρ × Tree W) : Prop :=
  (ribLocks M W).Act (zoomAct Rib.treeL f)

/-- What an action of the prefix table may be. -/
def ChtAct {ρ : Type} (f : PCht M W → ρ × PCht M W) : Prop :=
  (ribLocks M W).Act (zoomAct Rib.chtL f)

theorem act_onNodes {ρ : Type} {f : NSlots W → ρ × NSlots W} (h : (nodeMuis W).Act f) :
    TreeAct M (zoomAct Tree.slotsL f) := by
  cases h with
  | neutral h =>
    refine .neutral ⟨fun s s' hs => ?_, fun s a v hv => ?_⟩
    · obtain ⟨e1, e2, e3⟩ := h.blind _ _ hs.2.2
      refine ⟨e1, ⟨hs.1, hs.2.1, e2⟩, fun a ha => ?_⟩
      cases a with
      | inl a => exact ha
      | inr a => exact e3 a ha
    · cases a with
      | inl a => exact hv
      | inr a => exact h.keeps _ _ _ hv
  | @sect ρ a g =>
    have : zoomAct Rib.treeL (zoomAct Tree.slotsL ((nodeMuis W).sect a g)) =
        (ribLocks M W).sect (.inr a) g := by
      funext r
      simp only [zoomAct, Guarded.sect, Rib.treeL, Tree.slotsL, ribLocks]
      cases (nodeMuis W).get r.tree.slots a <;> rfl
    rw [TreeAct, this]
    exact Guarded.Act.sect (P := ribLocks M W) (.inr a) g

theorem act_onRecs {ρ : Type} {f : PSlots M W → ρ × PSlots M W} (h : (recMaps M W).Act f) :
    ChtAct (zoomAct PCht.slotsL f) := by
  cases h with
  | neutral h =>
    refine .neutral ⟨fun s s' hs => ?_, fun s a v hv => ?_⟩
    · obtain ⟨e1, e2, e3⟩ := h.blind _ _ hs.2.1
      refine ⟨e1, ⟨hs.1, e2, hs.2.2⟩, fun a ha => ?_⟩
      cases a with
      | inl a => exact e3 a ha
      | inr a => exact ha
    · cases a with
      | inl a => exact h.keeps _ _ _ hv
      | inr a => exact hv
  | @sect ρ a g =>
    have : zoomAct Rib.chtL (zoomAct PCht.slotsL ((recMaps M W).sect a g)) =
        (ribLocks M W).sect (.inl a) g := by
      funext r
      simp only [zoomAct, Guarded.sect, Rib.chtL, PCht.slotsL, ribLocks]
      cases (recMaps M W).get r.cht.slots a <;> rfl
    rw [ChtAct, this]
    exact Guarded.Act.sect (P := ribLocks M W) (.inl a) g

/-- An action that does not look at the two tables. -/
theorem act_rest {ρ : Type} {f : Rib M W → ρ × Rib M W} (h1 : ∀ r, (f r).1 = (f r.rest).1)
    (h2 : ∀ r, (f r).2.rest = (f r.rest).2.rest) (h3 : ∀ r, (f r).2.tree.slots = r.tree.slots)
    (h4 : ∀ r, (f r).2.cht.slots = r.cht.slots) : (ribLocks M W).Act f := by
  refine .neutral ⟨fun s s' hs => ⟨?_, ⟨?_, ?_, ?_⟩, fun a ha => ?_⟩, fun s a v hv => ?_⟩
  · rw [h1, h1 s', hs.1]
  · rw [h2, h2 s', hs.1]
  · rw [h4, h4]; exact hs.2.1
  · rw [h3, h3]; exact hs.2.2
  · cases a <;> simpa only [ribLocks, h3, h4] using ha
  · cases a <;> simpa only [ribLocks, h3, h4] using hv

/-! ## All actions of a program -/

namespace Prog
variable {σ τ α β : Type}

/-- Every action of the program satisfies `Q`. -/
def Acts (Q : ∀ {ρ : Type}, (σ → ρ × σ) → Prop) : Prog σ α → Prop
  | ret _ | panic | diverge => True
  | act f k => Q f ∧ ∀ a, (k a).Acts Q

variable {Q : ∀ {ρ : Type}, (σ → ρ × σ) → Prop}

theorem Acts.bind {p : Prog σ α} {k : α → Prog σ β} (h : p.Acts Q)
    (hk : ∀ a, (k a).Acts Q) : (p >>= k).Acts Q := by
  induction p with
  | ret a => exact hk a
  | act f g ih => exact ⟨h.1, fun a => ih a (h.2 a)⟩
  | panic => trivial
  | diverge => trivial

theorem acts_ret (a : α) : (ret a : Prog σ α).Acts Q := trivial
theorem acts_pure (a : α) : (pure a : Prog σ α).Acts Q := trivial
theorem acts_panic : (panic : Prog σ α).Acts Q := trivial
theorem acts_diverge : (diverge : Prog σ α).Acts Q := trivial
theorem acts_atomic {f : σ → α × σ} (h : Q f) : (atomic f).Acts Q := ⟨h, fun _ => trivial⟩
theorem acts_read {f : σ → α} (h : Q fun s => (f s, s)) : (read f).Acts Q := ⟨h, fun _ => trivial⟩
theorem acts_ofOption (o : Option α) : (ofOption o : Prog σ α).Acts Q := by cases o <;> trivial

theorem Acts.zoom {L : Lens σ τ} {Q' : ∀ {ρ : Type}, (τ → ρ × τ) → Prop}
    (hQ : ∀ {ρ : Type} (f : τ → ρ × τ), Q' f → Q (zoomAct L f)) {p : Prog τ α} (h : p.Acts Q') :
    (p.zoom L).Acts Q := by
  induction p with
  | ret a => trivial
  | act f k ih => exact ⟨hQ _ h.1, fun a => ih a (h.2 a)⟩
  | panic => trivial
  | diverge => trivial

end Prog

open Prog

/-- As `read_only`, for `Acts`. -/
syntax "acts" "[" term,* "]" : tactic

macro_rules
  | `(tactic| acts [$ts,*]) => do
    let mut parts ← `(tactic| fail)
    for t in ts.getElems do
      parts ← `(tactic| first | with_reducible exact $t | ($parts:tactic))
    `(tactic| repeat' first
      | with_reducible assumption
      | with_reducible exact acts_pure _
      | with_reducible exact acts_ret _
      | with_reducible exact acts_panic
      | with_reducible exact acts_diverge
      | with_reducible exact acts_ofOption _
      | ($parts:tactic)
      | with_reducible apply Acts.bind
      | (intro _; try dsimp only)
      | split)

end Rotonda
