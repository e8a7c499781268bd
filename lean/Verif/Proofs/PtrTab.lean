import Verif.Spec.Pointers
import Verif.Proofs.Wp
import Mathlib.Tactic.Choose

/-!
# Programs that follow only pointers they have found
-/

namespace Rotonda

open Prog

/-! ## One table -/

section One

variable {E : Type} {W : Nat} [Entry E W] {α β : Type} {R : Nat}

/-- The program only uses operations on the table, and only pointers found before.  `Q` is what
is known at the end. -/
inductive TabS (R : Nat) (Q : (Addr → Nat → Prop) → α → Prop) :
    (Addr → Nat → Prop) → Prog (Slots E) α → Prop
  | ret {K : Addr → Nat → Prop} {a : α} (h : Q K a) : TabS R Q K (.ret a)
  | panic {K : Addr → Nat → Prop} : TabS R Q K .panic
  | diverge {K : Addr → Nat → Prop} : TabS R Q K .diverge
  | op {K : Addr → Nat → Prop} {ρ : Type} (op : TabOp E W ρ) (k : ρ → Prog (Slots E) α) (hp : op.Pre R K)
      (hk : ∀ K' r, op.Post K K' r → TabS R Q K' (k r)) : TabS R Q K (op.onSlots.bind k)

variable {Q : (Addr → Nat → Prop) → α → Prop} {Q' : (Addr → Nat → Prop) → β → Prop}
  {K : Addr → Nat → Prop}

theorem TabS.bind {p : Prog (Slots E) α} {k : α → Prog (Slots E) β} (h : TabS R Q K p)
    (hk : ∀ K' a, Q K' a → TabS R Q' K' (k a)) : TabS R Q' K (p >>= k) := by
  induction h with
  | ret h => exact hk _ _ h
  | panic => exact .panic
  | diverge => exact .diverge
  | op op g hp _ ih =>
    have := bind_assoc' op.onSlots g k
    exact Eq.mpr (congrArg (TabS R Q' _) this) (.op op _ hp fun K' r hr => ih K' r hr)

theorem TabS.mono {Q₂ : (Addr → Nat → Prop) → α → Prop} {p : Prog (Slots E) α} (h : TabS R Q K p)
    (hQ : ∀ K a, Q K a → Q₂ K a) : TabS R Q₂ K p := by
  induction h with
  | ret h => exact .ret (hQ _ _ h)
  | panic => exact .panic
  | diverge => exact .diverge
  | op op g hp _ ih => exact .op op g hp ih

theorem TabS.of_op {ρ : Type} (op : TabOp E W ρ) (hp : op.Pre R K) :
    TabS R (fun K' r => op.Post K K' r) K op.onSlots := by
  have := bind_ret' op.onSlots
  exact Eq.mp (congrArg (TabS R _ _) this) (.op op Prog.ret hp fun K' r h => .ret h)

theorem TabS.ofOption {o : Option α} (h : ∀ a, o = some a → Q K a) :
    TabS R Q K (Prog.ofOption o : Prog (Slots E) α) := by
  cases o with
  | none => exact .panic
  | some a => exact .ret (h a rfl)

theorem TabS.opt {o : Option α} {k : α → Prog (Slots E) β} (h : ∀ a, o = some a → TabS R Q' K (k a)) :
    TabS R Q' K (Prog.ofOption o >>= k) := by
  cases o with
  | none => exact .panic
  | some a => exact h a rfl

theorem TabS.get {b : Bucket} {idx : Nat} {k : Option (Ref W) → Prog (Slots E) α} (hb : Knows R K b)
    (hn : TabS R Q K (k none))
    (hs : ∀ id nx, TabS R Q (addKnown K (b.slot idx) nx) (k (some ⟨b.slot idx, id, nx⟩))) :
    TabS R Q K (sliceGet b idx >>= k) := by
  refine .bind (.of_op (.get b idx) hb) ?_
  rintro K' o (⟨rfl, rfl⟩ | ⟨id, nx, rfl, rfl⟩)
  · exact hn
  · exact hs id nx

theorem TabS.init {b : Bucket} {idx : Nat} {e : E} {k : Ref W × Bool → Prog (Slots E) α} (hb : Knows R K b)
    (hs : ∀ id nx us, TabS R Q (addKnown K (b.slot idx) nx) (k (⟨b.slot idx, id, nx⟩, us))) :
    TabS R Q K (sliceGetOrInit b idx e >>= k) := by
  refine .bind (.of_op (.init b idx e) hb) ?_
  rintro K' ⟨r, us⟩ ⟨id, nx, h1, rfl⟩
  simp only at h1
  subst h1
  exact hs id nx us

theorem Knows.child (b : Bucket) (idx nx : Nat) : Knows R (addKnown K (b.slot idx) nx) (b.child idx nx) :=
  .inr ⟨by simp [Bucket.child], .inr ⟨rfl, rfl⟩⟩

theorem addKnown_self (a : Addr) (nx : Nat) : ∃ n, addKnown K a nx a n := ⟨nx, .inr ⟨rfl, rfl⟩⟩

/-- The program only uses the entry at `a`. -/
def Local (a : Addr) (p : Prog (Slots E) α) : Prop :=
  ∀ R K, (∃ n, K a n) → TabS R (fun K' _ => K' = K) K p

theorem Local.bind {a : Addr} {p : Prog (Slots E) α} {k : α → Prog (Slots E) β} (h : Local a p)
    (hk : ∀ x, Local a (k x)) : Local a (p >>= k) := by
  intro R K ha
  refine .bind (h R K ha) ?_
  rintro K' x rfl
  exact hk x R _ ha

theorem local_ret (a : Addr) (x : α) : Local (E := E) a (.ret x) := fun _ _ _ => .ret rfl
theorem local_pure (a : Addr) (x : α) : Local (E := E) a (pure x) := fun _ _ _ => .ret rfl
theorem local_panic (a : Addr) : Local (E := E) (α := α) a .panic := fun _ _ _ => .panic
theorem local_diverge (a : Addr) : Local (E := E) (α := α) a .diverge := fun _ _ _ => .diverge
theorem local_ofOption (a : Addr) (o : Option α) : Local (E := E) a (Prog.ofOption o) :=
  fun _ _ _ => .ofOption fun _ _ => rfl

theorem local_accessAt (a : Addr) {f : E → α × E}
    (hf : ∀ e, Entry.id (f e).2 = Entry.id e ∧ Entry.next (f e).2 = Entry.next e) :
    Local a (accessAt a f) :=
  fun _ _ ha => .of_op (.access a f) ⟨ha, hf⟩

theorem readAt_eq (a : Addr) (f : E → α) : readAt a f = accessAt a fun e => (f e, e) := by
  have : (fun s : Slots E => ((s a).map f, s)) = fun s : Slots E => match s a with
      | none => (none, s)
      | some e => (some (f e), s.set a e) := by
    funext s
    cases h : s a with
    | none => rfl
    | some e =>
      have : s.set a e = s := by
        funext b
        simp only [Slots.set]
        split
        · next e' => rw [e', h]
        · rfl
      simp [this]
  rw [readAt, accessAt, Prog.read, Prog.atomic, this]
  rfl

theorem local_readAt (a : Addr) (f : E → α) : Local a (readAt a f) := by
  rw [readAt_eq]
  exact local_accessAt a fun _ => ⟨rfl, rfl⟩

theorem TabS.loc {a : Addr} {p : Prog (Slots E) α} {k : α → Prog (Slots E) β} (ha : ∃ n, K a n)
    (h : Local a p) (hk : ∀ x, TabS R Q' K (k x)) : TabS R Q' K (p >>= k) := by
  refine .bind (h R K ha) ?_
  rintro K' x rfl
  exact hk x

/-- The program needs no pointers. -/
def FreeS (R : Nat) (p : Prog (Slots E) α) : Prop := ∀ K, TabS R (fun _ _ => True) K p

theorem FreeS.bind {p : Prog (Slots E) α} {k : α → Prog (Slots E) β} (h : FreeS R p)
    (hk : ∀ x, FreeS R (k x)) : FreeS R (p >>= k) :=
  fun K => .bind (h K) fun K' x _ => hk x K'

theorem freeS_ret (x : α) : FreeS (E := E) R (.ret x) := fun _ => .ret trivial
theorem freeS_pure (x : α) : FreeS (E := E) R (pure x) := fun _ => .ret trivial
theorem freeS_panic : FreeS (E := E) (α := α) R .panic := fun _ => .panic
theorem freeS_diverge : FreeS (E := E) (α := α) R .diverge := fun _ => .diverge
theorem freeS_ofOption (o : Option α) : FreeS (E := E) R (Prog.ofOption o) :=
  fun _ => .ofOption fun _ _ => trivial

/-- The program needs no pointers; when it finds an entry it has the pointer to it. -/
def Yields (R : Nat) (p : Prog (Slots E) (Option (Ref W))) : Prop :=
  ∀ K, TabS R (fun K' o => ∀ r, o = some r → ∃ n, K' r.addr n) K p

theorem Yields.free {p : Prog (Slots E) (Option (Ref W))} (h : Yields R p) : FreeS R p :=
  fun K => (h K).mono fun _ _ _ => trivial

theorem Yields.use {p : Prog (Slots E) (Option (Ref W))} {k : Option (Ref W) → Prog (Slots E) β}
    (h : Yields R p) (hn : FreeS R (k none)) (hs : ∀ r, Local r.addr (k (some r))) : FreeS R (p >>= k) := by
  intro K
  refine .bind (h K) ?_
  rintro K' (_ | r) hr
  · exact hn K'
  · exact (hs r R K' (hr r rfl)).mono fun _ _ _ => trivial

end One

/-- As `always`, for programs that use one entry. -/
syntax "localp" "[" term,* "]" : tactic

macro_rules
  | `(tactic| localp [$ts,*]) => do
    let mut parts ← `(tactic| fail)
    for t in ts.getElems do
      parts ← `(tactic| first | with_reducible exact $t | ($parts:tactic))
    `(tactic| repeat' first
      | with_reducible assumption
      | with_reducible exact local_pure _ _
      | with_reducible exact local_ret _ _
      | with_reducible exact local_panic _
      | with_reducible exact local_diverge _
      | with_reducible exact local_ofOption _ _
      | with_reducible exact local_readAt _ _
      | ($parts:tactic)
      | with_reducible apply Local.bind
      | (with_reducible intro _; try dsimp only)
      | split)

/-- As `always`, for programs that need no pointers. -/
syntax "frees" "[" term,* "]" : tactic

macro_rules
  | `(tactic| frees [$ts,*]) => do
    let mut parts ← `(tactic| fail)
    for t in ts.getElems do
      parts ← `(tactic| first | with_reducible exact $t | ($parts:tactic))
    `(tactic| repeat' first
      | with_reducible assumption
      | with_reducible exact freeS_pure _
      | with_reducible exact freeS_ret _
      | with_reducible exact freeS_panic
      | with_reducible exact freeS_diverge
      | with_reducible exact freeS_ofOption _
      | ($parts:tactic)
      | with_reducible apply FreeS.bind
      | (with_reducible intro _; try dsimp only)
      | split)

/-! ## The whole store -/

section Whole

variable {M : Type} {W : Nat} {α β σ : Type}

/-- As `TabS`, for both tables and the rest of the store. -/
inductive TabR (Q : (Addr → Nat → Prop) → (Addr → Nat → Prop) → α → Prop) :
    (Addr → Nat → Prop) → (Addr → Nat → Prop) → Prog (Rib M W) α → Prop
  | ret {K Kr : Addr → Nat → Prop} {a : α} (h : Q K Kr a) : TabR Q K Kr (.ret a)
  | panic {K Kr : Addr → Nat → Prop} : TabR Q K Kr .panic
  | diverge {K Kr : Addr → Nat → Prop} : TabR Q K Kr .diverge
  | nodes {K Kr : Addr → Nat → Prop} {ρ : Type} (op : TabOp (StoredNode W) W ρ) (k : ρ → Prog (Rib M W) α)
      (hp : op.Pre (nodeRoots W) K) (hk : ∀ K' r, op.Post K K' r → TabR Q K' Kr (k r)) :
      TabR Q K Kr ((onNodes op.onSlots).bind k)
  | recs {K Kr : Addr → Nat → Prop} {ρ : Type} (op : TabOp (StoredPrefix M W) W ρ) (k : ρ → Prog (Rib M W) α)
      (hp : op.Pre (prefixRoots W) Kr) (hk : ∀ K' r, op.Post Kr K' r → TabR Q K K' (k r)) :
      TabR Q K Kr ((onRecs op.onSlots).bind k)
  | frame {K Kr : Addr → Nat → Prop} {ρ : Type} (f : Rib M W → ρ × Rib M W) (k : ρ → Prog (Rib M W) α)
      (hf : FrameOk f) (hk : ∀ r, TabR Q K Kr (k r)) : TabR Q K Kr (.act f k)

theorem TabOp.Post.unique {E ρ : Type} [Entry E W] {op : TabOp E W ρ} {K K₁ K₂ : Addr → Nat → Prop} {r : ρ}
    (h₁ : op.Post K K₁ r) (h₂ : op.Post K K₂ r) : K₁ = K₂ := by
  cases op with
  | get b idx =>
    rcases h₁ with ⟨rfl, rfl⟩ | ⟨id, nx, rfl, rfl⟩ <;> rcases h₂ with ⟨h, rfl⟩ | ⟨id', nx', h, rfl⟩
    · rfl
    · cases h
    · cases h
    · cases h; rfl
  | init b idx e =>
    obtain ⟨id, nx, h, rfl⟩ := h₁
    obtain ⟨id', nx', h', rfl⟩ := h₂
    rw [h] at h'
    cases h'
    rfl
  | access a f => exact h₁.trans h₂.symm

theorem TabR.scoped {Q : (Addr → Nat → Prop) → (Addr → Nat → Prop) → α → Prop} {K Kr : Addr → Nat → Prop}
    {p : Prog (Rib M W) α} (h : TabR Q K Kr p) : ∃ t : PtrProg M W α, t.onSlots = p ∧ t.Scoped K Kr := by
  classical
  induction h with
  | ret h => exact ⟨.ret _, rfl, trivial⟩
  | panic => exact ⟨.panic, rfl, trivial⟩
  | diverge => exact ⟨.diverge, rfl, trivial⟩
  | @nodes K Kr ρ op k hp _ ih =>
    have hall : ∀ r, ∃ t : PtrProg M W α, t.onSlots = k r ∧ ∀ K', op.Post K K' r → t.Scoped K' Kr := by
      intro r
      by_cases hx : ∃ K', op.Post K K' r
      · obtain ⟨K', hK⟩ := hx
        obtain ⟨t, h1, h2⟩ := ih K' r hK
        exact ⟨t, h1, fun K₂ h => hK.unique h ▸ h2⟩
      · exact ⟨.raw (k r), rfl, fun K₂ h => (hx ⟨K₂, h⟩).elim⟩
    choose t h1 h2 using hall
    refine ⟨.nodes op t, ?_, hp, fun K' r hr => h2 r K' hr⟩
    rw [PtrProg.onSlots]
    congr 1
    funext r
    exact h1 r
  | @recs K Kr ρ op k hp _ ih =>
    have hall : ∀ r, ∃ t : PtrProg M W α, t.onSlots = k r ∧ ∀ K', op.Post Kr K' r → t.Scoped K K' := by
      intro r
      by_cases hx : ∃ K', op.Post Kr K' r
      · obtain ⟨K', hK⟩ := hx
        obtain ⟨t, h1, h2⟩ := ih K' r hK
        exact ⟨t, h1, fun K₂ h => hK.unique h ▸ h2⟩
      · exact ⟨.raw (k r), rfl, fun K₂ h => (hx ⟨K₂, h⟩).elim⟩
    choose t h1 h2 using hall
    refine ⟨.recs op t, ?_, hp, fun K' r hr => h2 r K' hr⟩
    rw [PtrProg.onSlots]
    congr 1
    funext r
    exact h1 r
  | frame f k hf _ ih =>
    choose t h1 h2 using ih
    refine ⟨.frame f t, ?_, hf, h2⟩
    rw [PtrProg.onSlots]
    congr 1
    funext r
    exact h1 r

variable {Q : (Addr → Nat → Prop) → (Addr → Nat → Prop) → α → Prop}
  {Q' : (Addr → Nat → Prop) → (Addr → Nat → Prop) → β → Prop} {K Kr : Addr → Nat → Prop}

theorem TabR.bind {p : Prog (Rib M W) α} {k : α → Prog (Rib M W) β} (h : TabR Q K Kr p)
    (hk : ∀ K' Kr' a, Q K' Kr' a → TabR Q' K' Kr' (k a)) : TabR Q' K Kr (p >>= k) := by
  induction h with
  | ret h => exact hk _ _ _ h
  | panic => exact .panic
  | diverge => exact .diverge
  | nodes op g hp _ ih =>
    exact Eq.mpr (congrArg (TabR Q' _ _) (bind_assoc' _ g k)) (.nodes op _ hp fun K' r hr => ih K' r hr)
  | recs op g hp _ ih =>
    exact Eq.mpr (congrArg (TabR Q' _ _) (bind_assoc' _ g k)) (.recs op _ hp fun K' r hr => ih K' r hr)
  | frame f g hf _ ih => exact .frame f _ hf ih

theorem TabR.mono {Q₂ : (Addr → Nat → Prop) → (Addr → Nat → Prop) → α → Prop} {p : Prog (Rib M W) α}
    (h : TabR Q K Kr p) (hQ : ∀ K Kr a, Q K Kr a → Q₂ K Kr a) : TabR Q₂ K Kr p := by
  induction h with
  | ret h => exact .ret (hQ _ _ _ h)
  | panic => exact .panic
  | diverge => exact .diverge
  | nodes op g hp _ ih => exact .nodes op g hp ih
  | recs op g hp _ ih => exact .recs op g hp ih
  | frame f g hf _ ih => exact .frame f g hf ih

theorem TabS.onNodes {QS : (Addr → Nat → Prop) → α → Prop} {p : Prog (NSlots W) α}
    (h : TabS (nodeRoots W) QS K p) :
    TabR (M := M) (fun K' Kr' a => QS K' a ∧ Kr' = Kr) K Kr (Rotonda.onNodes p) := by
  induction h with
  | ret h => exact .ret ⟨h, rfl⟩
  | panic => exact .panic
  | diverge => exact .diverge
  | op op g hp _ ih =>
    have : Rotonda.onNodes (M := M) (op.onSlots.bind g) =
        (Rotonda.onNodes op.onSlots).bind fun r => Rotonda.onNodes (g r) := by
      show ((op.onSlots >>= g).zoom Tree.slotsL).zoom Rib.treeL = _
      rw [zoom_bind, zoom_bind]
      rfl
    rw [this]
    exact .nodes op _ hp ih

theorem TabS.onRecs {QS : (Addr → Nat → Prop) → α → Prop} {p : Prog (PSlots M W) α}
    (h : TabS (prefixRoots W) QS Kr p) :
    TabR (fun K' Kr' a => QS Kr' a ∧ K' = K) K Kr (Rotonda.onRecs p) := by
  induction h with
  | ret h => exact .ret ⟨h, rfl⟩
  | panic => exact .panic
  | diverge => exact .diverge
  | op op g hp _ ih =>
    have : Rotonda.onRecs (op.onSlots.bind g) =
        (Rotonda.onRecs op.onSlots).bind fun r => Rotonda.onRecs (g r) := by
      show ((op.onSlots >>= g).zoom PCht.slotsL).zoom Rib.chtL = _
      rw [zoom_bind, zoom_bind]
      rfl
    rw [this]
    exact .recs op _ hp ih

/-- The program needs no pointers. -/
def Free (p : Prog (Rib M W) α) : Prop := ∀ K Kr, TabR (fun _ _ _ => True) K Kr p

theorem Free.bind {p : Prog (Rib M W) α} {k : α → Prog (Rib M W) β} (h : Free p) (hk : ∀ x, Free (k x)) :
    Free (p >>= k) := fun K Kr => .bind (h K Kr) fun K' Kr' x _ => hk x K' Kr'

theorem Free.zoom {L : Lens (Rib M W) σ} {p : Prog σ α} {k : α → Prog σ β} (h : Free (p.zoom L))
    (hk : ∀ x, Free ((k x).zoom L)) : Free ((p >>= k).zoom L) := by
  rw [zoom_bind]
  exact h.bind hk

theorem free_ret (x : α) : Free (M := M) (W := W) (.ret x) := fun _ _ => .ret trivial
theorem free_pure (x : α) : Free (M := M) (W := W) (pure x) := fun _ _ => .ret trivial
theorem free_panic : Free (M := M) (W := W) (α := α) .panic := fun _ _ => .panic
theorem free_diverge : Free (M := M) (W := W) (α := α) .diverge := fun _ _ => .diverge
theorem free_ofOption (o : Option α) : Free (M := M) (W := W) (Prog.ofOption o) := by
  cases o
  · exact free_panic
  · exact free_ret _
theorem free_zret {L : Lens (Rib M W) σ} (x : α) : Free ((Prog.ret x : Prog σ α).zoom L) := free_ret x
theorem free_zpure {L : Lens (Rib M W) σ} (x : α) : Free ((pure x : Prog σ α).zoom L) := free_ret x
theorem free_zpanic {L : Lens (Rib M W) σ} : Free ((Prog.panic : Prog σ α).zoom L) := free_panic
theorem free_zdiverge {L : Lens (Rib M W) σ} : Free ((Prog.diverge : Prog σ α).zoom L) := free_diverge
theorem free_zofOption {L : Lens (Rib M W) σ} (o : Option α) : Free ((Prog.ofOption o : Prog σ α).zoom L) := by
  cases o
  · exact free_panic
  · exact free_ret _

theorem free_atomic {f : Rib M W → α × Rib M W} (hf : FrameOk f) : Free (Prog.atomic f) :=
  fun _ _ => .frame f _ hf fun _ => .ret trivial

theorem free_onNodes {p : Prog (NSlots W) α} (h : FreeS (nodeRoots W) p) : Free (M := M) (Rotonda.onNodes p) :=
  fun K _ => (h K).onNodes.mono fun _ _ _ _ => trivial

theorem free_onRecs {p : Prog (PSlots M W) α} (h : FreeS (prefixRoots W) p) : Free (Rotonda.onRecs p) :=
  fun _ Kr => (h Kr).onRecs.mono fun _ _ _ _ => trivial

/-- The program only uses the entry of the prefix table at `a` and the rest of the store. -/
def LocalR (a : Addr) (p : Prog (Rib M W) α) : Prop :=
  ∀ K Kr, (∃ n, Kr a n) → TabR (fun K' Kr' _ => K' = K ∧ Kr' = Kr) K Kr p

theorem LocalR.bind {a : Addr} {p : Prog (Rib M W) α} {k : α → Prog (Rib M W) β} (h : LocalR a p)
    (hk : ∀ x, LocalR a (k x)) : LocalR a (p >>= k) := by
  intro K Kr ha
  refine .bind (h K Kr ha) ?_
  rintro K' Kr' x ⟨rfl, rfl⟩
  exact hk x _ _ ha

theorem LocalR.zoom {a : Addr} {L : Lens (Rib M W) σ} {p : Prog σ α} {k : α → Prog σ β}
    (h : LocalR a (p.zoom L)) (hk : ∀ x, LocalR a ((k x).zoom L)) : LocalR a ((p >>= k).zoom L) := by
  rw [zoom_bind]
  exact h.bind hk

theorem localR_ret (a : Addr) (x : α) : LocalR (M := M) (W := W) a (.ret x) := fun _ _ _ => .ret ⟨rfl, rfl⟩
theorem localR_pure (a : Addr) (x : α) : LocalR (M := M) (W := W) a (pure x) := fun _ _ _ => .ret ⟨rfl, rfl⟩
theorem localR_zpure {L : Lens (Rib M W) σ} (a : Addr) (x : α) : LocalR a ((pure x : Prog σ α).zoom L) :=
  localR_ret a x

theorem localR_atomic (a : Addr) {f : Rib M W → α × Rib M W} (hf : FrameOk f) : LocalR a (Prog.atomic f) :=
  fun _ _ _ => .frame f _ hf fun _ => .ret ⟨rfl, rfl⟩

theorem localR_onRecs {a : Addr} {p : Prog (PSlots M W) α} (h : Local a p) : LocalR a (Rotonda.onRecs p) :=
  fun _ Kr ha => ((h _ Kr ha).onRecs).mono fun _ _ _ h => ⟨h.2, h.1⟩

theorem LocalR.free {a : Addr} {p : Prog (Rib M W) α} (h : LocalR a p) (K Kr : Addr → Nat → Prop)
    (ha : ∃ n, Kr a n) : TabR (fun _ _ _ => True) K Kr p := (h K Kr ha).mono fun _ _ _ _ => trivial

end Whole

/-- As `always`, for programs on the whole store that need no pointers. -/
syntax "free" "[" term,* "]" : tactic

macro_rules
  | `(tactic| free [$ts,*]) => do
    let mut parts ← `(tactic| fail)
    for t in ts.getElems do
      parts ← `(tactic| first | with_reducible exact $t | ($parts:tactic))
    `(tactic| repeat' first
      | with_reducible assumption
      | with_reducible exact free_pure _
      | with_reducible exact free_ret _
      | with_reducible exact free_panic
      | with_reducible exact free_diverge
      | with_reducible exact free_ofOption _
      | with_reducible exact free_zpure _
      | with_reducible exact free_zret _
      | with_reducible exact free_zpanic
      | with_reducible exact free_zdiverge
      | with_reducible exact free_zofOption _
      | ($parts:tactic)
      | with_reducible apply Free.bind
      | with_reducible apply Free.zoom
      | (with_reducible intro _; try dsimp only)
      | split)

/-- As `always`, for programs on the whole store that use one entry. -/
syntax "localr" "[" term,* "]" : tactic

macro_rules
  | `(tactic| localr [$ts,*]) => do
    let mut parts ← `(tactic| fail)
    for t in ts.getElems do
      parts ← `(tactic| first | with_reducible exact $t | ($parts:tactic))
    `(tactic| repeat' first
      | with_reducible assumption
      | with_reducible exact localR_pure _ _
      | with_reducible exact localR_ret _ _
      | with_reducible exact localR_zpure _ _
      | ($parts:tactic)
      | with_reducible apply LocalR.bind
      | with_reducible apply LocalR.zoom
      | (with_reducible intro _; try dsimp only)
      | split)

end Rotonda
