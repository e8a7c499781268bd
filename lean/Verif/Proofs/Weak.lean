import Verif.Model.Weak
import Mathlib.Data.List.Basic
import Mathlib.Tactic.Common

/-!
# Race freedom of the chained hash table: roles of words and a program logic
-/

namespace Rotonda.Weak

/-- What a word is used for; `path` are the indexes followed from the root. -/
inductive Role
  | slice (path : List Nat)
  | box (path : List Nat)
  | content (path : List Nat)
  | bits (f : Nat) (path : List Nat)

def Role.isPtr : Role → Prop
  | .slice _ | .box _ => True
  | .content _ | .bits _ _ => False

/-- The block that a pointer points to. -/
def layout (T : Table) : Role → List Role
  | .slice path => (List.range (T.size path.length)).map fun j => .box (path ++ [j])
  | .box path => [.content path, .slice path, .bits 2 path, .bits 3 path]
  | .content _ | .bits _ _ => []

/-- The memory with the role of every allocated word, and the owner while it is not
published. -/
structure World (ι : Type) where
  mem : Nat → List Msg
  top : Nat
  role : Nat → Option (Option ι × Role)

def Know.le (a b : Know) : Prop := (∀ w ∈ a.before, w ∈ b.before) ∧ ∀ w ∈ a.seen, w ∈ b.seen

theorem Know.le_refl (a : Know) : a.le a := ⟨fun _ h => h, fun _ h => h⟩

theorem Know.le_trans {a b c : Know} (h : a.le b) (h' : b.le c) : a.le c :=
  ⟨fun w hw => h'.1 w (h.1 w hw), fun w hw => h'.2 w (h.2 w hw)⟩

/-- The initial writes of a block are known. -/
def Knows (k : Know) (p n : Nat) : Prop := ∀ j < n, (p + j, 0) ∈ k.before

theorem Knows.mono {k k' : Know} {p n : Nat} (h : Knows k p n) (hk : k.le k') : Knows k' p n :=
  fun j hj => hk.1 _ (h j hj)

section
variable {ι : Type} (T : Table) (good : Prop)

def PubBlock (w : World ι) (r : Role) (p : Nat) : Prop :=
  ∀ j x, (layout T r)[j]? = some x → w.role (p + j) = some (none, x)

def PrivBlock (w : World ι) (i : ι) (r : Role) (p : Nat) : Prop :=
  ∀ j x, (layout T r)[j]? = some x → w.role (p + j) = some (some i, x)

def Points (w : World ι) (a p : Nat) : Prop := ∃ m ∈ w.mem a, m.val = some p

def Val (w : World ι) (a : Nat) (v : Word) : Prop := ∃ m ∈ w.mem a, m.val = v

/-- The id of an entry at `path` is one of the table and hashes to `path`. -/
def Fits (path : List Nat) (v : Word) : Prop :=
  ∃ x, v = some x ∧ T.ids x ∧ path = (List.range path.length).map (T.hash x)

/-- Every bit of the first word is set in the second. -/
def Sub (a b : Word) : Prop := ∀ u v, a = some u → b = some v → ∀ j, u.testBit j = true → v.testBit j = true

/-- The words of the table, by role. -/
inductive Cell (w : World ι) : Option ι → Role → List Msg → Prop
  | content {o path m} : m.atomic = false → Fits T path m.val → Cell w o (.content path) [m]
  | null {o r m} : r.isPtr → m.atomic = false → m.val = none → Cell w o r [m]
  | ptr {r m m' p} : r.isPtr → m.atomic = false → m.val = none → m'.atomic = true →
      m'.val = some p → PubBlock T w r p → (good → Knows m'.know p (layout T r).length) →
      Cell w none r [m, m']
  | bits {o f path m l} : m.atomic = false → (∀ x ∈ l, x.atomic = true) →
      (∀ x ∈ m :: l, ∃ v, x.val = some v ∧ v < 2 ^ 32) → (m :: l).Pairwise (fun x y => Sub x.val y.val) →
      (o ≠ none → l = []) → Cell w o (.bits f path) (m :: l)

/-- Write `n` of `a`. -/
def Nth (w : World ι) (a n : Nat) (v : Word) : Prop := ∃ m, (w.mem a)[n]? = some m ∧ m.val = v

/-- Bit `b` belongs into word `a`, which is word `f` of an entry. -/
def JustBit (w : World ι) (a f b : Nat) : Prop :=
  ∃ p y path, a = p + f ∧ w.role p = some (none, .content path) ∧ Val w p (some y) ∧ T.bits y f b

/-- The writes seen exist. -/
def SeenOk (w : World ι) (k : Know) : Prop :=
  ∀ x ∈ k.seen, x.1 < w.top ∧ ∀ r, w.role x.1 = some r → x.2 < (w.mem x.1).length

structure WInv (w : World ι) : Prop where
  fresh : ∀ a, w.top ≤ a → w.role a = none
  cells : ∀ a o r, w.role a = some (o, r) → Cell T good w o r (w.mem a)
  msgs : ∀ a r, w.role a = some r → ∀ m ∈ w.mem a, SeenOk w m.know
  just : ∀ a o f path, w.role a = some (o, .bits f path) → ∀ m ∈ w.mem a, ∀ v, m.val = some v →
    ∀ b, v.testBit b = true → JustBit T w a f b

/-- What other threads may do to published words. -/
def PubGrow (w w' : World ι) : Prop :=
  ∀ a r, w.role a = some (none, r) → w'.role a = some (none, r) ∧ w.mem a <+: w'.mem a

/-- What other threads may do. -/
def Rely (i : ι) (w w' : World ι) : Prop :=
  PubGrow w w' ∧
  ∀ a r, w.role a = some (some i, r) → w'.role a = some (some i, r) ∧ w'.mem a = w.mem a

variable {T good}

theorem PubGrow.rfl (w : World ι) : PubGrow w w := fun _ _ h => ⟨h, List.prefix_rfl⟩

theorem PubGrow.trans {a b c : World ι} (h : PubGrow a b) (h' : PubGrow b c) : PubGrow a c :=
  fun x r hx => ⟨(h' x r (h x r hx).1).1, (h x r hx).2.trans (h' x r (h x r hx).1).2⟩

theorem Rely.rfl (i : ι) (w : World ι) : Rely i w w := ⟨.rfl w, fun _ _ h => ⟨h, by trivial⟩⟩

theorem Rely.trans {i : ι} {a b c : World ι} (h : Rely i a b) (h' : Rely i b c) : Rely i a c :=
  ⟨h.1.trans h'.1, fun x r hx => ⟨(h'.2 x r (h.2 x r hx).1).1,
    (h'.2 x r (h.2 x r hx).1).2.trans (h.2 x r hx).2⟩⟩

theorem PubBlock.mono {w w' : World ι} {r : Role} {p : Nat} (h : PubBlock T w r p)
    (hw : PubGrow w w') : PubBlock T w' r p := fun j x hx => (hw _ _ (h j x hx)).1

theorem PrivBlock.mono {i : ι} {w w' : World ι} {r : Role} {p : Nat} (h : PrivBlock T w i r p)
    (hw : Rely i w w') : PrivBlock T w' i r p := fun j x hx => (hw.2 _ _ (h j x hx)).1

theorem Points.mono {w w' : World ι} {a p : Nat} (h : Points w a p) {r : Role}
    (ha : w.role a = some (none, r)) (hw : PubGrow w w') : Points w' a p := by
  obtain ⟨m, hm, hv⟩ := h
  exact ⟨m, (hw a r ha).2.subset hm, hv⟩

theorem Val.mono {w w' : World ι} {a : Nat} {v : Word} (h : Val w a v) {r : Role}
    (ha : w.role a = some (none, r)) (hw : PubGrow w w') : Val w' a v := by
  obtain ⟨m, hm, hv⟩ := h
  exact ⟨m, (hw a r ha).2.subset hm, hv⟩

theorem Nth.mono {w w' : World ι} {a n : Nat} {v : Word} (h : Nth w a n v) {r : Role}
    (ha : w.role a = some (none, r)) (hw : PubGrow w w') : Nth w' a n v := by
  obtain ⟨m, hm, hv⟩ := h
  obtain ⟨l, hl⟩ := (hw a r ha).2
  refine ⟨m, ?_, hv⟩
  rw [← hl, List.getElem?_append_left (List.getElem?_eq_some_iff.1 hm).1, hm]

theorem JustBit.mono {w w' : World ι} {a f b : Nat} (h : JustBit T w a f b) (hw : PubGrow w w') :
    JustBit T w' a f b := by
  obtain ⟨p, y, path, rfl, h1, h2, h3⟩ := h
  exact ⟨p, y, path, rfl, (hw _ _ h1).1, h2.mono h1 hw, h3⟩

/-- A published pointer has at most one target. -/
theorem WInv.points {w : World ι} (h : WInv T good w) {a p : Nat} {o : Option ι} {r : Role}
    (ha : w.role a = some (o, r)) (hr : r.isPtr) (hp : Points w a p) :
    PubBlock T w r p ∧ ∀ q, Points w a q → q = p := by
  have hc := h.cells a o r ha
  unfold Points at *
  generalize w.mem a = l at hc hp ⊢
  cases hc with
  | content => exact hr.elim
  | bits => exact hr.elim
  | null _ _ hv => obtain ⟨m, hm, hv'⟩ := hp; simp at hm; subst hm; rw [hv] at hv'; cases hv'
  | @ptr _ m0 m1 p1 _ _ h0 _ h1 hb _ =>
    have : ∀ q, (∃ m ∈ [m0, m1], m.val = some q) → q = p1 := by
      rintro q ⟨m, hm, hv⟩
      simp only [List.mem_cons, List.not_mem_nil, or_false] at hm
      rcases hm with rfl | rfl
      · rw [h0] at hv; cases hv
      · rw [h1] at hv; cases hv; rfl
    have hp' := this p hp
    subst hp'
    exact ⟨hb, this⟩

/-- An entry has one id. -/
theorem WInv.val {w : World ι} (h : WInv T good w) {a : Nat} {o : Option ι} {path : List Nat}
    (ha : w.role a = some (o, .content path)) {v v' : Word} (hv : Val w a v) (hv' : Val w a v') :
    v = v' ∧ Fits T path v := by
  have hc := h.cells a o _ ha
  obtain ⟨m, hm, rfl⟩ := hv
  obtain ⟨m', hm', rfl⟩ := hv'
  generalize w.mem a = l at hc hm hm'
  cases hc with
  | content _ hf => simp at hm hm'; subst hm; subst hm'; exact ⟨rfl, hf⟩
  | null hr => exact hr.elim
  | ptr hr => exact hr.elim

/-- The block that was just allocated. -/
def World.alloc (w : World ι) (i : ι) (ws : List Word) (rs : List Role) : World ι where
  mem := initBlock w.mem w.top ws
  top := w.top + ws.length + 1
  role b := if w.top ≤ b ∧ b < w.top + ws.length then (rs[b - w.top]?).map fun r => (some i, r)
    else w.role b

def Know.block (k : Know) (a n : Nat) : Know :=
  ⟨blockWrites a n ++ k.before, blockWrites a n ++ k.seen⟩

variable (T good) in
/-- A program is safe in a world: it only uses words as their roles allow, whatever other
threads do, and ends with `Q`. -/
def safe {α : Type} (i : ι) : WProg α → (World ι → Know → α → Prop) → World ι → Know → Prop
  | .ret a, Q, w, k => Q w k a
  | .panic, _, _, _ => False
  | .alloc ws f, Q, w, k => ∃ rs : List Role, rs.length = ws.length ∧
      (∀ (j : Nat) (r : Role), rs[j]? = some r → ∃ v, ws[j]? = some v ∧
        ((r.isPtr ∧ v = none) ∨ (∃ path, r = Role.content path ∧ Fits T path v) ∨
          ∃ f path, r = Role.bits f path ∧ v = some 0)) ∧
      ∀ w', Rely i w w' → WInv T good w' →
        safe i (f w'.top) Q (w'.alloc i ws rs) (k.block w'.top ws.length)
  | .free a n p, Q, w, k => (∀ j < n, ∃ r, w.role (a + j) = some (some i, r)) ∧ Knows k a n ∧
      ∀ w', Rely i w w' → WInv T good w' → ∀ w'', PubGrow w' w'' → WInv T good w'' → safe i p Q w'' k
  | .plain a f, Q, w, k => (∃ path, w.role a = some (none, .content path)) ∧
      (good → (a, 0) ∈ k.before) ∧
      ∀ w', Rely i w w' → WInv T good w' → ∀ v, Val w' a v → safe i (f v) Q w' k
  | .load a o f, Q, w, k => (∃ r : Role, r.isPtr ∧ w.role a = some (none, r) ∧
      (good → (a, 0) ∈ k.before ∧ o.acquires = true) ∧
      ∀ w', Rely i w w' → WInv T good w' → ∀ k', k.le k' →
        ((a, 1) ∉ k.seen → safe i (f none) Q w' k') ∧
        ∀ p, Points w' a p → PubBlock T w' r p → (good → Knows k' p (layout T r).length) →
          (a, 1) ∈ k'.seen → safe i (f (some p)) Q w' k') ∨
    (∃ c path, w.role a = some (none, .bits c path) ∧ (good → (a, 0) ∈ k.before) ∧
      ∀ w', Rely i w w' → WInv T good w' → ∀ k', k.le k' → ∀ n v, Nth w' a n (some v) →
        (a, n) ∈ k'.seen → (∀ m, (a, m) ∈ k.seen → m ≤ n) → safe i (f (some v)) Q w' k')
  | .cas a old new ok err f, Q, w, k => (old = none ∧ ∃ (r : Role) (p : Nat), r.isPtr ∧ new = some p ∧
      w.role a = some (none, r) ∧ PrivBlock T w i r p ∧ Knows k p (layout T r).length ∧
      (good → (a, 0) ∈ k.before ∧ ok.releases = true ∧ err.acquires = true) ∧
      ∀ w', Rely i w w' → WInv T good w' → ∀ k', k.le k' → (a, 1) ∈ k'.seen →
        (∀ w'', PubGrow w' w'' → WInv T good w'' → Points w'' a p → PubBlock T w'' r p →
          safe i (f (.ok none)) Q w'' k') ∧
        ∀ q, Points w' a q → PubBlock T w' r q → (good → Knows k' q (layout T r).length) →
          safe i (f (.error (some q))) Q w' k') ∨
    (∃ c path u v, old = some u ∧ new = some v ∧ w.role a = some (none, .bits c path) ∧
      (good → (a, 0) ∈ k.before) ∧ v < 2 ^ 32 ∧ Sub (some u) (some v) ∧
      (∀ b, v.testBit b = true → u.testBit b = true ∨ JustBit T w a c b) ∧
      ∀ w', Rely i w w' → WInv T good w' → ∀ k', k.le k' →
        (∀ w'' n, PubGrow w' w'' → WInv T good w'' → Nth w'' a n (some v) → (a, n) ∈ k'.seen →
          safe i (f (.ok (some u))) Q w'' k') ∧
        ∀ n u', Nth w' a n (some u') → u' ≠ u → (a, n) ∈ k'.seen → (∀ m, (a, m) ∈ k.seen → m ≤ n) →
          safe i (f (.error (some u'))) Q w' k')

theorem safe_mono {α : Type} {i : ι} {p : WProg α} {Q : World ι → Know → α → Prop} {w w' : World ι}
    {k : Know} (hQ : ∀ a, Q w k a → Q w' k a) (h : safe T good i p Q w k) (hw : Rely i w w') :
    safe T good i p Q w' k := by
  cases p with
  | ret a => exact hQ a h
  | panic => exact h
  | alloc ws f =>
    obtain ⟨rs, h1, h2, h3⟩ := h
    exact ⟨rs, h1, h2, fun u hu => h3 u (hw.trans hu)⟩
  | free a n p =>
    refine ⟨fun j hj => ?_, h.2.1, fun u hu => h.2.2 u (hw.trans hu)⟩
    obtain ⟨r, hr⟩ := h.1 j hj
    exact ⟨r, (hw.2 _ _ hr).1⟩
  | plain a f =>
    obtain ⟨⟨path, hp⟩, h2, h3⟩ := h
    exact ⟨⟨path, (hw.1 _ _ hp).1⟩, h2, fun u hu => h3 u (hw.trans hu)⟩
  | load a o f =>
    rcases h with ⟨r, h1, h2, h3, h4⟩ | ⟨c, path, h1, h2, h3⟩
    · exact .inl ⟨r, h1, (hw.1 _ _ h2).1, h3, fun u hu => h4 u (hw.trans hu)⟩
    · exact .inr ⟨c, path, (hw.1 _ _ h1).1, h2, fun u hu => h3 u (hw.trans hu)⟩
  | cas a old new ok err f =>
    rcases h with ⟨h0, r, p, h1, h2, h3, h4, h5, h6, h7⟩ | ⟨c, path, u, v, h1, h2, h3, h4, h5, h6, h7, h8⟩
    · exact .inl ⟨h0, r, p, h1, h2, (hw.1 _ _ h3).1, h4.mono hw, h5, h6, fun u hu => h7 u (hw.trans hu)⟩
    · exact .inr ⟨c, path, u, v, h1, h2, (hw.1 _ _ h3).1, h4, h5, h6, fun b hb => (h7 b hb).imp id (·.mono hw.1),
        fun u hu => h8 u (hw.trans hu)⟩

theorem safe_bind {α β : Type} {i : ι} {f : α → WProg β} {Q : World ι → Know → β → Prop}
    (p : WProg α) {w : World ι} {k : Know}
    (h : safe T good i p (fun w k a => safe T good i (f a) Q w k) w k) :
    safe T good i (p.bind f) Q w k := by
  induction p generalizing w k with
  | ret a => exact h
  | panic => exact h
  | alloc ws g ih =>
    obtain ⟨rs, h1, h2, h3⟩ := h
    exact ⟨rs, h1, h2, fun u hu hi => ih _ (h3 u hu hi)⟩
  | free a n p ih => exact ⟨h.1, h.2.1, fun u hu hi v hv hv' => ih (h.2.2 u hu hi v hv hv')⟩
  | plain a g ih => exact ⟨h.1, h.2.1, fun u hu hi v hv => ih _ (h.2.2 u hu hi v hv)⟩
  | load a o g ih =>
    rcases h with ⟨r, h1, h2, h3, h4⟩ | ⟨c, path, h1, h2, h3⟩
    · exact .inl ⟨r, h1, h2, h3, fun u hu hi k' hk => ⟨fun hn => ih _ ((h4 u hu hi k' hk).1 hn),
        fun p hp hb hkn hs => ih _ ((h4 u hu hi k' hk).2 p hp hb hkn hs)⟩⟩
    · exact .inr ⟨c, path, h1, h2, fun u hu hi k' hk n v hn hs hm => ih _ (h3 u hu hi k' hk n v hn hs hm)⟩
  | cas a old new ok err g ih =>
    rcases h with ⟨h0, r, p, h1, h2, h3, h4, h5, h6, h7⟩ | ⟨c, path, u, v, h1, h2, h3, h4, h5, h6, h7, h8⟩
    · exact .inl ⟨h0, r, p, h1, h2, h3, h4, h5, h6, fun u hu hi k' hk hs =>
        ⟨fun v hv hv' hp hb => ih _ ((h7 u hu hi k' hk hs).1 v hv hv' hp hb),
          fun q hq hb hkn => ih _ ((h7 u hu hi k' hk hs).2 q hq hb hkn)⟩⟩
    · exact .inr ⟨c, path, u, v, h1, h2, h3, h4, h5, h6, h7, fun u hu hi k' hk =>
        ⟨fun w'' n g1 g2 g3 g4 => ih _ ((h8 u hu hi k' hk).1 w'' n g1 g2 g3 g4),
          fun n u' g1 g2 g3 g4 => ih _ ((h8 u hu hi k' hk).2 n u' g1 g2 g3 g4)⟩⟩

/-! ## Steps -/

/-- What a step does to the memory as a whole. -/
structure Grows (w w' : World ι) : Prop where
  top : w.top ≤ w'.top
  old : ∀ a r, w'.role a = some r → a < w.top →
    (∃ r', w.role a = some r') ∧ (w.mem a).length ≤ (w'.mem a).length

theorem SeenOk.mono {w w' : World ι} {k : Know} (h : SeenOk w k) (hg : Grows w w') : SeenOk w' k := by
  intro x hx
  obtain ⟨h1, h2⟩ := h x hx
  refine ⟨Nat.lt_of_lt_of_le h1 hg.top, fun r hr => ?_⟩
  obtain ⟨⟨r', hr'⟩, hl⟩ := hg.old _ _ hr h1
  exact Nat.lt_of_lt_of_le (h2 _ hr') hl

theorem Cell.mono {w w' : World ι} {o : Option ι} {r : Role} {l : List Msg}
    (h : Cell T good w o r l) (hw : PubGrow w w') : Cell T good w' o r l := by
  cases h with
  | content h1 h2 => exact .content h1 h2
  | null h1 h2 h3 => exact .null h1 h2 h3
  | ptr h1 h2 h3 h4 h5 h6 h7 => exact .ptr h1 h2 h3 h4 h5 (h6.mono hw) h7
  | bits h1 h2 h3 h4 h5 => exact .bits h1 h2 h3 h4 h5

theorem WInv.lt {w : World ι} (h : WInv T good w) {a : Nat} {r : Option ι × Role}
    (ha : w.role a = some r) : a < w.top := by
  by_contra hlt
  rw [h.fresh a (Nat.le_of_not_lt hlt)] at ha
  cases ha

theorem seenOk_none (w : World ι) : SeenOk w .none := fun x hx => by cases hx

section alloc
variable {w : World ι} (h : WInv T good w) (i : ι) {ws : List Word} {rs : List Role}
include h

theorem alloc_old {a : Nat} (ha : a < w.top) :
    (w.alloc i ws rs).role a = w.role a ∧ (w.alloc i ws rs).mem a = w.mem a := by
  have hb : ¬ (w.top ≤ a ∧ a < w.top + ws.length) := by omega
  exact ⟨if_neg hb, if_neg hb⟩

theorem alloc_rely (j : ι) : Rely j w (w.alloc i ws rs) := by
  constructor
  · intro a r ha
    obtain ⟨h1, h2⟩ := alloc_old h i (ws := ws) (rs := rs) (h.lt ha)
    rw [h1, h2]
    exact ⟨ha, List.prefix_rfl⟩
  · intro a r ha
    obtain ⟨h1, h2⟩ := alloc_old h i (ws := ws) (rs := rs) (h.lt ha)
    rw [h1, h2]
    exact ⟨ha, rfl⟩

theorem alloc_grows : Grows w (w.alloc i ws rs) where
  top := by show w.top ≤ w.top + _ + 1; omega
  old a r ha hlt := by
    obtain ⟨h1, h2⟩ := alloc_old h i (ws := ws) (rs := rs) hlt
    rw [h1] at ha
    exact ⟨⟨r, ha⟩, by rw [h2]; exact Nat.le_refl _⟩

theorem alloc_inv (hlen : rs.length = ws.length)
    (hrs : ∀ (j : Nat) (r : Role), rs[j]? = some r → ∃ v, ws[j]? = some v ∧
        ((r.isPtr ∧ v = none) ∨ (∃ path, r = Role.content path ∧ Fits T path v) ∨
          ∃ f path, r = Role.bits f path ∧ v = some 0)) :
    WInv T good (w.alloc i ws rs) where
  fresh a ha := by
    have ha' : w.top + ws.length + 1 ≤ a := ha
    have hb : ¬ (w.top ≤ a ∧ a < w.top + ws.length) := by omega
    exact (if_neg hb).trans (h.fresh a (by omega))
  cells a o r ha := by
    by_cases hb : w.top ≤ a ∧ a < w.top + ws.length
    · have ha' : (rs[a - w.top]?).map (fun r => (some i, r)) = some (o, r) := by
        have : (if _ then _ else _) = _ := ha
        rwa [if_pos hb] at this
      obtain ⟨r', hr', heq⟩ := Option.map_eq_some_iff.1 ha'
      cases heq
      have hm : (w.alloc i ws rs).mem a = [⟨ws.getD (a - w.top) none, false, .none⟩] := if_pos hb
      rw [hm]
      obtain ⟨v, hv, hc⟩ := hrs _ _ hr'
      have hv' : ws.getD (a - w.top) none = v := by rw [List.getD_eq_getElem?_getD, hv]; rfl
      rw [hv']
      rcases hc with ⟨hp, rfl⟩ | ⟨path, rfl, hf⟩ | ⟨f, path, rfl, rfl⟩
      · exact .null hp rfl rfl
      · exact .content rfl hf
      · exact .bits rfl (by simp) (by simp) (by simp) (fun _ => rfl)
    · have h1 : (w.alloc i ws rs).role a = w.role a := if_neg hb
      have h2 : (w.alloc i ws rs).mem a = w.mem a := if_neg hb
      rw [h1] at ha
      rw [h2]
      exact (h.cells a o r ha).mono (alloc_rely h i i).1
  msgs a r ha m hm := by
    by_cases hb : w.top ≤ a ∧ a < w.top + ws.length
    · have h2 : (w.alloc i ws rs).mem a = [⟨ws.getD (a - w.top) none, false, .none⟩] := if_pos hb
      rw [h2] at hm
      simp only [List.mem_singleton] at hm
      subst hm
      exact seenOk_none _
    · have h1 : (w.alloc i ws rs).role a = w.role a := if_neg hb
      have h2 : (w.alloc i ws rs).mem a = w.mem a := if_neg hb
      rw [h1] at ha
      rw [h2] at hm
      exact (h.msgs a r ha m hm).mono (alloc_grows h i)
  just a o f path ha m hm v hv b hvb := by
    by_cases hb : w.top ≤ a ∧ a < w.top + ws.length
    · have ha' : (rs[a - w.top]?).map (fun r => (some i, r)) = some (o, .bits f path) := by
        have : (if _ then _ else _) = _ := ha
        rwa [if_pos hb] at this
      obtain ⟨r', hr', heq⟩ := Option.map_eq_some_iff.1 ha'
      cases heq
      have h2 : (w.alloc i ws rs).mem a = [⟨ws.getD (a - w.top) none, false, .none⟩] := if_pos hb
      rw [h2] at hm
      simp only [List.mem_singleton] at hm
      subst hm
      obtain ⟨u, hu, hc⟩ := hrs _ _ hr'
      have hu' : ws.getD (a - w.top) none = u := by rw [List.getD_eq_getElem?_getD, hu]; rfl
      rw [hu'] at hv
      rcases hc with ⟨hp, _⟩ | ⟨_, hp, _⟩ | ⟨_, _, _, rfl⟩
      · exact hp.elim
      · cases hp
      · cases hv
        simp at hvb
    · have h1 : (w.alloc i ws rs).role a = w.role a := if_neg hb
      have h2 : (w.alloc i ws rs).mem a = w.mem a := if_neg hb
      rw [h1] at ha
      rw [h2] at hm
      exact (h.just a o f path ha m hm v hv b hvb).mono (alloc_rely h i i).1

theorem alloc_seen (hlen : rs.length = ws.length) {k : Know} (hk : SeenOk w k) :
    SeenOk (w.alloc i ws rs) (k.block w.top ws.length) := by
  intro x hx
  rcases List.mem_append.1 hx with hx | hx
  · obtain ⟨j, hj, rfl⟩ := List.mem_map.1 hx
    have hj := List.mem_range.1 hj
    refine ⟨?_, fun r hr => ?_⟩
    · show w.top + j < w.top + _ + 1; omega
    · have hb : w.top ≤ w.top + j ∧ w.top + j < w.top + ws.length := by omega
      have h2 : (w.alloc i ws rs).mem (w.top + j) = [⟨ws.getD (w.top + j - w.top) none, false, .none⟩] :=
        if_pos hb
      show 0 < _
      rw [h2]; simp
  · exact (hk.mono (alloc_grows h i)) x hx

end alloc

section free
variable {w : World ι} (h : WInv T good w) {i : ι} {a n : Nat}
  (hp : ∀ j < n, ∃ r, w.role (a + j) = some (some i, r))

/-- The block that was just freed. -/
def World.free (w : World ι) (a n : Nat) : World ι where
  mem := fun b => if a ≤ b ∧ b < a + n then [] else w.mem b
  top := w.top
  role b := if a ≤ b ∧ b < a + n then none else w.role b

include hp

theorem free_out {b : Nat} {x : Option ι × Role} (hb : w.role b = some x) (hx : x.1 ≠ some i) :
    (w.free a n).role b = w.role b ∧ (w.free a n).mem b = w.mem b := by
  have hn : ¬ (a ≤ b ∧ b < a + n) := by
    rintro ⟨h1, h2⟩
    obtain ⟨r, hr⟩ := hp (b - a) (by omega)
    rw [show a + (b - a) = b by omega, hb] at hr
    cases hr
    exact hx rfl
  exact ⟨if_neg hn, if_neg hn⟩

theorem free_pub : PubGrow w (w.free a n) := by
  intro b r hb
  obtain ⟨h1, h2⟩ := free_out hp hb (by simp)
  rw [h1, h2]
  exact ⟨hb, List.prefix_rfl⟩

theorem free_rely {j : ι} (hj : j ≠ i) : Rely j w (w.free a n) := by
  refine ⟨free_pub hp, fun b r hb => ?_⟩
  obtain ⟨h1, h2⟩ := free_out hp hb (by simpa using hj)
  rw [h1, h2]
  exact ⟨hb, rfl⟩

omit hp in
theorem free_in {b : Nat} {x : Option ι × Role} (hb : (w.free a n).role b = some x) :
    w.role b = some x ∧ (w.free a n).mem b = w.mem b := by
  have hn : ¬ (a ≤ b ∧ b < a + n) := by
    intro hn
    rw [show (w.free a n).role b = none from if_pos hn] at hb
    cases hb
  exact ⟨(if_neg hn).symm.trans hb, if_neg hn⟩

omit hp in
theorem free_grows : Grows w (w.free a n) where
  top := Nat.le_refl _
  old b r hb _ := by
    obtain ⟨h1, h2⟩ := free_in hb
    exact ⟨⟨r, h1⟩, by rw [h2]; exact Nat.le_refl _⟩

include h in
theorem free_inv : WInv T good (w.free a n) where
  fresh b hb := by
    show (if _ then _ else _) = _
    split
    · rfl
    · exact h.fresh b hb
  cells b o r hb := by
    obtain ⟨h1, h2⟩ := free_in hb
    rw [h2]
    exact (h.cells b o r h1).mono (free_pub hp)
  msgs b r hb m hm := by
    obtain ⟨h1, h2⟩ := free_in hb
    rw [h2] at hm
    exact (h.msgs b r h1 m hm).mono free_grows
  just b o f path hb m hm v hv j hj := by
    obtain ⟨h1, h2⟩ := free_in hb
    rw [h2] at hm
    exact (h.just b o f path h1 m hm v hv j hj).mono (free_pub hp)

end free

section publish
variable [DecidableEq ι] {w : World ι} (h : WInv T good w) {i : ι} {a p : Nat} {r : Role}
  (ha : w.role a = some (none, r)) (hp : PrivBlock T w i r p)

/-- The block at `p` was just published in `a`. -/
def World.publish (w : World ι) (i : ι) (a p n : Nat) (m : Msg) : World ι where
  mem := Function.update w.mem a (w.mem a ++ [m])
  top := w.top
  role b := if p ≤ b ∧ b < p + n then (w.role b).map fun x => (none, x.2) else w.role b

include ha hp

theorem publish_role {n : Nat} {m : Msg} (hn : n = (layout T r).length) {b : Nat} {x : Option ι × Role}
    (hb : w.role b = some x) :
    (w.publish i a p n m).role b = some x ∨
      (x.1 = some i ∧ (w.publish i a p n m).role b = some (none, x.2)) := by
  by_cases hin : p ≤ b ∧ b < p + n
  · right
    have hr : (w.publish i a p n m).role b = (w.role b).map fun x => (none, x.2) := if_pos hin
    obtain ⟨y, hy⟩ : ∃ y, (layout T r)[b - p]? = some y :=
      ⟨_, List.getElem?_eq_getElem (by omega)⟩
    have := hp (b - p) y hy
    rw [show p + (b - p) = b by omega, hb] at this
    cases this
    refine ⟨rfl, ?_⟩
    rw [hr, hb]; rfl
  · left
    exact (if_neg hin).trans hb

theorem publish_pub {n : Nat} {m : Msg} (hn : n = (layout T r).length) :
    PubGrow w (w.publish i a p n m) := by
  intro b r' hb
  refine ⟨?_, ?_⟩
  · rcases publish_role ha hp (m := m) hn hb with h1 | ⟨h1, h2⟩
    · exact h1
    · exact h2
  · show w.mem b <+: Function.update w.mem a (w.mem a ++ [m]) b
    by_cases hba : b = a
    · subst hba; rw [Function.update_self]; exact List.prefix_append _ _
    · rw [Function.update_of_ne hba]; exact List.prefix_rfl

theorem publish_rely {n : Nat} {m : Msg} (hn : n = (layout T r).length) {j : ι} (hj : j ≠ i) :
    Rely j w (w.publish i a p n m) := by
  refine ⟨publish_pub ha hp hn, fun b r' hb => ⟨?_, ?_⟩⟩
  · rcases publish_role ha hp (m := m) hn hb with h1 | ⟨h1, h2⟩
    · exact h1
    · exact (hj (by simpa using h1)).elim
  · refine Function.update_of_ne ?_ _ _
    rintro rfl
    rw [ha] at hb
    cases hb

theorem publish_block {n : Nat} {m : Msg} (hn : n = (layout T r).length) :
    PubBlock T (w.publish i a p n m) r p := by
  intro j x hx
  have hj : j < (layout T r).length := (List.getElem?_eq_some_iff.1 hx).1
  have hin : p ≤ p + j ∧ p + j < p + n := by omega
  have hr : (w.publish i a p n m).role (p + j) = (w.role (p + j)).map fun x => (none, x.2) := if_pos hin
  rw [hr, hp j x hx]; rfl

omit ha hp in
theorem publish_in {n : Nat} {m : Msg} {b : Nat} {x : Option ι × Role}
    (hb : (w.publish i a p n m).role b = some x) : ∃ o, w.role b = some (o, x.2) ∧ (o = x.1 ∨ x.1 = none) := by
  have hb' : (if p ≤ b ∧ b < p + n then (w.role b).map (fun x => (none, x.2)) else w.role b) = some x := hb
  split at hb'
  · obtain ⟨y, hy, he⟩ := Option.map_eq_some_iff.1 hb'
    cases he
    exact ⟨y.1, hy, .inr rfl⟩
  · exact ⟨x.1, hb', .inl rfl⟩

omit ha hp in
theorem publish_grows {n : Nat} {m : Msg} : Grows w (w.publish i a p n m) where
  top := Nat.le_refl _
  old b x hb _ := by
    obtain ⟨o, ho, _⟩ := publish_in hb
    refine ⟨⟨_, ho⟩, ?_⟩
    show _ ≤ (Function.update w.mem a (w.mem a ++ [m]) b).length
    by_cases hba : b = a
    · subst hba; rw [Function.update_self]; simp
    · rw [Function.update_of_ne hba]; exact Nat.le_refl _

theorem publish_inv (h : WInv T good w) {n : Nat} {m m0 : Msg} (hn : n = (layout T r).length) (hr : r.isPtr)
    (h0 : w.mem a = [m0]) (hat : m0.atomic = false) (hv0 : m0.val = none) (hm : m.atomic = true)
    (hv : m.val = some p) (hk : good → Knows m.know p n) (hs : SeenOk (w.publish i a p n m) m.know) :
    WInv T good (w.publish i a p n m) where
  fresh b hb := by
    have := h.fresh b hb
    show (if _ then _ else _) = _
    rw [this]
    split <;> rfl
  cells b o x hb := by
    obtain ⟨o', ho, hoo⟩ := publish_in hb
    show Cell T good _ o x (Function.update w.mem a (w.mem a ++ [m]) b)
    by_cases hba : b = a
    · subst hba
      rw [ha] at ho
      cases ho
      have : o = none := by rcases hoo with h | h <;> simp_all
      subst this
      rw [Function.update_self, h0]
      exact .ptr hr hat hv0 hm hv (publish_block ha hp hn) (fun g => hn ▸ hk g)
    · rw [Function.update_of_ne hba]
      have hc := (h.cells b o' x ho).mono (publish_pub ha hp (m := m) hn)
      generalize w.mem b = l at hc ⊢
      rcases hoo with h1 | h1
      · have h1 : o' = o := h1
        exact h1 ▸ hc
      · have h2 : o = none := h1
        subst h2
        clear h1 ho hb
        cases hc with
        | content h1 h2 => exact .content h1 h2
        | null h1 h2 h3 => exact .null h1 h2 h3
        | ptr h1 h2 h3 h4 h5 h6 h7 => exact .ptr h1 h2 h3 h4 h5 h6 h7
        | bits h1 h2 h3 h4 h5 => exact .bits h1 h2 h3 h4 (fun h => (h rfl).elim)
  msgs b x hb m' hm' := by
    obtain ⟨o', ho, _⟩ := publish_in hb
    have hm' : m' ∈ Function.update w.mem a (w.mem a ++ [m]) b := hm'
    by_cases hba : b = a
    · subst hba
      rw [Function.update_self] at hm'
      rcases List.mem_append.1 hm' with h1 | h1
      · exact (h.msgs b _ ho m' h1).mono publish_grows
      · simp only [List.mem_singleton] at h1
        subst h1
        exact hs
    · rw [Function.update_of_ne hba] at hm'
      exact (h.msgs b _ ho m' hm').mono publish_grows
  just b o f path hb m' hm' v' hv' j hj := by
    obtain ⟨o', ho, _⟩ := publish_in hb
    have hm' : m' ∈ Function.update w.mem a (w.mem a ++ [m]) b := hm'
    by_cases hba : b = a
    · subst hba
      rw [ha] at ho
      cases ho
      exact hr.elim
    · rw [Function.update_of_ne hba] at hm'
      exact (h.just b _ f path ho m' hm' v' hv' j hj).mono (publish_pub ha hp hn)

end publish

section write
variable {w : World ι} {a : Nat} {f : Nat} {path : List Nat} (ha : w.role a = some (none, .bits f path))

/-- A write to a bit array. -/
def World.write (w : World ι) (a : Nat) (m : Msg) : World ι where
  mem := Function.update w.mem a (w.mem a ++ [m])
  top := w.top
  role := w.role

theorem write_prefix (w : World ι) (a : Nat) (m : Msg) (b : Nat) : w.mem b <+: (w.write a m).mem b := by
  show w.mem b <+: Function.update w.mem a (w.mem a ++ [m]) b
  by_cases hba : b = a
  · subst hba; rw [Function.update_self]; exact List.prefix_append _ _
  · rw [Function.update_of_ne hba]; exact List.prefix_rfl

theorem write_pub (w : World ι) (a : Nat) (m : Msg) : PubGrow w (w.write a m) :=
  fun b _ hb => ⟨hb, write_prefix w a m b⟩

include ha in
theorem write_rely {m : Msg} (j : ι) : Rely j w (w.write a m) := by
  refine ⟨write_pub w a m, fun b r' hb => ⟨hb, Function.update_of_ne ?_ _ _⟩⟩
  rintro rfl
  rw [ha] at hb
  cases hb

theorem write_grows (w : World ι) (a : Nat) (m : Msg) : Grows w (w.write a m) where
  top := Nat.le_refl _
  old b x hb _ := ⟨⟨x, hb⟩, (write_prefix w a m b).length_le⟩

include ha in
theorem write_inv (h : WInv T good w) {m ml : Msg} {l : List Msg} {u v : Nat} (hl : w.mem a = l ++ [ml])
    (hul : ml.val = some u) (hv : m.val = some v) (hv32 : v < 2 ^ 32) (hsub : Sub (some u) (some v))
    (hm : m.atomic = true) (hj : ∀ b, v.testBit b = true → u.testBit b = true ∨ JustBit T w a f b)
    (hs : SeenOk (w.write a m) m.know) : WInv T good (w.write a m) where
  fresh b hb := h.fresh b hb
  cells b o x hb := by
    have hb' : w.role b = some (o, x) := hb
    show Cell T good _ o x (Function.update w.mem a (w.mem a ++ [m]) b)
    by_cases hba : b = a
    · subst hba
      rw [ha] at hb'
      cases hb'
      rw [Function.update_self]
      have hc := h.cells b _ _ ha
      have hlast : ml ∈ w.mem b := by rw [hl]; simp
      have hpl : ∀ y ∈ w.mem b, Sub y.val (some v) := by
        intro y hy u' v' hu' hv' j hj
        cases hv'
        refine hsub u v rfl rfl j ?_
        have hpw : (w.mem b).Pairwise (fun x y => Sub x.val y.val) := by
          generalize w.mem b = l' at hc
          cases hc with
          | bits _ _ _ h4 _ => exact h4
          | null h => exact h.elim
          | ptr h => exact h.elim
        rw [hl] at hy hpw
        rcases List.mem_append.1 hy with hy | hy
        · exact (List.pairwise_append.1 hpw).2.2 y hy ml (by simp) u' u hu' hul j hj
        · rw [List.mem_singleton] at hy
          subst hy
          rw [hul] at hu'
          cases hu'
          exact hj
      generalize w.mem b = l' at hc hpl
      cases hc with
      | null h => exact h.elim
      | ptr h => exact h.elim
      | bits h1 h2 h3 h4 _ =>
        rw [List.cons_append]
        refine .bits h1 (fun y hy => ?_) (fun y hy => ?_) ?_ (fun h => (h rfl).elim)
        · rcases List.mem_append.1 hy with hy | hy
          · exact h2 y hy
          · rw [List.mem_singleton] at hy; subst hy; exact hm
        · rw [← List.cons_append] at hy
          rcases List.mem_append.1 hy with hy | hy
          · exact h3 y hy
          · rw [List.mem_singleton] at hy; subst hy; exact ⟨v, hv, hv32⟩
        · rw [← List.cons_append, List.pairwise_append]
          refine ⟨h4, by simp, fun y hy z hz => ?_⟩
          rw [List.mem_singleton] at hz; subst hz
          rw [hv]
          exact hpl y hy
    · rw [Function.update_of_ne hba]
      exact (h.cells b o x hb').mono (write_pub w a m)
  msgs b x hb m' hm' := by
    have hm' : m' ∈ Function.update w.mem a (w.mem a ++ [m]) b := hm'
    by_cases hba : b = a
    · subst hba
      rw [Function.update_self] at hm'
      rcases List.mem_append.1 hm' with h1 | h1
      · exact (h.msgs b _ hb m' h1).mono (write_grows w b m)
      · rw [List.mem_singleton] at h1
        subst h1
        exact hs
    · rw [Function.update_of_ne hba] at hm'
      exact (h.msgs b _ hb m' hm').mono (write_grows w a m)
  just b o g path' hb m' hm' v' hv' j hj' := by
    have hb' : w.role b = some (o, .bits g path') := hb
    have hm' : m' ∈ Function.update w.mem a (w.mem a ++ [m]) b := hm'
    by_cases hba : b = a
    · subst hba
      rw [Function.update_self] at hm'
      rcases List.mem_append.1 hm' with h1 | h1
      · exact (h.just b o g path' hb' m' h1 v' hv' j hj').mono (write_pub w b m)
      · rw [List.mem_singleton] at h1
        subst h1
        rw [hv] at hv'
        cases hv'
        rw [ha] at hb'
        cases hb'
        rcases hj j hj' with hu | hu
        · exact (h.just b _ f path ha ml (by rw [hl]; simp) u hul j hu).mono (write_pub w b _)
        · exact hu.mono (write_pub w b _)
    · rw [Function.update_of_ne hba] at hm'
      exact (h.just b o g path' hb' m' hm' v' hv' j hj').mono (write_pub w a m)

end write

/-! ## Soundness -/

/-- What is given up of a machine: the memory with roles. -/
def Mach.world {α : Type} (c : Mach ι α) (role : Nat → Option (Option ι × Role)) : World ι :=
  ⟨c.mem, c.top, role⟩

/-- The threads are safe, with the roles of the words. -/
def SafeAt {α : Type} (T : Table) (good : Prop) (Q : ι → World ι → Know → α → Prop) (c : Mach ι α)
    (role : Nat → Option (Option ι × Role)) : Prop :=
  WInv T good (c.world role) ∧
    (∀ i, safe T good i (c.pool i) (Q i) (c.world role) (c.know i)) ∧
    (∀ i, SeenOk (c.world role) (c.know i)) ∧ (good → c.races = [])

/-- The threads are safe. -/
def Safe {α : Type} (T : Table) (good : Prop) (Q : ι → World ι → Know → α → Prop) (c : Mach ι α) : Prop :=
  ∃ role, SafeAt T good Q c role

section sound
variable [DecidableEq ι] {α : Type} {Q : ι → World ι → Know → α → Prop}
  (hQ : ∀ i w w' k a, Rely i w w' → WInv T good w' → Q i w k a → Q i w' k a)

theorem access_of {c : Mach ι α} {i : ι} {all : Bool} {a : Nat}
    (h : ordered all (c.know i) a (c.mem a) = true) : c.access i all a = c := if_pos h

theorem access_races {c : Mach ι α} {i : ι} {all : Bool} {a : Nat}
    (h : good → ordered all (c.know i) a (c.mem a) = true) (hc : good → c.races = []) :
    good → (c.access i all a).races = [] := fun g => by rw [access_of (h g)]; exact hc g

theorem access_mem (c : Mach ι α) (i : ι) (all : Bool) (a : Nat) :
    (c.access i all a).mem = c.mem ∧ (c.access i all a).top = c.top ∧
      (c.access i all a).know = c.know ∧ (c.access i all a).pool = c.pool := by
  unfold Mach.access; split <;> exact ⟨rfl, rfl, rfl, rfl⟩

theorem ordered_single {k : Know} {a : Nat} {m : Msg} {all : Bool} (h : (a, 0) ∈ k.before) :
    ordered all k a [m] = true := by
  simp [ordered, h]

theorem ordered_pair {k : Know} {a : Nat} {m m' : Msg} (hm : m'.atomic = true) (h : (a, 0) ∈ k.before) :
    ordered false k a [m, m'] = true := by
  simp [ordered, h, hm, List.range_succ]

theorem ordered_bits {k : Know} {a : Nat} {m : Msg} {l : List Msg} (hl : ∀ x ∈ l, x.atomic = true)
    (h : (a, 0) ∈ k.before) : ordered false k a (m :: l) = true := by
  simp only [ordered, List.isEmpty_cons, Bool.not_false, Bool.true_and, List.all_eq_true, List.mem_range]
  intro n hn
  cases n with
  | zero => simp [h]
  | succ n =>
    have hn' : n < l.length := by simpa using hn
    rw [List.getD_eq_getElem?_getD, List.getElem?_cons_succ, List.getElem?_eq_getElem hn', Option.getD_some,
      hl _ (List.getElem_mem hn')]
    rfl

theorem Cell.ordered {w : World ι} {o : Option ι} {r : Role} {l : List Msg} (h : Cell T good w o r l)
    {k : Know} {a : Nat} (hk : (a, 0) ∈ k.before) : ordered false k a l = true := by
  cases h with
  | content => exact ordered_single hk
  | null => exact ordered_single hk
  | ptr _ _ _ h4 => exact ordered_pair h4 hk
  | bits _ h2 => exact ordered_bits h2 hk

/-- A step that changes thread `i` and lets the others rely on it. -/
theorem SafeAt.rest {c c' : Mach ι α} {role role' : Nat → Option (Option ι × Role)} {i : ι}
    (hQ : ∀ i w w' k a, Rely i w w' → WInv T good w' → Q i w k a → Q i w' k a)
    (hs : ∀ j, safe T good j (c.pool j) (Q j) (c.world role) (c.know j))
    (hk : ∀ j, SeenOk (c.world role) (c.know j))
    (hrely : ∀ j, j ≠ i → Rely j (c.world role) (c'.world role'))
    (hg : Grows (c.world role) (c'.world role')) (hinv : WInv T good (c'.world role'))
    {k : Know} {p : WProg α} (hkn : c'.know = Function.update c.know i k)
    (hpl : c'.pool = Function.update c.pool i p)
    (hsi : safe T good i p (Q i) (c'.world role') k) (hki : SeenOk (c'.world role') k)
    (hr : good → c'.races = []) : SafeAt T good Q c' role' := by
  refine ⟨hinv, fun j => ?_, fun j => ?_, hr⟩
  · rw [hkn, hpl]
    by_cases hj : j = i
    · subst hj; rw [Function.update_self, Function.update_self]; exact hsi
    · rw [Function.update_of_ne hj, Function.update_of_ne hj]
      exact safe_mono (fun a => hQ j _ _ _ a (hrely j hj) hinv) (hs j) (hrely j hj)
  · rw [hkn]
    by_cases hj : j = i
    · subst hj; rw [Function.update_self]; exact hki
    · rw [Function.update_of_ne hj]; exact (hk j).mono hg

theorem Grows.rfl (w : World ι) : Grows w w := ⟨Nat.le_refl _, fun _ r h _ => ⟨⟨r, h⟩, Nat.le_refl _⟩⟩

theorem foldl_access {c : Mach ι α} {i : ι} {l : List Nat} {a : Nat}
    (h : ∀ j ∈ l, ordered true (c.know i) (a + j) (c.mem (a + j)) = true) :
    l.foldl (fun c j => c.access i true (a + j)) c = c := by
  induction l with
  | nil => rfl
  | cons j l ih =>
    rw [List.foldl_cons, access_of (h j (by simp))]
    exact ih fun j hj => h j (by simp [hj])

theorem Know.le_learn (k : Know) (o : MemOrd) (a n : Nat) (m : Msg) : k.le (learn k o a n m) := by
  unfold learn
  dsimp only
  split
  · exact ⟨fun w hw => List.mem_append_left _ hw,
      fun w hw => List.mem_append_left _ (List.mem_cons_of_mem _ hw)⟩
  · exact ⟨fun w hw => hw, fun w hw => List.mem_cons_of_mem _ hw⟩

theorem learn_seen (k : Know) (o : MemOrd) (a n : Nat) (m : Msg) : (a, n) ∈ (learn k o a n m).seen := by
  unfold learn
  dsimp only
  split
  · exact List.mem_append_left _ (List.mem_cons_self ..)
  · exact List.mem_cons_self ..

theorem learn_acquires {k : Know} {o : MemOrd} {a n : Nat} {m : Msg} (h : o.acquires = true) :
    m.know.le (learn k o a n m) := by
  unfold learn
  rw [if_pos h]
  exact ⟨fun w hw => List.mem_append_right _ hw, fun w hw => List.mem_append_right _ hw⟩

theorem SeenOk.learn {w : World ι} {k : Know} {o : MemOrd} {a n : Nat} {m : Msg} (h : SeenOk w k)
    (hm : SeenOk w m.know) (ha : a < w.top) (hn : n < (w.mem a).length) :
    SeenOk w (Weak.learn k o a n m) := by
  have h1 : SeenOk w { k with seen := (a, n) :: k.seen } := by
    intro x hx
    rcases List.mem_cons.1 hx with rfl | hx
    · exact ⟨ha, fun _ _ => hn⟩
    · exact h x hx
  unfold Weak.learn
  dsimp only
  split
  · intro x hx
    rcases List.mem_append.1 hx with hx | hx
    · exact h1 x hx
    · exact hm x hx
  · exact h1

theorem Know.le_block (k : Know) (a n : Nat) : k.le (k.block a n) :=
  ⟨fun _ h => List.mem_append_right _ h, fun _ h => List.mem_append_right _ h⟩

theorem knows_block (k : Know) (a n : Nat) : Knows (k.block a n) a n := fun j hj =>
  List.mem_append_left _ (List.mem_map.2 ⟨j, List.mem_range.2 hj, rfl⟩)

theorem choose_lt {k : Know} {a n : Nat} {l : List Msg} (h : l ≠ []) : choose k a l n < l.length := by
  unfold choose
  split
  · rename_i h1
    simp only [readable, Bool.and_eq_true, decide_eq_true_eq] at h1
    exact h1.1
  · have := List.length_pos_iff.2 h
    omega

theorem choose_zero {k : Know} {a n : Nat} {l : List Msg} (hl : 1 < l.length)
    (h : choose k a l n = 0) : (a, 1) ∉ k.seen := by
  intro hs
  unfold choose at h
  split at h
  · rename_i h1
    subst h
    simp only [readable, Bool.and_eq_true, List.all_eq_true] at h1
    have := h1.2 _ hs
    simp at this
  · omega

/-- The ways to read a pointer. -/
theorem Cell.read {w : World ι} {o : Option ι} {r : Role} {l : List Msg} (h : Cell T good w o r l)
    (hr : r.isPtr) {k : Know} {a : Nat} (hs : (a, 1) ∈ k.seen → 1 < l.length) (n : Nat) :
    choose k a l n < l.length ∧
    ((choose k a l n = 0 ∧ (l.getD 0 ⟨none, false, .none⟩).val = none ∧ (a, 1) ∉ k.seen) ∨
      ∃ m m' p, l = [m, m'] ∧ choose k a l n = 1 ∧ m'.val = some p ∧ PubBlock T w r p ∧
        (good → Knows m'.know p (layout T r).length)) := by
  cases h with
  | content => exact hr.elim
  | bits => exact hr.elim
  | @null _ _ m _ _ hv =>
    have hlt : choose k a [m] n < 1 := choose_lt (by simp)
    refine ⟨hlt, .inl ⟨by omega, hv, fun h => ?_⟩⟩
    have := hs h
    simp at this
  | @ptr _ m m' p _ _ hv _ h5 h6 h7 =>
    have hlt : choose k a [m, m'] n < 2 := choose_lt (by simp)
    refine ⟨hlt, ?_⟩
    by_cases h0 : choose k a [m, m'] n = 0
    · exact .inl ⟨h0, hv, choose_zero (by simp) h0⟩
    · exact .inr ⟨m, m', p, rfl, by omega, h5, h6, h7⟩

theorem Cell.split {w : World ι} {o : Option ι} {r : Role} {l : List Msg} (h : Cell T good w o r l)
    (hr : r.isPtr) : (∃ m, l = [m] ∧ m.atomic = false ∧ m.val = none) ∨
      ∃ m m' p, l = [m, m'] ∧ m.val = none ∧ m'.val = some p ∧ PubBlock T w r p ∧
        (good → Knows m'.know p (layout T r).length) := by
  cases h with
  | content => exact hr.elim
  | bits => exact hr.elim
  | null _ h2 h3 => exact .inl ⟨_, rfl, h2, h3⟩
  | ptr _ _ h3 _ h5 h6 h7 => exact .inr ⟨_, _, _, rfl, h3, h5, h6, h7⟩

theorem getD_mem {l : List Msg} {n : Nat} (h : n < l.length) : l.getD n ⟨none, false, .none⟩ ∈ l := by
  rw [List.getD_eq_getElem?_getD, List.getElem?_eq_getElem h]
  exact List.getElem_mem h

theorem getD_eq {l : List Msg} {n : Nat} {m m0 : Msg} (h : n < l.length) (hm : l.getD n m0 = m) :
    l[n]? = some m := by
  rw [List.getD_eq_getElem?_getD, List.getElem?_eq_getElem h] at hm
  rw [List.getElem?_eq_getElem h, ← hm]; rfl

theorem choose_seen {k : Know} {a n : Nat} {l : List Msg} (h : l ≠ [])
    (hl : ∀ m, (a, m) ∈ k.seen → m < l.length) :
    choose k a l n < l.length ∧ ∀ m, (a, m) ∈ k.seen → m ≤ choose k a l n := by
  refine ⟨choose_lt h, fun m hm => ?_⟩
  unfold choose
  split
  · rename_i h1
    simp only [readable, Bool.and_eq_true, List.all_eq_true] at h1
    have := h1.2 _ hm
    simpa using this
  · have := hl m hm
    omega

theorem Cell.ne_nil {w : World ι} {o : Option ι} {r : Role} {l : List Msg} (h : Cell T good w o r l) : l ≠ [] := by
  cases h <;> simp

theorem Cell.bits_val {w : World ι} {o : Option ι} {f : Nat} {path : List Nat} {l : List Msg}
    (h : Cell T good w o (.bits f path) l) {m : Msg} (hm : m ∈ l) : ∃ v, m.val = some v := by
  cases h with
  | null h => exact h.elim
  | ptr h => exact h.elim
  | bits _ _ h3 =>
    obtain ⟨v, hv, _⟩ := h3 m hm
    exact ⟨v, hv⟩

theorem Know.le_add (k : Know) (x : Nat × Nat) : k.le (k.add x) :=
  ⟨fun _ h => List.mem_cons_of_mem _ h, fun _ h => List.mem_cons_of_mem _ h⟩

include hQ in
theorem SafeAt.step {c : Mach ι α} {role : Nat → Option (Option ι × Role)} (h : SafeAt T good Q c role)
    (i : ι) (n : Nat) : ∃ role', SafeAt T good Q (c.step i n) role' ∧
      PubGrow (c.world role) ((c.step i n).world role') ∧ Grows (c.world role) ((c.step i n).world role') := by
  obtain ⟨hinv, hs, hk, hr⟩ := h
  have hsi := hs i
  unfold Mach.step
  cases hp : c.pool i with
  | ret a => exact ⟨role, ⟨hinv, hs, hk, hr⟩, .rfl _, .rfl _⟩
  | panic => exact ⟨role, ⟨hinv, hs, hk, hr⟩, .rfl _, .rfl _⟩
  | alloc ws f =>
    rw [hp] at hsi
    obtain ⟨rs, h1, h2, h3⟩ := hsi
    exact ⟨((c.world role).alloc i ws rs).role, SafeAt.rest hQ hs hk
      (fun j _ => alloc_rely hinv i j) (alloc_grows hinv i) (alloc_inv hinv i h1 h2) rfl rfl
      (h3 _ (.rfl _ _) hinv) (alloc_seen hinv i h1 (hk i)) hr, (alloc_rely hinv i i).1, alloc_grows hinv i⟩
  | free a len f =>
    rw [hp] at hsi
    obtain ⟨h1, h2, h3⟩ := hsi
    dsimp only
    have hord : ∀ j ∈ List.range len, ordered true (c.know i) (a + j) (c.mem (a + j)) = true := by
      intro j hj
      have hj := List.mem_range.1 hj
      obtain ⟨r, hr'⟩ := h1 j hj
      have hc := hinv.cells _ _ _ hr'
      have hb := h2 j hj
      have he : (c.world role).mem (a + j) = c.mem (a + j) := rfl
      rw [he] at hc
      generalize c.mem (a + j) = l at hc
      cases hc with
      | content => exact ordered_single hb
      | null => exact ordered_single hb
      | bits _ _ _ _ h5 => cases h5 (by simp); exact ordered_single hb
    rw [foldl_access hord]
    have hinv' := free_inv hinv h1
    exact ⟨((c.world role).free a len).role, SafeAt.rest (k := c.know i) hQ hs hk
      (fun j hj => free_rely h1 hj) free_grows hinv' (by simp) rfl
      (h3 _ (.rfl _ _) hinv _ (free_pub h1) hinv') ((hk i).mono free_grows) hr, free_pub h1, free_grows⟩
  | plain a f =>
    rw [hp] at hsi
    obtain ⟨⟨path, h1⟩, h2, h3⟩ := hsi
    dsimp only
    obtain ⟨m1, m2, m3, m4⟩ := access_mem c i true a
    have hc := hinv.cells _ _ _ h1
    have he : (c.world role).mem a = c.mem a := rfl
    rw [he] at hc
    rw [m1, m2, m3]
    refine ⟨role, SafeAt.rest (i := i) (k := c.know i) (role' := role) hQ hs hk (fun j _ => .rfl _ _)
      (.rfl _) hinv (by simp) rfl ?_ (hk i) (access_races (fun g => ?_) hr), .rfl _, .rfl _⟩
    · refine h3 _ (.rfl _ _) hinv _ ?_
      unfold Val
      rw [he]
      generalize c.mem a = l at hc ⊢
      cases hc with
      | @content _ _ m _ hf =>
        have hlt : choose (c.know i) a [m] n < 1 := choose_lt (by simp)
        exact ⟨m, by simp, by rw [show choose (c.know i) a [m] n = 0 by omega]; rfl⟩
      | null hr' => exact hr'.elim
      | ptr hr' => exact hr'.elim
    · generalize c.mem a = l at hc ⊢
      cases hc with
      | content => exact ordered_single (h2 g)
      | null hr' => exact hr'.elim
      | ptr hr' => exact hr'.elim
  | load a o f =>
    rw [hp] at hsi
    rcases hsi with ⟨r, h1, h2, h3, h4⟩ | ⟨f', path, h1, h2, h3⟩
    · dsimp only
      obtain ⟨m1, m2, m3, m4⟩ := access_mem c i false a
      have hc := hinv.cells _ _ _ h2
      have he : (c.world role).mem a = c.mem a := rfl
      rw [he] at hc
      have hlen := fun h => ((hk i) (a, 1) h).2 _ h2
      rw [he] at hlen
      obtain ⟨hlt, hrd⟩ := hc.read h1 hlen n
      have hord : good → ordered false (c.know i) a (c.mem a) = true := fun g => hc.ordered (h3 g).1
      have hmsg := hinv.msgs _ _ h2
      rw [he] at hmsg
      have hlt' := hlt
      generalize choose (c.know i) a (c.mem a) n = x at hlt hrd hlt'
      have hmx : (c.mem a).getD x ⟨none, false, .none⟩ ∈ c.mem a := by
        rw [List.getD_eq_getElem?_getD, List.getElem?_eq_getElem hlt]
        exact List.getElem_mem hlt
      generalize hm : (c.mem a).getD x ⟨none, false, .none⟩ = m at hmx
      rw [m1, m2]
      refine ⟨role, SafeAt.rest (i := i) (role' := role) hQ hs hk (fun j _ => .rfl _ _)
        (.rfl _) hinv rfl rfl ?_ ?_ (access_races hord hr), .rfl _, .rfl _⟩
      · obtain ⟨g1, g2⟩ := h4 _ (.rfl _ _) hinv _ (Know.le_learn (c.know i) o a x m)
        rcases hrd with ⟨rfl, hv, hn⟩ | ⟨m0, m', p, hl, rfl, hv, hb, hkn⟩
        · rw [hm] at hv
          rw [hv]
          exact g1 hn
        · rw [hl] at hm
          have hm : m' = m := hm
          subst hm
          rw [hv]
          refine g2 p ⟨m', by rw [he]; exact hmx, hv⟩ hb (fun g => ?_) (learn_seen ..)
          exact (hkn g).mono (learn_acquires (h3 g).2)
      · exact (hk i).learn (hmsg m hmx) (hinv.lt h2) hlt'
    · dsimp only
      obtain ⟨m1, m2, m3, m4⟩ := access_mem c i false a
      have hc := hinv.cells _ _ _ h1
      have he : (c.world role).mem a = c.mem a := rfl
      rw [he] at hc
      have hord : good → ordered false (c.know i) a (c.mem a) = true := fun g => hc.ordered (h2 g)
      have hlast : ∀ m, (a, m) ∈ (c.know i).seen → m < (c.mem a).length := fun m hm => ((hk i) (a, m) hm).2 _ h1
      obtain ⟨hlt, hge⟩ := choose_seen (n := n) hc.ne_nil hlast
      obtain ⟨v, hv⟩ := hc.bits_val (getD_mem hlt)
      have hmsg := hinv.msgs _ _ h1 _ (getD_mem (l := c.mem a) hlt)
      generalize choose (c.know i) a (c.mem a) n = x at hlt hge hv hmsg
      generalize hm : (c.mem a).getD x ⟨none, false, .none⟩ = m at hv hmsg
      rw [m1, m2]
      refine ⟨role, SafeAt.rest (i := i) (role' := role) hQ hs hk (fun j _ => .rfl _ _)
        (.rfl _) hinv rfl rfl ?_ ?_ (access_races hord hr), .rfl _, .rfl _⟩
      · rw [hv]
        exact h3 _ (.rfl _ _) hinv _ (Know.le_learn ..) x v ⟨m, by rw [he]; exact getD_eq hlt hm, hv⟩
          (learn_seen ..) hge
      · exact (hk i).learn hmsg (hinv.lt h1) hlt
  | cas a old new ok err f =>
    rw [hp] at hsi
    rcases hsi with ⟨rfl, r, p, h1, rfl, h2, hpb, hkp, h3, h4⟩ | ⟨f', path, u, v, rfl, rfl, h1, h2, h3, h4, h5, h6⟩
    · dsimp only
      obtain ⟨m1, m2, m3, m4⟩ := access_mem c i false a
      have hc := hinv.cells _ _ _ h2
      have he : (c.world role).mem a = c.mem a := rfl
      rw [he] at hc
      have hlen := fun h => ((hk i) (a, 1) h).2 _ h2
      rw [he] at hlen
      obtain ⟨hlt, hrd⟩ := hc.read h1 hlen n
      have hord : good → ordered false (c.know i) a (c.mem a) = true := fun g => hc.ordered (h3 g).1
      have hmsg := hinv.msgs _ _ h2
      rw [he] at hmsg
      generalize choose (c.know i) a (c.mem a) n = x at hlt hrd
      rcases hc.split h1 with ⟨m, hl, hat, hv⟩ | ⟨m, m', q, hl, hv, hv', hb, hkn⟩
      · rw [hl] at hlt hord hmsg ⊢
        have hx : x = 0 := by simpa using hlt
        subst hx
        have hg0 : ∀ m0 : Msg, List.getD [m] 0 m0 = m := fun _ => rfl
        have hl1 : [m].length - 1 = 0 := rfl
        have hl2 : [m].length = 1 := rfl
        rw [hg0, if_pos hv, hl1, hg0, if_pos hv, m2, hl2]
        have hkm := hmsg m (by simp)
        have hle : (c.know i).le ((learn (c.know i) ok a 0 m).add (a, 1)) :=
          Know.le_trans (Know.le_learn _ ok a 0 m) (Know.le_add _ _)
        have hk1 : ∀ y ∈ ((learn (c.know i) ok a 0 m).add (a, 1)).seen,
            y = (a, 1) ∨ y ∈ (learn (c.know i) ok a 0 m).seen := fun y hy => List.mem_cons.1 hy
        have hk2 : (a, 1) ∈ ((learn (c.know i) ok a 0 m).add (a, 1)).seen := List.mem_cons_self ..
        generalize (learn (c.know i) ok a 0 m).add (a, 1) = k1 at hle hk1 hk2
        have hx1 : ∀ w' : World ι, SeenOk w' m.know → SeenOk w' k1 →
            SeenOk w' (if ok.releases then m.know.join k1 else m.know) := by
          intro w' g1 g2
          split
          · intro y hy
            rcases List.mem_append.1 hy with hy | hy
            · exact g1 y hy
            · exact g2 y hy
          · exact g1
        have hx2 : good → k1.le (if ok.releases then m.know.join k1 else m.know) := fun g => by
          rw [if_pos (h3 g).2.1]
          exact ⟨fun y hy => List.mem_append_right _ hy, fun y hy => List.mem_append_right _ hy⟩
        generalize (if ok.releases then m.know.join k1 else m.know) = kx at hx1 hx2
        have hs0 : SeenOk (c.world role) (learn (c.know i) ok a 0 m) :=
          (hk i).learn hkm (hinv.lt h2) (by rw [he, hl]; simp)
        have hgr : Grows (c.world role) ((c.world role).publish i a p (layout T r).length ⟨some p, true, kx⟩) :=
          publish_grows
        have hs1 : SeenOk ((c.world role).publish i a p (layout T r).length ⟨some p, true, kx⟩) k1 := by
          intro y hy
          rcases hk1 y hy with rfl | hy
          · refine ⟨hinv.lt h2, fun _ _ => ?_⟩
            show 1 < (Function.update c.mem a (c.mem a ++ [⟨some p, true, kx⟩]) a).length
            rw [Function.update_self, hl]; simp
          · exact hs0.mono hgr y hy
        have hinv' : WInv T good ((c.world role).publish i a p (layout T r).length ⟨some p, true, kx⟩) :=
          publish_inv h2 hpb hinv rfl h1 hl hat hv rfl rfl
            (fun g => hkp.mono (Know.le_trans hle (hx2 g))) (hx1 _ (hkm.mono hgr) hs1)
        have hmem : Function.update c.mem a ([m] ++ [⟨some p, true, kx⟩]) =
            ((c.world role).publish i a p (layout T r).length ⟨some p, true, kx⟩).mem := by
          show _ = Function.update c.mem a (c.mem a ++ _)
          rw [hl]
        rw [hmem]
        refine ⟨_, SafeAt.rest (i := i)
          (role' := ((c.world role).publish i a p (layout T r).length ⟨some p, true, kx⟩).role) hQ hs hk
          (fun j hj => publish_rely h2 hpb rfl hj) hgr hinv' rfl rfl ?_ hs1 (access_races (by rwa [hl]) hr),
          publish_pub h2 hpb rfl, hgr⟩
        rw [hv]
        refine (h4 _ (.rfl _ _) hinv k1 hle hk2).1 _
          (publish_pub h2 hpb rfl) hinv' ⟨⟨some p, true, kx⟩, ?_, rfl⟩ (publish_block h2 hpb rfl)
        show _ ∈ Function.update c.mem a (c.mem a ++ [⟨some p, true, kx⟩]) a
        rw [Function.update_self]
        exact List.mem_append_right _ (List.mem_singleton.2 rfl)
      · rw [hl] at hlt hord hmsg ⊢
        have hsel : (if (List.getD [m, m'] x ⟨none, false, .none⟩).val = none then [m, m'].length - 1 else x) = 1 := by
          have : x = 0 ∨ x = 1 := by simp at hlt; omega
          rcases this with rfl | rfl
          · rw [if_pos (by exact hv)]; rfl
          · simp
        rw [hsel]
        have hg1 : ∀ m0 : Msg, List.getD [m, m'] 1 m0 = m' := fun _ => rfl
        rw [hg1, if_neg (by rw [hv']; simp), m1, m2]
        refine ⟨role, SafeAt.rest (i := i) (role' := role) hQ hs hk (fun j _ => .rfl _ _)
          (.rfl _) hinv rfl rfl ?_ ?_ (access_races (by rwa [hl]) hr), .rfl _, .rfl _⟩
        · rw [hv']
          refine (h4 _ (.rfl _ _) hinv _ (Know.le_learn ..) (learn_seen ..)).2 q ⟨m', ?_, hv'⟩ hb fun g => ?_
          · rw [he, hl]; simp
          · exact (hkn g).mono (learn_acquires (h3 g).2.2)
        · exact (hk i).learn (hmsg m' (by simp)) (hinv.lt h2) (by rw [he, hl]; simp)
    · dsimp only
      obtain ⟨m1, m2, m3, m4⟩ := access_mem c i false a
      have hc := hinv.cells _ _ _ h1
      have he : (c.world role).mem a = c.mem a := rfl
      rw [he] at hc
      have hord : good → ordered false (c.know i) a (c.mem a) = true := fun g => hc.ordered (h2 g)
      have hlast : ∀ m, (a, m) ∈ (c.know i).seen → m < (c.mem a).length := fun m hm => ((hk i) (a, m) hm).2 _ h1
      obtain ⟨hlt, hge⟩ := choose_seen (n := n) hc.ne_nil hlast
      have hpos : 0 < (c.mem a).length := List.length_pos_iff.2 hc.ne_nil
      have hltx : (if ((c.mem a).getD (choose (c.know i) a (c.mem a) n) ⟨none, false, .none⟩).val = some u
          then (c.mem a).length - 1 else choose (c.know i) a (c.mem a) n) < (c.mem a).length := by
        split <;> omega
      have hgex : ∀ m, (a, m) ∈ (c.know i).seen →
          m ≤ (if ((c.mem a).getD (choose (c.know i) a (c.mem a) n) ⟨none, false, .none⟩).val = some u
          then (c.mem a).length - 1 else choose (c.know i) a (c.mem a) n) := by
        intro m hm
        split
        · have := hlast m hm; omega
        · exact hge m hm
      have hxl : ((c.mem a).getD (if ((c.mem a).getD (choose (c.know i) a (c.mem a) n) ⟨none, false, .none⟩).val = some u
          then (c.mem a).length - 1 else choose (c.know i) a (c.mem a) n) ⟨none, false, .none⟩).val = some u →
          (if ((c.mem a).getD (choose (c.know i) a (c.mem a) n) ⟨none, false, .none⟩).val = some u
          then (c.mem a).length - 1 else choose (c.know i) a (c.mem a) n) = (c.mem a).length - 1 := by
        split
        · intro _; rfl
        · intro h; exact absurd h ‹_›
      generalize (if ((c.mem a).getD (choose (c.know i) a (c.mem a) n) ⟨none, false, .none⟩).val = some u
          then (c.mem a).length - 1 else choose (c.know i) a (c.mem a) n) = x at hltx hgex hxl
      obtain ⟨u', hu'⟩ := hc.bits_val (getD_mem hltx)
      have hmsg := hinv.msgs _ _ h1 _ (getD_mem (l := c.mem a) hltx)
      generalize hm : (c.mem a).getD x ⟨none, false, .none⟩ = m at hu' hmsg hxl
      by_cases hv : m.val = some u
      · have hx := hxl hv
        subst hx
        rw [if_pos hv, m2]
        have hle : (c.know i).le ((learn (c.know i) ok a ((c.mem a).length - 1) m).add (a, (c.mem a).length)) :=
          Know.le_trans (Know.le_learn _ ok a _ m) (Know.le_add _ _)
        have hk1 : ∀ y ∈ ((learn (c.know i) ok a ((c.mem a).length - 1) m).add (a, (c.mem a).length)).seen,
            y = (a, (c.mem a).length) ∨ y ∈ (learn (c.know i) ok a ((c.mem a).length - 1) m).seen :=
          fun y hy => List.mem_cons.1 hy
        have hk2 : (a, (c.mem a).length) ∈
          ((learn (c.know i) ok a ((c.mem a).length - 1) m).add (a, (c.mem a).length)).seen := List.mem_cons_self ..
        generalize (learn (c.know i) ok a ((c.mem a).length - 1) m).add (a, (c.mem a).length) = k1 at hle hk1 hk2
        have hx1 : ∀ w' : World ι, SeenOk w' m.know → SeenOk w' k1 →
            SeenOk w' (if ok.releases then m.know.join k1 else m.know) := by
          intro w' g1 g2
          split
          · intro y hy
            rcases List.mem_append.1 hy with hy | hy
            · exact g1 y hy
            · exact g2 y hy
          · exact g1
        generalize (if ok.releases then m.know.join k1 else m.know) = kx at hx1
        have hs0 : SeenOk (c.world role) (learn (c.know i) ok a ((c.mem a).length - 1) m) :=
          (hk i).learn hmsg (hinv.lt h1) hltx
        have hgr : Grows (c.world role) ((c.world role).write a ⟨some v, true, kx⟩) := write_grows ..
        have hs1 : SeenOk ((c.world role).write a ⟨some v, true, kx⟩) k1 := by
          intro y hy
          rcases hk1 y hy with rfl | hy
          · refine ⟨hinv.lt h1, fun _ _ => ?_⟩
            show _ < (Function.update c.mem a (c.mem a ++ [⟨some v, true, kx⟩]) a).length
            rw [Function.update_self]; simp
          · exact hs0.mono hgr y hy
        have hinv' : WInv T good ((c.world role).write a ⟨some v, true, kx⟩) := by
          refine write_inv h1 hinv (l := (c.mem a).dropLast) (ml := m) ?_ hv rfl h3 h4 rfl h5
            (hx1 _ (hmsg.mono hgr) hs1)
          rw [he]
          have hgl : (c.mem a).getLast hc.ne_nil = m := by
            rw [← hm, List.getLast_eq_getElem, List.getD_eq_getElem?_getD, List.getElem?_eq_getElem hltx]
            rfl
          rw [← hgl]
          exact (List.dropLast_append_getLast hc.ne_nil).symm
        refine ⟨role, SafeAt.rest (i := i) (role' := role) hQ hs hk
          (fun j hj => write_rely h1 j) hgr hinv' rfl rfl ?_ hs1 (access_races hord hr), write_pub (c.world role) a _, hgr⟩
        rw [hv]
        refine (h6 _ (.rfl _ _) hinv k1 hle).1 _ _ (write_pub (c.world role) a _) hinv' ⟨⟨some v, true, kx⟩, ?_, rfl⟩ hk2
        show (Function.update c.mem a (c.mem a ++ [⟨some v, true, kx⟩]) a)[_]? = _
        rw [Function.update_self]
        simp
      · rw [if_neg hv, m1, m2]
        refine ⟨role, SafeAt.rest (i := i) (role' := role) hQ hs hk (fun j _ => .rfl _ _)
          (.rfl _) hinv rfl rfl ?_ ?_ (access_races hord hr), .rfl _, .rfl _⟩
        · rw [hu']
          refine (h6 _ (.rfl _ _) hinv _ (Know.le_learn ..)).2 x u' ⟨m, by rw [he]; exact getD_eq hltx hm, hu'⟩
            (fun h => hv (h ▸ hu')) (learn_seen ..) hgex
        · exact (hk i).learn hmsg (hinv.lt h1) hltx

include hQ in
theorem Safe.step {c : Mach ι α} (h : Safe T good Q c) (i : ι) (n : Nat) : Safe T good Q (c.step i n) := by
  obtain ⟨role, h⟩ := h
  obtain ⟨role', h', _⟩ := h.step hQ i n
  exact ⟨role', h'⟩

include hQ in
theorem Safe.exec {c : Mach ι α} (h : Safe T good Q c) (t : List (ι × Nat)) : Safe T good Q (c.exec t) := by
  unfold Mach.exec
  induction t generalizing c with
  | nil => exact h
  | cons x t ih => exact ih (h.step hQ x.1 x.2)

end sound

end

end Rotonda.Weak
