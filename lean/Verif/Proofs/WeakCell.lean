import Verif.Model.WeakCell
import Verif.Proofs.Weak
import Verif.Proofs.ConcSound

/-!
# One epoch-managed pointer under weak memory: a simulation

The pointer is followed along its modification order: entry `n` of a log is the cell after
write `n`.  A thread of the weak machine is related to the same thread on the cell of
`Verif.Model.Epoch`; what it reads of write `n` is inserted into the schedule of the
latter right after that write.
-/

namespace Rotonda.Weak

abbrev VC := VerCell Bool Word

/-- A write to the pointer: the cell after it, and the address of its block. -/
structure CEntry where
  st : VC
  addr : Nat

def CEntry.word (e : CEntry) : Word := tagged e.addr e.st.tag

@[simp] theorem addrOf_tagged (p : Nat) (t : Bool) : addrOf (tagged p t) = p := by
  cases t <;> simp [addrOf, tagged] <;> omega

@[simp] theorem tagOf_tagged (p : Nat) (t : Bool) : tagOf (tagged p t) = t := by
  cases t <;> simp [tagOf, tagged]

@[simp] theorem addrOf_word (e : CEntry) : addrOf e.word = e.addr := addrOf_tagged _ _

@[simp] theorem tagOf_word (e : CEntry) : tagOf e.word = e.st.tag := tagOf_tagged _ _

theorem word_eq {e e' : CEntry} (h : e.word = e'.word) : e.addr = e'.addr ∧ e.st.tag = e'.st.tag :=
  ⟨by simpa using congrArg addrOf h, by simpa using congrArg tagOf h⟩

/-- Every version has one address and one content; versions only grow. -/
structure LogOk (H : List CEntry) : Prop where
  same : ∀ {m n : Nat} {e e' : CEntry}, H[m]? = some e → H[n]? = some e' →
    (e.addr = e'.addr ↔ e.st.ver = e'.st.ver)
  mono : ∀ {m n : Nat} {e e' : CEntry}, H[m]? = some e → H[n]? = some e' → m ≤ n → e.st.ver ≤ e'.st.ver
  val : ∀ {m n : Nat} {e e' : CEntry}, H[m]? = some e → H[n]? = some e' → e.addr = e'.addr →
    e.st.val = e'.st.val

/-- Nothing, or an action that does not change the cell. -/
inductive ReadStep {β : Type} (s : VC) : Prog VC β → Prog VC β → Prop
  | silent (q : Prog VC β) : ReadStep s q q
  | act {ρ : Type} (f : VC → ρ × VC) (k : ρ → Prog VC β) : (f s).2 = s → ReadStep s (.act f k) (k (f s).1)

/-- An action that changes the cell. -/
inductive WriteStep {β : Type} (s s' : VC) : Prog VC β → Prog VC β → Prop
  | act {ρ : Type} (f : VC → ρ × VC) (k : ρ → Prog VC β) : (f s).2 = s' → WriteStep s s' (.act f k) (k (f s).1)

section
variable (good : Prop) {α β : Type}

/-- The pointer after a write by a thread that owns `own`, and what it owns then. -/
inductive Writes1 (good : Prop) (ok : MemOrd) (e : CEntry) :
    Option (Nat × Word) → CEntry → Option (Nat × Word) → Prop
  | swap (x : Nat) (v : Word) (t : Bool) (h : good → ok.releases = true) :
      Writes1 good ok e (some (x, v)) ⟨⟨e.st.ver + 1, t, v⟩, x⟩ none
  | mark (own : Option (Nat × Word)) (t : Bool) :
      Writes1 good ok e own ⟨{ e.st with tag := t }, e.addr⟩ own

/-- A weak program does what a program on the cell does. -/
def csim : WProg α → Prog VC β → Option (Nat × Word) → List CEntry → Know →
    (α → Prog VC β → List CEntry → Prop) → Prop
  | .ret a, q, own, H, _, Q => own = none ∧ Q a q H
  | .panic, _, _, _, _, _ => True
  | .alloc ws f, q, own, H, k, Q => own = none ∧ ∃ v, ws = [v] ∧
      ∀ H', H <+: H' → ∀ x, csim (f x) q (some (x, v)) H' (k.block x 1) Q
  | .free a n p, q, own, H, k, Q => n = 1 ∧ (∃ v, own = some (a, v)) ∧
      ∀ H', H <+: H' → csim p q none H' k Q
  | .plain a f, q, own, H, k, Q => ∃ (n : Nat) (e : CEntry), H[n]? = some e ∧ e.addr = a ∧
      (good → (a, 0) ∈ k.before) ∧ ∀ H', H <+: H' → csim (f e.st.val) q own H' k Q
  | .load a o f, q, own, H, k, Q => a = cellLoc ∧
      ∀ H', H <+: H' → LogOk H' → ∀ (n : Nat) (e : CEntry), H'[n]? = some e → ∀ k', k.le k' →
        (good → o.acquires = true → (e.addr, 0) ∈ k'.before) →
        ∃ q', ReadStep e.st q q' ∧ csim (f e.word) q' own H' k' Q
  | .cas a old new ok err f, q, own, H, k, Q => a = cellLoc ∧
      ∀ H', H <+: H' → LogOk H' →
        (∀ e : CEntry, H'.getLast? = some e → e.word = old → ∃ (e' : CEntry) (own' : Option (Nat × Word)) (q' : Prog VC β), Writes1 good ok e own e' own' ∧
          new = e'.word ∧ WriteStep e.st e'.st q q' ∧
          ∀ k', k.le k' → csim (f (.ok old)) q' own' (H' ++ [e']) k' Q) ∧
        ∀ (n : Nat) (e : CEntry), H'[n]? = some e → e.word ≠ old → ∀ k', k.le k' →
          (good → err.acquires = true → (e.addr, 0) ∈ k'.before) →
          ∃ q', ReadStep e.st q q' ∧ csim (f (.error e.word)) q' own H' k' Q

variable {good}

theorem csim_mono {p : WProg α} {q : Prog VC β} {own : Option (Nat × Word)} {H H' : List CEntry}
    {k : Know} {Q : α → Prog VC β → List CEntry → Prop} (hQ : ∀ a q, Q a q H → Q a q H')
    (h : csim good p q own H k Q) (hH : H <+: H') : csim good p q own H' k Q := by
  cases p with
  | ret a => exact ⟨h.1, hQ _ _ h.2⟩
  | panic => trivial
  | alloc ws f =>
    obtain ⟨h0, v, h1, h2⟩ := h
    exact ⟨h0, v, h1, fun u hu => h2 u (hH.trans hu)⟩
  | free a n p => exact ⟨h.1, h.2.1, fun u hu => h.2.2 u (hH.trans hu)⟩
  | plain a f =>
    obtain ⟨n, e, h1, h2, h3, h4⟩ := h
    refine ⟨n, e, ?_, h2, h3, fun u hu => h4 u (hH.trans hu)⟩
    obtain ⟨l, rfl⟩ := hH
    rw [List.getElem?_append_left (List.getElem?_eq_some_iff.1 h1).1]
    exact h1
  | load a o f => exact ⟨h.1, fun u hu => h.2 u (hH.trans hu)⟩
  | cas a old new ok err f => exact ⟨h.1, fun u hu => h.2 u (hH.trans hu)⟩

theorem csim_bind {γ : Type} {f : α → WProg γ} {Q : γ → Prog VC β → List CEntry → Prop}
    {Q' : α → Prog VC β → List CEntry → Prop}
    (hQ : ∀ a q H k, Q' a q H → csim good (f a) q none H k Q)
    (p : WProg α) {q : Prog VC β} {own : Option (Nat × Word)} {H : List CEntry} {k : Know}
    (h : csim good p q own H k Q') : csim good (p.bind f) q own H k Q := by
  induction p generalizing q own H k with
  | ret a => obtain ⟨rfl, h⟩ := h; exact hQ _ _ _ _ h
  | panic => trivial
  | alloc ws g ih =>
    obtain ⟨h0, v, h1, h2⟩ := h
    exact ⟨h0, v, h1, fun u hu x => ih _ (h2 u hu x)⟩
  | free a n p ih => exact ⟨h.1, h.2.1, fun u hu => ih (h.2.2 u hu)⟩
  | plain a g ih =>
    obtain ⟨n, e, h1, h2, h3, h4⟩ := h
    exact ⟨n, e, h1, h2, h3, fun u hu => ih _ (h4 u hu)⟩
  | load a o g ih =>
    refine ⟨h.1, fun u hu hl n e he k' hk hg => ?_⟩
    obtain ⟨q', h1, h2⟩ := h.2 u hu hl n e he k' hk hg
    exact ⟨q', h1, ih _ h2⟩
  | cas a old new ok err g ih =>
    refine ⟨h.1, fun u hu hl => ⟨fun e he hw => ?_, fun n e he hw k' hk hg => ?_⟩⟩
    · obtain ⟨e', own', q', h1, h2, h3, h4⟩ := (h.2 u hu hl).1 e he hw
      exact ⟨e', own', q', h1, h2, h3, fun k' hk => ih _ (h4 k' hk)⟩
    · obtain ⟨q', h1, h2⟩ := (h.2 u hu hl).2 n e he hw k' hk hg
      exact ⟨q', h1, ih _ h2⟩

end

/-! ## The programs -/

theorem LogOk.iff {H : List CEntry} (h : LogOk H) {m n : Nat} {e e' : CEntry} (hm : H[m]? = some e)
    (hn : H[n]? = some e') : e.word = e'.word ↔ e.st.ver = e'.st.ver ∧ e.st.tag = e'.st.tag := by
  constructor
  · intro hw
    exact ⟨(h.same hm hn).1 (word_eq hw).1, (word_eq hw).2⟩
  · rintro ⟨h1, h2⟩
    unfold CEntry.word
    rw [(h.same hm hn).2 h1, h2]

theorem prefix_get {H H' : List CEntry} (h : H <+: H') {n : Nat} {e : CEntry} (he : H[n]? = some e) :
    H'[n]? = some e := by
  obtain ⟨l, rfl⟩ := h
  rw [List.getElem?_append_left (List.getElem?_eq_some_iff.1 he).1]
  exact he

theorem last_get {H : List CEntry} {e : CEntry} (h : H.getLast? = some e) : H[H.length - 1]? = some e := by
  rw [← h, List.getLast?_eq_getElem?]

section
variable {good : Prop} {β : Type} {o : CellOrders} {G : Nat} {Q : CellAns Bool Word → Prog VC β → List CEntry → Prop}
  {rest : CellAns Bool Word → Prog VC β} (hQ : ∀ a H, Q a (rest a) H)
include hQ

theorem csim_read (hg : good → o.get.acquires = true) (H : List CEntry) (k : Know) :
    csim good (cellRead o) ((verRead).bind rest) none H k Q := by
  refine ⟨rfl, fun H1 h1 hl n e he k' hk hkn => ⟨_, .act _ _ rfl, ?_⟩⟩
  refine ⟨n, e, he, (addrOf_word e).symm, fun hgd => ?_, fun H2 h2 => ⟨rfl, hQ _ _⟩⟩
  rw [addrOf_word]
  exact hkn hgd (hg hgd)

theorem csim_tag (H : List CEntry) (k : Know) :
    csim good (cellTag o) ((verTag).bind rest) none H k Q := by
  refine ⟨rfl, fun H1 h1 hl n e he k' hk hkn => ⟨_, .act _ _ rfl, rfl, ?_⟩⟩
  rw [tagOf_word]
  exact hQ _ _

theorem csim_loop (hok : good → o.ok.releases = true) (herr : good → o.err.acquires = true)
    {m : Nat} {e : CEntry} : ∀ (fuel : Nat) (new : Word) (H : List CEntry) (k : Know), H[m]? = some e →
    csim good (cellLoop o e.word fuel new)
      ((verLoop false (e.st.ver, e.st.tag) fuel new).bind fun _ => rest .ok) none H k Q
  | 0, _, _, _, _ => trivial
  | fuel + 1, new, H, k, hm => by
    refine ⟨rfl, new, rfl, fun H1 h1 x => ⟨rfl, fun H2 h2 hl => ⟨fun e1 he1 hw => ?_,
      fun n e1 he1 hw k' hk hkn => ?_⟩⟩⟩
    · have hv := (hl.iff (last_get he1) (prefix_get (h1.trans h2) hm)).1 hw
      refine ⟨_, _, _, .swap x new false hok, rfl, .act _ _ ?_, fun k' hk => ⟨rfl, ?_⟩⟩
      · simp [hv]
      · simp only [hv]
        exact hQ _ _
    · have hv := mt (hl.iff he1 (prefix_get (h1.trans h2) hm)).2 hw
      refine ⟨_, .act _ _ ?_, ?_⟩
      · simp [hv]
      refine ⟨n, e1, he1, (addrOf_word e1).symm, fun hgd => ?_, fun H3 h3 => ⟨rfl, ⟨_, rfl⟩, fun H4 h4 => ?_⟩⟩
      · rw [addrOf_word]; exact hkn hgd (herr hgd)
      · simp only [hv]
        exact csim_loop hok herr fuel e1.st.val H4 k'
          (prefix_get (((h1.trans h2).trans h3).trans h4) hm)

theorem csim_modify (hc : good → o.cur.acquires = true) (hok : good → o.ok.releases = true)
    (herr : good → o.err.acquires = true) (F : Nat) (f : Word → Word) (H : List CEntry) (k : Know) :
    csim good (cellModify o F f) ((verModify false F f).bind rest) none H k Q := by
  refine ⟨rfl, fun H1 h1 hl n e he k' hk hkn => ⟨_, .act _ _ rfl, ?_⟩⟩
  refine ⟨n, e, he, (addrOf_word e).symm, fun hgd => ?_, fun H2 h2 => ?_⟩
  · rw [addrOf_word]; exact hkn hgd (hc hgd)
  · have := csim_loop hQ hok herr (F + 1) (f e.st.val) H2 k' (prefix_get h2 he)
    have hassoc : ∀ p : Prog VC Unit, (p.bind fun _ => rest .ok) = (p.bind fun _ => Prog.ret .ok).bind rest := by
      intro p
      induction p with
      | ret a => rfl
      | act f k ih => simp only [Prog.bind]; congr 1; funext r; exact ih r
      | panic => rfl
      | diverge => rfl
    rw [hassoc] at this
    exact this

theorem csim_set (hc : good → o.cur.acquires = true) (hok : good → o.ok.releases = true)
    (same : Word → Bool) (w : Word) (H : List CEntry) (k : Know) :
    csim good (cellSet o same w) ((verSet false same w).bind rest) none H k Q := by
  refine ⟨rfl, fun H1 h1 hl n e he k' hk hkn => ⟨_, .act _ _ rfl, ?_⟩⟩
  refine ⟨n, e, he, (addrOf_word e).symm, fun hgd => ?_, fun H2 h2 => ?_⟩
  · rw [addrOf_word]; exact hkn hgd (hc hgd)
  · cases hs : same e.st.val with
    | true =>
      simp only [WProg.bind, Prog.bind, hs, if_true]
      exact ⟨rfl, hQ _ _⟩
    | false =>
      simp only [WProg.bind, Prog.bind, hs, Bool.false_eq_true, if_false]
      refine ⟨rfl, w, rfl, fun H3 h3 x => ⟨rfl, fun H4 h4 hl' => ⟨fun e1 he1 hw => ?_,
        fun m e1 he1 hw k2 hk2 hkn2 => ?_⟩⟩⟩
      · have hv := (hl'.iff (last_get he1) (prefix_get ((h2.trans h3).trans h4) he)).1 hw
        refine ⟨_, _, _, .swap x w false hok, rfl, .act _ _ ?_, fun k' hk => ⟨rfl, ?_⟩⟩
        · simp [hv]
        · simp only [hv]
          exact hQ _ _
      · have hv := mt (hl'.iff he1 (prefix_get ((h2.trans h3).trans h4) he)).2 hw
        refine ⟨_, .act _ _ ?_, rfl, ⟨_, rfl⟩, fun H5 h5 => ⟨rfl, ?_⟩⟩
        · simp [hv]
        · simp only [hv]
          exact hQ _ _

theorem csim_mark (t : Bool) (H : List CEntry) (k : Know) :
    csim good (cellMark o G t) ((verMark t).bind rest) none H k Q := by
  have loop : ∀ (fuel : Nat) (prev : Word) (H : List CEntry) (k : Know),
      csim good (cellMarkLoop o t fuel prev) ((verMark t).bind rest) none H k Q := by
    intro fuel
    induction fuel with
    | zero => intro _ _ _; exact True.intro
    | succ fuel ih =>
      intro prev H k
      refine ⟨rfl, fun H1 h1 hl => ⟨fun e he hw => ?_, fun n e he hw k' hk hkn => ?_⟩⟩
      · refine ⟨_, _, _, .mark none t, ?_, .act _ _ rfl, fun k' hk => ⟨rfl, hQ _ _⟩⟩
        rw [← hw, addrOf_word]
        rfl
      · exact ⟨_, .silent _, ih _ _ _⟩
  exact ⟨rfl, fun H1 h1 hl n e he k' hk hkn => ⟨_, .silent _, loop _ _ _ _⟩⟩

end

end Rotonda.Weak
