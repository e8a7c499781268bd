import Verif.Proofs.WeakRace
import Verif.Proofs.Bits
import Verif.Spec.Weak

/-!
# Threads that call the chained hash table, and its tables in the code
-/

namespace Rotonda.Weak

/-! ## The tables of the code -/

theorem lenTable_hash {W len : Nat} [Fam W] {x l : Nat} {b : BitVec W} (hb : b.toNat = x)
    (hc : (⟨b, len⟩ : PrefixId W).Clean) (h : ValidLevel len l) :
    (lenTable W len).hash x l = hIdx (⟨b, len⟩ : PrefixId W) l := by
  have he : BitVec.ofNat W x = b := by rw [← hb]; simp
  show (hashId ⟨BitVec.ofNat W x, len⟩ l).getD 0 = _
  rw [he, hashId_eq hc h]; rfl

theorem validLevel_of_lt {len l : Nat} (h : l < lenLevels len) : ValidLevel len l := by
  unfold lenLevels at h; unfold ValidLevel; omega

theorem lt_of_validLevel {len l : Nat} (h : ValidLevel len l) : l < lenLevels len := by
  unfold ValidLevel at h; unfold lenLevels; omega

theorem lenTable_ok (W len : Nat) [hW : Fam W] : (lenTable W len).Ok (lenLevels len) where
  pos := by unfold lenLevels; omega
  lt x hx l hl := by
    obtain ⟨b, hb, hlen, h0⟩ := hx
    have hc : (⟨b, len⟩ : PrefixId W).Clean := ⟨hlen, h0⟩
    have hv := validLevel_of_lt hl
    rw [lenTable_hash hb hc hv]
    have hlt := hIdx_lt hc hv
    show _ < if l = 0 then slotsForP2 4 else slotsForP2 ((nodesetSize len l).getD 0)
    by_cases h0 : l = 0
    · rw [if_pos h0]
      have h2 : 2 ^ lvlBits len l ≤ 2 ^ 4 := Nat.pow_le_pow_right (by omega) (by unfold lvlBits; omega)
      exact Nat.lt_of_lt_of_le hlt h2
    · rw [if_neg h0]
      have hw := hW.width
      have h4 : 4 * l < len := by rcases hv with h | h <;> omega
      rw [nodesetSize_eq (by omega)]
      have he : 4 - (4 * (l + 1) - len) = lvlBits len l := by unfold lvlBits; omega
      have hp : lvlBits len l ≠ 0 := by unfold lvlBits; omega
      show _ < slotsForP2 (4 - (4 * (l + 1) - len))
      rw [he, slotsForP2, if_neg hp]
      exact hlt
  inj x y hx hy h := by
    obtain ⟨b, hb, hlen, h0⟩ := hx
    obtain ⟨b', hb', hlen', h0'⟩ := hy
    have hc : (⟨b, len⟩ : PrefixId W).Clean := ⟨hlen, h0⟩
    have hc' : (⟨b', len⟩ : PrefixId W).Clean := ⟨hlen', h0'⟩
    have := eq_of_hIdx hc hc' rfl fun l hl => by
      have := h l (lt_of_validLevel hl)
      rwa [lenTable_hash hb hc hl, lenTable_hash hb' hc' hl] at this
    injection this with h1
    rw [← hb, ← hb', h1]

/-- Safe threads use allocated words. -/
theorem Safe.noDangling {ι α : Type} [DecidableEq ι] {T : Table} {good : Prop} {Q : ι → World ι → Know → α → Prop} {c : Mach ι α}
    (h : Safe T good Q c) : c.NoDangling := by
  obtain ⟨role, hinv, hs, _⟩ := h
  have hne : ∀ {a r}, role a = some r → c.mem a ≠ [] := by
    rintro a ⟨ow, r⟩ hr
    exact (hinv.cells a ow r hr).ne_nil
  intro i a ha
  have hsi := hs i
  cases hp : c.pool i with
  | ret | panic | alloc => rw [hp] at ha; cases ha
  | plain b f =>
    rw [hp] at ha hsi
    obtain ⟨⟨path, h1⟩, -⟩ := hsi
    rw [List.mem_singleton.1 ha]
    exact hne h1
  | load b od f =>
    rw [hp] at ha hsi
    rw [List.mem_singleton.1 ha]
    rcases hsi with ⟨r, -, h1, -⟩ | ⟨_, _, h1, -⟩ <;> exact hne h1
  | cas b old new ok err f =>
    rw [hp] at ha hsi
    rw [List.mem_singleton.1 ha]
    rcases hsi with ⟨-, r, p, -, -, h1, -⟩ | ⟨_, _, _, _, -, -, h1, -⟩ <;> exact hne h1
  | free b len f =>
    rw [hp] at ha hsi
    obtain ⟨j, hj, rfl⟩ := List.mem_map.1 ha
    obtain ⟨r, h1⟩ := hsi.1 j (List.mem_range.1 hj)
    exact hne h1

/-! ## Threads -/

section
variable {ι : Type} {T : Table}

/-- The answers of a thread that had found `known` before. -/
def Answers (T : Table) (w : World ι) : List Nat → List TableCall → List Word → Prop
  | _, [], as => as = []
  | known, c :: cs, as => ∃ a rest, as = a :: rest ∧
      (∀ p, a = some p → Found T c.id w (fun _ => True) 0 rootLoc p) ∧
      (c = .findOrInit c.id ∨ c.id ∈ known → a ≠ none) ∧
      Answers T w (if a = none then known else c.id :: known) cs rest

theorem bucket_root {x : Nat} {w : World ι} (h : w.role rootLoc = some (none, .slice [])) :
    Bucket T x w 0 rootLoc := h

theorem Answers.mono {good : Prop} {w w' : World ι} (h : WInv T good w)
    (hroot : w.role rootLoc = some (none, .slice [])) (hw : PubGrow w w') :
    ∀ {cs : List TableCall} {known : List Nat} {as : List Word}, Answers T w known cs as → Answers T w' known cs as
  | [], _, _, ha => ha
  | c :: cs, known, as, ha => by
    obtain ⟨a, rest, rfl, h1, h2, h3⟩ := ha
    exact ⟨a, rest, rfl, fun p hp => (h1 p hp).mono h (bucket_root hroot) hw fun _ h => h, h2,
      Answers.mono h hroot hw h3⟩

theorem thread_safe {o : Orders} {levels : Nat} (hT : T.Ok levels) {i : ι} :
    ∀ (cs : List TableCall) (known : List Nat) {Q : World ι → Know → List Word → Prop} {w : World ι} {k : Know},
    (∀ c ∈ cs, T.ids c.id) → WInv T o.good w → w.role rootLoc = some (none, .slice []) →
    (o.good → (rootLoc, 0) ∈ k.before) →
    (∀ x ∈ known, ∃ p, Found T x w (sees k) 0 rootLoc p) →
    (∀ w' k' as, PubGrow w w' → WInv T o.good w' → Answers T w' known cs as → Q w' k' as) →
    safe T o.good i (threadProg o T levels cs) Q w k
  | [], _, _, w, k, _, hi, _, _, _, hQ => hQ w k [] (.rfl _) hi rfl
  | c :: cs, known, Q, w, k, hids, hi, hroot, hk, hkn, hQ => by
    have hx : T.ids c.id := hids c (by simp)
    have hids' : ∀ c ∈ cs, T.ids c.id := fun d hd => hids d (by simp [hd])
    have hpos := hT.pos
    -- the rest of the calls
    have rest : ∀ w1 k1 a, PubGrow w w1 → WInv T o.good w1 → k.le k1 →
        (∀ p, a = some p → Found T c.id w1 (sees k1) 0 rootLoc p) →
        (c = .findOrInit c.id ∨ c.id ∈ known → a ≠ none) →
        safe T o.good i (do
          let as ← threadProg o T levels cs
          return a :: as) Q w1 k1 := by
      intro w1 k1 a hw1 hi1 hk1 hf hne
      have hroot1 := (hw1 _ _ hroot).1
      refine safe_bind (threadProg o T levels cs) (thread_safe hT cs (if a = none then known else c.id :: known)
        hids' hi1 hroot1 (fun g => hk1.1 _ (hk g)) ?_ ?_)
      · have hold : ∀ x ∈ known, ∃ p, Found T x w1 (sees k1) 0 rootLoc p := by
          intro x hx
          obtain ⟨p, hp⟩ := hkn x hx
          exact ⟨p, hp.mono hi (bucket_root hroot) hw1 fun a ha => hk1.2 _ ha⟩
        split
        · exact hold
        · rename_i hsome
          intro x hx
          rcases List.mem_cons.1 hx with rfl | hx
          · obtain ⟨p, hp⟩ := Option.ne_none_iff_exists'.1 hsome
            exact ⟨p, hf p hp⟩
          · exact hold x hx
      · intro w2 k2 as hw2 hi2 ha
        refine hQ w2 k2 (a :: as) (hw1.trans hw2) hi2 ⟨a, as, rfl, fun p hp => ?_, hne, ha⟩
        exact (hf p hp).mono hi1 (bucket_root hroot1) hw2 fun _ _ => trivial
    refine safe_bind (c.prog o T levels) ?_
    cases c with
    | find x =>
      refine find_safe hT hx levels (by omega) hpos (bucket_root hroot) hk ?_
      intro w1 k1 a hw1 hi1 hk1 hf hn
      refine rest w1 k1 a hw1 hi1 hk1 (fun p hp => (hf p hp).1) fun hor ha => ?_
      rcases hor with h | h
      · cases h
      · obtain ⟨p, hp⟩ := hkn _ h
        exact hn ha p (hp.mono hi (bucket_root hroot) hw1 fun _ h => h)
    | findOrInit x =>
      refine findOrInit_safe hT hx levels (by omega) hpos (bucket_root hroot) hk ?_
      intro w1 k1 p hw1 hi1 hk1 hf _
      exact rest w1 k1 (some p) hw1 hi1 hk1 (fun q hq => by cases hq; exact hf) fun _ h => by cases h

/-- What the threads answer, in a world. -/
def Outcome (T : Table) (good : Prop) (calls : ι → List TableCall) (i : ι) (w : World ι) (_ : Know)
    (as : List Word) : Prop :=
  WInv T good w ∧ w.role rootLoc = some (none, .slice []) ∧ Answers T w [] (calls i) as

theorem start_safe {o : Orders} {levels : Nat} (hT : T.Ok levels) (calls : ι → List TableCall)
    (hids : ∀ i, ∀ c ∈ calls i, T.ids c.id) :
    Safe T o.good (Outcome T o.good calls) (tableStart o T levels calls) := by
  let role : Nat → Option (Option ι × Role) := fun a => if a = 0 then some (none, .slice []) else none
  have hinv : WInv T o.good ((tableStart o T levels calls).world role) := by
    refine ⟨fun a ha => ?_, fun a ow r ha => ?_, fun a r ha m hm => ?_, fun a ow f path ha => ?_⟩
    · have ha : 1 ≤ a := ha
      exact if_neg (by omega)
    · have ha' : (if a = 0 then some (none, Role.slice []) else none) = some (ow, r) := ha
      split at ha'
      · rename_i h0
        subst h0
        cases ha'
        exact .null trivial rfl rfl
      · cases ha'
    · have ha' : (if a = 0 then some (none, Role.slice []) else none) = some r := ha
      split at ha'
      · rename_i h0
        subst h0
        have hm : m ∈ [(⟨none, false, .none⟩ : Msg)] := hm
        rw [List.mem_singleton] at hm
        subst hm
        exact seenOk_none _
      · cases ha'
    · have ha' : (if a = 0 then some (none, Role.slice []) else none) = some (ow, .bits f path) := ha
      split at ha' <;> cases ha'
  refine ⟨role, hinv, fun i => ?_, fun i => ?_, fun _ => rfl⟩
  · refine thread_safe hT (calls i) [] (hids i) hinv rfl (fun _ => List.mem_cons_self ..) (by simp) ?_
    intro w' k' as hw' hi' ha
    exact ⟨hi', (hw' _ _ rfl).1, ha⟩
  · intro x hx
    have hx : x ∈ [((0 : Nat), (0 : Nat))] := hx
    rw [List.mem_singleton] at hx
    subst hx
    exact ⟨Nat.zero_lt_one, fun _ _ => Nat.zero_lt_one⟩

theorem exec_safe [DecidableEq ι] {o : Orders} {levels : Nat} (hT : T.Ok levels) (calls : ι → List TableCall)
    (hids : ∀ i, ∀ c ∈ calls i, T.ids c.id) (t : List (ι × Nat)) :
    Safe T o.good (Outcome T o.good calls) ((tableStart o T levels calls).exec t) := by
  refine (start_safe hT calls hids).exec ?_ t
  rintro i w w' k as hw hi' ⟨hi, hroot, ha⟩
  exact ⟨hi', (hw.1 _ _ hroot).1, ha.mono hi hroot hw.1⟩

theorem Answers.length {w : World ι} : ∀ {cs : List TableCall} {known : List Nat} {as : List Word},
    Answers T w known cs as → as.length = cs.length
  | [], _, _, ha => by cases ha; rfl
  | c :: cs, known, as, ha => by
    obtain ⟨a, rest, rfl, -, -, h3⟩ := ha
    simp [h3.length]

theorem Answers.get {w : World ι} : ∀ {cs : List TableCall} {known : List Nat} {as : List Word} {n : Nat}
    {c : TableCall} {a : Word}, Answers T w known cs as → cs[n]? = some c → as[n]? = some a →
    (∀ p, a = some p → Found T c.id w (fun _ => True) 0 rootLoc p) ∧ (c = .findOrInit c.id ∨ c.id ∈ known → a ≠ none)
  | [], _, _, _, _, _, _, hc, _ => by simp at hc
  | c :: cs, known, as, n, d, b, ha, hc, hb => by
    obtain ⟨a, rest, rfl, h1, h2, h3⟩ := ha
    cases n with
    | zero => simp at hc hb; subst hc; subst hb; exact ⟨h1, h2⟩
    | succ n =>
      simp only [List.getElem?_cons_succ] at hc hb
      obtain ⟨g1, g2⟩ := h3.get hc hb
      refine ⟨g1, fun h => g2 ?_⟩
      rcases h with h | h
      · exact .inl h
      · right; split
        · exact h
        · exact List.mem_cons_of_mem _ h

theorem Answers.again {w : World ι} : ∀ {cs : List TableCall} {known : List Nat} {as : List Word} {m n : Nat}
    {c d : TableCall} {a b : Word}, Answers T w known cs as → m < n → cs[m]? = some c → cs[n]? = some d →
    as[m]? = some a → as[n]? = some b → c.id = d.id → a ≠ none → b ≠ none
  | [], _, _, _, _, _, _, _, _, _, _, hc, _, _, _, _, _ => by simp at hc
  | c :: cs, known, as, m, n, d, e, a, b, ha, hmn, hd, he, hav, hbv, hid, hne => by
    obtain ⟨a0, rest, rfl, h1, h2, h3⟩ := ha
    cases n with
    | zero => omega
    | succ n =>
      simp only [List.getElem?_cons_succ] at he hbv
      cases m with
      | zero =>
        simp at hd hav
        subst hd; subst hav
        refine (h3.get he hbv).2 (.inr ?_)
        rw [if_neg hne, ← hid]
        exact List.mem_cons_self ..
      | succ m =>
        simp only [List.getElem?_cons_succ] at hd hav
        exact h3.again (by omega) hd he hav hbv hid hne

end

/-! ## Number of steps -/

/-- The program ends within `n` steps, whatever it reads. -/
def within {α : Type} : WProg α → Nat → Prop
  | .ret _, _ => True
  | .panic, _ => True
  | .alloc _ k, n => ∃ m, n = m + 1 ∧ ∀ a, within (k a) m
  | .free _ _ p, n => ∃ m, n = m + 1 ∧ within p m
  | .plain _ k, n => ∃ m, n = m + 1 ∧ ∀ v, within (k v) m
  | .load _ _ k, n => ∃ m, n = m + 1 ∧ ∀ v, within (k v) m
  | .cas _ _ _ _ _ k, n => ∃ m, n = m + 1 ∧ ∀ v, within (k v) m

theorem within_mono {α : Type} {p : WProg α} : ∀ {m n : Nat}, within p m → m ≤ n → within p n := by
  induction p with
  | ret => intros; trivial
  | panic => intros; trivial
  | alloc ws k ih =>
    rintro m n ⟨j, rfl, h⟩ hmn
    exact ⟨n - 1, by omega, fun a => ih a (h a) (by omega)⟩
  | free a len p ih =>
    rintro m n ⟨j, rfl, h⟩ hmn
    exact ⟨n - 1, by omega, ih h (by omega)⟩
  | plain a k ih =>
    rintro m n ⟨j, rfl, h⟩ hmn
    exact ⟨n - 1, by omega, fun a => ih a (h a) (by omega)⟩
  | load a o k ih =>
    rintro m n ⟨j, rfl, h⟩ hmn
    exact ⟨n - 1, by omega, fun a => ih a (h a) (by omega)⟩
  | cas a old new ok err k ih =>
    rintro m n ⟨j, rfl, h⟩ hmn
    exact ⟨n - 1, by omega, fun a => ih a (h a) (by omega)⟩

theorem within_bind {α β : Type} {f : α → WProg β} {p : WProg α} :
    ∀ {m n : Nat}, within p m → (∀ a, within (f a) n) → within (p.bind f) (m + n) := by
  induction p with
  | ret a => intro m n _ h; exact within_mono (h a) (by omega)
  | panic => intros; trivial
  | alloc ws k ih =>
    rintro m n ⟨j, rfl, h⟩ hf
    exact ⟨j + n, by omega, fun a => ih a (h a) hf⟩
  | free a len p ih =>
    rintro m n ⟨j, rfl, h⟩ hf
    exact ⟨j + n, by omega, ih h hf⟩
  | plain a k ih =>
    rintro m n ⟨j, rfl, h⟩ hf
    exact ⟨j + n, by omega, fun a => ih a (h a) hf⟩
  | load a o k ih =>
    rintro m n ⟨j, rfl, h⟩ hf
    exact ⟨j + n, by omega, fun a => ih a (h a) hf⟩
  | cas a old new ok err k ih =>
    rintro m n ⟨j, rfl, h⟩ hf
    exact ⟨j + n, by omega, fun a => ih a (h a) hf⟩

section
variable {o : Orders} {T : Table}

theorem within_ptrGetOrInit (b : Nat) (ws : List Word) : within (ptrGetOrInit o b ws) 4 := by
  refine ⟨3, rfl, fun v => ?_⟩
  cases v with
  | some p => trivial
  | none =>
    refine ⟨2, rfl, fun p => ⟨1, rfl, fun r => ?_⟩⟩
    match r with
    | .ok current =>
      show within (if current.isNone then WProg.ret p else .panic) 1
      split <;> trivial
    | .error none => trivial
    | .error (some q) => exact ⟨0, rfl, trivial⟩

theorem within_sliceGet (s size idx : Nat) : within (sliceGet o s size idx) 2 := by
  refine ⟨1, rfl, fun v => ?_⟩
  cases v with
  | none => trivial
  | some x =>
    show within (if idx < size then boxGet o (x + idx) else WProg.ret none) 1
    split
    · exact ⟨0, rfl, fun _ => trivial⟩
    · trivial

theorem within_sliceGetOrInit (s size idx : Nat) (ws : List Word) :
    within (sliceGetOrInit o s size idx ws) 8 := by
  refine within_bind (m := 4) (n := 4) (within_ptrGetOrInit ..) fun x => ?_
  show within (if idx < size then ptrGetOrInit o (x + idx) ws else WProg.panic) 4
  split
  · exact within_ptrGetOrInit ..
  · trivial

theorem within_find (x fuel lvl s : Nat) : within (find o T x fuel lvl s) (11 * fuel) := by
  induction fuel generalizing lvl s with
  | zero => trivial
  | succ fuel ih =>
    refine within_mono (within_bind (n := 11 * fuel + 1) (within_sliceGet ..) fun v => ?_) (by omega)
    cases v with
    | none => trivial
    | some p =>
      refine ⟨11 * fuel, rfl, fun y => ?_⟩
      show within (if y = some x then WProg.ret (some p) else find o T x fuel (lvl + 1) (p + 1)) _
      split
      · trivial
      · exact ih _ _

theorem within_findOrInit (x fuel lvl s : Nat) : within (findOrInit o T x fuel lvl s) (11 * fuel) := by
  induction fuel generalizing lvl s with
  | zero => trivial
  | succ fuel ih =>
    have main : ∀ p, within (do
          let y ← WProg.plain p .ret
          if y = some x then return some p else findOrInit o T x fuel (lvl + 1) (p + 1)) (11 * fuel + 1) := by
      intro p
      refine ⟨11 * fuel, rfl, fun y => ?_⟩
      show within (if y = some x then WProg.ret (some p) else findOrInit o T x fuel (lvl + 1) (p + 1)) _
      split
      · trivial
      · exact ih _ _
    refine within_mono (within_bind (m := 2) (n := 8 + (11 * fuel + 1)) (within_sliceGet ..) fun v => ?_) (by omega)
    cases v with
    | some p => exact within_mono (main p) (by omega)
    | none => exact within_bind (within_sliceGetOrInit ..) main

theorem within_thread (levels : Nat) (cs : List TableCall) :
    within (threadProg o T levels cs) (11 * levels * cs.length) := by
  induction cs with
  | nil => trivial
  | cons c cs ih =>
    have hc : within (c.prog o T levels) (11 * levels) := by
      cases c
      · exact within_find ..
      · exact within_findOrInit ..
    have : 11 * levels * (c :: cs).length = 11 * levels + (11 * levels * cs.length + 0) := by
      rw [List.length_cons, Nat.mul_succ]; omega
    rw [this]
    exact within_bind hc fun a => within_bind ih fun as => trivial

end

section
variable {ι α : Type} [DecidableEq ι]

theorem step_other {c : Mach ι α} {i j : ι} {n : Nat} (h : j ≠ i) : (c.step i n).pool j = c.pool j := by
  unfold Mach.step
  cases c.pool i with
  | ret => rfl
  | panic => rfl
  | alloc => exact Function.update_of_ne h ..
  | free => exact Function.update_of_ne h ..
  | plain => exact Function.update_of_ne h ..
  | load => exact Function.update_of_ne h ..
  | cas => dsimp only; split <;> (try split) <;> exact Function.update_of_ne h ..

theorem step_within {c : Mach ι α} {i : ι} {n m : Nat} (h : within (c.pool i) m) :
    within ((c.step i n).pool i) (m - 1) := by
  unfold Mach.step
  cases hp : c.pool i with
  | ret => dsimp only; rw [hp]; trivial
  | panic => dsimp only; rw [hp]; trivial
  | alloc ws k =>
    rw [hp] at h
    obtain ⟨j, rfl, h⟩ := h
    dsimp only; rw [Function.update_self]; exact h _
  | free a len p =>
    rw [hp] at h
    obtain ⟨j, rfl, h⟩ := h
    dsimp only; rw [Function.update_self]; exact h
  | plain a k =>
    rw [hp] at h
    obtain ⟨j, rfl, h⟩ := h
    dsimp only; rw [Function.update_self]; exact h _
  | load a o k =>
    rw [hp] at h
    obtain ⟨j, rfl, h⟩ := h
    dsimp only; rw [Function.update_self]; exact h _
  | cas a old new ok err k =>
    rw [hp] at h
    obtain ⟨j, rfl, h⟩ := h
    dsimp only; split <;> (try split) <;> (dsimp only; rw [Function.update_self]; exact h _)

theorem exec_within {c : Mach ι α} {i : ι} (t : List (ι × Nat)) {m : Nat} (h : within (c.pool i) m) :
    within ((c.exec t).pool i) (m - t.countP (fun x => x.1 = i)) := by
  induction t generalizing c m with
  | nil => exact h
  | cons x t ih =>
    show within (((c.step x.1 x.2).exec t).pool i) _
    by_cases hx : x.1 = i
    · rw [List.countP_cons_of_pos (by simpa using hx), Nat.add_comm, ← Nat.sub_sub]
      refine ih ?_
      rw [hx]
      exact step_within h
    · rw [List.countP_cons_of_neg (by simpa using hx)]
      refine ih ?_
      rw [step_other (Ne.symm hx)]
      exact h

theorem within_zero {p : WProg α} (h : within p 0) : (∃ a, p = .ret a) ∨ p = .panic := by
  cases p with
  | ret a => exact .inl ⟨a, rfl⟩
  | panic => exact .inr rfl
  | alloc => obtain ⟨_, h, _⟩ := h; cases h
  | free => obtain ⟨_, h, _⟩ := h; cases h
  | plain => obtain ⟨_, h, _⟩ := h; cases h
  | load => obtain ⟨_, h, _⟩ := h; cases h
  | cas => obtain ⟨_, h, _⟩ := h; cases h

end

end Rotonda.Weak
