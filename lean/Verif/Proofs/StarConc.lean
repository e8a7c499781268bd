import Verif.Spec.StarConc
import Verif.Proofs.StarSeq
import Verif.Proofs.ConcSound

/-!
# A run of the public interface is one run per family
-/

namespace Rotonda

open Prog Spec

variable {M : Type} [Meta M] {α : Type}

/-- Programs whose steps are those of `P4` and of `P6`, in some order, the last ones those
of `P6`. -/
inductive Mixed {β γ : Type} (g : β → γ → α) :
    Prog (Star M) α → Prog (Rib M 32) β → Prog (Rib M 128) γ → Prop
  | last (P4 P6) : Mixed g ((P4.zoom Star.v4L).bind fun a => (P6.zoom Star.v6L).bind fun b =>
      ret (g a b)) P4 P6
  | act4 {ρ : Type} (f : Rib M 32 → ρ × Rib M 32) (k K P6) (h : ∀ r, Mixed g (K r) (k r) P6) :
      Mixed g (act (fun s => ((f s.v4).1, { s with v4 := (f s.v4).2 })) K) (act f k) P6
  | act6 {ρ : Type} (f : Rib M 128 → ρ × Rib M 128) (P4 k K) (h : ∀ r, Mixed g (K r) P4 (k r)) :
      Mixed g (act (fun s => ((f s.v6).1, { s with v6 := (f s.v6).2 })) K) P4 (act f k)
  | panic4 (P6) : Mixed g panic panic P6
  | panic6 (P4) : Mixed g panic P4 panic
  | diverge4 (P6) : Mixed g diverge diverge P6
  | diverge6 (P4) : Mixed g diverge P4 diverge

/-- The first halves of two programs, then the second halves. -/
theorem mixed_halves {β γ δ ε : Type} (g : β → γ → α) (p4 : Prog (Rib M 32) δ)
    (k4 : δ → Prog (Rib M 32) β) (p6 : Prog (Rib M 128) ε) (k6 : ε → Prog (Rib M 128) γ) :
    Mixed g ((p4.zoom Star.v4L).bind fun i => (p6.zoom Star.v6L).bind fun j =>
      ((k4 i).zoom Star.v4L).bind fun a => ((k6 j).zoom Star.v6L).bind fun b => ret (g a b))
      (p4.bind k4) (p6.bind k6) := by
  induction p4 with
  | act f k ih => exact .act4 f _ _ _ ih
  | panic => exact .panic4 _
  | diverge => exact .diverge4 _
  | ret i =>
    show Mixed g ((p6.zoom Star.v6L).bind fun j => _) (k4 i) _
    induction p6 with
    | act f k ih => exact .act6 f _ _ _ ih
    | panic => exact .panic6 _
    | diverge => exact .diverge6 _
    | ret j => exact .last _ _

theorem run_mixed {β γ : Type} {g : β → γ → α} {P : Prog (Star M) α} {P4 : Prog (Rib M 32) β}
    {P6 : Prog (Rib M 128) γ} (h : Mixed g P P4 P6) {s : Star M} {a : β} {b : γ} {s4 : Rib M 32}
    {s6 : Rib M 128} (h4 : P4.run s.v4 = .ok a s4) (h6 : P6.run s.v6 = .ok b s6) :
    P.run s = .ok (g a b) ⟨s4, s6⟩ := by
  induction h generalizing s with
  | last P4 P6 =>
    refine (run_bind _ _ _).trans ?_
    rw [run_v4, h4]
    refine (run_bind _ _ _).trans ?_
    rw [run_v6]
    show ((P6.run s.v6).mapState _).andThen _ = _
    rw [h6]; rfl
  | act4 f k K P6 _ ih => exact ih _ h4 h6
  | act6 f P4 k K _ ih => exact ih _ h4 h6
  | panic4 => cases h4
  | panic6 => cases h6
  | diverge4 => cases h4
  | diverge6 => cases h6

/-- What is left of a call, given what is left of its parts. -/
def Sim (st : Strategy) (F fuel : Nat) : (q : Parts M α) → Prog (Star M) α →
    Prog (Rib M 32) q.call4.Ans → Prog (Rib M 128) q.call6.Ans → Prop
  | .v4 _ g, P, P4, _ => P = (P4.zoom Star.v4L).bind fun a => ret (g a)
  | .v6 _ g, P, _, P6 => P = (P6.zoom Star.v6L).bind fun b => ret (g b)
  | .both _ y e g, P, P4, P6 =>
    (P = ((P4.zoom Star.v4L).bind fun a => match e a with
      | some r => ret r
      | none => ((y.prog st F fuel).zoom Star.v6L).bind fun b => ret (g a b)) ∧
      P6 = y.prog st F fuel) ∨
    ∃ a, P4 = ret a ∧ e a = none ∧ P = (P6.zoom Star.v6L).bind fun b => ret (g a b)
  | .mixed _ _ g, P, P4, P6 => Mixed g P P4 P6

/-- Every call is made of its parts. -/
theorem sim_start (st : Strategy) (F fuel : Nat) (c : StarCall M) :
    Sim st F fuel (parts c) (c.prog st F fuel) ((call4 c).prog st F fuel)
      ((call6 c).prog st F fuel) := by
  have h4 : ∀ {β γ : Type} (p : Prog (Rib M 32) β) (g : β → γ),
      (p >>= fun a => ret (g a)).zoom Star.v4L = (p.zoom Star.v4L).bind fun a => ret (g a) :=
    fun p g => by rw [zoom_bind]; rfl
  have h6 : ∀ {β γ : Type} (p : Prog (Rib M 128) β) (g : β → γ),
      (p >>= fun a => ret (g a)).zoom Star.v6L = (p.zoom Star.v6L).bind fun a => ret (g a) :=
    fun p g => by rw [zoom_bind]; rfl
  have hb : ∀ {β γ δ ε ζ : Type} (p : Prog (Rib M 32) β) (p' : Prog (Rib M 128) γ) (g : β → δ)
      (g' : γ → ε) (o : δ → ε → ζ), ((p >>= fun a => ret (g a)).zoom Star.v4L).bind (fun a =>
        ((p' >>= fun b => ret (g' b)).zoom Star.v6L).bind fun b => ret (o a b)) =
      (p.zoom Star.v4L).bind fun a => (p'.zoom Star.v6L).bind fun b => ret (o (g a) (g' b)) := by
    intro β γ δ ε ζ p p' g g' o
    rw [h4]
    refine (bind_assoc' _ _ _).trans (congrArg (Prog.bind _) (funext fun a => ?_))
    rw [h6]
    exact bind_assoc' _ _ _
  cases c with
  | insert p r tbi => cases p <;> exact (bind_ret' _).symm
  | withdrawFor p m t => cases p <;> exact (bind_ret' _).symm
  | activateFor p m t => cases p <;> exact (bind_ret' _).symm
  | calcBest p tbi => cases p <;> exact (bind_ret' _).symm
  | contains p mui => cases p <;> exact (bind_ret' _).symm
  | getRecords p mui iw => cases p <;> exact (bind_ret' _).symm
  | bestPath p => cases p <;> exact (bind_ret' _).symm
  | isPsOutdated p => cases p <;> exact (bind_ret' _).symm
  | matchPrefix p o => cases p; exacts [h4 _ _, h6 _ _]
  | moreFrom p mui iw => cases p; exacts [h4 _ _, h6 _ _]
  | lessFrom p mui iw => cases p; exacts [h4 _ _, h6 _ _]
  | moreIter p mui iw => cases p; exacts [h4 _ _, h6 _ _]
  | lessIter p mui iw => cases p; exacts [h4 _ _, h6 _ _]
  | prefixesIter4 => exact h4 _ _
  | prefixesIter6 => exact h6 _ _
  | persistPrefixesIter4 => exact h4 _ _
  | persistPrefixesIter6 => exact h6 _ _
  | recordsForMui4 m iw => exact h4 _ _
  | recordsForMui6 m iw => exact h6 _ _
  | withdraw m => exact .inl ⟨congrArg (Prog.bind _) (funext fun _ => (bind_ret' _).symm), rfl⟩
  | prefixesIter =>
    have e4 : ribPrefixesIter (M := M) (W := 32) st fuel = (onNodes (moreSpecificStart ⟨0#32, 0⟩)).bind
        (Star.consume fuel (pfxItem st)) :=
      congrArg (Prog.bind _) (funext fun i => by cases i <;> rfl)
    have e6 : ribPrefixesIter (M := M) (W := 128) st fuel = (onNodes (moreSpecificStart ⟨0#128, 0⟩)).bind
        (Star.consume fuel (pfxItem st)) :=
      congrArg (Prog.bind _) (funext fun i => by cases i <;> rfl)
    show Mixed _ _ (ribPrefixesIter st fuel) (ribPrefixesIter st fuel)
    rw [e4, e6]
    exact mixed_halves _ _ _ _ _
  | persistPrefixesIter => exact .inl ⟨hb _ _ _ _ _, rfl⟩
  | isMuiActive m =>
    refine .inl ⟨congrArg (Prog.bind _) (funext fun a => ?_), rfl⟩
    cases (a : Bool) with
    | true => rfl
    | false => exact (bind_ret' _).symm
  | prefixesCount => exact .inl ⟨rfl, rfl⟩
  | routesCount => exact .inl ⟨rfl, rfl⟩
  | nodesCount => exact .inl ⟨rfl, rfl⟩
  | _ => exact (bind_ret' _).symm

/-- The next step of a call is one of its IPv4 part or one of its IPv6 part. -/
theorem sim_cases {st : Strategy} {F fuel : Nat} {q : Parts M α} {P : Prog (Star M) α}
    {P4 : Prog (Rib M 32) q.call4.Ans} {P6 : Prog (Rib M 128) q.call6.Ans}
    (h : Sim st F fuel q P P4 P6) :
    (∃ (ρ : Type) (f : Rib M 32 → ρ × Rib M 32) (k : ρ → Prog (Rib M 32) q.call4.Ans)
      (K : ρ → Prog (Star M) α), P4 = act f k ∧
      P = act (fun s => ((f s.v4).1, { s with v4 := (f s.v4).2 })) K ∧
      ∀ r, Sim st F fuel q (K r) (k r) P6) ∨
    (∃ (ρ : Type) (f : Rib M 128 → ρ × Rib M 128) (k : ρ → Prog (Rib M 128) q.call6.Ans)
      (K : ρ → Prog (Star M) α), P6 = act f k ∧
      P = act (fun s => ((f s.v6).1, { s with v6 := (f s.v6).2 })) K ∧
      (∀ r, Sim st F fuel q (K r) P4 (k r)) ∧
      ∀ x y e g, q = .both x y e g → ∃ a, P4 = ret a) ∨
    (∃ a, P = ret a) ∨
    (P = panic ∧ (P4 = panic ∨ P6 = panic)) ∨ (P = diverge ∧ (P4 = diverge ∨ P6 = diverge)) := by
  cases q with
  | v4 x g =>
    have h' : P = (P4.zoom Star.v4L).bind fun a => ret (g a) := h
    cases P4 with
    | ret a => exact .inr (.inr (.inl ⟨_, h'⟩))
    | act f k => exact .inl ⟨_, f, k, _, rfl, h', fun r => rfl⟩
    | panic => exact .inr (.inr (.inr (.inl ⟨h', .inl rfl⟩)))
    | diverge => exact .inr (.inr (.inr (.inr ⟨h', .inl rfl⟩)))
  | v6 y g =>
    have h' : P = (P6.zoom Star.v6L).bind fun a => ret (g a) := h
    cases P6 with
    | ret a => exact .inr (.inr (.inl ⟨_, h'⟩))
    | act f k => exact .inr (.inl ⟨_, f, k, _, rfl, h', fun r => rfl, by rintro x y e g ⟨⟩⟩)
    | panic => exact .inr (.inr (.inr (.inl ⟨h', .inr rfl⟩)))
    | diverge => exact .inr (.inr (.inr (.inr ⟨h', .inr rfl⟩)))
  | both x y e g =>
    by_cases hs : ∃ a, P4 = ret a ∧ e a = none ∧ P = (P6.zoom Star.v6L).bind fun b => ret (g a b)
    · obtain ⟨a, h4, he, h'⟩ := hs
      cases P6 with
      | ret b => exact .inr (.inr (.inl ⟨_, h'⟩))
      | act f k =>
        exact .inr (.inl ⟨_, f, k, _, rfl, h', fun r => .inr ⟨a, h4, he, rfl⟩,
          fun _ _ _ _ _ => ⟨a, h4⟩⟩)
      | panic => exact .inr (.inr (.inr (.inl ⟨h', .inr rfl⟩)))
      | diverge => exact .inr (.inr (.inr (.inr ⟨h', .inr rfl⟩)))
    · rcases h with ⟨h', h6⟩ | h
      · cases P4 with
        | act f k => exact .inl ⟨_, f, k, _, rfl, h', fun r => .inl ⟨rfl, h6⟩⟩
        | panic => exact .inr (.inr (.inr (.inl ⟨h', .inl rfl⟩)))
        | diverge => exact .inr (.inr (.inr (.inr ⟨h', .inl rfl⟩)))
        | ret a =>
          change P = (match e a with
              | some r => ret r
              | none => _) at h'
          cases he : e a with
          | some r =>
            rw [he] at h'
            exact .inr (.inr (.inl ⟨r, h'⟩))
          | none =>
            rw [he] at h'
            refine (hs ⟨a, rfl, he, ?_⟩).elim
            rw [h6]; exact h'
      · exact (hs h).elim
  | mixed x y g =>
    change Mixed g P P4 P6 at h
    cases h with
    | last =>
      cases P4 with
      | act f k => exact .inl ⟨_, f, k, _, rfl, rfl, fun r => .last _ _⟩
      | panic => exact .inr (.inr (.inr (.inl ⟨rfl, .inl rfl⟩)))
      | diverge => exact .inr (.inr (.inr (.inr ⟨rfl, .inl rfl⟩)))
      | ret a =>
        cases P6 with
        | act f k =>
          exact .inr (.inl ⟨_, f, k, _, rfl, rfl, fun r => Mixed.last (ret a) (k r),
            by rintro x y e g ⟨⟩⟩)
        | panic => exact .inr (.inr (.inr (.inl ⟨rfl, .inr rfl⟩)))
        | diverge => exact .inr (.inr (.inr (.inr ⟨rfl, .inr rfl⟩)))
        | ret b => exact .inr (.inr (.inl ⟨_, rfl⟩))
    | act4 f k K _ h => exact .inl ⟨_, f, k, K, rfl, rfl, h⟩
    | act6 f _ k K h => exact .inr (.inl ⟨_, f, k, K, rfl, rfl, h, by rintro x y e g ⟨⟩⟩)
    | panic4 => exact .inr (.inr (.inr (.inl ⟨rfl, .inl rfl⟩)))
    | panic6 => exact .inr (.inr (.inr (.inl ⟨rfl, .inr rfl⟩)))
    | diverge4 => exact .inr (.inr (.inr (.inr ⟨rfl, .inl rfl⟩)))
    | diverge6 => exact .inr (.inr (.inr (.inr ⟨rfl, .inr rfl⟩)))

/-- The answer of a call is that of its parts. -/
theorem sim_answer {st : Strategy} {F fuel : Nat} {q : Parts M α} {P : Prog (Star M) α}
    {P4 : Prog (Rib M 32) q.call4.Ans} {P6 : Prog (Rib M 128) q.call6.Ans}
    (h : Sim st F fuel q P P4 P6) : result P = q.answer (result P4) (result P6) := by
  have key : ∀ {σ τ β γ : Type} (L : Lens σ τ) (p : Prog τ β) (g : β → γ),
      result ((p.zoom L).bind fun a => ret (g a)) = (result p).map g := by
    intro σ τ β γ L p g
    cases p <;> rfl
  cases q with
  | v4 x g => exact (congrArg result h).trans (key _ _ _)
  | v6 x g => exact (congrArg result h).trans (key _ _ _)
  | both x y e g =>
    have two : ∀ a, e a = none → (P = (P6.zoom Star.v6L).bind fun b => ret (g a b)) →
        result P = (Parts.both x y e g).answer (some a) (result P6) := by
      intro a he h'
      refine (congrArg result h').trans ((key _ _ _).trans ?_)
      show _ = match e a with
        | some r => some r
        | none => _
      rw [he]; rfl
    rcases h with ⟨h', h6⟩ | ⟨a, h4, he, h'⟩
    · cases P4 with
      | act f k => rw [h']; rfl
      | panic => rw [h']; rfl
      | diverge => rw [h']; rfl
      | ret a =>
        change P = (match e a with
            | some r => ret r
            | none => _) at h'
        cases he : e a with
        | some r =>
          rw [he] at h'
          rw [h']
          show _ = match e a with
            | some r => some r
            | none => _
          rw [he]; rfl
        | none =>
          rw [he] at h'
          refine two a he ?_
          rw [h6]; exact h'
    · rw [h4]; exact two a he h'
  | mixed x y g =>
    change Mixed g P P4 P6 at h
    cases h with
    | last => cases P4 <;> first | rfl | (cases P6 <;> rfl)
    | act4 => rfl
    | act6 => cases P4 <;> rfl
    | panic4 => rfl
    | panic6 => cases P4 <;> rfl
    | diverge4 => rfl
    | diverge6 => cases P4 <;> rfl

variable {ι : Type} [DecidableEq ι] {calls : ι → StarCall M}

/-- The configuration is made of those of the families. -/
def SimConf (st : Strategy) (F fuel : Nat) (c : Conf (Star M) ι (fun i => (calls i).Ans))
    (c4 : Conf (Rib M 32) ι (fun i => (call4 (calls i)).Ans))
    (c6 : Conf (Rib M 128) ι (fun i => (call6 (calls i)).Ans)) : Prop :=
  c.st = ⟨c4.st, c6.st⟩ ∧
    ∀ i, Sim st F fuel (parts (calls i)) (c.pool i) (c4.pool i) (c6.pool i)

theorem simConf_step {st : Strategy} {F fuel : Nat} {c : Conf (Star M) ι (fun i => (calls i).Ans)}
    {c4 : Conf (Rib M 32) ι (fun i => (call4 (calls i)).Ans)}
    {c6 : Conf (Rib M 128) ι (fun i => (call6 (calls i)).Ans)} (h : SimConf st F fuel c c4 c6) (i : ι) :
    (SimConf st F fuel (c.step i) (c4.step i) c6 ∧ ∀ a, c4.pool i ≠ .ret a) ∨
    (SimConf st F fuel (c.step i) c4 (c6.step i) ∧
      ∀ x y e g, parts (calls i) = .both x y e g → ∃ a, c4.pool i = .ret a) ∨
    SimConf st F fuel (c.step i) c4 c6 := by
  obtain ⟨hst, hp⟩ := h
  rcases sim_cases (hp i) with ⟨ρ, f, k, K, h4, hP, hk⟩ | ⟨ρ, f, k, K, h6, hP, hk, hb⟩ | ⟨a, hP⟩ |
    ⟨hP, -⟩ | ⟨hP, -⟩
  · refine .inl ⟨⟨?_, fun j => ?_⟩, fun a ha => by rw [ha] at h4; cases h4⟩
    · rw [Conf.step_act hP, Conf.step_act h4, hst]
    · by_cases hj : j = i
      · subst hj
        rw [Conf.step_act hP, Conf.step_act h4, hst]
        simp only [Function.update_self]
        have e : Function.update c4.pool j (k (f c4.st).1) j = k (f c4.st).1 := Function.update_self ..
        exact e.symm ▸ hk _
      · rw [Conf.step_other _ hj, Conf.step_other _ hj]; exact hp j
  · refine .inr (.inl ⟨⟨?_, fun j => ?_⟩, hb⟩)
    · rw [Conf.step_act hP, Conf.step_act h6, hst]
    · by_cases hj : j = i
      · subst hj
        rw [Conf.step_act hP, Conf.step_act h6, hst]
        simp only [Function.update_self]
        have e : Function.update c6.pool j (k (f c6.st).1) j = k (f c6.st).1 := Function.update_self ..
        exact e.symm ▸ hk _
      · rw [Conf.step_other _ hj, Conf.step_other _ hj]; exact hp j
  · rw [Conf.step_ret hP]; exact .inr (.inr ⟨hst, hp⟩)
  · rw [Conf.step_panic hP]; exact .inr (.inr ⟨hst, hp⟩)
  · rw [Conf.step_diverge hP]; exact .inr (.inr ⟨hst, hp⟩)

/-- A run of the calls is a run of the IPv4 parts and one of the IPv6 parts. -/
theorem simConf_exec (st : Strategy) (F fuel : Nat) (s : Star M) (calls : ι → StarCall M)
    (t : List ι) :
    ∃ t4 t6, Split t t4 t6 ∧ ∀ n, n ≤ t.length →
      SimConf st F fuel ((starStart st F fuel s calls).exec (t.take n))
        ((start st F fuel s.v4 (fun i => call4 (calls i))).exec (t4 n))
        ((start st F fuel s.v6 (fun i => call6 (calls i))).exec (t6 n)) ∧
      ∀ i x y e g, parts (calls i) = .both x y e g → i ∈ t6 n →
        ∃ a, ((start st F fuel s.v4 (fun i => call4 (calls i))).exec (t4 n)).pool i = .ret a := by
  induction t using List.reverseRecOn with
  | nil =>
    refine ⟨fun _ => [], fun _ => [], ⟨rfl, rfl, fun n hn => absurd hn (Nat.not_lt_zero _)⟩,
      fun n hn => ⟨⟨?_, fun i => ?_⟩, fun i _ _ _ _ _ h => by cases h⟩⟩
    · simp [starStart, start]
    · simpa [starStart, start] using sim_start st F fuel (calls i)
  | append_singleton t i ih =>
    obtain ⟨t4, t6, hsp, hsim⟩ := ih
    obtain ⟨hs, hf⟩ := hsim t.length (Nat.le_refl _)
    rw [List.take_length] at hs
    -- the schedules, extended at the end
    suffices ext : ∃ l4 l6, ((l4 = t4 t.length ++ [i] ∧ l6 = t6 t.length) ∨
          (l4 = t4 t.length ∧ l6 = t6 t.length ++ [i]) ∨ (l4 = t4 t.length ∧ l6 = t6 t.length)) ∧
        SimConf st F fuel ((starStart st F fuel s calls).exec (t ++ [i]))
          ((start st F fuel s.v4 (fun i => call4 (calls i))).exec l4)
          ((start st F fuel s.v6 (fun i => call6 (calls i))).exec l6) ∧
        (∀ i x y e g, parts (calls i) = .both x y e g → i ∈ l6 →
          ∃ a, ((start st F fuel s.v4 (fun i => call4 (calls i))).exec l4).pool i = .ret a) by
      obtain ⟨l4, l6, hl, hS, hF⟩ := ext
      refine ⟨fun n => if n ≤ t.length then t4 n else l4, fun n => if n ≤ t.length then t6 n else l6,
        ⟨?_, ?_, fun n hn => ?_⟩, fun n hn => ?_⟩
      · simp [hsp.start4]
      · simp [hsp.start6]
      · rcases Nat.lt_or_ge n t.length with h | h
        · have := hsp.step n h
          rw [List.getElem_append_left h]
          simpa only [if_pos (Nat.le_of_lt h), if_pos (Nat.succ_le_of_lt h)] using this
        · have : n = t.length := by simp at hn; omega
          subst this
          simpa using hl
      · rcases Nat.lt_or_ge t.length n with h | h
        · have : n = (t ++ [i]).length := by simp at hn ⊢; omega
          beta_reduce
          rw [if_neg (by omega), if_neg (by omega), this, List.take_length]
          exact ⟨hS, hF⟩
        · have h : n ≤ t.length := h
          beta_reduce
          rw [if_pos h, if_pos h, List.take_append_of_le_length h]
          exact hsim n h
    rcases simConf_step hs i with ⟨h1, h2⟩ | ⟨h1, h2⟩ | h1
    · refine ⟨_, _, .inl ⟨rfl, rfl⟩, by simpa [Conf.exec_append] using h1, ?_⟩
      intro j x y e g hj hm
      obtain ⟨a, ha⟩ := hf j x y e g hj hm
      exact ⟨a, by rw [Conf.exec_append]; exact Conf.exec_ret ha _⟩
    · refine ⟨_, _, .inr (.inl ⟨rfl, rfl⟩), by simpa [Conf.exec_append] using h1, ?_⟩
      intro j x y e g hj hm
      rcases List.mem_append.1 hm with hm | hm
      · exact hf j x y e g hj hm
      · rw [List.mem_singleton] at hm; subst hm
        exact h2 x y e g hj
    · exact ⟨_, _, .inr (.inr ⟨rfl, rfl⟩), by simpa [Conf.exec_append] using h1, hf⟩

/-- The same, as a specification. -/
theorem run_interleaves (st : Strategy) (F fuel : Nat) (s : Star M) (calls : ι → StarCall M)
    (t : List ι) :
    ∃ t4 t6, Interleaves (starStart st F fuel s calls)
      (start st F fuel s.v4 (fun i => call4 (calls i)))
      (start st F fuel s.v6 (fun i => call6 (calls i))) t t4 t6 := by
  obtain ⟨t4, t6, hsp, h⟩ := simConf_exec st F fuel s calls t
  refine ⟨t4, t6, hsp, fun n hn => (h n hn).1.1, fun n hn i => sim_answer ((h n hn).1.2 i),
    fun n hn i hp => ?_, fun n hn i hp => ?_, fun n hn => (h n hn).2⟩
  · rcases sim_cases ((h n hn).1.2 i) with ⟨_, _, _, _, -, hP, -⟩ | ⟨_, _, _, _, -, hP, -⟩ | ⟨a, hP⟩ |
      ⟨-, h'⟩ | ⟨hP, -⟩
    · rw [hp] at hP; cases hP
    · rw [hp] at hP; cases hP
    · rw [hp] at hP; cases hP
    · exact h'
    · rw [hp] at hP; cases hP
  · rcases sim_cases ((h n hn).1.2 i) with ⟨_, _, _, _, -, hP, -⟩ | ⟨_, _, _, _, -, hP, -⟩ | ⟨a, hP⟩ |
      ⟨hP, -⟩ | ⟨-, h'⟩
    · rw [hp] at hP; cases hP
    · rw [hp] at hP; cases hP
    · rw [hp] at hP; cases hP
    · rw [hp] at hP; cases hP
    · exact h'

end Rotonda
