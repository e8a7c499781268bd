import Verif.Spec.Shell
import Verif.Props.Public
import Verif.Props.MetaFrom
import Verif.Props.Families

/-!
# The shell: C89 and C90
-/

namespace Rotonda.Props

open Prog Spec

variable {F : Nat} {s : Star PrefixAs}

/-- The inserts of the lines, the last one first. -/
def shellHist (L : List (AnyPrefix × BitVec 32)) : List (StarOp PrefixAs) :=
  (L.map fun x => StarOp.insert x.1 (shellRecord x.2) none).reverse

private theorem load_from {h : List (StarOp PrefixAs)} (L : List (AnyPrefix × BitVec 32))
    (hs : starExec .memoryOnly F h = .ok () s) :
    ∃ s1, (∀ fuel, ((shellLoad L).prog (StarCall.prog .memoryOnly F fuel)).run s = .ok (.ok ()) s1) ∧
      starExec .memoryOnly F (shellHist L ++ h) = .ok () s1 := by
  induction L generalizing h s with
  | nil => exact ⟨s, fun _ => rfl, hs⟩
  | cons x L ih =>
    obtain ⟨rep, s0, h1, h2, -⟩ := public_prefix_new_partial hs x.1 (shellRecord x.2) none
    obtain ⟨s1, i1, i2⟩ := ih h2
    refine ⟨s1, fun fuel => ?_, ?_⟩
    · unfold shellLoad Client.prog
      rw [run_bind]
      show ((Star.insert .memoryOnly F x.1 (shellRecord x.2) none).run s).andThen _ = _
      rw [h1]
      exact i1 fuel
    · rw [← i2]
      simp [shellHist]

private theorem recOf_shell (L : List (AnyPrefix × BitVec 32)) (q : AnyPrefix) (m : Mui) :
    Pub.recOf (shellHist L) q m = if m = 0#32 then (lastLine L q).map shellRecord else none := by
  unfold shellHist lastLine
  rw [← List.map_reverse]
  induction L.reverse with
  | nil => split <;> rfl
  | cons x l ih =>
    rw [List.map_cons, Pub.recOf, List.find?_cons, ih]
    by_cases hm : m = 0#32
    · subst hm
      by_cases hq : x.1 = q
      · rw [if_pos ⟨hq, rfl⟩, if_pos rfl]
        simp [hq]
      · rw [if_neg fun h => hq h.1]
        simp [hq]
    · rw [if_neg fun h => hm h.2.symm, if_neg hm, if_neg hm]

private theorem withdrawn_shell (L : List (AnyPrefix × BitVec 32)) (q : AnyPrefix) (m : Mui) :
    Pub.withdrawn (shellHist L) q m = false := by
  unfold shellHist
  rw [← List.map_reverse]
  induction L.reverse with
  | nil => cases q <;> rfl
  | cons x l ih =>
    revert ih
    cases q <;> exact fun h => h

/-- The records listed for a prefix are the one of its last line. -/
private theorem lists_shell {L : List (AnyPrefix × BitVec 32)} {q : AnyPrefix} {rs : List (Record PrefixAs)}
    (h : ∀ r, r ∈ rs ↔ ∃ r0, Pub.storedRec .memoryOnly (shellHist L) q r.mui = some r0 ∧
      r = Pub.effective (shellHist L) q r0)
    {a : BitVec 32} (ha : lastLine L q = some a) :
    rs.head?.map shellLine = some (0#32, 0#64, .active, a) := by
  have key : ∀ r, r ∈ rs ↔ r = shellRecord a := by
    intro r
    rw [h r]
    simp only [Pub.storedRec, recOf_shell, ha, Pub.effective, withdrawn_shell]
    constructor
    · rintro ⟨r0, h1, h2⟩
      split at h1
      · injection h1 with h1
        rw [h2, ← h1]; rfl
      · cases h1
    · rintro rfl
      exact ⟨shellRecord a, rfl, rfl⟩
  cases rs with
  | nil => exact absurd ((key _).2 rfl) (List.not_mem_nil)
  | cons r rs =>
    rw [(key r).1 (List.mem_cons_self ..)]
    have : (PrefixAs.ofU32 a).asn = a := (prefix_as_number a).1
    exact congrArg (fun a => some (0#32, 0#64, RouteStatus.active, a)) this

private theorem last_iff {L : List (AnyPrefix × BitVec 32)} {q : AnyPrefix} :
    (∃ r t, StarOp.insert q r t ∈ shellHist L) ↔ ∃ a, lastLine L q = some a := by
  unfold lastLine shellHist
  constructor
  · rintro ⟨r, t, hin⟩
    obtain ⟨x, hx, e⟩ := List.mem_map.1 (List.mem_reverse.1 hin)
    injection e with e
    cases hf : L.reverse.find? fun x => x.1 = q with
    | none => exact absurd e (by simpa using List.find?_eq_none.1 hf x (List.mem_reverse.2 hx))
    | some y => exact ⟨_, rfl⟩
  · rintro ⟨a, ha⟩
    obtain ⟨y, hy, -⟩ := Option.map_eq_some_iff.1 ha
    have h1 := List.find?_some hy
    have h2 := List.mem_of_find?_eq_some hy
    refine ⟨shellRecord y.2, none, List.mem_reverse.2 (List.mem_map.2 ⟨y, List.mem_reverse.1 h2, ?_⟩)⟩
    rw [of_decide_eq_true h1]

private theorem rows_ok {l : List (PubRecord PrefixAs)} {f : AnyPrefix → ShellLine}
    (h : ∀ x ∈ l, x.recs.head?.map shellLine = some (f x.pfx)) :
    (l.map Except.ok).mapM shellRow = some (l.map fun x => (x.pfx, f x.pfx)) := by
  induction l with
  | nil => rfl
  | cons x l ih =>
    have hx := h x (List.mem_cons_self ..)
    have hr : shellRow (.ok x) = some (x.pfx, f x.pfx) := by
      show x.recs.head?.map (fun y => (x.pfx, shellLine y)) = _
      obtain ⟨y, hy, he⟩ := Option.map_eq_some_iff.1 hx
      rw [hy]
      exact congrArg some (congrArg _ he)
    rw [List.map_cons, List.mapM_cons, hr, ih fun y hy => h y (List.mem_cons_of_mem _ hy)]
    rfl

/-- C89: the lines of any file are inserted without an error, and then the list command does not
panic: it gives every prefix but the default routes once, active and with the number of its last line, and
the number of different prefixes as the total.  (With default routes in the file the total is
larger than the list is long, C07.) -/
theorem shell_lists_partial (L : List (AnyPrefix × BitVec 32)) (hs : starExec .memoryOnly F [] = .ok () s) :
    ∃ s1, (∀ fuel, ((shellLoad L).prog (StarCall.prog .memoryOnly F fuel)).run s = .ok (.ok ()) s1) ∧
      ∃ (N : Nat) (rows : List (AnyPrefix × ShellLine)) (n : UpsertCounters),
        (∀ fuel, N ≤ fuel →
          (shellList.prog (StarCall.prog .memoryOnly F fuel)).run s1 = .ok (rows, n) s1) ∧
        (rows.map Prod.fst).Nodup ∧ (∀ q x, (q, x) ∈ rows ↔
          0 < Pub.len q ∧ ∃ a, lastLine L q = some a ∧ x = (0#32, 0#64, .active, a)) ∧
        n.total = Set.ncard {p : Prefix 32 | ∃ a, (.v4 p, a) ∈ L} +
          Set.ncard {p : Prefix 128 | ∃ a, (.v6 p, a) ∈ L} := by
  obtain ⟨s1, h1, h2⟩ := load_from L hs
  rw [List.append_nil] at h2
  obtain ⟨N, l4, l6, r1, nd4, nd6, m4, m6, v4, v6⟩ := star_prefixes_iter_partial h2
  obtain ⟨n, hn, ht⟩ := star_prefixes_count h2
  have hmem : ∀ q, (∃ r t, StarOp.insert q r t ∈ shellHist L) ↔ ∃ a, (q, a) ∈ L := by
    intro q
    constructor
    · rintro ⟨r, t, hin⟩
      obtain ⟨x, hx, e⟩ := List.mem_map.1 (List.mem_reverse.1 hin)
      injection e with e
      exact ⟨x.2, by rw [← e]; exact hx⟩
    · rintro ⟨a, ha⟩
      exact ⟨_, _, List.mem_reverse.2 (List.mem_map.2 ⟨_, ha, rfl⟩)⟩
  let f : AnyPrefix → ShellLine := fun q => (0#32, 0#64, .active, (lastLine L q).getD 0#32)
  have hf : ∀ q a, lastLine L q = some a → f q = (0#32, 0#64, .active, a) := fun q a h => by
    show (0#32, 0#64, RouteStatus.active, (lastLine L q).getD 0#32) = _
    rw [h]; rfl
  have k4 : ∀ q rs, (q, rs) ∈ l4 → rs.head?.map shellLine = some (f (.v4 q)) := by
    intro q rs hin
    obtain ⟨a, ha⟩ := last_iff.1 ((m4 q).1 (List.mem_map.2 ⟨_, hin, rfl⟩)).1
    rw [hf _ _ ha]
    refine lists_shell (fun r => ?_) ha
    rw [(v4 q rs hin).2 r]
    refine exists_congr fun r0 => ?_
    rw [(view4 (shellHist L)).stored, (view4 (shellHist L)).effective]
  have k6 : ∀ q rs, (q, rs) ∈ l6 → rs.head?.map shellLine = some (f (.v6 q)) := by
    intro q rs hin
    obtain ⟨a, ha⟩ := last_iff.1 ((m6 q).1 (List.mem_map.2 ⟨_, hin, rfl⟩)).1
    rw [hf _ _ ha]
    refine lists_shell (fun r => ?_) ha
    rw [(v6 q rs hin).2 r]
    refine exists_congr fun r0 => ?_
    rw [(view6 (shellHist L)).stored, (view6 (shellHist L)).effective]
  have hrows := rows_ok (l := l4.map Star.pub4 ++ l6.map Star.pub6) (f := f) fun x hx => by
    rcases List.mem_append.1 hx with hx | hx
    · obtain ⟨⟨q, rs⟩, hin, rfl⟩ := List.mem_map.1 hx
      exact k4 q rs hin
    · obtain ⟨⟨q, rs⟩, hin, rfl⟩ := List.mem_map.1 hx
      exact k6 q rs hin
  have hfst : ((l4.map Star.pub4 ++ l6.map Star.pub6).map fun x => (x.pfx, f x.pfx)) =
      ((l4.map Prod.fst).map AnyPrefix.v4 ++ (l6.map Prod.fst).map AnyPrefix.v6).map fun q => (q, f q) := by
    simp only [List.map_append, List.map_map]
    rfl
  have hin : ∀ q, q ∈ (l4.map Prod.fst).map AnyPrefix.v4 ++ (l6.map Prod.fst).map AnyPrefix.v6 ↔
      0 < Pub.len q ∧ ∃ a, lastLine L q = some a := by
    intro q
    rw [List.mem_append]
    cases q with
    | v4 q =>
      refine Iff.trans ?_ ((m4 q).trans (and_comm.trans (and_congr Iff.rfl last_iff)))
      simp
    | v6 q =>
      refine Iff.trans ?_ ((m6 q).trans (and_comm.trans (and_congr Iff.rfl last_iff)))
      simp
  refine ⟨s1, h1, N, (l4.map Star.pub4 ++ l6.map Star.pub6).map fun x => (x.pfx, f x.pfx), n, fun fuel hfu => ?_, ?_, fun q a => ?_, ?_⟩
  · unfold shellList Client.prog
    rw [run_bind]
    show ((Star.prefixesIter .memoryOnly fuel).run s1).andThen _ = _
    rw [r1 fuel hfu]
    dsimp only [Outcome.andThen]
    rw [hrows]
    dsimp only
    unfold Client.prog
    rw [run_bind]
    show (Star.prefixesCount.run s1).andThen _ = _
    rw [hn]
    rfl
  · rw [hfst, List.map_map]
    refine (List.map_id _).symm ▸ List.nodup_append.2
      ⟨nd4.map fun a b e => by injection e, nd6.map fun a b e => by injection e, ?_⟩
    rintro a ha b hb rfl
    obtain ⟨x, -, rfl⟩ := List.mem_map.1 ha
    obtain ⟨y, -, e⟩ := List.mem_map.1 hb
    cases e
  · rw [hfst]
    constructor
    · intro h
      obtain ⟨q', hq, e⟩ := List.mem_map.1 h
      injection e with e1 e2
      subst e1
      obtain ⟨hl, b, hb⟩ := (hin q').1 hq
      rw [hf _ _ hb] at e2
      exact ⟨hl, b, hb, e2.symm⟩
    · rintro ⟨hl, a, ha, rfl⟩
      exact List.mem_map.2 ⟨q, (hin q).2 ⟨hl, a, ha⟩, by rw [hf _ _ ha]⟩
  · rw [ht]
    simp only [hmem]

/-- A file with two lines for one prefix, and one for another family: both prefixes are listed. -/
example : ∃ (s1 : Star PrefixAs) (N : Nat) (rows : List (AnyPrefix × ShellLine)) (n : UpsertCounters),
    (∀ fuel, N ≤ fuel → (shellList.prog (StarCall.prog .memoryOnly 32 fuel)).run s1 = .ok (rows, n) s1) ∧
    (.v4 Demo.ten8, 0#32, 0#64, .active, 2#32) ∈ rows ∧ (.v6 Demo.doc, 0#32, 0#64, .active, 7#32) ∈ rows ∧
    (.v4 Demo.ten8, 0#32, 0#64, .active, 1#32) ∉ rows := by
  obtain ⟨s, hs, -⟩ := starExec_split (M := PrefixAs) (st := .memoryOnly) (F := 32) []
  obtain ⟨s1, -, N, rows, n, h1, -, h2, -⟩ := shell_lists_partial
    [(.v4 Demo.ten8, 1#32), (.v6 Demo.doc, 7#32), (.v4 Demo.ten8, 2#32)] hs
  refine ⟨s1, N, rows, n, h1, (h2 _ _).2 ⟨by decide, 2#32, by decide, rfl⟩,
    (h2 _ _).2 ⟨by decide, 7#32, by decide, rfl⟩, fun h => ?_⟩
  obtain ⟨-, a, ha, e⟩ := (h2 _ _).1 h
  injection e with _ e
  injection e with _ e
  injection e with _ e
  subst e
  exact absurd ha (by decide)

/-- C89 fails for the default routes: they are counted, but not listed. -/
theorem shell_default_missing : ∃ (s1 : Star PrefixAs) (N : Nat) (n : UpsertCounters),
    (∀ fuel, N ≤ fuel → (shellList.prog (StarCall.prog .memoryOnly 32 fuel)).run s1 = .ok ([], n) s1) ∧
    n.total = 1 := by
  obtain ⟨s, hs, -⟩ := starExec_split (M := PrefixAs) (st := .memoryOnly) (F := 32) []
  obtain ⟨s1, -, N, rows, n, h1, -, h2, h3⟩ := shell_lists_partial [(.v4 (Demo.pfx 0#32 0 (by decide)), 1#32)] hs
  have hr : rows = [] := List.eq_nil_iff_forall_not_mem.2 fun ⟨q, a⟩ hin => by
    obtain ⟨hl, b, ha, -⟩ := (h2 q a).1 hin
    unfold lastLine at ha
    by_cases hq : AnyPrefix.v4 (Demo.pfx 0#32 0 (by decide)) = q
    · subst hq
      exact absurd hl (by decide)
    · simp [hq] at ha
  subst hr
  refine ⟨s1, N, n, h1, ?_⟩
  rw [h3]
  have e4 : {p : Prefix 32 | ∃ a : BitVec 32, (AnyPrefix.v4 p, a) ∈ [(AnyPrefix.v4 (Demo.pfx 0#32 0 (by decide)), 1#32)]} =
      {(Demo.pfx 0#32 0 (by decide))} := by
    ext p
    simp
  have e6 : {p : Prefix 128 | ∃ a : BitVec 32, (AnyPrefix.v6 p, a) ∈ [(AnyPrefix.v4 (Demo.pfx 0#32 0 (by decide)), 1#32)]} = ∅ := by
    ext p
    simp
  rw [e4, e6, Set.ncard_singleton, Set.ncard_empty]

/-- C89: the list command has its rows unless an item of the iteration is an error, or a prefix
without records. -/
theorem shell_rows_none (items : List (FatalResult (PubRecord PrefixAs))) :
    items.mapM shellRow = none ↔ ∃ x ∈ items, ∀ r, x = .ok r → r.recs = [] := by
  have one : ∀ x, shellRow x = none ↔ ∀ r, x = .ok r → r.recs = [] := by
    intro x
    cases x with
    | error e => exact ⟨fun _ r h => (by cases h), fun _ => rfl⟩
    | ok r =>
      refine Iff.trans (b := r.recs = []) ?_ ⟨fun h r' e => by injection e with e; rw [← e, h], fun h => h r rfl⟩
      show r.recs.head?.map _ = none ↔ _
      simp
  induction items with
  | nil => exact ⟨fun h => (by cases h), fun ⟨x, hx, _⟩ => by cases hx⟩
  | cons y l ih =>
    rw [List.mapM_cons, List.exists_mem_cons_iff, ← one y, ← propext ih]
    cases shellRow y with
    | none => exact ⟨fun _ => .inl rfl, fun _ => rfl⟩
    | some a =>
      cases l.mapM shellRow with
      | none => exact ⟨fun _ => .inr rfl, fun _ => rfl⟩
      | some b => exact ⟨fun h => (by cases h), fun h => by rcases h with h | h <;> cases h⟩

example : [Except.ok ⟨.v4 Demo.ten8, [shellRecord 1#32]⟩, .ok ⟨.v4 Demo.ten16, []⟩].mapM shellRow = none ∧
    [Except.ok ⟨.v4 Demo.ten8, [shellRecord 1#32]⟩].mapM shellRow ≠ none :=
  ⟨(shell_rows_none _).2 ⟨_, .tail _ (.head _), fun r h => by injection h with h; rw [← h]⟩, fun h => by cases h⟩

/-! ## Queries -/

private theorem shown_shell (L : List (AnyPrefix × BitVec 32)) (q : AnyPrefix) (iw : Bool) (r : Record PrefixAs) :
    Pub.Shown .memoryOnly (shellHist L) none iw q r ↔ ∃ a, lastLine L q = some a ∧ r = shellRecord a := by
  unfold Pub.Shown
  simp only [Pub.storedRec, recOf_shell, Pub.effective, withdrawn_shell]
  constructor
  · rintro ⟨r0, h1, -, h2⟩
    split at h1
    · obtain ⟨a, ha, rfl⟩ := Option.map_eq_some_iff.1 h1
      cases iw with
      | true => exact ⟨a, ha, h2⟩
      | false => exact ⟨a, ha, h2.1⟩
    · cases h1
  · rintro ⟨a, ha, rfl⟩
    refine ⟨shellRecord a, by rw [ha]; rfl, fun m h => (by cases h), ?_⟩
    cases iw with
    | true => rfl
    | false => exact ⟨rfl, by simp [passes, shellRecord], .inl trivial⟩

private theorem lists_one {rs : List (Record PrefixAs)} {V : Record PrefixAs → Prop} {a : BitVec 32}
    (h : Lists rs V) (hv : ∀ r, V r ↔ r = shellRecord a) : rs.map shellLine = [(0#32, 0#64, .active, a)] := by
  have hl : shellLine (shellRecord a) = (0#32, 0#64, .active, a) :=
    congrArg (fun a => (0#32, 0#64, RouteStatus.active, a)) (prefix_as_number a).1
  obtain ⟨h1, h2⟩ := h
  match rs with
  | [] => exact absurd ((h2 _).2 ((hv _).2 rfl)) List.not_mem_nil
  | [r] =>
    rw [(hv r).1 ((h2 r).1 (List.mem_cons_self ..))]
    exact congrArg (fun x => [x]) hl
  | r :: r' :: rs =>
    have e := (hv r).1 ((h2 r).1 (List.mem_cons_self ..))
    have e' := (hv r').1 ((h2 r').1 (.tail _ (.head _)))
    exact absurd (by rw [e, e']) ((List.pairwise_cons.1 h1).1 r' (List.mem_cons_self ..))

private theorem shown_iff {L : List (AnyPrefix × BitVec 32)} {q : AnyPrefix} {iw : Bool} {a : BitVec 32}
    (ha : lastLine L q = some a) (r : Record PrefixAs) :
    Pub.Shown .memoryOnly (shellHist L) none iw q r ↔ r = shellRecord a := by
  rw [shown_shell]
  constructor
  · rintro ⟨b, hb, h⟩
    rw [ha] at hb
    injection hb with hb
    rw [h, hb]
  · exact fun h => ⟨a, ha, h⟩

private theorem fromFile {L : List (AnyPrefix × BitVec 32)} {P : AnyPrefix → Prop} {l : List (PubRecord PrefixAs)}
    (h : Pub.Listing (fun q => Pub.Proper (shellHist L) q ∧ P q) (Pub.Shown .memoryOnly (shellHist L) none true) l) :
    FromFile L P l where
  nodup := h.nodup
  mem q := by
    rw [h.mem q]
    unfold Pub.Proper Pub.Present
    rw [last_iff]
    constructor
    · exact fun h => ⟨h.1.2, h.1.1.2, h.1.1.1⟩
    · rintro ⟨h1, h2, a, ha⟩
      exact ⟨⟨⟨⟨a, ha⟩, h2⟩, h1⟩, _, (shown_iff ha _).2 rfl⟩
  recs q rs a hin ha := lists_one (h.recs q rs hin) (shown_iff ha)

/-- C90: a query of the shell ends without an error.  What it prints first is the prefix when it is in the
file, with the number of its last line, and the prefixes of the file that are less specific, from longest
to shortest, and those that are more specific, each once and with its own number.  (Partial: but for
the default routes; and what it prints after "numatch" differs, `shell_numatch_differs`.) -/
theorem shell_query_partial (L : List (AnyPrefix × BitVec 32)) (hs : starExec .memoryOnly F [] = .ok () s)
    (p : AnyPrefix) :
    ∃ s1, (∀ fuel, ((shellLoad L).prog (StarCall.prog .memoryOnly F fuel)).run s = .ok (.ok ()) s1) ∧
      ∃ (N : Nat) (m : Star.Result PrefixAs) (more less : Option (RecordSet PrefixAs)),
        (∀ fuel, N ≤ fuel → ((shellQuery p).prog (StarCall.prog .memoryOnly F fuel)).run s1 =
          .ok (.ok (m, more, less)) s1) ∧
        (∀ q, m.prefix_ = some q ↔ q = p ∧ 0 < Pub.len p ∧ ∃ a, lastLine L p = some a) ∧
        (m.prefix_ = none → m.records = []) ∧
        (∀ a, 0 < Pub.len p → lastLine L p = some a →
          m.matchType = .exactMatch ∧ m.records.map shellLine = [(0#32, 0#64, .active, a)]) ∧
        (∃ l, m.lessSpecifics = some l ∧ Pub.Descending (Pub.items l) ∧
          FromFile L (fun q => Pub.Covers q p ∧ q ≠ p) (Pub.items l)) ∧
        (∃ l, m.moreSpecifics = some l ∧ FromFile L (fun q => Pub.Covers p q ∧ q ≠ p) (Pub.items l)) ∧
        (∀ l, more = some l → ∀ q rs a, ⟨q, rs⟩ ∈ Pub.items l → lastLine L p = some a →
          rs.map shellLine = [(0#32, 0#64, .active, a)]) ∧
        ((∃ a, lastLine L p = some a) → ∃ l, more = some l ∧ ∀ q, (∃ rs, ⟨q, rs⟩ ∈ Pub.items l) ↔
          Pub.len p < Pub.width p ∧ Pub.Proper (shellHist L) q ∧ Pub.Covers p q) ∧
        (∀ l, less = some l → ∀ q rs a, ⟨q, rs⟩ ∈ Pub.items l → lastLine L p = some a →
          rs.map shellLine = [(0#32, 0#64, .active, a)]) ∧
        ((∃ a, lastLine L p = some a) → ∃ l, less = some l ∧ ∀ q, (∃ rs, ⟨q, rs⟩ ∈ Pub.items l) ↔
          Pub.Proper (shellHist L) q ∧ Pub.Covers q p ∧ q ≠ p) := by
  obtain ⟨s1, h1, h2⟩ := load_from L hs
  rw [List.append_nil] at h2
  obtain ⟨N, m, r1, -, he, hl, hm, -, -⟩ :=
    public_match_prefix_partial h2 p ⟨.exactMatch, true, true, true, none⟩
  obtain ⟨N', more, r2, -, -, -, hmore, -, -⟩ := public_more_from_partial h2 p none false
  obtain ⟨less, r3, -, -, -, hless, -, -⟩ := public_less_from_partial h2 p none false
  obtain ⟨e1, e2, e3⟩ := he rfl
  obtain ⟨l, hl, hd, hll⟩ := hl rfl
  obtain ⟨l', hm, hml⟩ := hm rfl
  have hpre : ∀ q, m.prefix_ = some q ↔ q = p ∧ 0 < Pub.len p ∧ ∃ a, lastLine L p = some a := by
    intro q
    rw [e1 q]
    unfold Pub.Proper Pub.Present
    rw [last_iff]
    constructor
    · exact fun h => ⟨h.1.1, h.1.2.2, h.1.2.1⟩
    · rintro ⟨rfl, h, a, ha⟩
      exact ⟨⟨rfl, ⟨a, ha⟩, h⟩, _, (shown_iff ha _).2 rfl⟩
  refine ⟨s1, h1, max N N', m, more.moreSpecifics, less.lessSpecifics, fun fuel hf => ?_, hpre,
    fun h => (e3 h).2, fun a h0 ha => ?_, ⟨l, hl, hd, fromFile hll⟩, ⟨l', hm, fromFile hml⟩,
    fun l hl q rs a hin ha => ?_, fun ⟨a, ha⟩ => ?_, fun l hl q rs a hin ha => ?_, fun ⟨a, ha⟩ => ?_⟩
  · unfold shellQuery Client.prog
    rw [run_bind]
    show ((Star.matchPrefix .memoryOnly fuel p _).run s1).andThen _ = _
    rw [r1 fuel (by omega)]
    dsimp only [Outcome.andThen]
    unfold Client.prog
    rw [run_bind]
    show ((Star.moreFrom .memoryOnly fuel p none false).run s1).andThen _ = _
    rw [r2 fuel (by omega)]
    dsimp only [Outcome.andThen]
    unfold Client.prog
    rw [run_bind]
    show ((Star.lessFrom .memoryOnly p none false).run s1).andThen _ = _
    rw [r3]
    rfl
  · obtain ⟨h3, h4⟩ := e2 p ((hpre p).2 ⟨rfl, h0, a, ha⟩)
    exact ⟨h3, lists_one h4 (shown_iff ha)⟩
  · exact lists_one ((hmore.2 l hl).2.2 q rs hin) (shown_iff ha)
  · cases hx : more.moreSpecifics with
    | none => exact absurd ⟨_, (shown_iff ha _).2 rfl⟩ (hmore.1.1 hx).2
    | some l => exact ⟨l, rfl, (hmore.2 l hx).2.1⟩
  · exact lists_one ((hless.2 l hl).2.2 q rs hin) (shown_iff ha)
  · cases hx : less.lessSpecifics with
    | none => exact absurd ⟨_, (shown_iff ha _).2 rfl⟩ (hless.1.1 hx).2
    | some l => exact ⟨l, rfl, (hless.2 l hx).2.1⟩

/-- C90 fails for what is printed after "numatch": for a file with a prefix and a more specific one, the
more specifics are said to be both, and both with the number of the first. -/
theorem shell_numatch_differs :
    ∃ (s1 : Star PrefixAs) (N : Nat) (m : Star.Result PrefixAs) (l l' : RecordSet PrefixAs)
      (less : Option (RecordSet PrefixAs)),
      (∀ fuel, N ≤ fuel → ((shellQuery (.v4 Demo.ten8)).prog (StarCall.prog .memoryOnly 32 fuel)).run s1 =
        .ok (.ok (m, some l', less)) s1) ∧ m.moreSpecifics = some l ∧
      (∃ rs, ⟨.v4 Demo.ten16, rs⟩ ∈ Pub.items l ∧ rs.map shellLine = [(0#32, 0#64, .active, 2#32)]) ∧
      (¬ ∃ rs, ⟨.v4 Demo.ten8, rs⟩ ∈ Pub.items l) ∧
      (∃ rs, ⟨.v4 Demo.ten16, rs⟩ ∈ Pub.items l' ∧ rs.map shellLine = [(0#32, 0#64, .active, 1#32)]) ∧
      (∃ rs, ⟨.v4 Demo.ten8, rs⟩ ∈ Pub.items l' ∧ rs.map shellLine = [(0#32, 0#64, .active, 1#32)]) := by
  obtain ⟨s, hs, -⟩ := starExec_split (M := PrefixAs) (st := .memoryOnly) (F := 32) []
  obtain ⟨s1, -, N, m, more, less, h1, -, -, -, -, ⟨l, h2, h3⟩, h4, h5, -⟩ := shell_query_partial
    [(.v4 Demo.ten8, 1#32), (.v4 Demo.ten16, 2#32)] hs (.v4 Demo.ten8)
  obtain ⟨l', rfl, h6⟩ := h5 ⟨1#32, by decide⟩
  have hc : Pub.Covers (.v4 Demo.ten8) (.v4 Demo.ten16) := ⟨by decide, by decide⟩
  have hc' : Pub.Covers (.v4 Demo.ten8) (.v4 Demo.ten8) := ⟨by decide, by decide⟩
  refine ⟨s1, N, m, l, l', less, h1, h2, ?_, ?_, ?_, ?_⟩
  · obtain ⟨rs, hr⟩ := (h3.mem (.v4 Demo.ten16)).2 ⟨⟨hc, by decide⟩, by decide, 2#32, by decide⟩
    exact ⟨rs, hr, h3.recs _ _ _ hr (by decide)⟩
  · exact fun h => ((h3.mem _).1 h).1.2 rfl
  · obtain ⟨rs, hr⟩ := (h6 (.v4 Demo.ten16)).2 ⟨by decide, ⟨last_iff.2 ⟨2#32, by decide⟩, by decide⟩, hc⟩
    exact ⟨rs, hr, h4 l' rfl _ _ _ hr (by decide)⟩
  · obtain ⟨rs, hr⟩ := (h6 (.v4 Demo.ten8)).2 ⟨by decide, ⟨last_iff.2 ⟨1#32, by decide⟩, by decide⟩, hc'⟩
    exact ⟨rs, hr, h4 l' rfl _ _ _ hr (by decide)⟩

end Rotonda.Props
