import Verif.Model.MetaFrom
import Verif.Props.Persist

/-!
# Rebuilding metadata: C68
-/

namespace Rotonda.Props

open Prog Spec

variable {M : Type} [Meta M] {W : Nat}

omit [Meta M] in
private theorem decodeAllP_ok {conv : Bytes → Option M} {l : List (FatalResult Bytes)}
    {f : FatalResult Bytes → Record M} (h : ∀ b ∈ l, decodeEntryP W conv b = some (.ok (f b))) :
    decodeAllP W conv l = some (.ok (l.map f)) := by
  induction l with
  | nil => rfl
  | cons b bs ih =>
    unfold decodeAllP
    rw [h b (by simp), ih fun b hb => h b (List.mem_cons_of_mem _ hb)]
    rfl

private theorem decodeEntryP_enc [Fam W] (conv : Bytes → Option M) (e : PoEntry W) :
    decodeEntryP W conv (.ok (e.enc.1 ++ e.enc.2)) =
      (conv e.kept.bytes).map fun m => .ok ⟨e.mui, e.kept.ltime, e.kept.status, m⟩ := by
  unfold decodeEntryP
  simp only [PoEntry.enc_bytes, decodeRecord_encode e.pfx.len_lt]

private theorem shown_kept (e : PoEntry W) (g : Mui → Bool) :
    (e.shown g).mui = e.mui ∧ (e.shown g).kept.bytes = e.kept.bytes := by
  unfold PoEntry.shown
  split <;> exact ⟨rfl, rfl⟩

private theorem run_getValueP [Fam W] {h : History M W} {s : Rib M W} (hi : HInv .persistOnly h s)
    (conv : Bytes → Option M) (p : Prefix W) (mui : Option Mui) (iw : Bool)
    {o : Option (List (FatalResult Bytes))}
    (ho : recordsForPrefix (lsmOf .persistOnly h) p.id mui iw (globWd h) = some o) :
    (getValueP conv p.id mui iw).run s =
      match o with
      | none => .ok (.ok none) s
      | some l => match decodeAllP W conv l with
        | none => .panic
        | some (.ok rs) => .ok (.ok (some rs)) s
        | some (.error e) => .ok (.error e) s := by
  have hl : recordsForPrefix s.lsm p.id mui iw (globWd h) = some o := by rw [hi.lsm]; exact ho
  unfold getValueP
  rw [run_bind, run_withdrawnMuis hi.toQ]
  simp only [Outcome.andThen]
  rw [run_bind]
  simp only [Prog.read, run, hl, Outcome.andThen]
  cases o with
  | none => rfl
  | some l =>
    simp only [ofOption, ret_bind]
    cases decodeAllP W conv l with
    | none => rfl
    | some x => cases x <;> rfl

/-- C68: the bytes of which metadata is rebuilt are those of an inserted record of the route;
after a withdrawal of the route they can be none. -/
theorem kept_bytes {h : History M W} {p : Prefix W} {m : Mui} {k : Kept}
    (hk : keptOf h p m = some k) :
    (∃ r tbi, Op.insert p r tbi ∈ h ∧ r.mui = m ∧ k.bytes = Meta.toBytes r.md) ∨
      (k.bytes = [] ∧ ∃ t, Op.withdrawFor p m t ∈ h) := by
  induction h generalizing k with
  | nil => cases hk
  | cons op h ih =>
    have lift : keptOf h p m = some k →
        (∃ r tbi, Op.insert p r tbi ∈ op :: h ∧ r.mui = m ∧ k.bytes = Meta.toBytes r.md) ∨
          (k.bytes = [] ∧ ∃ t, Op.withdrawFor p m t ∈ op :: h) := by
      intro hk
      rcases ih hk with ⟨r, tbi, h1, h2⟩ | ⟨h1, t, h2⟩
      · exact .inl ⟨r, tbi, List.mem_cons_of_mem _ h1, h2⟩
      · exact .inr ⟨h1, t, List.mem_cons_of_mem _ h2⟩
    cases op with
    | insert q r tbi =>
      simp only [keptOf] at hk
      split at hk
      · rename_i e
        obtain ⟨rfl, rfl⟩ := e
        cases hk
        exact .inl ⟨r, tbi, by simp, rfl, rfl⟩
      · exact lift hk
    | withdrawFor q n t =>
      simp only [keptOf] at hk
      split at hk
      · rename_i e
        obtain ⟨rfl, rfl⟩ := e
        cases hx : keptOf h q n with
        | none => rw [hx] at hk; cases hk
        | some x => rw [hx] at hk; cases hk; exact .inr ⟨rfl, t, by simp⟩
      · exact lift hk
    | activateFor q n t =>
      simp only [keptOf] at hk
      split at hk
      · rename_i e
        obtain ⟨rfl, rfl⟩ := e
        cases hx : keptOf h q n with
        | none => rw [hx] at hk; cases hk
        | some x =>
          rw [hx] at hk
          simp only [Option.map_some, Option.some.injEq] at hk
          split at hk
          · rename_i hb
            subst hk
            rcases ih hx with ⟨r, tbi, h1, h2, h3⟩ | ⟨-, t', h2⟩
            · exact .inl ⟨r, tbi, List.mem_cons_of_mem _ h1, h2, by rw [← h3, hb]⟩
            · exact .inr ⟨rfl, t', List.mem_cons_of_mem _ h2⟩
          · subst hk; exact lift hx
      · exact lift hk
    | _ => exact lift hk

/-- C68: with `PersistOnly`, if the conversion accepts the bytes of the metadata inserted for
the prefix, and besides no bytes if a route of the prefix was withdrawn, then the query for
the prefix does not panic, and answers as with a conversion that accepts everything. -/
theorem conversion_panics_partial [Fam W] {F : Nat} {h : History M W} {s : Rib M W}
    (hs : exec .persistOnly F h = .ok () s) (conv : Bytes → Option M) (p : Prefix W)
    (hins : ∀ r tbi, Op.insert p r tbi ∈ h →
      conv (Meta.toBytes r.md) = some (Meta.ofBytes (Meta.toBytes r.md)))
    (hwd : (∃ m t, Op.withdrawFor p m t ∈ h) → conv [] = some (Meta.ofBytes []))
    (mui : Option Mui) (iw : Bool) :
    (getValueP conv p.id mui iw).run s = (ribGetValue .persistOnly p.id mui iw).run s := by
  have hi := exec_ok_inv hs
  obtain ⟨o, hrec, hne, -, hmem⟩ := po_records h p mui iw
  have hconv : ∀ e ∈ o.getD [], conv e.kept.bytes = some (Meta.ofBytes e.kept.bytes) := by
    intro e he
    obtain ⟨e0, -, hk, -, hc⟩ := (hmem e).1 he
    have hb : e.kept.bytes = e0.kept.bytes := by
      cases iw with
      | true => rw [hc]; exact (shown_kept e0 _).2
      | false => rw [hc.1]
    rw [hb]
    rcases kept_bytes hk with ⟨r, tbi, h1, -, h2⟩ | ⟨h1, t, h2⟩
    · rw [h2]; exact hins r tbi h1
    · rw [h1]; exact hwd ⟨_, t, h2⟩
  rw [run_getValueP hi conv p mui iw hrec, run_ribGetValue hi.toQ]
  unfold valueOf
  simp only [hrec]
  cases o with
  | none => rfl
  | some l =>
    simp only [Option.map_some]
    have e1 : decodeAllP W conv (l.map fun e => (.ok (e.enc.1 ++ e.enc.2) : FatalResult Bytes)) =
        some (.ok (l.map fun e => e.kept.toRecord e.mui)) := by
      rw [decodeAllP_ok (f := fun b => match decodeEntryP W conv b with
        | some (.ok x) => x | _ => ⟨0, 0, .active, Meta.ofBytes []⟩)]
      · rw [List.map_map]
        congr 2
        apply List.map_congr_left
        intro e he
        simp only [Function.comp, decodeEntryP_enc, hconv e he]
        rfl
      · intro b hb
        obtain ⟨e, he, rfl⟩ := List.mem_map.1 hb
        rw [decodeEntryP_enc, hconv e he]
        rfl
    have e2 : (l.map fun e => (.ok (e.enc.1 ++ e.enc.2) : FatalResult Bytes)).mapM
        (decodeEntry (M := M) W) = .ok (l.map fun e => e.kept.toRecord e.mui) := by
      rw [mapM_ok (g := fun b => match decodeEntry (M := M) W b with
        | .ok x => x | .error _ => ⟨0, 0, .active, Meta.ofBytes []⟩)]
      · rw [List.map_map]
        congr 1
        apply List.map_congr_left
        intro e _
        simp only [Function.comp, decodeEntry_enc]
      · intro b hb
        obtain ⟨e, _, rfl⟩ := List.mem_map.1 hb
        rw [decodeEntry_enc]
    rw [e1, e2]

private theorem decodeAllP_total (l : List (FatalResult Bytes)) :
    decodeAllP W (fun b => some (Meta.ofBytes b : M)) l = some (l.mapM (decodeEntry (M := M) W)) := by
  induction l with
  | nil => rfl
  | cons b bs ih =>
    have h1 : decodeEntryP W (fun b => some (Meta.ofBytes b : M)) b = some (decodeEntry W b) := by
      cases b with
      | error e => rfl
      | ok b =>
        unfold decodeEntryP decodeEntry
        simp only
        cases decodeRecord W b <;> rfl
    rw [decodeAllP, h1, List.mapM_cons]
    cases decodeEntry (M := M) W b with
    | error e => rfl
    | ok r =>
      simp only [ih, Option.map_some]
      cases bs.mapM (decodeEntry (M := M) W) <;> rfl

/-- C68: with a conversion that accepts everything the query is that of the other theorems,
on every store, also one that holds records which do not decode: these are errors. -/
theorem conversion_total [Fam W] (s : Rib M W) (p : PrefixId W) (mui : Option Mui) (iw : Bool) :
    (getValueP (fun b => some (Meta.ofBytes b : M)) p mui iw).run s =
      (ribGetValue .persistOnly p mui iw).run s := by
  unfold getValueP
  simp only [decodeAllP_total, ofOption, Prog.ret_bind]
  rfl

/-- C68 is false: a conversion that accepts all metadata but not the absence of bytes panics
in a query after a route was withdrawn: the store has dropped the metadata of the route. -/
theorem conversion_panics [Fam W] {F : Nat} {h : History M W} {s : Rib M W} {p : Prefix W}
    {m : Mui} {t : LTime} (hp : keptOf h p m ≠ none)
    (hs : exec .persistOnly F (.withdrawFor p m t :: h) = .ok () s) {conv : Bytes → Option M}
    (hc : conv [] = none) :
    (getValueP conv p.id (some m) true).run s = .panic := by
  have hi := exec_ok_inv hs
  obtain ⟨o, hrec, -, -, hmem⟩ := po_records (.withdrawFor p m t :: h) p (some m) true
  rw [run_getValueP hi conv p _ _ hrec]
  obtain ⟨x, hx⟩ := Option.ne_none_iff_exists'.1 hp
  have hk : keptOf (.withdrawFor p m t :: h) p m = some ⟨t, .withdrawn, []⟩ := by
    simp [keptOf, hx]
  have hin := (hmem ((⟨p, m, ⟨t, .withdrawn, []⟩⟩ : PoEntry W).shown
    (globWd (.withdrawFor p m t :: h)))).2
    ⟨⟨p, m, ⟨t, .withdrawn, []⟩⟩, rfl, hk, fun _ h => by cases h; rfl, rfl⟩
  have hall : ∀ e ∈ o.getD [], e.kept.bytes = [] := by
    intro e he
    obtain ⟨e0, -, hk0, hm0, hc0⟩ := (hmem e).1 he
    rw [hc0, (shown_kept e0 _).2]
    rw [hm0 m rfl, hk] at hk0
    rw [← Option.some.inj hk0]
  cases o with
  | none => exact absurd hin (by simp)
  | some l =>
    cases l with
    | nil => exact absurd hin (by simp)
    | cons e l =>
      simp only [Option.map_some, List.map_cons, decodeAllP, decodeEntryP_enc,
        hall e (by simp), hc, Option.map_none]

/-! ## The metadata types of the crate -/

/-- C68: the metadata types of the crate get back what they gave. -/
theorem test_types_roundtrip :
    (∀ x : NoMeta, Meta.ofBytes (Meta.toBytes x) = x) ∧
    (∀ x : BeBytesAsn, Meta.ofBytes (Meta.toBytes x) = x) ∧
    (∀ x : PrefixAs, Meta.ofBytes (Meta.toBytes x) = x) ∧
    (∀ x : PrefixAs, PrefixAs.conv (Meta.toBytes x) = some x) :=
  ⟨fun x => (by cases x; rfl), fun _ => rfl, fun _ => rfl, fun _ => rfl⟩

/-- C68: they read the first four bytes, however many follow; `PrefixAs` panics for fewer
ones, `BeBytesAsn` gives zeros. -/
theorem test_types_first (b : Bytes) :
    (∀ (x : BeBytesAsn), Meta.ofBytes (Meta.toBytes x ++ b) = x) ∧
    (∀ (x : PrefixAs), PrefixAs.conv (Meta.toBytes x ++ b) = some x) ∧
    (PrefixAs.conv b = none ↔ b.length < 4) ∧
    (b.length < 4 → (Meta.ofBytes b : BeBytesAsn) = ⟨⟨0, 0, 0, 0⟩⟩) := by
  refine ⟨fun _ => rfl, fun _ => rfl, ?_, ?_⟩
  · match b with
    | [] | [_] | [_, _] | [_, _, _] => simp [PrefixAs.conv, firstChunk4]
    | _ :: _ :: _ :: _ :: _ => simp [PrefixAs.conv, firstChunk4]
  · match b with
    | [] | [_] | [_, _] | [_, _, _] => exact fun _ => rfl
    | _ :: _ :: _ :: _ :: _ => intro h; simp at h; omega

private theorem le_ofLe (n : BitVec 32) : (Bytes4.ofLe n).le = n := by
  apply BitVec.eq_of_getLsbD_eq
  intro i hi
  simp only [Bytes4.le, Bytes4.ofLe, BitVec.getLsbD_append, BitVec.getLsbD_extractLsb']
  by_cases h1 : i < 8
  · simp [h1]
  · by_cases h2 : i < 16
    · have : i - 8 < 8 := by omega
      simp [h1, this, Nat.add_sub_cancel' (Nat.le_of_not_lt h1)]
    · by_cases h3 : i < 24
      · have a : ¬ i - 8 < 8 := by omega
        have b : i - 8 - 8 < 8 := by omega
        have c : 16 + (i - 8 - 8) = i := by omega
        simp [h1, a, b, c]
      · have a : ¬ i - 8 < 8 := by omega
        have b : ¬ i - 8 - 8 < 8 := by omega
        have d : i - 8 - 8 - 8 < 8 := by omega
        have c : 24 + (i - 8 - 8 - 8) = i := by omega
        simp [h1, a, b, c, d]

private theorem be_ofBe (n : BitVec 32) : (Bytes4.ofBe n).be = n := le_ofLe n

/-- C68: `PrefixAs` is the number it is made of, also for path selection. -/
theorem prefix_as_number (n : BitVec 32) :
    (PrefixAs.ofU32 n).asn = n ∧ (PrefixAs.new n).asn = n ∧
      Meta.asOrderable (PrefixAs.ofU32 n) () = n.toNat ∧
      Meta.asOrderable (PrefixAs.new n) () = n.toNat := by
  refine ⟨le_ofLe n, ?_, ?_, ?_⟩
  · rw [PrefixAs.new, be_ofBe]; exact le_ofLe n
  · exact congrArg BitVec.toNat (le_ofLe n)
  · rw [PrefixAs.new, be_ofBe]; exact congrArg BitVec.toNat (le_ofLe n)

/-- C68: `BeBytesAsn` shows the number it is made of. -/
theorem be_bytes_shown (n : BitVec 32) :
    (BeBytesAsn.ofU32 n).shown = n ∧ (BeBytesAsn.ofAsn n).shown = n := by
  refine ⟨le_ofLe n, ?_⟩
  rw [BeBytesAsn.ofAsn, be_ofBe]; exact le_ofLe n

/-- C68 is false: path selection takes the bytes of `BeBytesAsn` in the other order, so that
the larger number can be preferred. -/
theorem be_bytes_order_fails :
    (1#32 < 256#32) ∧ Meta.asOrderable (BeBytesAsn.ofU32 256#32) () <
      Meta.asOrderable (BeBytesAsn.ofU32 1#32) () := by decide

/-- With `PrefixAs`: insert, withdraw, query. -/
example (F : Nat) : ∃ s, exec .persistOnly F
      [.withdrawFor Demo.ten8 1#32 5#64,
        .insert Demo.ten8 ⟨1#32, 3#64, .active, PrefixAs.ofU32 65000#32⟩ none] = .ok () s ∧
    (getValueP PrefixAs.conv Demo.ten8.id (some 1#32) true).run s = .panic := by
  obtain ⟨s, hs, -⟩ := exec_inv .persistOnly F
    ([.withdrawFor Demo.ten8 1#32 5#64,
      .insert Demo.ten8 ⟨1#32, 3#64, .active, PrefixAs.ofU32 65000#32⟩ none] : History PrefixAs 32)
  exact ⟨s, hs, conversion_panics (by decide) hs rfl⟩

/-- Without the withdrawal the query answers. -/
example (F : Nat) : ∃ s, exec .persistOnly F
      [.insert Demo.ten8 ⟨1#32, 3#64, .active, PrefixAs.ofU32 65000#32⟩ none] = .ok () s ∧
    (getValueP PrefixAs.conv Demo.ten8.id (some 1#32) true).run s =
      (ribGetValue .persistOnly Demo.ten8.id (some 1#32) true).run s := by
  obtain ⟨s, hs, -⟩ := exec_inv .persistOnly F
    ([.insert Demo.ten8 ⟨1#32, 3#64, .active, PrefixAs.ofU32 65000#32⟩ none] : History PrefixAs 32)
  refine ⟨s, hs, conversion_panics_partial hs _ _ (fun r tbi hm => ?_) (fun ⟨m, t, hm⟩ => ?_) _ _⟩
  · exact rfl
  · simp at hm

/-- A store with a record of no known status: an error, no panic. -/
example : ∃ l : Lsm, l ≠ [] ∧
    (getValueP (W := 32) (fun b => some (Meta.ofBytes b : PrefixAs)) Demo.ten8.id none true).run
      { Rib.empty with lsm := l } = .ok (.error ()) { Rib.empty with lsm := l } := by
  refine ⟨[(prefixBytes Demo.ten8.id ++ List.replicate 12 0#8 ++ [9#8], [])], by decide, ?_⟩
  rw [conversion_total]
  rfl

end Rotonda.Props
