import Verif.Proofs.QuerySeq
import Verif.Spec.Persist

/-!
# The persisted content with long keys, and iterating over it
-/

namespace Rotonda

open Prog Spec

variable {M : Type} {W : Nat}

theorem Tag.key_inj [Fam W] {a b : Tag W} (h : a.key = b.key) : a = b := by
  obtain ⟨h1, h2, h3, h4⟩ := longKeyBytes_inj a.pfx.len_lt b.pfx.len_lt h
  cases a; cases b
  simp only at h1 h2 h3 h4
  cases Prefix.id_inj h1
  subst h2 h3 h4; rfl

/-- The persisted content is the map `g`, with long keys. -/
structure LRep (g : Tag W → Option Bytes) (t : Lsm) : Prop where
  sorted : t.Sorted
  mem : ∀ x, x ∈ t ↔ ∃ k, g k = some x.2 ∧ x.1 = k.key

theorem LRep.insert [Fam W] {g g' : Tag W → Option Bytes} {t : Lsm} (h : LRep g t) (k : Tag W)
    (v : Bytes) (hg : ∀ k', g' k' = if k' = k then some v else g k') :
    LRep g' (t.insert k.key v) := by
  refine ⟨h.sorted.insert _ _, fun x => ?_⟩
  rw [Lsm.mem_insert h.sorted, h.mem]
  constructor
  · rintro (rfl | ⟨hne, k', hk, he⟩)
    · exact ⟨k, by rw [hg, if_pos rfl], rfl⟩
    · refine ⟨k', ?_, he⟩
      rw [hg, if_neg, hk]
      rintro rfl
      exact hne he
  · rintro ⟨k', hk, he⟩
    rw [hg] at hk
    split at hk
    · rename_i c
      subst c
      left
      cases hk
      exact Prod.ext he rfl
    · rename_i c
      refine .inr ⟨fun e => c ?_, k', hk, he⟩
      exact Tag.key_inj (he ▸ e)

theorem LRep.empty : LRep (W := W) (fun _ => none) [] :=
  ⟨by simp [Lsm.Sorted], fun x => by simp⟩

variable [Meta M]

theorem lrep_writeAhead [Fam W] (h : History M W) :
    LRep (writtenAhead h) (lsmOf .writeAhead h) := by
  induction h with
  | nil => exact LRep.empty
  | cons op h ih =>
    cases op with
    | insert p r tbi => exact ih.insert (tagOf p r) _ (fun k => rfl)
    | withdrawFor p m t => exact ih
    | activateFor p m t => exact ih
    | withdraw m => exact ih
    | activate m => exact ih
    | calcBest p tbi => exact ih

theorem bind_get_recsAt {st : Strategy} (h : History M W) (p : Prefix W) (m : Mui) :
    ((tabOf st h p.id).bind fun x => x.1.get m) = (recsAt st h p).get m := by
  unfold recsAt
  cases tabOf st h p.id <;> rfl

omit [Meta M] in
theorem toRecord_toMMV {r : Record M} {m : Mui} (h : r.mui = m) : r.toMMV.toRecord m = r := by
  subst h; cases r; rfl

theorem lrep_marker [Fam W] {h : History M W} {g : Tag W → Option Bytes} {t : Lsm}
    (ih : LRep g t) (p : Prefix W) (m : Mui) (lt : LTime) :
    LRep (fun k => if k = ⟨p, m, lt, .withdrawn⟩ ∧ recOf h p m ≠ none then some [] else g k)
      (markerStep (tabOf .persistHistory h) p m lt t) := by
  unfold markerStep
  rw [bind_get_recsAt, get_recsAt rfl]
  cases hr : recOf h p m with
  | none => simpa [markerIf] using ih
  | some r =>
    simp only [Option.map_some, markerIf]
    exact ih.insert ⟨p, m, lt, .withdrawn⟩ [] (fun k => by simp)

theorem lrep_persistHistory [Fam W] (h : History M W) :
    LRep (supersededCode h) (lsmOf .persistHistory h) := by
  induction h with
  | nil => exact LRep.empty
  | cons op h ih =>
    cases op with
    | insert p r tbi =>
      simp only [lsmOf, bind_get_recsAt, get_recsAt (st := .persistHistory) rfl]
      have hs : supersededCode (.insert p r tbi :: h) = fun k =>
          match recOf h p r.mui with
          | some old => if k = tagOf p old then some (Meta.toBytes old.md) else supersededCode h k
          | none => supersededCode h k := by funext k; rfl
      rw [hs]
      cases hr : recOf h p r.mui with
      | none => exact ih
      | some old =>
        simp only [Option.map_some, toRecord_toMMV (recOf_mui hr)]
        exact ih.insert (tagOf p old) _ (fun k => rfl)
    | withdrawFor p m t => exact lrep_marker ih p m t
    | activateFor p m t => exact lrep_marker ih p m t
    | withdraw m => exact ih
    | activate m => exact ih
    | calcBest p tbi => exact ih

theorem supersededCode_eq {h : History M W} (hn : NoActivation h) :
    supersededCode h = superseded h := by
  induction h with
  | nil => rfl
  | cons op h ih =>
    cases op with
    | activateFor p m t =>
      funext k
      simp only [supersededCode, superseded, hn.1, ne_eq, not_true_eq_false, and_false, if_false,
        ih hn.2]
    | insert p r tbi => funext k; simp only [supersededCode, superseded, ih hn]
    | withdrawFor p m t => funext k; simp only [supersededCode, superseded, ih hn]
    | withdraw m => funext k; simp only [supersededCode, superseded, ih hn]
    | activate m => funext k; simp only [supersededCode, superseded, ih hn]
    | calcBest p tbi => funext k; simp only [supersededCode, superseded, ih hn]

theorem lsmOf_memoryOnly (h : History M W) : lsmOf .memoryOnly h = [] := by
  induction h with
  | nil => rfl
  | cons op h ih => cases op <;> exact ih

/-! ## Every persisted entry is a record of a prefix -/

/-- Entries are records when key and value are put together. -/
def Records (W : Nat) (t : Lsm) : Prop :=
  ∀ x ∈ t, ∃ (k : Tag W) (b : Bytes), x.1 ++ x.2 = k.key ++ b

theorem LRep.records {g : Tag W → Option Bytes} {t : Lsm} (h : LRep g t) : Records W t := by
  intro x hx
  obtain ⟨k, _, hk⟩ := (h.mem x).1 hx
  exact ⟨k, x.2, by rw [hk]⟩

theorem PoRep.records {f : Prefix W → Mui → Option Kept} {t : Lsm} (h : PoRep f t) :
    Records W t := by
  intro x hx
  obtain ⟨e, _, rfl⟩ := (h.mem x).1 hx
  exact ⟨⟨e.pfx, e.mui, e.kept.ltime, e.kept.status⟩, e.kept.bytes, e.enc_bytes⟩

theorem records_lsmOf [Fam W] (st : Strategy) (h : History M W) : Records W (lsmOf st h) := by
  cases st with
  | writeAhead => exact (lrep_writeAhead h).records
  | persistHistory => exact (lrep_persistHistory h).records
  | memoryOnly => rw [lsmOf_memoryOnly]; intro x hx; cases hx
  | persistOnly => exact (poRep_lsmOf h).records

theorem decode_tag [Fam W] (k : Tag W) (b : Bytes) :
    decodeRecord W (k.key ++ b) = some ⟨k.pfx.id, k.mui, k.ltime, k.status, b⟩ :=
  decodeRecord_encode k.pfx.len_lt _ _ _ _

theorem header_tag [Fam W] (k : Tag W) (b : Bytes) :
    decodeHeader W (k.key ++ b) =
      if b = [] then some ⟨k.pfx.id, k.mui, k.ltime, k.status, []⟩ else none := by
  split
  · rename_i c
    subst c
    rw [List.append_nil]
    exact decodeHeader_encode k.pfx.len_lt _ _ _
  · rename_i c
    exact decodeHeader_append _ _ _ _ c

/-! ## The iterator terminates and never panics -/

theorem persistGroup_rest (W : Nat) (o : PrefixId W) (t : Lsm) :
    (persistGroup W o t).2.2.length + (if (persistGroup W o t).2.1.isSome then 1 else 0) ≤ t.length := by
  induction t with
  | nil => simp [persistGroup]
  | cons kv rest ih =>
    unfold persistGroup
    cases hd : decodeHeader W kv.1 with
    | none =>
      simp only [List.length_cons]
      omega
    | some h =>
      simp only
      split
      · simp only [List.length_cons]; omega
      · simp

/-- The kept bytes and the rest of the entries come from the entries. -/
theorem persistGroup_sub (W : Nat) (o : PrefixId W) (t : Lsm) :
    (∀ x ∈ (persistGroup W o t).2.2, x ∈ t) ∧
    (∀ b, (persistGroup W o t).2.1 = some b → ∃ x ∈ t, b = x.1 ++ x.2) ∧
    (∀ b, .ok b ∈ (persistGroup W o t).1 → ∃ x ∈ t, b = x.1 ++ x.2) := by
  induction t with
  | nil => simp [persistGroup]
  | cons kv rest ih =>
    obtain ⟨h1, h2, h3⟩ := ih
    unfold persistGroup
    cases hd : decodeHeader W kv.1 with
    | none =>
      refine ⟨fun x hx => List.mem_cons_of_mem _ (h1 x hx), fun b hb => ?_, fun b hb => ?_⟩
      · obtain ⟨x, hx, e⟩ := h2 b hb; exact ⟨x, List.mem_cons_of_mem _ hx, e⟩
      · simp only [List.mem_cons, reduceCtorEq, false_or] at hb
        obtain ⟨x, hx, e⟩ := h3 b hb; exact ⟨x, List.mem_cons_of_mem _ hx, e⟩
    | some h =>
      simp only
      split
      · refine ⟨fun x hx => List.mem_cons_of_mem _ (h1 x hx), fun b hb => ?_, fun b hb => ?_⟩
        · obtain ⟨x, hx, e⟩ := h2 b hb; exact ⟨x, List.mem_cons_of_mem _ hx, e⟩
        · simp only [List.mem_cons, Except.ok.injEq] at hb
          rcases hb with rfl | hb
          · exact ⟨kv, by simp, rfl⟩
          · obtain ⟨x, hx, e⟩ := h3 b hb; exact ⟨x, List.mem_cons_of_mem _ hx, e⟩
      · refine ⟨fun x hx => List.mem_cons_of_mem _ hx, fun b hb => ?_, fun b hb => by cases hb⟩
        cases hb
        exact ⟨kv, by simp, rfl⟩

/-- With enough rounds the groups are complete; every entry of a group is a
persisted entry. -/
theorem persistIterCollect_some (W : Nat) (T : Lsm) (fuel : Nat) (cur : Option Bytes) (rest : Lsm)
    (hf : rest.length + (if cur.isSome then 1 else 0) < fuel) (hsub : ∀ x ∈ rest, x ∈ T)
    (hcur : ∀ b, cur = some b → ∃ x ∈ T, b = x.1 ++ x.2) :
    ∃ gs, persistIterCollect W fuel cur rest = some gs ∧
      ∀ g ∈ gs, ∀ b, .ok b ∈ g → ∃ x ∈ T, b = x.1 ++ x.2 := by
  induction fuel generalizing cur rest with
  | zero => omega
  | succ fuel ih =>
    -- one round, from the first bytes
    have round : ∀ b rest', rest'.length < fuel → (∃ x ∈ T, b = x.1 ++ x.2) →
        (∀ x ∈ rest', x ∈ T) →
        ∃ gs, (match (match decodeHeader W b with
            | none => ([.error ()], none, rest')
            | some h =>
              let r := persistGroup W h.pfx rest'
              (.ok b :: r.1, r.2) : List (FatalResult Bytes) × Option Bytes × Lsm) with
          | (g, cur', rest') => (persistIterCollect W fuel cur' rest').map (g :: ·)) = some gs ∧
          ∀ g ∈ gs, ∀ b, .ok b ∈ g → ∃ x ∈ T, b = x.1 ++ x.2 := by
      intro b rest' hl hb hs
      cases hd : decodeHeader W b with
      | none =>
        obtain ⟨gs, hgs, hg⟩ := ih none rest' (by simpa using hl) hs (by simp)
        refine ⟨[.error ()] :: gs, by simp [hgs], fun g hgm => ?_⟩
        rcases List.mem_cons.1 hgm with rfl | hgm
        · intro b hb; simp at hb
        · exact hg g hgm
      | some h =>
        obtain ⟨s1, s2, s3⟩ := persistGroup_sub W h.pfx rest'
        have hr := persistGroup_rest W h.pfx rest'
        obtain ⟨gs, hgs, hg⟩ := ih (persistGroup W h.pfx rest').2.1 (persistGroup W h.pfx rest').2.2
          (by omega) (fun x hx => hs x (s1 x hx)) (fun b hb => by
            obtain ⟨x, hx, e⟩ := s2 b hb; exact ⟨x, hs x hx, e⟩)
        refine ⟨(.ok b :: (persistGroup W h.pfx rest').1) :: gs, by simp [hgs], fun g hgm => ?_⟩
        rcases List.mem_cons.1 hgm with rfl | hgm
        · intro b' hb'
          rcases List.mem_cons.1 hb' with hb' | hb'
          · cases hb'; exact hb
          · obtain ⟨x, hx, e⟩ := s3 b' hb'; exact ⟨x, hs x hx, e⟩
        · exact hg g hgm
    unfold persistIterCollect persistIterNext
    cases cur with
    | some b =>
      simp only [Option.map_some]
      exact round b rest (by simpa using hf) (hcur b rfl) hsub
    | none =>
      cases rest with
      | nil => exact ⟨[], by simp, by simp⟩
      | cons kv rest' =>
        simp only [Option.map_some]
        exact round _ rest' (by simpa using hf) ⟨kv, hsub kv (by simp), rfl⟩
          (fun x hx => hsub x (List.mem_cons_of_mem _ hx))

omit [Meta M] in
theorem groupsToPrefix_some {W : Nat} (l : List (FatalResult (PrefixId W × List (Record M))))
    (h : ∀ p rs, .ok (p, rs) ∈ l → ∃ q : Prefix W, p = q.id) :
    ∃ r, groupsToPrefix l = some r := by
  induction l with
  | nil => exact ⟨_, rfl⟩
  | cons a l ih =>
    obtain ⟨r, hr⟩ := ih (fun p rs hp => h p rs (List.mem_cons_of_mem _ hp))
    cases a with
    | error e => exact ⟨.error e :: r, by simp [groupsToPrefix, hr]⟩
    | ok x =>
      obtain ⟨p, rs⟩ := x
      obtain ⟨q, rfl⟩ := h p rs (by simp)
      exact ⟨.ok (q, rs) :: r, by simp [groupsToPrefix, hr, toPrefix_id]⟩

theorem run_persistIter {st : Strategy} (hst : st ≠ .memoryOnly) {s : Rib M W}
    {gs : List (List (FatalResult Bytes))} (hgs : lsmPrefixesIter W s.lsm = some gs)
    {r : List (FatalResult (PrefixRecord M W))}
    (hr : groupsToPrefix (gs.map (persistGroupRecord (M := M) W)) = some r) :
    (ribPersistPrefixesIter (M := M) st).run s = .ok r s := by
  have : ribPersistPrefixesIter (M := M) (W := W) st =
      (Prog.read fun r : Rib M W => lsmPrefixesIter W r.lsm) >>= fun gs =>
      match gs with
      | none => Prog.diverge
      | some gs => Prog.ofOption (groupsToPrefix (gs.map (persistGroupRecord W))) := by
    cases st <;> first | rfl | exact absurd rfl hst
  rw [this, run_bind]
  show Outcome.andThen (.ok (lsmPrefixesIter W s.lsm) s) _ = _
  simp only [Outcome.andThen, hgs, hr]
  rfl

theorem persistIter_some [Fam W] {t : Lsm} (hrec : Records W t) :
    ∃ gs, lsmPrefixesIter W t = some gs ∧
      ∃ r, groupsToPrefix (gs.map (persistGroupRecord (M := M) W)) = some r := by
  unfold lsmPrefixesIter
  obtain ⟨gs, hgs, hg⟩ := persistIterCollect_some W t (t.length + 1) none t (by simp)
    (fun _ h => h) (by simp)
  refine ⟨gs, hgs, groupsToPrefix_some _ fun p rs hp => ?_⟩
  obtain ⟨g, hgm, he⟩ := List.mem_map.1 hp
  unfold persistGroupRecord at he
  split at he
  · rename_i first tl
    obtain ⟨x, hx, rfl⟩ := hg _ hgm first (by simp)
    obtain ⟨k, b, hkb⟩ := hrec x hx
    rw [hkb, decode_tag] at he
    simp only at he
    split at he
    · cases he
    · simp only [Except.ok.injEq, Prod.mk.injEq] at he
      exact ⟨k.pfx, he.1.symm⟩
  · cases he

theorem run_persistIter_ok [Fam W] {st : Strategy} {h : History M W} {s : Rib M W}
    (hi : HInv st h s) : ∃ l, (ribPersistPrefixesIter (M := M) st).run s = .ok l s := by
  obtain ⟨gs, hgs, r, hr⟩ := persistIter_some (M := M) (t := s.lsm) (by rw [hi.lsm]; exact records_lsmOf st h)
  by_cases hst : st = .memoryOnly
  · subst hst; exact ⟨[], rfl⟩
  · exact ⟨r, run_persistIter hst hgs hr⟩

/-! ## What the iterator yields for long keys -/

/-- A persisted record of the strategies with long keys. -/
abbrev LEntry (W : Nat) := Tag W × Bytes

def LEntry.enc (e : LEntry W) : Bytes × Bytes := (e.1.key, e.2)

/-- How the iterator divides the entries: an entry with metadata in front is an
error of its own; otherwise all entries of its prefix that follow are taken. -/
inductive Groups : List (LEntry W) → List (FatalResult (Prefix W × List (LEntry W))) → Prop
  | nil : Groups [] []
  | err (e : LEntry W) (rest) (gs) : e.2 ≠ [] → Groups rest gs →
      Groups (e :: rest) (.error () :: gs)
  | ok (e : LEntry W) (g rest) (gs) : e.2 = [] → (∀ x ∈ g, x.1.pfx = e.1.pfx) →
      (∀ x, rest.head? = some x → x.1.pfx ≠ e.1.pfx) → Groups rest gs →
      Groups (e :: (g ++ rest)) (.ok (e.1.pfx, e :: g) :: gs)

/-- The bytes of a group. -/
def groupBytes : FatalResult (Prefix W × List (LEntry W)) → List (FatalResult Bytes)
  | .error _ => [.error ()]
  | .ok x => x.2.map fun e => .ok (e.1.key ++ e.2)

theorem persistGroup_long [Fam W] (p : Prefix W) (L : List (LEntry W)) :
    ∃ g rest, L = g ++ rest ∧ (∀ x ∈ g, x.1.pfx = p) ∧
      (∀ x, rest.head? = some x → x.1.pfx ≠ p) ∧
      persistGroup W p.id (L.map LEntry.enc) =
        (g.map fun e => .ok (e.1.key ++ e.2), rest.head?.map fun e => e.1.key ++ e.2,
          (rest.tail).map LEntry.enc) := by
  induction L with
  | nil => exact ⟨[], [], rfl, by simp, by simp, rfl⟩
  | cons e L ih =>
    have hd : decodeHeader W e.1.key = some ⟨e.1.pfx.id, e.1.mui, e.1.ltime, e.1.status, []⟩ := by
      have := header_tag e.1 []
      rwa [List.append_nil, if_pos rfl] at this
    simp only [List.map_cons, persistGroup, LEntry.enc, hd]
    by_cases hp : e.1.pfx = p
    · obtain ⟨g, rest, h1, h2, h3, h4⟩ := ih
      refine ⟨e :: g, rest, by rw [h1]; rfl, ?_, h3, ?_⟩
      · intro x hx
        rcases List.mem_cons.1 hx with rfl | hx
        · exact hp
        · exact h2 x hx
      · have h4' : persistGroup W p.id (List.map LEntry.enc L) = _ := h4
        rw [if_pos (by rw [hp]), h4']
        rfl
    · refine ⟨[], e :: L, rfl, by simp, by simpa using hp, ?_⟩
      rw [if_neg (fun c => hp (Prefix.id_inj c))]
      rfl

theorem collect_groups [Fam W] (fuel : Nat) (cur : Option (LEntry W)) (rest : List (LEntry W))
    (hf : rest.length + (if cur.isSome then 1 else 0) < fuel) :
    ∃ gs, Groups (cur.toList ++ rest) gs ∧
      persistIterCollect W fuel (cur.map fun e => e.1.key ++ e.2) (rest.map LEntry.enc) =
        some (gs.map groupBytes) := by
  induction fuel generalizing cur rest with
  | zero => omega
  | succ fuel ih =>
    have round : ∀ (e : LEntry W) rest', rest'.length < fuel →
        ∃ gs, Groups (e :: rest') gs ∧
          (match (match decodeHeader W (e.1.key ++ e.2) with
            | none => ([.error ()], none, rest'.map LEntry.enc)
            | some h =>
              let r := persistGroup W h.pfx (rest'.map LEntry.enc)
              (.ok (e.1.key ++ e.2) :: r.1, r.2) : List (FatalResult Bytes) × Option Bytes × Lsm) with
          | (g, cur', rest') => (persistIterCollect W fuel cur' rest').map (g :: ·)) =
            some (gs.map groupBytes) := by
      intro e rest' hl
      by_cases hb : e.2 = []
      · simp only [header_tag, hb, if_true]
        obtain ⟨g, r, h1, h2, h3, h4⟩ := persistGroup_long e.1.pfx rest'
        rw [h4]
        obtain ⟨gs, hgs, hc⟩ := ih r.head? r.tail (by
          subst h1
          cases r with
          | nil => simp at hl ⊢; omega
          | cons a r => simp at hl ⊢; omega)
        have hr : r.head?.toList ++ r.tail = r := by cases r <;> rfl
        rw [hr] at hgs
        refine ⟨.ok (e.1.pfx, e :: g) :: gs, ?_, ?_⟩
        · rw [h1]; exact Groups.ok e g r gs hb h2 h3 hgs
        · simp only [hc, Option.map_some, List.map_cons, groupBytes, hb]
      · simp only [header_tag, hb, if_false]
        obtain ⟨gs, hgs, hc⟩ := ih none rest' (by simpa using hl)
        refine ⟨.error () :: gs, Groups.err e rest' gs hb (by simpa using hgs), ?_⟩
        simp only [Option.map_none] at hc
        simp only [hc, Option.map_some, List.map_cons, groupBytes]
    unfold persistIterCollect persistIterNext
    cases cur with
    | some e =>
      obtain ⟨gs, h1, h2⟩ := round e rest (by simpa using hf)
      exact ⟨gs, h1, h2⟩
    | none =>
      cases rest with
      | nil => exact ⟨[], Groups.nil, rfl⟩
      | cons e rest' =>
        obtain ⟨gs, h1, h2⟩ := round e rest' (by simpa using hf)
        exact ⟨gs, h1, h2⟩

/-- The records of a group. -/
def groupRecords : FatalResult (Prefix W × List (LEntry W)) → FatalResult (PrefixRecord M W)
  | .error _ => .error ()
  | .ok x => .ok (x.1, x.2.map fun e => e.1.record e.2)

theorem groups_cons {L : List (LEntry W)} {gs} (h : Groups L gs) :
    ∀ p g, .ok (p, g) ∈ gs → g ≠ [] ∧ (∀ x ∈ g, x.1.pfx = p) ∧ (∀ x ∈ g, x ∈ L) ∧
      ∃ e, g.head? = some e ∧ e.2 = [] := by
  induction h with
  | nil => intro p g hg; cases hg
  | err e rest gs _ _ ih =>
    intro p g hg
    simp only [List.mem_cons, reduceCtorEq, false_or] at hg
    obtain ⟨h1, h2, h3, h4⟩ := ih p g hg
    exact ⟨h1, h2, fun x hx => List.mem_cons_of_mem _ (h3 x hx), h4⟩
  | ok e g' rest gs he hg' _ _ ih =>
    intro p g hg
    simp only [List.mem_cons, Except.ok.injEq, Prod.mk.injEq] at hg
    rcases hg with ⟨rfl, rfl⟩ | hg
    · refine ⟨by simp, ?_, ?_, e, rfl, he⟩
      · intro x hx
        rcases List.mem_cons.1 hx with rfl | hx
        · rfl
        · exact hg' x hx
      · intro x hx
        rcases List.mem_cons.1 hx with rfl | hx
        · simp
        · simp [hx]
    · obtain ⟨h1, h2, h3, h4⟩ := ih p g hg
      refine ⟨h1, h2, fun x hx => ?_, h4⟩
      have := h3 x hx
      simp [this]

theorem groupRecord_bytes [Fam W] (L : List (LEntry W)) {gs} (h : Groups L gs) :
    groupsToPrefix ((gs.map groupBytes).map (persistGroupRecord (M := M) W)) =
      some (gs.map groupRecords) := by
  induction h with
  | nil => rfl
  | err e rest gs he _ ih =>
    simp only [List.map_cons, groupBytes, persistGroupRecord, groupsToPrefix, ih, groupRecords,
      Option.map_some]
  | ok e g rest gs he hg _ _ ih =>
    have hrec : persistGroupRecord (M := M) W (groupBytes (.ok (e.1.pfx, e :: g))) =
        .ok (e.1.pfx.id, (e :: g).map fun e => e.1.record e.2) := by
      unfold persistGroupRecord groupBytes
      simp only [List.map_cons, decode_tag]
      rw [if_neg]
      · congr 2
        simp only [List.filterMap_cons, decode_tag, Option.map_some]
        congr 1
        induction g with
        | nil => rfl
        | cons a g ihg =>
          simp only [List.map_cons, List.filterMap_cons, decode_tag, Option.map_some]
          rw [ihg (fun x hx => hg x (List.mem_cons_of_mem _ hx))]
          rfl
      · simp [List.any_eq_true]
    simp only [List.map_cons, hrec, groupsToPrefix, ih, groupRecords, toPrefix_id, Option.bind_some,
      Option.map_some]

/-! ## Order of the keys -/

omit [Meta M] in
theorem bytesLt_append {a b c d : Bytes} (hl : a.length = b.length)
    (h : bytesLt (a ++ c) (b ++ d) = true) : a = b ∨ bytesLt a b = true := by
  induction a generalizing b with
  | nil =>
    cases b with
    | nil => exact .inl rfl
    | cons y b => simp at hl
  | cons x a ih =>
    cases b with
    | nil => simp at hl
    | cons y b =>
      simp only [List.cons_append, bytesLt] at h ⊢
      split at h
      · rename_i c
        subst c
        rcases ih (by simpa using hl) h with rfl | h'
        · exact .inl rfl
        · exact .inr (by simp [h'])
      · rename_i c
        exact .inr (by simp [c]; simpa using h)

/-- The prefixes of keys in order are in order. -/
theorem key_lt_pfx [Fam W] {a b : Tag W} (h : bytesLt a.key b.key = true) :
    a.pfx = b.pfx ∨ bytesLt (prefixBytes a.pfx.id) (prefixBytes b.pfx.id) = true := by
  unfold Tag.key longKeyBytes shortKeyBytes at h
  rw [List.append_assoc, List.append_assoc] at h
  rcases bytesLt_append (by simp) h with h | h
  · exact .inl (Prefix.id_inj (prefixBytes_inj a.pfx.len_lt b.pfx.len_lt h))
  · exact .inr h

/-- Entries in the order of their keys. -/
def KeySorted (L : List (LEntry W)) : Prop := L.Pairwise fun a b => bytesLt a.1.key b.1.key = true

theorem after_group [Fam W] {p : Prefix W} {g rest : List (LEntry W)} (hs : KeySorted (g ++ rest))
    (hne : g ≠ []) (hg : ∀ x ∈ g, x.1.pfx = p) (hr : ∀ x, rest.head? = some x → x.1.pfx ≠ p) :
    ∀ x ∈ rest, x.1.pfx ≠ p := by
  obtain ⟨a, ha⟩ := List.exists_mem_of_ne_nil g hne
  obtain ⟨_, hrs, hcross⟩ := List.pairwise_append.1 hs
  cases rest with
  | nil => intro x hx; cases hx
  | cons y rest =>
    have hy := hr y rfl
    intro x hx
    rcases List.mem_cons.1 hx with rfl | hx
    · exact hy
    · intro hxp
      have h1 := hcross a ha y (by simp)
      have h2 := (List.pairwise_cons.1 hrs).1 x hx
      have hap := hg a ha
      rcases key_lt_pfx h1 with e | h1
      · exact hy (e ▸ hap)
      · rcases key_lt_pfx h2 with e | h2
        · exact hy (e.trans hxp)
        · rw [hap] at h1
          rw [hxp] at h2
          have := bytesLt_trans h1 h2
          rw [bytesLt_irrefl] at this
          cases this

/-- If the first entry of every prefix is without metadata, the groups are the
prefixes with all their entries. -/
theorem groups_complete [Fam W] {L : List (LEntry W)} {gs} (h : Groups L gs) (hs : KeySorted L)
    (hfirst : ∀ e ∈ L, (∀ x ∈ L, x.1.pfx = e.1.pfx → x ≠ e → bytesLt e.1.key x.1.key = true) →
      e.2 = []) :
    ∃ l : List (Prefix W × List (LEntry W)), gs = l.map .ok ∧ (l.map Prod.fst).Nodup ∧
      (∀ q, (∃ g, (q, g) ∈ l) ↔ ∃ e ∈ L, e.1.pfx = q) ∧
      ∀ q g, (q, g) ∈ l → g.Nodup ∧ ∀ x, x ∈ g ↔ x ∈ L ∧ x.1.pfx = q := by
  induction h with
  | nil => exact ⟨[], rfl, by simp, by simp, by simp⟩
  | err e rest gs he _ _ =>
    refine absurd (hfirst e (by simp) fun x hx _ hne => ?_) he
    rcases List.mem_cons.1 hx with rfl | hx
    · exact absurd rfl hne
    · exact (List.pairwise_cons.1 hs).1 x hx
  | ok e g rest gs he hg hr hG ih =>
    have hs' : KeySorted ((e :: g) ++ rest) := hs
    have hall : ∀ x ∈ e :: g, x.1.pfx = e.1.pfx := by
      intro x hx
      rcases List.mem_cons.1 hx with rfl | hx
      · rfl
      · exact hg x hx
    have hafter := after_group hs' (by simp) hall hr
    obtain ⟨hsg, hsr, _⟩ := List.pairwise_append.1 hs'
    obtain ⟨l, h1, h2, h3, h4⟩ := ih hsr (fun x hx hmin => hfirst x (by simp [hx]) fun y hy hyp hne => by
      have hy' : y ∈ (e :: g) ++ rest := hy
      rcases List.mem_append.1 hy' with hy | hy
      · exact absurd ((hall y hy) ▸ hyp.symm) (hafter x hx)
      · exact hmin y hy hyp hne)
    refine ⟨(e.1.pfx, e :: g) :: l, by simp [h1], ?_, ?_, ?_⟩
    · simp only [List.map_cons, List.nodup_cons]
      refine ⟨fun hm => ?_, h2⟩
      obtain ⟨⟨q, g'⟩, hx, hq⟩ := List.mem_map.1 hm
      obtain ⟨e', he', hp⟩ := (h3 q).1 ⟨g', hx⟩
      exact hafter e' he' (hp.trans hq)
    · intro q
      constructor
      · rintro ⟨g', hg'⟩
        rcases List.mem_cons.1 hg' with hg' | hg'
        · cases hg'; exact ⟨e, by simp, rfl⟩
        · obtain ⟨e', he', hp⟩ := (h3 q).1 ⟨g', hg'⟩
          exact ⟨e', by simp [he'], hp⟩
      · rintro ⟨e', he', hp⟩
        have he' : e' ∈ (e :: g) ++ rest := he'
        rcases List.mem_append.1 he' with he' | he'
        · exact ⟨e :: g, by rw [← hp, hall e' he']; simp⟩
        · obtain ⟨g', hg'⟩ := (h3 q).2 ⟨e', he', hp⟩
          exact ⟨g', by simp [hg']⟩
    · intro q g' hg'
      rcases List.mem_cons.1 hg' with hg' | hg'
      · cases hg'
        refine ⟨?_, fun x => ⟨fun hx => ⟨?_, hall x hx⟩, fun hx => ?_⟩⟩
        · refine List.Pairwise.imp (fun {a b} hab => ?_) hsg
          rintro rfl
          rw [bytesLt_irrefl] at hab; cases hab
        · exact List.mem_append_left _ hx
        · have hx1 : x ∈ (e :: g) ++ rest := hx.1
          rcases List.mem_append.1 hx1 with h | h
          · exact h
          · exact absurd hx.2 (hafter x h)
      · obtain ⟨h5, h6⟩ := h4 q g' hg'
        refine ⟨h5, fun x => ?_⟩
        rw [h6]
        constructor
        · rintro ⟨h7, h8⟩; exact ⟨by simp [h7], h8⟩
        · rintro ⟨h7, h8⟩
          have h7 : x ∈ (e :: g) ++ rest := h7
          rcases List.mem_append.1 h7 with h | h
          · obtain ⟨e', he', hp⟩ := (h3 q).1 ⟨g', hg'⟩
            exact absurd (hp.trans (h8.symm.trans (hall x h))) (hafter e' he')
          · exact ⟨h, h8⟩

/-- The persisted content as a list of entries. -/
theorem LRep.list [Fam W] {g : Tag W → Option Bytes} {t : Lsm} (h : LRep g t) :
    ∃ L : List (LEntry W), t = L.map LEntry.enc ∧ KeySorted L ∧
      ∀ e : LEntry W, e ∈ L ↔ g e.1 = some e.2 := by
  obtain ⟨L, hL, hP⟩ := exists_list_map (f := LEntry.enc (W := W))
    (P := fun e => g e.1 = some e.2) (l := t) (by
      intro x hx
      obtain ⟨k, hk, he⟩ := (h.mem x).1 hx
      exact ⟨(k, x.2), hk, Prod.ext he rfl⟩)
  refine ⟨L, hL.symm, ?_, fun e => ⟨hP e, fun he => ?_⟩⟩
  · have := h.sorted
    rw [← hL] at this
    exact List.pairwise_map.1 this
  · have : e.enc ∈ L.map LEntry.enc := by
      rw [hL, h.mem]; exact ⟨e.1, he, rfl⟩
    obtain ⟨e', he', heq⟩ := List.mem_map.1 this
    have hk := Tag.key_inj (congrArg Prod.fst heq)
    have hb : e'.enc.2 = e.enc.2 := by rw [heq]
    have : e' = e := Prod.ext hk hb
    exact this ▸ he'

/-- The answer of `persist_prefixes_iter` for content with long keys. -/
theorem run_persistIter_long [Fam W] {st : Strategy} (hst : st ≠ .memoryOnly) {s : Rib M W}
    {g : Tag W → Option Bytes} (h : LRep g s.lsm) :
    ∃ L gs, KeySorted L ∧ (∀ e : LEntry W, e ∈ L ↔ g e.1 = some e.2) ∧ Groups L gs ∧
      (ribPersistPrefixesIter (M := M) st).run s = .ok (gs.map groupRecords) s := by
  obtain ⟨L, hL, hs, hm⟩ := h.list
  obtain ⟨gs, hG, hc⟩ := collect_groups (s.lsm.length + 1) none L (by rw [hL]; simp)
  refine ⟨L, gs, hs, hm, hG, run_persistIter hst (gs := gs.map groupBytes) ?_ ?_⟩
  · unfold lsmPrefixesIter
    rw [← hc]
    conv => lhs; rw [hL]
    rw [hL]; rfl
  · exact groupRecord_bytes L hG

end Rotonda
