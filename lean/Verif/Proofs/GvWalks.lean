import Verif.Proofs.ReadsQueries
import Verif.Spec.Scan

/-!
# What queries have read, with any way to look up the records of a prefix
-/

namespace Rotonda

open Prog Spec

variable {M : Type} [Meta M] {W : Nat}

/-- A stretch of a run during which a query runs that looks up records with `gv`. -/
structure Trip (T : PrefixId W → Mui → Prop) (f : Facts M W) (gv : GetValue M W) (mui : Option Mui)
    (iw : Bool) (S : ℕ → Rib M W) (k n : ℕ) : Prop where
  value : ∀ k' n' (p : Prefix W) r, k ≤ k' → n' ≤ n → Reads S (gv p.id) k' r n' →
    ∃ v, r = .ok v ∧ f.read mui iw p v
  some_ne : ∀ p, ¬ f.read mui iw p (some [])
  span : ∀ p : Prefix W, Span T p.id (f.calm p) S k n
  seen : ∀ q : Prefix W, Seen (S n).tree.slots q.id → f.begun q
  done : ∀ q, f.done q → 0 < q.len ∧ Settled (S k).tree.slots q.id
  gone : ∀ j m, k ≤ j → j ≤ n → (S j).tree.wd.set m = true → f.gone m

section
variable {T : PrefixId W → Mui → Prop} {f : Facts M W} {gv : GetValue M W} {mui : Option Mui}
  {iw : Bool} {S : ℕ → Rib M W} {k n : ℕ} (h : Trip T f gv mui iw S k n)
include h

theorem reads_gvItem {k' n' : ℕ} (hk : k ≤ k') (hn : n' ≤ n) {q : PrefixId W}
    {b : Option (FatalResult (PrefixRecord M W))}
    (hr : Reads S (gvItem gv q) k' b n') :
    ∃ x : Prefix W × Option (List (Record M)), x.1.id = q ∧ b = x.2.map (fun rs => .ok (x.1, rs)) ∧
      f.read mui iw x.1 x.2 := by
  unfold gvItem at hr
  obtain ⟨r, l, h1, h2⟩ := reads_bind.1 hr
  obtain ⟨pfx, l2, h3, h4⟩ := reads_bind.1 h2
  obtain ⟨h3, h3'⟩ := reads_ofOption.1 h3
  obtain rfl := toPrefix_some h3
  have e4 := h4.le
  obtain ⟨v, rfl, hv⟩ := h.value _ _ _ _ hk (by omega) h1
  refine ⟨(pfx, v), rfl, ?_, hv⟩
  cases v with
  | none => exact h4.1.symm
  | some rs => exact h4.1.symm

theorem reads_gvPfxItem {k' n' : ℕ} (hk : k ≤ k') (hn : n' ≤ n) {q : PrefixId W}
    {b : FatalResult (PrefixRecord M W)} (hr : Reads S (gvPfxItem gv q) k' b n') :
    ∃ x : Prefix W × Option (List (Record M)), x.1.id = q ∧ b = .ok (x.1, x.2.getD []) ∧
      f.read mui iw x.1 x.2 := by
  unfold gvPfxItem at hr
  obtain ⟨pfx, l, h3, h2⟩ := reads_bind.1 hr
  obtain ⟨h3, h3'⟩ := reads_ofOption.1 h3
  obtain rfl := toPrefix_some h3
  obtain ⟨r, l2, h1, h4⟩ := reads_bind.1 h2
  have e4 := h4.le
  obtain ⟨v, rfl, hv⟩ := h.value _ _ _ _ (hk.trans h3') (by omega) h1
  exact ⟨(pfx, v), rfl, h4.1.symm, hv⟩

theorem reads_gvSameItem {k' n' : ℕ} (hk : k ≤ k') (hn : n' ≤ n) {p : Prefix W} {q : PrefixId W}
     {b : FatalResult (Option (PrefixRecord M W))}
    (hr : Reads S (gvSameItem gv p.id q) k' b n') :
    ∃ (q' : Prefix W) (v : Option (List (Record M))), b = .ok (v.map fun rs => (q', rs)) ∧
      f.read mui iw p v := by
  unfold gvSameItem at hr
  obtain ⟨r, l, h1, h2⟩ := reads_bind.1 hr
  obtain ⟨pfx, l2, h3, h4⟩ := reads_bind.1 h2
  obtain ⟨h3, h3'⟩ := reads_ofOption.1 h3
  have e4 := h4.le
  obtain ⟨v, rfl, hv⟩ := h.value _ _ _ _ hk (by omega) h1
  exact ⟨pfx, v, h4.1.symm, hv⟩

theorem reads_gvValues  : ∀ (ps : List (PrefixId W)) (k' n' : ℕ)
    (_ : k ≤ k') (_ : n' ≤ n) (l : List (FatalResult (PrefixRecord M W)))
    (_ : Reads S (gvValues gv ps) k' l n'),
    ∃ vis : List (Prefix W × Option (List (Record M))), ps = vis.map (fun x => x.1.id) ∧
      l = (withRecords vis).map .ok ∧ ∀ x ∈ vis, f.read mui iw x.1 x.2 := by
  intro ps
  induction ps with
  | nil => rintro k' n' _ _ l ⟨rfl, _⟩; exact ⟨[], rfl, rfl, by simp⟩
  | cons p ps ih =>
    intro k' n' hk hn l hr
    unfold gvValues at hr
    obtain ⟨r, l1, h1, h2⟩ := reads_bind.1 hr
    obtain ⟨pfx, l2, h3, h4⟩ := reads_bind.1 h2
    obtain ⟨h3, h3'⟩ := reads_ofOption.1 h3
    obtain rfl := toPrefix_some h3
    obtain ⟨rest, l3, h5, h6⟩ := reads_bind.1 h4
    have e1 := h1.le
    have e5 := h5.le
    have e6 := h6.le
    obtain ⟨v, rfl, hv⟩ := h.value _ _ _ _ hk (by omega) h1
    obtain ⟨vis, rfl, rfl, hvis⟩ := ih l2 l3 (by omega) (by omega) rest h5
    refine ⟨(pfx, v) :: vis, rfl, ?_, List.forall_mem_cons.2 ⟨hv, hvis⟩⟩
    cases v with
    | none => exact h6.1.symm
    | some rs => exact h6.1.symm

theorem reads_gvFill  {o : Option (List (PrefixId W))} {k' n' : ℕ}
    (hk : k ≤ k') (hn : n' ≤ n) {r : FatalResult (Option (List (PrefixRecord M W)))}
    (hr : Reads S (gvFill gv o) k' r n') :
    (o = none ∧ r = .ok none) ∨ ∃ vis : List (Prefix W × Option (List (Record M))),
      o = some (vis.map fun x => x.1.id) ∧ r = .ok (some (withRecords vis)) ∧
        ∀ x ∈ vis, f.read mui iw x.1 x.2 := by
  cases o with
  | none => exact .inl ⟨rfl, hr.1.symm⟩
  | some ps =>
    unfold gvFill at hr
    obtain ⟨l, l1, h1, h2⟩ := reads_bind.1 hr
    have e2 := h2.le
    obtain ⟨vis, rfl, rfl, hvis⟩ := reads_gvValues h ps k' l1 hk (by omega) l h1
    rw [collectFatal_ok] at h2
    exact .inr ⟨vis, rfl, h2.1.symm, hvis⟩

theorem reads_gvFound  {ty : MatchType} {o : Option (PrefixId W)}
    {k' n' : ℕ} (hk : k ≤ k') (hn : n' ≤ n) {r : MatchType × Option (Prefix W) × List (Record M)}
    (hr : Reads S (gvFound gv ty o) k' r n') :
    ∃ x : Option (Prefix W × Option (List (Record M))), o = x.map (fun y => y.1.id) ∧
      r.2 = (x.bind (fun y => y.2.map fun _ => y.1), (x.bind Prod.snd).getD []) ∧
      ∀ y, x = some y → f.read mui iw y.1 y.2 := by
  cases o with
  | none => exact ⟨none, rfl, by rw [← hr.1]; rfl, by simp⟩
  | some q =>
    unfold gvFound at hr
    obtain ⟨pfx, l, h3, h2⟩ := reads_bind.1 hr
    obtain ⟨h3, h3'⟩ := reads_ofOption.1 h3
    obtain rfl := toPrefix_some h3
    obtain ⟨v, l2, h1, h4⟩ := reads_bind.1 h2
    have e4 := h4.le
    obtain ⟨v, rfl, hv⟩ := h.value _ _ _ _ (hk.trans h3') (by omega) h1
    refine ⟨some (pfx, v), rfl, ?_, fun y hy => by cases hy; exact hv⟩
    cases v with
    | none => rw [← h4.1]; rfl
    | some rs =>
      cases rs with
      | nil =>
        exact (h.some_ne _ hv).elim
      | cons x xs => rw [← h4.1]; rfl

theorem reads_gvFromCommon {p : Prefix W}
    {walk : Prog (Rib M W) (List (FatalResult (Option (PrefixRecord M W))))}
    (hw : ∀ k' n' l, k ≤ k' → n' ≤ n → Reads S walk k' l n' → ∀ b ∈ l,
      ∃ (q' : Prefix W) (v : Option (List (Record M))), b = .ok (v.map fun rs => (q', rs)) ∧
        f.read mui iw p v)
    {r : FatalResult (Option (Prefix W) × List (Record M) × Option (List (PrefixRecord M W)))}
    {k' n' : ℕ} (hk : k ≤ k') (hn : n' ≤ n)
    (hr : Reads S (gvFromCommon gv p.id mui walk) k' r n') :
    ∃ pfx v set, r = .ok (pfx, v.getD [], set) ∧ f.read mui iw p v ∧
      ∀ y ∈ set.getD [], f.read mui iw p (some y.2) := by
  unfold gvFromCommon at hr
  obtain ⟨c, l1, h1, h2⟩ := reads_bind.1 hr
  have e1 := h1.le
  have hend : ∀ (pfx : Option (Prefix W)) (l2 : ℕ), l1 ≤ l2 → Reads S (do
      match ← gv p.id with
      | .error e => return .error e
      | .ok r =>
        let l ← walk
        match collectFatalOption l with
        | .error e => return .error e
        | .ok set => return (.ok (pfx, r.getD [], set) : FatalResult _)) l2 r n' →
      ∃ pfx v set, r = .ok (pfx, v.getD [], set) ∧ f.read mui iw p v ∧
        ∀ y ∈ set.getD [], f.read mui iw p (some y.2) := by
    intro pfx l2 hl2 h4
    obtain ⟨v, l3, h5, h6⟩ := reads_bind.1 h4
    have e5 := h5.le
    have e6 := h6.le
    obtain ⟨v, rfl, hv⟩ := h.value _ _ _ _ (by omega) (by omega) h5
    obtain ⟨l, l4, h7, h8⟩ := reads_bind.1 h6
    have e7 := h7.le
    have e8 := h8.le
    have hl := hw l3 l4 l (by omega) (by omega) h7
    have key : ∃ set, collectFatalOption l = .ok set ∧
        ∀ y ∈ set.getD [], f.read mui iw p (some y.2) := by
      clear h7 h8
      induction l with
      | nil => exact ⟨some [], rfl, by simp⟩
      | cons b l ih =>
        obtain ⟨q', w, rfl, hw⟩ := hl b (by simp)
        obtain ⟨set, hset, hall⟩ := ih (fun x hx => hl x (List.mem_cons_of_mem _ hx))
        cases w with
        | none => exact ⟨none, rfl, by simp⟩
        | some rs =>
          cases set with
          | none => exact ⟨none, by simp [collectFatalOption, hset], by simp⟩
          | some as =>
            refine ⟨some ((q', rs) :: as), by simp [collectFatalOption, hset], ?_⟩
            intro y hy
            rcases List.mem_cons.1 hy with rfl | hy
            · exact hw
            · exact hall y hy
    obtain ⟨set, hset, hall⟩ := key
    rw [hset] at h8
    exact ⟨pfx, v, set, h8.1.symm, hv, hall⟩
  cases c with
  | false =>
    simp only [if_true] at h2
    obtain ⟨q, l2, h3, h4⟩ := reads_bind.1 h2
    exact hend q l2 h3.le h4
  | true => exact hend none l1 (Nat.le_refl _) h2

/-! ## Queries -/

variable [Fam W]

/-- Iterations over more specifics. -/
theorem Trip.eachMore {fuel : Nat} (hf : iterFuel W ≤ fuel) (p : Prefix W) {β : Type}
    (body : PrefixId W → Prog (Rib M W) β) (g : Prefix W × Option (List (Record M)) → β)
    (hbody : ∀ k' n' q b, k ≤ k' → n' ≤ n → Reads S (body q) k' b n' →
      ∃ x : Prefix W × Option (List (Record M)), x.1.id = q ∧ b = g x ∧ f.read mui iw x.1 x.2)
    {bs : List β} (hr : Reads S (eachMore fuel p.id body) k bs n) :
    ∃ vis, bs = vis.map g ∧ f.More mui iw p vis := by
  obtain ⟨out, h1, h2⟩ := reads_eachMore hr
  obtain ⟨vis, rfl, rfl, hP⟩ := vis_of_items h2 (g := g) (P := fun x => f.read mui iw x.1 x.2)
    (by rintro q b ⟨k', n', h1, h2, h3⟩; exact hbody k' n' q b h1 h2 h3)
  obtain ⟨hnd, hsound, hcompl⟩ := (h.span p).more p.clean hf h1
  refine ⟨vis, rfl, ⟨nodup_fst hnd, fun x hx => ?_, hP⟩, fun x hx => ?_, ?_⟩
  · exact h.seen x.1 (hsound _ (List.mem_map.2 ⟨x, hx, rfl⟩)).2.2
  · obtain ⟨⟨_, e2, e3⟩, _⟩ := hsound _ (List.mem_map.2 ⟨x, hx, rfl⟩)
    exact covers_trunc'.2 ⟨e2, e3⟩
  · intro hq hW q hd hcov
    obtain ⟨c1, c2⟩ := covers_trunc'.1 hcov
    obtain ⟨x, hx, hid⟩ := List.mem_map.1 (hcompl hq q.id (h.done q hd).2 ⟨hW, c1, c2⟩)
    obtain rfl := Prefix.id_inj hid
    exact ⟨x.2, hx⟩

omit [Fam W] in
/-- The less specifics that were found. -/
theorem Trip.lesser (p : Prefix W) {vis : List (Prefix W × Option (List (Record M)))} {ls : List ℕ}
    (hvis : vis.map (fun x => x.1.id) = ls.map p.id.truncateTo)
    (hL : Lesser (S k).tree.slots p.id p.len ls (S n).tree.slots)
    (hP : ∀ x ∈ vis, f.read mui iw x.1 x.2) : f.Less mui iw p vis := by
  have hnd : (ls.map p.id.truncateTo).Nodup := by
    rw [List.nodup_iff_pairwise_ne, List.pairwise_map]
    refine hL.desc.imp fun {a b} hab h => ?_
    have := congrArg PrefixId.len h
    simp only [PrefixId.truncateTo] at this
    omega
  have hmem : ∀ x ∈ vis, ∃ l ∈ ls, p.id.truncateTo l = x.1.id := fun x hx =>
    List.mem_map.1 (hvis ▸ List.mem_map.2 ⟨x, hx, rfl⟩)
  refine ⟨⟨nodup_fst (hvis ▸ hnd), fun x hx => ?_, hP⟩, fun x hx => ?_, ?_⟩
  · obtain ⟨l, hl, hlx⟩ := hmem x hx
    exact h.seen x.1 (hlx ▸ hL.sound l hl)
  · obtain ⟨l, hl, hlx⟩ := hmem x hx
    have hlen : x.1.len = l := by rw [show x.1.len = x.1.id.len from rfl, ← hlx]; rfl
    have hlt : x.1.len < p.len := by rw [hlen]; exact (hL.range l hl).2
    exact ⟨covers_trunc.2 ⟨Nat.le_of_lt hlt, by rw [hlen, hlx]⟩, fun he => by rw [he] at hlt; omega⟩
  · intro q hd hcov hne
    obtain ⟨h0, hset⟩ := h.done q hd
    obtain ⟨c1, c2⟩ := covers_trunc.1 hcov
    have hlt : q.len < p.len := by
      rcases Nat.lt_or_ge q.len p.len with hlt | hge
      · exact hlt
      · have hle : q.len = p.len := by omega
        exact (hne (Prefix.id_inj (by rw [← c2, hle]; exact truncate_self p.clean))).elim
    have := hL.complete q.len h0 hlt (by rw [c2]; exact ⟨h0, hset.pfx⟩)
    have hq : q.id ∈ vis.map (fun x => x.1.id) := by
      rw [hvis]; exact List.mem_map.2 ⟨q.len, this, c2⟩
    obtain ⟨x, hx, hid⟩ := List.mem_map.1 hq
    obtain rfl := Prefix.id_inj hid
    exact ⟨x.2, hx⟩

theorem Trip.less {p : Prefix W} {a : List (FatalResult (PrefixRecord M W))}
    (hr : Reads S (gvLessIter gv p.id) k a n) :
    ∃ vis, a = (withRecords vis).map .ok ∧ f.Less mui iw p vis := by
  unfold gvLessIter at hr
  obtain ⟨l, n', h1, h2⟩ := reads_bind.1 hr
  obtain ⟨rfl, h2⟩ := h2
  obtain ⟨out, h3, h4⟩ := reads_lazily _ _ _ _ _ (h1.mono (Nat.le_refl k) h2)
  obtain ⟨vis, rfl, rfl, hP⟩ := vis_of_items h4
    (g := fun x => x.2.map fun rs => .ok (x.1, rs)) (P := fun x => f.read mui iw x.1 x.2)
    (by rintro q b ⟨k', n', h1, h2, h3⟩; exact reads_gvItem h h1 h2 h3)
  obtain ⟨ls, hls, hL⟩ := (h.span p).less p.clean h3
  exact ⟨vis, withRecords_map vis, h.lesser p hls hL hP⟩

theorem Trip.moreIter {fuel : Nat} (hf : iterFuel W ≤ fuel) {p : Prefix W}
    {a : List (FatalResult (PrefixRecord M W))} {k' : ℕ} (hk : k ≤ k')
    (hr : Reads S (gvMoreIter gv fuel p.id) k' a n) :
    ∃ vis, a = (withRecords vis).map .ok ∧ f.More mui iw p vis := by
  obtain ⟨l, n', h1, h2⟩ := reads_bind.1 (hr.mono hk (Nat.le_refl n))
  obtain ⟨rfl, h2⟩ := h2
  obtain ⟨vis, rfl, h3⟩ := h.eachMore hf p (gvItem gv) (fun x => x.2.map fun rs => .ok (x.1, rs))
    (fun k2 n2 q b e1 e2 e3 => reads_gvItem h e1 e2 e3) (h1.mono (Nat.le_refl _) h2)
  exact ⟨vis, withRecords_map vis, h3⟩

omit [Fam W] in
theorem Trip.isWithdrawn {m : Mui} {k' n' : ℕ} (hk : k ≤ k') (hn : n' ≤ n)
    (hr : Reads S (ribMuiIsWithdrawn m) k' true n') : f.gone m := by
  unfold ribMuiIsWithdrawn at hr
  obtain ⟨bs, l', ⟨n1, g1, g2, g3⟩, g4, g5⟩ := reads_bind.1 hr
  refine h.gone n1 m (hk.trans g1) (by omega) ?_
  rw [← g4, ← g2]; rfl

theorem Trip.more {fuel : Nat} (hf : iterFuel W ≤ fuel) {p : Prefix W}
    {a : List (FatalResult (PrefixRecord M W))} {k' : ℕ} (hk : k ≤ k')
    (hr : Reads S (gvMoreChecked gv fuel p.id mui iw) k' a n) :
    (∃ m, mui = some m ∧ iw = false ∧ f.gone m ∧ a = []) ∨
      ∃ vis, a = (withRecords vis).map .ok ∧ f.More mui iw p vis := by
  unfold gvMoreChecked at hr
  cases mui with
  | none => exact .inr (h.moreIter hf hk hr)
  | some m =>
    cases iw with
    | true => exact .inr (h.moreIter hf hk hr)
    | false =>
      simp only [if_true] at hr
      obtain ⟨b, l, h1, h2⟩ := reads_bind.1 hr
      have e1 := h1.le
      have e2 := h2.le
      cases b with
      | true => exact .inl ⟨m, rfl, rfl, h.isWithdrawn hk e2 h1, h2.1.symm⟩
      | false => exact .inr (h.moreIter hf (hk.trans e1) h2)

omit h [Meta M] in
theorem root_of_len (r : Prefix W) (hr : r.len = 0) : r = Prefix.root W := by
  have h1 : Covers (Prefix.root W) r := covers_root r
  obtain ⟨_, c2⟩ := covers_trunc.1 h1
  refine (Prefix.id_inj ?_)
  rw [← c2, show (Prefix.root W).len = r.id.len from hr.symm]
  exact (truncate_self r.clean).symm

theorem Trip.all {fuel : Nat} (hf : iterFuel W ≤ fuel) {a : List (FatalResult (PrefixRecord M W))}
    (hr : Reads S (gvPrefixesIter gv fuel) k a n) :
    ∃ vis, a = vis.map (fun x => .ok (x.1, x.2.getD [])) ∧
      ∀ r : Prefix W, r.len = 0 → f.More mui iw r vis := by
  obtain ⟨vis, rfl, h1⟩ := h.eachMore hf (Prefix.root W) (gvPfxItem gv)
    (fun x => .ok (x.1, x.2.getD []))
    (fun k2 n2 q b e1 e2 e3 => reads_gvPfxItem h e1 e2 e3) hr
  exact ⟨vis, rfl, fun r h0 => by rw [root_of_len r h0]; exact h1⟩

omit h in
theorem Trip.forMui {m : Mui} (h : Trip T f gv (some m) iw S k n) {fuel : Nat} (hf : iterFuel W ≤ fuel)
    {a : List (FatalResult (PrefixRecord M W))} (hr : Reads S (gvForMui gv fuel m iw) k a n) :
    (iw = false ∧ f.gone m ∧ a = []) ∨ ∃ vis, a = (withRecords vis).map .ok ∧
      ∀ r : Prefix W, r.len = 0 → f.More (some m) iw r vis := by
  unfold gvForMui at hr
  obtain ⟨b, l, h1, h2⟩ := reads_bind.1 hr
  have e1 := h1.le
  have e2 := h2.le
  split at h2
  · next hb =>
    obtain ⟨rfl, rfl⟩ := hb
    exact .inl ⟨rfl, h.isWithdrawn (Nat.le_refl k) e2 h1, h2.1.symm⟩
  · rcases h.more hf (p := Prefix.root W) e1 h2 with ⟨m', h3, h4, h5, h6⟩ | ⟨vis, h3, h4⟩
    · cases h3
      exact .inl ⟨h4, h5, h6⟩
    · exact .inr ⟨vis, h3, fun r h0 => by rw [root_of_len r h0]; exact h4⟩

theorem Trip.matching {o : MatchOptions} (hm : o.mui = mui) (hiw : o.includeWithdrawn = iw)
    {fuel : Nat} (hf : iterFuel W ≤ fuel) {p : Prefix W} {a : FatalResult (QueryResult M W)}
    (hr : Reads S (gvMatchPrefix gv fuel p.id o) k a n) : f.Explain (.matching p o) a := by
  subst hm hiw
  have hk := hr.le
  unfold gvMatchPrefix at hr
  obtain ⟨res, l1, h1, h2⟩ := reads_bind.1 hr
  obtain ⟨fnd, l2, h3, h4⟩ := reads_bind.1 h2
  obtain ⟨ms, l3, h5, h6⟩ := reads_bind.1 h4
  have e1 := h1.le
  have e3 := h3.le
  have e5 := h5.le
  have e6 := h6.le
  have hspan := h.span p
  obtain ⟨l, f1, f2, _, _, hfound, hless, hmoreT⟩ := h1.wp (hspan.sub (Nat.le_refl k) (by omega)).rely
    (wp_treeMatchPrefix (D := False) (RunRely.during _ _ _) p.clean (.inr hf) _ _ _ (hspan.live hk))
  have hx : NExt (S l).tree.slots (S n).tree.slots :=
    (hspan.grow l n f1 (by omega) (Nat.le_refl n)).nodes.1
  obtain ⟨fd, hf1, hf2, hf3⟩ := reads_gvFound h (by omega) (by omega) h3
  have hms := reads_gvFill h (by omega) (by omega) h5
  obtain ⟨ms', hms', hmore'⟩ : ∃ ms', ms = .ok ms' ∧ ((o.includeMoreSpecifics = false ∧ ms' = none) ∨
      ∃ vis : List (Prefix W × Option (List (Record M))), res.moreSpecifics =
        some (vis.map fun x => x.1.id) ∧ ms' = some (withRecords vis) ∧
        ∀ x ∈ vis, f.read o.mui o.includeWithdrawn x.1 x.2) := by
    rcases hms with ⟨g1, g2⟩ | ⟨vis, g1, g2, g3⟩
    · refine ⟨_, g2, ?_⟩
      rcases hmoreT with ⟨h, _⟩ | ⟨_, h, _⟩
      · exact .inl ⟨h, rfl⟩
      · rw [g1] at h; cases h
    · exact ⟨_, g2, .inr ⟨vis, g1, rfl, g3⟩⟩
  subst hms'
  dsimp only at h6
  obtain ⟨lsr, l4, h7, h8⟩ := reads_bind.1 h6
  have e7 := h7.le
  have e8 := h8.le
  have hls := reads_gvFill h (by omega) (by omega) h7
  obtain ⟨ls', hls', hless'⟩ : ∃ ls', lsr = .ok ls' ∧ ((o.includeLessSpecifics = false ∧ ls' = none) ∨
      ∃ vis : List (Prefix W × Option (List (Record M))), res.lessSpecifics =
        some (vis.map fun x => x.1.id) ∧ ls' = some (withRecords vis) ∧
        ∀ x ∈ vis, f.read o.mui o.includeWithdrawn x.1 x.2) := by
    rcases hls with ⟨g1, g2⟩ | ⟨vis, g1, g2, g3⟩
    · refine ⟨_, g2, ?_⟩
      rcases hless with ⟨h, _⟩ | ⟨_, h, _⟩
      · exact .inl ⟨h, rfl⟩
      · rw [g1] at h; cases h
    · exact ⟨_, g2, .inr ⟨vis, g1, rfl, g3⟩⟩
  subst hls'
  obtain ⟨rfl, _⟩ := h8
  refine ⟨_, rfl, ⟨fd, ⟨?_, ?_⟩, congrArg Prod.fst hf2, congrArg Prod.snd hf2⟩, ?_, ?_⟩
  · intro y hy
    obtain ⟨lo, hlong, hpre⟩ := hfound
    rw [hf1, hy] at hpre
    split at hpre
    · cases hpre
    · next hne =>
      obtain ⟨j, hj, hjy⟩ := Option.map_eq_some_iff.1 hpre.symm
      dsimp only at hjy
      obtain ⟨_, hjl, hseenj, _⟩ := (hlong.late hx).2 j hj
      have hlen : y.1.len = j := by rw [show y.1.len = y.1.id.len from rfl, ← hjy]; rfl
      rw [hjy] at hseenj
      refine ⟨covers_trunc.2 ⟨by rw [hlen]; exact hjl, by rw [hlen, hjy]⟩, fun he => ?_,
        h.seen y.1 hseenj, hf3 y hy⟩
      have : j = p.len := by
        by_contra hc
        exact hne ⟨he, fun h => hc (by rw [hj] at h; exact Option.some.inj h)⟩
      subst this
      exact Prefix.id_inj (by rw [← hjy]; exact truncate_self p.clean)
  · intro q hd hcov hex
    obtain ⟨h0, hset⟩ := h.done q hd
    obtain ⟨c1, c2⟩ := covers_trunc.1 hcov
    have hsq : Seen (S k).tree.slots (p.id.truncateTo q.len) := by
      rw [c2]; exact ⟨h0, hset.pfx⟩
    obtain ⟨lo, hlong, hpre⟩ := hfound
    cases lo with
    | none => exact (hlong.1 rfl q.len h0 c1 hsq).elim
    | some j =>
      obtain ⟨_, hjl, _, hbest⟩ := hlong.2 j rfl
      have hqj : q.len ≤ j := by
        by_contra hlt
        exact hbest q.len (by omega) c1 hsq
      have hcond : ¬ (o.matchType = .exactMatch ∧ some j ≠ some p.id.len) := by
        rintro ⟨he, hne⟩
        have := hex he
        subst this
        exact hne (congrArg some (Nat.le_antisymm hjl hqj))
      rw [if_neg hcond, hf1] at hpre
      obtain ⟨y, hy, hyj⟩ := Option.map_eq_some_iff.1 hpre
      exact ⟨y, hy, by rw [show y.1.len = y.1.id.len from rfl, hyj]; exact hqj⟩
  · rcases hless' with hl | ⟨vis, g1, g2, g3⟩
    · exact .inl hl
    rcases hless with ⟨_, h⟩ | ⟨ls, h', hL⟩
    · rw [g1] at h; cases h
    · rw [g1] at h'
      exact .inr ⟨vis, g2, h.lesser p (Option.some.inj h') (hL.shift (NExt.rfl' _) hx) g3⟩
  · rcases hmore' with hl | ⟨vis, g1, g2, g3⟩
    · exact .inl hl
    rcases hmoreT with ⟨_, h⟩ | ⟨out, h', hy⟩
    · rw [g1] at h; cases h
    · rw [g1] at h'
      have hout := Option.some.inj h'
      have hmem : ∀ x ∈ vis, x.1.id ∈ out ∧ x.1.id ≠ p.id := by
        intro x hx
        have : x.1.id ∈ out.filter fun q => decide (q ≠ p.id) := by
          rw [← hout]; exact List.mem_map.2 ⟨x, hx, rfl⟩
        simpa using List.mem_filter.1 this
      refine .inr ⟨vis, g2, ⟨nodup_fst (hout ▸ hy.nodup.filter _), fun x hx' => ?_, g3⟩, fun x hx' => ?_, ?_⟩
      · exact h.seen x.1 (Seen.ext (hy.sound _ (hmem x hx').1).2.2 hx)
      · obtain ⟨⟨_, c1, c2⟩, _⟩ := hy.sound _ (hmem x hx').1
        exact ⟨covers_trunc'.2 ⟨c1, c2⟩, fun he => (hmem x hx').2 (congrArg Prefix.id he)⟩
      · intro hq hW q hd hcov hne
        obtain ⟨c1, c2⟩ := covers_trunc'.1 hcov
        have : q.id ∈ vis.map fun x => x.1.id := by
          rw [hout, List.mem_filter]
          exact ⟨hy.complete hq q.id (h.done q hd).2 ⟨hW, c1, c2⟩,
            by simpa using fun he => hne (Prefix.id_inj he)⟩
        obtain ⟨x, hx', hid⟩ := List.mem_map.1 this
        obtain rfl := Prefix.id_inj hid
        exact ⟨x.2, hx'⟩

omit [Fam W] in
theorem Trip.moreFrom {fuel : Nat} {p : Prefix W} {a : FatalResult (QueryResult M W)}
    (hr : Reads S (gvMoreFrom gv fuel p.id mui) k a n) : f.Explain (.moreFrom p mui iw) a := by
  unfold gvMoreFrom at hr
  obtain ⟨r, l, h1, h2⟩ := reads_bind.1 hr
  have e2 := h2.le
  obtain ⟨pfx, v, set, rfl, hv, hset'⟩ := reads_gvFromCommon h
    (by
      intro k' n' l g1 g2 g3 b hb
      obtain ⟨out, _, h4⟩ := reads_eachMore g3
      obtain ⟨q, _, k2, n2, i1, i2, i3⟩ := forall₂_mem_right h4 hb
      exact reads_gvSameItem h (by omega) (by omega) i3)
    (Nat.le_refl k) e2 h1
  exact ⟨_, v, h2.1.symm, rfl, hv, hset'⟩

omit [Fam W] in
theorem Trip.lessFrom {p : Prefix W} {a : FatalResult (QueryResult M W)}
    (hr : Reads S (gvLessFrom gv p.id mui) k a n) : f.Explain (.lessFrom p mui iw) a := by
  unfold gvLessFrom at hr
  obtain ⟨r, l, h1, h2⟩ := reads_bind.1 hr
  have e2 := h2.le
  obtain ⟨pfx, v, set, rfl, hv, hset'⟩ := reads_gvFromCommon h
    (by
      intro k' n' l g1 g2 g3 b hb
      obtain ⟨out, _, h4⟩ := reads_lazily _ _ _ _ _ g3
      obtain ⟨q, _, k2, n2, i1, i2, i3⟩ := forall₂_mem_right h4 hb
      exact reads_gvSameItem h (by omega) (by omega) i3)
    (Nat.le_refl k) e2 h1
  exact ⟨_, v, h2.1.symm, rfl, hv, hset'⟩

end

/-- The answer of every query. -/
theorem explain_of_trips [Fam W] {T : PrefixId W → Mui → Prop} {f : Facts M W} {st : Strategy}
    {fuel fuel' : Nat} (hf : iterFuel W ≤ fuel) {S : ℕ → Rib M W} {k n : ℕ}
    (h : ∀ mui iw, Trip T f (scanValue st fuel' mui iw) mui iw S k n) (x : ScanCall W) {a : x.Ans M}
    (hr : Reads S (x.prog st fuel fuel') k a n) : f.Explain x a := by
  cases x with
  | records p mui iw => exact (h mui iw).value _ _ p a (Nat.le_refl k) (Nat.le_refl n) hr
  | persisted m => trivial
  | less p mui iw => exact (h mui iw).less hr
  | more p mui iw => exact (h mui iw).more hf (Nat.le_refl k) hr
  | all => exact (h none true).all hf hr
  | forMui m iw => exact (h (some m) iw).forMui hf hr
  | matching p o => exact (h o.mui o.includeWithdrawn).matching rfl rfl hf hr
  | moreFrom p mui iw => exact (h mui iw).moreFrom hr
  | lessFrom p mui iw => exact (h mui iw).lessFrom hr

end Rotonda
