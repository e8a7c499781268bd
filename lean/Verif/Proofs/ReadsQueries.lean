import Verif.Proofs.Reads
import Verif.Proofs.ConcRun
import Verif.Proofs.LinRun
import Verif.Spec.Walks

/-!
# What the queries have read along a run
-/

namespace Rotonda

open Prog Spec

variable {M : Type} [Meta M] {W : Nat}

/-- A stretch of a run. -/
structure Span (T : PrefixId W → Mui → Prop) (w : PrefixId W) (C : Prop) (S : ℕ → Rib M W) (k n : ℕ) :
    Prop where
  sane : ∀ j, k ≤ j → j ≤ n → Sane T (S j)
  grow : ∀ i j, k ≤ i → i ≤ j → j ≤ n → Grow T (S i) (S j)
  kids : C → ∀ j, k ≤ j → j ≤ n → Kids w (S j).tree.slots

section
variable {T : PrefixId W → Mui → Prop} {w : PrefixId W} {C : Prop} {S : ℕ → Rib M W} {k n : ℕ}

omit [Meta M] in
theorem Span.rely (h : Span T w C S k n) : ∀ i j, k ≤ i → i ≤ j → j ≤ n → RunRely T w C (S i) (S j) :=
  fun i j h1 h2 h3 => ⟨h.grow i j h1 h2 h3, fun c _ => h.kids c j (h1.trans h2) h3⟩

omit [Meta M] in
theorem Span.live (h : Span T w C S k n) (hkn : k ≤ n) : Live T w C (S k) :=
  ⟨h.sane k (Nat.le_refl k) hkn, fun c => h.kids c k (Nat.le_refl k) hkn⟩

omit [Meta M] in
theorem Span.sub (h : Span T w C S k n) {k' n' : ℕ} (hk : k ≤ k') (hn : n' ≤ n) :
    Span T w C S k' n' :=
  ⟨fun j h1 h2 => h.sane j (hk.trans h1) (h2.trans hn),
    fun i j h1 h2 h3 => h.grow i j (hk.trans h1) h2 (h3.trans hn),
    fun c j h1 h2 => h.kids c j (hk.trans h1) (h2.trans hn)⟩

omit [Meta M] in
/-- The tree part of an iteration, and the items. -/
theorem reads_lazily {σ β : Type} {next : Nat → σ → Prog (NSlots W) (Option (PrefixId W × σ))}
    {body : PrefixId W → Prog (Rib M W) β} : ∀ (fuel : Nat) (st : σ) (k n : ℕ) (bs : List β),
    Reads S (lazily next body fuel st) k bs n →
    ∃ out, Reads S (lazily next (fun q => .ret q) fuel st) k out n ∧
      List.Forall₂ (fun q b => ∃ k' n', k ≤ k' ∧ n' ≤ n ∧ Reads S (body q) k' b n') out bs := by
  intro fuel
  induction fuel with
  | zero => intro st k n bs h; exact h.elim
  | succ fuel ih =>
    intro st k n bs h
    unfold lazily at h ⊢
    obtain ⟨r, l, h1, h2⟩ := reads_bind.1 h
    cases r with
    | none =>
      obtain ⟨rfl, h2⟩ := h2
      exact ⟨[], reads_bind.2 ⟨none, l, h1, rfl, h2⟩, .nil⟩
    | some x =>
      obtain ⟨p, st'⟩ := x
      obtain ⟨b, l1, h3, h4⟩ := reads_bind.1 h2
      obtain ⟨rest, l2, h5, h6⟩ := reads_bind.1 h4
      obtain ⟨rfl, h6⟩ := h6
      obtain ⟨out, h7, h8⟩ := ih _ _ _ _ h5
      have e1 := h1.le
      have e3 := h3.le
      have e5 := h5.le
      refine ⟨p :: out, reads_bind.2 ⟨some (p, st'), l, h1, reads_bind.2 ⟨p, l1, ⟨rfl, h3.le⟩,
        reads_bind.2 ⟨out, l2, h7, rfl, h6⟩⟩⟩, .cons ⟨l, l1, e1, by omega, h3⟩ ?_⟩
      refine h8.imp fun {q b} hq => ?_
      obtain ⟨k', n', g1, g2, g3⟩ := hq
      exact ⟨k', n', by omega, by omega, g3⟩

omit [Meta M] in
theorem reads_eachMore {β : Type} {fuel : Nat} {p : PrefixId W} {body : PrefixId W → Prog (Rib M W) β}
    {bs : List β} (h : Reads S (eachMore fuel p body) k bs n) :
    ∃ out, Reads S (eachMore fuel p fun q => .ret q) k out n ∧
      List.Forall₂ (fun q b => ∃ k' n', k ≤ k' ∧ n' ≤ n ∧ Reads S (body q) k' b n') out bs := by
  unfold eachMore at h ⊢
  obtain ⟨r, l, h1, h2⟩ := reads_bind.1 h
  cases r with
  | none =>
    obtain ⟨rfl, h2⟩ := h2
    exact ⟨[], reads_bind.2 ⟨none, l, h1, rfl, h2⟩, .nil⟩
  | some st =>
    obtain ⟨out, h3, h4⟩ := reads_lazily _ _ _ _ _ h2
    have e1 := h1.le
    refine ⟨out, reads_bind.2 ⟨some st, l, h1, h3⟩, h4.imp fun {q b} hq => ?_⟩
    obtain ⟨k', n', g1, g2, g3⟩ := hq
    exact ⟨k', n', by omega, g2, g3⟩

omit [Meta M] in
/-- The prefixes an iteration over more specifics comes across. -/
theorem Span.more [Fam W] {p : PrefixId W} (hp : p.Clean) {fuel : Nat} (hf : iterFuel W ≤ fuel)
    (hs : Span T p C S k n) {out : List (PrefixId W)}
    (h : Reads S (eachMore fuel p fun q => .ret q) k out n) :
    out.Nodup ∧ (∀ q ∈ out, MoreOf p q ∧ q.Clean ∧ Seen (S n).tree.slots q) ∧
      (C → ∀ q, Settled (S k).tree.slots q → MoreOf p q → q ∈ out) := by
  have hkn := h.le
  obtain ⟨l, h1, h2, _, out', hB, hy⟩ := h.wp hs.rely (wp_eachMore (D := False) (RunRely.during T p C)
    (body := fun q => .ret q) (B := fun q b => b = q) (fun _ _ _ _ _ _ => rfl) hp (.inr hf) (hs.live hkn))
  have : out' = out := by
    clear hy h
    induction hB with
    | nil => rfl
    | cons h _ ih => rw [h, ih]
  subst this
  have hx := (hs.grow l n h1 h2 (Nat.le_refl n)).nodes.1
  exact ⟨hy.nodup, fun q hq => ⟨(hy.sound q hq).1, (hy.sound q hq).2.1,
    Seen.ext (hy.sound q hq).2.2 hx⟩, hy.complete⟩

omit [Meta M] in
/-- The prefixes an iteration over less specifics comes across. -/
theorem Span.less [Fam W] {p : PrefixId W} (hp : p.Clean) (hs : Span T w C S k n)
    {out : List (PrefixId W)} (h : Reads S (eachLess p fun q => .ret q) k out n) :
    ∃ ls, out = ls.map p.truncateTo ∧ Lesser (S k).tree.slots p p.len ls (S n).tree.slots := by
  have hkn := h.le
  obtain ⟨l, h1, h2, _, ls, hB, hy⟩ := h.wp hs.grow (wp_eachLess (D := False) (fun _ _ h => h) hp
    (body := fun q => .ret q) (B := fun q b => b = q) (fun _ _ _ _ _ _ => rfl) (hs.sane k (Nat.le_refl k) hkn))
  have : ls.map p.truncateTo = out := by
    clear hy h
    generalize ls.map p.truncateTo = o at *
    induction hB with
    | nil => rfl
    | cons h _ ih => rw [h, ih]
  have hx := (hs.grow l n h1 h2 (Nat.le_refl n)).nodes.1
  exact ⟨ls, this.symm, hy.shift (NExt.rfl' _) hx⟩

end

variable {ι : Type}

/-- The records read for one prefix. -/
theorem reads_getValue [Fam W] {st : Strategy} {po : Prop} {T : PrefixId W → Mui → Prop}
    {h : History M W} {calls : ι → Call M W} {S : ℕ → Rib M W} {log : ℕ → List ι} {k n : ℕ}
    (hst : st.inMemory = true ∨ (po ∧ st = .persistOnly))
    (hi : ∀ j, k ≤ j → j ≤ n → LinInv st po T h calls (S j, log j))
    (hg : ∀ i j, k ≤ i → i ≤ j → j ≤ n → Grow T (S i) (S j))
    {p : Prefix W} {mui : Option Mui} {iw : Bool} {r : FatalResult (Option (List (Record M)))}
    (hr : Reads S (ribGetValue st p.id mui iw) k r n) :
    ∃ v, r = .ok v ∧ ReadBetween st h calls log k n mui iw p v := by
  unfold ribGetValue at hr
  obtain ⟨b, l, h1, h2⟩ := reads_bind.1 hr
  obtain ⟨n1, hk1, hb, hl1⟩ := h1
  have hb' : b = globWd (histAfter h calls (log n1)) := by
    rw [← hb, ← (hi n1 hk1 (hl1.trans h2.le)).wd]; rfl
  subst hb'
  have hle := h2.le
  have hmem : ∀ (r : FatalResult (Option (List (Record M)))),
      (∀ H1 H : History M W, valueOf st (under H1 H) p mui iw =
        getFilteredRecords (recsAt st H p) mui iw (globWd H1)) →
      Reads S (do
        let rs ← onRecs (getRecordsForPrefix p.id mui iw (globWd (histAfter h calls (log n1))))
        return (.ok rs : FatalResult (Option (List (Record M))))) l r n →
      ∃ v, r = .ok v ∧ ReadBetween st h calls log k n mui iw p v := by
    intro r hval hr
    obtain ⟨rs, l2, h3, h4⟩ := reads_bind.1 hr
    obtain ⟨rfl, h4⟩ := h4
    have e3 := h3.le
    obtain ⟨n2, g1, g2, g3, g4, g5⟩ := h3.wp (D := False)
      (fun i j h1 h2 h3 => hg i j (by omega) h2 (by omega))
      (wp_onRecsRO (wp_getRecords (proj_recs (fun _ _ h => h)) p.clean mui iw _
        (hi l (by omega) (by omega)).sane.recs))
    have hi2 := hi n2 (by omega) (by omega)
    refine ⟨rs, rfl, n1, n2, hk1, by omega, by omega, ?_⟩
    have : rs = valueOf st (under (histAfter h calls (log n1)) (histAfter h calls (log n2))) p mui iw := by
      rw [hval]
      rcases g4 with ⟨rfl, hn⟩ | ⟨a, e, he, hid, rfl⟩
      · have : recsAt st (histAfter h calls (log n2)) p = [] := by
          by_contra hne
          exact hn (hi2.mem.has p hne)
        rw [this, filtered_nil]
      · rw [hi2.mem.recs a e he p hid.symm]
    rw [this]
    exact valueOf_answers _ _ _ _ _
  cases st with
  | writeAhead | persistHistory | memoryOnly =>
    refine hmem _ (fun H1 H => ?_) h2
    unfold valueOf
    simp only [recsAt_under, globWd_under]
  | persistOnly =>
    have hpo : po := by
      rcases hst with h | h
      · cases h
      · exact h.1
    obtain ⟨res, l2, h3, h4⟩ := reads_bind.1 h2
    obtain ⟨n2, g1, g2, g3⟩ := reads_read.1 h3
    have e4 := h4.le
    have hi2 := hi n2 (by omega) (by omega)
    refine (?_ : ∃ v, r = .ok v ∧ v = valueOf .persistOnly (under (histAfter h calls (log n1))
      (histAfter h calls (log n2))) p mui iw).imp fun v hv => ⟨hv.1, n1, n2, hk1, by omega, by omega, ?_⟩
    · obtain ⟨o, ho, _⟩ := po_records (under (histAfter h calls (log n1)) (histAfter h calls (log n2)))
        p mui iw
      have hval : valueOf .persistOnly (under (histAfter h calls (log n1)) (histAfter h calls (log n2)))
          p mui iw = o.map fun l => l.map fun e => e.kept.toRecord (M := M) e.mui := by
        unfold valueOf
        simp only [ho]
        cases o with
        | none => rfl
        | some l => simp only [Option.map_some, decode_entries]
      rw [lsmOf_under, globWd_under, ← hi2.lsm hpo] at ho
      rw [← g3, ho] at h4
      obtain ⟨o', l3, h5, h6⟩ := reads_bind.1 h4
      obtain ⟨h5, _⟩ := reads_ofOption.1 h5
      cases h5
      rw [hval]
      cases o with
      | none => exact ⟨none, h6.1.symm, rfl⟩
      | some l =>
        simp only [Option.map_some] at h6 ⊢
        rw [decode_entries] at h6
        exact ⟨_, h6.1.symm, rfl⟩
    · rw [hv.2]; exact valueOf_answers _ _ _ _ _

/-- The records were read between two steps. -/
abbrev Got (st : Strategy) (h : History M W) (calls : ι → Call M W) (log : ℕ → List ι) (k n : ℕ)
    (mui : Option Mui) (iw : Bool) (x : Prefix W × Option (List (Record M))) : Prop :=
  ReadBetween st h calls log k n mui iw x.1 x.2

theorem Spec.ReadBetween.mono {st : Strategy} {h : History M W} {calls : ι → Call M W}
    {log : ℕ → List ι} {k n k' n' : ℕ} {mui : Option Mui} {iw : Bool} {q : Prefix W}
    {v : Option (List (Record M))} (hk : k' ≤ k) (hn : n ≤ n')
    (hr : ReadBetween st h calls log k n mui iw q v) :
    ReadBetween st h calls log k' n' mui iw q v := by
  obtain ⟨n1, n2, h1, h2, h3, h4⟩ := hr
  exact ⟨n1, n2, hk.trans h1, h2, h3.trans hn, h4⟩

theorem toPrefix_some {p : PrefixId W} {q : Prefix W} (h : p.toPrefix = some q) : p = q.id := by
  unfold PrefixId.toPrefix at h
  split at h
  · cases h; rfl
  · cases h

omit [Meta M] in
theorem vis_of_items {β : Type} {R : PrefixId W → β → Prop}
    {g : Prefix W × Option (List (Record M)) → β} {P : Prefix W × Option (List (Record M)) → Prop}
    {out : List (PrefixId W)} {bs : List β} (h : List.Forall₂ R out bs)
    (hR : ∀ q b, R q b → ∃ x, x.1.id = q ∧ b = g x ∧ P x) :
    ∃ vis : List (Prefix W × Option (List (Record M))), out = vis.map (fun x => x.1.id) ∧
      bs = vis.map g ∧ ∀ x ∈ vis, P x := by
  induction h with
  | nil => exact ⟨[], rfl, rfl, by simp⟩
  | cons hab _ ih =>
    obtain ⟨x, rfl, rfl, hx⟩ := hR _ _ hab
    obtain ⟨vis, rfl, rfl, hv⟩ := ih
    exact ⟨x :: vis, rfl, rfl, List.forall_mem_cons.2 ⟨hx, hv⟩⟩

theorem withRecords_map (vis : List (Prefix W × Option (List (Record M)))) :
    (vis.map fun x => x.2.map fun rs => (.ok (x.1, rs) : FatalResult (PrefixRecord M W))).filterMap id =
      (withRecords vis).map .ok := by
  unfold withRecords
  induction vis with
  | nil => rfl
  | cons x vis ih =>
    obtain ⟨q, v⟩ := x
    cases v with
    | none => simpa using ih
    | some rs => simpa using ih

omit [Meta M] in
theorem nodup_fst {vis : List (Prefix W × Option (List (Record M)))}
    (h : (vis.map fun x => x.1.id).Nodup) : (vis.map Prod.fst).Nodup := by
  have : vis.map (fun x => x.1.id) = (vis.map Prod.fst).map Prefix.id := by rw [List.map_map]; rfl
  rw [this] at h
  exact h.of_map _

section
variable [Fam W] {st : Strategy} {po : Prop} {T : PrefixId W → Mui → Prop}
    {h : History M W} {calls : ι → Call M W} {S : ℕ → Rib M W} {log : ℕ → List ι} {k n : ℕ}
    (hst : st.inMemory = true ∨ (po ∧ st = .persistOnly))
    (hi : ∀ j, k ≤ j → j ≤ n → LinInv st po T h calls (S j, log j))
    (hg : ∀ i j, k ≤ i → i ≤ j → j ≤ n → Grow T (S i) (S j))
include hst hi hg

theorem reads_getValue' {k' n' : ℕ} (hk : k ≤ k') (hn : n' ≤ n) {p : Prefix W} {mui : Option Mui}
    {iw : Bool} {r : FatalResult (Option (List (Record M)))}
    (hr : Reads S (ribGetValue st p.id mui iw) k' r n') :
    ∃ v, r = .ok v ∧ ReadBetween st h calls log k n mui iw p v := by
  obtain ⟨v, h1, h2⟩ := reads_getValue hst (fun j h1 h2 => hi j (hk.trans h1) (h2.trans hn))
    (fun i j h1 h2 h3 => hg i j (hk.trans h1) h2 (h3.trans hn)) hr
  exact ⟨v, h1, h2.mono hk hn⟩

theorem reads_filterItem {k' n' : ℕ} (hk : k ≤ k') (hn : n' ≤ n) {q : PrefixId W} {mui : Option Mui}
    {iw : Bool} {b : Option (FatalResult (PrefixRecord M W))}
    (hr : Reads S (filterItem st mui iw q) k' b n') :
    ∃ x : Prefix W × Option (List (Record M)), x.1.id = q ∧ b = x.2.map (fun rs => .ok (x.1, rs)) ∧
      Got st h calls log k n mui iw x := by
  unfold filterItem at hr
  obtain ⟨r, l, h1, h2⟩ := reads_bind.1 hr
  obtain ⟨pfx, l2, h3, h4⟩ := reads_bind.1 h2
  obtain ⟨h3, h3'⟩ := reads_ofOption.1 h3
  obtain rfl := toPrefix_some h3
  have e4 := h4.le
  obtain ⟨v, rfl, hv⟩ := reads_getValue' hst hi hg hk (by omega) h1
  refine ⟨(pfx, v), rfl, ?_, hv⟩
  cases v with
  | none => exact h4.1.symm
  | some rs => exact h4.1.symm

theorem reads_pfxItem {k' n' : ℕ} (hk : k ≤ k') (hn : n' ≤ n) {q : PrefixId W}
    {b : FatalResult (PrefixRecord M W)} (hr : Reads S (pfxItem st q) k' b n') :
    ∃ x : Prefix W × Option (List (Record M)), x.1.id = q ∧ b = .ok (x.1, x.2.getD []) ∧
      Got st h calls log k n none true x := by
  unfold pfxItem at hr
  obtain ⟨pfx, l, h3, h2⟩ := reads_bind.1 hr
  obtain ⟨h3, h3'⟩ := reads_ofOption.1 h3
  obtain rfl := toPrefix_some h3
  obtain ⟨r, l2, h1, h4⟩ := reads_bind.1 h2
  have e4 := h4.le
  obtain ⟨v, rfl, hv⟩ := reads_getValue' hst hi hg (hk.trans h3') (by omega) h1
  exact ⟨(pfx, v), rfl, h4.1.symm, hv⟩

theorem reads_sameItem {k' n' : ℕ} (hk : k ≤ k') (hn : n' ≤ n) {p : Prefix W} {q : PrefixId W}
    {mui : Option Mui} {iw : Bool} {b : FatalResult (Option (PrefixRecord M W))}
    (hr : Reads S (sameItem st p.id mui iw q) k' b n') :
    ∃ (q' : Prefix W) (v : Option (List (Record M))), b = .ok (v.map fun rs => (q', rs)) ∧
      ReadBetween st h calls log k n mui iw p v := by
  unfold sameItem at hr
  obtain ⟨r, l, h1, h2⟩ := reads_bind.1 hr
  obtain ⟨pfx, l2, h3, h4⟩ := reads_bind.1 h2
  obtain ⟨h3, h3'⟩ := reads_ofOption.1 h3
  have e4 := h4.le
  obtain ⟨v, rfl, hv⟩ := reads_getValue' hst hi hg hk (by omega) h1
  exact ⟨pfx, v, h4.1.symm, hv⟩

theorem reads_filterValues {mui : Option Mui} {iw : Bool} : ∀ (ps : List (PrefixId W)) (k' n' : ℕ)
    (_ : k ≤ k') (_ : n' ≤ n) (l : List (FatalResult (PrefixRecord M W)))
    (_ : Reads S (filterValues st mui iw ps) k' l n'),
    ∃ vis : List (Prefix W × Option (List (Record M))), ps = vis.map (fun x => x.1.id) ∧
      l = (withRecords vis).map .ok ∧ ∀ x ∈ vis, Got st h calls log k n mui iw x := by
  intro ps
  induction ps with
  | nil => rintro k' n' _ _ l ⟨rfl, _⟩; exact ⟨[], rfl, rfl, by simp⟩
  | cons p ps ih =>
    intro k' n' hk hn l hr
    unfold filterValues at hr
    obtain ⟨r, l1, h1, h2⟩ := reads_bind.1 hr
    obtain ⟨pfx, l2, h3, h4⟩ := reads_bind.1 h2
    obtain ⟨h3, h3'⟩ := reads_ofOption.1 h3
    obtain rfl := toPrefix_some h3
    obtain ⟨rest, l3, h5, h6⟩ := reads_bind.1 h4
    have e1 := h1.le
    have e5 := h5.le
    have e6 := h6.le
    obtain ⟨v, rfl, hv⟩ := reads_getValue' hst hi hg hk (by omega) h1
    obtain ⟨vis, rfl, rfl, hvis⟩ := ih l2 l3 (by omega) (by omega) rest h5
    refine ⟨(pfx, v) :: vis, rfl, ?_, List.forall_mem_cons.2 ⟨hv, hvis⟩⟩
    cases v with
    | none => exact h6.1.symm
    | some rs => exact h6.1.symm

theorem reads_fillRecords {mui : Option Mui} {iw : Bool} {o : Option (List (PrefixId W))} {k' n' : ℕ}
    (hk : k ≤ k') (hn : n' ≤ n) {r : FatalResult (Option (List (PrefixRecord M W)))}
    (hr : Reads S (fillRecords st mui iw o) k' r n') :
    (o = none ∧ r = .ok none) ∨ ∃ vis : List (Prefix W × Option (List (Record M))),
      o = some (vis.map fun x => x.1.id) ∧ r = .ok (some (withRecords vis)) ∧
        ∀ x ∈ vis, Got st h calls log k n mui iw x := by
  cases o with
  | none => exact .inl ⟨rfl, hr.1.symm⟩
  | some ps =>
    unfold fillRecords at hr
    obtain ⟨l, l1, h1, h2⟩ := reads_bind.1 hr
    have e2 := h2.le
    obtain ⟨vis, rfl, rfl, hvis⟩ := reads_filterValues hst hi hg ps k' l1 hk (by omega) l h1
    rw [collectFatal_ok] at h2
    exact .inr ⟨vis, rfl, h2.1.symm, hvis⟩

theorem reads_matchFound {mui : Option Mui} {iw : Bool} {ty : MatchType} {o : Option (PrefixId W)}
    {k' n' : ℕ} (hk : k ≤ k') (hn : n' ≤ n) {r : MatchType × Option (Prefix W) × List (Record M)}
    (hr : Reads S (ribMatchFound st mui iw ty o) k' r n') :
    ∃ f : Option (Prefix W × Option (List (Record M))), o = f.map (fun y => y.1.id) ∧
      r.2 = (f.bind (fun y => y.2.map fun _ => y.1), (f.bind Prod.snd).getD []) ∧
      ∀ y, f = some y → Got st h calls log k n mui iw y := by
  cases o with
  | none => exact ⟨none, rfl, by rw [← hr.1]; rfl, by simp⟩
  | some q =>
    unfold ribMatchFound at hr
    obtain ⟨pfx, l, h3, h2⟩ := reads_bind.1 hr
    obtain ⟨h3, h3'⟩ := reads_ofOption.1 h3
    obtain rfl := toPrefix_some h3
    obtain ⟨v, l2, h1, h4⟩ := reads_bind.1 h2
    have e4 := h4.le
    obtain ⟨v, rfl, hv⟩ := reads_getValue' hst hi hg (hk.trans h3') (by omega) h1
    refine ⟨some (pfx, v), rfl, ?_, fun y hy => by cases hy; exact hv⟩
    cases v with
    | none => rw [← h4.1]; rfl
    | some rs =>
      cases rs with
      | nil =>
        obtain ⟨_, _, _, _, _, _, hne⟩ := hv
        exact (hne rfl).elim
      | cons x xs => rw [← h4.1]; rfl

theorem reads_fromCommon {p : Prefix W} {mui : Option Mui} {iw : Bool}
    {walk : Prog (Rib M W) (List (FatalResult (Option (PrefixRecord M W))))}
    (hw : ∀ k' n' l, k ≤ k' → n' ≤ n → Reads S walk k' l n' → ∀ b ∈ l,
      ∃ (q' : Prefix W) (v : Option (List (Record M))), b = .ok (v.map fun rs => (q', rs)) ∧
        ReadBetween st h calls log k n mui iw p v)
    {r : FatalResult (Option (Prefix W) × List (Record M) × Option (List (PrefixRecord M W)))}
    {k' n' : ℕ} (hk : k ≤ k') (hn : n' ≤ n)
    (hr : Reads S (ribFromCommon st p.id mui iw walk) k' r n') :
    ∃ pfx v set, r = .ok (pfx, v.getD [], set) ∧ ReadBetween st h calls log k n mui iw p v ∧
      ∀ y ∈ set.getD [], ReadBetween st h calls log k n mui iw p (some y.2) := by
  unfold ribFromCommon at hr
  obtain ⟨c, l1, h1, h2⟩ := reads_bind.1 hr
  have e1 := h1.le
  have hend : ∀ (pfx : Option (Prefix W)) (l2 : ℕ), l1 ≤ l2 → Reads S (do
      match ← ribGetValue st p.id mui iw with
      | .error e => return .error e
      | .ok r =>
        let l ← walk
        match collectFatalOption l with
        | .error e => return .error e
        | .ok set => return (.ok (pfx, r.getD [], set) : FatalResult _)) l2 r n' →
      ∃ pfx v set, r = .ok (pfx, v.getD [], set) ∧ ReadBetween st h calls log k n mui iw p v ∧
        ∀ y ∈ set.getD [], ReadBetween st h calls log k n mui iw p (some y.2) := by
    intro pfx l2 hl2 h4
    obtain ⟨v, l3, h5, h6⟩ := reads_bind.1 h4
    have e5 := h5.le
    have e6 := h6.le
    obtain ⟨v, rfl, hv⟩ := reads_getValue' hst hi hg (by omega) (by omega) h5
    obtain ⟨l, l4, h7, h8⟩ := reads_bind.1 h6
    have e7 := h7.le
    have e8 := h8.le
    have hl := hw l3 l4 l (by omega) (by omega) h7
    have key : ∃ set, collectFatalOption l = .ok set ∧
        ∀ y ∈ set.getD [], ReadBetween st h calls log k n mui iw p (some y.2) := by
      clear h7 h8
      induction l with
      | nil => exact ⟨some [], rfl, by simp⟩
      | cons b l ih =>
        obtain ⟨q', w, rfl, hw⟩ := hl b (by simp)
        obtain ⟨set, hset, hall⟩ := ih (fun x hx => hl x (List.mem_cons_of_mem _ hx))
        cases w with
        | none => exact ⟨none, rfl, by simp⟩
        | some rs =>
          cases set with
          | none => exact ⟨none, by simp [collectFatalOption, hset], by simp⟩
          | some as =>
            refine ⟨some ((q', rs) :: as), by simp [collectFatalOption, hset], ?_⟩
            intro y hy
            rcases List.mem_cons.1 hy with rfl | hy
            · exact hw
            · exact hall y hy
    obtain ⟨set, hset, hall⟩ := key
    rw [hset] at h8
    exact ⟨pfx, v, set, h8.1.symm, hv, hall⟩
  cases c with
  | false =>
    simp only [if_true] at h2
    obtain ⟨q, l2, h3, h4⟩ := reads_bind.1 h2
    exact hend q l2 h3.le h4
  | true => exact hend none l1 (Nat.le_refl _) h2

end

/-! ## Runs -/

section
variable [DecidableEq ι] {calls : ι → Call M W} [Fam W] {st : Strategy} {F0 F fuel : Nat}
  (hF : 32 ≤ F) (hf : iterFuel W ≤ fuel) {h : History M W} {s : Rib M W}
  (hs : exec st F0 h = .ok () s)
include hF hf hs

theorem run_span (t : List ι) {k n : ℕ} (hn : n ≤ t.length) (p : Prefix W) {C : Prop}
    (hC : C → NoNewNodes h ((start st F fuel s calls).exec (t.take k)) (t.take n) p) :
    Span (begunIds h calls (t.take n)) p.id C (fun j => ((start st F fuel s calls).at t j).st) k n := by
  have hsplit : ∀ i j, i ≤ j → j ≤ n → t.take j = t.take i ++ (t.take j).drop i := by
    intro i j hij hj
    conv_lhs => rw [← List.take_append_drop i (t.take j)]
    rw [List.take_take, min_eq_left hij]
  have hsane : ∀ j, j ≤ n → Sane (begunIds h calls (t.take n)) ((start st F fuel s calls).at t j).st := by
    intro j hj
    have := (run_grow (calls := calls) hF hf hs (t.take j) ((t.take n).drop j)).2
    rwa [← hsplit j n hj (Nat.le_refl n)] at this
  refine ⟨fun j _ hj => hsane j hj, fun i j _ hij hj => ?_, fun c j hkj hj => ?_⟩
  · have := (run_grow (calls := calls) hF hf hs (t.take i) ((t.take j).drop i)).1
    rw [← hsplit i j hij hj] at this
    exact ⟨this.nodes, fun _ => (hsane j hj).just, this.dflt, this.recs, this.lsm, this.keys⟩
  · have hq := hC c
    rw [hsplit k n (hkj.trans hj) (Nat.le_refl n)] at hq
    have := kids_of_noNewNodes (calls := calls) hF hf hs (v := (t.take j).drop k)
      ((List.take_prefix_take_left hj).drop k) hq
    rwa [← hsplit k j hkj hj] at this

/-- What a returned call has read. -/
theorem run_reads (t : List ι) {k n : ℕ} (hkn : k ≤ n) (hn : n ≤ t.length) {i : ι} {x : Call M W}
    {a : x.Ans} (hr : Returned ((start st F fuel s calls).exec (t.take n)) i x a)
    (hi : i ∉ t.take k) :
    Reads (fun j => ((start st F fuel s calls).at t j).st) (x.prog st F fuel) k a n := by
  obtain ⟨rfl, hp⟩ := hr
  have := Conf.reads (start st F fuel s calls) t hn hp k hkn
  unfold Conf.at at this
  rw [Conf.exec_idle _ hi] at this
  exact this

/-- The iterations of a run. -/
theorem run_walks (ht : Tracked st calls) (t : List ι) {log : ℕ → List ι}
    (hinv : ∀ n, n ≤ t.length → LinInv st (poCond st calls) (begunIds h calls t) h calls
        (((start st F fuel s calls).at t n).st, log n)) :
    ExplainsWalks st h (start st F fuel s calls) t log := by
  have hst := ht.cases
  have hlin : ∀ k n, n ≤ t.length → ∀ j, k ≤ j → j ≤ n → LinInv st (poCond st calls)
      (begunIds h calls t) h calls (((start st F fuel s calls).at t j).st, log j) :=
    fun k n hn j _ hj => hinv j (hj.trans hn)
  have hgrow : ∀ k n, n ≤ t.length → ∀ i j, k ≤ i → i ≤ j → j ≤ n → Grow (begunIds h calls t)
      ((start st F fuel s calls).at t i).st ((start st F fuel s calls).at t j).st := by
    intro k n hn i j h1 h2 h3
    have := (run_span (calls := calls) hF hf hs t (Nat.le_refl t.length) (Prefix.root W) (C := False)
      (k := 0) (fun c => c.elim)).grow i j (Nat.zero_le i) h2 (h3.trans hn)
    rwa [List.take_length] at this
  have hseen : ∀ n q, Seen ((start st F fuel s calls).at t n).st.tree.slots q.id →
      ∃ m, Begun h calls (t.take n) q m := fun n q hq => seen_begun hF hf hs hq
  have hset : ∀ k (q : Prefix W) m, 0 < q.len →
      Completed h ((start st F fuel s calls).exec (t.take k)) q m →
      Settled ((start st F fuel s calls).at t k).st.tree.slots q.id :=
    fun k q m h0 hc => completed_settled hF hf hs h0 hc
  -- iterations over more specifics
  have hmore : ∀ k n, n ≤ t.length → ∀ (p : Prefix W) {β : Type} (body : PrefixId W → Prog (Rib M W) β)
      (g : Prefix W × Option (List (Record M)) → β) mui iw,
      (∀ k' n' q b, k ≤ k' → n' ≤ n → Reads (fun j => ((start st F fuel s calls).at t j).st) (body q)
        k' b n' → ∃ x : Prefix W × Option (List (Record M)), x.1.id = q ∧ b = g x ∧
          Got st h calls log k n mui iw x) → ∀ bs,
      Reads (fun j => ((start st F fuel s calls).at t j).st) (eachMore fuel p.id body) k bs n →
      ∃ vis, bs = vis.map g ∧ Visited st h calls t log k n mui iw vis ∧ (∀ x ∈ vis, Covers p x.1) ∧
        (NoNewNodes h ((start st F fuel s calls).exec (t.take k)) (t.take n) p → p.len < W →
          ∀ q m, 0 < q.len → Covers p q →
            Completed h ((start st F fuel s calls).exec (t.take k)) q m → ∃ v, (q, v) ∈ vis) := by
    intro k n hn p β body g mui iw hbody bs hr
    obtain ⟨out, h1, h2⟩ := reads_eachMore hr
    obtain ⟨vis, rfl, rfl, hP⟩ := vis_of_items h2 (g := g) (P := Got st h calls log k n mui iw)
      (by rintro q b ⟨k', n', h1, h2, h3⟩; exact hbody k' n' q b h1 h2 h3)
    obtain ⟨hnd, hsound, hcompl⟩ := (run_span (calls := calls) hF hf hs t hn p
      (C := NoNewNodes h ((start st F fuel s calls).exec (t.take k)) (t.take n) p) (k := k)
      (fun c => c)).more p.clean hf h1
    refine ⟨vis, rfl, ⟨nodup_fst hnd, fun x hx => ?_, hP⟩, fun x hx => ?_, ?_⟩
    · exact hseen n x.1 (hsound _ (List.mem_map.2 ⟨x, hx, rfl⟩)).2.2
    · obtain ⟨⟨_, e2, e3⟩, _⟩ := hsound _ (List.mem_map.2 ⟨x, hx, rfl⟩)
      exact covers_trunc'.2 ⟨e2, e3⟩
    · intro hq hW q m h0 hcov hc
      obtain ⟨c1, c2⟩ := covers_trunc'.1 hcov
      obtain ⟨x, hx, hid⟩ := List.mem_map.1 (hcompl hq q.id (hset k q m h0 hc) ⟨hW, c1, c2⟩)
      obtain rfl := Prefix.id_inj hid
      exact ⟨x.2, hx⟩
  have hlessRange : ∀ {p q : Prefix W}, Covers q p → q ≠ p → q.len < p.len ∧
      p.id.truncateTo q.len = q.id := by
    intro p q hcov hne
    obtain ⟨c1, c2⟩ := covers_trunc.1 hcov
    refine ⟨?_, c2⟩
    rcases Nat.lt_or_ge q.len p.len with hlt | hge
    · exact hlt
    · have hle : q.len = p.len := by omega
      exact (hne (Prefix.id_inj (by rw [← c2, hle]; exact truncate_self p.clean))).elim
  have hlessVis : ∀ k n, n ≤ t.length → ∀ (p : Prefix W) mui iw
      (vis : List (Prefix W × Option (List (Record M)))) ls,
      vis.map (fun x => x.1.id) = ls.map p.id.truncateTo →
      Lesser ((start st F fuel s calls).at t k).st.tree.slots p.id p.len ls
        ((start st F fuel s calls).at t n).st.tree.slots →
      (∀ x ∈ vis, Got st h calls log k n mui iw x) →
      Visited st h calls t log k n mui iw vis ∧ (∀ x ∈ vis, Covers x.1 p ∧ x.1 ≠ p) ∧
        ∀ q m, 0 < q.len → Covers q p → q ≠ p →
          Completed h ((start st F fuel s calls).exec (t.take k)) q m → ∃ v, (q, v) ∈ vis := by
    intro k n hn p mui iw vis ls hvis hL hP
    have hnd : (ls.map p.id.truncateTo).Nodup := by
      rw [List.nodup_iff_pairwise_ne, List.pairwise_map]
      refine hL.desc.imp fun {a b} hab h => ?_
      have := congrArg PrefixId.len h
      simp only [PrefixId.truncateTo] at this
      omega
    have hmem : ∀ x ∈ vis, ∃ l ∈ ls, p.id.truncateTo l = x.1.id := fun x hx =>
      List.mem_map.1 (hvis ▸ List.mem_map.2 ⟨x, hx, rfl⟩)
    refine ⟨⟨nodup_fst (hvis ▸ hnd), fun x hx => ?_, hP⟩, fun x hx => ?_, ?_⟩
    · obtain ⟨l, hl, hlx⟩ := hmem x hx
      exact hseen n x.1 (hlx ▸ hL.sound l hl)
    · obtain ⟨l, hl, hlx⟩ := hmem x hx
      have hlen : x.1.len = l := by rw [show x.1.len = x.1.id.len from rfl, ← hlx]; rfl
      have hlt : x.1.len < p.len := by rw [hlen]; exact (hL.range l hl).2
      exact ⟨covers_trunc.2 ⟨Nat.le_of_lt hlt, by rw [hlen, hlx]⟩, fun he => by rw [he] at hlt; omega⟩
    · intro q m h0 hcov hne hc
      obtain ⟨hlt, c2⟩ := hlessRange hcov hne
      have := hL.complete q.len h0 hlt (by rw [c2]; exact ⟨h0, (hset k q m h0 hc).pfx⟩)
      have hq : q.id ∈ vis.map (fun x => x.1.id) := by
        rw [hvis]; exact List.mem_map.2 ⟨q.len, this, c2⟩
      obtain ⟨x, hx, hid⟩ := List.mem_map.1 hq
      obtain rfl := Prefix.id_inj hid
      exact ⟨x.2, hx⟩
  -- `more_specifics_iter_from`
  have hmoreIter : ∀ k n, n ≤ t.length → ∀ (p : Prefix W) mui iw a,
      Reads (fun j => ((start st F fuel s calls).at t j).st)
        (ribMoreSpecificsIter st fuel p.id mui iw) k a n →
      (∃ m n1, mui = some m ∧ iw = false ∧ k ≤ n1 ∧ n1 ≤ n ∧
        globWd (histAfter h calls (log n1)) m = true ∧ a = []) ∨
      ∃ vis, a = (withRecords vis).map .ok ∧ Visited st h calls t log k n mui iw vis ∧
        (∀ x ∈ vis, Covers p x.1) ∧
        (NoNewNodes h ((start st F fuel s calls).exec (t.take k)) (t.take n) p → p.len < W →
          ∀ q m, 0 < q.len → Covers p q →
            Completed h ((start st F fuel s calls).exec (t.take k)) q m → ∃ v, (q, v) ∈ vis) := by
    intro k n hn p mui iw a hr
    have hmain : Reads (fun j => ((start st F fuel s calls).at t j).st) (do
        let l ← eachMore fuel p.id (filterItem st mui iw); return l.filterMap id) k a n →
        ∃ vis, a = (withRecords vis).map .ok ∧ Visited st h calls t log k n mui iw vis ∧
        (∀ x ∈ vis, Covers p x.1) ∧
        (NoNewNodes h ((start st F fuel s calls).exec (t.take k)) (t.take n) p → p.len < W →
          ∀ q m, 0 < q.len → Covers p q →
            Completed h ((start st F fuel s calls).exec (t.take k)) q m → ∃ v, (q, v) ∈ vis) := by
      intro hr
      obtain ⟨l, n', h1, h2⟩ := reads_bind.1 hr
      obtain ⟨rfl, h2⟩ := h2
      obtain ⟨vis, rfl, h3, h4, h5⟩ := hmore k n hn p (filterItem st mui iw)
        (fun x => x.2.map fun rs => .ok (x.1, rs)) mui iw
        (fun k2 n2 q b e1 e2 e3 => reads_filterItem hst (hlin k n hn) (hgrow k n hn) e1 e2 e3)
        l (h1.mono (Nat.le_refl _) h2)
      exact ⟨vis, withRecords_map vis, h3, h4, h5⟩
    unfold ribMoreSpecificsIter at hr
    cases mui with
    | none => exact .inr (hmain hr)
    | some m =>
      cases iw with
      | true => exact .inr (hmain hr)
      | false =>
        simp only [if_true] at hr
        obtain ⟨b, l, h1, h2⟩ := reads_bind.1 hr
        have e1 := h1.le
        have e2 := h2.le
        cases b with
        | true =>
          unfold ribMuiIsWithdrawn at h1
          obtain ⟨bs, l', ⟨n1, g1, g2, g3⟩, g4, g5⟩ := reads_bind.1 h1
          refine .inl ⟨m, n1, rfl, rfl, g1, by omega, ?_, h2.1.symm⟩
          rw [← (hinv n1 (by omega)).wd, ← g4, ← g2]; rfl
        | false => exact .inr (hmain (h2.mono e1 (Nat.le_refl n)))
  have hWpos : 0 < W := by rcases (inferInstance : Fam W).width with h | h <;> omega
  have hroot : ∀ r : Prefix W, r.len = 0 → r = Prefix.root W := by
    intro r hr
    have h1 : Covers (Prefix.root W) r := covers_root r
    obtain ⟨_, c2⟩ := covers_trunc.1 h1
    refine (Prefix.id_inj ?_)
    rw [← c2, show (Prefix.root W).len = r.id.len from hr.symm]
    exact (truncate_self r.clean).symm
  refine ⟨?_, ?_, ?_, ?_, ?_, ?_, ?_⟩
  · -- less specifics
    intro n hn i p mui iw a hret k hk hi
    have hr := run_reads (calls := calls) hF hf hs t hk hn hret hi
    simp only [Call.prog, ribLessSpecificsIter] at hr
    obtain ⟨l, n', h1, h2⟩ := reads_bind.1 hr
    obtain ⟨rfl, h2⟩ := h2
    obtain ⟨out, h3, h4⟩ := reads_lazily _ _ _ _ _ (h1.mono (Nat.le_refl k) h2)
    obtain ⟨vis, rfl, rfl, hP⟩ := vis_of_items h4
      (g := fun x => x.2.map fun rs => .ok (x.1, rs)) (P := Got st h calls log k n mui iw)
      (by rintro q b ⟨k', n', h1, h2, h3⟩
          exact reads_filterItem hst (hlin k n hn) (hgrow k n hn) h1 h2 h3)
    obtain ⟨ls, hls, hL⟩ := (run_span (calls := calls) hF hf hs t hn p (C := False) (k := k)
      (fun c => c.elim)).less p.clean h3
    exact ⟨vis, withRecords_map vis, hlessVis k n hn p mui iw vis ls hls hL hP⟩
  · -- more specifics
    intro n hn i p mui iw a hret k hk hi
    exact hmoreIter k n hn p mui iw a (run_reads (calls := calls) hF hf hs t hk hn hret hi)
  · -- all prefixes
    intro n hn i a hret k hk hi
    have hr := run_reads (calls := calls) hF hf hs t hk hn hret hi
    obtain ⟨vis, rfl, h1, _, h3⟩ := hmore k n hn (Prefix.root W) (pfxItem st)
      (fun x => .ok (x.1, x.2.getD [])) none true
      (fun k2 n2 q b e1 e2 e3 => reads_pfxItem hst (hlin k n hn) (hgrow k n hn) e1 e2 e3) a hr
    refine ⟨vis, rfl, h1, fun r hr hq q m h0 hc => ?_⟩
    rw [hroot r hr] at hq
    exact h3 hq hWpos q m h0 (covers_root q) hc
  · -- the prefixes of one mui
    intro n hn i m iw a hret k hk hi
    have hr := run_reads (calls := calls) hF hf hs t hk hn hret hi
    simp only [Call.prog, ribIterRecordsForMui] at hr
    obtain ⟨b, l, h1, h2⟩ := reads_bind.1 hr
    have e1 := h1.le
    have e2 := h2.le
    split at h2
    · next hb =>
      obtain ⟨rfl, rfl⟩ := hb
      unfold ribMuiIsWithdrawn at h1
      obtain ⟨bs, l', ⟨n1, g1, g2, g3⟩, g4, g5⟩ := reads_bind.1 h1
      refine .inl ⟨n1, rfl, g1, by omega, ?_, h2.1.symm⟩
      rw [← (hinv n1 (by omega)).wd, ← g4, ← g2]; rfl
    · rcases hmoreIter k n hn (Prefix.root W) (some m) iw a (h2.mono e1 (Nat.le_refl n)) with
        ⟨m', n1, h3, h4, h5, h6, h7, h8⟩ | ⟨vis, h3, h4, _, h6⟩
      · cases h3
        exact .inl ⟨n1, h4, h5, h6, h7, h8⟩
      · refine .inr ⟨vis, h3, h4, fun r hr hq q m' h0 hc => ?_⟩
        rw [hroot r hr] at hq
        exact h6 hq hWpos q m' h0 (covers_root q) hc
  · -- match_prefix
    intro n hn i p o a hret k hk hi
    have hr := run_reads (calls := calls) hF hf hs t hk hn hret hi
    simp only [Call.prog, ribMatchPrefix] at hr
    obtain ⟨res, l1, h1, h2⟩ := reads_bind.1 hr
    obtain ⟨fnd, l2, h3, h4⟩ := reads_bind.1 h2
    obtain ⟨ms, l3, h5, h6⟩ := reads_bind.1 h4
    have e1 := h1.le
    have e3 := h3.le
    have e5 := h5.le
    have e6 := h6.le
    have hspan := run_span (calls := calls) hF hf hs t hn p
      (C := NoNewNodes h ((start st F fuel s calls).exec (t.take k)) (t.take n) p) (k := k) (fun c => c)
    obtain ⟨l, f1, f2, _, _, hfound, hless, hmoreT⟩ := h1.wp (hspan.sub (Nat.le_refl k) (by omega)).rely
      (wp_treeMatchPrefix (D := False) (RunRely.during _ _ _) p.clean (.inr hf) _ _ _ (hspan.live hk))
    have hx : NExt ((start st F fuel s calls).at t l).st.tree.slots
        ((start st F fuel s calls).at t n).st.tree.slots :=
      (hspan.grow l n f1 (by omega) (Nat.le_refl n)).nodes.1
    obtain ⟨f, hf1, hf2, hf3⟩ := reads_matchFound hst (hlin k n hn) (hgrow k n hn) (by omega)
      (by omega) h3
    have hms := reads_fillRecords hst (hlin k n hn) (hgrow k n hn) (by omega) (by omega) h5
    obtain ⟨ms', hms', hmore'⟩ : ∃ ms', ms = .ok ms' ∧ ((o.includeMoreSpecifics = false ∧ ms' = none) ∨
        ∃ vis : List (Prefix W × Option (List (Record M))), res.moreSpecifics =
          some (vis.map fun x => x.1.id) ∧ ms' = some (withRecords vis) ∧
          ∀ x ∈ vis, Got st h calls log k n o.mui o.includeWithdrawn x) := by
      rcases hms with ⟨g1, g2⟩ | ⟨vis, g1, g2, g3⟩
      · refine ⟨_, g2, ?_⟩
        rcases hmoreT with ⟨h, _⟩ | ⟨_, h, _⟩
        · exact .inl ⟨h, rfl⟩
        · rw [g1] at h; cases h
      · exact ⟨_, g2, .inr ⟨vis, g1, rfl, g3⟩⟩
    subst hms'
    dsimp only at h6
    obtain ⟨lsr, l4, h7, h8⟩ := reads_bind.1 h6
    have e7 := h7.le
    have e8 := h8.le
    have hls := reads_fillRecords hst (hlin k n hn) (hgrow k n hn) (by omega) (by omega) h7
    obtain ⟨ls', hls', hless'⟩ : ∃ ls', lsr = .ok ls' ∧ ((o.includeLessSpecifics = false ∧ ls' = none) ∨
        ∃ vis : List (Prefix W × Option (List (Record M))), res.lessSpecifics =
          some (vis.map fun x => x.1.id) ∧ ls' = some (withRecords vis) ∧
          ∀ x ∈ vis, Got st h calls log k n o.mui o.includeWithdrawn x) := by
      rcases hls with ⟨g1, g2⟩ | ⟨vis, g1, g2, g3⟩
      · refine ⟨_, g2, ?_⟩
        rcases hless with ⟨h, _⟩ | ⟨_, h, _⟩
        · exact .inl ⟨h, rfl⟩
        · rw [g1] at h; cases h
      · exact ⟨_, g2, .inr ⟨vis, g1, rfl, g3⟩⟩
    subst hls'
    obtain ⟨rfl, _⟩ := h8
    refine ⟨_, rfl, ⟨f, congrArg Prod.fst hf2, congrArg Prod.snd hf2, ?_, ?_⟩, ?_, ?_⟩
    · intro y hy
      obtain ⟨lo, hlong, hpre⟩ := hfound
      rw [hf1, hy] at hpre
      split at hpre
      · cases hpre
      · next hne =>
        obtain ⟨j, hj, hjy⟩ := Option.map_eq_some_iff.1 hpre.symm
        dsimp only at hjy
        obtain ⟨_, hjl, hseenj, _⟩ := (hlong.late hx).2 j hj
        have hlen : y.1.len = j := by rw [show y.1.len = y.1.id.len from rfl, ← hjy]; rfl
        rw [hjy] at hseenj
        refine ⟨covers_trunc.2 ⟨by rw [hlen]; exact hjl, by rw [hlen, hjy]⟩, fun he => ?_,
          hseen n y.1 hseenj, hf3 y hy⟩
        have : j = p.len := by
          by_contra hc
          exact hne ⟨he, fun h => hc (by rw [hj] at h; exact Option.some.inj h)⟩
        subst this
        exact Prefix.id_inj (by rw [← hjy]; exact truncate_self p.clean)
    · intro q m h0 hcov hex hc
      obtain ⟨c1, c2⟩ := covers_trunc.1 hcov
      have hsq : Seen ((start st F fuel s calls).at t k).st.tree.slots (p.id.truncateTo q.len) := by
        rw [c2]; exact ⟨h0, (hset k q m h0 hc).pfx⟩
      obtain ⟨lo, hlong, hpre⟩ := hfound
      cases lo with
      | none => exact (hlong.1 rfl q.len h0 c1 hsq).elim
      | some j =>
        obtain ⟨_, hjl, _, hbest⟩ := hlong.2 j rfl
        have hqj : q.len ≤ j := by
          by_contra hlt
          exact hbest q.len (by omega) c1 hsq
        have hcond : ¬ (o.matchType = .exactMatch ∧ some j ≠ some p.id.len) := by
          rintro ⟨he, hne⟩
          have := hex he
          subst this
          exact hne (congrArg some (Nat.le_antisymm hjl hqj))
        rw [if_neg hcond, hf1] at hpre
        obtain ⟨y, hy, hyj⟩ := Option.map_eq_some_iff.1 hpre
        exact ⟨y, hy, by rw [show y.1.len = y.1.id.len from rfl, hyj]; exact hqj⟩
    · rcases hless' with hl | ⟨vis, g1, g2, g3⟩
      · exact .inl hl
      rcases hless with ⟨_, h⟩ | ⟨ls, h, hL⟩
      · rw [g1] at h; cases h
      · rw [g1] at h
        exact .inr ⟨vis, g2, hlessVis k n hn p _ _ vis ls (Option.some.inj h)
          (hL.shift (NExt.rfl' _) hx) g3⟩
    · rcases hmore' with hl | ⟨vis, g1, g2, g3⟩
      · exact .inl hl
      rcases hmoreT with ⟨_, h⟩ | ⟨out, h, hy⟩
      · rw [g1] at h; cases h
      · rw [g1] at h
        have hout := Option.some.inj h
        have hmem : ∀ x ∈ vis, x.1.id ∈ out ∧ x.1.id ≠ p.id := by
          intro x hx
          have : x.1.id ∈ out.filter fun q => decide (q ≠ p.id) := by
            rw [← hout]; exact List.mem_map.2 ⟨x, hx, rfl⟩
          simpa using List.mem_filter.1 this
        refine .inr ⟨vis, g2, ⟨nodup_fst (hout ▸ hy.nodup.filter _), fun x hx' => ?_, g3⟩, fun x hx' => ?_, ?_⟩
        · exact hseen n x.1 (Seen.ext (hy.sound _ (hmem x hx').1).2.2 hx)
        · obtain ⟨⟨_, c1, c2⟩, _⟩ := hy.sound _ (hmem x hx').1
          exact ⟨covers_trunc'.2 ⟨c1, c2⟩, fun he => (hmem x hx').2 (congrArg Prefix.id he)⟩
        · intro hq hW q m h0 hcov hne hc
          obtain ⟨c1, c2⟩ := covers_trunc'.1 hcov
          have : q.id ∈ vis.map fun x => x.1.id := by
            rw [hout, List.mem_filter]
            exact ⟨hy.complete hq q.id (hset k q m h0 hc) ⟨hW, c1, c2⟩,
              by simpa using fun he => hne (Prefix.id_inj he)⟩
          obtain ⟨x, hx', hid⟩ := List.mem_map.1 this
          obtain rfl := Prefix.id_inj hid
          exact ⟨x.2, hx'⟩
  · -- `more_specifics_from`
    intro n hn i p mui iw a hret k hk hi
    have hr := run_reads (calls := calls) hF hf hs t hk hn hret hi
    simp only [Call.prog, ribMoreSpecificsFrom] at hr
    obtain ⟨r, l, h1, h2⟩ := reads_bind.1 hr
    have e2 := h2.le
    obtain ⟨pfx, v, set, rfl, hv, hset'⟩ := reads_fromCommon hst (hlin k n hn) (hgrow k n hn)
      (by
        intro k' n' l g1 g2 g3 b hb
        obtain ⟨out, _, h4⟩ := reads_eachMore g3
        obtain ⟨q, _, k2, n2, i1, i2, i3⟩ := forall₂_mem_right h4 hb
        exact reads_sameItem hst (hlin k n hn) (hgrow k n hn) (by omega) (by omega) i3)
      (Nat.le_refl k) e2 h1
    exact ⟨_, v, h2.1.symm, rfl, hv, hset'⟩
  · -- `less_specifics_from`
    intro n hn i p mui iw a hret k hk hi
    have hr := run_reads (calls := calls) hF hf hs t hk hn hret hi
    simp only [Call.prog, ribLessSpecificsFrom] at hr
    obtain ⟨r, l, h1, h2⟩ := reads_bind.1 hr
    have e2 := h2.le
    obtain ⟨pfx, v, set, rfl, hv, hset'⟩ := reads_fromCommon hst (hlin k n hn) (hgrow k n hn)
      (by
        intro k' n' l g1 g2 g3 b hb
        obtain ⟨out, _, h4⟩ := reads_lazily _ _ _ _ _ g3
        obtain ⟨q, _, k2, n2, i1, i2, i3⟩ := forall₂_mem_right h4 hb
        exact reads_sameItem hst (hlin k n hn) (hgrow k n hn) (by omega) (by omega) i3)
      (Nat.le_refl k) e2 h1
    exact ⟨_, v, h2.1.symm, rfl, hv, hset'⟩

end

end Rotonda
