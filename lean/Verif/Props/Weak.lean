import Verif.Proofs.WeakThreads
import Verif.Spec.Weak

/-!
# C58: publication in the chained hash table under the memory model of Rust

`Answered c calls i n call a` and `Table.Ok` are what the statements are about: thread
`i` has finished, and its `n`-th call, `call`, returned `a`; and the hash function stays
inside of the buckets and tells ids apart (`len_table_ok`: so in the code).
-/

namespace Rotonda.Props
open Rotonda.Weak

variable {ι : Type} [DecidableEq ι] {T : Table} {levels : Nat} {o : Orders} {calls : ι → List TableCall}

/-- Thread `i` has finished and its `n`-th call returned `a`. -/
def Answered (c : Mach ι (List Word)) (calls : ι → List TableCall) (i : ι) (n : Nat) (call : TableCall)
    (a : Word) : Prop :=
  (calls i)[n]? = some call ∧ ∃ as, c.pool i = .ret as ∧ as[n]? = some a

/-- The calls use ids that the table is for. -/
def OwnIds (T : Table) (calls : ι → List TableCall) : Prop := ∀ i, ∀ c ∈ calls i, T.ids c.id

/-- The tables of the code, for every length of a prefix or node, have these properties. -/
theorem len_table_ok (W len : Nat) [Fam W] : (lenTable W len).Ok (lenLevels len) := lenTable_ok W len

/-- With acquiring loads (also of a failing compare-and-swap) and a releasing
compare-and-swap no execution of any threads has a data race. -/
theorem publication_race_free (hT : T.Ok levels) (hc : OwnIds T calls) (hl : o.load.acquires = true)
    (hok : o.ok.releases = true) (herr : o.err.acquires = true) (t : List (ι × Nat)) :
    ((tableStart o T levels calls).exec t).races = [] := by
  obtain ⟨_, _, _, _, hr⟩ := exec_safe (o := o) hT calls hc t
  exact hr ⟨hl, hok, herr⟩

/-- These orderings are needed: for every other choice two threads race, in every
table. -/
theorem publication_race_free_iff (hT : T.Ok levels) {x : Nat} (hx : T.ids x) :
    (∀ calls : Bool → List TableCall, OwnIds T calls → ∀ t,
      ((tableStart o T levels calls).exec t).races = []) ↔
    (o.load.acquires = true ∧ o.ok.releases = true ∧ o.err.acquires = true) := by
  constructor
  · intro h
    obtain ⟨n, rfl⟩ : ∃ n, levels = n + 1 := ⟨levels - 1, by have := hT.pos; omega⟩
    have hlt := hT.lt x hx 0 hT.pos
    have hids : ∀ c : TableCall, c.id = x → OwnIds T (fun b : Bool => if b then [.findOrInit x] else [c]) := by
      intro c hcx b d hd
      cases b
      · simp at hd; subst hd; rwa [hcx]
      · simp at hd; subst hd; exact hx
    have first : ¬ (o.load.acquires = false ∨ o.ok.releases = false) := by
      intro ho
      exact lookup_races (c := tableStart o T (n + 1)
        (fun b : Bool => if b then [.findOrInit x] else [.find x])) (n := n) hlt rfl Nat.zero_lt_one rfl rfl rfl ho
        (h _ (hids (.find x) rfl) _)
    refine ⟨?_, ?_, ?_⟩
    · by_contra hn; exact first (.inl (by simpa using hn))
    · by_contra hn; exact first (.inr (by simpa using hn))
    · by_contra hn
      exact init_races (o := o) (y := x) (z := x) (n := n) (c := tableStart o T (n + 1)
        (fun b : Bool => if b then [.findOrInit x] else [.findOrInit x])) hlt rfl Nat.zero_lt_one rfl rfl rfl
        (by simpa using hn) (h _ (hids (.findOrInit x) rfl) _)
  · rintro ⟨h1, h2, h3⟩ calls hc t
    exact publication_race_free hT hc h1 h2 h3 t

/-- The orderings in the code race: in the table of every prefix length, whenever one
thread creates the first entry while another one looks any id up. -/
theorem oncebox_publication_races (W len : Nat) [Fam W] {x y : Nat} (hy : (lenTable W len).ids y) :
    ∃ t, ((tableStart codeOrders (lenTable W len) (lenLevels len)
      (fun b : Bool => if b then [.findOrInit x] else [.find y])).exec t).races ≠ [] := by
  have hT := lenTable_ok W len
  obtain ⟨n, hn⟩ : ∃ n, lenLevels len = n + 1 := ⟨lenLevels len - 1, by have := hT.pos; omega⟩
  rw [hn]
  have hlt := hT.lt y hy 0 hT.pos
  exact ⟨_, lookup_races (c := tableStart codeOrders (lenTable W len) (n + 1)
    (fun b : Bool => if b then [.findOrInit x] else [.find y])) (n := n) hlt rfl Nat.zero_lt_one rfl rfl rfl
    (.inl rfl)⟩

/-- The machine takes every use of a word that is not allocated for a race. -/
theorem dangling_is_race {α : Type} (c : Mach ι α) {i : ι} {a : Nat} (ha : a ∈ (c.pool i).uses)
    (hm : c.mem a = []) (n : Nat) : (c.step i n).races ≠ [] := by
  have hord : ∀ (all : Bool) (k : Know), ordered all k a (c.mem a) = false := by
    intro all k; rw [hm]; rfl
  have hacc : ∀ all, (c.access i all a).races ≠ [] := by
    intro all
    unfold Mach.access
    rw [if_neg (by rw [hord]; exact Bool.false_ne_true)]
    exact List.cons_ne_nil _ _
  unfold Mach.step
  cases hp : c.pool i with
  | ret | panic | alloc => rw [hp] at ha; cases ha
  | plain b f => rw [hp] at ha; rw [← List.mem_singleton.1 ha]; exact hacc true
  | load b o f => rw [hp] at ha; rw [← List.mem_singleton.1 ha]; exact hacc false
  | cas b old new ok err f =>
    rw [hp] at ha
    rw [← List.mem_singleton.1 ha]
    dsimp only
    split <;> (try split) <;> exact hacc false
  | free b len f =>
    rw [hp] at ha
    obtain ⟨j, hj, rfl⟩ := List.mem_map.1 ha
    dsimp only
    -- races are only added, and the freed word is one of those accessed
    have keep : ∀ (l : List Nat) (d : Mach ι α), d.mem = c.mem → (d.races ≠ [] ∨ j ∈ l) →
        (l.foldl (fun c j => c.access i true (b + j)) d).races ≠ [] := by
      intro l
      induction l with
      | nil => intro d _ h; exact h.resolve_right (List.not_mem_nil)
      | cons x l ih =>
        intro d hd h
        refine ih _ ((access_mem d i true (b + x)).1.trans hd) ?_
        rcases h with h | h
        · left
          change (d.access i true (b + x)).races ≠ []
          unfold Mach.access
          split
          · exact h
          · exact List.cons_ne_nil _ _
        · rcases List.mem_cons.1 h with rfl | h
          · left
            change (d.access i true (b + j)).races ≠ []
            unfold Mach.access
            rw [if_neg (by rw [hd, hord]; exact Bool.false_ne_true)]
            exact List.cons_ne_nil _ _
          · exact .inr h
    exact keep _ c rfl (.inr hj)

/-- Whatever the orderings, no thread uses a word that is not allocated. -/
theorem publication_no_dangling (hT : T.Ok levels) (hc : OwnIds T calls) (t : List (ι × Nat)) :
    ((tableStart o T levels calls).exec t).NoDangling :=
  (exec_safe (o := o) hT calls hc t).noDangling

/-- Whatever the orderings, no call panics (in particular none runs out of levels, finds
an index out of range or a failing compare-and-swap without a current value). -/
theorem publication_no_panic (hT : T.Ok levels) (hc : OwnIds T calls) (t : List (ι × Nat)) (i : ι) :
    ((tableStart o T levels calls).exec t).pool i ≠ .panic := by
  obtain ⟨_, _, hs, _⟩ := exec_safe (o := o) hT calls hc t
  intro hp
  have := hs i
  rw [hp] at this
  exact this

/-- Every thread has finished after at most 11 of its own steps for every level and call,
whatever the others do. -/
theorem publication_wait_free (hT : T.Ok levels) (hc : OwnIds T calls) (t : List (ι × Nat)) (i : ι)
    (ht : 11 * levels * (calls i).length ≤ t.countP (fun x => x.1 = i)) :
    ∃ as, ((tableStart o T levels calls).exec t).pool i = .ret as ∧ as.length = (calls i).length := by
  have hw := exec_within (c := tableStart o T levels calls) (i := i) t
    (show within ((tableStart o T levels calls).pool i) _ from within_thread levels (calls i))
  rw [Nat.sub_eq_zero_of_le ht] at hw
  rcases within_zero hw with ⟨as, h⟩ | h
  · obtain ⟨_, _, hs, _⟩ := exec_safe (o := o) hT calls hc t
    have h' := hs i
    rw [h] at h'
    exact ⟨as, h, h'.2.2.length⟩
  · exact (publication_no_panic hT hc t i h).elim

/-- Whatever the orderings, all answers for one id are the same entry, in all threads. -/
theorem publication_agrees (hT : T.Ok levels) (hc : OwnIds T calls) (t : List (ι × Nat)) {i j : ι}
    {m n : Nat} {c d : TableCall} {p q : Nat}
    (hp : Answered ((tableStart o T levels calls).exec t) calls i m c (some p))
    (hq : Answered ((tableStart o T levels calls).exec t) calls j n d (some q)) (hid : c.id = d.id) : p = q := by
  obtain ⟨_, hinv, hs, _⟩ := exec_safe (o := o) hT calls hc t
  obtain ⟨hc1, as, hi, ha⟩ := hp
  obtain ⟨hd1, bs, hj, hb⟩ := hq
  have h1 := hs i
  have h2 := hs j
  rw [hi] at h1
  rw [hj] at h2
  have f1 := (h1.2.2.get hc1 ha).1 p rfl
  have f2 := (h2.2.2.get hd1 hb).1 q rfl
  rw [← hid] at f2
  exact f1.unique hinv f2 (bucket_root h1.2.1)

/-- Whatever the orderings, different ids never share an entry. -/
theorem publication_separates (hT : T.Ok levels) (hc : OwnIds T calls) (t : List (ι × Nat)) {i j : ι}
    {m n : Nat} {c d : TableCall} {p q : Nat}
    (hp : Answered ((tableStart o T levels calls).exec t) calls i m c (some p))
    (hq : Answered ((tableStart o T levels calls).exec t) calls j n d (some q)) (hid : c.id ≠ d.id) : p ≠ q := by
  obtain ⟨_, hinv, hs, _⟩ := exec_safe (o := o) hT calls hc t
  obtain ⟨hc1, as, hi, ha⟩ := hp
  obtain ⟨hd1, bs, hj, hb⟩ := hq
  have h1 := hs i
  have h2 := hs j
  rw [hi] at h1
  rw [hj] at h2
  have f1 := ((h1.2.2.get hc1 ha).1 p rfl).entry hinv (bucket_root h1.2.1)
  have f2 := ((h2.2.2.get hd1 hb).1 q rfl).entry hinv (bucket_root h2.2.1)
  rintro rfl
  obtain ⟨v1, _, r1⟩ := f1
  have := (hinv.val (entry_role r1).1 v1 f2.1).1
  injection this with h
  exact hid h

/-- Whatever the orderings, a creation answers with an entry. -/
theorem publication_creates (hT : T.Ok levels) (hc : OwnIds T calls) (t : List (ι × Nat)) {i : ι}
    {m x : Nat} {a : Word} (ha : Answered ((tableStart o T levels calls).exec t) calls i m (.findOrInit x) a) :
    ∃ p, a = some p := by
  obtain ⟨_, hinv, hs, _⟩ := exec_safe (o := o) hT calls hc t
  obtain ⟨hc1, as, hi, ha⟩ := ha
  have h1 := hs i
  rw [hi] at h1
  exact Option.ne_none_iff_exists'.1 ((h1.2.2.get hc1 ha).2 (.inl rfl))

/-- Whatever the orderings, a thread that has found or created an entry finds it from
then on. -/
theorem publication_read_own (hT : T.Ok levels) (hc : OwnIds T calls) (t : List (ι × Nat)) {i : ι}
    {m n : Nat} (hmn : m < n) {c d : TableCall} {p : Nat} {a : Word} (hid : c.id = d.id)
    (hp : Answered ((tableStart o T levels calls).exec t) calls i m c (some p))
    (ha : Answered ((tableStart o T levels calls).exec t) calls i n d a) : a = some p := by
  obtain ⟨_, hinv, hs, _⟩ := exec_safe (o := o) hT calls hc t
  have hp' := hp
  have ha' := ha
  obtain ⟨hc1, as, hi, h1⟩ := hp
  obtain ⟨hd1, bs, hj, h2⟩ := ha
  rw [hi] at hj
  cases hj
  have hA := hs i
  rw [hi] at hA
  obtain ⟨q, rfl⟩ := Option.ne_none_iff_exists'.1 (hA.2.2.again hmn hc1 hd1 h1 h2 hid (by simp))
  rw [publication_agrees hT hc t hp' ha' hid]

/-! ## Examples -/

/-- Two threads: one creates two entries that share a bucket, one looks for them. -/
def weakCalls : Bool → List TableCall := fun b =>
  if b then [.findOrInit 0x0a000000, .findOrInit 0x0a0a0000, .find 0x0a000000]
  else [.find 0x0a0a0000, .findOrInit 0x0a0a0000]

/-- Addresses of length 16 are ids of the table of length 16. -/
theorem weakCalls_ids : OwnIds (lenTable 32 16) weakCalls := by
  have h : ∀ x, x < 2 ^ 32 → (∀ i, 16 ≤ i → (BitVec.ofNat 32 x).getMsbD i = false) → (lenTable 32 16).ids x :=
    fun x hx h => ⟨BitVec.ofNat 32 x, by rw [BitVec.toNat_ofNat, Nat.mod_eq_of_lt hx], by decide, h⟩
  have hi : ∀ x, (∀ i < 32, 16 ≤ i → (BitVec.ofNat 32 x).getMsbD i = false) →
      ∀ i, 16 ≤ i → (BitVec.ofNat 32 x).getMsbD i = false := by
    intro x h i hi
    by_cases hlt : i < 32
    · exact h i hlt hi
    · exact BitVec.getMsbD_of_ge _ _ (by omega)
  intro b c hc
  cases b
  · simp [weakCalls] at hc
    rcases hc with rfl | rfl
    · exact h _ (by decide) (hi _ (by decide))
    · exact h _ (by decide) (hi _ (by decide))
  · simp [weakCalls] at hc
    rcases hc with rfl | rfl | rfl
    · exact h _ (by decide) (hi _ (by decide))
    · exact h _ (by decide) (hi _ (by decide))
    · exact h _ (by decide) (hi _ (by decide))

/-- An interleaving of them. -/
def weakTrace : List (Bool × Nat) :=
  List.replicate 3 (false, 0) ++ List.replicate 30 (true, 0) ++ List.replicate 40 (false, 1) ++
    List.replicate 40 (true, 1)

/-- The result of a finished program. -/
def result : WProg (List Word) → Option (List Word)
  | .ret as => some as
  | _ => none

theorem eq_ret {p : WProg (List Word)} {as : List Word} (h : result p = some as) : p = .ret as := by
  cases p <;> simp [result] at h
  rw [h]

/-- The run with the orderings that are needed. -/
abbrev goodRun : Mach Bool (List Word) :=
  (tableStart ⟨.acquire, .release, .acquire⟩ (lenTable 32 16) (lenLevels 16) weakCalls).exec weakTrace

/-- The run with the orderings of the code. -/
abbrev codeRun : Mach Bool (List Word) :=
  (tableStart codeOrders (lenTable 32 16) (lenLevels 16) weakCalls).exec weakTrace

theorem goodRun_result : goodRun.pool true = .ret [some 18, some 40, some 18] ∧
    goodRun.pool false = .ret [none, some 40] :=
  ⟨eq_ret (by decide +kernel), eq_ret (by decide +kernel)⟩

theorem codeRun_result : codeRun.pool true = .ret [some 18, some 40, some 18] ∧
    codeRun.pool false = .ret [none, some 40] :=
  ⟨eq_ret (by decide +kernel), eq_ret (by decide +kernel)⟩

theorem codeRun_made : Answered codeRun weakCalls true 0 (.findOrInit 0x0a000000) (some 18) :=
  ⟨rfl, _, codeRun_result.1, rfl⟩

theorem codeRun_made' : Answered codeRun weakCalls true 1 (.findOrInit 0x0a0a0000) (some 40) :=
  ⟨rfl, _, codeRun_result.1, rfl⟩

theorem codeRun_again : Answered codeRun weakCalls true 2 (.find 0x0a000000) (some 18) :=
  ⟨rfl, _, codeRun_result.1, rfl⟩

theorem codeRun_other : Answered codeRun weakCalls false 1 (.findOrInit 0x0a0a0000) (some 40) :=
  ⟨rfl, _, codeRun_result.2, rfl⟩

/-- The first lookup of the other thread does not find what was created meanwhile. -/
example : Answered codeRun weakCalls false 0 (.find 0x0a0a0000) none := ⟨rfl, _, codeRun_result.2, rfl⟩

example : goodRun.races = [] :=
  publication_race_free (lenTable_ok 32 16) weakCalls_ids rfl rfl rfl weakTrace

example : codeRun.races ≠ [] := by decide +kernel

example : ((tableStart codeOrders (lenTable 32 16) (lenLevels 16) weakCalls).exec weakTrace).pool true ≠
    WProg.panic := publication_no_panic (lenTable_ok 32 16) weakCalls_ids weakTrace true

example : codeRun.NoDangling := publication_no_dangling (lenTable_ok 32 16) weakCalls_ids weakTrace

/-- A thread that reads a block after it has freed it. -/
def useAfterFree : Mach Unit Word where
  mem a := if a = 3 then [⟨none, false, .none⟩] else []
  top := 4
  know _ := Know.none.add (3, 0)
  pool _ := .free 3 1 (.plain 3 .ret)
  races := []

example : (useAfterFree.step () 0).races = [] ∧ ((useAfterFree.step () 0).step () 0).races ≠ [] :=
  ⟨by decide +kernel, dangling_is_race (useAfterFree.step () 0) (i := ()) (a := 3) (by decide +kernel) rfl 0⟩

example : ∃ as, ((tableStart codeOrders (lenTable 32 16) (lenLevels 16) weakCalls).exec
    (weakTrace ++ List.replicate 60 (false, 0))).pool false = .ret as ∧ as.length = 2 :=
  publication_wait_free (o := codeOrders) (lenTable_ok 32 16) weakCalls_ids
    (weakTrace ++ List.replicate 60 (false, 0)) false (by decide +kernel)

example : (40 : Nat) = 40 :=
  publication_agrees (lenTable_ok 32 16) weakCalls_ids weakTrace codeRun_made' codeRun_other rfl

example : (18 : Nat) ≠ 40 :=
  publication_separates (lenTable_ok 32 16) weakCalls_ids weakTrace codeRun_made codeRun_other (by decide)

example : ∃ p, (some 40 : Word) = some p :=
  publication_creates (lenTable_ok 32 16) weakCalls_ids weakTrace codeRun_other

example : (some 18 : Word) = some 18 :=
  publication_read_own (lenTable_ok 32 16) weakCalls_ids weakTrace (by decide : 0 < 2)
    (c := .findOrInit 0x0a000000) (d := .find 0x0a000000) rfl codeRun_made codeRun_again

example : ¬ ∀ calls : Bool → List TableCall, OwnIds (lenTable 32 16) calls → ∀ t,
    ((tableStart codeOrders (lenTable 32 16) (lenLevels 16) calls).exec t).races = [] := fun h => by
  have := (publication_race_free_iff (o := codeOrders) (lenTable_ok 32 16)
    (x := 0x0a0a0000) (weakCalls_ids true (.findOrInit 0x0a0a0000) (by decide))).1 h
  exact absurd this.1 (by decide)

example : ∃ t, ((tableStart codeOrders (lenTable 32 16) (lenLevels 16)
    (fun b : Bool => if b then [.findOrInit 0x0a000000] else [.find 0x0a0a0000])).exec t).races ≠ [] :=
  oncebox_publication_races 32 16 (weakCalls_ids true (.findOrInit 0x0a0a0000) (by decide))

end Rotonda.Props
