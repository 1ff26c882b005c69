import Verif.Peek.Table
import Verif.Peek.Scan

/-!
# `HashIndex::Iter` beside other threads

`Iter::next` (/repo/src/hash_index.rs 2098-2166) goes through the buckets of an array without any lock, while
the steps of `Verif/Table` go on: operations, relocation, resizing. An iteration starts with the array that is
being replaced, if there is one, and goes on to newer arrays until the one it has gone through is the current
one.

What the visit of a bucket yields is what `Verif/Peek/Scan.lean` proves of the single loads: an entry that is
yielded was held by the bucket at some moment during the visit or was being stored (`bucket_yields`, here
`Finds`); a key that is not yielded exactly once was missing at some moment, or was being removed or updated
(`bucket_skips`, `bucket_at_most_once`, here `Misses`).
-/

set_option linter.unusedSimpArgs false
set_option linter.unusedSectionVars false
set_option linter.unusedVariables false

namespace Scc.Table

variable {K V R : Type} {hash : K → Nat} {U : Goal K V R → Prop} [DecidableEq K]

/-- Where an iteration is. -/
inductive ItPc
  /-- about to load the current array (hash_index.rs 2104) -/
  | load
  /-- has loaded array `a`, about to load its link (hash_index.rs 2105-2109) -/
  | link (a : Nat)
  /-- going through bucket `i` of array `x` (hash_index.rs 2117-2125) -/
  | scan (x i : Nat)
  /-- has gone through array `x`, about to load the current array (hash_index.rs 2128-2139) -/
  | more (x : Nat)
  /-- has loaded array `a`, which is not `x`; about to load its link (hash_index.rs 2141-2155) -/
  | turn (x a : Nat)
  /-- `next` has returned `None` -/
  | done

/-- How often key `k` is in a list of entries. -/
def howOften (k : K) (ys : List (K × V)) : Nat := (ys.filter (fun y => y.1 = k)).length

/-- An iteration: the states it has passed through, those since the visit of the present bucket began, all
entries yielded so far, those yielded in the present bucket, the state it is in, and where it is. -/
inductive It (hash : K → Nat) (U : Goal K V R → Prop) :
    List (St K V R) → List (St K V R) → List (K × V) → List (K × V) → St K V R → ItPc → Prop
  /-- the first call of `next` -/
  | start {s₀ s : St K V R} {es} : Init s₀ → Exec hash s₀ es s → It hash U [s] [s] [] [] s .load
  /-- a step of anybody else -/
  | other {σ seg ys zs} {s s' : St K V R} {e p} : It hash U σ seg ys zs s p → Step hash s e s' →
      It hash U (s' :: σ) (s' :: seg) ys zs s' p
  | loadNone {σ seg ys zs} {s : St K V R} : It hash U σ seg ys zs s .load → s.cur = none →
      It hash U σ seg ys zs s .done
  | load {σ seg ys zs} {s : St K V R} {a} : It hash U σ seg ys zs s .load → s.cur = some a →
      It hash U σ seg ys zs s (.link a)
  | linkNone {σ seg ys zs} {s : St K V R} {a} : It hash U σ seg ys zs s (.link a) → (s.arr a).linked = none →
      It hash U σ [s] ys [] s (.scan a 0)
  | linkSome {σ seg ys zs} {s : St K V R} {a o} : It hash U σ seg ys zs s (.link a) → (s.arr a).linked = some o →
      It hash U σ [s] ys [] s (.scan o 0)
  /-- an entry of the bucket is yielded -/
  | yield {σ seg ys zs} {s t : St K V R} {x i k v} : It hash U σ seg ys zs s (.scan x i) → t ∈ seg →
      s.ix hash x k = i → Finds hash t x k v → (howOften k zs ≠ 0 → ∃ u, u ∈ seg ∧ Misses hash U u x k) →
      It hash U σ seg ((k, v) :: ys) ((k, v) :: zs) s (.scan x i)
  /-- there are no more entries in the bucket (hash_index.rs 2157-2160) -/
  | next {σ seg ys zs} {s : St K V R} {x i} : It hash U σ seg ys zs s (.scan x i) → i + 1 ≠ s.len x →
      (∀ k, s.ix hash x k = i → howOften k zs ≠ 1 → ∃ u, u ∈ seg ∧ Misses hash U u x k) →
      It hash U σ [s] ys [] s (.scan x (i + 1))
  /-- it was the last bucket (hash_index.rs 2128) -/
  | last {σ seg ys zs} {s : St K V R} {x i} : It hash U σ seg ys zs s (.scan x i) → i + 1 = s.len x →
      (∀ k, s.ix hash x k = i → howOften k zs ≠ 1 → ∃ u, u ∈ seg ∧ Misses hash U u x k) →
      It hash U σ [s] ys [] s (.more x)
  | moreNone {σ seg ys zs} {s : St K V R} {x} : It hash U σ seg ys zs s (.more x) → s.cur = none →
      It hash U σ seg ys zs s .done
  | same {σ seg ys zs} {s : St K V R} {x} : It hash U σ seg ys zs s (.more x) → s.cur = some x →
      It hash U σ seg ys zs s .done
  | more {σ seg ys zs} {s : St K V R} {x a} : It hash U σ seg ys zs s (.more x) → s.cur = some a → a ≠ x →
      It hash U σ seg ys zs s (.turn x a)
  | turnNone {σ seg ys zs} {s : St K V R} {x a} : It hash U σ seg ys zs s (.turn x a) → (s.arr a).linked = none →
      It hash U σ [s] ys [] s (.scan a 0)
  | turnDone {σ seg ys zs} {s : St K V R} {x a} : It hash U σ seg ys zs s (.turn x a) → (s.arr a).linked = some x →
      It hash U σ [s] ys [] s (.scan a 0)
  | turnOld {σ seg ys zs} {s : St K V R} {x a o} : It hash U σ seg ys zs s (.turn x a) → (s.arr a).linked = some o →
      o ≠ x → It hash U σ [s] ys [] s (.scan o 0)

theorem It.facts {σ seg ys zs} {s : St K V R} {p : ItPc} (h : It hash U σ seg ys zs s p) :
    s ∈ σ ∧ s ∈ seg ∧ (∀ t, t ∈ seg → t ∈ σ) ∧ ∀ t, t ∈ σ → Reach hash t := by
  induction h with
  | start h0 h1 =>
    refine ⟨List.mem_cons_self, List.mem_cons_self, fun _ h => h, fun t ht => ?_⟩
    rw [List.mem_singleton] at ht
    subst ht
    exact ⟨_, _, h0, h1⟩
  | other h1 st ih =>
    obtain ⟨i1, i2, i3, i4⟩ := ih
    refine ⟨List.mem_cons_self, List.mem_cons_self, fun t ht => ?_, fun t ht => ?_⟩
    · rcases List.mem_cons.1 ht with rfl | ht
      · exact List.mem_cons_self
      · exact List.mem_cons_of_mem _ (i3 t ht)
    · rcases List.mem_cons.1 ht with rfl | ht
      · exact (i4 _ i1).step st
      · exact i4 t ht
  | linkNone _ _ ih | linkSome _ _ ih | next _ _ _ ih | last _ _ _ ih | turnNone _ _ ih | turnDone _ _ ih | turnOld _ _ _ ih =>
    exact ⟨ih.1, List.mem_cons_self, fun t ht => by rw [List.mem_singleton] at ht; subst ht; exact ih.1, ih.2.2.2⟩
  | loadNone _ _ ih | load _ _ ih | yield _ _ _ _ _ ih | moreNone _ _ ih | same _ _ ih | more _ _ _ ih =>
    exact ih

/-! ## Soundness -/

/-- **C55, soundness.** Every entry the iterator yields was in the map at some moment during the iteration, or
was being stored by an operation in progress at that moment. -/
theorem c55_sound (hh : ∀ k, hash k < 2 ^ 64) {σ seg ys zs} {s : St K V R} {p : ItPc} (h : It hash U σ seg ys zs s p)
    {k : K} {v : V} (hm : (k, v) ∈ ys) : ∃ t, t ∈ σ ∧ (t.absMap hash k = some v ∨ Storing hash t k v) := by
  induction h with
  | start => cases hm
  | other _ _ ih =>
    obtain ⟨t, h1, h2⟩ := ih hm
    exact ⟨t, List.mem_cons_of_mem _ h1, h2⟩
  | yield h1 h2 h3 h4 h5 ih =>
    rcases List.mem_cons.1 hm with hm | hm
    · injection hm with e1 e2
      subst e1 e2
      have := h1.facts
      exact ⟨_, this.2.2.1 _ h2, finds_spec hh (this.2.2.2 _ (this.2.2.1 _ h2)) h4⟩
    · exact ih hm
  | loadNone _ _ ih | load _ _ ih | moreNone _ _ ih | same _ _ ih | more _ _ _ ih | linkNone _ _ ih | linkSome _ _ ih
  | next _ _ _ ih | last _ _ _ ih | turnNone _ _ ih | turnDone _ _ ih | turnOld _ _ _ ih => exact ih hm

/-! ## Completeness -/

/-- Array `y` stores key `k`. -/
def InArr (hash : K → Nat) (s : St K V R) (k : K) (y : Nat) : Prop := s.val hash y k ≠ none

theorem inArr_stored {s : St K V R} {k : K} {y : Nat} (h : InArr hash s k y) :
    ∃ v, StoredAt s k y (s.ix hash y k) v := by
  unfold InArr St.val at h
  cases hv : (s.b y (s.ix hash y k)).content k with
  | none => exact absurd hv h
  | some v => exact ⟨v, hv⟩

theorem inArr_unique (hh : ∀ k, hash k < 2 ^ 64) {s : St K V R} (hr : Reach hash s) {k : K} {x y : Nat}
    (h : InArr hash s k x) (h' : InArr hash s k y) : x = y := by
  obtain ⟨s₀, es, h0, h1⟩ := hr
  obtain ⟨v, hv⟩ := inArr_stored h
  obtain ⟨w, hw⟩ := inArr_stored h'
  exact ((c03_one_place hh h0 h1 k).1 _ _ _ _ _ _ hv hw).1

theorem inArr_use (hh : ∀ k, hash k < 2 ^ 64) {s : St K V R} (hr : Reach hash s) {k : K} {x : Nat}
    (h : InArr hash s k x) : InUse s x := by
  obtain ⟨v, hv⟩ := inArr_stored h
  exact (stored_inUse hh (hr.inv hh).glob hv).1

theorem inArr_abs (hh : ∀ k, hash k < 2 ^ 64) {s : St K V R} (hr : Reach hash s) {k : K} :
    s.absMap hash k ≠ none ↔ ∃ x, InArr hash s k x := by
  obtain ⟨s₀, es, h0, h1⟩ := id hr
  have h3 := (c03_one_place hh h0 h1 k).2.2
  constructor
  · intro h
    cases hv : s.absMap hash k with
    | none => exact absurd hv h
    | some v =>
      obtain ⟨x, i, h4⟩ := (h3 v).1 hv
      refine ⟨x, ?_⟩
      unfold InArr
      rw [stored_val hh hr h4]
      simp
  · rintro ⟨x, h⟩
    obtain ⟨v, hv⟩ := inArr_stored h
    rw [(h3 v).2 ⟨x, _, hv⟩]
    simp

/-- An array in use is the current one or the one before. -/
theorem use_cur {s : St K V R} (hG : Glob hash s) {x : Nat} (h : InUse s x) :
    ∃ c, s.cur = some c ∧ c + 1 = s.next ∧ (x = c ∨ c = x + 1 ∧ (s.arr c).linked = some x) := by
  rcases h with h | ⟨a, h, h'⟩
  · exact ⟨x, h, hG.cur_last x h, .inl rfl⟩
  · have := hG.cur_last a h
    exact ⟨a, h, this, .inr ⟨hG.linked_pred a x (by omega) h', h'⟩⟩

/-- Entries move to newer arrays only. -/
theorem inArr_step (hh : ∀ k, hash k < 2 ^ 64) {s s' : St K V R} {e} (hr : Reach hash s) (st : Step hash s e s') {k : K}
    {y y' : Nat} (h : InArr hash s k y) (h' : InArr hash s' k y') : y ≤ y' := by
  have hI := hr.inv hh
  have hr' := hr.step st
  obtain ⟨c, h1, h2, h3⟩ := use_cur hI.glob (inArr_use hh hr h)
  obtain ⟨c', h1', h2', h3'⟩ := use_cur (hr'.inv hh).glob (inArr_use hh hr' h')
  have := next_mono st
  rcases Nat.lt_or_ge y' y with hlt | hge
  · exfalso
    have e1 : c' = c := by omega
    have e2 : y = c := by omega
    subst e1 e2
    have := val_stays hh hI st h1 h1' h ((inArr_abs hh hr').2 ⟨y', h'⟩)
    have := inArr_unique hh hr' h' this
    omega
  · exact hge

/-- Key `k` is stored in array `x` or a newer one. -/
def Beyond (hash : K → Nat) (s : St K V R) (k : K) (x : Nat) : Prop := ∃ y, x ≤ y ∧ InArr hash s k y

theorem Beyond.step (hh : ∀ k, hash k < 2 ^ 64) {s s' : St K V R} {e} (hr : Reach hash s) (st : Step hash s e s') {k : K}
    {x : Nat} (h : Beyond hash s k x) (hs' : s'.absMap hash k ≠ none) : Beyond hash s' k x := by
  obtain ⟨y, h1, h2⟩ := h
  obtain ⟨y', h3⟩ := (inArr_abs hh (hr.step st)).1 hs'
  exact ⟨y', Nat.le_trans h1 (inArr_step hh hr st h2 h3), h3⟩

/-- If an array has no link, older ones hold nothing. -/
theorem beyond_none (hh : ∀ k, hash k < 2 ^ 64) {s : St K V R} (hr : Reach hash s) {k : K} {a : Nat} (ha : a < s.next)
    (hl : (s.arr a).linked = none) (hk : s.absMap hash k ≠ none) : Beyond hash s k a := by
  obtain ⟨y, hy⟩ := (inArr_abs hh hr).1 hk
  refine ⟨y, ?_, hy⟩
  obtain ⟨c, h1, h2, h3⟩ := use_cur (hr.inv hh).glob (inArr_use hh hr hy)
  rcases h3 with h3 | ⟨h3, h4⟩
  · omega
  · rcases Nat.lt_or_ge y a with h5 | h5
    · have : c = a := by omega
      subst this
      rw [hl] at h4; cases h4
    · exact h5

/-- If an array has a link, arrays older than the linked one hold nothing. -/
theorem beyond_some (hh : ∀ k, hash k < 2 ^ 64) {s : St K V R} (hr : Reach hash s) {k : K} {a o : Nat} (ha : a < s.next)
    (hl : (s.arr a).linked = some o) (hk : s.absMap hash k ≠ none) : Beyond hash s k o := by
  obtain ⟨y, hy⟩ := (inArr_abs hh hr).1 hk
  refine ⟨y, ?_, hy⟩
  have := (hr.inv hh).glob.linked_pred a o ha hl
  obtain ⟨c, h1, h2, h3⟩ := use_cur (hr.inv hh).glob (inArr_use hh hr hy)
  rcases h3 with h3 | ⟨h3, h4⟩ <;> omega

/-- The key is in the map all the time, and nobody removes it or replaces its value with `update`. -/
def Steady (hash : K → Nat) (U : Goal K V R → Prop) (σ : List (St K V R)) (k : K) : Prop :=
  ∀ t, t ∈ σ → t.absMap hash k ≠ none ∧ ¬ Removing hash t k ∧ ¬ Replacing hash U t k

/-- A key that has not been yielded is still ahead. -/
def Todo (hash : K → Nat) (k : K) (seg : List (St K V R)) (s : St K V R) : ItPc → Prop
  | .load => True
  | .link a => a < s.next
  | .scan x i => x < s.next ∧ i < s.len x ∧ Beyond hash s k x ∧
      (InArr hash s k x → i ≤ s.ix hash x k ∧ ∀ t, t ∈ seg → s.ix hash x k = i → InArr hash t k x)
  | .more x => x < s.next ∧ Beyond hash s k (x + 1)
  | .turn x a => x < s.next ∧ a < s.next ∧ Beyond hash s k (x + 1)
  | .done => False

theorem ix_step {s s' : St K V R} {e} (st : Step hash s e s') {x : Nat} (hx : x < s.next) (k : K) :
    s'.ix hash x k = s.ix hash x k := by
  unfold St.ix; rw [(step_lg st).2 x hx]

theorem len_step {s s' : St K V R} {e} (st : Step hash s e s') {x : Nat} (hx : x < s.next) : s'.len x = s.len x := by
  unfold St.len; rw [(step_lg st).2 x hx]

theorem len_pos (s : St K V R) (x : Nat) : 0 < s.len x := Nat.pow_pos (by decide)

/-- A scan starts. -/
theorem todo_start {k : K} {s : St K V R} {x : Nat} (hx : x < s.next) (h : Beyond hash s k x) :
    Todo hash k [s] s (.scan x 0) := by
  refine ⟨hx, len_pos s x, h, fun h' => ⟨Nat.zero_le _, fun t ht _ => ?_⟩⟩
  rw [List.mem_singleton] at ht
  subst ht
  exact h'

theorem misses_in (hh : ∀ k, hash k < 2 ^ 64) {σ seg : List (St K V R)} {k : K} (hsub : ∀ t, t ∈ seg → t ∈ σ)
    (hre : ∀ t, t ∈ σ → Reach hash t) (hst : Steady hash U σ k) {x : Nat} (h : ∃ u, u ∈ seg ∧ Misses hash U u x k) :
    ∃ u, u ∈ seg ∧ ¬ InArr hash u k x := by
  obtain ⟨u, h1, h2⟩ := h
  have hu := hst u (hsub u h1)
  rcases misses_spec hh (hre u (hsub u h1)) h2 with h3 | h3 | h3
  · exact ⟨u, h1, fun h => h h3⟩
  · exact absurd h3 hu.2.1
  · exact absurd h3 hu.2.2

theorem howOften_zero {k : K} {zs : List (K × V)} (h : ∀ v, (k, v) ∉ zs) : howOften k zs = 0 := by
  unfold howOften
  rw [List.length_eq_zero_iff, List.filter_eq_nil_iff]
  intro a ha hk
  simp only [decide_eq_true_eq] at hk
  subst hk
  exact h a.2 ha

theorem It.sub {σ seg ys zs} {s : St K V R} {p : ItPc} (h : It hash U σ seg ys zs s p) : ∀ y, y ∈ zs → y ∈ ys := by
  induction h with
  | start => exact fun y h => h
  | yield _ _ _ _ _ ih =>
    intro y hy
    rcases List.mem_cons.1 hy with rfl | hy
    · exact List.mem_cons_self
    · exact List.mem_cons_of_mem _ (ih y hy)
  | linkNone | linkSome | next | last | turnNone | turnDone | turnOld => exact fun y h => by cases h
  | other _ _ ih | loadNone _ _ ih | load _ _ ih | moreNone _ _ ih | same _ _ ih | more _ _ _ ih => exact ih

theorem it_todo (hh : ∀ k, hash k < 2 ^ 64) {k : K} {σ seg ys zs} {s : St K V R} {p : ItPc} (h : It hash U σ seg ys zs s p) :
    Steady hash U σ k → (∀ v, (k, v) ∉ ys) → Todo hash k seg s p := by
  induction h with
  | start => exact fun _ _ => trivial
  | @other σ seg ys zs s s' e p h1 st ih =>
    intro hst hno
    have hf := h1.facts
    have hre := hf.2.2.2 s hf.1
    have ih := ih (fun t ht => hst t (List.mem_cons_of_mem _ ht)) hno
    have hs' := (hst s' List.mem_cons_self).1
    have up : ∀ {a}, a < s.next → a < s'.next := fun h => Nat.lt_of_lt_of_le h (next_mono st)
    cases p with
    | load => trivial
    | link a => exact up ih
    | scan x i =>
      obtain ⟨i1, i2, i3, i4⟩ := ih
      refine ⟨up i1, by rw [len_step st i1]; exact i2, i3.step hh hre st hs', fun hin => ?_⟩
      have hin0 : InArr hash s k x := by
        obtain ⟨y, h2, h3⟩ := i3
        have := inArr_step hh hre st h3 hin
        have : y = x := by omega
        subst this
        exact h3
      rw [ix_step st i1]
      obtain ⟨i5, i6⟩ := i4 hin0
      refine ⟨i5, fun t ht hix => ?_⟩
      rcases List.mem_cons.1 ht with rfl | ht
      · exact hin
      · exact i6 t ht hix
    | more x => exact ⟨up ih.1, ih.2.step hh hre st hs'⟩
    | turn x a => exact ⟨up ih.1, up ih.2.1, ih.2.2.step hh hre st hs'⟩
    | done => exact ih
  | loadNone h1 hc ih =>
    intro hst hno
    have := (hst _ h1.facts.1).1
    unfold St.absMap at this
    rw [hc] at this
    exact absurd rfl this
  | @load σ seg ys zs s a h1 hc ih =>
    intro hst hno
    have := ((h1.facts.2.2.2 _ h1.facts.1).inv hh).glob.cur_last a hc
    show a < s.next
    omega
  | @linkNone σ seg ys zs s a h1 hl ih =>
    intro hst hno
    have ha : a < s.next := ih hst hno
    have hf := h1.facts
    exact todo_start ha (beyond_none hh (hf.2.2.2 s hf.1) ha hl (hst s hf.1).1)
  | @linkSome σ seg ys zs s a o h1 hl ih =>
    intro hst hno
    have ha : a < s.next := ih hst hno
    have hf := h1.facts
    have hre := hf.2.2.2 s hf.1
    have := (hre.inv hh).glob.linked_pred a o ha hl
    exact todo_start (by omega) (beyond_some hh hre ha hl (hst s hf.1).1)
  | yield h1 _ _ _ _ ih => exact fun hst hno => ih hst (fun v hv => hno v (List.mem_cons_of_mem _ hv))
  | @next σ seg ys zs s x i h1 hi hm ih =>
    intro hst hno
    obtain ⟨i1, i2, i3, i4⟩ := ih hst hno
    have hf := h1.facts
    refine ⟨i1, by omega, i3, fun hin => ?_⟩
    obtain ⟨i5, i6⟩ := i4 hin
    have hne : s.ix hash x k ≠ i := by
      intro hix
      have h0 := howOften_zero (fun v hv => hno v (h1.sub _ hv))
      obtain ⟨u, h2, h3⟩ := misses_in hh hf.2.2.1 hf.2.2.2 hst (hm k hix (by omega))
      exact h3 (i6 u h2 hix)
    refine ⟨by omega, fun t ht _ => ?_⟩
    rw [List.mem_singleton] at ht
    subst ht
    exact hin
  | @last σ seg ys zs s x i h1 hi hm ih =>
    intro hst hno
    obtain ⟨i1, i2, i3, i4⟩ := ih hst hno
    have hf := h1.facts
    have hre := hf.2.2.2 s hf.1
    refine ⟨i1, ?_⟩
    obtain ⟨y, h2, h3⟩ := i3
    have hne : y ≠ x := by
      rintro rfl
      obtain ⟨i5, i6⟩ := i4 h3
      have hlt : s.ix hash y k < s.len y := ix_lt hh (hre.inv hh).glob i1 k
      have hix : s.ix hash y k = i := by omega
      have h0 := howOften_zero (fun v hv => hno v (h1.sub _ hv))
      obtain ⟨u, h2, h3⟩ := misses_in hh hf.2.2.1 hf.2.2.2 hst (hm k hix (by omega))
      exact h3 (i6 u h2 hix)
    exact ⟨y, by omega, h3⟩
  | moreNone h1 hc ih =>
    intro hst hno
    have := (hst _ h1.facts.1).1
    unfold St.absMap at this
    rw [hc] at this
    exact absurd rfl this
  | @same σ seg ys zs s x h1 hc ih =>
    intro hst hno
    obtain ⟨i1, y, h2, h3⟩ := ih hst hno
    have hf := h1.facts
    have hre := hf.2.2.2 s hf.1
    obtain ⟨c, h4, h5, h6⟩ := use_cur (hre.inv hh).glob (inArr_use hh hre h3)
    rw [hc] at h4
    injection h4 with h4
    show False
    rcases h6 with h6 | h6 <;> omega
  | @more σ seg ys zs s x a h1 hc hne ih =>
    intro hst hno
    obtain ⟨i1, i2⟩ := ih hst hno
    have hf := h1.facts
    have := ((hf.2.2.2 s hf.1).inv hh).glob.cur_last a hc
    exact ⟨i1, by omega, i2⟩
  | @turnNone σ seg ys zs s x a h1 hl ih =>
    intro hst hno
    obtain ⟨i1, i2, i3⟩ := ih hst hno
    have hf := h1.facts
    exact todo_start i2 (beyond_none hh (hf.2.2.2 s hf.1) i2 hl (hst s hf.1).1)
  | @turnDone σ seg ys zs s x a h1 hl ih =>
    intro hst hno
    obtain ⟨i1, i2, i3⟩ := ih hst hno
    have hf := h1.facts
    have := ((hf.2.2.2 s hf.1).inv hh).glob.linked_pred a x i2 hl
    subst this
    exact todo_start i2 i3
  | @turnOld σ seg ys zs s x a o h1 hl hne ih =>
    intro hst hno
    obtain ⟨i1, i2, i3⟩ := ih hst hno
    have hf := h1.facts
    have hre := hf.2.2.2 s hf.1
    have := (hre.inv hh).glob.linked_pred a o i2 hl
    exact todo_start (by omega) (beyond_some hh hre i2 hl (hst s hf.1).1)

/-- **C55, completeness.** When the iterator has returned `None`, every key that was in the map all the time
and was not being removed or updated has been yielded, whatever else happened, including resizing. -/
theorem c55_complete (hh : ∀ k, hash k < 2 ^ 64) {k : K} {σ seg ys zs} {s : St K V R}
    (h : It hash U σ seg ys zs s .done) (hst : Steady hash U σ k) : ∃ v, (k, v) ∈ ys := by
  apply Classical.byContradiction
  intro hn
  exact it_todo hh h hst (fun v hv => hn ⟨v, hv⟩)

/-- With its value, if nobody stores another one. -/
theorem c55_complete_entry (hh : ∀ k, hash k < 2 ^ 64) {k : K} {v : V} {σ seg ys zs} {s : St K V R}
    (h : It hash U σ seg ys zs s .done) (hv : ∀ t, t ∈ σ → t.absMap hash k = some v ∧ ¬ Removing hash t k ∧
      ¬ Replacing hash U t k ∧ ∀ w, Storing hash t k w → w = v) : (k, v) ∈ ys := by
  obtain ⟨w, hw⟩ := c55_complete hh h (k := k) (fun t ht => by
    obtain ⟨h1, h2, h3, _⟩ := hv t ht
    exact ⟨by rw [h1]; simp, h2, h3⟩)
  obtain ⟨t, ht, h1⟩ := c55_sound hh h hw
  have hvt := hv t ht
  have : w = v := by
    rcases h1 with h1 | h1
    · rw [hvt.1] at h1; injection h1 with h1; exact h1.symm
    · exact hvt.2.2.2 w h1
  rw [← this]; exact hw

/-! ## No repetition without resizing -/

/-- The array is neither replaced nor a replacement that is still being filled. -/
def NoResize (σ : List (St K V R)) (a : Nat) : Prop := ∀ t, t ∈ σ → t.cur = some a ∧ (t.arr a).linked = none

/-- How often a steady key has been yielded. -/
def Tally (hash : K → Nat) (a : Nat) (k : K) (ys zs : List (K × V)) (s : St K V R) : ItPc → Prop
  | .load => howOften k ys = 0
  | .link x => x = a ∧ howOften k ys = 0
  | .scan x i => x = a ∧ i < s.len a ∧ (i < s.ix hash a k → howOften k ys = 0) ∧
      (i = s.ix hash a k → howOften k ys = howOften k zs ∧ howOften k zs ≤ 1) ∧
      (s.ix hash a k < i → howOften k ys = 1)
  | .more x => x = a ∧ howOften k ys = 1
  | .turn _ _ => False
  | .done => howOften k ys = 1

theorem howOften_cons (k : K) (y : K × V) (ys) :
    howOften k (y :: ys) = howOften k ys + if y.1 = k then 1 else 0 := by
  unfold howOften
  rw [List.filter_cons]
  split <;> rename_i h <;> simp at h <;> simp [h]

theorem it_tally (hh : ∀ k, hash k < 2 ^ 64) {k : K} {a : Nat} {σ seg ys zs} {s : St K V R} {p : ItPc}
    (h : It hash U σ seg ys zs s p) : Steady hash U σ k → NoResize σ a → Tally hash a k ys zs s p := by
  have inA : ∀ {t : St K V R}, t.cur = some a ∧ (t.arr a).linked = none → t.absMap hash k ≠ none → InArr hash t k a := by
    intro t ⟨h1, h2⟩ h3
    unfold St.absMap at h3
    rw [h1] at h3
    simp only [h2] at h3
    exact h3
  have noMiss : ∀ {σ seg : List (St K V R)}, (∀ t, t ∈ seg → t ∈ σ) → (∀ t, t ∈ σ → Reach hash t) → Steady hash U σ k →
      NoResize σ a → ¬ ∃ u, u ∈ seg ∧ Misses hash U u a k := by
    intro σ seg h1 h2 h3 h4 h5
    obtain ⟨u, h6, h7⟩ := misses_in hh h1 h2 h3 h5
    exact h7 (inA (h4 u (h1 u h6)) (h3 u (h1 u h6)).1)
  induction h with
  | start => exact fun _ _ => rfl
  | @other σ seg ys zs s s' e p h1 st ih =>
    intro hst hnr
    have hf := h1.facts
    have hnr' : NoResize σ a := fun t ht => hnr t (List.mem_cons_of_mem _ ht)
    have ih := ih (fun t ht => hst t (List.mem_cons_of_mem _ ht)) hnr'
    have ha : a < s.next := by
      have := ((hf.2.2.2 s hf.1).inv hh).glob.cur_last a (hnr' s hf.1).1
      omega
    cases p with
    | scan x i =>
      unfold Tally
      rw [ix_step st ha, len_step st ha]
      exact ih
    | _ => exact ih
  | loadNone h1 hc ih =>
    intro hst hnr
    have := (hnr _ h1.facts.1).1
    rw [hc] at this; cases this
  | load h1 hc ih =>
    intro hst hnr
    have := (hnr _ h1.facts.1).1
    rw [hc] at this
    injection this with this
    exact ⟨this, ih hst hnr⟩
  | @linkNone σ seg ys zs s x h1 hl ih =>
    intro hst hnr
    obtain ⟨rfl, h0⟩ := ih hst hnr
    refine ⟨rfl, len_pos _ _, fun _ => h0, fun _ => ⟨h0, Nat.zero_le _⟩, fun h => absurd h (Nat.not_lt_zero _)⟩
  | linkSome h1 hl ih =>
    intro hst hnr
    obtain ⟨rfl, h0⟩ := ih hst hnr
    have := (hnr _ h1.facts.1).2
    rw [hl] at this; cases this
  | @yield σ seg ys zs s t x i k' v h1 ht hix hfi hm ih =>
    intro hst hnr
    obtain ⟨rfl, i1, i2, i3, i4⟩ := ih hst hnr
    have hf := h1.facts
    unfold Tally
    rw [howOften_cons, howOften_cons]
    by_cases hk : k' = k
    · subst hk
      obtain ⟨i5, i6⟩ := i3 hix.symm
      have h0 : howOften k' zs = 0 := by
        apply Classical.byContradiction
        intro hne
        exact noMiss hf.2.2.1 hf.2.2.2 hst hnr (hm hne)
      simp only [if_pos]
      refine ⟨trivial, i1, fun h => ?_, fun _ => ?_, fun h => ?_⟩ <;> omega
    · simp only [if_neg hk, Nat.add_zero]
      exact ⟨trivial, i1, i2, i3, i4⟩
  | @next σ seg ys zs s x i h1 hi hm ih =>
    intro hst hnr
    obtain ⟨rfl, i1, i2, i3, i4⟩ := ih hst hnr
    have hf := h1.facts
    have key : i = s.ix hash x k → howOften k ys = 1 := by
      intro hix
      apply Classical.byContradiction
      intro hne
      exact noMiss hf.2.2.1 hf.2.2.2 hst hnr (hm k hix.symm (by have := i3 hix; omega))
    refine ⟨rfl, by omega, fun h => i2 (by omega), fun h => ⟨i2 (by omega), Nat.zero_le _⟩, fun h => ?_⟩
    rcases Nat.lt_or_ge (s.ix hash x k) i with h5 | h5
    · exact i4 h5
    · exact key (by omega)
  | @last σ seg ys zs s x i h1 hi hm ih =>
    intro hst hnr
    obtain ⟨rfl, i1, i2, i3, i4⟩ := ih hst hnr
    have hf := h1.facts
    have hre := hf.2.2.2 s hf.1
    have ha : x < s.next := by
      have := (hre.inv hh).glob.cur_last x (hnr s hf.1).1
      omega
    have hlt : s.ix hash x k < s.len x := ix_lt hh (hre.inv hh).glob ha k
    refine ⟨rfl, ?_⟩
    rcases Nat.lt_or_ge (s.ix hash x k) i with h5 | h5
    · exact i4 h5
    · have hix : i = s.ix hash x k := by omega
      apply Classical.byContradiction
      intro hne
      exact noMiss hf.2.2.1 hf.2.2.2 hst hnr (hm k hix.symm (by have := i3 hix; omega))
  | moreNone h1 hc ih =>
    intro hst hnr
    have := (hnr _ h1.facts.1).1
    rw [hc] at this; cases this
  | same h1 hc ih => exact fun hst hnr => (ih hst hnr).2
  | more h1 hc hne ih =>
    intro hst hnr
    have := (hnr _ h1.facts.1).1
    rw [hc] at this
    injection this with this
    exact absurd (this.trans (ih hst hnr).1.symm) hne
  | turnNone h1 _ ih => exact fun hst hnr => (ih hst hnr).elim
  | turnDone h1 _ ih => exact fun hst hnr => (ih hst hnr).elim
  | turnOld h1 _ _ ih => exact fun hst hnr => (ih hst hnr).elim

/-- **C55, no repetition.** If the table is not being resized, a key that was in the map all the time and was not
being removed or updated has been yielded exactly once. -/
theorem c55_once (hh : ∀ k, hash k < 2 ^ 64) {k : K} {a : Nat} {σ seg ys zs} {s : St K V R}
    (h : It hash U σ seg ys zs s .done) (hst : Steady hash U σ k) (hnr : NoResize σ a) : howOften k ys = 1 :=
  it_tally hh h hst hnr

/-! ## Iterations -/

section Witness

theorem h0_ix (s : WSt) (x k : Nat) : s.ix h0 x k = 0 := by
  unfold St.ix h0 Scc.Index.bucketIndex
  simp

/-- No thread is inside an operation. -/
theorem steady_of {s : WSt} {k : Nat} {U : Goal Nat Nat (Spec.Res Nat Nat) → Prop} (h : s.absMap h0 k ≠ none)
    (hp : ∀ t g a, s.pc t ≠ .crit g a) : s.absMap h0 k ≠ none ∧ ¬ Removing h0 s k ∧ ¬ Replacing h0 U s k :=
  ⟨h, fun ⟨t, g, a, h, _⟩ => hp t g a h, fun ⟨t, g, a, h, _⟩ => hp t g a h⟩

/-- An iteration of a table with one entry, without resizing. -/
theorem it_plain : ∃ (s : WSt) (ys zs : List (Nat × Nat)) (seg : List WSt), It h0 (fun _ => False) [s] seg ys zs s .done ∧
    ys = [(1, 5)] ∧ Steady h0 (fun _ => False) [s] 1 ∧ NoResize [s] 0 := by
  obtain ⟨s, ex, hpc, hc, hl, hlg, hn, _, _, hb⟩ := w_insert
  have hlen : s.len 0 = 2 := by unfold St.len; rw [hlg]
  have hval : ∀ k, s.val h0 0 k = if k = 1 then some 5 else none := by
    intro k
    unfold St.val
    rw [h0_ix, hb]
    simp
  have i1 := ((It.start (U := fun _ => False) .new ex).load hc).linkNone hl
  have i2 := i1.yield (k := 1) (v := 5) List.mem_cons_self (h0_ix s 0 1) (.inl (hval 1)) (fun h => absurd rfl h)
  have i3 := i2.next (by rw [hlen]; decide) (fun k _ h => ⟨s, List.mem_cons_self, .inl (by
    rw [hval]
    by_cases hk : k = 1
    · subst hk; exact absurd rfl h
    · simp [hk])⟩)
  have i4 := i3.last (by rw [hlen]) (fun k h => by rw [h0_ix] at h; cases h)
  refine ⟨s, _, _, _, i4.same hc, rfl, fun t ht => ?_, fun t ht => ?_⟩
  · rw [List.mem_singleton] at ht
    subst ht
    refine steady_of ?_ (fun t g a h => by rw [hpc] at h; cases h)
    unfold St.absMap
    rw [hc]
    simp only [hl, hval]
    simp
  · rw [List.mem_singleton] at ht
    subst ht
    exact ⟨hc, hl⟩

/-- Key 1 is in an array of 2 buckets that is being replaced by one of 4 buckets; then it is moved. -/
theorem w_move : ∃ s s' : WSt, (∃ es, Exec h0 St.init es s) ∧ Step h0 s none s' ∧
    (∀ t g a, s.pc t ≠ .crit g a) ∧ (∀ t g a, s'.pc t ≠ .crit g a) ∧
    s.cur = some 1 ∧ (s.arr 1).linked = some 0 ∧ s'.cur = some 1 ∧ (s'.arr 1).linked = some 0 ∧
    s.len 0 = 2 ∧ s.len 1 = 4 ∧ s'.len 0 = 2 ∧ s'.len 1 = 4 ∧
    (∀ k, (s.b 0 0).content k = if k = 1 then some 5 else none) ∧
    (∀ k, (s'.b 1 0).content k = if k = 1 then some 5 else none) := by
  have e := Exec.event (hash := h0) (Exec.nil (s := (St.init : WSt)))
    (Step.invoke (t := 0) (o := wIns 1 5) rfl)
  have e := Exec.tau e (Step.alloc (t := 0) (o := wIns 1 5) 1 rfl rfl rfl (by omega) (by omega))
  have e := Exec.tau e (Step.linkNone (t := 0) (g := .op (wIns 1 5)) (a := 0) rfl rfl)
  have e := Exec.tau e (Step.lock (t := 0) (g := .op (wIns 1 5)) (a := 0) rfl rfl rfl)
  have e := Exec.tau e (Step.commit (t := 0) (o := wIns 1 5) (a := 0) rfl)
  have e := Exec.tau e (Step.unlock (t := 0) (o := wIns 1 5) (a := 0) rfl)
  have e := Exec.event e (Step.ret (t := 0) rfl)
  have e := Exec.tau e (Step.rzLoad (t := 1) (a := 0) rfl rfl)
  have e := Exec.tau e (Step.rzLink (t := 1) (a := 0) rfl rfl)
  have e := Exec.tau e (Step.rzLock (t := 1) (a := 0) rfl rfl)
  have e := Exec.tau e (Step.rzCheck (t := 1) (a := 0) rfl rfl)
  have e := Exec.tau e (Step.rzSwap (t := 1) (a := 0) 2 rfl (by omega) (by omega))
  have e := Exec.tau e (Step.rzRelease (t := 1) rfl)
  have e := Exec.tau e (Step.helpLoad (t := 1) (a := 1) rfl rfl)
  have e := Exec.tau e (Step.helpLink (t := 1) (a := 1) (o := 0) rfl rfl)
  have e := Exec.tau e (Step.helpLock (t := 1) (a := 1) (o := 0) (j := 0) rfl (by decide) rfl rfl)
  have e := Exec.tau e (Step.rlTarget (t := 1) (c := .help) (a := 1) (o := 0) (j := 0) (n := 0) rfl
    (by decide) rfl)
  have e := Exec.tau e (Step.rlTarget (t := 1) (c := .help) (a := 1) (o := 0) (j := 0) (n := 1) rfl
    (by decide) rfl)
  have e := Exec.tau e (Step.rlBegin (t := 1) (c := .help) (a := 1) (o := 0) (j := 0) (n := 2) rfl
    (by decide))
  refine ⟨_, _, ⟨_, e⟩, Step.rlMove (t := 1) (c := .help) (a := 1) (o := 0) (j := 0) (k := 1) (v := 5) rfl rfl,
    ?_, ?_, rfl, rfl, rfl, rfl, rfl, rfl, rfl, rfl, ?_, ?_⟩
  · intro t g a h
    match t with
    | 0 => cases h
    | 1 => cases h
    | n + 2 => cases h
  · intro t g a h
    match t with
    | 0 => cases h
    | 1 => cases h
    | n + 2 => cases h
  · intro k
    match k with
    | 0 => rfl
    | 1 => rfl
    | n + 2 => rfl
  · intro k
    match k with
    | 0 => rfl
    | 1 => rfl
    | n + 2 => rfl

/-- While the table is being resized an entry can be yielded twice, as the documentation says. The key is there
all the time. -/
theorem c55_repeats : ∃ (σ seg : List WSt) (s : WSt) (ys zs : List (Nat × Nat)),
    It h0 (fun _ => False) σ seg ys zs s .done ∧ ys = [(1, 5), (1, 5)] ∧ Steady h0 (fun _ => False) σ 1 := by
  obtain ⟨s, s', ⟨es, ex⟩, st, hp, hp', hc, hl, hc', hl', n0, n1, n0', n1', hb, hb'⟩ := w_move
  have hv : ∀ k, s.val h0 0 k = if k = 1 then some 5 else none := fun k => by unfold St.val; rw [h0_ix, hb]
  have hv' : ∀ k, s'.val h0 1 k = if k = 1 then some 5 else none := fun k => by unfold St.val; rw [h0_ix, hb']
  have r : Reach h0 s := ⟨_, _, .new, ex⟩
  have i1 := ((It.start (U := fun _ => False) .new ex).load hc).linkSome hl
  have i2 := i1.yield (k := 1) (v := 5) List.mem_cons_self (h0_ix s 0 1) (.inl (hv 1)) (fun h => absurd rfl h)
  have i3 := i2.next (by rw [n0]; decide) (fun k _ h => ⟨s, List.mem_cons_self, .inl (by
    rw [hv]
    by_cases hk : k = 1
    · subst hk; exact absurd rfl h
    · simp [hk])⟩)
  have i4 := i3.last (by rw [n0]) (fun k h => by rw [h0_ix] at h; cases h)
  have i5 := (i4.other st).more hc' (by decide)
  have i6 := i5.turnDone hl'
  have i7 := i6.yield (k := 1) (v := 5) List.mem_cons_self (h0_ix s' 1 1) (.inl (hv' 1)) (fun h => absurd rfl h)
  have i8 := i7.next (by rw [n1']; decide) (fun k _ h => ⟨s', List.mem_cons_self, .inl (by
    rw [hv']
    by_cases hk : k = 1
    · subst hk; exact absurd rfl h
    · simp [hk])⟩)
  have i9 := i8.next (by rw [n1']; decide) (fun k h => by rw [h0_ix] at h; cases h)
  have i10 := i9.next (by rw [n1']; decide) (fun k h => by rw [h0_ix] at h; cases h)
  have i11 := i10.last (by rw [n1']) (fun k h => by rw [h0_ix] at h; cases h)
  refine ⟨_, _, _, _, _, i11.same hc', rfl, fun t ht => ?_⟩
  have a1 : s.absMap h0 1 ≠ none := (inArr_abs h0_lt r).2 ⟨0, by unfold InArr; rw [hv]; simp⟩
  have a2 : s'.absMap h0 1 ≠ none := (inArr_abs h0_lt (r.step st)).2 ⟨1, by unfold InArr; rw [hv']; simp⟩
  rcases List.mem_cons.1 ht with rfl | ht
  · exact steady_of a2 hp'
  · rw [List.mem_singleton] at ht
    subst ht
    exact steady_of a1 hp

/-- The hypotheses of `c55_complete` and `c55_once` are met. -/
example : ∃ (s : WSt) (ys : List (Nat × Nat)), howOften 1 ys = 1 ∧ ∃ v, (1, v) ∈ ys := by
  obtain ⟨s, ys, zs, seg, h, _, h1, h2⟩ := it_plain
  exact ⟨s, ys, c55_once h0_lt h h1 h2, c55_complete h0_lt h h1⟩

example : ∃ (ys : List (Nat × Nat)), ∃ v, (1, v) ∈ ys := by
  obtain ⟨σ, seg, s, ys, zs, h, _, h1⟩ := c55_repeats
  exact ⟨ys, c55_complete h0_lt h h1⟩

end Witness

end Scc.Table
