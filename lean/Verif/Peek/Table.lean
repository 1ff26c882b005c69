import Verif.Table.MapProps
import Verif.Table.Empty

/-!
# `HashIndex::peek` on the whole table

`peek_entry` (/repo/src/hash_table.rs 222-261) beside the concurrent table of `Verif/Table`: it loads the
current array, searches the bucket of the old array if there is one, then the bucket of the current array,
and starts over if the array has been replaced meanwhile.

The search of one bucket takes time. What it may return is stated by `Finds` and `Misses`; that the search
of a bucket, load by load, beside the single stores of the owner of its lock returns nothing else is proved
in `Verif/Peek/Link.lean` (`bucket_finds`, `bucket_misses`), and that the stores of the owner group to the
steps `commit` and `rlMove` of the table in `step_effect` and `out_stays`.

An operation that holds the lock of a bucket (`crit`) has an effect on its key that readers may see before it
is complete: `Table.Step.commit` stands for the last store of the operation that readers can see. An entry
that is moved can be seen in its new place before it has left the old one.
-/

set_option linter.unusedSimpArgs false
set_option linter.unusedSectionVars false
set_option linter.unusedVariables false

namespace Scc.Table

open Scc.Index (bucketIndex)

variable {K V R : Type} {hash : K → Nat} {U : Goal K V R → Prop}

/-- What a user's operation or traversal makes of the value `x` of key `k`. -/
def Goal.out (g : Goal K V R) (k : K) (x : Option V) : Option V :=
  match g with
  | .op o => (o.f x).1
  | .tv u _ _ _ => x.bind (u k)

/-- Somebody holds the lock of the bucket of `k` in array `x` for an operation on `k`, and the outcome for
the key is `y`. -/
def Doing (hash : K → Nat) (s : St K V R) (x : Nat) (k : K) (y : Option V) : Prop :=
  ∃ t g, s.pc t = .crit g x ∧ g.touches hash s x k ∧ g.out k (s.val hash x k) = y

/-- A search of the bucket of `k` in array `x` may find `v` at this moment: it is stored there, or being
stored by an operation, or being moved there. -/
def Finds (hash : K → Nat) (s : St K V R) (x : Nat) (k : K) (v : V) : Prop :=
  s.val hash x k = some v ∨ Doing hash s x k (some v) ∨
    ∃ t c o j, s.pc t = .rlMove c x o j ∧ (s.b o j).content k = some v

/-- A search of the bucket of `k` in array `x` may miss it at this moment: it is not stored there, or it is
being removed or updated. `U`: the operations that call `OccupiedEntry::update`, which stores a second copy
and removes the first. -/
def Misses (hash : K → Nat) (U : Goal K V R → Prop) (s : St K V R) (x : Nat) (k : K) : Prop :=
  s.val hash x k = none ∨ Doing hash s x k none ∨
    ∃ t g, s.pc t = .crit g x ∧ g.touches hash s x k ∧ U g

/-- Where `peek_entry` is. -/
inductive PkPc (V : Type)
  /-- about to load the current array (hash_table.rs 230) -/
  | load
  /-- has loaded array `a`, about to load its link (hash_table.rs 232) -/
  | link (a : Nat)
  /-- searching the bucket of the old array (hash_table.rs 234-241) -/
  | old (a o : Nat)
  /-- searching the bucket of array `a` (hash_table.rs 245-252) -/
  | cur (a : Nat)
  /-- about to load the current array again (hash_table.rs 254-258) -/
  | check (a : Nat)
  | done (r : Option V)

/-- A call of `peek_entry` for key `k`: the states it has passed through, those since the search of the
present bucket began, the state it is in, and where it is. -/
inductive Peek [DecidableEq K] (hash : K → Nat) (U : Goal K V R → Prop) (k : K) :
    List (St K V R) → List (St K V R) → St K V R → PkPc V → Prop
  | start {s₀ s : St K V R} {es} : Init s₀ → Exec hash s₀ es s → Peek hash U k [s] [s] s .load
  /-- a step of anybody else -/
  | other {σ seg} {s s' : St K V R} {e p} : Peek hash U k σ seg s p → Step hash s e s' →
      Peek hash U k (s' :: σ) (s' :: seg) s' p
  | loadNone {σ seg} {s : St K V R} : Peek hash U k σ seg s .load → s.cur = none →
      Peek hash U k σ seg s (.done none)
  | load {σ seg} {s : St K V R} {a} : Peek hash U k σ seg s .load → s.cur = some a →
      Peek hash U k σ seg s (.link a)
  | linkNone {σ seg} {s : St K V R} {a} : Peek hash U k σ seg s (.link a) → (s.arr a).linked = none →
      Peek hash U k σ [s] s (.cur a)
  | linkSome {σ seg} {s : St K V R} {a o} : Peek hash U k σ seg s (.link a) → (s.arr a).linked = some o →
      Peek hash U k σ [s] s (.old a o)
  | oldFound {σ seg} {s : St K V R} {a o t v} : Peek hash U k σ seg s (.old a o) → t ∈ seg →
      Finds hash t o k v → Peek hash U k σ seg s (.done (some v))
  | oldNone {σ seg} {s : St K V R} {a o t} : Peek hash U k σ seg s (.old a o) → t ∈ seg →
      Misses hash U t o k → Peek hash U k σ [s] s (.cur a)
  | curFound {σ seg} {s : St K V R} {a t v} : Peek hash U k σ seg s (.cur a) → t ∈ seg →
      Finds hash t a k v → Peek hash U k σ seg s (.done (some v))
  | curNone {σ seg} {s : St K V R} {a t} : Peek hash U k σ seg s (.cur a) → t ∈ seg →
      Misses hash U t a k → Peek hash U k σ seg s (.check a)
  | same {σ seg} {s : St K V R} {a} : Peek hash U k σ seg s (.check a) → s.cur = some a →
      Peek hash U k σ seg s (.done none)
  | gone {σ seg} {s : St K V R} {a} : Peek hash U k σ seg s (.check a) → s.cur = none →
      Peek hash U k σ seg s (.done none)
  | again {σ seg} {s : St K V R} {a a'} : Peek hash U k σ seg s (.check a) → s.cur = some a' → a' ≠ a →
      Peek hash U k σ seg s (.link a')

variable [DecidableEq K]

/-! ## Facts about the states of a call -/

/-- A reachable state. -/
def Reach (hash : K → Nat) (s : St K V R) : Prop := ∃ s₀ es, Init s₀ ∧ Exec hash s₀ es s

theorem Reach.step {s s' : St K V R} {e} (h : Reach hash s) (st : Step hash s e s') : Reach hash s' := by
  obtain ⟨s₀, es, h0, h1⟩ := h
  cases e with
  | none => exact ⟨s₀, es, h0, .tau h1 st⟩
  | some e => exact ⟨s₀, es ++ [e], h0, .event h1 st⟩

theorem Reach.inv (hh : ∀ k, hash k < 2 ^ 64) {s : St K V R} (h : Reach hash s) : Inv hash s := by
  obtain ⟨s₀, es, h0, h1⟩ := h
  exact inv_exec hh (inv_start h0) h1

theorem Peek.facts {k : K} {σ seg} {s : St K V R} {p : PkPc V} (h : Peek hash U k σ seg s p) :
    s ∈ σ ∧ s ∈ seg ∧ (∀ t, t ∈ seg → t ∈ σ) ∧ ∀ t, t ∈ σ → Reach hash t := by
  induction h with
  | start h0 h1 =>
    refine ⟨List.mem_cons_self, List.mem_cons_self, fun _ h => h, fun t ht => ?_⟩
    rw [List.mem_singleton] at ht
    subst ht
    exact ⟨_, _, h0, h1⟩
  | other h1 st ih =>
    obtain ⟨i1, i2, i3, i4⟩ := ih
    refine ⟨List.mem_cons_self, List.mem_cons_self, fun t ht => ?_, fun t ht => ?_⟩
    · rcases List.mem_cons.1 ht with rfl | ht
      · exact List.mem_cons_self
      · exact List.mem_cons_of_mem _ (i3 t ht)
    · rcases List.mem_cons.1 ht with rfl | ht
      · exact (i4 _ i1).step st
      · exact i4 t ht
  | linkNone _ _ ih | linkSome _ _ ih | oldNone _ _ _ ih =>
    exact ⟨ih.1, List.mem_cons_self, fun t ht => by rw [List.mem_singleton] at ht; subst ht; exact ih.1, ih.2.2.2⟩
  | loadNone _ _ ih | load _ _ ih | same _ _ ih | gone _ _ ih | again _ _ _ ih | oldFound _ _ _ ih | curFound _ _ _ ih | curNone _ _ _ ih =>
    exact ih

/-- An array that is no longer current never becomes current again. -/
theorem cur_lost {s s' : St K V R} {e} (st : Step hash s e s') {a : Nat} (ha : a < s.next)
    (h : s.cur ≠ some a) : s'.cur ≠ some a ∧ a < s'.next := by
  cases st with
  | alloc =>
    refine ⟨fun hc => ?_, Nat.lt_succ_of_lt ha⟩
    have := Option.some.inj hc
    omega
  | rzSwap =>
    refine ⟨fun hc => ?_, Nat.lt_succ_of_lt ha⟩
    have := Option.some.inj hc
    omega
  | rzDropSwap => exact ⟨fun hc => (by cases hc), ha⟩
  | _ => exact ⟨h, ha⟩

theorem next_mono {s s' : St K V R} {e} (st : Step hash s e s') : s.next ≤ s'.next := by
  cases st <;> first
    | exact Nat.le_refl _
    | exact Nat.le_succ _

/-! ## A value that is returned -/

/-- The value `v` is being stored for `k` by an operation in progress. -/
def Storing (hash : K → Nat) (s : St K V R) (k : K) (v : V) : Prop :=
  ∃ t g a, s.pc t = .crit g a ∧ g.touches hash s a k ∧ g.out k (s.absMap hash k) = some v

/-- The key `k` is being removed by an operation in progress. -/
def Removing (hash : K → Nat) (s : St K V R) (k : K) : Prop :=
  ∃ t g a, s.pc t = .crit g a ∧ g.touches hash s a k ∧ g.out k (s.absMap hash k) = none

/-- The value of `k` is being replaced with `update` by an operation in progress. -/
def Replacing (hash : K → Nat) (U : Goal K V R → Prop) (s : St K V R) (k : K) : Prop :=
  ∃ t g a, s.pc t = .crit g a ∧ g.touches hash s a k ∧ U g

/-- The holder of a bucket lock sees what the map holds. -/
theorem crit_val (hh : ∀ k, hash k < 2 ^ 64) {s : St K V R} (hI : Inv hash s) {t a : Nat} {g : Goal K V R} {k : K}
    (h : s.pc t = .crit g a) (hk : g.touches hash s a k) : s.absMap hash k = s.val hash a k := by
  have hG := hI.glob
  have hp := hI.pc t
  rw [h] at hp
  obtain ⟨ha, hg, hpass, hlock, hdead⟩ := hp
  have e : g.idx hash (s.arr a).lg = s.ix hash a k := by
    cases g with
    | op o =>
      have hk : k = o.key := hk
      subst hk; rfl
    | tv u i p seen => exact Eq.symm hk
  rw [e] at hpass hlock hdead
  exact lookup_eq hG hh ha hdead (by intro u hc; have := hlock.symm.trans hc; cases this)
    (by intro u hc; have := hlock.symm.trans hc; cases this) hpass

theorem finds_spec (hh : ∀ k, hash k < 2 ^ 64) {s : St K V R} (hr : Reach hash s) {x : Nat} {k : K} {v : V}
    (h : Finds hash s x k v) : s.absMap hash k = some v ∨ Storing hash s k v := by
  obtain ⟨s₀, es, h0, h1⟩ := id hr
  have hI := hr.inv hh
  rcases h with h | ⟨t, g, h2, h3, h4⟩ | ⟨t, c, o, j, h2, h3⟩
  · exact .inl (((c03_one_place hh h0 h1 k).2.2 v).2 ⟨x, _, h⟩)
  · right
    refine ⟨t, g, x, h2, h3, ?_⟩
    rw [crit_val hh hI h2 h3]; exact h4
  · exact .inl (((c03_one_place hh h0 h1 k).2.2 v).2 ⟨o, j, h3⟩)

theorem misses_spec (hh : ∀ k, hash k < 2 ^ 64) {s : St K V R} (hr : Reach hash s) {x : Nat} {k : K}
    (h : Misses hash U s x k) : s.val hash x k = none ∨ Removing hash s k ∨ Replacing hash U s k := by
  have hI := hr.inv hh
  rcases h with h | ⟨t, g, h2, h3, h4⟩ | ⟨t, g, h2, h3, h4⟩
  · exact .inl h
  · right; left
    refine ⟨t, g, x, h2, h3, ?_⟩
    rw [crit_val hh hI h2 h3]; exact h4
  · exact .inr (.inr ⟨t, g, x, h2, h3, h4⟩)

/-- **C19.** A value that `peek` returns was in the map at some moment during the call, or was being stored
by an operation in progress at that moment. -/
theorem c19_table_some (hh : ∀ k, hash k < 2 ^ 64) {k : K} {σ seg} {s : St K V R} {v : V}
    (h : Peek hash U k σ seg s (.done (some v))) :
    ∃ t, t ∈ σ ∧ (t.absMap hash k = some v ∨ Storing hash t k v) := by
  generalize hp : (PkPc.done (some v) : PkPc V) = p at h
  induction h with
  | other _ _ ih =>
    obtain ⟨t, h1, h2⟩ := ih hp
    exact ⟨t, List.mem_cons_of_mem _ h1, h2⟩
  | oldFound h1 h2 h3 ih =>
    cases hp
    have := h1.facts
    exact ⟨_, this.2.2.1 _ h2, finds_spec hh (this.2.2.2 _ (this.2.2.1 _ h2)) h3⟩
  | curFound h1 h2 h3 ih =>
    cases hp
    have := h1.facts
    exact ⟨_, this.2.2.1 _ h2, finds_spec hh (this.2.2.2 _ (this.2.2.1 _ h2)) h3⟩
  | _ => cases hp

/-! ## A key that is not found -/

/-- What the call knows, if the key is in the map all the time and nobody removes or replaces it. -/
def Sure (hash : K → Nat) (k : K) (seg : List (St K V R)) (s : St K V R) : PkPc V → Prop
  | .load => True
  | .link a => a < s.next
  | .old a o => a < s.next ∧ a = o + 1 ∧
      ∀ t, t ∈ seg → s.cur = some a → t.cur = some a ∧ (t.val hash a k ≠ none → s.val hash a k ≠ none)
  | .cur a => a < s.next ∧ (s.cur = some a → s.val hash a k ≠ none) ∧
      ∀ t, t ∈ seg → s.cur = some a → t.val hash a k ≠ none
  | .check a => s.cur ≠ some a ∧ a < s.next
  | .done r => r ≠ none

theorem linked_val {s : St K V R} {k : K} {a : Nat} (hc : s.cur = some a) (hm : s.absMap hash k ≠ none)
    (h : ∀ o, (s.arr a).linked = some o → s.val hash o k = none) : s.val hash a k ≠ none := by
  unfold St.absMap at hm
  rw [hc] at hm
  simp only at hm
  cases hl : (s.arr a).linked with
  | none => rw [hl] at hm; exact hm
  | some o =>
    rw [hl] at hm
    simp only [h o hl, Option.none_or] at hm
    exact hm

theorem peek_sure (hh : ∀ k, hash k < 2 ^ 64) {k : K} {σ seg} {s : St K V R} {p : PkPc V} (h : Peek hash U k σ seg s p) :
    (∀ t, t ∈ σ → t.absMap hash k ≠ none ∧ ¬ Removing hash t k ∧ ¬ Replacing hash U t k) →
    Sure hash k seg s p := by
  induction h with
  | start => exact fun _ => trivial
  | @other σ seg s s' e p h1 st ih =>
    intro hall
    have hf := h1.facts
    have hall' := fun t ht => hall t (List.mem_cons_of_mem _ ht)
    have ih := ih hall'
    have hI := (hf.2.2.2 s hf.1).inv hh
    have hs' := (hall s' List.mem_cons_self).1
    have back : ∀ {a}, a < s.next → s'.cur = some a → s.cur = some a := by
      intro a ha hc
      apply Classical.byContradiction
      intro hn
      exact (cur_lost st ha hn).1 hc
    cases p with
    | load => trivial
    | link a => exact Nat.lt_of_lt_of_le ih (next_mono st)
    | old a o =>
      obtain ⟨i1, i2, i3⟩ := ih
      refine ⟨Nat.lt_of_lt_of_le i1 (next_mono st), i2, fun t ht hc => ?_⟩
      rcases List.mem_cons.1 ht with rfl | ht
      · exact ⟨hc, id⟩
      · obtain ⟨i4, i5⟩ := i3 t ht (back i1 hc)
        exact ⟨i4, fun hv => val_stays hh hI st (back i1 hc) hc (i5 hv) hs'⟩
    | cur a =>
      obtain ⟨i1, i2, i3⟩ := ih
      have stay : s'.cur = some a → s'.val hash a k ≠ none := fun hc =>
        val_stays hh hI st (back i1 hc) hc (i2 (back i1 hc)) hs'
      refine ⟨Nat.lt_of_lt_of_le i1 (next_mono st), stay, fun t ht hc => ?_⟩
      rcases List.mem_cons.1 ht with rfl | ht
      · exact stay hc
      · exact i3 t ht (back i1 hc)
    | check a => exact cur_lost st ih.2 ih.1
    | done r => exact ih
  | loadNone h1 hc ih =>
    intro hall
    have := (hall _ h1.facts.1).1
    unfold St.absMap at this
    rw [hc] at this
    exact absurd rfl this
  | @load σ seg s a h1 hc ih =>
    intro hall
    have hI := (h1.facts.2.2.2 _ h1.facts.1).inv hh
    have := hI.glob.cur_last a hc
    show a < s.next
    omega
  | @linkNone σ seg s a h1 hl ih =>
    intro hall
    have ha : a < s.next := ih hall
    have key : s.cur = some a → s.val hash a k ≠ none := fun hc =>
      linked_val hc (hall s h1.facts.1).1 (fun o ho => by rw [hl] at ho; cases ho)
    refine ⟨ha, key, fun t ht hc => ?_⟩
    rw [List.mem_singleton] at ht
    subst ht
    exact key hc
  | @linkSome σ seg s a o h1 hl ih =>
    intro hall
    have ha : a < s.next := ih hall
    have hI := (h1.facts.2.2.2 _ h1.facts.1).inv hh
    refine ⟨ha, hI.glob.linked_pred a o ha hl, fun t ht hc => ?_⟩
    rw [List.mem_singleton] at ht
    subst ht
    exact ⟨hc, id⟩
  | @oldNone σ seg s a o t h1 ht hm ih =>
    intro hall
    obtain ⟨i1, i2, i3⟩ := ih hall
    have hf := h1.facts
    have htσ := hf.2.2.1 t ht
    have hIt := (hf.2.2.2 t htσ).inv hh
    have hv : t.val hash o k = none := by
      rcases misses_spec hh (hf.2.2.2 t htσ) hm with h | h | h
      · exact h
      · exact absurd h (hall t htσ).2.1
      · exact absurd h (hall t htσ).2.2
    have key : s.cur = some a → s.val hash a k ≠ none := by
      intro hc
      obtain ⟨i4, i5⟩ := i3 t ht hc
      refine i5 (linked_val i4 (hall t htσ).1 (fun o' ho' => ?_))
      have h2 := hIt.glob.cur_last a i4
      have h3 := hIt.glob.linked_pred a o' (by omega) ho'
      have : o' = o := by omega
      subst this
      exact hv
    refine ⟨i1, key, fun t ht hc => ?_⟩
    rw [List.mem_singleton] at ht
    subst ht
    exact key hc
  | @curNone σ seg s a t h1 ht hm ih =>
    intro hall
    obtain ⟨i1, i2, i3⟩ := ih hall
    have hf := h1.facts
    have htσ := hf.2.2.1 t ht
    have hv : t.val hash a k = none := by
      rcases misses_spec hh (hf.2.2.2 t htσ) hm with h | h | h
      · exact h
      · exact absurd h (hall t htσ).2.1
      · exact absurd h (hall t htσ).2.2
    exact ⟨fun hc => i3 t ht hc hv, i1⟩
  | oldFound | curFound => exact fun _ h => by cases h
  | same h1 hc ih => exact fun hall => absurd hc (ih hall).1
  | gone h1 hc ih =>
    intro hall
    have := (hall _ h1.facts.1).1
    unfold St.absMap at this
    rw [hc] at this
    exact absurd rfl this
  | @again σ seg s a a' h1 hc hne ih =>
    intro hall
    have hI := (h1.facts.2.2.2 _ h1.facts.1).inv hh
    have := hI.glob.cur_last a' hc
    show a' < s.next
    omega

/-- **C19.** If `peek` returns nothing, there was a moment during the call when the map did not hold the
key, or an operation in progress was removing it or replacing its value with `update`. -/
theorem c19_table_none (hh : ∀ k, hash k < 2 ^ 64) {k : K} {σ seg} {s : St K V R}
    (h : Peek hash U k σ seg s (.done none)) :
    ∃ t, t ∈ σ ∧ (t.absMap hash k = none ∨ Removing hash t k ∨ Replacing hash U t k) := by
  apply Classical.byContradiction
  intro hn
  refine peek_sure hh h (fun t ht => ⟨?_, ?_, ?_⟩) rfl
  · exact fun hc => hn ⟨t, ht, .inl hc⟩
  · exact fun hc => hn ⟨t, ht, .inr (.inl hc)⟩
  · exact fun hc => hn ⟨t, ht, .inr (.inr hc)⟩

/-- **C19 as stated**: when writers only insert, remove or relocate. -/
theorem c19_table_none_no_update (hh : ∀ k, hash k < 2 ^ 64) {k : K} {σ seg} {s : St K V R}
    (h : Peek hash (fun _ => False) k σ seg s (.done none)) :
    ∃ t, t ∈ σ ∧ (t.absMap hash k = none ∨ Removing hash t k) := by
  obtain ⟨t, h1, h2⟩ := c19_table_none hh h
  refine ⟨t, h1, ?_⟩
  rcases h2 with h2 | h2 | ⟨_, _, _, _, _, h2⟩
  · exact .inl h2
  · exact .inr h2
  · exact h2.elim

theorem stored_val (hh : ∀ k, hash k < 2 ^ 64) {s : St K V R} (hr : Reach hash s) {k : K} {x i : Nat} {v : V}
    (h : StoredAt s k x i v) : s.val hash x k = some v := by
  have := (stored_inUse hh (hr.inv hh).glob h).2.1
  subst this
  exact h

/-! ### Calls in the middle of a resize: key 1 has moved to the new array, key 2 is in the old one -/

example : ∃ s : WSt, Peek h0 (fun _ => False) 2 [s] [s] s (.done (some 6)) := by
  obtain ⟨s, ex, h1, h2, h3, h4⟩ := w_resize
  exact ⟨s, ((((Peek.start .new ex).load h3).linkSome h4).oldFound List.mem_cons_self (.inl (stored_val h0_lt ⟨_, _, .new, ex⟩ h2)))⟩

example : ∃ s : WSt, Peek h0 (fun _ => False) 1 [s] [s] s (.done (some 5)) := by
  obtain ⟨s, ex, h1, h2, h3, h4⟩ := w_resize
  have hne : s.val h0 0 1 = none := by
    cases hv : s.val h0 0 1 with
    | none => rfl
    | some v =>
      have := (c03_one_place h0_lt .new ex 1).1 1 0 5 0 _ v h1 hv
      cases this.1
  exact ⟨s, (((((Peek.start .new ex).load h3).linkSome h4).oldNone List.mem_cons_self (.inl hne)).curFound
    List.mem_cons_self (.inl (stored_val h0_lt ⟨_, _, .new, ex⟩ h1)))⟩

example : ∃ s : WSt, Peek h0 (fun _ => False) 3 [s] [s] s (.done none) := by
  refine ⟨St.init, Peek.loadNone (.start .new .nil) rfl⟩

end Scc.Table
