import Verif.Table.Locks
import Verif.Table.Leak

/-!
# Waiting for bucket locks

Who waits for whom, and why chains of waiting threads are short.
-/

namespace Scc.Table

open Scc.Index (bucketIndex fromIndexToRange InRange)

variable {K V R : Type} {hash : K → Nat}

/-- Thread `t` cannot go on because bucket `i` of array `x` is locked. A helper is counted as waiting
if any bucket it might turn to next is locked, and so is an activity that would rather give up
(`TRY_LOCK`). -/
def WaitsAt (hash : K → Nat) (s : St K V R) (t x i : Nat) : Prop :=
  (s.b x i).lock ≠ none ∧
  match s.pc t with
  | .wait g a => x = a ∧ i = g.idx hash (s.arr a).lg
  | .dedup g a o j => x = o ∧ i = j ∧ j < (s.rng a o (g.idx hash (s.arr a).lg)).2
  | .rlLock _ a o j n => x = a ∧ i = n ∧ n < (s.rng o a j).2
  | .help _ o => x = o ∧ i < s.len o
  | _ => False

/-- Thread `t` waits for thread `u`. -/
def WaitsFor (hash : K → Nat) (s : St K V R) (t u : Nat) : Prop :=
  ∃ x i l, WaitsAt hash s t x i ∧ (s.b x i).lock = some l ∧ l.owner = some u

/-- No lock was left behind by a dropped future. -/
def NoLeak (s : St K V R) : Prop := ∀ x i, (s.b x i).lock ≠ some .leaked

/-- With no leaked locks, a thread that waits waits for somebody. -/
theorem waitsFor_of_waitsAt {s : St K V R} (hn : NoLeak s) {t x i : Nat} (h : WaitsAt hash s t x i) :
    ∃ u, WaitsFor hash s t u := by
  have h1 := h.1
  cases hl : (s.b x i).lock with
  | none => exact absurd hl h1
  | some l =>
    cases ho : l.owner with
    | none => cases l <;> first | exact absurd hl (hn x i) | cases ho
    | some u => exact ⟨u, x, i, l, h, hl, ho⟩

/-- A thread that holds a lock and waits is relocating a bucket. -/
theorem holder_waits {s : St K V R} (hL : LockInv hash s) {u x i y j : Nat} {l : Lock}
    (hl : (s.b x i).lock = some l) (ho : l.owner = some u) (hw : WaitsAt hash s u y j) :
    ∃ c a o j' , s.pc u = .rlLock c a o j' j ∧ y = a ∧ j < (s.rng o a j').2 ∧ l = .reloc u ∧
      ((x = o ∧ i = j') ∨ (x = a ∧ (s.rng o a j').1 ≤ i ∧ i < j)) := by
  have hh := hL x i l u hl ho
  have hw := hw.2
  generalize s.pc u = q at hh hw
  cases q <;> first | exact hh.elim | exact hw.elim | skip
  obtain ⟨rfl, rfl, h⟩ := hw
  exact ⟨_, _, _, _, rfl, rfl, h, hh.1, hh.2⟩

/-- A thread that relocates a bucket and waits for a target waits for a thread that does not wait. -/
theorem reloc_waits {s : St K V R} (hI : Inv hash s) (hL : LockInv hash s) {u w a o j n y i : Nat}
    {c : Cont K V R} {l : Lock} (hu : s.pc u = .rlLock c a o j n) (hn : n < (s.rng o a j).2)
    (hl : (s.b a n).lock = some l) (ho : l.owner = some w) : ¬ WaitsAt hash s w y i := by
  intro hw
  obtain ⟨c', a', o', j', hpc, rfl, hi, rfl, hx⟩ := holder_waits hL hl ho hw
  have hG := hI.glob
  have hpu := hI.pc u
  rw [hu] at hpu
  obtain ⟨hc, hlk, hj, hlo, hd, h1, h2, hh⟩ := hpu
  have hpw := hI.pc w
  rw [hpc] at hpw
  obtain ⟨hc', hlk', hj', hlo', hd', h1', h2', hh'⟩ := hpw
  rcases hx with ⟨rfl, rfl⟩ | ⟨rfl, h3, h4⟩
  · have := hG.linked_one _ (hG.linked_lt _ _ hlk') _ hlk'
    rw [this] at hlk; cases hlk
  · rw [hlk] at hlk'
    cases hlk'
    by_cases hjj : j = j'
    · subst hjj
      have : u = w := by rw [hlo] at hlo'; cases hlo'; rfl
      subst this
      rw [hu] at hpc; cases hpc
      omega
    · by_cases hle : (s.arr o).lg ≤ (s.arr a).lg
      · exact hjj (Scc.Index.c05_range_disjoint (a := (s.arr o).lg) (b := (s.arr a).lg) hle
          ⟨by unfold St.rng St.len at h1; omega, hn⟩
          ⟨h3, by unfold St.rng St.len at h2'; unfold St.rng St.len at hi; omega⟩)
      · have e : (s.rng o a j').2 = (s.rng o a j').1 + 1 := by
          unfold St.rng St.len fromIndexToRange
          have : ¬ 2 ^ (s.arr o).lg < 2 ^ (s.arr a).lg := by
            have := Nat.pow_le_pow_right (n := 2) (by omega) (Nat.le_of_lt (Nat.lt_of_not_le hle))
            omega
          rw [if_neg this]
        omega

/-- Chains of waiting threads have at most two links. -/
theorem wait_chain {s : St K V R} (hI : Inv hash s) (hL : LockInv hash s) {t u w y i : Nat}
    (h1 : WaitsFor hash s t u) (h2 : WaitsFor hash s u w) : ¬ WaitsAt hash s w y i := by
  obtain ⟨x, i, l, _, hl, ho⟩ := h1
  obtain ⟨x', i', l', hw, hl', ho'⟩ := h2
  obtain ⟨c, a, o, j, hpc, rfl, hlt, rfl, _⟩ := holder_waits hL hl ho hw
  exact reloc_waits hI hL hpc hlt hl' ho'

/-- Every thread is at the beginning of a chain that ends with a thread that does not wait. -/
theorem wait_end {s : St K V R} (hI : Inv hash s) (hL : LockInv hash s) (hn : NoLeak s) (t : Nat) :
    ∃ u, (u = t ∨ WaitsFor hash s t u ∨ ∃ v, WaitsFor hash s t v ∧ WaitsFor hash s v u) ∧
      ∀ x i, ¬ WaitsAt hash s u x i := by
  by_cases h1 : ∃ x i, WaitsAt hash s t x i
  · obtain ⟨x, i, h1⟩ := h1
    obtain ⟨u, h1⟩ := waitsFor_of_waitsAt hn h1
    by_cases h2 : ∃ x i, WaitsAt hash s u x i
    · obtain ⟨x, i, h2⟩ := h2
      obtain ⟨w, h2⟩ := waitsFor_of_waitsAt hn h2
      exact ⟨w, Or.inr (Or.inr ⟨u, h1, h2⟩), fun x i => wait_chain hI hL h1 h2⟩
    · exact ⟨u, Or.inr (Or.inl h1), fun x i h => h2 ⟨x, i, h⟩⟩
  · exact ⟨t, Or.inl rfl, fun x i h => h1 ⟨x, i, h⟩⟩

/-- Somebody who is waited for is inside an operation. -/
theorem waitsFor_busy {s : St K V R} (hL : LockInv hash s) {t u : Nat} (h : WaitsFor hash s t u) :
    s.pc u ≠ .idle := by
  obtain ⟨x, i, l, _, hl, ho⟩ := h
  have hh := hL x i l u hl ho
  intro e
  rw [e] at hh
  exact hh

end Scc.Table
