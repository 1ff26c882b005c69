import Verif.Rehash.Model

/-!
# C04: an old array is detached once, and only after everything was moved
-/

namespace Scc.Rehash

open Scc.Index (not64 and_not64)

theorem and31 (w : Nat) : w &&& 31 = w % 32 := by
  have := Nat.and_two_pow_sub_one_eq_mod w 5
  simpa using this

theorem andNot31 {w : Nat} (h : w < 2 ^ 64) : w &&& not64 31 = w / 32 * 32 := by
  have := and_not64 (x := w) (k := 5) h (by omega)
  simpa using this

theorem or_low {p r : Nat} (hp : p % 32 = 0) (hr : r < 32) : p ||| r = p + r := by
  have h : p = 2 ^ 5 * (p / 32) := by omega
  rw [h]
  exact (Nat.two_pow_add_eq_or_of_lt (by omega) _).symm

/-- The invariant of the bookkeeping word. -/
structure Inv (len : Nat) (s : State) : Prop where
  refs : s.word % 32 = s.workers.length
  bound : s.word ≤ len + 63
  aligned : ∀ p ∈ s.workers, p % 32 = 0 ∧ p < len
  cover : ∀ b, b < len → b < s.word / 32 * 32 →
    s.done b = true ∨ ∃ p ∈ s.workers, p ≤ b ∧ b < p + 32
  once : s.detaching + s.detached ≤ 1
  ended : s.detaching + s.detached = 1 ↔ (s.workers = [] ∧ len ≤ s.word)

theorem inv_init {len : Nat} (h : 0 < len) : Inv len State.init := by
  refine ⟨rfl, by simp [State.init], by simp [State.init], ?_, by simp [State.init], ?_⟩
  · intro b _ hb; simp [State.init] at hb
  · simp [State.init]; omega

theorem inv_step {len : Nat} (h57 : len ≤ 2 ^ 57) {s t : State} (hi : Inv len s)
    (hs : Step len s t) : Inv len t := by
  obtain ⟨hrefs, hbound, hal, hcov, honce, hend⟩ := hi
  have h64 : s.word < 2 ^ 64 := by omega
  cases hs with
  | claim h =>
    rename_i p w
    unfold startRehash at h
    rw [and31, andNot31 h64] at h
    split at h
    · simp at h
    · rename_i hc
      simp only [Option.some.injEq, Prod.mk.injEq] at h
      obtain ⟨rfl, rfl⟩ := h
      simp only [not_or] at hc
      have hlt : s.word < len := by omega
      have hnd : ¬ (s.detaching + s.detached = 1) := by
        rw [hend]; omega
      refine ⟨?_, ?_, ?_, ?_, honce, ?_⟩
      · simp only [List.length_cons]; omega
      · simp only; omega
      · intro q hq
        simp only [List.mem_cons] at hq
        rcases hq with rfl | hq
        · omega
        · exact hal q hq
      · intro b hb hbi
        simp only at hbi ⊢
        by_cases hlow : b < s.word / 32 * 32
        · rcases hcov b hb hlow with h | ⟨p, hp, h⟩
          · exact Or.inl h
          · exact Or.inr ⟨p, List.mem_cons_of_mem _ hp, h⟩
        · refine Or.inr ⟨s.word / 32 * 32, by simp, by omega, by omega⟩
      · constructor
        · intro h; exact absurd h hnd
        · rintro ⟨h, _⟩; simp at h
  | relocate b hb =>
    refine ⟨hrefs, hbound, hal, ?_, honce, hend⟩
    intro x hx hxi
    rcases hcov x hx hxi with h | h
    · left; simp [h]
    · exact Or.inr h
  | finish h hd =>
    rename_i p l1 l2
    have hlen : s.workers.length = l1.length + l2.length + 1 := by rw [h]; simp; omega
    have hpm : p ∈ s.workers := by rw [h]; simp
    have hp := hal p hpm
    have hne : s.workers ≠ [] := by rw [h]; simp
    have hnd : s.detaching + s.detached = 0 := by
      have : ¬ (s.detaching + s.detached = 1) := by rw [hend]; exact fun hh => hne hh.1
      omega
    have hsub : ∀ q ∈ l1 ++ l2, q ∈ s.workers := by
      intro q hq; rw [h]; simp only [List.mem_append, List.mem_cons] at hq ⊢
      rcases hq with hq | hq
      · exact Or.inl hq
      · exact Or.inr (Or.inr hq)
    have hw1 : (s.word - 1) / 32 * 32 = s.word / 32 * 32 := by omega
    refine ⟨?_, ?_, ?_, ?_, ?_, ?_⟩
    · simp only [endOk, List.length_append]; omega
    · simp only [endOk]; omega
    · intro q hq; exact hal q (hsub q hq)
    · intro b hb hbi
      simp only [endOk, hw1] at hbi ⊢
      rcases hcov b hb hbi with hh | ⟨q, hq, hh⟩
      · exact Or.inl hh
      · rw [h] at hq
        simp only [List.mem_append, List.mem_cons] at hq
        rcases hq with hq | hq | hq
        · exact Or.inr ⟨q, by simp [hq], hh⟩
        · subst hq
          left; apply hd; unfold claimed; omega
        · exact Or.inr ⟨q, by simp [hq], hh⟩
    · have : (if (endOk len s.word).2 = true then 1 else 0) ≤ 1 := by split <;> omega
      simp only; omega
    · simp only [endOk, and31]
      have hl0 : l1 ++ l2 = [] ↔ s.workers.length = 1 := by
        constructor
        · intro hh
          have := congrArg List.length hh
          simp only [List.length_append, List.length_nil] at this; omega
        · intro hh
          have : l1.length = 0 ∧ l2.length = 0 := by omega
          simp only [List.length_eq_zero_iff] at this
          simp [this]
      rw [hl0]
      by_cases hc : (s.word - 1) % 32 = 0 ∧ s.word - 1 ≥ len
      · have hl1 : s.workers.length = 1 := by omega
        simp [hc, hl1]; omega
      · simp only [hc, decide_false, Bool.false_eq_true, if_false]
        constructor
        · intro hh; omega
        · rintro ⟨h1, h2⟩; exfalso; apply hc; omega
  | fail h =>
    rename_i p l1 l2
    have hlen : s.workers.length = l1.length + l2.length + 1 := by rw [h]; simp; omega
    have hpm : p ∈ s.workers := by rw [h]; simp
    have hp := hal p hpm
    have hne : s.workers ≠ [] := by rw [h]; simp
    have hnd : s.detaching + s.detached = 0 := by
      have : ¬ (s.detaching + s.detached = 1) := by rw [hend]; exact fun hh => hne hh.1
      omega
    have hsub : ∀ q ∈ l1 ++ l2, q ∈ s.workers := by
      intro q hq; rw [h]; simp only [List.mem_append, List.mem_cons] at hq ⊢
      rcases hq with hq | hq
      · exact Or.inl hq
      · exact Or.inr (Or.inr hq)
    -- value of the new word
    have hnew : (endFail s.word p) % 32 = s.word % 32 - 1 ∧
        (endFail s.word p) / 32 * 32 = min (s.word / 32 * 32) p := by
      unfold endFail
      rw [and31]
      split
      · omega
      · rw [or_low hp.1 (by omega)]; omega
    refine ⟨?_, ?_, ?_, ?_, honce, ?_⟩
    · simp only [List.length_append]; omega
    · simp only; omega
    · intro q hq; exact hal q (hsub q hq)
    · intro b hb hbi
      simp only [hnew.2] at hbi ⊢
      rcases hcov b hb (by omega) with hh | ⟨q, hq, hh⟩
      · exact Or.inl hh
      · rw [h] at hq
        simp only [List.mem_append, List.mem_cons] at hq
        rcases hq with hq | hq | hq
        · exact Or.inr ⟨q, by simp [hq], hh⟩
        · subst hq; omega
        · exact Or.inr ⟨q, by simp [hq], hh⟩
    · simp only
      constructor
      · intro hh; omega
      · rintro ⟨h1, h2⟩
        have := congrArg List.length h1
        simp only [List.length_append, List.length_nil] at this
        omega
  | detach h =>
    have : s.detaching = 1 ∧ s.detached = 0 := by omega
    refine ⟨hrefs, hbound, hal, hcov, by simp only; omega, ?_⟩
    simp only
    rw [← hend]; omega

theorem reachable_inv {len : Nat} (h0 : 0 < len) (h57 : len ≤ 2 ^ 57) {s : State}
    (h : Reachable len s) : Inv len s := by
  induction h with
  | init => exact inv_init h0
  | step _ hs ih => exact inv_step h57 ih hs

/-- **C04 (at most once).** In every execution the old array is detached at most once: at most one
helper is ever told to detach it. -/
theorem c04_detached_at_most_once {len : Nat} (h0 : 0 < len) (h57 : len ≤ 2 ^ 57) {s : State}
    (h : Reachable len s) : s.detaching + s.detached ≤ 1 :=
  (reachable_inv h0 h57 h).once

/-- **C04 (only when empty).** When a helper is told to detach the array (and ever after), every
bucket of the array has been relocated and no helper is still working on it. -/
theorem c04_detached_only_when_done {len : Nat} (h0 : 0 < len) (h57 : len ≤ 2 ^ 57) {s : State}
    (h : Reachable len s) (hd : 0 < s.detaching + s.detached) :
    (∀ b, b < len → s.done b = true) ∧ s.workers = [] := by
  have hi := reachable_inv h0 h57 h
  have h1 := hi.once
  have hw := hi.ended.1 (by omega)
  refine ⟨?_, hw.1⟩
  intro b hb
  have hr := hi.refs
  rw [hw.1] at hr
  simp only [List.length_nil] at hr
  have : b < s.word / 32 * 32 := by omega
  rcases hi.cover b hb this with hh | ⟨p, hp, _⟩
  · exact hh
  · rw [hw.1] at hp; simp at hp

/-- **C04 (never forgotten).** When no helper is active, either the array has been handed over for
detaching, or a new helper can claim a further range: the rehash never gets stuck, and finishing
the last range successfully always detaches. -/
theorem c04_never_stuck {len : Nat} (h0 : 0 < len) (h57 : len ≤ 2 ^ 57) {s : State}
    (h : Reachable len s) (hw : s.workers = []) :
    s.detaching + s.detached = 1 ∨ ∃ p w, startRehash len s.word = some (p, w) ∧ p < len := by
  have hi := reachable_inv h0 h57 h
  by_cases hl : len ≤ s.word
  · left; exact hi.ended.2 ⟨hw, hl⟩
  · right
    have h64 : s.word < 2 ^ 64 := by have := hi.bound; omega
    have hr := hi.refs
    rw [hw] at hr
    simp only [List.length_nil] at hr
    refine ⟨s.word / 32 * 32, s.word + 33, ?_, by omega⟩
    unfold startRehash
    rw [and31, andNot31 h64, if_neg (by omega)]

/-- **C04 (claims are in range, counters do not overflow).** Every active helper works on a range
that starts inside the array, there are at most 31 of them, and the word stays far below `2^64`. -/
theorem c04_claims_in_range {len : Nat} (h0 : 0 < len) (h57 : len ≤ 2 ^ 57) {s : State}
    (h : Reachable len s) :
    (∀ p ∈ s.workers, p < len) ∧ s.workers.length ≤ 31 ∧ s.word < 2 ^ 58 := by
  have hi := reachable_inv h0 h57 h
  refine ⟨fun p hp => (hi.aligned p hp).2, ?_, ?_⟩
  · have := hi.refs; omega
  · have := hi.bound; omega

/-- Two helpers on a 64-bucket array, the first one gives up: its range is claimed again. -/
example : startRehash 64 0 = some (0, 33) ∧ startRehash 64 33 = some (32, 66) ∧
    endFail 66 0 = 1 ∧ startRehash 64 1 = some (0, 34) := by decide

/-- A complete run: both ranges claimed, the first helper fails, the range is redone, and the array
is detached once. -/
example : ∃ s, Reachable 2 s ∧ s.detached = 1 ∧ s.done 0 = true ∧ s.done 1 = true := by
  have s0 := Reachable.init (len := 2)
  have s1 := Reachable.step s0 (Step.claim (p := 0) (w := 33) (by decide))
  have s2 := Reachable.step s1 (Step.fail (p := 0) (l1 := []) (l2 := []) rfl)
  have s3 := Reachable.step s2 (Step.claim (p := 0) (w := 33) (by decide))
  have s4 := Reachable.step s3 (Step.relocate 0 (by decide))
  have s5 := Reachable.step s4 (Step.relocate 1 (by decide))
  have s6 := Reachable.step s5 (Step.finish (p := 0) (l1 := []) (l2 := []) rfl (by
    intro b hb; unfold claimed at hb
    have : b = 0 ∨ b = 1 := by omega
    rcases this with rfl | rfl <;> decide))
  have s7 := Reachable.step s6 (Step.detach (by decide))
  exact ⟨_, s7, rfl, rfl, rfl⟩

end Scc.Rehash
