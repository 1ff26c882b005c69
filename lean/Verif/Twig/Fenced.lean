import Verif.Twig.Props
import Verif.Twig.Fence

/-!
# Property C62 with fences

If every call is preceded by a sequentially consistent fence of its thread, then the calls can be put in an order. The
creation of a `Guard` by a thread that has none contains such a fence as far as known (the crate `sdd` is not part of the
repository); a thread that holds a guard across calls gets none.
-/

namespace Scc.Twig

/-- **C62, partial** (what is missing: calls without a fence before them, see `c62_order_violated`): the calls of every run
in which each call is preceded by a sequentially consistent fence of its thread are linearizable: there is an order in which
they could have been made one after the other, and no call comes in it before one that had ended, to the knowledge of the
thread, when it was made. -/
theorem c62_fenced_partial {tr : List Label} {s : State} {F : Nat} (h : Run .init tr s) (hf : Fenced F tr) : Linear tr :=
  fenced_linear (c62_register_partial h) hf

/-- The calls of `crossing` with fences before them. Thread 9 stands for what is known to fences. Thread 1 does not find
key 9, as it looks before thread 2 makes its insertion known; thread 2 finds key 0. -/
def fencing : List Label :=
  [.sync 0 9, .sync 9 0, .tau, .tau, .tau, .set 0 1 (some 10), .sync 0 9, .sync 9 0, .tau, .tau, .tau, .set 0 5 (some 50),
   .tau, .tau, .tau, .tau, .tau, .tau, .tau, .tau,
   .sync 1 9, .sync 9 1, .tau, .tau, .tau, .set 1 0 (some 7), .sync 2 9, .sync 9 2, .tau, .tau, .tau, .set 2 9 (some 90),
   .sync 1 9, .sync 9 1, .tau, .tau, .tau, .saw 1 9 none, .sync 2 9, .sync 9 2, .tau, .tau, .tau, .saw 2 0 (some 7)]

set_option maxRecDepth 100000 in
theorem fencing_run : ∃ s, Run .init fencing s :=
  ⟨_, _, .sync (a := 0) (b := 9) rfl, _, .sync (a := 9) (b := 0) rfl,
    _, .sel (t := 0) (o := .ins 10) (k := 1) (n := 0) rfl (by decide) (by decide),
    _, .load (t := 0) (c := 0) (x := 0) rfl (by decide) (by decide) rfl,
    _, .valid (t := 0) (m := 0) rfl (by decide) (by decide) rfl,
    _, .ins (t := 0) rfl rfl rfl rfl,
    _, .sync (a := 0) (b := 9) rfl, _, .sync (a := 9) (b := 0) rfl,
    _, .sel (t := 0) (o := .ins 50) (k := 5) (n := 0) rfl (by decide) (by decide),
    _, .load (t := 0) (c := 0) (x := 0) rfl (by decide) (by decide) rfl,
    _, .valid (t := 0) (m := 0) rfl (by decide) (by decide) rfl,
    _, .ins (t := 0) rfl rfl rfl rfl,
    _, .lock (t := 0) rfl rfl,
    _, .freeze (t := 0) (i := 0) (c := 0) (x := 0) rfl (by decide) (by decide) rfl rfl,
    _, .make (t := 0) (b := 1) (d := 5) rfl (by decide) (by decide) (by decide),
    _, .resv (t := 0) rfl,
    _, .publ (t := 0) rfl,
    _, .thaw (t := 0) rfl,
    _, .swap (t := 0) rfl,
    _, .unlock (t := 0) rfl,
    _, .sync (a := 1) (b := 9) rfl, _, .sync (a := 9) (b := 1) rfl,
    _, .sel (t := 1) (o := .ins 7) (k := 0) (n := 2) rfl (by decide) (by decide),
    _, .load (t := 1) (c := 0) (x := 1) rfl (by decide) (by decide) rfl,
    _, .valid (t := 1) (m := 2) rfl (by decide) (by decide) rfl,
    _, .ins (t := 1) rfl rfl rfl rfl,
    _, .sync (a := 2) (b := 9) rfl, _, .sync (a := 9) (b := 2) rfl,
    _, .sel (t := 2) (o := .ins 90) (k := 9) (n := 2) rfl (by decide) (by decide),
    _, .load (t := 2) (c := 1) (x := 2) rfl (by decide) (by decide) rfl,
    _, .valid (t := 2) (m := 2) rfl (by decide) (by decide) rfl,
    _, .ins (t := 2) rfl rfl rfl rfl,
    _, .sync (a := 1) (b := 9) rfl, _, .sync (a := 9) (b := 1) rfl,
    _, .sel (t := 1) (o := .get) (k := 9) (n := 2) rfl (by decide) (by decide),
    _, .load (t := 1) (c := 1) (x := 2) rfl (by decide) (by decide) rfl,
    _, .valid (t := 1) (m := 2) rfl (by decide) (by decide) rfl,
    _, step_get (t := 1) (x := 2) (u := 0) rfl (by decide) (by decide) rfl,
    _, .sync (a := 2) (b := 9) rfl, _, .sync (a := 9) (b := 2) rfl,
    _, .sel (t := 2) (o := .get) (k := 0) (n := 2) rfl (by decide) (by decide),
    _, .load (t := 2) (c := 0) (x := 1) rfl (by decide) (by decide) rfl,
    _, .valid (t := 2) (m := 2) rfl (by decide) (by decide) rfl,
    _, step_get (t := 2) (x := 1) (u := 2) rfl (by decide) (by decide) rfl,
    rfl⟩

theorem fencing_fenced : Fenced 9 fencing := by
  have key : ∀ p, p < 44 → ∀ t, whoAt fencing p = some t → 5 ≤ p ∧ fencing[p - 5]? = some (.sync t 9) ∧
      fencing[p - 4]? = some (.sync 9 t) ∧ fencing[p - 3]? = some .tau ∧ fencing[p - 2]? = some .tau ∧
      fencing[p - 1]? = some .tau := by
    intro p hp t hw
    have h : p = 5 ∧ t = 0 ∨ p = 11 ∧ t = 0 ∨ p = 25 ∧ t = 1 ∨ p = 31 ∧ t = 2 ∨ p = 37 ∧ t = 1 ∨ p = 43 ∧ t = 2 := by
      have h : ∀ p, p < 44 → whoAt fencing p = none ∨ p = 5 ∧ whoAt fencing p = some 0 ∨ p = 11 ∧ whoAt fencing p = some 0 ∨
          p = 25 ∧ whoAt fencing p = some 1 ∨ p = 31 ∧ whoAt fencing p = some 2 ∨ p = 37 ∧ whoAt fencing p = some 1 ∨
          p = 43 ∧ whoAt fencing p = some 2 := by decide
      have := h p hp
      rw [hw] at this
      simpa using this
    rcases h with ⟨rfl, rfl⟩ | ⟨rfl, rfl⟩ | ⟨rfl, rfl⟩ | ⟨rfl, rfl⟩ | ⟨rfl, rfl⟩ | ⟨rfl, rfl⟩ <;>
      exact ⟨by decide, rfl, rfl, rfl, rfl, rfl⟩
  intro p t hw
  have hp : p < 44 := by
    refine Nat.lt_of_not_le (fun hl => ?_)
    have h : fencing[p]? = none := List.getElem?_eq_none hl
    unfold whoAt at hw
    rw [h] at hw; cases hw
  obtain ⟨h1, h2, h3, h4, h5, h6⟩ := key p hp t hw
  have e : p - 5 + 1 = p - 4 := by omega
  refine ⟨p - 5, by omega, h2, by rw [e]; exact h3, ?_⟩
  intro m hm hl
  have hm : fencing[m]? = some .tau := by
    have : m = p - 3 ∨ m = p - 2 ∨ m = p - 1 := by omega
    rcases this with rfl | rfl | rfl
    · exact h4
    · exact h5
    · exact h6
  refine ⟨?_, ?_⟩
  · unfold whoAt; rw [hm]; intro e; cases e
  · intro a; rw [hm]; intro e; cases e

/-- The hypotheses of `c62_fenced_partial` can be met. -/
example : Linear fencing := by
  obtain ⟨s, h⟩ := fencing_run
  exact c62_fenced_partial h fencing_fenced

end Scc.Twig
