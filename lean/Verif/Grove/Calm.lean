import Verif.Grove.Spec

/-!
# Removals that do not find the root locked

The part of C52 that is true.
-/

namespace Scc.Grove

local notation "Key" => Nat
local notation "Id" => Nat
local notation "Thr" => Nat

variable {V : Type}

/-- Executions in which no removal begins again because `cleanup_root` has found the root locked (the variable
`removed` of `remove_if_sync` is never set, /repo/src/tree_index.rs 471). -/
inductive Calm : St V → List (Ev V) → Prop
  | init : Calm .init []
  | step {s s' : St V} {es : List (Ev V)} {e : Ev V} (r : Calm s es) (h : Step s e s')
    (hb : ∀ t, (s'.th t).rm = false) : Calm s' (e :: es)

theorem Calm.run {s : St V} {es : List (Ev V)} (r : Calm s es) : Run s es := by
  induction r with
  | init => exact .init
  | step _ h _ ih => exact .step ih h

@[simp] theorem upd_same {α : Type} (f : Nat → α) (a : Nat) (v : α) : upd f a v a = v := by simp [upd]

theorem upd_apply {α : Type} (f : Nat → α) (a b : Nat) (v : α) :
    upd f a v b = if b = a then v else f b := rfl

@[simp] theorem setTh_th (s : St V) (t : Thr) (T : Th V) : (s.setTh t T).th = upd s.th t T := rfl
@[simp] theorem go_th (s : St V) (t : Thr) (p : Pc V) :
    (s.go t p).th = upd s.th t { s.th t with pc := p } := rfl

/-- Has the thread still to do what it was asked to do? -/
def Pc.open : Pc V → Bool
  | .top | .at _ | .sel _ _ _ | .got _ _ _ | .inLeaf _ => true
  | _ => false

theorem calm_eff {s : St V} {es : List (Ev V)} (r : Calm s es) :
    Once es ∧ ∀ t, (s.th t).pc.open = true → (mon es).eff t = 0 := by
  induction r with
  | init => exact ⟨trivial, by intro t h; cases h⟩
  | @step s s' es e r h hb ih =>
    obtain ⟨ho, hi⟩ := ih
    cases h with
    | change h => exact ⟨⟨ho, nofun⟩, hi⟩
    | call h =>
      cases h with
      | busy t n hp hr hl he =>
        have := hb t
        simp at this
      | call t k o hp =>
        refine ⟨⟨ho, nofun⟩, fun t' h' => ?_⟩
        simp only [mon, Mon.next, upd_apply, setTh_th] at h' ⊢
        split
        · rfl
        · next hne => rw [if_neg hne] at h'; exact hi t' h'
      | ret t a hp =>
        refine ⟨⟨ho, nofun⟩, fun t' h' => ?_⟩
        simp only [mon, Mon.next, go_th, upd_apply] at h' ⊢
        split at h'
        · cases h'
        · exact hi t' h'
      | put t l v hp hop hf hr hk =>
        refine ⟨⟨ho, nofun⟩, fun t' h' => ?_⟩
        simp only [mon, Mon.next, Mon.assign, go_th, upd_apply] at h' ⊢
        split at h'
        · cases h'
        · next hne => rw [if_neg hne]; exact hi t' h'
      | del t l c v hp hop hf hk hc he =>
        refine ⟨⟨ho, ?_⟩, fun t' h' => ?_⟩
        · intro t' k' v' e'
          cases e'
          exact hi t (by rw [hp]; rfl)
        · simp only [mon, Mon.next, Mon.assign, go_th, upd_apply] at h' ⊢
          split at h'
          · cases h'
          · next hne => rw [if_neg hne]; exact hi t' h'
      | delLast t l c v hp hop hf hk hc he =>
        refine ⟨⟨ho, ?_⟩, fun t' h' => ?_⟩
        · intro t' k' v' e'
          cases e'
          exact hi t (by rw [hp]; rfl)
        · simp only [mon, Mon.next, Mon.assign, go_th, upd_apply] at h' ⊢
          split at h'
          · cases h'
          · next hne => rw [if_neg hne]; exact hi t' h'
      | newRoot t v hp hr hop => exact ⟨⟨ho, nofun⟩, hi⟩
      | _ =>
        refine ⟨⟨ho, nofun⟩, fun t' h' => hi t' ?_⟩
        simp only [go_th, setTh_th, upd_apply, Th.failed] at h'
        split at h'
        · next heq =>
          subst heq
          first
            | (revert h'; split <;> exact nofun)
            | (cases h'; done)
            | simp only [*, Pc.open]
        · exact h'

/-- The part of C52 that is true: unless a removal begins again because another thread is exchanging the
root, no call takes away more than one entry. -/
theorem c52_once_partial {s : St V} {es : List (Ev V)} (r : Calm s es) : Once es := (calm_eff r).1

end Scc.Grove
