import Verif.Grove.Legal
import Verif.Grove.Atomic
import Verif.Grove.Calm
import Verif.Grove.Witness

/-!
# C53: linearizability of `insert`, `remove_if` and `peek` on a `TreeIndex`

False because of C52, and true in all executions in which no removal takes away two entries.
-/

namespace Scc.Grove

local notation "Key" => Nat
local notation "Id" => Nat
local notation "Thr" => Nat

variable {V : Type}

/-- **C53, partial.** An execution is linearizable unless some call of `remove_if` takes away two entries
(C52). Missing: those executions; in them C53 is false (`c53_violated`). -/
theorem c53_linearizable_partial {s : St V} {es : List (Ev V)} (r : Run s es) (ho : Once es) : Linearizable es :=
  legal_linearizable (c51_legal r) ho

/-- The same for executions in which `cleanup_root` never finds the root locked. -/
theorem c53_calm_partial {s : St V} {es : List (Ev V)} (r : Calm s es) : Linearizable es :=
  c53_linearizable_partial r.run (c52_once_partial r)

/-- Entries added less entries taken away, according to what calls have returned. -/
def balance : List (Ev V) → Int
  | [] => 0
  | .ret _ .inserted :: h => balance h + 1
  | .ret _ (.removed true) :: h => balance h - 1
  | _ :: h => balance h

/-- The same for a call that is to return. -/
def Stage.balance : Stage V → Int
  | .done .inserted => 1
  | .done (.removed true) => -1
  | _ => 0

/-- Calls only of threads 1 and 2, and only with key 0. -/
def Small (h : List (Ev V)) : Prop := ∀ t k o, Ev.call t k o ∈ h → (t = 1 ∨ t = 2) ∧ k = 0

/-- Is a call of this thread running? -/
def running (t : Thr) : List (Ev V) → Bool
  | [] => false
  | .call t' _ _ :: h => t' == t || running t h
  | .ret t' _ :: h => t' != t && running t h
  | _ :: h => running t h

theorem Atomic.running {h : List (Ev V)} {m st} (r : Atomic h m st) (t : Thr) (hn : running t h = false) : st t = .idle := by
  induction r with
  | init => rfl
  | call t' k o _ hs ih =>
    simp only [Grove.running, Bool.or_eq_false_iff, beq_eq_false_iff_ne] at hn
    simp only [if_neg (Ne.symm hn.1)]
    exact ih hn.2
  | act t' k o _ hs ih =>
    have := ih hn
    by_cases e : t = t'
    · subst e; rw [hs] at this; cases this
    · simp only [if_neg e]; exact this
  | ret t' a _ hs ih =>
    by_cases e : t = t'
    · simp only [if_pos e]
    · simp only [if_neg e]
      refine ih ?_
      have e' : (t' != t) = true := by simpa using Ne.symm e
      simpa only [Grove.running, e', Bool.true_and] using hn

theorem balance_ret (t : Thr) (a : Ans V) (h : List (Ev V)) :
    balance (.ret t a :: h) = balance h + (Stage.done a).balance := by
  cases a with
  | removed b => cases b <;> simp [balance, Stage.balance]; rfl
  | _ => simp [balance, Stage.balance]

theorem Atomic.balance {h : List (Ev V)} {m st} (r : Atomic h m st) (hs : Small h) :
    (∀ t, st t ≠ .idle → t = 1 ∨ t = 2) ∧ (∀ t k o, st t = .pending k o → k = 0) ∧
    (if (m 0).isSome then 1 else 0) = Grove.balance h + (st 1).balance + (st 2).balance := by
  induction r with
  | init => exact ⟨fun t h => absurd rfl h, nofun, rfl⟩
  | @call h m st t k o _ h1 ih =>
    obtain ⟨i0, i1, i2⟩ := ih fun t k o h => hs t k o (List.mem_cons_of_mem _ h)
    have h2 := hs t k o List.mem_cons_self
    refine ⟨fun t' h' => ?_, fun t' k' o' h' => ?_, ?_⟩
    · by_cases e : t' = t
      · rw [e]; exact h2.1
      · simp only [if_neg e] at h'; exact i0 _ h'
    · by_cases e : t' = t
      · simp only [if_pos e] at h'; cases h'; exact h2.2
      · simp only [if_neg e] at h'; exact i1 _ _ _ h'
    · rw [i2]
      simp only [Grove.balance]
      rcases h2.1 with e | e <;> subst e <;> simp [h1, Stage.balance]
  | @act h m st t k o _ h1 ih =>
    obtain ⟨i0, i1, i2⟩ := ih hs
    have := i1 t k o h1
    subst this
    have h2 := i0 t (by rw [h1]; nofun)
    refine ⟨fun t' h' => ?_, fun t' k' o' h' => ?_, ?_⟩
    · by_cases e : t' = t
      · rw [e]; exact h2
      · simp only [if_neg e] at h'; exact i0 _ h'
    · by_cases e : t' = t
      · simp only [if_pos e] at h'; cases h'
      · simp only [if_neg e] at h'; exact i1 _ _ _ h'
    · have key : (if (o.act (m 0)).2.isSome then (1 : Int) else 0) =
          (if (m 0).isSome then 1 else 0) + (Stage.done (o.act (m 0)).1).balance := by
        cases o <;> cases m 0 <;> simp only [Op.act, Stage.balance] <;> (try rfl)
        split <;> rfl
      simp only [if_true]
      rw [key, i2]
      rcases h2 with e | e <;> subst e <;> simp only [h1, if_true] <;> simp [Stage.balance]
      omega
  | @ret h m st t a _ h1 ih =>
    obtain ⟨i0, i1, i2⟩ := ih fun t k o h => hs t k o (List.mem_cons_of_mem _ h)
    have h2 := i0 t (by rw [h1]; nofun)
    refine ⟨fun t' h' => ?_, fun t' k' o' h' => ?_, ?_⟩
    · by_cases e : t' = t
      · rw [e]; exact h2
      · simp only [if_neg e] at h'; exact i0 _ h'
    · by_cases e : t' = t
      · simp only [if_pos e] at h'; cases h'
      · simp only [if_neg e] at h'; exact i1 _ _ _ h'
    · rw [i2, balance_ret]
      have e0 : (Stage.idle : Stage V).balance = 0 := rfl
      rcases h2 with e | e <;> subst e <;> simp only [h1, if_true] <;> simp [e0]
      omega

/-- Before a return. -/
theorem Atomic.before_ret {g h : List (Ev V)} {m st} {t : Thr} {a : Ans V} (r : Atomic g m st) (hg : g = .ret t a :: h) :
    ∃ m' st', Atomic h m' st' ∧ st' t = .done a := by
  induction r with
  | init => cases hg
  | call => cases hg
  | act _ _ _ _ _ ih => exact ih hg
  | @ret _ m st t' a' r hs => cases hg; exact ⟨m, st, r, hs⟩

/-- A `peek` while nothing else runs. -/
theorem Atomic.alone {g h : List (Ev V)} {m st} {t : Thr} (r : Atomic g m st) (hg : g = .call t 0 .peek :: h)
    (hi : ∀ t, Grove.running t h = false) :
    ∃ m' st', Atomic h m' st' ∧ m 0 = m' 0 ∧ (∀ t', t' ≠ t → st t' = .idle) ∧ (∀ t', st' t' = .idle) ∧
      (st t = .pending 0 .peek ∨ st t = .done (.found (m' 0))) := by
  induction r with
  | init => cases hg
  | @call _ m st t' k o r hs =>
    cases hg
    refine ⟨m, st, r, rfl, fun t' e => ?_, fun t' => r.running t' (hi t'), ?_⟩
    · simp only [if_neg e]; exact r.running t' (hi t')
    · simp only [if_true]; exact .inl trivial
  | @act _ m st t' k o r hs ih =>
    obtain ⟨m', st', i1, i2, i3, i4, i5⟩ := ih hg
    have e : t' = t := by
      refine Classical.byContradiction fun e => ?_
      have := i3 t' e
      rw [hs] at this; cases this
    subst e
    rw [hs] at i5
    rcases i5 with i5 | i5
    · cases i5
      refine ⟨m', st', i1, by simp only [if_true]; exact i2, fun t'' e => ?_, i4, ?_⟩
      · simp only [if_neg e]; exact i3 t'' e
      · simp only [if_true, Op.act, i2]; exact .inr trivial
    · cases i5
  | ret => cases hg

set_option maxRecDepth 100000 in
/-- C53 is false: the execution of C52 is not linearizable. -/
theorem c53_violated : ∃ (s : St Nat) (es : List (Ev Nat)), Run s es ∧ ¬ Linearizable es := by
  have h : ((execAll twice .init []).map fun x => (x.2.filter Ev.outer).map Ev.sight) = some
      [some (.ret 2 (.found none)), some (.peek 2 0), some (.ret 1 (.removed true)), some (.ret 2 .inserted),
       some (.remove 1 0), some (.insert 2 0 20), some (.ret 1 .inserted), some (.insert 1 0 10)] := by decide +kernel
  match he : execAll twice .init [], h with
  | some (s, es), h =>
    refine ⟨s, es, execAll_sound he .init, fun ⟨m, st, r⟩ => ?_⟩
    simp only [Option.map_some, Option.some.injEq] at h
    generalize es.filter Ev.outer = g at r h
    obtain ⟨e1, g, rfl, h1, h⟩ := List.map_eq_cons_iff.1 h
    obtain ⟨e2, g, rfl, h2, h⟩ := List.map_eq_cons_iff.1 h
    obtain ⟨e3, g, rfl, h3, h⟩ := List.map_eq_cons_iff.1 h
    obtain ⟨e4, g, rfl, h4, h⟩ := List.map_eq_cons_iff.1 h
    obtain ⟨e5, g, rfl, h5, h⟩ := List.map_eq_cons_iff.1 h
    obtain ⟨e6, g, rfl, h6, h⟩ := List.map_eq_cons_iff.1 h
    obtain ⟨e7, g, rfl, h7, h⟩ := List.map_eq_cons_iff.1 h
    obtain ⟨e8, g, rfl, h8, h⟩ := List.map_eq_cons_iff.1 h
    cases List.map_eq_nil_iff.1 h
    have c1 : ∀ e : Ev Nat, ∀ t a, e.sight = some (.ret t a) → e = .ret t a := by
      intro e t a h
      rcases e with _ | ⟨_, _, _ | _ | _⟩ | _ | _ | _ <;> cases h <;> rfl
    have c2 : ∀ e : Ev Nat, ∀ t k, e.sight = some (.peek t k) → e = .call t k .peek := by
      intro e t a h
      rcases e with _ | ⟨_, _, _ | _ | _⟩ | _ | _ | _ <;> cases h <;> rfl
    have c3 : ∀ e : Ev Nat, ∀ t k v, e.sight = some (.insert t k v) → e = .call t k (.insert v) := by
      intro e t a v h
      rcases e with _ | ⟨_, _, _ | _ | _⟩ | _ | _ | _ <;> cases h <;> rfl
    have c4 : ∀ e : Ev Nat, ∀ t k, e.sight = some (.remove t k) → ∃ c, e = .call t k (.remove c) := by
      intro e t a h
      rcases e with _ | ⟨_, _, _ | _ | _⟩ | _ | _ | _ <;> cases h <;> exact ⟨_, rfl⟩
    cases c1 _ _ _ h1; cases c2 _ _ _ h2; cases c1 _ _ _ h3; cases c1 _ _ _ h4
    obtain ⟨c, rfl⟩ := c4 _ _ _ h5
    cases c3 _ _ _ _ h6; cases c1 _ _ _ h7; cases c3 _ _ _ _ h8
    obtain ⟨m1, st1, r1, hd⟩ := r.before_ret rfl
    obtain ⟨m2, st2, r2, e2, e3, e4, e5⟩ := r1.alone rfl fun t => by
      by_cases x1 : t = 1
      · subst x1; rfl
      · by_cases x2 : t = 2
        · subst x2; rfl
        · have y1 : ((1 : Nat) == t) = false := by simpa using Ne.symm x1
          have y2 : ((2 : Nat) == t) = false := by simpa using Ne.symm x2
          simp [running, y1, y2]
    have hb := (r2.balance fun t k o hm => by
      simp only [List.mem_cons, Ev.call.injEq, reduceCtorEq, false_or, List.not_mem_nil, or_false] at hm
      rcases hm with ⟨rfl, rfl, _⟩ | ⟨rfl, rfl, _⟩ | ⟨rfl, rfl, _⟩ <;> simp).2.2
    rw [e4, e4] at hb
    rw [hd] at e5
    rcases e5 with e5 | e5
    · cases e5
    · have : m2 0 = none := by cases hm : m2 0 with | none => rfl | some v => rw [hm] at e5; cases e5
      rw [this] at hb
      cases hb

end Scc.Grove
