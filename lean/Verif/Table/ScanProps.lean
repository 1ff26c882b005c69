import Verif.Table.MapProps
import Verif.Table.Empty

/-!
# Traversals, `len` and `is_empty`

C09, C10 (on the table), C13, C14.
-/

namespace Scc.Table

open Scc.Index (bucketIndex fromIndexToRange InRange)

variable {K V R : Type} {hash : K → Nat}

/-- Executions in all states of which `P` holds. -/
inductive Run [DecidableEq K] (hash : K → Nat) (P : St K V R → Prop) :
    St K V R → List (Event K V R) → St K V R → Prop
  | nil {s} : P s → Run hash P s [] s
  | tau {s es s' s''} : Run hash P s es s' → Step hash s' none s'' → P s'' → Run hash P s es s''
  | event {s es s' e s''} : Run hash P s es s' → Step hash s' (some e) s'' → P s'' →
      Run hash P s (es ++ [e]) s''

theorem Run.exec [DecidableEq K] {P : St K V R → Prop} {s s' : St K V R} {es : List (Event K V R)}
    (h : Run hash P s es s') : Exec hash s es s' ∧ P s' := by
  induction h with
  | nil h => exact ⟨.nil, h⟩
  | tau _ st h ih => exact ⟨.tau ih.1 st, h⟩
  | event _ st h ih => exact ⟨.event ih.1 st, h⟩

/-! ## C09 -/

/-- **C09.** A traversal that starts in `s` and is about to return in `s'` has shown key `k` to its
closure if at every moment in between the map contained `k` or `k` had already been shown - whatever the
other threads did, and however often the table was resized. -/
theorem c09_visits [DecidableEq K] (hh : ∀ k, hash k < 2 ^ 64) {s₀ s₁ s s' : St K V R}
    {es es' : List (Event K V R)} {t : Nat} {k : K} {u u' : K → V → Option V} {seen : K → List V}
    (h0 : Init s₀) (ex : Exec hash s₀ es s₁) (st : Step hash s₁ (some (.tvInv t u)) s)
    (run : Run hash (fun s => s.absMap hash k ≠ none ∨ (s.pc t).seen k ≠ []) s es' s')
    (hd : s'.pc t = .tvDone u' seen) : seen k ≠ [] := by
  have hI := inv_step hh (inv_exec hh (inv_start h0) ex) st
  obtain ⟨hpc, rfl⟩ := step_tvInv st rfl
  have key : Cov hash s' k (s'.pc t) := by
    clear hd
    induction run with
    | nil =>
      rw [setPc_self]
      exact Or.inr (Or.inl ⟨rfl, rfl⟩)
    | tau r st _ ih => exact cov_step hh (inv_exec hh hI r.exec.1) r.exec.2 ih st
    | event r st _ ih => exact cov_step hh (inv_exec hh hI r.exec.1) r.exec.2 ih st
  rw [hd] at key
  exact key

/-! ## C10 -/

/-- **C10 on the whole table.** A traversal with closure `u` of a table that nobody else uses shows each
entry exactly once and leaves exactly what the closure returned for each entry, also when entries have to
be relocated on the way. `retain` is the closure that returns the value or nothing. -/
theorem c10_retain [DecidableEq K] (hh : ∀ k, hash k < 2 ^ 64) {s₀ s₁ s₂ s₃ s₄ : St K V R}
    {es : List (Event K V R)} {t : Nat} {u : K → V → Option V} {seen : K → List V} (h0 : Init s₀)
    (ex : Exec hash s₀ es s₁) (st1 : Step hash s₁ (some (.tvInv t u)) s₂) (al : Alone hash t s₂ s₃)
    (st2 : Step hash s₃ (some (.tvRet t seen)) s₄) (k : K) :
    seen k = (s₁.absMap hash k).toList ∧ s₄.absMap hash k = (s₁.absMap hash k).bind (u k) := by
  have := walk_alone hh (inv_exec hh (inv_start h0) ex) st1 al st2
  exact ⟨this.1 k, this.2.1 k⟩

/-- `clear` leaves the table empty. -/
theorem c10_clear [DecidableEq K] (hh : ∀ k, hash k < 2 ^ 64) {s₀ s₁ s₂ s₃ s₄ : St K V R}
    {es : List (Event K V R)} {t : Nat} {seen : K → List V} (h0 : Init s₀)
    (ex : Exec hash s₀ es s₁) (st1 : Step hash s₁ (some (.tvInv t (fun _ _ => none))) s₂)
    (al : Alone hash t s₂ s₃) (st2 : Step hash s₃ (some (.tvRet t seen)) s₄) (k : K) :
    s₄.absMap hash k = none := by
  rw [(c10_retain hh h0 ex st1 al st2 k).2]
  cases s₁.absMap hash k <;> rfl

/-! ## C13 -/

/-- The call of `is_empty` by `t` starts: `has_entry` loads the current array. -/
inductive EmStart [DecidableEq K] (hash : K → Nat) (t : Nat) : St K V R → St K V R → Prop
  | none {s} : s.pc t = .idle → s.cur = none → EmStart hash t s (s.setPc t (.emDone true))
  | load {s a} : s.pc t = .idle → s.cur = some a → EmStart hash t s (s.setPc t (.em1 a))

theorem EmStart.step [DecidableEq K] {t : Nat} {s s' : St K V R} (h : EmStart hash t s s') :
    Step hash s Option.none s' := by
  cases h with
  | none h1 h2 => exact .emNone h1 h2
  | load h1 h2 => exact .emLoad h1 h2

theorem EmStart.map [DecidableEq K] {t : Nat} {s s' : St K V R} (h : EmStart hash t s s') :
    s'.absMap hash = s.absMap hash := by
  cases h <;> rfl

/-- **C13, `is_empty`.** On a table that nobody else uses (relocation may go on), `is_empty` returns
true exactly if the map has no entry. -/
theorem c13_is_empty [DecidableEq K] (hh : ∀ k, hash k < 2 ^ 64) {s₀ s₁ s₂ s₃ : St K V R}
    {es : List (Event K V R)} {t : Nat} {r : Bool} (h0 : Init s₀) (ex : Exec hash s₀ es s₁)
    (st : EmStart hash t s₁ s₂) (al : Alone hash t s₂ s₃) (hr : s₃.pc t = .emDone r) :
    (r = true ↔ ∀ k, s₃.absMap hash k = none) := by
  have hI := inv_step hh (inv_exec hh (inv_start h0) ex) st.step
  have h2 : EmQuiet hash s₂ (s₂.pc t) := by
    cases st with
    | none hpc hc =>
      rw [setPc_self]
      refine ⟨fun _ k => ?_, fun _ => rfl⟩
      rw [setPc_absMap]; unfold St.absMap; rw [hc]
    | load hpc hc =>
      rw [setPc_self]
      exact hc
  have h3 : EmQuiet hash s₃ (s₃.pc t) := by
    clear hr
    induction al with
    | nil => exact h2
    | tau al st hq hne ih =>
      have := al.exec
      exact emQuiet_step hh (inv_exec hh hI this.1) this.2.1 hq ih hne st
  rw [hr] at h3
  exact h3

/-- The map does not change meanwhile. -/
theorem c13_unchanged [DecidableEq K] (hh : ∀ k, hash k < 2 ^ 64) {s₀ s₁ s₂ s₃ : St K V R}
    {es : List (Event K V R)} {t : Nat} {r : Bool} (h0 : Init s₀) (ex : Exec hash s₀ es s₁)
    (st : EmStart hash t s₁ s₂) (al : Alone hash t s₂ s₃) (hr : s₃.pc t = .emDone r) :
    s₃.absMap hash = s₁.absMap hash := by
  have ex2 : Exec hash s₀ es s₂ := .tau ex st.step
  have hI := inv_exec hh (inv_start h0) ex2
  rw [← st.map]
  have h2 : ∀ v, ((s₂.pc v).abs = .idle) := by
    intro v
    by_cases hv : v = t
    · subst hv; cases st <;> (rw [setPc_self]; rfl)
    · exact calm_abs (al.first v hv)
  have := spec_nil (a := s₂.abs hash) h2 (sim_exec hh hI al.exec.1) rfl
  exact congrArg Spec.St.map this

/-! ### `len` -/

/-- The predicate `P` holds of exactly `n` keys. -/
def HasCard (P : K → Prop) (n : Nat) : Prop := ∃ l : List K, l.Nodup ∧ l.length = n ∧ ∀ k, P k ↔ k ∈ l

/-- `n` is the sum of the numbers of entries of the first `m` buckets of array `x`. -/
inductive SumLen (s : St K V R) (x : Nat) : Nat → Nat → Prop
  | zero : SumLen s x 0 0
  | succ {m n c} : SumLen s x m n → HasCard (fun k => (s.b x m).content k ≠ none) c →
      SumLen s x (m + 1) (n + c)

/-- `num_entries` (/repo/src/hash_table.rs 163-180) on a table that does not change: the sum of the
bucket lengths of the old array, if there is one, and of the current array. -/
def NumEntries (s : St K V R) (n : Nat) : Prop :=
  match s.cur with
  | none => n = 0
  | some a =>
    match (s.arr a).linked with
    | none => SumLen s a (s.len a) n
    | some o => ∃ n₁ n₂, SumLen s o (s.len o) n₁ ∧ SumLen s a (s.len a) n₂ ∧ n = n₁ + n₂

theorem HasCard.unique [DecidableEq K] {P : K → Prop} {m n : Nat} (h1 : HasCard P m) (h2 : HasCard P n) :
    m = n := by
  obtain ⟨l1, d1, rfl, e1⟩ := h1
  obtain ⟨l2, d2, rfl, e2⟩ := h2
  have key : ∀ {l1 l2 : List K}, l1.Nodup → (∀ k, k ∈ l1 → k ∈ l2) → l1.length ≤ l2.length := by
    intro l1
    induction l1 with
    | nil => intro l2 _ _; exact Nat.zero_le _
    | cons a l ih =>
      intro l2 hd hs
      have ha : a ∈ l2 := hs a (by simp)
      have := ih (l2 := l2.erase a) (List.nodup_cons.mp hd).2 (fun k hk => by
        have hne : k ≠ a := by rintro rfl; exact (List.nodup_cons.mp hd).1 hk
        exact (List.mem_erase_of_ne hne).mpr (hs k (by simp [hk])))
      rw [List.length_erase_of_mem ha] at this
      have : 0 < l2.length := List.length_pos_of_mem ha
      simp only [List.length_cons]; omega
  exact Nat.le_antisymm (key d1 (fun k hk => (e2 k).1 ((e1 k).2 hk)))
    (key d2 (fun k hk => (e1 k).1 ((e2 k).2 hk)))

theorem HasCard.or {P Q : K → Prop} {m n : Nat} (h1 : HasCard P m) (h2 : HasCard Q n)
    (hd : ∀ k, P k → ¬ Q k) : HasCard (fun k => P k ∨ Q k) (m + n) := by
  obtain ⟨l1, d1, rfl, e1⟩ := h1
  obtain ⟨l2, d2, rfl, e2⟩ := h2
  refine ⟨l1 ++ l2, ?_, by simp, fun k => by rw [List.mem_append, ← e1, ← e2]⟩
  rw [List.nodup_append]
  refine ⟨d1, d2, fun a ha b hb hab => ?_⟩
  subst hab
  exact hd a ((e1 a).2 ha) ((e2 a).2 hb)

theorem HasCard.congr {P Q : K → Prop} {n : Nat} (h : HasCard P n) (e : ∀ k, P k ↔ Q k) : HasCard Q n := by
  obtain ⟨l, d, hl, h⟩ := h
  exact ⟨l, d, hl, fun k => (e k).symm.trans (h k)⟩

theorem HasCard.exists [DecidableEq K] {P : K → Prop} (h : ∃ l : List K, ∀ k, P k → k ∈ l) :
    ∃ n, HasCard P n := by
  obtain ⟨l, hl⟩ := h
  induction l generalizing P with
  | nil => exact ⟨0, [], List.nodup_nil, rfl, fun k => ⟨hl k, fun h => by cases h⟩⟩
  | cons a l ih =>
    obtain ⟨n, hn⟩ := ih (P := fun k => P k ∧ k ≠ a) (fun k hk => by
      have := hl k hk.1
      simp only [List.mem_cons] at this
      rcases this with h | h
      · exact absurd h hk.2
      · exact h)
    by_cases ha : P a
    · refine ⟨n + 1, (HasCard.or hn (Q := fun k => k = a) ⟨[a], by simp, rfl, by simp⟩
        (fun k hk => hk.2)).congr (fun k => ?_)⟩
      constructor
      · rintro (h | rfl)
        · exact h.1
        · exact ha
      · intro h
        by_cases e : k = a
        · exact Or.inr e
        · exact Or.inl ⟨h, e⟩
    · refine ⟨n, hn.congr (fun k => ⟨fun h => h.1, fun h => ⟨h, ?_⟩⟩)⟩
      rintro rfl; exact ha h

theorem sumLen_exists [DecidableEq K] {s : St K V R} (hf : Fin s) (x m : Nat) : ∃ n, SumLen s x m n := by
  induction m with
  | zero => exact ⟨0, .zero⟩
  | succ m ih =>
    obtain ⟨n, hn⟩ := ih
    obtain ⟨c, hc⟩ := HasCard.exists (hf.content x m)
    exact ⟨n + c, .succ hn hc⟩

theorem sumLen_card {s : St K V R} (hG : Glob hash s) {x m n : Nat} (h : SumLen s x m n) :
    HasCard (fun k => s.ix hash x k < m ∧ s.val hash x k ≠ none) n := by
  induction h with
  | zero => exact ⟨[], List.nodup_nil, rfl, fun k => ⟨fun h => absurd h.1 (Nat.not_lt_zero _), fun h => by cases h⟩⟩
  | @succ m n c _ hc ih =>
    refine (HasCard.or ih (hc.congr (Q := fun k => s.ix hash x k = m ∧ s.val hash x k ≠ none) fun k => ?_)
      (fun k h1 h2 => by omega)).congr (fun k => ?_)
    · constructor
      · intro h
        have := (hG.placed x m k h).1
        exact ⟨this.symm, by unfold St.val; rw [← this]; exact h⟩
      · rintro ⟨h1, h2⟩
        unfold St.val at h2; rw [h1] at h2; exact h2
    · constructor
      · rintro (h | h)
        · exact ⟨by omega, h.2⟩
        · exact ⟨by omega, h.2⟩
      · intro h
        by_cases e : s.ix hash x k = m
        · exact Or.inr ⟨e, h.2⟩
        · exact Or.inl ⟨by omega, h.2⟩

/-- **C13, `len`.** In every reachable state, also in the middle of a resize, the sum `num_entries`
computes exists and is the number of keys the map has. -/
theorem c13_len [DecidableEq K] (hh : ∀ k, hash k < 2 ^ 64) {s₀ s : St K V R}
    {es : List (Event K V R)} (h0 : Init s₀) (ex : Exec hash s₀ es s) :
    (∃ n, NumEntries s n) ∧
      ∀ n, NumEntries s n → HasCard (fun k => s.absMap hash k ≠ none) n := by
  have hI := inv_exec hh (inv_start h0) ex
  have hG := hI.glob
  have hf := fin_exec (fin_start h0) ex
  unfold NumEntries St.absMap
  cases hc : s.cur with
  | none =>
    refine ⟨⟨0, rfl⟩, ?_⟩
    rintro n rfl
    exact ⟨[], List.nodup_nil, rfl, fun k => ⟨fun h => absurd rfl h, fun h => by cases h⟩⟩
  | some a =>
    have ha : a < s.next := by have := hG.cur_last a hc; omega
    have whole : ∀ x, x < s.next → ∀ n, SumLen s x (s.len x) n →
        HasCard (fun k => s.val hash x k ≠ none) n := by
      intro x hx n hn
      exact (sumLen_card hG hn).congr (fun k => ⟨fun h => h.2, fun h => ⟨ix_lt hh hG hx k, h⟩⟩)
    simp only
    cases hl : (s.arr a).linked with
    | none =>
      simp only
      exact ⟨sumLen_exists hf a _, whole a ha⟩
    | some o =>
      simp only
      obtain ⟨n₁, h₁⟩ := sumLen_exists hf o (s.len o)
      obtain ⟨n₂, h₂⟩ := sumLen_exists hf a (s.len a)
      refine ⟨⟨_, n₁, n₂, h₁, h₂, rfl⟩, ?_⟩
      rintro n ⟨n₁, n₂, h₁, h₂, rfl⟩
      have hpr := hG.linked_pred a o ha hl
      subst hpr
      refine (HasCard.or (whole o (by omega) _ h₁) (whole (o + 1) ha _ h₂) (fun k h h' => ?_)).congr
        (fun k => ?_)
      · exact h' (hG.excl o k hc hl h)
      · cases s.val hash o k <;> simp

/-! ## C14 -/

/-- **C14 as far as it holds.** If during the whole call of `is_empty` the map contains `k` and the
table is not replaced by another one, the call returns false. Missing: calls during which the table is
resized; for those the claim is false, see `c14_false_empty`. -/
theorem c14_not_empty_partial [DecidableEq K] (hh : ∀ k, hash k < 2 ^ 64) {s₀ s₁ s₂ s₃ : St K V R}
    {es es' : List (Event K V R)} {t : Nat} {r : Bool} {k : K} (h0 : Init s₀) (ex : Exec hash s₀ es s₁)
    (hk : s₁.absMap hash k ≠ none) (st : EmStart hash t s₁ s₂)
    (run : Run hash (fun s => s.absMap hash k ≠ none ∧ s.cur = s₁.cur ∧ s.pc t ≠ .idle) s₂ es' s₃)
    (hr : s₃.pc t = .emDone r) : r = false := by
  have hI := inv_step hh (inv_exec hh (inv_start h0) ex) st.step
  cases hc : s₁.cur with
  | none => unfold St.absMap at hk; rw [hc] at hk; exact absurd rfl hk
  | some a =>
    have h2 : EmSure hash s₂ k a (s₂.pc t) := by
      cases st with
      | none _ h => rw [hc] at h; cases h
      | load _ h =>
        rw [hc] at h; cases h
        rw [setPc_self]; rfl
    have h3 : EmSure hash s₃ k a (s₃.pc t) := by
      clear hr
      induction run with
      | nil => exact h2
      | tau r st hp ih =>
        have := r.exec
        exact emSure_step hh (inv_exec hh hI this.1) st (this.2.2.1.trans hc) (hp.2.1.trans hc) this.2.1
          hp.1 hp.2.2 ih
      | event r st hp ih =>
        have := r.exec
        exact emSure_step hh (inv_exec hh hI this.1) st (this.2.2.1.trans hc) (hp.2.1.trans hc) this.2.1
          hp.1 hp.2.2 ih
    rw [hr] at h3
    exact h3

/-! ### The negation, and witnesses -/

local macro "empty1" : tactic => `(tactic| (
  intro k
  match k with
  | 0 => rfl
  | 1 => rfl
  | n + 2 => rfl))

theorem present {s : WSt} {k v : Nat} (h : s.absMap h0 k = some v) : s.absMap h0 k ≠ none := by
  rw [h]; simp

theorem emStart_of [DecidableEq K] {s₀ s : St K V R} {es : List (Event K V R)} {t a : Nat}
    (_ : Exec hash s₀ es s) (h1 : s.pc t = .idle) (h2 : s.cur = some a) :
    EmStart hash t s (s.setPc t (.em1 a)) := .load h1 h2

theorem run_of [DecidableEq K] {s s' : St K V R} {t : Nat} {P : St K V R → Prop}
    (_ : EmStart hash t s s') (h : P s') : Run hash P s' [] s' := .nil h

theorem alone_of [DecidableEq K] {s s' : St K V R} {t : Nat} (_ : EmStart hash t s s')
    (h1 : Quiet t s') (h2 : s'.pc t ≠ .idle) : Alone hash t s' s' := .nil h1 h2

theorem tvStep_of [DecidableEq K] {s₀ s : St K V R} {es : List (Event K V R)} {t : Nat}
    {u : K → V → Option V} (_ : Exec hash s₀ es s) (h1 : s.pc t = .idle) :
    Step hash s (some (.tvInv t u)) (s.setPc t (.start (.tv u 0 0 (fun _ => [])))) := .tvInvoke h1

theorem run_of' [DecidableEq K] {s s' : St K V R} {e : Option (Event K V R)} {P : St K V R → Prop}
    (_ : Step hash s e s') (h : P s') : Run hash P s' [] s' := .nil h

local macro "quiet1" : tactic => `(tactic| (
  intro u hu
  match u with
  | 0 => trivial
  | 1 => exact absurd rfl hu
  | n + 2 => trivial))

/-- **C14 is false in general.** Key 1 is in the map at every moment of the call of `is_empty` by
thread 1, and yet the call returns true: after it has loaded the current array and seen no linked array,
thread 2 doubles the table and thread 3 relocates the entry to the new array; the scan goes on over the
old array and finds it empty. -/
theorem c14_false_empty : ∃ (s₁ s₂ s₃ : WSt) (es : List _), Exec h0 St.init es s₁ ∧
    s₁.absMap h0 1 = some 5 ∧ EmStart h0 1 s₁ s₂ ∧
    Run h0 (fun s => s.absMap h0 1 ≠ none ∧ s.pc 1 ≠ .idle) s₂ [] s₃ ∧ s₃.pc 1 = .emDone true := by
  have e := Exec.event (hash := h0) (Exec.nil (s := (St.init : WSt)))
    (Step.invoke (t := 0) (o := wIns 1 5) rfl)
  have e := Exec.tau e (Step.alloc (t := 0) (o := wIns 1 5) 1 rfl rfl rfl (by omega) (by omega))
  have e := Exec.tau e (Step.linkNone (t := 0) (g := .op (wIns 1 5)) (a := 0) rfl rfl)
  have e := Exec.tau e (Step.lock (t := 0) (g := .op (wIns 1 5)) (a := 0) rfl rfl rfl)
  have e := Exec.tau e (Step.commit (t := 0) (o := wIns 1 5) (a := 0) rfl)
  have e := Exec.tau e (Step.unlock (t := 0) (o := wIns 1 5) (a := 0) rfl)
  have e := Exec.event e (Step.ret (t := 0) (r := some (.inserted true)) rfl)
  have st := emStart_of (t := 1) (a := 0) e rfl rfl
  have r := run_of (P := fun s : WSt => s.absMap h0 1 ≠ none ∧ s.pc 1 ≠ .idle) st
    ⟨present rfl, by intro h; cases h⟩
  have r := Run.tau r (Step.emLinkNone (t := 1) (a := 0) rfl rfl) (⟨present rfl, by intro h; cases h⟩)
  have r := Run.tau r (Step.rzLoad (t := 2) (a := 0) rfl rfl) (⟨present rfl, by intro h; cases h⟩)
  have r := Run.tau r (Step.rzLink (t := 2) (a := 0) rfl rfl) (⟨present rfl, by intro h; cases h⟩)
  have r := Run.tau r (Step.rzLock (t := 2) (a := 0) rfl rfl) (⟨present rfl, by intro h; cases h⟩)
  have r := Run.tau r (Step.rzCheck (t := 2) (a := 0) rfl rfl) (⟨present rfl, by intro h; cases h⟩)
  have r := Run.tau r (Step.rzSwap (t := 2) (a := 0) 2 rfl (by omega) (by omega)) (⟨present rfl, by intro h; cases h⟩)
  have r := Run.tau r (Step.rzRelease (t := 2) rfl) (⟨present rfl, by intro h; cases h⟩)
  have r := Run.tau r (Step.helpLoad (t := 3) (a := 1) rfl rfl) (⟨present rfl, by intro h; cases h⟩)
  have r := Run.tau r (Step.helpLink (t := 3) (a := 1) (o := 0) rfl rfl) (⟨present rfl, by intro h; cases h⟩)
  have r := Run.tau r (Step.helpLock (t := 3) (a := 1) (o := 0) (j := 0) rfl (by decide) rfl rfl) (⟨present rfl, by intro h; cases h⟩)
  have r := Run.tau r (Step.rlTarget (t := 3) (a := 1) (o := 0) (j := 0) (n := 0) rfl (by decide) rfl) (⟨present rfl, by intro h; cases h⟩)
  have r := Run.tau r (Step.rlTarget (t := 3) (a := 1) (o := 0) (j := 0) (n := 1) rfl (by decide) rfl) (⟨present rfl, by intro h; cases h⟩)
  have r := Run.tau r (Step.rlBegin (t := 3) (a := 1) (o := 0) (j := 0) (n := 2) rfl (by decide)) (⟨present rfl, by intro h; cases h⟩)
  have r := Run.tau r (Step.rlMove (t := 3) (a := 1) (o := 0) (j := 0) (k := 1) (v := 5) rfl rfl) (⟨present rfl, by intro h; cases h⟩)
  have r := Run.tau r (Step.emCur (t := 1) (a := 0) (i := 0) rfl (by decide) (by empty1)) (⟨present rfl, by intro h; cases h⟩)
  have r := Run.tau r (Step.emCur (t := 1) (a := 0) (i := 1) rfl (by decide) (by empty1)) (⟨present rfl, by intro h; cases h⟩)
  have r := Run.tau r (Step.emEnd (t := 1) (a := 0) (i := 2) rfl (by decide)) (⟨present rfl, by intro h; cases h⟩)
  exact ⟨_, _, _, _, e, rfl, st, r, rfl⟩

/-- The hypotheses of `c14_not_empty_partial` can be met: the same call while the helper of an earlier
resize works. -/
example : ∃ (s₁ s₂ s₃ : WSt) (es : List _), Exec h0 St.init es s₁ ∧
    s₁.absMap h0 1 ≠ none ∧ EmStart h0 1 s₁ s₂ ∧
    Run h0 (fun s => s.absMap h0 1 ≠ none ∧ s.cur = s₁.cur ∧ s.pc 1 ≠ .idle) s₂ [] s₃ ∧
    s₃.pc 1 = .emDone false := by
  have e := Exec.event (hash := h0) (Exec.nil (s := (St.init : WSt)))
    (Step.invoke (t := 0) (o := wIns 1 5) rfl)
  have e := Exec.tau e (Step.alloc (t := 0) (o := wIns 1 5) 1 rfl rfl rfl (by omega) (by omega))
  have e := Exec.tau e (Step.linkNone (t := 0) (g := .op (wIns 1 5)) (a := 0) rfl rfl)
  have e := Exec.tau e (Step.lock (t := 0) (g := .op (wIns 1 5)) (a := 0) rfl rfl rfl)
  have e := Exec.tau e (Step.commit (t := 0) (o := wIns 1 5) (a := 0) rfl)
  have e := Exec.tau e (Step.unlock (t := 0) (o := wIns 1 5) (a := 0) rfl)
  have e := Exec.event e (Step.ret (t := 0) (r := some (.inserted true)) rfl)
  have st := emStart_of (t := 1) (a := 0) e rfl rfl
  have r := run_of (P := fun s : WSt => s.absMap h0 1 ≠ none ∧ s.cur = some 0 ∧ s.pc 1 ≠ .idle) st
    ⟨present rfl, rfl, by intro h; cases h⟩
  have r := Run.tau r (Step.emLinkNone (t := 1) (a := 0) rfl rfl) (⟨present rfl, rfl, by intro h; cases h⟩)
  have r := Run.tau r (Step.emCurFound (t := 1) (a := 0) (i := 0) rfl (by decide) (fun h => by have := h 1; cases this)) (⟨present rfl, rfl, by intro h; cases h⟩)
  exact ⟨_, _, _, _, e, present rfl, st, r, rfl⟩

/-- The hypotheses of `c13_is_empty` can be met. -/
example : ∃ (s₁ s₂ s₃ : WSt) (es : List _), Exec h0 St.init es s₁ ∧ EmStart h0 1 s₁ s₂ ∧
    Alone h0 1 s₂ s₃ ∧ s₃.pc 1 = .emDone false := by
  have e := Exec.event (hash := h0) (Exec.nil (s := (St.init : WSt)))
    (Step.invoke (t := 0) (o := wIns 1 5) rfl)
  have e := Exec.tau e (Step.alloc (t := 0) (o := wIns 1 5) 1 rfl rfl rfl (by omega) (by omega))
  have e := Exec.tau e (Step.linkNone (t := 0) (g := .op (wIns 1 5)) (a := 0) rfl rfl)
  have e := Exec.tau e (Step.lock (t := 0) (g := .op (wIns 1 5)) (a := 0) rfl rfl rfl)
  have e := Exec.tau e (Step.commit (t := 0) (o := wIns 1 5) (a := 0) rfl)
  have e := Exec.tau e (Step.unlock (t := 0) (o := wIns 1 5) (a := 0) rfl)
  have e := Exec.event e (Step.ret (t := 0) (r := some (.inserted true)) rfl)
  have st := emStart_of (t := 1) (a := 0) e rfl rfl
  have a := alone_of st (by quiet1) (by intro h; cases h)
  have a := Alone.tau a (Step.emLinkNone (t := 1) (a := 0) rfl rfl) (by quiet1) (by intro h; cases h)
  have a := Alone.tau a (Step.emCurFound (t := 1) (a := 0) (i := 0) rfl (by decide) (fun h => by have := h 1; cases this)) (by quiet1) (by intro h; cases h)
  exact ⟨_, _, _, _, e, st, a, rfl⟩

/-- The hypotheses of `c09_visits` can be met by a traversal that removes everything and during which
the table doubles: it shows key 1 before, and continues in the new array. (The hypotheses of `c10_retain`
are met in `w_seq`.) -/
example : ∃ (s₁ s s' : WSt) (es : List _) (u : Nat → Nat → Option Nat) (seen : Nat → List Nat),
    Exec h0 St.init es s₁ ∧ Step h0 s₁ (some (.tvInv 1 u)) s ∧
    Run h0 (fun s => s.absMap h0 1 ≠ none ∨ (s.pc 1).seen 1 ≠ []) s [] s' ∧
    s'.pc 1 = .tvDone u seen ∧ seen 1 = [5] := by
  have e := Exec.event (hash := h0) (Exec.nil (s := (St.init : WSt)))
    (Step.invoke (t := 0) (o := wIns 1 5) rfl)
  have e := Exec.tau e (Step.alloc (t := 0) (o := wIns 1 5) 1 rfl rfl rfl (by omega) (by omega))
  have e := Exec.tau e (Step.linkNone (t := 0) (g := .op (wIns 1 5)) (a := 0) rfl rfl)
  have e := Exec.tau e (Step.lock (t := 0) (g := .op (wIns 1 5)) (a := 0) rfl rfl rfl)
  have e := Exec.tau e (Step.commit (t := 0) (o := wIns 1 5) (a := 0) rfl)
  have e := Exec.tau e (Step.unlock (t := 0) (o := wIns 1 5) (a := 0) rfl)
  have e := Exec.event e (Step.ret (t := 0) (r := some (.inserted true)) rfl)
  have st := tvStep_of (t := 1) (u := fun _ _ => none) e rfl
  have r := run_of' (P := fun s : WSt => s.absMap h0 1 ≠ none ∨ (s.pc 1).seen 1 ≠ []) st
    (Or.inl (present rfl))
  have r := Run.tau r (Step.load (t := 1) (a := 0) rfl rfl) (Or.inl (present rfl))
  have r := Run.tau r (Step.rzLoad (t := 2) (a := 0) rfl rfl) (Or.inl (present rfl))
  have r := Run.tau r (Step.rzLink (t := 2) (a := 0) rfl rfl) (Or.inl (present rfl))
  have r := Run.tau r (Step.rzLock (t := 2) (a := 0) rfl rfl) (Or.inl (present rfl))
  have r := Run.tau r (Step.rzCheck (t := 2) (a := 0) rfl rfl) (Or.inl (present rfl))
  have r := Run.tau r (Step.rzSwap (t := 2) (a := 0) 2 rfl (by omega) (by omega)) (Or.inl (present rfl))
  have r := Run.tau r (Step.rzRelease (t := 2) rfl) (Or.inl (present rfl))
  have r := Run.tau r (Step.linkNone (t := 1) (a := 0) rfl rfl) (Or.inl (present rfl))
  have r := Run.tau r (Step.lock (t := 1) (a := 0) rfl rfl rfl) (Or.inl (present rfl))
  have r := Run.tau r (Step.visit (t := 1) (a := 0) rfl) (Or.inr (by intro h; cases h))
  have r := Run.tau r (Step.tvUnlock (t := 1) (a := 0) rfl) (Or.inr (by intro h; cases h))
  have r := Run.tau r (Step.retry (t := 1) (a := 0) (Or.inl rfl)) (Or.inr (by intro h; cases h))
  have r := Run.tau r (Step.load (t := 1) (a := 1) rfl rfl) (Or.inr (by intro h; cases h))
  have r := Run.tau r (Step.linkSome (t := 1) (a := 1) (o := 0) rfl rfl) (Or.inr (by intro h; cases h))
  have r := Run.tau r (Step.dedupLock (t := 1) (a := 1) (o := 0) (j := 1) rfl (by decide) rfl rfl) (Or.inr (by intro h; cases h))
  have r := Run.tau r (Step.rlEmpty (t := 1) (a := 1) (o := 0) (j := 1) (n := 2) rfl (by decide) (by empty1)) (Or.inr (by intro h; cases h))
  have r := Run.tau r (Step.dedupDone (t := 1) (a := 1) (o := 0) (j := 2) rfl (by decide)) (Or.inr (by intro h; cases h))
  have r := Run.tau r (Step.lock (t := 1) (a := 1) rfl rfl rfl) (Or.inr (by intro h; cases h))
  have r := Run.tau r (Step.visit (t := 1) (a := 1) rfl) (Or.inr (by intro h; cases h))
  have r := Run.tau r (Step.tvUnlock (t := 1) (a := 1) rfl) (Or.inr (by intro h; cases h))
  have r := Run.tau r (Step.linkSome (t := 1) (a := 1) (o := 0) rfl rfl) (Or.inr (by intro h; cases h))
  have r := Run.tau r (Step.dedupSkip (t := 1) (a := 1) (o := 0) (j := 1) rfl (by decide) rfl) (Or.inr (by intro h; cases h))
  have r := Run.tau r (Step.dedupDone (t := 1) (a := 1) (o := 0) (j := 2) rfl (by decide)) (Or.inr (by intro h; cases h))
  have r := Run.tau r (Step.lock (t := 1) (a := 1) rfl rfl rfl) (Or.inr (by intro h; cases h))
  have r := Run.tau r (Step.visit (t := 1) (a := 1) rfl) (Or.inr (by intro h; cases h))
  have r := Run.tau r (Step.tvUnlock (t := 1) (a := 1) rfl) (Or.inr (by intro h; cases h))
  exact ⟨_, _, _, _, _, _, e, st, r, rfl, rfl⟩

end Scc.Table
