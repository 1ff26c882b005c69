import Verif.Table.LockProps

/-!
# Unwinding calls of the hash containers (C56)

`Step` already contains the unwinding of calls: a comparison or a closure panics, or an allocation fails before
anything was moved. Allocation can also fail in the middle of a relocation, since `reserve_slots` reserves
nothing for a bucket without linked buckets (see `Verif/Bucket/Reserve.lean`); `PStep` adds that.
-/

namespace Scc.Table

open Scc.Index (bucketIndex fromIndexToRange InRange)

variable {K V R : Type} {hash : K → Nat}

/-- The events of unwinding calls. -/
def Event.isPanic : Event K V R → Prop
  | .panic _ | .tvPanic _ | .helpPanic _ => True
  | _ => False

/-! ## What holds -/

/-- **C56, linearizability (partial).** An unwinding call has no effect, and an unwinding traversal the effect
of the closure calls it has made: the history, with all other calls, is one of the atomic map, and so is the
content afterwards. Missing: an allocation that fails in a relocation after something was moved
(`c56_violated`). -/
theorem c56_linearizable_partial [DecidableEq K] (hh : ∀ k, hash k < 2 ^ 64) {s₀ s s' : St K V R}
    {es : List (Event K V R)} {e : Event K V R} (h0 : Init s₀) (ex : Exec hash s₀ es s)
    (st : Step hash s (some e) s') (_ : e.isPanic) :
    ∃ a, Spec.Exec Spec.St.init (es ++ [e]) a ∧ a.map = s'.absMap hash :=
  c02_linearizable hh h0 (.event ex st)

/-- **C56, what an unwinding call leaves (partial).** It is over, holds no lock, leaves no lock behind, and has
not changed the content of the container except, for a traversal, entries of the bucket it was in. -/
theorem c56_released_partial [DecidableEq K] (hh : ∀ k, hash k < 2 ^ 64) {s₀ s s' : St K V R}
    {es : List (Event K V R)} {e : Event K V R} (h0 : Init s₀) (ex : Exec hash s₀ es s)
    (st : Step hash s (some e) s') (he : e.isPanic) :
    (∃ t, (e = .panic t ∨ e = .tvPanic t ∨ e = .helpPanic t) ∧ s'.pc t = .idle ∧ (∀ u, u ≠ t → s'.pc u = s.pc u) ∧
      ∀ x i l, (s'.b x i).lock = some l → (s.b x i).lock = some l ∧ l.owner ≠ some t) ∧
    ((∀ t, e ≠ .tvPanic t) → s'.absMap hash = s.absMap hash) ∧
    (∀ t, e = .tvPanic t → s'.absMap hash = s.absMap hash ∨
      ∃ u i p seen a, s.pc t = .crit (.tv u i p seen) a ∧ ∀ k, s'.absMap hash k = s.absMap hash k ∨
        (s.ix hash a k = i ∧ s'.absMap hash k = (s.absMap hash k).bind (u k))) := by
  have hI := inv_exec hh (inv_start h0) ex
  have hG := hI.glob
  have hL := lockInv_exec hh h0 (.event ex st)
  have free : ∀ t, s'.pc t = .idle → ∀ x i l, (s'.b x i).lock = some l → l.owner ≠ some t := by
    intro t ht x i l hl ho
    have := hL x i l t hl ho
    rw [ht] at this
    exact this
  have one : ∀ {s₁ : St K V R} {t : Nat}, s₁.pc = s.pc → s' = s₁.setPc t .idle →
      (∀ x i l, (s'.b x i).lock = some l → (s.b x i).lock = some l) →
      s'.pc t = .idle ∧ (∀ u, u ≠ t → s'.pc u = s.pc u) ∧
      ∀ x i l, (s'.b x i).lock = some l → (s.b x i).lock = some l ∧ l.owner ≠ some t := by
    intro s₁ t h1 h2 h3
    have hi : s'.pc t = .idle := by rw [h2]; exact setPc_self ..
    refine ⟨hi, ?_, fun x i l hl => ⟨h3 x i l hl, free t hi x i l hl⟩⟩
    intro u hu
    rw [h2, setPc_other _ _ _ _ hu, h1]
  have many : ∀ {a o j n t : Nat} {x i : Nat} {l : Lock},
      ((((s.setLocks a (s.rng o a j).1 n none).setLock o j none).setPc t .idle).b x i).lock = some l →
      (s.b x i).lock = some l := by
    intro a o j n t x i l hl
    rw [setPc_b, setLock_lock] at hl
    split at hl
    · cases hl
    · rw [setLocks_lock] at hl
      split at hl
      · cases hl
      · exact hl
  cases st with
  | @panic t g hpc =>
    have o := one (s₁ := s) (t := t) rfl rfl (fun _ _ _ h => h)
    cases g with
    | op => exact ⟨⟨t, Or.inl rfl, o⟩, fun _ => rfl, fun _ _ => Or.inl rfl⟩
    | tv => exact ⟨⟨t, Or.inr (Or.inl rfl), o⟩, fun _ => rfl, fun _ _ => Or.inl rfl⟩
  | @critPanic t o a hpc =>
    refine ⟨⟨t, Or.inl rfl, one (by simp) rfl ?_⟩, fun _ => ?_, fun _ h => by cases h⟩
    · intro x i l hl
      rw [setPc_b, setLock_lock] at hl
      split at hl
      · cases hl
      · exact hl
    · rw [setPc_absMap, setLock_absMap]
  | @tvPanic t u i p seen a S hpc =>
    refine ⟨⟨t, Or.inr (Or.inl rfl), one (by simp) rfl ?_⟩, fun h => absurd rfl (h t), ?_⟩
    · intro x j l hl
      rw [setPc_b, setLock_lock] at hl
      split at hl
      · cases hl
      · rw [modBkt_b] at hl; split at hl <;> exact hl
    · intro t' ht
      cases ht
      right
      refine ⟨u, i, p, seen, a, hpc, fun k => ?_⟩
      have hp := hI.pc t
      rw [hpc] at hp
      obtain ⟨ha, hg, hpass, hlock, hdead⟩ := hp
      have hlock : (s.b a i).lock = some (.user t) := hlock
      have hnm : ∀ u, (s.b a i).lock ≠ some (.moving u) := by intro u; rw [hlock]; simp
      have hnk : ∀ u, (s.b a i).lock ≠ some (.kill u) := by intro u; rw [hlock]; simp
      rw [setPc_absMap, setLock_absMap, absMap_modBkt hG hh ha hg.2 hdead hnm hnk hpass]
      by_cases hk : s.ix hash a k = i
      · have hm : s.absMap hash k = (s.b a i).content k := by
          subst hk
          exact lookup_eq hG hh ha hdead hnm hnk hpass
        by_cases hS : S k = true
        · right; simp [hk, Bkt.partly, hS, hm]
        · left; simp [hk, Bkt.partly, hS, hm]
      · left; simp [hk]
  | @rlPanic t g a o j n hpc =>
    have h := one (s₁ := (s.setLocks a (s.rng o a j).1 n none).setLock o j none) (t := t) (by simp) rfl
      (fun _ _ _ h => many h)
    have e : (((s.setLocks a (s.rng o a j).1 n none).setLock o j none).setPc t .idle).absMap hash =
        s.absMap hash := by rw [setPc_absMap, setLock_absMap, setLocks_absMap]
    cases g with
    | op => exact ⟨⟨t, Or.inl rfl, h⟩, fun _ => e, fun _ _ => Or.inl e⟩
    | tv => exact ⟨⟨t, Or.inr (Or.inl rfl), h⟩, fun _ => e, fun _ _ => Or.inl e⟩
  | @rlPanicHelp t a o j n hpc =>
    refine ⟨⟨t, Or.inr (Or.inr rfl), one (by simp) rfl (fun _ _ _ h => many h)⟩, fun _ => ?_, fun _ h => by cases h⟩
    rw [setPc_absMap, setLock_absMap, setLocks_absMap]
  | @cancel _ g => cases g <;> exact he.elim
  | @rlLeak _ g => cases g <;> exact he.elim
  | _ => exact he.elim

/-- **C56, nobody is stuck (partial).** However many calls have unwound, if no future was dropped then all
running calls can complete. -/
theorem c56_complete_partial [DecidableEq K] (hh : ∀ k, hash k < 2 ^ 64) {s₀ s : St K V R}
    {es : List (Event K V R)} (h0 : Init s₀) (ex : Exec hash s₀ es s) (hc : ∀ e, e ∈ es → ¬ e.isCancel) :
    ∃ es' s', Exec hash s es' s' ∧
      (∀ e, e ∈ es' → (∃ t r, e = .ret t r) ∨ ∃ t x, e = .tvRet t x) ∧ ∀ t, s'.pc t = .idle :=
  c18_complete hh h0 ex hc

/-! ## Failing allocations in the middle of a relocation -/

/-- The bucket has exactly as many entries as it has room for without a linked bucket (`BUCKET_LEN`,
/repo/src/hash_table/bucket.rs 32). -/
def Full (b : Bkt K V) : Prop := ∃ l : List K, l.Nodup ∧ l.length = 32 ∧ ∀ k, b.content k ≠ none ↔ k ∈ l

/-- All steps, and the unwinding of a relocation when the entry to be moved needs a linked bucket in the target
(`extract_from`, /repo/src/hash_table/bucket.rs 346; `insert_overflow` 419) and its allocation fails: the guard
releases the targets (/repo/src/hash_table.rs 927-935, 980-985), `Writer::drop` the old bucket. That the entry
was already copied out of the old bucket, and is dropped, is not modelled: its key and value are still seen as
stored in the old bucket. -/
inductive PStep [DecidableEq K] (hash : K → Nat) : St K V R → Option (Event K V R) → St K V R → Prop
  | step {s e s'} : Step hash s e s' → PStep hash s e s'
  | oom {s t g a o j k v} : s.pc t = .rlMove (.ded g) a o j → (s.b o j).content k = some v →
      Full (s.b a (target hash s a o j k)) →
      PStep hash s (some (g.panicEvent t))
        (((s.setLocks a (s.rng o a j).1 (s.rng o a j).2 none).setLock o j none).setPc t .idle)
  | oomHelp {s t a o j k v} : s.pc t = .rlMove .help a o j → (s.b o j).content k = some v →
      Full (s.b a (target hash s a o j k)) →
      PStep hash s (some (.helpPanic t))
        (((s.setLocks a (s.rng o a j).1 (s.rng o a j).2 none).setLock o j none).setPc t .idle)

/-- Executions with such failures. -/
inductive PExec [DecidableEq K] (hash : K → Nat) : St K V R → List (Event K V R) → St K V R → Prop
  | nil {s} : PExec hash s [] s
  | tau {s es s' s''} : PExec hash s es s' → PStep hash s' none s'' → PExec hash s es s''
  | event {s es s' e s''} : PExec hash s es s' → PStep hash s' (some e) s'' → PExec hash s (es ++ [e]) s''

theorem Exec.pexec [DecidableEq K] {s s' : St K V R} {es : List (Event K V R)} (h : Exec hash s es s') :
    PExec hash s es s' := by
  induction h with
  | nil => exact .nil
  | tau _ st ih => exact .tau ih (.step st)
  | event _ st ih => exact .event ih (.step st)

theorem PExec.trans [DecidableEq K] {s s' s'' : St K V R} {es es' : List (Event K V R)}
    (h : PExec hash s es s') (h' : PExec hash s' es' s'') : PExec hash s (es ++ es') s'' := by
  induction h' with
  | nil => rw [List.append_nil]; exact h
  | tau _ st ih => exact .tau ih st
  | event _ st ih => rw [← List.append_assoc]; exact .event ih st

end Scc.Table
