import Verif.Table.ScanProps
import Verif.Table.Leak
import Verif.Table.Complete

/-!
# Locks: cancellation, giving up, progress

C16, C17, C18.
-/

namespace Scc.Table

open Scc.Index (bucketIndex fromIndexToRange InRange)

variable {K V R : Type} {hash : K → Nat}

/-! ## C17 -/

/-- The thread is between operations, has finished one, or has not locked anything yet. -/
def PC.lockFree : PC K V R → Prop
  | .idle | .done _ | .tvDone _ _ | .start _ | .loaded _ _ | .dedup .. | .wait _ _ | .hl _ | .help _ _
  | .rzLoad _ | .rzTry _ | .rzLocked _ | .rzChecked _ | .rzDone | .em1 _ | .em2 .. | .em3 .. | .emDone _ =>
      True
  | _ => False

/-- **C17, no lock is kept.** A thread that has returned, gave up (`done none`), or is waiting for its
first lock owns no bucket lock. -/
theorem c17_no_lock_kept [DecidableEq K] (hh : ∀ k, hash k < 2 ^ 64) {s₀ s : St K V R}
    {es : List (Event K V R)} (h0 : Init s₀) (ex : Exec hash s₀ es s) {t : Nat} (hf : (s.pc t).lockFree)
    (x i : Nat) (l : Lock) (hl : (s.b x i).lock = some l) : l.owner ≠ some t := by
  intro ho
  have := lockInv_exec hh h0 ex x i l t hl ho
  generalize s.pc t = p at this hf
  cases p <;> first | exact this.elim | exact hf.elim

/-- **C17, giving up undoes everything.** When a relocation meets a locked target bucket and may give
up, it does so in one step after which the old bucket and all target buckets it had locked are unlocked,
all other locks and all contents are as before, the map is the same, and the operation reports failure or
the helper is gone. -/
theorem c17_give_up [DecidableEq K] (hh : ∀ k, hash k < 2 ^ 64) {s₀ s : St K V R}
    {es : List (Event K V R)} (h0 : Init s₀) (ex : Exec hash s₀ es s) {t a o j n : Nat}
    {c : Cont K V R} (hpc : s.pc t = .rlLock c a o j n) (hc : c.mayFail) :
    ∃ s', Step hash s none s' ∧ s'.pc t = c.failed ∧
      (s'.b o j).lock = none ∧ (∀ i, (s.rng o a j).1 ≤ i → i < n → (s'.b a i).lock = none) ∧
      (∀ x i l, (s'.b x i).lock = some l → (s.b x i).lock = some l ∧ l.owner ≠ some t) ∧
      (∀ x i, (s'.b x i).content = (s.b x i).content ∧ (s'.b x i).dead = (s.b x i).dead) ∧
      s'.absMap hash = s.absMap hash := by
  have st := Step.rlAbort (hash := hash) hpc hc
  refine ⟨_, st, setPc_self .., ?_, ?_, ?_, ?_, ?_⟩
  · rw [setPc_b, setLock_lock, if_pos ⟨rfl, rfl⟩]
  · intro i h1 h2
    rw [setPc_b, setLock_lock]
    split
    · rfl
    · rw [setLocks_lock, if_pos ⟨rfl, h1, h2⟩]
  · intro x i l hl
    have hl0 := hl
    rw [setPc_b, setLock_lock] at hl
    split at hl
    · cases hl
    · rw [setLocks_lock] at hl
      split at hl
      · cases hl
      · refine ⟨hl, ?_⟩
        refine c17_no_lock_kept hh h0 (.tau ex st) (t := t) ?_ x i l hl0
        rw [setPc_self]
        cases c <;> trivial
  · intro x i
    rw [setPc_b, setLock_content, setLocks_content, setLock_dead, setLocks_dead]
    exact ⟨rfl, rfl⟩
  · rw [setPc_absMap, setLock_absMap, setLocks_absMap]

/-- A try operation that meets a locked bucket before it has locked anything changes nothing at all. -/
theorem c17_busy [DecidableEq K] {s s' : St K V R} {t a : Nat} {o : Op K V R}
    (_ : (∃ x j, s.pc t = .dedup (.op o) a x j) ∨ s.pc t = .wait (.op o) a) (_ : o.tryOp = true)
    (hs : s' = s.setPc t (.done none)) : s'.b = s.b ∧ s'.absMap hash = s.absMap hash := by
  subst hs; exact ⟨rfl, rfl⟩

/-- A helper that holds the old bucket and one target and may give up. -/
example : ∃ (s : WSt) (es : List _), Exec h0 St.init es s ∧ s.pc 2 = .rlLock .help 1 0 0 1 ∧
    (Cont.help : Cont Nat Nat (Spec.Res Nat Nat)).mayFail := by
  have e := Exec.event (hash := h0) (Exec.nil (s := (St.init : WSt)))
    (Step.invoke (t := 0) (o := wIns 1 5) rfl)
  have e := Exec.tau e (Step.alloc (t := 0) (o := wIns 1 5) 1 rfl rfl rfl (by omega) (by omega))
  have e := Exec.tau e (Step.linkNone (t := 0) (g := .op (wIns 1 5)) (a := 0) rfl rfl)
  have e := Exec.tau e (Step.lock (t := 0) (g := .op (wIns 1 5)) (a := 0) rfl rfl rfl)
  have e := Exec.tau e (Step.commit (t := 0) (o := wIns 1 5) (a := 0) rfl)
  have e := Exec.tau e (Step.unlock (t := 0) (o := wIns 1 5) (a := 0) rfl)
  have e := Exec.event e (Step.ret (t := 0) (r := some (.inserted true)) rfl)
  have e := Exec.tau e (Step.rzLoad (t := 1) (a := 0) rfl rfl)
  have e := Exec.tau e (Step.rzLink (t := 1) (a := 0) rfl rfl)
  have e := Exec.tau e (Step.rzLock (t := 1) (a := 0) rfl rfl)
  have e := Exec.tau e (Step.rzCheck (t := 1) (a := 0) rfl rfl)
  have e := Exec.tau e (Step.rzSwap (t := 1) (a := 0) 2 rfl (by omega) (by omega))
  have e := Exec.tau e (Step.rzRelease (t := 1) rfl)
  have e := Exec.tau e (Step.helpLoad (t := 2) (a := 1) rfl rfl)
  have e := Exec.tau e (Step.helpLink (t := 2) (a := 1) (o := 0) rfl rfl)
  have e := Exec.tau e (Step.helpLock (t := 2) (a := 1) (o := 0) (j := 0) rfl (by decide) rfl rfl)
  have e := Exec.tau e (Step.rlTarget (t := 2) (a := 1) (o := 0) (j := 0) (n := 0) rfl (by decide) rfl)
  exact ⟨_, _, e, rfl, trivial⟩

/-! ## C16 -/

/-- **C16 as far as it holds.** Dropping a future changes no bucket's contents, leaves the dropped
operation owning no lock, and leaves no lock behind except locks of target buckets that a relocation
had acquired before it was dropped. Missing: those locks should be released, too; they are not, see
`c16_leak`. -/
theorem c16_cancel_partial [DecidableEq K] (hh : ∀ k, hash k < 2 ^ 64) {s₀ s s' : St K V R}
    {es : List (Event K V R)} {e : Event K V R} (h0 : Init s₀) (ex : Exec hash s₀ es s)
    (st : Step hash s (some e) s') (he : e.isCancel) :
    (∀ x i, (s'.b x i).content = (s.b x i).content) ∧ s'.absMap hash = s.absMap hash ∧
    ∃ t, s'.pc t = .idle ∧ (∀ x i l, (s'.b x i).lock = some l → l.owner ≠ some t) ∧
      ∀ x i, (s'.b x i).lock = some .leaked → (s.b x i).lock = some .leaked ∨
        ∃ c o j n, s.pc t = .rlLock c x o j n ∧ (s.rng o x j).1 ≤ i ∧ i < n ∧
          (s.b x i).lock = some (.reloc t) := by
  have hI := inv_exec hh (inv_start h0) ex
  have free : ∀ t, s'.pc t = .idle → ∀ x i l, (s'.b x i).lock = some l → l.owner ≠ some t := by
    intro t ht
    exact c17_no_lock_kept hh h0 (.event ex st) (by rw [ht]; trivial)
  have leak : ∀ {t a o j n : Nat} {c : Cont K V R}, s.pc t = .rlLock c a o j n →
      s' = ((s.setLocks a (s.rng o a j).1 n (some .leaked)).setLock o j none).setPc t .idle →
      (∀ x i, (s'.b x i).content = (s.b x i).content) ∧ s'.absMap hash = s.absMap hash ∧
      ∃ t, s'.pc t = .idle ∧ (∀ x i l, (s'.b x i).lock = some l → l.owner ≠ some t) ∧
      ∀ x i, (s'.b x i).lock = some .leaked → (s.b x i).lock = some .leaked ∨
        ∃ c o j n, s.pc t = .rlLock c x o j n ∧ (s.rng o x j).1 ≤ i ∧ i < n ∧
          (s.b x i).lock = some (.reloc t) := by
    intro t a o j n c hpc hs
    have hp := hI.pc t
    rw [hpc] at hp
    refine ⟨?_, ?_, t, ?_, free t (by rw [hs, setPc_self]), ?_⟩
    · intro x i; rw [hs, setPc_b, setLock_content, setLocks_content]
    · rw [hs, setPc_absMap, setLock_absMap, setLocks_absMap]
    · rw [hs, setPc_self]
    · intro x i hl
      rw [hs, setPc_b, setLock_lock] at hl
      split at hl
      · cases hl
      · rw [setLocks_lock] at hl
        split at hl
        · rename_i h
          obtain ⟨rfl, h1, h2⟩ := h
          exact Or.inr ⟨_, _, _, _, hpc, h1, h2, (hp.2.2.2.2.2.2.2 i h1 h2).1⟩
        · exact Or.inl hl
  cases st with
  | cancel hpc =>
    refine ⟨fun _ _ => rfl, rfl, _, setPc_self .., free _ (setPc_self ..), fun x i h => Or.inl h⟩
  | rlLeak hpc => exact leak hpc rfl
  | rlLeakHelp hpc => exact leak hpc rfl
  | @panic _ g => cases g <;> exact he.elim
  | @rlPanic _ g => cases g <;> exact he.elim
  | _ => exact he.elim

/-- **C16 is false.** A future that looks up key 1 in a table that is being resized has locked the old
bucket and the first target bucket and is dropped while it waits for the second one. Nobody is active any
more, and the first target bucket stays locked. -/
theorem c16_leak : ∃ (s : WSt) (es : List _), Exec h0 St.init (es ++ [.cancel 0]) s ∧
    (∀ t, s.pc t = .idle) ∧ Leaked h0 s 1 1 ∧ s.absMap h0 1 = some 5 := by
  have e := Exec.event (hash := h0) (Exec.nil (s := (St.init : WSt)))
    (Step.invoke (t := 0) (o := wIns 1 5) rfl)
  have e := Exec.tau e (Step.alloc (t := 0) (o := wIns 1 5) 1 rfl rfl rfl (by omega) (by omega))
  have e := Exec.tau e (Step.linkNone (t := 0) (g := .op (wIns 1 5)) (a := 0) rfl rfl)
  have e := Exec.tau e (Step.lock (t := 0) (g := .op (wIns 1 5)) (a := 0) rfl rfl rfl)
  have e := Exec.tau e (Step.commit (t := 0) (o := wIns 1 5) (a := 0) rfl)
  have e := Exec.tau e (Step.unlock (t := 0) (o := wIns 1 5) (a := 0) rfl)
  have e := Exec.event e (Step.ret (t := 0) (r := some (.inserted true)) rfl)
  have e := Exec.tau e (Step.rzLoad (t := 1) (a := 0) rfl rfl)
  have e := Exec.tau e (Step.rzLink (t := 1) (a := 0) rfl rfl)
  have e := Exec.tau e (Step.rzLock (t := 1) (a := 0) rfl rfl)
  have e := Exec.tau e (Step.rzCheck (t := 1) (a := 0) rfl rfl)
  have e := Exec.tau e (Step.rzSwap (t := 1) (a := 0) 2 rfl (by omega) (by omega))
  have e := Exec.tau e (Step.rzRelease (t := 1) rfl)
  have e := Exec.event e (Step.invoke (t := 0) (o := wRead 1) rfl)
  have e := Exec.tau e (Step.load (t := 0) (a := 1) rfl rfl)
  have e := Exec.tau e (Step.linkSome (t := 0) (a := 1) (o := 0) rfl rfl)
  have e := Exec.tau e (Step.dedupLock (t := 0) (a := 1) (o := 0) (j := 0) rfl (by decide) rfl rfl)
  have e := Exec.tau e (Step.rlTarget (t := 0) (a := 1) (o := 0) (j := 0) (n := 0) rfl (by decide) rfl)
  have e := Exec.event e (Step.rlLeak (t := 0) (a := 1) (o := 0) (j := 0) (n := 1) rfl)
  refine ⟨_, _, e, ?_, ⟨by decide, rfl, rfl⟩, rfl⟩
  intro t
  match t with
  | 0 => rfl
  | 1 => rfl
  | n + 2 => rfl

/-- **The leak blocks the container.** Once a lock of the bucket of key `k` has been left behind, no
later call on `k` ever returns a result, whatever all threads do from then on; it can only be dropped, be
unwound by a panic of user code, or give up if it is a try operation. -/
theorem c16_leak_blocks [DecidableEq K] (hh : ∀ k, hash k < 2 ^ 64) {s₀ s s₁ s₂ : St K V R}
    {es es' : List (Event K V R)} (h0 : Init s₀) (ex : Exec hash s₀ es s) {a t : Nat} {o : Op K V R}
    (hl : Leaked hash s a o.key) (st : Step hash s (some (.inv t o)) s₁) (ex' : Exec hash s₁ es' s₂)
    (h1 : .cancel t ∉ es') (h3 : .panic t ∉ es') (h2 : ∀ r, .ret t r ∉ es') (r : R) : s₂.pc t ≠ .done (some r) := by
  have hI := inv_exec hh (inv_start h0) ex
  have hl' := leaked_mono hI hl st
  have hI' := inv_step hh hI st
  have hs : StuckPc a o.key (s₁.pc t) := by
    generalize he : some (Event.inv t o) = e at st
    cases st with
    | invoke => cases he; rw [setPc_self]; rfl
    | @cancel _ g => cases g <;> cases he
    | @rlLeak _ g => cases g <;> cases he
    | @panic _ g => cases g <;> cases he
    | @rlPanic _ g => cases g <;> cases he
    | _ => cases he
  have := (stuck_exec hh hI' hl' hs ex' h1 h3 h2).2.2
  intro hc
  rw [hc] at this
  exact this

/-- `c16_leak` provides the hypotheses of `c16_leak_blocks`. -/
example : ∃ (s s₁ : WSt) (es : List _), Exec h0 St.init es s ∧ Leaked h0 s 1 (wRead 1).key ∧
    Step h0 s (some (.inv 7 (wRead 1))) s₁ := by
  obtain ⟨s, es, ex, hi, hl, _⟩ := c16_leak
  exact ⟨s, _, _, ex, hl, .invoke (hi 7)⟩

/-! ## C18 -/

/-- **C18, no waiting cycle.** In every reachable state in which no lock was left behind by a dropped
future, every thread is at the beginning of a chain of at most two waits at whose end is a thread that
does not wait; so there is no cycle of waiting threads. -/
theorem c18_no_cycle [DecidableEq K] (hh : ∀ k, hash k < 2 ^ 64) {s₀ s : St K V R}
    {es : List (Event K V R)} (h0 : Init s₀) (ex : Exec hash s₀ es s)
    (hc : ∀ e, e ∈ es → ¬ e.isCancel) (t : Nat) :
    ∃ u, (u = t ∨ WaitsFor hash s t u ∨ ∃ v, WaitsFor hash s t v ∧ WaitsFor hash s v u) ∧
      ∀ x i, ¬ WaitsAt hash s u x i :=
  wait_end (inv_exec hh (inv_start h0) ex) (lockInv_exec hh h0 ex) (noLeak_exec (noLeak_start h0) ex hc) t

/-- Chains of waits have at most two links, in all executions, also those with dropped futures. -/
theorem c18_chain_short [DecidableEq K] (hh : ∀ k, hash k < 2 ^ 64) {s₀ s : St K V R}
    {es : List (Event K V R)} (h0 : Init s₀) (ex : Exec hash s₀ es s) {t u w v : Nat}
    (h1 : WaitsFor hash s t u) (h2 : WaitsFor hash s u w) : ¬ WaitsFor hash s w v := by
  rintro ⟨x, i, l, h, _⟩
  exact wait_chain (inv_exec hh (inv_start h0) ex) (lockInv_exec hh h0 ex) h1 h2 h

/-- The thread at the end of a chain that begins with a waiting thread is inside an operation. -/
theorem c18_holder_busy [DecidableEq K] (hh : ∀ k, hash k < 2 ^ 64) {s₀ s : St K V R}
    {es : List (Event K V R)} (h0 : Init s₀) (ex : Exec hash s₀ es s) {t u : Nat}
    (h : WaitsFor hash s t u) : s.pc u ≠ .idle :=
  waitsFor_busy (lockInv_exec hh h0 ex) h

/-- **C18, a thread that does not wait can go on.** It has a step that is not the start of a new call
and not a cancellation. -/
theorem c18_can_step [DecidableEq K] (hh : ∀ k, hash k < 2 ^ 64) {s₀ s : St K V R}
    {es : List (Event K V R)} (h0 : Init s₀) (ex : Exec hash s₀ es s) {t : Nat} (hb : s.pc t ≠ .idle)
    (hw : ∀ x i, ¬ WaitsAt hash s t x i) :
    ∃ e s', Step hash s e s' ∧ (e = none ∨ (∃ r, e = some (.ret t r)) ∨ ∃ x, e = some (.tvRet t x)) ∧
      ∀ u, u ≠ t → s'.pc u = s.pc u := by
  have hI := inv_exec hh (inv_start h0) ex
  have hlen : ∀ x, x < s.next → s.len x < 2 ^ 57 + 2 := by
    intro x hx
    have := Nat.pow_le_pow_right (n := 2) (by omega) (hI.glob.lg_le x hx)
    unfold St.len; omega
  obtain ⟨e, s', st, ho, hu, _⟩ := can_advance (M := 2 ^ 57 + 2) hh hI (by omega) hlen hb hw
  exact ⟨e, s', st, ho, fun u h => (hu u h).1⟩

/-- **C18, everything can be completed.** From every state reached without dropping futures, there is a
continuation in which no new call starts, none is dropped, and every thread finishes what it is doing. -/
theorem c18_complete [DecidableEq K] (hh : ∀ k, hash k < 2 ^ 64) {s₀ s : St K V R}
    {es : List (Event K V R)} (h0 : Init s₀) (ex : Exec hash s₀ es s)
    (hc : ∀ e, e ∈ es → ¬ e.isCancel) :
    ∃ es' s', Exec hash s es' s' ∧
      (∀ e, e ∈ es' → (∃ t r, e = .ret t r) ∨ ∃ t x, e = .tvRet t x) ∧ ∀ t, s'.pc t = .idle := by
  have hg := good_exec hh (good_start h0) ex hc
  obtain ⟨N, hN⟩ := hg.fin.active
  exact complete hh N _ hg hN rfl

/-- Keys 0 and 1 are in neighbouring buckets of an array of four. -/
def h2 : Nat → Nat := fun k => (k % 4) * 2 ^ 62

theorem h2_lt : ∀ k, h2 k < 2 ^ 64 := fun k => by unfold h2; omega

/-- A chain of two waits in a table shrinking from four buckets to two: thread 4 waits for an old bucket
held by thread 3, which waits for the target bucket held by thread 2. -/
example : ∃ (s : WSt) (es : List _), Exec h2 (St.initWith 2) es s ∧ (∀ e, e ∈ es → ¬ e.isCancel) ∧
    WaitsFor h2 s 4 3 ∧ WaitsFor h2 s 3 2 := by
  have e := Exec.event (hash := h2) (Exec.nil (s := (St.initWith 2 : WSt))) (Step.invoke (t := 0) (o := wIns 0 5) rfl)
  have e := Exec.tau e (Step.load (t := 0) (a := 0) rfl rfl)
  have e := Exec.tau e (Step.linkNone (t := 0) (a := 0) rfl rfl)
  have e := Exec.tau e (Step.lock (t := 0) (a := 0) rfl rfl rfl)
  have e := Exec.tau e (Step.commit (t := 0) (a := 0) rfl)
  have e := Exec.tau e (Step.unlock (t := 0) (a := 0) rfl)
  have e := Exec.event e (Step.ret (t := 0) (r := some (.inserted true)) rfl)
  have e := Exec.event e (Step.invoke (t := 0) (o := wIns 1 5) rfl)
  have e := Exec.tau e (Step.load (t := 0) (a := 0) rfl rfl)
  have e := Exec.tau e (Step.linkNone (t := 0) (a := 0) rfl rfl)
  have e := Exec.tau e (Step.lock (t := 0) (a := 0) rfl rfl rfl)
  have e := Exec.tau e (Step.commit (t := 0) (a := 0) rfl)
  have e := Exec.tau e (Step.unlock (t := 0) (a := 0) rfl)
  have e := Exec.event e (Step.ret (t := 0) (r := some (.inserted true)) rfl)
  have e := Exec.tau e (Step.rzLoad (t := 1) (a := 0) rfl rfl)
  have e := Exec.tau e (Step.rzLink (t := 1) (a := 0) rfl rfl)
  have e := Exec.tau e (Step.rzLock (t := 1) (a := 0) rfl rfl)
  have e := Exec.tau e (Step.rzCheck (t := 1) (a := 0) rfl rfl)
  have e := Exec.tau e (Step.rzSwap (t := 1) (a := 0) 1 rfl (by omega) (by omega))
  have e := Exec.tau e (Step.rzRelease (t := 1) rfl)
  have e := Exec.tau e (Step.helpLoad (t := 2) (a := 1) rfl rfl)
  have e := Exec.tau e (Step.helpLink (t := 2) (a := 1) (o := 0) rfl rfl)
  have e := Exec.tau e (Step.helpLoad (t := 3) (a := 1) rfl rfl)
  have e := Exec.tau e (Step.helpLink (t := 3) (a := 1) (o := 0) rfl rfl)
  have e := Exec.tau e (Step.helpLoad (t := 4) (a := 1) rfl rfl)
  have e := Exec.tau e (Step.helpLink (t := 4) (a := 1) (o := 0) rfl rfl)
  have e := Exec.tau e (Step.helpLock (t := 2) (a := 1) (o := 0) (j := 0) rfl (by decide) rfl rfl)
  have e := Exec.tau e (Step.helpLock (t := 3) (a := 1) (o := 0) (j := 1) rfl (by decide) rfl rfl)
  have e := Exec.tau e (Step.rlTarget (t := 2) (a := 1) (o := 0) (j := 0) (n := 0) rfl (by decide) rfl)
  refine ⟨_, _, e, ?_, ⟨0, 1, .reloc 3, ⟨(by intro h; cases h), rfl, ?_⟩, rfl, rfl⟩,
    ⟨1, 0, .reloc 2, ⟨(by intro h; cases h), rfl, rfl, ?_⟩, rfl, rfl⟩⟩
  · intro x hx
    simp only [List.nil_append, List.cons_append, List.mem_cons, List.not_mem_nil, or_false] at hx
    rcases hx with rfl | rfl | rfl | rfl <;> exact id
  · show 1 < 2 ^ 2
    decide
  · decide

end Scc.Table
