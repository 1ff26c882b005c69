import Verif.Table.Panic

/-!
# A failed allocation duplicates a key (C56)
-/

namespace Scc.Table

open Scc.Index (bucketIndex fromIndexToRange InRange)

variable {K V R : Type}

/-! ## Unwinding calls, for the theorems that hold -/

/-- A comparison panics in an insertion that holds its bucket. -/
theorem w_critPanic : ∃ (s s' : WSt), Exec h0 (St.initWith 1) [.inv 0 (wIns 1 5)] s ∧
    Step h0 s (some (.panic 0)) s' ∧ s.pc 0 = .crit (.op (wIns 1 5)) 0 := by
  have e := Exec.event (hash := h0) (Exec.nil (s := (St.initWith 1 : WSt)))
    (Step.invoke (t := 0) (o := wIns 1 5) rfl)
  have e := Exec.tau e (Step.load (t := 0) (g := .op (wIns 1 5)) (a := 0) rfl rfl)
  have e := Exec.tau e (Step.linkNone (t := 0) (g := .op (wIns 1 5)) (a := 0) rfl rfl)
  have e := Exec.tau e (Step.lock (t := 0) (g := .op (wIns 1 5)) (a := 0) rfl rfl rfl)
  exact ⟨_, _, e, Step.critPanic (t := 0) (o := wIns 1 5) (a := 0) rfl, rfl⟩

/-- It meets the hypotheses of `c56_linearizable_partial`, `c56_released_partial` and `c56_complete_partial`. -/
example : ∃ (s s' : WSt) (es : List _) (e : Event Nat Nat (Spec.Res Nat Nat)), Init (St.initWith 1 : WSt) ∧
    Exec h0 (St.initWith 1) es s ∧ Step h0 s (some e) s' ∧ e.isPanic ∧ ∀ e, e ∈ es → ¬ e.isCancel := by
  obtain ⟨s, s', ex, st, _⟩ := w_critPanic
  refine ⟨s, s', _, _, .withCapacity 1 (by omega) (by omega), ex, st, trivial, ?_⟩
  intro e he
  simp at he
  subst he
  exact id

/-- A traversal that removes everything panics between the two entries of a bucket: one is removed. -/
theorem w_tvPanic : ∃ (s s' : WSt) (es : List _), Exec h0 (St.initWith 1) es s ∧
    Step h0 s (some (.tvPanic 0)) s' ∧ (s'.b 0 0).content 1 = none ∧ (s'.b 0 0).content 2 = some 6 := by
  have e := Exec.event (hash := h0) (Exec.nil (s := (St.initWith 1 : WSt)))
    (Step.invoke (t := 0) (o := wIns 1 5) rfl)
  have e := Exec.tau e (Step.load (t := 0) (g := .op (wIns 1 5)) (a := 0) rfl rfl)
  have e := Exec.tau e (Step.linkNone (t := 0) (g := .op (wIns 1 5)) (a := 0) rfl rfl)
  have e := Exec.tau e (Step.lock (t := 0) (g := .op (wIns 1 5)) (a := 0) rfl rfl rfl)
  have e := Exec.tau e (Step.commit (t := 0) (o := wIns 1 5) (a := 0) rfl)
  have e := Exec.tau e (Step.unlock (t := 0) (o := wIns 1 5) (a := 0) rfl)
  have e := Exec.event e (Step.ret (t := 0) rfl)
  have e := Exec.event e (Step.invoke (t := 0) (o := wIns 2 6) rfl)
  have e := Exec.tau e (Step.load (t := 0) (g := .op (wIns 2 6)) (a := 0) rfl rfl)
  have e := Exec.tau e (Step.linkNone (t := 0) (g := .op (wIns 2 6)) (a := 0) rfl rfl)
  have e := Exec.tau e (Step.lock (t := 0) (g := .op (wIns 2 6)) (a := 0) rfl rfl rfl)
  have e := Exec.tau e (Step.commit (t := 0) (o := wIns 2 6) (a := 0) rfl)
  have e := Exec.tau e (Step.unlock (t := 0) (o := wIns 2 6) (a := 0) rfl)
  have e := Exec.event e (Step.ret (t := 0) rfl)
  have e := Exec.event e (Step.tvInvoke (t := 0) (u := fun _ _ => none) rfl)
  have e := Exec.tau e (Step.load (t := 0) (a := 0) rfl rfl)
  have e := Exec.tau e (Step.linkNone (t := 0) (a := 0) rfl rfl)
  have e := Exec.tau e (Step.lock (t := 0) (a := 0) rfl rfl rfl)
  exact ⟨_, _, _, e, Step.tvPanic (t := 0) (a := 0) (fun k => k == 1) rfl, rfl, rfl⟩

/-! ## The violation -/

/-- A table of two buckets nobody uses; the first bucket holds the keys below `n`. -/
structure Stage (n : Nat) (s : WSt) : Prop where
  idle : ∀ t, s.pc t = .idle
  cur : s.cur = some 0
  next : s.next = 1
  rz : s.rz = none
  lg : (s.arr 0).lg = 1
  linked : (s.arr 0).linked = none
  lock : (s.b 0 0).lock = none
  dead : (s.b 0 0).dead = false
  content : ∀ k, (s.b 0 0).content k = if k < n then some 5 else none

theorem stage_init : Stage 0 (St.initWith 1 : WSt) := ⟨fun _ => rfl, rfl, rfl, rfl, rfl, rfl, rfl, rfl, fun _ => rfl⟩

/-- Thread 0 inserts key `n`. -/
def insEvents (n : Nat) : List (Event Nat Nat (Spec.Res Nat Nat)) :=
  [.inv 0 (wIns n 5), .ret 0 (some (.inserted true))]

theorem stage_ins {n : Nat} {s : WSt} (h : Stage n s) : ∃ s', Exec h0 s (insEvents n) s' ∧ Stage (n + 1) s' := by
  have e := Exec.event (hash := h0) (Exec.nil (s := s)) (Step.invoke (t := 0) (o := wIns n 5) (h.idle 0))
  have e := Exec.tau e (Step.load (t := 0) (g := .op (wIns n 5)) (a := 0) (setPc_self ..) h.cur)
  have e := Exec.tau e (Step.linkNone (t := 0) (g := .op (wIns n 5)) (a := 0) (setPc_self ..) h.linked)
  have hb : bucketIndex (s.arr 0).lg (h0 n) = 0 := by rw [h.lg]; show bucketIndex 1 0 = 0; decide
  have e := Exec.tau e (Step.lock (t := 0) (g := .op (wIns n 5)) (a := 0) (setPc_self ..)
    (by show (s.b 0 (bucketIndex (s.arr 0).lg (h0 n))).dead = false; rw [hb]; exact h.dead)
    (by show (s.b 0 (bucketIndex (s.arr 0).lg (h0 n))).lock = none; rw [hb]; exact h.lock))
  have hc : (s.b 0 0).content n = none := by rw [h.content, if_neg (Nat.lt_irrefl n)]
  have e := Exec.tau e (Step.commit (t := 0) (o := wIns n 5) (a := 0) (setPc_self ..))
  simp only [setPc_arr, setLock_lg, setPc_b, setLock_content] at e
  have hk : (wIns n 5).key = n := rfl
  rw [hk, hb, hc] at e
  have e := Exec.tau e (Step.unlock (t := 0) (o := wIns n 5) (a := 0) (setPc_self ..))
  simp only [setPc_arr, setLock_lg, modBkt_lg] at e
  rw [hk, hb] at e
  have e := Exec.event e (Step.ret (t := 0) (setPc_self ..))
  refine ⟨_, e, ?_, h.cur, h.next, h.rz, ?_, ?_, ?_, ?_, ?_⟩
  · intro t
    by_cases ht : t = 0
    · subst ht; exact setPc_self ..
    · simp only [setPc_other _ _ _ _ ht, setLock_pc, modBkt_pc]; exact h.idle t
  · simp only [setPc_arr, setLock_lg, modBkt_lg]; exact h.lg
  · simp only [setPc_arr, setLock_linked, modBkt_linked]; exact h.linked
  · rw [setPc_b, setPc_b, setLock_lock, if_pos ⟨rfl, rfl⟩]
  · rw [setPc_b, setPc_b, setLock_dead, setPc_b, modBkt_b, if_pos ⟨rfl, rfl⟩]
    show (St.b _ 0 0).dead = false
    rw [setPc_b, setLock_dead]; exact h.dead
  · intro k
    rw [setPc_b, setPc_b, setLock_content, setPc_b, modBkt_b, if_pos ⟨rfl, rfl⟩]
    show (if k = n then some 5 else (St.b _ 0 0).content k) = _
    rw [setPc_b, setLock_content]
    by_cases hkn : k = n
    · subst hkn; rw [if_pos rfl, if_pos (Nat.lt_succ_self _)]
    · rw [if_neg hkn]
      refine (h.content k).trans ?_
      by_cases hl : k < n
      · rw [if_pos hl, if_pos (by omega)]
      · rw [if_neg hl, if_neg (by omega)]

/-- All insertions of thread 0. -/
def allIns : Nat → List (Event Nat Nat (Spec.Res Nat Nat))
  | 0 => []
  | n + 1 => allIns n ++ insEvents n

theorem stage_all (n : Nat) : ∃ s : WSt, Exec h0 (St.initWith 1) (allIns n) s ∧ Stage n s := by
  induction n with
  | zero => exact ⟨_, .nil, stage_init⟩
  | succ n ih =>
    obtain ⟨s, ex, h⟩ := ih
    obtain ⟨s', ex', h'⟩ := stage_ins h
    exact ⟨s', ex.trans ex', h'⟩

/-- A helper, thread 1, has moved the keys below `n` to the new array; thread 2 waits for the old bucket. -/
structure Moving (n : Nat) (s : WSt) : Prop where
  pc1 : s.pc 1 = .rlMove .help 1 0 0
  pc2 : s.pc 2 = .wait (.op (wIns 0 7)) 0
  lg0 : (s.arr 0).lg = 1
  lg1 : (s.arr 1).lg = 2
  dead : (s.b 0 0).dead = false
  old : ∀ k, (s.b 0 0).content k = if n ≤ k ∧ k < 33 then some 5 else none
  new : ∀ k, (s.b 1 0).content k = if k < n then some 5 else none

theorem moving_target {n : Nat} {s : WSt} (h : Moving n s) (k : Nat) : target h0 s 1 0 0 k = 0 := by
  unfold target St.len
  rw [h.lg0, h.lg1, if_neg (by decide)]
  show bucketIndex 2 0 = 0
  decide

/-- The table has been resized; nothing has been moved. -/
structure Ready (s : WSt) : Prop where
  pc1 : s.pc 1 = .idle
  pc2 : s.pc 2 = .wait (.op (wIns 0 7)) 0
  cur : s.cur = some 1
  lg0 : (s.arr 0).lg = 1
  lg1 : (s.arr 1).lg = 2
  linked : (s.arr 1).linked = some 0
  lock : (s.b 0 0).lock = none
  dead : (s.b 0 0).dead = false
  free : ∀ i, (s.b 1 i).lock = none
  old : ∀ k, (s.b 0 0).content k = if k < 33 then some 5 else none
  new : ∀ k, (s.b 1 0).content k = none

theorem ready {s : WSt} (h : Stage 33 s) : ∃ s', Exec h0 s [.inv 2 (wIns 0 7)] s' ∧ Ready s' := by
  have e := Exec.event (hash := h0) (Exec.nil (s := s)) (Step.invoke (t := 2) (o := wIns 0 7) (h.idle 2))
  have e := Exec.tau e (Step.load (t := 2) (g := .op (wIns 0 7)) (a := 0) (setPc_self ..) h.cur)
  have e := Exec.tau e (Step.linkNone (t := 2) (g := .op (wIns 0 7)) (a := 0) (setPc_self ..) h.linked)
  have ne : (1 : Nat) ≠ 2 := by omega
  have e := Exec.tau e (Step.rzLoad (t := 1) (a := 0)
    (by simp only [setPc_other _ _ _ _ ne]; exact h.idle 1) h.cur)
  have e := Exec.tau e (Step.rzLink (t := 1) (a := 0) (setPc_self ..) h.linked)
  have e := Exec.tau e (Step.rzLock (t := 1) (a := 0) (setPc_self ..) h.rz)
  have e := Exec.tau e (Step.rzCheck (t := 1) (a := 0) (setPc_self ..) h.cur)
  have e := Exec.tau e (Step.rzSwap (t := 1) (a := 0) 2 (setPc_self ..) (by omega) (by omega))
  have e := Exec.tau e (Step.rzRelease (t := 1) (setPc_self ..))
  refine ⟨_, e, setPc_self .., ?_, ?_, ?_, ?_, ?_, ?_, ?_, ?_, ?_, ?_⟩
  · simp [St.setPc, St.setArr, Goal.load]
  · simp [St.setPc, h.next]
  · simp [St.setArr, h.next, h.lg]
  · simp [St.setArr, h.next, Arr.new]
  · simp [St.setArr, h.next, Arr.new, h.cur]
  · have := h.lock
    unfold St.b at this ⊢
    simpa [St.setArr, h.next] using this
  · have := h.dead
    unfold St.b at this ⊢
    simpa [St.setArr, h.next] using this
  · intro i
    unfold St.b
    simp [St.setArr, h.next, Arr.new, Bkt.empty]
  · intro k
    have := h.content k
    unfold St.b at this ⊢
    simpa [St.setArr, h.next] using this
  · intro k
    unfold St.b
    simp [St.setArr, h.next, Arr.new, Bkt.empty]

theorem rng_of {s : WSt} (h0 : (s.arr 0).lg = 1) (h1 : (s.arr 1).lg = 2) : s.rng 0 1 0 = (0, 2) := by
  unfold St.rng St.len; rw [h0, h1]; decide

theorem moving_start {s : WSt} (h : Ready s) : ∃ s', Exec h0 s [] s' ∧ Moving 0 s' := by
  have e := Exec.tau (hash := h0) (Exec.nil (s := s)) (Step.helpLoad (t := 1) (a := 1) h.pc1 h.cur)
  have e := Exec.tau e (Step.helpLink (t := 1) (a := 1) (o := 0) (setPc_self ..) h.linked)
  have e := Exec.tau e (Step.helpLock (t := 1) (a := 1) (o := 0) (j := 0) (setPc_self ..)
    (by show 0 < 2 ^ (s.arr 0).lg; exact Nat.two_pow_pos _) h.dead h.lock)
  simp only [setPc_rng, rng_of h.lg0 h.lg1] at e
  have e := Exec.tau e (Step.rlTarget (t := 1) (c := .help) (a := 1) (o := 0) (j := 0) (n := 0) (setPc_self ..)
    (by rw [rng_of (by simpa using h.lg0) (by simpa using h.lg1)]; decide)
    (by rw [setPc_b, setLock_lock, if_neg (by omega)]; exact h.free 0))
  have e := Exec.tau e (Step.rlTarget (t := 1) (c := .help) (a := 1) (o := 0) (j := 0) (n := 1) (setPc_self ..)
    (by rw [rng_of (by simpa using h.lg0) (by simpa using h.lg1)]; decide)
    (by rw [setPc_b, setLock_lock, if_neg (by omega), setPc_b, setLock_lock, if_neg (by omega)]; exact h.free 1))
  have e := Exec.tau e (Step.rlBegin (t := 1) (c := .help) (a := 1) (o := 0) (j := 0) (n := 2) (setPc_self ..)
    (by rw [rng_of (by simpa using h.lg0) (by simpa using h.lg1)]; decide))
  have ne : (2 : Nat) ≠ 1 := by omega
  refine ⟨_, e, setPc_self .., ?_, ?_, ?_, ?_, ?_, ?_⟩
  · simp only [setPc_other _ _ _ _ ne, setLock_pc]; exact h.pc2
  · simpa using h.lg0
  · simpa using h.lg1
  · simpa using h.dead
  · intro k; simpa using h.old k
  · intro k; simpa using h.new k

theorem moving_one {n : Nat} (hn : n < 33) {s : WSt} (h : Moving n s) :
    ∃ s', Exec h0 s [] s' ∧ Moving (n + 1) s' := by
  have hv : (s.b 0 0).content n = some 5 := by rw [h.old, if_pos ⟨Nat.le_refl _, hn⟩]
  have e := Exec.tau (hash := h0) (Exec.nil (s := s)) (Step.rlMove (k := n) (v := 5) h.pc1 hv)
  rw [moving_target h n] at e
  refine ⟨_, e, ?_, ?_, ?_, ?_, ?_, ?_, ?_⟩
  · simpa using h.pc1
  · simpa using h.pc2
  · simpa using h.lg0
  · simpa using h.lg1
  · rw [modBkt_b, if_neg (by omega), modBkt_b, if_pos ⟨rfl, rfl⟩]; exact h.dead
  · intro k
    rw [modBkt_b, if_neg (by omega), modBkt_b, if_pos ⟨rfl, rfl⟩]
    show (if k = n then none else (s.b 0 0).content k) = _
    rw [h.old]
    by_cases hk : k = n
    · rw [if_pos hk, if_neg (by omega)]
    · rw [if_neg hk]
      by_cases hc : n ≤ k ∧ k < 33
      · rw [if_pos hc, if_pos (by omega)]
      · rw [if_neg hc, if_neg (by omega)]
  · intro k
    rw [modBkt_b, if_pos ⟨rfl, rfl⟩, modBkt_b, if_neg (by omega)]
    show (if k = n then some 5 else (s.b 1 0).content k) = _
    rw [h.new]
    by_cases hk : k = n
    · rw [if_pos hk, if_pos (by omega)]
    · rw [if_neg hk]
      by_cases hc : k < n
      · rw [if_pos hc, if_pos (by omega)]
      · rw [if_neg hc, if_neg (by omega)]

theorem moving_many {s : WSt} (h : Moving 0 s) (n : Nat) (hn : n ≤ 33) :
    ∃ s', Exec h0 s [] s' ∧ Moving n s' := by
  induction n with
  | zero => exact ⟨s, .nil, h⟩
  | succ n ih =>
    obtain ⟨s1, ex, h1⟩ := ih (by omega)
    obtain ⟨s2, ex', h2⟩ := moving_one (by omega) h1
    exact ⟨s2, ex.trans ex', h2⟩

/-- The target is full when 32 keys were moved; the 33rd needs a linked bucket. -/
theorem moving_full {s : WSt} (h : Moving 32 s) : Full (s.b 1 (target h0 s 1 0 0 32)) := by
  rw [moving_target h]
  refine ⟨List.range 32, List.nodup_range, List.length_range, fun k => ?_⟩
  rw [h.new, List.mem_range]
  by_cases hk : k < 32
  · rw [if_pos hk]; simp [hk]
  · rw [if_neg hk]; simp [hk]

/-- The allocation fails, and thread 2 gets the old bucket, from which key 0 was moved away. -/
theorem after_oom {s : WSt} (h : Moving 32 s) :
    ∃ s', PExec h0 s [.helpPanic 1, .ret 2 (some (.inserted true))] s' ∧
      (s'.b 0 0).content 0 = some 7 ∧ (s'.b 1 0).content 0 = some 5 ∧
      (s'.b 0 0).dead = false ∧ (s'.b 0 0).lock = none := by
  have hv : (s.b 0 0).content 32 = some 5 := by rw [h.old]; rfl
  have e := PExec.event (hash := h0) (PExec.nil (s := s)) (PStep.oomHelp h.pc1 hv (moving_full h))
  rw [rng_of h.lg0 h.lg1] at e
  have ne : (2 : Nat) ≠ 1 := by omega
  have hb : bucketIndex (s.arr 0).lg (h0 (wIns 0 7).key) = 0 := by rw [h.lg0]; show bucketIndex 1 0 = 0; decide
  have hi : Goal.idx h0 (s.arr 0).lg (.op (wIns 0 7)) = 0 := hb
  have e := PExec.tau e (.step (Step.lock (t := 2) (g := .op (wIns 0 7)) (a := 0)
    (by simp only [setPc_other _ _ _ _ ne, setLock_pc, setLocks_pc]; exact h.pc2)
    (by simp only [setPc_arr, setLock_lg, setLocks_lg, hi, setPc_b, setLock_dead, setLocks_dead]; exact h.dead)
    (by simp only [setPc_arr, setLock_lg, setLocks_lg, hi, setPc_b]; rw [setLock_lock, if_pos ⟨rfl, rfl⟩])))
  simp only [setPc_arr, setLock_lg, setLocks_lg, hi] at e
  have hc : (s.b 0 0).content 0 = none := by rw [h.old]; rfl
  have e := PExec.tau e (.step (Step.commit (t := 2) (o := wIns 0 7) (a := 0) (setPc_self ..)))
  simp only [setPc_arr, setLock_lg, setLocks_lg, setPc_b, setLock_content, setLocks_content] at e
  rw [hb] at e
  have hk : (wIns 0 7).key = 0 := rfl
  rw [hk, hc] at e
  have e := PExec.tau e (.step (Step.unlock (t := 2) (o := wIns 0 7) (a := 0) (setPc_self ..)))
  simp only [setPc_arr, setLock_lg, setLocks_lg, modBkt_lg] at e
  rw [hb] at e
  have e := PExec.event e (.step (Step.ret (t := 2) (setPc_self ..)))
  refine ⟨_, e, ?_, ?_, ?_, ?_⟩
  · rw [setPc_b, setPc_b, setLock_content, setPc_b, modBkt_b, if_pos ⟨rfl, rfl⟩]; rfl
  · rw [setPc_b, setPc_b, setLock_content, setPc_b, modBkt_b, if_neg (by omega), setPc_b, setLock_content, setPc_b,
      setLock_content, setLocks_content, h.new]
    rfl
  · rw [setPc_b, setPc_b, setLock_dead, setPc_b, modBkt_b, if_pos ⟨rfl, rfl⟩]
    show (St.b _ 0 0).dead = false
    rw [setPc_b, setLock_dead, setPc_b, setLock_dead, setLocks_dead]; exact h.dead
  · rw [setPc_b, setPc_b, setLock_lock, if_pos ⟨rfl, rfl⟩]

/-- The history: thread 0 inserts 33 keys, thread 2 calls `insert(0)`, a resize happens, a helper unwinds, and
thread 2 is told that it has inserted. -/
def badHistory : List (Event Nat Nat (Spec.Res Nat Nat)) :=
  allIns 33 ++ [.inv 2 (wIns 0 7), .helpPanic 1, .ret 2 (some (.inserted true))]

/-! ### It is not a history of a map -/

theorem Spec.Exec.split [DecidableEq K] {a b : Spec.St K V R} {es es' : List (Event K V R)}
    (h : Spec.Exec a (es ++ es') b) : ∃ c, Spec.Exec a es c ∧ Spec.Exec c es' b := by
  generalize he : es ++ es' = l at h
  induction h generalizing es' with
  | nil =>
    have := List.append_eq_nil_iff.1 he
    rw [this.1, this.2]; exact ⟨_, .nil, .nil⟩
  | tau _ st ih =>
    obtain ⟨c, h1, h2⟩ := ih he
    exact ⟨c, h1, .tau h2 st⟩
  | @event l b e b' ex st ih =>
    rcases List.eq_nil_or_concat es' with rfl | ⟨l', x, rfl⟩
    · rw [List.append_nil] at he
      subst he
      exact ⟨_, .event ex st, .nil⟩
    · rw [List.concat_eq_append] at he ⊢
      rw [← List.append_assoc] at he
      have := List.append_inj' he rfl
      obtain ⟨c, h1, h2⟩ := ih this.1
      have hx := this.2
      cases hx
      exact ⟨c, h1, .event h2 st⟩

theorem Spec.Exec.app [DecidableEq K] {a b c : Spec.St K V R} {es es' : List (Event K V R)}
    (h : Spec.Exec a es b) (h' : Spec.Exec b es' c) : Spec.Exec a (es ++ es') c := by
  induction h' with
  | nil => simpa using h
  | tau _ st ih => exact .tau ih st
  | event _ st ih => rw [← List.append_assoc]; exact .event ih st

theorem Spec.Exec.keeps [DecidableEq K] {P : Spec.St K V R → Prop} {a b : Spec.St K V R} {es : List (Event K V R)}
    (h : Spec.Exec a es b) (ha : P a) (ht : ∀ s s', P s → Spec.Step s none s' → P s')
    (he : ∀ e s s', e ∈ es → P s → Spec.Step s (some e) s' → P s') : P b := by
  induction h with
  | nil => exact ha
  | tau _ st ih => exact ht _ _ (ih he) st
  | event _ st ih =>
    exact he _ _ _ (List.mem_append_right _ (List.mem_singleton.2 rfl))
      (ih fun e s s' m => he e s s' (List.mem_append_left _ m)) st

theorem Spec.Exec.first [DecidableEq K] {a b : Spec.St K V R} {e : Event K V R} {es : List (Event K V R)}
    (h : Spec.Exec a (e :: es) b) :
    ∃ c d, Spec.Exec a [] c ∧ Spec.Step c (some e) d ∧ Spec.Exec d es b := by
  obtain ⟨x, h1, h2⟩ := Spec.Exec.split (es := [e]) h
  have key : ∀ {l x}, Spec.Exec a l x → l = [e] → ∃ c d, Spec.Exec a [] c ∧ Spec.Step c (some e) d ∧ Spec.Exec d [] x := by
    intro l x h
    induction h with
    | nil => intro hl; cases hl
    | tau _ st ih =>
      intro hl
      obtain ⟨c, d, g1, g2, g3⟩ := ih hl
      exact ⟨c, d, g1, g2, .tau g3 st⟩
    | @event l s' e' s'' ex st ih =>
      intro hl
      have := List.append_inj' (s₁ := l) (t₁ := [e']) (s₂ := []) (t₂ := [e]) (by simpa using hl) rfl
      obtain ⟨rfl, h'⟩ := this
      cases h'
      exact ⟨_, _, ex, st, .nil⟩
  obtain ⟨c, d, g1, g2, g3⟩ := key h1 rfl
  exact ⟨c, d, g1, g2, by simpa using g3.app h2⟩

abbrev ASt := Spec.St Nat Nat (Spec.Res Nat Nat)

theorem apc_self (s : ASt) (t : Nat) (p) : (s.setPc t p).pc t = p := by simp [Spec.St.setPc]
theorem apc_other (s : ASt) (t u : Nat) (p) (h : u ≠ t) : (s.setPc t p).pc u = s.pc u := by simp [Spec.St.setPc, h]

/-- The first insertion of key 0 is under way; nobody else is active. -/
def First (s : ASt) : Prop :=
  (s.pc 0 = .pending (wIns 0 5) ∨ ∃ r, s.pc 0 = .done r ∧ s.map 0 ≠ none) ∧ ∀ t, t ≠ 0 → s.pc t = .idle

/-- Key 0 is present, only insertions are pending, and thread 2 has nothing but its failing insertion. -/
def Present (s : ASt) : Prop :=
  s.map 0 ≠ none ∧
  (∀ t, s.pc t = .idle ∨ (∃ k v, s.pc t = .pending (wIns k v)) ∨ ∃ r, s.pc t = .done r) ∧
  (s.pc 2 = .idle ∨ s.pc 2 = .pending (wIns 0 7) ∨ s.pc 2 = .done (some (.inserted false)))

theorem idle_tau {s s' : ASt} (h : ∀ t, s.pc t = .idle) (st : Spec.Step s none s') : False := by
  cases st with
  | lin g | linEvict g | abort g | tvSweep _ g => rw [h] at g; cases g

theorem first_tau {s s' : ASt} (h : First s) (st : Spec.Step s none s') : First s' := by
  have only : ∀ t, s.pc t ≠ .idle → t = 0 := fun t ht => by
    by_cases h0 : t = 0
    · exact h0
    · exact absurd (h.2 t h0) ht
  cases st with
  | @lin t o g =>
    have ht := only t (by rw [g]; exact (fun h => by cases h))
    subst ht
    rcases h.1 with h1 | ⟨r, h1, _⟩
    · rw [h1] at g; cases g
      refine ⟨.inr ⟨_, apc_self .., ?_⟩, fun u hu => (apc_other _ _ _ _ hu).trans (h.2 u hu)⟩
      show (if 0 = 0 then ((wIns 0 5).f (s.map 0)).1 else s.map 0) ≠ none
      rw [if_pos rfl]
      cases s.map 0 <;> exact (fun h => by cases h)
    · rw [h1] at g; cases g
  | @linEvict t o f k v g hf =>
    have ht0 := only t (by rw [g]; exact (fun h => by cases h))
    subst ht0
    rcases h.1 with h1 | ⟨r, h1, _⟩
    · rw [h1] at g; cases g; cases hf
    · rw [h1] at g; cases g
  | @abort t o g ht =>
    have ht0 := only t (by rw [g]; exact (fun h => by cases h))
    subst ht0
    rcases h.1 with h1 | ⟨r, h1, _⟩
    · rw [h1] at g; cases g; cases ht
    · rw [h1] at g; cases g
  | @tvSweep t u seen S g =>
    have ht0 := only t (by rw [g]; exact (fun h => by cases h))
    subst ht0
    rcases h.1 with h1 | ⟨r, h1, _⟩ <;> (rw [h1] at g; cases g)

theorem ins_some {k v : Nat} (m : Option Nat) : ((wIns k v).f m).1 ≠ none := by
  cases m <;> exact (fun h => by cases h)

theorem present_set {s : ASt} (h : Present s) {m : Nat → Option Nat} (hm : m 0 ≠ none) {t : Nat} {p : Spec.Pc Nat Nat (Spec.Res Nat Nat)}
    (hp : p = .idle ∨ (∃ k v, p = .pending (wIns k v)) ∨ ∃ r, p = .done r)
    (h2 : t = 2 → p = .idle ∨ p = .pending (wIns 0 7) ∨ p = .done (some (.inserted false))) :
    Present (Spec.St.setPc { s with map := m } t p) := by
  refine ⟨hm, fun u => ?_, ?_⟩
  · by_cases hu : u = t
    · show (if u = t then p else s.pc u) = _ ∨ _
      simp only [Spec.St.setPc, hu, if_true]; exact hp
    · simp only [Spec.St.setPc, if_neg hu]; exact h.2.1 u
  · by_cases hu : 2 = t
    · simp only [Spec.St.setPc, if_pos hu]; exact h2 hu.symm
    · simp only [Spec.St.setPc, if_neg hu]; exact h.2.2

theorem present_tau {s s' : ASt} (h : Present s) (st : Spec.Step s none s') : Present s' := by
  cases st with
  | @lin t o g =>
    rcases h.2.1 t with h1 | ⟨k, v, h1⟩ | ⟨r, h1⟩
    · rw [h1] at g; cases g
    · rw [h1] at g; cases g
      refine present_set h ?_ (.inr (.inr ⟨_, rfl⟩)) ?_
      · show (if 0 = (wIns k v).key then _ else s.map 0) ≠ none
        by_cases hk : 0 = (wIns k v).key
        · rw [if_pos hk]; exact ins_some _
        · rw [if_neg hk]; exact h.1
      · intro ht
        subst ht
        rcases h.2.2 with h2 | h2 | h2
        · rw [h2] at h1; cases h1
        · rw [h2] at h1
          injection h1 with h1
          rw [← h1]
          have hm := h.1
          show _ ∨ _ ∨ Spec.Pc.done (some ((wIns 0 7).f (s.map 0)).2) = _
          cases hv : s.map 0 with
          | none => exact absurd hv hm
          | some w => exact .inr (.inr rfl)
        · rw [h2] at h1; cases h1
    · rw [h1] at g; cases g
  | @linEvict t o f k v g hf =>
    rcases h.2.1 t with h1 | ⟨k, v, h1⟩ | ⟨r, h1⟩
    · rw [h1] at g; cases g
    · rw [h1] at g; cases g; cases hf
    · rw [h1] at g; cases g
  | @abort t o g ht =>
    rcases h.2.1 t with h1 | ⟨k, v, h1⟩ | ⟨r, h1⟩
    · rw [h1] at g; cases g
    · rw [h1] at g; cases g; cases ht
    · rw [h1] at g; cases g
  | @tvSweep t u seen S g =>
    rcases h.2.1 t with h1 | ⟨k, v, h1⟩ | ⟨r, h1⟩ <;> (rw [h1] at g; cases g)

/-- Events after the first insertion. -/
inductive Later : Event Nat Nat (Spec.Res Nat Nat) → Prop
  | ins {k} : Later (.inv 0 (wIns k 5))
  | ins2 : Later (.inv 2 (wIns 0 7))
  | ret {t r} : Later (.ret t r)
  | help {t} : Later (.helpPanic t)

theorem present_event {e} (he : Later e) {s s' : ASt} (h : Present s) (st : Spec.Step s (some e) s') : Present s' := by
  cases he with
  | ins =>
    cases st with
    | inv g => exact present_set h h.1 (.inr (.inl ⟨_, _, rfl⟩)) (fun h => by cases h)
  | ins2 =>
    cases st with
    | inv g => exact present_set h h.1 (.inr (.inl ⟨_, _, rfl⟩)) (fun _ => .inr (.inl rfl))
  | ret =>
    cases st with
    | ret g => exact present_set h h.1 (.inl rfl) (fun _ => .inl rfl)
  | help =>
    cases st with
    | helpPanic g => exact h

theorem allIns_split (n : Nat) : ∃ l, allIns (n + 1) = insEvents 0 ++ l ∧ ∀ e ∈ l, Later e := by
  induction n with
  | zero => exact ⟨[], rfl, fun e he => by cases he⟩
  | succ n ih =>
    obtain ⟨l, h1, h2⟩ := ih
    refine ⟨l ++ insEvents (n + 1), ?_, fun e he => ?_⟩
    · show allIns (n + 1) ++ _ = _
      rw [h1, List.append_assoc]
    · rcases List.mem_append.1 he with he | he
      · exact h2 e he
      · simp only [insEvents, List.mem_cons, List.not_mem_nil, or_false] at he
        rcases he with rfl | rfl
        · exact .ins
        · exact .ret

/-- No map ever produces this history: key 0 was inserted before and nobody removes anything. -/
theorem bad_impossible (a : ASt) : ¬ Spec.Exec Spec.St.init badHistory a := by
  intro h
  obtain ⟨l, hl, later⟩ := allIns_split 32
  have hb : badHistory = .inv 0 (wIns 0 5) :: .ret 0 (some (.inserted true)) ::
      ((l ++ [.inv 2 (wIns 0 7), .helpPanic 1]) ++ [.ret 2 (some (.inserted true))]) := by
    unfold badHistory
    rw [hl]
    simp [insEvents]
  rw [hb] at h
  obtain ⟨a1, a2, e1, s1, h⟩ := h.first
  have i1 : ∀ t, a1.pc t = .idle := e1.keeps (P := fun s => ∀ t, s.pc t = .idle) (fun _ => rfl)
    (fun _ _ h st => (idle_tau h st).elim) (fun _ _ _ h => by cases h)
  have i2 : First a2 := by
    cases s1
    exact ⟨.inl (apc_self ..), fun t ht => (apc_other _ _ _ _ ht).trans (i1 t)⟩
  obtain ⟨a3, a4, e2, s2, h⟩ := h.first
  have i3 : First a3 := e2.keeps i2 (fun _ _ => first_tau) (fun _ _ _ h => by cases h)
  have i4 : Present a4 := by
    cases s2 with
    | ret g =>
      rcases i3.1 with h1 | ⟨r, h1, hm⟩
      · rw [h1] at g; cases g
      · refine ⟨hm, fun t => .inl ?_, .inl ?_⟩
        · by_cases ht : t = 0
          · subst ht; exact apc_self ..
          · exact (apc_other _ _ _ _ ht).trans (i3.2 t ht)
        · exact (apc_other _ _ _ _ (by omega)).trans (i3.2 2 (by omega))
  obtain ⟨a5, e3, h⟩ := Spec.Exec.split h
  have i5 : Present a5 := e3.keeps i4 (fun _ _ => present_tau) (fun e s s' m => present_event (by
    rcases List.mem_append.1 m with m | m
    · exact later e m
    · simp only [List.mem_cons, List.not_mem_nil, or_false] at m
      rcases m with rfl | rfl
      · exact .ins2
      · exact .help))
  obtain ⟨a6, a7, e4, s4, _⟩ := h.first
  have i6 : Present a6 := e4.keeps i5 (fun _ _ => present_tau) (fun _ _ _ h => by cases h)
  cases s4 with
  | ret g => rcases i6.2.2 with h2 | h2 | h2 <;> (rw [h2] at g; cases g)

/-- **C56, violated.** With failing allocations while entries are moved, a history of a `HashMap` exists
that no map has: thread 0 inserts 33 keys whose hashes collide, key 0 among them; thread 2 calls
`insert(0)`, which is told that it has inserted; nothing was ever removed. The key is then stored twice, in the
old array and in the new one, and both buckets are alive. -/
theorem c56_violated : ∃ (s : WSt) (es : List (Event Nat Nat (Spec.Res Nat Nat))),
    PExec h0 (St.initWith 1) es s ∧
    (s.b 0 0).content 0 = some 7 ∧ (s.b 1 0).content 0 = some 5 ∧ (s.b 0 0).dead = false ∧
    ¬ ∃ a, Spec.Exec Spec.St.init es a := by
  obtain ⟨s1, e1, h1⟩ := stage_all 33
  obtain ⟨s2, e2, h2⟩ := ready h1
  obtain ⟨s3, e3, h3⟩ := moving_start h2
  obtain ⟨s4, e4, h4⟩ := moving_many h3 32 (by omega)
  obtain ⟨s5, e5, hA, hB, hC, _⟩ := after_oom h4
  have e := (((e1.trans e2).trans e3).trans e4).pexec.trans e5
  have he : (((allIns 33 ++ [.inv 2 (wIns 0 7)]) ++ []) ++ []) ++
      [.helpPanic 1, .ret 2 (some (.inserted true))] = badHistory := by
    simp [badHistory]
  rw [he] at e
  exact ⟨s5, badHistory, e, hA, hB, hC, fun ⟨a, ha⟩ => bad_impossible a ha⟩

end Scc.Table
