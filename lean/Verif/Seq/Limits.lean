import Verif.Seq.CacheUse

/-!
# The capacity stays within its limits, in every history
-/

set_option linter.unusedSectionVars false
set_option linter.unusedSimpArgs false
set_option linter.unusedVariables false

namespace Scc.Seq

open Scc.Index hiding bucketLen
open Scc.Bucket

variable {K V : Type}

/-- The maximum capacity is a power of two between 64 and `2^62`. -/
def PowMax (c : Cfg K) : Prop := ∃ E, 6 ≤ E ∧ E ≤ 62 ∧ c.maxCap = 2 ^ E

/-- The capacity is valid, and neither it nor the minimum capacity is below `m`. -/
structure Lims (c : Cfg K) (m : Nat) (T : Tbl K V) : Prop where
  min : T.minCap ≤ c.maxCap
  cap : ∀ w, T.arr = some w → ValidCapacity c.maxCap (numSlots (2 ^ w.cur.lg))
  floor : m ≤ T.minCap
  out : T.arr = none → m = 0
  big : ∀ w, T.arr = some w → m ≤ numSlots (2 ^ w.cur.lg)

theorem tbl_capacity {T : Tbl K V} {w : Two K V} (h : T.arr = some w) :
    T.capacity = numSlots (2 ^ w.cur.lg) := by
  unfold Tbl.capacity; rw [h]

theorem Lims.of_lg {c : Cfg K} {m : Nat} {T T' : Tbl K V} (l : Lims c m T) (hm : T'.minCap = T.minCap)
    {w : Two K V} (hw : T.arr = some w) {w' : Two K V} (hw' : T'.arr = some w')
    (h : w'.cur.lg = w.cur.lg) : Lims c m T' := by
  refine ⟨hm ▸ l.min, ?_, hm ▸ l.floor, fun h0 => (by rw [hw'] at h0; cases h0), ?_⟩
  · intro v hv
    rw [hw'] at hv; cases hv
    rw [h]; exact l.cap w hw
  · intro v hv
    rw [hw'] at hv; cases hv
    rw [h]; exact l.big w hw

section
variable {c : Cfg K} {m : Nat} [DecidableEq K]

/-! ## The length of the current array -/

theorem moveLoop_lg {recent : Nat → Bool} {olg base fuel : Nat} {a : Arr K V} {src : Bucket K V} {p : Ptr}
    {hs : List Nat} {r : Arr K V × Bucket K V × List (K × V)}
    (h : moveLoop c recent olg base fuel a src p hs = some r) : r.1.lg = a.lg := by
  induction fuel generalizing a src p hs r with
  | zero => cases h
  | succ fuel ih =>
    unfold moveLoop at h
    simp only at h
    split at h
    · split at h
      · cases h
      · split at h
        · cases h
        · obtain ⟨z, h1, h2⟩ := Option.map_eq_some_iff.1 h
          cases h2
          show z.1.lg = a.lg
          have := ih h1
          exact this
    · cases h; rfl

theorem relocate_lg {recent : Nat → Bool} {a o : Arr K V} {j : Nat}
    {r : Arr K V × Arr K V × List (K × V)} (h : relocate c recent a o j = some r) : r.1.lg = a.lg := by
  unfold relocate at h
  split at h
  · cases h; rfl
  · split at h
    · cases h; rfl
    · simp only at h
      split at h
      · split at h
        · cases h
        · obtain ⟨z, h1, h2⟩ := Option.map_eq_some_iff.1 h
          cases h2
          exact (moveLoop_lg h1).trans rfl
      · obtain ⟨z, h1, h2⟩ := Option.map_eq_some_iff.1 h
        cases h2
        exact moveLoop_lg h1

theorem relocateRange_lg {recent : Nat → Bool} {n lo : Nat} {a o : Arr K V}
    {r : Arr K V × Arr K V × List (K × V)} (h : relocateRange c recent n lo a o = some r) :
    r.1.lg = a.lg := by
  induction n generalizing lo a o r with
  | zero => cases h; rfl
  | succ n ih =>
    unfold relocateRange at h
    split at h
    · cases h
    · rename_i a1 o1 g1 h1
      obtain ⟨z, h2, h3⟩ := Option.map_eq_some_iff.1 h
      cases h3
      show z.1.lg = a.lg
      rw [ih h2]
      exact relocate_lg h1

theorem incrementalRehash_lg {recent : Nat → Bool} {w : Two K V} {r : Two K V × List (K × V)}
    (h : incrementalRehash c recent w = some r) : r.1.cur.lg = w.cur.lg := by
  unfold incrementalRehash at h
  split at h
  · cases h; rfl
  · split at h
    · cases h; rfl
    · split at h
      · cases h
      · rename_i a o1 g h1
        simp only at h
        split at h
        · cases h; exact relocateRange_lg h1
        · cases h; exact relocateRange_lg h1

theorem dedup_lg {recent : Nat → Bool} {w : Two K V} {i : Nat} {r : Two K V × List (K × V)}
    (h : dedup c recent w i = some r) : r.1.cur.lg = w.cur.lg := by
  unfold dedup at h
  split at h
  · cases h; rfl
  · obtain ⟨z, h1, h2⟩ := Option.map_eq_some_iff.1 h
    cases h2
    exact relocateRange_lg h1

/-! ## Single steps -/

theorem prepare_lims {recent : Nat → Bool} {T T' : Tbl K V} {i : Nat} (l : Lims c m T)
    (h : prepare c recent T i = some T') : Lims c m T' := by
  unfold prepare at h
  split at h
  · cases h; exact l
  · rename_i w hw
    split at h
    · cases h
    · rename_i w1 g1 h1
      obtain ⟨z, h2, h3⟩ := Option.map_eq_some_iff.1 h
      cases h3
      exact l.of_lg rfl hw rfl ((dedup_lg h2).trans (incrementalRehash_lg h1))

theorem setBucket_lims {T : Tbl K V} (l : Lims c m T) (s : Side) (i : Nat) (b : Bucket K V) :
    Lims c m (T.setBucket s i b) := by
  unfold Tbl.setBucket
  cases hT : T.arr with
  | none => cases s <;> exact l
  | some w =>
    obtain ⟨a, old⟩ := w
    cases s
    · exact l.of_lg rfl hT rfl rfl
    · cases old with
      | none => exact l
      | some o => exact l.of_lg rfl hT rfl rfl

theorem tryResize_lims (q : PowMax c) {T : Tbl K V} (l : Lims c m T) (i : Nat) : Lims c m (tryResize c T i) := by
  obtain ⟨E, h6, hE, hmax⟩ := q
  unfold tryResize
  cases hT : T.arr with
  | none => exact l
  | some w =>
    obtain ⟨a, old⟩ := w
    cases old with
    | some o => exact l
    | none =>
      simp only
      have hcap := l.cap _ hT
      simp only at hcap
      rw [hmax] at hcap
      have hmin := l.min
      rw [hmax] at hmin
      split
      · split
        · rename_i h0
          have hf := l.floor
          exact ⟨l.min, (fun w h => by cases h), l.floor, (fun _ => by omega), (fun w h => by cases h)⟩
        · exact l
      · split
        · rename_i hne
          rw [hmax] at hne ⊢
          obtain ⟨v1, v2⟩ := c06_resize_valid (est := sample a.lg i a.lens) hE hcap hmin
          obtain ⟨n1, n2⟩ := numSlots_log2 _ h6 hE v1.2.2
          refine ⟨l.min, fun w h => ?_, l.floor, (fun h => by cases h), fun w h => ?_⟩
          · cases h
            rw [hmax]
            exact n1
          · cases h
            show m ≤ numSlots (2 ^ log2ArrayLen _)
            rw [n2 v1]
            exact Nat.le_trans l.floor v2
        · exact l

theorem tryEnlarge_lims (q : PowMax c) {T : Tbl K V} (l : Lims c m T) (i : Nat) : Lims c m (tryEnlarge c T i) := by
  rcases tryEnlarge_eq (c := c) T i with h | h
  · rw [h]; exact l
  · rw [h]; exact tryResize_lims q l i

theorem tryShrink_lims (q : PowMax c) {T : Tbl K V} (l : Lims c m T) (i : Nat) : Lims c m (tryShrink c T i) := by
  rcases tryShrink_eq (c := c) T i with h | h
  · rw [h]; exact l
  · rw [h]; exact tryResize_lims q l i

theorem shrinkIfEmpty_lims (q : PowMax c) {T : Tbl K V} (l : Lims c m T) (s : Side) (i : Nat) :
    Lims c m (shrinkIfEmpty c T s i) := by
  unfold shrinkIfEmpty
  split
  · split
    · exact tryShrink_lims q l i
    · exact l
  · exact l

theorem create_lims (q : PowMax c) {T : Tbl K V} (l : Lims c m T) : Lims c m (create T) := by
  obtain ⟨E, h6, hE, hmax⟩ := q
  unfold create
  split
  · exact l
  · have hmin := l.min
    rw [hmax] at hmin
    have h62 : (2 : Nat) ^ E ≤ 2 ^ 62 := Nat.pow_le_pow_right (by omega) hE
    refine ⟨l.min, fun w h => ?_, l.floor, (fun h => by cases h), fun w h => ?_⟩
    · cases h
      rw [hmax]
      exact (numSlots_log2 T.minCap h6 hE hmin).1
    · cases h
      show m ≤ numSlots (2 ^ log2ArrayLen T.minCap)
      rw [log2ArrayLen_spec]
      exact Nat.le_trans l.floor ((c06_new_capacity T.minCap).2 (by omega))

theorem writerRound_lims (q : PowMax c) {recent : Nat → Bool} {T : Tbl K V} {h : Nat} (l : Lims c m T)
    {r : Tbl K V × Option (Side × Nat)} (e : writerRound c recent T h = some r) : Lims c m r.1 := by
  have l0 := create_lims q l
  unfold writerRound at e
  split at e
  · cases e
  · simp only at e
    split at e
    · cases e
    · rename_i T1 h1
      have l1 := prepare_lims l0 h1
      split at e
      · cases e
      · split at e
        · have l2 := fun i => tryEnlarge_lims q l1 i
          split at e
          · cases e; exact l2 _
          · split at e
            · cases e; exact l2 _
            · cases e; exact l2 _
        · cases e; exact l1

theorem writer_lims (q : PowMax c) {recent : Nat → Bool} {T : Tbl K V} {h : Nat} (l : Lims c m T)
    {r : Tbl K V × Side × Nat} (e : writer c recent T h = some r) : Lims c m r.1 := by
  unfold writer at e
  split at e
  · cases e
  · rename_i T1 s i h1; cases e; exact writerRound_lims q l h1
  · rename_i T1 h1
    have l1 := writerRound_lims q l h1
    split at e
    · rename_i T2 s i h2; cases e; exact writerRound_lims q l1 h2
    · cases e

theorem optWriter_lims {recent : Nat → Bool} {T : Tbl K V} {h : Nat} (l : Lims c m T)
    {r : Tbl K V × Option Nat} (e : optWriter c recent T h = some r) : Lims c m r.1 := by
  unfold optWriter at e
  split at e
  · cases e; exact l
  · simp only at e
    obtain ⟨z, h1, h2⟩ := Option.map_eq_some_iff.1 e
    cases h2
    exact prepare_lims l h1

theorem Lims.gone {T : Tbl K V} (l : Lims c m T) (g : List (K × V)) : Lims c m { T with gone := g } :=
  ⟨l.min, l.cap, l.floor, l.out, l.big⟩

/-! ## Operations -/

section
variable [DecidableEq K]

theorem readOp_lims {env : Env} {T : Tbl K V} {k : K} (l : Lims c m T) {r : Tbl K V × Option V}
    (e : readOp c env T k = some r) : Lims c m r.1 := by
  unfold readOp at e
  split at e
  · cases e
  · rename_i h1; cases e; exact optWriter_lims l h1
  · rename_i h1
    split at e
    · cases e
    · cases e; exact optWriter_lims l h1

theorem lenOp_lims (q : PowMax c) {env : Env} {T : Tbl K V} (l : Lims c m T) {r : Tbl K V × Nat}
    (e : lenOp c env T = some r) : Lims c m r.1 := by
  unfold lenOp at e
  split at e
  · cases e; exact l
  · rename_i w hw
    obtain ⟨z, h1, h2⟩ := Option.map_eq_some_iff.1 e
    have l1 : Lims c m ({ T with arr := some z.1, gone := T.gone ++ z.2 } : Tbl K V) := by
      exact l.of_lg rfl hw rfl (incrementalRehash_lg h1)
    cases h2
    simp only
    split
    · exact tryResize_lims q l1 0
    · exact l1

theorem retainLoop_lims {σ : Type} {env : Env} {f : σ → K × V → σ × V × Bool} {n j : Nat} {T : Tbl K V}
    {s : σ} (l : Lims c m T) {r : Tbl K V × σ × List (K × V) × Bool}
    (e : retainLoop c env f n j T s = some r) : Lims c m r.1 := by
  induction n generalizing j T s r with
  | zero => cases e; exact l
  | succ n ih =>
    unfold retainLoop at e
    split at e
    · cases e
    · rename_i T1 h1
      split at e
      · cases e
      · split at e
        · cases e
        · obtain ⟨z, h2, h3⟩ := Option.map_eq_some_iff.1 e
          cases h3
          have := ih (setBucket_lims (prepare_lims l h1) _ _ _) h2
          exact this

theorem retainOp_lims (q : PowMax c) {σ : Type} {env : Env} {f : σ → K × V → σ × V × Bool} {T : Tbl K V}
    {s : σ} (l : Lims c m T) {r : Tbl K V × σ × List (K × V)}
    (e : retainOp c env T f s = some r) : Lims c m r.1 := by
  unfold retainOp at e
  split at e
  · cases e; exact l
  · obtain ⟨z, h2, h3⟩ := Option.map_eq_some_iff.1 e
    have := retainLoop_lims l h2
    cases h3
    simp only
    split
    · exact tryShrink_lims q this 0
    · exact this

theorem iterLoop_lims {env : Env} {n j : Nat} {T : Tbl K V} (l : Lims c m T) {r : Tbl K V × List (K × V)}
    (e : iterLoop c env n j T = some r) : Lims c m r.1 := by
  induction n generalizing j T r with
  | zero => cases e; exact l
  | succ n ih =>
    unfold iterLoop at e
    split at e
    · cases e
    · rename_i T1 h1
      split at e
      · cases e
      · split at e
        · cases e
        · obtain ⟨z, h2, h3⟩ := Option.map_eq_some_iff.1 e
          cases h3
          have := ih (prepare_lims l h1) h2
          exact this

theorem iterOp_lims {env : Env} {T : Tbl K V} (l : Lims c m T) {r : Tbl K V × List (K × V)}
    (e : iterOp c env T = some r) : Lims c m r.1 := by
  unfold iterOp at e
  split at e
  · cases e; exact l
  · exact iterLoop_lims l e

theorem applyAt_lims (q : PowMax c) {env : Env} {T : Tbl K V} {s : Side} {i : Nat} {k : K}
    {f : Option V → Act V} (l : Lims c m T) {r : Tbl K V × Option V}
    (e : applyAt c env T s i k f = some r) : Lims c m r.1 := by
  unfold applyAt at e
  split at e
  · cases e
  · split at e
    · cases e
    · simp only at e
      split at e
      · cases e; exact shrinkIfEmpty_lims q ((setBucket_lims l _ _ _).gone _) _ _
      · cases e; exact (setBucket_lims l _ _ _).gone _

theorem cacheAt_lims (q : PowMax c) {env : Env} {T : Tbl K V} {s : Side} {i : Nat} {k : K} {touch : Bool}
    {f : Option V → Act V} (l : Lims c m T) {r : Tbl K V × Option V × Option (K × V)}
    (e : cacheAt c env T s i k touch f = some r) : Lims c m r.1 := by
  unfold cacheAt at e
  split at e
  · cases e
  · split at e
    · cases e
    · simp only at e
      split at e
      · cases e; exact shrinkIfEmpty_lims q (setBucket_lims l _ _ _) _ _
      · cases e; exact setBucket_lims l _ _ _

theorem seek_lims {recent : Nat → Bool} {n i : Nat} {T : Tbl K V} (l : Lims c m T)
    {r : Tbl K V × Option Cur} (e : seek c recent n i T = some r) : Lims c m r.1 := by
  induction n generalizing i T r with
  | zero => cases e; exact l
  | succ n ih =>
    unfold seek at e
    split at e
    · cases e
    · rename_i T1 h1
      split at e
      · cases e
      · simp only at e
        split at e
        · cases e; exact prepare_lims l h1
        · exact ih (prepare_lims l h1) e

theorem seekFrom_lims {recent : Nat → Bool} {T : Tbl K V} {a b : Nat} (l : Lims c m T)
    {r : Tbl K V × Option Cur} (e : seekFrom c recent T a b = some r) : Lims c m r.1 := by
  unfold seekFrom at e
  split at e
  · cases e; exact l
  · exact seek_lims l e

theorem nextOp_lims (q : PowMax c) {env : Env} {T : Tbl K V} {x : Cur} (l : Lims c m T)
    {r : Tbl K V × Option Cur} (e : nextOp c env T x = some r) : Lims c m r.1 := by
  unfold nextOp at e
  split at e
  · cases e
  · simp only at e
    split at e
    · cases e; exact l
    · split at e
      · cases e; exact shrinkIfEmpty_lims q l _ _
      · exact seekFrom_lims (shrinkIfEmpty_lims q l _ _) e

theorem removeAndOp_lims (q : PowMax c) {env : Env} {T : Tbl K V} {x : Cur} (l : Lims c m T)
    {r : Tbl K V × Option (K × V) × Option Cur} (e : removeAndOp c env T x = some r) : Lims c m r.1 := by
  unfold removeAndOp at e
  split at e
  · cases e
  · split at e
    · obtain ⟨z, h2, h3⟩ := Option.map_eq_some_iff.1 e
      cases h3
      exact nextOp_lims q (setBucket_lims l _ _ _) h2
    · split at e
      · cases e
      · obtain ⟨z, h2, h3⟩ := Option.map_eq_some_iff.1 e
        cases h3
        exact nextOp_lims q (setBucket_lims l _ _ _) h2

/-- One operation of a `HashCache`. -/
theorem cacheExec_lims (q : PowMax c) {env : Env} {T T' : Tbl K V} {op : CacheOp K V} {out : CacheOut K V}
    (l : Lims c m T) (e : CacheExec c env T op out T') : Lims c m T' := by
  have alt : ∀ k touch (f : V → Act V) o, cacheAlterOp c env T k touch f = some (T', o) → Lims c m T' := by
    intro k touch f o h
    unfold cacheAlterOp at h
    split at h
    · cases h
    · rename_i T1 h1; cases h; exact optWriter_lims l h1
    · rename_i T1 i h1
      obtain ⟨z, h2, h3⟩ := Option.map_eq_some_iff.1 h
      cases h3
      exact cacheAt_lims q (optWriter_lims l h1) h2
  cases op with
  | entry k f =>
    obtain ⟨o, ev, h, _⟩ := e
    unfold cacheEntryOp at h
    split at h
    · cases h
    · rename_i T1 s i h1
      exact cacheAt_lims q (writer_lims q l h1) h
  | get k f => obtain ⟨o, h, _⟩ := e; exact alt _ _ _ _ h
  | alter k f => obtain ⟨o, h, _⟩ := e; exact alt _ _ _ _ h
  | read k => obtain ⟨o, h, _⟩ := e; exact readOp_lims l h
  | len => obtain ⟨o, h, _⟩ := e; exact lenOp_lims q l h
  | iter => obtain ⟨o, h, _⟩ := e; exact iterOp_lims l h
  | retain σ s f => obtain ⟨s', l', h, _⟩ := e; exact retainOp_lims q l h

/-! ## The other containers -/

theorem reserveOp_lims (q : PowMax c) {T : Tbl K V} (l : Lims c m T) (n : Nat) :
    Lims c m (reserveOp c T n).1 := by
  unfold reserveOp
  split
  · exact l
  · have hm := l.min
    have hf := l.floor
    have l1 : Lims c m { T with minCap := T.minCap + n } :=
      ⟨(by show T.minCap + n ≤ c.maxCap; omega), l.cap, (by show m ≤ T.minCap + n; omega), l.out, l.big⟩
    exact tryResize_lims q l1 0

theorem unreserveOp_lims (q : PowMax c) {T : Tbl K V} (l : Lims c m T) (n : Nat) (h : m ≤ T.minCap - n) :
    Lims c m (unreserveOp c T n) := by
  have hm := l.min
  have l1 : Lims c m { T with minCap := T.minCap - n } :=
    ⟨(by show T.minCap - n ≤ c.maxCap; omega), l.cap, h, l.out, l.big⟩
  exact tryShrink_lims q l1 0

theorem traverse_lims (q : PowMax c) {env : Nat → Env} {rm : Nat → Bool} {fuel n : Nat} {T : Tbl K V}
    {x : Option Cur} (l : Lims c m T) {r : Tbl K V × List (Pres K V)}
    (e : traverse c env rm fuel n T x = some r) : Lims c m r.1 := by
  induction fuel generalizing n T x r with
  | zero =>
    cases x with
    | none => unfold traverse at e; cases e; exact l
    | some x => cases e
  | succ fuel ih =>
    cases x with
    | none => unfold traverse at e; cases e; exact l
    | some x =>
      unfold traverse at e
      split at e
      · cases e
      · split at e
        · cases e
        · rename_i T1 r1 h1
          obtain ⟨z, h2, h3⟩ := Option.map_eq_some_iff.1 e
          cases h3
          have l1 : Lims c m T1 := by
            split at h1
            · obtain ⟨y, h4, h5⟩ := Option.map_eq_some_iff.1 h1
              cases h5
              exact removeAndOp_lims q l h4
            · exact nextOp_lims q l h1
          have := ih l1 h2
          exact this

/-- One operation of a `HashMap`, `HashSet` or `HashIndex`. -/
theorem exec_lims (q : PowMax c) {env : Env} {T T' : Tbl K V} {op : Op K V} {out : Out K V}
    (l : Lims c m T) (hu : ∀ n, op = .unreserve n → m ≤ T.minCap - n) (e : Exec c env T op out T') : Lims c m T' := by
  cases op with
  | modify k f =>
    obtain ⟨o, h, _⟩ := e
    unfold modifyOp at h
    split at h
    · cases h
    · rename_i T1 s i h1
      exact applyAt_lims q (writer_lims q l h1) h
  | alter k f =>
    obtain ⟨o, h, _⟩ := e
    unfold alterOp at h
    split at h
    · cases h
    · rename_i T1 h1; cases h; exact optWriter_lims l h1
    · rename_i T1 i h1
      exact applyAt_lims q (optWriter_lims l h1) h
  | read k => obtain ⟨o, h, _⟩ := e; exact readOp_lims l h
  | len => obtain ⟨o, h, _⟩ := e; exact lenOp_lims q l h
  | reserve n => obtain ⟨h, _⟩ := e; subst h; exact reserveOp_lims q l n
  | unreserve n => obtain ⟨h, _⟩ := e; subst h; exact unreserveOp_lims q l n (hu n rfl)
  | iter => obtain ⟨o, h, _⟩ := e; exact iterOp_lims l h
  | retain σ s f => obtain ⟨s', l', h, _⟩ := e; exact retainOp_lims q l h
  | walk ev rm =>
    obtain ⟨fuel, L, h, _⟩ := e
    unfold traversal at h
    split at h
    · cases h
    · rename_i T1 r h1
      have l1 : Lims c m T1 := by unfold beginOp at h1; exact seekFrom_lims l h1
      exact traverse_lims q l1 h

/-! ## Histories -/

theorem runs_lims (q : PowMax c) {T T' : Tbl K V} {h : List (Op K V × Out K V)} (l : Lims c 0 T)
    (r : Runs c T h T') : Lims c 0 T' := by
  induction r with
  | nil T => exact l
  | cons env hv e r ih => exact ih (exec_lims q l (fun n _ => Nat.zero_le _) e)

theorem runs_floor (q : PowMax c) {T T' : Tbl K V} {h : List (Op K V × Out K V)} (l : Lims c m T)
    (r : Runs c T h T') (hu : ∀ x ∈ h, ∀ n, x.1 ≠ .unreserve n) : Lims c m T' := by
  induction r with
  | nil T => exact l
  | cons env hv e r ih =>
    exact ih (exec_lims q l (fun n h => absurd h (hu _ (List.mem_cons_self ..) n)) e)
      fun x hx => hu x (List.mem_cons_of_mem _ hx)

theorem cacheRuns_lims (q : PowMax c) {T T' : Tbl K V} {h : List (CacheOp K V × CacheOut K V)}
    (l : Lims c m T) (r : CacheRuns c T h T') : Lims c m T' := by
  induction r with
  | nil T => exact l
  | cons env e r ih => exact ih (cacheExec_lims q l e)

/-- The capacity of a new container: 0 if nothing is asked for, and otherwise at least what is asked for,
up to `2^62`. -/
theorem withCapacity_lims (n : Nat) (h : c.maxCap = 2 ^ 62) :
    Lims c (Tbl.withCapacity n : Tbl K V).capacity (Tbl.withCapacity n : Tbl K V) := by
  obtain ⟨x1, x2⟩ := c06_new_capacity n
  unfold Tbl.withCapacity Tbl.capacity
  by_cases h0 : n = 0
  · rw [if_pos h0]
    exact ⟨Nat.zero_le _, (fun w h => by cases h), Nat.zero_le _, fun _ => rfl, fun w h => by cases h⟩
  · rw [if_neg h0]
    rw [← log2ArrayLen_spec] at x1
    refine ⟨by rw [h]; exact x1.2.2, ?_, Nat.le_refl _, (fun h => by cases h), ?_⟩
    · intro w hw
      cases hw
      rw [h]; exact x1
    · intro w hw
      cases hw
      exact Nat.le_refl _

end

end

/-- C06, for all histories of a `HashMap`, `HashSet` or `HashIndex` used by one thread: `capacity()` is 0
or a power of two between 64 and `2^62`; it is not 0 if there are entries; and if no reservation is
returned, it is never less than the capacity the container was created with, which is at least what was
asked for. -/
theorem c06_history [DecidableEq K] {c : Cfg K} (hk : c.maxCap = 2 ^ 62) (n : Nat)
    {h : List (Op K V × Out K V)} {T : Tbl K V} (r : Runs c (Tbl.withCapacity n) h T) :
    (T.capacity = 0 ∨ ValidCapacity (2 ^ 62) T.capacity) ∧
    (T.entries c ≠ [] → T.capacity ≠ 0) ∧
    ((∀ x ∈ h, ∀ k, x.1 ≠ .unreserve k) → (Tbl.withCapacity n : Tbl K V).capacity ≤ T.capacity) ∧
    (n ≤ 2 ^ 62 → n ≤ (Tbl.withCapacity n : Tbl K V).capacity) := by
  have q : PowMax c := ⟨62, by omega, by omega, hk⟩
  have l0 := withCapacity_lims (c := c) (V := V) n hk
  have l1 : Lims c 0 (Tbl.withCapacity n : Tbl K V) :=
    ⟨l0.min, l0.cap, Nat.zero_le _, fun _ => rfl, fun _ _ => Nat.zero_le _⟩
  have l2 := runs_lims q l1 r
  refine ⟨?_, ?_, ?_, ?_⟩
  · cases hT : T.arr with
    | none => exact Or.inl (capacity_none hT)
    | some w =>
      right
      have := l2.cap w hT
      rw [hk] at this
      rw [tbl_capacity hT]; exact this
  · intro h1 h2
    exact h1 (entries_none (cap_zero_arr h2))
  · intro hu
    have l3 := runs_floor q l0 r hu
    cases hT : T.arr with
    | none => rw [l3.out hT]; exact Nat.zero_le _
    | some w =>
      have := l3.big w hT
      rw [tbl_capacity hT]; exact this
  · intro hn
    unfold Tbl.withCapacity
    by_cases h0 : n = 0
    · rw [if_pos h0]; show n ≤ 0; omega
    · rw [if_neg h0]
      show n ≤ numSlots (2 ^ log2ArrayLen n)
      rw [log2ArrayLen_spec]
      exact (c06_new_capacity n).2 hn

/-- C06, for all histories of a `HashCache`, shrinking or not: `capacity()` is 0 or a power of two between
64 and the maximum capacity, and never less than the capacity the cache was created with. -/
theorem c06_cache_history [DecidableEq K] {hash : K → Nat} {minCap maxCap : Nat}
    {h : List (CacheOp K V × CacheOut K V)} {T : Tbl K V}
    (r : CacheRuns (cacheCfg hash minCap maxCap) (Tbl.withCapacity minCap) h T) :
    (T.capacity = 0 ∨ ValidCapacity (cacheWithCapacity minCap maxCap).2.2 T.capacity) ∧
    (T.entries (cacheCfg hash minCap maxCap) ≠ [] → T.capacity ≠ 0) ∧
    (cacheWithCapacity minCap maxCap).1 ≤ T.capacity := by
  have q : PowMax (cacheCfg hash minCap maxCap) := by
    obtain ⟨⟨E, h1, h2⟩, h3, _⟩ := c06_cache_limits minCap maxCap
    refine ⟨E, ?_, h2, h1⟩
    rw [h1] at h3
    exact (Nat.pow_le_pow_iff_right (a := 2) (by omega)).1 (by simpa using h3)
  have l0 : Lims (cacheCfg hash minCap maxCap) (cacheWithCapacity minCap maxCap).1
      (Tbl.withCapacity minCap : Tbl K V) := by
    obtain ⟨_, h3, h4, h5, _⟩ := c06_cache_limits minCap maxCap
    obtain ⟨⟨k, hk⟩, y2, y3⟩ := (c06_new_capacity minCap).1
    have e1 : (cacheWithCapacity minCap maxCap).1 = (mapWithCapacity minCap).1 := rfl
    rw [e1] at h4 ⊢
    unfold mapWithCapacity at h4 ⊢
    unfold Tbl.withCapacity
    by_cases h0 : minCap = 0
    · rw [if_pos h0, if_pos h0]
      exact ⟨Nat.zero_le _, (fun w h => by cases h), Nat.zero_le _, fun _ => rfl, fun w h => by cases h⟩
    · rw [if_neg h0] at h4
      rw [if_neg h0, if_neg h0]
      have e2 : numSlots (2 ^ log2ArrayLen minCap) = numSlots (arrayLen minCap) := by rw [log2ArrayLen_spec]
      refine ⟨?_, ?_, Nat.le_of_eq e2.symm, (fun h => by cases h), ?_⟩
      · show numSlots (2 ^ log2ArrayLen minCap) ≤ (cacheWithCapacity minCap maxCap).2.2
        rw [e2]; exact h4
      · intro w hw
        cases hw
        show ValidCapacity _ (numSlots (2 ^ log2ArrayLen minCap))
        rw [e2]; exact ⟨⟨k, hk⟩, y2, h4⟩
      · intro w hw
        cases hw
        exact Nat.le_of_eq e2.symm
  have l1 := cacheRuns_lims q l0 r
  refine ⟨?_, fun h1 h2 => h1 (entries_none (cap_zero_arr h2)), ?_⟩
  · cases hT : T.arr with
    | none => exact Or.inl (capacity_none hT)
    | some w => right; rw [tbl_capacity hT]; exact l1.cap w hT
  · cases hT : T.arr with
    | none => rw [l1.out hT]; exact Nat.zero_le _
    | some w => rw [tbl_capacity hT]; exact l1.big w hT

end Scc.Seq
