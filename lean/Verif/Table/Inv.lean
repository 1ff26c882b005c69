import Verif.Table.Model
import Verif.Index.Props
import Verif.Rehash.Props

/-!
# Invariants of the concurrent table: definitions and frame lemmas
-/

namespace Scc.Table

open Scc.Index (bucketIndex fromIndexToRange InRange)

variable {K V R : Type}

/-! ## Projections of updated states -/

section Proj
variable (s : St K V R) (t u : Nat) (p : PC K V R) (x y i j lo hi : Nat)

@[simp] theorem setPc_arr : (s.setPc t p).arr = s.arr := rfl
@[simp] theorem setPc_next : (s.setPc t p).next = s.next := rfl
@[simp] theorem setPc_cur : (s.setPc t p).cur = s.cur := rfl
@[simp] theorem setPc_rz : (s.setPc t p).rz = s.rz := rfl
@[simp] theorem setPc_b : (s.setPc t p).b = s.b := rfl
@[simp] theorem setPc_len : (s.setPc t p).len = s.len := rfl
@[simp] theorem setPc_rng : (s.setPc t p).rng = s.rng := rfl
@[simp] theorem setPc_self : (s.setPc t p).pc t = p := by simp [St.setPc]
theorem setPc_other (h : u ≠ t) : (s.setPc t p).pc u = s.pc u := by simp [St.setPc, h]

@[simp] theorem mapBkts_next (f) : (s.mapBkts x f).next = s.next := rfl
@[simp] theorem mapBkts_cur (f) : (s.mapBkts x f).cur = s.cur := rfl
@[simp] theorem mapBkts_rz (f) : (s.mapBkts x f).rz = s.rz := rfl
@[simp] theorem mapBkts_pc (f) : (s.mapBkts x f).pc = s.pc := rfl
@[simp] theorem mapBkts_lg (f) : ((s.mapBkts x f).arr y).lg = (s.arr y).lg := by
  unfold St.mapBkts St.setArr; simp only; split <;> simp_all
@[simp] theorem mapBkts_linked (f) : ((s.mapBkts x f).arr y).linked = (s.arr y).linked := by
  unfold St.mapBkts St.setArr; simp only; split <;> simp_all
@[simp] theorem mapBkts_rh (f) : ((s.mapBkts x f).arr y).rh = (s.arr y).rh := by
  unfold St.mapBkts St.setArr; simp only; split <;> simp_all
theorem mapBkts_b (f) : (s.mapBkts x f).b y i = if y = x then f i (s.b x i) else s.b y i := by
  unfold St.mapBkts St.setArr St.b; simp only; split <;> rfl

@[simp] theorem modBkt_next (f) : (s.modBkt x i f).next = s.next := rfl
@[simp] theorem modBkt_cur (f) : (s.modBkt x i f).cur = s.cur := rfl
@[simp] theorem modBkt_rz (f) : (s.modBkt x i f).rz = s.rz := rfl
@[simp] theorem modBkt_pc (f) : (s.modBkt x i f).pc = s.pc := rfl
@[simp] theorem modBkt_lg (f) : ((s.modBkt x i f).arr y).lg = (s.arr y).lg := mapBkts_lg ..
@[simp] theorem modBkt_linked (f) : ((s.modBkt x i f).arr y).linked = (s.arr y).linked :=
  mapBkts_linked ..
@[simp] theorem modBkt_rh (f) : ((s.modBkt x i f).arr y).rh = (s.arr y).rh := mapBkts_rh ..
theorem modBkt_b (f) :
    (s.modBkt x i f).b y j = if y = x ∧ j = i then f (s.b y j) else s.b y j := by
  unfold St.modBkt; rw [mapBkts_b]
  by_cases hy : y = x
  · subst hy; by_cases hj : j = i <;> simp [hj]
  · simp [hy]

@[simp] theorem setLock_next (l) : (s.setLock x i l).next = s.next := rfl
@[simp] theorem setLock_cur (l) : (s.setLock x i l).cur = s.cur := rfl
@[simp] theorem setLock_rz (l) : (s.setLock x i l).rz = s.rz := rfl
@[simp] theorem setLock_pc (l) : (s.setLock x i l).pc = s.pc := rfl
@[simp] theorem setLock_lg (l) : ((s.setLock x i l).arr y).lg = (s.arr y).lg := mapBkts_lg ..
@[simp] theorem setLock_linked (l) : ((s.setLock x i l).arr y).linked = (s.arr y).linked :=
  mapBkts_linked ..
@[simp] theorem setLock_rh (l) : ((s.setLock x i l).arr y).rh = (s.arr y).rh := mapBkts_rh ..
theorem setLock_b (l) :
    (s.setLock x i l).b y j = if y = x ∧ j = i then (s.b y j).setLock l else s.b y j :=
  modBkt_b ..
@[simp] theorem setLock_content (l) : ((s.setLock x i l).b y j).content = (s.b y j).content := by
  rw [setLock_b]; split <;> rfl
@[simp] theorem setLock_dead (l) : ((s.setLock x i l).b y j).dead = (s.b y j).dead := by
  rw [setLock_b]; split <;> rfl
theorem setLock_lock (l) :
    ((s.setLock x i l).b y j).lock = if y = x ∧ j = i then l else (s.b y j).lock := by
  rw [setLock_b]; split <;> rfl

@[simp] theorem setLocks_next (l) : (s.setLocks x lo hi l).next = s.next := rfl
@[simp] theorem setLocks_cur (l) : (s.setLocks x lo hi l).cur = s.cur := rfl
@[simp] theorem setLocks_rz (l) : (s.setLocks x lo hi l).rz = s.rz := rfl
@[simp] theorem setLocks_pc (l) : (s.setLocks x lo hi l).pc = s.pc := rfl
@[simp] theorem setLocks_lg (l) : ((s.setLocks x lo hi l).arr y).lg = (s.arr y).lg := mapBkts_lg ..
@[simp] theorem setLocks_linked (l) :
    ((s.setLocks x lo hi l).arr y).linked = (s.arr y).linked := mapBkts_linked ..
@[simp] theorem setLocks_rh (l) : ((s.setLocks x lo hi l).arr y).rh = (s.arr y).rh := mapBkts_rh ..
theorem setLocks_b (l) :
    (s.setLocks x lo hi l).b y j =
      if y = x ∧ lo ≤ j ∧ j < hi then (s.b y j).setLock l else s.b y j := by
  unfold St.setLocks; rw [mapBkts_b]
  by_cases hy : y = x
  · subst hy; simp
  · simp [hy]
@[simp] theorem setLocks_content (l) :
    ((s.setLocks x lo hi l).b y j).content = (s.b y j).content := by
  rw [setLocks_b]; split <;> rfl
@[simp] theorem setLocks_dead (l) : ((s.setLocks x lo hi l).b y j).dead = (s.b y j).dead := by
  rw [setLocks_b]; split <;> rfl
theorem setLocks_lock (l) :
    ((s.setLocks x lo hi l).b y j).lock =
      if y = x ∧ lo ≤ j ∧ j < hi then l else (s.b y j).lock := by
  rw [setLocks_b]; split <;> rfl

@[simp] theorem killBkt_next : (s.killBkt x i).next = s.next := rfl
@[simp] theorem killBkt_cur : (s.killBkt x i).cur = s.cur := rfl
@[simp] theorem killBkt_rz : (s.killBkt x i).rz = s.rz := rfl
@[simp] theorem killBkt_pc : (s.killBkt x i).pc = s.pc := rfl
@[simp] theorem killBkt_lg : ((s.killBkt x i).arr y).lg = (s.arr y).lg := by
  unfold St.killBkt; simp only [St.setArr]; split
  · subst_vars; exact modBkt_lg ..
  · exact modBkt_lg ..
@[simp] theorem killBkt_linked : ((s.killBkt x i).arr y).linked = (s.arr y).linked := by
  unfold St.killBkt; simp only [St.setArr]; split
  · subst_vars; exact modBkt_linked ..
  · exact modBkt_linked ..
theorem killBkt_rh : ((s.killBkt x i).arr y).rh =
    if y = x then { (s.arr x).rh with done := fun z => z = i || (s.arr x).rh.done z }
    else (s.arr y).rh := by
  unfold St.killBkt; simp only [St.setArr]; split
  · rfl
  · exact modBkt_rh ..
theorem killBkt_b : (s.killBkt x i).b y j =
    if y = x ∧ j = i then { s.b y j with dead := true, lock := none } else s.b y j := by
  have : (s.killBkt x i).b y j =
      (s.modBkt x i (fun b => { b with dead := true, lock := none })).b y j := by
    unfold St.killBkt; simp only [St.setArr, St.b]; split
    · subst_vars; rfl
    · rfl
  rw [this]; exact modBkt_b ..
@[simp] theorem killBkt_content : ((s.killBkt x i).b y j).content = (s.b y j).content := by
  rw [killBkt_b]; split <;> rfl
theorem killBkt_dead : ((s.killBkt x i).b y j).dead =
    if y = x ∧ j = i then true else (s.b y j).dead := by
  rw [killBkt_b]; split <;> rfl
theorem killBkt_lock : ((s.killBkt x i).b y j).lock =
    if y = x ∧ j = i then none else (s.b y j).lock := by
  rw [killBkt_b]; split <;> rfl

end Proj

/-! ## The invariant -/

variable (hash : K → Nat)

/-- Bucket of key `k` in array `x`. -/
def St.ix (s : St K V R) (x : Nat) (k : K) : Nat := bucketIndex (s.arr x).lg (hash k)

/-- Value of key `k` stored in array `x`. -/
def St.val (s : St K V R) (x : Nat) (k : K) : Option V := (s.b x (s.ix hash x k)).content k

/-- Facts about the shared state. -/
structure Glob (s : St K V R) : Prop where
  cur_last : ∀ c, s.cur = some c → c + 1 = s.next
  linked_lt : ∀ x y, (s.arr x).linked = some y → x < s.next
  linked_pred : ∀ x y, x < s.next → (s.arr x).linked = some y → x = y + 1
  linked_one : ∀ x, x < s.next → ∀ y, (s.arr x).linked = some y → (s.arr y).linked = none
  lg_le : ∀ x, x < s.next → (s.arr x).lg ≤ 57
  placed : ∀ x i k, (s.b x i).content k ≠ none → i = s.ix hash x k ∧ x < s.next
  dead_empty : ∀ x i, (s.b x i).dead = true → (s.b x i).isEmpty ∧ (s.b x i).lock = none
  live : ∀ x i, x < s.next → i < s.len x → (s.b x i).dead = false →
    s.cur = some x ∨ (s.cur = some (x + 1) ∧ (s.arr (x + 1)).linked = some x) ∨
      ∃ t, (s.b x i).lock = some (.kill t)
  drop_empty : ∀ x i t, (s.b x i).lock = some (.drop t) ∨ (s.b x i).lock = some (.kill t) →
    (s.b x i).isEmpty
  fresh : ∀ o j k, s.cur = some (o + 1) → (s.arr (o + 1)).linked = some o → j < s.len o →
    (s.b o j).dead = false → (∀ t, (s.b o j).lock ≠ some (.moving t)) → s.ix hash o k = j →
    s.val hash (o + 1) k = none
  excl : ∀ o k, s.cur = some (o + 1) → (s.arr (o + 1)).linked = some o →
    s.val hash o k ≠ none → s.val hash (o + 1) k = none
  rh_ok : ∀ x, x < s.next → Rehash.Reachable (s.len x) (s.arr x).rh
  rh_done : ∀ x i, i < s.len x → (s.arr x).rh.done i = true → (s.b x i).dead = true
  cur_old_live : ∀ x i t, (s.b x i).lock = some (.kill t) → s.cur ≠ some x
  cur_live : ∀ a i, s.cur = some a → i < s.len a → (s.b a i).dead = false

/-- Old buckets that may hold keys of bucket `i` of array `a` have been killed. -/
def Passed (s : St K V R) (a i : Nat) : Prop :=
  ∀ o, (s.arr a).linked = some o → ∀ j, InRange (s.rng a o i) j → (s.b o j).dead = true

/-- Locks of targets held by a relocation. -/
def HeldTargets (s : St K V R) (t a lo hi : Nat) : Prop :=
  ∀ i, lo ≤ i → i < hi → (s.b a i).lock = some (.reloc t) ∧ (s.b a i).dead = false

/-- What a goal knows: a traversal position is inside the array it refers to. -/
def GoalOk (s : St K V R) (a : Nat) : Goal K V R → Prop
  | .op _ => True
  | .tv _ i p _ => p = s.len a ∧ i < s.len a

/-- What holds between bucket accesses of a traversal. -/
def StartOk : Goal K V R → Prop
  | .op _ => True
  | .tv _ i p _ => (p = 0 ∧ i = 0) ∨ ∃ l, l ≤ 57 ∧ p = 2 ^ l ∧ i < p

/-- The progress of a de-duplication. -/
def DedupOk (s : St K V R) (g : Goal K V R) (a o j : Nat) : Prop :=
  a < s.next ∧ GoalOk s a g ∧ a = o + 1 ∧
    (((s.arr a).linked = none ∧ ∀ j', j' < s.len o → (s.b o j').dead = true) ∨
      ((s.arr a).linked = some o ∧
      ∀ j', InRange (s.rng a o (g.idx hash (s.arr a).lg)) j' → j' < j → (s.b o j').dead = true))

def ContOk (s : St K V R) (a o j : Nat) : Cont K V R → Prop
  | .ded g => DedupOk hash s g a o j ∧ j < (s.rng a o (g.idx hash (s.arr a).lg)).2
  | .help => a < s.next ∧ j < s.len o

/-- What each program counter knows. -/
def PcOk (s : St K V R) (t : Nat) : PC K V R → Prop
  | .idle | .done _ | .tvDone _ _ | .emDone _ => True
  | .start g => StartOk g
  | .loaded g a => a < s.next ∧ GoalOk s a g
  | .dedup g a o j => DedupOk hash s g a o j
  | .wait g a => a < s.next ∧ GoalOk s a g ∧ Passed s a (g.idx hash (s.arr a).lg)
  | .crit g a => a < s.next ∧ GoalOk s a g ∧ Passed s a (g.idx hash (s.arr a).lg) ∧
      (s.b a (g.idx hash (s.arr a).lg)).lock = some (.user t) ∧
      (s.b a (g.idx hash (s.arr a).lg)).dead = false
  | .fin o a _ => a < s.next ∧ (s.b a (s.ix hash a o.key)).lock = some (.user t)
  | .swept u i p seen a => a < s.next ∧ GoalOk (R := R) s a (.tv u i p seen) ∧
      (s.b a i).lock = some (.user t)
  | .rlLock c a o j n => ContOk hash s a o j c ∧ (s.arr a).linked = some o ∧ j < s.len o ∧
      (s.b o j).lock = some (.reloc t) ∧ (s.b o j).dead = false ∧
      (s.rng o a j).1 ≤ n ∧ n ≤ (s.rng o a j).2 ∧ HeldTargets s t a (s.rng o a j).1 n
  | .rlMove c a o j => ContOk hash s a o j c ∧ (s.arr a).linked = some o ∧ j < s.len o ∧
      (s.b o j).lock = some (.moving t) ∧ (s.b o j).dead = false ∧
      HeldTargets s t a (s.rng o a j).1 (s.rng o a j).2
  | .rlKill c a o j => ContOk hash s a o j c ∧ (s.arr a).linked = some o ∧ j < s.len o ∧
      (s.b o j).lock = some (.moving t) ∧ (s.b o j).dead = false ∧ (s.b o j).isEmpty
  | .hl a => a < s.next
  | .help a o => a < s.next ∧ a = o + 1 ∧
      (((s.arr a).linked = none ∧ ∀ j, j < s.len o → (s.b o j).dead = true) ∨
        (s.arr a).linked = some o)
  | .rzLoad a => a < s.next
  | .rzTry a => a < s.next ∧ (s.arr a).linked = none
  | .rzLocked a => a < s.next ∧ (s.arr a).linked = none ∧ s.rz = some t
  | .rzChecked a => a < s.next ∧ (s.arr a).linked = none ∧ s.rz = some t ∧ s.cur = some a
  | .rzDone => s.rz = some t
  | .rzDrop a i => a < s.next ∧ (s.arr a).linked = none ∧ s.rz = some t ∧ s.cur = some a ∧
      i ≤ s.len a ∧ ∀ j, j < i → (s.b a j).lock = some (.drop t) ∧ (s.b a j).dead = false
  | .rzKill a i => a < s.next ∧ s.rz = some t ∧
      ∀ j, i ≤ j → j < s.len a → (s.b a j).lock = some (.kill t) ∧ (s.b a j).dead = false
  | .em1 a => a < s.next
  | .em2 a o _ => a < s.next ∧ a = o + 1
  | .em3 a _ => a < s.next

/-- The invariant. -/
structure Inv (s : St K V R) : Prop where
  glob : Glob hash s
  pc : ∀ t, PcOk hash s t (s.pc t)

/-! ## Interference -/

/-- What thread `t` may rely on when somebody else takes a step. -/
structure Rely (t : Nat) (s s' : St K V R) : Prop where
  next : s.next ≤ s'.next
  lg : ∀ x, x < s.next → (s'.arr x).lg = (s.arr x).lg
  linked : ∀ x, x < s.next → (s'.arr x).linked = (s.arr x).linked ∨
    ((s'.arr x).linked = none ∧ ∀ o, (s.arr x).linked = some o → ∀ j, j < s.len o →
      (s.b o j).dead = true)
  dead : ∀ x i, x < s.next → (s.b x i).dead = true → (s'.b x i).dead = true
  owned : ∀ x i l, x < s.next → (s.b x i).lock = some l → l.owner = some t → s'.b x i = s.b x i
  rz : s.rz = some t → s'.rz = some t
  cur : s.rz = some t → ∀ a, s.cur = some a → s'.cur = some a

variable {hash}

theorem Rely.len {t x : Nat} {s s' : St K V R} (h : Rely t s s') (hx : x < s.next) :
    s'.len x = s.len x := by unfold St.len; rw [h.lg x hx]

theorem Rely.rng {t x y i : Nat} {s s' : St K V R} (h : Rely t s s') (hx : x < s.next)
    (hy : y < s.next) : s'.rng x y i = s.rng x y i := by
  unfold St.rng; rw [h.len hx, h.len hy]

theorem Rely.goalOk {t a : Nat} {s s' : St K V R} (h : Rely t s s') (ha : a < s.next)
    {g : Goal K V R} (hg : GoalOk s a g) : GoalOk s' a g := by
  cases g with
  | op _ => trivial
  | tv _ i p _ => unfold GoalOk at *; rw [h.len ha]; exact hg

theorem Rely.passed {t a i : Nat} {s s' : St K V R} (h : Rely t s s') (hG : Glob hash s)
    (ha : a < s.next) (hp : Passed s a i) : Passed s' a i := by
  intro o ho j hj
  rcases h.linked a ha with hl | ⟨hl, _⟩
  · rw [hl] at ho
    have := hG.linked_pred a o ha ho
    rw [h.rng ha (by omega)] at hj
    exact h.dead o j (by omega) (hp o ho j hj)
  · rw [hl] at ho; cases ho

theorem Rely.dedupOk {t a o j : Nat} {s s' : St K V R} (h : Rely t s s')
    {g : Goal K V R} (hd : DedupOk hash s g a o j) : DedupOk hash s' g a o j := by
  obtain ⟨ha, hg, hao, hl⟩ := hd
  have := h.next
  have ho : o < s.next := by omega
  refine ⟨by omega, h.goalOk ha hg, hao, ?_⟩
  rcases hl with ⟨hl, hall⟩ | ⟨hl, hd⟩
  · left
    refine ⟨?_, ?_⟩
    · rcases h.linked a ha with hl' | ⟨hl', _⟩
      · rw [hl', hl]
      · exact hl'
    · rw [h.len ho]; intro j' hj'; exact h.dead o j' ho (hall j' hj')
  · rcases h.linked a ha with hl' | ⟨hl', hall⟩
    · right
      refine ⟨by rw [hl', hl], ?_⟩
      rw [h.rng ha ho, h.lg a ha]
      intro j' hj' hlt
      exact h.dead o j' ho (hd j' hj' hlt)
    · left
      refine ⟨hl', ?_⟩
      rw [h.len ho]; intro j' hj'; exact h.dead o j' ho (hall o hl j' hj')

theorem Rely.contOk {t a o j : Nat} {s s' : St K V R} (h : Rely t s s')
    {c : Cont K V R} (ho : o < s.next) (hc : ContOk hash s a o j c) : ContOk hash s' a o j c := by
  cases c with
  | ded g =>
    refine ⟨h.dedupOk hc.1, ?_⟩
    have ha := hc.1.1
    have := hc.2
    rw [h.rng ha ho, h.lg a ha]; exact this
  | help =>
    have := h.next
    refine ⟨by have := hc.1; omega, ?_⟩
    rw [h.len ho]; exact hc.2

theorem ContOk.lt {s : St K V R} {a o j : Nat} {c : Cont K V R} (h : ContOk hash s a o j c) :
    a < s.next := by
  cases c with
  | ded g => exact h.1.1
  | help => exact h.1

theorem Rely.held {t a lo hi : Nat} {s s' : St K V R} (h : Rely t s s') (ha : a < s.next)
    (hh : HeldTargets s t a lo hi) : HeldTargets s' t a lo hi := by
  intro i h1 h2
  have := hh i h1 h2
  rw [h.owned a i _ ha this.1 rfl]
  exact this

/-- The link of an array cannot disappear while a bucket of the old array is alive. -/
theorem Rely.linked_stays {t a o j : Nat} {s s' : St K V R} (h : Rely t s s') (ha : a < s.next)
    (hl : (s.arr a).linked = some o) (hj : j < s.len o) (hd : (s.b o j).dead = false) :
    (s'.arr a).linked = some o := by
  rcases h.linked a ha with hl' | ⟨_, hall⟩
  · rw [hl', hl]
  · have := hall o hl j hj
    rw [hd] at this; cases this

theorem Rely.pcOk {t : Nat} {s s' : St K V R} (h : Rely t s s') (hG : Glob hash s) {p : PC K V R}
    (hp : PcOk hash s t p) : PcOk hash s' t p := by
  have hn := h.next
  cases p with
  | idle => trivial
  | done _ => trivial
  | tvDone _ _ => trivial
  | emDone _ => trivial
  | start g => exact hp
  | loaded g a => exact ⟨by have := hp.1; omega, h.goalOk hp.1 hp.2⟩
  | dedup g a o j => exact h.dedupOk hp
  | wait g a =>
    have ha := hp.1
    refine ⟨by omega, h.goalOk ha hp.2.1, ?_⟩
    rw [h.lg a ha]; exact h.passed hG ha hp.2.2
  | crit g a =>
    obtain ⟨ha, hg, hpa, hl, hd⟩ := hp
    have hb := h.owned a _ _ ha hl rfl
    refine ⟨by omega, h.goalOk ha hg, ?_, ?_, ?_⟩
    · rw [h.lg a ha]; exact h.passed hG ha hpa
    · rw [h.lg a ha, hb]; exact hl
    · rw [h.lg a ha, hb]; exact hd
  | fin o a r =>
    obtain ⟨ha, hl⟩ := hp
    have hb := h.owned a _ _ ha hl rfl
    refine ⟨by omega, ?_⟩
    unfold St.ix at *
    rw [h.lg a ha, hb]; exact hl
  | swept u i p seen a =>
    obtain ⟨ha, hg, hl⟩ := hp
    have hb := h.owned a _ _ ha hl rfl
    exact ⟨by omega, h.goalOk ha hg, by rw [hb]; exact hl⟩
  | rlLock c a o j n =>
    obtain ⟨hc, hlk, hj, hl, hd, h1, h2, hh⟩ := hp
    have ha := hc.lt
    have hpr := hG.linked_pred a o ha hlk
    have ho : o < s.next := by omega
    have hb := h.owned o j _ ho hl rfl
    simp only [PcOk]
    rw [h.rng ho ha, h.len ho, hb]
    exact ⟨h.contOk ho hc, h.linked_stays ha hlk hj hd, hj, hl, hd, h1, h2, h.held ha hh⟩
  | rlMove c a o j =>
    obtain ⟨hc, hlk, hj, hl, hd, hh⟩ := hp
    have ha := hc.lt
    have hpr := hG.linked_pred a o ha hlk
    have ho : o < s.next := by omega
    have hb := h.owned o j _ ho hl rfl
    simp only [PcOk]
    rw [h.rng ho ha, h.len ho, hb]
    exact ⟨h.contOk ho hc, h.linked_stays ha hlk hj hd, hj, hl, hd, h.held ha hh⟩
  | rlKill c a o j =>
    obtain ⟨hc, hlk, hj, hl, hd, he⟩ := hp
    have ha := hc.lt
    have hpr := hG.linked_pred a o ha hlk
    have ho : o < s.next := by omega
    have hb := h.owned o j _ ho hl rfl
    simp only [PcOk]
    rw [h.len ho, hb]
    exact ⟨h.contOk ho hc, h.linked_stays ha hlk hj hd, hj, hl, hd, he⟩
  | hl a => unfold PcOk at *; omega
  | help a o =>
    obtain ⟨ha, hao, hl⟩ := hp
    have ho : o < s.next := by omega
    refine ⟨by omega, hao, ?_⟩
    rw [h.len ho]
    rcases hl with ⟨hl, hall⟩ | hl
    · left
      refine ⟨?_, fun j hj => h.dead o j ho (hall j hj)⟩
      rcases h.linked a ha with hl' | ⟨hl', _⟩
      · rw [hl', hl]
      · exact hl'
    · rcases h.linked a ha with hl' | ⟨hl', hall⟩
      · right; rw [hl', hl]
      · left; exact ⟨hl', fun j hj => h.dead o j ho (hall o hl j hj)⟩
  | rzLoad a => unfold PcOk at *; omega
  | rzTry a =>
    obtain ⟨ha, hl⟩ := hp
    refine ⟨by omega, ?_⟩
    rcases h.linked a ha with hl' | ⟨hl', _⟩
    · rw [hl', hl]
    · exact hl'
  | rzLocked a =>
    obtain ⟨ha, hl, hr⟩ := hp
    refine ⟨by omega, ?_, h.rz hr⟩
    rcases h.linked a ha with hl' | ⟨hl', _⟩
    · rw [hl', hl]
    · exact hl'
  | rzChecked a =>
    obtain ⟨ha, hl, hr, hcur⟩ := hp
    refine ⟨by omega, ?_, h.rz hr, h.cur hr a hcur⟩
    rcases h.linked a ha with hl' | ⟨hl', _⟩
    · rw [hl', hl]
    · exact hl'
  | rzDone => exact h.rz hp
  | rzDrop a i =>
    obtain ⟨ha, hl, hr, hcur, hi, hk⟩ := hp
    refine ⟨by omega, ?_, h.rz hr, h.cur hr a hcur, by rw [h.len ha]; exact hi, ?_⟩
    · rcases h.linked a ha with hl' | ⟨hl', _⟩
      · rw [hl', hl]
      · exact hl'
    · intro j hj
      rw [h.owned a j _ ha (hk j hj).1 rfl]; exact hk j hj
  | rzKill a i =>
    obtain ⟨ha, hr, hk⟩ := hp
    refine ⟨by omega, h.rz hr, ?_⟩
    rw [h.len ha]
    intro j h1 h2
    rw [h.owned a j _ ha (hk j h1 h2).1 rfl]; exact hk j h1 h2
  | em1 a => unfold PcOk at *; omega
  | em2 a _ _ => unfold PcOk at *; omega
  | em3 a _ => unfold PcOk at *; omega

/-- Preservation splits into the shared facts, the new knowledge of the acting thread, and
non-interference with the others. -/
theorem inv_of {s s' : St K V R} (t : Nat) (h : Inv hash s) (hG : Glob hash s')
    (hp : PcOk hash s' t (s'.pc t)) (hr : ∀ u, u ≠ t → s'.pc u = s.pc u)
    (hrely : ∀ u, u ≠ t → Rely u s s') : Inv hash s' := by
  refine ⟨hG, ?_⟩
  intro u
  by_cases hu : u = t
  · subst hu; exact hp
  · rw [hr u hu]; exact (hrely u hu).pcOk h.glob (h.pc u)

/-- A step that changes only the program counter. -/
theorem inv_pc {s : St K V R} (t : Nat) {p : PC K V R} (h : Inv hash s)
    (hp : PcOk hash s t p) : Inv hash (s.setPc t p) := by
  have hG : Glob hash (s.setPc t p) := by
    have := h.glob
    exact ⟨this.cur_last, this.linked_lt, this.linked_pred, this.linked_one, this.lg_le, this.placed,
      this.dead_empty, this.live, this.drop_empty, this.fresh, this.excl, this.rh_ok, this.rh_done,
      this.cur_old_live, this.cur_live⟩
  refine inv_of t h hG ?_ (fun u hu => setPc_other s t u p hu) ?_
  · rw [setPc_self]
    have hr : Rely t s (s.setPc t p) :=
      ⟨Nat.le_refl _, fun _ _ => rfl, fun _ _ => Or.inl rfl, fun _ _ _ h => h, fun _ _ _ _ _ _ => rfl,
        fun h => h, fun _ _ h => h⟩
    exact hr.pcOk h.glob hp
  · intro u _
    exact ⟨Nat.le_refl _, fun _ _ => rfl, fun _ _ => Or.inl rfl, fun _ _ _ h => h,
      fun _ _ _ _ _ _ => rfl, fun h => h, fun _ _ h => h⟩

end Scc.Table
