import Verif.Table.Wait

/-!
# Threads that do not wait make progress

Each program counter has a rank. A thread that does not wait has an enabled step that lowers its rank,
or it is moving entries and has one to move.
-/

namespace Scc.Table

open Scc.Index (bucketIndex fromIndexToRange InRange)

variable {K V R : Type} {hash : K → Nat}

/-- How many of the first `n` flags are off. -/
def offs (f : Nat → Bool) : Nat → Nat
  | 0 => 0
  | n + 1 => offs f n + if f n then 0 else 1

theorem offs_le (f : Nat → Bool) (n : Nat) : offs f n ≤ n := by
  induction n with
  | zero => exact Nat.le_refl _
  | succ n ih => unfold offs; split <;> omega

theorem offs_congr {f g : Nat → Bool} {n : Nat} (h : ∀ i, i < n → f i = g i) :
    offs f n = offs g n := by
  induction n with
  | zero => rfl
  | succ n ih =>
    unfold offs
    rw [ih (fun i hi => h i (by omega)), h n (by omega)]

theorem offs_set {f g : Nat → Bool} {n j : Nat} (hj : j < n) (hf : f j = false) (hg : g j = true)
    (h : ∀ i, i ≠ j → g i = f i) : offs g n + 1 = offs f n := by
  induction n with
  | zero => omega
  | succ n ih =>
    unfold offs
    by_cases hn : j = n
    · subst hn
      rw [hf, hg, offs_congr (fun i hi => h i (by omega))]
      simp
    · have := ih (by omega)
      rw [h n (fun e => hn e.symm)]
      omega

theorem offs_mono {f g : Nat → Bool} {n : Nat} (h : ∀ i, f i = true → g i = true) :
    offs g n ≤ offs f n := by
  induction n with
  | zero => exact Nat.le_refl _
  | succ n ih =>
    unfold offs
    have := h n
    cases hf : f n <;> cases hg : g n <;> simp_all <;> omega

/-- Buckets of array `x` that are not killed. -/
def St.alive (s : St K V R) (x : Nat) : Nat := offs (fun j => (s.b x j).dead) (s.len x)

variable (M : Nat)

/-! Ranks, for arrays of fewer than `M` buckets. -/

/-- Rank range of the treatment of one old bucket. -/
def wDed : Nat := M + 8

/-- Rank range of one bucket access. -/
def wAcc : Nat := M * wDed M + 8

/-- Rank range of a whole operation on one array. -/
def wOp : Nat := (M + 1) * wAcc M

/-- Accesses still to do. -/
def Goal.todo (n : Nat) : Goal K V R → Nat
  | .op _ => 0
  | .tv _ i _ _ => n - i

/-- Rank of an access to array `a` at phase `p`: lower is closer to the end. An outdated array has to
be given up first. -/
def accRank (len : Nat → Nat) (cur : Option Nat) (a : Nat) (g : Goal K V R) (p : Nat) : Nat :=
  (if cur = some a then 0 else 2 * wOp M) + (g.todo (len a) * wAcc M + p)

/-- Rank of a relocation at phase `p`. -/
def relRank (len : Nat → Nat) (cur : Option Nat) (al : Nat → Nat) (a o j p : Nat) : Cont K V R → Nat
  | .ded g => accRank M len cur a g (5 + (len o - (j + 1)) * wDed M + p)
  | .help => 5 + (al o - 1) * wDed M + p

/-- The rank of a program counter. -/
def rk (len : Nat → Nat) (cur : Option Nat) (al : Nat → Nat) : PC K V R → Nat
  | .idle => 0
  | .start _ => wOp M
  | .loaded g a => accRank M len cur a g (6 + M * wDed M)
  | .dedup g a o j => accRank M len cur a g (5 + (len o - j) * wDed M)
  | .wait g a => accRank M len cur a g 4
  | .crit g a => accRank M len cur a g 3
  | .fin o a _ => accRank M len cur a (.op o : Goal K V R) 2
  | .swept u i p seen a => accRank M len cur a (.tv u i p seen : Goal K V R) 2
  | .done _ | .tvDone _ _ | .emDone _ => 1
  | .rlLock c a o j n => relRank M len cur al a o j (3 + (M - n)) c
  | .rlMove c a o j => relRank M len cur al a o j 2 c
  | .rlKill c a o j => relRank M len cur al a o j 1 c
  | .hl _ => 6 + M * wDed M
  | .help _ o => 5 + al o * wDed M
  | .rzLoad _ => 6
  | .rzTry _ => 5
  | .rzLocked _ => 4
  | .rzChecked _ | .rzDrop _ _ => 3
  | .rzKill a i => 3 + (len a - i)
  | .rzDone => 2
  | .em1 _ => 4 + 2 * M
  | .em2 _ o i => 3 + M + (len o - i)
  | .em3 a i => 2 + (len a - i)

/-- The rank of a thread. -/
def St.rank (s : St K V R) (t : Nat) : Nat := rk M s.len s.cur s.alive (s.pc t)

/-- The steps a thread takes on its own account: internal ones and returning. Dropping a future or
starting a call is not among them. -/
def Ordinary (t : Nat) (e : Option (Event K V R)) : Prop :=
  e = none ∨ (∃ r, e = some (.ret t r)) ∨ ∃ x, e = some (.tvRet t x)

/-- Thread `t` can take a step that lowers its rank or moves an entry to the new array. Nobody's rank
grows. -/
def CanAdvance [DecidableEq K] (hash : K → Nat) (s : St K V R) (t : Nat) : Prop :=
  ∃ e s', Step hash s e s' ∧ Ordinary t e ∧
    (∀ u, u ≠ t → s'.pc u = s.pc u ∧ s'.rank M u ≤ s.rank M u) ∧
    (s'.rank M t < s.rank M t ∨ (s'.pc = s.pc ∧ ∃ c a o j k, s.pc t = .rlMove c a o j ∧
      (s.b o j).content k ≠ none ∧
      ∀ k', (s'.b o j).content k' = if k' = k then none else (s.b o j).content k'))

variable {M}

theorem todo_le {len : Nat → Nat} {a : Nat} (h : len a ≤ M) (g : Goal K V R) :
    g.todo (len a) ≤ M := by
  cases g <;> simp only [Goal.todo] <;> omega

theorem accRank_lt {len : Nat → Nat} {cur : Option Nat} {a : Nat} {g : Goal K V R} {p q : Nat}
    (h : p < q) : accRank M len cur a g p < accRank M len cur a g q := by
  unfold accRank; omega

theorem accRank_cur {len : Nat → Nat} {a : Nat} {g : Goal K V R} {p : Nat} (h : len a ≤ M)
    (hp : p < wAcc M) : accRank M len (some a) a g p < wOp M := by
  unfold accRank wOp
  rw [if_pos rfl]
  have := Nat.mul_le_mul_right (wAcc M) (todo_le h g)
  rw [Nat.add_mul]
  omega

theorem accRank_ge {len : Nat → Nat} {cur : Option Nat} {a : Nat} {g : Goal K V R} {p : Nat} :
    p ≤ accRank M len cur a g p := by unfold accRank; omega

/-- Ranks depend only on arrays that exist, and on how many of their buckets are alive. -/
theorem rk_mono {s : St K V R} (hG : Glob hash s) {len len' : Nat → Nat} {cur cur' : Option Nat}
    {al al' : Nat → Nat} {t : Nat} {p : PC K V R} (hp : PcOk hash s t p)
    (h1 : ∀ x, x < s.next → len' x = len x)
    (h2 : ∀ x, x < s.next → (cur' = some x ↔ cur = some x)) (h3 : ∀ x, x < s.next → al' x ≤ al x) :
    rk M len' cur' al' p ≤ rk M len cur al p := by
  have acc : ∀ {a : Nat} {g : Goal K V R} {n : Nat}, a < s.next →
      accRank M len' cur' a g n = accRank M len cur a g n := by
    intro a g n ha
    unfold accRank
    rw [h1 a ha]
    simp only [h2 a ha]
  have rel : ∀ {c : Cont K V R} {a o j n : Nat}, ContOk hash s a o j c → (s.arr a).linked = some o →
      relRank M len' cur' al' a o j n c ≤ relRank M len cur al a o j n c := by
    intro c a o j n hc hl
    have ha := hc.lt
    have hpr := hG.linked_pred a o ha hl
    have ho : o < s.next := by omega
    cases c with
    | ded g => simp only [relRank]; rw [acc ha, h1 o ho]; exact Nat.le_refl _
    | help =>
      simp only [relRank]
      have : (al' o - 1) * wDed M ≤ (al o - 1) * wDed M :=
        Nat.mul_le_mul_right _ (by have := h3 o ho; omega)
      omega
  cases p with
  | loaded g a => simp only [rk]; rw [acc hp.1]; exact Nat.le_refl _
  | dedup g a o j =>
    have ha := hp.1
    have := hp.2.2.1
    simp only [rk]; rw [acc hp.1, h1 o (by omega)]; exact Nat.le_refl _
  | wait g a => simp only [rk]; rw [acc hp.1]; exact Nat.le_refl _
  | crit g a => simp only [rk]; rw [acc hp.1]; exact Nat.le_refl _
  | fin o a r => simp only [rk]; rw [acc hp.1]; exact Nat.le_refl _
  | swept u i p seen a => simp only [rk]; rw [acc hp.1]; exact Nat.le_refl _
  | rlLock c a o j n => exact rel hp.1 hp.2.1
  | rlMove c a o j => exact rel hp.1 hp.2.1
  | rlKill c a o j => exact rel hp.1 hp.2.1
  | help a o =>
    have ha := hp.1
    have := hp.2.1
    have h3 := h3 o (by omega)
    simp only [rk]
    have : al' o * wDed M ≤ al o * wDed M := Nat.mul_le_mul_right _ h3
    omega
  | rzKill a i => simp only [rk]; rw [h1 a hp.1]; exact Nat.le_refl _
  | em2 a o i =>
    have ha := hp.1
    have := hp.2
    simp only [rk]; rw [h1 o (by omega)]; exact Nat.le_refl _
  | em3 a i => simp only [rk]; rw [h1 a hp]; exact Nat.le_refl _
  | _ => exact Nat.le_refl _

theorem wOp_pos : 1 < wOp M := by
  have : 8 ≤ wAcc M := by unfold wAcc; omega
  unfold wOp
  rw [Nat.add_mul]; omega

/-- **A thread inside an operation that does not wait can advance.** -/
theorem can_advance [DecidableEq K] (hh : ∀ k, hash k < 2 ^ 64) {s : St K V R} (hI : Inv hash s)
    (hM : 2 ≤ M) (hlen : ∀ x, x < s.next → s.len x < M) {t : Nat} (hb : s.pc t ≠ .idle) (hw : ∀ x i, ¬ WaitsAt hash s t x i) : CanAdvance M hash s t := by
  have hG := hI.glob
  have hp := hI.pc t
  have go : ∀ {s₀ : St K V R} {q p : PC K V R} {e : Option (Event K V R)}, s.pc t = p →
      Step hash s e (s₀.setPc t q) → Ordinary t e → s₀.pc = s.pc → s₀.len = s.len →
      s₀.cur = s.cur → s₀.alive = s.alive → rk M s.len s.cur s.alive q < rk M s.len s.cur s.alive p →
      CanAdvance M hash s t := by
    intro s₀ q p e hp st ho h1 h2 h3 h4 hr
    have e4 : (s₀.setPc t q).alive = s.alive := h4 ▸ rfl
    refine ⟨e, _, st, ho, fun u hu => ?_, Or.inl ?_⟩
    · have : (s₀.setPc t q).pc u = s.pc u := by rw [setPc_other _ _ _ _ hu, h1]
      refine ⟨this, ?_⟩
      unfold St.rank
      rw [this, e4, setPc_len, setPc_cur, h2, h3]
      exact Nat.le_refl _
    · unfold St.rank
      rw [setPc_self, hp]
      rw [e4, setPc_len, setPc_cur, h2, h3]
      exact hr
  have lenLock : ∀ x i l, (s.setLock x i l).len = s.len := by
    intro x i l; funext y; unfold St.len; rw [setLock_lg]
  have alLock : ∀ x i l, (s.setLock x i l).alive = s.alive := by
    intro x i l; funext y; unfold St.alive; rw [lenLock]; exact offs_congr (fun i _ => by simp)
  have lenLocks : ∀ x i j l, (s.setLocks x i j l).len = s.len := by
    intro x i j l; funext y; unfold St.len; rw [setLocks_lg]
  have alLocks : ∀ x i j l, (s.setLocks x i j l).alive = s.alive := by
    intro x i j l; funext y; unfold St.alive; rw [lenLocks]; exact offs_congr (fun i _ => by simp)
  have lenMod : ∀ x i f, (s.modBkt x i f).len = s.len := by
    intro x i l; funext y; unfold St.len; rw [modBkt_lg]
  have alMod : ∀ x i (f : Bkt K V → Bkt K V), (∀ b, (f b).dead = b.dead) →
      (s.modBkt x i f).alive = s.alive := by
    intro x i f hf; funext y; unfold St.alive; rw [lenMod]
    refine offs_congr (fun i _ => ?_)
    rw [modBkt_b]; split
    · rw [hf]
    · rfl
  have o0 : Ordinary t (none : Option (Event K V R)) := Or.inl rfl
  have free : ∀ {x i}, (¬ WaitsAt hash s t x i) → (match s.pc t with
      | .wait g a => x = a ∧ i = g.idx hash (s.arr a).lg
      | .dedup g a o j => x = o ∧ i = j ∧ j < (s.rng a o (g.idx hash (s.arr a).lg)).2
      | .rlLock _ a o j n => x = a ∧ i = n ∧ n < (s.rng o a j).2
      | .help _ o => x = o ∧ i < s.len o
      | _ => False) → (s.b x i).lock = none := by
    intro x i h1 h2
    apply Classical.byContradiction
    intro h3
    exact h1 ⟨h3, h2⟩
  have others : ∀ {s' : St K V R}, (∀ u, u ≠ t → s'.pc u = s.pc u) →
      (∀ x, x < s.next → s'.len x = s.len x) →
      (∀ x, x < s.next → (s'.cur = some x ↔ s.cur = some x)) →
      (∀ x, x < s.next → s'.alive x ≤ s.alive x) →
      ∀ u, u ≠ t → s'.pc u = s.pc u ∧ s'.rank M u ≤ s.rank M u := by
    intro s' h1 h2 h3 h4 u hu
    refine ⟨h1 u hu, ?_⟩
    unfold St.rank
    rw [h1 u hu]
    exact rk_mono hG (hI.pc u) h2 h3 h4
  have lenKill : ∀ x i, (s.killBkt x i).len = s.len := by
    intro x i; funext y; unfold St.len; rw [killBkt_lg]
  have alKill : ∀ x i y, (s.killBkt x i).alive y ≤ s.alive y := by
    intro x i y
    unfold St.alive
    rw [lenKill]
    refine offs_mono (fun j => ?_)
    rw [killBkt_dead]; split <;> simp
  -- killing the old bucket
  have kill : ∀ {c : Cont K V R} {a o j : Nat} {p : PC K V R}, s.pc t = p →
      Step hash s none ((s.killBkt o j).setPc t (c.next a o j)) → j < s.len o →
      (s.b o j).dead = false → relRank M s.len s.cur s.alive a o j 0 c < rk M s.len s.cur s.alive p →
      CanAdvance M hash s t := by
    intro c a o j p hpc st hj hd hr
    refine ⟨none, _, st, o0, others (fun u hu => setPc_other _ _ _ _ hu)
      (fun x _ => congrFun (lenKill o j) x) (fun x _ => Iff.rfl) (fun x _ => alKill o j x), Or.inl ?_⟩
    unfold St.rank
    rw [setPc_self, hpc]
    have e1 : ((s.killBkt o j).setPc t (c.next a o j)).len = s.len := by
      funext y; unfold St.len; simp
    rw [e1]
    refine Nat.lt_of_le_of_lt ?_ hr
    cases c with
    | ded g => simp only [Cont.next, rk, relRank]; exact Nat.le_refl _
    | help =>
      simp only [Cont.next, rk, relRank]
      have : ((s.killBkt o j).setPc t (.help a o)).alive o + 1 = s.alive o := by
        unfold St.alive
        have e1 : ((s.killBkt o j).setPc t (.help a o : PC K V R)).len = s.len := by
          funext y; unfold St.len; simp
        rw [e1]
        refine offs_set hj hd ?_ ?_
        · simp [killBkt_dead]
        · intro i hi; simp only [setPc_b, killBkt_dead]; rw [if_neg (by omega)]
      rw [← this]
      simp
  generalize hq : s.pc t = q at hp
  cases q with
  | idle => exact absurd hq hb
  | start g =>
    cases hcur : s.cur with
    | none =>
      cases g with
      | op o =>
        cases hc : o.create with
        | false =>
          exact go hq (.loadNone hq hc hcur) o0 rfl rfl rfl rfl wOp_pos
        | true =>
          refine ⟨none, _, .alloc 1 hq hc hcur (by omega) (by omega), o0,
            others (fun u hu => setPc_other _ _ _ _ hu) ?_ ?_ ?_, Or.inl ?_⟩
          · intro x hx; unfold St.len; simp [St.setArr, St.setPc, Nat.ne_of_lt hx]
          · intro x hx
            rw [hcur]
            simp only [setPc_cur, Option.some.injEq, reduceCtorEq, iff_false]
            omega
          · intro x hx
            unfold St.alive St.len St.b
            simp [St.setArr, St.setPc, Nat.ne_of_lt hx]
          unfold St.rank
          rw [setPc_self, hq]
          simp only [rk]
          refine accRank_cur ?_ (by unfold wAcc; omega)
          have : (({ s.setArr s.next (Arr.new 1 none) with
            next := s.next + 1, cur := some s.next } : St K V R).setPc t
            (.loaded (.op o) s.next)).len s.next = 2 := by
            unfold St.len; simp [St.setArr, St.setPc, Arr.new]
          rw [this]; exact hM
      | tv u i p seen =>
        exact go hq (.tvLoadNone hq hcur) o0 rfl rfl rfl rfl wOp_pos
    | some a =>
      refine go hq (.load hq hcur) o0 rfl rfl rfl rfl ?_
      simp only [rk, hcur]
      have ha : a < s.next := by have := hG.cur_last a hcur; omega
      exact accRank_cur (Nat.le_of_lt (hlen a ha)) (by unfold wAcc; omega)
  | loaded g a =>
    obtain ⟨ha, hg⟩ := hp
    cases hl : (s.arr a).linked with
    | none =>
      refine go hq (.linkNone hq hl) o0 rfl rfl rfl rfl ?_
      exact accRank_lt (by omega)
    | some o =>
      refine go hq (.linkSome hq hl) o0 rfl rfl rfl rfl ?_
      have := hG.linked_pred a o ha hl
      have h1 := hlen o (by omega)
      refine accRank_lt ?_
      have : (s.len o - (s.rng a o (g.idx hash (s.arr a).lg)).1) * wDed M ≤ M * wDed M :=
        Nat.mul_le_mul_right _ (by omega)
      omega
  | dedup g a o j =>
    obtain ⟨ha, hg, hao, _⟩ := hp
    have hi := goal_idx_lt hh hG ha hg
    by_cases hj : j < (s.rng a o (g.idx hash (s.arr a).lg)).2
    · have hjo := range_lt hi hj
      have e : s.len o - j = s.len o - (j + 1) + 1 := by omega
      cases hd : (s.b o j).dead with
      | true =>
        refine go hq (.dedupSkip hq hj hd) o0 rfl rfl rfl rfl (accRank_lt ?_)
        rw [e, Nat.add_mul]; unfold wDed; omega
      | false =>
        have hlk := free (x := o) (i := j) (hw o j) (by rw [hq]; exact ⟨rfl, rfl, hj⟩)
        refine go hq (.dedupLock hq hj hd hlk) o0 rfl (lenLock ..) rfl (alLock ..) (accRank_lt ?_)
        rw [e, Nat.add_mul]; unfold wDed; omega
    · refine go hq (.dedupDone hq (by omega)) o0 rfl rfl rfl rfl (accRank_lt ?_)
      omega
  | wait g a =>
    obtain ⟨ha, hg, hpass⟩ := hp
    have hi := goal_idx_lt hh hG ha hg
    cases hd : (s.b a (g.idx hash (s.arr a).lg)).dead with
    | true =>
      refine go hq (.retry (Or.inr (Or.inr hq))) o0 rfl rfl rfl rfl ?_
      simp only [rk, accRank]
      have : s.cur ≠ some a := by
        intro hc
        have := hG.cur_live a _ hc hi
        rw [hd] at this; cases this
      rw [if_neg this]
      have := wOp_pos (M := M)
      omega
    | false =>
      have hlk := free (hw a _) (by rw [hq]; exact ⟨rfl, rfl⟩)
      exact go hq (.lock hq hd hlk) o0 rfl (lenLock ..) rfl (alLock ..) (accRank_lt (by omega))
  | crit g a =>
    cases g with
    | op o =>
      exact go hq (.commit hq) o0 rfl (lenMod ..) rfl (alMod _ _ _ (fun _ => rfl))
        (accRank_lt (by omega))
    | tv u i p seen =>
      exact go hq (.visit hq) o0 rfl (lenMod ..) rfl (alMod _ _ _ (fun _ => rfl))
        (by simp only [rk, accRank, Goal.todo]; omega)
  | fin o a r =>
    refine go hq (.unlock hq) o0 rfl (lenLock ..) rfl (alLock ..) ?_
    exact Nat.lt_of_lt_of_le (by simp only [rk]; omega) accRank_ge
  | swept u i p seen a =>
    refine go hq (.tvUnlock hq) o0 rfl (lenLock ..) rfl (alLock ..) ?_
    split
    · simp only [rk, accRank, Goal.todo]
      have e : s.len a - i = s.len a - (i + 1) + 1 := by omega
      rw [e, Nat.add_mul]; unfold wAcc; omega
    · exact Nat.lt_of_lt_of_le (by simp only [rk]; omega) accRank_ge
  | done r => exact go hq (.ret hq) (Or.inr (Or.inl ⟨_, rfl⟩)) rfl rfl rfl rfl (by simp only [rk]; omega)
  | tvDone u seen =>
    exact go hq (.tvRet hq) (Or.inr (Or.inr ⟨_, rfl⟩)) rfl rfl rfl rfl (by simp only [rk]; omega)
  | rlLock c a o j n =>
    obtain ⟨hc, hlk, hj, hlo, hd, h1, h2, hheld⟩ := hp
    by_cases hn : n < (s.rng o a j).2
    · have hna := range_lt hj hn
      have := hlen a hc.lt
      have hfr := free (x := a) (i := n) (hw a n) (by rw [hq]; exact ⟨rfl, rfl, hn⟩)
      refine go hq (.rlTarget hq hn hfr) o0 rfl (lenLock ..) rfl (alLock ..) ?_
      cases c with
      | ded g => exact accRank_lt (by omega)
      | help => simp only [rk, relRank]; omega
    · refine go hq (.rlBegin hq (by omega)) o0 rfl (lenLock ..) rfl (alLock ..) ?_
      cases c with
      | ded g => exact accRank_lt (by omega)
      | help => simp only [rk, relRank]; omega
  | rlMove c a o j =>
    obtain ⟨hc, hlk, hj, hlo, hd, hheld⟩ := hp
    by_cases he : (s.b o j).isEmpty
    · refine go hq (.rlUnlock hq he) o0 rfl (lenLocks ..) rfl (alLocks ..) ?_
      cases c with
      | ded g => exact accRank_lt (by omega)
      | help => simp only [rk, relRank]; omega
    · obtain ⟨k, hk⟩ := Classical.not_forall.mp he
      obtain ⟨v, hv⟩ := Option.ne_none_iff_exists'.mp hk
      refine ⟨none, _, .rlMove hq hv, o0, others (fun u hu => rfl) ?_ (fun x _ => Iff.rfl) ?_,
        Or.inr ⟨rfl, c, a, o, j, k, hq, hk, ?_⟩⟩
      · intro x _; unfold St.len; simp
      · intro x _
        unfold St.alive
        have : ∀ (i j : Nat), ((s.modBkt o i (Bkt.set k none)).modBkt a j (Bkt.set k (some v))).len =
          s.len := by intro i j; funext y; unfold St.len; simp
        rw [this]
        refine offs_mono (fun i => ?_)
        have e : ∀ (b : Bkt K V) (w : Option V), (Bkt.set k w b).dead = b.dead := fun _ _ => rfl
        rw [modBkt_b, modBkt_b]
        split
        · rw [e]; split <;> simp [e]
        · split <;> simp [e]
      intro k'
      have hne : a ≠ o := by have := hG.linked_pred a o (hG.linked_lt _ _ hlk) hlk; omega
      rw [modBkt_b, if_neg (by omega), modBkt_b, if_pos ⟨rfl, rfl⟩]
      rfl
  | rlKill c a o j =>
    obtain ⟨hc, hlk, hj, hlo, hd, he⟩ := hp
    refine kill hq (.rlKill hq) hj hd ?_
    cases c with
    | ded g => exact accRank_lt (by omega)
    | help => simp only [rk, relRank]; omega
  | hl a =>
    exact go hq (.helpQuit (Or.inl hq)) o0 rfl rfl rfl rfl (by simp only [rk]; omega)
  | help a o =>
    obtain ⟨ha, hao, hl⟩ := hp
    by_cases hall : ∀ j, j < s.len o → (s.b o j).dead = true
    · exact go hq (.helpQuit (Or.inr ⟨_, hq⟩)) o0 rfl rfl rfl rfl (by simp only [rk]; omega)
    · obtain ⟨j, hj⟩ := Classical.not_forall.mp hall
      obtain ⟨hj, hd⟩ := Classical.not_imp.mp hj
      have hd : (s.b o j).dead = false := by simpa using hd
      have hfr := free (x := o) (i := j) (hw o j) (by rw [hq]; exact ⟨rfl, hj⟩)
      refine go hq (.helpLock hq hj hd hfr) o0 rfl (lenLock ..) rfl (alLock ..) ?_
      simp only [rk, relRank]
      have : 1 ≤ s.alive o := by
        have := offs_set (f := fun i => (s.b o i).dead) (g := fun i => if i = j then true else (s.b o i).dead)
          (n := s.len o) hj hd (by simp) (by intro i hi; simp [hi])
        unfold St.alive; omega
      have e : s.alive o = s.alive o - 1 + 1 := by omega
      rw [e, Nat.add_mul, Nat.add_sub_cancel]; unfold wDed; omega
  | rzLoad a => exact go hq (.rzQuit (Or.inl hq)) o0 rfl rfl rfl rfl (by simp only [rk]; omega)
  | rzTry a => exact go hq (.rzQuit (Or.inr hq)) o0 rfl rfl rfl rfl (by simp only [rk]; omega)
  | rzLocked a => exact go hq (.rzNothing (Or.inl hq)) o0 rfl rfl rfl rfl (by simp only [rk]; omega)
  | rzChecked a => exact go hq (.rzNothing (Or.inr hq)) o0 rfl rfl rfl rfl (by simp only [rk]; omega)
  | rzDone =>
    exact go (s₀ := { s with rz := none }) hq (.rzRelease hq) o0 rfl rfl rfl rfl (by simp only [rk]; omega)
  | rzDrop a i =>
    exact go hq (.rzDropFail hq) o0 rfl (lenLocks ..) rfl (alLocks ..) (by simp only [rk]; omega)
  | rzKill a i =>
    by_cases hi : i < s.len a
    · refine ⟨none, _, .rzKillOne hq hi, o0, others (fun u hu => setPc_other _ _ _ _ hu)
        (fun x _ => congrFun (lenKill a i) x) (fun x _ => Iff.rfl) (fun x _ => alKill a i x), Or.inl ?_⟩
      unfold St.rank
      rw [setPc_self, hq]
      have e1 : ((s.killBkt a i).setPc t (.rzKill a (i + 1))).len = s.len := by
        funext y; unfold St.len; simp
      simp only [rk, e1]; omega
    · exact go hq (.rzKillEnd hq (by omega)) o0 rfl rfl rfl rfl (by simp only [rk]; omega)
  | em1 a =>
    have ha : a < s.next := hp
    cases hl : (s.arr a).linked with
    | none =>
      have := hlen a ha
      exact go hq (.emLinkNone hq hl) o0 rfl rfl rfl rfl (by simp only [rk]; omega)
    | some o =>
      have := hG.linked_pred a o ha hl
      have := hlen o (by omega)
      exact go hq (.emLinkSome hq hl) o0 rfl rfl rfl rfl (by simp only [rk]; omega)
  | em2 a o i =>
    have ha : a < s.next := hp.1
    have := hlen a ha
    by_cases hi : i < s.len o
    · by_cases he : (s.b o i).isEmpty
      · exact go hq (.emOld hq hi he) o0 rfl rfl rfl rfl (by simp only [rk]; omega)
      · exact go hq (.emOldFound hq hi he) o0 rfl rfl rfl rfl (by simp only [rk]; omega)
    · exact go hq (.emOldEnd hq (by omega)) o0 rfl rfl rfl rfl (by simp only [rk]; omega)
  | em3 a i =>
    by_cases hi : i < s.len a
    · by_cases he : (s.b a i).isEmpty
      · exact go hq (.emCur hq hi he) o0 rfl rfl rfl rfl (by simp only [rk]; omega)
      · exact go hq (.emCurFound hq hi he) o0 rfl rfl rfl rfl (by simp only [rk]; omega)
    · exact go hq (.emEnd hq (by omega)) o0 rfl rfl rfl rfl (by simp only [rk]; omega)
  | emDone e => exact go hq (.emRet hq) o0 rfl rfl rfl rfl (by simp only [rk]; omega)

end Scc.Table
