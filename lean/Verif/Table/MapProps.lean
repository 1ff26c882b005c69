import Verif.Table.Once

/-!
# The table as a finite map: sequential use, concurrent use, and resizing

C01, C02, C03.
-/

namespace Scc.Table

open Scc.Index (bucketIndex fromIndexToRange InRange)

variable {K V R : Type} {hash : K → Nat}

/-! ## C02 -/

theorem abs_start {s : St K V R} (h : Init s) : s.abs hash = Spec.St.init := by
  cases h with
  | new => rfl
  | withCapacity lg _ _ => rfl

/-- **C02.** Whatever the threads do, and whenever the table is resized, the calls and returns that can
be observed are those of an atomic finite map: each completed call has an instant between its start and
its return at which it acts on the map, and its result is the one of that instant. The contents of the
table are the contents of that map. -/
theorem c02_linearizable [DecidableEq K] (hh : ∀ k, hash k < 2 ^ 64) {s₀ s : St K V R}
    {es : List (Event K V R)} (h0 : Init s₀) (ex : Exec hash s₀ es s) :
    ∃ a, Spec.Exec Spec.St.init es a ∧ a.map = s.absMap hash := by
  have := sim_exec hh (inv_start h0) ex
  rw [abs_start h0] at this
  exact ⟨_, this, rfl⟩

/-! ### A small execution

One thread inserts, a second one reads while the first still holds its result; a third one gives up. -/

section Witness

abbrev WOp := Op Nat Nat (Spec.Res Nat Nat)
abbrev WSt := St Nat Nat (Spec.Res Nat Nat)

def wIns (k v : Nat) : WOp := (Spec.Call.insert (A := Nat) k v).op
def wRead (k : Nat) : WOp := (Spec.Call.read k (fun v => v)).op

/-- All hashes collide. -/
def h0 : Nat → Nat := fun _ => 0

theorem h0_lt : ∀ k, h0 k < 2 ^ 64 := fun _ => by unfold h0; omega

/-- Thread 0 has inserted key 1 into a new table and released the lock; thread 1 then reads it. -/
theorem w_insert : ∃ s : WSt, Exec h0 St.init
    [.inv 0 (wIns 1 5), .inv 1 (wRead 1), .ret 0 (some (.inserted true)), .ret 1 (some (.answer (some 5)))] s ∧
    (∀ t, s.pc t = .idle) ∧ s.cur = some 0 ∧ (s.arr 0).linked = none ∧ (s.arr 0).lg = 1 ∧ s.next = 1 ∧
    s.rz = none ∧ (∀ i, (s.b 0 i).lock = none ∧ (s.b 0 i).dead = false) ∧
    (∀ i k, (s.b 0 i).content k = if i = 0 ∧ k = 1 then some 5 else none) := by
  have e1 := Exec.event (hash := h0) (Exec.nil (s := (St.init : WSt)))
    (Step.invoke (t := 0) (o := wIns 1 5) rfl)
  have e2 := Exec.event e1 (Step.invoke (t := 1) (o := wRead 1) rfl)
  have e3 := Exec.tau e2 (Step.alloc (t := 0) (o := wIns 1 5) 1 rfl rfl rfl (by omega) (by omega))
  have e4 := Exec.tau e3 (Step.load (t := 1) (g := .op (wRead 1)) (a := 0) rfl rfl)
  have e5 := Exec.tau e4 (Step.linkNone (t := 0) (g := .op (wIns 1 5)) (a := 0) rfl rfl)
  have e6 := Exec.tau e5 (Step.linkNone (t := 1) (g := .op (wRead 1)) (a := 0) rfl rfl)
  have e7 := Exec.tau e6 (Step.lock (t := 0) (g := .op (wIns 1 5)) (a := 0) rfl rfl rfl)
  have e8 := Exec.tau e7 (Step.commit (t := 0) (o := wIns 1 5) (a := 0) rfl)
  have e9 := Exec.tau e8 (Step.unlock (t := 0) (o := wIns 1 5) (a := 0) rfl)
  have e10 := Exec.tau e9 (Step.read (t := 1) (o := wRead 1) (a := 0) rfl rfl rfl rfl)
  have e11 := Exec.event e10 (Step.ret (t := 0) rfl)
  have e12 := Exec.event e11 (Step.ret (t := 1) rfl)
  refine ⟨_, e12, ?_, rfl, rfl, rfl, rfl, rfl, ?_, ?_⟩
  · intro t
    match t with
    | 0 => rfl
    | 1 => rfl
    | n + 2 => rfl
  · intro i
    match i with
    | 0 => exact ⟨rfl, rfl⟩
    | n + 1 => exact ⟨rfl, rfl⟩
  · intro i k
    match i, k with
    | 0, 0 => rfl
    | 0, 1 => rfl
    | 0, n + 2 => rfl
    | n + 1, k => rfl

/-- The hypotheses of `c02_linearizable` are met by that execution. -/
example : ∃ a : Spec.St Nat Nat (Spec.Res Nat Nat), Spec.Exec Spec.St.init
    [.inv 0 (wIns 1 5), .inv 1 (wRead 1), .ret 0 (some (.inserted true)), .ret 1 (some (.answer (some 5)))] a ∧
    a.map 1 = some 5 := by
  obtain ⟨s, ex, _, hc, hl, hlg, _, _, _, hb⟩ := w_insert
  obtain ⟨a, h, hm⟩ := c02_linearizable h0_lt .new ex
  refine ⟨a, h, ?_⟩
  rw [hm]
  unfold St.absMap
  rw [hc]
  simp only [hl]
  unfold St.val St.ix
  rw [hb, hlg]
  rfl

end Witness

/-! ## C03 -/

/-- Bucket `i` of array `x` stores key `k`. -/
def StoredAt (s : St K V R) (k : K) (x i : Nat) (v : V) : Prop := (s.b x i).content k = some v

/-- Array `x` is in use: it is the current one or the one the current one replaces. -/
def InUse (s : St K V R) (x : Nat) : Prop :=
  s.cur = some x ∨ ∃ a, s.cur = some a ∧ (s.arr a).linked = some x

theorem stored_inUse (hh : ∀ k, hash k < 2 ^ 64) {s : St K V R} (hG : Glob hash s) {k : K} {x i : Nat}
    {v : V} (h : StoredAt s k x i v) : InUse s x ∧ i = s.ix hash x k ∧ (s.b x i).dead = false := by
  have hne : (s.b x i).content k ≠ none := by rw [h]; simp
  obtain ⟨hi, hx⟩ := hG.placed x i k hne
  have hd : (s.b x i).dead = false := by
    cases hd : (s.b x i).dead with
    | false => rfl
    | true => exact absurd ((hG.dead_empty x i hd).1 k) hne
  refine ⟨?_, hi, hd⟩
  rcases hG.live x i hx (by rw [hi]; exact ix_lt hh hG hx k) hd with h | h | ⟨t, h⟩
  · exact Or.inl h
  · exact Or.inr ⟨_, h⟩
  · exact absurd (hG.drop_empty x i t (Or.inr h) k) hne

/-- **C03, one place.** In every reachable state a key is stored in at most one bucket of one array; that
array is in use, the bucket is the one its hash selects there and has not been discarded; and the value
stored there is the value the map has for the key. A key the map has is stored somewhere. -/
theorem c03_one_place [DecidableEq K] (hh : ∀ k, hash k < 2 ^ 64) {s₀ s : St K V R}
    {es : List (Event K V R)} (h0 : Init s₀) (ex : Exec hash s₀ es s) (k : K) :
    (∀ x i v y j w, StoredAt s k x i v → StoredAt s k y j w → x = y ∧ i = j) ∧
    (∀ x i v, StoredAt s k x i v →
      InUse s x ∧ i = bucketIndex (s.arr x).lg (hash k) ∧ (s.b x i).dead = false) ∧
    (∀ v, s.absMap hash k = some v ↔ ∃ x i, StoredAt s k x i v) := by
  have hI := inv_exec hh (inv_start h0) ex
  have hG := hI.glob
  have hin : ∀ x i v, StoredAt s k x i v →
      InUse s x ∧ i = s.ix hash x k ∧ (s.b x i).dead = false := fun x i v h => stored_inUse hh hG h
  have hval : ∀ x i v, StoredAt s k x i v → s.val hash x k = some v := by
    intro x i v h
    have := (hin x i v h).2.1
    unfold St.val; rw [← this]; exact h
  have huniq : ∀ x i v y j w, StoredAt s k x i v → StoredAt s k y j w → x = y ∧ i = j := by
    intro x i v y j w h1 h2
    have a1 := hin _ _ _ h1
    have a2 := hin _ _ _ h2
    have v1 := hval _ _ _ h1
    have v2 := hval _ _ _ h2
    have hxy : x = y := by
      have key : ∀ x y a v w, s.cur = some x → s.cur = some a → (s.arr a).linked = some y →
          s.val hash x k = some v → s.val hash y k = some w → False := by
        intro x y a v w e1 e2 e3 e4 e5
        rw [e1] at e2; cases e2
        have hx := hG.cur_last _ e1
        have := hG.linked_pred x y (by omega) e3
        subst this
        have := hG.excl y k e1 e3 (by rw [e5]; simp)
        rw [e4] at this; cases this
      rcases a1.1 with e1 | ⟨a, e1, e1'⟩ <;> rcases a2.1 with e2 | ⟨b, e2, e2'⟩
      · rw [e1] at e2; exact Option.some.inj e2
      · exact (key _ _ _ _ _ e1 e2 e2' v1 v2).elim
      · exact (key _ _ _ _ _ e2 e1 e1' v2 v1).elim
      · rw [e1] at e2; cases e2
        rw [e1'] at e2'; exact Option.some.inj e2'
    subst hxy
    exact ⟨rfl, by rw [a1.2.1, a2.2.1]⟩
  refine ⟨huniq, hin, fun v => ⟨fun h => ?_, fun ⟨x, i, h⟩ => ?_⟩⟩
  · unfold St.absMap at h
    cases hc : s.cur with
    | none => rw [hc] at h; cases h
    | some a =>
      rw [hc] at h
      simp only at h
      cases hl : (s.arr a).linked with
      | none => rw [hl] at h; exact ⟨a, _, h⟩
      | some o =>
        rw [hl] at h
        simp only at h
        cases ho : s.val hash o k with
        | none => rw [ho] at h; exact ⟨a, _, h⟩
        | some w => rw [ho] at h; simp at h; subst h; exact ⟨o, _, ho⟩
  · have hv := hval _ _ _ h
    unfold St.absMap
    rcases (hin _ _ _ h).1 with hc | ⟨a, hc, hl⟩
    · rw [hc]
      simp only
      cases hl : (s.arr x).linked with
      | none => exact hv
      | some o =>
        simp only
        have hx := hG.cur_last _ hc
        have := hG.linked_pred x o (by omega) hl
        subst this
        cases ho : s.val hash o k with
        | none => simp [hv]
        | some w =>
          have := hG.excl o k hc hl (by rw [ho]; simp)
          rw [hv] at this; cases this
    · rw [hc]
      simp only [hl, hv, Option.some_or]

/-- The keys a user's operation or traversal may change while it holds a bucket of array `a`. -/
def Goal.touches (hash : K → Nat) (s : St K V R) (a : Nat) (k : K) : Goal K V R → Prop
  | .op o => k = o.key
  | .tv _ i _ _ => bucketIndex (s.arr a).lg (hash k) = i

/-- The keys an operation that evicts may evict while it holds a bucket of array `a`. -/
def Goal.evicts (hash : K → Nat) (s : St K V R) (a : Nat) (k : K) : Goal K V R → Prop
  | .op o => o.evict ≠ none ∧ bucketIndex (s.arr a).lg (hash k) = bucketIndex (s.arr a).lg (hash o.key)
  | .tv .. => False

/-- **C03, nothing changes by resizing.** A step changes the contents of the map only if it is the step
of a thread that holds the lock of a bucket for a user's operation or traversal, and then only for the
key of the operation or the keys of that bucket (in an operation, only if it evicts). Resizing, relocation,
helping, looking up, waiting and giving up never do. -/
theorem c03_unchanged [DecidableEq K] (hh : ∀ k, hash k < 2 ^ 64) {s₀ s s' : St K V R}
    {es : List (Event K V R)} {e : Option (Event K V R)} (h0 : Init s₀) (ex : Exec hash s₀ es s)
    (st : Step hash s e s') :
    s'.absMap hash = s.absMap hash ∨
      ∃ t g a, s.pc t = .crit g a ∧ (s.b a (g.idx hash (s.arr a).lg)).lock = some (.user t) ∧
        ∀ k, s'.absMap hash k ≠ s.absMap hash k → g.touches hash s a k ∨ g.evicts hash s a k := by
  have hI := inv_exec hh (inv_start h0) ex
  have hG := hI.glob
  cases st with
  | @commit t o a hpc =>
    right
    have hp := hI.pc t
    rw [hpc] at hp
    obtain ⟨ha, hg, hpass, hlock, hdead⟩ := hp
    have hlock : (s.b a (s.ix hash a o.key)).lock = some (.user t) := hlock
    have hdead : (s.b a (s.ix hash a o.key)).dead = false := hdead
    have hpass : Passed s a (s.ix hash a o.key) := hpass
    have hm : ∀ u, (s.b a (s.ix hash a o.key)).lock ≠ some (.moving u) := by intro u; rw [hlock]; simp
    have hk' : ∀ u, (s.b a (s.ix hash a o.key)).lock ≠ some (.kill u) := by intro u; rw [hlock]; simp
    refine ⟨t, _, a, hpc, hlock, fun k hk => Or.inl ?_⟩
    apply Classical.byContradiction
    intro hn
    apply hk
    rw [setPc_absMap]
    refine (absMap_modBkt hG hh ha (ix_lt hh hG ha o.key) hdead hm hk' hpass _ k).trans ?_
    split
    · rename_i hix
      rw [← hix] at hdead hm hk' hpass
      rw [lookup_eq hG hh ha hdead hm hk' hpass]
      unfold St.val
      rw [hix]
      exact if_neg hn
    · rfl
  | @commitEvict t o a g k' w hpc hev =>
    right
    have hp := hI.pc t
    rw [hpc] at hp
    obtain ⟨ha, hg, hpass, hlock, hdead⟩ := hp
    have hlock : (s.b a (s.ix hash a o.key)).lock = some (.user t) := hlock
    have hdead : (s.b a (s.ix hash a o.key)).dead = false := hdead
    have hpass : Passed s a (s.ix hash a o.key) := hpass
    refine ⟨t, _, a, hpc, hlock, fun k hk => Or.inr ⟨by rw [hev]; simp, ?_⟩⟩
    apply Classical.byContradiction
    intro hn
    apply hk
    rw [setPc_absMap]
    refine (absMap_modBkt hG hh ha (ix_lt hh hG ha o.key) hdead (by intro u; rw [hlock]; simp)
      (by intro u; rw [hlock]; simp) hpass _ k).trans ?_
    exact if_neg hn
  | @visit t u i p seen a hpc =>
    right
    have hp := hI.pc t
    rw [hpc] at hp
    obtain ⟨ha, hg, hpass, hlock, hdead⟩ := hp
    refine ⟨t, _, a, hpc, hlock, fun k hk => Or.inl ?_⟩
    have hlock : (s.b a i).lock = some (.user t) := hlock
    rw [setPc_absMap, absMap_modBkt hG hh ha hg.2 hdead (by intro u; rw [hlock]; simp)
      (by intro u; rw [hlock]; simp) hpass] at hk
    apply Classical.byContradiction
    intro hn
    exact hk (if_neg hn)
  | alloc _ _ _ hc =>
    left
    rw [setPc_absMap]
    have := absMap_newArr (lg := ‹Nat›) hG hh (fun a ha => by rw [hc] at ha; cases ha)
    rw [hc] at this
    exact this
  | rzSwap _ hpc =>
    left
    rename_i t a lg _ _
    have hp := hI.pc t
    rw [hpc] at hp
    rw [setPc_absMap]
    refine absMap_newArr hG hh lg (fun x hx => ?_)
    have := hp.2.2.2
    rw [hx] at this; cases this
    exact hp.2.1
  | @rzDropSwap t a i hpc hi =>
    left
    have hp := hI.pc t
    rw [hpc] at hp
    obtain ⟨ha, hlk, _, hcur, _, hheld⟩ := hp
    funext k
    have : s.absMap hash k = none := by
      unfold St.absMap
      simp only [hcur, hlk]
      have hix := ix_lt hh hG ha k
      exact hG.drop_empty a _ t (Or.inl (hheld _ (by rw [hi]; exact hix)).1) k
    rw [this]; rfl
  | rlMove hpc hv => exact Or.inl (absMap_move hI hh hpc hv)
  | detach hl hd => exact Or.inl (absMap_detach hG hh hl (all_dead hG hl hd))
  | @rehash o m =>
    left
    refine absMap_congr rfl ?_ ?_
    · intro x; unfold St.setArr; simp only; split
      · rename_i hx; subst hx; rfl
      · rfl
    · intro x k; unfold St.val St.ix St.b St.setArr; simp only; split
      · rename_i hx; subst hx; rfl
      · rfl
  | dedupLock => exact Or.inl (by rw [setPc_absMap, setLock_absMap])
  | lock => exact Or.inl (by rw [setPc_absMap, setLock_absMap])
  | helpLock => exact Or.inl (by rw [setPc_absMap, setLock_absMap])
  | rlTarget => exact Or.inl (by rw [setPc_absMap, setLock_absMap])
  | rzDropLock => exact Or.inl (by rw [setPc_absMap, setLock_absMap])
  | rlBegin => exact Or.inl (by rw [setPc_absMap, setLock_absMap])
  | unlock => exact Or.inl (by rw [setPc_absMap, setLock_absMap])
  | critPanic => exact Or.inl (by rw [setPc_absMap, setLock_absMap])
  | rlBack => exact Or.inl (by rw [setPc_absMap, setLock_absMap])
  | rlPanic => exact Or.inl (by rw [setPc_absMap, setLock_absMap, setLocks_absMap])
  | rlPanicHelp => exact Or.inl (by rw [setPc_absMap, setLock_absMap, setLocks_absMap])
  | @tvPanic t u i p seen a S hpc =>
    right
    have hp := hI.pc t
    rw [hpc] at hp
    obtain ⟨ha, hg, hpass, hlock, hdead⟩ := hp
    refine ⟨t, _, a, hpc, hlock, fun k hk => Or.inl ?_⟩
    have hlock : (s.b a i).lock = some (.user t) := hlock
    rw [setPc_absMap, setLock_absMap, absMap_modBkt hG hh ha hg.2 hdead (by intro u; rw [hlock]; simp)
      (by intro u; rw [hlock]; simp) hpass] at hk
    apply Classical.byContradiction
    intro hn
    exact hk (if_neg hn)
  | tvUnlock => exact Or.inl (by rw [setPc_absMap, setLock_absMap])
  | rlEmpty => exact Or.inl (by rw [setPc_absMap, killBkt_absMap])
  | rlKill => exact Or.inl (by rw [setPc_absMap, killBkt_absMap])
  | rzKillOne => exact Or.inl (by rw [setPc_absMap, killBkt_absMap])
  | rlUnlock => exact Or.inl (by rw [setPc_absMap, setLocks_absMap])
  | rzDropFail => exact Or.inl (by rw [setPc_absMap, setLocks_absMap])
  | rlAbort => exact Or.inl (by rw [setPc_absMap, setLock_absMap, setLocks_absMap])
  | rlLeak => exact Or.inl (by rw [setPc_absMap, setLock_absMap, setLocks_absMap])
  | rlLeakHelp => exact Or.inl (by rw [setPc_absMap, setLock_absMap, setLocks_absMap])
  | _ => exact Or.inl rfl

/-- **C03, lookups find it.** A writer that holds the lock of the bucket it looked up for key `k`, and a
reader at the moment it may enter that bucket, find exactly what the map holds for `k`. -/
theorem c03_lookup [DecidableEq K] (hh : ∀ k, hash k < 2 ^ 64) {s₀ s : St K V R}
    {es : List (Event K V R)} (h0 : Init s₀) (ex : Exec hash s₀ es s) {t a : Nat} {o : Op K V R}
    (h : s.pc t = .crit (.op o) a ∨ (s.pc t = .wait (.op o) a ∧
      (s.b a (bucketIndex (s.arr a).lg (hash o.key))).dead = false ∧
      (s.b a (bucketIndex (s.arr a).lg (hash o.key))).lock = none)) :
    (s.b a (bucketIndex (s.arr a).lg (hash o.key))).content o.key = s.absMap hash o.key := by
  have hI := inv_exec hh (inv_start h0) ex
  have hG := hI.glob
  have hp := hI.pc t
  rcases h with h | ⟨h, hd, hl⟩
  · rw [h] at hp
    obtain ⟨ha, hg, hpass, hlock, hdead⟩ := hp
    exact (lookup_eq hG hh ha hdead
      (by intro u hc; have := hlock.symm.trans hc; cases this)
      (by intro u hc; have := hlock.symm.trans hc; cases this) hpass).symm
  · rw [h] at hp
    obtain ⟨ha, hg, hpass⟩ := hp
    exact (lookup_eq hG hh ha hd (by intro u hc; have := hl.symm.trans hc; cases this)
      (by intro u hc; have := hl.symm.trans hc; cases this) hpass).symm

/-! ### A state in the middle of a resize

The entry of key 1 has been moved to the new array, the entry of key 2 is still in the old one. -/

theorem w_resize : ∃ s : WSt, Exec h0 St.init
    [.inv 0 (wIns 1 5), .ret 0 (some (.inserted true)), .inv 0 (wIns 2 6), .ret 0 (some (.inserted true))] s ∧
    StoredAt s 1 1 0 5 ∧ StoredAt s 2 0 0 6 ∧ s.cur = some 1 ∧ (s.arr 1).linked = some 0 := by
  have e := Exec.event (hash := h0) (Exec.nil (s := (St.init : WSt)))
    (Step.invoke (t := 0) (o := wIns 1 5) rfl)
  have e := Exec.tau e (Step.alloc (t := 0) (o := wIns 1 5) 1 rfl rfl rfl (by omega) (by omega))
  have e := Exec.tau e (Step.linkNone (t := 0) (g := .op (wIns 1 5)) (a := 0) rfl rfl)
  have e := Exec.tau e (Step.lock (t := 0) (g := .op (wIns 1 5)) (a := 0) rfl rfl rfl)
  have e := Exec.tau e (Step.commit (t := 0) (o := wIns 1 5) (a := 0) rfl)
  have e := Exec.tau e (Step.unlock (t := 0) (o := wIns 1 5) (a := 0) rfl)
  have e := Exec.event e (Step.ret (t := 0) rfl)
  have e := Exec.event e (Step.invoke (t := 0) (o := wIns 2 6) rfl)
  have e := Exec.tau e (Step.load (t := 0) (g := .op (wIns 2 6)) (a := 0) rfl rfl)
  have e := Exec.tau e (Step.linkNone (t := 0) (g := .op (wIns 2 6)) (a := 0) rfl rfl)
  have e := Exec.tau e (Step.lock (t := 0) (g := .op (wIns 2 6)) (a := 0) rfl rfl rfl)
  have e := Exec.tau e (Step.commit (t := 0) (o := wIns 2 6) (a := 0) rfl)
  have e := Exec.tau e (Step.unlock (t := 0) (o := wIns 2 6) (a := 0) rfl)
  have e := Exec.event e (Step.ret (t := 0) rfl)
  -- the table grows from 2 to 4 buckets
  have e := Exec.tau e (Step.rzLoad (t := 1) (a := 0) rfl rfl)
  have e := Exec.tau e (Step.rzLink (t := 1) (a := 0) rfl rfl)
  have e := Exec.tau e (Step.rzLock (t := 1) (a := 0) rfl rfl)
  have e := Exec.tau e (Step.rzCheck (t := 1) (a := 0) rfl rfl)
  have e := Exec.tau e (Step.rzSwap (t := 1) (a := 0) 2 rfl (by omega) (by omega))
  have e := Exec.tau e (Step.rzRelease (t := 1) rfl)
  -- a helper relocates bucket 0
  have e := Exec.tau e (Step.helpLoad (t := 1) (a := 1) rfl rfl)
  have e := Exec.tau e (Step.helpLink (t := 1) (a := 1) (o := 0) rfl rfl)
  have e := Exec.tau e (Step.helpLock (t := 1) (a := 1) (o := 0) (j := 0) rfl (by decide) rfl rfl)
  have e := Exec.tau e (Step.rlTarget (t := 1) (c := .help) (a := 1) (o := 0) (j := 0) (n := 0) rfl
    (by decide) rfl)
  have e := Exec.tau e (Step.rlTarget (t := 1) (c := .help) (a := 1) (o := 0) (j := 0) (n := 1) rfl
    (by decide) rfl)
  have e := Exec.tau e (Step.rlBegin (t := 1) (c := .help) (a := 1) (o := 0) (j := 0) (n := 2) rfl
    (by decide))
  have e := Exec.tau e (Step.rlMove (t := 1) (c := .help) (a := 1) (o := 0) (j := 0) (k := 1) (v := 5)
    rfl rfl)
  exact ⟨_, e, rfl, rfl, rfl, rfl⟩

/-- The state is one of those the C03 theorems speak about, and both entries are found. -/
example : ∃ s : WSt, (∃ es, Exec h0 St.init es s) ∧ s.absMap h0 1 = some 5 ∧ s.absMap h0 2 = some 6 := by
  obtain ⟨s, ex, h1, h2, _⟩ := w_resize
  exact ⟨s, ⟨_, ex⟩, ((c03_one_place h0_lt .new ex 1).2.2 5).2 ⟨_, _, h1⟩,
    ((c03_one_place h0_lt .new ex 2).2.2 6).2 ⟨_, _, h2⟩⟩

/-! ## C01 -/

/-- A command of a single user: a call on one key, or a traversal (`iter` with a closure that keeps
everything, `retain`, `clear` with one that removes everything). -/
inductive Cmd (K V R : Type)
  | call (o : Op K V R)
  | walk (u : K → V → Option V)

/-- What the user sees: the result of a call, or the values shown to the closure for each key. -/
inductive Out (K V R : Type)
  | res (r : R)
  | shown (seen : K → List V)

/-- The command on a finite map. -/
def Cmd.run [DecidableEq K] (m : K → Option V) : Cmd K V R → (K → Option V) × Out K V R
  | .call o => (fun k => if k = o.key then (o.f (m o.key)).1 else m k, .res (o.f (m o.key)).2)
  | .walk u => (fun k => (m k).bind (u k), .shown (fun k => (m k).toList))

/-- A sequence of commands on a finite map. -/
def runAll [DecidableEq K] (m : K → Option V) : List (Cmd K V R) → (K → Option V) × List (Out K V R)
  | [] => (m, [])
  | c :: cs => ((runAll (c.run m).1 cs).1, (c.run m).2 :: (runAll (c.run m).1 cs).2)

/-- Internal steps during which nobody but `t` uses the table and `t` stays inside its call. -/
inductive Alone [DecidableEq K] (hash : K → Nat) (t : Nat) : St K V R → St K V R → Prop
  | nil {s} : Quiet t s → s.pc t ≠ .idle → Alone hash t s s
  | tau {s s' s''} : Alone hash t s s' → Step hash s' none s'' → Quiet t s'' → s''.pc t ≠ .idle →
      Alone hash t s s''

/-- Sequential use: one command after another, with internal activity (helping, resizing, scans) at any
moment; only traversals are undisturbed by resizing, as the code resizes before or after them. -/
inductive Seq [DecidableEq K] (hash : K → Nat) :
    St K V R → List (Cmd K V R × Out K V R) → St K V R → Prop
  | nil {s} : Seq hash s [] s
  | tau {s cs s' s''} : Seq hash s cs s' → Step hash s' none s'' → Seq hash s cs s''
  | call {s cs s' s'' t o r} : Seq hash s cs s' → o.evict = none →
      Exec hash s' [.inv t o, .ret t (some r)] s'' → Seq hash s (cs ++ [(.call o, .res r)]) s''
  | walk {s cs s₁ s₂ s₃ s₄ t u seen} : Seq hash s cs s₁ → Step hash s₁ (some (.tvInv t u)) s₂ →
      Alone hash t s₂ s₃ → Step hash s₃ (some (.tvRet t seen)) s₄ →
      Seq hash s (cs ++ [(.walk u, .shown seen)]) s₄

/-! ### The atomic object used by one thread -/

theorem spec_nil [DecidableEq K] {a b : Spec.St K V R} {es : List (Event K V R)}
    (ha : ∀ t, a.pc t = .idle) (ex : Spec.Exec a es b) (he : es = []) : b = a := by
  induction ex with
  | nil => rfl
  | tau ex st ih =>
    have := ih he
    subst this
    cases st with
    | lin h => rw [ha] at h; cases h
    | linEvict h => rw [ha] at h; cases h
    | abort h => rw [ha] at h; cases h
    | tvSweep _ h => rw [ha] at h; cases h
  | event => simp at he

/-- The possible states of the object while one call of `t` is under way. -/
def During [DecidableEq K] (a : Spec.St K V R) (t : Nat) (o : Op K V R) (b : Spec.St K V R) : Prop :=
  (∀ u, u ≠ t → b.pc u = .idle) ∧
  ((b.pc t = .pending o ∧ b.map = a.map) ∨ (b.pc t = .done none ∧ b.map = a.map) ∨
    (b.pc t = .done (some (o.f (a.map o.key)).2) ∧
      b.map = fun k => if k = o.key then (o.f (a.map o.key)).1 else a.map k))

theorem spec_inv [DecidableEq K] {a b : Spec.St K V R} {es : List (Event K V R)} {t : Nat} {o : Op K V R}
    (ha : ∀ t, a.pc t = .idle) (hev : o.evict = none) (ex : Spec.Exec a es b) (he : es = [.inv t o]) :
    During a t o b := by
  have oth : ∀ {c : Spec.St K V R} {p : Spec.Pc K V R} {m : K → Option V}, (∀ u, u ≠ t → c.pc u = .idle) →
      ∀ u, u ≠ t → (({ c with map := m } : Spec.St K V R).setPc t p).pc u = .idle := by
    intro c p m h u hu
    show (if u = t then p else c.pc u) = _
    rw [if_neg hu, h u hu]
  have slf : ∀ {c : Spec.St K V R} {p : Spec.Pc K V R}, (c.setPc t p).pc t = p := by
    intro c p; show (if t = t then p else _) = p; rw [if_pos rfl]
  induction ex with
  | nil => cases he
  | @tau es' c d ex st ih =>
    obtain ⟨h1, h2⟩ := ih he
    have hw : ∀ {u : Nat} {q : Spec.Pc K V R}, c.pc u = q → q ≠ .idle → u = t := by
      intro u q hq hne
      apply Classical.byContradiction
      intro hu; exact hne (hq ▸ h1 u hu)
    cases st with
    | @lin u o' h =>
      have hu := hw h (by simp)
      subst hu
      refine ⟨oth h1, Or.inr (Or.inr ?_)⟩
      rcases h2 with ⟨h2, hm⟩ | ⟨h2, _⟩ | ⟨h2, _⟩
      · rw [h] at h2; cases h2
        rw [slf, hm]
        refine ⟨rfl, ?_⟩
        show (fun k => if k = o.key then (o.f (a.map o.key)).1 else c.map k) = _
        rw [hm]
      · rw [h] at h2; cases h2
      · rw [h] at h2; cases h2
    | @linEvict u o' f k v h hf =>
      have hu := hw h (by simp)
      subst hu
      rcases h2 with ⟨h2, hm⟩ | ⟨h2, _⟩ | ⟨h2, _⟩
      · rw [h] at h2; cases h2
        rw [hev] at hf; cases hf
      · rw [h] at h2; cases h2
      · rw [h] at h2; cases h2
    | @abort u o' h _ =>
      have hu := hw h (by simp)
      subst hu
      refine ⟨oth (m := c.map) h1, Or.inr (Or.inl ⟨slf, ?_⟩)⟩
      rcases h2 with ⟨_, hm⟩ | ⟨_, hm⟩ | ⟨h2, _⟩
      · exact hm
      · exact hm
      · rw [h] at h2; cases h2
    | @tvSweep u _ _ _ h =>
      have hu := hw h (by simp)
      subst hu
      rcases h2 with ⟨h2, _⟩ | ⟨h2, _⟩ | ⟨h2, _⟩ <;> · rw [h] at h2; cases h2
  | @event es' c e d ex st ih =>
    have he' : es' = [] ∧ e = .inv t o := by
      have := List.append_inj_left' (t₁ := [e]) (t₂ := [.inv t o]) (s₁ := es') (s₂ := []) he rfl
      subst this
      simpa using he
    obtain ⟨rfl, rfl⟩ := he'
    have := spec_nil ha ex rfl
    subst this
    cases st with
    | inv h => exact ⟨oth (m := c.map) (fun u _ => ha u), Or.inl ⟨slf, rfl⟩⟩

theorem spec_call [DecidableEq K] {a b : Spec.St K V R} {es : List (Event K V R)} {t : Nat}
    {o : Op K V R} {r : R} (ha : ∀ t, a.pc t = .idle) (hev : o.evict = none) (ex : Spec.Exec a es b)
    (he : es = [.inv t o, .ret t (some r)]) : (∀ u, b.pc u = .idle) ∧ r = (o.f (a.map o.key)).2 ∧
      b.map = fun k => if k = o.key then (o.f (a.map o.key)).1 else a.map k := by
  induction ex with
  | nil => cases he
  | @tau es' c d ex st ih =>
    obtain ⟨h1, h2⟩ := ih he
    cases st with
    | lin h => rw [h1] at h; cases h
    | linEvict h => rw [h1] at h; cases h
    | abort h => rw [h1] at h; cases h
    | tvSweep _ h => rw [h1] at h; cases h
  | @event es' c e d ex st ih =>
    have he' : es' = [.inv t o] ∧ e = .ret t (some r) := by
      have := List.append_inj_left' (t₁ := [e]) (t₂ := [.ret t (some r)]) (s₁ := es')
        (s₂ := [.inv t o]) he rfl
      subst this
      simpa using he
    obtain ⟨rfl, rfl⟩ := he'
    obtain ⟨h1, h2⟩ := spec_inv ha hev ex rfl
    cases st with
    | ret h =>
      refine ⟨fun u => ?_, ?_⟩
      · show (if u = t then _ else c.pc u) = _
        split
        · rfl
        · rename_i hu; exact h1 u hu
      · rcases h2 with ⟨h2, _⟩ | ⟨h2, _⟩ | ⟨h2, hm⟩
        · rw [h] at h2; cases h2
        · rw [h] at h2; cases h2
        · rw [h] at h2; cases h2
          exact ⟨rfl, hm⟩

/-! ### Undisturbed traversals -/

theorem Alone.exec [DecidableEq K] {s s' : St K V R} {t : Nat} (h : Alone hash t s s') :
    Exec hash s [] s' ∧ Quiet t s' ∧ s'.pc t ≠ .idle := by
  induction h with
  | nil h1 h2 => exact ⟨.nil, h1, h2⟩
  | tau _ st h1 h2 ih => exact ⟨.tau ih.1 st, h1, h2⟩

theorem Alone.first [DecidableEq K] {s s' : St K V R} {t : Nat} (h : Alone hash t s s') : Quiet t s := by
  induction h with
  | nil h1 _ => exact h1
  | tau _ _ _ _ ih => exact ih

theorem alone_once [DecidableEq K] (hh : ∀ k, hash k < 2 ^ 64) {s s' : St K V R} {t : Nat}
    {m : K → Option V} {w : K → V → Option V} (hI : Inv hash s) (h : Alone hash t s s')
    (ho : Once hash s m w (s.pc t)) : Once hash s' m w (s'.pc t) := by
  induction h with
  | nil => exact ho
  | tau h st hq _ ih =>
    have hx := h.exec
    exact once_step hh (inv_exec hh hI hx.1) hx.2.1 hq ih st (by simp) (by simp) (by simp)

theorem step_tvInv [DecidableEq K] {s s' : St K V R} {e : Option (Event K V R)} {t : Nat}
    {u : K → V → Option V} (st : Step hash s e s') (he : e = some (.tvInv t u)) :
    s.pc t = .idle ∧ s' = s.setPc t (.start (.tv u 0 0 (fun _ => []))) := by
  cases st with
  | tvInvoke h => cases he; exact ⟨h, rfl⟩
  | @cancel _ g => cases g <;> cases he
  | @rlLeak _ g => cases g <;> cases he
  | @panic _ g => cases g <;> cases he
  | @rlPanic _ g => cases g <;> cases he
  | _ => cases he

theorem step_tvRet [DecidableEq K] {s s' : St K V R} {e : Option (Event K V R)} {t : Nat}
    {seen : K → List V} (st : Step hash s e s') (he : e = some (.tvRet t seen)) :
    (∃ u, s.pc t = .tvDone u seen) ∧ s' = s.setPc t .idle := by
  cases st with
  | tvRet h => cases he; exact ⟨⟨_, h⟩, rfl⟩
  | @cancel _ g => cases g <;> cases he
  | @rlLeak _ g => cases g <;> cases he
  | @panic _ g => cases g <;> cases he
  | @rlPanic _ g => cases g <;> cases he
  | _ => cases he

/-- A traversal of a table nobody else uses: what it shows and what it leaves. -/
theorem walk_alone [DecidableEq K] (hh : ∀ k, hash k < 2 ^ 64) {s₁ s₂ s₃ s₄ : St K V R} {t : Nat}
    {u : K → V → Option V} {seen : K → List V} (hI : Inv hash s₁)
    (st1 : Step hash s₁ (some (.tvInv t u)) s₂) (h : Alone hash t s₂ s₃)
    (st2 : Step hash s₃ (some (.tvRet t seen)) s₄) :
    (∀ k, seen k = (s₁.absMap hash k).toList) ∧
    (∀ k, s₄.absMap hash k = (s₁.absMap hash k).bind (u k)) ∧
    s₁.pc t = .idle ∧ s₄.pc t = .idle ∧ Quiet t s₁ ∧ Quiet t s₄ := by
  have hI2 := inv_step hh hI st1
  have hq2 := h.first
  obtain ⟨hpc, rfl⟩ := step_tvInv st1 rfl
  have h2 : Once hash (s₁.setPc t (.start (.tv u 0 0 (fun _ => [])))) (s₁.absMap hash) u
      ((s₁.setPc t (.start (.tv u 0 0 (fun _ => [])))).pc t) := by
    rw [setPc_self]
    exact ⟨rfl, Or.inl ⟨rfl, rfl, fun k => ⟨rfl, rfl⟩⟩⟩
  have h3 := alone_once hh hI2 h h2
  have hq3 := h.exec.2.1
  obtain ⟨⟨u', hpc3⟩, rfl⟩ := step_tvRet st2 rfl
  rw [hpc3] at h3
  refine ⟨fun k => (h3.2 k).1, fun k => (h3.2 k).2, hpc, setPc_self .., ?_, ?_⟩
  · intro v hv
    have := hq2 v hv
    rw [setPc_other _ _ _ _ hv] at this; exact this
  · intro v hv
    rw [setPc_other _ _ _ _ hv]; exact hq3 v hv

theorem calm_abs {p : PC K V R} (h : p.calm) : p.abs = .idle := by
  unfold PC.calm at h
  split at h <;> first | rfl | exact h.elim

theorem runAll_snoc [DecidableEq K] (m : K → Option V) (cs : List (Cmd K V R)) (c : Cmd K V R) :
    runAll m (cs ++ [c]) = ((c.run (runAll m cs).1).1, (runAll m cs).2 ++ [(c.run (runAll m cs).1).2]) := by
  induction cs generalizing m with
  | nil => rfl
  | cons d cs ih =>
    show ((runAll (d.run m).1 (cs ++ [c])).1, (d.run m).2 :: (runAll (d.run m).1 (cs ++ [c])).2) = _
    rw [ih]; rfl

/-- **C01.** Started empty, every sequence of calls and traversals gives exactly the results a finite
map gives, whatever helping, resizing and relocation happens in between, and the table then contains
what the finite map contains. -/
theorem c01_sequential [DecidableEq K] (hh : ∀ k, hash k < 2 ^ 64) {s₀ s : St K V R}
    {cs : List (Cmd K V R × Out K V R)} (h0 : Init s₀) (sq : Seq hash s₀ cs s) :
    runAll (fun _ => none) (cs.map Prod.fst) = (s.absMap hash, cs.map Prod.snd) := by
  suffices h : Inv hash s ∧ (∀ t, (s.pc t).abs = .idle) ∧
      runAll (fun _ => none) (cs.map Prod.fst) = (s.absMap hash, cs.map Prod.snd) from h.2.2
  induction sq with
  | nil =>
    have := abs_start (hash := hash) h0
    refine ⟨inv_start h0, fun t => ?_, ?_⟩
    · have := congrArg (fun a => a.pc t) this; exact this
    · have e : s₀.absMap hash = fun _ => none := congrArg Spec.St.map this
      rw [e]; rfl
  | tau _ st ih =>
    obtain ⟨h1, h2, h3⟩ := ih
    refine ⟨inv_step hh h1 st, ?_⟩
    have := spec_nil (a := _) (fun t => h2 t) (sim_exec hh h1 (.tau .nil st)) rfl
    have e1 : St.absMap hash _ = St.absMap hash _ := congrArg Spec.St.map this
    refine ⟨fun t => ?_, ?_⟩
    · have e2 := congrArg (fun a => a.pc t) this
      exact e2.trans (h2 t)
    · rw [h3, e1]
  | call _ hev ex ih =>
    obtain ⟨h1, h2, h3⟩ := ih
    have := spec_call (fun t => h2 t) hev (sim_exec hh h1 ex) rfl
    refine ⟨inv_exec hh h1 ex, this.1, ?_⟩
    rw [List.map_append, List.map_append]
    show runAll _ (_ ++ [_]) = (_, _ ++ [_])
    have e : St.absMap hash _ = _ := this.2.2
    rw [runAll_snoc, h3, this.2.1, e]
    rfl
  | @walk _ _ _ _ _ t _ _ _ st1 al st2 ih =>
    obtain ⟨h1, h2, h3⟩ := ih
    have hx := al.exec.1
    have hw := walk_alone hh h1 st1 al st2
    refine ⟨inv_step hh (inv_exec hh (inv_step hh h1 st1) hx) st2, ?_, ?_⟩
    · intro v
      by_cases hv : v = t
      · subst hv; rw [hw.2.2.2.1]; rfl
      · exact calm_abs (hw.2.2.2.2.2 v hv)
    · rw [List.map_append, List.map_append]
      show runAll _ (_ ++ [_]) = (_, _ ++ [_])
      rw [runAll_snoc, h3, funext hw.1, funext hw.2.1]
      rfl

/-- The results of calls of the API are those the documentation promises. -/
example (m : Nat → Option Nat) (k v : Nat) :
    (Cmd.call (wIns k v)).run m = (match m k with
      | none => (fun k' => if k' = k then some v else m k', Out.res (.inserted true))
      | some w => (fun k' => if k' = k then some w else m k', Out.res (.inserted false))) := by
  cases h : m k <;>
    (simp only [Cmd.run, wIns, Spec.Call.op, Spec.Call.key, h, Spec.Call.run])

/-- Only threads 0 and 1 were ever active, and 1 is idle. -/
local macro "quiet01" : tactic => `(tactic| (
  intro u hu
  match u with
  | 0 => exact absurd rfl hu
  | 1 => trivial
  | n + 2 => trivial))

local macro "empty1" : tactic => `(tactic| (
  intro k
  match k with
  | 0 => rfl
  | 1 => rfl
  | n + 2 => rfl))

theorem seq_alone [DecidableEq K] {s s₁ : St K V R} {cs : List (Cmd K V R × Out K V R)} {t : Nat}
    {u : K → V → Option V} (_ : Seq hash s cs s₁) (hq : Quiet t s₁) :
    Alone hash t (s₁.setPc t (.start (.tv u 0 0 (fun _ => [])))) (s₁.setPc t (.start (.tv u 0 0 (fun _ => [])))) :=
  .nil (fun v hv => by rw [setPc_other _ _ _ _ hv]; exact hq v hv) (by rw [setPc_self]; simp)

theorem seq_exec [DecidableEq K] {s s₁ : St K V R} {cs : List (Cmd K V R × Out K V R)}
    (_ : Seq hash s cs s₁) : Exec hash s₁ [] s₁ := .nil

theorem seq_walk [DecidableEq K] {s s₁ s₃ : St K V R} {cs : List (Cmd K V R × Out K V R)} {t : Nat}
    {u v : K → V → Option V} {seen : K → List V} (q : Seq hash s cs s₁) (h1 : s₁.pc t = .idle)
    (a : Alone hash t (s₁.setPc t (.start (.tv u 0 0 (fun _ => [])))) s₃) (h3 : s₃.pc t = .tvDone v seen) :
    Seq hash s (cs ++ [(.walk u, .shown seen)]) (s₃.setPc t .idle) :=
  .walk q (.tvInvoke h1) a (.tvRet h3)

/-- A sequence that inserts a key, lets the table grow, removes everything with `clear` (which has to
relocate the entry first) and reads. -/
theorem w_seq : ∃ (s : WSt) (seen : Nat → List Nat), Seq h0 St.init
    [(.call (wIns 1 5), .res (.inserted true)), (.walk (fun _ _ => none), .shown seen),
      (.call (wRead 1), .res (.answer none))] s ∧ seen 1 = [5] := by
  have e := Exec.event (hash := h0) (Exec.nil (s := (St.init : WSt)))
    (Step.invoke (t := 0) (o := wIns 1 5) rfl)
  have e := Exec.tau e (Step.alloc (t := 0) (o := wIns 1 5) 1 rfl rfl rfl (by omega) (by omega))
  have e := Exec.tau e (Step.linkNone (t := 0) (g := .op (wIns 1 5)) (a := 0) rfl rfl)
  have e := Exec.tau e (Step.lock (t := 0) (g := .op (wIns 1 5)) (a := 0) rfl rfl rfl)
  have e := Exec.tau e (Step.commit (t := 0) (o := wIns 1 5) (a := 0) rfl)
  have e := Exec.tau e (Step.unlock (t := 0) (o := wIns 1 5) (a := 0) rfl)
  have e := Exec.event e (Step.ret (t := 0) (r := some (.inserted true)) rfl)
  have q := Seq.call Seq.nil rfl e
  have q := Seq.tau q (Step.rzLoad (t := 1) (a := 0) rfl rfl)
  have q := Seq.tau q (Step.rzLink (t := 1) (a := 0) rfl rfl)
  have q := Seq.tau q (Step.rzLock (t := 1) (a := 0) rfl rfl)
  have q := Seq.tau q (Step.rzCheck (t := 1) (a := 0) rfl rfl)
  have q := Seq.tau q (Step.rzSwap (t := 1) (a := 0) 2 rfl (by omega) (by omega))
  have q := Seq.tau q (Step.rzRelease (t := 1) rfl)
  have a := seq_alone (t := 0) (u := fun _ _ => none) q (by quiet01)
  have a := Alone.tau a (Step.load (t := 0) (a := 1) rfl rfl) (by quiet01) (by intro h; cases h)
  have a := Alone.tau a (Step.linkSome (t := 0) (a := 1) (o := 0) rfl rfl) (by quiet01) (by intro h; cases h)
  have a := Alone.tau a (Step.dedupLock (t := 0) (a := 1) (o := 0) (j := 0) rfl (by decide) rfl rfl) (by quiet01) (by intro h; cases h)
  have a := Alone.tau a (Step.rlTarget (t := 0) (a := 1) (o := 0) (j := 0) (n := 0) rfl (by decide) rfl) (by quiet01) (by intro h; cases h)
  have a := Alone.tau a (Step.rlTarget (t := 0) (a := 1) (o := 0) (j := 0) (n := 1) rfl (by decide) rfl) (by quiet01) (by intro h; cases h)
  have a := Alone.tau a (Step.rlBegin (t := 0) (a := 1) (o := 0) (j := 0) (n := 2) rfl (by decide)) (by quiet01) (by intro h; cases h)
  have a := Alone.tau a (Step.rlMove (t := 0) (a := 1) (o := 0) (j := 0) (k := 1) (v := 5) rfl rfl) (by quiet01) (by intro h; cases h)
  have a := Alone.tau a (Step.rlUnlock (t := 0) (a := 1) (o := 0) (j := 0) rfl (by empty1)) (by quiet01) (by intro h; cases h)
  have a := Alone.tau a (Step.rlKill (t := 0) (a := 1) (o := 0) (j := 0) rfl) (by quiet01) (by intro h; cases h)
  have a := Alone.tau a (Step.dedupDone (t := 0) (a := 1) (o := 0) (j := 1) rfl (by decide)) (by quiet01) (by intro h; cases h)
  have a := Alone.tau a (Step.lock (t := 0) (a := 1) rfl rfl rfl) (by quiet01) (by intro h; cases h)
  have a := Alone.tau a (Step.visit (t := 0) (a := 1) rfl) (by quiet01) (by intro h; cases h)
  have a := Alone.tau a (Step.tvUnlock (t := 0) (a := 1) rfl) (by quiet01) (by intro h; cases h)
  have a := Alone.tau a (Step.linkSome (t := 0) (a := 1) (o := 0) rfl rfl) (by quiet01) (by intro h; cases h)
  have a := Alone.tau a (Step.dedupSkip (t := 0) (a := 1) (o := 0) (j := 0) rfl (by decide) rfl) (by quiet01) (by intro h; cases h)
  have a := Alone.tau a (Step.dedupDone (t := 0) (a := 1) (o := 0) (j := 1) rfl (by decide)) (by quiet01) (by intro h; cases h)
  have a := Alone.tau a (Step.lock (t := 0) (a := 1) rfl rfl rfl) (by quiet01) (by intro h; cases h)
  have a := Alone.tau a (Step.visit (t := 0) (a := 1) rfl) (by quiet01) (by intro h; cases h)
  have a := Alone.tau a (Step.tvUnlock (t := 0) (a := 1) rfl) (by quiet01) (by intro h; cases h)
  have a := Alone.tau a (Step.linkSome (t := 0) (a := 1) (o := 0) rfl rfl) (by quiet01) (by intro h; cases h)
  have a := Alone.tau a (Step.dedupLock (t := 0) (a := 1) (o := 0) (j := 1) rfl (by decide) rfl rfl) (by quiet01) (by intro h; cases h)
  have a := Alone.tau a (Step.rlEmpty (t := 0) (a := 1) (o := 0) (j := 1) (n := 2) rfl (by decide) (by empty1)) (by quiet01) (by intro h; cases h)
  have a := Alone.tau a (Step.dedupDone (t := 0) (a := 1) (o := 0) (j := 2) rfl (by decide)) (by quiet01) (by intro h; cases h)
  have a := Alone.tau a (Step.lock (t := 0) (a := 1) rfl rfl rfl) (by quiet01) (by intro h; cases h)
  have a := Alone.tau a (Step.visit (t := 0) (a := 1) rfl) (by quiet01) (by intro h; cases h)
  have a := Alone.tau a (Step.tvUnlock (t := 0) (a := 1) rfl) (by quiet01) (by intro h; cases h)
  have a := Alone.tau a (Step.linkSome (t := 0) (a := 1) (o := 0) rfl rfl) (by quiet01) (by intro h; cases h)
  have a := Alone.tau a (Step.dedupSkip (t := 0) (a := 1) (o := 0) (j := 1) rfl (by decide) rfl) (by quiet01) (by intro h; cases h)
  have a := Alone.tau a (Step.dedupDone (t := 0) (a := 1) (o := 0) (j := 2) rfl (by decide)) (by quiet01) (by intro h; cases h)
  have a := Alone.tau a (Step.lock (t := 0) (a := 1) rfl rfl rfl) (by quiet01) (by intro h; cases h)
  have a := Alone.tau a (Step.visit (t := 0) (a := 1) rfl) (by quiet01) (by intro h; cases h)
  have a := Alone.tau a (Step.tvUnlock (t := 0) (a := 1) rfl) (by quiet01) (by intro h; cases h)
  have q := seq_walk q rfl a rfl
  have e := Exec.event (seq_exec q) (Step.invoke (t := 0) (o := wRead 1) rfl)
  have e := Exec.tau e (Step.load (t := 0) (a := 1) rfl rfl)
  have e := Exec.tau e (Step.linkSome (t := 0) (a := 1) (o := 0) rfl rfl)
  have e := Exec.tau e (Step.dedupSkip (t := 0) (a := 1) (o := 0) (j := 0) rfl (by decide) rfl)
  have e := Exec.tau e (Step.dedupDone (t := 0) (a := 1) (o := 0) (j := 1) rfl (by decide))
  have e := Exec.tau e (Step.read (t := 0) (o := wRead 1) (a := 1) rfl rfl rfl rfl)
  have e := Exec.event e (Step.ret (t := 0) (r := some (.answer none)) rfl)
  exact ⟨_, _, Seq.call q rfl e, rfl⟩

end Scc.Table
