import Verif.Crowd.Model
import Verif.Rehash.Props

/-!
# No pair is lost or duplicated
-/

set_option linter.unusedSectionVars false
set_option linter.unusedSimpArgs false

namespace Scc.Crowd

open Scc.Index (bucketIndex)
open Scc.Bucket
open Scc.Seq hiding Op

variable {K V : Type} {c : Cfg K}

/-! ## Lists -/

theorem cnt_flatMap_set {α : Type} (e : α) {f g : Nat → List α} {x n : Nat} (hx : x < n)
    (h : ∀ y, y ≠ x → g y = f y) :
    cnt e ((List.range n).flatMap g) + cnt e (f x) = cnt e ((List.range n).flatMap f) + cnt e (g x) := by
  have h1 := perm_iff.1 (flatMap_split f hx) e
  have h2 := perm_iff.1 (flatMap_split g hx) e
  have h3 : (List.range n).flatMap (fun j => if j = x then [] else g j) =
      (List.range n).flatMap (fun j => if j = x then [] else f j) := by
    congr 1
    funext j
    by_cases hj : j = x
    · simp [hj]
    · simp [hj, h j hj]
  rw [h3] at h2
  rw [cnt_append] at h1 h2
  omega

/-! ## The invariant -/

/-- An array: killed buckets are empty. -/
structure AOk (c : Cfg K) (a : Arr K V) : Prop where
  wf : ArrWf c a
  dead : ∀ i, a.dead i = true → (a.bkt i).entries c.kind = []
  prog : a.prog = 0
  lru : c.kind = .cache → ∀ i, LruOk (a.bkt i)

theorem AOk.old {a : Arr K V} (h : AOk c a) : OldOk c a :=
  ⟨h.wf, h.dead, fun i hi _ => by rw [h.prog] at hi; omega⟩

theorem AOk.new {lg : Nat} (h1 : 1 ≤ lg) (h2 : lg ≤ 57) : AOk c (Arr.new lg : Arr K V) where
  wf := (new_curOk c h1 h2).wf
  dead i h := by cases h
  prog := rfl
  lru _ _ := empty_lruOk

/-- The pairs in memory. -/
def St.held (s : St K V) : List (K × V) :=
  (List.range s.next).flatMap fun x => if s.freed x then [] else (s.arr x).cells

structure Inv (c : Cfg K) (s : St K V) : Prop where
  arr : ∀ x, x < s.next → AOk c (s.arr x)
  rh : ∀ x, x < s.next → Rehash.Reachable (2 ^ (s.arr x).lg) (s.rh x)
  done : ∀ x i, x < s.next → i < 2 ^ (s.arr x).lg → (s.rh x).done i = true → (s.arr x).dead i = true
  cur : ∀ a, s.cur = some a → a < s.next ∧ s.freed a = false ∧ s.rh a = Rehash.State.init ∧
    ∀ i, (s.arr a).dead i = false
  link : ∀ a o, s.link a = some o → s.cur = some a ∧ a ≠ o ∧ o < s.next ∧ s.freed o = false
  rest : ∀ x, x < s.next → s.cur ≠ some x → (∀ y, s.link y ≠ some x) →
    s.rh x = Rehash.State.init ∨ 0 < (s.rh x).detaching + (s.rh x).detached
  fresh : ∀ x, s.next ≤ x → s.rh x = Rehash.State.init ∧ s.freed x = false
  mem : ∀ e, cnt e s.inn = cnt e s.out + cnt e s.gone + cnt e s.held

theorem inv_init : Inv c (St.init : St K V) where
  arr x h := absurd h (Nat.not_lt_zero x)
  rh x h := absurd h (Nat.not_lt_zero x)
  done x i h := absurd h (Nat.not_lt_zero x)
  cur a h := by cases h
  link a o h := by cases h
  rest x h := absurd h (Nat.not_lt_zero x)
  fresh x _ := ⟨rfl, rfl⟩
  mem e := rfl

theorem setArr_arr (s : St K V) (x y : Nat) (a : Arr K V) :
    (s.setArr x a).arr y = if y = x then a else s.arr y := rfl

@[simp] theorem setBkt_inn (s : St K V) (x i : Nat) (b : Bucket K V) : (s.setBkt x i b).inn = s.inn := rfl
@[simp] theorem setBkt_out (s : St K V) (x i : Nat) (b : Bucket K V) : (s.setBkt x i b).out = s.out := rfl
@[simp] theorem setBkt_gone (s : St K V) (x i : Nat) (b : Bucket K V) : (s.setBkt x i b).gone = s.gone := rfl

/-- An array is replaced by one of the same shape. -/
theorem held_setArr (s : St K V) {x : Nat} (hx : x < s.next) (hf : s.freed x = false) (a : Arr K V)
    (e : K × V) :
    cnt e (s.setArr x a).held + cnt e (s.arr x).cells = cnt e s.held + cnt e a.cells := by
  have := cnt_flatMap_set e (f := fun y => if s.freed y then [] else (s.arr y).cells)
    (g := fun y => if s.freed y then [] else ((s.setArr x a).arr y).cells) hx (by
      intro y hy
      simp only [setArr_arr, if_neg hy])
  simp only [hf, setArr_arr, if_true] at this
  exact this

/-- A change of a locked bucket. -/
theorem inv_bkt {s : St K V} (h : Inv c s) {x i : Nat} (ho : s.Open x i) {b : Bucket K V}
    (wb : Wf c.kind c.hash b) (lb : c.kind = .cache → LruOk b)
    (pb : ∀ e ∈ b.entries c.kind, bucketIndex (s.arr x).lg (c.hash e.1) = i)
    {inn out gone : List (K × V)}
    (hm : ∀ e, cnt e inn + cnt e ((s.arr x).bkt i).cells + cnt e s.out + cnt e s.gone =
      cnt e s.inn + cnt e b.cells + cnt e out + cnt e gone) :
    Inv c { s.setBkt x i b with inn := inn, out := out, gone := gone } := by
  obtain ⟨hx, hf, hi, hd⟩ := ho
  have ok := h.arr x hx
  have arr' : ∀ y, (s.setBkt x i b).arr y = if y = x then (s.arr x).set i b else s.arr y := fun _ => rfl
  have lg' : ∀ y, ((s.setBkt x i b).arr y).lg = (s.arr y).lg := by
    intro y; rw [arr']; split
    · rename_i h; rw [h]; rfl
    · rfl
  have dead' : ∀ y, ((s.setBkt x i b).arr y).dead = (s.arr y).dead := by
    intro y; rw [arr']; split
    · rename_i h; rw [h]; rfl
    · rfl
  refine ⟨?_, ?_, ?_, ?_, h.link, h.rest, h.fresh, ?_⟩
  · intro y hy
    show AOk c ((s.setBkt x i b).arr y)
    rw [arr']
    split
    · refine ⟨set_arrWf ok.wf wb pb, ?_, ok.prog, ?_⟩
      · intro j hj
        rw [set_bkt]
        split
        · rename_i hji
          subst hji
          have hj' : (s.arr x).dead j = true := hj
          rw [hd] at hj'; cases hj'
        · exact ok.dead j hj
      · intro hk j
        rw [set_bkt]
        split
        · exact lb hk
        · exact ok.lru hk j
    · exact h.arr y hy
  · intro y hy
    show Rehash.Reachable (2 ^ ((s.setBkt x i b).arr y).lg) (s.rh y)
    rw [lg']; exact h.rh y hy
  · intro y j hy hj hdn
    have hj' : j < 2 ^ ((s.setBkt x i b).arr y).lg := hj
    show ((s.setBkt x i b).arr y).dead j = true
    rw [lg'] at hj'
    rw [dead']
    exact h.done y j hy hj' hdn
  · intro a ha
    obtain ⟨h1, h2, h3, h4⟩ := h.cur a ha
    refine ⟨h1, h2, h3, ?_⟩
    intro j
    show ((s.setBkt x i b).arr a).dead j = false
    rw [dead']; exact h4 j
  · intro e
    have h1 := held_setArr s hx hf ((s.arr x).set i b) e
    have h2 := perm_iff.1 (cells_at (a := s.arr x) hi) e
    have h3 := perm_iff.1 (cells_set (a := s.arr x) hi b) e
    have h4 := h.mem e
    have h5 := hm e
    rw [cnt_append] at h2 h3
    show cnt e inn = cnt e out + cnt e gone + cnt e (s.setArr x ((s.arr x).set i b)).held
    omega

theorem pointsTo_idx {t : Kind} {hash : K → Nat} {b : Bucket K V} (w : Wf t hash b) {p : Ptr} {e : K × V}
    (h : PointsTo t b p e) : p.idx < 32 := by
  obtain ⟨x, hx, hv, _⟩ := h
  have hm := w.blocks x (List.mem_of_getElem? hx)
  have := hm.hi _ (visible_occ hv)
  have := hm.cap_le
  omega

/-- A new array. -/
theorem held_new (s : St K V) (hfr : s.freed s.next = false) (lg : Nat) (e : K × V) {s' : St K V}
    (h1 : s'.next = s.next + 1) (h2 : s'.freed = s.freed)
    (h3 : s'.arr = (s.setArr s.next (Arr.new lg)).arr) : cnt e s'.held = cnt e s.held := by
  unfold St.held
  rw [h1, h2, h3, List.range_succ, List.flatMap_append, cnt_append]
  simp only [List.flatMap_cons, List.flatMap_nil, List.append_nil, setArr_arr, if_true, hfr,
    new_cells, Bool.false_eq_true, if_false, cnt_nil, Nat.add_zero]
  congr 1
  apply flatMap_congr_mem
  intro y hy
  have : y ≠ s.next := by have := List.mem_range.1 hy; omega
  rw [if_neg this]

theorem rehash_keeps {len : Nat} {m m' : Rehash.State} (st : Rehash.Step len m m')
    (hd : m'.detached = m.detached) (h : 0 < m.detaching + m.detached) :
    0 < m'.detaching + m'.detached := by
  cases st with
  | claim _ => exact h
  | relocate _ _ => exact h
  | finish _ _ => simp only; omega
  | fail _ => exact h
  | detach _ => simp only at hd; omega

theorem pow_bounds {a : Arr K V} (h : AOk c a) : 0 < 2 ^ a.lg ∧ 2 ^ a.lg ≤ 2 ^ 57 :=
  ⟨Nat.two_pow_pos _, Nat.pow_le_pow_right (by omega) h.wf.lg_le⟩

/-- Dropping an array nobody works on drops what it holds, each pair once. -/
theorem drop_cells {s : St K V} (h : Inv c s) {x : Nat} (hx : x < s.next) (hw : (s.rh x).workers = []) :
    (dropArr c.kind (s.final x)).Perm (s.arr x).cells := by
  have ok := h.arr x hx
  obtain ⟨b0, b57⟩ := pow_bounds ok
  have ri := Rehash.reachable_inv b0 b57 (h.rh x hx)
  have hr := ri.refs
  rw [hw] at hr
  simp only [List.length_nil] at hr
  have : OldOk c (s.final x) := by
    refine ⟨⟨ok.wf.lg_pos, ok.wf.lg_le, ok.wf.wf, ok.wf.placed⟩, ok.dead, ?_⟩
    intro i h1 h2
    have h1 : i < (s.rh x).word := h1
    have h2 : i < 2 ^ (s.arr x).lg := h2
    rcases ri.cover i h2 (by omega) with h3 | ⟨p, hp, _⟩
    · exact h.done x i hx h2 h3
    · rw [hw] at hp; cases hp
  exact dropArr_ok this

theorem settled {s : St K V} (h : Inv c s) {x : Nat} (hx : x < s.next) (h1 : s.cur ≠ some x)
    (h2 : ∀ y, s.link y ≠ some x) : (s.rh x).workers = [] := by
  rcases h.rest x hx h1 h2 with h3 | h3
  · rw [h3]; rfl
  · obtain ⟨b0, b57⟩ := pow_bounds (h.arr x hx)
    exact (Rehash.c04_detached_only_when_done b0 b57 (h.rh x hx) h3).2

/-- Every step keeps the invariant. -/
theorem inv_step [DecidableEq K] (hc : c.Ok) {s s' : St K V} (h : Inv c s) (st : Step c s s') :
    Inv c s' := by
  cases st with
  | @insert x i recent e ho hi =>
    have ok := h.arr x ho.1
    have w := ok.wf.wf i
    obtain ⟨w1, p1, _⟩ := insert_ok (h := c.hash e.1) (e := e) w recent rfl
    refine inv_bkt h ho w1 ?_ ?_ ?_
    · intro hk
      rw [hk]
      exact (insert_grows _ recent (c.hash e.1) e).lruOk (ok.lru hk i)
    · intro e' he'
      rcases List.mem_cons.1 (p1.mem_iff.1 he') with h1 | h1
      · rw [h1]; exact hi
      · exact ok.wf.placed i e' h1
    · intro e'
      have := perm_iff.1 (insert_cells w recent (c.hash e.1) e) e'
      simp only [cnt_append, cnt_cons, cnt_nil, setBkt_inn, setBkt_out, setBkt_gone] at this ⊢
      omega
  | @remove x i p e b q back hk ho hp hr =>
    have ok := h.arr x ho.1
    have w := ok.wf.wf i
    obtain ⟨b', p', h1, w1, p1⟩ := remove_ok w hp
    rw [hr] at h1
    cases h1
    refine inv_bkt h ho w1 ?_ ?_ ?_
    · intro hk'
      rw [hk'] at hr
      exact remove_lruOk (ok.lru hk' i) hr
    · intro e' he'
      exact ok.wf.placed i e' (p1.mem_iff.2 (List.mem_cons_of_mem _ he'))
    · intro e'
      have := perm_iff.1 (remove_cells w hp hr) e'
      cases back <;> simp only [cnt_append, cnt_cons, cnt_nil, setBkt_inn, setBkt_out, setBkt_gone, if_true, if_false, Bool.false_eq_true]
        at this ⊢ <;> omega
  | @mark x i p e epoch hk ho hp =>
    have ok := h.arr x ho.1
    have w := ok.wf.wf i
    rw [hk] at w hp
    obtain ⟨w1, p1⟩ := markRemoved_ok w epoch hp
    refine inv_bkt (inn := s.inn) (out := s.out) (gone := s.gone) h ho (by rw [hk]; exact w1) ?_ ?_ ?_
    · intro hk'; rw [hk] at hk'; cases hk'
    · intro e' he'
      rw [hk] at he'
      exact ok.wf.placed i e' (by rw [hk]; exact p1.mem_iff.2 (List.mem_cons_of_mem _ he'))
    · intro e'
      rw [markRemoved_cells]
  | @write x i p e v hk ho hp =>
    have ok := h.arr x ho.1
    have w := ok.wf.wf i
    obtain ⟨w1, l, r, h1, h2⟩ := setVal_ok w v hp
    obtain ⟨l', r', h3, h4⟩ := setVal_cells w v hp
    refine inv_bkt h ho w1 ?_ ?_ ?_
    · intro hk'; exact setVal_lruOk (ok.lru hk' i) p v
    · intro e' he'
      rw [h2] at he'
      rcases List.mem_append.1 he' with h5 | h5
      · exact ok.wf.placed i e' (by rw [h1]; exact List.mem_append_left _ h5)
      · rcases List.mem_cons.1 h5 with h6 | h6
        · rw [h6]
          exact ok.wf.placed i e (by rw [h1]; simp)
        · exact ok.wf.placed i e' (by rw [h1]; simp [h6])
    · intro e'
      rw [h3, h4]
      simp only [cnt_append, cnt_cons, cnt_nil, setBkt_inn, setBkt_out, setBkt_gone]
      omega
  | @update x i p e b q env v hk ho hp hr =>
    have ok := h.arr x ho.1
    have w := ok.wf.wf i
    obtain ⟨k, v0⟩ := e
    rw [hk] at w hp
    obtain ⟨b', q', h1, w1, R, p1, p2⟩ := indexUpdate_ok (v' := v) w env hp
    rw [hr] at h1
    cases h1
    refine inv_bkt (out := s.out) h ho (by rw [hk]; exact w1) ?_ ?_ ?_
    · intro hk'; rw [hk] at hk'; cases hk'
    · intro e' he'
      rw [hk] at he'
      rcases List.mem_cons.1 (p2.mem_iff.1 he') with h2 | h2
      · rw [h2]
        exact ok.wf.placed i (k, v0) (by rw [hk]; exact p1.mem_iff.2 (by simp))
      · exact ok.wf.placed i e' (by rw [hk]; exact p1.mem_iff.2 (by simp [h2]))
    · intro e'
      have := perm_iff.1 (indexUpdate_cells w env hp hr) e'
      rw [hk]
      simp only [cnt_append, cnt_cons, cnt_nil, setBkt_inn, setBkt_out, setBkt_gone] at this ⊢
      omega
  | @evict x i b e hk ho hr =>
    have ok := h.arr x ho.1
    have w := ok.wf.wf i
    have hci : c.kind ≠ .index := by rw [hk]; decide
    rw [hk] at w
    obtain ⟨b', ev, h1, w1, l1, p1, _⟩ := evictHead_ok w (ok.lru hk i)
    rw [hr] at h1
    cases h1
    refine inv_bkt h ho (by rw [hk]; exact w1) (fun _ => l1) ?_ ?_
    · intro e' he'
      rw [hk] at he'
      exact ok.wf.placed i e' (by rw [hk]; exact p1.mem_iff.2 (by simp [he']))
    · intro e'
      have := perm_iff.1 p1 e'
      rw [cells_of_kind (by decide) w, cells_of_kind (by decide) w1]
      simp only [Option.toList, cnt_append, cnt_cons, cnt_nil, setBkt_inn, setBkt_out, setBkt_gone] at this ⊢
      omega
  | @touch x i p e hk ho hp =>
    have ok := h.arr x ho.1
    have w := ok.wf.wf i
    refine inv_bkt (inn := s.inn) (out := s.out) (gone := s.gone) h ho (touch_wf w p)
      (fun hk => touch_lruOk (ok.lru hk i) (pointsTo_idx w hp)) ?_ ?_
    · intro e' he'
      rw [touch_entries] at he'
      exact ok.wf.placed i e' he'
    · intro e'
      have : (((s.arr x).bkt i).touch p).cells = ((s.arr x).bkt i).cells := by
        unfold Bucket.cells; rw [touch_blocks]
      rw [this]
  | @alloc lg hcur h1 h57 =>
    have hfr := h.fresh s.next (Nat.le_refl _)
    have arr' : ∀ y, y < s.next → (s.setArr s.next (Arr.new lg)).arr y = s.arr y := by
      intro y hy
      rw [setArr_arr, if_neg (by omega)]
    have arrn : (s.setArr s.next (Arr.new lg)).arr s.next = Arr.new lg := by
      rw [setArr_arr, if_pos rfl]
    refine ⟨?_, ?_, ?_, ?_, ?_, ?_, ?_, ?_⟩
    · intro y hy
      have hy : y < s.next + 1 := hy
      show AOk c ((s.setArr s.next (Arr.new lg)).arr y)
      by_cases hyn : y = s.next
      · rw [hyn, arrn]; exact AOk.new h1 h57
      · rw [arr' y (by omega)]; exact h.arr y (by omega)
    · intro y hy
      have hy : y < s.next + 1 := hy
      show Rehash.Reachable (2 ^ ((s.setArr s.next (Arr.new lg)).arr y).lg) (s.rh y)
      by_cases hyn : y = s.next
      · rw [hyn, hfr.1]; exact .init
      · rw [arr' y (by omega)]; exact h.rh y (by omega)
    · intro y j hy hj hd
      have hy : y < s.next + 1 := hy
      have hj : j < 2 ^ ((s.setArr s.next (Arr.new lg)).arr y).lg := hj
      have hd : (s.rh y).done j = true := hd
      show ((s.setArr s.next (Arr.new lg)).arr y).dead j = true
      by_cases hyn : y = s.next
      · rw [hyn, hfr.1] at hd; cases hd
      · rw [arr' y (by omega)] at hj ⊢; exact h.done y j (by omega) hj hd
    · intro a ha
      cases ha
      refine ⟨by show s.next < s.next + 1; omega, hfr.2, hfr.1, ?_⟩
      intro j
      show ((s.setArr s.next (Arr.new lg)).arr s.next).dead j = false
      rw [arrn]; rfl
    · intro a o hl
      exact absurd (h.link a o hl).1 (by rw [hcur]; simp)
    · intro y hy hne hl
      have hy : y < s.next + 1 := hy
      have : y ≠ s.next := fun hh => hne (by rw [hh])
      exact h.rest y (by omega) (by rw [hcur]; simp) hl
    · intro y hy
      have hy : s.next + 1 ≤ y := hy
      exact h.fresh y (by omega)
    · intro e
      have h1 := held_new s hfr.2 lg e
        (s' := { s.setArr s.next (Arr.new lg) with next := s.next + 1, cur := some s.next }) rfl rfl rfl
      rw [h1]
      exact h.mem e
  | @grow a lg hcur hln h1 h57 =>
    obtain ⟨c1, c2, c3, c4⟩ := h.cur a hcur
    have hfr := h.fresh s.next (Nat.le_refl _)
    have arr' : ∀ y, y < s.next → (s.setArr s.next (Arr.new lg)).arr y = s.arr y := by
      intro y hy
      rw [setArr_arr, if_neg (by omega)]
    have arrn : (s.setArr s.next (Arr.new lg)).arr s.next = Arr.new lg := by
      rw [setArr_arr, if_pos rfl]
    have nolink : ∀ y o, s.link y ≠ some o := by
      intro y o hl
      have := (h.link y o hl).1
      rw [hcur] at this
      cases this
      rw [hln] at hl; cases hl
    refine ⟨?_, ?_, ?_, ?_, ?_, ?_, ?_, ?_⟩
    · intro y hy
      have hy : y < s.next + 1 := hy
      show AOk c ((s.setArr s.next (Arr.new lg)).arr y)
      by_cases hyn : y = s.next
      · rw [hyn, arrn]; exact AOk.new h1 h57
      · rw [arr' y (by omega)]; exact h.arr y (by omega)
    · intro y hy
      have hy : y < s.next + 1 := hy
      show Rehash.Reachable (2 ^ ((s.setArr s.next (Arr.new lg)).arr y).lg) (s.rh y)
      by_cases hyn : y = s.next
      · rw [hyn, hfr.1]; exact .init
      · rw [arr' y (by omega)]; exact h.rh y (by omega)
    · intro y j hy hj hd
      have hy : y < s.next + 1 := hy
      have hj : j < 2 ^ ((s.setArr s.next (Arr.new lg)).arr y).lg := hj
      have hd : (s.rh y).done j = true := hd
      show ((s.setArr s.next (Arr.new lg)).arr y).dead j = true
      by_cases hyn : y = s.next
      · rw [hyn, hfr.1] at hd; cases hd
      · rw [arr' y (by omega)] at hj ⊢; exact h.done y j (by omega) hj hd
    · intro b hb
      cases hb
      refine ⟨by show s.next < s.next + 1; omega, hfr.2, hfr.1, ?_⟩
      intro j
      show ((s.setArr s.next (Arr.new lg)).arr s.next).dead j = false
      rw [arrn]; rfl
    · intro b o hl
      have hl : (if b = s.next then some a else s.link b) = some o := hl
      split at hl
      · rename_i hb
        cases hl
        subst hb
        exact ⟨rfl, by omega, by show a < s.next + 1; omega, c2⟩
      · exact absurd hl (nolink b o)
    · intro y hy hne hl
      have hy : y < s.next + 1 := hy
      have hyn : y ≠ s.next := fun hh => hne (by rw [hh])
      have hya : y ≠ a := by
        intro hh
        exact hl s.next (by
          show (if s.next = s.next then some a else s.link s.next) = some y
          rw [if_pos rfl, hh])
      refine h.rest y (by omega) (by rw [hcur]; intro hh; cases hh; exact hya rfl) (fun z => nolink z y)
    · intro y hy
      have hy : s.next + 1 ≤ y := hy
      exact h.fresh y (by omega)
    · intro e
      refine (h.mem e).trans ?_
      refine congrArg (cnt e s.out + cnt e s.gone + ·) (Eq.symm ?_)
      exact held_new s hfr.2 lg e rfl rfl rfl
  | @dropTable a hcur hln hz =>
    obtain ⟨c1, c2, c3, c4⟩ := h.cur a hcur
    have ok := h.arr a c1
    have nolink : ∀ y o, s.link y ≠ some o := by
      intro y o hl
      have := (h.link y o hl).1
      rw [hcur] at this
      cases this
      rw [hln] at hl; cases hl
    have hem : ∀ i, i < 2 ^ (s.arr a).lg → ((s.arr a).bkt i).entries c.kind = [] := by
      intro i hi
      have h1 := (ok.wf.wf i).len
      rw [hz i hi] at h1
      exact List.length_eq_zero_iff.1 h1.symm
    have hk := fun i hi => killBucket_ok (ok.wf.wf i) (hem i hi)
    generalize hA : ({ s.arr a with
          bkt := fun i => if i < 2 ^ (s.arr a).lg then (killBucket c.kind ((s.arr a).bkt i)).1
            else (s.arr a).bkt i
          dead := fun i => decide (i < 2 ^ (s.arr a).lg) || (s.arr a).dead i } : Arr K V) = A
    have Alg : A.lg = (s.arr a).lg := by rw [← hA]
    have Abkt : ∀ i, A.bkt i = if i < 2 ^ (s.arr a).lg then (killBucket c.kind ((s.arr a).bkt i)).1
        else (s.arr a).bkt i := by intro i; rw [← hA]
    have Adead : ∀ i, A.dead i = (decide (i < 2 ^ (s.arr a).lg) || (s.arr a).dead i) := by
      intro i; rw [← hA]
    have Aok : AOk c A := by
      refine ⟨⟨by rw [Alg]; exact ok.wf.lg_pos, by rw [Alg]; exact ok.wf.lg_le, ?_, ?_⟩, ?_, ?_, ?_⟩
      · intro i
        rw [Abkt]
        split
        · rename_i hi; exact (hk i hi).1
        · exact ok.wf.wf i
      · intro i e he
        rw [Abkt] at he
        split at he
        · rename_i hi; rw [(hk i hi).2.1] at he; cases he
        · rw [Alg]; exact ok.wf.placed i e he
      · intro i hi
        rw [Adead] at hi
        rw [Abkt]
        split
        · rename_i hi; exact (hk i hi).2.1
        · rename_i hn
          rw [decide_eq_false hn, Bool.false_or] at hi
          exact ok.dead i hi
      · rw [← hA]; exact ok.prog
      · intro hkc i
        rw [Abkt]
        split
        · unfold LruOk
          rw [killBucket_lru]
          exact ok.lru hkc i
        · exact ok.lru hkc i
    have Acells : A.cells = (s.arr a).cells := by
      unfold Arr.cells
      rw [Alg]
      apply flatMap_congr_mem
      intro i hi
      have hi := List.mem_range.1 hi
      rw [Abkt, if_pos hi]
      exact (hk i hi).2.2.2
    have hg : ((List.range (2 ^ (s.arr a).lg)).flatMap fun i =>
        (killBucket c.kind ((s.arr a).bkt i)).2) = [] :=
      flatMap_range_nil fun i hi => (hk i hi).2.2.1
    have lg' : ∀ y, ((s.setArr a A).arr y).lg = (s.arr y).lg := by
      intro y; rw [setArr_arr]; split
      · rename_i h; rw [h, Alg]
      · rfl
    refine ⟨?_, ?_, ?_, ?_, ?_, ?_, ?_, ?_⟩
    · intro y hy
      show AOk c ((s.setArr a A).arr y)
      rw [setArr_arr]
      split
      · exact Aok
      · exact h.arr y hy
    · intro y hy
      show Rehash.Reachable (2 ^ ((s.setArr a A).arr y).lg) (s.rh y)
      rw [lg']; exact h.rh y hy
    · intro y j hy hj hd
      have hj : j < 2 ^ ((s.setArr a A).arr y).lg := hj
      rw [lg'] at hj
      show ((s.setArr a A).arr y).dead j = true
      have h1 := h.done y j hy hj hd
      rw [setArr_arr]
      split
      · rename_i hya
        rw [hya] at h1
        rw [Adead, h1, Bool.or_true]
      · exact h1
    · intro b hb; cases hb
    · intro b o hl; exact absurd hl (nolink b o)
    · intro y hy _ _
      by_cases hya : y = a
      · left; rw [hya]; exact c3
      · exact h.rest y hy (by rw [hcur]; intro hh; cases hh; exact hya rfl) (fun z => nolink z y)
    · exact h.fresh
    · intro e
      have h1 := held_setArr s c1 c2 A e
      rw [Acells] at h1
      have h2 := h.mem e
      show cnt e s.inn = cnt e s.out + cnt e (s.gone ++ _) + cnt e (s.setArr a A).held
      rw [hg, List.append_nil]
      omega
  | @move a o j a' o' g recent hl hj hr =>
    obtain ⟨l1, l2, l3, l4⟩ := h.link a o hl
    obtain ⟨c1, c2, c3, c4⟩ := h.cur a l1
    have oka := h.arr a c1
    have oko := h.arr o l3
    obtain ⟨a2, o2, g2, h1, m⟩ := relocate_ok hc recent oka.wf oko.old hj
    rw [hr] at h1
    cases h1
    have arr' : ∀ y, ((s.setArr a a').setArr o o').arr y =
        if y = o then o' else if y = a then a' else s.arr y := fun _ => rfl
    have lg' : ∀ y, (((s.setArr a a').setArr o o').arr y).lg = (s.arr y).lg := by
      intro y; rw [arr']; split
      · rename_i h; rw [h, m.oldLg]
      · split
        · rename_i h; rw [h, m.curLg]
        · rfl
    refine ⟨?_, ?_, ?_, ?_, ?_, ?_, ?_, ?_⟩
    · intro y hy
      show AOk c (((s.setArr a a').setArr o o').arr y)
      rw [arr']
      split
      · refine ⟨m.oldOk.wf, m.oldOk.dead, by rw [m.oldProg]; exact oko.prog, ?_⟩
        intro hk i
        unfold LruOk
        rw [(relocate_carried hk oka.wf oko.old hc hj hr).lru i]
        exact oko.lru hk i
      · split
        · refine ⟨m.curWf, ?_, by rw [m.curProg]; exact oka.prog, ?_⟩
          · intro i hi
            rw [m.curDead, c4 i] at hi; cases hi
          · intro hk i
            exact ((relocate_carried hk oka.wf oko.old hc hj hr).grows i).lruOk (oka.lru hk i)
        · exact h.arr y hy
    · intro y hy
      show Rehash.Reachable (2 ^ (((s.setArr a a').setArr o o').arr y).lg)
        (if y = o then { s.rh o with done := fun y => y = j || (s.rh o).done y } else s.rh y)
      rw [lg']
      split
      · rename_i hyo
        rw [hyo]
        exact .step (h.rh o l3) (.relocate j hj)
      · exact h.rh y hy
    · intro y i hy hi hd
      have hi : i < 2 ^ (((s.setArr a a').setArr o o').arr y).lg := hi
      rw [lg'] at hi
      have hd : (if y = o then ({ s.rh o with done := fun y => y = j || (s.rh o).done y } : Rehash.State)
        else s.rh y).done i = true := hd
      show (((s.setArr a a').setArr o o').arr y).dead i = true
      rw [arr']
      split
      · rename_i hyo
        rw [if_pos hyo] at hd
        have hd : (decide (i = j) || (s.rh o).done i) = true := hd
        rcases Bool.or_eq_true _ _ |>.mp hd with h1 | h1
        · exact m.killed i (of_decide_eq_true h1)
        · rw [hyo] at hi
          exact m.stay i (h.done o i l3 hi h1)
      · rename_i hyo
        rw [if_neg hyo] at hd
        have h1 := h.done y i hy hi hd
        split
        · rename_i hya
          rw [hya, c4 i] at h1; cases h1
        · exact h1
    · intro b hb
      have hb : s.cur = some b := hb
      rw [l1] at hb
      cases hb
      refine ⟨c1, c2, ?_, ?_⟩
      · show (if a = o then ({ s.rh o with done := fun y => y = j || (s.rh o).done y } : Rehash.State)
          else s.rh a) = _
        rw [if_neg l2]; exact c3
      · intro i
        show (((s.setArr a a').setArr o o').arr a).dead i = false
        rw [arr', if_neg l2, if_pos rfl, m.curDead]
        exact c4 i
    · exact h.link
    · intro y hy h1 h2
      have hyo : y ≠ o := fun hh => h2 a (by rw [hh]; exact hl)
      show (if y = o then ({ s.rh o with done := fun y => y = j || (s.rh o).done y } : Rehash.State)
          else s.rh y) = _ ∨ 0 < (if y = o then _ else s.rh y).detaching + (if y = o then _ else s.rh y).detached
      rw [if_neg hyo]
      exact h.rest y hy h1 h2
    · intro y hy
      have hyo : y ≠ o := by
        intro hh
        have hy : s.next ≤ y := hy
        omega
      refine ⟨?_, (h.fresh y hy).2⟩
      show (if y = o then ({ s.rh o with done := fun y => y = j || (s.rh o).done y } : Rehash.State)
          else s.rh y) = _
      rw [if_neg hyo]
      exact (h.fresh y hy).1
    · intro e
      have h1 := held_setArr s c1 c2 a' e
      have h2 := held_setArr (s.setArr a a') (x := o) l3 l4 o' e
      have ho : (s.setArr a a').arr o = s.arr o := by
        rw [setArr_arr, if_neg (fun hh => l2 hh.symm)]
      rw [ho] at h2
      have h3 := perm_iff.1 m.cells e
      have h4 := h.mem e
      simp only [cnt_append] at h3
      show cnt e s.inn = cnt e s.out + cnt e (s.gone ++ g) + cnt e ((s.setArr a a').setArr o o').held
      rw [cnt_append]
      omega
  | @helper o m ho hlk st hd1 hd2 =>
    have notcur : s.cur ≠ some o := by
      intro hh
      rcases hlk with ⟨a, hl⟩ | hl
      · obtain ⟨l1, l2, _⟩ := h.link a o hl
        rw [hh] at l1; cases l1; exact l2 rfl
      · rw [(h.cur o hh).2.2.1] at hl
        simp [Rehash.State.init] at hl
    have rh' : ∀ y, (s.setRh o m).rh y = if y = o then m else s.rh y := fun _ => rfl
    refine ⟨h.arr, ?_, ?_, ?_, h.link, ?_, ?_, h.mem⟩
    · intro y hy
      show Rehash.Reachable (2 ^ (s.arr y).lg) ((s.setRh o m).rh y)
      rw [rh']
      split
      · rename_i hyo; rw [hyo]; exact .step (h.rh o ho) st
      · exact h.rh y hy
    · intro y i hy hi hdn
      have hdn : ((s.setRh o m).rh y).done i = true := hdn
      rw [rh'] at hdn
      split at hdn
      · rename_i hyo
        rw [hd1] at hdn
        subst hyo
        exact h.done y i hy hi hdn
      · exact h.done y i hy hi hdn
    · intro a ha
      have ha : s.cur = some a := ha
      obtain ⟨c1, c2, c3, c4⟩ := h.cur a ha
      refine ⟨c1, c2, ?_, c4⟩
      rw [rh', if_neg (fun hh => notcur (by rw [← hh]; exact ha))]
      exact c3
    · intro y hy h1 h2
      rw [rh']
      split
      · rename_i hyo
        right
        rcases hlk with ⟨a, hl⟩ | hl
        · exact absurd (by rw [hyo]; exact hl) (h2 a)
        · exact rehash_keeps st hd2 hl
      · exact h.rest y hy h1 h2
    · intro y hy
      have hy : s.next ≤ y := hy
      rw [rh', if_neg (by omega)]
      exact h.fresh y hy
  | @detach a o hl hd =>
    obtain ⟨l1, l2, l3, l4⟩ := h.link a o hl
    obtain ⟨c1, c2, c3, c4⟩ := h.cur a l1
    have hrh : Rehash.Step (2 ^ (s.arr o).lg) (s.rh o) { s.rh o with
          detaching := (s.rh o).detaching - 1, detached := (s.rh o).detached + 1 } := .detach hd
    generalize hm : ({ s.rh o with
          detaching := (s.rh o).detaching - 1, detached := (s.rh o).detached + 1 } : Rehash.State) = m at *
    have mdone : m.done = (s.rh o).done := by rw [← hm]
    have mdet : 0 < m.detaching + m.detached := by rw [← hm]; simp only; omega
    have rh' : ∀ y, (s.setRh o m).rh y = if y = o then m else s.rh y := fun _ => rfl
    refine ⟨h.arr, ?_, ?_, ?_, ?_, ?_, ?_, h.mem⟩
    · intro y hy
      show Rehash.Reachable (2 ^ (s.arr y).lg) ((s.setRh o m).rh y)
      rw [rh']
      split
      · rename_i hyo; rw [hyo]; exact .step (h.rh o l3) hrh
      · exact h.rh y hy
    · intro y i hy hi hdn
      have hdn : ((s.setRh o m).rh y).done i = true := hdn
      rw [rh'] at hdn
      split at hdn
      · rename_i hyo
        rw [mdone] at hdn
        subst hyo
        exact h.done y i hy hi hdn
      · exact h.done y i hy hi hdn
    · intro b hb
      have hb : s.cur = some b := hb
      rw [l1] at hb
      cases hb
      refine ⟨c1, c2, ?_, c4⟩
      show (s.setRh o m).rh a = _
      rw [rh', if_neg l2]
      exact c3
    · intro b x hbx
      have hbx : (if b = a then none else s.link b) = some x := hbx
      split at hbx
      · cases hbx
      · exact h.link b x hbx
    · intro y hy h1 h2
      show (s.setRh o m).rh y = _ ∨ 0 < ((s.setRh o m).rh y).detaching + ((s.setRh o m).rh y).detached
      rw [rh']
      split
      · right; exact mdet
      · rename_i hyo
        refine h.rest y hy h1 ?_
        intro z hz
        have h3 : (if z = a then none else s.link z) ≠ some y := h2 z
        split at h3
        · rename_i hza
          rw [hza, hl] at hz
          cases hz
          exact hyo rfl
        · exact h3 hz
    · intro y hy
      have hy : s.next ≤ y := hy
      show (s.setRh o m).rh y = _ ∧ _
      rw [rh', if_neg (by omega)]
      exact h.fresh y hy
  | @free x hx hf hcur hln =>
    have hdr := drop_cells h hx (settled h hx hcur hln)
    refine ⟨h.arr, h.rh, h.done, ?_, ?_, h.rest, ?_, ?_⟩
    · intro a ha
      have ha : s.cur = some a := ha
      obtain ⟨c1, c2, c3, c4⟩ := h.cur a ha
      refine ⟨c1, ?_, c3, c4⟩
      have : a ≠ x := fun hh => hcur (by rw [← hh]; exact ha)
      show (decide (a = x) || s.freed a) = false
      rw [c2, decide_eq_false this]; rfl
    · intro a o hl
      have hl : s.link a = some o := hl
      obtain ⟨l1, l2, l3, l4⟩ := h.link a o hl
      refine ⟨l1, l2, l3, ?_⟩
      have : o ≠ x := fun hh => hln a (by rw [← hh]; exact hl)
      show (decide (o = x) || s.freed o) = false
      rw [l4, decide_eq_false this]; rfl
    · intro y hy
      have hy : s.next ≤ y := hy
      refine ⟨(h.fresh y hy).1, ?_⟩
      show (decide (y = x) || s.freed y) = false
      rw [(h.fresh y hy).2, decide_eq_false (by omega)]; rfl
    · intro e
      have h1 := cnt_flatMap_set e (f := fun y => if s.freed y then [] else (s.arr y).cells)
        (g := fun y => if (decide (y = x) || s.freed y) then [] else (s.arr y).cells) hx (by
          intro y hy
          simp only [decide_eq_false hy, Bool.false_or])
      simp only [hf, decide_true, Bool.true_or, if_true, Bool.false_eq_true, if_false, cnt_nil,
        Nat.add_zero] at h1
      have h2 := perm_iff.1 hdr e
      have h3 := h.mem e
      unfold St.held at h3
      show cnt e s.inn = cnt e s.out + cnt e (s.gone ++ dropArr c.kind (s.final x)) +
        cnt e ((List.range s.next).flatMap fun y => if (decide (y = x) || s.freed y) then []
          else (s.arr y).cells)
      rw [cnt_append]
      omega

theorem run_inv [DecidableEq K] (hc : c.Ok) {s : St K V} (r : Run c s) : Inv c s := by
  induction r with
  | init => exact inv_init
  | step _ st ih => exact inv_step hc ih st

end Scc.Crowd
