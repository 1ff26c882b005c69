import Verif.Table.Preserve
import Verif.Table.Spec

/-!
# The table refines the atomic finite map
-/

namespace Scc.Table

open Scc.Index (bucketIndex fromIndexToRange InRange)

variable {K V R : Type} {hash : K → Nat}

/-- The contents of the table: an entry is in the array being replaced or in the current one. -/
def St.absMap (hash : K → Nat) (s : St K V R) (k : K) : Option V :=
  match s.cur with
  | none => none
  | some a =>
    match (s.arr a).linked with
    | none => s.val hash a k
    | some o => (s.val hash o k).or (s.val hash a k)

/-- What a program counter means for the atomic object. -/
def Goal.abs : Goal K V R → Spec.Pc K V R
  | .op o => .pending o
  | .tv u _ _ seen => .walking u seen

def Cont.abs : Cont K V R → Spec.Pc K V R
  | .ded g => g.abs
  | .help => .idle

def PC.abs : PC K V R → Spec.Pc K V R
  | .start g | .loaded g _ | .dedup g .. | .wait g _ | .crit g _ => g.abs
  | .fin _ _ r => .done (some r)
  | .swept u _ _ seen _ => .walking u seen
  | .done r => .done r
  | .tvDone u seen => .walking u seen
  | .rlLock c .. | .rlMove c .. | .rlKill c .. => c.abs
  | _ => .idle

def St.abs (hash : K → Nat) (s : St K V R) : Spec.St K V R :=
  { map := s.absMap hash, pc := fun t => (s.pc t).abs }

/-! ## Steps that do not change the contents -/

theorem absMap_congr {s s' : St K V R} (hcur : s'.cur = s.cur)
    (hl : ∀ x, (s'.arr x).linked = (s.arr x).linked) (hv : ∀ x k, s'.val hash x k = s.val hash x k) :
    s'.absMap hash = s.absMap hash := by
  funext k
  unfold St.absMap
  rw [hcur]
  cases s.cur with
  | none => rfl
  | some a =>
    simp only [hl, hv]

@[simp] theorem setPc_val (s : St K V R) (t : Nat) (p : PC K V R) (x : Nat) (k : K) :
    (s.setPc t p).val hash x k = s.val hash x k := rfl

@[simp] theorem setPc_absMap (s : St K V R) (t : Nat) (p : PC K V R) :
    (s.setPc t p).absMap hash = s.absMap hash := rfl

theorem setLock_absMap (s : St K V R) (x i : Nat) (l : Option Lock) :
    (s.setLock x i l).absMap hash = s.absMap hash :=
  absMap_congr rfl (by simp) (by intro y k; unfold St.val St.ix; simp)

theorem setLocks_absMap (s : St K V R) (x lo hi : Nat) (l : Option Lock) :
    (s.setLocks x lo hi l).absMap hash = s.absMap hash :=
  absMap_congr rfl (by simp) (by intro y k; unfold St.val St.ix; simp)

theorem killBkt_absMap (s : St K V R) (x i : Nat) :
    (s.killBkt x i).absMap hash = s.absMap hash :=
  absMap_congr rfl (by simp) (by intro y k; unfold St.val St.ix; simp)

/-- Only the acting thread's program counter changes, and with it what it means. -/
theorem abs_setPc (s s₀ : St K V R) (t : Nat) (p : PC K V R) (h : s₀.absMap hash = s.absMap hash)
    (hp : s₀.pc = s.pc) :
    (s₀.setPc t p).abs hash = (s.abs hash).setPc t p.abs := by
  unfold St.abs Spec.St.setPc
  simp only [setPc_absMap, h]
  congr 1
  funext u
  unfold St.setPc
  simp only [hp]
  split <;> rfl

theorem spec_setPc_self (s : Spec.St K V R) (t : Nat) (p : Spec.Pc K V R) (h : s.pc t = p) :
    s.setPc t p = s := by
  unfold Spec.St.setPc
  cases s with
  | mk m q =>
    simp only at h ⊢
    congr 1
    funext u
    split
    · rename_i hu; rw [hu, h]
    · rfl

/-- The step does not show. -/
theorem stutter {s s₀ : St K V R} {t : Nat} {p : PC K V R} (h : s₀.absMap hash = s.absMap hash)
    (hp : s₀.pc = s.pc) (ha : p.abs = (s.pc t).abs) : (s₀.setPc t p).abs hash = s.abs hash := by
  rw [abs_setPc s s₀ t p h hp]
  exact spec_setPc_self _ _ _ ha.symm

/-! ## The lookup procedure finds what is stored -/

/-- If the bucket of `k` in array `a` is not killed, nobody is emptying it, and the old buckets of its
range are dealt with, then it holds what the map holds for `k`. -/
theorem lookup_eq {s : St K V R} (hG : Glob hash s) (hh : ∀ k, hash k < 2 ^ 64) {a : Nat} {k : K}
    (ha : a < s.next) (hd : (s.b a (s.ix hash a k)).dead = false)
    (hm : ∀ t, (s.b a (s.ix hash a k)).lock ≠ some (.moving t))
    (hk : ∀ t, (s.b a (s.ix hash a k)).lock ≠ some (.kill t))
    (hp : Passed s a (s.ix hash a k)) : s.absMap hash k = s.val hash a k := by
  rcases hG.live a _ ha (ix_lt hh hG ha k) hd with h | ⟨h, hl⟩ | ⟨t, h⟩
  · unfold St.absMap
    rw [h]
    cases hl : (s.arr a).linked with
    | none => simp [hl]
    | some o =>
      have hpr := hG.linked_pred a o ha hl
      have := val_dead hG (hp o hl _ (range_of_ix hG ha (show o < s.next by omega) k))
      simp [hl, this]
  · unfold St.absMap
    rw [h]
    simp only [hl]
    have := hG.fresh a _ k h hl (ix_lt hh hG ha k) hd hm rfl
    rw [this]; simp
  · exact absurd h (hk t)

/-- Changing the contents of such a bucket changes the map for the keys of the bucket only. -/
theorem absMap_modBkt {s : St K V R} (hG : Glob hash s) (hh : ∀ k, hash k < 2 ^ 64) {a i : Nat}
    (ha : a < s.next) (hi : i < s.len a) (hd : (s.b a i).dead = false)
    (hm : ∀ t, (s.b a i).lock ≠ some (.moving t)) (hk : ∀ t, (s.b a i).lock ≠ some (.kill t))
    (hp : Passed s a i) (f : Bkt K V → Bkt K V) (k : K) :
    (s.modBkt a i f).absMap hash k =
      if s.ix hash a k = i then (f (s.b a i)).content k else s.absMap hash k := by
  have hval : ∀ x, (s.modBkt a i f).val hash x k =
      if x = a ∧ s.ix hash a k = i then (f (s.b a i)).content k else s.val hash x k := by
    intro x
    unfold St.val
    have : (s.modBkt a i f).ix hash x k = s.ix hash x k := by unfold St.ix; simp
    rw [this, modBkt_b]
    by_cases hx : x = a
    · subst hx
      by_cases hk : s.ix hash x k = i
      · simp [hk]
      · simp [hk]
    · simp [hx]
  rcases hG.live a i ha hi hd with h | ⟨h, hl⟩ | ⟨t, h⟩
  · unfold St.absMap
    simp only [modBkt_cur, h, modBkt_linked]
    cases hl : (s.arr a).linked with
    | none => simp [hval]
    | some o =>
      have hpr := hG.linked_pred a o ha hl
      have hne : o ≠ a := by omega
      simp only [hval, hne, false_and, if_false, true_and]
      split
      · rename_i h1
        have := val_dead hG (hp o hl _ (h1 ▸ range_of_ix hG ha (show o < s.next by omega) k))
        simp [this]
      · rfl
  · unfold St.absMap
    simp only [modBkt_cur, h, modBkt_linked, hl]
    have hne : ¬ (a + 1 = a) := by omega
    simp only [hval, hne, false_and, if_false, true_and]
    split
    · rename_i h1
      have := hG.fresh a i k h hl hi hd hm h1
      rw [this]; simp
    · rfl
  · exact absurd h (hk t)

/-- Moving an entry does not change the map. -/
theorem absMap_move [DecidableEq K] {s : St K V R} (h : Inv hash s) (hh : ∀ k, hash k < 2 ^ 64)
    {t a o j : Nat} {c : Cont K V R} {k : K} {v : V} (hpc : s.pc t = .rlMove c a o j)
    (hv : (s.b o j).content k = some v) :
    ((s.modBkt o j (Bkt.set k none)).modBkt a (target hash s a o j k)
        (Bkt.set k (some v))).absMap hash = s.absMap hash := by
  have hG := h.glob
  have hp := h.pc t
  rw [hpc] at hp
  obtain ⟨hc, hlk, hj, hl, hd, _⟩ := hp
  have ha := hc.lt
  have hpr := hG.linked_pred a o ha hlk
  have hcur := cur_alive hG ha hlk hj hd (by rw [hl]; simp)
  have hjk := (hG.placed o j k (by rw [hv]; simp)).1
  have htg : target hash s a o j k = s.ix hash a k := target_eq hG ha (by omega) hjk
  have hne : o ≠ a := by omega
  funext k'
  unfold St.absMap
  simp only [modBkt_cur, hcur, modBkt_linked, hlk]
  have hix : ∀ x, ((s.modBkt o j (Bkt.set k none)).modBkt a (target hash s a o j k)
        (Bkt.set k (some v))).ix hash x k' = s.ix hash x k' := by intro x; unfold St.ix; simp
  have e1 : (((s.modBkt o j (Bkt.set k none)).modBkt a (target hash s a o j k)
        (Bkt.set k (some v))).b o (s.ix hash o k')).content k' =
      if k' = k then none else (s.b o (s.ix hash o k')).content k' := by
    rw [modBkt_b, if_neg (by simp [hne]), modBkt_b]
    by_cases hkk : k' = k
    · subst hkk; rw [if_pos ⟨rfl, hjk.symm⟩]; simp [Bkt.set]
    · rw [if_neg hkk]; split
      · simp [Bkt.set, hkk]
      · rfl
  have e2 : (((s.modBkt o j (Bkt.set k none)).modBkt a (target hash s a o j k)
        (Bkt.set k (some v))).b a (s.ix hash a k')).content k' =
      if k' = k then some v else (s.b a (s.ix hash a k')).content k' := by
    have e3 : (s.modBkt o j (Bkt.set k none)).b a (s.ix hash a k') = s.b a (s.ix hash a k') := by
      rw [modBkt_b, if_neg (by simp [hne.symm])]
    rw [modBkt_b, e3]
    by_cases hkk : k' = k
    · subst hkk; rw [if_pos ⟨rfl, htg.symm⟩]; simp [Bkt.set]
    · rw [if_neg hkk]; split
      · simp [Bkt.set, hkk]
      · rfl
  unfold St.val
  rw [hix, hix, e1, e2]
  by_cases hkk : k' = k
  · subst hkk
    rw [if_pos rfl, if_pos rfl, ← hjk, hv]; simp
  · rw [if_neg hkk, if_neg hkk]

/-- When a helper was told to detach, every old bucket is dead. -/
theorem all_dead {s : St K V R} (hG : Glob hash s) {a o : Nat} (hl : (s.arr a).linked = some o)
    (hd : 0 < (s.arr o).rh.detaching) : ∀ j, j < s.len o → (s.b o j).dead = true := by
  have ha := hG.linked_lt a o hl
  have hpr := hG.linked_pred a o ha hl
  have ho : o < s.next := by omega
  have hlgo := hG.lg_le o ho
  have hdone := Rehash.c04_detached_only_when_done (Nat.two_pow_pos _)
    (Nat.pow_le_pow_right (by omega) hlgo) (hG.rh_ok o ho) (by omega)
  exact fun j hj => hG.rh_done o j hj (hdone.1 j hj)

theorem absMap_newArr {s : St K V R} (hG : Glob hash s) (hh : ∀ k, hash k < 2 ^ 64) (lg : Nat)
    (hl : ∀ a, s.cur = some a → (s.arr a).linked = none) :
    ({ s.setArr s.next (Arr.new lg s.cur) with
        next := s.next + 1, cur := some s.next } : St K V R).absMap hash = s.absMap hash := by
  funext k
  unfold St.absMap
  have e1 : ((s.setArr s.next (Arr.new lg s.cur)).arr s.next) = Arr.new lg s.cur := by
    simp [St.setArr]
  simp only [e1]
  have e2 : ({ s.setArr s.next (Arr.new lg s.cur) with
        next := s.next + 1, cur := some s.next } : St K V R).val hash s.next k = none := by
    unfold St.val St.b
    simp only [e1]
    rfl
  cases hc : s.cur with
  | none =>
    rw [hc] at e2
    exact e2
  | some a =>
    have := hG.cur_last a hc
    rw [hc] at e2
    simp only [Arr.new, hl a hc]
    have e3 : ({ s.setArr s.next (Arr.new lg s.cur) with
        next := s.next + 1, cur := some s.next } : St K V R).val hash a k = s.val hash a k := by
      unfold St.val St.ix St.b St.setArr
      have hne : a ≠ s.next := by omega
      simp [hne]
    rw [hc] at e3
    unfold Arr.new at e2 e3
    rw [e2, e3]; simp

theorem absMap_detach {s : St K V R} (hG : Glob hash s) (hh : ∀ k, hash k < 2 ^ 64) {a o : Nat}
    {m : Rehash.State} (hl : (s.arr a).linked = some o)
    (hd : ∀ j, j < s.len o → (s.b o j).dead = true) :
    ((s.setArr o { s.arr o with rh := m }).setArr a
        { s.arr a with linked := none }).absMap hash = s.absMap hash := by
  have ha := hG.linked_lt a o hl
  have hpr := hG.linked_pred a o ha hl
  have hne : o ≠ a := by omega
  funext k
  have e1 : ∀ x, ((s.setArr o { s.arr o with rh := m }).setArr a
        { s.arr a with linked := none }).val hash x k = s.val hash x k := by
    intro x
    unfold St.val St.ix St.b St.setArr
    simp only
    by_cases h1 : x = a
    · subst h1; simp
    · by_cases h2 : x = o
      · subst h2; simp [h1]
      · simp [h1, h2]
  unfold St.absMap
  have e2 : ((s.setArr o { s.arr o with rh := m }).setArr a
        { s.arr a with linked := none }).cur = s.cur := rfl
  rw [e2]
  cases hc : s.cur with
  | none => rfl
  | some c =>
    simp only [e1]
    have e3 : (((s.setArr o { s.arr o with rh := m }).setArr a
        { s.arr a with linked := none }).arr c).linked = if c = a then none else (s.arr c).linked := by
      unfold St.setArr
      simp only
      split
      · rfl
      · split
        · rename_i h2; subst h2; rfl
        · rfl
    rw [e3]
    split
    · rename_i h1
      split at h1
      · rename_i h2; subst h2
        simp only [hl]
        have := hG.cur_last c hc
        have := val_dead (hash := hash) (k := k) hG (hd _ (ix_lt hh hG (x := o) (by omega) k))
        rw [this]; simp
      · simp only [h1]
    · rename_i h1
      split at h1
      · cases h1
      · simp only [h1]

/-! ## The simulation -/

theorem spec_put_same [DecidableEq K] (s : Spec.St K V R) (k : K) : s.put k (s.map k) = s := by
  unfold Spec.St.put
  cases s with
  | mk m p =>
    simp only
    congr 1
    funext k'
    split
    · rename_i h; rw [h]
    · rfl

theorem spec_sweep_none [DecidableEq K] (s : Spec.St K V R) (u : K → V → Option V) : s.sweep (fun _ => false) u = s := by
  unfold Spec.St.sweep
  simp

theorem spec_panic [DecidableEq K] {s : Spec.St K V R} {t : Nat} {g : Goal K V R} (e : s.pc t = g.abs) :
    Spec.Step s (some (g.panicEvent t)) (s.setPc t .idle) := by
  cases g with
  | op o => exact .panic (o := o) e
  | tv u i p seen =>
    have := Spec.Step.tvPanic (s := s) (t := t) (u := u) (seen := seen) (fun _ => false) e
    rw [spec_sweep_none] at this
    exact this

theorem sim_step [DecidableEq K] (hh : ∀ k, hash k < 2 ^ 64) {s s' : St K V R}
    {e : Option (Event K V R)} (h : Inv hash s) (st : Step hash s e s') :
    (e = none ∧ s'.abs hash = s.abs hash) ∨ Spec.Step (s.abs hash) e (s'.abs hash) := by
  have hG := h.glob
  cases st with
  | @invoke t o hpc =>
    right
    rw [abs_setPc s s _ _ rfl rfl]
    exact .inv (by show (s.pc t).abs = _; rw [hpc]; rfl)
  | @tvInvoke t u hpc =>
    right
    rw [abs_setPc s s _ _ rfl rfl]
    exact .tvInv (by show (s.pc t).abs = _; rw [hpc]; rfl)
  | @loadNone t o hpc hcr hcur =>
    right
    have hm : s.absMap hash o.key = none := by unfold St.absMap; rw [hcur]
    have := Spec.Step.lin (s := s.abs hash) (t := t) (o := o) (by show (s.pc t).abs = _; rw [hpc]; rfl)
    have e1 : (s.abs hash).map o.key = none := hm
    rw [e1] at this
    have e2 : (s.abs hash).put o.key (o.f none).1 = s.abs hash := by
      rw [o.absent hcr, ← e1]; exact spec_put_same _ _
    rw [e2] at this
    rw [abs_setPc s s _ _ rfl rfl]
    exact this
  | tvLoadNone hpc hcur => exact Or.inl ⟨rfl, stutter rfl rfl (by rw [hpc]; rfl)⟩
  | @alloc t o lg hpc hcr hcur h1 h57 =>
    left
    refine ⟨rfl, ?_⟩
    have := absMap_newArr hG hh lg (by intro a ha; rw [hcur] at ha; cases ha)
    rw [hcur] at this
    exact stutter this rfl (by rw [hpc]; rfl)
  | @load t g a hpc hcur =>
    exact Or.inl ⟨rfl, stutter rfl rfl (by rw [hpc]; cases g <;> rfl)⟩
  | linkNone hpc hl => exact Or.inl ⟨rfl, stutter rfl rfl (by rw [hpc]; rfl)⟩
  | linkSome hpc hl => exact Or.inl ⟨rfl, stutter rfl rfl (by rw [hpc]; rfl)⟩
  | dedupSkip hpc hj hd => exact Or.inl ⟨rfl, stutter rfl rfl (by rw [hpc]; rfl)⟩
  | dedupLock hpc hj hd hl =>
    exact Or.inl ⟨rfl, stutter (setLock_absMap ..) rfl (by rw [hpc]; rfl)⟩
  | dedupDone hpc hj => exact Or.inl ⟨rfl, stutter rfl rfl (by rw [hpc]; rfl)⟩
  | dedupUnlinked hpc hl => exact Or.inl ⟨rfl, stutter rfl rfl (by rw [hpc]; rfl)⟩
  | retry hpc =>
    refine Or.inl ⟨rfl, stutter rfl rfl ?_⟩
    rcases hpc with hpc | ⟨_, _, hpc⟩ | hpc <;> (rw [hpc]; rfl)
  | @read t o a hpc hro hd hl =>
    right
    have hp := h.pc t
    rw [hpc] at hp
    have hm : (s.abs hash).map o.key = s.val hash a o.key :=
      lookup_eq hG hh hp.1 hd (by intro t; unfold St.ix; rw [hl]; simp)
        (by intro t; unfold St.ix; rw [hl]; simp) hp.2.2
    have := Spec.Step.lin (s := s.abs hash) (t := t) (o := o) (by show (s.pc t).abs = _; rw [hpc]; rfl)
    rw [o.same hro, spec_put_same, hm] at this
    rw [abs_setPc s s _ _ rfl rfl]
    exact this
  | lock hpc hd hl => exact Or.inl ⟨rfl, stutter (setLock_absMap ..) rfl (by rw [hpc]; rfl)⟩
  | @commit t o a hpc =>
    right
    have hp := h.pc t
    rw [hpc] at hp
    obtain ⟨ha, _, hpass, hlock, hdead⟩ := hp
    have hpass : Passed s a (s.ix hash a o.key) := hpass
    have hdead : (s.b a (s.ix hash a o.key)).dead = false := hdead
    have hnm : ∀ u, (s.b a (s.ix hash a o.key)).lock ≠ some (.moving u) := by
      intro u hu
      have : (s.b a (s.ix hash a o.key)).lock = some (.user t) := hlock
      rw [this] at hu; cases hu
    have hnk : ∀ u, (s.b a (s.ix hash a o.key)).lock ≠ some (.kill u) := by
      intro u hu
      have : (s.b a (s.ix hash a o.key)).lock = some (.user t) := hlock
      rw [this] at hu; cases hu
    have hm : (s.abs hash).map o.key = s.val hash a o.key := lookup_eq hG hh ha hdead hnm hnk hpass
    have := Spec.Step.lin (s := s.abs hash) (t := t) (o := o) (by show (s.pc t).abs = _; rw [hpc]; rfl)
    rw [hm] at this
    have e : ((s.modBkt a (s.ix hash a o.key) (Bkt.set o.key
          (o.f (s.val hash a o.key)).1)).setPc t
        (.fin o a (o.f (s.val hash a o.key)).2)).abs hash =
        ((s.abs hash).put o.key (o.f (s.val hash a o.key)).1).setPc t
          (.done (some (o.f (s.val hash a o.key)).2)) := by
      unfold St.abs Spec.St.put Spec.St.setPc
      simp only [setPc_absMap]
      congr 1
      · funext k
        rw [absMap_modBkt hG hh ha (ix_lt hh hG ha _) hdead hnm hnk hpass]
        by_cases hk : k = o.key
        · subst hk; simp [Bkt.set]
        · simp only [Bkt.set, if_neg hk]
          split
          · rename_i hi
            rw [← hi] at hdead hnm hnk hpass ⊢
            exact (lookup_eq hG hh ha hdead hnm hnk hpass).symm
          · rfl
      · funext u
        unfold St.setPc
        simp only [modBkt_pc]
        split <;> rfl
    have e' := e ▸ this
    exact e'
  | @commitEvict t o a g k' w hpc hev hno hne hw =>
    right
    have hp := h.pc t
    rw [hpc] at hp
    obtain ⟨ha, _, hpass, hlock, hdead⟩ := hp
    have hpass : Passed s a (s.ix hash a o.key) := hpass
    have hdead : (s.b a (s.ix hash a o.key)).dead = false := hdead
    have hlock : (s.b a (s.ix hash a o.key)).lock = some (.user t) := hlock
    have hnm : ∀ u, (s.b a (s.ix hash a o.key)).lock ≠ some (.moving u) := by intro u; rw [hlock]; simp
    have hnk : ∀ u, (s.b a (s.ix hash a o.key)).lock ≠ some (.kill u) := by intro u; rw [hlock]; simp
    have hm : (s.abs hash).map o.key = s.val hash a o.key := lookup_eq hG hh ha hdead hnm hnk hpass
    have hw : (s.b a (s.ix hash a o.key)).content k' = some w := hw
    have hix : s.ix hash a k' = s.ix hash a o.key := (hG.placed a _ k' (by rw [hw]; simp)).1.symm
    have hm' : (s.abs hash).map k' = some w := by
      have : (s.abs hash).map k' = s.val hash a k' := by
        rw [← hix] at hdead hnm hnk hpass
        exact lookup_eq hG hh ha hdead hnm hnk hpass
      rw [this]
      unfold St.val
      rw [hix]
      exact hw
    have := Spec.Step.linEvict (s := s.abs hash) (t := t) (o := o) (f := g) (k := k') (v := w)
      (by show (s.pc t).abs = _; rw [hpc]; rfl) hev (hm.trans hno) hne hm'
    have e : ((s.modBkt a (s.ix hash a o.key) (Bkt.set o.key (o.f none).1 ∘ Bkt.set k' none)).setPc t
        (.fin o a (g k' w))).abs hash =
        (((s.abs hash).put k' none).put o.key (o.f none).1).setPc t (.done (some (g k' w))) := by
      unfold St.abs Spec.St.put Spec.St.setPc
      simp only [setPc_absMap]
      congr 1
      · funext k
        rw [absMap_modBkt hG hh ha (ix_lt hh hG ha _) hdead hnm hnk hpass]
        by_cases hk : k = o.key
        · subst hk; simp [Bkt.set]
        · simp only [Bkt.set, Function.comp, if_neg hk]
          by_cases hk' : k = k'
          · subst hk'; simp [hix]
          · simp only [if_neg hk']
            split
            · rename_i hi
              rw [← hi] at hdead hnm hnk hpass ⊢
              exact (lookup_eq hG hh ha hdead hnm hnk hpass).symm
            · rfl
      · funext u
        unfold St.setPc
        simp only [modBkt_pc]
        split <;> rfl
    have e' := e ▸ this
    exact e'
  | unlock hpc => exact Or.inl ⟨rfl, stutter (setLock_absMap ..) rfl (by rw [hpc]; rfl)⟩
  | @visit t u i p seen a hpc =>
    right
    have hp := h.pc t
    rw [hpc] at hp
    obtain ⟨ha, hg, hpass, hlock, hdead⟩ := hp
    have hlock : (s.b a i).lock = some (.user t) := hlock
    have hnm : ∀ u, (s.b a i).lock ≠ some (.moving u) := by intro u; rw [hlock]; simp
    have hnk : ∀ u, (s.b a i).lock ≠ some (.kill u) := by intro u; rw [hlock]; simp
    have := Spec.Step.tvSweep (s := s.abs hash) (t := t) (u := u) (seen := seen)
      (fun k => decide (s.ix hash a k = i)) (by show (s.pc t).abs = _; rw [hpc]; rfl)
    have hm : ∀ k, s.ix hash a k = i → (s.abs hash).map k = (s.b a i).content k := by
      intro k hk
      subst hk
      exact lookup_eq hG hh ha hdead hnm hnk hpass
    have hother : ∀ k, s.ix hash a k ≠ i → (s.b a i).content k = none := by
      intro k hk
      apply Classical.byContradiction
      intro hc
      exact hk (hG.placed a i k hc).1.symm
    refine Eq.mp ?_ this
    congr 1
    unfold St.abs Spec.St.sweep Spec.St.setPc
    simp only [setPc_absMap]
    congr 1
    · funext k
      rw [absMap_modBkt hG hh ha hg.2 hdead hnm hnk hpass]
      by_cases hk : s.ix hash a k = i
      · have := hm k hk
        unfold St.abs at this
        simp only at this
        simp [hk, this]
      · simp [hk]
    · funext w
      unfold St.setPc
      simp only [modBkt_pc]
      split
      · unfold PC.abs
        simp only
        congr 1
        funext k
        by_cases hk : s.ix hash a k = i
        · have := hm k hk
          unfold St.abs at this
          simp only at this
          simp [hk, this]
        · simp [hk, hother k hk]
      · rfl
  | @tvUnlock t u i p seen a hpc =>
    refine Or.inl ⟨rfl, stutter (setLock_absMap ..) rfl ?_⟩
    rw [hpc]; split <;> rfl
  | @ret t r hpc =>
    right
    rw [abs_setPc s s _ _ rfl rfl]
    exact .ret (by show (s.pc t).abs = _; rw [hpc]; rfl)
  | @tvRet t u seen hpc =>
    right
    rw [abs_setPc s s _ _ rfl rfl]
    exact .tvRet (u := u) (by show (s.pc t).abs = _; rw [hpc]; rfl)
  | @busy t o a hpc htry =>
    right
    rw [abs_setPc s s _ _ rfl rfl]
    refine .abort (o := o) ?_ htry
    show (s.pc t).abs = _
    rcases hpc with ⟨_, _, hpc⟩ | hpc <;> (rw [hpc]; rfl)
  | @cancel t g hpc =>
    right
    rw [abs_setPc s s _ _ rfl rfl]
    have e : (s.pc t).abs = g.abs := by
      generalize s.pc t = q at hpc
      cases hpc <;> rfl
    cases g with
    | op o => exact .cancel (o := o) e
    | tv u i p seen => exact .tvCancel (u := u) (seen := seen) e
  | @panic t g hpc =>
    right
    rw [abs_setPc s s _ _ rfl rfl]
    have e : (s.pc t).abs = g.abs := by
      generalize s.pc t = q at hpc
      cases hpc <;> rfl
    exact spec_panic e
  | @critPanic t o a hpc =>
    right
    rw [abs_setPc s _ _ _ (setLock_absMap ..) rfl]
    exact .panic (o := o) (by show (s.pc t).abs = _; rw [hpc]; rfl)
  | @tvPanic t u i p seen a S hpc =>
    right
    have hp := h.pc t
    rw [hpc] at hp
    obtain ⟨ha, hg, hpass, hlock, hdead⟩ := hp
    have hlock : (s.b a i).lock = some (.user t) := hlock
    have hnm : ∀ u, (s.b a i).lock ≠ some (.moving u) := by intro u; rw [hlock]; simp
    have hnk : ∀ u, (s.b a i).lock ≠ some (.kill u) := by intro u; rw [hlock]; simp
    have := Spec.Step.tvPanic (s := s.abs hash) (t := t) (u := u) (seen := seen)
      (fun k => decide (s.ix hash a k = i) && S k) (by show (s.pc t).abs = _; rw [hpc]; rfl)
    have hm : ∀ k, s.ix hash a k = i → (s.abs hash).map k = (s.b a i).content k := by
      intro k hk
      subst hk
      exact lookup_eq hG hh ha hdead hnm hnk hpass
    refine Eq.mp ?_ this
    congr 1
    unfold St.abs Spec.St.sweep Spec.St.setPc
    simp only [setPc_absMap, setLock_absMap]
    congr 1
    · funext k
      rw [absMap_modBkt hG hh ha hg.2 hdead hnm hnk hpass]
      by_cases hk : s.ix hash a k = i
      · have := hm k hk
        unfold St.abs at this
        simp only at this
        simp [hk, this, Bkt.partly]
      · simp [hk]
    · funext w
      simp only [St.setPc]
      split <;> rfl
  | @rlPanic t g a o j n hpc =>
    right
    have e : ((s.setLocks a (s.rng o a j).1 n none).setLock o j none).absMap hash =
        s.absMap hash := by rw [setLock_absMap, setLocks_absMap]
    rw [abs_setPc s _ _ _ e rfl]
    exact spec_panic (show (s.pc t).abs = g.abs by rw [hpc]; rfl)
  | @rlPanicHelp t a o j n hpc =>
    right
    have e : (((s.setLocks a (s.rng o a j).1 n none).setLock o j none).setPc t .idle).abs
        hash = s.abs hash :=
      stutter (by rw [setLock_absMap, setLocks_absMap]) rfl (by rw [hpc]; rfl)
    rw [e]
    exact .helpPanic (by show (s.pc t).abs = _; rw [hpc]; rfl)
  | rlBack hpc _ => exact Or.inl ⟨rfl, stutter (setLock_absMap ..) rfl (by rw [hpc]; rfl)⟩
  | helpLoad hpc hcur => exact Or.inl ⟨rfl, stutter rfl rfl (by rw [hpc]; rfl)⟩
  | helpLink hpc hl => exact Or.inl ⟨rfl, stutter rfl rfl (by rw [hpc]; rfl)⟩
  | helpQuit hpc =>
    refine Or.inl ⟨rfl, stutter rfl rfl ?_⟩
    rcases hpc with hpc | ⟨_, hpc⟩ <;> (rw [hpc]; rfl)
  | helpLock hpc hj hd hl => exact Or.inl ⟨rfl, stutter (setLock_absMap ..) rfl (by rw [hpc]; rfl)⟩
  | @rlEmpty t c a o j n hpc hn he =>
    exact Or.inl ⟨rfl, stutter (killBkt_absMap ..) rfl (by rw [hpc]; cases c <;> rfl)⟩
  | rlTarget hpc hn hl => exact Or.inl ⟨rfl, stutter (setLock_absMap ..) rfl (by rw [hpc]; rfl)⟩
  | @rlAbort t c a o j n hpc hm =>
    have e : ((s.setLocks a (s.rng o a j).1 n none).setLock o j none).absMap hash = s.absMap hash := by
      rw [setLock_absMap, setLocks_absMap]
    cases c with
    | ded g =>
      cases g with
      | op o' =>
        right
        rw [abs_setPc s _ _ _ e rfl]
        exact .abort (o := o') (by show (s.pc t).abs = _; rw [hpc]; rfl) hm
      | tv _ _ _ _ => exact absurd hm (by simp [Cont.mayFail])
    | help => exact Or.inl ⟨rfl, stutter e rfl (by rw [hpc]; rfl)⟩
  | @rlLeak t g a o j n hpc =>
    right
    have e : ((s.setLocks a (s.rng o a j).1 n (some .leaked)).setLock o j none).absMap hash =
        s.absMap hash := by rw [setLock_absMap, setLocks_absMap]
    rw [abs_setPc s _ _ _ e rfl]
    have e : (s.pc t).abs = g.abs := by rw [hpc]; rfl
    cases g with
    | op o => exact .cancel (o := o) e
    | tv u i p seen => exact .tvCancel (u := u) (seen := seen) e
  | @rlLeakHelp t a o j n hpc =>
    right
    have e : (((s.setLocks a (s.rng o a j).1 n (some .leaked)).setLock o j none).setPc t .idle).abs
        hash = s.abs hash :=
      stutter (by rw [setLock_absMap, setLocks_absMap]) rfl (by rw [hpc]; rfl)
    rw [e]
    exact .helpCancel (by show (s.pc t).abs = _; rw [hpc]; rfl)
  | rlBegin hpc hn => exact Or.inl ⟨rfl, stutter (setLock_absMap ..) rfl (by rw [hpc]; rfl)⟩
  | rlMove hpc hv =>
    refine Or.inl ⟨rfl, ?_⟩
    unfold St.abs
    rw [absMap_move h hh hpc hv]
    rfl
  | rlUnlock hpc he => exact Or.inl ⟨rfl, stutter (setLocks_absMap ..) rfl (by rw [hpc]; rfl)⟩
  | @rlKill t c a o j hpc =>
    exact Or.inl ⟨rfl, stutter (killBkt_absMap ..) rfl (by rw [hpc]; cases c <;> rfl)⟩
  | @rehash o m hst hd hdt =>
    refine Or.inl ⟨rfl, ?_⟩
    unfold St.abs
    have : (s.setArr o { s.arr o with rh := m }).absMap hash = s.absMap hash := by
      refine absMap_congr rfl ?_ ?_
      · intro x; unfold St.setArr; simp only; split
        · rename_i hx; subst hx; rfl
        · rfl
      · intro x k; unfold St.val St.ix St.b St.setArr; simp only; split
        · rename_i hx; subst hx; rfl
        · rfl
    rw [this]; rfl
  | @detach a o hl hdt =>
    refine Or.inl ⟨rfl, ?_⟩
    unfold St.abs
    rw [absMap_detach hG hh hl (all_dead hG hl hdt)]
    rfl
  | rzLoad hpc hcur => exact Or.inl ⟨rfl, stutter rfl rfl (by rw [hpc]; rfl)⟩
  | rzLink hpc hl => exact Or.inl ⟨rfl, stutter rfl rfl (by rw [hpc]; rfl)⟩
  | rzQuit hpc =>
    refine Or.inl ⟨rfl, stutter rfl rfl ?_⟩
    rcases hpc with hpc | hpc <;> (rw [hpc]; rfl)
  | rzLock hpc hz => exact Or.inl ⟨rfl, stutter rfl rfl (by rw [hpc]; rfl)⟩
  | rzCheck hpc hcur => exact Or.inl ⟨rfl, stutter rfl rfl (by rw [hpc]; rfl)⟩
  | rzNothing hpc =>
    refine Or.inl ⟨rfl, stutter rfl rfl ?_⟩
    rcases hpc with hpc | hpc <;> (rw [hpc]; rfl)
  | @rzSwap t a lg hpc h1 h57 =>
    have hp := h.pc t
    rw [hpc] at hp
    refine Or.inl ⟨rfl, stutter (absMap_newArr hG hh lg ?_) rfl (by rw [hpc]; rfl)⟩
    intro a' ha'; rw [hp.2.2.2] at ha'; cases ha'; exact hp.2.1
  | rzRelease hpc => exact Or.inl ⟨rfl, stutter rfl rfl (by rw [hpc]; rfl)⟩
  | rzDropStart hpc => exact Or.inl ⟨rfl, stutter rfl rfl (by rw [hpc]; rfl)⟩
  | rzDropLock hpc hi hd hl he =>
    exact Or.inl ⟨rfl, stutter (setLock_absMap ..) rfl (by rw [hpc]; rfl)⟩
  | rzDropFail hpc => exact Or.inl ⟨rfl, stutter (setLocks_absMap ..) rfl (by rw [hpc]; rfl)⟩
  | @rzDropSwap t a i hpc hi =>
    have hp := h.pc t
    rw [hpc] at hp
    obtain ⟨ha, hlk, _, hcur, _, hheld⟩ := hp
    refine Or.inl ⟨rfl, stutter ?_ rfl (by rw [hpc]; rfl)⟩
    funext k
    have : s.absMap hash k = none := by
      unfold St.absMap
      simp only [hcur, hlk]
      have hix := ix_lt hh hG ha k
      exact hG.drop_empty a _ t (Or.inl (hheld _ (by rw [hi]; exact hix)).1) k
    rw [this]; rfl
  | rzKillOne hpc hi => exact Or.inl ⟨rfl, stutter (killBkt_absMap ..) rfl (by rw [hpc]; rfl)⟩
  | rzKillEnd hpc hi => exact Or.inl ⟨rfl, stutter rfl rfl (by rw [hpc]; rfl)⟩
  | emNone hpc _ => exact Or.inl ⟨rfl, stutter rfl rfl (by rw [hpc]; rfl)⟩
  | emLoad hpc _ => exact Or.inl ⟨rfl, stutter rfl rfl (by rw [hpc]; rfl)⟩
  | emLinkNone hpc _ => exact Or.inl ⟨rfl, stutter rfl rfl (by rw [hpc]; rfl)⟩
  | emLinkSome hpc _ => exact Or.inl ⟨rfl, stutter rfl rfl (by rw [hpc]; rfl)⟩
  | emOld hpc _ _ => exact Or.inl ⟨rfl, stutter rfl rfl (by rw [hpc]; rfl)⟩
  | emOldFound hpc _ _ => exact Or.inl ⟨rfl, stutter rfl rfl (by rw [hpc]; rfl)⟩
  | emOldEnd hpc _ => exact Or.inl ⟨rfl, stutter rfl rfl (by rw [hpc]; rfl)⟩
  | emCur hpc _ _ => exact Or.inl ⟨rfl, stutter rfl rfl (by rw [hpc]; rfl)⟩
  | emCurFound hpc _ _ => exact Or.inl ⟨rfl, stutter rfl rfl (by rw [hpc]; rfl)⟩
  | emEnd hpc _ => exact Or.inl ⟨rfl, stutter rfl rfl (by rw [hpc]; rfl)⟩
  | emRet hpc => exact Or.inl ⟨rfl, stutter rfl rfl (by rw [hpc]; rfl)⟩

/-- The contents do not change by detaching: trace inclusion. -/
theorem sim_exec [DecidableEq K] (hh : ∀ k, hash k < 2 ^ 64) {s s' : St K V R}
    {es : List (Event K V R)} (h : Inv hash s) (ex : Exec hash s es s') :
    Spec.Exec (s.abs hash) es (s'.abs hash) := by
  induction ex with
  | nil => exact .nil
  | tau ex st ih =>
    rcases sim_step hh (inv_exec hh h ex) st with ⟨_, e⟩ | st'
    · rw [e]; exact ih
    · exact .tau ih st'
  | event ex st ih =>
    rcases sim_step hh (inv_exec hh h ex) st with ⟨e, _⟩ | st'
    · cases e
    · exact .event ih st'

end Scc.Table
