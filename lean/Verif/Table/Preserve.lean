import Verif.Table.Struct

/-!
# The invariant holds in every reachable state
-/

namespace Scc.Table

open Scc.Index (bucketIndex fromIndexToRange InRange c05_hash_in_range c05_range_bounds c05_range_dual
  bucketIndex_lt)

variable {K V R : Type} {hash : K → Nat}

theorem startOk_of_goalOk {s : St K V R} (hG : Glob hash s) {a : Nat} (ha : a < s.next)
    {g : Goal K V R} (hg : GoalOk s a g) : StartOk g := by
  cases g with
  | op _ => trivial
  | tv _ i p _ =>
    exact Or.inr ⟨(s.arr a).lg, hG.lg_le a ha, hg.1, by rw [hg.1]; exact hg.2⟩

theorem goalOk_load {s : St K V R} (a : Nat) {g : Goal K V R} (hg : StartOk g) :
    GoalOk s a (g.load (s.len a)) := by
  cases g with
  | op _ => trivial
  | tv _ i p _ =>
    refine ⟨rfl, ?_⟩
    unfold tvIndex
    have hpos : 0 < s.len a := Nat.two_pow_pos _
    rcases hg with ⟨h1, h2⟩ | ⟨l, _, h1, h2⟩
    · rw [if_pos (Or.inl h1), h2]; exact hpos
    · split
      · rename_i h3
        rcases h3 with h3 | h3
        · omega
        · omega
      · rw [h1]
        have := c05_range_bounds (a := l) (b := (s.arr a).lg) (i := i) (by omega)
        unfold St.len
        omega

theorem goalOk_of_passes {s : St K V R} {a : Nat} {g : Goal K V R} {t : Nat}
    (h : Inv hash s)
    (hpc : s.pc t = .loaded g a ∨ (∃ o j, s.pc t = .dedup g a o j) ∨ s.pc t = .wait g a) :
    a < s.next ∧ GoalOk s a g := by
  have hp := h.pc t
  rcases hpc with h1 | ⟨o, j, h1⟩ | h1
  · rw [h1] at hp; exact hp
  · rw [h1] at hp; exact ⟨hp.1, hp.2.1⟩
  · rw [h1] at hp; exact ⟨hp.1, hp.2.1⟩

theorem lockStep_abort {s : St K V R} {t a o j lo n : Nat} {l : Option Lock} {p : PC K V R}
    (hao : a ≠ o) (hl : (s.b o j).lock = some (.reloc t)) (hh : HeldTargets s t a lo n)
    (h4 : ∀ u, l ≠ some (.kill u)) (h5 : ∀ u, l ≠ some (.drop u)) :
    LockStep t s (((s.setLocks a lo n l).setLock o j none).setPc t p) := by
  refine ⟨rfl, rfl, rfl, by simp, by simp, by simp, by simp, by simp, ?_⟩
  intro y i
  simp only [setPc_b, setLock_lock, setLocks_lock]
  split
  · rename_i h; obtain ⟨rfl, rfl⟩ := h
    refine Or.inr ⟨Or.inr ⟨_, hl, rfl⟩, ?_, ?_, by simp, by simp, by simp⟩ <;> (intro u; rw [hl]; simp)
  · split
    · rename_i h; obtain ⟨rfl, h1, h2⟩ := h
      have h3 := hh i h1 h2
      refine Or.inr ⟨Or.inr ⟨_, h3.1, rfl⟩, ?_, ?_, h4, ?_, ?_⟩
      · intro u; rw [h3.1]; simp
      · intro u; rw [h3.1]; simp
      · intro u hu; exact absurd hu (h5 u)
      · rw [h3.2]; simp
    · exact Or.inl rfl

theorem setPc_setLock_setPc (s : St K V R) (t : Nat) (p q : PC K V R) (a i : Nat) (l : Option Lock) :
    ((s.setPc t p).setLock a i l).setPc t q = (s.setLock a i l).setPc t q := by
  unfold St.setPc
  congr 1
  funext u
  by_cases h : u = t <;> simp [h, St.setLock, St.modBkt, St.mapBkts, St.setArr]

theorem range_lt {s : St K V R} {x y i j : Nat} (hi : i < s.len x) (hj : j < (s.rng x y i).2) :
    j < s.len y := by
  have hb := c05_range_bounds (a := (s.arr x).lg) (b := (s.arr y).lg) (i := i) hi
  unfold St.rng St.len at *
  omega

theorem range_le {s : St K V R} {x y i : Nat} (hi : i < s.len x) :
    (s.rng x y i).1 ≤ (s.rng x y i).2 := by
  have hb := c05_range_bounds (a := (s.arr x).lg) (b := (s.arr y).lg) (i := i) hi
  unfold St.rng St.len at *
  omega

/-- Locking an old bucket for relocation. -/
theorem inv_relocStart {s : St K V R} {t a o j : Nat} {c : Cont K V R} (h : Inv hash s)
    (hl : (s.arr a).linked = some o) (hjo : j < s.len o) (hd : (s.b o j).dead = false)
    (hlk : (s.b o j).lock = none) (hc : ContOk hash s a o j c) :
    Inv hash ((s.setLock o j (some (.reloc t))).setPc t (.rlLock c a o j (s.rng o a j).1)) := by
  have hls : LockStep t s ((s.setLock o j (some (.reloc t))).setPc t
      (.rlLock c a o j (s.rng o a j).1)) :=
    lockStep_setLock (Or.inl hlk) (by rw [hlk]; simp) (by rw [hlk]; simp) (by simp) (by simp)
      (by rw [hd]; simp)
  refine hls.inv h ?_ (fun u hu => by rw [setPc_other _ _ _ _ hu]; rfl)
  rw [setPc_self]
  simp only [PcOk]
  rw [hls.linked, hls.len, hls.rng, hls.dead]
  refine ⟨hls.contOk hc, hl, hjo, ?_, hd, Nat.le_refl _, range_le hjo, ?_⟩
  · rw [setPc_b, setLock_lock, if_pos ⟨rfl, rfl⟩]
  · intro i h1 h2; omega

/-- What a relocation's caller knows after the old bucket was killed. -/
theorem contOk_next {s : St K V R} {t a o j : Nat} {c : Cont K V R}
    (hl : (s.arr a).linked = some o) (hc : ContOk hash s a o j c) (hao : a = o + 1) :
    PcOk hash ((s.killBkt o j).setPc t (c.next a o j)) t (c.next a o j) := by
  have hlen : ∀ y, ((s.killBkt o j).setPc t (c.next a o j)).len y = s.len y := by
    intro y; unfold St.len; simp
  have hrng : ∀ x y i, ((s.killBkt o j).setPc t (c.next a o j)).rng x y i = s.rng x y i := by
    intro x y i; unfold St.rng; rw [hlen, hlen]
  cases c with
  | ded g =>
    simp only [ContOk, DedupOk] at hc
    simp only [Cont.next, PcOk, DedupOk]
    simp only [Cont.next] at hlen hrng
    refine ⟨hc.1.1, ?_, hao, Or.inr ⟨by simpa using hl, ?_⟩⟩
    · cases g with
      | op _ => trivial
      | tv _ i p _ => simp only [GoalOk] at *; rw [hlen]; exact hc.1.2.1
    · intro j' h1 h2
      rw [hrng] at h1
      simp only [setPc_arr, killBkt_lg] at h1
      rw [setPc_b, killBkt_dead]
      split
      · rfl
      · rename_i hne
        rcases hc.1.2.2.2 with ⟨h3, _⟩ | ⟨_, h3⟩
        · rw [hl] at h3; cases h3
        · refine h3 j' h1 ?_
          have : j' ≠ j := fun e => hne ⟨rfl, e⟩
          omega
  | help =>
    simp only [Cont.next, PcOk]
    exact ⟨hc.1, hao, Or.inr (by simpa using hl)⟩

/-- A relocation that has not moved anything yet. -/
theorem inv_back {s : St K V R} {t a o j : Nat} {c : Cont K V R} (h : Inv hash s) (hpc : s.pc t = .rlMove c a o j)
    (hne : ∀ i k, (s.b a i).content k ≠ none → bucketIndex (s.arr o).lg (hash k) ≠ j) :
    Inv hash ((s.setLock o j (some (.reloc t))).setPc t (.rlLock c a o j (s.rng o a j).2)) := by
  have hG := h.glob
  have hp := h.pc t
  rw [hpc] at hp
  obtain ⟨hc, hlk, hj, hlo, hd, hheld⟩ := hp
  have ha := hc.lt
  have hpr := hG.linked_pred a o ha hlk
  generalize hs : (s.setLock o j (some (.reloc t))).setPc t (.rlLock c a o j (s.rng o a j).2) = s'
  have hnext : s'.next = s.next := by rw [← hs]; rfl
  have hcur : s'.cur = s.cur := by rw [← hs]; rfl
  have hrz : s'.rz = s.rz := by rw [← hs]; rfl
  have hlg : ∀ x, (s'.arr x).lg = (s.arr x).lg := by intro x; rw [← hs]; simp
  have hlkd : ∀ x, (s'.arr x).linked = (s.arr x).linked := by intro x; rw [← hs]; simp
  have hrh : ∀ x, (s'.arr x).rh = (s.arr x).rh := by intro x; rw [← hs]; simp
  have hcon : ∀ x i, (s'.b x i).content = (s.b x i).content := by intro x i; rw [← hs]; simp
  have hdead : ∀ x i, (s'.b x i).dead = (s.b x i).dead := by intro x i; rw [← hs]; simp
  have hlock : ∀ x i, (s'.b x i).lock = if x = o ∧ i = j then some (.reloc t) else (s.b x i).lock := by
    intro x i; rw [← hs, setPc_b, setLock_lock]
  have hpc' : s'.pc t = .rlLock c a o j (s.rng o a j).2 := by rw [← hs, setPc_self]
  have hoth : ∀ u, u ≠ t → s'.pc u = s.pc u := by intro u hu; rw [← hs, setPc_other _ _ _ _ hu]; rfl
  clear hs
  have hlen : ∀ x, s'.len x = s.len x := by intro x; unfold St.len; rw [hlg]
  have hix : ∀ x k, s'.ix hash x k = s.ix hash x k := by intro x k; unfold St.ix; rw [hlg]
  have hval : ∀ x k, s'.val hash x k = s.val hash x k := by intro x k; unfold St.val; rw [hix, hcon]
  have hrng : ∀ x y i, s'.rng x y i = s.rng x y i := by intro x y i; unfold St.rng; rw [hlen, hlen]
  have he : ∀ x i, (s'.b x i).isEmpty ↔ (s.b x i).isEmpty := by
    intro x i; unfold Bkt.isEmpty; rw [hcon]
  have lk : ∀ x i u, ((s'.b x i).lock = some (.kill u) → (s.b x i).lock = some (.kill u)) ∧
      ((s'.b x i).lock = some (.drop u) → (s.b x i).lock = some (.drop u)) := by
    intro x i u
    rw [hlock]
    split
    · simp
    · exact ⟨id, id⟩
  have hG' : Glob hash s' := by
    refine ⟨?_, ?_, ?_, ?_, ?_, ?_, ?_, ?_, ?_, ?_, ?_, ?_, ?_, ?_, ?_⟩
    · rw [hcur, hnext]; exact hG.cur_last
    · intro x y; rw [hnext, hlkd]; exact hG.linked_lt x y
    · intro x y; rw [hnext, hlkd]; exact hG.linked_pred x y
    · intro x; rw [hnext, hlkd]; intro hx y; rw [hlkd]; exact hG.linked_one x hx y
    · intro x; rw [hnext, hlg]; exact hG.lg_le x
    · intro x i k; rw [hcon, hix, hnext]; exact hG.placed x i k
    · intro x i; rw [hdead, he, hlock]; intro h1
      refine ⟨(hG.dead_empty x i h1).1, ?_⟩
      rw [if_neg (by rintro ⟨rfl, rfl⟩; rw [hd] at h1; cases h1)]
      exact (hG.dead_empty x i h1).2
    · intro x i; rw [hnext, hlen, hdead, hcur, hlkd, hlock]
      intro h1 h2 h3
      rcases hG.live x i h1 h2 h3 with h4 | h4 | ⟨u, h4⟩
      · exact Or.inl h4
      · exact Or.inr (Or.inl h4)
      · refine Or.inr (Or.inr ⟨u, ?_⟩)
        rw [if_neg (by rintro ⟨rfl, rfl⟩; rw [hlo] at h4; cases h4)]
        exact h4
    · intro x i u hu
      rw [he]
      exact hG.drop_empty x i u (hu.imp (lk x i u).2 (lk x i u).1)
    · intro x i k; rw [hcur, hlkd, hlen, hdead, hix, hval]
      intro h1 h2 h3 h4 h5 h6
      by_cases e : x = o ∧ i = j
      · obtain ⟨rfl, rfl⟩ := e
        apply Classical.byContradiction
        intro hv
        rw [← hpr] at hv
        exact hne _ k hv h6
      · refine hG.fresh x i k h1 h2 h3 h4 ?_ h6
        intro u
        have := h5 u
        rw [hlock, if_neg e] at this
        exact this
    · intro x k; rw [hcur, hlkd, hval, hval]; exact hG.excl x k
    · intro x; rw [hnext, hlen, hrh]; exact hG.rh_ok x
    · intro x i; rw [hlen, hrh, hdead]; exact hG.rh_done x i
    · intro x i u hu; rw [hcur]; exact hG.cur_old_live x i u ((lk x i u).1 hu)
    · intro x i; rw [hcur, hlen, hdead]; exact hG.cur_live x i
  refine inv_of t h hG' ?_ hoth ?_
  · rw [hpc']
    simp only [PcOk]
    rw [hlkd, hlen, hrng, hdead, hlock, if_pos ⟨rfl, rfl⟩]
    refine ⟨?_, hlk, hj, rfl, hd, ?_, Nat.le_refl _, ?_⟩
    · cases c with
      | ded g =>
        simp only [ContOk, DedupOk] at *
        rw [hrng, hlg, hnext, hlkd, hlen]
        obtain ⟨⟨g1, g2, g3, g4⟩, g5⟩ := hc
        refine ⟨⟨g1, ?_, g3, ?_⟩, g5⟩
        · cases g with
          | op _ => trivial
          | tv _ i p _ => unfold GoalOk at *; rw [hlen]; exact g2
        · refine g4.imp (fun g => ⟨g.1, fun j' h' => ?_⟩) (fun g => ⟨g.1, fun j' h1 h2 => ?_⟩)
          · rw [hdead]; exact g.2 j' h'
          · rw [hdead]; exact g.2 j' h1 h2
      | help => simp only [ContOk] at *; rw [hnext, hlen]; exact hc
    · exact range_le hj
    · intro i h3 h4
      rw [hdead, hlock, if_neg (by rintro ⟨h5, _⟩; omega)]
      exact hheld i h3 h4
  · intro u hu
    refine ⟨by omega, fun x _ => hlg x, fun x _ => Or.inl (hlkd x), fun x i _ h1 => by rw [hdead]; exact h1, ?_,
      by rw [hrz]; exact id, by rw [hcur]; exact fun _ _ => id⟩
    intro x i l _ h1 h2
    refine bkt_ext (hcon x i) ?_ (hdead x i)
    rw [hlock, if_neg]
    rintro ⟨rfl, rfl⟩
    rw [hlo] at h1; cases h1; cases h2; exact hu rfl

theorem inv_step [DecidableEq K] (hh : ∀ k, hash k < 2 ^ 64) {s s' : St K V R}
    {e : Option (Event K V R)} (h : Inv hash s) (st : Step hash s e s') : Inv hash s' := by
  have hG := h.glob
  cases st with
  | invoke _ => exact inv_pc _ h trivial
  | tvInvoke _ => exact inv_pc _ h (Or.inl ⟨rfl, rfl⟩)
  | loadNone _ _ _ => exact inv_pc _ h trivial
  | tvLoadNone _ _ => exact inv_pc _ h trivial
  | @alloc t o lg hpc hc hcur h1 h57 =>
    have := inv_newArr (hash := hash) t lg h h57 (by rw [hcur]; simp) (fun _ _ _ => hcur)
      (p := .loaded (.op o) s.next) ⟨Nat.lt_succ_self _, trivial⟩
    rw [hcur] at this
    exact this
  | @load t g a hpc hcur =>
    have hp := h.pc t
    rw [hpc] at hp
    have := hG.cur_last a hcur
    exact inv_pc _ h ⟨by omega, goalOk_load a hp⟩
  | @linkNone t g a hpc hl =>
    have hp := h.pc t
    rw [hpc] at hp
    refine inv_pc _ h ⟨hp.1, hp.2, ?_⟩
    intro o ho; rw [hl] at ho; cases ho
  | @linkSome t g a o hpc hl =>
    have hp := h.pc t
    rw [hpc] at hp
    refine inv_pc _ h ⟨hp.1, hp.2, hG.linked_pred a o hp.1 hl, Or.inr ⟨hl, ?_⟩⟩
    intro j' h1 h2; exact absurd h1.1 (by omega)
  | @dedupSkip t g a o j hpc hj hd =>
    have hp := h.pc t
    rw [hpc] at hp
    refine inv_pc _ h ⟨hp.1, hp.2.1, hp.2.2.1, ?_⟩
    rcases hp.2.2.2 with h1 | ⟨h1, h2⟩
    · exact Or.inl h1
    · refine Or.inr ⟨h1, ?_⟩
      intro j' h3 h4
      by_cases hjj : j' = j
      · rw [hjj]; exact hd
      · exact h2 j' h3 (by omega)
  | @dedupLock t g a o j hpc hj hd hl =>
    have hp := h.pc t
    rw [hpc] at hp
    have ha := hp.1
    have hjo := range_lt (goal_idx_lt hh hG ha hp.2.1) hj
    rcases hp.2.2.2 with ⟨_, h2⟩ | ⟨h1, _⟩
    · have := h2 j hjo
      rw [hd] at this; cases this
    · exact inv_relocStart h h1 hjo hd hl ⟨hp, hj⟩
  | @dedupDone t g a o j hpc hj =>
    have hp := h.pc t
    rw [hpc] at hp
    refine inv_pc _ h ⟨hp.1, hp.2.1, ?_⟩
    intro o' ho' j' hj'
    rcases hp.2.2.2 with ⟨h1, _⟩ | ⟨h1, h2⟩
    · rw [h1] at ho'; cases ho'
    · rw [h1] at ho'; cases ho'
      exact h2 j' hj' (by have := hj'.2; omega)
  | @dedupUnlinked t g a o j hpc hl =>
    have hp := h.pc t
    rw [hpc] at hp
    refine inv_pc _ h ⟨hp.1, hp.2.1, ?_⟩
    intro o' ho'; rw [hl] at ho'; cases ho'
  | retry hpc =>
    have := goalOk_of_passes h hpc
    exact inv_pc _ h (startOk_of_goalOk hG this.1 this.2)
  | read hpc h1 h2 h3 => exact inv_pc _ h trivial
  | @lock t g a hpc hd hl =>
    have hp := h.pc t
    rw [hpc] at hp
    have hls : LockStep t s ((s.setLock a (g.idx hash (s.arr a).lg) (some (.user t))).setPc t
        (.crit g a)) :=
      lockStep_setLock (Or.inl hl) (by rw [hl]; simp) (by rw [hl]; simp) (by simp) (by simp)
        (by rw [hd]; simp)
    refine hls.inv h ?_ (fun u hu => by rw [setPc_other _ _ _ _ hu]; rfl)
    rw [setPc_self]
    simp only [PcOk]
    rw [hls.next, hls.lg, hls.dead]
    refine ⟨hp.1, hls.goalOk hp.2.1, hls.passed hp.2.2, ?_, hd⟩
    rw [setPc_b, setLock_lock, if_pos ⟨rfl, rfl⟩]
  | @commit t o a hpc =>
    have hp := h.pc t
    rw [hpc] at hp
    obtain ⟨ha, _, hpass, hlock, hdead⟩ := hp
    refine inv_content hh t a (s.ix hash a o.key) h ha (ix_lt hh hG ha _) hlock hdead hpass
      (f := Bkt.set o.key (o.f ((s.b a (s.ix hash a o.key)).content o.key)).1)
      (fun _ => rfl) (fun _ => rfl) ?_ rfl ?_
    · intro k hk
      have hne : k ≠ o.key := by rintro rfl; exact hk rfl
      simp only [Bkt.set, if_neg hne]
      apply Classical.byContradiction
      intro hc
      exact hk (hG.placed a _ k hc).1.symm
    · refine ⟨ha, ?_⟩
      have : (s.modBkt a (s.ix hash a o.key) (Bkt.set o.key
          (o.f ((s.b a (s.ix hash a o.key)).content o.key)).1)).ix hash a o.key = s.ix hash a o.key := by
        unfold St.ix; simp
      rw [setPc_b]
      show ((s.modBkt a (s.ix hash a o.key) (Bkt.set o.key
          (o.f ((s.b a (s.ix hash a o.key)).content o.key)).1)).b a
        (St.ix hash (s.modBkt a (s.ix hash a o.key) (Bkt.set o.key
          (o.f ((s.b a (s.ix hash a o.key)).content o.key)).1)) a o.key)).lock = _
      rw [this, modBkt_b, if_pos ⟨rfl, rfl⟩]
      exact hlock
  | @commitEvict t o a g k' w hpc hev hno hne hw =>
    have hp := h.pc t
    rw [hpc] at hp
    obtain ⟨ha, _, hpass, hlock, hdead⟩ := hp
    refine inv_content hh t a (s.ix hash a o.key) h ha (ix_lt hh hG ha _) hlock hdead hpass
      (f := Bkt.set o.key (o.f none).1 ∘ Bkt.set k' none)
      (fun _ => rfl) (fun _ => rfl) ?_ rfl ?_
    · intro k hk
      have hne : k ≠ o.key := by rintro rfl; exact hk rfl
      simp only [Bkt.set, Function.comp, if_neg hne]
      split
      · rfl
      · apply Classical.byContradiction
        intro hc
        exact hk (hG.placed a _ k hc).1.symm
    · refine ⟨ha, ?_⟩
      have : (s.modBkt a (s.ix hash a o.key) (Bkt.set o.key (o.f none).1 ∘ Bkt.set k' none)).ix hash a o.key =
          s.ix hash a o.key := by
        unfold St.ix; simp
      rw [setPc_b]
      show ((s.modBkt a (s.ix hash a o.key) (Bkt.set o.key (o.f none).1 ∘ Bkt.set k' none)).b a
        (St.ix hash (s.modBkt a (s.ix hash a o.key) (Bkt.set o.key (o.f none).1 ∘ Bkt.set k' none)) a o.key)).lock = _
      rw [this, modBkt_b, if_pos ⟨rfl, rfl⟩]
      exact hlock
  | @unlock t o a r hpc =>
    have hp := h.pc t
    rw [hpc] at hp
    obtain ⟨ha, hlock⟩ := hp
    have hls : LockStep t s ((s.setLock a (s.ix hash a o.key) none).setPc t (.done (some r))) :=
      lockStep_setLock (Or.inr ⟨_, hlock, rfl⟩) (by rw [hlock]; simp) (by rw [hlock]; simp) (by simp)
        (by simp) (by simp)
    exact hls.inv h (by rw [setPc_self]; trivial) (fun u hu => by rw [setPc_other _ _ _ _ hu]; rfl)
  | @visit t u i p seen a hpc =>
    have hp := h.pc t
    rw [hpc] at hp
    obtain ⟨ha, hg, hpass, hlock, hdead⟩ := hp
    refine inv_content hh t a i h ha hg.2 hlock hdead hpass
      (f := fun b => { b with content := fun k => (b.content k).bind (u k) })
      (fun _ => rfl) (fun _ => rfl) ?_ rfl ?_
    · intro k hk
      have : (s.b a i).content k = none := by
        apply Classical.byContradiction
        intro hc
        exact hk (hG.placed a i k hc).1.symm
      simp [this]
    · refine ⟨ha, ?_, ?_⟩
      · unfold GoalOk at *
        have : ∀ f, (s.modBkt a i f).len a = s.len a := by intro f; unfold St.len; simp
        rw [setPc_len, this]; exact hg
      · rw [setPc_b, modBkt_b, if_pos ⟨rfl, rfl⟩]; exact hlock
  | @tvUnlock t u i p seen a hpc =>
    have hp := h.pc t
    rw [hpc] at hp
    obtain ⟨ha, hg, hlock⟩ := hp
    have hls : ∀ q : PC K V R, LockStep t s ((s.setLock a i none).setPc t q) := fun q =>
      lockStep_setLock (Or.inr ⟨_, hlock, rfl⟩) (by rw [hlock]; simp) (by rw [hlock]; simp) (by simp)
        (by simp) (by simp)
    refine (hls _).inv h ?_ (fun u hu => by rw [setPc_other _ _ _ _ hu]; rfl)
    rw [setPc_self]
    split
    · rename_i hlt
      refine ⟨ha, ?_⟩
      simp only [GoalOk] at *
      rw [(hls _).len]
      exact ⟨hg.1, hlt⟩
    · trivial
  | ret _ => exact inv_pc _ h trivial
  | tvRet _ => exact inv_pc _ h trivial
  | busy _ _ => exact inv_pc _ h trivial
  | cancel _ => exact inv_pc _ h trivial
  | panic _ => exact inv_pc _ h trivial
  | @critPanic t o a hpc =>
    have hp := h.pc t
    rw [hpc] at hp
    obtain ⟨ha, hg, hpass, hlock', hdead⟩ := hp
    have hlock : (s.b a (s.ix hash a o.key)).lock = some (.user t) := hlock'
    have hls : LockStep t s ((s.setLock a (s.ix hash a o.key) none).setPc t .idle) :=
      lockStep_setLock (Or.inr ⟨_, hlock, rfl⟩) (by rw [hlock]; simp) (by rw [hlock]; simp) (by simp)
        (by simp) (by simp)
    exact hls.inv h (by rw [setPc_self]; trivial) (fun u hu => by rw [setPc_other _ _ _ _ hu]; rfl)
  | @tvPanic t u i p seen a S hpc =>
    have hp := h.pc t
    rw [hpc] at hp
    obtain ⟨ha, hg, hpass, hlock, hdead⟩ := hp
    have h1 : Inv hash ((s.modBkt a i (Bkt.partly S u)).setPc t (.swept u i p seen a)) := by
      refine inv_content hh t a i h ha hg.2 hlock hdead hpass (f := Bkt.partly S u)
        (fun _ => rfl) (fun _ => rfl) ?_ rfl ?_
      · intro k hk
        have : (s.b a i).content k = none := by
          apply Classical.byContradiction
          intro hc
          exact hk (hG.placed a i k hc).1.symm
        simp [Bkt.partly, this]
      · refine ⟨ha, ?_, ?_⟩
        · unfold GoalOk at *
          have : ∀ f, (s.modBkt a i f).len a = s.len a := by intro f; unfold St.len; simp
          rw [setPc_len, this]; exact hg
        · rw [setPc_b, modBkt_b, if_pos ⟨rfl, rfl⟩]; exact hlock
    have hp := h1.pc t
    rw [setPc_self] at hp
    obtain ⟨ha, hg, hlock⟩ := hp
    have hls : LockStep t _ ((((s.modBkt a i (Bkt.partly S u)).setPc t (.swept u i p seen a)).setLock a i none).setPc t .idle) :=
      lockStep_setLock (Or.inr ⟨_, hlock, rfl⟩) (by rw [hlock]; simp) (by rw [hlock]; simp) (by simp)
        (by simp) (by simp)
    have h2 := hls.inv h1 (by rw [setPc_self]; trivial) (fun u hu => by rw [setPc_other _ _ _ _ hu]; rfl)
    rw [setPc_setLock_setPc] at h2
    exact h2
  | @rlPanic t g a o j n hpc =>
    have hp := h.pc t
    rw [hpc] at hp
    obtain ⟨hc, hlk, hj, hlo, hd, h1, h2, hheld⟩ := hp
    have hpr := hG.linked_pred a o hc.lt hlk
    exact (lockStep_abort (by omega) hlo hheld (by simp) (by simp)).inv h
      (by rw [setPc_self]; trivial) (fun u hu => by rw [setPc_other _ _ _ _ hu]; rfl)
  | @rlPanicHelp t a o j n hpc =>
    have hp := h.pc t
    rw [hpc] at hp
    obtain ⟨hc, hlk, hj, hlo, hd, h1, h2, hheld⟩ := hp
    have hpr := hG.linked_pred a o hc.lt hlk
    exact (lockStep_abort (by omega) hlo hheld (by simp) (by simp)).inv h
      (by rw [setPc_self]; trivial) (fun u hu => by rw [setPc_other _ _ _ _ hu]; rfl)
  | @rlBack t c a o j hpc hne => exact inv_back h hpc hne
  | helpLoad _ hcur =>
    have := hG.cur_last _ hcur
    exact inv_pc _ h (show _ < _ by omega)
  | @helpLink t a o hpc hl =>
    have hp := h.pc t
    rw [hpc] at hp
    exact inv_pc _ h ⟨hp, hG.linked_pred a o hp hl, Or.inr hl⟩
  | helpQuit _ => exact inv_pc _ h trivial
  | @helpLock t a o j hpc hj hd hl =>
    have hp := h.pc t
    rw [hpc] at hp
    rcases hp.2.2 with ⟨_, h2⟩ | h1
    · have := h2 j hj
      rw [hd] at this; cases this
    · exact inv_relocStart h h1 hj hd hl ⟨hp.1, hj⟩
  | @rlEmpty t c a o j n hpc hn he =>
    have hp := h.pc t
    rw [hpc] at hp
    obtain ⟨hc, hlk, hj, hl, hd, _, _, _⟩ := hp
    have ha := hc.lt
    have hpr := hG.linked_pred a o ha hlk
    have hcur := cur_alive hG ha hlk hj hd (by rw [hl]; simp)
    refine inv_kill t o j h (by omega) hj hl rfl he ?_ (contOk_next hlk hc hpr)
    rw [hcur]; intro hc; cases hc; omega
  | @rlTarget t c a o j n hpc hn hl =>
    have hp := h.pc t
    rw [hpc] at hp
    obtain ⟨hc, hlk, hj, hlo, hd, h1, h2, hheld⟩ := hp
    have ha := hc.lt
    have hpr := hG.linked_pred a o ha hlk
    have hcur := cur_alive hG ha hlk hj hd (by rw [hlo]; simp)
    have hna := range_lt hj hn
    have hda := hG.cur_live a n hcur hna
    have hls : LockStep t s ((s.setLock a n (some (.reloc t))).setPc t (.rlLock c a o j (n + 1))) :=
      lockStep_setLock (Or.inl hl) (by rw [hl]; simp) (by rw [hl]; simp) (by simp) (by simp)
        (by rw [hda]; simp)
    refine hls.inv h ?_ (fun u hu => by rw [setPc_other _ _ _ _ hu]; rfl)
    rw [setPc_self]
    simp only [PcOk]
    rw [hls.linked, hls.len, hls.rng, hls.dead]
    refine ⟨hls.contOk hc, hlk, hj, ?_, hd, by omega, by omega, ?_⟩
    · rw [setPc_b, setLock_lock, if_neg (by rintro ⟨h3, _⟩; omega)]; exact hlo
    · intro i h3 h4
      rw [hls.dead, setPc_b, setLock_lock]
      split
      · rename_i h5; rw [h5.2]; exact ⟨rfl, hda⟩
      · rename_i h5
        exact hheld i h3 (by have : i ≠ n := fun e => h5 ⟨rfl, e⟩; omega)
  | @rlAbort t c a o j n hpc hm =>
    have hp := h.pc t
    rw [hpc] at hp
    obtain ⟨hc, hlk, hj, hlo, hd, h1, h2, hheld⟩ := hp
    have hpr := hG.linked_pred a o hc.lt hlk
    exact (lockStep_abort (by omega) hlo hheld (by simp) (by simp)).inv h
      (by rw [setPc_self]; cases c <;> trivial) (fun u hu => by rw [setPc_other _ _ _ _ hu]; rfl)
  | @rlLeak t g a o j n hpc =>
    have hp := h.pc t
    rw [hpc] at hp
    obtain ⟨hc, hlk, hj, hlo, hd, h1, h2, hheld⟩ := hp
    have hpr := hG.linked_pred a o hc.lt hlk
    exact (lockStep_abort (by omega) hlo hheld (by simp) (by simp)).inv h
      (by rw [setPc_self]; trivial) (fun u hu => by rw [setPc_other _ _ _ _ hu]; rfl)
  | @rlLeakHelp t a o j n hpc =>
    have hp := h.pc t
    rw [hpc] at hp
    obtain ⟨hc, hlk, hj, hlo, hd, h1, h2, hheld⟩ := hp
    have hpr := hG.linked_pred a o hc.lt hlk
    exact (lockStep_abort (by omega) hlo hheld (by simp) (by simp)).inv h
      (by rw [setPc_self]; trivial) (fun u hu => by rw [setPc_other _ _ _ _ hu]; rfl)
  | @rlBegin t c a o j n hpc hn =>
    have hp := h.pc t
    rw [hpc] at hp
    obtain ⟨hc, hlk, hj, hlo, hd, h1, h2, hheld⟩ := hp
    have hpr := hG.linked_pred a o hc.lt hlk
    have hls : LockStep t s ((s.setLock o j (some (.moving t))).setPc t (.rlMove c a o j)) :=
      lockStep_setLock (Or.inr ⟨_, hlo, rfl⟩) (by rw [hlo]; simp) (by rw [hlo]; simp) (by simp) (by simp)
        (by rw [hd]; simp)
    refine hls.inv h ?_ (fun u hu => by rw [setPc_other _ _ _ _ hu]; rfl)
    rw [setPc_self]
    simp only [PcOk]
    rw [hls.linked, hls.len, hls.rng, hls.dead]
    refine ⟨hls.contOk hc, hlk, hj, ?_, hd, ?_⟩
    · rw [setPc_b, setLock_lock, if_pos ⟨rfl, rfl⟩]
    · intro i h3 h4
      rw [hls.dead, setPc_b, setLock_lock, if_neg (by rintro ⟨h5, _⟩; omega)]
      exact hheld i h3 (by omega)
  | rlMove hpc hv => exact inv_move h hpc hv
  | @rlUnlock t c a o j hpc he =>
    have hp := h.pc t
    rw [hpc] at hp
    obtain ⟨hc, hlk, hj, hlo, hd, hheld⟩ := hp
    have hpr := hG.linked_pred a o hc.lt hlk
    have hls : LockStep t s ((s.setLocks a (s.rng o a j).1 (s.rng o a j).2 none).setPc t
        (.rlKill c a o j)) := by
      refine ⟨rfl, rfl, rfl, by simp, by simp, by simp, by simp, by simp, ?_⟩
      intro y i
      simp only [setPc_b, setLocks_lock]
      split
      · rename_i h5; obtain ⟨rfl, h3, h4⟩ := h5
        have h6 := hheld i h3 h4
        exact Or.inr ⟨Or.inr ⟨_, h6.1, rfl⟩, by rw [h6.1]; simp, by rw [h6.1]; simp, by simp, by simp,
          by simp⟩
      · exact Or.inl rfl
    refine hls.inv h ?_ (fun u hu => by rw [setPc_other _ _ _ _ hu]; rfl)
    rw [setPc_self]
    simp only [PcOk]
    rw [hls.linked, hls.len, hls.dead, hls.empty]
    refine ⟨hls.contOk hc, hlk, hj, ?_, hd, he⟩
    rw [setPc_b, setLocks_lock, if_neg (by rintro ⟨h5, _⟩; omega)]; exact hlo
  | @rlKill t c a o j hpc =>
    have hp := h.pc t
    rw [hpc] at hp
    obtain ⟨hc, hlk, hj, hl, hd, he⟩ := hp
    have ha := hc.lt
    have hpr := hG.linked_pred a o ha hlk
    have hcur := cur_alive hG ha hlk hj hd (by rw [hl]; simp)
    refine inv_kill t o j h (by omega) hj hl rfl he ?_ (contOk_next hlk hc hpr)
    rw [hcur]; intro hc; cases hc; omega
  | rehash hst hd _ => exact inv_rehash h hst hd
  | detach hl hd => exact inv_detach h hl hd
  | rzLoad _ hcur =>
    have := hG.cur_last _ hcur
    exact inv_pc _ h (show _ < _ by omega)
  | @rzLink t a hpc hl =>
    have hp := h.pc t
    rw [hpc] at hp
    exact inv_pc _ h ⟨hp, hl⟩
  | rzQuit _ => exact inv_pc _ h trivial
  | @rzLock t a hpc hz =>
    have hp := h.pc t
    rw [hpc] at hp
    exact inv_rz t h (fun u _ hu => by rw [hz] at hu; cases hu) ⟨hp.1, hp.2, rfl⟩
  | @rzCheck t a hpc hcur =>
    have hp := h.pc t
    rw [hpc] at hp
    exact inv_pc _ h ⟨hp.1, hp.2.1, hp.2.2, hcur⟩
  | @rzNothing t a hpc =>
    have hp := h.pc t
    rcases hpc with hpc | hpc
    · rw [hpc] at hp; exact inv_pc _ h hp.2.2
    · rw [hpc] at hp; exact inv_pc _ h hp.2.2.1
  | @rzSwap t a lg hpc h1 h57 =>
    have hp := h.pc t
    rw [hpc] at hp
    obtain ⟨ha, hl, hz, hcur⟩ := hp
    refine inv_newArr t lg h h57 ?_ ?_ hz
    · intro a' ha'; rw [hcur] at ha'; cases ha'; exact hl
    · intro u hu hz'; rw [hz] at hz'; cases hz'; exact absurd rfl hu
  | @rzRelease t hpc =>
    have hp := h.pc t
    rw [hpc] at hp
    refine inv_rz t h ?_ trivial
    intro u hu hz
    have hp' : s.rz = some t := hp
    rw [hp'] at hz; cases hz; exact absurd rfl hu
  | @rzDropStart t a hpc =>
    have hp := h.pc t
    rw [hpc] at hp
    exact inv_pc _ h ⟨hp.1, hp.2.1, hp.2.2.1, hp.2.2.2, Nat.zero_le _, fun j hj => by omega⟩
  | @rzDropLock t a i hpc hi hd hl he =>
    have hp := h.pc t
    rw [hpc] at hp
    obtain ⟨ha, hlk, hz, hcur, hle, hheld⟩ := hp
    have hls : LockStep t s ((s.setLock a i (some (.drop t))).setPc t (.rzDrop a (i + 1))) :=
      lockStep_setLock (Or.inl hl) (by rw [hl]; simp) (by rw [hl]; simp) (by simp) (fun _ _ => he)
        (by rw [hd]; simp)
    refine hls.inv h ?_ (fun u hu => by rw [setPc_other _ _ _ _ hu]; rfl)
    rw [setPc_self]
    simp only [PcOk]
    rw [hls.linked, hls.len, hls.rz, hls.cur, hls.next]
    refine ⟨ha, hlk, hz, hcur, by omega, ?_⟩
    intro j hj
    rw [hls.dead, setPc_b, setLock_lock]
    split
    · rename_i h5; rw [h5.2]; exact ⟨rfl, hd⟩
    · rename_i h5
      exact hheld j (by have : j ≠ i := fun e => h5 ⟨rfl, e⟩; omega)
  | @rzDropFail t a i hpc =>
    have hp := h.pc t
    rw [hpc] at hp
    obtain ⟨ha, hlk, hz, hcur, hle, hheld⟩ := hp
    have hls : LockStep t s ((s.setLocks a 0 i none).setPc t .rzDone) := by
      refine ⟨rfl, rfl, rfl, by simp, by simp, by simp, by simp, by simp, ?_⟩
      intro y j
      simp only [setPc_b, setLocks_lock]
      split
      · rename_i h5; obtain ⟨rfl, _, h4⟩ := h5
        have h6 := hheld j h4
        exact Or.inr ⟨Or.inr ⟨_, h6.1, rfl⟩, by rw [h6.1]; simp, by rw [h6.1]; simp, by simp, by simp,
          by simp⟩
      · exact Or.inl rfl
    exact hls.inv h (by rw [setPc_self]; exact hz) (fun u hu => by rw [setPc_other _ _ _ _ hu]; rfl)
  | rzDropSwap hpc hi =>
    subst hi
    exact inv_dropSwap h hpc
  | @rzKillOne t a i hpc hi =>
    have hp := h.pc t
    rw [hpc] at hp
    obtain ⟨ha, hz, hheld⟩ := hp
    have hk := hheld i (Nat.le_refl _) hi
    refine inv_kill t a i h ha hi hk.1 rfl (hG.drop_empty a i t (Or.inr hk.1))
      (hG.cur_old_live a i t hk.1) ?_
    refine ⟨ha, hz, ?_⟩
    intro j h1 h2
    have : ((s.killBkt a i).setPc t (.rzKill a (i + 1))).len a = s.len a := by unfold St.len; simp
    rw [this] at h2
    rw [setPc_b, killBkt_dead, killBkt_lock, if_neg (by omega), if_neg (by omega)]
    exact hheld j (by omega) h2
  | @rzKillEnd t a i hpc hi =>
    have hp := h.pc t
    rw [hpc] at hp
    exact inv_pc _ h hp.2.1
  | emNone _ _ => exact inv_pc _ h trivial
  | emLoad _ hcur =>
    have := hG.cur_last _ hcur
    exact inv_pc _ h (show _ < _ by omega)
  | @emLinkNone t a hpc _ =>
    have hp := h.pc t
    rw [hpc] at hp
    exact inv_pc _ h hp
  | @emLinkSome t a o hpc hl =>
    have hp := h.pc t
    rw [hpc] at hp
    exact inv_pc _ h ⟨hp, hG.linked_pred a o hp hl⟩
  | @emOld t a o i hpc _ _ =>
    have hp := h.pc t
    rw [hpc] at hp
    exact inv_pc _ h hp
  | emOldFound _ _ _ => exact inv_pc _ h trivial
  | @emOldEnd t a o i hpc _ =>
    have hp := h.pc t
    rw [hpc] at hp
    exact inv_pc _ h hp.1
  | @emCur t a i hpc _ _ =>
    have hp := h.pc t
    rw [hpc] at hp
    exact inv_pc _ h hp
  | emCurFound _ _ _ => exact inv_pc _ h trivial
  | emEnd _ _ => exact inv_pc _ h trivial
  | emRet _ => exact inv_pc _ h trivial

theorem inv_init : Inv hash (St.init : St K V R) := by
  refine ⟨⟨by simp [St.init], ?_, ?_, ?_, ?_, ?_, ?_, ?_, ?_, ?_, ?_, ?_, ?_, ?_, ?_⟩, fun _ => trivial⟩
  · intro x y h; cases h
  · intro x y h; exact absurd h (Nat.not_lt_zero _)
  · intro x h; exact absurd h (Nat.not_lt_zero _)
  · intro x h; exact absurd h (Nat.not_lt_zero _)
  · intro x i k h; exact absurd rfl h
  · intro x i h; cases h
  · intro x i h; exact absurd h (Nat.not_lt_zero _)
  · intro x i t h; rcases h with h | h <;> cases h
  · intro o j k h; cases h
  · intro o k h; cases h
  · intro x h; exact absurd h (Nat.not_lt_zero _)
  · intro x i _ h; cases h
  · intro x i t h; cases h
  · intro a i h; cases h

theorem inv_initWith {lg : Nat} (h57 : lg ≤ 57) : Inv hash (St.initWith lg : St K V R) := by
  refine ⟨⟨?_, ?_, ?_, ?_, ?_, ?_, ?_, ?_, ?_, ?_, ?_, ?_, ?_, ?_, ?_⟩, fun _ => trivial⟩
  · intro c h; cases h; rfl
  · intro x y h; cases h
  · intro x y _ h; cases h
  · intro x _ y h; cases h
  · intro x _; exact h57
  · intro x i k h; exact absurd rfl h
  · intro x i h; cases h
  · intro x i h _ _
    have : x < 1 := h
    left; show some 0 = some x
    congr 1; omega
  · intro x i t h; rcases h with h | h <;> cases h
  · intro o j k _ h; cases h
  · intro o k _ h; cases h
  · intro x _; exact .init
  · intro x i _ h; cases h
  · intro x i t h; cases h
  · intro a i _ _; rfl

theorem inv_start {s : St K V R} (h : Init s) : Inv hash s := by
  cases h with
  | new => exact inv_init
  | withCapacity lg _ h57 => exact inv_initWith h57

theorem inv_exec [DecidableEq K] (hh : ∀ k, hash k < 2 ^ 64) {s s' : St K V R}
    {es : List (Event K V R)} (h : Inv hash s) (ex : Exec hash s es s') : Inv hash s' := by
  induction ex with
  | nil => exact h
  | tau _ st ih => exact inv_step hh ih st
  | event _ st ih => exact inv_step hh ih st

end Scc.Table
