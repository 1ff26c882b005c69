import Verif.Table.Inv

/-!
# Preservation of the invariant
-/

namespace Scc.Table

open Scc.Index (bucketIndex fromIndexToRange InRange c05_hash_in_range c05_range_bounds c05_range_dual
  bucketIndex_lt)

variable {K V R : Type} {hash : K → Nat}

theorem bkt_ext {b c : Bkt K V} (h1 : b.content = c.content) (h2 : b.lock = c.lock)
    (h3 : b.dead = c.dead) : b = c := by
  cases b; cases c; simp_all

/-- A step of `t` that changes only locks (and its program counter). -/
structure LockStep (t : Nat) (s s' : St K V R) : Prop where
  next : s'.next = s.next
  cur : s'.cur = s.cur
  rz : s'.rz = s.rz
  lg : ∀ x, (s'.arr x).lg = (s.arr x).lg
  linked : ∀ x, (s'.arr x).linked = (s.arr x).linked
  rh : ∀ x, (s'.arr x).rh = (s.arr x).rh
  content : ∀ x i, (s'.b x i).content = (s.b x i).content
  dead : ∀ x i, (s'.b x i).dead = (s.b x i).dead
  lock : ∀ x i, (s'.b x i).lock = (s.b x i).lock ∨
    (((s.b x i).lock = none ∨ ∃ l, (s.b x i).lock = some l ∧ l.owner = some t) ∧
      (∀ u, (s.b x i).lock ≠ some (.moving u)) ∧ (∀ u, (s.b x i).lock ≠ some (.kill u)) ∧
      (∀ u, (s'.b x i).lock ≠ some (.kill u)) ∧
      (∀ u, (s'.b x i).lock = some (.drop u) → (s.b x i).isEmpty) ∧
      ((s.b x i).dead = true → (s'.b x i).lock = none))

namespace LockStep
variable {t : Nat} {s s' : St K V R}

theorem len (h : LockStep t s s') (x : Nat) : s'.len x = s.len x := by unfold St.len; rw [h.lg]
theorem rng (h : LockStep t s s') (x y i : Nat) : s'.rng x y i = s.rng x y i := by
  unfold St.rng; rw [h.len, h.len]
theorem ix (h : LockStep t s s') (x : Nat) (k : K) : s'.ix hash x k = s.ix hash x k := by
  unfold St.ix; rw [h.lg]
theorem val (h : LockStep t s s') (x : Nat) (k : K) : s'.val hash x k = s.val hash x k := by
  unfold St.val; rw [h.ix, h.content]
theorem empty (h : LockStep t s s') (x i : Nat) : (s'.b x i).isEmpty ↔ (s.b x i).isEmpty := by
  unfold Bkt.isEmpty; rw [h.content]

theorem glob (h : LockStep t s s') (hG : Glob hash s) : Glob hash s' := by
  refine ⟨?_, ?_, ?_, ?_, ?_, ?_, ?_, ?_, ?_, ?_, ?_, ?_, ?_, ?_, ?_⟩
  · rw [h.cur, h.next]; exact hG.cur_last
  · intro x y; rw [h.next, h.linked]; exact hG.linked_lt x y
  · intro x y; rw [h.next, h.linked]; exact hG.linked_pred x y
  · intro x; rw [h.next, h.linked]; intro hx y; rw [h.linked]; exact hG.linked_one x hx y
  · intro x; rw [h.next, h.lg]; exact hG.lg_le x
  · intro x i k; rw [h.content, h.ix, h.next]; exact hG.placed x i k
  · intro x i; rw [h.dead, h.empty]; intro hd
    have := hG.dead_empty x i hd
    refine ⟨this.1, ?_⟩
    rcases h.lock x i with hl | hl
    · rw [hl]; exact this.2
    · exact hl.2.2.2.2.2 hd
  · intro x i; rw [h.next, h.len, h.dead, h.cur, h.linked]
    intro h1 h2 h3
    rcases hG.live x i h1 h2 h3 with hc | hc | ⟨u, hc⟩
    · exact Or.inl hc
    · exact Or.inr (Or.inl hc)
    · right; right
      rcases h.lock x i with hl | hl
      · exact ⟨u, by rw [hl]; exact hc⟩
      · exact absurd hc (hl.2.2.1 u)
  · intro x i u; rw [h.empty]
    rcases h.lock x i with hl | hl
    · rw [hl]; exact hG.drop_empty x i u
    · rintro (h1 | h1)
      · exact hl.2.2.2.2.1 u h1
      · exact absurd h1 (hl.2.2.2.1 u)
  · intro o j k; rw [h.cur, h.linked, h.len, h.dead, h.ix, h.val]
    intro h1 h2 h3 h4 h5 h6
    refine hG.fresh o j k h1 h2 h3 h4 ?_ h6
    intro u hu
    rcases h.lock o j with hl | hl
    · exact h5 u (by rw [hl]; exact hu)
    · exact hl.2.1 u hu
  · intro o k; rw [h.cur, h.linked, h.val, h.val]; exact hG.excl o k
  · intro x; rw [h.next, h.len, h.rh]; exact hG.rh_ok x
  · intro x i; rw [h.len, h.rh, h.dead]; exact hG.rh_done x i
  · intro x i u; rw [h.cur]
    rcases h.lock x i with hl | hl
    · rw [hl]; exact hG.cur_old_live x i u
    · intro h1; exact absurd h1 (hl.2.2.2.1 u)
  · intro x i; rw [h.cur, h.len, h.dead]; exact hG.cur_live x i

theorem rely (h : LockStep t s s') {u : Nat} (hu : u ≠ t) : Rely u s s' := by
  refine ⟨by rw [h.next]; exact Nat.le_refl _, fun x _ => h.lg x, fun x _ => Or.inl (h.linked x),
    fun x i _ hd => by rw [h.dead]; exact hd, ?_, by rw [h.rz]; exact id, by rw [h.cur]; exact fun _ _ => id⟩
  intro x i l _ hl ho
  refine bkt_ext (h.content x i) ?_ (h.dead x i)
  rcases h.lock x i with h1 | ⟨h1 | ⟨l', h1, h2⟩, _⟩
  · exact h1
  · rw [h1] at hl; cases hl
  · rw [h1] at hl; cases hl; rw [ho] at h2; cases h2; exact absurd rfl hu

theorem inv (h : LockStep t s s') (hi : Inv hash s) (hp : PcOk hash s' t (s'.pc t))
    (hpc : ∀ u, u ≠ t → s'.pc u = s.pc u) : Inv hash s' :=
  inv_of t hi (h.glob hi.glob) hp hpc (fun _ hu => h.rely hu)

/-- The facts that a lock step preserves for the acting thread itself. -/
theorem goalOk (h : LockStep t s s') {a : Nat} {g : Goal K V R} (hg : GoalOk s a g) :
    GoalOk s' a g := by
  cases g with
  | op _ => trivial
  | tv _ i p _ => unfold GoalOk at *; rw [h.len]; exact hg

theorem passed (h : LockStep t s s') {a i : Nat} (hp : Passed s a i) : Passed s' a i := by
  intro o; rw [h.linked, h.rng]; intro ho j hj; rw [h.dead]; exact hp o ho j hj

theorem dedupOk (h : LockStep t s s') {g : Goal K V R} {a o j : Nat}
    (hd : DedupOk hash s g a o j) : DedupOk hash s' g a o j := by
  unfold DedupOk at *
  rw [h.next, h.linked, h.rng, h.lg, h.len]
  refine ⟨hd.1, h.goalOk hd.2.1, hd.2.2.1, ?_⟩
  rcases hd.2.2.2 with ⟨h1, h2⟩ | ⟨h1, h2⟩
  · exact Or.inl ⟨h1, fun j' h3 => by rw [h.dead]; exact h2 j' h3⟩
  · exact Or.inr ⟨h1, fun j' h3 h4 => by rw [h.dead]; exact h2 j' h3 h4⟩

theorem contOk (h : LockStep t s s') {c : Cont K V R} {a o j : Nat}
    (hc : ContOk hash s a o j c) : ContOk hash s' a o j c := by
  cases c with
  | ded g => simp only [ContOk] at *; rw [h.rng, h.lg]; exact ⟨h.dedupOk hc.1, hc.2⟩
  | help => simp only [ContOk] at *; rw [h.next, h.len]; exact hc

end LockStep

theorem lockStep_setLock {s : St K V R} {t x i : Nat} {l : Option Lock} {p : PC K V R}
    (h1 : (s.b x i).lock = none ∨ ∃ l, (s.b x i).lock = some l ∧ l.owner = some t)
    (h2 : ∀ u, (s.b x i).lock ≠ some (.moving u)) (h3 : ∀ u, (s.b x i).lock ≠ some (.kill u))
    (h4 : ∀ u, l ≠ some (.kill u)) (h5 : ∀ u, l = some (.drop u) → (s.b x i).isEmpty)
    (h6 : (s.b x i).dead = true → l = none) :
    LockStep t s ((s.setLock x i l).setPc t p) := by
  refine ⟨rfl, rfl, rfl, by simp, by simp, by simp, by simp, by simp, ?_⟩
  intro y j
  simp only [setPc_b, setLock_lock]
  split
  · rename_i h; obtain ⟨rfl, rfl⟩ := h
    exact Or.inr ⟨h1, h2, h3, h4, h5, h6⟩
  · exact Or.inl rfl

/-! ## Reasoning about positions -/

theorem range_of_ix {s : St K V R} (hG : Glob hash s) {x y : Nat} (hx : x < s.next)
    (hy : y < s.next) (k : K) : InRange (s.rng x y (s.ix hash x k)) (s.ix hash y k) := by
  have h1 := hG.lg_le x hx
  have h2 := hG.lg_le y hy
  exact c05_hash_in_range (by omega) (by omega)

theorem ix_lt (hh : ∀ k, hash k < 2 ^ 64) {s : St K V R} (hG : Glob hash s) {x : Nat}
    (hx : x < s.next) (k : K) : s.ix hash x k < s.len x := by
  have h1 := hG.lg_le x hx
  exact bucketIndex_lt (by omega) (hh k)

theorem goal_idx_lt (hh : ∀ k, hash k < 2 ^ 64) {s : St K V R} (hG : Glob hash s) {a : Nat}
    (ha : a < s.next) {g : Goal K V R} (hg : GoalOk s a g) :
    g.idx hash (s.arr a).lg < s.len a := by
  cases g with
  | op o => exact ix_lt hh hG ha o.key
  | tv _ i p _ => exact hg.2

theorem val_dead {s : St K V R} (hG : Glob hash s) {x : Nat} {k : K}
    (h : (s.b x (s.ix hash x k)).dead = true) : s.val hash x k = none :=
  (hG.dead_empty x _ h).1 k

/-- The target buckets of a relocation are alive: the code's `unwrap_unchecked` is justified. -/
theorem cur_alive {s : St K V R} (hG : Glob hash s) {a o j : Nat} (ha : a < s.next)
    (hl : (s.arr a).linked = some o) (hj : j < s.len o) (hd : (s.b o j).dead = false)
    (hk : ∀ t, (s.b o j).lock ≠ some (.kill t)) : s.cur = some a := by
  have hp := hG.linked_pred a o ha hl
  rcases hG.live o j (by omega) hj hd with h | h | ⟨t, h⟩
  · have := hG.cur_last o h; omega
  · rw [hp]; exact h.1
  · exact absurd h (hk t)

/-! ## Steps on the contents of a locked bucket -/

/-- A step of `t` that changes the contents of bucket `(a, i)`, which it holds. -/
theorem inv_content (hh : ∀ k, hash k < 2 ^ 64) {s s' : St K V R} (t a i : Nat) (h : Inv hash s)
    (ha : a < s.next) (hi : i < s.len a) (hlock : (s.b a i).lock = some (.user t))
    (hdead : (s.b a i).dead = false) (hpass : Passed s a i)
    {f : Bkt K V → Bkt K V} (hf1 : ∀ b, (f b).lock = b.lock) (hf2 : ∀ b, (f b).dead = b.dead)
    (hplaced : ∀ k, s.ix hash a k ≠ i → (f (s.b a i)).content k = none)
    {p : PC K V R} (hs' : s' = (s.modBkt a i f).setPc t p) (hp : PcOk hash s' t p) :
    Inv hash s' := by
  have hG := h.glob
  subst hs'
  have hb : ∀ x j, ((s.modBkt a i f).setPc t p).b x j = if x = a ∧ j = i then f (s.b x j) else s.b x j := by
    intro x j; rw [setPc_b, modBkt_b]
  have hlk : ∀ x j, (((s.modBkt a i f).setPc t p).b x j).lock = (s.b x j).lock := by
    intro x j; rw [hb]; split
    · exact hf1 _
    · rfl
  have hdd : ∀ x j, (((s.modBkt a i f).setPc t p).b x j).dead = (s.b x j).dead := by
    intro x j; rw [hb]; split
    · exact hf2 _
    · rfl
  have hlen : ∀ x, ((s.modBkt a i f).setPc t p).len x = s.len x := by
    intro x; unfold St.len; simp
  have hix : ∀ x k, ((s.modBkt a i f).setPc t p).ix hash x k = s.ix hash x k := by
    intro x k; unfold St.ix; simp
  have hother : ∀ x j, ¬ (x = a ∧ j = i) → ((s.modBkt a i f).setPc t p).b x j = s.b x j := by
    intro x j hn; rw [hb, if_neg hn]
  have hval : ∀ x k, ¬ (x = a ∧ s.ix hash a k = i) →
      ((s.modBkt a i f).setPc t p).val hash x k = s.val hash x k := by
    intro x k hn
    unfold St.val
    rw [hix, hother]
    rintro ⟨h1, h2⟩; subst h1; exact hn ⟨rfl, h2⟩
  have hempty : ∀ x j, (s.b x j).isEmpty → (∀ u, (s.b x j).lock ≠ some (.user u)) →
      (((s.modBkt a i f).setPc t p).b x j).isEmpty := by
    intro x j he hn
    rw [hother]
    · exact he
    · rintro ⟨h1, h2⟩; subst h1; subst h2; exact hn t hlock
  -- keys of the bucket are not in the array that `a` replaces
  have hold : ∀ o k, (s.arr a).linked = some o → s.ix hash a k = i →
      (s.b o (s.ix hash o k)).dead = true := by
    intro o k ho hk
    have hpr := hG.linked_pred a o ha ho
    apply hpass o ho
    have := range_of_ix hG ha (show o < s.next by omega) k
    rw [hk] at this; exact this
  have hnk : ∀ u, (s.b a i).lock ≠ some (.kill u) := by intro u; rw [hlock]; simp
  have hnm : ∀ u, (s.b a i).lock ≠ some (.moving u) := by intro u; rw [hlock]; simp
  have hG' : Glob hash ((s.modBkt a i f).setPc t p) := by
    refine ⟨?_, ?_, ?_, ?_, ?_, ?_, ?_, ?_, ?_, ?_, ?_, ?_, ?_, ?_, ?_⟩
    · exact hG.cur_last
    · simpa using hG.linked_lt
    · simpa using hG.linked_pred
    · simpa using hG.linked_one
    · simpa using hG.lg_le
    · intro x j k; rw [hix]
      by_cases hc : x = a ∧ j = i
      · obtain ⟨rfl, rfl⟩ := hc
        rw [hb, if_pos ⟨rfl, rfl⟩]
        intro hne
        refine ⟨?_, ha⟩
        apply Classical.byContradiction
        intro hx; exact hne (hplaced k (fun h => hx h.symm))
      · rw [hother x j hc]; exact hG.placed x j k
    · intro x j; rw [hdd, hlk]; intro hd
      have := hG.dead_empty x j hd
      refine ⟨hempty x j this.1 ?_, this.2⟩
      intro u; rw [this.2]; simp
    · intro x j; rw [hdd, hlk, hlen]; simpa using hG.live x j
    · intro x j u; rw [hlk]; intro hl
      refine hempty x j (hG.drop_empty x j u hl) ?_
      intro w hw; rcases hl with hl | hl <;> (rw [hl] at hw; cases hw)
    · intro o j k; rw [hlen, hdd, hix]
      simp only [hlk]
      intro h1 h2 h3 h4 h5 h6
      simp only [setPc_cur, modBkt_cur, setPc_arr, modBkt_linked] at h1 h2
      rw [hval]
      · exact hG.fresh o j k h1 h2 h3 h4 h5 h6
      · rintro ⟨e1, e2⟩
        have := hold o k (by rw [← e1]; exact h2) e2
        rw [h6] at this; rw [this] at h4; cases h4
    · intro o k h1 h2 h3
      simp only [setPc_cur, modBkt_cur, setPc_arr, modBkt_linked] at h1 h2
      by_cases ho : o = a ∧ s.ix hash a k = i
      · obtain ⟨rfl, hk⟩ := ho
        rw [hval]
        · exact hG.fresh o i k h1 h2 hi hdead hnm hk
        · rintro ⟨e1, _⟩; omega
      · rw [hval o k ho] at h3
        by_cases hc : o + 1 = a ∧ s.ix hash a k = i
        · obtain ⟨e1, e2⟩ := hc
          exfalso
          apply h3
          exact val_dead hG (hold o k (by rw [← e1]; exact h2) e2)
        · rw [hval (o + 1) k hc]; exact hG.excl o k h1 h2 h3
    · intro x; rw [hlen]; simpa using hG.rh_ok x
    · intro x j; rw [hlen, hdd]; simpa using hG.rh_done x j
    · intro x j u; rw [hlk]; exact hG.cur_old_live x j u
    · intro x j; rw [hlen, hdd]; exact hG.cur_live x j
  refine inv_of t h hG' (by rw [setPc_self]; exact hp) (fun u hu => by rw [setPc_other _ _ _ _ hu]; rfl) ?_
  intro u hu
  refine ⟨Nat.le_refl _, fun x _ => by simp, fun x _ => Or.inl (by simp),
    fun x j _ hd => by rw [hdd]; exact hd, ?_, id, fun _ _ => id⟩
  intro x j l _ hl ho
  apply hother
  rintro ⟨rfl, rfl⟩
  rw [hlock] at hl; cases hl; cases ho; exact hu rfl

/-! ## Killing a bucket -/

theorem inv_kill {s : St K V R} (t x i : Nat) (h : Inv hash s) (hx : x < s.next) (hi : i < s.len x)
    {l : Lock} (hlock : (s.b x i).lock = some l) (hown : l.owner = some t)
    (hempty : (s.b x i).isEmpty) (hcur : s.cur ≠ some x) {p : PC K V R}
    (hp : PcOk hash ((s.killBkt x i).setPc t p) t p) : Inv hash ((s.killBkt x i).setPc t p) := by
  have hG := h.glob
  have hlen : ∀ y, ((s.killBkt x i).setPc t p).len y = s.len y := by
    intro y; unfold St.len; simp
  have hix : ∀ y k, ((s.killBkt x i).setPc t p).ix hash y k = s.ix hash y k := by
    intro y k; unfold St.ix; simp
  have hval : ∀ y k, ((s.killBkt x i).setPc t p).val hash y k = s.val hash y k := by
    intro y k; unfold St.val; rw [hix]; simp
  have hother : ∀ y j, ¬ (y = x ∧ j = i) → ((s.killBkt x i).setPc t p).b y j = s.b y j := by
    intro y j hn; rw [setPc_b, killBkt_b, if_neg hn]
  have hdead : ∀ y j, (((s.killBkt x i).setPc t p).b y j).dead = false →
      ¬ (y = x ∧ j = i) ∧ (s.b y j).dead = false := by
    intro y j hd
    rw [setPc_b, killBkt_dead] at hd
    split at hd
    · cases hd
    · exact ⟨by assumption, hd⟩
  have hmono : ∀ y j, (s.b y j).dead = true → (((s.killBkt x i).setPc t p).b y j).dead = true := by
    intro y j hd; rw [setPc_b, killBkt_dead]; split
    · rfl
    · exact hd
  have hlk : ∀ y j l', (((s.killBkt x i).setPc t p).b y j).lock = some l' →
      (s.b y j).lock = some l' := by
    intro y j l' hl
    rw [setPc_b, killBkt_lock] at hl
    split at hl
    · cases hl
    · exact hl
  have he : ∀ y j, (((s.killBkt x i).setPc t p).b y j).isEmpty ↔ (s.b y j).isEmpty := by
    intro y j; unfold Bkt.isEmpty; simp
  have hG' : Glob hash ((s.killBkt x i).setPc t p) := by
    refine ⟨?_, ?_, ?_, ?_, ?_, ?_, ?_, ?_, ?_, ?_, ?_, ?_, ?_, ?_, ?_⟩
    · exact hG.cur_last
    · simpa using hG.linked_lt
    · simpa using hG.linked_pred
    · simpa using hG.linked_one
    · simpa using hG.lg_le
    · intro y j k; rw [hix]; simpa using hG.placed y j k
    · intro y j; rw [he]
      by_cases hc : y = x ∧ j = i
      · obtain ⟨rfl, rfl⟩ := hc
        intro _
        refine ⟨hempty, ?_⟩
        rw [setPc_b, killBkt_lock, if_pos ⟨rfl, rfl⟩]
      · rw [hother y j hc]; exact hG.dead_empty y j
    · intro y j; rw [hlen]; intro h1 h2 h3
      have h4 := hdead y j h3
      rw [hother y j h4.1]
      simpa using hG.live y j h1 h2 h4.2
    · intro y j u; rw [he]; intro hl
      apply hG.drop_empty y j u
      rcases hl with hl | hl
      · exact Or.inl (hlk _ _ _ hl)
      · exact Or.inr (hlk _ _ _ hl)
    · intro o j k; rw [hlen, hix, hval]; intro h1 h2 h3 h4
      have h4' := hdead o j h4
      rw [hother o j h4'.1]
      simp only [setPc_cur, killBkt_cur, setPc_arr, killBkt_linked] at h1 h2
      exact hG.fresh o j k h1 h2 h3 h4'.2
    · intro o k; rw [hval, hval]; simpa using hG.excl o k
    · intro y hy; rw [hlen]
      have := hG.rh_ok y hy
      simp only [setPc_arr, killBkt_rh]
      split
      · rename_i e; subst e
        exact this.step (Rehash.Step.relocate i hi)
      · exact this
    · intro y j; rw [hlen]; simp only [setPc_arr, killBkt_rh, setPc_b, killBkt_dead]
      intro hj
      split
      · rename_i e; subst e
        intro hd
        simp only [Bool.or_eq_true, decide_eq_true_eq] at hd
        split
        · rfl
        · rename_i hn
          rcases hd with hd | hd
          · exact absurd ⟨rfl, hd⟩ hn
          · exact hG.rh_done y j hj hd
      · rename_i hn
        intro hd
        rw [if_neg (fun hc => hn hc.1)]
        exact hG.rh_done y j hj hd
    · intro y j u hl; exact hG.cur_old_live y j u (hlk _ _ _ hl)
    · intro y j; rw [hlen]; intro h1 h2
      simp only [setPc_cur, killBkt_cur] at h1
      rw [hother]
      · exact hG.cur_live y j h1 h2
      · rintro ⟨rfl, _⟩; exact hcur h1
  refine inv_of t h hG' (by rw [setPc_self]; exact hp) (fun u hu => by rw [setPc_other _ _ _ _ hu]; rfl) ?_
  intro u hu
  refine ⟨Nat.le_refl _, fun y _ => by simp, fun y _ => Or.inl (by simp),
    fun y j _ hd => hmono y j hd, ?_, id, fun _ _ => id⟩
  intro y j l' _ hl ho
  apply hother
  rintro ⟨rfl, rfl⟩
  rw [hlock] at hl; cases hl; rw [hown] at ho; cases ho; exact hu rfl

/-! ## Moving an entry -/

theorem target_eq {s : St K V R} (hG : Glob hash s) {a o j : Nat} (ha : a < s.next)
    (ho : o < s.next) {k : K} (hk : j = s.ix hash o k) :
    target hash s a o j k = s.ix hash a k := by
  unfold target
  split
  · rename_i hge
    have hr := range_of_ix hG ho ha k
    rw [← hk] at hr
    have : s.rng o a j = ((s.rng o a j).1, (s.rng o a j).1 + 1) := by
      unfold St.rng fromIndexToRange
      rw [if_neg (by omega)]
    unfold InRange at hr
    rw [this] at hr
    simp only at hr
    omega
  · rfl

theorem inv_move [DecidableEq K] {s : St K V R} {t : Nat} {c : Cont K V R} {a o j : Nat} {k : K} {v : V}
    (h : Inv hash s) (hpc : s.pc t = .rlMove c a o j) (hv : (s.b o j).content k = some v) :
    Inv hash ((s.modBkt o j (Bkt.set k none)).modBkt a (target hash s a o j k)
        (Bkt.set k (some v))) := by
  have hG := h.glob
  have hp := h.pc t
  rw [hpc] at hp
  obtain ⟨hc, hlk, hj, hl, hd, hh⟩ := hp
  have ha := hc.lt
  have hpr := hG.linked_pred a o ha hlk
  have ho : o < s.next := by omega
  have hjk : j = s.ix hash o k := (hG.placed o j k (by rw [hv]; simp)).1
  have htgt := target_eq hG ha ho hjk
  rw [htgt]
  have hin : InRange (s.rng o a j) (s.ix hash a k) := by
    have := range_of_ix hG ho ha k
    rw [← hjk] at this; exact this
  have htl := hh _ hin.1 hin.2
  have hcur : s.cur = some a := cur_alive hG ha hlk hj hd (by intro u; rw [hl]; simp)
  have hne : a ≠ o := by omega
  have hb : ∀ x i, ((s.modBkt o j (Bkt.set k none)).modBkt a (s.ix hash a k) (Bkt.set k (some v))).b x i =
      if x = a ∧ i = s.ix hash a k then Bkt.set k (some v) (s.b x i)
      else if x = o ∧ i = j then Bkt.set k none (s.b x i) else s.b x i := by
    intro x i
    rw [modBkt_b, modBkt_b]
    by_cases h1 : x = a ∧ i = s.ix hash a k
    · rw [if_pos h1, if_pos h1, if_neg]
      rintro ⟨h2, _⟩; omega
    · rw [if_neg h1, if_neg h1]
  generalize hs' : (s.modBkt o j (Bkt.set k none)).modBkt a (s.ix hash a k) (Bkt.set k (some v)) = s' at *
  have hnext : s'.next = s.next := by rw [← hs']; simp
  have hcur' : s'.cur = s.cur := by rw [← hs']; simp
  have hrz : s'.rz = s.rz := by rw [← hs']; simp
  have hpc' : s'.pc = s.pc := by rw [← hs']; simp
  have hlg : ∀ x, (s'.arr x).lg = (s.arr x).lg := by intro x; rw [← hs']; simp
  have hlkd : ∀ x, (s'.arr x).linked = (s.arr x).linked := by intro x; rw [← hs']; simp
  have hrh : ∀ x, (s'.arr x).rh = (s.arr x).rh := by intro x; rw [← hs']; simp
  clear hs'
  have hlock : ∀ x i, (s'.b x i).lock = (s.b x i).lock := by
    intro x i; rw [hb]; split
    · rfl
    · split <;> rfl
  have hdead : ∀ x i, (s'.b x i).dead = (s.b x i).dead := by
    intro x i; rw [hb]; split
    · rfl
    · split <;> rfl
  have hlen : ∀ x, s'.len x = s.len x := by intro x; unfold St.len; rw [hlg]
  have hrng : ∀ x y i, s'.rng x y i = s.rng x y i := by intro x y i; unfold St.rng; rw [hlen, hlen]
  have hix : ∀ x k', s'.ix hash x k' = s.ix hash x k' := by intro x k'; unfold St.ix; rw [hlg]
  have hcont : ∀ x i k', k' ≠ k → (s'.b x i).content k' = (s.b x i).content k' := by
    intro x i k' hk'
    rw [hb]; split
    · simp [Bkt.set, hk']
    · split
      · simp [Bkt.set, hk']
      · rfl
  have hval : ∀ x k', k' ≠ k → s'.val hash x k' = s.val hash x k' := by
    intro x k' hk'; unfold St.val; rw [hix, hcont _ _ _ hk']
  have hvalo : s'.val hash o k = none := by
    unfold St.val; rw [hix, hb, if_neg (by rintro ⟨h1, _⟩; omega), if_pos ⟨rfl, hjk.symm⟩]
    simp [Bkt.set]
  have hother : ∀ x i, ¬ (x = a ∧ i = s.ix hash a k) → ¬ (x = o ∧ i = j) → s'.b x i = s.b x i := by
    intro x i h1 h2; rw [hb, if_neg h1, if_neg h2]
  have hG' : Glob hash s' := by
    refine ⟨?_, ?_, ?_, ?_, ?_, ?_, ?_, ?_, ?_, ?_, ?_, ?_, ?_, ?_, ?_⟩
    · rw [hcur', hnext]; exact hG.cur_last
    · intro x y; rw [hlkd, hnext]; exact hG.linked_lt x y
    · intro x y; rw [hlkd, hnext]; exact hG.linked_pred x y
    · intro x; rw [hnext, hlkd]; intro h1 y; rw [hlkd]; exact hG.linked_one x h1 y
    · intro x; rw [hnext, hlg]; exact hG.lg_le x
    · intro x i k'
      rw [hix, hnext]
      by_cases hk' : k' = k
      · subst hk'
        rw [hb]
        split
        · rename_i h1; intro _; obtain ⟨rfl, rfl⟩ := h1; exact ⟨rfl, ha⟩
        · split
          · simp [Bkt.set]
          · exact hG.placed x i k'
      · rw [hcont _ _ _ hk']; exact hG.placed x i k'
    · intro x i; rw [hdead, hlock]; intro h1
      have h2 := hG.dead_empty x i h1
      rw [hother]
      · exact h2
      · rintro ⟨rfl, rfl⟩; rw [htl.2] at h1; cases h1
      · rintro ⟨rfl, rfl⟩; rw [hd] at h1; cases h1
    · intro x i; rw [hnext, hlen, hdead, hcur', hlkd, hlock]; exact hG.live x i
    · intro x i u; rw [hlock]; intro h1
      have h2 := hG.drop_empty x i u h1
      rw [hother]
      · exact h2
      · rintro ⟨rfl, rfl⟩; rw [htl.1] at h1; rcases h1 with h1 | h1 <;> cases h1
      · rintro ⟨rfl, rfl⟩; rw [hl] at h1; rcases h1 with h1 | h1 <;> cases h1
    · intro x i k'; rw [hcur', hlkd, hlen, hdead, hlock, hix]
      intro h1 h2 h3 h4 h5 h6
      have hk' : k' ≠ k := by
        rintro rfl
        have hx : x = o := by rw [hcur] at h1; cases h1; omega
        subst hx
        rw [← hjk] at h6; subst h6
        exact h5 t hl
      rw [hval _ _ hk']; exact hG.fresh x i k' h1 h2 h3 h4 h5 h6
    · intro x k'; rw [hcur', hlkd]
      intro h1 h2 h3
      have hx : x = o := by rw [hcur] at h1; cases h1; omega
      subst hx
      by_cases hk' : k' = k
      · subst hk'; exact absurd hvalo h3
      · rw [hval _ _ hk'] at h3 ⊢
        exact hG.excl x k' h1 h2 h3
    · intro x; rw [hnext, hlen, hrh]; exact hG.rh_ok x
    · intro x i; rw [hlen, hrh, hdead]; exact hG.rh_done x i
    · intro x i u; rw [hlock, hcur']; exact hG.cur_old_live x i u
    · intro x i; rw [hcur', hlen, hdead]; exact hG.cur_live x i
  have hDed : ∀ g : Goal K V R, DedupOk hash s g a o j → DedupOk hash s' g a o j := by
    intro g hg
    unfold DedupOk at *
    rw [hnext, hlkd, hrng, hlg, hlen]
    refine ⟨hg.1, ?_, hg.2.2.1, ?_⟩
    · cases g with
      | op _ => trivial
      | tv _ _ _ _ => unfold GoalOk at *; rw [hlen]; exact hg.2.1
    · rcases hg.2.2.2 with ⟨h1, h2⟩ | ⟨h1, h2⟩
      · exact Or.inl ⟨h1, fun j' h3 => by rw [hdead]; exact h2 j' h3⟩
      · exact Or.inr ⟨h1, fun j' h3 h4 => by rw [hdead]; exact h2 j' h3 h4⟩
  refine inv_of t h hG' ?_ (fun u _ => by rw [hpc']) ?_
  · rw [hpc', hpc]
    simp only [PcOk]
    rw [hlkd, hlen, hlock, hdead, hrng]
    refine ⟨?_, hlk, hj, hl, hd, ?_⟩
    · cases c with
      | ded g =>
        simp only [ContOk] at *
        rw [hrng, hlg]; exact ⟨hDed g hc.1, hc.2⟩
      | help => simp only [ContOk] at *; rw [hnext, hlen]; exact hc
    · intro i h1 h2; rw [hlock, hdead]; exact hh i h1 h2
  · intro u hu
    refine ⟨by omega, fun x _ => hlg x, fun x _ => Or.inl (hlkd x),
      fun x i _ h1 => by rw [hdead]; exact h1, ?_, by rw [hrz]; exact id, by rw [hcur']; exact fun _ _ => id⟩
    intro x i l _ h1 h2
    apply hother
    · rintro ⟨rfl, rfl⟩; rw [htl.1] at h1; cases h1; cases h2; exact hu rfl
    · rintro ⟨rfl, rfl⟩; rw [hl] at h1; cases h1; cases h2; exact hu rfl

end Scc.Table
