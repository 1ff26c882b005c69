import Verif.Table.Proof

/-!
# Preservation of the invariant: new arrays, unlinking, dropping the table
-/

namespace Scc.Table

open Scc.Index (bucketIndex fromIndexToRange InRange c05_hash_in_range c05_range_bounds c05_range_dual
  bucketIndex_lt)

variable {K V R : Type} {hash : K → Nat}

/-- A new array becomes the current one: either there was none, or it is linked to the current one,
which has no link itself. -/
theorem inv_newArr {s : St K V R} (t lg : Nat) (h : Inv hash s) (hlg : lg ≤ 57)
    (hlinked : ∀ a, s.cur = some a → (s.arr a).linked = none)
    (hrz : ∀ u, u ≠ t → s.rz = some u → s.cur = none)
    {p : PC K V R}
    (hp : PcOk hash (({ s.setArr s.next (Arr.new lg s.cur) with
        next := s.next + 1, cur := some s.next } : St K V R).setPc t p) t p) :
    Inv hash (({ s.setArr s.next (Arr.new lg s.cur) with
        next := s.next + 1, cur := some s.next } : St K V R).setPc t p) := by
  have hG := h.glob
  generalize hs' : (({ s.setArr s.next (Arr.new lg s.cur) with
        next := s.next + 1, cur := some s.next } : St K V R).setPc t p) = s' at *
  have hnext : s'.next = s.next + 1 := by rw [← hs']; rfl
  have hcur : s'.cur = some s.next := by rw [← hs']; rfl
  have hrz' : s'.rz = s.rz := by rw [← hs']; rfl
  have harr : ∀ x, x ≠ s.next → s'.arr x = s.arr x := by
    intro x hx; rw [← hs']; simp [St.setArr, hx]
  have hnew : s'.arr s.next = Arr.new lg s.cur := by rw [← hs']; simp [St.setArr]
  have hb : ∀ x, x ≠ s.next → ∀ i, s'.b x i = s.b x i := by
    intro x hx i; unfold St.b; rw [harr x hx]
  have hbn : ∀ i, s'.b s.next i = Bkt.empty := by
    intro i; unfold St.b; rw [hnew]; rfl
  have hlen : ∀ x, x ≠ s.next → s'.len x = s.len x := by
    intro x hx; unfold St.len; rw [harr x hx]
  have hix : ∀ x, x ≠ s.next → ∀ k, s'.ix hash x k = s.ix hash x k := by
    intro x hx k; unfold St.ix; rw [harr x hx]
  have hself : s'.pc t = p := by rw [← hs', setPc_self]
  have hothers : ∀ u, u ≠ t → s'.pc u = s.pc u := by
    intro u hu; rw [← hs', setPc_other _ _ _ _ hu]; rfl
  clear hs'
  have hlk : ∀ x y, (s'.arr x).linked = some y →
      (x = s.next ∧ s.cur = some y) ∨ (x ≠ s.next ∧ (s.arr x).linked = some y) := by
    intro x y hl
    by_cases hx : x = s.next
    · subst hx; rw [hnew] at hl; exact Or.inl ⟨rfl, hl⟩
    · rw [harr x hx] at hl; exact Or.inr ⟨hx, hl⟩
  have hG' : Glob hash s' := by
    refine ⟨?_, ?_, ?_, ?_, ?_, ?_, ?_, ?_, ?_, ?_, ?_, ?_, ?_, ?_, ?_⟩
    · intro c hc; rw [hcur] at hc; cases hc; rw [hnext]
    · intro x y hl
      rcases hlk x y hl with ⟨rfl, _⟩ | ⟨_, h1⟩
      · omega
      · have := hG.linked_lt x y h1; omega
    · intro x y _ hl
      rcases hlk x y hl with ⟨rfl, h1⟩ | ⟨_, h1⟩
      · have := hG.cur_last y h1; omega
      · exact hG.linked_pred x y (hG.linked_lt x y h1) h1
    · intro x _ y hl
      rcases hlk x y hl with ⟨rfl, h1⟩ | ⟨_, h1⟩
      · have := hG.cur_last y h1
        rw [harr y (by omega)]; exact hlinked y h1
      · have hlt := hG.linked_lt x y h1
        have := hG.linked_pred x y hlt h1
        rw [harr y (by omega)]; exact hG.linked_one x hlt y h1
    · intro x hx
      by_cases hxn : x = s.next
      · subst hxn; rw [hnew]; exact hlg
      · rw [harr x hxn]; exact hG.lg_le x (by omega)
    · intro x i k hne
      by_cases hxn : x = s.next
      · subst hxn; rw [hbn] at hne; exact absurd rfl hne
      · rw [hb x hxn] at hne
        have := hG.placed x i k hne
        rw [hix x hxn]; exact ⟨this.1, by omega⟩
    · intro x i hd
      by_cases hxn : x = s.next
      · subst hxn; rw [hbn] at hd; cases hd
      · rw [hb x hxn] at hd ⊢; exact hG.dead_empty x i hd
    · intro x i h1 h2 h3
      by_cases hxn : x = s.next
      · subst hxn; exact Or.inl hcur
      · rw [hb x hxn] at h3 ⊢
        rw [hlen x hxn] at h2
        rcases hG.live x i (by omega) h2 h3 with h4 | h4 | h4
        · right; left
          have := hG.cur_last x h4
          rw [hcur, this, hnew]
          exact ⟨rfl, h4⟩
        · have := hlinked _ h4.1
          rw [this] at h4; cases h4.2
        · exact Or.inr (Or.inr h4)
    · intro x i u hl
      by_cases hxn : x = s.next
      · subst hxn; rw [hbn] at hl; rcases hl with hl | hl <;> cases hl
      · rw [hb x hxn] at hl ⊢; exact hG.drop_empty x i u hl
    · intro o j k h1 _ _ _ _ _
      have e : o + 1 = s.next := by rw [hcur] at h1; exact (Option.some.inj h1).symm
      unfold St.val; rw [e, hbn]; rfl
    · intro o k h1 _ _
      have e : o + 1 = s.next := by rw [hcur] at h1; exact (Option.some.inj h1).symm
      unfold St.val; rw [e, hbn]; rfl
    · intro x hx
      by_cases hxn : x = s.next
      · subst hxn; rw [hnew]; exact .init
      · rw [harr x hxn, hlen x hxn]; exact hG.rh_ok x (by omega)
    · intro x i hi hd
      by_cases hxn : x = s.next
      · subst hxn; rw [hnew] at hd; cases hd
      · rw [harr x hxn] at hd; rw [hlen x hxn] at hi; rw [hb x hxn]; exact hG.rh_done x i hi hd
    · intro x i u hl
      by_cases hxn : x = s.next
      · subst hxn; rw [hbn] at hl; cases hl
      · rw [hcur]; intro hc; cases hc; exact hxn rfl
    · intro x i hc _
      rw [hcur] at hc; cases hc
      rw [hbn]; rfl
  refine inv_of t h hG' (by rw [hself]; exact hp) hothers ?_
  intro u hu
  refine ⟨by omega, fun x hx => by rw [harr x (by omega)], fun x hx => Or.inl (by rw [harr x (by omega)]),
    fun x i hx hd => by rw [hb x (by omega)]; exact hd, fun x i _ hx _ _ => hb x (by omega) i,
    by rw [hrz']; exact id, ?_⟩
  intro h1 a h2
  rw [hrz u hu h1] at h2; cases h2

theorem inv_detach {s : St K V R} {a o : Nat} (h : Inv hash s) (hl : (s.arr a).linked = some o)
    (hd : 0 < (s.arr o).rh.detaching) :
    Inv hash ((s.setArr o { s.arr o with rh := { (s.arr o).rh with
          detaching := (s.arr o).rh.detaching - 1, detached := (s.arr o).rh.detached + 1 } }).setArr a
        { s.arr a with linked := none }) := by
  have hG := h.glob
  have ha := hG.linked_lt a o hl
  have hpr := hG.linked_pred a o ha hl
  have ho : o < s.next := by omega
  have hlgo := hG.lg_le o ho
  have hdone := Rehash.c04_detached_only_when_done (Nat.two_pow_pos _)
    (Nat.pow_le_pow_right (by omega) hlgo) (hG.rh_ok o ho) (by omega)
  have hdead : ∀ j, j < s.len o → (s.b o j).dead = true := fun j hj =>
    hG.rh_done o j hj (hdone.1 j hj)
  generalize hs' : ((s.setArr o { s.arr o with rh := { (s.arr o).rh with
          detaching := (s.arr o).rh.detaching - 1, detached := (s.arr o).rh.detached + 1 } }).setArr a
        { s.arr a with linked := none }) = s'
  have harr : ∀ x, x ≠ a → x ≠ o → s'.arr x = s.arr x := by
    intro x h1 h2; rw [← hs']; simp [St.setArr, h1, h2]
  have harra : s'.arr a = { s.arr a with linked := none } := by rw [← hs']; simp [St.setArr]
  have harro : s'.arr o = { s.arr o with rh := { (s.arr o).rh with
          detaching := (s.arr o).rh.detaching - 1, detached := (s.arr o).rh.detached + 1 } } := by
    rw [← hs']; simp [St.setArr, show o ≠ a by omega]
  have hnext : s'.next = s.next := by rw [← hs']; rfl
  have hcur : s'.cur = s.cur := by rw [← hs']; rfl
  have hrz : s'.rz = s.rz := by rw [← hs']; rfl
  have hpc : s'.pc = s.pc := by rw [← hs']; rfl
  clear hs'
  have hlg : ∀ x, (s'.arr x).lg = (s.arr x).lg := by
    intro x
    by_cases h1 : x = a
    · rw [h1, harra]
    · by_cases h2 : x = o
      · rw [h2, harro]
      · rw [harr x h1 h2]
  have hbk : ∀ x, (s'.arr x).bkt = (s.arr x).bkt := by
    intro x
    by_cases h1 : x = a
    · rw [h1, harra]
    · by_cases h2 : x = o
      · rw [h2, harro]
      · rw [harr x h1 h2]
  have hlk : ∀ x y, (s'.arr x).linked = some y → x ≠ a ∧ (s.arr x).linked = some y := by
    intro x y hl'
    by_cases h1 : x = a
    · rw [h1, harra] at hl'; cases hl'
    · refine ⟨h1, ?_⟩
      by_cases h2 : x = o
      · rw [h2, harro] at hl'; rw [h2]; exact hl'
      · rw [harr x h1 h2] at hl'; exact hl'
  have hlk2 : ∀ x, x ≠ a → (s'.arr x).linked = (s.arr x).linked := by
    intro x h1
    by_cases h2 : x = o
    · rw [h2, harro]
    · rw [harr x h1 h2]
  have hb : ∀ x i, s'.b x i = s.b x i := by intro x i; unfold St.b; rw [hbk]
  have hlen : ∀ x, s'.len x = s.len x := by intro x; unfold St.len; rw [hlg]
  have hix : ∀ x k, s'.ix hash x k = s.ix hash x k := by intro x k; unfold St.ix; rw [hlg]
  have hval : ∀ x k, s'.val hash x k = s.val hash x k := by
    intro x k; unfold St.val; rw [hix, hb]
  have hG' : Glob hash s' := by
    refine ⟨?_, ?_, ?_, ?_, ?_, ?_, ?_, ?_, ?_, ?_, ?_, ?_, ?_, ?_, ?_⟩
    · rw [hcur, hnext]; exact hG.cur_last
    · intro x y h1; rw [hnext]; exact hG.linked_lt x y (hlk x y h1).2
    · intro x y h1 h2; rw [hnext] at h1; exact hG.linked_pred x y h1 (hlk x y h2).2
    · intro x h1 y h2
      rw [hnext] at h1
      have h3 := hG.linked_one x h1 y (hlk x y h2).2
      by_cases hy : y = a
      · rw [hy, harra]
      · rw [hlk2 y hy]; exact h3
    · intro x; rw [hnext, hlg]; exact hG.lg_le x
    · intro x i k; rw [hb, hix, hnext]; exact hG.placed x i k
    · intro x i; rw [hb]; exact hG.dead_empty x i
    · intro x i; rw [hnext, hlen, hb, hcur]
      intro h1 h2 h3
      rcases hG.live x i h1 h2 h3 with h4 | h4 | h4
      · exact Or.inl h4
      · by_cases hx : x + 1 = a
        · have : x = o := by omega
          subst this
          have := hdead i h2
          rw [this] at h3; cases h3
        · right; left
          exact ⟨h4.1, by rw [hlk2 _ hx]; exact h4.2⟩
      · exact Or.inr (Or.inr h4)
    · intro x i u; rw [hb]; exact hG.drop_empty x i u
    · intro x j k; rw [hcur, hlen, hb, hix, hval]
      intro h1 h2
      exact hG.fresh x j k h1 (hlk _ _ h2).2
    · intro x k; rw [hcur, hval, hval]
      intro h1 h2
      exact hG.excl x k h1 (hlk _ _ h2).2
    · intro x; rw [hnext, hlen]
      intro h1
      have h2 := hG.rh_ok x h1
      by_cases hx : x = o
      · subst hx
        rw [harro]
        exact h2.step (Rehash.Step.detach hd)
      · by_cases hxa : x = a
        · subst hxa; rw [harra]; exact h2
        · rw [harr x hxa hx]; exact h2
    · intro x i; rw [hlen, hb]
      intro h1 h2
      apply hG.rh_done x i h1
      by_cases hx : x = o
      · subst hx; rw [harro] at h2; exact h2
      · by_cases hxa : x = a
        · subst hxa; rw [harra] at h2; exact h2
        · rw [harr x hxa hx] at h2; exact h2
    · intro x i u; rw [hb, hcur]; exact hG.cur_old_live x i u
    · intro x i; rw [hcur, hlen, hb]; exact hG.cur_live x i
  refine ⟨hG', fun u => ?_⟩
  have hr : Rely u s s' := by
    refine ⟨by omega, fun x _ => hlg x, ?_, fun x i _ h1 => by rw [hb]; exact h1,
      fun x i _ _ _ _ => hb x i, by rw [hrz]; exact id, by rw [hcur]; exact fun _ _ => id⟩
    intro x _
    by_cases hx : x = a
    · right
      refine ⟨by rw [hx, harra], ?_⟩
      intro y hy
      rw [hx, hl] at hy; cases hy
      exact hdead
    · exact Or.inl (hlk2 x hx)
  rw [hpc]
  exact hr.pcOk hG (h.pc u)

theorem inv_rehash {s : St K V R} {o : Nat} {m : Rehash.State} (h : Inv hash s)
    (hst : Rehash.Step (s.len o) (s.arr o).rh m) (hd : m.done = (s.arr o).rh.done) :
    Inv hash (s.setArr o { s.arr o with rh := m }) := by
  have hG := h.glob
  generalize hs' : s.setArr o { s.arr o with rh := m } = s'
  have harr : ∀ x, s'.arr x = if x = o then { s.arr o with rh := m } else s.arr x := by
    intro x; rw [← hs']; rfl
  have hnext : s'.next = s.next := by rw [← hs']; rfl
  have hcur : s'.cur = s.cur := by rw [← hs']; rfl
  have hrz : s'.rz = s.rz := by rw [← hs']; rfl
  have hpc : s'.pc = s.pc := by rw [← hs']; rfl
  clear hs'
  have hlg : ∀ x, (s'.arr x).lg = (s.arr x).lg := by
    intro x; rw [harr]; split
    · rename_i e; rw [e]
    · rfl
  have hlk : ∀ x, (s'.arr x).linked = (s.arr x).linked := by
    intro x; rw [harr]; split
    · rename_i e; rw [e]
    · rfl
  have hb : ∀ x i, s'.b x i = s.b x i := by
    intro x i; unfold St.b; rw [harr]; split
    · rename_i e; rw [e]
    · rfl
  have hlen : ∀ x, s'.len x = s.len x := by intro x; unfold St.len; rw [hlg]
  have hix : ∀ x k, s'.ix hash x k = s.ix hash x k := by intro x k; unfold St.ix; rw [hlg]
  have hval : ∀ x k, s'.val hash x k = s.val hash x k := by
    intro x k; unfold St.val; rw [hix, hb]
  have hG' : Glob hash s' := by
    refine ⟨?_, ?_, ?_, ?_, ?_, ?_, ?_, ?_, ?_, ?_, ?_, ?_, ?_, ?_, ?_⟩
    · rw [hcur, hnext]; exact hG.cur_last
    · intro x y; rw [hnext, hlk]; exact hG.linked_lt x y
    · intro x y; rw [hnext, hlk]; exact hG.linked_pred x y
    · intro x h1 y; rw [hlk, hlk]; rw [hnext] at h1; exact hG.linked_one x h1 y
    · intro x; rw [hnext, hlg]; exact hG.lg_le x
    · intro x i k; rw [hb, hix, hnext]; exact hG.placed x i k
    · intro x i; rw [hb]; exact hG.dead_empty x i
    · intro x i; rw [hnext, hlen, hb, hcur, hlk]; exact hG.live x i
    · intro x i u; rw [hb]; exact hG.drop_empty x i u
    · intro x j k; rw [hcur, hlk, hlen, hb, hix, hval]; exact hG.fresh x j k
    · intro x k; rw [hcur, hlk, hval, hval]; exact hG.excl x k
    · intro x h1; rw [hlen, harr]; rw [hnext] at h1
      split
      · rename_i e; subst e; exact (hG.rh_ok x h1).step hst
      · exact hG.rh_ok x h1
    · intro x i; rw [hlen, hb, harr]; intro h1
      split
      · rename_i e; subst e; simp only [hd]; exact hG.rh_done x i h1
      · exact hG.rh_done x i h1
    · intro x i u; rw [hb, hcur]; exact hG.cur_old_live x i u
    · intro x i; rw [hcur, hlen, hb]; exact hG.cur_live x i
  refine ⟨hG', fun u => ?_⟩
  have hr : Rely u s s' :=
    ⟨by omega, fun x _ => hlg x, fun x _ => Or.inl (hlk x), fun x i _ h1 => by rw [hb]; exact h1,
      fun x i _ _ _ _ => hb x i, by rw [hrz]; exact id, by rw [hcur]; exact fun _ _ => id⟩
  rw [hpc]
  exact hr.pcOk hG (h.pc u)

/-- Taking or releasing the resize lock. -/
theorem inv_rz {s : St K V R} (t : Nat) {z : Option Nat} {p : PC K V R} (h : Inv hash s)
    (hz : ∀ u, u ≠ t → s.rz = some u → z = some u)
    (hp : PcOk hash ({ s with rz := z } : St K V R) t p) :
    Inv hash (({ s with rz := z } : St K V R).setPc t p) := by
  have hG := h.glob
  have hG' : Glob hash (({ s with rz := z } : St K V R).setPc t p) :=
    ⟨hG.cur_last, hG.linked_lt, hG.linked_pred, hG.linked_one, hG.lg_le, hG.placed, hG.dead_empty,
      hG.live, hG.drop_empty, hG.fresh, hG.excl, hG.rh_ok, hG.rh_done, hG.cur_old_live, hG.cur_live⟩
  have hG0 : Glob hash ({ s with rz := z } : St K V R) :=
    ⟨hG.cur_last, hG.linked_lt, hG.linked_pred, hG.linked_one, hG.lg_le, hG.placed, hG.dead_empty,
      hG.live, hG.drop_empty, hG.fresh, hG.excl, hG.rh_ok, hG.rh_done, hG.cur_old_live, hG.cur_live⟩
  refine inv_of t h hG' ?_ (fun u hu => setPc_other _ t u p hu) ?_
  · rw [setPc_self]
    have hr : Rely t ({ s with rz := z } : St K V R) (({ s with rz := z } : St K V R).setPc t p) :=
      ⟨Nat.le_refl _, fun _ _ => rfl, fun _ _ => Or.inl rfl, fun _ _ _ h => h, fun _ _ _ _ _ _ => rfl,
        fun h => h, fun _ _ h => h⟩
    exact hr.pcOk hG0 hp
  · intro u hu
    exact ⟨Nat.le_refl _, fun _ _ => rfl, fun _ _ => Or.inl rfl, fun _ _ _ h => h,
      fun _ _ _ _ _ _ => rfl, fun h => hz u hu h, fun _ _ h => h⟩

/-- Taking out an array all of whose buckets are locked and empty. -/
theorem inv_dropSwap {s : St K V R} {t a : Nat} (h : Inv hash s)
    (hpc : s.pc t = .rzDrop a (s.len a)) :
    Inv hash (({ s.setLocks a 0 (s.len a) (some (.kill t)) with cur := none } : St K V R).setPc t
        (.rzKill a 0)) := by
  have hG := h.glob
  have hp := h.pc t
  rw [hpc] at hp
  obtain ⟨ha, hlk, hrz, hcur, _, hheld⟩ := hp
  generalize hs' : ({ s.setLocks a 0 (s.len a) (some (.kill t)) with cur := none } : St K V R) = s'
  have hnext : s'.next = s.next := by rw [← hs']; rfl
  have hcur' : s'.cur = none := by rw [← hs']
  have hrz' : s'.rz = s.rz := by rw [← hs']; rfl
  have hpc' : s'.pc = s.pc := by rw [← hs']; rfl
  have hlg : ∀ x, (s'.arr x).lg = (s.arr x).lg := by
    intro x; rw [← hs']; exact setLocks_lg ..
  have hlkd : ∀ x, (s'.arr x).linked = (s.arr x).linked := by
    intro x; rw [← hs']; exact setLocks_linked ..
  have hrh : ∀ x, (s'.arr x).rh = (s.arr x).rh := by
    intro x; rw [← hs']; exact setLocks_rh ..
  have hcon : ∀ x i, (s'.b x i).content = (s.b x i).content := by
    intro x i; rw [← hs']; exact setLocks_content ..
  have hdead : ∀ x i, (s'.b x i).dead = (s.b x i).dead := by
    intro x i; rw [← hs']; exact setLocks_dead ..
  have hlock : ∀ x i, (s'.b x i).lock = if x = a ∧ 0 ≤ i ∧ i < s.len a then some (.kill t)
      else (s.b x i).lock := by
    intro x i; rw [← hs']; exact setLocks_lock ..
  clear hs'
  have hlen : ∀ x, s'.len x = s.len x := by intro x; unfold St.len; rw [hlg]
  have hix : ∀ x k, s'.ix hash x k = s.ix hash x k := by intro x k; unfold St.ix; rw [hlg]
  have he : ∀ x i, (s'.b x i).isEmpty ↔ (s.b x i).isEmpty := by
    intro x i; unfold Bkt.isEmpty; rw [hcon]
  have hG' : Glob hash s' := by
    refine ⟨?_, ?_, ?_, ?_, ?_, ?_, ?_, ?_, ?_, ?_, ?_, ?_, ?_, ?_, ?_⟩
    · intro c hc; rw [hcur'] at hc; cases hc
    · intro x y; rw [hnext, hlkd]; exact hG.linked_lt x y
    · intro x y; rw [hnext, hlkd]; exact hG.linked_pred x y
    · intro x h1 y; rw [hlkd, hlkd]; rw [hnext] at h1; exact hG.linked_one x h1 y
    · intro x; rw [hnext, hlg]; exact hG.lg_le x
    · intro x i k; rw [hcon, hix, hnext]; exact hG.placed x i k
    · intro x i; rw [hdead, he, hlock]; intro hd
      have h2 := hG.dead_empty x i hd
      refine ⟨h2.1, ?_⟩
      rw [if_neg]
      · exact h2.2
      · rintro ⟨rfl, _, h3⟩
        have := (hheld i h3).2
        rw [this] at hd; cases hd
    · intro x i; rw [hnext, hlen, hdead, hlock]
      intro h1 h2 h3
      right; right
      by_cases hx : x = a
      · subst hx; exact ⟨t, by rw [if_pos ⟨rfl, Nat.zero_le _, h2⟩]⟩
      · rw [if_neg (fun hc => hx hc.1)]
        rcases hG.live x i h1 h2 h3 with h4 | h4 | h4
        · rw [hcur] at h4; cases h4; exact absurd rfl hx
        · rw [hcur] at h4; cases h4.1
          rw [hlk] at h4; cases h4.2
        · exact h4
    · intro x i u; rw [he, hlock]
      split
      · rename_i hc; obtain ⟨rfl, _, h3⟩ := hc
        intro _
        exact hG.drop_empty x i t (Or.inl (hheld i h3).1)
      · exact hG.drop_empty x i u
    · intro o j k h1; rw [hcur'] at h1; cases h1
    · intro o k h1; rw [hcur'] at h1; cases h1
    · intro x; rw [hnext, hlen, hrh]; exact hG.rh_ok x
    · intro x i; rw [hlen, hrh, hdead]; exact hG.rh_done x i
    · intro x i u _; rw [hcur']; simp
    · intro x i h1; rw [hcur'] at h1; cases h1
  have hG2 : Glob hash (s'.setPc t (.rzKill a 0)) :=
    ⟨hG'.cur_last, hG'.linked_lt, hG'.linked_pred, hG'.linked_one, hG'.lg_le, hG'.placed,
      hG'.dead_empty, hG'.live, hG'.drop_empty, hG'.fresh, hG'.excl, hG'.rh_ok, hG'.rh_done,
      hG'.cur_old_live, hG'.cur_live⟩
  refine inv_of t h hG2 ?_ (fun u hu => by rw [setPc_other _ _ _ _ hu, hpc']) ?_
  · rw [setPc_self]
    refine ⟨by simp only [setPc_next]; omega, by simp only [setPc_rz]; rw [hrz', hrz], ?_⟩
    intro j _ h2
    simp only [setPc_len] at h2
    rw [hlen] at h2
    simp only [setPc_b]
    rw [hlock, if_pos ⟨rfl, Nat.zero_le _, h2⟩, hdead]
    exact ⟨rfl, (hheld j h2).2⟩
  · intro u hu
    refine ⟨by simp only [setPc_next]; omega, fun x _ => hlg x, fun x _ => Or.inl (hlkd x),
      fun x i _ h1 => by simp only [setPc_b]; rw [hdead]; exact h1, ?_, ?_, ?_⟩
    · intro x i l _ h1 h2
      refine bkt_ext (hcon x i) ?_ (hdead x i)
      simp only [setPc_b]
      rw [hlock, if_neg]
      rintro ⟨rfl, _, h3⟩
      have := (hheld i h3).1
      rw [this] at h1; cases h1; cases h2; exact hu rfl
    · intro h1; rw [hrz] at h1; cases h1; exact absurd rfl hu
    · intro h1; rw [hrz] at h1; cases h1; exact absurd rfl hu

end Scc.Table
