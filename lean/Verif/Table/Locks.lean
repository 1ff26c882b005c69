import Verif.Table.Preserve

/-!
# Every lock is accounted for by the program counter of its owner
-/

namespace Scc.Table

open Scc.Index (bucketIndex fromIndexToRange InRange)

variable {K V R : Type} {hash : K → Nat}

/-- The locks a thread holds at a program counter. -/
def Holds (hash : K → Nat) (s : St K V R) (t : Nat) (p : PC K V R) (x i : Nat) (l : Lock) : Prop :=
  match p with
  | .crit g a => x = a ∧ i = g.idx hash (s.arr a).lg ∧ l = .user t
  | .fin o a _ => x = a ∧ i = s.ix hash a o.key ∧ l = .user t
  | .swept _ i' _ _ a => x = a ∧ i = i' ∧ l = .user t
  | .rlLock _ a o j n =>
      l = .reloc t ∧ ((x = o ∧ i = j) ∨ (x = a ∧ (s.rng o a j).1 ≤ i ∧ i < n))
  | .rlMove _ a o j => (l = .moving t ∧ x = o ∧ i = j) ∨
      (l = .reloc t ∧ x = a ∧ (s.rng o a j).1 ≤ i ∧ i < (s.rng o a j).2)
  | .rlKill _ _ o j => l = .moving t ∧ x = o ∧ i = j
  | .rzDrop a i' => l = .drop t ∧ x = a ∧ i < i'
  | .rzKill a i' => l = .kill t ∧ x = a ∧ i' ≤ i ∧ i < s.len a
  | _ => False

/-- Owned locks are held by their owner's program counter. -/
def LockInv (hash : K → Nat) (s : St K V R) : Prop :=
  ∀ x i l t, (s.b x i).lock = some l → l.owner = some t → Holds hash s t (s.pc t) x i l

theorem holds_congr {s s' : St K V R} (hG : Glob hash s) {t : Nat} {p : PC K V R}
    (hp : PcOk hash s t p) (hlg : ∀ x, x < s.next → (s'.arr x).lg = (s.arr x).lg) {x i : Nat}
    {l : Lock} (h : Holds hash s t p x i l) : Holds hash s' t p x i l := by
  have hlen : ∀ x, x < s.next → s'.len x = s.len x := by
    intro x hx; unfold St.len; rw [hlg x hx]
  have hrng : ∀ x y i, x < s.next → y < s.next → s'.rng x y i = s.rng x y i := by
    intro x y i hx hy; unfold St.rng; rw [hlen x hx, hlen y hy]
  cases p with
  | crit g a =>
    simp only [Holds] at *
    rw [hlg a hp.1]; exact h
  | fin o a r =>
    simp only [Holds, St.ix] at *
    rw [hlg a hp.1]; exact h
  | swept => exact h
  | rlLock c a o j n =>
    have ha := hp.1.lt
    have := hG.linked_pred a o ha hp.2.1
    simp only [Holds] at *
    rw [hrng o a j (by omega) ha]; exact h
  | rlMove c a o j =>
    have ha := hp.1.lt
    have := hG.linked_pred a o ha hp.2.1
    simp only [Holds] at *
    rw [hrng o a j (by omega) ha]; exact h
  | rlKill => exact h
  | rzDrop => exact h
  | rzKill a i' =>
    simp only [Holds] at *
    rw [hlen a hp.1]; exact h
  | _ => exact h

/-- A step of `t`. -/
theorem lockInv_of {s s' : St K V R} (t : Nat) (hI : Inv hash s) (hL : LockInv hash s)
    (hlg : ∀ x, x < s.next → (s'.arr x).lg = (s.arr x).lg)
    (hpc : ∀ u, u ≠ t → s'.pc u = s.pc u)
    (hown : ∀ x i l, (s'.b x i).lock = some l → l.owner = some t → Holds hash s' t (s'.pc t) x i l)
    (hoth : ∀ x i l u, u ≠ t → (s'.b x i).lock = some l → l.owner = some u →
      (s.b x i).lock = some l) : LockInv hash s' := by
  intro x i l u hl ho
  by_cases hu : u = t
  · subst hu; exact hown x i l hl ho
  · rw [hpc u hu]
    exact holds_congr hI.glob (hI.pc u) hlg (hL x i l u (hoth x i l u hu hl ho) ho)

/-- The locks do not change. -/
theorem lockInv_pc {s : St K V R} {t : Nat} {p : PC K V R} (hL : LockInv hash s)
    (h : ∀ x i l, Holds hash s t (s.pc t) x i l → Holds hash s t p x i l) :
    LockInv hash (s.setPc t p) := by
  intro x i l u hl ho
  have := hL x i l u hl ho
  by_cases hu : u = t
  · subst hu; rw [setPc_self]; exact h x i l this
  · rw [setPc_other _ _ _ _ hu]; exact this

theorem holds_lg {s s' : St K V R} (hlg : ∀ x, (s'.arr x).lg = (s.arr x).lg) {t : Nat}
    {p : PC K V R} {x i : Nat} {l : Lock} (h : Holds hash s t p x i l) : Holds hash s' t p x i l := by
  have hlen : ∀ x, s'.len x = s.len x := by intro x; unfold St.len; rw [hlg x]
  have hrng : ∀ x y i, s'.rng x y i = s.rng x y i := by
    intro x y i; unfold St.rng; rw [hlen x, hlen y]
  unfold Holds at *
  unfold St.ix at *
  cases p <;> simp only [hlg, hrng, hlen] at * <;> exact h

/-- Some locks change. -/
theorem lockInv_chg {s s' : St K V R} (t : Nat) (q : PC K V R) (hL : LockInv hash s)
    (hlg : ∀ x, (s'.arr x).lg = (s.arr x).lg) (hpc : s'.pc = (s.setPc t q).pc)
    (hl : ∀ x i l u, (s'.b x i).lock = some l → l.owner = some u →
      (u ≠ t → (s.b x i).lock = some l) ∧ (u = t → Holds hash s t q x i l)) : LockInv hash s' := by
  intro x i l u h ho
  apply holds_lg hlg
  rw [hpc]
  by_cases hu : u = t
  · subst hu; rw [setPc_self]; exact (hl x i l u h ho).2 rfl
  · rw [setPc_other _ _ _ _ hu]; exact hL x i l u ((hl x i l u h ho).1 hu) ho

theorem lockInv_newArr {s : St K V R} {t lg : Nat} {l : Option Nat} {q : PC K V R}
    (hI : Inv hash s) (hL : LockInv hash s) (hn : ∀ x i l, ¬ Holds hash s t (s.pc t) x i l) :
    LockInv hash (({ s.setArr s.next (Arr.new lg l) with
        next := s.next + 1, cur := some s.next } : St K V R).setPc t q) := by
  have hb : ∀ x i m, ((({ s.setArr s.next (Arr.new lg l) with
        next := s.next + 1, cur := some s.next } : St K V R).setPc t q).b x i).lock = some m →
      (s.b x i).lock = some m := by
    intro x i m h
    simp only [setPc_b] at h
    unfold St.b St.setArr at h
    simp only at h
    split at h
    · cases h
    · exact h
  refine lockInv_of t hI hL ?_ (fun u hu => by rw [setPc_other _ _ _ _ hu]; rfl) ?_ ?_
  · intro x hx
    have : x ≠ s.next := by omega
    simp [St.setArr, this]
  · intro x i m h ho
    exact absurd (hL x i m t (hb x i m h) ho) (hn x i m)
  · intro x i m u _ h _
    exact hb x i m h

/-- A lock that changed hands belonged to the acting thread or to nobody. -/
theorem lockInv_step [DecidableEq K] {s s' : St K V R}
    {e : Option (Event K V R)} (hI : Inv hash s) (hL : LockInv hash s) (st : Step hash s e s') :
    LockInv hash s' := by
  have hG := hI.glob
  have simple : ∀ {t : Nat} {p q : PC K V R}, s.pc t = p → (∀ x i l, ¬ Holds hash s t p x i l) →
      LockInv hash (s.setPc t q) := by
    intro t p q hp hn
    exact lockInv_pc hL (fun x i l h => absurd (hp ▸ h) (hn x i l))
  -- acquiring one lock
  have acquire : ∀ {t : Nat} {q : PC K V R} {x₀ i₀ : Nat} {l₀ : Lock}, l₀.owner = some t →
      Holds hash s t q x₀ i₀ l₀ → (∀ x i l, Holds hash s t (s.pc t) x i l → Holds hash s t q x i l) →
      LockInv hash ((s.setLock x₀ i₀ (some l₀)).setPc t q) := by
    intro t q x₀ i₀ l₀ ho₀ hq hm
    refine lockInv_chg t q hL (by simp) rfl ?_
    intro x i l u hl ho
    simp only [setPc_b, setLock_lock] at hl
    split at hl
    · rename_i hx; obtain ⟨rfl, rfl⟩ := hx
      cases hl
      rw [ho₀] at ho
      exact ⟨fun hu => absurd (Option.some.inj ho).symm hu, fun _ => hq⟩
    · refine ⟨fun _ => hl, ?_⟩
      rintro rfl
      exact hm x i l (hL x i l u hl ho)
  -- releasing one lock, which was the only one
  have release : ∀ {t : Nat} {q : PC K V R} {x₀ i₀ : Nat},
      (∀ x i l, Holds hash s t (s.pc t) x i l → x = x₀ ∧ i = i₀) →
      LockInv hash ((s.setLock x₀ i₀ none).setPc t q) := by
    intro t q x₀ i₀ hm
    refine lockInv_chg t q hL (by simp) rfl ?_
    intro x i l u hl ho
    simp only [setPc_b, setLock_lock] at hl
    split at hl
    · cases hl
    · rename_i hx
      refine ⟨fun _ => hl, ?_⟩
      rintro rfl
      exact absurd (hm x i l (hL x i l u hl ho)) hx
  have kill : ∀ {t : Nat} {q : PC K V R} {x₀ i₀ : Nat},
      (∀ x i l, Holds hash s t (s.pc t) x i l → (x = x₀ ∧ i = i₀) ∨ Holds hash s t q x i l) →
      LockInv hash ((s.killBkt x₀ i₀).setPc t q) := by
    intro t q x₀ i₀ hm
    refine lockInv_chg t q hL (by simp) rfl ?_
    intro x i l u hl ho
    simp only [setPc_b, killBkt_lock] at hl
    split at hl
    · cases hl
    · rename_i hx
      refine ⟨fun _ => hl, ?_⟩
      rintro rfl
      exact (hm x i l (hL x i l u hl ho)).resolve_left hx
  have abort : ∀ {t : Nat} {q : PC K V R} {c : Cont K V R} {a o j n : Nat} {m : Option Lock},
      s.pc t = .rlLock c a o j n → (∀ l, m = some l → l.owner = none) →
      LockInv hash (((s.setLocks a (s.rng o a j).1 n m).setLock o j none).setPc t q) := by
    intro t q c a o j n m hpc hm
    refine lockInv_chg t q hL (by simp) rfl ?_
    intro x i l u hl ho
    simp only [setPc_b, setLock_lock, setLocks_lock] at hl
    split at hl
    · cases hl
    · rename_i h1
      split at hl
      · rw [hm l hl] at ho; cases ho
      · rename_i h2
        refine ⟨fun _ => hl, ?_⟩
        rintro rfl
        have := hL x i l u hl ho
        rw [hpc] at this
        exact absurd this.2 (by rintro (h3 | h3); exact h1 h3; exact h2 h3)
  cases st with
  | invoke hpc => exact simple hpc (fun _ _ _ h => h)
  | tvInvoke hpc => exact simple hpc (fun _ _ _ h => h)
  | loadNone hpc _ _ => exact simple hpc (fun _ _ _ h => h)
  | tvLoadNone hpc _ => exact simple hpc (fun _ _ _ h => h)
  | alloc lg hpc _ _ _ _ => exact lockInv_newArr hI hL (by rw [hpc]; exact fun _ _ _ h => h)
  | load hpc _ => exact simple hpc (fun _ _ _ h => h)
  | linkNone hpc _ => exact simple hpc (fun _ _ _ h => h)
  | linkSome hpc _ => exact simple hpc (fun _ _ _ h => h)
  | dedupSkip hpc _ _ => exact simple hpc (fun _ _ _ h => h)
  | dedupLock hpc _ _ _ =>
    exact acquire rfl ⟨rfl, Or.inl ⟨rfl, rfl⟩⟩ (by rw [hpc]; exact fun _ _ _ h => h.elim)
  | dedupDone hpc _ => exact simple hpc (fun _ _ _ h => h)
  | dedupUnlinked hpc _ => exact simple hpc (fun _ _ _ h => h)
  | retry hpc =>
    rcases hpc with hpc | ⟨_, _, hpc⟩ | hpc <;> exact simple hpc (fun _ _ _ h => h)
  | read hpc _ _ _ => exact simple hpc (fun _ _ _ h => h)
  | lock hpc _ _ =>
    exact acquire rfl ⟨rfl, rfl, rfl⟩ (by rw [hpc]; exact fun _ _ _ h => h.elim)
  | @commit t o a hpc =>
    refine lockInv_chg t _ hL (by simp) rfl ?_
    intro x i l u hl ho
    have : (s.b x i).lock = some l := by
      rw [setPc_b, modBkt_b] at hl; split at hl <;> exact hl
    refine ⟨fun _ => this, ?_⟩
    rintro rfl
    have h2 := hL x i l u this ho
    rw [hpc] at h2; exact h2
  | @commitEvict t o a g k' w hpc =>
    refine lockInv_chg t _ hL (by simp) rfl ?_
    intro x i l u hl ho
    have : (s.b x i).lock = some l := by
      rw [setPc_b, modBkt_b] at hl; split at hl <;> exact hl
    refine ⟨fun _ => this, ?_⟩
    rintro rfl
    have h2 := hL x i l u this ho
    rw [hpc] at h2; exact h2
  | unlock hpc => exact release (by rw [hpc]; exact fun _ _ _ h => ⟨h.1, h.2.1⟩)
  | @visit t u i p seen a hpc =>
    refine lockInv_chg t _ hL (by simp) rfl ?_
    intro x i l u hl ho
    have : (s.b x i).lock = some l := by
      rw [setPc_b, modBkt_b] at hl; split at hl <;> exact hl
    refine ⟨fun _ => this, ?_⟩
    rintro rfl
    have h2 := hL x i l u this ho
    rw [hpc] at h2; exact h2
  | tvUnlock hpc => exact release (by rw [hpc]; exact fun _ _ _ h => ⟨h.1, h.2.1⟩)
  | ret hpc => exact simple hpc (fun _ _ _ h => h)
  | tvRet hpc => exact simple hpc (fun _ _ _ h => h)
  | busy hpc _ => rcases hpc with ⟨_, _, hpc⟩ | hpc <;> exact simple hpc (fun _ _ _ h => h)
  | @cancel t g hpc =>
    refine lockInv_pc hL ?_
    intro x i l h
    generalize s.pc t = q at hpc h
    cases hpc <;> exact h
  | @panic t g hpc =>
    refine lockInv_pc hL ?_
    intro x i l h
    generalize s.pc t = q at hpc h
    cases hpc <;> exact h
  | critPanic hpc => exact release (by rw [hpc]; exact fun _ _ _ h => ⟨h.1, h.2.1⟩)
  | @tvPanic t u i p seen a S hpc =>
    refine lockInv_chg t _ hL (by simp) rfl ?_
    intro x i l u hl ho
    simp only [setPc_b, setLock_lock] at hl
    split at hl
    · cases hl
    · rename_i hx
      have : (s.b x i).lock = some l := by
        rw [modBkt_b] at hl; split at hl <;> exact hl
      refine ⟨fun _ => this, ?_⟩
      rintro rfl
      have h2 := hL x i l u this ho
      rw [hpc] at h2
      exact absurd ⟨h2.1, h2.2.1⟩ hx
  | rlPanic hpc => exact abort hpc (by simp)
  | rlPanicHelp hpc => exact abort hpc (by simp)
  | @rlBack t c a o j hpc _ =>
    refine lockInv_chg t _ hL (by simp) rfl ?_
    intro x i l u hl ho
    simp only [setPc_b, setLock_lock] at hl
    split at hl
    · rename_i hx; cases hl
      cases ho
      exact ⟨fun hu => absurd rfl hu, fun _ => ⟨rfl, Or.inl hx⟩⟩
    · rename_i hx
      refine ⟨fun _ => hl, ?_⟩
      rintro rfl
      have h2 := hL x i l u hl ho
      rw [hpc] at h2
      rcases h2 with h3 | h3
      · exact absurd h3.2 hx
      · exact ⟨h3.1, Or.inr h3.2⟩
  | helpLoad hpc _ => exact simple hpc (fun _ _ _ h => h)
  | helpLink hpc _ => exact simple hpc (fun _ _ _ h => h)
  | helpQuit hpc => rcases hpc with hpc | ⟨_, hpc⟩ <;> exact simple hpc (fun _ _ _ h => h)
  | helpLock hpc _ _ _ =>
    exact acquire rfl ⟨rfl, Or.inl ⟨rfl, rfl⟩⟩ (by rw [hpc]; exact fun _ _ _ h => h.elim)
  | rlEmpty hpc hn _ =>
    refine kill ?_
    rw [hpc]
    rintro x i l ⟨_, h | h⟩
    · exact Or.inl h
    · exact absurd h.2 (by omega)
  | @rlTarget t c a o j n hpc hn _ =>
    have hp := hI.pc t
    rw [hpc] at hp
    obtain ⟨_, _, _, _, _, h1, _, _⟩ := hp
    refine acquire rfl ⟨rfl, Or.inr ⟨rfl, h1, by omega⟩⟩ ?_
    rw [hpc]
    rintro x i l ⟨h1, h | h⟩
    · exact ⟨h1, Or.inl h⟩
    · exact ⟨h1, Or.inr ⟨h.1, h.2.1, by omega⟩⟩
  | rlAbort hpc _ => exact abort hpc (by simp)
  | rlLeak hpc => exact abort hpc (by intro l h; cases h; rfl)
  | rlLeakHelp hpc => exact abort hpc (by intro l h; cases h; rfl)
  | @rlBegin t c a o j n hpc hn =>
    refine lockInv_chg t _ hL (by simp) rfl ?_
    intro x i l u hl ho
    simp only [setPc_b, setLock_lock] at hl
    split at hl
    · rename_i hx; cases hl
      cases ho
      exact ⟨fun hu => absurd rfl hu, fun _ => Or.inl ⟨rfl, hx⟩⟩
    · rename_i hx
      refine ⟨fun _ => hl, ?_⟩
      rintro rfl
      have h2 := hL x i l u hl ho
      have hp := hI.pc u
      rw [hpc] at h2 hp
      rcases h2.2 with h3 | h3
      · exact absurd h3 hx
      · obtain ⟨_, _, _, _, _, _, h1, _⟩ := hp
        exact Or.inr ⟨h2.1, h3.1, h3.2.1, by omega⟩
  | @rlMove t c a o j k v hpc _ =>
    intro x i l u hl ho
    have : (s.b x i).lock = some l := by
      rw [modBkt_b, modBkt_b] at hl
      split at hl
      · rename_i h1; obtain ⟨rfl, rfl⟩ := h1
        have e : ∀ b : Bkt K V, (Bkt.set k (some v) b).lock = b.lock := fun _ => rfl
        rw [e] at hl
        split at hl <;> exact hl
      · split at hl <;> exact hl
    exact holds_lg (by simp) (hL x i l u this ho)
  | @rlUnlock t c a o j hpc _ =>
    refine lockInv_chg t _ hL (by simp) rfl ?_
    intro x i l u hl ho
    simp only [setPc_b, setLocks_lock] at hl
    split at hl
    · cases hl
    · rename_i hx
      refine ⟨fun _ => hl, ?_⟩
      rintro rfl
      have h2 := hL x i l u hl ho
      rw [hpc] at h2
      rcases h2 with h3 | h3
      · exact h3
      · exact absurd h3.2 hx
  | rlKill hpc =>
    refine kill ?_
    rw [hpc]
    rintro x i l ⟨_, h⟩
    exact Or.inl h
  | @rehash o m _ _ _ =>
    intro x i l u hl ho
    have hlg : ∀ x, ((s.setArr o { s.arr o with rh := m }).arr x).lg = (s.arr x).lg := by
      intro x; unfold St.setArr; simp only; split
      · rename_i hx; subst hx; rfl
      · rfl
    refine holds_lg hlg (hL x i l u ?_ ho)
    unfold St.b St.setArr at hl
    simp only at hl
    split at hl
    · rename_i hx; subst hx; exact hl
    · exact hl
  | @detach a o hlk _ =>
    have ha := hG.linked_lt a o hlk
    have hpr := hG.linked_pred a o ha hlk
    intro x i l u hl ho
    refine holds_lg (s := s) ?_ (hL x i l u ?_ ho)
    · intro y
      unfold St.setArr; simp only; split
      · rename_i hx; subst hx; rfl
      · split
        · rename_i hx; subst hx; rfl
        · rfl
    · unfold St.b St.setArr at hl
      simp only at hl
      split at hl
      · rename_i hx; subst hx; exact hl
      · split at hl
        · rename_i hx; subst hx; exact hl
        · exact hl
  | rzLoad hpc _ => exact simple hpc (fun _ _ _ h => h)
  | rzLink hpc _ => exact simple hpc (fun _ _ _ h => h)
  | rzQuit hpc => rcases hpc with hpc | hpc <;> exact simple hpc (fun _ _ _ h => h)
  | @rzLock t a hpc _ =>
    exact lockInv_pc (s := { s with rz := some t }) hL
      (fun x i l h => absurd h (by show ¬ Holds hash s t (s.pc t) x i l; rw [hpc]; exact id))
  | rzCheck hpc _ => exact simple hpc (fun _ _ _ h => h)
  | rzNothing hpc => rcases hpc with hpc | hpc <;> exact simple hpc (fun _ _ _ h => h)
  | rzSwap lg hpc _ _ => exact lockInv_newArr hI hL (by rw [hpc]; exact fun _ _ _ h => h)
  | @rzRelease t hpc =>
    exact lockInv_pc (s := { s with rz := none }) hL
      (fun x i l h => absurd h (by show ¬ Holds hash s t (s.pc t) x i l; rw [hpc]; exact id))
  | rzDropStart hpc => exact simple hpc (fun _ _ _ h => h)
  | rzDropLock hpc _ _ _ _ =>
    refine acquire rfl ⟨rfl, rfl, by omega⟩ ?_
    rw [hpc]
    rintro x i l ⟨h1, h2, h3⟩
    exact ⟨h1, h2, by omega⟩
  | @rzDropFail t a i hpc =>
    refine lockInv_chg t _ hL (by simp) rfl ?_
    intro x j l u hl ho
    simp only [setPc_b, setLocks_lock] at hl
    split at hl
    · cases hl
    · rename_i hx
      refine ⟨fun _ => hl, ?_⟩
      rintro rfl
      have h2 := hL x j l u hl ho
      rw [hpc] at h2
      exact absurd ⟨h2.2.1, by omega, h2.2.2⟩ hx
  | @rzDropSwap t a i hpc hi =>
    refine lockInv_chg (s := s) t (.rzKill a 0) hL ?_ rfl ?_
    · intro x; exact setLocks_lg ..
    · intro x j l u hl ho
      have hl' : ((s.setLocks a 0 i (some (.kill t))).b x j).lock = some l := hl
      rw [setLocks_lock] at hl'
      split at hl'
      · rename_i hx; cases hl'
        cases ho
        exact ⟨fun hu => absurd rfl hu, fun _ => ⟨rfl, hx.1, hx.2.1, by rw [← hi]; exact hx.2.2⟩⟩
      · rename_i hx
        refine ⟨fun _ => hl', ?_⟩
        rintro rfl
        have h2 := hL x j l u hl' ho
        rw [hpc] at h2
        exact absurd ⟨h2.2.1, by omega, h2.2.2⟩ hx
  | @rzKillOne t a i hpc _ =>
    refine kill ?_
    rw [hpc]
    rintro x j l ⟨h1, h2, h3, h4⟩
    by_cases hj : j = i
    · exact Or.inl ⟨h2, hj⟩
    · exact Or.inr ⟨h1, h2, by omega, h4⟩
  | rzKillEnd hpc hi =>
    refine simple hpc ?_
    rintro x j l ⟨h1, h2, h3, h4⟩
    omega
  | emNone hpc _ => exact simple hpc (fun _ _ _ h => h)
  | emLoad hpc _ => exact simple hpc (fun _ _ _ h => h)
  | emLinkNone hpc _ => exact simple hpc (fun _ _ _ h => h)
  | emLinkSome hpc _ => exact simple hpc (fun _ _ _ h => h)
  | emOld hpc _ _ => exact simple hpc (fun _ _ _ h => h)
  | emOldFound hpc _ _ => exact simple hpc (fun _ _ _ h => h)
  | emOldEnd hpc _ => exact simple hpc (fun _ _ _ h => h)
  | emCur hpc _ _ => exact simple hpc (fun _ _ _ h => h)
  | emCurFound hpc _ _ => exact simple hpc (fun _ _ _ h => h)
  | emEnd hpc _ => exact simple hpc (fun _ _ _ h => h)
  | emRet hpc => exact simple hpc (fun _ _ _ h => h)

theorem lockInv_start {s : St K V R} (h : Init s) : LockInv hash s := by
  cases h <;> (intro x i l t h; cases h)

theorem lockInv_exec [DecidableEq K] (hh : ∀ k, hash k < 2 ^ 64) {s s' : St K V R}
    {es : List (Event K V R)} (h : Init s) (ex : Exec hash s es s') : LockInv hash s' := by
  induction ex with
  | nil => exact lockInv_start h
  | tau ex st ih => exact lockInv_step (inv_exec hh (inv_start h) ex) ih st
  | event ex st ih => exact lockInv_step (inv_exec hh (inv_start h) ex) ih st

end Scc.Table
