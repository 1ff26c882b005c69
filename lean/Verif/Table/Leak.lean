import Verif.Table.Locks

/-!
# A leaked lock is never released
-/

namespace Scc.Table

open Scc.Index (bucketIndex fromIndexToRange InRange)

variable {K V R : Type} {hash : K → Nat}

/-- A step changes the lock of a bucket only if it was free or held by the acting thread; so a lock
without owner stays, and a bucket locked like that is not killed. -/
theorem leaked_step [DecidableEq K] {s s' : St K V R} {e : Option (Event K V R)} (hI : Inv hash s)
    {x i : Nat} (hx : x < s.next) (hl : (s.b x i).lock = some .leaked) (st : Step hash s e s') :
    (s'.b x i).lock = some .leaked ∧ (s'.b x i).dead = (s.b x i).dead := by
  have hG := hI.glob
  have acquire : ∀ {t : Nat} {q : PC K V R} {y j : Nat} {m : Option Lock},
      (s.b y j).lock ≠ some .leaked →
      (((s.setLock y j m).setPc t q).b x i).lock = some .leaked ∧
        (((s.setLock y j m).setPc t q).b x i).dead = (s.b x i).dead := by
    intro t q y j m hm
    rw [setPc_b, setLock_lock, setLock_dead]
    refine ⟨?_, rfl⟩
    split
    · rename_i h; obtain ⟨rfl, rfl⟩ := h; exact absurd hl hm
    · exact hl
  have many : ∀ {t : Nat} {q : PC K V R} {y lo hi : Nat} {m : Option Lock},
      (∀ j, lo ≤ j → j < hi → (s.b y j).lock ≠ some .leaked) →
      (((s.setLocks y lo hi m).setPc t q).b x i).lock = some .leaked ∧
        (((s.setLocks y lo hi m).setPc t q).b x i).dead = (s.b x i).dead := by
    intro t q y lo hi m hm
    rw [setPc_b, setLocks_lock, setLocks_dead]
    refine ⟨?_, rfl⟩
    split
    · rename_i h; obtain ⟨rfl, h1, h2⟩ := h; exact absurd hl (hm i h1 h2)
    · exact hl
  have kill : ∀ {t : Nat} {q : PC K V R} {y j : Nat}, (s.b y j).lock ≠ some .leaked →
      (((s.killBkt y j).setPc t q).b x i).lock = some .leaked ∧
        (((s.killBkt y j).setPc t q).b x i).dead = (s.b x i).dead := by
    intro t q y j hm
    rw [setPc_b, killBkt_lock, killBkt_dead]
    by_cases h : x = y ∧ i = j
    · obtain ⟨rfl, rfl⟩ := h; exact absurd hl hm
    · rw [if_neg h, if_neg h]; exact ⟨hl, rfl⟩
  have abort : ∀ {t : Nat} {q : PC K V R} {c : Cont K V R} {a o j n : Nat} {m : Option Lock},
      s.pc t = .rlLock c a o j n →
      ((((s.setLocks a (s.rng o a j).1 n m).setLock o j none).setPc t q).b x i).lock = some .leaked ∧
      ((((s.setLocks a (s.rng o a j).1 n m).setLock o j none).setPc t q).b x i).dead =
        (s.b x i).dead := by
    intro t q c a o j n m hpc
    have hp := hI.pc t
    rw [hpc] at hp
    obtain ⟨_, _, _, hlo, _, _, _, hheld⟩ := hp
    rw [setPc_b, setLock_lock, setLock_dead, setLocks_lock, setLocks_dead]
    refine ⟨?_, rfl⟩
    split
    · rename_i h; obtain ⟨rfl, rfl⟩ := h; rw [hlo] at hl; cases hl
    · split
      · rename_i h; obtain ⟨rfl, h1, h2⟩ := h
        have := (hheld i h1 h2).1
        rw [this] at hl; cases hl
      · exact hl
  have newArr : ∀ {t lg : Nat} {m : Option Nat} {q : PC K V R},
      ((({ s.setArr s.next (Arr.new lg m) with
        next := s.next + 1, cur := some s.next } : St K V R).setPc t q).b x i).lock = some .leaked ∧
      ((({ s.setArr s.next (Arr.new lg m) with
        next := s.next + 1, cur := some s.next } : St K V R).setPc t q).b x i).dead =
        (s.b x i).dead := by
    intro t lg m q
    have : x ≠ s.next := by omega
    rw [setPc_b]
    unfold St.b St.setArr
    simp only [if_neg this]
    exact ⟨hl, trivial⟩
  have free : ∀ {m : Option Lock}, m = none → m ≠ some .leaked := by rintro _ rfl; simp
  have owned : ∀ {m : Option Lock} {l : Lock}, m = some l → l ≠ .leaked → m ≠ some .leaked := by
    rintro _ l rfl h e; exact h (Option.some.inj e)
  cases st with
  | alloc => exact newArr
  | rzSwap => exact newArr
  | dedupLock _ _ _ h => exact acquire (free h)
  | lock _ _ h => exact acquire (free h)
  | helpLock _ _ _ h => exact acquire (free h)
  | rlTarget _ _ h => exact acquire (free h)
  | rzDropLock _ _ _ h _ => exact acquire (free h)
  | @commit t o a hpc =>
    rw [setPc_b, modBkt_b]; split <;> exact ⟨hl, rfl⟩
  | @commitEvict t o a g k' w hpc =>
    rw [setPc_b, modBkt_b]; split <;> exact ⟨hl, rfl⟩
  | @visit t u i p seen a hpc =>
    rw [setPc_b, modBkt_b]; split <;> exact ⟨hl, rfl⟩
  | @unlock t o a r hpc =>
    have hp := hI.pc t
    rw [hpc] at hp
    exact acquire (owned hp.2 (by simp))
  | @tvUnlock t u j p seen a hpc =>
    have hp := hI.pc t
    rw [hpc] at hp
    exact acquire (owned hp.2.2 (by simp))
  | @rlEmpty t c a o j n hpc _ _ =>
    have hp := hI.pc t
    rw [hpc] at hp
    exact kill (owned hp.2.2.2.1 (by simp))
  | @rlKill t c a o j hpc =>
    have hp := hI.pc t
    rw [hpc] at hp
    exact kill (owned hp.2.2.2.1 (by simp))
  | @critPanic t o a hpc =>
    have hp := hI.pc t
    rw [hpc] at hp
    exact acquire (owned hp.2.2.2.1 (by simp))
  | @tvPanic t u j p seen a S hpc =>
    have hp := hI.pc t
    rw [hpc] at hp
    have hlk : (s.b a j).lock = some (.user t) := hp.2.2.2.1
    rw [setPc_b, setLock_lock, setLock_dead]
    split
    · rename_i h; obtain ⟨rfl, rfl⟩ := h; rw [hlk] at hl; cases hl
    · rw [modBkt_b]; split <;> exact ⟨hl, rfl⟩
  | rlAbort hpc _ => exact abort hpc
  | rlPanic hpc => exact abort hpc
  | rlPanicHelp hpc => exact abort hpc
  | @rlBack t c a o j hpc _ =>
    have hp := hI.pc t
    rw [hpc] at hp
    exact acquire (owned hp.2.2.2.1 (by simp))
  | rlLeak hpc => exact abort hpc
  | rlLeakHelp hpc => exact abort hpc
  | @rlBegin t c a o j n hpc hn =>
    have hp := hI.pc t
    rw [hpc] at hp
    exact acquire (owned hp.2.2.2.1 (by simp))
  | @rlMove t c a o j k v hpc _ =>
    rw [modBkt_b, modBkt_b]
    have e : ∀ (b : Bkt K V) (w : Option V), (Bkt.set k w b).lock = b.lock ∧
      (Bkt.set k w b).dead = b.dead := fun _ _ => ⟨rfl, rfl⟩
    split
    · rw [(e _ _).1, (e _ _).2]; split <;> exact ⟨hl, rfl⟩
    · split <;> exact ⟨hl, rfl⟩
  | @rlUnlock t c a o j hpc _ =>
    have hp := hI.pc t
    rw [hpc] at hp
    exact many (fun i h1 h2 => owned (hp.2.2.2.2.2 i h1 h2).1 (by simp))
  | @rehash o m _ _ _ =>
    unfold St.b St.setArr
    simp only
    split
    · rename_i h; subst h; exact ⟨hl, rfl⟩
    · exact ⟨hl, rfl⟩
  | @detach a o hlk _ =>
    have ha := hG.linked_lt a o hlk
    have hpr := hG.linked_pred a o ha hlk
    unfold St.b St.setArr
    simp only
    split
    · rename_i h; subst h; exact ⟨hl, rfl⟩
    · split
      · rename_i h; subst h; exact ⟨hl, rfl⟩
      · exact ⟨hl, rfl⟩
  | @rzDropFail t a j hpc =>
    have hp := hI.pc t
    rw [hpc] at hp
    exact many (fun i h1 h2 => owned (hp.2.2.2.2.2 i h2).1 (by simp))
  | @rzDropSwap t a j hpc hi =>
    have hp := hI.pc t
    rw [hpc] at hp
    exact many (t := t) (q := .rzKill a 0) (fun i h1 h2 => owned (hp.2.2.2.2.2 i h2).1 (by simp))
  | @rzKillOne t a j hpc hj =>
    have hp := hI.pc t
    rw [hpc] at hp
    exact kill (owned (hp.2.2 j (Nat.le_refl _) hj).1 (by simp))
  | _ => exact ⟨hl, rfl⟩

/-- Arrays keep their length. -/
theorem step_lg [DecidableEq K] {s s' : St K V R} {e : Option (Event K V R)} (st : Step hash s e s') :
    s.next ≤ s'.next ∧ ∀ x, x < s.next → (s'.arr x).lg = (s.arr x).lg := by
  have newArr : ∀ {t lg : Nat} {m : Option Nat} {q : PC K V R},
      s.next ≤ (({ s.setArr s.next (Arr.new lg m) with
        next := s.next + 1, cur := some s.next } : St K V R).setPc t q).next ∧
      ∀ x, x < s.next → ((({ s.setArr s.next (Arr.new lg m) with
        next := s.next + 1, cur := some s.next } : St K V R).setPc t q).arr x).lg = (s.arr x).lg := by
    intro t lg m q
    refine ⟨Nat.le_succ _, ?_⟩
    intro x hx
    have : x ≠ s.next := by omega
    simp [St.setArr, this]
  cases st with
  | alloc => exact newArr
  | rzSwap => exact newArr
  | rehash =>
    refine ⟨Nat.le_refl _, fun x _ => ?_⟩
    unfold St.setArr; simp only; split
    · rename_i h; subst h; rfl
    · rfl
  | detach =>
    refine ⟨Nat.le_refl _, fun x _ => ?_⟩
    unfold St.setArr; simp only; split
    · rename_i h; subst h; rfl
    · split
      · rename_i h; subst h; rfl
      · rfl
  | rzDropSwap => exact ⟨Nat.le_refl _, fun x _ => setLocks_lg ..⟩
  | _ => exact ⟨Nat.le_refl _, fun x _ => by simp⟩

/-- What thread `t`, which called an operation on `k` after the lock of bucket `i` of array `a` was
leaked, can be doing. -/
def StuckPc (a : Nat) (k : K) : PC K V R → Prop
  | .done none => True
  | .start (.op o) => o.key = k
  | .loaded (.op o) x | .dedup (.op o) x _ _ | .wait (.op o) x => o.key = k ∧ a ≤ x
  | .rlLock (.ded (.op o)) x _ _ _ | .rlMove (.ded (.op o)) x _ _ | .rlKill (.ded (.op o)) x _ _ =>
      o.key = k ∧ a ≤ x
  | _ => False

/-- The leaked bucket of key `k`. -/
structure Leaked (hash : K → Nat) (s : St K V R) (a : Nat) (k : K) : Prop where
  lt : a < s.next
  lock : (s.b a (s.ix hash a k)).lock = some .leaked
  dead : (s.b a (s.ix hash a k)).dead = false

theorem leaked_mono [DecidableEq K] {s s' : St K V R} {e : Option (Event K V R)} (hI : Inv hash s)
    {a : Nat} {k : K} (hl : Leaked hash s a k) (st : Step hash s e s') : Leaked hash s' a k := by
  have h1 := leaked_step hI hl.lt hl.lock st
  have h2 := step_lg st
  have e : s'.ix hash a k = s.ix hash a k := by unfold St.ix; rw [h2.2 a hl.lt]
  exact ⟨Nat.lt_of_lt_of_le hl.lt h2.1, by rw [e]; exact h1.1, by rw [e, h1.2]; exact hl.dead⟩

/-- The bucket's array is the current one or is being replaced by the current one. -/
theorem leaked_cur {s : St K V R} (hh : ∀ k, hash k < 2 ^ 64) (hG : Glob hash s) {a : Nat} {k : K}
    (hl : Leaked hash s a k) :
    s.cur = some a ∨ (s.cur = some (a + 1) ∧ (s.arr (a + 1)).linked = some a) := by
  rcases hG.live a _ hl.lt (ix_lt hh hG hl.lt k) hl.dead with h | h | ⟨t, h⟩
  · exact Or.inl h
  · exact Or.inr h
  · rw [hl.lock] at h; cases h

/-- A later array does not give access to the key. -/
theorem leaked_no_access {s : St K V R} (hh : ∀ k, hash k < 2 ^ 64) (hG : Glob hash s) {a x : Nat}
    {k : K} (hl : Leaked hash s a k) (hx : x < s.next) (hax : a ≤ x)
    (hp : Passed s x (s.ix hash x k))
    (hlk : (s.b x (s.ix hash x k)).lock = none) : False := by
  have hc := leaked_cur hh hG hl
  have : x = a ∨ (x = a + 1 ∧ (s.arr (a + 1)).linked = some a) := by
    rcases hc with h | ⟨h, h'⟩
    · have := hG.cur_last _ h; left; omega
    · have := hG.cur_last _ h
      by_cases x = a
      · exact Or.inl ‹_›
      · right; exact ⟨by omega, h'⟩
  rcases this with rfl | ⟨rfl, hlink⟩
  · rw [hl.lock] at hlk; cases hlk
  · have := hp a hlink _ (range_of_ix hG hx hl.lt k)
    rw [hl.dead] at this; cases this

theorem stuck_step [DecidableEq K] (hh : ∀ k, hash k < 2 ^ 64) {s s' : St K V R}
    {e : Option (Event K V R)} (hI : Inv hash s) {a t : Nat} {k : K} (hl : Leaked hash s a k)
    (hs : StuckPc a k (s.pc t)) (st : Step hash s e s')
    (he1 : e ≠ some (.cancel t)) (he3 : e ≠ some (.panic t)) (he2 : ∀ r, e ≠ some (.ret t r)) : StuckPc a k (s'.pc t) := by
  have hG := hI.glob
  -- steps of other threads
  have other : ∀ {s₀ : St K V R} {u : Nat} {q p : PC K V R}, s₀.pc = s.pc → s.pc u = p →
      (u = t → StuckPc a k p → StuckPc a k q) → StuckPc a k ((s₀.setPc u q).pc t) := by
    intro s₀ u q p hpc hp hq
    by_cases hu : u = t
    · subst hu; rw [setPc_self]; exact hq rfl (hp ▸ hs)
    · rw [setPc_other _ _ _ _ (Ne.symm hu), hpc]; exact hs
  have hcur : ∀ {c}, s.cur = some c → a ≤ c := by
    intro c hc
    rcases leaked_cur hh hG hl with h | h
    · rw [h] at hc; cases hc; exact Nat.le_refl _
    · rw [h.1] at hc; cases hc; exact Nat.le_succ _
  cases st with
  | invoke hpc => exact other rfl hpc (fun _ h => h.elim)
  | tvInvoke hpc => exact other rfl hpc (fun _ h => h.elim)
  | loadNone hpc _ hc =>
    rcases leaked_cur hh hG hl with h | h
    · rw [h] at hc; cases hc
    · rw [h.1] at hc; cases hc
  | tvLoadNone hpc _ => exact other rfl hpc (fun _ h => h.elim)
  | alloc lg hpc _ hc _ _ =>
    rcases leaked_cur hh hG hl with h | h
    · rw [h] at hc; cases hc
    · rw [h.1] at hc; cases hc
  | @load u g c hpc hc =>
    refine other rfl hpc (fun _ h => ?_)
    cases g with
    | op o => exact ⟨h, hcur hc⟩
    | tv => exact h.elim
  | @linkNone u g c hpc _ =>
    refine other rfl hpc (fun _ h => ?_)
    cases g with
    | op o => exact h
    | tv => exact h.elim
  | @linkSome u g c _ hpc _ =>
    refine other rfl hpc (fun _ h => ?_)
    cases g with
    | op o => exact h
    | tv => exact h.elim
  | @dedupSkip u g c _ _ hpc _ _ =>
    refine other rfl hpc (fun _ h => ?_)
    cases g with
    | op o => exact h
    | tv => exact h.elim
  | @dedupLock u g c _ _ hpc _ _ _ =>
    refine other rfl hpc (fun _ h => ?_)
    cases g with
    | op o => exact h
    | tv => exact h.elim
  | @dedupDone u g c _ _ hpc _ =>
    refine other rfl hpc (fun _ h => ?_)
    cases g with
    | op o => exact h
    | tv => exact h.elim
  | @dedupUnlinked u g c _ _ hpc _ =>
    refine other rfl hpc (fun _ h => ?_)
    cases g with
    | op o => exact h
    | tv => exact h.elim
  | @retry u g c hpc =>
    rcases hpc with hpc | ⟨_, _, hpc⟩ | hpc
    all_goals
      refine other rfl hpc (fun _ h => ?_)
      cases g with
      | op o => exact h.1
      | tv => exact h.elim
  | @read u o c hpc _ hd hlk =>
    refine other rfl hpc (fun hu h => ?_)
    have hp := hI.pc u
    rw [hpc] at hp
    obtain ⟨rfl, h2⟩ := h
    exact absurd (leaked_no_access hh hG hl hp.1 h2 hp.2.2 hlk) id
  | @lock u g c hpc hd hlk =>
    refine other rfl hpc (fun hu h => ?_)
    cases g with
    | op o =>
      have hp := hI.pc u
      rw [hpc] at hp
      obtain ⟨rfl, h2⟩ := h
      exact absurd (leaked_no_access hh hG hl hp.1 h2 hp.2.2 hlk) id
    | tv => exact h.elim
  | @commit u o c hpc => exact other rfl hpc (fun _ h => h.elim)
  | commitEvict hpc => exact other rfl hpc (fun _ h => h.elim)
  | unlock hpc => exact other rfl hpc (fun _ h => h.elim)
  | visit hpc => exact other rfl hpc (fun _ h => h.elim)
  | tvUnlock hpc => exact other rfl hpc (fun _ h => h.elim)
  | @ret u r hpc =>
    exact other rfl hpc (fun hu _ => absurd rfl (hu ▸ he2 r))
  | tvRet hpc => exact other rfl hpc (fun _ h => h.elim)
  | busy hpc _ =>
    rcases hpc with ⟨_, _, hpc⟩ | hpc <;> exact other rfl hpc (fun _ _ => trivial)
  | @cancel u g hpc =>
    by_cases hu : u = t
    · subst hu
      cases g with
      | op o => exact absurd rfl he1
      | tv =>
        generalize s.pc u = q at hpc hs
        cases hpc <;> exact hs.elim
    · rw [setPc_other _ _ _ _ (Ne.symm hu)]; exact hs
  | @panic u g hpc =>
    by_cases hu : u = t
    · subst hu
      cases g with
      | op o => exact absurd rfl he3
      | tv =>
        generalize s.pc u = q at hpc hs
        cases hpc <;> exact hs.elim
    · rw [setPc_other _ _ _ _ (Ne.symm hu)]; exact hs
  | critPanic hpc => exact other rfl hpc (fun _ h => h.elim)
  | tvPanic S hpc => exact other rfl hpc (fun _ h => h.elim)
  | @rlPanic u g x o j n hpc =>
    refine other rfl hpc (fun hu h => ?_)
    subst hu
    cases g with
    | op o => exact absurd rfl he3
    | tv => exact h.elim
  | rlPanicHelp hpc => exact other rfl hpc (fun _ h => h.elim)
  | @rlBack u c x o j hpc _ =>
    refine other rfl hpc (fun _ h => ?_)
    cases c with
    | ded g => cases g with
      | op o => exact h
      | tv => exact h.elim
    | help => exact h.elim
  | helpLoad hpc _ => exact other rfl hpc (fun _ h => h.elim)
  | helpLink hpc _ => exact other rfl hpc (fun _ h => h.elim)
  | helpQuit hpc => rcases hpc with hpc | ⟨_, hpc⟩ <;> exact other rfl hpc (fun _ h => h.elim)
  | helpLock hpc _ _ _ => exact other rfl hpc (fun _ h => h.elim)
  | @rlEmpty u c x o j n hpc _ _ =>
    refine other rfl hpc (fun _ h => ?_)
    cases c with
    | ded g => cases g with
      | op o => exact h
      | tv => exact h.elim
    | help => exact h.elim
  | @rlTarget u c x o j n hpc _ _ =>
    refine other rfl hpc (fun _ h => ?_)
    cases c with
    | ded g => cases g with
      | op o => exact h
      | tv => exact h.elim
    | help => exact h.elim
  | @rlAbort u c x o j n hpc _ =>
    refine other rfl hpc (fun _ h => ?_)
    cases c with
    | ded g => trivial
    | help => exact h.elim
  | @rlLeak u g x o j n hpc =>
    refine other rfl hpc (fun hu h => ?_)
    subst hu
    cases g with
    | op o => exact absurd rfl he1
    | tv => exact h.elim
  | rlLeakHelp hpc => exact other rfl hpc (fun _ h => h.elim)
  | @rlBegin u c x o j n hpc _ =>
    refine other rfl hpc (fun _ h => ?_)
    cases c with
    | ded g => cases g with
      | op o => exact h
      | tv => exact h.elim
    | help => exact h.elim
  | rlMove => exact hs
  | @rlUnlock u c x o j hpc _ =>
    refine other rfl hpc (fun _ h => ?_)
    cases c with
    | ded g => cases g with
      | op o => exact h
      | tv => exact h.elim
    | help => exact h.elim
  | @rlKill u c x o j hpc =>
    refine other rfl hpc (fun _ h => ?_)
    cases c with
    | ded g => cases g with
      | op o => exact h
      | tv => exact h.elim
    | help => exact h.elim
  | rehash => exact hs
  | detach => exact hs
  | rzLoad hpc _ => exact other rfl hpc (fun _ h => h.elim)
  | rzLink hpc _ => exact other rfl hpc (fun _ h => h.elim)
  | rzQuit hpc => rcases hpc with hpc | hpc <;> exact other rfl hpc (fun _ h => h.elim)
  | @rzLock u _ hpc _ =>
    exact other (s₀ := { s with rz := some u }) rfl hpc (fun _ h => h.elim)
  | rzCheck hpc _ => exact other rfl hpc (fun _ h => h.elim)
  | rzNothing hpc => rcases hpc with hpc | hpc <;> exact other rfl hpc (fun _ h => h.elim)
  | @rzSwap u _ lg hpc _ _ =>
    exact other (s₀ := { s.setArr s.next (Arr.new lg s.cur) with
        next := s.next + 1, cur := some s.next }) rfl hpc (fun _ h => h.elim)
  | rzRelease hpc => exact other (s₀ := { s with rz := none }) rfl hpc (fun _ h => h.elim)
  | rzDropStart hpc => exact other rfl hpc (fun _ h => h.elim)
  | rzDropLock hpc _ _ _ _ => exact other rfl hpc (fun _ h => h.elim)
  | rzDropFail hpc => exact other rfl hpc (fun _ h => h.elim)
  | @rzDropSwap u c i hpc _ =>
    exact other (s₀ := { s.setLocks c 0 i (some (.kill u)) with cur := none }) rfl hpc
      (fun _ h => h.elim)
  | rzKillOne hpc _ => exact other rfl hpc (fun _ h => h.elim)
  | rzKillEnd hpc _ => exact other rfl hpc (fun _ h => h.elim)
  | emNone hpc _ => exact other rfl hpc (fun _ h => h.elim)
  | emLoad hpc _ => exact other rfl hpc (fun _ h => h.elim)
  | emLinkNone hpc _ => exact other rfl hpc (fun _ h => h.elim)
  | emLinkSome hpc _ => exact other rfl hpc (fun _ h => h.elim)
  | emOld hpc _ _ => exact other rfl hpc (fun _ h => h.elim)
  | emOldFound hpc _ _ => exact other rfl hpc (fun _ h => h.elim)
  | emOldEnd hpc _ => exact other rfl hpc (fun _ h => h.elim)
  | emCur hpc _ _ => exact other rfl hpc (fun _ h => h.elim)
  | emCurFound hpc _ _ => exact other rfl hpc (fun _ h => h.elim)
  | emEnd hpc _ => exact other rfl hpc (fun _ h => h.elim)
  | emRet hpc => exact other rfl hpc (fun _ h => h.elim)

/-- An operation on the key, called after the leak, does not complete while it is neither dropped nor
unwound nor gives up. -/
theorem stuck_exec [DecidableEq K] (hh : ∀ k, hash k < 2 ^ 64) {s s' : St K V R}
    {es : List (Event K V R)} (hI : Inv hash s) {a t : Nat} {k : K} (hl : Leaked hash s a k)
    (hs : StuckPc a k (s.pc t)) (ex : Exec hash s es s')
    (h1 : .cancel t ∉ es) (h3 : .panic t ∉ es) (h2 : ∀ r, .ret t r ∉ es) :
    Inv hash s' ∧ Leaked hash s' a k ∧ StuckPc a k (s'.pc t) := by
  induction ex with
  | nil => exact ⟨hI, hl, hs⟩
  | tau ex st ih =>
    obtain ⟨i1, i2, i3⟩ := ih h1 h3 h2
    exact ⟨inv_step hh i1 st, leaked_mono i1 i2 st, stuck_step hh i1 i2 i3 st (by simp) (by simp) (by simp)⟩
  | @event es s1 e s2 ex st ih =>
    obtain ⟨i1, i2, i3⟩ := ih (fun h => h1 (by simp [h])) (fun h => h3 (by simp [h])) (fun r h => h2 r (by simp [h]))
    refine ⟨inv_step hh i1 st, leaked_mono i1 i2 st, stuck_step hh i1 i2 i3 st ?_ ?_ ?_⟩
    · rintro h; cases h; exact h1 (by simp)
    · rintro h; cases h; exact h3 (by simp)
    · rintro r h; cases h; exact h2 r (by simp)

end Scc.Table
