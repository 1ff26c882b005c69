import Verif.Table.Refine
import Verif.Table.Leak

/-!
# Traversals do not skip entries
-/

namespace Scc.Table

open Scc.Index (bucketIndex fromIndexToRange InRange)

variable {K V R : Type} {hash : K → Nat}

/-- The values a running traversal has shown to its closure, per key. -/
def Goal.seen (k : K) : Goal K V R → List V
  | .op _ => []
  | .tv _ _ _ seen => seen k

def Cont.seen (k : K) : Cont K V R → List V
  | .ded g => g.seen k
  | .help => []

/-- The values the traversal run by a thread has shown to its closure so far. -/
def PC.seen (k : K) : PC K V R → List V
  | .start g | .loaded g _ | .dedup g .. | .wait g _ | .crit g _ => g.seen k
  | .swept _ _ _ seen _ => seen k
  | .tvDone _ seen => seen k
  | .rlLock c .. | .rlMove c .. | .rlKill c .. => c.seen k
  | _ => []

/-- Key `k` was shown, or its bucket is still ahead of position `i` in array `a`. -/
def Goal.cov (hash : K → Nat) (s : St K V R) (k : K) (a : Nat) : Goal K V R → Prop
  | .op _ => True
  | .tv _ i _ seen => seen k ≠ [] ∨ i ≤ s.ix hash a k

def Goal.covStart (hash : K → Nat) (k : K) : Goal K V R → Prop
  | .op _ => True
  | .tv _ i p seen => seen k ≠ [] ∨ (p = 0 ∧ i = 0) ∨
      ∃ l, l ≤ 57 ∧ p = 2 ^ l ∧ i ≤ bucketIndex l (hash k)

def Cont.cov (hash : K → Nat) (s : St K V R) (k : K) (a : Nat) : Cont K V R → Prop
  | .ded g => g.cov hash s k a
  | .help => True

def Cov (hash : K → Nat) (s : St K V R) (k : K) : PC K V R → Prop
  | .start g => g.covStart hash k
  | .loaded g a | .dedup g a _ _ | .wait g a | .crit g a => g.cov hash s k a
  | .swept _ i _ seen a => seen k ≠ [] ∨ i + 1 ≤ s.ix hash a k
  | .tvDone _ seen => seen k ≠ []
  | .rlLock c a _ _ _ | .rlMove c a _ _ | .rlKill c a _ _ => c.cov hash s k a
  | _ => True

theorem Goal.cov_congr {s s' : St K V R} {k : K} {a : Nat} (h : (s'.arr a).lg = (s.arr a).lg)
    {g : Goal K V R} (hg : g.cov hash s k a) : g.cov hash s' k a := by
  cases g with
  | op => trivial
  | tv => unfold Goal.cov St.ix at *; rw [h]; exact hg

theorem Cov.congr {s s' : St K V R} {k : K} {t : Nat} {p : PC K V R} (hp : PcOk hash s t p)
    (hlg : ∀ x, x < s.next → (s'.arr x).lg = (s.arr x).lg) (h : Cov hash s k p) :
    Cov hash s' k p := by
  cases p with
  | loaded g a => exact Goal.cov_congr (hlg a hp.1) h
  | dedup g a o j => exact Goal.cov_congr (hlg a hp.1) h
  | wait g a => exact Goal.cov_congr (hlg a hp.1) h
  | crit g a => exact Goal.cov_congr (hlg a hp.1) h
  | swept _ _ _ _ a => simp only [Cov, St.ix] at *; rw [hlg a hp.1]; exact h
  | rlLock c a _ _ _ =>
    cases c with
    | ded g => exact Goal.cov_congr (hlg a hp.1.lt) h
    | help => trivial
  | rlMove c a _ _ =>
    cases c with
    | ded g => exact Goal.cov_congr (hlg a hp.1.lt) h
    | help => trivial
  | rlKill c a _ _ =>
    cases c with
    | ded g => exact Goal.cov_congr (hlg a hp.1.lt) h
    | help => trivial
  | _ => exact h

/-- The start of the range does not pass over the key. -/
theorem range_fst_le {l m i : Nat} {h : Nat} (hl : l ≤ 57) (hm : m ≤ 57) (hi : i ≤ bucketIndex l h) :
    (fromIndexToRange (2 ^ l) (2 ^ m) i).1 ≤ bucketIndex m h := by
  have h1 := (Scc.Index.c05_hash_in_range (a := l) (b := m) (hash := h) (by omega) (by omega)).1
  refine Nat.le_trans ?_ h1
  unfold fromIndexToRange
  split
  · exact Nat.mul_le_mul_right _ hi
  · exact Nat.div_le_div_right hi

theorem cov_step [DecidableEq K] (hh : ∀ k, hash k < 2 ^ 64) {s s' : St K V R}
    {e : Option (Event K V R)} (hI : Inv hash s) {t : Nat} {k : K}
    (hk : s.absMap hash k ≠ none ∨ (s.pc t).seen k ≠ [])
    (hc : Cov hash s k (s.pc t)) (st : Step hash s e s') : Cov hash s' k (s'.pc t) := by
  have hG := hI.glob
  have hlg := (step_lg st).2
  -- steps of `t` or another thread
  have act : ∀ {s₀ : St K V R} {u : Nat} {q p : PC K V R}, s₀.pc = s.pc → s.pc u = p →
      (∀ x, x < s.next → (s₀.arr x).lg = (s.arr x).lg) →
      (u = t → Cov hash s k p → Cov hash (s₀.setPc u q) k q) →
      Cov hash (s₀.setPc u q) k ((s₀.setPc u q).pc t) := by
    intro s₀ u q p hpc hp hl hq
    by_cases hu : u = t
    · subst hu; rw [setPc_self]; exact hq rfl (hp ▸ hc)
    · rw [setPc_other _ _ _ _ (Ne.symm hu), hpc]
      exact Cov.congr (hI.pc t) hl hc
  have triv : ∀ {s₀ : St K V R} {u : Nat} {q p : PC K V R}, s₀.pc = s.pc → s.pc u = p →
      (∀ x, x < s.next → (s₀.arr x).lg = (s.arr x).lg) → Cov hash (s₀.setPc u q) k q →
      Cov hash (s₀.setPc u q) k ((s₀.setPc u q).pc t) :=
    fun hpc hp hl hq => act hpc hp hl (fun _ _ => hq)
  have same : ∀ {x}, x < s.next → (s.arr x).lg = (s.arr x).lg := fun _ => rfl
  cases st with
  | invoke hpc => exact triv rfl hpc (fun _ => same) trivial
  | tvInvoke hpc => exact triv rfl hpc (fun _ => same) (Or.inr (Or.inl ⟨rfl, rfl⟩))
  | loadNone hpc _ _ => exact triv rfl hpc (fun _ => same) trivial
  | tvLoadNone hpc hcur =>
    refine act rfl hpc (fun _ => same) (fun hu _ => ?_)
    subst hu
    rcases hk with hk | hk
    · exact absurd (by unfold St.absMap; rw [hcur]) hk
    · rw [hpc] at hk; exact hk
  | alloc lg hpc _ _ _ _ =>
    exact triv (s₀ := { s.setArr s.next (Arr.new lg none) with
        next := s.next + 1, cur := some s.next }) rfl hpc hlg trivial
  | @load u g a hpc hcur =>
    refine act rfl hpc (fun _ => same) (fun _ h => ?_)
    cases g with
    | op => trivial
    | tv w i p seen =>
      have hlast := hG.cur_last a hcur
      have h57 := hG.lg_le a (by omega)
      rcases h with h | ⟨rfl, rfl⟩ | ⟨l, hl, rfl, hi⟩
      · exact Or.inl h
      · refine Or.inr ?_
        simp [tvIndex]
      · refine Or.inr ?_
        unfold tvIndex
        split
        · rename_i h1
          rcases h1 with h1 | h1
          · exact absurd h1 (Nat.ne_of_gt (Nat.two_pow_pos _))
          · have : l = (s.arr a).lg := (Nat.pow_right_inj (by omega)).1 h1
            subst this; exact hi
        · exact range_fst_le hl h57 hi
  | @linkNone u g a hpc _ => exact act rfl hpc (fun _ => same) (fun _ h => h)
  | @linkSome u g a _ hpc _ => exact act rfl hpc (fun _ => same) (fun _ h => h)
  | dedupSkip hpc _ _ => exact act rfl hpc (fun _ => same) (fun _ h => h)
  | dedupLock hpc _ _ _ =>
    exact act rfl hpc hlg (fun _ h => Goal.cov_congr (by simp) h)
  | dedupDone hpc _ => exact act rfl hpc (fun _ => same) (fun _ h => h)
  | dedupUnlinked hpc _ => exact act rfl hpc (fun _ => same) (fun _ h => h)
  | @retry u g a hpc =>
    have hg := goalOk_of_passes hI hpc
    have key : g.cov hash s k a → g.covStart hash k := by
      intro h
      cases g with
      | op => trivial
      | tv w i p seen =>
        rcases h with h | h
        · exact Or.inl h
        · exact Or.inr (Or.inr ⟨_, hG.lg_le a hg.1, hg.2.1, h⟩)
    rcases hpc with hpc | ⟨_, _, hpc⟩ | hpc
    · exact act rfl hpc (fun _ => same) (fun _ h => key h)
    · exact act rfl hpc (fun _ => same) (fun _ h => key h)
    · exact act rfl hpc (fun _ => same) (fun _ h => key h)
  | read hpc _ _ _ => exact triv rfl hpc (fun _ => same) trivial
  | lock hpc _ _ => exact act rfl hpc hlg (fun _ h => Goal.cov_congr (by simp) h)
  | commit hpc => exact triv rfl hpc hlg trivial
  | commitEvict hpc => exact triv rfl hpc hlg trivial
  | unlock hpc => exact triv rfl hpc hlg trivial
  | @visit u w i p seen a hpc =>
    refine act rfl hpc hlg (fun hu h => ?_)
    subst hu
    have hp := hI.pc u
    rw [hpc] at hp
    obtain ⟨ha, hg, hpass, hlock, hdead⟩ := hp
    have hlock : (s.b a i).lock = some (.user u) := hlock
    have e : ∀ q, ((s.modBkt a i (fun b => { b with content := fun k => (b.content k).bind (w k) })).setPc
        u q).ix hash a k = s.ix hash a k := by intro q; unfold St.ix; simp
    simp only [Cov]
    rw [e]
    rcases h with h | h
    · left; simp [h]
    · rcases Nat.lt_or_eq_of_le h with h | h
      · exact Or.inr h
      · left
        have hm : s.absMap hash k = (s.b a i).content k := by
          have := lookup_eq (k := k) hG hh ha (by rw [← h]; exact hdead)
            (by rw [← h, hlock]; simp) (by rw [← h, hlock]; simp) (by rw [← h]; exact hpass)
          rw [this]; unfold St.val; rw [← h]
        rcases hk with hk | hk
        · rw [hm] at hk
          cases hv : (s.b a i).content k with
          | none => exact absurd hv hk
          | some v => simp
        · rw [hpc] at hk
          have hk : seen k ≠ [] := hk
          simp [hk]
  | @tvUnlock u w i p seen a hpc =>
    refine act rfl hpc hlg (fun hu h => ?_)
    have hp := hI.pc u
    rw [hpc] at hp
    obtain ⟨ha, hg, _⟩ := hp
    split
    · rcases h with h | h
      · exact Or.inl h
      · refine Or.inr ?_
        unfold St.ix at *; simpa using h
    · rename_i hlt
      rcases h with h | h
      · exact h
      · have := ix_lt hh hG ha k
        exact absurd h (by omega)
  | ret hpc => exact triv rfl hpc (fun _ => same) trivial
  | tvRet hpc => exact triv rfl hpc (fun _ => same) trivial
  | busy hpc _ =>
    rcases hpc with ⟨_, _, hpc⟩ | hpc <;> exact triv rfl hpc (fun _ => same) trivial
  | cancel hpc => exact triv rfl rfl (fun _ => same) trivial
  | panic hpc => exact triv rfl rfl (fun _ => same) trivial
  | critPanic hpc => exact triv rfl hpc hlg trivial
  | tvPanic S hpc => exact triv rfl hpc hlg trivial
  | rlPanic hpc => exact triv rfl hpc hlg trivial
  | rlPanicHelp hpc => exact triv rfl hpc hlg trivial
  | @rlBack u c x o j hpc _ =>
    refine act rfl hpc hlg (fun _ h => ?_)
    cases c with
    | ded g => exact Goal.cov_congr (by simp) h
    | help => trivial
  | helpLoad hpc _ => exact triv rfl hpc (fun _ => same) trivial
  | helpLink hpc _ => exact triv rfl hpc (fun _ => same) trivial
  | helpQuit hpc => exact triv rfl rfl (fun _ => same) trivial
  | helpLock hpc _ _ _ => exact triv rfl hpc hlg trivial
  | @rlEmpty u c x o j n hpc _ _ =>
    refine act rfl hpc hlg (fun _ h => ?_)
    cases c with
    | ded g => exact Goal.cov_congr (by simp) h
    | help => trivial
  | @rlTarget u c x o j n hpc _ _ =>
    refine act rfl hpc hlg (fun _ h => ?_)
    cases c with
    | ded g => exact Goal.cov_congr (by simp) h
    | help => trivial
  | @rlAbort u c x o j n hpc _ =>
    refine act rfl hpc hlg (fun _ h => ?_)
    cases c with
    | ded g => trivial
    | help => trivial
  | rlLeak hpc => exact triv rfl hpc hlg trivial
  | rlLeakHelp hpc => exact triv rfl hpc hlg trivial
  | @rlBegin u c x o j n hpc _ =>
    refine act rfl hpc hlg (fun _ h => ?_)
    cases c with
    | ded g => exact Goal.cov_congr (by simp) h
    | help => trivial
  | rlMove => exact Cov.congr (hI.pc t) hlg hc
  | @rlUnlock u c x o j hpc _ =>
    refine act rfl hpc hlg (fun _ h => ?_)
    cases c with
    | ded g => exact Goal.cov_congr (by simp) h
    | help => trivial
  | @rlKill u c x o j hpc =>
    refine act rfl hpc hlg (fun _ h => ?_)
    cases c with
    | ded g => exact Goal.cov_congr (by simp) h
    | help => trivial
  | rehash => exact Cov.congr (hI.pc t) hlg hc
  | detach => exact Cov.congr (hI.pc t) hlg hc
  | rzLoad hpc _ => exact triv rfl hpc (fun _ => same) trivial
  | rzLink hpc _ => exact triv rfl hpc (fun _ => same) trivial
  | rzQuit hpc => exact triv rfl rfl (fun _ => same) trivial
  | @rzLock u _ hpc _ =>
    exact triv (s₀ := { s with rz := some u }) rfl hpc (fun _ => same) trivial
  | rzCheck hpc _ => exact triv rfl hpc (fun _ => same) trivial
  | rzNothing hpc => exact triv rfl rfl (fun _ => same) trivial
  | @rzSwap u _ lg hpc _ _ =>
    exact triv (s₀ := { s.setArr s.next (Arr.new lg s.cur) with
        next := s.next + 1, cur := some s.next }) rfl hpc hlg trivial
  | rzRelease hpc => exact triv (s₀ := { s with rz := none }) rfl hpc (fun _ => same) trivial
  | rzDropStart hpc => exact triv rfl hpc (fun _ => same) trivial
  | rzDropLock hpc _ _ _ _ => exact triv rfl hpc hlg trivial
  | rzDropFail hpc => exact triv rfl hpc hlg trivial
  | @rzDropSwap u c i hpc _ =>
    exact triv (s₀ := { s.setLocks c 0 i (some (.kill u)) with cur := none }) rfl hpc hlg trivial
  | rzKillOne hpc _ => exact triv rfl hpc hlg trivial
  | rzKillEnd hpc _ => exact triv rfl hpc (fun _ => same) trivial
  | emNone hpc _ => exact triv rfl hpc (fun _ => same) trivial
  | emLoad hpc _ => exact triv rfl hpc (fun _ => same) trivial
  | emLinkNone hpc _ => exact triv rfl hpc (fun _ => same) trivial
  | emLinkSome hpc _ => exact triv rfl hpc (fun _ => same) trivial
  | emOld hpc _ _ => exact triv rfl hpc (fun _ => same) trivial
  | emOldFound hpc _ _ => exact triv rfl hpc (fun _ => same) trivial
  | emOldEnd hpc _ => exact triv rfl hpc (fun _ => same) trivial
  | emCur hpc _ _ => exact triv rfl hpc (fun _ => same) trivial
  | emCurFound hpc _ _ => exact triv rfl hpc (fun _ => same) trivial
  | emEnd hpc _ => exact triv rfl hpc (fun _ => same) trivial
  | emRet hpc => exact triv rfl hpc (fun _ => same) trivial

end Scc.Table
