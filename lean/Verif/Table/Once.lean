import Verif.Table.Walk

/-!
# Traversals of a table nobody else touches present every entry exactly once
-/

namespace Scc.Table

open Scc.Index (bucketIndex fromIndexToRange InRange)

variable {K V R : Type} {hash : K → Nat}

/-- The program counter of a thread that does nothing or helps to relocate buckets. -/
def PC.calm : PC K V R → Prop
  | .idle | .hl _ | .help _ _ | .rlLock .help _ _ _ _ | .rlMove .help _ _ _ | .rlKill .help _ _ _ => True
  | _ => False

/-- Nobody but `t` is using the table; relocation of buckets may go on (`t`'s own helping, which the
model runs beside it, is an instance). -/
def Quiet (t : Nat) (s : St K V R) : Prop := ∀ u, u ≠ t → (s.pc u).calm

/-- Key `k` has been dealt with: shown once if it was there, and replaced by what the closure
decided. -/
def Dealt (hash : K → Nat) (s : St K V R) (m : K → Option V) (w : K → V → Option V) (k : K)
    (seen : K → List V) : Prop :=
  seen k = (m k).toList ∧ s.absMap hash k = (m k).bind (w k)

/-- Key `k` has not been touched. -/
def Fresh (hash : K → Nat) (s : St K V R) (m : K → Option V) (k : K) (seen : K → List V) : Prop :=
  seen k = [] ∧ s.absMap hash k = m k

/-- Buckets below `i` have been dealt with, the others not. -/
def UpTo (hash : K → Nat) (s : St K V R) (m : K → Option V) (w : K → V → Option V) (a i : Nat)
    (seen : K → List V) : Prop :=
  s.cur = some a ∧ ∀ k, (s.ix hash a k < i → Dealt hash s m w k seen) ∧
    (i ≤ s.ix hash a k → Fresh hash s m k seen)

def Goal.once (hash : K → Nat) (s : St K V R) (m : K → Option V) (w : K → V → Option V) (a : Nat) :
    Goal K V R → Prop
  | .op _ => False
  | .tv w' i _ seen => w' = w ∧ UpTo hash s m w a i seen

def Goal.onceStart (hash : K → Nat) (s : St K V R) (m : K → Option V) (w : K → V → Option V) :
    Goal K V R → Prop
  | .op _ => False
  | .tv w' i p seen => w' = w ∧ ((p = 0 ∧ i = 0 ∧ ∀ k, Fresh hash s m k seen) ∨
      ∃ a, p = s.len a ∧ UpTo hash s m w a i seen)

def Cont.once (hash : K → Nat) (s : St K V R) (m : K → Option V) (w : K → V → Option V) (a : Nat) :
    Cont K V R → Prop
  | .ded g => g.once hash s m w a
  | .help => False

def Once (hash : K → Nat) (s : St K V R) (m : K → Option V) (w : K → V → Option V) :
    PC K V R → Prop
  | .start g => g.onceStart hash s m w
  | .loaded g a | .dedup g a _ _ | .wait g a | .crit g a => g.once hash s m w a
  | .swept w' i _ seen a => w' = w ∧ UpTo hash s m w a (i + 1) seen
  | .tvDone w' seen => w' = w ∧ ∀ k, Dealt hash s m w k seen
  | .rlLock c a _ _ _ | .rlMove c a _ _ | .rlKill c a _ _ => c.once hash s m w a
  | _ => False

theorem UpTo.congr {s s' : St K V R} {m : K → Option V} {w : K → V → Option V} {a i : Nat}
    {seen : K → List V} (hm : s'.absMap hash = s.absMap hash) (hc : s'.cur = s.cur)
    (hlg : (s'.arr a).lg = (s.arr a).lg) (h : UpTo hash s m w a i seen) :
    UpTo hash s' m w a i seen := by
  unfold UpTo Dealt Fresh St.ix at *
  rw [hm, hc, hlg]; exact h

theorem Goal.once_congr {s s' : St K V R} {m : K → Option V} {w : K → V → Option V} {a : Nat}
    {g : Goal K V R} (hm : s'.absMap hash = s.absMap hash) (hc : s'.cur = s.cur)
    (hlg : (s'.arr a).lg = (s.arr a).lg) (h : g.once hash s m w a) : g.once hash s' m w a := by
  cases g with
  | op => exact h
  | tv => exact ⟨h.1, h.2.congr hm hc hlg⟩

theorem Once.congr {s s' : St K V R} {m : K → Option V} {w : K → V → Option V} {p : PC K V R}
    (hm : s'.absMap hash = s.absMap hash) (hc : s'.cur = s.cur)
    (hlg : ∀ a, (s'.arr a).lg = (s.arr a).lg) (h : Once hash s m w p) : Once hash s' m w p := by
  cases p with
  | start g =>
    cases g with
    | op => exact h
    | tv w' i p seen =>
      refine ⟨h.1, ?_⟩
      rcases h.2 with ⟨h1, h2, h3⟩ | ⟨a, h1, h2⟩
      · left; refine ⟨h1, h2, fun k => ?_⟩
        unfold Fresh at *; rw [hm]; exact h3 k
      · right; refine ⟨a, ?_, h2.congr hm hc (hlg a)⟩
        unfold St.len at *; rw [hlg]; exact h1
  | loaded g a => exact Goal.once_congr hm hc (hlg a) h
  | dedup g a o j => exact Goal.once_congr hm hc (hlg a) h
  | wait g a => exact Goal.once_congr hm hc (hlg a) h
  | crit g a => exact Goal.once_congr hm hc (hlg a) h
  | swept _ _ _ _ a => exact ⟨h.1, h.2.congr hm hc (hlg a)⟩
  | tvDone w' seen =>
    refine ⟨h.1, fun k => ?_⟩
    unfold Dealt at *; rw [hm]; exact h.2 k
  | rlLock c a _ _ _ =>
    cases c with
    | ded g => exact Goal.once_congr hm hc (hlg a) h
    | help => exact h
  | rlMove c a _ _ =>
    cases c with
    | ded g => exact Goal.once_congr hm hc (hlg a) h
    | help => exact h
  | rlKill c a _ _ =>
    cases c with
    | ded g => exact Goal.once_congr hm hc (hlg a) h
    | help => exact h
  | _ => exact h

theorem once_step [DecidableEq K] (hh : ∀ k, hash k < 2 ^ 64) {s s' : St K V R}
    {e : Option (Event K V R)} (hI : Inv hash s) {t : Nat} {m : K → Option V} {w : K → V → Option V}
    (hq : Quiet t s) (hq' : Quiet t s') (ho : Once hash s m w (s.pc t)) (st : Step hash s e s')
    (he1 : e ≠ some (.tvCancel t)) (he3 : e ≠ some (.tvPanic t)) (he2 : ∀ x, e ≠ some (.tvRet t x)) :
    Once hash s' m w (s'.pc t) := by
  have hG := hI.glob
  have who : ∀ {s₀ : St K V R} {u : Nat} {q p : PC K V R}, s.pc u = p → s' = s₀.setPc u q →
      (p.calm → ¬ q.calm) → u = t := by
    intro s₀ u q p hp hs hne
    apply Classical.byContradiction
    intro hu
    have h1 := hq u hu
    have h2 := hq' u hu
    rw [hs, setPc_self] at h2
    rw [hp] at h1
    exact hne h1 h2
  have act : ∀ {s₀ : St K V R} {u : Nat} {q p : PC K V R}, s.pc u = p → s' = s₀.setPc u q →
      (p.calm → ¬ q.calm) → (Once hash s m w p → Once hash s' m w q) →
      Once hash s' m w (s'.pc t) := by
    intro s₀ u q p hp hs hne hq
    have hu := who hp hs hne
    rw [← hu] at ho ⊢
    rw [hp] at ho
    have := hq ho
    rw [hs, setPc_self]; rw [hs] at this; exact this
  have quiet : ∀ {s₀ : St K V R} {u : Nat} {q p : PC K V R}, s.pc u = p → s' = s₀.setPc u q →
      s₀.pc = s.pc → s'.absMap hash = s.absMap hash → s'.cur = s.cur →
      (∀ a, (s'.arr a).lg = (s.arr a).lg) → (Once hash s m w p → Once hash s m w q) →
      Once hash s' m w (s'.pc t) := by
    intro s₀ u q p hp hs h0 h1 h2 h3 hq
    by_cases hu : u = t
    · rw [← hu] at ho ⊢
      rw [hp] at ho
      have := Once.congr h1 h2 h3 (hq ho)
      rw [hs, setPc_self]; rw [hs] at this; exact this
    · have : s'.pc t = s.pc t := by rw [hs, setPc_other _ _ _ _ (Ne.symm hu), h0]
      rw [this]
      exact Once.congr h1 h2 h3 ho
  have rfl' : ∀ a, (s.arr a).lg = (s.arr a).lg := fun _ => rfl
  cases st with
  | invoke hpc => exact quiet hpc rfl rfl rfl rfl rfl' (fun h => h.elim)
  | tvInvoke hpc => exact quiet hpc rfl rfl rfl rfl rfl' (fun h => h.elim)
  | loadNone hpc _ _ => exact quiet hpc rfl rfl rfl rfl rfl' (fun h => h.elim)
  | @tvLoadNone u w' i p seen hpc hcur =>
    refine quiet hpc rfl rfl rfl rfl rfl' (fun h => ?_)
    refine ⟨h.1, fun k => ?_⟩
    rcases h.2 with ⟨_, _, h3⟩ | ⟨a, _, h3⟩
    · have h3 := h3 k
      have e : s.absMap hash k = none := by unfold St.absMap; rw [hcur]
      unfold Fresh at h3; unfold Dealt
      rw [e] at h3 ⊢
      rw [← h3.2]; exact ⟨h3.1, rfl⟩
    · have := h3.1; rw [hcur] at this; cases this
  | @alloc u o lg hpc _ _ _ _ =>
    exact act (s₀ := { s.setArr s.next (Arr.new lg none) with
        next := s.next + 1, cur := some s.next }) hpc rfl (by simp [PC.calm]) (fun h => h.elim)
  | @load u g a hpc hcur =>
    refine quiet hpc rfl rfl rfl rfl rfl' (fun h => ?_)
    cases g with
    | op => exact h
    | tv w' i p seen =>
      refine ⟨h.1, ?_⟩
      rcases h.2 with ⟨rfl, rfl, h3⟩ | ⟨a', h2, h3⟩
      · have : tvIndex 0 (s.len a) 0 = 0 := by simp [tvIndex]
        rw [this]
        exact ⟨hcur, fun k => ⟨fun h => absurd h (Nat.not_lt_zero _), fun _ => h3 k⟩⟩
      · have e : a' = a := by have := h3.1; rw [hcur] at this; cases this; rfl
        subst e
        have : tvIndex p (s.len a') i = i := by unfold tvIndex; rw [if_pos (Or.inr h2)]
        rw [this]; exact h3
  | linkNone hpc _ => exact quiet hpc rfl rfl rfl rfl rfl' id
  | linkSome hpc _ => exact quiet hpc rfl rfl rfl rfl rfl' id
  | dedupSkip hpc _ _ => exact quiet hpc rfl rfl rfl rfl rfl' id
  | dedupLock hpc _ _ _ =>
    exact quiet hpc rfl rfl (by rw [setPc_absMap, setLock_absMap]) rfl (by simp) id
  | dedupDone hpc _ => exact quiet hpc rfl rfl rfl rfl rfl' id
  | dedupUnlinked hpc _ => exact quiet hpc rfl rfl rfl rfl rfl' id
  | @retry u g a hpc =>
    have hg := goalOk_of_passes hI hpc
    have key : g.once hash s m w a → g.onceStart hash s m w := by
      intro h
      cases g with
      | op => exact h
      | tv w' i p seen => exact ⟨h.1, Or.inr ⟨a, hg.2.1, h.2⟩⟩
    rcases hpc with hpc | ⟨_, _, hpc⟩ | hpc
    · exact quiet hpc rfl rfl rfl rfl rfl' key
    · exact quiet hpc rfl rfl rfl rfl rfl' key
    · exact quiet hpc rfl rfl rfl rfl rfl' key
  | read hpc _ _ _ => exact quiet hpc rfl rfl rfl rfl rfl' (fun h => h.elim)
  | lock hpc _ _ =>
    exact quiet hpc rfl rfl (by rw [setPc_absMap, setLock_absMap]) rfl (by simp) id
  | commit hpc => exact act hpc rfl (by simp [PC.calm]) (fun h => h.elim)
  | commitEvict hpc => exact act hpc rfl (by simp [PC.calm]) (fun h => h.elim)
  | unlock hpc => exact act hpc rfl (by simp [PC.calm]) (fun h => h.elim)
  | @visit u w' i p seen a hpc =>
    refine act hpc rfl (by simp [PC.calm]) (fun h => ?_)
    have hu := who hpc rfl (by simp [PC.calm])
    subst hu
    obtain ⟨rfl, hcur, hup⟩ := h
    have hp := hI.pc u
    rw [hpc] at hp
    obtain ⟨ha, hg, hpass, hlock, hdead⟩ := hp
    have hlock : (s.b a i).lock = some (.user u) := hlock
    have hnm : ∀ u, (s.b a i).lock ≠ some (.moving u) := by intro u; rw [hlock]; simp
    have hnk : ∀ u, (s.b a i).lock ≠ some (.kill u) := by intro u; rw [hlock]; simp
    have e : ∀ q k, ((s.modBkt a i (fun b => { b with content := fun k => (b.content k).bind (w' k) })).setPc
        u q).ix hash a k = s.ix hash a k := by intro q k; unfold St.ix; simp
    have hm : ∀ k, s.ix hash a k = i → s.absMap hash k = (s.b a i).content k := by
      intro k hk; subst hk; exact lookup_eq hG hh ha hdead hnm hnk hpass
    have hother : ∀ k, s.ix hash a k ≠ i → (s.b a i).content k = none := by
      intro k hk
      apply Classical.byContradiction
      intro hc
      exact hk (hG.placed a i k hc).1.symm
    refine ⟨rfl, hcur, fun k => ?_⟩
    unfold Dealt Fresh
    rw [e, setPc_absMap, absMap_modBkt hG hh ha hg.2 hdead hnm hnk hpass]
    have hk := hup k
    unfold Dealt Fresh at hk
    by_cases hi : s.ix hash a k = i
    · refine ⟨fun _ => ?_, fun h => absurd h (by omega)⟩
      have := hk.2 (by omega)
      rw [if_pos hi]
      simp only [this.1, List.nil_append]
      rw [← hm k hi, this.2]
      exact ⟨rfl, rfl⟩
    · rw [if_neg hi]
      simp only [hother k hi, Option.toList, List.append_nil]
      exact ⟨fun h => hk.1 (by omega), fun h => hk.2 (by omega)⟩
  | @tvUnlock u w' i p seen a hpc =>
    have hp := hI.pc u
    rw [hpc] at hp
    have ha := hp.1
    refine quiet hpc rfl rfl (by rw [setPc_absMap, setLock_absMap]) rfl (by simp) (fun h => ?_)
    split
    · exact h
    · rename_i hlt
      refine ⟨h.1, fun k => ?_⟩
      have := ix_lt hh hG ha k
      exact (h.2.2 k).1 (by omega)
  | ret hpc => exact quiet hpc rfl rfl rfl rfl rfl' (fun h => h.elim)
  | @tvRet u w' seen hpc =>
    have hu := who hpc rfl (by simp [PC.calm])
    subst hu
    exact absurd rfl (he2 _)
  | busy hpc _ =>
    rcases hpc with ⟨_, _, hpc⟩ | hpc
    · exact quiet hpc rfl rfl rfl rfl rfl' (fun h => h.elim)
    · exact quiet hpc rfl rfl rfl rfl rfl' (fun h => h.elim)
  | @cancel u g hpc =>
    have hu := who (p := s.pc u) rfl rfl (by intro h; generalize s.pc u = q at hpc h; cases hpc <;> cases h)
    subst hu
    cases g with
    | op o =>
      generalize s.pc u = q at hpc ho
      cases hpc <;> exact ho.elim
    | tv => exact absurd rfl he1
  | @panic u g hpc =>
    have hu := who (p := s.pc u) rfl rfl (by intro h; generalize s.pc u = q at hpc h; cases hpc <;> cases h)
    subst hu
    cases g with
    | op o =>
      generalize s.pc u = q at hpc ho
      cases hpc <;> exact ho.elim
    | tv => exact absurd rfl he3
  | critPanic hpc => exact act hpc rfl (by simp [PC.calm]) (fun h => h.elim)
  | @tvPanic u w' i p seen a S hpc =>
    have hu := who hpc rfl (by simp [PC.calm])
    subst hu
    exact absurd rfl he3
  | @rlPanic u g x o j n hpc =>
    have hu := who hpc rfl (by simp [PC.calm])
    subst hu
    cases g with
    | op o => rw [hpc] at ho; exact ho.elim
    | tv => exact absurd rfl he3
  | rlPanicHelp hpc =>
    exact quiet hpc rfl rfl (by rw [setPc_absMap, setLock_absMap, setLocks_absMap]) rfl (by simp)
      (fun h => h.elim)
  | rlBack hpc _ =>
    exact quiet hpc rfl rfl (by rw [setPc_absMap, setLock_absMap]) rfl (by simp) id
  | helpLoad hpc _ => exact quiet hpc rfl rfl rfl rfl rfl' (fun h => h.elim)
  | helpLink hpc _ => exact quiet hpc rfl rfl rfl rfl rfl' (fun h => h.elim)
  | helpQuit hpc =>
    rcases hpc with hpc | ⟨_, hpc⟩
    · exact quiet hpc rfl rfl rfl rfl rfl' (fun h => h.elim)
    · exact quiet hpc rfl rfl rfl rfl rfl' (fun h => h.elim)
  | helpLock hpc _ _ _ =>
    exact quiet hpc rfl rfl (by rw [setPc_absMap, setLock_absMap]) rfl (by simp) (fun h => h.elim)
  | @rlEmpty u c x o j n hpc _ _ =>
    refine quiet hpc rfl rfl (by rw [setPc_absMap, killBkt_absMap]) rfl (by simp) (fun h => ?_)
    cases c with
    | ded g => exact h
    | help => exact h.elim
  | rlTarget hpc _ _ =>
    exact quiet hpc rfl rfl (by rw [setPc_absMap, setLock_absMap]) rfl (by simp) id
  | @rlAbort u c x o j n hpc hmf =>
    refine quiet hpc rfl rfl (by rw [setPc_absMap, setLock_absMap, setLocks_absMap]) rfl (by simp)
      (fun h => ?_)
    cases c with
    | ded g => cases g with
      | op => exact h.elim
      | tv => exact absurd hmf (by simp [Cont.mayFail])
    | help => exact h.elim
  | @rlLeak u g x o j n hpc =>
    have hu := who hpc rfl (by simp [PC.calm])
    subst hu
    cases g with
    | op o => rw [hpc] at ho; exact ho.elim
    | tv => exact absurd rfl he1
  | rlLeakHelp hpc =>
    exact quiet hpc rfl rfl (by rw [setPc_absMap, setLock_absMap, setLocks_absMap]) rfl (by simp)
      (fun h => h.elim)
  | rlBegin hpc _ =>
    exact quiet hpc rfl rfl (by rw [setPc_absMap, setLock_absMap]) rfl (by simp) id
  | rlMove hpc hv => exact Once.congr (absMap_move hI hh hpc hv) rfl (by simp) ho
  | rlUnlock hpc _ =>
    exact quiet hpc rfl rfl (by rw [setPc_absMap, setLocks_absMap]) rfl (by simp) id
  | @rlKill u c x o j hpc =>
    refine quiet hpc rfl rfl (by rw [setPc_absMap, killBkt_absMap]) rfl (by simp) (fun h => ?_)
    cases c with
    | ded g => exact h
    | help => exact h.elim
  | @rehash o n _ _ _ =>
    have e1 : (s.setArr o { s.arr o with rh := n }).absMap hash = s.absMap hash := by
      refine absMap_congr rfl ?_ ?_
      · intro x; unfold St.setArr; simp only; split
        · rename_i hx; subst hx; rfl
        · rfl
      · intro x k; unfold St.val St.ix St.b St.setArr; simp only; split
        · rename_i hx; subst hx; rfl
        · rfl
    have e2 : ∀ x, ((s.setArr o { s.arr o with rh := n }).arr x).lg = (s.arr x).lg := by
      intro x; unfold St.setArr; simp only; split
      · rename_i hx; subst hx; rfl
      · rfl
    exact Once.congr e1 rfl e2 ho
  | @detach a o hl hdt =>
    refine Once.congr (absMap_detach hG hh hl (all_dead hG hl hdt)) rfl ?_ ho
    intro x; unfold St.setArr; simp only; split
    · rename_i h; subst h; rfl
    · split
      · rename_i h; subst h; rfl
      · rfl
  | rzLoad hpc _ => exact quiet hpc rfl rfl rfl rfl rfl' (fun h => h.elim)
  | rzLink hpc _ => exact quiet hpc rfl rfl rfl rfl rfl' (fun h => h.elim)
  | rzQuit hpc =>
    rcases hpc with hpc | hpc
    · exact quiet hpc rfl rfl rfl rfl rfl' (fun h => h.elim)
    · exact quiet hpc rfl rfl rfl rfl rfl' (fun h => h.elim)
  | @rzLock u _ hpc _ =>
    exact act (s₀ := { s with rz := some u }) hpc rfl (by simp [PC.calm]) (fun h => h.elim)
  | rzCheck hpc _ => exact quiet hpc rfl rfl rfl rfl rfl' (fun h => h.elim)
  | rzNothing hpc =>
    rcases hpc with hpc | hpc
    · exact quiet hpc rfl rfl rfl rfl rfl' (fun h => h.elim)
    · exact quiet hpc rfl rfl rfl rfl rfl' (fun h => h.elim)
  | @rzSwap u _ lg hpc _ _ =>
    exact act (s₀ := { s.setArr s.next (Arr.new lg s.cur) with
        next := s.next + 1, cur := some s.next }) hpc rfl (by simp [PC.calm]) (fun h => h.elim)
  | rzRelease hpc => exact act (s₀ := { s with rz := none }) hpc rfl (by simp [PC.calm]) (fun h => h.elim)
  | rzDropStart hpc => exact act hpc rfl (by simp [PC.calm]) (fun h => h.elim)
  | rzDropLock hpc _ _ _ _ => exact act hpc rfl (by simp [PC.calm]) (fun h => h.elim)
  | rzDropFail hpc => exact act hpc rfl (by simp [PC.calm]) (fun h => h.elim)
  | @rzDropSwap u c i hpc _ =>
    exact act (s₀ := { s.setLocks c 0 i (some (.kill u)) with cur := none }) hpc rfl (by simp [PC.calm])
      (fun h => h.elim)
  | rzKillOne hpc _ => exact act hpc rfl (by simp [PC.calm]) (fun h => h.elim)
  | rzKillEnd hpc _ => exact act hpc rfl (by simp [PC.calm]) (fun h => h.elim)
  | emNone hpc _ => exact act hpc rfl (by simp [PC.calm]) (fun h => h.elim)
  | emLoad hpc _ => exact act hpc rfl (by simp [PC.calm]) (fun h => h.elim)
  | emLinkNone hpc _ => exact act hpc rfl (by simp [PC.calm]) (fun h => h.elim)
  | emLinkSome hpc _ => exact act hpc rfl (by simp [PC.calm]) (fun h => h.elim)
  | emOld hpc _ _ => exact act hpc rfl (by simp [PC.calm]) (fun h => h.elim)
  | emOldFound hpc _ _ => exact act hpc rfl (by simp [PC.calm]) (fun h => h.elim)
  | emOldEnd hpc _ => exact act hpc rfl (by simp [PC.calm]) (fun h => h.elim)
  | emCur hpc _ _ => exact act hpc rfl (by simp [PC.calm]) (fun h => h.elim)
  | emCurFound hpc _ _ => exact act hpc rfl (by simp [PC.calm]) (fun h => h.elim)
  | emEnd hpc _ => exact act hpc rfl (by simp [PC.calm]) (fun h => h.elim)
  | emRet hpc => exact act hpc rfl (by simp [PC.calm]) (fun h => h.elim)

end Scc.Table
