import Verif.Table.Once
import Verif.Table.Complete

/-!
# `is_empty` and `len`
-/

namespace Scc.Table

open Scc.Index (bucketIndex fromIndexToRange InRange)

variable {K V R : Type} {hash : K → Nat}

/-! ## A table nobody else touches -/

/-- What a scan knows while nobody else uses the table. -/
def EmQuiet (hash : K → Nat) (s : St K V R) : PC K V R → Prop
  | .em1 a => s.cur = some a
  | .em2 a o i => s.cur = some a ∧ ((s.arr a).linked = some o ∨
      ((s.arr a).linked = none ∧ ∀ j, j < s.len o → (s.b o j).isEmpty)) ∧
      ∀ j, j < i → j < s.len o → (s.b o j).isEmpty
  | .em3 a i => s.cur = some a ∧ (∀ o, (s.arr a).linked = some o → ∀ j, j < s.len o → (s.b o j).isEmpty) ∧
      ∀ j, j < i → (s.b a j).isEmpty
  | .emDone e => e = true ↔ ∀ k, s.absMap hash k = none
  | _ => False

theorem EmQuiet.congr {s s' : St K V R} {p : PC K V R}
    (hb : ∀ x i, (s'.b x i).content = (s.b x i).content) (hc : s'.cur = s.cur)
    (hlk : ∀ x, (s'.arr x).linked = (s.arr x).linked) (hlg : ∀ x, (s'.arr x).lg = (s.arr x).lg)
    (h : EmQuiet hash s p) : EmQuiet hash s' p := by
  have e1 : s'.absMap hash = s.absMap hash := absMap_congr hc hlk (fun x k => by
    unfold St.val St.ix; rw [hb, hlg])
  have e2 : ∀ x i, (s'.b x i).isEmpty ↔ (s.b x i).isEmpty := fun x i => by
    unfold Bkt.isEmpty; rw [hb]
  have e3 : ∀ x, s'.len x = s.len x := fun x => by unfold St.len; rw [hlg]
  cases p with
  | em1 => unfold EmQuiet at *; rw [hc]; exact h
  | em2 => unfold EmQuiet at *; simp only [hc, hlk, e2, e3]; exact h
  | em3 => unfold EmQuiet at *; simp only [hc, hlk, e2, e3]; exact h
  | emDone => unfold EmQuiet at *; rw [e1]; exact h
  | _ => exact h

theorem emQuiet_step [DecidableEq K] (hh : ∀ k, hash k < 2 ^ 64) {s s' : St K V R}
    {e : Option (Event K V R)} (hI : Inv hash s) {t : Nat}
    (hq : Quiet t s) (hq' : Quiet t s') (ho : EmQuiet hash s (s.pc t)) (hne : s'.pc t ≠ .idle)
    (st : Step hash s e s') : EmQuiet hash s' (s'.pc t) := by
  have hG := hI.glob
  have who : ∀ {s₀ : St K V R} {u : Nat} {q p : PC K V R}, s.pc u = p → s' = s₀.setPc u q →
      (p.calm → ¬ q.calm) → u = t := by
    intro s₀ u q p hp hs hne
    apply Classical.byContradiction
    intro hu
    have h1 := hq u hu
    have h2 := hq' u hu
    rw [hs, setPc_self] at h2
    rw [hp] at h1
    exact hne h1 h2
  have act : ∀ {s₀ : St K V R} {u : Nat} {q p : PC K V R}, s.pc u = p → s' = s₀.setPc u q →
      (p.calm → ¬ q.calm) → (EmQuiet hash s p → EmQuiet hash s' q) →
      EmQuiet hash s' (s'.pc t) := by
    intro s₀ u q p hp hs hne hq
    have hu := who hp hs hne
    rw [← hu] at ho ⊢
    rw [hp] at ho
    have := hq ho
    rw [hs, setPc_self]; rw [hs] at this; exact this
  have calm : ∀ {s₀ : St K V R} {u : Nat} {q p : PC K V R}, s.pc u = p → s' = s₀.setPc u q →
      s₀.pc = s.pc → (∀ x i, (s'.b x i).content = (s.b x i).content) → s'.cur = s.cur →
      (∀ x, (s'.arr x).linked = (s.arr x).linked) → (∀ x, (s'.arr x).lg = (s.arr x).lg) →
      ¬ EmQuiet hash s p → EmQuiet hash s' (s'.pc t) := by
    intro s₀ u q p hp hs h0 h1 h2 h3 h4 hn
    by_cases hu : u = t
    · rw [← hu, hp] at ho
      exact absurd ho hn
    · have : s'.pc t = s.pc t := by rw [hs, setPc_other _ _ _ _ (Ne.symm hu), h0]
      rw [this]
      exact EmQuiet.congr h1 h2 h3 h4 ho
  have absNone : ∀ {a}, s.cur = some a → (s.arr a).linked = none → ∀ k,
      s.absMap hash k = s.val hash a k := by
    intro a hc hl k; unfold St.absMap; rw [hc]; simp only [hl]
  have absSome : ∀ {a o}, s.cur = some a → (s.arr a).linked = some o → ∀ k,
      s.absMap hash k = (s.val hash o k).or (s.val hash a k) := by
    intro a o hc hl k; unfold St.absMap; rw [hc]; simp only [hl]
  have triv : ∀ {s₀ : St K V R} {u : Nat} {q p : PC K V R}, s.pc u = p → s' = s₀.setPc u q →
      (p.calm → ¬ q.calm) → ¬ EmQuiet hash s p → EmQuiet hash s' (s'.pc t) :=
    fun hp hs hne hn => act hp hs hne (fun h => absurd h hn)
  cases st with
  | @emNone u hpc hcur =>
    have := who hpc rfl (by simp [PC.calm])
    subst this
    rw [hpc] at ho; exact ho.elim
  | @emLoad u a hpc hcur =>
    have := who hpc rfl (by simp [PC.calm])
    subst this
    rw [hpc] at ho; exact ho.elim
  | @emLinkNone u a hpc hl =>
    refine act hpc rfl (by simp [PC.calm]) (fun h => ⟨h, fun o ho => ?_, fun j hj => absurd hj (Nat.not_lt_zero _)⟩)
    have ho : (s.arr a).linked = some o := ho
    rw [hl] at ho; cases ho
  | @emLinkSome u a o hpc hl =>
    exact act hpc rfl (by simp [PC.calm]) (fun h => ⟨h, Or.inl hl, fun j hj => absurd hj (Nat.not_lt_zero _)⟩)
  | @emOld u a o i hpc hi he =>
    refine act hpc rfl (by simp [PC.calm]) (fun h => ⟨h.1, h.2.1, fun j hj hjo => ?_⟩)
    by_cases e : j = i
    · subst e; exact he
    · exact h.2.2 j (by omega) hjo
  | @emOldFound u a o i hpc hi he =>
    refine act hpc rfl (by simp [PC.calm]) (fun h => ?_)
    obtain ⟨hc, hl, hj⟩ := h
    obtain ⟨k, hk⟩ := Classical.not_forall.mp he
    have hix := (hG.placed o i k hk).1
    simp only [EmQuiet, setPc_absMap]
    refine ⟨fun h => (by cases h), fun h => ?_⟩
    have h := h k
    rcases hl with hl | ⟨_, hl⟩
    · rw [absSome hc hl] at h
      unfold St.val at h
      rw [← hix] at h
      cases hv : (s.b o i).content k with
      | none => exact absurd hv hk
      | some v => rw [hv] at h; cases h
    · exact absurd (hl i hi k) hk
  | @emOldEnd u a o i hpc hi =>
    refine act hpc rfl (by simp [PC.calm]) (fun h => ?_)
    obtain ⟨hc, hl, hj⟩ := h
    refine ⟨hc, fun o' ho' j hjo => ?_, fun j hj => absurd hj (Nat.not_lt_zero _)⟩
    rcases hl with hl | ⟨hl, _⟩
    · have e : o' = o := by
        have : (s.arr a).linked = some o' := ho'
        rw [hl] at this; cases this; rfl
      subst e
      have hjo : j < s.len o' := hjo
      exact hj j (by omega) hjo
    · have : (s.arr a).linked = some o' := ho'
      rw [hl] at this; cases this
  | @emCur u a i hpc hi he =>
    refine act hpc rfl (by simp [PC.calm]) (fun h => ⟨h.1, h.2.1, fun j hj => ?_⟩)
    by_cases e : j = i
    · subst e; exact he
    · exact h.2.2 j (by omega)
  | @emCurFound u a i hpc hi he =>
    refine act hpc rfl (by simp [PC.calm]) (fun h => ?_)
    obtain ⟨hc, hl, hj⟩ := h
    obtain ⟨k, hk⟩ := Classical.not_forall.mp he
    have hix := (hG.placed a i k hk).1
    simp only [EmQuiet, setPc_absMap]
    refine ⟨fun h => (by cases h), fun h => ?_⟩
    have h := h k
    have hv : s.val hash a k ≠ none := by unfold St.val; rw [← hix]; exact hk
    cases hlk : (s.arr a).linked with
    | none => rw [absNone hc hlk] at h; exact absurd h hv
    | some o =>
      rw [absSome hc hlk] at h
      cases h1 : s.val hash o k with
      | none => rw [h1] at h; exact absurd h hv
      | some v => rw [h1] at h; cases h
  | @emEnd u a i hpc hi =>
    refine act hpc rfl (by simp [PC.calm]) (fun h => ?_)
    obtain ⟨hc, hl, hj⟩ := h
    simp only [EmQuiet, setPc_absMap]
    refine ⟨fun _ k => ?_, fun _ => trivial⟩
    have ha : a < s.next := by have := hG.cur_last a hc; omega
    have hv : s.val hash a k = none := hj _ (by have := ix_lt hh hG ha k; omega) k
    cases hlk : (s.arr a).linked with
    | none => rw [absNone hc hlk]; exact hv
    | some o =>
      have := hG.linked_pred a o ha hlk
      have ho : o < s.next := by omega
      rw [absSome hc hlk, hv]
      have : s.val hash o k = none := hl o hlk _ (ix_lt hh hG ho k) k
      rw [this]; rfl
  | @emRet u e hpc =>
    have := who hpc rfl (by simp [PC.calm])
    subst this
    exact absurd (setPc_self ..) hne
  | @rehash o m _ _ _ =>
    have e1 : (s.setArr o { s.arr o with rh := m }).absMap hash = s.absMap hash := by
      refine absMap_congr rfl ?_ ?_
      · intro x; unfold St.setArr; simp only; split
        · rename_i hx; subst hx; rfl
        · rfl
      · intro x k; unfold St.val St.ix St.b St.setArr; simp only; split
        · rename_i hx; subst hx; rfl
        · rfl
    have e2 : ∀ x, ((s.setArr o { s.arr o with rh := m }).arr x).linked = (s.arr x).linked := by
      intro x; unfold St.setArr; simp only; split
      · rename_i hx; subst hx; rfl
      · rfl
    have e3 : (s.setArr o { s.arr o with rh := m }).b = s.b := by
      funext x i; unfold St.b St.setArr; simp only; split
      · rename_i hx; subst hx; rfl
      · rfl
    have e4 : (s.setArr o { s.arr o with rh := m }).len = s.len := by
      funext x; unfold St.len St.setArr; simp only; split
      · rename_i hx; subst hx; rfl
      · rfl
    have e5 : (s.setArr o { s.arr o with rh := m }).cur = s.cur := rfl
    have e6 : (s.setArr o { s.arr o with rh := m }).pc = s.pc := rfl
    rw [e6]
    generalize s.pc t = q at ho
    unfold EmQuiet at *
    rw [e1, e3, e4, e5]
    simp only [e2]
    exact ho
  | @detach a o hl hdt =>
    have hall := all_dead hG hl hdt
    have e1 := absMap_detach hG hh (m := { (s.arr o).rh with
          detaching := (s.arr o).rh.detaching - 1, detached := (s.arr o).rh.detached + 1 }) hl hall
    have hpr := hG.linked_pred a o (hG.linked_lt a o hl) hl
    generalize hs : (s.setArr o { s.arr o with rh := { (s.arr o).rh with
          detaching := (s.arr o).rh.detaching - 1, detached := (s.arr o).rh.detached + 1 } }).setArr a
        { s.arr a with linked := none } = s' at *
    have e2 : ∀ x, (s'.arr x).linked = if x = a then none else (s.arr x).linked := by
      intro x; subst hs; unfold St.setArr; simp only; split
      · rfl
      · split
        · rename_i h; subst h; rfl
        · rfl
    have e3 : s'.b = s.b := by
      funext x i; subst hs; unfold St.b St.setArr; simp only; split
      · rename_i h; subst h; rfl
      · split
        · rename_i h; subst h; rfl
        · rfl
    have e4 : s'.len = s.len := by
      funext x; subst hs; unfold St.len St.setArr; simp only; split
      · rename_i h; subst h; rfl
      · split
        · rename_i h; subst h; rfl
        · rfl
    have e5 : s'.cur = s.cur := by subst hs; rfl
    have e6 : s'.pc = s.pc := by subst hs; rfl
    rw [e6]
    generalize s.pc t = q at ho
    cases q with
    | em1 x => unfold EmQuiet at *; rw [e5]; exact ho
    | em2 x y i =>
      obtain ⟨h1, h2, h3⟩ := ho
      refine ⟨by rw [e5]; exact h1, ?_, by rw [e3, e4]; exact h3⟩
      rw [e2, e3, e4]
      by_cases hx : x = a
      · subst hx
        right
        refine ⟨if_pos rfl, ?_⟩
        rcases h2 with h2 | ⟨h2, _⟩
        · rw [hl] at h2; cases h2
          exact fun j hj => (hG.dead_empty _ _ (hall j hj)).1
        · rw [hl] at h2; cases h2
      · rw [if_neg hx]; exact h2
    | em3 x i =>
      obtain ⟨h1, h2, h3⟩ := ho
      refine ⟨by rw [e5]; exact h1, ?_, by rw [e3]; exact h3⟩
      intro o' ho'
      rw [e2] at ho'
      split at ho'
      · cases ho'
      · rw [e3, e4]; exact h2 o' ho'
    | emDone e =>
      unfold EmQuiet at *
      rw [e1]; exact ho
    | _ => exact ho.elim
  | @rlMove u c x y j k v hpc hv =>
    have hp := hI.pc u
    rw [hpc] at hp
    have hxn := hG.linked_lt _ _ hp.2.1
    have hpr := hG.linked_pred _ _ hxn hp.2.1
    have hcur : s.cur = some x := by
      rcases hG.live y j (by omega) hp.2.2.1 hp.2.2.2.2.1 with h | h | ⟨w, h⟩
      · have := hG.cur_last _ h; omega
      · rw [hpr]; exact h.1
      · rw [hp.2.2.2.1] at h; cases h
    have hm := absMap_move hI hh hpc hv
    have hpc' : (((s.modBkt y j (Bkt.set k none)).modBkt x (target hash s x y j k)
        (Bkt.set k (some v))).pc t) = s.pc t := rfl
    rw [hpc']
    generalize s.pc t = q at ho
    cases q with
    | em1 a => exact ho
    | em2 a o i =>
      obtain ⟨h1, h2, h3⟩ := ho
      rw [hcur] at h1; cases h1
      rcases h2 with h2 | ⟨h2, _⟩
      · rw [hp.2.1] at h2; cases h2
        refine ⟨hcur, Or.inl (by simpa using hp.2.1), fun j' hj' hlt => ?_⟩
        have he := h3 j' hj' (by simpa [St.len] using hlt)
        intro k'
        rw [modBkt_b, if_neg (fun hc => by omega), modBkt_b]
        split
        · show (if k' = k then none else _) = none
          split
          · rfl
          · exact he k'
        · exact he k'
      · rw [hp.2.1] at h2; cases h2
    | em3 a i =>
      obtain ⟨h1, h2, h3⟩ := ho
      rw [hcur] at h1; cases h1
      have := h2 y hp.2.1 j hp.2.2.1 k
      rw [hv] at this; cases this
    | emDone e =>
      unfold EmQuiet at *
      rw [hm]; exact ho
    | _ => exact ho.elim
  | @retry u g a hpc =>
    rcases hpc with hpc | ⟨_, _, hpc⟩ | hpc <;> exact triv hpc rfl (by simp [PC.calm]) id
  | busy hpc _ =>
    rcases hpc with ⟨_, _, hpc⟩ | hpc <;> exact triv hpc rfl (by simp [PC.calm]) id
  | @cancel u g hpc =>
    have hu := who (p := s.pc u) rfl rfl (by intro h; generalize s.pc u = q at hpc h; cases hpc <;> cases h)
    subst hu
    exact absurd (setPc_self ..) hne
  | helpQuit hpc =>
    rcases hpc with hpc | ⟨_, hpc⟩ <;>
      exact calm hpc rfl rfl (fun _ _ => rfl) rfl (fun _ => rfl) (fun _ => rfl) id
  | rzQuit hpc => rcases hpc with hpc | hpc <;> exact triv hpc rfl (by simp [PC.calm]) id
  | rzNothing hpc => rcases hpc with hpc | hpc <;> exact triv hpc rfl (by simp [PC.calm]) id
  | @alloc u o lg hpc _ _ _ _ =>
    exact triv (s₀ := { s.setArr s.next (Arr.new lg none) with
        next := s.next + 1, cur := some s.next }) hpc rfl (by simp [PC.calm]) id
  | @rzLock u _ hpc _ => exact triv (s₀ := { s with rz := some u }) hpc rfl (by simp [PC.calm]) id
  | @rzSwap u _ lg hpc _ _ =>
    exact triv (s₀ := { s.setArr s.next (Arr.new lg s.cur) with
        next := s.next + 1, cur := some s.next }) hpc rfl (by simp [PC.calm]) id
  | rzRelease hpc => exact triv (s₀ := { s with rz := none }) hpc rfl (by simp [PC.calm]) id
  | @rzDropSwap u c i hpc _ =>
    exact triv (s₀ := { s.setLocks c 0 i (some (.kill u)) with cur := none }) hpc rfl (by simp [PC.calm]) id
  | invoke hpc => exact triv hpc rfl (by simp [PC.calm]) id
  | tvInvoke hpc => exact triv hpc rfl (by simp [PC.calm]) id
  | loadNone hpc _ _ => exact triv hpc rfl (by simp [PC.calm]) id
  | tvLoadNone hpc _ => exact triv hpc rfl (by simp [PC.calm]) id
  | load hpc _ => exact triv hpc rfl (by simp [PC.calm]) id
  | linkNone hpc _ => exact triv hpc rfl (by simp [PC.calm]) id
  | linkSome hpc _ => exact triv hpc rfl (by simp [PC.calm]) id
  | dedupSkip hpc _ _ => exact triv hpc rfl (by simp [PC.calm]) id
  | dedupLock hpc _ _ _ => exact triv hpc rfl (by simp [PC.calm]) id
  | dedupDone hpc _ => exact triv hpc rfl (by simp [PC.calm]) id
  | dedupUnlinked hpc _ => exact triv hpc rfl (by simp [PC.calm]) id
  | read hpc _ _ _ => exact triv hpc rfl (by simp [PC.calm]) id
  | lock hpc _ _ => exact triv hpc rfl (by simp [PC.calm]) id
  | commit hpc => exact triv hpc rfl (by simp [PC.calm]) id
  | commitEvict hpc => exact triv hpc rfl (by simp [PC.calm]) id
  | unlock hpc => exact triv hpc rfl (by simp [PC.calm]) id
  | @panic u g hpc =>
    have hu := who (p := s.pc u) rfl rfl (by intro h; generalize s.pc u = q at hpc h; cases hpc <;> cases h)
    subst hu
    exact absurd (setPc_self ..) hne
  | critPanic hpc => exact triv hpc rfl (by simp [PC.calm]) id
  | tvPanic S hpc => exact triv hpc rfl (by simp [PC.calm]) id
  | rlPanic hpc =>
    exact calm hpc rfl rfl (by intro x i; rw [setPc_b, setLock_content, setLocks_content]) rfl (by simp) (by simp) id
  | rlPanicHelp hpc =>
    exact calm hpc rfl rfl (by intro x i; rw [setPc_b, setLock_content, setLocks_content]) rfl (by simp) (by simp) id
  | rlBack hpc _ =>
    exact calm hpc rfl rfl (by intro x i; rw [setPc_b, setLock_content]) rfl (by simp) (by simp) id
  | visit hpc => exact triv hpc rfl (by simp [PC.calm]) id
  | tvUnlock hpc => exact triv hpc rfl (by simp [PC.calm]) id
  | ret hpc => exact triv hpc rfl (by simp [PC.calm]) id
  | tvRet hpc => exact triv hpc rfl (by simp [PC.calm]) id
  | helpLoad hpc _ =>
    exact calm hpc rfl rfl (fun _ _ => rfl) rfl (fun _ => rfl) (fun _ => rfl) id
  | helpLink hpc _ =>
    exact calm hpc rfl rfl (fun _ _ => rfl) rfl (fun _ => rfl) (fun _ => rfl) id
  | helpLock hpc _ _ _ =>
    exact calm hpc rfl rfl (by intro x i; rw [setPc_b, setLock_content]) rfl (by simp) (by simp) id
  | rlEmpty hpc _ _ =>
    exact calm hpc rfl rfl (by intro x i; rw [setPc_b, killBkt_content]) rfl (by simp) (by simp) id
  | rlTarget hpc _ _ =>
    exact calm hpc rfl rfl (by intro x i; rw [setPc_b, setLock_content]) rfl (by simp) (by simp) id
  | rlAbort hpc _ =>
    exact calm hpc rfl rfl (by intro x i; rw [setPc_b, setLock_content, setLocks_content]) rfl (by simp) (by simp) id
  | rlLeak hpc =>
    exact calm hpc rfl rfl (by intro x i; rw [setPc_b, setLock_content, setLocks_content]) rfl (by simp) (by simp) id
  | rlLeakHelp hpc =>
    exact calm hpc rfl rfl (by intro x i; rw [setPc_b, setLock_content, setLocks_content]) rfl (by simp) (by simp) id
  | rlBegin hpc _ =>
    exact calm hpc rfl rfl (by intro x i; rw [setPc_b, setLock_content]) rfl (by simp) (by simp) id
  | rlUnlock hpc _ =>
    exact calm hpc rfl rfl (by intro x i; rw [setPc_b, setLocks_content]) rfl (by simp) (by simp) id
  | rlKill hpc =>
    exact calm hpc rfl rfl (by intro x i; rw [setPc_b, killBkt_content]) rfl (by simp) (by simp) id
  | rzLoad hpc _ => exact triv hpc rfl (by simp [PC.calm]) id
  | rzLink hpc _ => exact triv hpc rfl (by simp [PC.calm]) id
  | rzCheck hpc _ => exact triv hpc rfl (by simp [PC.calm]) id
  | rzDropStart hpc => exact triv hpc rfl (by simp [PC.calm]) id
  | rzDropLock hpc _ _ _ _ => exact triv hpc rfl (by simp [PC.calm]) id
  | rzDropFail hpc => exact triv hpc rfl (by simp [PC.calm]) id
  | rzKillOne hpc _ => exact triv hpc rfl (by simp [PC.calm]) id
  | rzKillEnd hpc _ => exact triv hpc rfl (by simp [PC.calm]) id

/-! ## A table used by others whose array does not change -/

/-- An entry appears in an array only by a writer that holds its bucket, or by relocation into an array
that is linked to an older one. -/
theorem val_gain [DecidableEq K] {s s' : St K V R} {e : Option (Event K V R)} (hI : Inv hash s)
    (st : Step hash s e s') {x : Nat} (hx : x < s.next) {k : K} (h : s'.val hash x k ≠ none) :
    s.val hash x k ≠ none ∨
      (∃ t, (s.b x (s.ix hash x k)).dead = false ∧ (s.b x (s.ix hash x k)).lock = some (.user t)) ∨
      ∃ o, (s.arr x).linked = some o := by
  have hG := hI.glob
  have hlg := (step_lg st).2 x hx
  have e : s'.val hash x k = (s'.b x (s.ix hash x k)).content k := by
    unfold St.val St.ix; rw [hlg]
  rw [e] at h
  have same : (s'.b x (s.ix hash x k)).content = (s.b x (s.ix hash x k)).content →
      s.val hash x k ≠ none := by
    intro hs; unfold St.val; rw [← hs]; exact h
  cases st with
  | alloc =>
    refine Or.inl (same ?_)
    rw [setPc_b]; unfold St.b St.setArr; simp only [if_neg (Nat.ne_of_lt hx)]
  | rzSwap =>
    refine Or.inl (same ?_)
    rw [setPc_b]; unfold St.b St.setArr; simp only [if_neg (Nat.ne_of_lt hx)]
  | @commitEvict t o a g k' w hpc =>
    have hp := hI.pc t
    rw [hpc] at hp
    rw [setPc_b, modBkt_b] at h
    split at h
    · rename_i hc
      obtain ⟨rfl, hi⟩ := hc
      right; left
      rw [hi]
      exact ⟨t, hp.2.2.2.2, hp.2.2.2.1⟩
    · exact Or.inl h
  | @commit t o a hpc =>
    have hp := hI.pc t
    rw [hpc] at hp
    rw [setPc_b, modBkt_b] at h
    split at h
    · rename_i hc
      obtain ⟨rfl, hi⟩ := hc
      right; left
      rw [hi]
      exact ⟨t, hp.2.2.2.2, hp.2.2.2.1⟩
    · exact Or.inl h
  | @visit t u i p seen a hpc =>
    rw [setPc_b, modBkt_b] at h
    split at h
    · left
      intro hn
      unfold St.val at hn
      simp [hn] at h
    · exact Or.inl h
  | @rlMove t c a o j k' v hpc hv =>
    have hp := hI.pc t
    rw [hpc] at hp
    by_cases hxa : x = a
    · subst hxa; exact Or.inr (Or.inr ⟨o, hp.2.1⟩)
    · left
      rw [modBkt_b, if_neg (fun hc => hxa hc.1), modBkt_b] at h
      split at h
      · intro hn
        apply h
        unfold St.val at hn
        have : (Bkt.set k' none (s.b x (s.ix hash x k))).content k =
          if k = k' then none else (s.b x (s.ix hash x k)).content k := rfl
        rw [this, hn]; split <;> rfl
      · exact h
  | dedupLock => exact Or.inl (same (by rw [setPc_b, setLock_content]))
  | lock => exact Or.inl (same (by rw [setPc_b, setLock_content]))
  | helpLock => exact Or.inl (same (by rw [setPc_b, setLock_content]))
  | rlTarget => exact Or.inl (same (by rw [setPc_b, setLock_content]))
  | rzDropLock => exact Or.inl (same (by rw [setPc_b, setLock_content]))
  | rlBegin => exact Or.inl (same (by rw [setPc_b, setLock_content]))
  | unlock => exact Or.inl (same (by rw [setPc_b, setLock_content]))
  | critPanic => exact Or.inl (same (by rw [setPc_b, setLock_content]))
  | rlBack => exact Or.inl (same (by rw [setPc_b, setLock_content]))
  | @tvPanic t u i p seen a S hpc =>
    rw [setPc_b, setLock_content, modBkt_b] at h
    split at h
    · left
      intro hn
      unfold St.val at hn
      simp [Bkt.partly, hn] at h
    · exact Or.inl h
  | rlPanic => exact Or.inl (same (by rw [setPc_b, setLock_content, setLocks_content]))
  | rlPanicHelp => exact Or.inl (same (by rw [setPc_b, setLock_content, setLocks_content]))
  | tvUnlock => exact Or.inl (same (by rw [setPc_b, setLock_content]))
  | rlEmpty => exact Or.inl (same (by rw [setPc_b, killBkt_content]))
  | rlKill => exact Or.inl (same (by rw [setPc_b, killBkt_content]))
  | rzKillOne => exact Or.inl (same (by rw [setPc_b, killBkt_content]))
  | rlUnlock => exact Or.inl (same (by rw [setPc_b, setLocks_content]))
  | rzDropFail => exact Or.inl (same (by rw [setPc_b, setLocks_content]))
  | @rzDropSwap t a j hpc hi =>
    have : (({ s.setLocks a 0 j (some (.kill t)) with cur := none } : St K V R).setPc t
        (.rzKill a 0)).b = (s.setLocks a 0 j (some (.kill t))).b := rfl
    exact Or.inl (same (by rw [this, setLocks_content]))
  | rlAbort => exact Or.inl (same (by rw [setPc_b, setLock_content, setLocks_content]))
  | rlLeak => exact Or.inl (same (by rw [setPc_b, setLock_content, setLocks_content]))
  | rlLeakHelp => exact Or.inl (same (by rw [setPc_b, setLock_content, setLocks_content]))
  | rehash =>
    refine Or.inl (same ?_)
    unfold St.b St.setArr; simp only; split
    · rename_i hc; rw [hc]
    · rfl
  | detach =>
    refine Or.inl (same ?_)
    unfold St.b St.setArr; simp only; split
    · rename_i hc; rw [hc]
    · split
      · rename_i hc; rw [hc]
      · rfl
  | _ => exact Or.inl h

/-- An entry of the current array stays there while the key is present and the array is current. -/
theorem val_stays [DecidableEq K] (hh : ∀ k, hash k < 2 ^ 64) {s s' : St K V R}
    {e : Option (Event K V R)} (hI : Inv hash s) (st : Step hash s e s') {a : Nat} {k : K}
    (hc : s.cur = some a) (hc' : s'.cur = some a) (hv : s.val hash a k ≠ none)
    (hm : s'.absMap hash k ≠ none) : s'.val hash a k ≠ none := by
  have hG := hI.glob
  have hI' := inv_step hh hI st
  have hG' := hI'.glob
  have ha : a < s.next := by have := hG.cur_last a hc; omega
  unfold St.absMap at hm
  rw [hc'] at hm
  simp only at hm
  cases hl' : (s'.arr a).linked with
  | none => rw [hl'] at hm; exact hm
  | some o =>
    rw [hl'] at hm
    simp only at hm
    intro hn
    have hpr := hG'.linked_pred a o (hG'.linked_lt _ _ hl') hl'
    have hvo : s'.val hash o k ≠ none := by intro h; rw [h, hn] at hm; exact hm rfl
    -- the link is not new
    have hl : (s.arr a).linked = some o := by
      cases st with
      | alloc _ _ _ hcn => rw [hc] at hcn; cases hcn
      | rzSwap =>
        have : some s.next = some a := hc'
        have := Option.some.inj this
        omega
      | detach =>
        unfold St.setArr at hl'
        simp only at hl'
        split at hl'
        · cases hl'
        · split at hl'
          · rename_i h; rw [h]; exact hl'
          · exact hl'
      | rehash =>
        unfold St.setArr at hl'
        simp only at hl'
        split at hl'
        · rename_i h; rw [h]; exact hl'
        · exact hl'
      | _ => simpa using hl'
    have ho : o < s.next := by omega
    subst hpr
    rcases val_gain hI st ho hvo with h | ⟨t, hd, hlk⟩ | ⟨o', h⟩
    · exact absurd (hG.excl o k hc hl h) hv
    · refine absurd (hG.fresh o _ k hc hl (ix_lt hh hG ho k) hd ?_ rfl) hv
      intro u; rw [hlk]; simp
    · have := hG.linked_one _ ha _ hl
      rw [this] at h; cases h

/-- What a scan of an unchanged array knows about a key that stays in the map. -/
def EmSure (hash : K → Nat) (s : St K V R) (k : K) (a₀ : Nat) : PC K V R → Prop
  | .em1 a => a = a₀
  | .em2 a o i => a = a₀ ∧ (s.val hash a k ≠ none ∨ i ≤ s.ix hash o k)
  | .em3 a i => a = a₀ ∧ s.val hash a k ≠ none ∧ i ≤ s.ix hash a k
  | .emDone e => e = false
  | _ => False

theorem emSure_step [DecidableEq K] (hh : ∀ k, hash k < 2 ^ 64) {s s' : St K V R}
    {e : Option (Event K V R)} (hI : Inv hash s) (st : Step hash s e s') {t a₀ : Nat} {k : K}
    (hc : s.cur = some a₀) (hc' : s'.cur = some a₀) (hk : s.absMap hash k ≠ none)
    (hk' : s'.absMap hash k ≠ none) (hne : s'.pc t ≠ .idle)
    (ho : EmSure hash s k a₀ (s.pc t)) : EmSure hash s' k a₀ (s'.pc t) := by
  have hG := hI.glob
  have hlg := (step_lg st).2
  -- the knowledge of `t` is stable
  have stable : EmSure hash s' k a₀ (s.pc t) := by
    have hp := hI.pc t
    generalize s.pc t = q at ho hp
    cases q with
    | em2 a o i =>
      obtain ⟨ha, hao⟩ := hp
      refine ⟨ho.1, ?_⟩
      have e : s'.ix hash o k = s.ix hash o k := by unfold St.ix; rw [hlg o (by omega)]
      rcases ho.2 with h | h
      · left
        have := ho.1; subst this
        exact val_stays hh hI st hc hc' h hk'
      · right; rw [e]; exact h
    | em3 a i =>
      have ha : a < s.next := hp
      obtain ⟨rfl, h1, h2⟩ := ho
      have e : s'.ix hash a k = s.ix hash a k := by unfold St.ix; rw [hlg a ha]
      exact ⟨rfl, val_stays hh hI st hc hc' h1 hk', by rw [e]; exact h2⟩
    | _ => exact ho
  have act : ∀ {s₀ : St K V R} {u : Nat} {q p : PC K V R}, s.pc u = p → s' = s₀.setPc u q →
      s₀.pc = s.pc → (u = t → EmSure hash s k a₀ p → q ≠ .idle → EmSure hash s' k a₀ q) →
      EmSure hash s' k a₀ (s'.pc t) := by
    intro s₀ u q p hp hs h0 hq
    by_cases hu : u = t
    · subst hu
      rw [hs, setPc_self] at hne
      have := hq rfl (hp ▸ ho) hne
      rw [hs, setPc_self]; rw [hs] at this; exact this
    · have : s'.pc t = s.pc t := by rw [hs, setPc_other _ _ _ _ (Ne.symm hu), h0]
      rw [this]; exact stable
  have triv : ∀ {s₀ : St K V R} {u : Nat} {q p : PC K V R}, s.pc u = p → s' = s₀.setPc u q →
      s₀.pc = s.pc → ¬ EmSure hash s k a₀ p → EmSure hash s' k a₀ (s'.pc t) :=
    fun hp hs h0 hn => act hp hs h0 (fun _ h _ => absurd h hn)
  have valA : (∀ o, (s.arr a₀).linked = some o → s.val hash o k = none) → s.val hash a₀ k ≠ none := by
    intro h
    unfold St.absMap at hk
    rw [hc] at hk
    simp only at hk
    cases hl : (s.arr a₀).linked with
    | none => rw [hl] at hk; exact hk
    | some o =>
      rw [hl] at hk
      simp only [h o hl, Option.none_or] at hk
      exact hk
  cases st with
  | @emLinkNone u a hpc hl =>
    refine act hpc rfl rfl (fun _ h _ => ?_)
    have h : a = a₀ := h
    subst h
    refine ⟨rfl, ?_, Nat.zero_le _⟩
    exact valA (fun o ho => by rw [hl] at ho; cases ho)
  | @emLinkSome u a o hpc hl =>
    exact act hpc rfl rfl (fun _ h _ => ⟨h, Or.inr (Nat.zero_le _)⟩)
  | @emOld u a o i hpc hi he =>
    refine act hpc rfl rfl (fun _ h _ => ?_)
    obtain ⟨rfl, h⟩ := h
    refine ⟨rfl, ?_⟩
    rcases h with h | h
    · exact Or.inl h
    · by_cases e : i = s.ix hash o k
      · left
        subst e
        refine valA (fun o' ho' => ?_)
        have hp := hI.pc u
        rw [hpc] at hp
        have h1 := hG.linked_pred a o' hp.1 ho'
        have h2 := hp.2
        have : o' = o := by omega
        subst this
        exact he k
      · right
        have h' : i + 1 ≤ s.ix hash o k := by omega
        exact h'
  | @emOldFound u a o i hpc hi he => exact act hpc rfl rfl (fun _ _ _ => rfl)
  | @emOldEnd u a o i hpc hi =>
    refine act hpc rfl rfl (fun _ h _ => ?_)
    obtain ⟨rfl, h⟩ := h
    refine ⟨rfl, ?_, Nat.zero_le _⟩
    rcases h with h | h
    · exact h
    · have hp := hI.pc u
      rw [hpc] at hp
      obtain ⟨h1, h2⟩ := hp
      have := ix_lt hh hG (show o < s.next by omega) k
      omega
  | @emCur u a i hpc hi he =>
    refine act hpc rfl rfl (fun _ h _ => ?_)
    obtain ⟨rfl, h1, h2⟩ := h
    refine ⟨rfl, h1, ?_⟩
    by_cases e : i = s.ix hash a k
    · subst e; exact absurd (he k) h1
    · have h' : i + 1 ≤ s.ix hash a k := by omega
      exact h'
  | @emCurFound u a i hpc hi he => exact act hpc rfl rfl (fun _ _ _ => rfl)
  | @emEnd u a i hpc hi =>
    refine act hpc rfl rfl (fun _ h _ => ?_)
    obtain ⟨rfl, h1, h2⟩ := h
    have hp := hI.pc u
    rw [hpc] at hp
    have := ix_lt hh hG hp k
    omega
  | emRet hpc => exact act hpc rfl rfl (fun _ _ h => absurd rfl h)
  | emNone hpc _ => exact triv hpc rfl rfl id
  | emLoad hpc _ => exact triv hpc rfl rfl id
  | rehash => exact stable
  | detach => exact stable
  | rlMove => exact stable
  | @retry u g a hpc =>
    rcases hpc with hpc | ⟨_, _, hpc⟩ | hpc <;> exact triv hpc rfl rfl id
  | busy hpc _ =>
    rcases hpc with ⟨_, _, hpc⟩ | hpc <;> exact triv hpc rfl rfl id
  | @cancel u g hpc => exact act rfl rfl rfl (fun _ _ h => absurd rfl h)
  | helpQuit hpc =>
    rcases hpc with hpc | ⟨_, hpc⟩ <;> exact triv hpc rfl rfl id
  | rzQuit hpc => rcases hpc with hpc | hpc <;> exact triv hpc rfl rfl id
  | rzNothing hpc => rcases hpc with hpc | hpc <;> exact triv hpc rfl rfl id
  | @alloc u o lg hpc _ _ _ _ =>
    exact triv (s₀ := { s.setArr s.next (Arr.new lg none) with
        next := s.next + 1, cur := some s.next }) hpc rfl rfl id
  | @rzLock u _ hpc _ => exact triv (s₀ := { s with rz := some u }) hpc rfl rfl id
  | @rzSwap u _ lg hpc _ _ =>
    exact triv (s₀ := { s.setArr s.next (Arr.new lg s.cur) with
        next := s.next + 1, cur := some s.next }) hpc rfl rfl id
  | rzRelease hpc => exact triv (s₀ := { s with rz := none }) hpc rfl rfl id
  | @rzDropSwap u c i hpc _ =>
    exact triv (s₀ := { s.setLocks c 0 i (some (.kill u)) with cur := none }) hpc rfl rfl id
  | invoke hpc => exact triv hpc rfl rfl id
  | tvInvoke hpc => exact triv hpc rfl rfl id
  | loadNone hpc _ _ => exact triv hpc rfl rfl id
  | tvLoadNone hpc _ => exact triv hpc rfl rfl id
  | load hpc _ => exact triv hpc rfl rfl id
  | linkNone hpc _ => exact triv hpc rfl rfl id
  | linkSome hpc _ => exact triv hpc rfl rfl id
  | dedupSkip hpc _ _ => exact triv hpc rfl rfl id
  | dedupLock hpc _ _ _ => exact triv hpc rfl rfl id
  | dedupDone hpc _ => exact triv hpc rfl rfl id
  | dedupUnlinked hpc _ => exact triv hpc rfl rfl id
  | read hpc _ _ _ => exact triv hpc rfl rfl id
  | lock hpc _ _ => exact triv hpc rfl rfl id
  | commit hpc => exact triv hpc rfl rfl id
  | commitEvict hpc => exact triv hpc rfl rfl id
  | unlock hpc => exact triv hpc rfl rfl id
  | @panic u g hpc => exact act rfl rfl rfl (fun _ _ h => absurd rfl h)
  | critPanic hpc => exact triv hpc rfl rfl id
  | tvPanic S hpc => exact triv hpc rfl rfl id
  | rlPanic hpc => exact triv hpc rfl rfl id
  | rlPanicHelp hpc => exact triv hpc rfl rfl id
  | rlBack hpc _ => exact triv hpc rfl rfl id
  | visit hpc => exact triv hpc rfl rfl id
  | tvUnlock hpc => exact triv hpc rfl rfl id
  | ret hpc => exact triv hpc rfl rfl id
  | tvRet hpc => exact triv hpc rfl rfl id
  | helpLoad hpc _ => exact triv hpc rfl rfl id
  | helpLink hpc _ => exact triv hpc rfl rfl id
  | helpLock hpc _ _ _ => exact triv hpc rfl rfl id
  | rlEmpty hpc _ _ => exact triv hpc rfl rfl id
  | rlTarget hpc _ _ => exact triv hpc rfl rfl id
  | rlAbort hpc _ => exact triv hpc rfl rfl id
  | rlLeak hpc => exact triv hpc rfl rfl id
  | rlLeakHelp hpc => exact triv hpc rfl rfl id
  | rlBegin hpc _ => exact triv hpc rfl rfl id
  | rlUnlock hpc _ => exact triv hpc rfl rfl id
  | rlKill hpc => exact triv hpc rfl rfl id
  | rzLoad hpc _ => exact triv hpc rfl rfl id
  | rzLink hpc _ => exact triv hpc rfl rfl id
  | rzCheck hpc _ => exact triv hpc rfl rfl id
  | rzDropStart hpc => exact triv hpc rfl rfl id
  | rzDropLock hpc _ _ _ _ => exact triv hpc rfl rfl id
  | rzDropFail hpc => exact triv hpc rfl rfl id
  | rzKillOne hpc _ => exact triv hpc rfl rfl id
  | rzKillEnd hpc _ => exact triv hpc rfl rfl id

end Scc.Table
