import Verif.Perch.Model

/-!
# C69: nobody waits for a lock whose memory has been returned
-/

namespace Scc.Perch

theorem upd_same {α : Type} (f : Nat → α) (i : Nat) (x : α) : upd f i x i = x := by simp [upd]

theorem upd_other {α : Type} (f : Nat → α) {i j : Nat} (x : α) (h : j ≠ i) : upd f i x j = f j := by simp [upd, h]

structure Inv (s : St) : Prop where
  /-- Nodes that are not there yet. -/
  late : ∀ n, s.made ≤ n → s.linked n = false ∧ s.freed n = false ∧ s.lk n = none ∧ s.poison n = false ∧ (∀ t, s.keep n t = false) ∧ ∀ t, s.know t n = false
  free : ∀ n, s.freed n = true → s.linked n = false ∧ ∀ t, s.keep n t = false
  know : ∀ t n, s.know t n = true → s.pin t = true ∧ (s.linked n = true ∨ s.keep n t = true)
  held : ∀ t n, s.lk n = some t → s.know t n = true
  wait : ∀ t n, s.wait t = some n → s.lk n ≠ none

theorem wake_some {w : Nat → Option Nat} {n u m : Nat} (h : wake w n u = some m) : w u = some m ∧ m ≠ n := by
  unfold wake at h
  by_cases e : w u = some n
  · rw [if_pos e] at h; cases h
  · rw [if_neg e] at h
    exact ⟨h, fun e' => e (e' ▸ h)⟩

theorem inv_init : Inv .init where
  late := fun _ _ => ⟨rfl, rfl, rfl, rfl, fun _ => rfl, fun _ => rfl⟩
  free := fun _ h => by cases h
  know := fun _ _ h => by cases h
  held := fun _ _ h => by cases h
  wait := fun _ _ h => by cases h

theorem Inv.step {s s' : St} (I : Inv s) (st : Step s s') : Inv s' := by
  have below : ∀ t n, s.know t n = true → n < s.made := by
    intro t n h
    by_cases hn : n < s.made
    · exact hn
    · rw [(I.late n (by omega)).2.2.2.2.2 t] at h; cases h
  cases st with
  | guard t h hw =>
    refine ⟨I.late, I.free, fun u n hk => ⟨?_, (I.know u n hk).2⟩, I.held, I.wait⟩
    show upd s.pin t true u = true
    by_cases e : u = t
    · rw [e, upd_same]
    · rw [upd_other _ _ e]; exact (I.know u n hk).1
  | make t h =>
    have hm := I.late s.made (Nat.le_refl _)
    have hkn : ∀ u n, upd s.know t (upd (s.know t) s.made true) u n = true → s.know u n = true ∨ (u = t ∧ n = s.made) := by
      intro u n hk
      by_cases e : u = t
      · rw [e, upd_same] at hk
        by_cases e' : n = s.made
        · exact .inr ⟨e, e'⟩
        · rw [upd_other _ _ e'] at hk; rw [e]; exact .inl hk
      · rw [upd_other _ _ e] at hk; exact .inl hk
    refine ⟨fun n hn => ?_, fun n hn => ?_, fun u n hk => ?_, fun u n hu => ?_, I.wait⟩
    · have hn : s.made + 1 ≤ n := hn
      have hl := I.late n (by omega)
      refine ⟨?_, hl.2.1, hl.2.2.1, hl.2.2.2.1, hl.2.2.2.2.1, fun u => ?_⟩
      · show upd s.linked s.made true n = false
        rw [upd_other _ _ (by omega)]; exact hl.1
      · cases hk : upd s.know t (upd (s.know t) s.made true) u n with
        | false => exact hk
        | true =>
          rcases hkn u n hk with h1 | ⟨-, h1⟩
          · rw [hl.2.2.2.2.2 u] at h1; cases h1
          · omega
    · have hn : s.freed n = true := hn
      have he : n ≠ s.made := fun e => by rw [e, hm.2.1] at hn; cases hn
      show upd s.linked s.made true n = false ∧ _
      rw [upd_other _ _ he]; exact I.free n hn
    · show s.pin u = true ∧ (upd s.linked s.made true n = true ∨ s.keep n u = true)
      by_cases e : n = s.made
      · rw [e, upd_same]
        rcases hkn u n hk with h1 | ⟨h1, -⟩
        · exact ⟨(I.know u n h1).1, .inl rfl⟩
        · rw [h1]; exact ⟨h, .inl rfl⟩
      · rw [upd_other _ _ e]
        rcases hkn u n hk with h1 | ⟨-, h1⟩
        · exact I.know u n h1
        · exact absurd h1 e
    · have := I.held u n hu
      show upd s.know t _ u n = true
      by_cases e : u = t
      · rw [e] at this ⊢
        rw [upd_same]
        by_cases e' : n = s.made
        · rw [e', upd_same]
        · rw [upd_other _ _ e']; exact this
      · rw [upd_other _ _ e]; exact this
  | load t n h hl =>
    have hn : n < s.made := by
      by_cases hn : n < s.made
      · exact hn
      · rw [(I.late n (by omega)).1] at hl; cases hl
    have hkn : ∀ u m, upd s.know t (upd (s.know t) n true) u m = true → s.know u m = true ∨ (u = t ∧ m = n) := by
      intro u m hk
      by_cases e : u = t
      · rw [e, upd_same] at hk
        by_cases e' : m = n
        · exact .inr ⟨e, e'⟩
        · rw [upd_other _ _ e'] at hk; rw [e]; exact .inl hk
      · rw [upd_other _ _ e] at hk; exact .inl hk
    refine ⟨fun m hm => ?_, I.free, fun u m hk => ?_, fun u m hu => ?_, I.wait⟩
    · have hl := I.late m hm
      refine ⟨hl.1, hl.2.1, hl.2.2.1, hl.2.2.2.1, hl.2.2.2.2.1, fun u => ?_⟩
      cases hk : upd s.know t (upd (s.know t) n true) u m with
      | false => exact hk
      | true =>
        have hm : s.made ≤ m := hm
        rcases hkn u m hk with h1 | ⟨-, h1⟩
        · rw [hl.2.2.2.2.2 u] at h1; cases h1
        · omega
    · rcases hkn u m hk with h1 | ⟨h1, h2⟩
      · exact I.know u m h1
      · rw [h1, h2]; exact ⟨h, .inl hl⟩
    · have := I.held u m hu
      show upd s.know t _ u m = true
      by_cases e : u = t
      · rw [e] at this ⊢
        rw [upd_same]
        by_cases e' : m = n
        · rw [e', upd_same]
        · rw [upd_other _ _ e']; exact this
      · rw [upd_other _ _ e]; exact this
  | lock t n hk h hp =>
    refine ⟨fun m hm => ?_, I.free, I.know, fun u m hu => ?_, fun u m hu => ?_⟩
    · have hl := I.late m hm
      have hm : s.made ≤ m := hm
      have := below t n hk
      refine ⟨hl.1, hl.2.1, ?_, hl.2.2.2⟩
      show upd s.lk n (some t) m = none
      rw [upd_other _ _ (by omega)]; exact hl.2.2.1
    · have hu : upd s.lk n (some t) m = some u := hu
      by_cases e : m = n
      · rw [e, upd_same] at hu; cases hu; rw [e]; exact hk
      · rw [upd_other _ _ e] at hu; exact I.held u m hu
    · show upd s.lk n (some t) m ≠ none
      by_cases e : m = n
      · rw [e, upd_same]; exact fun h => by cases h
      · rw [upd_other _ _ e]; exact I.wait u m hu
  | unlock t n h =>
    refine ⟨fun m hm => ?_, I.free, I.know, fun u m hu => ?_, fun u m hu => ?_⟩
    · have hl := I.late m hm
      refine ⟨hl.1, hl.2.1, ?_, hl.2.2.2⟩
      show upd s.lk n none m = none
      by_cases e : m = n
      · rw [e, upd_same]
      · rw [upd_other _ _ e]; exact hl.2.2.1
    · have hu : upd s.lk n none m = some u := hu
      by_cases e : m = n
      · rw [e, upd_same] at hu; cases hu
      · rw [upd_other _ _ e] at hu; exact I.held u m hu
    · have h1 := wake_some hu
      show upd s.lk n none m ≠ none
      rw [upd_other _ _ h1.2]; exact I.wait u m h1.1
  | retired t n h =>
    have hn := below t n (I.held t n h)
    refine ⟨fun m hm => ?_, I.free, I.know, fun u m hu => ?_, fun u m hu => ?_⟩
    · have hl := I.late m hm
      have hm : s.made ≤ m := hm
      refine ⟨hl.1, hl.2.1, ?_, ?_, hl.2.2.2.2⟩
      · show upd s.lk n none m = none
        rw [upd_other _ _ (by omega)]; exact hl.2.2.1
      · show upd s.poison n true m = false
        rw [upd_other _ _ (by omega)]; exact hl.2.2.2.1
    · have hu : upd s.lk n none m = some u := hu
      by_cases e : m = n
      · rw [e, upd_same] at hu; cases hu
      · rw [upd_other _ _ e] at hu; exact I.held u m hu
    · have h1 := wake_some hu
      show upd s.lk n none m ≠ none
      rw [upd_other _ _ h1.2]; exact I.wait u m h1.1
  | register t n u hk hw h =>
    refine ⟨I.late, I.free, I.know, I.held, fun t' m hu => ?_⟩
    have hu : upd s.wait t (some n) t' = some m := hu
    by_cases e : t' = t
    · rw [e, upd_same] at hu; cases hu
      show s.lk n ≠ none
      rw [h]; exact fun h => by cases h
    · rw [upd_other _ _ e] at hu; exact I.wait t' m hu
  | unlink n h =>
    have hn : n < s.made := by
      by_cases hn : n < s.made
      · exact hn
      · rw [(I.late n (by omega)).1] at h; cases h
    refine ⟨fun m hm => ?_, fun m hm => ?_, fun u m hk => ⟨(I.know u m hk).1, ?_⟩, I.held, I.wait⟩
    · have hl := I.late m hm
      have hm : s.made ≤ m := hm
      refine ⟨?_, hl.2.1, hl.2.2.1, hl.2.2.2.1, ?_, hl.2.2.2.2.2⟩
      · show upd s.linked n false m = false
        rw [upd_other _ _ (by omega)]; exact hl.1
      · show ∀ t, upd s.keep n s.pin m t = false
        rw [upd_other _ _ (by omega)]; exact hl.2.2.2.2.1
    · have hf := I.free m hm
      have e : m ≠ n := fun e => by rw [e, h] at hf; cases hf.1
      show upd s.linked n false m = false ∧ ∀ t, upd s.keep n s.pin m t = false
      rw [upd_other _ _ e, upd_other _ _ e]; exact hf
    · show upd s.linked n false m = true ∨ upd s.keep n s.pin m u = true
      by_cases e : m = n
      · rw [e, upd_same]; rw [upd_same]; exact .inr (I.know u m hk).1
      · rw [upd_other _ _ e, upd_other _ _ e]; exact (I.know u m hk).2
  | unpin t h hl =>
    have hkn : ∀ u n, upd s.know t (fun _ => false) u n = true → s.know u n = true ∧ u ≠ t := by
      intro u n hk
      by_cases e : u = t
      · rw [e, upd_same] at hk; cases hk
      · rw [upd_other _ _ e] at hk; exact ⟨hk, e⟩
    have hkp : ∀ n u, s.keep n u = false → upd (s.keep n) t false u = false := by
      intro n u hk
      by_cases e : u = t
      · rw [e, upd_same]
      · rw [upd_other _ _ e]; exact hk
    refine ⟨fun n hn => ?_, fun n hn => ⟨(I.free n hn).1, fun u => hkp n u ((I.free n hn).2 u)⟩, fun u n hk => ?_, fun u n hu => ?_, I.wait⟩
    · have hm := I.late n hn
      refine ⟨hm.1, hm.2.1, hm.2.2.1, hm.2.2.2.1, fun u => hkp n u (hm.2.2.2.2.1 u), fun u => ?_⟩
      show upd s.know t (fun _ => false) u n = false
      by_cases e : u = t
      · rw [e, upd_same]
      · rw [upd_other _ _ e]; exact hm.2.2.2.2.2 u
    · have h1 := hkn u n hk
      have h2 := I.know u n h1.1
      show upd s.pin t false u = true ∧ (s.linked n = true ∨ upd (s.keep n) t false u = true)
      rw [upd_other _ _ h1.2, upd_other _ _ h1.2]; exact h2
    · have e : u ≠ t := fun e => hl n (e ▸ hu)
      show upd s.know t (fun _ => false) u n = true
      rw [upd_other _ _ e]; exact I.held u n hu
  | free n hm h hk =>
    refine ⟨fun m hm' => ?_, fun m hf => ?_, I.know, I.held, I.wait⟩
    · have hl := I.late m hm'
      have hm' : s.made ≤ m := hm'
      refine ⟨hl.1, ?_, hl.2.2⟩
      show upd s.freed n true m = false
      rw [upd_other _ _ (by omega)]; exact hl.2.1
    · have hf : upd s.freed n true m = true := hf
      by_cases e : m = n
      · rw [e]; exact ⟨h, hk⟩
      · rw [upd_other _ _ e] at hf; exact I.free m hf
  | cancel t n h =>
    refine ⟨I.late, I.free, I.know, I.held, fun u m hu => ?_⟩
    have hu : upd s.wait t none u = some m := hu
    by_cases e : u = t
    · rw [e, upd_same] at hu; cases hu
    · rw [upd_other _ _ e] at hu; exact I.wait u m hu

theorem inv {s : St} (h : Reach s) : Inv s := by
  induction h with
  | init => exact inv_init
  | step _ st ih => exact ih.step st

theorem Inv.alive {s : St} (I : Inv s) {t n : Nat} (h : s.know t n = true) : s.freed n = false := by
  cases hf : s.freed n with
  | false => rfl
  | true =>
    have h1 := I.free n hf
    rcases (I.know t n h).2 with h2 | h2
    · rw [h1.1] at h2; cases h2
    · rw [h1.2 t] at h2; cases h2

/-- C69. The lock in whose queue the entry of a suspended call is lies in memory that has not been returned, and somebody holds it, who has a guard. -/
theorem c69_queue {s : St} (h : Reach s) {t n : Nat} (hw : s.wait t = some n) : s.freed n = false ∧ ∃ u, s.lk n = some u ∧ s.pin u = true := by
  have I := inv h
  cases hl : s.lk n with
  | none => exact absurd hl (I.wait t n hw)
  | some u =>
    have hk := I.held u n hl
    exact ⟨I.alive hk, u, rfl, (I.know u n hk).1⟩

/-- C69. No lock is taken, released, waited for, and no queue is changed, in memory that has been returned. -/
theorem c69_touch {s s' : St} (h : Reach s) (st : Step s s') {n : Nat} (hn : Touch st n) : s.freed n = false := by
  have I := inv h
  cases hn with
  | @lock t _ hk _ _ => exact I.alive hk
  | @unlock t _ h' => exact I.alive (I.held t n h')
  | @retired t _ h' => exact I.alive (I.held t n h')
  | @register t _ u hk _ _ => exact I.alive hk
  | @cancel t _ h' => exact (c69_queue h h').1

/-- A task waits for a node that is unlinked meanwhile; it has no guard, and the one who holds the lock is the reason why the memory is kept. When the lock is
released, the task is woken; then the memory is returned. -/
theorem run_wait : ∃ s s', Reach s ∧ s.wait 1 = some 0 ∧ s.pin 1 = false ∧ s.linked 0 = false ∧ Reach s' ∧ s'.wait 1 = none ∧ s'.freed 0 = true := by
  have h := Reach.init
  replace h := h.step (.guard 0 rfl rfl)
  replace h := h.step (.make 0 rfl)
  replace h := h.step (.guard 1 rfl rfl)
  replace h := h.step (.load 1 0 rfl rfl)
  replace h := h.step (.lock 0 0 rfl rfl rfl)
  replace h := h.step (.register 1 0 0 rfl rfl rfl)
  replace h := h.step (.unpin 1 rfl (fun n hn => by
    by_cases e : n = 0
    · rw [e] at hn; cases hn
    · have hn : upd (fun _ => none) 0 (some 0) n = some 1 := hn
      rw [upd_other _ _ e] at hn; cases hn))
  replace h := h.step (.unlink 0 rfl)
  have h1 := h
  replace h := h.step (.retired 0 0 rfl)
  replace h := h.step (.unpin 0 rfl (fun n hn => by
    by_cases e : n = 0
    · rw [e] at hn; cases hn
    · have hn : upd (upd (fun _ => none) 0 (some 0)) 0 none n = some 0 := hn
      rw [upd_other _ _ e, upd_other _ _ e] at hn; cases hn))
  replace h := h.step (.free 0 (by decide) rfl (fun t => by
    show upd (upd (fun _ _ => false) 0 _ 0) 0 false t = false
    by_cases e : t = 0
    · rw [e, upd_same]
    · rw [upd_other _ _ e, upd_same]
      show upd (upd (upd (fun _ => false) 0 true) 1 true) 1 false t = false
      by_cases e' : t = 1
      · rw [e', upd_same]
      · rw [upd_other _ _ e', upd_other _ _ e', upd_other _ _ e]))
  exact ⟨_, _, h1, rfl, rfl, rfl, h, rfl, rfl⟩

end Scc.Perch
