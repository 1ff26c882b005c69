import Verif.Table.Progress

/-!
# Every operation can be completed

From every reachable state without leaked locks, the threads can finish what they are doing by steps of
their own, without starting anything new and without dropping a future.
-/

namespace Scc.Table

open Scc.Index (bucketIndex fromIndexToRange InRange)

variable {K V R : Type} {hash : K → Nat}

/-- Events of dropping a future. -/
def Event.isCancel : Event K V R → Prop
  | .cancel _ | .tvCancel _ | .helpCancel _ => True
  | _ => False

/-- Only dropping a future leaks locks. -/
theorem noLeak_step [DecidableEq K] {s s' : St K V R} {e : Option (Event K V R)}
    (hn : NoLeak s) (st : Step hash s e s') (he : ∀ x, e = some x → ¬ x.isCancel) : NoLeak s' := by
  intro x i
  have acquire : ∀ {t : Nat} {q : PC K V R} {y j : Nat} {m : Option Lock}, m ≠ some .leaked →
      (((s.setLock y j m).setPc t q).b x i).lock ≠ some .leaked := by
    intro t q y j m hm
    rw [setPc_b, setLock_lock]
    split
    · exact hm
    · exact hn x i
  have many : ∀ {t : Nat} {q : PC K V R} {y lo hi : Nat} {m : Option Lock}, m ≠ some .leaked →
      (((s.setLocks y lo hi m).setPc t q).b x i).lock ≠ some .leaked := by
    intro t q y lo hi m hm
    rw [setPc_b, setLocks_lock]
    split
    · exact hm
    · exact hn x i
  have kill : ∀ {t : Nat} {q : PC K V R} {y j : Nat},
      (((s.killBkt y j).setPc t q).b x i).lock ≠ some .leaked := by
    intro t q y j
    rw [setPc_b, killBkt_lock]
    split
    · simp
    · exact hn x i
  have newArr : ∀ {t lg : Nat} {m : Option Nat} {q : PC K V R},
      ((({ s.setArr s.next (Arr.new lg m) with
        next := s.next + 1, cur := some s.next } : St K V R).setPc t q).b x i).lock ≠ some .leaked := by
    intro t lg m q
    rw [setPc_b]
    unfold St.b St.setArr
    simp only
    split
    · simp [Arr.new, Bkt.empty]
    · exact hn x i
  cases st with
  | alloc => exact newArr
  | rzSwap => exact newArr
  | dedupLock => exact acquire (by simp)
  | lock => exact acquire (by simp)
  | helpLock => exact acquire (by simp)
  | rlTarget => exact acquire (by simp)
  | rzDropLock => exact acquire (by simp)
  | rlBegin => exact acquire (by simp)
  | unlock => exact acquire (by simp)
  | critPanic => exact acquire (by simp)
  | rlBack => exact acquire (by simp)
  | tvUnlock => exact acquire (by simp)
  | rlEmpty => exact kill
  | rlKill => exact kill
  | rzKillOne => exact kill
  | rlUnlock => exact many (by simp)
  | rzDropFail => exact many (by simp)
  | @rzDropSwap t a j hpc hi => exact many (t := t) (q := .rzKill a 0) (by simp)
  | commitEvict => rw [setPc_b, modBkt_b]; split <;> exact hn x i
  | commit => rw [setPc_b, modBkt_b]; split <;> exact hn x i
  | visit => rw [setPc_b, modBkt_b]; split <;> exact hn x i
  | rlMove =>
    rw [modBkt_b, modBkt_b]
    have e : ∀ (b : Bkt K V) k (w : Option V), (Bkt.set k w b).lock = b.lock := fun _ _ _ => rfl
    split
    · rw [e]; split <;> exact hn x i
    · split <;> exact hn x i
  | tvPanic =>
    rw [setPc_b, setLock_lock]
    split
    · simp
    · rw [modBkt_b]; split <;> exact hn x i
  | rlAbort =>
    rw [setPc_b, setLock_lock, setLocks_lock]
    split
    · simp
    · split
      · simp
      · exact hn x i
  | rlPanic =>
    rw [setPc_b, setLock_lock, setLocks_lock]
    split
    · simp
    · split
      · simp
      · exact hn x i
  | rlPanicHelp =>
    rw [setPc_b, setLock_lock, setLocks_lock]
    split
    · simp
    · split
      · simp
      · exact hn x i
  | @rlLeak t g a o j n hpc =>
    exfalso
    refine he _ rfl ?_
    cases g <;> trivial
  | rlLeakHelp => exact (he _ rfl trivial).elim
  | rehash =>
    unfold St.b St.setArr
    simp only
    split
    · rename_i h; subst h; exact hn _ i
    · exact hn x i
  | detach =>
    unfold St.b St.setArr
    simp only
    split
    · rename_i h; subst h; exact hn _ i
    · split
      · rename_i h; subst h; exact hn _ i
      · exact hn x i
  | _ => exact hn x i

/-- Executions in which no future is dropped have no leaked locks. -/
theorem noLeak_exec [DecidableEq K] {s s' : St K V R} {es : List (Event K V R)} (h : NoLeak s)
    (ex : Exec hash s es s') (he : ∀ x, x ∈ es → ¬ x.isCancel) : NoLeak s' := by
  induction ex with
  | nil => exact h
  | tau _ st ih => exact noLeak_step (ih he) st (by simp)
  | event _ st ih =>
    refine noLeak_step (ih (fun x hx => he x (by simp [hx]))) st ?_
    intro x hx; cases hx; exact he _ (by simp)

theorem noLeak_start {s : St K V R} (h : Init s) : NoLeak s := by
  cases h <;> intro x i <;> simp [St.b, St.init, St.initWith, Arr.new, Bkt.empty]

/-! ## Finiteness -/

/-- A finite partial function. -/
def Finite (c : K → Option V) : Prop := ∃ l : List K, ∀ k, c k ≠ none → k ∈ l

/-- Buckets have finitely many entries and finitely many threads are active. -/
structure Fin (s : St K V R) : Prop where
  content : ∀ x i, Finite (s.b x i).content
  active : ∃ N, ∀ t, N ≤ t → s.pc t = .idle

theorem Finite.set [DecidableEq K] {b : Bkt K V} (h : Finite b.content) (k : K) (v : Option V) :
    Finite (Bkt.set k v b).content := by
  obtain ⟨l, hl⟩ := h
  refine ⟨k :: l, fun k' hk' => ?_⟩
  by_cases e : k' = k
  · subst e; simp
  · have : (Bkt.set k v b).content k' = b.content k' := if_neg e
    rw [this] at hk'
    exact List.mem_cons_of_mem _ (hl k' hk')

theorem fin_content [DecidableEq K] {s s' : St K V R} {e : Option (Event K V R)} (h : ∀ x i, Finite (s.b x i).content)
    (st : Step hash s e s') : ∀ x i, Finite (s'.b x i).content := by
  intro x i
  have h := h x i
  have newArr : ∀ {t lg : Nat} {m : Option Nat} {q : PC K V R},
      Finite ((({ s.setArr s.next (Arr.new lg m) with
        next := s.next + 1, cur := some s.next } : St K V R).setPc t q).b x i).content := by
    intro t lg m q
    rw [setPc_b]
    unfold St.b St.setArr
    simp only
    split
    · exact ⟨[], fun k hk => absurd rfl hk⟩
    · exact h
  cases st with
  | alloc => exact newArr
  | rzSwap => exact newArr
  | dedupLock => rw [setPc_b, setLock_content]; exact h
  | lock => rw [setPc_b, setLock_content]; exact h
  | helpLock => rw [setPc_b, setLock_content]; exact h
  | rlTarget => rw [setPc_b, setLock_content]; exact h
  | rzDropLock => rw [setPc_b, setLock_content]; exact h
  | rlBegin => rw [setPc_b, setLock_content]; exact h
  | unlock => rw [setPc_b, setLock_content]; exact h
  | critPanic => rw [setPc_b, setLock_content]; exact h
  | rlBack => rw [setPc_b, setLock_content]; exact h
  | tvUnlock => rw [setPc_b, setLock_content]; exact h
  | rlEmpty => rw [setPc_b, killBkt_content]; exact h
  | rlKill => rw [setPc_b, killBkt_content]; exact h
  | rzKillOne => rw [setPc_b, killBkt_content]; exact h
  | rlUnlock => rw [setPc_b, setLocks_content]; exact h
  | rzDropFail => rw [setPc_b, setLocks_content]; exact h
  | @rzDropSwap t a j hpc hi =>
    have : (({ s.setLocks a 0 j (some (.kill t)) with cur := none } : St K V R).setPc t
        (.rzKill a 0)).b = (s.setLocks a 0 j (some (.kill t))).b := rfl
    rw [this, setLocks_content]; exact h
  | commitEvict =>
    rw [setPc_b, modBkt_b]; split
    · exact (h.set _ _).set _ _
    · exact h
  | commit =>
    rw [setPc_b, modBkt_b]; split
    · exact h.set _ _
    · exact h
  | visit =>
    rw [setPc_b, modBkt_b]; split
    · obtain ⟨l, hl⟩ := h
      refine ⟨l, fun k hk => hl k ?_⟩
      intro e
      exact hk (by simp [e])
    · exact h
  | rlMove =>
    rw [modBkt_b, modBkt_b]
    split
    · refine Finite.set ?_ _ _
      split
      · exact h.set _ _
      · exact h
    · split
      · exact h.set _ _
      · exact h
  | tvPanic =>
    rw [setPc_b, setLock_content, modBkt_b]; split
    · obtain ⟨l, hl⟩ := h
      refine ⟨l, fun k hk => hl k ?_⟩
      intro e
      exact hk (by simp [Bkt.partly, e])
    · exact h
  | rlAbort => rw [setPc_b, setLock_content, setLocks_content]; exact h
  | rlPanic => rw [setPc_b, setLock_content, setLocks_content]; exact h
  | rlPanicHelp => rw [setPc_b, setLock_content, setLocks_content]; exact h
  | rlLeak => rw [setPc_b, setLock_content, setLocks_content]; exact h
  | rlLeakHelp => rw [setPc_b, setLock_content, setLocks_content]; exact h
  | rehash =>
    unfold St.b St.setArr
    simp only
    split
    · rename_i e; subst e; exact h
    · exact h
  | detach =>
    unfold St.b St.setArr
    simp only
    split
    · rename_i e; subst e; exact h
    · split
      · rename_i e; subst e; exact h
      · exact h
  | _ => exact h

/-- A step changes the program counter of at most one thread. -/
theorem step_one [DecidableEq K] {s s' : St K V R} {e : Option (Event K V R)} (st : Step hash s e s') :
    ∃ t, ∀ u, u ≠ t → s'.pc u = s.pc u := by
  cases st with
  | rehash => exact ⟨0, fun _ _ => rfl⟩
  | detach => exact ⟨0, fun _ _ => rfl⟩
  | rlMove => exact ⟨0, fun _ _ => rfl⟩
  | _ => exact ⟨_, fun u hu => setPc_other _ _ u _ hu⟩

theorem fin_step [DecidableEq K] {s s' : St K V R} {e : Option (Event K V R)} (h : Fin s)
    (st : Step hash s e s') : Fin s' := by
  refine ⟨fin_content h.content st, ?_⟩
  obtain ⟨N, hN⟩ := h.active
  obtain ⟨t, ht⟩ := step_one st
  refine ⟨max N (t + 1), fun u hu => ?_⟩
  rw [ht u (by omega), hN u (by omega)]

theorem fin_exec [DecidableEq K] {s s' : St K V R} {es : List (Event K V R)} (h : Fin s)
    (ex : Exec hash s es s') : Fin s' := by
  induction ex with
  | nil => exact h
  | tau _ st ih => exact fin_step ih st
  | event _ st ih => exact fin_step ih st

theorem fin_start {s : St K V R} (h : Init s) : Fin s := by
  cases h <;> exact ⟨fun x i => ⟨[], fun k hk => absurd rfl hk⟩, ⟨0, fun _ _ => rfl⟩⟩

/-! ## Completing -/

theorem Exec.trans [DecidableEq K] {s s' s'' : St K V R} {es es' : List (Event K V R)}
    (h : Exec hash s es s') (h' : Exec hash s' es' s'') : Exec hash s (es ++ es') s'' := by
  induction h' with
  | nil => rw [List.append_nil]; exact h
  | tau _ st ih => exact .tau ih st
  | event _ st ih => rw [← List.append_assoc]; exact .event ih st

/-- A list of returns. -/
def Returns (es : List (Event K V R)) : Prop :=
  ∀ e, e ∈ es → (∃ t r, e = .ret t r) ∨ ∃ t x, e = .tvRet t x

theorem Returns.not_cancel {es : List (Event K V R)} (h : Returns es) :
    ∀ x, x ∈ es → ¬ x.isCancel := by
  intro x hx
  rcases h x hx with ⟨t, r, rfl⟩ | ⟨t, y, rfl⟩ <;> exact id

/-- What the completion argument needs at every state. -/
structure Good (hash : K → Nat) (s : St K V R) : Prop where
  inv : Inv hash s
  locks : LockInv hash s
  noLeak : NoLeak s
  fin : Fin s

theorem good_exec [DecidableEq K] (hh : ∀ k, hash k < 2 ^ 64) {s s' : St K V R}
    {es : List (Event K V R)} (h : Good hash s) (ex : Exec hash s es s')
    (he : ∀ x, x ∈ es → ¬ x.isCancel) : Good hash s' := by
  refine ⟨inv_exec hh h.inv ex, ?_, noLeak_exec h.noLeak ex he, fin_exec h.fin ex⟩
  have : Inv hash s' ∧ LockInv hash s' := by
    induction ex with
    | nil => exact ⟨h.inv, h.locks⟩
    | tau _ st ih =>
      have ih := ih he
      exact ⟨inv_step hh ih.1 st, lockInv_step ih.1 ih.2 st⟩
    | event _ st ih =>
      have ih := ih (fun x hx => he x (by simp [hx]))
      exact ⟨inv_step hh ih.1 st, lockInv_step ih.1 ih.2 st⟩
  exact this.2

theorem good_start {s : St K V R} (h : Init s) : Good hash s :=
  ⟨inv_start h, lockInv_start h, noLeak_start h, fin_start h⟩

theorem Good.len {s : St K V R} (h : Good hash s) : ∀ x, x < s.next → s.len x < 2 ^ 57 + 2 := by
  intro x hx
  have := Nat.pow_le_pow_right (n := 2) (by omega) (h.inv.glob.lg_le x hx)
  unfold St.len; omega

/-- The total rank of the first `n` threads. -/
def total (f : Nat → Nat) : Nat → Nat
  | 0 => 0
  | n + 1 => total f n + f n

theorem total_le {f g : Nat → Nat} {n : Nat} (h : ∀ i, i < n → f i ≤ g i) : total f n ≤ total g n := by
  induction n with
  | zero => exact Nat.le_refl _
  | succ n ih =>
    unfold total
    have := ih (fun i hi => h i (by omega))
    have := h n (by omega)
    omega

theorem total_lt {f g : Nat → Nat} {n t : Nat} (ht : t < n) (h : ∀ i, f i ≤ g i) (hl : f t < g t) :
    total f n < total g n := by
  induction n with
  | zero => omega
  | succ n ih =>
    unfold total
    by_cases e : t = n
    · subst e
      have := total_le (n := t) (fun i _ => h i)
      omega
    · have := ih (by omega)
      have := h n
      omega

section
variable {M : Nat}

/-- Moving all entries out of a bucket. -/
theorem move_all [DecidableEq K] (hh : ∀ k, hash k < 2 ^ 64) (n : Nat) :
    ∀ {s : St K V R} {t a o j : Nat} {c : Cont K V R}, Good hash s → s.pc t = .rlMove c a o j →
    (∃ l : List K, l.length = n ∧ ∀ k, (s.b o j).content k ≠ none → k ∈ l) →
    ∃ s', Exec hash s [] s' ∧ s'.pc = s.pc ∧ (s'.b o j).isEmpty ∧ s'.rank M = s.rank M := by
  induction n with
  | zero =>
    intro s t a o j c _ _ hl
    obtain ⟨l, hl, hk⟩ := hl
    refine ⟨s, .nil, rfl, fun k => ?_, rfl⟩
    apply Classical.byContradiction
    intro h
    have := hk k h
    rw [List.length_eq_zero_iff.mp hl] at this
    cases this
  | succ n ih =>
    intro s t a o j c hg hpc hl
    by_cases he : (s.b o j).isEmpty
    · exact ⟨s, .nil, rfl, he, rfl⟩
    obtain ⟨k, hk⟩ := Classical.not_forall.mp he
    obtain ⟨v, hv⟩ := Option.ne_none_iff_exists'.mp hk
    have st := Step.rlMove (hash := hash) hpc hv
    have ex : Exec hash s [] _ := .tau .nil st
    have hG := hg.inv.glob
    have hp := hg.inv.pc t
    rw [hpc] at hp
    have hlk := hp.2.1
    have hne : a ≠ o := by have := hG.linked_pred a o (hG.linked_lt _ _ hlk) hlk; omega
    obtain ⟨l, hl, hlk⟩ := hl
    obtain ⟨s', ex', hpc', he', hrk⟩ := ih (good_exec hh hg ex (by simp)) hpc
      ⟨l.erase k, by rw [List.length_erase_of_mem (hlk k hk), hl]; rfl, by
        intro k' hk'
        rw [modBkt_b, if_neg (by omega), modBkt_b, if_pos ⟨rfl, rfl⟩] at hk'
        have e : (Bkt.set k none (s.b o j)).content k' =
          if k' = k then none else (s.b o j).content k' := rfl
        rw [e] at hk'
        by_cases e : k' = k
        · rw [if_pos e] at hk'; exact absurd rfl hk'
        · rw [if_neg e] at hk'
          exact (List.mem_erase_of_ne e).mpr (hlk k' hk')⟩
    refine ⟨s', ex.trans ex', hpc'.trans rfl, he', hrk.trans ?_⟩
    have e1 : ((s.modBkt o j (Bkt.set k none)).modBkt a (target hash s a o j k)
        (Bkt.set k (some v))).len = s.len := by funext y; unfold St.len; simp
    have e2 : ((s.modBkt o j (Bkt.set k none)).modBkt a (target hash s a o j k)
        (Bkt.set k (some v))).alive = s.alive := by
      funext y
      unfold St.alive
      rw [e1]
      refine offs_congr (fun i _ => ?_)
      have e : ∀ (b : Bkt K V) (w : Option V), (Bkt.set k w b).dead = b.dead := fun _ _ => rfl
      rw [modBkt_b, modBkt_b]
      split
      · rw [e]; split <;> simp [e]
      · split <;> simp [e]
    funext w
    unfold St.rank
    rw [e1, e2]
    rfl

end

/-- **Completion.** -/
theorem complete [DecidableEq K] (hh : ∀ k, hash k < 2 ^ 64) (N : Nat) (n : Nat) :
    ∀ {s : St K V R}, Good hash s → (∀ t, N ≤ t → s.pc t = .idle) →
    total (s.rank (2 ^ 57 + 2)) N = n →
    ∃ es s', Exec hash s es s' ∧ Returns es ∧ ∀ t, s'.pc t = .idle := by
  induction n using Nat.strongRecOn with
  | _ n ih =>
  intro s hg hN hn
  by_cases hall : ∀ t, s.pc t = .idle
  · exact ⟨[], s, .nil, by intro e he; (cases he), hall⟩
  obtain ⟨t, ht⟩ := Classical.not_forall.mp hall
  obtain ⟨u, hu, hw⟩ := wait_end hg.inv hg.locks hg.noLeak t
  have hub : s.pc u ≠ .idle := by
    rcases hu with rfl | hu | ⟨v, _, hu⟩
    · exact ht
    · exact waitsFor_busy hg.locks hu
    · exact waitsFor_busy hg.locks hu
  have huN : u < N := by
    apply Classical.byContradiction
    intro h
    exact hub (hN u (by omega))
  -- one advance
  have next : ∀ {s : St K V R}, Good hash s → (∀ t, N ≤ t → s.pc t = .idle) →
      total (s.rank (2 ^ 57 + 2)) N = n → ∀ {e s'}, Step hash s e s' → Ordinary u e →
      (∀ w, w ≠ u → s'.pc w = s.pc w ∧ s'.rank (2 ^ 57 + 2) w ≤ s.rank (2 ^ 57 + 2) w) →
      s'.rank (2 ^ 57 + 2) u < s.rank (2 ^ 57 + 2) u →
      ∃ es s', Exec hash s es s' ∧ Returns es ∧ ∀ t, s'.pc t = .idle := by
    intro s hg hN hn e s' st ho hoth hlt
    have hex : ∃ es, Exec hash s es s' ∧ Returns es := by
      rcases ho with rfl | ⟨r, rfl⟩ | ⟨x, rfl⟩
      · exact ⟨[], .tau .nil st, by intro e he; cases he⟩
      · exact ⟨[] ++ [_], .event .nil st, by intro e he; simp at he; subst he; exact Or.inl ⟨_, _, rfl⟩⟩
      · exact ⟨[] ++ [_], .event .nil st, by intro e he; simp at he; subst he; exact Or.inr ⟨_, _, rfl⟩⟩
    obtain ⟨es, ex, hr⟩ := hex
    have hg' := good_exec hh hg ex hr.not_cancel
    have hN' : ∀ t, N ≤ t → s'.pc t = .idle := by
      intro w hw'
      rw [(hoth w (by omega)).1]; exact hN w hw'
    have hlt' : total (s'.rank (2 ^ 57 + 2)) N < n := by
      rw [← hn]
      refine total_lt huN (fun i => ?_) hlt
      by_cases e : i = u
      · rw [e]; exact Nat.le_of_lt hlt
      · exact (hoth i e).2
    obtain ⟨es', s'', ex', hr', hall'⟩ := ih _ hlt' hg' hN' rfl
    refine ⟨es ++ es', s'', ex.trans ex', ?_, hall'⟩
    intro e he
    rcases List.mem_append.mp he with h | h
    · exact hr e h
    · exact hr' e h
  obtain ⟨e, s', st, ho, hoth, hadv⟩ := can_advance hh hg.inv (M := 2 ^ 57 + 2) (by omega) hg.len hub hw
  rcases hadv with hlt | ⟨_, c, a, o, j, k, hpc, _, _⟩
  · exact next hg hN hn st ho hoth hlt
  · -- move everything, then release
    obtain ⟨l, hl⟩ := hg.fin.content o j
    obtain ⟨s₁, ex₁, hpc₁, he₁, hrk₁⟩ := move_all (M := 2 ^ 57 + 2) hh l.length hg hpc ⟨l, rfl, hl⟩
    have hg₁ := good_exec hh hg ex₁ (by simp)
    obtain ⟨e, s', st, ho, hoth, hadv⟩ := can_advance hh hg₁.inv (M := 2 ^ 57 + 2) (by omega) hg₁.len
      (t := u) (by rw [hpc₁]; exact hub) (by
        intro x i h
        have h := h.2
        rw [hpc₁, hpc] at h
        exact h)
    rcases hadv with hlt | ⟨_, c', a', o', j', k', hpc', hk', _⟩
    · obtain ⟨es, s₂, ex₂, hr, hall⟩ := next hg₁ (by rw [hpc₁]; exact hN) (by rw [hrk₁]; exact hn) st
        ho hoth hlt
      exact ⟨[] ++ es, s₂, ex₁.trans ex₂, hr, hall⟩
    · rw [hpc₁, hpc] at hpc'
      cases hpc'
      exact absurd (he₁ k') hk'

end Scc.Table
