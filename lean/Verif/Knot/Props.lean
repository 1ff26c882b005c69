import Verif.Knot.Steps

/-! # C63: calls of the tree index never wait for each other in a circle -/

namespace Scc.Knot

/-- Thread `t` waits for a lock that thread `u` holds. -/
def Waits (s : State) (t u : Nat) : Prop := ∃ n held, s.pc t = .wait n held ∧ s.lock n = .held u

/-- `t` waits for a thread that waits for a thread … that waits for `u`. -/
inductive Waits' (s : State) : Nat → Nat → Prop
  | one {t u : Nat} : Waits s t u → Waits' s t u
  | more {t u v : Nat} : Waits s t u → Waits' s u v → Waits' s t v

/-- The nodes a call comes across. -/
inductive Below (s : State) : Nat → Prop
  | root {r : Nat} : s.root = some r → Below s r
  | kid {p d : Nat} : Below s p → d ∈ s.kids p → Below s d

section
variable {s : State}

/-- No thread waits for itself. -/
theorem c63_self (h : Reach s) (t : Nat) : ¬ Waits s t t := by
  rintro ⟨n, held, h1, h2⟩
  have I := h.inv
  have hm := I.held t n h2
  have hM := I.mow t
  rw [h1] at hm hM
  have hm : n ∈ held := hm
  rcases hM with e | hM
  · rw [e] at hm; cases hm
  · exact hM.2.1 hm

/-- If a thread holds locks while it waits, the one it waits for does not wait. -/
theorem not_wait (h : Reach s) {u v n m k : Nat} {hu hv : List Nat} (h1 : s.pc u = .wait n hu) (hm : m ∈ hu) (h2 : s.lock n = .held v) :
    s.pc v ≠ .wait k hv := by
  intro h3
  have I := h.inv
  have hn := I.held v n h2
  have hMu := I.mow u
  have hMv := I.mow v
  have hLu := I.livepc u
  have hLv := I.livepc v
  rw [h1] at hMu hLu
  rw [h3] at hMv hLv hn
  have hn : n ∈ hv := hn
  have hLu : ∀ n, n ∈ hu → s.live n = true := hLu
  have hLv : ∀ n, n ∈ hv → s.live n = true := hLv
  rcases hMu with e | ⟨_, _, hMu⟩
  · rw [e] at hm; cases hm
  rcases hMv with e | ⟨hMv, _⟩
  · rw [e] at hn; cases hn
  rcases hMu with e | ⟨p, a, b⟩
  · rw [e.1] at hm; cases hm
  rcases hMv n hn with hw | ⟨q, c, d⟩
  · exact I.was n p hw (hLu p a) b
  · have e := I.tree p q n (hLu p a) (hLv q c) b d
    subst e
    have x1 := I.mine u p (by rw [h1]; exact a)
    have x2 := I.mine v p (by rw [h3]; exact c)
    rw [x1] at x2
    injection x2 with x2
    subst x2
    exact c63_self h u ⟨n, hu, h1, h2⟩

/-- Chains of waiting threads are short: if `t` waits for `u` and `u` for `v`, then `v` does not wait. -/
theorem c63_chain (h : Reach s) {t u v n : Nat} {held : List Nat} (h1 : Waits s t u) (h2 : Waits s u v) : s.pc v ≠ .wait n held := by
  obtain ⟨m, ht, a, b⟩ := h1
  obtain ⟨k, hu, c, d⟩ := h2
  have hm := h.inv.held u m b
  rw [c] at hm
  exact not_wait h c hm d

/-- **C63.** Threads never wait for each other in a circle. -/
theorem c63_no_cycle (h : Reach s) (t : Nat) : ¬ Waits' s t t := by
  intro hc
  cases hc with
  | one h1 => exact c63_self h t h1
  | @more _ u _ h1 h2 =>
    have x1 := h1
    obtain ⟨_, _, hw, _⟩ := h1
    cases h2 with
    | one h2 => exact c63_chain h x1 h2 hw
    | @more _ v _ h2 h3 =>
      cases h3 with
      | one h3 => obtain ⟨_, _, hv, _⟩ := h3; exact c63_chain h x1 h2 hv
      | more h3 _ => obtain ⟨_, _, hv, _⟩ := h3; exact c63_chain h x1 h2 hv

/-- Between calls, and after them, a thread holds no lock. -/
theorem c63_holder (h : Reach s) {n t : Nat} (hl : s.lock n = .held t) : s.pc t ≠ .idle := by
  intro e
  have := h.inv.held t n hl
  rw [e] at this
  cases this

/-- The locks of the nodes a call comes across are not poisoned. -/
theorem c63_reachable (h : Reach s) {n : Nat} (hb : Below s n) : s.lock n ≠ .poison := by
  have I := h.inv
  have hl : s.live n = true := by
    induction hb with
    | root h => exact (I.root _ h).2
    | kid _ hd ih => exact I.kidlive _ _ ih hd
  intro e
  rw [I.pois n e] at hl
  cases hl

/-- The nodes form a tree. -/
theorem c63_tree (h : Reach s) {p q d : Nat} (hp : Below s p) (hq : Below s q) (h1 : d ∈ s.kids p) (h2 : d ∈ s.kids q) : p = q := by
  have I := h.inv
  have hl : ∀ n, Below s n → s.live n = true := by
    intro n hb
    induction hb with
    | root h => exact (I.root _ h).2
    | kid _ hd ih => exact I.kidlive _ _ ih hd
  exact I.tree p q d (hl p hp) (hl q hq) h1 h2

/-- A call that does not wait for another thread can go on. -/
theorem can_step (t : Nat) (hi : s.pc t ≠ .idle) (hw : ∀ u, ¬ Waits s t u) : ∃ s', Step s t s' := by
  cases e : s.pc t with
  | idle => exact absurd e hi
  | climb held => exact ⟨_, .growFail e⟩
  | join p held => exact ⟨_, .joinFail e⟩
  | fin ops a =>
    cases ops with
    | nil =>
      cases a with
      | none => exact ⟨_, .over e⟩
      | some n => exact ⟨_, .overWait e⟩
    | cons o ops =>
      cases o with
      | rel n => exact ⟨_, .rel e⟩
      | poi n => exact ⟨_, .poi e⟩
  | wait n held => exact ⟨_, .awake e (fun u h => hw u ⟨n, held, e, h⟩)⟩
  | mow held c up =>
    by_cases hf : s.lock c = .free
    · exact ⟨_, .mowTake e hf⟩
    · exact ⟨_, .mowBusy e hf⟩
  | cut held c up => exact ⟨_, .done e (List.Sublist.refl _)⟩
  | clean r => exact ⟨_, .cleanFail e⟩
  | coal p => exact ⟨_, .coalEnd e (List.Sublist.refl _)⟩

/-- **C63.** A call can go on, or waits, perhaps through one other thread, for one that can. -/
theorem c63_can_step (h : Reach s) (t : Nat) (hi : s.pc t ≠ .idle) :
    ∃ u, (u = t ∨ Waits' s t u) ∧ s.pc u ≠ .idle ∧ ∃ s', Step s u s' := by
  by_cases h1 : ∃ u, Waits s t u
  · obtain ⟨u, h1⟩ := h1
    by_cases h2 : ∃ v, Waits s u v
    · obtain ⟨v, h2⟩ := h2
      have hv : s.pc v ≠ .idle := by obtain ⟨_, _, _, h3⟩ := h2; exact c63_holder h h3
      refine ⟨v, .inr (.more h1 (.one h2)), hv, can_step v hv ?_⟩
      rintro w ⟨n, held, h3, _⟩
      exact c63_chain h h1 h2 h3
    · have hu : s.pc u ≠ .idle := by obtain ⟨_, _, _, h3⟩ := h1; exact c63_holder h h3
      exact ⟨u, .inr (.one h1), hu, can_step u hu (fun v hv => h2 ⟨v, hv⟩)⟩
  · exact ⟨t, .inl rfl, hi, can_step t hi (fun u hu => h1 ⟨u, hu⟩)⟩

end

/-! ## All attempts come to an end -/

/-- A step that does not begin a new attempt: one of a thread in a call. -/
def Goes (s s' : State) : Prop := ∃ t, s.pc t ≠ .idle ∧ Step s t s'

/-- How far a thread is. -/
def phase : Pc → Nat
  | .idle => 0
  | .fin _ none => 1
  | .wait _ _ => 2
  | .fin _ (some _) => 3
  | _ => 4

/-- Locks still to be released, and one for a node that has just been locked. -/
def load : Pc → Nat
  | .fin ops _ => 4 * ops.length
  | .join _ _ | .cut _ _ _ => 1
  | _ => 0

def sum (f : Nat → Nat) : Nat → Nat
  | 0 => 0
  | n + 1 => sum f n + f n

theorem sum_upd {f g : Nat → Nat} {t : Nat} (N : Nat) (ht : t < N) (h : ∀ u, u ≠ t → g u = f u) : sum g N + f t = sum f N + g t := by
  induction N with
  | zero => omega
  | succ N ih =>
    show sum g N + g N + f t = sum f N + f N + g t
    by_cases e : t = N
    · subst e
      have : ∀ M, M ≤ t → sum g M = sum f M := by
        intro M
        induction M with
        | zero => intro _; rfl
        | succ M ih =>
          intro hM
          show sum g M + g M = sum f M + f M
          rw [ih (by omega), h M (by omega)]
      rw [this t (Nat.le_refl _)]
      omega
    · have := ih (by omega)
      rw [h N (fun h => e h.symm)]
      omega

/-- The locks that can still be taken. -/
def frees (s : State) : Nat := sum (fun n => if s.lock n = .free then 1 else 0) s.next

def phases (s : State) (N : Nat) : Nat := sum (fun u => phase (s.pc u)) N
def loads (s : State) (N : Nat) : Nat := sum (fun u => load (s.pc u)) N

/-- Only the thread that takes the step moves. -/
theorem step_pc {s s' : State} {t u : Nat} (h : Step s t s') (hu : u ≠ t) : s'.pc u = s.pc u := by
  have oth : ∀ (z : State) (c : Pc), z.pc = s.pc → (z.go t c).pc u = s.pc u := by
    intro z c hz
    show upd z.pc t c u = _
    rw [upd_ne _ _ hu, hz]
  cases h with
  | clear | plant => rfl
  | _ => exact oth _ _ rfl

/-- Every step brings a thread to a later phase, or it has less to do there. -/
theorem goes_less {s s' : State} {t N : Nat} (I : Inv s) (ht : t < N) (hi : s.pc t ≠ .idle) (h : Step s t s') :
    phases s' N < phases s N ∨ (phases s' N = phases s N ∧ 3 * frees s' + loads s' N < 3 * frees s + loads s N) := by
  -- the phase changes
  have down : (∀ u, u ≠ t → s'.pc u = s.pc u) → phase (s'.pc t) < phase (s.pc t) → phases s' N < phases s N := by
    intro h1 h2
    have := sum_upd (f := fun u => phase (s.pc u)) (g := fun u => phase (s'.pc u)) N ht (fun u hu => by rw [h1 u hu])
    unfold phases
    omega
  -- the phase stays the same
  have same : (∀ u, u ≠ t → s'.pc u = s.pc u) → phase (s'.pc t) = phase (s.pc t) →
      3 * frees s' + load (s'.pc t) < 3 * frees s + load (s.pc t) →
      phases s' N = phases s N ∧ 3 * frees s' + loads s' N < 3 * frees s + loads s N := by
    intro h1 h2 h3
    have x := sum_upd (f := fun u => phase (s.pc u)) (g := fun u => phase (s'.pc u)) N ht (fun u hu => by rw [h1 u hu])
    have y := sum_upd (f := fun u => load (s.pc u)) (g := fun u => load (s'.pc u)) N ht (fun u hu => by rw [h1 u hu])
    unfold phases loads
    omega
  have oth : ∀ (z : State) (c : Pc), z.pc = s.pc → ∀ u, u ≠ t → (z.go t c).pc u = s.pc u := by
    intro z c hz u hu
    show upd z.pc t c u = _
    rw [upd_ne _ _ hu, hz]
  have at_t : ∀ (z : State) (c : Pc), (z.go t c).pc t = c := fun z c => upd_self _ _ _
  have lt4 : ∀ (ops : List Op) (a : Option Nat), phase (s.pc t) = 4 → s'.pc t = .fin ops a → phases s' N < phases s N := by
    intro ops a hp e
    refine down (fun u hu => step_pc h hu) ?_
    rw [e, hp]
    cases a with
    | none => show 1 < 4; omega
    | some a => show 3 < 4; omega
  -- a lock is taken
  have take : ∀ (m : Nat) (c : Pc), m < s.next → s.lock m = .free → frees ((s.take t m).go t c) + 1 = frees s := by
    intro m c hm hf
    have := sum_upd (f := fun n => if s.lock n = .free then 1 else 0) (g := fun n => if ((s.take t m).go t c).lock n = .free then 1 else 0) s.next hm (fun u hu => by
      show (if upd s.lock m (.held t) u = .free then 1 else 0) = _
      rw [upd_ne _ _ hu])
    have e1 : (if s.lock m = .free then 1 else 0) = 1 := if_pos hf
    have e2 : (if ((s.take t m).go t c).lock m = .free then 1 else 0) = 0 := by
      show (if upd s.lock m (.held t) m = .free then 1 else 0) = 0
      rw [upd_self]
      rfl
    have e3 : frees ((s.take t m).go t c) = sum (fun n => if ((s.take t m).go t c).lock n = .free then 1 else 0) s.next := rfl
    have e4 : frees s = sum (fun n => if s.lock n = .free then 1 else 0) s.next := rfl
    rw [e1, e2] at this
    omega
  -- … or released
  have drop : ∀ (m : Nat) (v : Lk) (c : Pc), m < s.next → frees (({ s with lock := upd s.lock m v } : State).go t c) ≤ frees s + 1 := by
    intro m v c hm
    have := sum_upd (f := fun n => if s.lock n = .free then 1 else 0) (g := fun n => if upd s.lock m v n = .free then 1 else 0) s.next hm (fun u hu => by rw [upd_ne _ _ hu])
    have e1 : (if upd s.lock m v m = .free then 1 else 0) ≤ 1 := by split <;> omega
    have e3 : frees (({ s with lock := upd s.lock m v } : State).go t c) = sum (fun n => if upd s.lock m v n = .free then 1 else 0) s.next := rfl
    have e4 : frees s = sum (fun n => if s.lock n = .free then 1 else 0) s.next := rfl
    omega
  have own : ∀ n, n ∈ owned (s.pc t) → n < s.next := fun n h => I.owned_lt h
  cases h with
  | clear hp => exact absurd hp hi
  | plant hp => exact absurd hp hi
  | ask hp => exact absurd hp hi
  | split hp => exact absurd hp hi
  | mow hp => exact absurd hp hi
  | clean hp => exact absurd hp hi
  | coal hp => exact absurd hp hi
  | quit hp => exact .inl (down (oth s _ rfl) (by rw [at_t, hp]; show 0 < 2; omega))
  | roomy hp => exact .inl (lt4 _ _ (by rw [hp]; rfl) (at_t _ _))
  | upBusy hp => exact .inl (lt4 _ _ (by rw [hp]; rfl) (at_t _ _))
  | joinFail hp => exact .inl (lt4 _ _ (by rw [hp]; rfl) (at_t _ _))
  | growFail hp => exact .inl (lt4 _ _ (by rw [hp]; rfl) (at_t _ _))
  | publish hp hx hg => exact .inl (lt4 _ _ (by rw [hp]; rfl) (at_t _ _))
  | grow hp hr hg => exact .inl (lt4 _ _ (by rw [hp]; rfl) (at_t _ _))
  | mowAway hp => exact .inl (lt4 _ _ (by rw [hp]; rfl) (at_t _ _))
  | done hp => exact .inl (lt4 _ _ (by rw [hp]; rfl) (at_t _ _))
  | cleanOne hp => exact .inl (lt4 _ _ (by rw [hp]; rfl) (at_t _ _))
  | cleanNone hp => exact .inl (lt4 _ _ (by rw [hp]; rfl) (at_t _ _))
  | cleanLeaf hp => exact .inl (lt4 _ _ (by rw [hp]; rfl) (at_t _ _))
  | cleanFail hp => exact .inl (lt4 _ _ (by rw [hp]; rfl) (at_t _ _))
  | coalEnd hp => exact .inl (lt4 _ _ (by rw [hp]; rfl) (at_t _ _))
  | over hp => exact .inl (down (oth s _ rfl) (by rw [at_t, hp]; show 0 < 1; omega))
  | overWait hp => exact .inl (down (oth s _ rfl) (by rw [at_t, hp]; show 2 < 3; omega))
  | awake hp => exact .inl (down (oth s _ rfl) (by rw [at_t, hp]; show 1 < 2; omega))
  | mowBusy hp => exact .inl (down (oth s _ rfl) (by rw [at_t, hp]; show 2 < 4; omega))
  | @up held p hp hlt hl hf =>
    have := take p (.join p held) hlt hf
    refine .inr (same (oth _ _ rfl) (by rw [at_t, hp]; rfl) ?_)
    rw [at_t, hp]
    show _ + 1 < _ + 0
    omega
  | @full x p sub hp hx =>
    refine .inr (same (oth _ _ rfl) (by rw [at_t, hp]; rfl) ?_)
    rw [at_t, hp]
    show 3 * frees s + 0 < 3 * frees s + 1
    omega
  | @mowTake held c up hp hf =>
    have hM := I.mow t
    rw [hp] at hM
    have hc : c < s.next := by
      rcases hM.2.1.2 with h | ⟨p, _, h⟩
      · exact I.was_lt h.2
      · exact I.kidlt p c h
    have := take c (.cut held c up) hc hf
    refine .inr (same (oth _ _ rfl) (by rw [at_t, hp]; rfl) ?_)
    rw [at_t, hp]
    show _ + 1 < _ + 0
    omega
  | down hp =>
    refine .inr (same (oth _ _ rfl) (by rw [at_t, hp]; rfl) ?_)
    rw [at_t, hp]
    show 3 * frees s + 0 < 3 * frees s + 1
    omega
  | fork hp =>
    refine .inr (same (oth _ _ rfl) (by rw [at_t, hp]; rfl) ?_)
    rw [at_t, hp]
    show 3 * frees s + 0 < 3 * frees s + 1
    omega
  | over2 hp =>
    refine .inr (same (oth _ _ rfl) (by rw [at_t, hp]; rfl) ?_)
    rw [at_t, hp]
    show 3 * frees s + 0 < 3 * frees s + 1
    omega
  | @rel n ops a hp =>
    have := drop n .free (.fin ops a) (own n (by rw [hp]; exact List.mem_cons_self))
    refine .inr (same (oth _ _ rfl) (by rw [at_t, hp]; cases a <;> rfl) ?_)
    rw [at_t, hp]
    show _ + 4 * ops.length < _ + 4 * (ops.length + 1)
    omega
  | @poi n ops a hp =>
    have := drop n .poison (.fin ops a) (own n (by rw [hp]; exact List.mem_cons_self))
    refine .inr (same (oth _ _ rfl) (by rw [at_t, hp]; cases a <;> rfl) ?_)
    rw [at_t, hp]
    show _ + 4 * ops.length < _ + 4 * (ops.length + 1)
    omega

/-- Only finitely many threads are in a call. -/
theorem Reach.finite {s : State} (h : Reach s) : ∃ N, ∀ u, N ≤ u → s.pc u = .idle := by
  induction h with
  | init => exact ⟨0, fun _ _ => rfl⟩
  | @step s s' t _ h ih =>
    obtain ⟨N, hN⟩ := ih
    refine ⟨max N (t + 1), fun u hu => ?_⟩
    rw [step_pc h (by omega)]
    exact hN u (by omega)

/-- **C63.** However threads are scheduled, all attempts come to an end if no new ones are begun: there is no endless execution. -/
theorem c63_end (f : Nat → State) (h0 : Reach (f 0)) : ¬ ∀ i, Goes (f i) (f (i + 1)) := by
  intro hf
  obtain ⟨N, hN⟩ := h0.finite
  have hR : ∀ i, Reach (f i) ∧ ∀ u, N ≤ u → (f i).pc u = .idle := by
    intro i
    induction i with
    | zero => exact ⟨h0, hN⟩
    | succ i ih =>
      obtain ⟨t, h1, h2⟩ := hf i
      refine ⟨.step ih.1 h2, fun u hu => ?_⟩
      rw [step_pc h2 (fun e => h1 (ih.2 t (e ▸ hu)))]
      exact ih.2 u hu
  have less : ∀ i, Prod.Lex (· < ·) (· < ·) (phases (f (i + 1)) N, 3 * frees (f (i + 1)) + loads (f (i + 1)) N) (phases (f i) N, 3 * frees (f i) + loads (f i) N) := by
    intro i
    obtain ⟨t, h1, h2⟩ := hf i
    have ht : t < N := Nat.lt_of_not_le (fun h => h1 ((hR i).2 t h))
    rcases goes_less (hR i).1.inv ht h1 h2 with h | ⟨h, h'⟩
    · exact .left _ _ h
    · rw [h]; exact .right _ h'
  have wf : WellFounded (Prod.Lex (α := Nat) (β := Nat) (· < ·) (· < ·)) := (Prod.lex ⟨_, Nat.lt_wfRel.wf⟩ ⟨_, Nat.lt_wfRel.wf⟩).wf
  have : ∀ x, ∀ i, (phases (f i) N, 3 * frees (f i) + loads (f i) N) = x → False := by
    intro x
    induction x using wf.induction with
    | _ x ih =>
      intro i hi
      subst hi
      exact ih _ (less i) (i + 1) rfl
  exact this _ 0 rfl

/-- Steps of threads in a call, one after another. -/
inductive Run : State → State → Prop
  | refl (s : State) : Run s s
  | step {s s' s'' : State} : Goes s s' → Run s' s'' → Run s s''

/-- **C63.** … and when nobody can take a step any more, all calls are over. -/
theorem c63_over {s : State} (h : Reach s) (hs : ∀ s', ¬ Goes s s') (t : Nat) : s.pc t = .idle := by
  apply Classical.byContradiction
  intro hi
  obtain ⟨u, _, h1, s', h2⟩ := c63_can_step h t hi
  exact hs s' ⟨u, h1, h2⟩

/-- All calls in progress can be completed. -/
theorem c63_complete {s : State} (h : Reach s) : ∃ s', Run s s' ∧ (∀ t, s'.pc t = .idle) ∧ ∀ n t, s'.lock n ≠ .held t := by
  apply Classical.byContradiction
  intro hno
  have hno : ∀ s', Run s s' → ∃ s'', Goes s' s'' := by
    intro s' hr
    apply Classical.byContradiction
    intro hg
    have hR : Reach s' := by
      clear hno hg
      induction hr with
      | refl => exact h
      | step hg _ ih => obtain ⟨t, _, hg⟩ := hg; exact ih (.step h hg)
    have hall := c63_over hR (fun s'' h => hg ⟨s'', h⟩)
    exact hno ⟨s', hr, hall, fun n t hl => c63_holder hR hl (hall t)⟩
  have snoc : ∀ a b c, Run a b → Goes b c → Run a c := by
    intro a b c h h'
    induction h with
    | refl => exact .step h' (.refl _)
    | step g _ ih => exact .step g (ih h')
  let next : {s' // Run s s'} → {s' // Run s s'} := fun x => ⟨Classical.choose (hno x.1 x.2), snoc _ _ _ x.2 (Classical.choose_spec (hno x.1 x.2))⟩
  let f : Nat → {s' // Run s s'} := fun i => Nat.rec ⟨s, .refl s⟩ (fun _ x => next x) i
  exact c63_end (fun i => (f i).1) h (fun i => Classical.choose_spec (hno (f i).1 (f i).2))

end Scc.Knot
