import Verif.Slot.Pairs

/-!
# C64: entries in leaves are never read before they are written, nor dropped twice, on weakly ordered machines

* `c64_exclusive`: while a thread is about to write a slot, no other thread is about to read or write it.
* `c64_write_known`, `c64_read_known`: a write happens after all earlier accesses to the slot, a read after all earlier writes to it: there
  are no data races.
* `c64_initialised`: a slot that is read has a pair in it.
* `c64_stable`: what a reference found in a slot refers to does not change while the leaf exists.
* `c64_own`: `insert` gives back the pair it was given.
* `c64_once`: when the leaf is dropped, all pairs there have been were given back or are dropped, each once.
-/

namespace Scc.Slot

/-- Thread `t` is about to write slot `i`. -/
def Writes (s : State) (t i : Nat) : Prop := ∃ p m, s.pc t = .wrt p i m

/-- Thread `t` may read slot `i` next. -/
inductive Reads (s : State) (t i : Nat) : Prop
  | ins {p m : Nat} : s.pc t = .ins p m → (s.word m).rank i = .here → Reads s t i
  | post {p j m : Nat} : s.pc t = .post p j m → (s.word m).rank i = .here → Reads s t i
  | own {p m : Nat} : s.pc t = .post p i m → Reads s t i
  | take {p : Nat} : s.pc t = .roll p i → Reads s t i
  | view {m : Nat} : s.pc t = .view m → (s.word m).rank i = .here → Reads s t i

theorem Reads.can {s : State} (h : Inv s) {t i : Nat} (hr : Reads s t i) : CanRead s t i := by
  cases hr with
  | @ins p m hpc hr => have := h.has t m (by rw [hpc]; rfl); exact .inr ⟨m, this.1, this.2, hr⟩
  | @post p j m hpc hr => have := h.has t m (by rw [hpc]; rfl); exact .inr ⟨m, this.1, this.2, hr⟩
  | own hpc => exact .inl (by rw [hpc]; rfl)
  | take hpc => exact .inl (by rw [hpc]; rfl)
  | @view m hpc hr => have := h.has t m (by rw [hpc]; rfl); exact .inr ⟨m, this.1, this.2, hr⟩

/-- While a thread is about to write a slot, no other thread may read or write it. -/
theorem c64_exclusive {k : Nat} {s : State} (h : Reach k s) {t u i : Nat} (hw : Writes s t i) (hu : u ≠ t) :
    ¬ Writes s u i ∧ ¬ Reads s u i := by
  have hi := inv_reach h
  obtain ⟨p, m, hpc⟩ := hw
  have ho : slot (s.pc t) = some i := by rw [hpc]; rfl
  refine ⟨fun ⟨p', m', hpc'⟩ => hu (hi.uniq u t i (by rw [hpc']; rfl) ho), fun hr => ?_⟩
  rcases hr.can hi with e | ⟨m', hm, _, e⟩
  · exact hu (hi.uniq u t i e ho)
  · exact hi.not_own hm e ho

/-- A write of a slot happens after all accesses to the slot. -/
theorem c64_write_known {k : Nat} {s : State} (h : Reach k s) {t i : Nat} (hw : Writes s t i) :
    (s.tv t).w i = s.wr i ∧ ∀ u, (s.tv t).r i u = s.rd i u := by
  have hi := inv_reach h
  obtain ⟨p, m, hpc⟩ := hw
  have hk := (hi.own t i (by rw [hpc]; rfl)).2.2
  exact ⟨Nat.le_antisymm ((hi.tvb t).1 i) hk.1, fun u => Nat.le_antisymm ((hi.tvb t).2 i u) (hk.2 u)⟩

/-- A read of a slot happens after all writes to it. -/
theorem c64_read_known {k : Nat} {s : State} (h : Reach k s) {t i : Nat} (hr : Reads s t i) : (s.tv t).w i = s.wr i := by
  have hi := inv_reach h
  refine Nat.le_antisymm ((hi.tvb t).1 i) ?_
  rcases hr.can hi with e | ⟨m, hm, hle, e⟩
  · exact (hi.own t i e).2.2.1
  · exact Nat.le_trans (hi.pub m i hm e).1 (hle.1 i)

theorem cell_pub {s : State} (h : Inv s) {m i : Nat} (hm : m ≤ s.n) (hr : (s.word m).rank i = .here) : s.cell i ≠ none :=
  h.full i (h.pub m i hm hr).2 (fun _ => h.not_own hm hr)

/-- A slot that is read has a pair in it. -/
theorem c64_initialised {k : Nat} {s : State} (h : Reach k s) {t i : Nat} (hr : Reads s t i) : s.cell i ≠ none := by
  have hi := inv_reach h
  have hce := hi.cellpc t
  cases hr with
  | @ins p m hpc hr => exact cell_pub hi (hi.has t m (by rw [hpc]; rfl)).1 hr
  | @post p j m hpc hr => exact cell_pub hi (hi.has t m (by rw [hpc]; rfl)).1 hr
  | @own p m hpc => rw [hpc] at hce; have hce : s.cell i = some p := hce; rw [hce]; exact fun h => by cases h
  | @take p hpc => rw [hpc] at hce; have hce : s.cell i = some p := hce; rw [hce]; exact fun h => by cases h
  | @view m hpc hr => exact cell_pub hi (hi.has t m (by rw [hpc]; rfl)).1 hr

/-- Steps of any threads. -/
inductive Run : State → State → Prop
  | refl (s : State) : Run s s
  | step {s s' s'' : State} {t : Nat} : Run s s' → Step s' t s'' → Run s s''

/-- Slot `i` has been reachable. -/
def Seen (s : State) (i : Nat) : Prop := ∃ m, m ≤ s.n ∧ (s.word m).rank i = .here

theorem seen_rmw {s : State} {i t : Nat} {w : Word} {a r : Bool} (h : Seen s i) : Seen (s.rmw t w a r) i := by
  obtain ⟨m, hm, hr⟩ := h
  refine ⟨m, Nat.le_succ_of_le hm, ?_⟩
  show (upd s.word (s.n + 1) w m).rank i = .here
  rw [upd_ne _ _ (by omega)]; exact hr

theorem seen_step {s s' : State} {t i : Nat} (hs : Step s t s') (h : Seen s i) : Seen s' i := by
  cases hs with
  | reserve => exact seen_rmw (t := t) (w := _) (a := true) (r := false) h
  | publish => exact seen_rmw (t := t) (w := _) (a := true) (r := true) h
  | @free q p j => exact seen_rmw (t := t) (w := (s.word s.n).set j .free) (a := false) (r := true) h
  | remove => exact seen_rmw (t := t) (w := _) (a := true) (r := true) h
  | freeze => exact seen_rmw (t := t) (w := _) (a := true) (r := true) h
  | thaw => exact seen_rmw (t := t) (w := _) (a := false) (r := true) h
  | _ => exact h

theorem stable_step {s s' : State} {t i : Nat} (hi : Inv s) (hs : Step s t s') (h : Seen s i) :
    s'.cell i = s.cell i ∧ s'.wr i = s.wr i := by
  obtain ⟨m, hm, hr⟩ := h
  have hn : ∀ j, slot (s.pc t) = some j → i ≠ j := fun j hj e => hi.not_own hm hr (e ▸ hj)
  cases hs with
  | @write p j m' hpc =>
    have := hn j (by rw [hpc]; rfl)
    exact ⟨upd_ne _ _ this, upd_ne _ _ this⟩
  | @take p j hpc =>
    have := hn j (by rw [hpc]; rfl)
    exact ⟨upd_ne _ _ this, rfl⟩
  | _ => exact ⟨rfl, rfl⟩

/-- What a reachable entry consists of does not change while the leaf exists, even if it is removed. -/
theorem c64_stable {k : Nat} {s s' : State} (h : Reach k s) {m i : Nat} (hm : m ≤ s.n) (hr : (s.word m).rank i = .here) (hs : Run s s') :
    s'.cell i = s.cell i ∧ s'.wr i = s.wr i ∧ s.cell i ≠ none := by
  have key : Reach k s' ∧ Seen s' i ∧ s'.cell i = s.cell i ∧ s'.wr i = s.wr i := by
    induction hs with
    | refl => exact ⟨h, ⟨m, hm, hr⟩, rfl, rfl⟩
    | step _ hst ih =>
      obtain ⟨a, b, c, d⟩ := ih
      have := stable_step (inv_reach a) hst b
      exact ⟨a.step hst, seen_step hst b, this.1.trans c, this.2.trans d⟩
  exact ⟨key.2.2.1, key.2.2.2, cell_pub (inv_reach h) hm hr⟩

/-- `rollback` takes the pair out of the slot that was put into it. -/
theorem c64_own {k : Nat} {s : State} (h : Reach k s) {t p i : Nat} {q : Option Nat} (hpc : s.pc t = .back q p i) : q = some p := by
  have := (inv_reach h).cellpc t
  rw [hpc] at this
  exact this.1

/-- When no thread uses the leaf any more and it is dropped, each pair was given back, or dropped with `insert`, or is dropped now: each exactly
once; no slot is dropped that has no pair in it. -/
theorem c64_once {k c : Nat} {s : State} (h : Reach k s) (hq : ∀ t, s.pc t = .idle) (hc : ∀ i, c ≤ i → (s.word s.n).rank i = .free) :
    (s.out ++ dropped s c).Perm ((List.range s.next).map some) := by
  have hi := inv_reach h
  have hp := pairs_reach h
  have hown : ∀ i t, slot (s.pc t) ≠ some i := fun i t => by rw [hq t]; exact fun h => by cases h
  have hmem : ∀ x, x ∈ dropped s c ↔ ∃ i p, s.cell i = some p ∧ x = some p := fun x => by
    unfold dropped
    constructor
    · intro hx
      obtain ⟨i, hi', e⟩ := List.mem_map.1 hx
      have hr : (s.word s.n).rank i ≠ .free := by simpa using (List.mem_filter.1 hi').2
      cases hce : s.cell i with
      | none => exact absurd hce (hi.full i hr (hown i))
      | some p => exact ⟨i, p, hce, by rw [← e, hce]⟩
    · rintro ⟨i, p, hce, e⟩
      have hr : (s.word s.n).rank i ≠ .free := fun e' => by rw [(hi.rel i e').2] at hce; cases hce
      have hlt : i < c := Nat.lt_of_not_le (fun hle => hr (hc i hle))
      exact List.mem_map.2 ⟨i, List.mem_filter.2 ⟨List.mem_range.2 hlt, by simpa using hr⟩, by rw [hce, e]⟩
  have hnd : (dropped s c).Nodup := by
    unfold dropped
    have hf : ((List.range c).filter (fun i => (s.word s.n).rank i ≠ .free)).Nodup := List.nodup_range.filter _
    refine List.pairwise_map.2 (List.Pairwise.imp_of_mem ?_ hf)
    intro i j hi' hj' hij e
    have hr : (s.word s.n).rank i ≠ .free := by simpa using (List.mem_filter.1 hi').2
    cases hce : s.cell i with
    | none => exact hi.full i hr (hown i) hce
    | some p => exact hij (hp.cc i j p hce (by rw [← e, hce]))
  refine (List.perm_ext_iff_of_nodup ?_ ?_).2 ?_
  · refine List.nodup_append.2 ⟨hp.nd, hnd, fun a ha b hb e => ?_⟩
    obtain ⟨i, p, hce, e'⟩ := (hmem b).1 hb
    rw [e, e'] at ha
    exact hp.co i p hce ha
  · refine List.pairwise_map.2 (List.Pairwise.imp ?_ List.nodup_range)
    intro a b hab e
    exact hab (Option.some.inj e)
  · intro x
    constructor
    · intro hx
      have hlt : ∀ p, p < s.next → some p ∈ (List.range s.next).map some := fun p hp => List.mem_map.2 ⟨p, List.mem_range.2 hp, rfl⟩
      rcases List.mem_append.1 hx with a | a
      · cases x with
        | none => exact absurd a hp.on
        | some p => exact hlt p (hp.lo p a)
      · obtain ⟨i, p, hce, e⟩ := (hmem x).1 a
        rw [e]; exact hlt p (hp.lc i p hce)
    · intro hx
      obtain ⟨p, hlt, e⟩ := List.mem_map.1 hx
      rcases hp.cover p (List.mem_range.1 hlt) with ⟨i, hce⟩ | ⟨t, ht⟩ | ho
      · exact List.mem_append.2 (.inr ((hmem x).2 ⟨i, p, hce, e.symm⟩))
      · have ht : hand (s.pc t) = some p := ht
        rw [hq t] at ht; cases ht
      · exact List.mem_append.2 (.inl (e ▸ ho))

/-! ## Runs -/

/-- Slot 0 of an empty leaf is reserved. -/
theorem run_insert : ∃ s, Reach 0 s ∧ Writes s 0 0 := by
  have h := Reach.init (k := 0)
  have h := h.step (.call (t := 0) (m := 0) rfl (Nat.le_refl _) (Nat.le_refl _))
  have h := h.step (.reserve (t := 0) (p := 0) (m := 0) (i := 0) rfl rfl rfl)
  exact ⟨_, h, 0, 1, rfl⟩

/-- Slot 0 is reserved by thread 0, written, taken back, freed (`Release`), reserved again by thread 1 (`Acquire`), which writes it. -/
theorem run_reuse : ∃ s, Reach 0 s ∧ Writes s 1 0 ∧ s.wr 0 = 1 ∧ s.rd 0 0 = 2 ∧ s.out = [some 0] := by
  have h := Reach.init (k := 0)
  have h := h.step (.call (t := 0) (m := 0) rfl (Nat.le_refl _) (Nat.le_refl _))
  have h := h.step (.reserve (t := 0) (p := 0) (m := 0) (i := 0) rfl rfl rfl)
  have h := h.step (.write (t := 0) (p := 0) (i := 0) (m := 1) rfl)
  have h := h.step (.postOwn (t := 0) (p := 0) (i := 0) (m := 1) rfl)
  have h := h.step (.giveBack (t := 0) (p := 0) (i := 0) (m := 1) rfl)
  have h := h.step (.take (t := 0) (p := 0) (i := 0) rfl)
  have h := h.step (.free (t := 0) (q := some 0) (p := 0) (i := 0) rfl)
  have h := h.step (.call (t := 1) (m := 2) rfl (Nat.zero_le _) (Nat.le_refl _))
  have h := h.step (.reserve (t := 1) (p := 1) (m := 2) (i := 0) rfl rfl rfl)
  exact ⟨_, h, ⟨1, 3, rfl⟩, rfl, rfl, rfl⟩

/-- A leaf with one entry: it is seen by thread 2, removed by thread 1, and still read by thread 2; another pair was added to slot 1. -/
theorem run_view : ∃ s, Reach 1 s ∧ Reads s 2 0 ∧ (s.word s.n).rank 0 = .gone ∧ (s.word s.n).rank 1 = .here ∧ s.cell 0 = some 0 ∧
    s.cell 1 = some 1 := by
  have h := Reach.init (k := 1)
  have h := h.step (.look (t := 2) (m := 0) rfl (Nat.le_refl _) (Nat.le_refl _))
  have h := h.step (.call (t := 0) (m := 0) rfl (Nat.le_refl _) (Nat.le_refl _))
  have h := h.step (.reserve (t := 0) (p := 1) (m := 0) (i := 1) rfl rfl rfl)
  have h := h.step (.write (t := 0) (p := 1) (i := 1) (m := 1) rfl)
  have h := h.step (.postLook (t := 0) (p := 1) (i := 1) (m := 1) (j := 0) rfl rfl)
  have h := h.step (.publish (t := 0) (p := 1) (i := 1) (m := 1) rfl rfl)
  have h := h.step (.look (t := 1) (m := 2) rfl (Nat.zero_le _) (Nat.le_refl _))
  have h := h.step (.remove (t := 1) (m := 2) (i := 0) (r := false) rfl rfl rfl)
  have h := h.step (.see (t := 2) (m := 0) (i := 0) rfl rfl)
  exact ⟨_, h, .view (m := 0) rfl rfl, rfl, rfl, rfl, rfl⟩

/-- A thread is in `rollback`. -/
theorem run_roll : ∃ s q, Reach 1 s ∧ s.pc 0 = .back q 1 1 := by
  have h := Reach.init (k := 1)
  have h := h.step (.call (t := 0) (m := 0) rfl (Nat.le_refl _) (Nat.le_refl _))
  have h := h.step (.reserve (t := 0) (p := 1) (m := 0) (i := 1) rfl rfl rfl)
  have h := h.step (.write (t := 0) (p := 1) (i := 1) (m := 1) rfl)
  have h := h.step (.giveBack (t := 0) (p := 1) (i := 1) (m := 1) rfl)
  have h := h.step (.take (t := 0) (p := 1) (i := 1) rfl)
  exact ⟨_, _, h, rfl⟩

/-- One pair was there from the start and is removed, one is left behind by a panic, one is given back: the first two are dropped with
the leaf. -/
theorem run_drop : ∃ s, Reach 1 s ∧ s.next = 3 ∧ s.pc 0 = .idle ∧ s.pc 1 = .idle ∧ s.out = [some 2] ∧ dropped s 2 = [some 0, some 1] := by
  have h := Reach.init (k := 1)
  have h := h.step (.call (t := 0) (m := 0) rfl (Nat.le_refl _) (Nat.le_refl _))
  have h := h.step (.reserve (t := 0) (p := 1) (m := 0) (i := 1) rfl rfl rfl)
  have h := h.step (.write (t := 0) (p := 1) (i := 1) (m := 1) rfl)
  have h := h.step (.unwind (t := 0) (p := 1) (i := 1) (m := 1) rfl)
  have h := h.step (.look (t := 1) (m := 1) rfl (Nat.zero_le _) (Nat.le_refl _))
  have h := h.step (.remove (t := 1) (m := 1) (i := 0) (r := true) rfl rfl rfl)
  have h := h.step (.call (t := 0) (m := 2) rfl (by decide) (Nat.le_refl _))
  have h := h.step (.giveUp (t := 0) (p := 2) (m := 2) rfl)
  exact ⟨_, h, rfl, rfl, rfl, rfl, rfl⟩

/-- A state that meets the hypotheses of `c64_once`. -/
theorem run_once : ∃ s, Reach 2 s ∧ (∀ t, s.pc t = .idle) ∧ (∀ i, 2 ≤ i → (s.word s.n).rank i = .free) ∧ s.next = 2 :=
  ⟨_, .init, fun _ => rfl, fun i hi => by show (if i < 2 then Rk.here else .free) = .free; rw [if_neg (by omega)], rfl⟩

example : ∃ s, Reach 0 s ∧ Writes s 1 0 ∧ ¬ Reads s 0 0 := by
  obtain ⟨s, h, hw, _⟩ := run_reuse
  exact ⟨s, h, hw, (c64_exclusive h hw (by decide)).2⟩

example : ∃ s, Reach 0 s ∧ Writes s 1 0 ∧ (s.tv 1).r 0 0 = 2 := by
  obtain ⟨s, h, hw, _, hr, _⟩ := run_reuse
  exact ⟨s, h, hw, by rw [(c64_write_known h hw).2 0, hr]⟩

example : ∃ s, Reach 1 s ∧ Reads s 2 0 ∧ (s.tv 2).w 0 = s.wr 0 ∧ s.cell 0 ≠ none := by
  obtain ⟨s, h, hr, _⟩ := run_view
  exact ⟨s, h, hr, c64_read_known h hr, c64_initialised h hr⟩

example : ∃ s s', Reach 1 s ∧ Run s s' ∧ (s'.word s'.n).rank 0 = .gone ∧ s'.cell 0 = s.cell 0 := by
  have h := Reach.init (k := 1)
  have r := Run.refl (.init 1)
  have r := r.step (.look (t := 1) (m := 0) rfl (Nat.le_refl _) (Nat.le_refl _))
  have r := r.step (.remove (t := 1) (m := 0) (i := 0) (r := true) rfl rfl rfl)
  exact ⟨_, _, h, r, rfl, (c64_stable h (m := 0) (i := 0) (Nat.le_refl _) rfl r).1⟩

example : ∃ s q, Reach 1 s ∧ s.pc 0 = .back q 1 1 ∧ q = some 1 := by
  obtain ⟨s, q, h, hpc⟩ := run_roll
  exact ⟨s, q, h, hpc, c64_own h hpc⟩

example : ∃ s, Reach 2 s ∧ (s.out ++ dropped s 2).Perm [some 0, some 1] := by
  obtain ⟨s, h, hq, hc, hn⟩ := run_once
  have := c64_once h hq hc
  rw [hn] at this
  exact ⟨s, h, this⟩

end Scc.Slot
