import Verif.LeafConc.Sim

/-!
# Properties of a leaf shared by threads (C29, C30, C44)
-/

set_option linter.unusedSimpArgs false
set_option linter.unusedVariables false

namespace Scc.LeafConc

open Scc.Leaf
open Scc.Leaf.Spec (SLeaf Sorted)

variable {K V : Type} [KeyOrd K]

/-! ## C29: concurrent use of one leaf is linearizable -/

/-- Every execution of any number of threads on one leaf shows exactly the calls and returns of an
execution of the atomic leaf; what the leaf holds at the end is what the atomic one holds. The atomic leaf
is licensed to call a key a duplicate while it is frozen; see C44 for what that licence is needed for. -/
theorem c29_linearizable {es : List (Event K V)} {s : St K V} (ex : Exec St.init es s) :
    ∃ a, Spec.Exec true Spec.St.init es a ∧ a.leaf.xs = s.l.toList ∧
      a.leaf.frozen = frozen s.l.w ∧ a.leaf.retired = retired s.l.w := by
  obtain ⟨a, h1, h2, h3⟩ := sim_exec (sp := true) ex (fun h => by cases h)
  exact ⟨a, h1, by rw [h3.leaf]; rfl, by rw [h3.leaf]; rfl, by rw [h3.leaf]; rfl⟩

theorem inv_of_exec {Q : St K V → Prop} {es : List (Event K V)} {s : St K V} (ex : ExecIn Q St.init es s) :
    Inv s := by
  obtain ⟨_, _, h, _⟩ := sim_exec (sp := true) ex (fun h => by cases h)
  exact h

/-- At every instant two live slots hold different keys, and the entries are in strictly ascending order. -/
theorem c29_unique {es : List (Event K V)} {s : St K V} (ex : Exec St.init es s) :
    (∀ i j e e', i < numEntries → j < numEntries → Ranked s.l.w i → Ranked s.l.w j →
      s.l.entry i = some e → s.l.entry j = some e' → e.1 = e'.1 → i = j) ∧
    Sorted s.l.toList := by
  have h := inv_of_exec ex
  have v := view_self h.ok.ord
  exact ⟨fun i j e e' hi hj hri hrj h1 h2 hk => h.ok.ord.key_inj hi hj hri hrj h1 h2 hk, v.sorted⟩

/-- A slot that some thread may read through the word it has loaded is reserved by nobody and its contents
never change: there is no race between writing a slot and reading it. -/
theorem c29_no_race {es : List (Event K V)} {s s' : St K V} {e : Option (Event K V)}
    (ex : Exec St.init es s) (st : Step s e s') {t i : Nat} {w : Word}
    (ht : (∃ k v, s.pc t = .ins k v w) ∨ (∃ k v j, s.pc t = .resv k v j w) ∨
      (∃ k v j, s.pc t = .post k v j w) ∨ (∃ k c, s.pc t = .rem k c w) ∨ (∃ q, s.pc t = .ask q w))
    (hi : i < numEntries) (hr : Ranked w i) :
    (∀ u, (s.pc u).slot ≠ some i) ∧ s'.l.entry i = s.l.entry i ∧ (s.l.entry i).isSome := by
  have h := inv_of_exec ex
  have hp := h.pcs t
  have hs : Snap s.l (pend s.pc) w := by
    rcases ht with ⟨_, _, e⟩ | ⟨_, _, _, e⟩ | ⟨_, _, _, e⟩ | ⟨_, _, e⟩ | ⟨_, e⟩ <;> rw [e] at hp
    · exact hp
    · exact hp.1
    · exact hp.1
    · exact hp
    · exact hp
  obtain ⟨u, p, _, g⟩ := step_good h st
  refine ⟨pend_false.1 (hs.free i hi hr), g.keep.entry i hi (hs.used i hi hr) (hs.free i hi hr), ?_⟩
  obtain ⟨e, he⟩ := hs.ord.init i hi hr
  rw [he]; rfl

/-- No two insertions under way own the same slot, and an owned slot is not live. -/
theorem c29_exclusive {es : List (Event K V)} {s : St K V} (ex : Exec St.init es s) {t i : Nat}
    (ht : (s.pc t).slot = some i) :
    i < numEntries ∧ rank s.l.w i = removed ∧ ∀ u, (s.pc u).slot = some i → u = t := by
  have h := inv_of_exec ex
  have hp := h.ok.pend i (pend_iff.2 ⟨t, ht⟩)
  exact ⟨hp.1, hp.2, fun u hu => h.excl u t i hu ht⟩

/-- A thread in the middle of a call can always move: no call waits for another. -/
theorem c29_never_blocked {es : List (Event K V)} {s : St K V} (ex : Exec St.init es s) {t : Nat}
    (ht : s.pc t ≠ .idle) : ∃ e s', Step s e s' ∧ ∀ u, u ≠ t → s'.pc u = s.pc u := by
  have h := inv_of_exec ex
  have hp := h.pcs t
  have key : ∀ {l : Leaf K V} {p : Pc K V} u, u ≠ t → ({ s with l := l }.setPc t p).pc u = s.pc u := by
    intro l p u hu; simp [St.setPc, hu]
  cases hpc : s.pc t with
  | idle => exact absurd hpc ht
  | start c =>
    cases c with
    | insert k v => exact ⟨_, _, .insLoad hpc, key⟩
    | remove k c => exact ⟨_, _, .remLoad hpc, key⟩
    | ask q => exact ⟨_, _, .askLoad hpc, key⟩
    | freeze => exact ⟨_, _, .freeze hpc, key⟩
    | thaw => exact ⟨_, _, .thaw hpc, key⟩
  | ins k v w =>
    cases hr : retired w with
    | true => exact ⟨_, _, .insRetired hpc hr, key⟩
    | false =>
      cases hf : frozen w with
      | true => exact ⟨_, _, .insFrozen hpc hr hf, key⟩
      | false =>
        cases hs : freeSlot w with
        | none => exact ⟨_, _, .insFull hpc hr hf hs, key⟩
        | some i =>
          by_cases hw : s.l.w = w
          · exact ⟨_, _, .insReserve hpc hr hf hs hw, key⟩
          · exact ⟨_, _, .insRetry hpc hr hf hs hw, key⟩
  | resv k v i w => exact ⟨_, _, .write hpc, key⟩
  | post k v i w =>
    cases hw' : (s.at w).postWord k i w with
    | none => exact ⟨_, _, .postDup hpc hw', key⟩
    | some w' =>
      by_cases hw : s.l.w = w
      · exact ⟨_, _, .postOk hpc hw' hw, key⟩
      · cases hf : frozen s.l.w with
        | true => exact ⟨_, _, .postAbort hpc hw' hw (.inl hf), key⟩
        | false =>
          cases hr : retired s.l.w with
          | true => exact ⟨_, _, .postAbort hpc hw' hw (.inr hr), key⟩
          | false => exact ⟨_, _, .postRetry hpc hw' hw hf hr, key⟩
  | roll k v i => exact ⟨_, _, .roll hpc, key⟩
  | rem k c w =>
    cases hf : frozen w with
    | true => exact ⟨_, _, .remFrozen hpc hf, key⟩
    | false =>
      cases hs : (s.at w).searchSlot k w with
      | none => exact ⟨_, _, .remMiss hpc hf hs, key⟩
      | some i => exact ⟨_, _, .remFound hpc hf hs, key⟩
  | remAt k c i w =>
    rw [hpc] at hp
    obtain ⟨_, _, _, _, v, he⟩ := hp
    cases hc : c v with
    | false => exact ⟨_, _, .remKeep hpc he hc, key⟩
    | true =>
      by_cases hw : s.l.w = w
      · exact ⟨_, _, .remOk hpc he hc hw, key⟩
      · by_cases hg : rank s.l.w i = removed
        · exact ⟨_, _, .remGone hpc he hc hw hg, key⟩
        · cases hf : frozen s.l.w with
          | true => exact ⟨_, _, .remFroze hpc he hc hw hg hf, key⟩
          | false => exact ⟨_, _, .remRetry hpc he hc hw hg hf, key⟩
  | ask q w => exact ⟨_, _, .askDone hpc, key⟩
  | done r => exact ⟨_, _, .ret hpc, key⟩

/-! ## C30: retired and frozen leaves -/

/-- What one step can do to a leaf that is frozen or retired. -/
theorem step_flags {s s' : St K V} {e : Option (Event K V)} (h : Inv s) (st : Step s e s') :
    (retired s.l.w = true → retired s'.l.w = true) ∧
    (frozen s.l.w = true → frozen s'.l.w = true ∨ ∃ t, s.pc t = .start .thaw) ∧
    (frozen s.l.w = true ∨ retired s.l.w = true → s'.l.toList = s.l.toList) ∧
    (∀ t, s'.pc t = .done (.ins .success) → s.pc t ≠ .done (.ins .success) →
      frozen s.l.w = false ∧ retired s.l.w = false) ∧
    (∀ t r, r = .success ∨ r = .retired → s'.pc t = .done (.rem r) → s.pc t ≠ .done (.rem r) →
      frozen s.l.w = false ∧ retired s.l.w = false) := by
  have hinv' := inv_step h st
  have hloc : ∀ (t : Nat) (p : Pc K V), p ≠ .done (.ins .success) →
      (∀ r, r = RemRes.success ∨ r = .retired → p ≠ .done (.rem r)) →
      (∀ l : Leaf K V, ∀ u, ({ s with l := l }.setPc t p).pc u = .done (.ins .success) →
        s.pc u ≠ .done (.ins .success) → frozen s.l.w = false ∧ retired s.l.w = false) ∧
      (∀ l : Leaf K V, ∀ u r, r = RemRes.success ∨ r = .retired →
        ({ s with l := l }.setPc t p).pc u = .done (.rem r) →
        s.pc u ≠ .done (.rem r) → frozen s.l.w = false ∧ retired s.l.w = false) := by
    intro t p h1 h2
    refine ⟨?_, ?_⟩
    · intro l u hu hn
      by_cases e : u = t
      · subst e; simp only [St.setPc, if_true] at hu; exact absurd hu h1
      · simp only [St.setPc, if_neg e] at hu; exact absurd hu hn
    · intro l u r hr hu hn
      by_cases e : u = t
      · subst e; simp only [St.setPc, if_true] at hu; exact absurd hu (h2 r hr)
      · simp only [St.setPc, if_neg e] at hu; exact absurd hu hn
  have hsame : ∀ (t : Nat) (p : Pc K V), p ≠ .done (.ins .success) →
      (∀ r, r = RemRes.success ∨ r = .retired → p ≠ .done (.rem r)) →
      (retired s.l.w = true → retired (s.setPc t p).l.w = true) ∧
      (frozen s.l.w = true → frozen (s.setPc t p).l.w = true ∨ ∃ t, s.pc t = .start .thaw) ∧
      (frozen s.l.w = true ∨ retired s.l.w = true → (s.setPc t p).l.toList = s.l.toList) ∧
      (∀ u, (s.setPc t p).pc u = .done (.ins .success) → s.pc u ≠ .done (.ins .success) →
        frozen s.l.w = false ∧ retired s.l.w = false) ∧
      (∀ u r, r = .success ∨ r = .retired → (s.setPc t p).pc u = .done (.rem r) →
        s.pc u ≠ .done (.rem r) → frozen s.l.w = false ∧ retired s.l.w = false) := by
    intro t p h1 h2
    exact ⟨fun h => h, fun h => .inl h, fun _ => rfl, (hloc t p h1 h2).1 s.l, (hloc t p h1 h2).2 s.l⟩
  have hcongr : ∀ l' : Leaf K V, Ordered l'.w l'.entry →
      (∀ j, j < numEntries → (Ranked l'.w j ↔ Ranked s.l.w j)) →
      (∀ j, j < numEntries → Ranked s.l.w j → l'.entry j = s.l.entry j) → l'.toList = s.l.toList :=
    fun l' o h1 h2 => toList_congr h.ok.ord o (holds_congr h1 h2)
  cases st with
  | @inv t c hpc => exact hsame t _ (by simp) (by simp)
  | @ret t r hpc => exact hsame t _ (by simp) (by simp)
  | @insLoad t k v hpc => exact hsame t _ (by simp) (by simp)
  | @insRetired t k v w hpc => exact hsame t _ (by simp) (by simp)
  | @insFrozen t k v w hpc => exact hsame t _ (by simp) (by simp)
  | @insFull t k v w hpc => exact hsame t _ (by split <;> simp) (by simp)
  | @insReserve t k v w i hpc hr hf hfree hw =>
    subst hw
    have hl := hloc t (.resv k v i (augment s.l.w i removed)) (by simp) (by simp)
    refine ⟨fun h1 => ?_, fun h1 => ?_, fun h1 => ?_, hl.1 _, hl.2 _⟩
    · rw [hr] at h1; cases h1
    · rw [hf] at h1; cases h1
    · rw [hr, hf] at h1; rcases h1 with h1 | h1 <;> cases h1
  | @insRetry t k v w i hpc => exact hsame t _ (by simp) (by simp)
  | @write t k v i w hpc =>
    have g := good_write h hpc
    have hl := hloc t (.post k v i w) (by simp) (by simp)
    have h2 := Snap.now h.ok
    have hent : ∀ j, j < numEntries → Ranked s.l.w j → (s.l.write i k v).entry j = s.l.entry j :=
      fun j hj hr => g.keep.entry j hj (h2.used j hj hr) (h2.free j hj hr)
    exact ⟨fun h => h, fun h => .inl h,
      fun _ => hcongr (s.l.write i k v) (ordered_congr h.ok.ord hent) (fun _ _ => Iff.rfl) hent,
      hl.1 _, hl.2 _⟩
  | @postDup t k v i w hpc => exact hsame t _ (by simp) (by simp)
  | @postOk t k v i w w' hpc hpw hw =>
    have hp := h.pcs t
    rw [hpc] at hp
    subst hw
    obtain ⟨_, hf, hr, _⟩ := hp
    exact ⟨fun h1 => absurd h1 (by rw [hr]; decide), fun h1 => absurd h1 (by rw [hf]; decide),
      fun h1 => absurd h1 (by rw [hr, hf]; decide), fun _ _ _ => ⟨hf, hr⟩, fun _ _ _ _ _ => ⟨hf, hr⟩⟩
  | @postAbort t k v i w w' hpc => exact hsame t _ (by simp) (by simp)
  | @postRetry t k v i w w' hpc => exact hsame t _ (by simp) (by simp)
  | @roll t k v i hpc =>
    have hs : (s.pc t).slot = some i := by rw [hpc]; rfl
    have hpi : pend s.pc i = true := pend_iff.2 ⟨t, hs⟩
    obtain ⟨hi, _⟩ := h.ok.pend i hpi
    obtain ⟨o, hR⟩ := h.ok.rollback hpi
    have hcf : frozen (clearSlot s.l.w i) = frozen s.l.w := by
      rw [clearSlot_eq, frozen_augment _ hi (by omega)]
    have hcr : retired (clearSlot s.l.w i) = retired s.l.w := by
      rw [clearSlot_eq, retired_augment _ hi (by omega)]
    have hne : ∀ w : Word, rollbackRes w ≠ .success := by
      intro w; unfold rollbackRes; split
      · simp
      · split <;> simp
    have hl := hloc t (.done (.ins (rollbackRes (clearSlot s.l.w i)))) (by simp [hne]) (by simp)
    refine ⟨fun h1 => ?_, fun h1 => .inl ?_, fun _ => ?_, hl.1 _, hl.2 _⟩
    · show retired (clearSlot s.l.w i) = true; rw [hcr]; exact h1
    · show frozen (clearSlot s.l.w i) = true; rw [hcf]; exact h1
    · exact hcongr { s.l with w := clearSlot s.l.w i } o.ord hR (fun _ _ _ => rfl)
  | @remLoad t k c hpc => exact hsame t _ (by simp) (by simp)
  | @remFrozen t k c w hpc => exact hsame t _ (by simp) (by simp)
  | @remMiss t k c w hpc => exact hsame t _ (by simp) (by simp)
  | @remFound t k c w i hpc => exact hsame t _ (by simp) (by simp)
  | @remKeep t k c i w e hpc => exact hsame t _ (by simp) (by simp)
  | @remOk t k c i w e hpc he hc hw =>
    have hp := h.pcs t
    rw [hpc] at hp
    subst hw
    obtain ⟨_, hf, hi, hr, _⟩ := hp
    have hret : retired s.l.w = false := by
      cases hx : retired s.l.w with
      | false => rfl
      | true => exact absurd hr (h.ok.ret hx i hi)
    exact ⟨fun h1 => absurd h1 (by rw [hret]; decide), fun h1 => absurd h1 (by rw [hf]; decide),
      fun h1 => absurd h1 (by rw [hret, hf]; decide), fun _ _ _ => ⟨hf, hret⟩,
      fun _ _ _ _ _ => ⟨hf, hret⟩⟩
  | @remGone t k c i w e hpc => exact hsame t _ (by simp) (by simp)
  | @remFroze t k c i w e hpc => exact hsame t _ (by simp) (by simp)
  | @remRetry t k c i w e hpc => exact hsame t _ (by simp) (by simp)
  | @askLoad t q hpc => exact hsame t _ (by simp) (by simp)
  | @askDone t q w hpc => exact hsame t _ (by simp) (by simp)
  | @freeze t hpc =>
    have hl := hloc t (.done (.ok s.l.freezeLeaf.2)) (by simp) (by simp)
    refine ⟨fun h1 => ?_, fun h1 => .inl ?_, fun _ => ?_, hl.1 _, hl.2 _⟩
    · show retired s.l.freezeLeaf.1.w = true
      unfold Leaf.freezeLeaf; split
      · exact h1
      · simpa using h1
    · show frozen s.l.freezeLeaf.1.w = true
      unfold Leaf.freezeLeaf; rw [if_pos h1]; exact h1
    · show s.l.freezeLeaf.1.toList = s.l.toList
      unfold Leaf.freezeLeaf; split
      · rfl
      · exact hcongr { s.l with w := freeze s.l.w } h.ok.freeze.ord
          (fun j hj => by unfold Ranked; rw [rank_freeze _ hj]) (fun _ _ _ => rfl)
  | @thaw t hpc =>
    have hl := hloc t (.done (.ok s.l.thawLeaf.2)) (by simp) (by simp)
    refine ⟨fun h1 => ?_, fun h1 => .inr ⟨t, hpc⟩, fun _ => ?_, hl.1 _, hl.2 _⟩
    · show retired s.l.thawLeaf.1.w = true
      unfold Leaf.thawLeaf; split
      · simpa using h1
      · exact h1
    · show s.l.thawLeaf.1.toList = s.l.toList
      unfold Leaf.thawLeaf; split
      · exact hcongr { s.l with w := thaw s.l.w } h.ok.thaw.ord
          (fun j hj => by unfold Ranked; rw [rank_thaw _ hj]) (fun _ _ _ => rfl)
      · rfl

theorem retired_nil {s : St K V} (h : Inv s) (hr : retired s.l.w = true) : s.l.toList = [] := by
  have v := view_self h.ok.ord
  cases hx : s.l.toList with
  | nil => rfl
  | cons e es =>
    obtain ⟨j, h1, h2, _⟩ := (v.mem e).1 (by rw [hx]; exact List.mem_cons_self ..)
    exact absurd h2 (h.ok.ret hr j h1)

/-- A retired leaf is empty and stays retired for ever, whatever the threads do next; no insertion and no
removal that had not succeeded when the leaf was retired ever succeeds. -/
theorem c30_retired_dead {es es' : List (Event K V)} {s s' : St K V} (ex : Exec St.init es s)
    (hr : retired s.l.w = true) (ex' : Exec s es' s') :
    retired s'.l.w = true ∧ s'.l.toList = [] ∧
    ∀ (s1 s2 : St K V) (e : Option (Event K V)), (∃ es1, Exec s es1 s1) → Step s1 e s2 →
      (∀ t, s2.pc t = .done (.ins .success) → s1.pc t = .done (.ins .success)) ∧
      (∀ t r, r = .success ∨ r = .retired → s2.pc t = .done (.rem r) → s1.pc t = .done (.rem r)) := by
  have key : ∀ {es1 : List (Event K V)} {s1 : St K V}, Exec s es1 s1 → Inv s1 ∧ retired s1.l.w = true := by
    intro es1 s1 ex1
    have h0 := inv_of_exec ex
    clear ex'
    induction ex1 with
    | nil => exact ⟨h0, hr⟩
    | tau _ st _ ih =>
      obtain ⟨h1, h2⟩ := ih
      exact ⟨inv_step h1 st, (step_flags h1 st).1 h2⟩
    | event _ st _ ih =>
      obtain ⟨h1, h2⟩ := ih
      exact ⟨inv_step h1 st, (step_flags h1 st).1 h2⟩
  obtain ⟨h1, h2⟩ := key ex'
  refine ⟨h2, retired_nil h1 h2, ?_⟩
  rintro s1 s2 e ⟨es1, ex1⟩ st
  obtain ⟨h3, h4⟩ := key ex1
  obtain ⟨_, _, _, g1, g2⟩ := step_flags h3 st
  refine ⟨fun t ht => ?_, fun t r hr' ht => ?_⟩
  · refine Classical.byContradiction fun hn => ?_
    have := (g1 t ht hn).2
    rw [h4] at this; cases this
  · refine Classical.byContradiction fun hn => ?_
    have := (g2 t r hr' ht hn).2
    rw [h4] at this; cases this

/-- One step on a frozen leaf changes none of its entries and lets no insertion or removal succeed; the
leaf is still frozen afterwards unless some thread is at a call of `thaw`. -/
theorem c30_frozen {es : List (Event K V)} {s s' : St K V} {e : Option (Event K V)}
    (ex : Exec St.init es s) (hf : frozen s.l.w = true) (st : Step s e s') :
    s'.l.toList = s.l.toList ∧ (frozen s'.l.w = true ∨ ∃ t, s.pc t = .start .thaw) ∧
    (∀ t, s'.pc t = .done (.ins .success) → s.pc t = .done (.ins .success)) ∧
    (∀ t r, r = .success ∨ r = .retired → s'.pc t = .done (.rem r) → s.pc t = .done (.rem r)) := by
  have h := inv_of_exec ex
  obtain ⟨_, g1, g2, g3, g4⟩ := step_flags h st
  refine ⟨g2 (.inl hf), g1 hf, fun t ht => ?_, fun t r hr' ht => ?_⟩
  · refine Classical.byContradiction fun hn => ?_
    have := (g3 t ht hn).1
    rw [hf] at this; cases this
  · refine Classical.byContradiction fun hn => ?_
    have := (g4 t r hr' ht hn).1
    rw [hf] at this; cases this

/-! ## C44: an insertion reports a duplicate only if the key was there -/

/-- Where nobody thaws the leaf every execution is one of the atomic leaf without any licence: in
particular an insertion that reports a duplicate does so at an instant at which the key is there.
Missing: executions in which a frozen leaf is thawed while an insertion is under way, for which
`c44_spurious_duplicate` shows that the statement is false. -/
theorem c44_honest_duplicate_partial {es : List (Event K V)} {s : St K V}
    (ex : ExecIn (fun s => ∀ t, s.pc t ≠ .start .thaw) St.init es s) :
    ∃ a, Spec.Exec false Spec.St.init es a ∧ a.leaf.xs = s.l.toList := by
  obtain ⟨a, h1, _, h3⟩ := sim_exec (sp := false) ex (fun _ _ h => h)
  exact ⟨a, h1, by rw [h3.leaf]; rfl⟩

theorem ExecIn.weaken {Q : St K V → Prop} {i s : St K V} {es : List (Event K V)} (ex : ExecIn Q i es s) :
    Exec i es s := by
  induction ex with
  | nil => exact .nil trivial
  | tau _ st _ ih => exact .tau ih st trivial
  | event _ st _ ih => exact .event ih st trivial

/-! ### What the atomic leaf without licence never does -/

/-- The event announces an insertion. -/
def Event.isInsert : Event K V → Bool
  | .inv _ (.insert _ _) => true
  | _ => false

private structure Fair (es : List (Event K V)) (a : Spec.St K V) : Prop where
  done : ∀ t, a.pc t ≠ .done (.ins .duplicate)
  obs : ∀ t c obs, a.pc t = .pending c obs → ¬ obs (.ins .duplicate)
  ret : ∀ t, Event.ret t (.ins .duplicate) ∉ es
  none : a.leaf.xs = [] ∨ ∀ t, ¬ a.inserting t
  one : ∀ t u, a.inserting t → a.inserting u → t = u
  zero : (es.filter Event.isInsert).length = 0 → a.leaf.xs = [] ∧ ∀ t, ¬ a.inserting t

private theorem nil_acts {c : Call K V} {x : SLeaf K V} (h : x.xs = []) (hc : ∀ k v, c ≠ .insert k v) :
    (Spec.act c x).1.xs = [] := by
  cases c with
  | insert k v => exact absurd rfl (hc k v)
  | remove k p =>
    simp only [Spec.act, SLeaf.removeIf]
    split
    · exact h
    · have : Leaf.Spec.get x.xs k = none := by rw [h]; rfl
      rw [this]; exact h
  | ask q => exact h
  | freeze => exact h
  | thaw => exact h

private theorem act_dup {c : Call K V} {x : SLeaf K V} (h : (Spec.act c x).2 = .ins .duplicate) :
    (∃ k v, c = .insert k v) ∧ x.xs ≠ [] := by
  cases c with
  | insert k v =>
    refine ⟨⟨k, v, rfl⟩, fun hx => ?_⟩
    simp only [Spec.act, SLeaf.insert, Res.ins.injEq] at h
    have : Leaf.Spec.get x.xs k = Option.none := by rw [hx]; rfl
    rw [this] at h
    simp only [Option.isSome_none, Bool.false_eq_true, if_false] at h
    split at h
    · cases h
    · split at h
      · cases h
      · split at h <;> cases h
  | remove k p => cases h
  | ask q => cases h
  | freeze => cases h
  | thaw => cases h

private theorem fair_exec {es : List (Event K V)} {a : Spec.St K V}
    (ex : Spec.Exec false Spec.St.init es a) (h1 : (es.filter Event.isInsert).length ≤ 1) : Fair es a := by
  generalize hi : (Spec.St.init : Spec.St K V) = i at ex
  induction ex with
  | nil =>
    subst hi
    refine ⟨by simp [Spec.St.init], by simp [Spec.St.init], by simp, .inl rfl, ?_, fun _ => ⟨rfl, ?_⟩⟩
    · rintro t u ⟨k, v, obs, h⟩; cases h
    · rintro t ⟨k, v, obs, h⟩; cases h
  | @tau es a a' ex st ih =>
    have f := ih h1
    cases st with
    | observe =>
      have hins : ∀ t, (a.observe false).inserting t → a.inserting t := by
        rintro t ⟨k, v, obs, h⟩
        cases hp : a.pc t with
        | idle => simp [Spec.St.observe, hp] at h
        | done r => simp [Spec.St.observe, hp] at h
        | pending c o => rw [observe_pending hp] at h; cases h; exact ⟨k, v, o, hp⟩
      refine ⟨?_, ?_, f.ret, ?_, fun t u ht hu => f.one t u (hins t ht) (hins u hu), ?_⟩
      · intro t h
        cases hp : a.pc t with
        | idle => simp [Spec.St.observe, hp] at h
        | done r => simp [Spec.St.observe, hp] at h; subst h; exact f.done t hp
        | pending c o => rw [observe_pending hp] at h; cases h
      · intro t c obs h
        cases hp : a.pc t with
        | idle => simp [Spec.St.observe, hp] at h
        | done r => simp [Spec.St.observe, hp] at h
        | pending c' o =>
          rw [observe_pending hp] at h
          cases h
          rintro (h | h | ⟨_, _, _, h, _⟩ | ⟨h, _⟩)
          · exact f.obs t _ _ hp h
          · obtain ⟨⟨k, v, rfl⟩, hx⟩ := act_dup (congrArg Prod.snd h)
            rcases f.none with g | g
            · exact hx g
            · exact g t ⟨k, v, _, hp⟩
          · cases h
          · cases h
      · rcases f.none with g | g
        · exact .inl g
        · exact .inr fun t ht => g t (hins t ht)
      · intro h
        exact ⟨(f.zero h).1, fun t ht => (f.zero h).2 t (hins t ht)⟩
    | @lin t c o hpc =>
      have hins : ∀ u, ({ a with leaf := (Spec.act c a.leaf).1 }.setPc t
          (.done (Spec.act c a.leaf).2)).inserting u → a.inserting u ∧ u ≠ t := by
        rintro u ⟨k, v, obs, h⟩
        by_cases e : u = t
        · subst e; simp [Spec.St.setPc] at h
        · simp only [Spec.St.setPc, if_neg e] at h
          exact ⟨⟨k, v, obs, h⟩, e⟩
      have hdup : (Spec.act c a.leaf).2 ≠ .ins .duplicate := by
        intro h
        obtain ⟨⟨k, v, rfl⟩, hx⟩ := act_dup h
        rcases f.none with g | g
        · exact hx g
        · exact g t ⟨k, v, _, hpc⟩
      refine ⟨?_, ?_, f.ret, ?_, fun u w hu hw => f.one u w (hins u hu).1 (hins w hw).1, ?_⟩
      · intro u h
        by_cases e : u = t
        · subst e; simp [Spec.St.setPc] at h; exact hdup h
        · simp only [Spec.St.setPc, if_neg e] at h; exact f.done u h
      · intro u c' obs h
        by_cases e : u = t
        · subst e; simp [Spec.St.setPc] at h
        · simp only [Spec.St.setPc, if_neg e] at h; exact f.obs u _ _ h
      · by_cases hc : ∃ k v, c = .insert k v
        · obtain ⟨k, v, rfl⟩ := hc
          refine .inr fun u hu => ?_
          obtain ⟨h2, h3⟩ := hins u hu
          exact h3 (f.one u t h2 ⟨k, v, _, hpc⟩)
        · have hc' : ∀ k v, c ≠ .insert k v := fun k v e => hc ⟨k, v, e⟩
          rcases f.none with g | g
          · exact .inl (nil_acts g hc')
          · exact .inr fun u hu => g u (hins u hu).1
      · intro h
        obtain ⟨g1, g2⟩ := f.zero h
        have hc' : ∀ k v, c ≠ .insert k v := by
          rintro k v rfl
          exact g2 t ⟨k, v, _, hpc⟩
        exact ⟨nil_acts g1 hc', fun u hu => g2 u (hins u hu).1⟩
  | @event es a e a' ex st ih =>
    have hlen : (es.filter Event.isInsert).length ≤ 1 := by
      rw [List.filter_append, List.length_append] at h1
      omega
    have f := ih hlen
    cases st with
    | @inv t c hpc =>
      have hret : ∀ u, Event.ret u (.ins .duplicate) ∉ es ++ [Event.inv t c] := by
        intro u h
        rcases List.mem_append.1 h with h | h
        · exact f.ret u h
        · simp at h
      by_cases hc : ∃ k v, c = .insert k v
      · obtain ⟨k, v, rfl⟩ := hc
        have h0 : (es.filter Event.isInsert).length = 0 := by
          rw [List.filter_append, List.length_append] at h1
          have : ([Event.inv t (Call.insert k v)].filter Event.isInsert).length = 1 := rfl
          omega
        obtain ⟨g1, g2⟩ := f.zero h0
        have honly : ∀ u, (a.setPc t (.pending (.insert k v) (fun _ => False))).inserting u → u = t := by
          rintro u ⟨k', v', obs, h⟩
          refine Classical.byContradiction fun e => ?_
          simp only [Spec.St.setPc, if_neg e] at h
          exact g2 u ⟨k', v', obs, h⟩
        refine ⟨?_, ?_, hret, .inl g1, fun u w hu hw => (honly u hu).trans (honly w hw).symm, ?_⟩
        · intro u h
          by_cases e : u = t
          · subst e; simp [Spec.St.setPc] at h
          · simp only [Spec.St.setPc, if_neg e] at h; exact f.done u h
        · intro u c' obs h
          by_cases e : u = t
          · subst e; simp [Spec.St.setPc] at h; rw [← h.2]; exact fun h => h
          · simp only [Spec.St.setPc, if_neg e] at h; exact f.obs u _ _ h
        · intro h
          rw [List.filter_append, List.length_append] at h
          have : ([Event.inv t (Call.insert k v)].filter Event.isInsert).length = 1 := rfl
          omega
      · have hins : ∀ u, (a.setPc t (.pending c (fun _ => False))).inserting u → a.inserting u := by
          rintro u ⟨k', v', obs, h⟩
          by_cases e : u = t
          · subst e; simp [Spec.St.setPc] at h; exact absurd ⟨k', v', h.1⟩ hc
          · simp only [Spec.St.setPc, if_neg e] at h; exact ⟨k', v', obs, h⟩
        refine ⟨?_, ?_, hret, ?_, fun u w hu hw => f.one u w (hins u hu) (hins w hw), ?_⟩
        · intro u h
          by_cases e : u = t
          · subst e; simp [Spec.St.setPc] at h
          · simp only [Spec.St.setPc, if_neg e] at h; exact f.done u h
        · intro u c' obs h
          by_cases e : u = t
          · subst e; simp [Spec.St.setPc] at h; rw [← h.2]; exact fun h => h
          · simp only [Spec.St.setPc, if_neg e] at h; exact f.obs u _ _ h
        · rcases f.none with g | g
          · exact .inl g
          · exact .inr fun u hu => g u (hins u hu)
        · intro h
          rw [List.filter_append, List.length_append] at h
          obtain ⟨g1, g2⟩ := f.zero (by omega)
          exact ⟨g1, fun u hu => g2 u (hins u hu)⟩
    | @ret t r hpc =>
      exact fair_idle f (fun e => f.done t (by rw [hpc, e]))
    | @retObs t c o r hpc ho =>
      exact fair_idle f (fun e => f.obs t c o hpc (by rw [← e]; exact ho))
where
  fair_idle {es : List (Event K V)} {a : Spec.St K V} {t : Nat} {r : Res K V} (f : Fair es a)
      (hr : r ≠ .ins .duplicate) : Fair (es ++ [Event.ret t r]) (a.setPc t .idle) := by
    have hins : ∀ u, (a.setPc t .idle).inserting u → a.inserting u := by
      rintro u ⟨k', v', obs, h⟩
      by_cases e : u = t
      · subst e; simp [Spec.St.setPc] at h
      · simp only [Spec.St.setPc, if_neg e] at h; exact ⟨k', v', obs, h⟩
    refine ⟨?_, ?_, ?_, ?_, fun u w hu hw => f.one u w (hins u hu) (hins w hw), ?_⟩
    · intro u h
      by_cases e : u = t
      · subst e; simp [Spec.St.setPc] at h
      · simp only [Spec.St.setPc, if_neg e] at h; exact f.done u h
    · intro u c' obs h
      by_cases e : u = t
      · subst e; simp [Spec.St.setPc] at h
      · simp only [Spec.St.setPc, if_neg e] at h; exact f.obs u _ _ h
    · intro u h
      rcases List.mem_append.1 h with h | h
      · exact f.ret u h
      · simp at h; exact hr h.2.symm
    · rcases f.none with g | g
      · exact .inl g
      · exact .inr fun u hu => g u (hins u hu)
    · intro h
      rw [List.filter_append, List.length_append] at h
      obtain ⟨g1, g2⟩ := f.zero (by omega)
      exact ⟨g1, fun u hu => g2 u (hins u hu)⟩

/-- On the atomic leaf an insertion that is the only one ever made does not report a duplicate. -/
theorem c44_spec_honest {es : List (Event K V)} {a : Spec.St K V}
    (ex : Spec.Exec false Spec.St.init es a) (h1 : (es.filter Event.isInsert).length ≤ 1) (t : Nat) :
    Event.ret t (.ins .duplicate) ∉ es := (fair_exec ex h1).ret t

section Witness

private def d0 : St Nat Nat := St.init
private def d1 : St Nat Nat := d0.setPc 0 (.start (.insert 1 10))
private def d2 : St Nat Nat := d1.setPc 0 (.ins 1 10 d1.l.w)
private def d3 : St Nat Nat :=
  (d2.setW (augment d2.l.w 0 removed)).setPc 0 (.resv 1 10 0 (augment d2.l.w 0 removed))
private def d4 : St Nat Nat := { d3 with l := d3.l.write 0 1 10 }.setPc 0 (.post 1 10 0 d3.l.w)
private def d5 : St Nat Nat := d4.setPc 1 (.start .freeze)
private def d6 : St Nat Nat := { d5 with l := d5.l.freezeLeaf.1 }.setPc 1 (.done (.ok d5.l.freezeLeaf.2))
private def d7 : St Nat Nat := d6.setPc 1 .idle
private def d8 : St Nat Nat := d7.setPc 0 (.roll 1 10 0)
private def d9 : St Nat Nat := d8.setPc 1 (.start .thaw)
private def d10 : St Nat Nat := { d9 with l := d9.l.thawLeaf.1 }.setPc 1 (.done (.ok d9.l.thawLeaf.2))
private def d11 : St Nat Nat := d10.setPc 1 .idle
private def d12 : St Nat Nat := (d11.setW (clearSlot d11.l.w 0)).setPc 0 (.done (.ins .duplicate))
private def d13 : St Nat Nat := d12.setPc 0 .idle

/-- The word thread 0 tries to publish. -/
private def dw : Word := ((d7.at d3.l.w).postWord 1 0 d3.l.w).getD 0

private theorem step_abort : Step d7 none d8 := by
  have h1 : (d7.at d3.l.w).postWord 1 0 d3.l.w = some dw := by decide +kernel
  have h2 : d7.l.w ≠ d3.l.w := by decide +kernel
  have h3 : frozen d7.l.w = true := by decide +kernel
  exact .postAbort (w := d3.l.w) rfl h1 h2 (.inl h3)

private theorem step_roll : Step d11 none d12 := by
  have h : rollbackRes (clearSlot d11.l.w 0) = .duplicate := by decide +kernel
  have st : Step d11 none _ := Step.roll (t := 0) (k := 1) (v := 10) (i := 0) rfl
  rw [h] at st
  exact st

private theorem step_freeze : Step d6 (some (.ret 1 (.ok true))) d7 := by
  have h : d5.l.freezeLeaf.2 = true := by decide +kernel
  have st : Step d6 (some (.ret 1 (.ok d5.l.freezeLeaf.2))) d7 := Step.ret rfl
  rw [h] at st
  exact st

private theorem step_thaw : Step d10 (some (.ret 1 (.ok true))) d11 := by
  have h : d9.l.thawLeaf.2 = true := by decide +kernel
  have st : Step d10 (some (.ret 1 (.ok d9.l.thawLeaf.2))) d11 := Step.ret rfl
  rw [h] at st
  exact st

private theorem step_reserve : Step d2 none d3 := by
  have h1 : retired d2.l.w = false := by decide +kernel
  have h2 : frozen d2.l.w = false := by decide +kernel
  have h3 : freeSlot d2.l.w = some 0 := by decide +kernel
  exact .insReserve (w := d2.l.w) rfl h1 h2 h3 rfl

/-- The insertion of a key into a leaf that is empty all the time, into which nothing else is ever
inserted, reports a duplicate: the leaf was frozen when the insertion tried to publish its slot, and thawed
before the insertion gave the slot back. -/
theorem c44_spurious_duplicate :
    ∃ s : St Nat Nat, ExecIn (fun s => s.l.toList = []) St.init
      [.inv 0 (.insert 1 10), .inv 1 .freeze, .ret 1 (.ok true), .inv 1 .thaw, .ret 1 (.ok true),
        .ret 0 (.ins .duplicate)] s := by
  refine ⟨d13, ?_⟩
  have e0 : ExecIn (fun s => s.l.toList = []) d0 [] d0 := .nil (by decide +kernel)
  have e1 : ExecIn _ d0 _ d1 := .event e0 (.inv (t := 0) (c := .insert 1 10) rfl) (by decide +kernel)
  have e2 : ExecIn _ d0 _ d2 := .tau e1 (.insLoad rfl) (by decide +kernel)
  have e3 : ExecIn _ d0 _ d3 := .tau e2 step_reserve (by decide +kernel)
  have e4 : ExecIn _ d0 _ d4 := .tau e3 (.write rfl) (by decide +kernel)
  have e5 : ExecIn _ d0 _ d5 := .event e4 (.inv (t := 1) (c := .freeze) rfl) (by decide +kernel)
  have e6 : ExecIn _ d0 _ d6 := .tau e5 (.freeze rfl) (by decide +kernel)
  have e7 : ExecIn _ d0 _ d7 := .event e6 step_freeze (by decide +kernel)
  have e8 : ExecIn _ d0 _ d8 := .tau e7 step_abort (by decide +kernel)
  have e9 : ExecIn _ d0 _ d9 := .event e8 (.inv (t := 1) (c := .thaw) rfl) (by decide +kernel)
  have e10 : ExecIn _ d0 _ d10 := .tau e9 (.thaw rfl) (by decide +kernel)
  have e11 : ExecIn _ d0 _ d11 := .event e10 step_thaw (by decide +kernel)
  have e12 : ExecIn _ d0 _ d12 := .tau e11 step_roll (by decide +kernel)
  exact .event e12 (.ret (t := 0) (r := .ins .duplicate) rfl) (by decide +kernel)

/-- The statement of C44 is false: there is an execution of threads on one leaf whose calls and returns no
atomic leaf could show. -/
theorem c44_not_linearizable :
    ∃ (es : List (Event Nat Nat)) (s : St Nat Nat), Exec St.init es s ∧
      ¬ ∃ a, Spec.Exec false Spec.St.init es a := by
  obtain ⟨s, ex⟩ := c44_spurious_duplicate
  refine ⟨_, s, ex.weaken, ?_⟩
  rintro ⟨a, exa⟩
  exact c44_spec_honest exa (by decide) 0 (by simp)

/-- A frozen leaf with an insertion under way is reachable: `c30_frozen` speaks about something. -/
example : ∃ (es : List (Event Nat Nat)) (s : St Nat Nat), Exec St.init es s ∧ frozen s.l.w = true ∧
    (s.pc 0).slot = some 0 := by
  have e1 : Exec d0 _ d1 := .event (.nil trivial) (.inv (t := 0) (c := .insert 1 10) rfl) trivial
  have e2 : Exec d0 _ d2 := .tau e1 (.insLoad rfl) trivial
  have e3 : Exec d0 _ d3 := .tau e2 step_reserve trivial
  have e4 : Exec d0 _ d4 := .tau e3 (.write rfl) trivial
  have e5 : Exec d0 _ d5 := .event e4 (.inv (t := 1) (c := .freeze) rfl) trivial
  have e6 : Exec d0 _ d6 := .tau e5 (.freeze rfl) trivial
  exact ⟨_, d6, e6, by decide +kernel, rfl⟩

private def r5 : St Nat Nat :=
  (d4.setW (((d4.at d3.l.w).postWord 1 0 d3.l.w).getD 0)).setPc 0 (.done (.ins .success))
private def r6 : St Nat Nat := r5.setPc 1 (.start (.remove 1 (fun _ => true)))
private def r7 : St Nat Nat := r6.setPc 1 (.rem 1 (fun _ => true) r6.l.w)
private def r8 : St Nat Nat := r7.setPc 1 (.remAt 1 (fun _ => true) 0 r7.l.w)
private def r9 : St Nat Nat := (r8.setW (removeWord r8.l.w 0)).setPc 1
  (.done (.rem (if emptyBut r8.l.w 0 then .retired else .success)))

/-- A retired leaf is reachable: an insertion succeeds, and a removal takes its entry away again. -/
example : ∃ (es : List (Event Nat Nat)) (s : St Nat Nat), Exec St.init es s ∧ retired s.l.w = true ∧
    s.pc 0 = .done (.ins .success) ∧ s.pc 1 = .done (.rem .retired) := by
  have e1 : Exec d0 _ d1 := .event (.nil trivial) (.inv (t := 0) (c := .insert 1 10) rfl) trivial
  have e2 : Exec d0 _ d2 := .tau e1 (.insLoad rfl) trivial
  have e3 : Exec d0 _ d3 := .tau e2 step_reserve trivial
  have e4 : Exec d0 _ d4 := .tau e3 (.write rfl) trivial
  have h5 : (d4.at d3.l.w).postWord 1 0 d3.l.w = some (((d4.at d3.l.w).postWord 1 0 d3.l.w).getD 0) := by
    decide +kernel
  have e5 : Exec d0 _ r5 := .tau e4 (.postOk (w := d3.l.w) rfl h5 rfl) trivial
  have e6 : Exec d0 _ r6 := .event e5 (.inv (t := 1) (c := .remove 1 (fun _ => true)) rfl) trivial
  have e7 : Exec d0 _ r7 := .tau e6 (.remLoad rfl) trivial
  have h8 : frozen r7.l.w = false := by decide +kernel
  have h8' : (r7.at r7.l.w).searchSlot 1 r7.l.w = some 0 := by decide +kernel
  have e8 : Exec d0 _ r8 := .tau e7 (.remFound (w := r7.l.w) rfl h8 h8') trivial
  have e9 : Exec d0 _ r9 := .tau e8
    (.remOk (w := r7.l.w) (i := 0) (e := (1, 10)) rfl rfl rfl rfl) trivial
  refine ⟨_, r9, e9, by decide +kernel, rfl, ?_⟩
  have h9 : emptyBut r8.l.w 0 = true := by decide +kernel
  show Pc.done (.rem (if emptyBut r8.l.w 0 then .retired else .success)) = _
  rw [if_pos h9]

end Witness

end Scc.LeafConc
