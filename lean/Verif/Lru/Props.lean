import Verif.Lru.Proof

/-!
# C24: the LRU list keeps exact recency order
-/

namespace Scc.Lru

open Spec (Op Event age eventOf)

/-- Only slots of the 32-slot block are touched. -/
def InBlock (ops : List Op) : Prop := ∀ e, Op.touch e ∈ ops → e < 32

theorem rep_step {st : State} {l : List Nat} (h : Rep st l) (o : Op)
    (ho : ∀ e, o = .touch e → e < 32) :
    Rep (st.step o).1 (Spec.step l o).1 ∧ (st.step o).2 = (Spec.step l o).2 := by
  cases o with
  | touch e => exact ⟨rep_touch h (ho e rfl), rfl⟩
  | remove e => exact ⟨rep_remove h e, rfl⟩
  | evict =>
    by_cases hl : l = []
    · subst hl
      have h0 : st.tail = 0 := h.tail
      have he := rep_evict_nil h
      refine ⟨?_, ?_⟩
      · show Rep st.evict.1 _
        rw [he]; exact h
      · simp [State.step, h0, Spec.step, Spec.victim]
    · have h0 : st.tail ≠ 0 := by
        cases l with
        | nil => exact absurd rfl hl
        | cons a r => have := h.tail; simp at this; omega
      have he := rep_evict h hl
      refine ⟨he.1, ?_⟩
      simp [State.step, h0, Spec.step, he.2]

theorem run_refines {st : State} {l : List Nat} (h : Rep st l) (ops : List Op) (ho : InBlock ops) :
    (st.run ops).2 = Spec.run l ops ∧ ∃ l', Rep (st.run ops).1 l' := by
  induction ops generalizing st l with
  | nil => exact ⟨rfl, l, h⟩
  | cons o os ih =>
    have hs := rep_step h o (fun e he => ho e (by simp [he]))
    have := ih hs.1 (fun e he => ho e (List.mem_cons_of_mem _ he))
    exact ⟨by simp only [State.run, Spec.run, hs.2, this.1], this.2⟩

/-- **C24 (refinement).** For every sequence of operations on the 32 slots, the link array returns
exactly the results of the recency-list specification. -/
theorem c24_lru_refines_recency_list (ops : List Op) (ho : InBlock ops) :
    (State.init.run ops).2 = Spec.run [] ops :=
  (run_refines rep_init ops ho).1

/-- Final state and recorded history (most recent event first). -/
def record (st : State) (hist : List Event) : List Op → State × List Event
  | [] => (st, hist)
  | o :: os => record (st.step o).1 (eventOf o (st.step o).2 ++ hist) os

/-- The list holds exactly the slots with an age, in increasing order of age. -/
def Ordered (l : List Nat) (hist : List Event) : Prop :=
  (∀ x, x ∈ l ↔ (age x hist).isSome) ∧
  l.Pairwise fun a b => ∀ m n, age a hist = some m → age b hist = some n → m < n

theorem age_used_self (e : Nat) (h : List Event) : age e (.used e :: h) = some 0 := by simp [age]
theorem age_used_other {e x : Nat} (h : List Event) (hx : x ≠ e) :
    age x (.used e :: h) = (age x h).map (· + 1) := by simp [age, Ne.symm hx]
theorem age_left_self (e : Nat) (h : List Event) : age e (.left e :: h) = none := by simp [age]
theorem age_left_other {e x : Nat} (h : List Event) (hx : x ≠ e) :
    age x (.left e :: h) = (age x h).map (· + 1) := by simp [age, Ne.symm hx]

theorem ordered_used {l : List Nat} {hist : List Event} (h : Ordered l hist) (e : Nat) :
    Ordered (Spec.touch l e) (.used e :: hist) := by
  unfold Spec.touch
  constructor
  · intro x
    by_cases hx : x = e
    · subst hx; simp [age_used_self]
    · rw [age_used_other _ hx]; simp [hx, h.1 x]
  · refine List.pairwise_cons.2 ⟨?_, ?_⟩
    · intro b hb m n hm hn
      have hbe : b ≠ e := by simpa using (List.mem_filter.1 hb).2
      rw [age_used_self] at hm
      rw [age_used_other _ hbe] at hn
      simp at hm hn
      obtain ⟨k, _, rfl⟩ := hn
      omega
    · refine List.Pairwise.imp_of_mem ?_ (h.2.filter _)
      intro a b ha hb hab m n hm hn
      have hae : a ≠ e := by simpa using (List.mem_filter.1 ha).2
      have hbe : b ≠ e := by simpa using (List.mem_filter.1 hb).2
      rw [age_used_other _ hae] at hm
      rw [age_used_other _ hbe] at hn
      simp at hm hn
      obtain ⟨k, hk, rfl⟩ := hm
      obtain ⟨k', hk', rfl⟩ := hn
      have := hab k k' hk hk'
      omega

theorem ordered_left {l : List Nat} {hist : List Event} (h : Ordered l hist) (e : Nat) :
    Ordered (Spec.remove l e) (.left e :: hist) := by
  unfold Spec.remove
  constructor
  · intro x
    by_cases hx : x = e
    · subst hx; simp [age_left_self]
    · rw [age_left_other _ hx]; simp [hx, h.1 x]
  · refine List.Pairwise.imp_of_mem ?_ (h.2.filter _)
    intro a b ha hb hab m n hm hn
    have hae : a ≠ e := by simpa using (List.mem_filter.1 ha).2
    have hbe : b ≠ e := by simpa using (List.mem_filter.1 hb).2
    rw [age_left_other _ hae] at hm
    rw [age_left_other _ hbe] at hn
    simp at hm hn
    obtain ⟨k, hk, rfl⟩ := hm
    obtain ⟨k', hk', rfl⟩ := hn
    have := hab k k' hk hk'
    omega

theorem record_inv {st : State} {l : List Nat} {hist : List Event} (h : Rep st l)
    (hord : Ordered l hist) (ops : List Op) (ho : InBlock ops) :
    ∃ l', Rep (record st hist ops).1 l' ∧ Ordered l' (record st hist ops).2 := by
  induction ops generalizing st l hist with
  | nil => exact ⟨l, h, hord⟩
  | cons o os ih =>
    have hs := rep_step h o (fun e he => ho e (by simp [he]))
    refine ih hs.1 ?_ (fun e he => ho e (List.mem_cons_of_mem _ he))
    rw [hs.2]
    cases o with
    | touch e => exact ordered_used hord e
    | remove e => exact ordered_left hord e
    | evict =>
      show Ordered (Spec.evict l) (eventOf .evict (Spec.victim l) ++ hist)
      rcases List.eq_nil_or_concat l with h0 | ⟨p, z, hz⟩
      · subst h0; exact hord
      · simp only [List.concat_eq_append] at hz
        have hv : Spec.victim l = some z := by simp [Spec.victim, hz]
        have he : Spec.evict l = Spec.remove l z := by
          unfold Spec.evict Spec.remove
          rw [hz, List.dropLast_concat, filter_last (hz ▸ h.nodup)]
        rw [hv, he]
        exact ordered_left hord z

/-- **C24 (recency).** After any history, evicting returns nothing only if no slot is in use, and
otherwise returns a slot whose last use is the longest ago among all slots used and not removed or
evicted since. -/
theorem c24_evict_is_least_recent (ops : List Op) (ho : InBlock ops) :
    let r := record State.init [] ops
    match (r.1.step .evict).2 with
    | none => ∀ y, age y r.2 = none
    | some x => ∃ m, age x r.2 = some m ∧ ∀ y n, age y r.2 = some n → n ≤ m := by
  obtain ⟨l, hr, hord⟩ := record_inv rep_init (hist := []) ⟨by simp [age], by simp⟩ ops ho
  simp only
  have hs := (rep_step hr .evict (by simp)).2
  rw [hs]
  show match Spec.victim l with | none => _ | some x => _
  rcases List.eq_nil_or_concat l with h0 | ⟨p, z, hz⟩
  · subst h0
    show ∀ y, _
    intro y
    have := hord.1 y
    simpa using this
  · simp only [List.concat_eq_append] at hz
    have hv : Spec.victim l = some z := by simp [Spec.victim, hz]
    rw [hv]
    have hzl : z ∈ l := by simp [hz]
    obtain ⟨m, hm⟩ := Option.isSome_iff_exists.1 ((hord.1 z).1 hzl)
    refine ⟨m, hm, ?_⟩
    intro y n hn
    have hyl : y ∈ l := (hord.1 y).2 (by simp [hn])
    rw [hz] at hyl
    simp only [List.mem_append, List.mem_singleton] at hyl
    rcases hyl with hy | hy
    · have hp := hord.2
      rw [hz, List.pairwise_append] at hp
      have := hp.2.2 y hy z (by simp) n m hn hm
      omega
    · subst hy; rw [hn] at hm; simp at hm; omega

/-- **C24 (bounds).** After any history the victim is a slot of the 32-slot block, so the array
accesses of the code stay in range. -/
theorem c24_victim_in_block (ops : List Op) (ho : InBlock ops) :
    ∀ x, ((record State.init [] ops).1.step .evict).2 = some x → x < 32 := by
  obtain ⟨l, hr, hord⟩ := record_inv rep_init (hist := []) ⟨by simp [age], by simp⟩ ops ho
  intro x hx
  rw [(rep_step hr .evict (by simp)).2] at hx
  have : Spec.victim l = some x := hx
  exact hr.lt x (List.mem_of_getLast? this)

/-- Non-vacuity: the two-slot configuration around slot 0 in which both links of slot 5 are `(0,0)`
although it is on the list. -/
example : InBlock [.touch 5, .touch 0, .touch 5, .remove 0, .touch 7, .evict] := by
  intro e he; simp at he; omega
example : (State.init.run [.touch 5, .touch 0, .touch 5, .touch 7, .remove 0, .evict, .evict, .evict]).2
    = [none, none, none, none, none, some 5, some 7, none] := by decide
example : (State.init.run [.touch 0, .touch 5]).1.links 5 = (0, 0) := by decide

end Scc.Lru
