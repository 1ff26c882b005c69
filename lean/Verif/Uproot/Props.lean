import Verif.Uproot.Grow

/-!
# C68: `clear` and the calls on single keys have one order
-/

namespace Scc.Uproot

theorem flat_legal {s : St} (J : Inv s) : ∀ v, v < s.n → Legal Map.empty (s.flat v) Map.empty := by
  have seg : ∀ v, v < s.n → Legal Map.empty (s.seg v) Map.empty := by
    intro v hv
    show Legal _ (s.log v ++ (match s.clr v with | some x => [⟨x, .clear, none⟩] | none => [])) _
    cases hc : s.clr v with
    | none =>
      have := J.vals.legal v
      rw [(J.vals.left v hv hc).1] at this
      simpa using this
    | some x => exact (J.vals.legal v).snoc (e := ⟨x, .clear, none⟩) rfl
  intro v
  induction v with
  | zero => exact seg 0
  | succ v ih => exact fun hv => (ih (by omega)).append (seg _ hv)

theorem flat_now {s : St} (J : Inv s) : Legal Map.empty (s.flat s.n) (s.val s.n) := by
  have hl : s.seg s.n = s.log s.n := by
    show s.log s.n ++ (match s.clr s.n with | some x => [⟨x, .clear, none⟩] | none => []) = _
    rw [J.ord.clr s.n (Nat.le_refl _)]; simp
  have h0 := J.vals.legal s.n
  rw [← hl] at h0
  cases hn : s.n with
  | zero => rw [hn] at h0; exact h0
  | succ v =>
    rw [hn] at h0
    exact (flat_legal J v (by omega)).append h0

theorem mem_flat {s : St} {e : Ev} : ∀ v, e ∈ s.flat v ↔ ∃ w, w ≤ v ∧ e ∈ s.seg w
  | 0 => ⟨fun h => ⟨0, Nat.le_refl _, h⟩, fun ⟨w, hw, h⟩ => by rw [Nat.le_zero.1 hw] at h; exact h⟩
  | v + 1 => by
    show e ∈ s.flat v ++ s.seg (v + 1) ↔ _
    rw [List.mem_append, mem_flat v]
    constructor
    · rintro (⟨w, hw, h⟩ | h)
      · exact ⟨w, Nat.le_succ_of_le hw, h⟩
      · exact ⟨v + 1, Nat.le_refl _, h⟩
    · rintro ⟨w, hw, h⟩
      by_cases e' : w = v + 1
      · rw [e'] at h; exact .inr h
      · exact .inl ⟨w, by omega, h⟩

theorem flat_order {s : St} (J : Inv s) : ∀ v, (s.flat v).Pairwise fun e e' => ¬ s.bef e.id e'.id ∧ e.id ≠ e'.id
  | 0 => J.ord.seg 0
  | v + 1 => by
    refine List.pairwise_append.2 ⟨flat_order J v, J.ord.seg _, fun e he e' he' => ?_⟩
    obtain ⟨w, hw, h⟩ := (mem_flat v).1 he
    exact J.ord.cross w (v + 1) (by omega) e h e' he'

/-- C68. There is one order of the calls of `clear` and of the calls on single keys that have taken effect, in which no call comes after one that began
after it had returned and no call occurs twice. An ordinary map that is given the calls in this order returns what they returned and holds in the end what the
index holds; every call that has returned is among them, with its result, and besides these only calls that are about to return.

The full statement has no assumption about the calls on one tree; here each acts in one step (C53), and only once (C52). -/
theorem c68_partial {s : St} (h : Reach s) : ∃ l : List Ev,
    Legal Map.empty l (s.val s.n) ∧ (l.Pairwise fun e e' => ¬ s.bef e.id e'.id ∧ e.id ≠ e'.id) ∧ (∀ e ∈ s.got, e ∈ l) ∧
    ∀ e ∈ l, e ∈ s.got ∨ ∃ t, s.pc t = .ret e.id e.op e.res := by
  have J := inv h
  refine ⟨s.flat s.n, flat_now J, flat_order J _, fun e he => ?_, fun e he => ?_⟩
  · obtain ⟨v, hv⟩ := J.out.got e he
    by_cases hn : v ≤ s.n
    · exact (mem_flat _).2 ⟨v, hn, hv⟩
    · rw [J.ord.seg_top (by omega)] at hv; cases hv
  · obtain ⟨v, -, hv⟩ := (mem_flat _).1 he
    exact J.out.real v e hv

/-- What a map holds after calls that include `clear` depends on the calls after it only. -/
theorem Legal.after_clear {m m' : Map} {l : List Ev} (h : Legal m l m') : ∀ a e b, l = a ++ e :: b → e.op = .clear → Legal Map.empty b m' := by
  induction h with
  | nil => intro a e b hl; cases a <;> cases hl
  | cons hr h ih =>
    intro a e b hl he
    cases a with
    | nil => cases hl; rw [he] at h; exact h
    | cons x a => cases hl; exact ih a e b rfl he

/-- A map that is given no call that stores something under `k` has nothing there. -/
theorem Legal.none {m m' : Map} {l : List Ev} (h : Legal m l m') {k : Nat} (h0 : m k = .none)
    (hl : ∀ e ∈ l, ∀ f mk hn, e.op = .key k f mk hn → (f .none).1 = .none) : m' k = .none := by
  induction h with
  | nil => exact h0
  | @cons m m' e l hr h ih =>
    refine ih ?_ fun e' he' => hl e' (List.mem_cons.2 (.inr he'))
    have he := hl e (List.mem_cons.2 (.inl rfl))
    cases ho : e.op with
    | clear => rfl
    | key j f mk hn =>
      show upd m j (f (m j)).1 k = .none
      by_cases hj : k = j
      · rw [← hj] at ho ⊢
        rw [upd_same, h0]; exact he f mk hn ho
      · rw [upd_other _ _ hj]; exact h0

/-- C68, what `clear` does: after a call of it that has returned, the index holds a key only if some call that is not known to be older than it stored the key. -/
theorem c68_clear {s : St} (h : Reach s) {c : Ev} (hc : c ∈ s.got) (ho : c.op = .clear) {k : Nat} (hk : s.val s.n k ≠ none) :
    ∃ e f mk hn, (e ∈ s.got ∨ ∃ t, s.pc t = .ret e.id e.op e.res) ∧ e.op = .key k f mk hn ∧ (f none).1 ≠ none ∧ ¬ s.bef c.id e.id := by
  obtain ⟨v, hv⟩ := (inv h).out.got c hc
  have hv' : c ∈ s.flat s.n := by
    by_cases hn : v ≤ s.n
    · exact (mem_flat _).2 ⟨v, hn, hv⟩
    · rw [(inv h).ord.seg_top (by omega)] at hv; cases hv
  obtain ⟨a, b, hab⟩ := List.append_of_mem hv'
  have hp := flat_order (inv h) s.n
  rw [hab] at hp
  have hb := (List.pairwise_append.1 hp).2.1
  refine Classical.byContradiction fun hno => hk (Legal.none ((flat_now (inv h)).after_clear a c b hab ho) rfl fun e he f mk hn hf => ?_)
  refine Classical.byContradiction fun h1 => hno ?_
  have hm : e ∈ s.flat s.n := by rw [hab]; exact List.mem_append.2 (.inr (List.mem_cons.2 (.inr he)))
  obtain ⟨w, -, hw⟩ := (mem_flat _).1 hm
  exact ⟨e, f, mk, hn, (inv h).out.real w e hw, hf, h1, ((List.pairwise_cons.1 hb).1 e he).1⟩

/-! ## A run -/

def ins (k v : Nat) : Op := .key k (fun o => match o with | none => (some v, none) | some w => (some w, some w)) true (fun h => by cases h)

def peek (k : Nat) : Op := .key k (fun o => (o, o)) false (fun _ => rfl)

/-- An insertion loads the root, `clear` takes the tree out and returns, the insertion takes effect in the old tree and returns, and the key is not found: the
order of the returns does not explain this, an order in which the insertion comes before `clear` does. -/
theorem run_clear : ∃ s, Reach s ∧ s.got = [⟨0, ins 1 10, none⟩, ⟨2, .clear, none⟩, ⟨1, ins 2 20, none⟩, ⟨3, peek 2, none⟩] ∧
    (∀ m, ¬ Legal Map.empty s.got m) ∧ s.flat s.n = [⟨0, ins 1 10, none⟩, ⟨1, ins 2 20, none⟩, ⟨2, .clear, none⟩, ⟨3, peek 2, none⟩] := by
  have h := Reach.init
  replace h := h.step (.call (t := 0) (ins 1 10) rfl)
  replace h := h.step (.create (t := 0) rfl rfl rfl)
  replace h := h.step (.load (t := 0) rfl rfl)
  replace h := h.step (.act (t := 0) rfl (fun h => by cases h))
  replace h := h.step (.ret (t := 0) rfl)
  replace h := h.step (.call (t := 0) (ins 2 20) rfl)
  replace h := h.step (.load (t := 0) rfl rfl)
  replace h := h.step (.call (t := 1) .clear rfl)
  replace h := h.step (.clear (t := 1) rfl rfl)
  replace h := h.step (.ret (t := 1) rfl)
  replace h := h.step (.act (t := 0) rfl (fun h => by cases h))
  replace h := h.step (.ret (t := 0) rfl)
  replace h := h.step (.call (t := 0) (peek 2) rfl)
  replace h := h.step (.null (t := 0) rfl rfl rfl)
  replace h := h.step (.ret (t := 0) rfl)
  refine ⟨_, h, rfl, fun m hm => ?_, rfl⟩
  cases hm with
  | cons _ h1 =>
    cases h1 with
    | cons _ h2 =>
      cases h2 with
      | cons _ h3 =>
        cases h3 with
        | cons hr _ => exact absurd hr (by decide)

/-- A state as `c68_clear` speaks of. -/
example : ∃ s, Reach s ∧ ∃ c ∈ s.got, c.op = .clear ∧ s.val s.n 1 ≠ none := by
  have h := Reach.init
  replace h := h.step (.call (t := 0) .clear rfl)
  replace h := h.step (.clear0 (t := 0) rfl rfl)
  replace h := h.step (.ret (t := 0) rfl)
  replace h := h.step (.call (t := 0) (ins 1 10) rfl)
  replace h := h.step (.create (t := 0) rfl rfl rfl)
  replace h := h.step (.load (t := 0) rfl rfl)
  replace h := h.step (.act (t := 0) rfl (fun h => by cases h))
  exact ⟨_, h, ⟨0, .clear, none⟩, List.mem_singleton.2 rfl, rfl, by decide⟩

end Scc.Uproot
