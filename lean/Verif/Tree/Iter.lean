import Verif.Tree.IterModel
import Verif.Tree.Range

/-!
# Iterators: scanners over the linked list of leaves
-/

set_option linter.unusedSimpArgs false
set_option linter.unusedSectionVars false
set_option linter.unusedVariables false

namespace Scc.Tree

open Scc.Leaf Scc.Leaf.Spec

variable {K V C : Type} [KeyOrd K]

/-! ## A leaf from a slot on -/

/-- What a scanner at slot `i` still yields. -/
def rest (l : Leaf K V) (i : Nat) : List (K × V) := l.scanFrom l.w (numEntries + 1) i

/-- Slots a scanner can be at. -/
def SlotAt (w : Word) (i : Nat) : Prop := i = numEntries ∨ (i < numEntries ∧ Ranked w i)

theorem rest_all (l : Leaf K V) : rest l numEntries = l.toList := rfl

theorem at_start (w : Word) : SlotAt w numEntries := .inl rfl

theorem rest_step {l : Leaf K V} (w : WL l) {i : Nat} (hi : SlotAt l.w i) :
    (nextSlot i l.w = numEntries ∧ rest l i = []) ∨
    (nextSlot i l.w < numEntries ∧ SlotAt l.w (nextSlot i l.w) ∧
      ∃ e, l.entry (nextSlot i l.w) = some e ∧ rest l i = e :: rest l (nextSlot i l.w)) := by
  have o := w.rel.ok.ord
  have hns := nextSlot_spec (w := l.w) (index := i) (by
    rcases hi with h | ⟨_, h⟩
    · exact .inl h
    · exact .inr h)
  rcases hns with ⟨h1, h2⟩ | ⟨h1, h2, h3, h4⟩
  · refine .inl ⟨h1, ?_⟩
    unfold rest Leaf.scanFrom
    simp only []
    rw [if_pos h1]
  · refine .inr ⟨h1, .inr ⟨h1, h2⟩, ?_⟩
    obtain ⟨e, he⟩ := o.init _ h1 h2
    refine ⟨e, he, ?_⟩
    have hr : curRank (nextSlot i l.w) l.w = rank l.w (nextSlot i l.w) := by
      unfold curRank; rw [if_neg (by omega)]
    have hp := h2.1
    obtain ⟨a1, a2⟩ := scanFrom_spec o numEntries (nextSlot i l.w) (.inr ⟨h1, h2⟩)
      (by rw [hr]; unfold removed numEntries; omega)
    obtain ⟨b1, b2⟩ := scanFrom_spec o (numEntries + 1) (nextSlot i l.w) (.inr ⟨h1, h2⟩)
      (by rw [hr]; unfold removed numEntries; omega)
    have : l.scanFrom l.w numEntries (nextSlot i l.w) = l.scanFrom l.w (numEntries + 1) (nextSlot i l.w) :=
      sorted_ext a1 b1 (fun e => by rw [a2, b2])
    show l.scanFrom l.w (numEntries + 1) i = e :: l.scanFrom l.w (numEntries + 1) (nextSlot i l.w)
    rw [← this]
    conv => lhs; unfold Leaf.scanFrom
    simp only []
    rw [if_neg (by omega), he]
    rfl

theorem rest_split {l : Leaf K V} (w : WL l) {i : Nat} (hi : i < numEntries) (hr : Ranked l.w i) {e : K × V}
    (he : l.entry i = some e) : ∃ P, l.toList = P ++ e :: rest l i := by
  have o := w.rel.ok.ord
  have hv := w.rel.view
  have hm : e ∈ l.toList := (w.rel.mem e).2 ⟨i, hi, hr, he⟩
  obtain ⟨P, Q, hPQ⟩ := List.append_of_mem hm
  refine ⟨P, ?_⟩
  rw [hPQ]
  have hs := w.sorted
  rw [hPQ] at hs
  obtain ⟨h1, h2⟩ := sorted_split hs
  have hcr : curRank i l.w = rank l.w i := by unfold curRank; rw [if_neg (by omega)]
  obtain ⟨b1, b2⟩ := scanFrom_spec o (numEntries + 1) i (.inr ⟨hi, hr⟩)
    (by rw [hcr]; have := hr.1; unfold removed numEntries; omega)
  have hQ : Sorted Q := sorted_tail (List.pairwise_append.1 hs).2.1
  have : Q = rest l i := by
    refine sorted_ext hQ b1 ?_
    intro x
    rw [show x ∈ rest l i ↔ _ from b2 x, hcr]
    constructor
    · intro hx
      have hxm : x ∈ l.toList := by rw [hPQ]; simp [hx]
      obtain ⟨j, hj, hrj, hej⟩ := (w.rel.mem x).1 hxm
      exact ⟨j, hj, hrj, o.lt_rank hi hj hr hrj he hej (h2 x hx), hej⟩
    · rintro ⟨j, hj, hrj, hlt, hej⟩
      have hlt' := o.mono _ _ _ _ hi hj hr hrj hlt he hej
      have hxm : x ∈ l.toList := (w.rel.mem x).2 ⟨j, hj, hrj, hej⟩
      rw [hPQ] at hxm
      rcases List.mem_append.1 hxm with h | h
      · exact absurd (h1 x h) (lt_asymm' hlt')
      · rcases List.mem_cons.1 h with h | h
        · subst h; exact absurd hlt' (KeyOrd.irrefl _)
        · exact h
  rw [this]

/-! ## Scanners -/

/-- All entries of the leaves `L`. -/
def entries (H : Hp K V) (L : List Nat) : List (K × V) := L.flatMap (fun i => (H.leaf i).toList)

/-- What is asked of the list of leaves. -/
structure Chain (H : Hp K V) (L : List Nat) : Prop where
  linked : Linked H L
  wl : ∀ i ∈ L, WL (H.leaf i)
  sorted : Sorted (entries H L)

/-- The scanner is in the leaf between `pre` and `post`, with `Q` to be yielded from that leaf. -/
structure Pos (H : Hp K V) (L : List Nat) (s : Scn) (pre post : List Nat) (Q : List (K × V)) : Prop where
  split : L = pre ++ s.leaf :: post
  word : s.w = (H.leaf s.leaf).w
  here : (∃ i, s.idx = some i ∧ SlotAt s.w i ∧ Q = rest (H.leaf s.leaf) i) ∨ (s.idx = none ∧ Q = [])

theorem Pos.new {H : Hp K V} {pre post : List Nat} {i : Nat} :
    Pos H (pre ++ i :: post) (Scn.new H i) pre post (H.leaf i).toList :=
  ⟨rfl, rfl, .inl ⟨numEntries, rfl, at_start _, rfl⟩⟩

theorem step_leaf (s : Scn) : s.step.leaf = s.leaf := by
  unfold Scn.step
  split
  · rfl
  · split <;> rfl

theorem step_w (s : Scn) : s.step.w = s.w := by
  unfold Scn.step
  split
  · rfl
  · split <;> rfl

/-- One step: either an entry, or the end of the leaf. -/
theorem Pos.step {H : Hp K V} {L pre post : List Nat} {s : Scn} {Q : List (K × V)} (c : Chain H L)
    (p : Pos H L s pre post Q) :
    (s.step.get H = none ∧ Q = [] ∧ Pos H L s.step pre post []) ∨
    (∃ e Q', s.step.get H = some e ∧ Q = e :: Q' ∧ Pos H L s.step pre post Q') := by
  have w : WL (H.leaf s.leaf) := c.wl _ (by rw [p.split]; simp)
  rcases p.here with ⟨i, hi, ha, hQ⟩ | ⟨hi, hQ⟩
  · rw [p.word] at ha
    rcases rest_step w ha with ⟨h1, h2⟩ | ⟨h1, h2, e, h3, h4⟩
    · left
      have hst : s.step = { s with idx := none } := by
        unfold Scn.step; rw [hi]; simp only []; rw [p.word, if_pos h1]
      rw [hst]
      exact ⟨rfl, hQ.trans h2, p.split, p.word, .inr ⟨rfl, rfl⟩⟩
    · right
      have hst : s.step = { s with idx := some (nextSlot i (H.leaf s.leaf).w) } := by
        unfold Scn.step; rw [hi]; simp only []; rw [p.word, if_neg (by omega)]
      refine ⟨e, _, ?_, hQ.trans h4, ?_⟩
      · rw [hst]
        unfold Scn.get
        simp only []
        rw [if_neg (by omega)]; exact h3
      · rw [hst]
        exact ⟨p.split, p.word, .inl ⟨_, rfl, by rw [p.word]; exact h2, rfl⟩⟩
  · left
    have hst : s.step = s := by unfold Scn.step; rw [hi]
    rw [hst]
    refine ⟨?_, hQ, p.split, p.word, .inr ⟨hi, rfl⟩⟩
    unfold Scn.get; rw [hi]

/-- The scanner points to `e`, and `R` follows. -/
def On (H : Hp K V) (L : List Nat) (s : Scn) (e : K × V) (R : List (K × V)) : Prop :=
  ∃ pre post Q, Pos H L s pre post Q ∧ s.get H = some e ∧ R = Q ++ entries H post

theorem entries_append (H : Hp K V) (A B : List Nat) : entries H (A ++ B) = entries H A ++ entries H B := by
  unfold entries; rw [List.flatMap_append]

theorem entries_cons (H : Hp K V) (a : Nat) (B : List Nat) :
    entries H (a :: B) = (H.leaf a).toList ++ entries H B := by
  unfold entries; rw [List.flatMap_cons]

/-- What is before the entry a scanner points to. -/
theorem On.split {H : Hp K V} {L : List Nat} {s : Scn} {e : K × V} {R : List (K × V)} (c : Chain H L)
    (h : On H L s e R) : ∃ P, entries H L = P ++ e :: R := by
  obtain ⟨pre, post, Q, p, hg, hR⟩ := h
  have w : WL (H.leaf s.leaf) := c.wl _ (by rw [p.split]; simp)
  rcases p.here with ⟨i, hi, ha, hQ⟩ | ⟨hi, hQ⟩
  · unfold Scn.get at hg
    rw [hi] at hg
    simp only [] at hg
    by_cases hlt : i ≥ numEntries
    · rw [if_pos hlt] at hg; cases hg
    · rw [if_neg hlt] at hg
      rcases ha with ha | ⟨h1, h2⟩
      · omega
      · rw [p.word] at h2
        obtain ⟨P, hP⟩ := rest_split w h1 h2 hg
        refine ⟨entries H pre ++ P, ?_⟩
        rw [p.split, entries_append, entries_cons, hP, hR, hQ]
        simp
  · unfold Scn.get at hg
    rw [hi] at hg; cases hg

theorem On.lt {H : Hp K V} {L : List Nat} {s : Scn} {e : K × V} {R : List (K × V)} (c : Chain H L)
    (h : On H L s e R) : ∀ x ∈ R, KeyOrd.lt e.1 x.1 := by
  obtain ⟨P, hP⟩ := h.split c
  have hs := c.sorted
  rw [hP] at hs
  exact (sorted_split hs).2

/-- The inner loop of `jump`, when all keys of the leaf are greater. -/
theorem skipTo_spec {H : Hp K V} {L pre post : List Nat} {s : Scn} {Q : List (K × V)} (c : Chain H L)
    (p : Pos H L s pre post Q) {k : K} (hk : ∀ x ∈ Q, KeyOrd.lt k x.1) (f : Nat) :
    (Q = [] ∧ Scn.skipTo H k (f + 1) s = none) ∨
    (∃ e Q', Q = e :: Q' ∧ Scn.skipTo H k (f + 1) s = some s.step ∧ s.step.get H = some e ∧
      Pos H L s.step pre post Q') := by
  unfold Scn.skipTo
  rcases p.step c with ⟨h1, h2, h3⟩ | ⟨e, Q', h1, h2, h3⟩
  · rw [h1]; exact .inl ⟨h2, rfl⟩
  · right
    refine ⟨e, Q', h2, ?_, h1, h3⟩
    rw [h1]
    simp only []
    rw [if_pos]
    rw [cmp_lt]
    exact hk e (by rw [h2]; exact List.mem_cons_self ..)

theorem jumpLoop_spec {H : Hp K V} {L : List Nat} (c : Chain H L) (key : Option K) :
    ∀ (post pre : List Nat) (f : Nat), L = pre ++ post → post.length < f →
    (∀ k, key = some k → ∀ x ∈ entries H post, KeyOrd.lt k x.1) →
    (entries H post = [] ∧ jumpLoop H key f post.head? = none) ∨
    (∃ s e R, entries H post = e :: R ∧ jumpLoop H key f post.head? = some s ∧ On H L s e R ∧ s.leaf ∈ post) := by
  intro post
  induction post with
  | nil =>
    intro pre f hL hf hk
    cases f with
    | zero => cases hf
    | succ f => exact .inl ⟨rfl, rfl⟩
  | cons i post ih =>
    intro pre f hL hf hk
    cases f with
    | zero => cases hf
    | succ f =>
      have hn : H.nextPtr i = post.head? := by
        have := c.linked
        rw [hL] at this
        exact this.nextPtr
      have ih' := ih (pre ++ [i]) f (by rw [hL]; simp) (by simp at hf; omega) (by
        intro k hk' x hx
        exact hk k hk' x (by rw [entries_cons]; exact List.mem_append.2 (.inr hx)))
      have hp : Pos H L (Scn.new H i) pre post (H.leaf i).toList := by rw [hL]; exact Pos.new
      rw [List.head?_cons, entries_cons]
      cases key with
      | some k =>
        unfold jumpLoop
        simp only []
        rcases skipTo_spec c hp (k := k) (by
          intro x hx
          exact hk k rfl x (by rw [entries_cons]; exact List.mem_append.2 (.inl hx))) numEntries with
          ⟨h1, h2⟩ | ⟨e, Q', h1, h2, h3, h4⟩
        · rw [h2]
          simp only []
          rw [hn, h1, List.nil_append]
          rcases ih' with h | ⟨s, e, R, h5, h6, h7, h8⟩
          · exact .inl h
          · exact .inr ⟨s, e, R, h5, h6, h7, List.mem_cons_of_mem _ h8⟩
        · rw [h2]
          right
          refine ⟨_, e, Q' ++ entries H post, by rw [h1]; rfl, rfl, ⟨pre, post, Q', h4, h3, rfl⟩, ?_⟩
          rw [step_leaf]; exact List.mem_cons_self ..
      | none =>
        unfold jumpLoop
        simp only []
        rcases hp.step c with ⟨h1, h2, h3⟩ | ⟨e, Q', h1, h2, h3⟩
        · rw [if_neg (by rw [h1]; simp), hn, h2, List.nil_append]
          rcases ih' with h | ⟨s, e, R, h5, h6, h7, h8⟩
          · exact .inl h
          · exact .inr ⟨s, e, R, h5, h6, h7, List.mem_cons_of_mem _ h8⟩
        · rw [if_pos (by rw [h1]; rfl)]
          right
          refine ⟨_, e, Q' ++ entries H post, by rw [h2]; rfl, rfl, ⟨pre, post, Q', h3, h1, rfl⟩, ?_⟩
          rw [step_leaf]; exact List.mem_cons_self ..

theorem Pos.jump {H : Hp K V} {L pre post : List Nat} {s : Scn} {Q : List (K × V)} (c : Chain H L)
    (p : Pos H L s pre post Q) (min : Option K) (hk : ∀ k, min = some k → ∀ x ∈ entries H post, KeyOrd.lt k x.1) :
    (entries H post = [] ∧ s.jump H min = none) ∨
    (∃ s' e R, entries H post = e :: R ∧ s.jump H min = some s' ∧ On H L s' e R ∧ s'.leaf ∈ post) := by
  have hn : H.nextPtr s.leaf = post.head? := by
    have := c.linked
    rw [p.split] at this
    exact this.nextPtr
  unfold Scn.jump
  rw [hn]
  have hlen : L.length ≤ H.fresh := nodup_length_le c.linked.nodup c.linked.lt
  rw [p.split] at hlen
  refine jumpLoop_spec c _ post (pre ++ [s.leaf]) _ (by rw [p.split]; simp) (by simp at hlen; omega) ?_
  intro k hk' x hx
  refine hk k ?_ x hx
  split at hk'
  · cases hk'
  · exact hk'

/-- `settle` finds the first entry. -/
theorem Pos.settle {H : Hp K V} {L pre post : List Nat} {s : Scn} {Q : List (K × V)} (c : Chain H L)
    (p : Pos H L s pre post Q) :
    (Q ++ entries H post = [] ∧ s.settle H = none) ∨
    (∃ s' e R, Q ++ entries H post = e :: R ∧ s.settle H = some s' ∧ On H L s' e R) := by
  unfold Scn.settle
  rcases p.step c with ⟨h1, h2, h3⟩ | ⟨e, Q', h1, h2, h3⟩
  · rw [if_neg (by rw [h1]; simp), h2, List.nil_append]
    rcases h3.jump c none (fun k h => (by cases h)) with h | ⟨s', e, R, h4, h5, h6, _⟩
    · exact .inl h
    · exact .inr ⟨s', e, R, h4, h5, h6⟩
  · rw [if_pos (by rw [h1]; rfl)]
    exact .inr ⟨_, e, Q' ++ entries H post, by rw [h2]; rfl, rfl, ⟨pre, post, Q', h3, h1, rfl⟩⟩

/-- `advance` goes to the next entry. -/
theorem Pos.advance {H : Hp K V} {L pre post : List Nat} {s : Scn} {Q : List (K × V)} (c : Chain H L)
    (p : Pos H L s pre post Q) (hk : ∀ e, s.get H = some e → ∀ x ∈ entries H post, KeyOrd.lt e.1 x.1) :
    (Q ++ entries H post = [] ∧ advance H s = (none, none)) ∨
    (∃ s' e R, Q ++ entries H post = e :: R ∧ advance H s = (some s', some e) ∧ On H L s' e R) := by
  unfold Tree.advance
  rcases p.step c with ⟨h1, h2, h3⟩ | ⟨e, Q', h1, h2, h3⟩
  · rw [h1, h2, List.nil_append]
    simp only []
    rcases h3.jump c ((s.get H).map (fun e => e.1)) (by
      intro k h x hx
      rw [Option.map_eq_some_iff] at h
      obtain ⟨e, he, rfl⟩ := h
      exact hk e he x hx) with ⟨h4, h5⟩ | ⟨s', e, R, h4, h5, h6, _⟩
    · rw [h5]; exact .inl ⟨h4, rfl⟩
    · rw [h5]
      simp only []
      have hg : s'.get H = some e := by
        obtain ⟨_, _, _, _, hg, _⟩ := h6
        exact hg
      rw [hg]
      exact .inr ⟨s', e, R, h4, rfl, h6⟩
  · rw [h1]
    exact .inr ⟨_, e, Q' ++ entries H post, by rw [h2]; rfl, rfl, ⟨pre, post, Q', h3, h1, rfl⟩⟩

theorem On.advance {H : Hp K V} {L : List Nat} {s : Scn} {e : K × V} {R : List (K × V)} (c : Chain H L)
    (h : On H L s e R) :
    (R = [] ∧ Tree.advance H s = (none, none)) ∨
    (∃ s' e' R', R = e' :: R' ∧ Tree.advance H s = (some s', some e') ∧ On H L s' e' R') := by
  have hlt := h.lt c
  obtain ⟨pre, post, Q, p, hg, rfl⟩ := h
  refine p.advance c ?_
  intro e' he' x hx
  rw [hg] at he'; cases he'
  exact hlt x (List.mem_append.2 (.inr hx))

/-! ## The first leaf -/

theorem minTr_spec (H : Hp K V) (h : Nat) : ∀ (lo hi : Option K) (n : Tr K (h + 1)), WF H (h + 1) lo hi n →
    ∃ i r, leaves (h + 1) n = i :: r ∧ minTr H h n = some (Scn.new H i) := by
  induction h with
  | zero =>
    intro lo hi n hw
    obtain ⟨w, hf, hd, hu, hcov⟩ := hw
    obtain ⟨u, hu⟩ := Option.isSome_iff_exists.1 hu
    unfold minTr
    rw [leaves, hu]
    cases hk : n.kids.toList with
    | nil => exact ⟨u, [], rfl, rfl⟩
    | cons e r => exact ⟨e.2, _, rfl, rfl⟩
  | succ h ih =>
    intro lo hi n hw
    obtain ⟨w, hf, hd, hu, hcov⟩ := hw
    obtain ⟨u, hu⟩ := Option.isSome_iff_exists.1 hu
    unfold minTr
    rw [leaves, hu]
    cases hk : n.kids.toList with
    | nil =>
      obtain ⟨lo', hi', hwu⟩ : ∃ lo' hi', WF H (h + 1) lo' hi' u := by
        have : ents n = [(none, u)] := by unfold ents; rw [hk, hu]; rfl
        rw [this] at hcov
        exact ⟨_, _, hcov.1⟩
      obtain ⟨i, r, h1, h2⟩ := ih _ _ u hwu
      exact ⟨i, r, h1, h2⟩
    | cons e R =>
      obtain ⟨lo', hi', hwe⟩ : ∃ lo' hi', WF H (h + 1) lo' hi' e.2 := by
        have : ents n = (some e.1, e.2) :: (keyed R ++ [(none, u)]) := by unfold ents; rw [hk, hu]; rfl
        rw [this] at hcov
        exact ⟨_, _, hcov.1⟩
      obtain ⟨i, r, h1, h2⟩ := ih _ _ e.2 hwe
      refine ⟨i, r ++ (R.flatMap (fun e => leaves (h + 1) e.2) ++ leaves (h + 1) u), ?_, ?_⟩
      · simp [List.flatMap_cons, h1]
      · simp [List.findSome?_cons, h2]

theorem wf_leaves {H : Hp K V} (h : Nat) : ∀ (lo hi : Option K) (c : Tr K h), WF H h lo hi c →
    ∀ i ∈ leaves h c, WL (H.leaf i) := by
  induction h with
  | zero =>
    intro lo hi c hw i hi'
    have : i = c := List.mem_singleton.1 hi'
    rw [this]; exact hw.1
  | succ h ih =>
    intro lo hi n hw i hi'
    obtain ⟨w, hf, hd, hu, hcov⟩ := hw
    rw [leaves_succ h n] at hi'
    obtain ⟨e, he, hie⟩ := List.mem_flatMap.1 hi'
    obtain ⟨A, B, hAB⟩ := List.append_of_mem he
    obtain ⟨s, c⟩ := e
    rw [hAB] at hcov
    exact ih _ _ c (cov_focus.1 hcov).2.2.1 i hie

theorem Ix.Inv.chain {H : Hp K V} {h : Nat} {n : Tr K (h + 1)}
    (hx : Ix.Inv (⟨some ⟨h, n⟩, H⟩ : Ix K V)) : Chain H (leaves (h + 1) n) := by
  have hs : Sorted _ := Ix.Inv.sorted hx
  obtain ⟨hw, hl⟩ := hx
  exact ⟨hl, wf_leaves (h + 1) _ _ n hw, hs⟩

/-! ## Iter -/

/-- State of an `Iter` with the entries `R` to come. -/
def IterAt (x : Ix K V) (it : Option Scn) (R : List (K × V)) : Prop :=
  match x.root with
  | none => it = none ∧ R = []
  | some ⟨h, n⟩ =>
    match it with
    | none => R = x.toList
    | some s => ∃ e, On x.hp (leaves (h + 1) n) s e R

theorem iterAt_new (x : Ix K V) : IterAt x none x.toList := by
  unfold IterAt
  cases hr : x.root with
  | none => refine ⟨rfl, ?_⟩; unfold Ix.toList; rw [hr]
  | some r => obtain ⟨h, n⟩ := r; rfl

theorem iterNext_spec {x : Ix K V} (hx : x.Inv) {it : Option Scn} {R : List (K × V)} (hi : IterAt x it R) :
    (R = [] ∧ x.iterNext it = (none, none)) ∨
    (∃ it' e R', R = e :: R' ∧ x.iterNext it = (it', some e) ∧ IterAt x it' R') := by
  obtain ⟨root, H⟩ := x
  cases root with
  | none => obtain ⟨rfl, rfl⟩ := hi; exact .inl ⟨rfl, rfl⟩
  | some r =>
    obtain ⟨h, n⟩ := r
    have c := Ix.Inv.chain hx
    unfold Ix.iterNext
    cases it with
    | some s =>
      obtain ⟨e, ho⟩ := hi
      simp only []
      rcases ho.advance c with ⟨h1, h2⟩ | ⟨s', e', R', h1, h2, h3⟩
      · rw [h2]; exact .inl ⟨h1, rfl⟩
      · rw [h2]; exact .inr ⟨_, e', R', h1, rfl, e', h3⟩
    | none =>
      obtain ⟨i, r, h1, h2⟩ := minTr_spec H h _ _ n hx.1
      have hR : R = entries H (leaves (h + 1) n) := hi
      rw [h1, entries_cons] at hR
      simp only []
      rw [h2]
      simp only []
      have hp : Pos H (leaves (h + 1) n) (Scn.new H i) [] r (H.leaf i).toList := by
        rw [h1]; exact Pos.new (pre := [])
      have hng : (Scn.new H i).get H = none := by simp [Scn.get, Scn.new]
      rcases hp.advance c (fun e he => (by rw [hng] at he; cases he)) with ⟨h3, h4⟩ | ⟨s', e', R', h3, h4, h5⟩
      · rw [h4]; exact .inl ⟨hR.trans h3, rfl⟩
      · rw [h4]; exact .inr ⟨_, e', R', hR.trans h3, rfl, e', h5⟩

/-- All calls up to the first `None` and what comes after. -/
theorem iterCalls_spec {x : Ix K V} (hx : x.Inv) (m : Nat) : ∀ (R : List (K × V)) (it : Option Scn), IterAt x it R →
    x.iterCalls (R.length + 1 + m) it = R.map some ++ none :: x.iterCalls m none := by
  intro R
  induction R with
  | nil =>
    intro it hi
    rw [show ([] : List (K × V)).length + 1 + m = m + 1 by simp; omega]
    rcases iterNext_spec hx hi with ⟨_, h⟩ | ⟨_, _, _, h, _⟩
    · conv => lhs; unfold Ix.iterCalls
      rw [h]; rfl
    · cases h
  | cons e R ih =>
    intro it hi
    rw [show (e :: R).length + 1 + m = (R.length + 1 + m) + 1 by simp; omega]
    rcases iterNext_spec hx hi with ⟨h, _⟩ | ⟨it', e', R', h1, h2, h3⟩
    · cases h
    · cases h1
      conv => lhs; unfold Ix.iterCalls
      rw [h2]
      simp only [List.map_cons, List.cons_append]
      rw [ih it' h3]

theorem iterTake_spec {x : Ix K V} (hx : x.Inv) : ∀ (R : List (K × V)) (it : Option Scn) (m : Nat), IterAt x it R →
    R.length < m → x.iterTake m it = R := by
  intro R
  induction R with
  | nil =>
    intro it m hi hm
    cases m with
    | zero => rfl
    | succ m =>
      rcases iterNext_spec hx hi with ⟨_, h⟩ | ⟨_, _, _, h, _⟩
      · unfold Ix.iterTake; rw [h]
      · cases h
  | cons e R ih =>
    intro it m hi hm
    cases m with
    | zero => cases hm
    | succ m =>
      rcases iterNext_spec hx hi with ⟨h, _⟩ | ⟨it', e', R', h1, h2, h3⟩
      · cases h
      · cases h1
        unfold Ix.iterTake
        rw [h2]
        simp only []
        rw [ih it' m h3 (by simp at hm; omega)]

end Scc.Tree
