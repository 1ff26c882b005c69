import Verif.Peek.Model

/-!
# Invariants of a bucket with lock-free readers
-/

set_option linter.unusedSimpArgs false
set_option linter.unusedSectionVars false
set_option linter.unusedVariables false

namespace Scc.Peek

variable {K V : Type} [DecidableEq K]

/-! ## Links -/

theorem Reach.trans {nx : Nat → Option Nat} {a b c : Nat} (h : Reach nx a b) (h' : Reach nx b c) : Reach nx a c := by
  induction h with
  | refl a => exact h'
  | cons h1 _ ih => exact .cons h1 (ih h')

/-- A new block `n` is put between block 0 and its successor. -/
theorem Reach.head {nx nx' : Nat → Option Nat} {n : Nat} (hn : nx n = none) (h0 : n ≠ 0)
    (h1 : nx' 0 = some n) (h2 : nx' n = nx 0) (h3 : ∀ a, a ≠ 0 → a ≠ n → nx' a = nx a) {a b : Nat}
    (h : Reach nx a b) : Reach nx' a b := by
  induction h with
  | refl a => exact .refl a
  | @cons a c b h4 _ ih =>
    by_cases ha : a = 0
    · subst ha
      exact .cons h1 (.cons (h2.trans h4) ih)
    · by_cases hb : a = n
      · subst hb; rw [hn] at h4; cases h4
      · exact .cons ((h3 a ha hb).trans h4) ih

/-- A link is added where there was none. -/
theorem Reach.extend {nx nx' : Nat → Option Nat} {t : Nat} (ht : nx t = none)
    (h3 : ∀ a, a ≠ t → nx' a = nx a) {a b : Nat} (h : Reach nx a b) : Reach nx' a b := by
  induction h with
  | refl a => exact .refl a
  | @cons a c b h4 _ ih =>
    by_cases ha : a = t
    · subst ha; rw [ht] at h4; cases h4
    · exact .cons ((h3 a ha).trans h4) ih

/-- A link is taken away that does not lead to the target. -/
theorem Reach.cut {nx nx' : Nat → Option Nat} {t : Nat}
    (h3 : ∀ a, a ≠ t → nx' a = nx a) {a b : Nat} (h : Reach nx a b)
    (ht : ∀ c, nx t = some c → ¬ Reach nx c b) : Reach nx' a b := by
  induction h with
  | refl a => exact .refl a
  | @cons a c b h4 h5 ih =>
    by_cases ha : a = t
    · subst ha; exact absurd h5 (ht c h4)
    · exact .cons ((h3 a ha).trans h4) (ih ht)

/-! ## The invariant -/

/-- A live slot with key `k` and its partial hash. -/
def Slot (hp : K → Nat) (s : St K V) (k : K) (b i : Nat) (v : V) : Prop :=
  i < blkLen b ∧ s.live b i ∧ s.cell b i = some (k, v) ∧ s.ph b i = hp k

/-- The entry a reader has a reference to is still there. -/
def Kept (s : St K V) (r b i : Nat) (e : K × V) : Prop :=
  s.cell b i = some e ∧
    (s.ext = true ∨ s.occ b i = true ∧ (s.rem b i = true → s.pin b i r = true))

/-- What is true of a reader. -/
def PcOk (s : St K V) (r : Nat) : RPC K V → Prop
  | .sOcc _ b rm => ∀ i, rm i = false → s.rem b i = true → s.pin b i r = true
  | .iOcc b _ rm => ∀ i, rm i = false → s.rem b i = true → s.pin b i r = true
  | .sHash _ b bm _ => ∀ i, bm i = true → ∃ e, Kept s r b i e
  | .sCell _ b bm => ∀ i, bm i = true → ∃ e, Kept s r b i e
  | _ => True

structure RdOk (s : St K V) (r : Nat) : Prop where
  refs : (s.rd r).alive = true → ∀ b i e, (b, i, e) ∈ s.refs r → Kept s r b i e
  pc : PcOk s r (s.rd r)
  none : s.rd r = .new → s.refs r = []

/-- The insertion that is half done leaves `len` as it is; an update has one entry more in between; a moved
entry is counted until the end. -/
def adj : WPC K V → Nat
  | .rmLen .. => 1
  | .exLen => 1
  | _ => 0

/-- Two slots with the same key, in the middle of an update. -/
def Two (w : WPC K V) (k : K) (p q : Nat × Nat) : Prop :=
  match w with
  | .insLen k' b i (some o) => k' = k ∧ (p = o ∧ q = (b, i) ∨ q = o ∧ p = (b, i))
  | .rmLen k' b i n => k' = k ∧ (p = n ∧ q = (b, i) ∨ q = n ∧ p = (b, i))
  | .rmHash k' b i (some n) => k' = k ∧ (p = n ∧ q = (b, i) ∨ q = n ∧ p = (b, i))
  | .rmRem k' b i (some n) => k' = k ∧ (p = n ∧ q = (b, i) ∨ q = n ∧ p = (b, i))
  | _ => False

/-- A key that is being inserted or removed. -/
def Busy (w : WPC K V) (k : K) : Prop :=
  match w with
  | .insLen k' _ _ none => k' = k
  | .rmHash k' _ _ none => k' = k
  | .rmRem k' _ _ none => k' = k
  | _ => False

/-- The slot to be removed later, in the first half of an update. -/
def OldOk (s : St K V) (k : K) : Option (Nat × Nat) → Prop
  | none => ∀ v, ¬ s.stored k v
  | some o => k ∈ s.must ∧ s.live o.1 o.2 ∧ ∃ v, s.cell o.1 o.2 = some (k, v)

/-- The new copy, in the second half of an update. -/
def NewOk (hp : K → Nat) (s : St K V) (k : K) (p : Nat × Nat) : Option (Nat × Nat) → Prop
  | none => k ∉ s.must
  | some n => k ∈ s.must ∧ n ≠ p ∧ (∃ v, Slot hp s k n.1 n.2 v) ∧ Reach s.next 0 n.1

/-- What is true of the owner of the lock. -/
def WOk (hp : K → Nat) (s : St K V) : WPC K V → Prop
  | .idle => True
  | .insHash k v b i u => s.ext = false ∧ s.occ b i = false ∧ s.rem b i = false ∧
      s.cell b i = some (k, v) ∧ i < blkLen b ∧ Reach s.next 0 b ∧ OldOk s k u
  | .insOcc k v b i u => s.ext = false ∧ s.occ b i = false ∧ s.rem b i = false ∧
      s.cell b i = some (k, v) ∧ i < blkLen b ∧ Reach s.next 0 b ∧ OldOk s k u ∧ s.ph b i = hp k
  | .insLen k b i u => s.ext = false ∧ (∃ v, Slot hp s k b i v) ∧ Reach s.next 0 b ∧
      (match u with
        | none => k ∉ s.must
        | some o => o ≠ (b, i) ∧ k ∈ s.must ∧ s.live o.1 o.2 ∧ ∃ v, s.cell o.1 o.2 = some (k, v))
  | .rmLen k b i n => s.ext = false ∧ s.live b i ∧ (∃ v, s.cell b i = some (k, v)) ∧
      NewOk hp s k (b, i) (some n)
  | .rmHash k b i u => s.ext = false ∧ s.live b i ∧ (∃ v, s.cell b i = some (k, v)) ∧ NewOk hp s k (b, i) u
  | .rmRem k b i u => s.ext = false ∧ s.live b i ∧ (∃ v, s.cell b i = some (k, v)) ∧ NewOk hp s k (b, i) u
  | .clrOcc b d => s.ext = false ∧ ∀ i, d i = true → s.rem b i = true ∧
      ∀ r, (s.rd r).alive = true → s.pin b i r = false
  | .clrRem b d => s.ext = false ∧ ∀ i, d i = true → s.occ b i = false ∧ s.rem b i = true
  | .clrDrop b d => s.ext = false ∧ ∀ i, d i = true → s.occ b i = false ∧ s.rem b i = false
  | .exLen => s.ext = true

structure Inv (hp : K → Nat) (s : St K V) : Prop where
  freshPos : 0 < s.fresh
  unalloc : ∀ b, s.fresh ≤ b → (∀ i, s.occ b i = false) ∧ (∀ i, s.rem b i = false) ∧ s.next b = none
  nextLt : ∀ a c, s.next a = some c → c < s.fresh
  cellOk : ∀ b i, s.occ b i = true → ∃ e, s.cell b i = some e
  remOcc : ∀ b i, s.rem b i = true → s.occ b i = true ∨ ∃ d, s.w = .clrRem b d ∧ d i = true
  pinNew : ∀ r b i, s.rd r = .new → s.pin b i r = false
  wOk : WOk hp s s.w
  nodup : s.must.Nodup
  lenOk : s.len = s.must.length + adj s.w
  mustSlot : ∀ k, k ∈ s.must → ∃ b i v, Slot hp s k b i v ∧ Reach s.next 0 b
  uniq : ∀ k b i v b' i' v', s.live b i → s.cell b i = some (k, v) → s.live b' i' →
    s.cell b' i' = some (k, v') → (b, i) = (b', i') ∨ Two s.w k (b, i) (b', i')
  liveMust : ∀ k b i v, s.live b i → s.cell b i = some (k, v) → k ∈ s.must ∨ Busy s.w k
  rdOk : ∀ r, RdOk s r

theorem inv_init (hp : K → Nat) : Inv hp (St.init : St K V) where
  freshPos := Nat.one_pos
  unalloc := fun _ _ => ⟨fun _ => rfl, fun _ => rfl, rfl⟩
  nextLt := fun a c h => by cases h
  cellOk := fun b i h => by simp [St.init] at h
  remOcc := fun b i h => by simp [St.init] at h
  pinNew := fun _ _ _ _ => rfl
  wOk := trivial
  nodup := List.nodup_nil
  lenOk := rfl
  mustSlot := fun k h => by cases h
  uniq := fun k b i v _ _ _ h => by simp [St.init, St.live] at h
  liveMust := fun k b i v h => by simp [St.init, St.live] at h
  rdOk := fun r => ⟨fun h => (by cases h), trivial, fun _ => rfl⟩

/-! ## Steps of readers -/

/-- The state is the same for the owner of the lock. -/
structure SameMem (s s' : St K V) : Prop where
  len : s'.len = s.len
  occ : s'.occ = s.occ
  rem : s'.rem = s.rem
  ph : s'.ph = s.ph
  cell : s'.cell = s.cell
  next : s'.next = s.next
  pin : s'.pin = s.pin
  fresh : s'.fresh = s.fresh
  ext : s'.ext = s.ext
  w : s'.w = s.w
  must : s'.must = s.must

theorem SameMem.kept {s s' : St K V} (h : SameMem s s') {r b i : Nat} {e : K × V} : Kept s' r b i e ↔ Kept s r b i e := by
  unfold Kept; rw [h.occ, h.rem, h.cell, h.pin, h.ext]

theorem SameMem.pcOk {s s' : St K V} (h : SameMem s s') {r : Nat} {p : RPC K V} : PcOk s' r p ↔ PcOk s r p := by
  cases p <;> simp only [PcOk, h.occ, h.rem, h.pin, h.kept]

theorem inv_reader {hp : K → Nat} {s s' : St K V} (h : Inv hp s) (hm : SameMem s s') {r : Nat}
    (ho : ∀ q, q ≠ r → s'.rd q = s.rd q ∧ s'.refs q = s.refs q)
    (hal : (s'.rd r).alive = true → (s.rd r).alive = true ∨ s.rd r = .new)
    (hnew : s'.rd r ≠ .new)
    (hrefs : (s'.rd r).alive = true → ∀ b i e, (b, i, e) ∈ s'.refs r → Kept s r b i e)
    (hpc : PcOk s r (s'.rd r)) : Inv hp s' := by
  obtain ⟨l, oc, re, p, ce, nx, pi, f, ex, w, rd, rf, mu⟩ := s'
  obtain ⟨h1, h2, h3, h4, h5, h6, h7, h8, h9, h10, h11⟩ := hm
  simp only at h1 h2 h3 h4 h5 h6 h7 h8 h9 h10 h11
  subst h1 h2 h3 h4 h5 h6 h7 h8 h9 h10 h11
  refine ⟨h.freshPos, h.unalloc, h.nextLt, h.cellOk, h.remOcc, ?_, ?_, h.nodup, h.lenOk, h.mustSlot, h.uniq, h.liveMust, ?_⟩
  · intro q b i hq
    by_cases hqr : q = r
    · subst hqr; exact absurd hq hnew
    · exact h.pinNew q b i (by rw [← (ho q hqr).1]; exact hq)
  · have hw := h.wOk
    show WOk hp _ s.w
    revert hw
    cases s.w with
    | clrOcc b d =>
      intro hw
      refine ⟨hw.1, fun i hi => ⟨(hw.2 i hi).1, fun q hq => ?_⟩⟩
      by_cases hqr : q = r
      · subst hqr
        rcases hal hq with ha | ha
        · exact (hw.2 i hi).2 q ha
        · exact h.pinNew q b i ha
      · exact (hw.2 i hi).2 q (by rw [← (ho q hqr).1]; exact hq)
    | _ => intro hw; exact hw
  · intro q
    by_cases hqr : q = r
    · subst hqr; exact ⟨hrefs, hpc, fun hn => absurd hn hnew⟩
    · refine ⟨fun ha b i e he => ?_, ?_, fun hn => ?_⟩
      · exact (h.rdOk q).refs (by rw [← (ho q hqr).1]; exact ha) b i e (by rw [← (ho q hqr).2]; exact he)
      · have := (h.rdOk q).pc
        rw [← (ho q hqr).1] at this
        exact this
      · have h1 := ho q hqr
        simp only at h1 hn
        simp only [h1.2]
        exact (h.rdOk q).none (h1.1 ▸ hn)

/-- A step that only moves the program counter of a reader. -/
theorem inv_setRd {hp : K → Nat} {s : St K V} (h : Inv hp s) {r : Nat} {p : RPC K V}
    (hal : p.alive = true → (s.rd r).alive = true) (hnew : p ≠ .new) (hpc : PcOk s r p) :
    Inv hp (s.setRd r p) := by
  have he : (s.setRd r p).rd r = p := by simp [upd1, St.setRd]
  refine inv_reader h (r := r) ⟨rfl, rfl, rfl, rfl, rfl, rfl, rfl, rfl, rfl, rfl, rfl⟩ (fun q hq => ⟨by simp [upd1, St.setRd, hq], rfl⟩) ?_ ?_ ?_ ?_
  · rw [he]; exact fun ha => .inl (hal ha)
  · rw [he]; exact hnew
  · rw [he]
    intro ha b i e hm
    exact (h.rdOk r).refs (hal ha) b i e hm
  · rw [he]; exact hpc

/-- A reader obtains a reference. -/
theorem inv_addRef {hp : K → Nat} {s : St K V} (h : Inv hp s) {r b i : Nat} {p : RPC K V} {e : K × V}
    (hal : (s.rd r).alive = true) (hnew : p ≠ .new) (hpc : PcOk s r p) (hk : Kept s r b i e) :
    Inv hp ((s.setRd r p).addRef r (b, i, e)) := by
  have he : ((s.setRd r p).addRef r (b, i, e)).rd r = p := by simp [upd1, St.setRd, St.addRef]
  refine inv_reader h (r := r) ⟨rfl, rfl, rfl, rfl, rfl, rfl, rfl, rfl, rfl, rfl, rfl⟩
    (fun q hq => ⟨by simp [upd1, St.setRd, St.addRef, hq], by simp [upd1, St.setRd, St.addRef, hq]⟩) ?_ ?_ ?_ ?_
  · exact fun _ => .inl hal
  · rw [he]; exact hnew
  · intro _ b' i' e' hm
    simp only [upd1, St.addRef, St.setRd, if_pos, List.mem_cons, Prod.mk.injEq] at hm
    rcases hm with ⟨h1, h2, h3⟩ | hm
    · subst h1 h2 h3; exact hk
    · exact (h.rdOk r).refs hal b' i' e' hm
  · rw [he]; exact hpc

end Scc.Peek
