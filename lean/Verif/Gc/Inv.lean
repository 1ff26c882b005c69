import Verif.Gc.Model

/-!
# The garbage list is sound if no address and no array returns to it

The invariant of all executions in which the allocator does not hand out an address that some thread is
about to compare with `garbage_chain`, and in which no retired array is retired a second time.
-/

namespace Scc.Gc

/-- Where an array is. -/
inductive Status
  | fresh
  | cont
  | pend (t : Thr)
  | pushed
  | taken (t : Thr)
  | freed
  deriving DecidableEq

/-- The array a thread is going to push to the garbage list. -/
def Pc.pend : Pc → Option Inst
  | .idle => none
  | .load k => k
  | .check k _ => k
  | .cas k _ => k
  | .free k _ => k
  | .stamp y => some y
  | .swap y => some y
  | .link _ _ => none

/-- The list `l` is linked by `lk`, except where `w` is going to link. -/
def Chained (lk : Inst → Option Inst) (w : Inst → Inst → Prop) : List Inst → Prop
  | [] => True
  | [x] => lk x = none
  | x :: y :: r => (lk x = some y ∨ lk x = none ∧ w x y) ∧ Chained lk w (y :: r)

/-- `p` follows `y` in the list. -/
def Next (l : List Inst) (y p : Inst) : Prop := ∃ a b, l = a ++ y :: p :: b

/-- The aim of a thread in `dealloc_garbage`. -/
def Pc.aim : Pc → Option Inst
  | .check _ h => some h
  | .cas _ h => some h
  | _ => none

theorem upd_same {α : Type} (f : Nat → α) (a : Nat) (v : α) : upd f a v a = v := by simp [upd]

theorem upd_ne {α : Type} (f : Nat → α) {a b : Nat} (v : α) (h : b ≠ a) : upd f a v b = f b := by
  simp [upd, h]

/-- The invariant. -/
structure Inv (s : St) (st : Inst → Status) (L : List Inst) (F : Thr → List Inst) : Prop where
  fresh : ∀ i, st i = .fresh ↔ s.next ≤ i
  epoch : ∀ t g, s.guard t = some g → g ≤ s.epoch ∧ s.epoch ≤ g + 1
  cont : ∀ i, st i = .cont ↔ s.root = some i ∨ ∃ x, s.root = some x ∧ s.linked x = some i
  old : ∀ x y, s.root = some x → s.linked x = some y → x ≠ y ∧ s.linked y = none
  src : ∀ x j, s.linked x = some j → s.root = some x ∨ st x = .pushed ∨ ∃ t, st x = .taken t
  mem : ∀ i, i ∈ L ↔ st i = .pushed
  nodup : L.Nodup
  head : s.chain = L.head?
  linked : Chained s.linked (fun x y => ∃ t, s.pc t = .link x y) L
  fmem : ∀ t i, i ∈ F t ↔ st i = .taken t
  fnodup : ∀ t, (F t).Nodup
  fhead : ∀ t k n, s.pc t = .free k n → n = (F t).head?
  flinked : ∀ t, Chained s.linked (fun _ _ => False) (F t)
  fnone : ∀ t, (∀ k n, s.pc t ≠ .free k n) → F t = []
  stampLe : ∀ e, s.stamp = some e → e ≤ s.epoch
  held : ∀ t i, s.holds t i = true → ∃ g, s.guard t = some g ∧
    (st i = .cont ∨
     (∃ u, st i = .pend u ∧ (s.pc u = .swap i → ∃ e, s.stamp = some e ∧ g ≤ e + 1)) ∨
     (st i = .pushed ∧ ∃ e, s.stamp = some e ∧ g ≤ e + 1))
  works : ∀ t, ((∃ y, s.pc t = .swap y) ∨ ∃ y p, s.pc t = .link y p) →
    ∃ g e, s.guard t = some g ∧ s.stamp = some e ∧ g ≤ e + 1
  guarded : ∀ t, s.pc t ≠ .idle → s.guard t ≠ none
  pend : ∀ t y, st y = .pend t ↔ (s.pc t).pend = some y
  link : ∀ t y p, s.pc t = .link y p → Next L y p
  aim : ∀ t h, (s.pc t).aim = some h →
    (st h = .pushed ∨ (∃ u, st h = .taken u) ∨ st h = .freed) ∧
    ∀ i, st i ≠ .fresh → st i ≠ .freed → s.addr i = s.addr h → i = h
  addr : ∀ i j, st i ≠ .fresh → st i ≠ .freed → st j ≠ .fresh → st j ≠ .freed →
    s.addr i = s.addr j → i = j
  cas : ∀ t k h, s.pc t = .cas k h → s.chain = some h →
    (∀ i, i ∈ L → ∀ u, s.holds u i = false) ∧ ∀ u y p, s.pc u ≠ .link y p
  freed : ∀ i, i ∈ s.freed ↔ st i = .freed
  once : s.freed.Nodup

/-! ## Lists -/

theorem Chained.mono {lk lk' : Inst → Option Inst} {w w' : Inst → Inst → Prop} : ∀ {l : List Inst},
    (∀ x, x ∈ l → lk' x = lk x) → (∀ x y, x ∈ l → w x y → w' x y) → Chained lk w l → Chained lk' w' l
  | [], _, _, _ => trivial
  | [x], e, _, h => by
    show lk' x = none
    rw [e x (by simp)]; exact h
  | x :: y :: r, e, i, h => by
    refine ⟨?_, Chained.mono (fun z hz => e z (List.mem_cons_of_mem _ hz))
      (fun z v hz => i z v (List.mem_cons_of_mem _ hz)) h.2⟩
    rw [e x (by simp)]
    rcases h.1 with h | h
    · exact .inl h
    · exact .inr ⟨h.1, i _ _ (by simp) h.2⟩

theorem Chained.next {lk : Inst → Option Inst} {w : Inst → Inst → Prop} {x j : Inst} (e : lk x = some j) :
    ∀ {l : List Inst}, Chained lk w l → x ∈ l → Next l x j
  | [], _, m => by simp at m
  | [y], h, m => by
    simp at m; subst m
    have : lk x = none := h
    simp [this] at e
  | y :: z :: r, h, m => by
    by_cases d : x = y
    · subst d
      rcases h.1 with h1 | h1
      · simp [h1] at e; subst e; exact ⟨[], r, rfl⟩
      · simp [h1.1] at e
    · have m' : x ∈ z :: r := by simpa [d] using m
      obtain ⟨a, b, q⟩ := Chained.next e h.2 m'
      exact ⟨y :: a, b, by rw [q]; rfl⟩

theorem Next.mem {l : List Inst} {y p : Inst} (h : Next l y p) : y ∈ l ∧ p ∈ l := by
  obtain ⟨a, b, rfl⟩ := h; simp

theorem Next.cons {l : List Inst} {y p : Inst} (z : Inst) (h : Next l y p) : Next (z :: l) y p := by
  obtain ⟨a, b, rfl⟩ := h; exact ⟨z :: a, b, rfl⟩

/-- Setting the link of an element to its successor. -/
theorem Chained.set {lk : Inst → Option Inst} {w w' : Inst → Inst → Prop} {y p : Inst} :
    ∀ {l : List Inst}, l.Nodup → (∀ a b, a ≠ y → w a b → w' a b) → Next l y p → Chained lk w l →
      Chained (upd lk y (some p)) w' l
  | [], _, _, n, _ => by obtain ⟨a, b, e⟩ := n; simp at e
  | [x], _, _, n, _ => by
    obtain ⟨a, b, e⟩ := n
    cases a with
    | nil => simp at e
    | cons c a => cases a <;> simp at e
  | x :: z :: r, d, i, n, h => by
    by_cases c : x = y
    · subst c
      have hx : x ∉ z :: r := (List.nodup_cons.1 d).1
      have : p = z := by
        obtain ⟨a, b, e⟩ := n
        cases a with
        | nil => simp at e; exact e.1.symm
        | cons q a => simp at e; exact absurd (by rw [e.2]; simp) hx
      subst this
      refine ⟨.inl (upd_same _ _ _), ?_⟩
      refine Chained.mono (fun v hv => upd_ne _ _ (fun e => hx (e ▸ hv))) ?_ h.2
      intro a b ha hab
      exact i a b (fun e => hx (e ▸ ha)) hab
    · have n' : Next (z :: r) y p := by
        obtain ⟨a, b, e⟩ := n
        cases a with
        | nil => simp at e; exact absurd e.1 c
        | cons q a => simp at e; exact ⟨a, b, e.2⟩
      refine ⟨?_, Chained.set (List.nodup_cons.1 d).2 i n' h.2⟩
      rw [upd_ne _ _ c]
      rcases h.1 with h1 | h1
      · exact .inl h1
      · exact .inr ⟨h1.1, i _ _ c h1.2⟩

theorem Chained.head_link {lk : Inst → Option Inst} {i : Inst} :
    ∀ {r : List Inst}, Chained lk (fun _ _ => False) (i :: r) → lk i = r.head?
  | [], h => h
  | _ :: _, h => by
    rcases h.1 with h | h
    · exact h
    · exact h.2.elim

theorem Chained.tail {lk : Inst → Option Inst} {w : Inst → Inst → Prop} {i : Inst} :
    ∀ {r : List Inst}, Chained lk w (i :: r) → Chained lk w r
  | [], _ => trivial
  | _ :: _, h => h.2

end Scc.Gc
