import Verif.Tree.LeafFacts

/-!
# Well-formed trees

A node covers an interval of keys; its children cover consecutive parts of it, the boundaries being the
keys under which they are stored. The leaves, in order, are what the linked list of leaves runs through.
-/

set_option linter.unusedSimpArgs false
set_option linter.unusedSectionVars false
set_option linter.unusedVariables false

namespace Scc.Tree

open Scc.Leaf Scc.Leaf.Spec

variable {K V C : Type} [KeyOrd K]

/-! ## Intervals -/

def gtLo (lo : Option K) (k : K) : Prop :=
  match lo with
  | none => True
  | some l => KeyOrd.lt l k

def leHi (hi : Option K) (k : K) : Prop :=
  match hi with
  | none => True
  | some h => ¬ KeyOrd.lt h k

def ltHi (hi : Option K) (k : K) : Prop :=
  match hi with
  | none => True
  | some h => KeyOrd.lt k h

theorem lt_of_le_of_lt {a b c : K} (h1 : ¬ KeyOrd.lt b a) (h2 : KeyOrd.lt b c) : KeyOrd.lt a c := by
  rcases KeyOrd.tri a b with h | h | h
  · exact KeyOrd.trans _ _ _ h h2
  · rw [h]; exact h2
  · exact absurd h h1

theorem lt_of_lt_of_le {a b c : K} (h1 : KeyOrd.lt a b) (h2 : ¬ KeyOrd.lt c b) : KeyOrd.lt a c := by
  rcases KeyOrd.tri b c with h | h | h
  · exact KeyOrd.trans _ _ _ h1 h
  · rw [← h]; exact h1
  · exact absurd h h2

theorem le_trans' {a b c : K} (h1 : ¬ KeyOrd.lt b a) (h2 : ¬ KeyOrd.lt c b) : ¬ KeyOrd.lt c a :=
  fun h => h1 (lt_of_le_of_lt h2 h)

theorem gtLo_lt {lo : Option K} {a b : K} (h : gtLo lo a) (h' : KeyOrd.lt a b) : gtLo lo b := by
  cases lo with
  | none => trivial
  | some l => exact KeyOrd.trans _ _ _ h h'

theorem gtLo_le {lo : Option K} {a b : K} (h : gtLo lo a) (h' : ¬ KeyOrd.lt b a) : gtLo lo b := by
  cases lo with
  | none => trivial
  | some l => exact lt_of_lt_of_le h h'

theorem leHi_le {hi : Option K} {a b : K} (h : leHi hi b) (h' : ¬ KeyOrd.lt b a) : leHi hi a := by
  cases hi with
  | none => trivial
  | some l => exact le_trans' h' h

theorem ltHi_le {hi : Option K} {a : K} (h : ltHi hi a) : leHi hi a := by
  cases hi with
  | none => trivial
  | some l => exact lt_asymm' h

theorem ltHi_of_le {hi : Option K} {a b : K} (h : ltHi hi b) (h' : ¬ KeyOrd.lt b a) : ltHi hi a := by
  cases hi with
  | none => trivial
  | some l => exact lt_of_le_of_lt h' h

/-! ## Children in order -/

/-- The children of a node with their keys; the unbounded child comes last and has none. -/
def ents (n : Nd K C) : List (Option K × C) :=
  n.kids.toList.map (fun e => (some e.1, e.2)) ++ n.ub.toList.map (fun u => (none, u))

/-- The children cover `(lo, hi]`. -/
def Cov (P : Option K → Option K → C → Prop) (hi : Option K) : Option K → List (Option K × C) → Prop
  | _, [] => True
  | lo, (s, c) :: r => P lo (s.or hi) c ∧
      (match s with
        | some k => gtLo lo k ∧ ltHi hi k
        | none => r = []) ∧ Cov P hi s r

/-- The lower boundary of what comes after `E`. -/
def endLo : Option K → List (Option K × C) → Option K
  | lo, [] => lo
  | _, (s, _) :: r => endLo s r

/-- All keys in `E` are less than `k`. -/
def AllLt (E : List (Option K × C)) (k : K) : Prop := ∀ e ∈ E, ∃ x, e.1 = some x ∧ KeyOrd.lt x k

def AllSome (E : List (Option K × C)) : Prop := ∀ e ∈ E, e.1.isSome = true

theorem AllLt.some {E : List (Option K × C)} {k : K} (h : AllLt E k) : AllSome E := by
  intro e he
  obtain ⟨x, hx, _⟩ := h e he
  rw [hx]; rfl

theorem endLo_append (A B : List (Option K × C)) (lo : Option K) :
    endLo lo (A ++ B) = endLo (endLo lo A) B := by
  induction A generalizing lo with
  | nil => rfl
  | cons a A ih => obtain ⟨s, c⟩ := a; exact ih s

theorem cov_append {P : Option K → Option K → C → Prop} {hi lo : Option K} {A B : List (Option K × C)}
    (hA : AllSome A) : Cov P hi lo (A ++ B) ↔ Cov P hi lo A ∧ Cov P hi (endLo lo A) B := by
  induction A generalizing lo with
  | nil => simp [Cov, endLo]
  | cons a A ih =>
    obtain ⟨s, c⟩ := a
    have hs := hA _ (List.mem_cons_self ..)
    obtain ⟨k, hk⟩ := Option.isSome_iff_exists.1 hs
    simp only at hk; subst hk
    simp only [List.cons_append, Cov, endLo]
    rw [ih (fun e he => hA e (List.mem_cons_of_mem _ he))]
    simp only [and_assoc]

theorem cov_allSome {P : Option K → Option K → C → Prop} {hi lo : Option K} {A B : List (Option K × C)}
    {e : Option K × C} (h : Cov P hi lo (A ++ e :: B)) : AllSome A := by
  induction A generalizing lo with
  | nil => intro e he; cases he
  | cons a A ih =>
    obtain ⟨s, c⟩ := a
    simp only [List.cons_append, Cov] at h
    intro x hx
    rcases List.mem_cons.1 hx with hx | hx
    · subst hx
      cases s with
      | some k => rfl
      | none => simp at h
    · exact ih h.2.2 x hx

/-- The cover seen from one child. -/
theorem cov_focus {P : Option K → Option K → C → Prop} {hi lo : Option K} {A B : List (Option K × C)}
    {s : Option K} {c : C} : Cov P hi lo (A ++ (s, c) :: B) ↔
      AllSome A ∧ Cov P hi lo A ∧ P (endLo lo A) (s.or hi) c ∧
      (match s with
        | some k => gtLo (endLo lo A) k ∧ ltHi hi k
        | none => B = []) ∧ Cov P hi s B := by
  constructor
  · intro h
    have hA := cov_allSome h
    rw [cov_append hA] at h
    exact ⟨hA, h.1, h.2⟩
  · rintro ⟨hA, h1, h2⟩
    rw [cov_append hA]
    exact ⟨h1, h2⟩

theorem cov_imp {P Q : Option K → Option K → C → Prop} {hi lo : Option K} {E : List (Option K × C)}
    (h : Cov P hi lo E) (hpq : ∀ e ∈ E, ∀ lo hi, P lo hi e.2 → Q lo hi e.2) : Cov Q hi lo E := by
  induction E generalizing lo with
  | nil => trivial
  | cons a A ih =>
    obtain ⟨s, c⟩ := a
    exact ⟨hpq _ (List.mem_cons_self ..) _ _ h.1, h.2.1,
      ih h.2.2 (fun e he => hpq e (List.mem_cons_of_mem _ he))⟩

/-- Everything before a key above the lower boundary of the rest has a smaller key. -/
theorem cov_allLt {P : Option K → Option K → C → Prop} {hi lo : Option K} {A : List (Option K × C)}
    (hA : AllSome A) (h : Cov P hi lo A) {k : K} (hk : gtLo (endLo lo A) k) : AllLt A k ∧ gtLo lo k := by
  induction A generalizing lo with
  | nil => exact ⟨fun e he => (by cases he), hk⟩
  | cons a A ih =>
    obtain ⟨s, c⟩ := a
    have hs := hA _ (List.mem_cons_self ..)
    obtain ⟨x, hx⟩ := Option.isSome_iff_exists.1 hs
    simp only at hx; subst hx
    obtain ⟨h1, h2⟩ := ih (fun e he => hA e (List.mem_cons_of_mem _ he)) h.2.2 hk
    refine ⟨?_, gtLo_lt h.2.1.1 h2⟩
    intro e he
    rcases List.mem_cons.1 he with he | he
    · subst he; exact ⟨x, rfl, h2⟩
    · exact h1 e he

theorem endLo_gt {lo : Option K} {A : List (Option K × C)} {k : K} (h : AllLt A k) (hlo : gtLo lo k) :
    gtLo (endLo lo A) k := by
  induction A generalizing lo with
  | nil => exact hlo
  | cons a A ih =>
    obtain ⟨s, c⟩ := a
    obtain ⟨x, hx, hlt⟩ := h _ (List.mem_cons_self ..)
    simp only at hx; subst hx
    exact ih (fun e he => h e (List.mem_cons_of_mem _ he)) hlt

/-- Keys after a boundary are above it. -/
theorem cov_gt {P : Option K → Option K → C → Prop} {hi lo : Option K} {B : List (Option K × C)}
    (h : Cov P hi lo B) {x : K} {c : C} (hm : (some x, c) ∈ B) : gtLo lo x ∧ ltHi hi x := by
  induction B generalizing lo with
  | nil => cases hm
  | cons b B ih =>
    obtain ⟨s, d⟩ := b
    rcases List.mem_cons.1 hm with hm' | hm'
    · cases hm'; exact h.2.1
    · cases s with
      | none =>
        have hB : B = [] := h.2.1
        rw [hB] at hm'; exact absurd hm' (List.not_mem_nil)
      | some y =>
        have := ih h.2.2 hm'
        exact ⟨gtLo_lt h.2.1.1 this.1, this.2⟩

/-! ## Contents of the children -/

section Contents

variable {W : Type} {P : Option K → Option K → C → Prop} {X : C → List (K × W)}

/-- `X` of every child lies in the interval of the child. -/
def Bnd (P : Option K → Option K → C → Prop) (X : C → List (K × W)) : Prop :=
  ∀ lo hi c, P lo hi c → ∀ e ∈ X c, gtLo lo e.1 ∧ leHi hi e.1

theorem cov_bnd (hX : Bnd P X) {hi lo : Option K} {E : List (Option K × C)} (h : Cov P hi lo E) :
    ∀ e ∈ E.flatMap (fun e => X e.2), gtLo lo e.1 ∧ leHi hi e.1 := by
  induction E generalizing lo with
  | nil => intro e he; cases he
  | cons a A ih =>
    obtain ⟨s, c⟩ := a
    intro e he
    rw [List.flatMap_cons, List.mem_append] at he
    rcases he with he | he
    · have := hX _ _ _ h.1 e he
      refine ⟨this.1, ?_⟩
      cases s with
      | none => exact this.2
      | some k =>
        have h2 : ltHi hi k := h.2.1.2
        exact ltHi_le (ltHi_of_le h2 this.2)
    · have := ih h.2.2 e he
      refine ⟨?_, this.2⟩
      cases s with
      | none =>
        have : A = [] := h.2.1
        subst this; cases he
      | some k => exact gtLo_lt h.2.1.1 this.1

/-- Contents before a boundary are at most the boundary. -/
theorem cov_before (hX : Bnd P X) {hi lo : Option K} {A : List (Option K × C)} (hA : AllSome A)
    (h : Cov P hi lo A) {k : K} (hk : gtLo (endLo lo A) k) :
    ∀ e ∈ A.flatMap (fun e => X e.2), KeyOrd.lt e.1 k := by
  induction A generalizing lo with
  | nil => intro e he; cases he
  | cons a A ih =>
    obtain ⟨s, c⟩ := a
    have hs := hA _ (List.mem_cons_self ..)
    obtain ⟨x, hx⟩ := Option.isSome_iff_exists.1 hs
    simp only at hx; subst hx
    have hA' : AllSome A := fun e he => hA e (List.mem_cons_of_mem _ he)
    intro e he
    rw [List.flatMap_cons, List.mem_append] at he
    rcases he with he | he
    · have h1 := (hX _ _ _ h.1 e he).2
      have h2 : gtLo (some x) k := (cov_allLt hA' h.2.2 hk).2
      exact lt_of_le_of_lt h1 h2
    · exact ih hA' h.2.2 hk e he

/-- Contents after a child are above everything the child covers. -/
theorem cov_after (hX : Bnd P X) {hi s : Option K} {B : List (Option K × C)} (hs : s = none → B = [])
    (h : Cov P hi s B) {k : K} (hk : leHi (s.or hi) k) :
    ∀ e ∈ B.flatMap (fun e => X e.2), KeyOrd.lt k e.1 := by
  intro e he
  cases s with
  | none => rw [hs rfl] at he; cases he
  | some x =>
    have := (cov_bnd hX h e he).1
    exact lt_of_le_of_lt hk this

theorem cov_sorted (hX : Bnd P X) (hS : ∀ lo hi c, P lo hi c → Sorted (X c)) {hi lo : Option K}
    {E : List (Option K × C)} (h : Cov P hi lo E) : Sorted (E.flatMap (fun e => X e.2)) := by
  induction E generalizing lo with
  | nil => exact List.Pairwise.nil
  | cons a A ih =>
    obtain ⟨s, c⟩ := a
    rw [List.flatMap_cons]
    refine List.pairwise_append.2 ⟨hS _ _ _ h.1, ih h.2.2, ?_⟩
    intro x hx y hy
    refine cov_after hX ?_ h.2.2 (hX _ _ _ h.1 x hx).2 y hy
    intro hs; subst hs; exact h.2.1

end Contents

/-! ## Trees -/

/-- A tree that covers `(lo, hi]`, at rest: nothing frozen, no retired node. -/
def WF (H : Hp K V) : (h : Nat) → Option K → Option K → Tr K h → Prop
  | 0, lo, hi, i => WL (H.leaf i) ∧ frozen (H.leaf i).w = false ∧
      ∀ e ∈ (H.leaf i).toList, gtLo lo e.1 ∧ leHi hi e.1
  | h + 1, lo, hi, (n : Nd K (Tr K h)) => WL n.kids ∧ frozen n.kids.w = false ∧ n.dead = false ∧
      n.ub.isSome = true ∧ Cov (WF H h) hi lo (ents n)

/-- All entries below a node, in order. -/
def cont (H : Hp K V) (h : Nat) (t : Tr K h) : List (K × V) :=
  (leaves h t).flatMap (fun i => (H.leaf i).toList)

/-- The leaves below a list of children. -/
def leavesE (h : Nat) (E : List (Option K × Tr K h)) : List Nat := E.flatMap (fun e => leaves h e.2)

/-- The entries below a list of children. -/
def contE (H : Hp K V) (h : Nat) (E : List (Option K × Tr K h)) : List (K × V) :=
  E.flatMap (fun e => cont H h e.2)

theorem leaves_succ (h : Nat) (n : Tr K (h + 1)) : leaves (h + 1) n = leavesE h (ents n) := by
  rw [leaves]
  unfold leavesE ents
  rw [List.flatMap_append, List.flatMap_map]
  cases n.ub <;> simp

theorem contE_eq (H : Hp K V) (h : Nat) (E : List (Option K × Tr K h)) :
    contE H h E = (leavesE h E).flatMap (fun i => (H.leaf i).toList) := by
  unfold contE leavesE cont
  rw [List.flatMap_assoc]

theorem cont_zero (H : Hp K V) (i : Tr K 0) : cont H 0 i = (H.leaf i).toList := by
  show List.flatMap _ [i] = _
  rw [List.flatMap_cons, List.flatMap_nil, List.append_nil]

theorem cont_succ (H : Hp K V) (h : Nat) (n : Tr K (h + 1)) :
    cont H (h + 1) n = contE H h (ents n) := by
  rw [contE_eq, ← leaves_succ]; rfl

@[simp] theorem leavesE_append (h : Nat) (A B : List (Option K × Tr K h)) :
    leavesE h (A ++ B) = leavesE h A ++ leavesE h B := List.flatMap_append ..

@[simp] theorem leavesE_cons (h : Nat) (e : Option K × Tr K h) (B : List (Option K × Tr K h)) :
    leavesE h (e :: B) = leaves h e.2 ++ leavesE h B := List.flatMap_cons ..

@[simp] theorem leavesE_nil (h : Nat) : leavesE h ([] : List (Option K × Tr K h)) = [] := rfl

@[simp] theorem contE_append (H : Hp K V) (h : Nat) (A B : List (Option K × Tr K h)) :
    contE H h (A ++ B) = contE H h A ++ contE H h B := List.flatMap_append ..

@[simp] theorem contE_cons (H : Hp K V) (h : Nat) (e : Option K × Tr K h) (B : List (Option K × Tr K h)) :
    contE H h (e :: B) = cont H h e.2 ++ contE H h B := List.flatMap_cons ..

@[simp] theorem contE_nil (H : Hp K V) (h : Nat) : contE H h ([] : List (Option K × Tr K h)) = [] := rfl

theorem wf_bnd (H : Hp K V) (h : Nat) : Bnd (WF H h) (cont H h) := by
  induction h with
  | zero =>
    intro lo hi c hP e he
    rw [cont_zero] at he
    exact hP.2.2 e he
  | succ h ih =>
    intro lo hi c hP
    rw [cont_succ]
    exact cov_bnd ih hP.2.2.2.2

theorem wf_sorted (H : Hp K V) (h : Nat) : ∀ lo hi c, WF H h lo hi c → Sorted (cont H h c) := by
  induction h with
  | zero =>
    intro lo hi c hP
    rw [cont_zero]
    exact hP.1.sorted
  | succ h ih =>
    intro lo hi c hP
    rw [cont_succ]
    exact cov_sorted (wf_bnd H h) ih hP.2.2.2.2

/-- The interval can grow. -/
def leLo (a b : Option K) : Prop := ∀ k, gtLo b k → gtLo a k

def leUp (a b : Option K) : Prop := (∀ k, leHi a k → leHi b k) ∧ ∀ k, ltHi a k → ltHi b k

theorem leLo_none (b : Option K) : leLo none b := fun _ _ => trivial
theorem leLo_refl (b : Option K) : leLo b b := fun _ h => h
theorem leUp_refl (b : Option K) : leUp b b := ⟨fun _ h => h, fun _ h => h⟩
theorem leUp_none (b : Option K) : leUp b none := ⟨fun _ _ => trivial, fun _ _ => trivial⟩

theorem leLo_of_gt {lo : Option K} {k : K} (h : gtLo lo k) : leLo lo (some k) := fun _ h' => gtLo_lt h h'

theorem leUp_of_lt {hi : Option K} {k : K} (h : ltHi hi k) : leUp (some k) hi :=
  ⟨fun _ h' => ltHi_le (ltHi_of_le h h'), fun _ h' => ltHi_of_le h (lt_asymm' h')⟩

theorem cov_mono {P : Option K → Option K → C → Prop} (hP : ∀ lo hi lo' hi' c, leLo lo' lo → leUp hi hi' →
    P lo hi c → P lo' hi' c) {hi hi' lo lo' : Option K} (hl : leLo lo' lo) (hu : leUp hi hi')
    {E : List (Option K × C)} (h : Cov P hi lo E) : Cov P hi' lo' E := by
  induction E generalizing lo lo' with
  | nil => trivial
  | cons a A ih =>
    obtain ⟨s, c⟩ := a
    cases s with
    | none => exact ⟨hP _ _ _ _ _ hl hu h.1, h.2.1, ih (leLo_refl _) h.2.2⟩
    | some k =>
      exact ⟨hP _ _ _ _ _ hl (leUp_refl _) h.1, ⟨hl _ h.2.1.1, hu.2 _ h.2.1.2⟩, ih (leLo_refl _) h.2.2⟩

theorem wf_mono (H : Hp K V) (h : Nat) : ∀ lo hi lo' hi' c, leLo lo' lo → leUp hi hi' →
    WF H h lo hi c → WF H h lo' hi' c := by
  induction h with
  | zero =>
    intro lo hi lo' hi' c hl hu hP
    exact ⟨hP.1, hP.2.1, fun e he => ⟨hl _ (hP.2.2 e he).1, hu.1 _ (hP.2.2 e he).2⟩⟩
  | succ h ih =>
    intro lo hi lo' hi' c hl hu hP
    exact ⟨hP.1, hP.2.1, hP.2.2.1, hP.2.2.2.1, cov_mono ih hl hu hP.2.2.2.2⟩

/-- Only the leaves below a node matter. -/
theorem wf_frame {H H' : Hp K V} (h : Nat) : ∀ (c : Tr K h), (∀ i ∈ leaves h c, H'.leaf i = H.leaf i) →
    ∀ lo hi, WF H h lo hi c → WF H' h lo hi c := by
  induction h with
  | zero =>
    intro c hc lo hi hP
    have : H'.leaf c = H.leaf c := hc c (List.mem_singleton.2 rfl)
    unfold WF at hP ⊢
    rw [this]; exact hP
  | succ h ih =>
    intro c hc lo hi hP
    refine ⟨hP.1, hP.2.1, hP.2.2.1, hP.2.2.2.1, cov_imp hP.2.2.2.2 ?_⟩
    intro e he
    apply ih
    intro i hi'
    apply hc
    rw [leaves_succ]
    exact List.mem_flatMap.2 ⟨e, he, hi'⟩

theorem cont_frame {H H' : Hp K V} (h : Nat) (c : Tr K h) (hc : ∀ i ∈ leaves h c, H'.leaf i = H.leaf i) :
    cont H' h c = cont H h c := by
  unfold cont
  rw [List.flatMap_def, List.flatMap_def]
  congr 1
  apply List.map_congr_left
  intro i hi
  rw [hc i hi]

theorem contE_frame {H H' : Hp K V} (h : Nat) (E : List (Option K × Tr K h))
    (hc : ∀ i ∈ leavesE h E, H'.leaf i = H.leaf i) : contE H' h E = contE H h E := by
  rw [contE_eq, contE_eq, List.flatMap_def, List.flatMap_def]
  congr 1
  apply List.map_congr_left
  intro i hi
  rw [hc i hi]

theorem cov_frame {H H' : Hp K V} (h : Nat) {E : List (Option K × Tr K h)} {lo hi : Option K}
    (hE : Cov (WF H h) hi lo E) (hc : ∀ i ∈ leavesE h E, H'.leaf i = H.leaf i) :
    Cov (WF H' h) hi lo E := by
  refine cov_imp hE ?_
  intro e he
  exact wf_frame h e.2 (fun i hi => hc i (List.mem_flatMap.2 ⟨e, he, hi⟩))

theorem leaves_ne_nil {H : Hp K V} (h : Nat) : ∀ lo hi (c : Tr K h), WF H h lo hi c → leaves h c ≠ [] := by
  induction h with
  | zero => intro _ _ c _; simp [leaves]
  | succ h ih =>
    intro lo hi (c : Nd K (Tr K h)) hP
    rw [leaves_succ]
    obtain ⟨u, hu⟩ := Option.isSome_iff_exists.1 hP.2.2.2.1
    have hc := hP.2.2.2.2
    have he : ents c = c.kids.toList.map (fun e => (some e.1, e.2)) ++ [(none, u)] := by
      unfold ents; rw [hu]; rfl
    rw [he] at hc ⊢
    rw [leavesE_append]
    have := ih _ _ u (cov_focus.1 hc).2.2.1
    simp [leavesE, this]

/-! ## Finding the child -/

/-- `(s, c)` is the first child whose key is at least `k`. -/
structure At (E : List (Option K × C)) (k : K) (A : List (Option K × C)) (s : Option K) (c : C)
    (B : List (Option K × C)) : Prop where
  eq : E = A ++ (s, c) :: B
  before : AllLt A k
  here : leHi s k

theorem at_unique {E A B A' B' : List (Option K × C)} {k : K} {s s' : Option K} {c c' : C}
    (h : At E k A s c B) (h' : At E k A' s' c' B') : A = A' ∧ s = s' ∧ c = c' ∧ B = B' := by
  have he : A ++ (s, c) :: B = A' ++ (s', c') :: B' := by rw [← h.eq, h'.eq]
  have key : ∀ (A A' B B' : List (Option K × C)) (s s' : Option K) (c c' : C), AllLt A k → AllLt A' k →
      leHi s k → leHi s' k → A ++ (s, c) :: B = A' ++ (s', c') :: B' →
      A = A' ∧ s = s' ∧ c = c' ∧ B = B' := by
    intro A
    induction A with
    | nil =>
      intro A' B B' s s' c c' _ h2 h3 _ h5
      cases A' with
      | nil => simp at h5; exact ⟨rfl, h5.1.1, h5.1.2, h5.2⟩
      | cons a A' =>
        simp at h5
        obtain ⟨x, hx, hlt⟩ := h2 a (List.mem_cons_self ..)
        rw [← h5.1] at hx
        simp only at hx; subst hx
        exact absurd hlt h3
    | cons a A ih =>
      intro A' B B' s s' c c' h1 h2 h3 h4 h5
      cases A' with
      | nil =>
        simp at h5
        obtain ⟨x, hx, hlt⟩ := h1 a (List.mem_cons_self ..)
        rw [h5.1] at hx
        simp only at hx; subst hx
        exact absurd hlt h4
      | cons a' A' =>
        simp at h5
        obtain ⟨e1, e2⟩ := h5
        subst e1
        have := ih A' B B' s s' c c' (fun e he => h1 e (List.mem_cons_of_mem _ he))
          (fun e he => h2 e (List.mem_cons_of_mem _ he)) h3 h4 e2
        exact ⟨by rw [this.1], this.2⟩
  exact key A A' B B' s s' c c' h.before h'.before h.here h'.here he

/-- The child found by a descent. -/
theorem locate_at {n : Nd K C} (w : WL n.kids) (hu : n.ub.isSome = true) (k : K) :
    ∃ A s c B, At (ents n) k A s c B ∧ n.locate k = (s, some c) := by
  obtain ⟨u, hu⟩ := Option.isSome_iff_exists.1 hu
  unfold Nd.locate
  rw [w.mge]
  cases hm : atLeast n.kids.toList k with
  | none =>
    refine ⟨n.kids.toList.map (fun e => (some e.1, e.2)), none, u, [], ⟨?_, ?_, trivial⟩, by rw [hu]⟩
    · unfold ents; rw [hu]; rfl
    · intro e he
      obtain ⟨x, hx, rfl⟩ := List.mem_map.1 he
      exact ⟨x.1, rfl, atLeast_none.1 hm x hx⟩
  | some e =>
    obtain ⟨ck, c⟩ := e
    unfold atLeast at hm
    obtain ⟨h1, A, B, h2, h3⟩ := List.find?_eq_some_iff_append.1 hm
    refine ⟨A.map (fun e => (some e.1, e.2)), some ck, c, B.map (fun e => (some e.1, e.2)) ++
      n.ub.toList.map (fun u => (none, u)), ⟨?_, ?_, ?_⟩, rfl⟩
    · unfold ents; rw [h2]; simp
    · intro e he
      obtain ⟨x, hx, rfl⟩ := List.mem_map.1 he
      have := h3 x hx
      simp at this
      exact ⟨x.1, rfl, this⟩
    · simpa [leHi] using h1

theorem At.locate {n : Nd K C} (w : WL n.kids) (hu : n.ub.isSome = true) {k : K} {A : List (Option K × C)}
    {s : Option K} {c : C} {B : List (Option K × C)} (h : At (ents n) k A s c B) :
    n.locate k = (s, some c) := by
  obtain ⟨A', s', c', B', h1, h2⟩ := locate_at w hu k
  obtain ⟨_, e2, e3, _⟩ := at_unique h h1
  rw [h2, e2, e3]

/-! ## Changing a child -/

theorem ents_split {n : Nd K C} {A B : List (Option K × C)} {s : Option K} {c : C}
    (h : ents n = A ++ (s, c) :: B) (hA : AllSome A) :
    (∃ k A' B', s = some k ∧ n.kids.toList = A' ++ (k, c) :: B' ∧
      A = A'.map (fun e => (some e.1, e.2)) ∧
      B = B'.map (fun e => (some e.1, e.2)) ++ n.ub.toList.map (fun u => (none, u))) ∨
    (s = none ∧ n.ub = some c ∧ B = [] ∧ A = n.kids.toList.map (fun e => (some e.1, e.2))) := by
  unfold ents at h
  rcases List.append_eq_append_iff.1 h with ⟨as, h1, h2⟩ | ⟨bs, h1, h2⟩
  · cases hu : n.ub with
    | none =>
      rw [hu] at h2; simp at h2
    | some u =>
      rw [hu] at h2
      simp only [Option.toList_some, List.map_cons, List.map_nil] at h2
      cases as with
      | nil =>
        simp at h2 h1
        obtain ⟨⟨e1, e2⟩, e3⟩ := h2
        subst e1 e2 e3
        exact .inr ⟨rfl, rfl, rfl, h1⟩
      | cons a as =>
        simp at h2
  · cases bs with
    | nil =>
      simp only [List.nil_append] at h2
      cases hu : n.ub with
      | none => rw [hu] at h2; simp at h2
      | some u =>
        rw [hu] at h2
        simp at h2 h1
        obtain ⟨⟨e1, e2⟩, e3⟩ := h2
        subst e1 e2 e3
        exact .inr ⟨rfl, rfl, rfl, h1.symm⟩
    | cons b bs =>
      left
      simp at h2
      obtain ⟨e1, e2⟩ := h2
      obtain ⟨A', R, h3, h4, h5⟩ := List.map_eq_append_iff.1 h1
      obtain ⟨x, B', h6, h7, h8⟩ := List.map_eq_cons_iff.1 h5
      rw [← e1] at h7
      simp at h7
      refine ⟨x.1, A', B', h7.1.symm, ?_, h4.symm, ?_⟩
      · rw [h3, h6, ← h7.2]
      · rw [e2, h8]

/-- What a child store does. -/
theorem ents_set {n : Nd K C} (w : WL n.kids) {A B : List (Option K × C)} {s : Option K} {c : C}
    (h : ents n = A ++ (s, c) :: B) (hA : AllSome A) (c' : C) :
    ents (n.set s c') = A ++ (s, c') :: B ∧ WL (n.set s c').kids ∧ (n.set s c').kids.w = n.kids.w ∧
    (n.set s c').dead = n.dead ∧ (n.ub.isSome = true → (n.set s c').ub.isSome = true) := by
  rcases ents_split h hA with ⟨k, A', B', rfl, h1, h2, h3⟩ | ⟨rfl, h1, h2, h3⟩
  · obtain ⟨w1, w2, w3⟩ := w.setVal h1 c'
    refine ⟨?_, w1, w3, rfl, fun h => h⟩
    unfold ents Nd.set
    simp only []
    rw [w2, h2, h3]; simp
  · refine ⟨?_, w, rfl, rfl, fun _ => rfl⟩
    unfold ents Nd.set
    simp only []
    rw [h2, h3]; simp

/-- Taking out a child with a key. -/
theorem ents_remove {n : Nd K C} (w : WL n.kids) (hf : frozen n.kids.w = false) {A B : List (Option K × C)}
    {k : K} {c : C} (h : ents n = A ++ (some k, c) :: B) (hA : AllSome A) :
    let n' : Nd K C := { n with kids := (n.kids.removeIf k (fun _ => true)).1 }
    ents n' = A ++ B ∧ WL n'.kids ∧ frozen n'.kids.w = false := by
  rcases ents_split h hA with ⟨k', A', B', he, h1, h2, h3⟩ | ⟨he, _⟩
  · cases he
    obtain ⟨w1, w2, w3⟩ := w.removeKey hf h1
    refine ⟨?_, w1, w3⟩
    unfold ents
    simp only []
    rw [w2, h2, h3]; simp
  · cases he

theorem ents_length {n : Nd K C} (w : WL n.kids) : (ents n).length ≤ 15 := by
  have := w.len14
  unfold ents
  cases n.ub <;> simp <;> omega

/-- Putting in a child with a new key. -/
theorem ents_insert {n : Nd K C} (w : WL n.kids) (hf : frozen n.kids.w = false)
    {P : Option K → Option K → C → Prop} {lo hi : Option K} {A B : List (Option K × C)} {s : Option K} {c : C}
    (h : ents n = A ++ (s, c) :: B) (hc : Cov P hi lo (A ++ (s, c) :: B)) {m : K}
    (h1 : gtLo (endLo lo A) m) (h2 : ltHi s m) (x : C) :
    (∃ kids, n.kids.insert m x = (kids, .success) ∧ WL kids ∧ frozen kids.w = false ∧
      ents { n with kids := kids } = A ++ (some m, x) :: (s, c) :: B) ∨
    n.kids.insert m x = (n.kids, .full) ∨ n.kids.insert m x = (n.kids, .retired) := by
  have hcf := cov_focus.1 hc
  have hA := hcf.1
  have hAm := (cov_allLt hA hcf.2.1 h1).1
  -- the keys before and after
  have hput : get n.kids.toList m = none ∧
      (put n.kids.toList m x).map (fun e => (some e.1, e.2)) ++ n.ub.toList.map (fun u => (none, u)) =
        A ++ (some m, x) :: (s, c) :: B := by
    rcases ents_split h hA with ⟨k, A', B', rfl, e1, e2, e3⟩ | ⟨rfl, e1, e2, e3⟩
    · have ha : ∀ a ∈ A', KeyOrd.lt a.1 m := by
        intro a ha
        obtain ⟨y, hy, hlt⟩ := hAm (some a.1, a.2) (by rw [e2]; exact List.mem_map.2 ⟨a, ha, rfl⟩)
        cases hy; exact hlt
      have hb : ∀ b ∈ (k, c) :: B', KeyOrd.lt m b.1 := by
        intro b hb
        rcases List.mem_cons.1 hb with hb | hb
        · subst hb; exact h2
        · have hs := w.sorted
          rw [e1] at hs
          exact KeyOrd.trans _ _ _ h2 ((sorted_split hs).2 b hb)
      constructor
      · rw [e1]
        have := get_mid (M := []) ha hb
        rw [List.append_nil] at this
        rw [this]; rfl
      · rw [e1, put_split x ha hb, e2, e3]; simp
    · have ha : ∀ a ∈ n.kids.toList, KeyOrd.lt a.1 m := by
        intro a ha
        obtain ⟨y, hy, hlt⟩ := hAm (some a.1, a.2) (by rw [e3]; exact List.mem_map.2 ⟨a, ha, rfl⟩)
        cases hy; exact hlt
      have hb : ∀ b ∈ ([] : List (K × C)), KeyOrd.lt m b.1 := fun b hb => (by cases hb)
      constructor
      · have := get_mid (M := []) ha hb
        rw [List.append_nil, List.append_nil] at this
        rw [this]; rfl
      · have := put_split x ha hb
        rw [List.append_nil] at this
        rw [this, e1, e2, e3]; simp
  rcases w.insert hf m x with ⟨_, h3⟩ | ⟨_, h3, _⟩ | ⟨_, _, _, l', h3, h4, h5, h6, _⟩ | ⟨_, _, _, h3⟩
  · exact .inr (.inr h3)
  · rw [hput.1] at h3; cases h3
  · refine .inl ⟨l', h3, h4, h6, ?_⟩
    unfold ents
    simp only []
    rw [h5]; exact hput.2
  · exact .inr (.inl h3)

theorem flatMap_single {α β : Type} {f : α → List β} {g : α → β} {l : List α} (h : ∀ a ∈ l, f a = [g a]) :
    l.flatMap f = l.map g := by
  induction l with
  | nil => rfl
  | cons a l ih =>
    rw [List.flatMap_cons, List.map_cons, h a (List.mem_cons_self ..),
      ih (fun b hb => h b (List.mem_cons_of_mem _ hb))]
    rfl

/-- The list built for a split of the node. -/
theorem entryArray_eq {n : Nd K C} (w : WL n.kids) {A B : List (Option K × C)} {c : C} (p : SplitOp K C)
    (h : ents n = A ++ (p.okey, c) :: B) (hA : AllSome A) :
    entryArray n p = A ++ (some p.mid, p.low) :: (p.okey, p.high) :: B := by
  unfold entryArray
  rcases ents_split h hA with ⟨k, A', B', e, e1, e2, e3⟩ | ⟨e, e1, e2, e3⟩
  · simp only [e]
    have hs := w.sorted
    rw [e1] at hs ⊢
    have hsp := sorted_split hs
    have hAA : A'.flatMap (fun e => if cmp e.1 k = .eq then [(some p.mid, p.low), (some e.1, p.high)]
        else [(some e.1, e.2)]) = A'.map (fun e => (some e.1, e.2)) := by
      apply flatMap_single
      intro a ha
      have : cmp a.1 k = .lt := cmp_lt.2 (hsp.1 a ha)
      simp [this]
    have hBB : B'.flatMap (fun e => if cmp e.1 k = .eq then [(some p.mid, p.low), (some e.1, p.high)]
        else [(some e.1, e.2)]) = B'.map (fun e => (some e.1, e.2)) := by
      apply flatMap_single
      intro a ha
      have : cmp a.1 k = .gt := cmp_gt.2 (hsp.2 a ha)
      simp [this]
    rw [List.flatMap_append, List.flatMap_cons, hAA, hBB, e2, e3]
    have : cmp k k = .eq := cmp_eq.2 rfl
    simp [this]
  · simp only [e]
    rw [e2, e3]
    congr 1
    exact flatMap_single (fun _ _ => rfl)

end Scc.Tree
