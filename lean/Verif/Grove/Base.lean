import Verif.Grove.Calm

/-!
# The search path of a key
-/

namespace Scc.Grove

local notation "Key" => Nat
local notation "Id" => Nat
local notation "Thr" => Nat

variable {V : Type} {R : Option Id} {N : Id → Node}

/-! ## Keys of a node -/

theorem route_nil (k : Key) : route [] k = 0 := rfl

theorem route_cons (e : Key × Nat) (l : List (Key × Nat)) (k : Key) :
    route (e :: l) k = if k ≤ e.1 then e.2 else route l k := by
  by_cases h : k ≤ e.1 <;> simp [route, h]

/-- The keys ascend. -/
def Asc (l : List (Key × Nat)) : Prop := l.Pairwise fun a b => a.1 < b.1

theorem route_mem {l : List (Key × Nat)} {k : Key} : route l k = 0 ∨ ∃ b, k ≤ b ∧ (b, route l k) ∈ l := by
  induction l with
  | nil => exact .inl rfl
  | cons e l ih =>
    rw [route_cons]
    split
    · next h => exact .inr ⟨e.1, h, List.mem_cons_self ..⟩
    · rcases ih with h | ⟨b, h, hm⟩
      · exact .inl h
      · exact .inr ⟨b, h, List.mem_cons_of_mem _ hm⟩

theorem route_above {l : List (Key × Nat)} {k : Key} (h : ∀ e ∈ l, e.1 < k) : route l k = 0 := by
  induction l with
  | nil => rfl
  | cons e l ih =>
    have h1 := h e (List.mem_cons_self ..)
    rw [route_cons, if_neg (by omega)]
    exact ih fun e he => h e (List.mem_cons_of_mem _ he)

theorem route_bound {l : List (Key × Nat)} {b : Key} {i : Nat} (ha : Asc l) (h : (b, i) ∈ l) : route l b = i := by
  induction l with
  | nil => cases h
  | cons e l ih =>
    rw [route_cons]
    have ha' := List.pairwise_cons.1 ha
    rcases List.mem_cons.1 h with h | h
    · subst h; simp
    · have := ha'.1 _ h
      rw [if_neg (by simp at this; omega)]
      exact ih ha'.2 h

/-- With places that differ, the place tells the key. -/
theorem key_of_slot {l : List (Key × Nat)} (hn : (l.map Prod.snd).Nodup) {b b' : Key} {i : Nat}
    (h : (b, i) ∈ l) (h' : (b', i) ∈ l) : b = b' := by
  induction l with
  | nil => cases h
  | cons e l ih =>
    simp only [List.map_cons, List.nodup_cons, List.mem_map, not_exists, not_and] at hn
    rcases List.mem_cons.1 h with h | h <;> rcases List.mem_cons.1 h' with h' | h'
    · rw [← h] at h'; exact (Prod.mk.inj h').1.symm
    · exact absurd (by rw [← h]) (hn.1 _ h')
    · exact absurd (by rw [← h']) (hn.1 _ h)
    · exact ih hn.2 h h'

/-- Keys between one that is sent to a place and the bound of the place are sent there, too. -/
theorem route_between {l : List (Key × Nat)} (ha : Asc l) {k k' : Key} {b : Key} {i : Nat} (h : (b, i) ∈ l)
    (hr : route l k = i) (hn : (l.map Prod.snd).Nodup) (h0 : i ≠ 0) (h1 : k ≤ k') (h2 : k' ≤ b) :
    route l k' = i := by
  induction l with
  | nil => cases h
  | cons e l ih =>
    have ha' := List.pairwise_cons.1 ha
    simp only [List.map_cons, List.nodup_cons, List.mem_map, not_exists, not_and] at hn
    rw [route_cons] at hr ⊢
    rcases List.mem_cons.1 h with h | h
    · subst h
      rw [if_pos h2]
    · have h3 := ha'.1 _ h
      split at hr
      · exact absurd hr.symm (hn.1 _ h)
      · next hk =>
        rw [if_neg (by omega)]
        exact ih ha'.2 h hr hn.2

/-- A key sent to a place is not above its bound. -/
theorem route_le {l : List (Key × Nat)} {k : Key} {b : Key} {i : Nat} (h : (b, i) ∈ l)
    (hr : route l k = i) (hn : (l.map Prod.snd).Nodup) (h0 : i ≠ 0) : k ≤ b := by
  rcases route_mem (l := l) (k := k) with h' | ⟨b', h', hm⟩
  · omega
  · rw [hr] at hm
    exact key_of_slot hn hm h ▸ h'

/-- A key sent to place 0 is above all bounds. -/
theorem route_zero {l : List (Key × Nat)} {k : Key} (hp : ∀ e ∈ l, e.2 ≠ 0) (h : route l k = 0) :
    ∀ e ∈ l, e.1 < k := by
  induction l with
  | nil => intro e he; cases he
  | cons e l ih =>
    rw [route_cons] at h
    split at h
    · exact absurd h (hp e (List.mem_cons_self ..))
    · intro e' he'
      rcases List.mem_cons.1 he' with he' | he'
      · subst he'; omega
      · exact ih (fun e he => hp e (List.mem_cons_of_mem _ he)) h e' he'

theorem route_mono_zero {l : List (Key × Nat)} {k k' : Key} (hp : ∀ e ∈ l, e.2 ≠ 0) (h : route l k = 0)
    (hk : k ≤ k') : route l k' = 0 :=
  route_above fun e he => Nat.lt_of_lt_of_le (route_zero hp h e he) hk

theorem route_slots {M : Node} {k : Key} : route M.kids k ∈ M.slots := by
  rcases route_mem (l := M.kids) (k := k) with h | ⟨b, _, hm⟩
  · rw [h]; exact List.mem_cons_self ..
  · exact List.mem_cons_of_mem _ (List.mem_map.2 ⟨_, hm, rfl⟩)

/-! ## Paths -/

/-- A leaf or node is on the search path of a key. -/
inductive On (R : Option Id) (N : Id → Node) (k : Key) : Ref → Prop
  | root {r : Id} (h : R = some r) : On R N k (.node r)
  | step {n : Id} {y : Ref} (h : On R N k (.node n)) (hd : (N n).dest k = .to y) : On R N k y

/-- It is on the search path of some key. -/
def Lit (R : Option Id) (N : Id → Node) (x : Ref) : Prop := ∃ k, On R N k x

/-- The search path of some key leads through this place of a node. -/
def Use (R : Option Id) (N : Id → Node) (n : Id) (j : Nat) : Prop :=
  ∃ k, On R N k (.node n) ∧ route (N n).kids k = j

/-- The search path of a key leads from one object to another. -/
inductive Path (N : Id → Node) (k : Key) : Ref → Ref → Prop
  | refl (x : Ref) : Path N k x x
  | step {n : Id} {y z : Ref} (hd : (N n).dest k = .to y) (h : Path N k y z) : Path N k (.node n) z

/-- The level of an object. -/
def lvl (N : Id → Node) : Ref → Nat
  | .leaf _ => 0
  | .node n => (N n).lv

@[simp] theorem lvl_leaf (l : Id) : lvl N (.leaf l) = 0 := rfl
@[simp] theorem lvl_node (n : Id) : lvl N (.node n) = (N n).lv := rfl

theorem Path.snoc {k : Key} {x y : Ref} {n : Id} (h : Path N k x (.node n)) (hd : (N n).dest k = .to y) :
    Path N k x y := by
  generalize hz : Ref.node n = z at h
  induction h with
  | refl => subst hz; exact .step hd (.refl _)
  | step hd' _ ih => exact .step hd' (ih hz)

theorem Path.on {k : Key} {x y : Ref} (h : Path N k x y) (hx : On R N k x) : On R N k y := by
  induction h with
  | refl => exact hx
  | step hd _ ih => exact ih (.step hx hd)

theorem On.path {k : Key} {y : Ref} (h : On R N k y) : ∃ r, R = some r ∧ Path N k (.node r) y := by
  induction h with
  | root h => exact ⟨_, h, .refl _⟩
  | step _ hd ih =>
    obtain ⟨r, hr, hp⟩ := ih
    exact ⟨r, hr, hp.snoc hd⟩

/-- Pointers lead down one level. -/
def Lev (N : Id → Node) : Prop := ∀ n i y, (N n).cell i = .to y → (N n).lv = lvl N y + 1

theorem Lev.dest (hl : Lev N) {n : Id} {k : Key} {y : Ref} (h : (N n).dest k = .to y) :
    (N n).lv = lvl N y + 1 := hl _ _ _ h

theorem Path.lvl_le (hl : Lev N) {k : Key} {x y : Ref} (h : Path N k x y) : lvl N y ≤ lvl N x := by
  induction h with
  | refl => exact Nat.le_refl _
  | step hd _ ih =>
    have := hl.dest hd
    simp only [lvl_node]
    omega

theorem Path.eq_of_lvl (hl : Lev N) {k : Key} {x y : Ref} (h : Path N k x y) (he : lvl N x = lvl N y) :
    x = y := by
  cases h with
  | refl => rfl
  | step hd h =>
    have := hl.dest hd
    have := h.lvl_le hl
    simp only [lvl_node] at he
    omega

/-- Two objects on a path follow each other. -/
theorem Path.linear (hl : Lev N) {k : Key} {x y z : Ref} (h : Path N k x y) (h' : Path N k x z)
    (hyz : lvl N z ≤ lvl N y) : Path N k y z := by
  induction h with
  | refl => exact h'
  | step hd h ih =>
    cases h' with
    | refl =>
      have := h.lvl_le hl
      have := hl.dest hd
      simp only [lvl_node] at hyz
      omega
    | step hd' h' =>
      rw [hd] at hd'
      cases hd'
      exact ih h' hyz

theorem On.linear (hl : Lev N) {k : Key} {y z : Ref} (h : On R N k y) (h' : On R N k z)
    (hyz : lvl N z ≤ lvl N y) : Path N k y z := by
  obtain ⟨r, hr, hp⟩ := h.path
  obtain ⟨r', hr', hp'⟩ := h'.path
  rw [hr] at hr'
  cases hr'
  exact hp.linear hl hp' hyz

theorem On.unique (hl : Lev N) {k : Key} {y z : Ref} (h : On R N k y) (h' : On R N k z)
    (hyz : lvl N y = lvl N z) : y = z :=
  (h.linear hl h' (by omega)).eq_of_lvl hl hyz

/-- The level of the root is highest. -/
theorem On.lvl_root (hl : Lev N) {k : Key} {y : Ref} {r : Id} (h : On R N k y) (hr : R = some r) :
    y = .node r ∨ lvl N y < (N r).lv := by
  obtain ⟨r', hr', hp⟩ := h.path
  rw [hr] at hr'
  cases hr'
  cases hp with
  | refl => exact .inl rfl
  | step hd hp =>
    have := hp.lvl_le hl
    have := hl.dest hd
    right; omega

theorem On.inv {k : Key} {y : Ref} (h : On R N k y) :
    (∃ r, R = some r ∧ y = .node r) ∨ ∃ n, On R N k (.node n) ∧ (N n).dest k = .to y := by
  cases h with
  | root h => exact .inl ⟨_, h, rfl⟩
  | step h hd => exact .inr ⟨_, h, hd⟩

theorem On.inv_leaf {k : Key} {l : Id} (h : On R N k (.leaf l)) :
    ∃ n, On R N k (.node n) ∧ (N n).dest k = .to (.leaf l) := by
  cases h with
  | step h hd => exact ⟨_, h, hd⟩

theorem On.use {k : Key} {n : Id} (h : On R N k (.node n)) : Use R N n (route (N n).kids k) := ⟨k, h, rfl⟩

theorem Use.lit {n : Id} {j : Nat} (h : Use R N n j) : Lit R N (.node n) := by
  obtain ⟨k, h, _⟩ := h; exact ⟨k, h⟩

theorem Use.child {n : Id} {j : Nat} {y : Ref} (h : Use R N n j) (hc : (N n).cell j = .to y) : Lit R N y := by
  obtain ⟨k, h, hj⟩ := h
  exact ⟨k, .step h (by simp only [Node.dest, hj, hc])⟩

/-- Paths only depend on the nodes on them. -/
theorem On.congr {N' : Id → Node} {k : Key} {y : Ref}
    (hN : ∀ n, Lit R N (.node n) → (N' n).dest k = (N n).dest k) (h : On R N k y) : On R N' k y := by
  induction h with
  | root h => exact .root h
  | step h hd ih => exact .step ih (by rw [hN _ ⟨k, h⟩, hd])

theorem On.congr' {N' : Id → Node} {k : Key} {y : Ref}
    (hN : ∀ n, Lit R N (.node n) → (N' n).dest k = (N n).dest k) (h : On R N' k y) : On R N k y := by
  induction h with
  | root h => exact .root h
  | step h hd ih => exact .step ih (by rw [← hN _ ⟨k, ih⟩, hd])

/-! ## What a change replaces -/

/-- A leaf or node, what it is replaced with, and everything that becomes obsolete. -/
structure Job where
  x : Ref
  xl : Ref
  xh : Ref
  mid : Key
  ch : List Ref

/-- What takes the place of `x` for a key. -/
def Job.side (J : Job) (k : Key) : Ref := if k ≤ J.mid then J.xl else J.xh

theorem Job.side_low {J : Job} {k : Key} (h : k ≤ J.mid) : J.side k = J.xl := if_pos h
theorem Job.side_high {J : Job} {k : Key} (h : J.mid < k) : J.side k = J.xh := if_neg (by omega)

/-- The change a node takes part in. -/
def Phase.job : Phase → Option Job
  | .split _ x xl xh mid ch => some ⟨x, xl, xh, mid, ch⟩
  | .ins _ x xl xh mid ch _ => some ⟨x, xl, xh, mid, ch⟩
  | .full _ x xl xh mid ch _ => some ⟨x, xl, xh, mid, ch⟩
  | .root x nl nh mid ch => some ⟨.node x, .node nl, .node nh, mid, ch⟩
  | _ => none

/-- A change that can still be rolled back, with the place of what is replaced. -/
def Phase.plan : Phase → Option (Nat × Job)
  | .split i x xl xh mid ch => some (i, ⟨x, xl, xh, mid, ch⟩)
  | .full i x xl xh mid ch _ => some (i, ⟨x, xl, xh, mid, ch⟩)
  | _ => none

theorem Phase.plan_job {p : Phase} {i : Nat} {J : Job} (h : p.plan = some (i, J)) : p.job = some J := by
  cases p <;> simp [Phase.plan, Phase.job] at h ⊢ <;> exact h.2

/-- The old and the new object at the same level of the search path of a key, as far as these differ. -/
inductive Pair (N : Id → Node) (k : Key) (x y : Ref) : Ref → Ref → Prop
  | base : Pair N k x y x y
  | step {n n' : Id} {w w' : Ref} (h : Pair N k x y (.node n) (.node n')) (hd : (N n).dest k = .to w)
    (hd' : (N n').dest k = .to w') (hne : w ≠ w') : Pair N k x y w w'

/-- Was this object created already? -/
def Alloc (nN nL : Nat) : Ref → Prop
  | .leaf l => l < nL
  | .node n => n < nN

end Scc.Grove
