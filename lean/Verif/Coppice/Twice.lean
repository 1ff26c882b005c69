import Verif.Coppice.Demo

/-!
# C68 is false

A removal takes away two entries (C52), so that there is no order.
-/

namespace Scc.Coppice

open Grove (Ev upd upd_ne)

/-- A step in the only tree. -/
def inner (s : St Nat) (a : Grove.Act) : Option (St Nat) :=
  match Grove.exec (s.tr 0) a with
  | some (T, .tau) => some { s with tr := upd s.tr 0 T, es := upd s.es 0 (.tau :: s.es 0) }
  | some (T, .put y k v) =>
    match s.pc y with
    | .in 0 => some { s with tr := upd s.tr 0 T, es := upd s.es 0 (.put y k v :: s.es 0) }
    | _ => none
  | some (T, .del y k v) =>
    match s.pc y with
    | .in 0 => some { s with tr := upd s.tr 0 T, es := upd s.es 0 (.del y k v :: s.es 0) }
    | _ => none
  | some (T, .ret y r) =>
    match s.pc y with
    | .in 0 => some { s with tr := upd s.tr 0 T, es := upd s.es 0 (.ret y r :: s.es 0), pc := upd s.pc y (.done (some 0)), got := (y, some r) :: s.got }
    | _ => none
  | _ => none

theorem inner_sound {s s' : St Nat} {a : Grove.Act} (h : inner s a = some s') : Step s s' ∧ s'.bef = s.bef ∧ s'.ask = s.ask ∧ s'.nid = s.nid := by
  simp only [inner] at h
  split at h
  · cases h; exact ⟨.work (Grove.exec_sound ‹_›) trivial, rfl, rfl, rfl⟩
  · rename_i h1
    split at h <;> cases h
    exact ⟨.work (Grove.exec_sound h1) ‹_›, rfl, rfl, rfl⟩
  · rename_i h1
    split at h <;> cases h
    exact ⟨.work (Grove.exec_sound h1) ‹_›, rfl, rfl, rfl⟩
  · rename_i h1
    split at h <;> cases h
    exact ⟨.ret ‹_› (Grove.exec_sound h1), rfl, rfl, rfl⟩
  · cases h

def inners : List Grove.Act → St Nat → Option (St Nat)
  | [], s => some s
  | a :: l, s =>
    match inner s a with
    | some s' => inners l s'
    | none => none

theorem inners_sound {l : List Grove.Act} {s s' : St Nat} (h : inners l s = some s') (r : Reach s) :
    Reach s' ∧ s'.bef = s.bef ∧ s'.ask = s.ask ∧ s'.nid = s.nid := by
  induction l generalizing s with
  | nil => cases h; exact ⟨r, rfl, rfl, rfl⟩
  | cons a l ih =>
    simp only [inners] at h
    split at h
    · rename_i h1
      obtain ⟨h2, h3, h4, h5⟩ := inner_sound h1
      obtain ⟨k1, k2, k3, k4⟩ := ih h (r.step h2)
      exact ⟨k1, k2.trans h3, k3.trans h4, k4.trans h5⟩
    · cases h

/-- A call begins, -/
def start (s : St Nat) (k : Nat) (o : Grove.Op Nat) : St Nat :=
  { s with pc := upd s.pc s.nid .go, ask := upd s.ask s.nid (.key k o), nid := s.nid + 1, bef := upd s.bef s.nid fun x => ∃ r, (x, r) ∈ s.got }

/-- and comes into the tree. -/
def into (s : St Nat) (x k : Nat) (o : Grove.Op Nat) : Option (St Nat) :=
  match s.pc x, Grove.exec (s.tr s.cur) (.call x k o) with
  | .go, some (T, _) => some { s with tr := upd s.tr s.cur T, es := upd s.es s.cur (.call x k o :: s.es s.cur), pc := upd s.pc x (.in s.cur) }
  | _, _ => none

theorem into_sound {s s' : St Nat} {x k : Nat} {o : Grove.Op Nat} (h : into s x k o = some s') (ha : s.ask x = .key k o) :
    Step s s' ∧ s'.bef = s.bef ∧ s'.ask = s.ask ∧ s'.nid = s.nid := by
  simp only [into] at h
  split at h
  · rename_i T e h1 h2
    cases h
    have h3 := Grove.exec_sound h2
    have : e = .call x k o := by
      simp only [Grove.exec] at h2
      split at h2 <;> cases h2
      rfl
    subst this
    exact ⟨.enter h1 ha h3, rfl, rfl, rfl⟩
  · cases h

/-- One call begins, and some steps follow. -/
def part (k : Nat) (o : Grove.Op Nat) (l : List Grove.Act) (s : St Nat) : Option (St Nat) :=
  match into (start s k o) s.nid k o with
  | some s' => inners l s'
  | none => none

theorem part_sound {k : Nat} {o : Grove.Op Nat} {l : List Grove.Act} {s s' : St Nat} (h : part k o l s = some s') (r : Reach s) :
    Reach s' ∧ s'.nid = s.nid + 1 ∧ s'.ask = upd s.ask s.nid (.key k o) ∧ s'.bef = upd s.bef s.nid fun x => ∃ r, (x, r) ∈ s.got := by
  simp only [part] at h
  split at h
  · rename_i h1
    obtain ⟨h2, h3, h4, h5⟩ := into_sound h1 (Grove.upd_same _ _ _)
    obtain ⟨k1, k2, k3, k4⟩ := inners_sound h ((r.step (.begin (.key k o))).step h2)
    exact ⟨k1, k4.trans h5, k3.trans h4, k2.trans h3⟩
  · cases h

/-- Call 0 inserts a key. -/
def p0 := part 0 (.insert 10) [.go 0, .go 0, .go 0, .go 0, .go 0, .go 0, .go 0]
/-- Call 1, an insertion of the same key, has loaded the root. -/
def p1 := part 0 (.insert 20) [.go 1]
/-- Call 2 removes the key; the leaf and the node retire; call 1 has the lock when call 2 tries to remove the root, so that call 2 begins again; call 1 makes a new root
and inserts; call 2 removes once more. -/
def p2 := part 0 (.remove fun _ => true) [.go 2, .go 2, .go 2, .go 2, .go 2, .lock 2 0, .retire 0, .unlock 0, .go 1, .go 1, .lock 1 0, .busy 2, .rootEmpty 0, .unlock 0,
  .go 1, .go 1, .go 1, .go 1, .go 1, .go 1, .go 1, .go 2, .go 2, .go 2, .go 2, .go 2, .go 2, .go 2]
/-- Call 3 does not find it. -/
def p3 := part 0 .peek [.go 3, .go 3, .go 3, .go 3, .go 3, .go 3]

/-- The key is there. -/
def bit (m : Nat → Option Nat) : Nat := if m 0 = none then 0 else 1

def isIns (e : Rec Nat) : Bool := e.ans == some .inserted
def isRem (e : Rec Nat) : Bool := e.ans == some (.removed true)

/-- Insertions and removals that succeed alternate. -/
theorem count {m m' : Nat → Option Nat} {l : List (Rec Nat)} (h : Legal m l m') (hk : ∀ e ∈ l, ∃ o, e.act = .key 0 o) :
    bit m' + l.countP isRem = bit m + l.countP isIns := by
  induction h with
  | nil => rfl
  | @cons m m' e l hr h ih =>
    have ih := ih fun e' he' => hk e' (List.mem_cons.2 (.inr he'))
    obtain ⟨o, ho⟩ := hk e (List.mem_cons.2 (.inl rfl))
    rw [List.countP_cons, List.countP_cons]
    have key : bit (e.act.apply m).1 + (if isRem e then 1 else 0) = bit m + (if isIns e then 1 else 0) := by
      simp only [isIns, isRem, hr, ho, Act.apply, bit, if_true]
      cases hm : m 0 <;> cases o <;> simp only [Grove.Op.act]
      all_goals first | rfl | (split <;> rfl) | simp
    omega

theorem Legal.split {m m' : Nat → Option Nat} {a b : List (Rec Nat)} (h : Legal m (a ++ b) m') : ∃ m1, Legal m a m1 ∧ Legal m1 b m' := by
  induction a generalizing m with
  | nil => exact ⟨m, .nil, h⟩
  | cons e a ih =>
    cases h with
    | cons hr h =>
      obtain ⟨m1, h1, h2⟩ := ih h
      exact ⟨m1, .cons hr h1, h2⟩

theorem countP_le_one {l : List (Rec Nat)} (hp : l.Pairwise fun e e' => e.id ≠ e'.id) {P : Rec Nat → Bool} {x : Nat} (h : ∀ e ∈ l, P e = true → e.id = x) :
    l.countP P ≤ 1 := by
  induction l with
  | nil => exact Nat.zero_le _
  | cons e l ih =>
    obtain ⟨h1, h2⟩ := List.pairwise_cons.1 hp
    rw [List.countP_cons]
    have ih := ih h2 fun e' he' => h e' (List.mem_cons.2 (.inr he'))
    by_cases he : P e = true
    · have h0 : l.countP P = 0 := by
        rw [List.countP_eq_zero]
        intro e' he' hP
        exact h1 e' he' ((h e (List.mem_cons.2 (.inl rfl)) he).trans (h e' (List.mem_cons.2 (.inr he')) hP).symm)
      rw [h0, if_pos he]; exact Nat.le_refl _
    · rw [if_neg he]; exact ih

theorem two_le_countP {l : List (Rec Nat)} {P : Rec Nat → Bool} {e e' : Rec Nat} (h : e ∈ l) (h' : e' ∈ l) (hP : P e = true) (hP' : P e' = true) (hn : e ≠ e') :
    2 ≤ l.countP P := by
  induction l with
  | nil => cases h
  | cons a l ih =>
    rw [List.countP_cons]
    rcases List.mem_cons.1 h with h | h <;> rcases List.mem_cons.1 h' with h' | h'
    · exact absurd (h.trans h'.symm) hn
    · have : 0 < l.countP P := List.countP_pos_iff.2 ⟨e', h', hP'⟩
      rw [← h, if_pos hP]; omega
    · have : 0 < l.countP P := List.countP_pos_iff.2 ⟨e, h, hP⟩
      rw [← h', if_pos hP']; omega
    · exact Nat.le_trans (ih h h') (Nat.le_add_right _ _)

theorem same_id {l : List (Rec Nat)} (hp : l.Pairwise fun e e' => e.id ≠ e'.id) {e e' : Rec Nat} (h : e ∈ l) (h' : e' ∈ l) (hi : e.id = e'.id) : e = e' := by
  induction l with
  | nil => cases h
  | cons a l ih =>
    obtain ⟨p1, p2⟩ := List.pairwise_cons.1 hp
    rcases List.mem_cons.1 h with h | h <;> rcases List.mem_cons.1 h' with h' | h'
    · exact h.trans h'.symm
    · exact absurd (h ▸ hi) (p1 _ h')
    · exact absurd (h' ▸ hi.symm) (p1 _ h)
    · exact ih p2 h h'

/-- Two insertions of a key that succeed, one removal, and nothing found after them have no order. -/
theorem not_ordered {s : St Nat} (hn : s.nid = 4) (hg : s.got = [(3, some (.found none)), (2, some (.removed true)), (1, some .inserted), (0, some .inserted)])
    (hk : ∀ x, x < 4 → ∃ o, s.ask x = .key 0 o) (hb : ∀ x, x < 3 → s.bef 3 x) : ¬ Ordered s := by
  rintro ⟨l, m, h1, h2, h3, h4⟩
  have hd : l.Pairwise fun e e' => e.id ≠ e'.id := h2.imp fun h => h.2
  have m0 := h4 0 _ (by rw [hg]; simp : (0, some .inserted) ∈ s.got)
  have m1 := h4 1 _ (by rw [hg]; simp : (1, some .inserted) ∈ s.got)
  have m2 := h4 2 _ (by rw [hg]; simp : (2, some (.removed true)) ∈ s.got)
  have m3 := h4 3 _ (by rw [hg]; simp : (3, some (.found none)) ∈ s.got)
  obtain ⟨a, b, hab⟩ := List.append_of_mem m3
  have hP := h2
  rw [hab] at hP
  obtain ⟨-, hP, -⟩ := List.pairwise_append.1 hP
  have hb0 : b = [] := by
    cases b with
    | nil => rfl
    | cons e b =>
      have he : e ∈ l := by rw [hab]; simp
      obtain ⟨k1, k2⟩ := (List.pairwise_cons.1 hP).1 e (List.mem_cons.2 (.inl rfl))
      have k2 : 3 ≠ e.id := k2
      have := (h3 e he).1
      exact absurd (hb e.id (by omega)) k1
  have hc := count h1 fun e he => by
    rw [(h3 e he).2]; exact hk _ (by rw [← hn]; exact (h3 e he).1)
  have c1 : 2 ≤ l.countP isIns := two_le_countP m0 m1 rfl rfl fun h => by
    have := congrArg Rec.id h
    cases this
  have c2 : l.countP isRem ≤ 1 := by
    refine countP_le_one hd (x := 2) fun e he hr => ?_
    have hlt := (h3 e he).1
    rw [hn] at hlt
    have : e.id = 0 ∨ e.id = 1 ∨ e.id = 2 ∨ e.id = 3 := by omega
    rcases this with h | h | h | h
    · rw [same_id hd he m0 h] at hr; cases hr
    · rw [same_id hd he m1 h] at hr; cases hr
    · exact h
    · rw [same_id hd he m3 h] at hr; cases hr
  rw [hab, hb0] at h1
  obtain ⟨m', -, h5⟩ := h1.split
  cases h5 with
  | cons hr h6 =>
    cases h6
    obtain ⟨o, ho⟩ := hk 3 (by omega)
    simp only [ho, Act.apply] at hr hc
    cases o with
    | peek =>
      have hr : some (Grove.Ans.found none) = some (.found (m' 0)) := hr
      have : m' 0 = none := by injection hr with hr; injection hr with hr; exact hr.symm
      have e1 : bit (fun j => if j = 0 then ((Grove.Op.peek).act (m' 0)).2 else m' j) = 0 := by
        simp [bit, Grove.Op.act, this]
      rw [e1] at hc
      have e2 : bit (fun _ => none) = 0 := rfl
      omega
    | insert v => cases hm : m' 0 <;> rw [hm] at hr <;> cases hr
    | remove c =>
      cases hm : m' 0 <;> rw [hm] at hr
      · cases hr
      · simp only [Grove.Op.act] at hr
        split at hr <;> cases hr

set_option maxRecDepth 100000 in
/-- C68 is false: in this execution, without any call of `clear`, the calls have no order, because a removal takes away two entries (C52). -/
theorem c68_violated : ∃ s : St Nat, Reach s ∧ ¬ Ordered s := by
  have h : ((((p0 .init).bind p1).bind p2).map fun s => (s.nid, s.got)) = some (3, [(2, some (.removed true)), (1, some .inserted), (0, some .inserted)]) := by decide +kernel
  have g : ((((p0 .init).bind p1).bind p2).bind p3).map (fun s => s.got) =
      some [(3, some (.found none)), (2, some (.removed true)), (1, some .inserted), (0, some .inserted)] := by decide +kernel
  cases e0 : p0 .init with
  | none => rw [e0] at g; cases g
  | some s0 =>
  cases e1 : p1 s0 with
  | none => rw [e0, Option.bind_some, e1] at g; cases g
  | some s1 =>
  cases e2 : p2 s1 with
  | none => rw [e0, Option.bind_some, e1, Option.bind_some, e2] at g; cases g
  | some s2 =>
  cases e3 : p3 s2 with
  | none => rw [e0, Option.bind_some, e1, Option.bind_some, e2, Option.bind_some, e3] at g; cases g
  | some s3 =>
  rw [e0, Option.bind_some, e1, Option.bind_some, e2] at g h
  rw [Option.bind_some, e3] at g
  have g : s3.got = _ := Option.some.inj g
  have h := Prod.mk.inj (Option.some.inj h)
  obtain ⟨r0, n0, a0, -⟩ := part_sound e0 .init
  obtain ⟨r1, n1, a1, -⟩ := part_sound e1 r0
  obtain ⟨r2, n2, a2, -⟩ := part_sound e2 r1
  obtain ⟨r3, n3, a3, b3⟩ := part_sound e3 r2
  have n0 : s0.nid = 1 := n0
  have n1 : s1.nid = 2 := by rw [n1, n0]
  have n2 : s2.nid = 3 := by rw [n2, n1]
  refine ⟨s3, r3, not_ordered (by rw [n3, n2]) g (fun x hx => ?_) fun x hx => ?_⟩
  · rw [a3, a2, a1, a0, n2, n1, n0]
    have : x = 0 ∨ x = 1 ∨ x = 2 ∨ x = 3 := by omega
    rcases this with e | e | e | e <;> subst e <;> exact ⟨_, rfl⟩
  · rw [b3, n2, Grove.upd_same, h.2]
    have : x = 0 ∨ x = 1 ∨ x = 2 := by omega
    rcases this with e | e | e <;> subst e
    · exact ⟨some .inserted, by simp⟩
    · exact ⟨some .inserted, by simp⟩
    · exact ⟨some (.removed true), by simp⟩

end Scc.Coppice
