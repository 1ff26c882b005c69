import Verif.Coppice.Props
import Verif.Grove.Demo

/-!
# Executions with `clear`
-/

namespace Scc.Coppice

open Grove (Ev mon upd upd_ne Once)

/-- Steps to be tried. -/
inductive Mv
  | begin (a : Act Nat)
  | enter (x : Nat)
  /-- the next step of call `x` in instance `v` -/
  | go (v x : Nat)
  | lock (v x n : Nat)
  | chg (v : Nat) (c : Grove.Chg)
  | move (x : Nat)
  | clear (x : Nat)
  | retClear (x : Nat)

/-- A step of a call in its instance. -/
def one (s : Grove.St Nat) (x : Nat) : Option (Grove.St Nat × Ev Nat) :=
  match Grove.next s x with
  | some y => some y
  | none => Grove.extra s x

theorem one_sound {s s' : Grove.St Nat} {x : Nat} {e : Ev Nat} (h : one s x = some (s', e)) : Grove.Step s e s' := by
  unfold one at h
  split at h
  · cases h; exact Grove.next_sound ‹_›
  · exact Grove.extra_sound h

/-- Try a step; a second removal by one call is refused. -/
def attempt (s : St Nat) : Mv → Option (St Nat)
  | .begin a => some { s with pc := upd s.pc s.nid .go, ask := upd s.ask s.nid a, nid := s.nid + 1, bef := upd s.bef s.nid fun x => ∃ r, (x, r) ∈ s.got }
  | .enter x =>
    match s.pc x, s.ask x with
    | .go, .key k o =>
      match Grove.exec (s.tr s.cur) (.call x k o) with
      | some (T, _) => some { s with tr := upd s.tr s.cur T, es := upd s.es s.cur (.call x k o :: s.es s.cur), pc := upd s.pc x (.in s.cur) }
      | none => none
    | _, _ => none
  | .go v x =>
    match s.pc x with
    | .in w =>
      if w = v then
        match one (s.tr v) x with
        | some (T, .tau) => some { s with tr := upd s.tr v T, es := upd s.es v (.tau :: s.es v) }
        | some (T, .put y k a) => if y = x then some { s with tr := upd s.tr v T, es := upd s.es v (.put y k a :: s.es v) } else none
        | some (T, .del y k a) =>
          if y = x ∧ (mon (s.es v)).eff y = 0 then some { s with tr := upd s.tr v T, es := upd s.es v (.del y k a :: s.es v) } else none
        | some (T, .ret y a) =>
          if y = x then
            some { s with tr := upd s.tr v T, es := upd s.es v (.ret y a :: s.es v), pc := upd s.pc y (.done (some v)), got := (y, some a) :: s.got }
          else none
        | _ => none
      else none
    | _ => none
  | .lock v x n =>
    match Grove.exec (s.tr v) (.lock x n) with
    | some (T, .tau) => some { s with tr := upd s.tr v T, es := upd s.es v (.tau :: s.es v) }
    | _ => none
  | .chg v c =>
    match Grove.chg (s.tr v).mem c with
    | some m => some { s with tr := upd s.tr v { s.tr v with mem := m }, es := upd s.es v (.tau :: s.es v) }
    | none => none
  | .move x =>
    match s.pc x with
    | .in v =>
      match ((s.tr v).th x).pc with
      | .top => if v < s.cur ∧ ((s.tr v).th x).rm = false then some { s with pc := upd s.pc x .go } else none
      | _ => none
    | _ => none
  | .clear x =>
    match s.pc x, s.ask x with
    | .go, .clear => some { s with clr := upd s.clr s.cur (some x), cur := s.cur + 1, pc := upd s.pc x .out }
    | _, _ => none
  | .retClear x =>
    match s.pc x with
    | .out => some { s with pc := upd s.pc x (.done none), got := (x, none) :: s.got }
    | _ => none

theorem once_upd {es : Nat → List (Ev Nat)} (h : ∀ w, Once (es w)) {v : Nat} {e : Ev Nat} (he : ∀ t k a, e = .del t k a → (mon (es v)).eff t = 0) :
    ∀ w, Once (upd es v (e :: es v) w) := by
  intro w
  by_cases ew : w = v
  · subst ew; simp only [upd, if_true]; exact ⟨h w, he⟩
  · rw [upd_ne ew]; exact h w

theorem attempt_sound {s s' : St Nat} {a : Mv} (h : attempt s a = some s') (ho : ∀ v, Once (s.es v)) : Step s s' ∧ ∀ v, Once (s'.es v) := by
  cases a with
  | begin a => cases h; exact ⟨.begin a, ho⟩
  | enter x =>
    simp only [attempt] at h
    split at h
    · split at h
      · rename_i k o h1 h2 _ T e h3
        cases h
        have h4 := Grove.exec_sound h3
        have : e = .call x k o := by
          simp only [Grove.exec] at h3
          split at h3 <;> cases h3
          rfl
        subst this
        exact ⟨.enter h1 h2 h4, once_upd ho nofun⟩
      · cases h
    · cases h
  | go v x =>
    simp only [attempt] at h
    split at h
    · rename_i w hw
      split at h
      · rename_i e
        subst e
        split at h
        · rename_i hn
          cases h
          exact ⟨.work (one_sound hn) trivial, once_upd ho nofun⟩
        · rename_i hn
          split at h <;> cases h
          rename_i e
          subst e
          exact ⟨.work (one_sound hn) hw, once_upd ho nofun⟩
        · rename_i hn
          split at h <;> cases h
          rename_i e
          obtain ⟨e, e0⟩ := e
          subst e
          exact ⟨.work (one_sound hn) hw, once_upd ho fun t k a he => by cases he; exact e0⟩
        · rename_i hn
          split at h <;> cases h
          rename_i e
          subst e
          exact ⟨.ret hw (one_sound hn), once_upd ho nofun⟩
        · cases h
      · cases h
    · cases h
  | lock v x n =>
    simp only [attempt] at h
    split at h <;> cases h
    rename_i hn
    exact ⟨.work (Grove.exec_sound hn) trivial, once_upd ho nofun⟩
  | chg v c =>
    simp only [attempt] at h
    split at h <;> cases h
    rename_i hn
    exact ⟨.work (.change (Grove.chg_sound hn)) trivial, once_upd ho nofun⟩
  | move x =>
    simp only [attempt] at h
    split at h
    · rename_i v hv
      split at h
      · rename_i ht
        split at h <;> cases h
        rename_i e
        exact ⟨.move hv e.1 ht e.2, ho⟩
      · cases h
    · cases h
  | clear x =>
    simp only [attempt] at h
    split at h <;> cases h
    exact ⟨.clear ‹_› ‹_›, ho⟩
  | retClear x =>
    simp only [attempt] at h
    split at h <;> cases h
    exact ⟨.retClear ‹_›, ho⟩

def play : List Mv → St Nat → Option (St Nat)
  | [], s => some s
  | a :: l, s =>
    match attempt s a with
    | some s' => play l s'
    | none => none

theorem play_sound {l : List Mv} {s s' : St Nat} (h : play l s = some s') (r : Reach s) (ho : ∀ v, Once (s.es v)) : Reach s' ∧ ∀ v, Once (s'.es v) := by
  induction l generalizing s with
  | nil => cases h; exact ⟨r, ho⟩
  | cons a l ih =>
    simp only [play] at h
    split at h
    · rename_i h1
      obtain ⟨h2, h3⟩ := attempt_sound h1 ho
      exact ih h (r.step h2) h3
    · cases h

def gos (v x n : Nat) : List Mv := List.replicate n (.go v x)
def ins (x k n : Nat) : List Mv := [.begin (.key k (.insert (k * 10))), .enter x] ++ gos 0 x n

/-- Calls 0 to 3 insert. Call 4 splits the leaf and finds the root full. Call 5, `clear`, takes the tree out before call 4 exchanges the root: that fails and is rolled
back, and call 4 begins again, in the next tree. Meanwhile call 6, which had loaded the old root, removes an entry from the old tree and returns. Call 7 finds what call 4
has inserted, call 8 does not find what call 1 has inserted. -/
def demo : List Mv :=
  ins 0 10 7 ++ ins 1 20 6 ++ ins 2 30 6 ++ ins 3 40 6 ++
  [.begin (.key 35 (.insert 350)), .enter 4] ++ gos 0 4 4 ++ [.lock 0 4 0] ++
  [.chg 0 (.halve 0 0 20 30), .chg 0 (.reserve 0), .chg 0 (.insert 0), .chg 0 (.thaw 0), .chg 0 (.swap 0), .chg 0 (.unlock 0)] ++
  [.begin .clear, .begin (.key 10 (.remove fun _ => true)), .enter 6, .go 0 6] ++
  gos 0 4 5 ++ [.lock 0 4 0, .chg 0 (.halve 0 0 30 40), .chg 0 (.full 0), .chg 0 (.rootClaim 0)] ++
  [.clear 5, .retClear 5, .go 0 4, .chg 0 (.rootFail 3), .chg 0 (.rollLeaf 0), .move 4, .enter 4] ++ gos 0 6 5 ++ gos 1 4 7 ++
  [.begin (.key 35 .peek), .enter 7] ++ gos 1 7 6 ++ [.begin (.key 20 .peek), .enter 8] ++ gos 1 8 6

set_option maxRecDepth 100000 in
/-- Witness for `c68_trees_partial`: nine calls, in two trees, with a removal in the old tree after `clear` has returned and a change of the root that fails because
of `clear`. -/
example : ∃ s : St Nat, Reach s ∧ (∀ v, Once (s.es v)) ∧ s.cur = 1 ∧
    s.got = [(8, some (.found none)), (7, some (.found (some 350))), (4, some .inserted), (6, some (.removed true)), (5, none), (3, some .inserted),
      (2, some .inserted), (1, some .inserted), (0, some .inserted)] := by
  have h : ((play demo .init).map fun s => (s.cur, s.got)) =
      some (1, [(8, some (.found none)), (7, some (.found (some 350))), (4, some .inserted), (6, some (.removed true)), (5, none), (3, some .inserted),
      (2, some .inserted), (1, some .inserted), (0, some .inserted)]) := by
    decide +kernel
  match he : play demo .init, h with
  | some s, h =>
    simp only [Option.map_some, Option.some.injEq, Prod.mk.injEq] at h
    obtain ⟨r, ho⟩ := play_sound he .init fun _ => trivial
    exact ⟨s, r, ho, h⟩

end Scc.Coppice
