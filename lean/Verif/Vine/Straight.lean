import Verif.Vine.Faith
import Verif.Vine.Firm
import Verif.Vine.Witness

/-!
# Executions in which iterators are faithful and ascend, by computation
-/

namespace Scc.Vine

open Scc.Grove

local notation "Key" => Nat
local notation "Id" => Nat
local notation "Thr" => Nat

/-- Executions that are both direct and firm. -/
def Good (s : ISt Nat) (es : List (IEv Nat)) : Prop := Direct s es ∧ Firm s es

theorem Good.next {s s' : ISt Nat} {es : List (IEv Nat)} {e : IEv Nat} (g : Good s es) (h : IStep s e s')
    (hi : s'.it = s.it) (hm : ∀ l, s.list.mark l = true → s'.list.mark l = true) : Good s' (e :: es) :=
  ⟨.step g.1 h (by rw [hi]; exact g.1.dir), .step g.2 h hm⟩

/-- `itsB`, as long as no child turns out to be empty. -/
def itsD (t : Thr) : Nat → ISt Nat → List (IEv Nat) → Option (ISt Nat × List (IEv Nat))
  | 0, s, es => some (s, es)
  | n + 1, s, es =>
    match iterB s.base.mem s.list t (s.it t) with
    | some (_, .none (_ :: _)) => none
    | some (e, p) => itsD t n { s with it := upd s.it t p } (e :: es)
    | none => none

theorem itsD_sound {t : Thr} {n : Nat} {s s' : ISt Nat} {es es' : List (IEv Nat)}
    (h : itsD t n s es = some (s', es')) (g : Good s es) : Good s' es' := by
  induction n generalizing s es with
  | zero => cases h; exact g
  | succ n ih =>
    simp only [itsD] at h
    split at h
    · cases h
    · rename_i e p hp h1
      refine ih h ⟨.step g.1 (.iter t (iterB_sound h1)) fun u f st hu => ?_, .step g.2 (.iter t (iterB_sound h1)) fun _ hl => hl⟩
      by_cases hut : u = t
      · subst u
        have hu : upd s.it t p t = _ := hu
        rw [upd_eq] at hu
        exact hp _ _ hu
      · have hu : upd s.it t p u = _ := hu
        rw [upd_ne hut] at hu
        exact g.1.dir u f st hu
    · cases h

/-- `playB`, as long as no child turns out to be empty and no mark is taken away. -/
def playD : List Act → ISt Nat → List (IEv Nat) → Option (ISt Nat × List (IEv Nat))
  | [], s, es => some (s, es)
  | .call t k o :: l, s, es =>
    match exec s.base (.call t k o) with
    | some (b, e) => playD l { s with base := b } (.base e :: es)
    | none => none
  | .lock t n :: l, s, es =>
    if s.base.mem.phase n = .free ∧ (s.base.th t).pc ≠ .idle ∧ (n ∈ (s.base.th t).vis ∨ s.base.mem.root = some n) then
      match chgB s (s.base.mem.setPhase n .locked) with
      | some s' => playD l s' (.base .tau :: es)
      | none => none
    else none
  | .go t n :: l, s, es =>
    match goesB t n s es with
    | some (s', es') => playD l s' es'
    | none => none
  | .chg c :: l, s, es =>
    match chg s.base.mem c with
    | some m => match chgB s m with
      | some s' => playD l s' (.base .tau :: es)
      | none => none
    | none => none
  | .rel (.unmark _) :: _, _, _ => none
  | .rel r :: l, s, es =>
    match relB s.base.mem s.list r with
    | some d => playD l { s with list := d } (.tau :: es)
    | none => none
  | .it t n :: l, s, es =>
    match itsD t n s es with
    | some (s', es') => playD l s' es'
    | none => none

theorem callB_it {s s' : ISt Nat} {t : Thr} {e : IEv Nat} (h : callB s t = some (s', e)) :
    s'.it = s.it ∧ s'.list.mark = s.list.mark := by
  unfold callB at h
  split at h
  case h_2 => cases h
  case h_1 => split at h <;> cases h <;> exact ⟨rfl, rfl⟩

theorem goesD_sound {t : Thr} {n : Nat} {s s' : ISt Nat} {es es' : List (IEv Nat)}
    (h : goesB t n s es = some (s', es')) (g : Good s es) : Good s' es' := by
  induction n generalizing s es with
  | zero => cases h; exact g
  | succ n ih =>
    simp only [goesB] at h
    split at h
    · rename_i h1
      exact ih h (g.next (callB_sound h1) (callB_it h1).1 fun _ hl => by rw [(callB_it h1).2]; exact hl)
    · cases h

theorem chgB_it {s s' : ISt Nat} {m : Mem Nat} (h : chgB s m = some s') :
    s'.it = s.it ∧ s'.list.mark = s.list.mark := by
  unfold chgB at h
  split at h <;> cases h
  exact ⟨rfl, rfl⟩

theorem relB_mark {m : Mem Nat} {d d' : Lst} {r : Rel} (h : relB m d r = some d') (hr : ∀ n, r ≠ .unmark n) {l : Id}
    (hl : d.mark l = true) : d'.mark l = true := by
  cases r <;> simp only [relB] at h
  case unmark n => exact absurd rfl (hr n)
  all_goals
    split at h
    all_goals try split at h
    all_goals cases h
    all_goals try exact hl
    all_goals
      simp only [Lst.push, upd]
      split
      · rfl
      · exact hl

theorem playD_sound {l : List Act} {s s' : ISt Nat} {es es' : List (IEv Nat)} (h : playD l s es = some (s', es'))
    (g : Good s es) : Good s' es' := by
  induction l generalizing s es with
  | nil => cases h; exact g
  | cons a l ih =>
    have hr := g.1.run
    cases a with
    | call t k o =>
      simp only [playD] at h
      split at h <;> try (cases h; done)
      rename_i b e h1
      simp only [exec] at h1
      split at h1 <;> cases h1
      exact ih h (g.next (.call (.call t k o ‹_›) rfl) rfl fun _ hl => hl)
    | go t n =>
      simp only [playD] at h
      split at h <;> try (cases h; done)
      rename_i h1; exact ih h (goesD_sound h1 g)
    | lock t n =>
      simp only [playD] at h
      split at h <;> try (cases h; done)
      rename_i hp
      split at h <;> try (cases h; done)
      rename_i h1
      exact ih h (g.next (chgB_sound h1 hr (.lock n hp.1 (hp.2.2.imp (fun hv => ⟨t, hp.2.1, hv⟩) id))) (chgB_it h1).1 fun _ hl => by rw [(chgB_it h1).2]; exact hl)
    | chg c =>
      simp only [playD] at h
      split at h <;> try (cases h; done)
      rename_i h1
      split at h <;> try (cases h; done)
      rename_i h2
      exact ih h (g.next (chgB_sound h2 hr (chg_sound h1)) (chgB_it h2).1 fun _ hl => by rw [(chgB_it h2).2]; exact hl)
    | rel r =>
      cases r with
      | unmark n => simp only [playD] at h; cases h
      | _ =>
        simp only [playD] at h
        split at h <;> try (cases h; done)
        rename_i h1
        exact ih h (g.next (.relink (relB_sound h1)) rfl fun _ hl => relB_mark h1 (fun _ => by simp) hl)
    | it t n =>
      simp only [playD] at h
      split at h <;> try (cases h; done)
      rename_i h1; exact ih h (itsD_sound h1 g)

/-- Thread 9 iterates and has yielded 10. Thread 2 splits the leaf; thread 9 yields 20 and 30, and takes a snapshot of the
lower half. Thread 2 goes on: the halves take the place of the leaf, which is deleted. Thread 1 inserts 40,
and removes 10. Thread 9 skips the lower half and goes on with the upper half, and ends. -/
def split : List Act :=
  [.call 1 10 (.insert 100), .go 1 7] ++ ins 1 20 1 ++ ins 1 30 1 ++
  [.it 9 7, .call 2 35 .peek, .go 2 4, .lock 2 0] ++ half 0 0 20 30 ++
  [.it 9 6] ++ c [.insert 0] ++ [.rel (.delSplit 0)] ++ c [.thaw 0, .swap 0, .unlock 0] ++
  [.go 2 2] ++ ins 1 40 1 ++ [.call 1 10 (.remove fun _ => true), .go 1 6, .it 9 8]

set_option maxRecDepth 100000 in
/-- Beside the split of a leaf, an insertion and a removal. -/
theorem split_good : ∃ (s : ISt Nat) (es : List (IEv Nat)), Direct s es ∧ Firm s es ∧
    es.reverse.filterMap IEv.view =
      [.put 10 100, .put 20 200, .put 30 300, .start 9, .give 9 10 100, .give 9 20 200, .give 9 30 300, .put 40 400,
       .del 10 100, .give 9 40 400, .stop 9] := by
  have h : ((playD split .init []).map fun x => x.2.reverse.filterMap IEv.view) = some
      [.put 10 100, .put 20 200, .put 30 300, .start 9, .give 9 10 100, .give 9 20 200, .give 9 30 300, .put 40 400,
       .del 10 100, .give 9 40 400, .stop 9] := by
    decide +kernel
  match he : playD split .init [], h with
  | some (s, es), h =>
    simp only [Option.map_some, Option.some.injEq] at h
    have g := playD_sound he ⟨.init, .init⟩
    exact ⟨s, es, g.1, g.2, h⟩


end Scc.Vine
