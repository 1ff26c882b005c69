import Verif.Crowd.Proof
import Verif.Seq.Props

/-!
# C15 for all interleavings
-/

namespace Scc.Crowd

open Scc.Index (bucketIndex)
open Scc.Bucket
open Scc.Seq hiding Op

variable {K V : Type} {c : Cfg K}

/-- C15. Threads use a `HashMap`, `HashSet`, `HashIndex` or `HashCache` in any interleaving, and the
container is dropped at any point at which no call is running, no matter how far a resize has got. Then the
pairs handed to the container are, as a multiset, those handed back to callers, those the container dropped
before, and those dropped with it. So none is leaked and none is dropped twice. -/
theorem c15_dropped_once [DecidableEq K] (hc : c.Ok) {s : St K V} (r : Run c s) (q : s.Quiet) :
    (s.out ++ s.gone ++ s.closing c).Perm s.inn := by
  have h := run_inv hc r
  rw [perm_iff]
  intro e
  have hcl : s.closing c = (List.range s.next).flatMap fun x =>
      if s.freed x then [] else dropArr c.kind (s.final x) := rfl
  have hp : (s.closing c).Perm s.held := by
    rw [hcl]
    refine flatMap_perm ?_
    intro x hx
    have hx := List.mem_range.1 hx
    split
    · exact List.Perm.refl _
    · exact drop_cells h hx (q x hx)
  have h1 := perm_iff.1 hp e
  have h2 := h.mem e
  simp only [cnt_append]
  omega

/-- C15 in other words: if the pairs handed in are all different, none is handed back or dropped twice, and
every pair handed in is handed back or dropped. -/
theorem c15_no_double_drop [DecidableEq K] (hc : c.Ok) {s : St K V} (r : Run c s) (q : s.Quiet)
    (hn : s.inn.Nodup) :
    (s.out ++ s.gone ++ s.closing c).Nodup ∧
      ∀ e, e ∈ s.inn ↔ e ∈ s.out ∨ e ∈ s.gone ∨ e ∈ s.closing c := by
  have h := c15_dropped_once hc r q
  refine ⟨(h.nodup_iff).2 hn, fun e => ?_⟩
  rw [← h.mem_iff]
  simp

/-- Also before the container is dropped and while helpers are at work, nothing has been handed back or
dropped more often than it was handed in. -/
theorem c15_never_more [DecidableEq K] (hc : c.Ok) {s : St K V} (r : Run c s) (e : K × V) :
    cnt e (s.out ++ s.gone) ≤ cnt e s.inn := by
  have h2 := (run_inv hc r).mem e
  rw [cnt_append]
  omega

/-! ## Executions -/

/-- Steps to be tried. -/
inductive Act (K V : Type)
  | insert (x i : Nat) (e : K × V)
  | remove (x i : Nat) (p : Ptr) (back : Bool)
  | mark (x i : Nat) (p : Ptr) (epoch : Nat)
  | write (x i : Nat) (p : Ptr) (v : V)
  | update (x i : Nat) (p : Ptr) (v : V)
  | evict (x i : Nat)
  | alloc (lg : Nat)
  | grow (a lg : Nat)
  | move (a o j : Nat)
  | claim (a o : Nat)
  | giveUp (o : Nat)
  | finish (o : Nat)
  | detach (a o : Nat)
  | free (x a : Nat)

instance (s : St K V) (x i : Nat) : Decidable (s.Open x i) := by unfold St.Open; infer_instance

/-- The entry under a cursor. -/
def at? (t : Kind) (b : Bucket K V) (p : Ptr) : Option (K × V) :=
  match b.blocks[p.blk]? with
  | some x => if (x.visible t).getLsbD p.idx = true then x.data p.idx else none
  | none => none

theorem at?_ok {t : Kind} {b : Bucket K V} {p : Ptr} {e : K × V} (h : at? t b p = some e) :
    PointsTo t b p e := by
  unfold at? at h
  split at h
  · rename_i x hx
    split at h
    · rename_i hv; exact ⟨x, hx, hv, h⟩
    · cases h
  · cases h

/-- Tries a step. -/
def exec [DecidableEq K] [DecidableEq V] (c : Cfg K) (s : St K V) : Act K V → Option (St K V)
  | .insert x i e =>
    if s.Open x i ∧ bucketIndex (s.arr x).lg (c.hash e.1) = i then
      some { s.setBkt x i (((s.arr x).bkt i).insert c.kind (fun _ => false) (c.hash e.1) e).1 with
        inn := s.inn ++ [e], gone := s.gone ++ ((s.arr x).bkt i).reclaimed c.kind (fun _ => false) }
    else none
  | .remove x i p back =>
    if c.kind ≠ .index ∧ s.Open x i then
      match at? c.kind ((s.arr x).bkt i) p, ((s.arr x).bkt i).remove c.kind p with
      | some e, some (b, some e', _) =>
        if e' = e then
          some { s.setBkt x i b with
            out := if back then s.out ++ [e] else s.out
            gone := if back then s.gone else s.gone ++ [e] }
        else none
      | _, _ => none
    else none
  | .mark x i p epoch =>
    if c.kind = .index ∧ s.Open x i ∧ (at? c.kind ((s.arr x).bkt i) p).isSome then
      some (s.setBkt x i (((s.arr x).bkt i).markRemoved p epoch))
    else none
  | .write x i p v =>
    if c.kind ≠ .index ∧ s.Open x i then
      match at? c.kind ((s.arr x).bkt i) p with
      | some e => some { s.setBkt x i (((s.arr x).bkt i).setVal p v) with
          inn := s.inn ++ [(e.1, v)], out := s.out ++ [e] }
      | none => none
    else none
  | .update x i p v =>
    if c.kind = .index ∧ s.Open x i then
      match at? c.kind ((s.arr x).bkt i) p, ((s.arr x).bkt i).indexUpdate sampleEnv p v with
      | some e, some (b, _) => some { s.setBkt x i b with
          inn := s.inn ++ [(e.1, v)]
          gone := s.gone ++ ((s.arr x).bkt i).reclaimed c.kind sampleEnv.recent }
      | _, _ => none
    else none
  | .evict x i =>
    if c.kind = .cache ∧ s.Open x i then
      match ((s.arr x).bkt i).evictHead with
      | some (b, some e) => some { s.setBkt x i b with out := s.out ++ [e] }
      | _ => none
    else none
  | .alloc lg =>
    if s.cur = none ∧ 1 ≤ lg ∧ lg ≤ 57 then
      some { s.setArr s.next (Arr.new lg) with next := s.next + 1, cur := some s.next }
    else none
  | .grow a lg =>
    if s.cur = some a ∧ s.link a = none ∧ 1 ≤ lg ∧ lg ≤ 57 then
      some { s.setArr s.next (Arr.new lg) with
        next := s.next + 1, cur := some s.next
        link := fun y => if y = s.next then some a else s.link y }
    else none
  | .move a o j =>
    if s.link a = some o ∧ j < 2 ^ (s.arr o).lg then
      match relocate c (fun _ => false) (s.arr a) (s.arr o) j with
      | some (a', o', g) => some { ((s.setArr a a').setArr o o').setRh o { s.rh o with
          done := fun y => y = j || (s.rh o).done y } with
        gone := s.gone ++ g }
      | none => none
    else none
  | .claim a o =>
    if o < s.next ∧ s.link a = some o then
      match Rehash.startRehash (2 ^ (s.arr o).lg) (s.rh o).word with
      | some (p, w) => some (s.setRh o { s.rh o with word := w, workers := p :: (s.rh o).workers })
      | none => none
    else none
  | .giveUp o =>
    if o < s.next ∧ (s.cur.any fun a => s.link a = some o) then
      match (s.rh o).workers with
      | p :: l => some (s.setRh o { s.rh o with word := Rehash.endFail (s.rh o).word p, workers := l })
      | [] => none
    else none
  | .finish o =>
    if o < s.next ∧ (s.cur.any fun a => s.link a = some o) then
      match (s.rh o).workers with
      | p :: l =>
        if ∀ b, b < 2 ^ (s.arr o).lg → p ≤ b → b < p + 32 → (s.rh o).done b = true then
          some (s.setRh o { s.rh o with
            word := (Rehash.endOk (2 ^ (s.arr o).lg) (s.rh o).word).1
            workers := l
            detaching := (s.rh o).detaching +
              if (Rehash.endOk (2 ^ (s.arr o).lg) (s.rh o).word).2 then 1 else 0 })
        else none
      | [] => none
    else none
  | .detach a o =>
    if s.link a = some o ∧ 0 < (s.rh o).detaching then
      some { s.setRh o { s.rh o with
          detaching := (s.rh o).detaching - 1, detached := (s.rh o).detached + 1 } with
        link := fun y => if y = a then none else s.link y }
    else none
  | .free x a =>
    if x < s.next ∧ s.freed x = false ∧ s.cur = some a ∧ a ≠ x ∧ s.link a ≠ some x then
      some { s with
        freed := fun y => y = x || s.freed y, gone := s.gone ++ dropArr c.kind (s.final x) }
    else none

theorem exec_ok [DecidableEq K] [DecidableEq V] (hc : c.Ok) {s s' : St K V} (r : Run c s) (a : Act K V)
    (h : exec c s a = some s') : Run c s' := by
  cases a with
  | insert x i e =>
    simp only [exec] at h
    split at h
    · rename_i hh; cases h; exact r.step (.insert _ e hh.1 hh.2)
    · cases h
  | remove x i p back =>
    simp only [exec] at h
    split at h
    · rename_i hh
      split at h
      · rename_i e b e' q he hr
        split at h
        · rename_i hee
          subst hee
          cases h
          exact r.step (.remove back hh.1 hh.2 (at?_ok he) hr)
        · cases h
      · cases h
    · cases h
  | mark x i p epoch =>
    simp only [exec] at h
    split at h
    · rename_i hh
      cases h
      obtain ⟨e, he⟩ := Option.isSome_iff_exists.1 hh.2.2
      exact r.step (.mark epoch hh.1 hh.2.1 (at?_ok he))
    · cases h
  | write x i p v =>
    simp only [exec] at h
    split at h
    · rename_i hh
      split at h
      · rename_i e he; cases h; exact r.step (.write v hh.1 hh.2 (at?_ok he))
      · cases h
    · cases h
  | update x i p v =>
    simp only [exec] at h
    split at h
    · rename_i hh
      split at h
      · rename_i e b q he hu; cases h; exact r.step (.update sampleEnv v hh.1 hh.2 (at?_ok he) hu)
      · cases h
    · cases h
  | evict x i =>
    simp only [exec] at h
    split at h
    · rename_i hh
      split at h
      · rename_i b e he; cases h; exact r.step (.evict hh.1 hh.2 he)
      · cases h
    · cases h
  | alloc lg =>
    simp only [exec] at h
    split at h
    · rename_i hh; cases h; exact r.step (.alloc lg hh.1 hh.2.1 hh.2.2)
    · cases h
  | grow a lg =>
    simp only [exec] at h
    split at h
    · rename_i hh; cases h; exact r.step (.grow lg hh.1 hh.2.1 hh.2.2.1 hh.2.2.2)
    · cases h
  | move a o j =>
    simp only [exec] at h
    split at h
    · rename_i hh
      split at h
      · rename_i a' o' g hr; cases h; exact r.step (.move _ hh.1 hh.2 hr)
      · cases h
    · cases h
  | claim a o =>
    simp only [exec] at h
    split at h
    · rename_i hh
      split at h
      · rename_i p w hw; cases h; exact r.step (.helper hh.1 (.inl ⟨a, hh.2⟩) (.claim hw) rfl rfl)
      · cases h
    · cases h
  | giveUp o =>
    simp only [exec] at h
    split at h
    · rename_i hh
      obtain ⟨h1, h2⟩ := hh
      obtain ⟨a, _, ha⟩ := (Option.any_eq_true _ _).1 h2
      split at h
      · rename_i p l hw
        cases h
        exact r.step (.helper h1 (.inl ⟨a, of_decide_eq_true ha⟩) (.fail (l1 := []) hw) rfl rfl)
      · cases h
    · cases h
  | finish o =>
    simp only [exec] at h
    split at h
    · rename_i hh
      obtain ⟨h1, h2⟩ := hh
      obtain ⟨a, _, ha⟩ := (Option.any_eq_true _ _).1 h2
      split at h
      · rename_i p l hw
        split at h
        · rename_i hd
          cases h
          refine r.step (.helper h1 (.inl ⟨a, of_decide_eq_true ha⟩)
            (.finish (l1 := []) hw ?_) rfl rfl)
          intro b hb
          unfold Rehash.claimed at hb
          exact hd b (by omega) hb.1 (by omega)
        · cases h
      · cases h
    · cases h
  | detach a o =>
    simp only [exec] at h
    split at h
    · rename_i hh; cases h; exact r.step (.detach hh.1 hh.2)
    · cases h
  | free x a =>
    simp only [exec] at h
    split at h
    · rename_i hh
      obtain ⟨h1, h2, h3, h4, h5⟩ := hh
      cases h
      refine r.step (.free h1 h2 ?_ ?_)
      · rw [h3]; intro hx; cases hx; exact h4 rfl
      · intro y hy
        have := ((run_inv hc r).link y x hy).1
        rw [h3] at this
        cases this
        exact h5 hy
    · cases h

/-- Tries steps one after the other. -/
def execAll [DecidableEq K] [DecidableEq V] (c : Cfg K) : St K V → List (Act K V) → Option (St K V)
  | s, [] => some s
  | s, a :: l => (exec c s a).bind fun s => execAll c s l

theorem execAll_ok [DecidableEq K] [DecidableEq V] (hc : c.Ok) {s s' : St K V} (r : Run c s)
    (l : List (Act K V)) (h : execAll c s l = some s') : Run c s' := by
  induction l generalizing s with
  | nil => cases h; exact r
  | cons a l ih =>
    simp only [execAll] at h
    cases ha : exec c s a with
    | none => rw [ha] at h; cases h
    | some s1 => rw [ha] at h; exact ih (exec_ok hc r a ha) h


/-- What is to be seen of a state: whether a resize is going on, whether a helper is at work, what was
handed back, dropped, and is dropped with the container. -/
def look (c : Cfg Nat) (s : St Nat Nat) :
    Option Nat × Bool × List (Nat × Nat) × List (Nat × Nat) × List (Nat × Nat) :=
  (s.cur.bind s.link, (List.range s.next).all fun x => (s.rh x).workers.isEmpty, s.out, s.gone, s.closing c)

theorem sample_run {t : Kind} {l : List (Act Nat Nat)}
    {r : Option Nat × Bool × List (Nat × Nat) × List (Nat × Nat) × List (Nat × Nat)}
    (h : ((execAll (sampleCfg t) St.init l).map (look (sampleCfg t))) = some r) (hq : r.2.1 = true) :
    ∃ s : St Nat Nat, Run (sampleCfg t) s ∧ s.Quiet ∧ look (sampleCfg t) s = r := by
  cases he : execAll (sampleCfg t) St.init l with
  | none => rw [he] at h; cases h
  | some s =>
    rw [he] at h
    cases h
    refine ⟨s, execAll_ok (sampleCfg_ok t) .init l he, ?_, rfl⟩
    intro x hx
    have := List.all_eq_true.1 hq x (List.mem_range.2 hx)
    exact List.isEmpty_iff.1 this

/-- Insertions, a changed value, a removal; then a resize begins, a helper claims a range and is cancelled
after it has moved bucket 1; meanwhile key 7 goes into the new array. -/
def mid (t : Kind) : List (Act Nat Nat) :=
  [.alloc 1, .insert 0 0 (1, 10), .insert 0 1 (2 ^ 63, 20), .insert 0 0 (3, 30), .insert 0 0 (5, 50)] ++
    (match t with
    | .index => [.update 0 0 ⟨0, 1⟩ 31, .mark 0 0 ⟨0, 2⟩ 0]
    | .map => [.write 0 0 ⟨0, 1⟩ 31, .remove 0 0 ⟨0, 2⟩ false]
    | .cache => [.write 0 0 ⟨0, 1⟩ 31, .remove 0 0 ⟨0, 2⟩ true]) ++
    [.grow 0 2, .claim 1 0, .insert 1 0 (7, 70), .move 1 0 1, .giveUp 0]

/-- The resize goes on to its end, and the old array is dropped. -/
def fin (t : Kind) : List (Act Nat Nat) :=
  mid t ++ [.claim 1 0, .move 1 0 0, .finish 0, .detach 1 0, .free 0 1]

set_option maxRecDepth 100000
set_option synthInstance.maxSize 1000

/-- A `HashMap` in the middle of a resize: `(5, 50)` was dropped by the container, four pairs are dropped
with it, two of them with the old array. -/
example : ∃ s : St Nat Nat, Run (sampleCfg .map) s ∧ s.Quiet ∧ look (sampleCfg .map) s =
    (some 0, true, [(3, 30)], [(5, 50)], [(1, 10), (3, 31), (7, 70), (2 ^ 63, 20)]) :=
  sample_run (l := mid .map) (by decide +kernel) rfl

/-- A `HashCache` in the middle of a resize. -/
example : ∃ s : St Nat Nat, Run (sampleCfg .cache) s ∧ s.Quiet ∧ look (sampleCfg .cache) s =
    (some 0, true, [(3, 30), (5, 50)], [], [(1, 10), (3, 31), (7, 70), (2 ^ 63, 20)]) :=
  sample_run (l := mid .cache) (by decide +kernel) rfl

/-- A `HashIndex` in the middle of a resize: the two pairs that are no longer visible are dropped with the
old array. -/
example : ∃ s : St Nat Nat, Run (sampleCfg .index) s ∧ s.Quiet ∧ look (sampleCfg .index) s =
    (some 0, true, [], [], [(1, 10), (3, 30), (5, 50), (3, 31), (7, 70), (2 ^ 63, 20)]) :=
  sample_run (l := mid .index) (by decide +kernel) rfl

/-- After the resize: the old array took the two invisible pairs along. -/
example : ∃ s : St Nat Nat, Run (sampleCfg .index) s ∧ s.Quiet ∧ look (sampleCfg .index) s =
    (none, true, [], [(3, 30), (5, 50)], [(7, 70), (1, 10), (3, 31), (2 ^ 63, 20)]) :=
  sample_run (l := fin .index) (by decide +kernel) rfl

end Scc.Crowd
