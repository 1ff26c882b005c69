import Verif.Mist.Runs

/-!
# The link removed by a thread that does not know the relocations

`end_incremental_rehash` (/repo/src/hash_table.rs 1132-1137) counts down with `Release` only: the thread that finds that all buckets are dead, and
removes the link (1244-1252), has not acquired what the others released. `Loose` has that step as it is in the code.
-/

namespace Scc.Mist

open Scc.Haze

inductive LReach (ix : Nat → Nat → Nat) : Sys → Prop
  | strict {S : Sys} (h : Reach ix S) : LReach ix S
  | step {S S' : Sys} (h : LReach ix S) (st : Step ix S S') : LReach ix S'
  /-- hash_table.rs 1244-1252 after 1135: `Step.unlink` without its last condition. -/
  | unlink {S : Sys} (h : LReach ix S) {t v p : Nat} (hm : S.s.mp t = .have v) (hp : S.s.prev v = some p) (hd : ∀ k, S.s.dead p (ix p k) = true) :
      LReach ix { S with s := State.send (State.unlink S.s t v) t, un := fun a U => S.un a U ∨ (a = v ∧ U = S.s.tv t) }

/-- Arrays with one bucket. -/
def ix1 : Nat → Nat → Nat := fun _ _ => 0

theorem coh_none (h : Nat → Nat → List Wr) (V : View) (a k : Nat) (w0 : Wr) (hh : h a k = [w0]) (hn : ¬V.ops w0.id) : Coh h V a k 0 := by
  intro i w hw hb
  rw [hh] at hw
  match i, hw with
  | 0, hw => cases hw; exact absurd hb hn
  | _ + 1, hw => cases hw

set_option maxHeartbeats 4000000 in
/-- C67 fails there: thread 0 inserts key 1, thread 1 resizes the table and moves the entry, thread 2 removes the link. Thread 0 looks for the key
it has inserted, sees that the link is gone, and finds nothing in the new bucket. -/
theorem c67_unlink_violated : ∃ S S' B, LReach ix1 S ∧ Step ix1 S S' ∧ (∀ k B r, S.pk 0 ≠ .done k B r) ∧ S'.pk 0 = .done 1 B none ∧
    flat S'.s.log S'.s.n = [⟨0, ins, none⟩] ∧ B.ops 0 ∧ ¬Right S'.s 1 B none := by
  have h := Reach.init (ix := ix1)
  have h := h.step (.quiet (.call (t := 0) ins rfl) (quiet_pc rfl (fun _ _ _ h => by cases h) (fun _ _ _ h => by cases h) rfl rfl))
  dsimp only [Sys.init, State.init, State.goto, State.goto', State.send, State.recv, State.act, State.actNull, State.move, State.push, State.unlink, acq, push, moveH, Option.isSome, ix1] at h
  have h := h.step (.quiet (.loadNull (t := 0) (m := 0) rfl (h.ok 0) rfl rfl) (quiet_pc rfl (fun _ _ _ h => by cases h) (fun _ _ _ h => by cases h) rfl rfl))
  dsimp only [Sys.init, State.init, State.goto, State.goto', State.send, State.recv, State.act, State.actNull, State.move, State.push, State.unlink, acq, push, moveH, Option.isSome, ix1] at h
  have h := h.step (.quiet (.make (t := 0) rfl rfl) (quiet_pc rfl (fun _ _ _ h => by cases h) (fun _ _ _ h => by cases h) rfl rfl))
  dsimp only [Sys.init, State.init, State.goto, State.goto', State.send, State.recv, State.act, State.actNull, State.move, State.push, State.unlink, acq, push, moveH, Option.isSome, ix1] at h
  have h := h.step (.quiet (.direct (t := 0) rfl rfl) (quiet_pc rfl (fun _ _ _ h => by cases h) (fun _ _ _ h => by cases h; rfl) rfl rfl))
  dsimp only [Sys.init, State.init, State.goto, State.goto', State.send, State.recv, State.act, State.actNull, State.move, State.push, State.unlink, acq, push, moveH, Option.isSome, ix1] at h
  have h := h.step (.quiet (.lock (t := 0) rfl rfl rfl rfl (fun _ => rfl)) (quiet_pc rfl (fun _ _ _ h => by cases h) (fun _ _ _ h => by cases h) rfl rfl))
  dsimp only [Sys.init, State.init, State.goto, State.goto', State.send, State.recv, State.act, State.actNull, State.move, State.push, State.unlink, acq, push, moveH, Option.isSome, ix1] at h
  have h := h.step (.act (t := 0) rfl (.inl rfl))
  dsimp only [Sys.init, State.init, State.goto, State.goto', State.send, State.recv, State.act, State.actNull, State.move, State.push, State.unlink, acq, push, moveH, Option.isSome, ix1] at h
  have h := h.step (.quiet (.unlock (t := 0) rfl rfl) (quiet_pc rfl (fun _ _ _ h => by cases h) (fun _ _ _ h => by cases h) rfl rfl))
  dsimp only [Sys.init, State.init, State.goto, State.goto', State.send, State.recv, State.act, State.actNull, State.move, State.push, State.unlink, acq, push, moveH, Option.isSome, ix1] at h
  have h := h.step (.quiet (.take (t := 1) (m := 1) rfl (h.ok 1) rfl) (quiet_mp rfl rfl (fun _ _ _ h => by cases h) rfl))
  dsimp only [Sys.init, State.init, State.goto, State.goto', State.send, State.recv, State.act, State.actNull, State.move, State.push, State.unlink, acq, push, moveH, Option.isSome, ix1] at h
  have h := h.step (.quiet (.check (t := 1) (v := 1) rfl (h.ok 1) (.inl rfl)) (quiet_mp rfl rfl (fun _ _ _ h => by cases h) rfl))
  dsimp only [Sys.init, State.init, State.goto, State.goto', State.send, State.recv, State.act, State.actNull, State.move, State.push, State.unlink, acq, push, moveH, Option.isSome, ix1] at h
  have h := h.step (.quiet (.resize (t := 1) rfl rfl) (quiet_mp rfl rfl (fun _ _ _ h => by cases h) rfl))
  dsimp only [Sys.init, State.init, State.goto, State.goto', State.send, State.recv, State.act, State.actNull, State.move, State.push, State.unlink, acq, push, moveH, Option.isSome, ix1] at h
  have h := h.step (.quiet (.same (t := 1) (v := 1) rfl (h.ok 1)) (quiet_mp rfl rfl (fun _ _ _ h => by cases h) rfl))
  dsimp only [Sys.init, State.init, State.goto, State.goto', State.send, State.recv, State.act, State.actNull, State.move, State.push, State.unlink, acq, push, moveH, Option.isSome, ix1] at h
  have h := h.step (.quiet (.grow (t := 1) (m := 1) rfl (h.ok 1)) (quiet_mp rfl rfl (fun _ _ _ h => by cases h) rfl))
  dsimp only [Sys.init, State.init, State.goto, State.goto', State.send, State.recv, State.act, State.actNull, State.move, State.push, State.unlink, acq, push, moveH, Option.isSome, ix1] at h
  have h := h.step (.quiet (.done (t := 1) rfl) (quiet_mp rfl rfl (fun _ _ _ h => by cases h) rfl))
  dsimp only [Sys.init, State.init, State.goto, State.goto', State.send, State.recv, State.act, State.actNull, State.move, State.push, State.unlink, acq, push, moveH, Option.isSome, ix1] at h
  have h := h.step (.quiet (.take (t := 1) (m := 2) rfl (h.ok 1) rfl) (quiet_mp rfl rfl (fun _ _ _ h => by cases h) rfl))
  dsimp only [Sys.init, State.init, State.goto, State.goto', State.send, State.recv, State.act, State.actNull, State.move, State.push, State.unlink, acq, push, moveH, Option.isSome, ix1] at h
  have h := h.step (.quiet (.pick (t := 1) 0 rfl rfl rfl rfl (fun _ => rfl)) (quiet_mp rfl rfl (fun _ _ _ h => by cases h) rfl))
  dsimp only [Sys.init, State.init, State.goto, State.goto', State.send, State.recv, State.act, State.actNull, State.move, State.push, State.unlink, acq, push, moveH, Option.isSome, ix1] at h
  have h := h.step (.move (t := 1) (v := 2) (p := 1) (i := 0) rfl (by rintro b ⟨k, hk, rfl⟩; exact ⟨rfl, fun _ => rfl⟩))
  dsimp only [Sys.init, State.init, State.goto, State.goto', State.send, State.recv, State.act, State.actNull, State.move, State.push, State.unlink, acq, push, moveH, Option.isSome, ix1] at h
  have h := h.step (.quiet (.kill (t := 1) (.inl rfl)) (quiet_mp rfl rfl (fun _ _ _ h => by cases h) rfl))
  dsimp only [Sys.init, State.init, State.goto, State.goto', State.send, State.recv, State.act, State.actNull, State.move, State.push, State.unlink, acq, push, moveH, Option.isSome, ix1] at h
  have h := h.step (.quiet (.take (t := 2) (m := 2) rfl (h.ok 2) rfl) (quiet_mp rfl rfl (fun _ _ _ h => by cases h) rfl))
  dsimp only [Sys.init, State.init, State.goto, State.goto', State.send, State.recv, State.act, State.actNull, State.move, State.push, State.unlink, acq, push, moveH, Option.isSome, ix1] at h
  have h := h.step (.start (t := 0) 1 rfl)
  dsimp only [Sys.init, State.init, State.goto, State.goto', State.send, State.recv, State.act, State.actNull, State.move, State.push, State.unlink, acq, push, moveH, Option.isSome, ix1] at h
  have h := h.step (.load (t := 0) (m := 2) rfl rfl (h.ok 0) rfl)
  dsimp only [Sys.init, State.init, State.goto, State.goto', State.send, State.recv, State.act, State.actNull, State.move, State.push, State.unlink, acq, push, moveH, Option.isSome, ix1] at h
  have o0 := (h.ok 0).2
  have o2 := (h.ok 2).2
  have h := (LReach.strict h).unlink (t := 2) (v := 2) (p := 1) rfl rfl (fun _ => rfl)
  dsimp only [Sys.init, State.init, State.goto, State.goto', State.send, State.recv, State.act, State.actNull, State.move, State.push, State.unlink, acq, push, moveH, Option.isSome, ix1] at h
  have h := h.step (.past (t := 0) (v := 2) rfl (.inr ⟨rfl, rfl⟩))
  dsimp only [Sys.init, State.init, State.goto, State.goto', State.send, State.recv, State.act, State.actNull, State.move, State.push, State.unlink, acq, push, moveH, Option.isSome, ix1] at h
  have h := h.step (.cur0 (t := 0) (v := 2) rfl (coh_none _ _ _ _ _ rfl (by intro hb; repeat' (first | (cases hb; done) | rcases hb with hb | hb))) (fun _ g => by cases g))
  dsimp only [Sys.init, State.init, State.goto, State.goto', State.send, State.recv, State.act, State.actNull, State.move, State.push, State.unlink, acq, push, moveH, Option.isSome, ix1] at h
  refine ⟨_, _, _, h, .same (t := 0) (v := 2) rfl ⟨?_, ?_⟩, fun _ _ _ g => (by cases g), rfl, ?_, ?_, ?_⟩
  · exact Nat.le_refl 2
  · intro w hw
    exact hw.elim (o0 w) (o2 w)
  · rfl
  · exact .inr rfl
  rintro ⟨l1, l2, h1, h2, h3⟩
  have h1 : [(⟨0, ins, none⟩ : Ev)] = l1 ++ l2 := h1
  match l1, h1 with
  | [], h1 => exact h3 _ (h1 ▸ List.mem_singleton.mpr rfl) rfl (.inr rfl)
  | [a], h1 => cases h1; cases h2
  | _ :: _ :: _, h1 => cases h1

end Scc.Mist
