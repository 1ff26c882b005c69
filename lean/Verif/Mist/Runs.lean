import Verif.Mist.Props

/-! # Runs -/

namespace Scc.Mist

open Scc.Haze

theorem Reach.ok {ix : Nat → Nat → Nat} {S : Sys} (h : Reach ix S) (t : Nat) : Ok S.s t S.s.n := ok_last (all_reach h).reach t

theorem coh_last (h : Nat → Nat → List Wr) (V : View) (a k j : Nat) (hj : (h a k).length = j) : Coh h V a k j :=
  fun _ _ hw _ => hj ▸ (List.getElem?_eq_some_iff.mp hw).1

theorem coh_two (h : Nat → Nat → List Wr) (V : View) (a k : Nat) (w0 w1 : Wr) (hh : h a k = [w0, w1]) (hn : ¬V.ops w1.id) : Coh h V a k 1 := by
  intro i w hw hb
  rw [hh] at hw
  match i, hw with
  | 0, _ => exact Nat.zero_lt_one
  | 1, hw => cases hw; exact absurd hb hn
  | _ + 2, hw => cases hw

set_option maxHeartbeats 4000000 in
/-- Thread 0 inserts key 1, thread 1 resizes the table; thread 2 looks the key up and has loaded the link when thread 1 moves the entry: it may
still find it in the old bucket. Thread 0 sees that it was moved and finds it in the new bucket. Key 7 is not there. -/
theorem run_lookups : (∃ S S' B, Reach ix0 S ∧ Step ix0 S S' ∧ (∀ k B r, S.pk 2 ≠ .done k B r) ∧ S'.pk 2 = .done 1 B (some 10) ∧ S.s.mp 1 = .kl 2 1 1) ∧
    (∃ S S' B, Reach ix0 S ∧ Step ix0 S S' ∧ (∀ k B r, S.pk 0 ≠ .done k B r) ∧ S'.pk 0 = .done 1 B (some 10) ∧ (∀ e ∈ flat S'.s.log S'.s.n, e.op.key = 1 → B.ops e.id)) ∧
    ∃ S S' B, Reach ix0 S ∧ Step ix0 S S' ∧ (∀ k B r, S.pk 3 ≠ .done k B r) ∧ S'.pk 3 = .done 7 B none := by
  have h := Reach.init (ix := ix0)
  have h := h.step (.quiet (.call (t := 0) ins rfl) (quiet_pc rfl (fun _ _ _ h => by cases h) (fun _ _ _ h => by cases h) rfl rfl))
  dsimp only [Sys.init, State.init, State.goto, State.goto', State.send, State.recv, State.act, State.actNull, State.move, State.push, State.unlink, acq, push, moveH, Option.isSome, ix0] at h
  have h := h.step (.quiet (.loadNull (t := 0) (m := 0) rfl (h.ok 0) rfl rfl) (quiet_pc rfl (fun _ _ _ h => by cases h) (fun _ _ _ h => by cases h) rfl rfl))
  dsimp only [Sys.init, State.init, State.goto, State.goto', State.send, State.recv, State.act, State.actNull, State.move, State.push, State.unlink, acq, push, moveH, Option.isSome, ix0] at h
  have h := h.step (.quiet (.make (t := 0) rfl rfl) (quiet_pc rfl (fun _ _ _ h => by cases h) (fun _ _ _ h => by cases h) rfl rfl))
  dsimp only [Sys.init, State.init, State.goto, State.goto', State.send, State.recv, State.act, State.actNull, State.move, State.push, State.unlink, acq, push, moveH, Option.isSome, ix0] at h
  have h := h.step (.quiet (.direct (t := 0) rfl rfl) (quiet_pc rfl (fun _ _ _ h => by cases h) (fun _ _ _ h => by cases h; rfl) rfl rfl))
  dsimp only [Sys.init, State.init, State.goto, State.goto', State.send, State.recv, State.act, State.actNull, State.move, State.push, State.unlink, acq, push, moveH, Option.isSome, ix0] at h
  have h := h.step (.quiet (.lock (t := 0) rfl rfl rfl rfl (fun _ => rfl)) (quiet_pc rfl (fun _ _ _ h => by cases h) (fun _ _ _ h => by cases h) rfl rfl))
  dsimp only [Sys.init, State.init, State.goto, State.goto', State.send, State.recv, State.act, State.actNull, State.move, State.push, State.unlink, acq, push, moveH, Option.isSome, ix0] at h
  have h := h.step (.act (t := 0) rfl (.inl rfl))
  dsimp only [Sys.init, State.init, State.goto, State.goto', State.send, State.recv, State.act, State.actNull, State.move, State.push, State.unlink, acq, push, moveH, Option.isSome, ix0] at h
  have h := h.step (.quiet (.unlock (t := 0) rfl rfl) (quiet_pc rfl (fun _ _ _ h => by cases h) (fun _ _ _ h => by cases h) rfl rfl))
  dsimp only [Sys.init, State.init, State.goto, State.goto', State.send, State.recv, State.act, State.actNull, State.move, State.push, State.unlink, acq, push, moveH, Option.isSome, ix0] at h
  have h := h.step (.quiet (.take (t := 1) (m := 1) rfl (h.ok 1) rfl) (quiet_mp rfl rfl (fun _ _ _ h => by cases h) rfl))
  dsimp only [Sys.init, State.init, State.goto, State.goto', State.send, State.recv, State.act, State.actNull, State.move, State.push, State.unlink, acq, push, moveH, Option.isSome, ix0] at h
  have h := h.step (.quiet (.check (t := 1) (v := 1) rfl (h.ok 1) (.inl rfl)) (quiet_mp rfl rfl (fun _ _ _ h => by cases h) rfl))
  dsimp only [Sys.init, State.init, State.goto, State.goto', State.send, State.recv, State.act, State.actNull, State.move, State.push, State.unlink, acq, push, moveH, Option.isSome, ix0] at h
  have h := h.step (.quiet (.resize (t := 1) rfl rfl) (quiet_mp rfl rfl (fun _ _ _ h => by cases h) rfl))
  dsimp only [Sys.init, State.init, State.goto, State.goto', State.send, State.recv, State.act, State.actNull, State.move, State.push, State.unlink, acq, push, moveH, Option.isSome, ix0] at h
  have h := h.step (.quiet (.same (t := 1) (v := 1) rfl (h.ok 1)) (quiet_mp rfl rfl (fun _ _ _ h => by cases h) rfl))
  dsimp only [Sys.init, State.init, State.goto, State.goto', State.send, State.recv, State.act, State.actNull, State.move, State.push, State.unlink, acq, push, moveH, Option.isSome, ix0] at h
  have h := h.step (.quiet (.grow (t := 1) (m := 1) rfl (h.ok 1)) (quiet_mp rfl rfl (fun _ _ _ h => by cases h) rfl))
  dsimp only [Sys.init, State.init, State.goto, State.goto', State.send, State.recv, State.act, State.actNull, State.move, State.push, State.unlink, acq, push, moveH, Option.isSome, ix0] at h
  have h := h.step (.quiet (.done (t := 1) rfl) (quiet_mp rfl rfl (fun _ _ _ h => by cases h) rfl))
  dsimp only [Sys.init, State.init, State.goto, State.goto', State.send, State.recv, State.act, State.actNull, State.move, State.push, State.unlink, acq, push, moveH, Option.isSome, ix0] at h
  have h := h.step (.start (t := 2) 1 rfl)
  dsimp only [Sys.init, State.init, State.goto, State.goto', State.send, State.recv, State.act, State.actNull, State.move, State.push, State.unlink, acq, push, moveH, Option.isSome, ix0] at h
  have h := h.step (.load (t := 2) (m := 2) rfl rfl (h.ok 2) rfl)
  dsimp only [Sys.init, State.init, State.goto, State.goto', State.send, State.recv, State.act, State.actNull, State.move, State.push, State.unlink, acq, push, moveH, Option.isSome, ix0] at h
  have h := h.step (.link (t := 2) (v := 2) (p := 1) rfl rfl)
  dsimp only [Sys.init, State.init, State.goto, State.goto', State.send, State.recv, State.act, State.actNull, State.move, State.push, State.unlink, acq, push, moveH, Option.isSome, ix0] at h
  have h := h.step (.quiet (.take (t := 1) (m := 2) rfl (h.ok 1) rfl) (quiet_mp rfl rfl (fun _ _ _ h => by cases h) rfl))
  dsimp only [Sys.init, State.init, State.goto, State.goto', State.send, State.recv, State.act, State.actNull, State.move, State.push, State.unlink, acq, push, moveH, Option.isSome, ix0] at h
  have h := h.step (.quiet (.pick (t := 1) 1 rfl rfl rfl rfl (fun _ => rfl)) (quiet_mp rfl rfl (fun _ _ _ h => by cases h) rfl))
  dsimp only [Sys.init, State.init, State.goto, State.goto', State.send, State.recv, State.act, State.actNull, State.move, State.push, State.unlink, acq, push, moveH, Option.isSome, ix0] at h
  have h := h.step (.move (t := 1) (v := 2) (p := 1) (i := 1) rfl (by rintro b ⟨k, hk, rfl⟩; have : k = 1 := hk; subst this; exact ⟨rfl, fun _ => rfl⟩))
  dsimp only [Sys.init, State.init, State.goto, State.goto', State.send, State.recv, State.act, State.actNull, State.move, State.push, State.unlink, acq, push, moveH, Option.isSome, ix0] at h
  have h2 := h
  have h := h.step (.start (t := 0) 1 rfl)
  dsimp only [Sys.init, State.init, State.goto, State.goto', State.send, State.recv, State.act, State.actNull, State.move, State.push, State.unlink, acq, push, moveH, Option.isSome, ix0] at h
  have h := h.step (.load (t := 0) (m := 2) rfl rfl (h.ok 0) rfl)
  dsimp only [Sys.init, State.init, State.goto, State.goto', State.send, State.recv, State.act, State.actNull, State.move, State.push, State.unlink, acq, push, moveH, Option.isSome, ix0] at h
  have h := h.step (.link (t := 0) (v := 2) (p := 1) rfl rfl)
  dsimp only [Sys.init, State.init, State.goto, State.goto', State.send, State.recv, State.act, State.actNull, State.move, State.push, State.unlink, acq, push, moveH, Option.isSome, ix0] at h
  have h := h.step (.old (t := 0) (p := 1) (j := 1) rfl rfl (coh_last _ _ _ _ _ rfl))
  dsimp only [Sys.init, State.init, State.goto, State.goto', State.send, State.recv, State.act, State.actNull, State.move, State.push, State.unlink, acq, push, moveH, Option.isSome, ix0] at h
  have h3 := h
  have h := h.step (.start (t := 3) 7 rfl)
  dsimp only [Sys.init, State.init, State.goto, State.goto', State.send, State.recv, State.act, State.actNull, State.move, State.push, State.unlink, acq, push, moveH, Option.isSome, ix0] at h
  have h := h.step (.load (t := 3) (m := 2) rfl rfl (h.ok 3) rfl)
  dsimp only [Sys.init, State.init, State.goto, State.goto', State.send, State.recv, State.act, State.actNull, State.move, State.push, State.unlink, acq, push, moveH, Option.isSome, ix0] at h
  have h := h.step (.link (t := 3) (v := 2) (p := 1) rfl rfl)
  dsimp only [Sys.init, State.init, State.goto, State.goto', State.send, State.recv, State.act, State.actNull, State.move, State.push, State.unlink, acq, push, moveH, Option.isSome, ix0] at h
  have h := h.step (.old0 (t := 3) (p := 1) rfl (coh_last _ _ _ _ _ rfl))
  dsimp only [Sys.init, State.init, State.goto, State.goto', State.send, State.recv, State.act, State.actNull, State.move, State.push, State.unlink, acq, push, moveH, Option.isSome, ix0] at h
  have h := h.step (.cur0 (t := 3) (v := 2) rfl (coh_last _ _ _ _ _ rfl) (fun _ g => by cases g))
  dsimp only [Sys.init, State.init, State.goto, State.goto', State.send, State.recv, State.act, State.actNull, State.move, State.push, State.unlink, acq, push, moveH, Option.isSome, ix0] at h
  refine ⟨⟨_, _, _, h2, .old (t := 2) (p := 1) (j := 0) rfl rfl (coh_two _ _ _ _ _ _ rfl ?_), fun _ _ _ g => (by cases g), rfl, rfl⟩,
    ⟨_, _, _, h3, .cur (t := 0) (v := 2) (j := 0) rfl rfl (coh_last _ _ _ _ _ rfl), fun _ _ _ g => (by cases g), rfl, ?_⟩,
    ⟨_, _, _, h, .same (t := 3) (v := 2) rfl (h.ok 3), fun _ _ _ g => (by cases g), rfl⟩⟩
  · intro hb
    repeat' (first | (cases hb; done) | rcases hb with hb | hb)
  · intro e he hk
    have he : e ∈ [(⟨0, ins, none⟩ : Ev)] := he
    rw [List.mem_singleton.mp he]
    exact .inr rfl

end Scc.Mist
