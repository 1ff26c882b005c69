import Verif.Weak.Props

/-!
# Executions of the release/acquire model

Bucket 1 is in the old array, bucket 2 in the new one. Threads 0 and 2 write, thread 1 looks up key 5.
-/

namespace Scc.Weak

/-- The key is in the table: a slot has it, occupied and not removed. -/
def Present (e : Nat) (s : St) : Prop :=
  ∃ b i, (s.now ⟨b, .occ⟩).bit i = true ∧ (s.now ⟨b, .rem⟩).bit i = false ∧ (s.now ⟨b, .data i⟩).entry = some e

def hash7 : Nat → Nat := fun _ => 7

theorem Reach.path {H : Nat → Nat} {md : Bool} {P : St → Prop} {s : St} (_ : Reach H md s) (h : P s) : Path H md P s s := .refl h

theorem Path.more {H : Nat → Nat} {md : Bool} {P : St → Prop} {s s' s'' : St} (_ : Path H md P s s') (h : Step H md s' s'') :
    Step H md s' s'' := h

theorem Step.path {H : Nat → Nat} {md : Bool} {P : St → Prop} {s s' : St} (_ : Step H md s s') (h : P s') : Path H md P s' s' := .refl h

theorem sync_le (s : St) (t u : Nat) (l : Loc) :
    s.view t l ≤ ({ s with view := upd s.view u (View.join (s.view u) (s.view t)) } : St).view u l := by
  show _ ≤ upd s.view u _ u l
  rw [upd_same]
  exact join_r _ _ l

theorem nobody (t b : Nat) : upd (upd (upd (upd (upd (upd (fun _ => none) 1 (some 0)) 1 none) 1 (some 0)) 2 (some 0)) 2 none) 1
    none b ≠ some t := by
  by_cases h : b = 1
  · simp [upd, h]
  · by_cases k : b = 2
    · simp [upd, k]
    · simp [upd, h, k]

theorem quiet {f : Nat → Phase} (b i : Nat) (h : ¬(f 0).touch b i) (k : ∀ t, t ≠ 0 → f t = .idle) (t : Nat) :
    ¬(f t).touch b i := by
  by_cases e : t = 0
  · subst e; exact h
  · rw [k t e]; exact id

/-- A lookup of a key that is in the table all the time, whose insertion was seen: it sees the old bucket empty, after
the key was moved, and the new bucket empty, before, because it loads `len` with `Relaxed`. -/
theorem c60_len_violated : ∃ s1 s2 s3 s4, Reach hash7 false s1 ∧ s1.own 1 = some 0 ∧ Settled s1 1 0 5 ∧
    Path hash7 false (Present 5) s1 s2 ∧ (∀ l, s1.view 0 l ≤ s2.view 1 l) ∧ s2.pc 1 = .idle ∧
    Path hash7 false (Present 5) s2 s3 ∧ s3.pc 1 = .empty 1 5 ∧
    Path hash7 false (Present 5) s3 s4 ∧ s4.pc 1 = .empty 2 5 ∧ Settled s4 2 0 5 := by
  have r := Reach.init (H := hash7) (m := false)
  have r := r.step (.lock (t := 0) (b := 1) rfl)
  have r := r.step (.insData (t := 0) (b := 1) (i := 0) (e := 5) rfl rfl rfl rfl)
  have r := r.step (.insHash (t := 0) rfl)
  have r := r.step (.insOcc (t := 0) rfl)
  have r := r.step (.insLen (t := 0) rfl)
  have p := r.path (P := Present 5) ⟨1, 0, rfl, rfl, rfl⟩
  have p := p.step (.unlock (t := 0) (b := 1) rfl rfl) ⟨1, 0, rfl, rfl, rfl⟩
  have p := p.step (.sync _ 0 1) ⟨1, 0, rfl, rfl, rfl⟩
  have q := Path.refl (H := hash7) (m := false) (P := Present 5) (s := _) p.last
  have q := q.step (.start (t := 1) rfl (fun _ _ => Nat.zero_le _)) ⟨1, 0, rfl, rfl, rfl⟩
  have q := q.step (.lock (t := 0) (b := 1) rfl) ⟨1, 0, rfl, rfl, rfl⟩
  have q := q.step (.lock (t := 0) (b := 2) rfl) ⟨1, 0, rfl, rfl, rfl⟩
  have q := q.step (.exData (t := 0) (b := 2) (i := 0) (e := 5) (b' := 1) (i' := 0) rfl rfl rfl rfl rfl (by decide) rfl rfl rfl)
    ⟨1, 0, rfl, rfl, rfl⟩
  have q := q.step (.insHash (t := 0) rfl) ⟨1, 0, rfl, rfl, rfl⟩
  have q := q.step (.insOcc (t := 0) rfl) ⟨1, 0, rfl, rfl, rfl⟩
  have q := q.step (.insLen (t := 0) rfl) ⟨1, 0, rfl, rfl, rfl⟩
  have q := q.step (.out (t := 0) rfl) ⟨2, 0, rfl, rfl, rfl⟩
  have q := q.step (.outLen (t := 0) rfl) ⟨2, 0, rfl, rfl, rfl⟩
  have q := q.step (.search (t := 1) 1 5 rfl) ⟨2, 0, rfl, rfl, rfl⟩
  have q := q.step (.lenZero (t := 1) (k := 2) rfl ⟨by decide +kernel, by decide +kernel⟩ rfl) ⟨2, 0, rfl, rfl, rfl⟩
  have x := Path.refl (H := hash7) (m := false) (P := Present 5) (s := _) q.last
  have x := x.step (.search (t := 1) 2 5 rfl) ⟨2, 0, rfl, rfl, rfl⟩
  have x := x.step (.lenZero (t := 1) (k := 0) rfl ⟨by decide +kernel, by decide +kernel⟩ rfl) ⟨2, 0, rfl, rfl, rfl⟩
  refine ⟨_, _, _, _, r, rfl, ⟨rfl, rfl, rfl, quiet 1 0 id (fun t ht => ?_)⟩, p, sync_le _ 0 1, rfl, q, rfl, x, rfl,
    ⟨rfl, rfl, rfl, quiet 2 0 id (fun t ht => ?_)⟩⟩
  · simp [St.write, St.phase, St.init, upd, ht]
  · simp [St.write, St.phase, St.init, St.see, St.at, upd, ht]

/-- A lookup reads the partial hash of a slot while another thread writes it: a write to a cell that is not atomic, which
is not ordered with the read. -/
theorem c60_race_violated : ∃ s bm r, Reach hash7 false s ∧ s.pc 1 = .look 1 5 bm r ∧ bm 0 = true ∧
    s.view 1 ⟨1, .hash 0⟩ < s.cnt ⟨1, .hash 0⟩ ∧
    ∃ x y, s.can 1 ⟨1, .hash 0⟩ x ∧ s.can 1 ⟨1, .hash 0⟩ y ∧
      (s.msg ⟨1, .hash 0⟩ x).val.n ≠ (s.msg ⟨1, .hash 0⟩ y).val.n := by
  have r := Reach.init (H := hash7) (m := false)
  have r := r.step (.lock (t := 0) (b := 1) rfl)
  have r := r.step (.insData (t := 0) (b := 1) (i := 0) (e := 5) rfl rfl rfl rfl)
  have r := r.step (.insHash (t := 0) rfl)
  have r := r.step (.insOcc (t := 0) rfl)
  have r := r.step (.insLen (t := 0) rfl)
  have r := r.step (.sync _ 0 1)
  have r := r.step (.start (t := 1) rfl (fun _ _ => Nat.zero_le _))
  have r := r.step (.search (t := 1) 1 5 rfl)
  have r := r.step (.lenPos (t := 1) (k := 1) rfl ⟨by decide +kernel, by decide +kernel⟩ (by decide +kernel))
  have r := r.step (.loadRem (t := 1) (k := 0) rfl ⟨by decide +kernel, by decide +kernel⟩)
  have r := r.step (.loadOcc (t := 1) (k := 1) rfl ⟨by decide +kernel, by decide +kernel⟩)
  have r := r.step (.mark (t := 0) (b := 1) (i := 0) rfl rfl rfl rfl rfl)
  have r := r.step (.mkHash (t := 0) 3 rfl)
  exact ⟨_, _, _, r, rfl, rfl, by decide +kernel, 1, 2, ⟨by decide +kernel, by decide +kernel⟩,
    ⟨by decide +kernel, by decide +kernel⟩, by decide +kernel⟩

/-- Two threads have helped relocating; thread 0 has moved the key, thread 2 is the last and unlinks the old array. A lookup
that sees the old array gone sees the new bucket empty, whatever `len` is stored and loaded with: `fetch_sub` with
`Release` does not make the moves of the first helper known to the last one. -/
theorem c60_unlink_violated (md : Bool) : ∃ s1 s2 s3 s4, Reach hash7 md s1 ∧ s1.own 1 = some 0 ∧ Settled s1 1 0 5 ∧
    Path hash7 md (Present 5) s1 s2 ∧ (∀ l, s1.view 0 l ≤ s2.view 1 l) ∧ s2.pc 1 = .idle ∧
    Path hash7 md (Present 5) s2 s3 ∧ s3.pc 1 = .idle ∧ 0 < s3.view 1 ⟨0, .link⟩ ∧
    Path hash7 md (Present 5) s3 s4 ∧ s4.pc 1 = .empty 2 5 ∧ Settled s4 2 0 5 := by
  have r := Reach.init (H := hash7) (m := md)
  have r := r.step (.lock (t := 0) (b := 1) rfl)
  have r := r.step (.insData (t := 0) (b := 1) (i := 0) (e := 5) rfl rfl rfl rfl)
  have r := r.step (.insHash (t := 0) rfl)
  have r := r.step (.insOcc (t := 0) rfl)
  have r := r.step (.insLen (t := 0) rfl)
  have p := r.path (P := Present 5) ⟨1, 0, rfl, rfl, rfl⟩
  have p := p.step (.unlock (t := 0) (b := 1) rfl rfl) ⟨1, 0, rfl, rfl, rfl⟩
  have p := p.step (.sync _ 0 1) ⟨1, 0, rfl, rfl, rfl⟩
  have q := Path.refl (H := hash7) (m := md) (P := Present 5) (s := _) p.last
  have q := q.step (.start (t := 1) rfl (fun _ _ => Nat.zero_le _)) ⟨1, 0, rfl, rfl, rfl⟩
  have q := q.step (.begin (t := 0) List.not_mem_nil rfl rfl) ⟨1, 0, rfl, rfl, rfl⟩
  have q := q.step (.begin (t := 2) (fun h => absurd (List.mem_singleton.1 h) (by decide)) rfl rfl) ⟨1, 0, rfl, rfl, rfl⟩
  have q := q.step (.lock (t := 0) (b := 1) rfl) ⟨1, 0, rfl, rfl, rfl⟩
  have q := q.step (.lock (t := 0) (b := 2) rfl) ⟨1, 0, rfl, rfl, rfl⟩
  have q := q.step (.exData (t := 0) (b := 2) (i := 0) (e := 5) (b' := 1) (i' := 0) rfl rfl rfl rfl rfl (by decide) rfl rfl rfl)
    ⟨1, 0, rfl, rfl, rfl⟩
  have q := q.step (.insHash (t := 0) rfl) ⟨1, 0, rfl, rfl, rfl⟩
  have q := q.step (.insOcc (t := 0) rfl) ⟨1, 0, rfl, rfl, rfl⟩
  have q := q.step (.insLen (t := 0) rfl) ⟨1, 0, rfl, rfl, rfl⟩
  have q := q.step (.out (t := 0) rfl) ⟨2, 0, rfl, rfl, rfl⟩
  have q := q.step (.outLen (t := 0) rfl) ⟨2, 0, rfl, rfl, rfl⟩
  have q := q.step (.unlock (t := 0) (b := 2) rfl rfl) ⟨2, 0, rfl, rfl, rfl⟩
  have q := q.step (.unlock (t := 0) (b := 1) rfl rfl) ⟨2, 0, rfl, rfl, rfl⟩
  have q := q.step (.end (t := 0) (List.Mem.tail _ (List.Mem.head _)) rfl (nobody _)) ⟨2, 0, rfl, rfl, rfl⟩
  have q := q.step (.end (t := 2) (List.Mem.head _) rfl (nobody _)) ⟨2, 0, rfl, rfl, rfl⟩
  have q := q.step (.unlink (t := 2) rfl) ⟨2, 0, rfl, rfl, rfl⟩
  have q := q.step (.noLink (t := 1) (k := 1) rfl ⟨Nat.zero_le 1, Nat.le_refl 1⟩ rfl) ⟨2, 0, rfl, rfl, rfl⟩
  have x := Path.refl (H := hash7) (m := md) (P := Present 5) (s := _) q.last
  have x := x.step (.search (t := 1) 2 5 rfl) ⟨2, 0, rfl, rfl, rfl⟩
  have x := x.step (.lenZero (t := 1) (k := 0) rfl ⟨Nat.le_refl 0, Nat.zero_le 1⟩ rfl) ⟨2, 0, rfl, rfl, rfl⟩
  refine ⟨_, _, _, _, r, rfl, ⟨rfl, rfl, rfl, quiet 1 0 id (fun t ht => ?_)⟩, p, sync_le _ 0 1, rfl, q, rfl,
    Nat.zero_lt_one, x, rfl, ⟨rfl, rfl, rfl, quiet 2 0 id (fun t ht => ?_)⟩⟩
  · simp [St.write, St.phase, St.init, upd, ht]
  · simp [St.write, St.phase, St.init, St.see, St.at, upd, ht]

/-- The bitmap of bucket 1 without the slot. -/
theorem not_bit (i : Nat) : ¬(!false && (!(i == 0) && (i == 0 || false))) = true := by
  cases i <;> simp

local macro "qt" : tactic => `(tactic| simp [St.write, St.phase, St.init, St.see, St.at, Phase.after, upd, *])

/-- A lookup as in `c60_found_partial`; it ends as in the second part of `c60_entry_partial`. -/
example : ∃ s1 s2 s3, Reach hash7 false s1 ∧ s1.own 1 = some 0 ∧ Path hash7 false (fun s => Settled s 1 0 5) s1 s2 ∧
    (∀ l, s1.view 0 l ≤ s2.view 1 l) ∧ s2.pc 1 = .idle ∧ Path hash7 false (fun s => Settled s 1 0 5) s2 s3 ∧
    s3.pc 1 = .hit 1 5 0 := by
  have r := Reach.init (H := hash7) (m := false)
  have r := r.step (.lock (t := 0) (b := 1) rfl)
  have r := r.step (.insData (t := 0) (b := 1) (i := 0) (e := 5) rfl rfl rfl rfl)
  have r := r.step (.insHash (t := 0) rfl)
  have r := r.step (.insOcc (t := 0) rfl)
  have r := r.step (.insLen (t := 0) rfl)
  have p := r.path (P := fun s => Settled s 1 0 5) ⟨rfl, rfl, rfl, quiet 1 0 id (fun t ht => by qt)⟩
  have p := p.step (.sync _ 0 1) ⟨rfl, rfl, rfl, quiet 1 0 id (fun t ht => by qt)⟩
  have q := Path.refl (H := hash7) (m := false) (P := fun s => Settled s 1 0 5) (s := _) p.last
  have q := q.step (.start (t := 1) rfl (fun _ _ => Nat.zero_le _)) ⟨rfl, rfl, rfl, quiet 1 0 id (fun t ht => by qt)⟩
  have q := q.step (.search (t := 1) 1 5 rfl) ⟨rfl, rfl, rfl, quiet 1 0 id (fun t ht => by qt)⟩
  have q := q.step (.lenPos (t := 1) (k := 1) rfl ⟨by decide +kernel, by decide +kernel⟩ (by decide +kernel)) ⟨rfl, rfl, rfl, quiet 1 0 id (fun t ht => by qt)⟩
  have q := q.step (.loadRem (t := 1) (k := 0) rfl ⟨by decide +kernel, by decide +kernel⟩) ⟨rfl, rfl, rfl, quiet 1 0 id (fun t ht => by qt)⟩
  have q := q.step (.loadOcc (t := 1) (k := 1) rfl ⟨by decide +kernel, by decide +kernel⟩) ⟨rfl, rfl, rfl, quiet 1 0 id (fun t ht => by qt)⟩
  have q := q.step (.hit (t := 1) (i := 0) (kh := 1) (kd := 1) rfl rfl ⟨by decide +kernel, by decide +kernel⟩ rfl ⟨by decide +kernel, by decide +kernel⟩ rfl) ⟨rfl, rfl, rfl, quiet 1 0 id (fun t ht => by qt)⟩
  exact ⟨_, _, _, r, rfl, p, sync_le _ 0 1, rfl, q, rfl⟩

/-- A lookup as in `c60_moved_partial`, whose look at the old bucket begins before the key is moved and ends after. -/
example : ∃ s1 s2 s3 s4 s5 s6, Reach hash7 false s1 ∧ s1.own 1 = some 0 ∧ Path hash7 false (fun s => Settled s 1 0 5) s1 s2 ∧
    (∀ l, s1.view 0 l ≤ s2.view 1 l) ∧ s2.pc 1 = .idle ∧ Path hash7 false (fun s => Settled s 1 0 5) s2 s3 ∧
    s3.ph 0 = .out 1 0 2 0 ∧ Step hash7 false s3 s4 ∧ s4.ph 0 ≠ .out 1 0 2 0 ∧
    Path hash7 false (fun s => Settled s 2 0 5) s4 s5 ∧ s5.pc 1 = .miss 1 5 ∧
    Path hash7 false (fun s => Settled s 2 0 5) s5 s6 ∧ s6.pc 1 = .hit 2 5 0 := by
  have r := Reach.init (H := hash7) (m := false)
  have r := r.step (.lock (t := 0) (b := 1) rfl)
  have r := r.step (.insData (t := 0) (b := 1) (i := 0) (e := 5) rfl rfl rfl rfl)
  have r := r.step (.insHash (t := 0) rfl)
  have r := r.step (.insOcc (t := 0) rfl)
  have r := r.step (.insLen (t := 0) rfl)
  have p := r.path (P := fun s => Settled s 1 0 5) ⟨rfl, rfl, rfl, quiet 1 0 id (fun t ht => by qt)⟩
  have p := p.step (.sync _ 0 1) ⟨rfl, rfl, rfl, quiet 1 0 id (fun t ht => by qt)⟩
  have q := Path.refl (H := hash7) (m := false) (P := fun s => Settled s 1 0 5) (s := _) p.last
  have q := q.step (.start (t := 1) rfl (fun _ _ => Nat.zero_le _)) ⟨rfl, rfl, rfl, quiet 1 0 id (fun t ht => by qt)⟩
  have q := q.step (.search (t := 1) 1 5 rfl) ⟨rfl, rfl, rfl, quiet 1 0 id (fun t ht => by qt)⟩
  have q := q.step (.lock (t := 0) (b := 2) rfl) ⟨rfl, rfl, rfl, quiet 1 0 id (fun t ht => by qt)⟩
  have q := q.step (.exData (t := 0) (b := 2) (i := 0) (e := 5) (b' := 1) (i' := 0) rfl rfl rfl rfl rfl (by decide) rfl rfl rfl)
    ⟨rfl, rfl, rfl, quiet 1 0 (fun h => absurd h.1 (by decide)) (fun t ht => by qt)⟩
  have q := q.step (.insHash (t := 0) rfl) ⟨rfl, rfl, rfl, quiet 1 0 (fun h => absurd h.1 (by decide)) (fun t ht => by qt)⟩
  have q := q.step (.insOcc (t := 0) rfl) ⟨rfl, rfl, rfl, quiet 1 0 (fun h => absurd h.1 (by decide)) (fun t ht => by qt)⟩
  have q := q.step (.insLen (t := 0) rfl) ⟨rfl, rfl, rfl, quiet 1 0 id (fun t ht => by qt)⟩
  have o := q.more (.out (t := 0) rfl)
  have x := o.path (P := fun s => Settled s 2 0 5) ⟨rfl, rfl, rfl, quiet 2 0 id (fun t ht => by qt)⟩
  have x := x.step (.lenPos (t := 1) (k := 1) rfl ⟨by decide +kernel, by decide +kernel⟩ (by decide +kernel)) ⟨rfl, rfl, rfl, quiet 2 0 id (fun t ht => by qt)⟩
  have x := x.step (.loadRem (t := 1) (k := 0) rfl ⟨by decide +kernel, by decide +kernel⟩) ⟨rfl, rfl, rfl, quiet 2 0 id (fun t ht => by qt)⟩
  have x := x.step (.loadOcc (t := 1) (k := 2) rfl ⟨by decide +kernel, by decide +kernel⟩) ⟨rfl, rfl, rfl, quiet 2 0 id (fun t ht => by qt)⟩
  have x := x.step (.miss (t := 1) rfl (fun i hi => absurd hi (not_bit i))) ⟨rfl, rfl, rfl, quiet 2 0 id (fun t ht => by qt)⟩
  have y := Path.refl (H := hash7) (m := false) (P := fun s => Settled s 2 0 5) (s := _) x.last
  have y := y.step (.search (t := 1) 2 5 rfl) ⟨rfl, rfl, rfl, quiet 2 0 id (fun t ht => by qt)⟩
  have y := y.step (.lenPos (t := 1) (k := 1) rfl ⟨by decide +kernel, by decide +kernel⟩ (by decide +kernel)) ⟨rfl, rfl, rfl, quiet 2 0 id (fun t ht => by qt)⟩
  have y := y.step (.loadRem (t := 1) (k := 0) rfl ⟨by decide +kernel, by decide +kernel⟩) ⟨rfl, rfl, rfl, quiet 2 0 id (fun t ht => by qt)⟩
  have y := y.step (.loadOcc (t := 1) (k := 1) rfl ⟨by decide +kernel, by decide +kernel⟩) ⟨rfl, rfl, rfl, quiet 2 0 id (fun t ht => by qt)⟩
  have y := y.step (.hit (t := 1) (i := 0) (kh := 1) (kd := 1) rfl rfl ⟨by decide +kernel, by decide +kernel⟩ rfl ⟨by decide +kernel, by decide +kernel⟩ rfl) ⟨rfl, rfl, rfl, quiet 2 0 id (fun t ht => by qt)⟩
  exact ⟨_, _, _, _, _, _, r, rfl, p, sync_le _ 0 1, rfl, q, rfl, o, (fun h => nomatch h), x, rfl, y, rfl⟩

/-- A lookup as in `c60_moved_partial`, with `md = true`, which sees the old bucket empty. -/
example : ∃ s1 s2 s3 s4 s5 s6, Reach hash7 true s1 ∧ s1.own 1 = some 0 ∧ Path hash7 true (fun s => Settled s 1 0 5) s1 s2 ∧
    (∀ l, s1.view 0 l ≤ s2.view 1 l) ∧ s2.pc 1 = .idle ∧ Path hash7 true (fun s => Settled s 1 0 5) s2 s3 ∧
    s3.ph 0 = .out 1 0 2 0 ∧ Step hash7 true s3 s4 ∧ s4.ph 0 ≠ .out 1 0 2 0 ∧
    Path hash7 true (fun s => Settled s 2 0 5) s4 s5 ∧ s5.pc 1 = .empty 1 5 ∧
    Path hash7 true (fun s => Settled s 2 0 5) s5 s6 ∧ s6.pc 1 = .hit 2 5 0 := by
  have r := Reach.init (H := hash7) (m := true)
  have r := r.step (.lock (t := 0) (b := 1) rfl)
  have r := r.step (.insData (t := 0) (b := 1) (i := 0) (e := 5) rfl rfl rfl rfl)
  have r := r.step (.insHash (t := 0) rfl)
  have r := r.step (.insOcc (t := 0) rfl)
  have r := r.step (.insLen (t := 0) rfl)
  have p := r.path (P := fun s => Settled s 1 0 5) ⟨rfl, rfl, rfl, quiet 1 0 id (fun t ht => by qt)⟩
  have p := p.step (.sync _ 0 1) ⟨rfl, rfl, rfl, quiet 1 0 id (fun t ht => by qt)⟩
  have q := Path.refl (H := hash7) (m := true) (P := fun s => Settled s 1 0 5) (s := _) p.last
  have q := q.step (.start (t := 1) rfl (fun _ _ => Nat.zero_le _)) ⟨rfl, rfl, rfl, quiet 1 0 id (fun t ht => by qt)⟩
  have q := q.step (.search (t := 1) 1 5 rfl) ⟨rfl, rfl, rfl, quiet 1 0 id (fun t ht => by qt)⟩
  have q := q.step (.lock (t := 0) (b := 2) rfl) ⟨rfl, rfl, rfl, quiet 1 0 id (fun t ht => by qt)⟩
  have q := q.step (.exData (t := 0) (b := 2) (i := 0) (e := 5) (b' := 1) (i' := 0) rfl rfl rfl rfl rfl (by decide) rfl rfl rfl)
    ⟨rfl, rfl, rfl, quiet 1 0 (fun h => absurd h.1 (by decide)) (fun t ht => by qt)⟩
  have q := q.step (.insHash (t := 0) rfl) ⟨rfl, rfl, rfl, quiet 1 0 (fun h => absurd h.1 (by decide)) (fun t ht => by qt)⟩
  have q := q.step (.insOcc (t := 0) rfl) ⟨rfl, rfl, rfl, quiet 1 0 (fun h => absurd h.1 (by decide)) (fun t ht => by qt)⟩
  have q := q.step (.insLen (t := 0) rfl) ⟨rfl, rfl, rfl, quiet 1 0 id (fun t ht => by qt)⟩
  have o := q.more (.out (t := 0) rfl)
  have x := o.path (P := fun s => Settled s 2 0 5) ⟨rfl, rfl, rfl, quiet 2 0 id (fun t ht => by qt)⟩
  have x := x.step (.outLen (t := 0) rfl) ⟨rfl, rfl, rfl, quiet 2 0 id (fun t ht => by qt)⟩
  have x := x.step (.lenZero (t := 1) (k := 2) rfl ⟨by decide +kernel, by decide +kernel⟩ rfl) ⟨rfl, rfl, rfl, quiet 2 0 id (fun t ht => by qt)⟩
  have y := Path.refl (H := hash7) (m := true) (P := fun s => Settled s 2 0 5) (s := _) x.last
  have y := y.step (.search (t := 1) 2 5 rfl) ⟨rfl, rfl, rfl, quiet 2 0 id (fun t ht => by qt)⟩
  have y := y.step (.lenPos (t := 1) (k := 1) rfl ⟨by decide +kernel, by decide +kernel⟩ (by decide +kernel)) ⟨rfl, rfl, rfl, quiet 2 0 id (fun t ht => by qt)⟩
  have y := y.step (.loadRem (t := 1) (k := 0) rfl ⟨by decide +kernel, by decide +kernel⟩) ⟨rfl, rfl, rfl, quiet 2 0 id (fun t ht => by qt)⟩
  have y := y.step (.loadOcc (t := 1) (k := 1) rfl ⟨by decide +kernel, by decide +kernel⟩) ⟨rfl, rfl, rfl, quiet 2 0 id (fun t ht => by qt)⟩
  have y := y.step (.hit (t := 1) (i := 0) (kh := 1) (kd := 1) rfl rfl ⟨by decide +kernel, by decide +kernel⟩ rfl ⟨by decide +kernel, by decide +kernel⟩ rfl) ⟨rfl, rfl, rfl, quiet 2 0 id (fun t ht => by qt)⟩
  exact ⟨_, _, _, _, _, _, r, rfl, p, sync_le _ 0 1, rfl, q, rfl, o, (fun h => nomatch h), x, rfl, y, rfl⟩

/-- A lookup as in `c60_moved_late_partial`. -/
example : ∃ s1 s3 s4 s5 s6 s7, Reach hash7 false s1 ∧ s1.own 1 = some 0 ∧ Path hash7 false (fun s => Settled s 1 0 5) s1 s3 ∧
    s3.ph 0 = .out 1 0 2 0 ∧ Step hash7 false s3 s4 ∧ s4.ph 0 ≠ .out 1 0 2 0 ∧
    Path hash7 false (fun s => Settled s 2 0 5) s4 s5 ∧ (∀ l, s1.view 0 l ≤ s5.view 1 l) ∧ s5.pc 1 = .idle ∧
    Path hash7 false (fun s => Settled s 2 0 5) s5 s6 ∧ s6.pc 1 = .miss 1 5 ∧
    Path hash7 false (fun s => Settled s 2 0 5) s6 s7 ∧ s7.pc 1 = .hit 2 5 0 := by
  have r := Reach.init (H := hash7) (m := false)
  have r := r.step (.lock (t := 0) (b := 1) rfl)
  have r := r.step (.insData (t := 0) (b := 1) (i := 0) (e := 5) rfl rfl rfl rfl)
  have r := r.step (.insHash (t := 0) rfl)
  have r := r.step (.insOcc (t := 0) rfl)
  have r := r.step (.insLen (t := 0) rfl)
  have p := r.path (P := fun s => Settled s 1 0 5) ⟨rfl, rfl, rfl, quiet 1 0 id (fun t ht => by qt)⟩
  have p := p.step (.sync _ 0 2) ⟨rfl, rfl, rfl, quiet 1 0 id (fun t ht => by qt)⟩
  have p := p.step (.lock (t := 0) (b := 2) rfl) ⟨rfl, rfl, rfl, quiet 1 0 id (fun t ht => by qt)⟩
  have p := p.step (.exData (t := 0) (b := 2) (i := 0) (e := 5) (b' := 1) (i' := 0) rfl rfl rfl rfl rfl (by decide) rfl rfl rfl)
    ⟨rfl, rfl, rfl, quiet 1 0 (fun h => absurd h.1 (by decide)) (fun t ht => by qt)⟩
  have p := p.step (.insHash (t := 0) rfl) ⟨rfl, rfl, rfl, quiet 1 0 (fun h => absurd h.1 (by decide)) (fun t ht => by qt)⟩
  have p := p.step (.insOcc (t := 0) rfl) ⟨rfl, rfl, rfl, quiet 1 0 (fun h => absurd h.1 (by decide)) (fun t ht => by qt)⟩
  have p := p.step (.insLen (t := 0) rfl) ⟨rfl, rfl, rfl, quiet 1 0 id (fun t ht => by qt)⟩
  have o := p.more (.out (t := 0) rfl)
  have x := o.path (P := fun s => Settled s 2 0 5) ⟨rfl, rfl, rfl, quiet 2 0 id (fun t ht => by qt)⟩
  have x := x.step (.sync _ 2 1) ⟨rfl, rfl, rfl, quiet 2 0 id (fun t ht => by qt)⟩
  have z := Path.refl (H := hash7) (m := false) (P := fun s => Settled s 2 0 5) (s := _) x.last
  have z := z.step (.start (t := 1) rfl (fun _ _ => Nat.zero_le _)) ⟨rfl, rfl, rfl, quiet 2 0 id (fun t ht => by qt)⟩
  have z := z.step (.search (t := 1) 1 5 rfl) ⟨rfl, rfl, rfl, quiet 2 0 id (fun t ht => by qt)⟩
  have z := z.step (.lenPos (t := 1) (k := 1) rfl ⟨by decide +kernel, by decide +kernel⟩ (by decide +kernel)) ⟨rfl, rfl, rfl, quiet 2 0 id (fun t ht => by qt)⟩
  have z := z.step (.loadRem (t := 1) (k := 0) rfl ⟨by decide +kernel, by decide +kernel⟩) ⟨rfl, rfl, rfl, quiet 2 0 id (fun t ht => by qt)⟩
  have z := z.step (.loadOcc (t := 1) (k := 2) rfl ⟨by decide +kernel, by decide +kernel⟩) ⟨rfl, rfl, rfl, quiet 2 0 id (fun t ht => by qt)⟩
  have z := z.step (.miss (t := 1) rfl (fun i hi => absurd hi (not_bit i))) ⟨rfl, rfl, rfl, quiet 2 0 id (fun t ht => by qt)⟩
  have y := Path.refl (H := hash7) (m := false) (P := fun s => Settled s 2 0 5) (s := _) z.last
  have y := y.step (.search (t := 1) 2 5 rfl) ⟨rfl, rfl, rfl, quiet 2 0 id (fun t ht => by qt)⟩
  have y := y.step (.lenPos (t := 1) (k := 1) rfl ⟨by decide +kernel, by decide +kernel⟩ (by decide +kernel)) ⟨rfl, rfl, rfl, quiet 2 0 id (fun t ht => by qt)⟩
  have y := y.step (.loadRem (t := 1) (k := 0) rfl ⟨by decide +kernel, by decide +kernel⟩) ⟨rfl, rfl, rfl, quiet 2 0 id (fun t ht => by qt)⟩
  have y := y.step (.loadOcc (t := 1) (k := 1) rfl ⟨by decide +kernel, by decide +kernel⟩) ⟨rfl, rfl, rfl, quiet 2 0 id (fun t ht => by qt)⟩
  have y := y.step (.hit (t := 1) (i := 0) (kh := 1) (kd := 1) rfl rfl ⟨by decide +kernel, by decide +kernel⟩ rfl ⟨by decide +kernel, by decide +kernel⟩ rfl) ⟨rfl, rfl, rfl, quiet 2 0 id (fun t ht => by qt)⟩
  refine ⟨_, _, _, _, _, _, r, rfl, p, rfl, o, (fun h => nomatch h), x, fun l => ?_, rfl, z, rfl, y, rfl⟩
  exact Nat.le_trans (sync_le _ 0 2 l) (sync_le _ 2 1 l)

end Scc.Weak
