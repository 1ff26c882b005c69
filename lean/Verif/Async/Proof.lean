import Verif.Async.Model

/-!
# Which accesses of an asynchronous call are to arrays that are there
-/

namespace Scc.Async

open Scc.Index (bucketIndex fromIndexToRange)

/-! ## Predicates -/

/-- What holds of the arrays whatever the call does. -/
structure Glob (s : St) : Prop where
  cur : ∀ p, s.cur = some p → ∃ P, s.mem p = some P ∧ P.retired = false ∧ ∀ j, P.dead j = false
  link : ∀ p P o, s.cur = some p → s.mem p = some P → P.linked = some o →
    o ≠ p ∧ ∃ O, s.mem o = some O ∧ O.retired = false ∧ O.linked = none
  only : ∀ q Q, s.mem q = some Q → Q.retired = false →
    s.cur = some q ∨ ∃ p P, s.cur = some p ∧ s.mem p = some P ∧ P.linked = some q
  nolink : ∀ q Q o, s.mem q = some Q → Q.linked = some o → s.cur = some q
  dead : ∀ q Q, s.mem q = some Q → Q.retired = true → ∀ j, j < 2 ^ Q.lg → Q.dead j = true

/-- The guard of the call keeps the array at `p`. -/
def Prot (s : St) (p : Nat) : Prop := s.guard = true ∧ ∃ A, s.mem p = some A ∧ (A.retired = true → A.prot = true)

/-- `p` is the current array and `o` is linked to it. -/
def CurLink (s : St) (p o : Nat) : Prop := s.cur = some p ∧ ∃ P, s.mem p = some P ∧ P.linked = some o

/-- Unless `o` is retired, it is linked to the current array `p`. -/
def Cond (s : St) (p o : Nat) : Prop := ∀ O, s.mem o = some O → O.retired = false → CurLink s p o

/-- Bucket `j` of the array at `q` is there and not killed. -/
def Alive (s : St) (q j : Nat) : Prop := ∃ Q, s.mem q = some Q ∧ j < 2 ^ Q.lg ∧ Q.dead j = false

/-- May a relocation be suspended? -/
def Back.flag (m : Mode) : Back → Bool
  | .reh _ => m.help
  | .ded _ => m.dedup

/-- A relocation is running. -/
def RelOk (m : Mode) (s : St) (p o j : Nat) (k : Back) : Prop :=
  s.lk = some (o, j) ∧ CurLink s p o ∧ Alive s o j ∧ (k.flag m = false → s.guard = true) ∧
    match k with
    | .reh _ => s.reh = some o
    | .ded _ => s.reh = none

/-- What holds where the call is. -/
def PcOk (m : Mode) (s : St) : Pc → Prop
  | .load .. => s.reh = none ∧ s.lk = none
  | .test p .. => s.reh = none ∧ s.lk = none ∧ Prot s p
  | .rehLoad p .. => s.reh = none ∧ s.lk = none ∧ Prot s p
  | .rehStart p _ _ o => s.reh = none ∧ s.lk = none ∧ Prot s p ∧ Prot s o ∧ Cond s p o
  | .rehLock p _ _ o _ _ => s.reh = some o ∧ s.lk = none ∧ CurLink s p o ∧ (m.help = false → s.guard = true)
  | .rehWait p _ _ o j _ => s.reh = some o ∧ s.lk = none ∧ CurLink s p o ∧ Alive s o j ∧ m.help = true
  | .rel p _ _ o j k => RelOk m s p o j k
  | .relTgt p _ _ o j _ _ k => RelOk m s p o j k
  | .relWait p _ _ o j _ _ k => RelOk m s p o j k
  | .relMove p _ _ o j _ _ k => RelOk m s p o j k
  | .rehGuard p .. => s.reh = none ∧ s.lk = none ∧ (m.help = false → Prot s p)
  | .arg p .. => s.reh = none ∧ s.lk = none ∧ (m.help = false → Prot s p)
  | .ded p .. => s.reh = none ∧ s.lk = none ∧ (m.help = false → Prot s p)
  | .dedLoad p .. => s.reh = none ∧ s.lk = none ∧ Prot s p
  | .dedRange p _ _ o => s.reh = none ∧ s.lk = none ∧ Prot s p ∧ Prot s o ∧ Cond s p o
  | .dedLock p _ _ o _ _ => s.reh = none ∧ s.lk = none ∧ Prot s p ∧ Prot s o ∧ Cond s p o
  | .dedWait p _ _ o j _ => s.reh = none ∧ s.lk = none ∧ CurLink s p o ∧ Alive s o j ∧ m.dedup = true
  | .dedNext p _ _ o _ _ => s.reh = none ∧ s.lk = none ∧ Prot s p ∧ Prot s o ∧ Cond s p o
  | .pick p => s.reh = none ∧ s.lk = none ∧ Prot s p
  | .lock p .. => s.reh = none ∧ s.lk = none ∧ Prot s p
  | .lockWait p i _ => s.reh = none ∧ s.lk = none ∧ Alive s p i ∧ m.bucket = true
  | .use p i _ => s.reh = none ∧ s.lk = some (p, i) ∧ Alive s p i
  | .brk p .. => s.reh = none ∧ s.lk = none ∧ (m.help = false → m.dedup = false → m.bucket = false → Prot s p)
  | .done => True

/-- What one step of the other threads leaves alone. -/
structure Env (hit : Nat → Nat → Bool) (s s' : St) : Prop where
  guard : s'.guard = s.guard
  reh : s'.reh = s.reh
  lk : s'.lk = s.lk
  prot : ∀ p, Prot s p → Prot s' p
  cond : ∀ p o, Prot s o → Cond s p o → Cond s' p o
  link : ∀ p o, CurLink s p o → (s.reh = some o ∨ ∃ j, Alive s' o j) → CurLink s' p o
  alive : ∀ q j, Alive s q j → hit q j = false → Alive s' q j
  lkd : ∀ q j, s.lk = some (q, j) → hit q j = false

theorem RelOk.env {m : Mode} {hit : Nat → Nat → Bool} {s s' : St} (e : Env hit s s') {p o j : Nat} {k : Back}
    (h : RelOk m s p o j k) : RelOk m s' p o j k := by
  obtain ⟨h1, h2, h3, h4, h5⟩ := h
  have ha := e.alive o j h3 (e.lkd o j h1)
  refine ⟨by rw [e.lk]; exact h1, e.link p o h2 (.inr ⟨j, ha⟩), ha, by rw [e.guard]; exact h4, ?_⟩
  cases k with
  | reh _ => show s'.reh = some o; rw [e.reh]; exact h5
  | ded _ => show s'.reh = none; rw [e.reh]; exact h5

theorem fail_ok {m : Mode} {s : St} {kd : Kind} {p i n : Nat} (h1 : s.reh = none) (h2 : s.lk = none)
    (h3 : m.help = false → m.dedup = false → m.bucket = false → Prot s p) : PcOk m s (kd.fail p i n) := by
  cases kd with
  | point _ => exact ⟨h1, h2⟩
  | reader => exact ⟨h1, h2, h3⟩
  | writer => exact ⟨h1, h2, h3⟩

theorem helped_ok {m : Mode} {s : St} {kd : Kind} {p i n : Nat} (h1 : s.reh = none) (h2 : s.lk = none)
    (h3 : m.help = false → Prot s p) : PcOk m s (kd.helped p i n) := by
  cases kd with
  | point _ => exact ⟨h1, h2, h3⟩
  | reader => exact ⟨h1, h2, h3⟩
  | writer => exact ⟨h1, h2, h3⟩

theorem clean_ok {m : Mode} {s : St} {kd : Kind} {p i n : Nat} (h1 : s.reh = none) (h2 : s.lk = none)
    (h3 : Prot s p) : PcOk m s (kd.clean p i n) := by
  cases kd with
  | point _ => exact ⟨h1, h2, h3⟩
  | reader => exact ⟨h1, h2, h3⟩
  | writer => exact ⟨h1, h2, h3⟩

/-- The steps of other threads keep what holds where the call is. -/
theorem pcOk_env {kd : Kind} {m : Mode} {hit : Nat → Nat → Bool} {s s' : St} (e : Env hit s s') {pc : Pc}
    (h : PcOk m s pc) : PcOk m s' (pc.onKill kd hit) := by
  have er := e.reh
  have el := e.lk
  cases pc with
  | load i prev => exact ⟨er.trans h.1, el.trans h.2⟩
  | test p i n => exact ⟨er.trans h.1, el.trans h.2.1, e.prot _ h.2.2⟩
  | rehLoad p i n => exact ⟨er.trans h.1, el.trans h.2.1, e.prot _ h.2.2⟩
  | rehStart p i n o =>
    obtain ⟨h1, h2, h3, h4, h5⟩ := h
    exact ⟨er.trans h1, el.trans h2, e.prot _ h3, e.prot _ h4, e.cond _ _ h4 h5⟩
  | rehLock p i n o j x =>
    obtain ⟨h1, h2, h3, h4⟩ := h
    exact ⟨er.trans h1, el.trans h2, e.link _ _ h3 (.inl h1), fun g => e.guard.trans (h4 g)⟩
  | rehWait p i n o j x =>
    obtain ⟨h1, h2, h3, h4, h5⟩ := h
    simp only [Pc.onKill]
    cases hh : hit o j with
    | true =>
      exact ⟨er.trans h1, el.trans h2, e.link _ _ h3 (.inl h1), fun g => by rw [h5] at g; cases g⟩
    | false => exact ⟨er.trans h1, el.trans h2, e.link _ _ h3 (.inl h1), e.alive _ _ h4 hh, h5⟩
  | rel p i n o j k => exact RelOk.env e h
  | relTgt p i n o j t te k => exact RelOk.env e h
  | relWait p i n o j t te k => exact RelOk.env e h
  | relMove p i n o j t te k => exact RelOk.env e h
  | rehGuard p i n => exact ⟨er.trans h.1, el.trans h.2.1, fun g => e.prot _ (h.2.2 g)⟩
  | arg p i n => exact ⟨er.trans h.1, el.trans h.2.1, fun g => e.prot _ (h.2.2 g)⟩
  | ded p i n => exact ⟨er.trans h.1, el.trans h.2.1, fun g => e.prot _ (h.2.2 g)⟩
  | dedLoad p i n => exact ⟨er.trans h.1, el.trans h.2.1, e.prot _ h.2.2⟩
  | dedRange p i n o =>
    obtain ⟨h1, h2, h3, h4, h5⟩ := h
    exact ⟨er.trans h1, el.trans h2, e.prot _ h3, e.prot _ h4, e.cond _ _ h4 h5⟩
  | dedLock p i n o j x =>
    obtain ⟨h1, h2, h3, h4, h5⟩ := h
    exact ⟨er.trans h1, el.trans h2, e.prot _ h3, e.prot _ h4, e.cond _ _ h4 h5⟩
  | dedWait p i n o j x =>
    obtain ⟨h1, h2, h3, h4, h5⟩ := h
    simp only [Pc.onKill]
    cases hh : hit o j with
    | true =>
      exact fail_ok (er.trans h1) (el.trans h2) (fun _ g => by rw [h5] at g; cases g)
    | false =>
      have ha := e.alive _ _ h4 hh
      exact ⟨er.trans h1, el.trans h2, e.link _ _ h3 (.inr ⟨_, ha⟩), ha, h5⟩
  | dedNext p i n o j x =>
    obtain ⟨h1, h2, h3, h4, h5⟩ := h
    exact ⟨er.trans h1, el.trans h2, e.prot _ h3, e.prot _ h4, e.cond _ _ h4 h5⟩
  | pick p => exact ⟨er.trans h.1, el.trans h.2.1, e.prot _ h.2.2⟩
  | lock p i n => exact ⟨er.trans h.1, el.trans h.2.1, e.prot _ h.2.2⟩
  | lockWait p i n =>
    obtain ⟨h1, h2, h3, h5⟩ := h
    simp only [Pc.onKill]
    cases hh : hit p i with
    | true => exact fail_ok (er.trans h1) (el.trans h2) (fun _ _ g => by rw [h5] at g; cases g)
    | false => exact ⟨er.trans h1, el.trans h2, e.alive _ _ h3 hh, h5⟩
  | use p i n => exact ⟨er.trans h.1, el.trans h.2.1, e.alive _ _ h.2.2 (e.lkd _ _ h.2.1)⟩
  | brk p i n => exact ⟨er.trans h.1, el.trans h.2.1, fun a b c => e.prot _ (h.2.2 a b c)⟩
  | done => trivial

theorem onKill_id {kd : Kind} (pc : Pc) : pc.onKill kd (fun _ _ => false) = pc := by
  cases pc <;> rfl

/-! ## The other threads -/

theorem glob_congr {s s' : St} (h : Glob s) (hm : s'.mem = s.mem) (hc : s'.cur = s.cur) : Glob s' := by
  refine ⟨?_, ?_, ?_, ?_, ?_⟩
  · intro p; rw [hc, hm]; exact h.cur p
  · intro p P o; rw [hc, hm]; exact h.link p P o
  · intro q Q; rw [hc, hm]; exact h.only q Q
  · intro q Q o; rw [hc, hm]; exact h.nolink q Q o
  · intro q Q; rw [hm]; exact h.dead q Q

/-- A new array at a free address. `none`: there was none; `some p`: it replaces `p`. -/
theorem alloc_glob {s : St} (h : Glob s) {q lg : Nat} {l : Option Nat} (hq : s.mem q = none)
    (hl : s.cur = l) (hn : ∀ p P, l = some p → s.mem p = some P → P.linked = none) : Glob (s.alloc q lg l) := by
  have mq : (s.alloc q lg l).mem q = some (.new lg l) := by simp [St.alloc]
  have mo : ∀ x, x ≠ q → (s.alloc q lg l).mem x = s.mem x := fun x hx => by simp [St.alloc, hx]
  have ne : ∀ x A, s.mem x = some A → x ≠ q := fun x A hx e => by rw [e, hq] at hx; cases hx
  refine ⟨?_, ?_, ?_, ?_, ?_⟩
  · intro p hp
    cases hp
    exact ⟨_, mq, rfl, fun _ => rfl⟩
  · intro p P o hp hP ho
    cases hp
    rw [mq] at hP
    cases hP
    have ho : l = some o := ho
    obtain ⟨A, hA, hr, _⟩ := h.cur o (hl.trans ho)
    have hne := ne o A hA
    exact ⟨hne, A, by rw [mo o hne]; exact hA, hr, hn o A ho hA⟩
  · intro x Q hQ hr
    by_cases hx : x = q
    · exact .inl (by rw [hx]; rfl)
    · rw [mo x hx] at hQ
      right
      rcases h.only x Q hQ hr with hc | ⟨p, P, hc, hP, hPl⟩
      · exact ⟨q, _, rfl, mq, by show l = some x; rw [← hl]; exact hc⟩
      · have := hn p P (hl.symm.trans hc) hP
        rw [this] at hPl; cases hPl
  · intro x Q o hQ ho
    by_cases hx : x = q
    · rw [hx]; rfl
    · rw [mo x hx] at hQ
      have hc := h.nolink x Q o hQ ho
      have := hn x Q (hl.symm.trans hc) hQ
      rw [this] at ho; cases ho
  · intro x Q hQ hr
    by_cases hx : x = q
    · rw [hx, mq] at hQ; cases hQ; cases hr
    · rw [mo x hx] at hQ; exact h.dead x Q hQ hr

theorem alloc_env {s : St} {q lg : Nat} {l : Option Nat} (hq : s.mem q = none)
    (hn : ∀ p o, ¬ CurLink s p o) : Env (fun _ _ => false) s (s.alloc q lg l) := by
  have mo : ∀ x, x ≠ q → (s.alloc q lg l).mem x = s.mem x := fun x hx => by simp [St.alloc, hx]
  have ne : ∀ x A, s.mem x = some A → x ≠ q := fun x A hx e => by rw [e, hq] at hx; cases hx
  refine ⟨rfl, rfl, rfl, ?_, ?_, ?_, ?_, fun _ _ _ => rfl⟩
  · rintro p ⟨hg, A, hA, hr⟩
    exact ⟨hg, A, by rw [mo p (ne p A hA)]; exact hA, hr⟩
  · rintro p o ⟨_, A, hA, _⟩ hc O hO hr
    rw [mo o (ne o A hA)] at hO
    exact absurd (hc O hO hr) (hn p o)
  · intro p o hc
    exact absurd hc (hn p o)
  · rintro x j ⟨A, hA, hj, hd⟩ _
    exact ⟨A, by rw [mo x (ne x A hA)]; exact hA, hj, hd⟩

/-- Bucket `j` of the old array is killed. -/
theorem kill_glob {s s' : St} (h : Glob s) {p o : Nat} {P O : Arr} (hc : s.cur = some p) (hP : s.mem p = some P)
    (hl : P.linked = some o) (hO : s.mem o = some O) {D : Nat → Bool}
    (hm : s'.mem = (s.set o (some { O with dead := D })).mem) (hc' : s'.cur = s.cur) : Glob s' := by
  obtain ⟨hop, O', hO', hOr, hOl⟩ := h.link p P o hc hP hl
  rw [hO] at hO'; cases hO'
  refine glob_congr (s := s.set o (some { O with dead := D })) ?_ hm hc'
  have mo : (s.set o (some { O with dead := D })).mem o = some { O with dead := D } := by simp [St.set]
  have mx : ∀ x, x ≠ o → (s.set o (some { O with dead := D })).mem x = s.mem x := fun x hx => by simp [St.set, hx]
  refine ⟨?_, ?_, ?_, ?_, ?_⟩
  · intro x hx
    have hx : s.cur = some x := hx
    have : x = p := by rw [hc] at hx; exact (Option.some.inj hx).symm
    subst this
    rw [mx x (fun e => hop e.symm)]
    exact h.cur x hx
  · intro x X y hx hX hy
    have hx : s.cur = some x := hx
    have : x = p := by rw [hc] at hx; exact (Option.some.inj hx).symm
    subst this
    rw [mx x (fun e => hop e.symm), hP] at hX
    cases hX
    rw [hl] at hy
    cases hy
    exact ⟨hop, _, mo, hOr, hOl⟩
  · intro x X hX hr
    have key : s.cur = some x ∨ ∃ p P, s.cur = some p ∧ s.mem p = some P ∧ P.linked = some x := by
      by_cases hx : x = o
      · exact .inr ⟨p, P, hc, hP, by rw [hx]; exact hl⟩
      · rw [mx x hx] at hX; exact h.only x X hX hr
    rcases key with hk | ⟨q, Q, hq, hQ, hQl⟩
    · exact .inl hk
    · have : q = p := by rw [hc] at hq; exact (Option.some.inj hq).symm
      subst this
      exact .inr ⟨q, Q, hq, by rw [mx q (fun e => hop e.symm)]; exact hQ, hQl⟩
  · intro x X y hX hy
    by_cases hx : x = o
    · rw [hx, mo] at hX; cases hX; rw [hOl] at hy; cases hy
    · rw [mx x hx] at hX; exact h.nolink x X y hX hy
  · intro x X hX hr
    by_cases hx : x = o
    · rw [hx, mo] at hX; cases hX; rw [hOr] at hr; cases hr
    · rw [mx x hx] at hX; exact h.dead x X hX hr

theorem curLink_inj {s : St} {p o p' o' : Nat} (h : CurLink s p o) (h' : CurLink s p' o') : p' = p ∧ o' = o := by
  obtain ⟨h1, P, h2, h3⟩ := h
  obtain ⟨g1, P', g2, g3⟩ := h'
  have : p' = p := by rw [h1] at g1; exact (Option.some.inj g1).symm
  subst this
  rw [h2] at g2
  cases g2
  rw [h3] at g3
  exact ⟨rfl, (Option.some.inj g3).symm⟩

theorem kill_env {s : St} (h : Glob s) {p o j : Nat} {P O : Arr} (hc : s.cur = some p) (hP : s.mem p = some P)
    (hl : P.linked = some o) (hO : s.mem o = some O) (hlk : s.lk ≠ some (o, j)) (pc : Pc) :
    Env (fun x y => x == o && y == j) s ((s.set o (some { O with dead := fun x => x == j || O.dead x })).go pc) := by
  obtain ⟨hop, O', hO', hOr, hOl⟩ := h.link p P o hc hP hl
  rw [hO] at hO'; cases hO'
  generalize hs : ((s.set o (some { O with dead := fun x => x == j || O.dead x })).go pc) = s'
  have mo : s'.mem o = some { O with dead := fun x => x == j || O.dead x } := by rw [← hs]; simp [St.set, St.go]
  have mx : ∀ x, x ≠ o → s'.mem x = s.mem x := fun x hx => by rw [← hs]; simp [St.set, St.go, hx]
  have hcl : ∀ x y, CurLink s x y → CurLink s' x y := by
    intro x y hxy
    obtain ⟨rfl, rfl⟩ := curLink_inj ⟨hc, P, hP, hl⟩ hxy
    exact ⟨by rw [← hs]; exact hc, P, by rw [mx x (fun e => hop e.symm)]; exact hP, hl⟩
  refine ⟨by rw [← hs]; rfl, by rw [← hs]; rfl, by rw [← hs]; rfl, ?_, ?_, fun x y hxy _ => hcl x y hxy, ?_, ?_⟩
  · rintro x ⟨hg, A, hA, hr⟩
    refine ⟨by rw [← hs]; exact hg, ?_⟩
    by_cases hx : x = o
    · subst hx
      rw [hO] at hA; cases hA
      exact ⟨_, mo, hr⟩
    · exact ⟨A, by rw [mx x hx]; exact hA, hr⟩
  · rintro x y ⟨_, A, hA, _⟩ hxy Y hY hr
    by_cases hy : y = o
    · subst hy
      exact hcl _ _ (hxy O hO hOr)
    · rw [mx y hy] at hY
      exact hcl _ _ (hxy Y hY hr)
  · rintro x y ⟨A, hA, hj, hd⟩ hh
    by_cases hx : x = o
    · subst hx
      rw [hO] at hA; cases hA
      refine ⟨_, mo, hj, ?_⟩
      have : (y == j) = false := by simpa using hh
      simp [this, hd]
    · exact ⟨A, by rw [mx x hx]; exact hA, hj, hd⟩
  · intro x y hxy
    cases he : (x == o && y == j) with
    | false => rfl
    | true =>
      simp at he
      rw [he.1, he.2] at hxy
      exact absurd hxy hlk

/-- The old array is unlinked and retired. -/
theorem retire_glob {s s' : St} (h : Glob s) {p o : Nat} {P O : Arr} {b : Bool} (hc : s.cur = some p)
    (hP : s.mem p = some P) (hl : P.linked = some o) (hO : s.mem o = some O)
    (hd : ∀ j, j < 2 ^ O.lg → O.dead j = true)
    (hm : s'.mem = ((s.set o (some { O with retired := true, prot := b })).set p (some { P with linked := none })).mem)
    (hc' : s'.cur = s.cur) : Glob s' := by
  obtain ⟨hop, O', hO', hOr, hOl⟩ := h.link p P o hc hP hl
  rw [hO] at hO'; cases hO'
  obtain ⟨P', hP', hPr, hPd⟩ := h.cur p hc
  rw [hP] at hP'; cases hP'
  have mp : s'.mem p = some { P with linked := none } := by rw [hm]; simp [St.set]
  have mo : s'.mem o = some { O with retired := true, prot := b } := by rw [hm]; simp [St.set, hop]
  have mx : ∀ x, x ≠ o → x ≠ p → s'.mem x = s.mem x := fun x hx hx' => by rw [hm]; simp [St.set, hx, hx']
  have only : ∀ x X, s.mem x = some X → X.retired = false → x = p ∨ x = o := by
    intro x X hX hr
    rcases h.only x X hX hr with hk | ⟨q, Q, hq, hQ, hQl⟩
    · left; rw [hc] at hk; exact (Option.some.inj hk).symm
    · right; exact (curLink_inj ⟨hc, P, hP, hl⟩ ⟨hq, Q, hQ, hQl⟩).2
  have hcp : ∀ x, s'.cur = some x → x = p := by
    intro x hx
    rw [hc', hc] at hx
    exact (Option.some.inj hx).symm
  refine ⟨?_, ?_, ?_, ?_, ?_⟩
  · intro x hx
    rw [hcp x hx]
    exact ⟨_, mp, hPr, hPd⟩
  · intro x X y hx hX hy
    rw [hcp x hx, mp] at hX
    cases hX
    cases hy
  · intro x X hX hr
    by_cases hx : x = p
    · left; rw [hx, hc']; exact hc
    · by_cases hx' : x = o
      · rw [hx', mo] at hX; cases hX; cases hr
      · rw [mx x hx' hx] at hX
        rcases only x X hX hr with e | e
        · exact absurd e hx
        · exact absurd e hx'
  · intro x X y hX hy
    by_cases hx : x = p
    · rw [hx, mp] at hX; cases hX; cases hy
    · by_cases hx' : x = o
      · rw [hx', mo] at hX; cases hX; rw [hOl] at hy; cases hy
      · rw [mx x hx' hx] at hX
        rw [hc']
        exact h.nolink x X y hX hy
  · intro x X hX hr
    by_cases hx : x = p
    · rw [hx, mp] at hX; cases hX; rw [hPr] at hr; cases hr
    · by_cases hx' : x = o
      · rw [hx', mo] at hX; cases hX; exact hd
      · rw [mx x hx' hx] at hX
        exact h.dead x X hX hr

theorem retire_env {s : St} (h : Glob s) {p o : Nat} {P O : Arr} (hc : s.cur = some p) (hP : s.mem p = some P)
    (hl : P.linked = some o) (hO : s.mem o = some O) (hd : ∀ j, j < 2 ^ O.lg → O.dead j = true)
    (hr : s.reh ≠ some o) :
    Env (fun _ _ => false) s
      ((s.set o (some { O with retired := true, prot := s.guard })).set p (some { P with linked := none })) := by
  obtain ⟨hop, O', hO', hOr, hOl⟩ := h.link p P o hc hP hl
  rw [hO] at hO'; cases hO'
  obtain ⟨P', hP', hPr, hPd⟩ := h.cur p hc
  rw [hP] at hP'; cases hP'
  generalize hs : ((s.set o (some { O with retired := true, prot := s.guard })).set p (some { P with linked := none })) = s'
  have mp : s'.mem p = some { P with linked := none } := by rw [← hs]; simp [St.set]
  have mo : s'.mem o = some { O with retired := true, prot := s.guard } := by rw [← hs]; simp [St.set, hop]
  have mx : ∀ x, x ≠ o → x ≠ p → s'.mem x = s.mem x := fun x hx hx' => by rw [← hs]; simp [St.set, hx, hx']
  refine ⟨by rw [← hs]; rfl, by rw [← hs]; rfl, by rw [← hs]; rfl, ?_, ?_, ?_, ?_, fun _ _ _ => rfl⟩
  · rintro x ⟨hg, A, hA, har⟩
    refine ⟨by rw [← hs]; exact hg, ?_⟩
    by_cases hx : x = p
    · exact ⟨_, by rw [hx]; exact mp, fun e => by rw [hPr] at e; cases e⟩
    · by_cases hx' : x = o
      · exact ⟨_, by rw [hx']; exact mo, fun _ => hg⟩
      · exact ⟨A, by rw [mx x hx' hx]; exact hA, har⟩
  · rintro x y ⟨_, A, hA, _⟩ hxy Y hY hyr
    exfalso
    by_cases hy : y = o
    · rw [hy, mo] at hY; cases hY; cases hyr
    · have : CurLink s x y := by
        by_cases hyp : y = p
        · rw [hyp, mp] at hY; cases hY
          rw [hyp] at hxy ⊢
          exact hxy P hP hPr
        · rw [mx y hy hyp] at hY
          exact hxy Y hY hyr
      exact hy (curLink_inj ⟨hc, P, hP, hl⟩ this).2
  · intro x y hxy hor
    exfalso
    obtain ⟨rfl, rfl⟩ := curLink_inj ⟨hc, P, hP, hl⟩ hxy
    rcases hor with e | ⟨j, Q, hQ, hj, hQd⟩
    · exact hr e
    · rw [mo] at hQ; cases hQ
      have := hd j hj
      have hQd : O.dead j = false := hQd
      rw [this] at hQd; cases hQd
  · rintro x y ⟨A, hA, hj, hAd⟩ _
    by_cases hx : x = p
    · subst hx
      rw [hP] at hA; cases hA
      exact ⟨_, mp, hj, hAd⟩
    · by_cases hx' : x = o
      · subst hx'
        rw [hO] at hA; cases hA
        exact ⟨_, mo, hj, hAd⟩
      · exact ⟨A, by rw [mx x hx' hx]; exact hA, hj, hAd⟩

theorem drop_glob {s s' : St} (h : Glob s) {p : Nat} {P : Arr} {b : Bool} (hc : s.cur = some p) (hP : s.mem p = some P)
    (hl : P.linked = none)
    (hm : s'.mem = (s.set p (some { P with dead := fun _ => true, retired := true, prot := b })).mem)
    (hc' : s'.cur = none) : Glob s' := by
  have mp : s'.mem p = some { P with dead := fun _ => true, retired := true, prot := b } := by rw [hm]; simp [St.set]
  have mx : ∀ x, x ≠ p → s'.mem x = s.mem x := fun x hx => by rw [hm]; simp [St.set, hx]
  refine ⟨?_, ?_, ?_, ?_, ?_⟩
  · intro x hx; rw [hc'] at hx; cases hx
  · intro x X y hx; rw [hc'] at hx; cases hx
  · intro x X hX hr
    exfalso
    by_cases hx : x = p
    · rw [hx, mp] at hX; cases hX; cases hr
    · rw [mx x hx] at hX
      rcases h.only x X hX hr with hk | ⟨q, Q, hq, hQ, hQl⟩
      · rw [hc] at hk; exact hx (Option.some.inj hk).symm
      · rw [hc] at hq
        have := Option.some.inj hq
        subst this
        rw [hP] at hQ; cases hQ
        rw [hl] at hQl; cases hQl
  · intro x X y hX hy
    exfalso
    by_cases hx : x = p
    · rw [hx, mp] at hX; cases hX
      have hy : P.linked = some y := hy
      rw [hl] at hy; cases hy
    · rw [mx x hx] at hX
      have := h.nolink x X y hX hy
      rw [hc] at this
      exact hx (Option.some.inj this).symm
  · intro x X hX hr
    by_cases hx : x = p
    · rw [hx, mp] at hX; cases hX; exact fun _ _ => rfl
    · rw [mx x hx] at hX
      exact h.dead x X hX hr

theorem drop_env {s : St} {p : Nat} {P : Arr} (hc : s.cur = some p) (hP : s.mem p = some P)
    (hl : P.linked = none) (hlk : ∀ j, s.lk ≠ some (p, j)) (pc : Pc) :
    Env (fun x _ => x == p) s (({ s with cur := none }.set p
        (some { P with dead := fun _ => true, retired := true, prot := s.guard })).go pc) := by
  generalize hs : (({ s with cur := none }.set p
        (some { P with dead := fun _ => true, retired := true, prot := s.guard })).go pc) = s'
  have mp : s'.mem p = some { P with dead := fun _ => true, retired := true, prot := s.guard } := by
    rw [← hs]; simp [St.set, St.go]
  have mx : ∀ x, x ≠ p → s'.mem x = s.mem x := fun x hx => by rw [← hs]; simp [St.set, St.go, hx]
  have ncl : ∀ x y, ¬ CurLink s x y := by
    rintro x y ⟨h1, X, hX, hXl⟩
    rw [hc] at h1
    have := Option.some.inj h1
    subst this
    rw [hP] at hX; cases hX
    rw [hl] at hXl; cases hXl
  refine ⟨by rw [← hs]; rfl, by rw [← hs]; rfl, by rw [← hs]; rfl, ?_, ?_, fun x y hxy _ => absurd hxy (ncl x y), ?_, ?_⟩
  · rintro x ⟨hg, A, hA, har⟩
    refine ⟨by rw [← hs]; exact hg, ?_⟩
    by_cases hx : x = p
    · exact ⟨_, by rw [hx]; exact mp, fun _ => hg⟩
    · exact ⟨A, by rw [mx x hx]; exact hA, har⟩
  · rintro x y _ hxy Y hY hyr
    exfalso
    by_cases hy : y = p
    · rw [hy, mp] at hY; cases hY; cases hyr
    · rw [mx y hy] at hY
      exact ncl x y (hxy Y hY hyr)
  · rintro x y ⟨A, hA, hj, hAd⟩ hh
    have hx : x ≠ p := by simpa using hh
    exact ⟨A, by rw [mx x hx]; exact hA, hj, hAd⟩
  · intro x y hxy
    cases he : (x == p) with
    | false => rfl
    | true =>
      simp at he
      rw [he] at hxy
      exact absurd hxy (hlk y)

theorem free_glob {s : St} (h : Glob s) {q : Nat} {Q : Arr} (hQ : s.mem q = some Q) (hr : Q.retired = true) :
    Glob (s.set q none) := by
  have mq : (s.set q none).mem q = none := by simp [St.set]
  have mx : ∀ x, x ≠ q → (s.set q none).mem x = s.mem x := fun x hx => by simp [St.set, hx]
  have ne : ∀ x X, s.mem x = some X → X.retired = false → x ≠ q := by
    intro x X hX hXr e
    rw [e, hQ] at hX; cases hX
    rw [hr] at hXr; cases hXr
  have some' : ∀ x X, (s.set q none).mem x = some X → x ≠ q ∧ s.mem x = some X := by
    intro x X hX
    have hx : x ≠ q := fun e => by rw [e, mq] at hX; cases hX
    rw [mx x hx] at hX
    exact ⟨hx, hX⟩
  refine ⟨?_, ?_, ?_, ?_, ?_⟩
  · intro x hx
    obtain ⟨X, hX, hXr, hXd⟩ := h.cur x hx
    exact ⟨X, by rw [mx x (ne x X hX hXr)]; exact hX, hXr, hXd⟩
  · intro x X y hx hX hy
    obtain ⟨h1, Y, hY, hYr, hYl⟩ := h.link x X y hx (some' x X hX).2 hy
    exact ⟨h1, Y, by rw [mx y (ne y Y hY hYr)]; exact hY, hYr, hYl⟩
  · intro x X hX hXr
    rcases h.only x X (some' x X hX).2 hXr with hk | ⟨p, P, hp, hP, hPl⟩
    · exact .inl hk
    · obtain ⟨P', hP', hPr, _⟩ := h.cur p hp
      rw [hP] at hP'; cases hP'
      exact .inr ⟨p, P, hp, by rw [mx p (ne p P hP hPr)]; exact hP, hPl⟩
  · intro x X y hX hy
    exact h.nolink x X y (some' x X hX).2 hy
  · intro x X hX
    exact h.dead x X (some' x X hX).2

theorem free_env {s : St} (h : Glob s) {q : Nat} {Q : Arr} (hQ : s.mem q = some Q) (hr : Q.retired = true)
    (hp : Q.prot = false) : Env (fun _ _ => false) s (s.set q none) := by
  have mq : (s.set q none).mem q = none := by simp [St.set]
  have mx : ∀ x, x ≠ q → (s.set q none).mem x = s.mem x := fun x hx => by simp [St.set, hx]
  have ne : ∀ x X, s.mem x = some X → X.retired = false → x ≠ q := by
    intro x X hX hXr e
    rw [e, hQ] at hX; cases hX
    rw [hr] at hXr; cases hXr
  have hcl : ∀ x y, CurLink s x y → CurLink (s.set q none) x y := by
    rintro x y ⟨hx, X, hX, hXl⟩
    obtain ⟨X', hX', hXr, _⟩ := h.cur x hx
    rw [hX] at hX'; cases hX'
    exact ⟨hx, X, by rw [mx x (ne x X hX hXr)]; exact hX, hXl⟩
  refine ⟨rfl, rfl, rfl, ?_, ?_, fun x y hxy _ => hcl x y hxy, ?_, fun _ _ _ => rfl⟩
  · rintro x ⟨hg, A, hA, har⟩
    have hx : x ≠ q := by
      intro e
      rw [e, hQ] at hA; cases hA
      have := har hr
      rw [hp] at this; cases this
    exact ⟨hg, A, by rw [mx x hx]; exact hA, har⟩
  · rintro x y _ hxy Y hY hyr
    have hy : y ≠ q := fun e => by rw [e, mq] at hY; cases hY
    rw [mx y hy] at hY
    exact hcl x y (hxy Y hY hyr)
  · rintro x j ⟨A, hA, hj, hAd⟩ _
    have hx : x ≠ q := by
      intro e
      rw [e, hQ] at hA; cases hA
      have := h.dead q Q hQ hr j hj
      rw [this] at hAd; cases hAd
    exact ⟨A, by rw [mx x hx]; exact hA, hj, hAd⟩

/-! ## The call -/

/-- Everything that holds. -/
structure Inv (m : Mode) (s : St) : Prop where
  glob : Glob s
  pc : PcOk m s s.pc

theorem reset_mem {s : St} {x : Nat} {A : Arr} (h : s.reset.mem x = some A) :
    ∃ A', s.mem x = some A' ∧ A = { A' with prot := false } := by
  simp only [St.reset, Option.map_eq_some_iff] at h
  obtain ⟨A', h1, h2⟩ := h
  exact ⟨A', h1, h2.symm⟩

theorem reset_some {s : St} {x : Nat} {A : Arr} (h : s.mem x = some A) : s.reset.mem x = some { A with prot := false } := by
  simp [St.reset, h]

theorem reset_glob {s : St} (h : Glob s) : Glob s.reset := by
  refine ⟨?_, ?_, ?_, ?_, ?_⟩
  · intro p hp
    obtain ⟨P, hP, hr, hd⟩ := h.cur p hp
    exact ⟨_, reset_some hP, hr, hd⟩
  · intro p P o hp hP ho
    obtain ⟨P', hP', rfl⟩ := reset_mem hP
    obtain ⟨h1, O, hO, hr, hl⟩ := h.link p P' o hp hP' ho
    exact ⟨h1, _, reset_some hO, hr, hl⟩
  · intro q Q hQ hr
    obtain ⟨Q', hQ', rfl⟩ := reset_mem hQ
    rcases h.only q Q' hQ' hr with hk | ⟨p, P, hp, hP, hPl⟩
    · exact .inl hk
    · exact .inr ⟨p, _, hp, reset_some hP, hPl⟩
  · intro q Q o hQ ho
    obtain ⟨Q', hQ', rfl⟩ := reset_mem hQ
    exact h.nolink q Q' o hQ' ho
  · intro q Q hQ hr
    obtain ⟨Q', hQ', rfl⟩ := reset_mem hQ
    exact h.dead q Q' hQ' hr

theorem reset_link {s : St} {p o : Nat} (h : CurLink s p o) : CurLink s.reset p o := by
  obtain ⟨h1, P, h2, h3⟩ := h
  exact ⟨h1, _, reset_some h2, h3⟩

theorem reset_alive {s : St} {q j : Nat} (h : Alive s q j) : Alive s.reset q j := by
  obtain ⟨Q, h1, h2, h3⟩ := h
  exact ⟨_, reset_some h1, h2, h3⟩

/-- A guard created while `p` is current keeps `p` and the array linked to it. -/
theorem prot_cur {s s' : St} (h : Glob s) {p : Nat} (hc : s.cur = some p) (hm : s'.mem p = s.mem p)
    (hg : s'.guard = true) : Prot s' p := by
  obtain ⟨P, hP, hr, _⟩ := h.cur p hc
  exact ⟨hg, P, by rw [hm]; exact hP, fun e => by rw [hr] at e; cases e⟩

theorem prot_alive {s s' : St} (h : Glob s) {q j : Nat} (ha : Alive s q j) (hm : s'.mem q = s.mem q)
    (hg : s'.guard = true) : Prot s' q := by
  obtain ⟨Q, hQ, hj, hd⟩ := ha
  refine ⟨hg, Q, by rw [hm]; exact hQ, fun e => ?_⟩
  have := h.dead q Q hQ e j hj
  rw [this] at hd; cases hd

/-- A relocation is over: the old bucket is killed with a guard at hand. -/
theorem rel_done {m : Mode} {s : St} (h : Glob s) {p i n o j : Nat} {O : Arr} {k : Back} (hk : RelOk m s p o j k)
    (hO : s.mem o = some O) :
    Inv m (({ s with guard := true, lk := none }.set o (some { O with dead := fun x => x == j || O.dead x })).go
      (k.next p i n o j)) := by
  obtain ⟨h1, ⟨hc, P, hP, hl⟩, h3, h4, h5⟩ := hk
  obtain ⟨hop, O', hO', hOr, hOl⟩ := h.link p P o hc hP hl
  rw [hO] at hO'; cases hO'
  have hpo : p ≠ o := fun e => hop e.symm
  generalize hs : (({ s with guard := true, lk := none }.set o (some { O with dead := fun x => x == j || O.dead x })).go
      (k.next p i n o j)) = s'
  have hpc : s'.pc = k.next p i n o j := by rw [← hs]; rfl
  have hg : s'.guard = true := by rw [← hs]; rfl
  have hlk : s'.lk = none := by rw [← hs]; rfl
  have hre : s'.reh = s.reh := by rw [← hs]; rfl
  have mp : s'.mem p = s.mem p := by rw [← hs]; simp [St.set, St.go, hpo]
  have mo : s'.mem o = some { O with dead := fun x => x == j || O.dead x } := by rw [← hs]; simp [St.set, St.go]
  have hcl : CurLink s' p o := ⟨by rw [← hs]; exact hc, P, by rw [mp]; exact hP, hl⟩
  refine ⟨kill_glob h hc hP hl hO (D := fun x => x == j || O.dead x) (by rw [← hs]; rfl) (by rw [← hs]; rfl), ?_⟩
  rw [hpc]
  cases k with
  | reh e => exact ⟨hre.trans h5, hlk, hcl, fun _ => hg⟩
  | ded e =>
    refine ⟨hre.trans h5, hlk, prot_cur h hc mp hg, ⟨hg, _, mo, fun e => ?_⟩, fun _ _ _ => hcl⟩
    have e : O.retired = true := e
    rw [hOr] at e; cases e

/-- The call goes on with the arrays unchanged. -/
theorem Inv.mk' {m : Mode} {s s' : St} {pc : Pc} (h : Glob s) (hm : s'.mem = s.mem) (hc : s'.cur = s.cur)
    (hp : s'.pc = pc) (hk : PcOk m s' pc) : Inv m s' := ⟨glob_congr h hm hc, by rw [hp]; exact hk⟩

theorem Alive.congr {s s' : St} {q j : Nat} (h : Alive s q j) (hm : s'.mem q = s.mem q) : Alive s' q j := by
  obtain ⟨Q, h1, h2⟩ := h
  exact ⟨Q, by rw [hm]; exact h1, h2⟩

theorem inv_step {kd : Kind} {m : Mode} {s s' : St} (h : Inv m s) (st : Step kd m s s') : Inv m s' := by
  have hG := h.glob
  have hp := h.pc
  have envId : ∀ s', Env (fun _ _ => false) s s' → s'.pc = s.pc → PcOk m s' s'.pc := by
    intro s' e hpc
    rw [hpc, ← onKill_id (kd := kd) s.pc]
    exact pcOk_env e hp
  cases st with
  | @create q lg hc hq _ _ =>
    refine ⟨alloc_glob hG hq hc (fun _ _ e => by cases e), envId _ (alloc_env hq ?_) rfl⟩
    rintro p o ⟨h1, _⟩
    rw [hc] at h1; cases h1
  | @resize p P q lg hc hP hl hq _ _ =>
    refine ⟨alloc_glob hG hq hc ?_, envId _ (alloc_env hq ?_) rfl⟩
    · intro p' P' e hP'
      cases e
      rw [hP] at hP'; cases hP'
      exact hl
    · rintro p' o ⟨h1, P', hP', hl'⟩
      rw [hc] at h1
      have := Option.some.inj h1
      subst this
      rw [hP] at hP'; cases hP'
      rw [hl] at hl'; cases hl'
  | @kill p P o O j hc hP hl hO hlk =>
    exact ⟨kill_glob hG hc hP hl hO (D := fun x => x == j || O.dead x) rfl rfl,
      pcOk_env (kill_env hG hc hP hl hO hlk _) hp⟩
  | @retire p P o O hc hP hl hO hd hr =>
    exact ⟨retire_glob hG hc hP hl hO hd rfl rfl, envId _ (retire_env hG hc hP hl hO hd hr) rfl⟩
  | @dropTable p P hc hP hl hlk =>
    exact ⟨drop_glob hG hc hP hl rfl rfl, pcOk_env (drop_env hc hP hl hlk _) hp⟩
  | @free q Q hQ hr hpr => exact ⟨free_glob hG hQ hr, envId _ (free_env hG hQ hr hpr) rfl⟩
  | loadNone g hc => exact .mk' hG rfl rfl rfl trivial
  | @load i prev p P g hc hP =>
    rw [g] at hp
    refine .mk' hG rfl rfl rfl ?_
    have := prot_cur (s' := { s with guard := true }) hG hc rfl rfl
    split
    · exact ⟨hp.1, hp.2, this⟩
    · exact ⟨hp.1, hp.2, fun _ _ _ => this⟩
  | testNone g hP hl => rw [g] at hp; exact .mk' hG rfl rfl rfl (clean_ok hp.1 hp.2.1 hp.2.2)
  | testSome g hP hl => rw [g] at hp; exact .mk' hG rfl rfl rfl hp
  | rehNone g hP hl => rw [g] at hp; exact .mk' hG rfl rfl rfl (helped_ok hp.1 hp.2.1 (fun _ => hp.2.2))
  | @rehSome p P i n o g hP hl =>
    rw [g] at hp
    have hc := hG.nolink p P o hP hl
    obtain ⟨_, O, hO, hr, _⟩ := hG.link p P o hc hP hl
    refine .mk' hG rfl rfl rfl ⟨hp.1, hp.2.1, hp.2.2, ⟨hp.2.2.1, O, hO, fun e => by rw [hr] at e; cases e⟩, ?_⟩
    exact fun _ _ _ => ⟨hc, P, hP, hl⟩
  | rehBusy g hO => rw [g] at hp; exact .mk' hG rfl rfl rfl (helped_ok hp.1 hp.2.1 (fun _ => hp.2.2.1))
  | @rehStart p i n o O j e g hO hr he =>
    rw [g] at hp
    obtain ⟨h1, h2, h3, h4, h5⟩ := hp
    exact .mk' hG rfl rfl rfl ⟨rfl, h2, h5 O hO hr, fun _ => h3.1⟩
  | @rehLocked p i n o O j e g hj hO hjl hd =>
    rw [g] at hp
    obtain ⟨h1, h2, h3, h4⟩ := hp
    exact .mk' hG rfl rfl rfl ⟨rfl, h3, ⟨O, hO, hjl, hd⟩, h4, h1⟩
  | rehDead g hj hO hjl hd => rw [g] at hp; exact .mk' hG rfl rfl rfl hp
  | @rehSuspend p i n o O j e g hj hO hjl hd hm =>
    rw [g] at hp
    obtain ⟨h1, h2, h3, h4⟩ := hp
    exact .mk' (reset_glob hG) rfl rfl rfl ⟨h1, h2, reset_link h3, reset_alive ⟨O, hO, hjl, hd⟩, hm⟩
  | @rehWake p i n o O j e g hO hjl hd =>
    rw [g] at hp
    obtain ⟨h1, h2, h3, h4, h5⟩ := hp
    refine .mk' hG rfl rfl rfl ⟨rfl, h3, h4, fun e => ?_, h1⟩
    have e : m.help = false := e
    rw [h5] at e; cases e
  | @rehQuit p i n o O j e g hj hO =>
    rw [g] at hp
    obtain ⟨h1, h2, h3, h4⟩ := hp
    exact .mk' hG rfl rfl rfl (helped_ok rfl h2 (fun e => prot_cur hG h3.1 rfl (h4 e)))
  | @rehFinish p P i n o O j e g hj hO hP hl hd =>
    rw [g] at hp
    obtain ⟨h1, h2, ⟨hc, _⟩, h4⟩ := hp
    refine ⟨retire_glob hG hc hP hl hO hd rfl rfl, ?_⟩
    refine ⟨rfl, h2, fun e => ⟨h4 e, { P with linked := none }, by simp [St.set, St.go], fun e => ?_⟩⟩
    obtain ⟨P', hP', hr, _⟩ := hG.cur p hc
    rw [hP] at hP'; cases hP'
    have e : P.retired = true := e
    rw [hr] at e; cases e
  | @rehGuard p i n g =>
    rw [g] at hp
    exact .mk' hG rfl rfl rfl (helped_ok hp.1 hp.2.1 (fun e => ⟨rfl, (hp.2.2 e).2⟩))
  | relEmpty g hO hP => rw [g] at hp; exact rel_done hG hp hO
  | relRange g hO hP => rw [g] at hp; exact .mk' hG rfl rfl rfl hp
  | relLocked g ht hP hj => rw [g] at hp; exact .mk' hG rfl rfl rfl hp
  | @relSuspend p P i n o j t te k g ht hP hj hm =>
    rw [g] at hp
    obtain ⟨h1, h2, h3, h4, h5⟩ := hp
    refine .mk' (reset_glob hG) rfl rfl rfl ⟨h1, reset_link h2, reset_alive h3, fun e => ?_, h5⟩
    have : k.flag m = true := by cases k <;> exact hm
    rw [this] at e; cases e
  | relWake g hP hj => rw [g] at hp; exact .mk' hG rfl rfl rfl hp
  | @relAll p i n o j t te k g ht =>
    rw [g] at hp
    obtain ⟨h1, h2, h3, h4, h5⟩ := hp
    exact .mk' hG rfl rfl rfl ⟨h1, h2, h3, fun _ => rfl, h5⟩
  | relMove g hO hP hl => rw [g] at hp; exact rel_done hG hp hO
  | arg g hk hP => rw [g] at hp; exact .mk' hG rfl rfl rfl hp
  | @dedOther p i n g hc =>
    rw [g] at hp
    exact .mk' hG rfl rfl rfl (fail_ok hp.1 hp.2.1 (fun e _ _ => ⟨rfl, (hp.2.2 e).2⟩))
  | dedSame g hc =>
    rw [g] at hp
    exact .mk' hG rfl rfl rfl ⟨hp.1, hp.2.1, prot_cur hG hc rfl rfl⟩
  | dedNone g hP hl => rw [g] at hp; exact .mk' hG rfl rfl rfl (clean_ok hp.1 hp.2.1 hp.2.2)
  | @dedSome p P i n o g hP hl =>
    rw [g] at hp
    have hc := hG.nolink p P o hP hl
    obtain ⟨_, O, hO, hr, _⟩ := hG.link p P o hc hP hl
    refine .mk' hG rfl rfl rfl ⟨hp.1, hp.2.1, hp.2.2, ⟨hp.2.2.1, O, hO, fun e => by rw [hr] at e; cases e⟩, ?_⟩
    exact fun _ _ _ => ⟨hc, P, hP, hl⟩
  | dedRange g hP hO => rw [g] at hp; exact .mk' hG rfl rfl rfl hp
  | @dedLocked p i n o O j e g hO hj hd =>
    rw [g] at hp
    obtain ⟨h1, h2, h3, h4, h5⟩ := hp
    have hr : O.retired = false := by
      cases hr : O.retired with
      | false => rfl
      | true => have := hG.dead o O hO hr j hj; rw [this] at hd; cases hd
    exact .mk' hG rfl rfl rfl ⟨rfl, h5 O hO hr, ⟨O, hO, hj, hd⟩, fun _ => h3.1, h1⟩
  | dedDead g hO hj hd hg => rw [g] at hp; exact .mk' hG rfl rfl rfl hp
  | @dedSuspend p i n o O j e g hO hj hd hm =>
    rw [g] at hp
    obtain ⟨h1, h2, h3, h4, h5⟩ := hp
    have hr : O.retired = false := by
      cases hr : O.retired with
      | false => rfl
      | true => have := hG.dead o O hO hr j hj; rw [this] at hd; cases hd
    exact .mk' (reset_glob hG) rfl rfl rfl ⟨h1, h2, reset_link (h5 O hO hr), reset_alive ⟨O, hO, hj, hd⟩, hm⟩
  | @dedWake p i n o O j e g hO hj hd =>
    rw [g] at hp
    obtain ⟨h1, h2, h3, h4, h5⟩ := hp
    refine .mk' hG rfl rfl rfl ⟨rfl, h3, h4, fun e => ?_, h1⟩
    have e : m.dedup = false := e
    rw [h5] at e; cases e
  | dedMore g hP hl hj => rw [g] at hp; exact .mk' hG rfl rfl rfl hp
  | dedTrue g hP hl => rw [g] at hp; exact .mk' hG rfl rfl rfl (clean_ok hp.1 hp.2.1 hp.2.2.1)
  | pick g hk hP => rw [g] at hp; exact .mk' hG rfl rfl rfl hp
  | @locked p P i n g hP hi hd => rw [g] at hp; exact .mk' hG rfl rfl rfl ⟨hp.1, rfl, P, hP, hi, hd⟩
  | lockDead g hP hi hd => rw [g] at hp; exact .mk' hG rfl rfl rfl (fail_ok hp.1 hp.2.1 (fun _ _ _ => hp.2.2))
  | @lockSuspend p P i n g hP hi hd hm =>
    rw [g] at hp
    exact .mk' (reset_glob hG) rfl rfl rfl ⟨hp.1, hp.2.1, reset_alive ⟨P, hP, hi, hd⟩, hm⟩
  | @lockWake p P i n g hP hi hd => rw [g] at hp; exact .mk' hG rfl rfl rfl ⟨hp.1, rfl, P, hP, hi, hd⟩
  | useDone g hP => exact .mk' hG rfl rfl rfl trivial
  | useOther g hc hk =>
    rw [g] at hp
    exact .mk' hG rfl rfl rfl ⟨hp.1, rfl, fun _ _ _ => prot_alive hG hp.2.2 rfl rfl⟩
  | @useNext p P i n g hc hP hk =>
    rw [g] at hp
    have := prot_alive (s' := { s with guard := true, lk := none }) hG hp.2.2 rfl rfl
    have key : ∀ b, Inv m ({ s with guard := true, lk := none }.go
        (if i + 1 < b then .test p (i + 1) n else .brk p (i + 1) n)) := by
      intro b
      refine .mk' hG rfl rfl rfl ?_
      split
      · exact ⟨hp.1, rfl, this⟩
      · exact ⟨hp.1, rfl, fun _ _ _ => this⟩
    exact key _
  | @brk p i n l g hl =>
    rw [g] at hp
    refine .mk' hG rfl rfl rfl ?_
    split
    · trivial
    · exact ⟨hp.1, hp.2.1⟩
  | cancel hw => exact .mk' (reset_glob hG) rfl rfl rfl trivial

theorem inv_reach {kd : Kind} {m : Mode} {i prev : Nat} {s : St} (r : Reach kd m i prev s) : Inv m s := by
  induction r with
  | init =>
    refine ⟨⟨?_, ?_, ?_, ?_, ?_⟩, rfl, rfl⟩
    · intro p h; cases h
    · intro p P o h; cases h
    · intro q Q h; cases h
    · intro q Q o h; cases h
    · intro q Q h; cases h
  | step _ st ih => exact inv_step ih st

end Scc.Async
