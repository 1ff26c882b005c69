import Verif.Async.Proof
import Verif.Index.Props

/-!
# Which indices of an asynchronous call are inside the arrays
-/

namespace Scc.Async

open Scc.Index (bucketIndex fromIndexToRange bucketIndex_lt c05_range_bounds)

/-- Index `i` was computed for an array of `n` buckets, and that is how many the array at `p` has. -/
def Fits (s : St) (p n i : Nat) : Prop := i < n ∧ ∀ A, s.mem p = some A → 2 ^ A.lg = n

/-- The array at `o` has at least `e` buckets. -/
def Len (s : St) (o e : Nat) : Prop := ∀ O, s.mem o = some O → e ≤ 2 ^ O.lg

def Back.fits (s : St) (o j : Nat) : Back → Prop
  | .reh e => Len s o e
  | .ded e => Len s o e ∧ j < e

/-- What holds of indices where the call is. -/
def Fit (s : St) : Pc → Prop
  | .load .. => True
  | .test p i n => Fits s p n i
  | .rehLoad p i n => Fits s p n i
  | .rehStart p i n _ => Fits s p n i
  | .rehLock p i n o _ e => Fits s p n i ∧ Len s o e
  | .rehWait p i n o j e => Fits s p n i ∧ Len s o e ∧ j < e
  | .rel p i n o j k => Fits s p n i ∧ Len s o (j + 1) ∧ k.fits s o j
  | .relTgt p i n o j _ te k => Fits s p n i ∧ Len s o (j + 1) ∧ k.fits s o j ∧ Len s p te
  | .relWait p i n o j t te k => Fits s p n i ∧ Len s o (j + 1) ∧ k.fits s o j ∧ Len s p te ∧ t < te
  | .relMove p i n o j _ te k => Fits s p n i ∧ Len s o (j + 1) ∧ k.fits s o j ∧ Len s p te
  | .rehGuard p i n => Fits s p n i
  | .arg p i n => Fits s p n i
  | .ded p i n => Fits s p n i
  | .dedLoad p i n => Fits s p n i
  | .dedRange p i n _ => Fits s p n i
  | .dedLock p i n o j e => Fits s p n i ∧ Len s o e ∧ j < e
  | .dedWait p i n o j e => Fits s p n i ∧ Len s o e ∧ j < e
  | .dedNext p i n o j e => Fits s p n i ∧ Len s o e ∧ j < e
  | .pick _ => True
  | .lock p i n => Fits s p n i
  | .lockWait p i n => Fits s p n i
  | .use p i n => Fits s p n i
  | .brk .. => True
  | .done => True

/-- The arrays the call refers to and will access again. -/
def Pc.refs : Pc → List Nat
  | .load .. => []
  | .test p .. => [p]
  | .rehLoad p .. => [p]
  | .rehStart p _ _ o => [p, o]
  | .rehLock p _ _ o _ _ => [p, o]
  | .rehWait p _ _ o _ _ => [p, o]
  | .rel p _ _ o _ _ => [p, o]
  | .relTgt p _ _ o _ _ _ _ => [p, o]
  | .relWait p _ _ o _ _ _ _ => [p, o]
  | .relMove p _ _ o _ _ _ _ => [p, o]
  | .rehGuard p .. => [p]
  | .arg p .. => [p]
  | .ded p .. => [p]
  | .dedLoad p .. => [p]
  | .dedRange p _ _ o => [p, o]
  | .dedLock p _ _ o _ _ => [p, o]
  | .dedWait p _ _ o _ _ => [p, o]
  | .dedNext p _ _ o _ _ => [p, o]
  | .pick p => [p]
  | .lock p .. => [p]
  | .lockWait p .. => [p]
  | .use p .. => [p]
  | .brk .. => []
  | .done => []

/-- The array at `x`, if it is still there, has as many buckets as before. -/
def Same (s s' : St) (x : Nat) : Prop := ∀ A', s'.mem x = some A' → ∃ A, s.mem x = some A ∧ A'.lg = A.lg

theorem Fits.mono {s s' : St} {p n i : Nat} (h : Fits s p n i) (e : Same s s' p) : Fits s' p n i := by
  refine ⟨h.1, fun A' hA' => ?_⟩
  obtain ⟨A, hA, hl⟩ := e A' hA'
  rw [hl]; exact h.2 A hA

theorem Len.mono {s s' : St} {o e : Nat} (h : Len s o e) (c : Same s s' o) : Len s' o e := by
  intro O' hO'
  obtain ⟨O, hO, hl⟩ := c O' hO'
  rw [hl]; exact h O hO

theorem Back.fits.mono {s s' : St} {o j : Nat} {k : Back} (h : k.fits s o j) (c : Same s s' o) : k.fits s' o j := by
  cases k with
  | reh e => exact Len.mono h c
  | ded e => exact ⟨Len.mono h.1 c, h.2⟩

theorem Fit.mono {s s' : St} {pc : Pc} (h : Fit s pc) (c : ∀ x, x ∈ pc.refs → Same s s' x) : Fit s' pc := by
  cases pc with
  | load => trivial
  | pick => trivial
  | brk => trivial
  | done => trivial
  | test p i n => exact Fits.mono h (c p (by simp [Pc.refs]))
  | rehLoad p i n => exact Fits.mono h (c p (by simp [Pc.refs]))
  | rehStart p i n o => exact Fits.mono h (c p (by simp [Pc.refs]))
  | rehGuard p i n => exact Fits.mono h (c p (by simp [Pc.refs]))
  | arg p i n => exact Fits.mono h (c p (by simp [Pc.refs]))
  | ded p i n => exact Fits.mono h (c p (by simp [Pc.refs]))
  | dedLoad p i n => exact Fits.mono h (c p (by simp [Pc.refs]))
  | dedRange p i n o => exact Fits.mono h (c p (by simp [Pc.refs]))
  | lock p i n => exact Fits.mono h (c p (by simp [Pc.refs]))
  | lockWait p i n => exact Fits.mono h (c p (by simp [Pc.refs]))
  | use p i n => exact Fits.mono h (c p (by simp [Pc.refs]))
  | rehLock p i n o j e => exact ⟨h.1.mono (c p (by simp [Pc.refs])), h.2.mono (c o (by simp [Pc.refs]))⟩
  | rehWait p i n o j e => exact ⟨h.1.mono (c p (by simp [Pc.refs])), h.2.1.mono (c o (by simp [Pc.refs])), h.2.2⟩
  | dedLock p i n o j e => exact ⟨h.1.mono (c p (by simp [Pc.refs])), h.2.1.mono (c o (by simp [Pc.refs])), h.2.2⟩
  | dedWait p i n o j e => exact ⟨h.1.mono (c p (by simp [Pc.refs])), h.2.1.mono (c o (by simp [Pc.refs])), h.2.2⟩
  | dedNext p i n o j e => exact ⟨h.1.mono (c p (by simp [Pc.refs])), h.2.1.mono (c o (by simp [Pc.refs])), h.2.2⟩
  | rel p i n o j k =>
    exact ⟨h.1.mono (c p (by simp [Pc.refs])), h.2.1.mono (c o (by simp [Pc.refs])), h.2.2.mono (c o (by simp [Pc.refs]))⟩
  | relTgt p i n o j t te k =>
    exact ⟨h.1.mono (c p (by simp [Pc.refs])), h.2.1.mono (c o (by simp [Pc.refs])),
      h.2.2.1.mono (c o (by simp [Pc.refs])), h.2.2.2.mono (c p (by simp [Pc.refs]))⟩
  | relWait p i n o j t te k =>
    exact ⟨h.1.mono (c p (by simp [Pc.refs])), h.2.1.mono (c o (by simp [Pc.refs])),
      h.2.2.1.mono (c o (by simp [Pc.refs])), h.2.2.2.1.mono (c p (by simp [Pc.refs])), h.2.2.2.2⟩
  | relMove p i n o j t te k =>
    exact ⟨h.1.mono (c p (by simp [Pc.refs])), h.2.1.mono (c o (by simp [Pc.refs])),
      h.2.2.1.mono (c o (by simp [Pc.refs])), h.2.2.2.mono (c p (by simp [Pc.refs]))⟩

theorem CurLink.there {s : St} (h : Glob s) {p o : Nat} (c : CurLink s p o) : s.mem p ≠ none ∧ s.mem o ≠ none := by
  obtain ⟨hc, P, hP, hl⟩ := c
  obtain ⟨_, O, hO, _⟩ := h.link p P o hc hP hl
  exact ⟨by rw [hP]; simp, by rw [hO]; simp⟩

theorem Prot.there {s : St} {p : Nat} (h : Prot s p) : s.mem p ≠ none := by
  obtain ⟨_, A, hA, _⟩ := h
  rw [hA]; simp

theorem Alive.there {s : St} {p j : Nat} (h : Alive s p j) : s.mem p ≠ none := by
  obtain ⟨A, hA, _⟩ := h
  rw [hA]; simp

/-- If the call is never suspended while it helps rehashing, every array it refers to is there. -/
theorem refs_there {m : Mode} {s : St} (h : Inv m s) (hm : m.help = false) {x : Nat} (hx : x ∈ s.pc.refs) :
    s.mem x ≠ none := by
  have hG := h.glob
  have hp := h.pc
  generalize s.pc = pc at hp hx
  have two : ∀ {p o : Nat}, s.mem p ≠ none ∧ s.mem o ≠ none → x ∈ [p, o] → s.mem x ≠ none := by
    intro p o h hx
    simp at hx
    rcases hx with rfl | rfl
    · exact h.1
    · exact h.2
  have one : ∀ {p : Nat}, s.mem p ≠ none → x ∈ [p] → s.mem x ≠ none := by
    intro p h hx
    simp at hx
    rw [hx]; exact h
  cases pc with
  | load => simp [Pc.refs] at hx
  | brk => simp [Pc.refs] at hx
  | done => simp [Pc.refs] at hx
  | pick p => exact one hp.2.2.there hx
  | test p i n => exact one hp.2.2.there hx
  | rehLoad p i n => exact one hp.2.2.there hx
  | rehStart p i n o => exact two ⟨hp.2.2.1.there, hp.2.2.2.1.there⟩ hx
  | rehGuard p i n => exact one (hp.2.2 hm).there hx
  | arg p i n => exact one (hp.2.2 hm).there hx
  | ded p i n => exact one (hp.2.2 hm).there hx
  | dedLoad p i n => exact one hp.2.2.there hx
  | dedRange p i n o => exact two ⟨hp.2.2.1.there, hp.2.2.2.1.there⟩ hx
  | lock p i n => exact one hp.2.2.there hx
  | lockWait p i n => exact one hp.2.2.1.there hx
  | use p i n => exact one hp.2.2.there hx
  | rehLock p i n o j e => exact two (hp.2.2.1.there hG) hx
  | rehWait p i n o j e => exact two (hp.2.2.1.there hG) hx
  | dedLock p i n o j e => exact two ⟨hp.2.2.1.there, hp.2.2.2.1.there⟩ hx
  | dedWait p i n o j e => exact two (hp.2.2.1.there hG) hx
  | dedNext p i n o j e => exact two ⟨hp.2.2.1.there, hp.2.2.2.1.there⟩ hx
  | rel p i n o j k => exact two (hp.2.1.there hG) hx
  | relTgt p i n o j t te k => exact two (hp.2.1.there hG) hx
  | relWait p i n o j t te k => exact two (hp.2.1.there hG) hx
  | relMove p i n o j t te k => exact two (hp.2.1.there hG) hx

/-- Everything that holds of indices. -/
structure FInv (s : St) : Prop where
  lg : ∀ x A, s.mem x = some A → A.lg ≤ 64
  used : ∀ x A, s.mem x = some A → s.used x = true
  refs : ∀ x, x ∈ s.pc.refs → s.used x = true
  fit : Fit s s.pc

/-- The arrays stay as they are, up to marks. -/
theorem FInv.mk' {s s' : St} {pc : Pc} (h : FInv s) (hs : ∀ x, Same s s' x) (hu : s'.used = s.used) (hp : s'.pc = pc)
    (hr : ∀ x, x ∈ pc.refs → x ∈ s.pc.refs ∨ s.mem x ≠ none) (hf : Fit s pc) : FInv s' := by
  refine ⟨?_, ?_, ?_, ?_⟩
  · intro x A' hA'
    obtain ⟨A, hA, hl⟩ := hs x A' hA'
    rw [hl]; exact h.lg x A hA
  · intro x A' hA'
    obtain ⟨A, hA, hl⟩ := hs x A' hA'
    rw [hu]; exact h.used x A hA
  · intro x hx
    rw [hp] at hx
    rw [hu]
    rcases hr x hx with hx | hx
    · exact h.refs x hx
    · cases hm : s.mem x with
      | none => exact absurd hm hx
      | some A => exact h.used x A hm
  · rw [hp]; exact hf.mono (fun x _ => hs x)

theorem FInv.go {s s₁ : St} {pc : Pc} (h : FInv s) (hs : ∀ x, Same s s₁ x) (hu : s₁.used = s.used)
    (hr : ∀ x, x ∈ pc.refs → x ∈ s.pc.refs ∨ s.mem x ≠ none) (hf : Fit s pc) : FInv (s₁.go pc) :=
  .mk' (s' := s₁.go pc) h hs hu rfl hr hf

theorem Same.rfl' {s s' : St} (h : s'.mem = s.mem) : ∀ x, Same s s' x := by
  intro x A' hA'
  rw [h] at hA'
  exact ⟨A', hA', rfl⟩

theorem same_reset {s s' : St} (h : s'.mem = s.reset.mem) : ∀ x, Same s s' x := by
  intro x A' hA'
  rw [h] at hA'
  obtain ⟨A, hA, rfl⟩ := reset_mem hA'
  exact ⟨A, hA, rfl⟩

theorem same_set {s s' : St} {q : Nat} {A A₁ : Arr} (hq : s.mem q = some A)
    (h : s'.mem = (s.set q (some A₁)).mem) (hl : A₁.lg = A.lg) : ∀ x, Same s s' x := by
  intro x A' hA'
  rw [h] at hA'
  by_cases hx : x = q
  · subst hx
    simp [St.set] at hA'
    exact ⟨A, hq, by rw [← hA']; exact hl⟩
  · simp [St.set, hx] at hA'
    exact ⟨A', hA', rfl⟩

theorem Same.trans {s s' s'' : St} {x : Nat} (h : Same s s' x) (h' : Same s' s'' x) : Same s s'' x := by
  intro A hA
  obtain ⟨A', hA', hl'⟩ := h' A hA
  obtain ⟨A'', hA'', hl''⟩ := h A' hA'
  exact ⟨A'', hA'', hl'.trans hl''⟩

theorem same_retire {s s' : St} {p o : Nat} {P O P₁ O₁ : Arr} (hP : s.mem p = some P) (hO : s.mem o = some O)
    (hne : p ≠ o) (h : s'.mem = ((s.set o (some O₁)).set p (some P₁)).mem) (h1 : P₁.lg = P.lg) (h2 : O₁.lg = O.lg) : ∀ x, Same s s' x := by
  intro x
  refine (same_set (s' := s.set o (some O₁)) hO rfl h2 x).trans ?_
  exact same_set (s := s.set o (some O₁)) (by simp [St.set, hne]; exact hP) h h1 x

theorem same_free {s : St} {q : Nat} : ∀ x, Same s (s.set q none) x := by
  intro x A' hA'
  by_cases hx : x = q
  · subst hx; simp [St.set] at hA'
  · simp [St.set, hx] at hA'
    exact ⟨A', hA', rfl⟩

/-- Where a waiting call goes when its bucket is killed. -/
theorem onKill_fit {kd : Kind} {hit : Nat → Nat → Bool} {s : St} {pc : Pc} (h : Fit s pc) :
    Fit s (pc.onKill kd hit) ∧ ∀ x, x ∈ (pc.onKill kd hit).refs → x ∈ pc.refs := by
  have hf : ∀ p i n, Fit s (kd.fail p i n) ∧ ∀ x, x ∉ (kd.fail p i n).refs := by
    intro p i n
    cases kd <;> exact ⟨trivial, by simp [Kind.fail, Pc.refs]⟩
  cases pc with
  | rehWait p i n o j e =>
    simp only [Pc.onKill]
    split
    · exact ⟨⟨h.1, h.2.1⟩, fun x hx => hx⟩
    · exact ⟨h, fun x hx => hx⟩
  | dedWait p i n o j e =>
    simp only [Pc.onKill]
    split
    · exact ⟨(hf p i n).1, fun x hx => absurd hx ((hf p i n).2 x)⟩
    · exact ⟨h, fun x hx => hx⟩
  | lockWait p i n =>
    simp only [Pc.onKill]
    split
    · exact ⟨(hf p i n).1, fun x hx => absurd hx ((hf p i n).2 x)⟩
    · exact ⟨h, fun x hx => hx⟩
  | _ => exact ⟨h, fun x hx => hx⟩

theorem helped_fit {kd : Kind} {s : St} {p i n : Nat} (h : Fits s p n i) :
    Fit s (kd.helped p i n) ∧ (kd.helped p i n).refs = [p] := by
  cases kd <;> exact ⟨h, rfl⟩

theorem clean_fit {kd : Kind} {s : St} {p i n : Nat} (h : Fits s p n i) :
    Fit s (kd.clean p i n) ∧ (kd.clean p i n).refs = [p] := by
  cases kd with
  | point _ => exact ⟨trivial, rfl⟩
  | reader => exact ⟨h, rfl⟩
  | writer => exact ⟨h, rfl⟩

theorem next_fit {s : St} {p i n o j : Nat} {k : Back} (h : Fits s p n i) (hk : k.fits s o j) :
    Fit s (k.next p i n o j) ∧ (k.next p i n o j).refs = [p, o] := by
  cases k with
  | reh e => exact ⟨⟨h, hk⟩, rfl⟩
  | ded e => exact ⟨⟨h, hk.1, hk.2⟩, rfl⟩

theorem alloc_finv {m : Mode} {s : St} (h : Inv m s) (hF : FInv s) (hm : m.reuse = false ∨ m.help = false) {q lg : Nat}
    {l : Option Nat} (hq : s.mem q = none) (hu : s.used q = true → m.reuse = true) (hl : lg ≤ 64) :
    FInv (s.alloc q lg l) := by
  have hne : ∀ x, x ∈ s.pc.refs → x ≠ q := by
    rintro x hx rfl
    rcases hm with hm | hm
    · have := hu (hF.refs x hx)
      rw [hm] at this; cases this
    · exact refs_there h hm hx hq
  refine ⟨?_, ?_, ?_, ?_⟩
  · intro x A hA
    by_cases hx : x = q
    · subst hx
      simp [St.alloc] at hA
      rw [← hA]; exact hl
    · simp [St.alloc, hx] at hA
      exact hF.lg x A hA
  · intro x A hA
    by_cases hx : x = q
    · subst hx; simp [St.alloc]
    · simp [St.alloc, hx] at hA
      simp [St.alloc, hF.used x A hA]
  · intro x hx
    have := hF.refs x hx
    simp [St.alloc, this]
  · refine Fit.mono (pc := s.pc) hF.fit (fun x hx A' hA' => ?_)
    simp [St.alloc, hne x hx] at hA'
    exact ⟨A', hA', rfl⟩

theorem finv_step {kd : Kind} {m : Mode} {s s' : St} (hk : ∀ h, kd = .point h → h < 2 ^ 64)
    (hm : m.reuse = false ∨ m.help = false) (h : Inv m s) (hF : FInv s) (st : Step kd m s s') : FInv s' := by
  have hG := h.glob
  have hf := hF.fit
  have keep : ∀ {pc : Pc}, s.pc = pc → ∀ x, x ∈ pc.refs → x ∈ s.pc.refs ∨ s.mem x ≠ none :=
    fun e x hx => .inl (by rw [e]; exact hx)
  cases st with
  | create hc hq hu hl => exact alloc_finv h hF hm hq hu hl
  | resize hc hP hl hq hu hlg => exact alloc_finv h hF hm hq hu hlg
  | @kill p P o O j hc hP hl hO hlk =>
    have := onKill_fit (kd := kd) (hit := fun x y => x == o && y == j) hf
    exact .go hF (same_set hO rfl rfl) rfl (fun x hx => .inl (this.2 x hx)) this.1
  | @retire p P o O hc hP hl hO hd hr =>
    obtain ⟨hop, _⟩ := hG.link p P o hc hP hl
    exact .mk' (pc := s.pc) hF (same_retire hP hO (fun e => hop e.symm) rfl rfl rfl) rfl rfl (fun x hx => .inl hx) hf
  | @dropTable p P hc hP hl hlk =>
    have := onKill_fit (kd := kd) (hit := fun x _ => x == p) hf
    exact .go hF (same_set hP rfl rfl) rfl (fun x hx => .inl (this.2 x hx)) this.1
  | free hQ hr hpr => exact .mk' (pc := s.pc) hF same_free rfl rfl (fun x hx => .inl hx) hf
  | loadNone g hc => exact .go hF (Same.rfl' rfl) rfl (by simp [Pc.refs]) trivial
  | @load i prev p P g hc hP =>
    refine .go hF (Same.rfl' rfl) rfl ?_ ?_
    · intro x hx
      split at hx
      · simp [Pc.refs] at hx
        right; rw [hx, hP]; simp
      · simp [Pc.refs] at hx
    · split
      · refine ⟨by assumption, fun A hA => ?_⟩
        rw [hP] at hA; cases hA; rfl
      · trivial
  | testNone g hP hl =>
    rw [g] at hf
    have := clean_fit (kd := kd) hf
    exact .go hF (Same.rfl' rfl) rfl (by rw [this.2, g]; exact fun x hx => .inl hx) this.1
  | testSome g hP hl =>
    rw [g] at hf
    exact .go hF (Same.rfl' rfl) rfl (by rw [g]; exact fun x hx => .inl hx) hf
  | rehNone g hP hl =>
    rw [g] at hf
    have := helped_fit (kd := kd) hf
    exact .go hF (Same.rfl' rfl) rfl (by rw [this.2, g]; exact fun x hx => .inl hx) this.1
  | @rehSome p P i n o g hP hl =>
    rw [g] at hf
    have hc := hG.nolink p P o hP hl
    have ht := (CurLink.there hG ⟨hc, P, hP, hl⟩)
    refine .go hF (Same.rfl' rfl) rfl ?_ hf
    intro x hx
    simp [Pc.refs] at hx
    rcases hx with rfl | rfl
    · exact .inr ht.1
    · exact .inr ht.2
  | rehBusy g hO =>
    rw [g] at hf
    have := helped_fit (kd := kd) hf
    refine .go hF (Same.rfl' rfl) rfl ?_ this.1
    rw [this.2, g]
    intro x hx
    simp at hx
    left; simp [Pc.refs, hx]
  | @rehStart p i n o O j e g hO hr he =>
    rw [g] at hf
    refine .go hF (Same.rfl' rfl) rfl (by rw [g]; exact fun x hx => .inl hx) ⟨hf, ?_⟩
    intro O' hO'
    rw [hO] at hO'; cases hO'; exact he
  | @rehLocked p i n o O j e g hj hO hjl hd =>
    rw [g] at hf
    exact .go hF (Same.rfl' rfl) rfl (by rw [g]; exact fun x hx => .inl hx)
      ⟨hf.1, fun O' hO' => by have := hf.2 O' hO'; omega, hf.2⟩
  | rehDead g hj hO hjl hd =>
    rw [g] at hf
    exact .go hF (Same.rfl' rfl) rfl (by rw [g]; exact fun x hx => .inl hx) hf
  | rehSuspend g hj hO hjl hd hm' =>
    rw [g] at hf
    exact .go hF (same_reset rfl) rfl (by rw [g]; exact fun x hx => .inl hx) ⟨hf.1, hf.2, hj⟩
  | rehWake g hO hjl hd =>
    rw [g] at hf
    exact .go hF (Same.rfl' rfl) rfl (by rw [g]; exact fun x hx => .inl hx)
      ⟨hf.1, fun O' hO' => by have := hf.2.1 O' hO'; have := hf.2.2; omega, hf.2.1⟩
  | rehQuit g hj hO =>
    rw [g] at hf
    have := helped_fit (kd := kd) hf.1
    refine .go hF (Same.rfl' rfl) rfl ?_ this.1
    rw [this.2, g]
    intro x hx
    simp at hx
    left; simp [Pc.refs, hx]
  | @rehFinish p P i n o O j e g hj hO hP hl hd =>
    rw [g] at hf
    have hc := hG.nolink p P o hP hl
    obtain ⟨hop, _⟩ := hG.link p P o hc hP hl
    refine .go hF (same_retire hP hO (fun e => hop e.symm) rfl rfl rfl) rfl ?_ hf.1
    intro x hx
    simp [Pc.refs] at hx
    right; rw [hx, hP]; simp
  | rehGuard g =>
    rw [g] at hf
    have := helped_fit (kd := kd) hf
    exact .go hF (Same.rfl' rfl) rfl (by rw [this.2, g]; exact fun x hx => .inl hx) this.1
  | relEmpty g hO hP =>
    rw [g] at hf
    have := next_fit hf.1 hf.2.2
    exact .go hF (same_set hO rfl rfl) rfl (by rw [this.2, g]; exact fun x hx => .inl hx) this.1
  | @relRange p P i n o O j k g hO hP =>
    rw [g] at hf
    refine .go hF (Same.rfl' rfl) rfl (by rw [g]; exact fun x hx => .inl hx) ⟨hf.1, hf.2.1, hf.2.2, ?_⟩
    intro P' hP'
    rw [hP] at hP'; cases hP'
    exact (c05_range_bounds (hf.2.1 O hO)).2
  | relLocked g ht hP hj =>
    rw [g] at hf
    exact .go hF (Same.rfl' rfl) rfl (by rw [g]; exact fun x hx => .inl hx) hf
  | relSuspend g ht hP hj hm' =>
    rw [g] at hf
    exact .go hF (same_reset rfl) rfl (by rw [g]; exact fun x hx => .inl hx)
      ⟨hf.1, hf.2.1, hf.2.2.1, hf.2.2.2, ht⟩
  | relWake g hP hj =>
    rw [g] at hf
    exact .go hF (Same.rfl' rfl) rfl (by rw [g]; exact fun x hx => .inl hx)
      ⟨hf.1, hf.2.1, hf.2.2.1, hf.2.2.2.1⟩
  | relAll g ht =>
    rw [g] at hf
    exact .go hF (Same.rfl' rfl) rfl (by rw [g]; exact fun x hx => .inl hx) hf
  | relMove g hO hP hl =>
    rw [g] at hf
    have := next_fit hf.1 hf.2.2.1
    exact .go hF (same_set hO rfl rfl) rfl (by rw [this.2, g]; exact fun x hx => .inl hx) this.1
  | @arg p P i n hh g hk' hP =>
    rw [g] at hf
    refine .go hF (Same.rfl' rfl) rfl (by rw [g]; exact fun x hx => .inl hx)
      ⟨bucketIndex_lt (hF.lg p P hP) (hk hh hk'), fun A hA => ?_⟩
    rw [hP] at hA; cases hA; rfl
  | dedOther g hc =>
    refine .go hF (Same.rfl' rfl) rfl ?_ ?_
    · cases kd <;> simp [Kind.fail, Pc.refs]
    · cases kd <;> trivial
  | dedSame g hc =>
    rw [g] at hf
    exact .go hF (Same.rfl' rfl) rfl (by rw [g]; exact fun x hx => .inl hx) hf
  | dedNone g hP hl =>
    rw [g] at hf
    have := clean_fit (kd := kd) hf
    exact .go hF (Same.rfl' rfl) rfl (by rw [this.2, g]; exact fun x hx => .inl hx) this.1
  | @dedSome p P i n o g hP hl =>
    rw [g] at hf
    have hc := hG.nolink p P o hP hl
    have ht := (CurLink.there hG ⟨hc, P, hP, hl⟩)
    refine .go hF (Same.rfl' rfl) rfl ?_ hf
    intro x hx
    simp [Pc.refs] at hx
    rcases hx with rfl | rfl
    · exact .inr ht.1
    · exact .inr ht.2
  | @dedRange p P i n o O g hP hO =>
    rw [g] at hf
    have hi : i < 2 ^ P.lg := by rw [hf.2 P hP]; exact hf.1
    have := c05_range_bounds (b := O.lg) hi
    refine .go hF (Same.rfl' rfl) rfl (by rw [g]; exact fun x hx => .inl hx) ⟨hf, ?_, this.1⟩
    intro O' hO'
    rw [hO] at hO'; cases hO'
    exact this.2
  | dedLocked g hO hj hd =>
    rw [g] at hf
    exact .go hF (Same.rfl' rfl) rfl (by rw [g]; exact fun x hx => .inl hx)
      ⟨hf.1, fun O' hO' => by have := hf.2.1 O' hO'; have := hf.2.2; omega, hf.2⟩
  | dedDead g hO hj hd hg =>
    rw [g] at hf
    exact .go hF (Same.rfl' rfl) rfl (by rw [g]; exact fun x hx => .inl hx) hf
  | dedSuspend g hO hj hd hm' =>
    rw [g] at hf
    exact .go hF (same_reset rfl) rfl (by rw [g]; exact fun x hx => .inl hx) hf
  | dedWake g hO hj hd =>
    rw [g] at hf
    exact .go hF (Same.rfl' rfl) rfl (by rw [g]; exact fun x hx => .inl hx)
      ⟨hf.1, fun O' hO' => by have := hf.2.1 O' hO'; have := hf.2.2; omega, hf.2⟩
  | dedMore g hP hl hj =>
    rw [g] at hf
    exact .go hF (Same.rfl' rfl) rfl (by rw [g]; exact fun x hx => .inl hx) ⟨hf.1, hf.2.1, hj⟩
  | dedTrue g hP hl =>
    rw [g] at hf
    have := clean_fit (kd := kd) hf.1
    refine .go hF (Same.rfl' rfl) rfl ?_ this.1
    rw [this.2, g]
    intro x hx
    simp at hx
    left; simp [Pc.refs, hx]
  | @pick p P hh g hk' hP =>
    refine .go hF (Same.rfl' rfl) rfl (by rw [g]; exact fun x hx => .inl hx)
      ⟨bucketIndex_lt (hF.lg p P hP) (hk hh hk'), fun A hA => ?_⟩
    rw [hP] at hA; cases hA; rfl
  | locked g hP hi hd =>
    rw [g] at hf
    exact .go hF (Same.rfl' rfl) rfl (by rw [g]; exact fun x hx => .inl hx) hf
  | lockDead g hP hi hd =>
    refine .go hF (Same.rfl' rfl) rfl ?_ ?_
    · cases kd <;> simp [Kind.fail, Pc.refs]
    · cases kd <;> trivial
  | lockSuspend g hP hi hd hm' =>
    rw [g] at hf
    exact .go hF (same_reset rfl) rfl (by rw [g]; exact fun x hx => .inl hx) hf
  | lockWake g hP hi hd =>
    rw [g] at hf
    exact .go hF (Same.rfl' rfl) rfl (by rw [g]; exact fun x hx => .inl hx) hf
  | useDone g hP => exact .go hF (Same.rfl' rfl) rfl (by simp [Pc.refs]) trivial
  | useOther g hc hk' => exact .go hF (Same.rfl' rfl) rfl (by simp [Pc.refs]) trivial
  | @useNext p P i n g hc hP hk' =>
    rw [g] at hf
    have key : ∀ b, b = n → FInv ({ s with guard := true, lk := none }.go
        (if i + 1 < b then .test p (i + 1) n else .brk p (i + 1) n)) := by
      rintro b rfl
      refine .go hF (Same.rfl' rfl) rfl ?_ ?_
      · intro x hx
        split at hx
        · left; rw [g]; exact hx
        · simp [Pc.refs] at hx
      · split
        · exact ⟨by assumption, hf.2⟩
        · trivial
    apply key
    cases kd with
    | reader => exact hf.2 P hP
    | point _ => rfl
    | writer => rfl
  | @brk p i n l g hl =>
    refine .go hF (Same.rfl' rfl) rfl ?_ ?_
    · intro x hx
      split at hx <;> simp [Pc.refs] at hx
    · split <;> trivial
  | cancel hw => exact .go hF (same_reset rfl) rfl (by simp [Pc.refs]) trivial

theorem finv_reach {kd : Kind} {m : Mode} {i prev : Nat} {s : St} (hk : ∀ h, kd = .point h → h < 2 ^ 64)
    (hm : m.reuse = false ∨ m.help = false) (r : Reach kd m i prev s) : FInv s := by
  induction r with
  | init =>
    refine ⟨?_, ?_, ?_, trivial⟩
    · intro x A h; cases h
    · intro x A h; cases h
    · intro x hx; cases hx
  | step r st ih => exact finv_step hk hm (inv_reach r) ih st

end Scc.Async
