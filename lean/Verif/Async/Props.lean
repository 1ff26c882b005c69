import Verif.Async.Fit

/-!
# C59: what asynchronous calls access

`Safe` is the property: in every state an asynchronous call can get into, whatever it accesses next is there. It does
not hold (`Verif/Async/Witness.lean`); here is what does.
-/

namespace Scc.Async

/-- Every access of the call is to an array that is there, and to a bucket that array has. -/
def Safe (kd : Kind) (m : Mode) : Prop :=
  ∀ i prev s, Reach kd m i prev s → ∀ x, x ∈ s.pc.touches kd → s.valid x

/-- **C59 (arrays).** An asynchronous call accesses arrays that are there, except possibly in two places: `bucket_index`
as an argument of `dedup_bucket_async` after a suspension in `incremental_rehash_async`, and `len` after the inner loop
of `for_each_reader_async` after any suspension. Missing: these two, where it is wrong. -/
theorem c59_live_partial {kd : Kind} {m : Mode} {i prev : Nat} {s : St} (r : Reach kd m i prev s)
    (h1 : m.help = true → ∀ p i n, s.pc ≠ .arg p i n)
    (h2 : kd = .reader → (m.help || m.dedup || m.bucket) = true → ∀ p i n, s.pc ≠ .brk p i n)
    {x : Nat × Option Nat} (hx : x ∈ s.pc.touches kd) : s.mem x.1 ≠ none := by
  have h := inv_reach r
  have hG := h.glob
  have hp := h.pc
  generalize s.pc = pc at hp hx h1 h2
  cases pc with
  | load => simp [Pc.touches] at hx
  | test p i n => simp [Pc.touches] at hx; rw [hx]; exact hp.2.2.there
  | rehLoad p i n => simp [Pc.touches] at hx; rw [hx]; exact hp.2.2.there
  | rehStart p i n o => simp [Pc.touches] at hx; rw [hx]; exact hp.2.2.2.1.there
  | rehLock p i n o j e =>
    have := hp.2.2.1.there hG
    simp only [Pc.touches] at hx
    split at hx
    · simp at hx; rw [hx]; exact this.2
    · simp at hx
      rcases hx with rfl | rfl
      · exact this.2
      · exact this.1
  | rehWait p i n o j e => simp [Pc.touches] at hx; rw [hx]; exact (hp.2.2.1.there hG).2
  | rel p i n o j k =>
    have := hp.2.1.there hG
    simp [Pc.touches] at hx
    rcases hx with rfl | rfl
    · exact this.2
    · exact this.1
  | relTgt p i n o j t te k =>
    have := hp.2.1.there hG
    simp only [Pc.touches] at hx
    split at hx
    · simp at hx
      rcases hx with rfl | rfl
      · exact this.1
      · exact this.2
    · simp at hx
  | relWait p i n o j t te k =>
    have := hp.2.1.there hG
    simp [Pc.touches] at hx
    rcases hx with rfl | rfl
    · exact this.1
    · exact this.2
  | relMove p i n o j t te k =>
    have := hp.2.1.there hG
    simp [Pc.touches] at hx
    rcases hx with rfl | rfl
    · exact this.1
    · exact this.2
  | rehGuard => simp [Pc.touches] at hx
  | arg p i n =>
    simp [Pc.touches] at hx; rw [hx]
    cases hm : m.help with
    | false => exact (hp.2.2 hm).there
    | true => exact absurd rfl (h1 hm p i n)
  | ded => simp [Pc.touches] at hx
  | dedLoad p i n => simp [Pc.touches] at hx; rw [hx]; exact hp.2.2.there
  | dedRange p i n o =>
    simp [Pc.touches] at hx
    rcases hx with rfl | rfl
    · exact hp.2.2.1.there
    · exact hp.2.2.2.1.there
  | dedLock p i n o j e => simp [Pc.touches] at hx; rw [hx]; exact hp.2.2.2.1.there
  | dedWait p i n o j e => simp [Pc.touches] at hx; rw [hx]; exact (hp.2.2.1.there hG).2
  | dedNext p i n o j e => simp [Pc.touches] at hx; rw [hx]; exact hp.2.2.1.there
  | pick p => simp [Pc.touches] at hx; rw [hx]; exact hp.2.2.there
  | lock p i n => simp [Pc.touches] at hx; rw [hx]; exact hp.2.2.there
  | lockWait p i n => simp [Pc.touches] at hx; rw [hx]; exact hp.2.2.1.there
  | use p i n => simp [Pc.touches] at hx; rw [hx]; exact hp.2.2.there
  | brk p i n =>
    cases kd with
    | point _ => simp [Pc.touches] at hx
    | writer => simp [Pc.touches] at hx
    | reader =>
      simp [Pc.touches] at hx; rw [hx]
      cases hm : (m.help || m.dedup || m.bucket) with
      | false =>
        simp at hm
        exact (hp.2.2 hm.1.1 hm.1.2 hm.2).there
      | true => exact absurd rfl (h2 rfl hm p i n)
  | done => simp [Pc.touches] at hx

/-- **C59 (bounds).** If no address is used twice, or the call is never suspended while it helps rehashing, then no
index is beyond the end of the array at the address the call uses. Missing: the other case, where it is wrong. -/
theorem c59_bounds_partial {kd : Kind} {m : Mode} {i prev : Nat} {s : St} (hk : ∀ h, kd = .point h → h < 2 ^ 64)
    (hm : m.reuse = false ∨ m.help = false) (r : Reach kd m i prev s) {q j : Nat} (hx : (q, some j) ∈ s.pc.touches kd)
    {A : Arr} (hA : s.mem q = some A) : j < 2 ^ A.lg := by
  have hf := (finv_reach hk hm r).fit
  generalize s.pc = pc at hf hx
  cases pc with
  | rehLock p i n o j' e =>
    simp only [Pc.touches] at hx
    split at hx
    · simp at hx
      obtain ⟨rfl, rfl⟩ := hx
      have := hf.2 A hA
      omega
    · simp at hx
  | rehWait p i n o j' e =>
    simp [Pc.touches] at hx
    obtain ⟨rfl, rfl⟩ := hx
    have := hf.2.1 A hA
    have := hf.2.2
    omega
  | rel p i n o j' k =>
    simp [Pc.touches] at hx
    obtain ⟨rfl, rfl⟩ := hx
    exact hf.2.1 A hA
  | relTgt p i n o j' t te k =>
    simp only [Pc.touches] at hx
    split at hx
    · simp at hx
      rcases hx with ⟨rfl, rfl⟩ | ⟨rfl, rfl⟩
      · have := hf.2.2.2 A hA
        omega
      · exact hf.2.1 A hA
    · simp at hx
  | relWait p i n o j' t te k =>
    simp [Pc.touches] at hx
    rcases hx with ⟨rfl, rfl⟩ | ⟨rfl, rfl⟩
    · have := hf.2.2.2.1 A hA
      have := hf.2.2.2.2
      omega
    · exact hf.2.1 A hA
  | relMove p i n o j' t te k =>
    simp [Pc.touches] at hx
    obtain ⟨rfl, rfl⟩ := hx
    exact hf.2.1 A hA
  | dedLock p i n o j' e =>
    simp [Pc.touches] at hx
    obtain ⟨rfl, rfl⟩ := hx
    have := hf.2.1 A hA
    have := hf.2.2
    omega
  | dedWait p i n o j' e =>
    simp [Pc.touches] at hx
    obtain ⟨rfl, rfl⟩ := hx
    have := hf.2.1 A hA
    have := hf.2.2
    omega
  | lock p i n =>
    simp [Pc.touches] at hx
    obtain ⟨rfl, rfl⟩ := hx
    rw [hf.2 A hA]; exact hf.1
  | lockWait p i n =>
    simp [Pc.touches] at hx
    obtain ⟨rfl, rfl⟩ := hx
    rw [hf.2 A hA]; exact hf.1
  | use p i n =>
    simp [Pc.touches] at hx
    obtain ⟨rfl, rfl⟩ := hx
    rw [hf.2 A hA]; exact hf.1
  | brk p i n => cases kd <;> simp [Pc.touches] at hx
  | _ => simp [Pc.touches] at hx

theorem valid_of {kd : Kind} {m : Mode} {i prev : Nat} {s : St} (hk : ∀ h, kd = .point h → h < 2 ^ 64)
    (hm : m.reuse = false ∨ m.help = false) (r : Reach kd m i prev s)
    (h1 : m.help = true → ∀ p i n, s.pc ≠ .arg p i n)
    (h2 : kd = .reader → (m.help || m.dedup || m.bucket) = true → ∀ p i n, s.pc ≠ .brk p i n)
    {x : Nat × Option Nat} (hx : x ∈ s.pc.touches kd) : s.valid x := by
  have h := c59_live_partial r h1 h2 hx
  cases hA : s.mem x.1 with
  | none => exact absurd hA h
  | some A =>
    refine ⟨A, hA, fun j hj => ?_⟩
    obtain ⟨q, b⟩ := x
    simp only at hj
    subst hj
    exact c59_bounds_partial hk hm r hx hA

theorem no_arg {m : Mode} {kd : Kind} {i prev : Nat} {s : St} (hk : ∀ h, kd ≠ .point h) (r : Reach kd m i prev s) :
    ∀ p i n, s.pc ≠ .arg p i n := by
  have helped : ∀ p i n p' i' n', kd.helped p i n ≠ .arg p' i' n' := by
    intro p i n p' i' n' e
    cases kd with
    | point h => exact hk h rfl
    | reader => simp [Kind.helped] at e
    | writer => simp [Kind.helped] at e
  have clean : ∀ p i n p' i' n', kd.clean p i n ≠ .arg p' i' n' := by
    intro p i n p' i' n' e
    cases kd <;> simp [Kind.clean] at e
  have fail : ∀ p i n p' i' n', kd.fail p i n ≠ .arg p' i' n' := by
    intro p i n p' i' n' e
    cases kd <;> simp [Kind.fail] at e
  induction r with
  | init => intro p i n e; cases e
  | step r st ih =>
    intro p' i' n' e
    have kill : ∀ {s : St} {hit : Nat → Nat → Bool}, (∀ p i n, s.pc ≠ .arg p i n) →
        s.pc.onKill kd hit ≠ .arg p' i' n' := by
      intro s hit ih e
      cases hpc : s.pc with
      | arg p i n => exact ih p i n hpc
      | rehWait p i n o j x =>
        rw [hpc] at e
        simp only [Pc.onKill] at e
        split at e <;> simp at e
      | dedWait p i n o j x =>
        rw [hpc] at e
        simp only [Pc.onKill] at e
        split at e
        · exact fail _ _ _ _ _ _ e
        · simp at e
      | lockWait p i n =>
        rw [hpc] at e
        simp only [Pc.onKill] at e
        split at e
        · exact fail _ _ _ _ _ _ e
        · simp at e
      | _ => rw [hpc] at e; simp [Pc.onKill] at e
    cases st with
    | create => exact ih _ _ _ e
    | resize => exact ih _ _ _ e
    | kill => exact kill ih e
    | retire => exact ih _ _ _ e
    | dropTable => exact kill ih e
    | free => exact ih _ _ _ e
    | load g hc hP =>
      simp only [St.go] at e
      split at e <;> simp at e
    | testNone => exact clean _ _ _ _ _ _ e
    | rehNone => exact helped _ _ _ _ _ _ e
    | rehBusy => exact helped _ _ _ _ _ _ e
    | rehQuit => exact helped _ _ _ _ _ _ e
    | rehGuard => exact helped _ _ _ _ _ _ e
    | @relEmpty p P i n o O j k => cases k <;> simp [St.go, Back.next] at e
    | @relMove p P i n o O j t te k => cases k <;> simp [St.go, Back.next] at e
    | dedOther => exact fail _ _ _ _ _ _ e
    | dedNone => exact clean _ _ _ _ _ _ e
    | dedTrue => exact clean _ _ _ _ _ _ e
    | lockDead => exact fail _ _ _ _ _ _ e
    | @useNext p P i n g hc hP hk' =>
      have key : ∀ b, (if i + 1 < b then Pc.test p (i + 1) n else Pc.brk p (i + 1) n) ≠ .arg p' i' n' := by
        intro b
        split <;> simp
      exact key _ e
    | brk g hl =>
      simp only [St.go] at e
      split at e <;> simp at e
    | _ => cases e

/-- **C59 (calls that write every bucket).** If no address is used twice, all accesses of `for_each_writer_async` are
valid. Missing: addresses that are used again, where it is wrong. -/
theorem c59_writer_partial {m : Mode} (hm : m.reuse = false) : Safe .writer m := by
  intro i prev s r x hx
  exact valid_of (fun h e => by cases e) (.inl hm) r (fun _ => no_arg (fun h e => by cases e) r)
    (fun e => by cases e) hx

/-- **C59 (calls with a key, traversals that write).** If the call is never suspended while it helps rehashing, all
accesses are valid, even if addresses are used again and it is suspended elsewhere. Missing: suspension while helping,
where it is wrong. -/
theorem c59_point_partial {kd : Kind} {m : Mode} (hk : ∀ h, kd = .point h → h < 2 ^ 64) (hr : kd ≠ .reader)
    (hm : m.help = false) : Safe kd m := by
  intro i prev s r x hx
  exact valid_of hk (.inr hm) r (fun e => by rw [hm] at e; cases e) (fun e => absurd e hr) hx

/-- **C59 (calls that are not suspended).** All accesses are valid. Missing: suspension. -/
theorem c59_ready_partial {kd : Kind} {m : Mode} (hk : ∀ h, kd = .point h → h < 2 ^ 64)
    (h1 : m.help = false) (h2 : m.dedup = false) (h3 : m.bucket = false) : Safe kd m := by
  intro i prev s r x hx
  refine valid_of hk (.inr h1) r (fun e => by rw [h1] at e; cases e) (fun _ e => ?_) hx
  rw [h1, h2, h3] at e
  cases e

/-- **C59 (relocation).** While a relocation runs, the bucket it moves entries into has not been killed, so that
`unwrap_unchecked` is right (hash_table.rs 911-915), and the old array is still linked when it is loaded again, so that
the target buckets do not stay locked (921-923). -/
theorem c59_relocation {kd : Kind} {m : Mode} {i prev : Nat} {s : St} (r : Reach kd m i prev s) {p i' n o j t te : Nat}
    {k : Back} (h : s.pc = .relTgt p i' n o j t te k ∨ s.pc = .relWait p i' n o j t te k ∨
      s.pc = .relMove p i' n o j t te k) :
    ∃ P, s.mem p = some P ∧ P.linked = some o ∧ (∀ b, P.dead b = false) ∧ s.cur = some p := by
  have hI := inv_reach r
  have hp := hI.pc
  have hc : CurLink s p o := by
    rcases h with e | e | e <;> (rw [e] at hp; exact hp.2.1)
  obtain ⟨hc, P, hP, hl⟩ := hc
  obtain ⟨P', hP', _, hd⟩ := hI.glob.cur p hc
  rw [hP] at hP'; cases hP'
  exact ⟨P, hP, hl, hd, hc⟩

end Scc.Async
