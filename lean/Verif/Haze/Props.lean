import Verif.Haze.Race
import Verif.Haze.Real

/-!
# C66: calls on single keys of `HashMap` are linearizable and free of data races, also on weakly ordered machines

* `c66_linearizable`: there is an order of the calls in which all results are right and which agrees with happens-before; the entries
  in the table are what the calls leave in this order.
* `c66_exclusive`, `c66_race`: accesses to a bucket exclude each other and are ordered by happens-before.
* `c66_move`: so are those of a relocation to its targets.
* `c66_target`: a bucket that entries are moved to is not dead: `unwrap_unchecked` (hash_table.rs 974) is sound.
* `c66_array`: who uses an array has acquired it and all those before it.
* `c66_link`: the array linked to a new one is the one it replaced.
* `c66_replace`: when the pointer is replaced, it is the one the thread has found under the resize lock.
* `c66_grow`, `c66_own`: what is known stays known; a call is known to its thread when it returns.
* `c66_stale`: without any communication between the threads a call can miss one that returned before it began.
-/

namespace Scc.Haze

/-- For every execution there is an order of the calls such that every call has the result it has on the map made by those before it; no call
comes before one that happens before it. All calls that returned are in it, and besides these only calls that have taken effect and are about to return. -/
theorem c66_linearizable {ix : Nat → Nat → Nat} {s : State} (h : Reach ix s) :
    ∃ l : List Ev, Legal (fun _ => none) l ∧ (∀ x o r, s.ans x = some (o, r) → ⟨x, o, r⟩ ∈ l) ∧
      (∀ e ∈ l, s.ans e.id = some (e.op, e.res) ∨ ∃ t v, s.pc t = .rel e.id e.op v e.res) ∧
      l.Pairwise (fun e e' => e.id ≠ e'.id ∧ ¬(s.bef e.id).ops e'.id) ∧ ∀ k, after (fun _ => none) l k = s.cval k := by
  have L := lin_reach h
  have O := ord_reach h
  refine ⟨flat s.log s.n, L.legal, ?_, fun e he => ?_, O.order, L.cur⟩
  rotate_left
  · obtain ⟨v, -, hv⟩ := mem_flat.mp he
    exact real_reach h v e hv
  intro x o r hx
  obtain ⟨v, hv⟩ := O.ans x o r hx
  refine mem_flat.mpr ⟨v, ?_, hv⟩
  rcases Nat.lt_or_ge s.n v with hl | hl
  · rw [L.blank v hl] at hv; cases hv
  · exact hl

/-- Thread `t` may access the entries of bucket `b` of array `v`; to change them if the last argument is `true`. -/
inductive Acc (ix : Nat → Nat → Nat) (s : State) (t : Nat) : Nat → Nat → Bool → Prop
  | call {x : Nat} {o : Op} {v : Nat} : s.pc t = .crit x o v → Acc ix s t v (ix v o.key) (!o.ro)
  | ret {x : Nat} {o : Op} {v : Nat} {r : Option Nat} : s.pc t = .rel x o v r → Acc ix s t v (ix v o.key) (!o.ro)
  | old {v p i : Nat} : s.mp t = .mv v p i → Acc ix s t p i true
  | moved {v p i : Nat} : s.mp t = .kl v p i → Acc ix s t p i true
  | all {v b : Nat} : s.mp t = .drp v → Acc ix s t v b true

theorem Held.cases {ix : Nat → Nat → Nat} {s : State} {t v : Nat} {o : Op} (h : Held ix s t o v) :
    ((!o.ro) = true ∧ ∃ f, s.wl v (ix v o.key) = some (t, f)) ∨ ((!o.ro) = false ∧ s.sl v (ix v o.key) t = true) := by
  rcases h with ⟨hr, h⟩ | ⟨hr, h⟩
  · exact .inr ⟨by rw [hr]; rfl, h⟩
  · exact .inl ⟨by rw [hr]; rfl, false, h⟩

theorem Acc.lock {ix : Nat → Nat → Nat} {s : State} (I : Inv ix s) {t v b : Nat} {e : Bool} (h : Acc ix s t v b e) :
    (e = true ∧ ∃ f, s.wl v b = some (t, f)) ∨ (e = false ∧ s.sl v b t = true) := by
  cases h with
  | call h => have := I.pcs t; rw [h] at this; exact this.2.2.cases
  | ret h => have := I.pcs t; rw [h] at this; exact this.2.2.cases
  | old h => have := I.mps t; rw [h] at this; exact .inl ⟨rfl, true, this.2⟩
  | moved h => have := I.mps t; rw [h] at this; exact .inl ⟨rfl, true, this.2.1⟩
  | all h => have := I.mps t; rw [h] at this; exact .inl ⟨rfl, true, this.2.2.2.2.1 b⟩

/-- While a thread may change a bucket, no other may access it. -/
theorem c66_exclusive {ix : Nat → Nat → Nat} {s : State} (h : Reach ix s) {t u v b : Nat} {e : Bool} (ht : Acc ix s t v b true) (hu : Acc ix s u v b e) : u = t := by
  have I := inv_reach h
  rcases ht.lock I with ⟨_, f, h1⟩ | ⟨h1, _⟩
  · rcases hu.lock I with ⟨_, f', h2⟩ | ⟨_, h2⟩
    · rw [h1] at h2; cases h2; rfl
    · have := I.excl v b (by rw [h1]; exact fun h => by cases h) u
      rw [h2] at this; cases this
  · cases h1

/-- All changes of a bucket happen before any later access to it, all accesses to it before any later change. -/
theorem c66_race {ix : Nat → Nat → Nat} {s : State} (h : Reach ix s) {t v b : Nat} {e : Bool} (ht : Acc ix s t v b e) (x : Nat) :
    (s.wr v b x → (s.tv t).ops x) ∧ (e = true → s.rd v b x → (s.tv t).ops x) := by
  have I := inv_reach h
  have R := race_reach h
  rcases ht.lock I with ⟨_, f, h1⟩ | ⟨h0, h1⟩
  · exact ⟨fun hx => R.r3 v b t f h1 x (.inl hx), fun _ hx => R.r3 v b t f h1 x (.inr hx)⟩
  · refine ⟨R.r4 v b t h1 x, fun he => ?_⟩
    rw [h0] at he; cases he

/-- A relocation happens after all accesses to the buckets it moves entries to. -/
theorem c66_move {ix : Nat → Nat → Nat} {s : State} (h : Reach ix s) {t v p i b x : Nat}
    (hw : ∀ b, Target ix v p i b → s.wl v b = none ∧ ∀ u, s.sl v b u = false) (hb : Target ix v p i b) (hx : s.wr v b x ∨ s.rd v b x) :
    ((s.move ix t v p i).tv t).ops x := by
  have R := race_reach h
  show (upd s.tv t _ t).ops x
  rw [upd_eq]
  refine .inl (.inr ⟨b, hb, ?_⟩)
  rcases hx with hx | hx
  · exact R.r1 v b (hw b hb).1 x hx
  · rcases R.r2 v b x hx with g | ⟨u, g, _⟩
    · exact g
    · rw [(hw b hb).2 u] at g; cases g

/-- A bucket that entries are moved to is not dead. -/
theorem c66_target {ix : Nat → Nat → Nat} {s : State} (h : Reach ix s) {t v p i b : Nat} (hm : s.mp t = .mv v p i) (hb : Target ix v p i b) : s.dead v b = false := by
  have I := inv_reach h
  obtain ⟨k, hk, _⟩ := hb
  have hp := I.mps t; rw [hm] at hp
  have hv : v = s.n := mv_where I hp.1 (hk ▸ hp.2) (by rw [hm]; exact fun h => by cases h)
  cases hd : s.dead v b with
  | false => rfl
  | true => have := (I.dead v b hd).2.2.2; omega

/-- Thread `t` uses array `v`. -/
inductive Uses (s : State) (t : Nat) : Nat → Prop
  | at {x : Nat} {o : Op} {v : Nat} : s.pc t = .at x o v → Uses s t v
  | rdy {x : Nat} {o : Op} {v : Nat} : s.pc t = .rdy x o v → Uses s t v
  | crit {x : Nat} {o : Op} {v : Nat} : s.pc t = .crit x o v → Uses s t v
  | rel {x : Nat} {o : Op} {v : Nat} {r : Option Nat} : s.pc t = .rel x o v r → Uses s t v
  | next {v : Nat} : mpv (s.mp t) = some v → Uses s t v
  | link {v p : Nat} : Uses s t v → s.prev v = some p → Uses s t p

/-- Who uses an array has acquired the pointer to it, and so all that was released with it: the array is initialised. -/
theorem c66_array {ix : Nat → Nat → Nat} {s : State} (h : Reach ix s) {t v : Nat} (hu : Uses s t v) : (s.tv t).ver v := by
  have O := ord_reach h
  have I := inv_reach h
  have hq := O.pcv t
  induction hu with
  | «at» g => rw [g] at hq; exact hq.2.1
  | rdy g => rw [g] at hq; exact hq.2.1
  | crit g => rw [g] at hq; exact hq.2.1
  | rel g => rw [g] at hq; exact hq.1
  | next g => exact O.kn t _ g
  | link _ hp ih => exact (O.cls.tv t).down _ ih _ (by have := (I.link _ _ hp).1; omega)

/-- The array linked to a new one is the one it replaced. -/
theorem c66_link {ix : Nat → Nat → Nat} {s : State} (h : Reach ix s) {v p : Nat} (hp : s.prev v = some p) : v = p + 1 ∧ s.isA p = true := by
  have := (inv_reach h).link v p hp
  exact ⟨this.1, this.2.1⟩

/-- The pointer is replaced only if it is the array whose link was found to be null. -/
theorem c66_replace {ix : Nat → Nat → Nat} {s : State} (h : Reach ix s) {t v : Nat} (hm : s.mp t = .swp v ∨ s.mp t = .drp v) :
    v = s.n ∧ (s.prev v = none ∨ s.unl v = true) := by
  have hp := (inv_reach h).mps t
  rcases hm with hm | hm
  · rw [hm] at hp; exact ⟨hp.2.2.2.1, hp.2.1⟩
  · rw [hm] at hp; exact ⟨hp.2.2.2.1, hp.2.1⟩

theorem ite_ops {b : Bool} {V W : View} {x : Nat} (h : V.ops x) (h' : W.ops x) : (if b then V else W).ops x := by
  cases b
  · exact h'
  · exact h

/-- What happens before the next step of a thread happens before all its later steps. -/
theorem c66_grow {ix : Nat → Nat → Nat} {s s' : State} (st : Step ix s s') (t x : Nat) (h : (s.tv t).ops x) : (s'.tv t).ops x := by
  cases st with
  | call o g => exact h
  | send => exact h
  | recv g => refine ops_upd (s := s) ?_ t x h; exact fun _ h => .inl h
  | load g ok ha => refine ops_upd (s := s) ?_ t x h; exact fun _ h => .inl h
  | null g ok ha hm => refine ops_upd (s := s) ?_ t x h; exact fun _ h => .inl (.inl h)
  | loadNull g ok ha hm => refine ops_upd (s := s) ?_ t x h; exact fun _ h => .inl h
  | make g ha => refine ops_upd (s := s) ?_ t x h; exact fun _ h => .inl h
  | found g ok ha => refine ops_upd (s := s) ?_ t x h; exact fun _ h => .inl h
  | direct g hp => refine ops_upd (s := s) ?_ t x h; exact fun _ h => h
  | past g hu => refine ops_upd (s := s) ?_ t x h; exact fun _ h => .inl h
  | moved l g hp hd => refine ops_upd (s := s) ?_ t x h; exact fun _ h => ite_ops (.inl h) h
  | lock g hr hd hw hs => refine ops_upd (s := s) ?_ t x h; exact fun _ h => .inl h
  | share g hr hd hw => refine ops_upd (s := s) ?_ t x h; exact fun _ h => .inl h
  | retry l g hd => refine ops_upd (s := s) ?_ t x h; exact fun _ h => ite_ops (.inl h) h
  | act g => refine ops_upd (s := s) ?_ t x h; exact fun _ h => .inl h
  | unlock g hr => refine ops_upd (s := s) ?_ t x h; exact fun _ h => h
  | unshare g hr => refine ops_upd (s := s) ?_ t x h; exact fun _ h => h
  | take g ok ha => refine ops_upd (s := s) ?_ t x h; exact fun _ h => .inl h
  | leave g => refine ops_upd (s := s) ?_ t x h; exact fun _ h => h
  | pick i g hp hd hw hs => refine ops_upd (s := s) ?_ t x h; exact fun _ h => .inl h
  | move g hw => refine ops_upd (s := s) ?_ t x h; exact fun _ h => .inl (.inl h)
  | giveUp g => refine ops_upd (s := s) ?_ t x h; exact fun _ h => h
  | kill g => refine ops_upd (s := s) ?_ t x h; exact fun _ h => h
  | unlink g hp hd => exact h
  | check g ok hl => refine ops_upd (s := s) ?_ t x h; exact fun _ h => ite_ops (.inl (.inl h)) (.inl h)
  | resize g hr => refine ops_upd (s := s) ?_ t x h; exact fun _ h => .inl h
  | busy g => refine ops_upd (s := s) ?_ t x h; exact fun _ h => h
  | same g ok => refine ops_upd (s := s) ?_ t x h; exact fun _ h => .inl h
  | other g ok hm => refine ops_upd (s := s) ?_ t x h; exact fun _ h => .inl h
  | skip g => refine ops_upd (s := s) ?_ t x h; exact fun _ h => h
  | grow g ok => refine ops_upd (s := s) ?_ t x h; exact fun _ h => h
  | lockAll g hd hw hs he => refine ops_upd (s := s) ?_ t x h; exact fun _ h => .inl h
  | clear g => refine ops_upd (s := s) ?_ t x h; exact fun _ h => h
  | killAll g => refine ops_upd (s := s) ?_ t x h; exact fun _ h => h
  | done g => refine ops_upd (s := s) ?_ t x h; exact fun _ h => h

/-- When a call returns, it is known to its thread, which is idle then. With `c66_grow`: the calls of a thread are ordered as it makes them. -/
theorem c66_own {ix : Nat → Nat → Nat} {s s' : State} (h : Reach ix s) (st : Step ix s s') {x : Nat} (h0 : s.ans x = none) (h1 : s'.ans x ≠ none) :
    ∃ t, s'.pc t = .idle ∧ (s'.tv t).ops x := by
  have O := ord_reach h
  have key : ∀ (t y : Nat) (a : Op × Option Nat) (V : View) (f : Nat → Option (Op × Option Nat)), f = upd s.ans y (some a) → f x ≠ none → (V.ops y) → upd s.pc t .idle t = .idle ∧ (upd s.tv t V t).ops x := by
    intro t y a V f hf hx hV
    rw [upd_eq, upd_eq]
    refine ⟨rfl, ?_⟩
    by_cases e : x = y
    · rw [e]; exact hV
    · rw [hf, upd_ne _ _ e] at hx; exact absurd h0 hx
  cases st with
  | @null t y o m g ok ha hm => exact ⟨t, key t y _ _ _ rfl h1 (.inr rfl)⟩
  | @unlock t y o v r g hr =>
    have := O.pcv t; rw [g] at this
    exact ⟨t, key t y _ _ _ rfl h1 this.2.1⟩
  | @unshare t y o v r g hr =>
    have := O.pcv t; rw [g] at this
    exact ⟨t, key t y _ _ _ rfl h1 this.2.1⟩
  | _ => exact absurd h0 h1

/-! ## Executions -/

/-- Steps of any threads. -/
inductive Run (ix : Nat → Nat → Nat) : State → State → Prop
  | refl (s : State) : Run ix s s
  | step {s s' s'' : State} : Run ix s s' → Step ix s' s'' → Run ix s s''

theorem Run.of {ix : Nat → Nat → Nat} {s : State} (_ : Reach ix s) : Run ix s s := .refl s

/-- `insert(1, 10)`; `read(&1)`. -/
def ins : Op := ⟨1, true, false, fun x => (some (x.getD 10), x), fun h => (by cases h), fun h => (by cases h)⟩
def get : Op := ⟨1, false, true, fun x => (x, x), fun _ => rfl, fun _ _ => rfl⟩
def ix0 : Nat → Nat → Nat := fun _ k => k

/-- Without communication, a call on another thread can see the null pointer from before and miss an entry whose insertion returned before the call
began: results agree with happens-before, not with the time on a clock. -/
theorem c66_stale : ∃ s s', Reach ix0 s ∧ s.ans 0 = some (ins, none) ∧ s.nid = 1 ∧ Run ix0 s s' ∧ s'.ans 1 = some (get, none) ∧ ¬(s'.bef 1).ops 0 := by
  have h := Reach.init (ix := ix0)
  have h := h.step (.call (t := 0) ins rfl)
  have h := h.step (.loadNull (t := 0) (m := 0) rfl ⟨Nat.le_refl _, fun _ h => (by cases h; exact Nat.le_refl _)⟩ rfl rfl)
  have h := h.step (.make (t := 0) rfl rfl)
  have h := h.step (.direct (t := 0) rfl rfl)
  have h := h.step (.lock (t := 0) rfl rfl rfl rfl (fun _ => rfl))
  have h := h.step (.act (t := 0) rfl)
  have h := h.step (.unlock (t := 0) rfl rfl)
  have r := Run.of h
  have r := r.step (.call (t := 1) get rfl)
  have r := r.step (.null (t := 1) (m := 0) rfl ⟨Nat.zero_le _, fun _ h => (by cases h; exact Nat.le_refl _)⟩ rfl rfl)
  exact ⟨_, _, h, rfl, rfl, r, rfl, fun h => h⟩

theorem ok_last {ix : Nat → Nat → Nat} {s : State} (h : Reach ix s) (t : Nat) : Ok s t s.n := ⟨Nat.le_refl _, ((ord_reach h).cls.tv t).le⟩

/-- The insertion, then thread 1 resizes the table and has locked the bucket of the key. -/
theorem run_pick : ∃ s, Reach ix0 s ∧ s.ans 0 = some (ins, none) ∧ s.ans 1 = none ∧ s.n = 2 ∧ s.isA 2 = true ∧ s.prev 2 = some 1 ∧ s.mp 1 = .mv 2 1 1 ∧ s.pc 1 = .at 1 get 2 ∧ s.pc 2 = .idle ∧
    s.wr 1 1 0 ∧ s.wl 2 1 = none ∧ (∀ u, s.sl 2 1 u = false) ∧ s.nid = 2 ∧ s.dead 2 1 = false ∧ s.val 1 1 = some 10 ∧ s.val 2 1 = none ∧ s.tv 2 = View.start ∧ s.isA 1 = true ∧ s.prev 1 = none := by
  have h := Reach.init (ix := ix0)
  have h := h.step (.call (t := 0) ins rfl)
  have h := h.step (.loadNull (t := 0) (m := 0) rfl (ok_last h 0) rfl rfl)
  have h := h.step (.make (t := 0) rfl rfl)
  have h := h.step (.direct (t := 0) rfl rfl)
  have h := h.step (.lock (t := 0) rfl rfl rfl rfl (fun _ => rfl))
  have h := h.step (.act (t := 0) rfl)
  have h := h.step (.unlock (t := 0) rfl rfl)
  have h := h.step (.take (t := 1) (m := 1) rfl (ok_last h 1) rfl)
  have h := h.step (.check (t := 1) (v := 1) rfl (ok_last h 1) (.inl rfl))
  have h := h.step (.resize (t := 1) rfl rfl)
  have h := h.step (.same (t := 1) (v := 1) rfl (ok_last h 1))
  have h := h.step (.grow (t := 1) (m := 1) rfl (ok_last h 1))
  have h := h.step (.done (t := 1) rfl)
  have h := h.step (.call (t := 1) get rfl)
  have h := h.step (.load (t := 1) (m := 2) rfl (ok_last h 1) rfl)
  have h := h.step (.take (t := 1) (m := 2) rfl (ok_last h 1) rfl)
  have h := h.step (.pick (t := 1) 1 rfl rfl rfl rfl (fun _ => rfl))
  exact ⟨_, h, rfl, rfl, rfl, rfl, rfl, rfl, rfl, rfl, .inr ⟨rfl, rfl, rfl, rfl⟩, rfl, fun _ => rfl, rfl, rfl, rfl, rfl, rfl, rfl, rfl⟩

/-- The state of `c66_target`, `c66_move`, `c66_link`, and an access of `c66_race` that has something to know. -/
example : ∃ s, Reach ix0 s ∧ s.mp 1 = .mv 2 1 1 ∧ Target ix0 2 1 1 1 ∧ (∀ b, Target ix0 2 1 1 b → s.wl 2 b = none ∧ ∀ u, s.sl 2 b u = false) ∧
    Acc ix0 s 1 1 1 true ∧ s.wr 1 1 0 ∧ s.prev 2 = some 1 ∧ Uses s 1 1 := by
  obtain ⟨s, h, _, _, _, _, h6, h7, h8, _, h9, h10, h11, _⟩ := run_pick
  refine ⟨s, h, h7, ⟨1, rfl, rfl⟩, ?_, .old h7, h9, h6, .link (.at h8) h6⟩
  rintro b ⟨k, hk, rfl⟩
  have : k = 1 := hk
  subst this
  exact ⟨h10, h11⟩

/-- Then the entry is moved, the call finds it in the new array; thread 2 loads the old array, finds the bucket dead and begins anew. -/
theorem run_read : ∃ s, Reach ix0 s ∧ s.ans 0 = some (ins, none) ∧ s.ans 1 = some (get, some 10) ∧ s.ans 3 = some (get, some 10) ∧ s.n = 2 := by
  have h := Reach.init (ix := ix0)
  have h := h.step (.call (t := 0) ins rfl)
  have h := h.step (.loadNull (t := 0) (m := 0) rfl (ok_last h 0) rfl rfl)
  have h := h.step (.make (t := 0) rfl rfl)
  have h := h.step (.direct (t := 0) rfl rfl)
  have h := h.step (.lock (t := 0) rfl rfl rfl rfl (fun _ => rfl))
  have h := h.step (.act (t := 0) rfl)
  have h := h.step (.unlock (t := 0) rfl rfl)
  have h := h.step (.take (t := 1) (m := 1) rfl (ok_last h 1) rfl)
  have h := h.step (.check (t := 1) (v := 1) rfl (ok_last h 1) (.inl rfl))
  have h := h.step (.resize (t := 1) rfl rfl)
  have h := h.step (.same (t := 1) (v := 1) rfl (ok_last h 1))
  have h := h.step (.grow (t := 1) (m := 1) rfl (ok_last h 1))
  have h := h.step (.done (t := 1) rfl)
  have h := h.step (.call (t := 1) get rfl)
  have h := h.step (.load (t := 1) (m := 2) rfl (ok_last h 1) rfl)
  have h := h.step (.take (t := 1) (m := 2) rfl (ok_last h 1) rfl)
  have h := h.step (.pick (t := 1) 1 rfl rfl rfl rfl (fun _ => rfl))
  have h := h.step (.move (t := 1) rfl (by rintro b ⟨k, hk, rfl⟩; have : k = 1 := hk; subst this; exact ⟨rfl, fun _ => rfl⟩))
  have h := h.step (.kill (t := 1) (v := 2) (p := 1) (i := 1) (.inl rfl))
  have h := h.step (.moved (t := 1) true rfl rfl rfl)
  have h := h.step (.share (t := 1) rfl rfl rfl rfl)
  have h := h.step (.act (t := 1) rfl)
  have h := h.step (.unshare (t := 1) rfl rfl)
  have h := h.step (.call (t := 2) get rfl)
  have h := h.step (.load (t := 2) (m := 1) rfl ⟨by decide, fun w hw => (by have hw : w = 0 := hw; omega)⟩ rfl)
  have h := h.step (.direct (t := 2) rfl rfl)
  have h := h.step (.retry (t := 2) false rfl rfl)
  have h := h.step (.load (t := 2) (m := 2) rfl (ok_last h 2) rfl)
  have h := h.step (.moved (t := 2) false rfl rfl rfl)
  have h := h.step (.share (t := 2) rfl rfl rfl rfl)
  have h := h.step (.act (t := 2) rfl)
  have h := h.step (.unshare (t := 2) rfl rfl)
  exact ⟨_, h, rfl, rfl, rfl, rfl⟩

/-- `entry(1)`, without inserting. -/
def ent : Op := ⟨1, true, false, fun x => (x, x), fun h => (by cases h), fun h => (by cases h)⟩

/-- The table is empty: thread 1 locks all buckets to drop it, the states of `c66_replace`. -/
theorem run_drop : (∃ s, Reach ix0 s ∧ s.mp 1 = .swp 1 ∧ s.n = 1) ∧ (∃ s, Reach ix0 s ∧ s.mp 1 = .drp 1) ∧
    ∃ s, Reach ix0 s ∧ s.n = 2 ∧ s.isA 2 = false ∧ s.dead 1 7 = true ∧ s.rs = none := by
  have h := Reach.init (ix := ix0)
  have h := h.step (.call (t := 0) ent rfl)
  have h := h.step (.loadNull (t := 0) (m := 0) rfl (ok_last h 0) rfl rfl)
  have h := h.step (.make (t := 0) rfl rfl)
  have h := h.step (.direct (t := 0) rfl rfl)
  have h := h.step (.lock (t := 0) rfl rfl rfl rfl (fun _ => rfl))
  have h := h.step (.act (t := 0) rfl)
  have h := h.step (.unlock (t := 0) rfl rfl)
  have h := h.step (.take (t := 1) (m := 1) rfl (ok_last h 1) rfl)
  have h := h.step (.check (t := 1) (v := 1) rfl (ok_last h 1) (.inl rfl))
  have h := h.step (.resize (t := 1) rfl rfl)
  have h := h.step (.same (t := 1) (v := 1) rfl (ok_last h 1))
  have h1 := h
  have hw : ∀ b : Nat, (if (1 : Nat) = 1 ∧ b = 1 then none else if (1 : Nat) = 1 ∧ b = 1 then some (0, false) else none : Option (Nat × Bool)) = none := by
    intro b; by_cases e : b = 1 <;> simp [e]
  have hv : ∀ k : Nat, (if (1 : Nat) = 1 ∧ k = 1 then none else none : Option Nat) = none := by
    intro k; by_cases e : k = 1 <;> simp [e]
  have h := h.step (.lockAll (t := 1) (v := 1) rfl (fun _ => rfl) hw (fun _ _ => rfl) hv)
  have h2 := h
  have h := h.step (.clear (t := 1) rfl)
  have h := h.step (.killAll (t := 1) rfl)
  have h := h.step (.done (t := 1) rfl)
  exact ⟨⟨_, h1, rfl, rfl⟩, ⟨_, h2, rfl⟩, _, h, rfl, rfl, rfl, rfl⟩

/-- The states of `c66_exclusive`, `c66_own` and `c66_array`: the insertion has the lock, then it is about to return. -/
example : (∃ s, Reach ix0 s ∧ Acc ix0 s 0 1 1 true ∧ Uses s 0 1) ∧ ∃ s s', Reach ix0 s ∧ Step ix0 s s' ∧ s.ans 0 = none ∧ s'.ans 0 ≠ none := by
  have h := Reach.init (ix := ix0)
  have h := h.step (.call (t := 0) ins rfl)
  have h := h.step (.loadNull (t := 0) (m := 0) rfl (ok_last h 0) rfl rfl)
  have h := h.step (.make (t := 0) rfl rfl)
  have h := h.step (.direct (t := 0) rfl rfl)
  have h := h.step (.lock (t := 0) rfl rfl rfl rfl (fun _ => rfl))
  have h1 := h
  have h := h.step (.act (t := 0) rfl)
  exact ⟨⟨_, h1, .call (t := 0) (x := 0) (o := ins) (v := 1) rfl, .crit (x := 0) (o := ins) rfl⟩, _, _, h, .unlock (t := 0) rfl rfl, rfl, fun h => by cases h⟩

end Scc.Haze
