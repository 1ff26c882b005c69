import Verif.Twig.Refine
import Verif.Twig.Order

/-!
# Property C62: calls on single keys of a `TreeIndex` on weakly ordered machines

The methods of `TreeIndex` are said to be linearizable. On a weakly ordered machine the calls of several threads on several
keys cannot always be put in an order. For each key they can, and what a call finds brings what was known when it was
written.
-/

namespace Scc.Twig

/-- A lookup ends. -/
theorem step_get {s : State} {t k n c x u : Nat} {r : Option Nat} (h1 : s.pc t = .ent .get k n c x) (h2 : (s.tv t).l x ≤ u)
    (h3 : u ≤ s.ln x) (h4 : (s.lw x u).has k = r) : Step s (.saw t k r)
      (s.go t .idle (((((s.tv t).join (s.lv x u)).join (s.lv x u)).seeL x u).know k (s.ver x u k))) :=
  h4 ▸ .read h1 h2 (Nat.le_refl _) h3 trivial

/-! ## Where the property fails -/

/-- Thread 0 inserts two keys and splits the leaf; then thread 1 inserts key 0, thread 2 inserts key 9, thread 1 looks for
key 9, and thread 2 looks for key 0. -/
def crossing : List Label :=
  [.tau, .tau, .tau, .set 0 1 (some 10), .tau, .tau, .tau, .set 0 5 (some 50),
   .tau, .tau, .tau, .tau, .tau, .tau, .tau, .tau,
   .tau, .tau, .tau, .set 1 0 (some 7), .tau, .tau, .tau, .set 2 9 (some 90),
   .tau, .tau, .tau, .saw 1 9 none, .tau, .tau, .tau, .saw 2 0 none]

set_option maxRecDepth 100000 in
theorem crossing_run : ∃ s, Run .init crossing s :=
  ⟨_, _, .sel (t := 0) (o := .ins 10) (k := 1) (n := 0) rfl (by decide) (by decide),
    _, .load (t := 0) (c := 0) (x := 0) rfl (by decide) (by decide) rfl,
    _, .valid (t := 0) (m := 0) rfl (by decide) (by decide) rfl,
    _, .ins (t := 0) rfl rfl rfl rfl,
    _, .sel (t := 0) (o := .ins 50) (k := 5) (n := 0) rfl (by decide) (by decide),
    _, .load (t := 0) (c := 0) (x := 0) rfl (by decide) (by decide) rfl,
    _, .valid (t := 0) (m := 0) rfl (by decide) (by decide) rfl,
    _, .ins (t := 0) rfl rfl rfl rfl,
    _, .lock (t := 0) rfl rfl,
    _, .freeze (t := 0) (i := 0) (c := 0) (x := 0) rfl (by decide) (by decide) rfl rfl,
    _, .make (t := 0) (b := 1) (d := 5) rfl (by decide) (by decide) (by decide),
    _, .resv (t := 0) rfl,
    _, .publ (t := 0) rfl,
    _, .thaw (t := 0) rfl,
    _, .swap (t := 0) rfl,
    _, .unlock (t := 0) rfl,
    _, .sel (t := 1) (o := .ins 7) (k := 0) (n := 2) rfl (by decide) (by decide),
    _, .load (t := 1) (c := 0) (x := 1) rfl (by decide) (by decide) rfl,
    _, .valid (t := 1) (m := 2) rfl (by decide) (by decide) rfl,
    _, .ins (t := 1) rfl rfl rfl rfl,
    _, .sel (t := 2) (o := .ins 90) (k := 9) (n := 2) rfl (by decide) (by decide),
    _, .load (t := 2) (c := 1) (x := 2) rfl (by decide) (by decide) rfl,
    _, .valid (t := 2) (m := 2) rfl (by decide) (by decide) rfl,
    _, .ins (t := 2) rfl rfl rfl rfl,
    _, .sel (t := 1) (o := .get) (k := 9) (n := 2) rfl (by decide) (by decide),
    _, .load (t := 1) (c := 1) (x := 2) rfl (by decide) (by decide) rfl,
    _, .valid (t := 1) (m := 2) rfl (by decide) (by decide) rfl,
    _, step_get (t := 1) (x := 2) (u := 0) rfl (by decide) (by decide) rfl,
    _, .sel (t := 2) (o := .get) (k := 0) (n := 2) rfl (by decide) (by decide),
    _, .load (t := 2) (c := 0) (x := 1) rfl (by decide) (by decide) rfl,
    _, .valid (t := 2) (m := 2) rfl (by decide) (by decide) rfl,
    _, step_get (t := 2) (x := 1) (u := 1) rfl (by decide) (by decide) rfl,
    rfl⟩

/-- **C62, negation**: two threads insert a key each and then do not find the key of the other one. There is no order in
which all calls could have been made one after the other. -/
theorem c62_order_violated : ∃ tr s, Run .init tr s ∧ ¬ Ordered tr := by
  obtain ⟨s, hs⟩ := crossing_run
  refine ⟨crossing, s, hs, ?_⟩
  rintro ⟨tr', h1, h2, h3⟩
  have h4 : ∀ l, l ∈ tr' → l ∈ [Label.set 0 1 (some 10), .set 0 5 (some 50), .set 1 0 (some 7), .set 2 9 (some 90),
      .saw 1 9 none, .saw 2 0 none] := fun l hl => h1.mem_iff.mp hl
  refine serial_cross (t := 1) (u := 2) (a := 0) (b := 9) (x := 7) (y := 90) h3 rfl rfl ?_ ?_ ?_ ?_ (h2 1) (h2 2)
  · intro t' h; have := h4 _ h; simp at this
  · intro t' h; have := h4 _ h; simp at this
  · intro t' v h; have := h4 _ h; simp at this; exact this.1
  · intro t' v h; have := h4 _ h; simp at this; exact this.1

/-! ## What holds -/

/-- **C62, partial** (in place of one order of all calls there is one for each key, and causality): all runs are those of a
map whose keys have histories. A call that changes a key acts on its newest value: an insertion succeeds only if there is
none, a removal only if there is one. A call that changes nothing finds a value that is not older than what the thread knows
of the key: by its own calls, by synchronisation, and by all that was known to those who wrote what it has found. -/
theorem c62_register_partial {tr : List Label} {s : State} (h : Run .init tr s) : Reg.Run .init tr s.reg :=
  reg_run good_init h

/-- **C62, partial**: what is found was there before. -/
theorem c62_found_partial {tr : List Label} {s : State} {t k : Nat} {x : Option Nat} (h : Run .init (tr ++ [.saw t k x]) s) :
    x ∈ hist k tr := by
  obtain ⟨r, h1, m, h2, _⟩ := Reg.Run.append.mp (c62_register_partial h)
  obtain ⟨j, _, h4, h5, _⟩ := h2.saw_inv
  rw [← h5]; exact h1.all h4

theorem last_val {tr : List Label} {r : Reg} (h : Reg.Run .init tr r) (k : Nat) :
    (hist k tr).getLast? = some (r.val k (r.n k)) := by
  have key : ∀ tr (a b : Reg), Reg.Run a tr b → (a.val k (a.n k) :: vals k tr).getLast? = some (b.val k (b.n k)) := by
    intro tr
    induction tr with
    | nil => intro a b h; cases h; rfl
    | cons e tr ih =>
      rintro a b ⟨m, h1, h2⟩
      have h3 := ih m b h2
      cases h1 with
      | @set t d v w _ _ _ _ _ =>
        by_cases e : k = d
        · subst e
          simp only [upd_self] at h3
          show (a.val k (a.n k) :: (if k = k then v :: vals k tr else vals k tr)).getLast? = _
          rw [if_pos rfl, List.getLast?_cons_cons]; exact h3
        · simp only [upd_ne _ _ e] at h3
          show (a.val k (a.n k) :: (if d = k then v :: vals k tr else vals k tr)).getLast? = _
          rw [if_neg (fun h => e h.symm)]; exact h3
      | tau => exact h3
      | saw => exact h3
      | sync => exact h3
  exact key tr .init r h

/-- **C62, partial**: insertions and removals of a key take turns; there are never two entries for one key, and no
insertion that succeeded is lost. -/
theorem c62_turns_partial {tr : List Label} {s : State} {t k : Nat} {v : Option Nat} (h : Run .init (tr ++ [.set t k v]) s) :
    v = none ↔ (hist k tr).getLast? ≠ some none := by
  obtain ⟨r, h1, m, h2, _⟩ := Reg.Run.append.mp (c62_register_partial h)
  rw [h2.set_inv.1, last_val h1 k]
  simp

/-- **C62, partial**: after its own insertion or removal a thread finds what it has written, or what was written later. -/
theorem c62_own_partial {tr tr' : List Label} {s : State} {t k : Nat} {v x : Option Nat}
    (h : Run .init (tr ++ .set t k v :: tr' ++ [.saw t k x]) s) : x ∈ v :: vals k tr' := by
  obtain ⟨r, h1, m, h2, _⟩ := Reg.Run.append.mp (c62_register_partial h)
  obtain ⟨r0, _, r1, h4, h5⟩ := Reg.Run.append.mp h1
  obtain ⟨_, _, h7, h8, _⟩ := h4.set_inv
  obtain ⟨j, h9, h10, h11, _⟩ := h2.saw_inv
  have h12 := h5.later.know t k
  rw [← h11, ← h7]
  exact h5.mem (by omega) h10

/-- **C62, partial**: the same for a thread that synchronised with the one that made the change: a key that was inserted
before is found, if nobody has removed it since. -/
theorem c62_sync_partial {tr tr' tr'' : List Label} {s : State} {t u k : Nat} {v x : Option Nat}
    (h : Run .init (tr ++ .set t k v :: (tr' ++ .sync t u :: tr'') ++ [.saw u k x]) s) : x ∈ v :: vals k (tr' ++ tr'') := by
  obtain ⟨r, h1, m, h2, _⟩ := Reg.Run.append.mp (c62_register_partial h)
  obtain ⟨r0, _, r1, h4, h5⟩ := Reg.Run.append.mp h1
  obtain ⟨r2, h6, r3, h7, h8⟩ := Reg.Run.append.mp h5
  obtain ⟨_, _, h9, h10, _⟩ := h4.set_inv
  obtain ⟨j, h11, h12, h13, _⟩ := h2.saw_inv
  have h14 := h6.later.know t k
  have h15 := h7.sync_inv k
  have h16 := h8.later.know u k
  rw [← h13, ← h9]
  have h17 := h5.mem (k := k) (j := j) (by omega) h12
  rw [vals_append] at h17 ⊢
  exact h17

/-- **C62, partial**: a thread never finds an older value of a key after a newer one. -/
theorem c62_forward_partial {tr tr' : List Label} {s : State} {t k : Nat} {x y : Option Nat}
    (h : Run .init (tr ++ .saw t k x :: tr' ++ [.saw t k y]) s) :
    ∃ i j : Nat, i ≤ j ∧ (hist k tr)[i]? = some x ∧ (hist k (tr ++ .saw t k x :: tr'))[j]? = some y := by
  have idx : ∀ tr (r : Reg), Reg.Run .init tr r → ∀ j, j ≤ r.n k → (hist k tr)[j]? = some (r.val k j) := by
    have key : ∀ tr (a b : Reg), Reg.Run a tr b → ∀ j, a.n k ≤ j → j ≤ b.n k →
        (a.val k (a.n k) :: vals k tr)[j - a.n k]? = some (b.val k j) := by
      intro tr
      induction tr with
      | nil =>
        intro a b h j h1 h2
        have h : b = a := h
        subst h
        have : j = b.n k := by omega
        subst this
        simp
      | cons e tr ih =>
        rintro a b ⟨m, h1, h2⟩ j h3 h4
        have h5 := ih m b h2 j
        have h6 := h2.later.val k
        have h7 := h1.later.val k (a.n k) (Nat.le_refl _)
        cases h1 with
        | @set t d v w _ _ _ _ _ =>
          by_cases e : k = d
          · subst e
            simp only [upd_self] at h5 h6
            show (a.val k (a.n k) :: (if k = k then v :: vals k tr else vals k tr))[j - a.n k]? = _
            rw [if_pos rfl]
            by_cases ej : j = a.n k
            · subst ej
              rw [h6 _ (Nat.le_succ _), upd_ne _ _ (by omega), Nat.sub_self]
              rfl
            · have e2 : j - a.n k = (j - (a.n k + 1)) + 1 := by omega
              rw [e2, List.getElem?_cons_succ]
              exact h5 (by omega) h4
          · simp only [upd_ne _ _ e] at h5
            show (a.val k (a.n k) :: (if d = k then v :: vals k tr else vals k tr))[j - a.n k]? = _
            rw [if_neg (fun h => e h.symm)]; exact h5 h3 h4
        | tau => exact h5 h3 h4
        | saw => exact h5 h3 h4
        | sync => exact h5 h3 h4
    intro tr r h j hj
    exact key tr .init r h j (Nat.zero_le _) hj
  obtain ⟨r, h1, m, h2, _⟩ := Reg.Run.append.mp (c62_register_partial h)
  obtain ⟨r0, h3, r1, h4, h5⟩ := Reg.Run.append.mp h1
  obtain ⟨i, _, h7, h8, _, h9⟩ := h4.saw_inv
  obtain ⟨j, h10, h11, h12, _⟩ := h2.saw_inv
  have h13 := h5.later.know t k
  refine ⟨i, j, by omega, ?_, ?_⟩
  · rw [idx tr r0 h3 i h7, h8]
  · rw [idx _ r h1 j h11, h12]

/-- **C62, partial**: messages. Thread `t` changes `a` and then `b`. Another thread finds a value of `b` that `b` did not
have before; then it finds what `t` wrote to `a`, or what was written later, without any other synchronisation. -/
theorem c62_message_partial {tr₁ tr₂ tr₃ tr₄ : List Label} {s : State} {t u a b : Nat} {va vb xb xa : Option Nat}
    (h : Run .init (tr₁ ++ .set t a va :: (tr₂ ++ .set t b vb :: (tr₃ ++ .saw u b xb :: tr₄)) ++ [.saw u a xa]) s)
    (hb : xb ∉ hist b (tr₁ ++ .set t a va :: tr₂)) :
    xa ∈ va :: vals a (tr₂ ++ .set t b vb :: (tr₃ ++ tr₄)) := by
  obtain ⟨r, h1, m, h2, _⟩ := Reg.Run.append.mp (c62_register_partial h)
  obtain ⟨r0, h3, r1, h4, h5⟩ := Reg.Run.append.mp h1
  obtain ⟨r2, h6, r3, h7, h8⟩ := Reg.Run.append.mp h5
  obtain ⟨r4, h9, r5, h10, h11⟩ := Reg.Run.append.mp h8
  obtain ⟨_, _, e1, e2, _⟩ := h4.set_inv
  obtain ⟨_, f1, _, _, f2⟩ := h7.set_inv
  obtain ⟨j, _, g2, g3, g4, _⟩ := h10.saw_inv
  obtain ⟨i, i1, i2, i3, _⟩ := h2.saw_inv
  have hrun2 : Reg.Run .init (tr₁ ++ .set t a va :: tr₂) r2 := Reg.Run.append.mpr ⟨r0, h3, r1, h4, h6⟩
  have hj : r2.n b < j := by
    refine Nat.lt_of_not_le (fun hj => hb ?_)
    have := hrun2.all hj
    rw [← h7.later.val b j hj, ← h9.later.val b j (Nat.le_trans hj (h7.later.n b)), g3] at this
    exact this
  have c4 : Reg.Chain r4 := h9.chain (h7.chain (hrun2.chain Reg.chain_init))
  have k1 : r1.n a ≤ r3.know t a := by
    rw [← e2]; exact Nat.le_trans (h6.later.know t a) (h7.later.know t a)
  have k2 : r3.know t a ≤ r4.src b j a := by
    have := c4.mono (k := b) (i := r3.n b) (j := j) (d := a) (by omega) g2
    rw [h9.later.src b _ (Nat.le_refl _), f2] at this
    exact this
  have k3 := g4 a
  have k4 := h11.later.know u a
  rw [← i3, ← e1]
  have := h5.mem (k := a) (j := i) (by omega) i2
  simp only [vals_append, vals, show ∀ a b c, (Label.saw a b c :: tr₄) = [.saw a b c] ++ tr₄ from fun _ _ _ => rfl] at this ⊢
  exact this

/-! ## Runs that the theorems speak of -/

/-- Thread 0 inserts keys 1 and 5 and splits the leaf, thread 1 finds key 5, and then key 1. -/
def telling : List Label :=
  [.tau, .tau, .tau] ++ .set 0 1 (some 10) :: ([.tau, .tau, .tau] ++ .set 0 5 (some 50) ::
    ([.tau, .tau, .tau, .tau, .tau, .tau, .tau, .tau, .tau, .tau, .tau] ++ .saw 1 5 (some 50) :: [.tau, .tau, .tau])) ++
    [.saw 1 1 (some 10)]

set_option maxRecDepth 100000 in
theorem telling_run : ∃ s, Run .init telling s :=
  ⟨_, _, .sel (t := 0) (o := .ins 10) (k := 1) (n := 0) rfl (by decide) (by decide),
    _, .load (t := 0) (c := 0) (x := 0) rfl (by decide) (by decide) rfl,
    _, .valid (t := 0) (m := 0) rfl (by decide) (by decide) rfl,
    _, .ins (t := 0) rfl rfl rfl rfl,
    _, .sel (t := 0) (o := .ins 50) (k := 5) (n := 0) rfl (by decide) (by decide),
    _, .load (t := 0) (c := 0) (x := 0) rfl (by decide) (by decide) rfl,
    _, .valid (t := 0) (m := 0) rfl (by decide) (by decide) rfl,
    _, .ins (t := 0) rfl rfl rfl rfl,
    _, .lock (t := 0) rfl rfl,
    _, .freeze (t := 0) (i := 0) (c := 0) (x := 0) rfl (by decide) (by decide) rfl rfl,
    _, .make (t := 0) (b := 1) (d := 5) rfl (by decide) (by decide) (by decide),
    _, .resv (t := 0) rfl,
    _, .publ (t := 0) rfl,
    _, .thaw (t := 0) rfl,
    _, .swap (t := 0) rfl,
    _, .unlock (t := 0) rfl,
    _, .sel (t := 1) (o := .get) (k := 5) (n := 2) rfl (by decide) (by decide),
    _, .load (t := 1) (c := 1) (x := 2) rfl (by decide) (by decide) rfl,
    _, .valid (t := 1) (m := 2) rfl (by decide) (by decide) rfl,
    _, step_get (t := 1) (x := 2) (u := 0) rfl (by decide) (by decide) rfl,
    _, .sel (t := 1) (o := .get) (k := 1) (n := 2) rfl (by decide) (by decide),
    _, .load (t := 1) (c := 0) (x := 1) rfl (by decide) (by decide) rfl,
    _, .valid (t := 1) (m := 2) rfl (by decide) (by decide) rfl,
    _, step_get (t := 1) (x := 1) (u := 1) rfl (by decide) (by decide) rfl,
    rfl⟩

/-- The hypotheses of `c62_message_partial` and `c62_found_partial` can be met … -/
example : ∃ s, Run .init telling s ∧
    some 50 ∉ hist 5 ([.tau, .tau, .tau] ++ .set 0 1 (some 10) :: [.tau, .tau, .tau]) ∧
    some 10 ∈ some 10 :: vals 1 ([.tau, .tau, .tau] ++ .set 0 5 (some 50) ::
      ([.tau, .tau, .tau, .tau, .tau, .tau, .tau, .tau, .tau, .tau, .tau] ++ [.tau, .tau, .tau])) := by
  obtain ⟨s, h⟩ := telling_run
  have hb : some 50 ∉ hist 5 ([.tau, .tau, .tau] ++ .set 0 1 (some 10) :: [.tau, .tau, .tau]) := by decide
  exact ⟨s, h, hb, c62_message_partial h hb⟩

/-- Thread 0 inserts key 1; thread 1 does not know of it and does not find it; it is told, and finds it, and so does
thread 0; then thread 0 removes it. -/
def asking : List Label :=
  [.tau, .tau, .tau] ++ .set 0 1 (some 10) :: ([.tau, .tau, .tau, .saw 1 1 none] ++ .sync 0 1 :: [.tau, .tau, .tau]) ++
    [.saw 1 1 (some 10)]

theorem asking_run : ∃ s, Run .init asking s :=
  ⟨_, _, .sel (t := 0) (o := .ins 10) (k := 1) (n := 0) rfl (by decide) (by decide),
    _, .load (t := 0) (c := 0) (x := 0) rfl (by decide) (by decide) rfl,
    _, .valid (t := 0) (m := 0) rfl (by decide) (by decide) rfl,
    _, .ins (t := 0) rfl rfl rfl rfl,
    _, .sel (t := 1) (o := .get) (k := 1) (n := 0) rfl (by decide) (by decide),
    _, .load (t := 1) (c := 0) (x := 0) rfl (by decide) (by decide) rfl,
    _, .valid (t := 1) (m := 0) rfl (by decide) (by decide) rfl,
    _, step_get (t := 1) (x := 0) (u := 0) rfl (by decide) (by decide) rfl,
    _, .sync (a := 0) (b := 1) rfl,
    _, .sel (t := 1) (o := .get) (k := 1) (n := 0) rfl (by decide) (by decide),
    _, .load (t := 1) (c := 0) (x := 0) rfl (by decide) (by decide) rfl,
    _, .valid (t := 1) (m := 0) rfl (by decide) (by decide) rfl,
    _, step_get (t := 1) (x := 0) (u := 1) rfl (by decide) (by decide) rfl,
    rfl⟩

/-- … those of `c62_sync_partial` and `c62_forward_partial` … -/
example : ∃ s, Run .init asking s ∧ some 10 ∈ some 10 :: vals 1 ([.tau, .tau, .tau, .saw 1 1 none] ++ [.tau, .tau, .tau]) := by
  obtain ⟨s, h⟩ := asking_run
  exact ⟨s, h, c62_sync_partial h⟩

example : ∃ s, Run .init (([.tau, .tau, .tau, .set 0 1 (some 10), .tau, .tau, .tau] ++ .saw 1 1 none ::
    [.sync 0 1, .tau, .tau, .tau]) ++ [.saw 1 1 (some 10)]) s := asking_run

/-- … and those of `c62_own_partial` and `c62_turns_partial`. -/
theorem turning_run : ∃ s, Run .init ([.tau, .tau, .tau] ++ .set 0 1 (some 10) :: [.tau, .tau, .tau] ++
    [.saw 0 1 (some 10)] ++ [.tau, .tau, .tau, .set 0 1 none]) s :=
  ⟨_, _, .sel (t := 0) (o := .ins 10) (k := 1) (n := 0) rfl (by decide) (by decide),
    _, .load (t := 0) (c := 0) (x := 0) rfl (by decide) (by decide) rfl,
    _, .valid (t := 0) (m := 0) rfl (by decide) (by decide) rfl,
    _, .ins (t := 0) rfl rfl rfl rfl,
    _, .sel (t := 0) (o := .get) (k := 1) (n := 0) rfl (by decide) (by decide),
    _, .load (t := 0) (c := 0) (x := 0) rfl (by decide) (by decide) rfl,
    _, .valid (t := 0) (m := 0) rfl (by decide) (by decide) rfl,
    _, step_get (t := 0) (x := 0) (u := 1) rfl (by decide) (by decide) rfl,
    _, .sel (t := 0) (o := .del) (k := 1) (n := 0) rfl (by decide) (by decide),
    _, .load (t := 0) (c := 0) (x := 0) rfl (by decide) (by decide) rfl,
    _, .valid (t := 0) (m := 0) rfl (by decide) (by decide) rfl,
    _, .del (t := 0) (r := false) (v := 10) rfl rfl rfl (fun e => by cases e),
    rfl⟩

end Scc.Twig
