import Verif.Gc.Steps2

/-!
# C23: retired bucket arrays are freed once, and not too early

`Sound` is the property. It holds in all executions in which no address and no array comes back to the
garbage list while a thread is between its load of `garbage_chain` and its `compare_exchange`; without
either of the two restrictions there are executions in which it fails.
-/

namespace Scc.Gc

/-! ## The specification -/

/-- A thread that starts now can get a reference to the array. -/
def St.Reachable (s : St) (i : Inst) : Prop :=
  s.root = some i ∨ ∃ x, s.root = some x ∧ s.linked x = some i

/-- No array was freed twice, and none that was freed is reachable from the container or referred to under
a guard that is still alive. -/
def St.Sound (s : St) : Prop :=
  s.freed.Nodup ∧ ∀ i, i ∈ s.freed → ¬ s.Reachable i ∧ ∀ t, s.holds t i = false

/-! ## Executions without a comeback -/

variable {same : Nat → Nat → Bool}

theorem Reach.inv (hs : Generation same) {s : St} (r : Reach same false false s) :
    ∃ st L F, Inv s st L F := by
  induction r with
  | init => exact ⟨_, _, _, Inv.init⟩
  | step r h ih =>
    obtain ⟨st, L, F, v⟩ := ih
    cases h with
    | enter t h => exact ⟨_, _, _, v.enter t h⟩
    | leave t h => exact ⟨_, _, _, v.leave t h⟩
    | advance h => exact ⟨_, _, _, v.advance h⟩
    | create t a h hr ha =>
      have w := v.alloc a (by intro x e; rw [hr] at e; cases e) ha
      rw [hr] at w
      exact ⟨_, _, _, w.see t _ h rfl⟩
    | resize t a x h hr hl ha =>
      have w := v.alloc a (by intro z e; rw [hr] at e; cases e; exact hl) ha
      rw [hr] at w
      exact ⟨_, _, _, w⟩
    | see t i h hr => exact ⟨_, _, _, v.see t i h hr⟩
    | follow t i j h hi hj => exact ⟨_, _, _, v.follow t i j hi hj⟩
    | detach t x y h hp hl hf hx =>
      exact ⟨_, _, _, v.detach t x y h hp hl (hx.elim id fun e => by simp at e)⟩
    | clear t x h hp hr hl => exact ⟨_, _, _, v.clear t x h hp hr hl⟩
    | reclaim t h hp =>
      exact ⟨_, _, _, v.pcOnly t _ h (by rw [hp]; simp) (v.fnone t (by rw [hp]; simp)) (by simp) (by simp)
        (by simp) (by rw [hp]; rfl) (by simp [Pc.aim]) (by simp)⟩
    | loadNull t k hp hc =>
      exact ⟨_, _, _, v.toAfter t k (by rw [hp]; simp) (by rw [hp]; simp) (v.fnone t (by rw [hp]; simp))
        (by rw [hp]; rfl)⟩
    | load t k h hp hc =>
      have hm : st h = .pushed := by
        rw [← v.mem]
        have := v.head; rw [hc] at this
        cases L with
        | nil => simp at this
        | cons a r => simp at this; subst this; simp
      refine ⟨_, _, _, v.pcOnly t _ (v.guarded t (by rw [hp]; simp)) (by rw [hp]; simp)
        (v.fnone t (by rw [hp]; simp)) (by simp) (by simp) (by simp) (by rw [hp]; rfl) ?_ (by simp)⟩
      intro x e
      simp only [Pc.aim, Option.some.injEq] at e; subst e
      exact ⟨.inl hm, fun i h1 h2 h3 => v.addr i h h1 h2 (by rw [hm]; simp) (by rw [hm]; simp) h3⟩
    | checkKeep t k h g hp hg hs =>
      exact ⟨_, _, _, v.toAfter t k (by rw [hp]; simp) (by rw [hp]; simp) (v.fnone t (by rw [hp]; simp))
        (by rw [hp]; rfl)⟩
    | checkGo t k h g e hp hg he hsame =>
      have hge := v.epoch t g hg
      have h3 : e + 3 ≤ g := hs e g (Nat.le_trans (v.stampLe e he) hge.2) hsame
      refine ⟨_, _, _, v.pcOnly t _ (v.guarded t (by rw [hp]; simp)) (by rw [hp]; simp)
        (v.fnone t (by rw [hp]; simp)) (by simp) (by simp) (by simp) (by rw [hp]; rfl) ?_ ?_⟩
      · intro x e
        exact v.aim t x (by rw [hp]; exact e)
      · intro k' h' _ _
        constructor
        · intro i m u
          refine Bool.eq_false_iff.2 fun q => ?_
          · exfalso
            obtain ⟨g', e1, e2⟩ := v.held u i q
            rw [(v.mem i).1 m] at e2
            simp only [reduceCtorEq, false_and, exists_false, true_and, false_or] at e2
            obtain ⟨e', q1, q2⟩ := e2
            rw [he] at q1; cases q1
            have := v.epoch u g' e1
            omega
        · intro u y p q
          obtain ⟨g', e', e1, e2, e3⟩ := v.works u (.inr ⟨y, p, q⟩)
          rw [he] at e2; cases e2
          have := v.epoch u g' e1
          omega
    | casFail t k h hp hc =>
      exact ⟨_, _, _, v.toAfter t k (by rw [hp]; simp) (by rw [hp]; simp) (v.fnone t (by rw [hp]; simp))
        (by rw [hp]; rfl)⟩
    | casOk t k h h' hp hc ha => exact ⟨_, _, _, v.take t k h h' hp hc ha⟩
    | free t k i hp => exact ⟨_, _, _, v.freeStep t k i hp⟩
    | freeDone t k hp =>
      refine ⟨_, _, _, v.toAfter t k (by rw [hp]; simp) (by rw [hp]; simp) ?_ (by rw [hp]; rfl)⟩
      have := v.fhead t k _ hp
      cases q : F t with
      | nil => rfl
      | cons a r => rw [q] at this; simp at this
    | stamp t y g hp hg => exact ⟨_, _, _, v.stampStep t y g hp hg⟩
    | swapNone t y hp hc =>
      refine ⟨_, _, _, v.push t y _ hp (.inl ⟨rfl, ?_⟩)⟩
      have := v.head; rw [hc] at this
      cases L with
      | nil => rfl
      | cons a r => simp at this
    | swap t y p hp hc =>
      exact ⟨_, _, _, v.push t y _ hp (.inr ⟨p, by rw [← v.head]; exact hc, rfl⟩)⟩
    | link t y p hp => exact ⟨_, _, _, v.linkStep t y p hp⟩

/-- **C23**, for executions in which the allocator does not hand out an address that a thread in
`dealloc_garbage` is about to compare with `garbage_chain`, and no thread finishes the "rehash" of a retired
array through a retired one. What is missing: these two restrictions; see `c23_violated_address` and
`c23_violated_again`, by which they cannot be dropped. -/
theorem c23_sound_partial (hs : Generation same) {s : St} (r : Reach same false false s) : s.Sound := by
  obtain ⟨st, L, F, v⟩ := r.inv hs
  refine ⟨v.once, fun i m => ?_⟩
  have hi := (v.freed i).1 m
  constructor
  · intro h
    have := (v.cont i).2 h
    rw [hi] at this; cases this
  · intro t
    cases q : s.holds t i with
    | false => rfl
    | true =>
      obtain ⟨g, _, e⟩ := v.held t i q
      rw [hi] at e; simp at e

/-- A thread that retires an array never touches a freed one: neither the array it links nor the one it
links it to is freed before it has finished. -/
theorem c23_retire_partial (hs : Generation same) {s : St} (r : Reach same false false s) (t : Thr) :
    (∀ y, s.pc t = .swap y ∨ s.pc t = .stamp y → y ∉ s.freed) ∧
    ∀ y p, s.pc t = .link y p → y ∉ s.freed ∧ p ∉ s.freed ∧ s.linked y ≠ some y := by
  obtain ⟨st, L, F, v⟩ := r.inv hs
  constructor
  · rintro y (h | h) <;>
    · rw [v.freed, (v.pend t y).2 (by rw [h]; rfl)]; simp
  · intro y p h
    have n := (v.link t y p h).mem
    rw [v.freed, v.freed, (v.mem y).1 n.1, (v.mem p).1 n.2]
    refine ⟨by simp, by simp, fun e => ?_⟩
    obtain ⟨a, b, q⟩ := v.linked.next e n.1
    have := v.nodup
    rw [q] at this
    have := (List.nodup_append.1 this).2.1
    simp at this

/-! ## Nothing is lost -/

/-- The arrays on a list, followed for at most `n` links. -/
def walk (lk : Inst → Option Inst) : Nat → Option Inst → List Inst
  | 0, _ => []
  | _, none => []
  | n + 1, some i => i :: walk lk n (lk i)

/-- What `Drop` frees (/repo/src/hash_index.rs 1324-1343): the array of the container, the one linked to
it (/repo/src/hash_table/bucket_array.rs 192-201), and the garbage list. -/
def St.dropped (s : St) (n : Nat) : List Inst := walk s.linked n s.root ++ walk s.linked n s.chain

theorem walk_chained {lk : Inst → Option Inst} : ∀ {l : List Inst} (n : Nat), l.length ≤ n →
    Chained lk (fun _ _ => False) l → walk lk n l.head? = l
  | [], n, _, _ => by cases n <;> rfl
  | i :: r, 0, h, _ => by simp at h
  | i :: r, n + 1, h, c => by
    show i :: walk lk n (lk i) = i :: r
    rw [c.head_link, walk_chained n (by simpa using h) c.tail]

theorem nodup_sub {l l' : List Nat} (hn : l.Nodup) (h : ∀ x, x ∈ l → x ∈ l') : l.length ≤ l'.length := by
  induction l generalizing l' with
  | nil => exact Nat.zero_le _
  | cons x l ih =>
    rw [List.nodup_cons] at hn
    have hx := h x (List.mem_cons_self ..)
    have := ih (l' := l'.erase x) hn.2 fun y hy =>
      (List.mem_erase_of_ne (fun e : y = x => hn.1 (e ▸ hy))).2 (h y (List.mem_cons_of_mem _ hy))
    rw [List.length_erase_of_mem hx] at this
    have hp := List.length_pos_of_mem hx
    rw [List.length_cons]
    omega

theorem nodup_lt {l : List Nat} {n : Nat} (hn : l.Nodup) (hl : ∀ i, i ∈ l → i < n) : l.length ≤ n := by
  have := nodup_sub (l' := List.range n) hn (fun i m => by simpa using hl i m)
  simpa using this

theorem two {x y n m : Nat} (h : x ≠ y) (hx : x < n) (hy : y < n) (hm : n ≤ m + 1) : ∃ j, m = j + 1 :=
  ⟨m - 1, by omega⟩

/-- When no thread is in the middle of a retirement or a reclamation, as when the container is dropped, the
arrays that were freed and those that `Drop` frees are all arrays that were ever allocated, each exactly
once. -/
theorem c23_drop_partial (hs : Generation same) {s : St} (r : Reach same false false s)
    (hi : ∀ t, s.pc t = .idle) (n : Nat) (hn : s.next ≤ n) :
    (s.dropped n ++ s.freed).Nodup ∧ ∀ i, i ∈ s.dropped n ++ s.freed ↔ i < s.next := by
  obtain ⟨st, L, F, v⟩ := r.inv hs
  have hF : ∀ t, F t = [] := fun t => v.fnone t (by rw [hi t]; simp)
  have lt : ∀ i, st i ≠ .fresh → i < s.next := fun i h => by
    exact Nat.lt_of_not_le (mt (v.fresh i).2 h)
  have hch : Chained s.linked (fun _ _ => False) L :=
    Chained.mono (fun _ _ => rfl) (fun x y _ ⟨t, h⟩ => by rw [hi t] at h; cases h) v.linked
  have hLlen : L.length ≤ n :=
    Nat.le_trans (nodup_lt v.nodup fun i m => lt i (by rw [(v.mem i).1 m]; simp)) hn
  have e2 : walk s.linked n s.chain = L := by rw [v.head]; exact walk_chained n hLlen hch
  obtain ⟨R, hR1, hR2, hR3⟩ : ∃ R, R.Nodup ∧ (∀ i, i ∈ R ↔ st i = .cont) ∧ walk s.linked n s.root = R := by
    cases q : s.root with
    | none =>
      refine ⟨[], .nil, fun i => ?_, by cases n <;> rfl⟩
      rw [v.cont i, q]; simp
    | some x =>
      have hx : st x = .cont := (v.cont x).2 (.inl q)
      have hx1 := lt x (by rw [hx]; simp)
      obtain ⟨m, rfl⟩ : ∃ m, n = m + 1 := ⟨n - 1, (Nat.sub_add_cancel (Nat.le_trans (Nat.succ_le_of_lt (Nat.zero_lt_of_lt hx1)) hn)).symm⟩
      cases p : s.linked x with
      | none =>
        refine ⟨[x], by simp, fun i => ?_, ?_⟩
        · rw [v.cont i, q]; simp [p, eq_comm]
        · show x :: walk s.linked m (s.linked x) = _
          rw [p]; cases m <;> rfl
      | some y =>
        obtain ⟨o1, o2⟩ := v.old x y q p
        have hy : st y = .cont := (v.cont y).2 (.inr ⟨x, q, p⟩)
        have hy1 := lt y (by rw [hy]; simp)
        obtain ⟨j, rfl⟩ : ∃ j, m = j + 1 := two o1 hx1 hy1 hn
        refine ⟨[x, y], by simp [o1], fun i => ?_, ?_⟩
        · rw [v.cont i, q]; simp [p, eq_comm]
        · show x :: walk s.linked (j + 1) (s.linked x) = _
          rw [p]
          show x :: y :: walk s.linked j (s.linked y) = _
          rw [o2]; cases j <;> rfl
  have e : s.dropped n = R ++ L := by rw [St.dropped, hR3, e2]
  rw [e]
  have key : ∀ i, i < s.next → st i = .cont ∨ st i = .pushed ∨ st i = .freed := by
    intro i h
    cases q : st i with
    | fresh => exact absurd ((v.fresh i).1 q) (Nat.not_le.2 h)
    | cont => exact .inl rfl
    | pend t =>
      have := (v.pend t i).1 q
      rw [hi t] at this; simp [Pc.pend] at this
    | pushed => exact .inr (.inl rfl)
    | taken t =>
      have := (v.fmem t i).2 q
      rw [hF t] at this; simp at this
    | freed => exact .inr (.inr rfl)
  constructor
  · rw [List.nodup_append, List.nodup_append]
    refine ⟨⟨hR1, v.nodup, ?_⟩, v.once, ?_⟩
    · rintro a ha b hb rfl
      have h1 := (hR2 a).1 ha
      have h2 := (v.mem a).1 hb
      rw [h1] at h2; cases h2
    · rintro a ha b hb rfl
      have h2 := (v.freed a).1 hb
      rcases List.mem_append.1 ha with m | m
      · have h1 := (hR2 a).1 m
        rw [h1] at h2; cases h2
      · have h1 := (v.mem a).1 m
        rw [h1] at h2; cases h2
  · intro i
    rw [List.mem_append, List.mem_append, hR2 i, v.mem i, v.freed i]
    constructor
    · rintro ((h | h) | h) <;> exact lt i (by rw [h]; simp)
    · intro h
      rcases key i h with q | q | q
      · exact .inl (.inl q)
      · exact .inl (.inr q)
      · exact .inr q

/-! ## What is old enough is freed -/

/-- Steps from one state to another. -/
inductive Path (same : Nat → Nat → Bool) (reuse redo : Bool) : St → St → Prop
  | refl (s : St) : Path same reuse redo s s
  | step {s s' s'' : St} (h : Step same reuse redo s s') (r : Path same reuse redo s' s'') :
    Path same reuse redo s s''

theorem free_all {reuse redo : Bool} (t : Thr) (k : Option Inst) : ∀ (l : List Inst) (s : St),
    l.Nodup → Chained s.linked (fun _ _ => False) l → s.pc t = .free k l.head? →
    ∃ s', Path same reuse redo s s' ∧ s'.freed = l.reverse ++ s.freed ∧ s'.chain = s.chain ∧
      s'.pc t = .after k
  | [], s, _, _, hp => ⟨_, .step (.freeDone t k hp) (.refl _), rfl, rfl, upd_same _ _ _⟩
  | i :: r, s, hn, hc, hp => by
    obtain ⟨hir, hrn⟩ := List.nodup_cons.1 hn
    have hl : s.linked i = r.head? := hc.head_link
    obtain ⟨s', p, q1, q2, q3⟩ := free_all t k r
      { s with linked := upd s.linked i none, freed := i :: s.freed,
               pc := upd s.pc t (.free k (s.linked i)) } hrn
      (Chained.mono (fun x m => upd_ne _ _ (fun q : x = i => hir (q ▸ m))) (fun _ _ _ h => h) hc.tail)
      (by show upd s.pc t _ t = _; rw [upd_same, hl])
    exact ⟨s', .step (.free t k i hp) p, by rw [q1]; simp, q2, q3⟩

/-- A thread that calls `reclaim_memory` when the last retirement was in a past generation frees all arrays
on the garbage list, if no other thread interferes. -/
theorem c23_reclaims_partial (hs : Generation same) {s : St} (r : Reach same false false s) {t : Thr}
    {g e : Nat} (hp : s.pc t = .idle) (hg : s.guard t = some g) (he : s.stamp = some e)
    (hd : same e g = false) :
    ∃ s', Path same false false s s' ∧ s'.chain = none ∧ s'.pc t = .idle ∧
      ∀ n, ∀ i, i ∈ walk s.linked n s.chain → i ∈ s'.freed := by
  obtain ⟨st, L, F, v⟩ := r.inv hs
  have hg' : s.guard t ≠ none := by rw [hg]; simp
  cases hc : s.chain with
  | none =>
    refine ⟨_, .step (.reclaim t hg' hp) (.step (.loadNull t none (upd_same _ _ _) hc) (.refl _)), hc,
      upd_same _ _ _, ?_⟩
    intro n i m
    cases n <;> simp [walk] at m
  | some h =>
    have hge := v.epoch t g hg
    have h3 : e + 3 ≤ g := hs e g (Nat.le_trans (v.stampLe e he) hge.2) hd
    have quiet : ∀ u y p, s.pc u ≠ .link y p := by
      intro u y p q
      obtain ⟨g', e', e1, e2, e3⟩ := v.works u (.inr ⟨y, p, q⟩)
      rw [he] at e2; cases e2
      have := v.epoch u g' e1
      omega
    have hch : Chained s.linked (fun _ _ => False) L :=
      Chained.mono (fun _ _ => rfl) (fun x y _ ⟨u, hu⟩ => quiet u x y hu) v.linked
    obtain ⟨s', p, q1, q2, q3⟩ := free_all (reuse := false) (redo := false) (same := same) t none L
      { s with chain := none,
               pc := upd (upd (upd (upd s.pc t (.load none)) t (.check none h)) t (.cas none h)) t
                 (.free none (some h)) }
      v.nodup hch (by show upd _ t _ t = _; rw [upd_same, ← v.head, hc])
    refine ⟨s', .step (.reclaim t hg' hp) (.step (.load t none h (upd_same _ _ _) hc)
      (.step (.checkGo t none h g e (upd_same _ _ _) hg he hd)
        (.step (.casOk t none h h (upd_same _ _ _) hc rfl) p))), q2, q3, ?_⟩
    intro n i m
    rw [← hc, v.head] at m
    have sub : ∀ n (l : List Inst), Chained s.linked (fun _ _ => False) l → i ∈ walk s.linked n l.head? → i ∈ l := by
      intro n
      induction n with
      | zero => intro l _ m; simp [walk] at m
      | succ n ih =>
        intro l hl m
        cases l with
        | nil => simp [walk] at m
        | cons a r =>
          simp only [List.head?_cons, walk, List.mem_cons] at m
          rcases m with rfl | m
          · simp
          · rw [hl.head_link] at m
            exact List.mem_cons_of_mem _ (ih r hl.tail m)
    rw [q1]
    simp [sub n L hch m]

end Scc.Gc
