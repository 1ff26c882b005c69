import Verif.Grove.Changes

/-!
# Calls of `insert`, `remove_if` and `peek` in any execution
-/

namespace Scc.Grove

local notation "Key" => Nat
local notation "Id" => Nat
local notation "Thr" => Nat

variable {V : Type} {m m' : Mem V} {A A' : Key → Option V} {src src' : Ref → Ref} {H H' : Option V → Prop} {k : Key}

/-! ## What a thread finds -/

theorem Good.lt (I : Inv m A src) {n : Id} (h : Good m H k (.node n)) : n < m.nN := by
  cases h with
  | on h => exact I.on_al h
  | ret ha _ _ => exact ha
  | step h _ _ => exact I.shape.dead_al _ h
  | stop h _ _ => exact I.shape.dead_al _ h

theorem Good.child {n : Id} {y : Ref} (I : Inv m A src) (h : Good m H k (.node n)) (hd : (m.node n).dest k = .to y) : Good m H k y := by
  cases h with
  | on h => exact .on (.step h hd)
  | ret _ h _ =>
    rw [(I.retired_end h).2] at hd; cases hd
  | step _ hd' hy =>
    rw [hd] at hd'
    cases hd'; exact hy
  | stop _ hd' _ => exact absurd hd (hd' y)

/-- The value that a thread finds in a leaf was the value of the key. -/
theorem Good.val (I : Inv m A src) {l : Id} (hA : H (A k)) (h : Good m H k (.leaf l)) : H ((m.leaf l).get k) := by
  cases h with
  | on h => rw [I.mean.leaf k l h]; exact hA
  | leaf _ hh => exact hh
  | ret _ h hh =>
    have := I.dead.empty l h
    simp only [Leaf.get, this]
    exact hh

/-- A node without children. -/
theorem Good.none (I : Inv m A src) {n : Id} (hA : H (A k)) (h : Good m H k (.node n))
    (hc : (m.node n).cell 0 = .null ∨ (m.node n).cell 0 = .ret) : H none := by
  have hd : ∀ y, (m.node n).dest k ≠ .to y := by
    have hk : (m.node n).kids = [] := by
      cases hk : (m.node n).kids with
      | nil => rfl
      | cons a b =>
        obtain ⟨y, hy⟩ := I.shape.unb n (by simp [hk])
        rcases hc with hc | hc <;> rw [hc] at hy <;> cases hy
    intro y
    simp only [Node.dest, hk, route_nil]
    rcases hc with hc | hc <;> rw [hc] <;> simp
  cases h with
  | on h => rw [I.mean.null k n h hd] at hA; exact hA
  | ret _ _ hh => exact hh
  | step _ hd' _ => exact absurd hd' (hd _)
  | stop _ _ hh => exact hh

theorem Good.on_null (I : Inv m A src) {n : Id} (h : Good m H k (.node n)) (hc : (m.node n).cell 0 = .null) :
    On m.root m.node k (.node n) := by
  cases h with
  | on h => exact h
  | ret _ h _ =>
    simp only [Retired, hc] at h; cases h
  | step h _ _ => exact absurd hc (I.dead.null n h)
  | stop h _ _ => exact absurd hc (I.dead.null n h)

theorem Good.on_leaf (I : Inv m A src) {l : Id} (h : Good m H k (.leaf l)) (hf : m.frozen l = false)
    (hr : (m.leaf l).retired = false) : On m.root m.node k (.leaf l) := by
  cases h with
  | on h => exact h
  | ret _ h _ =>
    simp only [Retired, hr] at h; cases h
  | leaf h _ =>
    rw [I.dead.frozen l h] at hf; cases hf

theorem Good.lock (I : Inv m A src) {n : Id} (h : Good m H k (.node n)) (hp : m.phase n = .free) :
    Lit m.root m.node (.node n) ∨ (m.node n).cell 0 = .ret := by
  have live : m.dead (.node n) = true → False := by
    intro hd
    have := I.dead.over n hd
    rw [hp] at this; cases this
  cases h with
  | on h => exact .inl ⟨k, h⟩
  | ret _ h _ => exact .inr h
  | step h _ _ => exact (live h).elim
  | stop h _ _ => exact (live h).elim

/-! ## The invariant of threads -/

/-- What holds at the places of a call. -/
def PcOk (m : Mem V) (H : Option V → Prop) (eff : Nat) (k : Key) (o : Op V) : Pc V → Prop
  | .idle => True
  | .top => True
  | .at n => Good m H k (.node n)
  | .sel n i ver => Good m H k (.node n) ∧ ver ≤ m.ver n ∧ (m.ver n = ver → route (m.node n).kids k = i)
  | .got n ver r => Good m H k (.node n) ∧ ver ≤ m.ver n ∧ (m.ver n = ver → Good m H k r)
  | .inLeaf l => Good m H k (.leaf l)
  | .clean => (∃ c, o = .remove c) ∧ 1 ≤ eff
  | .out a => o.may a H eff

/-- Has the operation on the leaf not been done yet? -/
def Pc.inside : Pc V → Bool
  | .idle => false
  | .clean => false
  | .out _ => false
  | _ => true

structure ThOk (m : Mem V) (A : Key → Option V) (H : Option V → Prop) (cur : Option (Key × Op V)) (eff : Nat) (T : Th V) :
    Prop where
  idle : T.pc = .idle → cur = none
  cur : T.pc ≠ .idle → cur = some (T.key, T.op)
  now : T.pc ≠ .idle → H (A T.key)
  vis : T.pc ≠ .idle → ∀ n ∈ T.vis, Good m H T.key (.node n)
  pc : PcOk m H eff T.key T.op T.pc
  eff : T.pc.inside = true → if T.rm then (∃ c, T.op = .remove c) ∧ 1 ≤ eff else eff = 0

theorem Op.may_mono {o : Op V} {a : Ans V} {eff : Nat} (hH : ∀ x, H x → H' x) (h : o.may a H eff) : o.may a H' eff := by
  unfold Op.may at h ⊢
  split at h
  · exact ⟨h.1, hH _ h.2⟩
  · exact h
  · obtain ⟨h1, w, h2⟩ := h
    exact ⟨h1, w, hH _ h2⟩
  · exact h
  · refine ⟨h.1, h.2.imp (hH _) ?_⟩
    rintro ⟨w, h1, h2⟩
    exact ⟨w, hH _ h1, h2⟩
  · exact h

theorem ThOk.evo {cur : Option (Key × Op V)} {eff : Nat} {T : Th V} (P : ThOk m A H cur eff T) (I : Inv m A src) (E : Evo m m' A)
    (W : Vers m m') (hH : ∀ o, H o → H' o) (hA : T.pc ≠ .idle → H' (A' T.key)) : ThOk m' A' H' cur eff T := by
  have good : T.pc ≠ .idle → ∀ x, Good m H T.key x → Good m' H' T.key x :=
    fun h x => Good.evo I E hH (hH _ (P.now h))
  refine ⟨P.idle, P.cur, hA, fun h n hn => good h _ (P.vis h n hn), ?_, P.eff⟩
  have h := P.pc
  cases hp : T.pc with
  | idle => trivial
  | top => trivial
  | «at» n =>
    rw [hp] at h
    exact good (by simp [hp]) _ h
  | sel n i ver =>
    rw [hp] at h
    obtain ⟨h1, h2, h3⟩ := h
    obtain ⟨w1, w2⟩ := W n (h1.lt I)
    exact ⟨good (by simp [hp]) _ h1, Nat.le_trans h2 w1, fun e => by rw [w2 (by omega)]; exact h3 (by omega)⟩
  | got n ver r =>
    rw [hp] at h
    obtain ⟨h1, h2, h3⟩ := h
    obtain ⟨w1, w2⟩ := W n (h1.lt I)
    exact ⟨good (by simp [hp]) _ h1, Nat.le_trans h2 w1, fun e => good (by simp [hp]) _ (h3 (by omega))⟩
  | inLeaf l =>
    rw [hp] at h
    exact good (by simp [hp]) _ h
  | clean =>
    rw [hp] at h
    exact h
  | out a =>
    rw [hp] at h
    exact Op.may_mono hH h

/-- The invariant. -/
structure SInv (s : St V) (M : Mon V) : Prop where
  inv : ∃ src, Inv s.mem M.map src
  th : ∀ t, ThOk s.mem M.map (M.seen t) (M.cur t) (M.eff t) (s.th t)

theorem Inv.init : Inv (St.init (V := V)).mem (fun _ => none) id := by
  have none' : ∀ (N : Id → Node) k y, ¬ On none N k y := by
    intro N k y ho
    obtain ⟨r, hr, _⟩ := ho.path
    cases hr
  refine ⟨?_, ?_, ?_, ?_, ?_, ?_, ?_⟩
  · exact Shape.of_nodes (fun r h => (by cases h)) (fun n _ => ⟨rfl, rfl⟩) (fun y h => (by cases h)) fun c => NodeOk.new rfl
  · exact ⟨fun k l h => absurd h (none' _ _ _), fun k n h => absurd h (none' _ _ _), fun _ _ => rfl⟩
  · exact ⟨fun n ⟨k, h⟩ => absurd h (none' _ _ _), fun n ⟨k, h⟩ => absurd h (none' _ _ _), fun l k ⟨k', h⟩ => absurd h (none' _ _ _),
      fun n n' j j' y ⟨k, h, _⟩ => absurd h (none' _ _ _)⟩
  · exact ⟨fun n h => (by cases h), fun n h => (by cases h), fun n h => (by cases h), fun n h => (by cases h), fun n h => (by cases h), fun n h => (by cases h)⟩
  · exact ⟨fun n J h => (by cases h), fun n n' J J' h => (by cases h)⟩
  · exact ⟨fun n i J h => (by cases h), fun n i J h => (by cases h), fun r n nl nh mid ch h => (by cases h), fun n i x y h => (by cases h)⟩
  · exact ⟨fun n h => (by cases h), fun n i h => (by cases h), fun n b i h => (by cases h),
      fun n i x xl xh mid ch nl nh h => (by cases h), fun n j xl xh nl nh h => (by cases h), fun n xl xh nl nh h => (by cases h),
      fun n j xl xh nl nh h => (by cases h), fun n i J l h => (by cases h), fun n i J h => (by cases h)⟩

theorem SInv.init : SInv (St.init (V := V)) Mon.init :=
  ⟨⟨id, Inv.init⟩, fun _ => ⟨fun _ => rfl, fun h => absurd rfl h, fun h => absurd rfl h, fun h => absurd rfl h, trivial,
    fun h => (by cases h)⟩⟩

variable {s : St V} {M : Mon V} {t : Thr}

/-- A step of a thread that does not change the shared objects. -/
theorem SInv.local (S : SInv s M) {T : Th V} (h : ThOk s.mem M.map (M.seen t) (M.cur t) (M.eff t) T) : SInv (s.setTh t T) M := by
  refine ⟨S.inv, fun t' => ?_⟩
  simp only [setTh_th]
  by_cases e : t' = t
  · subst e; rw [upd_eq]; exact h
  · rw [upd_ne e]; exact S.th t'

/-- A step of a thread that only moves it. -/
theorem SInv.go (S : SInv s M) {p : Pc V} (hi : (s.th t).pc ≠ .idle) (hp : p ≠ .idle)
    (h : PcOk s.mem (M.seen t) (M.eff t) (s.th t).key (s.th t).op p)
    (he : p.inside = true → if (s.th t).rm then (∃ c, (s.th t).op = .remove c) ∧ 1 ≤ M.eff t else M.eff t = 0) :
    SInv (s.go t p) M := by
  have P := S.th t
  exact S.local ⟨fun h => absurd h hp, fun _ => P.cur hi, fun _ => P.now hi, fun _ => P.vis hi, h, he⟩

/-- A step that changes the shared objects. -/
theorem SInv.change (S : SInv s M) {src : Ref → Ref} (I : Inv s.mem M.map src) (E : Evo s.mem m' M.map) (W : Vers s.mem m')
    (I' : Inv m' M.map src') : SInv { s with mem := m' } M :=
  ⟨⟨src', I'⟩, fun t => (S.th t).evo I E W (fun _ h => h) (S.th t).now⟩

theorem Leaf.get_cons {l : Leaf V} {k k' : Key} {v : V} :
    ({ l with m := (k, v) :: l.m } : Leaf V).get k' = if k' = k then some v else l.get k' := by
  by_cases e : k' = k
  · subst e; simp [Leaf.get]
  · rw [if_neg e]
    simp only [Leaf.get, List.find?_cons]
    rw [show (k == k') = false by simpa using fun h => e h.symm]

theorem Leaf.get_erase {l : Leaf V} {k k' : Key} :
    ({ l with m := l.m.filter fun e => e.1 != k } : Leaf V).get k' = if k' = k then none else l.get k' := by
  simp only [Leaf.get]
  induction l.m with
  | nil => simp
  | cons a r ih =>
    by_cases e : a.1 = k
    · rw [List.filter_cons_of_neg (by simp [e]), ih]
      by_cases e' : k' = k
      · rw [if_pos e', if_pos e']
      · rw [if_neg e', if_neg e', List.find?_cons, show (a.1 == k') = false by simpa [e] using fun h => e' h.symm]
    · rw [List.filter_cons_of_pos (by simp [e]), List.find?_cons, List.find?_cons]
      by_cases e' : a.1 = k'
      · rw [show (a.1 == k') = true by simpa using e', if_neg (by omega)]
      · rw [show (a.1 == k') = false by simpa using e', ih]

/-- An entry is added or taken away. -/
theorem SInv.assign (S : SInv s M) {l : Id} {L : Leaf V} {p : Pc V} (hi : (s.th t).pc ≠ .idle)
    (hf : s.mem.frozen l = false) (ho : On s.mem.root s.mem.node (s.th t).key (.leaf l))
    (hg : ∀ k', k' ≠ (s.th t).key → L.get k' = (s.mem.leaf l).get k') (hr : L.retired = true → L.m = [])
    (hr' : (s.mem.leaf l).retired = true → L.retired = true)
    (hp : p ≠ .idle) (ho' : p.inside = false)
    (hpc : ∀ H, PcOk (s.mem.setLeaf l L) H (M.eff t + 1) (s.th t).key (s.th t).op p) :
    SInv ({ s with mem := s.mem.setLeaf l L }.go t p) (M.assign t (s.th t).key (L.get (s.th t).key)) := by
  obtain ⟨src, I⟩ := S.inv
  have E := Evo.setLeaf I (L := L) hf hr'
  have W : Vers s.mem (s.mem.setLeaf l L) := .same rfl fun _ _ => rfl
  refine ⟨⟨src, I.setLeaf ho hf hg hr⟩, fun t' => ?_⟩
  have P := S.th t'
  have now : (s.th t').pc ≠ .idle → (M.assign t (s.th t).key (L.get (s.th t).key)).seen t'
      ((M.assign t (s.th t).key (L.get (s.th t).key)).map (s.th t').key) := by
    intro h
    simp only [Mon.assign]
    by_cases e : (s.th t').key = (s.th t).key
    · rw [e, upd_eq]
      exact .inr ⟨⟨_, by rw [P.cur h, e]⟩, rfl⟩
    · rw [upd_ne e]
      exact .inl (P.now h)
  have Q := P.evo (H' := (M.assign t (s.th t).key (L.get (s.th t).key)).seen t') I E W (fun o h => .inl h) now
  simp only [St.go, setTh_th]
  by_cases e : t' = t
  · subst e
    rw [upd_eq]
    refine ⟨fun h => absurd h hp, fun _ => Q.cur hi, fun _ => Q.now hi, fun _ => Q.vis hi, ?_, fun h => ?_⟩
    · simp only [Mon.assign, upd_eq]
      exact hpc _
    · rw [show p.inside = true from h] at ho'; cases ho'
  · rw [upd_ne e]
    simp only [Mon.assign, upd_ne e] at Q ⊢
    exact Q

end Scc.Grove
