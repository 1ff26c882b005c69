import Verif.Uproot.Model

/-!
# What holds in every state
-/

namespace Scc.Uproot

theorem upd_same {α : Type} (f : Nat → α) (i : Nat) (x : α) : upd f i x i = x := by simp [upd]

theorem upd_other {α : Type} (f : Nat → α) {i j : Nat} (x : α) (h : j ≠ i) : upd f i x j = f j := by simp [upd, h]

theorem Legal.snoc {m m' : Map} {l : List Ev} (h : Legal m l m') {e : Ev} (hr : e.res = (e.op.apply m').2) :
    Legal m (l ++ [e]) (e.op.apply m').1 := by
  induction h with
  | nil => exact .cons hr .nil
  | cons h1 _ ih => exact .cons h1 (ih hr)

theorem Legal.append {m m1 m2 : Map} {l l' : List Ev} (h : Legal m l m1) (h' : Legal m1 l' m2) : Legal m (l ++ l') m2 := by
  induction h with
  | nil => exact h'
  | cons h1 _ ih => exact .cons h1 (ih h')

/-- The call that a thread is in. -/
def Pc.id : Pc → Option Nat
  | .idle => none
  | .go x _ => some x
  | .at x _ _ _ _ _ => some x
  | .ret x _ _ => some x

/-- The call that has not taken effect yet. -/
def Pc.open : Pc → Option Nat
  | .go x _ => some x
  | .at x _ _ _ _ _ => some x
  | _ => none

theorem Pc.open_id {p : Pc} {x : Nat} (h : p.open = some x) : p.id = some x := by
  cases p <;> simp_all [Pc.open, Pc.id]

/-- The contents of the roots. -/
structure Vals (s : St) : Prop where
  legal : ∀ v, Legal Map.empty (s.log v) (s.val v)
  null : ∀ v, s.isT v = false → s.val v = Map.empty
  dead : ∀ v, s.dead v = true → s.val v = Map.empty
  left : ∀ v, v < s.n → s.clr v = none → s.val v = Map.empty ∧ (s.isT v = true → s.dead v = true)
  late : ∀ v, s.n < v → s.isT v = false
  atT : ∀ t x k f mk hn v, s.pc t = .at x k f mk hn v → s.isT v = true ∧ v ≤ s.n

/-- The names of the calls. -/
structure Ids (s : St) : Prop where
  fin : ∀ x, s.fin x → x < s.nid
  bef : ∀ x y, s.bef x y → s.fin y
  pc : ∀ t x, (s.pc t).id = some x → x < s.nid ∧ ¬ s.fin x
  one : ∀ t u x, (s.pc t).id = some x → (s.pc u).id = some x → t = u
  ev : ∀ v e, e ∈ s.seg v → e.id < s.nid
  fresh : ∀ t x, (s.pc t).open = some x → ∀ v e, e ∈ s.seg v → e.id ≠ x

/-- The order. -/
structure Ord (s : St) : Prop where
  top : ∀ v, s.n < v → s.log v = []
  clr : ∀ v, s.n ≤ v → s.clr v = none
  pend : ∀ t x k f mk hn v, s.pc t = .at x k f mk hn v →
    (∀ w e, v < w → e ∈ s.seg w → ¬ s.bef x e.id) ∧ ∀ y, s.clr v = some y → ¬ s.bef x y
  seg : ∀ v, (s.seg v).Pairwise fun e e' => ¬ s.bef e.id e'.id ∧ e.id ≠ e'.id
  cross : ∀ v w, v < w → ∀ e ∈ s.seg v, ∀ e' ∈ s.seg w, ¬ s.bef e.id e'.id ∧ e.id ≠ e'.id

/-- What is about to be returned. -/
structure Out (s : St) : Prop where
  ret : ∀ t x o r, s.pc t = .ret x o r → ∃ v, (⟨x, o, r⟩ : Ev) ∈ s.seg v
  got : ∀ e ∈ s.got, ∃ v, e ∈ s.seg v
  real : ∀ v e, e ∈ s.seg v → e ∈ s.got ∨ ∃ t, s.pc t = .ret e.id e.op e.res

structure Inv (s : St) : Prop where
  vals : Vals s
  ids : Ids s
  ord : Ord s
  out : Out s

theorem inv_init : Inv .init where
  vals := ⟨fun _ => .nil, fun _ _ => rfl, fun _ _ => rfl, (fun v h => absurd h (Nat.not_lt_zero v)), fun _ _ => rfl,
    (fun t x k f mk hn v h => by cases h)⟩
  ids := ⟨(fun x h => by obtain ⟨e, he, -⟩ := h; cases he), (fun x y h => h.elim), (fun t x h => by cases h), (fun t u x h => by cases h), (fun v e h => by cases h),
    (fun t x h => by cases h)⟩
  ord := ⟨fun _ _ => rfl, fun _ _ => rfl, (fun t x k f mk hn v h => by cases h), fun _ => .nil, (fun v w h e he => by cases he)⟩
  out := ⟨(fun t x o r h => by cases h), (fun e h => by cases h), (fun v e h => by cases h)⟩

theorem Op.apply_key_none {k : Nat} {f : Option Nat → Option Nat × Option Nat} {mk : Bool} {hn : mk = false → (f none).1 = none} (h : (f none).1 = none) :
    ((Op.key k f mk hn).apply Map.empty) = (Map.empty, (f none).2) := by
  have : upd Map.empty k (f (Map.empty k)).1 = Map.empty := by
    funext j; unfold upd Map.empty; simp [h]
  show (_, _) = _
  rw [this]; rfl

/-! ## Values -/

theorem Vals.step {s s' : St} (I : Vals s) (st : Step s s') : Vals s' := by
  have pcs : ∀ (t : Nat) (p : Pc), (∀ x k f mk hn v, p = .at x k f mk hn v → s.isT v = true ∧ v ≤ s.n) →
      ∀ u x k f mk hn v, upd s.pc t p u = .at x k f mk hn v → s.isT v = true ∧ v ≤ s.n := by
    intro t p hp u x k f mk hn v h
    by_cases hu : u = t
    · rw [hu, upd_same] at h; exact hp _ _ _ _ _ _ h
    · rw [upd_other _ _ hu] at h; exact I.atT _ _ _ _ _ _ _ h
  cases st with
  | call o h => exact ⟨I.legal, I.null, I.dead, I.left, I.late, pcs _ _ (fun _ _ _ _ _ _ h => by cases h)⟩
  | load h ht => exact ⟨I.legal, I.null, I.dead, I.left, I.late, pcs _ _ (fun _ _ _ _ _ _ h => by cases h; exact ⟨ht, Nat.le_refl _⟩)⟩
  | @null t x k f mk hn h ht hm =>
    refine ⟨fun v => ?_, I.null, I.dead, I.left, I.late, pcs _ _ (fun _ _ _ _ _ _ h => by cases h)⟩
    show Legal Map.empty (upd s.log s.n _ v) (s.val v)
    by_cases hv : v = s.n
    · rw [hv, upd_same]
      have h1 := I.legal s.n
      rw [I.null _ ht] at h1 ⊢
      have := h1.snoc (e := ⟨x, .key k f mk hn, (f none).2⟩) (by rw [Op.apply_key_none (hn hm)])
      rw [Op.apply_key_none (hn hm)] at this
      exact this
    · rw [upd_other _ _ hv]; exact I.legal v
  | create h ht hm =>
    refine ⟨I.legal, fun v hv => ?_, I.dead, fun v hv hc => ?_, fun v hv => ?_, fun t x k f mk hn v hp => ?_⟩
    · have hv : upd s.isT (s.n + 1) true v = false := hv
      by_cases e : v = s.n + 1
      · rw [e, upd_same] at hv; cases hv
      · rw [upd_other _ _ e] at hv; exact I.null v hv
    · have hv : v < s.n + 1 := hv
      show s.val v = _ ∧ (upd s.isT (s.n + 1) true v = true → s.dead v = true)
      rw [upd_other _ _ (by omega : v ≠ s.n + 1)]
      by_cases e : v = s.n
      · rw [e]; exact ⟨I.null _ ht, fun h => by rw [ht] at h; cases h⟩
      · exact I.left v (by omega) hc
    · have hv : s.n + 1 < v := hv
      show upd s.isT (s.n + 1) true v = false
      rw [upd_other _ _ (by omega)]; exact I.late v (by omega)
    · have := I.atT t x k f mk hn v hp
      have h2 := this.2
      refine ⟨?_, Nat.le_succ_of_le h2⟩
      show upd s.isT (s.n + 1) true v = true
      rw [upd_other _ _ (by omega)]; exact this.1
  | @act t x k f mk hn v h hd =>
    have ha := I.atT _ _ _ _ _ _ _ h
    -- a tree that is known to be empty stays so
    have keep : s.val v = Map.empty → (f none).1 = none → upd (s.val v) k (f (s.val v k)).1 = Map.empty := by
      intro h1 h2
      rw [h1]; funext j; unfold upd Map.empty; simp [h2]
    refine ⟨fun w => ?_, fun w hw => ?_, fun w hw => ?_, fun w hw hc => ?_, I.late, pcs _ _ (fun _ _ _ _ _ _ h => by cases h)⟩
    · show Legal Map.empty (upd s.log v _ w) (upd s.val v _ w)
      by_cases e : w = v
      · rw [e, upd_same, upd_same]
        exact (I.legal v).snoc (e := ⟨x, .key k f mk hn, (f (s.val v k)).2⟩) rfl
      · rw [upd_other _ _ e, upd_other _ _ e]; exact I.legal w
    · show upd s.val v _ w = _
      by_cases e : w = v
      · have hw : s.isT w = false := hw
        rw [e, ha.1] at hw; cases hw
      · rw [upd_other _ _ e]; exact I.null w hw
    · show upd s.val v _ w = _
      by_cases e : w = v
      · have hw : s.dead w = true := hw
        rw [e] at hw; rw [e, upd_same]
        exact keep (I.dead v hw) (hd hw)
      · rw [upd_other _ _ e]; exact I.dead w hw
    · show upd s.val v _ w = _ ∧ _
      by_cases e : w = v
      · have hl := I.left w hw hc
        rw [e] at hl; rw [e, upd_same]
        exact ⟨keep hl.1 (hd (hl.2 ha.1)), hl.2⟩
      · rw [upd_other _ _ e]; exact I.left w hw hc
  | retry h => exact ⟨I.legal, I.null, I.dead, I.left, I.late, pcs _ _ (fun _ _ _ _ _ _ h => by cases h)⟩
  | retire v h =>
    refine ⟨I.legal, I.null, fun w hw => ?_, fun w hw hc => ⟨(I.left w hw hc).1, fun ht => ?_⟩, I.late, I.atT⟩
    · by_cases e : w = v
      · rw [e]; exact funext h
      · have hw : upd s.dead v true w = true := hw
        rw [upd_other _ _ e] at hw; exact I.dead w hw
    · show upd s.dead v true w = true
      by_cases e : w = v
      · rw [e, upd_same]
      · rw [upd_other _ _ e]; exact (I.left w hw hc).2 ht
  | cleanup ht h =>
    refine ⟨I.legal, fun v hv => ?_, I.dead, fun v hv hc => ?_, fun v hv => ?_, fun t x k f mk hn v hp => ?_⟩
    · by_cases e : v = s.n + 1
      · rw [e]; exact I.null _ (I.late _ (Nat.lt_succ_self _))
      · have hv : upd s.isT (s.n + 1) false v = false := hv
        rw [upd_other _ _ e] at hv; exact I.null v hv
    · have hv : v < s.n + 1 := hv
      show s.val v = _ ∧ (upd s.isT (s.n + 1) false v = true → s.dead v = true)
      rw [upd_other _ _ (by omega : v ≠ s.n + 1)]
      by_cases e : v = s.n
      · rw [e]; exact ⟨I.dead _ h, fun _ => h⟩
      · exact I.left v (by omega) hc
    · have hv : s.n + 1 < v := hv
      show upd s.isT (s.n + 1) false v = false
      rw [upd_other _ _ (by omega)]; exact I.late v (by omega)
    · have := I.atT t x k f mk hn v hp
      have h2 := this.2
      refine ⟨?_, Nat.le_succ_of_le h2⟩
      show upd s.isT (s.n + 1) false v = true
      rw [upd_other _ _ (by omega)]; exact this.1
  | @clear t x h ht =>
    have pc' := pcs t (.ret x .clear none) (fun _ _ _ _ _ _ h => by cases h)
    refine ⟨I.legal, fun v hv => ?_, I.dead, fun v hv hc => ?_, fun v hv => ?_, fun t x k f mk hn v hp => ?_⟩
    · by_cases e : v = s.n + 1
      · rw [e]; exact I.null _ (I.late _ (Nat.lt_succ_self _))
      · have hv : upd s.isT (s.n + 1) false v = false := hv
        rw [upd_other _ _ e] at hv; exact I.null v hv
    · have hv : v < s.n + 1 := hv
      have hc : upd s.clr s.n (some x) v = none := hc
      show s.val v = _ ∧ (upd s.isT (s.n + 1) false v = true → s.dead v = true)
      rw [upd_other _ _ (by omega : v ≠ s.n + 1)]
      by_cases e : v = s.n
      · rw [e, upd_same] at hc; cases hc
      · rw [upd_other _ _ e] at hc; exact I.left v (by omega) hc
    · have hv : s.n + 1 < v := hv
      show upd s.isT (s.n + 1) false v = false
      rw [upd_other _ _ (by omega)]; exact I.late v (by omega)
    · have := pc' t x k f mk hn v hp
      have h2 := this.2
      refine ⟨?_, Nat.le_succ_of_le h2⟩
      show upd s.isT (s.n + 1) false v = true
      rw [upd_other _ _ (by omega)]; exact this.1
  | @clear0 t x h ht =>
    refine ⟨fun v => ?_, I.null, I.dead, I.left, I.late, pcs _ _ (fun _ _ _ _ _ _ h => by cases h)⟩
    show Legal Map.empty (upd s.log s.n _ v) (s.val v)
    by_cases hv : v = s.n
    · rw [hv, upd_same]
      have h1 := I.legal s.n
      rw [I.null _ ht] at h1 ⊢
      exact h1.snoc (e := ⟨x, .clear, none⟩) rfl
    · rw [upd_other _ _ hv]; exact I.legal v
  | ret h => exact ⟨I.legal, I.null, I.dead, I.left, I.late, pcs _ _ (fun _ _ _ _ _ _ h => by cases h)⟩

end Scc.Uproot
