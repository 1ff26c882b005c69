import Verif.Weak.Inv

/-!
# One more value in a history, one slot
-/

namespace Scc.Weak

theorem le_succ_cases {k n : Nat} (h : k ≤ n + 1) : k ≤ n ∨ k = n + 1 := by omega

section occ
variable {n oc born i cd ch : Nat} {m : Nat → Msg} {sl : Slot} {ld lh : Loc} {hd : Bool} {T : Option Tgt} {x : Msg}

theorem OccOk.push_same (h : OccOk n m sl oc born i ld lh cd ch hd T) (hb : x.val.bit i = (m n).val.bit i)
    (h1 : x.view ld = cd) (h2 : x.view lh = ch) (h3 : ∀ t, T = some t → t.le x.view) :
    OccOk (n + 1) (push m n x) sl oc born i ld lh cd ch hd T := by
  refine ⟨Nat.le_succ_of_le h.oc_le, fun f => Nat.le_succ_of_le (h.born_le f), fun k hk hi => ?_, fun f k h4 hk => ?_,
    fun f g k h4 hk => ?_, fun f k h4 hk => ?_, fun f g => ?_, fun f => ?_⟩
  · rcases le_succ_cases hk with hk | rfl
    · rw [push_old hk] at hi; exact h.old k hk hi
    · rw [push_new, hb] at hi
      have : sl = .used ∨ sl = .marked := by
        by_cases e1 : sl = .used
        · exact .inl e1
        · by_cases e2 : sl = .marked
          · exact .inr e2
          · rw [h.unset e1 e2] at hi; cases hi
      have f : sl.full = true := by rcases this with rfl | rfl <;> rfl
      exact .inr ⟨Nat.le_succ_of_le (h.born_le f), f⟩
  · rcases le_succ_cases hk with hk | rfl
    · rw [push_old hk]; exact h.data f k h4 hk
    · rw [push_new]; exact h1
  · rcases le_succ_cases hk with hk | rfl
    · rw [push_old hk]; exact h.hash f g k h4 hk
    · rw [push_new]; exact h2
  · rcases le_succ_cases hk with hk | rfl
    · rw [push_old hk]; exact h.set f k h4 hk
    · rw [push_new, hb]
      have f' : sl.full = true := by rcases f with rfl | rfl <;> rfl
      exact h.set f n (h.born_le f') (Nat.le_refl _)
  · rw [push_new, hb]; exact h.unset f g
  · obtain ⟨t, e, h5⟩ := h.tgt f
    refine ⟨t, e, fun k h4 hk hi => ?_⟩
    rcases le_succ_cases hk with hk | rfl
    · rw [push_old hk] at hi ⊢; exact h5 k h4 hk hi
    · rw [push_new]; exact h3 t e

/-- A slot that is not in use gets its bit. -/
theorem OccOk.push_born (h : OccOk n m sl oc born i ld lh cd ch hd T) (f : sl.full = false) (hb : x.val.bit i = true)
    (h1 : x.view ld = cd) (h2 : x.view lh = ch) :
    OccOk (n + 1) (push m n x) .used oc (n + 1) i ld lh cd ch hd T := by
  refine ⟨Nat.le_succ_of_le h.oc_le, fun _ => Nat.le_refl _, fun k hk hi => ?_, fun _ k h4 hk => ?_,
    fun _ g k h4 hk => ?_, fun _ k h4 hk => ?_, fun g _ => absurd rfl g, (fun g => by cases g)⟩
  · rcases le_succ_cases hk with hk | rfl
    · rw [push_old hk] at hi
      rcases h.old k hk hi with h5 | h5
      · exact .inl h5
      · rw [f] at h5; cases h5.2
    · exact .inr ⟨Nat.le_refl _, rfl⟩
  · obtain rfl : k = n + 1 := by omega
    rw [push_new]; exact h1
  · obtain rfl : k = n + 1 := by omega
    rw [push_new]; exact h2
  · obtain rfl : k = n + 1 := by omega
    rw [push_new]; exact hb

/-- The entry is moved elsewhere. -/
theorem OccOk.push_out (h : OccOk n m .used oc born i ld lh cd ch hd T) (hb : x.val.bit i = false)
    (h1 : x.view ld = cd) (h2 : x.view lh = ch) {t : Tgt} (h3 : t.le x.view) :
    OccOk (n + 1) (push m n x) .moved oc born i ld lh cd ch hd (some t) := by
  refine ⟨Nat.le_succ_of_le h.oc_le, fun _ => Nat.le_succ_of_le (h.born_le rfl), fun k hk hi => ?_, fun f k h4 hk => ?_,
    fun f g k h4 hk => ?_, (fun f => by rcases f with f | f <;> cases f), fun _ _ => ?_, fun f => ⟨t, rfl, fun k h4 hk hi => ?_⟩⟩
  · rcases le_succ_cases hk with hk | rfl
    · rw [push_old hk] at hi
      rcases h.old k hk hi with h5 | h5
      · exact .inl h5
      · exact .inr ⟨h5.1, rfl⟩
    · rw [push_new, hb] at hi; cases hi
  · rcases le_succ_cases hk with hk | rfl
    · rw [push_old hk]; exact h.data rfl k h4 hk
    · rw [push_new]; exact h1
  · rcases le_succ_cases hk with hk | rfl
    · rw [push_old hk]; exact h.hash rfl g k h4 hk
    · rw [push_new]; exact h2
  · rw [push_new]; exact hb
  · rcases le_succ_cases hk with hk | rfl
    · rw [push_old hk, h.set (.inl rfl) k h4 hk] at hi; cases hi
    · rw [push_new]; exact h3

/-- The slot loses its bit for good. -/
theorem OccOk.push_clear (h : OccOk n m sl oc born i ld lh cd ch hd T) (hb : x.val.bit i = false) :
    OccOk (n + 1) (push m n x) .recycling (n + 1) born i ld lh cd ch hd T := by
  refine ⟨Nat.le_refl _, (fun f => by cases f), fun k hk hi => ?_, (fun f => by cases f), (fun f => by cases f),
    (fun f => by rcases f with f | f <;> cases f), fun _ _ => ?_, (fun f => by cases f)⟩
  · rcases le_succ_cases hk with hk | rfl
    · exact .inl (Nat.lt_succ_of_le hk)
    · rw [push_new, hb] at hi; cases hi
  · rw [push_new]; exact hb

theorem OccOk.calm (h : OccOk n m sl oc born i ld lh cd ch hd T) (f : sl.full = false) {sl' : Slot} (f' : sl'.full = false)
    (cd' ch' : Nat) (hd' : Bool) : OccOk n m sl' oc born i ld lh cd' ch' hd' T := by
  refine ⟨h.oc_le, (fun g => by rw [f'] at g; cases g), fun k hk hi => ?_, (fun g => by rw [f'] at g; cases g),
    (fun g => by rw [f'] at g; cases g), (fun g => ?_), fun _ _ => ?_, (fun g => by subst g; cases f')⟩
  · rcases h.old k hk hi with h5 | h5
    · exact .inl h5
    · rw [f] at h5; cases h5.2
  · rcases g with rfl | rfl <;> cases f'
  · refine h.unset ?_ ?_
    · rintro rfl; cases f
    · rintro rfl; cases f

theorem OccOk.mark (h : OccOk n m .used oc born i ld lh cd ch hd T) : OccOk n m .marked oc born i ld lh cd ch hd T :=
  ⟨h.oc_le, fun _ => h.born_le rfl, fun k hk hi => (h.old k hk hi).imp id (fun q => ⟨q.1, rfl⟩), fun _ => h.data rfl,
    fun _ => h.hash rfl, fun _ => h.set (.inl rfl), fun _ g => absurd rfl g, (fun g => by cases g)⟩

/-- The cell of the partial hash is used otherwise. -/
theorem OccOk.unhash (h : OccOk n m sl oc born i ld lh cd ch hd T) (ch' : Nat) :
    OccOk n m sl oc born i ld lh cd ch' false T :=
  ⟨h.oc_le, h.born_le, h.old, h.data, (fun _ g => by cases g), h.set, h.unset, h.tgt⟩

end occ

section rem
variable {n oc rc floor mark i : Nat} {m : Nat → Msg} {sl : Slot} {lo : Loc} {x : Msg}

theorem RemOk.push_same (h : RemOk n m sl oc rc floor mark i lo) (hb : x.val.bit i = (m n).val.bit i)
    (h1 : oc ≤ x.view lo) : RemOk (n + 1) (push m n x) sl oc rc floor mark i lo := by
  refine ⟨Nat.le_succ_of_le h.rc_le, fun f k h4 hk => ?_, fun k h4 hk => ?_, fun f => Nat.le_succ_of_le (h.floor_le f),
    fun f k h4 hk => ?_, fun f => Nat.le_succ_of_le (h.mark_le f), fun f k h4 hk => ?_, fun f g k h4 hk => ?_⟩
  · rcases le_succ_cases hk with hk | rfl
    · rw [push_old hk]; exact h.ocv f k h4 hk
    · rw [push_new]; exact h1
  · have := h.rc_le
    rw [push_old (by omega)]; exact h.low k h4 hk
  · rcases le_succ_cases hk with hk | rfl
    · rw [push_old hk]; exact h.again f k h4 hk
    · rw [push_new, hb]; exact h.again f n (h.floor_le f) (Nat.le_refl _)
  · rcases le_succ_cases hk with hk | rfl
    · rw [push_old hk]; exact h.marked f k h4 hk
    · rw [push_new, hb]; exact h.marked f n (h.mark_le f) (Nat.le_refl _)
  · rcases le_succ_cases hk with hk | rfl
    · rw [push_old hk]; exact h.clear f g k h4 hk
    · rw [push_new, hb]; exact h.clear f g n h.rc_le (Nat.le_refl _)

theorem RemOk.push_mark (h : RemOk n m .used oc rc floor mark i lo) (hb : x.val.bit i = true)
    (h1 : oc ≤ x.view lo) : RemOk (n + 1) (push m n x) .marked oc rc floor (n + 1) i lo := by
  refine ⟨Nat.le_succ_of_le h.rc_le, fun f k h4 hk => ?_, fun k h4 hk => ?_, (fun f => by cases f),
    (fun f => by cases f), fun _ => Nat.le_refl _, fun f k h4 hk => ?_, fun f => absurd rfl f⟩
  · rcases le_succ_cases hk with hk | rfl
    · rw [push_old hk]; exact h.ocv (by decide) k h4 hk
    · rw [push_new]; exact h1
  · have := h.rc_le
    rw [push_old (by omega)]; exact h.low k h4 hk
  · obtain rfl : k = n + 1 := by omega
    rw [push_new]; exact hb

theorem RemOk.recycle (h : RemOk n m .marked oc rc floor mark i lo) (oc' : Nat) :
    RemOk n m .recycling oc' rc mark mark i lo := by
  refine ⟨h.rc_le, fun f => absurd rfl f, fun k h4 hk => ?_, fun _ => h.mark_le rfl, fun _ => h.marked rfl,
    (fun f => by cases f), (fun f => by cases f), fun _ f => absurd rfl f⟩
  have := h.rc_le
  exact h.marked rfl k h4 (by omega)

theorem RemOk.push_clear (h : RemOk n m .recycling oc rc floor mark i lo) (hb : x.val.bit i = false)
    (h1 : oc ≤ x.view lo) : RemOk (n + 1) (push m n x) .free oc (n + 1) floor mark i lo := by
  refine ⟨Nat.le_refl _, fun f k h4 hk => ?_, fun k h4 hk => ?_, (fun f => by cases f), (fun f => by cases f),
    (fun f => by cases f), (fun f => by cases f), fun _ _ k h4 hk => ?_⟩
  · obtain rfl : k = n + 1 := by omega
    rw [push_new]; exact h1
  · rw [push_old (by omega)]; exact h.again rfl k h4 (by omega)
  · obtain rfl : k = n + 1 := by omega
    rw [push_new]; exact hb

theorem RemOk.calm (h : RemOk n m sl oc rc floor mark i lo) (f : sl ≠ .marked) (g : sl ≠ .recycling) {sl' : Slot}
    (f' : sl' ≠ .marked) (g' : sl' ≠ .recycling) : RemOk n m sl' oc rc floor mark i lo :=
  ⟨h.rc_le, fun _ => h.ocv g, h.low, fun e => absurd e g', fun e => absurd e g', fun e => absurd e f',
    fun e => absurd e f', fun _ _ => h.clear f g⟩

end rem

section len
variable {md : Bool} {n lenIx i : Nat} {m : Nat → Msg} {sl : Slot} {cs cs' : List Nat} {T : Option Tgt} {x : Msg}

theorem LenOk.push_same (h : LenOk md n m sl lenIx i cs T) (hm : i ∈ cs' ↔ i ∈ cs) (hx : i ∈ cs → x.val.n ≠ 0)
    (ht : md = true → ∀ t, T = some t → t.le x.view) : LenOk md (n + 1) (push m n x) sl lenIx i cs' T := by
  refine ⟨fun c => Nat.le_succ_of_le (h.le (hm.1 c)), fun c k h4 hk => ?_, fun e f c t hT k h4 hk h0 => ?_⟩
  · rcases le_succ_cases hk with hk | rfl
    · rw [push_old hk]; exact h.pos (hm.1 c) k h4 hk
    · rw [push_new]; exact hx (hm.1 c)
  · rcases le_succ_cases hk with hk | rfl
    · rw [push_old hk] at h0 ⊢; exact h.away e f (fun q => c (hm.2 q)) t hT k h4 hk h0
    · rw [push_new]; exact ht e t hT

theorem LenOk.push_in (hc : i ∈ cs') (hx : x.val.n ≠ 0) : LenOk md (n + 1) (push m n x) sl (n + 1) i cs' T := by
  refine ⟨fun c => Nat.le_refl _, fun c k h4 hk => ?_, fun e f c => absurd hc c⟩
  obtain rfl : k = n + 1 := by omega
  rw [push_new]; exact hx

theorem LenOk.push_gone (h : LenOk md n m sl lenIx i cs T) (hc : i ∈ cs) (hc' : i ∉ cs')
    (ht : md = true → ∀ t, T = some t → t.le x.view) : LenOk md (n + 1) (push m n x) sl lenIx i cs' T := by
  refine ⟨fun c => absurd c hc', fun c => absurd c hc', fun e f c t hT k h4 hk h0 => ?_⟩
  rcases le_succ_cases hk with hk | rfl
  · rw [push_old hk] at h0; exact absurd h0 (h.pos hc k h4 hk)
  · rw [push_new]; exact ht e t hT

theorem LenOk.calm (h : LenOk md n m sl lenIx i cs T) {sl' : Slot} (f : sl' ≠ .moved) (T' : Option Tgt) :
    LenOk md n m sl' lenIx i cs T' :=
  ⟨h.le, h.pos, fun _ e => absurd e f⟩

theorem LenOk.keep (h : LenOk md n m sl lenIx i cs T) {sl' : Slot} (c : i ∈ cs) (T' : Option Tgt) :
    LenOk md n m sl' lenIx i cs T' :=
  ⟨h.le, h.pos, fun _ _ e => absurd c e⟩

end len

end Scc.Weak
