import Verif.Vine.World

/-!
# What is known of the tree index beside its linked list
-/

namespace Scc.Vine

open Scc.Grove

local notation "Key" => Nat
local notation "Id" => Nat
local notation "Thr" => Nat

variable {V : Type} {m m' : Mem V} {d : Lst} {A : Key → Option V} {src src' : Ref → Ref} {lt : Id → Id → Prop}

/-- The invariant of the tree index and of what it remembers of leaves. -/
structure Base (m : Mem V) (d : Lst) (A : Key → Option V) (src : Ref → Ref) : Prop where
  inv : Inv m A src
  /-- `split_op` has the leaf that is replaced. -/
  old : ∀ n L, (view m d A).job n = some L → d.old n = L.x
  fdead : ∀ n L, (view m d A).job n = some L → L.st = .fin → m.dead (.leaf L.x) = true
  /-- What a leaf was created for is under way, or is over. -/
  sc : ∀ z x, src (.leaf z) = .leaf x → z = x ∨ (view m d A).org x z ∨
    (m.dead (.leaf x) = true ∧ ∀ n L, (view m d A).job n = some L → L.x ≠ x)
  /-- Only roots have no children. -/
  nul : ∀ n, n < m.nN → (m.node n).cell 0 = .null → m.root = some n
  fin1 : ∀ n xl xh nl nh, m.phase n = .fin 1 xl xh nl nh → ∀ c L, (view m d A).job c = some L → ¬ L.mem xh

theorem Base.world (B : Base m d A src) : World (view m d A) := Inv.world B.inv B.fdead

/-- What a step of a structural change does. -/
structure Data (m m' : Mem V) (d : Lst) (A : Key → Option V) (src src' : Ref → Ref) : Prop where
  next : Next m m' A src'
  vers : Vers m m'
  drift : Drift m m' A src
  leaf : ∀ l, l < m.nL → m'.leaf l = m.leaf l
  kill : ∀ l, m'.dead (.leaf l) = true → m.dead (.leaf l) = true ∨ ∃ n L, (view m d A).job n = some L ∧ L.x = l
  fro : ∀ l, l < m.nL → m.frozen l = true → m'.frozen l = true ∨ ∀ n L, (view m d A).job n = some L → L.mem l →
    (view m' (d.after m m') A).job n = none ∨ (l = L.xl ∧ L.xl ≠ L.xh ∧ ∀ L', (view m' (d.after m m') A).job n = some L' → L'.st = .thawed)
  job : ∃ n, (∀ c, c ≠ n → (view m' (d.after m m') A).job c = (view m d A).job c) ∧
    Trans (view m d A) (view m' (d.after m m') A) d ((view m d A).job n) ((view m' (d.after m m') A).job n)
  src : ∀ z x, src' (.leaf z) = .leaf x → src (.leaf z) = .leaf x ∨ z = x ∨ (view m' (d.after m m') A).org x z
  roll : ∀ n L, (view m d A).job n = some L → L.st = .full → (view m' (d.after m m') A).job n = none →
    src' (.leaf L.xl) = .leaf L.xl ∧ src' (.leaf L.xh) = .leaf L.xh
  nul : ∀ n, n < m'.nN → (m'.node n).cell 0 = .null → m'.root = some n
  fin1 : ∀ n xl xh nl nh, m'.phase n = .fin 1 xl xh nl nh → m.phase n = .fin 1 xl xh nl nh ∨ m.phase n = .fin 0 xl xh nl nh
  new : ∀ n L, (view m d A).job n = none → (view m' (d.after m m') A).job n = some L → m.phase n = .locked ∧
    ∀ c xl xh nl nh, m.phase c = .fin 1 xl xh nl nh → L.x ≠ xh

/-- A leaf that was created to replace another one. -/
theorem Base.twin (B : Base m d A src) {x y : Id} (h : Twin m src x y) : y = x ∨ (view m d A).org x y := by
  obtain ⟨hs, h⟩ := h
  rcases B.sc y x hs with e | e | ⟨_, e⟩
  · exact .inl e
  · exact .inr e
  · rcases h with ⟨n, i, h⟩ | ⟨n, J, h1, h2, _⟩
    · refine .inr ⟨n, ⟨x, y, y, .copy⟩, ?_, rfl, .inl rfl⟩
      simp only [view, h, ljob]
    · obtain ⟨c, L, h3, h4⟩ := Inv.mem_job B.inv d h1 h2
      exact absurd h4 (e c L h3)

theorem after_old {n : Id} (h : m.phase n ≠ .locked) : (d.after m m').old n = d.old n := by
  simp only [Lst.after]
  split
  · next e _ => exact absurd e h
  · next e _ => exact absurd e h
  · rfl

theorem after_old_same {n : Id} (h : m'.phase n = m.phase n) : (d.after m m').old n = d.old n := by
  simp only [Lst.after, h]
  split
  · next e e' => rw [e] at e'; cases e'
  · next e e' => rw [e] at e'; cases e'
  · rfl

theorem job_same {n : Id} (h : m'.phase n = m.phase n) : (view m' (d.after m m') A).job n = (view m d A).job n := by
  simp only [view, after_old_same h, h]

/-- What a step does, in terms of leaves. -/
theorem Data.shift (B : Base m d A src) (I : VInv (view m d A) d lt) (D : Data m m' d A src src') :
    Shift (view m d A) (view m' (d.after m m') A) d := by
  have E := D.next.evo
  have al : ∀ {n L} (_ : (view m d A).job n = some L) {z}, L.mem z → z < m.nL := fun h _ hz => I.mem_al h hz
  refine ⟨E.nL, rfl, fun l hl => ?_, fun l hl => ?_, fun l h => E.dead _ h, D.kill, ?_, ?_, ?_, D.job, ?_, ?_, D.drift.low⟩
  · show (m'.leaf l).get = (m.leaf l).get
    rw [D.leaf l hl]
  · show (m'.leaf l).retired = (m.leaf l).retired
    rw [D.leaf l hl]
  · intro n J h h'
    have K := I.jobs n J h
    rcases D.fro J.x (al h J.mem_x) K.froX with q | q
    · exact q
    · rcases q n J h J.mem_x with q | ⟨q, _⟩
      · exact absurd q h'
      · exact absurd q.symm K.neL
  · intro n J J' h h' ht hf
    rcases D.fro J.xl (al h J.mem_l) hf with q | q
    · exact q
    · rcases q n J h J.mem_l with q | ⟨_, _, q⟩
      · rw [h'] at q; cases q
      · exact absurd (q J' h') ht
  · intro n J h h' hf
    rcases D.fro J.xh (al h J.mem_h) hf with q | q
    · exact q
    · rcases q n J h J.mem_h with q | ⟨q, q', _⟩
      · exact absurd q h'
      · exact absurd q.symm q'
  · intro k x ho
    rcases D.drift.to k x ho with h | ⟨h1, y, h2, h3, h4⟩ | h
    · exact .inl h
    · rcases B.twin h2 with e | e
      · subst e; exact .inl h3
      · exact .inr (.inl ⟨h1, y, e, h3, h4⟩)
    · exact .inr (.inr ⟨h.1, h.2.1, h.2.2.1⟩)
  · intro l hl
    rcases D.drift.of l hl with h | ⟨h1, h2⟩
    · exact .inl h
    · by_cases hc : ∃ k, (view m d A).on k l ∧ (view m' (d.after m m') A).on k l
      · exact .inl hc
      · refine .inr ⟨fun k hk => ?_, h2⟩
        obtain ⟨x, h3, h4⟩ := h1 k hk
        rcases B.twin h3 with e | e
        · subst e; exact absurd ⟨k, h4, hk⟩ hc
        · exact ⟨x, e, h4⟩

theorem Data.base (B : Base m d A src) (I : VInv (view m d A) d lt) (D : Data m m' d A src src') :
    Base m' (d.after m m') A src' := by
  have S := D.shift B I
  have old : ∀ n L, (view m' (d.after m m') A).job n = some L → (d.after m m').old n = L.x := by
    intro n L h
    by_cases hp : m.phase n = .locked
    · have h0 : (view m d A).job n = none := by simp only [view, hp, ljob]
      rcases S.back h with ⟨st, h1, _⟩ | ⟨_, T⟩
      · rw [h0] at h1; cases h1
      · have F := ljob_form h
        simp only [Lst.after, hp]
        generalize m'.phase n = p at F
        cases F with
        | copy => rfl
        | split => rfl
        | _ => cases T
    · rw [after_old hp]
      rcases S.back h with ⟨st, h1, _⟩ | ⟨h1, T⟩
      · exact B.old n { L with st := st } h1
      · exact absurd (D.new n L h1 h).1 hp
  refine ⟨D.next.inv, old, ?_, ?_, D.nul, ?_⟩
  · intro n L h hs
    rcases S.back h with ⟨st, h1, T⟩ | ⟨_, T⟩
    · cases L
      subst hs
      generalize hst : st = st' at T
      cases T with
      | keep => subst hst; exact S.dead _ (B.fdead n _ h1 rfl)
      | fin _ _ _ h2 => exact h2
    · cases L
      subst hs
      cases T
  · intro z x h
    rcases D.src z x h with h' | h' | h'
    · rcases B.sc z x h' with e | e | ⟨e1, e2⟩
      · exact .inl e
      · rcases I.shift_org S e with q | ⟨n, L, h1, h2, T, rfl, hz⟩
        · exact .inr (.inl q)
        · have over : (view m' (d.after m m') A).dead L.x = true →
              m'.dead (.leaf L.x) = true ∧ ∀ c L', (view m' (d.after m m') A).job c = some L' → L'.x ≠ L.x :=
            fun hd => ⟨hd, fun c L' hc e => I.ended S h1 h2 hc (e ▸ L'.mem_x)⟩
          have K := I.jobs n L h1
          cases T with
          | copied _ _ _ g => exact .inr (.inr (over g))
          | swap => exact .inr (.inr (over (S.dead _ (K.deadX (by simp)))))
          | done => exact .inr (.inr (over (S.dead _ (K.deadX (by simp)))))
          | roll x xl xh _ _ _ =>
            obtain ⟨r1, r2⟩ := D.roll n _ h1 rfl h2
            left
            rcases hz with rfl | rfl
            · rw [r1] at h; cases h; rfl
            · rw [r2] at h; cases h; rfl
      · refine .inr (.inr ⟨D.next.evo.dead _ e1, fun n L hL => ?_⟩)
        rcases S.back hL with ⟨st, h1, _⟩ | ⟨_, T⟩
        · exact e2 n { L with st := st } h1
        · rintro rfl
          have := T.new.2.2.2.2
          exact absurd (e1.symm.trans this) (by simp)
    · exact .inl h'
    · exact .inr (.inl h')
  · intro n xl xh nl nh h c L hL hm
    have old : ∀ L0, (view m d A).job c = some L0 → L0.mem xh → False := by
      intro L0 h0 hm0
      rcases D.fin1 n xl xh nl nh h with h1 | h1
      · exact B.fin1 n xl xh nl nh h1 c L0 h0 hm0
      · have hn : (view m d A).job n = some ⟨d.old n, xl, xh, .fin⟩ := by simp only [view, h1, ljob]
        have := I.sep _ _ _ _ _ h0 hn hm0 (LJob.mem_h _)
        subst this
        simp only [view, h, ljob] at hL
        cases hL
    have al : xh < m.nL := by
      rcases D.fin1 n xl xh nl nh h with h1 | h1
      · exact (B.inv.locks.finHigh n _ xl xh nl nh h1 (Nat.le_refl _)).1
      · exact (B.inv.locks.finHigh n _ xl xh nl nh h1 (Nat.zero_le _)).1
    rcases S.back hL with ⟨st, h1, _⟩ | ⟨h1, T⟩
    · exact old _ h1 hm
    · obtain ⟨_, a1, a2, a3, _⟩ := T.new
      have a1' : m.nL ≤ L.xl := a1
      have a2' : m.nL ≤ L.xh := a2
      rcases hm with e | e | e
      · rcases D.fin1 n xl xh nl nh h with g | g
        · exact (D.new c L h1 hL).2 n xl xh nl nh g e.symm
        · have hn : (view m d A).job n = some ⟨d.old n, xl, xh, .fin⟩ := by simp only [view, g, ljob]
          exact a3 n _ hn (e ▸ LJob.mem_h _)
      · omega
      · omega

end Scc.Vine
