import Verif.Vine.Marks
import Verif.Grove.Make

/-!
# Pointers lead to leaves that were linked
-/

namespace Scc.Vine

open Scc.Grove

local notation "Key" => Nat
local notation "Id" => Nat
local notation "Thr" => Nat

variable {V : Type} {m m' : Mem V} {d d' : Lst} {A A' : Key → Option V} {src src' : Ref → Ref} {lt lt' : Id → Id → Prop} {w w' : View V}

/-- Every pointer in a node leads to a leaf that was linked, also in nodes that are not in use any more. -/
def Cells (m : Mem V) (d : Lst) : Prop := ∀ n i l, (m.node n).cell i = .to (.leaf l) → d.lst l = true

/-- Leaves replace leaves only. -/
theorem Inv.leaf_of (I : Inv m A src) {n : Id} {J : Job} {l : Id} (h : (m.phase n).job = some J) (hl : J.xl = .leaf l ∨ J.xh = .leaf l) :
    ∃ x, J.x = .leaf x := by
  have plan : ∀ i, (m.phase n).plan = some (i, J) → ∃ x, J.x = .leaf x := by
    intro i hp
    obtain ⟨h1, h2, _⟩ := I.locks.kind n i J hp
    refine Inv.ref_leaf I ?_
    rcases hl with e | e
    · rw [← h1, e]; rfl
    · rw [← h2, e]; rfl
  have half : ∀ i, (m.phase n).half = some (i, J) → ∃ x, J.x = .leaf x := by
    intro i hp
    obtain ⟨O, S⟩ := I.jobs.half n i J hp
    have P := O.pair (J.mid + 1) _ _ (Nat.lt_succ_self _) .base
    have h2 := P.lvl
    rw [J.side_high (Nat.lt_succ_self _)] at h2
    obtain ⟨j, _, hj⟩ := S.low
    have h3 := I.shape.lev _ _ _ hj
    have h4 := I.shape.lev _ _ _ S.cell
    refine Inv.ref_leaf I ?_
    rcases hl with e | e
    · rw [e] at h3; simp only [lvl_leaf] at h3; omega
    · rw [← h2, e]; rfl
  cases hp : m.phase n <;> rw [hp] at h plan half <;> simp only [Phase.job] at h <;> cases h
  · exact plan _ rfl
  · exact half _ rfl
  · exact plan _ rfl
  · rcases hl with e | e <;> cases e

theorem Cells.grow (C : Cells m d) (h : m'.node = m.node) (hl : ∀ l, d.lst l = true → d'.lst l = true) : Cells m' d' :=
  fun n i l hc => hl l (C n i l (by rw [← h]; exact hc))

theorem Cells.node (C : Cells m d) {n : Id} {N : Node} (h : m'.node = upd m.node n N)
    (hN : ∀ i l, N.cell i = .to (.leaf l) → d.lst l = true) : Cells m' d := by
  intro c i l hc
  rw [h] at hc
  by_cases e : c = n
  · rw [e, upd_eq] at hc; exact hN i l hc
  · rw [upd_ne e] at hc; exact C c i l hc

theorem Cells.cell (C : Cells m d) {n j : Id} {p : Ptr} (hp : ∀ l, p = .to (.leaf l) → d.lst l = true) :
    ∀ i l, upd (m.node n).cell j p i = .to (.leaf l) → d.lst l = true := by
  intro i l h
  rw [upd_apply] at h
  split at h
  · exact hp l h
  · exact C n i l h

theorem full_lst (J : Inv m A src) (I : VInv (view m d A) d lt) {n i : Nat} {x xl xh : Ref} {mid : Key} {ch : List Ref} {cl : Option (Id × Id)}
    (h : m.phase n = .full i x xl xh mid ch cl) {l : Id} (hl : xl = .leaf l ∨ xh = .leaf l) : d.lst l = true := by
  have hj : (m.phase n).job = some ⟨x, xl, xh, mid, ch⟩ := by rw [h]; rfl
  obtain ⟨x, e⟩ := Inv.leaf_of J hj hl
  obtain ⟨a, b, e1, e2⟩ := Inv.leaves J hj e
  simp only at e e1 e2
  subst e e1 e2
  have : ∃ st, (view m d A).job n = some ⟨x, a, b, st⟩ ∧ st ≠ .copy ∧ st ≠ .split := by
    cases cl with
    | none => exact ⟨.full, by simp only [view, h, ljob], by simp, by simp⟩
    | some c => exact ⟨.claimed, by simp only [view, h, ljob], by simp, by simp⟩
  obtain ⟨st, h1, h2, h3⟩ := this
  have K := (I.jobs n _ h1).lstO h2 h3
  rcases hl with e | e <;> cases e
  · exact K.1
  · exact K.2

/-- The cells of the nodes that a full node is split into. -/
theorem expand_lst (C : Cells m d) {n i : Nat} {xl xh : Ref} {mid : Key} {pre post : List (Key × Ptr)} {b : Key} {q u : Ptr}
    (he : (m.node n).expand i xl xh mid = (pre ++ (b, q) :: post, u)) (hl : ∀ l, xl = .leaf l ∨ xh = .leaf l → d.lst l = true) (lv : Nat) :
    (∀ j l, (mkNode lv pre q).cell j = .to (.leaf l) → d.lst l = true) ∧ ∀ j l, (mkNode lv post u).cell j = .to (.leaf l) → d.lst l = true := by
  have keys : ∀ a : Key × Ptr, a ∈ pre ++ (b, q) :: post → ∀ l, a.2 = .to (.leaf l) → d.lst l = true := by
    intro a ha l e
    have hm : a ∈ ((m.node n).expand i xl xh mid).1 := by rw [he]; exact ha
    rcases (expand_keys hm).2 with h | h | ⟨e', _, _, h⟩
    · rw [e] at h; cases h; exact hl l (.inl rfl)
    · rw [e] at h; cases h; exact hl l (.inr rfl)
    · exact C n _ l (h.symm.trans e)
  have top : ∀ l, u = .to (.leaf l) → d.lst l = true := by
    intro l e
    have hu : u = ((m.node n).expand i xl xh mid).2 := by rw [he]
    rcases expand_top (M := m.node n) (i := i) (xl := xl) (xh := xh) (mid := mid) with ⟨h, _⟩ | ⟨_, h⟩
    · rw [← hu, e] at h; cases h; exact hl l (.inr rfl)
    · exact C n 0 l (h.symm.trans (hu.symm.trans e))
  refine ⟨fun j l h => ?_, fun j l h => ?_⟩
  · rcases mkNode_cell h with h | ⟨e, h1, h2⟩
    · exact keys (b, q) (by simp) l h
    · exact keys e (by simp [h1]) l h2
  · rcases mkNode_cell h with h | ⟨e, h1, h2⟩
    · exact top l h
    · exact keys e (by simp [h1]) l h2

/-- Structural changes. -/
theorem Cells.change (B : Base m d A src) (I : VInv (view m d A) d lt) (C : Cells m d) {vis : Id → Prop} (h : Change vis m m')
    (hp : ∀ n, Pass d m m' n) : Cells m' d := by
  have J := B.inv
  have id' : ∀ l, d.lst l = true → d.lst l = true := fun _ h => h
  cases h with
  | copied n i x y h =>
    refine C.node (n := n) (N := { m.node n with cell := upd (m.node n).cell i (.to (.leaf y)) }) rfl (C.cell fun l e => ?_)
    cases e
    have hg : d.gone x = true := by
      have := hp n
      simpa only [Pass, Mem.kill, Mem.setPhase, upd_eq, h] using this
    exact (I.jobs n ⟨x, y, y, .copy⟩ (by simp only [view, h, ljob])).lstC rfl hg
  | insert n i x xl xh mid ch h =>
    refine C.node (n := n) (N := { m.node n with kids := insKid mid (m.node n).used (m.node n).kids, cell := upd (m.node n).cell (m.node n).used (.to xl), used := (m.node n).used + 1 }) rfl (C.cell fun l e => ?_)
    cases e
    have hj : (m.phase n).job = some ⟨x, .leaf l, xh, mid, ch⟩ := by rw [h]; rfl
    obtain ⟨x, e⟩ := Inv.leaf_of J hj (.inl rfl)
    simp only at e
    subst e
    have := hp n
    simpa only [Pass, Mem.kill, Mem.setPhase, upd_eq, h] using this
  | swap n i x xl xh mid ch h =>
    refine C.node (n := n) (N := { m.node n with cell := upd (m.node n).cell i (.to xh) }) rfl (C.cell fun l e => ?_)
    cases e
    have hj : (m.phase n).job = some ⟨x, xl, .leaf l, mid, ch⟩ := by rw [h]; rfl
    obtain ⟨x, e⟩ := Inv.leaf_of J hj (.inr rfl)
    obtain ⟨a, b, e1, e2⟩ := Inv.leaves J hj e
    simp only at e e1 e2
    subst e e1
    cases e2
    exact ((I.jobs n ⟨x, a, l, .thawed⟩ (by simp only [view, h, ljob])).lstO (by simp) (by simp)).2
  | full n i x xl xh mid ch h => exact C.grow (by cases xh <;> rfl) id'
  | thaw n i x xl xh mid ch h => exact C.grow (by cases xl <;> rfl) id'
  | claim p s n i x xl xh mid ch pre post b q u h hd hn hf he =>
    obtain ⟨h1, h2⟩ := expand_lst C he (fun l hl => full_lst J I hf hl) (m.node n).lv
    exact Cells.node (m := m.setNode m.nN (mkNode (m.node n).lv pre q)) (n := m.nN + 1) (N := mkNode (m.node n).lv post u)
      (C.node (n := m.nN) (N := mkNode (m.node n).lv pre q) rfl h1) rfl h2
  | rootClaim n i x xl xh mid ch pre post b q u hf hr he =>
    obtain ⟨h1, h2⟩ := expand_lst C he (fun l hl => full_lst J I hf hl) (m.node n).lv
    refine Cells.node (m := (m.setNode m.nN (mkNode (m.node n).lv pre q)).setNode (m.nN + 1) (mkNode (m.node n).lv post u)) (n := m.nN + 2)
      (N := mkNode ((m.node n).lv + 1) [(b, .to (.node m.nN))] (.to (.node (m.nN + 1)))) ?_ rfl ?_
    · exact Cells.node (m := m.setNode m.nN (mkNode (m.node n).lv pre q)) (n := m.nN + 1) (N := mkNode (m.node n).lv post u)
        (C.node (n := m.nN) (N := mkNode (m.node n).lv pre q) rfl h1) rfl h2
    · intro j l hc
      rcases mkNode_cell hc with h | ⟨e, h1, h2⟩
      · cases h
      · simp only [List.mem_cons, List.not_mem_nil, or_false] at h1
        subst h1
        cases h2
  | unlink n i b r l l' h hk hc hr => exact C.node (n := n) (N := { m.node n with kids := l ++ l' }) rfl fun j z hz => C n j z hz
  | moved n i b l h hk => exact C.node (n := n) (N := { m.node n with kids := l }) rfl fun j z hz => C n j z hz
  | clear n i h => exact C.node (n := n) (N := { m.node n with cell := upd (m.node n).cell i .null }) rfl (C.cell fun l e => by cases e)
  | retire n r h hk hc hr => exact C.node (n := n) (N := { m.node n with cell := upd (m.node n).cell 0 .ret }) rfl (C.cell fun l e => by cases e)
  | move n i b r z l h hk hc hr hz =>
    exact C.node (n := n) (N := { m.node n with cell := upd (m.node n).cell 0 (.to z) }) rfl (C.cell fun l e => C n i l (hz.trans e))
  | rootSwap r n nl nh b ch h hr => exact C.grow (by simp only [Mem.release]; rfl) id'
  | _ => exact C.grow rfl id'

/-- Calls. -/
theorem Cells.touch (J : Inv m A src) (C : Cells m d) (T : Touch m A m' A') (hd : Lst.touch d m m' d') : Cells m' d' := by
  have hl : ∀ l, d.lst l = true → d'.lst l = true := by
    intro l h
    rcases hd with ⟨_, rfl⟩ | ⟨_, rfl⟩
    · exact h
    · simp only [Lst.fresh, upd_apply]
      split
      · rfl
      · exact h
  cases T with
  | same => exact C.grow rfl hl
  | newRoot h =>
    have C' : Cells m d' := C.grow rfl hl
    exact C'.node (n := m.nN) (N := Node.new) rfl (fun j l h => by cases h)
  | nullInsert n hn hc hlv =>
    have C' : Cells m d' := C.grow rfl hl
    refine C'.node (n := n) (N := { m.node n with cell := upd (m.node n).cell 0 (.to (.leaf m.nL)) }) rfl (C'.cell fun l e => ?_)
    cases e
    rcases hd with ⟨h, _⟩ | ⟨_, rfl⟩
    · have h : m.nL + 1 = m.nL := h
      omega
    · simp [Lst.fresh]
  | set k l L ho hf hg hr hr' hk => exact C.grow rfl hl

end Scc.Vine
