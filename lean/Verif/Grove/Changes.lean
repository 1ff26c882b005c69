import Verif.Grove.Calls

/-!
# All steps of structural changes
-/

namespace Scc.Grove

local notation "Key" => Nat
local notation "Id" => Nat
local notation "Thr" => Nat

variable {V : Type} {m m' : Mem V} {A : Key → Option V} {src : Ref → Ref}

/-- Versions grow, and the keys of a node change only with its version. -/
def Vers (m m' : Mem V) : Prop :=
  ∀ n, n < m.nN → m.ver n ≤ m'.ver n ∧ (m'.ver n = m.ver n → (m'.node n).kids = (m.node n).kids)

theorem Vers.same (h1 : m'.ver = m.ver) (h2 : ∀ n, n < m.nN → (m'.node n).kids = (m.node n).kids) : Vers m m' :=
  fun n hn => ⟨by rw [h1]; exact Nat.le_refl _, fun _ => h2 n hn⟩

theorem Vers.bump {n : Id} (h1 : m'.ver = upd m.ver n (m.ver n + 1)) (h2 : ∀ c, c ≠ n → m'.node c = m.node c) :
    Vers m m' := by
  intro c _
  rw [h1]
  by_cases e : c = n
  · subst e
    rw [upd_eq]
    exact ⟨Nat.le_succ _, fun h => absurd h (Nat.succ_ne_self _)⟩
  · rw [upd_ne e, h2 c e]
    exact ⟨Nat.le_refl _, fun _ => rfl⟩

theorem Inv.change (I : Inv m A src) {vis : Id → Prop}
    (hv : ∀ n, vis n → m.phase n = .free → Lit m.root m.node (.node n) ∨ (m.node n).cell 0 = .ret)
    (h : Change vis m m') : ∃ src', Next m m' A src' ∧ Vers m m' := by
  cases h with
  | lock n h hn =>
    refine ⟨src, ⟨I.lock h ?_, .quiet rfl rfl rfl rfl rfl rfl⟩, .same rfl fun _ _ => rfl⟩
    rcases hn with hn | hn
    · exact hv n hn h
    · exact .inl ⟨0, .root hn⟩
  | unlock n h => exact ⟨src, ⟨I.unlock h, .quiet rfl rfl rfl rfl rfl rfl⟩, .same rfl fun _ _ => rfl⟩
  | copy n i x h hi hx =>
    refine ⟨_, ⟨I.copy h hi hx, .grow I rfl (fun _ _ => rfl) (fun l hl => ?_) rfl (Nat.le_refl _) (Nat.le_succ _)⟩, .same rfl fun _ _ => rfl⟩
    exact upd_ne (Nat.ne_of_lt hl)
  | copied n i x y h =>
    refine ⟨src, (I.copied h).next, .same rfl fun c _ => ?_⟩
    simp only [Mem.kill, Mem.setPhase, Mem.setNode, upd_apply]
    split
    · next e => rw [e]
    · rfl
  | halve n i x mid k v w h hi hx hm hk hlt =>
    refine ⟨_, ⟨I.halve h hi hx hm hk hlt, .grow I rfl (fun _ _ => rfl) (fun l hl => ?_) rfl (Nat.le_refl _) (Nat.le_add_right _ _)⟩, .same rfl fun _ _ => rfl⟩
    simp only [Mem.setPhase, Mem.setLeaf, Mem.freeze]
    rw [upd_ne (by omega), upd_ne (by omega)]
  | reserve n i x xl xh mid ch h =>
    exact ⟨src, ⟨I.reserve, .quiet rfl rfl rfl rfl rfl rfl⟩, .bump (n := n) rfl fun _ _ => rfl⟩
  | insert n i x xl xh mid ch h => exact ⟨src, (I.insert h).next, .bump (n := n) rfl fun c hc => upd_ne hc⟩
  | thaw n i x xl xh mid ch h =>
    cases xl <;> exact ⟨src, ⟨I.thaw h, .quiet rfl rfl rfl rfl rfl rfl⟩, .same rfl fun _ _ => rfl⟩
  | swap n i x xl xh mid ch h =>
    refine ⟨src, (I.swap h).next, .same rfl fun c _ => ?_⟩
    simp only [Mem.release, Mem.setPhase, Mem.setNode, upd_apply]
    split
    · next e => rw [e]
    · rfl
  | full n i x xl xh mid ch h =>
    cases xh <;> exact ⟨src, ⟨I.fullStep h, .quiet rfl rfl rfl rfl rfl rfl⟩, .same rfl fun _ _ => rfl⟩
  | rollLeaf n i x xl xh mid ch h => exact ⟨src, ⟨I.rollLeaf h, .quiet rfl rfl rfl rfl rfl rfl⟩, .same rfl fun _ _ => rfl⟩
  | rollNode n i c xl xh mid ch i' x' xl' xh' mid' ch' cl h hc =>
    exact ⟨src, ⟨I.rollNode h hc, .quiet rfl rfl rfl rfl rfl rfl⟩, .same rfl fun _ _ => rfl⟩
  | claim p d n i x xl xh mid ch pre post b q u h hd hn hf he =>
    have nodes : ∀ c, c < m.nN → upd (upd m.node m.nN (mkNode (m.node n).lv pre q)) (m.nN + 1) (mkNode (m.node n).lv post u) c = m.node c := by
      intro c hc
      rw [upd_ne (by omega), upd_ne (by omega)]
    exact ⟨_, ⟨I.claim h hd hn hf he, .grow I rfl nodes (fun _ _ => rfl) rfl (Nat.le_add_right _ _) (Nat.le_refl _)⟩,
      .same rfl fun c hc => congrArg Node.kids (nodes c hc)⟩
  | rootClaim n i x xl xh mid ch pre post b q u hf hr he =>
    have nodes : ∀ c, c < m.nN → upd (upd (upd m.node m.nN (mkNode (m.node n).lv pre q)) (m.nN + 1) (mkNode (m.node n).lv post u)) (m.nN + 2)
        (mkNode ((m.node n).lv + 1) [(b, .to (.node m.nN))] (.to (.node (m.nN + 1)))) c = m.node c := by
      intro c hc
      rw [upd_ne (by omega), upd_ne (by omega), upd_ne (by omega)]
    exact ⟨_, ⟨I.rootClaim hf hr he, .grow I rfl nodes (fun _ _ => rfl) rfl (Nat.le_add_right _ _) (Nat.le_refl _)⟩,
      .same rfl fun c hc => congrArg Node.kids (nodes c hc)⟩
  | rootSwap r n nl nh b ch h hr => exact ⟨src, (I.rootSwap h hr).next, .same rfl fun _ _ => rfl⟩
  | rootFail r n nl nh b ch i x xl xh mid ch' cl h hn => exact ⟨src, ⟨I.rootFail h hn, .quiet rfl rfl rfl rfl rfl rfl⟩, .same rfl fun _ _ => rfl⟩
  | finLow n xl xh nl nh h => exact ⟨src, ⟨I.finLow h, .quiet rfl rfl rfl rfl rfl rfl⟩, .same rfl fun _ _ => rfl⟩
  | finHigh n xl xh nl nh h => exact ⟨src, ⟨I.finHigh h, .quiet rfl rfl rfl rfl rfl rfl⟩, .same rfl fun _ _ => rfl⟩
  | finLowNode n xl xh nl nh h => exact ⟨src, ⟨I.finLowNode h, .quiet rfl rfl rfl rfl rfl rfl⟩, .same rfl fun _ _ => rfl⟩
  | finHighNode n xl xh nl nh h => exact ⟨src, ⟨I.finHighNode h, .quiet rfl rfl rfl rfl rfl rfl⟩, .same rfl fun _ _ => rfl⟩
  | unlink n i b r l l' h hk hc hr => exact ⟨src, (I.unlink h hk hc hr).next, .bump (n := n) rfl fun c hc => upd_ne hc⟩
  | clear n i h =>
    refine ⟨src, (I.clear h).next, .same rfl fun c _ => ?_⟩
    simp only [Mem.setPhase, Mem.setNode, upd_apply]
    split
    · next e => rw [e]
    · rfl
  | retire n r h hk hc hr =>
    refine ⟨src, (I.retire h hk hc hr).next, .same rfl fun c _ => ?_⟩
    simp only [Mem.setNode, upd_apply]
    split
    · next e => rw [e]
    · rfl
  | move n i b r z l h hk hc hr hz =>
    refine ⟨src, (I.moveStep h hk hc hr hz).next, .same rfl fun c _ => ?_⟩
    simp only [Mem.setPhase, Mem.setNode, upd_apply]
    split
    · next e => rw [e]
    · rfl
  | moved n i b l h hk => exact ⟨src, (I.movedStep h hk).next, .bump (n := n) rfl fun c hc => upd_ne hc⟩
  | rootEmpty n h hr hn => exact ⟨src, (I.rootEmpty h hr hn).next, .same rfl fun _ _ => rfl⟩
  | rootOnly n c h hr hk hc => exact ⟨src, (I.rootOnly h hr hk hc).next, .same rfl fun _ _ => rfl⟩

end Scc.Grove
