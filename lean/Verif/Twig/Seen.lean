import Verif.Twig.Causes

/-! # What a thread that searches has taken over -/

namespace Scc.Twig

/-- The views of the values that were read were taken over. -/
def SeenPc (s : State) (v : View) : Pc → Prop
  | .sel _ _ n => ∀ d, (s.mv n).g d ≤ v.g d
  | .got _ k n c _ | .ent _ k n c _ => ∀ d, (s.mv n).g d ≤ v.g d ∧ (s.cv (s.R n k) c).g d ≤ v.g d
  | _ => True

def Seen (s : State) : Prop := ∀ t, SeenPc s (s.tv t) (s.pc t)

theorem SeenPc.ext {s s' : State} {v : View} {p : Pc} (h : SeenPc s v p) (hp : PcOk s v p) (he : Ext s s') : SeenPc s' v p := by
  cases p with
  | sel o k n =>
    have hp : Sel s v n := hp
    intro d
    rw [he.mv n hp.le]
    exact h d
  | got o k n c x =>
    have hp : Got s v k n c x := hp
    intro d
    rw [he.R hp.le, he.mv n hp.le, (he.cell _ c x hp.lc hp.ptr).2]
    exact h d
  | ent o k n c x =>
    have hp : Ent s v k n c x := hp
    intro d
    rw [he.R hp.path.le, he.mv n hp.path.le, (he.cell _ c x hp.path.lc hp.path.ptr).2]
    exact h d
  | _ => trivial

theorem seen_go {s s1 : State} {t : Nat} {q : Pc} {w : View} (hi : Inv s) (h : Seen s) (he : Ext s s1) (hpc : s1.pc = s.pc)
    (htv : s1.tv = s.tv) (hq : SeenPc s1 w q) : Seen (s1.go t q w) := by
  intro t'
  by_cases e : t' = t
  · subst e
    rw [show (s1.go t' q w).tv t' = w from upd_self _ _ _, show (s1.go t' q w).pc t' = q from upd_self _ _ _]
    cases q <;> exact hq
  · rw [show (s1.go t q w).tv t' = s1.tv t' from upd_ne _ _ e, show (s1.go t q w).pc t' = s1.pc t' from upd_ne _ _ e, hpc, htv]
    have h1 := (h t').ext (hi.pcs t') he
    revert h1
    cases s.pc t' <;> exact id

theorem Inv.fresh {s : State} (hi : Inv s) {t i x b lo hi' p : Nat} (hp : s.pc t = .resv i x b lo hi' p) :
    ∀ c, s.cp p c = none := by
  have h : Made s i x b lo hi' ∧ Slot s p := hi.pcAt hp
  exact h.2.none

theorem seen_step {s s' : State} {l : Label} (hi : Inv s) (h : Seen s) (hs : Step s l s') : Seen s' := by
  have at' : ∀ {t : Nat} {p : Pc}, s.pc t = p → SeenPc s (s.tv t) p := fun e => e ▸ h _
  have hnew : ∀ x u k, u ≤ s.ln x → s.ver x u k ≤ s.hn k := fun x u k hu => hi.core.verb x u k hu
  cases hs with
  | sel h1 _ h3 => exact seen_go hi h (.refl s) rfl rfl (fun d => join_right _ _ d)
  | load h1 h2 h3 h4 =>
    have hp := at' h1
    exact seen_go hi h (.refl s) rfl rfl (fun d => ⟨Nat.le_trans (hp d) (join_left _ _ d), join_right _ _ d⟩)
  | valid h1 h2 h3 h4 => exact seen_go hi h (.refl s) rfl rfl (at' h1)
  | retry h1 => exact seen_go hi h (.refl s) rfl rfl trivial
  | read h1 _ h3 h4 _ => exact seen_go hi h (.refl s) rfl rfl trivial
  | reserve h1 h2 h3 =>
    have hp := at' h1
    exact seen_go hi h (ext_page (fun _ => Nat.le_refl _)) rfl rfl
      (fun d => ⟨Nat.le_trans (hp d).1 (join_left _ _ d), Nat.le_trans (hp d).2 (join_left _ _ d)⟩)
  | undo h1 => exact seen_go hi h (ext_page (fun _ => Nat.le_refl _)) rfl rfl (at' h1)
  | late h1 h2 h3 => exact seen_go hi h (ext_page (fun _ => Nat.le_refl _)) rfl rfl trivial
  | @ins t k n c x v h1 h2 h3 h4 =>
    refine seen_go hi h (ext_hist (ext_page ?_)) rfl rfl trivial
    intro d
    by_cases e : d = k
    · subst e; rw [upd_self]; exact Nat.le_succ_of_le (hnew x _ d (Nat.le_refl _))
    · rw [upd_ne _ _ e]; exact Nat.le_refl _
  | @del t k n c x v r h1 h2 h3 h4 =>
    refine seen_go hi h (ext_hist (ext_page ?_)) rfl rfl trivial
    intro d
    by_cases e : d = k
    · subst e; rw [upd_self]; exact Nat.le_succ_of_le (hnew x _ d (Nat.le_refl _))
    · rw [upd_ne _ _ e]; exact Nat.le_refl _
  | lock h1 h2 => exact seen_go hi h ext_ctl rfl rfl trivial
  | unlock h1 => exact seen_go hi h ext_ctl rfl rfl trivial
  | freeze h1 h2 h3 h4 _ => exact seen_go hi h (ext_page (fun _ => Nat.le_refl _)) rfl rfl trivial
  | abort h1 => exact seen_go hi h (ext_page (fun _ => Nat.le_refl _)) rfl rfl trivial
  | @make t i x b d h1 h2 h3 h4 =>
    exact seen_go hi h ((ext_new (Nat.le_refl _)).trans (ext_new (Nat.le_refl _)) (Nat.le_succ _)) rfl rfl trivial
  | resv h1 => exact seen_go hi h ext_word rfl rfl trivial
  | publ h1 => exact seen_go hi h (ext_dead ((ext_init (hi.fresh h1)).trans ext_word (Nat.le_refl _))) rfl rfl trivial
  | thaw h1 => exact seen_go hi h (ext_page (fun _ => Nat.le_refl _)) rfl rfl trivial
  | swap h1 => exact seen_go hi h ext_cell rfl rfl trivial
  | make1 h1 => exact seen_go hi h (ext_new (Nat.le_refl _)) rfl rfl trivial
  | swap1 h1 => exact seen_go hi h (ext_dead ext_cell) rfl rfl trivial
  | drop h1 h2 h3 h4 h5 h6 h7 _ h9 h10 =>
    exact seen_go hi h (ext_dead (ext_word.trans (ext_rever hnew) (Nat.le_refl _))) rfl rfl trivial
  | null h1 => exact seen_go hi h ext_cell rfl rfl trivial
  | sync h1 => exact seen_go hi h (.refl s) rfl rfl trivial

/-- All that holds in reachable states. -/
structure Good (s : State) : Prop where
  inv : Inv s
  cause : Cause s
  seen : Seen s

theorem good_init : Good .init := ⟨inv_init, cause_init, fun _ => trivial⟩

theorem good_step {s s' : State} {l : Label} (h : Good s) (hs : Step s l s') : Good s' :=
  ⟨inv_step h.inv hs, cause_step h.inv h.cause hs, seen_step h.inv h.seen hs⟩

theorem Good.know {s : State} (h : Good s) (t k : Nat) : (s.tv t).g k ≤ s.hn k := by
  cases (h.inv.views.tv t).wit k with
  | inl h1 => omega
  | inr h1 =>
    obtain ⟨n, c, x, u, _, h3, _, _, _, h7⟩ := h1
    exact Nat.le_trans h7 (h.inv.core.verb x u k h3)

/-- Whoever searches and reads value `u` of the leaf knows what the thread that wrote what it shows knew. -/
theorem Good.brings {s : State} (h : Good s) {t k n c x u : Nat} {o : Op} (hp : s.pc t = .ent o k n c x) (hu : u ≤ s.ln x)
    (d : Nat) : s.hw k (s.ver x u k) d ≤ max ((s.tv t).g d) ((s.lv x u).g d) := by
  have h1 : Ent s (s.tv t) k n c x := h.inv.pcAt hp
  have h2 := h.cause.flow.pub k n c x u d h1.path hu
  have h3 : SeenPc s (s.tv t) (.ent o k n c x) := hp ▸ h.seen t
  have h4 := h3 d
  omega

end Scc.Twig
