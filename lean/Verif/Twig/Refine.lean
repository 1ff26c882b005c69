import Verif.Twig.Seen
import Verif.Twig.Laws

/-! # The model does what the specification says -/

namespace Scc.Twig

/-- What there is to know of a state of the model. -/
def State.reg (s : State) : Reg := ⟨s.hn, s.hv, s.hw, fun t => (s.tv t).g⟩

/-- Only what thread `t` knows changes. -/
theorem reg_tau {s s' : State} {t : Nat} (hg : Good s') (h1 : s'.hn = s.hn) (h2 : s'.hv = s.hv) (h3 : s'.hw = s.hw)
    (h4 : ∀ t', t' ≠ t → s'.tv t' = s.tv t') (h5 : ∀ d, (s.tv t).g d ≤ (s'.tv t).g d) : Reg.Step s.reg .tau s'.reg := by
  have e : s'.reg = { s.reg with know := fun t => (s'.tv t).g } := by simp only [State.reg, h1, h2, h3]
  rw [e]
  refine .tau ?_ ?_
  · intro t' k
    show (s.tv t').g k ≤ (s'.tv t').g k
    by_cases e : t' = t
    · subst e; exact h5 k
    · rw [h4 t' e]; exact Nat.le_refl _
  · intro t' k
    show _ ≤ s.hn k
    rw [← h1]; exact hg.know t' k

theorem reg_go {s s1 : State} {t : Nat} {q : Pc} {w : View} (hg : Good (s1.go t q w)) (h1 : s1.hn = s.hn) (h2 : s1.hv = s.hv)
    (h3 : s1.hw = s.hw) (h4 : s1.tv = s.tv) (h5 : ∀ d, (s.tv t).g d ≤ w.g d) : Reg.Step s.reg .tau (s1.go t q w).reg := by
  refine reg_tau (t := t) hg h1 h2 h3 ?_ ?_
  · intro t' e
    show upd s1.tv t w t' = _
    rw [upd_ne _ _ e, h4]
  · intro d
    show _ ≤ (upd s1.tv t w t).g d
    rw [upd_self]; exact h5 d

theorem know_le {v : View} {k j d : Nat} : v.g d ≤ (v.know k j).g d := le_upd

theorem go_reg {s : State} {t : Nat} {q : Pc} {w : View} : (s.go t q w).reg = { s.reg with know := upd s.reg.know t w.g } := by
  have e2 : (fun t' => (upd s.tv t w t').g) = upd (fun t' => (s.tv t').g) t w.g := by
    funext t'
    by_cases e : t' = t
    · subst e; rw [upd_self, upd_self]
    · rw [upd_ne _ _ e, upd_ne _ _ e]
  exact congrArg (Reg.mk s.hn s.hv s.hw) e2

/-- A call changes the newest value of its key. -/
theorem reg_set {s s1 : State} {t k n c x : Nat} {o : Op} {a : Option Nat} (h : Good s) (hp : s.pc t = .ent o k n c x)
    (hd : s.dead x = false) (ha : a = none ↔ (s.page x).has k ≠ none)
    (hs : s1 = s.addHist k a ((s.tl t x).know k (s.hn k + 1)).g) {q : Pc}
    (h1 : ∀ d, d ≠ k → (s.lv x (s.ln x)).g d ≤ s.hn d) :
    Reg.Step s.reg (.set t k a) (s1.go t q ((s.tl t x).know k (s.hn k + 1))).reg := by
  subst hs
  have he : Ent s (s.tv t) k n c x := h.inv.pcAt hp
  have hnow := h.inv.core.now he.path hd
  have hver := h.inv.core.fresh k x hnow.2
  have hval := h.inv.core.val k n c x (s.ln x) he.path (Nat.le_refl _)
  rw [hver] at hval
  have e : ((s.addHist k a ((s.tl t x).know k (s.hn k + 1)).g).go t q ((s.tl t x).know k (s.hn k + 1))).reg =
      { n := upd s.reg.n k (s.reg.n k + 1), val := upd s.reg.val k (upd (s.reg.val k) (s.reg.n k + 1) a),
        src := upd s.reg.src k (upd (s.reg.src k) (s.reg.n k + 1) ((s.tl t x).know k (s.hn k + 1)).g),
        know := upd s.reg.know t ((s.tl t x).know k (s.hn k + 1)).g } := by
    rw [go_reg]; rfl
  have hself : (s.tl t x).g k ≤ s.hn k := by
    show max _ _ ≤ _
    refine Nat.max_le.mpr ⟨h.know t k, ?_⟩
    cases (h.inv.views.lv x _ (Nat.le_refl _)).wit k with
    | inl h2 => omega
    | inr h2 =>
      obtain ⟨n', c', x', u, _, h3, _, _, _, h7⟩ := h2
      exact Nat.le_trans h7 (h.inv.core.verb x' u k h3)
  rw [e]
  refine .set ?_ ?_ ?_ ?_ ?_
  · show a = none ↔ s.hv k (s.hn k) ≠ none
    rw [← hval]; exact ha
  · intro d; exact Nat.le_trans (join_left (s.tv t) _ d) know_le
  · intro d
    have h2 := h.brings hp (Nat.le_refl (s.ln x)) d
    rw [hver] at h2
    exact Nat.le_trans h2 (know_le (v := s.tl t x))
  · show upd (s.tl t x).g k (max ((s.tl t x).g k) (s.hn k + 1)) k = s.hn k + 1
    rw [upd_self]; omega
  · intro d hd'
    show upd (s.tl t x).g k _ d ≤ s.hn d
    rw [upd_ne _ _ hd']
    exact Nat.max_le.mpr ⟨h.know t d, h1 d hd'⟩

theorem Good.page {s : State} (h : Good s) {x u : Nat} (hu : u ≤ s.ln x) (d : Nat) : (s.lv x u).g d ≤ s.hn d := by
  cases (h.inv.views.lv x u hu).wit d with
  | inl h2 => omega
  | inr h2 =>
    obtain ⟨n', c', x', u, _, h3, _, _, _, h7⟩ := h2
    exact Nat.le_trans h7 (h.inv.core.verb x' u d h3)

theorem reg_step {s s' : State} {l : Label} (h : Good s) (hs : Step s l s') : Reg.Step s.reg l s'.reg := by
  have hg := good_step h hs
  cases hs with
  | sel h1 _ h3 => exact reg_go hg rfl rfl rfl rfl (fun d => join_left _ _ d)
  | load h1 h2 h3 h4 => exact reg_go hg rfl rfl rfl rfl (fun d => join_left _ _ d)
  | valid h1 h2 h3 h4 => exact reg_go hg rfl rfl rfl rfl (fun d => Nat.le_refl _)
  | retry h1 => exact reg_go hg rfl rfl rfl rfl (fun d => Nat.le_refl _)
  | @read t k n c x u u' o h1 h2 h3 h4 h5 =>
    have he : Ent s (s.tv t) k n c x := h.inv.pcAt h1
    have hu : u ≤ s.ln x := Nat.le_trans h3 h4
    have hval := h.inv.core.val k n c x u he.path hu
    rw [go_reg, hval]
    refine Reg.Step.saw (r := s.reg) (t := t) (k := k) (j := s.ver x u k) (he.fine u h2 hu) (h.inv.core.verb x u k hu) ?_ ?_ ?_ ?_
    · intro d
      exact Nat.le_trans (Nat.le_trans (join_left (s.tv t) (s.lv x u) d) (join_left _ (s.lv x u') d)) know_le
    · intro d
      exact Nat.le_trans (h.brings h1 hu d) (Nat.le_trans (join_left ((s.tv t).join (s.lv x u)) (s.lv x u') d) know_le)
    · show _ ≤ upd _ k (max _ _) k
      rw [upd_self]; exact Nat.le_max_right _ _
    · intro d
      refine upd_le ?_ (h.inv.core.verb x u k hu) d
      intro d
      exact Nat.max_le.mpr ⟨Nat.max_le.mpr ⟨h.know t d, h.page hu d⟩, h.page h4 d⟩
  | reserve h1 h2 h3 => exact reg_go hg rfl rfl rfl rfl (fun d => join_left _ _ d)
  | undo h1 => exact reg_go hg rfl rfl rfl rfl (fun d => Nat.le_refl _)
  | late h1 h2 h3 => exact reg_go hg rfl rfl rfl rfl (fun d => Nat.le_refl _)
  | @ins t k n c x v h1 h2 h3 h4 =>
    have hd : s.dead x = false := by
      cases hd : s.dead x with
      | false => rfl
      | true => cases h.inv.core.block x hd with
        | inl h5 => rw [h2] at h5; cases h5
        | inr h5 => rw [h3] at h5; cases h5
    exact reg_set h h1 hd ⟨(fun e => by cases e), fun e => absurd h4 e⟩ rfl (q := .idle) (fun d _ => h.page (Nat.le_refl _) d)
  | @del t k n c x v r h1 h2 h3 h4 =>
    have hr : (s.page x).retired = false := by
      cases hr : (s.page x).retired with
      | false => rfl
      | true =>
        have := h.inv.core.empty x _ k (Nat.le_refl _) hr
        rw [show s.lw x (s.ln x) = s.page x from rfl, h3] at this; cases this
    have hd : s.dead x = false := by
      cases hd : s.dead x with
      | false => rfl
      | true => cases h.inv.core.block x hd with
        | inl h5 => rw [h2] at h5; cases h5
        | inr h5 => rw [hr] at h5; cases h5
    exact reg_set h h1 hd ⟨(fun _ => by rw [h3]; intro e; cases e), fun _ => rfl⟩ rfl (q := .idle)
      (fun d _ => h.page (Nat.le_refl _) d)
  | lock h1 h2 => exact reg_go hg rfl rfl rfl rfl (fun d => join_left _ _ d)
  | unlock h1 => exact reg_go hg rfl rfl rfl rfl (fun d => Nat.le_refl _)
  | freeze h1 h2 h3 h4 _ => exact reg_go hg rfl rfl rfl rfl (fun d => join_left _ _ d)
  | abort h1 => exact reg_go hg rfl rfl rfl rfl (fun d => Nat.le_refl _)
  | make h1 h2 h3 h4 => exact reg_go hg rfl rfl rfl rfl (fun d => Nat.le_refl _)
  | resv h1 => exact reg_go hg rfl rfl rfl rfl (fun d => join_left _ _ d)
  | publ h1 => exact reg_go hg rfl rfl rfl rfl (fun d => join_left _ _ d)
  | thaw h1 => exact reg_go hg rfl rfl rfl rfl (fun d => Nat.le_refl _)
  | swap h1 => exact reg_go hg rfl rfl rfl rfl (fun d => Nat.le_refl _)
  | make1 h1 => exact reg_go hg rfl rfl rfl rfl (fun d => Nat.le_refl _)
  | swap1 h1 => exact reg_go hg rfl rfl rfl rfl (fun d => Nat.le_refl _)
  | @drop t q c x u n h1 h2 h3 h4 h5 h6 h7 _ h9 h10 =>
    exact reg_go hg rfl rfl rfl rfl (fun d => Nat.le_trans (join_left (s.tv t) _ d) (join_left (s.tm t) _ d))
  | null h1 => exact reg_go hg rfl rfl rfl rfl (fun d => Nat.le_refl _)
  | @sync a b h1 =>
    rw [go_reg]
    exact Reg.Step.sync (r := s.reg)

theorem good_run {s s' : State} {tr : List Label} (h : Good s) (hr : Run s tr s') : Good s' := by
  induction tr generalizing s with
  | nil => cases hr; exact h
  | cons e tr ih => obtain ⟨m, h1, h2⟩ := hr; exact ih (good_step h h1) h2

theorem reg_run {s s' : State} {tr : List Label} (h : Good s) (hr : Run s tr s') : Reg.Run s.reg tr s'.reg := by
  induction tr generalizing s with
  | nil => cases hr; rfl
  | cons e tr ih => obtain ⟨m, h1, h2⟩ := hr; exact ⟨m.reg, reg_step h h1, ih (good_step h h1) h2⟩

end Scc.Twig
