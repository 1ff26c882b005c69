import Verif.Haze.Order

/-! # Accesses to the same bucket are ordered -/

namespace Scc.Haze

/-- The accesses to a bucket are known to the lock or to those who have it. -/
structure Race (s : State) : Prop where
  r1 : ∀ v b, s.wl v b = none → ∀ x, s.wr v b x → (s.bmsg v b).ops x
  r2 : ∀ v b x, s.rd v b x → (s.bmsg v b).ops x ∨ ∃ t, s.sl v b t = true ∧ (s.tv t).ops x
  r3 : ∀ v b t f, s.wl v b = some (t, f) → ∀ x, s.wr v b x ∨ s.rd v b x → (s.tv t).ops x
  r4 : ∀ v b t, s.sl v b t = true → ∀ x, s.wr v b x → (s.tv t).ops x

theorem race_init : Race State.init := by
  constructor <;> intros <;> simp_all [State.init]

/-- Steps that change no lock. -/
theorem Race.keep {s s' : State} (R : Race s) (hw : s'.wl = s.wl) (hs : s'.sl = s.sl) (hb : s'.bmsg = s.bmsg) (h1 : s'.wr = s.wr) (h2 : s'.rd = s.rd)
    (ht : ∀ u x, (s.tv u).ops x → (s'.tv u).ops x) : Race s' where
  r1 := by rw [hw, h1, hb]; exact R.r1
  r2 := by
    rw [h2, hb, hs]; intro v b x hx
    rcases R.r2 v b x hx with h | ⟨t, h, h'⟩
    · exact .inl h
    · exact .inr ⟨t, h, ht _ _ h'⟩
  r3 := by rw [hw, h1, h2]; exact fun v b t f h x hx => ht _ _ (R.r3 v b t f h x hx)
  r4 := by rw [hs, h1]; exact fun v b t h x hx => ht _ _ (R.r4 v b t h x hx)

theorem ops_upd {s : State} {t : Nat} {v : View} (h : ∀ w, (s.tv t).ops w → v.ops w) : ∀ u w, (s.tv u).ops w → (upd s.tv t v u).ops w := by
  intro u w hu
  by_cases e : u = t
  · rw [e, upd_eq]; exact h w (e ▸ hu)
  · rw [upd_ne _ _ e]; exact hu

/-- The lock is taken exclusively. -/
theorem Race.lock {s s' : State} (R : Race s) {v b t : Nat} {f : Bool} (hf : s.wl v b = none) (hf' : ∀ u, s.sl v b u = false)
    (hw : s'.wl = upd2 s.wl v b (some (t, f))) (hs : s'.sl = s.sl) (hb : s'.bmsg = s.bmsg) (h1 : s'.wr = s.wr) (h2 : s'.rd = s.rd)
    (ht : s'.tv = upd s.tv t ((s.tv t).join (s.bmsg v b))) : Race s' := by
  have hm : ∀ u x, (s.tv u).ops x → (s'.tv u).ops x := by rw [ht]; exact ops_upd (fun _ h => .inl h)
  refine ⟨?_, ?_, ?_, ?_⟩
  · intro a c hn x hx
    rw [hw] at hn; rw [h1] at hx; rw [hb]
    by_cases e : a = v ∧ c = b
    · rw [e.1, e.2, upd2_eq] at hn; cases hn
    · rw [upd2_ne _ _ e] at hn; exact R.r1 a c hn x hx
  · rw [h2, hb, hs]; intro a c x hx
    rcases R.r2 a c x hx with h | ⟨u, h, h'⟩
    · exact .inl h
    · exact .inr ⟨u, h, hm _ _ h'⟩
  · intro a c u g hh x hx
    rw [hw] at hh; rw [h1, h2] at hx
    by_cases e : a = v ∧ c = b
    · rw [e.1, e.2, upd2_eq] at hh
      obtain ⟨rfl, rfl⟩ := e
      cases hh
      rw [ht, upd_eq]
      rcases hx with hx | hx
      · exact .inr (R.r1 _ _ hf x hx)
      · rcases R.r2 _ _ x hx with h | ⟨u, h, _⟩
        · exact .inr h
        · rw [hf' u] at h; cases h
    · rw [upd2_ne _ _ e] at hh; exact hm _ _ (R.r3 a c u g hh x hx)
  · rw [hs, h1]; exact fun a c u hh x hx => hm _ _ (R.r4 a c u hh x hx)

/-- The lock is released by one who has it exclusively. -/
theorem Race.unlock {s s' : State} (R : Race s) {v b t : Nat} {f : Bool} (hf : s.wl v b = some (t, f))
    (hw : s'.wl = upd2 s.wl v b none) (hs : s'.sl = s.sl) (hb : s'.bmsg = upd2 s.bmsg v b ((s.bmsg v b).join (s.tv t))) (h1 : s'.wr = s.wr) (h2 : s'.rd = s.rd)
    (ht : s'.tv = upd s.tv t (s.tv t)) : Race s' := by
  have hm : ∀ u x, (s.tv u).ops x → (s'.tv u).ops x := by rw [ht]; exact ops_upd (fun _ h => h)
  have hg : ∀ a c x, (s.bmsg a c).ops x → (s'.bmsg a c).ops x := by
    intro a c x hx
    rw [hb]
    by_cases e : a = v ∧ c = b
    · rw [e.1, e.2, upd2_eq]; rw [e.1, e.2] at hx; exact .inl hx
    · rw [upd2_ne _ _ e]; exact hx
  refine ⟨?_, ?_, ?_, ?_⟩
  · intro a c hn x hx
    rw [hw] at hn; rw [h1] at hx
    by_cases e : a = v ∧ c = b
    · obtain ⟨rfl, rfl⟩ := e
      rw [hb, upd2_eq]; exact .inr (R.r3 _ _ _ _ hf x (.inl hx))
    · rw [upd2_ne _ _ e] at hn; exact hg _ _ _ (R.r1 a c hn x hx)
  · rw [h2, hs]; intro a c x hx
    rcases R.r2 a c x hx with h | ⟨u, h, h'⟩
    · exact .inl (hg _ _ _ h)
    · exact .inr ⟨u, h, hm _ _ h'⟩
  · intro a c u g hh x hx
    rw [hw] at hh; rw [h1, h2] at hx
    by_cases e : a = v ∧ c = b
    · rw [e.1, e.2, upd2_eq] at hh; cases hh
    · rw [upd2_ne _ _ e] at hh; exact hm _ _ (R.r3 a c u g hh x hx)
  · rw [hs, h1]; exact fun a c u hh x hx => hm _ _ (R.r4 a c u hh x hx)

theorem race_share {s s' : State} (R : Race s) {v b t : Nat} (hf : s.wl v b = none)
    (hw : s'.wl = s.wl) (hs : s'.sl = upd2 s.sl v b (upd (s.sl v b) t true)) (hb : s'.bmsg = s.bmsg) (h1 : s'.wr = s.wr) (h2 : s'.rd = s.rd)
    (ht : s'.tv = upd s.tv t ((s.tv t).join (s.bmsg v b))) : Race s' := by
  have hm : ∀ u x, (s.tv u).ops x → (s'.tv u).ops x := by rw [ht]; exact ops_upd (fun _ h => .inl h)
  have hl : ∀ a c u, s'.sl a c u = true ↔ s.sl a c u = true ∨ (a = v ∧ c = b ∧ u = t) := by
    intro a c u; rw [hs]
    by_cases e : a = v ∧ c = b
    · obtain ⟨rfl, rfl⟩ := e
      rw [upd2_eq]
      by_cases e' : u = t
      · simp [e', upd_eq]
      · simp [upd_ne _ _ e', e']
    · rw [upd2_ne _ _ e]
      exact ⟨.inl, fun h => h.elim id (fun g => absurd ⟨g.1, g.2.1⟩ e)⟩
  refine ⟨?_, ?_, ?_, ?_⟩
  · rw [hw, h1, hb]; exact R.r1
  · rw [h2, hb]; intro a c x hx
    rcases R.r2 a c x hx with h | ⟨u, h, h'⟩
    · exact .inl h
    · exact .inr ⟨u, (hl a c u).mpr (.inl h), hm _ _ h'⟩
  · rw [hw, h1, h2]; exact fun a c u g hh x hx => hm _ _ (R.r3 a c u g hh x hx)
  · intro a c u hh x hx
    rw [h1] at hx
    rcases (hl a c u).mp hh with h | ⟨rfl, rfl, rfl⟩
    · exact hm _ _ (R.r4 a c u h x hx)
    · rw [ht, upd_eq]; exact .inr (R.r1 _ _ hf x hx)

theorem race_unshare {s s' : State} (R : Race s) {v b t : Nat}
    (hw : s'.wl = s.wl) (hs : s'.sl = upd2 s.sl v b (upd (s.sl v b) t false)) (hb : s'.bmsg = upd2 s.bmsg v b ((s.bmsg v b).join (s.tv t))) (h1 : s'.wr = s.wr) (h2 : s'.rd = s.rd)
    (ht : s'.tv = upd s.tv t (s.tv t)) : Race s' := by
  have hm : ∀ u x, (s.tv u).ops x → (s'.tv u).ops x := by rw [ht]; exact ops_upd (fun _ h => h)
  have hg : ∀ a c x, (s.bmsg a c).ops x → (s'.bmsg a c).ops x := by
    intro a c x hx
    rw [hb]
    by_cases e : a = v ∧ c = b
    · rw [e.1, e.2, upd2_eq]; rw [e.1, e.2] at hx; exact .inl hx
    · rw [upd2_ne _ _ e]; exact hx
  have hl : ∀ a c u, s'.sl a c u = true → s.sl a c u = true := by
    intro a c u hh
    rw [hs] at hh
    by_cases e : a = v ∧ c = b
    · obtain ⟨rfl, rfl⟩ := e
      rw [upd2_eq] at hh
      by_cases e' : u = t
      · rw [e', upd_eq] at hh; cases hh
      · rw [upd_ne _ _ e'] at hh; exact hh
    · rw [upd2_ne _ _ e] at hh; exact hh
  refine ⟨?_, ?_, ?_, ?_⟩
  · rw [hw, h1]; exact fun a c hn x hx => hg _ _ _ (R.r1 a c hn x hx)
  · rw [h2]; intro a c x hx
    rcases R.r2 a c x hx with h | ⟨u, h, h'⟩
    · exact .inl (hg _ _ _ h)
    · by_cases e : a = v ∧ c = b ∧ u = t
      · obtain ⟨rfl, rfl, rfl⟩ := e
        refine .inl ?_; rw [hb, upd2_eq]; exact .inr h'
      · refine .inr ⟨u, ?_, hm _ _ h'⟩
        rw [hs]
        by_cases e2 : a = v ∧ c = b
        · obtain ⟨rfl, rfl⟩ := e2
          rw [upd2_eq, upd_ne _ _ (fun e3 => e ⟨rfl, rfl, e3⟩)]; exact h
        · rw [upd2_ne _ _ e2]; exact h
  · rw [hw, h1, h2]; exact fun a c u g hh x hx => hm _ _ (R.r3 a c u g hh x hx)
  · rw [h1]; exact fun a c u hh x hx => hm _ _ (R.r4 a c u (hl a c u hh) x hx)

theorem race_act {ix : Nat → Nat → Nat} {s : State} (I : Inv ix s) (R : Race s) {t x : Nat} {o : Op} {v : Nat} (h : s.pc t = .crit x o v) : Race (s.act ix t x o v) := by
  have hp := I.pcs t; rw [h] at hp
  have hm : ∀ u y, (s.tv u).ops y → ((s.act ix t x o v).tv u).ops y := ops_upd (fun _ h => .inl h)
  have hx : ((s.act ix t x o v).tv t).ops x := by show (upd s.tv t _ t).ops x; rw [upd_eq]; exact .inr rfl
  have key : ∀ a c f g, s.wl a c = some (f, g) → a = v → c = ix v o.key → f = t ∧ o.ro = false := by
    intro a c f g hh e1 e2
    rw [e1, e2] at hh
    rcases hp.2.2 with ⟨_, hs⟩ | ⟨hr, hw⟩
    · have := I.excl v (ix v o.key) (by rw [hh]; exact fun h => by cases h) t
      rw [hs] at this; cases this
    · rw [hw] at hh; cases hh; exact ⟨rfl, hr⟩
  refine ⟨?_, ?_, ?_, ?_⟩
  · intro a c hn y hy
    rcases hy with hy | ⟨hr, e1, e2, _⟩
    · exact R.r1 a c hn y hy
    · rcases hp.2.2 with ⟨hr', _⟩ | ⟨_, hw⟩
      · rw [hr] at hr'; cases hr'
      · have hn : s.wl a c = none := hn
        rw [e1, e2, hw] at hn; cases hn
  · intro a c y hy
    rcases hy with hy | ⟨hr, e1, e2, e3⟩
    · rcases R.r2 a c y hy with g | ⟨u, g, g'⟩
      · exact .inl g
      · exact .inr ⟨u, g, hm _ _ g'⟩
    · rcases hp.2.2 with ⟨_, hs⟩ | ⟨hr', _⟩
      · exact .inr ⟨t, by rw [e1, e2]; exact hs, e3 ▸ hx⟩
      · rw [hr] at hr'; cases hr'
  · intro a c u g hh y hy
    rcases hy with (hy | ⟨_, e1, e2, e3⟩) | (hy | ⟨_, e1, e2, e3⟩)
    · exact hm _ _ (R.r3 a c u g hh y (.inl hy))
    · rw [(key a c u g hh e1 e2).1, e3]; exact hx
    · exact hm _ _ (R.r3 a c u g hh y (.inr hy))
    · rw [(key a c u g hh e1 e2).1, e3]; exact hx
  · intro a c u hh y hy
    rcases hy with hy | ⟨hr, e1, e2, e3⟩
    · exact hm _ _ (R.r4 a c u hh y hy)
    · rcases hp.2.2 with ⟨hr', _⟩ | ⟨_, hw⟩
      · rw [hr] at hr'; cases hr'
      · have := I.excl v (ix v o.key) (by rw [hw]; exact fun h => by cases h) u
        rw [e1, e2] at hh
        have hh : s.sl v (ix v o.key) u = true := hh
        rw [hh] at this; cases this

theorem race_move {ix : Nat → Nat → Nat} {s : State} (I : Inv ix s) (R : Race s) {t v p i : Nat} (h : s.mp t = .mv v p i)
    (hw : ∀ b, Target ix v p i b → s.wl v b = none ∧ ∀ u, s.sl v b u = false) : Race (s.move ix t v p i) := by
  have hp := I.mps t; rw [h] at hp
  have hpv : p ≠ v := by have := (I.link v p hp.1).1; omega
  have hm : ∀ u y, (s.tv u).ops y → ((s.move ix t v p i).tv u).ops y := ops_upd (fun _ h => .inl (.inl h))
  have ht : ((s.move ix t v p i).tv t) = (((s.tv t).join (View.sup (s.bmsg v) (Target ix v p i))).addO s.nid) := by
    show upd s.tv t _ t = _; rw [upd_eq]
  refine ⟨?_, ?_, ?_, ?_⟩
  · intro a c hn y hy
    rcases hy with hy | ⟨e, ⟨e1, e2⟩ | ⟨e1, e2⟩⟩
    · exact .inl (R.r1 a c hn y hy)
    · have hn : s.wl a c = none := hn
      rw [e1, e2, hp.2] at hn; cases hn
    · exact .inr ⟨e1, e2, .inr e⟩
  · intro a c y hy
    rcases R.r2 a c y hy with g | ⟨u, g, g'⟩
    · exact .inl (.inl g)
    · exact .inr ⟨u, g, hm _ _ g'⟩
  · intro a c u g hh y hy
    have hh : s.wl a c = some (u, g) := hh
    rcases hy with (hy | ⟨e, ⟨e1, e2⟩ | ⟨e1, e2⟩⟩) | hy
    · exact hm _ _ (R.r3 a c u g hh y (.inl hy))
    · rw [e1, e2, hp.2] at hh; cases hh
      rw [ht]; exact .inr e
    · rw [e1, (hw c e2).1] at hh; cases hh
    · exact hm _ _ (R.r3 a c u g hh y (.inr hy))
  · intro a c u hh y hy
    have hh : s.sl a c u = true := hh
    rcases hy with hy | ⟨e, ⟨e1, e2⟩ | ⟨e1, e2⟩⟩
    · exact hm _ _ (R.r4 a c u hh y hy)
    · have := I.excl p i (by rw [hp.2]; exact fun h => by cases h) u
      rw [e1, e2, this] at hh; cases hh
    · rw [e1, (hw c e2).2 u] at hh; cases hh

theorem race_step {ix : Nat → Nat → Nat} {s s' : State} (I : Inv ix s) (R : Race s) (st : Step ix s s') : Race s' := by
  cases st with
  | call o h => exact R.keep rfl rfl rfl rfl rfl (fun _ _ h => h)
  | send => exact R.keep rfl rfl rfl rfl rfl (fun _ _ h => h)
  | recv h => exact R.keep rfl rfl rfl rfl rfl (ops_upd (fun _ h => .inl h))
  | load h ok ha => exact R.keep rfl rfl rfl rfl rfl (ops_upd (fun _ h => .inl h))
  | null h ok ha hm => exact R.keep rfl rfl rfl rfl rfl (ops_upd (fun _ h => .inl (.inl h)))
  | loadNull h ok ha hm => exact R.keep rfl rfl rfl rfl rfl (ops_upd (fun _ h => .inl h))
  | make h ha => exact R.keep rfl rfl rfl rfl rfl (ops_upd (fun _ h => .inl h))
  | found h ok ha => exact R.keep rfl rfl rfl rfl rfl (ops_upd (fun _ h => .inl h))
  | direct h hp => exact R.keep rfl rfl rfl rfl rfl (ops_upd (fun _ h => h))
  | past h hu => exact R.keep rfl rfl rfl rfl rfl (ops_upd (fun _ h => .inl h))
  | moved l h hp hd =>
    refine R.keep rfl rfl rfl rfl rfl (ops_upd (fun _ h => ?_))
    cases l
    · exact h
    · exact .inl h
  | lock h hr hd hw hs => exact R.lock hw hs rfl rfl rfl rfl rfl rfl
  | share h hr hd hw => exact race_share R hw rfl rfl rfl rfl rfl rfl
  | retry l h hd =>
    refine R.keep rfl rfl rfl rfl rfl (ops_upd (fun _ h => ?_))
    cases l
    · exact h
    · exact .inl h
  | act h => exact race_act I R h
  | @unlock t x o v r h hr =>
    have hp := I.pcs t; rw [h] at hp
    rcases hp.2.2 with ⟨hr', _⟩ | ⟨_, hw⟩
    · rw [hr] at hr'; cases hr'
    · exact R.unlock hw rfl rfl rfl rfl rfl rfl
  | unshare h hr => exact race_unshare R rfl rfl rfl rfl rfl rfl
  | take h ok ha => exact R.keep rfl rfl rfl rfl rfl (ops_upd (fun _ h => .inl h))
  | leave h => exact R.keep rfl rfl rfl rfl rfl (ops_upd (fun _ h => h))
  | pick i h hp hd hw hs => exact R.lock hw hs rfl rfl rfl rfl rfl rfl
  | move h hw => exact race_move I R h hw
  | @giveUp t v p i h =>
    have hp := I.mps t; rw [h] at hp
    exact R.unlock hp.2 rfl rfl rfl rfl rfl rfl
  | @kill t v p i h =>
    have hw : s.wl p i = some (t, true) := by
      have hp := I.mps t
      rcases h with h | h
      · rw [h] at hp; exact hp.2.1
      · rw [h.1] at hp; exact hp.2
    exact R.unlock hw rfl rfl rfl rfl rfl rfl
  | unlink h hp hd => exact R.keep rfl rfl rfl rfl rfl (fun _ _ h => h)
  | @check t v h ok hl =>
    refine R.keep rfl rfl rfl rfl rfl (ops_upd (fun _ h => ?_))
    cases s.unl v
    · exact .inl h
    · exact .inl (.inl h)
  | resize h hr => exact R.keep rfl rfl rfl rfl rfl (ops_upd (fun _ h => .inl h))
  | busy h => exact R.keep rfl rfl rfl rfl rfl (ops_upd (fun _ h => h))
  | same h ok => exact R.keep rfl rfl rfl rfl rfl (ops_upd (fun _ h => .inl h))
  | other h ok hm => exact R.keep rfl rfl rfl rfl rfl (ops_upd (fun _ h => .inl h))
  | skip h => exact R.keep rfl rfl rfl rfl rfl (ops_upd (fun _ h => h))
  | grow h ok => exact R.keep rfl rfl rfl rfl rfl (ops_upd (fun _ h => h))
  | @lockAll t v h hd hw hs he =>
    have hm : ∀ u y, (s.tv u).ops y → (upd s.tv t ((s.tv t).join (View.sup (s.bmsg v) (fun _ => True))) u).ops y := ops_upd (fun _ h => .inl h)
    refine ⟨?_, ?_, ?_, fun a c u hh x hx => hm _ _ (R.r4 a c u hh x hx)⟩
    · intro a c hn x hx
      have hn : (if a = v then some (t, true) else s.wl a c) = none := hn
      split at hn
      · cases hn
      · exact R.r1 a c hn x hx
    · intro a c x hx
      rcases R.r2 a c x hx with g | ⟨u, g, g'⟩
      · exact .inl g
      · exact .inr ⟨u, g, hm _ _ g'⟩
    · intro a c u g hh x hx
      have hh : (if a = v then some (t, true) else s.wl a c) = some (u, g) := hh
      split at hh
      · rename_i e
        cases hh
        show (upd s.tv t _ t).ops x
        rw [upd_eq]
        subst e
        rcases hx with hx | hx
        · exact .inr ⟨c, trivial, R.r1 a c (hw c) x hx⟩
        · rcases R.r2 a c x hx with g | ⟨u', g, _⟩
          · exact .inr ⟨c, trivial, g⟩
          · rw [hs c u'] at g; cases g
      · exact hm _ _ (R.r3 a c u g hh x hx)
  | clear h => exact R.keep rfl rfl rfl rfl rfl (ops_upd (fun _ h => h))
  | @killAll t v h =>
    have hp := I.mps t; rw [h] at hp
    have hm : ∀ u y, (s.tv u).ops y → (upd s.tv t (s.tv t) u).ops y := ops_upd (fun _ h => h)
    have hg : ∀ a c x, (s.bmsg a c).ops x → (if a = v then (s.bmsg a c).join (s.tv t) else s.bmsg a c).ops x := by
      intro a c x hx
      split
      · exact .inl hx
      · exact hx
    refine ⟨?_, ?_, ?_, fun a c u hh x hx => hm _ _ (R.r4 a c u hh x hx)⟩
    · intro a c hn x hx
      show (if a = v then (s.bmsg a c).join (s.tv t) else s.bmsg a c).ops x
      have hn : (if a = v then none else s.wl a c) = none := hn
      split
      · rename_i e; subst e
        exact .inr (R.r3 a c t true (hp.2.2.2.1 c) x (.inl hx))
      · rename_i e
        rw [if_neg e] at hn; exact R.r1 a c hn x hx
    · intro a c x hx
      rcases R.r2 a c x hx with g | ⟨u, g, g'⟩
      · exact .inl (hg a c x g)
      · exact .inr ⟨u, g, hm _ _ g'⟩
    · intro a c u g hh x hx
      have hh : (if a = v then none else s.wl a c) = some (u, g) := hh
      split at hh
      · cases hh
      · exact hm _ _ (R.r3 a c u g hh x hx)
  | done h => exact R.keep rfl rfl rfl rfl rfl (ops_upd (fun _ h => h))

theorem race_reach {ix : Nat → Nat → Nat} {s : State} (h : Reach ix s) : Race s := by
  induction h with
  | init => exact race_init
  | step h st ih => exact race_step (inv_reach h) ih st

end Scc.Haze
