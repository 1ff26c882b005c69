import Verif.Coppice.Order

/-!
# Calls and the instances they are in
-/

namespace Scc.Coppice

open Grove (Ev Atomic Stage callers mon upd upd_ne)

variable {V : Type}

/-- The instance in which the call may have taken effect. -/
def Pc.home : Pc → Option Nat
  | .in v => some v
  | .done v => v
  | _ => none

/-- The call has a place in this instance. -/
def At (s : St V) (x v : Nat) : Prop := (∃ k o, Ev.call x k o ∈ s.es v) ∨ s.clr v = some x

structure Inv (s : St V) : Prop where
  run : ∀ v, Grove.Run (s.tr v) (s.es v)
  call : ∀ v x k o, Ev.call x k o ∈ s.es v →
    v ≤ s.cur ∧ s.ask x = .key k o ∧ s.pc x ≠ .new ∧ (s.pc x = .go → v < s.cur) ∧ ∀ w, s.pc x = .in w → v ≤ w
  nodup : ∀ v, (callers (s.es v)).Nodup
  eff : ∀ v x, (mon (s.es v)).eff x ≠ 0 → (s.pc x).home = some v
  ret : ∀ v x a, Ev.ret x a ∈ s.es v → s.pc x = .done (some v)
  clr : ∀ v x, s.clr v = some x → v < s.cur ∧ s.ask x = .clear ∧ (s.pc x = .out ∨ s.pc x = .done none)
  clr1 : ∀ v w x, s.clr v = some x → s.clr w = some x → v = w
  full : ∀ v, v < s.cur → ∃ x, s.clr v = some x
  got : ∀ x r, (x, r) ∈ s.got → (∃ h, s.pc x = .done h) ∧
    ((∃ v a, r = some a ∧ Ev.ret x a ∈ s.es v) ∨ r = none ∧ ∃ v, s.clr v = some x)
  out : ∀ x, s.pc x = .out → ∃ v, s.clr v = some x
  fresh : ∀ x, s.nid ≤ x → s.pc x = .new
  bef : ∀ y x, s.bef y x → ∃ h, s.pc x = .done h
  befg : ∀ y x, s.bef y x → ∃ r, (x, r) ∈ s.got
  ord1 : ∀ y x v w, s.bef y x → At s x w → At s y v → w ≤ v
  ord2 : ∀ y x v w, s.bef y x → s.clr w = some x → At s y v → w < v
  ord3 : ∀ y x k o a v, s.bef y x → Ev.call y k o ∈ s.es v → Ev.ret x a ∈ s.es v → Older (s.es v) (.ret x a) (.call y k o)

variable {s s' : St V}

theorem Inv.at_le (I : Inv s) {x v : Nat} (h : At s x v) : v ≤ s.cur := by
  rcases h with ⟨k, o, h⟩ | h
  · exact (I.call v x k o h).1
  · exact Nat.le_of_lt (I.clr v x h).1

theorem Inv.at_new (I : Inv s) {x v : Nat} (h : At s x v) : s.pc x ≠ .new := by
  rcases h with ⟨k, o, h⟩ | h
  · exact (I.call v x k o h).2.2.1
  · rcases (I.clr v x h).2.2 with e | e <;> rw [e] <;> nofun

theorem Inv.begin (I : Inv s) (a : Act V) :
    Inv { s with pc := upd s.pc s.nid .go, ask := upd s.ask s.nid a, nid := s.nid + 1, bef := upd s.bef s.nid fun x => ∃ r, (x, r) ∈ s.got } := by
  have hn := I.fresh s.nid (Nat.le_refl _)
  have pc : ∀ x, s.pc x ≠ .new → x ≠ s.nid ∧ upd s.pc s.nid Pc.go x = s.pc x := by
    intro x hx
    have e : x ≠ s.nid := by rintro rfl; exact hx hn
    exact ⟨e, upd_ne e⟩
  have at_ne : ∀ {x v}, At s x v → x ≠ s.nid := fun h => (pc _ (I.at_new h)).1
  have bef : ∀ y x, upd s.bef s.nid (fun x => ∃ r, (x, r) ∈ s.got) y x → y ≠ s.nid → s.bef y x := by
    intro y x h e
    rwa [upd_ne e] at h
  refine ⟨I.run, fun v x k o h => ?_, I.nodup, fun v x h => ?_, fun v x b h => ?_, fun v x h => ?_, I.clr1, I.full, fun x r h => ?_, fun x h => ?_,
    fun x h => ?_, fun y x h => ?_, fun y x h => ?_, fun y x v w h h1 h2 => I.ord1 y x v w (bef y x h (at_ne h2)) h1 h2,
    fun y x v w h h1 h2 => I.ord2 y x v w (bef y x h (at_ne h2)) h1 h2,
    fun y x k o b v h h1 h2 => I.ord3 y x k o b v (bef y x h (at_ne (.inl ⟨k, o, h1⟩))) h1 h2⟩
  · obtain ⟨h1, h2, h3, h4⟩ := I.call v x k o h
    obtain ⟨e1, e2⟩ := pc x h3
    simp only [e2, upd_ne e1]
    exact ⟨h1, h2, h3, h4⟩
  · have := I.eff v x h
    have hx : s.pc x ≠ .new := by intro e; rw [e] at this; cases this
    simp only [(pc x hx).2]; exact this
  · have := I.ret v x b h
    simp only [(pc x (by rw [this]; nofun)).2]; exact this
  · obtain ⟨h1, h2, h3⟩ := I.clr v x h
    obtain ⟨e1, e2⟩ := pc x (I.at_new (.inr h))
    simp only [e2, upd_ne e1]
    exact ⟨h1, h2, h3⟩
  · obtain ⟨⟨b, h1⟩, h2⟩ := I.got x r h
    exact ⟨⟨b, by simp only [(pc x (by rw [h1]; nofun)).2]; exact h1⟩, h2⟩
  · by_cases e : x = s.nid
    · subst e; simp only [upd, if_true] at h; cases h
    · simp only [upd_ne e] at h; exact I.out x h
  · have h : s.nid + 1 ≤ x := h
    simp only [upd_ne (show x ≠ s.nid by omega)]
    exact I.fresh x (by omega)
  · by_cases e : y = s.nid
    · subst e
      simp only [upd, if_true] at h
      obtain ⟨r, hr⟩ := h
      obtain ⟨b, h1⟩ := (I.got x r hr).1
      exact ⟨b, by simp only [(pc x (by rw [h1]; nofun)).2]; exact h1⟩
    · obtain ⟨b, h1⟩ := I.bef y x (bef y x h e)
      exact ⟨b, by simp only [(pc x (by rw [h1]; nofun)).2]; exact h1⟩
  · by_cases e : y = s.nid
    · subst e
      simp only [upd, if_true] at h
      exact h
    · exact I.befg y x (bef y x h e)

theorem mem_upd {es : Nat → List (Ev V)} {v w : Nat} {e a : Ev V} (h : a ∈ upd es v (e :: es v) w) : a ∈ es w ∨ w = v ∧ a = e := by
  by_cases ew : w = v
  · subst ew
    simp only [upd, if_true] at h
    rcases List.mem_cons.1 h with h | h
    · exact .inr ⟨rfl, h⟩
    · exact .inl h
  · rw [upd_ne ew] at h; exact .inl h

theorem upd_mem {es : Nat → List (Ev V)} {v w : Nat} {e a : Ev V} (h : a ∈ es w) : a ∈ upd es v (e :: es v) w := by
  by_cases ew : w = v
  · subst ew
    simp only [upd, if_true]
    exact List.mem_cons_of_mem _ h
  · rw [upd_ne ew]; exact h

theorem upd_older {es : Nat → List (Ev V)} {v w : Nat} {e a b : Ev V} (h : Older (es w) a b) : Older (upd es v (e :: es v) w) a b := by
  by_cases ew : w = v
  · subst ew
    simp only [upd, if_true]
    exact h.cons e
  · rw [upd_ne ew]; exact h

theorem upd_run {s : St V} (I : Inv s) {v : Nat} {e : Ev V} {T : Grove.St V} (hs : Grove.Step (s.tr v) e T) :
    ∀ w, Grove.Run (upd s.tr v T w) (upd s.es v (e :: s.es v) w) := by
  intro w
  by_cases ew : w = v
  · subst ew
    simp only [upd, if_true]
    exact (I.run w).step hs
  · rw [upd_ne ew, upd_ne ew]; exact I.run w

/-- Who has added or taken away something, after one more event. -/
theorem eff_cons {es : List (Ev V)} {e : Ev V} {x : Nat} (h : (mon (e :: es)).eff x ≠ 0) :
    (mon es).eff x ≠ 0 ∨ ∃ k a, e = .put x k a ∨ e = .del x k a := by
  cases e with
  | tau => exact .inl h
  | ret t a => exact .inl h
  | call t k o =>
    by_cases e : x = t
    · subst e; simp [mon, Grove.Mon.next, upd] at h
    · simp only [mon, Grove.Mon.next, upd_ne e] at h; exact .inl h
  | put t k a =>
    by_cases e : x = t
    · subst e; exact .inr ⟨k, a, .inl rfl⟩
    · simp only [mon, Grove.Mon.next, Grove.Mon.assign, upd_ne e] at h; exact .inl h
  | del t k a =>
    by_cases e : x = t
    · subst e; exact .inr ⟨k, a, .inr rfl⟩
    · simp only [mon, Grove.Mon.next, Grove.Mon.assign, upd_ne e] at h; exact .inl h

theorem eff_upd {es : Nat → List (Ev V)} {v w : Nat} {e : Ev V} {x : Nat} (h : (mon (upd es v (e :: es v) w)).eff x ≠ 0) :
    (mon (es w)).eff x ≠ 0 ∨ w = v ∧ ∃ k a, e = .put x k a ∨ e = .del x k a := by
  by_cases ew : w = v
  · subst ew
    simp only [upd, if_true] at h
    exact (eff_cons h).imp id fun h => ⟨rfl, h⟩
  · rw [upd_ne ew] at h; exact .inl h

theorem Inv.enter (I : Inv s) {x k : Nat} {o : Grove.Op V} {T : Grove.St V} (h : s.pc x = .go) (ha : s.ask x = .key k o)
    (hs : Grove.Step (s.tr s.cur) (.call x k o) T) :
    Inv { s with tr := upd s.tr s.cur T, es := upd s.es s.cur (.call x k o :: s.es s.cur), pc := upd s.pc x (.in s.cur) } := by
  have pc : ∀ y, s.pc y ≠ .go → upd s.pc x (.in s.cur) y = s.pc y := by
    intro y hy
    exact upd_ne (by rintro rfl; exact hy h)
  have pcx : upd s.pc x (.in s.cur) x = .in s.cur := by simp [upd]
  have at' : ∀ y v, At { s with tr := upd s.tr s.cur T, es := upd s.es s.cur (.call x k o :: s.es s.cur), pc := upd s.pc x (.in s.cur) } y v →
      At s y v ∨ y = x ∧ v = s.cur := by
    rintro y v (⟨k', o', h⟩ | h)
    · rcases mem_upd h with h | ⟨e, h⟩
      · exact .inl (.inl ⟨k', o', h⟩)
      · cases h; exact .inr ⟨rfl, e⟩
    · exact .inl (.inr h)
  have nd : ∀ y, ¬ s.bef y x := by
    intro y hb
    obtain ⟨b, e⟩ := I.bef y x hb
    rw [h] at e; cases e
  refine ⟨upd_run I hs, fun v y k' o' hm => ?_, fun v => ?_, fun v y he => ?_, fun v y a hm => ?_, fun v y hc => ?_, I.clr1, I.full, fun y r hg => ?_,
    fun y hp => ?_, fun y hy => ?_, fun y z hb => ?_, I.befg, fun y z v w hb h1 h2 => ?_, fun y z v w hb h1 h2 => ?_, fun y z k' o' a v hb h1 h2 => ?_⟩
  · rcases mem_upd hm with hm | ⟨e, hm⟩
    · obtain ⟨h1, h2, h3, h4, h5⟩ := I.call v y k' o' hm
      refine ⟨h1, h2, ?_⟩
      by_cases e : y = x
      · subst e
        simp only [pcx]
        exact ⟨nofun, nofun, fun w hw => by cases hw; exact h1⟩
      · simp only [upd_ne e]
        exact ⟨h3, h4, h5⟩
    · cases hm
      simp only [pcx, e]
      exact ⟨Nat.le_refl _, ha, nofun, nofun, fun w hw => by cases hw; exact Nat.le_refl _⟩
  · by_cases e : v = s.cur
    · subst e
      simp only [upd, if_true]
      refine List.nodup_cons.2 ⟨fun hm => ?_, I.nodup _⟩
      obtain ⟨k', o', hm⟩ := mem_callers.1 hm
      exact Nat.lt_irrefl _ ((I.call _ x k' o' hm).2.2.2.1 h)
    · simp only [upd_ne e]; exact I.nodup v
  · rcases eff_upd he with he | ⟨_, _, _, he | he⟩
    · have := I.eff v y he
      simp only [pc y (by intro e; rw [e] at this; cases this)]; exact this
    · cases he
    · cases he
  · rcases mem_upd hm with hm | ⟨_, hm⟩
    · have := I.ret v y a hm
      simp only [pc y (by rw [this]; nofun)]; exact this
    · cases hm
  · obtain ⟨h1, h2, h3⟩ := I.clr v y hc
    simp only [pc y (by rcases h3 with e | e <;> rw [e] <;> nofun)]
    exact ⟨h1, h2, h3⟩
  · obtain ⟨⟨b, h1⟩, h2⟩ := I.got y r hg
    refine ⟨⟨b, by simp only [pc y (by rw [h1]; nofun)]; exact h1⟩, h2.imp ?_ id⟩
    rintro ⟨v, a, e, hm⟩
    exact ⟨v, a, e, upd_mem hm⟩
  · by_cases e : y = x
    · subst e; simp only [pcx] at hp; cases hp
    · simp only [upd_ne e] at hp; exact I.out y hp
  · have := I.fresh y hy
    simp only [pc y (by rw [this]; nofun)]; exact this
  · obtain ⟨b, h1⟩ := I.bef y z hb
    exact ⟨b, by simp only [pc z (by rw [h1]; nofun)]; exact h1⟩
  · rcases at' z w h1 with h1 | ⟨rfl, _⟩
    · rcases at' y v h2 with h2 | ⟨_, rfl⟩
      · exact I.ord1 y z v w hb h1 h2
      · exact I.at_le h1
    · exact absurd hb (nd y)
  · rcases at' y v h2 with h2 | ⟨_, rfl⟩
    · exact I.ord2 y z v w hb h1 h2
    · exact (I.clr w z h1).1
  · rcases mem_upd h2 with h2 | ⟨_, h2⟩
    · rcases mem_upd h1 with h1 | ⟨e, h1⟩
      · exact upd_older (I.ord3 y z k' o' a v hb h1 h2)
      · cases h1
        rw [e] at h2 ⊢
        simp only [upd, if_true]
        exact ⟨[], _, rfl, h2⟩
    · cases h2

theorem Inv.work (I : Inv s) {v : Nat} {e : Ev V} {T : Grove.St V} (hs : Grove.Step (s.tr v) e T) (he : Inner s.pc v e) :
    Inv { s with tr := upd s.tr v T, es := upd s.es v (e :: s.es v) } := by
  have c : ∀ {w x k o}, Ev.call x k o ∈ upd s.es v (e :: s.es v) w → Ev.call x k o ∈ s.es w := by
    intro w x k o h
    rcases mem_upd h with h | ⟨_, h⟩
    · exact h
    · rw [← h] at he; cases he
  have r : ∀ {w x a}, Ev.ret x a ∈ upd s.es v (e :: s.es v) w → Ev.ret x a ∈ s.es w := by
    intro w x a h
    rcases mem_upd h with h | ⟨_, h⟩
    · exact h
    · rw [← h] at he; cases he
  have at' : ∀ y w, At { s with tr := upd s.tr v T, es := upd s.es v (e :: s.es v) } y w → At s y w := by
    rintro y w (⟨k', o', h⟩ | h)
    · exact .inl ⟨k', o', c h⟩
    · exact .inr h
  refine ⟨upd_run I hs, fun w y k' o' hm => I.call w y k' o' (c hm), fun w => ?_, fun w y hf => ?_, fun w y a hm => I.ret w y a (r hm), I.clr, I.clr1, I.full,
    fun y q hg => ?_, I.out, I.fresh, I.bef, I.befg, fun y z w w' hb h1 h2 => I.ord1 y z w w' hb (at' _ _ h1) (at' _ _ h2),
    fun y z w w' hb h1 h2 => I.ord2 y z w w' hb h1 (at' _ _ h2), fun y z k' o' a w hb h1 h2 => upd_older (I.ord3 y z k' o' a w hb (c h1) (r h2))⟩
  · by_cases ew : w = v
    · subst ew
      simp only [upd, if_true]
      cases e with
      | call => cases he
      | _ => exact I.nodup w
    · simp only [upd_ne ew]; exact I.nodup w
  · rcases eff_upd hf with hf | ⟨rfl, k, a, rfl | rfl⟩
    · exact I.eff w y hf
    · have he : s.pc y = .in w := he
      show (s.pc y).home = _
      rw [he]; rfl
    · have he : s.pc y = .in w := he
      show (s.pc y).home = _
      rw [he]; rfl
  · obtain ⟨h1, h2⟩ := I.got y q hg
    refine ⟨h1, h2.imp ?_ id⟩
    rintro ⟨w, a, e1, hm⟩
    exact ⟨w, a, e1, upd_mem hm⟩

theorem Inv.move (I : Inv s) {x v : Nat} (h : s.pc x = .in v) (hv : v < s.cur) (ht : ((s.tr v).th x).pc = .top) (hr : ((s.tr v).th x).rm = false) :
    Inv { s with pc := upd s.pc x .go } := by
  have pc : ∀ y, s.pc y ≠ .in v → upd s.pc x .go y = s.pc y := by
    intro y hy
    exact upd_ne (by rintro rfl; exact hy h)
  have pcx : upd s.pc x .go x = .go := by simp [upd]
  have h0 : (mon (s.es v)).eff x = 0 := by
    have := ((I.run v).inv.1.th x).eff (by rw [ht]; rfl)
    rw [hr] at this
    exact this
  refine ⟨I.run, fun w y k' o' hm => ?_, I.nodup, fun w y he => ?_, fun w y a hm => ?_, fun w y hc => ?_, I.clr1, I.full, fun y q hg => ?_,
    fun y hp => ?_, fun y hy => ?_, fun y z hb => ?_, I.befg, I.ord1, I.ord2, I.ord3⟩
  · obtain ⟨h1, h2, h3, h4, h5⟩ := I.call w y k' o' hm
    refine ⟨h1, h2, ?_⟩
    by_cases e : y = x
    · subst e
      simp only [pcx]
      exact ⟨nofun, fun _ => Nat.lt_of_le_of_lt (h5 v h) hv, nofun⟩
    · simp only [upd_ne e]
      exact ⟨h3, h4, h5⟩
  · by_cases e : y = x
    · subst e
      have := I.eff w y he
      rw [h] at this
      cases this
      exact absurd h0 he
    · simp only [upd_ne e]; exact I.eff w y he
  · have := I.ret w y a hm
    simp only [pc y (by rw [this]; nofun)]; exact this
  · obtain ⟨h1, h2, h3⟩ := I.clr w y hc
    simp only [pc y (by rcases h3 with e | e <;> rw [e] <;> nofun)]
    exact ⟨h1, h2, h3⟩
  · obtain ⟨⟨b, h1⟩, h2⟩ := I.got y q hg
    exact ⟨⟨b, by simp only [pc y (by rw [h1]; nofun)]; exact h1⟩, h2⟩
  · by_cases e : y = x
    · subst e; simp only [pcx] at hp; cases hp
    · simp only [upd_ne e] at hp; exact I.out y hp
  · have := I.fresh y hy
    simp only [pc y (by rw [this]; nofun)]; exact this
  · obtain ⟨b, h1⟩ := I.bef y z hb
    exact ⟨b, by simp only [pc z (by rw [h1]; nofun)]; exact h1⟩

theorem Inv.clear (I : Inv s) {x : Nat} (h : s.pc x = .go) (ha : s.ask x = .clear) :
    Inv { s with clr := upd s.clr s.cur (some x), cur := s.cur + 1, pc := upd s.pc x .out } := by
  have pc : ∀ y, s.pc y ≠ .go → upd s.pc x .out y = s.pc y := by
    intro y hy
    exact upd_ne (by rintro rfl; exact hy h)
  have pcx : upd s.pc x .out x = .out := by simp [upd]
  have cl : ∀ {w y}, upd s.clr s.cur (some x) w = some y → s.clr w = some y ∨ w = s.cur ∧ y = x := by
    intro w y hc
    by_cases e : w = s.cur
    · subst e; simp only [upd, if_true] at hc; cases hc; exact .inr ⟨rfl, rfl⟩
    · rw [upd_ne e] at hc; exact .inl hc
  have lc : ∀ {w y}, s.clr w = some y → upd s.clr s.cur (some x) w = some y := by
    intro w y hc
    rw [upd_ne (Nat.ne_of_lt (I.clr w y hc).1)]; exact hc
  have at' : ∀ y v, At { s with clr := upd s.clr s.cur (some x), cur := s.cur + 1, pc := upd s.pc x .out } y v → At s y v ∨ y = x ∧ v = s.cur := by
    rintro y v (h | h)
    · exact .inl (.inl h)
    · rcases cl h with h | ⟨rfl, rfl⟩
      · exact .inl (.inr h)
      · exact .inr ⟨rfl, rfl⟩
  have nd : ∀ y, ¬ s.bef y x := by
    intro y hb
    obtain ⟨b, e⟩ := I.bef y x hb
    rw [h] at e; cases e
  have old : ∀ {w}, s.clr w ≠ some x := by
    intro w hc
    rcases (I.clr w x hc).2.2 with e | e <;> rw [h] at e <;> cases e
  refine ⟨I.run, fun w y k' o' hm => ?_, I.nodup, fun w y he => ?_, fun w y a hm => ?_, fun w y hc => ?_, fun w w' y h1 h2 => ?_, fun w hw => ?_,
    fun y q hg => ?_, fun y hp => ?_, fun y hy => ?_, fun y z hb => ?_, I.befg, fun y z v w hb h1 h2 => ?_, fun y z v w hb h1 h2 => ?_, I.ord3⟩
  · obtain ⟨h1, h2, h3, h4, h5⟩ := I.call w y k' o' hm
    refine ⟨Nat.le_succ_of_le h1, h2, ?_⟩
    by_cases e : y = x
    · subst e; rw [ha] at h2; cases h2
    · simp only [upd_ne e]
      exact ⟨h3, fun _ => Nat.lt_succ_of_le h1, h5⟩
  · have := I.eff w y he
    simp only [pc y (by intro e; rw [e] at this; cases this)]; exact this
  · have := I.ret w y a hm
    simp only [pc y (by rw [this]; nofun)]; exact this
  · rcases cl hc with hc | ⟨rfl, rfl⟩
    · obtain ⟨h1, h2, h3⟩ := I.clr w y hc
      simp only [pc y (by rcases h3 with e | e <;> rw [e] <;> nofun)]
      exact ⟨Nat.lt_succ_of_lt h1, h2, h3⟩
    · exact ⟨Nat.lt_succ_self _, ha, .inl pcx⟩
  · rcases cl h1 with h3 | ⟨e1, e2⟩
    · rcases cl h2 with h4 | ⟨e3, e4⟩
      · exact I.clr1 w w' y h3 h4
      · rw [e4] at h3; exact absurd h3 old
    · rcases cl h2 with h4 | ⟨e3, _⟩
      · rw [e2] at h4; exact absurd h4 old
      · rw [e1, e3]
  · have hw : w < s.cur + 1 := hw
    by_cases e : w = s.cur
    · subst e; exact ⟨x, by simp [upd]⟩
    · obtain ⟨y, hy⟩ := I.full w (by omega)
      exact ⟨y, lc hy⟩
  · obtain ⟨⟨b, h1⟩, h2⟩ := I.got y q hg
    refine ⟨⟨b, by simp only [pc y (by rw [h1]; nofun)]; exact h1⟩, h2.imp id ?_⟩
    rintro ⟨e, w, hw⟩
    exact ⟨e, w, lc hw⟩
  · by_cases e : y = x
    · subst e; exact ⟨s.cur, by simp [upd]⟩
    · simp only [upd_ne e] at hp
      obtain ⟨w, hw⟩ := I.out y hp
      exact ⟨w, lc hw⟩
  · have := I.fresh y hy
    simp only [pc y (by rw [this]; nofun)]; exact this
  · obtain ⟨b, h1⟩ := I.bef y z hb
    exact ⟨b, by simp only [pc z (by rw [h1]; nofun)]; exact h1⟩
  · rcases at' z w h1 with h1 | ⟨rfl, _⟩
    · rcases at' y v h2 with h2 | ⟨_, rfl⟩
      · exact I.ord1 y z v w hb h1 h2
      · exact I.at_le h1
    · exact absurd hb (nd y)
  · rcases cl h1 with h1 | ⟨_, rfl⟩
    · rcases at' y v h2 with h2 | ⟨_, rfl⟩
      · exact I.ord2 y z v w hb h1 h2
      · exact (I.clr w z h1).1
    · exact absurd hb (nd y)

theorem Inv.retStep (I : Inv s) {x v : Nat} {a : Grove.Ans V} {T : Grove.St V} (h : s.pc x = .in v) (hs : Grove.Step (s.tr v) (.ret x a) T) :
    Inv { s with tr := upd s.tr v T, es := upd s.es v (.ret x a :: s.es v), pc := upd s.pc x (.done (some v)), got := (x, some a) :: s.got } := by
  have pc : ∀ y, s.pc y ≠ .in v → upd s.pc x (.done (some v)) y = s.pc y := by
    intro y hy
    exact upd_ne (by rintro rfl; exact hy h)
  have pcx : upd s.pc x (.done (some v)) x = .done (some v) := by simp [upd]
  have c : ∀ {w y k o}, Ev.call y k o ∈ upd s.es v (.ret x a :: s.es v) w → Ev.call y k o ∈ s.es w := by
    intro w y k o h
    rcases mem_upd h with h | ⟨_, h⟩
    · exact h
    · cases h
  have at' : ∀ y w, At { s with tr := upd s.tr v T, es := upd s.es v (.ret x a :: s.es v), pc := upd s.pc x (.done (some v)), got := (x, some a) :: s.got } y w →
      At s y w := by
    rintro y w (⟨k', o', h⟩ | h)
    · exact .inl ⟨k', o', c h⟩
    · exact .inr h
  have nd : ∀ y, ¬ s.bef y x := by
    intro y hb
    obtain ⟨b, e⟩ := I.bef y x hb
    rw [h] at e; cases e
  refine ⟨upd_run I hs, fun w y k' o' hm => ?_, fun w => ?_, fun w y he => ?_, fun w y b hm => ?_, fun w y hc => ?_, I.clr1, I.full, fun y r hg => ?_,
    fun y hp => ?_, fun y hy => ?_, fun y z hb => ?_, fun y z hb => (I.befg y z hb).imp fun _ => List.mem_cons_of_mem _, fun y z v w hb h1 h2 => I.ord1 y z v w hb (at' _ _ h1) (at' _ _ h2),
    fun y z v w hb h1 h2 => I.ord2 y z v w hb h1 (at' _ _ h2), fun y z k' o' b w hb h1 h2 => ?_⟩
  · obtain ⟨h1, h2, h3, h4, h5⟩ := I.call w y k' o' (c hm)
    refine ⟨h1, h2, ?_⟩
    by_cases e : y = x
    · subst e
      simp only [pcx]
      exact ⟨nofun, nofun, nofun⟩
    · simp only [upd_ne e]
      exact ⟨h3, h4, h5⟩
  · by_cases ew : w = v
    · subst ew
      simp only [upd, if_true]
      exact I.nodup w
    · simp only [upd_ne ew]; exact I.nodup w
  · rcases eff_upd he with he | ⟨_, _, _, he | he⟩
    · have := I.eff w y he
      by_cases e : y = x
      · subst e
        rw [h] at this
        simp only [pcx]; exact this
      · simp only [upd_ne e]; exact this
    · cases he
    · cases he
  · rcases mem_upd hm with hm | ⟨e, hm⟩
    · have := I.ret w y b hm
      simp only [pc y (by rw [this]; nofun)]; exact this
    · cases hm
      rw [e]; exact pcx
  · obtain ⟨h1, h2, h3⟩ := I.clr w y hc
    simp only [pc y (by rcases h3 with e | e <;> rw [e] <;> nofun)]
    exact ⟨h1, h2, h3⟩
  · rcases List.mem_cons.1 hg with hg | hg
    · cases hg
      exact ⟨⟨_, pcx⟩, .inl ⟨v, a, rfl, by simp [upd]⟩⟩
    · obtain ⟨⟨b, h1⟩, h2⟩ := I.got y r hg
      refine ⟨⟨b, by simp only [pc y (by rw [h1]; nofun)]; exact h1⟩, h2.imp ?_ id⟩
      rintro ⟨v, a, e, hm⟩
      exact ⟨v, a, e, upd_mem hm⟩
  · by_cases e : y = x
    · subst e; simp only [pcx] at hp; cases hp
    · simp only [upd_ne e] at hp; exact I.out y hp
  · have := I.fresh y hy
    simp only [pc y (by rw [this]; nofun)]; exact this
  · obtain ⟨b, h1⟩ := I.bef y z hb
    exact ⟨b, by simp only [pc z (by rw [h1]; nofun)]; exact h1⟩
  · rcases mem_upd h2 with h2 | ⟨_, h2⟩
    · exact upd_older (I.ord3 y z k' o' b w hb (c h1) h2)
    · cases h2
      exact absurd hb (nd y)

theorem Inv.retClear (I : Inv s) {x : Nat} (h : s.pc x = .out) :
    Inv { s with pc := upd s.pc x (.done none), got := (x, none) :: s.got } := by
  have pc : ∀ y, s.pc y ≠ .out → upd s.pc x (.done none) y = s.pc y := by
    intro y hy
    exact upd_ne (by rintro rfl; exact hy h)
  have pcx : upd s.pc x (.done none) x = .done none := by simp [upd]
  refine ⟨I.run, fun w y k' o' hm => ?_, I.nodup, fun w y he => ?_, fun w y a hm => ?_, fun w y hc => ?_, I.clr1, I.full, fun y q hg => ?_,
    fun y hp => ?_, fun y hy => ?_, fun y z hb => ?_, fun y z hb => (I.befg y z hb).imp fun _ => List.mem_cons_of_mem _, I.ord1, I.ord2, I.ord3⟩
  · obtain ⟨h1, h2, h3, h4, h5⟩ := I.call w y k' o' hm
    refine ⟨h1, h2, ?_⟩
    by_cases e : y = x
    · subst e
      simp only [pcx]
      exact ⟨nofun, nofun, nofun⟩
    · simp only [upd_ne e]
      exact ⟨h3, h4, h5⟩
  · have := I.eff w y he
    simp only [pc y (by intro e; rw [e] at this; cases this)]; exact this
  · have := I.ret w y a hm
    simp only [pc y (by rw [this]; nofun)]; exact this
  · obtain ⟨h1, h2, h3⟩ := I.clr w y hc
    refine ⟨h1, h2, ?_⟩
    by_cases e : y = x
    · subst e; exact .inr pcx
    · simp only [upd_ne e]; exact h3
  · rcases List.mem_cons.1 hg with hg | hg
    · cases hg
      exact ⟨⟨_, pcx⟩, .inr ⟨rfl, I.out x h⟩⟩
    · obtain ⟨⟨b, h1⟩, h2⟩ := I.got y q hg
      exact ⟨⟨b, by simp only [pc y (by rw [h1]; nofun)]; exact h1⟩, h2⟩
  · by_cases e : y = x
    · subst e; simp only [pcx] at hp; cases hp
    · simp only [upd_ne e] at hp; exact I.out y hp
  · have := I.fresh y hy
    simp only [pc y (by rw [this]; nofun)]; exact this
  · obtain ⟨b, h1⟩ := I.bef y z hb
    exact ⟨b, by simp only [pc z (by rw [h1]; nofun)]; exact h1⟩

theorem inv (h : Reach s) : Inv s := by
  induction h with
  | init =>
    exact ⟨fun _ => .init, nofun, fun _ => List.nodup_nil, fun _ _ h => absurd rfl h, nofun, nofun, nofun, (fun _ h => absurd h (Nat.not_lt_zero _)), nofun, nofun,
      fun _ _ => rfl, (fun _ _ h => h.elim), (fun _ _ h => h.elim), (fun _ _ _ _ h => h.elim), (fun _ _ _ _ h => h.elim), (fun _ _ _ _ _ _ h => h.elim)⟩
  | step _ st I =>
    cases st with
    | begin a => exact I.begin a
    | enter h ha hs => exact I.enter h ha hs
    | work hs he => exact I.work hs he
    | move h hv ht hr => exact I.move h hv ht hr
    | clear h ha => exact I.clear h ha
    | ret h hs => exact I.retStep h hs
    | retClear h => exact I.retClear h

end Scc.Coppice
