import Verif.Mist.Hist

/-! # The lookups -/

namespace Scc.Mist

open Scc.Haze

/-- The lookup began with this view. -/
def Start (s : State) (t : Nat) (B : View) : Prop := s.post B ∧ (∀ x, B.ops x → (s.tv t).ops x) ∧ ∀ w, B.ver w → (s.tv t).ver w
/-- It has array `v`. -/
def At (s : State) (t : Nat) (B : View) (v : Nat) : Prop := Start s t B ∧ s.isA v = true ∧ (s.tv t).ver v ∧ ∀ w, B.ver w → w ≤ v
/-- The key was not in the old array, at a position the lookup may see. -/
def Abs (ix : Nat → Nat → Nat) (s : State) (h : Nat → Nat → List Wr) (B : View) (k p : Nat) : Prop :=
  (Coh h B p k 0 ∧ Gate ix s p k ∧ after empty (flat s.log (p - 1)) k = none) ∨
  ∃ (i : Nat) (w : Wr), Coh h B p k (i + 1) ∧ (h p k)[i]? = some w ∧ w.val = none ∧ w.mv = false

def SrcOk (ix : Nat → Nat → Nat) (s : State) (h : Nat → Nat → List Wr) (t : Nat) (B : View) (k v : Nat) : Src → Prop
  | .direct => s.prev v = none
  | .unl => ∃ p, s.prev v = some p ∧ s.dead p (ix p k) = true ∧ ∀ x, Ids s p (ix p k) x → (s.tv t).ops x
  | .old none => ∃ p, s.prev v = some p ∧ Abs ix s h B k p
  | .old (some x) => ∃ (i : Nat) (w : Wr), (h v k)[i]? = some w ∧ w.id = x

/-- The key was not there before the first entry of the history. -/
def Zero (ix : Nat → Nat → Nat) (s : State) (h : Nat → Nat → List Wr) (B : View) (k v : Nat) : Prop :=
  s.prev v = none ∨ ∃ p, s.prev v = some p ∧ ((s.dead p (ix p k) = true ∧ after empty (flat s.log p) k = none) ∨ Abs ix s h B k p)

def PkOk (ix : Nat → Nat → Nat) (s : State) (h : Nat → Nat → List Wr) (t : Nat) : Pk → Prop
  | .idle | .done _ _ _ => True
  | .go _ B => Start s t B
  | .have _ B v => At s t B v
  | .old _ B v p => At s t B v ∧ s.prev v = some p
  | .cur k B v src => At s t B v ∧ SrcOk ix s h t B k v src
  | .chk k B v q => At s t B v ∧ Coh h B v k q ∧
      ((q = 0 ∧ Zero ix s h B k v) ∨ ∃ (i : Nat) (w : Wr), q = i + 1 ∧ (h v k)[i]? = some w ∧ w.val = none ∧ (w.mv = true → (s.tv t).ver (v + 1)))

/-- A step of the whole leaves what lookups rely on. -/
structure Ext (ix : Nat → Nat → Nat) (s : State) (h : Nat → Nat → List Wr) (s' : State) (h' : Nat → Nat → List Wr) : Prop where
  inv : Inv ix s'
  lin : Lin ix s'
  fr : Frame s s'
  gr : Grow ix s s'
  ver : ∀ t w, (s.tv t).ver w → (s'.tv t).ver w
  get : ∀ (a k i : Nat) (w : Wr), (h a k)[i]? = some w → (h' a k)[i]? = some w
  new : ∀ B, s.post B → ∀ (a k i : Nat) (w : Wr), (h' a k)[i]? = some w → (h a k)[i]? = some w ∨ ¬B.ops w.id
  aft : ∀ a p k, s.prev a = some p → s.dead p (ix p k) = true → after empty (flat s'.log p) k = after empty (flat s.log p) k

theorem Ext.coh {ix : Nat → Nat → Nat} {s s' : State} {h h' : Nat → Nat → List Wr} (E : Ext ix s h s' h') {B : View} (hB : s.post B) {a k j : Nat} (c : Coh h B a k j) :
    Coh h' B a k j := by
  intro i w hw hb
  rcases E.new B hB a k i w hw with g | g
  · exact c i w g hb
  · exact absurd hb g

theorem before_null {ix : Nat → Nat → Nat} {s : State} (I : Inv ix s) (L : Lin ix s) {a : Nat} (ha : s.isA a = true) (hp : s.prev a = none) (k : Nat) :
    after empty (flat s.log (a - 1)) k = none := by
  cases a with
  | zero => rw [I.zero] at ha; cases ha
  | succ a => exact L.nulls a (by have := isA_le I ha; omega) (I.nolink a ha hp) k

theorem Abs.mono {ix : Nat → Nat → Nat} {s s' : State} {h h' : Nat → Nat → List Wr} (E : Ext ix s h s' h') (I : Inv ix s) {B : View} (hB : s.post B) {k p : Nat} (ha : s.isA p = true)
    (A : Abs ix s h B k p) : Abs ix s' h' B k p := by
  rcases A with ⟨c, g, z⟩ | ⟨i, w, c, g1, g2, g3⟩
  · rcases g with g | ⟨q, g, d⟩
    · have g' : s'.prev p = none := (E.gr.prev p ha).trans g
      exact .inl ⟨E.coh hB c, .inl g', before_null E.inv E.lin (E.gr.isA p ha) g' k⟩
    · have e : p - 1 = q := by have := (I.link _ _ g).1; omega
      refine .inl ⟨E.coh hB c, .inr ⟨q, (E.gr.prev p ha).trans g, E.fr.dead _ _ d⟩, ?_⟩
      rw [e, E.aft p q k g d, ← e]; exact z
  · exact .inr ⟨i, w, E.coh hB c, E.get _ _ _ _ g1, g2, g3⟩

theorem PkOk.mono {ix : Nat → Nat → Nat} {s s' : State} {h h' : Nat → Nat → List Wr} (E : Ext ix s h s' h') (I : Inv ix s) {t : Nat} {q : Pk} (P : PkOk ix s h t q) :
    PkOk ix s' h' t q := by
  have st : ∀ B, Start s t B → Start s' t B := fun B g =>
    ⟨E.gr.post B g.1, fun x hx => E.fr.tv t x (g.2.1 x hx), fun w hw => E.ver t w (g.2.2 w hw)⟩
  have at' : ∀ B v, At s t B v → At s' t B v := fun B v g => ⟨st B g.1, E.gr.isA v g.2.1, E.ver t v g.2.2.1, g.2.2.2⟩
  cases q with
  | idle => trivial
  | done => trivial
  | go k B => exact st B P
  | «have» k B v => exact at' B v P
  | old k B v p => exact ⟨at' B v P.1, (E.gr.prev v P.1.2.1).trans P.2⟩
  | cur k B v src =>
    obtain ⟨g, P⟩ := P
    refine ⟨at' B v g, ?_⟩
    cases src with
    | direct => exact (E.gr.prev v g.2.1).trans P
    | unl =>
      obtain ⟨p, h1, h2, h3⟩ := P
      exact ⟨p, (E.gr.prev v g.2.1).trans h1, E.fr.dead _ _ h2, fun x hx => E.fr.tv t x (h3 x (E.fr.ids _ _ _ h2 hx))⟩
    | old mo =>
      cases mo with
      | none =>
        obtain ⟨p, h1, h2⟩ := P
        exact ⟨p, (E.gr.prev v g.2.1).trans h1, h2.mono E I g.1.1 (I.link _ _ h1).2.1⟩
      | some x =>
        obtain ⟨i, w, h1, h2⟩ := P
        exact ⟨i, w, E.get _ _ _ _ h1, h2⟩
  | chk k B v q =>
    obtain ⟨g, c, P⟩ := P
    refine ⟨at' B v g, E.coh g.1.1 c, ?_⟩
    rcases P with ⟨e, z⟩ | ⟨i, w, h1, h2, h3, h4⟩
    · refine .inl ⟨e, ?_⟩
      rcases z with z | ⟨p, h1, h2⟩
      · exact .inl ((E.gr.prev v g.2.1).trans z)
      · refine .inr ⟨p, (E.gr.prev v g.2.1).trans h1, ?_⟩
        rcases h2 with ⟨h2, h3⟩ | h2
        · exact .inl ⟨E.fr.dead _ _ h2, (E.aft v p k h1 h2).trans h3⟩
        · exact .inr (h2.mono E I g.1.1 (I.link _ _ h1).2.1)
    · exact .inr ⟨i, w, h1, E.get _ _ _ _ h2, h3, fun g => E.ver t _ (h4 g)⟩

/-- What was released where a link was removed. -/
def UnOk (ix : Nat → Nat → Nat) (s : State) (un : Nat → View → Prop) : Prop :=
  ∀ v U, un v U → s.post U ∧ ∃ p, s.prev v = some p ∧ (∀ k, s.dead p (ix p k) = true) ∧ ∀ k x, Ids s p (ix p k) x → U.ops x

structure All (ix : Nat → Nat → Nat) (S : Sys) : Prop where
  reach : Haze.Reach ix S.s
  know : Know ix S.s
  drd : Drd S.s
  hist : Hist ix S.s S.h
  post : ∀ a k w, w ∈ S.h a k → S.s.post w.msg
  un : UnOk ix S.s S.un
  pk : ∀ t, PkOk ix S.s S.h t (S.pk t)

theorem UnOk.mono {ix : Nat → Nat → Nat} {s s' : State} {un : Nat → View → Prop} (I : Inv ix s) (F : Frame s s') (G : Grow ix s s') (U : UnOk ix s un) : UnOk ix s' un := by
  intro v V hV
  obtain ⟨h1, p, h2, h3, h4⟩ := U v V hV
  exact ⟨G.post V h1, p, (G.prev v (I.link _ _ h2).2.2).trans h2, fun k => F.dead _ _ (h3 k), fun k x hx => h4 k x (F.ids _ _ _ (h3 k) hx)⟩

theorem Quiet.sharp {ix : Nat → Nat → Nat} {s s' : State} (q : Quiet ix s s') : Sharp ix s s' :=
  ⟨q.poison, fun v p h1 h2 => by rw [q.unl v, h1] at h2; cases h2⟩

theorem ext_same {ix : Nat → Nat → Nat} {s s' : State} {h : Nat → Nat → List Wr} (hr : Haze.Reach ix s) (st : Haze.Step ix s s')
    (hc : ∀ t x o v, s.pc t = .crit x o v → s'.pc t = .crit x o v) (hm : ∀ t v p i, s'.mp t = .kl v p i → s.mp t = .kl v p i) : Ext ix s h s' h where
  inv := inv_reach (hr.step st)
  lin := lin_reach (hr.step st)
  fr := frame_step (inv_reach hr) st
  gr := grow_step (inv_reach hr) st
  ver := grow_ver st
  get := fun _ _ _ _ h => h
  new := fun _ _ _ _ _ _ h => .inl h
  aft := fun _ p k _ _ => (same_step (lin_reach hr) st hc hm).aft p k

theorem all_quiet {ix : Nat → Nat → Nat} {S : Sys} {s' : State} (A : All ix S) (st : Haze.Step ix S.s s') (q : Quiet ix S.s s') : All ix { S with s := s' } := by
  have I := inv_reach A.reach
  have L := lin_reach A.reach
  have G := grow_step I st
  exact ⟨A.reach.step st, know_step I L (ord_reach A.reach) (race_reach A.reach) A.know q.sharp st, drd_step I A.drd st, hist_same I L A.drd A.hist st q.crit q.mv,
    fun a k w hw => G.post _ (A.post a k w hw), A.un.mono I (frame_step I st) G, fun t => (A.pk t).mono (ext_same A.reach st q.crit q.mv) I⟩

theorem All.setpk {ix : Nat → Nat → Nat} {S : Sys} (A : All ix S) {t : Nat} {p : Pk} (h : PkOk ix S.s S.h t p) : All ix { S with pk := upd S.pk t p } := by
  refine ⟨A.reach, A.know, A.drd, A.hist, A.post, A.un, fun u => ?_⟩
  show PkOk ix S.s S.h u (upd S.pk t p u)
  by_cases e : u = t
  · rw [e, upd_eq]; exact h
  · rw [upd_ne _ _ e]; exact A.pk u

/-! ## Quiet steps -/

theorem quiet_view {ix : Nat → Nat → Nat} {s s' : State} (hp : s'.pc = s.pc) (hm : s'.mp = s.mp) (hu : s'.unl = s.unl) : Quiet ix s s' where
  crit := by rw [hp]; exact fun _ _ _ _ h => h
  mv := by rw [hm]; exact fun _ _ _ _ h => h
  unl := by rw [hu]; exact fun _ => rfl
  poison := by
    rw [hp]
    intro t x o v p h1 h2
    rw [h1] at h2; cases h2

theorem quiet_mp {ix : Nat → Nat → Nat} {s s' : State} {t : Nat} {q : Mp} (hp : s'.pc = s.pc) (hm : s'.mp = upd s.mp t q) (hq : ∀ v p i, q ≠ .kl v p i) (hu : s'.unl = s.unl) :
    Quiet ix s s' where
  crit := by rw [hp]; exact fun _ _ _ _ h => h
  mv := by
    rw [hm]
    intro u v p i h
    rcases upd_back h with h | ⟨_, h⟩
    · exact h
    · exact absurd h (hq v p i)
  unl := by rw [hu]; exact fun _ => rfl
  poison := by
    rw [hp]
    intro t x o v p h1 h2
    rw [h1] at h2; cases h2

theorem quiet_pc {ix : Nat → Nat → Nat} {s s' : State} {t : Nat} {q : Pc} (hp : s'.pc = upd s.pc t q) (hc : ∀ x o v, s.pc t ≠ .crit x o v) (hr : ∀ x o v, s.pc t = .at x o v → s.prev v = none)
    (hm : s'.mp = s.mp) (hu : s'.unl = s.unl) : Quiet ix s s' where
  crit := by
    intro u x o v h
    rw [hp]
    by_cases e : u = t
    · subst e; exact absurd h (hc x o v)
    · rw [upd_ne _ _ e]; exact h
  mv := by rw [hm]; exact fun _ _ _ _ h => h
  unl := by rw [hu]; exact fun _ => rfl
  poison := by
    rw [hp]
    intro u x o v p h1 h2 h3
    rcases upd_back h2 with h | ⟨e, h⟩
    · rw [h1] at h; cases h
    · subst e; rw [hr x o v h1] at h3; cases h3

theorem quiet_moved {ix : Nat → Nat → Nat} {s s' : State} {t x v p : Nat} {o : Op} (hq : s.pc t = .at x o v) (hpv : s.prev v = some p) (hp : s'.pc = upd s.pc t (.rdy x o v))
    (ht : s'.tv = upd s.tv t ((s.tv t).join (s.bmsg p (ix p o.key)))) (hm : s'.mp = s.mp) (hu : s'.unl = s.unl) : Quiet ix s s' where
  crit := by
    intro u x' o' v' h
    rw [hp]
    by_cases e : u = t
    · subst e; rw [hq] at h; cases h
    · rw [upd_ne _ _ e]; exact h
  mv := by rw [hm]; exact fun _ _ _ _ h => h
  unl := by rw [hu]; exact fun _ => rfl
  poison := by
    rw [hp, ht]
    intro u x' o' v' p' h1 h2 h3
    rcases upd_back h2 with h | ⟨e, h⟩
    · rw [h1] at h; cases h
    · subst e
      cases h
      rw [hpv] at h3; cases h3
      refine .inl (fun y hy => ?_)
      rw [upd_eq]; exact .inr hy

theorem quiet_send {ix : Nat → Nat → Nat} (s : State) (t : Nat) : Quiet ix s (State.send s t) := quiet_view rfl rfl rfl
theorem quiet_recv {ix : Nat → Nat → Nat} (s : State) (t : Nat) (U : View) : Quiet ix s (State.recv s t U) := quiet_view rfl rfl rfl

/-! ## The other steps -/

theorem all_act {ix : Nat → Nat → Nat} {S : Sys} (A : All ix S) {t x : Nat} {o : Op} {v : Nat} (h : S.s.pc t = .crit x o v) :
    All ix { S with s := (State.send S.s t).act ix t x o v, h := push S.h v o.key ⟨x, (o.f (S.s.val v o.key)).1, false, S.s.tv t⟩ } := by
  have A1 := all_quiet A (s' := State.send S.s t) .send (quiet_send _ _)
  have I := inv_reach A1.reach
  have L := lin_reach A1.reach
  have O := ord_reach A1.reach
  have h' : (State.send S.s t).pc t = .crit x o v := h
  have st : Haze.Step ix (State.send S.s t) ((State.send S.s t).act ix t x o v) := .act h'
  have F := frame_step I st
  have G := grow_step I st
  have sh : Sharp ix (State.send S.s t) ((State.send S.s t).act ix t x o v) := by
    refine ⟨?_, ?_⟩
    · intro u x' o' v' p h1 h2 h3
      rcases upd_back h2 with g | ⟨e, g⟩
      · rw [h1] at g; cases g
      · cases g
    · intro v p h1 h2
      rw [show ((State.send S.s t).act ix t x o _).unl v = (State.send S.s t).unl v from rfl, h1] at h2; cases h2
  have r1 := A1.reach.step st
  have I1 := inv_reach r1
  have L1 := lin_reach r1
  have E1 : Ext ix (State.send S.s t) S.h ((State.send S.s t).act ix t x o v) (push S.h v o.key ⟨x, (o.f (S.s.val v o.key)).1, false, S.s.tv t⟩) := by
    refine ⟨I1, L1, F, G, grow_ver st, fun _ _ _ _ g => push_get g, ?_, fun a p k hp hd => aft_act I h' hp (.inl hd)⟩
    intro B hB a k i w hw
    have hw : (upd2 S.h v o.key (S.h v o.key ++ [⟨x, (o.f (S.s.val v o.key)).1, false, S.s.tv t⟩]) a k)[i]? = some w := hw
    by_cases e : a = v ∧ k = o.key
    · obtain ⟨rfl, rfl⟩ := e
      rw [upd2_eq] at hw
      rcases append_get hw with g | ⟨_, g⟩
      · exact .inl g
      · refine .inr (fun hb => ?_)
        rw [g] at hb
        exact (O.cls.po B hB).np x hb t (by rw [h']; rfl)
    · rw [upd2_ne _ _ e] at hw; exact .inl hw
  refine ⟨r1, know_step I L O (race_reach A1.reach) A1.know sh st, drd_step I A1.drd st, hist_act I L A1.hist h' (S.s.tv t), ?_, A1.un.mono I F G, fun u => (A1.pk u).mono E1 I⟩
  intro a k w hw
  rcases push_mem hw with g | ⟨_, _, g⟩
  · exact .inl (A.post a k w g)
  · rw [g]; exact .inr rfl

theorem all_move {ix : Nat → Nat → Nat} {S : Sys} (A : All ix S) {t v p i : Nat} (h : S.s.mp t = .mv v p i) (hw : ∀ b, Target ix v p i b → S.s.wl v b = none ∧ ∀ u, S.s.sl v b u = false) :
    All ix { S with s := (State.send S.s t).move ix t v p i, h := moveH ix S.s S.h t v p i } := by
  have A1 := all_quiet A (s' := State.send S.s t) .send (quiet_send _ _)
  have I := inv_reach A1.reach
  have L := lin_reach A1.reach
  have O := ord_reach A1.reach
  have st : Haze.Step ix (State.send S.s t) ((State.send S.s t).move ix t v p i) := .move h hw
  have F := frame_step I st
  have G := grow_step I st
  have hne : p ≠ v := by
    have hm := I.mps t
    rw [show (State.send S.s t).mp t = .mv v p i from h] at hm
    have := (I.link _ _ hm.1).1; omega
  have sh : Sharp ix (State.send S.s t) ((State.send S.s t).move ix t v p i) := by
    refine ⟨?_, ?_⟩
    · intro u x' o' v' p h1 h2 h3
      have h2 : S.s.pc u = _ := h2
      rw [show S.s.pc u = _ from h1] at h2; cases h2
    · intro v p h1 h2
      have h2 : S.s.unl v = true := h2
      rw [show S.s.unl v = false from h1] at h2; cases h2
  have E : Ext ix (State.send S.s t) S.h ((State.send S.s t).move ix t v p i) (moveH ix S.s S.h t v p i) := by
    refine ⟨inv_reach (A1.reach.step st), lin_reach (A1.reach.step st), F, G, grow_ver st, fun _ _ _ _ g => moveH_get hne g, ?_, fun _ _ _ _ _ => rfl⟩
    intro B hB a k j w hw
    have nw : ∀ x y m, ¬B.ops (Wr.mk S.s.nid x y m).id := by
      intro x y m hb
      have : S.s.nid < S.s.nid := (O.cls.po B hB).lt S.s.nid hb
      omega
    rcases moveH_cases (ix := ix) (s := S.s) (h := S.h) (t := t) (i := i) hne a k with ⟨_, _, _, e⟩ | ⟨_, _, _, e⟩ | ⟨_, e⟩
    · rw [e] at hw
      rcases append_get hw with g | ⟨_, g⟩
      · exact .inl g
      · rw [g]; exact .inr (nw _ _ _)
    · rw [e] at hw
      rcases append_get hw with g | ⟨_, g⟩
      · exact .inl g
      · rw [g]; exact .inr (nw _ _ _)
    · rw [e] at hw; exact .inl hw
  refine ⟨A1.reach.step st, know_step I L O (race_reach A1.reach) A1.know sh st, drd_step I A1.drd st, hist_move I L O A1.hist h hw, ?_, A1.un.mono I F G, fun u => (A1.pk u).mono E I⟩
  intro a k w hw
  rcases moveH_mem hne hw with g | ⟨_, _, ⟨_, g⟩ | ⟨_, g⟩⟩
  · exact .inl (A.post a k w g)
  · rw [g]; exact .inr rfl
  · rw [g]; exact .inr rfl

theorem all_unlink {ix : Nat → Nat → Nat} {S : Sys} (A : All ix S) {t v p : Nat} (h : S.s.mp t = .have v) (hp : S.s.prev v = some p) (hd : ∀ k, S.s.dead p (ix p k) = true)
    (hk : ∀ k y, (S.s.bmsg p (ix p k)).ops y → (S.s.tv t).ops y) :
    All ix { S with s := State.send (State.unlink S.s t v) t, un := fun a U => S.un a U ∨ (a = v ∧ U = S.s.tv t) } := by
  have I := inv_reach A.reach
  have L := lin_reach A.reach
  have O := ord_reach A.reach
  have st : Haze.Step ix S.s (State.unlink S.s t v) := .unlink h hp hd
  have F := frame_step I st
  have G := grow_step I st
  have sh : Sharp ix S.s (State.unlink S.s t v) := by
    refine ⟨?_, ?_⟩
    · intro u x' o' v' p h1 h2 h3
      have h2 : S.s.pc u = _ := h2
      rw [h1] at h2; cases h2
    · intro a q h1 h2 h3 k y hy
      have h2 : upd S.s.unl v true a = true := h2
      rcases upd_back h2 with g | ⟨e, _⟩
      · rw [h1] at g; cases g
      · subst e
        rw [hp] at h3; cases h3
        show (upd S.s.umsg a ((S.s.umsg a).join (S.s.tv t)) a).ops y
        rw [upd_eq]; exact .inr (hk k y hy)
  have r1 := A.reach.step st
  have I1 := inv_reach r1
  have L1 := lin_reach r1
  have K1 := know_step I L O (race_reach A.reach) A.know sh st
  have D1 := drd_step I A.drd st
  have hc : ∀ t' x o v', S.s.pc t' = .crit x o v' → (State.unlink S.s t v).pc t' = .crit x o v' := fun _ _ _ _ h => h
  have hm : ∀ t' v' p i, (State.unlink S.s t v).mp t' = .kl v' p i → S.s.mp t' = .kl v' p i := fun _ _ _ _ h => h
  have H1 := hist_same I L A.drd A.hist st hc hm
  have st2 : Haze.Step ix (State.unlink S.s t v) (State.send (State.unlink S.s t v) t) := .send
  have q2 := quiet_send (ix := ix) (State.unlink S.s t v) t
  have U0 := (A.un.mono I F G).mono I1 (frame_step I1 st2) (grow_step I1 st2)
  refine ⟨r1.step st2, know_step I1 L1 (ord_reach r1) (race_reach r1) K1 q2.sharp st2, drd_step I1 D1 st2, hist_same I1 L1 D1 H1 st2 q2.crit q2.mv,
    fun a k w hw => .inl (A.post a k w hw), ?_, fun u => ((A.pk u).mono (ext_same A.reach st hc hm) I).mono (ext_same r1 st2 q2.crit q2.mv) I1⟩
  intro a U hU
  rcases hU with hU | ⟨rfl, rfl⟩
  · exact U0 a U hU
  · refine ⟨.inr rfl, p, hp, hd, fun k x hx => hk k x ?_⟩
    exact A.know.c3 p _ (hd k) x hx

theorem coh_le {h : Nat → Nat → List Wr} {V B : View} {a k j : Nat} (hB : ∀ x, B.ops x → V.ops x) (c : Coh h V a k j) : Coh h B a k j :=
  fun i w hw hb => c i w hw (hB _ hb)

/-- Before the first entry of a bucket whose entries moved in are known there was nothing. -/
theorem none_in {ix : Nat → Nat → Nat} {S : Sys} (A : All ix S) {V : View} {a p k : Nat} (hp : S.s.prev a = some p) (hd : S.s.dead p (ix p k) = true)
    (hV : ∀ x, Ids S.s p (ix p k) x → V.ops x) (c : Coh S.h V a k 0) : after empty (flat S.s.log p) k = none := by
  refine A.hist.f2 a p k hp hd (fun w hw hmi => ?_)
  obtain ⟨i, hi⟩ := List.getElem?_of_mem hw
  exact absurd (c i w hi (hV _ (A.hist.h7 a p k w hw hmi hp))) (Nat.not_lt_zero _)

theorem acq_ops {s : State} {t m x : Nat} (h : (s.tv t).ops x) : (acq s t m).ops x := .inl h

theorem all_step {ix : Nat → Nat → Nat} {S S' : Sys} (A : All ix S) (st : Step ix S S') : All ix S' := by
  have I := inv_reach A.reach
  have L := lin_reach A.reach
  have take : ∀ {t k m : Nat} {B : View}, Start S.s t B → S.s.mp t = .idle → Ok S.s t m → S.s.isA m = true →
      All ix { S with s := S.s.goto' t (.have m) (acq S.s t m), pk := upd S.pk t (.have k B m) } := by
    intro t k m B g hi ok ha
    have A1 := all_quiet A (s' := S.s.goto' t (.have m) (acq S.s t m)) (.take hi ok ha) (quiet_mp rfl rfl (fun _ _ _ h => by cases h) rfl)
    refine A1.setpk ⟨⟨g.1, fun x hx => ?_, fun w hw => ?_⟩, ha, ?_, fun w hw => ok.2 w (g.2.2 w hw)⟩
    · show (upd S.s.tv t _ t).ops x
      rw [upd_eq]; exact .inl (g.2.1 x hx)
    · show (upd S.s.tv t _ t).ver w
      rw [upd_eq]; exact .inl (.inl (g.2.2 w hw))
    · show (upd S.s.tv t _ t).ver m
      rw [upd_eq]; exact .inr rfl
  have recv : ∀ {t : Nat} {U : View}, S.s.post U → All ix { S with s := State.recv S.s t U } := fun hU => all_quiet A (.recv hU) (quiet_recv _ _ _)
  cases st with
  | quiet st q => exact all_quiet A st q
  | act h hu => exact all_act A h
  | move h hw => exact all_move A h hw
  | unlink h hp hd hk => exact all_unlink A h hp hd hk
  | @start t k h =>
    have A1 := all_quiet A (s' := State.send S.s t) .send (quiet_send _ _)
    exact A1.setpk ⟨.inr rfl, fun _ h => h, fun _ h => h⟩
  | @load t k B m h hi ok ha =>
    have g := A.pk t; rw [h] at g
    exact take g hi ok ha
  | null h ok ha => exact A.setpk trivial
  | @direct t k B v h hp =>
    have g := A.pk t; rw [h] at g
    exact A.setpk ⟨g, hp⟩
  | @past t k B v U h hu =>
    obtain ⟨h1, p, h2, h3, h4⟩ := A.un v U hu
    have A1 := recv (t := t) h1
    have g := A1.pk t
    rw [show S.pk t = _ from h] at g
    refine A1.setpk ⟨g, p, h2, h3 k, fun x hx => ?_⟩
    show (upd S.s.tv t ((S.s.tv t).join U) t).ops x
    rw [upd_eq]; exact .inr (h4 k x hx)
  | @link t k B v p h hp =>
    have g := A.pk t; rw [h] at g
    exact A.setpk ⟨g, hp⟩
  | @old0 t k B v p h hc =>
    have g := A.pk t; rw [h] at g
    obtain ⟨g, hp⟩ := g
    refine A.setpk ⟨g, p, hp, .inl ⟨coh_le g.1.2.1 hc, ?_⟩⟩
    obtain ⟨e1, hAp, hAv⟩ := I.link _ _ hp
    cases e : S.s.prev p with
    | none => exact ⟨.inl e, before_null I L hAp e k⟩
    | some p0 =>
      have hd := A.know.d3 v p p0 hp e k
      have e2 : p - 1 = p0 := by have := (I.link _ _ e).1; omega
      refine ⟨.inr ⟨p0, e, hd⟩, ?_⟩
      rw [e2]
      exact none_in A e hd (fun x hx => (A.know.vs.tv t).k2 v x ⟨p, p0, k, hp, e, hx⟩ g.2.2.1) hc
  | @old t k B v p j w h hw hc =>
    have hmem := List.mem_of_getElem? hw
    have A1 := recv (t := t) (A.post p k w hmem)
    have g := A1.pk t
    rw [show S.pk t = _ from h] at g
    obtain ⟨g, hp⟩ := g
    have g0 := A.pk t; rw [h] at g0
    have hp : S.s.prev v = some p := hp
    refine A1.setpk ?_
    cases e : w.val with
    | some x => rw [pkOld, e]; trivial
    | none =>
      rw [pkOld, e]
      cases em : w.mv with
      | true =>
        obtain ⟨⟨w', h1, h2⟩, _⟩ := A.hist.h6 p k w hmem ⟨em, e⟩
        rw [← (I.link _ _ hp).1] at h1
        obtain ⟨i, hi⟩ := List.getElem?_of_mem h1
        exact ⟨g, i, w', hi, h2⟩
      | false => exact ⟨g, p, hp, .inr ⟨j, w, coh_le g0.1.1.2.1 hc, hw, e, em⟩⟩
  | @cur0 t k B v src h hc hm =>
    have g := A.pk t; rw [h] at g
    obtain ⟨g, hs⟩ := g
    refine A.setpk ⟨g, coh_le g.1.2.1 hc, .inl ⟨rfl, ?_⟩⟩
    cases src with
    | direct => exact .inl hs
    | unl =>
      obtain ⟨p, h1, h2, h3⟩ := hs
      exact .inr ⟨p, h1, .inl ⟨h2, none_in A h1 h2 h3 hc⟩⟩
    | old mo =>
      cases mo with
      | none =>
        obtain ⟨p, h1, h2⟩ := hs
        exact .inr ⟨p, h1, .inr h2⟩
      | some x =>
        obtain ⟨i, w, h1, h2⟩ := hs
        exact absurd (hm x rfl i w h1 h2) (Nat.not_lt_zero _)
  | @cur t k B v j w src h hw hc =>
    have hmem := List.mem_of_getElem? hw
    have A1 := recv (t := t) (A.post v k w hmem)
    have g := A1.pk t
    rw [show S.pk t = _ from h] at g
    have g0 := A.pk t; rw [h] at g0
    refine A1.setpk ?_
    cases e : w.val with
    | some x => rw [pkCur, e]; trivial
    | none =>
      rw [pkCur, e]
      refine ⟨g.1, coh_le g0.1.1.2.1 hc, .inr ⟨j, w, rfl, hw, e, fun em => ?_⟩⟩
      show (upd S.s.tv t ((S.s.tv t).join w.msg) t).ver (v + 1)
      rw [upd_eq]; exact .inr (A.hist.h6 v k w hmem ⟨em, e⟩).2
  | same h ok => exact A.setpk trivial
  | @other t k B v q m h hi ok ha hn =>
    have g := A.pk t; rw [h] at g
    exact take g.1.1 hi ok ha
  | gone h ok ha => exact A.setpk trivial
  | finish h => exact A.setpk trivial

theorem all_reach {ix : Nat → Nat → Nat} {S : Sys} (h : Reach ix S) : All ix S := by
  induction h with
  | init =>
    exact ⟨.init, know_init ix, fun _ _ h => (by cases h), hist_init ix, fun _ _ _ h => (by cases h), fun _ _ h => h.elim, fun _ => trivial⟩
  | step _ st ih => exact all_step ih st

end Scc.Mist
