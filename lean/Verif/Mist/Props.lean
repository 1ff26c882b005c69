import Verif.Mist.Look

/-!
# C67: lookups without locks on a whole `HashIndex` under release/acquire memory

`c67_partial`: what a lookup returns is the value of its key after some first part of the calls in their order (C66), and no call on the key that
happens before the lookup is missing from that part.
-/

namespace Scc.Mist

open Scc.Haze

/-- No call in an array after `v` happens before the lookup. -/
theorem late {ix : Nat → Nat → Nat} {S : Sys} (A : All ix S) {t v : Nat} {B : View} (g : At S.s t B v) {w : Nat} {e : Ev} (he : e ∈ S.s.log w) (hb : B.ops e.id) : w ≤ v :=
  g.2.2.2 w (((ord_reach A.reach).cls.po B g.1.1).ev e.id hb w e he rfl)

theorem flat_at {log : Nat → List Ev} {a n : Nat} (h0 : a ≠ 0) (hn : a ≤ n) {A C : List Ev} (hl : log a = A ++ C) :
    ∃ D, flat log n = (flat log (a - 1) ++ A) ++ (C ++ D) ∧ ∀ e ∈ D, ∃ w, a < w ∧ w ≤ n ∧ e ∈ log w := by
  obtain ⟨D, h1, h2, _⟩ := flat_split log hn
  refine ⟨D, ?_, h2⟩
  rw [h1, flat_pred log h0, hl]; simp

/-- A value in the current bucket. -/
theorem right_cur {ix : Nat → Nat → Nat} {S : Sys} (A : All ix S) {t k v i : Nat} {B : View} {w : Wr} (g : At S.s t B v) (hw : (S.h v k)[i]? = some w)
    (hc : Coh S.h B v k (i + 1)) (hmo : ¬MoveOut w) : Right S.s k B w.val := by
  have I := inv_reach A.reach
  obtain ⟨X, C, h1, h2, h3⟩ := A.hist.f1 v k i w hw hmo
  obtain ⟨D, h4, h5⟩ := flat_at (arr_ne I g.2.1) (isA_le I g.2.1) h1
  refine ⟨_, _, h4, h2, fun e he hk hb => ?_⟩
  rcases List.mem_append.mp he with he | he
  · obtain ⟨i', w', g1, g2, g3⟩ := h3 e he hk
    have := hc i' w' g1 (g3 ▸ hb); omega
  · obtain ⟨w', g1, _, g3⟩ := h5 e he
    have := late A g g3 hb; omega

/-- A value in the old bucket. -/
theorem right_old {ix : Nat → Nat → Nat} {S : Sys} (A : All ix S) {t k v p i : Nat} {B : View} {w : Wr} (g : At S.s t B v) (hp : S.s.prev v = some p)
    (hw : (S.h p k)[i]? = some w) (hc : Coh S.h B p k (i + 1)) (hs : w.val ≠ none) : Right S.s k B w.val := by
  have I := inv_reach A.reach
  obtain ⟨e1, hAp, hAv⟩ := I.link _ _ hp
  obtain ⟨X, C, h1, h2, h3⟩ := A.hist.f1 p k i w hw (fun h => hs h.2)
  obtain ⟨D, h4, h5⟩ := flat_at (arr_ne I hAp) (isA_le I hAp) h1
  refine ⟨_, _, h4, h2, fun e he hk hb => ?_⟩
  rcases List.mem_append.mp he with he | he
  · obtain ⟨i', w', g1, g2, g3⟩ := h3 e he hk
    have := hc i' w' g1 (g3 ▸ hb); omega
  · obtain ⟨w', g1, _, g3⟩ := h5 e he
    have hle := late A g g3 hb
    have e2 : w' = v := by omega
    subst e2 hk
    -- a call in the new bucket: the old one is dead, the value has gone, and who knows the call knows that
    have hd := A.know.d1 w' p e g3 hp
    have hz : lastv (S.h p e.op.key) = none := by rw [A.hist.h5]; exact (I.dead _ _ hd).1 _ rfl
    have hi := (List.getElem?_eq_some_iff.mp hw).1
    cases hl : (S.h p e.op.key).getLast? with
    | none =>
      rw [List.getLast?_eq_none_iff] at hl
      rw [hl] at hi; exact absurd hi (Nat.not_lt_zero _)
    | some u =>
      rw [lastv, hl] at hz
      have hu : (S.h p e.op.key)[(S.h p e.op.key).length - 1]? = some u := by rw [← List.getLast?_eq_getElem?]; exact hl
      have hne : i ≠ (S.h p e.op.key).length - 1 := by
        intro e'
        rw [← e', hw] at hu; cases hu
        exact hs hz
      have hids := A.hist.ids p e.op.key u (List.mem_of_getElem? hu)
      have hbu := (A.know.vs.po B g.1.1).k1 e.id u.id ⟨w', p, e, g3, hp, rfl, hids⟩ hb
      have := hc _ u hu hbu
      omega

/-- The key was not in the old bucket, and nothing is known of the new one. -/
theorem right_abs {ix : Nat → Nat → Nat} {S : Sys} (A : All ix S) {t k v p : Nat} {B : View} (g : At S.s t B v) (hp : S.s.prev v = some p) (a : Abs ix S.s S.h B k p)
    (hc : Coh S.h B v k 0) : Right S.s k B none := by
  have I := inv_reach A.reach
  obtain ⟨e1, hAp, hAv⟩ := I.link _ _ hp
  have new : ∀ e ∈ S.s.log v, e.op.key = k → ¬B.ops e.id := by
    intro e he hk hb
    obtain ⟨w, h1, h2⟩ := A.hist.h4 v e hAv he
    obtain ⟨i, hi⟩ := List.getElem?_of_mem h1
    subst hk
    exact absurd (hc i w hi (h2 ▸ hb)) (Nat.not_lt_zero _)
  rcases a with ⟨c, _, z⟩ | ⟨i, w, c, h1, h2, h3⟩
  · obtain ⟨D, h4, h5⟩ := flat_at (A := []) (C := S.s.log p) (arr_ne I hAp) (isA_le I hAp) rfl
    refine ⟨_, _, h4, ?_, fun e he hk hb => ?_⟩
    · rw [List.append_nil]; exact z
    · rcases List.mem_append.mp he with he | he
      · obtain ⟨w, g1, g2⟩ := A.hist.h4 p e hAp he
        obtain ⟨i, hi⟩ := List.getElem?_of_mem g1
        subst hk
        exact absurd (c i w hi (g2 ▸ hb)) (Nat.not_lt_zero _)
      · obtain ⟨w', g1, _, g3⟩ := h5 e he
        have hle := late A g g3 hb
        have e2 : w' = v := by omega
        exact new e (e2 ▸ g3) hk hb
  · obtain ⟨X, C, f1, f2, f3⟩ := A.hist.f1 p k i w h1 (fun h => by have := h.1; rw [h3] at this; cases this)
    obtain ⟨D, h4, h5⟩ := flat_at (arr_ne I hAp) (isA_le I hAp) f1
    refine ⟨_, _, h4, f2.trans h2, fun e he hk hb => ?_⟩
    rcases List.mem_append.mp he with he | he
    · obtain ⟨i', w', g1, g2, g3⟩ := f3 e he hk
      have := c i' w' g1 (g3 ▸ hb); omega
    · obtain ⟨w', g1, _, g3⟩ := h5 e he
      have hle := late A g g3 hb
      have e2 : w' = v := by omega
      exact new e (e2 ▸ g3) hk hb

/-- The bucket is as it was in the beginning, and the key was not there then. -/
theorem right_first {ix : Nat → Nat → Nat} {S : Sys} (A : All ix S) {t k v : Nat} {B : View} (g : At S.s t B v) (z : after empty (flat S.s.log (v - 1)) k = none)
    (hc : Coh S.h B v k 0) : Right S.s k B none := by
  have I := inv_reach A.reach
  obtain ⟨D, h4, h5⟩ := flat_at (A := []) (C := S.s.log v) (arr_ne I g.2.1) (isA_le I g.2.1) rfl
  refine ⟨_, _, h4, by rw [List.append_nil]; exact z, fun e he hk hb => ?_⟩
  rcases List.mem_append.mp he with he | he
  · obtain ⟨w, g1, g2⟩ := A.hist.h4 v e g.2.1 he
    obtain ⟨i, hi⟩ := List.getElem?_of_mem g1
    subst hk
    exact absurd (hc i w hi (g2 ▸ hb)) (Nat.not_lt_zero _)
  · obtain ⟨w', g1, _, g3⟩ := h5 e he
    have := late A g g3 hb; omega

/-- Null. -/
theorem right_null {ix : Nat → Nat → Nat} {S : Sys} (A : All ix S) {t k m : Nat} {B : View} (g : Start S.s t B) (ok : Ok S.s t m) (ha : S.s.isA m = false) : Right S.s k B none := by
  obtain ⟨D, h1, h2, _⟩ := flat_split S.s.log ok.1
  refine ⟨_, _, h1, (lin_reach A.reach).nulls m ok.1 ha k, fun e he _ hb => ?_⟩
  obtain ⟨w, g1, _, g3⟩ := h2 e he
  have := ok.2 w (g.2.2 w (((ord_reach A.reach).cls.po B g.1).ev e.id hb w e g3 rfl))
  omega

theorem upd_done {f : Nat → Pk} {t u k : Nat} {p : Pk} {B : View} {r : Option Nat} (h : upd f u p t = .done k B r) (hn : ∀ k B r, f t ≠ .done k B r) : t = u ∧ p = .done k B r := by
  rcases upd_back h with g | g
  · exact absurd g (hn _ _ _)
  · exact g

/-- C67, as far as the assumptions of the model go. -/
theorem c67_partial {ix : Nat → Nat → Nat} {S S' : Sys} (h : Reach ix S) (st : Step ix S S') {t k : Nat} {B : View} {r : Option Nat}
    (hn : ∀ k B r, S.pk t ≠ .done k B r) (hd : S'.pk t = .done k B r) : Right S'.s k B r := by
  have A := all_reach h
  have I := inv_reach A.reach
  have L := lin_reach A.reach
  cases st with
  | quiet st q => exact absurd hd (hn _ _ _)
  | act _ _ => exact absurd hd (hn _ _ _)
  | move _ _ => exact absurd hd (hn _ _ _)
  | unlink _ _ _ _ => exact absurd hd (hn _ _ _)
  | start => obtain ⟨_, g⟩ := upd_done hd hn; cases g
  | load => obtain ⟨_, g⟩ := upd_done hd hn; cases g
  | @null u k' B' m g ok ha =>
    obtain ⟨e, g'⟩ := upd_done hd hn
    cases g'
    have hp := A.pk u; rw [g] at hp
    exact right_null A hp ok ha
  | direct => obtain ⟨_, g⟩ := upd_done hd hn; cases g
  | past => obtain ⟨_, g⟩ := upd_done hd hn; cases g
  | link => obtain ⟨_, g⟩ := upd_done hd hn; cases g
  | old0 => obtain ⟨_, g⟩ := upd_done hd hn; cases g
  | @old u k' B' v p j w g hw hc =>
    obtain ⟨e, g'⟩ := upd_done hd hn
    have hp := A.pk u; rw [g] at hp
    cases ev : w.val with
    | none => rw [pkOld, ev] at g'; cases g'
    | some x =>
      rw [pkOld, ev] at g'
      cases g'
      rw [← ev]
      exact right_old A hp.1 hp.2 hw (coh_le hp.1.1.2.1 hc) (by rw [ev]; simp)
  | cur0 => obtain ⟨_, g⟩ := upd_done hd hn; cases g
  | @cur u k' B' v j w src g hw hc =>
    obtain ⟨e, g'⟩ := upd_done hd hn
    have hp := A.pk u; rw [g] at hp
    cases ev : w.val with
    | none => rw [pkCur, ev] at g'; cases g'
    | some x =>
      rw [pkCur, ev] at g'
      cases g'
      rw [← ev]
      exact right_cur A hp.1 hw (coh_le hp.1.1.2.1 hc) (fun h => by have := h.2; rw [ev] at this; cases this)
  | @same u k' B' v q g ok =>
    obtain ⟨e, g'⟩ := upd_done hd hn
    cases g'
    have hp := A.pk u; rw [g] at hp
    obtain ⟨ha, hc, hz⟩ := hp
    rcases hz with ⟨rfl, hz⟩ | ⟨i, w, rfl, hw, hv, hm⟩
    · rcases hz with hz | ⟨p, hp, ⟨_, hz⟩ | hz⟩
      · exact right_first A ha (before_null I L ha.2.1 hz k) hc
      · have e2 : v - 1 = p := by have := (I.link _ _ hp).1; omega
        exact right_first A ha (e2 ▸ hz) hc
      · exact right_abs A ha hp hz hc
    · have := right_cur A ha hw hc (fun h => by have := ok.2 _ (hm h.1); omega)
      rw [hv] at this; exact this
  | other => obtain ⟨_, g⟩ := upd_done hd hn; cases g
  | @gone u k' B' v q m g ok ha =>
    obtain ⟨e, g'⟩ := upd_done hd hn
    cases g'
    have hp := A.pk u; rw [g] at hp
    exact right_null A hp.1.1 ok ha
  | finish => obtain ⟨_, g⟩ := upd_done hd hn; cases g

/-- If all calls on the key that have taken effect happen before the lookup, then it returns what the key has now. -/
theorem c67_exact_partial {ix : Nat → Nat → Nat} {S S' : Sys} (h : Reach ix S) (st : Step ix S S') {t k : Nat} {B : View} {r : Option Nat}
    (hn : ∀ k B r, S.pk t ≠ .done k B r) (hd : S'.pk t = .done k B r) (hb : ∀ e ∈ flat S'.s.log S'.s.n, e.op.key = k → B.ops e.id) :
    r = after (fun _ => none) (flat S'.s.log S'.s.n) k := by
  obtain ⟨l1, l2, h1, h2, h3⟩ := c67_partial h st hn hd
  rw [h1, after_append, after_other l2 (fun e he hk => ?_), h2]
  exact h3 e he hk (hb e (by rw [h1]; exact List.mem_append_right _ he) hk)

/-- The key and the view of a lookup. -/
def Pk.info : Pk → Option (Nat × View)
  | .idle => none
  | .go k B | .have k B _ | .old k B _ _ | .cur k B _ _ | .chk k B _ _ | .done k B _ => some (k, B)

/-- A lookup begins with what its thread knows, and keeps its key. -/
theorem c67_begin {ix : Nat → Nat → Nat} {S S' : Sys} (st : Step ix S S') (t : Nat) :
    (∀ k B, (S.pk t).info = some (k, B) → (S'.pk t).info = some (k, B) ∨ S'.pk t = .idle) ∧
    (S.pk t = .idle → ∀ k B, (S'.pk t).info = some (k, B) → B = S.s.tv t) := by
  have key : ∀ u p, (∀ k B, (S.pk u).info = some (k, B) → p.info = some (k, B) ∨ p = .idle) → (∀ k B, S.pk u = .idle → p.info = some (k, B) → B = S.s.tv u) →
      (∀ k B, (S.pk t).info = some (k, B) → (upd S.pk u p t).info = some (k, B) ∨ upd S.pk u p t = .idle) ∧
      (S.pk t = .idle → ∀ k B, (upd S.pk u p t).info = some (k, B) → B = S.s.tv t) := by
    intro u p h1 h2
    by_cases e : t = u
    · subst e; rw [upd_eq]; exact ⟨h1, fun a k B b => h2 k B a b⟩
    · rw [upd_ne _ _ e]
      exact ⟨fun _ _ h => .inl h, fun a k B b => by rw [a] at b; cases b⟩
  have same : ∀ (u : Nat) (p : Pk), (S.pk u).info ≠ none → p.info = (S.pk u).info →
      (∀ k B, (S.pk t).info = some (k, B) → (upd S.pk u p t).info = some (k, B) ∨ upd S.pk u p t = .idle) ∧
      (S.pk t = .idle → ∀ k B, (upd S.pk u p t).info = some (k, B) → B = S.s.tv t) := by
    intro u p h1 h2
    refine key u p (fun k B h => .inl (h2.trans h)) (fun k B a => ?_)
    rw [a] at h1; exact absurd rfl h1
  have none' : (∀ k B, (S.pk t).info = some (k, B) → (S.pk t).info = some (k, B) ∨ S.pk t = .idle) ∧ (S.pk t = .idle → ∀ k B, (S.pk t).info = some (k, B) → B = S.s.tv t) :=
    ⟨fun _ _ h => .inl h, fun a k B b => by rw [a] at b; cases b⟩
  cases st with
  | quiet | act | move | unlink => exact none'
  | @start u k h =>
    refine key u _ (fun k' B' g => ?_) (fun k' B' _ g => ?_)
    · rw [h] at g; cases g
    · cases g; rfl
  | finish h => exact key _ _ (fun _ _ _ => .inr rfl) (fun k' B' _ g => by cases g)
  | @old u k B v p j w h hw hc =>
    refine same u _ (by rw [h]; simp [Pk.info]) ?_
    rw [h, pkOld]
    cases w.val <;> rfl
  | @cur u k B v j w src h hw hc =>
    refine same u _ (by rw [h]; simp [Pk.info]) ?_
    rw [h, pkCur]
    cases w.val <;> rfl
  | load h | null h | direct h | past h | link h | old0 h | cur0 h | same h | other h | gone h =>
    exact same _ _ (by rw [h]; simp [Pk.info]) (by rw [h]; rfl)

end Scc.Mist
