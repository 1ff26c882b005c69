import Verif.Vine.Relinks
import Verif.Grove.Legal

/-!
# Calls, in terms of leaves
-/

namespace Scc.Vine

open Scc.Grove

local notation "Key" => Nat
local notation "Id" => Nat
local notation "Thr" => Nat

variable {V : Type} {m m' : Mem V} {d d' : Lst} {A A' : Key → Option V} {src src' : Ref → Ref} {lt lt' : Id → Id → Prop} {w w' : View V}

/-- What a step of a call does to the shared objects, and to the map. -/
inductive Touch (m : Mem V) (A : Key → Option V) : Mem V → (Key → Option V) → Prop
  | same : Touch m A m A
  | newRoot (h : m.root = none) : Touch m A { m.setNode m.nN Node.new with root := some m.nN, nN := m.nN + 1 } A
  | nullInsert (n : Id) (hn : Lit m.root m.node (.node n)) (hc : (m.node n).cell 0 = .null) (hl : (m.node n).lv = 1) :
    Touch m A { ((m.setNode n
              { m.node n with cell := upd (m.node n).cell 0 (.to (.leaf m.nL)) }).setLeaf
              m.nL Leaf.new).freeze m.nL false with nL := m.nL + 1 } A
  | set (k : Key) (l : Id) (L : Leaf V) (ho : On m.root m.node k (.leaf l)) (hf : m.frozen l = false)
    (hg : ∀ k', k' ≠ k → L.get k' = (m.leaf l).get k') (hr : L.retired = true → L.m = [])
    (hr' : (m.leaf l).retired = true → L.retired = true)
    (hk : (A k = none ∧ (m.leaf l).retired = false) ∨ L.get k = none) : Touch m A (m.setLeaf l L) (upd A k (L.get k))

/-- All steps of calls. -/
theorem Touch.call {s s' : St V} {M : Mon V} (S : SInv s M) {e : Ev V} (h : Call s e s') : Touch s.mem M.map s'.mem (M.next e).map := by
  obtain ⟨src, I⟩ := S.inv
  cases h with
  | newRoot t v h hr ho => exact .newRoot hr
  | nullInsert t n ver v h hc ho hl =>
    have hp := (S.th t).pc
    rw [h] at hp
    exact .nullInsert n ⟨_, hp.1.on_null I hc⟩ hc hl
  | put t l v h ho hf hr hk =>
    have hp := (S.th t).pc
    rw [h] at hp
    have hon := Good.on_leaf I hp hf hr
    have key : ∀ k', ({ s.mem.leaf l with m := ((s.th t).key, v) :: (s.mem.leaf l).m } : Leaf V).get k' =
        if k' = (s.th t).key then some v else (s.mem.leaf l).get k' := fun k' => Leaf.get_cons
    have := Touch.set (A := M.map) (s.th t).key l { s.mem.leaf l with m := ((s.th t).key, v) :: (s.mem.leaf l).m } hon hf
      (fun k' hk' => by rw [key, if_neg hk']) (fun h => by simp only [hr] at h; cases h) (fun h => h)
      (.inl ⟨by rw [← I.mean.leaf _ l hon]; exact hk, hr⟩)
    rw [key, if_pos rfl] at this
    exact this
  | del t l c v h ho hf hk hc he =>
    have hp := (S.th t).pc
    rw [h] at hp
    have hr : (s.mem.leaf l).retired = false := by
      cases hr : (s.mem.leaf l).retired with
      | false => rfl
      | true => simp [Leaf.get, I.dead.empty l hr] at hk
    have hon := Good.on_leaf I hp hf hr
    have key : ∀ k', ({ s.mem.leaf l with m := (s.mem.leaf l).m.filter fun e => e.1 != (s.th t).key } : Leaf V).get k' =
        if k' = (s.th t).key then none else (s.mem.leaf l).get k' := fun k' => Leaf.get_erase
    have := Touch.set (A := M.map) (s.th t).key l { s.mem.leaf l with m := (s.mem.leaf l).m.filter fun e => e.1 != (s.th t).key } hon hf
      (fun k' hk' => by rw [key, if_neg hk']) (fun h => by simp only [hr] at h; cases h) (fun h => h)
      (.inr (by rw [key, if_pos rfl]))
    rw [key, if_pos rfl] at this
    exact this
  | delLast t l c v h ho hf hk hc he =>
    have hp := (S.th t).pc
    rw [h] at hp
    have hr : (s.mem.leaf l).retired = false := by
      cases hr : (s.mem.leaf l).retired with
      | false => rfl
      | true => simp [Leaf.get, I.dead.empty l hr] at hk
    have hon := Good.on_leaf I hp hf hr
    have key : ∀ k', k' ≠ (s.th t).key → (s.mem.leaf l).get k' = none := by
      intro k' hk'
      have := Leaf.get_erase (l := s.mem.leaf l) (k := (s.th t).key) (k' := k')
      rw [he, if_neg hk'] at this
      rw [← this]
      simp [Leaf.get]
    have := Touch.set (A := M.map) (s.th t).key l { s.mem.leaf l with m := [], retired := true } hon hf
      (fun k' hk' => by rw [key k' hk']; simp [Leaf.get]) (fun _ => rfl) (fun _ => rfl) (.inr (by simp [Leaf.get]))
    rw [show ({ s.mem.leaf l with m := [], retired := true } : Leaf V).get (s.th t).key = none by simp [Leaf.get]] at this
    exact this
  | _ => exact .same

/-! ## Entries -/

/-- An entry is added to a leaf, or taken away from it. -/
theorem VInv.set (W : World w) (I : VInv w d lt) {k : Key} {l : Id} {g : Key → Option V} {r : Bool} {A' : Key → Option V}
    (ho : w.on k l) (hf : w.frozen l = false) (hg : ∀ k', k' ≠ k → g k' = w.get l k') (hr : w.ret l = true → r = true)
    (hA : ∀ k', k' ≠ k → A' k' = w.map k') (hk : (w.map k = none ∧ w.ret l = false) ∨ g k = none) (hA' : A' k = g k) :
    VInv { w with get := upd w.get l g, ret := upd w.ret l r, map := A' } d lt ∧
      Flow w d lt { w with get := upd w.get l g, ret := upd w.ret l r, map := A' } d lt := by
  have lit : w.lit l := ⟨k, ho⟩
  have nx : ∀ n J, w.job n = some J → J.x ≠ l := by
    intro n J h e
    have := (I.jobs n J h).froX
    rw [e, hf] at this; cases this
  have nl : ∀ n J, w.job n = some J → J.st ≠ .thawed → J.xl ≠ l := by
    intro n J h ht e
    by_cases hc : J.st = .copy
    · exact W.unlitL n J h (.inl hc) (e ▸ lit)
    · have := (I.jobs n J h).froL hc ht
      rw [e, hf] at this; cases this
  have nh : ∀ n J, w.job n = some J → J.xh ≠ l := by
    intro n J h e
    by_cases hc : J.st = .claimed ∨ J.st = .fin
    · have := (I.jobs n J h).froH (.inr hc)
      rw [e, hf] at this; cases this
    · exact W.unlitH n J h (fun h => hc (.inl h)) (fun h => hc (.inr h)) (e ▸ lit)
  have get : ∀ z q, (z = l → q ≠ k) → upd w.get l g z q = w.get z q := by
    intro z q h
    by_cases e : z = l
    · subst e; rw [upd_eq]; exact hg q (h rfl)
    · rw [upd_ne e]
  have ret : ∀ z, w.ret z = true → upd w.ret l r z = true := by
    intro z h
    by_cases e : z = l
    · subst e; rw [upd_eq]; exact hr h
    · rw [upd_ne e]; exact h
  refine ⟨⟨I.alL, I.off, I.irr, I.trans, I.tot, I.link, fun a ha h c hc hlt => ?_, fun n J h => ?_, I.sep, I.adj, fun z hz => ?_,
    fun z q v hi h => ?_, I.ord, I.litOrd⟩, fun _ h => h, fun _ _ _ _ h => h, fun q v z h1 h2 hz h => ?_, fun z q v _ h1 h2 h => ?_,
    fun z q _ h => ?_, fun z q v _ h => ?_⟩
  · rcases I.last a ha h c hc hlt with q | ⟨q1, q2, q3⟩
    · exact .inl q
    · have : c ≠ l := fun e => q1 (e ▸ lit)
      exact .inr ⟨q1, q2, fun q => (get c q fun e => absurd e this).trans (q3 q)⟩
  · obtain ⟨k1, k2, k3, k4, k5, k6, k7, k8, k9, k10, k11, k12, k13, k14, k15, k16, k17, k18, k19, k20, k21, k22, k23, k24, k25,
      k26, k27, k28⟩ := I.jobs n J h
    have gx : ∀ q, upd w.get l g J.x q = w.get J.x q := fun q => get _ _ fun e => absurd e (nx n J h)
    have gl : J.st ≠ .thawed → ∀ q, upd w.get l g J.xl q = w.get J.xl q := fun ht q => get _ _ fun e => absurd e (nl n J h ht)
    have gh : ∀ q, upd w.get l g J.xh q = w.get J.xh q := fun q => get _ _ fun e => absurd e (nh n J h)
    refine ⟨k1, k2, k3, k4, k5, k6, k7, k8, k9, k10, k11, k12, k13, k14, k15, k16, k17, k18, k19, k20, k21, k22, k23, k24, fun ht => ?_,
      ?_, fun hc q => ?_, fun hc => ?_⟩
    · show upd w.ret l r J.xl = false
      rw [upd_ne (nl n J h ht)]; exact k25 ht
    · show upd w.ret l r J.xh = false
      rw [upd_ne (nh n J h)]; exact k26
    · show upd w.get l g J.xl q = upd w.get l g J.x q
      rw [gx, gl (by rw [hc]; simp)]; exact k27 hc q
    · obtain ⟨mid, e1, e2, h1, h2, h3, h4, h5, h6⟩ := k28 hc
      refine ⟨mid, e1, e2, h1, h2, ?_, ?_, fun ht q => ?_, fun q => ?_⟩
      · show upd w.get l g J.x e1 ≠ none
        rw [gx]; exact h3
      · show upd w.get l g J.x e2 ≠ none
        rw [gx]; exact h4
      · show upd w.get l g J.xl q = if q ≤ mid then upd w.get l g J.x q else none
        rw [gx, gl ht]; exact h5 ht q
      · show upd w.get l g J.xh q = if mid < q then upd w.get l g J.x q else none
        rw [gx, gh]; exact h6 q
  · obtain ⟨h1, h2⟩ := I.lit z hz
    exact ⟨h1, fun h => (h2 h).imp id fun h => h.imp (ret z) id⟩
  · by_cases e : z = l ∧ q = k
    · obtain ⟨rfl, rfl⟩ := e
      exact .inl ho
    · have hz : w.get z q = some v := by rw [← get z q fun e1 e2 => e ⟨e1, e2⟩]; exact h
      rcases I.an z q v hi hz with h1 | h1 | ⟨y, h1, h2, h3⟩
      · exact .inl h1
      · exact .inr (.inl h1)
      · refine .inr (.inr ⟨y, h1, h2, ?_⟩)
        show upd w.get l g y q = upd w.get l g z q
        rw [get z q fun e1 e2 => e ⟨e1, e2⟩, get y q ?_]
        · exact h3
        · rintro rfl
          exfalso
          obtain ⟨n, J, hj, rfl, hy | hy⟩ := h1
          · by_cases ht : J.st = .thawed
            · have := (I.jobs n J hj).goneT ht
              rw [hi.2] at this; cases this
            · exact nl n J hj ht hy.symm
          · exact nh n J hj hy.symm
  · have hne : q ≠ k := by
      rintro rfl
      rcases hk with ⟨hk, _⟩ | hk
      · rw [hk] at h1; cases h1
      · have h2' : A' q = some v := h2
        rw [hA', hk] at h2'; cases h2'
    exact ⟨z, hz, by rw [← get z q fun _ => hne]; exact h, .inl rfl⟩
  · have hne : q ≠ k := by
      rintro rfl
      rcases hk with ⟨hk, _⟩ | hk
      · rw [hk] at h1; cases h1
      · have h2' : A' q = some v := h2
        rw [hA', hk] at h2'; cases h2'
    show upd w.get l g z q = some v
    rw [get z q fun _ => hne]; exact h
  · by_cases e : z = l ∧ q = k
    · obtain ⟨rfl, rfl⟩ := e
      have h' : upd w.get z g z q ≠ none := h
      rw [upd_eq] at h'
      rcases hk with ⟨_, hret⟩ | hk
      · obtain ⟨h1, h2⟩ := I.lit z lit
        refine .inr ⟨⟨h1, ?_⟩, nx⟩
        cases hgo : d.gone z with
        | false => rfl
        | true =>
          rcases h2 hgo with h3 | h3 | ⟨n, J, h3, _, h4⟩
          · obtain ⟨n, J, h4, h5⟩ := W.deadLit z h3 lit
            exact absurd h5 (nx n J h4)
          · rw [hret] at h3; cases h3
          · exact absurd h4 (nx n J h3)
      · exact absurd hk h'
    · exact .inl (by rw [← get z q fun e1 e2 => e ⟨e1, e2⟩]; exact h)
  · by_cases e : z = l ∧ q = k
    · obtain ⟨rfl, rfl⟩ := e
      refine .inr ?_
      have h' : upd w.get z g z q = some v := h
      rw [upd_eq] at h'
      show A' q = some v
      rw [hA']; exact h'
    · exact .inl (by rw [← get z q fun e1 e2 => e ⟨e1, e2⟩]; exact h)

/-! ## The first leaf -/

/-- An index without entries replaces no leaves if it has no search paths. -/
theorem VInv.idle (W : World w) (I : VInv w d lt) (hm : ∀ k, w.map k = none) (hu : ∀ l, ¬ w.lit l) : ∀ n J, w.job n ≠ some J := by
  intro n J h
  have K := I.jobs n J h
  have none : ∀ z k, In d z → w.get z k = none := by
    intro z k hi
    cases hg : w.get z k with
    | none => rfl
    | some v => have := I.sound W hi hg; rw [hm] at this; cases this
  by_cases hc : J.st = .copy
  · exact hu _ (W.litX n J h hc)
  obtain ⟨mid, e1, e2, h1, h2, h3, h4, h5, h6⟩ := K.body2 hc
  cases hg : d.gone J.x with
  | false => exact h3 (none _ _ ⟨K.lst, hg⟩)
  | true =>
    rcases K.goneX hg with h' | h' | h' | h'
    · exact hc h'
    · exact hu _ (W.litL n J h (.inl h'))
    · exact hu _ (W.litL n J h (.inr h'))
    · have hl := (K.lstO (by simp [h']) (by simp [h'])).1
      have : d.gone J.xl = false := by
        cases hq : d.gone J.xl with
        | false => rfl
        | true => have := (K.goneL hq).1; rw [h'] at this; cases this
      have hn := none _ e1 ⟨hl, this⟩
      rw [h5 (by simp [h']) e1, if_pos h1] at hn
      exact h3 hn

/-- The new leaf is the first one. -/
def freshLt (lt : Id → Id → Prop) (l : Id) : Id → Id → Prop := fun a b =>
  (a ≠ l ∧ b ≠ l ∧ lt a b) ∨ (a = l ∧ b ≠ l)

/-- An index without entries gets a leaf. -/
theorem VInv.fresh (W : World w) (I : VInv w d lt) (hm : ∀ k, w.map k = none) (hu : ∀ l, ¬ w.lit l)
    (h1 : w'.nL = w.nL + 1) (h2 : ∀ l, l < w.nL → w'.get l = w.get l) (h3 : w'.job = w.job)
    (h5 : ∀ l, w'.lit l → l = w.nL) (h6 : ∀ k, w'.get w.nL k = none) :
    VInv w' (d.fresh w.nL) (freshLt lt w.nL) ∧ Flow w d lt w' (d.fresh w.nL) (freshLt lt w.nL) := by
  have noJob := I.idle W hm hu
  have none : ∀ z k, In d z → w.get z k = none := by
    intro z k hi
    cases hg : w.get z k with
    | none => rfl
    | some v => have := I.sound W hi hg; rw [hm] at this; cases this
  have ne : ∀ a, d.lst a = true → a ≠ w.nL := fun a ha => Nat.ne_of_lt (I.alL a ha)
  have hoff := I.off w.nL (by
    cases h : d.lst w.nL with
    | false => rfl
    | true => exact absurd (I.alL _ h) (Nat.lt_irrefl _))
  have lst : ∀ a, (d.fresh w.nL).lst a = true → a = w.nL ∨ d.lst a = true := fun a h => upd_true h
  have lst' : ∀ a, d.lst a = true → (d.fresh w.nL).lst a = true := by
    intro a h
    simp only [Lst.fresh, upd_apply]
    split
    · rfl
    · exact h
  have noJob' : ∀ n J, w'.job n ≠ some J := by rw [h3]; exact noJob
  have out : ∀ c, d.lst c = true → Out w' (d.fresh w.nL) c := by
    intro c hc
    cases hg : d.gone c with
    | true => exact .inl hg
    | false =>
      refine .inr ⟨fun h => ne c hc (h5 c h), fun n J h => absurd h (noJob' n J), fun k => ?_⟩
      rw [h2 c (I.alL c hc)]; exact none c k ⟨hc, hg⟩
  refine ⟨⟨fun l h => ?_, fun l h => ?_, fun a h => ?_, fun a b c h h' => ?_, fun a b ha hb => ?_, fun a b h => ?_, fun a ha h c hc hlt => ?_,
    fun n J h => absurd h (noJob' n J), fun n n' J J' l h => absurd h (noJob' n J), fun n J a b z h => absurd h (noJob' n J), fun l h => ?_,
    fun z k v hi h => ?_, fun k1 k2 l1 l2 _ o1 o2 hne => ?_, fun n J h => absurd h (noJob' n J)⟩, lst', fun a b ha hb h => .inl ⟨ne a ha, ne b hb, h⟩,
    fun k v z h => ?_, fun l k v _ h => ?_, fun l q hl h => .inl ?_, fun l q v hl h => .inl ?_⟩
  · rcases lst l h with rfl | h
    · omega
    · have := I.alL l h; omega
  · have e : l ≠ w.nL := by rintro rfl; simp [Lst.fresh] at h
    simp only [Lst.fresh, upd_ne e] at h
    exact I.off l h
  · rcases h with ⟨_, _, h⟩ | ⟨h, h'⟩
    · exact I.irr a h
    · exact h' h
  · rcases h with ⟨g1, g2, g3⟩ | ⟨g1, g2⟩
    · rcases h' with ⟨_, g5, g6⟩ | ⟨g4, _⟩
      · exact .inl ⟨g1, g5, I.trans _ _ _ g3 g6⟩
      · exact absurd g4 g2
    · rcases h' with ⟨_, g5, _⟩ | ⟨g4, _⟩
      · exact .inr ⟨g1, g5⟩
      · exact absurd g4 g2
  · rcases lst a ha with rfl | ha
    · rcases lst b hb with rfl | hb
      · exact .inr (.inl rfl)
      · exact .inl (.inr ⟨rfl, ne b hb⟩)
    · rcases lst b hb with rfl | hb
      · exact .inr (.inr (.inr ⟨rfl, ne a ha⟩))
      · rcases I.tot a b ha hb with h | h | h
        · exact .inl (.inl ⟨ne a ha, ne b hb, h⟩)
        · exact .inr (.inl h)
        · exact .inr (.inr (.inl ⟨ne b hb, ne a ha, h⟩))
  · have h' : d.link a = some b := h
    have hla : d.lst a = true := by
      cases hl : d.lst a with
      | true => rfl
      | false => have := (I.off a hl).1; rw [h'] at this; cases this
    obtain ⟨g1, g2, g3⟩ := I.link a b h'
    refine ⟨lst' b g1, .inl ⟨ne a hla, ne b g1, g2⟩, fun c hc q1 q2 => ?_⟩
    rcases lst c hc with rfl | hc
    · rcases q1 with ⟨_, q, _⟩ | ⟨q, _⟩
      · exact absurd rfl q
      · exact absurd q (ne a hla)
    · refine g3 c hc ?_ ?_
      · rcases q1 with ⟨_, _, q⟩ | ⟨q, _⟩
        · exact q
        · exact absurd q (ne a hla)
      · rcases q2 with ⟨_, _, q⟩ | ⟨q, _⟩
        · exact q
        · exact absurd q (ne c hc)
  · rcases lst c hc with rfl | hc
    · rcases hlt with ⟨_, q, _⟩ | ⟨_, q⟩
      · exact absurd rfl q
      · exact absurd rfl q
    · exact out c hc
  · have := h5 l h
    subst this
    refine ⟨by simp [Lst.fresh], fun h => ?_⟩
    have h' : d.gone w.nL = true := h
    rw [hoff.2] at h'; cases h'
  · exfalso
    obtain ⟨z1, z2⟩ := hi
    rcases lst z z1 with rfl | z1
    · rw [h6] at h; cases h
    · rw [h2 z (I.alL z z1), none z k ⟨z1, z2⟩] at h; cases h
  · exact absurd ((h5 l1 ⟨k1, o1⟩).trans (h5 l2 ⟨k2, o2⟩).symm) hne
  · rw [hm] at h; cases h
  · rw [hm] at h; cases h
  · rw [← h2 l (I.alL l hl)]; exact h
  · rw [← h2 l (I.alL l hl)]; exact h

/-! ## All calls -/

/-- The linked list after a step of a call. -/
def Lst.touch (d : Lst) (m m' : Mem V) (d' : Lst) : Prop :=
  (m'.nL = m.nL ∧ d' = d) ∨ (m'.nL ≠ m.nL ∧ d' = d.fresh m.nL)

theorem Base.touch (B : Base m d A src) (I : VInv (view m d A) d lt) (T : Touch m A m' A') (hd : Lst.touch d m m' d') :
    Base m' d' A' src ∧ ∃ lt', VInv (view m' d' A') d' lt' ∧ Flow (view m d A) d lt (view m' d' A') d' lt' := by
  have J := B.inv
  have W := B.world
  cases T with
  | same =>
    rcases hd with ⟨_, rfl⟩ | ⟨hd, _⟩
    · exact ⟨B, lt, I, .less (fun _ h => h) rfl⟩
    · exact absurd rfl hd
  | newRoot h =>
    rcases hd with ⟨_, rfl⟩ | ⟨hd, _⟩
    · have N := J.newRoot h
      have unlit : ∀ k y, ¬ On m.root m.node k y := by
        intro k y ho
        obtain ⟨r, hr, _⟩ := ho.path
        rw [h] at hr; cases hr
      have hnew := J.shape.fresh m.nN (Nat.le_refl _)
      have nodes : upd m.node m.nN Node.new = m.node := by
        funext c
        by_cases e : c = m.nN
        · rw [e, upd_eq, hnew.1]
        · rw [upd_ne e]
      generalize hm' : ({ m.setNode m.nN Node.new with root := some m.nN, nN := m.nN + 1 } : Mem V) = m' at N
      have e1 : m'.root = some m.nN := by rw [← hm']
      have e2 : m'.node = m.node := by rw [← hm']; exact nodes
      have e3 : m'.phase = m.phase := by rw [← hm']; rfl
      have e4 : m'.dead = m.dead := by rw [← hm']; rfl
      have e5 : m'.leaf = m.leaf := by rw [← hm']; rfl
      have e6 : m'.frozen = m.frozen := by rw [← hm']; rfl
      have e7 : m'.nL = m.nL := by rw [← hm']; rfl
      have e8 : m'.nN = m.nN + 1 := by rw [← hm']
      have hon : ∀ k l, ¬ On m'.root m'.node k (.leaf l) := by
        intro k l ho
        have : ∀ y, On (some m.nN) m.node k y → y = .node m.nN := by
          intro y ho
          induction ho with
          | root h => cases h; rfl
          | step _ hd ih =>
            cases ih
            simp only [Node.dest, hnew.1] at hd
            cases hd
        rw [e1, e2] at ho
        cases this _ ho
      have ev : view m' d' A = view m d' A := by
        have : (fun k l => On m'.root m'.node k (.leaf l)) = fun k l => On m.root m.node k (.leaf l) := by
          funext k l
          exact propext ⟨fun h => absurd h (hon k l), fun h => absurd h (unlit k _)⟩
        simp only [view, this, e3, e4, e5, e6, e7]
      rw [ev]
      refine ⟨⟨N.inv, by rw [ev]; exact B.old, by rw [ev, e4]; exact B.fdead, by rw [ev, e4]; exact B.sc, fun n hn h0 => ?_,
        by rw [ev, e3]; exact B.fin1⟩, lt, I, .less (fun _ h => h) rfl⟩
      rw [e1]
      rw [e2] at h0
      rw [e8] at hn
      by_cases e : n = m.nN
      · rw [e]
      · have := B.nul n (by omega) h0
        rw [h] at this; cases this
    · exact absurd rfl hd
  | nullInsert n hn hc hl =>
    have N := J.nullInsert hn hc hl
    have hroot := B.nul n (J.lit_al hn) hc
    have hk : (m.node n).kids = [] := by
      cases hk : (m.node n).kids with
      | nil => rfl
      | cons a b =>
        obtain ⟨y, hy⟩ := J.shape.unb n (by simp [hk])
        rw [hc] at hy; cases hy
    generalize hm' : ({ ((m.setNode n
              { m.node n with cell := upd (m.node n).cell 0 (.to (.leaf m.nL)) }).setLeaf
              m.nL Leaf.new).freeze m.nL false with nL := m.nL + 1 } : Mem V) = m' at N hd
    have e1 : m'.root = m.root := by rw [← hm']; rfl
    have e2 : m'.node = upd m.node n { m.node n with cell := upd (m.node n).cell 0 (.to (.leaf m.nL)) } := by rw [← hm']; rfl
    have e3 : m'.phase = m.phase := by rw [← hm']; rfl
    have e4 : m'.dead = m.dead := by rw [← hm']; rfl
    have e5 : m'.leaf = upd m.leaf m.nL Leaf.new := by rw [← hm']; rfl
    have e7 : m'.nL = m.nL + 1 := by rw [← hm']
    have e8 : m'.nN = m.nN := by rw [← hm']; rfl
    have hd' : d' = d.fresh m.nL := by
      rcases hd with ⟨h, _⟩ | ⟨_, h⟩
      · rw [e7] at h; omega
      · exact h
    subst hd'
    have dest : ∀ k, (m.node n).dest k = .null := fun k => by simp only [Node.dest, hk, route_nil, hc]
    have only : ∀ k y, On m.root m.node k y → y = .node n := by
      intro k y ho
      induction ho with
      | root h => rw [hroot] at h; cases h; rfl
      | step _ hd ih =>
        cases ih
        rw [dest] at hd; cases hd
    have only' : ∀ k y, On m'.root m'.node k y → y = .node n ∨ y = .leaf m.nL := by
      intro k y ho
      induction ho with
      | root h => rw [e1, hroot] at h; cases h; exact .inl rfl
      | step _ hd ih =>
        rcases ih with ih | ih
        · cases ih
          rw [e2, upd_eq] at hd
          simp only [Node.dest, hk, route_nil, upd_eq] at hd
          cases hd; exact .inr rfl
        · cases ih
    have ej : ∀ c, (view m' (d.fresh m.nL) A).job c = (view m d A).job c := fun c => by
      show ljob (m'.phase c) _ = _
      rw [e3]; rfl
    have empty : ∀ k, A k = none := fun k => J.mean.null k n (.root hroot) fun y => by rw [dest]; simp
    have g1 : ∀ l, l < m.nL → (view m' (d.fresh m.nL) A).get l = (view m d A).get l := fun l hl => by
      show (m'.leaf l).get = (m.leaf l).get
      rw [e5, upd_ne (Nat.ne_of_lt hl)]
    have g2 : ∀ l, (view m' (d.fresh m.nL) A).lit l → l = m.nL := fun l ⟨k, h⟩ => by
      rcases only' k _ h with h | h
      · cases h
      · cases h; rfl
    have g3 : ∀ k, (view m' (d.fresh m.nL) A).get m.nL k = none := fun k => by
      show (m'.leaf m.nL).get k = none
      rw [e5, upd_eq]; simp [Leaf.get, Leaf.new]
    obtain ⟨V1, V2⟩ := VInv.fresh (w' := view m' (d.fresh m.nL) A) W I empty (fun l ⟨k, h⟩ => by cases only k _ h) e7 g1
      (funext ej) g2 g3
    have noJob := I.idle W empty (fun l ⟨k, h⟩ => by cases only k _ h)
    have noJob' : ∀ c L, (view m' (d.fresh m.nL) A).job c ≠ some L := fun c L => by rw [ej]; exact noJob c L
    refine ⟨⟨N.inv, fun c L h => absurd h (noJob' c L), fun c L h => absurd h (noJob' c L), fun z x h => ?_, fun c hcn h0 => ?_,
      fun c xl xh nl nh _ c' L h => absurd h (noJob' c' L)⟩, _, V1, V2⟩
    · rcases B.sc z x h with h | ⟨c, L, h, _⟩ | ⟨h, _⟩
      · exact .inl h
      · exact absurd h (noJob c L)
      · exact .inr (.inr ⟨by rw [e4]; exact h, fun c L h => absurd h (noJob' c L)⟩)
    · rw [e1]
      rw [e2] at h0
      rw [e8] at hcn
      by_cases e : c = n
      · rw [e]; exact hroot
      · rw [upd_ne e] at h0
        exact B.nul c hcn h0
  | set k l L ho hf hg hr hr' hk =>
    rcases hd with ⟨_, rfl⟩ | ⟨hd, _⟩
    · obtain ⟨V1, V2⟩ := I.set W (k := k) (l := l) (g := L.get) (r := L.retired) (A' := upd A k (L.get k)) ho hf hg hr'
        (fun k' h => upd_ne h) hk upd_eq
      have ev : view (m.setLeaf l L) d' (upd A k (L.get k)) =
          { view m d' A with get := upd (view m d' A).get l L.get, ret := upd (view m d' A).ret l L.retired, map := upd A k (L.get k) } := by
        have g : (fun z => (upd m.leaf l L z).get) = upd (fun z => (m.leaf z).get) l L.get := by
          funext z
          by_cases e : z = l
          · rw [e, upd_eq, upd_eq]
          · rw [upd_ne e, upd_ne e]
        have r : (fun z => (upd m.leaf l L z).retired) = upd (fun z => (m.leaf z).retired) l L.retired := by
          funext z
          by_cases e : z = l
          · rw [e, upd_eq, upd_eq]
          · rw [upd_ne e, upd_ne e]
        simp only [view, Mem.setLeaf, g, r]
      rw [ev]
      exact ⟨⟨J.setLeaf ho hf hg hr, B.old, B.fdead, B.sc, B.nul, B.fin1⟩, lt, V1, V2⟩
    · exact absurd rfl hd

end Scc.Vine
