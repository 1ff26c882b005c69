import Verif.Vine.Iters

/-!
# Iterators beside other threads yield what they should, as long as no child of a node is found empty
-/

namespace Scc.Vine

open Scc.Grove

local notation "Key" => Nat
local notation "Id" => Nat
local notation "Thr" => Nat

variable {V : Type} {m m' : Mem V} {d d' : Lst} {A A' : Key → Option V} {src src' : Ref → Ref} {lt lt' : Id → Id → Prop} {w w' : View V}

/-! ## Histories -/

theorem was_now {t : Thr} {k : Key} {v : V} : ∀ {es : List (IEv V)}, mapOf es k = some v → was t k v es
  | [], h => by simp [mapOf, IEv.calls, mon, Mon.init] at h
  | .start _ :: _, h => .inl h
  | .base _ :: _, h => .inl h
  | .tau :: _, h => .inl h
  | .give _ _ _ :: _, h => .inl h
  | .stop _ :: _, h => .inl h

theorem was_cons {t : Thr} {k : Key} {v : V} {e : IEv V} {es : List (IEv V)} (he : e ≠ .start t)
    (h : was t k v es ∨ mapOf (e :: es) k = some v) : was t k v (e :: es) := by
  cases e with
  | start t' =>
    rcases h with h | h
    · exact .inr ⟨fun e => he (e ▸ rfl), h⟩
    · exact .inl h
  | base e => exact h.symm
  | tau => exact h.symm
  | give t' k' v' => exact h.symm
  | stop t' => exact h.symm

theorem stays_now {t : Thr} {k : Key} {v : V} : ∀ {es : List (IEv V)}, stays t k v es → mapOf es k = some v
  | [], h => h.elim
  | .start _ :: _, h => h.1
  | .base _ :: _, h => h.1
  | .tau :: _, h => h.1
  | .give _ _ _ :: _, h => h.1
  | .stop _ :: _, h => h.1

theorem stays_cons {t : Thr} {k : Key} {v : V} {e : IEv V} {es : List (IEv V)} (he : e ≠ .start t) (h : stays t k v (e :: es)) :
    stays t k v es := by
  cases e with
  | start t' => exact h.2.elim (fun e => absurd (e ▸ rfl) he) id
  | base e => exact h.2
  | tau => exact h.2
  | give t' k' v' => exact h.2
  | stop t' => exact h.2

/-- The iterator that an event belongs to. -/
def IEv.who : IEv V → Option Thr
  | .start t => some t
  | .give t _ _ => some t
  | .stop t => some t
  | _ => none

theorem yields_other {t : Thr} {e : IEv V} {es : List (IEv V)} (h : e.who ≠ some t) : yields t (e :: es) = yields t es := by
  cases e with
  | start t' => simp only [yields]; rw [if_neg]; rintro rfl; exact h rfl
  | give t' k v => simp only [yields]; rw [if_neg]; rintro rfl; exact h rfl
  | base e => rfl
  | tau => rfl
  | stop t' => rfl

theorem yields_own {t : Thr} {e : IEv V} {es : List (IEv V)} (h : e.on) (hw : e.who = some t ∨ e.who = none) :
    yields t (e :: es) = e.out (yields t es) := by
  cases e with
  | start t' => exact h.elim
  | give t' k v =>
    rcases hw with hw | hw
    · cases hw; simp [yields, IEv.out]
    · cases hw
  | base e => rfl
  | tau => rfl
  | stop t' => rfl

theorem Iter.who {t : Thr} {p p' : IPc V} {e : IEv V} (h : Iter m d t p e p') : e.who = some t ∨ e = .tau := by
  cases h <;> first | exact .inr rfl | exact .inl rfl

theorem mapOf_who {e : IEv V} {es : List (IEv V)} (h : ∀ e0, e ≠ .base e0) : mapOf (e :: es) = mapOf es := by
  cases e with
  | base e0 => exact absurd rfl (h e0)
  | start t => rfl
  | give t k v => rfl
  | tau => rfl
  | stop t => rfl

/-! ## Steps of others -/

theorem Env.refl (B0 : Base m d A src) (I : VInv (view m d A) d lt) : Env m m A d d A lt lt :=
  ⟨.quiet rfl rfl rfl rfl rfl rfl, .same rfl fun _ _ => rfl, .less (fun _ h => h) rfl, B0.world, I⟩

theorem Touch.evo (T : Touch m A m' A') (J : Inv m A src) : Evo m m' A ∧ Vers m m' := by
  cases T with
  | same => exact ⟨.quiet rfl rfl rfl rfl rfl rfl, .same rfl fun _ _ => rfl⟩
  | newRoot h =>
    refine ⟨(J.newRoot h).evo, .same rfl fun c hc => ?_⟩
    simp only [Mem.setNode]
    rw [upd_ne (Nat.ne_of_lt hc)]
  | nullInsert n hn hc hl =>
    have N := J.nullInsert hn hc hl
    refine ⟨N.evo, .same rfl fun c _ => ?_⟩
    simp only [Mem.freeze, Mem.setLeaf, Mem.setNode, upd_apply]
    split
    · next e => subst e; rfl
    · rfl
  | set k l L ho hf hg hr hr' hk => exact ⟨Evo.setLeaf J hf hr', .same rfl fun _ _ => rfl⟩

/-- The invariant, but for the iterators. -/
structure Core (s : ISt V) (es : List (IEv V)) (src : Ref → Ref) (lt : Id → Id → Prop) : Prop where
  base : Base s.base.mem s.list (mapOf es) src
  list : VInv (view s.base.mem s.list (mapOf es)) s.list lt

theorem Core.init : Core (ISt.init (V := V)) [] id fun _ _ => False := by
  have off : ∀ k y, ¬ On (ISt.init (V := V)).base.mem.root (ISt.init (V := V)).base.mem.node k y := by
    intro k y ho
    obtain ⟨r, hr, _⟩ := ho.path
    cases hr
  have job : ∀ n L, (view (ISt.init (V := V)).base.mem (ISt.init (V := V)).list (mapOf [])).job n ≠ some L := by
    intro n L h
    simp [view, ISt.init, St.init, ljob] at h
  refine ⟨⟨Inv.init, fun n L h => absurd h (job n L), fun n L h => absurd h (job n L), fun z x h => .inl (by simpa using h),
    fun n hn => absurd hn (Nat.not_lt_zero n), (fun n xl xh nl nh h => by cases h)⟩, ?_⟩
  refine ⟨(fun l h => by cases h), fun l _ => ⟨rfl, rfl⟩, fun a h => h, fun a b c h => h.elim, (fun a b h => by cases h), (fun a b h => by cases h),
    (fun a h => by cases h), fun n J h => absurd h (job n J), fun n n' J J' l h => absurd h (job n J), fun n J a b z h => absurd h (job n J),
    fun l ⟨k, h⟩ => absurd h (off k _), (fun z k v h => by cases h.1), fun k1 k2 l1 l2 _ h => absurd h (off k1 _), fun n J h => absurd h (job n J)⟩

/-- Steps that iterators have no part in. -/
theorem Core.other {s s' : ISt V} {es : List (IEv V)} {e : IEv V} (r : IRun s es) (C : Core s es src lt) (h : IStep s e s')
    (hi : e.who = none) (hit : s'.it = s.it) : ∃ src' lt', Core s' (e :: es) src' lt' ∧
      Env s.base.mem s'.base.mem (mapOf es) s.list s'.list (mapOf (e :: es)) lt lt' := by
  have S := r.base.inv.1
  obtain ⟨B, I⟩ := C
  cases h with
  | @call b e0 h hl =>
    have T := Touch.call S h
    obtain ⟨B', lt', I', F⟩ := B.touch I T (.inl ⟨hl, rfl⟩)
    obtain ⟨E, W⟩ := T.evo B.inv
    exact ⟨src, lt', ⟨B', I'⟩, E, W, F, B'.world, I'⟩
  | @leaf b e0 h hl =>
    have T := Touch.call S h
    obtain ⟨B', lt', I', F⟩ := B.touch I T (.inr ⟨hl, rfl⟩)
    obtain ⟨E, W⟩ := T.evo B.inv
    exact ⟨src, lt', ⟨B', I'⟩, E, W, F, B'.world, I'⟩
  | @change m h hp =>
    obtain ⟨src', D⟩ := B.change I (fun n hn hp => by
      obtain ⟨t, h1, h2⟩ := hn
      exact ((S.th t).vis h1 n h2).lock B.inv hp) h hp
    have B' := D.base B I
    obtain ⟨I', F⟩ := Flow.shift (d' := s.list.after s.base.mem m) B.world B'.world I (D.shift B I) rfl rfl rfl
    exact ⟨src', lt, ⟨B', I'⟩, D.next.evo, D.vers, F, B'.world, I'⟩
  | relink h =>
    obtain ⟨B', lt', I', F⟩ := B.relink I h
    exact ⟨src, lt', ⟨B', I'⟩, .quiet rfl rfl rfl rfl rfl rfl, .same rfl fun _ _ => rfl, F, B'.world, I'⟩
  | @iter t e p h =>
    have he : e = .tau := by
      rcases h.who with h | h
      · rw [hi] at h; cases h
      · exact h
    subst he
    exact ⟨src, lt, ⟨B, I⟩, Env.refl B I⟩

/-! ## Executions -/

/-- Executions in which `min` of a child never returns `None`. -/
inductive Direct : ISt V → List (IEv V) → Prop
  | init : Direct .init []
  | step {s s' : ISt V} {es : List (IEv V)} {e : IEv V} (r : Direct s es) (h : IStep s e s')
    (hd : ∀ t f st, s'.it t ≠ .none (f :: st)) : Direct s' (e :: es)

theorem Direct.run {s : ISt V} {es : List (IEv V)} (r : Direct s es) : IRun s es := by
  induction r with
  | init => exact .init
  | step _ h _ ih => exact .step ih h

theorem Direct.dir {s : ISt V} {es : List (IEv V)} (r : Direct s es) : ∀ t f st, s.it t ≠ .none (f :: st) := by
  cases r with
  | init => intro t f st h; cases h
  | step _ _ h => exact h

/-- The invariant. -/
theorem Direct.inv {s : ISt V} {es : List (IEv V)} (r : Direct s es) : Faithful es ∧ ∃ src lt, Core s es src lt ∧
    ∀ t, ItOk s.base.mem (view s.base.mem s.list (mapOf es)) s.list lt (fun k v => stays t k v es) (fun k v => was t k v es) (yields t es) (s.it t) := by
  induction r with
  | init => exact ⟨trivial, id, _, Core.init, fun t => trivial⟩
  | @step s s' es e r h hd ih =>
    obtain ⟨F, src, lt, C, T⟩ := ih
    have other : ∀ t, e ≠ .start t → ∀ k v, stays t k v (e :: es) → stays t k v es ∧ mapOf es k = some v ∧ mapOf (e :: es) k = some v :=
      fun t he k v hs => ⟨stays_cons he hs, stays_now (stays_cons he hs), stays_now hs⟩
    have env : e.who = none → s'.it = s.it → (∃ src lt, Core s' (e :: es) src lt ∧ ∀ t, ItOk s'.base.mem (view s'.base.mem s'.list (mapOf (e :: es)))
        s'.list lt (fun k v => stays t k v (e :: es)) (fun k v => was t k v (e :: es)) (yields t (e :: es)) (s'.it t)) := by
      intro hw hit
      obtain ⟨src', lt', C', E⟩ := C.other r.run h hw hit
      refine ⟨src', lt', C', fun t => ?_⟩
      have hne : e ≠ .start t := by rintro rfl; cases hw
      rw [hit, yields_other (by rw [hw]; simp)]
      exact ItOk.env C.base C.list E (other t hne) (fun k v => was_cons hne) (fun k v => was_now) (T t)
    cases h with
    | call h hl => exact ⟨F, env rfl rfl⟩
    | leaf h hl => exact ⟨F, env rfl rfl⟩
    | change h hp => exact ⟨F, env rfl rfl⟩
    | relink h => exact ⟨F, env rfl rfl⟩
    | @iter t e p h =>
      clear env
      have hmap : mapOf (e :: es) = mapOf es := mapOf_who fun e0 he => by
        rcases h.who with h | h <;> rw [he] at h <;> cases h
      have C' : Core { s with it := upd s.it t p } (e :: es) src lt := ⟨by rw [hmap]; exact C.base, by rw [hmap]; exact C.list⟩
      have E : Env s.base.mem s.base.mem (mapOf es) s.list s.list (mapOf (e :: es)) lt lt := by rw [hmap]; exact Env.refl C.base C.list
      have others : ∀ t', t' ≠ t → ItOk s.base.mem (view s.base.mem s.list (mapOf (e :: es))) s.list lt (fun k v => stays t' k v (e :: es))
          (fun k v => was t' k v (e :: es)) (yields t' (e :: es)) (s.it t') := by
        intro t' hne
        have hw : e.who ≠ some t' := by
          rcases h.who with h | h
          · rw [h]; intro e; cases e; exact hne rfl
          · rw [h]; intro e; cases e
        have hst : e ≠ .start t' := by rintro rfl; exact hw rfl
        rw [yields_other hw]
        exact ItOk.env C.base C.list E (other t' hst) (fun k v => was_cons hst) (fun k v => was_now) (T t')
      by_cases he : e.on
      · obtain ⟨g1, g2⟩ := ItOk.iter C.base C.list (fun k v hs => stays_now hs) (fun k v => was_now) (r.dir t) h he (T t)
        have hst : e ≠ .start t := by rintro rfl; exact he
        refine ⟨?_, src, lt, C', fun t' => ?_⟩
        · rcases h.who with hw | hw
          · cases e with
            | give t' k v => cases hw; exact ⟨F, g1⟩
            | stop t' => cases hw; exact ⟨F, g1⟩
            | start t' => exact he.elim
            | base e => cases hw
            | tau => cases hw
          · subst hw; exact F
        · by_cases e' : t' = t
          · subst e'
            simp only [upd_eq]
            rw [yields_own he (h.who.imp id fun h => by rw [h]; rfl)]
            exact ItOk.env C.base C.list E (other t' hst) (fun k v => was_cons hst) (fun k v => was_now) g2
          · simp only [upd_ne e']
            exact others t' e'
      · have : p = .top ∧ e = .start t := by
          generalize s.it t = p0 at h
          cases h <;> first | exact ⟨rfl, rfl⟩ | exact absurd trivial he
        obtain ⟨rfl, rfl⟩ := this
        refine ⟨F, src, lt, C', fun t' => ?_⟩
        by_cases e' : t' = t
        · subst e'
          simp only [upd_eq]
          trivial
        · simp only [upd_ne e']
          exact others t' e'

/-- **C54**, in part: iterators yield only entries that were in the map at some moment since they began, and, when they end, they have yielded all
entries that were in the map all the time, whatever other threads do. What is missing: executions in which an iterator, on its way to the first
leaf, finds all children of a node that is not the root removed (`Direct` leaves them out). -/
theorem c54_faithful_partial {s : ISt V} {es : List (IEv V)} (r : Direct s es) : Faithful es := r.inv.1

end Scc.Vine
