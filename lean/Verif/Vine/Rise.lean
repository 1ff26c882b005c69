import Verif.Vine.Mono
import Verif.Vine.Firm
import Verif.Vine.Straight

/-!
# Iterators beside other threads ascend, as long as no leaf loses its mark
-/

namespace Scc.Vine

open Scc.Grove

local notation "Key" => Nat
local notation "Id" => Nat
local notation "Thr" => Nat

variable {V : Type} {m m' : Mem V} {d d' : Lst} {A A' : Key → Option V} {src src' : Ref → Ref} {lt lt' : Id → Id → Prop} {w w' : View V}

/-! ## The invariant of iterators -/

/-- Nothing that was yielded is greater than `last`. -/
def Under (Y : List (Key × V)) (last : Option Key) : Prop := (last = none → Y = []) ∧ ∀ y, last = some y → ∀ e ∈ Y, e.1 ≤ y

/-- The iterator has come from leaf `c` to leaf `b`. -/
def Way (w : View V) (d : Lst) (lt : Id → Id → Prop) (Y : List (Key × V)) (c b : Id) (last : Option Key) : Prop :=
  Under Y last ∧ d.lst c = true ∧ d.lst b = true ∧ lt c b ∧ ∀ y, last = some y → Hold w d c y

/-- What holds at the places of an iterator. `Y` is what it has yielded. -/
def Up (w : View V) (d : Lst) (lt : Id → Id → Prop) (Y : List (Key × V)) : IPc V → Prop
  | .idle => True
  | .top => Y = []
  | .enter _ _ => Y = []
  | .slot _ _ _ _ => Y = []
  | .got _ _ r _ _ => Y = [] ∧ ∀ l, r = .leaf l → d.lst l = true
  | .none _ => Y = []
  | .first l => Y = [] ∧ d.lst l = true
  | .scan l R last => Under Y last ∧ d.lst l = true ∧ R.Pairwise (fun a b => a.1 < b.1) ∧ (∀ e ∈ R, Past last e.1 ∧ Hold w d l e.1) ∧
    (R = [] → ∀ y, last = some y → Hold w d l y)
  | .walk c a last => Under Y last ∧ d.lst c = true ∧ d.lst a = true ∧ (c = a ∨ lt c a) ∧ ∀ y, last = some y → Hold w d c y
  | .look c b last => Way w d lt Y c b last
  | .snap c b last => Way w d lt Y c b last ∧ ∀ y, last = some y → Off d c ∨ ∀ q, w.get b q ≠ none → y < q
  | .check c b R last => Way w d lt Y c b last ∧ R.Pairwise (fun a b => a.1 < b.1) ∧ (∀ e ∈ R, Hold w d b e.1) ∧
    ∀ y, last = some y → Off d c ∨ ∀ e ∈ R, y < e.1

/-- Steps of others. -/
theorem Up.env (W' : World w') (I' : VInv w' d' lt') (M' : Marked w' d') (F : Flow w d lt w' d' lt') (hg : ∀ l, d.gone l = true → d'.gone l = true)
    (hm : ∀ l, d.mark l = true → d'.mark l = true) (hh : ∀ c y, Hold w d c y → Hold w' d' c y) {Y : List (Key × V)} {p : IPc V}
    (h : Up w d lt Y p) : Up w' d' lt' Y p := by
  have way : ∀ {c b : Id} {last : Option Key}, Way w d lt Y c b last → Way w' d' lt' Y c b last := by
    rintro c b last ⟨h1, h2, h3, h4, h5⟩
    exact ⟨h1, F.lst c h2, F.lst b h3, F.lt c b h2 h3 h4, fun y e => hh c y (h5 y e)⟩
  cases p with
  | idle => trivial
  | top => exact h
  | enter n st => exact h
  | slot n ver todo st => exact h
  | got n ver r todo st => exact ⟨h.1, fun l e => F.lst l (h.2 l e)⟩
  | none st => exact h
  | first l => exact ⟨h.1, F.lst l h.2⟩
  | scan l R last =>
    obtain ⟨h1, h2, h3, h4, h5⟩ := h
    exact ⟨h1, F.lst l h2, h3, fun e he => ⟨(h4 e he).1, hh _ _ (h4 e he).2⟩, fun e y hy => hh _ _ (h5 e y hy)⟩
  | walk c a last =>
    obtain ⟨h1, h2, h3, h4, h5⟩ := h
    exact ⟨h1, F.lst c h2, F.lst a h3, h4.imp id (F.lt c a h2 h3), fun y e => hh c y (h5 y e)⟩
  | look c b last => exact way h
  | snap c b last =>
    obtain ⟨h1, h2⟩ := h
    have h1' := way h1
    refine ⟨h1', fun y hy => ?_⟩
    by_cases ho : Off d' c
    · exact .inl ho
    rcases h2 y hy with h2 | h2
    · exact .inl (h2.mono hg hm)
    · refine .inr fun q hq => ?_
      rcases F.grow b q h1.2.2.1 hq with h' | ⟨h', _⟩
      · exact h2 q h'
      · exact I'.after W' M' h1'.2.1 ho (h1'.2.2.2.2 y hy) h' h1'.2.2.2.1 hq
  | check c b R last =>
    obtain ⟨h1, h2, h3, h4⟩ := h
    exact ⟨way h1, h2, fun e he => hh _ _ (h3 e he), fun y hy => (h4 y hy).imp (Off.mono hg hm) id⟩

theorem dropWhile_gt {y : Key} : ∀ {R : List (Key × V)}, R.Pairwise (fun a b => a.1 < b.1) →
    ∀ e ∈ R.dropWhile (fun e => decide (e.1 ≤ y)), y < e.1
  | [], _, e, he => by cases he
  | a :: R, h, e, he => by
    have hp := List.pairwise_cons.1 h
    rw [List.dropWhile_cons] at he
    split at he
    · exact dropWhile_gt hp.2 e he
    · next ha =>
      simp only [decide_eq_true_eq] at ha
      rcases List.mem_cons.1 he with rfl | he
      · omega
      · have := hp.1 e he
        omega

/-- Steps of an iterator. -/
theorem Up.iter (W : World (view m d A)) (I : VInv (view m d A) d lt) (M : Marked (view m d A) d) (C : Cells m d) {Y : List (Key × V)} {p p' : IPc V}
    {e : IEv V} {t : Thr} (hs : Iter m d t p e p') (he : e.on) (hY : Y.Pairwise fun a b => b.1 < a.1) (h : Up (view m d A) d lt Y p) :
    ((e.out Y).Pairwise fun a b => b.1 < a.1) ∧ Up (view m d A) d lt (e.out Y) p' := by
  have hold : ∀ {l : Id} {R : List (Key × V)}, d.lst l = true → Snap (m.leaf l) R → ∀ e ∈ R, (view m d A).get l e.1 ≠ none := by
    intro l R _ hR e he
    have : (view m d A).get l e.1 = some e.2 := (hR.2 e.1 e.2).1 he
    rw [this]; simp
  cases hs with
  | start => exact he.elim
  | empty h0 => exact ⟨hY, trivial⟩
  | root n h0 => exact ⟨hY, h⟩
  | enter n st => exact ⟨hY, h⟩
  | fetch n ver i r todo st h0 => exact ⟨hY, h, fun l e => C n i l (by rw [h0, e])⟩
  | retry n ver i todo st hi h0 => exact ⟨hY, h⟩
  | null n ver todo st h0 => exact ⟨hY, h⟩
  | noneEnd => exact ⟨hY, trivial⟩
  | noneUp n ver st => exact ⟨hY, h⟩
  | noneNext n ver i todo st => exact ⟨hY, h⟩
  | invalid n ver r todo st h0 => exact ⟨hY, h.1⟩
  | down n ver c todo st h0 => exact ⟨hY, h.1⟩
  | leaf n ver l todo st h0 => exact ⟨hY, h.1, h.2 l rfl⟩
  | first l R h0 =>
    obtain ⟨h1, h2⟩ := h
    refine ⟨hY, ⟨fun _ => h1, fun y e => by cases e⟩, h2, h0.1, fun e he => ⟨(fun y hy => by cases hy), ?_⟩, fun _ y hy => by cases hy⟩
    exact I.hold W M h2 (hold h2 h0 e he)
  | give l k v R last =>
    obtain ⟨h1, h2, h3, h4, h5⟩ := h
    have hp := List.pairwise_cons.1 h3
    have hk := h4 (k, v) (by simp)
    have top : ∀ e ∈ Y, e.1 < k := by
      intro e he
      cases last with
      | none => rw [h1.1 rfl] at he; cases he
      | some y =>
        have g1 := h1.2 y rfl e he
        have g2 := hk.1 y rfl
        simp only at g2
        omega
    refine ⟨List.pairwise_cons.2 ⟨top, hY⟩, ⟨(fun e => by cases e), fun y hy e he => ?_⟩, h2, hp.2,
      fun e he => ⟨(fun y hy => by cases hy; exact hp.1 e he), (h4 e (List.mem_cons_of_mem _ he)).2⟩, fun _ y hy => ?_⟩
    · cases hy
      rcases List.mem_cons.1 he with rfl | he
      · exact Nat.le_refl _
      · exact Nat.le_of_lt (top e he)
    · cases hy
      exact hk.2
  | jump l last =>
    obtain ⟨h1, h2, h3, h4, h5⟩ := h
    exact ⟨hY, h1, h2, h2, .inl rfl, h5 rfl⟩
  | next c a b last h0 =>
    obtain ⟨h1, h2, h3, h4, h5⟩ := h
    obtain ⟨l1, l2, _⟩ := I.link a b h0
    refine ⟨hY, h1, h2, l1, ?_, h5⟩
    rcases h4 with rfl | h4
    · exact l2
    · exact I.trans _ _ _ h4 l2
  | last c a last h0 => exact ⟨hY, trivial⟩
  | deleted c b b' last hg h0 =>
    obtain ⟨h1, h2, h3, h4, h5⟩ := h
    obtain ⟨l1, l2, _⟩ := I.link b b' h0
    exact ⟨hY, h1, h2, l1, I.trans _ _ _ h4 l2, h5⟩
  | deletedLast c b last hg h0 => exact ⟨hY, trivial⟩
  | valid c b last hg =>
    obtain ⟨h1, h2, h3, h4, h5⟩ := id h
    refine ⟨hY, h, fun y hy => ?_⟩
    by_cases ho : Off d c
    · exact .inl ho
    · exact .inr fun q hq => I.after W M h2 ho (h5 y hy) ⟨h3, hg⟩ h4 hq
  | snap c b R last h0 =>
    obtain ⟨h1, h2⟩ := h
    have h3 := h1.2.2.1
    exact ⟨hY, h1, h0.1, fun e he => I.hold W M h3 (hold h3 h0 e he),
      fun y hy => (h2 y hy).imp id fun h e he => h e.1 (hold h3 h0 e he)⟩
  | clear c b R last h0 hR =>
    obtain ⟨⟨h1, h2, h3, h4, h5⟩, h6, h7, h8⟩ := h
    refine ⟨hY, h1, h3, h6, fun e he => ⟨fun y hy => ?_, h7 e he⟩, fun h => absurd h hR⟩
    rcases h0 with h0 | h0
    · rw [h0] at hy; cases hy
    · exact (h8 y hy).resolve_left (not_clear h0) e he
  | clearNext c b last h0 =>
    obtain ⟨⟨h1, h2, h3, h4, h5⟩, h6, h7, h8⟩ := h
    exact ⟨hY, h1, h2, h3, .inr h4, h5⟩
  | compare c b R y h0 hR =>
    obtain ⟨⟨h1, h2, h3, h4, h5⟩, h6, h7, h8⟩ := h
    have sub := List.dropWhile_sublist (l := R) (fun e => decide (e.1 ≤ y))
    exact ⟨hY, h1, h3, h6.sublist sub, fun e he => ⟨(fun y' hy => by cases hy; exact dropWhile_gt h6 e he), h7 e (sub.subset he)⟩,
      fun h => absurd h hR⟩
  | compareNext c b R y h0 hR =>
    obtain ⟨⟨h1, h2, h3, h4, h5⟩, h6, h7, h8⟩ := h
    exact ⟨hY, h1, h2, h3, .inr h4, h5⟩

/-! ## Executions -/

/-- The invariant. -/
theorem Firm.inv {s : ISt V} {es : List (IEv V)} (r : Firm s es) : Ascends es ∧ ∃ src lt, Core s es src lt ∧ Keen s es ∧
    ∀ t, Up (view s.base.mem s.list (mapOf es)) s.list lt (yields t es) (s.it t) := by
  induction r with
  | init => exact ⟨fun t => .nil, id, _, Core.init, Keen.init, fun t => trivial⟩
  | @step s s' es e r h hm ih =>
    obtain ⟨F, src, lt, C, K, T⟩ := ih
    have env : e.who = none → s'.it = s.it → Ascends (e :: es) ∧ ∃ src lt, Core s' (e :: es) src lt ∧ Keen s' (e :: es) ∧
        ∀ t, Up (view s'.base.mem s'.list (mapOf (e :: es))) s'.list lt (yields t (e :: es)) (s'.it t) := by
      intro hw hit
      obtain ⟨src', lt', C', Fl, K', hg, hh⟩ := C.firm r.run K h hm hw hit
      have hy : ∀ t, yields t (e :: es) = yields t es := fun t => yields_other (by rw [hw]; simp)
      refine ⟨fun t => by rw [hy]; exact F t, src', lt', C', K', fun t => ?_⟩
      rw [hit, hy]
      exact Up.env C'.base.world C'.list K'.marked Fl hg hm hh (T t)
    cases h with
    | call h hl => exact env rfl rfl
    | leaf h hl => exact env rfl rfl
    | change h hp => exact env rfl rfl
    | relink h => exact env rfl rfl
    | @iter t e p h =>
      clear env
      have hmap : mapOf (e :: es) = mapOf es := mapOf_who fun e0 he => by
        rcases h.who with h | h <;> rw [he] at h <;> cases h
      have C' : Core { s with it := upd s.it t p } (e :: es) src lt := ⟨by rw [hmap]; exact C.base, by rw [hmap]; exact C.list⟩
      have K' : Keen { s with it := upd s.it t p } (e :: es) := ⟨by rw [hmap]; exact K.marked, K.cells⟩
      have others : ∀ t', t' ≠ t → yields t' (e :: es) = yields t' es := by
        intro t' hne
        refine yields_other ?_
        rcases h.who with h | h
        · rw [h]; intro e; cases e; exact hne rfl
        · rw [h]; intro e; cases e
      by_cases he : e.on
      · obtain ⟨g1, g2⟩ := Up.iter C.base.world C.list K.marked K.cells h he (F t) (T t)
        have own := yields_own (es := es) he (h.who.imp id fun h => by rw [h]; rfl)
        refine ⟨fun t' => ?_, src, lt, C', K', fun t' => ?_⟩
        · by_cases e' : t' = t
          · subst e'; rw [own]; exact g1
          · rw [others t' e']; exact F t'
        · simp only [hmap]
          by_cases e' : t' = t
          · subst e'
            simp only [upd_eq]
            rw [own]; exact g2
          · simp only [upd_ne e']
            rw [others t' e']; exact T t'
      · have : p = .top ∧ e = .start t := by
          generalize s.it t = p0 at h
          cases h <;> first | exact ⟨rfl, rfl⟩ | exact absurd trivial he
        obtain ⟨rfl, rfl⟩ := this
        have own : yields t (IEv.start t :: es) = [] := by simp [yields]
        refine ⟨fun t' => ?_, src, lt, C', K', fun t' => ?_⟩
        · by_cases e' : t' = t
          · subst e'; rw [own]; exact .nil
          · rw [others t' e']; exact F t'
        · simp only [hmap]
          by_cases e' : t' = t
          · subst e'
            simp only [upd_eq]
            exact own
          · simp only [upd_ne e']
            rw [others t' e']; exact T t'

/-- **C45**, in part: what iterators yield ascends, whatever other threads do. What is missing: executions in which `rollback` takes the mark of a
leaf away (`Firm` leaves them out); in some of these the keys do not ascend (`c45_rollback`). -/
theorem c45_ascends_partial {s : ISt V} {es : List (IEv V)} (r : Firm s es) : Ascends es := r.inv.1

/-- There are such executions in which an iterator passes over leaves that are being split. -/
example : ∃ (s : ISt Nat) (es : List (IEv Nat)), Firm s es ∧ Ascends es := by
  obtain ⟨s, es, _, f, _⟩ := split_good
  exact ⟨s, es, f, c45_ascends_partial f⟩

end Scc.Vine
