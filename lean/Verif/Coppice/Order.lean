import Verif.Coppice.Model

/-!
# The order of the calls in one instance
-/

namespace Scc.Coppice

open Grove (Ev Atomic Stage callers)

variable {V : Type}

theorem Legal.append {m m1 m2 : Nat → Option V} {a b : List (Rec V)} (h : Legal m a m1) (h' : Legal m1 b m2) : Legal m (a ++ b) m2 := by
  induction h with
  | nil => exact h'
  | cons hr _ ih => exact .cons hr (ih h')

/-- `a` is older than an occurrence of `b`; latest first. -/
def Older (h : List (Ev V)) (a b : Ev V) : Prop := ∃ h1 h2, h = h1 ++ b :: h2 ∧ a ∈ h2

theorem Older.cons {h : List (Ev V)} {a b : Ev V} (o : Older h a b) (e : Ev V) : Older (e :: h) a b := by
  obtain ⟨h1, h2, rfl, h3⟩ := o
  exact ⟨e :: h1, h2, rfl, h3⟩

theorem older_cons {h : List (Ev V)} {a b e : Ev V} (o : Older (e :: h) a b) : e = b ∨ Older h a b := by
  obtain ⟨h1, h2, e1, h3⟩ := o
  cases h1 with
  | nil => cases e1; exact .inl rfl
  | cons x h1 => cases e1; exact .inr ⟨h1, h2, rfl, h3⟩

theorem Older.mem {h : List (Ev V)} {a b : Ev V} (o : Older h a b) : a ∈ h ∧ b ∈ h := by
  obtain ⟨h1, h2, rfl, h3⟩ := o
  exact ⟨by simp [h3], by simp⟩

theorem Older.filter {h : List (Ev V)} {a b : Ev V} (o : Older h a b) (ha : a.outer = true) (hb : b.outer = true) :
    Older (h.filter Ev.outer) a b := by
  obtain ⟨h1, h2, rfl, h3⟩ := o
  refine ⟨h1.filter Ev.outer, h2.filter Ev.outer, ?_, List.mem_filter.2 ⟨h3, ha⟩⟩
  rw [List.filter_append, List.filter_cons_of_pos hb]

theorem mem_callers {es : List (Ev V)} {x : Nat} : x ∈ callers es ↔ ∃ k o, Ev.call x k o ∈ es := by
  induction es with
  | nil => simp [callers]
  | cons e es ih =>
    cases e with
    | call t k o =>
      simp only [callers, List.mem_cons, ih]
      constructor
      · rintro (rfl | ⟨k', o', h⟩)
        · exact ⟨k, o, .inl rfl⟩
        · exact ⟨k', o', .inr h⟩
      · rintro ⟨k', o', h | h⟩
        · cases h; exact .inl rfl
        · exact .inr ⟨k', o', h⟩
    | _ => simp [callers, ih]

theorem callers_filter (es : List (Ev V)) : callers (es.filter Ev.outer) = callers es := by
  induction es with
  | nil => rfl
  | cons e es ih => cases e <;> simp [List.filter_cons, Ev.outer, callers, ih]

/-- What an atomic map has done, in order. -/
structure Acts (h : List (Ev V)) (m : Nat → Option V) (st : Nat → Stage V) (l : List (Rec V)) : Prop where
  legal : Legal (fun _ => none) l m
  mem : ∀ e ∈ l, ∃ k o a, e.act = .key k o ∧ e.ans = some a ∧ Ev.call e.id k o ∈ h ∧ (st e.id = .done a ∨ Ev.ret e.id a ∈ h)
  done : ∀ x a, st x = .done a → ∃ k o, (⟨x, .key k o, some a⟩ : Rec V) ∈ l
  ret : ∀ x a, Ev.ret x a ∈ h → st x = .idle ∧ ∃ k o, (⟨x, .key k o, some a⟩ : Rec V) ∈ l
  pend : ∀ x k o, st x = .pending k o → Ev.call x k o ∈ h ∧ ∀ e ∈ l, e.id ≠ x
  order : l.Pairwise fun e e' => e.id ≠ e'.id ∧ ∀ a k o, ¬ Older h (.ret e'.id a) (.call e.id k o)

theorem acts {h : List (Ev V)} {m : Nat → Option V} {st : Nat → Stage V} (r : Atomic h m st) (hn : (callers h).Nodup) :
    ∃ l, Acts h m st l := by
  induction r with
  | init => exact ⟨[], .nil, nofun, nofun, nofun, nofun, .nil⟩
  | @call h m st t k o _ hs ih =>
    obtain ⟨ht, hn⟩ := List.nodup_cons.1 hn
    obtain ⟨l, A⟩ := ih hn
    have hl : ∀ e ∈ l, e.id ≠ t := by
      rintro e he rfl
      obtain ⟨k', o', a, -, -, hc, -⟩ := A.mem e he
      exact ht (mem_callers.2 ⟨k', o', hc⟩)
    refine ⟨l, A.legal, fun e he => ?_, fun x a hx => ?_, fun x a hx => ?_, fun x k' o' hx => ?_, ?_⟩
    · obtain ⟨k', o', a, h1, h2, h3, h4⟩ := A.mem e he
      refine ⟨k', o', a, h1, h2, List.mem_cons_of_mem _ h3, ?_⟩
      rw [if_neg (hl e he)]
      exact h4.imp id (List.mem_cons_of_mem _)
    · by_cases e : x = t
      · rw [if_pos e] at hx; cases hx
      · rw [if_neg e] at hx; exact A.done x a hx
    · rcases List.mem_cons.1 hx with hx | hx
      · cases hx
      · obtain ⟨h1, k', o', h2⟩ := A.ret x a hx
        rw [if_neg (hl _ h2)]
        exact ⟨h1, k', o', h2⟩
    · by_cases e : x = t
      · subst e
        rw [if_pos rfl] at hx
        cases hx
        exact ⟨List.mem_cons_self, hl⟩
      · rw [if_neg e] at hx
        exact ⟨List.mem_cons_of_mem _ (A.pend x k' o' hx).1, (A.pend x k' o' hx).2⟩
    · refine A.order.imp_of_mem fun {e e'} he _ h1 => ⟨h1.1, fun a k' o' ho => ?_⟩
      rcases older_cons ho with h2 | h2
      · cases h2; exact hl e he rfl
      · exact h1.2 a k' o' h2
  | @act h m st t k o _ hs ih =>
    obtain ⟨l, A⟩ := ih hn
    obtain ⟨hc, hl⟩ := A.pend t k o hs
    refine ⟨l ++ [⟨t, .key k o, some (o.act (m k)).1⟩], A.legal.append (.cons rfl .nil), fun e he => ?_, fun x a hx => ?_, fun x a hx => ?_,
      fun x k' o' hx => ?_, ?_⟩
    · rcases List.mem_append.1 he with he | he
      · obtain ⟨k', o', a, h1, h2, h3, h4⟩ := A.mem e he
        refine ⟨k', o', a, h1, h2, h3, ?_⟩
        rw [if_neg (hl e he)]
        exact h4
      · rw [List.mem_singleton.1 he]
        exact ⟨k, o, _, rfl, rfl, hc, .inl (if_pos rfl)⟩
    · by_cases e : x = t
      · subst e
        rw [if_pos rfl] at hx
        cases hx
        exact ⟨k, o, List.mem_append.2 (.inr (List.mem_singleton.2 rfl))⟩
      · rw [if_neg e] at hx
        obtain ⟨k', o', h1⟩ := A.done x a hx
        exact ⟨k', o', List.mem_append.2 (.inl h1)⟩
    · obtain ⟨h1, k', o', h2⟩ := A.ret x a hx
      rw [if_neg (hl _ h2)]
      exact ⟨h1, k', o', List.mem_append.2 (.inl h2)⟩
    · by_cases e : x = t
      · rw [if_pos e] at hx; cases hx
      · rw [if_neg e] at hx
        refine ⟨(A.pend x k' o' hx).1, fun e' he' => ?_⟩
        rcases List.mem_append.1 he' with he' | he'
        · exact (A.pend x k' o' hx).2 e' he'
        · rw [List.mem_singleton.1 he']; exact Ne.symm e
    · refine List.pairwise_append.2 ⟨A.order, List.pairwise_singleton _ _, fun e he e' he' => ?_⟩
      rw [List.mem_singleton.1 he']
      refine ⟨hl e he, fun a k' o' ho => ?_⟩
      have := (A.ret t a ho.mem.1).1
      rw [hs] at this; cases this
  | @ret h m st t a _ hs ih =>
    obtain ⟨l, A⟩ := ih hn
    refine ⟨l, A.legal, fun e he => ?_, fun x a' hx => ?_, fun x a' hx => ?_, fun x k' o' hx => ?_, ?_⟩
    · obtain ⟨k', o', a', h1, h2, h3, h4⟩ := A.mem e he
      refine ⟨k', o', a', h1, h2, List.mem_cons_of_mem _ h3, ?_⟩
      by_cases e' : e.id = t
      · rcases h4 with h4 | h4
        · rw [e', hs] at h4; cases h4; rw [e']; exact .inr List.mem_cons_self
        · exact .inr (List.mem_cons_of_mem _ h4)
      · rw [if_neg e']; exact h4.imp id (List.mem_cons_of_mem _)
    · by_cases e : x = t
      · rw [if_pos e] at hx; cases hx
      · rw [if_neg e] at hx; exact A.done x a' hx
    · rcases List.mem_cons.1 hx with hx | hx
      · cases hx
        exact ⟨if_pos rfl, A.done t a hs⟩
      · obtain ⟨h1, h2⟩ := A.ret x a' hx
        refine ⟨?_, h2⟩
        by_cases e : x = t
        · exact if_pos e
        · rw [if_neg e]; exact h1
    · by_cases e : x = t
      · rw [if_pos e] at hx; cases hx
      · rw [if_neg e] at hx
        exact ⟨List.mem_cons_of_mem _ (A.pend x k' o' hx).1, (A.pend x k' o' hx).2⟩
    · refine A.order.imp_of_mem fun {e e'} _ _ h1 => ⟨h1.1, fun a k' o' ho => ?_⟩
      rcases older_cons ho with h2 | h2
      · cases h2
      · exact h1.2 a k' o' h2

end Scc.Coppice
