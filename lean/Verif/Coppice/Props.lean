import Verif.Coppice.Inv

/-!
# C68 with trees in full: `clear` and the calls on single keys have one order
-/

namespace Scc.Coppice

open Grove (Ev Atomic Stage callers mon upd upd_ne stageOf Once)

variable {V : Type} {s : St V}

theorem stage_done {es : List (Ev V)} {x : Nat} {a : Grove.Ans V} (h : stageOf es x = .done a) : (mon es).eff x ≠ 0 := by
  unfold stageOf at h
  split at h
  · cases h
  · split at h
    · cases h
    · assumption

/-- Two calls may come in this order. -/
def May (s : St V) (e e' : Rec V) : Prop := ¬ s.bef e.id e'.id ∧ e.id ≠ e'.id

/-- The calls in one instance. -/
theorem seg (I : Inv s) (v : Nat) (ho : Once (s.es v)) : ∃ l : List (Rec V),
    Legal (fun _ => none) l (mon (s.es v)).map ∧ l.Pairwise (May s) ∧
    (∀ e ∈ l, e.act = s.ask e.id ∧ (∃ k o, Ev.call e.id k o ∈ s.es v) ∧ (s.pc e.id).home = some v) ∧
    ∀ x a, Ev.ret x a ∈ s.es v → (⟨x, s.ask x, some a⟩ : Rec V) ∈ l := by
  obtain ⟨l, A⟩ := acts (Grove.legal_stage (I.run v).inv.2 ho) (by rw [callers_filter]; exact I.nodup v)
  have mem : ∀ e ∈ l, e.act = s.ask e.id ∧ (∃ k o, Ev.call e.id k o ∈ s.es v) ∧ (s.pc e.id).home = some v := by
    intro e he
    obtain ⟨k, o, a, h1, h2, h3, h4⟩ := A.mem e he
    have h3 := (List.mem_filter.1 h3).1
    refine ⟨by rw [h1, (I.call v _ k o h3).2.1], ⟨k, o, h3⟩, ?_⟩
    rcases h4 with h4 | h4
    · exact I.eff v _ (stage_done h4)
    · rw [I.ret v _ a (List.mem_filter.1 h4).1]; rfl
  refine ⟨l, A.legal, A.order.imp_of_mem fun {e e'} he he' h1 => ⟨fun hb => ?_, h1.1⟩, mem, fun x a hx => ?_⟩
  · obtain ⟨r, hr⟩ := I.befg _ _ hb
    obtain ⟨-, ⟨k, o, hc⟩, -⟩ := mem e he
    obtain ⟨e1, ⟨k', o', hc'⟩, hh⟩ := mem e' he'
    rcases (I.got _ _ hr).2 with ⟨w, a, -, hw⟩ | ⟨-, w, hw⟩
    · rw [I.ret w _ a hw] at hh
      cases hh
      exact h1.2 a k o ((I.ord3 _ _ k o a _ hb hc hw).filter rfl rfl)
    · have h2 := (I.call v _ k' o' hc').2.1
      rw [(I.clr w _ hw).2.1] at h2
      cases h2
  · obtain ⟨-, k, o, h1⟩ := A.ret x a (List.mem_filter.2 ⟨hx, rfl⟩)
    have := (mem _ h1).1
    have h2 : Act.key k o = s.ask x := this
    rw [← h2]; exact h1

/-- What happened in an instance, and the call of `clear` that took it out. -/
theorem segClear (I : Inv s) {v : Nat} (ho : Once (s.es v)) {c : Nat} (hc : s.clr v = some c) : ∃ l : List (Rec V),
    Legal (fun _ => none) l (fun _ => none) ∧ l.Pairwise (May s) ∧
    (∀ e ∈ l, e.act = s.ask e.id ∧ At s e.id v ∧ (s.clr v = some e.id ∨ (s.pc e.id).home = some v)) ∧
    (∀ x a, Ev.ret x a ∈ s.es v → (⟨x, s.ask x, some a⟩ : Rec V) ∈ l) ∧ ⟨c, s.ask c, none⟩ ∈ l := by
  obtain ⟨l, h1, h2, h3, h4⟩ := seg I v ho
  have hk := (I.clr v c hc).2.1
  refine ⟨l ++ [⟨c, .clear, none⟩], h1.append (.cons rfl .nil), List.pairwise_append.2 ⟨h2, List.pairwise_singleton _ _, fun e he e' he' => ?_⟩,
    fun e he => ?_, fun x a hx => List.mem_append.2 (.inl (h4 x a hx)), by rw [hk]; exact List.mem_append.2 (.inr (List.mem_singleton.2 rfl))⟩
  · rw [List.mem_singleton.1 he']
    obtain ⟨-, ⟨k, o, h5⟩, -⟩ := h3 e he
    refine ⟨fun hb => Nat.lt_irrefl _ (I.ord2 _ _ v v hb hc (.inl ⟨k, o, h5⟩)), fun hh => ?_⟩
    have hh : e.id = c := hh
    have := (I.call v _ k o h5).2.1
    rw [hh, hk] at this
    cases this
  · rcases List.mem_append.1 he with he | he
    · obtain ⟨h0, h5, h6⟩ := h3 e he
      exact ⟨h0, .inl h5, .inr h6⟩
    · rw [List.mem_singleton.1 he]
      exact ⟨hk.symm, .inr hc, .inl hc⟩

/-- A call takes effect in one instance. -/
theorem one_home (I : Inv s) {x v w : Nat} (h : s.clr v = some x ∨ (s.pc x).home = some v) (h' : s.clr w = some x ∨ (s.pc x).home = some w) : v = w := by
  have no : ∀ v w, s.clr v = some x → (s.pc x).home = some w → False := by
    intro v w h h'
    rcases (I.clr v x h).2.2 with e | e <;> rw [e] at h' <;> cases h'
  rcases h with h | h <;> rcases h' with h' | h'
  · exact I.clr1 v w x h h'
  · exact (no v w h h').elim
  · exact (no w v h' h).elim
  · rw [h] at h'; cases h'; rfl

/-- The instances that were taken out. -/
theorem flat (I : Inv s) (ho : ∀ v, Once (s.es v)) : ∀ n, n ≤ s.cur → ∃ l : List (Rec V),
    Legal (fun _ => none) l (fun _ => none) ∧ l.Pairwise (May s) ∧
    (∀ e ∈ l, e.act = s.ask e.id ∧ ∃ v, v < n ∧ At s e.id v ∧ (s.clr v = some e.id ∨ (s.pc e.id).home = some v)) ∧
    ∀ v, v < n → (∀ x a, Ev.ret x a ∈ s.es v → (⟨x, s.ask x, some a⟩ : Rec V) ∈ l) ∧ ∀ c, s.clr v = some c → ⟨c, s.ask c, none⟩ ∈ l
  | 0, _ => ⟨[], .nil, .nil, nofun, fun v h => absurd h (Nat.not_lt_zero v)⟩
  | n + 1, hn => by
    obtain ⟨l, h1, h2, h3, h4⟩ := flat I ho n (by omega)
    obtain ⟨c, hc⟩ := I.full n (by omega)
    obtain ⟨l', g1, g2, g3, g4, g5⟩ := segClear I (ho n) hc
    refine ⟨l ++ l', h1.append g1, List.pairwise_append.2 ⟨h2, g2, fun e he e' he' => ?_⟩, fun e he => ?_, fun v hv => ?_⟩
    · obtain ⟨-, v, k1, k2, k3⟩ := h3 e he
      obtain ⟨-, k4, k5⟩ := g3 e' he'
      refine ⟨fun hb => ?_, fun hh => ?_⟩
      · have := I.ord1 _ _ v n hb k4 k2
        omega
      · rw [← hh] at k5
        have := one_home I k3 k5
        omega
    · rcases List.mem_append.1 he with he | he
      · obtain ⟨k0, v, k1, k2⟩ := h3 e he
        exact ⟨k0, v, by omega, k2⟩
      · exact ⟨(g3 e he).1, n, Nat.lt_succ_self _, (g3 e he).2⟩
    · by_cases hvn : v = n
      · subst hvn
        refine ⟨fun x a hx => List.mem_append.2 (.inr (g4 x a hx)), fun c' hc' => ?_⟩
        rw [hc] at hc'; cases hc'
        exact List.mem_append.2 (.inr g5)
      · obtain ⟨k1, k2⟩ := h4 v (by omega)
        exact ⟨fun x a hx => List.mem_append.2 (.inl (k1 x a hx)), fun c hc => List.mem_append.2 (.inl (k2 c hc))⟩

/-- C68, with the trees in full: the calls of `clear`, `insert`, `remove_if` and `peek` have one order.

Missing: executions in which one call of `remove_if` takes away two entries (C52); there it is false (`c68_violated`). -/
theorem c68_trees_partial (h : Reach s) (ho : ∀ v, Once (s.es v)) : Ordered s := by
  have I := inv h
  obtain ⟨l, h1, h2, h3, h4⟩ := flat I ho s.cur (Nat.le_refl _)
  obtain ⟨l', g1, g2, g3, g4⟩ := seg I s.cur (ho s.cur)
  refine ⟨l ++ l', _, h1.append g1, List.pairwise_append.2 ⟨h2, g2, fun e he e' he' => ?_⟩, fun e he => ?_, fun x r hx => ?_⟩
  · obtain ⟨-, v, k1, k2, k3⟩ := h3 e he
    obtain ⟨-, k4, k5⟩ := g3 e' he'
    refine ⟨fun hb => ?_, fun hh => ?_⟩
    · have := I.ord1 _ _ v s.cur hb (.inl k4) k2
      omega
    · rw [← hh] at k5
      have := one_home I k3 (.inr k5)
      omega
  · have old : ∀ {v}, At s e.id v → e.id < s.nid := by
      intro v hv
      refine Nat.lt_of_not_le fun hn => I.at_new hv (I.fresh _ hn)
    rcases List.mem_append.1 he with he | he
    · obtain ⟨k0, v, -, k2, -⟩ := h3 e he
      exact ⟨old k2, k0⟩
    · obtain ⟨k0, k1, -⟩ := g3 e he
      exact ⟨old (.inl k1), k0⟩
  · rcases (I.got x r hx).2 with ⟨v, a, rfl, hv⟩ | ⟨rfl, v, hv⟩
    · by_cases e : v = s.cur
      · subst e
        exact List.mem_append.2 (.inr (g4 x a hv))
      · have hl : v < s.cur := by
          have : x ∈ callers (s.es v) := by
            have hr := (I.run v).inv.2
            clear h1 h2 h3 h4 g1 g2 g3 g4 hx e
            generalize s.es v = es at hv hr
            induction es with
            | nil => cases hv
            | cons e es ih =>
              obtain ⟨k1, k2⟩ := hr
              rcases List.mem_cons.1 hv with hv | hv
              · subst hv
                obtain ⟨k, o, k3, -⟩ := k2
                exact mem_callers.2 ((mem_callers.1 (Grove.mem_callers k3)).imp fun _ h => h.imp fun _ => List.mem_cons_of_mem _)
              · exact mem_callers.2 ((mem_callers.1 (ih hv k1)).imp fun _ h => h.imp fun _ => List.mem_cons_of_mem _)
          obtain ⟨k, o, hc⟩ := mem_callers.1 this
          have := (I.call v x k o hc).1
          omega
        exact List.mem_append.2 (.inl ((h4 v hl).1 x a hv))
    · exact List.mem_append.2 (.inl ((h4 v (I.clr v x hv).1).2 x hv))

end Scc.Coppice
