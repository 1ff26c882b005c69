import Verif.Grove.Threads

/-!
# C51: calls of `insert`, `remove_if` and `peek` agree with a map
-/

namespace Scc.Grove

local notation "Key" => Nat
local notation "Id" => Nat
local notation "Thr" => Nat

variable {V : Type} {s s' : St V} {M : Mon V}

/-- A removal that has not found the key. -/
theorem SInv.failed (S : SInv s M) {t : Thr} {c : V → Bool} (ho : (s.th t).op = .remove c) (hi : (s.th t).pc.inside = true)
    (h : M.seen t none ∨ ∃ w, M.seen t (some w) ∧ c w = false) : SInv (s.go t (s.th t).failed) M := by
  have P := S.th t
  have he := P.eff hi
  have hi' : (s.th t).pc ≠ .idle := by
    intro e; rw [e] at hi; cases hi
  unfold Th.failed
  cases hr : (s.th t).rm with
  | true =>
    rw [hr, if_pos rfl] at he
    exact S.go hi' (by simp) he (by simp [Pc.inside])
  | false =>
    rw [hr] at he
    refine S.go hi' (by simp) ?_ (by simp [Pc.inside])
    rw [ho]
    exact ⟨he, h⟩

theorem SInv.call (S : SInv s M) {e : Ev V} (h : Call s e s') : M.ok e ∧ SInv s' (M.next e) := by
  obtain ⟨src, I⟩ := S.inv
  have ne : ∀ t, (s.th t).pc.inside = true → (s.th t).pc ≠ .idle := by
    intro t h e
    rw [e] at h; cases h
  cases h with
  | call t k o h =>
    refine ⟨(S.th t).idle h, ⟨src, I⟩, fun t' => ?_⟩
    simp only [setTh_th, Mon.next]
    by_cases e : t' = t
    · subst e
      simp only [upd_eq]
      exact ⟨(fun h => by cases h), fun _ => rfl, fun _ => rfl, (fun _ n hn => by cases hn), trivial, fun _ => rfl⟩
    · simp only [upd_ne e]
      exact S.th t'
  | ret t a h =>
    have P := S.th t
    have hi : (s.th t).pc ≠ .idle := by rw [h]; simp
    have hp := P.pc
    rw [h] at hp
    refine ⟨⟨_, _, P.cur hi, hp⟩, ⟨src, I⟩, fun t' => ?_⟩
    simp only [St.go, setTh_th, Mon.next]
    by_cases e : t' = t
    · subst e
      simp only [upd_eq]
      exact ⟨fun _ => rfl, fun h => absurd rfl h, fun h => absurd rfl h, fun h => absurd rfl h, trivial, fun h => by cases h⟩
    · simp only [upd_ne e]
      exact S.th t'
  | load t n h hr =>
    have P := S.th t
    have hi : (s.th t).pc.inside = true := by rw [h]; rfl
    have hg : Good s.mem (M.seen t) (s.th t).key (.node n) := .on (.root hr)
    refine ⟨trivial, S.local ⟨(fun h => by cases h), fun _ => P.cur (ne t hi), fun _ => P.now (ne t hi), fun _ n' hn' => ?_, hg, fun _ => P.eff hi⟩⟩
    rw [List.mem_singleton.1 hn']; exact hg
  | loadPeek t h hr ho =>
    have P := S.th t
    have hi : (s.th t).pc.inside = true := by rw [h]; rfl
    have hn := P.now (ne t hi)
    rw [I.mean.root hr] at hn
    have he := P.eff hi
    refine ⟨trivial, S.go (ne t hi) (by simp) ?_ (by simp [Pc.inside])⟩
    rw [ho] at he ⊢
    refine ⟨?_, hn⟩
    split at he
    · obtain ⟨⟨c, h⟩, _⟩ := he; cases h
    · exact he
  | loadRemove t c h hr ho =>
    have P := S.th t
    have hi : (s.th t).pc.inside = true := by rw [h]; rfl
    have hn := P.now (ne t hi)
    rw [I.mean.root hr] at hn
    have he := P.eff hi
    refine ⟨trivial, S.go (ne t hi) (by simp) ?_ (by simp [Pc.inside])⟩
    rw [ho]
    cases hr : (s.th t).rm with
    | true =>
      rw [hr, if_pos rfl] at he
      exact he.2
    | false =>
      rw [hr] at he
      exact ⟨he, .inl hn⟩
  | newRoot t v h hr ho =>
    have N := I.newRoot hr
    refine ⟨trivial, S.change I N.evo (.same rfl fun c hc => ?_) N.inv⟩
    simp only [Mem.setNode]
    rw [upd_ne (Nat.ne_of_lt hc)]
  | select t n h =>
    have P := S.th t
    have hi : (s.th t).pc.inside = true := by rw [h]; rfl
    have hp := P.pc
    rw [h] at hp
    exact ⟨trivial, S.go (ne t hi) (by simp) ⟨hp, Nat.le_refl _, fun _ => rfl⟩ fun _ => P.eff hi⟩
  | fetch t n i ver r h hc =>
    have P := S.th t
    have hi : (s.th t).pc.inside = true := by rw [h]; rfl
    have hp := P.pc
    rw [h] at hp
    obtain ⟨h1, h2, h3⟩ := hp
    refine ⟨trivial, S.go (ne t hi) (by simp) ⟨h1, h2, fun e => h1.child I ?_⟩ fun _ => P.eff hi⟩
    simp only [Node.dest, h3 e, hc]
  | fetchNull t n i ver h hi0 hc =>
    have P := S.th t
    have hi : (s.th t).pc.inside = true := by rw [h]; rfl
    have hp := P.pc
    rw [h] at hp
    exact ⟨trivial, S.go (ne t hi) (by simp) hp.1 fun _ => P.eff hi⟩
  | nullPeek t n ver h hc ho =>
    have P := S.th t
    have hi : (s.th t).pc.inside = true := by rw [h]; rfl
    have hp := P.pc
    rw [h] at hp
    have he := P.eff hi
    refine ⟨trivial, S.go (ne t hi) (by simp) ?_ (by simp [Pc.inside])⟩
    rw [ho] at he ⊢
    refine ⟨?_, hp.1.none I (P.now (ne t hi)) hc⟩
    split at he
    · obtain ⟨⟨c, h⟩, _⟩ := he; cases h
    · exact he
  | nullRemove t n ver c h hc ho =>
    have P := S.th t
    have hi : (s.th t).pc.inside = true := by rw [h]; rfl
    have hp := P.pc
    rw [h] at hp
    exact ⟨trivial, S.failed ho hi (.inl (hp.1.none I (P.now (ne t hi)) hc))⟩
  | nullInsert t n ver v h hc ho hl =>
    have P := S.th t
    have hi : (s.th t).pc.inside = true := by rw [h]; rfl
    have hp := P.pc
    rw [h] at hp
    obtain ⟨h1, h2, h3⟩ := hp
    have hon := h1.on_null I hc
    have N := I.nullInsert ⟨_, hon⟩ hc hl
    generalize hm' : ({ ((s.mem.setNode n
              { s.mem.node n with cell := upd (s.mem.node n).cell 0 (.to (.leaf s.mem.nL)) }).setLeaf
              s.mem.nL Leaf.new).freeze s.mem.nL false with nL := s.mem.nL + 1 } : Mem V) = m' at N
    have e1 : m'.node n = { s.mem.node n with cell := upd (s.mem.node n).cell 0 (.to (.leaf s.mem.nL)) } := by
      rw [← hm']; exact upd_same s.mem.node n _
    have e2 : m'.ver = s.mem.ver := by rw [← hm']; rfl
    have e3 : ∀ c, c ≠ n → m'.node c = s.mem.node c := by rw [← hm']; exact fun c hc => upd_ne hc
    have S' : SInv { s with mem := m' } M := by
      refine S.change I N.evo (.same e2 fun c _ => ?_) N.inv
      by_cases e : c = n
      · subst e; rw [e1]
      · rw [e3 c e]
    have g1 : Good m' (M.seen t) (s.th t).key (.node n) := h1.evo I N.evo (fun _ h => h) (P.now (ne t hi))
    refine ⟨trivial, S'.go (ne t hi) (by simp) ⟨g1, by rw [e2]; exact h2, fun _ => g1.child N.inv ?_⟩ fun _ => P.eff hi⟩
    have hk : (s.mem.node n).kids = [] := by
      cases hk : (s.mem.node n).kids with
      | nil => rfl
      | cons a b =>
        obtain ⟨y, hy⟩ := I.shape.unb n (by simp [hk])
        rw [hc] at hy; cases hy
    simp only [Node.dest, e1, hk, route_nil, upd_same]
  | retInsert t n ver v h hc ho =>
    have P := S.th t
    have hi : (s.th t).pc.inside = true := by rw [h]; rfl
    exact ⟨trivial, S.go (ne t hi) (by simp) trivial fun _ => P.eff hi⟩
  | invalid t n ver r h hv =>
    have P := S.th t
    have hi : (s.th t).pc.inside = true := by rw [h]; rfl
    have hp := P.pc
    rw [h] at hp
    exact ⟨trivial, S.go (ne t hi) (by simp) hp.1 fun _ => P.eff hi⟩
  | enterNode t n ver c h hv =>
    have P := S.th t
    have hi : (s.th t).pc.inside = true := by rw [h]; rfl
    have hp := P.pc
    rw [h] at hp
    refine ⟨trivial, S.local ⟨(fun h => by cases h), fun _ => P.cur (ne t hi), fun _ => P.now (ne t hi), fun _ n' hn' => ?_, hp.2.2 hv, fun _ => P.eff hi⟩⟩
    rcases List.mem_cons.1 hn' with e | e
    · rw [e]; exact hp.2.2 hv
    · exact P.vis (ne t hi) n' e
  | enterLeaf t n ver l h hv =>
    have P := S.th t
    have hi : (s.th t).pc.inside = true := by rw [h]; rfl
    have hp := P.pc
    rw [h] at hp
    exact ⟨trivial, S.go (ne t hi) (by simp) (hp.2.2 hv) fun _ => P.eff hi⟩
  | search t l h ho =>
    have P := S.th t
    have hi : (s.th t).pc.inside = true := by rw [h]; rfl
    have hp := P.pc
    rw [h] at hp
    have he := P.eff hi
    refine ⟨trivial, S.go (ne t hi) (by simp) ?_ (by simp [Pc.inside])⟩
    rw [ho] at he ⊢
    refine ⟨?_, hp.val I (P.now (ne t hi))⟩
    split at he
    · obtain ⟨⟨c, h⟩, _⟩ := he; cases h
    · exact he
  | put t l v h ho hf hr hk =>
    have P := S.th t
    have hi : (s.th t).pc.inside = true := by rw [h]; rfl
    have hp := P.pc
    rw [h] at hp
    have hon := hp.on_leaf I hf hr
    have he : M.eff t = 0 := by
      have he := P.eff hi
      rw [ho] at he
      split at he
      · obtain ⟨⟨c, h⟩, _⟩ := he; cases h
      · exact he
    refine ⟨⟨by rw [P.cur (ne t hi), ho], by rw [← I.mean.leaf _ l hon, hk], he⟩, ?_⟩
    have := S.assign (t := t) (l := l) (L := { s.mem.leaf l with m := ((s.th t).key, v) :: (s.mem.leaf l).m }) (p := .out .inserted)
      (ne t hi) hf hon (fun k' hk' => by rw [Leaf.get_cons, if_neg hk']) (fun h => by simp only [hr] at h; cases h) (fun h => h) (by simp) rfl
      (fun H => by rw [ho, he]; rfl)
    rw [Leaf.get_cons, if_pos rfl] at this
    exact this
  | dup t l v w h ho hk =>
    have P := S.th t
    have hi : (s.th t).pc.inside = true := by rw [h]; rfl
    have hp := P.pc
    rw [h] at hp
    have he := P.eff hi
    refine ⟨trivial, S.go (ne t hi) (by simp) ?_ (by simp [Pc.inside])⟩
    rw [ho] at he ⊢
    refine ⟨?_, w, ?_⟩
    · split at he
      · obtain ⟨⟨c, h⟩, _⟩ := he; cases h
      · exact he
    · rw [← hk]; exact hp.val I (P.now (ne t hi))
  | del t l c v h ho hf hk hc hne =>
    have P := S.th t
    have hi : (s.th t).pc.inside = true := by rw [h]; rfl
    have hp := P.pc
    rw [h] at hp
    have hr : (s.mem.leaf l).retired = false := by
      cases hr : (s.mem.leaf l).retired with
      | false => rfl
      | true =>
        have := I.dead.empty l hr
        simp only [Leaf.get, this] at hk
        cases hk
    have hon := hp.on_leaf I hf hr
    refine ⟨⟨by rw [← I.mean.leaf _ l hon, hk], c, by rw [P.cur (ne t hi), ho], hc⟩, ?_⟩
    have := S.assign (t := t) (l := l) (L := { s.mem.leaf l with m := (s.mem.leaf l).m.filter fun e => e.1 != (s.th t).key })
      (p := .out (.removed true)) (ne t hi) hf hon (fun k' hk' => by rw [Leaf.get_erase, if_neg hk'])
      (fun h => by simp only [hr] at h; cases h) (fun h => h) (by simp) rfl
      (fun H => by rw [ho]; exact Nat.le_add_left _ _)
    rw [Leaf.get_erase, if_pos rfl] at this
    exact this
  | delLast t l c v h ho hf hk hc hne =>
    have P := S.th t
    have hi : (s.th t).pc.inside = true := by rw [h]; rfl
    have hp := P.pc
    rw [h] at hp
    have hr : (s.mem.leaf l).retired = false := by
      cases hr : (s.mem.leaf l).retired with
      | false => rfl
      | true =>
        have := I.dead.empty l hr
        simp only [Leaf.get, this] at hk
        cases hk
    have hon := hp.on_leaf I hf hr
    refine ⟨⟨by rw [← I.mean.leaf _ l hon, hk], c, by rw [P.cur (ne t hi), ho], hc⟩, ?_⟩
    have hall : ∀ k', k' ≠ (s.th t).key → (s.mem.leaf l).get k' = none := by
      intro k' hk'
      have := Leaf.get_erase (l := s.mem.leaf l) (k := (s.th t).key) (k' := k')
      rw [if_neg hk', hne] at this
      rw [← this]; rfl
    exact S.assign (t := t) (l := l) (L := { s.mem.leaf l with m := [], retired := true }) (p := .clean)
      (ne t hi) hf hon (fun k' hk' => by rw [hall k' hk']; rfl) (fun _ => rfl) (fun _ => rfl) (by simp) rfl
      (fun H => ⟨⟨c, ho⟩, Nat.le_add_left _ _⟩)
  | fail t l c h ho hk =>
    have P := S.th t
    have hi : (s.th t).pc.inside = true := by rw [h]; rfl
    have hp := P.pc
    rw [h] at hp
    have hv := hp.val I (P.now (ne t hi))
    refine ⟨trivial, S.failed ho hi ?_⟩
    cases hg : (s.mem.leaf l).get (s.th t).key with
    | none => rw [hg] at hv; exact .inl hv
    | some w => rw [hg] at hv; exact .inr ⟨w, hv, hk w hg⟩
  | again t l h ho =>
    have P := S.th t
    have hi : (s.th t).pc.inside = true := by rw [h]; rfl
    exact ⟨trivial, S.go (ne t hi) (by simp) trivial fun _ => P.eff hi⟩
  | back t l n v h ho hn =>
    have P := S.th t
    have hi : (s.th t).pc.inside = true := by rw [h]; rfl
    exact ⟨trivial, S.go (ne t hi) (by simp) (P.vis (ne t hi) n hn) fun _ => P.eff hi⟩
  | cleaned t h =>
    have P := S.th t
    have hp := P.pc
    rw [h] at hp
    obtain ⟨⟨c, ho⟩, he⟩ := hp
    refine ⟨trivial, S.go (by rw [h]; simp) (by simp) ?_ (by simp [Pc.inside])⟩
    rw [ho]
    exact he
  | busy t n h hr hl he =>
    have P := S.th t
    have hp := P.pc
    rw [h] at hp
    have hi : (s.th t).pc ≠ .idle := by rw [h]; simp
    exact ⟨trivial, S.local ⟨(fun h => by cases h), fun _ => P.cur hi, fun _ => P.now hi, fun _ => P.vis hi, trivial, fun _ => hp⟩⟩
  | leave t c h ho hr =>
    have P := S.th t
    have hi : (s.th t).pc.inside = true := by rw [h]; rfl
    have he := P.eff hi
    refine ⟨trivial, S.go (ne t hi) (by simp) ?_ (by simp [Pc.inside])⟩
    rw [ho]
    rw [hr, if_pos rfl] at he
    exact he.2

theorem SInv.step (S : SInv s M) {e : Ev V} (h : Step s e s') : M.ok e ∧ SInv s' (M.next e) := by
  cases h with
  | call h => exact S.call h
  | change h =>
    obtain ⟨src, I⟩ := S.inv
    obtain ⟨src', N, W⟩ := I.change (fun n hn hp => by
      obtain ⟨t, h1, h2⟩ := hn
      exact ((S.th t).vis h1 n h2).lock I hp) h
    exact ⟨trivial, S.change I N.evo W N.inv⟩

theorem Run.inv {es : List (Ev V)} (r : Run s es) : SInv s (mon es) ∧ Legal es := by
  induction r with
  | init => exact ⟨SInv.init, trivial⟩
  | step _ h ih =>
    obtain ⟨h1, h2⟩ := ih.1.step h
    exact ⟨h2, ih.2, h1⟩

/-- **C51.** In every execution of any number of threads on a `TreeIndex`, with all splits and merges they
cause, everything that calls of `insert`, `remove_if` and `peek` do and return agrees with a map. -/
theorem c51_legal {es : List (Ev V)} (r : Run s es) : Legal es := r.inv.2

end Scc.Grove
