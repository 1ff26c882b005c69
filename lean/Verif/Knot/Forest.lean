import Verif.Knot.Model

/-! # A chain of full nodes is replaced by copies -/

namespace Scc.Knot

theorem mem_subst {ks : List Nat} {x l h d : Nat} :
    d ∈ subst ks x l h ↔ (d ∈ ks ∧ d ≠ x) ∨ (x ∈ ks ∧ (d = l ∨ d = h)) := by
  rw [subst, List.mem_flatMap]
  constructor
  · rintro ⟨e, he, hd⟩
    split at hd
    · rename_i h'; subst h'
      refine .inr ⟨he, ?_⟩
      simp only [List.mem_cons, List.not_mem_nil, or_false] at hd
      exact hd
    · rename_i h'
      rw [List.mem_singleton] at hd
      subst hd
      exact .inl ⟨he, h'⟩
  · rintro (⟨h1, h2⟩ | ⟨h1, h2⟩)
    · exact ⟨d, h1, by rw [if_neg h2]; exact List.mem_singleton.mpr rfl⟩
    · refine ⟨x, h1, ?_⟩
      rw [if_pos rfl]
      simp only [List.mem_cons, List.not_mem_nil, or_false]
      exact h2

theorem nodup_subst {ks : List Nat} {x l h : Nat} (hn : ks.Nodup) (hl : l ∉ ks) (hh : h ∉ ks) (hlh : l ≠ h) :
    (subst ks x l h).Nodup := by
  induction ks with
  | nil => exact List.nodup_nil
  | cons a ks ih =>
    obtain ⟨h1, h2⟩ := List.nodup_cons.mp hn
    have hl' := fun h => hl (List.mem_cons_of_mem a h)
    have hh' := fun h => hh (List.mem_cons_of_mem a h)
    have ih := ih h2 hl' hh'
    have e : subst (a :: ks) x l h = (if a = x then [l, h] else [a]) ++ subst ks x l h := rfl
    rw [e, List.nodup_append]
    refine ⟨?_, ih, ?_⟩
    · split
      · simp [hlh]
      · simp
    · intro b hb c hc e
      subst e
      rw [mem_subst] at hc
      split at hb
      · rename_i ex; subst ex
        simp only [List.mem_cons, List.not_mem_nil, or_false] at hb
        rcases hc with hc | hc
        · rcases hb with hb | hb
          · exact hl' (hb ▸ hc.1)
          · exact hh' (hb ▸ hc.1)
        · exact h1 hc.1
      · rw [List.mem_singleton] at hb
        subst hb
        rcases hc with hc | hc
        · exact h1 hc.1
        · rcases hc.2 with e | e
          · exact hl (e ▸ List.mem_cons_self)
          · exact hh (e ▸ List.mem_cons_self)

/-- Each node of a chain is a child of the one before. -/
def Chain (kids : Nat → List Nat) (ch : List Nat) : Prop :=
  ∀ (j y z : Nat), ch[j]? = some y → ch[j + 1]? = some z → z ∈ kids y

theorem Chain.cons {kids : Nat → List Nat} {p x : Nat} {sub : List Nat} (h : Chain kids (x :: sub)) (hp : x ∈ kids p) :
    Chain kids (p :: x :: sub) := by
  intro j y z h1 h2
  cases j with
  | zero =>
    simp only [List.getElem?_cons_zero, Option.some.injEq] at h1
    simp only [Nat.zero_add, List.getElem?_cons_succ, List.getElem?_cons_zero, Option.some.injEq] at h2
    subst h1; subst h2; exact hp
  | succ j =>
    rw [List.getElem?_cons_succ] at h1 h2
    exact h j y z h1 h2

theorem Chain.mem {kids : Nat → List Nat} {x : Nat} {sub : List Nat} (h : Chain kids (x :: sub)) {d : Nat} (hd : d ∈ x :: sub) :
    d = x ∨ ∃ j y : Nat, (x :: sub)[j]? = some y ∧ (x :: sub)[j + 1]? = some d ∧ d ∈ kids y := by
  obtain ⟨k, hk⟩ := List.getElem?_of_mem hd
  cases k with
  | zero =>
    simp only [List.getElem?_cons_zero, Option.some.injEq] at hk
    exact .inl hk.symm
  | succ j =>
    have hj : j < (x :: sub).length := by
      have := (List.getElem?_eq_some_iff.mp hk).1
      omega
    exact .inr ⟨j, (x :: sub)[j], List.getElem?_eq_getElem hj, hk, h j _ d (List.getElem?_eq_getElem hj) hk⟩

/-- What the children of a copy are. -/
theorem parts_mem {K g : Nat → List Nat} {ch : List Nat} {b : Nat} (h : Parts K g ch b) :
    ∀ i e d, i < ch.length → e < 2 → d ∈ g (b + 2 * i + e) → ∃ x, ch[i]? = some x ∧
      ((d ∈ K x ∧ ch[i + 1]? ≠ some d) ∨ ∃ y, ch[i + 1]? = some y ∧ y ∈ K x ∧ (d = b + 2 * (i + 1) ∨ d = b + 2 * (i + 1) + 1)) := by
  induction ch generalizing b with
  | nil => intro i e d hi; exact absurd hi (Nat.not_lt_zero _)
  | cons x ch ih =>
    cases ch with
    | nil =>
      intro i e d hi he hd
      have hi : i < 0 + 1 := hi
      have : i = 0 := by omega
      subst this
      have h : g b = [] ∧ g (b + 1) = [] := h
      have : e = 0 ∨ e = 1 := by omega
      rcases this with e0 | e0
      · subst e0
        have hd : d ∈ g b := hd
        rw [h.1] at hd; cases hd
      · subst e0
        have hd : d ∈ g (b + 1) := hd
        rw [h.2] at hd; cases hd
    | cons y rest =>
      have h : g b ++ g (b + 1) = subst (K x) y (b + 2) (b + 3) ∧ Parts K g (y :: rest) (b + 2) := h
      intro i e d hi he hd
      cases i with
      | zero =>
        have hm : d ∈ g b ++ g (b + 1) := by
          have : e = 0 ∨ e = 1 := by omega
          rcases this with e0 | e0
          · subst e0; exact List.mem_append_left _ hd
          · subst e0; exact List.mem_append_right _ hd
        rw [h.1, mem_subst] at hm
        refine ⟨x, rfl, ?_⟩
        rcases hm with ⟨h1, h2⟩ | ⟨h1, h2⟩
        · refine .inl ⟨h1, ?_⟩
          intro e
          injection e with e
          exact h2 e.symm
        · exact .inr ⟨y, rfl, h1, by omega⟩
      | succ i =>
        have hi : i + 1 < (y :: rest).length + 1 := hi
        have := ih h.2 i e d (by omega) he (by
          have e1 : b + 2 + 2 * i + e = b + 2 * (i + 1) + e := by omega
          rw [e1]; exact hd)
        obtain ⟨z, h1, h2⟩ := this
        refine ⟨z, h1, ?_⟩
        rcases h2 with h2 | ⟨w, h2, h3, h4⟩
        · exact .inl h2
        · exact .inr ⟨w, h2, h3, by omega⟩

/-- Two copies of one node have no child in common. -/
theorem parts_nodup {K g : Nat → List Nat} {ch : List Nat} {b c : Nat} (h : Parts K g ch b) (hb : c ≤ b)
    (hn : ∀ x, x ∈ ch → (K x).Nodup) (hl : ∀ x d, x ∈ ch → d ∈ K x → d < c) :
    ∀ i, i < ch.length → (g (b + 2 * i) ++ g (b + 2 * i + 1)).Nodup := by
  induction ch generalizing b with
  | nil => intro i hi; exact absurd hi (Nat.not_lt_zero _)
  | cons x ch ih =>
    cases ch with
    | nil =>
      intro i hi
      have hi : i < 0 + 1 := hi
      have : i = 0 := by omega
      subst this
      have h : g b = [] ∧ g (b + 1) = [] := h
      show (g b ++ g (b + 1)).Nodup
      rw [h.1, h.2]
      exact List.nodup_nil
    | cons y rest =>
      have h : g b ++ g (b + 1) = subst (K x) y (b + 2) (b + 3) ∧ Parts K g (y :: rest) (b + 2) := h
      intro i hi
      cases i with
      | zero =>
        show (g b ++ g (b + 1)).Nodup
        rw [h.1]
        refine nodup_subst (hn x List.mem_cons_self) ?_ ?_ (by omega)
        · intro h'; have := hl x _ List.mem_cons_self h'; omega
        · intro h'; have := hl x _ List.mem_cons_self h'; omega
      | succ i =>
        have hi : i + 1 < (y :: rest).length + 1 := hi
        have := ih h.2 (by omega) (fun x h => hn x (List.mem_cons_of_mem _ h)) (fun x d h => hl x d (List.mem_cons_of_mem _ h)) i (by omega)
        have e1 : b + 2 + 2 * i = b + 2 * (i + 1) := by omega
        rw [e1] at this
        exact this

theorem Parts.congr {K K' g : Nat → List Nat} {ch : List Nat} {b : Nat} (h : Parts K g ch b) (hk : ∀ x, x ∈ ch → K' x = K x) :
    Parts K' g ch b := by
  induction ch generalizing b with
  | nil => trivial
  | cons x ch ih =>
    cases ch with
    | nil => exact h
    | cons y rest =>
      have h : g b ++ g (b + 1) = subst (K x) y (b + 2) (b + 3) ∧ Parts K g (y :: rest) (b + 2) := h
      refine ⟨?_, ih h.2 (fun x h => hk x (List.mem_cons_of_mem _ h))⟩
      rw [hk x List.mem_cons_self]
      exact h.1

/-- The nodes in use form a forest. -/
structure Forest (K : Nat → List Nat) (L : Nat → Bool) (b : Nat) : Prop where
  lt : ∀ n d, d ∈ K n → d < b
  tree : ∀ p q d, L p = true → L q = true → d ∈ K p → d ∈ K q → p = q
  nodup : ∀ p, L p = true → (K p).Nodup
  live : ∀ p d, L p = true → d ∈ K p → L d = true

/-- After the copies have been put in place of the first node of the chain, which is a child of `p`. -/
def after (K g : Nat → List Nat) (x : Nat) (sub : List Nat) (p b : Nat) : Nat → List Nat := fun n =>
  if n = p then subst (K p) x b (b + 1) else if b ≤ n ∧ n < b + 2 * (x :: sub).length then g n else K n

/-- The node a node is a copy of, or the node itself. -/
def org (ch : List Nat) (b n : Nat) : Nat := if n < b then n else ch[(n - b) / 2]?.getD 0

section
variable {K g : Nat → List Nat} {L : Nat → Bool} {x : Nat} {sub : List Nat} {p b : Nat}

theorem org_old {ch : List Nat} {n : Nat} (h : n < b) : org ch b n = n := if_pos h

theorem org_new {ch : List Nat} {i e y : Nat} (he : e < 2) (h : ch[i]? = some y) : org ch b (b + 2 * i + e) = y := by
  have e1 : (b + 2 * i + e - b) / 2 = i := by omega
  rw [org, if_neg (by omega), e1, h]
  rfl

theorem after_mem (F : Forest K L b) (hch : Chain K (x :: sub)) (hnd : (x :: sub).Nodup) (hlive : ∀ n, n ∈ x :: sub → L n = true)
    (hp : p < b) (hpn : p ∉ x :: sub) (hpl : L p = true) (hx : x ∈ K p) (hg : Parts K g (x :: sub) b) (hK : ∀ n, b ≤ n → K n = [])
    {q d : Nat} (hq : L q = true) (hqn : q ∉ x :: sub) (hd : d ∈ after K g x sub p b q) :
    L (org (x :: sub) b q) = true ∧ org (x :: sub) b d ∈ K (org (x :: sub) b q) ∧ d < b + 2 * (x :: sub).length ∧ (d < b → d ∉ x :: sub) := by
  have hxb : x < b := F.lt p x hx
  -- where a node of the chain is a child
  have par : ∀ w d, L w = true → d ∈ K w → d ∈ x :: sub →
      (d = x ∧ w = p) ∨ ∃ j : Nat, (x :: sub)[j]? = some w ∧ (x :: sub)[j + 1]? = some d := by
    intro w d hw hd hm
    rcases hch.mem hm with e | ⟨j, y, h1, h2, h3⟩
    · exact .inl ⟨e, F.tree _ _ _ hw hpl hd (e ▸ hx)⟩
    · have hy := hlive y (List.mem_of_getElem? h1)
      have := F.tree _ _ _ hw hy hd h3
      subst this
      exact .inr ⟨j, h1, h2⟩
  have hlen : 0 < (x :: sub).length := Nat.succ_pos _
  rw [after] at hd
  split at hd
  · rename_i e; subst e
    rw [org_old hp]
    refine ⟨hpl, ?_⟩
    rcases mem_subst.mp hd with ⟨h1, h2⟩ | ⟨h1, h2⟩
    · have hlt := F.lt _ _ h1
      rw [org_old hlt]
      refine ⟨h1, by omega, ?_⟩
      intro _ hm
      rcases par q d hq h1 hm with h | ⟨j, h, _⟩
      · exact h2 h.1
      · exact hpn (List.mem_of_getElem? h)
    · have e1 : org (x :: sub) b d = x := by
        rcases h2 with h2 | h2
        · subst h2; exact org_new (i := 0) (e := 0) (by omega) rfl
        · subst h2; exact org_new (i := 0) (e := 1) (by omega) rfl
      rw [e1]
      exact ⟨hx, by omega, fun h => by omega⟩
  · rename_i hqp
    split at hd
    · rename_i hr
      obtain ⟨hr1, hr2⟩ := hr
      have eq : b + 2 * ((q - b) / 2) + (q - b) % 2 = q := by omega
      have hi : (q - b) / 2 < (x :: sub).length := by omega
      have he : (q - b) % 2 < 2 := by omega
      generalize (q - b) / 2 = i at eq hi
      generalize (q - b) % 2 = e at eq he
      subst eq
      obtain ⟨y, h1, h2⟩ := parts_mem hg i e d hi he hd
      have hyl := hlive y (List.mem_of_getElem? h1)
      rw [org_new he h1]
      refine ⟨hyl, ?_⟩
      rcases h2 with ⟨h2, h3⟩ | ⟨z, h2, h3, h4⟩
      · have hlt := F.lt _ _ h2
        rw [org_old hlt]
        refine ⟨h2, by omega, ?_⟩
        intro _ hm
        rcases par y d hyl h2 hm with h | ⟨j, h, h'⟩
        · exact hpn (h.2 ▸ List.mem_of_getElem? h1)
        · have : i = j := (List.getElem?_inj hi hnd).mp (h1.trans h.symm)
          subst this
          exact h3 h'
      · have hlt := (List.getElem?_eq_some_iff.mp h2).1
        have e1 : org (x :: sub) b d = z := by
          rcases h4 with h4 | h4
          · subst h4; exact org_new (i := i + 1) (e := 0) (by omega) h2
          · subst h4; exact org_new (i := i + 1) (e := 1) (by omega) h2
        rw [e1]
        exact ⟨h3, by omega, fun h => by omega⟩
    · rename_i hr
      have hqb : q < b := by
        refine Nat.lt_of_not_le (fun h => ?_)
        rw [hK q h] at hd
        cases hd
      have hlt := F.lt _ _ hd
      rw [org_old hqb, org_old hlt]
      refine ⟨hq, hd, by omega, ?_⟩
      intro _ hm
      rcases par q d hq hd hm with h | ⟨j, h, h'⟩
      · exact hqp h.2
      · exact hqn (List.mem_of_getElem? h)

theorem Forest.after (F : Forest K L b) (hch : Chain K (x :: sub)) (hnd : (x :: sub).Nodup) (hlive : ∀ n, n ∈ x :: sub → L n = true)
    (hp : p < b) (hpn : p ∉ x :: sub) (hpl : L p = true) (hx : x ∈ K p) (hg : Parts K g (x :: sub) b) (hK : ∀ n, b ≤ n → K n = [])
    (hL : ∀ n, b ≤ n → L n = true) :
    (∀ q d, L q = true → q ∉ x :: sub → d ∈ Knot.after K g x sub p b q → d < b + 2 * (x :: sub).length ∧ L d = true ∧ d ∉ x :: sub) ∧
    (∀ q q' d, L q = true → q ∉ x :: sub → L q' = true → q' ∉ x :: sub → d ∈ Knot.after K g x sub p b q → d ∈ Knot.after K g x sub p b q' → q = q') ∧
    (∀ q, L q = true → q ∉ x :: sub → (Knot.after K g x sub p b q).Nodup) := by
  have M := @after_mem K g L x sub p b F hch hnd hlive hp hpn hpl hx hg hK
  have chlt : ∀ n, n ∈ x :: sub → n < b := by
    intro n hn
    rcases hch.mem hn with e | ⟨j, y, _, _, h⟩
    · rw [e]; exact F.lt p x hx
    · exact F.lt _ _ h
  have N := parts_nodup hg (Nat.le_refl b) (fun x h => F.nodup x (hlive x h)) (fun x d _ => F.lt x d)
  refine ⟨?_, ?_, ?_⟩
  · intro q d hq hqn hd
    obtain ⟨h1, h2, h3, h4⟩ := M hq hqn hd
    refine ⟨h3, ?_, ?_⟩
    · by_cases hb : d < b
      · rw [org_old hb] at h2
        exact F.live _ _ h1 h2
      · exact hL d (by omega)
    · intro hm; exact h4 (chlt d hm) hm
  · intro q q' d hq hqn hq' hqn' hd hd'
    obtain ⟨h1, h2, h3, h4⟩ := M hq hqn hd
    obtain ⟨h1', h2', _, _⟩ := M hq' hqn' hd'
    have e := F.tree _ _ _ h1 h1' h2 h2'
    -- a copy that has children
    have new : ∀ w, b ≤ w → d ∈ Knot.after K g x sub p b w → w < b + 2 * (x :: sub).length := by
      intro w hw hd
      rw [Knot.after, if_neg (by omega)] at hd
      split at hd
      · rename_i h; exact h.2
      · rw [hK w hw] at hd; cases hd
    have inch : ∀ w, b ≤ w → d ∈ Knot.after K g x sub p b w → (x :: sub)[(w - b) / 2]? = some (org (x :: sub) b w) := by
      intro w hw hd
      have h := new w hw hd
      have hi : (w - b) / 2 < (x :: sub).length := by omega
      rw [org, if_neg (by omega), List.getElem?_eq_getElem hi]
      rfl
    by_cases hb : q < b
    · by_cases hb' : q' < b
      · rw [org_old hb, org_old hb'] at e; exact e
      · have := inch q' (by omega) hd'
        rw [← e, org_old hb] at this
        exact absurd (List.mem_of_getElem? this) hqn
    · by_cases hb' : q' < b
      · have := inch q (by omega) hd
        rw [e, org_old hb'] at this
        exact absurd (List.mem_of_getElem? this) hqn'
      · have i1 := inch q (by omega) hd
        have i2 := inch q' (by omega) hd'
        rw [← e] at i2
        have hn := new q (by omega) hd
        have hn' := new q' (by omega) hd'
        have hi : (q - b) / 2 < (x :: sub).length := by omega
        have ei : (q - b) / 2 = (q' - b) / 2 := (List.getElem?_inj hi hnd).mp (i1.trans i2.symm)
        have nd := N _ hi
        rw [List.nodup_append] at nd
        rw [Knot.after, if_neg (by omega), if_pos ⟨by omega, hn⟩] at hd
        rw [Knot.after, if_neg (by omega), if_pos ⟨by omega, hn'⟩] at hd'
        have a : q = b + 2 * ((q - b) / 2) ∨ q = b + 2 * ((q - b) / 2) + 1 := by omega
        have a' : q' = b + 2 * ((q - b) / 2) ∨ q' = b + 2 * ((q - b) / 2) + 1 := by omega
        rcases a with a | a <;> rcases a' with a' | a'
        · omega
        · rw [a] at hd; rw [a'] at hd'; exact absurd rfl (nd.2.2 d hd d hd')
        · rw [a] at hd; rw [a'] at hd'; exact absurd rfl (nd.2.2 d hd' d hd)
        · omega
  · intro q hq hqn
    rw [Knot.after]
    split
    · refine nodup_subst (F.nodup p hpl) ?_ ?_ (by omega)
      · intro h; have := F.lt _ _ h; omega
      · intro h; have := F.lt _ _ h; omega
    · split
      · rename_i hr
        obtain ⟨hr1, hr2⟩ := hr
        have hi : (q - b) / 2 < (x :: sub).length := by omega
        have nd := N _ hi
        rw [List.nodup_append] at nd
        have a : q = b + 2 * ((q - b) / 2) ∨ q = b + 2 * ((q - b) / 2) + 1 := by omega
        rcases a with a | a
        · rw [a]; exact nd.1
        · rw [a]; exact nd.2.1
      · exact F.nodup q hq

end

end Scc.Knot
