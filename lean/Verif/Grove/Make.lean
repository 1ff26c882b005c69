import Verif.Grove.Leaves

/-!
# The nodes that replace a full one
-/

namespace Scc.Grove

local notation "Key" => Nat
local notation "Id" => Nat
local notation "Thr" => Nat

/-- The pointer for a key, in a list of children. -/
def look : List (Key × Ptr) → Ptr → Key → Ptr
  | [], u, _ => u
  | e :: l, u, k => if k ≤ e.1 then e.2 else look l u k

theorem look_mem {l : List (Key × Ptr)} {u : Ptr} {k : Key} : look l u k = u ∨ ∃ e ∈ l, look l u k = e.2 := by
  induction l with
  | nil => exact .inl rfl
  | cons e l ih =>
    simp only [look]
    split
    · exact .inr ⟨e, List.mem_cons_self .., rfl⟩
    · exact ih.imp id fun ⟨e, h1, h2⟩ => ⟨e, List.mem_cons_of_mem _ h1, h2⟩

theorem look_append {l l' : List (Key × Ptr)} {u : Ptr} {k : Key} :
    look (l ++ l') u k = look l (look l' u k) k := by
  induction l with
  | nil => rfl
  | cons e l ih => simp only [List.cons_append, look, ih]

theorem look_above {l : List (Key × Ptr)} {u : Ptr} {k : Key} (h : ∀ e ∈ l, e.1 < k) : look l u k = u := by
  induction l with
  | nil => rfl
  | cons e l ih =>
    have := h e (List.mem_cons_self ..)
    rw [look, if_neg (by omega)]
    exact ih fun e he => h e (List.mem_cons_of_mem _ he)

/-- Numbered children. -/
def numb (s : Nat) (l : List (Key × Ptr)) : List (Key × Nat) := l.mapIdx fun j e => (e.1, j + s + 1)

theorem numb_cons (s : Nat) (e : Key × Ptr) (l : List (Key × Ptr)) :
    numb s (e :: l) = (e.1, s + 1) :: numb (s + 1) l := by
  simp only [numb, List.mapIdx_cons, Nat.zero_add, List.cons.injEq, true_and]
  congr 1
  funext i e
  rw [show i + 1 + s + 1 = i + (s + 1) + 1 by omega]

theorem numb_route (s : Nat) (l : List (Key × Ptr)) (u : Ptr) (k : Key) :
    (route (numb s l) k = 0 ∧ look l u k = u) ∨
    ∃ j e, l[j]? = some e ∧ route (numb s l) k = j + s + 1 ∧ look l u k = e.2 := by
  induction l generalizing s with
  | nil => exact .inl ⟨rfl, rfl⟩
  | cons e l ih =>
    rw [numb_cons, route_cons, look]
    by_cases hk : k ≤ e.1
    · exact .inr ⟨0, e, rfl, by simp [hk], by simp [hk]⟩
    · simp only [hk, if_false]
      rcases ih (s + 1) with h | ⟨j, e', h1, h2, h3⟩
      · exact .inl h
      · exact .inr ⟨j + 1, e', by simpa using h1, by omega, h3⟩

theorem numb_mem {s : Nat} {l : List (Key × Ptr)} {a : Key × Nat} (h : a ∈ numb s l) :
    ∃ j e, l[j]? = some e ∧ a = (e.1, j + s + 1) := by
  induction l generalizing s with
  | nil => simp [numb] at h
  | cons e l ih =>
    rw [numb_cons] at h
    rcases List.mem_cons.1 h with h | h
    · exact ⟨0, e, rfl, by simpa using h⟩
    · obtain ⟨j, e', h1, h2⟩ := ih h
      exact ⟨j + 1, e', by simpa using h1, by rw [h2, show j + (s + 1) + 1 = j + 1 + s + 1 by omega]⟩

theorem numb_keys {s : Nat} {l : List (Key × Ptr)} {a : Key × Nat} (h : a ∈ numb s l) : ∃ e ∈ l, e.1 = a.1 := by
  obtain ⟨j, e, h1, h2⟩ := numb_mem h
  exact ⟨e, List.mem_of_getElem? h1, by rw [h2]⟩

theorem numb_asc {s : Nat} {l : List (Key × Ptr)} (h : l.Pairwise fun a b => a.1 < b.1) : Asc (numb s l) := by
  induction l generalizing s with
  | nil => exact .nil
  | cons e l ih =>
    rw [numb_cons]
    have h := List.pairwise_cons.1 h
    refine List.pairwise_cons.2 ⟨fun a ha => ?_, ih h.2⟩
    obtain ⟨e', h1, h2⟩ := numb_keys ha
    rw [← h2]
    exact h.1 e' h1

theorem numb_nodup {s : Nat} {l : List (Key × Ptr)} : ((numb s l).map Prod.snd).Nodup := by
  induction l generalizing s with
  | nil => simp [numb]
  | cons e l ih =>
    rw [numb_cons, List.map_cons, List.nodup_cons]
    refine ⟨fun h => ?_, ih⟩
    obtain ⟨a, h1, h2⟩ := List.mem_map.1 h
    obtain ⟨j, e', h3, h4⟩ := numb_mem h1
    rw [h4] at h2
    simp at h2
    omega

theorem mkNode_kids {lv : Nat} {l : List (Key × Ptr)} {u : Ptr} : (mkNode lv l u).kids = numb 0 l := rfl

theorem mkNode_dest {lv : Nat} {l : List (Key × Ptr)} {u : Ptr} {k : Key} : (mkNode lv l u).dest k = look l u k := by
  simp only [Node.dest, mkNode_kids]
  rcases numb_route 0 l u k with ⟨h1, h2⟩ | ⟨j, e, h1, h2, h3⟩
  · rw [h1, h2]; rfl
  · rw [h2, h3]
    simp [mkNode, h1]

theorem mkNode_cell {lv : Nat} {l : List (Key × Ptr)} {u : Ptr} {j : Nat} {y : Ref}
    (h : (mkNode lv l u).cell j = .to y) : u = .to y ∨ ∃ e ∈ l, e.2 = .to y := by
  simp only [mkNode] at h
  split at h
  · exact .inl h
  · split at h
    · next e he => exact .inr ⟨e, List.mem_of_getElem? he, h⟩
    · cases h

theorem mkNode_kid {lv : Nat} {l : List (Key × Ptr)} {u : Ptr} {a : Key × Nat} (h : a ∈ (mkNode lv l u).kids) :
    ∃ e ∈ l, (mkNode lv l u).cell a.2 = e.2 ∧ e.1 = a.1 ∧ a.2 ≠ 0 ∧ a.2 < (mkNode lv l u).used := by
  obtain ⟨j, e, h1, h2⟩ := numb_mem (mkNode_kids ▸ h)
  refine ⟨e, List.mem_of_getElem? h1, ?_, by rw [h2], by rw [h2]; simp, ?_⟩
  · rw [h2]
    simp [mkNode, h1]
  · rw [h2]
    simp only [mkNode]
    have := (List.getElem?_eq_some_iff.1 h1).1
    omega

theorem route_congr {l : List (Key × Nat)} {k k' : Key} (h : ∀ e ∈ l, k ≤ e.1 ↔ k' ≤ e.1) :
    route l k = route l k' := by
  induction l with
  | nil => rfl
  | cons e l ih =>
    rw [route_cons, route_cons]
    simp only [h e (List.mem_cons_self ..)]
    rw [ih fun e he => h e (List.mem_cons_of_mem _ he)]

/-- Keys with the same place are on the same side of all bounds. -/
theorem route_eq_iff {l : List (Key × Nat)} {k k' : Key} (hn : (l.map Prod.snd).Nodup) (hp : ∀ e ∈ l, e.2 ≠ 0)
    (ha : Asc l) (h : route l k = route l k') : ∀ e ∈ l, k ≤ e.1 ↔ k' ≤ e.1 := by
  induction l with
  | nil => intro e he; cases he
  | cons e l ih =>
    have hn' := hn
    simp only [List.map_cons, List.nodup_cons, List.mem_map, not_exists, not_and] at hn
    have ha' := List.pairwise_cons.1 ha
    rw [route_cons, route_cons] at h
    have aux : ∀ {k k' : Key}, k ≤ e.1 → ¬ k' ≤ e.1 → e.2 = route l k' → False := by
      intro k k' h1 h2 h3
      rcases route_mem (l := l) (k := k') with h4 | ⟨b, _, h4⟩
      · exact hp e (List.mem_cons_self ..) (h3.trans h4)
      · exact hn.1 _ h4 h3.symm
    by_cases h1 : k ≤ e.1 <;> by_cases h2 : k' ≤ e.1
    · intro e' he'
      rcases List.mem_cons.1 he' with rfl | he'
      · simp [h1, h2]
      · have := ha'.1 e' he'
        constructor <;> intro <;> omega
    · rw [if_pos h1, if_neg h2] at h
      exact (aux h1 h2 h).elim
    · rw [if_neg h1, if_pos h2] at h
      exact (aux h2 h1 h.symm).elim
    · rw [if_neg h1, if_neg h2] at h
      intro e' he'
      rcases List.mem_cons.1 he' with rfl | he'
      · simp [h1, h2]
      · exact ih hn.2 (fun e he => hp e (List.mem_cons_of_mem _ he)) ha'.2 h e' he'

/-! ## The list of new children -/

variable {M : Node} {i : Nat} {xl xh : Ref} {mid : Key}

/-- Where `xl` and `xh` go. -/
def grow1 (M : Node) (i : Nat) (xl xh : Ref) (mid : Key) (e : Key × Nat) : List (Key × Ptr) :=
  if e.2 = i then [(mid, .to xl), (e.1, .to xh)] else [(e.1, M.cell e.2)]

theorem expand_eq : M.expand i xl xh mid = ((M.kids.flatMap (grow1 M i xl xh mid)) ++
    (if i = 0 then [(mid, .to xl)] else []), if i = 0 then .to xh else M.cell 0) := rfl

/-- Pointers to the new children. -/
def subst (M : Node) (i : Nat) (xl xh : Ref) (mid : Key) (k : Key) : Ptr :=
  if route M.kids k = i then (if k ≤ mid then .to xl else .to xh) else M.dest k

theorem look_expand (hp : ∀ e ∈ M.kids, e.2 ≠ 0) (hmid : ∀ b, (b, i) ∈ M.kids → mid ≤ b)
    (hn : (M.kids.map Prod.snd).Nodup) (hi : i ∈ M.slots) (k : Key) :
    look (M.expand i xl xh mid).1 (M.expand i xl xh mid).2 k = subst M i xl xh mid k := by
  rw [expand_eq]
  simp only [subst, Node.dest]
  -- the bounded children
  have key : ∀ (l : List (Key × Nat)) (u : Ptr), l ⊆ M.kids → (l.map Prod.snd).Nodup →
      look (l.flatMap (grow1 M i xl xh mid)) u k =
        if (∃ e ∈ l, k ≤ e.1) then
          (if route l k = i then (if k ≤ mid then .to xl else .to xh) else M.cell (route l k))
        else u := by
    intro l u hl hn
    induction l with
    | nil => simp [look]
    | cons e l ih =>
      have hs : l ⊆ M.kids := fun a ha => hl (List.mem_cons_of_mem _ ha)
      have he : e ∈ M.kids := hl (List.mem_cons_self ..)
      have hn' : (l.map Prod.snd).Nodup := (List.nodup_cons.1 (by simpa using hn)).2
      rw [List.flatMap_cons, look_append, ih hs hn', route_cons]
      by_cases hk : k ≤ e.1
      · rw [if_pos (c := ∃ e' ∈ e :: l, k ≤ e'.1) ⟨e, List.mem_cons_self .., hk⟩, if_pos hk]
        simp only [grow1]
        by_cases hi : e.2 = i
        · simp only [hi, if_true, look]
          by_cases hm : k ≤ mid
          · simp [hm]
          · simp [hm, hk]
        · simp only [hi, if_false, look, hk, if_true]
      · have hg : ∀ a ∈ grow1 M i xl xh mid e, a.1 < k := by
          intro a ha
          simp only [grow1] at ha
          split at ha
          · next h =>
            have := hmid e.1 (by rw [← h]; exact he)
            simp only [List.mem_cons, List.not_mem_nil, or_false] at ha
            rcases ha with rfl | rfl
            · show mid < k; omega
            · show e.1 < k; omega
          · simp only [List.mem_cons, List.not_mem_nil, or_false] at ha
            subst ha
            show e.1 < k
            omega
        rw [look_above hg]
        have e1 : (∃ e' ∈ e :: l, k ≤ e'.1) ↔ ∃ e' ∈ l, k ≤ e'.1 := by
          constructor
          · rintro ⟨e', h1, h2⟩
            rcases List.mem_cons.1 h1 with rfl | h1
            · exact absurd h2 hk
            · exact ⟨e', h1, h2⟩
          · rintro ⟨e', h1, h2⟩
            exact ⟨e', List.mem_cons_of_mem _ h1, h2⟩
        simp only [e1, if_neg hk]
  rw [look_append, key M.kids _ (fun _ h => h) hn]
  by_cases hk : ∃ e ∈ M.kids, k ≤ e.1
  · rw [if_pos hk]
  · rw [if_neg hk]
    have h0 : route M.kids k = 0 := route_above fun e he => by
      have : ¬ k ≤ e.1 := fun h => hk ⟨e, he, h⟩
      omega
    rw [h0]
    by_cases hi : i = 0
    · subst hi
      simp [look]
    · simp [hi, look, Ne.symm hi]

/-- The keys of the new children. -/
theorem expand_keys {a : Key × Ptr} (h : a ∈ (M.expand i xl xh mid).1) :
    (a.1 = mid ∨ ∃ e ∈ M.kids, e.1 = a.1) ∧
    (a.2 = .to xl ∨ a.2 = .to xh ∨ ∃ e ∈ M.kids, e.2 ≠ i ∧ a.2 = M.cell e.2) := by
  rw [expand_eq] at h
  rcases List.mem_append.1 h with h | h
  · obtain ⟨e, he, h⟩ := List.mem_flatMap.1 h
    simp only [grow1] at h
    split at h
    · simp only [List.mem_cons, List.not_mem_nil, or_false] at h
      rcases h with rfl | rfl
      · exact ⟨.inl rfl, .inl rfl⟩
      · exact ⟨.inr ⟨e, he, rfl⟩, .inr (.inl rfl)⟩
    · next hi =>
      simp only [List.mem_cons, List.not_mem_nil, or_false] at h
      subst h
      exact ⟨.inr ⟨e, he, rfl⟩, .inr (.inr ⟨e, he, hi, rfl⟩)⟩
  · split at h
    · simp only [List.mem_cons, List.not_mem_nil, or_false] at h
      subst h
      exact ⟨.inl rfl, .inl rfl⟩
    · cases h

theorem expand_top : (M.expand i xl xh mid).2 = .to xh ∧ i = 0 ∨
    i ≠ 0 ∧ (M.expand i xl xh mid).2 = M.cell 0 := by
  rw [expand_eq]
  by_cases h : i = 0
  · exact .inl ⟨by simp [h], h⟩
  · exact .inr ⟨h, by simp [h]⟩

/-- They ascend. -/
theorem expand_asc (ha : Asc M.kids) (hn : (M.kids.map Prod.snd).Nodup) (hp : ∀ e ∈ M.kids, e.2 ≠ 0)
    (hlow : route M.kids mid = i) (hmid : ∀ b, (b, i) ∈ M.kids → mid < b) :
    (M.expand i xl xh mid).1.Pairwise fun a b => a.1 < b.1 := by
  rw [expand_eq]
  simp only
  -- bounds of other children
  have key : ∀ l : List (Key × Nat), l ⊆ M.kids → Asc l → (l.map Prod.snd).Nodup →
      (∀ e ∈ l, e.2 = i → route l mid = i) →
      (l.flatMap (grow1 M i xl xh mid)).Pairwise fun a b => a.1 < b.1 := by
    intro l hl ha hn hr
    induction l with
    | nil => exact .nil
    | cons e l ih =>
      have ha' := List.pairwise_cons.1 ha
      simp only [List.map_cons, List.nodup_cons, List.mem_map, not_exists, not_and] at hn
      have hs : l ⊆ M.kids := fun a ha => hl (List.mem_cons_of_mem _ ha)
      have he : e ∈ M.kids := hl (List.mem_cons_self ..)
      have hr' : ∀ e' ∈ l, e'.2 = i → e.1 < mid ∧ route l mid = i := by
        intro e' he' h
        have := hr e' (List.mem_cons_of_mem _ he') h
        rw [route_cons] at this
        split at this
        · exact absurd (h.trans this.symm) (hn.1 _ he')
        · exact ⟨by omega, this⟩
      rw [List.flatMap_cons]
      refine List.pairwise_append.2 ⟨?_, ih hs ha'.2 hn.2 (fun e' h1 h2 => (hr' e' h1 h2).2), fun a h1 b h2 => ?_⟩
      · simp only [grow1]
        split
        · next h =>
          have := hmid e.1 (by rw [← h]; exact he)
          simpa using this
        · simp
      · obtain ⟨e', he', h2⟩ := List.mem_flatMap.1 h2
        have h3 := ha'.1 e' he'
        have hb : b.1 = e'.1 ∨ b.1 = mid ∧ e'.2 = i := by
          simp only [grow1] at h2
          split at h2
          · next h =>
            simp only [List.mem_cons, List.not_mem_nil, or_false] at h2
            rcases h2 with rfl | rfl
            · exact .inr ⟨rfl, h⟩
            · exact .inl rfl
          · simp only [List.mem_cons, List.not_mem_nil, or_false] at h2
            subst h2; exact .inl rfl
        have ha1 : a.1 = e.1 ∨ a.1 = mid ∧ e.2 = i := by
          simp only [grow1] at h1
          split at h1
          · next h =>
            simp only [List.mem_cons, List.not_mem_nil, or_false] at h1
            rcases h1 with rfl | rfl
            · exact .inr ⟨rfl, h⟩
            · exact .inl rfl
          · simp only [List.mem_cons, List.not_mem_nil, or_false] at h1
            subst h1; exact .inl rfl
        rcases ha1 with ha1 | ⟨ha1, ha2⟩
        · rcases hb with hb | ⟨hb, hb2⟩
          · omega
          · have := (hr' e' he' hb2).1; omega
        · have h4 := hmid e.1 (by rw [← ha2]; exact he)
          rcases hb with hb | ⟨hb, hb2⟩
          · omega
          · exact absurd (hb2.trans ha2.symm) (hn.1 _ he')
  have h1 := key M.kids (fun _ h => h) ha hn (fun _ _ _ => hlow)
  by_cases hi : i = 0
  · subst hi
    refine List.pairwise_append.2 ⟨h1, by simp, fun a h2 b h3 => ?_⟩
    simp only [if_true, List.mem_cons, List.not_mem_nil, or_false] at h3
    subst h3
    obtain ⟨e', he', h2⟩ := List.mem_flatMap.1 h2
    simp only [grow1, hp e' he', if_false, List.mem_cons, List.not_mem_nil, or_false] at h2
    subst h2
    exact route_zero hp hlow e' he'
  · simpa [hi] using h1

/-- Cut in two. -/
theorem look_cut {pre post : List (Key × Ptr)} {b : Key} {q u : Ptr} {k : Key}
    (ha : (pre ++ (b, q) :: post).Pairwise fun a b => a.1 < b.1) :
    look (pre ++ (b, q) :: post) u k = if k ≤ b then look pre q k else look post u k := by
  rw [look_append, look]
  by_cases hk : k ≤ b
  · simp [hk]
  · simp only [hk, if_false]
    refine look_above fun e he => ?_
    have := (List.pairwise_append.1 ha).2.2 e he _ (List.mem_cons_self ..)
    simp only at this
    omega

end Scc.Grove
