import Verif.Grove.Lemmas

/-!
# Search paths after something was replaced
-/

namespace Scc.Grove

local notation "Key" => Nat
local notation "Id" => Nat
local notation "Thr" => Nat

variable {V : Type} {R R' : Option Id} {N N' : Id → Node} {L L' : Id → Leaf V} {F F' : Id → Bool}
  {D D' : Ref → Bool} {nN nL nN' nL' : Nat} {J : Job} {fil : Key → Prop} {d : Bool} {src : Ref → Ref} {A : Key → Option V}
  {ph ph' : Id → Phase} {u : Id} {T E : Key → Prop}

/-- The search paths of the keys with `T` now lead from `u` to the new objects of `J`. `E` are the keys whose
paths meet `u`. -/
structure Flow (R R' : Option Id) (N N' : Id → Node) (u : Id) (T E : Key → Prop) (J : Job) : Prop where
  other : ∀ n, n ≠ u → N' n = N n
  upper : ∀ k, On R' N' k (.node u) ↔ E k
  keep : ∀ k, E k → ¬ T k → route (N' u).kids k = route (N u).kids k ∧ (N' u).dest k = (N u).dest k ∧
    On R N k (.node u)
  new : ∀ k, T k → (N' u).dest k = .to (J.side k)
  slot : ∀ k k', E k → E k' → T k → T k' → J.side k = J.side k' →
    route (N' u).kids k = route (N' u).kids k'
  to : ∀ k z, On R N k z → (T k → z ∉ J.ch) → On R' N' k z
  add : ∀ k x y, T k → E k → Pair N k J.x (J.side k) x y → On R' N' k y
  of : ∀ k z, On R' N' k z → z ≠ .node u → (On R N k z ∧ (T k → z ∉ J.ch)) ∨
    (T k ∧ E k ∧ ∃ x, On R N k x ∧ Pair N k J.x (J.side k) x z)
  cl : ∀ k x k2, T k → E k → x ∈ J.ch → On R N k2 x → J.side k2 = J.side k → T k2 ∧ E k2
  notin : .node u ∉ J.ch

/-- The old objects of a pair, if they are nodes. -/
theorem JobOk.node_pair (O : JobOk R N L F D nN nL src J fil d) {k : Key} {x : Ref} {n : Id} (hk : fil k)
    (h : Pair N k J.x (J.side k) x (.node n)) : ∃ c w w', x = .node c ∧ (N c).dest k = .to w ∧
      (N n).dest k = .to w' ∧ ((w = w' ∧ w ∉ J.ch) ∨ Pair N k J.x (J.side k) w w') := by
  have P := O.pair k _ _ hk h
  have hs := P.same
  cases x with
  | leaf l => simp [Match] at hs
  | node c =>
    obtain ⟨⟨w, w', g1, g2, g3⟩, _⟩ := hs
    refine ⟨c, w, w', rfl, g1, g2, ?_⟩
    by_cases he : w = w'
    · exact .inl ⟨he, g3 he⟩
    · exact .inr (.step h g1 g2 he)

/-- Where a pointer on a search path comes from. -/
theorem Flow.edge (W : Flow R R' N N' u T E J) (O : JobOk R N L F D nN nL src J fil d)
    (hT : ∀ k, T k → E k → fil k) {k : Key} {q : Id} {z : Ref}
    (ho : On R' N' k (.node q)) (hd : (N' q).dest k = .to z) :
    (On R N k (.node q) ∧ (N q).dest k = .to z ∧ route (N q).kids k = route (N' q).kids k ∧
      (.node q ∈ J.ch → ¬ T k)) ∨
    (q = u ∧ T k ∧ E k ∧ z = J.side k) ∨
    (T k ∧ E k ∧ ∃ c w, On R N k (.node c) ∧ Pair N k J.x (J.side k) (.node c) (.node q) ∧
      (N c).dest k = .to w ∧ (N q).dest k = .to z ∧ route (N q).kids k = route (N' q).kids k ∧
      ((w = z ∧ w ∉ J.ch) ∨ Pair N k J.x (J.side k) w z)) := by
  by_cases hq : q = u
  · subst hq
    have hE := (W.upper k).1 ho
    by_cases hk : T k
    · refine .inr (.inl ⟨rfl, hk, hE, ?_⟩)
      rw [W.new k hk] at hd
      cases hd; rfl
    · obtain ⟨h1, h2, h3⟩ := W.keep k hE hk
      exact .inl ⟨h3, by rw [← h2, hd], h1.symm, fun h => absurd h W.notin⟩
  · have hN := W.other q hq
    rw [hN] at hd
    rcases W.of k _ ho (by simpa using hq) with ⟨h1, h2⟩ | ⟨h1, h2, x, h3, h4⟩
    · exact .inl ⟨h1, hd, by rw [hN], fun hm ht => h2 ht hm⟩
    · obtain ⟨c, w, w', rfl, g1, g2, g3⟩ := O.node_pair (hT k h1 h2) h4
      rw [hd] at g2
      cases g2
      exact .inr (.inr ⟨h1, h2, c, w, h3, h4, g1, hd, by rw [hN], g3⟩)

theorem Flow.mean (W : Flow R R' N N' u T E J) (O : JobOk R N L F D nN nL src J fil d)
    (hT : ∀ k, T k → E k → fil k) (M : Mean R N L A) (hR : R' ≠ none)
    (hL : ∀ l, (L' l).m = (L l).m) : Mean R' N' L' A := by
  have hg : ∀ l k, (L' l).get k = (L l).get k := fun l k => by simp [Leaf.get, hL]
  refine ⟨fun k l ho => ?_, fun k n ho hd => ?_, fun h => absurd h hR⟩
  · rw [hg]
    rcases W.of k _ ho (by simp) with ⟨h1, _⟩ | ⟨h1, h2, x, h3, h4⟩
    · exact M.leaf k l h1
    · have P := O.pair k _ _ (hT k h1 h2) h4
      have hs := P.same
      cases x with
      | node n => simp [Match] at hs
      | leaf l' =>
        rw [hs.2.1]
        exact M.leaf k l' h3
  · by_cases hn : n = u
    · subst hn
      have hE := (W.upper k).1 ho
      by_cases hk : T k
      · exact absurd (W.new k hk) (hd _)
      · obtain ⟨h1, h2, h3⟩ := W.keep k hE hk
        exact M.null k n h3 fun y => by rw [← h2]; exact hd y
    · rw [W.other n hn] at hd
      rcases W.of k _ ho (by simpa using hn) with ⟨h1, _⟩ | ⟨h1, h2, x, h3, h4⟩
      · exact M.null k n h1 hd
      · obtain ⟨c, w, w', rfl, g1, g2, g3⟩ := O.node_pair (hT k h1 h2) h4
        exact absurd g2 (hd _)

/-- What is assumed about the phases. -/
structure FlowPh (R : Option Id) (N : Id → Node) (ph ph' : Id → Phase) (T E : Key → Prop) (J : Job) :
    Prop where
  cut : ∀ z ∈ J.ch, ∀ k e, On R N k z → ¬ T k → On R N e z → T e → Cut ph' z e
  mono : ∀ z k e, On R N k z → (T k → z ∉ J.ch) → Cut ph z e → Cut ph' z e
  up : ∀ z ∈ J.ch, ∀ k k2, On R N k z → ¬ T k → On R N k2 z → k ≤ k2 → ¬ T k2
  conf : ∀ k k1 c n z, T k → E k → ¬ T k1 → On R N k1 (.node c) →
    Pair N k J.x (J.side k) (.node c) (.node n) → (N c).dest k1 = .to z → (N n).dest k = .to z →
    z ∉ J.ch → False
  move : ∀ n b i, ph n = .move b i → ph' n = .move b i

theorem Flow.order (W : Flow R R' N N' u T E J) (O : JobOk R N L F D nN nL src J fil d)
    (hT : ∀ k, T k → E k → fil k) (I : Order R N L ph) (H : FlowPh R N ph ph' T E J)
    (hlev : Lev N)
    (hL : ∀ l, (L' l).m = (L l).m)
    (hub : Lit R' N' (.node u) → ∀ e ∈ (N' u).kids, On R' N' e.1 (.node u) ∨ Cut ph' (.node u) e.1)
    (hua : Lit R' N' (.node u) → ∃ k, On R' N' k (.node u) ∧ ∀ e ∈ (N' u).kids, e.1 < k) :
    Order R' N' L' ph' := by
  have hg : ∀ l k, (L' l).get k = (L l).get k := fun l k => by simp [Leaf.get, hL]
  -- the general pattern for something that was on a path before
  have keepOn : ∀ z k e, On R N k z → (T k → z ∉ J.ch) → On R N e z ∨ Cut ph z e →
      On R' N' e z ∨ Cut ph' z e := by
    intro z k e h1 h2 h3
    rcases h3 with h3 | h3
    · by_cases hz : z ∈ J.ch
      · have hk : ¬ T k := fun ht => h2 ht hz
        by_cases he : T e
        · exact .inr (H.cut z hz k e h1 hk h3 he)
        · exact .inl (W.to e z h3 fun ht => absurd ht he)
      · exact .inl (W.to e z h3 fun _ => hz)
    · exact .inr (H.mono z k e h1 h2 h3)
  -- pointers of two new nodes, or of an old and a new one, or of two old ones
  have key : ∀ k k1 q q1 z, On R' N' k (.node q) → (N' q).dest k = .to z → On R' N' k1 (.node q1) →
      (N' q1).dest k1 = .to z →
      q = q1 ∧ (route (N' q).kids k = route (N' q1).kids k1 ∨ ∃ b i, ph' q = .move b i ∧ (route (N' q).kids k = i ∨ route (N' q1).kids k1 = i)) := by
    intro k k1 q q1 z h h' g g'
    have AU : ∀ {k k1 : Key} {q : Id}, On R N k (.node q) → (N q).dest k = .to z → T k1 → E k1 →
        z = J.side k1 → False := by
      intro k k1 q a1 a2 b1 b2 b3
      subst b3
      exact (O.pair k1 _ _ (hT k1 b1 b2) .base).unlit ⟨k, .step a1 a2⟩
    have AN : ∀ {k k1 : Key} {q q1 c : Id} {w : Ref}, On R N k (.node q) → (N q).dest k = .to z →
        (.node q ∈ J.ch → ¬ T k) → T k1 → E k1 → On R N k1 (.node c) →
        Pair N k1 J.x (J.side k1) (.node c) (.node q1) → (N c).dest k1 = .to w → (N q1).dest k1 = .to z →
        ((w = z ∧ w ∉ J.ch) ∨ Pair N k1 J.x (J.side k1) w z) → False := by
      intro k k1 q q1 c w a1 a2 a4 b1 b2 b3 b4 b5 b6 b7
      rcases b7 with ⟨rfl, b8⟩ | b7
      · obtain ⟨e1, e2⟩ := I.parent q c _ _ w a1.use b3.use a2 b5
        subst e1
        have hq := (O.pair k1 _ _ (hT k1 b1 b2) b4).mem
        exact H.conf k1 k q q1 w b1 b2 (a4 hq) a1 b4 a2 b6 b8
      · exact (O.pair k1 _ _ (hT k1 b1 b2) b7).unlit ⟨k, .step a1 a2⟩
    have UN : ∀ {k k1 : Key} {q1 c : Id}, T k → E k → z = J.side k → T k1 → E k1 →
        Pair N k1 J.x (J.side k1) (.node c) (.node q1) → (N q1).dest k1 = .to z → False := by
      intro k k1 q1 c a1 a2 a3 b1 b2 b4 b6
      have p1 := (O.pair k _ _ (hT k a1 a2) .base).lvl
      have p2 := (O.pair k1 _ _ (hT k1 b1 b2) .base).lvl
      have p3 := b4.path.2.lvl_le hlev
      have p4 := hlev.dest b6
      rw [a3] at p4
      simp only [lvl_node] at p3
      omega
    rcases W.edge O hT h h' with ⟨a1, a2, a3, a4⟩ | ⟨a1, a2, a3, a4⟩ | ⟨a1, a2, c, w, a3, a4, a5, a6, a7, a8⟩ <;>
      rcases W.edge O hT g g' with ⟨b1, b2, b3, b4⟩ | ⟨b1, b2, b3, b4⟩ | ⟨b1, b2, c1, w1, b3, b4, b5, b6, b7, b8⟩
    · obtain ⟨e1, e2⟩ := I.parent q q1 _ _ z a1.use b1.use a2 b2
      refine ⟨e1, ?_⟩
      rcases e2 with e2 | ⟨b, i, e2, e3⟩
      · left; rw [← a3, ← b3, e2]
      · exact .inr ⟨b, i, H.move _ _ _ e2, by rw [← a3, ← b3]; exact e3⟩
    · exact (AU a1 a2 b2 b3 b4).elim
    · exact (AN a1 a2 a4 b1 b2 b3 b4 b5 b6 b8).elim
    · exact (AU b1 b2 a2 a3 a4).elim
    · subst a1; subst b1
      exact ⟨rfl, .inl (W.slot k k1 a3 b3 a2 b2 (a4.symm.trans b4))⟩
    · exact (UN a2 a3 a4 b1 b2 b4 b6).elim
    · exact (AN b1 b2 b4 a1 a2 a3 a4 a5 a6 a8).elim
    · exact (UN b2 b3 b4 a1 a2 a4 a6).elim
    · have hc := (O.pair k _ _ (hT k a1 a2) a4).mem
      have done : ∀ y, (N c).dest k = .to y → (N c1).dest k1 = .to y →
          q = q1 ∧ (route (N' q).kids k = route (N' q1).kids k1 ∨ ∃ b i, ph' q = .move b i ∧ (route (N' q).kids k = i ∨ route (N' q1).kids k1 = i)) := by
        intro y hy hy1
        obtain ⟨e1, _⟩ := I.parent c c1 _ _ y a3.use b3.use hy hy1
        subst e1
        obtain ⟨i1, i2⟩ := O.inj k k1 _ q q1 (hT k a1 a2) (hT k1 b1 b2) a4 b4 (by rw [a6, b6])
        exact ⟨i1, .inl (by rw [← a7, ← b7, i2])⟩
      rcases a8 with ⟨rfl, a8⟩ | a8 <;> rcases b8 with ⟨rfl, b8⟩ | b8
      · exact done _ a5 b5
      · exact ((O.pair k1 _ _ (hT k1 b1 b2) b8).unlit ⟨k, .step a3 a5⟩).elim
      · exact ((O.pair k _ _ (hT k a1 a2) a8).unlit ⟨k1, .step b3 b5⟩).elim
      · have s1 := (O.pair k _ _ (hT k a1 a2) a8).src
        have s2 := (O.pair k1 _ _ (hT k1 b1 b2) b8).src
        rw [s1] at s2
        subst s2
        exact done _ a5 b5
  refine ⟨fun n hl => ?_, fun n hl => ?_, fun l k0 hl hv => ?_, fun q q1 j j1 y hu hu1 hc hc1 => ?_⟩
  · by_cases hn : n = u
    · subst hn; exact hub hl
    · obtain ⟨k, ho⟩ := hl
      intro e he
      rw [W.other n hn] at he
      rcases W.of k _ ho (by simpa using hn) with ⟨h1, h2⟩ | ⟨h1, h2, x, h3, h4⟩
      · exact keepOn _ k _ h1 h2 (I.bound n ⟨k, h1⟩ e he)
      · have P := O.pair k _ _ (hT k h1 h2) h4
        obtain ⟨c, w, w', rfl, _⟩ := O.node_pair (hT k h1 h2) h4
        obtain ⟨s1, s2, s3⟩ := P.same.2.1 e he
        obtain ⟨t1, t2⟩ := W.cl k _ e.1 h1 h2 P.mem s1 s2
        exact .inl (W.add _ _ _ t1 t2 s3)
  · by_cases hn : n = u
    · subst hn; exact hua hl
    · obtain ⟨k, ho⟩ := hl
      rw [W.other n hn]
      rcases W.of k _ ho (by simpa using hn) with ⟨h1, h2⟩ | ⟨h1, h2, x, h3, h4⟩
      · obtain ⟨k2, g1, g2⟩ := I.above n ⟨k, h1⟩
        by_cases hz : Ref.node n ∈ J.ch
        · have hk : ¬ T k := fun ht => h2 ht hz
          by_cases hle : k ≤ k2
          · exact ⟨k2, W.to _ _ g1 fun ht => absurd ht (H.up _ hz k k2 h1 hk g1 hle), g2⟩
          · exact ⟨k, ho, fun e he => Nat.lt_trans (g2 e he) (by omega)⟩
        · exact ⟨k2, W.to _ _ g1 fun _ => hz, g2⟩
      · have P := O.pair k _ _ (hT k h1 h2) h4
        obtain ⟨c, w, w', rfl, _⟩ := O.node_pair (hT k h1 h2) h4
        obtain ⟨k2, g, s1, s2, s3⟩ := P.same.2.2
        obtain ⟨t1, t2⟩ := W.cl k _ k2 h1 h2 P.mem s1 s2
        exact ⟨k2, W.add _ _ _ t1 t2 s3, g⟩
  · obtain ⟨k, ho⟩ := hl
    rw [hg] at hv
    rcases W.of k _ ho (by simp) with ⟨h1, h2⟩ | ⟨h1, h2, x, h3, h4⟩
    · exact keepOn _ k _ h1 h2 (I.entry l k0 ⟨k, h1⟩ hv)
    · have P := O.pair k _ _ (hT k h1 h2) h4
      have hs := P.same
      cases x with
      | node n => simp [Match] at hs
      | leaf l' =>
        obtain ⟨s1, s2, s3⟩ := hs.2.2 k0 hv
        obtain ⟨t1, t2⟩ := W.cl k _ k0 h1 h2 P.mem s1 s2
        exact .inl (W.add _ _ _ t1 t2 s3)
  · obtain ⟨k, ho, hj⟩ := hu
    obtain ⟨k1, ho1, hj1⟩ := hu1
    have := key k k1 q q1 y ho (by simp only [Node.dest, hj, hc]) ho1 (by simp only [Node.dest, hj1, hc1])
    rw [hj, hj1] at this
    exact this

/-- Replacing a child of a node. -/
theorem flow_local (O : JobOk R N L F D nN nL src J fil d) {i : Nat} (S : Spot R N u i J)
    (hroot : ∀ r, R = some r → .node r ∉ J.ch) (hfil : ∀ k, T k → fil k)
    (other : ∀ n, n ≠ u → N' n = N n)
    (keep : ∀ k, ¬ T k → route (N' u).kids k = route (N u).kids k ∧ (N' u).dest k = (N u).dest k)
    (old : ∀ k, T k → (N u).dest k = .to J.x)
    (new : ∀ k, T k → (N' u).dest k = .to (J.side k))
    (slot : ∀ k k', T k → T k' → J.side k = J.side k' → route (N' u).kids k = route (N' u).kids k')
    (cl : ∀ k k2, T k → route (N u).kids k2 = i → J.side k2 = J.side k → T k2)
    (notin : .node u ∉ J.ch) : Flow R R N N' u T (fun k => On R N k (.node u)) J := by
  have dest' : ∀ n k, n ≠ u ∨ ¬ T k → (N' n).dest k = (N n).dest k := by
    intro n k h
    by_cases hn : n = u
    · subst hn; exact (keep k (by simpa using h)).2
    · rw [other n hn]
  have add : ∀ k x y, T k → On R N k (.node u) → On R N' k (.node u) → Pair N k J.x (J.side k) x y →
      On R N' k y := by
    intro k x y hk hu hu' hp
    induction hp with
    | base => exact .step hu' (new k hk)
    | @step n n' w w' hp hd hd' hne ih =>
      refine .step ih ?_
      rw [dest' n' k (.inl ?_), hd']
      rintro rfl
      exact (O.pair k _ _ (hfil k hk) hp).unlit ⟨k, hu⟩
  have to : ∀ k z, On R N k z → (T k → z ∉ J.ch) → On R N' k z := by
    intro k z ho
    by_cases hk : T k
    · -- by induction, for obsolete objects the claim is about their counterparts
      suffices h : (z ∉ J.ch → On R N' k z) ∧ (z ∈ J.ch → On R N' k (.node u)) from fun hz => h.1 (hz hk)
      induction ho with
      | root h => exact ⟨fun _ => .root h, fun hz => absurd hz (hroot _ h)⟩
      | @step n y ho hd ih =>
        refine ⟨fun hy => ?_, fun hy => ?_⟩
        · by_cases hn : Ref.node n ∈ J.ch
          · obtain ⟨h1, h2, y', hp⟩ := O.counterpart S ho hn (hfil k hk) hroot
            have hu' := ih.2 hn
            cases y' with
            | leaf l => have := (O.pair k _ _ (hfil k hk) hp).same; simp [Match] at this
            | node n' =>
              have ho' := add k _ _ hk h1 hu' hp
              obtain ⟨c, w, w', e, g1, g2, g3⟩ := O.node_pair (hfil k hk) hp
              cases e
              rw [hd] at g1
              cases g1
              have hn' : n' ≠ u := by
                rintro rfl
                exact (O.pair k _ _ (hfil k hk) hp).unlit ⟨k, h1⟩
              rcases g3 with ⟨rfl, _⟩ | g3
              · exact .step ho' (by rw [dest' n' k (.inl hn'), g2])
              · exact absurd (O.pair k _ _ (hfil k hk) g3).mem hy
          · have hn' := ih.1 hn
            by_cases hu : n = u
            · subst hu
              rw [old k hk] at hd
              cases hd
              exact absurd (O.pair k _ _ (hfil k hk) .base).mem hy
            · exact .step hn' (by rw [dest' n k (.inl hu), hd])
        · rcases S.parent y hy n _ ho.use hd with ⟨rfl, _⟩ | hn
          · exact ih.1 notin
          · exact ih.2 hn
    · suffices h : On R N' k z from fun _ => h
      induction ho with
      | root h => exact .root h
      | step _ hd ih => exact .step ih (by rw [dest' _ k (.inr hk), hd])
  have of : ∀ k z, On R N' k z → (On R N k z ∧ (T k → z ∉ J.ch)) ∨
      (T k ∧ On R N k (.node u) ∧ ∃ x, On R N k x ∧ Pair N k J.x (J.side k) x z) := by
    intro k z ho
    induction ho with
    | root h => exact .inl ⟨.root h, fun _ => hroot _ h⟩
    | @step n y ho hd ih =>
      rcases ih with ⟨h1, h2⟩ | ⟨h1, h2, x, h3, h4⟩
      · by_cases hk : T k
        · by_cases hu : n = u
          · subst hu
            rw [new k hk] at hd
            cases hd
            exact .inr ⟨hk, h1, J.x, .step h1 (old k hk), .base⟩
          · rw [dest' n k (.inl hu)] at hd
            refine .inl ⟨.step h1 hd, fun _ hy => ?_⟩
            rcases S.parent y hy n _ h1.use hd with ⟨e, _⟩ | hn
            · exact hu e
            · exact h2 hk hn
        · rw [dest' n k (.inr hk)] at hd
          exact .inl ⟨.step h1 hd, fun h => absurd h hk⟩
      · obtain ⟨c, w, w', rfl, g1, g2, g3⟩ := O.node_pair (hfil k h1) h4
        have hn : n ≠ u := by
          rintro rfl
          exact (O.pair k _ _ (hfil k h1) h4).unlit ⟨k, h2⟩
        rw [dest' n k (.inl hn)] at hd
        rw [hd] at g2
        cases g2
        rcases g3 with ⟨rfl, g3⟩ | g3
        · exact .inl ⟨.step h3 g1, fun _ => g3⟩
        · exact .inr ⟨h1, h2, w, .step h3 g1, g3⟩
  have upper : ∀ k, On R N' k (.node u) ↔ On R N k (.node u) := by
    intro k
    refine ⟨fun h => ?_, fun h => to k _ h fun _ => notin⟩
    rcases of k _ h with ⟨h1, _⟩ | ⟨_, h2, _⟩
    · exact h1
    · exact h2
  refine ⟨other, upper, fun k hE hk => ⟨(keep k hk).1, (keep k hk).2, hE⟩, new,
    fun k k' _ _ h1 h2 => slot k k' h1 h2, to, fun k x y h1 h2 => add k x y h1 h2 ((upper k).2 h2),
    fun k z h _ => of k z h, ?_, notin⟩
  intro k x k2 hk hE hx ho hs
  -- search paths through obsolete objects come through `u`
  have up : ∀ z, On R N k2 z → z ∈ J.ch → On R N k2 (.node u) ∧ route (N u).kids k2 = i := by
    intro z ho
    induction ho with
    | root h => exact fun hz => absurd hz (hroot _ h)
    | @step n y ho hd ih =>
      intro hy
      rcases S.parent y hy n _ ho.use hd with ⟨rfl, e⟩ | hn
      · exact ⟨ho, e⟩
      · exact ih hn
  obtain ⟨h1, h2⟩ := up x ho hx
  exact ⟨cl k k2 hk h2 hs, h1⟩

/-- What is obsolete below the root has a counterpart. -/
theorem JobOk.counterpart_top (O : JobOk R N L F D nN nL src J (fun _ => True) d) {n : Id} (hx : J.x = .node n)
    (hR : R = some n) (parent : ∀ y ∈ J.ch, ∀ q j, Use R N q j → (N q).cell j = .to y → .node q ∈ J.ch) :
    ∀ k y, On R N k y → y ∈ J.ch → ∃ y', Pair N k J.x (J.side k) y y' := by
  intro k y ho
  induction ho with
  | root h =>
    intro _
    rw [hR] at h
    cases h
    exact ⟨J.side k, hx ▸ .base⟩
  | @step c y ho hd ih =>
    intro hy
    obtain ⟨y', hp⟩ := ih (parent y hy c _ ho.use hd)
    have hs := (O.pair k _ _ trivial hp).same
    cases y' with
    | leaf l => simp [Match] at hs
    | node n' =>
      obtain ⟨⟨w, w', g1, g2, g3⟩, _⟩ := hs
      rw [hd] at g1
      cases g1
      by_cases he : y = w'
      · exact absurd hy (g3 he)
      · exact ⟨w', .step hp hd g2 he⟩

/-- Replacing the root. -/
theorem flow_top (O : JobOk R N L F D nN nL src J (fun _ => True) d) {r n : Id} (hx : J.x = .node n)
    (hR : R = some n) (parent : ∀ y ∈ J.ch, ∀ q j, Use R N q j → (N q).cell j = .to y → .node q ∈ J.ch)
    (new : ∀ k, (N r).dest k = .to (J.side k))
    (slot : ∀ k k', J.side k = J.side k' → route (N r).kids k = route (N r).kids k')
    (notin : .node r ∉ J.ch) :
    Flow R (some r) N N r (fun _ => True) (fun _ => True) J := by
  have hxm : J.x ∈ J.ch := (O.pair 0 _ _ trivial .base).mem
  have add : ∀ k x y, Pair N k J.x (J.side k) x y → On (some r) N k y := by
    intro k x y hp
    induction hp with
    | base => exact .step (.root rfl) (new k)
    | @step n n' w w' hp hd hd' hne ih => exact .step ih hd'
  have counterpart := O.counterpart_top hx hR parent
  have to : ∀ k z, On R N k z → z ∉ J.ch → On (some r) N k z := by
    intro k z ho
    induction ho with
    | root h =>
      intro hz
      rw [hR] at h
      cases h
      exact absurd (hx ▸ hxm) hz
    | @step c y ho hd ih =>
      intro hy
      by_cases hc : Ref.node c ∈ J.ch
      · obtain ⟨y', hp⟩ := counterpart k _ ho hc
        cases y' with
        | leaf l => have := (O.pair k _ _ trivial hp).same; simp [Match] at this
        | node n' =>
          have ho' := add k _ _ hp
          obtain ⟨c, w, w', e, g1, g2, g3⟩ := O.node_pair trivial hp
          cases e
          rw [hd] at g1
          cases g1
          rcases g3 with ⟨rfl, _⟩ | g3
          · exact .step ho' g2
          · exact absurd (O.pair k _ _ trivial g3).mem hy
      · exact .step (ih hc) hd
  have of : ∀ k z, On (some r) N k z → z = .node r ∨ (On R N k z ∧ z ∉ J.ch) ∨
      ∃ x, On R N k x ∧ Pair N k J.x (J.side k) x z := by
    intro k z ho
    induction ho with
    | root h => cases h; exact .inl rfl
    | @step c y ho hd ih =>
      right
      rcases ih with e | ⟨h1, h2⟩ | ⟨x, h3, h4⟩
      · cases e
        rw [new k] at hd
        cases hd
        exact .inr ⟨J.x, hx ▸ .root hR, .base⟩
      · refine .inl ⟨.step h1 hd, fun hy => h2 (parent y hy c _ h1.use hd)⟩
      · obtain ⟨c, w, w', rfl, g1, g2, g3⟩ := O.node_pair trivial h4
        rw [hd] at g2
        cases g2
        rcases g3 with ⟨rfl, g3⟩ | g3
        · exact .inl ⟨.step h3 g1, g3⟩
        · exact .inr ⟨w, .step h3 g1, g3⟩
  refine ⟨fun _ _ => rfl, fun k => ⟨fun _ => trivial, fun _ => .root rfl⟩, fun k _ h => absurd trivial h,
    fun k _ => new k, fun k k' _ _ _ _ => slot k k', fun k z h h' => to k z h (h' trivial),
    fun k x y _ _ => add k x y, fun k z h hz => ?_, fun _ _ _ _ _ _ _ _ => ⟨trivial, trivial⟩, notin⟩
  rcases of k z h with e | ⟨h1, h2⟩ | ⟨x, h3, h4⟩
  · exact absurd e hz
  · exact .inl ⟨h1, fun _ => h2⟩
  · exact .inr ⟨trivial, trivial, x, h3, h4⟩

end Scc.Grove
