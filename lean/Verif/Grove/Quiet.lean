import Verif.Grove.Frame

/-!
# Steps that only change phases and thaw leaves
-/

namespace Scc.Grove

local notation "Key" => Nat
local notation "Id" => Nat
local notation "Thr" => Nat

variable {V : Type} {m : Mem V} {A : Key → Option V} {src : Ref → Ref}

theorem JobOk.setF {R : Option Id} {N : Id → Node} {L : Id → Leaf V} {F F' : Id → Bool}
    {D : Ref → Bool} {nN nL : Nat} {J : Job} {fil : Key → Prop} {d : Bool}
    (O : JobOk R N L F D nN nL src J fil d) (hF : ∀ l, .leaf l ∈ J.ch → F' l = true) :
    JobOk R N L F' D nN nL src J fil d := by
  refine ⟨fun k x y hk h => ?_, O.inj, O.sep, O.dead, O.lit, hF, O.fcl⟩
  have P := O.pair k x y hk h
  refine ⟨P.mem, P.src, P.al, P.lvl, P.unlit, P.live, P.ret, ?_⟩
  have hs := P.same
  cases x <;> cases y <;> simp only [Match] at hs ⊢
  · exact ⟨hF _ P.mem, hs.2.1, hs.2.2⟩
  · exact hs

/-- What is assumed of the new phases. -/
structure Calmer (m : Mem V) (src : Ref → Ref) (ph : Id → Phase) (F : Id → Bool) : Prop where
  half : ∀ n, (ph n).half = (m.phase n).half
  plan : ∀ n i J, (ph n).plan = some (i, J) → (m.phase n).plan = some (i, J)
  job : ∀ n J, (ph n).job = some J → (m.phase n).job = some J
  sub : ∀ n J c, (ph n).job = some J → J.x = .node c → ph c = m.phase c
  root : ∀ r n nl nh mid ch, ph r = .root n nl nh mid ch → m.phase r = .root n nl nh mid ch
  single : ∀ n i x y, ph n = .single i x y → m.phase n = .single i x y
  move : ∀ n b i, ph n = .move b i ↔ m.phase n = .move b i
  coal : ∀ n i, ph n = .coal i → m.phase n = .coal i
  over : ∀ n, m.dead (.node n) = true → (ph n).over = true
  fresh : ∀ n, m.nN ≤ n → ph n = .free
  locked : ∀ n, ph n = .locked →
    m.phase n = .locked ∨ Lit m.root m.node (.node n) ∨ (m.node n).cell 0 = .ret
  claim : ∀ n i x xl xh mid ch c, ph n = .full i x xl xh mid ch (some c) →
    m.phase n = .full i x xl xh mid ch (some c)
  fin : ∀ n j xl xh nl nh, ph n = .fin j xl xh nl nh → ∃ j', j' ≤ j ∧ m.phase n = .fin j' xl xh nl nh
  held : ∀ q, m.phase q = .held → ph q = .held ∨ ∃ n, src (.node q) = .node n ∧
    (ph n = .gone ∨ ∃ xl xh nl nh, ph n = .fin 3 xl xh nl nh ∧ q = nl)
  frozen : ∀ l, m.frozen l = true → F l = true ∨ m.dead (.leaf l) = false ∧
    (∀ n i J, (ph n).plan = some (i, J) → m.dead (.node n) = false → .leaf l ∉ J.ch) ∧
    (∀ r n nl nh mid ch, ph r = .root n nl nh mid ch → .leaf l ∉ ch) ∧
    (∀ n i y, ph n ≠ .single i l y)

theorem Inv.phase (I : Inv m A src) {ph : Id → Phase} {F : Id → Bool} (C : Calmer m src ph F)
    {m' : Mem V} (hm : m' = { m with phase := ph, frozen := F, ver := m'.ver }) : Inv m' A src := by
  rw [hm]
  have cut : ∀ z k, Cut ph z k ↔ Cut m.phase z k := by
    intro z k
    simp only [Cut, C.half]
  have hheld : ∀ q n, m.phase q = .held → src (.node q) = .node n → ph n ≠ .gone →
      (∀ xl xh nl nh, ph n = .fin 3 xl xh nl nh → q ≠ nl) → ph q = .held := by
    intro q n h1 h2 h3 h4
    rcases C.held q h1 with h | ⟨n', h5, h6⟩
    · exact h
    · rw [h2] at h5
      cases h5
      rcases h6 with h6 | ⟨xl, xh, nl, nh, h6, h7⟩
      · exact absurd h6 h3
      · exact absurd h7 (h4 _ _ _ _ h6)
  have hhold : ∀ n l, ph n ≠ .gone → (∀ xl xh nl nh, ph n ≠ .fin 3 xl xh nl nh) →
      Hold m.node m.phase src n l → Hold m.node ph src n l := by
    intro n l h1 h2 h q j hc
    obtain ⟨g1, g2⟩ := h q j hc
    exact ⟨hheld q n g1 g2 h1 fun xl xh nl nh h' => absurd h' (h2 _ _ _ _), g2⟩
  refine ⟨?_, I.mean, ?_, ?_, ?_, ?_, ?_⟩
  · exact { I.shape with fresh := fun n hn => ⟨(I.shape.fresh n hn).1, C.fresh n hn⟩ }
  · refine ⟨fun n hl e he => ?_, I.order.above, fun l k hl hv => ?_, fun n n' j j' y h1 h2 h3 h4 => ?_⟩
    · exact (I.order.bound n hl e he).imp id (cut _ _).2
    · exact (I.order.entry l k hl hv).imp id (cut _ _).2
    · obtain ⟨e1, e2⟩ := I.order.parent n n' j j' y h1 h2 h3 h4
      exact ⟨e1, e2.imp id fun ⟨b, i, h, h'⟩ => ⟨b, i, (C.move _ _ _).2 h, h'⟩⟩
  · refine ⟨C.over, I.dead.null, fun l hl => ?_, fun y h1 h2 => ?_, I.dead.empty, fun n h1 h2 => ?_⟩
    · rcases C.frozen l (I.dead.frozen l hl) with h | ⟨h, _⟩
      · exact h
      · rw [hl] at h; cases h
    · obtain ⟨n, i, J, h3, h4⟩ := I.dead.half y h1 h2
      exact ⟨n, i, J, by simp only [C.half, h3], h4⟩
    · simp only [C.half]
      refine I.dead.plan n h1 fun h3 => h2 ?_
      cases h4 : (ph n).plan with
      | none => rfl
      | some a => rw [C.plan n a.1 a.2 h4] at h3; cases h3
  · refine ⟨fun n J h => ?_, fun n n' J J' h h' => I.chain.uniq n n' J J' (C.job _ _ h) (C.job _ _ h')⟩
    obtain ⟨ch', h1, h2, h3⟩ := I.chain.list n J (C.job _ _ h)
    refine ⟨ch', h1, h2, fun c hc => ?_⟩
    simp only [C.sub n J c h hc]
    exact h3 c hc
  · refine ⟨fun n i J h hd => ?_, fun n i J h => ?_, fun r n nl nh mid ch h => ?_, fun n i x y h => ?_⟩
    · obtain ⟨O, S⟩ := I.jobs.plan n i J (C.plan _ _ _ h) hd
      refine ⟨O.setF fun l hl => ?_, S⟩
      rcases C.frozen l (O.frozen l hl) with g | ⟨_, g, _⟩
      · exact g
      · exact absurd hl (g n i J h hd)
    · simp only [C.half] at h
      obtain ⟨O, S⟩ := I.jobs.half n i J h
      refine ⟨O.setF fun l hl => ?_, S⟩
      rcases C.frozen l (O.frozen l hl) with g | ⟨g, _⟩
      · exact g
      · have := O.dead _ hl
        rw [g] at this; cases this
    · obtain ⟨O, S⟩ := I.jobs.root r n nl nh mid ch (C.root _ _ _ _ _ _ h)
      refine ⟨O.setF fun l hl => ?_, S⟩
      rcases C.frozen l (O.frozen l hl) with g | ⟨_, _, g, _⟩
      · exact g
      · exact absurd hl (g _ _ _ _ _ _ h)
    · have K := I.jobs.copy n i x y (C.single _ _ _ _ h)
      refine { K with frozen := ?_ }
      rcases C.frozen x K.frozen with g | ⟨_, _, _, g⟩
      · exact g
      · exact absurd h (g _ _ _)
  · refine ⟨fun n h => ?_, fun n i h => I.locks.coal n i (C.coal _ _ h),
      fun n b i h => I.locks.move n b i ((C.move _ _ _).1 h), fun n i x xl xh mid ch nl nh h => ?_,
      fun n j xl xh nl nh h => ?_, fun n xl xh nl nh h => ?_, fun n j xl xh nl nh h hj => ?_,
      fun n i J l h hl => ?_, fun n i J h => I.locks.kind n i J (C.plan _ _ _ h)⟩
    · rcases C.locked n h with g | g
      · exact I.locks.locked n g
      · exact g
    · replace h : ph n = _ := h
      obtain ⟨g1, g2, g3, g4, g5, g6⟩ := I.locks.claim n i x xl xh mid ch nl nh (C.claim _ _ _ _ _ _ _ _ h)
      refine ⟨g1, g2, g3, g4, g5, fun hl => ⟨?_, ?_⟩⟩
      · exact hheld nl n (g6 hl).1 g4 (by simp [h]) (by simp [h])
      · exact hheld nh n (g6 hl).2 g5 (by simp [h]) (by simp [h])
    · replace h : ph n = _ := h
      obtain ⟨j', hj, h'⟩ := C.fin n j xl xh nl nh h
      obtain ⟨g1, g2, g3, g4, g5, g6, g7⟩ := I.locks.fin n j' xl xh nl nh h'
      refine ⟨g1, g2, g3, g4, g5, fun hl => ?_, fun hl => ?_⟩
      · refine hheld nl n (g6 (by omega)) g4 (by simp [h]) fun a b c e he => ?_
        rw [h] at he; cases he; omega
      · refine hheld nh n (g7 (by omega)) g5 (by simp [h]) fun a b c e he => ?_
        rw [h] at he; cases he; exact g1.symm
    · replace h : ph n = _ := h
      obtain ⟨j', hj, h'⟩ := C.fin n _ xl xh nl nh h
      have : j' = 0 := by omega
      subst this
      obtain ⟨g1, g2, g4, g5, g3⟩ := I.locks.finLow n xl xh nl nh h'
      exact ⟨g1, g2, g4, by simp only [C.half]; exact g5, hhold n _ (by simp [h]) (by simp [h]) g3⟩
    · replace h : ph n = _ := h
      obtain ⟨j', hj', h'⟩ := C.fin n _ xl xh nl nh h
      obtain ⟨g1, g2, g4, g5, g3⟩ := I.locks.finHigh n j' xl xh nl nh h' (by omega)
      refine ⟨g1, g2, g4, by simp only [C.half]; exact g5, hhold n _ (by simp [h]) (fun a b c e he => ?_) g3⟩
      rw [h] at he; cases he; omega
    · obtain ⟨g1, g2, g4, g3⟩ := I.locks.hold n i J l (C.plan _ _ _ h) hl
      refine ⟨g1, g2, g4, hhold n l (fun he => ?_) (fun a b c e he => ?_) g3⟩
      · simp only [he] at h; cases h
      · simp only [he] at h; cases h

end Scc.Grove
