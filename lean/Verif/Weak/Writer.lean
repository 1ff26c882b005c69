import Verif.Weak.Frame

/-!
# The steps of threads that have a bucket locked
-/

namespace Scc.Weak

variable {H : Nat → Nat} {md : Bool}

section
variable {s : St} {t b : Nat} (h : Inv H md s) (o : s.own b = some t)

include h o

/-- The state of a slot only changes when its owner is at it. -/
theorem at_rest {i : Nat} (n : ¬(s.ph t).touch b i) : ¬Unrest s b i := by
  intro u
  obtain ⟨u, h1, h2⟩ := (h.slot b i).busy u
  rw [o] at h1
  injection h1 with h1
  subst h1
  exact n h2

theorem seen (f : Field) (hf : f.inB = true) : s.view t ⟨b, f⟩ = s.cnt ⟨b, f⟩ := h.v.own b t o f hf

/-- What comes with a value stored with `Release`. -/
theorem new_view {f g : Field} (e : g ≠ f) (hg : g.inB = true) {n : Nat} : upd (s.view t) ⟨b, f⟩ n ⟨b, g⟩ = s.cnt ⟨b, g⟩ := by
  rw [upd_ne (fld_ne e)]; exact seen h o g hg

theorem new_tgt {f : Field} {i : Nat} {T : Tgt} (hT : s.g.tgt b i = some T) :
    T.le (upd (s.view t) ⟨b, f⟩ (s.cnt ⟨b, f⟩ + 1)) := by
  refine (((h.slot b i).away T hT).1 t o).mono fun l => ?_
  by_cases e : l = ⟨b, f⟩
  · subst e; rw [upd_same]; exact Nat.le_succ_of_le (h.v.vle _ _)
  · rw [upd_ne e]; exact Nat.le_refl _

theorem away_write {f : Field} (v : Val) (r : Bool) {i : Nat} {T : Tgt} (hT : s.g.tgt b i = some T) :
    (∀ u, s.own b = some u → T.le ((s.write t ⟨b, f⟩ v r).view u)) ∧ (s.own b = none → T.le (s.lockView b)) := by
  obtain ⟨h1, h2⟩ := (h.slot b i).away T hT
  exact ⟨fun u hu => (h1 u hu).mono (write_grow (v := v) (r := r) h.v u), h2⟩

/-- A slot that is not the one the owner is at, when a cell is written. -/
theorem other_cell {f : Field} {v : Val} {r : Bool} {p : Phase} {d : Nat → Bool} {g : Ghost} {i : Nat}
    (hf : f.of i = false) (hg : SameG s.g g b i) (hcs : g.counted b = s.g.counted b)
    (hd : s.dead b = true → d b = true) (n : ¬Unrest s b i) :
    SlotOk H md { (s.write t ⟨b, f⟩ v r).phase t p with dead := d, g := g } b i := by
  have ne : ∀ f', Field.of i f' = true → (⟨b, f'⟩ : Loc) ≠ ⟨b, f⟩ :=
    fun f' h' => fld_ne (by rintro rfl; rw [hf] at h'; cases h')
  exact (h.slot b i).frame (fun f' h' => write_cnt_ne (t := t) (v := v) (r := r) (ne f' h'))
    (fun f' h' => write_msg_ne (t := t) (v := v) (r := r) (ne f' h')) hg hcs hd (fun u => absurd u n)
    (fun T hT => away_write h o v r hT)

/-- A slot whose bit does not change, when `occupied_bitmap` is written. -/
theorem other_occ {v : Val} {p : Phase} {d : Nat → Bool} {g : Ghost} {i : Nat} (hg : SameG s.g g b i)
    (hcs : g.counted b = s.g.counted b) (hd : s.dead b = true → d b = true) (n : ¬Unrest s b i)
    (hv : v.bit i = (s.now ⟨b, .occ⟩).bit i) :
    SlotOk H md { (s.write t ⟨b, .occ⟩ v true).phase t p with dead := d, g := g } b i := by
  have q := h.slot b i
  have ne : ∀ f', f' ≠ Field.occ → (⟨b, f'⟩ : Loc) ≠ ⟨b, .occ⟩ := fun f' h' => fld_ne h'
  have c : ∀ f', f' ≠ Field.occ → (s.write t ⟨b, .occ⟩ v true).cnt ⟨b, f'⟩ = s.cnt ⟨b, f'⟩ := fun f' h' => write_cnt_ne (ne f' h')
  have m : ∀ f', f' ≠ Field.occ → (s.write t ⟨b, .occ⟩ v true).msg ⟨b, f'⟩ = s.msg ⟨b, f'⟩ := fun f' h' => write_msg_ne (ne f' h')
  have w : ∀ f', f' ≠ Field.occ → (s.write t ⟨b, .occ⟩ v true).now ⟨b, f'⟩ = s.now ⟨b, f'⟩ := fun f' h' => write_now_ne (ne f' h')
  refine ⟨?_, ?_, ?_, ?_, ?_, ?_, ?_, ?_, ?_⟩
  · show OccOk ((s.write t ⟨b, .occ⟩ v true).cnt _) ((s.write t ⟨b, .occ⟩ v true).msg _) (g.sl b i) (g.oc b i) (g.born b i) i _ _
      ((s.write t ⟨b, .occ⟩ v true).cnt _) ((s.write t ⟨b, .occ⟩ v true).cnt _) (g.hashed b i) (g.tgt b i)
    rw [hg.sl, hg.oc, hg.born, hg.hashed, hg.tgt, write_cnt, write_msg, c _ (by simp), c _ (by simp)]
    exact q.occ.push_same hv (new_view h o (by simp) rfl) (new_view h o (by simp) rfl) (fun T hT => new_tgt h o hT)
  · show RemOk ((s.write t ⟨b, .occ⟩ v true).cnt _) ((s.write t ⟨b, .occ⟩ v true).msg _) (g.sl b i) (g.oc b i) (g.rc b i)
      (g.floor b i) (g.mark b i) i _
    rw [hg.sl, hg.oc, hg.rc, hg.floor, hg.mark, c _ (by simp), m _ (by simp)]
    exact q.rem
  · show LenOk md ((s.write t ⟨b, .occ⟩ v true).cnt _) ((s.write t ⟨b, .occ⟩ v true).msg _) (g.sl b i) (g.lenIx b i) i
      (g.counted b) (g.tgt b i)
    rw [hg.sl, hg.lenIx, hg.tgt, hcs, c _ (by simp), m _ (by simp)]
    exact q.len
  · show i ∈ g.counted b → (g.sl b i = .used ∨ g.sl b i = .moved) ∧ g.hashed b i = true
    rw [hcs, hg.sl, hg.hashed]; exact q.ctd
  · show g.sl b i = .moved → d b = true ∧ g.hashed b i = true
    rw [hg.sl, hg.hashed]; exact fun e => ⟨hd (q.mvd e).1, (q.mvd e).2⟩
  · show (g.sl b i).full = true → ∃ e, ((s.write t ⟨b, .occ⟩ v true).now _).entry = some e
    rw [hg.sl, w _ (by simp)]; exact q.data
  · show (g.sl b i).full = true → g.hashed b i = true → ∀ e, ((s.write t ⟨b, .occ⟩ v true).now _).entry = some e →
      ((s.write t ⟨b, .occ⟩ v true).now _).n = H e
    rw [hg.sl, hg.hashed, w _ (by simp), w _ (by simp)]; exact q.hash
  · intro u
    refine absurd ?_ n
    have u : g.sl b i = .writing ∨ g.sl b i = .recycling ∨ (g.sl b i = .used ∧ i ∉ g.counted b) := u
    rw [hg.sl, hcs] at u
    exact u
  · show ∀ T, g.tgt b i = some T → _
    rw [hg.tgt]; exact fun T hT => away_write h o v true hT

/-- A slot whose bit does not change, when `removed_bitmap` is written. -/
theorem other_rem {v : Val} {p : Phase} {d : Nat → Bool} {g : Ghost} {i : Nat} (hg : SameG s.g g b i)
    (hcs : g.counted b = s.g.counted b) (hd : s.dead b = true → d b = true) (n : ¬Unrest s b i)
    (hv : v.bit i = (s.now ⟨b, .rem⟩).bit i) :
    SlotOk H md { (s.write t ⟨b, .rem⟩ v true).phase t p with dead := d, g := g } b i := by
  have q := h.slot b i
  have ne : ∀ f', f' ≠ Field.rem → (⟨b, f'⟩ : Loc) ≠ ⟨b, .rem⟩ := fun f' h' => fld_ne h'
  have c : ∀ f', f' ≠ Field.rem → (s.write t ⟨b, .rem⟩ v true).cnt ⟨b, f'⟩ = s.cnt ⟨b, f'⟩ := fun f' h' => write_cnt_ne (ne f' h')
  have m : ∀ f', f' ≠ Field.rem → (s.write t ⟨b, .rem⟩ v true).msg ⟨b, f'⟩ = s.msg ⟨b, f'⟩ := fun f' h' => write_msg_ne (ne f' h')
  have w : ∀ f', f' ≠ Field.rem → (s.write t ⟨b, .rem⟩ v true).now ⟨b, f'⟩ = s.now ⟨b, f'⟩ := fun f' h' => write_now_ne (ne f' h')
  refine ⟨?_, ?_, ?_, ?_, ?_, ?_, ?_, ?_, ?_⟩
  · show OccOk ((s.write t ⟨b, .rem⟩ v true).cnt _) ((s.write t ⟨b, .rem⟩ v true).msg _) (g.sl b i) (g.oc b i) (g.born b i) i _ _
      ((s.write t ⟨b, .rem⟩ v true).cnt _) ((s.write t ⟨b, .rem⟩ v true).cnt _) (g.hashed b i) (g.tgt b i)
    rw [hg.sl, hg.oc, hg.born, hg.hashed, hg.tgt, m _ (by simp), c _ (by simp), c _ (by simp), c _ (by simp)]
    exact q.occ
  · show RemOk ((s.write t ⟨b, .rem⟩ v true).cnt _) ((s.write t ⟨b, .rem⟩ v true).msg _) (g.sl b i) (g.oc b i) (g.rc b i)
      (g.floor b i) (g.mark b i) i _
    rw [hg.sl, hg.oc, hg.rc, hg.floor, hg.mark, write_cnt, write_msg]
    refine q.rem.push_same hv ?_
    show _ ≤ upd (s.view t) _ _ _
    rw [new_view h o (by simp) rfl]; exact q.occ.oc_le
  · show LenOk md ((s.write t ⟨b, .rem⟩ v true).cnt _) ((s.write t ⟨b, .rem⟩ v true).msg _) (g.sl b i) (g.lenIx b i) i
      (g.counted b) (g.tgt b i)
    rw [hg.sl, hg.lenIx, hg.tgt, hcs, c _ (by simp), m _ (by simp)]
    exact q.len
  · show i ∈ g.counted b → (g.sl b i = .used ∨ g.sl b i = .moved) ∧ g.hashed b i = true
    rw [hcs, hg.sl, hg.hashed]; exact q.ctd
  · show g.sl b i = .moved → d b = true ∧ g.hashed b i = true
    rw [hg.sl, hg.hashed]; exact fun e => ⟨hd (q.mvd e).1, (q.mvd e).2⟩
  · show (g.sl b i).full = true → ∃ e, ((s.write t ⟨b, .rem⟩ v true).now _).entry = some e
    rw [hg.sl, w _ (by simp)]; exact q.data
  · show (g.sl b i).full = true → g.hashed b i = true → ∀ e, ((s.write t ⟨b, .rem⟩ v true).now _).entry = some e →
      ((s.write t ⟨b, .rem⟩ v true).now _).n = H e
    rw [hg.sl, hg.hashed, w _ (by simp), w _ (by simp)]; exact q.hash
  · intro u
    refine absurd ?_ n
    have u : g.sl b i = .writing ∨ g.sl b i = .recycling ∨ (g.sl b i = .used ∧ i ∉ g.counted b) := u
    rw [hg.sl, hcs] at u
    exact u
  · show ∀ T, g.tgt b i = some T → _
    rw [hg.tgt]; exact fun T hT => away_write h o v true hT

/-- A slot that is counted before and after or not, when `len` is written. -/
theorem other_len {v : Val} {p : Phase} {d : Nat → Bool} {g : Ghost} {i : Nat} (hg : SameG s.g g b i)
    (hcs : i ∈ g.counted b ↔ i ∈ s.g.counted b) (hd : s.dead b = true → d b = true) (n : ¬Unrest s b i)
    (hv : i ∈ s.g.counted b → v.n ≠ 0) :
    SlotOk H md { (s.write t ⟨b, .len⟩ v md).phase t p with dead := d, g := g } b i := by
  have q := h.slot b i
  have ne : ∀ f', f' ≠ Field.len → (⟨b, f'⟩ : Loc) ≠ ⟨b, .len⟩ := fun f' h' => fld_ne h'
  have c : ∀ f', f' ≠ Field.len → (s.write t ⟨b, .len⟩ v md).cnt ⟨b, f'⟩ = s.cnt ⟨b, f'⟩ := fun f' h' => write_cnt_ne (ne f' h')
  have m : ∀ f', f' ≠ Field.len → (s.write t ⟨b, .len⟩ v md).msg ⟨b, f'⟩ = s.msg ⟨b, f'⟩ := fun f' h' => write_msg_ne (ne f' h')
  have w : ∀ f', f' ≠ Field.len → (s.write t ⟨b, .len⟩ v md).now ⟨b, f'⟩ = s.now ⟨b, f'⟩ := fun f' h' => write_now_ne (ne f' h')
  refine ⟨?_, ?_, ?_, ?_, ?_, ?_, ?_, ?_, ?_⟩
  · show OccOk ((s.write t ⟨b, .len⟩ v md).cnt _) ((s.write t ⟨b, .len⟩ v md).msg _) (g.sl b i) (g.oc b i) (g.born b i) i _ _
      ((s.write t ⟨b, .len⟩ v md).cnt _) ((s.write t ⟨b, .len⟩ v md).cnt _) (g.hashed b i) (g.tgt b i)
    rw [hg.sl, hg.oc, hg.born, hg.hashed, hg.tgt, m _ (by simp), c _ (by simp), c _ (by simp), c _ (by simp)]
    exact q.occ
  · show RemOk ((s.write t ⟨b, .len⟩ v md).cnt _) ((s.write t ⟨b, .len⟩ v md).msg _) (g.sl b i) (g.oc b i) (g.rc b i)
      (g.floor b i) (g.mark b i) i _
    rw [hg.sl, hg.oc, hg.rc, hg.floor, hg.mark, c _ (by simp), m _ (by simp)]
    exact q.rem
  · show LenOk md ((s.write t ⟨b, .len⟩ v md).cnt _) ((s.write t ⟨b, .len⟩ v md).msg _) (g.sl b i) (g.lenIx b i) i
      (g.counted b) (g.tgt b i)
    rw [hg.sl, hg.lenIx, hg.tgt, write_cnt, write_msg]
    refine q.len.push_same hcs hv (fun e T hT => ?_)
    subst e
    exact new_tgt h o hT
  · show i ∈ g.counted b → (g.sl b i = .used ∨ g.sl b i = .moved) ∧ g.hashed b i = true
    rw [hcs, hg.sl, hg.hashed]; exact q.ctd
  · show g.sl b i = .moved → d b = true ∧ g.hashed b i = true
    rw [hg.sl, hg.hashed]; exact fun e => ⟨hd (q.mvd e).1, (q.mvd e).2⟩
  · show (g.sl b i).full = true → ∃ e, ((s.write t ⟨b, .len⟩ v md).now _).entry = some e
    rw [hg.sl, w _ (by simp)]; exact q.data
  · show (g.sl b i).full = true → g.hashed b i = true → ∀ e, ((s.write t ⟨b, .len⟩ v md).now _).entry = some e →
      ((s.write t ⟨b, .len⟩ v md).now _).n = H e
    rw [hg.sl, hg.hashed, w _ (by simp), w _ (by simp)]; exact q.hash
  · intro u
    refine absurd ?_ n
    have u : g.sl b i = .writing ∨ g.sl b i = .recycling ∨ (g.sl b i = .used ∧ i ∉ g.counted b) := u
    rw [hg.sl, hcs] at u
    exact u
  · show ∀ T, g.tgt b i = some T → _
    rw [hg.tgt]; exact fun T hT => away_write h o v md hT

end

end Scc.Weak
