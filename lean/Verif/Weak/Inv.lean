import Verif.Weak.Model

/-!
# What holds in every state of the release/acquire model

The invariant relates the histories of the two bitmaps and of `len` to the lives of the slots.
-/

namespace Scc.Weak

theorem upd_same {α β : Type} [DecidableEq α] (f : α → β) (a : α) (x : β) : upd f a x a = x := by simp [upd]

theorem upd_ne {α β : Type} [DecidableEq α] {f : α → β} {a y : α} {x : β} (h : y ≠ a) : upd f a x y = f y := by
  simp [upd, h]

theorem upd2_same {β : Type} (f : Nat → Nat → β) (a b : Nat) (x : β) : upd2 f a b x a b = x := by simp [upd2]

theorem upd2_ne {β : Type} {f : Nat → Nat → β} {a b y z : Nat} {x : β} (h : ¬(y = a ∧ z = b)) :
    upd2 f a b x y z = f y z := by
  simp only [upd2, h, if_false]

/-- The fields of buckets, which are protected by their locks. -/
def Field.inB : Field → Bool
  | .helpers => false
  | .link => false
  | _ => true

/-- The entry is in the slot, or was when it was moved. -/
def Slot.full : Slot → Bool
  | .used => true
  | .marked => true
  | .moved => true
  | _ => false

/-- A history with one more value. -/
def push (m : Nat → Msg) (n : Nat) (x : Msg) : Nat → Msg := fun k => if k = n + 1 then x else m k

theorem push_new (m : Nat → Msg) (n : Nat) (x : Msg) : push m n x (n + 1) = x := by simp [push]

theorem push_old {m : Nat → Msg} {n k : Nat} {x : Msg} (h : k ≤ n) : push m n x k = m k := by
  have : k ≠ n + 1 := by omega
  simp [push, this]

/-! ## Writes -/

section
variable {s : St} {t : Nat} {l : Loc} {v : Val} {r : Bool}

theorem write_cnt : (s.write t l v r).cnt l = s.cnt l + 1 := upd_same ..

theorem write_cnt_ne {l' : Loc} (h : l' ≠ l) : (s.write t l v r).cnt l' = s.cnt l' := upd_ne h

theorem write_cnt_le (l' : Loc) : s.cnt l' ≤ (s.write t l v r).cnt l' := by
  by_cases h : l' = l
  · subst h; rw [write_cnt]; omega
  · rw [write_cnt_ne h]; exact Nat.le_refl _

theorem write_msg : (s.write t l v r).msg l =
    push (s.msg l) (s.cnt l) ⟨v, if r then upd (s.view t) l (s.cnt l + 1) else .zero⟩ := by
  funext k
  simp [St.write, push]

theorem write_msg_ne {l' : Loc} (h : l' ≠ l) : (s.write t l v r).msg l' = s.msg l' := by
  funext k
  simp [St.write, h]

theorem write_now : (s.write t l v r).now l = v := by
  simp only [St.now, write_cnt, write_msg, push_new]

theorem write_now_ne {l' : Loc} (h : l' ≠ l) : (s.write t l v r).now l' = s.now l' := by
  simp only [St.now, write_cnt_ne h, write_msg_ne h]

theorem write_view : (s.write t l v r).view t l = s.cnt l + 1 := by
  simp [St.write, upd]

theorem write_view_ne {l' : Loc} {u : Nat} (h : ¬(u = t ∧ l' = l)) : (s.write t l v r).view u l' = s.view u l' := by
  show upd s.view t _ u l' = _
  by_cases hu : u = t
  · subst hu
    rw [upd_same, upd_ne (fun e => h ⟨rfl, e⟩)]
  · rw [upd_ne hu]

end

/-! ## Views -/

/-- Nobody has seen what is not there; whoever has a lock has seen everything in the bucket. -/
structure Views (s : St) : Prop where
  vle : ∀ t l, s.view t l ≤ s.cnt l
  lle : ∀ b l, s.lockView b l ≤ s.cnt l
  mle : ∀ l k l', (s.msg l k).view l' ≤ s.cnt l'
  act : ∀ t v, s.act t = some v → ∀ l, v l ≤ s.view t l
  own : ∀ b t, s.own b = some t → ∀ f, f.inB = true → s.view t ⟨b, f⟩ = s.cnt ⟨b, f⟩
  free : ∀ b, s.own b = none → ∀ f, f.inB = true → s.lockView b ⟨b, f⟩ = s.cnt ⟨b, f⟩

theorem Views.write {s : St} (h : Views s) {t b : Nat} {f : Field} {v : Val} {r : Bool} (o : s.own b = some t) :
    Views (s.write t ⟨b, f⟩ v r) := by
  have new : ∀ l', (upd (s.view t) ⟨b, f⟩ (s.cnt ⟨b, f⟩ + 1)) l' ≤ (s.write t ⟨b, f⟩ v r).cnt l' := by
    intro l'
    by_cases e : l' = ⟨b, f⟩
    · subst e; rw [upd_same, write_cnt]; exact Nat.le_refl _
    · rw [upd_ne e, write_cnt_ne e]; exact h.vle t l'
  refine ⟨fun u l => ?_, fun c l => ?_, fun l k l' => ?_, fun u w hu l => ?_, fun c u hc g hg => ?_, fun c hc g hg => ?_⟩
  · by_cases e : u = t
    · subst e
      show upd s.view u _ u l ≤ _
      rw [upd_same]; exact new l
    · show upd s.view t _ u l ≤ _
      rw [upd_ne e]; exact Nat.le_trans (h.vle u l) (write_cnt_le l)
  · exact Nat.le_trans (h.lle c l) (write_cnt_le l)
  · by_cases e : l = ⟨b, f⟩
    · subst e
      rw [write_msg]
      by_cases ek : k = s.cnt ⟨b, f⟩ + 1
      · subst ek
        rw [push_new]
        cases r
        · exact Nat.zero_le _
        · exact new l'
      · simp only [push, ek, if_false]
        exact Nat.le_trans (h.mle _ k l') (write_cnt_le l')
    · rw [write_msg_ne e]
      exact Nat.le_trans (h.mle l k l') (write_cnt_le l')
  · have := h.act u w hu l
    by_cases e : u = t ∧ l = ⟨b, f⟩
    · obtain ⟨rfl, rfl⟩ := e
      rw [write_view]
      exact Nat.le_trans this (Nat.le_succ_of_le (h.vle _ _))
    · rw [write_view_ne e]; exact this
  · have hc' : s.own c = some u := hc
    by_cases e : (⟨c, g⟩ : Loc) = ⟨b, f⟩
    · injection e with e1 e2
      subst e1; subst e2
      rw [o] at hc'
      injection hc' with e3
      subst e3
      rw [write_view, write_cnt]
    · rw [write_view_ne (fun q => e q.2), write_cnt_ne e]
      exact h.own c u hc' g hg
  · have hc' : s.own c = none := hc
    have e : (⟨c, g⟩ : Loc) ≠ ⟨b, f⟩ := by
      intro e
      injection e with e1 e2
      subst e1
      rw [o] at hc'
      cases hc'
    rw [write_cnt_ne e]
    exact h.free c hc' g hg

/-- Only views change, and no thread knows less. -/
theorem Views.grow {s : St} (h : Views s) {t : Nat} {w : View} (h1 : ∀ l, s.view t l ≤ w l) (h2 : ∀ l, w l ≤ s.cnt l) :
    Views { s with view := upd s.view t w } := by
  refine ⟨fun u l => ?_, h.lle, h.mle, fun u v hu l => ?_, fun c u hc g hg => ?_, h.free⟩
  · by_cases e : u = t
    · subst e; show upd s.view u w u l ≤ _; rw [upd_same]; exact h2 l
    · show upd s.view t w u l ≤ _; rw [upd_ne e]; exact h.vle u l
  · by_cases e : u = t
    · subst e; show _ ≤ upd s.view u w u l; rw [upd_same]; exact Nat.le_trans (h.act u v hu l) (h1 l)
    · show _ ≤ upd s.view t w u l; rw [upd_ne e]; exact h.act u v hu l
  · by_cases e : u = t
    · subst e
      show upd s.view u w u ⟨c, g⟩ = s.cnt ⟨c, g⟩
      rw [upd_same]
      have a := h1 ⟨c, g⟩
      have b := h2 ⟨c, g⟩
      have d := h.own c u hc g hg
      omega
    · show upd s.view t w u ⟨c, g⟩ = _; rw [upd_ne e]; exact h.own c u hc g hg

theorem join_l (v w : View) (l : Loc) : v l ≤ View.join v w l := Nat.le_max_left ..

theorem join_r (v w : View) (l : Loc) : w l ≤ View.join v w l := Nat.le_max_right ..

theorem join_le {v w : View} {l : Loc} {n : Nat} (h : v l ≤ n) (k : w l ≤ n) : View.join v w l ≤ n := Nat.max_le.2 ⟨h, k⟩

/-! ## Slots -/

def Tgt.le (T : Tgt) (v : View) : Prop := T.born ≤ v ⟨T.c, .occ⟩ ∧ T.len ≤ v ⟨T.c, .len⟩ ∧ T.rc ≤ v ⟨T.c, .rem⟩

theorem Tgt.le.mono {T : Tgt} {v w : View} (h : T.le v) (k : ∀ l, v l ≤ w l) : T.le w :=
  ⟨Nat.le_trans h.1 (k _), Nat.le_trans h.2.1 (k _), Nat.le_trans h.2.2 (k _)⟩

/-- The history `m` of `occupied_bitmap` up to `n`, for slot `i`; `ld`, `lh` are its cells, last written at `cd`, `ch`. -/
structure OccOk (n : Nat) (m : Nat → Msg) (sl : Slot) (oc born i : Nat) (ld lh : Loc) (cd ch : Nat) (hd : Bool)
    (T : Option Tgt) : Prop where
  oc_le : oc ≤ n
  born_le : sl.full = true → born ≤ n
  old : ∀ k, k ≤ n → (m k).val.bit i = true → k < oc ∨ (born ≤ k ∧ sl.full = true)
  data : sl.full = true → ∀ k, born ≤ k → k ≤ n → (m k).view ld = cd
  hash : sl.full = true → hd = true → ∀ k, born ≤ k → k ≤ n → (m k).view lh = ch
  set : sl = .used ∨ sl = .marked → ∀ k, born ≤ k → k ≤ n → (m k).val.bit i = true
  unset : sl ≠ .used → sl ≠ .marked → (m n).val.bit i = false
  tgt : sl = .moved → ∃ t, T = some t ∧ ∀ k, born ≤ k → k ≤ n → (m k).val.bit i = false → t.le (m k).view

/-- The history of `removed_bitmap`; `lo` is the other bitmap. -/
structure RemOk (n : Nat) (m : Nat → Msg) (sl : Slot) (oc rc floor mark i : Nat) (lo : Loc) : Prop where
  rc_le : rc ≤ n
  ocv : sl ≠ .recycling → ∀ k, rc ≤ k → k ≤ n → oc ≤ (m k).view lo
  low : ∀ k, floor ≤ k → k < rc → (m k).val.bit i = true
  floor_le : sl = .recycling → floor ≤ n
  again : sl = .recycling → ∀ k, floor ≤ k → k ≤ n → (m k).val.bit i = true
  mark_le : sl = .marked → mark ≤ n
  marked : sl = .marked → ∀ k, mark ≤ k → k ≤ n → (m k).val.bit i = true
  clear : sl ≠ .marked → sl ≠ .recycling → ∀ k, rc ≤ k → k ≤ n → (m k).val.bit i = false

/-- The history of `len`. -/
structure LenOk (md : Bool) (n : Nat) (m : Nat → Msg) (sl : Slot) (lenIx i : Nat) (cs : List Nat) (T : Option Tgt) : Prop where
  le : i ∈ cs → lenIx ≤ n
  pos : i ∈ cs → ∀ k, lenIx ≤ k → k ≤ n → (m k).val.n ≠ 0
  away : md = true → sl = .moved → i ∉ cs → ∀ t, T = some t → ∀ k, lenIx ≤ k → k ≤ n → (m k).val.n = 0 → t.le (m k).view

def Phase.touch : Phase → Nat → Nat → Prop
  | .insHash b i _ _, c, j => b = c ∧ i = j
  | .insOcc b i _ _, c, j => b = c ∧ i = j
  | .insLen b i _ _, c, j => b = c ∧ i = j
  | .mkHash b i, c, j => b = c ∧ i = j
  | .mkRem b i, c, j => b = c ∧ i = j
  | .rcRem b D, c, j => b = c ∧ D j = true
  | _, _, _ => False

/-- A slot in a state in which only its owner leaves it. -/
def Unrest (s : St) (b i : Nat) : Prop :=
  s.g.sl b i = .writing ∨ s.g.sl b i = .recycling ∨ (s.g.sl b i = .used ∧ i ∉ s.g.counted b)

structure SlotOk (H : Nat → Nat) (md : Bool) (s : St) (b i : Nat) : Prop where
  occ : OccOk (s.cnt ⟨b, .occ⟩) (s.msg ⟨b, .occ⟩) (s.g.sl b i) (s.g.oc b i) (s.g.born b i) i ⟨b, .data i⟩ ⟨b, .hash i⟩
    (s.cnt ⟨b, .data i⟩) (s.cnt ⟨b, .hash i⟩) (s.g.hashed b i) (s.g.tgt b i)
  rem : RemOk (s.cnt ⟨b, .rem⟩) (s.msg ⟨b, .rem⟩) (s.g.sl b i) (s.g.oc b i) (s.g.rc b i) (s.g.floor b i) (s.g.mark b i) i
    ⟨b, .occ⟩
  len : LenOk md (s.cnt ⟨b, .len⟩) (s.msg ⟨b, .len⟩) (s.g.sl b i) (s.g.lenIx b i) i (s.g.counted b) (s.g.tgt b i)
  ctd : i ∈ s.g.counted b → (s.g.sl b i = .used ∨ s.g.sl b i = .moved) ∧ s.g.hashed b i = true
  mvd : s.g.sl b i = .moved → s.dead b = true ∧ s.g.hashed b i = true
  data : (s.g.sl b i).full = true → ∃ e, (s.now ⟨b, .data i⟩).entry = some e
  hash : (s.g.sl b i).full = true → s.g.hashed b i = true →
    ∀ e, (s.now ⟨b, .data i⟩).entry = some e → (s.now ⟨b, .hash i⟩).n = H e
  busy : Unrest s b i → ∃ t, s.own b = some t ∧ (s.ph t).touch b i
  away : ∀ T, s.g.tgt b i = some T → (∀ t, s.own b = some t → T.le (s.view t)) ∧ (s.own b = none → T.le (s.lockView b))

/-- The slot in the old array an entry is being taken from. -/
def From (s : St) (t b e : Nat) (k : Option (Nat × Nat)) : Prop :=
  ∀ b' i', k = some (b', i') → s.own b' = some t ∧ b' ≠ b ∧ s.g.sl b' i' = .used ∧ i' ∈ s.g.counted b' ∧
    s.dead b' = true ∧ (s.now ⟨b', .data i'⟩).entry = some e

def PhOk (H : Nat → Nat) (s : St) (t : Nat) : Phase → Prop
  | .idle => True
  | .insHash b i e k => s.own b = some t ∧ s.g.sl b i = .writing ∧ (s.now ⟨b, .data i⟩).entry = some e ∧ From s t b e k
  | .insOcc b i e k => s.own b = some t ∧ s.g.sl b i = .writing ∧ (s.now ⟨b, .data i⟩).entry = some e ∧ From s t b e k ∧
      s.g.hashed b i = true ∧ (s.now ⟨b, .hash i⟩).n = H e
  | .insLen b i e k => s.own b = some t ∧ s.g.sl b i = .used ∧ i ∉ s.g.counted b ∧
      (s.now ⟨b, .data i⟩).entry = some e ∧ From s t b e k ∧ s.g.hashed b i = true
  | .out b i c j => s.own b = some t ∧ s.own c = some t ∧ b ≠ c ∧ s.g.sl b i = .used ∧ i ∈ s.g.counted b ∧
      s.dead b = true ∧ s.g.sl c j = .used ∧ j ∈ s.g.counted c
  | .outLen b i => s.own b = some t ∧ s.g.sl b i = .moved ∧ i ∈ s.g.counted b
  | .mkHash b i => s.own b = some t ∧ s.g.sl b i = .used ∧ i ∉ s.g.counted b ∧ s.dead b = false
  | .mkRem b i => s.own b = some t ∧ s.g.sl b i = .used ∧ i ∉ s.g.counted b ∧ s.dead b = false
  | .rcRem b D => s.own b = some t ∧ ∀ i, D i = true → s.g.sl b i = .recycling
  | .rcDrop b D => s.own b = some t ∧ ∀ i, D i = true → s.g.sl b i = .free

def RdOk (s : St) (t : Nat) : RPc → Prop
  | .occ b _ f r => ∃ v, s.act t = some v ∧ v ⟨b, .rem⟩ ≤ r ∧ r ≤ s.cnt ⟨b, .rem⟩ ∧
      ∀ i, f i = false → s.g.sl b i ≠ .recycling ∧ s.g.oc b i ≤ s.view t ⟨b, .occ⟩ ∧
        (s.g.sl b i = .marked → r < s.g.mark b i)
  | .look b _ bm r => ∃ v, s.act t = some v ∧ v ⟨b, .rem⟩ ≤ r ∧ r ≤ s.cnt ⟨b, .rem⟩ ∧
      ∀ i, bm i = true → (s.g.sl b i).full = true ∧ s.view t ⟨b, .data i⟩ = s.cnt ⟨b, .data i⟩ ∧
        (s.g.sl b i = .marked → r < s.g.mark b i)
  | .hit b _ i => ∃ v r, s.act t = some v ∧ v ⟨b, .rem⟩ ≤ r ∧ r ≤ s.cnt ⟨b, .rem⟩ ∧
      (s.g.sl b i).full = true ∧ s.view t ⟨b, .data i⟩ = s.cnt ⟨b, .data i⟩ ∧ (s.g.sl b i = .marked → r < s.g.mark b i)
  | .len _ _ => ∃ v, s.act t = some v
  | .rem _ _ => ∃ v, s.act t = some v
  | _ => True

structure Inv (H : Nat → Nat) (md : Bool) (s : St) : Prop where
  v : Views s
  slot : ∀ b i, SlotOk H md s b i
  ph : ∀ t, PhOk H s t (s.ph t)
  rd : ∀ t, RdOk s t (s.pc t)
  act : ∀ t v, s.act t = some v → ∀ b i, s.g.floor b i ≤ v ⟨b, .rem⟩
  cs : ∀ b, (s.g.counted b).Nodup ∧ (s.now ⟨b, .len⟩).n = (s.g.counted b).length

theorem Inv.init (H : Nat → Nat) (md : Bool) : Inv H md .init := by
  refine ⟨⟨fun _ _ => Nat.le_refl _, fun _ _ => Nat.le_refl _, fun _ _ _ => Nat.le_refl _, (fun _ _ h => by cases h),
    (fun _ _ h => by cases h), fun _ _ _ _ => rfl⟩, fun b i => ?_, fun t => trivial, fun t => trivial,
    (fun _ _ h => by cases h), fun b => ⟨List.nodup_nil, rfl⟩⟩
  refine ⟨⟨Nat.le_refl _, (fun h => by cases h), ?_, (fun h => by cases h), (fun h => by cases h), ?_, fun _ _ => rfl,
    (fun h => by cases h)⟩, ⟨Nat.le_refl _, fun _ _ _ _ => Nat.zero_le _, fun k _ h => absurd h (Nat.not_lt_zero _),
    (fun h => by cases h), (fun h => by cases h), (fun h => by cases h), (fun h => by cases h), fun _ _ _ _ _ => rfl⟩,
    ⟨fun h => absurd h List.not_mem_nil, fun h => absurd h List.not_mem_nil, (fun _ h => by cases h)⟩, fun h => absurd h List.not_mem_nil,
    (fun h => by cases h), (fun h => by cases h), (fun h => by cases h), ?_, (fun _ h => by cases h)⟩
  · intro k _ h; cases h
  · intro h; rcases h with h | h <;> cases h
  · intro h
    rcases h with h | h | ⟨h, _⟩ <;> cases h

end Scc.Weak
