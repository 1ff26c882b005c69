import Verif.Vine.Change

/-!
# Changes of the linked list of leaves, and what iterators rely on
-/

namespace Scc.Vine

open Scc.Grove

local notation "Key" => Nat
local notation "Id" => Nat
local notation "Thr" => Nat

variable {V : Type} {m m' : Mem V} {d d' : Lst} {A : Key → Option V} {src src' : Ref → Ref} {lt lt' : Id → Id → Prop} {w w' : View V}

/-- What every step does to the leaves in the linked list. -/
structure Flow (w : View V) (d : Lst) (lt : Id → Id → Prop) (w' : View V) (d' : Lst) (lt' : Id → Id → Prop) : Prop where
  lst : ∀ l, d.lst l = true → d'.lst l = true
  lt : ∀ a b, d.lst a = true → d.lst b = true → lt a b → lt' a b
  /-- Leaves get the entries that stay from other leaves further to the front. -/
  back : ∀ k v z, w.map k = some v → w'.map k = some v → Live w' d' z → w'.get z k ≠ none →
    ∃ z0, Live w d z0 ∧ w.get z0 k ≠ none ∧ (z0 = z ∨ lt' z0 z)
  keep : ∀ l k v, d.lst l = true → w.map k = some v → w'.map k = some v → w.get l k = some v → w'.get l k = some v
  grow : ∀ l q, d.lst l = true → w'.get l q ≠ none → w.get l q ≠ none ∨ (In d' l ∧ ∀ n J, w'.job n = some J → J.x ≠ l)
  was : ∀ l q v, d.lst l = true → w'.get l q = some v → w.get l q = some v ∨ w'.map q = some v

/-! ## What iterators rely on -/

theorem Live.lst {z : Id} (h : Live w d z) : d.lst z = true := h.1.1

theorem Flow.ahead (F : Flow w d lt w' d' lt') (I' : VInv w' d' lt') {a : Id} {k : Key} {v : V} (ha : d.lst a = true) (h1 : w.map k = some v)
    (h2 : w'.map k = some v) (h : Ahead w d lt a k) : Ahead w' d' lt' a k := by
  intro z hz hg
  obtain ⟨z0, g1, g2, g3⟩ := F.back k v z h1 h2 hz hg
  have := F.lt a z0 ha g1.lst (h z0 g1 g2)
  rcases g3 with rfl | g3
  · exact this
  · exact I'.trans _ _ _ this g3

theorem Flow.from (F : Flow w d lt w' d' lt') (I' : VInv w' d' lt') {b : Id} {k : Key} {v : V} (hb : d.lst b = true) (h1 : w.map k = some v)
    (h2 : w'.map k = some v) (h : ∀ z, Live w d z → w.get z k ≠ none → z = b ∨ lt b z) :
    ∀ z, Live w' d' z → w'.get z k ≠ none → z = b ∨ lt' b z := by
  intro z hz hg
  obtain ⟨z0, g1, g2, g3⟩ := F.back k v z h1 h2 hz hg
  rcases h z0 g1 g2 with rfl | h
  · rcases g3 with rfl | g3
    · exact .inl rfl
    · exact .inr g3
  · have := F.lt b z0 hb g1.lst h
    rcases g3 with rfl | g3
    · exact .inr this
    · exact .inr (I'.trans _ _ _ this g3)

theorem Flow.fit (F : Flow w d lt w' d' lt') (W' : World w') (I' : VInv w' d' lt') {l : Id} {k : Key} {v : V} (hl : d.lst l = true)
    (h1 : w.map k = some v) (h2 : w'.map k = some v) (h : Fit w d lt k v l) : Fit w' d' lt' k v l := by
  rcases h with h | ⟨h, hq⟩
  · exact .inl (F.keep l k v hl h1 h2 h)
  · have ha := F.ahead I' hl h1 h2 h
    refine .inr ⟨ha, fun q hg => ?_⟩
    rcases F.grow l q hl hg with h' | ⟨hi, hj⟩
    · exact hq q h'
    · obtain ⟨z, hz, hzk⟩ := I'.complete W' h2
      have hzk' : w'.get z k ≠ none := by rw [hzk]; simp
      rcases I'.asc W' hi hz.1 hg hzk' (ha z hz hzk') with h' | ⟨n, J, hJ, e, _⟩
      · exact h'
      · exact absurd e (hj n J hJ)

/-- A step of a structural change. -/
theorem Flow.shift (W : World w) (W' : World w') (I : VInv w d lt) (S : Shift w w' d) (h1 : d'.link = d.link) (h2 : d'.gone = d.gone)
    (h3 : d'.lst = d.lst) : VInv w' d' lt ∧ Flow w d lt w' d' lt := by
  refine ⟨(I.shift W W' S).marks h1 h2 h3, fun l h => by rw [h3]; exact h, fun a b _ _ h => h, fun k v z _ _ hz hg => ?_,
    fun l k v hl _ _ h => ?_, fun l q hl h => .inl ?_, fun l q v hl h => .inl ?_⟩
  · obtain ⟨⟨z1, z2⟩, z3⟩ := hz
    rw [h3] at z1
    rw [h2] at z2
    have hlt := I.alL z z1
    refine ⟨z, ⟨⟨z1, z2⟩, ?_⟩, by rw [← S.get z hlt]; exact hg, .inl rfl⟩
    cases hd : w.dead z with
    | false => rfl
    | true => rw [S.dead z hd] at z3; cases z3
  · rw [S.get l (I.alL l hl)]; exact h
  · rw [← S.get l (I.alL l hl)]; exact h
  · rw [← S.get l (I.alL l hl)]; exact h

/-! ## Changes of the linked list -/

/-- Steps that change nothing but pointers and marks, and delete leaves. -/
theorem Flow.less (h2 : ∀ l, d.gone l = true → d'.gone l = true) (h3 : d'.lst = d.lst) : Flow w d lt w d' lt := by
  refine ⟨fun l h => by rw [h3]; exact h, fun a b _ _ h => h, fun k v z _ _ hz hg => ?_, fun l k v _ _ _ h => h, fun l q _ h => .inl h,
    fun l q v _ h => .inl h⟩
  obtain ⟨⟨z1, z2⟩, z3⟩ := hz
  refine ⟨z, ⟨⟨by rw [← h3]; exact z1, ?_⟩, z3⟩, hg, .inl rfl⟩
  cases hd : d.gone z with
  | false => rfl
  | true => rw [h2 z hd] at z2; cases z2

theorem VInv.pushed (W : World w) (I : VInv w d lt) {n : Id} {J : LJob} {z : Id} (hj : w.job n = some J)
    (hz : z = J.xl ∨ z = J.xh) (hs : J.st = .copy ∨ J.st = .split) (hg : d.gone J.x = false) (hl : d.lst z = false)
    (hh : J.st = .split → z = J.xl → d.lst J.xh = true) (hh' : J.st = .split → z = J.xh → d.lst J.xl = false) :
    VInv w (d.push J.x z) (pushLt lt J.x z) ∧ Flow w d lt w (d.push J.x z) (pushLt lt J.x z) := by
  have K := I.jobs n J hj
  have ne : ∀ a, d.lst a = true → a ≠ z := fun a ha e => by rw [e, hl] at ha; cases ha
  refine ⟨I.push W hj hz hs hg hl hh hh', fun l h => ?_, fun a b ha hb h => (pushLt_old (ne a ha) (ne b hb)).2 h, fun k v z' _ _ hz' hgk => ?_,
    fun l k v _ _ _ h => h, fun l q _ h => .inl h, fun l q v _ h => .inl h⟩
  · simp only [Lst.push, upd_apply]
    split
    · rfl
    · exact h
  · obtain ⟨⟨z1, z2⟩, z3⟩ := hz'
    by_cases e : z' = z
    · subst e
      refine ⟨J.x, ⟨⟨K.lst, hg⟩, K.liveX (by rcases hs with h | h <;> simp [h])⟩, ?_, .inr ((pushLt_right (ne _ K.lst)).2 (.inl rfl))⟩
      rw [get_copy K (by rcases hs with h | h <;> simp [h]) hz hgk]
      exact hgk
    · simp only [Lst.push, upd_ne e] at z1
      exact ⟨z', ⟨⟨z1, z2⟩, z3⟩, hgk, .inl rfl⟩

theorem JobL.delete {J : LJob} (K : JobL w d lt J) {z : Id} (hL : z = J.xl → J.st = .full ∧ d.gone J.xh = true) (hH : z = J.xh → J.st = .full)
    (hX : z = J.x → (J.st = .copy ∧ d.lst J.xl = true) ∨ J.st = .ins ∨ J.st = .thawed ∨ J.st = .fin) : JobL w (d.delete z) lt J := by
  obtain ⟨k1, k2, k3, k4, k5, k6, k7, k8, k9, k10, k11, k12, k13, k14, k15, k16, k17, k18, k19, k20, k21, k22, k23, k24, k25,
    k26, k27, k28⟩ := K
  have mono : ∀ l, d.gone l = true → (d.delete z).gone l = true := by
    intro l h
    simp only [Lst.delete, upd_apply]
    split
    · rfl
    · exact h
  have of : ∀ l, (d.delete z).gone l = true → z = l ∨ d.gone l = true := by
    intro l h
    simp only [Lst.delete, upd_apply] at h
    split at h
    · next e => exact .inl e.symm
    · exact .inr h
  refine ⟨k1, k2, k3, k4, k5, k6, k7, fun h1 h2 => ?_, k9, k10, fun h => ?_, fun h => ?_, fun h => ?_, fun h => mono _ (k14 h), k15, k16, k17,
    k18, k19, k20, k21, k22, k23, k24, k25, k26, k27, k28⟩
  · rcases of _ h2 with e | h
    · rcases hX e with ⟨_, h⟩ | h | h | h
      · exact h
      · rw [h1] at h; cases h
      · rw [h1] at h; cases h
      · rw [h1] at h; cases h
    · exact k8 h1 h
  · rcases of _ h with e | h
    · exact ⟨(hL e).1, mono _ (hL e).2⟩
    · exact ⟨(k11 h).1, mono _ (k11 h).2⟩
  · rcases of _ h with e | h
    · exact hH e
    · exact k12 h
  · rcases of _ h with e | h
    · rcases hX e with ⟨h, _⟩ | h
      · exact .inl h
      · exact .inr h
    · exact k13 h

theorem VInv.deleted (I : VInv w d lt) {x : Id} (hx : d.lst x = true)
    (hl : w.lit x → w.dead x = true ∨ w.ret x = true ∨ ∃ n J, w.job n = some J ∧ J.st = .copy ∧ J.x = x)
    (hj : ∀ n J, w.job n = some J → J.mem x → JobL w (d.delete x) lt J) : VInv w (d.delete x) lt ∧ Flow w d lt w (d.delete x) lt := by
  refine ⟨I.delete hx hl hj, .less (fun l h => ?_) rfl⟩
  simp only [Lst.delete, upd_apply]
  split
  · rfl
  · exact h

theorem Base.list (B : Base m d A src) (h : d'.old = d.old) : Base m d' A src := by
  have e : view m d' A = view m d A := by simp only [view, h]
  exact ⟨B.inv, by rw [e, h]; exact B.old, by rw [e]; exact B.fdead, by rw [e]; exact B.sc, B.nul, by rw [e]; exact B.fin1⟩

/-- All changes of the linked list. -/
theorem Base.relink (B : Base m d A src) (I : VInv (view m d A) d lt) (h : Relink m d d') :
    Base m d' A src ∧ ∃ lt', VInv (view m d' A) d' lt' ∧ Flow (view m d A) d lt (view m d' A) d' lt' := by
  have W := B.world
  have J := B.inv
  have ho : d'.old = d.old := by cases h <;> rfl
  have e : view m d' A = view m d A := by simp only [view, ho]
  refine ⟨B.list ho, ?_⟩
  rw [e]
  cases h with
  | pushCopy n i x y h hy hx =>
    have jn : (view m d A).job n = some ⟨x, y, y, .copy⟩ := by simp only [view, h, ljob]
    exact ⟨_, I.pushed W jn (.inl rfl) (.inl rfl) hx hy (fun h => by cases h) (fun h => by cases h)⟩
  | pushHigh n i x xl xh mid ch h hh hx =>
    have jn : (view m d A).job n = some ⟨x, xl, xh, .split⟩ := by simp only [view, h, ljob]
    have K := I.jobs n _ jn
    refine ⟨_, I.pushed W jn (.inr rfl) (.inr rfl) hx hh (fun _ h => absurd h.symm (K.two (by simp))) fun _ _ => ?_⟩
    cases hl : d.lst xl with
    | false => rfl
    | true => have := K.lstS rfl hl; rw [hh] at this; cases this
  | pushLow n i x xl xh mid ch h hh hl hx =>
    have jn : (view m d A).job n = some ⟨x, xl, xh, .split⟩ := by simp only [view, h, ljob]
    have K := I.jobs n _ jn
    exact ⟨_, I.pushed W jn (.inl rfl) (.inr rfl) hx hl (fun _ _ => hh) fun _ h => absurd h (K.two (by simp))⟩
  | delCopy n i x y h hy =>
    have jn : (view m d A).job n = some ⟨x, y, y, .copy⟩ := by simp only [view, h, ljob]
    have K := I.jobs n _ jn
    refine ⟨_, I.deleted K.lst (fun _ => .inr (.inr ⟨n, _, jn, rfl, rfl⟩)) fun c L hc hm => ?_⟩
    obtain ⟨rfl, rfl⟩ := I.job_eq jn (LJob.mem_x _) hc hm
    exact K.delete (fun e => absurd e.symm K.neL) (fun e => absurd e.symm K.neH) fun _ => .inl ⟨rfl, hy⟩
  | delSplit n i x xl xh mid ch h =>
    have hj : (m.phase n).job = some ⟨.leaf x, xl, xh, mid, ch⟩ := by rw [h]; rfl
    obtain ⟨a, b, e, e'⟩ := Inv.leaves J hj rfl
    simp only at e e'
    subst e e'
    have jn : (view m d A).job n = some ⟨x, a, b, .ins⟩ := by simp only [view, h, ljob]
    have K := I.jobs n _ jn
    refine ⟨_, I.deleted K.lst (fun _ => .inl (K.deadX (.inl rfl))) fun c L hc hm => ?_⟩
    obtain ⟨rfl, rfl⟩ := I.job_eq jn (LJob.mem_x _) hc hm
    exact K.delete (fun e => absurd e.symm K.neL) (fun e => absurd e.symm K.neH) fun _ => .inr (.inl rfl)
  | delCommit n xl xh nl nh h =>
    have jn : (view m d A).job n = some ⟨d.old n, xl, xh, .fin⟩ := by simp only [view, h, ljob]
    have K := I.jobs n _ jn
    refine ⟨_, I.deleted K.lst (fun _ => .inl (K.deadX (.inr (.inr rfl)))) fun c L hc hm => ?_⟩
    obtain ⟨rfl, rfl⟩ := I.job_eq jn (LJob.mem_x _) hc hm
    exact K.delete (fun e => absurd e.symm K.neL) (fun e => absurd e.symm K.neH) fun _ => .inr (.inr (.inr rfl))
  | delHigh n i x xl xh mid ch h =>
    have jn : (view m d A).job n = some ⟨x, xl, xh, .full⟩ := by simp only [view, h, ljob]
    have K := I.jobs n _ jn
    refine ⟨_, I.deleted (K.lstO (by simp) (by simp)).2 (fun hl => absurd hl (W.unlitH n _ jn (by simp) (by simp))) fun c L hc hm => ?_⟩
    obtain ⟨rfl, rfl⟩ := I.job_eq jn (LJob.mem_h _) hc hm
    exact K.delete (fun e => absurd e.symm (K.two (by simp))) (fun _ => rfl) fun e => absurd e K.neH
  | delLow n i x xl xh mid ch h hh =>
    have jn : (view m d A).job n = some ⟨x, xl, xh, .full⟩ := by simp only [view, h, ljob]
    have K := I.jobs n _ jn
    refine ⟨_, I.deleted (K.lstO (by simp) (by simp)).1 (fun hl => absurd hl (W.unlitL n _ jn (by simp))) fun c L hc hm => ?_⟩
    obtain ⟨rfl, rfl⟩ := I.job_eq jn (LJob.mem_l _) hc hm
    exact K.delete (fun _ => ⟨rfl, hh⟩) (fun _ => rfl) fun e => absurd e K.neL
  | delRet n j l h hj hc hr =>
    obtain ⟨_, hu, _⟩ := J.locked_child h hj hc
    exact ⟨_, I.deleted (I.lit l (hu.child hc)).1 (fun _ => .inr (.inl hr)) fun c L hL hm => absurd hm (B.child_free h hj hc c L hL)⟩
  | unmark n h => exact ⟨_, I.marks rfl rfl rfl, .less (fun l h => h) rfl⟩
  | skip a b h hg => exact ⟨_, I.skip h hg, .less (fun l h => h) rfl⟩

end Scc.Vine
