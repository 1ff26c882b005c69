import Verif.Vine.Cells
import Verif.Vine.Faith

/-!
# What a leaf without a mark tells an iterator, in all steps that take no mark away
-/

namespace Scc.Vine

open Scc.Grove

local notation "Key" => Nat
local notation "Id" => Nat
local notation "Thr" => Nat

variable {V : Type} {m m' : Mem V} {d d' : Lst} {A A' : Key → Option V} {src src' : Ref → Ref} {lt lt' : Id → Id → Prop} {w w' : View V}

/-- Calls. -/
theorem Marked.touch (B : Base m d A src) (I : VInv (view m d A) d lt) (M : Marked (view m d A) d) (T : Touch m A m' A')
    (hd : Lst.touch d m m' d') :
    Marked (view m' d' A') d' ∧ ∀ c y, Hold (view m d A) d c y → Hold (view m' d' A') d' c y := by
  have J := B.inv
  have W := B.world
  cases T with
  | same =>
    rcases hd with ⟨_, rfl⟩ | ⟨hd, _⟩
    · exact ⟨M, fun _ _ h => h⟩
    · exact absurd rfl hd
  | newRoot h =>
    rcases hd with ⟨_, rfl⟩ | ⟨hd, _⟩
    · refine ⟨M, fun c y hc => hc.none ?_ (fun _ h => h) fun _ h => h⟩
      rintro l ⟨k, ho⟩
      obtain ⟨r, hr, _⟩ := On.path ho
      rw [h] at hr; cases hr
    · exact absurd rfl hd
  | nullInsert n hn hc hl =>
    have hroot := B.nul n (J.lit_al hn) hc
    have hk : (m.node n).kids = [] := by
      cases hk : (m.node n).kids with
      | nil => rfl
      | cons a b =>
        obtain ⟨y, hy⟩ := J.shape.unb n (by simp [hk])
        rw [hc] at hy; cases hy
    have hd' : d' = d.fresh m.nL := by
      rcases hd with ⟨h, _⟩ | ⟨_, h⟩
      · have h : m.nL + 1 = m.nL := h
        omega
      · exact h
    subst hd'
    have dest : ∀ k, (m.node n).dest k = .null := fun k => by simp only [Node.dest, hk, route_nil, hc]
    have only : ∀ k y, On m.root m.node k y → y = .node n := by
      intro k y ho
      induction ho with
      | root h => rw [hroot] at h; cases h; rfl
      | step _ hd ih =>
        cases ih
        rw [dest] at hd; cases hd
    have empty : ∀ k, A k = none := fun k => J.mean.null k n (.root hroot) fun y => by rw [dest]; simp
    have unlit : ∀ l, ¬ (view m d A).lit l := fun l ⟨k, h⟩ => by cases only k _ h
    have noJob := I.idle W empty unlit
    exact ⟨fun c L hL => absurd hL (noJob c L), fun c y hc => hc.none unlit (fun _ h => h) fun _ h => h⟩
  | set k l L ho hf hg hr hr' hk =>
    rcases hd with ⟨_, rfl⟩ | ⟨hd, _⟩
    · refine ⟨M, fun c y hc => Hold.set (w' := view (m.setLeaf l L) d' (upd A k (L.get k))) W I (g := L.get) ho hf rfl rfl ?_ hc⟩
      funext z
      show (upd m.leaf l L z).get = _
      by_cases e : z = l
      · rw [e, upd_eq, upd_eq]
      · rw [upd_ne e, upd_ne e]; rfl
    · exact absurd rfl hd

/-- Changes of the linked list. -/
theorem Marked.relink (I : VInv (view m d A) d lt) (M : Marked (view m d A) d) (h : Relink m d d')
    (hm : ∀ l, d.mark l = true → d'.mark l = true) :
    Marked (view m d' A) d' ∧ (∀ l, d.gone l = true → d'.gone l = true) ∧
      ∀ c y, Hold (view m d A) d c y → Hold (view m d' A) d' c y := by
  have ho : d'.old = d.old := by cases h <;> rfl
  have e : view m d' A = view m d A := by simp only [view, ho]
  rw [e]
  have hg : ∀ l, d.gone l = true → d'.gone l = true := by
    have del : ∀ x l, d.gone l = true → (d.delete x).gone l = true := by
      intro x l h
      simp only [Lst.delete, upd_apply]
      split
      · rfl
      · exact h
    cases h <;> first | exact del _ | exact fun _ h => h
  refine ⟨?_, hg, fun c y hc => hc.same rfl rfl rfl hg hm⟩
  have same : d'.lst = d.lst → Marked (view m d A) d' := fun hl n J hj hq => hm _ (M n J hj (by rw [← hl]; exact hq))
  have push : ∀ {n : Id} {J : LJob} {z : Id}, (view m d A).job n = some J → z = J.xl ∨ z = J.xh → Marked (view m d A) (d.push J.x z) := by
    intro n J z hj hz c L hc hq
    have lst : ∀ a, (d.push J.x z).lst a = true → a = z ∨ d.lst a = true := fun a h => upd_true h
    simp only [Lst.push, upd_apply]
    split
    · rfl
    · next hne =>
      have no : ∀ a, L.mem a → a ≠ z := by
        rintro a ha rfl
        have := I.same hc hj ha (LJob.mem_copy hz)
        exact hne (by rw [this])
      refine M c L hc (hq.imp (fun h => ?_) fun h => ?_)
      · exact (lst _ h).resolve_left (no _ L.mem_l)
      · exact (lst _ h).resolve_left (no _ L.mem_h)
  cases h with
  | pushCopy n i x y h hy hx =>
    exact push (J := ⟨x, y, y, .copy⟩) (n := n) (by simp only [view, h, ljob]) (.inl rfl)
  | pushHigh n i x xl xh mid ch h hh hx =>
    exact push (J := ⟨x, xl, xh, .split⟩) (n := n) (by simp only [view, h, ljob]) (.inr rfl)
  | pushLow n i x xl xh mid ch h hh hl hx =>
    exact push (J := ⟨x, xl, xh, .split⟩) (n := n) (by simp only [view, h, ljob]) (.inl rfl)
  | _ => exact same rfl

/-- Structural changes. -/
theorem Marked.change (B : Base m d A src) (I : VInv (view m d A) d lt) (M : Marked (view m d A) d) (D : Data m m' d A src src')
    (B' : Base m' (d.after m m') A src') (I' : VInv (view m' (d.after m m') A) (d.after m m') lt) (hp : ∀ n, Pass d m m' n) :
    Marked (view m' (d.after m m') A) (d.after m m') ∧
      ∀ c y, Hold (view m d A) d c y → Hold (view m' (d.after m m') A) (d.after m m') c y := by
  have S := D.shift B I
  refine ⟨M.shift I S rfl rfl, fun c y h => Hold.shift B.world B'.world I I' S M rfl rfl rfl (fun k x ho => ?_) h⟩
  rcases D.drift.to k x ho with h | ⟨h1, y, h2, h3, h4⟩ | ⟨h1, _, _, n, i, h2, h3, h4⟩
  · exact .inl h
  · rcases B.twin h2 with e | e
    · subst e; exact .inl h3
    · exact .inr (.inl ⟨h1, y, e, h3, h4⟩)
  · refine .inr (.inr ⟨h1, ?_⟩)
    have P := hp n
    rcases h4 with h4 | ⟨h4, rfl, h5⟩
    · simp only [Pass, h2, h4] at P
      exact P x h3
    · simp only [Pass, h2, h4] at P
      exact P x h3 h5

/-- What is known of leaves without marks. -/
structure Keen (s : ISt V) (es : List (IEv V)) : Prop where
  marked : Marked (view s.base.mem s.list (mapOf es)) s.list
  cells : Cells s.base.mem s.list

theorem Keen.init : Keen (ISt.init (V := V)) [] := by
  refine ⟨fun n L h => ?_, fun n i l h => ?_⟩
  · simp [view, ISt.init, St.init, ljob] at h
  · simp [ISt.init, St.init] at h
    cases h

/-- Steps that iterators have no part in. -/
theorem Core.firm {s s' : ISt V} {es : List (IEv V)} {e : IEv V} (r : IRun s es) (C : Core s es src lt) (K : Keen s es) (h : IStep s e s')
    (hm : ∀ l, s.list.mark l = true → s'.list.mark l = true) (hi : e.who = none) (hit : s'.it = s.it) : ∃ src' lt', Core s' (e :: es) src' lt' ∧
      Flow (view s.base.mem s.list (mapOf es)) s.list lt (view s'.base.mem s'.list (mapOf (e :: es))) s'.list lt' ∧
      Keen s' (e :: es) ∧ (∀ l, s.list.gone l = true → s'.list.gone l = true) ∧
      ∀ c y, Hold (view s.base.mem s.list (mapOf es)) s.list c y → Hold (view s'.base.mem s'.list (mapOf (e :: es))) s'.list c y := by
  have S := r.base.inv.1
  obtain ⟨B, I⟩ := C
  obtain ⟨M, Ce⟩ := K
  cases h with
  | @call b e0 h hl =>
    have T := Touch.call S h
    obtain ⟨B', lt', I', F⟩ := B.touch I T (.inl ⟨hl, rfl⟩)
    obtain ⟨M', H⟩ := M.touch B I T (.inl ⟨hl, rfl⟩)
    exact ⟨src, lt', ⟨B', I'⟩, F, ⟨M', Ce.touch B.inv T (.inl ⟨hl, rfl⟩)⟩, fun _ h => h, H⟩
  | @leaf b e0 h hl =>
    have T := Touch.call S h
    obtain ⟨B', lt', I', F⟩ := B.touch I T (.inr ⟨hl, rfl⟩)
    obtain ⟨M', H⟩ := M.touch B I T (.inr ⟨hl, rfl⟩)
    exact ⟨src, lt', ⟨B', I'⟩, F, ⟨M', Ce.touch B.inv T (.inr ⟨hl, rfl⟩)⟩, fun _ h => h, H⟩
  | @change m h hp =>
    obtain ⟨src', D⟩ := B.change I (fun n hn hp => by
      obtain ⟨t, h1, h2⟩ := hn
      exact ((S.th t).vis h1 n h2).lock B.inv hp) h hp
    have B' := D.base B I
    obtain ⟨I', F⟩ := Flow.shift (d' := s.list.after s.base.mem m) B.world B'.world I (D.shift B I) rfl rfl rfl
    obtain ⟨M', H⟩ := M.change B I D B' I' hp
    exact ⟨src', lt, ⟨B', I'⟩, F, ⟨M', (Ce.change B I h hp).grow rfl fun _ h => h⟩, fun _ h => h, H⟩
  | relink h =>
    obtain ⟨B', lt', I', F⟩ := B.relink I h
    obtain ⟨M', hg, H⟩ := M.relink I h hm
    exact ⟨src, lt', ⟨B', I'⟩, F, ⟨M', Ce.grow rfl F.lst⟩, hg, H⟩
  | @iter t e p h =>
    have he : e = .tau := by
      rcases h.who with h | h
      · rw [hi] at h; cases h
      · exact h
    subst he
    exact ⟨src, lt, ⟨B, I⟩, .less (fun _ h => h) rfl, ⟨M, Ce⟩, fun _ h => h, fun _ _ h => h⟩

end Scc.Vine
