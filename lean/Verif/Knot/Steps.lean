import Verif.Knot.Inv

/-! # Every step keeps the invariant -/

namespace Scc.Knot

/-- The copies of the leaf node at the end of a chain. -/
def Last (ch : List Nat) (b n : Nat) : Prop := b ≤ n ∧ n < b + 2 * ch.length ∧ b + 2 * ch.length ≤ n + 2

theorem mem_commit {o : Op} (x : Nat) (sub : List Nat) (b : Nat) :
    o ∈ commit (x :: sub) b ↔ (∃ n, n ∈ x :: sub ∧ o = .poi n) ∨ ∃ n, Last (x :: sub) b n ∧ o = .rel n := by
  induction sub generalizing x b with
  | nil =>
    constructor
    · intro h
      have h : o ∈ [Op.rel b, .rel (b + 1), .poi x] := h
      simp only [List.mem_cons, List.not_mem_nil, or_false] at h
      rcases h with h | h | h
      · exact .inr ⟨b, ⟨by omega, (by show b < b + 2 * 1; omega), (by show b + 2 * 1 ≤ _; omega)⟩, h⟩
      · exact .inr ⟨b + 1, ⟨by omega, (by show b + 1 < b + 2 * 1; omega), (by show b + 2 * 1 ≤ _; omega)⟩, h⟩
      · exact .inl ⟨x, List.mem_cons_self, h⟩
    · intro h
      show o ∈ [Op.rel b, .rel (b + 1), .poi x]
      simp only [List.mem_cons, List.not_mem_nil, or_false]
      rcases h with ⟨n, h1, h2⟩ | ⟨n, ⟨h1, h2, h3⟩, h4⟩
      · rw [List.mem_singleton] at h1
        subst h1
        exact .inr (.inr h2)
      · have h2 : n < b + 2 * 1 := h2
        have : n = b ∨ n = b + 1 := by omega
        rcases this with e | e
        · exact .inl (e ▸ h4)
        · exact .inr (.inl (e ▸ h4))
  | cons y rest ih =>
    have e : commit (x :: y :: rest) b = .poi x :: commit (y :: rest) (b + 2) := rfl
    have l : ∀ n, Last (x :: y :: rest) b n ↔ Last (y :: rest) (b + 2) n := by
      intro n
      have e1 : (x :: y :: rest).length = rest.length + 2 := rfl
      have e2 : (y :: rest).length = rest.length + 1 := rfl
      rw [Last, Last, e1, e2]
      omega
    rw [e, List.mem_cons, ih]
    constructor
    · rintro (h | ⟨n, h1, h2⟩ | ⟨n, h1, h2⟩)
      · exact .inl ⟨x, List.mem_cons_self, h⟩
      · exact .inl ⟨n, List.mem_cons_of_mem _ h1, h2⟩
      · exact .inr ⟨n, (l n).mpr h1, h2⟩
    · rintro (⟨n, h1, h2⟩ | ⟨n, h1, h2⟩)
      · rcases List.mem_cons.mp h1 with e | h1
        · subst e; exact .inl h2
        · exact .inr (.inl ⟨n, h1, h2⟩)
      · exact .inr (.inr ⟨n, (l n).mp h1, h2⟩)

theorem mem_commit_nodes {m : Nat} (x : Nat) (sub : List Nat) (b : Nat) :
    m ∈ (commit (x :: sub) b).map Op.node ↔ m ∈ x :: sub ∨ Last (x :: sub) b m := by
  rw [List.mem_map]
  constructor
  · rintro ⟨o, h1, h2⟩
    rcases (mem_commit x sub b).mp h1 with ⟨n, h3, h4⟩ | ⟨n, h3, h4⟩
    · subst h4; subst h2; exact .inl h3
    · subst h4; subst h2; exact .inr h3
  · rintro (h | h)
    · exact ⟨.poi m, (mem_commit x sub b).mpr (.inl ⟨m, h, rfl⟩), rfl⟩
    · exact ⟨.rel m, (mem_commit x sub b).mpr (.inr ⟨m, h, rfl⟩), rfl⟩

theorem nodup_commit (x : Nat) (sub : List Nat) (b : Nat) (hn : (x :: sub).Nodup) (hb : ∀ n, n ∈ x :: sub → n < b) :
    ((commit (x :: sub) b).map Op.node).Nodup := by
  induction sub generalizing x b with
  | nil =>
    have := hb x List.mem_cons_self
    show [b, b + 1, x].Nodup
    simp only [List.nodup_cons, List.mem_cons, List.not_mem_nil, or_false, not_or, List.nodup_nil, not_false_eq_true, and_true]
    omega
  | cons y rest ih =>
    have e : (commit (x :: y :: rest) b).map Op.node = x :: (commit (y :: rest) (b + 2)).map Op.node := rfl
    obtain ⟨h1, h2⟩ := List.nodup_cons.mp hn
    rw [e, List.nodup_cons, mem_commit_nodes]
    refine ⟨?_, ih y (b + 2) h2 (fun n h => Nat.lt_add_right 2 (hb n (List.mem_cons_of_mem _ h)))⟩
    rintro (h | h)
    · exact h1 h
    · have := hb x List.mem_cons_self
      have := h.1
      omega

theorem LivePc.frame {live live' : Nat → Bool} {c : Pc} (h : LivePc live c) (hl : ∀ n, n ∈ owned c → live' n = live n) : LivePc live' c := by
  cases c with
  | fin ops a =>
    refine ⟨fun n hn => ?_, fun n hn => ?_⟩
    · rw [hl n (List.mem_map.mpr ⟨_, hn, rfl⟩)]; exact h.1 n hn
    · rw [hl n (List.mem_map.mpr ⟨_, hn, rfl⟩)]; exact h.2 n hn
  | idle => exact fun n hn => (hl n hn).trans (h n hn)
  | climb _ => exact fun n hn => (hl n hn).trans (h n hn)
  | join _ _ => exact fun n hn => (hl n hn).trans (h n hn)
  | wait _ _ => exact fun n hn => (hl n hn).trans (h n hn)
  | mow _ _ _ => exact fun n hn => (hl n hn).trans (h n hn)
  | cut _ _ _ => exact fun n hn => (hl n hn).trans (h n hn)
  | clean _ => exact fun n hn => (hl n hn).trans (h n hn)
  | coal _ => exact fun n hn => (hl n hn).trans (h n hn)

/-- The copies are put in place. -/
theorem inv_copy {s s' : State} {t x p b : Nat} {sub : List Nat} {g K : Nat → List Nat} (I : Inv s)
    (hnb : s.next ≤ b) (F : Forest K s.live b) (hKk : ∀ n, n ≠ p → K n = s.kids n) (hch : Chain K (x :: sub))
    (hnd : (x :: sub).Nodup) (hlive : ∀ n, n ∈ x :: sub → s.live n = true)
    (hp : p < b) (hpn : p ∉ x :: sub) (hpl : s.live p = true) (hx : x ∈ K p) (hg : Parts K g (x :: sub) b)
    (hpu : ∀ u, u ≠ t → p ∉ owned (s.pc u)) (hown : ∀ n, n ∈ owned (s.pc t) → n = p ∨ n ∈ x :: sub)
    (hsub : ∀ n, n ∈ x :: sub → n ∈ owned (s.pc t))
    (hbn : ∀ n, s.next ≤ n → n < b → n = p)
    (e1 : s'.next = b + 2 * (x :: sub).length) (e2 : s'.kids = after K g x sub p b)
    (e3 : ∀ n, s'.live n = if n ∈ x :: sub then false else s.live n)
    (e4 : ∀ n, (n = p ∨ Last (x :: sub) b n) → s'.lock n = .held t) (e5 : ∀ n, ¬ (n = p ∨ Last (x :: sub) b n) → s'.lock n = s.lock n)
    (e6 : ∀ u, s'.pc u = if u = t then .fin (.rel p :: commit (x :: sub) b) none else s.pc u)
    (w1 : ∀ n, s.was n = true → s'.was n = true) (w2 : ∀ n, s'.was n = true → n < b)
    (w3 : ∀ r q, s'.was r = true → s.live q = true → r ∈ K q → r ∈ x :: sub)
    (hr : ∀ r, s'.root = some r → s'.was r = true ∧ s'.live r = true) : Inv s' := by
  have hK : ∀ n, b ≤ n → K n = [] := fun n h => by rw [hKk n (by omega)]; exact (I.fresh n (by omega)).2.1
  have hL : ∀ n, b ≤ n → s.live n = true := fun n h => (I.fresh n (by omega)).2.2.1
  obtain ⟨A1, A2, A3⟩ := F.after hch hnd hlive hp hpn hpl hx hg hK hL
  have M := @after_mem K g s.live x sub p b F hch hnd hlive hp hpn hpl hx hg hK
  have chlt : ∀ n, n ∈ x :: sub → n < s.next := fun n h => I.owned_lt (hsub n h)
  have hlen : 0 < (x :: sub).length := Nat.succ_pos _
  have lv : ∀ n, s'.live n = true → s.live n = true ∧ n ∉ x :: sub := by
    intro n h
    rw [e3] at h
    split at h
    · cases h
    · rename_i h'; exact ⟨h, h'⟩
  have vl : ∀ n, s.live n = true → n ∉ x :: sub → s'.live n = true := by
    intro n h h'; rw [e3, if_neg h']; exact h
  -- what another thread holds
  have oth : ∀ u n, u ≠ t → n ∈ owned (s.pc u) → n < s.next ∧ n ≠ p ∧ n ∉ x :: sub ∧ ¬ Last (x :: sub) b n := by
    intro u n hu hn
    have := I.owned_lt hn
    refine ⟨this, fun e => hpu u hu (e ▸ hn), fun h => I.apart (hsub n h) hu hn, fun h => ?_⟩
    have := h.1
    omega
  have opn : ∀ n, n ∈ owned (.fin (.rel p :: commit (x :: sub) b) none) ↔ n = p ∨ n ∈ x :: sub ∨ Last (x :: sub) b n := by
    intro n
    show n ∈ p :: (commit (x :: sub) b).map Op.node ↔ _
    rw [List.mem_cons, mem_commit_nodes]
  refine ⟨?_, ?_, ?_, ?_, ?_, ?_, ?_, ?_, ?_, ?_, ?_, hr, ?_, ?_⟩
  · intro u n h
    rw [e6] at h
    split at h
    · rename_i e; subst e
      rcases (opn n).mp h with h | h | h
      · exact e4 n (.inl h)
      · by_cases hc : n = p ∨ Last (x :: sub) b n
        · exact e4 n hc
        · rw [e5 n hc]; exact I.mine u n (hsub n h)
      · exact e4 n (.inr h)
    · rename_i e
      have := oth u n e h
      rw [e5 n (fun h' => h'.elim this.2.1 this.2.2.2)]
      exact I.mine u n h
  · intro u
    rw [e6]; split
    · show (p :: (commit (x :: sub) b).map Op.node).Nodup
      rw [List.nodup_cons, mem_commit_nodes]
      refine ⟨fun h => h.elim hpn (fun h => by have := h.1; omega), nodup_commit x sub b hnd (fun n h => ?_)⟩
      have := chlt n h
      omega
    · exact I.nodup u
  · intro u n h
    rw [e6]
    by_cases hc : n = p ∨ Last (x :: sub) b n
    · rw [e4 n hc] at h
      injection h with h
      rw [if_pos h.symm]
      exact (opn n).mpr (hc.elim .inl (fun h => .inr (.inr h)))
    · rw [e5 n hc] at h
      have h5 := I.held u n h
      split
      · rename_i e; subst e
        exact (opn n).mpr ((hown n h5).elim .inl (fun h => .inr (.inl h)))
      · exact h5
  · intro n h
    rw [e1] at h
    have hn := I.fresh n (by omega)
    have hnc : n ∉ x :: sub := fun h' => by have := chlt n h'; omega
    refine ⟨?_, ?_, vl n hn.2.2.1 hnc, ?_⟩
    · rw [e5 n (fun h' => h'.elim (fun h => by omega) (fun h => by have := h.2.1; omega))]
      exact hn.1
    · rw [e2, after, if_neg (by omega), if_neg (by omega)]
      exact hK n (by omega)
    · cases hw : s'.was n with
      | false => rfl
      | true => have := w2 n hw; omega
  · intro n d h
    rw [e2] at h
    rw [e1]
    by_cases hb : n = p ∨ (b ≤ n ∧ n < b + 2 * (x :: sub).length)
    · have hn1 : s.live n = true := by
        rcases hb with hb | hb
        · rw [hb]; exact hpl
        · exact hL n hb.1
      have hn2 : n ∉ x :: sub := by
        rcases hb with hb | hb
        · rw [hb]; exact hpn
        · intro h'; have := chlt n h'; omega
      exact (A1 n d hn1 hn2 h).1
    · rw [after, if_neg (fun h => hb (.inl h)), if_neg (fun h => hb (.inr h))] at h
      have := F.lt n d h
      omega
  · intro q q' d hq hq' h h'
    rw [e2] at h h'
    exact A2 q q' d (lv q hq).1 (lv q hq).2 (lv q' hq').1 (lv q' hq').2 h h'
  · intro q hq
    rw [e2]
    exact A3 q (lv q hq).1 (lv q hq).2
  · intro q d hq h
    rw [e2] at h
    have := A1 q d (lv q hq).1 (lv q hq).2 h
    exact vl d this.2.1 this.2.2
  · intro n h
    by_cases hc : n = p ∨ Last (x :: sub) b n
    · rw [e4 n hc] at h; cases h
    · rw [e5 n hc] at h
      refine vl n (I.free n h) (fun h' => ?_)
      rw [I.mine t n (hsub n h')] at h
      cases h
  · intro n h
    by_cases hc : n = p ∨ Last (x :: sub) b n
    · rw [e4 n hc] at h; cases h
    · rw [e5 n hc] at h
      have := I.pois n h
      rw [e3]; split
      · rfl
      · exact this
  · intro u
    rw [e6]; split
    · refine ⟨fun n hn => ?_, fun n hn => ?_⟩
      · rcases List.mem_cons.mp hn with e | hn
        · injection e with e
          subst e
          exact vl n hpl hpn
        · rcases (mem_commit x sub b).mp hn with ⟨m, _, h⟩ | ⟨m, h1, h⟩
          · cases h
          · injection h with h
            subst h
            have := h1.1
            exact vl n (hL n this) (fun h' => by have := chlt n h'; omega)
      · rcases List.mem_cons.mp hn with e | hn
        · cases e
        · rcases (mem_commit x sub b).mp hn with ⟨m, h1, h⟩ | ⟨m, h1, h⟩
          · injection h with h
            subst h
            rw [e3, if_pos h1]
          · cases h
    · rename_i e
      refine (I.livepc u).frame (fun n hn => ?_)
      rw [e3, if_neg (oth u n e hn).2.2.1]
  · intro r q hrw hq h
    rw [e2] at h
    have hq := lv q hq
    have hm := M hq.1 hq.2 h
    have hrb := w2 r hrw
    rw [org_old hrb] at hm
    exact hm.2.2.2 hrb (w3 r _ hrw hm.1 hm.2.1)
  · intro u
    rw [e6]; split
    · trivial
    · rename_i e
      refine (I.mow u).frame ?_ w1
      intro n hn
      have := oth u n e hn
      rw [e2, after, if_neg this.2.1, if_neg (by omega)]
      exact hKk n this.2.1

theorem Inv.forest {s : State} (I : Inv s) : Forest s.kids s.live s.next := ⟨I.kidlt, I.tree, I.kidn, I.kidlive⟩

/-- A node of the chain is a child of a node in use, except for the first one. -/
theorem Inv.chain_was {s : State} (I : Inv s) {x r : Nat} {sub : List Nat} (hch : Chain s.kids (x :: sub))
    (hlive : ∀ n, n ∈ x :: sub → s.live n = true) (hr : s.was r = true) (hm : r ∈ x :: sub) : r = x := by
  rcases hch.mem hm with e | ⟨j, y, h1, _, h3⟩
  · exact e
  · exact absurd h3 (I.was r y hr (hlive y (List.mem_of_getElem? h1)))

theorem inv_publish {s : State} {t x p : Nat} {sub : List Nat} {g : Nat → List Nat} (I : Inv s) (hpc : s.pc t = .join p (x :: sub))
    (hx : x ∈ s.kids p) (hg : Parts s.kids g (x :: sub) s.next) :
    Inv (((s.copy t (x :: sub) s.next g).prune p (subst (s.kids p) x s.next (s.next + 1))).go t
      (.fin (.rel p :: commit (x :: sub) s.next) none)) := by
  have hL := I.livepc t
  have hN := I.nodup t
  have hC := I.mow t
  have hO : ∀ n, n ∈ p :: x :: sub → n ∈ owned (s.pc t) := by rw [hpc]; exact fun n h => h
  rw [hpc] at hL hN hC
  have hL : ∀ n, n ∈ p :: x :: sub → s.live n = true := hL
  have hN : (p :: x :: sub).Nodup := hN
  have hC : Chain s.kids (x :: sub) := hC
  obtain ⟨hN1, hN2⟩ := List.nodup_cons.mp hN
  have hL' := fun n h => hL n (List.mem_cons_of_mem _ h)
  have hp := I.owned_lt (hO p List.mem_cons_self)
  refine inv_copy (K := s.kids) (x := x) (sub := sub) (p := p) (b := s.next) (g := g) (t := t) I (Nat.le_refl _) I.forest (fun _ _ => rfl) hC hN2 hL' hp hN1
    (hL p List.mem_cons_self) hx hg (fun u hu => I.apart (hO p List.mem_cons_self) hu) ?_ (fun n h => hO n (List.mem_cons_of_mem _ h))
    (fun n h1 h2 => by omega) rfl rfl (fun _ => rfl) ?_ ?_ (fun _ => rfl) (fun _ h => h) (fun _ h => I.was_lt h)
    (fun r q h1 h2 h3 => absurd h3 (I.was r q h1 h2)) ?_
  · rw [hpc]
    exact fun n h => List.mem_cons.mp h
  · intro n h
    show (if s.next ≤ n ∧ n < s.next + 2 * (x :: sub).length ∧ s.next + 2 * (x :: sub).length ≤ n + 2 then Lk.held t else s.lock n) = _
    split
    · rfl
    · rename_i h'
      rw [h.resolve_right h']
      exact I.mine t p (hO p List.mem_cons_self)
  · intro n h
    exact if_neg (fun h' => h (.inr h'))
  · intro r hr
    have hr' := I.root r hr
    refine ⟨hr'.1, ?_⟩
    show (if r ∈ x :: sub then false else s.live r) = true
    rw [if_neg, hr'.2]
    intro hm
    have e := I.chain_was hC hL' hr'.1 hm
    exact I.was r p hr'.1 (hL p List.mem_cons_self) (e ▸ hx)

theorem inv_grow {s : State} {t x : Nat} {sub : List Nat} {g : Nat → List Nat} (I : Inv s) (hpc : s.pc t = .climb (x :: sub))
    (hroot : s.root = some x) (hg : Parts s.kids g (x :: sub) (s.next + 1)) :
    Inv (({ ((s.copy t (x :: sub) (s.next + 1) g).prune s.next [s.next + 1, s.next + 2]).take t s.next with
          root := some s.next, was := upd s.was s.next true, leaf := upd (s.copy t (x :: sub) (s.next + 1) g).leaf s.next false } : State).go t
        (.fin (.rel s.next :: commit (x :: sub) (s.next + 1)) none)) := by
  have hL := I.livepc t
  have hN := I.nodup t
  have hC := I.mow t
  have hO : ∀ n, n ∈ x :: sub → n ∈ owned (s.pc t) := by rw [hpc]; exact fun n h => h
  rw [hpc] at hL hN hC
  have hL : ∀ n, n ∈ x :: sub → s.live n = true := hL
  have hN : (x :: sub).Nodup := hN
  have hC : Chain s.kids (x :: sub) := hC
  have hlt : ∀ n, n ∈ x :: sub → n < s.next := fun n h => I.owned_lt (hO n h)
  have hw := (I.root x hroot).1
  have hfr := I.fresh s.next (Nat.le_refl _)
  let K := upd s.kids s.next [x]
  have kn : K s.next = [x] := upd_self _ _ _
  have ko : ∀ n, n ≠ s.next → K n = s.kids n := fun n h => upd_ne _ _ h
  have kc : ∀ n, n ∈ x :: sub → K n = s.kids n := fun n h => ko n (by have := hlt n h; omega)
  have hxl := hlt x List.mem_cons_self
  have F : Forest K s.live (s.next + 1) := by
    refine ⟨?_, ?_, ?_, ?_⟩
    · intro n d h
      by_cases e : n = s.next
      · rw [e, kn, List.mem_singleton] at h; omega
      · rw [ko n e] at h; have := I.kidlt n d h; omega
    · intro q q' d hq hq' h h'
      by_cases e : q = s.next
      · by_cases e' : q' = s.next
        · rw [e, e']
        · rw [e, kn, List.mem_singleton] at h
          rw [ko q' e', h] at h'
          exact absurd h' (I.was x q' hw hq')
      · rw [ko q e] at h
        by_cases e' : q' = s.next
        · rw [e', kn, List.mem_singleton] at h'
          rw [h'] at h
          exact absurd h (I.was x q hw hq)
        · rw [ko q' e'] at h'
          exact I.tree q q' d hq hq' h h'
    · intro q hq
      by_cases e : q = s.next
      · rw [e, kn]; simp
      · rw [ko q e]; exact I.kidn q hq
    · intro q d hq h
      by_cases e : q = s.next
      · rw [e, kn, List.mem_singleton] at h
        rw [h]; exact hL x List.mem_cons_self
      · rw [ko q e] at h; exact I.kidlive q d hq h
  have hC' : Chain K (x :: sub) := by
    intro j y z h1 h2
    rw [kc y (List.mem_of_getElem? h1)]
    exact hC j y z h1 h2
  refine inv_copy (K := K) (x := x) (sub := sub) (p := s.next) (b := s.next + 1) (g := g) (t := t) I (by omega) F ko hC' hN hL (by omega)
    (fun h => by have := hlt _ h; omega) hfr.2.2.1 (by rw [kn]; exact List.mem_singleton.mpr rfl) (hg.congr kc)
    (fun u _ h => by have := I.owned_lt h; omega) ?_ hO (fun n h1 h2 => by omega) rfl ?_ (fun _ => rfl) ?_ ?_ (fun _ => rfl) ?_ ?_ ?_ ?_
  · rw [hpc]
    exact fun n h => .inr h
  · funext n
    by_cases e : n = s.next
    · show upd _ s.next _ n = after K g x sub s.next (s.next + 1) n
      rw [e, upd_self, after, if_pos rfl, kn]
      simp [subst]
    · show upd _ s.next _ n = after K g x sub s.next (s.next + 1) n
      rw [upd_ne _ _ e, after, if_neg e, ko n e]
      rfl
  · intro n h
    show upd _ s.next _ n = _
    by_cases e : n = s.next
    · rw [e, upd_self]
    · rw [upd_ne _ _ e]
      exact if_pos (h.resolve_left e)
  · intro n h
    show upd _ s.next _ n = _
    rw [upd_ne _ _ (fun e => h (.inl e))]
    exact if_neg (fun h' => h (.inr h'))
  · intro n h
    show upd _ s.next _ n = _
    by_cases e : n = s.next
    · rw [e, upd_self]
    · rw [upd_ne _ _ e]; exact h
  · intro n h
    have h : upd s.was s.next true n = true := h
    by_cases e : n = s.next
    · omega
    · rw [upd_ne _ _ e] at h
      have := I.was_lt h
      omega
  · intro r q h1 h2 h3
    by_cases e : q = s.next
    · rw [e, kn, List.mem_singleton] at h3
      rw [h3]; exact List.mem_cons_self
    · rw [ko q e] at h3
      have h1 : upd s.was s.next true r = true := h1
      by_cases e' : r = s.next
      · have := I.kidlt q r h3; omega
      · rw [upd_ne _ _ e'] at h1
        exact absurd h3 (I.was r q h1 h2)
  · intro r hr
    have hr : some s.next = some r := hr
    injection hr with hr
    subst hr
    refine ⟨upd_self _ _ _, ?_⟩
    show (if s.next ∈ x :: sub then false else s.live s.next) = true
    rw [if_neg (fun h => by have := hlt _ h; omega)]
    exact hfr.2.2.1

theorem inv_clean {s : State} {t r : Nat} {c : Option Nat} {ops : List Op} (I : Inv s) (hpc : s.pc t = .clean r) (hroot : s.root = some r)
    (hk : ∀ d, c = some d → d ∈ s.kids r) (ho : ops = [.poi r]) :
    Inv (({ s with root := c, was := fun n => if c = some n then true else s.was n, live := upd s.live r false } : State).go t (.fin ops none)) := by
  subst ho
  have hr := I.root r hroot
  have hm : r ∈ owned (s.pc t) := by rw [hpc]; exact List.mem_singleton.mpr rfl
  have hlt := I.owned_lt hm
  generalize hs : (({ s with root := c, was := fun n => if c = some n then true else s.was n, live := upd s.live r false } : State).go t (.fin [.poi r] none)) = s'
  have pc : ∀ u, s'.pc u = if u = t then .fin [.poi r] none else s.pc u := fun u => by rw [← hs]; rfl
  have lk : s'.lock = s.lock := by rw [← hs]; rfl
  have kd : s'.kids = s.kids := by rw [← hs]; rfl
  have nx : s'.next = s.next := by rw [← hs]; rfl
  have lvr : s'.live r = false := by rw [← hs]; exact upd_self _ _ _
  have lvo : ∀ n, n ≠ r → s'.live n = s.live n := fun n h => by rw [← hs]; exact upd_ne _ _ h
  have lv : ∀ n, s'.live n = true → n ≠ r ∧ s.live n = true := by
    intro n h
    by_cases e : n = r
    · rw [e, lvr] at h; cases h
    · exact ⟨e, by rw [← lvo n e]; exact h⟩
  have ws : ∀ n, s'.was n = true ↔ c = some n ∨ s.was n = true := by
    intro n
    have e : s'.was n = if c = some n then true else s.was n := by rw [← hs]; rfl
    rw [e]
    by_cases h : c = some n
    · rw [if_pos h]; exact ⟨fun _ => .inl h, fun _ => rfl⟩
    · rw [if_neg h]; exact ⟨.inr, fun h' => h'.resolve_left h⟩
  have rt : s'.root = c := by rw [← hs]; rfl
  clear hs
  refine ⟨?_, ?_, ?_, ?_, ?_, ?_, ?_, ?_, ?_, ?_, ?_, ?_, ?_, ?_⟩
  · intro u n h
    rw [pc] at h
    rw [lk]
    split at h
    · rename_i e; subst e
      have h : n ∈ [r] := h
      rw [List.mem_singleton] at h
      subst h
      exact I.mine u n hm
    · exact I.mine u n h
  · intro u
    rw [pc]; split
    · show [r].Nodup; simp
    · exact I.nodup u
  · intro u n h
    rw [lk] at h
    have h := I.held u n h
    rw [pc]; split
    · rename_i e; subst e; rw [hpc] at h; exact h
    · exact h
  · intro n h
    rw [nx] at h
    have hn := I.fresh n h
    rw [lk, kd, lvo n (by omega)]
    refine ⟨hn.1, hn.2.1, hn.2.2.1, ?_⟩
    cases hw : s'.was n with
    | false => rfl
    | true =>
      rcases (ws n).mp hw with e | e
      · have := I.kidlt r n (hk n e); omega
      · rw [hn.2.2.2] at e; cases e
  · rw [kd, nx]; exact I.kidlt
  · intro p q d hp hq h h'
    rw [kd] at h h'
    exact I.tree p q d (lv p hp).2 (lv q hq).2 h h'
  · intro p hp; rw [kd]; exact I.kidn p (lv p hp).2
  · intro p d hp h
    rw [kd] at h
    have hp := (lv p hp).2
    rw [lvo d (fun e => I.was r p hr.1 hp (e ▸ h))]
    exact I.kidlive p d hp h
  · intro n h
    rw [lk] at h
    rw [lvo n (fun e => by rw [e, I.mine t r hm] at h; cases h)]
    exact I.free n h
  · intro n h
    rw [lk] at h
    rw [lvo n (fun e => by rw [e, I.mine t r hm] at h; cases h)]
    exact I.pois n h
  · intro u
    rw [pc]; split
    · refine ⟨fun n h => ?_, fun n h => ?_⟩
      · rw [List.mem_singleton] at h; cases h
      · rw [List.mem_singleton] at h
        injection h with h
        rw [h]; exact lvr
    · rename_i e
      refine (I.livepc u).frame (fun n hn => lvo n (fun e' => ?_))
      exact I.apart hm e (e' ▸ hn)
  · intro d hd
    rw [rt] at hd
    have h := hk d hd
    refine ⟨(ws d).mpr (.inl hd), ?_⟩
    rw [lvo d (fun e => I.was r r hr.1 hr.2 (e ▸ h))]
    exact I.kidlive r d hr.2 h
  · intro d p hd hp h
    rw [kd] at h
    have hp := lv p hp
    rcases (ws d).mp hd with e | e
    · exact hp.1 (I.tree p r d hp.2 hr.2 h (hk d e))
    · exact I.was d p e hp.2 h
  · intro u
    rw [pc, kd]; split
    · trivial
    · exact (I.mow u).frame (fun _ _ => rfl) (fun n h => (ws n).mpr (.inr h))

theorem inv_root {s : State} {r : Option Nat} (I : Inv s) (hr : ∀ n, r = some n → s.was n = true ∧ s.live n = true) : Inv { s with root := r } :=
  ⟨I.mine, I.nodup, I.held, I.fresh, I.kidlt, I.tree, I.kidn, I.kidlive, I.free, I.pois, I.livepc, hr, I.was, I.mow⟩

theorem inv_plant {s : State} (I : Inv s) :
    Inv { s with next := s.next + 1, leaf := upd s.leaf s.next true, was := upd s.was s.next true, root := some s.next } := by
  have hfr := I.fresh s.next (Nat.le_refl _)
  refine ⟨I.mine, I.nodup, I.held, ?_, ?_, I.tree, I.kidn, I.kidlive, I.free, I.pois, I.livepc, ?_, ?_, ?_⟩
  · intro n h
    have h : s.next + 1 ≤ n := h
    have hn := I.fresh n (by omega)
    exact ⟨hn.1, hn.2.1, hn.2.2.1, (upd_ne _ _ (by omega)).trans hn.2.2.2⟩
  · intro n d h
    exact Nat.lt_succ_of_lt (I.kidlt n d h)
  · intro r h
    have h : some s.next = some r := h
    injection h with h
    subst h
    exact ⟨upd_self _ _ _, hfr.2.2.1⟩
  · intro r p h hp h'
    have h : upd s.was s.next true r = true := h
    by_cases e : r = s.next
    · have := I.kidlt p r h'; omega
    · rw [upd_ne _ _ e] at h
      exact I.was r p h hp h'
  · intro u
    refine (I.mow u).frame (fun _ _ => rfl) (fun n h => ?_)
    show upd s.was s.next true n = true
    by_cases e : n = s.next
    · rw [e, upd_self]
    · rw [upd_ne _ _ e]; exact h

/-- What `remove_range` knows when it has locked another node. -/
theorem mow_take {s : State} {t c : Nat} {held : List Nat} {up : Option Nat} (I : Inv s) (hpc : s.pc t = .mow held c up) (hf : s.lock c = .free) :
    MowOk s.kids s.was (.cut held c up) := by
  have hM := I.mow t
  have hL := I.livepc t
  rw [hpc] at hM hL
  obtain ⟨h1, ⟨h2, h3⟩, h4⟩ := hM
  have hL : ∀ n, n ∈ held → s.live n = true := hL
  have hc := I.free c hf
  refine ⟨?_, ?_, ?_, ?_⟩
  · intro n hn
    rcases List.mem_cons.mp hn with e | hn
    · subst e
      rcases h3 with h | ⟨p, a, b⟩
      · exact .inl h.2
      · exact .inr ⟨p, List.mem_cons_of_mem _ a, b⟩
    · rcases h1 n hn with h | ⟨p, a, b⟩
      · exact .inl h
      · exact .inr ⟨p, List.mem_cons_of_mem _ a, b⟩
  · intro n hn hk
    rcases h1 n hn with h | ⟨p, a, b⟩
    · exact I.was n c h hc hk
    · exact h2 (I.tree p c n (hL p a) hc b hk ▸ a)
  · intro hk
    rcases h3 with h | ⟨p, a, b⟩
    · exact I.was c c h.2 hc hk
    · exact h2 (I.tree p c c (hL p a) hc b hk ▸ a)
  · intro u hu
    obtain ⟨a, b, p, d, e⟩ := h4 u hu
    exact ⟨a, b, ⟨p, d, e⟩, fun hk => h2 (I.tree p c u (hL p d) hc e hk ▸ d)⟩

/-- What it knows when children have been dropped. -/
theorem mow_down {kids : Nat → List Nat} {was : Nat → Bool} {c d : Nat} {held ks : List Nat} {up up' : Option Nat}
    (h : MowOk kids was (.cut held c up)) (hn : c ∉ held) (hs : ks.Sublist (kids c)) (hd : d ∈ ks)
    (hu : up' = up ∨ ∃ e, up' = some e ∧ e ∈ ks ∧ d ≠ e) : MowOk (upd kids c ks) was (.mow (c :: held) d up') := by
  obtain ⟨h1, h2, h3, h4⟩ := h
  have hno : ∀ n, n ∈ kids c → n ∉ c :: held := by
    intro n hk hm
    rcases List.mem_cons.mp hm with e | hm
    · exact h3 (e ▸ hk)
    · exact h2 n hm hk
  refine ⟨?_, ⟨hno d (hs.subset hd), .inr ⟨c, List.mem_cons_self, by rw [upd_self]; exact hd⟩⟩, ?_⟩
  · intro n hm
    rcases h1 n hm with h | ⟨p, a, b⟩
    · exact .inl h
    · refine .inr ⟨p, a, ?_⟩
      rw [upd_ne _ _ (fun e : p = c => hno n (e ▸ b) hm)]
      exact b
  · intro u hu'
    rcases hu with e | ⟨e, h5, h6, h7⟩
    · rw [e] at hu'
      obtain ⟨a, b, ⟨p, f, g⟩, k⟩ := h4 u hu'
      refine ⟨fun e => k (e ▸ hs.subset hd), fun h => (List.mem_cons.mp h).elim a b, p, List.mem_cons_of_mem _ f, ?_⟩
      rw [upd_ne _ _ (fun e : p = c => hn (e ▸ f))]
      exact g
    · rw [hu'] at h5
      injection h5 with h5
      subst h5
      exact ⟨fun e => h7 e.symm, hno u (hs.subset h6), c, List.mem_cons_self, by rw [upd_self]; exact h6⟩

theorem mem_rollback {held : List Nat} {a : Option Nat} {n : Nat} : n ∈ owned (.fin (rollback held) a) ↔ n ∈ held := by
  show n ∈ (rollback held).map Op.node ↔ _
  rw [rollback_nodes]

theorem nodup_rollback {held : List Nat} {a : Option Nat} (h : held.Nodup) : (owned (.fin (rollback held) a)).Nodup := by
  show ((rollback held).map Op.node).Nodup
  rw [rollback_nodes]
  exact h

theorem inv_step {s s' : State} {t : Nat} (I : Inv s) (h : Step s t s') : Inv s' := by
  have hL := I.livepc t
  have hN := I.nodup t
  have hM := I.mow t
  -- a thread gives back all its locks
  have back : ∀ (held : List Nat) (a : Option Nat), owned (s.pc t) = held → (∀ n, n ∈ held → s.live n = true) →
      Inv (s.go t (.fin (rollback held) a)) := by
    intro held a e hl
    exact inv_go I (fun n => by rw [mem_rollback, e]) (nodup_rollback (e ▸ hN)) (live_rollback hl) trivial
  have none_owned : s.pc t = .idle → ∀ n, n ∉ owned (s.pc t) := fun e n h => by rw [e] at h; cases h
  cases h with
  | clear hp => exact inv_root I (fun n h => by cases h)
  | plant hp hr => exact inv_plant I
  | ask hp hn => exact inv_go I (fun n => by rw [hp]; exact Iff.rfl) List.nodup_nil (fun n h => by cases h) (.inl rfl)
  | quit hp => exact inv_go I (fun n => by rw [hp]; exact Iff.rfl) List.nodup_nil (fun n h => by cases h) trivial
  | @split n hp hn hl hf =>
    refine inv_take I hn hf (fun m => ?_) (by show [n].Nodup; simp) (fun m h => ?_) (fun j y z h1 h2 => ?_)
    · show m ∈ [n] ↔ _
      rw [List.mem_singleton]
      exact ⟨.inl, fun h => h.resolve_right (none_owned hp m)⟩
    · rw [List.mem_singleton.mp h]; exact I.free n hf
    · cases j with
      | zero => cases h2
      | succ j => cases h1
  | @roomy n hp =>
    rw [hp] at hL
    exact back [n] none (by rw [hp]; rfl) hL
  | @up held p hp hlt hl hf =>
    rw [hp] at hL hN hM
    refine inv_take I hlt hf (fun m => ?_) ?_ (fun m h => ?_) hM
    · rw [hp]; exact List.mem_cons
    · refine List.nodup_cons.mpr ⟨fun h => ?_, hN⟩
      rw [I.mine t p (by rw [hp]; exact h)] at hf
      cases hf
    · rcases List.mem_cons.mp h with e | h
      · rw [e]; exact I.free p hf
      · exact hL m h
  | @upBusy held p hp hlt hf =>
    rw [hp] at hL
    exact back held (some p) (by rw [hp]; rfl) hL
  | @joinFail held p hp =>
    rw [hp] at hL
    exact back (p :: held) none (by rw [hp]; rfl) hL
  | @full x p sub hp hx =>
    rw [hp] at hL hN hM
    exact inv_go I (fun n => by rw [hp]; exact Iff.rfl) hN hL (Chain.cons hM hx)
  | publish hp hx hg => exact inv_publish I hp hx hg
  | grow hp hr hg => exact inv_grow I hp hr hg
  | @growFail held hp =>
    rw [hp] at hL
    exact back held none (by rw [hp]; rfl) hL
  | rel hp => exact inv_drop I hp (.inl ⟨rfl, rfl⟩)
  | poi hp => exact inv_drop I hp (.inr ⟨rfl, rfl⟩)
  | over hp => exact inv_go I (fun n => by rw [hp]; exact Iff.rfl) List.nodup_nil (fun n h => by cases h) trivial
  | overWait hp => exact inv_go I (fun n => by rw [hp]; exact Iff.rfl) List.nodup_nil (fun n h => by cases h) (.inl rfl)
  | @awake n held hp hf =>
    rw [hp] at hL
    exact back held none (by rw [hp]; rfl) hL
  | @mow r hp hr =>
    refine inv_go I (fun n => by rw [hp]; exact Iff.rfl) List.nodup_nil (fun n h => by cases h)
      ⟨(fun n h => by cases h), ⟨(fun h => by cases h), .inl ⟨rfl, (I.root r hr).1⟩⟩, (fun u h => by cases h)⟩
  | @mowTake held c up hp hf =>
    have hT := mow_take I hp hf
    rw [hp] at hL hN hM
    have hc : c < s.next := by
      rcases hM.2.1.2 with h | ⟨p, _, h⟩
      · exact I.was_lt h.2
      · exact I.kidlt p c h
    refine inv_take I hc hf (fun m => ?_) (List.nodup_cons.mpr ⟨hM.2.1.1, hN⟩) (fun m h => ?_) hT
    · rw [hp]; exact List.mem_cons
    · rcases List.mem_cons.mp h with e | h
      · rw [e]; exact I.free c hf
      · exact hL m h
  | @mowBusy held c up hp hf =>
    rw [hp] at hL hN hM
    exact inv_go I (fun n => by rw [hp]; exact Iff.rfl) hN hL (.inr ⟨hM.1, hM.2.1⟩)
  | @mowAway held c up hp hf =>
    rw [hp] at hL
    exact back held (some c) (by rw [hp]; rfl) hL
  | @down held ks c d up hp hs hd =>
    rw [hp] at hL hN hM
    exact inv_prune I (by rw [hp]; exact List.mem_cons_self) hs (fun n => by rw [hp]; exact Iff.rfl) hN hL
      (mow_down hM (List.nodup_cons.mp hN).1 hs hd (.inl rfl))
  | @fork held ks c d e hp hs hd he hne =>
    rw [hp] at hL hN hM
    exact inv_prune I (by rw [hp]; exact List.mem_cons_self) hs (fun n => by rw [hp]; exact Iff.rfl) hN hL
      (mow_down hM (List.nodup_cons.mp hN).1 hs hd (.inr ⟨e, rfl, he, hne⟩))
  | @over2 held c u hp hl =>
    rw [hp] at hL hN hM
    obtain ⟨h1, _, _, h4⟩ := hM
    obtain ⟨a, b, ⟨p, d, e⟩, _⟩ := h4 u rfl
    refine inv_go I (fun n => by rw [hp]; exact Iff.rfl) hN hL ⟨h1, ⟨fun h => (List.mem_cons.mp h).elim a b, .inr ⟨p, List.mem_cons_of_mem _ d, e⟩⟩, fun u h => by cases h⟩
  | @done held ks c up hp hs =>
    rw [hp] at hL hN
    exact inv_prune I (by rw [hp]; exact List.mem_cons_self) hs (fun n => by rw [mem_rollback, hp]; exact Iff.rfl) (nodup_rollback hN) (live_rollback hL) trivial
  | @clean r hp hr hf =>
    have hlt := I.was_lt (I.root r hr).1
    refine inv_take I hlt hf (fun m => ?_) (by show [r].Nodup; simp) (fun m h => ?_) trivial
    · show m ∈ [r] ↔ _
      rw [List.mem_singleton]
      exact ⟨.inl, fun h => h.resolve_right (none_owned hp m)⟩
    · rw [List.mem_singleton.mp h]; exact I.free r hf
  | @cleanOne r c hp hr hk =>
    have := inv_clean (c := some c) I hp hr (fun d h => by injection h with h; rw [hk, h]; exact List.mem_singleton.mpr rfl) rfl
    have e : (fun n => if some c = some n then true else s.was n) = upd s.was c true := by
      funext n
      by_cases e : n = c
      · rw [e, upd_self, if_pos rfl]
      · rw [upd_ne _ _ e, if_neg (fun h => by injection h with h; exact e h.symm)]
    rw [e] at this
    exact this
  | @cleanNone r hp hr hk hl =>
    exact inv_clean (c := none) I hp hr (fun d h => by cases h) rfl
  | @cleanLeaf r hp hr hl =>
    rw [hp] at hL
    exact inv_root (back [r] none (by rw [hp]; rfl) hL) (fun n h => by cases h)
  | @cleanFail r hp =>
    rw [hp] at hL
    exact back [r] none (by rw [hp]; rfl) hL
  | @coal p hp hlt hf =>
    refine inv_take I hlt hf (fun m => ?_) (by show [p].Nodup; simp) (fun m h => ?_) trivial
    · show m ∈ [p] ↔ _
      rw [List.mem_singleton]
      exact ⟨.inl, fun h => h.resolve_right (none_owned hp m)⟩
    · rw [List.mem_singleton.mp h]; exact I.free p hf
  | @coalEnd p ks hp hs =>
    rw [hp] at hL
    exact inv_prune I (by rw [hp]; exact List.mem_singleton.mpr rfl) hs (fun n => by rw [hp]; exact Iff.rfl) (by show [p].Nodup; simp) (live_rollback hL) trivial

theorem Reach.inv {s : State} (h : Reach s) : Inv s := by
  induction h with
  | init => exact inv_init
  | step _ h ih => exact inv_step ih h

end Scc.Knot
