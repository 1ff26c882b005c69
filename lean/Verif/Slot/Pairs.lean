import Verif.Slot.Inv

/-! # Every pair is in one place -/

namespace Scc.Slot

/-- The pair a thread holds. -/
def hand : Pc → Option Nat
  | .ins p _ => some p
  | .wrt p _ _ => some p
  | .back q _ _ => q
  | _ => none

/-- The pairs `0 … next - 1` are in slots, in hands of threads or given back, each in exactly one place. -/
structure Pairs (cell hd : Nat → Option Nat) (out : List (Option Nat)) (next : Nat) : Prop where
  cc : ∀ i j p, cell i = some p → cell j = some p → i = j
  hh : ∀ t u p, hd t = some p → hd u = some p → t = u
  ch : ∀ i t p, cell i = some p → hd t ≠ some p
  co : ∀ i p, cell i = some p → some p ∉ out
  ho : ∀ t p, hd t = some p → some p ∉ out
  nd : out.Nodup
  on : none ∉ out
  lc : ∀ i p, cell i = some p → p < next
  lh : ∀ t p, hd t = some p → p < next
  lo : ∀ p, some p ∈ out → p < next
  cover : ∀ p, p < next → (∃ i, cell i = some p) ∨ (∃ t, hd t = some p) ∨ some p ∈ out

theorem upd_some {f : Nat → Option Nat} {t u p q : Nat} (h : upd f t (some q) u = some p) : (u = t ∧ p = q) ∨ (u ≠ t ∧ f u = some p) := by
  by_cases e : u = t
  · rw [e, upd_eq] at h; exact .inl ⟨e, (Option.some.inj h).symm⟩
  · rw [upd_ne _ _ e] at h; exact .inr ⟨e, h⟩

theorem upd_none {f : Nat → Option Nat} {t u p : Nat} (h : upd f t none u = some p) : u ≠ t ∧ f u = some p := by
  by_cases e : u = t
  · rw [e, upd_eq] at h; cases h
  · rw [upd_ne _ _ e] at h; exact ⟨e, h⟩

variable {cell hd : Nat → Option Nat} {out : List (Option Nat)} {next : Nat}

theorem Pairs.new (h : Pairs cell hd out next) {t : Nat} (ht : hd t = none) : Pairs cell (upd hd t (some next)) out (next + 1) := by
  refine ⟨h.cc, ?_, ?_, h.co, ?_, h.nd, h.on, ?_, ?_, ?_, ?_⟩
  · intro u u' p hu hu'
    rcases upd_some hu with ⟨a, b⟩ | ⟨a, b⟩
    · rcases upd_some hu' with ⟨a', b'⟩ | ⟨a', b'⟩
      · rw [a, a']
      · have := h.lh _ _ b'; omega
    · rcases upd_some hu' with ⟨a', b'⟩ | ⟨a', b'⟩
      · have := h.lh _ _ b; omega
      · exact h.hh _ _ _ b b'
  · intro i u p hi hu
    rcases upd_some hu with ⟨a, b⟩ | ⟨a, b⟩
    · have := h.lc _ _ hi; omega
    · exact h.ch _ _ _ hi b
  · intro u p hu ho
    rcases upd_some hu with ⟨a, b⟩ | ⟨a, b⟩
    · have := h.lo _ ho; omega
    · exact h.ho _ _ b ho
  · intro i p hi; have := h.lc _ _ hi; omega
  · intro u p hu
    rcases upd_some hu with ⟨a, b⟩ | ⟨a, b⟩
    · omega
    · have := h.lh _ _ b; omega
  · intro p ho; have := h.lo _ ho; omega
  · intro p hp
    by_cases e : p = next
    · exact .inr (.inl ⟨t, by rw [upd_eq, e]⟩)
    · rcases h.cover p (by omega) with a | ⟨u, hu⟩ | a
      · exact .inl a
      · exact .inr (.inl ⟨u, by rw [upd_ne _ _ (fun e' : u = t => by rw [e', ht] at hu; cases hu)]; exact hu⟩)
      · exact .inr (.inr a)

theorem Pairs.give (h : Pairs cell hd out next) {t p : Nat} (ht : hd t = some p) : Pairs cell (upd hd t none) (some p :: out) next := by
  refine ⟨h.cc, ?_, ?_, ?_, ?_, ?_, ?_, h.lc, ?_, ?_, ?_⟩
  · intro u u' p hu hu'; exact h.hh _ _ _ (upd_none hu).2 (upd_none hu').2
  · intro i u p hi hu; exact h.ch _ _ _ hi (upd_none hu).2
  · intro i q hi ho
    rcases List.mem_cons.1 ho with e | e
    · exact h.ch i t p (Option.some.inj e ▸ hi) ht
    · exact h.co _ _ hi e
  · intro u q hu ho
    obtain ⟨a, b⟩ := upd_none hu
    rcases List.mem_cons.1 ho with e | e
    · exact a (h.hh u t p (Option.some.inj e ▸ b) ht)
    · exact h.ho _ _ b e
  · exact List.nodup_cons.2 ⟨h.ho _ _ ht, h.nd⟩
  · intro ho
    rcases List.mem_cons.1 ho with e | e
    · cases e
    · exact h.on e
  · intro u q hu; exact h.lh _ _ (upd_none hu).2
  · intro q ho
    rcases List.mem_cons.1 ho with e | e
    · rw [Option.some.inj e]; exact h.lh _ _ ht
    · exact h.lo _ e
  · intro q hq
    rcases h.cover q hq with a | ⟨u, hu⟩ | a
    · exact .inl a
    · by_cases e : u = t
      · rw [e, ht] at hu; exact .inr (.inr (hu ▸ List.mem_cons_self))
      · exact .inr (.inl ⟨u, by rw [upd_ne _ _ e]; exact hu⟩)
    · exact .inr (.inr (List.mem_cons_of_mem _ a))

theorem Pairs.put (h : Pairs cell hd out next) {t i p : Nat} (ht : hd t = some p) (hi : cell i = none) :
    Pairs (upd cell i (some p)) (upd hd t none) out next := by
  refine ⟨?_, ?_, ?_, ?_, ?_, h.nd, h.on, ?_, ?_, h.lo, ?_⟩
  · intro j j' q hj hj'
    rcases upd_some hj with ⟨a, b⟩ | ⟨a, b⟩
    · rcases upd_some hj' with ⟨a', b'⟩ | ⟨a', b'⟩
      · rw [a, a']
      · exact absurd ht (h.ch j' t p (b ▸ b'))
    · rcases upd_some hj' with ⟨a', b'⟩ | ⟨a', b'⟩
      · exact absurd ht (h.ch j t p (b' ▸ b))
      · exact h.cc _ _ _ b b'
  · intro u u' p hu hu'; exact h.hh _ _ _ (upd_none hu).2 (upd_none hu').2
  · intro j u q hj hu
    obtain ⟨a', b'⟩ := upd_none hu
    rcases upd_some hj with ⟨a, b⟩ | ⟨a, b⟩
    · exact a' (h.hh u t p (b ▸ b') ht)
    · exact h.ch _ _ _ b b'
  · intro j q hj
    rcases upd_some hj with ⟨a, b⟩ | ⟨a, b⟩
    · rw [b]; exact h.ho _ _ ht
    · exact h.co _ _ b
  · intro u q hu; exact h.ho _ _ (upd_none hu).2
  · intro j q hj
    rcases upd_some hj with ⟨a, b⟩ | ⟨a, b⟩
    · rw [b]; exact h.lh _ _ ht
    · exact h.lc _ _ b
  · intro u q hu; exact h.lh _ _ (upd_none hu).2
  · intro q hq
    rcases h.cover q hq with ⟨j, hj⟩ | ⟨u, hu⟩ | a
    · exact .inl ⟨j, by rw [upd_ne _ _ (fun e : j = i => by rw [e, hi] at hj; cases hj)]; exact hj⟩
    · by_cases e : u = t
      · rw [e, ht] at hu; exact .inl ⟨i, by rw [upd_eq]; exact hu⟩
      · exact .inr (.inl ⟨u, by rw [upd_ne _ _ e]; exact hu⟩)
    · exact .inr (.inr a)

theorem Pairs.get (h : Pairs cell hd out next) {t i p : Nat} (ht : hd t = none) (hi : cell i = some p) :
    Pairs (upd cell i none) (upd hd t (some p)) out next := by
  refine ⟨?_, ?_, ?_, ?_, ?_, h.nd, h.on, ?_, ?_, h.lo, ?_⟩
  · intro j j' q hj hj'; exact h.cc _ _ _ (upd_none hj).2 (upd_none hj').2
  · intro u u' q hu hu'
    rcases upd_some hu with ⟨a, b⟩ | ⟨a, b⟩
    · rcases upd_some hu' with ⟨a', b'⟩ | ⟨a', b'⟩
      · rw [a, a']
      · exact absurd b' (h.ch i u' q (b ▸ hi))
    · rcases upd_some hu' with ⟨a', b'⟩ | ⟨a', b'⟩
      · exact absurd b (h.ch i u q (b' ▸ hi))
      · exact h.hh _ _ _ b b'
  · intro j u q hj hu
    obtain ⟨a', b'⟩ := upd_none hj
    rcases upd_some hu with ⟨a, b⟩ | ⟨a, b⟩
    · exact a' (h.cc j i p (b ▸ b') hi)
    · exact h.ch _ _ _ b' b
  · intro j q hj; exact h.co _ _ (upd_none hj).2
  · intro u q hu
    rcases upd_some hu with ⟨a, b⟩ | ⟨a, b⟩
    · rw [b]; exact h.co _ _ hi
    · exact h.ho _ _ b
  · intro j q hj; exact h.lc _ _ (upd_none hj).2
  · intro u q hu
    rcases upd_some hu with ⟨a, b⟩ | ⟨a, b⟩
    · rw [b]; exact h.lc _ _ hi
    · exact h.lh _ _ b
  · intro q hq
    rcases h.cover q hq with ⟨j, hj⟩ | ⟨u, hu⟩ | a
    · by_cases e : j = i
      · rw [e, hi] at hj; exact .inr (.inl ⟨t, by rw [upd_eq]; exact hj⟩)
      · exact .inl ⟨j, by rw [upd_ne _ _ e]; exact hj⟩
    · exact .inr (.inl ⟨u, by rw [upd_ne _ _ (fun e : u = t => by rw [e, ht] at hu; cases hu)]; exact hu⟩)
    · exact .inr (.inr a)

def State.hands (s : State) : Nat → Option Nat := fun t => hand (s.pc t)

theorem hands_upd (s : State) (t : Nat) (c : Pc) : (fun u => hand (upd s.pc t c u)) = upd s.hands t (hand c) := by
  funext u
  by_cases e : u = t
  · rw [e, upd_eq, upd_eq]
  · rw [upd_ne _ _ e, upd_ne _ _ e]; rfl

/-- A step that moves no pair. -/
theorem hands_same {s : State} {t : Nat} {c : Pc} (h : hand c = hand (s.pc t)) : (fun u => hand (upd s.pc t c u)) = s.hands := by
  rw [hands_upd, h]
  exact upd_self s.hands t

def State.Pairs (s : State) : Prop := Slot.Pairs s.cell s.hands s.out s.next

theorem pairs_init (k : Nat) : (State.init k).Pairs := by
  have hc : ∀ i p, (State.init k).cell i = some p → i = p ∧ p < k := fun i p h => by
    have h : (if i < k then some i else none) = some p := h
    split at h
    · have e := Option.some.inj h; omega
    · cases h
  refine ⟨?_, ?_, ?_, ?_, ?_, List.nodup_nil, (by intro h; cases h), ?_, ?_, ?_, ?_⟩
  · intro i j p hi hj; have := hc i p hi; have := hc j p hj; omega
  · intro t u p h; cases h
  · intro i t p _ h; cases h
  · intro i p _ h; cases h
  · intro t p h; cases h
  · intro i p h; exact (hc i p h).2
  · intro t p h; cases h
  · intro p h; cases h
  · intro p hp
    have hp : p < k := hp
    exact .inl ⟨p, by show (if p < k then some p else none) = some p; rw [if_pos hp]⟩

theorem pairs_step {s s' : State} {t : Nat} (hi : Inv s) (h : s.Pairs) (hs : Step s t s') : s'.Pairs := by
  have same : ∀ c, hand c = hand (s.pc t) → Slot.Pairs s.cell (fun u => hand (upd s.pc t c u)) s.out s.next := fun c e => by
    rw [hands_same e]; exact h
  have hce := hi.cellpc t
  cases hs with
  | @call m hpc _ hm =>
    show Slot.Pairs s.cell (fun u => hand (upd s.pc t _ u)) s.out (s.next + 1)
    rw [hands_upd]
    exact h.new (by show hand (s.pc t) = none; rw [hpc]; rfl)
  | @giveUp p m hpc =>
    show Slot.Pairs s.cell (fun u => hand (upd s.pc t _ u)) (some p :: s.out) s.next
    rw [hands_upd]
    exact h.give (by show hand (s.pc t) = _; rw [hpc]; rfl)
  | insLook => exact h
  | @reserve p m i hpc => exact same _ (by rw [hpc]; rfl)
  | @reserveFail p m m' hpc => exact same _ (by rw [hpc]; rfl)
  | @write p i m hpc =>
    show Slot.Pairs (upd s.cell i (some p)) (fun u => hand (upd s.pc t _ u)) s.out s.next
    rw [hands_upd]
    rw [hpc] at hce
    exact h.put (by show hand (s.pc t) = _; rw [hpc]; rfl) hce
  | postLook => exact h
  | postOwn => exact h
  | @publish p i m hpc => exact same _ (by rw [hpc]; rfl)
  | @publishFail p i m m' hpc => exact same _ (by rw [hpc]; rfl)
  | @giveBack p i m hpc => exact same _ (by rw [hpc]; rfl)
  | @unwind p i m hpc => exact same _ (by rw [hpc]; rfl)
  | @take p i hpc =>
    show Slot.Pairs (upd s.cell i none) (fun u => hand (upd s.pc t _ u)) s.out s.next
    rw [hands_upd]
    rw [hpc] at hce
    have hce : s.cell i = some p := hce
    show Slot.Pairs _ (upd s.hands t (s.cell i)) _ _
    have := h.get (t := t) (by show hand (s.pc t) = none; rw [hpc]; rfl) hce
    rw [hce]; exact this
  | @free q p i hpc =>
    show Slot.Pairs s.cell (fun u => hand (upd s.pc t _ u)) (q :: s.out) s.next
    rw [hands_upd]
    rw [hpc] at hce
    have hq : q = some p := hce.1
    rw [hq]
    exact h.give (by show hand (s.pc t) = _; rw [hpc]; exact hq)
  | look hpc => exact same _ (by rw [hpc]; rfl)
  | see => exact h
  | remove hpc => exact same _ (by rw [hpc]; rfl)
  | removeFail hpc => exact same _ (by rw [hpc]; rfl)
  | leave hpc => exact same _ (by rw [hpc]; rfl)
  | freeze hpc => exact same _ (by rw [hpc]; rfl)
  | thaw hpc => exact h

theorem pairs_reach {k : Nat} {s : State} (h : Reach k s) : s.Pairs := by
  induction h with
  | init => exact pairs_init k
  | step hr hs ih => exact pairs_step (inv_reach hr) ih hs

end Scc.Slot
