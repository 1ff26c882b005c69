import Verif.Table.Panic

/-!
# HashCache beside other threads (C58)

A call that stores a new entry may evict another one of the bucket, under the same lock (`Step.commitEvict`); what
the threads observe is an atomic map in which storing a new key may, at the same instant, take another entry away and
return it (`Spec.Step.linEvict`). From this: every stored pair is accounted for.
-/

namespace Scc.Table.Cache

open Scc.Table

variable {K V : Type} {hash : K → Nat}

/-! ## The calls -/

/-- Calls of `HashCache` on one key. `get` stands for `get_*` and `entry_*` that only look. -/
inductive Call (K V : Type)
  | put (k : K) (v : V)
  | tryPut (k : K) (v : V)
  | get (k : K)
  | read (k : K)
  | contains (k : K)
  | remove (k : K)
  | removeIf (k : K) (p : V → Bool)

/-- What a caller knows when a call has returned, including what they passed. -/
inductive Res (K V : Type)
  /-- `put`: `Ok(evicted)` -/
  | stored (k : K) (v : V) (evicted : Option (K × V))
  /-- `put`: `Err((key, value))` -/
  | rejected (k : K) (v : V)
  | got (k : K) (v : Option V)
  | found (k : K) (b : Bool)
  | removed (k : K) (v : Option V)

def Call.key : Call K V → K
  | .put k _ | .tryPut k _ | .get k | .read k | .contains k | .remove k | .removeIf k _ => k

/-- What the documentation promises on the value bound to the key: put (/repo/src/hash_cache.rs 316-387) leaves a
present key alone and stores an absent one; get (580-659) and read (661-700) show the value; contains (702-740);
remove (533-578) and remove_if (742-800) take the entry out. -/
def Call.run : Call K V → Option V → Option V × Res K V
  | .put k v, none | .tryPut k v, none => (some v, .stored k v none)
  | .put k v, some w | .tryPut k v, some w => (some w, .rejected k v)
  | .get k, w | .read k, w => (w, .got k w)
  | .contains k, w => (w, .found k w.isSome)
  | .remove k, w => (none, .removed k w)
  | .removeIf k _, none => (none, .removed k none)
  | .removeIf k p, some w => if p w then (none, .removed k (some w)) else (some w, .removed k none)

/-- Does the call allocate the table if necessary? -/
def Call.create : Call K V → Bool
  | .put .. | .tryPut .. => true
  | _ => false

/-- Does the call take a shared lock? -/
def Call.readOnly : Call K V → Bool
  | .read .. | .contains .. => true
  | _ => false

/-- Only `put_*` and `put_entry` evict (/repo/src/hash_cache.rs 335-387, 1750-1770). -/
def Call.evict : Call K V → Option (K → V → Res K V)
  | .put k v | .tryPut k v => some (fun k' v' => .stored k v (some (k', v')))
  | _ => none

/-- The call as an operation of the table model: `writer_sync` for put, `try_entry` (/repo/src/hash_cache.rs 285-314)
followed by `put_entry` for `tryPut`, `optional_writer_sync` for get, remove, remove_if, `reader_sync` for read and
contains. -/
def Call.op (c : Call K V) : Op K V (Res K V) where
  key := c.key
  f := c.run
  create := c.create
  readOnly := c.readOnly
  tryOp := match c with | .tryPut .. => true | _ => false
  absent := by cases c <;> simp [Call.create, Call.run]
  same := by cases c <;> simp [Call.readOnly, Call.run]
  evict := c.evict

/-! ## What a history says -/

/-- The calls are those above; traversals may remove entries but do not change values. -/
def Known : Event K V (Res K V) → Prop
  | .inv _ o => ∃ c : Call K V, o = c.op
  | .tvInv _ u => ∀ k v w, u k v = some w → w = v
  | _ => True

/-- No traversal. -/
def Single : Event K V (Res K V) → Prop
  | .tvInv .. => False
  | _ => True

/-- The call offers the pair to the cache. -/
def Call.Offers (c : Call K V) (k : K) (v : V) : Prop := c = .put k v ∨ c = .tryPut k v

/-- Some thread has called `put(k, v)`. -/
def Offered (es : List (Event K V (Res K V))) (k : K) (v : V) : Prop :=
  ∃ (t : Nat) (c : Call K V), Event.inv t c.op ∈ es ∧ c.Offers k v

/-- The pairs a result shows to have been in the cache. -/
def Res.Shows : Res K V → K → V → Prop
  | .stored _ _ (some p), k, v => p = (k, v)
  | .got k' w, k, v => k' = k ∧ w = some v
  | .removed k' w, k, v => k' = k ∧ w = some v
  | _, _, _ => False

section Count

variable [DecidableEq K] [DecidableEq V]

/-- One for a result that says the pair was stored. -/
def Res.into (k : K) (v : V) : Res K V → Nat
  | .stored k' v' _ => if k' = k ∧ v' = v then 1 else 0
  | _ => 0

/-- One for a result that hands the pair out: as an evicted or as a removed one. -/
def Res.outof (k : K) (v : V) : Res K V → Nat
  | .stored _ _ (some p) => if p = (k, v) then 1 else 0
  | .removed k' (some v') => if k' = k ∧ v' = v then 1 else 0
  | _ => 0

def evInto (k : K) (v : V) : Event K V (Res K V) → Nat
  | .ret _ (some r) => r.into k v
  | _ => 0

def evOutof (k : K) (v : V) : Event K V (Res K V) → Nat
  | .ret _ (some r) => r.outof k v
  | _ => 0

/-- How many calls returned that stored the pair. -/
def timesStored (k : K) (v : V) (es : List (Event K V (Res K V))) : Nat := (es.map (evInto k v)).sum

/-- How many returned calls handed the pair out. -/
def timesOut (k : K) (v : V) (es : List (Event K V (Res K V))) : Nat := (es.map (evOutof k v)).sum

end Count

/-! ## Everything shown was put -/

structure Src (es : List (Event K V (Res K V))) (a : Spec.St K V (Res K V)) : Prop where
  map : ∀ k v, a.map k = some v → Offered es k v
  pend : ∀ t o, a.pc t = .pending o → ∃ c : Call K V, o = c.op ∧ ∀ k v, c.Offers k v → Offered es k v
  done : ∀ t r, a.pc t = .done (some r) → ∀ k v, r.Shows k v → Offered es k v
  walk : ∀ t u seen, a.pc t = .walking u seen → ∀ k v w, u k v = some w → w = v

theorem Offered.mono {es : List (Event K V (Res K V))} {e : Event K V (Res K V)} {k : K} {v : V}
    (h : Offered es k v) : Offered (es ++ [e]) k v := by
  obtain ⟨t, c, h, o⟩ := h
  exact ⟨t, c, List.mem_append_left _ h, o⟩

theorem Src.mono {es : List (Event K V (Res K V))} {a : Spec.St K V (Res K V)} (h : Src es a)
    (e : Event K V (Res K V)) : Src (es ++ [e]) a :=
  ⟨fun k v g => (h.map k v g).mono,
   fun t o g => by
     obtain ⟨c, e, hc⟩ := h.pend t o g
     exact ⟨c, e, fun k v g => (hc k v g).mono⟩,
   fun t r g k v s => (h.done t r g k v s).mono, h.walk⟩

/-- A call that ran to its instant leaves in the cache, and shows, only pairs that were there or that it offered. -/
theorem run_src (c : Call K V) (w : Option V) {P : K → V → Prop} (hw : ∀ v, w = some v → P c.key v)
    (hc : ∀ k v, c.Offers k v → P k v) :
    (∀ v, (c.run w).1 = some v → P c.key v) ∧ ∀ k v, (c.run w).2.Shows k v → P k v := by
  cases c with
  | put k v =>
    cases w with
    | none => exact ⟨fun v' h => by cases h; exact hc _ _ (.inl rfl), fun _ _ h => h.elim⟩
    | some w => exact ⟨fun v' h => hw _ h, fun _ _ h => h.elim⟩
  | tryPut k v =>
    cases w with
    | none => exact ⟨fun v' h => by cases h; exact hc _ _ (.inr rfl), fun _ _ h => h.elim⟩
    | some w => exact ⟨fun v' h => hw _ h, fun _ _ h => h.elim⟩
  | get k => exact ⟨fun v h => hw _ h, fun k v h => by obtain ⟨rfl, h⟩ := h; exact hw _ h⟩
  | read k => exact ⟨fun v h => hw _ h, fun k v h => by obtain ⟨rfl, h⟩ := h; exact hw _ h⟩
  | contains k => exact ⟨fun v h => hw _ h, fun _ _ h => h.elim⟩
  | remove k => exact ⟨fun v h => (by cases h), fun k v h => by obtain ⟨rfl, h⟩ := h; exact hw _ h⟩
  | removeIf k p =>
    cases w with
    | none => exact ⟨fun v h => (by cases h), fun k v h => (by cases h.2)⟩
    | some w =>
      simp only [Call.run]
      split
      · exact ⟨fun v h => (by cases h), fun k v h => by obtain ⟨rfl, h⟩ := h; exact hw _ h⟩
      · exact ⟨fun v h => hw _ h, fun k v h => (by cases h.2)⟩

theorem Src.setPc {es : List (Event K V (Res K V))} {a : Spec.St K V (Res K V)} (h : Src es a) {t : Nat}
    {p : Spec.Pc K V (Res K V)}
    (h1 : ∀ o, p = .pending o → ∃ c : Call K V, o = c.op ∧ ∀ k v, c.Offers k v → Offered es k v)
    (h2 : ∀ r, p = .done (some r) → ∀ k v, r.Shows k v → Offered es k v)
    (h3 : ∀ u seen, p = .walking u seen → ∀ k v w, u k v = some w → w = v) : Src es (a.setPc t p) := by
  refine ⟨h.map, ?_, ?_, ?_⟩
  · intro u o g
    simp only [Spec.St.setPc] at g
    split at g
    · exact h1 o g
    · exact h.pend u o g
  · intro u r g
    simp only [Spec.St.setPc] at g
    split at g
    · exact h2 r g
    · exact h.done u r g
  · intro u x y g
    simp only [Spec.St.setPc] at g
    split at g
    · exact h3 x y g
    · exact h.walk u x y g

theorem Src.idle {es : List (Event K V (Res K V))} {a : Spec.St K V (Res K V)} (h : Src es a) (t : Nat) :
    Src es (a.setPc t .idle) :=
  h.setPc (fun _ e => by cases e) (fun _ e => by cases e) (fun _ _ e => by cases e)

theorem Src.step [DecidableEq K] {es : List (Event K V (Res K V))} {a a' : Spec.St K V (Res K V)} (h : Src es a)
    {oe : Option (Event K V (Res K V))} (st : Spec.Step a oe a') (hk : ∀ e, oe = some e → Known e) :
    Src (es ++ oe.toList) a' := by
  cases st with
  | @inv t o g =>
    obtain ⟨c, rfl⟩ := hk _ rfl
    refine (h.mono _).setPc ?_ (fun _ e => by cases e) (fun _ _ e => by cases e)
    intro o e
    cases e
    exact ⟨c, rfl, fun k v g => ⟨t, c, List.mem_append_right _ (List.mem_singleton.2 rfl), g⟩⟩
  | @lin t o g =>
    obtain ⟨c, rfl, hc⟩ := h.pend t o g
    obtain ⟨r1, r2⟩ := run_src c (a.map c.key) (fun v e => h.map _ _ e) hc
    have hp : Src es (a.put c.op.key (c.op.f (a.map c.op.key)).1) := by
      refine ⟨?_, h.pend, h.done, h.walk⟩
      intro k v g
      simp only [Spec.St.put] at g
      split at g
      · rename_i e; subst e; exact r1 v g
      · exact h.map k v g
    refine (List.append_nil es).symm ▸ hp.setPc (fun _ e => by cases e) ?_ (fun _ _ e => by cases e)
    intro r e
    cases e
    exact r2
  | @linEvict t o f k v g hf hn hne hv =>
    obtain ⟨c, rfl, hc⟩ := h.pend t o g
    have hp : Src es ((a.put k none).put c.op.key (c.op.f none).1) := by
      refine ⟨?_, h.pend, h.done, h.walk⟩
      intro k' v' g
      simp only [Spec.St.put] at g
      split at g
      · rename_i e
        subst e
        exact (run_src c none (P := Offered es) (fun v e => by cases e) hc).1 v' g
      · split at g
        · cases g
        · exact h.map k' v' g
    refine (List.append_nil es).symm ▸ hp.setPc (fun _ e => by cases e) ?_ (fun _ _ e => by cases e)
    intro r e
    cases e
    intro k' v' s
    have : (k, v) = (k', v') := by
      cases c <;> cases hf <;> exact s
    cases this
    exact h.map k v hv
  | @abort t o g ht =>
    exact (List.append_nil es).symm ▸ h.setPc (fun _ e => by cases e) (fun _ e => by cases e) (fun _ _ e => by cases e)
  | ret g => exact (h.mono _).idle _
  | cancel g => exact (h.mono _).idle _
  | tvInv g =>
    refine (h.mono _).setPc (fun _ e => by cases e) (fun _ e => by cases e) ?_
    intro u seen e
    cases e
    exact hk _ rfl
  | @tvSweep t u seen S g =>
    have hu := h.walk t u seen g
    have hp : Src es (a.sweep S u) := by
      refine ⟨?_, h.pend, h.done, h.walk⟩
      intro k v g
      simp only [Spec.St.sweep] at g
      split at g
      · cases hm : a.map k with
        | none => rw [hm] at g; cases g
        | some w => rw [hm] at g; have := hu k w v g; subst this; exact h.map k _ hm
      · exact h.map k v g
    refine (List.append_nil es).symm ▸ hp.setPc (fun _ e => by cases e) (fun _ e => by cases e) ?_
    intro u' seen' e
    cases e
    exact hu
  | tvRet g => exact (h.mono _).idle _
  | tvCancel g => exact (h.mono _).idle _
  | panic g => exact (h.mono _).idle _
  | @tvPanic t u seen S g =>
    have hu := h.walk t u seen g
    have hp : Src es (a.sweep S u) := by
      refine ⟨?_, h.pend, h.done, h.walk⟩
      intro k v g
      simp only [Spec.St.sweep] at g
      split at g
      · cases hm : a.map k with
        | none => rw [hm] at g; cases g
        | some w => rw [hm] at g; have := hu k w v g; subst this; exact h.map k _ hm
      · exact h.map k v g
    exact (hp.mono _).idle _
  | helpPanic g => exact h.mono _
  | helpCancel g => exact h.mono _

theorem Src.exec [DecidableEq K] {es : List (Event K V (Res K V))} {a : Spec.St K V (Res K V)}
    (ex : Spec.Exec Spec.St.init es a) (hk : ∀ e, e ∈ es → Known e) : Src es a := by
  generalize h0 : (Spec.St.init : Spec.St K V (Res K V)) = a0 at ex
  induction ex with
  | nil =>
    subst h0
    exact ⟨fun _ _ h => (by cases h), fun _ _ h => (by cases h), fun _ _ h => (by cases h), fun _ _ _ h => (by cases h)⟩
  | tau ex st ih =>
    have := (ih hk).step st (fun e he => by cases he)
    simpa using this
  | @event es a' e a'' ex st ih =>
    refine (ih (fun e he => hk e (List.mem_append_left _ he))).step st ?_
    intro e' he
    cases he
    exact hk _ (List.mem_append_right _ (List.mem_singleton.2 rfl))

/-! ## Every pair is accounted for -/

section Count

variable [DecidableEq K] [DecidableEq V]

/-- One if the map binds `k` to `v`. -/
def here (m : K → Option V) (k : K) (v : V) : Nat := if m k = some v then 1 else 0

/-- `F` lists the results that are fixed but not yet returned. -/
structure Flying (F : List (Nat × Res K V)) (a : Spec.St K V (Res K V)) : Prop where
  nodup : (F.map (·.1)).Nodup
  mem : ∀ t r, (t, r) ∈ F ↔ a.pc t = .done (some r)

/-- What went in is what came out and what is there. -/
structure Acc (es : List (Event K V (Res K V))) (a : Spec.St K V (Res K V)) : Prop where
  pend : ∀ t o, a.pc t = .pending o → ∃ c : Call K V, o = c.op
  walk : ∀ t u seen, a.pc t ≠ .walking u seen
  bal : ∃ F, Flying F a ∧ ∀ k v, timesStored k v es + (F.map (fun x => x.2.into k v)).sum =
    timesOut k v es + (F.map (fun x => x.2.outof k v)).sum + here a.map k v

theorem timesStored_snoc (k : K) (v : V) (es : List (Event K V (Res K V))) (e : Event K V (Res K V)) :
    timesStored k v (es ++ [e]) = timesStored k v es + evInto k v e := by simp [timesStored]

theorem timesOut_snoc (k : K) (v : V) (es : List (Event K V (Res K V))) (e : Event K V (Res K V)) :
    timesOut k v (es ++ [e]) = timesOut k v es + evOutof k v e := by simp [timesOut]

theorem flying_add {F : List (Nat × Res K V)} {a a' : Spec.St K V (Res K V)} (h : Flying F a) {t : Nat} {r : Res K V}
    (hn : ∀ r, a.pc t ≠ .done (some r)) (hpc : ∀ u, a'.pc u = if u = t then .done (some r) else a.pc u) :
    Flying ((t, r) :: F) a' := by
  refine ⟨?_, ?_⟩
  · simp only [List.map_cons, List.nodup_cons]
    refine ⟨?_, h.nodup⟩
    intro g
    obtain ⟨⟨u, r'⟩, g', e⟩ := List.mem_map.1 g
    have e : u = t := e
    subst e
    exact hn r' ((h.mem _ _).1 g')
  · intro u r'
    rw [hpc, List.mem_cons]
    by_cases hu : u = t
    · subst hu
      rw [if_pos rfl]
      refine ⟨?_, ?_⟩
      · rintro (e | g)
        · cases e; rfl
        · exact absurd ((h.mem _ _).1 g) (hn _)
      · intro e; cases e; exact .inl rfl
    · rw [if_neg hu]
      refine ⟨?_, fun e => .inr ((h.mem _ _).2 e)⟩
      rintro (e | g)
      · cases e; exact absurd rfl hu
      · exact (h.mem _ _).1 g

theorem flying_same {F : List (Nat × Res K V)} {a a' : Spec.St K V (Res K V)} (h : Flying F a) {t : Nat}
    {p : Spec.Pc K V (Res K V)} (hn : ∀ r, a.pc t ≠ .done (some r)) (hp : ∀ r, p ≠ .done (some r))
    (hpc : ∀ u, a'.pc u = if u = t then p else a.pc u) : Flying F a' := by
  refine ⟨h.nodup, ?_⟩
  intro u r
  rw [hpc, h.mem]
  by_cases hu : u = t
  · subst hu
    rw [if_pos rfl]
    exact ⟨fun e => absurd e (hn r), fun e => absurd e (hp r)⟩
  · rw [if_neg hu]

theorem sum_perm {α : Type} (f : α → Nat) {l l' : List α} (h : l.Perm l') : (l.map f).sum = (l'.map f).sum := by
  induction h with
  | nil => rfl
  | cons x _ ih => simp [ih]
  | swap x y l => simp; omega
  | trans _ _ i1 i2 => exact i1.trans i2

/-- The balance of a call that evicts nothing. -/
theorem run_bal (c : Call K V) (m : K → Option V) (k : K) (v : V) :
    (c.run (m c.key)).2.into k v + here m k v =
      (c.run (m c.key)).2.outof k v +
        here (fun x => if x = c.key then (c.run (m c.key)).1 else m x) k v := by
  have put : ∀ (k' : K) (v' : V) (c : Call K V), (c = .put k' v' ∨ c = .tryPut k' v') →
      (c.run (m c.key)).2.into k v + here m k v =
      (c.run (m c.key)).2.outof k v + here (fun x => if x = c.key then (c.run (m c.key)).1 else m x) k v := by
    intro k' v' c hc
    have hk : c.key = k' := by rcases hc with rfl | rfl <;> rfl
    rw [hk]
    cases hm : m k' with
    | none =>
      have hr : c.run none = (some v', .stored k' v' none) := by rcases hc with rfl | rfl <;> rfl
      rw [hr]
      simp only [Res.into, Res.outof, here]
      by_cases hkk : k = k'
      · subst hkk
        rw [hm]
        by_cases hv : v' = v <;> simp [hv]
      · have : ¬ k' = k := fun e => hkk e.symm
        simp [hkk, this]
    | some w =>
      have hr : c.run (some w) = (some w, .rejected k' v') := by rcases hc with rfl | rfl <;> rfl
      rw [hr]
      simp only [Res.into, Res.outof, here]
      by_cases hkk : k = k'
      · subst hkk; simp [hm]
      · simp [hkk]
  have same : ∀ (k' : K), here m k v = here (fun x => if x = k' then m k' else m x) k v := by
    intro k'
    simp only [here]
    by_cases hkk : k = k'
    · subst hkk; simp
    · simp [hkk]
  have del : ∀ (k' : K), here m k v = (Res.removed k' (m k')).outof k v + here (fun x => if x = k' then none else m x) k v := by
    intro k'
    simp only [here]
    by_cases hkk : k = k'
    · subst hkk
      obtain ⟨w, hm⟩ : ∃ w, m k = w := ⟨_, rfl⟩
      cases w with
      | none => simp [Res.outof, hm]
      | some w => simp [Res.outof, hm]
    · have : ¬ k' = k := fun e => hkk e.symm
      obtain ⟨w, hm⟩ : ∃ w, m k' = w := ⟨_, rfl⟩
      cases w with
      | none => simp [Res.outof, hkk, hm]
      | some w => simp [Res.outof, hkk, hm, this]
  cases c with
  | put k' v' => exact put k' v' _ (.inl rfl)
  | tryPut k' v' => exact put k' v' _ (.inr rfl)
  | get k' => show 0 + _ = 0 + _; rw [Nat.zero_add, Nat.zero_add]; exact same k'
  | read k' => show 0 + _ = 0 + _; rw [Nat.zero_add, Nat.zero_add]; exact same k'
  | contains k' => show 0 + _ = 0 + _; rw [Nat.zero_add, Nat.zero_add]; exact same k'
  | remove k' => show 0 + _ = _; rw [Nat.zero_add]; exact del k'
  | removeIf k' p =>
    have d := del k'
    have s := same k'
    simp only [Call.key]
    cases hm : m k' with
    | none => rw [hm] at d; show 0 + _ = _; rw [Nat.zero_add]; exact d
    | some w =>
      rw [hm] at d s
      simp only [Call.run]
      split
      · show 0 + _ = _; rw [Nat.zero_add]; exact d
      · show 0 + _ = 0 + _; rw [Nat.zero_add, Nat.zero_add]; exact s

/-- The balance of a call that evicts. -/
theorem evict_bal (c : Call K V) {f : K → V → Res K V} (hf : c.op.evict = some f) (m : K → Option V) {k' : K} {v' : V}
    (hn : m c.key = none) (hne : k' ≠ c.key) (hv : m k' = some v') (k : K) (v : V) :
    (f k' v').into k v + here m k v = (f k' v').outof k v +
      here (fun x => if x = c.key then (c.run none).1 else if x = k' then none else m x) k v := by
  have put : ∀ (k₀ : K) (v₀ : V), c.key = k₀ → (c.run none).1 = some v₀ → f k' v' = .stored k₀ v₀ (some (k', v')) →
      (f k' v').into k v + here m k v = (f k' v').outof k v +
      here (fun x => if x = c.key then (c.run none).1 else if x = k' then none else m x) k v := by
    intro k₀ v₀ e1 e2 e3
    rw [e2, e3, e1]
    rw [e1] at hn hne
    simp only [Res.into, Res.outof, here]
    by_cases h1 : k = k₀
    · subst h1
      by_cases h2 : v₀ = v
      · subst h2; simp [hne, hn]
      · simp [hne, h2, hn]
    · have h1' : ¬ k₀ = k := fun e => h1 e.symm
      by_cases h2 : k = k'
      · subst h2
        by_cases h3 : v' = v
        · subst h3; simp [h1, h1', hv]
        · simp [h1, h1', hv, h3]
      · have h2' : ¬ k' = k := fun e => h2 e.symm
        simp [h1, h1', h2, h2']
  cases c with
  | put k₀ v₀ => cases hf; exact put k₀ v₀ rfl rfl rfl
  | tryPut k₀ v₀ => cases hf; exact put k₀ v₀ rfl rfl rfl
  | get _ => cases hf
  | read _ => cases hf
  | contains _ => cases hf
  | remove _ => cases hf
  | removeIf _ _ => cases hf

theorem Acc.quiet {es : List (Event K V (Res K V))} {a a' : Spec.St K V (Res K V)} (h : Acc es a) {t : Nat}
    {p : Spec.Pc K V (Res K V)} {oe : List (Event K V (Res K V))} (hn : ∀ r, a.pc t ≠ .done (some r))
    (h1 : ∀ o, p = .pending o → ∃ c : Call K V, o = c.op) (h2 : ∀ r, p ≠ .done (some r))
    (h3 : ∀ u seen, p ≠ .walking u seen) (hpc : ∀ u, a'.pc u = if u = t then p else a.pc u)
    (hm : a'.map = a.map) (hi : ∀ k v, timesStored k v (es ++ oe) = timesStored k v es)
    (ho : ∀ k v, timesOut k v (es ++ oe) = timesOut k v es) : Acc (es ++ oe) a' := by
  obtain ⟨F, hF, hb⟩ := h.bal
  refine ⟨?_, ?_, F, flying_same hF hn h2 hpc, ?_⟩
  · intro u o g
    rw [hpc] at g
    split at g
    · exact h1 o g
    · exact h.pend u o g
  · intro u x y g
    rw [hpc] at g
    split at g
    · exact h3 _ _ g
    · exact h.walk _ _ _ g
  · intro k v
    rw [hi, ho, hm]
    exact hb k v

theorem Acc.lin {es : List (Event K V (Res K V))} {a a' : Spec.St K V (Res K V)} (h : Acc es a) {t : Nat} {r : Res K V}
    (hn : ∀ r, a.pc t ≠ .done (some r)) (hpc : ∀ u, a'.pc u = if u = t then .done (some r) else a.pc u)
    (hb : ∀ k v, r.into k v + here a.map k v = r.outof k v + here a'.map k v) : Acc es a' := by
  obtain ⟨F, hF, hb'⟩ := h.bal
  refine ⟨?_, ?_, (t, r) :: F, flying_add hF hn hpc, ?_⟩
  · intro u o g
    rw [hpc] at g
    split at g
    · cases g
    · exact h.pend u o g
  · intro u x y g
    rw [hpc] at g
    split at g
    · cases g
    · exact h.walk _ _ _ g
  · intro k v
    have := hb k v
    have := hb' k v
    simp only [List.map_cons, List.sum_cons]
    omega

theorem Acc.ret {es : List (Event K V (Res K V))} {a : Spec.St K V (Res K V)} (h : Acc es a) {t : Nat} {r : Res K V}
    (g : a.pc t = .done (some r)) : Acc (es ++ [.ret t (some r)]) (a.setPc t .idle) := by
  obtain ⟨F, hF, hb⟩ := h.bal
  have hm : (t, r) ∈ F := (hF.mem t r).2 g
  have hp : F.Perm ((t, r) :: F.eraseP (fun x => x.1 == t)) := by
    obtain ⟨x, l1, l2, h1, h2, e1, e2⟩ := List.exists_of_eraseP hm (p := fun x => x.1 == t) (by simp)
    rw [e2]
    have hx : x = (t, r) := by
      obtain ⟨u, r'⟩ := x
      have hu : u = t := by simpa using h2
      subst hu
      have := (hF.mem u r').1 (by rw [e1]; simp)
      rw [g] at this
      cases this
      rfl
    rw [e1, hx]
    exact List.perm_middle
  generalize F.eraseP (fun x => x.1 == t) = F' at hp
  have hnd : ((t :: F'.map (·.1))).Nodup := (hp.map (fun x : Nat × Res K V => x.1)).nodup_iff.1 hF.nodup
  rw [List.nodup_cons] at hnd
  refine ⟨?_, ?_, F', ⟨hnd.2, ?_⟩, ?_⟩
  · intro u o g
    simp only [Spec.St.setPc] at g
    split at g
    · cases g
    · exact h.pend u o g
  · intro u x y g
    simp only [Spec.St.setPc] at g
    split at g
    · cases g
    · exact h.walk _ _ _ g
  · intro u r'
    simp only [Spec.St.setPc]
    by_cases hu : u = t
    · subst hu
      rw [if_pos rfl]
      refine ⟨fun e => absurd (List.mem_map.2 ⟨_, e, rfl⟩) hnd.1, fun e => by cases e⟩
    · rw [if_neg hu, ← hF.mem, hp.mem_iff, List.mem_cons]
      refine ⟨.inr, ?_⟩
      rintro (e | e)
      · cases e; exact absurd rfl hu
      · exact e
  · intro k v
    have hb := hb k v
    rw [sum_perm _ hp, sum_perm _ hp] at hb
    rw [timesStored_snoc, timesOut_snoc]
    simp only [List.map_cons, List.sum_cons] at hb
    show timesStored k v es + r.into k v + _ = timesOut k v es + r.outof k v + _ + here a.map k v
    omega

theorem Acc.step {es : List (Event K V (Res K V))} {a a' : Spec.St K V (Res K V)} (h : Acc es a)
    {oe : Option (Event K V (Res K V))} (st : Spec.Step a oe a') (hk : ∀ e, oe = some e → Known e ∧ Single e) :
    Acc (es ++ oe.toList) a' := by
  have hi : ∀ e : Event K V (Res K V), (∀ k v, evInto k v e = 0) → ∀ k v, timesStored k v (es ++ [e]) = timesStored k v es := by
    intro e he k v; rw [timesStored_snoc, he]; omega
  have ho : ∀ e : Event K V (Res K V), (∀ k v, evOutof k v e = 0) → ∀ k v, timesOut k v (es ++ [e]) = timesOut k v es := by
    intro e he k v; rw [timesOut_snoc, he]; omega
  cases st with
  | @inv t o g =>
    obtain ⟨c, rfl⟩ := (hk _ rfl).1
    refine h.quiet (t := t) (fun r e => by rw [g] at e; cases e) ?_ (fun r e => by cases e) (fun _ _ e => by cases e)
      (fun _ => rfl) rfl (hi _ fun _ _ => rfl) (ho _ fun _ _ => rfl)
    intro o e
    cases e
    exact ⟨c, rfl⟩
  | @lin t o g =>
    obtain ⟨c, rfl⟩ := h.pend t o g
    rw [show es ++ Option.toList none = es from List.append_nil es]
    exact h.lin (t := t) (fun r e => by rw [g] at e; cases e) (fun _ => rfl) (run_bal c a.map)
  | @linEvict t o f k v g hf hn hne hv =>
    obtain ⟨c, rfl⟩ := h.pend t o g
    rw [show es ++ Option.toList none = es from List.append_nil es]
    exact h.lin (t := t) (fun r e => by rw [g] at e; cases e) (fun _ => rfl) (evict_bal c hf a.map hn hne hv)
  | @abort t o g ht =>
    refine h.quiet (t := t) (fun r e => by rw [g] at e; cases e) (fun _ e => by cases e) (fun r e => by cases e)
      (fun _ _ e => by cases e) (fun _ => rfl) rfl ?_ ?_
    · intro k v; rw [show es ++ Option.toList none = es from List.append_nil es]
    · intro k v; rw [show es ++ Option.toList none = es from List.append_nil es]
  | @ret t r g =>
    cases r with
    | some r => exact h.ret g
    | none =>
      exact h.quiet (t := t) (fun r e => by rw [g] at e; cases e) (fun _ e => by cases e) (fun r e => by cases e)
        (fun _ _ e => by cases e) (fun _ => rfl) rfl (hi _ fun _ _ => rfl) (ho _ fun _ _ => rfl)
  | @cancel t o g =>
    exact h.quiet (t := t) (fun r e => by rw [g] at e; cases e) (fun _ e => by cases e) (fun r e => by cases e)
      (fun _ _ e => by cases e) (fun _ => rfl) rfl (hi _ fun _ _ => rfl) (ho _ fun _ _ => rfl)
  | tvInv g => exact (hk _ rfl).2.elim
  | tvSweep S g => exact absurd g (h.walk _ _ _)
  | tvRet g => exact absurd g (h.walk _ _ _)
  | tvCancel g => exact absurd g (h.walk _ _ _)
  | @panic t o g =>
    exact h.quiet (t := t) (fun r e => by rw [g] at e; cases e) (fun _ e => by cases e) (fun r e => by cases e)
      (fun _ _ e => by cases e) (fun _ => rfl) rfl (hi _ fun _ _ => rfl) (ho _ fun _ _ => rfl)
  | tvPanic S g => exact absurd g (h.walk _ _ _)
  | @helpPanic t g =>
    refine h.quiet (t := t) (p := .idle) (fun r e => by rw [g] at e; cases e) (fun _ e => by cases e) (fun r e => by cases e)
      (fun _ _ e => by cases e) ?_ rfl (hi _ fun _ _ => rfl) (ho _ fun _ _ => rfl)
    intro u; split
    · rename_i e; subst e; exact g
    · rfl
  | @helpCancel t g =>
    refine h.quiet (t := t) (p := .idle) (fun r e => by rw [g] at e; cases e) (fun _ e => by cases e) (fun r e => by cases e)
      (fun _ _ e => by cases e) ?_ rfl (hi _ fun _ _ => rfl) (ho _ fun _ _ => rfl)
    intro u; split
    · rename_i e; subst e; exact g
    · rfl

theorem Acc.exec {es : List (Event K V (Res K V))} {a : Spec.St K V (Res K V)}
    (ex : Spec.Exec Spec.St.init es a) (hk : ∀ e, e ∈ es → Known e ∧ Single e) : Acc es a := by
  generalize h0 : (Spec.St.init : Spec.St K V (Res K V)) = a0 at ex
  induction ex with
  | nil =>
    subst h0
    refine ⟨fun _ _ h => (by cases h), fun _ _ _ h => (by cases h), [], ⟨List.nodup_nil, ?_⟩, fun _ _ => rfl⟩
    intro t r
    exact ⟨fun h => (by cases h), fun h => (by cases h)⟩
  | tau ex st ih =>
    have := (ih hk).step st (fun e he => by cases he)
    simpa using this
  | @event es a' e a'' ex st ih =>
    refine (ih (fun e he => hk e (List.mem_append_left _ he))).step st ?_
    intro e' he
    cases he
    exact hk _ (List.mem_append_right _ (List.mem_singleton.2 rfl))

end Count

/-! ## C58 -/

/-- **C58.** Whatever the threads do, and whenever the cache is resized, its calls and returns are those of an atomic
map in which storing a new key may at the same instant take one other entry out, and only this entry, and returns it;
the contents of the cache are the contents of that map. -/
theorem c58_linearizable [DecidableEq K] (hh : ∀ k, hash k < 2 ^ 64) {s₀ s : St K V (Res K V)}
    {es : List (Event K V (Res K V))} (h0 : Init s₀) (ex : Exec hash s₀ es s) :
    ∃ a, Spec.Exec Spec.St.init es a ∧ a.map = s.absMap hash := c02_linearizable hh h0 ex

/-- **C58.** At every moment, whatever a returned call shows of the cache (a value got, a removed pair, an evicted
pair), and whatever is in the cache, was put by a call that had started. -/
theorem c58_source [DecidableEq K] (hh : ∀ k, hash k < 2 ^ 64) {s₀ s : St K V (Res K V)}
    {es : List (Event K V (Res K V))} (h0 : Init s₀) (ex : Exec hash s₀ es s) (hk : ∀ e, e ∈ es → Known e) :
    (∀ k v, s.absMap hash k = some v → Offered es k v) ∧
    ∀ t r, Event.ret t (some r) ∈ es → ∀ k v, r.Shows k v → Offered es k v := by
  have key : ∀ es (s : St K V (Res K V)), Exec hash s₀ es s → (∀ e, e ∈ es → Known e) → Src es (s.abs hash) := by
    intro es s ex hk
    have := sim_exec hh (inv_start h0) ex
    rw [abs_start h0] at this
    exact Src.exec this hk
  refine ⟨fun k v h => (key es s ex hk).map k v h, ?_⟩
  have sp := sim_exec hh (inv_start h0) ex
  rw [abs_start h0] at sp
  generalize St.abs hash s = a at sp
  clear ex
  generalize h0 : (Spec.St.init : Spec.St K V (Res K V)) = a0 at sp
  induction sp with
  | nil => intro t r h; cases h
  | tau ex st ih => exact ih hk
  | @event es a' e a'' ex st ih =>
    intro t r h k v sh
    have hk' : ∀ e, e ∈ es → Known e := fun e he => hk e (List.mem_append_left _ he)
    rcases List.mem_append.1 h with h | h
    · exact (ih hk' t r h k v sh).mono
    · have := List.mem_singleton.1 h
      subst this
      subst h0
      cases st with
      | ret g => exact ((Src.exec ex hk').done t r g k v sh).mono

/-- **C58.** When no call is running, each pair has been stored exactly as often as it was handed out, as an evicted
or as a removed pair, plus one if it is still in the cache: no entry is lost, none is handed out twice, and no
eviction goes unreported. -/
theorem c58_conserved [DecidableEq K] [DecidableEq V] (hh : ∀ k, hash k < 2 ^ 64) {s₀ s : St K V (Res K V)}
    {es : List (Event K V (Res K V))} (h0 : Init s₀) (ex : Exec hash s₀ es s)
    (hk : ∀ e, e ∈ es → Known e ∧ Single e) (hi : ∀ t, s.pc t = .idle) (k : K) (v : V) :
    timesStored k v es = timesOut k v es + (if s.absMap hash k = some v then 1 else 0) := by
  have sp := sim_exec hh (inv_start h0) ex
  rw [abs_start h0] at sp
  obtain ⟨F, hF, hb⟩ := (Acc.exec sp hk).bal
  have hFe : F = [] := by
    cases F with
    | nil => rfl
    | cons x F =>
      obtain ⟨t, r⟩ := x
      have := (hF.mem t r).1 (List.mem_cons_self ..)
      have he : (s.abs hash).pc t = (s.pc t).abs := rfl
      rw [he, hi t] at this
      cases this
  subst hFe
  have := hb k v
  simp only [List.map_nil, List.sum_nil, Nat.add_zero] at this
  exact this

/-! ### A small execution

Thread 0 stores key 1; thread 1 stores key 2 into the same bucket and evicts key 1; thread 0 does not find it. -/

def wPut (k v : Nat) : Op Nat Nat (Res Nat Nat) := (Call.put k v).op
def wGet (k : Nat) : Op Nat Nat (Res Nat Nat) := (Call.get (V := Nat) k).op

def wEvents : List (Event Nat Nat (Res Nat Nat)) :=
  [.inv 0 (wPut 1 5), .ret 0 (some (.stored 1 5 none)), .inv 1 (wPut 2 6), .inv 0 (wGet 1),
    .ret 1 (some (.stored 2 6 (some (1, 5)))), .ret 0 (some (.got 1 none))]

theorem w_evict : ∃ s : St Nat Nat (Res Nat Nat), Exec h0 (St.initWith 1) wEvents s ∧ ∀ t, s.pc t = .idle := by
  have e := Exec.event (hash := h0) (Exec.nil (s := (St.initWith 1 : St Nat Nat (Res Nat Nat))))
    (Step.invoke (t := 0) (o := wPut 1 5) rfl)
  have e := Exec.tau e (Step.load (t := 0) (g := .op (wPut 1 5)) (a := 0) rfl rfl)
  have e := Exec.tau e (Step.linkNone (t := 0) (g := .op (wPut 1 5)) (a := 0) rfl rfl)
  have e := Exec.tau e (Step.lock (t := 0) (g := .op (wPut 1 5)) (a := 0) rfl rfl rfl)
  have e := Exec.tau e (Step.commit (t := 0) (o := wPut 1 5) (a := 0) rfl)
  have e := Exec.tau e (Step.unlock (t := 0) (o := wPut 1 5) (a := 0) rfl)
  have e := Exec.event e (Step.ret (t := 0) rfl)
  have e := Exec.event e (Step.invoke (t := 1) (o := wPut 2 6) rfl)
  have e := Exec.tau e (Step.load (t := 1) (g := .op (wPut 2 6)) (a := 0) rfl rfl)
  have e := Exec.tau e (Step.linkNone (t := 1) (g := .op (wPut 2 6)) (a := 0) rfl rfl)
  have e := Exec.tau e (Step.lock (t := 1) (g := .op (wPut 2 6)) (a := 0) rfl rfl rfl)
  have e := Exec.event e (Step.invoke (t := 0) (o := wGet 1) rfl)
  have e := Exec.tau e (Step.load (t := 0) (g := .op (wGet 1)) (a := 0) rfl rfl)
  have e := Exec.tau e (Step.linkNone (t := 0) (g := .op (wGet 1)) (a := 0) rfl rfl)
  have e := Exec.tau e (Step.commitEvict (t := 1) (o := wPut 2 6) (a := 0) (k := 1) (v := 5)
    (f := fun k' v' => .stored 2 6 (some (k', v'))) rfl rfl rfl (by decide) rfl)
  have e := Exec.tau e (Step.unlock (t := 1) (o := wPut 2 6) (a := 0) rfl)
  have e := Exec.tau e (Step.lock (t := 0) (g := .op (wGet 1)) (a := 0) rfl rfl rfl)
  have e := Exec.tau e (Step.commit (t := 0) (o := wGet 1) (a := 0) rfl)
  have e := Exec.tau e (Step.unlock (t := 0) (o := wGet 1) (a := 0) rfl)
  have e := Exec.event e (Step.ret (t := 1) rfl)
  have e := Exec.event e (Step.ret (t := 0) rfl)
  refine ⟨_, e, ?_⟩
  intro t
  match t with
  | 0 => rfl
  | 1 => rfl
  | n + 2 => rfl

/-- It meets the hypotheses of the theorems above. -/
theorem w_known : ∀ e, e ∈ wEvents → Known e ∧ Single e := by
  intro e he
  simp only [wEvents, List.mem_cons, List.not_mem_nil, or_false] at he
  rcases he with rfl | rfl | rfl | rfl | rfl | rfl
  · exact ⟨⟨_, rfl⟩, trivial⟩
  · exact ⟨trivial, trivial⟩
  · exact ⟨⟨_, rfl⟩, trivial⟩
  · exact ⟨⟨_, rfl⟩, trivial⟩
  · exact ⟨trivial, trivial⟩
  · exact ⟨trivial, trivial⟩

/-- What `c58_conserved` says of it: the first pair was stored and handed out once, so it is not there. -/
example : ∃ s : St Nat Nat (Res Nat Nat), Exec h0 (St.initWith 1) wEvents s ∧
    timesStored 1 5 wEvents = 1 ∧ timesOut 1 5 wEvents = 1 ∧ s.absMap h0 1 ≠ some 5 ∧ s.absMap h0 2 = some 6 := by
  obtain ⟨s, ex, hi⟩ := w_evict
  have i0 : Init (St.initWith 1 : St Nat Nat (Res Nat Nat)) := .withCapacity 1 (by omega) (by omega)
  have h1 := c58_conserved h0_lt i0 ex w_known hi 1 5
  have h2 := c58_conserved h0_lt i0 ex w_known hi 2 6
  have a1 : timesStored 1 5 wEvents = 1 := by decide
  have a2 : timesOut 1 5 wEvents = 1 := by decide
  have a3 : timesStored 2 6 wEvents = 1 := by decide
  have a4 : timesOut 2 6 wEvents = 0 := by decide
  refine ⟨s, ex, a1, a2, ?_, ?_⟩
  · intro h; rw [if_pos h] at h1; omega
  · by_cases h : s.absMap h0 2 = some 6
    · exact h
    · rw [if_neg h] at h2; omega

end Scc.Table.Cache
