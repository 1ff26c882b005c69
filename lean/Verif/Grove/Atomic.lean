import Verif.Grove.Spec

/-!
# Linearizability

A history (the calls and returns of any number of threads) is linearizable if an atomic map could have
produced it: one that does everything a call asks for at a single moment between the call and the return.
`legal_linearizable` derives this from `Legal` and `Once`, for any events.
-/

namespace Scc.Grove

local notation "Key" => Nat
local notation "Id" => Nat
local notation "Thr" => Nat

variable {V : Type}

/-- What a call answers, and what its key is mapped to afterwards, if its key is mapped to `x`. -/
def Op.act (o : Op V) (x : Option V) : Ans V × Option V :=
  match o, x with
  | .peek, x => (.found x, x)
  | .insert v, none => (.inserted, some v)
  | .insert _, some w => (.duplicate, some w)
  | .remove _, none => (.removed false, none)
  | .remove c, some w => if c w then (.removed true, none) else (.removed false, some w)

/-- A thread that uses an atomic map. -/
inductive Stage (V : Type)
  | idle
  /-- the call has begun, and nothing was done yet -/
  | pending (k : Key) (o : Op V)
  /-- everything was done; the call will return this -/
  | done (a : Ans V)

/-- The histories of an atomic map, latest event first, with the map and the threads. -/
inductive Atomic : List (Ev V) → (Key → Option V) → (Thr → Stage V) → Prop
  | init : Atomic [] (fun _ => none) (fun _ => .idle)
  | call {h m st} (t : Thr) (k : Key) (o : Op V) (r : Atomic h m st) (hs : st t = .idle) :
    Atomic (.call t k o :: h) m (fun t' => if t' = t then .pending k o else st t')
  | act {h m st} (t : Thr) (k : Key) (o : Op V) (r : Atomic h m st) (hs : st t = .pending k o) :
    Atomic h (fun k' => if k' = k then (o.act (m k)).2 else m k')
      (fun t' => if t' = t then .done (o.act (m k)).1 else st t')
  | ret {h m st} (t : Thr) (a : Ans V) (r : Atomic h m st) (hs : st t = .done a) :
    Atomic (.ret t a :: h) m (fun t' => if t' = t then .idle else st t')

/-- Is the event a call or a return? -/
def Ev.outer : Ev V → Bool
  | .call .. => true
  | .ret .. => true
  | _ => false

/-- The calls and returns of an execution could be those of an atomic map. -/
def Linearizable (es : List (Ev V)) : Prop := ∃ m st, Atomic (es.filter Ev.outer) m st

/-- What the atomic map may have done for a call of which the monitor knows this. -/
def Fits (cur : Option (Key × Op V)) (seen : Option V → Prop) (eff : Nat) (x : Stage V) : Prop :=
  match cur with
  | none => x = .idle
  | some (k, o) =>
    if eff = 0 then
      x = .pending k o ∨ ∃ y a, seen y ∧ o.act y = (a, y) ∧ x = .done a
    else match o with
      | .insert _ => x = .done .inserted
      | .remove _ => x = .done (.removed true)
      | .peek => False

/-- The same for all threads. -/
def FitsAll (M : Mon V) (st : Thr → Stage V) : Prop := ∀ t, Fits (M.cur t) (M.seen t) (M.eff t) (st t)

/-- The threads that call something. -/
def callers : List (Ev V) → List Thr
  | [] => []
  | .call t _ _ :: es => t :: callers es
  | _ :: es => callers es

theorem mem_callers {es : List (Ev V)} {t : Thr} {x : Key × Op V} (h : (mon es).cur t = some x) : t ∈ callers es := by
  induction es with
  | nil => cases h
  | cons e es ih =>
    cases e with
    | tau => exact ih h
    | call t' k o =>
      by_cases e : t = t'
      · subst e; exact List.mem_cons_self
      · simp only [mon, Mon.next, upd, if_neg e] at h
        exact List.mem_cons_of_mem _ (ih h)
    | put t' k v => exact ih h
    | del t' k v => exact ih h
    | ret t' a =>
      by_cases e : t = t'
      · subst e; simp only [mon, Mon.next, upd, if_true] at h; cases h
      · simp only [mon, Mon.next, upd, if_neg e] at h
        exact ih h

/-- Threads of a list do what does not change the map. -/
theorem Atomic.reads {h : List (Ev V)} {m st} (l : List Thr) (st' : Thr → Stage V) (r : Atomic h m st)
    (hl : ∀ t, t ∉ l → st' t = st t)
    (hs : ∀ t, st' t = st t ∨ ∃ k o a, st t = .pending k o ∧ o.act (m k) = (a, m k) ∧ st' t = .done a) :
    Atomic h m st' := by
  induction l generalizing st with
  | nil =>
    have : st' = st := funext fun t => hl t (List.not_mem_nil)
    rw [this]; exact r
  | cons t0 l ih =>
    rcases hs t0 with e | ⟨k, o, a, h1, h2, h3⟩
    · refine ih r (fun t ht => ?_) hs
      by_cases e' : t = t0
      · rw [e']; exact e
      · exact hl t (by simp [e', ht])
    · have r' := Atomic.act t0 k o r h1
      rw [h2] at r'
      have em : (fun k' => if k' = k then m k else m k') = m := funext fun k' => by
        by_cases e : k' = k
        · rw [if_pos e, e]
        · rw [if_neg e]
      simp only [em] at r'
      refine ih r' (fun t ht => ?_) fun t => ?_
      · by_cases e' : t = t0
        · subst e'; rw [if_pos rfl]; exact h3
        · rw [if_neg e']; exact hl t (by simp [e', ht])
      · by_cases e' : t = t0
        · subst e'; rw [if_pos rfl]; exact .inl h3
        · rw [if_neg e']; exact hs t

/-- The step of a call that changes the map. -/
theorem atomic_change {es h : List (Ev V)} {t : Thr} {k : Key} {o : Op V} {a : Ans V} {x : Option V}
    (hc : (mon es).cur t = some (k, o)) (he : (mon es).eff t = 0) (ha : o.act ((mon es).map k) = (a, x))
    (ih : ∀ st : Thr → Stage V, FitsAll (mon es) st → Atomic h (mon es).map st)
    (st : Thr → Stage V) (hf : FitsAll ((mon es).assign t k x) st) (hd : st t = .done a) :
    Atomic h (upd (mon es).map k x) st := by
  -- those that act after the change
  let late : Thr → Prop := fun t' => t' ≠ t ∧ ¬ Fits ((mon es).cur t') ((mon es).seen t') ((mon es).eff t') (st t')
  have lateq : ∀ t', late t' → ∃ o' a', (mon es).cur t' = some (k, o') ∧ (mon es).eff t' = 0 ∧
      o'.act x = (a', x) ∧ st t' = .done a' := by
    intro t' ⟨e, hn⟩
    have := hf t'
    simp only [Mon.assign, upd, if_neg e] at this
    unfold Fits at this hn
    split at this
    · rename_i h0
      simp only [h0] at hn
      exact absurd this hn
    · rename_i k' o' h0
      simp only [h0] at hn
      split at this
      · rename_i h00
        rw [if_pos h00] at hn
        rcases this with h | ⟨y, a', hy, hya, h⟩
        · exact absurd (.inl h) hn
        · rcases hy with hy | ⟨⟨op, hop⟩, hy⟩
          · exact absurd (.inr ⟨y, a', hy, hya, h⟩) hn
          · subst hy
            rw [h0] at hop
            simp only [Option.some.injEq, Prod.mk.injEq] at hop
            obtain ⟨rfl, rfl⟩ := hop
            exact ⟨o', a', h0, h00, hya, h⟩
      · rename_i h00
        rw [if_neg h00] at hn
        exact absurd this hn
  classical
  let st0 : Thr → Stage V := fun t' =>
    if t' = t then .pending k o else
    if late t' then (match (mon es).cur t' with | some (k', o') => .pending k' o' | none => .idle) else st t'
  have r := ih st0 fun t' => by
    by_cases e : t' = t
    · subst e
      simp only [st0, if_true, hc, Fits, he]
      exact .inl trivial
    · by_cases hlt : late t'
      · obtain ⟨o', a', h1, h2, h3, h4⟩ := lateq t' hlt
        simp only [st0, if_neg e, if_pos hlt, h1, Fits, h2]
        exact .inl trivial
      · simp only [st0, if_neg e, if_neg hlt]
        exact Classical.byContradiction fun hn => hlt ⟨e, hn⟩
  have r := Atomic.act t k o r (by simp only [st0, if_true])
  rw [ha] at r
  refine Atomic.reads (callers es) st r (fun t' ht' => ?_) fun t' => ?_
  · by_cases e : t' = t
    · subst e; simp only [if_true, hd]
    · by_cases hlt : late t'
      · obtain ⟨o', a', h1, h2, h3, h4⟩ := lateq t' hlt
        exact absurd (mem_callers h1) ht'
      · simp only [st0, if_neg e, if_neg hlt]
  · by_cases e : t' = t
    · subst e; simp only [if_true, hd]; exact .inl trivial
    · by_cases hlt : late t'
      · obtain ⟨o', a', h1, h2, h3, h4⟩ := lateq t' hlt
        refine .inr ⟨k, o', a', ?_, ?_, h4⟩
        · simp only [st0, if_neg e, if_pos hlt, h1]
        · show o'.act (if k = k then x else _) = (a', if k = k then x else _); rw [if_pos rfl]; exact h3
      · simp only [st0, if_neg e, if_neg hlt]; exact .inl trivial

/-- All the moments at which the atomic map might have acted are possible. -/
theorem legal_atomic {es : List (Ev V)} (hl : Legal es) (ho : Once es) (st : Thr → Stage V)
    (hf : FitsAll (mon es) st) : Atomic (es.filter Ev.outer) (mon es).map st := by
  induction es generalizing st with
  | nil =>
    have : st = fun _ => .idle := funext fun t => hf t
    rw [this]; exact .init
  | cons e es ih =>
    obtain ⟨hl, hk⟩ := hl
    obtain ⟨ho, h1⟩ := ho
    have ih := ih hl ho
    cases e with
    | tau => exact ih st hf
    | call t k o =>
      have hc : (mon es).cur t = none := hk
      have r := ih (fun t' => if t' = t then .idle else st t') fun t' => by
        by_cases e : t' = t
        · subst e; simp only [Fits, hc, if_true]
        · simp only [if_neg e]
          have := hf t'
          simp only [mon, Mon.next, upd, if_neg e] at this
          exact this
      have r := Atomic.call t k o r (by simp)
      refine r.reads [t] st (fun t' ht' => ?_) fun t' => ?_
      · have e : t' ≠ t := fun e => ht' (by simp [e])
        simp only [if_neg e]
      · by_cases e : t' = t
        · subst e
          have := hf t'
          simp only [Fits, mon, Mon.next, upd, if_true] at this
          simp only [if_true]
          rcases this with h | ⟨y, a, hy, ha, h⟩
          · exact .inl h
          · subst hy
            exact .inr ⟨k, o, a, rfl, ha, h⟩
        · simp only [if_neg e]; exact .inl trivial
    | ret t a =>
      obtain ⟨k, o, hc, hm⟩ := hk
      have r := ih (fun t' => if t' = t then .done a else st t') fun t' => by
        by_cases e : t' = t
        · subst e
          simp only [Fits, hc, if_true]
          unfold Op.may at hm
          split at hm
          · rw [if_pos hm.1]; exact .inr ⟨_, _, hm.2, rfl, rfl⟩
          · rw [if_neg (by omega)]
          · obtain ⟨he, w, hw⟩ := hm
            rw [if_pos he]; exact .inr ⟨_, _, hw, rfl, rfl⟩
          · rw [if_neg (by omega)]
          · obtain ⟨he, hw⟩ := hm
            rw [if_pos he]
            rcases hw with hw | ⟨w, hw, hcw⟩
            · exact .inr ⟨_, _, hw, rfl, rfl⟩
            · exact .inr ⟨_, .removed false, hw, by simp [Op.act, hcw], rfl⟩
          · cases hm
        · simp only [if_neg e]
          have := hf t'
          simp only [mon, Mon.next, upd, if_neg e] at this
          exact this
      have r := Atomic.ret t a r (by simp)
      have e : (fun t' => if t' = t then Stage.idle else (fun t' => if t' = t then .done a else st t') t') = st := by
        funext t'
        by_cases e : t' = t
        · subst e
          have := hf t'
          simp only [Fits, mon, Mon.next, upd, if_true] at this
          simp only [if_true, this]
        · simp only [if_neg e]
      rw [e] at r
      exact r
    | put t k v =>
      obtain ⟨hc, hn, he⟩ := hk
      refine atomic_change (a := .inserted) hc he (by rw [hn]; rfl) ih st hf ?_
      have := hf t
      simp only [mon, Mon.next, Mon.assign, hc, Fits, upd, if_true] at this
      simpa using this
    | del t k v =>
      obtain ⟨hn, c, hc, hcv⟩ := hk
      refine atomic_change (a := .removed true) hc (h1 t k v rfl) (by rw [hn]; simp [Op.act, hcv]) ih st hf ?_
      have := hf t
      simp only [mon, Mon.next, Mon.assign, hc, Fits, upd, if_true] at this
      simpa using this

/-- A call that is running has acted on the atomic map if it has added or taken away an entry. -/
def stageOf (es : List (Ev V)) (t : Thr) : Stage V :=
  match (mon es).cur t with
  | none => .idle
  | some (k, o) => if (mon es).eff t = 0 then .pending k o else match o with
    | .insert _ => .done .inserted
    | _ => .done (.removed true)

/-- The atomic map may have acted for the calls that have returned and those that have changed something, and for no other. -/
theorem legal_stage {es : List (Ev V)} (hl : Legal es) (ho : Once es) : Atomic (es.filter Ev.outer) (mon es).map (stageOf es) := by
  have hp : ∀ es : List (Ev V), Legal es → Once es → ∀ t k o, (mon es).cur t = some (k, o) → (mon es).eff t ≠ 0 → o ≠ .peek := by
    intro es
    induction es with
    | nil => intro _ _ t k o h; cases h
    | cons e es ih =>
      intro hl ho t k o hc he
      obtain ⟨hl, hk⟩ := hl
      obtain ⟨ho, -⟩ := ho
      have ih := ih hl ho t k o
      cases e with
      | tau => exact ih hc he
      | call t' k' o' =>
        by_cases e : t = t'
        · subst e; simp [mon, Mon.next, upd] at he
        · simp only [mon, Mon.next, upd, if_neg e] at hc he
          exact ih hc he
      | ret t' a =>
        by_cases e : t = t'
        · subst e; simp [mon, Mon.next, upd] at hc
        · simp only [mon, Mon.next, upd, if_neg e] at hc he
          exact ih hc he
      | put t' k' v =>
        by_cases e : t = t'
        · subst e
          have h1 : (mon es).cur t = some (k, o) := hc
          rw [hk.1] at h1
          cases h1
          nofun
        · simp only [mon, Mon.next, Mon.assign, upd, if_neg e] at hc he
          exact ih hc he
      | del t' k' v =>
        by_cases e : t = t'
        · subst e
          obtain ⟨_, c, h0, _⟩ := hk
          have h1 : (mon es).cur t = some (k, o) := hc
          rw [h0] at h1
          cases h1
          nofun
        · simp only [mon, Mon.next, Mon.assign, upd, if_neg e] at hc he
          exact ih hc he
  refine legal_atomic hl ho _ fun t => ?_
  unfold Fits stageOf
  split
  · rename_i h; simp only
  · rename_i k o h
    simp only
    by_cases he : (mon es).eff t = 0
    · simp only [if_pos he]; exact .inl trivial
    · simp only [if_neg he]
      cases o with
      | insert v => rfl
      | remove c => rfl
      | peek => exact hp es hl ho t k _ h he rfl

/-- A legal execution in which no call takes away two entries is linearizable. -/
theorem legal_linearizable {es : List (Ev V)} (hl : Legal es) (ho : Once es) : Linearizable es := ⟨_, _, legal_stage hl ho⟩

end Scc.Grove
