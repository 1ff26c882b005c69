import Verif.Seq.Entry

/-!
# Laws of the entry API (C41)
-/

set_option linter.unusedSectionVars false
set_option linter.unusedSimpArgs false
set_option linter.unusedVariables false

namespace Scc.Seq

open Scc.Index hiding bucketLen
open Scc.Bucket

variable {K V : Type}

/-! ## Specification: calls on an entry of a finite map -/

/-- Methods of an entry that give back an entry. -/
inductive Call (K V : Type)
  /-- `or_insert_with_key`, and with it `or_insert`, `or_insert_with`, `or_default` -/
  | orInsert (f : K → V)
  | andModify (f : V → V)
  /-- `Entry::insert_entry`; on an occupied entry of a `HashIndex` this is `update` -/
  | insertEntry (v : V)
  /-- `OccupiedEntry::insert` where the entry is occupied; nothing otherwise -/
  | insert (v : V)

/-- The contents after the call; `k` is the key of the entry. -/
def Call.spec [DecidableEq K] (k : K) (m : K → Option V) : Call K V → K → Option V
  | .orInsert f => Spec.set m k (some ((m k).getD (f k)))
  | .andModify f => Spec.set m k ((m k).map f)
  | .insertEntry v => Spec.set m k (some v)
  | .insert v => Spec.set m k ((m k).map fun _ => v)

/-- What the call returns besides the entry: `insert` gives the previous value. -/
def Call.reply (k : K) (m : K → Option V) : Call K V → Option V
  | .insert _ => m k
  | _ => none

/-- `HashIndex` has no safe `and_modify`. -/
def Call.Valid (t : Kind) : Call K V → Prop
  | .andModify _ => t ≠ .index
  | _ => True

/-- A sequence of calls. -/
def callsSpec [DecidableEq K] (k : K) (m : K → Option V) : List (Call K V) → (K → Option V) × List (Option V)
  | [] => (m, [])
  | a :: as =>
    let r := callsSpec k (a.spec k m) as
    (r.1, a.reply k m :: r.2)

/-! ## The same calls on the model -/

/-- A call on an entry. -/
def callOp (c : Cfg K) (env : Env) (T : Tbl K V) (en : Entry K) : Call K V →
    Option (Tbl K V × Entry K × Option V)
  | .orInsert f => (orInsertWithKey c env T en f).map fun r => (r.1, .occ r.2, none)
  | .andModify f => (andModify T en f).map fun r => (r.1, r.2, none)
  | .insertEntry v => (insertEntry c env T en v).map fun r => (r.1, .occ r.2, none)
  | .insert v =>
    match en with
    | .occ x => (occInsert c env T x v).map fun r => (r.1, .occ r.2.1, some r.2.2)
    | .vac s i k => some (T, .vac s i k, none)

/-- A sequence of calls on an entry. -/
def callsOp (c : Cfg K) (env : Env) (T : Tbl K V) (en : Entry K) :
    List (Call K V) → Option (Tbl K V × Entry K × List (Option V))
  | [] => some (T, en, [])
  | a :: as =>
    match callOp c env T en a with
    | none => none
    | some (T1, en1, o) => (callsOp c env T1 en1 as).map fun r => (r.1, r.2.1, o :: r.2.2)

/-- `Entry::key`, and `get` on an occupied entry (/repo/src/hash_map.rs 1747-1752, 1866-1868,
1910-1912). -/
def showEntry (T : Tbl K V) : Entry K → Option (K × Option V)
  | .occ x => (getAt T x).map fun e => (e.1, some e.2)
  | .vac _ _ k => some (k, none)

section
variable [DecidableEq K] {c : Cfg K}

/-- The entry `en` stands for key `k` of the finite map `m`. -/
structure Stands (c : Cfg K) (T : Tbl K V) (en : Entry K) (k : K) (m : K → Option V) : Prop where
  ok : T.Ok c
  enum : Spec.Enumerates (T.entries c) m
  here : (∃ x v, en = .occ x ∧ Held c T x (k, v)) ∨ ∃ s i, en = .vac s i k ∧ Free c T s i k

theorem Stands.get {T : Tbl K V} {en : Entry K} {k : K} {m : K → Option V} (h : Stands c T en k m) :
    showEntry T en = some (k, m k) := by
  rcases h.here with ⟨x, v, rfl, hh⟩ | ⟨s, i, rfl, hf⟩
  · obtain ⟨h1, h2⟩ := hh.get
    have := (h.enum.2 k v).2 h2
    simp only [showEntry, h1, Option.map_some, this]
  · have : m k = none := by
      cases hm : m k with
      | none => rfl
      | some v => exact absurd rfl (hf.2 _ ((h.enum.2 k v).1 hm))
    simp only [showEntry, this]

theorem entry_stands (hc : c.Ok) (env : Env) {T : Tbl K V} (ok : T.Ok c) {m : K → Option V}
    (e : Spec.Enumerates (T.entries c) m) (k : K) :
    ∃ T' en, entryOp c env T k = some (T', en) ∧ Stands c T' en k m := by
  obtain ⟨T', en, h1, h2, h3⟩ := entryOp_ok hc env ok k
  exact ⟨T', en, h1, h2.ok, enum_perm h2.entries e, h3⟩

theorem set_same (m : K → Option V) (k : K) {o : Option V} (h : m k = o) : Spec.set m k o = m := by
  funext k'
  unfold Spec.set
  split
  · rename_i e; rw [e, h]
  · rfl

theorem call_stands (env : Env) {T : Tbl K V} {en : Entry K} {k : K} {m : K → Option V}
    (h : Stands c T en k m) (a : Call K V) (ha : a.Valid c.kind) :
    ∃ T' en', callOp c env T en a = some (T', en', a.reply k m) ∧ Stands c T' en' k (a.spec k m) := by
  rcases h.here with ⟨x, v, rfl, hh⟩ | ⟨s, i, rfl, hf⟩
  · have hm : m k = some v := (h.enum.2 k v).2 hh.get.2
    cases a with
    | orInsert f =>
      refine ⟨T, .occ x, rfl, ?_⟩
      simp only [Call.spec, hm, Option.getD_some]
      rw [set_same m k hm]
      exact h
    | andModify f =>
      obtain ⟨T', R, h1, h2, h3⟩ := andModify_ok ha h.ok hh f
      refine ⟨T', .occ x, by simp only [callOp, h1, Option.map_some, Call.reply], h2.ok, ?_,
        Or.inl ⟨x, _, rfl, h3⟩⟩
      simp only [Call.spec, hm, Option.map_some]
      exact (h2.enum h.enum).2
    | insertEntry w =>
      obtain ⟨T', x', R, h1, h2, h3⟩ := occInsert_ok env h.ok hh w
      refine ⟨T', .occ x', by simp only [callOp, insertEntry, h1, Option.map_some, Call.reply], h2.ok,
        (h2.enum h.enum).2, Or.inl ⟨x', _, rfl, h3⟩⟩
    | insert w =>
      obtain ⟨T', x', R, h1, h2, h3⟩ := occInsert_ok env h.ok hh w
      refine ⟨T', .occ x', by simp only [callOp, h1, Option.map_some, Call.reply, hm], h2.ok, ?_,
        Or.inl ⟨x', _, rfl, h3⟩⟩
      simp only [Call.spec, hm, Option.map_some]
      exact (h2.enum h.enum).2
  · have hm : m k = none := by
      cases hm : m k with
      | none => rfl
      | some v => exact absurd rfl (hf.2 _ ((h.enum.2 k v).1 hm))
    have stay : Stands c T (.vac s i k) k (Spec.set m k none) := by rw [set_same m k hm]; exact h
    cases a with
    | orInsert f =>
      obtain ⟨T', x', R, h1, h2, h3⟩ := vacInsert_ok env h.ok hf (f k)
      refine ⟨T', .occ x', by simp only [callOp, orInsertWithKey, h1, Option.map_some, Call.reply], h2.ok,
        ?_, Or.inl ⟨x', _, rfl, h3⟩⟩
      simp only [Call.spec, hm, Option.getD_none]
      exact (h2.enum h.enum).2
    | andModify f =>
      refine ⟨T, .vac s i k, rfl, ?_⟩
      simp only [Call.spec, hm, Option.map_none]
      exact stay
    | insertEntry w =>
      obtain ⟨T', x', R, h1, h2, h3⟩ := vacInsert_ok env h.ok hf w
      exact ⟨T', .occ x', by simp only [callOp, insertEntry, h1, Option.map_some, Call.reply], h2.ok,
        (h2.enum h.enum).2, Or.inl ⟨x', _, rfl, h3⟩⟩
    | insert w =>
      refine ⟨T, .vac s i k, by simp only [callOp, Call.reply, hm], ?_⟩
      simp only [Call.spec, hm, Option.map_none]
      exact stay

theorem calls_stand (env : Env) {T : Tbl K V} {en : Entry K} {k : K} {m : K → Option V}
    (h : Stands c T en k m) (as : List (Call K V)) (ha : ∀ a ∈ as, a.Valid c.kind) :
    ∃ T' en', callsOp c env T en as = some (T', en', (callsSpec k m as).2) ∧
      Stands c T' en' k (callsSpec k m as).1 := by
  induction as generalizing T en m with
  | nil => exact ⟨T, en, rfl, h⟩
  | cons a as ih =>
    obtain ⟨T1, en1, h1, h2⟩ := call_stands env h a (ha a (by simp))
    obtain ⟨T', en', h3, h4⟩ := ih h2 (fun a h => ha a (by simp [h]))
    exact ⟨T', en', by simp only [callsOp, h1, h3, Option.map_some, callsSpec], h4⟩

/-! ## C41 -/

/-- C41. Let a container have any history behind it, and hold the finite map `m`. `entry(k)` gives an
entry that shows the key `k` and the value `m k`: it is occupied exactly when `k` is present. Any
sequence of calls of `or_insert` and its variants, `and_modify`, `insert_entry`, `insert` (`update` on a
`HashIndex`) on the entry succeeds, replies as the finite map does, leaves the contents the finite map
has after these calls, and the entry then shows the value of `k`. -/
theorem c41_entry (hc : c.Ok) {n : Nat} {h : List (Op K V × Out K V)} {T : Tbl K V}
    (r : Runs c (Tbl.withCapacity n) h T) {m : K → Option V} (e : Spec.Enumerates (T.entries c) m)
    (env : Env) (k : K) (as : List (Call K V)) (ha : ∀ a ∈ as, a.Valid c.kind) :
    ∃ T1 en T2 en', entryOp c env T k = some (T1, en) ∧ showEntry T1 en = some (k, m k) ∧
      callsOp c env T1 en as = some (T2, en', (callsSpec k m as).2) ∧
      Spec.Enumerates (T2.entries c) (callsSpec k m as).1 ∧
      showEntry T2 en' = some (k, (callsSpec k m as).1 k) := by
  obtain ⟨T1, en, h1, h2⟩ := entry_stands hc env (runs_ok hc (withCapacity_ok n).1 r).1 e k
  obtain ⟨T2, en', h3, h4⟩ := calls_stand env h2 as ha
  exact ⟨T1, en, T2, en', h1, h2.get, h3, h4.enum, h4.get⟩

/-- C41. After any sequence of calls, if the entry is occupied, `remove_entry` hands back the key and its
current value and removes exactly that key; the other keys keep their values. -/
theorem c41_remove_entry (hc : c.Ok) {n : Nat} {h : List (Op K V × Out K V)} {T : Tbl K V}
    (r : Runs c (Tbl.withCapacity n) h T) {m : K → Option V} (e : Spec.Enumerates (T.entries c) m)
    (env : Env) (k : K) (as : List (Call K V)) (ha : ∀ a ∈ as, a.Valid c.kind) :
    ∃ T1 en T2 en', entryOp c env T k = some (T1, en) ∧
      callsOp c env T1 en as = some (T2, en', (callsSpec k m as).2) ∧
      (∀ v, (callsSpec k m as).1 k = some v → ∃ x T3, en' = .occ x ∧
        occRemove c env T2 x = some (T3, (k, v)) ∧
        Spec.Enumerates (T3.entries c) (Spec.set (callsSpec k m as).1 k none)) ∧
      ((callsSpec k m as).1 k = none → ∃ s i, en' = .vac s i k) := by
  obtain ⟨T1, en, h1, h2⟩ := entry_stands hc env (runs_ok hc (withCapacity_ok n).1 r).1 e k
  obtain ⟨T2, en', h3, h4⟩ := calls_stand env h2 as ha
  refine ⟨T1, en, T2, en', h1, h3, ?_, ?_⟩
  · intro v hv
    rcases h4.here with ⟨x, v', rfl, hh⟩ | ⟨s, i, rfl, hf⟩
    · obtain ⟨T3, R, h5, h6⟩ := occRemove_ok env h4.ok hh
      have : (callsSpec k m as).1 k = some v' := (h4.enum.2 k v').2 hh.get.2
      rw [hv] at this
      cases this
      exact ⟨x, T3, rfl, h5, (h6.enum h4.enum).2⟩
    · exact absurd rfl (hf.2 _ ((h4.enum.2 k v).1 hv))
  · intro hv
    rcases h4.here with ⟨x, v', rfl, hh⟩ | ⟨s, i, rfl, hf⟩
    · have : (callsSpec k m as).1 k = some v' := (h4.enum.2 k v').2 hh.get.2
      rw [hv] at this; cases this
    · exact ⟨s, i, rfl⟩

/-- C41. `get(k)` gives an occupied entry that shows `k` and its value exactly when `k` is present, and
changes nothing. -/
theorem c41_get (hc : c.Ok) {n : Nat} {h : List (Op K V × Out K V)} {T : Tbl K V}
    (r : Runs c (Tbl.withCapacity n) h T) {m : K → Option V} (e : Spec.Enumerates (T.entries c) m)
    (env : Env) (k : K) :
    ∃ T1 o, getOp c env T k = some (T1, o) ∧ Spec.Enumerates (T1.entries c) m ∧
      (o.bind fun x => getAt T1 x) = (m k).map fun v => (k, v) := by
  obtain ⟨T1, o, h1, h2, h3⟩ := getOp_ok hc env (runs_ok hc (withCapacity_ok n).1 r).1 k
  have e1 := enum_perm h2.entries e
  refine ⟨T1, o, h1, e1, ?_⟩
  rcases h3 with ⟨x, v, rfl, hh⟩ | ⟨rfl, hno⟩
  · obtain ⟨g1, g2⟩ := hh.get
    rw [(e1.2 k v).2 g2]
    exact g1
  · cases hm : m k with
    | none => rfl
    | some v => exact absurd rfl (hno _ ((e.2 k v).1 hm))

/-- C41. `replace` on a map whose keys have a part `K` that `Eq` and `Hash` look at and a further part
`P`: if an equal key is stored, the stored key gets the further part of the new one, the value stays,
and the previous further part is handed back; otherwise nothing changes and the entry is vacant. -/
theorem c41_replace {P : Type} (hc : c.Ok) (ht : c.kind ≠ .index) {n : Nat}
    {h : List (Op K (P × V) × Out K (P × V))} {T : Tbl K (P × V)} (r : Runs c (Tbl.withCapacity n) h T)
    {m : K → Option (P × V)} (e : Spec.Enumerates (T.entries c) m) (env : Env) (k : K) (p : P) :
    ∃ T1 en, replaceOp c env T k p = some (T1, en, (m k).map (·.1)) ∧
      Spec.Enumerates (T1.entries c) (Spec.set m k ((m k).map fun pv => (p, pv.2))) ∧
      showEntry T1 en = some (k, (m k).map fun pv => (p, pv.2)) := by
  obtain ⟨T1, en, h1, h2⟩ := entry_stands hc env (runs_ok hc (withCapacity_ok n).1 r).1 e k
  have hg := h2.get
  unfold replaceOp
  rw [h1]
  rcases h2.here with ⟨x, v, rfl, hh⟩ | ⟨s, i, rfl, hf⟩
  · have hm : m k = some v := (h2.enum.2 k v).2 hh.get.2
    obtain ⟨T', R, a1, a2, a3⟩ := andModify_ok ht h2.ok hh (fun pv => (p, pv.2))
    refine ⟨T', .occ x, by simp only [hh.get.1, a1, Option.map_some, hm], ?_, ?_⟩
    · rw [hm]; exact (a2.enum h2.enum).2
    · simp only [showEntry, a3.get.1, Option.map_some, hm]
  · have hm : m k = none := by simpa [showEntry] using hg.symm
    refine ⟨T1, .vac s i k, by simp only [hm, Option.map_none], ?_, ?_⟩
    · rw [hm, Option.map_none, set_same m k hm]; exact h2.enum
    · simp only [showEntry, hm, Option.map_none]

/-- C41. `HashSet::replace` stores the new key, and hands back the previous equal key if there was one. -/
theorem c41_set_replace {P : Type} (hc : c.Ok) (ht : c.kind ≠ .index) {n : Nat}
    {h : List (Op K P × Out K P)} {T : Tbl K P} (r : Runs c (Tbl.withCapacity n) h T)
    {m : K → Option P} (e : Spec.Enumerates (T.entries c) m) (env : Env) (k : K) (p : P) :
    ∃ T1, setReplaceOp c env T k p = some (T1, m k) ∧
      Spec.Enumerates (T1.entries c) (Spec.set m k (some p)) := by
  obtain ⟨T1, en, h1, h2⟩ := entry_stands hc env (runs_ok hc (withCapacity_ok n).1 r).1 e k
  have hg := h2.get
  unfold setReplaceOp
  rw [h1]
  rcases h2.here with ⟨x, v, rfl, hh⟩ | ⟨s, i, rfl, hf⟩
  · have hm : m k = some v := (h2.enum.2 k v).2 hh.get.2
    obtain ⟨T', R, a1, a2, a3⟩ := andModify_ok ht h2.ok hh (fun _ => p)
    exact ⟨T', by simp only [hh.get.1, a1, Option.map_some, hm], (a2.enum h2.enum).2⟩
  · have hm : m k = none := by simpa [showEntry] using hg.symm
    obtain ⟨T', x', R, a1, a2, a3⟩ := vacInsert_ok env h2.ok hf p
    exact ⟨T', by simp only [a1, Option.map_some, hm], (a2.enum h2.enum).2⟩

end

set_option maxRecDepth 100000 in
/-- A map with forty keys in one bucket, and an entry on which everything is called. -/
example :
    ((insertAll .map (List.range 40) (some (Tbl.withCapacity 0))).bind fun T =>
      (entryOp (sampleCfg .map) sampleEnv T 7).bind fun r =>
        (callsOp (sampleCfg .map) sampleEnv r.1 r.2
          [.andModify (· + 1), .orInsert fun _ => 0, .insertEntry 5, .insert 9]).bind fun q =>
            (showEntry q.1 q.2.1).map fun s => (s, q.2.2)) =
      some ((7, some 9), [none, none, none, some 5]) := by
  decide +kernel

end Scc.Seq
