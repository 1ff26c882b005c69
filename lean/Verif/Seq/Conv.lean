import Verif.Seq.IndexIter

/-!
# Copies, comparisons and conversions (C38)
-/

set_option linter.unusedSectionVars false
set_option linter.unusedSimpArgs false
set_option linter.unusedVariables false

namespace Scc.Seq

open Scc.Index hiding bucketLen
open Scc.Bucket

variable {K V : Type}

/-! ## Specification -/

/-- The finite map given by a list of pairs when the first pair with a key counts. -/
def firstWins [DecidableEq K] (l : List (K × V)) (k : K) : Option V :=
  (l.find? fun e => decide (e.1 = k)).map (·.2)

/-- The finite map given by a list of pairs when the last pair with a key counts. -/
def lastWins [DecidableEq K] (l : List (K × V)) : K → Option V := firstWins l.reverse

/-! ## Model -/

/-- Storing the pairs of a list one after the other, with `insert` or `upsert`. -/
def storeAll [DecidableEq K] (c : Cfg K) (env : Env) (act : V → Option V → Act V) :
    Tbl K V → List (K × V) → Option (Tbl K V)
  | T, [] => some T
  | T, e :: es =>
    match modifyOp c env T e.1 (act e.2) with
    | none => none
    | some (T1, _) => storeAll c env act T1 es

/-- `FromIterator` and deserialisation of a `HashMap` (/repo/src/hash_map.rs 1613-1623, /repo/src/serde.rs
47-60): `upsert` each pair into a fresh map; `n` is the capacity taken from the size hint. -/
def mapFromList [DecidableEq K] (c : Cfg K) (env : Env) (n : Nat) (l : List (K × V)) :
    Option (Tbl K V) := storeAll c env upsertAct (Tbl.withCapacity n) l

/-- `FromIterator` and deserialisation of a `HashSet` or `HashIndex` (/repo/src/hash_set.rs 875-885,
/repo/src/hash_index.rs 1351-1361, /repo/src/serde.rs 132-145, 214-227): `insert` each pair. -/
def insertFromList [DecidableEq K] (c : Cfg K) (env : Env) (n : Nat) (l : List (K × V)) :
    Option (Tbl K V) := storeAll c env insertAct (Tbl.withCapacity n) l

/-- `Clone` of a `HashMap` or `HashSet` (/repo/src/hash_map.rs 1535-1542, /repo/src/hash_set.rs 777-781):
iterate, and insert into a fresh map with the same capacity and hash function. The model first collects
the pairs and then inserts them. Gives also the original, whose resize may have gone on. -/
def cloneOp [DecidableEq K] (c : Cfg K) (env : Env) (T : Tbl K V) : Option (Tbl K V × Tbl K V) :=
  match iterOp c env T with
  | none => none
  | some (T1, l) => (insertFromList c env T.capacity l).map fun U => (T1, U)

/-- All entries the iterator of a `HashIndex` yields up to the first `None`. -/
def drain (c : Cfg K) (T : Tbl K V) : Nat → IdxIter → Option (List (K × V))
  | 0, _ => none
  | n + 1, it =>
    match iterNext c T it with
    | none => none
    | some (_, none) => some []
    | some (it', some e) => (drain c T n it').map fun l => e :: l

/-- `Clone` of a `HashIndex` (/repo/src/hash_index.rs 1228-1234). -/
def indexCloneOp [DecidableEq K] (c : Cfg K) (env : Env) (fuel : Nat) (T : Tbl K V) :
    Option (Tbl K V) :=
  match drain c T fuel IdxIter.new with
  | none => none
  | some l => insertFromList c env T.capacity l

/-- `peek_entry` (/repo/src/hash_table.rs 224-261) with nobody else around: the old array first, whose
resize goes on meanwhile, then the current one. -/
def peekOp [DecidableEq K] (c : Cfg K) (env : Env) (T : Tbl K V) (k : K) :
    Option (Tbl K V × Option V) :=
  match T.arr with
  | none => some (T, none)
  | some w =>
    (incrementalRehash c env.recent w).map fun r =>
      let look := fun (a : Arr K V) =>
        ((a.bkt (bucketIndex a.lg (c.hash k))).searchEntry c.kind k (c.hash k)).map (·.2)
      ({ T with arr := some r.1, gone := T.gone ++ r.2 },
        match r.1.old with
        | some o => (look o).or (look r.1.cur)
        | none => look r.1.cur)

/-- The closure of the comparison: whether the other container has the same value, for each pair, up to
the first that differs. -/
def allEqual [DecidableEq V] (look : Tbl K V → K → Option (Tbl K V × Option V)) :
    Tbl K V → List (K × V) → Option (Tbl K V × Bool)
  | U, [] => some (U, true)
  | U, e :: es =>
    match look U e.1 with
    | none => none
    | some (U1, o) => if o = some e.2 then allEqual look U1 es else some (U1, false)

/-- `PartialEq` of `HashMap` and `HashSet` (/repo/src/hash_map.rs 1660-1665, /repo/src/hash_set.rs
900-905); the two containers may have different hash functions. The model runs the iteration to its end
before comparing. -/
def eqOp [DecidableEq K] [DecidableEq V] (c c' : Cfg K) (env : Env) (T U : Tbl K V) : Option Bool :=
  match iterOp c env T with
  | none => none
  | some (T1, l) =>
    match allEqual (fun U k => readOp c' env U k) U l with
    | none => none
    | some (_, false) => some false
    | some (U1, true) =>
      match iterOp c' env U1 with
      | none => none
      | some (U2, l') => (allEqual (fun T k => readOp c env T k) T1 l').map (·.2)

/-- `PartialEq` of `HashIndex` (/repo/src/hash_index.rs 1409-1421). -/
def indexEqOp [DecidableEq K] [DecidableEq V] (c c' : Cfg K) (env : Env) (fuel : Nat) (T U : Tbl K V) :
    Option Bool :=
  match drain c T fuel IdxIter.new with
  | none => none
  | some l =>
    match allEqual (fun U k => peekOp c' env U k) U l with
    | none => none
    | some (_, false) => some false
    | some (U1, true) =>
      match drain c' U1 fuel IdxIter.new with
      | none => none
      | some l' => (allEqual (fun T k => peekOp c env T k) T l').map (·.2)

/-- `Serialize` of a `HashMap` or `HashSet` (/repo/src/serde.rs 82-100, 166-184): the number announced
first, and the pairs written. -/
def serializeOp (c : Cfg K) (env : Env) (T : Tbl K V) : Option (Nat × List (K × V)) :=
  match lenOp c env T with
  | none => none
  | some (T1, n) => (iterOp c env T1).map fun r => (n, r.2)

/-- `Serialize` of a `HashIndex` (/repo/src/serde.rs 251-269). -/
def indexSerializeOp (c : Cfg K) (env : Env) (fuel : Nat) (T : Tbl K V) : Option (Nat × List (K × V)) :=
  match lenOp c env T with
  | none => none
  | some (T1, n) => (drain c T1 fuel IdxIter.new).map fun l => (n, l)

/-! ## Proofs -/

section
variable [DecidableEq K] {c : Cfg K}

theorem firstWins_cons (e : K × V) (l : List (K × V)) :
    firstWins (e :: l) = Spec.set (firstWins l) e.1 (some e.2) := by
  funext k
  unfold firstWins Spec.set
  by_cases h : k = e.1
  · subst h; simp
  · rw [if_neg h, List.find?_cons_of_neg (by simpa using fun h' => h h'.symm)]

theorem nodup_sub_length {l l' : List K} (h : l.Nodup) (hs : ∀ k ∈ l, k ∈ l') : l.length ≤ l'.length := by
  induction l generalizing l' with
  | nil => simp
  | cons a l ih =>
    rw [List.nodup_cons] at h
    have ha := hs a (by simp)
    have := ih (l' := l'.erase a) h.2 (fun k hk => by
      have hk' := hs k (by simp [hk])
      have hne : k ≠ a := fun h' => h.1 (h' ▸ hk)
      exact (List.mem_erase_of_ne hne).2 hk')
    rw [List.length_erase_of_mem ha] at this
    have hp := List.length_pos_of_mem ha
    simp only [List.length_cons]
    omega

theorem enum_unique {l : List (K × V)} {m m' : K → Option V} (h : Spec.Enumerates l m)
    (h' : Spec.Enumerates l m') : m = m' := by
  funext k
  apply Option.ext
  intro v
  rw [h.2, h'.2]

theorem enum_firstWins {l : List (K × V)} {m : K → Option V} (h : Spec.Enumerates l m) :
    m = firstWins l := by
  obtain ⟨h1, h2⟩ := h
  induction l generalizing m with
  | nil =>
    funext k
    cases hm : m k with
    | none => rfl
    | some v => exact absurd ((h2 k v).1 hm) (by simp)
  | cons e l ih =>
    rw [List.map_cons, List.nodup_cons] at h1
    have := ih (m := Spec.set m e.1 none) h1.2 (by
      intro k v
      unfold Spec.set
      by_cases hk : k = e.1
      · subst hk
        rw [if_pos rfl]
        constructor
        · intro h; cases h
        · intro h; exact absurd (List.mem_map.2 ⟨_, h, rfl⟩) h1.1
      · rw [if_neg hk, h2, List.mem_cons]
        constructor
        · rintro (h | h)
          · exact absurd (by rw [← h]) hk
          · exact h
        · exact Or.inr)
    rw [firstWins_cons, ← this]
    funext k
    unfold Spec.set
    by_cases hk : k = e.1
    · subst hk; rw [if_pos rfl, (h2 e.1 e.2).2 (by simp)]
    · rw [if_neg hk, if_neg hk]

theorem storeAll_ok (hc : c.Ok) (env : Env) (act : V → Option V → Act V) {T : Tbl K V} (ok : T.Ok c)
    (l : List (K × V)) {m : K → Option V} (e : Spec.Enumerates (T.entries c) m) :
    ∃ T', storeAll c env act T l = some T' ∧ T'.Ok c ∧ Spec.Enumerates (T'.entries c)
      (l.foldl (fun m e => Spec.set m e.1 ((act e.2 (m e.1)).res (m e.1))) m) := by
  induction l generalizing T m with
  | nil => exact ⟨T, rfl, ok, e⟩
  | cons x l ih =>
    obtain ⟨T1, o, R, h1, h2⟩ := modifyOp_ok hc T ok env x.1 (act x.2)
    obtain ⟨h3, h4⟩ := h2.enum e
    subst h3
    obtain ⟨T', h5, h6, h7⟩ := ih h2.ok h4
    exact ⟨T', by simp only [storeAll, h1, h5], h6, h7⟩

theorem upsert_fold (l : List (K × V)) (m : K → Option V) (k : K) :
    (l.foldl (fun m e => Spec.set m e.1 ((upsertAct e.2 (m e.1)).res (m e.1))) m) k =
      (lastWins l k).or (m k) := by
  induction l generalizing m with
  | nil => rfl
  | cons e l ih =>
    rw [List.foldl_cons, ih]
    unfold lastWins firstWins upsertAct Act.res Spec.set
    simp only [List.reverse_cons, List.find?_append, Option.map_or]
    by_cases h : k = e.1
    · subst h
      simp only [decide_true, List.find?_cons_of_pos, Option.map_some, if_true]
      cases (l.reverse.find? fun e' => decide (e'.1 = e.1)) <;> rfl
    · rw [if_neg h, List.find?_cons_of_neg (by simpa using fun h' => h h'.symm)]
      simp

theorem insert_fold (l : List (K × V)) (m : K → Option V) (k : K) :
    (l.foldl (fun m e => Spec.set m e.1 ((insertAct e.2 (m e.1)).res (m e.1))) m) k =
      (m k).or (firstWins l k) := by
  induction l generalizing m with
  | nil => simp [firstWins]
  | cons e l ih =>
    rw [List.foldl_cons, ih, firstWins_cons]
    unfold Spec.set
    by_cases h : k = e.1
    · subst h
      simp only [if_true]
      cases hm : m e.1 with
      | none => rfl
      | some v => rfl
    · rw [if_neg h, if_neg h]

/-- C38. Building a `HashMap` from a sequence of pairs, whatever the capacity hint: the last value of
each key wins. -/
theorem c38_map_from_iter (hc : c.Ok) (env : Env) (n : Nat) (l : List (K × V)) :
    ∃ T, mapFromList c env n l = some T ∧ T.Ok c ∧ Spec.Enumerates (T.entries c) (lastWins l) := by
  obtain ⟨T, h1, h2, h3⟩ := storeAll_ok hc env upsertAct (withCapacity_ok n).1 l (withCapacity_enum n)
  refine ⟨T, h1, h2, ?_⟩
  have : (l.foldl (fun m e => Spec.set m e.1 ((upsertAct e.2 (m e.1)).res (m e.1))) fun _ => none) =
      lastWins l := by
    funext k; rw [upsert_fold]; simp
  rw [← this]; exact h3

/-- C38. Building a `HashSet` or `HashIndex` from a sequence: the first pair with a key wins. -/
theorem c38_insert_from_iter (hc : c.Ok) (env : Env) (n : Nat) (l : List (K × V)) :
    ∃ T, insertFromList c env n l = some T ∧ T.Ok c ∧ Spec.Enumerates (T.entries c) (firstWins l) := by
  obtain ⟨T, h1, h2, h3⟩ := storeAll_ok hc env insertAct (withCapacity_ok n).1 l (withCapacity_enum n)
  refine ⟨T, h1, h2, ?_⟩
  have : (l.foldl (fun m e => Spec.set m e.1 ((insertAct e.2 (m e.1)).res (m e.1))) fun _ => none) =
      firstWins l := by
    funext k; rw [insert_fold]; simp
  rw [← this]; exact h3

theorem drain_ok {T : Tbl K V} (ok : T.Ok c) {it : IdxIter} {l : List (K × V)} (g : Going c T it l)
    {fuel : Nat} (h : l.length < fuel) : drain c T fuel it = some l := by
  induction fuel generalizing it l with
  | zero => omega
  | succ fuel ih =>
    unfold drain
    rcases iterNext_ok ok g with ⟨rfl, it', h1, _⟩ | ⟨e, l', it', rfl, h1, h2⟩
    · rw [h1]
    · rw [h1]
      simp only
      rw [ih h2 (by simpa using h)]
      rfl

/-- C38. The clone of a `HashMap` or `HashSet` with any history behind it holds the same contents, and
the original keeps them. -/
theorem c38_clone (hc : c.Ok) {n : Nat} {h : List (Op K V × Out K V)} {T : Tbl K V}
    (r : Runs c (Tbl.withCapacity n) h T) {m : K → Option V} (e : Spec.Enumerates (T.entries c) m)
    (env : Env) :
    ∃ T' U, cloneOp c env T = some (T', U) ∧ Spec.Enumerates (T'.entries c) m ∧
      Spec.Enumerates (U.entries c) m := by
  have ok := (runs_ok hc (withCapacity_ok n).1 r).1
  obtain ⟨T', l, h1, h2, h3⟩ := iterOp_ok hc env T ok
  obtain ⟨U, h4, _, h5⟩ := c38_insert_from_iter hc env T.capacity l
  refine ⟨T', U, by unfold cloneOp; rw [h1]; simp only [h4, Option.map_some], enum_perm h2.entries e, ?_⟩
  rw [enum_firstWins (enum_perm h3.symm e)]
  exact h5

/-- C38. The clone of a `HashIndex`. -/
theorem c38_index_clone (hc : c.Ok) {n : Nat} {h : List (Op K V × Out K V)} {T : Tbl K V}
    (r : Runs c (Tbl.withCapacity n) h T) {m : K → Option V} (e : Spec.Enumerates (T.entries c) m)
    (env : Env) (fuel : Nat) (hf : (T.entries c).length < fuel) :
    ∃ U, indexCloneOp c env fuel T = some U ∧ Spec.Enumerates (U.entries c) m := by
  have ok := (runs_ok hc (withCapacity_ok n).1 r).1
  have h1 := drain_ok ok (order_going (c := c) T) (by rw [(order_perm (c := c) T).length_eq]; exact hf)
  obtain ⟨U, h4, _, h5⟩ := c38_insert_from_iter hc env T.capacity (order c T)
  refine ⟨U, by unfold indexCloneOp; rw [h1]; exact h4, ?_⟩
  rw [enum_firstWins (enum_perm (order_perm (c := c) T) e)]
  exact h5

theorem peekOp_ok (hc : c.Ok) (T : Tbl K V) (ok : T.Ok c) (env : Env) (k : K) {m : K → Option V}
    (e : Spec.Enumerates (T.entries c) m) :
    ∃ T', peekOp c env T k = some (T', m k) ∧ T'.Ok c ∧ Spec.Enumerates (T'.entries c) m := by
  unfold peekOp
  cases hT : T.arr with
  | none =>
    have hn : m k = none := by
      cases hm : m k with
      | none => rfl
      | some v =>
        have := (e.2 k v).1 hm
        rw [entries_none hT] at this; cases this
    exact ⟨T, by rw [hn], ok, e⟩
  | some w =>
    obtain ⟨w', g, h1, h2, h3, h4, _, _⟩ := incrementalRehash_ok hc env.recent w (ok.two w hT)
    simp only [h1, Option.map_some]
    have hent : ({ T with arr := some w', gone := T.gone ++ g } : Tbl K V).entries c = w'.entries c := rfl
    have hp : (w'.entries c).Perm (T.entries c) := by rw [tbl_entries hT]; exact h4
    have e' : Spec.Enumerates (w'.entries c) m := enum_perm hp e
    have look_ok : ∀ a : Arr K V, ArrWf c a → (∀ y ∈ a.entries c, y ∈ w'.entries c) →
        (((a.bkt (bucketIndex a.lg (c.hash k))).searchEntry c.kind k (c.hash k)).map (·.2) = none →
          ∀ v, (k, v) ∉ a.entries c) ∧
        ∀ v, ((a.bkt (bucketIndex a.lg (c.hash k))).searchEntry c.kind k (c.hash k)).map (·.2) = some v →
          m k = some v := by
      intro a wa hsub
      obtain ⟨s1, s2⟩ := searchEntry_ok (wa.wf (bucketIndex a.lg (c.hash k))) k
      constructor
      · intro hn v hv
        unfold Arr.entries at hv
        obtain ⟨j, hj, hv⟩ := List.mem_flatMap.1 hv
        have hjk := wa.placed j _ hv
        simp only at hjk
        rw [← hjk] at hv
        cases hs : (a.bkt (bucketIndex a.lg (c.hash k))).searchEntry c.kind k (c.hash k) with
        | none => exact s2 hs _ hv rfl
        | some y => rw [hs] at hn; cases hn
      · intro v hv
        cases hs : (a.bkt (bucketIndex a.lg (c.hash k))).searchEntry c.kind k (c.hash k) with
        | none => rw [hs] at hv; cases hv
        | some y =>
          rw [hs] at hv
          obtain ⟨t1, t2⟩ := s1 y hs
          have hlt : bucketIndex a.lg (c.hash k) < 2 ^ a.lg :=
            bucketIndex_lt (by have := wa.lg_le; omega) (hc k)
          have hy : y ∈ a.entries c :=
            List.mem_flatMap.2 ⟨_, List.mem_range.2 hlt, t1⟩
          have := (e'.2 y.1 y.2).2 (hsub y hy)
          rw [t2] at this
          rw [this]
          exact hv
    have hcur := look_ok w'.cur h2.cur.wf (fun y hy => List.mem_append_left _ hy)
    refine ⟨_, ?_, ⟨fun w2 h => by cases h; exact h2, nodup_perm (hent ▸ hp) ok.nodup⟩, by rw [hent]; exact e'⟩
    congr 2
    cases ho : w'.old with
    | none =>
      simp only
      cases hl : ((w'.cur.bkt (bucketIndex w'.cur.lg (c.hash k))).searchEntry c.kind k
          (c.hash k)).map (·.2) with
      | some v => exact (hcur.2 v hl).symm
      | none =>
        cases hm : m k with
        | none => rfl
        | some v =>
          have := (e'.2 k v).1 hm
          unfold Two.entries at this
          rw [ho] at this
          simp only [List.append_nil] at this
          exact absurd this (hcur.1 hl v)
    | some o =>
      have hold := look_ok o (h2.old o ho).wf (fun y hy => by
        unfold Two.entries; rw [ho]; exact List.mem_append_right _ hy)
      simp only
      cases hlo : ((o.bkt (bucketIndex o.lg (c.hash k))).searchEntry c.kind k (c.hash k)).map (·.2) with
      | some v => exact (hold.2 v hlo).symm
      | none =>
        simp only [Option.none_or]
        cases hl : ((w'.cur.bkt (bucketIndex w'.cur.lg (c.hash k))).searchEntry c.kind k
            (c.hash k)).map (·.2) with
        | some v => exact (hcur.2 v hl).symm
        | none =>
          cases hm : m k with
          | none => rfl
          | some v =>
            have := (e'.2 k v).1 hm
            unfold Two.entries at this
            rw [ho] at this
            simp only [List.mem_append] at this
            rcases this with h | h
            · exact absurd h (hcur.1 hl v)
            · exact absurd h (hold.1 hlo v)

theorem readOp_enum (hc : c.Ok) (T : Tbl K V) (ok : T.Ok c) (env : Env) (k : K) {m : K → Option V}
    (e : Spec.Enumerates (T.entries c) m) :
    ∃ T', readOp c env T k = some (T', m k) ∧ T'.Ok c ∧ Spec.Enumerates (T'.entries c) m := by
  obtain ⟨T2, o2, R, h2, h3, h4, h5⟩ := readOp_ok hc T ok env k
  obtain ⟨h6, _⟩ := enum_pr (enum_perm h4.symm e) h5
  exact ⟨T2, by rw [h2, h6], h3.ok, enum_perm h3.entries e⟩

variable [DecidableEq V]

theorem allEqual_ok {look : Tbl K V → K → Option (Tbl K V × Option V)} {c : Cfg K} {m : K → Option V}
    (hl : ∀ U k, U.Ok c → Spec.Enumerates (U.entries c) m →
      ∃ U', look U k = some (U', m k) ∧ U'.Ok c ∧ Spec.Enumerates (U'.entries c) m)
    (U : Tbl K V) (ok : U.Ok c) (e : Spec.Enumerates (U.entries c) m) (l : List (K × V)) :
    ∃ U' b, allEqual look U l = some (U', b) ∧ U'.Ok c ∧ Spec.Enumerates (U'.entries c) m ∧
      (b = true ↔ ∀ x ∈ l, m x.1 = some x.2) := by
  induction l generalizing U with
  | nil => exact ⟨U, true, rfl, ok, e, by simp⟩
  | cons x l ih =>
    obtain ⟨U1, h1, h2, h3⟩ := hl U x.1 ok e
    unfold allEqual
    rw [h1]
    simp only
    by_cases hx : m x.1 = some x.2
    · rw [if_pos hx]
      obtain ⟨U', b, i1, i2, i3, i4⟩ := ih U1 h2 h3
      exact ⟨U', b, i1, i2, i3, i4.trans ⟨fun h y hy => by
        rcases List.mem_cons.1 hy with h' | h'
        · rw [h']; exact hx
        · exact h y h', fun h y hy => h y (List.mem_cons_of_mem _ hy)⟩⟩
    · rw [if_neg hx]
      exact ⟨U1, false, rfl, h2, h3, by simp [hx]⟩

/-- Two finite maps are equal if each has what the other enumerates. -/
theorem maps_eq {l l' : List (K × V)} {m m' : K → Option V} (h : Spec.Enumerates l m)
    (h' : Spec.Enumerates l' m') :
    ((∀ x ∈ l, m' x.1 = some x.2) ∧ ∀ x ∈ l', m x.1 = some x.2) ↔ m = m' := by
  constructor
  · rintro ⟨h1, h2⟩
    funext k
    apply Option.ext
    intro v
    constructor
    · intro hv; exact h1 _ ((h.2 k v).1 hv)
    · intro hv; exact h2 _ ((h'.2 k v).1 hv)
  · rintro rfl
    exact ⟨fun x hx => (h.2 x.1 x.2).2 hx, fun x hx => (h'.2 x.1 x.2).2 hx⟩

theorem eqOp_ok {c c' : Cfg K} (hc : c.Ok) (hc' : c'.Ok) {T U : Tbl K V} (ok : T.Ok c) (ok' : U.Ok c')
    {m m' : K → Option V} (e : Spec.Enumerates (T.entries c) m) (e' : Spec.Enumerates (U.entries c') m')
    (env : Env) : ∃ b, eqOp c c' env T U = some b ∧ (b = true ↔ m = m') := by
  obtain ⟨T1, l, h1, h2, h3⟩ := iterOp_ok hc env T ok
  have el := enum_perm h3.symm e
  obtain ⟨U1, b, h4, h5, h6, h7⟩ := allEqual_ok (look := fun U k => readOp c' env U k)
    (fun U k o e => readOp_enum hc' U o env k e) U ok' e' l
  unfold eqOp
  rw [h1]
  simp only [h4]
  cases b with
  | false =>
    refine ⟨false, rfl, ?_⟩
    rw [← maps_eq el e']
    constructor
    · intro h; cases h
    · rintro ⟨h8, _⟩; exact h7.2 h8
  | true =>
    obtain ⟨U2, l', h8, h9, h10⟩ := iterOp_ok hc' env U1 h5
    have el' := enum_perm h10.symm h6
    obtain ⟨T2, b', h11, _, _, h14⟩ := allEqual_ok (look := fun T k => readOp c env T k)
      (fun T k o e => readOp_enum hc T o env k e) T1 h2.ok (enum_perm h2.entries e) l'
    simp only [h8, h11, Option.map_some]
    refine ⟨b', rfl, ?_⟩
    rw [h14, ← maps_eq el el']
    exact ⟨fun h => ⟨h7.1 rfl, h⟩, fun h => h.2⟩

/-- C38. Comparing two `HashMap`s or `HashSet`s, with any histories behind them and possibly with
different hash functions: the answer is whether they hold the same contents. -/
theorem c38_eq {c c' : Cfg K} (hc : c.Ok) (hc' : c'.Ok) {n n' : Nat} {h h' : List (Op K V × Out K V)}
    {T U : Tbl K V} (r : Runs c (Tbl.withCapacity n) h T) (r' : Runs c' (Tbl.withCapacity n') h' U)
    {m m' : K → Option V} (e : Spec.Enumerates (T.entries c) m) (e' : Spec.Enumerates (U.entries c') m')
    (env : Env) : ∃ b, eqOp c c' env T U = some b ∧ (b = true ↔ m = m') :=
  eqOp_ok hc hc' (runs_ok hc (withCapacity_ok n).1 r).1 (runs_ok hc' (withCapacity_ok n').1 r').1 e e' env

/-- C38. Comparing two `HashIndex`es. -/
theorem c38_index_eq {c c' : Cfg K} (hc : c.Ok) (hc' : c'.Ok) {n n' : Nat}
    {h h' : List (Op K V × Out K V)} {T U : Tbl K V} (r : Runs c (Tbl.withCapacity n) h T)
    (r' : Runs c' (Tbl.withCapacity n') h' U) {m m' : K → Option V}
    (e : Spec.Enumerates (T.entries c) m) (e' : Spec.Enumerates (U.entries c') m')
    (env : Env) (fuel : Nat) (hf : (T.entries c).length < fuel) (hf' : (U.entries c').length < fuel) :
    ∃ b, indexEqOp c c' env fuel T U = some b ∧ (b = true ↔ m = m') := by
  have ok := (runs_ok hc (withCapacity_ok n).1 r).1
  have ok' := (runs_ok hc' (withCapacity_ok n').1 r').1
  have h1 := drain_ok ok (order_going (c := c) T) (by rw [(order_perm (c := c) T).length_eq]; exact hf)
  have el := enum_perm (order_perm (c := c) T) e
  obtain ⟨U1, b, h4, h5, h6, h7⟩ := allEqual_ok (look := fun U k => peekOp c' env U k)
    (fun U k o e => peekOp_ok hc' U o env k e) U ok' e' (order c T)
  unfold indexEqOp
  rw [h1]
  simp only [h4]
  cases b with
  | false =>
    refine ⟨false, rfl, ?_⟩
    rw [← maps_eq el e']
    constructor
    · intro h; cases h
    · rintro ⟨h8, _⟩; exact h7.2 h8
  | true =>
    have hlen : (U1.entries c').length = (U.entries c').length := by
      have a1 := enum_size h6
      have a2 := enum_size e'
      obtain ⟨ks, b1, b2, b3⟩ := a1
      obtain ⟨ks', b1', b2', b3'⟩ := a2
      rw [← b3, ← b3']
      apply Nat.le_antisymm
      · exact nodup_sub_length b1 fun k hk => (b2' k).2 ((b2 k).1 hk)
      · exact nodup_sub_length b1' fun k hk => (b2 k).2 ((b2' k).1 hk)
    have h8 := drain_ok h5 (order_going (c := c') U1)
      (by rw [(order_perm (c := c') U1).length_eq, hlen]; exact hf')
    have el' := enum_perm (order_perm (c := c') U1) h6
    obtain ⟨T2, b', h11, _, _, h14⟩ := allEqual_ok (look := fun T k => peekOp c env T k)
      (fun T k o e => peekOp_ok hc T o env k e) T ok e (order c' U1)
    simp only [h8, h11, Option.map_some]
    refine ⟨b', rfl, ?_⟩
    rw [h14, ← maps_eq el el']
    exact ⟨fun h => ⟨h7.1 rfl, h⟩, fun h => h.2⟩

/-- C38. Serialising a `HashMap` or `HashSet`: the number announced is the number of pairs written, the
pairs are the contents, and reading them back, with any hash function and any size hint, gives the same
contents. -/
theorem c38_serialize {c c' : Cfg K} (hc : c.Ok) (hc' : c'.Ok) {n : Nat}
    {h : List (Op K V × Out K V)} {T : Tbl K V} (r : Runs c (Tbl.withCapacity n) h T)
    {m : K → Option V} (e : Spec.Enumerates (T.entries c) m) (env : Env) :
    ∃ (len : Nat) (l : List (K × V)), serializeOp c env T = some (len, l) ∧ len = l.length ∧
      Spec.Enumerates l m ∧ ∀ (env' : Env) (hint : Nat),
        (∃ U, mapFromList c' env' hint l = some U ∧ Spec.Enumerates (U.entries c') m) ∧
        ∃ U, insertFromList c' env' hint l = some U ∧ Spec.Enumerates (U.entries c') m := by
  have ok := (runs_ok hc (withCapacity_ok n).1 r).1
  obtain ⟨T1, h1, h2⟩ := lenOp_ok hc T ok env
  obtain ⟨T2, l, h3, h4, h5⟩ := iterOp_ok hc env T1 h2.ok
  have hp : l.Perm (T.entries c) := h5.symm.trans h2.entries
  have el := enum_perm hp e
  refine ⟨_, l, by unfold serializeOp; rw [h1]; simp only [h3, Option.map_some], hp.length_eq.symm, el, ?_⟩
  intro env' hint
  constructor
  · obtain ⟨U, h6, _, h7⟩ := c38_map_from_iter hc' env' hint l
    refine ⟨U, h6, ?_⟩
    have er : Spec.Enumerates l.reverse m := enum_perm (List.reverse_perm l) el
    rw [enum_firstWins er]
    exact h7
  · obtain ⟨U, h6, _, h7⟩ := c38_insert_from_iter hc' env' hint l
    refine ⟨U, h6, ?_⟩
    rw [enum_firstWins el]
    exact h7

/-- C38. Serialising a `HashIndex`. -/
theorem c38_index_serialize {c c' : Cfg K} (hc : c.Ok) (hc' : c'.Ok) {n : Nat}
    {h : List (Op K V × Out K V)} {T : Tbl K V} (r : Runs c (Tbl.withCapacity n) h T)
    {m : K → Option V} (e : Spec.Enumerates (T.entries c) m) (env : Env) (fuel : Nat)
    (hf : (T.entries c).length < fuel) :
    ∃ (len : Nat) (l : List (K × V)), indexSerializeOp c env fuel T = some (len, l) ∧ len = l.length ∧
      Spec.Enumerates l m ∧ ∀ (env' : Env) (hint : Nat),
        ∃ U, insertFromList c' env' hint l = some U ∧ Spec.Enumerates (U.entries c') m := by
  have ok := (runs_ok hc (withCapacity_ok n).1 r).1
  obtain ⟨T1, h1, h2⟩ := lenOp_ok hc T ok env
  have hp : (order c T1).Perm (T.entries c) := (order_perm (c := c) T1).trans h2.entries
  have h3 := drain_ok h2.ok (order_going (c := c) T1) (by rw [hp.length_eq]; exact hf)
  have el := enum_perm hp e
  refine ⟨_, order c T1, by unfold indexSerializeOp; rw [h1]; simp only [h3, Option.map_some],
    hp.length_eq.symm, el, ?_⟩
  intro env' hint
  obtain ⟨U, h6, _, h7⟩ := c38_insert_from_iter hc' env' hint (order c T1)
  refine ⟨U, h6, ?_⟩
  rw [enum_firstWins el]
  exact h7

end

/-- What a table of numbers holds for the keys below 20. -/
def valuesIn (t : Kind) (T : Tbl Nat Nat) : List (Option Nat) :=
  (List.range 20).map fun k => (readOp (sampleCfg t) sampleEnv T k).bind (·.2)

/-- Another hash function. -/
def otherCfg (t : Kind) : Cfg Nat := ⟨t, fun k => (k * 2 ^ 60) % 2 ^ 64, 2 ^ 62⟩

set_option maxRecDepth 100000 in
/-- Repeated keys: the last value counts for a map, the first for a set or an index. -/
example :
    ((mapFromList (sampleCfg .map) sampleEnv 0 [(1, 10), (2, 20), (1, 11)]).map fun T =>
      ((valuesIn .map T)[1]?, (valuesIn .map T)[2]?, (valuesIn .map T)[3]?)) =
        some (some (some 11), some (some 20), some none) ∧
    ((insertFromList (sampleCfg .index) sampleEnv 0 [(1, 10), (2, 20), (1, 11)]).map fun T =>
      ((valuesIn .index T)[1]?, (valuesIn .index T)[2]?, (valuesIn .index T)[3]?)) =
        some (some (some 10), some (some 20), some none) := by
  decide +kernel

/-- A map in the middle of a resize. -/
def resizing (t : Kind) : Option (Tbl Nat Nat) :=
  (insertAll t (List.range 16)
    (some (reserveOp (sampleCfg t) (Tbl.withCapacity 0) 256).1)).bind fun T =>
      (alterOp (sampleCfg t) sampleEnv T 3 removeAct).map fun r => unreserveOp (sampleCfg t) r.1 256

set_option maxRecDepth 100000 in
/-- A map in the middle of a resize and its clone compare equal, also with another hash function; after
one more insertion they do not. -/
example :
    ((resizing .map).bind fun T => (cloneOp (sampleCfg .map) sampleEnv T).bind fun r =>
      (insertFromList (otherCfg .map) sampleEnv 0 (r.2.entries (sampleCfg .map))).bind fun U =>
      (modifyOp (sampleCfg .map) sampleEnv r.2 77 (insertAct 0)).bind fun q =>
        (eqOp (sampleCfg .map) (sampleCfg .map) sampleEnv T r.2).bind fun a =>
        (eqOp (sampleCfg .map) (otherCfg .map) sampleEnv T U).bind fun b =>
        (eqOp (sampleCfg .map) (sampleCfg .map) sampleEnv T q.1).map fun d =>
          ((T.arr.map fun w => w.old.isSome), a, b, d)) = some (some true, true, true, false) := by
  decide +kernel

set_option maxRecDepth 100000 in
/-- The same for an index. -/
example :
    ((resizing .index).bind fun T => (indexCloneOp (sampleCfg .index) sampleEnv 20 T).bind fun U =>
      (modifyOp (sampleCfg .index) sampleEnv U 77 (insertAct 0)).bind fun q =>
        (indexEqOp (sampleCfg .index) (sampleCfg .index) sampleEnv 20 T U).bind fun a =>
        (indexEqOp (sampleCfg .index) (sampleCfg .index) sampleEnv 20 T q.1).map fun d =>
          ((T.arr.map fun w => w.old.isSome), a, d)) = some (some true, true, false) := by
  decide +kernel

end Scc.Seq
