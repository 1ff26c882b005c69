import Verif.Bucket.OpsProof

/-!
# Properties of a single locked bucket (C12, and the per-bucket parts of C10, C11, C15)
-/

namespace Scc.Bucket

variable {K V : Type}

/-! ## C12: a bucket is an exact finite map -/

/-- Whatever sequence of point operations is applied to a new bucket, in whatever epochs, every
operation reports what a plain finite map would report; none of them hits an uninitialised cell; and
the length counter is the number of keys present. -/
theorem c12_bucket_refines_map [DecidableEq K] (t : Kind) (hash : K → Nat)
    (ops : List (Env × Spec.Op K V)) :
    ∃ b, (Bucket.empty : Bucket K V).run t hash ops =
        some (b, (Spec.run (fun _ => none) (ops.map (·.2))).2) ∧
      Spec.HasSize (Spec.run (fun _ => none) (ops.map (·.2))).1 b.len := by
  obtain ⟨b, h, r⟩ := run_ok (t := t) (hash := hash) ops rep_empty
  exact ⟨b, h, size_ok r⟩

/-- Reading any key afterwards gives the map's value. -/
theorem c12_lookup [DecidableEq K] (t : Kind) (hash : K → Nat) (ops : List (Env × Spec.Op K V))
    (k : K) :
    ∃ b rs, (Bucket.empty : Bucket K V).run t hash ops = some (b, rs) ∧
      (b.searchEntry t k (hash k)).map (·.2) =
        (Spec.run (fun _ => none) (ops.map (·.2))).1 k := by
  obtain ⟨b, h, r⟩ := run_ok (t := t) (hash := hash) ops rep_empty
  exact ⟨b, _, h, search_rep r k⟩

/-- A sample environment. -/
def env0 : Env := { recent := fun _ => false, epoch := 0 }

/-- Forty keys with the same partial hash overflow the 32 slots of the bucket into a link; removing,
re-inserting and reading still answers like a map. -/
def sampleOps : List (Env × Spec.Op Nat Nat) :=
  (List.range 40).map (fun i => (env0, Spec.Op.modify i (Spec.insertFn (i * i)))) ++
    [(env0, .modify 7 (fun _ => none)), (env0, .read 7), (env0, .read 39),
     (env0, .modify 35 (Spec.upsertFn 1)), (env0, .read 35)]

set_option maxRecDepth 100000 in
example : ((Bucket.empty : Bucket Nat Nat).run .map (fun _ => 5) sampleOps).map
    (fun r => (r.2.drop 40, r.1.len, r.1.links.length)) =
      some ([some 49, none, some 1521, some 1225, some 1], 39, 1) := by decide +kernel

set_option maxRecDepth 100000 in
example : ((Bucket.empty : Bucket Nat Nat).run .index (fun _ => 5) sampleOps).map
    (fun r => (r.2.drop 40, r.1.len, r.1.links.length)) =
      some ([some 49, none, some 1521, some 1225, some 1], 39, 1) := by decide +kernel

/-! ## C10/C11: one pass of the cursor over a bucket -/

/-- A pass over any bucket that can arise visits every entry exactly once, in one order `l` that
enumerates the map; the closure runs exactly as over the plain list `l`; and afterwards the bucket
holds exactly the entries the closure kept, with the values it wrote. Entries may be removed under
the cursor, including the last one of an overflow link. -/
theorem c10_bucket_pass [DecidableEq K] {σ : Type} (t : Kind) (hash : K → Nat)
    (ops : List (Env × Spec.Op K V)) (env : Env) (f : σ → K × V → σ × V × Bool)
    (hidx : t = .index → ∀ s e, (f s e).2.1 = e.2) (s : σ) :
    ∃ b rs b' s' l, (Bucket.empty : Bucket K V).run t hash ops = some (b, rs) ∧
      Spec.Enumerates l (Spec.run (fun _ => none) (ops.map (·.2))).1 ∧
      b.retain t env f (b.len + 1) Ptr.null s = some (b', s', l) ∧
      s' = (Spec.pass f s l).1 ∧
      (∀ k, (b'.searchEntry t k (hash k)).map (·.2) =
        ((Spec.pass f s l).2.find? (fun e => e.1 = k)).map (·.2)) ∧
      b'.len = (Spec.pass f s l).2.length := by
  obtain ⟨b, h, r⟩ := run_ok (t := t) (hash := hash) ops rep_empty
  have hrem := remaining_null r.wf
  obtain ⟨b', g1, g2, g3⟩ := retain_ok (hash := hash) env f hidx (b.len + 1) b Ptr.null s r.wf
    (by rw [hrem, r.wf.len]; omega) [] (by rw [hrem]; simp)
  rw [hrem] at g1 g3
  simp only [List.nil_append] at g3
  refine ⟨b, _, b', _, b.entries t, h, ⟨r.nodup, r.mem⟩, g1, rfl, ?_, by
    rw [g2.len, g3.length_eq]⟩
  have hsub : ∀ (l : List (K × V)) (s : σ), ((Spec.pass f s l).2.map (·.1)).Sublist (l.map (·.1)) := by
    intro l
    induction l with
    | nil => intro s; simp [Spec.pass]
    | cons e es ih =>
      intro s
      simp only [Spec.pass, List.map_cons]
      split
      · simp only [List.map_cons]
        exact (ih _).cons₂ _
      · exact (ih _).cons _
  have hnd : ((Spec.pass f s (b.entries t)).2.map (·.1)).Nodup := List.Nodup.sublist (hsub _ s) r.nodup
  intro k
  obtain ⟨s1, s2⟩ := searchEntry_ok g2 k
  have key : ∀ l : List (K × V), (l.map (·.1)).Nodup → ∀ e ∈ l, l.find? (fun x => x.1 = e.1) = some e := by
    intro l
    induction l with
    | nil => intro _ e he; simp at he
    | cons x xs ih =>
      intro hn e he
      simp only [List.map_cons, List.nodup_cons] at hn
      rw [List.find?_cons]
      rcases List.mem_cons.1 he with rfl | he
      · simp
      · have hne : x.1 ≠ e.1 := fun h => hn.1 (h ▸ List.mem_map.2 ⟨e, he, rfl⟩)
        simp [hne]
        exact ih hn.2 e he
  cases hs : b'.searchEntry t k (hash k) with
  | none =>
    have h1 : (Spec.pass f s (b.entries t)).2.find? (fun e => e.1 = k) = none := by
      rw [List.find?_eq_none]
      intro e he
      simpa using s2 hs e (g3.mem_iff.2 he)
    rw [h1]
  | some e =>
    obtain ⟨he, hk⟩ := s1 e hs
    subst hk
    rw [key _ hnd e (g3.mem_iff.1 he)]

/-- A pass that removes the odd keys of the 39 left by `sampleOps`; the link empties and is
unlinked under the cursor. -/
def dropOdd : Nat → Nat × Nat → Nat × Nat × Bool := fun s e => (s + 1, e.2, e.1 % 2 = 0)

set_option maxRecDepth 100000 in
example : (((Bucket.empty : Bucket Nat Nat).run .map (fun _ => 5) sampleOps).bind fun r =>
    r.1.retain .map env0 dropOdd 40 Ptr.null 0).map
      (fun r => (r.1.len, r.2.1, r.2.2.length, r.1.links.length)) = some (20, 39, 39, 1) := by
  decide +kernel

/-- Removing everything unlinks the overflow chain. -/
example : (((Bucket.empty : Bucket Nat Nat).run .map (fun _ => 5) sampleOps).bind fun r =>
    r.1.retain .map env0 (fun (_ : Unit) e => ((), e.2, false)) 40 Ptr.null ()).map
      (fun r => (r.1.len, r.2.2.length, r.1.links.length)) = some (0, 39, 0) := by
  decide +kernel

/-! ## C03 (per bucket): moving one entry between buckets -/

/-- Relocating an entry takes it out of the source and puts it into the target, nothing else. -/
theorem c03_extract_moves_one (t : Kind) (hash : K → Nat) (recent : Nat → Bool)
    (target source : Bucket K V) (wt : Wf t hash target) (ws : Wf t hash source) (p : Ptr) (e : K × V)
    (hp : PointsTo t source p e) (h : Nat) (hh : partialHash h = partialHash (hash e.1)) :
    ∃ target' source', extractFrom t recent target h source p = some (target', source') ∧
      (target'.entries t).Perm (e :: target.entries t) ∧
      (source.entries t).Perm (e :: source'.entries t) ∧
      target'.len = target.len + 1 ∧ source'.len + 1 = source.len := by
  obtain ⟨b', s', h1, h2, h3, h4, h5⟩ := extractFrom_ok wt ws recent hp hh
  refine ⟨b', s', h1, h4, h5, ?_, ?_⟩
  · rw [h2.len, h4.length_eq, wt.len]; rfl
  · rw [h3.len, ws.len, h5.length_eq]; rfl

/-! ## C43: updating through a `HashIndex` cursor skips entries -/

/-- Three entries in one `HashIndex` bucket. -/
def threeOps : List (Env × Spec.Op Nat Nat) :=
  [1, 2, 3].map fun i => (env0, Spec.Op.modify i (Spec.insertFn (10 * i)))

/-- A cursor at the first of three entries, `update` through it, then step on: the cursor jumps to
the new copy behind the other entries and reports the end, so the entries 2 and 3 are never visited
although nobody removed them. This refutes the claim that the cursor visits every entry. -/
theorem c43_index_update_skips :
    ∃ (b b' : Bucket Nat Nat) (p q : Ptr) (rs : List (Option Nat)),
      (Bucket.empty : Bucket Nat Nat).run .index (fun k => k) threeOps = some (b, rs) ∧
      b.moveToNext .index Ptr.null = (p, true) ∧ b.get p = some (1, 10) ∧
      b.indexUpdate env0 p 11 = some (b', q) ∧
      (b'.moveToNext .index q).2 = false ∧
      (b'.searchEntry .index 2 2) = some (2, 20) ∧ (b'.searchEntry .index 3 3) = some (3, 30) := by
  refine ⟨_, _, ⟨0, 0⟩, ⟨0, 3⟩, _, rfl, by decide +kernel, by decide +kernel, rfl, by decide +kernel,
    by decide +kernel, by decide +kernel⟩

/-- Without `update`, stepping a cursor and removing under it visits every entry once: what holds
of C43. -/
theorem c43_cursor_remove_partial [DecidableEq K] {σ : Type} (hash : K → Nat)
    (ops : List (Env × Spec.Op K V)) (env : Env) (f : σ → K × V → σ × Bool) (s : σ) :
    ∃ b rs b' s' l, (Bucket.empty : Bucket K V).run .index hash ops = some (b, rs) ∧
      Spec.Enumerates l (Spec.run (fun _ => none) (ops.map (·.2))).1 ∧
      b.retain .index env (fun s e => ((f s e).1, e.2, (f s e).2)) (b.len + 1) Ptr.null s =
        some (b', s', l) := by
  obtain ⟨b, rs, b', s', l, h1, h2, h3, _⟩ := c10_bucket_pass .index hash ops env
    (fun s e => ((f s e).1, e.2, (f s e).2)) (fun _ _ _ => rfl) s
  exact ⟨b, rs, b', s', l, h1, h2, h3⟩

end Scc.Bucket
