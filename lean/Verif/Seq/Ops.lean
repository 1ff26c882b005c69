import Verif.Seq.Inv

/-!
# Point operations of the sequential table
-/

set_option linter.unusedSectionVars false
set_option linter.unusedSimpArgs false
set_option linter.unusedVariables false

namespace Scc.Seq

open Scc.Index hiding bucketLen
open Scc.Bucket

variable {K V : Type}

/-! ## Specification vocabulary -/

/-- The value under the key after an action. -/
def Act.res : Act V → Option V → Option V
  | .keep, o => o
  | .put v, _ => some v
  | .del, _ => none

/-- A pair for the value, if there is one. -/
def pr (k : K) (o : Option V) : List (K × V) := o.toList.map fun v => (k, v)

/-- The pairs an action hands to the container. -/
def Act.inn (k : K) : Act V → List (K × V)
  | .put v => [(k, v)]
  | _ => []

/-- The pairs an action hands back to the caller, where `o` is the value that was found: the pair that
was overwritten or removed. `HashIndex` keeps it until no reader can see it any more. -/
def Act.out (t : Kind) (k : K) (a : Act V) (o : Option V) : List (K × V) :=
  match t, a with
  | .index, _ => []
  | _, .keep => []
  | _, _ => pr k o

section
variable [DecidableEq K] {c : Cfg K} {t : Kind} {hash : K → Nat} {b : Bucket K V}

theorem indexUpdate_cells (w : Wf .index hash b) (env : Env) {p : Ptr} {k : K} {v v' : V}
    (hp : PointsTo .index b p (k, v)) {b' : Bucket K V} {q : Ptr}
    (h : b.indexUpdate env p v' = some (b', q)) :
    (b.reclaimed .index env.recent ++ b'.cells).Perm ((k, v') :: b.cells) := by
  obtain ⟨x, hx, hv, hd⟩ := hp
  unfold Bucket.indexUpdate at h
  rw [hx] at h
  simp only [hd] at h
  cases h
  rw [markRemoved_cells]
  exact insert_cells w env.recent (x.ph p.idx) (k, v')

/-- A point operation on a bucket. -/
theorem act_ok (w : Wf t hash b) (nd : ((b.entries t).map (·.1)).Nodup) (env : Env) (k : K)
    (f : Option V → Act V) :
    ∃ b' o R, b.act t hash env k f = some (b', o) ∧ Wf t hash b' ∧
      (b.entries t).Perm (pr k o ++ R) ∧ (b'.entries t).Perm (pr k ((f o).res o) ++ R) ∧
      (∀ e ∈ R, e.1 ≠ k) ∧
      (b.actGone t hash env k f ++ (f o).out t k o ++ b'.cells).Perm ((f o).inn k ++ b.cells) := by
  obtain ⟨g1, g2⟩ := getEntryPtr_ok w k
  unfold Bucket.act Bucket.actGone
  simp only
  by_cases hval : (b.getEntryPtr t k (hash k)).isValid = true
  · rw [if_pos hval, if_pos hval]
    obtain ⟨⟨k', v⟩, hpt, hk⟩ := g1 hval
    simp only at hk; subst hk
    rw [pointsTo_get hpt]
    simp only
    obtain ⟨l, r, hlr⟩ := List.append_of_mem (PointsTo.mem w hpt)
    have hR : (b.entries t).Perm ((k', v) :: (l ++ r)) := by rw [hlr]; exact List.perm_middle
    have hne : ∀ R, (b.entries t).Perm ((k', v) :: R) → ∀ e ∈ R, e.1 ≠ k' := by
      intro R hR e he h
      have := nodup_perm hR.symm nd
      rw [List.map_cons, List.nodup_cons] at this
      exact this.1 (List.mem_map.2 ⟨e, he, h⟩)
    cases hf : f (some v) with
    | keep =>
      refine ⟨b, some v, l ++ r, rfl, w, hR, ?_, hne _ hR, ?_⟩
      · rw [hf]; exact hR
      · rw [hf]
        have h1 : Act.out t k' (Act.keep : Act V) (some v) = [] := by cases t <;> rfl
        rw [h1]; exact List.Perm.refl _
    | put v' =>
      by_cases ht : t = .index
      · subst ht
        obtain ⟨b', q, h1, h2, R, h3, h4⟩ := indexUpdate_ok (v' := v') w env hpt
        refine ⟨b', some v, R, by simp only [h1]; rfl, h2, h3, by rw [hf]; exact h4, hne R h3, ?_⟩
        rw [hf]
        simp only [if_true]
        show (b.reclaimed .index env.recent ++ [] ++ b'.cells).Perm ((k', v') :: b.cells)
        rw [List.append_nil]
        exact indexUpdate_cells w env hpt h1
      · obtain ⟨h1, l', rr, h2, h3⟩ := setVal_ok w v' hpt
        obtain ⟨l2, r2, h4, h5⟩ := setVal_cells w v' hpt
        have hR' : (b.entries t).Perm ((k', v) :: (l' ++ rr)) := by rw [h2]; exact List.perm_middle
        refine ⟨b.setVal _ v', some v, l' ++ rr, ?_, h1, hR', ?_, hne _ hR', ?_⟩
        · cases t <;> first | rfl | exact absurd rfl ht
        · rw [hf, h3]; exact List.perm_middle
        · rw [hf]
          simp only [if_neg ht, h4, h5]
          have h6 : Act.out t k' (Act.put v' : Act V) (some v) = [(k', v)] := by
            cases t <;> first | rfl | exact absurd rfl ht
          rw [h6]
          rw [perm_iff]
          intro x
          simp only [Act.inn, cnt_append, cnt_cons, cnt_nil]
          omega
    | del =>
      by_cases ht : t = .index
      · subst ht
        obtain ⟨h1, h2⟩ := markRemoved_ok w env.epoch hpt
        refine ⟨_, some v, _, rfl, h1, h2, ?_, hne _ h2, ?_⟩
        · rw [hf]; exact List.Perm.refl _
        · rw [hf, markRemoved_cells]; exact List.Perm.refl _
      · obtain ⟨b', p', h1, h2, h3⟩ := remove_ok w hpt
        refine ⟨b', some v, _, ?_, h2, h3, ?_, hne _ h3, ?_⟩
        · cases t <;> first | (simp only [h1]; rfl) | exact absurd rfl ht
        · rw [hf]; exact List.Perm.refl _
        · rw [hf]
          have h6 : Act.out t k' (Act.del : Act V) (some v) = [(k', v)] := by
            cases t <;> first | rfl | exact absurd rfl ht
          rw [h6]
          exact (remove_cells w hpt h1).symm
  · rw [if_neg hval, if_neg hval]
    have hno : ∀ e ∈ b.entries t, e.1 ≠ k := g2 (by simpa using hval)
    cases hf : f none with
    | put v =>
      obtain ⟨h1, h2, _⟩ := insert_ok (h := hash k) (e := (k, v)) w env.recent rfl
      refine ⟨_, none, b.entries t, rfl, h1, List.Perm.refl _, by rw [hf]; exact h2, hno, ?_⟩
      rw [hf]
      have h6 : Act.out t k (Act.put v : Act V) none = [] := by cases t <;> rfl
      rw [h6, List.append_nil]
      exact insert_cells w env.recent (hash k) (k, v)
    | keep =>
      refine ⟨b, none, b.entries t, rfl, w, List.Perm.refl _, by rw [hf]; exact List.Perm.refl _, hno, ?_⟩
      rw [hf]
      have h6 : Act.out t k (Act.keep : Act V) none = [] := by cases t <;> rfl
      rw [h6]; exact List.Perm.refl _
    | del =>
      refine ⟨b, none, b.entries t, rfl, w, List.Perm.refl _, by rw [hf]; exact List.Perm.refl _, hno, ?_⟩
      rw [hf]
      have h6 : Act.out t k (Act.del : Act V) none = [] := by cases t <;> rfl
      rw [h6]; exact List.Perm.refl _

end

/-! ## The locked bucket -/

/-- The bucket `b` at a place of the table, and everything else: `E` the entries and `C` the pairs in
memory outside it. -/
structure Ready (c : Cfg K) (T : Tbl K V) (s : Side) (i : Nat) (b : Bucket K V) (E C : List (K × V))
    (lg : Nat) : Prop where
  bucket : T.bucket s i = some b
  wf : Wf c.kind c.hash b
  placed : ∀ e ∈ b.entries c.kind, bucketIndex lg (c.hash e.1) = i
  others : ∀ e ∈ E, bucketIndex lg (c.hash e.1) ≠ i
  entries : (T.entries c).Perm (b.entries c.kind ++ E)
  cells : T.cells.Perm (b.cells ++ C)
  sideLen : T.sideLen s = 2 ^ lg
  idx : i < 2 ^ lg
  put : ∀ b' : Bucket K V, Wf c.kind c.hash b' →
    (∀ e ∈ b'.entries c.kind, bucketIndex lg (c.hash e.1) = i) →
    (∀ w, (T.setBucket s i b').arr = some w → w.Ok c) ∧
      ((T.setBucket s i b').entries c).Perm (b'.entries c.kind ++ E) ∧
      (T.setBucket s i b').cells.Perm (b'.cells ++ C) ∧
      (T.setBucket s i b').gone = T.gone ∧ (T.setBucket s i b').minCap = T.minCap ∧
      (T.setBucket s i b').bucket s i = some b' ∧ (T.setBucket s i b').sideLen s = 2 ^ lg

section
variable {c : Cfg K}

theorem ready_cur {T : Tbl K V} (ok : T.Ok c) {w : Two K V} (hw : T.arr = some w) {i : Nat}
    (hi : i < 2 ^ w.cur.lg) (cl : w.Clean c i) :
    ∃ E C, Ready c T .cur i (w.cur.bkt i) E C w.cur.lg := by
  have okw := ok.two w hw
  have hal := okw.cur.alive i
  have he := entries_at (c := c) hi
  have hcl := cells_at hi
  refine ⟨w.cur.restE c i ++ (match w.old with | some o => o.entries c | none => []),
    w.cur.restC i ++ (match w.old with | some o => o.cells | none => []), ?_, okw.cur.wf.wf i,
    okw.cur.wf.placed i, ?_, ?_, ?_, ?_, hi, ?_⟩
  · unfold Tbl.bucket; rw [hw]; simp [hal]
  · intro e h
    rcases List.mem_append.1 h with h | h
    · exact restE_key okw.cur.wf h
    · cases ho : w.old with
      | none => rw [ho] at h; cases h
      | some o => rw [ho] at h; exact cl o ho e h
  · unfold Tbl.entries Two.entries
    rw [hw]
    simp only
    rw [← List.append_assoc]
    exact he.append_right _
  · unfold Tbl.cells Two.cells
    rw [hw]
    simp only
    rw [← List.append_assoc]
    exact hcl.append_right _
  · unfold Tbl.sideLen; rw [hw]
  · intro b' wb' pb'
    have hs : T.setBucket .cur i b' = { T with arr := some { w with cur := w.cur.set i b' } } := by
      unfold Tbl.setBucket; rw [hw]
    rw [hs]
    refine ⟨?_, ?_, ?_, rfl, rfl, ?_, rfl⟩
    · intro w' h
      cases h
      exact ⟨⟨set_arrWf okw.cur.wf wb' pb', okw.cur.alive, okw.cur.prog⟩, okw.old⟩
    · show ((w.cur.set i b').entries c ++ _).Perm _
      rw [← List.append_assoc]
      exact (entries_set hi b').append_right _
    · show ((w.cur.set i b').cells ++ _).Perm _
      rw [← List.append_assoc]
      exact (cells_set hi b').append_right _
    · show (if w.cur.dead i then none else some ((w.cur.set i b').bkt i)) = _
      rw [hal, set_bkt, if_pos rfl]; simp

theorem ready_old {T : Tbl K V} (ok : T.Ok c) {a o : Arr K V} (hw : T.arr = some ⟨a, some o⟩) {i : Nat}
    (hi : i < 2 ^ o.lg) (ha : a.entries c = []) (hal : o.dead i = false) :
    ∃ E C, Ready c T .old i (o.bkt i) E C o.lg := by
  have okw := ok.two _ hw
  have wo := okw.old o rfl
  have he := entries_at (c := c) hi
  have hcl := cells_at hi
  refine ⟨o.restE c i, a.cells ++ o.restC i, ?_, wo.wf.wf i, wo.wf.placed i, ?_, ?_, ?_, ?_, hi, ?_⟩
  · unfold Tbl.bucket; rw [hw]; simp [hal]
  · intro e h; exact restE_key wo.wf h
  · unfold Tbl.entries Two.entries
    rw [hw]
    simp only
    rw [ha]; exact he
  · unfold Tbl.cells Two.cells
    rw [hw]
    simp only
    rw [perm_iff] at *
    intro x
    have := hcl x
    simp only [cnt_append] at *
    omega
  · unfold Tbl.sideLen; rw [hw]
  · intro b' wb' pb'
    have hs : T.setBucket .old i b' = { T with arr := some ⟨a, some (o.set i b')⟩ } := by
      unfold Tbl.setBucket; rw [hw]
    rw [hs]
    refine ⟨?_, ?_, ?_, rfl, rfl, ?_, rfl⟩
    · intro w' h
      cases h
      refine ⟨okw.cur, fun o' h => ?_⟩
      cases h
      refine ⟨set_arrWf wo.wf wb' pb', ?_, wo.prog⟩
      intro j hj
      have hj' : o.dead j = true := hj
      rw [set_bkt]
      split
      · rename_i h; subst h; rw [hal] at hj'; cases hj'
      · exact wo.dead j hj'
    · show (a.entries c ++ (o.set i b').entries c).Perm _
      rw [ha]
      exact entries_set hi b'
    · show (a.cells ++ (o.set i b').cells).Perm _
      have h2 := cells_set hi b'
      rw [perm_iff] at *
      intro x
      have := h2 x
      simp only [cnt_append] at *
      omega
    · show (if o.dead i then none else some ((o.set i b').bkt i)) = _
      rw [hal, set_bkt, if_pos rfl]; simp

/-- What a resize does to the arrays. -/
theorem tryResize_shape (T : Tbl K V) (ok : T.Ok c) (i : Nat) :
    tryResize c T i = T ∨ ((tryResize c T i).arr = none ∧ T.entries c = []) ∨
      ∃ a lg, T.arr = some ⟨a, none⟩ ∧ (tryResize c T i).arr = some ⟨Arr.new lg, some a⟩ := by
  have hk := tryResize_keeps T ok i
  unfold tryResize at hk ⊢
  cases hT : T.arr with
  | none => exact Or.inl rfl
  | some w =>
    obtain ⟨a, old⟩ := w
    cases old with
    | some o => exact Or.inl rfl
    | none =>
      rw [hT] at hk
      simp only at hk ⊢
      split
      · rename_i h1
        rw [if_pos h1] at hk
        split
        · rename_i h2
          rw [if_pos h2] at hk
          refine Or.inr (Or.inl ⟨rfl, ?_⟩)
          have := hk.entries
          exact this.symm.eq_nil
        · exact Or.inl rfl
      · split
        · exact Or.inr (Or.inr ⟨a, _, rfl, rfl⟩)
        · exact Or.inl rfl

theorem tryEnlarge_shape (T : Tbl K V) (ok : T.Ok c) (i : Nat) :
    tryEnlarge c T i = T ∨ ((tryEnlarge c T i).arr = none ∧ T.entries c = []) ∨
      ∃ a lg, T.arr = some ⟨a, none⟩ ∧ (tryEnlarge c T i).arr = some ⟨Arr.new lg, some a⟩ := by
  have h := tryResize_shape T ok i
  unfold tryEnlarge
  split
  · exact Or.inl rfl
  · exact Or.inl rfl
  · split
    · exact h
    · exact Or.inl rfl

theorem tryShrink_shape (T : Tbl K V) (ok : T.Ok c) (i : Nat) :
    tryShrink c T i = T ∨ ((tryShrink c T i).arr = none ∧ T.entries c = []) ∨
      ∃ a lg, T.arr = some ⟨a, none⟩ ∧ (tryShrink c T i).arr = some ⟨Arr.new lg, some a⟩ := by
  have h := tryResize_shape T ok i
  unfold tryShrink
  split
  · exact Or.inl rfl
  · exact Or.inl rfl
  · split
    · exact h
    · exact Or.inl rfl

/-! ## Locking a bucket -/

/-- The bucket locked for a hash. -/
def ReadyFor (c : Cfg K) (T : Tbl K V) (h : Nat) (s : Side) (i : Nat) : Prop :=
  ∃ b E C lg, Ready c T s i b E C lg ∧ bucketIndex lg h = i

theorem writerRound_ok (hc : c.Ok) (recent : Nat → Bool) (T : Tbl K V) (ok : T.Ok c) {h : Nat}
    (hh : h < 2 ^ 64) :
    ∃ T' s i, writerRound c recent T h = some (T', some (s, i)) ∧ Keeps c T T' ∧
      ReadyFor c T' h s i := by
  obtain ⟨k0, w0, hw0⟩ := create_keeps T ok
  have hi : bucketIndex w0.cur.lg h < 2 ^ w0.cur.lg :=
    bucketIndex_lt (by have := (k0.ok.two w0 hw0).cur.wf.lg_le; omega) hh
  obtain ⟨T1, w, h1, hw, hl, k1, cl, ho⟩ := prepare_ok hc recent (create T) k0.ok hw0 hi
  unfold writerRound
  rw [hw0]
  simp only [h1, hw]
  generalize hi0 : bucketIndex w0.cur.lg h = i at *
  rw [← hl] at hi0 hi
  obtain ⟨E, C, hr⟩ := ready_cur k1.ok hw hi cl
  have hcur : ReadyFor c T1 h .cur i := ⟨_, E, C, _, hr, hi0⟩
  have hk := k0.trans k1
  split
  · rename_i hcond
    have hne : T1.entries c ≠ [] := by
      intro h
      have h2 := hr.entries
      rw [h] at h2
      have h3 := (List.append_eq_nil_iff.1 h2.symm.eq_nil).1
      have h4 := hr.wf.len
      rw [h3] at h4
      have h5 := hcond.2.1
      unfold Arr.lens at h5
      rw [h4] at h5
      simp [Bucket.bucketLen] at h5
    have hk2 := tryEnlarge_keeps T1 hk.ok i
    rcases tryEnlarge_shape T1 hk.ok i with h2 | ⟨h2, h3⟩ | ⟨a, lg, h2, h3⟩
    · rw [h2, hw]
      simp only
      by_cases h4 : w.old.isSome = true ∧ w.old.isNone = true
      · exfalso
        cases h5 : w.old <;> simp [h5] at h4
      · rw [if_neg h4]
        exact ⟨_, _, _, rfl, hk, hcur⟩
    · exact absurd h3 hne
    · rw [hw] at h2
      cases h2
      rw [h3]
      simp only
      rw [if_pos ⟨rfl, rfl⟩]
      obtain ⟨E', C', hr'⟩ := ready_old hk2.ok h3 hi (new_entries c lg)
        ((hk.ok.two _ hw).cur.alive i)
      exact ⟨_, _, _, rfl, hk.trans hk2, _, E', C', _, hr', hi0⟩
  · exact ⟨_, _, _, rfl, hk, hcur⟩

/-- `writer_sync` locks the bucket of the hash and changes no contents. -/
theorem writer_ok (hc : c.Ok) (recent : Nat → Bool) (T : Tbl K V) (ok : T.Ok c) {h : Nat}
    (hh : h < 2 ^ 64) :
    ∃ T' s i, writer c recent T h = some (T', s, i) ∧ Keeps c T T' ∧ ReadyFor c T' h s i := by
  obtain ⟨T', s, i, h1, h2, h3⟩ := writerRound_ok hc recent T ok hh
  exact ⟨T', s, i, by unfold writer; rw [h1], h2, h3⟩

theorem optWriter_ok (hc : c.Ok) (recent : Nat → Bool) (T : Tbl K V) (ok : T.Ok c) {h : Nat}
    (hh : h < 2 ^ 64) :
    ∃ T' r, optWriter c recent T h = some (T', r) ∧ Keeps c T T' ∧
      (r = none → T.arr = none) ∧ ∀ i, r = some i → ReadyFor c T' h .cur i := by
  unfold optWriter
  cases hT : T.arr with
  | none => exact ⟨T, none, rfl, Keeps.refl ok, fun _ => rfl, fun i h => by cases h⟩
  | some w0 =>
    have hi : bucketIndex w0.cur.lg h < 2 ^ w0.cur.lg :=
      bucketIndex_lt (by have := (ok.two w0 hT).cur.wf.lg_le; omega) hh
    obtain ⟨T1, w, h1, hw, hl, k1, cl, ho⟩ := prepare_ok hc recent T ok hT hi
    simp only [h1]
    refine ⟨T1, _, rfl, k1, (fun h => by cases h), ?_⟩
    intro i h
    cases h
    obtain ⟨E, C, hr⟩ := ready_cur k1.ok hw (by rw [hl]; exact hi) cl
    exact ⟨_, E, C, _, hr, by rw [hl]⟩

theorem shrinkIfEmpty_keeps (T : Tbl K V) (ok : T.Ok c) (s : Side) (i : Nat) :
    Keeps c T (shrinkIfEmpty c T s i) := by
  unfold shrinkIfEmpty
  split
  · split
    · exact tryShrink_keeps T ok i
    · exact Keeps.refl ok
  · exact Keeps.refl ok

/-! ## Point operations -/

/-- The effect of a point operation on the contents and on the pairs in memory: `o` is the value found,
`R` the entries under other keys. -/
structure Effect (c : Cfg K) (T T' : Tbl K V) (k : K) (a : Act V) (o : Option V) (R : List (K × V)) :
    Prop where
  ok : T'.Ok c
  before : (T.entries c).Perm (pr k o ++ R)
  after : (T'.entries c).Perm (pr k (a.res o) ++ R)
  other : ∀ e ∈ R, e.1 ≠ k
  mem : (a.out c.kind k o ++ T'.cells ++ T'.gone).Perm (a.inn k ++ T.cells ++ T.gone)
  minCap : T'.minCap = T.minCap

theorem nodup_pr {k : K} {o : Option V} {R : List (K × V)} :
    ((pr k o ++ R).map (·.1)).Nodup ↔ (R.map (·.1)).Nodup ∧ (o ≠ none → ∀ e ∈ R, e.1 ≠ k) := by
  cases o with
  | none => simp [pr]
  | some v =>
    simp only [pr, Option.toList_some, List.map_cons, List.map_nil, List.cons_append, List.nil_append,
      List.nodup_cons, List.mem_map, ne_eq, reduceCtorEq, not_false_eq_true, forall_const]
    constructor
    · rintro ⟨h1, h2⟩; exact ⟨h2, fun e he h => h1 ⟨e, he, h⟩⟩
    · rintro ⟨h1, h2⟩; exact ⟨fun ⟨e, he, h⟩ => h2 e he h, h1⟩

variable [DecidableEq K]

theorem applyAt_ok (T : Tbl K V) (ok : T.Ok c) (env : Env) {s : Side} {i : Nat} {k : K}
    (hr : ReadyFor c T (c.hash k) s i) (f : Option V → Act V) :
    ∃ T' o R, applyAt c env T s i k f = some (T', o) ∧ Effect c T T' k (f o) o R := by
  obtain ⟨b, E, C, lg, r, hidx⟩ := hr
  have hnd : ((b.entries c.kind).map (·.1)).Nodup := by
    have := nodup_perm r.entries.symm ok.nodup
    rw [List.map_append] at this
    exact (List.nodup_append.1 this).1
  obtain ⟨b', o, R, h1, h2, h3, h4, h5, h6⟩ := act_ok r.wf hnd env k f
  have hpl : ∀ e ∈ b'.entries c.kind, bucketIndex lg (c.hash e.1) = i := by
    intro e he
    rcases List.mem_append.1 (h4.mem_iff.1 he) with h | h
    · obtain ⟨v, _, hv⟩ := List.mem_map.1 h
      subst hv; exact hidx
    · exact r.placed e (h3.mem_iff.2 (List.mem_append_right _ h))
  obtain ⟨p1, p2, p3, p4, p5, p6, p7⟩ := r.put b' h2 hpl
  have hER : ∀ e ∈ R ++ E, e.1 ≠ k := by
    intro e he
    rcases List.mem_append.1 he with h | h
    · exact h5 e h
    · intro hk
      refine r.others e h ?_
      rw [hk]; exact hidx
  have hbef : (T.entries c).Perm (pr k o ++ (R ++ E)) := by
    rw [← List.append_assoc]
    exact r.entries.trans (h3.append_right E)
  have haft : ((T.setBucket s i b').entries c).Perm (pr k ((f o).res o) ++ (R ++ E)) := by
    rw [← List.append_assoc]
    exact p2.trans (h4.append_right E)
  have hRE : ((R ++ E).map (·.1)).Nodup := (nodup_pr.1 (nodup_perm hbef.symm ok.nodup)).1
  have eff : Effect c T { (T.setBucket s i b') with
      gone := (T.setBucket s i b').gone ++ b.actGone c.kind c.hash env k f } k (f o) o (R ++ E) := by
    refine ⟨⟨p1, ?_⟩, hbef, haft, hER, ?_, p5⟩
    · refine nodup_perm haft ?_
      exact nodup_pr.2 ⟨hRE, fun _ => hER⟩
    · show (_ ++ (T.setBucket s i b').cells ++ ((T.setBucket s i b').gone ++ _)).Perm _
      rw [p4]
      have rc := r.cells
      rw [perm_iff] at *
      intro x
      have z1 := p3 x
      have z2 := rc x
      have z3 := h6 x
      simp only [cnt_append] at *
      omega
  unfold applyAt
  rw [r.bucket]
  simp only [h1]
  by_cases hd : Act.removes f o = true
  · rw [if_pos hd]
    have hk := shrinkIfEmpty_keeps _ eff.ok s i
    refine ⟨_, o, R ++ E, rfl, hk.ok, hbef, hk.entries.trans eff.after, hER, ?_,
      hk.minCap.trans eff.minCap⟩
    have z1 := eff.mem
    have z2 := hk.mem
    rw [perm_iff] at *
    intro x
    have z1 := z1 x
    have z2 := z2 x
    simp only [cnt_append] at *
    omega
  · rw [if_neg hd]
    exact ⟨_, o, R ++ E, rfl, eff⟩

theorem Effect.of_keeps {T0 T T' : Tbl K V} {k : K} {a : Act V} {o : Option V} {R : List (K × V)}
    (h : Keeps c T0 T) (e : Effect c T T' k a o R) : Effect c T0 T' k a o R := by
  refine ⟨e.ok, h.entries.symm.trans e.before, e.after, e.other, ?_, e.minCap.trans h.minCap⟩
  have z1 := e.mem
  have z2 := h.mem
  rw [perm_iff] at *
  intro x
  have z1 := z1 x
  have z2 := z2 x
  simp only [cnt_append] at *
  omega

theorem modifyOp_ok (hc : c.Ok) (T : Tbl K V) (ok : T.Ok c) (env : Env) (k : K)
    (f : Option V → Act V) :
    ∃ T' o R, modifyOp c env T k f = some (T', o) ∧ Effect c T T' k (f o) o R := by
  obtain ⟨T1, s, i, h1, h2, h3⟩ := writer_ok hc env.recent T ok (hc k)
  obtain ⟨T', o, R, h4, h5⟩ := applyAt_ok T1 h2.ok env h3 f
  exact ⟨T', o, R, by unfold modifyOp; rw [h1]; exact h4, h5.of_keeps h2⟩

/-- With no array there is nothing in the table. -/
theorem entries_none {T : Tbl K V} (h : T.arr = none) : T.entries c = [] := by
  unfold Tbl.entries; rw [h]

theorem alterOp_ok (hc : c.Ok) (T : Tbl K V) (ok : T.Ok c) (env : Env) (k : K) (f : V → Act V) :
    ∃ T' o R, alterOp c env T k f = some (T', o) ∧ Effect c T T' k (Act.onSome f o) o R := by
  obtain ⟨T1, r, h1, h2, h3, h4⟩ := optWriter_ok hc env.recent T ok (hc k)
  unfold alterOp
  rw [h1]
  cases r with
  | none =>
    refine ⟨T1, none, [], rfl, h2.ok, ?_, ?_, (fun e h => by cases h), ?_, h2.minCap⟩
    · rw [entries_none (h3 rfl)]; exact List.Perm.refl _
    · have := h2.entries
      rw [entries_none (h3 rfl)] at this
      exact this
    · have h6 : Act.out c.kind k (Act.onSome f none) none = [] := by
        cases c.kind <;> rfl
      rw [h6]; exact h2.mem
  | some i =>
    obtain ⟨T', o, R, h5, h6⟩ := applyAt_ok T1 h2.ok env (h4 i rfl) (Act.onSome f)
    exact ⟨T', o, R, h5, h6.of_keeps h2⟩

theorem readOp_ok (hc : c.Ok) (T : Tbl K V) (ok : T.Ok c) (env : Env) (k : K) :
    ∃ T' o R, readOp c env T k = some (T', o) ∧ Keeps c T T' ∧ (T.entries c).Perm (pr k o ++ R) ∧
      ∀ e ∈ R, e.1 ≠ k := by
  obtain ⟨T1, r, h1, h2, h3, h4⟩ := optWriter_ok hc env.recent T ok (hc k)
  unfold readOp
  rw [h1]
  cases r with
  | none =>
    refine ⟨T1, none, [], rfl, h2, ?_, (fun e h => by cases h)⟩
    rw [entries_none (h3 rfl)]; exact List.Perm.refl _
  | some i =>
    obtain ⟨b, E, C, lg, r, hidx⟩ := h4 i rfl
    simp only [r.bucket]
    have hnd : ((b.entries c.kind).map (·.1)).Nodup := by
      have := nodup_perm r.entries.symm h2.ok.nodup
      rw [List.map_append] at this
      exact (List.nodup_append.1 this).1
    have hE : ∀ e ∈ E, e.1 ≠ k := by
      intro e h hk
      refine r.others e h ?_
      rw [hk]; exact hidx
    have hent := h2.entries.symm.trans r.entries
    obtain ⟨s1, s2⟩ := searchEntry_ok r.wf k
    cases hs : b.searchEntry c.kind k (c.hash k) with
    | none =>
      refine ⟨T1, none, b.entries c.kind ++ E, rfl, h2, hent, ?_⟩
      intro e he
      rcases List.mem_append.1 he with h | h
      · exact s2 hs e h
      · exact hE e h
    | some e =>
      obtain ⟨he, hk⟩ := s1 e hs
      obtain ⟨l, rr, hlr⟩ := List.append_of_mem he
      refine ⟨T1, some e.2, (l ++ rr) ++ E, rfl, h2, ?_, ?_⟩
      · refine hent.trans ?_
        rw [hlr]
        have : pr k (some e.2) = [e] := by subst hk; rfl
        rw [this]
        exact (List.perm_middle (l₁ := l) (a := e) (l₂ := rr)).append_right E
      · intro e' he'
        rcases List.mem_append.1 he' with h | h
        · intro hk'
          have hp : (b.entries c.kind).Perm (e :: (l ++ rr)) := by rw [hlr]; exact List.perm_middle
          have := nodup_perm hp.symm hnd
          rw [List.map_cons, List.nodup_cons] at this
          exact this.1 (List.mem_map.2 ⟨e', h, hk'.trans hk.symm⟩)
        · exact hE e' h

/-! ## Size, reservations, dropping -/

theorem total_entries {a : Arr K V} (w : ArrWf c a) : a.total = (a.entries c).length := by
  unfold Arr.total Arr.entries
  rw [List.length_flatMap]
  congr 1
  exact List.map_congr_left fun i _ => (w.wf i).len

theorem lenOp_ok (hc : c.Ok) (T : Tbl K V) (ok : T.Ok c) (env : Env) :
    ∃ T', lenOp c env T = some (T', (T.entries c).length) ∧ Keeps c T T' := by
  unfold lenOp
  cases hT : T.arr with
  | none => exact ⟨T, by simp [entries_none hT], Keeps.refl ok⟩
  | some w =>
    obtain ⟨w1, g1, h1, ok1, l1, e1, c1, o1⟩ := incrementalRehash_ok hc env.recent w (ok.two w hT)
    simp only [h1]
    have hent : T.entries c = w.entries c := by unfold Tbl.entries; rw [hT]
    have hcel : T.cells = w.cells := by unfold Tbl.cells; rw [hT]
    have hk : Keeps c T { T with arr := some w1, gone := T.gone ++ g1 } := by
      refine ⟨⟨?_, ?_⟩, ?_, ?_, rfl⟩
      · intro w' h; cases h; exact ok1
      · exact nodup_perm (hent ▸ e1) ok.nodup
      · rw [hent]; exact e1
      · rw [hcel]
        show (w1.cells ++ (T.gone ++ g1)).Perm _
        rw [perm_iff] at *
        intro x
        have z1 := c1 x
        simp only [cnt_append] at *
        omega
    have hn : oldTotal w1.old + w1.cur.total =
        (T.entries c).length := by
      rw [hent, ← e1.length_eq]
      unfold Two.entries
      rw [List.length_append, total_entries ok1.cur.wf]
      cases ho : w1.old with
      | none => simp [oldTotal]
      | some o => simp [oldTotal, total_entries (ok1.old o ho).wf]; omega
    simp only [Option.map_some, hn]
    by_cases hz : (T.entries c).length = 0 ∧ T.minCap = 0
    · rw [if_pos hz]
      exact ⟨_, rfl, hk.trans (tryResize_keeps _ hk.ok 0)⟩
    · rw [if_neg hz]
      exact ⟨_, rfl, hk⟩

theorem minCap_ok {T : Tbl K V} (ok : T.Ok c) (n : Nat) : ({ T with minCap := n } : Tbl K V).Ok c :=
  ⟨ok.two, ok.nodup⟩

/-- A step that keeps the contents but may change the minimum capacity. -/
structure Stays (c : Cfg K) (T T' : Tbl K V) : Prop where
  ok : T'.Ok c
  entries : (T'.entries c).Perm (T.entries c)
  mem : (T'.cells ++ T'.gone).Perm (T.cells ++ T.gone)

theorem Keeps.stays {T T' : Tbl K V} (h : Keeps c T T') : Stays c T T' := ⟨h.ok, h.entries, h.mem⟩

theorem reserveOp_ok (T : Tbl K V) (ok : T.Ok c) (n : Nat) : Stays c T (reserveOp c T n).1 := by
  unfold reserveOp
  split
  · exact (Keeps.refl ok).stays
  · have := tryResize_keeps _ (minCap_ok ok (T.minCap + n)) 0
    exact ⟨this.ok, this.entries, this.mem⟩

theorem unreserveOp_ok (T : Tbl K V) (ok : T.Ok c) (n : Nat) : Stays c T (unreserveOp c T n) := by
  unfold unreserveOp
  have := tryShrink_keeps _ (minCap_ok ok (T.minCap - n)) 0
  exact ⟨this.ok, this.entries, this.mem⟩

theorem withCapacity_ok (n : Nat) :
    (Tbl.withCapacity n : Tbl K V).Ok c ∧ (Tbl.withCapacity n : Tbl K V).entries c = [] ∧
      (Tbl.withCapacity n : Tbl K V).cells = [] ∧ (Tbl.withCapacity n : Tbl K V).gone = [] := by
  unfold Tbl.withCapacity
  split
  · exact ⟨⟨(fun w h => by cases h), by simp [Tbl.entries]⟩, rfl, rfl, rfl⟩
  · obtain ⟨b1, b2⟩ := log2ArrayLen_bounds n
    refine ⟨⟨?_, ?_⟩, ?_, ?_, rfl⟩
    · intro w h
      cases h
      exact ⟨new_curOk c b1 b2, fun o h => by cases h⟩
    · simp [Tbl.entries, Two.entries, new_entries]
    · simp [Tbl.entries, Two.entries, new_entries]
    · simp [Tbl.cells, Two.cells, new_cells]

/-- Dropping the container drops every pair it holds in memory once. -/
theorem dropTable_ok (T : Tbl K V) (ok : T.Ok c) : (dropTable c T).Perm T.cells := by
  unfold dropTable Tbl.cells
  cases hT : T.arr with
  | none => exact List.Perm.refl _
  | some w =>
    have okw := ok.two w hT
    obtain ⟨a, old⟩ := w
    cases old with
    | none =>
      unfold Two.cells
      simp only [List.append_nil]
      exact dropArr_ok okw.cur.old
    | some o =>
      unfold Two.cells
      exact ((dropArr_ok (okw.old o rfl)).append (dropArr_ok okw.cur.old)).trans List.perm_append_comm

end

end Scc.Seq
