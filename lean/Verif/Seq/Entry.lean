import Verif.Seq.Props

/-!
# The entry API (C41)

An entry holds a locked bucket and, if it is occupied, a cursor in it. The methods of an entry are
modelled one by one on that state, so that any sequence of them on one entry can be formed.
-/

set_option linter.unusedSectionVars false
set_option linter.unusedSimpArgs false
set_option linter.unusedVariables false

namespace Scc.Seq

open Scc.Index hiding bucketLen
open Scc.Bucket

variable {K V : Type}

/-! ## Model -/

/-- `Entry` (/repo/src/hash_map.rs 84-116, /repo/src/hash_index.rs 76-108): the locked bucket and the
cursor, or the locked bucket and the key. -/
inductive Entry (K : Type)
  | occ (x : Cur)
  | vac (s : Side) (i : Nat) (k : K)

/-- `entry_sync` (/repo/src/hash_map.rs 334-353, /repo/src/hash_index.rs 268-287). -/
def entryOp [DecidableEq K] (c : Cfg K) (env : Env) (T : Tbl K V) (k : K) :
    Option (Tbl K V × Entry K) :=
  match writer c env.recent T (c.hash k) with
  | none => none
  | some (T1, s, i) =>
    match T1.bucket s i with
    | none => none
    | some b =>
      let p := b.getEntryPtr c.kind k (c.hash k)
      if p.isValid then some (T1, .occ ⟨s, i, p⟩) else some (T1, .vac s i k)

/-- `get_sync` (/repo/src/hash_map.rs 1000-1015, /repo/src/hash_index.rs 726-742): the cursor if the
key is there. -/
def getOp [DecidableEq K] (c : Cfg K) (env : Env) (T : Tbl K V) (k : K) :
    Option (Tbl K V × Option Cur) :=
  match optWriter c env.recent T (c.hash k) with
  | none => none
  | some (T1, none) => some (T1, none)
  | some (T1, some i) =>
    match T1.bucket .cur i with
    | none => none
    | some b =>
      let p := b.getEntryPtr c.kind k (c.hash k)
      if p.isValid then some (T1, some ⟨.cur, i, p⟩) else some (T1, none)

/-- `OccupiedEntry::insert`, which is `replace(self.get_mut(), val)` (/repo/src/hash_map.rs 1934-1959),
and for `HashIndex` `OccupiedEntry::update` (/repo/src/hash_index.rs 1887-1899), which moves the cursor
to the copy. Returns also the previous value (`update` discards it). -/
def occInsert (c : Cfg K) (env : Env) (T : Tbl K V) (x : Cur) (v : V) :
    Option (Tbl K V × Cur × V) :=
  match T.bucket x.side x.idx with
  | none => none
  | some b =>
    match b.get x.ptr with
    | none => none
    | some e =>
      if c.kind = .index then
        match b.indexUpdate env x.ptr v with
        | none => none
        | some (b', q) =>
          let T1 := T.setBucket x.side x.idx b'
          some ({ T1 with gone := T1.gone ++ b.reclaimed .index env.recent }, { x with ptr := q }, e.2)
      else some (T.setBucket x.side x.idx (b.setVal x.ptr v), x, e.2)

/-- `OccupiedEntry::remove_entry` (/repo/src/hash_map.rs 1888-1890, /repo/src/hash_table.rs 1506-1519;
/repo/src/hash_index.rs 1635-1638, /repo/src/hash_table.rs 1523-1536): the pair removed, and the attempt
to shrink. -/
def occRemove (c : Cfg K) (env : Env) (T : Tbl K V) (x : Cur) : Option (Tbl K V × (K × V)) :=
  match T.bucket x.side x.idx with
  | none => none
  | some b =>
    if c.kind = .index then
      (b.get x.ptr).map fun e =>
        (shrinkIfEmpty c (T.setBucket x.side x.idx (b.markRemoved x.ptr env.epoch)) x.side x.idx, e)
    else
      match b.remove c.kind x.ptr with
      | some (b', some e, _) => some (shrinkIfEmpty c (T.setBucket x.side x.idx b') x.side x.idx, e)
      | _ => none

/-- `VacantEntry::insert_entry` (/repo/src/hash_map.rs 2243-2250, /repo/src/hash_index.rs 1987-1994). -/
def vacInsert (c : Cfg K) (env : Env) (T : Tbl K V) (s : Side) (i : Nat) (k : K) (v : V) :
    Option (Tbl K V × Cur) :=
  match T.bucket s i with
  | none => none
  | some b =>
    let r := b.insert c.kind env.recent (c.hash k) (k, v)
    let T1 := T.setBucket s i r.1
    some ({ T1 with gone := T1.gone ++ b.reclaimed c.kind env.recent }, ⟨s, i, r.2⟩)

/-- `Entry::or_insert_with_key` (/repo/src/hash_map.rs 1723-1734, /repo/src/hash_index.rs 1479-1490).
`or_insert`, `or_insert_with` and `or_default` are instances (/repo/src/hash_map.rs 1686-1705,
1825-1830). -/
def orInsertWithKey (c : Cfg K) (env : Env) (T : Tbl K V) (en : Entry K) (f : K → V) :
    Option (Tbl K V × Cur) :=
  match en with
  | .occ x => some (T, x)
  | .vac s i k => vacInsert c env T s i k (f k)

/-- `Entry::and_modify` (/repo/src/hash_map.rs 1771-1782); `HashIndex` offers it only as an unsafe
function. -/
def andModify (T : Tbl K V) (en : Entry K) (f : V → V) : Option (Tbl K V × Entry K) :=
  match en with
  | .occ x =>
    match T.bucket x.side x.idx with
    | none => none
    | some b =>
      match b.get x.ptr with
      | none => none
      | some e => some (T.setBucket x.side x.idx (b.setVal x.ptr (f e.2)), .occ x)
  | .vac s i k => some (T, .vac s i k)

/-- `Entry::insert_entry` (/repo/src/hash_map.rs 1796-1804). -/
def insertEntry (c : Cfg K) (env : Env) (T : Tbl K V) (en : Entry K) (v : V) :
    Option (Tbl K V × Cur) :=
  match en with
  | .occ x => (occInsert c env T x v).map fun r => (r.1, r.2.1)
  | .vac s i k => vacInsert c env T s i k v

/-- `replace_sync` (/repo/src/hash_map.rs 805-833), for a map whose keys consist of the part `K` that
`Eq` and `Hash` look at and a further part `P`: the key stored becomes `(k, p)`, the value stays. The
further part is kept with the value. Returns the entry and the previous further part. -/
def replaceOp {P : Type} [DecidableEq K] (c : Cfg K) (env : Env) (T : Tbl K (P × V)) (k : K) (p : P) :
    Option (Tbl K (P × V) × Entry K × Option P) :=
  match entryOp c env T k with
  | none => none
  | some (T1, .vac s i k') => some (T1, .vac s i k', none)
  | some (T1, .occ x) =>
    match getAt T1 x with
    | none => none
    | some e =>
      (andModify T1 (.occ x) fun pv => (p, pv.2)).map fun r => (r.1, r.2, some e.2.1)

/-- `HashSet::replace_sync` (/repo/src/hash_set.rs 270-282), with keys as in `replaceOp`. -/
def setReplaceOp {P : Type} [DecidableEq K] (c : Cfg K) (env : Env) (T : Tbl K P) (k : K) (p : P) :
    Option (Tbl K P × Option P) :=
  match entryOp c env T k with
  | none => none
  | some (T1, .vac s i k') => (vacInsert c env T1 s i k' p).map fun r => (r.1, none)
  | some (T1, .occ x) =>
    match getAt T1 x with
    | none => none
    | some e => (andModify T1 (.occ x) fun _ => p).map fun r => (r.1, some e.2)

/-! ## What an entry stands for -/

section
variable {c : Cfg K}

theorem set_set (a : Arr K V) (i : Nat) (b b' : Bucket K V) : (a.set i b).set i b' = a.set i b' := by
  unfold Arr.set
  simp only [Arr.mk.injEq, true_and, and_true]
  funext j
  by_cases h : j = i <;> simp [h]

theorem setBucket_setBucket (T : Tbl K V) (s : Side) (i : Nat) (b b' : Bucket K V) (g : List (K × V)) :
    ({ (T.setBucket s i b) with gone := g } : Tbl K V).setBucket s i b' =
      { (T.setBucket s i b') with gone := g } := by
  unfold Tbl.setBucket
  cases hT : T.arr with
  | none => cases s <;> simp [hT]
  | some w =>
    cases s with
    | cur => simp only [set_set]
    | old =>
      obtain ⟨a, o⟩ := w
      cases o with
      | none => simp [hT]
      | some o => simp only [set_set]

/-- A change of a locked bucket is a change of the container, and the bucket stays locked. -/
theorem Ready.change {T : Tbl K V} (ok : T.Ok c) {s : Side} {i lg : Nat} {b : Bucket K V}
    {E C : List (K × V)} (r : Ready c T s i b E C lg) {k : K} (hidx : bucketIndex lg (c.hash k) = i)
    {b' : Bucket K V} {a : Act V} {o : Option V} {R g : List (K × V)} (wb : Wf c.kind c.hash b')
    (h3 : (b.entries c.kind).Perm (pr k o ++ R)) (h4 : (b'.entries c.kind).Perm (pr k (a.res o) ++ R))
    (h5 : ∀ e ∈ R, e.1 ≠ k)
    (h6 : (g ++ a.out c.kind k o ++ b'.cells).Perm (a.inn k ++ b.cells)) :
    Effect c T { (T.setBucket s i b') with gone := (T.setBucket s i b').gone ++ g } k a o (R ++ E) ∧
    Ready c { (T.setBucket s i b') with gone := (T.setBucket s i b').gone ++ g } s i b' E C lg := by
  have hpl : ∀ e ∈ b'.entries c.kind, bucketIndex lg (c.hash e.1) = i := by
    intro e he
    rcases List.mem_append.1 (h4.mem_iff.1 he) with h | h
    · obtain ⟨v, _, hv⟩ := List.mem_map.1 h
      subst hv; exact hidx
    · exact r.placed e (h3.mem_iff.2 (List.mem_append_right _ h))
  obtain ⟨p1, p2, p3, p4, p5, p6, p7⟩ := r.put b' wb hpl
  have hER : ∀ e ∈ R ++ E, e.1 ≠ k := by
    intro e he
    rcases List.mem_append.1 he with h | h
    · exact h5 e h
    · intro hk
      refine r.others e h ?_
      rw [hk]; exact hidx
  have hbef : (T.entries c).Perm (pr k o ++ (R ++ E)) := by
    rw [← List.append_assoc]
    exact r.entries.trans (h3.append_right E)
  have haft : ((T.setBucket s i b').entries c).Perm (pr k (a.res o) ++ (R ++ E)) := by
    rw [← List.append_assoc]
    exact p2.trans (h4.append_right E)
  have hRE : ((R ++ E).map (·.1)).Nodup := (nodup_pr.1 (nodup_perm hbef.symm ok.nodup)).1
  constructor
  · refine ⟨⟨p1, ?_⟩, hbef, haft, hER, ?_, p5⟩
    · refine nodup_perm haft ?_
      exact nodup_pr.2 ⟨hRE, fun _ => hER⟩
    · show (_ ++ (T.setBucket s i b').cells ++ ((T.setBucket s i b').gone ++ _)).Perm _
      rw [p4]
      have rc := r.cells
      rw [perm_iff] at *
      intro x
      have z1 := p3 x
      have z2 := rc x
      have z3 := h6 x
      simp only [cnt_append] at *
      omega
  · refine ⟨p6, wb, hpl, r.others, p2, p3, p7, r.idx, ?_⟩
    intro b'' w'' pl''
    rw [setBucket_setBucket]
    obtain ⟨q1, q2, q3, q4, q5, q6, q7⟩ := r.put b'' w'' pl''
    exact ⟨q1, q2, q3, by rw [p4], by rw [q5, p5], q6, q7⟩

/-- The cursor of an occupied entry points to `e` in a bucket that is locked for its key. -/
def Held (c : Cfg K) (T : Tbl K V) (x : Cur) (e : K × V) : Prop :=
  ∃ b E C lg, Ready c T x.side x.idx b E C lg ∧ bucketIndex lg (c.hash e.1) = x.idx ∧
    PointsTo c.kind b x.ptr e

/-- The bucket of a vacant entry is locked for its key. -/
def Free (c : Cfg K) (T : Tbl K V) (s : Side) (i : Nat) (k : K) : Prop :=
  ReadyFor c T (c.hash k) s i ∧ ∀ e ∈ T.entries c, e.1 ≠ k

theorem Held.get {T : Tbl K V} {x : Cur} {e : K × V} (h : Held c T x e) :
    getAt T x = some e ∧ e ∈ T.entries c := by
  obtain ⟨b, E, C, lg, r, _, hp⟩ := h
  unfold getAt
  rw [r.bucket]
  exact ⟨pointsTo_get hp, r.entries.mem_iff.2 (List.mem_append_left _ (PointsTo.mem r.wf hp))⟩

theorem pr_some (k : K) (v : V) : pr k (some v) = [(k, v)] := rfl

/-- The other entries of a bucket have other keys. -/
theorem bucket_other {T : Tbl K V} (ok : T.Ok c) {s : Side} {i lg : Nat} {b : Bucket K V}
    {E C : List (K × V)} (r : Ready c T s i b E C lg) {k : K} {v : V} {R : List (K × V)}
    (h : (b.entries c.kind).Perm ((k, v) :: R)) : ∀ e ∈ R, e.1 ≠ k := by
  intro e he hk
  have h1 := nodup_perm r.entries.symm ok.nodup
  rw [List.map_append] at h1
  have h2 := nodup_perm h.symm (List.nodup_append.1 h1).1
  rw [List.map_cons, List.nodup_cons] at h2
  exact h2.1 (List.mem_map.2 ⟨e, he, hk⟩)

variable [DecidableEq K]

/-- The new copy never lies where the old one is. -/
theorem insert_ptr_ne {t : Kind} {hash : K → Nat} {b : Bucket K V} (w : Wf t hash b)
    (recent : Nat → Bool) {h : Nat} {e e' : K × V} {p : Ptr} (hp : PointsTo t b p e') :
    (b.insert t recent h e).2 ≠ rebase t recent b p := by
  have key : ∀ c : Bucket K V, Wf t hash c → PointsTo t c p e' →
      (if to c.main.occ = bucketLen then c.insertOverflow h e
        else ({ c with len := c.len + 1, main := c.main.insertEntry (to c.main.occ) h e },
          ⟨0, to c.main.occ⟩)).2 ≠
        (if ((decide (to c.main.occ = bucketLen) && (findFree c.links 0).isNone) = true ∧ p.blk ≠ 0)
          then ⟨p.blk + 1, p.idx⟩ else p) := by
    intro c wc hpc
    obtain ⟨y, hy, hv, hd⟩ := hpc
    by_cases hfull : to c.main.occ = bucketLen
    · rw [if_pos hfull]
      unfold Bucket.insertOverflow
      cases hff : findFree c.links 0 with
      | some ji =>
        obtain ⟨j, i⟩ := ji
        obtain ⟨_, x, hx, hi, hne⟩ := findFree_some hff
        simp only [Nat.sub_zero] at hx
        simp only [hx]
        have hm : x ∈ c.links := List.mem_of_getElem? hx
        subst hi
        obtain ⟨_, h2⟩ := link_free (wc.blocks x (by simp [Bucket.blocks, hm])) (wc.link_cap x hm) hne
        simp only [Option.isNone_some, Bool.and_false, Bool.false_eq_true, false_and, if_false]
        intro heq
        rw [← heq] at hy hv
        have hy' : c.links[j]? = some y := by simpa [Bucket.blocks] using hy
        rw [hx] at hy'
        cases hy'
        rw [visible_occ hv] at h2
        cases h2
      | none =>
        simp only [hfull]
        by_cases hb0 : p.blk = 0
        · simp [hb0]
          intro heq
          rw [← heq] at hb0; simp at hb0
        · simp [hb0]
    · rw [if_neg hfull]
      obtain ⟨_, h2⟩ := main_free wc.main_cap hfull
      simp [hfull]
      intro heq
      rw [← heq] at hy hv
      have hy' : some c.main = some y := by simpa [Bucket.blocks] using hy
      cases hy'
      rw [visible_occ hv] at h2
      cases h2
  unfold Bucket.insert rebase pushesHead
  simp only
  by_cases hc : t = .index ∧ b.main.occ = BitVec.allOnes 32 ∧ b.main.removed ≠ 0#32
  · rw [if_pos hc]
    obtain ⟨ht, _⟩ := hc
    subst ht
    obtain ⟨w', _, hpt⟩ := clearUnreachable_ok w recent
    exact key _ w' (hpt p e' hp)
  · rw [if_neg hc]
    exact key b w hp

theorem markRemoved_pointsTo {hash : K → Nat} {b : Bucket K V} {t : Kind} {p q : Ptr} {e e' : K × V}
    (epoch : Nat) (w : Wf t hash b) (hp : PointsTo t b p e') (hq : PointsTo t b q e) (hne : q ≠ p) :
    PointsTo t (b.markRemoved p epoch) q e := by
  obtain ⟨x, hx, hv, hd⟩ := hp
  obtain ⟨y, hy, hv', hd'⟩ := hq
  have hjl : p.blk < b.blocks.length := (List.getElem?_eq_some_iff.1 hx).1
  have hb : (b.markRemoved p epoch).blocks = b.blocks.set p.blk (x.markRemoved p.idx epoch) := by
    unfold Bucket.markRemoved
    rw [hx]
    exact blocks_setBlock b p.blk _
  by_cases hblk : q.blk = p.blk
  · rw [hblk, hx] at hy
    cases hy
    have hidx : q.idx ≠ p.idx := by
      intro h
      apply hne
      cases p; cases q
      simp only at hblk h
      subst hblk; subst h; rfl
    refine ⟨x.markRemoved p.idx epoch, by rw [hb, hblk]; simp [hjl], ?_, hd'⟩
    rw [visible_iff] at hv' ⊢
    refine ⟨hv'.1, fun ht => ?_⟩
    show (x.removed ||| bit p.idx).getLsbD q.idx = false
    rw [getLsbD_set, hv'.2 ht]
    simp [hidx]
  · refine ⟨y, ?_, hv', hd'⟩
    rw [hb, List.getElem?_set_ne (by omega)]; exact hy

theorem indexUpdate_pointsTo {hash : K → Nat} {b : Bucket K V} (w : Wf .index hash b) (env : Env)
    {p : Ptr} {k : K} {v v' : V} (hp : PointsTo .index b p (k, v)) {b' : Bucket K V} {q : Ptr}
    (h : b.indexUpdate env p v' = some (b', q)) : PointsTo .index b' q (k, v') := by
  have hp' := hp
  obtain ⟨x, hx, hv, hd⟩ := hp
  have hph := (w.blocks x (List.mem_of_getElem? hx)).ph _ _ hv hd
  have hh : partialHash (x.ph p.idx) = partialHash (hash (k, v').1) := by
    rw [hph]; simp [partialHash]
  obtain ⟨w1, _, p1⟩ := insert_ok (e := (k, v')) w env.recent hh
  have pt := insert_pointsTo (e := (k, v')) (h := x.ph p.idx) w env.recent hp'
  unfold Bucket.indexUpdate at h
  rw [hx] at h
  simp only [hd] at h
  cases h
  exact markRemoved_pointsTo env.epoch w1 pt p1 (insert_ptr_ne w env.recent hp')

/-! ## The methods -/

theorem Held.readyFor {T : Tbl K V} {x : Cur} {e : K × V} (h : Held c T x e) :
    ReadyFor c T (c.hash e.1) x.side x.idx := by
  obtain ⟨b, E, C, lg, r, hi, _⟩ := h
  exact ⟨b, E, C, lg, r, hi⟩

theorem occInsert_ok (env : Env) {T : Tbl K V} (ok : T.Ok c) {x : Cur} {k : K} {v : V}
    (h : Held c T x (k, v)) (v' : V) :
    ∃ T' x' R, occInsert c env T x v' = some (T', x', v) ∧ Effect c T T' k (.put v') (some v) R ∧
      Held c T' x' (k, v') := by
  obtain ⟨b, E, C, lg, r, hi, hp⟩ := h
  unfold occInsert
  rw [r.bucket]
  simp only [pointsTo_get hp]
  by_cases ht : c.kind = .index
  · rw [if_pos ht]
    obtain ⟨b', q, h1, h2, R, h3, h4⟩ := indexUpdate_ok (v' := v') (ht ▸ r.wf) env (ht ▸ hp)
    rw [h1]
    simp only
    have h3' : (b.entries c.kind).Perm ((k, v) :: R) := by rw [ht]; exact h3
    obtain ⟨e1, e2⟩ := r.change ok hi (a := .put v') (o := some v) (R := R)
      (g := b.reclaimed .index env.recent) (by rw [ht]; exact h2) h3' (by rw [ht]; exact h4)
      (bucket_other ok r h3') (by
        rw [ht]
        show (b.reclaimed .index env.recent ++ [] ++ b'.cells).Perm ((k, v') :: b.cells)
        rw [List.append_nil]
        exact indexUpdate_cells (ht ▸ r.wf) env (ht ▸ hp) h1)
    exact ⟨_, _, _, rfl, e1, b', E, C, lg, e2, hi, by
      rw [ht]; exact indexUpdate_pointsTo (ht ▸ r.wf) env (ht ▸ hp) h1⟩
  · rw [if_neg ht]
    obtain ⟨h1, l', rr, h2, h3⟩ := setVal_ok r.wf v' hp
    obtain ⟨l2, r2, h4, h5⟩ := setVal_cells r.wf v' hp
    have hR : (b.entries c.kind).Perm ((k, v) :: (l' ++ rr)) := by rw [h2]; exact List.perm_middle
    obtain ⟨e1, e2⟩ := r.change ok hi (a := .put v') (o := some v) (R := l' ++ rr) (g := []) h1 hR
      (by rw [h3]; exact List.perm_middle) (bucket_other ok r hR) (by
        have h6 : Act.out c.kind k (Act.put v' : Act V) (some v) = [(k, v)] := by
          cases hk : c.kind <;> first | rfl | exact absurd hk ht
        rw [h6, h4, h5, perm_iff]
        intro y
        simp only [Act.inn, cnt_append, cnt_cons, cnt_nil]
        omega)
    rw [List.append_nil] at e1 e2
    exact ⟨_, _, _, rfl, e1, _, E, C, lg, e2, hi, setVal_pointsTo v' hp⟩

theorem Effect.after_keeps {T T1 T' : Tbl K V} {k : K} {a : Act V} {o : Option V} {R : List (K × V)}
    (e : Effect c T T1 k a o R) (h : Keeps c T1 T') : Effect c T T' k a o R := by
  refine ⟨h.ok, e.before, h.entries.trans e.after, e.other, ?_, h.minCap.trans e.minCap⟩
  have z1 := e.mem
  have z2 := h.mem
  rw [perm_iff] at *
  intro x
  have z1 := z1 x
  have z2 := z2 x
  simp only [cnt_append] at *
  omega

theorem occRemove_ok (env : Env) {T : Tbl K V} (ok : T.Ok c) {x : Cur} {k : K} {v : V}
    (h : Held c T x (k, v)) :
    ∃ T' R, occRemove c env T x = some (T', (k, v)) ∧ Effect c T T' k .del (some v) R := by
  obtain ⟨b, E, C, lg, r, hi, hp⟩ := h
  unfold occRemove
  rw [r.bucket]
  simp only
  by_cases ht : c.kind = .index
  · rw [if_pos ht, pointsTo_get hp]
    obtain ⟨h1, h2⟩ := markRemoved_ok (ht ▸ r.wf) env.epoch (ht ▸ hp)
    have h2' : (b.entries c.kind).Perm
        ((k, v) :: (b.markRemoved x.ptr env.epoch).entries c.kind) := by rw [ht]; exact h2
    obtain ⟨e1, e2⟩ := r.change ok hi (a := .del) (o := some v)
      (R := (b.markRemoved x.ptr env.epoch).entries c.kind) (g := []) (by rw [ht]; exact h1) h2'
      (List.Perm.refl _) (bucket_other ok r h2') (by
        rw [ht, markRemoved_cells]; exact List.Perm.refl _)
    rw [List.append_nil] at e1
    exact ⟨_, _, rfl, e1.after_keeps (shrinkIfEmpty_keeps _ e1.ok _ _)⟩
  · rw [if_neg ht]
    obtain ⟨b', p', h1, h2, h3⟩ := remove_ok r.wf hp
    rw [h1]
    simp only
    obtain ⟨e1, e2⟩ := r.change ok hi (a := .del) (o := some v) (R := b'.entries c.kind) (g := []) h2 h3
      (List.Perm.refl _) (bucket_other ok r h3) (by
        have h6 : Act.out c.kind k (Act.del : Act V) (some v) = [(k, v)] := by
          cases hk : c.kind <;> first | rfl | exact absurd hk ht
        rw [h6]
        exact (remove_cells r.wf hp h1).symm)
    rw [List.append_nil] at e1
    exact ⟨_, _, rfl, e1.after_keeps (shrinkIfEmpty_keeps _ e1.ok _ _)⟩

theorem vacInsert_ok (env : Env) {T : Tbl K V} (ok : T.Ok c) {s : Side} {i : Nat} {k : K}
    (h : Free c T s i k) (v : V) :
    ∃ T' x R, vacInsert c env T s i k v = some (T', x) ∧ Effect c T T' k (.put v) none R ∧
      Held c T' x (k, v) := by
  obtain ⟨⟨b, E, C, lg, r, hi⟩, hno⟩ := h
  unfold vacInsert
  rw [r.bucket]
  simp only
  obtain ⟨h1, h2, h3⟩ := insert_ok (h := c.hash k) (e := (k, v)) r.wf env.recent rfl
  obtain ⟨e1, e2⟩ := r.change ok hi (a := .put v) (o := none) (R := b.entries c.kind)
    (g := b.reclaimed c.kind env.recent) h1 (List.Perm.refl _) h2
    (fun e he => hno e (r.entries.mem_iff.2 (List.mem_append_left _ he))) (by
      have h6 : Act.out c.kind k (Act.put v : Act V) none = [] := by cases c.kind <;> rfl
      rw [h6, List.append_nil]
      exact insert_cells r.wf env.recent (c.hash k) (k, v))
  exact ⟨_, _, _, rfl, e1, _, E, C, lg, e2, hi, h3⟩

theorem entryOp_ok (hc : c.Ok) (env : Env) {T : Tbl K V} (ok : T.Ok c) (k : K) :
    ∃ T' en, entryOp c env T k = some (T', en) ∧ Keeps c T T' ∧
      ((∃ x v, en = .occ x ∧ Held c T' x (k, v)) ∨ ∃ s i, en = .vac s i k ∧ Free c T' s i k) := by
  obtain ⟨T1, s, i, h1, h2, h3⟩ := writer_ok hc env.recent T ok (hc k)
  obtain ⟨b, E, C, lg, r, hi⟩ := h3
  obtain ⟨g1, g2⟩ := getEntryPtr_ok r.wf k
  unfold entryOp
  rw [h1]
  simp only [r.bucket]
  by_cases hval : (b.getEntryPtr c.kind k (c.hash k)).isValid = true
  · rw [if_pos hval]
    obtain ⟨⟨k', v⟩, hp, hk⟩ := g1 hval
    simp only at hk; subst hk
    exact ⟨_, _, rfl, h2, Or.inl ⟨_, v, rfl, b, E, C, lg, r, hi, hp⟩⟩
  · rw [if_neg hval]
    refine ⟨_, _, rfl, h2, Or.inr ⟨s, i, rfl, ⟨b, E, C, lg, r, hi⟩, ?_⟩⟩
    intro e he hk
    rcases List.mem_append.1 (r.entries.mem_iff.1 he) with h | h
    · exact g2 (by simpa using hval) e h hk
    · exact r.others e h (by rw [hk]; exact hi)

theorem getOp_ok (hc : c.Ok) (env : Env) {T : Tbl K V} (ok : T.Ok c) (k : K) :
    ∃ T' r, getOp c env T k = some (T', r) ∧ Keeps c T T' ∧
      ((∃ x v, r = some x ∧ Held c T' x (k, v)) ∨ (r = none ∧ ∀ e ∈ T.entries c, e.1 ≠ k)) := by
  obtain ⟨T1, o, h1, h2, h3, h4⟩ := optWriter_ok hc env.recent T ok (hc k)
  unfold getOp
  rw [h1]
  cases o with
  | none =>
    refine ⟨_, _, rfl, h2, Or.inr ⟨rfl, ?_⟩⟩
    rw [entries_none (h3 rfl)]
    intro e h; cases h
  | some i =>
    obtain ⟨b, E, C, lg, r, hi⟩ := h4 i rfl
    obtain ⟨g1, g2⟩ := getEntryPtr_ok r.wf k
    simp only [r.bucket]
    by_cases hval : (b.getEntryPtr c.kind k (c.hash k)).isValid = true
    · rw [if_pos hval]
      obtain ⟨⟨k', v⟩, hp, hk⟩ := g1 hval
      simp only at hk; subst hk
      exact ⟨_, _, rfl, h2, Or.inl ⟨_, v, rfl, b, E, C, lg, r, hi, hp⟩⟩
    · rw [if_neg hval]
      refine ⟨_, _, rfl, h2, Or.inr ⟨rfl, ?_⟩⟩
      intro e he hk
      rcases List.mem_append.1 (r.entries.mem_iff.1 (h2.entries.mem_iff.2 he)) with h | h
      · exact g2 (by simpa using hval) e h hk
      · exact r.others e h (by rw [hk]; exact hi)

theorem andModify_ok (ht : c.kind ≠ .index) {T : Tbl K V} (ok : T.Ok c) {x : Cur} {k : K} {v : V}
    (h : Held c T x (k, v)) (f : V → V) :
    ∃ T' R, andModify T (.occ x) f = some (T', .occ x) ∧ Effect c T T' k (.put (f v)) (some v) R ∧
      Held c T' x (k, f v) := by
  obtain ⟨T', x', R, h1, h2, h3⟩ := occInsert_ok (c := c) ⟨fun _ => false, 0⟩ ok h (f v)
  obtain ⟨b, E, C, lg, r, hi, hp⟩ := h
  unfold occInsert at h1
  unfold andModify
  simp only [r.bucket, pointsTo_get hp, if_neg ht] at h1 ⊢
  cases h1
  exact ⟨_, R, rfl, h2, h3⟩

end

end Scc.Seq
