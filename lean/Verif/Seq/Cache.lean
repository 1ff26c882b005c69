import Verif.Seq.Props
import Verif.Bucket.Cache

/-!
# `HashCache` used by one thread

The table of `Verif.Seq.Model` with type `CACHE`: every bucket has an LRU list, and putting a key into
a full bucket evicts an entry.
-/

set_option linter.unusedSectionVars false
set_option linter.unusedSimpArgs false
set_option linter.unusedVariables false

namespace Scc.Seq

open Scc.Index hiding bucketLen
open Scc.Bucket

variable {K V : Type}

/-! ## Model -/

/-- The fixed part and the fields of a new `HashCache` (/repo/src/hash_cache.rs 169-200). -/
def cacheCfg (hash : K → Nat) (minCap maxCap : Nat) : Cfg K :=
  ⟨.cache, hash, (cacheWithCapacity minCap maxCap).2.2⟩

/-- The body of an operation on a key, on the locked bucket: look the key up; if it is there, count it
as used (`touch`, only for `get`) and act according to `f`; if it is not there and `f` wants to put a
value, evict if the bucket is full, insert, and count the new entry as used. Returns the value found
and the evicted pair. (/repo/src/hash_cache.rs 259-282, 373-387, 506-538, 636-652, 786-805, 1398-1411,
1446-1457, 1471-1479, 1563-1566, 1633-1635, 1757-1770.) -/
def _root_.Scc.Bucket.Bucket.cacheAct [DecidableEq K] (hash : K → Nat) (env : Env) (b : Bucket K V)
    (k : K) (touch : Bool) (f : Option V → Act V) :
    Option (Bucket K V × Option V × Option (K × V)) :=
  let p := b.getEntryPtr .cache k (hash k)
  if p.isValid then
    match b.get p with
    | none => none
    | some e =>
      let b1 := if touch then b.touch p else b
      match f (some e.2) with
      | .keep => some (b1, some e.2, none)
      | .put v => some (b1.setVal p v, some e.2, none)
      | .del => (b1.remove .cache p).map fun r => (r.1, some e.2, none)
  else
    match f none with
    | .put v =>
      match b.evictHead with
      | none => none
      | some (b1, ev) =>
        let r := b1.insert .cache env.recent (hash k) (k, v)
        some (r.1.touch r.2, none, ev)
    | _ => some (b, none, none)

/-- The operation on the locked bucket, and the attempt to shrink after a removal
(/repo/src/hash_table.rs 1506-1519). -/
def cacheAt [DecidableEq K] (c : Cfg K) (env : Env) (T : Tbl K V) (s : Side) (i : Nat) (k : K)
    (touch : Bool) (f : Option V → Act V) : Option (Tbl K V × Option V × Option (K × V)) :=
  match T.bucket s i with
  | none => none
  | some b =>
    match b.cacheAct c.hash env k touch f with
    | none => none
    | some (b', o, ev) =>
      let T1 := T.setBucket s i b'
      if Act.removes f o then some (shrinkIfEmpty c T1 s i, o, ev) else some (T1, o, ev)

/-- `put_sync`, `replace_sync`, `entry_sync` and what is done with the entry
(/repo/src/hash_cache.rs 259-282, 373-387, 506-538). -/
def cacheEntryOp [DecidableEq K] (c : Cfg K) (env : Env) (T : Tbl K V) (k : K) (f : Option V → Act V) :
    Option (Tbl K V × Option V × Option (K × V)) :=
  match writer c env.recent T (c.hash k) with
  | none => none
  | some (T1, s, i) => cacheAt c env T1 s i k false f

/-- `get_sync` and what is done with the entry (`touch` is true), `remove_if_sync` (`touch` is false)
(/repo/src/hash_cache.rs 636-652, 786-805). -/
def cacheAlterOp [DecidableEq K] (c : Cfg K) (env : Env) (T : Tbl K V) (k : K) (touch : Bool)
    (f : V → Act V) : Option (Tbl K V × Option V) :=
  match optWriter c env.recent T (c.hash k) with
  | none => none
  | some (T1, none) => some (T1, none)
  | some (T1, some i) =>
    (cacheAt c env T1 .cur i k touch (Act.onSome f)).map fun r => (r.1, r.2.1)

/-! ## The LRU lists stay well-formed -/

/-- The LRU lists of all buckets are well-formed. -/
def AllLru (T : Tbl K V) : Prop :=
  ∀ w, T.arr = some w → (∀ i, LruOk (w.cur.bkt i)) ∧ ∀ o, w.old = some o → ∀ i, LruOk (o.bkt i)

theorem empty_lruOk : LruOk (Bucket.empty : Bucket K V) := ⟨[], Lru.rep_init⟩

section
variable [DecidableEq K] {c : Cfg K} {a o : Arr K V}

theorem extractFrom_grows {t : Kind} (ht : t = .cache) {recent : Nat → Bool} {b src b' src' : Bucket K V} {h : Nat} {p : Ptr}
    (hr : extractFrom t recent b h src p = some (b', src')) :
    Grows b b' ∧ src'.lru = src.lru := by
  subst ht
  unfold extractFrom at hr
  split at hr
  · split at hr
    · cases hr
      refine ⟨insert_grows b recent h _, ?_⟩
      cases p.blk <;> rfl
    · cases hr
  · cases hr

theorem moveLoop_grows (hk : c.kind = .cache) {recent : Nat → Bool} {olg base fuel : Nat} {a a' : Arr K V}
    {src src' : Bucket K V} {p : Ptr} {hs : List Nat} {g : List (K × V)}
    (h : moveLoop c recent olg base fuel a src p hs = some (a', src', g)) :
    (∀ i, Grows (a.bkt i) (a'.bkt i)) ∧ src'.lru = src.lru := by
  induction fuel generalizing a src p hs a' src' g with
  | zero => cases h
  | succ fuel ih =>
    unfold moveLoop at h
    simp only at h
    split at h
    · split at h
      · cases h
      · split at h
        · cases h
        · rename_i e _ _ b1 src1 hx
          obtain ⟨r, h1, h2⟩ := Option.map_eq_some_iff.1 h
          obtain ⟨a2, src2, g2⟩ := r
          cases h2
          obtain ⟨i1, i2⟩ := ih h1
          obtain ⟨x1, x2⟩ := extractFrom_grows hk hx
          refine ⟨fun i => ?_, i2.trans x2⟩
          refine Grows.trans ?_ (i1 i)
          rw [set_bkt]
          by_cases hi : i = if olg ≥ a.lg then base else bucketIndex a.lg
            (if olg ≥ a.lg then phAt src (src.moveToNext c.kind p).1 else hs.headD (c.hash e.1))
          · rw [if_pos hi, hi]; exact x1
          · rw [if_neg hi]; exact Grows.refl _
    · cases h
      exact ⟨fun i => Grows.refl _, rfl⟩

/-- What relocation does to the buckets of a cache: those of the current array gain entries, the old
ones are killed or untouched. -/
structure Carried (a o a' o' : Arr K V) : Prop where
  grows : ∀ i, Grows (a.bkt i) (a'.bkt i)
  lru : ∀ i, (o'.bkt i).lru = (o.bkt i).lru
  keep : ∀ i, o'.dead i = false → o.dead i = false ∧ o'.bkt i = o.bkt i
  lg : a'.lg = a.lg
  olg : o'.lg = o.lg

theorem Carried.refl (a o : Arr K V) : Carried a o a o :=
  ⟨fun _ => Grows.refl _, fun _ => rfl, fun _ h => ⟨h, rfl⟩, rfl, rfl⟩

theorem Carried.trans {a1 o1 a2 o2 : Arr K V} (h : Carried a o a1 o1) (h' : Carried a1 o1 a2 o2) :
    Carried a o a2 o2 where
  grows i := (h.grows i).trans (h'.grows i)
  lru i := (h'.lru i).trans (h.lru i)
  keep i hi := by
    obtain ⟨h1, h2⟩ := h'.keep i hi
    obtain ⟨h3, h4⟩ := h.keep i h1
    exact ⟨h3, h2.trans h4⟩
  lg := h'.lg.trans h.lg
  olg := h'.olg.trans h.olg

theorem killBucket_lru (t : Kind) (b : Bucket K V) : (killBucket t b).1.lru = b.lru := by
  unfold killBucket; split <;> rfl

theorem kill_lru (t : Kind) (o : Arr K V) (j i : Nat) : ((o.kill t j).bkt i).lru = (o.bkt i).lru := by
  rw [kill_bkt]
  split
  · rename_i h; rw [killBucket_lru, h]
  · rfl

theorem kill_keep {t : Kind} {o : Arr K V} {j i : Nat} (h : (o.kill t j).dead i = false) :
    o.dead i = false ∧ (o.kill t j).bkt i = o.bkt i ∧ i ≠ j := by
  have h1 : (if i = j then true else o.dead i) = false := h
  split at h1
  · cases h1
  · rename_i hne
    refine ⟨h1, ?_, hne⟩
    rw [kill_bkt, if_neg hne]

theorem reserveTargets_grows (olg base : Nat) (es : List (K × V)) (a : Arr K V) (i : Nat) :
    Grows (a.bkt i) ((reserveTargets c olg base es a).bkt i) := by
  unfold reserveTargets
  simp only
  generalize List.countP _ es = n
  by_cases hn : n ≠ 0
  · rw [if_pos hn]; exact reserveSlots_grows _ _
  · rw [if_neg hn]; exact Grows.refl _

theorem relocate_carried (hk : c.kind = .cache) {recent : Nat → Bool} {a o a' o' : Arr K V} {j : Nat}
    {g : List (K × V)} (wa : ArrWf c a) (wo : OldOk c o) (hc : c.Ok) (hj : j < 2 ^ o.lg)
    (h : relocate c recent a o j = some (a', o', g)) : Carried a o a' o' := by
  obtain ⟨a2, o2, g2, h2, m⟩ := relocate_ok hc recent wa wo hj
  rw [h] at h2
  cases h2
  have fin : ∀ (src : Bucket K V), src.lru = (o.bkt j).lru → (∀ i, Grows (a.bkt i) (a'.bkt i)) →
      o' = (o.set j src).kill c.kind j → Carried a o a' o' := by
    intro src h1 h2 h3
    refine ⟨h2, ?_, ?_, m.curLg, m.oldLg⟩
    · intro i
      rw [h3, kill_lru, set_bkt]
      split
      · rename_i hi; rw [hi, h1]
      · rfl
    · intro i hi
      rw [h3] at hi ⊢
      obtain ⟨x1, x2, x3⟩ := kill_keep hi
      refine ⟨x1, ?_⟩
      rw [x2, set_bkt, if_neg x3]
  unfold relocate at h
  split at h
  · cases h; exact Carried.refl a o
  · split at h
    · cases h
      refine fin (o.bkt j) rfl (fun _ => Grows.refl _) ?_
      rw [set_self]
    · simp only at h
      split at h
      · split at h
        · cases h
        · obtain ⟨r, h1, h2⟩ := Option.map_eq_some_iff.1 h
          cases h2
          obtain ⟨x1, x2⟩ := moveLoop_grows hk h1
          exact fin r.2.1 x2 (fun i => (reserveTargets_grows _ _ _ a i).trans (x1 i)) rfl
      · obtain ⟨r, h1, h2⟩ := Option.map_eq_some_iff.1 h
        cases h2
        obtain ⟨x1, x2⟩ := moveLoop_grows hk h1
        exact fin r.2.1 x2 x1 rfl

theorem relocateRange_carried (hk : c.kind = .cache) (hc : c.Ok) {recent : Nat → Bool} {n lo : Nat}
    {a o a' o' : Arr K V} {g : List (K × V)} (wa : ArrWf c a) (wo : OldOk c o) (hn : lo + n ≤ 2 ^ o.lg)
    (h : relocateRange c recent n lo a o = some (a', o', g)) : Carried a o a' o' := by
  induction n generalizing lo a o g with
  | zero => cases h; exact Carried.refl _ _
  | succ n ih =>
    obtain ⟨a1, o1, g1, h1, m1⟩ := relocate_ok hc recent wa wo (j := lo) (by omega)
    unfold relocateRange at h
    rw [h1] at h
    simp only at h
    obtain ⟨r, h2, h3⟩ := Option.map_eq_some_iff.1 h
    cases h3
    exact (relocate_carried hk wa wo hc (by omega) h1).trans
      (ih m1.curWf m1.oldOk (by rw [m1.oldLg]; omega) h2)

/-- The same for both arrays of a table. -/
structure CarriedTwo (w w' : Two K V) : Prop where
  grows : ∀ i, Grows (w.cur.bkt i) (w'.cur.bkt i)
  lg : w'.cur.lg = w.cur.lg
  old : ∀ o', w'.old = some o' → ∃ o, w.old = some o ∧ o'.lg = o.lg ∧
    (∀ i, (o'.bkt i).lru = (o.bkt i).lru) ∧
    ∀ i, o'.dead i = false → o.dead i = false ∧ o'.bkt i = o.bkt i

theorem CarriedTwo.refl (w : Two K V) : CarriedTwo w w :=
  ⟨fun _ => Grows.refl _, rfl, fun o h => ⟨o, h, rfl, fun _ => rfl, fun _ h => ⟨h, rfl⟩⟩⟩

theorem CarriedTwo.trans {w w' w'' : Two K V} (h : CarriedTwo w w') (h' : CarriedTwo w' w'') :
    CarriedTwo w w'' where
  grows i := (h.grows i).trans (h'.grows i)
  lg := h'.lg.trans h.lg
  old o'' h1 := by
    obtain ⟨o', h2, h3, h4, h5⟩ := h'.old o'' h1
    obtain ⟨o, h6, h7, h8, h9⟩ := h.old o' h2
    refine ⟨o, h6, h3.trans h7, fun i => (h4 i).trans (h8 i), fun i hi => ?_⟩
    obtain ⟨x1, x2⟩ := h5 i hi
    obtain ⟨x3, x4⟩ := h9 i x1
    exact ⟨x3, x2.trans x4⟩

theorem incrementalRehash_carried (hk : c.kind = .cache) (hc : c.Ok) {recent : Nat → Bool} {w w' : Two K V}
    {g : List (K × V)} (ok : w.Ok c) (h : incrementalRehash c recent w = some (w', g)) :
    CarriedTwo w w' := by
  unfold incrementalRehash at h
  split at h
  · cases h; exact CarriedTwo.refl _
  · rename_i o ho
    split at h
    · cases h; exact CarriedTwo.refl _
    · split at h
      · cases h
      · rename_i a1 o1 g1 hr
        have cr := relocateRange_carried hk hc ok.cur.wf (ok.old o ho) (by omega) hr
        simp only at h
        split at h
        · cases h
          exact ⟨cr.grows, cr.lg, fun _ h => by cases h⟩
        · cases h
          exact ⟨cr.grows, cr.lg, fun _ h => by cases h; exact ⟨o, ho, cr.olg, cr.lru, cr.keep⟩⟩

theorem dedup_carried (hk : c.kind = .cache) (hc : c.Ok) {recent : Nat → Bool} {w w' : Two K V} {i : Nat}
    {g : List (K × V)} (ok : w.Ok c) (hi : i < 2 ^ w.cur.lg) (h : dedup c recent w i = some (w', g)) :
    CarriedTwo w w' := by
  unfold dedup at h
  split at h
  · cases h; exact CarriedTwo.refl _
  · rename_i o ho
    simp only at h
    obtain ⟨r, h1, h2⟩ := Option.map_eq_some_iff.1 h
    cases h2
    have hb := c05_range_bounds (a := w.cur.lg) (b := o.lg) hi
    have cr := relocateRange_carried hk hc ok.cur.wf (ok.old o ho) (by omega) h1
    exact ⟨cr.grows, cr.lg, fun _ h => by cases h; exact ⟨o, ho, cr.olg, cr.lru, cr.keep⟩⟩

theorem prepare_carried (hk : c.kind = .cache) (hc : c.Ok) {recent : Nat → Bool} {T T' : Tbl K V}
    {w : Two K V} (ok : T.Ok c) (hw : T.arr = some w) {i : Nat} (hi : i < 2 ^ w.cur.lg)
    (h : prepare c recent T i = some T') : ∃ w', T'.arr = some w' ∧ CarriedTwo w w' := by
  unfold prepare at h
  rw [hw] at h
  simp only at h
  obtain ⟨w1, g1, h1, ok1, l1, _⟩ := incrementalRehash_ok hc recent w (ok.two w hw)
  rw [h1] at h
  simp only at h
  obtain ⟨r, h2, h3⟩ := Option.map_eq_some_iff.1 h
  cases h3
  exact ⟨r.1, rfl, (incrementalRehash_carried hk hc (ok.two w hw) h1).trans
    (dedup_carried hk hc ok1 (by rw [l1]; exact hi) h2)⟩

theorem CarriedTwo.allLru {T T' : Tbl K V} {w w' : Two K V} (hw : T.arr = some w) (hw' : T'.arr = some w')
    (h : CarriedTwo w w') (l : AllLru T) : AllLru T' := by
  intro w2 h2
  rw [hw'] at h2
  cases h2
  obtain ⟨l1, l2⟩ := l w hw
  refine ⟨fun i => (h.grows i).lruOk (l1 i), ?_⟩
  intro o' ho' i
  obtain ⟨o, h3, _, h4, _⟩ := h.old o' ho'
  have := l2 o h3 i
  unfold LruOk at this ⊢
  rw [h4]; exact this

theorem tryResize_allLru {T : Tbl K V} (l : AllLru T) (i : Nat) : AllLru (tryResize c T i) := by
  unfold tryResize
  split
  · exact l
  · exact l
  · rename_i a hT
    simp only
    split
    · split
      · intro w h; cases h
      · exact l
    · split
      · intro w h
        cases h
        refine ⟨fun _ => empty_lruOk, ?_⟩
        intro o ho
        cases ho
        exact (l _ hT).1
      · exact l

theorem tryEnlarge_allLru {T : Tbl K V} (l : AllLru T) (i : Nat) : AllLru (tryEnlarge c T i) := by
  unfold tryEnlarge
  split
  · exact l
  · exact l
  · split
    · exact tryResize_allLru l i
    · exact l

theorem tryShrink_allLru {T : Tbl K V} (l : AllLru T) (i : Nat) : AllLru (tryShrink c T i) := by
  unfold tryShrink
  split
  · exact l
  · exact l
  · split
    · exact tryResize_allLru l i
    · exact l

theorem shrinkIfEmpty_allLru {T : Tbl K V} (l : AllLru T) (s : Side) (i : Nat) :
    AllLru (shrinkIfEmpty c T s i) := by
  unfold shrinkIfEmpty
  split
  · split
    · exact tryShrink_allLru l i
    · exact l
  · exact l

theorem create_allLru {T : Tbl K V} (l : AllLru T) : AllLru (create T) := by
  unfold create
  split
  · exact l
  · intro w h
    cases h
    exact ⟨fun _ => empty_lruOk, fun o h => by cases h⟩

theorem setBucket_allLru {T : Tbl K V} (l : AllLru T) (s : Side) (i : Nat) {b : Bucket K V} (h : LruOk b) :
    AllLru (T.setBucket s i b) := by
  unfold Tbl.setBucket
  split
  · rename_i w hw
    intro w' h'
    cases h'
    refine ⟨?_, (l w hw).2⟩
    intro j
    show LruOk ((w.cur.set i b).bkt j)
    rw [set_bkt]
    split
    · exact h
    · exact (l w hw).1 j
  · rename_i a o hw
    intro w' h'
    cases h'
    refine ⟨(l _ hw).1, ?_⟩
    intro o' ho' j
    cases ho'
    rw [set_bkt]
    split
    · exact h
    · exact (l _ hw).2 o rfl j
  · exact l

theorem bucket_lruOk {T : Tbl K V} (l : AllLru T) {s : Side} {i : Nat} {b : Bucket K V}
    (h : T.bucket s i = some b) : LruOk b := by
  unfold Tbl.bucket at h
  split at h
  · rename_i w hw
    split at h
    · cases h
    · cases h; exact (l w hw).1 i
  · rename_i a o hw
    split at h
    · cases h
    · cases h; exact (l _ hw).2 o rfl i
  · cases h

theorem prepare_allLru (hk : c.kind = .cache) (hc : c.Ok) {recent : Nat → Bool} {T T' : Tbl K V}
    {w : Two K V} (ok : T.Ok c) (hw : T.arr = some w) {i : Nat} (hi : i < 2 ^ w.cur.lg)
    (l : AllLru T) (h : prepare c recent T i = some T') : AllLru T' := by
  obtain ⟨w', h1, h2⟩ := prepare_carried hk hc ok hw hi h
  exact h2.allLru hw h1 l

theorem writerRound_allLru (hk : c.kind = .cache) (hc : c.Ok) {recent : Nat → Bool} {T T' : Tbl K V}
    {h : Nat} (hh : h < 2 ^ 64) (ok : T.Ok c) (l : AllLru T) {r : Option (Side × Nat)}
    (hr : writerRound c recent T h = some (T', r)) : AllLru T' := by
  unfold writerRound at hr
  obtain ⟨k0, w0, hw0⟩ := create_keeps (c := c) T ok
  rw [hw0] at hr
  simp only at hr
  have hi : bucketIndex w0.cur.lg h < 2 ^ w0.cur.lg :=
    bucketIndex_lt (by have := (k0.ok.two w0 hw0).cur.wf.lg_le; omega) hh
  obtain ⟨T1, w1, h1, hw1, _⟩ := prepare_ok hc recent (create T) k0.ok hw0 hi
  have l1 := prepare_allLru hk hc k0.ok hw0 hi (create_allLru l) h1
  rw [h1] at hr
  simp only [hw1] at hr
  split at hr
  · split at hr
    · cases hr; exact tryEnlarge_allLru l1 _
    · split at hr
      · cases hr; exact tryEnlarge_allLru l1 _
      · cases hr; exact tryEnlarge_allLru l1 _
  · cases hr; exact l1

theorem writer_allLru (hk : c.kind = .cache) (hc : c.Ok) {recent : Nat → Bool} {T T' : Tbl K V}
    {h : Nat} (hh : h < 2 ^ 64) (ok : T.Ok c) (l : AllLru T) {s : Side} {i : Nat}
    (hr : writer c recent T h = some (T', s, i)) : AllLru T' := by
  obtain ⟨T1, s1, i1, h1, _⟩ := writerRound_ok hc recent T ok hh
  unfold writer at hr
  rw [h1] at hr
  cases hr
  exact writerRound_allLru hk hc hh ok l h1

theorem optWriter_allLru (hk : c.kind = .cache) (hc : c.Ok) {recent : Nat → Bool} {T T' : Tbl K V}
    {h : Nat} (hh : h < 2 ^ 64) (ok : T.Ok c) (l : AllLru T) {r : Option Nat}
    (hr : optWriter c recent T h = some (T', r)) : AllLru T' := by
  unfold optWriter at hr
  split at hr
  · cases hr; exact l
  · rename_i w hw
    simp only at hr
    obtain ⟨T1, h1, h2⟩ := Option.map_eq_some_iff.1 hr
    cases h2
    exact prepare_allLru hk hc ok hw
      (bucketIndex_lt (by have := (ok.two w hw).cur.wf.lg_le; omega) hh) l h1

/-! ## One operation on a bucket -/

theorem cacheAct_ok {hash : K → Nat} {b : Bucket K V} (w : Wf .cache hash b)
    (nd : ((b.entries .cache).map (·.1)).Nodup) (l : LruOk b) (env : Env) (k : K) (touch : Bool)
    (f : Option V → Act V) :
    ∃ b' o ev R, b.cacheAct hash env k touch f = some (b', o, ev) ∧ Wf .cache hash b' ∧ LruOk b' ∧
      (b.entries .cache).Perm (pr k o ++ (ev.toList ++ R)) ∧
      (b'.entries .cache).Perm (pr k ((f o).res o) ++ R) ∧
      (∀ e ∈ ev.toList ++ R, e.1 ≠ k) ∧
      (ev ≠ none → o = none ∧ ∃ v, f none = .put v) := by
  obtain ⟨g1, g2⟩ := getEntryPtr_ok w k
  unfold Bucket.cacheAct
  simp only
  by_cases hval : (b.getEntryPtr .cache k (hash k)).isValid = true
  · rw [if_pos hval]
    obtain ⟨⟨k', v⟩, hpt, hk⟩ := g1 hval
    simp only at hk; subst hk
    rw [pointsTo_get hpt]
    simp only
    have hidx : (b.getEntryPtr .cache k' (hash k')).idx < 32 := by
      obtain ⟨x, hx, hv, _⟩ := hpt
      have hm := w.blocks x (List.mem_of_getElem? hx)
      have := hm.hi _ (visible_occ hv)
      have := hm.cap_le
      omega
    generalize b.getEntryPtr .cache k' (hash k') = p at *
    generalize hb1 : (if touch = true then b.touch p else b) = b1
    have e1 : b1.entries .cache = b.entries .cache := by
      rw [← hb1]; split
      · exact touch_entries _ _ _
      · rfl
    have w1 : Wf .cache hash b1 := by
      rw [← hb1]; split
      · exact touch_wf w _
      · exact w
    have l1 : LruOk b1 := by
      rw [← hb1]; split
      · exact touch_lruOk l hidx
      · exact l
    have hpt1 : PointsTo .cache b1 p (k', v) := by
      rw [← hb1]; split
      · exact touch_pointsTo hpt
      · exact hpt
    have nd1 : ((b1.entries .cache).map (·.1)).Nodup := by rw [e1]; exact nd
    rw [← e1]
    have hne : ∀ R, (b1.entries .cache).Perm ((k', v) :: R) → ∀ e ∈ R, e.1 ≠ k' := by
      intro R hR e he h
      have := nodup_perm hR.symm nd1
      rw [List.map_cons, List.nodup_cons] at this
      exact this.1 (List.mem_map.2 ⟨e, he, h⟩)
    cases hf : f (some v) with
    | keep =>
      obtain ⟨l', r, hlr⟩ := List.append_of_mem (PointsTo.mem w1 hpt1)
      have hR : (b1.entries .cache).Perm ((k', v) :: (l' ++ r)) := by rw [hlr]; exact List.perm_middle
      exact ⟨b1, some v, none, l' ++ r, rfl, w1, l1, hR, by rw [hf]; exact hR, hne _ hR,
        fun h => absurd rfl h⟩
    | put v' =>
      obtain ⟨h1, l', rr, h2, h3⟩ := setVal_ok w1 v' hpt1
      have hR : (b1.entries .cache).Perm ((k', v) :: (l' ++ rr)) := by rw [h2]; exact List.perm_middle
      exact ⟨b1.setVal p v', some v, none, l' ++ rr, rfl, h1, setVal_lruOk l1 _ _, hR,
        by rw [hf, h3]; exact List.perm_middle, hne _ hR, fun h => absurd rfl h⟩
    | del =>
      obtain ⟨b', p', h1, h2, h3⟩ := remove_ok w1 hpt1
      simp only [h1]
      exact ⟨b', some v, none, _, rfl, h2, remove_lruOk l1 h1, h3,
        by rw [hf]; exact List.Perm.refl _, hne _ h3, fun h => absurd rfl h⟩
  · rw [if_neg hval]
    have hno : ∀ e ∈ b.entries .cache, e.1 ≠ k := g2 (by simpa using hval)
    cases hf : f none with
    | put v =>
      obtain ⟨b1, ev, x1, x2, x3, x4, x5, x6, x7⟩ := evictHead_ok w l
      simp only [x1]
      obtain ⟨h1, h2, h3⟩ := insert_ok (h := hash k) (e := (k, v)) x2 env.recent rfl
      refine ⟨_, none, ev, b1.entries .cache, rfl, touch_wf h1 _, ?_, x4, ?_, ?_, fun _ => ⟨rfl, v, rfl⟩⟩
      · apply touch_lruOk ((insert_grows b1 env.recent _ _).lruOk x3)
        obtain ⟨x, hx, hv, _⟩ := h3
        have hm := h1.blocks x (List.mem_of_getElem? hx)
        have := hm.hi _ (visible_occ hv)
        have := hm.cap_le
        omega
      · rw [touch_entries, hf]; exact h2
      · intro e he
        exact hno e (x4.mem_iff.2 he)
    | keep =>
      exact ⟨b, none, none, b.entries .cache, rfl, w, l, List.Perm.refl _, by rw [hf]; exact List.Perm.refl _,
        hno, fun h => absurd rfl h⟩
    | del =>
      exact ⟨b, none, none, b.entries .cache, rfl, w, l, List.Perm.refl _, by rw [hf]; exact List.Perm.refl _,
        hno, fun h => absurd rfl h⟩

/-! ## One operation on the container -/

/-- The effect of an operation on a key: `o` is the value found, `ev` the evicted pair, `R` the entries
under other keys that stay. -/
structure CacheEffect (c : Cfg K) (T T' : Tbl K V) (k : K) (f : Option V → Act V) (o : Option V)
    (ev : Option (K × V)) (R : List (K × V)) : Prop where
  ok : T'.Ok c
  lru : AllLru T'
  before : (T.entries c).Perm (pr k o ++ (ev.toList ++ R))
  after : (T'.entries c).Perm (pr k ((f o).res o) ++ R)
  other : ∀ e ∈ ev.toList ++ R, e.1 ≠ k
  evicts : ev ≠ none → o = none ∧ ∃ v, f none = .put v
  gone : T'.gone.Perm T.gone
  minCap : T'.minCap = T.minCap

/-- A step that keeps the contents of a cache drops nothing. -/
theorem Keeps.gone_cache (hk : c.kind = .cache) {T T' : Tbl K V} (ok : T.Ok c) (h : Keeps c T T') :
    T'.gone.Perm T.gone := by
  have ht : c.kind ≠ .index := by rw [hk]; intro h; cases h
  have z0 := h.mem
  rw [tbl_cells_of_kind ht h.ok, tbl_cells_of_kind ht ok] at z0
  have z1 := h.entries
  rw [perm_iff] at *
  intro x
  have z0 := z0 x
  have z1 := z1 x
  simp only [cnt_append] at *
  omega

theorem cacheAt_ok (hk : c.kind = .cache) (T : Tbl K V) (ok : T.Ok c) (l : AllLru T) (env : Env)
    {s : Side} {i : Nat} {k : K} (hr : ReadyFor c T (c.hash k) s i) (touch : Bool)
    (f : Option V → Act V) :
    ∃ T' o ev R, cacheAt c env T s i k touch f = some (T', o, ev) ∧ CacheEffect c T T' k f o ev R := by
  obtain ⟨b, E, C, lg, r, hidx⟩ := hr
  have hnd : ((b.entries c.kind).map (·.1)).Nodup := by
    have := nodup_perm r.entries.symm ok.nodup
    rw [List.map_append] at this
    exact (List.nodup_append.1 this).1
  have rw' := r.wf
  have rpl := r.placed
  have rent := r.entries
  rw [hk] at hnd rw' rpl rent
  obtain ⟨b', o, ev, R, h1, h2, hl, h3, h4, h5, h6⟩ := cacheAct_ok rw' hnd (bucket_lruOk l r.bucket) env k
    touch f
  have hpl : ∀ e ∈ b'.entries c.kind, bucketIndex lg (c.hash e.1) = i := by
    rw [hk]
    intro e he
    rcases List.mem_append.1 (h4.mem_iff.1 he) with h | h
    · obtain ⟨v, _, hv⟩ := List.mem_map.1 h
      subst hv; exact hidx
    · exact rpl e (h3.mem_iff.2 (List.mem_append_right _ (List.mem_append_right _ h)))
  obtain ⟨p1, p2, p3, p4, p5, p6, p7⟩ := r.put b' (hk ▸ h2) hpl
  rw [hk] at p2
  have hER : ∀ e ∈ ev.toList ++ (R ++ E), e.1 ≠ k := by
    intro e he
    rw [← List.append_assoc] at he
    rcases List.mem_append.1 he with h | h
    · exact h5 e h
    · intro hk'
      refine r.others e h ?_
      rw [hk']; exact hidx
  have hbef : (T.entries c).Perm (pr k o ++ (ev.toList ++ (R ++ E))) := by
    have := rent.trans (h3.append_right E)
    simpa [List.append_assoc] using this
  have haft : ((T.setBucket s i b').entries c).Perm (pr k ((f o).res o) ++ (R ++ E)) := by
    rw [← List.append_assoc]
    exact p2.trans (h4.append_right E)
  have hRE : ((R ++ E).map (·.1)).Nodup := by
    have := (nodup_pr.1 (nodup_perm hbef.symm ok.nodup)).1
    rw [List.map_append, List.nodup_append] at this
    exact this.2.1
  have ok1 : (T.setBucket s i b').Ok c :=
    ⟨p1, nodup_perm haft (nodup_pr.2 ⟨hRE, fun _ e he => hER e (List.mem_append_right _ he)⟩)⟩
  have l1 := setBucket_allLru l s i hl
  unfold cacheAt
  rw [r.bucket]
  simp only [h1]
  by_cases hd : Act.removes f o = true
  · rw [if_pos hd]
    have hkp := shrinkIfEmpty_keeps (c := c) _ ok1 s i
    refine ⟨_, o, ev, R ++ E, rfl, hkp.ok, shrinkIfEmpty_allLru l1 s i, hbef, hkp.entries.trans haft, hER,
      h6, ?_, hkp.minCap.trans p5⟩
    rw [← p4]
    exact hkp.gone_cache hk ok1
  · rw [if_neg hd]
    exact ⟨_, o, ev, R ++ E, rfl, ok1, l1, hbef, haft, hER, h6, by rw [p4], p5⟩

theorem CacheEffect.of_keeps (hk : c.kind = .cache) {T0 T T' : Tbl K V} {k : K} {f : Option V → Act V}
    {o : Option V} {ev : Option (K × V)} {R : List (K × V)} (ok : T0.Ok c) (h : Keeps c T0 T)
    (e : CacheEffect c T T' k f o ev R) : CacheEffect c T0 T' k f o ev R :=
  ⟨e.ok, e.lru, h.entries.symm.trans e.before, e.after, e.other, e.evicts,
    e.gone.trans (h.gone_cache hk ok), e.minCap.trans h.minCap⟩

theorem cacheEntryOp_ok (hk : c.kind = .cache) (hc : c.Ok) (T : Tbl K V) (ok : T.Ok c) (l : AllLru T)
    (env : Env) (k : K) (f : Option V → Act V) :
    ∃ T' o ev R, cacheEntryOp c env T k f = some (T', o, ev) ∧ CacheEffect c T T' k f o ev R := by
  obtain ⟨T1, s, i, h1, h2, h3⟩ := writer_ok hc env.recent T ok (hc k)
  have l1 := writer_allLru hk hc (hc k) ok l h1
  obtain ⟨T', o, ev, R, h4, h5⟩ := cacheAt_ok hk T1 h2.ok l1 env h3 false f
  exact ⟨T', o, ev, R, by unfold cacheEntryOp; rw [h1]; exact h4, h5.of_keeps hk ok h2⟩

theorem cacheAlterOp_ok (hk : c.kind = .cache) (hc : c.Ok) (T : Tbl K V) (ok : T.Ok c) (l : AllLru T)
    (env : Env) (k : K) (touch : Bool) (f : V → Act V) :
    ∃ T' o R, cacheAlterOp c env T k touch f = some (T', o) ∧
      CacheEffect c T T' k (Act.onSome f) o none R := by
  obtain ⟨T1, r, h1, h2, h3, h4⟩ := optWriter_ok hc env.recent T ok (hc k)
  have l1 := optWriter_allLru hk hc (hc k) ok l h1
  unfold cacheAlterOp
  rw [h1]
  cases r with
  | none =>
    have he := entries_none (c := c) (h3 rfl)
    have he1 := h2.entries
    rw [he] at he1
    refine ⟨T1, none, [], rfl, h2.ok, l1, ?_, ?_, (fun e h => by cases h), (fun h => absurd rfl h),
      h2.gone_cache hk ok, h2.minCap⟩
    · rw [he]; exact List.Perm.refl _
    · exact he1
  | some i =>
    obtain ⟨T', o, ev, R, h5, h6⟩ := cacheAt_ok hk T1 h2.ok l1 env (h4 i rfl) touch (Act.onSome f)
    have hev : ev = none := by
      cases ev with
      | none => rfl
      | some e =>
        obtain ⟨_, v, hv⟩ := h6.evicts (by simp)
        cases hv
    subst hev
    simp only [h5]
    exact ⟨T', o, R, rfl, h6.of_keeps hk ok h2⟩

end

end Scc.Seq
