import Verif.Bucket.Spec
import Verif.Bucket.Cursor

/-!
# Operations of a thread that holds the bucket lock

The bodies of the point operations and of the retain loop once the bucket is locked
(/repo/src/hash_map.rs 564-575, 614-622, 672-687, 926-944, 1261-1281, 1338-1346;
/repo/src/hash_index.rs 543-553, 659-676, 989-1003, 1887-1899).
-/

namespace Scc.Bucket

variable {K V : Type}

/-- What the epoch scheme decides during one operation: the epoch byte written by `mark_removed`, and
which epoch bytes count as recent. -/
structure Env where
  recent : Nat → Bool
  epoch : Nat

/-- Whether `insert` pushes a new link at the head of the chain: existing links then move one position
away from the head. -/
def pushesHead (t : Kind) (recent : Nat → Bool) (b : Bucket K V) : Bool :=
  let b' :=
    if t = .index ∧ b.main.occ = BitVec.allOnes 32 ∧ b.main.removed ≠ 0#32 then
      b.clearUnreachable recent
    else b
  decide (to b'.main.occ = bucketLen) && (findFree b'.links 0).isNone

/-- The position of the block a pointer refers to after `insert`. -/
def rebase (t : Kind) (recent : Nat → Bool) (b : Bucket K V) (p : Ptr) : Ptr :=
  if pushesHead t recent b ∧ p.blk ≠ 0 then ⟨p.blk + 1, p.idx⟩ else p

/-- `OccupiedEntry::update` of `HashIndex` (/repo/src/hash_index.rs 1887-1899): insert a new copy
under the stored partial hash, then mark the old copy removed; the entry now refers to the new
copy. -/
def Bucket.indexUpdate (env : Env) (b : Bucket K V) (p : Ptr) (v : V) : Option (Bucket K V × Ptr) :=
  match b.blocks[p.blk]? with
  | some x =>
    match x.data p.idx with
    | some e =>
      let (b1, q) := b.insert .index env.recent (x.ph p.idx) (e.1, v)
      some (b1.markRemoved (rebase .index env.recent b p) env.epoch, q)
    | none => none
  | none => none

/-- A point operation on a locked bucket: look the key up, then overwrite, remove or insert according
to `f` applied to the old value. The old value is returned. `none` models undefined behaviour. -/
def Bucket.modify [DecidableEq K] (t : Kind) (hash : K → Nat) (env : Env) (b : Bucket K V) (k : K)
    (f : Option V → Option V) : Option (Bucket K V × Option V) :=
  let p := b.getEntryPtr t k (hash k)
  if p.isValid then
    match b.get p with
    | none => none
    | some e =>
      match f (some e.2) with
      | some v =>
        match t with
        | .index => (b.indexUpdate env p v).map fun r => (r.1, some e.2)
        | _ => some (b.setVal p v, some e.2)
      | none =>
        match t with
        | .index => some (b.markRemoved p env.epoch, some e.2)
        | _ => (b.remove t p).map fun r => (r.1, some e.2)
  else
    match f none with
    | some v => some ((b.insert t env.recent (hash k) (k, v)).1, none)
    | none => some (b, none)

/-- One operation on a locked bucket. -/
def Bucket.step [DecidableEq K] (t : Kind) (hash : K → Nat) (env : Env) (b : Bucket K V) :
    Spec.Op K V → Option (Bucket K V × Option V)
  | .read k => some (b, (b.searchEntry t k (hash k)).map (·.2))
  | .modify k f => b.modify t hash env k f

/-- A run of operations; every operation meets its own epoch environment. -/
def Bucket.run [DecidableEq K] (t : Kind) (hash : K → Nat) (b : Bucket K V) :
    List (Env × Spec.Op K V) → Option (Bucket K V × List (Option V))
  | [] => some (b, [])
  | (env, op) :: ops =>
    match b.step t hash env op with
    | none => none
    | some (b', r) =>
      match b'.run t hash ops with
      | none => none
      | some (b'', rs) => some (b'', r :: rs)

/-- The loop of `iter_mut_sync`/`retain_sync` over one bucket (/repo/src/hash_map.rs 1264-1278,
1338-1346; /repo/src/hash_index.rs 992-1000): the closure sees every entry, may write the value (not
for `INDEX`) and decides whether to keep it. `s` is the state of the closure. Returns the bucket, the
closure state and the entries visited; `none` models undefined behaviour or too little fuel. -/
def Bucket.retain {σ : Type} (t : Kind) (env : Env) (f : σ → K × V → σ × V × Bool) :
    Nat → Bucket K V → Ptr → σ → Option (Bucket K V × σ × List (K × V))
  | 0, _, _, _ => none
  | fuel + 1, b, p, s =>
    let (q, found) := b.moveToNext t p
    if found then
      match b.get q with
      | none => none
      | some e =>
        let (s', v, keep) := f s e
        let b1 := if t = .index then b else b.setVal q v
        if keep then (retain t env f fuel b1 q s').map fun r => (r.1, r.2.1, e :: r.2.2)
        else if t = .index then
          (retain t env f fuel (b1.markRemoved q env.epoch) q s').map fun r =>
            (r.1, r.2.1, e :: r.2.2)
        else
          match b1.remove t q with
          | none => none
          | some (b2, _, q') =>
            (retain t env f fuel b2 q' s').map fun r => (r.1, r.2.1, e :: r.2.2)
    else some (b, s, [])

end Scc.Bucket
