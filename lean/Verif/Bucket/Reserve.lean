import Verif.Bucket.Proof

/-!
# Reserving slots before entries are moved (C57)

`relocate_bucket` counts the entries each target bucket is to get, calls `reserve_slots` for each target, and then
moves the entries, "it is infallible" (/repo/src/hash_table.rs 1009-1087). Moving an entry is
`extract_from`, which inserts it into the target (`extractFrom` in `Verif/Bucket/Model.lean`).
-/

namespace Scc.Bucket

variable {K V : Type} {t : Kind} {hash : K → Nat} {b : Bucket K V}

/-! ## What is to be shown -/

/-- The next insertion allocates a linked bucket (/repo/src/hash_table/bucket.rs 150-160, 417-419): the data
block is full, in a `HashIndex` after unreachable entries were dropped, and so is every linked bucket. -/
def Bucket.allocates (t : Kind) (recent : Nat → Bool) (b : Bucket K V) : Prop :=
  let b' :=
    if t = .index ∧ b.main.occ = BitVec.allOnes 32 ∧ b.main.removed ≠ 0#32 then b.clearUnreachable recent else b
  to b'.main.occ = bucketLen ∧ ∀ x ∈ b'.links, to x.occ = linkedBucketLen

instance (recent : Nat → Bool) (b : Bucket K V) : Decidable (b.allocates t recent) := by
  unfold Bucket.allocates; exact inferInstance

/-- Entries with their hashes are inserted one after the other. -/
def Bucket.insertAll (t : Kind) (recent : Nat → Bool) (b : Bucket K V) : List (Nat × (K × V)) → Bucket K V
  | [] => b
  | e :: es => Bucket.insertAll t recent (b.insert t recent e.1 e.2).1 es

/-- None of the insertions allocates. -/
def Bucket.Quiet (t : Kind) (recent : Nat → Bool) (b : Bucket K V) : List (Nat × (K × V)) → Prop
  | [] => True
  | e :: es => ¬ b.allocates t recent ∧ Bucket.Quiet t recent (b.insert t recent e.1 e.2).1 es

def Bucket.decQuiet (t : Kind) (recent : Nat → Bool) : (b : Bucket K V) → (es : List (Nat × (K × V))) →
    Decidable (b.Quiet t recent es)
  | _, [] => .isTrue trivial
  | b, e :: es =>
    have := Bucket.decQuiet t recent (b.insert t recent e.1 e.2).1 es
    (inferInstance : Decidable (¬ b.allocates t recent ∧ Bucket.Quiet t recent (b.insert t recent e.1 e.2).1 es))

instance (recent : Nat → Bool) (b : Bucket K V) (es : List (Nat × (K × V))) : Decidable (b.Quiet t recent es) :=
  Bucket.decQuiet t recent b es

/-- An insertion that allocates makes the chain longer by one, and one that does not leaves it as long as it is
(in a `HashIndex`, after unreachable entries were dropped). -/
theorem allocates_links (recent : Nat → Bool) (b : Bucket K V) (h : Nat) (e : K × V)
    (hr : t ≠ .index ∨ b.main.removed = 0#32) :
    (b.insert t recent h e).1.links.length = b.links.length + if b.allocates t recent then 1 else 0 := by
  have hc : ¬ (t = .index ∧ b.main.occ = BitVec.allOnes 32 ∧ b.main.removed ≠ 0#32) := by
    rintro ⟨h1, _, h2⟩
    rcases hr with hr | hr
    · exact hr h1
    · exact h2 hr
  unfold Bucket.insert Bucket.allocates
  simp only [if_neg hc]
  have hff : ∀ (l : List (Block K V)) (j : Nat), findFree l j = none ↔ ∀ x ∈ l, to x.occ = linkedBucketLen := by
    intro l
    induction l with
    | nil => intro j; simp [findFree]
    | cons x xs ih =>
      intro j
      unfold findFree
      by_cases hx : to x.occ = linkedBucketLen
      · simp [hx, ih]
      · simp [hx]
  by_cases hm : to b.main.occ = bucketLen
  · rw [if_pos hm]
    unfold Bucket.insertOverflow
    cases hf : findFree b.links 0 with
    | none =>
      have := (hff b.links 0).1 hf
      rw [if_pos ⟨hm, this⟩]
      simp
    | some ji =>
      have hn : ¬ ∀ x ∈ b.links, to x.occ = linkedBucketLen := by
        intro h
        rw [(hff b.links 0).2 h] at hf
        cases hf
      rw [if_neg (fun h => hn h.2)]
      obtain ⟨j, i⟩ := ji
      obtain ⟨_, x, hx, _, _⟩ := findFree_some hf
      simp only [Nat.sub_zero] at hx
      simp [hx]
  · rw [if_neg hm, if_neg (fun h => hm h.1)]
    simp

/-! ## Counting -/

theorem ones_lt_set (w : Word) {i : Nat} (hi : i < 32) (h : w.getLsbD i = false) (n : Nat) :
    (List.range n).countP (fun j => (w ||| bit i).getLsbD j) =
      (List.range n).countP (fun j => w.getLsbD j) + if i < n then 1 else 0 := by
  induction n with
  | zero => simp
  | succ n ih =>
    rw [List.range_succ, List.countP_append, List.countP_append, ih]
    simp only [List.countP_singleton, getLsbD_set]
    by_cases hn : n = i
    · subst hn; rw [h]; simp [hi]
    · by_cases hl : i < n
      · simp [hn, hl, Nat.lt_succ_of_lt hl]; omega
      · have : ¬ i < n + 1 := by omega
        simp [hn, hl, this]

theorem ones_set {w : Word} {i : Nat} (hi : i < 32) (h : w.getLsbD i = false) : ones (w ||| bit i) = ones w + 1 := by
  unfold ones
  rw [ones_lt_set w hi h 32, if_pos hi]

theorem ones_le {w : Word} {c : Nat} (h : ∀ i, w.getLsbD i = true → i < c) : ones w ≤ c := by
  have : ∀ n, (List.range n).countP (fun j => w.getLsbD j) ≤ min n c := by
    intro n
    induction n with
    | zero => simp
    | succ n ih =>
      rw [List.range_succ, List.countP_append, List.countP_singleton]
      by_cases hn : w.getLsbD n = true
      · have := h n hn
        rw [if_pos hn]; omega
      · rw [if_neg hn]; omega
  have := this 32
  unfold ones; omega

theorem ones_ge {w : Word} {c : Nat} (hc : c ≤ 32) (h : ∀ i, i < c → w.getLsbD i = true) : c ≤ ones w := by
  have : ∀ n, min n c ≤ (List.range n).countP (fun j => w.getLsbD j) := by
    intro n
    induction n with
    | zero => simp
    | succ n ih =>
      rw [List.range_succ, List.countP_append, List.countP_singleton]
      by_cases hn : n < c
      · rw [if_pos (h n hn)]; omega
      · omega
  have := this 32
  unfold ones; omega

/-- Free slots of a chain of linked buckets. -/
def chainRoom : List (Block K V) → Nat
  | [] => 0
  | x :: xs => (linkedBucketLen - ones x.occ) + chainRoom xs

/-- Free slots of the bucket. -/
def Bucket.room (b : Bucket K V) : Nat := (bucketLen - ones b.main.occ) + chainRoom b.links

theorem chain_full {l : List (Block K V)} (h : ∀ x ∈ l, to x.occ = linkedBucketLen) : chainRoom l = 0 := by
  induction l with
  | nil => rfl
  | cons x xs ih =>
    have hx : to x.occ = linkedBucketLen := h x (by simp)
    have h8 : linkedBucketLen = 8 := rfl
    have := ones_ge (w := x.occ) (c := 8) (by omega) (fun i hi => (to_lt (by omega)).2 i (by omega))
    unfold chainRoom
    rw [ih fun y hy => h y (by simp [hy])]
    omega

theorem chain_set {l : List (Block K V)} {j : Nat} {x y : Block K V} (h : l[j]? = some x)
    (ho : ones y.occ = ones x.occ + 1) (hy : ones y.occ ≤ linkedBucketLen) :
    chainRoom (l.set j y) + 1 = chainRoom l := by
  induction l generalizing j with
  | nil => simp at h
  | cons z zs ih =>
    cases j with
    | zero =>
      simp at h; subst h
      simp only [List.set_cons_zero, chainRoom]; omega
    | succ j =>
      have := ih (j := j) (by simpa using h)
      simp only [List.set_cons_succ, chainRoom]; omega

/-- An insertion that does not allocate takes one free slot. -/
theorem room_insert (w : Wf t hash b) (recent : Nat → Bool) (h : Nat) (e : K × V)
    (hr : t ≠ .index ∨ b.main.removed = 0#32) (hn : 0 < b.room) :
    ¬ b.allocates t recent ∧ (b.insert t recent h e).1.room + 1 = b.room := by
  have hc : ¬ (t = .index ∧ b.main.occ = BitVec.allOnes 32 ∧ b.main.removed ≠ 0#32) := by
    rintro ⟨h1, _, h2⟩
    rcases hr with hr | hr
    · exact hr h1
    · exact h2 hr
  have h32 : bucketLen = 32 := rfl
  constructor
  · unfold Bucket.allocates
    simp only [if_neg hc]
    rintro ⟨h1, h2⟩
    unfold Bucket.room at hn
    rw [chain_full h2] at hn
    have := ones_ge (w := b.main.occ) (c := 32) (by omega) (fun i hi => to_eq_32 (by omega) hi)
    omega
  · unfold Bucket.insert
    simp only [if_neg hc]
    by_cases hm : to b.main.occ = bucketLen
    · rw [if_pos hm]
      have hfull : ones b.main.occ ≥ 32 := ones_ge (by omega) (fun i hi => to_eq_32 (by omega) hi)
      unfold Bucket.insertOverflow
      cases hff : findFree b.links 0 with
      | some ji =>
        obtain ⟨j, i⟩ := ji
        obtain ⟨_, x, hx, hi, hne⟩ := findFree_some hff
        simp only [Nat.sub_zero] at hx
        simp only [hx]
        have hmem : x ∈ b.links := List.mem_of_getElem? hx
        have hbw := w.blocks x (by simp [Bucket.blocks, hmem])
        have hcap := w.link_cap x hmem
        subst hi
        obtain ⟨h1, h2⟩ := link_free hbw hcap hne
        have h8 : linkedBucketLen = 8 := rfl
        have ho : ones (x.insertEntry (to x.occ) h e).occ = ones x.occ + 1 := ones_set (by omega) h2
        have hy : ones (x.insertEntry (to x.occ) h e).occ ≤ linkedBucketLen := by
          apply ones_le
          intro k hk
          simp only [Block.insertEntry, getLsbD_set, Bool.or_eq_true, Bool.and_eq_true, decide_eq_true_eq] at hk
          rcases hk with hk | hk
          · rw [← hcap]; exact hbw.hi k hk
          · omega
        have := chain_set hx ho hy
        unfold Bucket.room
        simp only
        omega
      | none =>
        exfalso
        have : ∀ x ∈ b.links, to x.occ = linkedBucketLen := by
          have key : ∀ (l : List (Block K V)) (j : Nat), findFree l j = none → ∀ x ∈ l, to x.occ = linkedBucketLen := by
            intro l
            induction l with
            | nil => intro _ _ x hx; cases hx
            | cons y ys ih =>
              intro j hj x hx
              unfold findFree at hj
              split at hj
              · cases hj
              · rename_i hy
                rcases List.mem_cons.1 hx with rfl | hx
                · exact Classical.not_not.1 hy
                · exact ih _ hj x hx
          exact key _ _ hff
        unfold Bucket.room at hn
        rw [chain_full this] at hn
        omega
    · rw [if_neg hm]
      have hcap := w.main_cap
      obtain ⟨h1, h2⟩ := main_free hcap hm
      have ho : ones (b.main.insertEntry (to b.main.occ) h e).occ = ones b.main.occ + 1 := ones_set (by omega) h2
      have hy : ones (b.main.insertEntry (to b.main.occ) h e).occ ≤ 32 := by
        apply ones_le
        intro k hk
        exact BitVec.lt_of_getLsbD hk
      unfold Bucket.room
      simp only
      omega

theorem reserveLinks_room (additional fuel cap : Nat) (l : List (Block K V))
    (hl : l ≠ []) (h : additional ≤ cap + chainRoom l + 8 * (fuel - l.length)) :
    additional ≤ cap + chainRoom (reserveLinks additional fuel cap l) := by
  induction fuel generalizing cap l with
  | zero => unfold reserveLinks; simpa using h
  | succ fuel ih =>
    cases l with
    | nil => exact absurd rfl hl
    | cons x xs =>
      unfold reserveLinks
      simp only
      split
      · simp only [chainRoom]; omega
      · rename_i hlt
        cases xs with
        | nil =>
          simp only
          have he : chainRoom [(Block.empty linkedBucketLen : Block K V)] = 8 := by
            show (8 - ones 0) + 0 = 8
            decide
          have := ih (cap + (linkedBucketLen - ones x.occ)) [Block.empty linkedBucketLen] (by simp) (by
            rw [he]
            simp only [chainRoom, List.length_cons, List.length_nil] at h ⊢
            omega)
          simp only [chainRoom] at this ⊢
          omega
        | cons y ys =>
          simp only
          have := ih (cap + (linkedBucketLen - ones x.occ)) (y :: ys) (by simp) (by
            simp only [chainRoom, List.length_cons] at h ⊢
            omega)
          simp only [chainRoom] at this h ⊢
          omega

theorem reserveSlots_room (b : Bucket K V) (n : Nat) (h : b.links ≠ [] ∨ n ≤ bucketLen - ones b.main.occ) :
    n ≤ (b.reserveSlots n).room := by
  unfold Bucket.reserveSlots Bucket.room
  simp only
  split
  · rename_i hlt
    have hl : b.links ≠ [] := by
      rcases h with h | h
      · exact h
      · omega
    exact reserveLinks_room n _ _ b.links hl (by omega)
  · omega

theorem reserveSlots_main (b : Bucket K V) (n : Nat) : (b.reserveSlots n).main = b.main := by
  unfold Bucket.reserveSlots
  simp only
  split <;> rfl

theorem insert_removed (recent : Nat → Bool) (b : Bucket K V) (h : Nat) (e : K × V)
    (hr : t ≠ .index ∨ b.main.removed = 0#32) : (b.insert t recent h e).1.main.removed = b.main.removed := by
  have hc : ¬ (t = .index ∧ b.main.occ = BitVec.allOnes 32 ∧ b.main.removed ≠ 0#32) := by
    rintro ⟨h1, _, h2⟩
    rcases hr with hr | hr
    · exact hr h1
    · exact h2 hr
  unfold Bucket.insert
  simp only [if_neg hc]
  split
  · unfold Bucket.insertOverflow
    split
    · split <;> rfl
    · rfl
  · rfl

theorem quiet_of_room (w : Wf t hash b) (recent : Nat → Bool) (es : List (Nat × (K × V)))
    (hr : t ≠ .index ∨ b.main.removed = 0#32) (hp : ∀ e ∈ es, partialHash e.1 = partialHash (hash e.2.1))
    (hn : es.length ≤ b.room) : b.Quiet t recent es := by
  induction es generalizing b with
  | nil => trivial
  | cons e es ih =>
    rw [List.length_cons] at hn
    obtain ⟨h1, h2⟩ := room_insert w recent e.1 e.2 hr (by omega)
    refine ⟨h1, ih (insert_ok w recent (hp e (by simp))).1 ?_ (fun x hx => hp x (by simp [hx])) (by omega)⟩
    rw [insert_removed recent b e.1 e.2 hr]
    exact hr

/-! ## C57 -/

/-- **C57 (partial).** If a target bucket has a linked bucket already, or room for all of the entries in its
data block, then once `reserve_slots` has returned, the entries it was called for are moved without
allocating; in a `HashIndex` no entry of the data block may be marked removed. Missing: see `c57_violated` and
`c57_violated_index`. -/
theorem c57_reserve_partial (w : Wf t hash b) (recent : Nat → Bool) (es : List (Nat × (K × V)))
    (hr : t ≠ .index ∨ b.main.removed = 0#32) (hp : ∀ e ∈ es, partialHash e.1 = partialHash (hash e.2.1))
    (hl : b.links ≠ [] ∨ es.length ≤ bucketLen - ones b.main.occ) :
    (b.reserveSlots es.length).Quiet t recent es := by
  refine quiet_of_room (reserveSlots_ok w es.length).1 recent es ?_ hp (reserveSlots_room b es.length hl)
  rw [reserveSlots_main]; exact hr

/-- **C57, small buckets (partial).** When the container grows and the old bucket has at most 32 entries,
`relocate_bucket` reserves nothing (/repo/src/hash_table.rs 1017-1018); the entries that go to an empty target
are moved without allocating. -/
theorem c57_small_partial (recent : Nat → Bool) (es : List (Nat × (K × V)))
    (hp : ∀ e ∈ es, partialHash e.1 = partialHash (hash e.2.1)) (hn : es.length ≤ 32) :
    (Bucket.empty : Bucket K V).Quiet t recent es := by
  refine quiet_of_room (hash := hash) (empty_wf t hash) recent es (.inr rfl) hp ?_
  have : (Bucket.empty : Bucket K V).room = 32 := by
    show (32 - ones 0) + 0 = 32
    decide
  omega

/-- `n` entries with the same partial hash. -/
def sameHash (n : Nat) : List (Nat × (Nat × Nat)) := (List.range n).map fun i => (0, (i, i))

set_option maxRecDepth 100000 in
/-- The hypotheses of `c57_reserve_partial` are met by a bucket with a linked bucket. -/
example : let b := (Bucket.empty : Bucket Nat Nat).insertAll .map (fun _ => false) (sameHash 33)
    b.links ≠ [] ∧ (b.reserveSlots 20).links.length = 3 ∧
    (b.reserveSlots 20).Quiet .map (fun _ => false) (sameHash 20) ∧
    ¬ (b.reserveSlots 20).Quiet .map (fun _ => false) (sameHash 24) := by
  decide +kernel

set_option maxRecDepth 100000 in
/-- **C57, violated.** `reserve_slots` follows the chain of linked buckets and extends it at its end; if there is
no chain it reserves nothing (/repo/src/hash_table/bucket.rs 308-309). 33 entries whose target is a
fresh bucket then need an allocation after 32 of them were moved. -/
theorem c57_violated (t : Kind) : ∃ (b : Bucket Nat Nat) (es : List (Nat × (Nat × Nat))),
    b = Bucket.empty ∧ es.length = 33 ∧ b.reserveSlots es.length = b ∧
    (b.reserveSlots es.length).Quiet t (fun _ => false) (es.take 32) ∧
    ((b.reserveSlots es.length).insertAll t (fun _ => false) (es.take 32)).allocates t (fun _ => false) := by
  refine ⟨Bucket.empty, sameHash 33, rfl, by decide, ?_, ?_, ?_⟩
  · unfold Bucket.reserveSlots
    simp only
    split
    · have : ∀ f c, reserveLinks (K := Nat) (V := Nat) 33 f c [] = [] := by
        intro f c; cases f <;> rfl
      show ({ Bucket.empty with links := reserveLinks (sameHash 33).length _ _ [] } : Bucket Nat Nat) = Bucket.empty
      rw [show (sameHash 33).length = 33 by decide, this]
      rfl
    · rfl
  · cases t <;> decide +kernel
  · cases t <;> decide +kernel

/-- A bucket of a `HashIndex` with 40 entries, one of them removed recently. -/
def marked : Bucket Nat Nat :=
  ((Bucket.empty : Bucket Nat Nat).insertAll .index (fun _ => true) (sameHash 40)).markRemoved ⟨0, 0⟩ 1

set_option maxRecDepth 100000 in
/-- **C57, violated in a `HashIndex`.** Even if the chain is extended, the insertion that follows drops
unreachable entries (/repo/src/hash_table/bucket.rs 150-160) and thereby unlinks the empty linked bucket just
reserved (468-492); so moving a single entry allocates. -/
theorem c57_violated_index : ∃ b : Bucket Nat Nat, b.links.length = 1 ∧ (b.reserveSlots 1).links.length = 2 ∧
    (b.reserveSlots 1).allocates .index (fun _ => true) := by
  refine ⟨marked, ?_, ?_, ?_⟩ <;> decide +kernel

end Scc.Bucket
