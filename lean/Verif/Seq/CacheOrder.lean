import Verif.Seq.CacheRoom

/-!
# Order of use in the buckets of a `HashCache`: one bucket
-/

set_option linter.unusedSectionVars false
set_option linter.unusedSimpArgs false
set_option linter.unusedVariables false

namespace Scc.Seq

open Scc.Index hiding bucketLen
open Scc.Bucket

variable {K V : Type}

/-- The order of use, most recent first, after an operation on key `k` that found `o` and evicted
`ev`. -/
def useList [DecidableEq K] (L : List K) (k : K) (touch : Bool) (f : Option V → Act V) (o : Option V)
    (ev : Option (K × V)) : List K :=
  let L1 := L.filter fun x => ev.map (·.1) ≠ some x
  match o, f o with
  | none, .put _ => k :: L1.filter (· ≠ k)
  | none, _ => L1
  | some _, .del => L1.filter (· ≠ k)
  | some _, _ => if touch then k :: L1.filter (· ≠ k) else L1

section
variable [DecidableEq K] {hash : K → Nat} {b : Bucket K V}

theorem pointsTo_blk {t : Kind} {p : Ptr} {e : K × V} (hl : b.links = []) (h : PointsTo t b p e) :
    p.blk = 0 ∧ b.main.data p.idx = some e := by
  obtain ⟨x, hx, _, hd⟩ := h
  unfold Bucket.blocks at hx
  rw [hl] at hx
  cases hp : p.blk with
  | zero => rw [hp] at hx; simp at hx; subst hx; exact ⟨rfl, hd⟩
  | succ n => rw [hp] at hx; simp at hx

theorem evictHead_links {b' : Bucket K V} {ev : Option (K × V)} (h : b.evictHead = some (b', ev)) :
    b'.links = b.links := by
  unfold Bucket.evictHead at h
  split at h
  · simp only at h
    split at h
    · cases h
    · cases h; rfl
  · cases h; rfl

theorem filter_none (L : List K) :
    L.filter (fun x => (none : Option (K × V)).map (·.1) ≠ some x) = L := by
  rw [List.filter_eq_self]; intro x _; simp

theorem filter_some (L : List K) (e : K × V) :
    L.filter (fun x => (some e).map (·.1) ≠ some x) = L.filter (· ≠ e.1) := by
  apply List.filter_congr
  intro x _
  simp only [Option.map_some]
  by_cases h : x = e.1
  · subst h; simp
  · simp [h]
    exact fun h' => h h'.symm

/-- One operation on a bucket without overflow space: it gets none, the list follows the uses, an entry
is evicted exactly when a new key meets a full bucket, and it is the last one on the list. -/
theorem cacheAct_order {L : List K} (w : Wf .cache hash b) (nd : ((b.entries .cache).map (·.1)).Nodup)
    (hl : b.links = []) (od : Order b L) (env : Env) (k : K) (touch : Bool) (f : Option V → Act V)
    {b' : Bucket K V} {o : Option V} {ev : Option (K × V)}
    (h : b.cacheAct hash env k touch f = some (b', o, ev)) :
    b'.links = [] ∧ Order b' (useList L k touch f o ev) ∧
      (ev ≠ none ↔ o = none ∧ (∃ v, f none = .put v) ∧ (b.entries .cache).length = 32) ∧
      ∀ e, ev = some e → e ∈ b.entries .cache ∧ (L ≠ [] → L.getLast? = some e.1) := by
  obtain ⟨g1, g2⟩ := getEntryPtr_ok w k
  unfold Bucket.cacheAct at h
  simp only at h
  by_cases hval : (b.getEntryPtr .cache k (hash k)).isValid = true
  · rw [if_pos hval] at h
    obtain ⟨⟨k', v⟩, hpt, hk⟩ := g1 hval
    simp only at hk; subst hk
    rw [pointsTo_get hpt] at h
    simp only at h
    obtain ⟨hb0, hd⟩ := pointsTo_blk hl hpt
    generalize b.getEntryPtr .cache k' (hash k') = p at *
    obtain ⟨pb, pi⟩ := p
    simp only at hb0 hd
    subst hb0
    generalize hb1 : (if touch = true then b.touch ⟨0, pi⟩ else b) = b1 at h
    have l1 : b1.links = [] := by
      rw [← hb1]; split
      · rw [touch_links]; exact hl
      · exact hl
    have d1 : b1.main.data pi = some (k', v) := by
      rw [← hb1]; split
      · rw [touch_main]; exact hd
      · exact hd
    have w1 : Wf .cache hash b1 := by
      rw [← hb1]; split
      · exact touch_wf w _
      · exact w
    have nd1 : ((b1.entries .cache).map (·.1)).Nodup := by
      rw [← hb1]; split
      · rw [touch_entries]; exact nd
      · exact nd
    have o1 : Order b1 (if touch then k' :: L.filter (· ≠ k') else L) := by
      rw [← hb1]; split
      · exact touch_order w nd od hd
      · exact od
    have hev : ∀ (q : Option V), q = some v → ((none : Option (K × V)) ≠ none ↔
        q = none ∧ (∃ v, f none = .put v) ∧ (b.entries .cache).length = 32) := by
      intro q hq
      refine ⟨fun h => absurd rfl h, fun h => ?_⟩
      rw [hq] at h; cases h.1
    split at h
    · rename_i hf
      cases h
      refine ⟨l1, ?_, hev _ rfl, fun e h => by cases h⟩
      unfold useList
      simp only [hf, filter_none]
      exact o1
    · rename_i v' hf
      cases h
      refine ⟨(setVal_links rfl _).trans l1, ?_, hev _ rfl, fun e h => by cases h⟩
      unfold useList
      simp only [hf, filter_none]
      exact setVal_order o1 _ _
    · rename_i hf
      obtain ⟨r, h1, h2⟩ := Option.map_eq_some_iff.1 h
      obtain ⟨r1, r2, r3⟩ := r
      cases h2
      obtain ⟨x1, x2⟩ := remove_order w1 nd1 o1 d1 h1
      refine ⟨x2.trans l1, ?_, hev _ rfl, fun e h => by cases h⟩
      unfold useList
      simp only [hf, filter_none]
      have : (if touch = true then k' :: L.filter (· ≠ k') else L).filter (· ≠ k') =
          L.filter (· ≠ k') := by
        split
        · simp [List.filter_filter]
        · rfl
      rw [this] at x1
      exact x1
  · rw [if_neg hval] at h
    have hno : ∀ e ∈ b.entries .cache, e.1 ≠ k := g2 (by simpa using hval)
    split at h
    · rename_i v hf
      obtain ⟨b1, ev1, x1, x2, x3, x4, x5, x6, x7⟩ := evictHead_ok w od.lruOk
      rw [x1] at h
      simp only at h
      cases h
      obtain ⟨h1, h2, h3⟩ := insert_ok (h := hash k) (e := (k, v)) x2 env.recent rfl
      have l1 : b1.links = [] := (evictHead_links x1).trans hl
      obtain ⟨i1, i2, i3⟩ := insert_main env.recent (hash k) (k, v) x7
      have nd1 : ((b1.entries .cache).map (·.1)).Nodup := by
        have := nodup_perm x4.symm nd
        rw [List.map_append, List.nodup_append] at this
        exact this.2.1
      have nd2 : (((b1.insert .cache env.recent (hash k) (k, v)).1.entries .cache).map (·.1)).Nodup := by
        refine nodup_perm h2 ?_
        rw [List.map_cons, List.nodup_cons]
        refine ⟨?_, nd1⟩
        intro hm
        obtain ⟨e, he, hek⟩ := List.mem_map.1 hm
        exact hno e (x4.mem_iff.2 (List.mem_append_right _ he)) hek
      have o1 : Order b1 (L.filter fun x => ev.map (·.1) ≠ some x) ∧
          ∀ e, ev = some e → (L ≠ [] → L.getLast? = some e.1) := by
        cases ev with
        | none =>
          rw [filter_none]
          refine ⟨?_, fun e h => by cases h⟩
          have hb : b1 = b := by
            unfold Bucket.evictHead at x1
            split at x1
            · simp only at x1
              split at x1
              · cases x1
              · cases x1
            · cases x1; rfl
          rw [hb]; exact od
        | some e =>
          obtain ⟨y1, y2⟩ := evictHead_order w nd od x1
          rw [filter_some]
          exact ⟨y1, fun e' h => by cases h; exact y2⟩
      have o2 := (insert_grows b1 env.recent (hash k) (k, v)).order x2 o1.1
      have o3 := touch_order h1 nd2 o2 i3
      generalize hr : b1.insert .cache env.recent (hash k) (k, v) = r at *
      obtain ⟨r1, ⟨rb, ri⟩⟩ := r
      simp only at i2
      subst i2
      refine ⟨?_, ?_, ?_, ?_⟩
      · rw [touch_links]; exact i1.trans l1
      · unfold useList
        simp only [hf]
        exact o3
      · rw [full_iff w hl]
        constructor
        · intro h
          refine ⟨rfl, ⟨v, hf⟩, ?_⟩
          apply Classical.byContradiction
          intro hne
          exact h (x5.2 hne)
        · rintro ⟨_, _, h⟩ hn
          exact x5.1 hn h
      · intro e he
        refine ⟨?_, o1.2 e he⟩
        exact x4.mem_iff.2 (List.mem_append_left _ (by rw [he]; simp))
    · rename_i hf
      cases h
      refine ⟨hl, ?_, ?_, fun e h => by cases h⟩
      · unfold useList
        cases hfn : f none with
        | put v => exact absurd hfn (hf v)
        | keep => simp only [filter_none]; exact od
        | del => simp only [filter_none]; exact od
      · refine ⟨fun h => absurd rfl h, ?_⟩
        rintro ⟨_, ⟨v, hv⟩, _⟩
        exact absurd hv (hf v)

/-- `retain` takes the removed keys off the list. -/
theorem retain_order {σ : Type} (env : Env) (f : σ → K × V → σ × V × Bool) (fuel : Nat) (b : Bucket K V)
    (p : Ptr) (s : σ) {b' : Bucket K V} {s' : σ} {l : List (K × V)} {L : List K} (w : Wf .cache hash b)
    (nd : ((b.entries .cache).map (·.1)).Nodup) (hl : b.links = []) (od : Order b L)
    (h : b.retain .cache env f fuel p s = some (b', s', l)) :
    b'.links = [] ∧ Order b' (L.filter fun x => decide (x ∉ (passDropped f s l).map (·.1))) := by
  induction fuel generalizing b p s b' s' l L with
  | zero => cases h
  | succ fuel ih =>
    unfold Bucket.retain at h
    have hci : ¬ (Kind.cache = Kind.index) := by decide
    simp only [if_neg hci] at h
    rcases moveToNext_ok w p with ⟨h1, h2, _⟩ | ⟨e, rest, h1, h2, h3, h4⟩
    · simp only [h2] at h
      cases h
      refine ⟨hl, ?_⟩
      have : (L.filter fun x => decide (x ∉ (passDropped f s []).map (·.1))) = L := by
        rw [List.filter_eq_self]; intro x _; simp [passDropped]
      rw [this]; exact od
    · simp only [h2, if_true, pointsTo_get h3] at h
      obtain ⟨hb0, hd⟩ := pointsTo_blk hl h3
      generalize (b.moveToNext .cache p).1 = q at *
      obtain ⟨c1, l1, r1, c2, c3⟩ := setVal_ok w (f s e).2.1 h3
      have nd1 : (((b.setVal q (f s e).2.1).entries .cache).map (·.1)).Nodup := by
        rw [c3]; rw [c2] at nd; simpa using nd
      have hl1 : (b.setVal q (f s e).2.1).links = [] := (setVal_links hb0 _).trans hl
      have od1 : Order (b.setVal q (f s e).2.1) L := setVal_order od _ _
      have pt1 := setVal_pointsTo (f s e).2.1 h3
      split at h
      · rename_i hkeep
        obtain ⟨r, h5, h6⟩ := Option.map_eq_some_iff.1 h
        obtain ⟨r1, r2, r3⟩ := r
        cases h6
        have := ih _ _ _ c1 nd1 hl1 od1 h5
        unfold passDropped
        rw [if_pos hkeep]
        exact this
      · rename_i hkeep
        obtain ⟨b2, q', d1, d2, d3⟩ := remove_ok c1 pt1
        rw [d1] at h
        simp only at h
        obtain ⟨r, h5, h6⟩ := Option.map_eq_some_iff.1 h
        obtain ⟨r1, r2, r3⟩ := r
        cases h6
        obtain ⟨z1, z2⟩ := pointsTo_blk hl1 pt1
        obtain ⟨qb, qi⟩ := q
        simp only at z1 z2
        subst z1
        obtain ⟨y1, y2⟩ := remove_order c1 nd1 od1 z2 d1
        have nd2 : ((b2.entries .cache).map (·.1)).Nodup := by
          have := nodup_perm d3.symm nd1
          rw [List.map_cons, List.nodup_cons] at this
          exact this.2
        obtain ⟨i1, i2⟩ := ih _ _ _ d2 nd2 (y2.trans hl1) y1 h5
        refine ⟨i1, ?_⟩
        unfold passDropped
        rw [if_neg hkeep]
        rw [List.filter_filter] at i2
        have : (L.filter fun x => decide (x ∉
            ((e.1, (f s e).2.1) :: passDropped f (f s e).1 r3).map (·.1))) =
            L.filter fun a => decide (a ∉ (passDropped f (f s e).1 r3).map (·.1)) && decide (a ≠ e.1) := by
          apply List.filter_congr
          intro x _
          by_cases hx : x = e.1 <;> simp [hx]
        rw [this]
        exact i2

end

end Scc.Seq
