import Verif.Lru.Model
import Verif.Lru.Spec

/-!
# The link array represents a recency list

`Rep st l` says that the links and the tail of `st` represent the duplicate-free list `l`
(most recent first).  It is preserved by every operation.
-/

namespace Scc.Lru

/-- `y` is the next older slot of `x`. -/
def Rel (s : Links) (x y : Nat) : Prop := (s x).2 = y ∧ (s y).1 = x

/-- Consecutive slots of the list are linked. -/
def Seg (s : Links) : List Nat → Prop
  | [] => True
  | [_] => True
  | x :: y :: r => Rel s x y ∧ Seg s (y :: r)

/-- The list is linked cyclically. -/
def Cyc (s : Links) : List Nat → Prop
  | [] => True
  | x :: r => Seg s (x :: r ++ [x])

theorem seg_append {s : Links} : ∀ {p : List Nat} {x : Nat} {q : List Nat},
    Seg s (p ++ x :: q) ↔ Seg s (p ++ [x]) ∧ Seg s (x :: q)
  | [], x, q => by simp [Seg]
  | [a], x, [] => by simp [Seg]
  | [a], x, b :: q => by simp [Seg]
  | a :: b :: p, x, q => by
    have := @seg_append s (b :: p) x q
    simp only [List.cons_append, Seg] at this ⊢
    rw [this, and_assoc]

theorem seg_congr {s t : Links} : ∀ {l : List Nat},
    (∀ u ∈ l.dropLast, (t u).2 = (s u).2) → (∀ v ∈ l.tail, (t v).1 = (s v).1) →
    Seg s l → Seg t l
  | [], _, _, _ => trivial
  | [_], _, _, _ => trivial
  | x :: y :: r, h1, h2, h => by
    refine ⟨⟨?_, ?_⟩, seg_congr (l := y :: r) ?_ ?_ h.2⟩
    · rw [h1 x (by simp), h.1.1]
    · rw [h2 y (by simp), h.1.2]
    · intro u hu; exact h1 u (by simp only [List.dropLast_cons_cons]; exact List.mem_cons_of_mem _ hu)
    · intro v hv; exact h2 v (by simp only [List.tail_cons] at hv ⊢; exact List.mem_cons_of_mem _ hv)

theorem cyc_rotate {s : Links} {p q : List Nat} (h : Cyc s (p ++ q)) : Cyc s (q ++ p) := by
  cases p with
  | nil => simpa using h
  | cons a p =>
    cases q with
    | nil => simpa using h
    | cons b q =>
      have h' : Seg s ((a :: p) ++ b :: (q ++ [a])) := by simpa [Cyc] using h
      have hs := seg_append.1 h'
      have : Seg s ((b :: q) ++ a :: (p ++ [b])) :=
        seg_append.2 ⟨by simpa using hs.2, by simpa using hs.1⟩
      simpa [Cyc] using this

/-- In a cyclic list starting with `x`, the last element is the newer neighbour of `x`. -/
theorem cyc_first {s : Links} {x : Nat} {r : List Nat} (h : Cyc s (x :: r)) :
    (s x).1 = (x :: r).getLast (by simp) := by
  rcases List.eq_nil_or_concat (x :: r) with h0 | ⟨p, z, hz⟩
  · simp at h0
  · simp only [List.concat_eq_append] at hz
    have h' : Seg s (p ++ z :: [x]) := by
      have : x :: r ++ [x] = p ++ z :: [x] := by rw [hz]; simp
      simpa [Cyc, this] using h
    have hs := (seg_append.1 h').2
    simp only [hz, List.getLast_append, List.getLast_singleton]
    simpa [Seg, Rel] using hs.1.2

/-- In a cyclic list starting with `x :: y :: _`, `y` is the older neighbour of `x`. -/
theorem cyc_second {s : Links} {x y : Nat} {r : List Nat} (h : Cyc s (x :: y :: r)) :
    (s x).2 = y := by
  have : Seg s (x :: y :: (r ++ [x])) := by simpa [Cyc] using h
  exact this.1.1

@[simp] theorem set_same (s : Links) (i v) : (s.set i v) i = v := by simp [Links.set]
theorem set_other (s : Links) {i j : Nat} (v) (h : j ≠ i) : (s.set i v) j = s j := by
  simp [Links.set, h]

theorem setFst_fst (s : Links) (i a j : Nat) :
    ((s.setFst i a) j).1 = if j = i then a else (s j).1 := by
  unfold Links.setFst Links.set; split <;> simp_all
theorem setFst_snd (s : Links) (i a j : Nat) : ((s.setFst i a) j).2 = (s j).2 := by
  unfold Links.setFst Links.set; split <;> simp_all
theorem setSnd_fst (s : Links) (i a j : Nat) : ((s.setSnd i a) j).1 = (s j).1 := by
  unfold Links.setSnd Links.set; split <;> simp_all
theorem setSnd_snd (s : Links) (i a j : Nat) :
    ((s.setSnd i a) j).2 = if j = i then a else (s j).2 := by
  unfold Links.setSnd Links.set; split <;> simp_all

/-- The two writes that take `x` out of the ring. -/
def unlinked (s : Links) (x : Nat) : Links :=
  (s.setSnd (s x).1 (s x).2).setFst (s x).2 (s x).1

theorem mem_dropLast_ne_last {l : List Nat} {z u : Nat} (hn : (l ++ [z]).Nodup) (hu : u ∈ l) :
    u ≠ z := by
  intro h; subst h
  exact (List.nodup_append.1 hn).2.2 u hu u (by simp) rfl

theorem cyc_unlink {s : Links} {x y : Nat} {r : List Nat} (hn : (x :: y :: r).Nodup)
    (h : Cyc s (x :: y :: r)) : Cyc (unlinked s x) (y :: r) := by
  have hfst := cyc_first h
  have hsnd := cyc_second h
  -- name the last element
  obtain ⟨p, z, hz⟩ : ∃ p z, y :: r = p ++ [z] := by
    rcases List.eq_nil_or_concat (y :: r) with h0 | ⟨p, z, hz⟩
    · simp at h0
    · exact ⟨p, z, by simpa using hz⟩
  have hlast : (s x).1 = z := by
    rw [hfst, List.getLast_cons (by simp)]
    simp [hz]
  have hyr : Seg s (y :: r) := by
    have h' : Seg s ([x] ++ y :: (r ++ [x])) := by simpa [Cyc] using h
    have h2 := (seg_append.1 h').2
    have h3 : Seg s ((y :: r) ++ x :: []) := by simpa using h2
    rw [hz] at h3 ⊢
    have h4 : Seg s (p ++ z :: [x]) := by simpa using h3
    exact (seg_append.1 h4).1
  have hn' : (y :: r).Nodup := (List.nodup_cons.1 hn).2
  unfold unlinked
  rw [hlast, hsnd]
  show Seg _ (y :: r ++ [y])
  have hsplit : y :: r ++ [y] = p ++ z :: [y] := by rw [hz]; simp
  rw [hsplit]
  refine seg_append.2 ⟨?_, ?_, trivial⟩
  · rw [← hz]
    refine seg_congr ?_ ?_ hyr
    · intro u hu
      rw [hz, List.dropLast_concat] at hu
      have : u ≠ z := mem_dropLast_ne_last (hz ▸ hn') hu
      rw [setFst_snd, setSnd_snd, if_neg this]
    · intro v hv
      have : v ≠ y := by
        intro e; subst e; exact (List.nodup_cons.1 hn').1 hv
      rw [setFst_fst, if_neg this, setSnd_fst]
  · constructor
    · rw [setFst_snd, setSnd_snd, if_pos rfl]
    · rw [setFst_fst, if_pos rfl]

/-- Cyclicity only depends on the links of the members. -/
theorem cyc_congr {s t : Links} {l : List Nat} (h : ∀ x ∈ l, t x = s x) (hc : Cyc s l) :
    Cyc t l := by
  cases l with
  | nil => trivial
  | cons a r =>
    refine seg_congr ?_ ?_ hc
    · intro u hu
      have : u ∈ a :: r := by
        have : u ∈ (a :: r ++ [a]).dropLast := hu
        rwa [List.dropLast_concat] at this
      rw [h u this]
    · intro v hv
      have : v ∈ a :: r := by
        simp only [List.cons_append, List.tail_cons, List.mem_append, List.mem_singleton] at hv
        rcases hv with hv | hv
        · exact List.mem_cons_of_mem _ hv
        · subst hv; simp
      rw [h v this]

/-- The four writes that put `e` in front of the ring whose newest slot is `a`. -/
def linked (s : Links) (a e : Nat) : Links :=
  (((s.setSnd (s a).1 e).setFst e (s a).1).setFst a e).setSnd e a

theorem cyc_link {s : Links} {a e : Nat} {r : List Nat} (hn : (e :: a :: r).Nodup)
    (h : Cyc s (a :: r)) : Cyc (linked s a e) (e :: a :: r) := by
  have hfst := cyc_first h
  obtain ⟨p, z, hz⟩ : ∃ p z, a :: r = p ++ [z] := by
    rcases List.eq_nil_or_concat (a :: r) with h0 | ⟨p, z, hz⟩
    · simp at h0
    · exact ⟨p, z, by simpa using hz⟩
  have hlast : (s a).1 = z := by rw [hfst]; simp [hz]
  have hn' : (a :: r).Nodup := (List.nodup_cons.1 hn).2
  have hea : e ≠ a := by
    intro h; subst h; exact (List.nodup_cons.1 hn).1 (by simp)
  have hmem : ∀ u ∈ a :: r, u ≠ e := by
    intro u hu h; subst h; exact (List.nodup_cons.1 hn).1 hu
  have hez : z ≠ e := hmem z (by rw [hz]; simp)
  have har : Seg s (a :: r) := by
    have h' : Seg s (a :: r ++ [a]) := h
    rw [hz] at h' ⊢
    have h4 : Seg s (p ++ z :: [a]) := by simpa using h'
    exact (seg_append.1 h4).1
  unfold linked; rw [hlast]
  show Seg _ (e :: a :: r ++ [e])
  have hsplit : e :: a :: r ++ [e] = [e] ++ a :: (r ++ [e]) := by simp
  rw [hsplit]
  refine seg_append.2 ⟨⟨⟨?_, ?_⟩, trivial⟩, ?_⟩
  · rw [setSnd_snd, if_pos rfl]
  · rw [setSnd_fst, setFst_fst, if_pos rfl]
  · have hsplit2 : a :: (r ++ [e]) = p ++ z :: [e] := by
      rw [← List.cons_append, hz]; simp
    rw [hsplit2]
    refine seg_append.2 ⟨?_, ⟨?_, ?_⟩, trivial⟩
    · rw [← hz]
      refine seg_congr ?_ ?_ har
      · intro u hu
        have hu' : u ∈ a :: r := List.dropLast_subset _ hu
        rw [hz, List.dropLast_concat] at hu
        have h1 : u ≠ z := mem_dropLast_ne_last (hz ▸ hn') hu
        rw [setSnd_snd, if_neg (hmem u hu'), setFst_snd, setFst_snd, setSnd_snd, if_neg h1]
      · intro v hv
        have hv' : v ∈ a :: r := List.mem_of_mem_tail hv
        have h1 : v ≠ a := by
          intro h; subst h; exact (List.nodup_cons.1 hn').1 (by simpa using hv)
        rw [setSnd_fst, setFst_fst, if_neg h1, setFst_fst, if_neg (hmem v hv'), setSnd_fst]
    · rw [setSnd_snd, if_neg hez, setFst_snd, setFst_snd, setSnd_snd, if_pos rfl]
    · rw [setSnd_fst, setFst_fst, if_neg hea, setFst_fst, if_pos rfl]

/-- The tail word of a recency list. -/
def tailOf : List Nat → Nat
  | [] => 0
  | a :: _ => a + 1

@[simp] theorem tailOf_nil : tailOf [] = 0 := rfl
@[simp] theorem tailOf_cons (a : Nat) (l : List Nat) : tailOf (a :: l) = a + 1 := rfl

theorem getLast_cons_concat (x z : Nat) (q : List Nat) (h) :
    (x :: (q ++ [z])).getLast h = z := by
  rw [List.getLast_cons (by simp)]; simp

theorem getLast_cons_concat2 (x y z : Nat) (q p : List Nat) (h) :
    (x :: (q ++ y :: (p ++ [z]))).getLast h = z := by
  rw [List.getLast_cons (by simp)]; simp [getLast_cons_concat]

/-- `st` represents the recency list `l`. -/
structure Rep (st : State) (l : List Nat) : Prop where
  nodup : l.Nodup
  lt : ∀ x ∈ l, x < 32
  tail : st.tail = tailOf l
  out : ∀ x, x ∉ l → st.links x = (0, 0)
  cyc : Cyc st.links l

theorem rep_init : Rep State.init [] :=
  ⟨by simp, by simp, rfl, fun _ _ => rfl, trivial⟩

/-- Links of members stay members. -/
theorem cyc_mem {s : Links} {l : List Nat} (h : Cyc s l) {x : Nat} (hx : x ∈ l) :
    (s x).1 ∈ l ∧ (s x).2 ∈ l := by
  obtain ⟨p, q, rfl⟩ := List.append_of_mem hx
  have h' : Cyc s (x :: q ++ p) := cyc_rotate h
  have hmem : ∀ y, y ∈ x :: q ++ p → y ∈ p ++ x :: q := by
    intro y hy; simp only [List.mem_append] at hy ⊢; exact hy.symm
  constructor
  · apply hmem
    have := cyc_first (r := q ++ p) h'
    rw [this]; exact List.getLast_mem _
  · apply hmem
    cases hqp : q ++ p with
    | nil =>
      have : Cyc s [x] := by simpa [hqp] using h'
      have h2 : (s x).2 = x := this.1.1
      simp [h2]
    | cons y r =>
      have : Cyc s (x :: y :: r) := by simpa [hqp] using h'
      rw [cyc_second this]; simp [hqp]

theorem filter_split {p q : List Nat} {x : Nat} (hn : (p ++ x :: q).Nodup) :
    (p ++ x :: q).filter (· ≠ x) = p ++ q := by
  have h1 := List.nodup_append.1 hn
  have hxq : x ∉ q := (List.nodup_cons.1 h1.2.1).1
  have hxp : x ∉ p := fun h => h1.2.2 x h x (by simp) rfl
  rw [List.filter_append, List.filter_cons]
  have e1 : p.filter (· ≠ x) = p := List.filter_eq_self.2 (by
    intro a ha; simp; intro h; subst h; exact hxp ha)
  have e2 : q.filter (· ≠ x) = q := List.filter_eq_self.2 (by
    intro a ha; simp; intro h; subst h; exact hxq ha)
  rw [e1, e2]; simp

theorem filter_notMem {l : List Nat} {x : Nat} (h : x ∉ l) : l.filter (· ≠ x) = l :=
  List.filter_eq_self.2 (by intro a ha; simp; intro e; subst e; exact h ha)

/-- The membership test of the code for a slot that is not the newest. -/
theorem mem_test {st : State} {l : List Nat} (h : Rep st l) {e : Nat} (ht : st.tail ≠ e + 1)
    (h0 : st.tail ≠ 0) :
    e ∈ l ↔ (st.links e ≠ (0, 0) ∨ (st.links 0 = (e, e) ∧ st.tail = 1)) := by
  constructor
  · intro he
    obtain ⟨p, q, rfl⟩ := List.append_of_mem he
    cases p with
    | nil => exact absurd h.tail ht
    | cons a p =>
      by_cases hz : st.links e = (0, 0)
      · right
        -- both neighbours of `e` are 0, so the list is `[0, e]`
        have hc := cyc_rotate h.cyc
        rw [List.cons_append] at hc
        have hl := cyc_first hc
        have hn := h.nodup
        have htail : st.tail = a + 1 := by simpa using h.tail
        cases q with
        | nil =>
          have h2 := cyc_second (by simpa using hc)
          have ha : a = 0 := by rw [hz] at h2; exact h2.symm
          subst ha
          rcases List.eq_nil_or_concat p with hp | ⟨p', z, hp⟩
          · subst hp
            have hc' : Seg st.links [e, 0, e] := by simpa [Cyc] using hc
            refine ⟨?_, htail⟩
            have e1 := hc'.1.2
            have e2 := hc'.2.1.1
            exact Prod.ext e1 e2
          · subst hp
            simp [hz, getLast_cons_concat, getLast_cons_concat2] at hl
            subst hl
            simp at hn
        | cons b q =>
          have h2 := cyc_second hc
          have hb : b = 0 := by rw [hz] at h2; exact h2.symm
          subst hb
          rcases List.eq_nil_or_concat p with hp | ⟨p', z, hp⟩
          · subst hp
            simp [hz, getLast_cons_concat, getLast_cons_concat2] at hl
            subst hl
            simp at hn
          · subst hp
            simp [hz, getLast_cons_concat, getLast_cons_concat2] at hl
            subst hl
            exfalso
            have := (List.nodup_append.1 hn).2.2 0 (by simp) 0 (by simp)
            exact this rfl
      · left; exact hz
  · rintro (h1 | ⟨h1, h2⟩)
    · exact Decidable.byContradiction fun hne => h1 (h.out e hne)
    · have h0l : 0 ∈ l := by
        cases l with
        | nil => exact absurd h.tail h0
        | cons a r =>
          have : st.tail = a + 1 := h.tail
          have : a = 0 := by omega
          subst this; simp
      have := (cyc_mem h.cyc h0l).1
      rw [h1] at this; exact this

theorem rep_touch {st : State} {l : List Nat} (h : Rep st l) {e : Nat} (he : e < 32) :
    Rep (st.touch e) (Spec.touch l e) := by
  unfold State.touch promote Spec.touch
  by_cases h1 : st.tail = e + 1
  · simp only [h1, if_true, Option.getD_none]
    cases l with
    | nil => have := h.tail; rw [h1] at this; simp at this
    | cons a r =>
      have : st.tail = a + 1 := h.tail
      have hae : a = e := by omega
      subst hae
      have : List.filter (· ≠ a) (a :: r) = r := filter_split (p := []) h.nodup
      rw [this]
      exact ⟨h.nodup, h.lt, rfl, h.out, h.cyc⟩
  · rw [if_neg h1]
    by_cases h2 : st.tail = 0
    · rw [if_pos h2]
      cases l with
      | cons a r => have := h.tail; rw [h2] at this; simp at this
      | nil =>
        simp only [List.filter_nil, Option.getD_some]
        refine ⟨by simp, by simpa using he, rfl, ?_, ?_⟩
        · intro x hx
          have : x ≠ e := by simpa using hx
          show (st.links.set e (e, e)) x = _
          rw [set_other _ _ this]; exact h.out x (by simp)
        · show Seg _ [e, e]
          exact ⟨⟨by simp, by simp⟩, trivial⟩
    · rw [if_neg h2]
      cases l with
      | nil => exact absurd h.tail h2
      | cons a r =>
        have htail : st.tail = a + 1 := h.tail
        have hae : a ≠ e := by intro h; apply h1; rw [htail, h]
        have ht1 : st.tail - 1 = a := by omega
        have hmt := mem_test h h1 h2
        simp only [ht1, Option.getD_some]
        -- the state after the optional unlink
        have key : ∀ s1 : Links, Cyc s1 ((a :: r).filter (· ≠ e)) →
            (∀ x, x ∉ a :: r → s1 x = (0, 0)) →
            Rep ⟨linked s1 a e, e + 1⟩ (e :: (a :: r).filter (· ≠ e)) := by
          intro s1 hc hout
          have hf : (a :: r).filter (· ≠ e) = a :: r.filter (· ≠ e) := by
            rw [List.filter_cons]; simp [hae]
          have hnd : (e :: (a :: r).filter (· ≠ e)).Nodup := by
            refine List.nodup_cons.2 ⟨by simp, h.nodup.filter _⟩
          rw [hf] at hc hnd ⊢
          refine ⟨hnd, ?_, rfl, ?_, cyc_link hnd hc⟩
          · intro x hx
            simp only [List.mem_cons, List.mem_filter] at hx
            rcases hx with hx | hx | hx
            · omega
            · exact h.lt x (by simp [hx])
            · exact h.lt x (by simp [hx.1])
          · intro x hx
            have hxe : x ≠ e := by intro h; apply hx; simp [h]
            have hxa : x ≠ a := by intro h; apply hx; simp [h]
            have hxr : x ∉ a :: r := by
              intro hm; apply hx
              simp only [List.mem_cons, List.mem_filter] at hm ⊢
              rcases hm with hm | hm
              · exact absurd hm hxa
              · right; right; exact ⟨hm, by simpa using hxe⟩
            have hlast : (s1 a).1 ≠ x := by
              intro hh
              have := (cyc_mem hc (x := a) (by simp)).1
              rw [hh] at this
              exact hx (List.mem_cons_of_mem _ this)
            have hb := hout x hxr
            refine Prod.ext ?_ ?_
            · show ((linked s1 a e) x).1 = 0
              unfold linked
              rw [setSnd_fst, setFst_fst, if_neg hxa, setFst_fst, if_neg hxe, setSnd_fst, hb]
            · show ((linked s1 a e) x).2 = 0
              unfold linked
              rw [setSnd_snd, if_neg hxe, setFst_snd, setFst_snd, setSnd_snd,
                if_neg (Ne.symm hlast), hb]
        by_cases hm : e ∈ a :: r
        · rw [if_pos (hmt.1 hm)]
          -- `e` is unlinked first
          obtain ⟨p, q, hpq⟩ := List.append_of_mem hm
          have hnd := h.nodup
          have hc := h.cyc
          rw [hpq] at hnd hc
          have hc' := cyc_rotate hc
          have hndr : ((e :: q) ++ p).Nodup := by
            refine (List.Perm.nodup_iff ?_).1 hnd
            exact List.perm_append_comm
          have hf : (a :: r).filter (· ≠ e) = p ++ q := by rw [hpq]; exact filter_split hnd
          have hpne : p ≠ [] := by
            intro hp; subst hp; simp at hpq; exact hae hpq.1
          have hu : Cyc (unlinked st.links e) (q ++ p) := by
            rw [List.cons_append] at hc' hndr
            cases hqp : q ++ p with
            | nil => simp at hqp; exact absurd hqp.2 hpne
            | cons y t => rw [hqp] at hc' hndr; exact cyc_unlink hndr hc'
          have hu2 : Cyc (unlinked st.links e) ((a :: r).filter (· ≠ e)) := by
            rw [hf]; exact cyc_rotate hu
          refine key (unlinked st.links e) hu2 ?_
          intro x hx
          have hmm := cyc_mem h.cyc hm
          have hx1 : x ≠ (st.links e).1 := by intro hh; apply hx; rw [hh]; exact hmm.1
          have hx2 : x ≠ (st.links e).2 := by intro hh; apply hx; rw [hh]; exact hmm.2
          unfold unlinked
          refine Prod.ext ?_ ?_
          · rw [setFst_fst, if_neg hx2, setSnd_fst, h.out x hx]
          · rw [setFst_snd, setSnd_snd, if_neg hx1, h.out x hx]
        · rw [if_neg (fun hh => hm (hmt.2 hh))]
          refine key st.links ?_ h.out
          rw [filter_notMem hm]; exact h.cyc

theorem cyc_self {s : Links} {l : List Nat} (hn : l.Nodup) (h : Cyc s l) {e : Nat} (he : e ∈ l) :
    (s e).1 = e ↔ l = [e] := by
  obtain ⟨p, q, rfl⟩ := List.append_of_mem he
  have hc := cyc_rotate h
  have hnd : ((e :: q) ++ p).Nodup := (List.Perm.nodup_iff List.perm_append_comm).1 hn
  rw [List.cons_append] at hc hnd
  have hf := cyc_first hc
  constructor
  · intro h1
    rw [h1] at hf
    cases hqp : q ++ p with
    | nil => simp at hqp; simp [hqp]
    | cons y t =>
      exfalso
      rw [List.getLast_cons (by simp [hqp])] at hf
      have : e ∈ q ++ p := by
        have hm := List.getLast_mem (l := q ++ p) (by simp [hqp])
        rwa [← hf] at hm
      exact (List.nodup_cons.1 hnd).1 this
  · intro h1
    have : q ++ p = [] := by
      have hlen := congrArg List.length h1
      simp at hlen
      have : p.length = 0 ∧ q.length = 0 := by omega
      simp [List.length_eq_zero_iff] at this
      simp [this]
    rw [hf]; simp [this]

/-- The rejection test of `remove` is exactly non-membership. -/
theorem remove_test {st : State} {l : List Nat} (h : Rep st l) (e : Nat) :
    (st.tail = 0 ∨ (st.links e = (0, 0) ∧
      (st.links 0 ≠ (e, e) ∨ (st.tail ≠ 1 ∧ st.tail ≠ e + 1)))) ↔ e ∉ l := by
  by_cases h0 : st.tail = 0
  · cases l with
    | nil => simp [h0]
    | cons a r => have := h.tail; rw [h0] at this; simp at this
  · by_cases h1 : st.tail = e + 1
    · have he : e ∈ l := by
        cases l with
        | nil => exact absurd h.tail h0
        | cons a r =>
          have : st.tail = a + 1 := h.tail
          have : a = e := by omega
          simp [this]
      simp only [h0, false_or, he, not_true, iff_false]
      rintro ⟨hz, hh⟩
      rcases hh with hh | hh
      · -- both neighbours are 0, so 0 is in the list and its neighbours are e
        obtain ⟨p, q, hpq⟩ := List.append_of_mem he
        have hp : p = [] := by
          cases p with
          | nil => rfl
          | cons a p =>
            have ht := h.tail
            rw [hpq] at ht
            have : st.tail = a + 1 := by simpa using ht
            have hae : a = e := by omega
            have hn := h.nodup
            rw [hpq, hae] at hn
            simp at hn
        subst hp
        have hc := h.cyc
        rw [hpq] at hc
        have hl := cyc_first hc
        rw [hz] at hl
        cases q with
        | nil =>
          have : e = 0 := by simpa using hl.symm
          subst this
          exact hh hz
        | cons b q =>
          have h2 := cyc_second hc
          rw [hz] at h2
          have hb : b = 0 := h2.symm
          subst hb
          rcases List.eq_nil_or_concat q with hq | ⟨q', z, hq⟩
          · subst hq
            have hc' : Seg st.links [e, 0, e] := by simpa [Cyc] using hc
            exact hh (Prod.ext hc'.1.2 hc'.2.1.1)
          · subst hq
            simp [getLast_cons_concat] at hl
            subst hl
            have hn := h.nodup
            rw [hpq] at hn
            simp at hn
      · exact hh.2 h1
    · have hmt := mem_test h h1 h0
      rw [hmt]
      simp only [h0, false_or]
      by_cases hz : st.links e = (0, 0) <;> by_cases hz2 : st.links 0 = (e, e) <;>
        by_cases hz3 : st.tail = 1 <;> simp [hz, hz2, hz3, h1] <;> simp_all

theorem set_out {s : Links} {l : List Nat} {e : Nat} (hout : ∀ x, x ∉ l → x ≠ e → s x = (0, 0)) :
    ∀ x, x ∉ l → (s.set e (0, 0)) x = (0, 0) := by
  intro x hx
  by_cases hxe : x = e
  · subst hxe; simp
  · rw [set_other _ _ hxe]; exact hout x hx hxe

theorem unlinked_out {st : State} {l : List Nat} (h : Rep st l) {e : Nat} (he : e ∈ l) :
    ∀ x, x ∉ l → unlinked st.links e x = (0, 0) := by
  intro x hx
  have hmm := cyc_mem h.cyc he
  have hx1 : x ≠ (st.links e).1 := by intro hh; apply hx; rw [hh]; exact hmm.1
  have hx2 : x ≠ (st.links e).2 := by intro hh; apply hx; rw [hh]; exact hmm.2
  unfold unlinked
  refine Prod.ext ?_ ?_
  · rw [setFst_fst, if_neg hx2, setSnd_fst, h.out x hx]
  · rw [setFst_snd, setSnd_snd, if_neg hx1, h.out x hx]

theorem cyc_unlink_filter {st : State} {l : List Nat} (h : Rep st l) {e : Nat} (he : e ∈ l)
    (hne : l ≠ [e]) : Cyc (unlinked st.links e) (l.filter (· ≠ e)) := by
  obtain ⟨p, q, hpq⟩ := List.append_of_mem he
  have hnd := h.nodup
  have hc := h.cyc
  rw [hpq] at hnd hc
  have hc' := cyc_rotate hc
  have hndr : ((e :: q) ++ p).Nodup := (List.Perm.nodup_iff List.perm_append_comm).1 hnd
  rw [List.cons_append] at hc' hndr
  rw [hpq, filter_split hnd]
  apply cyc_rotate
  cases hqp : q ++ p with
  | nil => simp at hqp; exact absurd (by simp [hpq, hqp]) hne
  | cons y t => rw [hqp] at hc' hndr; exact cyc_unlink hndr hc'

theorem rep_remove {st : State} {l : List Nat} (h : Rep st l) (e : Nat) :
    Rep (st.remove e) (Spec.remove l e) := by
  unfold State.remove Lru.remove Spec.remove
  have hrt := remove_test h e
  by_cases he : e ∈ l
  · rw [if_neg (fun hh => hrt.1 hh he)]
    by_cases h1 : (st.links e).1 = e
    · rw [if_pos h1]
      have hl := (cyc_self h.nodup h.cyc he).1 h1
      subst hl
      simp only [Option.getD_some]
      have : [e].filter (· ≠ e) = [] := by simp
      rw [this]
      refine ⟨by simp, by simp, rfl, ?_, trivial⟩
      refine set_out ?_
      intro x _ hx; exact h.out x (by simpa using hx)
    · rw [if_neg h1]
      have hne : l ≠ [e] := fun hh => h1 ((cyc_self h.nodup h.cyc he).2 hh)
      have hcu := cyc_unlink_filter h he hne
      refine ⟨h.nodup.filter _, ?_, ?_, ?_, ?_⟩
      · intro x hx; exact h.lt x (List.mem_filter.1 hx).1
      · show (if st.tail = e + 1 then some ((st.links e).2 + 1) else none).getD st.tail = _
        by_cases ht : st.tail = e + 1
        · rw [if_pos ht]
          cases l with
          | nil => simp at he
          | cons a r =>
            have : st.tail = a + 1 := h.tail
            have hae : a = e := by omega
            subst hae
            have hf : List.filter (· ≠ a) (a :: r) = r := filter_split (p := []) h.nodup
            rw [hf]
            cases r with
            | nil => exact absurd rfl hne
            | cons b r => simp [cyc_second h.cyc]
        · rw [if_neg ht]
          cases l with
          | nil => simp at he
          | cons a r =>
            have h2 : st.tail = a + 1 := h.tail
            have hae : a ≠ e := by intro hh; apply ht; rw [h2, hh]
            rw [List.filter_cons]; simp [hae, h2]
      · refine set_out (s := unlinked st.links e) ?_
        intro x hx hxe
        apply unlinked_out h he
        intro hm; apply hx
        exact List.mem_filter.2 ⟨hm, by simpa using hxe⟩
      · refine cyc_congr (s := unlinked st.links e) ?_ hcu
        intro x hx
        have hxe : x ≠ e := by simpa using (List.mem_filter.1 hx).2
        exact set_other _ _ hxe
  · rw [if_pos (hrt.2 he)]
    rw [filter_notMem he]
    exact ⟨h.nodup, h.lt, h.tail, h.out, h.cyc⟩

theorem filter_last {p : List Nat} {z : Nat} (hn : (p ++ [z]).Nodup) :
    (p ++ [z]).filter (· ≠ z) = p := by
  have := filter_split (p := p) (q := []) (x := z) hn
  simpa using this

theorem rep_evict_nil {st : State} (h : Rep st []) : st.evict = (st, 0) := by
  have h0 : st.tail = 0 := h.tail
  unfold State.evict Lru.evict
  rw [if_pos h0]

/-- Eviction drops the last element of the recency list and reports it. -/
theorem rep_evict {st : State} {l : List Nat} (h : Rep st l) (hl : l ≠ []) :
    Rep st.evict.1 (Spec.evict l) ∧ Spec.victim l = some st.evict.2 := by
  obtain ⟨p, z, hz⟩ : ∃ p z, l = p ++ [z] := by
    rcases List.eq_nil_or_concat l with h0 | ⟨p, z, hz⟩
    · exact absurd h0 hl
    · exact ⟨p, z, by simpa using hz⟩
  have h0 : st.tail ≠ 0 := by
    cases l with
    | nil => exact absurd rfl hl
    | cons a r => have := h.tail; simp at this; omega
  obtain ⟨a, r, har⟩ : ∃ a r, l = a :: r := List.exists_cons_of_ne_nil hl
  have htail : st.tail = a + 1 := by have := h.tail; rw [har] at this; exact this
  have hlru : (st.links a).1 = z := by
    have hc := h.cyc
    rw [har] at hc
    rw [cyc_first hc]
    have : a :: r = p ++ [z] := by rw [← har, hz]
    simp [this]
  have hev : Spec.evict l = p := by unfold Spec.evict; rw [hz, List.dropLast_concat]
  have hvic : Spec.victim l = some z := by unfold Spec.victim; rw [hz]; simp
  have hzl : z ∈ l := by rw [hz]; simp
  have ht1 : st.tail - 1 = a := by omega
  rw [hev, hvic]
  unfold State.evict Lru.evict
  rw [if_neg h0]
  simp only [ht1, hlru]
  by_cases haz : a = z
  · rw [if_pos haz]
    have hself : (st.links z).1 = z := by rw [← haz, hlru, haz]
    have hl1 := (cyc_self h.nodup h.cyc hzl).1 hself
    have hp : p = [] := by
      have hlen := congrArg List.length hl1
      rw [hz] at hlen; simp at hlen; exact hlen
    subst hp
    refine ⟨⟨by simp, by simp, rfl, ?_, trivial⟩, rfl⟩
    refine set_out ?_
    intro x _ hx; exact h.out x (by rw [hl1]; simpa using hx)
  · rw [if_neg haz]
    have hne : l ≠ [z] := by
      intro hh; rw [har] at hh; simp at hh; exact haz hh.1
    have hcu := cyc_unlink_filter h hzl hne
    have hfl : l.filter (· ≠ z) = p := by rw [hz]; exact filter_last (hz ▸ h.nodup)
    rw [hfl] at hcu
    have hold : (st.links z).2 = a := by
      -- z is last, its older neighbour is the head, by rotating
      have hc := h.cyc
      rw [hz] at hc
      have hc' := cyc_rotate hc
      cases p with
      | nil => exact absurd (by simpa using hz) hne
      | cons b p' =>
        have hb : b = a := by rw [har] at hz; simp at hz; exact hz.1.symm
        have := cyc_second (x := z) (y := b) (r := p') (by simpa using hc')
        rw [this, hb]
    have hu : unlinked st.links z =
        (st.links.setSnd (st.links z).1 a).setFst a (st.links z).1 := by
      unfold unlinked; rw [hold]
    refine ⟨⟨?_, ?_, ?_, ?_, ?_⟩, rfl⟩
    · have hnn := h.nodup
      rw [hz] at hnn; exact (List.nodup_append.1 hnn).1
    · intro x hx; exact h.lt x (by rw [hz]; simp [hx])
    · cases p with
      | nil => exact absurd (by simpa using hz) hne
      | cons b p' =>
        have hb : b = a := by rw [har] at hz; simp at hz; exact hz.1.symm
        simp [htail, hb]
    · show ∀ x, x ∉ p → (Links.set _ z (0, 0)) x = (0, 0)
      rw [← hu]
      refine set_out ?_
      intro x hx hxz
      apply unlinked_out h hzl
      intro hm; rw [hz] at hm; simp at hm; rcases hm with hm | hm
      · exact hx hm
      · exact hxz hm
    · show Cyc (Links.set _ z (0, 0)) p
      rw [← hu]
      refine cyc_congr (s := unlinked st.links z) ?_ hcu
      intro x hx
      have hxz : x ≠ z := mem_dropLast_ne_last (hz ▸ h.nodup) hx
      exact set_other _ _ hxz

end Scc.Lru
