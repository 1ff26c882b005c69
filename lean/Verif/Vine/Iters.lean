import Verif.Vine.Touch

/-!
# What iterators rely on
-/

namespace Scc.Vine

open Scc.Grove

local notation "Key" => Nat
local notation "Id" => Nat
local notation "Thr" => Nat

variable {V : Type} {m m' : Mem V} {d d' : Lst} {A A' : Key → Option V} {src src' : Ref → Ref} {lt lt' : Id → Id → Prop} {w w' : View V}

/-! ## The way to the first leaf -/

/-- An object that was on the search path of the least key at some moment. -/
inductive Zero (m : Mem V) (P : Id → Prop) : Ref → Prop
  | leaf {l : Id} (h : P l) : Zero m P (.leaf l)
  | on {n : Id} (h : On m.root m.node 0 (.node n)) : Zero m P (.node n)
  | ret {n : Id} (ha : n < m.nN) (h : (m.node n).cell 0 = .ret) : Zero m P (.node n)
  | step {n : Id} {y : Ref} (h : m.dead (.node n) = true) (hd : (m.node n).dest 0 = .to y) (hy : Zero m P y) : Zero m P (.node n)
  | stop {n : Id} (h : m.dead (.node n) = true) (hd : ∀ y, (m.node n).dest 0 ≠ .to y) : Zero m P (.node n)

theorem Evo.zero (E : Evo m m' A) (I : Inv m A src) {P : Id → Prop} (hP : ∀ l, On m.root m.node 0 (.leaf l) → P l) :
    ∀ (j : Nat) (x : Ref), lvl m.node x = j → On m.root m.node 0 x → Zero m' P x := by
  intro j
  induction j using Nat.strongRecOn with
  | _ j ih =>
    intro x hj ho
    cases x with
    | leaf l => exact .leaf (hP l ho)
    | node n =>
      rcases E.on 0 _ ho with h | h | ⟨h, _⟩
      · exact .on h
      · have hN := E.node n h
        by_cases hd : ∃ y, (m.node n).dest 0 = .to y
        · obtain ⟨y, hd⟩ := hd
          have h1 := I.shape.lev.dest hd
          simp only [lvl_node] at hj
          exact .step h (by rw [hN]; exact hd) (ih _ (by omega) y rfl (.step ho hd))
        · exact .stop h (by rw [hN]; exact fun y hy => hd ⟨y, hy⟩)
      · exact .ret ((I.on_al ho).mono E.nN E.nL) h

theorem Zero.evo (I : Inv m A src) (E : Evo m m' A) {P P' : Id → Prop} (hP : ∀ l, P l → P' l)
    (hP' : ∀ l, On m.root m.node 0 (.leaf l) → P' l) {x : Ref} (h : Zero m P x) : Zero m' P' x := by
  induction h with
  | leaf h => exact .leaf (hP _ h)
  | on h => exact Evo.zero E I hP' _ _ rfl h
  | @ret n ha h => exact .ret (Nat.lt_of_lt_of_le ha E.nN) (E.ret (.node n) ha h)
  | @step n y h hd _ ih =>
    have h' := E.dead _ h
    exact .step h' (by rw [E.node n h']; exact hd) ih
  | @stop n h hd =>
    have h' := E.dead _ h
    exact .stop h' (by rw [E.node n h']; exact hd)

theorem Zero.child (I : Inv m A src) {P : Id → Prop} (hP : ∀ l, On m.root m.node 0 (.leaf l) → P l) {n : Id} {y : Ref}
    (h : Zero m P (.node n)) (hd : (m.node n).dest 0 = .to y) : Zero m P y := by
  cases h with
  | on h =>
    cases y with
    | leaf l => exact .leaf (hP l (.step h hd))
    | node c => exact .on (.step h hd)
  | ret ha h =>
    rw [(I.retired_end (show Retired m.node m.leaf (.node n) from h)).2] at hd; cases hd
  | step _ hd' hy => rw [hd] at hd'; cases hd'; exact hy
  | stop _ hd' => exact absurd hd (hd' y)

theorem Zero.al (I : Inv m A src) {P : Id → Prop} {n : Id} (h : Zero m P (.node n)) : n < m.nN := by
  cases h with
  | on h => exact I.on_al h
  | ret ha _ => exact ha
  | step h _ _ => exact I.shape.dead_al _ h
  | stop h _ => exact I.shape.dead_al _ h

/-- The first child is the one on the search path of the least key. -/
theorem tour_head (N : Node) : (Node.tour N).head? = some (route N.kids 0) := by
  unfold Node.tour
  cases h : N.kids with
  | nil => split <;> simp [route_nil]
  | cons e l => split <;> simp [route_cons]

/-! ## The invariant of iterators -/

/-- A leaf that an iterator can begin with. `S` are the entries that have been in the map all the time, `B` those that were at some moment. -/
def Start (w : View V) (d : Lst) (lt : Id → Id → Prop) (S B : Key → V → Prop) (l : Id) : Prop :=
  d.lst l = true ∧ (∀ k v, w.get l k = some v → B k v) ∧ ∀ k v, S k v → Fit w d lt k v l

/-- `last` is less than a key. -/
def Past (last : Option Key) (k : Key) : Prop := ∀ y, last = some y → y < k

/-- The entries that are still to come, from leaf `l` and from those behind it. -/
def Rest (w : View V) (d : Lst) (lt : Id → Id → Prop) (S B : Key → V → Prop) (Y : List (Key × V)) (l : Id) (R : List (Key × V))
    (last : Option Key) : Prop :=
  d.lst l = true ∧ R.Pairwise (fun a b => a.1 < b.1) ∧ (∀ e ∈ R, B e.1 e.2) ∧
    ∀ k v, S k v → (k, v) ∈ Y ∨ (Past last k ∧ ((k, v) ∈ R ∨ (Ahead w d lt l k ∧ ∀ e ∈ R, e.1 < k)))

/-- What holds at the places of an iterator. `Y` is what it has yielded. -/
def ItOk (m : Mem V) (w : View V) (d : Lst) (lt : Id → Id → Prop) (S B : Key → V → Prop) (Y : List (Key × V)) : IPc V → Prop
  | .idle => True
  | .top => True
  | .enter n st => Zero m (Start w d lt S B) (.node n) ∧ (st = [] → ∀ k v, S k v → Good m (· = some v) k (.node n))
  | .slot n ver todo st => Zero m (Start w d lt S B) (.node n) ∧ (st = [] → ∀ k v, S k v → Good m (· = some v) k (.node n)) ∧
    ver ≤ m.ver n ∧ (m.ver n = ver → todo.head? = some (route (m.node n).kids 0))
  | .got n ver r _ st => Zero m (Start w d lt S B) (.node n) ∧ (st = [] → ∀ k v, S k v → Good m (· = some v) k (.node n)) ∧
    ver ≤ m.ver n ∧ (m.ver n = ver → Zero m (Start w d lt S B) r)
  | .none st => st = [] → ∀ k v, ¬ S k v
  | .first l => Start w d lt S B l
  | .scan l R last => Rest w d lt S B Y l R last
  | .walk _ a last => d.lst a = true ∧ ∀ k v, S k v → (k, v) ∈ Y ∨ (Past last k ∧ Ahead w d lt a k)
  | .look _ b last => d.lst b = true ∧
    ∀ k v, S k v → (k, v) ∈ Y ∨ (Past last k ∧ ∀ z, Live w d z → w.get z k ≠ none → z = b ∨ lt b z)
  | .snap _ b last => d.lst b = true ∧ (∀ k v, w.get b k = some v → B k v) ∧
    ∀ k v, S k v → (k, v) ∈ Y ∨ (Past last k ∧ Fit w d lt k v b)
  | .check _ b R last => Rest w d lt S B Y b R last

/-- What steps of others do. -/
structure Env (m m' : Mem V) (A : Key → Option V) (d d' : Lst) (A' : Key → Option V) (lt lt' : Id → Id → Prop) : Prop where
  evo : Evo m m' A
  vers : Vers m m'
  flow : Flow (view m d A) d lt (view m' d' A') d' lt'
  world : World (view m' d' A')
  vinv : VInv (view m' d' A') d' lt'

theorem Start.first (B0 : Base m d A src) (I : VInv (view m d A) d lt) {S B : Key → V → Prop} (hS : ∀ k v, S k v → A k = some v)
    (hB : ∀ k v, A k = some v → B k v) {l : Id} (h : On m.root m.node 0 (.leaf l)) : Start (view m d A) d lt S B l := by
  have W := B0.world
  refine ⟨(I.lit l ⟨0, h⟩).1, fun k v hg => ?_, fun k v hs => I.fit_first W h (hS k v hs)⟩
  have := W.mean k l (W.first l k h (by rw [hg]; simp))
  rw [hg] at this
  exact hB k v this.symm

theorem Start.flow (F : Flow w d lt w' d' lt') (W' : World w') (I' : VInv w' d' lt') {S B S' B' : Key → V → Prop}
    (h1 : ∀ k v, S' k v → S k v ∧ w.map k = some v ∧ w'.map k = some v) (h2 : ∀ k v, B k v ∨ w'.map k = some v → B' k v) {l : Id}
    (h : Start w d lt S B l) : Start w' d' lt' S' B' l := by
  obtain ⟨g1, g2, g3⟩ := h
  refine ⟨F.lst l g1, fun k v hg => h2 k v ?_, fun k v hs => ?_⟩
  · exact (F.was l k v g1 hg).imp (g2 k v) id
  · obtain ⟨s1, s2, s3⟩ := h1 k v hs
    exact F.fit W' I' g1 s2 s3 (g3 k v s1)

theorem Rest.flow (F : Flow w d lt w' d' lt') (I' : VInv w' d' lt') {S B S' B' : Key → V → Prop}
    (h1 : ∀ k v, S' k v → S k v ∧ w.map k = some v ∧ w'.map k = some v) (h2 : ∀ k v, B k v ∨ w'.map k = some v → B' k v) {Y : List (Key × V)}
    {l : Id} {R : List (Key × V)} {last : Option Key} (h : Rest w d lt S B Y l R last) : Rest w' d' lt' S' B' Y l R last := by
  obtain ⟨g1, g2, g3, g4⟩ := h
  refine ⟨F.lst l g1, g2, fun e he => h2 _ _ (.inl (g3 e he)), fun k v hs => ?_⟩
  obtain ⟨s1, s2, s3⟩ := h1 k v hs
  exact (g4 k v s1).imp id fun h => ⟨h.1, h.2.imp id fun h => ⟨F.ahead I' g1 s2 s3 h.1, h.2⟩⟩

/-- Steps of others. -/
theorem ItOk.env (B0 : Base m d A src) (I : VInv (view m d A) d lt) (E : Env m m' A d d' A' lt lt') {S B S' B' : Key → V → Prop}
    (h1 : ∀ k v, S' k v → S k v ∧ A k = some v ∧ A' k = some v) (h2 : ∀ k v, B k v ∨ A' k = some v → B' k v)
    (h3 : ∀ k v, A k = some v → B k v) {Y : List (Key × V)} {p : IPc V}
    (h : ItOk m (view m d A) d lt S B Y p) : ItOk m' (view m' d' A') d' lt' S' B' Y p := by
  have J := B0.inv
  have F := E.flow
  have start : ∀ l, Start (view m d A) d lt S B l → Start (view m' d' A') d' lt' S' B' l := fun l => Start.flow F E.world E.vinv h1 h2
  have zero : ∀ x, Zero m (Start (view m d A) d lt S B) x → Zero m' (Start (view m' d' A') d' lt' S' B') x := by
    intro x hx
    refine hx.evo J E.evo start fun l hl => Start.flow (S := S') F E.world E.vinv (fun k v hs => ⟨hs, (h1 k v hs).2⟩) h2 ?_
    exact Start.first B0 I (fun k v hs => (h1 k v hs).2.1) h3 hl
  have good : ∀ n, (∀ k v, S k v → Good m (· = some v) k (.node n)) → ∀ k v, S' k v → Good m' (· = some v) k (.node n) := by
    intro n h k v hs
    obtain ⟨s1, s2, _⟩ := h1 k v hs
    exact (h k v s1).evo J E.evo (fun _ h => h) s2
  cases p with
  | idle => trivial
  | top => trivial
  | enter n st => exact ⟨zero _ h.1, fun e => good n (h.2 e)⟩
  | slot n ver todo st =>
    obtain ⟨g1, g2, g3, g4⟩ := h
    obtain ⟨w1, w2⟩ := E.vers n (g1.al J)
    exact ⟨zero _ g1, fun e => good n (g2 e), Nat.le_trans g3 w1, fun e => by rw [w2 (by omega)]; exact g4 (by omega)⟩
  | got n ver r todo st =>
    obtain ⟨g1, g2, g3, g4⟩ := h
    obtain ⟨w1, w2⟩ := E.vers n (g1.al J)
    exact ⟨zero _ g1, fun e => good n (g2 e), Nat.le_trans g3 w1, fun e => zero _ (g4 (by omega))⟩
  | none st => exact fun e k v hs => h e k v (h1 k v hs).1
  | first l => exact start l h
  | scan l R last => exact Rest.flow F E.vinv h1 h2 h
  | walk c a last =>
    obtain ⟨g1, g2⟩ := h
    refine ⟨F.lst a g1, fun k v hs => ?_⟩
    obtain ⟨s1, s2, s3⟩ := h1 k v hs
    exact (g2 k v s1).imp id fun h => ⟨h.1, F.ahead E.vinv g1 s2 s3 h.2⟩
  | look c b last =>
    obtain ⟨g1, g2⟩ := h
    refine ⟨F.lst b g1, fun k v hs => ?_⟩
    obtain ⟨s1, s2, s3⟩ := h1 k v hs
    exact (g2 k v s1).imp id fun h => ⟨h.1, F.from E.vinv g1 s2 s3 h.2⟩
  | snap c b last =>
    obtain ⟨g1, g2, g3⟩ := h
    refine ⟨F.lst b g1, fun k v hg => h2 k v ((F.was b k v g1 hg).imp (g2 k v) id), fun k v hs => ?_⟩
    obtain ⟨s1, s2, s3⟩ := h1 k v hs
    exact (g3 k v s1).imp id fun h => ⟨h.1, F.fit E.world E.vinv g1 s2 s3 h.2⟩
  | check c b R last => exact Rest.flow F E.vinv h1 h2 h

/-! ## Steps of an iterator -/

theorem mem_dropWhile {α : Type} {p : α → Bool} {l : List α} {a : α} (h : a ∈ l) (hp : p a = false) : a ∈ l.dropWhile p := by
  induction l with
  | nil => cases h
  | cons b l ih =>
    rw [List.dropWhile_cons]
    split
    · next hb =>
      rcases List.mem_cons.1 h with rfl | h
      · rw [hp] at hb; cases hb
      · exact ih h
    · exact h

/-- What was yielded after a step of an iterator. -/
def IEv.out (Y : List (Key × V)) : IEv V → List (Key × V)
  | .give _ k v => (k, v) :: Y
  | _ => Y

/-- The events that iterators have a part in that has begun. -/
def IEv.on : IEv V → Prop
  | .start _ => False
  | _ => True

/-- What has to hold when something happens. -/
def IEv.ok (S B : Key → V → Prop) (Y : List (Key × V)) : IEv V → Prop
  | .give _ k v => B k v
  | .stop _ => ∀ k v, S k v → (k, v) ∈ Y
  | _ => True

/-- A leaf is read. -/
theorem Snap.rest {L : Leaf V} {R : List (Key × V)} (h : Snap L R) {S B : Key → V → Prop} {l : Id} (hl : d.lst l = true)
    (hw : w.get l = L.get) {Y : List (Key × V)} {last : Option Key} (hB : ∀ k v, w.get l k = some v → B k v)
    (hS : ∀ k v, S k v → (k, v) ∈ Y ∨ (Past last k ∧ Fit w d lt k v l)) : Rest w d lt S B Y l R last := by
  refine ⟨hl, h.1, fun e he => hB _ _ (by rw [hw]; exact (h.2 _ _).1 he), fun k v hs => (hS k v hs).imp id fun g => ⟨g.1, ?_⟩⟩
  rcases g.2 with g | ⟨g1, g2⟩
  · exact .inl ((h.2 _ _).2 (by rw [← hw]; exact g))
  · exact .inr ⟨g1, fun e he => g2 _ (by rw [hw, (h.2 e.1 e.2).1 he]; simp)⟩

theorem ItOk.iter (B0 : Base m d A src) (I : VInv (view m d A) d lt) {S B : Key → V → Prop} {Y : List (Key × V)} {p p' : IPc V} {e : IEv V}
    {t : Thr} (hS : ∀ k v, S k v → A k = some v) (hB : ∀ k v, A k = some v → B k v) (hp : ∀ f st, p ≠ .none (f :: st))
    (hs : Iter m d t p e p') (he : e.on) (h : ItOk m (view m d A) d lt S B Y p) :
    e.ok S B Y ∧ ItOk m (view m d A) d lt S B (e.out Y) p' := by
  have J := B0.inv
  have W := B0.world
  have first : ∀ l, On m.root m.node 0 (.leaf l) → Start (view m d A) d lt S B l := fun l => Start.first B0 I hS hB
  cases hs with
  | start => exact he.elim
  | empty h0 =>
    refine ⟨fun k v hs => ?_, trivial⟩
    obtain ⟨l, hl⟩ := W.path k (by rw [show (view m d A).map k = A k from rfl, hS k v hs]; simp)
    obtain ⟨r, hr, _⟩ := On.path hl
    rw [h0] at hr; cases hr
  | root n h0 => exact ⟨trivial, .on (.root h0), fun _ k v _ => .on (.root h0)⟩
  | enter n st => exact ⟨trivial, h.1, h.2, Nat.le_refl _, fun _ => tour_head _⟩
  | fetch n ver i r todo st h0 =>
    obtain ⟨g1, g2, g3, g4⟩ := h
    refine ⟨trivial, g1, g2, g3, fun e => g1.child J first ?_⟩
    have := g4 e
    simp only [List.head?_cons, Option.some.injEq] at this
    simp only [Node.dest, ← this, h0]
  | retry n ver i todo st hi h0 => exact ⟨trivial, h.1, h.2.1⟩
  | null n ver todo st h0 =>
    obtain ⟨g1, g2, g3, g4⟩ := h
    refine ⟨trivial, fun e k v hs => ?_⟩
    have hc : (m.node n).cell 0 = .null ∨ (m.node n).cell 0 = .ret := by
      cases hc : (m.node n).cell 0 with
      | null => exact .inl rfl
      | ret => exact .inr rfl
      | to y => exact absurd hc (h0 y)
    have := (g2 e k v hs).none J (hS k v hs) hc
    cases this
  | noneEnd => exact ⟨fun k v hs => absurd hs (h rfl k v), trivial⟩
  | noneUp n ver st => exact absurd rfl (hp _ _)
  | noneNext n ver i todo st => exact absurd rfl (hp _ _)
  | invalid n ver r todo st h0 => exact ⟨trivial, h.1, h.2.1⟩
  | down n ver c todo st h0 =>
    obtain ⟨g1, g2, g3, g4⟩ := h
    exact ⟨trivial, g4 h0, fun e => by cases e⟩
  | leaf n ver l todo st h0 =>
    obtain ⟨g1, g2, g3, g4⟩ := h
    refine ⟨trivial, ?_⟩
    cases g4 h0 with
    | leaf h => exact h
  | first l R h0 =>
    obtain ⟨g1, g2, g3⟩ := h
    exact ⟨trivial, Snap.rest h0 g1 rfl g2 fun k v hs => .inr ⟨(fun y hy => by cases hy), g3 k v hs⟩⟩
  | give l k v R last =>
    obtain ⟨g1, g2, g3, g4⟩ := h
    have hp := List.pairwise_cons.1 g2
    refine ⟨g3 (k, v) (by simp), g1, hp.2, fun e he => g3 e (List.mem_cons_of_mem _ he), fun k' v' hs => ?_⟩
    rcases g4 k' v' hs with h | ⟨h1, h | ⟨h2, h3⟩⟩
    · exact .inl (List.mem_cons_of_mem _ h)
    · rcases List.mem_cons.1 h with h | h
      · exact .inl (h ▸ List.mem_cons_self ..)
      · exact .inr ⟨(fun y hy => by cases hy; exact hp.1 _ h), .inl h⟩
    · exact .inr ⟨(fun y hy => by cases hy; exact h3 (k, v) (by simp)), .inr ⟨h2, fun e he => h3 e (List.mem_cons_of_mem _ he)⟩⟩
  | jump l last =>
    obtain ⟨g1, g2, g3, g4⟩ := h
    refine ⟨trivial, g1, fun k v hs => (g4 k v hs).imp id fun h => ⟨h.1, ?_⟩⟩
    rcases h.2 with h | h
    · cases h
    · exact h.1
  | next c a b last h0 =>
    obtain ⟨g1, g2⟩ := h
    obtain ⟨l1, l2, l3⟩ := I.link a b h0
    refine ⟨trivial, l1, fun k v hs => (g2 k v hs).imp id fun h => ⟨h.1, fun z hz hg => ?_⟩⟩
    rcases I.tot z b hz.1.1 l1 with h' | h' | h'
    · have := l3 z hz.1.1 (h.2 z hz hg) h'
      rw [hz.1.2] at this; cases this
    · exact .inl h'
    · exact .inr h'
  | last c a last h0 =>
    obtain ⟨g1, g2⟩ := h
    refine ⟨fun k v hs => (g2 k v hs).elim id fun h => ?_, trivial⟩
    obtain ⟨z, hz, hg⟩ := I.complete W (hS k v hs)
    have hne : (view m d A).get z k ≠ none := by rw [hg]; simp
    rcases I.last a g1 h0 z hz.1.1 (h.2 z hz hne) with h' | ⟨_, _, h'⟩
    · rw [hz.1.2] at h'; cases h'
    · exact absurd (h' k) hne
  | deleted c b b' last hg h0 =>
    obtain ⟨g1, g2⟩ := h
    obtain ⟨l1, l2, l3⟩ := I.link b b' h0
    refine ⟨trivial, l1, fun k v hs => (g2 k v hs).imp id fun h => ⟨h.1, fun z hz hgz => ?_⟩⟩
    rcases h.2 z hz hgz with rfl | hlt
    · rw [hz.1.2] at hg; cases hg
    rcases I.tot z b' hz.1.1 l1 with h' | h' | h'
    · have := l3 z hz.1.1 hlt h'
      rw [hz.1.2] at this; cases this
    · exact .inl h'
    · exact .inr h'
  | deletedLast c b last hg h0 =>
    obtain ⟨g1, g2⟩ := h
    refine ⟨fun k v hs => (g2 k v hs).elim id fun h => ?_, trivial⟩
    obtain ⟨z, hz, hgz⟩ := I.complete W (hS k v hs)
    have hne : (view m d A).get z k ≠ none := by rw [hgz]; simp
    rcases h.2 z hz hne with rfl | hlt
    · rw [hz.1.2] at hg; cases hg
    rcases I.last b g1 h0 z hz.1.1 hlt with h' | ⟨_, _, h'⟩
    · rw [hz.1.2] at h'; cases h'
    · exact absurd (h' k) hne
  | valid c b last hg =>
    obtain ⟨g1, g2⟩ := h
    exact ⟨trivial, g1, fun k v hgk => hB k v (I.sound W ⟨g1, hg⟩ hgk),
      fun k v hs => (g2 k v hs).imp id fun h => ⟨h.1, I.fit W ⟨g1, hg⟩ (hS k v hs) h.2⟩⟩
  | snap c b R last h0 =>
    obtain ⟨g1, g2, g3⟩ := h
    exact ⟨trivial, Snap.rest h0 g1 rfl g2 g3⟩
  | clear c b R last h0 hR => exact ⟨trivial, h⟩
  | clearNext c b last h0 =>
    obtain ⟨g1, g2, g3, g4⟩ := h
    refine ⟨trivial, g1, fun k v hs => (g4 k v hs).imp id fun h => ⟨h.1, ?_⟩⟩
    rcases h.2 with h | h
    · cases h
    · exact h.1
  | compare c b R y h0 hR =>
    obtain ⟨g1, g2, g3, g4⟩ := h
    have sub := List.dropWhile_sublist (l := R) (fun e => decide (e.1 ≤ y))
    refine ⟨trivial, g1, g2.sublist sub, fun e he => g3 e (sub.subset he), fun k v hs => (g4 k v hs).imp id fun h => ⟨h.1, ?_⟩⟩
    refine h.2.imp (fun h' => mem_dropWhile h' ?_) fun h => ⟨h.1, fun e he => h.2 e (sub.subset he)⟩
    have := h.1 y rfl
    simp; omega
  | compareNext c b R y h0 hR =>
    obtain ⟨g1, g2, g3, g4⟩ := h
    refine ⟨trivial, g1, fun k v hs => (g4 k v hs).imp id fun h => ⟨h.1, ?_⟩⟩
    rcases h.2 with h' | h'
    · have h1 := h.1 y rfl
      have : (k, v) ∈ R.dropWhile fun e => decide (e.1 ≤ y) := mem_dropWhile h' (by simp; omega)
      rw [hR] at this; cases this
    · exact h'.1

end Scc.Vine
