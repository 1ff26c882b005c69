import Verif.Grove.Demo
import Verif.Grove.Legal
import Verif.Vine.Model

/-!
# Executions of the tree index with its linked list, by computation
-/

namespace Scc.Vine

open Scc.Grove

local notation "Key" => Nat
local notation "Id" => Nat
local notation "Thr" => Nat

/-- Steps of a call. -/
def callB (s : ISt Nat) (t : Thr) : Option (ISt Nat × IEv Nat) :=
  match (next s.base t).or (extra s.base t) with
  | some (b, e) =>
    if b.mem.nL = s.base.mem.nL then some ({ s with base := b }, .base e)
    else some ({ s with base := b, list := s.list.fresh s.base.mem.nL }, .base e)
  | none => none

/-- Insertion into a sorted list. -/
def sortIn (e : Key × Nat) : List (Key × Nat) → List (Key × Nat)
  | [] => [e]
  | f :: r => if e.1 ≤ f.1 then e :: f :: r else f :: sortIn e r

/-- The snapshot of a leaf, with a check. -/
def snapB (l : Leaf Nat) : Option (List (Key × Nat)) :=
  let R := l.m.foldr sortIn []
  if R.Pairwise (fun a b => a.1 < b.1) ∧ (∀ e ∈ R, l.get e.1 = some e.2) ∧ ∀ e ∈ l.m, e ∈ R then some R else none

theorem snapB_sound {l : Leaf Nat} {R : List (Key × Nat)} (h : snapB l = some R) : Snap l R := by
  simp only [snapB] at h
  split at h
  case isFalse => cases h
  case isTrue hp =>
    cases h
    refine ⟨hp.1, fun k v => ⟨fun hm => hp.2.1 (k, v) hm, fun hg => hp.2.2 (k, v) ?_⟩⟩
    simp only [Leaf.get, Option.map_eq_some_iff] at hg
    obtain ⟨e, he, hv⟩ := hg
    have := List.find?_some he
    have h2 : e = (k, v) := by
      cases e
      simp at this hv
      simp [this, hv]
    rw [← h2]
    exact List.mem_of_find?_eq_some he

/-- A check of `Pass`. -/
def passB (d : Lst) (m m' : Mem Nat) (n : Id) : Bool :=
  match m.phase n, m'.phase n with
  | .free, .locked => !d.late n
  | .locked, .single _ x _ => !d.gone x
  | .locked, .split _ (.leaf x) _ _ _ _ => !d.gone x
  | .locked, .coal i => match (m.node n).cell i with | .to (.leaf l) => d.gone l | _ => true
  | .locked, .locked =>
    match (m.node n).cell 0 with | .to (.leaf l) => d.gone l || (m'.node n).cell 0 != .ret | _ => true
  | .single _ x _, .locked => d.gone x
  | .split _ (.leaf _) (.leaf xl) _ _ _, .ins _ _ _ _ _ _ _ => d.lst xl
  | .split _ (.leaf _) (.leaf xl) _ _ _, .full _ _ _ _ _ _ _ => d.lst xl
  | .ins _ (.leaf x) _ _ _ _ false, .ins _ _ _ _ _ _ true => d.gone x
  | .full _ (.leaf _) _ (.leaf xh) _ _ none, .full _ _ _ _ _ _ (some _) => !d.gone xh
  | .full _ (.leaf _) (.leaf xl) _ _ _ none, .free => d.gone xl
  | .fin 0 _ _ _ _, .fin 1 _ _ _ _ => d.gone (d.old n)
  | _, _ => true

theorem passB_sound {d : Lst} {m m' : Mem Nat} {n : Id} (h : passB d m m' n = true) : Pass d m m' n := by
  unfold passB at h
  unfold Pass
  split at h <;> simp_all
  · intro l hl
    simpa [hl] using h
  · intro l hl hr
    simpa [hl, hr] using h

/-- Every step of an iterator. -/
def iterB (m : Mem Nat) (d : Lst) (t : Thr) : IPc Nat → Option (IEv Nat × IPc Nat)
  | .idle => some (.start t, .top)
  | .top => match m.root with
    | none => some (.stop t, .idle)
    | some n => some (.tau, .enter n [])
  | .enter n st => some (.tau, .slot n (m.ver n) (Node.tour (m.node n)) st)
  | .slot _ _ [] _ => none
  | .slot n ver (i :: todo) st => match (m.node n).cell i with
    | .to r => some (.tau, .got n ver r todo st)
    | _ => if i = 0 then some (.tau, .none st) else some (.tau, .enter n st)
  | .none [] => some (.stop t, .idle)
  | .none ((_, _, []) :: st) => some (.tau, .none st)
  | .none ((n, ver, i :: todo) :: st) => some (.tau, .slot n ver (i :: todo) st)
  | .got n ver r todo st =>
    if m.ver n ≠ ver then some (.tau, .enter n st) else
    match r with
    | .node c => some (.tau, .enter c ((n, ver, todo) :: st))
    | .leaf l => some (.tau, .first l)
  | .first l => (snapB (m.leaf l)).map fun R => (.tau, .scan l R none)
  | .scan l ((k, v) :: R) _ => some (.give t k v, .scan l R (some k))
  | .scan l [] last => some (.tau, .walk l l last)
  | .walk c a last => match d.link a with
    | some b => some (.tau, .look c b last)
    | none => some (.stop t, .idle)
  | .look c b last =>
    if d.gone b = false then some (.tau, .snap c b last) else
    match d.link b with
    | some b' => some (.tau, .look c b' last)
    | none => some (.stop t, .idle)
  | .snap c b last => (snapB (m.leaf b)).map fun R => (.tau, .check c b R last)
  | .check c b R last =>
    if last = none ∨ d.clear c = true then
      match R with
      | [] => some (.tau, .walk c b last)
      | e :: R => some (.tau, .scan b (e :: R) last)
    else match last with
      | none => none
      | some y => match R.dropWhile fun e => decide (e.1 ≤ y) with
        | [] => some (.tau, .walk c b (some y))
        | e :: R => some (.tau, .scan b (e :: R) (some y))

theorem iterB_sound {m : Mem Nat} {d : Lst} {t : Thr} {p p' : IPc Nat} {e : IEv Nat}
    (h : iterB m d t p = some (e, p')) : Iter m d t p e p' := by
  unfold iterB at h
  split at h
  case h_1 => cases h; exact .start
  case h_2 =>
    split at h <;> cases h
    · exact .empty ‹_›
    · exact .root _ ‹_›
  case h_3 => cases h; exact .enter _ _
  case h_4 => cases h
  case h_5 n ver i todo st =>
    split at h
    case h_1 => cases h; exact .fetch _ _ _ _ _ _ ‹_›
    case h_2 hn =>
      split at h <;> cases h
      · subst i; exact .null _ _ _ _ hn
      · exact .retry _ _ _ _ _ ‹_› hn
  case h_6 => cases h; exact .noneEnd
  case h_7 => cases h; exact .noneUp _ _ _
  case h_8 => cases h; exact .noneNext _ _ _ _ _
  case h_9 =>
    split at h
    case isTrue hv => cases h; exact .invalid _ _ _ _ _ hv
    case isFalse hv =>
      split at h <;> cases h
      · exact .down _ _ _ _ _ (Decidable.not_not.1 hv)
      · exact .leaf _ _ _ _ _ (Decidable.not_not.1 hv)
  case h_10 l =>
    cases hs : snapB (m.leaf l) with
    | none => simp [hs] at h
    | some R =>
      simp only [hs, Option.map_some, Option.some.injEq, Prod.mk.injEq] at h
      obtain ⟨rfl, rfl⟩ := h
      exact .first _ _ (snapB_sound hs)
  case h_11 => cases h; exact .give _ _ _ _ _
  case h_12 => cases h; exact .jump _ _
  case h_13 =>
    split at h <;> cases h
    · exact .next _ _ _ _ ‹_›
    · exact .last _ _ _ ‹_›
  case h_14 =>
    split at h
    case isTrue hg => cases h; exact .valid _ _ _ hg
    case isFalse hg =>
      split at h <;> cases h
      · exact .deleted _ _ _ _ (by simpa using hg) ‹_›
      · exact .deletedLast _ _ _ (by simpa using hg) ‹_›
  case h_15 c b last =>
    cases hs : snapB (m.leaf b) with
    | none => simp [hs] at h
    | some R =>
      simp only [hs, Option.map_some, Option.some.injEq, Prod.mk.injEq] at h
      obtain ⟨rfl, rfl⟩ := h
      exact .snap _ _ _ _ (snapB_sound hs)
  case h_16 c b R last =>
    split at h
    case isTrue hc =>
      split at h <;> cases h
      · exact .clearNext _ _ _ hc
      · exact .clear _ _ _ _ hc (by simp)
    case isFalse hc =>
      have hcl : d.clear c = false := by
        cases hd : d.clear c with
        | false => rfl
        | true => exact absurd (.inr hd) hc
      split at h
      · cases h
      · rename_i y
        split at h <;> cases h
        · rename_i hR; exact .compareNext _ _ _ _ hcl hR
        · rename_i hR; rw [← hR]; exact .compare _ _ _ _ hcl (by rw [hR]; simp)

/-- Changes of the list. -/
inductive Rel
  | pushCopy (n : Nat)
  | pushHigh (n : Nat)
  | pushLow (n : Nat)
  | delCopy (n : Nat)
  | delSplit (n : Nat)
  | delCommit (n : Nat)
  | delHigh (n : Nat)
  | delLow (n : Nat)
  | delRet (n j : Nat)
  | unmark (n : Nat)
  | skip (a : Nat)

/-- A change of the list, if it is possible. -/
def relB (m : Mem Nat) (d : Lst) : Rel → Option Lst
  | .pushCopy n => match m.phase n with
    | .single _ x y => if d.lst y = false ∧ d.gone x = false then some (d.push x y) else none
    | _ => none
  | .pushHigh n => match m.phase n with
    | .split _ (.leaf x) (.leaf _) (.leaf xh) _ _ => if d.lst xh = false ∧ d.gone x = false then some (d.push x xh) else none
    | _ => none
  | .pushLow n => match m.phase n with
    | .split _ (.leaf x) (.leaf xl) (.leaf xh) _ _ =>
      if d.lst xh = true ∧ d.lst xl = false ∧ d.gone x = false then some (d.push x xl) else none
    | _ => none
  | .delCopy n => match m.phase n with
    | .single _ x y => if d.lst y = true then some (d.delete x) else none
    | _ => none
  | .delSplit n => match m.phase n with
    | .ins _ (.leaf x) _ _ _ _ false => some (d.delete x)
    | _ => none
  | .delCommit n => match m.phase n with
    | .fin 0 _ _ _ _ => some (d.delete (d.old n))
    | _ => none
  | .delHigh n => match m.phase n with
    | .full _ (.leaf _) (.leaf _) (.leaf xh) _ _ none => some (d.delete xh)
    | _ => none
  | .delLow n => match m.phase n with
    | .full _ (.leaf _) (.leaf xl) (.leaf xh) _ _ none => if d.gone xh = true then some (d.delete xl) else none
    | _ => none
  | .delRet n j => match (m.node n).cell j with
    | .to (.leaf l) =>
      if m.phase n = .locked ∧ j ∈ (m.node n).slots ∧ (m.leaf l).retired = true then some (d.delete l) else none
    | _ => none
  | .unmark n =>
    if d.late n = true then some { d with mark := upd d.mark (d.old n) false, late := upd d.late n false } else none
  | .skip a => match d.link a with
    | some b => if d.gone b = true then some { d with link := upd d.link a (d.link b) } else none
    | none => none

theorem relB_sound {m : Mem Nat} {d d' : Lst} {r : Rel} (h : relB m d r = some d') : Relink m d d' := by
  cases r <;> simp only [relB] at h
  case unmark n =>
    split at h <;> cases h
    exact .unmark _ ‹_›
  case pushCopy =>
    split at h <;> try (cases h; done)
    split at h <;> cases h
    rename_i hp hc
    exact .pushCopy _ _ _ _ hp hc.1 hc.2
  case pushHigh =>
    split at h <;> try (cases h; done)
    split at h <;> cases h
    rename_i hp hc
    exact .pushHigh _ _ _ _ _ _ _ hp hc.1 hc.2
  case pushLow =>
    split at h <;> try (cases h; done)
    split at h <;> cases h
    rename_i hp hc
    exact .pushLow _ _ _ _ _ _ _ hp hc.1 hc.2.1 hc.2.2
  case delCopy =>
    split at h <;> try (cases h; done)
    split at h <;> cases h
    rename_i hp hc
    exact .delCopy _ _ _ _ hp hc
  case delSplit =>
    split at h <;> cases h
    exact .delSplit _ _ _ _ _ _ _ ‹_›
  case delCommit =>
    split at h <;> cases h
    exact .delCommit _ _ _ _ _ ‹_›
  case delHigh =>
    split at h <;> cases h
    exact .delHigh _ _ _ _ _ _ _ ‹_›
  case delLow =>
    split at h <;> try (cases h; done)
    split at h <;> cases h
    rename_i hp hc
    exact .delLow _ _ _ _ _ _ _ hp hc
  case delRet =>
    split at h <;> try (cases h; done)
    split at h <;> cases h
    rename_i hp hc
    exact .delRet _ _ _ hc.1 hc.2.1 hp hc.2.2
  case skip =>
    split at h <;> try (cases h; done)
    split at h <;> cases h
    rename_i hp hc
    exact .skip _ _ hp hc

/-- Steps to be tried. -/
inductive Act
  | call (t : Thr) (k : Key) (o : Op Nat)
  /-- the next step of a call, this many times -/
  | go (t n : Nat)
  | lock (t n : Nat)
  | chg (c : Chg)
  | rel (r : Rel)
  /-- the next step of an iterator, this many times -/
  | it (t n : Nat)

/-- A structural change. -/
def chgB (s : ISt Nat) (m : Mem Nat) : Option (ISt Nat) :=
  if (List.range m.nN).all (passB s.list s.base.mem m) then
    some { s with base := { s.base with mem := m }, list := s.list.after s.base.mem m }
  else none

/-- Steps of a call. -/
def goesB (t : Thr) : Nat → ISt Nat → List (IEv Nat) → Option (ISt Nat × List (IEv Nat))
  | 0, s, es => some (s, es)
  | n + 1, s, es =>
    match callB s t with
    | some (s', e) => goesB t n s' (e :: es)
    | none => none

/-- Steps of an iterator. -/
def itsB (t : Thr) : Nat → ISt Nat → List (IEv Nat) → Option (ISt Nat × List (IEv Nat))
  | 0, s, es => some (s, es)
  | n + 1, s, es =>
    match iterB s.base.mem s.list t (s.it t) with
    | some (e, p) => itsB t n { s with it := upd s.it t p } (e :: es)
    | none => none

/-- Try steps. -/
def playB : List Act → ISt Nat → List (IEv Nat) → Option (ISt Nat × List (IEv Nat))
  | [], s, es => some (s, es)
  | .call t k o :: l, s, es =>
    match exec s.base (.call t k o) with
    | some (b, e) => playB l { s with base := b } (.base e :: es)
    | none => none
  | .lock t n :: l, s, es =>
    if s.base.mem.phase n = .free ∧ (s.base.th t).pc ≠ .idle ∧ (n ∈ (s.base.th t).vis ∨ s.base.mem.root = some n) then
      match chgB s (s.base.mem.setPhase n .locked) with
      | some s' => playB l s' (.base .tau :: es)
      | none => none
    else none
  | .go t n :: l, s, es =>
    match goesB t n s es with
    | some (s', es') => playB l s' es'
    | none => none
  | .chg c :: l, s, es =>
    match chg s.base.mem c with
    | some m => match chgB s m with
      | some s' => playB l s' (.base .tau :: es)
      | none => none
    | none => none
  | .rel r :: l, s, es =>
    match relB s.base.mem s.list r with
    | some d => playB l { s with list := d } (.tau :: es)
    | none => none
  | .it t n :: l, s, es =>
    match itsB t n s es with
    | some (s', es') => playB l s' es'
    | none => none

theorem callB_sound {s s' : ISt Nat} {t : Thr} {e : IEv Nat} (h : callB s t = some (s', e)) : IStep s e s' := by
  unfold callB at h
  split at h
  case h_2 => cases h
  case h_1 b e' he =>
    have hs : Call s.base e' b := by
      cases hn : next s.base t with
      | some x => rw [hn] at he; simp at he; subst he; exact next_call hn
      | none => rw [hn] at he; simp at he; exact extra_call he
    split at h <;> cases h
    · exact .call hs ‹_›
    · exact .leaf hs ‹_›

theorem goesB_sound {t : Thr} {n : Nat} {s s' : ISt Nat} {es es' : List (IEv Nat)}
    (h : goesB t n s es = some (s', es')) (r : IRun s es) : IRun s' es' := by
  induction n generalizing s es with
  | zero => cases h; exact r
  | succ n ih =>
    simp only [goesB] at h
    split at h
    · rename_i h1; exact ih h (.step r (callB_sound h1))
    · cases h

theorem itsB_sound {t : Thr} {n : Nat} {s s' : ISt Nat} {es es' : List (IEv Nat)}
    (h : itsB t n s es = some (s', es')) (r : IRun s es) : IRun s' es' := by
  induction n generalizing s es with
  | zero => cases h; exact r
  | succ n ih =>
    simp only [itsB] at h
    split at h
    · rename_i h1; exact ih h (.step r (.iter t (iterB_sound h1)))
    · cases h

theorem _root_.Scc.Grove.Change.nN {V : Type} {vis : Id → Prop} {m m' : Mem V} (h : Change vis m m') : m.nN ≤ m'.nN := by
  cases h <;> simp [Mem.setPhase, Mem.freeze, Mem.setLeaf, Mem.setNode, Mem.kill, Mem.bump, Mem.release, Mem.thaw] <;>
    split <;> simp

theorem chgB_sound {s s' : ISt Nat} {m : Mem Nat} {es : List (IEv Nat)} (h : chgB s m = some s') (r : IRun s es)
    (hc : Change (fun n => ∃ t, (s.base.th t).pc ≠ .idle ∧ n ∈ (s.base.th t).vis) s.base.mem m) :
    IStep s (.base .tau) s' := by
  unfold chgB at h
  split at h <;> cases h
  rename_i hp
  refine .change hc fun n => ?_
  by_cases hn : n < m.nN
  · exact passB_sound (List.all_eq_true.1 hp n (List.mem_range.2 hn))
  · obtain ⟨src, I⟩ := r.base.inv.1.inv
    obtain ⟨src', I'⟩ := (Run.step r.base (.change hc)).inv.1.inv
    have hle : s.base.mem.nN ≤ m.nN := hc.nN
    have h1 := (I.shape.fresh n (by omega)).2
    have h2 := (I'.shape.fresh n (by simpa using hn)).2
    simp only [Pass, h1]
    have h2 : m.phase n = .free := h2
    rw [h2]
    trivial

theorem playB_sound {l : List Act} {s s' : ISt Nat} {es es' : List (IEv Nat)} (h : playB l s es = some (s', es'))
    (r : IRun s es) : IRun s' es' := by
  induction l generalizing s es with
  | nil => cases h; exact r
  | cons a l ih =>
    cases a <;> simp only [playB] at h <;> split at h <;> try (cases h; done)
    · rename_i t k o _ b e h1
      simp only [exec] at h1
      split at h1 <;> cases h1
      exact ih h (.step r (.call (.call t k o ‹_›) rfl))
    · rename_i h1; exact ih h (goesB_sound h1 r)
    · rename_i t n hp
      split at h <;> try (cases h; done)
      rename_i h1
      exact ih h (.step r (chgB_sound h1 r (.lock n hp.1 (hp.2.2.imp (fun hv => ⟨t, hp.2.1, hv⟩) id))))
    · rename_i h1
      split at h <;> try (cases h; done)
      rename_i h2
      exact ih h (.step r (chgB_sound h2 r (chg_sound h1)))
    · rename_i h1; exact ih h (.step r (.relink (relB_sound h1)))
    · rename_i h1; exact ih h (itsB_sound h1 r)

end Scc.Vine
