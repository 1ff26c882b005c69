import Verif.Grove.Linear

/-!
# An execution with every kind of structural step

Shows that the steps of the model can be taken: one execution, checked by evaluation, goes through every
constructor of `Change` but `rootFail`, which a second execution has.
-/

namespace Scc.Grove

local notation "Key" => Nat
local notation "Id" => Nat
local notation "Thr" => Nat

/-- Structural steps. -/
inductive Chg
  | unlock (n : Nat)
  | copy (n i : Nat)
  | copied (n : Nat)
  | halve (n i mid k : Nat)
  | reserve (n : Nat)
  | insert (n : Nat)
  | thaw (n : Nat)
  | swap (n : Nat)
  | full (n : Nat)
  | rollLeaf (n : Nat)
  | rollNode (n : Nat)
  | claim (p d j : Nat)
  | rootClaim (j : Nat)
  | rootSwap (r : Nat)
  | rootFail (r : Nat)
  | finLow (n : Nat)
  | finHigh (n : Nat)
  | finLowNode (n : Nat)
  | finHighNode (n : Nat)
  | unlink (n j : Nat)
  | clear (n : Nat)
  | retire (n : Nat)
  | move (n : Nat)
  | moved (n : Nat)
  | rootEmpty (n : Nat)
  | rootOnly (n : Nat)

/-- Split a list at an element. -/
def cut {α : Type} : List α → Nat → Option (List α × α × List α)
  | [], _ => none
  | a :: l, 0 => some ([], a, l)
  | a :: l, j + 1 => (cut l j).map fun x => (a :: x.1, x.2.1, x.2.2)

theorem cut_eq {α : Type} {l : List α} {j : Nat} {x : List α × α × List α} (h : cut l j = some x) :
    l = x.1 ++ x.2.1 :: x.2.2 := by
  induction l generalizing j x with
  | nil => cases h
  | cons a l ih =>
    cases j with
    | zero => cases h; rfl
    | succ j =>
      simp only [cut, Option.map_eq_some_iff] at h
      obtain ⟨y, hy, rfl⟩ := h
      simp only [List.cons_append, ← ih hy]

/-- Try a structural step. -/
def chg (s : Mem Nat) : Chg → Option (Mem Nat)
  | .unlock n => if s.phase n = .locked then some (s.setPhase n .free) else none
  | .copy n i =>
    match (s.node n).cell i with
    | .to (.leaf x) =>
      if s.phase n = .locked ∧ i ∈ (s.node n).slots then
        some { (((s.freeze x true).setLeaf s.nL { m := (s.leaf x).m, retired := false }).freeze s.nL false).setPhase n
          (.single i x s.nL) with nL := s.nL + 1 }
      else none
    | _ => none
  | .copied n =>
    match s.phase n with
    | .single i x y => some (((s.setNode n { s.node n with cell := upd (s.node n).cell i (.to (.leaf y)) }).setPhase n .locked).kill
        [.leaf x])
    | _ => none
  | .halve n i mid k =>
    match (s.node n).cell i with
    | .to (.leaf x) =>
      if s.phase n = .locked ∧ i ∈ (s.node n).slots ∧ ((s.leaf x).get mid).isSome ∧ ((s.leaf x).get k).isSome ∧ mid < k then
        some { (((((s.freeze x true).setLeaf s.nL ((s.leaf x).low mid)).freeze s.nL true).setLeaf (s.nL + 1)
          ((s.leaf x).high mid)).freeze (s.nL + 1) false).setPhase n
          (.split i (.leaf x) (.leaf s.nL) (.leaf (s.nL + 1)) mid [.leaf x]) with nL := s.nL + 2 }
      else none
    | _ => none
  | .reserve n => match s.phase n with | .split .. => some (s.bump n) | _ => none
  | .insert n =>
    match s.phase n with
    | .split i x xl xh mid ch => some
      ((((s.setNode n
        { s.node n with kids := insKid mid (s.node n).used (s.node n).kids,
                        cell := upd (s.node n).cell (s.node n).used (.to xl),
                        used := (s.node n).used + 1 }).bump n).setPhase n (.ins i x xl xh mid ch false)).kill ch)
    | _ => none
  | .thaw n =>
    match s.phase n with
    | .ins i x xl xh mid ch false => some ((s.thaw xl).setPhase n (.ins i x xl xh mid ch true))
    | _ => none
  | .swap n =>
    match s.phase n with
    | .ins i _ _ xh _ ch true => some
      (((s.setNode n { s.node n with cell := upd (s.node n).cell i (.to xh) }).setPhase n .locked).release ch)
    | _ => none
  | .full n =>
    match s.phase n with
    | .split i x xl xh mid ch => some
      ((match xh with | .leaf l => s.freeze l true | .node _ => s).setPhase n (.full i x xl xh mid ch none))
    | _ => none
  | .rollLeaf n =>
    match s.phase n with
    | .full _ (.leaf x) _ _ _ _ none => some ((s.freeze x false).setPhase n .free)
    | _ => none
  | .rollNode n =>
    match s.phase n with
    | .full _ (.node c) _ _ _ _ none =>
      match s.phase c with
      | .full i' x' xl' xh' mid' ch' _ => some ((s.setPhase n .free).setPhase c (.full i' x' xl' xh' mid' ch' none))
      | _ => none
    | _ => none
  | .claim p d j =>
    match (s.node p).cell d with
    | .to (.node n) =>
      match s.phase n with
      | .full i x xl xh mid ch none =>
        match cut ((s.node n).expand i xl xh mid).1 j with
        | some (pre, (b, q), post) =>
          if s.phase p = .locked ∧ d ∈ (s.node p).slots then
            some { (((((s.setNode s.nN (mkNode (s.node n).lv pre q)).setNode
              (s.nN + 1) (mkNode (s.node n).lv post ((s.node n).expand i xl xh mid).2)).setPhase
              s.nN (if (s.node n).lv = 1 then .held else .free)).setPhase
              (s.nN + 1) (if (s.node n).lv = 1 then .held else .free)).setPhase n
              (.full i x xl xh mid ch (some (s.nN, s.nN + 1)))).setPhase p
              (.split d (.node n) (.node s.nN) (.node (s.nN + 1)) b (.node n :: ch)) with nN := s.nN + 2 }
          else none
        | none => none
      | _ => none
    | _ => none
  | .rootClaim j =>
    match s.root with
    | some n =>
      match s.phase n with
      | .full i x xl xh mid ch none =>
        match cut ((s.node n).expand i xl xh mid).1 j with
        | some (pre, (b, q), post) =>
          some { ((((((s.setNode s.nN (mkNode (s.node n).lv pre q)).setNode
            (s.nN + 1) (mkNode (s.node n).lv post ((s.node n).expand i xl xh mid).2)).setNode
            (s.nN + 2) (mkNode ((s.node n).lv + 1) [(b, .to (.node s.nN))] (.to (.node (s.nN + 1))))).setPhase
            s.nN (if (s.node n).lv = 1 then .held else .free)).setPhase
            (s.nN + 1) (if (s.node n).lv = 1 then .held else .free)).setPhase
            (s.nN + 2) (.root n s.nN (s.nN + 1) b (.node n :: ch))).setPhase n
            (.full i x xl xh mid ch (some (s.nN, s.nN + 1))) with nN := s.nN + 3 }
        | none => none
      | _ => none
    | none => none
  | .rootSwap r =>
    match s.phase r with
    | .root n _ _ _ ch =>
      if s.root = some n then some ({ (s.setPhase r .locked).kill ch with root := some r }.release ch) else none
    | _ => none
  | .rootFail r =>
    match s.phase r with
    | .root n _ _ _ _ =>
      match s.phase n with
      | .full i x xl xh mid ch' _ => some ((s.setPhase r .gone).setPhase n (.full i x xl xh mid ch' none))
      | _ => none
    | _ => none
  | .finLow n =>
    match s.phase n with
    | .fin 0 xl xh nl nh => some ((s.freeze xl false).setPhase n (.fin 1 xl xh nl nh))
    | _ => none
  | .finHigh n =>
    match s.phase n with
    | .fin 1 xl xh nl nh => some ((s.freeze xh false).setPhase n (.fin 2 xl xh nl nh))
    | _ => none
  | .finLowNode n =>
    match s.phase n with
    | .fin 2 xl xh nl nh => some ((s.setPhase n (.fin 3 xl xh nl nh)).setPhase nl .free)
    | _ => none
  | .finHighNode n =>
    match s.phase n with
    | .fin 3 _ _ _ nh => some ((s.setPhase n .gone).setPhase nh .free)
    | _ => none
  | .unlink n j =>
    match cut (s.node n).kids j with
    | some (l, (_, i), l') =>
      match (s.node n).cell i with
      | .to r =>
        if s.phase n = .locked ∧ s.retired r = true then
          some (((s.setNode n { s.node n with kids := l ++ l' }).bump n).setPhase n (.coal i))
        else none
      | _ => none
    | none => none
  | .clear n =>
    match s.phase n with
    | .coal i => some ((s.setNode n { s.node n with cell := upd (s.node n).cell i .null }).setPhase n .locked)
    | _ => none
  | .retire n =>
    match (s.node n).cell 0 with
    | .to r =>
      if s.phase n = .locked ∧ (s.node n).kids = [] ∧ s.retired r = true then
        some (s.setNode n { s.node n with cell := upd (s.node n).cell 0 .ret })
      else none
    | _ => none
  | .move n =>
    match cut (s.node n).kids ((s.node n).kids.length - 1) with
    | some (_, (b, i), []) =>
      match (s.node n).cell 0 with
      | .to (.node r) =>
        match (s.node n).cell i with
        | .to z =>
          if s.phase n = .locked ∧ s.retired (.node r) = true then
            some ((s.setNode n { s.node n with cell := upd (s.node n).cell 0 (.to z) }).setPhase n (.move b i))
          else none
        | _ => none
      | _ => none
    | _ => none
  | .moved n =>
    match cut (s.node n).kids ((s.node n).kids.length - 1) with
    | some (l, (b, i), []) =>
      if s.phase n = .move b i then
        some (((s.setNode n { s.node n with kids := l }).bump n).setPhase n (.coal i))
      else none
    | _ => none
  | .rootEmpty n =>
    if s.phase n = .locked ∧ s.root = some n ∧ s.retired (.node n) = true then some { s with root := none } else none
  | .rootOnly n =>
    match (s.node n).cell 0 with
    | .to (.node c) =>
      if s.phase n = .locked ∧ s.root = some n ∧ (s.node n).kids = [] then
        some ({ s.setPhase n .gone with root := some c }.kill [.node n])
      else none
    | _ => none

theorem chg_sound {vis : Id → Prop} {s s' : Mem Nat} {c : Chg} (h : chg s c = some s') : Change vis s s' := by
  cases c <;> simp only [chg] at h
  case unlock n =>
    split at h <;> cases h
    exact .unlock n ‹_›
  case copy n i =>
    split at h <;> try (cases h; done)
    split at h <;> cases h
    rename_i x hx hp
    exact .copy n i x hp.1 hp.2 hx
  case copied n =>
    split at h <;> cases h
    exact .copied n _ _ _ ‹_›
  case halve n i mid k =>
    split at h <;> try (cases h; done)
    split at h <;> cases h
    rename_i x hx hp
    obtain ⟨h1, h2, h3, h4, h5⟩ := hp
    obtain ⟨v, hv⟩ := Option.isSome_iff_exists.1 h3
    obtain ⟨w, hw⟩ := Option.isSome_iff_exists.1 h4
    exact .halve n i x mid k v w h1 h2 hx hv hw h5
  case reserve n =>
    split at h <;> cases h
    exact .reserve n _ _ _ _ _ _ ‹_›
  case insert n =>
    split at h <;> cases h
    exact .insert n _ _ _ _ _ _ ‹_›
  case thaw n =>
    split at h <;> cases h
    exact .thaw n _ _ _ _ _ _ ‹_›
  case swap n =>
    split at h <;> cases h
    exact .swap n _ _ _ _ _ _ ‹_›
  case full n =>
    split at h <;> cases h
    exact .full n _ _ _ _ _ _ ‹_›
  case rollLeaf n =>
    split at h <;> cases h
    exact .rollLeaf n _ _ _ _ _ _ ‹_›
  case rollNode n =>
    split at h <;> try (cases h; done)
    split at h <;> cases h
    exact .rollNode n _ _ _ _ _ _ _ _ _ _ _ _ _ ‹_› ‹_›
  case claim p d j =>
    split at h <;> try (cases h; done)
    split at h <;> try (cases h; done)
    split at h <;> try (cases h; done)
    split at h <;> cases h
    rename_i n hn _ i x xl xh mid ch hf _ pre b q post he hp
    exact .claim p d n i x xl xh mid ch pre post b q _ hp.1 hp.2 hn hf (Prod.ext (cut_eq he) rfl)
  case rootClaim j =>
    split at h <;> try (cases h; done)
    split at h <;> try (cases h; done)
    split at h <;> cases h
    rename_i n hr _ i x xl xh mid ch hf _ pre b q post he
    exact .rootClaim n i x xl xh mid ch pre post b q _ hf hr (Prod.ext (cut_eq he) rfl)
  case rootSwap r =>
    split at h <;> try (cases h; done)
    split at h <;> cases h
    exact .rootSwap r _ _ _ _ _ ‹_› ‹_›
  case rootFail r =>
    split at h <;> try (cases h; done)
    split at h <;> cases h
    exact .rootFail r _ _ _ _ _ _ _ _ _ _ _ _ ‹_› ‹_›
  case finLow n =>
    split at h <;> cases h
    exact .finLow n _ _ _ _ ‹_›
  case finHigh n =>
    split at h <;> cases h
    exact .finHigh n _ _ _ _ ‹_›
  case finLowNode n =>
    split at h <;> cases h
    exact .finLowNode n _ _ _ _ ‹_›
  case finHighNode n =>
    split at h <;> cases h
    exact .finHighNode n _ _ _ _ ‹_›
  case unlink n j =>
    split at h <;> try (cases h; done)
    split at h <;> try (cases h; done)
    split at h <;> cases h
    rename_i l b i l' he _ r hc hp
    exact .unlink n i b r l l' hp.1 (cut_eq he) hc hp.2
  case clear n =>
    split at h <;> cases h
    exact .clear n _ ‹_›
  case retire n =>
    split at h <;> try (cases h; done)
    split at h <;> cases h
    rename_i r hr hp
    exact .retire n r hp.1 hp.2.1 hr hp.2.2
  case move n =>
    split at h <;> try (cases h; done)
    split at h <;> try (cases h; done)
    split at h <;> try (cases h; done)
    split at h <;> cases h
    rename_i l b i he _ r hc _ z hz hp
    exact .move n i b r z l hp.1 (cut_eq he) hc hp.2 hz
  case moved n =>
    split at h <;> try (cases h; done)
    split at h <;> cases h
    rename_i l b i he hp
    exact .moved n i b l hp (cut_eq he)
  case rootEmpty n =>
    split at h <;> cases h
    rename_i hp
    exact .rootEmpty n hp.1 hp.2.1 hp.2.2
  case rootOnly n =>
    split at h <;> try (cases h; done)
    split at h <;> cases h
    rename_i c hc hp
    exact .rootOnly n c hp.1 hp.2.1 hp.2.2 hc

/-- The steps of a thread that are not in `next`. -/
def extra (s : St Nat) (t : Thr) : Option (St Nat × Ev Nat) :=
  match (s.th t).pc with
  | .sel n i _ =>
    if i ≠ 0 then (if (s.mem.node n).cell i = .null then some (s.go t (.at n), .tau) else none) else
    if (s.mem.node n).cell 0 = .null ∨ (s.mem.node n).cell 0 = .ret then
      match (s.th t).op with
      | .peek => some (s.go t (.out (.found none)), .tau)
      | .remove _ => some (s.go t (s.th t).failed, .tau)
      | _ => none
    else none
  | .got n ver r =>
    if s.mem.ver n ≠ ver then some (s.go t (.at n), .tau) else
    match r with
    | .node c => some (s.setTh t { s.th t with pc := .at c, vis := c :: (s.th t).vis }, .tau)
    | _ => none
  | .inLeaf l =>
    match (s.th t).op with
    | .insert _ =>
      if ((s.mem.leaf l).get (s.th t).key).isSome then some (s.go t (.out .duplicate), .tau)
      else some (s.go t .top, .tau)
    | .remove c =>
      match (s.mem.leaf l).get (s.th t).key with
      | none => some (s.go t (s.th t).failed, .tau)
      | some v =>
        if c v = false then some (s.go t (s.th t).failed, .tau) else
        if s.mem.frozen l = false ∧ ((s.mem.leaf l).m.filter fun e => e.1 != (s.th t).key) ≠ [] then
          some ({ s with mem :=
            s.mem.setLeaf l { s.mem.leaf l with m := (s.mem.leaf l).m.filter fun e => e.1 != (s.th t).key } }.go t
            (.out (.removed true)), .del t (s.th t).key v)
        else some (s.go t .top, .tau)
    | .peek => none
  | _ => none

theorem extra_call {s s' : St Nat} {t : Thr} {e : Ev Nat} (h : extra s t = some (s', e)) : Call s e s' := by
  unfold extra at h
  split at h
  case h_1 n i ver hp =>
    split at h
    case isTrue hi =>
      split at h <;> cases h
      exact .fetchNull t n i ver hp hi ‹_›
    case isFalse hi =>
      have : i = 0 := by omega
      subst this
      split at h <;> try (cases h; done)
      split at h <;> cases h
      · exact .nullPeek t n ver hp ‹_› ‹_›
      · exact .nullRemove t n ver _ hp ‹_› ‹_›
  case h_2 n ver r hp =>
    split at h
    case isTrue hv => cases h; exact .invalid t n ver r hp hv
    case isFalse hv =>
      split at h <;> cases h
      exact .enterNode t n ver _ hp (Decidable.not_not.1 hv)
  case h_3 l hp =>
    split at h
    case h_1 v ho =>
      split at h <;> cases h
      · rename_i hk
        obtain ⟨w, hw⟩ := Option.isSome_iff_exists.1 hk
        exact .dup t l v w hp ho hw
      · exact .again t l hp (by rw [ho]; nofun)
    case h_2 c ho =>
      split at h
      case h_1 hk =>
        cases h
        exact .fail t l c hp ho fun v hv => by rw [hk] at hv; cases hv
      case h_2 v hk =>
        split at h
        case isTrue hc =>
          cases h
          exact .fail t l c hp ho fun w hw => by rw [hk] at hw; cases hw; exact hc
        case isFalse hc =>
          split at h <;> cases h
          · rename_i hd
            exact .del t l c v hp ho hd.1 hk (by simpa using hc) hd.2
          · exact .again t l hp (by rw [ho]; nofun)
    case h_3 => cases h
  case h_4 => cases h

theorem extra_sound {s s' : St Nat} {t : Thr} {e : Ev Nat} (h : extra s t = some (s', e)) : Step s e s' := .call (extra_call h)

/-- Steps to be tried. -/
inductive Move
  | call (t : Thr) (k : Key) (o : Op Nat)
  /-- the next step of a thread, this many times -/
  | go (t n : Nat)
  /-- thread `t` locks node `n` -/
  | lock (t n : Nat)
  | chg (c : Chg)

/-- Steps of a thread. -/
def goes (t : Thr) : Nat → St Nat → List (Ev Nat) → Option (St Nat × List (Ev Nat))
  | 0, s, es => some (s, es)
  | n + 1, s, es =>
    match next s t with
    | some (s', e) => goes t n s' (e :: es)
    | none =>
      match extra s t with
      | some (s', e) => goes t n s' (e :: es)
      | none => none

theorem goes_sound {t : Thr} {n : Nat} {s s' : St Nat} {es es' : List (Ev Nat)} (h : goes t n s es = some (s', es'))
    (r : Run s es) : Run s' es' := by
  induction n generalizing s es with
  | zero => cases h; exact r
  | succ n ih =>
    simp only [goes] at h
    split at h
    · rename_i h1; exact ih h (.step r (next_sound h1))
    · split at h
      · rename_i h1; exact ih h (.step r (extra_sound h1))
      · cases h

/-- Try steps. -/
def play : List Move → St Nat → List (Ev Nat) → Option (St Nat × List (Ev Nat))
  | [], s, es => some (s, es)
  | .call t k o :: l, s, es =>
    match exec s (.call t k o) with
    | some (s', e) => play l s' (e :: es)
    | none => none
  | .lock t n :: l, s, es =>
    match exec s (.lock t n) with
    | some (s', e) => play l s' (e :: es)
    | none => none
  | .go t n :: l, s, es =>
    match goes t n s es with
    | some (s', es') => play l s' es'
    | none => none
  | .chg c :: l, s, es =>
    match chg s.mem c with
    | some m => play l { s with mem := m } (.tau :: es)
    | none => none

theorem play_sound {l : List Move} {s s' : St Nat} {es es' : List (Ev Nat)} (h : play l s es = some (s', es'))
    (r : Run s es) : Run s' es' := by
  induction l generalizing s es with
  | nil => cases h; exact r
  | cons a l ih =>
    cases a <;> simp only [play] at h <;> split at h <;> try (cases h; done)
    · rename_i h1; exact ih h (.step r (exec_sound h1))
    · rename_i h1; exact ih h (goes_sound h1 r)
    · rename_i h1; exact ih h (.step r (exec_sound h1))
    · rename_i h1; exact ih h (.step r (.change (chg_sound h1)))

/-- An insertion of a thread in a tree of this height, and structural steps. -/
def ins (t k d : Nat) : List Move := [.call t k (.insert (k * 10)), .go t (3 * d + 3)]
def c (l : List Chg) : List Move := l.map Move.chg

/-- The schedule: leaves, leaf nodes, an internal node and the root are split (with one change of every kind
rolled back), and then everything is removed until there is no root. -/
def demo : List Move :=
  [.call 1 10 (.insert 100), .go 1 7] ++ ins 1 20 1 ++ ins 1 30 1 ++ ins 1 40 1 ++
  -- thread 2 has come to the first leaf and looks there only after it was split twice
  [.call 2 40 .peek, .go 2 4] ++
  -- thread 3 copies the leaf, splits it, and begins again
  [.call 3 35 (.insert 350), .go 3 4, .lock 3 0] ++
  c [.copy 0 0, .copied 0] ++
  c [.halve 0 0 20 30, .reserve 0, .insert 0, .thaw 0, .swap 0, .unlock 0] ++
  -- it begins again and finds the node full
  [.go 3 5, .lock 3 0] ++ c [.halve 0 0 30 40, .full 0, .rollLeaf 0] ++
  [.lock 3 0] ++ c [.halve 0 0 30 40, .full 0, .rootClaim 0, .rootSwap 3, .finLow 0, .finHigh 0, .finLowNode 0, .finHighNode 0, .unlock 3]
 ++ [.go 2 2, .go 3 10] ++ ins 1 36 2 ++ ins 1 37 2 ++
  -- a child of the root is full
  [.call 3 38 (.insert 380), .go 3 7, .lock 3 2] ++ c [.halve 2 0 36 37, .full 2] ++ [.lock 3 3] ++
  c [.claim 3 0 0, .full 3, .rollNode 3, .rollLeaf 2] ++
  [.lock 3 2] ++ c [.halve 2 0 36 37, .full 2] ++ [.lock 3 3] ++
  c [.claim 3 0 0, .reserve 3, .insert 3, .thaw 3, .swap 3, .finLow 2, .finHigh 2, .finLowNode 2, .finHighNode 2, .unlock 3] ++
  -- it begins again; the root, an internal node, is full
  [.go 3 7] ++ [.lock 3 7] ++ c [.halve 7 0 37 40, .full 7] ++ [.lock 3 3] ++ c [.claim 3 0 0, .full 3, .rootClaim 1,
    .rootSwap 12, .finLow 7, .finHigh 7, .finLowNode 7, .finHighNode 7, .unlock 12] ++ [.go 3 14] ++
  -- removals
  [.call 1 38 (.remove fun _ => true), .go 1 12, .call 1 40 (.remove fun _ => true), .go 1 13, .call 2 40 .peek, .go 2 12,
   .call 1 37 (.remove fun _ => true), .go 1 11, .lock 1 9] ++ c [.unlink 9 0, .clear 9, .retire 9, .unlock 9] ++
  [.lock 1 11] ++ c [.move 11, .moved 11, .clear 11, .unlock 11] ++ [.go 1 2] ++
  [.call 1 35 (.remove fun _ => true), .go 1 12,
   .call 1 36 (.remove fun _ => true), .go 1 11, .lock 1 8] ++ c [.retire 8, .unlock 8] ++ [.lock 1 11] ++ c [.retire 11, .unlock 11] ++
  [.lock 1 12] ++ c [.move 12, .moved 12, .clear 12, .rootOnly 12] ++ [.go 1 2] ++
  [.call 1 10 (.remove fun _ => true), .go 1 9,
   .call 1 20 (.remove fun _ => true), .go 1 8, .lock 1 1] ++ c [.retire 1, .unlock 1] ++ [.lock 1 10] ++ c [.unlink 10 0, .clear 10, .rootOnly 10] ++
  [.go 1 2] ++ [.call 1 30 (.remove fun _ => true), .go 1 5, .lock 1 6] ++ c [.retire 6, .rootEmpty 6, .unlock 6] ++ [.go 1 2]

set_option maxRecDepth 100000 in
/-- Witness for C51 and C53: an execution with all kinds of steps, in which no call takes away two entries. -/
example : ∃ (s : St Nat) (es : List (Ev Nat)), Run s es ∧ s.mem.root = none ∧ s.mem.nN = 13 ∧ s.mem.nL = 14 ∧
    es.reverse.filterMap Ev.sight =
      [.insert 1 10 100, .put 1 10 100, .ret 1 .inserted, .insert 1 20 200, .put 1 20 200, .ret 1 .inserted,
       .insert 1 30 300, .put 1 30 300, .ret 1 .inserted, .insert 1 40 400, .put 1 40 400, .ret 1 .inserted,
       .peek 2 40, .insert 3 35 350, .ret 2 (.found (some 400)), .put 3 35 350, .ret 3 .inserted,
       .insert 1 36 360, .put 1 36 360, .ret 1 .inserted, .insert 1 37 370, .put 1 37 370, .ret 1 .inserted,
       .insert 3 38 380, .put 3 38 380, .ret 3 .inserted, .remove 1 38, .del 1 38 380, .ret 1 (.removed true),
       .remove 1 40, .del 1 40 400, .ret 1 (.removed true), .peek 2 40, .ret 2 (.found none),
       .remove 1 37, .del 1 37 370, .ret 1 (.removed true), .remove 1 35, .del 1 35 350, .ret 1 (.removed true),
       .remove 1 36, .del 1 36 360, .ret 1 (.removed true), .remove 1 10, .del 1 10 100, .ret 1 (.removed true),
       .remove 1 20, .del 1 20 200, .ret 1 (.removed true), .remove 1 30, .del 1 30 300, .ret 1 (.removed true)] := by
  have h : ((play demo .init []).map fun x => (x.1.mem.root, x.1.mem.nN, x.1.mem.nL, x.2.reverse.filterMap Ev.sight)) =
      some (none, 13, 14,
      [.insert 1 10 100, .put 1 10 100, .ret 1 .inserted, .insert 1 20 200, .put 1 20 200, .ret 1 .inserted,
       .insert 1 30 300, .put 1 30 300, .ret 1 .inserted, .insert 1 40 400, .put 1 40 400, .ret 1 .inserted,
       .peek 2 40, .insert 3 35 350, .ret 2 (.found (some 400)), .put 3 35 350, .ret 3 .inserted,
       .insert 1 36 360, .put 1 36 360, .ret 1 .inserted, .insert 1 37 370, .put 1 37 370, .ret 1 .inserted,
       .insert 3 38 380, .put 3 38 380, .ret 3 .inserted, .remove 1 38, .del 1 38 380, .ret 1 (.removed true),
       .remove 1 40, .del 1 40 400, .ret 1 (.removed true), .peek 2 40, .ret 2 (.found none),
       .remove 1 37, .del 1 37 370, .ret 1 (.removed true), .remove 1 35, .del 1 35 350, .ret 1 (.removed true),
       .remove 1 36, .del 1 36 360, .ret 1 (.removed true), .remove 1 10, .del 1 10 100, .ret 1 (.removed true),
       .remove 1 20, .del 1 20 200, .ret 1 (.removed true), .remove 1 30, .del 1 30 300, .ret 1 (.removed true)]) := by
    decide +kernel
  match he : play demo .init [], h with
  | some (s, es), h =>
    simp only [Option.map_some, Option.some.injEq, Prod.mk.injEq] at h
    exact ⟨s, es, play_sound he .init, h⟩

/-- The exchange of the root fails: the change is rolled back, and the insertion waits for another try. -/
def demoFail : List Move :=
  [.call 1 10 (.insert 100), .go 1 7] ++ ins 1 20 1 ++ ins 1 30 1 ++ ins 1 40 1 ++
  [.call 3 35 (.insert 350), .go 3 4, .lock 3 0] ++
  c [.halve 0 0 20 30, .reserve 0, .insert 0, .thaw 0, .swap 0, .unlock 0] ++
  [.go 3 5, .lock 3 0] ++ c [.halve 0 0 30 40, .full 0, .rootClaim 0, .rootFail 3, .rollLeaf 0] ++
  [.call 2 40 .peek, .go 2 6, .call 2 10 (.remove fun _ => true), .go 2 6]

set_option maxRecDepth 100000 in
/-- Witness for C51 and C53: calls go on in a tree whose root could not be exchanged. -/
example : ∃ (s : St Nat) (es : List (Ev Nat)), Run s es ∧ s.mem.root = some 0 ∧ s.mem.nN = 4 ∧
    es.reverse.filterMap Ev.sight =
      [.insert 1 10 100, .put 1 10 100, .ret 1 .inserted, .insert 1 20 200, .put 1 20 200, .ret 1 .inserted,
       .insert 1 30 300, .put 1 30 300, .ret 1 .inserted, .insert 1 40 400, .put 1 40 400, .ret 1 .inserted,
       .insert 3 35 350, .peek 2 40, .ret 2 (.found (some 400)), .remove 2 10, .del 2 10 100, .ret 2 (.removed true)] := by
  have h : ((play demoFail .init []).map fun x => (x.1.mem.root, x.1.mem.nN, x.2.reverse.filterMap Ev.sight)) =
      some (some 0, 4,
      [.insert 1 10 100, .put 1 10 100, .ret 1 .inserted, .insert 1 20 200, .put 1 20 200, .ret 1 .inserted,
       .insert 1 30 300, .put 1 30 300, .ret 1 .inserted, .insert 1 40 400, .put 1 40 400, .ret 1 .inserted,
       .insert 3 35 350, .peek 2 40, .ret 2 (.found (some 400)), .remove 2 10, .del 2 10 100, .ret 2 (.removed true)]) := by
    decide +kernel
  match he : play demoFail .init [], h with
  | some (s, es), h =>
    simp only [Option.map_some, Option.some.injEq, Prod.mk.injEq] at h
    exact ⟨s, es, play_sound he .init, h⟩

end Scc.Grove
