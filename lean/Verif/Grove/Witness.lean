import Verif.Grove.Spec

/-!
# One call of `remove` takes away two entries

C52 is false. Thread 1 removes the only entry of the index; leaf and node retire. Thread 2 inserts the key
again, finds the root retired and is about to exchange it (`cleanup_root`); so thread 1 finds the root locked
and begins its removal again. Thread 2 finishes its insertion. Thread 1 then removes the new entry, too.
-/

namespace Scc.Grove

local notation "Key" => Nat
local notation "Id" => Nat
local notation "Thr" => Nat

/-- Steps to be tried. -/
inductive Act
  | call (t : Thr) (k : Key) (o : Op Nat)
  /-- the next step of the call of a thread -/
  | go (t : Thr)
  | busy (t : Thr)
  | lock (t n : Nat)
  | unlock (n : Nat)
  | retire (n : Nat)
  | rootEmpty (n : Nat)

/-- The step of a thread, if it is one of those needed here. -/
def next (s : St Nat) (t : Thr) : Option (St Nat × Ev Nat) :=
  match (s.th t).pc with
  | .out a => some (s.go t .idle, .ret t a)
  | .top =>
    match s.mem.root, (s.th t).op with
    | some n, _ => some (s.setTh t { s.th t with pc := .at n, vis := [n] }, .tau)
    | none, .peek => some (s.go t (.out (.found none)), .tau)
    | none, .remove _ => some (s.go t (.out (.removed (s.th t).rm)), .tau)
    | none, .insert _ =>
      some ({ s with mem := { s.mem.setNode s.mem.nN Node.new with root := some s.mem.nN, nN := s.mem.nN + 1 } },
        .tau)
  | .at n => some (s.go t (.sel n (route (s.mem.node n).kids (s.th t).key) (s.mem.ver n)), .tau)
  | .sel n i ver =>
    match h : (s.mem.node n).cell i with
    | .to r => some (s.go t (.got n ver r), .tau)
    | .null =>
      match (s.th t).op with
      | .insert _ =>
        if i = 0 ∧ (s.mem.node n).lv = 1 then
          some ({ s with mem :=
            { ((s.mem.setNode n
                { s.mem.node n with cell := upd (s.mem.node n).cell 0 (.to (.leaf s.mem.nL)) }).setLeaf
                s.mem.nL Leaf.new).freeze s.mem.nL false with nL := s.mem.nL + 1 } }.go t (.got n ver (.leaf s.mem.nL)), .tau)
        else none
      | _ => none
    | .ret =>
      match (s.th t).op with
      | .insert _ => if i = 0 then some (s.go t .top, .tau) else none
      | _ => none
  | .got n ver (.leaf l) => if s.mem.ver n = ver then some (s.go t (.inLeaf l), .tau) else none
  | .inLeaf l =>
    match (s.th t).op with
    | .peek => some (s.go t (.out (.found ((s.mem.leaf l).get (s.th t).key))), .tau)
    | .insert v =>
      if s.mem.frozen l = false ∧ (s.mem.leaf l).retired = false ∧
          (s.mem.leaf l).get (s.th t).key = none then
        some ({ s with mem :=
          s.mem.setLeaf l { s.mem.leaf l with m := ((s.th t).key, v) :: (s.mem.leaf l).m } }.go t
          (.out .inserted), .put t (s.th t).key v)
      else none
    | .remove c =>
      match (s.mem.leaf l).get (s.th t).key with
      | some v =>
        if s.mem.frozen l = false ∧ c v = true ∧
            ((s.mem.leaf l).m.filter fun e => e.1 != (s.th t).key) = [] then
          some ({ s with mem := s.mem.setLeaf l { s.mem.leaf l with m := [], retired := true } }.go t .clean,
            .del t (s.th t).key v)
        else none
      | none => none
  | .clean => some (s.go t (.out (.removed true)), .tau)
  | _ => none

theorem next_call {s s' : St Nat} {t : Thr} {e : Ev Nat} (h : next s t = some (s', e)) : Call s e s' := by
  unfold next at h
  split at h
  case h_1 a hp => cases h; exact .ret t a hp
  case h_2 hp =>
    split at h
    case h_1 o n hr => cases h; exact .load t n hp hr
    case h_2 hr ho => cases h; exact .loadPeek t hp hr ho
    case h_3 c hr ho => cases h; exact .loadRemove t c hp hr ho
    case h_4 v hr ho => cases h; exact .newRoot t v hp hr ho
  case h_3 n hp => cases h; exact .select t n hp
  case h_4 n i ver hp =>
    split at h
    case h_1 r hc => cases h; exact .fetch t n i ver r hp hc
    case h_2 hc =>
      split at h
      case h_1 v ho =>
        split at h
        case isTrue hi =>
          obtain ⟨rfl, hl⟩ := hi
          cases h; exact .nullInsert t n ver v hp hc ho hl
        case isFalse => cases h
      case h_2 => cases h
    case h_3 hc =>
      split at h
      case h_1 v ho =>
        split at h
        case isTrue hi =>
          subst hi
          cases h; exact .retInsert t n ver v hp hc ho
        case isFalse => cases h
      case h_2 => cases h
  case h_5 n ver l hp =>
    split at h
    case isTrue hv => cases h; exact .enterLeaf t n ver l hp hv
    case isFalse => cases h
  case h_6 l hp =>
    split at h
    case h_1 ho => cases h; exact .search t l hp ho
    case h_2 v ho =>
      split at h
      case isTrue hi => cases h; exact .put t l v hp ho hi.1 hi.2.1 hi.2.2
      case isFalse => cases h
    case h_3 c ho =>
      split at h
      case h_1 v hk =>
        split at h
        case isTrue hi => cases h; exact .delLast t l c v hp ho hi.1 hk hi.2.1 hi.2.2
        case isFalse => cases h
      case h_2 => cases h
  case h_7 hp => cases h; exact .cleaned t hp
  case h_8 => cases h

theorem next_sound {s s' : St Nat} {t : Thr} {e : Ev Nat} (h : next s t = some (s', e)) : Step s e s' := .call (next_call h)

instance (p : Pc Nat) : Decidable (p = .idle) := by cases p <;> first | exact isTrue rfl | exact isFalse nofun
instance (p : Pc Nat) : Decidable (p = .clean) := by cases p <;> first | exact isTrue rfl | exact isFalse nofun

/-- Try a step. -/
def exec (s : St Nat) : Act → Option (St Nat × Ev Nat)
  | .call t k o =>
    if (s.th t).pc = .idle then
      some (s.setTh t { key := k, op := o, pc := .top, vis := [], rm := false }, .call t k o)
    else none
  | .go t => next s t
  | .busy t =>
    match s.mem.root with
    | some n =>
      if (s.th t).pc = .clean ∧ s.mem.phase n ≠ .free ∧ s.mem.retired (.node n) = true then
        some (s.setTh t { s.th t with pc := .top, rm := true }, .tau)
      else none
    | none => none
  | .lock t n =>
    if s.mem.phase n = .free ∧ (s.th t).pc ≠ .idle ∧ n ∈ (s.th t).vis then
      some ({ s with mem := s.mem.setPhase n .locked }, .tau) else none
  | .unlock n =>
    if s.mem.phase n = .locked then some ({ s with mem := s.mem.setPhase n .free }, .tau) else none
  | .retire n =>
    match (s.mem.node n).cell 0 with
    | .to r =>
      if s.mem.phase n = .locked ∧ (s.mem.node n).kids = [] ∧ s.mem.retired r = true then
        some ({ s with mem := s.mem.setNode n { s.mem.node n with cell := upd (s.mem.node n).cell 0 .ret } }, .tau)
      else none
    | _ => none
  | .rootEmpty n =>
    if s.mem.phase n = .locked ∧ s.mem.root = some n ∧ s.mem.retired (.node n) = true then
      some ({ s with mem := { s.mem with root := none } }, .tau) else none

theorem exec_sound {s s' : St Nat} {a : Act} {e : Ev Nat} (h : exec s a = some (s', e)) : Step s e s' := by
  cases a <;> simp only [exec] at h
  case call t k o =>
    split at h
    case isTrue hp => cases h; exact .call (.call t k o hp)
    case isFalse => cases h
  case go t => exact next_sound h
  case busy t =>
    split at h
    case h_1 n hr =>
      split at h
      case isTrue hp => cases h; exact .call (.busy t n hp.1 hr hp.2.1 (.inl hp.2.2))
      case isFalse => cases h
    case h_2 => cases h
  case lock t n =>
    split at h
    case isTrue hp => cases h; exact .change (.lock n hp.1 (.inl ⟨t, hp.2⟩))
    case isFalse => cases h
  case unlock n =>
    split at h
    case isTrue hp => cases h; exact .change (.unlock n hp)
    case isFalse => cases h
  case retire n =>
    split at h
    case h_1 r hr =>
      split at h
      case isTrue hp => cases h; exact .change (.retire n r hp.1 hp.2.1 hr hp.2.2)
      case isFalse => cases h
    case h_2 => cases h
  case rootEmpty n =>
    split at h
    case isTrue hp => cases h; exact .change (.rootEmpty n hp.1 hp.2.1 hp.2.2)
    case isFalse => cases h

/-- Try steps, the latest event first in the result. -/
def execAll : List Act → St Nat → List (Ev Nat) → Option (St Nat × List (Ev Nat))
  | [], s, es => some (s, es)
  | a :: as, s, es => match exec s a with
    | some (s', e) => execAll as s' (e :: es)
    | none => none

theorem execAll_sound {as : List Act} {s s' : St Nat} {es es' : List (Ev Nat)}
    (h : execAll as s es = some (s', es')) (r : Run s es) : Run s' es' := by
  induction as generalizing s es with
  | nil => cases h; exact r
  | cons a as ih =>
    simp only [execAll] at h
    split at h
    case h_1 s1 e h1 => exact ih h (.step r (exec_sound h1))
    case h_2 => cases h

/-- An event without the condition of a removal, which is a function. -/
inductive Sight
  | insert (t k v : Nat)
  | remove (t k : Nat)
  | peek (t k : Nat)
  | put (t k v : Nat)
  | del (t k v : Nat)
  | ret (t : Nat) (a : Ans Nat)
  deriving DecidableEq, Repr

/-- What is seen of an event. -/
def Ev.sight : Ev Nat → Option Sight
  | .tau => none
  | .call t k (.insert v) => some (.insert t k v)
  | .call t k (.remove _) => some (.remove t k)
  | .call t k .peek => some (.peek t k)
  | .put t k v => some (.put t k v)
  | .del t k v => some (.del t k v)
  | .ret t a => some (.ret t a)

/-- The schedule. -/
def twice : List Act :=
  -- thread 1 inserts key 0 with value 10
  [.call 1 0 (.insert 10), .go 1, .go 1, .go 1, .go 1, .go 1, .go 1, .go 1,
   -- thread 2 has loaded the root for its insertion
   .call 2 0 (.insert 20), .go 2,
   -- thread 1 removes the key; the leaf and the node retire
   .call 1 0 (.remove fun _ => true), .go 1, .go 1, .go 1, .go 1, .go 1, .lock 1 0, .retire 0, .unlock 0,
   -- thread 2 finds the node retired and locks it in `cleanup_root`
   .go 2, .go 2, .lock 2 0,
   -- thread 1 does not get the lock in `cleanup_root`
   .busy 1,
   -- thread 2 removes the root, creates another one and inserts the key with value 20
   .rootEmpty 0, .unlock 0, .go 2, .go 2, .go 2, .go 2, .go 2, .go 2, .go 2,
   -- thread 1 goes on with its removal
   .go 1, .go 1, .go 1, .go 1, .go 1, .go 1, .go 1,
   -- thread 2 looks for the key
   .call 2 0 .peek, .go 2, .go 2, .go 2, .go 2, .go 2, .go 2]

set_option maxRecDepth 100000 in
/-- C52 is false: in one call of `remove`, thread 1 takes away both the entry it has put there itself and the
one whose insertion by thread 2 has succeeded meanwhile. The calls that thread 2 makes, `insert(0, 20)` and
`peek(0)`, and the two calls of thread 1 cannot be put in any order in which their answers would be right:
there are two successful insertions of key 0 and one successful removal, and the last answer is that there is
no entry. -/
theorem c52_remove_takes_two :
    ∃ (s : St Nat) (es : List (Ev Nat)), Run s es ∧ es.reverse.filterMap Ev.sight =
      [.insert 1 0 10, .put 1 0 10, .ret 1 .inserted,
       .insert 2 0 20,
       .remove 1 0, .del 1 0 10,
       .put 2 0 20, .ret 2 .inserted,
       .del 1 0 20, .ret 1 (.removed true),
       .peek 2 0, .ret 2 (.found none)] := by
  have h : ((execAll twice .init []).map fun x => x.2.reverse.filterMap Ev.sight) = some
      [.insert 1 0 10, .put 1 0 10, .ret 1 .inserted,
       .insert 2 0 20,
       .remove 1 0, .del 1 0 10,
       .put 2 0 20, .ret 2 .inserted,
       .del 1 0 20, .ret 1 (.removed true),
       .peek 2 0, .ret 2 (.found none)] := by decide +kernel
  match he : execAll twice .init [], h with
  | some (s, es), h =>
    exact ⟨s, es, execAll_sound he .init, Option.some.inj h⟩

end Scc.Grove
