/-
`ChainUpdate.Done` and the arrays behind the slices of a chain update.

`append(c.added, c.removed...)` (`delivery/ordering.go:135`) writes into the array behind `c.added` if that has room, and all subscribers get the same
`*ChainUpdate` (`delivery/ordering.go:275`). The slices are made by `prepareReorg` and `prepareEmit`, also with `append`. Here the copying and the reading of the single elements are steps of their own. Reads and writes of a
pointer are atomic: under Go's memory model a racing read of a machine word gets one of the values written. What `PendingBatch.Done` does with a block is in
`Model/DoneCalls`; here a call is only recorded.
-/

namespace Verif

/-- A slice of pointers to blocks: the array behind it (slices that begin inside an array do not occur here) and its length. -/
structure USlice where
  arr : Nat
  len : Nat
deriving DecidableEq, Repr

/-- A chain update, `delivery/ordering.go:121-124`. The code does not have the fields `new` and `old`: the blocks that the ordering layer meant to put in. -/
structure UpdateV where
  added : USlice
  removed : USlice
  new : List Nat
  old : List Nat
deriving DecidableEq, Repr

/-- The number of elements of `append(c.added, c.removed...)`. -/
def UpdateV.need (u : UpdateV) : Nat := u.added.len + u.removed.len

/-- Where a goroutine is in `ChainUpdate.Done`, `delivery/ordering.go:134-138`. -/
inductive UPhase where
  /-- between calls -/
  | idle
  /-- in `append` (:135): the first `k` elements of the result, in the array `dst`, are in place -/
  | copy (dst k : Nat)
  /-- in the loop (:135-137) over the array `dst`, `k` rounds done -/
  | range (dst k : Nat)
deriving DecidableEq, Repr

/-- A goroutine that calls `Done` on updates, one after the other. While a call runs, its update is the first of `todo`. `called` are the pointers it has
called `PendingBatch.Done` on (`none` is the nil pointer). -/
structure UGo where
  todo : List UpdateV
  phase : UPhase
  called : List (Option Nat)
  /-- log: all updates it got -/
  got : List UpdateV

/-- Arrays are numbers, those from `next` on are not allocated yet. Blocks are numbers. -/
structure USys where
  mem : Nat → Nat → Option Nat
  cap : Nat → Nat
  next : Nat
  gs : Nat → UGo
  /-- log: the updates sent -/
  sent : List UpdateV

/-- Goroutine `i` is now `g`. -/
def USys.go (s : USys) (i : Nat) (g : UGo) : USys := { s with gs := fun j => if j = i then g else s.gs j }

/-- Element `k` of array `a` is now `v`. -/
def USys.poke (s : USys) (a k : Nat) (v : Option Nat) : USys := { s with mem := fun b j => if b = a ∧ j = k then v else s.mem b j }

/-- A new array of `c` nil pointers. -/
def USys.alloc (s : USys) (c : Nat) : USys :=
  { s with mem := fun b j => if b = s.next then none else s.mem b j, cap := fun b => if b = s.next then c else s.cap b, next := s.next + 1 }

/-! ## Making an update -/

/-- A slice literal: a new array without further room. -/
def USys.lit (s : USys) (l : List Nat) : USys × USlice :=
  ({ s with mem := fun b j => if b = s.next then l[j]? else s.mem b j, cap := fun b => if b = s.next then l.length else s.cap b, next := s.next + 1 },
    ⟨s.next, l.length⟩)

/-- The elements of a slice. -/
def USys.elems (s : USys) (x : USlice) : List (Option Nat) := (List.range x.len).map (s.mem x.arr)

/-- `append(x, l...)` by one goroutine on slices nobody else has: in place if there is room, otherwise in a new array with at least the room needed. How
much more is up to `gr`. -/
def USys.append (gr : Nat → Nat → Nat) (s : USys) (x : USlice) (l : List (Option Nat)) : USys × USlice :=
  if x.len + l.length ≤ s.cap x.arr then
    ({ s with mem := fun b j => if b = x.arr ∧ x.len ≤ j ∧ j < x.len + l.length then (l[j - x.len]?).getD none else s.mem b j },
      ⟨x.arr, x.len + l.length⟩)
  else
    ({ s with
        mem := fun b j => if b = s.next then (if j < x.len then s.mem x.arr j else (l[j - x.len]?).getD none) else s.mem b j
        cap := fun b => if b = s.next then max (x.len + l.length) (gr (s.cap x.arr) (x.len + l.length)) else s.cap b
        next := s.next + 1 },
      ⟨s.next, x.len + l.length⟩)

/-- What is done to the two slices between the literals and the sending. -/
inductive MakeOp where
  /-- `newBlocks = append([]*PendingBatch{newHead}, newBlocks...)`, `delivery/ordering.go:348` -/
  | front (b : Nat)
  /-- `reverted = append([]*PendingBatch{oldHead}, reverted...)`, `delivery/ordering.go:353` -/
  | revert (b : Nat)
  /-- `new = append(new, pb)`, `delivery/ordering.go:260` -/
  | back (b : Nat)
deriving DecidableEq, Repr

/-- One of these, on the slices `new` and `old`. -/
def USys.makeOp (gr : Nat → Nat → Nat) : USys × USlice × USlice → MakeOp → USys × USlice × USlice
  | (s, new, old), .front b =>
    let (s1, x) := s.lit [b]
    let (s2, y) := s1.append gr x (s1.elems new)
    (s2, y, old)
  | (s, new, old), .revert b =>
    let (s1, x) := s.lit [b]
    let (s2, y) := s1.append gr x (s1.elems old)
    (s2, new, y)
  | (s, new, old), .back b =>
    let (s1, y) := s.append gr new [some b]
    (s1, y, old)

/-- The two slices: `[]*PendingBatch{pb}` and `[]*PendingBatch{}` (`delivery/ordering.go:186, 191, 335-336`), and what is done to them then. Which blocks
these are, and in which order they come, is in `Model/Ordering`. -/
def USys.make (gr : Nat → Nat → Nat) (s : USys) (pb : Nat) (ops : List MakeOp) : USys × USlice × USlice :=
  ops.foldl (USys.makeOp gr) (((s.lit [pb]).1.lit []).1, (s.lit [pb]).2, ((s.lit [pb]).1.lit []).2)

/-- The same on lists. -/
def MakeOp.onLists : List Nat × List Nat → MakeOp → List Nat × List Nat
  | (new, old), .front b => (b :: new, old)
  | (new, old), .revert b => (new, b :: old)
  | (new, old), .back b => (new ++ [b], old)

/-! ## The steps -/

/-- What `append` has to put at place `k` of its result. -/
def USys.src (s : USys) (u : UpdateV) (k : Nat) : Option Nat :=
  if k < u.added.len then s.mem u.added.arr k else s.mem u.removed.arr (k - u.added.len)

/-- What can happen next. `w`: subscribers append to what `Added()` (`delivery/ordering.go:126-128`) of an update returns. -/
inductive USys.Step (w : Bool) : USys → USys → Prop where
  /-- The ordering layer makes an update and sends it. This is one step, since until then nobody else has its slices. -/
  | send {s : USys} (gr pb ops) :
      Step w s { (s.make gr pb ops).1 with sent := (s.make gr pb ops).1.sent ++
        [⟨(s.make gr pb ops).2.1, (s.make gr pb ops).2.2, (ops.foldl MakeOp.onLists ([pb], [])).1, (ops.foldl MakeOp.onLists ([pb], [])).2⟩] }
  /-- a goroutine gets an update that was sent -/
  | get {s : USys} {i u} : u ∈ s.sent → Step w s (s.go i ⟨(s.gs i).todo ++ [u], (s.gs i).phase, (s.gs i).called, (s.gs i).got ++ [u]⟩)
  /-- `append`: there is room in the array -/
  | fits {s : USys} {i u rest} : (s.gs i).todo = u :: rest → (s.gs i).phase = .idle → u.need ≤ s.cap u.added.arr →
      Step w s (s.go i ⟨u :: rest, .copy u.added.arr u.added.len, (s.gs i).called, (s.gs i).got⟩)
  /-- `append`: there is none; a new array of some sufficient capacity -/
  | grow {s : USys} {i u rest c} : (s.gs i).todo = u :: rest → (s.gs i).phase = .idle → s.cap u.added.arr < u.need → u.need ≤ c →
      Step w s ((s.alloc c).go i ⟨u :: rest, .copy s.next 0, (s.gs i).called, (s.gs i).got⟩)
  /-- `append`: the next element is copied -/
  | write {s : USys} {i u rest d k} : (s.gs i).todo = u :: rest → (s.gs i).phase = .copy d k → k < u.need →
      Step w s ((s.poke d k (s.src u k)).go i ⟨u :: rest, .copy d (k + 1), (s.gs i).called, (s.gs i).got⟩)
  /-- `append` returns -/
  | copied {s : USys} {i u rest d} : (s.gs i).todo = u :: rest → (s.gs i).phase = .copy d u.need →
      Step w s (s.go i ⟨u :: rest, .range d 0, (s.gs i).called, (s.gs i).got⟩)
  /-- the next element is read and `Done` called on it -/
  | call {s : USys} {i u rest d k} : (s.gs i).todo = u :: rest → (s.gs i).phase = .range d k → k < u.need →
      Step w s (s.go i ⟨u :: rest, .range d (k + 1), (s.gs i).called ++ [s.mem d k], (s.gs i).got⟩)
  /-- the loop ends -/
  | ret {s : USys} {i u rest d} : (s.gs i).todo = u :: rest → (s.gs i).phase = .range d u.need →
      Step w s (s.go i ⟨rest, .idle, (s.gs i).called, (s.gs i).got⟩)
  /-- a subscriber appends an element of its own to the blocks added, and there is room -/
  | client {s : USys} {u v} : w = true → u ∈ s.sent → u.added.len < s.cap u.added.arr → Step w s (s.poke u.added.arr u.added.len (some v))

/-- Executions. -/
inductive USys.Steps (w : Bool) : USys → USys → Prop where
  | refl {s} : Steps w s s
  | step {s t u} : Steps w s t → USys.Step w t u → Steps w s u

/-- Nothing has been allocated or sent. -/
def USys.init : USys := ⟨fun _ _ => none, fun _ => 0, 0, fun _ => ⟨[], .idle, [], []⟩, []⟩

end Verif
