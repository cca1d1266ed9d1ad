import Verif.Model.Go
import Verif.Model.Types
/-!
# The waiter: `waiter/waiter.go`, with `PendingBatch.Done` and the announcements of the message processor

A transition system. Channels are numbers; `closed` lists those that have been closed. Closing one twice is a fault. The steps are
those that touch shared state: each holds `w.lock` or `nchLock`, or is a single channel operation. `PendingBatch.Done` is one step:
the calls on one block are assumed not to overlap (it is not safe otherwise: `delivery/consumer.go:77-80` is not locked).
Fields whose comment says "log" are not in the program; they only record what happened.
-/
namespace Verif

/-- `delivery.Waiter`, `delivery/consumer.go:230-235`; `block` is a log entry: the block announced. -/
structure Ann where
  hash : Hash
  number : Int
  ch : Nat
  block : Nat

/-- The fields of a `PendingBatch` that matter here, `delivery/consumer.go:26-42`. -/
structure WBlock where
  hash : Hash
  number : Int
  waitCh : Option Nat

/-- The goroutine of `waiter/waiter.go:69-99`, waiting in its `select`. -/
structure Watch where
  nch : Nat
  ann : Ann

/-- The sleeping goroutines of `waiter/waiter.go:81-88` (`number` given) and `:91-97`. -/
structure Sleeper where
  number : Option Int
  hash : Hash

/-- What is waited for. -/
inductive WKey where
  | hash (h : Hash)
  | number (n : Int)
deriving DecidableEq

/-- `WaitResult`, `waiter/waiter.go:106-112`. -/
inductive WaitResult where
  | success | timeout | notFound
deriving DecidableEq

/-- A call of `WaitForHashResult` or `WaitForNumberResult` in its `select`. -/
structure WaitCall where
  key : WKey
  ch : Nat

/-- Everything. -/
structure WS where
  /-- channels below have been made -/
  next : Nat
  closed : List Nat
  /-- blocks below exist -/
  nextBlock : Nat
  block : Nat → WBlock
  /-- the buffer of `w.ch` -/
  queue : List Ann
  hashes : GMap Hash Nat
  numbers : GMap Int Nat
  watching : List Watch
  sleeping : List Sleeper
  calls : List WaitCall
  stopped : Bool
  /-- log: all announcements -/
  anns : List Ann
  /-- log: the goroutines started for announcements taken from the buffer -/
  taken : List Watch
  /-- log: `Done` of a block has closed a channel -/
  dones : List (Nat × Nat)
  /-- log: keys deleted from the maps -/
  expired : List WKey

/-- `NewOmpWaiter`, `waiter/waiter.go:53-60`. -/
def WS.init : WS :=
  { next := 0, closed := [], nextBlock := 0, block := fun _ => ⟨Hash.zero, 0, none⟩, queue := [], hashes := GMap.empty,
    numbers := GMap.empty, watching := [], sleeping := [], calls := [], stopped := false, anns := [], taken := [], dones := [],
    expired := [] }

/-- Changing one block. -/
def WS.setBlock (s : WS) (b : Nat) (x : WBlock) : WS := { s with block := fun j => if j = b then x else s.block j }

/-- Sending an announcement to the feed; a stopped waiter is unsubscribed. -/
def WS.send (s : WS) (a : Ann) : WS := { s with queue := if s.stopped then s.queue else s.queue ++ [a], anns := s.anns ++ [a] }

/-- `close(ch)`. -/
def WS.close (s : WS) (c : Nat) : Except Fault WS := if c ∈ s.closed then .error .panic else .ok { s with closed := c :: s.closed }

/-- A new block and its announcement, `delivery/consumer.go:316-337`. -/
def WS.newBlock (s : WS) (h : Hash) (n : Int) : WS :=
  ({ (s.setBlock s.nextBlock ⟨h, n, some s.next⟩) with next := s.next + 1, nextBlock := s.nextBlock + 1 }).send ⟨h, n, s.next, s.nextBlock⟩

/-- A block that comes from elsewhere: it has no channel until `ProcessCompleteBatch`. -/
def WS.foreign (s : WS) (h : Hash) (n : Int) : WS :=
  { (s.setBlock s.nextBlock ⟨h, n, none⟩) with nextBlock := s.nextBlock + 1 }

/-- `MessageProcessor.ProcessCompleteBatch`, `delivery/consumer.go:254-263`, of block `b`. -/
def WS.complete (s : WS) (b : Nat) : WS :=
  match (s.block b).waitCh with
  | some c => s.send ⟨(s.block b).hash, (s.block b).number, c, b⟩
  | none => ({ (s.setBlock b { s.block b with waitCh := some s.next }) with next := s.next + 1 }).send
      ⟨(s.block b).hash, (s.block b).number, s.next, b⟩

/-- `PendingBatch.Done`, `delivery/consumer.go:76-81`. -/
def WS.done (s : WS) (b : Nat) : Except Fault WS :=
  match (s.block b).waitCh with
  | none => .ok s
  | some c => ({ (s.setBlock b { s.block b with waitCh := none }) with dones := (b, c) :: s.dones }).close c

/-- `ChainUpdate.Done`, `delivery/ordering.go:134-138`, on the blocks of an update. -/
def WS.doneAll (s : WS) : List Nat → Except Fault WS
  | [] => .ok s
  | b :: bs => match s.done b with
    | .error f => .error f
    | .ok s => s.doneAll bs

/-- One round of the loop of `waiter/waiter.go:63-101`. -/
def WS.take (s : WS) (a : Ann) (q : List Ann) : WS :=
  let s := { s with queue := q, hashes := s.hashes.insert a.hash a.ch }
  match s.numbers.get? a.number with
  | some nch => { s with watching := s.watching ++ [⟨nch, a⟩], taken := s.taken ++ [⟨nch, a⟩] }
  | none => { s with numbers := s.numbers.insert a.number s.next, next := s.next + 1, watching := s.watching ++ [⟨s.next, a⟩],
                     taken := s.taken ++ [⟨s.next, a⟩] }

/-- `waiter/waiter.go:71-88`. -/
def WS.hashFired (s : WS) (w : Watch) : Except Fault WS :=
  let s := { s with sleeping := s.sleeping ++ [⟨some w.ann.number, w.ann.hash⟩] }
  if w.nch ∈ s.closed then .ok s else s.close w.nch

/-- `waiter/waiter.go:89-97`. -/
def WS.numberFired (s : WS) (w : Watch) : WS := { s with sleeping := s.sleeping ++ [⟨none, w.ann.hash⟩] }

/-- The end of the sleep, `waiter/waiter.go:84-87, 94-96`. -/
def WS.expire (s : WS) (e : Sleeper) : WS :=
  match e.number with
  | some n => { s with numbers := s.numbers.erase n, hashes := s.hashes.erase e.hash, expired := .number n :: .hash e.hash :: s.expired }
  | none => { s with hashes := s.hashes.erase e.hash, expired := .hash e.hash :: s.expired }

/-- The lookups of `waiter/waiter.go:121-123, 142-144`. -/
def WS.lookup (s : WS) : WKey → Option Nat
  | .hash h => s.hashes.get? h
  | .number n => s.numbers.get? n

/-- A step, with the result if it ends a call of the waiter. -/
inductive WS.Step : WS → Option (WKey × WaitResult) → Except Fault WS → Prop
  | newBlock {s h n} : WS.Step s none (.ok (s.newBlock h n))
  | foreign {s h n} : WS.Step s none (.ok (s.foreign h n))
  | complete {s b} : b < s.nextBlock → WS.Step s none (.ok (s.complete b))
  | doneAll {s bs} : (∀ b ∈ bs, b < s.nextBlock) → WS.Step s none (s.doneAll bs)
  | take {s a q} : s.queue = a :: q → WS.Step s none (.ok (s.take a q))
  | hashFired {s l1 w l2} : s.watching = l1 ++ w :: l2 → w.ann.ch ∈ s.closed →
      WS.Step s none (({ s with watching := l1 ++ l2 }).hashFired w)
  | numberFired {s l1 w l2} : s.watching = l1 ++ w :: l2 → w.nch ∈ s.closed →
      WS.Step s none (.ok (({ s with watching := l1 ++ l2 }).numberFired w))
  | expire {s l1 e l2} : s.sleeping = l1 ++ e :: l2 → WS.Step s none (.ok (({ s with sleeping := l1 ++ l2 }).expire e))
  /-- `waiter/waiter.go:124-126, 145-147` -/
  | notFound {s k} : s.lookup k = none → WS.Step s (some (k, .notFound)) (.ok s)
  | found {s k c} : s.lookup k = some c → WS.Step s none (.ok { s with calls := s.calls ++ [⟨k, c⟩] })
  /-- `waiter/waiter.go:128-129, 149-150` -/
  | success {s l1 c l2} : s.calls = l1 ++ c :: l2 → c.ch ∈ s.closed →
      WS.Step s (some (c.key, .success)) (.ok { s with calls := l1 ++ l2 })
  /-- `waiter/waiter.go:130-131, 151-152`; time is not modelled -/
  | timeout {s l1 c l2} : s.calls = l1 ++ c :: l2 → WS.Step s (some (c.key, .timeout)) (.ok { s with calls := l1 ++ l2 })
  /-- `ompWaiter.Stop`, `waiter/waiter.go:156-159`, once -/
  | stop {s} : s.stopped = false → WS.Step s none (.ok { s with stopped := true })

/-- The states that can be reached. -/
inductive WS.Reach : WS → Prop
  | init : WS.Reach .init
  | step {s r t} : WS.Reach s → WS.Step s r (.ok t) → WS.Reach t

end Verif
