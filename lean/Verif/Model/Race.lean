/-
Accesses to maps by several goroutines.

A Go map must not be written while another goroutine reads or writes it: the runtime then ends the program ("fatal error: concurrent map writes",
"concurrent map read and map write", "concurrent map iteration and map write"), and what is read is undefined. An access takes time here: it begins, and it ends.

Modelled: which maps the functions below access, in which order, and the lock of the waiter. Not modelled: what is in the maps (the other files do that, with
accesses that take no time), other variables, and the order that channels impose.
-/

namespace Verif

/-- The maps. -/
inductive SMap where
  /-- `ompWaiter.hashes` and `ompWaiter.numbers`, `waiter/waiter.go:46-47`. -/
  | hashes | numbers
  /-- `pendingBatches`, `pendingMessages`, `oldBlocks` and `resumption` of a `MessageProcessor`, `delivery/consumer.go:190-198`. -/
  | mpPending | mpMessages | mpOld | mpResumption
  /-- `pending`, `queued` and `blacklist` of an `OrderedMessageProcessor`, `delivery/ordering.go:28-35`. -/
  | ompPending | ompQueued | ompBlacklist
  /-- `lastHash` of it, `delivery/ordering.go:29`: not a map but an array of bytes, of which a read during a write may give some bytes of the old and some of the new value. -/
  | ompLastHash
  /-- The `pingTracker` of a Kafka producer or consumer, `transports/kafka.go:31, 224, 472`. -/
  | pings
deriving DecidableEq, Repr

/-- What a goroutine does: it locks and unlocks a `sync.RWMutex`, and accesses a map, to write or to read. -/
inductive RAct where
  | lock | unlock | rlock | runlock
  | acc (m : SMap) (write : Bool)
deriving DecidableEq, Repr

/-- How a goroutine holds the lock. -/
inductive RMode where
  | free | read | write
deriving DecidableEq, Repr

/-- A goroutine. -/
structure RG where
  todo : List RAct
  /-- The access that has begun and not ended. -/
  inside : Option (SMap × Bool)
  mode : RMode
deriving DecidableEq, Repr

/-- Goroutines that share one lock. -/
abbrev RSys := List RG

/-- A goroutine that begins with a program. -/
def RG.start (p : List RAct) : RG := ⟨p, none, .free⟩

/-- Goroutines that begin with these programs. -/
def RSys.init (ps : List (List RAct)) : RSys := ps.map RG.start

/-- What can happen next. -/
inductive RSys.Step : RSys → RSys → Prop where
  /-- `Lock`: nobody holds the lock. -/
  | lock {s : RSys} {i : Nat} {g rest} : s[i]? = some g → g.todo = .lock :: rest → g.inside = none → (∀ h, h ∈ s → h.mode = .free) →
      Step s (s.set i ⟨rest, none, .write⟩)
  /-- `RLock`: nobody holds it to write. -/
  | rlock {s : RSys} {i : Nat} {g rest} : s[i]? = some g → g.todo = .rlock :: rest → g.inside = none → (∀ h, h ∈ s → h.mode ≠ .write) →
      Step s (s.set i ⟨rest, none, .read⟩)
  /-- `Unlock` of a lock that one holds. -/
  | unlock {s : RSys} {i : Nat} {g rest} : s[i]? = some g → g.todo = .unlock :: rest → g.inside = none → g.mode = .write →
      Step s (s.set i ⟨rest, none, .free⟩)
  /-- `RUnlock` of a lock that one holds. -/
  | runlock {s : RSys} {i : Nat} {g rest} : s[i]? = some g → g.todo = .runlock :: rest → g.inside = none → g.mode = .read →
      Step s (s.set i ⟨rest, none, .free⟩)
  /-- An access begins. -/
  | enter {s : RSys} {i : Nat} {g m w rest} : s[i]? = some g → g.todo = .acc m w :: rest → g.inside = none →
      Step s (s.set i { g with todo := rest, inside := some (m, w) })
  /-- An access ends. -/
  | exit {s : RSys} {i : Nat} {g a} : s[i]? = some g → g.inside = some a → Step s (s.set i { g with inside := none })

/-- Executions. -/
inductive RSys.Steps : RSys → RSys → Prop where
  | refl {s} : Steps s s
  | step {s t u} : Steps s t → RSys.Step t u → Steps s u

/-! ## What the functions access -/

/-- A section of code that the waiter runs, `waiter/waiter.go`. -/
inductive WSection where
  /-- A block is announced (:64-68, :99-100); whether its number was known. -/
  | announce (known : Bool)
  /-- A minute after the block was done (:84-87). -/
  | forget
  /-- A minute after another block of the number was done (:94-96). -/
  | forgetHash
  /-- `WaitForHashResult` (:121-123). -/
  | byHash
  /-- `WaitForNumberResult` (:142-144). -/
  | byNumber
deriving DecidableEq, Repr

/-- What a section does, `waiter/waiter.go:64-100, 121-123, 142-144`. -/
def WSection.code : WSection → List RAct
  | .announce known =>
      [.lock, .acc .hashes true, .acc .numbers false] ++ (if known then [] else [.acc .numbers true]) ++ [.acc .numbers false, .unlock]
  | .forget => [.lock, .acc .numbers true, .acc .hashes true, .unlock]
  | .forgetHash => [.lock, .acc .hashes true, .unlock]
  | .byHash => [.rlock, .acc .hashes false, .runlock]
  | .byNumber => [.rlock, .acc .numbers false, .runlock]

/-- `pingTracker.update`, `transports/kafka.go:33-35`, called by the goroutine of the heartbeats (:315-316, :730-736). -/
def pingUpdate : List RAct := [.acc .pings true]

/-- `pingTracker.ProducerCount`, `transports/kafka.go:37-46`, called by whoever wants to know. -/
def pingCount : List RAct := [.acc .pings false]

/-- The first accesses of `ProcessMessage` when there are no eviction requests, `delivery/consumer.go:286`: `updateResumption` (:417-419) reads, and writes when the offset is
newer. -/
def processBegin : List RAct := [.acc .mpResumption false, .acc .mpResumption true]

/-- `ProcessMessage` with the header of a new block that updates nothing that is tracked and for which nothing waits, and which is not complete: `delivery/consumer.go:286-401`. -/
def processHeader : List RAct :=
  processBegin ++
  [ .acc .mpOld false,          -- :302
    .acc .mpPending false,      -- :309
    .acc .mpResumption false,   -- :335, `resumptionCopy`
    .acc .mpPending true,       -- :323
    .acc .mpPending false,      -- :340
    .acc .mpMessages false,     -- :360
    .acc .mpPending false ]     -- :394

/-- `ProcessCompleteBatch`, `delivery/consumer.go:254-268`, as far as maps go: `delete(mp.pendingBatches, pb.Hash)` (:267). -/
def processComplete : List RAct := [.acc .mpPending true]

/-- `WhyNotReady` of a Kafka consumer for a block that is not pending in the ordering layer: `delivery/ordering.go:374-378`, `delivery/consumer.go:409-411`. -/
def whyNotReadyCode : List RAct := [.acc .ompPending false, .acc .mpPending false]

/-- `HandlePendingBatch` of a block that is neither excluded nor finished and whose parent is not the last block emitted, as far as its first tests:
`delivery/ordering.go:170, 177, 183`. -/
def handleBatchBegin : List RAct := [.acc .ompBlacklist false, .acc .ompPending true, .acc .ompLastHash false]

/-- `HandleReorg`, `delivery/ordering.go:241-245`, which the goroutine of a websocket calls itself (`transports/websockets.go:408`). -/
def handleReorgCode : List RAct := [.acc .ompLastHash true]

/-- The maps of the `MessageProcessor`. -/
def SMap.ofMp : SMap → Bool
  | .mpPending | .mpMessages | .mpOld | .mpResumption => true
  | _ => false

/-- The maps (and the array) of the `OrderedMessageProcessor`. -/
def SMap.ofOmp : SMap → Bool
  | .ompPending | .ompQueued | .ompBlacklist | .ompLastHash => true
  | _ => false

/-- Any sequence of accesses to the maps of the `MessageProcessor`: what the dispatcher of a Kafka consumer does, `transports/kafka.go:651-694`,
and what the goroutine of a websocket does with batches, `transports/websockets.go:409-465`. -/
def DispatcherProg (p : List RAct) : Prop := ∀ a, a ∈ p → ∃ m w, a = .acc m w ∧ m.ofMp = true

/-- Any sequence of accesses to the maps of the `OrderedMessageProcessor`: what its goroutine does, `delivery/ordering.go:67-99`. -/
def OrderingProg (p : List RAct) : Prop := ∀ a, a ∈ p → ∃ m w, a = .acc m w ∧ m.ofOmp = true

/-- Any number of heartbeats, `transports/kafka.go:730-736`. -/
def HeartbeatProg (p : List RAct) : Prop := ∀ a, a ∈ p → a = .acc .pings true

/-- Any sequence of sections of the waiter. -/
def WaiterProg (p : List RAct) : Prop := ∃ ss : List WSection, p = ss.flatMap WSection.code

end Verif
