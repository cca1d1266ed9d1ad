import Verif.Model.Feed
/-!
# The watcher goroutines of `NewKafkaProducer`: `transports/kafka.go:255-323`

One goroutine per partition of the default topic reads messages and hands block hashes and heartbeats over unbuffered channels to
one receiving goroutine. The constructor returns when every partition goroutine has called `readyWg.Done`. The ticker of the
receiving goroutine and the times of heartbeats are left out.
-/
namespace Verif

/-- A partition goroutine: the keys of the messages the broker has still to deliver, how many of them were there at the
start (`due`), what it is offering on `hashCh` or `heartbeats`, and whether it has called `readyWg.Done`. -/
structure WatchPart where
  todo : List Bytes
  due : Nat
  offer : WatchEv
  done : Bool

/-- All goroutines (the first `n` count): `hold` is what the receiver has taken and not dealt with yet. -/
structure Watching where
  n : Nat
  part : Nat → WatchPart
  hold : WatchEv
  cache : LRU Hash

/-- Changing one goroutine. -/
def Watching.upd (s : Watching) (i : Nat) (p : WatchPart) : Watching := { s with part := fun j => if j = i then p else s.part j }

/-- One step of the goroutines; `id` is the producer's own id. -/
inductive Watching.Work (id : Bytes) : Watching → Watching → Prop
  /-- `transports/kafka.go:282-296`: the next message; `once.Do(readyWg.Done)` if it is the last one, before the hash is offered.
  The high water mark is the one of the latest fetch: it covers the messages that were there at the start, and may (`stale`) not cover
  those that arrived later. -/
  | read {s i k ks ev} (stale : Bool) : i < s.n → (s.part i).todo = k :: ks → (s.part i).offer = .nothing → watchKey id k = .ok ev →
      (stale = true → (s.part i).due ≤ 1) → Watching.Work id s (s.upd i ⟨ks, (s.part i).due - 1, ev, (s.part i).done || ks.isEmpty || stale⟩)
  /-- the receiver takes what is offered, `transports/kafka.go:313,315` -/
  | take {s i} : i < s.n → (s.part i).offer ≠ .nothing → s.hold = .nothing →
      Watching.Work id s { s.upd i { s.part i with offer := .nothing } with hold := (s.part i).offer }
  /-- `cache.Add`, `transports/kafka.go:314` -/
  | add {s h} : s.hold = .hash h → Watching.Work id s { s with hold := .nothing, cache := (s.cache.add h).1 }
  /-- `kp.pt.update`, `transports/kafka.go:316` -/
  | beat {s h} : s.hold = .heartbeat h → Watching.Work id s { s with hold := .nothing }

/-- A step of the goroutines, or a message arriving at a partition; `A` says which messages may arrive where. -/
inductive Watching.Step (id : Bytes) (A : Nat → Bytes → Prop) : Watching → Watching → Prop
  | work {s t} : Watching.Work id s t → Watching.Step id A s t
  | arrive {s i k} : i < s.n → A i k → Watching.Step id A s (s.upd i { s.part i with todo := (s.part i).todo ++ [k] })

/-- Reachability. -/
inductive Watching.Steps (id : Bytes) (A : Nat → Bytes → Prop) (s : Watching) : Watching → Prop
  | refl : Watching.Steps id A s s
  | tail {t u} : Watching.Steps id A s t → Watching.Step id A t u → Watching.Steps id A s u

/-- `readyWg.Wait()` returns, `transports/kafka.go:320`. -/
def Watching.Ready (s : Watching) : Prop := ∀ i, i < s.n → (s.part i).done = true

/-- How a partition goroutine starts, `transports/kafka.go:262-279`: ready at once if asking for the newest offset fails (`none`; it
then reads from the oldest offset) or if that offset is 0. A partition that cannot be read at all (`:273-278`) counts as an empty
one whose newest offset is unknown. -/
def watchPart (l : PLog) (known : Bool) : WatchPart :=
  if known = false ∨ l.newest = 0 then ⟨l.msgs.map Msg.key, l.msgs.length, .nothing, true⟩ else ⟨l.recent.map Msg.key, l.recent.length, .nothing, false⟩

/-- The start: `cache` is made in `transports/kafka.go:301`. -/
def Watching.init (n : Nat) (parts : Nat → WatchPart) : Watching := ⟨n, parts, .nothing, LRU.new 4096⟩

end Verif
