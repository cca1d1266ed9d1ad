import Verif.Model.Websocket
/-!
# The life of a websocket consumer: starting, reconnecting, becoming ready and closing

The goroutine made by `Start` (`transports/websockets.go:321-469`), the goroutine of the program that waits in `Start`
(`:470`), and the one that calls `Close` (`:479-482`); the connections and what arrives on them.

Simplifications. What the items do to the blocks is in `Model/Websocket`: here they are recorded, and an item that makes the program panic there (`WMsg.hollow`) is handled like any other. `rpc.NewCall` does not fail
(`:337-342`), errors of `WriteMessage` are ignored by the code (`:344`) and show when reading. The pauses of a second are not modelled. The fields `c.conn` and `c.quit` are read
and written by two goroutines without synchronisation: here every access is one step. Of gorilla/websocket: `ReadMessage` returns the
messages that have arrived before the error of a broken or closed connection; after an error it returns that error again; `Close` of a nil
connection panics. A connection that `ReadMessage` reports as broken is broken.
-/
namespace Verif

/-- What arrives on a connection: the answer to `cardinal_subscribe` with a subscription id or without (`transports/websockets.go:359-372`), or something
else. -/
inductive LFrame where
  | granted
  | refused
  | frame (f : WFrame)

/-- What the read loop sees: an answer has no `method` (`transports/websockets.go:390`). -/
def LFrame.seen : LFrame → WFrame
  | .granted => .junk
  | .refused => .junk
  | .frame f => f

/-- A connection: whether both sides hold it open, what has arrived and not been read, and whether `ReadMessage` has returned an error. -/
structure LConn where
  up : Bool
  buf : List LFrame
  failed : Bool

/-- Where the goroutine is. -/
inductive LPlace where
  /-- at `for !c.quit`, `transports/websockets.go:326` -/
  | top
  /-- in `Dial`, `:327` -/
  | dialing
  /-- in the pause after a failed `Dial`, `:328-333` -/
  | resting
  /-- in the loop that waits for the subscription id, `:346-373` -/
  | subscribing
  /-- in the read loop, `:380-467`; `sub`: whether `subid` is not nil; `last`: the item that the variable `notification` holds (see `WConn.frames`) -/
  | reading (sub : Bool) (last : Option WMsg)
  /-- it has dereferenced the nil pointer `subid`, `:395` -/
  | crashed
  /-- it has returned -/
  | ended

/-- Where the goroutine that calls `Close` is. -/
inductive LCloser where
  /-- `Close` has not been called -/
  | idle
  /-- between `:480` and `:481` -/
  | flagged
  /-- it has panicked at `:481`: `c.conn` was nil -/
  | crashed
  /-- `Close` has returned -/
  | done

/-- A consumer: `cur` is `c.conn`, by number; `made` connections have been made; `tokens` is the number of elements of the channel `connected`;
`started`: `Start` has returned; `closes`: how often `close(c.ready)` has been called; `got`: the items handled. `grants` and `losses` count
the loops of `:346-373` that ended with and without a subscription id; no step looks at them. -/
structure LWs where
  place : LPlace
  cur : Option Nat
  made : Nat
  conn : Nat → LConn
  quit : Bool
  closer : LCloser
  tokens : Nat
  started : Bool
  isReady : Bool
  closes : Nat
  got : List WMsg
  grants : Nat
  losses : Nat

/-- The capacity of `connected`, `transports/websockets.go:323`. -/
def connectedCap : Nat := 8

/-- Changing one connection. -/
def LWs.upd (s : LWs) (k : Nat) (c : LConn) : LWs := { s with conn := fun j => if j = k then c else s.conn j }

/-- The end of the loop of `transports/websockets.go:346-373` and the `select` after it (`:376-379`). -/
def LWs.connected (s : LWs) (sub : Bool) : LWs :=
  { s with place := .reading sub none, tokens := if s.tokens < connectedCap then s.tokens + 1 else s.tokens,
           grants := if sub then s.grants + 1 else s.grants, losses := if sub then s.losses else s.losses + 1 }

/-- The item is handled, `transports/websockets.go:399-466`: only what concerns `c.ready`. -/
def LWs.handle (s : LWs) (sub : Bool) (m : WMsg) : LWs :=
  { s with place := .reading sub (some m), got := s.got ++ [m],
           isReady := match m with | .ready => true | _ => s.isReady,
           closes := match m with | .ready => if s.isReady then s.closes else s.closes + 1 | _ => s.closes }

/-- A message has been read in the read loop, `transports/websockets.go:386-466`. -/
def LWs.receive (s : LWs) (sub : Bool) (last : Option WMsg) (f : WFrame) : LWs :=
  match f, last with
  | .ping, _ => s
  | .junk, none => s
  | .other, _ => if sub then { s with place := .reading sub none } else { s with place := .crashed }
  | .item m, _ => if sub then s.handle sub m else { s with place := .crashed }
  | .junk, some m => if sub then s.handle sub m else { s with place := .crashed }

/-- A step of the goroutine. -/
inductive LWs.Go : LWs → LWs → Prop
  /-- `!c.quit`, `transports/websockets.go:326` -/
  | again {s} : s.place = .top → s.quit = false → Go s { s with place := .dialing }
  /-- `c.quit`, `:326` -/
  | stop {s} : s.place = .top → s.quit = true → Go s { s with place := .ended }
  /-- `Dial` succeeds, `:327-344` -/
  | dialled {s} : s.place = .dialing →
      Go s { (s.upd s.made { up := true, buf := [], failed := false }) with place := .subscribing, cur := some s.made, made := s.made + 1 }
  /-- `Dial` fails, `:327-330` -/
  | refused {s} : s.place = .dialing → Go s { s with place := .resting, cur := none }
  /-- the pause is over, `:331-332` -/
  | rested {s} : s.place = .resting → Go s { s with place := .top }
  /-- the answer to `cardinal_subscribe` has a subscription id, `:359-368` -/
  | granted {s k rest} : s.place = .subscribing → s.cur = some k → (s.conn k).failed = false → (s.conn k).buf = .granted :: rest →
      Go s ((s.upd k { s.conn k with buf := rest }).connected true)
  /-- another message while it waits for the answer, `:347-372` -/
  | skipped {s k f rest} : s.place = .subscribing → s.cur = some k → (s.conn k).failed = false → (s.conn k).buf = f :: rest → f ≠ .granted →
      Go s (s.upd k { s.conn k with buf := rest })
  /-- `ReadMessage` fails while it waits for the answer: `break` ends the inner loop only, `:348-352` -/
  | lost {s k} : s.place = .subscribing → s.cur = some k → ((s.conn k).failed = true ∨ ((s.conn k).buf = [] ∧ (s.conn k).up = false)) →
      Go s ((s.upd k { s.conn k with failed := true }).connected false)
  /-- a message in the read loop, `:381-466` -/
  | read {s k sub last f rest} : s.place = .reading sub last → s.cur = some k → (s.conn k).failed = false → (s.conn k).buf = f :: rest →
      Go s ((s.upd k { s.conn k with buf := rest }).receive sub last f.seen)
  /-- `ReadMessage` fails in the read loop, `:381-385` -/
  | broken {s k sub last} : s.place = .reading sub last → s.cur = some k →
      ((s.conn k).failed = true ∨ ((s.conn k).buf = [] ∧ (s.conn k).up = false)) →
      Go s { (s.upd k { s.conn k with failed := true }) with place := .top }

/-- A step of the network or of the goroutines of the program. -/
inductive LWs.World : LWs → LWs → Prop
  /-- a message arrives -/
  | arrive {s k f} : k < s.made → (s.conn k).up = true → World s (s.upd k { s.conn k with buf := (s.conn k).buf ++ [f] })
  /-- a connection breaks -/
  | cut {s k} : k < s.made → (s.conn k).up = true → World s (s.upd k { s.conn k with up := false })
  /-- `Start` returns, `transports/websockets.go:470-471` -/
  | started {s} : s.started = false → 0 < s.tokens → World s { s with started := true, tokens := s.tokens - 1 }

/-- A step of the goroutine that calls `Close`. -/
inductive LWs.Shut : LWs → LWs → Prop
  /-- `c.quit = true`, `transports/websockets.go:480` -/
  | flag {s} : s.closer = .idle → Shut s { s with closer := .flagged, quit := true }
  /-- `c.conn.Close()`, `:481` -/
  | close {s k} : s.closer = .flagged → s.cur = some k → Shut s { (s.upd k { s.conn k with up := false }) with closer := .done }
  /-- `c.conn` is nil, `:481` -/
  | panic {s} : s.closer = .flagged → s.cur = none → Shut s { s with closer := .crashed }

/-- A step of any of them. -/
inductive LWs.Step (s t : LWs) : Prop
  | go : LWs.Go s t → Step s t
  | world : LWs.World s t → Step s t
  | shut : LWs.Shut s t → Step s t

/-- Any number of steps. -/
inductive LWs.Steps (s : LWs) : LWs → Prop
  | refl : Steps s s
  | step {t u : LWs} : Steps s t → LWs.Step t u → Steps s u

/-- After `newWebsocketConsumer`, when `Start` has made its goroutine, `transports/websockets.go:313-325`. -/
def LWs.init : LWs :=
  { place := .top, cur := none, made := 0, conn := fun _ => { up := false, buf := [], failed := false }, quit := false, closer := .idle,
    tokens := 0, started := false, isReady := false, closes := 0, got := [], grants := 0, losses := 0 }

end Verif
