import Verif.Model.System
import Verif.Spec.Ordering
/-! What the two goroutines together promise. -/
namespace Verif.Spec

/-- The blocks among the things sent. -/
def blocksSent (l : List MPOut) : List PB := l.filterMap (fun
  | .batch pb => some pb
  | _ => none)

/-- The reorg notifications among the things sent. -/
def notesSent (l : List MPOut) : List (Int × Hash) := l.filterMap (fun
  | .reorg n h => some (n, h)
  | _ => none)

/-- The reorg notifications handled. -/
def notesOf (ops : List OOp) : List (Int × Hash) := ops.filterMap (fun
  | .block _ => none
  | .reorg n h => some (n, h))

/-- What the execution has done so far is a run of the `MessageProcessor` over the first calls and a run of the ordering layer
over blocks and notifications. -/
structure Consists (C : Codec) (env : Env) (o : MapOrder) (cfg : Config) (todo : List Call) (s : Sys) : Prop where
  calls : todo = s.calls ++ s.todo
  mp : ∃ mp0, newMP cfg = .ok mp0 ∧ mp0.calls C env s.calls = .ok s.mp
  omp : ∃ omp0, newOMP cfg = .ok omp0 ∧ omp0.run o s.ops = .ok s.omp

/-- The next step of either goroutine would be a fault. -/
def Faulty (C : Codec) (env : Env) (o : MapOrder) (s : Sys) : Prop :=
  (∃ c cs f, s.todo = c :: cs ∧ s.mp.call C env c = .error f) ∨ ∃ pb rest f, s.ch = pb :: rest ∧ s.omp.handle o pb = .error f

/-- The eviction requests acted on so far were sent by the ordering layer before. -/
def Heard (env : Env) (s : Sys) : Prop := ∀ t, t < s.mp.tick → ∀ n ∈ env.evict t, OOut.evictOlder n ∈ s.omp.log

/-- Steps in which, whenever a call starts, the requests acted on in the calls before had been sent. -/
inductive CausalSteps (C : Codec) (env : Env) (o : MapOrder) (s : Sys) : Sys → Prop
  | refl : CausalSteps C env o s s
  | step {s1 s2 : Sys} : CausalSteps C env o s s1 → Sys.Step C env o s1 s2 → (s2.calls ≠ s1.calls → Heard env s1) → CausalSteps C env o s s2

end Verif.Spec
