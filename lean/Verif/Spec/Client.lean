import Verif.Model.Subscribers
/-! What a client of two channels reads, in the order in which it reads it: the specification for C159. -/
namespace Verif.Spec

/-- What has been read from the channel subscribed as number `i`. -/
def gotAt (s : FSys) (i : Nat) : List Ev :=
  match s.subs[i]? with
  | some x => x.got
  | none => []

/-- What a step adds to it. -/
def gains (s s' : FSys) (i : Nat) : List Ev := (gotAt s' i).drop (gotAt s i).length

/-- The execution goes on from `s`, and the values read from channels `i` and `j` meanwhile are, in the order of reading, those of the list (no step reads from both). -/
inductive ClientReads (C : Codec) (env : Env) (o : MapOrder) (i j : Nat) (s : FSys) : FSys → List Ev → Prop
  | refl : ClientReads C env o i j s s []
  | step {s1 s2 : FSys} {l : List Ev} : ClientReads C env o i j s s1 l → FSys.Step C env o s1 s2 →
      ClientReads C env o i j s s2 (l ++ gains s1 s2 i ++ gains s1 s2 j)

/-- A client subscribes to updates and to reorgs, on channels of these capacities, one right after the other. -/
def clientJoins (s : FSys) (cap cap' : Nat) : FSys :=
  { s with subs := s.subs ++ [.fresh .updates cap s.begunO.length, .fresh .reorgs cap' s.begunO.length] }

/-- Updates and reorgs. -/
def ofChain : Ev → Bool
  | .o (.update _ _) => true
  | .o (.reorg _ _) => true
  | _ => false

/-- The channel has not been unsubscribed. -/
def StillSubscribed (s : FSys) (i : Nat) : Prop := ∀ x, s.subs[i]? = some x → x.live = true

end Verif.Spec
