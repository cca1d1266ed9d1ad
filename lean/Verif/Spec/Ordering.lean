import Verif.Model.Ordering
/-! What the ordering layer promises, in terms of blocks and chain updates only. -/
namespace Verif.Spec

/-- The block headers of the real world: a hash determines its block's parent, number and weight. -/
structure World where
  parent : Hash → Hash
  number : Hash → Int
  weight : Hash → Nat

/-- The delivered block agrees with the world. -/
structure World.Has (W : World) (b : PB) : Prop where
  parent : b.parentHash = W.parent b.hash
  number : b.number = W.number b.hash
  weight : b.weight = W.weight b.hash

/-- Numbers go up by one along the parent link of `b`. -/
def World.Numbered (W : World) (b : PB) : Prop := W.number b.hash = W.number b.parentHash + 1

/-- `b` is heavier than its parent. -/
def World.Heavier (W : World) (b : PB) : Prop := W.weight b.parentHash < W.weight b.hash

/-- `bs` is a chain of blocks on top of the block with hash `h`, parents first. -/
def Linked : Hash → List PB → Prop
  | _, [] => True
  | h, b :: bs => b.parentHash = h ∧ Linked b.hash bs

/-- The hash of the tip after putting `bs` on top of `h`. -/
def endOf : Hash → List PB → Hash
  | h, [] => h
  | _, b :: bs => endOf b.hash bs

/-- The hashes of some blocks. -/
def hashes (bs : List PB) : List Hash := bs.map PB.hash

/-- A subscriber holds the chain `chain` on top of the block `base`, and applies what the ordering layer sends:
* an update whose removed blocks are the tip of the chain and whose added blocks go on top of what remains;
* an update that removes the whole chain and blocks below it (processed before this run), down to `p`, and adds
  blocks on top of `p`;
* a reorg notification, after which the chain restarts at the announced hash. -/
inductive Follows : Hash → List PB → OOut → Hash → List PB → Prop
  | within {base : Hash} {keep gone added removed : List PB} :
      hashes gone = hashes removed → added ≠ [] → Linked (endOf base keep) added →
      Follows base (keep ++ gone) (.update added removed) base (keep ++ added)
  | beyond {base p : Hash} {chain extra gone added : List PB} :
      hashes gone = hashes chain → added ≠ [] → Linked p (extra ++ gone) → endOf p extra = base → Linked p added →
      Follows base chain (.update added (extra ++ gone)) p added
  | reorg {base : Hash} {chain : List PB} {n : Int} {h : Hash} : Follows base chain (.reorg n h) h []
  | evict {base : Hash} {chain : List PB} {n : Int} : Follows base chain (.evictOlder n) base chain

/-- A subscriber that starts at `base` can apply the whole log, and ends with `chain` on top of `base'`. -/
inductive Replays (base : Hash) : List OOut → Hash → List PB → Prop
  | start : Replays base [] base []
  | step {log : List OOut} {x : OOut} {b b' : Hash} {c c' : List PB} :
      Replays base log b c → Follows b c x b' c' → Replays base (log ++ [x]) b' c'

/-- The blocks among the events. -/
def blocksOf (ops : List OOp) : List PB := ops.filterMap (fun
  | .block pb => some pb
  | .reorg _ _ => none)

/-- The height under which the whitelist, whose keys have 64 bits and no sign, has a block with this number: the same number, counted from 2⁶⁴ down if it is negative. -/
def heightKey (number : Int) : Nat := (number % 18446744073709551616).toNat

/-- The whitelist has another hash for the block's height. -/
def Forbidden (whitelist : GMap Nat Hash) (b : PB) : Prop :=
  ∃ h, whitelist.get? (heightKey b.number) = some h ∧ h ≠ b.hash

/-- What has been excluded after these arrivals (oldest first): blocks the whitelist forbids, and blocks that arrived after
their parent was excluded. -/
inductive Excluded (whitelist : GMap Nat Hash) : List PB → Hash → Prop
  | white {l : List PB} {b : PB} : Forbidden whitelist b → Excluded whitelist (l ++ [b]) b.hash
  | child {l : List PB} {b : PB} : Excluded whitelist l b.parentHash → Excluded whitelist (l ++ [b]) b.hash
  | later {l : List PB} {b : PB} {h : Hash} : Excluded whitelist l h → Excluded whitelist (l ++ [b]) h

/-- The head a subscriber has after these outputs, starting from `h`. -/
def headAfter : Hash → List OOut → Hash
  | h, [] => h
  | h, .update added _ :: l => headAfter (endOf h added) l
  | _, .reorg _ h :: l => headAfter h l
  | h, .evictOlder _ :: l => headAfter h l

/-- `P before x` holds of every output `x` and the outputs before it. -/
def EachOut (P : List OOut → OOut → Prop) (log : List OOut) : Prop :=
  ∀ l1 x l2, log = l1 ++ x :: l2 → P l1 x

/-- `d` is `h`, or waits (directly or through other waiting blocks) on `h`. -/
inductive Waits (queued : GMap Hash (GMap Hash Unit)) : Hash → Hash → Prop
  | self {h : Hash} : Waits queued h h
  | step {h c d : Hash} {q : GMap Hash Unit} : queued.get? h = some q → q.contains c = true → Waits queued c d → Waits queued h d

/-- The blocks wait one on the other, the first on `h`. -/
def WaitingChain (queued : GMap Hash (GMap Hash Unit)) : Hash → List PB → Prop
  | _, [] => True
  | h, b :: bs => (∃ q, queued.get? h = some q ∧ q.contains b.hash = true) ∧ WaitingChain queued b.hash bs

/-- The last processed block and all delivered ones fit the window of remembered blocks. -/
def FitsWindow (cfg : Config) (bs : List PB) : Prop :=
  ∃ U : List Hash, (U.length : Int) ≤ 2 * cfg.reorgThreshold ∧ cfg.lastHash ∈ U ∧ ∀ b ∈ bs, b.hash ∈ U

/-- Every delivered block agrees with the world and has a non-zero hash. -/
def FromWorld (W : World) (bs : List PB) : Prop := ∀ b ∈ bs, W.Has b ∧ b.hash ≠ Hash.zero

/-- The removed blocks are the tip of the chain, and the added ones go on top of the fork. -/
def ForkAt (start : Hash) (before : List OOut) (x : OOut) : Prop :=
  ∀ added removed, x = .update added removed → removed ≠ [] →
    ∃ p, Linked p removed ∧ Linked p added ∧ endOf p removed = headAfter start before

/-- No block is both removed and added. -/
def Disjoint' (x : OOut) : Prop :=
  ∀ added removed, x = .update added removed → ∀ a ∈ added, ∀ r ∈ removed, a.hash ≠ r.hash

/-- The head gets heavier with every update. -/
def HeavierAt (W : World) (start : Hash) (before : List OOut) (x : OOut) : Prop :=
  ∀ added removed, x = .update added removed →
    W.weight (headAfter start before) < W.weight (endOf (headAfter start before) added)

/-- An arrival at which the block was not excluded. -/
def Admitted (whitelist : GMap Nat Hash) (arrivals : List PB) (b : PB) : Prop :=
  ∃ l1 l2, arrivals = l1 ++ b :: l2 ∧ ¬ Forbidden whitelist b ∧ ¬ Excluded whitelist l1 b.parentHash

/-- The maps of a state agree with the world: blocks are filed under their hashes, and waiting hashes under the parent. -/
structure Consistent (W : World) (s : OMP) : Prop where
  pending : ∀ h b, s.pending.get? h = some b → b.hash = h ∧ W.Has b ∧ W.Numbered b ∧ h ≠ Hash.zero
  queued : ∀ p q c, s.queued.get? p = some q → q.contains c = true → W.parent c = p ∧ W.number c = W.number p + 1 ∧ c ≠ Hash.zero
  nonempty : ∀ p q, s.queued.get? p = some q → ∃ c, q.contains c = true

/-- Every block is the block `root`, or arrives after its parent. -/
def ParentsFirst (root : Hash) (bs : List PB) : Prop :=
  ∀ l1 b l2, bs = l1 ++ b :: l2 → b.hash = root ∨ ∃ a ∈ l1, a.hash = b.parentHash

/-- `h` is the hash of the first block of maximal weight. -/
def FirstHeaviest (bs : List PB) (h : Hash) : Prop :=
  ∃ l1 b l2, bs = l1 ++ b :: l2 ∧ b.hash = h ∧ (∀ x ∈ bs, x.weight ≤ b.weight) ∧ ∀ x ∈ l1, x.weight < b.weight

/-- The blocks an output adds. -/
def addedBy : OOut → List PB
  | .update added _ => added
  | _ => []

/-- The hashes of the blocks added, in order. -/
def addedHashes (log : List OOut) : List Hash := hashes (log.flatMap addedBy)

/-- `h` is the hash of a block of maximal weight. -/
def Heaviest (bs : List PB) (h : Hash) : Prop := ∃ b ∈ bs, b.hash = h ∧ ∀ x ∈ bs, x.weight ≤ b.weight

/-- The blocks form a tree with the root `root`, which is one of them: every other block's parent is there. -/
def TreeOf (root : Hash) (bs : List PB) : Prop := root ∈ hashes bs ∧ ∀ b ∈ bs, b.hash = root ∨ b.parentHash ∈ hashes bs

/-- Every block is a child of the block `root` or arrives after its parent. -/
def ParentsKnown (root : Hash) (bs : List PB) : Prop :=
  ∀ l1 b l2, bs = l1 ++ b :: l2 → b.parentHash = root ∨ ∃ a ∈ l1, a.hash = b.parentHash

/-- The blocks of `chain` are a chain on top of `root`, described by the world, each with number one higher and heavier than its
parent. -/
structure ChainOn (W : World) (root : Hash) (chain : List PB) : Prop where
  linked : Linked root chain
  has : ∀ b ∈ chain, W.Has b
  numbered : ∀ b ∈ chain, W.Numbered b
  heavier : ∀ b ∈ chain, W.Heavier b

end Verif.Spec
