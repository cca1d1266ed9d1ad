/-!
# Go runtime and library pieces the model rests on

Byte strings, hashes, maps with arbitrary iteration order, faults (panic / non-termination),
and the LRU cache of `github.com/hashicorp/golang-lru`.
-/
namespace Verif

/-- Go `[]byte` and Go `string` (both are byte sequences). -/
abbrev Bytes := List UInt8

/-- Go `string`; Go strings are arbitrary byte sequences. -/
abbrev GoStr := List UInt8

/-- ASCII text to bytes, only used to write examples and separators. -/
def str (s : String) : GoStr := s.toList.map (fun c => UInt8.ofNat c.toNat)

/-- `types.Hash` of cardinal-types (an array of 32 bytes), used all over `/repo`. -/
structure Hash where
  bytes : Bytes
  len : bytes.length = 32
deriving DecidableEq

/-- The zero value `types.Hash{}`. -/
def Hash.zero : Hash := ⟨List.replicate 32 0, by simp⟩

/-- `types.BytesToHash` of cardinal-types (as in go-ethereum): longer input is cropped from the left,
shorter input is padded with zeros on the left. Used in `delivery/consumer.go:107,287,375`. -/
def bytesToHash (b : Bytes) : Hash :=
  ⟨List.replicate (32 - b.length) 0 ++ b.drop (b.length - 32), by simp; omega⟩

/-- A Go map: finitely many keys, each at most once. The order of `entries` carries no meaning;
every `range` over a map goes through a `MapOrder`. -/
structure GMap (K : Type) (V : Type) [DecidableEq K] where
  entries : List (K × V)
  nodup : (entries.map Prod.fst).Nodup

namespace GMap
variable {K V : Type} [DecidableEq K]

/-- `make(map[K]V)`. -/
def empty : GMap K V := ⟨[], by simp⟩

/-- Association-list lookup. -/
def look (k : K) : List (K × V) → Option V
  | [] => none
  | (k', v) :: l => if k' = k then some v else look k l

/-- Association-list update: replace in place, or append. -/
def put (k : K) (v : V) : List (K × V) → List (K × V)
  | [] => [(k, v)]
  | (k', v') :: l => if k' = k then (k, v) :: l else (k', v') :: put k v l

theorem mem_keys_put {k : K} {v : V} {l : List (K × V)} {x : K} :
    x ∈ (put k v l).map Prod.fst ↔ x = k ∨ x ∈ l.map Prod.fst := by
  induction l with
  | nil => simp [put]
  | cons a l ih =>
    obtain ⟨k', v'⟩ := a
    by_cases h : k' = k
    · simp [put, h]
    · simp only [put, h, if_false, List.map_cons, List.mem_cons, ih]
      grind

theorem nodup_put {k : K} {v : V} {l : List (K × V)} (h : (l.map Prod.fst).Nodup) :
    ((put k v l).map Prod.fst).Nodup := by
  induction l with
  | nil => simp [put]
  | cons a l ih =>
    obtain ⟨k', v'⟩ := a
    by_cases hk : k' = k
    · simp only [put, hk, if_true, List.map_cons] at h ⊢; exact h
    · simp only [put, hk, if_false, List.map_cons, List.nodup_cons] at h ⊢
      exact ⟨fun hm => by rcases mem_keys_put.mp hm with e | e
                          · exact hk e
                          · exact h.1 e, ih h.2⟩

/-- `m[k]` with the comma-ok form. -/
def get? (m : GMap K V) (k : K) : Option V := look k m.entries

/-- `_, ok := m[k]`. -/
def contains (m : GMap K V) (k : K) : Bool := (m.get? k).isSome

/-- `m[k] = v`. -/
def insert (m : GMap K V) (k : K) (v : V) : GMap K V := ⟨put k v m.entries, nodup_put m.nodup⟩

/-- `delete(m, k)`. -/
def erase (m : GMap K V) (k : K) : GMap K V :=
  ⟨m.entries.filter (fun e => e.1 ≠ k), by
    have h := m.nodup
    have hs : (m.entries.filter (fun e => e.1 ≠ k)).Sublist m.entries := List.filter_sublist
    exact (hs.map Prod.fst).nodup h⟩

/-- `len(m)`. -/
def size (m : GMap K V) : Nat := m.entries.length

/-- The keys, in the (meaningless) representation order. -/
def keys (m : GMap K V) : List K := m.entries.map Prod.fst

/-- Remove every entry not satisfying `p` (a `range` loop that deletes the others). -/
def filter (m : GMap K V) (p : K → V → Bool) : GMap K V :=
  ⟨m.entries.filter (fun e => p e.1 e.2), by
    have h := m.nodup
    have hs : (m.entries.filter (fun e => p e.1 e.2)).Sublist m.entries := List.filter_sublist
    exact (hs.map Prod.fst).nodup h⟩

/-- Build a map by successive insertion (later wins). -/
def ofList (l : List (K × V)) : GMap K V := l.foldl (fun m e => m.insert e.1 e.2) empty

end GMap

/-- The iteration order of Go's `range` over maps: for every iteration site/occurrence (a number)
an arbitrary rearrangement of the entries. Theorems quantify over all of these. -/
structure MapOrder where
  ord : {α : Type} → Nat → List α → List α
  perm : ∀ {α : Type} (n : Nat) (l : List α), (ord n l).Perm l

/-- Representation order (used in examples only). -/
def MapOrder.plain : MapOrder := ⟨fun _ l => l, fun _ _ => List.Perm.refl _⟩

/-- Reversed order (used in examples only). -/
def MapOrder.rev : MapOrder := ⟨fun _ l => l.reverse, fun _ l => List.reverse_perm l⟩

/-- The same map with its entries listed in another order. -/
def GMap.reorder {K V : Type} [DecidableEq K] (m : GMap K V) (o : MapOrder) (n : Nat) : GMap K V :=
  ⟨o.ord n m.entries, ((o.perm n m.entries).map Prod.fst).nodup_iff.mpr m.nodup⟩

/-- What can happen to a Go call besides returning. -/
inductive Fault where
  /-- run-time panic (explicit `panic`, slice bounds, index out of range, …) -/
  | panic
  /-- the call never returns (endless loop or unbounded recursion) -/
  | hang
deriving DecidableEq, Repr

/-- The `lru.Cache` of `github.com/hashicorp/golang-lru` restricted to what the code uses: keys only
(the stored value is always `struct{}{}`), most recently added first. -/
structure LRU (K : Type) where
  cap : Nat
  items : List K

namespace LRU
variable {K : Type} [DecidableEq K]

/-- `lru.New(size)` for a positive size (`lru.New` fails otherwise). -/
def new (cap : Nat) : LRU K := ⟨cap, []⟩

/-- `Cache.Contains`: does not touch recency. -/
def contains (c : LRU K) (k : K) : Bool := k ∈ c.items

/-- `Cache.Len`. -/
def len (c : LRU K) : Nat := c.items.length

/-- `Cache.Add`: moves an existing key to the front; otherwise inserts at the front and, when the
size is exceeded, removes the oldest key, which is returned (the eviction callback is called with it
after the cache has been updated). -/
def add (c : LRU K) (k : K) : LRU K × Option K :=
  if k ∈ c.items then ({ c with items := k :: c.items.filter (fun x => x ≠ k) }, none)
  else if c.items.length < c.cap then ({ c with items := k :: c.items }, none)
  else ({ c with items := (k :: c.items).dropLast }, (k :: c.items).getLast?)

/-- `Cache.Purge` (without eviction callback, as used by the Kafka producer). -/
def purge (c : LRU K) : LRU K := { c with items := [] }

end LRU

end Verif
