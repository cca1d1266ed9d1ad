import Verif.Props.BelowSystem
import Verif.Props.KafkaForks
/-! # C148: a consumer that is stopped and started again, any number of times, with forks -/
namespace Verif

/-- The configuration of a consumer that is started from the stored block `st`. -/
def Spec.startOn (cfg : Config) (st : SentBlock) : Config :=
  { cfg with lastEmittedNum := st.args.number, lastHash := st.args.hash, lastWeight := st.args.weight.toNat }

/-- What one life of a consumer, started from the stored block `st`, may receive: the messages of a tree of blocks that contains `st`, parents before children and
`st` before blocks at least as heavy, and messages of other blocks that are incomplete or not connected to the tree; all fit the window. -/
structure Spec.LifeGiven (C : Codec) (cfg : Config) (all : List SentBlock) (st root : SentBlock) (tree others : List SentBlock) (received : List RMsg) : Prop where
  among : ∀ x ∈ tree ++ others, x ∈ all
  blocks : TreeBelow C (startOn cfg st) root st tree others received
  window : ((tree ++ others).length : Int) ≤ 2 * cfg.reorgThreshold
  follow : HeadersFollow root tree received
  storedFirst : StoredFirst st tree received

/-- `ForkLives C cfg all first log st`: over several lives of a consumer, the first one started from the block `first`, its application has applied the outputs `log` and
stored its head `st` last. Each life starts from the block stored, receives messages of a tree (each life its own), runs under any schedule and iteration
order, and ends at any moment: `s` is the state of the consumer when it made the last output that the application applied (what it did later is lost). -/
inductive Spec.ForkLives (C : Codec) (cfg : Config) (all : List SentBlock) (first : SentBlock) : List OOut → SentBlock → Prop
  | first : Spec.ForkLives C cfg all first [] first
  | life {log : List OOut} {st root st' : SentBlock} {tree others : List SentBlock} {received : List RMsg} {env : Env} {o : MapOrder} {s0 s : Sys} :
      Spec.ForkLives C cfg all first log st → Spec.LifeGiven C cfg all st root tree others received →
      Sys.start (Spec.startOn cfg st) (received.map Call.msg) = .ok s0 → Spec.CausalSteps C env o s0 s →
      st' ∈ all → st'.args.hash = Spec.headAfter st.args.hash s.omp.log →
      Spec.ForkLives C cfg all first (log ++ s.omp.log) st'

open Spec

section
variable {C : Codec} {env : Env} {o : MapOrder} {cfg : Config} {root first st : SentBlock} {all tree others : List SentBlock} {received : List RMsg} {D : PB → Prop}

/-- A subscriber that has applied `pre` before the consumer was started can follow, and its tip is the head. -/
structure FollowingOn (D : PB → Prop) (start : Hash) (pre : List OOut) (s : OMP) (base : Hash) (chain : List PB) : Prop where
  replays : Replays start (pre ++ s.log) base chain
  linked : Linked base chain
  tip : endOf base chain = s.lastHash
  chainD : ∀ b ∈ chain, D b

theorem FollowingOn.step {N : Prop} (hH : Hashed D) {start base : Hash} {pre : List OOut} {chain : List PB} {s s' : OMP} (h : FollowingOn D start pre s base chain)
    (hi : s.initEmpty = false) (hh : Handled N D s s') : ∃ base' chain', FollowingOn D start pre s' base' chain' := by
  rcases hh.out with ⟨e1, _, l, hl, e2⟩ | ⟨added, removed, hu⟩
  · exact ⟨base, chain, by rw [e2, ← List.append_assoc]; exact replays_evicts h.replays hl, h.linked, by rw [e1]; exact h.tip, h.chainD⟩
  · obtain ⟨l, hl, e2⟩ := hu.log
    have hr := replays_evicts h.replays hl
    have e3 : pre ++ s'.log = (pre ++ s.log ++ l) ++ [OOut.update added removed] := by rw [e2]; simp
    cases hu.links hH with
    | next h1 h2 =>
      subst h1
      rw [← h.tip] at h2
      refine ⟨base, chain ++ added, ?_, ?_, ?_, ?_⟩
      · rw [e3]
        have := Follows.within (base := base) (keep := chain) (gone := []) (removed := []) rfl hu.ne h2
        rw [List.append_nil] at this
        exact hr.step this
      · exact linked_append.mpr ⟨h.linked, h2⟩
      · rw [endOf_append, h.tip, hu.lastHash]
      · intro b hb
        rcases List.mem_append.mp hb with hb | hb
        · exact h.chainD b hb
        · exact hu.addedD b hb
    | fork p h1 h2 h3 h4 _ _ =>
      rcases same_tip hH h.chainD hu.removedD h.linked h2 (h.tip.trans h3.symm) with
        ⟨keep, gone, g1, g2, g3⟩ | ⟨extra, gone, g1, g2, g3⟩
      · subst g1
        have hk : Linked (endOf base keep) added := by rw [g3]; exact h4
        refine ⟨base, keep ++ added, ?_, ?_, ?_, ?_⟩
        · rw [e3]; exact hr.step (Follows.within g2 hu.ne hk)
        · exact linked_append.mpr ⟨(linked_append.mp h.linked).1, hk⟩
        · rw [endOf_append, hu.lastHash]; exact endOf_ne hu.ne _ _
        · intro b hb
          rcases List.mem_append.mp hb with hb | hb
          · exact h.chainD b (by simp [hb])
          · exact hu.addedD b hb
      · subst g1
        refine ⟨p, added, ?_, h4, ?_, hu.addedD⟩
        · rw [e3]; exact hr.step (Follows.beyond g2 hu.ne h2 g3 h4)
        · rw [hu.lastHash]; exact endOf_ne hu.ne _ _
    | init _ h2 _ => rw [hi] at h2; simp at h2

/-- A subscriber whose tip is the block a consumer is started from can apply all that the consumer sends. -/
theorem run_followingOn (hH : Hashed D) {ds : List PB} {s0 s : OMP} (h0 : cfg.lastHash ≠ Hash.zero) (hD : ∀ b ∈ ds, D b) (hn : newOMP cfg = .ok s0)
    (hr : s0.run o (ds.map OOp.block) = .ok s) {start base : Hash} {pre : List OOut} {chain : List PB} (hp : Replays start pre base chain) (hl : Linked base chain)
    (ht : endOf base chain = cfg.lastHash) (hc : ∀ b ∈ chain, D b) : ∃ base' chain', FollowingOn D start pre s base' chain' := by
  obtain ⟨i1, i2, _, _, i5, i6, _⟩ := newOMP_inv (D := D) hn
  have := orun_ind (o := o) (P := fun _ s => OInv D s ∧ s.initEmpty = false ∧ ∃ base chain, FollowingOn D start pre s base chain) ?_ ?_ hr
  · exact this.2.2
  · refine ⟨i1, by simp [i6, h0], base, chain, ?_, hl, ht.trans i2.symm, hc⟩
    rw [i5, List.append_nil]; exact hp
  · rintro p op post s s' e ⟨hI, hi, base, chain, hf⟩ hop
    obtain ⟨pb, hpb, rfl⟩ := of_map_block e
    have hh := op_block_out (N := False) (D := D) (fun h => h.elim) hI (fun _ => hD pb hpb) hop
    exact ⟨hh.inv, hh.initEmpty.trans hi, hf.step hH hi hh⟩

/-- The tip of the chain held is the head. -/
theorem replays_head {start base : Hash} {log : List OOut} {chain : List PB} (h : Replays start log base chain) : endOf base chain = headAfter start log := by
  induction h with
  | start => rfl
  | step _ hf ih =>
    rw [headAfter_append, ← ih]
    cases hf with
    | within _ ne _ => rw [endOf_append]; exact endOf_ne ne _ _
    | beyond _ ne _ _ _ => exact endOf_ne ne _ _
    | reorg => rfl
    | evict => rfl

/-- A block as one of `all` was produced. -/
def OneOf (tracked : GoStr → Bool) (all : List SentBlock) (b : PB) : Prop := ∃ sb ∈ all, Exact tracked sb.schema sb.args sb.subs b

theorem oneOf_hashed {tr : GoStr → Bool} (hd : (Hash.zero :: all.map (·.args.hash)).Nodup) : Hashed (OneOf tr all) := by
  obtain ⟨h1, h2⟩ := List.nodup_cons.mp hd
  refine ⟨?_, ?_⟩
  · rintro b ⟨sb, hsb, he⟩ e
    refine h1 (List.mem_map.mpr ⟨sb, hsb, ?_⟩)
    rw [← he.hash, e]
  · rintro a b ⟨sa, hsa, ha⟩ ⟨sb, hsb, hb⟩ e
    have fa := find_hash h2 hsa
    have fb := find_hash h2 hsb
    rw [← ha.hash, e, hb.hash, fb] at fa
    cases fa
    rw [ha.parent, hb.parent]

/-- What happens in one life. -/
theorem life_inside (hL : LifeGiven C cfg all st root tree others received) (hC : C.Lawful) {s0 s : Sys}
    (hst : Sys.start (startOn cfg st) (received.map Call.msg) = .ok s0) (hs : CausalSteps C env o s0 s) :
    ∃ (omp0 : OMP) (ds : List PB), newOMP (startOn cfg st) = .ok omp0 ∧ s.ops = ds.map OOp.block ∧ omp0.run o (ds.map OOp.block) = .ok s.omp ∧
      (∀ b ∈ ds, Known2 cfg.tracked root tree others b) ∧ headAfter st.args.hash s.omp.log = s.omp.lastHash := by
  have hS := hL.blocks.supplied
  obtain ⟨mp0, omp0, ms, ds, hn, ho, ⟨rest, h1, h2⟩, h3, h4, h5, h6⟩ := hS.inside hC hst hs.steps
  have hex : ∀ b ∈ ds, Known2 cfg.tracked root tree others b := fun b hb =>
    hL.blocks.emitted hC hn (fun m hm => by rw [h1]; simp [hm]) h3 (by rw [h6]; simp [hb])
  refine ⟨omp0, ds, ho, h4, h5, hex, ?_⟩
  exact (run_fork (o := o) (W := forestWorld (tree ++ others)) (ops := ds.map OOp.block) hL.blocks.storedHash
    (by rw [blocksOf_map]; exact fun b hb => by obtain ⟨sb, hsb, he, _⟩ := hex b hb; exact (hL.blocks.world hsb (headOf_exact he)).1) ho h5).1.symm

/-- **C148**, what is stored: whenever a life ends, the application's head is a block of the tree it was receiving, not lighter than the one it had stored. -/
theorem C148_stored (hL : LifeGiven C cfg all st root tree others received) (hC : C.Lawful) {s0 s : Sys}
    (hst : Sys.start (startOn cfg st) (received.map Call.msg) = .ok s0) (hs : CausalSteps C env o s0 s) :
    ∃ st' ∈ tree, st'.args.hash = headAfter st.args.hash s.omp.log ∧ st.args.weight ≤ st'.args.weight := by
  obtain ⟨omp0, ds, ho, h4, h5, hex, hh⟩ := life_inside hL hC hst hs
  obtain ⟨-, g2, g3⟩ := C131_head_partial hL.blocks hC hL.window hL.follow hL.storedFirst hst hs
  have hds : blocksOf s.ops = ds := by rw [h4, blocksOf_map]
  rw [hds] at g2 g3
  rw [hh]
  by_cases hin : (startOn cfg st).lastHash ∈ hashes ds
  · obtain ⟨l1, b, l2, e, e1, e2, _⟩ := g2 hin
    obtain ⟨hb, hbt⟩ := List.mem_filter.mp (show b ∈ blocksIn tree ds by rw [e]; simp)
    obtain ⟨sb, hsb, he⟩ := hL.blocks.known_tree (hex b hb) (by simpa using hbt)
    obtain ⟨x, hx, ex⟩ := List.mem_map.mp hin
    obtain ⟨sx, hsx, hex', _⟩ := hex x hx
    have hsame : sx = st := hL.blocks.supplied.inj _ _ hsx (List.mem_append_left _ hL.blocks.inTree) (by rw [← hex'.hash, ex]; rfl)
    subst hsame
    have h1 := e2 x (List.mem_filter.mpr ⟨hx, by simpa using ⟨sx, hL.blocks.inTree, hex'.hash.symm⟩⟩)
    have h2 := he.weight
    have h3 := hex'.weight
    exact ⟨sb, hsb, by rw [← he.hash, e1], by omega⟩
  · exact ⟨st, hL.blocks.inTree, (g3 hin).2.symm, Int.le_refl _⟩

/-- **C148**: over any number of lives, the application can apply all outputs; it then holds a chain of blocks, each exactly as produced, that ends in the block stored,
which is not lighter than the first. -/
theorem C148_lives (hd : (Hash.zero :: all.map (·.args.hash)).Nodup) (hC : C.Lawful) {log : List OOut} (h : ForkLives C cfg all first log st) :
    ∃ base chain, Replays first.args.hash log base chain ∧ Linked base chain ∧ endOf base chain = st.args.hash ∧
      (∀ b ∈ chain, ∃ sb ∈ all, Exact cfg.tracked sb.schema sb.args sb.subs b) ∧ first.args.weight ≤ st.args.weight := by
  induction h with
  | first => exact ⟨_, _, .start, trivial, rfl, by simp, Int.le_refl _⟩
  | @life log st root st' tree others received env o s0 s _ hL hst hs hin heq ih =>
    obtain ⟨base, chain, r1, r2, r3, r4, r5⟩ := ih
    obtain ⟨omp0, ds, ho, h4, h5, hex, hh⟩ := life_inside hL hC hst hs
    obtain ⟨base', chain', hf⟩ := run_followingOn (oneOf_hashed (tr := cfg.tracked) hd) hL.blocks.storedHash (fun b hb => by
      obtain ⟨sb, hsb, he, _⟩ := hex b hb
      exact ⟨sb, hL.among sb hsb, he⟩) ho h5 r1 r2 r3 r4
    obtain ⟨st2, k1, k2, k3⟩ := C148_stored hL hC hst hs
    have hsame : st2 = st' := by
      have h2 := (List.nodup_cons.mp hd).2
      have fa := find_hash h2 (hL.among st2 (List.mem_append_left _ k1))
      have fb := find_hash h2 hin
      rw [k2, ← heq, fb] at fa
      cases fa; rfl
    subst hsame
    exact ⟨base', chain', hf.replays, hf.linked, by rw [hf.tip, ← hh, heq], hf.chainD, by omega⟩

/-- **C148**, the end: when in some life all messages of its tree have arrived and everything has been handled, the application, having applied the outputs of
all lives, holds a chain of blocks exactly as produced that ends in a heaviest block of that tree. -/
theorem C148_end (hd : (Hash.zero :: all.map (·.args.hash)).Nodup) (hC : C.Lawful) {log : List OOut} (h : ForkLives C cfg all first log st)
    (hL : LifeGiven C cfg all st root tree others received) (ha : ∀ s ∈ tree, AllArrive s.msgs received) {s0 s : Sys}
    (hst : Sys.start (startOn cfg st) (received.map Call.msg) = .ok s0) (hs : CausalSteps C env o s0 s) (hdr : s.Drained) (hg : Heard env s) :
    ∃ base chain, ∃ top ∈ tree, Replays first.args.hash (log ++ s.omp.log) base chain ∧ Linked base chain ∧ endOf base chain = top.args.hash ∧
      (∀ b ∈ chain, ∃ sb ∈ all, Exact cfg.tracked sb.schema sb.args sb.subs b) ∧ (∀ sb ∈ tree, sb.args.weight ≤ top.args.weight) ∧
      ForkLives C cfg all first (log ++ s.omp.log) top := by
  obtain ⟨b0, c0, top, q1, q2, q3, q4, q5, -⟩ := C131_end_partial hL.blocks hC hL.window hL.follow hL.storedFirst ha hst hs hdr hg
  obtain ⟨st2, k1, k2, k3⟩ := C148_stored hL hC hst hs
  obtain ⟨omp0, ds, ho, h4, h5, hex, hh⟩ := life_inside hL hC hst hs
  have hlive : ForkLives C cfg all first (log ++ s.omp.log) top := by
    refine .life h hL hst hs (hL.among top (List.mem_append_left _ q4)) ?_
    rw [← q3]
    exact replays_head q1
  obtain ⟨base, chain, r1, r2, r3, r4, -⟩ := C148_lives hd hC hlive
  exact ⟨base, chain, top, q4, r1, r2, r3, r4, q5, hlive⟩

end

/-! ## Over Kafka -/

/-- What one life of a Kafka consumer, started from the stored block `st`, may find in `np` partitions: the messages of a tree of blocks that contains `st`, heartbeats and
pings; in every partition parents come before children and `st` before blocks at least as heavy. There may be messages of other blocks that are incomplete or not
connected to the tree; all fit the window. -/
structure Spec.KafkaLifeGiven (C : Codec) (cfg : Config) (all : List SentBlock) (st root : SentBlock) (tree others : List SentBlock) (np : Nat) (start : Nat → Int)
    (msgs : Nat → List RMsg) : Prop where
  among : ∀ x ∈ tree ++ others, x ∈ all
  blocks : TreeBelow C (startOn cfg st) root st tree others (((List.range np).flatMap msgs).filter (fun m => Ordinary m))
  window : ((tree ++ others).length : Int) ≤ 2 * cfg.reorgThreshold
  only : ∀ i, i < np → ∀ m ∈ msgs i, m.key = [] ∨ m.key.head? = some PingType ∨ ∃ s ∈ tree ++ others, Copy s.msgs m
  follow : ∀ i, i < np → HeadersFollow root tree (msgs i)
  storedFirst : ∀ i, i < np → StoredFirst st tree (msgs i)
  /-- every partition has a message at or after the offset its reader starts from (else all readers wait: C67) -/
  warm : ∀ i, i < np → ∃ m ∈ msgs i, start i ≤ m.offset

/-- Several lives of a Kafka consumer, as `ForkLives`. -/
inductive Spec.KafkaForkLives (C : Codec) (cfg : Config) (all : List SentBlock) (first : SentBlock) : List OOut → SentBlock → Prop
  | first : Spec.KafkaForkLives C cfg all first [] first
  | life {log : List OOut} {st root st' : SentBlock} {tree others : List SentBlock} {np : Nat} {start : Nat → Int} {msgs : Nat → List RMsg} {env : Env} {o : MapOrder}
      {topic : GoStr} {k0 k : KSys} :
      Spec.KafkaForkLives C cfg all first log st → Spec.KafkaLifeGiven C cfg all st root tree others np start msgs →
      KSys.start (Spec.startOn cfg st) np start msgs = .ok k0 → Spec.KCausal C env o topic k0 k →
      st' ∈ all → st'.args.hash = Spec.headAfter st.args.hash k.sys.omp.log →
      Spec.KafkaForkLives C cfg all first (log ++ k.sys.omp.log) st'

open Spec

section
variable {C : Codec} {env : Env} {o : MapOrder} {cfg : Config} {root first st : SentBlock} {all tree others : List SentBlock} {np : Nat} {start : Nat → Int}
  {msgs : Nat → List RMsg} {topic : GoStr}

/-- If in every partition some headers follow the messages of some blocks, they do in whatever order the partitions are read. -/
theorem merged_after (hcorrect : ∀ s ∈ tree, s.Correct C) (hC : C.Lawful) {k : KSys} (hk : KInv C env o cfg np start msgs k) {free : SentBlock → Prop}
    {need : SentBlock → SentBlock → Prop} (hf : ∀ i, i < np → ∀ l1 m l2, msgs i = l1 ++ m :: l2 → m.key.head? = some BatchType → ∀ s ∈ tree, blockOf m.key = s.args.hash →
      free s ∨ ∃ p ∈ tree, need s p ∧ AllArrive p.msgs l1) :
    ∀ l1 m l2, k.seen.filter (fun m => Ordinary m) = l1 ++ m :: l2 → m.key.head? = some BatchType → ∀ s ∈ tree, blockOf m.key = s.args.hash →
      free s ∨ ∃ p ∈ tree, need s p ∧ AllArrive p.msgs l1 := by
  intro l1 m l2 e ht s hs hb
  obtain ⟨a, b, e1, e2, -⟩ := split_filter e
  unfold KSys.seen at e1
  obtain ⟨oa, ob, e3, e4, e5⟩ := List.map_eq_append_iff.mp e1
  obtain ⟨⟨i, m'⟩, oc, rfl, e6, e7⟩ := List.map_eq_cons_iff.mp e5
  simp only at e6
  subst e6
  obtain ⟨D, hD⟩ : ∃ D, D = k.w.out.drop k.taken := ⟨_, rfl⟩
  have hout : k.w.out = oa ++ (i, m') :: (oc ++ D) := by
    have := List.take_append_drop k.taken k.w.out
    rw [e3, ← hD] at this
    rw [← this]; simp
  obtain ⟨hi, -⟩ := hk.source (i := i) (m := m') (by rw [hout]; simp)
  obtain ⟨t, hpre⟩ := C67_prefix hk.w i
  have hpart : msgs i = forwarded oa i ++ m' :: (forwarded (oc ++ D) i ++ t) := by
    rw [← hpre, hout]
    simp [forwarded, List.filter_append]
  refine (hf i hi _ _ _ hpart ht s hs hb).imp id ?_
  rintro ⟨p, hp, h1, h2⟩
  refine ⟨p, hp, h1, ?_⟩
  intro x hx
  obtain ⟨y, hy, hxy⟩ := h2 x hx
  refine ⟨y, ?_, hxy⟩
  rw [← e2]
  refine List.mem_filter.mpr ⟨?_, by simpa using copy_ordinary hC (hcorrect p hp) hxy.2⟩
  rw [← e4]
  obtain ⟨⟨j, z⟩, hz, rfl⟩ := List.mem_map.mp hy
  exact List.mem_map.mpr ⟨(j, z), (List.mem_filter.mp hz).1, rfl⟩

/-- What is passed on is what one life may receive. -/
theorem Spec.KafkaLifeGiven.inside (h : KafkaLifeGiven C cfg all st root tree others np start msgs) (hC : C.Lawful) {k : KSys}
    (hk : KInv C env o (startOn cfg st) np start msgs k) : LifeGiven C cfg all st root tree others (k.seen.filter (fun m => Ordinary m)) := by
  refine ⟨h.among, ?_, h.window, ?_, ?_⟩
  · refine h.blocks.fewer ?_
    intro m hm
    obtain ⟨hm, ho⟩ := List.mem_filter.mp hm
    obtain ⟨i, hi⟩ := mem_seen hm
    obtain ⟨h1, h2⟩ := hk.source hi
    exact List.mem_filter.mpr ⟨List.mem_flatMap.mpr ⟨i, List.mem_range.mpr h1, h2⟩, ho⟩
  · exact merged_after (free := fun s => s = root) (need := fun s p => p.args.hash = s.args.parentHash) (fun s hs => h.blocks.correct s (List.mem_append_left _ hs)) hC hk h.follow
  · intro l1 m l2 e ht s hs hb
    rcases merged_after (free := fun s => s = st ∨ s.args.weight < st.args.weight) (need := fun _ p => p = st) (fun s hs => h.blocks.correct s (List.mem_append_left _ hs)) hC hk
      (fun i hi l1 m l2 e ht s hs hb => by
        rcases h.storedFirst i hi l1 m l2 e ht s hs hb with k | k | k
        · exact .inl (.inl k)
        · exact .inl (.inr k)
        · exact .inr ⟨st, h.blocks.inTree, rfl, k⟩) l1 m l2 e ht s hs hb with (k | k) | ⟨p, hp, rfl, k⟩
    · exact .inl k
    · exact .inr (.inl k)
    · exact .inr (.inr k)

theorem Spec.KafkaLifeGiven.calm (h : KafkaLifeGiven C cfg all st root tree others np start msgs) (hC : C.Lawful) {k : KSys}
    (hk : KInv C env o (startOn cfg st) np start msgs k) {i : Nat} {m : RMsg} (hm : (i, m) ∈ k.w.out) (wg : Nat) :
    ∃ a, KC.dispatch false topic wg m.key = .ok (a, wg) ∧ ∀ t, a ≠ .reorgConsumer t := by
  obtain ⟨h1, h2⟩ := hk.source hm
  rcases h.only i h1 m h2 with e | e | ⟨s, hs, e⟩
  · exact ⟨.heartbeatGauge, by rw [e]; rfl, by simp⟩
  · cases hkey : m.key with
    | nil => rw [hkey] at e; simp at e
    | cons t rest =>
      rw [hkey] at e
      simp only [List.head?_cons, Option.some.injEq] at e
      subst e
      exact ⟨.ping (bytesToHash rest), by simp [KC.dispatch, show PingType ≠ ReorgType by decide], by simp⟩
  · have ho := copy_ordinary hC (h.blocks.correct s hs) e
    cases hkey : m.key with
    | nil => exact absurd hkey ho.1
    | cons t rest =>
      obtain ⟨_, o1, o2, o3⟩ := ho
      rw [hkey] at o1 o2 o3
      simp only [List.head?_cons, ne_eq, Option.some.injEq] at o1 o2 o3
      exact ⟨.process, by simp [KC.dispatch, o1, o2, o3], by simp⟩

/-- **C148** over Kafka, no faults and no deadlock: no life goes on for ever, in none of them a goroutine is ever about to fault, and one that can go on no further has
read and handled everything. -/
theorem C148_kafka_progress (h : KafkaLifeGiven C cfg all st root tree others np start msgs) (hC : C.Lawful) {k0 : KSys}
    (h0 : KSys.start (startOn cfg st) np start msgs = .ok k0) :
    (∀ f : Nat → KSys, ¬ ∀ n, KSys.Step C env o topic (f n) (f (n + 1))) ∧
    ∀ k, KSys.Steps C env o topic k0 k → ¬ k.Faulting C env o topic ∧
      ((∃ k', KSys.Step C env o topic k k') ∨
        k.sys.Drained ∧ k.taken = k.w.out.length ∧ ∀ i, i < np → forwarded k.w.out i = msgs i) := by
  refine ⟨fun f hf => k_no_endless f hf, ?_⟩
  intro k hk
  have hv := kinv_steps h0 hk
  obtain ⟨s0, r1, r2⟩ := hv.run
  have hnf := (C131_no_fault (h.inside hC hv).blocks hC h.window r1 r2).1
  refine ⟨?_, ?_⟩
  · rintro (⟨i, m, f, hm, hf⟩ | hf)
    · obtain ⟨a, ha, _⟩ := h.calm (topic := topic) hC hv (List.mem_of_getElem? hm) k.wg
      rw [ha] at hf
      simp at hf
    · exact hnf hf
  · by_cases hd : k.sys.Drained
    · by_cases htk : k.taken < k.w.out.length
      · left
        obtain ⟨a, ha, hr⟩ := h.calm (topic := topic) hC hv (List.getElem_mem htk) k.wg
        exact ⟨_, .take hd.1 hd.2.1 (List.getElem?_eq_getElem htk) ha hr⟩
      · have htk : k.taken = k.w.out.length := by have := hv.taken; omega
        by_cases hw : ∃ t, WState.Step k.w t
        · left
          obtain ⟨t, ht⟩ := hw
          refine ⟨_, .part ht ?_⟩
          rw [htk]
          unfold messagesCap
          cases ht <;> simp [WState.upd]
        · right
          exact ⟨hd, htk, fun i hi => C67_all_partial hv.w h.warm (fun t ht => hw ⟨t, ht⟩) i hi⟩
    · left
      obtain ⟨s, hs⟩ := (k.sys.progress (C := C) (env := env) (o := o) hd).resolve_right hnf
      exact ⟨_, .inner hs⟩

/-- **C148** over Kafka: the lives of a Kafka consumer are lives of a consumer, so what is proved of those (`C148_lives`) holds of them, however the messages are
spread over the partitions. -/
theorem C148_kafka (hC : C.Lawful) {log : List OOut} (h : KafkaForkLives C cfg all first log st) : ForkLives C cfg all first log st := by
  induction h with
  | first => exact .first
  | life _ hL h0 hk hin heq ih =>
    have hv := kinv_steps h0 hk.steps
    obtain ⟨s0, r1, r2⟩ := kcausal_run h0 hk
    exact .life ih (hL.inside hC hv) r1 r2 hin heq

/-- **C148** over Kafka, the end: when in some life all messages of its tree were in the partitions and the consumer has come to rest, the application, having applied
the outputs of all lives, holds a chain of blocks exactly as produced that ends in a heaviest block of that tree. -/
theorem C148_kafka_end (hd : (Hash.zero :: all.map (·.args.hash)).Nodup) (hC : C.Lawful) {log : List OOut} (h : KafkaForkLives C cfg all first log st)
    (hL : KafkaLifeGiven C cfg all st root tree others np start msgs)
    (hall : ∀ s ∈ tree, ∀ x ∈ s.msgs, ∃ i, i < np ∧ ∃ m ∈ msgs i, m.key = x.key ∧ Copy s.msgs m) {k0 k : KSys}
    (h0 : KSys.start (startOn cfg st) np start msgs = .ok k0) (hk : KCausal C env o topic k0 k) (hstuck : ∀ k', ¬ KSys.Step C env o topic k k')
    (hg : Heard env k.sys) :
    ∃ base chain, ∃ top ∈ tree, Replays first.args.hash (log ++ k.sys.omp.log) base chain ∧ Linked base chain ∧ endOf base chain = top.args.hash ∧
      (∀ b ∈ chain, ∃ sb ∈ all, Exact cfg.tracked sb.schema sb.args sb.subs b) ∧ (∀ sb ∈ tree, sb.args.weight ≤ top.args.weight) ∧
      KafkaForkLives C cfg all first (log ++ k.sys.omp.log) top := by
  have hv := kinv_steps h0 hk.steps
  obtain ⟨s0, r1, r2⟩ := kcausal_run h0 hk
  obtain ⟨hdr, htk, hfw⟩ :=
    (((C148_kafka_progress (env := env) (o := o) (topic := topic) hL hC h0).2 k hk.steps).2).resolve_left (fun ⟨k', hk'⟩ => hstuck k' hk')
  obtain ⟨base, chain, top, htop, q1, q2, q3, q4, q5, -⟩ := C148_end hd hC (C148_kafka hC h) (hL.inside hC hv) (by
    intro s hs x hx
    obtain ⟨i, hi, m, hm, e1, e2⟩ := hall s hs x hx
    refine ⟨m, List.mem_filter.mpr ⟨?_, ?_⟩, e1, e2⟩
    · rw [← hfw i hi] at hm
      obtain ⟨⟨j, y⟩, hy, rfl⟩ := List.mem_map.mp hm
      unfold KSys.seen
      rw [htk, List.take_length]
      exact List.mem_map.mpr ⟨(j, y), (List.mem_filter.mp hy).1, rfl⟩
    · simpa using copy_ordinary hC (hL.blocks.correct s (List.mem_append_left _ hs)) e2) r1 r2 hdr hg
  refine ⟨base, chain, top, htop, q1, q2, q3, q4, q5, .life h hL h0 hk (hL.among top (List.mem_append_left _ htop)) ?_⟩
  have h1 := replays_head q1
  obtain ⟨b0, c0, p1, -, p3, -⟩ := C148_lives hd hC (C148_kafka hC h)
  rw [headAfter_append, ← replays_head p1, p3] at h1
  rw [← q3, h1]

end

end Verif
