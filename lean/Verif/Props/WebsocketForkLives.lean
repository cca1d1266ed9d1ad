import Verif.Props.ForkLives
import Verif.Props.WebsocketForks
/-! # C150: a websocket consumer that is stopped and started again, any number of times, with forks -/
namespace Verif

/-- A tree of blocks that contains the stored block, received over one or more connections. There may be other blocks, that are not connected to the tree. -/
structure Spec.WsBelow (cfg : Config) (root stored : WsArgs) (tree others : List WsArgs) (conns : List (List WMsg)) : Prop extends WsCarried (tree ++ others) conns where
  headers : HeadersBelow cfg (wsSent root) (wsSent stored) (tree.map wsSent) (others.map wsSent)
  beside : ∀ b ∈ others, b.1.parentHash ∉ tree.map (·.1.hash) ∧ root.1.parentHash ≠ b.1.hash

/-- The batch message of a block that is not lighter than the stored block is not received before all messages of the stored block have been, on this connection or an
earlier one. -/
def Spec.WsStoredFirst (stored : WsArgs) (tree : List WsArgs) (conns : List (List WMsg)) : Prop :=
  ∀ hist ms later l1 x l2, conns = hist ++ ms :: later → ms = l1 ++ .batch x :: l2 → ∀ b ∈ tree, x.hash = b.1.hash →
    b.1.hash = stored.1.hash ∨ b.1.weight < stored.1.weight ∨ ∃ tb ts, WsForm stored.1 stored.2 tb ts ∧
      ((OneBatch tb ts ms ∧ AllParts tb ts l1) ∨ ∃ ms' ∈ hist, OneBatch tb ts ms' ∧ AllParts tb ts ms')

/-- What one life of a websocket consumer, started from the stored block `st`, may receive: a tree of blocks that contains `st`, parents before children and `st` before
blocks at least as heavy, and other blocks not connected to the tree; all fit the window. -/
structure Spec.WsLifeGiven (cfg : Config) (all : List WsArgs) (st root : WsArgs) (tree others : List WsArgs) (conns : List (List WMsg)) : Prop where
  among : ∀ x ∈ tree ++ others, x ∈ all
  blocks : WsBelow (startOn cfg (wsSent st)) root st tree others conns
  window : ((tree ++ others).length : Int) ≤ 2 * cfg.reorgThreshold
  follow : WsFollow root tree conns
  storedFirst : WsStoredFirst st tree conns

/-- `WsForkLives C cfg all first log st`: over several lives of a websocket consumer, the first one started from the block `first`, its application has applied the
outputs `log` and stored its head `st` last. Each life starts from the block stored, has its own connections, runs under any schedule and iteration order, and ends at any
moment: `w` is the state of the consumer when it made the last output that the application applied (what it did later is lost). -/
inductive Spec.WsForkLives (C : Codec) (cfg : Config) (all : List WsArgs) (first : WsArgs) : List OOut → WsArgs → Prop
  | first : Spec.WsForkLives C cfg all first [] first
  | life {log : List OOut} {st root st' : WsArgs} {tree others : List WsArgs} {num : Int} {conn : List WMsg} {later : List (List WMsg)} {env : Env} {o : MapOrder}
      {w0 w : WSys} :
      Spec.WsForkLives C cfg all first log st → Spec.WsLifeGiven cfg all st root tree others (conn :: later) →
      WSys.start (Spec.startOn cfg (wsSent st)) num conn later = .ok w0 → WSys.Steps C env o w0 w →
      st' ∈ all → st'.1.hash = Spec.headAfter st.1.hash w.sys.omp.log →
      Spec.WsForkLives C cfg all first (log ++ w.sys.omp.log) st'

open Spec

section
variable {C : Codec} {env : Env} {o : MapOrder} {cfg : Config} {root stored first st : WsArgs} {all tree others : List WsArgs} {num : Int} {conn : List WMsg}
  {later conns : List (List WMsg)}

theorem headOf_seen {b : WsArgs} {pb : PB} (he : WsSeen b.1 b.2 pb) : HeadOf (wsSent b) pb := ⟨he.number, he.weight, he.hash, he.parent⟩

theorem ws_inj (hn : (all.map (·.1.hash)).Nodup) {b b' : WsArgs} (hb : b ∈ all) (hb' : b' ∈ all) (e : b.1.hash = b'.1.hash) : b = b' := by
  obtain ⟨i, hi, rfl⟩ := List.mem_iff_getElem.mp hb
  obtain ⟨j, hj, rfl⟩ := List.mem_iff_getElem.mp hb'
  have e : (all.map (·.1.hash))[i]'(by simpa using hi) = (all.map (·.1.hash))[j]'(by simpa using hj) := by
    rw [List.getElem_map, List.getElem_map]; exact e
  have := (List.getElem_inj hn).mp e
  subst this; rfl

theorem mem_wsSent {b : WsArgs} (h : wsSent b ∈ tree.map wsSent) : b ∈ tree := by
  obtain ⟨r, hr, e⟩ := List.mem_map.mp h
  simp only [wsSent, SentBlock.mk.injEq, true_and, and_true] at e
  have : r = b := Prod.ext e.1 e.2
  exact this ▸ hr

theorem Spec.WsBelow.nodup (h : WsBelow cfg root stored tree others conns) : ((tree ++ others).map (·.1.hash)).Nodup := by
  have := (List.nodup_cons.mp h.headers.distinct).2
  simpa [wsSent, Function.comp_def] using this

theorem Spec.WsBelow.inTree (h : WsBelow cfg root stored tree others conns) : stored ∈ tree := mem_wsSent h.headers.inTree

theorem Spec.WsBelow.kind (h : WsBelow cfg root stored tree others conns) {pb : PB} (hpb : ∃ b ∈ tree ++ others, WsSeen b.1 b.2 pb) :
    OfTree (tree.map wsSent) pb ∨ OfOther (wsSent root) (tree.map wsSent) (others.map wsSent) pb := by
  obtain ⟨b, hb, he⟩ := hpb
  rcases List.mem_append.mp hb with hb | hb
  · exact .inl ⟨wsSent b, List.mem_map.mpr ⟨b, hb, rfl⟩, headOf_seen he⟩
  · refine .inr ⟨wsSent b, List.mem_map.mpr ⟨b, hb, rfl⟩, headOf_seen he, ?_, (h.beside b hb).2⟩
    have := (h.beside b hb).1
    simpa [wsSent, Function.comp_def] using this

theorem Spec.WsBelow.seen_tree (h : WsBelow cfg root stored tree others conns) {pb : PB} (hpb : ∃ b ∈ tree ++ others, WsSeen b.1 b.2 pb)
    (ht : OfTree (tree.map wsSent) pb) : ∃ b ∈ tree, WsSeen b.1 b.2 pb := by
  obtain ⟨b, hb, he⟩ := hpb
  obtain ⟨s, hs, hx⟩ := ht
  obtain ⟨t, ht, rfl⟩ := List.mem_map.mp hs
  have : b = t := ws_inj h.nodup hb (List.mem_append_left _ ht) (he.hash.symm.trans hx.hash)
  exact ⟨b, this ▸ ht, he⟩

theorem Spec.WsBelow.world (h : WsBelow cfg root stored tree others conns) {pb : PB} (hpb : ∃ b ∈ tree ++ others, WsSeen b.1 b.2 pb) :
    ((forestWorld (tree.map wsSent ++ others.map wsSent)).Has pb ∧ pb.hash ≠ Hash.zero) ∧ (forestWorld (tree.map wsSent ++ others.map wsSent)).Heavier pb ∧
      (forestWorld (tree.map wsSent ++ others.map wsSent)).Numbered pb ∧ ¬ Forbidden cfg.whitelist pb ∧
      pb.hash ∈ (tree.map wsSent ++ others.map wsSent).map (·.args.hash) := by
  obtain ⟨b, hb, he⟩ := hpb
  exact h.headers.world (by rw [← List.map_append]; exact List.mem_map.mpr ⟨b, hb, rfl⟩) (headOf_seen he)

/-- The order in which blocks of the tree are emitted. -/
theorem Spec.WsBelow.ordered (h : WsBelow cfg root stored tree others (conn :: later)) (hf : WsFollow root tree (conn :: later))
    (hsf : WsStoredFirst stored tree (conn :: later)) {w0 w : WSys} (h0 : WSys.start cfg num conn later = .ok w0) (hs : WSys.Steps C env o w0 w) :
    TreeOrder cfg root.1.hash (tree.map wsSent) w.sys.mp.emitted := by
  have hv := wsinv_steps h.toWsCarried rfl h0 hs
  have hem : ∀ a ∈ w.sys.mp.emitted, ∀ p ∈ tree, a.hash = p.1.hash → OfTree (tree.map wsSent) a := by
    intro a ha p hp e
    obtain ⟨b, hb, he⟩ := hv.emitted h.toWsCarried ha
    have : b = p := ws_inj h.nodup hb (List.mem_append_left _ hp) (he.hash.symm.trans e)
    exact ⟨wsSent p, List.mem_map.mpr ⟨p, hp, rfl⟩, this ▸ headOf_seen he⟩
  have hoth : ∀ {b : PB} {s : WsArgs}, OfTree (tree.map wsSent) b → s ∈ others → WsSeen s.1 s.2 b → False := by
    rintro b s ⟨t, ht, htb⟩ hs he
    exact h.headers.tree_other ht (List.mem_map.mpr ⟨s, hs, rfl⟩) (htb.hash.symm.trans he.hash)
  refine ⟨?_, ?_⟩
  · intro l1 b l2 e ht
    obtain ⟨s, hs', he, (k | k) | ⟨p, hp, ⟨k, hpt⟩, a, ha, ea⟩⟩ := ws_emitted_after (free := fun s => s ∈ others ∨ s.1.hash = root.1.hash)
      (need := fun s p => p.1.hash = s.1.parentHash ∧ p ∈ tree) h.toWsCarried (by
        intro hist ms later l1 x l2 e1 e2 b hb ex
        rcases List.mem_append.mp hb with hb | hb
        · rcases hf hist ms later l1 x l2 e1 e2 b hb ex with k | ⟨p, hp, k1, k2⟩
          · exact .inl (.inr k)
          · exact .inr ⟨p, List.mem_append_left _ hp, ⟨k1, hp⟩, k2⟩
        · exact .inl (.inl hb)) h0 hs l1 b l2 e
    · exact (hoth ht k he).elim
    · exact .inl (he.hash.trans k)
    · exact .inr ⟨a, ha, hem a (by rw [e]; simp [ha]) p hpt ea, by rw [ea, k, he.parent]⟩
  · intro l1 b l2 e ht
    have hst : stored.1.hash = cfg.lastHash := h.headers.hash
    obtain ⟨s, hs', he, (k | k | k) | ⟨p, hp, k, a, ha, ea⟩⟩ := ws_emitted_after
      (free := fun s => s ∈ others ∨ s.1.hash = stored.1.hash ∨ s.1.weight < stored.1.weight) (need := fun _ p => p = stored) h.toWsCarried (by
        intro hist ms later l1 x l2 e1 e2 b hb ex
        rcases List.mem_append.mp hb with hb | hb
        · rcases hsf hist ms later l1 x l2 e1 e2 b hb ex with k | k | k
          · exact .inl (.inr (.inl k))
          · exact .inl (.inr (.inr k))
          · exact .inr ⟨stored, List.mem_append_left _ h.inTree, rfl, k⟩
        · exact .inl (.inl hb)) h0 hs l1 b l2 e
    · exact (hoth ht k he).elim
    · exact .inl (by rw [he.hash, k, hst])
    · right; left
      have h1 := he.weight
      have h2 : stored.1.weight = (cfg.lastWeight : Int) := h.headers.weight
      omega
    · right; right
      subst k
      exact ⟨a, ha, hem a (by rw [e]; simp [ha]) p h.inTree ea, by rw [ea, hst]⟩

/-- **C150**, no faults and no deadlock: whatever the order of the messages, neither goroutine of a restarted websocket consumer is ever about to fault, there are no endless
executions, and one that cannot be continued has read and handled everything. -/
theorem C150_progress (h : WsBelow cfg root stored tree others (conn :: later)) (hwin : ((tree ++ others).length : Int) ≤ 2 * cfg.reorgThreshold) {w0 : WSys}
    (h0 : WSys.start cfg num conn later = .ok w0) :
    (∀ f : Nat → WSys, ¬ ∀ n, WSys.Step C env o (f n) (f (n + 1))) ∧
    ∀ w, WSys.Steps C env o w0 w → ¬ w.Faulting C env o ∧
      ((∃ w', WSys.Step C env o w w') ∨ w.sys.Drained ∧ w.todo = [] ∧ w.later = []) := by
  refine ⟨fun f hf => wsys_no_endless f hf, fun w hw => wsys_progress h.toWsCarried h0 ?_ hw⟩
  intro omp0 ds hn hds
  exact C35_partial (o := o) h.headers.storedHash h.headers.storedWeight (fun b hb => (h.world (hds b hb)).1) (fun b hb => (h.world (hds b hb)).2.1)
    (fun b hb => (h.world (hds b hb)).2.2.1)
    ⟨(tree.map wsSent ++ others.map wsSent).map (·.args.hash), by simpa using hwin, h.headers.inU, fun b hb => (h.world (hds b hb)).2.2.2.2⟩ hn

/-- **C150**, while running: as long as the stored block has not been handled, nothing is told to the subscribers; from then on their head is the first-handled block of
maximal weight among those of the tree that were handled. -/
theorem C150_head (h : WsBelow cfg root stored tree others (conn :: later)) (hwin : ((tree ++ others).length : Int) ≤ 2 * cfg.reorgThreshold)
    (hf : WsFollow root tree (conn :: later)) (hsf : WsStoredFirst stored tree (conn :: later)) {w0 w : WSys} (h0 : WSys.start cfg num conn later = .ok w0)
    (hs : WSys.Steps C env o w0 w) :
    (∀ n, OOut.evictOlder n ∉ w.sys.omp.log) ∧
    (cfg.lastHash ∈ hashes (blocksOf w.sys.ops) → FirstHeaviest (blocksIn (tree.map wsSent) (blocksOf w.sys.ops)) w.sys.omp.lastHash) ∧
    (cfg.lastHash ∉ hashes (blocksOf w.sys.ops) → w.sys.omp.log = [] ∧ w.sys.omp.lastHash = cfg.lastHash) := by
  have hv := wsinv_steps h.toWsCarried rfl h0 hs
  obtain ⟨s0, r1, r2⟩ := hv.run
  obtain ⟨omp0, ds, done, rest, i1, i2, i3, i4, i5, i6, i7⟩ := blocks_inside r1 r2
  have hds : blocksOf w.sys.ops = ds := by rw [i4, blocksOf_map]
  rw [hds]
  have hord := h.ordered hf hsf h0 hs
  rw [i6] at hord
  refine h.headers.handled (by simpa using hwin) i1 (fun pb hpb => h.kind (hv.emitted h.toWsCarried (by rw [i6]; simp [hpb]))) hord.prefix i5

/-- What happens in one life. -/
theorem ws_life_inside (h : WsBelow cfg root stored tree others (conn :: later)) {w0 w : WSys} (h0 : WSys.start cfg num conn later = .ok w0)
    (hs : WSys.Steps C env o w0 w) :
    ∃ (omp0 : OMP) (ds : List PB), newOMP cfg = .ok omp0 ∧ blocksOf w.sys.ops = ds ∧ omp0.run o (ds.map OOp.block) = .ok w.sys.omp ∧
      (∀ pb ∈ ds, ∃ b ∈ tree ++ others, WsSeen b.1 b.2 pb) ∧ headAfter cfg.lastHash w.sys.omp.log = w.sys.omp.lastHash := by
  have hv := wsinv_steps h.toWsCarried rfl h0 hs
  obtain ⟨s0, r1, r2⟩ := hv.run
  obtain ⟨omp0, ds, done, rest, i1, i2, i3, i4, i5, i6, i7⟩ := blocks_inside r1 r2
  have hex : ∀ pb ∈ ds, ∃ b ∈ tree ++ others, WsSeen b.1 b.2 pb := fun pb hpb => hv.emitted h.toWsCarried (by rw [i6]; simp [hpb])
  refine ⟨omp0, ds, i1, by rw [i4, blocksOf_map], i5, hex, ?_⟩
  exact (run_fork (o := o) (W := forestWorld (tree.map wsSent ++ others.map wsSent)) (ops := ds.map OOp.block) h.headers.storedHash
    (by rw [blocksOf_map]; exact fun b hb => (h.world (hex b hb)).1) i1 i5).1.symm

/-- **C150**, what is stored: whenever a life ends, the application's head is a block of the tree it was receiving, not lighter than the one it had stored. -/
theorem C150_stored (hL : WsLifeGiven cfg all st root tree others (conn :: later)) {w0 w : WSys}
    (h0 : WSys.start (startOn cfg (wsSent st)) num conn later = .ok w0) (hs : WSys.Steps C env o w0 w) :
    ∃ st' ∈ tree, st'.1.hash = headAfter st.1.hash w.sys.omp.log ∧ st.1.weight ≤ st'.1.weight := by
  obtain ⟨omp0, ds, ho, hds, h5, hex, hh⟩ := ws_life_inside hL.blocks h0 hs
  obtain ⟨-, g2, g3⟩ := C150_head hL.blocks hL.window hL.follow hL.storedFirst h0 hs
  rw [hds] at g2 g3
  have hh : headAfter st.1.hash w.sys.omp.log = w.sys.omp.lastHash := hh
  rw [hh]
  by_cases hin : (startOn cfg (wsSent st)).lastHash ∈ hashes ds
  · obtain ⟨l1, b, l2, e, e1, e2, _⟩ := g2 hin
    obtain ⟨hb, hbt⟩ := List.mem_filter.mp (show b ∈ blocksIn (tree.map wsSent) ds by rw [e]; simp)
    obtain ⟨sb, hsb, he⟩ := hL.blocks.seen_tree (hex b hb) ((hL.blocks.headers.inTree_iff (hL.blocks.kind (hex b hb))).mp (by simpa using hbt))
    obtain ⟨x, hx, ex⟩ := List.mem_map.mp hin
    obtain ⟨sx, hsx, hex'⟩ := hex x hx
    have hsame : sx = st := ws_inj hL.blocks.nodup hsx (List.mem_append_left _ hL.blocks.inTree) (by rw [← hex'.hash, ex]; rfl)
    subst hsame
    have h1 := e2 x (List.mem_filter.mpr ⟨hx, by
      rw [decide_eq_true_eq]
      exact List.mem_map.mpr ⟨wsSent sx, List.mem_map.mpr ⟨sx, hL.blocks.inTree, rfl⟩, hex'.hash.symm⟩⟩)
    have h2 := he.weight
    have h3 := hex'.weight
    exact ⟨sb, hsb, by rw [← he.hash, e1], by omega⟩
  · exact ⟨st, hL.blocks.inTree, (g3 hin).2.symm, Int.le_refl _⟩

/-- A block as one of `all` was given to the producer. -/
def WsOneOf (all : List WsArgs) (pb : PB) : Prop := ∃ b ∈ all, WsSeen b.1 b.2 pb

theorem wsOneOf_hashed (hd : (Hash.zero :: all.map (·.1.hash)).Nodup) : Hashed (WsOneOf all) := by
  obtain ⟨h1, h2⟩ := List.nodup_cons.mp hd
  refine ⟨?_, ?_⟩
  · rintro b ⟨sb, hsb, he⟩ e
    exact h1 (List.mem_map.mpr ⟨sb, hsb, by rw [← he.hash, e]⟩)
  · rintro a b ⟨sa, hsa, ha⟩ ⟨sb, hsb, hb⟩ e
    have := ws_inj h2 hsa hsb (by rw [← ha.hash, e, hb.hash])
    subst this
    rw [ha.parent, hb.parent]

/-- **C150**: over any number of lives, the application can apply all outputs; it then holds a chain of blocks, each exactly as given to the producer, that ends in the block
stored, which is not lighter than the first. -/
theorem C150_lives (hd : (Hash.zero :: all.map (·.1.hash)).Nodup) {log : List OOut} (h : WsForkLives C cfg all first log st) :
    ∃ base chain, Replays first.1.hash log base chain ∧ Linked base chain ∧ endOf base chain = st.1.hash ∧
      (∀ pb ∈ chain, ∃ b ∈ all, WsSeen b.1 b.2 pb) ∧ first.1.weight ≤ st.1.weight := by
  induction h with
  | first => exact ⟨_, _, .start, trivial, rfl, by simp, Int.le_refl _⟩
  | @life log st root st' tree others num conn later env o w0 w _ hL h0 hs hin heq ih =>
    obtain ⟨base, chain, r1, r2, r3, r4, r5⟩ := ih
    obtain ⟨omp0, ds, ho, hds, h5, hex, hh⟩ := ws_life_inside hL.blocks h0 hs
    obtain ⟨base', chain', hf⟩ := run_followingOn (D := WsOneOf all) (wsOneOf_hashed hd) hL.blocks.headers.storedHash (fun b hb => by
      obtain ⟨sb, hsb, he⟩ := hex b hb
      exact ⟨sb, hL.among sb hsb, he⟩) ho h5 r1 r2 r3 r4
    obtain ⟨st2, k1, k2, k3⟩ := C150_stored hL h0 hs
    have hsame : st2 = st' := ws_inj (List.nodup_cons.mp hd).2 (hL.among st2 (List.mem_append_left _ k1)) hin (k2.trans heq.symm)
    subst hsame
    exact ⟨base', chain', hf.replays, hf.linked, by rw [hf.tip, ← hh]; exact heq.symm, hf.chainD, by omega⟩

/-- **C150**, the end: when in some life every block of its tree came completely over some connection and the consumer has come to rest, the application, having applied
the outputs of all lives, holds a chain of blocks exactly as given to the producer that ends in a heaviest block of that tree. -/
theorem C150_end (hd : (Hash.zero :: all.map (·.1.hash)).Nodup) {log : List OOut} (h : WsForkLives C cfg all first log st)
    (hL : WsLifeGiven cfg all st root tree others (conn :: later)) (ha : WsComplete tree (conn :: later)) {w0 w : WSys}
    (h0 : WSys.start (startOn cfg (wsSent st)) num conn later = .ok w0) (hs : WSys.Steps C env o w0 w) (hstuck : ∀ w', ¬ WSys.Step C env o w w') :
    ∃ base chain, ∃ top ∈ tree, Replays first.1.hash (log ++ w.sys.omp.log) base chain ∧ Linked base chain ∧ endOf base chain = top.1.hash ∧
      (∀ pb ∈ chain, ∃ b ∈ all, WsSeen b.1 b.2 pb) ∧ (∀ b ∈ tree, b.1.weight ≤ top.1.weight) ∧
      WsForkLives C cfg all first (log ++ w.sys.omp.log) top := by
  obtain ⟨hdr, ht, hl⟩ := (((C150_progress (C := C) (env := env) (o := o) hL.blocks hL.window h0).2 w hs).2).resolve_left (fun ⟨w', hw'⟩ => hstuck w' hw')
  have hv := wsinv_steps hL.blocks.toWsCarried rfl h0 hs
  obtain ⟨s0, r1, r2⟩ := hv.run
  obtain ⟨omp0, ds, done, rest, i1, i2, i3, i4, i5, i6, i7⟩ := blocks_inside r1 r2
  rw [hdr.2.1, hdr.2.2.1] at i6
  have i6 : w.sys.mp.emitted = ds := by simpa [blocksSent] using i6
  have hds : blocksOf w.sys.ops = ds := by rw [i4, blocksOf_map]
  have hex : ∀ pb ∈ ds, ∃ b ∈ tree ++ others, WsSeen b.1 b.2 pb := fun pb hpb => hv.emitted hL.blocks.toWsCarried (by rw [i6]; exact hpb)
  have hall : ∀ b ∈ tree, ∃ pb ∈ ds, WsSeen b.1 b.2 pb := by
    intro b hb
    have hb' := List.mem_append_left others hb
    have := hv.one ht hl hdr.1 hb' (ha b hb)
    rw [i6] at this
    obtain ⟨pb, hpb, e⟩ := List.mem_map.mp this
    obtain ⟨b', hb2, he⟩ := hex pb hpb
    have := ws_inj hL.blocks.nodup hb2 hb' (he.hash.symm.trans e)
    subst this
    exact ⟨pb, hpb, he⟩
  obtain ⟨-, g2, -⟩ := C150_head hL.blocks hL.window hL.follow hL.storedFirst h0 hs
  rw [hds] at g2
  obtain ⟨pst, hpst, hest⟩ := hall st hL.blocks.inTree
  obtain ⟨l1, b, l2, e, e1, e2, _⟩ := g2 (by
    have : (startOn cfg (wsSent st)).lastHash = pst.hash := hest.hash.symm
    rw [this]; exact mem_hashes hpst)
  obtain ⟨hb, hbt⟩ := List.mem_filter.mp (show b ∈ blocksIn (tree.map wsSent) ds by rw [e]; simp)
  obtain ⟨top, htop, he⟩ := hL.blocks.seen_tree (hex b hb) ((hL.blocks.headers.inTree_iff (hL.blocks.kind (hex b hb))).mp (by simpa using hbt))
  obtain ⟨-, -, -, -, -, -, hh⟩ := ws_life_inside hL.blocks h0 hs
  have hlive : WsForkLives C cfg all first (log ++ w.sys.omp.log) top := by
    refine .life h hL h0 hs (hL.among top (List.mem_append_left _ htop)) ?_
    have hh : headAfter st.1.hash w.sys.omp.log = w.sys.omp.lastHash := hh
    rw [hh, ← e1, he.hash]
  obtain ⟨base, chain, q1, q2, q3, q4, -⟩ := C150_lives hd hlive
  refine ⟨base, chain, top, htop, q1, q2, q3, q4, ?_, hlive⟩
  intro b' hb'
  obtain ⟨pb, hpb, he'⟩ := hall b' hb'
  have := e2 pb (List.mem_filter.mpr ⟨hpb, by
    rw [decide_eq_true_eq]
    exact List.mem_map.mpr ⟨wsSent b', List.mem_map.mpr ⟨b', hb', rfl⟩, he'.hash.symm⟩⟩)
  have h8 := he'.weight
  have h9 := he.weight
  omega

end

/-! ## With the producer -/

/-- A block not lighter than the stored block is added when the stored block has been added and all its sub-batches have been sent. -/
def Spec.WsStoredInOrder (stored : WsArgs) (tree : List WsArgs) (ops : List WOp) : Prop :=
  ∀ l o b r, ops = l ++ .add o b.1 :: r → b ∈ tree → b.1.hash = stored.1.hash ∨ b.1.weight < stored.1.weight ∨
    ∃ l1 o1 l2, l = l1 ++ .add o1 stored.1 :: l2 ∧ ∀ id, (∃ q, stored.1.batches.get? q = some id) → .send id (stored.2 id) ∈ l2

section
variable {cfg : Config} {root st : WsArgs} {all tree : List WsArgs} {ops : List WOp}

/-- **C150**, with the producer: if in some life a websocket producer is given the blocks of a tree that contains the stored block, each when its parent is complete, and those
not lighter than the stored block when that is complete, then what comes over a connection to it is what a life may receive. -/
theorem C150_published (h : WsPublishes tree ops) (hord : WsInOrder root tree ops) (hso : WsStoredInOrder st tree ops) (hall : ∀ b ∈ tree, b ∈ all)
    (hT : HeadersBelow (startOn cfg (wsSent st)) (wsSent root) (wsSent st) (tree.map wsSent) []) (hwin : (tree.length : Int) ≤ 2 * cfg.reorgThreshold) (o' : MapOrder) :
    WsLifeGiven cfg all st root tree [] [(wsSentBy ops).map (WMsg.json o')] ∧ WsComplete tree [(wsSentBy ops).map (WMsg.json o')] := by
  have hn : (tree.map (·.1.hash)).Nodup := by
    have := (List.nodup_cons.mp hT.distinct).2
    simpa [wsSent, Function.comp_def] using this
  obtain ⟨h1, h2⟩ := h.carried hn (fun b hb => by
    have := hT.heavy (wsSent b) (by simp only [List.append_nil]; exact List.mem_map.mpr ⟨b, hb, rfl⟩)
    exact Int.le_of_lt this) o'
  refine ⟨⟨by simpa using hall, ⟨by simpa using h1, hT, by simp⟩, by simpa using hwin, hord.follow h hn o', ?_⟩, h2⟩
  intro hist ms later l1 x l2 e1 e2 b hb ex
  rcases Spec.WsPublishes.after (free := fun b => b.1.hash = st.1.hash ∨ b.1.weight < st.1.weight) (need := fun _ p => p = st) (by
      intro l o b r e hb
      rcases hso l o b r e hb with k | k | k
      · exact .inl (.inl k)
      · exact .inl (.inr k)
      · exact .inr ⟨st, mem_wsSent hT.inTree, rfl, k⟩) h hn o' hist ms later l1 x l2 e1 e2 b hb ex with (k | k) | ⟨p, _, rfl, k⟩
  · exact .inl k
  · exact .inr (.inl k)
  · exact .inr (.inr k)

end

/-! ## Example: two lives -/

/-- The last block processed, then a heavier fork on its parent. -/
def exWLiveOps : List WOp := [.add .plain exWA1, .send (exWId 1) (exWS (exWId 1)), .send (exWId 0) (exWS (exWId 0)), .add .plain exWA2, .send (exWId 2) (exWS (exWId 2)),
  .add .rev exWA3, .send (exWId 3) (exWS (exWId 3))]

theorem exWLive_publishes : WsPublishes exWTree exWLiveOps := by
  refine exWTree_publishes (.refl _) ?_ ?_
  · intro id s hs
    simp only [exWLiveOps, List.mem_cons, WOp.send.injEq, reduceCtorEq, false_or, List.not_mem_nil, or_false] at hs
    rcases hs with ⟨rfl, rfl⟩ | ⟨rfl, rfl⟩ | ⟨rfl, rfl⟩ | ⟨rfl, rfl⟩ <;> rfl
  · refine exW_three ?_ ?_ ?_
    · intro id h
      refine ⟨[], _, _, rfl, ?_⟩
      rcases (exW_ids1 id).mp h with rfl | rfl <;> simp
    · intro id h
      refine ⟨[_, _, _], _, _, rfl, ?_⟩
      rcases (exW_ids2 id).mp h with rfl
      simp
    · intro id h
      refine ⟨[_, _, _, _, _], _, _, rfl, ?_⟩
      rcases (exW_ids3 id).mp h with rfl
      simp

/-- The places where blocks are added. -/
theorem exWLive_add {l r : List WOp} {o : MapOrder} {a : BlockArgs} (e : exWLiveOps = l ++ .add o a :: r) :
    l = [] ∧ a = exWA1 ∨ l = exWLiveOps.take 3 ∧ a = exWA2 ∨ l = exWLiveOps.take 5 ∧ a = exWA3 := by
  have hlen : l = exWLiveOps.take l.length := by rw [e]; simp
  have hat : exWLiveOps[l.length]? = some (.add o a) := by rw [e]; simp
  have hk : l.length = 0 ∨ l.length = 3 ∨ l.length = 5 ∨ l.length = 1 ∨ l.length = 2 ∨ l.length = 4 ∨ l.length = 6 ∨ 7 ≤ l.length := by omega
  rcases hk with h | h | h | h | h | h | h | h
  · rw [h] at hat hlen; simp [exWLiveOps] at hat; exact .inl ⟨hlen, hat.2.symm⟩
  · rw [h] at hat hlen; simp [exWLiveOps] at hat; exact .inr (.inl ⟨hlen, hat.2.symm⟩)
  · rw [h] at hat hlen; simp [exWLiveOps] at hat; exact .inr (.inr ⟨hlen, hat.2.symm⟩)
  · rw [h] at hat; simp [exWLiveOps] at hat
  · rw [h] at hat; simp [exWLiveOps] at hat
  · rw [h] at hat; simp [exWLiveOps] at hat
  · rw [h] at hat; simp [exWLiveOps] at hat
  · rw [List.getElem?_eq_none (by simpa [exWLiveOps] using h)] at hat
    cases hat

theorem exWLive_order : WsInOrder (exWA1, exWS) exWTree exWLiveOps := by
  intro l o a r e
  rcases exWLive_add e with ⟨rfl, rfl⟩ | ⟨rfl, rfl⟩ | ⟨rfl, rfl⟩
  · exact .inl rfl
  · refine .inr ⟨(exWA1, exWS), by simp [exWTree], rfl, [], _, _, rfl, ?_⟩
    intro id h
    rcases (exW_ids1 id).mp h with rfl | rfl <;> simp
  · refine .inr ⟨(exWA1, exWS), by simp [exWTree], rfl, [], _, _, rfl, ?_⟩
    intro id h
    rcases (exW_ids1 id).mp h with rfl | rfl <;> simp

theorem exWLive_headers {st : WsArgs} (hs : st ∈ exWTree) :
    HeadersBelow (startOn exForkCfg (wsSent st)) (wsSent (exWA1, exWS)) (wsSent st) (exWTree.map wsSent) [] := by
  have three : ∀ {P : SentBlock → Prop}, P (wsSent (exWA1, exWS)) → P (wsSent (exWA2, exWS)) → P (wsSent (exWA3, exWS)) →
      ∀ s ∈ exWTree.map wsSent, P s := by
    intro P h1 h2 h3 s hs
    obtain ⟨b, hb, rfl⟩ := List.mem_map.mp hs
    exact exW_three (P := fun b => P (wsSent b)) h1 h2 h3 b hb
  refine ⟨by simp [exWTree], ?_, three (.inl rfl) (.inr ?_) (.inr ?_), ?_, ?_, ?_, ?_, ?_, List.mem_map.mpr ⟨st, hs, rfl⟩, rfl, ?_⟩
  · show exHash 2 ∉ [exHash 1, exHash 3, exHash 5]
    decide
  · exact ⟨wsSent (exWA1, exWS), by simp [exWTree], rfl⟩
  · exact ⟨wsSent (exWA1, exWS), by simp [exWTree], rfl⟩
  · rw [List.append_nil]
    refine three (three ?_ ?_ ?_) (three ?_ ?_ ?_) (three ?_ ?_ ?_) <;> decide
  · rw [List.append_nil]
    refine three (three ?_ ?_ ?_) (three ?_ ?_ ?_) (three ?_ ?_ ?_) <;> decide
  · rw [List.append_nil]
    exact three (by decide) (by decide) (by decide)
  · show [Hash.zero, exHash 1, exHash 3, exHash 5].Nodup
    decide
  · intro s _ x hx
    simp [startOn, exForkCfg, exCfg] at hx
  · exact exW_three (P := fun st => (wsSent st).args.weight = ((startOn exForkCfg (wsSent st)).lastWeight : Int)) (by decide) (by decide) (by decide) st hs

theorem exWLive_given {st : WsArgs} (h : st = (exWA2, exWS) ∨ st = (exWA3, exWS)) :
    WsLifeGiven exForkCfg exWTree st (exWA1, exWS) exWTree [] [(wsSentBy exWLiveOps).map (WMsg.json .rev)] ∧
      WsComplete exWTree [(wsSentBy exWLiveOps).map (WMsg.json .rev)] := by
  refine C150_published exWLive_publishes exWLive_order ?_ (fun _ h => h) (exWLive_headers (by rcases h with rfl | rfl <;> simp [exWTree]))
    (show (3 : Int) ≤ 2 * 2 by decide) .rev
  intro l o b r e hb
  rcases h with rfl | rfl
  · rcases exWLive_add e with ⟨rfl, e'⟩ | ⟨rfl, e'⟩ | ⟨rfl, e'⟩
    · right; left; rw [e']; decide
    · left; rw [e']
    · refine .inr (.inr ⟨exWLiveOps.take 3, .plain, [.send (exWId 2) (exWS (exWId 2))], rfl, ?_⟩)
      intro id h
      rcases (exW_ids2 id).mp h with rfl
      simp
  · rcases exWLive_add e with ⟨rfl, e'⟩ | ⟨rfl, e'⟩ | ⟨rfl, e'⟩
    · right; left; rw [e']; decide
    · right; left; rw [e']; decide
    · left; rw [e']

theorem exWLive_top {top : WsArgs} (h : top ∈ exWTree) (hw : ∀ b ∈ exWTree, b.1.weight ≤ top.1.weight) : top = (exWA3, exWS) := by
  have h320 := hw (exWA3, exWS) (by simp [exWTree])
  refine exW_three (P := fun top => (320 : Int) ≤ top.1.weight → top = (exWA3, exWS)) ?_ ?_ ?_ top h h320
  · exact fun h => absurd h (show ¬ (320 : Int) ≤ 300 by decide)
  · exact fun h => absurd h (show ¬ (320 : Int) ≤ 310 by decide)
  · exact fun _ => rfl

/-- C150: a consumer that has stored one block is started again, moves to a heavier fork on its parent, is started once more, receives all blocks again, and stays there. -/
example : ∃ log1 log2 base chain, WsForkLives Avro.codec exForkCfg exWTree (exWA2, exWS) log1 (exWA3, exWS) ∧
    WsForkLives Avro.codec exForkCfg exWTree (exWA2, exWS) (log1 ++ log2) (exWA3, exWS) ∧ log1 ≠ [] ∧
    Replays exWA2.hash (log1 ++ log2) base chain ∧ endOf base chain = exWA3.hash ∧ ∀ pb ∈ chain, ∃ b ∈ exWTree, WsSeen b.1 b.2 pb := by
  have hd : (Hash.zero :: exWTree.map (·.1.hash)).Nodup := by
    show [Hash.zero, exHash 1, exHash 3, exHash 5].Nodup
    decide
  obtain ⟨g1, g2⟩ := exWLive_given (.inl rfl)
  obtain ⟨w0, h0⟩ : ∃ w0, WSys.start (startOn exForkCfg (wsSent (exWA2, exWS))) 5 ((wsSentBy exWLiveOps).map (WMsg.json .rev)) [] = .ok w0 := ⟨_, rfl⟩
  obtain ⟨w, hw, hst⟩ := wsys_rests (C := Avro.codec) (env := exEnv) (o := .plain) w0
  obtain ⟨b1, c1, top, htop, q1, q2, q3, q4, q5, q6⟩ := C150_end hd .first g1 g2 h0 hw hst
  have := exWLive_top htop q5
  subst this
  obtain ⟨k1, k2⟩ := exWLive_given (.inr rfl)
  obtain ⟨v0, i0⟩ : ∃ w0, WSys.start (startOn exForkCfg (wsSent (exWA3, exWS))) 6 ((wsSentBy exWLiveOps).map (WMsg.json .rev)) [] = .ok w0 := ⟨_, rfl⟩
  obtain ⟨v, hv, hsv⟩ := wsys_rests (C := Avro.codec) (env := exEnv) (o := .rev) v0
  obtain ⟨b2, c2, top, htop, p1, p2, p3, p4, p5, p6⟩ := C150_end hd q6 k1 k2 i0 hv hsv
  have := exWLive_top htop p5
  subst this
  refine ⟨_, _, b2, c2, q6, p6, ?_, p1, p3, p4⟩
  intro e
  have hr := replays_head q1
  rw [q3, e] at hr
  exact absurd hr (by decide)

end Verif
