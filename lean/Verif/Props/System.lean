import Verif.Proofs.System
import Verif.Props.Block
import Verif.Props.OrderingMore
/-!
# C43, C44: the whole consumer

Executions are arbitrary interleavings of the caller's goroutine and the ordering goroutine (`Sys.Steps`).
-/
namespace Verif
open Spec

variable {C : Codec} {env : Env} {o : MapOrder}

/-! ## C43 -/

/-- **C43**: at every moment the blocks emitted by the message processor are, in order, the blocks handled by the ordering layer,
those in the channel, and those of the current call not yet in the channel; the same for notifications. What each side has
done is a run of its own over a prefix of the calls, and over the handled blocks and notifications. -/
theorem C43_pipeline {cfg : Config} {todo : List Call} {s0 s : Sys} (hn : Sys.start cfg todo = .ok s0) (hs : Sys.Steps C env o s0 s) :
    Consists C env o cfg todo s ∧
    blocksSent s.mp.log = blocksOf s.ops ++ (s.ch ++ blocksSent s.out) ∧
    notesSent s.mp.log = notesOf s.ops ++ (s.reorgCh ++ notesSent s.out) := by
  have h := (Piped.start hn).steps hs
  exact ⟨h.consists, h.blocks, h.notes⟩

/-- **C43**: the blocks and notifications handled are prefixes of those emitted. -/
theorem C43_prefix {cfg : Config} {todo : List Call} {s0 s : Sys} (hn : Sys.start cfg todo = .ok s0) (hs : Sys.Steps C env o s0 s) :
    blocksOf s.ops <+: s.mp.emitted ∧ notesOf s.ops <+: notesSent s.mp.log := by
  have h := (Piped.start hn).steps hs
  refine ⟨?_, ?_⟩
  · have : s.mp.emitted = blocksSent s.mp.log := rfl
    rw [this, h.blocks]; exact List.prefix_append _ _
  · rw [h.notes]; exact List.prefix_append _ _

/-- **C43**: every block in a chain update was emitted by the message processor. -/
theorem C43_updates {cfg : Config} {todo : List Call} {s0 s : Sys} (hn : Sys.start cfg todo = .ok s0) (hs : Sys.Steps C env o s0 s)
    {added removed : List PB} (hu : .update added removed ∈ s.omp.log) {b : PB} (hb : b ∈ added ++ removed) :
    b ∈ s.mp.emitted := by
  have h := (Piped.start hn).steps hs
  obtain ⟨omp0, ho, hr⟩ := h.consists.omp
  obtain ⟨l1, l2, e, _⟩ := C34_admitted ho hr hu hb
  refine (C43_prefix hn hs).1.subset ?_
  rw [e]; simp

/-- **C43**: there are no endless executions, and one that cannot be continued has handled everything or is about to fault: the
goroutines never wait for each other. -/
theorem C43_progress {cfg : Config} {todo : List Call} {s0 : Sys} (hn : Sys.start cfg todo = .ok s0) :
    (∀ f : Nat → Sys, ¬ ∀ n, Sys.Step C env o (f n) (f (n + 1))) ∧
    ∀ s, Sys.Steps C env o s0 s →
      (s.Drained ∨ Faulty C env o s ∨ ∃ s', Sys.Step C env o s s') ∧
      ∃ s', Sys.Steps C env o s s' ∧ (s'.Drained ∨ Faulty C env o s') := by
  refine ⟨fun f h => Sys.no_endless f h, ?_⟩
  intro s hs
  have h := (Piped.start (C := C) (env := env) (o := o) hn).steps hs
  refine ⟨?_, s.drains h.room⟩
  by_cases hd : s.Drained
  · exact .inl hd
  · rcases s.progress (C := C) (env := env) (o := o) hd with h | h
    · exact .inr (.inr h)
    · exact .inr (.inl h)

/-! ## C44 -/

/-- The blocks are a chain on the block with hash `h`, number `n` and weight `w`: numbers go up by one, weights grow. -/
def ChainOf : Hash → Int → Int → List SentBlock → Prop
  | _, _, _, [] => True
  | h, n, w, s :: ss => s.args.parentHash = h ∧ s.args.number = n + 1 ∧ w < s.args.weight ∧
      ChainOf s.args.hash s.args.number s.args.weight ss

/-- The header of a sent block. -/
def bare (s : SentBlock) : PB where
  number := s.args.number
  weight := s.args.weight.toNat
  parentHash := s.args.parentHash
  hash := s.args.hash
  values := GMap.empty
  deletes := GMap.empty
  resumption := GMap.empty
  resumptionDefaults := GMap.empty
  prefixes := GMap.empty
  batches := GMap.empty
  pendingBatches := GMap.empty
  pendingMessages := GMap.empty
  waitCh := none
  frp := false

/-- The world of a chain on `root`. -/
def worldOn (root : Hash) (n : Int) (w : Nat) (chain : List SentBlock) : World where
  parent h := ((chain.find? (fun s => s.args.hash == h)).map (·.args.parentHash)).getD Hash.zero
  number h := ((chain.find? (fun s => s.args.hash == h)).map (·.args.number)).getD (if h = root then n else 0)
  weight h := ((chain.find? (fun s => s.args.hash == h)).map (·.args.weight.toNat)).getD (if h = root then w else 0)

theorem find_hash {chain : List SentBlock} (hd : (chain.map (·.args.hash)).Nodup) {s : SentBlock} (hs : s ∈ chain) :
    chain.find? (fun x => x.args.hash == s.args.hash) = some s := by
  induction chain with
  | nil => simp at hs
  | cons a l ih =>
    simp only [List.map_cons, List.nodup_cons] at hd
    rw [List.find?_cons]
    rcases List.mem_cons.mp hs with rfl | h
    · simp
    · have hne : a.args.hash ≠ s.args.hash := fun e => hd.1 (by rw [e]; exact List.mem_map.mpr ⟨s, h, rfl⟩)
      rw [show (a.args.hash == s.args.hash) = false by simpa using hne]
      exact ih hd.2 h

theorem worldOn_has {root : Hash} {n : Int} {w : Nat} {chain : List SentBlock} (hd : (chain.map (·.args.hash)).Nodup)
    {s : SentBlock} (hs : s ∈ chain) : (worldOn root n w chain).Has (bare s) := by
  have h := find_hash hd hs
  exact ⟨by simp [worldOn, bare, h], by simp [worldOn, bare, h], by simp [worldOn, bare, h]⟩

theorem chainOf_linked {h : Hash} {n w : Int} {chain : List SentBlock} (hc : ChainOf h n w chain) : Linked h (chain.map bare) := by
  induction chain generalizing h n w with
  | nil => trivial
  | cons s ss ih => exact ⟨hc.1, ih hc.2.2.2⟩

theorem chainOf_grows {W : World} {h : Hash} {n w : Int} {chain : List SentBlock} (hc : ChainOf h n w chain) (hn : W.number h = n)
    (hw : (W.weight h : Int) = w) (hW : ∀ s ∈ chain, W.Has (bare s)) (h0 : ∀ s ∈ chain, 0 ≤ s.args.weight) :
    ∀ s ∈ chain, W.Numbered (bare s) ∧ W.Heavier (bare s) := by
  induction chain generalizing h n w with
  | nil => simp
  | cons a l ih =>
    obtain ⟨h1, h2, h3, h4⟩ := hc
    have ha := hW a (by simp)
    have hz := h0 a (by simp)
    have han : a.args.number = W.number a.args.hash := ha.number
    have haw : a.args.weight.toNat = W.weight a.args.hash := ha.weight
    intro s hs
    rcases List.mem_cons.mp hs with rfl | hs
    · constructor
      · show W.number s.args.hash = W.number s.args.parentHash + 1
        rw [h1, hn, ← han, h2]
      · show W.weight s.args.parentHash < W.weight s.args.hash
        rw [h1]; omega
    · exact ih h4 han.symm (by omega) (fun s hs => hW s (by simp [hs])) (fun s hs => h0 s (by simp [hs])) s hs

theorem calls_msgs {mp mp' : MP} {ms : List RMsg} : mp.calls C env (ms.map Call.msg) = .ok mp' ↔ mp.run C env ms = .ok mp' := by
  induction ms generalizing mp with
  | nil => simp [MP.calls, MP.run, pure, Except.pure]
  | cons m ms ih =>
    unfold MP.calls
    rw [List.map_cons, List.foldlM_cons]
    simp only [MP.run, MP.call]
    cases hp : mp.processMessage C env m with
    | error f => simp [bind, Except.bind]
    | ok r => exact ih

/-- Blocks produced by successful `AddBlock` and `SendBatch` calls, with different hashes, and messages that are all theirs. -/
structure Supplied (C : Codec) (blocks : List SentBlock) (received : List RMsg) : Prop where
  correct : ∀ s ∈ blocks, s.Correct C
  nodup : (blocks.map (·.args.hash)).Nodup
  only : ∀ m ∈ received, ∃ s ∈ blocks, Copy s.msgs m

/-- What is assumed of the blocks, the configuration and the messages in C44. -/
structure EndToEnd (C : Codec) (cfg : Config) (n : Int) (chain : List SentBlock) (received : List RMsg) : Prop where
  /-- the blocks were produced by successful `AddBlock` and `SendBatch` calls -/
  correct : ∀ s ∈ chain, s.Correct C
  /-- they are a chain on the last processed block, which has number `n` -/
  links : ChainOf cfg.lastHash n cfg.lastWeight chain
  /-- hashes do not collide -/
  hashes : (Hash.zero :: cfg.lastHash :: chain.map (·.args.hash)).Nodup
  /-- the whitelist does not forbid them -/
  whitelist : ∀ s ∈ chain, ∀ h, cfg.whitelist.get? (heightKey s.args.number) = some h → h = s.args.hash
  /-- only messages of these blocks are received -/
  only : ∀ m ∈ received, ∃ s ∈ chain, Copy s.msgs m

section
variable {cfg : Config} {n : Int} {chain : List SentBlock} {received : List RMsg}

theorem EndToEnd.supplied (h : EndToEnd C cfg n chain received) : Supplied C chain received :=
  ⟨h.correct, ((List.nodup_cons.mp (List.nodup_cons.mp h.hashes).2).2), h.only⟩

theorem Supplied.inj (h : Supplied C chain received) :
    ∀ s s', s ∈ chain → s' ∈ chain → s.args.hash = s'.args.hash → s = s' := by
  intro s s' hs hs' e
  have h1 := find_hash h.nodup hs
  rw [e, find_hash h.nodup hs'] at h1
  exact (Option.some.inj h1).symm

theorem Supplied.emitted (h : Supplied C chain received) (hC : C.Lawful) {mp mp' : MP} (hn : newMP cfg = .ok mp)
    {ms : List RMsg} (hms : ∀ m ∈ ms, m ∈ received) (hr : mp.run C env ms = .ok mp') {pb : PB} (hpb : pb ∈ mp'.emitted) :
    ∃ s ∈ chain, Exact cfg.tracked s.schema s.args s.subs pb := by
  have hfb : FromBlocks (· ∈ chain) ms := fun m hm => .inl (h.only m (hms m hm))
  have hprov := ((prov_parts C env (· ∈ ms) (run_ok_len hr) cfg.tracked cfg.frp).emitted hn
    (by intro s o hs; simp at hs) (fun m hm => hm) hr pb hpb).1
  obtain ⟨hd, b, hof, _⟩ := hprov.head
  obtain ⟨s, hs, hcp⟩ := h.only hd (hms _ hof.mem)
  have hh : pb.hash = s.args.hash := hof.block.symm.trans (copy_hash hC (h.correct s hs) hcp)
  exact ⟨s, hs, C02_emitted_exact hC (h.correct s hs).1 (h.correct s hs).2 hn
    (faithful_of_blocks hC h.correct h.inj hfb hs) hr hpb hh⟩

/-- The block has the header of `s`. -/
structure HeadOf (s : SentBlock) (pb : PB) : Prop where
  number : pb.number = s.args.number
  weight : (pb.weight : Int) = s.args.weight
  hash : pb.hash = s.args.hash
  parent : pb.parentHash = s.args.parentHash

/-- The ordering layer, fed with blocks of a chain, works through them. -/
theorem chain_ordered (hlinks : ChainOf cfg.lastHash n cfg.lastWeight chain)
    (hhash : (Hash.zero :: cfg.lastHash :: chain.map (·.args.hash)).Nodup)
    (hwl : ∀ s ∈ chain, ∀ h, cfg.whitelist.get? (heightKey s.args.number) = some h → h = s.args.hash)
    (hweight : ∀ s ∈ chain, 0 ≤ s.args.weight) {omp0 : OMP} (hn : newOMP cfg = .ok omp0) {ds : List PB}
    (hds : ∀ pb ∈ ds, ∃ s ∈ chain, HeadOf s pb) :
    ∃ s em rest, omp0.run o (ds.map OOp.block) = .ok s ∧ chain.map bare = em ++ rest ∧ addedHashes s.log = Spec.hashes em ∧
      (∀ x ∈ s.log, (∃ a, x = .update a []) ∨ ∃ sb ∈ chain, x = .evictOlder sb.args.number) ∧
      ∀ b rest', rest = b :: rest' → b.hash ∉ Spec.hashes ds ∧ ∀ n, OOut.evictOlder n ∈ s.log → n ≤ b.number := by
  have hd1 := List.nodup_cons.mp hhash
  have hd2 := List.nodup_cons.mp hd1.2
  let W := worldOn cfg.lastHash n cfg.lastWeight chain
  have hroot : chain.find? (fun x => x.args.hash == cfg.lastHash) = none := by
    rw [List.find?_eq_none]
    intro s hs e
    exact hd2.1 (List.mem_map.mpr ⟨s, hs, by simpa using e⟩)
  have hwr : W.weight cfg.lastHash = cfg.lastWeight := by simp [W, worldOn, hroot]
  have hnr : W.number cfg.lastHash = n := by simp [W, worldOn, hroot]
  have hHas : ∀ s ∈ chain, W.Has (bare s) := fun s hs => worldOn_has hd2.2 hs
  have hw0 : ∀ s ∈ chain, 0 ≤ s.args.weight := fun s hs => hweight s hs
  have hg := chainOf_grows hlinks hnr (by rw [hwr]) hHas hw0
  have hCO : ChainOn W cfg.lastHash (chain.map bare) := by
    refine ⟨chainOf_linked hlinks, ?_, ?_, ?_⟩
    all_goals
      intro b hb
      obtain ⟨s, hs, rfl⟩ := List.mem_map.mp hb
    · exact hHas s hs
    · exact (hg s hs).1
    · exact (hg s hs).2
  have hFW : FromWorld W ds := by
    intro b hb
    obtain ⟨s, hs, he⟩ := hds b hb
    have hx := hHas s hs
    have h1 : (bare s).hash = b.hash := he.hash.symm
    refine ⟨⟨?_, ?_, ?_⟩, ?_⟩
    · rw [he.parent, he.hash]; exact hx.parent
    · rw [he.number, he.hash]; exact hx.number
    · rw [he.hash]
      have := he.weight
      have h2 : s.args.weight.toNat = W.weight s.args.hash := hx.weight
      omega
    · rw [he.hash]
      intro e
      exact hd1.1 (by rw [← e]; simp only [List.mem_cons, List.mem_map]; exact .inr ⟨s, hs, rfl⟩)
  have hA : ∀ b ∈ ds, b.hash ∈ Spec.hashes (chain.map bare) := by
    intro b hb
    obtain ⟨s, hs, he⟩ := hds b hb
    rw [he.hash]
    exact List.mem_map.mpr ⟨bare s, List.mem_map.mpr ⟨s, hs, rfl⟩, rfl⟩
  have hB : ∀ b ∈ ds, ¬ Forbidden cfg.whitelist b := by
    rintro b hb ⟨x, hx, hne⟩
    obtain ⟨s, hs, he⟩ := hds b hb
    rw [he.number] at hx
    exact hne ((hwl s hs x hx).trans he.hash.symm)
  obtain ⟨s, em, rest, h1, h2, h3, h4, _, h6⟩ := C38_chain (o := o) (ds := ds)
    (fun e => hd1.1 (by rw [← e]; simp)) hwr.symm hCO hFW hA hB hn
  refine ⟨s, em, rest, h1, h2, h3, ?_, fun b rest' e => ⟨h6 b rest' e, ?_⟩⟩
  · intro x hx
    rcases h4 x hx with h | ⟨k, hk, e⟩
    · exact .inl h
    · obtain ⟨y, hy, rfl⟩ := List.mem_map.mp hk
      obtain ⟨sb, hsb, rfl⟩ := List.mem_map.mp (show y ∈ chain.map bare by rw [h2]; simp [hy])
      exact .inr ⟨sb, hsb, by rw [e, ← (hHas sb hsb).number]; rfl⟩
  · intro n hn
    rcases h4 _ hn with ⟨a, e⟩ | ⟨k, hk, e'⟩
    · simp at e
    · simp only [OOut.evictOlder.injEq] at e'
      rw [h2, e] at hCO
      obtain ⟨l1, l2⟩ := linked_append.mp hCO.linked
      have hdesc := newest_desc (W := W) l1 (fun b hb => hCO.numbered b (by simp [hb]))
      obtain ⟨i, hi⟩ := List.mem_iff_getElem?.mp (mem_newest.mpr (.inr hk) : k ∈ newest cfg.lastHash em)
      have h7 := hdesc.get hi
      have h8 := hCO.numbered b (by simp)
      unfold World.Numbered at h8
      rw [l2.1, ← (hCO.has b (by simp)).number] at h8
      omega

/-- The ordering layer, fed with emitted blocks, works through them. -/
theorem EndToEnd.ordered (h : EndToEnd C cfg n chain received) {omp0 : OMP} (hn : newOMP cfg = .ok omp0) {ds : List PB}
    (hds : ∀ pb ∈ ds, ∃ s ∈ chain, Exact cfg.tracked s.schema s.args s.subs pb) :
    ∃ s em rest, omp0.run o (ds.map OOp.block) = .ok s ∧ chain.map bare = em ++ rest ∧ addedHashes s.log = Spec.hashes em ∧
      (∀ x ∈ s.log, (∃ a, x = .update a []) ∨ ∃ sb ∈ chain, x = .evictOlder sb.args.number) ∧
      ∀ b rest', rest = b :: rest' → b.hash ∉ Spec.hashes ds ∧ ∀ n, OOut.evictOlder n ∈ s.log → n ≤ b.number := by
  refine chain_ordered h.links h.hashes h.whitelist (fun s hs => (h.correct s hs).2.weight) hn ?_
  intro pb hpb
  obtain ⟨s, hs, he⟩ := hds pb hpb
  exact ⟨s, hs, he.number, he.weight, he.hash, he.parent⟩

theorem ops_blocks {ops : List OOp} (h : notesOf ops = []) : ops = (blocksOf ops).map OOp.block := by
  induction ops with
  | nil => rfl
  | cons a l ih =>
    cases a with
    | reorg n x => simp [notesOf] at h
    | block pb =>
      have hl : notesOf l = [] := h
      conv => lhs; rw [ih hl]
      rfl

theorem Supplied.types (h : Supplied C chain received) (hC : C.Lawful) : ∀ m ∈ received, m.key.headD 0 ≠ ReorgType := by
  intro m hm
  obtain ⟨s, hs, x, hx, h1, _⟩ := h.only m hm
  obtain ⟨b, hb⟩ := bridge hC (h.correct s hs).1 (h.correct s hs).2
  obtain ⟨i, hi, hmine⟩ := hb.mine x hx
  rw [h1, hi]
  cases hmine <;> simp [keyOf, getKey, ReorgType, BatchType, BatchMsgType, BatchDeleteMsgType, SubBatchHeaderType, SubBatchMsgType]

/-- In a run of the pipeline there are no notifications, and the blocks handled are exact. -/
theorem Supplied.inside (h : Supplied C chain received) (hC : C.Lawful) {s0 s : Sys}
    (hst : Sys.start cfg (received.map Call.msg) = .ok s0) (hs : Sys.Steps C env o s0 s) :
    ∃ mp0 omp0 ms ds, newMP cfg = .ok mp0 ∧ newOMP cfg = .ok omp0 ∧ (∃ rest, received = ms ++ rest ∧ s.todo = rest.map Call.msg) ∧
      mp0.run C env ms = .ok s.mp ∧ s.ops = ds.map OOp.block ∧ omp0.run o (ds.map OOp.block) = .ok s.omp ∧
      s.mp.emitted = ds ++ (s.ch ++ blocksSent s.out) := by
  have hp := (Piped.start hst).steps hs
  obtain ⟨mp0, hn, hr⟩ := hp.consists.mp
  obtain ⟨omp0, ho, hor⟩ := hp.consists.omp
  obtain ⟨ms, rest, h1, h2, h3⟩ : ∃ ms rest, received = ms ++ rest ∧ ms.map Call.msg = s.calls ∧ rest.map Call.msg = s.todo :=
    List.map_eq_append_iff.mp hp.consists.calls
  rw [← h2] at hr
  have hr := calls_msgs.mp hr
  have hq : ∀ m ∈ ms, m.key.headD 0 ≠ ReorgType := fun m hm => h.types hC m (by rw [h1]; simp [hm])
  have hnote := no_notes hn hq hr
  have hops : s.ops = (blocksOf s.ops).map OOp.block := by
    refine ops_blocks ?_
    have := hp.notes
    rw [hnote] at this
    exact (List.append_eq_nil_iff.mp this.symm).1
  refine ⟨mp0, omp0, ms, blocksOf s.ops, hn, ho, ⟨rest, h1, h3.symm⟩, hr, hops, ?_, hp.blocks⟩
  rw [← hops]; exact hor

/-- **C44**: under every schedule the pipeline works without fault, and at the end (which every execution reaches) the subscriber has seen
each block exactly once, in chain order, each exactly as produced, and nothing removed. The chain may be of any length, and its messages
may be received in any order, any number of times; the eviction requests acted on are those sent by the ordering layer, each naming the
number of a block of the chain. -/
theorem C44_end_to_end (h : EndToEnd C cfg n chain received) (hC : C.Lawful) (ha : ∀ s ∈ chain, AllArrive s.msgs received) {s0 s : Sys}
    (hst : Sys.start cfg (received.map Call.msg) = .ok s0) (hs : Sys.Steps C env o s0 s) (hd : s.Drained) (hg : Genuine env s) :
    (∀ x ∈ s.omp.log, (∃ a, x = .update a []) ∨ ∃ sb ∈ chain, x = .evictOlder sb.args.number) ∧
    (s.omp.log.flatMap addedBy).length = chain.length ∧
    ∀ x ∈ chain.zip (s.omp.log.flatMap addedBy), Exact cfg.tracked x.1.schema x.1.args x.1.subs x.2 := by
  obtain ⟨mp0, omp0, ms, ds, hn, ho, ⟨rest, h1, h2⟩, h3, h4, h5, h6⟩ := h.supplied.inside hC hst hs
  rw [hd.1] at h2
  have hrest : rest = [] := List.map_eq_nil_iff.mp h2.symm
  subst hrest
  rw [List.append_nil] at h1
  subst h1
  rw [hd.2.1, hd.2.2.1] at h6
  have h6 : s.mp.emitted = ds := by simpa [blocksSent] using h6
  have hex : ∀ pb ∈ ds, ∃ s ∈ chain, Exact cfg.tracked s.schema s.args s.subs pb := fun pb hpb =>
    h.supplied.emitted hC hn (fun m hm => hm) h3 (by rw [h6]; exact hpb)
  obtain ⟨s', em, rest, g1, g2, g3, g4, g5⟩ := h.ordered (o := o) ho hex
  rw [h5] at g1
  have g1 := Except.ok.inj g1
  subst g1
  have hrest : rest = [] := by
    cases rest with
    | nil => rfl
    | cons b rest =>
      have : b ∈ chain.map bare := by rw [g2]; simp
      obtain ⟨sb, hsb, rfl⟩ := List.mem_map.mp this
      obtain ⟨g6, g7⟩ := g5 _ _ rfl
      -- no request asked to drop this block
      obtain ⟨pb, hpb, he⟩ := C01_delivered hC (h.correct sb hsb).1 (h.correct sb hsb).2 hn
        (fun t x hx => g7 x (hg t x hx))
        (faithful_of_blocks hC h.correct h.supplied.inj (fun m hm => .inl (h.only m hm)) hsb) (ha sb hsb) h3
      rw [h6] at hpb
      exact (g6 (List.mem_map.mpr ⟨pb, hpb, he.hash⟩)).elim
  rw [hrest, List.append_nil] at g2
  rw [← g2] at g3
  have hhash : (s.omp.log.flatMap addedBy).map PB.hash = chain.map (·.args.hash) := by
    have : addedHashes s.omp.log = (s.omp.log.flatMap addedBy).map PB.hash := rfl
    rw [← this, g3]
    simp [Spec.hashes, bare, Function.comp_def]
  have hlen : (s.omp.log.flatMap addedBy).length = chain.length := by
    have := congrArg List.length hhash
    simpa using this
  refine ⟨g4, hlen, ?_⟩
  intro x hx
  obtain ⟨i, hi, rfl⟩ := List.mem_iff_getElem.mp hx
  simp only [List.length_zip] at hi
  rw [List.getElem_zip]
  simp only []
  have hpb : (s.omp.log.flatMap addedBy)[i] ∈ s.omp.log.flatMap addedBy := List.getElem_mem _
  have hheq : ((s.omp.log.flatMap addedBy)[i]).hash = (chain[i]).args.hash := by
    have := congrArg (fun l => l[i]?) hhash
    simp only [List.getElem?_map] at this
    rw [List.getElem?_eq_getElem (by omega), List.getElem?_eq_getElem (by omega)] at this
    simpa using this
  obtain ⟨out, hout, hin⟩ := List.mem_flatMap.mp hpb
  cases out with
  | update a r =>
    have hem := C43_updates hst hs hout (List.mem_append_left _ hin)
    obtain ⟨sb, hsb, he⟩ := h.supplied.emitted hC hn (fun m hm => hm) h3 hem
    have : sb = chain[i] := h.supplied.inj _ _ hsb (List.getElem_mem _) (he.hash.symm.trans hheq)
    rw [this] at he
    exact he
  | reorg n x => simp [addedBy] at hin
  | evictOlder n => simp [addedBy] at hin

/-- If the ordering layer works through the blocks emitted so far, neither goroutine is about to fault. -/
theorem Supplied.calmAt (h : Supplied C chain received) (hC : C.Lawful) {s0 s : Sys}
    (hst : Sys.start cfg (received.map Call.msg) = .ok s0) (hs : Sys.Steps C env o s0 s)
    (hord : ∀ (omp0 : OMP) (ds more : List PB), newOMP cfg = .ok omp0 →
      (∀ x ∈ ds, ∃ s ∈ chain, Exact cfg.tracked s.schema s.args s.subs x) → s.mp.emitted = ds ++ more →
      ∃ s', omp0.run o (ds.map OOp.block) = .ok s') : ¬ Faulty C env o s := by
  obtain ⟨mp0, omp0, ms, ds, hn, ho, ⟨rest, h1, h2⟩, h3, h4, h5, h6⟩ := h.inside hC hst hs
  rintro (⟨c, cs, f, ht, hf⟩ | ⟨pb, r, f, ht, hf⟩)
  · rw [ht] at h2
    cases rest with
    | nil => simp at h2
    | cons m rest =>
      simp only [List.map_cons, List.cons.injEq] at h2
      obtain ⟨rfl, _⟩ := h2
      obtain ⟨mp', hr⟩ := C14_total hC (env := env) (blocks := (· ∈ chain)) h.correct h.inj hn (received := ms ++ [m])
        (fun x hx => .inl (h.only x (by rw [h1]; rcases List.mem_append.mp hx with hx | hx
                                        · simp [hx]
                                        · simp [List.mem_singleton.mp hx])))
      have hr := calls_msgs.mpr hr
      rw [List.map_append] at hr
      unfold MP.calls at hr
      rw [List.foldlM_append, show List.foldlM (MP.call C env) mp0 (ms.map Call.msg) = .ok s.mp from calls_msgs.mpr h3] at hr
      have hr : (([m].map Call.msg).foldlM (MP.call C env) s.mp) = .ok mp' := hr
      rw [List.map_cons, List.foldlM_cons, hf] at hr
      simp [bind, Except.bind] at hr
  · have hex : ∀ x ∈ ds ++ [pb], ∃ s ∈ chain, Exact cfg.tracked s.schema s.args s.subs x := by
      intro x hx
      refine h.emitted hC hn (fun m hm => by rw [h1]; simp [hm]) h3 ?_
      rw [h6, ht]
      rcases List.mem_append.mp hx with hx | hx
      · simp [hx]
      · simp [List.mem_singleton.mp hx]
    obtain ⟨s', g1⟩ := hord omp0 (ds ++ [pb]) (r ++ blocksSent s.out) ho hex (by rw [h6, ht]; simp)
    rw [List.map_append] at g1
    unfold OMP.run at g1
    rw [List.foldlM_append, show List.foldlM (OMP.op o) omp0 (ds.map OOp.block) = .ok s.omp from h5] at g1
    have g1 : (([pb].map OOp.block).foldlM (OMP.op o) s.omp) = .ok s' := g1
    rw [List.map_cons, List.foldlM_cons] at g1
    rw [show OMP.op o s.omp (.block pb) = .error f from hf] at g1
    simp [bind, Except.bind] at g1

/-- If the ordering layer works through all lists of exact blocks, neither goroutine is ever about to fault. -/
theorem Supplied.calm (h : Supplied C chain received) (hC : C.Lawful) {s0 s : Sys}
    (hst : Sys.start cfg (received.map Call.msg) = .ok s0) (hs : Sys.Steps C env o s0 s)
    (hord : ∀ (omp0 : OMP) (ds : List PB), newOMP cfg = .ok omp0 → (∀ x ∈ ds, ∃ s ∈ chain, Exact cfg.tracked s.schema s.args s.subs x) →
      ∃ s', omp0.run o (ds.map OOp.block) = .ok s') : ¬ Faulty C env o s :=
  h.calmAt hC hst hs (fun omp0 ds _ ho hds _ => hord omp0 ds ho hds)

/-- **C44**, no faults: in no reachable state is either goroutine about to fault, so every execution can be completed. -/
theorem C44_no_fault (h : EndToEnd C cfg n chain received) (hC : C.Lawful) {s0 s : Sys}
    (hst : Sys.start cfg (received.map Call.msg) = .ok s0) (hs : Sys.Steps C env o s0 s) :
    ¬ Faulty C env o s ∧ ∃ s', Sys.Steps C env o s s' ∧ s'.Drained := by
  have key : ∀ s, Sys.Steps C env o s0 s → ¬ Faulty C env o s := by
    intro s hs
    refine h.supplied.calm hC hst hs ?_
    intro omp0 ds ho hds
    obtain ⟨s', _, _, g1, _⟩ := h.ordered (o := o) ho hds
    exact ⟨s', g1⟩
  refine ⟨key s hs, ?_⟩
  obtain ⟨s', h1, h2⟩ := s.drains (C := C) (env := env) (o := o) ((Piped.start (C := C) (env := env) (o := o) hst).steps hs).room
  refine ⟨s', h1, h2.resolve_right (key s' ?_)⟩
  clear h2
  induction h1 with
  | refl => exact hs
  | step _ h ih => exact .step ih h

end

/-! ## Examples -/

/-- The block after `exBlock`. -/
def exNext : BlockArgs := { exBlock with number := 6, hash := exHash 3, parentHash := exHash 1, weight := 310 }

theorem exNext_ok : ∃ p' tm, addBlock' Avro.codec MapOrder.rev exProducer exNext = (p', .ok tm) := by
  have : (match (addBlock' Avro.codec MapOrder.rev exProducer exNext).2 with | .ok _ => true | .error _ => false) = true := by
    decide +kernel
  generalize hr : addBlock' Avro.codec MapOrder.rev exProducer exNext = r at this
  obtain ⟨p', r⟩ := r
  cases r with
  | error e => simp at this
  | ok tm => exact ⟨p', tm, rfl⟩

theorem exNext_wf : WellFormed exProducer.schema exNext exSubs := { exBlock_wf with weight := by decide, number := by decide, lenWeight := by decide +kernel }

/-- And the block after that. -/
def exThird : BlockArgs := { exBlock with number := 7, hash := exHash 4, parentHash := exHash 3, weight := 320 }

theorem exThird_ok : ∃ p' tm, addBlock' Avro.codec MapOrder.rev exProducer exThird = (p', .ok tm) := by
  have : (match (addBlock' Avro.codec MapOrder.rev exProducer exThird).2 with | .ok _ => true | .error _ => false) = true := by
    decide +kernel
  generalize hr : addBlock' Avro.codec MapOrder.rev exProducer exThird = r at this
  obtain ⟨p', r⟩ := r
  cases r with
  | error e => simp at this
  | ok tm => exact ⟨p', tm, rfl⟩

theorem exThird_wf : WellFormed exProducer.schema exThird exSubs := { exBlock_wf with weight := by decide, number := by decide, lenWeight := by decide +kernel }

/-- The parent of `exBlock` is the last block processed; two hashes are remembered. -/
def exSysCfg : Config := { exCfg with lastHash := exHash 2, lastWeight := 200, lastEmittedNum := 4, reorgThreshold := 1 }

/-- A chain of three blocks; its messages are received last block first, and some twice. -/
theorem exSys : ∃ chain received, chain.map (·.args.hash) = [exHash 1, exHash 3, exHash 4] ∧ EndToEnd Avro.codec exSysCfg 4 chain received ∧
    (∀ s ∈ chain, AllArrive s.msgs received) ∧
    ∃ s0 s, Sys.start exSysCfg (received.map Call.msg) = .ok s0 ∧ Sys.Steps Avro.codec exEnv .plain s0 s ∧ s.Drained ∧ Genuine exEnv s := by
  obtain ⟨m1, h1⟩ := exBlock_produced
  obtain ⟨p', tm, h⟩ := exNext_ok
  obtain ⟨m2, h2⟩ := produced_exists h exSubs
  obtain ⟨p', tm, h⟩ := exThird_ok
  obtain ⟨m3, h3⟩ := produced_exists h exSubs
  have hE : EndToEnd Avro.codec exSysCfg 4 [⟨exProducer.schema, exBlock, exSubs, m1⟩, ⟨exProducer.schema, exNext, exSubs, m2⟩,
      ⟨exProducer.schema, exThird, exSubs, m3⟩] (recv m3 ++ recv m2 ++ recv m1 ++ recv m2) := by
    refine ⟨?_, ?_, ?_, ?_, ?_⟩
    · intro s hs
      simp only [List.mem_cons, List.not_mem_nil, or_false] at hs
      rcases hs with rfl | rfl | rfl
      · exact ⟨h1, exBlock_wf⟩
      · exact ⟨h2, exNext_wf⟩
      · exact ⟨h3, exThird_wf⟩
    · exact ⟨rfl, rfl, show (200 : Int) < 300 by decide, rfl, rfl, show (300 : Int) < 310 by decide, rfl, rfl,
        show (310 : Int) < 320 by decide, trivial⟩
    · show [Hash.zero, exHash 2, exHash 1, exHash 3, exHash 4].Nodup
      decide
    · intro s _ x hx
      simp [exSysCfg, exCfg] at hx
    · intro m hm
      simp only [List.mem_append] at hm
      rcases hm with ((hm | hm) | hm) | hm
      · exact ⟨_, List.mem_cons_of_mem _ (List.mem_cons_of_mem _ (List.mem_cons_self ..)), recv_copy (ms := m3) (fun _ h => h) hm⟩
      · exact ⟨_, List.mem_cons_of_mem _ (List.mem_cons_self ..), recv_copy (ms := m2) (fun _ h => h) hm⟩
      · exact ⟨_, List.mem_cons_self .., recv_copy (ms := m1) (fun _ h => h) hm⟩
      · exact ⟨_, List.mem_cons_of_mem _ (List.mem_cons_self ..), recv_copy (ms := m2) (fun _ h => h) hm⟩
  refine ⟨_, _, rfl, hE, ?_, ?_⟩
  · intro s hs x hx
    simp only [List.mem_cons, List.not_mem_nil, or_false] at hs
    rcases hs with rfl | rfl | rfl
    · obtain ⟨m, hm, e⟩ := recv_all m1 x hx
      exact ⟨m, by simp [hm], e⟩
    · obtain ⟨m, hm, e⟩ := recv_all m2 x hx
      exact ⟨m, by simp [hm], e⟩
    · obtain ⟨m, hm, e⟩ := recv_all m3 x hx
      exact ⟨m, by simp [hm], e⟩
  · have hst : ∃ s0, Sys.start exSysCfg ((recv m3 ++ recv m2 ++ recv m1 ++ recv m2).map Call.msg) = .ok s0 := ⟨_, rfl⟩
    obtain ⟨s0, hst⟩ := hst
    obtain ⟨s, hs, hd⟩ := (C44_no_fault (env := exEnv) (o := .plain) hE Avro.codec_lawful hst .refl).2
    exact ⟨s0, s, hst, hs, hd, by intro t n hn; simp [exEnv] at hn⟩

/-- C43, C44: a chain of three blocks, longer than the window of two, delivered. -/
example : ∃ (received : List RMsg) (s0 s : Sys), Sys.start exSysCfg (received.map Call.msg) = .ok s0 ∧
    Sys.Steps Avro.codec exEnv .plain s0 s ∧ (s.omp.log.flatMap addedBy).length = 3 := by
  obtain ⟨chain, received, hl, hE, ha, s0, s, hst, hs, hd, hg⟩ := exSys
  exact ⟨received, s0, s, hst, hs, (C44_end_to_end hE Avro.codec_lawful ha hst hs hd hg).2.1.trans (by simpa using congrArg List.length hl)⟩

end Verif
