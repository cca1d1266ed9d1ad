import Verif.Proofs.Held
import Verif.Props.Block
import Verif.Props.Waiting
/-!
# C117: what the assembler holds in memory

`MessageProcessor` has four places for what it knows of a block (`delivery/consumer.go:187-201`): messages that came before the header,
the block being assembled, the note that it was emitted and the note that it was dropped as too old.
-/
namespace Verif
open Spec

/-- In how many places the processor has something of a block. -/
def Spec.heldCount (mp : MP) (h : Hash) : Nat :=
  (mp.pendingMessages.contains h).toNat + (mp.pendingBatches.contains h).toNat + (mp.completed.contains h).toNat + (mp.oldBlocks.contains h).toNat

/-- How many entries the processor holds altogether. -/
def Spec.heldTotal (mp : MP) : Nat := mp.pendingMessages.size + mp.pendingBatches.size + mp.completed.items.length + mp.oldBlocks.size

/-- The sub-batch headers of this block carry a number that can be decoded. -/
def Spec.SubHeadersDecode (C : Codec) (h : Hash) (ms : List RMsg) : Prop :=
  ∀ m ∈ ms, blockOf m.key = h → m.key.head? = some 1 → (C.decInt m.value).isSome = true

theorem subDec_of {C : Codec} {h : Hash} {ms : List RMsg} (hd : SubHeadersDecode C h ms) : ∀ m ∈ ms, hashOf m.key = h → SubDec C m := by
  intro m hm hh ht
  refine hd m hm hh ?_
  cases hk : m.key with
  | nil => rw [hk] at ht; cases ht
  | cons x l => rw [hk] at ht; exact congrArg some ht

theorem held_from {C : Codec} {env : Env} {cfg : Config} {mp mp' : MP} {ms : List RMsg} {h : Hash} (hn : newMP cfg = .ok mp) (hd : SubHeadersDecode C h ms)
    (hr : mp.run C env ms = .ok mp') : Base mp' ∧ Hold C h mp' ∧ (mp'.completed.contains h = true → mp'.oldBlocks.contains h = false) := by
  have h0 : mp.pendingMessages.get? h = none ∧ mp.completed.contains h = false := by
    unfold newMP at hn
    split at hn
    · cases hn
    · cases hn; exact ⟨rfl, lru_new_contains _ h⟩
  exact held_run (subDec_of hd) (Base.newMP hn) (.none h0.1) (fun hc => by rw [h0.2] at hc; cases hc) hr

/-- **C117**, one place: whatever messages arrive, and whatever is evicted, the processor has a block in at most one of its four places, if the
sub-batch headers of the block can be decoded. Missing: blocks with an undecodable sub-batch header, see `C117_decode_refuted`. -/
theorem C117_one_place_partial {C : Codec} {env : Env} {cfg : Config} {mp mp' : MP} {ms : List RMsg} {h : Hash} (hn : newMP cfg = .ok mp)
    (hd : SubHeadersDecode C h ms) (hr : mp.run C env ms = .ok mp') : heldCount mp' h ≤ 1 := by
  obtain ⟨hB, hH, hA⟩ := held_from hn hd hr
  unfold heldCount
  have e1 : mp'.pendingMessages.contains h = true → mp'.pendingBatches.contains h = false ∧ mp'.completed.contains h = false ∧ mp'.oldBlocks.contains h = false := by
    intro hq
    simp only [GMap.contains] at hq
    cases hg : mp'.pendingMessages.get? h with
    | none => rw [hg] at hq; cases hq
    | some q =>
      obtain ⟨a, b, c, _⟩ := hH q hg
      exact ⟨by simp [GMap.contains, a], b, c⟩
  have e2 : mp'.completed.contains h = true → mp'.pendingBatches.contains h = false := fun hc => by simp [GMap.contains, hB.compl h hc]
  have e3 : mp'.oldBlocks.contains h = true → mp'.pendingBatches.contains h = false := fun hc => by simp [GMap.contains, hB.old h hc]
  cases a : mp'.pendingMessages.contains h <;> cases b : mp'.pendingBatches.contains h <;> cases c : mp'.completed.contains h <;>
    cases d : mp'.oldBlocks.contains h <;> simp_all [Bool.toNat]

/-- **C117**, bound: what is held altogether is at most one entry for each block of which messages arrived. Missing: as in
`C117_one_place_partial`; that it is not bounded independently of the number of blocks is `C117_orphans_refuted` and `C117_dropped_refuted`. -/
theorem C117_bound_partial {C : Codec} {env : Env} {cfg : Config} {mp mp' : MP} {ms : List RMsg} (hn : newMP cfg = .ok mp)
    (hd : ∀ h, SubHeadersDecode C h ms) (hr : mp.run C env ms = .ok mp') {hs : List Hash} (hh : ∀ m ∈ ms, blockOf m.key ∈ hs) :
    heldTotal mp' ≤ hs.length := by
  have ho := ((onlyOf_ops C env hs).toXParts.toParts.run (fun m hm => .inr (hh m hm)) ⟨Base.newMP hn, OnlyOf.newMP hn hs⟩ hr).2
  have key : ∀ {V : Type} (g : GMap Hash V) (h : Hash), h ∈ g.keys → g.contains h = true := by
    intro V g h hk
    obtain ⟨v, hv⟩ := (GMap.mem_keys_iff _).mp hk
    simp [GMap.contains, hv]
  have h1 := fun h => C117_one_place_partial hn (hd h) hr
  have hn : (mp'.pendingMessages.keys ++ (mp'.pendingBatches.keys ++ (mp'.completed.items ++ mp'.oldBlocks.keys))).Nodup := by
    refine List.nodup_append.mpr ⟨mp'.pendingMessages.nodup, List.nodup_append.mpr ⟨mp'.pendingBatches.nodup,
      List.nodup_append.mpr ⟨ho.nodup, mp'.oldBlocks.nodup, ?_⟩, ?_⟩, ?_⟩
    · rintro a ha b hb rfl
      have := h1 a
      rw [heldCount, (LRU.contains_iff _ _).mpr ha, key _ _ hb] at this
      simp [Bool.toNat] at this
    · rintro a ha b hb rfl
      have := h1 a
      rcases List.mem_append.mp hb with hb | hb
      · rw [heldCount, key _ _ ha, (LRU.contains_iff _ _).mpr hb] at this
        simp only [Bool.toNat, cond_true] at this; omega
      · rw [heldCount, key _ _ ha, key _ _ hb] at this
        simp only [Bool.toNat, cond_true] at this; omega
    · rintro a ha b hb rfl
      have := h1 a
      rcases List.mem_append.mp hb with hb | hb
      · rw [heldCount, key _ _ ha, key _ _ hb] at this
        simp only [Bool.toNat, cond_true] at this; omega
      · rcases List.mem_append.mp hb with hb | hb
        · rw [heldCount, key _ _ ha, (LRU.contains_iff _ _).mpr hb] at this
          simp only [Bool.toNat, cond_true] at this; omega
        · rw [heldCount, key _ _ ha, key _ _ hb] at this
          simp only [Bool.toNat, cond_true] at this; omega
  have hle := nodup_length_le (l' := hs) hn (fun h hm => by
    rcases List.mem_append.mp hm with hm | hm
    · obtain ⟨q, hq⟩ := (GMap.mem_keys_iff _).mp hm
      exact ho.pm h q hq
    · rcases List.mem_append.mp hm with hm | hm
      · obtain ⟨q, hq⟩ := (GMap.mem_keys_iff _).mp hm
        exact ho.pb h q hq
      · rcases List.mem_append.mp hm with hm | hm
        · exact ho.items h hm
        · exact ho.old h (key _ _ hm))
  simp only [List.length_append, GMap.keys, List.length_map] at hle
  unfold heldTotal GMap.size
  omega

/-- **C117**, let go: once all messages of at most `2 * ReorgThreshold` blocks have arrived, in any order and number of copies, nothing of them
is left but the notes that they were emitted. Missing: more blocks (a late copy of a message of a block that is no longer remembered is held, C08),
and blocks of which a message is lost (`C117_orphans_refuted`). -/
theorem C117_empty_partial {C : Codec} (hC : C.Lawful) {env : Env} {blocks : List SentBlock} (hb : ∀ s ∈ blocks, s.Correct C)
    (hd : ∀ s ∈ blocks, ∀ s' ∈ blocks, s.args.hash = s'.args.hash → s = s') {cfg : Config} {mp : MP} (hn : newMP cfg = .ok mp)
    (hc : (blocks.length : Int) ≤ 2 * cfg.reorgThreshold) {received : List RMsg} (hr : ∀ m ∈ received, ∃ s ∈ blocks, Copy s.msgs m)
    (ha : ∀ s ∈ blocks, AllArrive s.msgs received ∧ Keeps env s.args.number) :
    ∃ mp', mp.run C env received = .ok mp' ∧ mp'.pendingBatches.size = 0 ∧ mp'.pendingMessages.size = 0 ∧
      ∀ h, mp'.completed.contains h = true ↔ ∃ s ∈ blocks, s.args.hash = h := by
  have hfb : FromBlocks (· ∈ blocks) received := fun m hm => .inl (hr m hm)
  obtain ⟨mp', hrun, hdel⟩ := C01_delivered_total hC (env := env) hb (fun s s' h h' => hd s h s' h') hn hfb
  let hs := blocks.map (fun s => s.args.hash)
  have hty : ∀ m ∈ received, m.key.headD 0 ≠ ReorgType ∧ hashOf m.key ∈ hs := by
    intro m hm
    obtain ⟨s, h1, h2⟩ := hr m hm
    refine ⟨?_, List.mem_map.mpr ⟨s, h1, (copy_hash hC (hb s h1) h2).symm⟩⟩
    obtain ⟨b, hbr⟩ := bridge hC (hb s h1).1 (hb s h1).2
    obtain ⟨x, hx, h3, _⟩ := h2
    obtain ⟨i, hi, hmine⟩ := hbr.mine x hx
    rw [h3, hi, keyOf_headD]
    cases hmine <;> simp only [MsgId.type] <;> decide
  have hsd : ∀ h, SubHeadersDecode C h received := by
    intro h m hm _ ht
    obtain ⟨s, h1, h2⟩ := hr m hm
    obtain ⟨b, hbr⟩ := bridge hC (hb s h1).1 (hb s h1).2
    have hown := hbr.own (faithful_of_blocks hC hb (fun s s' h h' => hd s h s' h') hfb h1) hm (copy_hash hC (hb s h1) h2)
    obtain ⟨_, _, _, h3, _⟩ := hown.subHeader (by cases hk : m.key with
      | nil => rw [hk] at ht; cases ht
      | cons x l => rw [hk] at ht; exact Option.some.inj ht)
    rw [h3]; rfl
  have h0 : AllRemembered hs mp := by
    refine ⟨OnlyOf.newMP hn hs, ?_, ?_⟩
    · rw [(Base.newMP hn).cap]
      have : mp.reorgThreshold = cfg.reorgThreshold := by
        unfold newMP at hn
        split at hn
        · cases hn
        · cases hn; rfl
      simp only [hs, List.length_map]
      omega
    · unfold newMP at hn
      split at hn
      · cases hn
      · cases hn; intro pb hpb; cases hpb
  have hR := ((remembers_ops C env hs).toXParts.toParts.run hty ⟨Base.newMP hn, h0⟩ hrun).2
  have hcomp : ∀ s ∈ blocks, mp'.completed.contains s.args.hash = true := by
    intro s hsb
    obtain ⟨pb, hpb, hex⟩ := hdel s hsb (ha s hsb).2 (ha s hsb).1
    rw [LRU.contains_iff, ← hex.hash]
    refine hR.em pb ?_
    unfold MP.emitted at hpb
    obtain ⟨o, ho, heq⟩ := List.mem_filterMap.mp hpb
    cases o with
    | batch x => cases heq; exact ho
    | waiter _ => cases heq
    | reorg _ _ => cases heq
  have hsz : ∀ {V : Type} (g : GMap Hash V), (∀ h, g.get? h = none) → g.size = 0 := by
    intro V g hg
    unfold GMap.size
    cases he : g.entries with
    | nil => rfl
    | cons e l =>
      have := (GMap.get?_eq_some_iff g (k := e.1) (v := e.2)).mpr (by rw [he]; simp)
      rw [hg] at this; cases this
  refine ⟨mp', hrun, hsz _ fun h => ?_, hsz _ fun h => ?_, fun h => ⟨fun hc => ?_, ?_⟩⟩
  · cases hg : mp'.pendingBatches.get? h with
    | none => rfl
    | some pb =>
      obtain ⟨s, h1, rfl⟩ := List.mem_map.mp (hR.only.pb h pb hg)
      rw [(held_from (h := s.args.hash) hn (hsd _) hrun).1.compl _ (hcomp s h1)] at hg
      cases hg
  · cases hg : mp'.pendingMessages.get? h with
    | none => rfl
    | some q =>
      obtain ⟨s, h1, rfl⟩ := List.mem_map.mp (hR.only.pm h q hg)
      have := ((held_from (h := s.args.hash) hn (hsd _) hrun).2.1 q hg).2.1
      rw [hcomp s h1] at this
      cases this
  · obtain ⟨s, h1, h2⟩ := List.mem_map.mp (hR.only.items h ((LRU.contains_iff _ _).mp hc))
    exact ⟨s, h1, h2⟩
  · rintro ⟨s, h1, rfl⟩
    exact hcomp s h1

/-- **C117**, old blocks: when a message is processed with a request to drop the blocks below `n` waiting, no block below `n` is being assembled
afterwards, unless the message was its header. -/
theorem C117_behind {C : Codec} {env : Env} {cfg : Config} {mp mp1 mp' : MP} {ms : List RMsg} {m : RMsg} {e : Option Err} {n : Int} (hn : newMP cfg = .ok mp)
    (hr : mp.run C env ms = .ok mp1) (hp : mp1.processMessage C env m = .ok (mp', e)) (hreq : n ∈ env.evict mp1.tick) {h : Hash} {pb : PB}
    (hg : mp'.pendingBatches.get? h = some pb) (hlt : pb.number < n) : m.key.headD 0 = BatchType ∧ blockOf m.key = h := by
  have hB := (Base.newMP hn).run hr
  have hbeg : ∀ x y, (mp1.begin env m).pendingBatches.get? x = some y → n ≤ y.number ∨ (m.key.headD 0 = BatchType ∧ hashOf m.key = x) := by
    intro x y hx
    refine .inl (Classical.byContradiction fun hc => ?_)
    have h1 := begin_pending hx
    have h2 := drainEvict_evicts h1 hreq (by omega)
    rw [← (begin_fields env mp1 m).2.2.2.2.2.2.2.1] at h2
    rw [(hB.begin env m).old x h2] at hx
    cases hx
  have := (((behind_ops C env (fun x => m.key.headD 0 = BatchType ∧ hashOf m.key = x) n).toXParts.toParts.process_begun (mp := mp1) (m := m)
    (fun ht => ⟨ht, rfl⟩) ⟨hB.begin env m, hbeg⟩).ok hp).2 h pb hg
  rcases this with h1 | h1
  · omega
  · exact h1

/-- A processor that knows no block. -/
structure Blank (mp : MP) : Prop where
  pb : ∀ h, mp.pendingBatches.get? h = none
  old : ∀ h, mp.oldBlocks.contains h = false
  compl : ∀ h, mp.completed.contains h = false

/-- An update of a block. -/
def strayMsg (h : Hash) : RMsg := ⟨3 :: h.bytes ++ str "k", [1], 0, str "s:0"⟩

theorem strayMsg_hash (h : Hash) : hashOf (strayMsg h).key = h := by
  unfold hashOf strayMsg
  have : ((3 :: h.bytes ++ str "k").drop 1).take 32 = h.bytes := by
    simp [← h.len]
  rw [this]; exact bytesToHash_bytes h

theorem stray_step {C : Codec} {env : Env} {mp : MP} (hb : Blank mp) (h : Hash) :
    ∃ mp', mp.processMessage C env (strayMsg h) = .ok (mp', none) ∧ Blank mp' ∧ mp'.pendingMessages.contains h = true := by
  have hf := begin_fields env mp (strayMsg h)
  have hb' : Blank (mp.begin env (strayMsg h)) := by
    refine ⟨fun x => ?_, fun x => ?_, fun x => by rw [hf.1]; exact hb.compl x⟩
    · rcases begin_get env mp (strayMsg h) x with ⟨e, _⟩ | ⟨pb, e, _⟩
      · rw [e]; exact hb.pb x
      · rw [hb.pb x] at e; cases e
    · rcases begin_get env mp (strayMsg h) x with ⟨_, e⟩ | ⟨pb, e, _⟩
      · rw [e]; exact hb.old x
      · rw [hb.pb x] at e; cases e
  refine ⟨(mp.begin env (strayMsg h)).queueMessage h (strayMsg h), ?_, ⟨hb'.pb, hb'.old, hb'.compl⟩, ?_⟩
  · unfold MP.processMessage MP.step
    have hl : ¬ (strayMsg h).key.length < 33 := by
      have := h.len
      simp only [strayMsg, List.length_append, List.length_cons]; omega
    have ht : (strayMsg h).key.headD 0 = 3 := rfl
    simp only [hl, if_false, ht, strayMsg_hash, hb'.old h, hb'.compl h]
    rw [if_neg (by decide), if_neg (by decide), if_neg (by decide), if_neg (by decide), if_neg (by decide)]
    unfold MP.onOther
    rw [hb'.pb h]
  · simp [MP.queueMessage, GMap.contains]

theorem stray_run {C : Codec} {env : Env} (hs : List Hash) {mp : MP} (hB : Base mp) (hb : Blank mp) :
    ∃ mp', mp.run C env (hs.map strayMsg) = .ok mp' ∧ ∀ h ∈ hs, mp'.pendingMessages.contains h = true := by
  induction hs generalizing mp with
  | nil => exact ⟨mp, rfl, fun _ h => by cases h⟩
  | cons h hs ih =>
    obtain ⟨mp1, h1, h2, h3⟩ := stray_step (C := C) (env := env) hb h
    have hB1 := hB.process h1
    obtain ⟨mp', h4, h5⟩ := ih hB1 h2
    refine ⟨mp', by simp only [List.map_cons, MP.run, h1]; exact h4, fun x hx => ?_⟩
    rcases List.mem_cons.mp hx with rfl | hx
    · refine ((orphan_ops C env x).toXParts.toParts.run (fun m hm => ?_) ⟨hB1, h3⟩ h4).2
      obtain ⟨y, _, rfl⟩ := List.mem_map.mp hm
      exact fun hh => absurd hh.1 (by change (3 : UInt8) ≠ 0; decide)
    · exact h5 x hx

theorem numHashes_nodup (t : UInt8) (N : Nat) (hN : N < 256 ^ 31) : ((List.range N).map (numHash t)).Nodup := by
  refine List.Pairwise.map _ ?_ ((List.pairwise_lt_range (n := N)).imp_of_mem (S := fun a b => a < b ∧ b < N) ?_)
  · rintro a b ⟨hab, hb⟩ e
    have := numHash_inj (t := t) (n := a) (m := b) (by omega) (by omega) e
    omega
  · intro a b _ hb hab
    exact ⟨hab, List.mem_range.mp hb⟩

/-- **C117** refuted, lost headers: messages of blocks whose header never comes are held for ever. Of any number of such blocks all are held,
whatever arrives later — Reorg messages and requests to drop old blocks included — unless it is their header. -/
theorem C117_orphans_refuted {C : Codec} {env : Env} {cfg : Config} {mp : MP} (hn : newMP cfg = .ok mp) (N : Nat) (hN : N < 256 ^ 31) :
    ∃ ms : List RMsg, ms.length = N ∧ (∃ mp1, mp.run C env ms = .ok mp1) ∧
      ∀ more mp', (∀ m ∈ more, m.key.headD 0 = BatchType → ∀ x ∈ ms, blockOf m.key ≠ blockOf x.key) → mp.run C env (ms ++ more) = .ok mp' →
        N ≤ mp'.pendingMessages.size := by
  have hb : Blank mp := by
    unfold newMP at hn
    split at hn
    · cases hn
    · cases hn; exact ⟨fun _ => rfl, fun _ => rfl, fun h => lru_new_contains _ h⟩
  let hs := (List.range N).map (numHash 0)
  obtain ⟨mp1, h1, h2⟩ := stray_run (C := C) (env := env) hs (Base.newMP hn) hb
  refine ⟨hs.map strayMsg, by simp [hs], ⟨mp1, h1⟩, fun more mp' hm hr => ?_⟩
  obtain ⟨mp2, h1', hr⟩ := run_append hr
  cases h1.symm.trans h1'
  have hall : ∀ h ∈ hs, mp'.pendingMessages.contains h = true := by
    intro h hh
    refine ((orphan_ops C env h).toXParts.toParts.run (fun m hmm he => ?_) ⟨(Base.newMP hn).run h1, h2 h hh⟩ hr).2
    exact hm m hmm he.1 (strayMsg h) (List.mem_map.mpr ⟨h, hh, rfl⟩) (he.2.trans (strayMsg_hash h).symm)
  have := nodup_length_le (l := hs) (l' := mp'.pendingMessages.keys) (numHashes_nodup 0 N hN) (fun h hh => by
    have := hall h hh
    simp only [GMap.contains] at this
    obtain ⟨q, hq⟩ := Option.isSome_iff_exists.mp this
    exact (GMap.mem_keys_iff _).mpr ⟨q, hq⟩)
  simpa [hs, GMap.keys, GMap.size] using this

/-- The header of a block with number 0 that announces one update. -/
def openBatch : Batch := ⟨0, [], Hash.zero, GMap.empty.insert (str "x") { count := 1 }⟩

def openMsg (C : Codec) (h : Hash) : RMsg := ⟨0 :: h.bytes, C.encBatch openBatch, 0, str "s:0"⟩

theorem openMsg_hash (C : Codec) (h : Hash) : hashOf (openMsg C h).key = h := by
  unfold hashOf openMsg
  have : ((0 :: h.bytes).drop 1).take 32 = h.bytes := by simp [← h.len]
  rw [this]; exact bytesToHash_bytes h

/-- Some blocks are being assembled, and nothing else is known. -/
structure Opened (tracked : GoStr → Bool) (hs : List Hash) (n : Nat) (mp : MP) : Prop where
  pb : ∀ h ∈ hs, ∃ pb, mp.pendingBatches.get? h = some pb ∧ pb.number = 0
  other : ∀ h, h ∉ hs → mp.pendingBatches.get? h = none
  old : ∀ h, mp.oldBlocks.contains h = false
  compl : ∀ h, mp.completed.contains h = false
  pm : ∀ h, mp.pendingMessages.get? h = none
  tick : mp.tick = n
  tracked : mp.tracked = tracked

theorem open_step {C : Codec} (hC : C.Lawful) {env : Env} {tracked : GoStr → Bool} (ht : tracked (str "x") = true) {hs : List Hash} {n : Nat} {mp : MP}
    (hO : Opened tracked hs n mp) (he : env.evict n = []) {h : Hash} (hh : h ∉ hs) :
    ∃ mp', mp.processMessage C env (openMsg C h) = .ok (mp', none) ∧ Opened tracked (hs ++ [h]) (n + 1) mp' := by
  have hf := begin_fields env mp (openMsg C h)
  have htk : (mp.begin env (openMsg C h)).tick = n + 1 := by
    unfold MP.begin
    obtain ⟨r, hr⟩ := MP.updateResumption_eq (mp.drainEvict (env.evict mp.tick)) (openMsg C h).source (openMsg C h).offset
    rw [hr]
    simp [drainEvict_fields mp (env.evict mp.tick)]
    exact hO.tick
  have hg : ∀ x, (mp.begin env (openMsg C h)).pendingBatches.get? x = mp.pendingBatches.get? x ∧
      (mp.begin env (openMsg C h)).oldBlocks.contains x = mp.oldBlocks.contains x := by
    intro x
    rcases begin_get env mp (openMsg C h) x with e | ⟨_, _, ⟨k, hk, _⟩, _⟩
    · exact e
    · rw [hO.tick, he] at hk; cases hk
  have hO' : Opened tracked hs (n + 1) (mp.begin env (openMsg C h)) :=
    ⟨fun x hx => by rw [(hg x).1]; exact hO.pb x hx, fun x hx => by rw [(hg x).1]; exact hO.other x hx, fun x => by rw [(hg x).2]; exact hO.old x,
      fun x => by rw [hf.1]; exact hO.compl x, fun x => by rw [hf.2.1]; exact hO.pm x, htk, by rw [hf.2.2.2.1]; exact hO.tracked⟩
  unfold MP.processMessage
  generalize hself : MP.step C env (fun _ _ => .error .hang) = self
  unfold MP.step
  generalize mp.begin env (openMsg C h) = mp1 at hO'
  have hl : ¬ (openMsg C h).key.length < 33 := by
    have := h.len
    simp only [openMsg, List.length_cons]; omega
  have hty : (openMsg C h).key.headD 0 = 0 := rfl
  simp only [hl, if_false, hty, openMsg_hash, hO'.old h, hO'.compl h]
  rw [if_neg (by decide), if_neg (by decide), if_neg (by decide), if_pos (by decide)]
  unfold MP.onHeader
  have hdec : C.decBatch (openMsg C h).value = some openBatch := hC.batch _ (by
    refine ⟨by decide, by decide, by decide, fun e he => ?_⟩
    simp only [openBatch] at he
    have : e = (str "x", { count := 1 }) := by
      have h1 : ((GMap.empty : GMap GoStr BatchRecord).insert (str "x") { count := 1 }).entries = [(str "x", { count := 1 })] := rfl
      rw [h1] at he
      exact List.mem_singleton.mp he
    rw [this]
    exact ⟨by decide +kernel, by decide, by decide⟩)
  have hnc : mp1.pendingBatches.contains h = false := by simp [GMap.contains, hO'.other h hh]
  simp only [hdec, hnc, Bool.false_eq_true, if_false]
  have hord : env.order.ord (2 * mp1.tick) openBatch.updates.entries = [(str "x", { count := 1 })] :=
    List.perm_singleton.mp (env.order.perm _ _)
  obtain ⟨pb, hpb, hnum, hnr⟩ : ∃ pb, (mp1.addHeader env (openMsg C h) h openBatch).pendingBatches = mp1.pendingBatches.insert h pb ∧ pb.number = 0 ∧
      pb.ready = false := by
    refine ⟨_, rfl, ?_, ?_⟩
    · rw [hord]
      obtain ⟨r, hr⟩ := PB.updateResumption_eq { number := openBatch.number, weight := bytesNat openBatch.weight, parentHash := openBatch.parentHash, hash := h, values := GMap.empty, deletes := GMap.empty, prefixes := GMap.empty, batches := GMap.empty, pendingBatches := GMap.empty, pendingMessages := GMap.empty, resumption := GMap.empty, resumptionDefaults := mp1.resumption, waitCh := some mp1.nextCh, frp := mp1.frp } (openMsg C h).source (openMsg C h).offset
      unfold newPB
      rw [hr]
      simp only [List.foldl_cons, List.foldl_nil, PB.headerEntry, hO'.tracked, ht]
      rfl
    · rw [hord]
      obtain ⟨r, hr⟩ := PB.updateResumption_eq { number := openBatch.number, weight := bytesNat openBatch.weight, parentHash := openBatch.parentHash, hash := h, values := GMap.empty, deletes := GMap.empty, prefixes := GMap.empty, batches := GMap.empty, pendingBatches := GMap.empty, pendingMessages := GMap.empty, resumption := GMap.empty, resumptionDefaults := mp1.resumption, waitCh := some mp1.nextCh, frp := mp1.frp } (openMsg C h).source (openMsg C h).offset
      unfold newPB
      rw [hr]
      simp only [List.foldl_cons, List.foldl_nil, PB.headerEntry, hO'.tracked, ht]
      rfl
  have hpm : (mp1.addHeader env (openMsg C h) h openBatch).pendingMessages.get? h = none := hO'.pm h
  rw [hpm]
  have hfin : (mp1.addHeader env (openMsg C h) h openBatch).finish h = mp1.addHeader env (openMsg C h) h openBatch := by
    unfold MP.finish
    rw [hpb, GMap.get?_insert_self]
    simp [hnr]
  refine ⟨_, rfl, ?_⟩
  rw [hfin]
  refine ⟨fun x hx => ?_, fun x hx => ?_, hO'.old, hO'.compl, hO'.pm, hO'.tick, hO'.tracked⟩
  · rw [hpb, GMap.get?_insert]
    split
    · exact ⟨pb, rfl, hnum⟩
    · next hne =>
      rcases List.mem_append.mp hx with hx | hx
      · exact hO'.pb x hx
      · exact absurd (List.mem_singleton.mp hx).symm hne
  · rw [hpb, GMap.get?_insert_ne _ _ (fun e => hx (by rw [← e]; simp))]
    exact hO'.other x (fun hm => hx (List.mem_append_left _ hm))

theorem open_run {C : Codec} (hC : C.Lawful) {env : Env} {tracked : GoStr → Bool} (ht : tracked (str "x") = true) (more : List Hash) {hs : List Hash} {mp : MP}
    (hO : Opened tracked hs hs.length mp) (hnd : (hs ++ more).Nodup) (he : ∀ t, t < (hs ++ more).length → env.evict t = []) :
    ∃ mp', mp.run C env (more.map (openMsg C)) = .ok mp' ∧ Opened tracked (hs ++ more) (hs ++ more).length mp' := by
  induction more generalizing hs mp with
  | nil => exact ⟨mp, rfl, by simpa using hO⟩
  | cons h more ih =>
    have hh : h ∉ hs := fun hm => (List.nodup_append.mp hnd).2.2 h hm h (by simp) rfl
    obtain ⟨mp1, h1, h2⟩ := open_step hC ht hO (he _ (by simp)) hh
    have e : hs ++ h :: more = (hs ++ [h]) ++ more := by simp
    rw [e] at hnd he
    obtain ⟨mp', h3, h4⟩ := ih (hs := hs ++ [h]) (by simpa using h2) hnd he
    exact ⟨mp', by simp only [List.map_cons, MP.run, h1]; exact h3, by rw [e]; exact h4⟩

/-- **C117** refuted, dropped blocks: the notes of blocks dropped as too old are only cleared by a Reorg message. Of any number of blocks that
were dropped because one message of each was lost, all are noted whatever arrives later. -/
theorem C117_dropped_refuted {C : Codec} (hC : C.Lawful) (o : MapOrder) {cfg : Config} {mp : MP} (hn : newMP cfg = .ok mp) (ht : cfg.tracked (str "x") = true)
    (N : Nat) (hN : N < 256 ^ 31) :
    ∃ (env : Env) (ms : List RMsg), env.order = o ∧ ms.length = N + 1 ∧ (∃ mp1, mp.run C env ms = .ok mp1) ∧
      ∀ more mp', (∀ m ∈ more, m.key.headD 0 ≠ ReorgType) → mp.run C env (ms ++ more) = .ok mp' → N ≤ mp'.oldBlocks.size := by
  let env : Env := ⟨o, fun t => if t < N then [] else [1]⟩
  let hs := (List.range N).map (numHash 0)
  have hO : Opened cfg.tracked [] 0 mp := by
    unfold newMP at hn
    split at hn
    · cases hn
    · cases hn
      exact ⟨fun _ h => (by cases h), fun _ _ => rfl, fun _ => rfl, fun h => lru_new_contains _ h, fun _ => rfl, rfl, rfl⟩
  have hnd := numHashes_nodup 0 N hN
  have hlen : hs.length = N := by simp [hs]
  obtain ⟨mp1, h1, h2⟩ := open_run hC (env := env) ht hs (hs := []) hO hnd (fun t h => by
    rw [List.nil_append, hlen] at h
    exact if_pos h)
  rw [List.nil_append] at h2
  have hold : ∀ h ∈ hs, (mp1.begin env (strayMsg (numHash 1 0))).oldBlocks.contains h = true := by
    intro h hh
    obtain ⟨pb, hp, hnum⟩ := h2.pb h hh
    rw [(begin_fields env mp1 _).2.2.2.2.2.2.2.1, h2.tick]
    refine drainEvict_evicts (n := 1) hp ?_ (by omega)
    simp [env, hlen]
  have hB1 := (Base.newMP hn).run h1
  have hpost := fun h hh => (dropped_ops C env h).toXParts.toParts.process_begun (mp := mp1) (m := strayMsg (numHash 1 0)) (by decide)
    ⟨hB1.begin env _, hold h hh⟩
  obtain ⟨mp2, e, h3⟩ : ∃ mp2 e, mp1.processMessage C env (strayMsg (numHash 1 0)) = .ok (mp2, e) := by
    have hne : numHash 1 0 ∉ hs := by
      intro hm
      obtain ⟨k, _, hk⟩ := List.mem_map.mp hm
      have := congrArg (fun x : Hash => x.bytes.head?) hk
      simp [numHash] at this
    unfold MP.processMessage MP.step
    have hl : ¬ (strayMsg (numHash 1 0)).key.length < 33 := by
      have := (numHash 1 0).len
      simp only [strayMsg, List.length_append, List.length_cons]; omega
    have hty : (strayMsg (numHash 1 0)).key.headD 0 = 3 := rfl
    simp only [hl, if_false, hty, strayMsg_hash]
    rw [if_neg (by decide)]
    have : (mp1.begin env (strayMsg (numHash 1 0))).pendingBatches.get? (numHash 1 0) = none := by
      cases hc : (mp1.begin env (strayMsg (numHash 1 0))).pendingBatches.get? (numHash 1 0) with
      | none => rfl
      | some pb => have := begin_pending hc; rw [h2.other _ hne] at this; cases this
    split
    · exact ⟨_, _, rfl⟩
    · split
      · exact ⟨_, _, rfl⟩
      · rw [if_neg (by decide), if_neg (by decide)]
        unfold MP.onOther
        rw [this]
        exact ⟨_, _, rfl⟩
  have hrun : mp.run C env (hs.map (openMsg C) ++ [strayMsg (numHash 1 0)]) = .ok mp2 := run_append_of h1 (by simp only [MP.run, h3])
  refine ⟨env, hs.map (openMsg C) ++ [strayMsg (numHash 1 0)], rfl, by simp [hs], ⟨mp2, hrun⟩, fun more mp' hm hr => ?_⟩
  obtain ⟨mp2', h4, hr⟩ := run_append hr
  cases hrun.symm.trans h4
  have hall : ∀ h ∈ hs, mp'.oldBlocks.contains h = true := fun h hh =>
    ((dropped_ops C env h).toXParts.toParts.run hm ((hpost h hh).ok h3) hr).2
  have := nodup_length_le (l := hs) (l' := mp'.oldBlocks.keys) hnd (fun h hh => by
    have := hall h hh
    simp only [GMap.contains] at this
    obtain ⟨q, hq⟩ := Option.isSome_iff_exists.mp this
    exact (GMap.mem_keys_iff _).mpr ⟨q, hq⟩)
  rw [hlen] at this
  simpa [GMap.keys, GMap.size] using this

/-- A sub-batch header of `exBlock` whose number is cut off. -/
def cutSubHeader : RMsg := at_ ⟨keyOf Avro.codec (.subHeader (exHash 1) (exHash 9)), []⟩ 0 (str "s:0")

/-- **C117** refuted, undecodable: a sub-batch header that arrives before the header and cannot be decoded makes the processor give up replaying the
queued messages, and they stay although the block is being assembled. -/
theorem C117_decode_refuted : ∃ mp', exMP.run Avro.codec exEnv (cutSubHeader :: recv exMsgs) = .ok mp' ∧ heldCount mp' (exHash 1) = 2 := by
  obtain ⟨mp', h1, h2⟩ := ex_ok (r := exMP.run Avro.codec exEnv (cutSubHeader :: recv exMsgs)) (fun mp => heldCount mp (exHash 1) == 2) (by decide +kernel)
  exact ⟨mp', h1, by simpa using h2⟩

/-- **C117** refuted, merged streams: when a block of which messages are queued arrives as a whole from another transport, it is noted as emitted
and the queued messages stay, so that it is held twice. -/
theorem C117_merged_refuted {C : Codec} {env : Env} {cfg : Config} {mp mp1 : MP} {ms : List RMsg} {pb : PB} (hn : newMP cfg = .ok mp) (hr : mp.run C env ms = .ok mp1)
    (hq : mp1.pendingMessages.contains pb.hash = true) :
    (mp1.processCompleteBatch pb).pendingMessages = mp1.pendingMessages ∧ 2 ≤ heldCount (mp1.processCompleteBatch pb) pb.hash := by
  have hB := (Base.newMP hn).run hr
  have hcap : 0 < mp1.completed.cap := by rw [hB.cap]; have := hB.thr; omega
  have h1 : (mp1.processCompleteBatch pb).completed.contains pb.hash = true := by
    rw [LRU.contains_iff]
    unfold MP.processCompleteBatch
    cases pb.waitCh <;> exact LRU.mem_add_self _ _ hcap
  have h2 : (mp1.processCompleteBatch pb).pendingMessages = mp1.pendingMessages := by
    unfold MP.processCompleteBatch
    cases pb.waitCh <;> rfl
  refine ⟨h2, ?_⟩
  unfold heldCount
  rw [h1, h2, hq]
  simp only [Bool.toNat, cond_true]
  omega

/-! ## Examples -/

/-- A queued message, as the last theorem needs. -/
example : ∃ mp', exMP.run Avro.codec exEnv [strayMsg (exHash 5)] = .ok mp' ∧ mp'.pendingMessages.contains (exHash 5) = true := by
  obtain ⟨mp', h1, h2⟩ := ex_ok (r := exMP.run Avro.codec exEnv [strayMsg (exHash 5)]) (fun mp => mp.pendingMessages.contains (exHash 5)) (by decide +kernel)
  exact ⟨mp', h1, h2⟩

/-- All messages of a block, twice in reverse order, leave nothing behind. -/
example : ∃ (ms : List Msg) (mp' : MP), Produced Avro.codec exProducer.schema exBlock exSubs ms ∧ exMP.run Avro.codec exEnv (recv ms.reverse ++ recv ms.reverse) = .ok mp' ∧
    mp'.pendingBatches.size = 0 ∧ mp'.pendingMessages.size = 0 ∧ mp'.completed.contains exBlock.hash = true := by
  obtain ⟨ms, _, h, _, ha, _⟩ := exDelivery
  obtain ⟨mp', h1, h2, h3, h4⟩ := C117_empty_partial Avro.codec_lawful (env := exEnv) (blocks := [⟨exProducer.schema, exBlock, exSubs, ms⟩]) (received := recv ms.reverse ++ recv ms.reverse)
    (by rintro s hs; cases List.mem_singleton.mp hs; exact ⟨h, exBlock_wf⟩)
    (by intro s hs s' hs' _; rw [List.mem_singleton.mp hs, List.mem_singleton.mp hs']) exMP_new (by change (1 : Int) ≤ 4; decide)
    (fun m hm => ⟨_, List.mem_singleton.mpr rfl, recv_copy (ms' := ms.reverse) (by simp) ((List.mem_append.mp hm).elim id id)⟩)
    (by intro s hs; cases List.mem_singleton.mp hs; exact ⟨ha, exEnv_keeps _⟩)
  exact ⟨ms, mp', h, h1, h2, h3, (h4 _).mpr ⟨_, List.mem_singleton.mpr rfl, rfl⟩⟩

/-- The sub-batch headers of the example block decode, and on the way the block is held in one place. -/
example : ∃ mp', exMP.run Avro.codec exEnv (exStream.take 3) = .ok mp' ∧ heldCount mp' (exHash 1) = 1 ∧ heldTotal mp' = 1 := by
  obtain ⟨mp', h1, h2⟩ := ex_ok (r := exMP.run Avro.codec exEnv (exStream.take 3)) (fun mp => heldCount mp (exHash 1) == 1 && heldTotal mp == 1) (by decide +kernel)
  simp only [Bool.and_eq_true, beq_iff_eq] at h2
  exact ⟨mp', h1, h2.1, h2.2⟩

example : SubHeadersDecode Avro.codec (exHash 1) exStream := by
  have : exStream.all (fun m => !(m.key.head? == some 1) || (Avro.codec.decInt m.value).isSome) = true := by decide +kernel
  intro m hm _ ht
  have := List.all_eq_true.mp this m hm
  simpa [ht] using this

/-- A request to drop the blocks below 100 leaves only the block whose header was processed with it. -/
example : ∃ mp', exMP.run Avro.codec ⟨.plain, fun t => if t = 1 then [100] else []⟩
    [openMsg Avro.codec (exHash 5), openMsg Avro.codec (exHash 6)] = .ok mp' ∧ mp'.pendingBatches.keys = [exHash 6] ∧ mp'.oldBlocks.keys = [exHash 5] := by
  obtain ⟨mp', h1, h2⟩ := ex_ok (r := exMP.run Avro.codec ⟨.plain, fun t => if t = 1 then [100] else []⟩ [openMsg Avro.codec (exHash 5), openMsg Avro.codec (exHash 6)])
    (fun mp => mp.pendingBatches.keys == [exHash 6] && mp.oldBlocks.keys == [exHash 5]) (by decide +kernel)
  simp only [Bool.and_eq_true, beq_iff_eq] at h2
  exact ⟨mp', h1, h2.1, h2.2⟩

/-- Lost headers: nothing forbids the later messages from containing Reorg messages. -/
example : ∃ ms : List RMsg, ms.length = 1000 ∧ ∀ mp', exMP.run Avro.codec exEnv (ms ++ [at_ ⟨5 :: (exHash 1).bytes, Avro.codec.encInt 7⟩ 0 (str "s:0")]) = .ok mp' →
    1000 ≤ mp'.pendingMessages.size := by
  obtain ⟨ms, h1, _, h2⟩ := C117_orphans_refuted (C := Avro.codec) (env := exEnv) exMP_new 1000 (by decide)
  exact ⟨ms, h1, fun mp' => h2 _ mp' (fun m hm ht => absurd ht (by rw [List.mem_singleton.mp hm]; decide))⟩

end Verif
