import Verif.Props.WebsocketEnd
/-!
# C106: a websocket consumer that connects again loses nothing when the blocks come one after the other
-/
namespace Verif
open Spec

variable {C : Codec} {env : Env} {o : MapOrder}

/-! ## What is asked for -/

/-- The position after the blocks: number and hash of the last one, or of the block the consumer began with. -/
def Spec.tip (num : Int) (h : Hash) (bs : List WsArgs) : Nat × Hash :=
  match bs.getLast? with
  | none => (wireUint64 num, h)
  | some b => (wireUint64 b.1.number, b.1.hash)

/-- The position after what was handed on. -/
def Spec.asked (num : Int) (h : Hash) (l : List WOut) : Nat × Hash :=
  match (handed l).getLast? with
  | none => (wireUint64 num, h)
  | some b => (wireUint64 b.number, b.hash)

/-- What a step does to the position: it hands on a block and asks for what follows that, or it hands on none and asks for the same. -/
theorem wstep_asks {c d : WConn} {mo : MapOrder} {m : WMsg} (h : c.step mo m = .ok d) :
    (∃ l, d.out = c.out ++ l ∧ handed l = [] ∧ d.request = c.request) ∨
    ∃ pb, d.out = c.out ++ [.block pb] ∧ d.request = (wireUint64 pb.number, pb.hash) ∧
      ((∃ b, m = .batch b ∧ pb.hash = b.hash) ∨ ∃ s qb, m = .sub s ∧ c.batches.get? s.hash = some qb ∧ pb.hash = qb.hash) := by
  cases m with
  | hollow => simp [WConn.step] at h
  | ready => simp only [WConn.step, Except.ok.injEq] at h; subst h; exact .inl ⟨[], by simp, rfl, rfl⟩
  | unknown => simp only [WConn.step, Except.ok.injEq] at h; subst h; exact .inl ⟨[], by simp, rfl, rfl⟩
  | reorg n x => simp only [WConn.step, Except.ok.injEq] at h; subst h; exact .inl ⟨_, rfl, rfl, rfl⟩
  | batch b =>
    simp only [WConn.step, Except.ok.injEq] at h; subst h
    rw [WConn.onBatch_eq c mo b _ rfl]
    have hh := (gather_fields b.toPending c.subs GMap.empty ((mo.ord 2 b.batches.entries).map Prod.snd)).2.2.1
    generalize gather b.toPending c.subs GMap.empty ((mo.ord 2 b.batches.entries).map Prod.snd) = g at hh
    simp only []
    split
    · exact .inr ⟨_, rfl, rfl, .inl ⟨b, rfl, hh⟩⟩
    · exact .inl ⟨[], by simp, rfl, rfl⟩
  | sub s =>
    simp only [WConn.step, Except.ok.injEq] at h; subst h
    unfold WConn.onSub
    cases hb : c.batches.get? s.hash with
    | none => exact .inl ⟨[], by simp, rfl, rfl⟩
    | some pb =>
      simp only []
      cases c.pending.get? s.hash with
      | none => exact .inr ⟨_, rfl, rfl, .inr ⟨s, pb, rfl, hb, rfl⟩⟩
      | some q =>
        simp only []
        split
        · exact .inr ⟨_, rfl, rfl, .inr ⟨s, pb, rfl, hb, rfl⟩⟩
        · exact .inl ⟨[], by simp, rfl, rfl⟩

theorem asked_block {num : Int} {h : Hash} {l : List WOut} {pb : WsBlock} : asked num h (l ++ [.block pb]) = (wireUint64 pb.number, pb.hash) := by
  unfold asked
  rw [handed_append]
  simp [handed, WsBlock.pb]

theorem asked_none {num : Int} {h : Hash} {l l' : List WOut} (e : handed l' = []) : asked num h (l ++ l') = asked num h l := by
  unfold asked
  rw [handed_append, e, List.append_nil]

/-- **C53**, the position over all connections: at every moment the consumer would ask for what follows the block it handed on last, on whichever connection that was, and
before the first one for what follows the block it was given at its creation. -/
theorem C53_request {cfg : Config} {num : Int} {first : List WMsg} {later : List (List WMsg)} {w0 w : WSys}
    (h0 : WSys.start cfg num first later = .ok w0) (hw : WSys.Steps C env o w0 w) : w.conn.reconnect.request = asked num cfg.lastHash w.conn.out := by
  induction hw with
  | refl =>
    unfold WSys.start at h0
    obtain ⟨s, h1, h0⟩ := bind_ok.mp h0
    cases h0
    rfl
  | step hs hst ih =>
    have key : ∀ {c d : WConn} {mo : MapOrder} {m : WMsg}, c.reconnect.request = asked num cfg.lastHash c.out → c.step mo m = .ok d →
        d.reconnect.request = asked num cfg.lastHash d.out := by
      intro c d mo m hc hd
      rcases wstep_asks hd with ⟨l, e1, e2, e3⟩ | ⟨pb, e1, e2, _⟩
      · rw [e1, asked_none e2]; exact e3.trans hc
      · rw [e1, asked_block]; exact e2
    cases hst with
    | read _ _ _ _ hd => exact key ih hd
    | reorg _ _ _ hd _ => exact key ih hd
    | reconnect => exact ih
    | inner => exact ih

/-! ## Specification -/

/-- Blocks that a consumer which begins after the block `cfg.lastHash` with number `n` should see: a chain, with sub-batches that have ids of their own. -/
structure Spec.WsChain (cfg : Config) (n : Int) (bs : List WsArgs) : Prop where
  textual : ∀ b ∈ bs, Textual b.1 b.2
  number : ∀ b ∈ bs, InInt64 b.1.number
  ids : ∀ b ∈ bs, (b.1.batches.entries.map Prod.snd).Nodup
  agree : ∀ b ∈ bs, ∀ k v w, WsValue b.1 b.2 k v → WsValue b.1 b.2 k w → v = w
  apart : ∀ b ∈ bs, ∀ b' ∈ bs, ∀ id, (∃ p, b.1.batches.get? p = some id) → (∃ p, b'.1.batches.get? p = some id) → b.1.hash = b'.1.hash
  weight : ∀ b ∈ bs, 0 ≤ b.1.weight
  links : ChainOf cfg.lastHash n cfg.lastWeight (bs.map wsSent)
  hashes : (Hash.zero :: cfg.lastHash :: bs.map (·.1.hash)).Nodup
  whitelist : ∀ b ∈ bs, ∀ h, cfg.whitelist.get? (heightKey b.1.number) = some h → h = b.1.hash

/-- The items by which a block comes completely over a connection: its batch and then its sub-batches, each at least once. A block from storage has no sub-batches. -/
def Spec.WholeIn (b : WsArgs) (seg : List WMsg) : Prop := ∃ tb ts subs, WsForm b.1 b.2 tb ts ∧ seg = .batch tb :: subs ∧
  (∀ m ∈ subs, ∃ id ∈ idsOf tb, m = .sub (ts id)) ∧ ∀ id ∈ idsOf tb, .sub (ts id) ∈ subs

/-- The item is not `ready` and not of an unknown type. -/
def Spec.isBlockItem : WMsg → Bool
  | .ready => false
  | .unknown => false
  | _ => true

/-- Blocks with the items of each. -/
def Spec.Pieces (bs : List WsArgs) (segs : List (WsArgs × List WMsg)) : Prop := segs.map Prod.fst = bs ∧ ∀ s ∈ segs, WholeIn s.1 s.2

/-- All items of the first block, then all of the second and so on, up to any point; `ready` may be anywhere. -/
def Spec.InTurn (bs : List WsArgs) (ms : List WMsg) : Prop := ∃ segs, Pieces bs segs ∧ ms.filter isBlockItem <+: segs.flatMap Prod.snd

/-- The same, up to the end. -/
def Spec.AllInTurn (bs : List WsArgs) (ms : List WMsg) : Prop := ∃ segs, Pieces bs segs ∧ ms.filter isBlockItem = segs.flatMap Prod.snd

/-- A server answers the request for what follows a position: with the blocks after it, one after the other, until the connection breaks. -/
def Spec.Answers (cfg : Config) (num : Int) (bs : List WsArgs) (req : Nat × Hash) (ms : List WMsg) : Prop :=
  ∃ known rest, bs = known ++ rest ∧ req = tip num cfg.lastHash known ∧ InTurn rest ms

/-! ## The items of a connection -/

theorem Spec.WsForm.ids {a : BlockArgs} {subs : Hash → SubArgs} {tb : TBatch} {ts : Hash → TSub} (h : WsForm a subs tb ts) {id : Hash} (hid : id ∈ idsOf tb) :
    ∃ p, a.batches.get? p = some id := by
  cases h with
  | live o o' ht hn hd hag => exact ((wsMessages_form ht hn hd hag o o').2.2.1 id).mp hid
  | stored o o' ts hx hn hv hd =>
    rw [idsOf_stored] at hid
    cases hid

section
variable {cfg : Config} {n : Int} {bs known rest : List WsArgs} {segs : List (WsArgs × List WMsg)} {ms : List WMsg}

theorem part_elsewhere (hc : WsChain cfg n bs) {b b' : WsArgs} (hb : b ∈ bs) (hb' : b' ∈ bs) (hne : b'.1.hash ≠ b.1.hash) {tb tb' : TBatch} {ts ts' : Hash → TSub}
    (hf : WsForm b.1 b.2 tb ts) (hf' : WsForm b'.1 b'.2 tb' ts') {m : WMsg} (hm : PartOf tb' ts' m) : Elsewhere tb m := by
  have hap : ∀ id ∈ idsOf tb', id ∉ idsOf tb := fun id h1 h2 => hne (hc.apart b' hb' b hb id (hf'.ids h1) (hf.ids h2))
  have hp := hf'.parted.1
  cases hm with
  | batch => exact ⟨by rw [hf.hash, hf'.hash]; exact hne, hap⟩
  | sub hid => exact ⟨by rw [hp.hash _ hid, hf.hash, hf'.hash]; exact hne, by rw [hp.id _ hid]; exact hap _ hid⟩

theorem Spec.WholeIn.part {b : WsArgs} {seg : List WMsg} (h : WholeIn b seg) : ∃ tb ts, WsForm b.1 b.2 tb ts ∧ (∀ m ∈ seg, PartOf tb ts m) ∧ AllParts tb ts seg ∧
    WMsg.batch tb ∈ seg ∧ ∃ subs, seg = .batch tb :: subs := by
  obtain ⟨tb, ts, subs, h1, rfl, h3, h4⟩ := h
  refine ⟨tb, ts, h1, ?_, ?_, by simp, subs, rfl⟩
  · intro m hm
    rcases List.mem_cons.mp hm with rfl | hm
    · exact .batch
    · obtain ⟨id, hid, rfl⟩ := h3 m hm
      exact .sub hid
  · rintro m (_ | hid)
    · simp
    · simp [h4 _ hid]

theorem Spec.WholeIn.hashes {b : WsArgs} {seg : List WMsg} (h : WholeIn b seg) : seg.filterMap batchHash = [b.1.hash] := by
  obtain ⟨tb, ts, subs, h1, rfl, h3, h4⟩ := h
  rw [List.filterMap_cons]
  simp only [batchHash, h1.hash]
  congr 1
  rw [List.filterMap_eq_nil_iff]
  intro m hm
  obtain ⟨id, _, rfl⟩ := h3 m hm
  rfl

theorem Spec.Pieces.hashes (h : Pieces rest segs) : (segs.flatMap Prod.snd).filterMap batchHash = rest.map (·.1.hash) := by
  obtain ⟨rfl, h⟩ := h
  induction segs with
  | nil => rfl
  | cons s segs ih =>
    rw [List.flatMap_cons, List.filterMap_append, (h s (by simp)).hashes, ih (fun x hx => h x (by simp [hx]))]
    rfl

theorem filter_hashes (ms : List WMsg) : (ms.filter isBlockItem).filterMap batchHash = ms.filterMap batchHash := by
  induction ms with
  | nil => rfl
  | cons m ms ih =>
    rw [List.filter_cons]
    cases m <;> simp only [isBlockItem, if_true, if_false, Bool.false_eq_true, List.filterMap_cons, batchHash, ih]

theorem chain_inj (hc : WsChain cfg n bs) {b b' : WsArgs} (hb : b ∈ bs) (hb' : b' ∈ bs) (e : b.1.hash = b'.1.hash) : b = b' := by
  have hn := (List.nodup_cons.mp (List.nodup_cons.mp hc.hashes).2).2
  obtain ⟨i, hi, rfl⟩ := List.mem_iff_getElem.mp hb
  obtain ⟨j, hj, rfl⟩ := List.mem_iff_getElem.mp hb'
  have e : (bs.map (·.1.hash))[i]'(by simpa using hi) = (bs.map (·.1.hash))[j]'(by simpa using hj) := by
    rw [List.getElem_map, List.getElem_map]; exact e
  have := (List.getElem_inj hn).mp e
  subst this; rfl

/-- On a connection that brings the blocks in turn the items are right for each of them. -/
theorem turn_oneBatch (hc : WsChain cfg n bs) (hbs : bs = known ++ rest) (hp : Pieces rest segs) (hms : ms.filter isBlockItem <+: segs.flatMap Prod.snd) {b : WsArgs} (hb : b ∈ bs)
    {tb : TBatch} {ts : Hash → TSub} (hf : WsForm b.1 b.2 tb ts) (hown : ∀ s ∈ segs, s.1 = b → ∀ m ∈ s.2, PartOf tb ts m) : OneBatch tb ts ms := by
  refine ⟨?_, ?_⟩
  · intro m hm
    by_cases hi : isBlockItem m = true
    · have hm' : m ∈ segs.flatMap Prod.snd := hms.subset (List.mem_filter.mpr ⟨hm, hi⟩)
      obtain ⟨s, hs, hms'⟩ := List.mem_flatMap.mp hm'
      have hsb : s.1 ∈ bs := by rw [hbs, ← hp.1]; exact List.mem_append_right _ (List.mem_map.mpr ⟨s, hs, rfl⟩)
      by_cases e : s.1.1.hash = b.1.hash
      · exact .inl (hown s hs (chain_inj hc hsb hb e) m hms')
      · obtain ⟨tb', ts', hf', hpart, _⟩ := (hp.2 s hs).part
        exact .inr (part_elsewhere hc hb hsb e hf hf' (hpart m hms'))
    · right
      cases m <;> simp [isBlockItem] at hi <;> trivial
  · refine once_of_nodup ?_ tb
    rw [← filter_hashes]
    have h1 := (List.IsPrefix.filterMap batchHash hms).sublist
    rw [hp.hashes] at h1
    have hn := (List.nodup_cons.mp (List.nodup_cons.mp hc.hashes).2).2
    rw [hbs, List.map_append] at hn
    exact h1.nodup (List.nodup_append.mp hn).2.1

/-- The items of one of the pieces. -/
theorem piece_form (hc : WsChain cfg n bs) (hbs : bs = known ++ rest) (hp : Pieces rest segs) (hms : ms.filter isBlockItem <+: segs.flatMap Prod.snd)
    {s : WsArgs × List WMsg} (hs : s ∈ segs) : s.1 ∈ bs ∧ ∃ tb ts, WsForm s.1.1 s.1.2 tb ts ∧ (∀ m ∈ s.2, PartOf tb ts m) ∧ AllParts tb ts s.2 ∧ OneBatch tb ts ms := by
  have hsb : s.1 ∈ bs := by rw [hbs, ← hp.1]; exact List.mem_append_right _ (List.mem_map.mpr ⟨s, hs, rfl⟩)
  obtain ⟨tb, ts, hf, hpart, hall, _⟩ := (hp.2 s hs).part
  refine ⟨hsb, tb, ts, hf, hpart, hall, turn_oneBatch hc hbs hp hms hsb hf ?_⟩
  intro s' hs' e
  have : s' = s := by
    have hn := (List.nodup_cons.mp (List.nodup_cons.mp hc.hashes).2).2
    rw [hbs, List.map_append] at hn
    have hn := (List.nodup_append.mp hn).2.1
    rw [← hp.1, List.map_map] at hn
    obtain ⟨i, hi, rfl⟩ := List.mem_iff_getElem.mp hs
    obtain ⟨j, hj, rfl⟩ := List.mem_iff_getElem.mp hs'
    have e : (segs.map ((fun b : WsArgs => b.1.hash) ∘ Prod.fst))[j]'(by simpa using hj) = (segs.map ((fun b : WsArgs => b.1.hash) ∘ Prod.fst))[i]'(by simpa using hi) := by
      rw [List.getElem_map, List.getElem_map]; simp [e]
    have := (List.getElem_inj hn).mp e
    subst this; rfl
  subst this
  exact hpart

/-- The items of all connections are right for a consumer. -/
theorem turn_carried (hc : WsChain cfg n bs) {conns : List (List WMsg)} (h : ∀ ms ∈ conns, ∃ known rest, bs = known ++ rest ∧ InTurn rest ms) : WsCarried bs conns := by
  refine ⟨hc.weight, ?_, ?_⟩
  · intro ms hms b hb
    obtain ⟨known, rest, hbs, segs, hp, hpre⟩ := h ms hms
    by_cases hin : ∃ s ∈ segs, s.1 = b
    · obtain ⟨s, hs, rfl⟩ := hin
      obtain ⟨_, tb, ts, hf, _, _, hone⟩ := piece_form hc hbs hp hpre hs
      exact ⟨tb, ts, hf, hone⟩
    · refine ⟨_, _, .live .plain .plain (hc.textual b hb) (hc.number b hb) (hc.ids b hb) (hc.agree b hb), turn_oneBatch hc hbs hp hpre hb ?_ ?_⟩
      · exact .live .plain .plain (hc.textual b hb) (hc.number b hb) (hc.ids b hb) (hc.agree b hb)
      · intro s hs e
        exact absurd ⟨s, hs, e⟩ hin
  · intro ms hms m hm
    obtain ⟨known, rest, hbs, segs, hp, hpre⟩ := h ms hms
    by_cases hi : isBlockItem m = true
    · obtain ⟨s, hs, hms'⟩ := List.mem_flatMap.mp (hpre.subset (List.mem_filter.mpr ⟨hm, hi⟩))
      have hsb : s.1 ∈ bs := by rw [hbs, ← hp.1]; exact List.mem_append_right _ (List.mem_map.mpr ⟨s, hs, rfl⟩)
      obtain ⟨tb, ts, hf, hpart, _⟩ := (hp.2 s hs).part
      cases hpart m hms' with
      | batch => exact ⟨by simp, by simp, fun x e => ⟨s.1, hsb, by cases e; exact hf.hash⟩⟩
      | sub => exact ⟨by simp, by simp, by simp⟩
    · cases m <;> simp [isBlockItem] at hi <;> simp

/-! ## One connection -/

theorem pieces_exist (hc : WsChain cfg n bs) : ∃ segs, Pieces bs segs := by
  refine ⟨bs.map (fun b => (b, .batch (wsMessages .plain .plain b.1 b.2).1 :: (idsOf (wsMessages .plain .plain b.1 b.2).1).map (fun id => .sub ((wsMessages .plain .plain b.1 b.2).2 id)))), ?_, ?_⟩
  · simp [Function.comp_def]
  · intro s hs
    obtain ⟨b, hb, rfl⟩ := List.mem_map.mp hs
    refine ⟨_, _, _, .live .plain .plain (hc.textual b hb) (hc.number b hb) (hc.ids b hb) (hc.agree b hb), rfl, ?_, ?_⟩
    · intro m hm
      obtain ⟨id, hid, rfl⟩ := List.mem_map.mp hm
      exact ⟨id, hid, rfl⟩
    · intro id hid
      exact List.mem_map.mpr ⟨id, hid, rfl⟩

theorem turn_at {x : List WMsg} {m : WMsg} (h : x ++ [m] <+: segs.flatMap Prod.snd) :
    ∃ sa s sb p, segs = sa ++ s :: sb ∧ x = sa.flatMap Prod.snd ++ p ∧ p ++ [m] <+: s.2 := by
  induction segs generalizing x with
  | nil => simp at h
  | cons s segs ih =>
    rw [List.flatMap_cons] at h
    by_cases hl : x.length < s.2.length
    · exact ⟨[], s, segs, x, rfl, rfl, List.prefix_of_prefix_length_le h (List.prefix_append _ _) (by simp; omega)⟩
    · have h1 : s.2 <+: x ++ [m] := List.prefix_of_prefix_length_le (List.prefix_append _ _) h (by simp; omega)
      have h2 : s.2 <+: x := List.prefix_of_prefix_length_le h1 (List.prefix_append _ _) (by omega)
      obtain ⟨x', rfl⟩ := h2
      rw [List.append_assoc, List.prefix_append_right_inj] at h
      obtain ⟨sa, s', sb, p, e1, e2, e3⟩ := ih h
      exact ⟨s :: sa, s', sb, p, by rw [e1]; rfl, by rw [e2, List.flatMap_cons, List.append_assoc], e3⟩

/-- The hashes of the blocks handed on. -/
def handedHashes (l : List WOut) : List Hash := (handed l).map PB.hash

theorem handedHashes_append (a b : List WOut) : handedHashes (a ++ b) = handedHashes a ++ handedHashes b := by
  unfold handedHashes; rw [handed_append, List.map_append]

theorem mem_handedHashes {l : List WOut} {h : Hash} : h ∈ handedHashes l ↔ blocksWith h l ≠ [] := by
  unfold handedHashes
  rw [List.mem_map]
  constructor
  · rintro ⟨pb, hpb, rfl⟩ e
    obtain ⟨x, hx, rfl⟩ := mem_handed.mp hpb
    have : x ∈ blocksWith x.pb.hash l := mem_blocksWith.mpr ⟨hx, rfl⟩
    rw [e] at this
    cases this
  · intro hne
    obtain ⟨x, hx⟩ := List.exists_mem_of_ne_nil _ hne
    obtain ⟨h1, h2⟩ := mem_blocksWith.mp hx
    exact ⟨x.pb, mem_handed.mpr ⟨x, h1, rfl⟩, h2⟩

/-- What is known while a connection brings the blocks `rest` in turn: the blocks handed on are an initial part of the chain, in order. -/
structure TurnInv (cfg : Config) (num : Int) (bs known rest : List WsArgs) (ms : List WMsg) (c : WConn) (todo : List WMsg) : Prop where
  pos : ∃ seen l0 l j, ms = seen ++ todo ∧ c.out = l0 ++ l ∧ handedHashes l0 = known.map (·.1.hash) ∧
    (∀ b ∈ bs, ∀ tb ts, WsForm b.1 b.2 tb ts → OneBatch tb ts ms → WsInv tb ts seen c l) ∧
    j ≤ rest.length ∧ handedHashes l = (rest.take j).map (·.1.hash) ∧ c.request = tip num cfg.lastHash (known ++ rest.take j)
  keys : WFrom (fun _ => True) c

theorem take_place {sa sb : List WsArgs} {s : WsArgs} (hn : ((sa ++ s :: sb).map (·.1.hash)).Nodup) {j : Nat} (hj : j ≤ (sa ++ s :: sb).length)
    (hall : ∀ b ∈ sa, b.1.hash ∈ ((sa ++ s :: sb).take j).map (·.1.hash)) (hs : s.1.hash ∉ ((sa ++ s :: sb).take j).map (·.1.hash)) : j = sa.length := by
  rcases Nat.lt_trichotomy j sa.length with h | h | h
  · exfalso
    have h1 := hall sa[j] (List.getElem_mem h)
    rw [← List.take_append_drop j (sa ++ s :: sb), List.map_append] at hn
    refine (List.nodup_append.mp hn).2.2 _ h1 _ (List.mem_map.mpr ⟨sa[j], ?_, rfl⟩) rfl
    rw [List.mem_iff_getElem]
    refine ⟨0, by simp; omega, ?_⟩
    rw [List.getElem_drop]
    simp only [Nat.add_zero]
    rw [List.getElem_append_left h]
  · exact h
  · exfalso
    refine hs (List.mem_map.mpr ⟨s, ?_, rfl⟩)
    rw [List.mem_iff_getElem]
    refine ⟨sa.length, by simp at hj ⊢; omega, ?_⟩
    rw [List.getElem_take, List.getElem_append_right (Nat.le_refl _)]
    simp

/-- The blocks before a point at which a connection has arrived were handed on. -/
theorem handed_before (hc : WsChain cfg n bs) (hbs : bs = known ++ rest) (hp : Pieces rest segs) (hms : ms.filter isBlockItem <+: segs.flatMap Prod.snd) {seen : List WMsg} {c : WConn}
    {l : List WOut} (hinv : ∀ b ∈ bs, ∀ tb ts, WsForm b.1 b.2 tb ts → OneBatch tb ts ms → WsInv tb ts seen c l) {s : WsArgs × List WMsg} (hs : s ∈ segs) (hall : ∀ m ∈ s.2, m ∈ seen) :
    s.1.1.hash ∈ handedHashes l := by
  obtain ⟨hsb, tb, ts, hf, _, hparts, hone⟩ := piece_form hc hbs hp hms hs
  obtain ⟨_, pb, h1, _⟩ := (hinv s.1 hsb tb ts hf hone).complete (fun m hm => hall m (hparts m hm))
  rw [mem_handedHashes, ← hf.hash, h1]
  simp

theorem TurnInv.read {num : Int} (hc : WsChain cfg n bs) (hbs : bs = known ++ rest) (hp : Pieces rest segs) (hms : ms.filter isBlockItem <+: segs.flatMap Prod.snd) {c d : WConn} {mo : MapOrder}
    {m : WMsg} {todo : List WMsg} (h : TurnInv cfg num bs known rest ms c (m :: todo)) (hd : c.step mo m = .ok d) : TurnInv cfg num bs known rest ms d todo := by
  obtain ⟨seen, l0, l, j, e1, e2, e3, hinv, hj, e4, e5⟩ := h.pos
  refine ⟨?_, h.keys.step (fun _ _ => trivial) hd⟩
  have next : ∀ l', d.out = c.out ++ l' → ∀ b ∈ bs, ∀ tb ts, WsForm b.1 b.2 tb ts → OneBatch tb ts ms → WsInv tb ts (seen ++ [m]) d (l ++ l') := by
    intro l' el b hb tb ts hf ho
    exact wsinv_next hf.parted.1 hf.parted.2.1 (hinv b hb tb ts hf ho) (by rw [← e1]; exact ho) hd l' el
  rcases wstep_asks hd with ⟨l', el, hl, hr⟩ | ⟨pb, el, hr, hsrc⟩
  · refine ⟨seen ++ [m], l0, l ++ l', j, by rw [e1]; simp, by rw [el, e2]; simp, e3, next l' el, hj, ?_, hr.trans e5⟩
    rw [handedHashes_append, e4]
    simp [handedHashes, hl]
  · -- which block
    have hitem : isBlockItem m = true := by
      rcases hsrc with ⟨b, rfl, _⟩ | ⟨s, _, rfl, _⟩ <;> rfl
    have hpre : seen.filter isBlockItem ++ [m] <+: segs.flatMap Prod.snd := by
      rw [e1, List.filter_append, List.filter_cons, if_pos hitem] at hms
      exact List.IsPrefix.trans ⟨todo.filter isBlockItem, by simp⟩ hms
    obtain ⟨sa, s, sb, p, hseg, hseen, hpm⟩ := turn_at hpre
    have hs : s ∈ segs := by rw [hseg]; simp
    obtain ⟨hsb, tb, ts, hf, hpart, hparts, hone⟩ := piece_form hc hbs hp hms hs
    have hhash : pb.hash = s.1.1.hash := by
      have hm : PartOf tb ts m := hpart m (hpm.subset (by simp))
      rcases hsrc with ⟨b, rfl, hb⟩ | ⟨sx, qb, rfl, hq, hb⟩
      · cases hm
        exact hb.trans hf.hash
      · rw [hb, (h.keys.held _ _ hq).1]
        generalize e : WMsg.sub sx = m at hm
        cases hm with
        | batch => cases e
        | sub hid => cases e; rw [hf.parted.1.hash _ hid]; exact hf.hash
    have hw := next _ el s.1 hsb tb ts hf hone
    have hin : pb ∈ blocksWith tb.hash (l ++ [.block pb]) := mem_blocksWith.mpr ⟨by simp, by rw [hhash, hf.hash]⟩
    have hcompl : AllParts tb ts (seen ++ [m]) := by
      apply Classical.byContradiction
      intro hn
      by_cases hb : WMsg.batch tb ∈ seen ++ [m]
      · rw [(hw.waiting hb hn).1] at hin; cases hin
      · rw [(hw.before hb).2.1] at hin; cases hin
    obtain ⟨_, pb', h1, h2⟩ := hw.complete hcompl
    have hone' : pb' = pb := by rw [h1] at hin; exact (List.mem_singleton.mp hin).symm
    subst hone'
    have hnone : s.1.1.hash ∉ handedHashes l := by
      rw [mem_handedHashes, Classical.not_not]
      rw [blocksWith_append] at h1
      have hl := congrArg List.length h1
      have : (blocksWith tb.hash [WOut.block pb']).length = 1 := by
        simp [blocksWith, h2.hash]
      simp only [List.length_append, this, List.length_singleton] at hl
      rw [← hf.hash]
      exact List.length_eq_zero_iff.mp (by omega)
    have hrest : rest = sa.map Prod.fst ++ s.1 :: sb.map Prod.fst := by rw [← hp.1, hseg]; simp
    have hj' : j = (sa.map Prod.fst).length := by
      rw [hrest] at hj e4
      refine take_place (s := s.1) (sb := sb.map Prod.fst) ?_ hj ?_ (by rw [← e4]; exact hnone)
      · have hn := (List.nodup_cons.mp (List.nodup_cons.mp hc.hashes).2).2
        rw [hbs, List.map_append, hrest] at hn
        exact (List.nodup_append.mp hn).2.1
      · intro b hb
        obtain ⟨x, hx, rfl⟩ := List.mem_map.mp hb
        rw [← e4]
        refine handed_before hc hbs hp hms hinv (by rw [hseg]; simp [hx]) ?_
        intro y hy
        have : y ∈ seen.filter isBlockItem := by
          rw [hseen]
          exact List.mem_append_left _ (List.mem_flatMap.mpr ⟨x, hx, hy⟩)
        exact (List.mem_filter.mp this).1
    have htake : rest.take (j + 1) = rest.take j ++ [s.1] := by
      rw [hrest, hj', List.take_append_of_le_length (i := (sa.map Prod.fst).length) (Nat.le_refl _), List.take_length, List.take_length_add_append]
      rfl
    refine ⟨seen ++ [m], l0, l ++ [.block pb'], j + 1, by rw [e1]; simp, by rw [el, e2]; simp, e3, next _ el, ?_, ?_, ?_⟩
    · rw [hrest, hj']; simp
    · rw [handedHashes_append, e4, htake, List.map_append]
      congr 1
      simp [handedHashes, handed, WsBlock.pb, hhash]
    · rw [hr, htake, ← List.append_assoc]
      unfold tip
      rw [List.getLast?_append]
      have := (hf.parted.2.2 pb' h2).number
      simp [this, hhash]

/-! ## All connections -/

/-- Of the blocks of a chain, `seen` have been added at the subscribers: each once, in this order, exactly as given to the producer. -/
structure Spec.WsSaw (bs seen : List WsArgs) (log : List OOut) : Prop where
  only : ∀ x ∈ log, (∃ a, x = .update a []) ∨ ∃ b ∈ bs, x = .evictOlder b.1.number
  length : (log.flatMap addedBy).length = seen.length
  exact : ∀ x ∈ seen.zip (log.flatMap addedBy), WsSeen x.1.1 x.1.2 x.2

theorem chain_orders (hc : WsChain cfg n bs) {omp0 : OMP} (hn : newOMP cfg = .ok omp0) {ds : List PB} (hds : ∀ pb ∈ ds, ∃ b ∈ bs, WsSeen b.1 b.2 pb) :
    ∃ s em rest, omp0.run o (ds.map OOp.block) = .ok s ∧ (bs.map wsSent).map bare = em ++ rest ∧ addedHashes s.log = Spec.hashes em ∧
      (∀ x ∈ s.log, (∃ a, x = .update a []) ∨ ∃ sb ∈ bs.map wsSent, x = .evictOlder sb.args.number) ∧
      ∀ b rest', rest = b :: rest' → b.hash ∉ Spec.hashes ds ∧ ∀ n, OOut.evictOlder n ∈ s.log → n ≤ b.number := by
  refine chain_ordered hc.links ?_ ?_ ?_ hn ?_
  · have : (bs.map wsSent).map (·.args.hash) = bs.map (·.1.hash) := by simp [wsSent, Function.comp_def]
    rw [this]; exact hc.hashes
  · intro s hs x hx
    obtain ⟨b, hb, rfl⟩ := List.mem_map.mp hs
    exact hc.whitelist b hb x hx
  · intro s hs
    obtain ⟨b, hb, rfl⟩ := List.mem_map.mp hs
    exact hc.weight b hb
  · intro pb hpb
    obtain ⟨b, hb, he⟩ := hds pb hpb
    exact ⟨wsSent b, List.mem_map.mpr ⟨b, hb, rfl⟩, he.number, he.weight, he.hash, he.parent⟩

/-- At every moment the subscribers have seen an initial part of the chain; all of what was handed on, once that has been worked off. -/
theorem chain_seen {conns : List (List WMsg)} (hc : WsChain cfg n bs) (h : WsCarried bs conns) {w : WSys} (hv : WSInv C env o cfg bs conns w) :
    ∃ seen, seen <+: bs ∧ WsSaw bs seen w.sys.omp.log ∧
      (w.sys.Drained → ∀ known, known <+: bs → handedHashes w.conn.out = known.map (·.1.hash) → seen = known) := by
  obtain ⟨s0, r1, r2⟩ := hv.run
  obtain ⟨omp0, ds, done, rest, i1, i2, i3, i4, i5, i6, i7⟩ := blocks_inside r1 r2
  have hex : ∀ pb ∈ ds, ∃ b ∈ bs, WsSeen b.1 b.2 pb := fun pb hpb => hv.emitted h (by rw [i6]; simp [hpb])
  obtain ⟨s', em, rest', g1, g2, g3, g4, g5⟩ := chain_orders (o := o) hc i1 hex
  rw [i5] at g1
  have g1 := Except.ok.inj g1
  subst g1
  have hnd : (bs.map (·.1.hash)).Nodup := ((List.nodup_cons.mp (List.nodup_cons.mp hc.hashes).2).2)
  have hem : Spec.hashes em = (bs.take em.length).map (·.1.hash) := by
    have := congrArg (List.map PB.hash) (congrArg (List.take em.length) g2)
    rw [List.take_left] at this
    rw [Spec.hashes, ← this]
    simp [bare, wsSent, Function.comp_def]
  have hlb : em.length ≤ bs.length := by
    have := congrArg List.length g2
    simp at this; omega
  have hhash : (w.sys.omp.log.flatMap addedBy).map PB.hash = (bs.take em.length).map (·.1.hash) := by
    have : addedHashes w.sys.omp.log = (w.sys.omp.log.flatMap addedBy).map PB.hash := rfl
    rw [← this, g3, hem]
  have hlen : (w.sys.omp.log.flatMap addedBy).length = (bs.take em.length).length := by
    have := congrArg List.length hhash
    simpa using this
  refine ⟨bs.take em.length, List.take_prefix _ _, ⟨?_, hlen, ?_⟩, ?_⟩
  · intro x hx
    rcases g4 x hx with h | ⟨sb, hsb, e⟩
    · exact .inl h
    · obtain ⟨b, hb, rfl⟩ := List.mem_map.mp hsb
      exact .inr ⟨b, hb, e⟩
  · intro x hx
    obtain ⟨i, hi, rfl⟩ := List.mem_iff_getElem.mp hx
    simp only [List.length_zip] at hi
    rw [List.getElem_zip]
    simp only []
    have hpb : (w.sys.omp.log.flatMap addedBy)[i] ∈ w.sys.omp.log.flatMap addedBy := List.getElem_mem _
    have hheq : ((w.sys.omp.log.flatMap addedBy)[i]).hash = ((bs.take em.length)[i]).1.hash := by
      have := congrArg (fun l => l[i]?) hhash
      simp only [List.getElem?_map] at this
      rw [List.getElem?_eq_getElem (by omega), List.getElem?_eq_getElem (by omega)] at this
      simpa using this
    obtain ⟨out, hout, hin⟩ := List.mem_flatMap.mp hpb
    cases out with
    | update a r =>
      have hem := C43_updates r1 r2 hout (List.mem_append_left _ hin)
      obtain ⟨b, hb, he⟩ := hv.emitted h hem
      have : b = (bs.take em.length)[i] := chain_inj hc hb (List.mem_of_mem_take (List.getElem_mem _)) (he.hash.symm.trans hheq)
      rw [this] at he
      exact he
    | reorg n x => simp [addedBy] at hin
    | evictOlder n => simp [addedBy] at hin
  · intro hd known hk hhand
    rw [hd.1] at i3
    have hrest : rest = [] := List.map_eq_nil_iff.mp i3.symm
    subst hrest
    rw [List.append_nil] at i2
    rw [hd.2.1, hd.2.2.1] at i6
    have i6 : w.sys.mp.emitted = ds := by simpa [blocksSent] using i6
    have hds : Spec.hashes ds = known.map (·.1.hash) := by
      rw [← hhand]
      have e1 : ∀ l : List PB, Spec.hashes l = (l.map PB.bald).map PB.hash := by intro l; simp [Spec.hashes, PB.bald]
      rw [e1, ← i6, i7, ← i2]
      simp [handedHashes, PB.bald]
    -- what was added had been handed on
    have hsub : ∀ x ∈ (bs.take em.length).map (·.1.hash), x ∈ known.map (·.1.hash) := by
      rw [← hhash, ← hds, ← i6]
      intro x hx
      obtain ⟨pb, hpb, rfl⟩ := List.mem_map.mp hx
      obtain ⟨out, hout, hin⟩ := List.mem_flatMap.mp hpb
      cases out with
      | update a r => exact List.mem_map.mpr ⟨pb, C43_updates r1 r2 hout (List.mem_append_left _ hin), rfl⟩
      | reorg n x => simp [addedBy] at hin
      | evictOlder n => simp [addedBy] at hin
    obtain ⟨k', hk'⟩ := hk
    have hkt : known = bs.take known.length := by rw [← hk', List.take_left]
    have hkl : known.length ≤ bs.length := by rw [← hk']; simp
    have h1 : em.length ≤ known.length := by
      apply Classical.byContradiction
      intro hlt
      have hlt : known.length < em.length := by omega
      have hb : known.length < bs.length := by omega
      have := hsub (bs[known.length]).1.hash (List.mem_map.mpr ⟨_, List.mem_iff_getElem.mpr ⟨known.length, by simp; omega, by rw [List.getElem_take]⟩, rfl⟩)
      rw [← hk', List.map_append] at hnd
      refine (List.nodup_append.mp hnd).2.2 _ this _ (List.mem_map.mpr ⟨bs[known.length], ?_, rfl⟩) rfl
      have : bs[known.length]? = k'[0]? := by rw [← hk', List.getElem?_append_right (Nat.le_refl _)]; simp
      rw [List.getElem?_eq_getElem hb] at this
      exact List.mem_of_getElem? this.symm
    have h2 : known.length ≤ em.length := by
      apply Classical.byContradiction
      intro hlt
      have hlt : em.length < known.length := by omega
      have hrl : rest'.length = bs.length - em.length := by
        have := congrArg List.length g2
        simp at this; omega
      cases hr : rest' with
      | nil => rw [hr] at hrl; simp at hrl; omega
      | cons y r =>
        have hy := (g5 _ _ hr).1
        rw [hds] at hy
        refine hy ?_
        have : ((bs.map wsSent).map bare)[em.length]? = some y := by
          rw [g2, hr, List.getElem?_append_right (Nat.le_refl _)]; simp
        rw [List.getElem?_map, List.getElem?_map] at this
        have hkb : bs[em.length]? = known[em.length]? := by rw [← hk', List.getElem?_append_left hlt]
        rw [hkb, List.getElem?_eq_getElem hlt] at this
        simp only [Option.map_some, Option.some.injEq] at this
        rw [← this]
        exact List.mem_map.mpr ⟨known[em.length], List.getElem_mem _, rfl⟩
    have : em.length = known.length := by omega
    rw [this, ← hkt]

theorem wsteps_later {w w' : WSys} (x : List (List WMsg)) (h : WSys.Steps C env o w w') :
    WSys.Steps C env o { w with later := w.later ++ x } { w' with later := w'.later ++ x } := by
  induction h with
  | refl => exact .refl
  | step hs hst ih =>
    refine .step ih ?_
    cases hst with
    | read h1 h2 h3 h4 h5 => exact .read h1 h2 h3 h4 h5
    | reorg h1 h2 h3 h4 h5 => exact .reorg h1 h2 h3 h4 h5
    | reconnect h1 h2 h3 h4 => exact .reconnect h1 h2 h3 (by show _ ++ x = _; rw [h4]; rfl)
    | inner h => exact .inner h

theorem tip_inj (hc : WsChain cfg n bs) {num : Int} {k1 r1 k2 r2 : List WsArgs} (e1 : bs = k1 ++ r1) (e2 : bs = k2 ++ r2)
    (e : tip num cfg.lastHash k1 = tip num cfg.lastHash k2) : k1 = k2 ∧ r1 = r2 := by
  have hnd := (List.nodup_cons.mp hc.hashes).2
  have hlast := (List.nodup_cons.mp hnd).1
  have hmem : ∀ {k r : List WsArgs} {b : WsArgs}, bs = k ++ r → k.getLast? = some b → b ∈ bs := fun h1 h2 => by
    rw [h1]; exact List.mem_append_left _ (List.mem_of_getLast? h2)
  have hlen : k1.length = k2.length := by
    unfold tip at e
    cases h1 : k1.getLast? with
    | none =>
      cases h2 : k2.getLast? with
      | none => rw [List.getLast?_eq_none_iff.mp h1, List.getLast?_eq_none_iff.mp h2]
      | some b => rw [h1, h2] at e; simp only [Prod.mk.injEq] at e; exact absurd (List.mem_map.mpr ⟨b, hmem e2 h2, e.2.symm⟩) hlast
    | some a =>
      cases h2 : k2.getLast? with
      | none => rw [h1, h2] at e; simp only [Prod.mk.injEq] at e; exact absurd (List.mem_map.mpr ⟨a, hmem e1 h1, e.2⟩) hlast
      | some b =>
        rw [h1, h2] at e; simp only [Prod.mk.injEq] at e
        have hnd := (List.nodup_cons.mp hnd).2
        rw [List.getLast?_eq_getElem?] at h1 h2
        have l1 := (List.getElem?_eq_some_iff.mp h1).1
        have l2 := (List.getElem?_eq_some_iff.mp h2).1
        have f1 : (bs.map (·.1.hash))[k1.length - 1]? = some a.1.hash := by
          rw [e1, List.getElem?_map, List.getElem?_append_left l1, h1]; rfl
        have f2 : (bs.map (·.1.hash))[k2.length - 1]? = some b.1.hash := by
          rw [e2, List.getElem?_map, List.getElem?_append_left l2, h2]; rfl
        rw [← e.2] at f2
        obtain ⟨m1, f1⟩ := List.getElem?_eq_some_iff.mp f1
        obtain ⟨m2, f2⟩ := List.getElem?_eq_some_iff.mp f2
        have := (List.getElem_inj hnd).mp (f1.trans f2.symm)
        omega
  rw [e1] at e2
  exact List.append_inj e2 hlen

/-- What is known of a consumer whose requests are answered. -/
structure ServedInv (C : Codec) (env : Env) (o : MapOrder) (cfg : Config) (num : Int) (bs known rest : List WsArgs) (ms : List WMsg) (w : WSys) : Prop where
  split : bs = known ++ rest
  turn : TurnInv cfg num bs known rest ms w.conn w.todo
  run : ∃ first later w0, (∀ ms ∈ first :: later, ∃ known rest, bs = known ++ rest ∧ InTurn rest ms) ∧ WSys.start cfg num first later = .ok w0 ∧ WSys.Steps C env o w0 w
  last : w.later = []

theorem wstep_last {w w' : WSys} (h : WSys.Step C env o w w') (hl : w.later = []) : w'.later = [] := by
  cases h with
  | reconnect _ _ _ h4 => rw [hl] at h4; cases h4
  | _ => exact hl

theorem ServedInv.step {num : Int} (hc : WsChain cfg n bs) (hp : Pieces rest segs) (hms : ms.filter isBlockItem <+: segs.flatMap Prod.snd) {w w' : WSys}
    (h : ServedInv C env o cfg num bs known rest ms w) (hs : WSys.Step C env o w w') : ServedInv C env o cfg num bs known rest ms w' := by
  obtain ⟨first, later, w0, r1, r2, r3⟩ := h.run
  refine ⟨h.split, ?_, ⟨first, later, w0, r1, r2, .step r3 hs⟩, wstep_last hs h.last⟩
  have ht := h.turn
  cases hs with
  | read _ _ hm _ hd => rw [hm] at ht; exact ht.read hc h.split hp hms hd
  | reorg _ _ hm hd _ => rw [hm] at ht; exact ht.read hc h.split hp hms hd
  | reconnect _ _ _ h4 => rw [h.last] at h4; cases h4
  | inner => exact ht

theorem ServedInv.connect {num : Int} (hc : WsChain cfg n bs) {w : WSys} (h : ServedInv C env o cfg num bs known rest ms w)
    (h1 : w.sys.todo = []) (h2 : w.sys.out = []) (h3 : w.todo = []) {known' rest' : List WsArgs} {ms' : List WMsg} (hbs : bs = known' ++ rest')
    (hreq : w.conn.request = tip num cfg.lastHash known') (hin : InTurn rest' ms') :
    ServedInv C env o cfg num bs known' rest' ms' { w with conn := w.conn.reconnect, todo := ms' } := by
  obtain ⟨seen, l0, l, j, e1, e2, e3, hinv, hj, e4, e5⟩ := h.turn.pos
  have hk := (tip_inj hc (k1 := known ++ rest.take j) (r1 := rest.drop j) (by rw [List.append_assoc, List.take_append_drop]; exact h.split) hbs (e5.symm.trans hreq)).1
  refine ⟨hbs, ⟨⟨[], w.conn.out, [], 0, rfl, by simp [WConn.reconnect], ?_, fun b _ tb ts _ _ => WsInv.init tb ts w.conn, Nat.zero_le _, rfl, ?_⟩, ⟨by simp [WConn.reconnect], fun _ _ => trivial⟩⟩, ?_, h.last⟩
  · rw [e2, handedHashes_append, e3, e4, ← List.map_append, hk]
  · rw [List.take_zero, List.append_nil]; exact hreq
  · obtain ⟨first, later, w0, r1, r2, r3⟩ := h.run
    have r4 := wsteps_later [ms'] r3
    refine ⟨first, later ++ [ms'], { w0 with later := later ++ [ms'] }, ?_, ?_, ?_⟩
    · intro x hx
      rcases List.mem_cons.mp hx with rfl | hx
      · exact r1 _ (by simp)
      · rcases List.mem_append.mp hx with hx | hx
        · exact r1 _ (by simp [hx])
        · rw [List.mem_singleton.mp hx]; exact ⟨known', rest', hbs, hin⟩
    · unfold WSys.start at r2 ⊢
      obtain ⟨s, q1, q2⟩ := bind_ok.mp r2
      cases q2
      rw [q1]; rfl
    · have el : w0.later = later := by
        unfold WSys.start at r2
        obtain ⟨s, q1, q2⟩ := bind_ok.mp r2
        cases q2; rfl
      rw [el] at r4
      have := WSys.Steps.step r4 (.reconnect (ms := ms') (later := []) h1 h2 h3 (by show w.later ++ [ms'] = _; rw [h.last]; rfl))
      rw [show ({ w with conn := w.conn.reconnect, todo := ms' } : WSys) = { w with conn := w.conn.reconnect, todo := ms', later := [] } by rw [← h.last]]
      exact this

theorem servedInv_steps {num : Int} (hc : WsChain cfg n bs) {w0 w : WSys} (h0 : WSys.start cfg num [] [] = .ok w0)
    (hw : WSys.ServedSteps (Answers cfg num bs) C env o w0 w) : ∃ known rest ms, InTurn rest ms ∧ ServedInv C env o cfg num bs known rest ms w := by
  induction hw with
  | refl =>
    obtain ⟨segs, hp⟩ := pieces_exist hc
    have hin : InTurn bs [] := ⟨segs, hp, by simp⟩
    refine ⟨[], bs, [], hin, rfl, ?_, ⟨[], [], w0, by intro x hx; simp at hx; subst hx; exact ⟨[], bs, rfl, hin⟩, h0, .refl⟩, ?_⟩
    · unfold WSys.start at h0
      obtain ⟨s, q1, q2⟩ := bind_ok.mp h0
      cases q2
      exact ⟨⟨[], [], [], 0, rfl, rfl, rfl, fun b _ tb ts _ _ => WsInv.init tb ts (WConn.new num cfg.lastHash), Nat.zero_le _, rfl, rfl⟩, ⟨by simp [WConn.new], by simp [WConn.new]⟩⟩
    · unfold WSys.start at h0
      obtain ⟨s, q1, q2⟩ := bind_ok.mp h0
      cases q2; rfl
  | step hs hst ih =>
    obtain ⟨known, rest, ms, ⟨segs, hp, hms⟩, hinv⟩ := ih
    cases hst with
    | step h => exact ⟨known, rest, ms, ⟨segs, hp, hms⟩, hinv.step hc hp hms h⟩
    | connect h1 h2 h3 h4 =>
      obtain ⟨known', rest', hbs, hreq, hin⟩ := h4
      exact ⟨known', rest', _, hin, hinv.connect hc h1 h2 h3 hbs hreq hin⟩

/-- **C106**: a server answers each request of a consumer with the blocks after the position asked for, one after the other, and each connection may break at any point. Then the
consumer does not fault; at every moment the subscribers have seen an initial part of the chain, each block once, in order and exactly; and whenever the consumer has worked off what it read, what it would ask for
next is exactly what follows the block seen last. -/
theorem C106_served {num : Int} (hc : WsChain cfg n bs) {w0 w : WSys} (h0 : WSys.start cfg num [] [] = .ok w0) (hw : WSys.ServedSteps (Answers cfg num bs) C env o w0 w) :
    ¬ w.Faulting C env o ∧ ∃ seen, seen <+: bs ∧ WsSaw bs seen w.sys.omp.log ∧ (w.sys.Drained → w.conn.reconnect.request = tip num cfg.lastHash seen) := by
  obtain ⟨known, rest, ms, _, hinv⟩ := servedInv_steps hc h0 hw
  obtain ⟨first, later, w1, r1, r2, r3⟩ := hinv.run
  have hcar := turn_carried hc r1
  have hv := wsinv_steps hcar rfl r2 r3
  refine ⟨(wsys_progress hcar r2 (fun omp0 ds hn hds => ?_) r3).1, ?_⟩
  · obtain ⟨s, _, _, g, _⟩ := chain_orders (o := o) hc hn hds
    exact ⟨s, g⟩
  obtain ⟨seen, s1, s2, s3⟩ := chain_seen hc hcar hv
  refine ⟨seen, s1, s2, fun hd => ?_⟩
  obtain ⟨_, l0, l, j, _, e2, e3, _, _, e4, e5⟩ := hinv.turn.pos
  rw [s3 hd (known ++ rest.take j) ⟨rest.drop j, by rw [List.append_assoc, List.take_append_drop]; exact hinv.split.symm⟩
    (by rw [e2, handedHashes_append, e3, e4, List.map_append])]
  exact e5

/-- **C106**, the end: once a connection is not broken before it has brought all blocks after the position asked for, the subscribers have seen all of them when the consumer has come to rest. -/
theorem C106_all {num : Int} (hc : WsChain cfg n bs) {w0 w w2 : WSys} (h0 : WSys.start cfg num [] [] = .ok w0) (hw : WSys.ServedSteps (Answers cfg num bs) C env o w0 w) {ms : List WMsg}
    (h1 : w.sys.todo = [] ∧ w.sys.out = []) (h2 : w.todo = []) (hall : ∀ known rest, bs = known ++ rest → w.conn.reconnect.request = tip num cfg.lastHash known → AllInTurn rest ms)
    (hs : WSys.Steps C env o { w with conn := w.conn.reconnect, todo := ms } w2) (hstuck : ∀ w', ¬ WSys.Step C env o w2 w') : WsSaw bs bs w2.sys.omp.log := by
  obtain ⟨known, rest0, _, _, hinv⟩ := servedInv_steps hc h0 hw
  obtain ⟨_, _, _, j0, _, _, _, _, _, _, s3⟩ := hinv.turn.pos
  obtain ⟨seen, rest, hbs, s3⟩ : ∃ seen rest, seen ++ rest = bs ∧ w.conn.reconnect.request = tip num cfg.lastHash seen :=
    ⟨known ++ rest0.take j0, rest0.drop j0, by rw [List.append_assoc, List.take_append_drop]; exact hinv.split.symm, s3⟩
  obtain ⟨segs, hp, hms⟩ := hall seen rest hbs.symm s3
  have hmsp : ms.filter isBlockItem <+: segs.flatMap Prod.snd := by rw [hms]; exact List.prefix_refl _
  have hinv := hinv.connect hc h1.1 h1.2 h2 hbs.symm s3 ⟨segs, hp, hmsp⟩
  have hinv2 : ServedInv C env o cfg num bs seen rest ms w2 := by
    clear hstuck
    induction hs with
    | refl => exact hinv
    | step _ hst ih => exact ih.step hc hp hmsp hst
  obtain ⟨first, later, w1, r1, r2, r3⟩ := hinv2.run
  have hcar := turn_carried hc r1
  have hv := wsinv_steps hcar rfl r2 r3
  obtain ⟨hd, ht, _⟩ := ((wsys_progress hcar r2 (fun omp0 ds hn hds => by
    obtain ⟨s, _, _, g, _⟩ := chain_orders (o := o) hc hn hds
    exact ⟨s, g⟩) r3).2).resolve_left (fun ⟨w', hw'⟩ => hstuck w' hw')
  obtain ⟨seen', l0, l, j, e1, e2, e3, hi, hj, e4, e5⟩ := hinv2.turn.pos
  rw [ht, List.append_nil] at e1
  subst e1
  have hin : ∀ b ∈ rest, b.1.hash ∈ (rest.take j).map (·.1.hash) := by
    intro b hb
    rw [← hp.1] at hb
    obtain ⟨s, hs, rfl⟩ := List.mem_map.mp hb
    rw [← e4]
    refine handed_before hc hbs.symm hp hmsp hi hs ?_
    intro m hm
    have : m ∈ ms.filter isBlockItem := by rw [hms]; exact List.mem_flatMap.mpr ⟨s, hs, hm⟩
    exact (List.mem_filter.mp this).1
  have hjl : j = rest.length := by
    apply Classical.byContradiction
    intro hne
    have hlt : j < rest.length := by omega
    have hn := (List.nodup_cons.mp (List.nodup_cons.mp hc.hashes).2).2
    rw [← hbs, List.map_append] at hn
    have hn := (List.nodup_append.mp hn).2.1
    rw [← List.take_append_drop j rest, List.map_append] at hn
    refine (List.nodup_append.mp hn).2.2 _ (hin rest[j] (List.getElem_mem _)) _ (List.mem_map.mpr ⟨rest[j], ?_, rfl⟩) rfl
    exact List.mem_iff_getElem.mpr ⟨0, by simp; omega, by rw [List.getElem_drop]; rfl⟩
  rw [hjl, List.take_length] at e4
  obtain ⟨x, _, x2, x3⟩ := chain_seen hc hcar hv
  rw [x3 hd bs (List.prefix_refl _) (by rw [e2, handedHashes_append, e3, e4, ← List.map_append, hbs])] at x2
  exact x2

end

/-! ## Example: the first connection breaks in the middle of the second block -/

def exTBs : List WsArgs := [(exEA, exWS), (exWA2, exWS)]

theorem exT_two {P : WsArgs → Prop} (h1 : P (exEA, exWS)) (h2 : P (exWA2, exWS)) : ∀ b ∈ exTBs, P b := by
  intro b hb
  simp only [exTBs, List.mem_cons, List.not_mem_nil, or_false] at hb
  rcases hb with rfl | rfl
  · exact h1
  · exact h2

theorem exT_chain : WsChain exSysCfg 4 exTBs := by
  have h1 := exE_pre
  have h2 := exE_post
  refine ⟨exT_two (h1.textual _ (by simp)) (h2.textual _ (by simp)), exT_two (h1.number _ (by simp)) (h2.number _ (by simp)), exT_two (h1.ids _ (by simp)) (h2.ids _ (by simp)),
    exT_two (h1.agree _ (by simp)) (h2.agree _ (by simp)), ?_, exT_two (by decide) (by decide), ?_, ?_, ?_⟩
  · exact exT_two (exT_two (fun _ _ _ => rfl) (fun id h => absurd h (exE_noIds id))) (exT_two (fun id _ h => absurd h (exE_noIds id)) (fun _ _ _ => rfl))
  · exact ⟨rfl, rfl, show (200 : Int) < 300 by decide, rfl, rfl, show (300 : Int) < 310 by decide, trivial⟩
  · show [Hash.zero, exHash 2, exHash 1, exHash 3].Nodup; decide
  · intro s _ x hx; simp [exSysCfg, exCfg] at hx

/-- The second block as it comes live. -/
def exTLive : TBatch × (Hash → TSub) := wsMessages .rev .plain exWA2 exWS

/-- What the first connection brings: the first block from storage, `ready`, and of the second block the batch. -/
def exTFirst : List WMsg := [(exEStored (exEA, exWS)).json .plain, .ready, .batch exTLive.1]

theorem exT_first : InTurn exTBs exTFirst := by
  have h2 := exE_post
  obtain ⟨o, x, e, hx⟩ := exE_exact (exEA, exWS) (by simp)
  refine ⟨[((exEA, exWS), [(exEStored (exEA, exWS)).json .plain]), ((exWA2, exWS), .batch exTLive.1 :: (idsOf exTLive.1).map (fun id => .sub (exTLive.2 id)))], ⟨rfl, ?_⟩, ?_⟩
  · intro s hs
    simp only [List.mem_cons, List.not_mem_nil, or_false] at hs
    rcases hs with rfl | rfl
    · refine ⟨_, fun _ => ⟨Hash.zero, Hash.zero, GMap.empty, []⟩, [], hx.form (exE_pre.textual _ (by simp)) (exE_pre.number _ (by simp)) o .plain _, by rw [e]; rfl, by simp, ?_⟩
      intro id hid
      rw [idsOf_stored] at hid
      cases hid
    · refine ⟨_, _, _, .live .rev .plain (h2.textual _ (by simp)) (h2.number _ (by simp)) (h2.ids _ (by simp)) (h2.agree _ (by simp)), rfl, ?_, ?_⟩
      · intro m hm
        obtain ⟨id, hid, rfl⟩ := List.mem_map.mp hm
        exact ⟨id, hid, rfl⟩
      · intro id hid
        exact List.mem_map.mpr ⟨id, hid, rfl⟩
  · refine ⟨(idsOf exTLive.1).map (fun id => .sub (exTLive.2 id)), ?_⟩
    rw [List.flatMap_cons, List.flatMap_cons, List.flatMap_nil, List.append_nil]
    rfl

theorem allInTurn_exists {cfg : Config} {n : Int} {bs known rest : List WsArgs} (hc : WsChain cfg n bs) (hbs : bs = known ++ rest) : ∃ ms, AllInTurn rest ms := by
  obtain ⟨segs, h1, h2⟩ := pieces_exist hc
  refine ⟨(segs.drop known.length).flatMap Prod.snd, segs.drop known.length, ⟨?_, fun s hs => h2 s (List.mem_of_mem_drop hs)⟩, ?_⟩
  · rw [List.map_drop, h1, hbs, List.drop_left]
  · rw [List.filter_eq_self]
    intro m hm
    obtain ⟨s, hs, hm⟩ := List.mem_flatMap.mp hm
    obtain ⟨tb, ts, _, hpart, _⟩ := (h2 s (List.mem_of_mem_drop hs)).part
    cases hpart m hm <;> rfl

theorem served_of_steps {serve : Nat × Hash → List WMsg → Prop} {w0 w w' : WSys} (h : WSys.ServedSteps serve C env o w0 w) (hs : WSys.Steps C env o w w') :
    WSys.ServedSteps serve C env o w0 w' := by
  induction hs with
  | refl => exact h
  | step _ hst ih => exact .step ih (.step hst)

/-- C106: the hypotheses are met when the first connection breaks in the middle of the second block and another one is made. -/
example : ∃ w0 w1 w2 w3 ms, WSys.start exSysCfg 4 [] [] = .ok w0 ∧ w1 = { w0 with conn := w0.conn.reconnect, todo := exTFirst } ∧ WSys.Steps Avro.codec exEnv .plain w1 w2 ∧
    w2.todo = [] ∧ WSys.ServedSteps (Answers exSysCfg 4 exTBs) Avro.codec exEnv .plain w0 w2 ∧
    WSys.Steps Avro.codec exEnv .plain { w2 with conn := w2.conn.reconnect, todo := ms } w3 ∧ WsSaw exTBs exTBs w3.sys.omp.log := by
  obtain ⟨w0, h0⟩ : ∃ w0, WSys.start exSysCfg 4 [] [] = .ok w0 := ⟨_, rfl⟩
  have hq : w0.sys.todo = [] ∧ w0.sys.out = [] ∧ w0.todo = [] ∧ w0.conn.request = tip 4 exSysCfg.lastHash [] := by
    unfold WSys.start at h0
    obtain ⟨s, q1, q2⟩ := bind_ok.mp h0
    cases q2
    unfold Sys.start at q1
    obtain ⟨mp, p1, q1⟩ := bind_ok.mp q1
    obtain ⟨omp, p2, q1⟩ := bind_ok.mp q1
    cases q1
    exact ⟨rfl, rfl, rfl, rfl⟩
  have s1 : WSys.ServedSteps (Answers exSysCfg 4 exTBs) Avro.codec exEnv .plain w0 { w0 with conn := w0.conn.reconnect, todo := exTFirst } :=
    .step .refl (.connect hq.1 hq.2.1 hq.2.2.1 ⟨[], exTBs, rfl, hq.2.2.2, exT_first⟩)
  obtain ⟨w2, hw, hst⟩ := wsys_rests (C := Avro.codec) (env := exEnv) (o := .plain) { w0 with conn := w0.conn.reconnect, todo := exTFirst }
  have s2 := served_of_steps s1 hw
  obtain ⟨known, rest, _, _, hinv⟩ := servedInv_steps exT_chain h0 s2
  obtain ⟨first, later, w', r1, r2, r3⟩ := hinv.run
  obtain ⟨hd, ht, _⟩ := ((wsys_progress (turn_carried exT_chain r1) r2 (fun omp0 ds hn hds => by
    obtain ⟨s, _, _, g, _⟩ := chain_orders exT_chain hn hds
    exact ⟨s, g⟩) r3).2).resolve_left (fun ⟨w', hw'⟩ => hst w' hw')
  obtain ⟨seen, ⟨rest', hb⟩, _, hreq⟩ := (C106_served exT_chain h0 s2).2
  obtain ⟨ms, hms⟩ := allInTurn_exists exT_chain hb.symm
  obtain ⟨w3, hw3, hst3⟩ := wsys_rests (C := Avro.codec) (env := exEnv) (o := .plain) { w2 with conn := w2.conn.reconnect, todo := ms }
  refine ⟨w0, _, w2, w3, ms, h0, rfl, hw, ht, s2, hw3, C106_all exT_chain h0 s2 ⟨hd.1, hd.2.1⟩ ht ?_ hw3 hst3⟩
  intro k r e1 e2
  rw [(tip_inj exT_chain e1 hb.symm (e2.symm.trans (hreq hd))).2]
  exact hms

end Verif
