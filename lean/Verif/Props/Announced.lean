import Verif.Props.Waiter
import Verif.Props.ConsumerEx
import Verif.Props.Handed
/-! C135: what the message processor announces to the waiter. -/
namespace Verif

/-- The announcements among what was sent. -/
def Spec.annsOf (l : List MPOut) : List WaiterMsg := l.filterMap (fun
  | .waiter w => some w
  | _ => none)

/-- The announcement of a block: with its hash, parent, number and channel. -/
structure Spec.Names (w : WaiterMsg) (pb : PB) : Prop where
  hash : w.hash = pb.hash
  parent : w.parent = pb.parentHash
  number : w.number = pb.number
  channel : pb.waitCh = some w.waitCh

/-- Every block that was sent had been announced, and no two announcements and no two blocks have the same channel. -/
structure Spec.WellAnnounced (l : List MPOut) : Prop where
  before : ∀ a pb b, l = a ++ .batch pb :: b → ∃ w, w ∈ Spec.annsOf a ∧ Spec.Names w pb
  channels : ((Spec.annsOf l).map WaiterMsg.waitCh).Nodup
  blocks : (l.filterMap (fun | .batch pb => some pb.waitCh | _ => none)).Nodup

/-- The block comes from a header that was received, or was handed over complete. -/
def Spec.Origin (C : Codec) (cs : List Call) (w : WaiterMsg) : Prop :=
  (∃ m b, .msg m ∈ cs ∧ m.key.headD 0 = BatchType ∧ C.decBatch m.value = some b ∧ w.hash = hashOf m.key ∧ w.parent = b.parentHash ∧ w.number = b.number) ∨
  ∃ pb, .block pb ∈ cs ∧ w.hash = pb.hash ∧ w.parent = pb.parentHash ∧ w.number = pb.number

open Spec

variable {C : Codec} {env : Env}

theorem annsOf_append (a b : List MPOut) : annsOf (a ++ b) = annsOf a ++ annsOf b := by simp [annsOf]

/-- The channels of the blocks sent. -/
def sentChans (l : List MPOut) : List (Option Nat) := l.filterMap (fun | .batch pb => some pb.waitCh | _ => none)

theorem sentChans_append (a b : List MPOut) : sentChans (a ++ b) = sentChans a ++ sentChans b := by simp [sentChans]

/-- The invariant: channels are numbered in the order of the announcements, and every pending block has been announced. -/
structure AInv (G : WaiterMsg → Prop) (mp : MP) : Prop where
  chans : (annsOf mp.log).map WaiterMsg.waitCh = List.range mp.nextCh
  pend : ∀ h pb, mp.pendingBatches.get? h = some pb → ∃ w, w ∈ annsOf mp.log ∧ Names w pb
  before : ∀ a pb b, mp.log = a ++ .batch pb :: b → ∃ w, w ∈ annsOf a ∧ Names w pb
  blocks : (sentChans mp.log).Nodup
  apart : ∀ h pb, mp.pendingBatches.get? h = some pb → pb.waitCh ∉ sentChans mp.log
  origin : ∀ w, w ∈ annsOf mp.log → G w

variable {G : WaiterMsg → Prop}

/-- The log and the channels are untouched and the pending blocks are those from before, with the same heads. -/
theorem AInv.keep {mp mp' : MP} (h : AInv G mp) (hl : mp'.log = mp.log) (hn : mp'.nextCh = mp.nextCh)
    (hp : ∀ x pb, mp'.pendingBatches.get? x = some pb → ∃ pb0, mp.pendingBatches.get? x = some pb0 ∧ SameHead pb0 pb) : AInv G mp' := by
  refine ⟨by rw [hl, hn]; exact h.chans, fun x pb hx => ?_, by rw [hl]; exact h.before, by rw [hl]; exact h.blocks, fun x pb hx => ?_,
    by rw [hl]; exact h.origin⟩
  · obtain ⟨pb0, h0, hs⟩ := hp x pb hx
    obtain ⟨w, hw, n1, n2, n3, n4⟩ := h.pend x pb0 h0
    exact ⟨w, by rw [hl]; exact hw, by rw [hs.hash]; exact n1, by rw [hs.parentHash]; exact n2, by rw [hs.number]; exact n3, by rw [hs.waitCh]; exact n4⟩
  · obtain ⟨pb0, h0, hs⟩ := hp x pb hx
    rw [hl, hs.waitCh]
    exact h.apart x pb0 h0

theorem AInv.update {mp : MP} (h : AInv G mp) {hash : Hash} {pb pb' : PB} (hp : mp.pendingBatches.get? hash = some pb) (hh : SameHead pb pb') :
    AInv G { mp with pendingBatches := mp.pendingBatches.insert hash pb' } := by
  refine h.keep rfl rfl (fun x q hq => ?_)
  simp only [GMap.get?_insert] at hq
  split at hq
  · rename_i e; subst e; cases hq; exact ⟨pb, hp, hh⟩
  · exact ⟨q, hq, .refl q⟩

theorem eq_of_chan {l : List WaiterMsg} {w w' : WaiterMsg} (hn : (l.map WaiterMsg.waitCh).Nodup) (h : w ∈ l) (h' : w' ∈ l)
    (he : w.waitCh = w'.waitCh) : w = w' := by
  induction l with
  | nil => cases h
  | cons x l ih =>
    simp only [List.map_cons, List.nodup_cons, List.mem_map, not_exists, not_and] at hn
    rcases List.mem_cons.mp h with rfl | h1 <;> rcases List.mem_cons.mp h' with rfl | h2
    · rfl
    · exact absurd he.symm (hn.1 w' h2)
    · exact absurd he (hn.1 w h1)
    · exact ih hn.2 h1 h2

theorem AInv.nodup {mp : MP} (h : AInv G mp) : ((annsOf mp.log).map WaiterMsg.waitCh).Nodup := by rw [h.chans]; exact List.nodup_range

/-- Pending blocks have channels of their own. -/
theorem AInv.own {mp : MP} (h : AInv G mp) (hb : Base mp) {x y : Hash} {p q : PB} (hp : mp.pendingBatches.get? x = some p)
    (hq : mp.pendingBatches.get? y = some q) (he : p.waitCh = q.waitCh) : x = y := by
  obtain ⟨w, hw, n⟩ := h.pend x p hp
  obtain ⟨w', hw', n'⟩ := h.pend y q hq
  have : w.waitCh = w'.waitCh := by have := he; rw [n.channel, n'.channel] at this; exact Option.some.inj this
  have e := eq_of_chan h.nodup hw hw' this
  rw [← hb.hashes x p hp, ← hb.hashes y q hq, ← n.hash, ← n'.hash, e]

theorem append_last {α : Type} {l a b : List α} {x y : α} (h : l ++ [y] = a ++ x :: b) : (l = a ∧ x = y ∧ b = []) ∨ ∃ b', l = a ++ x :: b' ∧ b = b' ++ [y] := by
  rcases List.eq_nil_or_concat b with rfl | ⟨b', z, rfl⟩
  · have := List.append_inj' h rfl
    exact .inl ⟨this.1, by simpa using this.2.symm, rfl⟩
  · have h' : l ++ [y] = (a ++ x :: b') ++ [z] := by simpa using h
    have := List.append_inj' h' rfl
    refine .inr ⟨b', this.1, ?_⟩
    have : y = z := by simpa using this.2
    rw [this]; simp

theorem AInv.finish {mp : MP} (h : AInv G mp) (hb : Base mp) (hash : Hash) : AInv G (mp.finish hash) := by
  rcases finish_cases mp hash with ⟨he, _⟩ | ⟨pb, hp, hr, he⟩
  · rw [he]; exact h
  · rw [he]
    have ea : annsOf (mp.log ++ [MPOut.batch pb]) = annsOf mp.log := by simp [annsOf]
    have es : sentChans (mp.log ++ [MPOut.batch pb]) = sentChans mp.log ++ [pb.waitCh] := by simp [sentChans]
    refine ⟨by show (annsOf (mp.log ++ [MPOut.batch pb])).map _ = _; rw [ea]; exact h.chans, fun x q hq => ?_, fun a q b hl => ?_, ?_, fun x q hq => ?_, fun w hw => ?_⟩
    · simp only [GMap.get?_erase] at hq
      split at hq
      · cases hq
      · obtain ⟨w, hw, n⟩ := h.pend x q hq
        exact ⟨w, by show w ∈ annsOf (mp.log ++ [MPOut.batch pb]); rw [ea]; exact hw, n⟩
    · rcases append_last hl with ⟨h1, h2, _⟩ | ⟨b', h1, _⟩
      · cases h2; rw [← h1]; exact h.pend hash pb hp
      · exact h.before a q b' h1
    · show (sentChans (mp.log ++ [MPOut.batch pb])).Nodup
      rw [es, List.nodup_append]
      exact ⟨h.blocks, by simp, fun c hc d hd e => by simp only [List.mem_singleton] at hd; subst hd; subst e; exact h.apart hash pb hp hc⟩
    · simp only [GMap.get?_erase] at hq
      split at hq
      · cases hq
      · rename_i hne
        show _ ∉ sentChans (mp.log ++ [MPOut.batch pb])
        rw [es, List.mem_append, List.mem_singleton]
        rintro (e | e)
        · exact h.apart x q hq e
        · exact hne (h.own hb hp hq e.symm)
    · exact h.origin w (by rw [← ea]; exact hw)

theorem AInv.begin {mp : MP} (h : AInv G mp) (env : Env) (m : RMsg) (hl : (mp.begin env m).log = mp.log) : AInv G (mp.begin env m) :=
  h.keep hl (by have := begin_fields env mp m; simp only [this]) (fun _ pb hp => ⟨pb, begin_pending hp, .refl pb⟩)

/-- Sending an announcement on a new channel. -/
theorem annsOf_new (l : List MPOut) (w : WaiterMsg) : annsOf (l ++ [MPOut.waiter w]) = annsOf l ++ [w] := by simp [annsOf]

theorem AInv.add {mp : MP} (h : AInv G mp) (m : RMsg) (b : Batch)
    (hG : ∀ c, G ⟨hashOf m.key, b.parentHash, b.number, c⟩) : AInv G (mp.addHeader env m (hashOf m.key) b) := by
  have hd := headerPB_head env mp m (hashOf m.key) b
  have hn := newPB_head mp (hashOf m.key) b m
  have es : sentChans (mp.log ++ [MPOut.waiter ⟨hashOf m.key, b.parentHash, b.number, mp.nextCh⟩]) = sentChans mp.log := by simp [sentChans]
  have lt : ∀ w, w ∈ annsOf mp.log → w.waitCh < mp.nextCh := by
    intro w hw
    have : w.waitCh ∈ (annsOf mp.log).map WaiterMsg.waitCh := List.mem_map_of_mem hw
    rw [h.chans] at this
    exact List.mem_range.mp this
  refine ⟨?_, fun x q hq => ?_, fun a q c hl => ?_, ?_, fun x q hq => ?_, fun w hw => ?_⟩
  · simp only [MP.addHeader, annsOf_new, List.map_append, h.chans, List.map_cons, List.map_nil, List.range_succ]
  · simp only [MP.addHeader, GMap.get?_insert, annsOf_new] at hq ⊢
    split at hq
    · cases hq
      refine ⟨_, List.mem_append_right _ (List.mem_singleton_self _), ?_, ?_, ?_, ?_⟩
      · exact (hd.hash.trans hn.1).symm
      · exact (hd.parentHash.trans hn.2.2.1).symm
      · exact (hd.number.trans hn.2.1).symm
      · exact hd.waitCh.trans hn.2.2.2.2.2.1
    · obtain ⟨w, hw, n⟩ := h.pend x q hq
      exact ⟨w, List.mem_append_left _ hw, n⟩
  · rcases append_last hl with ⟨_, h2, _⟩ | ⟨b', h1, _⟩
    · cases h2
    · exact h.before a q b' h1
  · simp only [MP.addHeader, es]; exact h.blocks
  · simp only [MP.addHeader, GMap.get?_insert, es] at hq ⊢
    split at hq
    · cases hq
      have e : (List.foldl (PB.headerEntry mp.tracked) (newPB mp (hashOf m.key) b m) (env.order.ord (2 * mp.tick) b.updates.entries)).waitCh = some mp.nextCh :=
        hd.waitCh.trans hn.2.2.2.2.2.1
      rw [e]
      intro hc
      simp only [sentChans, List.mem_filterMap] at hc
      obtain ⟨x, hx, hxe⟩ := hc
      cases x with
      | waiter _ => cases hxe
      | reorg _ _ => cases hxe
      | batch pb =>
        simp only [Option.some.injEq] at hxe
        obtain ⟨a, c, hac⟩ := List.append_of_mem hx
        obtain ⟨w, hw, n⟩ := h.before a pb c hac
        have := lt w (by rw [hac, annsOf_append]; exact List.mem_append_left _ hw)
        rw [n.channel] at hxe
        have := Option.some.inj hxe
        omega
    · exact h.apart x q hq
  · simp only [MP.addHeader, annsOf_new, List.mem_append, List.mem_singleton] at hw
    rcases hw with hw | rfl
    · exact h.origin w hw
    · exact hG _

theorem AInv.complete {mp : MP} (h : AInv G mp) (pb : PB) (hw : pb.waitCh = none) (hG : ∀ c, G ⟨pb.hash, pb.parentHash, pb.number, c⟩) :
    AInv G (mp.processCompleteBatch pb) := by
  have lt : ∀ w, w ∈ annsOf mp.log → w.waitCh < mp.nextCh := by
    intro w hw
    have : w.waitCh ∈ (annsOf mp.log).map WaiterMsg.waitCh := List.mem_map_of_mem hw
    rw [h.chans] at this
    exact List.mem_range.mp this
  have ltb : ∀ c, some c ∈ sentChans mp.log → c < mp.nextCh := by
    intro c hc
    simp only [sentChans, List.mem_filterMap] at hc
    obtain ⟨x, hx, hxe⟩ := hc
    cases x with
    | waiter _ => cases hxe
    | reorg _ _ => cases hxe
    | batch q =>
      simp only [Option.some.injEq] at hxe
      obtain ⟨a, b, hab⟩ := List.append_of_mem hx
      obtain ⟨w, hw, n⟩ := h.before a q b hab
      have := lt w (by rw [hab, annsOf_append]; exact List.mem_append_left _ hw)
      rw [n.channel] at hxe
      have := Option.some.inj hxe
      omega
  have e : mp.processCompleteBatch pb = { mp with
      nextCh := mp.nextCh + 1
      log := (mp.log ++ [MPOut.waiter ⟨pb.hash, pb.parentHash, pb.number, mp.nextCh⟩]) ++ [MPOut.batch { pb with waitCh := some mp.nextCh }]
      lastEmittedNum := pb.number
      completed := (mp.completed.add pb.hash).1
      pendingBatches := mp.pendingBatches.erase pb.hash } := by
    unfold MP.processCompleteBatch; rw [hw]; simp
  rw [e]
  have ea : annsOf ((mp.log ++ [MPOut.waiter ⟨pb.hash, pb.parentHash, pb.number, mp.nextCh⟩]) ++ [MPOut.batch { pb with waitCh := some mp.nextCh }]) =
      annsOf mp.log ++ [⟨pb.hash, pb.parentHash, pb.number, mp.nextCh⟩] := by simp [annsOf]
  have es : sentChans ((mp.log ++ [MPOut.waiter ⟨pb.hash, pb.parentHash, pb.number, mp.nextCh⟩]) ++ [MPOut.batch { pb with waitCh := some mp.nextCh }]) =
      sentChans mp.log ++ [some mp.nextCh] := by simp [sentChans]
  have notin : some mp.nextCh ∉ sentChans mp.log := fun hc => by have := ltb _ hc; omega
  refine ⟨?_, fun x q hq => ?_, fun a q c hl => ?_, ?_, fun x q hq => ?_, fun w hw => ?_⟩
  · simp only [ea, List.map_append, h.chans, List.map_cons, List.map_nil, List.range_succ]
  · simp only [GMap.get?_erase] at hq
    split at hq
    · cases hq
    · obtain ⟨w, hw, n⟩ := h.pend x q hq
      exact ⟨w, by simp only [ea]; exact List.mem_append_left _ hw, n⟩
  · simp only at hl
    rcases append_last hl with ⟨h1, h2, _⟩ | ⟨b', h1, _⟩
    · cases h2
      rw [← h1, annsOf_new]
      exact ⟨_, List.mem_append_right _ (List.mem_singleton_self _), rfl, rfl, rfl, rfl⟩
    · rcases append_last h1 with ⟨_, h3, _⟩ | ⟨b'', h3, _⟩
      · cases h3
      · exact h.before a q b'' h3
  · simp only [es]
    rw [List.nodup_append]
    exact ⟨h.blocks, by simp, fun c hc d hd e => by simp only [List.mem_singleton] at hd; subst hd; subst e; exact notin hc⟩
  · simp only [es]
    simp only [GMap.get?_erase] at hq
    split at hq
    · cases hq
    · rw [List.mem_append, List.mem_singleton]
      rintro (e' | e')
      · exact h.apart x q hq e'
      · obtain ⟨w, hw, n⟩ := h.pend x q hq
        have := lt w hw
        rw [n.channel] at e'
        have := Option.some.inj e'
        omega
  · simp only [ea, List.mem_append, List.mem_singleton] at hw
    rcases hw with hw | rfl
    · exact h.origin w hw
    · exact hG _

theorem ainv_parts (C : Codec) (env : Env) (G : WaiterMsg → Prop) : XParts C env true
    (fun m => m.key.headD 0 = BatchType → ∀ b, C.decBatch m.value = some b → ∀ c, G ⟨hashOf m.key, b.parentHash, b.number, c⟩) (AInv G) where
  begin mp m _ _ h := h.begin env m (begin_fields env mp m).2.2.1
  short := .inl rfl
  reorg mp m _ _ h _ := by
    unfold MP.onReorg
    simp only []
    split
    · exact h.keep rfl rfl (fun _ pb hp => ⟨pb, hp, .refl pb⟩)
    · rename_i num _
      have ea : annsOf (mp.log ++ [MPOut.reorg num (hashOf m.key)]) = annsOf mp.log := by simp [annsOf]
      have es : sentChans (mp.log ++ [MPOut.reorg num (hashOf m.key)]) = sentChans mp.log := by simp [sentChans]
      refine ⟨by simp only [ea]; exact h.chans, by simp only [ea]; exact h.pend, fun a q b hl => ?_, by simp only [es]; exact h.blocks, by simp only [es]; exact h.apart,
        by simp only [ea]; exact h.origin⟩
      rcases append_last hl with ⟨_, h2, _⟩ | ⟨b', h1, _⟩
      · cases h2
      · exact h.before a q b' h1
  add mp m b hQ _ h ht _ _ hd _ := h.add m b (hQ ht b hd)
  sub mp m _ hb h hqt _ _ _ := by
    unfold MP.onSubHeader
    split
    · exact h.keep rfl rfl (fun _ pb hp => ⟨pb, hp, .refl pb⟩)
    · rename_i pb hp
      simp only []
      split
      · exact h
      · split
        · exact h.update hp ⟨rfl, rfl, rfl, rfl, rfl, rfl, rfl⟩
        · split
          · rfl
          · rename_i pb' hpb
            exact (h.update hp (sameHead_addSub hpb)).finish (hb.update hp (sameHead_addSub hpb).hash) _
  other mp m _ hb h hqt _ _ _ := by
    unfold MP.onOther
    split
    · exact h.keep rfl rfl (fun _ pb hp => ⟨pb, hp, .refl pb⟩)
    · rename_i pb hp
      split
      · rfl
      · rename_i pb' _ hpb
        exact (h.update hp (sameHead_apply hpb)).finish (hb.update hp (sameHead_apply hpb).hash) _
  queued mp m q e _ _ hb h hq he := fun ht => absurd ht (hb.queue _ _ _ hq he).1.2
  drop mp m _ _ _ h := h.keep rfl rfl (fun _ pb hp => ⟨pb, hp, .refl pb⟩)
  finish mp m _ _ hb h := h.finish hb _

theorem AInv.newMP {cfg : Config} {mp : MP} (h : newMP cfg = .ok mp) : AInv G mp := by
  unfold Verif.newMP at h
  split at h
  · cases h
  · simp at h; subst h
    refine ⟨rfl, fun x pb hp => by simp [GMap.get?, GMap.empty, GMap.look] at hp, fun a pb b hl => ?_, List.nodup_nil, fun x pb hp => by simp [GMap.get?, GMap.empty, GMap.look] at hp,
      fun w hw => by cases hw⟩
    simp at hl

theorem calls_ainv {cfg : Config} {mp0 mp : MP} {cs : List Call} (h0 : newMP cfg = .ok mp0) (hc : mp0.calls C env cs = .ok mp)
    (hw : ∀ pb, .block pb ∈ cs → pb.waitCh = none) : AInv (Origin C cs) mp := by
  have := (ainv_parts C env (Origin C cs)).toParts.calls (R := fun pb => .block pb ∈ cs)
    (fun mp pb hm h => ⟨h.1.complete pb, h.2.complete pb (hw pb hm) (fun c => .inr ⟨pb, hm, rfl, rfl, rfl⟩)⟩)
    (fun m hm ht b hd c => .inl ⟨m, b, hm, ht, hd, rfl, rfl, rfl⟩) (fun pb hm => hm) ⟨Base.newMP h0, AInv.newMP h0⟩ hc
  exact this.2

/-- **C135**: whatever messages arrive and whatever blocks are handed over, every block that the message processor sends has been announced before with its hash, parent, number and
channel, and no two announcements and no two blocks share a channel. -/
theorem C135_announced {cfg : Config} {mp0 mp : MP} {cs : List Call} (h0 : newMP cfg = .ok mp0) (hc : mp0.calls C env cs = .ok mp)
    (hw : ∀ pb, .block pb ∈ cs → pb.waitCh = none) : WellAnnounced mp.log :=
  let h := calls_ainv h0 hc hw
  ⟨h.before, h.nodup, h.blocks⟩

/-- **C135**, what is announced: a block whose header was received, or one that was handed over. -/
theorem C135_origin {cfg : Config} {mp0 mp : MP} {cs : List Call} (h0 : newMP cfg = .ok mp0) (hc : mp0.calls C env cs = .ok mp)
    (hw : ∀ pb, .block pb ∈ cs → pb.waitCh = none) : ∀ w, w ∈ annsOf mp.log → Origin C cs w := (calls_ainv h0 hc hw).origin

/-- **C135**, blocks not yet complete have been announced as well. -/
theorem C135_pending {cfg : Config} {mp0 mp : MP} {cs : List Call} (h0 : newMP cfg = .ok mp0) (hc : mp0.calls C env cs = .ok mp)
    (hw : ∀ pb, .block pb ∈ cs → pb.waitCh = none) {h : Hash} {pb : PB} (hp : mp.pendingBatches.get? h = some pb) :
    pb.hash = h ∧ ∃ w, w ∈ annsOf mp.log ∧ Names w pb :=
  ⟨(Base.calls (Base.newMP h0) hc).hashes h pb hp, (calls_ainv h0 hc hw).pend h pb hp⟩

/-- The waiter's blocks after the announcements. -/
theorem ws_anns (l : List WaiterMsg) (hl : l.map WaiterMsg.waitCh = List.range l.length) : ∃ s : WS, WS.Reach s ∧ s.next = l.length ∧ s.nextBlock = l.length ∧
    s.stopped = false ∧ s.anns.map (fun a => (a.hash, a.number, a.ch)) = l.map (fun w => (w.hash, w.number, w.waitCh)) ∧ s.queue = s.anns ∧
    ∀ w ∈ l, ∃ b, b < s.nextBlock ∧ s.block b = ⟨w.hash, w.number, some w.waitCh⟩ := by
  suffices H : ∀ n, n ≤ l.length → ∃ s : WS, WS.Reach s ∧ s.next = n ∧ s.nextBlock = n ∧ s.stopped = false ∧
      s.anns.map (fun a => (a.hash, a.number, a.ch)) = (l.take n).map (fun w => (w.hash, w.number, w.waitCh)) ∧ s.queue = s.anns ∧
      ∀ w ∈ l.take n, ∃ b, b < s.nextBlock ∧ s.block b = ⟨w.hash, w.number, some w.waitCh⟩ by
    obtain ⟨s, hs⟩ := H l.length (Nat.le_refl _)
    rw [List.take_length] at hs
    exact ⟨s, hs⟩
  intro n
  induction n with
  | zero => intro _; exact ⟨.init, .init, rfl, rfl, rfl, rfl, rfl, fun w hw => by simp at hw⟩
  | succ n ih =>
    intro hn
    obtain ⟨s, h1, h2, h3, h4, h5, h6, h7⟩ := ih (by omega)
    have hlt : n < l.length := by omega
    have hch : l[n].waitCh = n := by
      have e : (l.map WaiterMsg.waitCh)[n]? = (List.range l.length)[n]? := by rw [hl]
      simp only [List.getElem?_map, List.getElem?_eq_getElem hlt, Option.map_some, List.getElem?_range hlt, Option.some.injEq] at e
      exact e
    refine ⟨_, .step h1 (.newBlock (h := l[n].hash) (n := l[n].number)), ?_, ?_, h4, ?_, ?_, ?_⟩
    · simp only [WS.newBlock, WS.send, h2]
    · simp only [WS.newBlock, WS.send, h3]
    · rw [List.take_add_one, List.getElem?_eq_getElem hlt]
      simp only [WS.newBlock, WS.send, WS.setBlock, List.map_append, h5, List.map_cons, List.map_nil, h2, Option.toList_some, hch]
    · simp only [WS.newBlock, WS.send, WS.setBlock, h4, h6, Bool.false_eq_true, if_false]
    · intro w hw
      rw [List.take_add_one, List.getElem?_eq_getElem hlt] at hw
      simp only [Option.toList_some, List.mem_append, List.mem_singleton] at hw
      rcases hw with hw | rfl
      · obtain ⟨b, hb, he⟩ := h7 w hw
        refine ⟨b, by simp only [WS.newBlock, WS.send, WS.setBlock]; omega, ?_⟩
        simp only [WS.newBlock, WS.send, WS.setBlock]
        rw [if_neg (by omega)]
        exact he
      · refine ⟨s.nextBlock, by simp only [WS.newBlock, WS.send, WS.setBlock]; omega, ?_⟩
        simp only [WS.newBlock, WS.send, WS.setBlock, if_true, h2, hch]

/-- **C135**, the waiter: the announcements made are ones that the model of the waiter covers, the blocks sent are blocks of that model with their channels open, so that what is proved of
the waiter (C55 to C57, C134) is proved of these. -/
theorem C135_waiter {cfg : Config} {mp0 mp : MP} {cs : List Call} (h0 : newMP cfg = .ok mp0) (hc : mp0.calls C env cs = .ok mp)
    (hw : ∀ pb, .block pb ∈ cs → pb.waitCh = none) :
    ∃ s : WS, WS.Reach s ∧ s.queue = s.anns ∧ s.anns.map (fun a => (a.hash, a.number, a.ch)) = (annsOf mp.log).map (fun w => (w.hash, w.number, w.waitCh)) ∧
      ∀ pb, pb ∈ mp.emitted → ∃ b, b < s.nextBlock ∧ s.block b = ⟨pb.hash, pb.number, pb.waitCh⟩ := by
  have h := calls_ainv h0 hc hw
  have hlen : mp.nextCh = (annsOf mp.log).length := by
    have := congrArg List.length h.chans
    simpa using this.symm
  obtain ⟨s, h1, _, _, _, h5, h6, h7⟩ := ws_anns (annsOf mp.log) (by rw [h.chans, hlen])
  refine ⟨s, h1, h6, h5, fun pb hpb => ?_⟩
  simp only [MP.emitted, List.mem_filterMap] at hpb
  obtain ⟨x, hx, hxe⟩ := hpb
  cases x with
  | waiter _ => cases hxe
  | reorg _ _ => cases hxe
  | batch q =>
    cases hxe
    obtain ⟨a, b, hab⟩ := List.append_of_mem hx
    obtain ⟨w, hw, n⟩ := h.before a pb b hab
    obtain ⟨i, hi, he⟩ := h7 w (by rw [hab, annsOf_append]; exact List.mem_append_left _ hw)
    exact ⟨i, hi, by rw [he, n.hash, n.number, n.channel]⟩

/-- C135: half of the messages of a block, another block, the rest of the messages; three announcements (the second block is handed over twice) and three blocks. -/
example : ∃ mp, exMP.calls Avro.codec exEnv ((exStream.take 5).map Call.msg ++ [.block (exWhole 11), .block (exWhole 11)] ++ exStream.map Call.msg) = .ok mp ∧
    (((annsOf mp.log).map (fun w => (w.hash, w.waitCh)) == [(exHash 1, 0), (exHash 11, 1), (exHash 11, 2)]) &&
      (mp.emitted.map (fun pb => (pb.hash, pb.waitCh)) == [(exHash 11, some 1), (exHash 11, some 2), (exHash 1, some 0)])) = true :=
  ex_ok (fun mp : MP => ((annsOf mp.log).map (fun w => (w.hash, w.waitCh)) == [(exHash 1, 0), (exHash 11, 1), (exHash 11, 2)]) &&
      (mp.emitted.map (fun pb => (pb.hash, pb.waitCh)) == [(exHash 11, some 1), (exHash 11, some 2), (exHash 1, some 0)])) (by decide +kernel)

example : ∀ pb, Call.block pb ∈ ((exStream.take 5).map Call.msg ++ [.block (exWhole 11), .block (exWhole 11)] ++ exStream.map Call.msg) → pb.waitCh = none := by
  intro pb h
  simp only [List.mem_append, List.mem_map, List.mem_cons, List.not_mem_nil, or_false, reduceCtorEq, and_false, exists_false, false_or, Call.block.injEq, or_self] at h
  rw [h]; rfl

end Verif
