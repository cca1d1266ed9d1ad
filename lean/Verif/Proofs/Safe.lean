import Verif.Proofs.ConsumerBase
import Verif.Proofs.Path
import Verif.Spec.Safe
/-! Well-formed messages cannot make the consumer panic or hang. -/
namespace Verif
open Spec

/-- Pending batch of block `h` whose sub-batches have the announced sizes. -/
structure PBSafe (C : Codec) (n : Hash → Hash → Nat) (h : Hash) (pb : PB) : Prop where
  frp : pb.frp = false
  bits : ∀ id l, pb.batches.get? id = some l → l.length = n h id
  msgs : ∀ k m, pb.pendingMessages.get? k = some m → WellFormedMsg C n m ∧ hashOf m.key = h

theorem PBSafe.of_eq {C : Codec} {n : Hash → Hash → Nat} {h : Hash} {pb pb' : PB} (hs : PBSafe C n h pb)
    (h1 : pb'.frp = pb.frp) (h2 : pb'.batches = pb.batches) (h3 : pb'.pendingMessages = pb.pendingMessages) :
    PBSafe C n h pb' := ⟨by rw [h1]; exact hs.frp, by rw [h2]; exact hs.bits, by rw [h3]; exact hs.msgs⟩

theorem PBSafe.pend {C : Codec} {n : Hash → Hash → Nat} {h : Hash} {pb : PB} (hs : PBSafe C n h pb) {m : RMsg}
    (hm : WellFormedMsg C n m) (hh : hashOf m.key = h) :
    PBSafe C n h { pb with pendingMessages := pb.pendingMessages.insert m.key m } := by
  refine ⟨hs.frp, hs.bits, ?_⟩
  intro k m' hk
  simp only [GMap.get?_insert] at hk
  split at hk
  · cases hk; exact ⟨hm, hh⟩
  · exact hs.msgs k m' hk

theorem decPrefix_safe {prefixes : GMap GoStr Int} {p : GoStr} (h : Relative p) :
    ∃ r, decPrefix false prefixes p = .ok r := by
  have key : ∃ r, decPrefixLoop false prefixes (p.length + 2) p = .ok r := by
    have h1 := decPrefixLoop_relative false prefixes (p.length + 2) p h (by omega)
    have h2 : ∀ fuel d, decPrefixLoop false prefixes fuel d ≠ .error .panic := by
      intro fuel
      induction fuel with
      | zero => intro d; simp [decPrefixLoop]
      | succ n ih =>
        intro d
        unfold decPrefixLoop
        split
        · simp
        · simp only []
          split
          · split
            · simp
            · simp only [Bool.false_eq_true, and_false, if_false]; exact ih _
          · exact ih _
    match hr : decPrefixLoop false prefixes (p.length + 2) p with
    | .ok r => exact ⟨r, rfl⟩
    | .error .panic => exact absurd hr (h2 _ _)
    | .error .hang => exact absurd hr h1
  unfold decPrefix
  split
  · split
    · exact ⟨_, rfl⟩
    · exact key
  · exact key

theorem apply_safe {C : Codec} {n : Hash → Hash → Nat} {h : Hash} {pb : PB} (hs : PBSafe C n h pb) {m : RMsg}
    (hm : WellFormedMsg C n m) (hh : hashOf m.key = h) :
    ∃ pb' r, pb.applyMessage C m = .ok (pb', r) ∧ PBSafe C n h pb' := by
  unfold PB.applyMessage
  have hs0 : PBSafe C n h (pb.updateResumption m.source m.offset) := by
    obtain ⟨r, hr⟩ := PB.updateResumption_eq pb m.source m.offset
    rw [hr]; exact hs.of_eq rfl rfl rfl
  generalize pb.updateResumption m.source m.offset = pb0 at hs0
  simp only []
  split
  · rename_i hk; have := hm.len; rw [hk] at this; simp at this
  · rename_i t rest hk
    have hhead : ∀ x, t = x → m.key.head? = some x := by rintro x rfl; rw [hk]; rfl
    split
    · rename_i ht
      unfold PB.applySubBatchMsg
      have h65 := hm.subLen (hhead _ ht)
      rw [if_neg (by omega)]
      simp only []
      split
      · exact ⟨_, _, rfl, hs0⟩
      · rename_i idx hidx
        have hb := hm.subIdx (hhead _ ht) idx hidx
        split
        · exact ⟨_, _, rfl, hs0.pend hm hh⟩
        · rename_i bits hbits
          have hlen := hs0.bits _ _ hbits
          have hb' : 0 ≤ idx ∧ idx < n h (bytesToHash ((m.key.drop 33).take 32)) := by rw [← hh]; exact hb
          rw [if_neg (by omega)]
          split
          · exact ⟨_, _, rfl, hs0⟩
          · split
            · exact ⟨_, _, rfl, hs0⟩
            · refine ⟨_, _, rfl, hs0.frp, ?_, hs0.msgs⟩
              intro id l hl
              simp only [GMap.get?_insert] at hl
              split at hl
              · rename_i e; subst e; cases hl; simp [setTrue, hlen]
              · exact hs0.bits _ _ hl
    · split
      · rename_i ht
        obtain ⟨r, hr'⟩ := decPrefix_safe (prefixes := pb0.prefixes) (hm.path (.inl (hhead _ ht)))
        have hr : decPrefix pb0.frp pb0.prefixes (m.key.drop 33) = .ok r := by rw [hs0.frp]; exact hr'
        unfold PB.applyBatchMsg
        simp only []
        split
        · exact ⟨_, _, rfl, hs0⟩
        · rw [hr]
          obtain ⟨ps, b⟩ := r
          cases b
          · exact ⟨_, _, rfl, hs0.pend hm hh⟩
          · exact ⟨_, _, rfl, hs0.of_eq rfl rfl rfl⟩
      · split
        · rename_i ht
          obtain ⟨r, hr'⟩ := decPrefix_safe (prefixes := pb0.prefixes) (hm.path (.inr (hhead _ ht)))
          have hr : decPrefix pb0.frp pb0.prefixes (m.key.drop 33) = .ok r := by rw [hs0.frp]; exact hr'
          unfold PB.applyDeleteMsg
          simp only []
          split
          · exact ⟨_, _, rfl, hs0⟩
          · rw [hr]
            obtain ⟨ps, b⟩ := r
            cases b
            · exact ⟨_, _, rfl, hs0.pend hm hh⟩
            · exact ⟨_, _, rfl, hs0.of_eq rfl rfl rfl⟩
        · exact ⟨_, _, rfl, hs0⟩

theorem drain_safe {C : Codec} {n : Hash → Hash → Nat} {h : Hash} {pb : PB} (hs : PBSafe C n h pb)
    {l : List (Bytes × RMsg)} (hl : ∀ e ∈ l, WellFormedMsg C n e.2 ∧ hashOf e.2.key = h) :
    ∃ pb', PB.drain C pb l = .ok pb' ∧ PBSafe C n h pb' := by
  induction l generalizing pb with
  | nil => exact ⟨pb, rfl, hs⟩
  | cons e l ih =>
    obtain ⟨k, m⟩ := e
    obtain ⟨h1, h2⟩ := hl (k, m) (by simp)
    obtain ⟨pb1, r, ha, hs1⟩ := apply_safe hs h1 h2
    simp only [PB.drain, ha]
    cases r
    · exact ih hs1 (fun e he => hl e (by simp [he]))
    · refine ih ⟨hs1.frp, hs1.bits, ?_⟩ (fun e he => hl e (by simp [he]))
      intro k' m' hk
      simp only [GMap.get?_erase] at hk
      split at hk
      · simp at hk
      · exact hs1.msgs _ _ hk

theorem addSub_safe {C : Codec} {env : Env} {t : Nat} {n : Hash → Hash → Nat} {h : Hash} {pb : PB} (hs : PBSafe C n h pb)
    {m : RMsg} {id : Hash} : ∃ pb', pb.addSubHeader C env t m id (n h id) = .ok pb' ∧ PBSafe C n h pb' := by
  unfold PB.addSubHeader
  rw [if_neg (by omega)]
  simp only []
  have hs1 : PBSafe C n h (PB.updateResumption
      { pb with
        pendingBatches := pb.pendingBatches.erase id
        batches := pb.batches.insert id (List.replicate (n h id : Int).toNat false) } m.source m.offset) := by
    obtain ⟨r, hr⟩ := PB.updateResumption_eq { pb with
        pendingBatches := pb.pendingBatches.erase id
        batches := pb.batches.insert id (List.replicate (n h id : Int).toNat false) } m.source m.offset
    rw [hr]
    refine ⟨hs.frp, ?_, hs.msgs⟩
    intro id' l hl
    simp only [GMap.get?_insert] at hl
    split at hl
    · rename_i e; subst e; cases hl; simp
    · exact hs.bits _ _ hl
  refine drain_safe hs1 ?_
  intro e he
  exact hs1.msgs e.1 e.2 ((GMap.get?_eq_some_iff _).mpr ((env.order.perm _ _).mem_iff.mp he))

theorem headerPB_fields (env : Env) (mp : MP) (m : RMsg) (hash : Hash) (b : Batch) :
    (headerPB env mp m hash b).batches = GMap.empty ∧ (headerPB env mp m hash b).pendingMessages = GMap.empty ∧
    ∃ r, (headerPB env mp m hash b).resumption = r ∧ r = (newPB mp hash b m).resumption := by
  unfold headerPB
  have h0 : (newPB mp hash b m).batches = GMap.empty ∧ (newPB mp hash b m).pendingMessages = GMap.empty := by
    unfold newPB
    obtain ⟨r, hr⟩ := PB.updateResumption_eq
      { number := b.number, weight := bytesNat b.weight, parentHash := b.parentHash, hash := hash, values := GMap.empty,
        deletes := GMap.empty, prefixes := GMap.empty, batches := GMap.empty, pendingBatches := GMap.empty,
        pendingMessages := GMap.empty, resumption := GMap.empty, resumptionDefaults := mp.resumption,
        waitCh := some mp.nextCh, frp := mp.frp } m.source m.offset
    rw [hr]; exact ⟨rfl, rfl⟩
  have hstep : ∀ (pb : PB) e, (pb.headerEntry mp.tracked e).batches = pb.batches ∧
      (pb.headerEntry mp.tracked e).pendingMessages = pb.pendingMessages ∧
      (pb.headerEntry mp.tracked e).resumption = pb.resumption := by
    intro pb e
    unfold PB.headerEntry
    split
    · exact ⟨rfl, rfl, rfl⟩
    · simp only []; split <;> split <;> split <;> split <;> exact ⟨rfl, rfl, rfl⟩
  have hfold : ∀ (l : List (GoStr × BatchRecord)) (pb : PB), (l.foldl (PB.headerEntry mp.tracked) pb).batches = pb.batches ∧
      (l.foldl (PB.headerEntry mp.tracked) pb).pendingMessages = pb.pendingMessages ∧
      (l.foldl (PB.headerEntry mp.tracked) pb).resumption = pb.resumption := by
    intro l
    induction l with
    | nil => intro pb; exact ⟨rfl, rfl, rfl⟩
    | cons e l ih =>
      intro pb
      rw [List.foldl_cons]
      have := hstep pb e
      have := ih (pb.headerEntry mp.tracked e)
      simp_all
  have := hfold (env.order.ord (2 * mp.tick) b.updates.entries) (newPB mp hash b m)
  refine ⟨this.1.trans h0.1, this.2.1.trans h0.2, _, rfl, this.2.2⟩

/-- The safety invariant of the processor. -/
structure MPSafe (C : Codec) (n : Hash → Hash → Nat) (mp : MP) : Prop where
  frp : mp.frp = false
  pbs : ∀ h pb, mp.pendingBatches.get? h = some pb → PBSafe C n h pb
  msgs : ∀ h q e, mp.pendingMessages.get? h = some q → e ∈ q.entries → WellFormedMsg C n e.2

theorem MPSafe.update {C : Codec} {n : Hash → Hash → Nat} {mp : MP} (h : MPSafe C n mp) {hash : Hash} {pb : PB}
    (hp : PBSafe C n hash pb) : MPSafe C n { mp with pendingBatches := mp.pendingBatches.insert hash pb } := by
  refine ⟨h.frp, ?_, h.msgs⟩
  intro x q hq
  simp only [GMap.get?_insert] at hq
  split at hq
  · rename_i e; subst e; cases hq; exact hp
  · exact h.pbs _ _ hq

theorem MPSafe.finish {C : Codec} {n : Hash → Hash → Nat} {mp : MP} (h : MPSafe C n mp) (hash : Hash) :
    MPSafe C n (mp.finish hash) := by
  rcases finish_cases mp hash with ⟨he, _⟩ | ⟨pb, hp, hr, he⟩
  · rw [he]; exact h
  · rw [he]
    refine ⟨h.frp, ?_, h.msgs⟩
    intro x q hq
    simp only [GMap.get?_erase] at hq
    split at hq
    · simp at hq
    · exact h.pbs _ _ hq

theorem MPSafe.queueMessage {C : Codec} {n : Hash → Hash → Nat} {mp : MP} (h : MPSafe C n mp) {m : RMsg}
    (hm : WellFormedMsg C n m) (hash : Hash) : MPSafe C n (mp.queueMessage hash m) := by
  refine ⟨h.frp, h.pbs, ?_⟩
  intro x q e hx he
  simp only [MP.queueMessage, GMap.get?_insert] at hx
  split at hx
  · cases hx
    have hg := (GMap.get?_eq_some_iff _).mpr he
    rw [GMap.get?_insert] at hg
    split at hg
    · cases hg; exact hm
    · cases hpm : mp.pendingMessages.get? hash with
      | none => rw [hpm] at hg; simp [GMap.get?, GMap.empty, GMap.look] at hg
      | some q0 => rw [hpm] at hg; exact h.msgs _ q0 e hpm ((GMap.get?_eq_some_iff _).mp hg)
  · exact h.msgs _ q e hx he

theorem safe_parts (C : Codec) (env : Env) (n : Hash → Hash → Nat) :
    XParts C env false (WellFormedMsg C n) (MPSafe C n) where
  begin mp m _ _ h := by
    have hf := begin_fields env mp m
    refine ⟨by rw [hf.2.2.2.2.1]; exact h.frp, ?_, by rw [hf.2.1]; exact h.msgs⟩
    intro x pb hp; exact h.pbs _ _ (begin_pending hp)
  short := .inr fun m hm => by have := hm.len; omega
  reorg mp m _ _ h _ := by
    unfold MP.onReorg
    simp only []
    split
    · exact ⟨h.frp, h.pbs, h.msgs⟩
    · exact ⟨h.frp, h.pbs, h.msgs⟩
  add mp m b _ _ h _ _ _ _ _ := by
    have hp : PBSafe C n (hashOf m.key) (headerPB env mp m (hashOf m.key) b) := by
      have hf := headerPB_fields env mp m (hashOf m.key) b
      refine ⟨?_, ?_, ?_⟩
      · rw [(headerPB_head env mp m (hashOf m.key) b).frp, (newPB_head mp (hashOf m.key) b m).2.2.2.2.1]; exact h.frp
      · rw [hf.1]; intro id l hl; simp [GMap.get?, GMap.empty, GMap.look] at hl
      · rw [hf.2.1]; intro id l hl; simp [GMap.get?, GMap.empty, GMap.look] at hl
    have := h.update hp
    exact ⟨this.frp, this.pbs, this.msgs⟩
  sub mp m hm _ h hqt _ _ ht := by
    unfold MP.onSubHeader
    split
    · exact h.queueMessage hm _
    · rename_i pb hp
      have hs := h.pbs _ _ hp
      simp only []
      split
      · exact h
      · split
        · exact h.update (hs.of_eq rfl rfl rfl)
        · rename_i c hc
          have hhead : m.key.head? = some 1 := by
            have := hm.len
            cases hk : m.key with
            | nil => rw [hk] at this; simp at this
            | cons t r => rw [hk] at ht; simpa [SubBatchHeaderType] using ht
          have hcn := hm.header hhead c hc
          obtain ⟨pb', hpb', hs'⟩ := addSub_safe (C := C) (env := env) (t := mp.tick) hs (m := m)
            (id := bytesToHash (m.key.drop 33))
          have hcn' : c = n (hashOf m.key) (bytesToHash (m.key.drop 33)) := hcn
          rw [hcn', hpb']
          exact (h.update hs').finish _
  other mp m hm _ h hqt _ _ _ := by
    unfold MP.onOther
    split
    · exact h.queueMessage hm _
    · rename_i pb hp
      obtain ⟨pb', r, ha, hs'⟩ := apply_safe (h.pbs _ _ hp) hm rfl
      rw [ha]
      exact (h.update hs').finish _
  queued mp m q e _ _ _ h hq he := h.msgs _ _ _ hq he
  drop mp m _ _ _ h := by
    refine ⟨h.frp, h.pbs, ?_⟩
    intro x q e hx he
    simp only [GMap.get?_erase] at hx
    split at hx
    · simp at hx
    · exact h.msgs _ _ _ hx he
  finish mp m _ _ _ h := h.finish _

theorem MPSafe.newMP {C : Codec} {n : Hash → Hash → Nat} {cfg : Config} {mp : MP} (h : newMP cfg = .ok mp)
    (hf : cfg.frp = false) : MPSafe C n mp := by
  unfold Verif.newMP at h
  split at h
  · simp at h
  · simp at h; subst h
    exact ⟨hf, by intro h pb hp; simp [GMap.get?, GMap.empty, GMap.look] at hp,
      by intro h q e hp; simp [GMap.get?, GMap.empty, GMap.look] at hp⟩

end Verif
