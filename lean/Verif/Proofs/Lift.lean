import Verif.Proofs.Remembered
import Verif.Proofs.Safe
/-! Invariants of single pending batches, lifted to the processor. -/
namespace Verif

/-- `R h pb` holds of every pending batch and held of every block emitted since `E0` (which was ready); queued messages satisfy
`Q`; the offsets satisfy `G`. -/
structure LiftInv (Q : RMsg → Prop) (R : Hash → PB → Prop) (G : GMap GoStr Int → Prop) (tracked : GoStr → Bool) (frp : Bool)
    (E0 : List PB) (mp : MP) : Prop where
  tracked : mp.tracked = tracked
  frp : mp.frp = frp
  res : G mp.resumption
  pbs : ∀ h pb, mp.pendingBatches.get? h = some pb → R h pb
  queue : ∀ h q e, mp.pendingMessages.get? h = some q → e ∈ q.entries → Q e.2
  emitted : ∃ es, mp.emitted = E0 ++ es ∧ ∀ pb ∈ es, R pb.hash pb ∧ pb.ready = true

/-- What is needed of `R`; with `af = false` also that nothing faults. -/
structure LiftParts (C : Codec) (env : Env) (af : Bool) (Q : RMsg → Prop) (R : Hash → PB → Prop) (G : GMap GoStr Int → Prop)
    (tracked : GoStr → Bool) (frp : Bool) : Prop where
  res : ∀ (mp : MP) (m : RMsg), Q m → G mp.resumption → G (mp.updateResumption m.source m.offset).resumption
  header : ∀ (mp : MP) (m : RMsg) b, Q m → mp.tracked = tracked → mp.frp = frp → G mp.resumption → m.key.headD 0 = BatchType →
    C.decBatch m.value = some b → R (hashOf m.key) (headerPB env mp m (hashOf m.key) b)
  subErr : ∀ (m : RMsg) (pb : PB), Q m → R (hashOf m.key) pb → QueueType m → m.key.headD 0 = SubBatchHeaderType →
    pb.pendingBatches.contains (bytesToHash (m.key.drop 33)) = true → C.decInt m.value = none →
    R (hashOf m.key) { pb with pendingBatches := pb.pendingBatches.erase (bytesToHash (m.key.drop 33)) }
  sub : ∀ t (m : RMsg) (pb pb' : PB) n, Q m → R (hashOf m.key) pb → QueueType m → m.key.headD 0 = SubBatchHeaderType →
    pb.pendingBatches.contains (bytesToHash (m.key.drop 33)) = true → C.decInt m.value = some n →
    pb.addSubHeader C env t m (bytesToHash (m.key.drop 33)) n = .ok pb' → R (hashOf m.key) pb'
  apply : ∀ (m : RMsg) (pb pb' : PB) r, Q m → R (hashOf m.key) pb → QueueType m → m.key.headD 0 ≠ SubBatchHeaderType →
    pb.applyMessage C m = .ok (pb', r) → R (hashOf m.key) pb'
  short : af = true ∨ ∀ m, Q m → ¬ m.key.length < 33
  subOk : af = true ∨ ∀ t (m : RMsg) (pb : PB) n, Q m → R (hashOf m.key) pb → QueueType m →
    m.key.headD 0 = SubBatchHeaderType → pb.pendingBatches.contains (bytesToHash (m.key.drop 33)) = true →
    C.decInt m.value = some n → ∃ pb', pb.addSubHeader C env t m (bytesToHash (m.key.drop 33)) n = .ok pb'
  applyOk : af = true ∨ ∀ (m : RMsg) (pb : PB), Q m → R (hashOf m.key) pb → QueueType m →
    m.key.headD 0 ≠ SubBatchHeaderType → ∃ pb' r, pb.applyMessage C m = .ok (pb', r)

section
variable {C : Codec} {env : Env} {Q : RMsg → Prop} {R : Hash → PB → Prop} {G : GMap GoStr Int → Prop}
  {tracked : GoStr → Bool} {frp af : Bool} {E0 : List PB}

theorem LiftInv.update {mp : MP} (h : LiftInv Q R G tracked frp E0 mp) {hash : Hash} {pb : PB} (hp : R hash pb) :
    LiftInv Q R G tracked frp E0 { mp with pendingBatches := mp.pendingBatches.insert hash pb } := by
  refine ⟨h.tracked, h.frp, h.res, ?_, h.queue, h.emitted⟩
  intro x q hq
  simp only [GMap.get?_insert] at hq
  split at hq
  · rename_i e; subst e; cases hq; exact hp
  · exact h.pbs _ _ hq

theorem LiftInv.finish {mp : MP} (hB : Base mp) (h : LiftInv Q R G tracked frp E0 mp) (hash : Hash) :
    LiftInv Q R G tracked frp E0 (mp.finish hash) := by
  rcases finish_cases mp hash with ⟨he, _⟩ | ⟨pb, hp, hr, he⟩
  · rw [he]; exact h
  · rw [he]
    obtain ⟨es, he1, he2⟩ := h.emitted
    refine ⟨h.tracked, h.frp, h.res, ?_, h.queue, es ++ [pb], ?_, ?_⟩
    · intro x q hq
      simp only [GMap.get?_erase] at hq
      split at hq
      · simp at hq
      · exact h.pbs _ _ hq
    · rw [emitted_append_batch (mp := mp) (pb := pb) rfl, he1]; simp
    · intro q hq
      rcases List.mem_append.mp hq with hq | hq
      · exact he2 q hq
      · simp only [List.mem_singleton] at hq; subst hq
        exact ⟨by rw [hB.hashes _ _ hp]; exact h.pbs _ _ hp, hr⟩

theorem LiftInv.queueMessage {mp : MP} (h : LiftInv Q R G tracked frp E0 mp) {m : RMsg} (hm : Q m) (hash : Hash) :
    LiftInv Q R G tracked frp E0 (mp.queueMessage hash m) := by
  refine ⟨h.tracked, h.frp, h.res, h.pbs, ?_, h.emitted⟩
  intro x q e hx he
  simp only [MP.queueMessage, GMap.get?_insert] at hx
  split at hx
  · cases hx
    have hg := (GMap.get?_eq_some_iff _).mpr he
    rw [GMap.get?_insert] at hg
    split at hg
    · cases hg; exact hm
    · cases hpm : mp.pendingMessages.get? hash with
      | none => rw [hpm] at hg; simp [GMap.get?, GMap.empty, GMap.look] at hg
      | some q0 => rw [hpm] at hg; exact h.queue _ q0 e hpm ((GMap.get?_eq_some_iff _).mp hg)
  · exact h.queue _ q e hx he

theorem begin_resumption (env : Env) (mp : MP) (m : RMsg) :
    (mp.begin env m).resumption = (mp.updateResumption m.source m.offset).resumption := by
  unfold MP.begin MP.updateResumption
  have := (drainEvict_fields mp (env.evict mp.tick)).2.2.2.2.2.2.2.1
  simp only []
  rw [this]
  split
  · rfl
  · split
    · rfl
    · exact this

theorem LiftParts.parts (h : LiftParts C env af Q R G tracked frp) : XParts C env af Q (LiftInv Q R G tracked frp E0) where
  begin mp m hq _ hi := by
    have hf := begin_fields env mp m
    refine ⟨by rw [hf.2.2.2.1]; exact hi.tracked, by rw [hf.2.2.2.2.1]; exact hi.frp,
      by rw [begin_resumption]; exact h.res mp m hq hi.res, ?_, by rw [hf.2.1]; exact hi.queue,
      by rw [emitted_of_log hf.2.2.1]; exact hi.emitted⟩
    intro x pb hp; exact hi.pbs _ _ (begin_pending hp)
  short := h.short
  reorg mp m _ _ hi _ := by
    unfold MP.onReorg
    simp only []
    split
    · exact ⟨hi.tracked, hi.frp, hi.res, hi.pbs, hi.queue, hi.emitted⟩
    · refine ⟨hi.tracked, hi.frp, hi.res, hi.pbs, hi.queue, ?_⟩
      obtain ⟨es, he, hes⟩ := hi.emitted
      refine ⟨es, ?_, hes⟩
      rw [← he]
      unfold MP.emitted; rw [List.filterMap_append]; simp
  add mp m b hq _ hi ht _ _ hd _ := by
    have := hi.update (h.header mp m b hq hi.tracked hi.frp hi.res ht hd)
    refine ⟨this.tracked, this.frp, this.res, this.pbs, this.queue, ?_⟩
    have : (mp.addHeader env m (hashOf m.key) b).emitted = mp.emitted := by simp [MP.emitted, MP.addHeader]
    rw [this]; exact hi.emitted
  sub mp m hq hB hi hqt _ _ ht := by
    unfold MP.onSubHeader
    split
    · exact hi.queueMessage hq _
    · rename_i pb hp
      have hs := hi.pbs _ _ hp
      simp only []
      split
      · exact hi
      · rename_i hc
        have hc' : pb.pendingBatches.contains (bytesToHash (m.key.drop 33)) = true := by simpa using hc
        split
        · rename_i hd; exact hi.update (h.subErr m pb hq hs hqt ht hc' hd)
        · rename_i n hn
          split
          · rename_i f hf
            rcases h.subOk with h1 | h1
            · exact h1
            · obtain ⟨pb', hok⟩ := h1 mp.tick m pb n hq hs hqt ht hc' hn
              rw [hok] at hf; simp at hf
          · rename_i pb' hpb'
            exact (hi.update (h.sub _ m pb pb' n hq hs hqt ht hc' hn hpb')).finish
              (hB.update hp (sameHead_addSub hpb').hash) _
  other mp m hq hB hi hqt _ _ ht := by
    unfold MP.onOther
    split
    · exact hi.queueMessage hq _
    · rename_i pb hp
      split
      · rename_i f hf
        rcases h.applyOk with h1 | h1
        · exact h1
        · obtain ⟨pb', r, hok⟩ := h1 m pb hq (hi.pbs _ _ hp) hqt ht
          rw [hok] at hf; simp at hf
      · rename_i pb' r ha
        exact (hi.update (h.apply m pb pb' r hq (hi.pbs _ _ hp) hqt ht ha)).finish
          (hB.update hp (sameHead_apply ha).hash) _
  queued mp m q e _ _ _ hi hq he := hi.queue _ _ _ hq he
  drop mp m _ _ _ hi := by
    refine ⟨hi.tracked, hi.frp, hi.res, hi.pbs, ?_, hi.emitted⟩
    intro x q e hx he
    simp only [GMap.get?_erase] at hx
    split at hx
    · simp at hx
    · exact hi.queue _ _ _ hx he
  finish mp m _ _ hB hi := hi.finish hB _

theorem LiftInv.newMP {cfg : Config} {mp : MP} (h : newMP cfg = .ok mp) (hG : G GMap.empty) :
    LiftInv Q R G cfg.tracked cfg.frp [] mp := by
  unfold Verif.newMP at h
  split at h
  · simp at h
  · simp at h; subst h
    refine ⟨rfl, rfl, hG, ?_, ?_, [], rfl, by simp⟩
    · intro h pb hp; simp [GMap.get?, GMap.empty, GMap.look] at hp
    · intro h q e hp; simp [GMap.get?, GMap.empty, GMap.look] at hp

end

/-- Everything emitted by a run from a fresh processor satisfies `R` and was ready. -/
theorem LiftParts.emitted {C : Codec} {env : Env} {Q : RMsg → Prop} {R : Hash → PB → Prop} {G : GMap GoStr Int → Prop}
    {cfg : Config} (h : LiftParts C env true Q R G cfg.tracked cfg.frp) {mp mp' : MP} {ms : List RMsg}
    (hn : newMP cfg = .ok mp) (hG : G GMap.empty) (hQ : ∀ m ∈ ms, Q m) (hr : mp.run C env ms = .ok mp') :
    ∀ pb ∈ mp'.emitted, R pb.hash pb ∧ pb.ready = true := by
  have hi := (h.parts (E0 := [])).toParts.run hQ ⟨Base.newMP hn, LiftInv.newMP hn hG⟩ hr
  obtain ⟨es, he, hes⟩ := hi.2.emitted
  simp at he
  rw [he]; exact hes

end Verif
