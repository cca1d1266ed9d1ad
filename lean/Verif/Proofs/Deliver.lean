import Verif.Proofs.Assemble
/-! The messages of one block in the message processor: what it emits is exact, and it does emit it. -/
namespace Verif
open Spec Path

namespace Blk
variable {C : Codec} {env : Env} {B : Blk} {tracked : GoStr → Bool} {frp : Bool}

/-- A message of the block, or one of a type without content. -/
def Own (C : Codec) (B : Blk) (m : RMsg) : Prop :=
  (∃ i, m.key = keyOf C i ∧ Mine C B i m.value) ∨ (¬ m.key.length < 33 ∧ ¬ m.key.headD 0 < 5)

theorem keyOf_sub_id (C : Codec) (b i : Hash) : bytesToHash ((keyOf C (.subHeader b i)).drop 33) = i := by
  rw [keyOf_drop33]; exact bytesToHash_bytes i

/-- The message is a sub-batch header. -/
theorem Own.subHeader {m : RMsg} (h : Own C B m) (ht : m.key.headD 0 = SubBatchHeaderType) :
    ∃ id, m.key = keyOf C (.subHeader B.hash id) ∧ B.Sub id ∧ C.decInt m.value = some ((B.recs id).length : Int) ∧
      bytesToHash (m.key.drop 33) = id := by
  rcases h with ⟨i, hk, hm⟩ | ⟨_, h5⟩
  · have hT : i.type = 1 := by rw [← keyOf_headD C i, ← hk]; exact ht
    generalize hv : m.value = v at hm
    cases hm with
    | subHeader id v hs hd => exact ⟨id, hk, hs, hv ▸ hd, by rw [hk, keyOf_sub_id]⟩
    | _ => simp [MsgId.type] at hT
  · rw [ht] at h5; exact absurd (by decide) h5

/-- The message is neither header nor sub-batch header. -/
theorem Own.other {m : RMsg} (h : Own C B m) (hq : QueueType m) (ht : m.key.headD 0 ≠ SubBatchHeaderType) :
    (∃ i, m.key = keyOf C i ∧ Mine C B i m.value ∧ (i.type = 2 ∨ i.type = 3 ∨ i.type = 4)) ∨
    (¬ m.key.length < 33 ∧ ¬ m.key.headD 0 < 5) := by
  rcases h with ⟨i, hk, hm⟩ | h5
  · left
    refine ⟨i, hk, hm, ?_⟩
    have hT : m.key.headD 0 = i.type := by rw [hk, keyOf_headD]
    rw [hT] at ht
    have h2 := hq.2
    rw [hT] at h2
    cases hm with
    | header => exact absurd rfl h2
    | subHeader => exact absurd rfl ht
    | upd => exact .inr (.inl rfl)
    | del => exact .inr (.inr rfl)
    | subMsg => exact .inl rfl
  · exact .inr h5

theorem Own.header {m : RMsg} (h : Own C B m) (ht : m.key.headD 0 = BatchType) :
    m.key = keyOf C (.batch B.hash) ∧ ∃ b, C.decBatch m.value = some b ∧ HdrLike b B.hdr := by
  rcases h with ⟨i, hk, hm⟩ | ⟨_, h5⟩
  · have hT : i.type = 0 := by rw [← keyOf_headD C i, ← hk]; exact ht
    generalize hv : m.value = v at hm
    cases hm with
    | header v b hd hl => exact ⟨hk, b, hv ▸ hd, hl⟩
    | _ => simp [MsgId.type] at hT
  · rw [ht] at h5; exact absurd (by decide) h5

theorem Own.len {m : RMsg} (h : Own C B m) : ¬ m.key.length < 33 := by
  rcases h with ⟨i, hk, _⟩ | h
  · rw [hk]; exact keyOf_length C i
  · exact h.1

/-- Whatever happens, the pending batch of a block with consistent messages satisfies the invariant; nothing faults when all
messages are of such blocks. `F h` is the block with hash `h`, if it has to be consistent. -/
theorem lift (hC : C.Lawful) (af : Bool) (F : Hash → Option Blk) (hF : ∀ h B, F h = some B → B.WF ∧ B.hash = h)
    (hall : af = true ∨ ∀ h, ∃ B, F h = some B) :
    LiftParts C env af (fun m => ∀ B, F (hashOf m.key) = some B → Own C B m)
      (fun h pb => ∀ B, F h = some B → Inv C B tracked pb) (fun _ => True) tracked frp where
  res _ _ _ _ := trivial
  header mp m b hq ht _ _ hty hd B hB := by
    obtain ⟨h1, b', h2, hl⟩ := (hq B hB).header hty
    rw [hd] at h2; cases h2
    obtain ⟨hw, hh⟩ := hF _ _ hB
    rw [← ht, ← hh]
    exact Inv.header hw hl env mp m
  subErr m pb hq hR _ ht _ hd B hB := by
    obtain ⟨id, _, _, h, _⟩ := (hq B hB).subHeader ht
    rw [hd] at h; simp at h
  sub t m pb pb' n hq hR _ ht hc hn hok B hB := by
    obtain ⟨hw, hh⟩ := hF _ _ hB
    obtain ⟨id, h1, h2, h3, h4⟩ := (hq B hB).subHeader ht
    rw [hn] at h3; cases h3
    rw [h4] at hok hc
    obtain ⟨pb2, a1, a2, _⟩ := (hR B hB).addSub hC hw (env := env) (t := t) m hc
    rw [a1] at hok; cases hok; exact a2
  apply m pb pb' r hq hR hqt ht hok B hB := by
    obtain ⟨hw, hh⟩ := hF _ _ hB
    rcases (hq B hB).other hqt ht with ⟨i, h1, h2, h3⟩ | ⟨h1, h2⟩
    · obtain ⟨pb2, b, a1, a2, _⟩ := (hR B hB).apply hC hw h1 h2 h3
      rw [a1] at hok; cases hok; exact a2
    · obtain ⟨pb2, a1, a2, _⟩ := (hR B hB).applyOther h1 h2
      rw [a1] at hok; cases hok; exact a2
  short := by
    rcases hall with h | h
    · exact .inl h
    · right; intro m hq
      obtain ⟨B, hB⟩ := h (hashOf m.key)
      exact (hq B hB).len
  subOk := by
    rcases hall with h | h
    · exact .inl h
    · right; intro t m pb n hq hR _ ht hc hn
      obtain ⟨B, hB⟩ := h (hashOf m.key)
      obtain ⟨hw, hh⟩ := hF _ _ hB
      obtain ⟨id, h1, h2, h3, h4⟩ := (hq B hB).subHeader ht
      rw [hn] at h3; cases h3
      rw [h4] at hc ⊢
      obtain ⟨pb2, a1, _⟩ := (hR B hB).addSub hC hw (env := env) (t := t) m hc
      exact ⟨pb2, a1⟩
  applyOk := by
    rcases hall with h | h
    · exact .inl h
    · right; intro m pb hq hR hqt ht
      obtain ⟨B, hB⟩ := h (hashOf m.key)
      obtain ⟨hw, hh⟩ := hF _ _ hB
      rcases (hq B hB).other hqt ht with ⟨i, h1, h2, h3⟩ | ⟨h1, h2⟩
      · obtain ⟨pb2, b, a1, _⟩ := (hR B hB).apply hC hw h1 h2 h3
        exact ⟨pb2, b, a1⟩
      · obtain ⟨pb2, a1, _⟩ := (hR B hB).applyOther h1 h2
        exact ⟨pb2, true, a1⟩

/-- No information, but the emitted blocks only grow. -/
theorem triv (C : Codec) (env : Env) (tracked : GoStr → Bool) (frp : Bool) :
    LiftParts C env true (fun _ => True) (fun _ _ => True) (fun _ => True) tracked frp where
  res _ _ _ _ := trivial
  header _ _ _ _ _ _ _ _ _ := trivial
  subErr _ _ _ _ _ _ _ _ := trivial
  sub _ _ _ _ _ _ _ _ _ _ _ _ := trivial
  apply _ _ _ _ _ _ _ _ _ := trivial
  short := .inl rfl
  subOk := .inl rfl
  applyOk := .inl rfl

/-- Emitted blocks only grow; the filter stays. -/
abbrev Grown (tracked : GoStr → Bool) (frp : Bool) (E0 : List PB) (mp : MP) : Prop :=
  LiftInv (fun _ => True) (fun _ _ => True) (fun _ => True) tracked frp E0 mp

/-- `Grown` without the condition on readiness. -/
theorem grown_self (mp : MP) : Grown mp.tracked mp.frp mp.emitted mp :=
  ⟨rfl, rfl, trivial, fun _ _ _ => trivial, fun _ _ _ _ _ => trivial, [], by simp, by simp⟩

/-- The block was emitted since `E0`. -/
def Done (B : Blk) (E0 : List PB) (mp : MP) : Prop := ∃ es pb, mp.emitted = E0 ++ es ∧ pb ∈ es ∧ pb.hash = B.hash

/-- The block is pending and has taken the messages `J`; it is not ready if `nr`. -/
def Pend (C : Codec) (B : Blk) (tracked : GoStr → Bool) (J : MsgId → Prop) (nr : Prop) (mp : MP) : Prop :=
  ∃ pb, mp.pendingBatches.get? B.hash = some pb ∧ Inv C B tracked pb ∧ (∀ j, B.Part j → J j → Took C B tracked pb j) ∧
    (nr → pb.ready = false)

/-- The header has not come; the messages `J` are queued. -/
structure Wait (C : Codec) (B : Blk) (J : MsgId → Prop) (mp : MP) : Prop where
  pending : mp.pendingBatches.get? B.hash = none
  compl : mp.completed.contains B.hash = false
  old : mp.oldBlocks.contains B.hash = false
  header : ¬ J (.batch B.hash)
  has : ∀ j, B.Part j → J j → ∃ q, mp.pendingMessages.get? B.hash = some q ∧ q.contains (keyOf C j) = true
  own : ∀ q e, mp.pendingMessages.get? B.hash = some q → e ∈ q.entries → Own C B e.2

/-- What has been delivered so far. -/
def plus (C : Codec) (J : MsgId → Prop) (m : RMsg) (j : MsgId) : Prop := J j ∨ m.key = keyOf C j

theorem Done.grow {E0 : List PB} {mp mp' : MP} (h : Done B E0 mp) (hg : Grown tracked frp mp.emitted mp') : Done B E0 mp' := by
  obtain ⟨es, pb, h1, h2, h3⟩ := h
  obtain ⟨es', h4, _⟩ := hg.emitted
  exact ⟨es ++ es', pb, by rw [h4, h1]; simp, by simp [h2], h3⟩

theorem Pend.finish {E0 : List PB} {J : MsgId → Prop} {nr : Prop} {mp : MP} (hB : Base mp) (h : Pend C B tracked J nr mp)
    (hE : ∃ es, mp.emitted = E0 ++ es) :
    (Pend C B tracked J True (mp.finish B.hash)) ∨
    (Done B E0 (mp.finish B.hash) ∧ (mp.finish B.hash).completed.contains B.hash = true) := by
  obtain ⟨pb, h1, h2, h3, h4⟩ := h
  rcases finish_cases mp B.hash with ⟨he, hf⟩ | ⟨pb1, hp1, hr1, he⟩
  · rw [he]; exact .inl ⟨pb, h1, h2, h3, fun _ => hf pb h1⟩
  · right
    rw [h1] at hp1; cases hp1
    obtain ⟨es, hes⟩ := hE
    rw [he]
    constructor
    · exact ⟨es ++ [pb], pb, by rw [emitted_append_batch (mp := mp) (pb := pb) rfl, hes]; simp, by simp, h2.hash⟩
    · have := hB.cap; have := hB.thr
      exact (LRU.contains_iff _ _).mpr (LRU.mem_add_self _ _ (by omega))

theorem Pend.begin {J : MsgId → Prop} {nr : Prop} {mp : MP} (hk : Keeps env B.hdr.number) (h : Pend C B tracked J nr mp)
    (m : RMsg) : Pend C B tracked J nr (mp.begin env m) := by
  obtain ⟨pb, h1, h2, h3⟩ := h
  refine ⟨pb, ?_, h2, h3⟩
  rcases begin_get env mp m B.hash with ⟨h6, _⟩ | ⟨b, h6, ⟨x, hx, hlt⟩, _⟩
  · rw [h6]; exact h1
  · rw [h1] at h6; cases h6
    have := hk _ x hx
    rw [h2.number] at hlt
    omega

/-- A message other than the header reaches the pending block. -/
theorem own_step (hC : C.Lawful) (hw : B.WF) {self : MP → RMsg → MPResult} {J : MsgId → Prop} {nr : Prop} {E0 : List PB}
    {mp : MP} {m : RMsg} (hk : Keeps env B.hdr.number) (hB : Base mp) (h : Pend C B tracked J nr mp)
    (hE : ∃ es, mp.emitted = E0 ++ es) (hm : hashOf m.key = B.hash) (hq : QueueType m) (ho : Own C B m) :
    ∃ mp', MP.step C env self mp m = .ok (mp', none) ∧
      (Pend C B tracked (plus C J m) nr mp' ∨ (Done B E0 mp' ∧ mp'.completed.contains B.hash = true)) := by
  unfold MP.step
  have hB1 := hB.begin env m
  have h1 := h.begin (env := env) hk m
  have hE1 : ∃ es, (mp.begin env m).emitted = E0 ++ es := by rw [emitted_of_log (begin_fields env mp m).2.2.1]; exact hE
  generalize mp.begin env m = mp1 at hB1 h1 hE1
  simp only [hm]
  rw [if_neg ho.len]
  simp only [hq.1, hq.2, if_false]
  obtain ⟨pb, p1, p2, p3, p4⟩ := h1
  have hc : mp1.completed.contains B.hash = false := by
    rw [Bool.eq_false_iff]; intro hc; rw [hB1.compl _ hc] at p1; simp at p1
  have hol : mp1.oldBlocks.contains B.hash = false := by
    rw [Bool.eq_false_iff]; intro hc; rw [hB1.old _ hc] at p1; simp at p1
  simp only [hc, hol, Bool.false_eq_true, if_false]
  have weaken : ∀ {mp' : MP}, Pend C B tracked (plus C J m) True mp' ∨ (Done B E0 mp' ∧ mp'.completed.contains B.hash = true) →
      Pend C B tracked (plus C J m) nr mp' ∨ (Done B E0 mp' ∧ mp'.completed.contains B.hash = true) := by
    rintro mp' (⟨q, a1, a2, a3, a4⟩ | h)
    · exact .inl ⟨q, a1, a2, a3, fun _ => a4 trivial⟩
    · exact .inr h
  split
  · rename_i ht
    obtain ⟨id, k1, k2, k3, k4⟩ := ho.subHeader ht
    unfold MP.onSubHeader
    rw [p1]
    simp only [k4]
    by_cases hpend : pb.pendingBatches.contains id = true
    · rw [hpend, k3]
      simp only [Bool.not_true, Bool.false_eq_true, if_false]
      obtain ⟨pb', a1, a2, a3, a4⟩ := p2.addSub hC hw (env := env) (t := mp1.tick) m hpend
      rw [a1]
      simp only []
      refine ⟨_, rfl, weaken (Pend.finish (nr := False) (hB1.update p1 (sameHead_addSub a1).hash) ⟨pb', by simp, a2, ?_, by simp⟩
        hE1)⟩
      rintro j hj (hJ | hJ)
      · exact a4 j hj (p3 j hj hJ)
      · rw [k1] at hJ
        rw [← keyOf_injective hC (i := .subHeader B.hash id) trivial (hj.inRange hw) hJ]
        exact a3
    · rw [Bool.eq_false_iff.mpr hpend]
      simp only [Bool.not_false, if_true]
      refine ⟨_, rfl, .inl ⟨pb, p1, p2, ?_, p4⟩⟩
      rintro j hj (hJ | hJ)
      · exact p3 j hj hJ
      · rw [k1] at hJ
        rw [← keyOf_injective hC (i := .subHeader B.hash id) trivial (hj.inRange hw) hJ]
        intro hl
        cases hb : pb.batches.get? id with
        | none => exact absurd ((p2.pending id).mpr ⟨hl, hb⟩) hpend
        | some bits => exact ⟨bits, rfl⟩
  · rename_i ht
    unfold MP.onOther
    rw [p1]
    simp only []
    rcases ho.other hq ht with ⟨i, k1, k2, k3⟩ | ⟨k1, k2⟩
    · obtain ⟨pb', b, a1, a2, a3, a4, _⟩ := p2.apply hC hw k1 k2 k3
      rw [a1]
      simp only []
      refine ⟨_, rfl, weaken (Pend.finish (nr := False) (hB1.update p1 (sameHead_apply a1).hash) ⟨pb', by simp, a2, ?_, by simp⟩
        hE1)⟩
      rintro j hj (hJ | hJ)
      · exact a4 j (p3 j hj hJ)
      · rw [k1] at hJ
        rw [← keyOf_injective hC (k2.inRange hw) (hj.inRange hw) hJ]
        exact a3
    · obtain ⟨pb', a1, a2, a4⟩ := p2.applyOther k1 k2
      rw [a1]
      simp only []
      refine ⟨_, rfl, weaken (Pend.finish (nr := False) (hB1.update p1 (sameHead_apply a1).hash) ⟨pb', by simp, a2, ?_, by simp⟩
        hE1)⟩
      rintro j hj (hJ | hJ)
      · exact a4 j (p3 j hj hJ)
      · exfalso
        rw [hJ, keyOf_headD] at k2
        cases hj <;> exact k2 (by simp only [MsgId.type]; decide)

/-- During the replay of the queue. -/
theorem own_replay (hC : C.Lawful) (hw : B.WF) {self : MP → RMsg → MPResult} {J : MsgId → Prop} {E0 : List PB}
    {mp : MP} {ms : List RMsg} (hk : Keeps env B.hdr.number) (hB : Base mp) (hG : Grown tracked frp E0 mp)
    (h : Pend C B tracked J False mp ∨ (Done B E0 mp ∧ mp.completed.contains B.hash = true))
    (hms : ∀ m ∈ ms, hashOf m.key = B.hash ∧ QueueType m ∧ Own C B m) :
    ∃ mp', replay (MP.step C env self) mp ms = .ok (mp', none) ∧ Base mp' ∧ Grown tracked frp E0 mp' ∧
      (Pend C B tracked (fun j => J j ∨ ∃ m ∈ ms, m.key = keyOf C j) False mp' ∨
        (Done B E0 mp' ∧ mp'.completed.contains B.hash = true)) := by
  induction ms generalizing mp J with
  | nil =>
    refine ⟨mp, rfl, hB, hG, ?_⟩
    rcases h with ⟨pb, h1, h2, h3, h4⟩ | h
    · exact .inl ⟨pb, h1, h2, fun j hj hJ => h3 j hj (by simpa using hJ), h4⟩
    · exact .inr h
  | cons m ms ih =>
    obtain ⟨m1, m2, m3⟩ := hms m (by simp)
    have hstep : ∃ mp', MP.step C env self mp m = .ok (mp', none) ∧
        (Pend C B tracked (plus C J m) False mp' ∨ (Done B E0 mp' ∧ mp'.completed.contains B.hash = true)) := by
      rcases h with h | ⟨h, hc⟩
      · obtain ⟨es, hes, _⟩ := hG.emitted
        exact own_step hC hw hk hB h ⟨es, hes⟩ m1 m2 m3
      · refine ⟨mp.begin env m, ?_, .inr ⟨?_, ?_⟩⟩
        · unfold MP.step
          have := (begin_fields env mp m).1
          generalize mp.begin env m = mp1 at this
          simp only [m1]
          rw [if_neg m3.len]
          simp only [m2.1, if_false, this, hc, if_true]
        · obtain ⟨es, pb, h1, h2, h3⟩ := h
          exact ⟨es, pb, by rw [emitted_of_log (begin_fields env mp m).2.2.1]; exact h1, h2, h3⟩
        · rw [(begin_fields env mp m).1]; exact hc
    obtain ⟨mp1, hs, h1⟩ := hstep
    have hBG := ((triv C env tracked frp).parts (E0 := E0).toParts.step_queued (self := self) trivial ⟨hB, hG⟩ m2).ok hs
    obtain ⟨mp', a1, a2, a3, a4⟩ := ih hBG.1 hBG.2 h1 (fun m hm => hms m (by simp [hm]))
    refine ⟨mp', by simp only [replay, hs]; exact a1, a2, a3, ?_⟩
    rcases a4 with ⟨pb, b1, b2, b3, b4⟩ | a4
    · left
      refine ⟨pb, b1, b2, ?_, b4⟩
      rintro j hj (hJ | ⟨x, hx, hxk⟩)
      · exact b3 j hj (.inl (.inl hJ))
      · rcases List.mem_cons.mp hx with rfl | hx
        · exact b3 j hj (.inl (.inr hxk))
        · exact b3 j hj (.inr ⟨x, hx, hxk⟩)
    · exact .inr a4

theorem Wait.begin {J : MsgId → Prop} {mp : MP} (h : Wait C B J mp) (m : RMsg) : Wait C B J (mp.begin env m) := by
  have hf := begin_fields env mp m
  rcases begin_get env mp m B.hash with ⟨h1, h2⟩ | ⟨pb, h1, _⟩
  · exact ⟨h1.trans h.pending, by rw [hf.1]; exact h.compl, h2.trans h.old, h.header, by rw [hf.2.1]; exact h.has,
      by rw [hf.2.1]; exact h.own⟩
  · rw [h.pending] at h1; simp at h1

/-- The header arrives. -/
theorem own_header (hC : C.Lawful) (hw : B.WF) {J : MsgId → Prop} {E0 : List PB}
    {mp : MP} {m : RMsg} (hk : Keeps env B.hdr.number) (hB : Base mp) (hG : Grown tracked frp E0 mp)
    (h : Wait C B J mp) (hkey : m.key = keyOf C (.batch B.hash)) {b : Batch} (hd : C.decBatch m.value = some b)
    (hl : HdrLike b B.hdr) :
    ∃ mp', mp.processMessage C env m = .ok (mp', none) ∧
      (Pend C B tracked (plus C J m) True mp' ∨ (Done B E0 mp' ∧ mp'.completed.contains B.hash = true)) := by
  have hm : hashOf m.key = B.hash := by rw [hkey]; exact keyOf_hash C _
  have htD : m.key.headD 0 = BatchType := by rw [hkey, keyOf_headD]; rfl
  have hlen : ¬ m.key.length < 33 := by rw [hkey]; exact keyOf_length C _
  unfold MP.processMessage
  have hrep := fun (J : MsgId → Prop) (mp : MP) (ms : List RMsg) (hB : Base mp) (hG : Grown tracked frp E0 mp) =>
    own_replay (C := C) (env := env) (B := B) hC hw (self := fun _ _ => .error .hang) (J := J) (mp := mp) (ms := ms) hk hB hG
  generalize MP.step C env (fun _ _ => .error .hang) = self at hrep
  unfold MP.step
  have hBG1 : Base (mp.begin env m) ∧ Grown tracked frp E0 (mp.begin env m) :=
    (triv C env tracked frp).parts (E0 := E0).toParts.begin mp m trivial ⟨hB, hG⟩
  have h1 := h.begin (env := env) m
  generalize mp.begin env m = mp1 at hBG1 h1
  simp only [hm]
  rw [if_neg hlen, htD]
  simp only [h1.compl, h1.old, if_true, Bool.false_eq_true, if_false]
  rw [if_neg (by decide)]
  unfold MP.onHeader
  rw [hd]
  have hcont : mp1.pendingBatches.contains B.hash = false := by rw [GMap.contains_eq_false]; exact h1.pending
  simp only [hcont, Bool.false_eq_true, if_false]
  have hBG2 : Base (mp1.addHeader env m B.hash b) ∧ Grown tracked frp E0 (mp1.addHeader env m B.hash b) := by
    have := (triv C env tracked frp).parts (E0 := E0).toParts.add mp1 m b trivial hBG1 htD (by rw [hm]; exact h1.compl)
      (by rw [hm]; exact h1.old) hd (by rw [hm]; exact h1.pending)
    rw [hm] at this; exact this
  have hp2 : Pend C B tracked (fun _ => False) False (mp1.addHeader env m B.hash b) := by
    refine ⟨headerPB env mp1 m B.hash b, by unfold MP.addHeader; simp [headerPB], ?_, by simp, by simp⟩
    have := Inv.header (C := C) hw hl env mp1 m
    rw [hBG1.2.tracked] at this; exact this
  have hq2 : (mp1.addHeader env m B.hash b).pendingMessages = mp1.pendingMessages := rfl
  have hpart : ∀ j, B.Part j → m.key ≠ keyOf C j := by
    intro j hj he
    rw [hkey] at he
    have := keyOf_injective hC (i := .batch B.hash) trivial (hj.inRange hw) he
    rw [← this] at hj
    cases hj
  generalize mp1.addHeader env m B.hash b = mp2 at hBG2 hp2 hq2
  cases hq : mp2.pendingMessages.get? B.hash with
  | none =>
    simp only []
    obtain ⟨es, hes, _⟩ := hBG2.2.emitted
    obtain ⟨pb, b1, b2, b3, b4⟩ := hp2
    refine ⟨_, rfl, Pend.finish (nr := False) hBG2.1 ⟨pb, b1, b2, ?_, by simp⟩ ⟨es, hes⟩⟩
    rintro j hj (hJ | hJ)
    · obtain ⟨q, hq', _⟩ := h1.has j hj hJ
      rw [← hq2, hq] at hq'; simp at hq'
    · exact absurd hJ (hpart j hj)
  | some q =>
    simp only []
    have hent : ∀ x ∈ (env.order.ord (2 * mp2.tick + 1) q.entries).map Prod.snd,
        hashOf x.key = B.hash ∧ QueueType x ∧ Own C B x := by
      intro x hx
      obtain ⟨e, he, rfl⟩ := List.mem_map.mp hx
      have he' := (env.order.perm _ _).mem_iff.mp he
      have hb := hBG2.1.queue _ q e hq he'
      exact ⟨hb.2.1, hb.1, h1.own q e (by rw [← hq2]; exact hq) he'⟩
    obtain ⟨mp3, a1, a2, a3, a4⟩ := hrep _ mp2 _ hBG2.1 hBG2.2 (.inl hp2) hent
    rw [a1]
    simp only []
    have hB4 : Base { mp3 with pendingMessages := mp3.pendingMessages.erase B.hash } := by
      have := (triv C env tracked frp).parts (E0 := E0).toParts.drop mp3 m trivial htD ⟨a2, a3⟩
      rw [hm] at this; exact this.1
    obtain ⟨es, hes, _⟩ := a3.emitted
    refine ⟨_, rfl, ?_⟩
    rcases a4 with ⟨pb, b1, b2, b3, b4⟩ | ⟨hdn, hcm⟩
    · refine Pend.finish (nr := False) hB4 ⟨pb, b1, b2, ?_, by simp⟩ ⟨es, hes⟩
      rintro j hj (hJ | hJ)
      · refine b3 j hj (.inr ?_)
        obtain ⟨q', hq', hc'⟩ := h1.has j hj hJ
        rw [← hq2, hq] at hq'; cases hq'
        obtain ⟨x, hx⟩ := (GMap.contains_iff _).mp hc'
        have hxe := (GMap.get?_eq_some_iff _).mp hx
        have := (hBG2.1.queue _ q _ hq hxe).2.2
        exact ⟨x, List.mem_map.mpr ⟨_, (env.order.perm _ _).mem_iff.mpr hxe, rfl⟩, this.symm⟩
      · exact absurd hJ (hpart j hj)
    · right
      rcases finish_cases { mp3 with pendingMessages := mp3.pendingMessages.erase B.hash } B.hash with ⟨he, _⟩ | ⟨pb1, hp1, _⟩
      · rw [he]; exact ⟨hdn, hcm⟩
      · have := hB4.compl _ hcm
        rw [this] at hp1; simp at hp1

/-- Messages of other blocks leave a block that waits for its header alone. -/
structure Idle (h : Hash) (q : Option (GMap Bytes RMsg)) (mp : MP) : Prop where
  pending : mp.pendingBatches.get? h = none
  queue : mp.pendingMessages.get? h = q
  compl : mp.completed.contains h = false
  old : mp.oldBlocks.contains h = false

theorem idle_finish {h : Hash} {q : Option (GMap Bytes RMsg)} {mp : MP} (hv : Idle h q mp) (hash : Hash) :
    Idle h q (mp.finish hash) := by
  rcases finish_cases mp hash with ⟨he, _⟩ | ⟨pb, hp, hr, he⟩
  · rw [he]; exact hv
  · have hne : hash ≠ h := by rintro rfl; rw [hv.pending] at hp; simp at hp
    rw [he]
    refine ⟨by simp only [GMap.get?_erase_ne _ hne]; exact hv.pending, hv.queue, ?_, hv.old⟩
    have h1 := hv.compl
    rw [Bool.eq_false_iff] at h1 ⊢
    intro hc
    rw [LRU.contains_iff] at hc
    rcases LRU.mem_of_mem_add hc with e | e
    · exact hne e.symm
    · exact h1 ((LRU.contains_iff _ _).mpr e)

theorem idle_parts (C : Codec) (env : Env) (h : Hash) (q : Option (GMap Bytes RMsg)) :
    XParts C env true (fun m => m.key.headD 0 ≠ ReorgType → hashOf m.key ≠ h) (fun mp => Idle h q mp) where
  begin mp m _ hB hv := by
    have hf := begin_fields env mp m
    rcases begin_get env mp m h with ⟨h1, h2⟩ | ⟨b, h1, _⟩
    · exact ⟨h1.trans hv.pending, by rw [hf.2.1]; exact hv.queue, by rw [hf.1]; exact hv.compl, h2.trans hv.old⟩
    · rw [hv.pending] at h1; simp at h1
  short := .inl rfl
  reorg mp m hq _ hv ht := by
    unfold MP.onReorg
    simp only []
    split
    · exact ⟨hv.pending, hv.queue, by simp [LRU.contains, LRU.new], rfl⟩
    · exact ⟨hv.pending, hv.queue, by simp [LRU.contains, LRU.new], rfl⟩
  add mp m b hne hB hv ht _ _ _ _ := by
    have hne := hne (by rw [ht]; decide)
    exact ⟨by simp only [MP.addHeader, GMap.get?_insert_ne _ _ hne]; exact hv.pending, hv.queue, hv.compl, hv.old⟩
  sub mp m hne hB hb hqt _ _ _ := by
    have hne := hne hqt.1
    have hup : ∀ pb', Idle h q { mp with pendingBatches := mp.pendingBatches.insert (hashOf m.key) pb' } := fun pb' =>
      ⟨by simp only [GMap.get?_insert_ne _ _ hne]; exact hb.pending, hb.queue, hb.compl, hb.old⟩
    unfold MP.onSubHeader
    split
    · exact ⟨hb.pending, by unfold MP.queueMessage; rw [GMap.get?_insert_ne _ _ hne]; exact hb.queue, hb.compl, hb.old⟩
    · rename_i pb hp
      simp only []
      split
      · exact hb
      · split
        · exact hup _
        · split
          · rfl
          · exact idle_finish (hup _) _
  other mp m hne hB hb hqt _ _ _ := by
    have hne := hne hqt.1
    have hup : ∀ pb', Idle h q { mp with pendingBatches := mp.pendingBatches.insert (hashOf m.key) pb' } := fun pb' =>
      ⟨by simp only [GMap.get?_insert_ne _ _ hne]; exact hb.pending, hb.queue, hb.compl, hb.old⟩
    unfold MP.onOther
    split
    · exact ⟨hb.pending, by unfold MP.queueMessage; rw [GMap.get?_insert_ne _ _ hne]; exact hb.queue, hb.compl, hb.old⟩
    · split
      · rfl
      · exact idle_finish (hup _) _
  queued mp m q' e hne ht hB hv hq he := by
    intro _
    rw [(hB.queue _ _ _ hq he).2.1]
    exact hne (by rw [ht]; decide)
  drop mp m hne ht _ hv := by
    have hne := hne (by rw [ht]; decide)
    exact ⟨hv.pending, by simp only [GMap.get?_erase_ne _ hne]; exact hv.queue, hv.compl, hv.old⟩
  finish mp m hne ht hB hv := idle_finish hv _

/-- The state of the delivery of the block: emitted, pending, or waiting for the header. -/
def Core (C : Codec) (B : Blk) (tracked : GoStr → Bool) (E0 : List PB) (J : MsgId → Prop) (mp : MP) : Prop :=
  Done B E0 mp ∨ Pend C B tracked J True mp ∨ Wait C B J mp

theorem Pend.mono {J J' : MsgId → Prop} {nr : Prop} {mp : MP} (h : Pend C B tracked J nr mp)
    (hJ : ∀ j, B.Part j → J' j → J j) : Pend C B tracked J' nr mp := by
  obtain ⟨pb, h1, h2, h3, h4⟩ := h
  exact ⟨pb, h1, h2, fun j hj hj' => h3 j hj (hJ j hj hj'), h4⟩

theorem plus_foreign {J : MsgId → Prop} {m : RMsg} (hm : hashOf m.key ≠ B.hash ∨ m.key.headD 0 = ReorgType) (j : MsgId)
    (hj : B.Part j ∨ j = .batch B.hash) (h : plus C J m j) : J j := by
  rcases h with h | h
  · exact h
  · exfalso
    rcases hm with hm | hm
    · apply hm
      rw [h]
      have := keyOf_hash C j
      unfold hashOf
      rw [this]
      rcases hj with hj | rfl
      · cases hj <;> rfl
      · rfl
    · rw [h, keyOf_headD] at hm
      rcases hj with hj | rfl
      · cases hj <;> simp [MsgId.type, ReorgType] at hm
      · simp [MsgId.type, ReorgType] at hm

/-- One message, as long as the block is not emitted. -/
theorem core_step1 (hC : C.Lawful) (hw : B.WF) {J : MsgId → Prop} {E0 : List PB} {mp mp' : MP} {m : RMsg} {e : Option Err}
    (hk : Keeps env B.hdr.number) (hB : Base mp) (hG : Grown tracked frp E0 mp)
    (h : Pend C B tracked J True mp ∨ Wait C B J mp)
    (hm : hashOf m.key = B.hash → Own C B m) (hr : mp.processMessage C env m = .ok (mp', e)) :
    (Done B E0 mp' ∧ mp'.completed.contains B.hash = true) ∨ Pend C B tracked (plus C J m) True mp' ∨
      Wait C B (plus C J m) mp' := by
  by_cases hf : hashOf m.key ≠ B.hash ∨ m.key.headD 0 = ReorgType
  · have hQ : m.key.headD 0 ≠ ReorgType → hashOf m.key ≠ B.hash := by
      intro h1; rcases hf with h2 | h2
      · exact h2
      · exact absurd h2 h1
    rcases h with ⟨pb, h1, h2, h3, h4⟩ | h
    · have := ((view_parts C env B.hash (some pb) (mp.pendingMessages.get? B.hash)
        (by intro t n hn b hb; cases hb; rw [h2.number]; exact hk t n hn)).toParts.process hQ ⟨hB, h1, rfl⟩).ok hr
      exact .inr (.inl ⟨pb, this.2.pending, h2, fun j hj hJ => h3 j hj (plus_foreign hf j (.inl hj) hJ), h4⟩)
    · have := ((idle_parts C env B.hash (mp.pendingMessages.get? B.hash)).toParts.process hQ
        ⟨hB, h.pending, rfl, h.compl, h.old⟩).ok hr
      refine .inr (.inr ⟨this.2.pending, this.2.compl, this.2.old, fun hJ => h.header (plus_foreign hf _ (.inr rfl) hJ), ?_, ?_⟩)
      · intro j hj hJ
        rw [this.2.queue]; exact h.has j hj (plus_foreign hf j (.inl hj) hJ)
      · rw [this.2.queue]; exact h.own
  · have hh : hashOf m.key = B.hash := Classical.byContradiction fun hc => hf (.inl hc)
    have hnr : m.key.headD 0 ≠ ReorgType := fun hc => hf (.inr hc)
    have ho := hm hh
    obtain ⟨es, hes, _⟩ := hG.emitted
    by_cases hb : m.key.headD 0 = BatchType
    · obtain ⟨k1, b', k2, hl⟩ := ho.header hb
      rcases h with h | h
      · right; left
        have hp := h.begin (env := env) hk m
        unfold MP.processMessage at hr
        generalize MP.step C env (fun _ _ => .error .hang) = self at hr
        unfold MP.step at hr
        have hB1 := hB.begin env m
        generalize mp.begin env m = mp1 at hr hp hB1
        simp only [hh] at hr
        rw [if_neg ho.len, hb] at hr
        rw [if_neg (by decide)] at hr
        have hres : mp' = mp1 := by
          split at hr
          · simp at hr; exact hr.1.symm
          split at hr
          · simp at hr; exact hr.1.symm
          simp only [if_true] at hr
          unfold MP.onHeader at hr
          rw [k2] at hr
          obtain ⟨pb, p1, _⟩ := hp
          rw [contains_of_get p1] at hr
          simp at hr; exact hr.1.symm
        rw [hres]
        refine hp.mono ?_
        rintro j hj (hJ | hJ)
        · exact hJ
        · rw [k1] at hJ
          have := keyOf_injective hC (i := .batch B.hash) trivial (hj.inRange hw) hJ
          rw [← this] at hj; cases hj
      · obtain ⟨mp2, a1, a2⟩ := own_header hC hw hk hB hG h k1 k2 hl
        rw [hr] at a1; cases a1
        rcases a2 with a2 | a2
        · exact .inr (.inl a2)
        · exact .inl a2
    · have hq : QueueType m := ⟨hnr, hb⟩
      rcases h with h | h
      · obtain ⟨mp2, a1, a2⟩ := own_step hC hw (self := MP.step C env (fun _ _ => .error .hang)) hk hB h ⟨es, hes⟩ hh hq ho
        unfold MP.processMessage at hr
        rw [hr] at a1; cases a1
        rcases a2 with a2 | a2
        · exact .inr (.inl a2)
        · exact .inl a2
      · right; right
        have h1 := h.begin (env := env) m
        unfold MP.processMessage at hr
        generalize MP.step C env (fun _ _ => .error .hang) = self at hr
        unfold MP.step at hr
        generalize mp.begin env m = mp1 at hr h1
        simp only [hh] at hr
        rw [if_neg ho.len] at hr
        simp only [hnr, hb, h1.compl, h1.old, if_false, Bool.false_eq_true] at hr
        have hres : mp' = mp1.queueMessage B.hash m := by
          split at hr
          · unfold MP.onSubHeader at hr; rw [h1.pending] at hr; simp at hr; exact hr.1.symm
          · unfold MP.onOther at hr; rw [h1.pending] at hr; simp at hr; exact hr.1.symm
        rw [hres]
        have hgq : (mp1.queueMessage B.hash m).pendingMessages.get? B.hash =
            some (((mp1.pendingMessages.get? B.hash).getD GMap.empty).insert m.key m) := by
          unfold MP.queueMessage; simp
        refine ⟨h1.pending, h1.compl, h1.old, ?_, ?_, ?_⟩
        · rintro (hJ | hJ)
          · exact h1.header hJ
          · rw [hJ, keyOf_headD] at hb; exact hb rfl
        · rintro j hj (hJ | hJ)
          · obtain ⟨q, hq1, hq2⟩ := h1.has j hj hJ
            refine ⟨_, hgq, ?_⟩
            rw [hq1]
            simp only [Option.getD_some, GMap.contains_insert, hq2, Bool.or_true]
          · refine ⟨_, hgq, ?_⟩
            rw [← hJ]; simp [GMap.contains_insert]
        · intro q e hq1 he
          rw [hgq] at hq1; cases hq1
          have hg := (GMap.get?_eq_some_iff _).mpr he
          rw [GMap.get?_insert] at hg
          split at hg
          · cases hg; exact ho
          · cases hpm : mp1.pendingMessages.get? B.hash with
            | none => rw [hpm] at hg; simp [GMap.get?, GMap.empty, GMap.look] at hg
            | some q0 => rw [hpm] at hg; exact h1.own q0 e hpm ((GMap.get?_eq_some_iff _).mp hg)

theorem core_step (hC : C.Lawful) (hw : B.WF) {J : MsgId → Prop} {E0 : List PB} {mp mp' : MP} {m : RMsg} {e : Option Err}
    (hk : Keeps env B.hdr.number) (hB : Base mp) (hG : Grown tracked frp E0 mp) (h : Core C B tracked E0 J mp)
    (hm : hashOf m.key = B.hash → Own C B m) (hr : mp.processMessage C env m = .ok (mp', e)) :
    Core C B tracked E0 (plus C J m) mp' := by
  rcases h with h | h
  · have := ((triv C env mp.tracked mp.frp).parts (E0 := mp.emitted).toParts.process trivial ⟨hB, grown_self mp⟩).ok hr
    exact .inl (h.grow this.2)
  · rcases core_step1 hC hw hk hB hG h hm hr with h | h | h
    · exact .inl h.1
    · exact .inr (.inl h)
    · exact .inr (.inr h)

theorem core_run (hC : C.Lawful) (hw : B.WF) {J : MsgId → Prop} {E0 : List PB} {mp mp' : MP} {ms : List RMsg}
    (hk : Keeps env B.hdr.number) (hB : Base mp) (hG : Grown tracked frp E0 mp) (h : Core C B tracked E0 J mp)
    (hm : ∀ m ∈ ms, hashOf m.key = B.hash → Own C B m) (hr : mp.run C env ms = .ok mp') :
    Core C B tracked E0 (fun j => J j ∨ ∃ m ∈ ms, m.key = keyOf C j) mp' := by
  induction ms generalizing mp J with
  | nil =>
    simp [MP.run] at hr; subst hr
    have : (fun j => J j ∨ ∃ m ∈ ([] : List RMsg), m.key = keyOf C j) = J := by funext j; simp
    rw [this]; exact h
  | cons m ms ih =>
    simp only [MP.run] at hr
    match hp : mp.processMessage C env m with
    | .error f => rw [hp] at hr; simp at hr
    | .ok (mp1, e) =>
      rw [hp] at hr
      have hBG := ((triv C env tracked frp).parts (E0 := E0).toParts.process trivial ⟨hB, hG⟩).ok hp
      have := ih hBG.1 hBG.2 (core_step hC hw hk hB hG h (hm m (by simp)) hp) (fun m hm' => hm m (by simp [hm'])) hr
      have e : (fun j => J j ∨ ∃ x ∈ m :: ms, x.key = keyOf C j) = (fun j => plus C J m j ∨ ∃ x ∈ ms, x.key = keyOf C j) := by
        funext j; simp only [plus, List.mem_cons, exists_eq_or_imp, or_assoc]
      rw [e]; exact this

/-- The messages that matter under the filter. -/
def Needed (B : Blk) (tracked : GoStr → Bool) : MsgId → Prop
  | .update _ k => tracked (B.pre k) = true
  | .delete _ k => tracked (B.pre k) = true
  | .subHeader _ id => B.Live tracked id
  | .subMsg _ id _ => B.Live tracked id
  | _ => True

theorem took_of_not_needed {pb : PB} {j : MsgId} (h : ¬ Needed B tracked j) : Took C B tracked pb j := by
  cases j <;> first | trivial | (intro hn; exact absurd hn h)

/-- The consistency of the messages of one block, for `lift`. -/
def only (B : Blk) (h : Hash) : Option Blk := if h = B.hash then some B else none

theorem only_self (B : Blk) : only B B.hash = some B := by simp [only]

theorem only_wf (hw : B.WF) (h : Hash) (B' : Blk) (he : only B h = some B') : B'.WF ∧ B'.hash = h := by
  unfold only at he
  split at he
  · rename_i e; cases he; exact ⟨hw, e.symm⟩
  · simp at he

/-- The state satisfies the invariants of the block. -/
abbrev Sound (C : Codec) (B : Blk) (tracked : GoStr → Bool) (frp : Bool) (E0 : List PB) (mp : MP) : Prop :=
  LiftInv (fun m => ∀ B', only B (hashOf m.key) = some B' → Own C B' m) (fun h pb => ∀ B', only B h = some B' → Inv C B' tracked pb)
    (fun _ => True) tracked frp E0 mp

/-- The pending batch of the block is not ready. -/
def Calm (B : Blk) (mp : MP) : Prop := ∀ pb, mp.pendingBatches.get? B.hash = some pb → pb.ready = false

theorem Sound.inv {E0 : List PB} {mp : MP} (h : Sound C B tracked frp E0 mp) {pb : PB}
    (hp : mp.pendingBatches.get? B.hash = some pb) : Inv C B tracked pb := h.pbs _ _ hp B (only_self B)

theorem Sound.own {E0 : List PB} {mp : MP} (hB : Base mp) (h : Sound C B tracked frp E0 mp) (q : GMap Bytes RMsg)
    (e : Bytes × RMsg) (hq : mp.pendingMessages.get? B.hash = some q) (he : e ∈ q.entries) : Own C B e.2 := by
  have h1 := h.queue _ q e hq he
  have h2 := (hB.queue _ _ _ hq he).2.1
  exact h1 B (by rw [h2]; exact only_self B)

theorem own_only {m : RMsg} (hm : hashOf m.key = B.hash → Own C B m) (B' : Blk) (h : only B (hashOf m.key) = some B') :
    Own C B' m := by
  unfold only at h
  split at h
  · rename_i e; cases h; exact hm e
  · simp at h

/-- The state before the block is delivered (again). -/
theorem calm_core {E0 : List PB} {mp : MP} (hB : Base mp) (hS : Sound C B tracked frp E0 mp) (hc : Calm B mp)
    (hcm : mp.completed.contains B.hash = false) (hol : mp.oldBlocks.contains B.hash = false) :
    Pend C B tracked (fun _ => False) True mp ∨ Wait C B (fun _ => False) mp := by
  cases hp : mp.pendingBatches.get? B.hash with
  | some pb => exact .inl ⟨pb, hp, hS.inv hp, fun _ _ h => absurd h id, fun _ => hc pb hp⟩
  | none => exact .inr ⟨hp, hcm, hol, id, fun _ _ h => absurd h id, hS.own hB⟩

theorem calm_step (hC : C.Lawful) (hw : B.WF) {E0 : List PB} {mp mp' : MP} {m : RMsg} {e : Option Err}
    (hk : Keeps env B.hdr.number) (hB : Base mp) (hS : Sound C B tracked frp E0 mp) (hc : Calm B mp)
    (hm : hashOf m.key = B.hash → Own C B m) (hr : mp.processMessage C env m = .ok (mp', e)) : Calm B mp' := by
  have ht : mp.tracked = tracked := hS.tracked
  subst ht
  have hB' : Base mp' := (((triv C env mp.tracked mp.frp).parts (E0 := mp.emitted)).toParts.process trivial
    ⟨hB, grown_self mp⟩).ok hr |>.1
  have main : (Pend C B mp.tracked (fun _ => False) True mp ∨ Wait C B (fun _ => False) mp) → Calm B mp' := by
    intro h pb hp
    rcases core_step1 hC hw hk hB (grown_self mp) h hm hr with h | ⟨pb', h1, _, _, h4⟩ | h
    · have := hB'.compl _ h.2
      rw [this] at hp; simp at hp
    · rw [hp] at h1; cases h1; exact h4 trivial
    · rw [h.pending] at hp; simp at hp
  cases hp : mp.pendingBatches.get? B.hash with
  | some pb => exact main (.inl ⟨pb, hp, hS.inv hp, fun _ _ h => absurd h id, fun _ => hc pb hp⟩)
  | none =>
    by_cases hcm : mp.completed.contains B.hash = true ∨ mp.oldBlocks.contains B.hash = true
    · suffices hn : mp'.pendingBatches.get? B.hash = none by intro pb hpb; rw [hn] at hpb; simp at hpb
      by_cases hf : hashOf m.key ≠ B.hash ∨ m.key.headD 0 = ReorgType
      · have hQ : m.key.headD 0 ≠ ReorgType → hashOf m.key ≠ B.hash := by
          intro h1; rcases hf with h2 | h2
          · exact h2
          · exact absurd h2 h1
        exact (((view_parts C env B.hash none (mp.pendingMessages.get? B.hash)
          (by intro t n hn b hb; simp at hb)).toParts.process hQ ⟨hB, hp, rfl⟩).ok hr).2.pending
      · have hh : hashOf m.key = B.hash := Classical.byContradiction fun hc => hf (.inl hc)
        have hnr : m.key.headD 0 ≠ ReorgType := fun hc => hf (.inr hc)
        have hfd := begin_fields env mp m
        have hbg := begin_get env mp m B.hash
        unfold MP.processMessage at hr
        generalize MP.step C env (fun _ _ => .error .hang) = self at hr
        unfold MP.step at hr
        rcases hbg with ⟨g1, g2⟩ | ⟨b, g1, _⟩
        · rw [hp] at g1
          have hcm' : (mp.begin env m).completed.contains B.hash = true ∨ (mp.begin env m).oldBlocks.contains B.hash = true := by
            rw [hfd.1, g2]; exact hcm
          generalize mp.begin env m = mp1 at hr g1 hcm'
          simp only [hh] at hr
          rw [if_neg (hm hh).len] at hr
          simp only [hnr, if_false] at hr
          have : mp' = mp1 := by
            rcases hcm' with h | h
            · rw [if_pos h] at hr; simp at hr; exact hr.1.symm
            · split at hr
              · simp at hr; exact hr.1.symm
              · simp [h] at hr; exact hr.1.symm
          rw [this]; exact g1
        · rw [hp] at g1; simp at g1
    · have h1 : mp.completed.contains B.hash = false := Bool.eq_false_iff.mpr fun h => hcm (.inl h)
      have h2 : mp.oldBlocks.contains B.hash = false := Bool.eq_false_iff.mpr fun h => hcm (.inr h)
      exact main (calm_core hB hS hc h1 h2)

theorem sound_run (hC : C.Lawful) (hw : B.WF) {E0 : List PB} {mp mp' : MP} {ms : List RMsg}
    (hk : Keeps env B.hdr.number) (hB : Base mp) (hS : Sound C B tracked frp E0 mp) (hc : Calm B mp)
    (hm : ∀ m ∈ ms, hashOf m.key = B.hash → Own C B m) (hr : mp.run C env ms = .ok mp') :
    Base mp' ∧ Sound C B tracked frp E0 mp' ∧ Calm B mp' := by
  induction ms generalizing mp with
  | nil => simp [MP.run] at hr; subst hr; exact ⟨hB, hS, hc⟩
  | cons m ms ih =>
    simp only [MP.run] at hr
    match hp : mp.processMessage C env m with
    | .error f => rw [hp] at hr; simp at hr
    | .ok (mp1, e) =>
      rw [hp] at hr
      have hBG := ((lift (env := env) (tracked := tracked) (frp := frp) hC true (only B) (only_wf hw) (.inl rfl)).parts
        (E0 := E0).toParts.process (own_only (hm m (by simp))) ⟨hB, hS⟩).ok hp
      exact ih hBG.1 hBG.2 (calm_step hC hw hk hB hS hc (hm m (by simp)) hp) (fun m hm' => hm m (by simp [hm'])) hr

/-- All messages delivered: the block was emitted. -/
theorem deliver (hC : C.Lawful) (hw : B.WF) {mp mp' : MP} {ms : List RMsg} {E0 : List PB} (hk : Keeps env B.hdr.number)
    (hB : Base mp) (hS : Sound C B tracked frp E0 mp) (hc : Calm B mp)
    (hcm : mp.completed.contains B.hash = false) (hol : mp.oldBlocks.contains B.hash = false)
    (hm : ∀ m ∈ ms, hashOf m.key = B.hash → Own C B m)
    (hall : ∀ j, (B.Part j ∧ Needed B tracked j) ∨ j = .batch B.hash → ∃ m ∈ ms, m.key = keyOf C j)
    (hr : mp.run C env ms = .ok mp') :
    ∃ es pb, mp'.emitted = mp.emitted ++ es ∧ pb ∈ es ∧ pb.hash = B.hash := by
  have ht : mp.tracked = tracked := hS.tracked
  subst ht
  have h0 : Core C B mp.tracked mp.emitted (fun _ => False) mp := .inr (calm_core hB hS hc hcm hol)
  rcases core_run hC hw hk hB (grown_self mp) h0 hm hr with h | ⟨pb, h1, h2, h3, h4⟩ | h
  · exact h
  · have := h2.complete hw (fun j hj => by
      by_cases hn : Needed B mp.tracked j
      · exact h3 j hj (.inr (hall j (.inl ⟨hj, hn⟩)))
      · exact took_of_not_needed hn)
    rw [h4 trivial] at this; simp at this
  · exact absurd (.inr (hall _ (.inr rfl))) h.header

end Blk
end Verif
