import Verif.Proofs.Quiet
import Verif.Spec.Consumer
/-! The messages of other blocks do not matter: a simulation between a processor that gets all messages and one that gets only
those of one block. -/
namespace Verif
open Spec

/-- The same block with other defaults and another channel. -/
def PB.dress (pb : PB) (rd : GMap GoStr Int) (w : Option Nat) : PB := { pb with resumptionDefaults := rd, waitCh := w }

theorem dress_update (pb : PB) (rd : GMap GoStr Int) (w : Option Nat) (s : GoStr) (o : Int) :
    (pb.dress rd w).updateResumption s o = (pb.updateResumption s o).dress rd w := by
  unfold PB.updateResumption
  show (match pb.resumption.get? s with | none => _ | some _ => _) = _
  cases pb.resumption.get? s with
  | none => rfl
  | some x =>
    simp only []
    split
    · rfl
    · rfl

/-- A result with the block dressed. -/
def dressR (rd : GMap GoStr Int) (w : Option Nat) : Except Fault (PB × Bool) → Except Fault (PB × Bool)
  | .ok (pb, b) => .ok (pb.dress rd w, b)
  | .error f => .error f

theorem dress_applySub (C : Codec) (pb : PB) (rd : GMap GoStr Int) (w : Option Nat) (m : RMsg) :
    (pb.dress rd w).applySubBatchMsg C m = dressR rd w (pb.applySubBatchMsg C m) := by
  unfold PB.applySubBatchMsg
  simp only [PB.dress]
  split
  · rfl
  · split
    · rfl
    · split
      · rfl
      · split
        · rfl
        · split
          · rfl
          · split
            · rfl
            · rfl

theorem dress_applyBatch (pb : PB) (rd : GMap GoStr Int) (w : Option Nat) (m : RMsg) :
    (pb.dress rd w).applyBatchMsg m = dressR rd w (pb.applyBatchMsg m) := by
  unfold PB.applyBatchMsg
  simp only [PB.dress]
  by_cases h : ((pb.values.get? (m.key.drop 33)).getD []).length > 0
  · simp only [h, if_true]; rfl
  · simp only [h, if_false]
    match decPrefix pb.frp pb.prefixes (m.key.drop 33) with
    | .error f => rfl
    | .ok (_, true) => rfl
    | .ok (_, false) => rfl

theorem dress_applyDelete (pb : PB) (rd : GMap GoStr Int) (w : Option Nat) (m : RMsg) :
    (pb.dress rd w).applyDeleteMsg m = dressR rd w (pb.applyDeleteMsg m) := by
  unfold PB.applyDeleteMsg
  simp only [PB.dress]
  by_cases h : pb.deletes.contains (m.key.drop 33) = true
  · simp only [h, if_true]; rfl
  · simp only [h]
    match decPrefix pb.frp pb.prefixes (m.key.drop 33) with
    | .error f => rfl
    | .ok (_, true) => rfl
    | .ok (_, false) => rfl

theorem dress_apply (C : Codec) (pb : PB) (rd : GMap GoStr Int) (w : Option Nat) (m : RMsg) :
    (pb.dress rd w).applyMessage C m = dressR rd w (pb.applyMessage C m) := by
  unfold PB.applyMessage
  rw [dress_update]
  simp only []
  split
  · rfl
  · split
    · exact dress_applySub C _ rd w m
    · split
      · exact dress_applyBatch _ rd w m
      · split
        · exact dress_applyDelete _ rd w m
        · rfl

theorem dress_drain (C : Codec) (pb : PB) (rd : GMap GoStr Int) (w : Option Nat) (l : List (Bytes × RMsg)) :
    PB.drain C (pb.dress rd w) l = (PB.drain C pb l).map (·.dress rd w) := by
  induction l generalizing pb with
  | nil => rfl
  | cons e l ih =>
    obtain ⟨k, m⟩ := e
    simp only [PB.drain, dress_apply]
    match pb.applyMessage C m with
    | .error f => rfl
    | .ok (pb1, true) => exact ih { pb1 with pendingMessages := pb1.pendingMessages.erase k }
    | .ok (pb1, false) => exact ih pb1

/-- Two environments that agree from the given ticks on. -/
structure Agree (env env' : Env) (t t' : Nat) : Prop where
  evict : ∀ d, env'.evict (t' + d) = env.evict (t + d)
  ord : ∀ {α : Type} (d : Nat) (l : List α), env'.order.ord (2 * t' + d) l = env.order.ord (2 * t + d) l

theorem Agree.next {env env' : Env} {t t' : Nat} (h : Agree env env' t t') : Agree env env' (t + 1) (t' + 1) where
  evict d := by
    have := h.evict (d + 1)
    rw [show t' + 1 + d = t' + (d + 1) by omega, show t + 1 + d = t + (d + 1) by omega]; exact this
  ord d l := by
    have := h.ord (d + 2) l
    rw [show 2 * (t' + 1) + d = 2 * t' + (d + 2) by omega, show 2 * (t + 1) + d = 2 * t + (d + 2) by omega]; exact this

theorem dress_addSub {C : Codec} {env env' : Env} {t t' : Nat} (ha : Agree env env' t t') (pb : PB) (rd : GMap GoStr Int)
    (w : Option Nat) (m : RMsg) (id : Hash) (n : Int) :
    (pb.dress rd w).addSubHeader C env' t' m id n = (pb.addSubHeader C env t m id n).map (·.dress rd w) := by
  unfold PB.addSubHeader
  split
  · rfl
  · simp only []
    show PB.drain C ((PB.dress { pb with
        pendingBatches := pb.pendingBatches.erase id
        batches := pb.batches.insert id (List.replicate n.toNat false) } rd w).updateResumption m.source m.offset) _ = _
    rw [dress_update, ← dress_drain]
    have := ha.ord 0 (PB.updateResumption { pb with
        pendingBatches := pb.pendingBatches.erase id
        batches := pb.batches.insert id (List.replicate n.toNat false) } m.source m.offset).pendingMessages.entries
    rw [Nat.add_zero, Nat.add_zero] at this
    rw [← this]
    congr 2
    show ((PB.dress { pb with
        pendingBatches := pb.pendingBatches.erase id
        batches := pb.batches.insert id (List.replicate n.toNat false) } rd w).updateResumption m.source m.offset
        ).pendingMessages.entries = _
    rw [dress_update]; rfl

theorem dress_headerEntry (tracked : GoStr → Bool) (pb : PB) (rd : GMap GoStr Int) (w : Option Nat) (e : GoStr × BatchRecord) :
    PB.headerEntry tracked (pb.dress rd w) e = (PB.headerEntry tracked pb e).dress rd w := by
  unfold PB.headerEntry
  split
  · rfl
  · simp only [PB.dress]
    by_cases h1 : e.2.value.length > 0 <;> by_cases h2 : e.2.delete = true <;> by_cases h3 : e.2.count ≠ 0 <;>
      by_cases h4 : e.2.subbatch ≠ Hash.zero <;> simp [h1, h2, h3, h4]

theorem dress_headerFold (tracked : GoStr → Bool) (l : List (GoStr × BatchRecord)) (pb : PB) (rd : GMap GoStr Int)
    (w : Option Nat) :
    l.foldl (PB.headerEntry tracked) (pb.dress rd w) = (l.foldl (PB.headerEntry tracked) pb).dress rd w := by
  induction l generalizing pb with
  | nil => rfl
  | cons e l ih => rw [List.foldl_cons, List.foldl_cons, dress_headerEntry, ih]

/-- Equal up to defaults and channel. -/
inductive Twin : Option PB → Option PB → Prop
  | none : Twin none none
  | some (pb : PB) (rd : GMap GoStr Int) (w : Option Nat) : Twin (some pb) (some (pb.dress rd w))

theorem Twin.refl (a : Option PB) : Twin a a := by
  cases a with
  | none => exact .none
  | some pb => exact .some pb pb.resumptionDefaults pb.waitCh

/-- A block without defaults and channel. -/
def PB.bare (pb : PB) : PB := pb.dress GMap.empty none

/-- Block `h` is held the same way by both processors, and the same blocks `h` were emitted since. -/
structure Sim (h : Hash) (E E' : List PB) (mp s : MP) : Prop where
  base : Base mp
  base' : Base s
  tracked : s.tracked = mp.tracked
  frp : s.frp = mp.frp
  thr : s.reorgThreshold = mp.reorgThreshold
  old : s.oldBlocks.contains h = mp.oldBlocks.contains h
  compl : s.completed.contains h = mp.completed.contains h
  queue : s.pendingMessages.get? h = mp.pendingMessages.get? h
  pend : Twin (mp.pendingBatches.get? h) (s.pendingBatches.get? h)
  emit : ∃ es es', mp.emitted = E ++ es ∧ s.emitted = E' ++ es' ∧
    (es.filter (·.hash = h)).map PB.bare = es'.map PB.bare ∧
    (es.filter (·.hash = h)).length = if mp.completed.contains h then 1 else 0

theorem Sim.refl {h : Hash} {mp : MP} (hB : Base mp) (hc : mp.completed.contains h = false) : Sim h mp.emitted mp.emitted mp mp :=
  ⟨hB, hB, rfl, rfl, rfl, rfl, rfl, rfl, Twin.refl _, [], [], by simp, by simp, rfl, by rw [hc]; rfl⟩

theorem Base.evictOne {mp : MP} (h : Base mp) (n : Int) : Base (mp.evictOne n) := by
  refine ⟨?_, h.queue, ?_, ?_, h.thr, h.cap⟩
  · intro x pb hp
    rcases evictOne_get mp n x with ⟨h1, _⟩ | ⟨_, _, _, h1, _⟩
    · exact h.hashes x pb (h1 ▸ hp)
    · rw [h1] at hp; simp at hp
  · intro x hx
    rcases evictOne_get mp n x with ⟨h1, _⟩ | ⟨_, _, _, h1, _⟩
    · rw [h1]; exact h.compl x hx
    · exact h1
  · intro x hx
    rcases evictOne_get mp n x with ⟨h1, _, h2⟩ | ⟨_, _, _, h1, _⟩
    · rw [h1]; exact h.old x (by rw [← h2]; exact hx)
    · exact h1

theorem Sim.evictOne {h : Hash} {E E' : List PB} {mp s : MP} (hs : Sim h E E' mp s) (n : Int) :
    Sim h E E' (mp.evictOne n) (s.evictOne n) := by
  refine ⟨hs.base.evictOne n, hs.base'.evictOne n, hs.tracked, hs.frp, hs.thr, ?_, hs.compl, hs.queue, ?_, hs.emit⟩
  · have hp := hs.pend
    rcases evictOne_get mp n h with ⟨h1, h2, h3⟩ | ⟨pb, h1, h2, h3, h4⟩
    · rcases evictOne_get s n h with ⟨k1, k2, k3⟩ | ⟨pb', k1, k2, k3, k4⟩
      · rw [h3, k3]; exact hs.old
      · rw [k1] at hp
        generalize mp.pendingBatches.get? h = a at *
        cases hp with
        | some pb => have := h2 pb rfl; exact absurd (show pb.number < n from k2) (by omega)
    · rcases evictOne_get s n h with ⟨k1, k2, k3⟩ | ⟨pb', k1, k2, k3, k4⟩
      · rw [h1] at hp
        generalize s.pendingBatches.get? h = a at *
        cases hp with
        | some _ rd w => have := k2 _ rfl; exact absurd (show n ≤ pb.number from this) (by omega)
      · rw [h4, k4]
  · have hp := hs.pend
    rcases evictOne_get mp n h with ⟨h1, h2, h3⟩ | ⟨pb, h1, h2, h3, h4⟩
    · rcases evictOne_get s n h with ⟨k1, k2, k3⟩ | ⟨pb', k1, k2, k3, k4⟩
      · rw [h1, k1]; exact hp
      · rw [k1] at hp
        generalize mp.pendingBatches.get? h = a at *
        cases hp with
        | some pb => have := h2 pb rfl; exact absurd (show pb.number < n from k2) (by omega)
    · rcases evictOne_get s n h with ⟨k1, k2, k3⟩ | ⟨pb', k1, k2, k3, k4⟩
      · rw [h1] at hp
        generalize s.pendingBatches.get? h = a at *
        cases hp with
        | some _ rd w => have := k2 _ rfl; exact absurd (show n ≤ pb.number from this) (by omega)
      · rw [h3, k3]; exact .none

theorem Sim.drainEvict {h : Hash} {E E' : List PB} {mp s : MP} (hs : Sim h E E' mp s) (ns : List Int) :
    Sim h E E' (mp.drainEvict ns) (s.drainEvict ns) := by
  unfold MP.drainEvict
  induction ns generalizing mp s with
  | nil => exact hs
  | cons n ns ih => exact ih (hs.evictOne n)

/-- Only the fields that matter for block `h`. -/
theorem Sim.congr {h : Hash} {E E' : List PB} {mp s mp1 s1 : MP} (hs : Sim h E E' mp s) (hB : Base mp1) (hB' : Base s1)
    (e1 : mp1.tracked = mp.tracked) (e2 : mp1.frp = mp.frp) (e3 : mp1.reorgThreshold = mp.reorgThreshold)
    (e4 : mp1.oldBlocks.contains h = mp.oldBlocks.contains h) (e5 : mp1.completed.contains h = mp.completed.contains h)
    (e6 : mp1.pendingMessages.get? h = mp.pendingMessages.get? h)
    (e7 : mp1.pendingBatches.get? h = mp.pendingBatches.get? h) (e8 : mp1.emitted = mp.emitted)
    (f1 : s1.tracked = s.tracked) (f2 : s1.frp = s.frp) (f3 : s1.reorgThreshold = s.reorgThreshold)
    (f4 : s1.oldBlocks.contains h = s.oldBlocks.contains h) (f5 : s1.completed.contains h = s.completed.contains h)
    (f6 : s1.pendingMessages.get? h = s.pendingMessages.get? h)
    (f7 : s1.pendingBatches.get? h = s.pendingBatches.get? h) (f8 : s1.emitted = s.emitted) : Sim h E E' mp1 s1 :=
  ⟨hB, hB', by rw [e1, f1]; exact hs.tracked, by rw [e2, f2]; exact hs.frp, by rw [e3, f3]; exact hs.thr,
    by rw [e4, f4]; exact hs.old, by rw [e5, f5]; exact hs.compl, by rw [e6, f6]; exact hs.queue,
    by rw [e7, f7]; exact hs.pend, by rw [e8, f8, e5]; exact hs.emit⟩

/-- The own message `m` begins: the second processor serves the evictions it has not seen yet. -/
theorem Sim.begin {h : Hash} {E E' : List PB} {mp s : MP} {env env' : Env} {ns : List Int} {m : RMsg}
    (hB' : Base s) (hs : Sim h E E' mp (s.drainEvict ns)) (he : env'.evict s.tick = ns ++ env.evict mp.tick) :
    Sim h E E' (mp.begin env m) (s.begin env' m) := by
  have h1 := hs.drainEvict (env.evict mp.tick)
  have hd : (s.drainEvict ns).drainEvict (env.evict mp.tick) = s.drainEvict (env'.evict s.tick) := by
    rw [he]; unfold MP.drainEvict; rw [List.foldl_append]
  rw [hd] at h1
  have hf := begin_fields env mp m
  have hf' := begin_fields env' s m
  have hg := drainEvict_fields mp (env.evict mp.tick)
  have hg' := drainEvict_fields s (env'.evict s.tick)
  refine h1.congr (hs.base.begin env m) (hB'.begin env' m) ?_ ?_ ?_ ?_ ?_ ?_ ?_ ?_ ?_ ?_ ?_ ?_ ?_ ?_ ?_ ?_ <;>
    first
    | (apply emitted_of_log; simp [hf, hg, hf', hg']; done)
    | (simp [hf, hg, hf', hg']; done)

theorem Sim.finish {h : Hash} {E E' : List PB} {mp s : MP} (hs : Sim h E E' mp s) :
    Sim h E E' (mp.finish h) (s.finish h) := by
  have hp := hs.pend
  have hb := hs.base.finish h
  have hb' := hs.base'.finish h
  unfold MP.finish at *
  have hh := hs.base.hashes h
  have e1 : mp.pendingBatches.get? h = mp.pendingBatches.get? h := rfl
  have e2 : s.pendingBatches.get? h = s.pendingBatches.get? h := rfl
  revert hp hb hb' hh e1 e2
  generalize hx : mp.pendingBatches.get? h = x
  generalize hy : s.pendingBatches.get? h = y
  intro hp hb hb' hh _ _
  cases hp with
  | none => exact hs
  | some pb rd w =>
    simp only [] at hb hb' ⊢
    have hr : (pb.dress rd w).ready = pb.ready := rfl
    rw [hr] at hb' ⊢
    by_cases hrd : pb.ready = true
    · simp only [hrd, if_true] at hb hb' ⊢
      refine ⟨hb, hb', hs.tracked, hs.frp, hs.thr, hs.old, ?_, hs.queue, ?_, ?_⟩
      · have := hs.base.thr
        have := hs.base'.thr
        rw [(LRU.contains_iff _ _).mpr (LRU.mem_add_self s.completed h (by rw [hs.base'.cap]; omega)),
          (LRU.contains_iff _ _).mpr (LRU.mem_add_self mp.completed h (by rw [hs.base.cap]; omega))]
      · simp only [GMap.get?_erase_self]; exact .none
      · obtain ⟨es, es', h1, h2, h3, h4⟩ := hs.emit
        refine ⟨es ++ [pb], es' ++ [pb.dress rd w], ?_, ?_, ?_, ?_⟩
        · rw [emitted_append_batch (mp := mp) (pb := pb) rfl, h1]; simp
        · rw [emitted_append_batch (mp := s) (pb := pb.dress rd w) rfl, h2]; simp
        · rw [List.filter_append, List.map_append, List.map_append, h3]
          simp [hh pb rfl, PB.bare, PB.dress]
        · have hc : mp.completed.contains h = false := by
            cases hc : mp.completed.contains h with
            | false => rfl
            | true => have := hs.base.compl h hc; rw [hx] at this; simp at this
          have := hs.base.thr
          rw [hc] at h4
          rw [(LRU.contains_iff _ _).mpr (LRU.mem_add_self mp.completed h (by rw [hs.base.cap]; omega)), List.filter_append,
            List.length_append, h4]
          simp [hh pb rfl]
    · simp only [hrd] at hb hb' ⊢
      exact hs

/-! ## Steps on own messages -/

/-- Both processors return the same, and stay alike. -/
def SimR (h : Hash) (E E' : List PB) (env env' : Env) (r r' : MPResult) : Prop :=
  match r with
  | .error _ => True
  | .ok (mp, e) => ∃ s, r' = .ok (s, e) ∧ Sim h E E' mp s ∧ Agree env env' mp.tick s.tick

theorem finish_tick (mp : MP) (h : Hash) : (mp.finish h).tick = mp.tick := by
  rcases finish_cases mp h with ⟨he, _⟩ | ⟨pb, _, _, he⟩ <;> rw [he]

theorem Sim.finishR {h : Hash} {E E' : List PB} {env env' : Env} {mp s : MP} {e : Option Err} (hs : Sim h E E' mp s)
    (ha : Agree env env' mp.tick s.tick) : SimR h E E' env env' (.ok (mp.finish h, e)) (.ok (s.finish h, e)) :=
  ⟨_, rfl, hs.finish, by rw [finish_tick, finish_tick]; exact ha⟩

theorem Sim.update {h : Hash} {E E' : List PB} {mp s : MP} (hs : Sim h E E' mp s) {pb pb1 : PB} (rd : GMap GoStr Int)
    (w : Option Nat) (hp : mp.pendingBatches.get? h = some pb) (hp' : s.pendingBatches.get? h = some (pb.dress rd w))
    (hh : pb1.hash = pb.hash) :
    Sim h E E' { mp with pendingBatches := mp.pendingBatches.insert h pb1 }
      { s with pendingBatches := s.pendingBatches.insert h (pb1.dress rd w) } :=
  ⟨hs.base.update hp hh, hs.base'.update hp' hh, hs.tracked, hs.frp, hs.thr, hs.old, hs.compl, hs.queue,
    by simp only [GMap.get?_insert_self]; exact .some _ _ _, hs.emit⟩

theorem Sim.queueMessage {h : Hash} {E E' : List PB} {mp s : MP} {m : RMsg} (hs : Sim h E E' mp s) (hq : QueueType m)
    (hm : hashOf m.key = h) : Sim h E E' (mp.queueMessage h m) (s.queueMessage h m) := by
  subst hm
  refine ⟨hs.base.queueMessage hq, hs.base'.queueMessage hq, hs.tracked, hs.frp, hs.thr, hs.old, hs.compl, ?_, hs.pend,
    hs.emit⟩
  simp only [MP.queueMessage, GMap.get?_insert_self, hs.queue]

theorem Sim.onSubHeader {h : Hash} {E E' : List PB} {env env' : Env} {mp s : MP} {m : RMsg} (C : Codec) (hs : Sim h E E' mp s)
    (ha : Agree env env' mp.tick s.tick) (hq : QueueType m) (hm : hashOf m.key = h) :
    SimR h E E' env env' (mp.onSubHeader C env m h) (s.onSubHeader C env' m h) := by
  have hp := hs.pend
  unfold MP.onSubHeader
  cases hx : mp.pendingBatches.get? h with
  | none =>
    rw [hx] at hp
    generalize hy : s.pendingBatches.get? h = y at hp
    cases hp
    exact ⟨_, rfl, hs.queueMessage hq hm, ha⟩
  | some pb =>
    rw [hx] at hp
    generalize hy : s.pendingBatches.get? h = y at hp
    cases hp with
    | some _ rd w =>
      simp only []
      have e1 : (pb.dress rd w).pendingBatches = pb.pendingBatches := rfl
      rw [e1]
      by_cases hc : pb.pendingBatches.contains (bytesToHash (m.key.drop 33)) = true
      · simp only [hc]
        cases hd : C.decInt m.value with
        | none => exact ⟨_, rfl, hs.update (pb1 := { pb with pendingBatches := _ }) rd w hx hy rfl, ha⟩
        | some c =>
          simp only [Bool.not_true, dress_addSub ha]
          cases ho : pb.addSubHeader C env mp.tick m (bytesToHash (m.key.drop 33)) c with
          | error f => trivial
          | ok pb1 => exact (hs.update rd w hx hy (sameHead_addSub ho).hash).finishR ha
      · simp only [hc]
        exact ⟨_, rfl, hs, ha⟩

theorem Sim.onOther {h : Hash} {E E' : List PB} {env env' : Env} {mp s : MP} {m : RMsg} (C : Codec) (hs : Sim h E E' mp s)
    (ha : Agree env env' mp.tick s.tick) (hq : QueueType m) (hm : hashOf m.key = h) :
    SimR h E E' env env' (mp.onOther C m h) (s.onOther C m h) := by
  have hp := hs.pend
  unfold MP.onOther
  cases hx : mp.pendingBatches.get? h with
  | none =>
    rw [hx] at hp
    generalize hy : s.pendingBatches.get? h = y at hp
    cases hp
    exact ⟨_, rfl, hs.queueMessage hq hm, ha⟩
  | some pb =>
    rw [hx] at hp
    generalize hy : s.pendingBatches.get? h = y at hp
    cases hp with
    | some _ rd w =>
      simp only [dress_apply]
      cases ho : pb.applyMessage C m with
      | error f => trivial
      | ok r =>
        obtain ⟨pb1, b⟩ := r
        exact (hs.update rd w hx hy (sameHead_apply ho).hash).finishR ha

theorem Sim.onReorg {h : Hash} {E E' : List PB} {env env' : Env} {mp s : MP} {m : RMsg} (C : Codec) (hs : Sim h E E' mp s)
    (ha : Agree env env' mp.tick s.tick) (x : Hash) (hc : mp.completed.contains h = false) :
    SimR h E E' env env' (mp.onReorg C m x) (s.onReorg C m x) := by
  have key : ∀ mp : MP, Base mp →
      Base { mp with completed := LRU.new (2 * mp.reorgThreshold).toNat, oldBlocks := GMap.empty } := fun mp hB =>
    ⟨hB.hashes, hB.queue, fun x hx => by simp [LRU.contains, LRU.new] at hx, fun x hx => by
      simp [GMap.contains, GMap.get?_empty] at hx, hB.thr, rfl⟩
  have k1 := key mp hs.base
  have k2 := key s hs.base'
  have hc0 : (LRU.new (2 * mp.reorgThreshold).toNat : LRU Hash).contains h = false := by simp [LRU.contains, LRU.new]
  have hem := hs.emit
  unfold MP.onReorg
  simp only []
  cases hd : C.decInt m.value with
  | none =>
    refine ⟨_, rfl, ⟨k1, k2, hs.tracked, hs.frp, hs.thr, rfl, ?_, hs.queue, hs.pend, ?_⟩, ha⟩
    · simp only [hs.thr]
    · rw [hc0]; rw [hc] at hem; exact hem
  | some num =>
    refine ⟨_, rfl, ⟨⟨k1.hashes, k1.queue, k1.compl, k1.old, k1.thr, k1.cap⟩,
      ⟨k2.hashes, k2.queue, k2.compl, k2.old, k2.thr, k2.cap⟩, hs.tracked, hs.frp, hs.thr, rfl, ?_, hs.queue, hs.pend, ?_⟩, ha⟩
    · simp only [hs.thr]
    · have e1 : ∀ mp : MP, ∀ l o n, MP.emitted { mp with
          completed := l, oldBlocks := o, lastEmittedNum := n, log := mp.log ++ [MPOut.reorg num x] } = mp.emitted := by
        intro mp l o n; simp [MP.emitted]
      rw [e1 mp, e1 s, hc0]
      rw [hc] at hem; exact hem

/-- An own message that is no header, after `begin`. -/
theorem Sim.step_queued_begun {h : Hash} {E E' : List PB} {env env' : Env} {mp s : MP} {m : RMsg} {C : Codec}
    {self self' : MP → RMsg → MPResult}
    (hs : Sim h E E' (mp.begin env m) (s.begin env' m)) (ha : Agree env env' (mp.begin env m).tick (s.begin env' m).tick)
    (hq : QueueType m) (hm : hashOf m.key = h) :
    SimR h E E' env env' (MP.step C env self mp m) (MP.step C env' self' s m) := by
  unfold MP.step
  generalize mp.begin env m = mp1 at hs ha
  generalize s.begin env' m = s1 at hs ha
  simp only [hm, hs.compl, hs.old, hq.1, hq.2, if_false]
  split
  · trivial
  · split
    · exact ⟨_, rfl, hs, ha⟩
    · split
      · exact ⟨_, rfl, hs, ha⟩
      · split
        · exact hs.onSubHeader C ha hq hm
        · exact hs.onOther C ha hq hm

theorem begin_tick (env : Env) (mp : MP) (m : RMsg) : (mp.begin env m).tick = mp.tick + 1 := by
  unfold MP.begin
  obtain ⟨r, hr⟩ := MP.updateResumption_eq (mp.drainEvict (env.evict mp.tick)) m.source m.offset
  rw [hr]
  simp [drainEvict_fields mp (env.evict mp.tick)]

/-- An own message that is no header, within a replay. -/
theorem Sim.step_queued {h : Hash} {E E' : List PB} {env env' : Env} {mp s : MP} {m : RMsg} {C : Codec}
    {self self' : MP → RMsg → MPResult}
    (hs : Sim h E E' mp s) (ha : Agree env env' mp.tick s.tick) (hq : QueueType m) (hm : hashOf m.key = h) :
    SimR h E E' env env' (MP.step C env self mp m) (MP.step C env' self' s m) := by
  refine Sim.step_queued_begun (Sim.begin (ns := []) hs.base' hs (ha.evict 0)) ?_ hq hm
  rw [begin_tick, begin_tick]; exact ha.next

theorem Sim.replay {h : Hash} {E E' : List PB} {env env' : Env} {mp s : MP} {self self' : MP → RMsg → MPResult} {ms : List RMsg}
    (hself : ∀ mp s, ∀ m ∈ ms, Sim h E E' mp s → Agree env env' mp.tick s.tick → SimR h E E' env env' (self mp m) (self' s m))
    (hs : Sim h E E' mp s) (ha : Agree env env' mp.tick s.tick) :
    SimR h E E' env env' (Verif.replay self mp ms) (Verif.replay self' s ms) := by
  induction ms generalizing mp s with
  | nil => exact ⟨_, rfl, hs, ha⟩
  | cons m ms ih =>
    have h1 := hself mp s m (by simp) hs ha
    simp only [Verif.replay]
    match hr : self mp m with
    | .error f => trivial
    | .ok (mp1, some e) =>
      rw [hr] at h1
      obtain ⟨s1, h2, h3, h4⟩ := h1
      rw [h2]; exact ⟨_, rfl, h3, h4⟩
    | .ok (mp1, none) =>
      rw [hr] at h1
      obtain ⟨s1, h2, h3, h4⟩ := h1
      rw [h2]
      exact ih (fun mp s m' hm => hself mp s m' (by simp [hm])) h3 h4

theorem Sim.addHeader {h : Hash} {E E' : List PB} {env env' : Env} {mp s : MP} {m : RMsg} {b : Batch} {C : Codec}
    (hs : Sim h E E' mp s) (ha : Agree env env' mp.tick s.tick) (hm : hashOf m.key = h) (ht : m.key.headD 0 = BatchType)
    (hc : mp.completed.contains h = false) (ho : mp.oldBlocks.contains h = false) (hp : mp.pendingBatches.get? h = none)
    (hd : C.decBatch m.value = some b) :
    Sim h E E' (mp.addHeader env m h b) (s.addHeader env' m h b) := by
  have hp' : s.pendingBatches.get? h = none := by
    have := hs.pend
    rw [hp] at this
    generalize s.pendingBatches.get? h = y at this
    cases this; rfl
  have bp := base_parts C env (fun _ => True) (fun _ => trivial)
  have bp' := base_parts C env' (fun _ => True) (fun _ => trivial)
  have hb := bp.add mp m b trivial hs.base ht (hm ▸ hc) (hm ▸ ho) hd (hm ▸ hp)
  have hb' := bp'.add s m b trivial hs.base' ht (by rw [hm, hs.compl]; exact hc) (by rw [hm, hs.old]; exact ho) hd (hm ▸ hp')
  rw [hm] at hb hb'
  refine ⟨hb, hb', hs.tracked, hs.frp, hs.thr, hs.old, hs.compl, hs.queue, ?_, ?_⟩
  · simp only [MP.addHeader, GMap.get?_insert_self]
    have e1 : newPB s h b m = (newPB mp h b m).dress s.resumption (some s.nextCh) := by
      unfold newPB
      rw [← dress_update]
      simp only [PB.dress, hs.frp]
    have e2 := ha.ord 0 b.updates.entries
    rw [Nat.add_zero, Nat.add_zero] at e2
    rw [e1, e2, dress_headerFold, hs.tracked]
    exact .some _ _ _
  · rw [addHeader_emitted, addHeader_emitted]; exact hs.emit

/-- A whole own message: the second processor can do what the first does. -/
theorem Sim.process {h : Hash} {E E' : List PB} {env env' : Env} {mp s : MP} {m : RMsg} {C : Codec}
    (hs : Sim h E E' (mp.begin env m) (s.begin env' m)) (ha : Agree env env' (mp.begin env m).tick (s.begin env' m).tick)
    (hm : m.key.headD 0 = ReorgType ∨ hashOf m.key = h) (hnc : mp.completed.contains h = false) :
    SimR h E E' env env' (mp.processMessage C env m) (s.processMessage C env' m) := by
  rw [← (begin_fields env mp m).1] at hnc
  by_cases hr : m.key.headD 0 = ReorgType
  · unfold MP.processMessage MP.step
    generalize mp.begin env m = mp1 at hs ha hnc
    generalize s.begin env' m = s1 at hs ha
    simp only [hr, if_true]
    split
    · trivial
    · exact hs.onReorg C ha _ hnc
  · have hm : hashOf m.key = h := hm.resolve_left hr
    by_cases hb : m.key.headD 0 = BatchType
    · unfold MP.processMessage
      have hself : ∀ mp s m', QueueType m' → hashOf m'.key = h → Sim h E E' mp s → Agree env env' mp.tick s.tick →
          SimR h E E' env env' (MP.step C env (fun _ _ => .error .hang) mp m') (MP.step C env' (fun _ _ => .error .hang) s m') :=
        fun mp s m' h1 h2 h3 h4 => h3.step_queued h4 h1 h2
      generalize MP.step C env (fun _ _ => .error .hang) = self at hself
      generalize MP.step C env' (fun _ _ => .error .hang) = self' at hself
      unfold MP.step
      generalize mp.begin env m = mp1 at hs ha
      generalize s.begin env' m = s1 at hs ha
      simp only [hm, hs.compl, hs.old]
      split
      · trivial
      split
      · exact ⟨_, rfl, hs, ha⟩
      rename_i hc
      split
      · exact ⟨_, rfl, hs, ha⟩
      rename_i ho
      unfold MP.onHeader
      cases hd : C.decBatch m.value with
      | none => exact ⟨_, rfl, hs, ha⟩
      | some b =>
        have hcc : s1.pendingBatches.contains h = mp1.pendingBatches.contains h := by
          have := hs.pend
          unfold GMap.contains
          generalize mp1.pendingBatches.get? h = x at *
          generalize s1.pendingBatches.get? h = y at *
          cases this <;> rfl
        simp only [hcc]
        by_cases hp : mp1.pendingBatches.contains h = true
        · simp only [hp, if_true]; exact ⟨_, rfl, hs, ha⟩
        · rw [if_neg hp, if_neg hp]
          have hadd := hs.addHeader ha hm hb (Bool.eq_false_iff.mpr hc) (Bool.eq_false_iff.mpr ho)
            (by rw [← GMap.contains_eq_false]; exact Bool.eq_false_iff.mpr hp) hd
          have ha2 : Agree env env' (mp1.addHeader env m h b).tick (s1.addHeader env' m h b).tick := ha
          generalize mp1.addHeader env m h b = mp2 at hadd ha2
          generalize s1.addHeader env' m h b = s2 at hadd ha2
          rw [hadd.queue]
          cases hq : mp2.pendingMessages.get? h with
          | none => exact hadd.finishR ha2
          | some q =>
            simp only [ha2.ord 1 q.entries]
            have hrep := hadd.replay (self := self) (self' := self')
              (ms := (env.order.ord (2 * mp2.tick + 1) q.entries).map Prod.snd) (fun mp s m' hm' h1 h2 => by
                obtain ⟨e, he, rfl⟩ := List.mem_map.mp hm'
                have := hadd.base.queue h q e hq ((env.order.perm _ _).mem_iff.mp he)
                exact hself mp s e.2 this.1 this.2.1 h1 h2) ha2
            revert hrep
            generalize Verif.replay self mp2 _ = r
            generalize Verif.replay self' s2 _ = r'
            intro hrep
            match r, hrep with
            | .error _, _ => trivial
            | .ok (_, some _), ⟨s3, h1, h2, h3⟩ => rw [h1]; exact ⟨_, rfl, h2, h3⟩
            | .ok (mp3, none), ⟨s3, h1, h2, h3⟩ =>
              rw [h1]
              have bp := base_parts C env (fun _ => True) (fun _ => trivial)
              have bd := bp.drop mp3 m trivial hb h2.base
              have bd' := bp.drop s3 m trivial hb h2.base'
              rw [hm] at bd bd'
              refine Sim.finishR (env := env) (env' := env') (mp := { mp3 with pendingMessages := mp3.pendingMessages.erase h })
                (s := { s3 with pendingMessages := s3.pendingMessages.erase h })
                ⟨bd, bd', h2.tracked, h2.frp, h2.thr, h2.old, h2.compl, ?_, h2.pend, h2.emit⟩ h3
              simp only [GMap.get?_erase_self]
    · exact Sim.step_queued_begun hs ha ⟨hr, hb⟩ hm

/-! ## Steps on messages of other blocks -/

/-- Nothing of `h` was emitted, and the second processor would hold `h` the same way if it had served some evictions. -/
def Lag (h : Hash) (E E' : List PB) (s mp : MP) : Prop :=
  mp.completed.contains h = false ∧ ∃ ns, Base mp → Sim h E E' mp (s.drainEvict ns)

theorem Lag.congr {h : Hash} {E E' : List PB} {s mp mp1 : MP} (hB : Base mp) (hl : Lag h E E' s mp)
    (e1 : mp1.tracked = mp.tracked) (e2 : mp1.frp = mp.frp) (e3 : mp1.reorgThreshold = mp.reorgThreshold)
    (e4 : mp1.oldBlocks.contains h = mp.oldBlocks.contains h) (e5 : mp1.completed.contains h = mp.completed.contains h)
    (e6 : mp1.pendingMessages.get? h = mp.pendingMessages.get? h)
    (e7 : mp1.pendingBatches.get? h = mp.pendingBatches.get? h)
    (e8 : ∃ es, mp1.emitted = mp.emitted ++ es ∧ ∀ pb ∈ es, pb.hash ≠ h) : Lag h E E' s mp1 := by
  obtain ⟨hc, ns, hs⟩ := hl
  have hs := hs hB
  refine ⟨e5.trans hc, ns, fun hB1 => ⟨hB1, hs.base', ?_, ?_, ?_, ?_, ?_, ?_, ?_, ?_⟩⟩
  · rw [e1]; exact hs.tracked
  · rw [e2]; exact hs.frp
  · rw [e3]; exact hs.thr
  · rw [e4]; exact hs.old
  · rw [e5]; exact hs.compl
  · rw [e6]; exact hs.queue
  · rw [e7]; exact hs.pend
  · obtain ⟨x, h1, h2⟩ := e8
    obtain ⟨es, es', k1, k2, k3, k4⟩ := hs.emit
    have hx : x.filter (·.hash = h) = [] := by
      rw [List.filter_eq_nil_iff]; intro pb hpb; simpa using h2 pb hpb
    refine ⟨es ++ x, es', by rw [h1, k1]; simp, k2, ?_, ?_⟩
    · rw [List.filter_append, hx, List.append_nil]; exact k3
    · rw [List.filter_append, hx, List.append_nil, e5]; exact k4

theorem Lag.same {h : Hash} {E E' : List PB} {s mp mp1 : MP} (hB : Base mp) (hl : Lag h E E' s mp)
    (e1 : mp1.tracked = mp.tracked) (e2 : mp1.frp = mp.frp) (e3 : mp1.reorgThreshold = mp.reorgThreshold)
    (e4 : mp1.oldBlocks = mp.oldBlocks) (e5 : mp1.completed = mp.completed)
    (e6 : mp1.pendingMessages.get? h = mp.pendingMessages.get? h)
    (e7 : mp1.pendingBatches.get? h = mp.pendingBatches.get? h) (e8 : mp1.emitted = mp.emitted) : Lag h E E' s mp1 :=
  hl.congr hB e1 e2 e3 (by rw [e4]) (by rw [e5]) e6 e7 ⟨[], by simp [e8], by simp⟩

theorem Lag.finish {h : Hash} {E E' : List PB} {s mp : MP} (hB : Base mp) (hl : Lag h E E' s mp) {x : Hash} (hne : x ≠ h) :
    Lag h E E' s (mp.finish x) := by
  rcases finish_cases mp x with ⟨he, _⟩ | ⟨pb, hp, hr, he⟩
  · rw [he]; exact hl
  · rw [he]
    refine hl.congr hB rfl rfl rfl rfl ?_ rfl ?_ ⟨[pb], emitted_append_batch rfl, ?_⟩
    · rw [hl.1]
      cases hc : (mp.completed.add x).1.contains h with
      | false => simp only
      | true =>
        rcases LRU.mem_of_mem_add ((LRU.contains_iff _ _).mp hc) with e | e
        · exact absurd e.symm hne
        · have := hl.1
          rw [(LRU.contains_iff _ _).mpr e] at this; simp at this
    · simp only [GMap.get?_erase_ne _ hne]
    · intro q hq; simp only [List.mem_singleton] at hq; subst hq; rw [hB.hashes _ _ hp]; exact hne

theorem lag_parts (C : Codec) (env : Env) (h : Hash) (E E' : List PB) (s : MP) :
    XParts C env true (fun m => m.key.headD 0 ≠ ReorgType ∧ hashOf m.key ≠ h) (Lag h E E' s) where
  begin mp m _ hB hl := by
    obtain ⟨hc, ns, hs⟩ := hl
    have h1 := (hs hB).drainEvict (env.evict mp.tick)
    have hd : (s.drainEvict ns).drainEvict (env.evict mp.tick) = s.drainEvict (ns ++ env.evict mp.tick) := by
      unfold MP.drainEvict; rw [List.foldl_append]
    rw [hd] at h1
    have hf := begin_fields env mp m
    have hg := drainEvict_fields mp (env.evict mp.tick)
    refine ⟨by rw [hf.1]; exact hc, _, fun hB1 => h1.congr hB1 h1.base' ?_ ?_ ?_ ?_ ?_ ?_ ?_ ?_ rfl rfl rfl rfl rfl rfl rfl rfl⟩ <;>
      first
      | (apply emitted_of_log; simp [hf, hg]; done)
      | (simp [hf, hg]; done)
  short := .inl rfl
  reorg mp m hq _ hv ht := absurd ht hq.1
  add mp m b hne hB hl ht _ _ _ _ := hl.same hB rfl rfl rfl rfl rfl rfl
    (by simp only [MP.addHeader, GMap.get?_insert_ne _ _ hne.2]) (addHeader_emitted _ _ _ _ _)
  sub mp m hne hB hl hqt _ _ _ := by
    unfold MP.onSubHeader
    split
    · exact hl.same hB rfl rfl rfl rfl rfl (by unfold MP.queueMessage; rw [GMap.get?_insert_ne _ _ hne.2]) rfl rfl
    · rename_i pb hp
      simp only []
      split
      · exact hl
      · split
        · exact hl.same hB rfl rfl rfl rfl rfl rfl (by simp only [GMap.get?_insert_ne _ _ hne.2]) rfl
        · split
          · rfl
          · rename_i pb' hpb
            exact (hl.same hB rfl rfl rfl rfl rfl rfl (by simp only [GMap.get?_insert_ne _ _ hne.2]) rfl : Lag h E E' s
              { mp with pendingBatches := mp.pendingBatches.insert (hashOf m.key) pb' }).finish
              (hB.update hp (sameHead_addSub hpb).hash) hne.2
  other mp m hne hB hl hqt _ _ _ := by
    unfold MP.onOther
    split
    · exact hl.same hB rfl rfl rfl rfl rfl (by unfold MP.queueMessage; rw [GMap.get?_insert_ne _ _ hne.2]) rfl rfl
    · rename_i pb hp
      split
      · rfl
      · rename_i pb' _ hpb
        exact (hl.same hB rfl rfl rfl rfl rfl rfl (by simp only [GMap.get?_insert_ne _ _ hne.2]) rfl : Lag h E E' s
          { mp with pendingBatches := mp.pendingBatches.insert (hashOf m.key) pb' }).finish
          (hB.update hp (sameHead_apply hpb).hash) hne.2
  queued mp m q' e hne ht hB hv hq he := by
    refine ⟨(hB.queue _ _ _ hq he).1.1, ?_⟩
    rw [(hB.queue _ _ _ hq he).2.1]
    exact hne.2
  drop mp m hne ht hB hl := hl.same hB rfl rfl rfl rfl rfl (by simp only [GMap.get?_erase_ne _ hne.2]) rfl rfl
  finish mp m hne ht hB hl := hl.finish hB hne.2

/-! ## Runs -/

/-- The environment under which the second processor repeats a step. -/
def Env.follow (env : Env) (t t' : Nat) (ns : List Int) : Env where
  order := ⟨fun n l => env.order.ord (n - 2 * t' + 2 * t) l, fun _ _ => env.order.perm _ _⟩
  evict n := if n = t' then ns ++ env.evict t else env.evict (n - t' + t)

theorem follow_agree (env : Env) (t t' : Nat) (ns : List Int) : Agree env (env.follow t t' ns) (t + 1) (t' + 1) where
  evict d := by
    simp only [Env.follow]
    rw [if_neg (by omega), show t' + 1 + d - t' + t = t + 1 + d by omega]
  ord d l := by
    simp only [Env.follow]
    rw [show 2 * (t' + 1) + d - 2 * t' + 2 * t = 2 * (t + 1) + d by omega]

theorem isReorg_iff (m : RMsg) : IsReorg m ↔ m.key.headD 0 = ReorgType := by
  unfold IsReorg ReorgType
  cases m.key with
  | nil => simp
  | cons a r => simp

theorem process_base {C : Codec} {env : Env} {mp mp' : MP} {m : RMsg} {e : Option Err} (hB : Base mp)
    (hr : mp.processMessage C env m = .ok (mp', e)) : Base mp' :=
  ((base_parts C env (fun _ => True) (fun _ => trivial)).process trivial hB).ok hr

theorem grows_parts (C : Codec) (env : Env) (E : List PB) : XParts C env true (fun _ => True) (fun mp => ∃ es, mp.emitted = E ++ es) := by
  have fin : ∀ (mp : MP) (x : Hash), (∃ es, mp.emitted = E ++ es) → ∃ es, (mp.finish x).emitted = E ++ es := by
    intro mp x ⟨es, h⟩
    rcases finish_cases mp x with ⟨he, _⟩ | ⟨pb, hp, hr, he⟩
    · rw [he]; exact ⟨es, h⟩
    · rw [he]; exact ⟨es ++ [pb], by rw [emitted_append_batch (mp := mp) (pb := pb) rfl, h]; simp⟩
  exact {
    begin := fun mp m _ hB ⟨es, h⟩ => ⟨es, by rw [emitted_of_log (begin_fields env mp m).2.2.1]; exact h⟩
    short := .inl rfl
    reorg := fun mp m _ _ ⟨es, h⟩ _ => Post.of_ok fun mp' e hr => ⟨es, by rw [onReorg_emitted hr]; exact h⟩
    add := fun mp m b _ hB ⟨es, h⟩ _ _ _ _ _ => ⟨es, by rw [addHeader_emitted]; exact h⟩
    sub := fun mp m _ hB hb hqt _ _ _ => by
      unfold MP.onSubHeader
      split
      · exact hb
      · simp only []
        split
        · exact hb
        · split
          · exact hb
          · split
            · rfl
            · exact fin _ _ hb
    other := fun mp m _ hB hb hqt _ _ _ => by
      unfold MP.onOther
      split
      · exact hb
      · split
        · rfl
        · exact fin _ _ hb
    queued := fun _ _ _ _ _ _ _ _ _ _ => trivial
    drop := fun mp m _ _ _ h => h
    finish := fun mp m _ _ hB h => fin _ _ h }

theorem fed_grows {C : Codec} {mp mp' : MP} {ms : List RMsg} (hB : Base mp) (hf : Fed C mp ms mp') :
    ∃ es, mp'.emitted = mp.emitted ++ es := by
  induction hf with
  | nil mp => exact ⟨[], by simp⟩
  | cons env step rest ih =>
    rename_i mp mp1 mp2 m ms e
    obtain ⟨es, h1⟩ := (((grows_parts C env mp.emitted).toParts.process trivial ⟨hB, [], by simp⟩).ok step).2
    obtain ⟨es', h2⟩ := ih (process_base hB step)
    exact ⟨es ++ es', by rw [h2, h1]; simp⟩

theorem own_run {C : Codec} {h : Hash} {E E' es : List PB} {mp mp' s : MP} {ms : List RMsg} {pb : PB}
    (hf : Fed C mp ms mp') (hB : Base mp) (hBs : Base s) (hl : Lag h E E' s mp) (hem : mp'.emitted = E ++ es)
    (hfst : es.find? (·.hash = h) = some pb) :
    ∃ ms1 ms2 s' pb', ms = ms1 ++ ms2 ∧ Fed C s (ms1.filter (Own h)) s' ∧ s'.emitted = E' ++ [pb'] ∧ pb.bare = pb'.bare := by
  induction hf generalizing s with
  | nil mp =>
    obtain ⟨hc, ns, hs⟩ := hl
    obtain ⟨es1, es', k1, k2, k3, k4⟩ := (hs hB).emit
    rw [hc] at k4
    rw [hem] at k1
    have := List.append_cancel_left k1
    subst this
    have h1 := List.find?_some hfst
    have h2 : pb ∈ es.filter (·.hash = h) := List.mem_filter.mpr ⟨List.mem_of_find?_eq_some hfst, h1⟩
    have h3 : es.filter (·.hash = h) = [] := List.eq_nil_of_length_eq_zero (by simpa using k4)
    rw [h3] at h2; simp at h2
  | cons env step rest ih =>
    rename_i mp mp1 mp2 m ms e
    have hB1 := process_base hB step
    by_cases hown : Own h m
    · obtain ⟨hc, ns, hs⟩ := hl
      have hs := hs hB
      have hown' : m.key.headD 0 = ReorgType ∨ hashOf m.key = h := by
        rcases hown with hw | hw
        · exact .inl ((isReorg_iff m).mp hw)
        · exact .inr hw
      have hsim := Sim.process (C := C) (m := m) (env' := env.follow mp.tick s.tick ns)
        (Sim.begin (env := env) hBs hs (by simp [Env.follow])) (by rw [begin_tick, begin_tick]; exact follow_agree _ _ _ _) hown' hc
      rw [step] at hsim
      obtain ⟨s1, h1, h2, h3⟩ := hsim
      cases hc1 : mp1.completed.contains h with
      | false =>
        obtain ⟨ms1, ms2, s', pb', r1, r2, r3, r4⟩ := ih hB1 h2.base' ⟨hc1, [], fun _ => h2⟩ hem
        refine ⟨m :: ms1, ms2, s', pb', by rw [r1]; rfl, ?_, r3, r4⟩
        rw [List.filter_cons, if_pos (by simpa using hown)]
        exact .cons _ h1 r2
      | true =>
        obtain ⟨es1, es', k1, k2, k3, k4⟩ := h2.emit
        rw [hc1, if_pos rfl] at k4
        obtain ⟨p1, hp1⟩ := List.length_eq_one_iff.mp k4
        rw [hp1] at k3
        have hl' : es'.length = 1 := by
          have := congrArg List.length k3; simpa using this.symm
        obtain ⟨pb', hpb'⟩ := List.length_eq_one_iff.mp hl'
        rw [hpb'] at k3 k2
        obtain ⟨x, hx⟩ := fed_grows hB1 rest
        have hes : es = es1 ++ x := by
          rw [hem, k1, List.append_assoc] at hx; exact List.append_cancel_left hx
        have hfind : es1.find? (·.hash = h) = some p1 := by
          rw [← List.head?_filter, hp1]; rfl
        have : pb = p1 := by
          rw [hes, List.find?_append, hfind] at hfst; simpa using hfst.symm
        subst this
        refine ⟨[m], ms, s1, pb', rfl, ?_, k2, by simpa using k3⟩
        rw [List.filter_cons, if_pos (by simpa using hown)]
        exact .cons _ h1 (.nil _)
    · have hne : m.key.headD 0 ≠ ReorgType ∧ hashOf m.key ≠ h :=
        ⟨fun hr => hown (.inl ((isReorg_iff m).mpr hr)), fun hr => hown (.inr hr)⟩
      have hl1 := (((lag_parts C env h E E' s).toParts.process hne ⟨hB, hl⟩).ok step).2
      obtain ⟨ms1, ms2, s', pb', r1, r2, r3, r4⟩ := ih hB1 hBs hl1 hem
      refine ⟨m :: ms1, ms2, s', pb', by rw [r1]; rfl, ?_, r3, r4⟩
      rw [List.filter_cons, if_neg (by simpa using hown)]
      exact r2

theorem run_fed {C : Codec} {env : Env} {mp mp' : MP} {ms : List RMsg} (h : mp.run C env ms = .ok mp') : Fed C mp ms mp' := by
  induction ms generalizing mp with
  | nil => simp [MP.run] at h; subst h; exact .nil _
  | cons m ms ih =>
    simp only [MP.run] at h
    match hp : mp.processMessage C env m with
    | .error f => rw [hp] at h; simp at h
    | .ok (mp1, e) => rw [hp] at h; exact .cons env hp (ih h)

theorem bare_same {a b : PB} (h : a.bare = b.bare) : SameBlock a b := by
  have f : ∀ {α : Type} (g : PB → α), g a.bare = g b.bare := fun g => by rw [h]
  exact ⟨f PB.hash, f PB.parentHash, f PB.number, f PB.weight, fun k => f (fun p => p.values.get? k),
    fun k => f (fun p => p.deletes.contains k), fun k => f (fun p => p.resumption.get? k)⟩

end Verif
