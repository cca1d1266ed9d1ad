import Verif.Model.Consumer
import Verif.Proofs.GMap
/-! Proof principles for `ProcessMessage`. -/
namespace Verif

/-- `P` holds of the resulting state; faults are allowed iff `af`. -/
def Post (af : Bool) (P : MP → Prop) : MPResult → Prop
  | .ok (mp, _) => P mp
  | .error _ => af = true

theorem Post.mono {af : Bool} {P Q : MP → Prop} {r : MPResult} (h : Post af P r) (hpq : ∀ mp, P mp → Q mp) : Post af Q r := by
  match r with
  | .ok (mp, _) => exact hpq _ h
  | .error _ => exact h

theorem Post.of_ok {P : MP → Prop} {r : MPResult} (h : ∀ mp e, r = .ok (mp, e) → P mp) : Post true P r := by
  match r with
  | .ok (mp, _) => exact h _ _ rfl
  | .error _ => rfl

theorem Post.ok {af : Bool} {P : MP → Prop} {r : MPResult} {mp : MP} {e : Option Err} (h : Post af P r)
    (hr : r = .ok (mp, e)) : P mp := by subst hr; exact h

theorem Post.total {P : MP → Prop} {r : MPResult} (h : Post false P r) : ∃ mp e, r = .ok (mp, e) ∧ P mp := by
  match r with
  | .ok (mp, e) => exact ⟨mp, e, rfl, h⟩
  | .error _ => simp [Post] at h

theorem replay_post {af : Bool} {P : MP → Prop} {self : MP → RMsg → MPResult} {ms : List RMsg} {mp : MP} (h : P mp)
    (hs : ∀ mp m, P mp → m ∈ ms → Post af P (self mp m)) : Post af P (replay self mp ms) := by
  induction ms generalizing mp with
  | nil => exact h
  | cons m ms ih =>
    have h1 := hs mp m h (by simp)
    simp only [replay]
    match hr : self mp m with
    | .error f => rw [hr] at h1; exact h1
    | .ok (mp', some e) => rw [hr] at h1; exact h1
    | .ok (mp', none) =>
      rw [hr] at h1
      exact ih h1 (fun mp m hp hm => hs mp m hp (by simp [hm]))

/-- The types that are queued. -/
def QueueType (m : RMsg) : Prop := m.key.headD 0 ≠ ReorgType ∧ m.key.headD 0 ≠ BatchType

/-- One invariant for all of `ProcessMessage`: `P` is kept by each part of it. `Q` says which messages are processed, `P` must
imply that queued messages satisfy `Q` and were queued under their own hash. -/
structure Parts (C : Codec) (env : Env) (af : Bool) (Q : RMsg → Prop) (P : MP → Prop) : Prop where
  begin : ∀ mp m, Q m → P mp → P (mp.begin env m)
  short : af = true ∨ ∀ m, Q m → ¬ m.key.length < 33
  reorg : ∀ mp m, Q m → P mp → m.key.headD 0 = ReorgType → Post af P (mp.onReorg C m (hashOf m.key))
  add : ∀ mp m b, Q m → P mp → m.key.headD 0 = BatchType → mp.completed.contains (hashOf m.key) = false →
    mp.oldBlocks.contains (hashOf m.key) = false → C.decBatch m.value = some b →
    mp.pendingBatches.get? (hashOf m.key) = none → P (mp.addHeader env m (hashOf m.key) b)
  sub : ∀ mp m, Q m → P mp → QueueType m → mp.completed.contains (hashOf m.key) = false →
    mp.oldBlocks.contains (hashOf m.key) = false → m.key.headD 0 = SubBatchHeaderType →
    Post af P (mp.onSubHeader C env m (hashOf m.key))
  other : ∀ mp m, Q m → P mp → QueueType m → mp.completed.contains (hashOf m.key) = false →
    mp.oldBlocks.contains (hashOf m.key) = false → m.key.headD 0 ≠ SubBatchHeaderType →
    Post af P (mp.onOther C m (hashOf m.key))
  queued : ∀ mp m q e, Q m → m.key.headD 0 = BatchType → P mp → mp.pendingMessages.get? (hashOf m.key) = some q →
    e ∈ q.entries → Q e.2 ∧ QueueType e.2
  drop : ∀ mp m, Q m → m.key.headD 0 = BatchType → P mp →
    P { mp with pendingMessages := mp.pendingMessages.erase (hashOf m.key) }
  finish : ∀ mp m, Q m → m.key.headD 0 = BatchType → P mp → P (mp.finish (hashOf m.key))

theorem Parts.step_queued_begun {C : Codec} {env : Env} {af : Bool} {Q : RMsg → Prop} {P : MP → Prop}
    (h : Parts C env af Q P) {self : MP → RMsg → MPResult} {mp : MP} {m : RMsg} (hQ : Q m) (hb : P (mp.begin env m))
    (ht : QueueType m) : Post af P (MP.step C env self mp m) := by
  unfold MP.step
  generalize mp.begin env m = mp1 at hb
  simp only []
  split
  · rename_i hlen
    rcases h.short with h1 | h1
    · exact h1
    · exact absurd hlen (h1 m hQ)
  · simp only [ht.1, ht.2, if_false]
    split
    · exact hb
    · split
      · exact hb
      · rename_i h1 h2
        split
        · exact h.sub mp1 m hQ hb ht (Bool.eq_false_iff.mpr h1) (Bool.eq_false_iff.mpr h2) (by assumption)
        · exact h.other mp1 m hQ hb ht (Bool.eq_false_iff.mpr h1) (Bool.eq_false_iff.mpr h2) (by assumption)

theorem Parts.step_queued {C : Codec} {env : Env} {af : Bool} {Q : RMsg → Prop} {P : MP → Prop} (h : Parts C env af Q P)
    {self : MP → RMsg → MPResult} {mp : MP} {m : RMsg} (hQ : Q m) (hP : P mp) (ht : QueueType m) :
    Post af P (MP.step C env self mp m) := h.step_queued_begun hQ (h.begin mp m hQ hP) ht

theorem Parts.process_begun {C : Codec} {env : Env} {af : Bool} {Q : RMsg → Prop} {P : MP → Prop} (h : Parts C env af Q P)
    {mp : MP} {m : RMsg} (hQ : Q m) (hb : P (mp.begin env m)) : Post af P (mp.processMessage C env m) := by
  by_cases ht : QueueType m
  · exact h.step_queued_begun hQ hb ht
  · unfold MP.processMessage
    have hself : ∀ mp m', P mp → Q m' → QueueType m' → Post af P (MP.step C env (fun _ _ => .error .hang) mp m') :=
      fun mp m' h1 h2 h3 => h.step_queued h2 h1 h3
    generalize MP.step C env (fun _ _ => .error .hang) = self at hself
    unfold MP.step
    generalize mp.begin env m = mp1 at hb
    simp only []
    split
    · rename_i hlen
      rcases h.short with h1 | h1
      · exact h1
      · exact absurd hlen (h1 m hQ)
    · by_cases hr : m.key.headD 0 = ReorgType
      · simp only [hr, if_true]; exact h.reorg mp1 m hQ hb hr
      · have hbt : m.key.headD 0 = BatchType := by
          by_cases hbt : m.key.headD 0 = BatchType
          · exact hbt
          · exact absurd ⟨hr, hbt⟩ ht
        rw [if_neg hr]
        simp only [hbt, if_true]
        split
        · exact hb
        · split
          · exact hb
          · rename_i h1 h2
            unfold MP.onHeader
            split
            · exact hb
            · rename_i b hd
              split
              · exact hb
              · rename_i hc
                have hadd := h.add mp1 m b hQ hb hbt (Bool.eq_false_iff.mpr h1) (Bool.eq_false_iff.mpr h2) hd
                  (by simpa [GMap.contains] using hc)
                simp only []
                generalize mp1.addHeader env m (hashOf m.key) b = mp2 at hadd
                split
                · exact h.finish _ _ hQ hbt hadd
                · rename_i q hq
                  have hrep := replay_post (self := self)
                    (ms := (env.order.ord (2 * mp2.tick + 1) q.entries).map Prod.snd) (af := af) hadd
                    (fun mp m' hp hm => by
                      obtain ⟨e, he, rfl⟩ := List.mem_map.mp hm
                      have := h.queued mp2 _ q e hQ hbt hadd hq ((env.order.perm _ _).mem_iff.mp he)
                      exact hself _ _ hp this.1 this.2)
                  revert hrep
                  generalize replay _ mp2 _ = r
                  intro hrep
                  match r, hrep with
                  | .error _, hrep => exact hrep
                  | .ok (_, some _), hrep => exact hrep
                  | .ok (_, none), hrep => exact h.finish _ _ hQ hbt (h.drop _ _ hQ hbt hrep)

theorem Parts.process {C : Codec} {env : Env} {af : Bool} {Q : RMsg → Prop} {P : MP → Prop} (h : Parts C env af Q P)
    {mp : MP} {m : RMsg} (hQ : Q m) (hP : P mp) : Post af P (mp.processMessage C env m) :=
  h.process_begun hQ (h.begin mp m hQ hP)

theorem Parts.run {C : Codec} {env : Env} {Q : RMsg → Prop} {P : MP → Prop} (h : Parts C env true Q P)
    {mp mp' : MP} {ms : List RMsg} (hQ : ∀ m ∈ ms, Q m) (hP : P mp) (hr : mp.run C env ms = .ok mp') : P mp' := by
  induction ms generalizing mp with
  | nil => simp [MP.run] at hr; subst hr; exact hP
  | cons m ms ih =>
    have h1 := h.process (hQ m (by simp)) hP
    simp only [MP.run] at hr
    match hp : mp.processMessage C env m with
    | .error f => rw [hp] at hr; simp at hr
    | .ok (mp1, e) =>
      rw [hp] at hr h1
      exact ih (fun m hm => hQ m (by simp [hm])) h1 hr

theorem Parts.run_total {C : Codec} {env : Env} {Q : RMsg → Prop} {P : MP → Prop} (h : Parts C env false Q P)
    {mp : MP} {ms : List RMsg} (hQ : ∀ m ∈ ms, Q m) (hP : P mp) : ∃ mp', mp.run C env ms = .ok mp' ∧ P mp' := by
  induction ms generalizing mp with
  | nil => exact ⟨mp, rfl, hP⟩
  | cons m ms ih =>
    obtain ⟨mp1, e, hp, h1⟩ := (h.process (hQ m (by simp)) hP).total
    simp only [MP.run, hp]
    exact ih (fun m hm => hQ m (by simp [hm])) h1

theorem run_append {C : Codec} {env : Env} {mp mp' : MP} {a b : List RMsg} (h : mp.run C env (a ++ b) = .ok mp') :
    ∃ mp1, mp.run C env a = .ok mp1 ∧ mp1.run C env b = .ok mp' := by
  induction a generalizing mp with
  | nil => exact ⟨mp, rfl, h⟩
  | cons m a ih =>
    simp only [List.cons_append, MP.run] at h ⊢
    match hp : mp.processMessage C env m with
    | .error f => rw [hp] at h; simp at h
    | .ok (mp1, e) => rw [hp] at h; exact ih h

theorem run_append_of {C : Codec} {env : Env} {mp mp1 mp' : MP} {a b : List RMsg} (h1 : mp.run C env a = .ok mp1)
    (h2 : mp1.run C env b = .ok mp') : mp.run C env (a ++ b) = .ok mp' := by
  induction a generalizing mp with
  | nil => simp [MP.run] at h1; subst h1; exact h2
  | cons m a ih =>
    simp only [List.cons_append, MP.run] at h1 ⊢
    match hp : mp.processMessage C env m with
    | .error f => rw [hp] at h1; simp at h1
    | .ok (mp2, e) => rw [hp] at h1; exact ih h1

/-! ## Facts about the parts -/

theorem evictOne_fields (mp : MP) (n : Int) : (mp.evictOne n).completed = mp.completed ∧
    (mp.evictOne n).pendingMessages = mp.pendingMessages ∧ (mp.evictOne n).log = mp.log ∧
    (mp.evictOne n).tick = mp.tick ∧ (mp.evictOne n).tracked = mp.tracked ∧ (mp.evictOne n).frp = mp.frp ∧
    (mp.evictOne n).reorgThreshold = mp.reorgThreshold ∧ (mp.evictOne n).resumption = mp.resumption ∧
    (mp.evictOne n).nextCh = mp.nextCh ∧ (mp.evictOne n).lastEmittedNum = mp.lastEmittedNum := by
  simp [MP.evictOne]

theorem drainEvict_fields (mp : MP) (ns : List Int) : (mp.drainEvict ns).completed = mp.completed ∧
    (mp.drainEvict ns).pendingMessages = mp.pendingMessages ∧ (mp.drainEvict ns).log = mp.log ∧
    (mp.drainEvict ns).tick = mp.tick ∧ (mp.drainEvict ns).tracked = mp.tracked ∧ (mp.drainEvict ns).frp = mp.frp ∧
    (mp.drainEvict ns).reorgThreshold = mp.reorgThreshold ∧ (mp.drainEvict ns).resumption = mp.resumption ∧
    (mp.drainEvict ns).nextCh = mp.nextCh ∧ (mp.drainEvict ns).lastEmittedNum = mp.lastEmittedNum := by
  unfold MP.drainEvict
  induction ns generalizing mp with
  | nil => simp
  | cons n ns ih =>
    have h1 := ih (mp.evictOne n)
    have h2 := evictOne_fields mp n
    rw [List.foldl_cons]
    obtain ⟨a1, a2, a3, a4, a5, a6, a7, a8, a9, a10⟩ := h1
    obtain ⟨b1, b2, b3, b4, b5, b6, b7, b8, b9, b10⟩ := h2
    exact ⟨a1.trans b1, a2.trans b2, a3.trans b3, a4.trans b4, a5.trans b5, a6.trans b6, a7.trans b7, a8.trans b8,
      a9.trans b9, a10.trans b10⟩

theorem MP.updateResumption_eq (mp : MP) (s : GoStr) (o : Int) :
    ∃ r, mp.updateResumption s o = { mp with resumption := r } := by
  unfold MP.updateResumption
  split
  · exact ⟨_, rfl⟩
  · split
    · exact ⟨_, rfl⟩
    · exact ⟨_, rfl⟩

/-- `begin` keeps everything but the pending batches, the dropped blocks, the offsets and the counter. -/
theorem begin_fields (env : Env) (mp : MP) (m : RMsg) : (mp.begin env m).completed = mp.completed ∧
    (mp.begin env m).pendingMessages = mp.pendingMessages ∧ (mp.begin env m).log = mp.log ∧
    (mp.begin env m).tracked = mp.tracked ∧ (mp.begin env m).frp = mp.frp ∧
    (mp.begin env m).reorgThreshold = mp.reorgThreshold ∧
    (mp.begin env m).pendingBatches = (mp.drainEvict (env.evict mp.tick)).pendingBatches ∧
    (mp.begin env m).oldBlocks = (mp.drainEvict (env.evict mp.tick)).oldBlocks ∧
    (mp.begin env m).nextCh = mp.nextCh := by
  unfold MP.begin
  obtain ⟨r, hr⟩ := MP.updateResumption_eq (mp.drainEvict (env.evict mp.tick)) m.source m.offset
  rw [hr]
  have := drainEvict_fields mp (env.evict mp.tick)
  simp [this]

/-- What one eviction request does to a pending block. -/
theorem evictOne_get (mp : MP) (n : Int) (h : Hash) :
    ((mp.evictOne n).pendingBatches.get? h = mp.pendingBatches.get? h ∧
      (∀ pb, mp.pendingBatches.get? h = some pb → n ≤ pb.number) ∧
      ((mp.evictOne n).oldBlocks.contains h = mp.oldBlocks.contains h)) ∨
    (∃ pb, mp.pendingBatches.get? h = some pb ∧ pb.number < n ∧ (mp.evictOne n).pendingBatches.get? h = none ∧
      (mp.evictOne n).oldBlocks.contains h = true) := by
  have hold : (mp.evictOne n).oldBlocks.contains h = true ↔
      h ∈ (mp.pendingBatches.entries.filter (fun e => e.2.number < n)).map Prod.fst ∨ mp.oldBlocks.contains h = true :=
    GMap.get?_foldl_insert_unit _ _ _ _
  have hget : (mp.evictOne n).pendingBatches.get? h = (mp.pendingBatches.get? h).filter (fun pb => !decide (pb.number < n)) :=
    GMap.get?_filter _ _ _
  cases hp : mp.pendingBatches.get? h with
  | none =>
    left
    rw [hget, hp]
    refine ⟨rfl, by simp, ?_⟩
    have : h ∉ (mp.pendingBatches.entries.filter (fun e => e.2.number < n)).map Prod.fst := by
      intro hm
      obtain ⟨e, he, rfl⟩ := List.mem_map.mp hm
      have := (GMap.get?_eq_some_iff mp.pendingBatches).mpr (List.mem_filter.mp he).1
      rw [hp] at this; simp at this
    rw [Bool.eq_iff_iff, hold]; simp only [this, false_or]
  | some pb =>
    by_cases hn : pb.number < n
    · right
      refine ⟨pb, rfl, hn, ?_, ?_⟩
      · rw [hget, hp]; simp [Option.filter, hn]
      · rw [hold]; left
        exact List.mem_map.mpr ⟨(h, pb), List.mem_filter.mpr ⟨(GMap.get?_eq_some_iff _).mp hp, by simpa using hn⟩, rfl⟩
    · left
      rw [hget, hp]
      refine ⟨by simp [Option.filter, hn], by intro pb' e; cases e; omega, ?_⟩
      have : h ∉ (mp.pendingBatches.entries.filter (fun e => e.2.number < n)).map Prod.fst := by
        intro hm
        obtain ⟨e, he, rfl⟩ := List.mem_map.mp hm
        obtain ⟨h1, h2⟩ := List.mem_filter.mp he
        have := (GMap.get?_eq_some_iff mp.pendingBatches).mpr h1
        rw [hp] at this; cases this; exact hn (by simpa using h2)
      rw [Bool.eq_iff_iff, hold]; simp only [this, false_or]

/-- What the eviction requests do to a pending block: nothing, or it is dropped for good. -/
theorem drainEvict_get (mp : MP) (ns : List Int) (h : Hash) :
    ((mp.drainEvict ns).pendingBatches.get? h = mp.pendingBatches.get? h ∧
      ((mp.drainEvict ns).oldBlocks.contains h = mp.oldBlocks.contains h)) ∨
    (∃ pb, mp.pendingBatches.get? h = some pb ∧ (∃ n ∈ ns, pb.number < n) ∧
      (mp.drainEvict ns).pendingBatches.get? h = none ∧ (mp.drainEvict ns).oldBlocks.contains h = true) := by
  unfold MP.drainEvict
  induction ns generalizing mp with
  | nil => simp
  | cons n ns ih =>
    rw [List.foldl_cons]
    rcases evictOne_get mp n h with ⟨h1, h2, h3⟩ | ⟨pb, h1, h2, h3, h4⟩
    · rcases ih (mp.evictOne n) with ⟨h4, h5⟩ | ⟨pb, h4, ⟨n', hn', h5⟩, h6, h7⟩
      · left; exact ⟨h4.trans h1, h5.trans h3⟩
      · right; exact ⟨pb, h1 ▸ h4, ⟨n', by simp [hn'], h5⟩, h6, h7⟩
    · right
      refine ⟨pb, h1, ⟨n, by simp, h2⟩, ?_⟩
      rcases ih (mp.evictOne n) with ⟨h5, h6⟩ | ⟨pb', h5, _⟩
      · exact ⟨h5.trans h3, h6.trans h4⟩
      · rw [h3] at h5; simp at h5

/-- A request above its number drops a pending block. -/
theorem drainEvict_evicts {mp : MP} {ns : List Int} {h : Hash} {pb : PB} {n : Int} (hp : mp.pendingBatches.get? h = some pb)
    (hn : n ∈ ns) (hlt : pb.number < n) : (mp.drainEvict ns).oldBlocks.contains h = true := by
  unfold MP.drainEvict
  induction ns generalizing mp with
  | nil => simp at hn
  | cons x ns ih =>
    rw [List.foldl_cons]
    have hkeep : (mp.evictOne x).oldBlocks.contains h = true →
        (ns.foldl MP.evictOne (mp.evictOne x)).oldBlocks.contains h = true := by
      intro ho
      rcases drainEvict_get (mp.evictOne x) ns h with ⟨_, h2⟩ | ⟨_, _, _, _, h2⟩
      · unfold MP.drainEvict at h2; rw [h2]; exact ho
      · exact h2
    rcases evictOne_get mp x h with ⟨h1, h2, h3⟩ | ⟨pb', h1, h2, h3, h4⟩
    · rcases List.mem_cons.mp hn with rfl | hn
      · have := h2 pb hp; omega
      · exact ih (h1.trans hp) hn
    · exact hkeep h4

theorem begin_get (env : Env) (mp : MP) (m : RMsg) (h : Hash) :
    ((mp.begin env m).pendingBatches.get? h = mp.pendingBatches.get? h ∧
      ((mp.begin env m).oldBlocks.contains h = mp.oldBlocks.contains h)) ∨
    (∃ pb, mp.pendingBatches.get? h = some pb ∧ (∃ n ∈ env.evict mp.tick, pb.number < n) ∧
      (mp.begin env m).pendingBatches.get? h = none ∧ (mp.begin env m).oldBlocks.contains h = true) := by
  have hf := begin_fields env mp m
  have := drainEvict_get mp (env.evict mp.tick) h
  rw [hf.2.2.2.2.2.2.1, hf.2.2.2.2.2.2.2.1]
  exact this

/-- A pending batch after `begin` was pending before. -/
theorem begin_pending {env : Env} {mp : MP} {m : RMsg} {h : Hash} {pb : PB}
    (hp : (mp.begin env m).pendingBatches.get? h = some pb) : mp.pendingBatches.get? h = some pb := by
  rcases begin_get env mp m h with ⟨h1, _⟩ | ⟨_, _, _, h1, _⟩
  · rw [← h1]; exact hp
  · rw [h1] at hp; simp at hp

/-- Cases of `finish`. -/
theorem finish_cases (mp : MP) (hash : Hash) :
    (mp.finish hash = mp ∧ ∀ pb, mp.pendingBatches.get? hash = some pb → pb.ready = false) ∨
    ∃ pb, mp.pendingBatches.get? hash = some pb ∧ pb.ready = true ∧
      mp.finish hash = { mp with
        log := mp.log ++ [MPOut.batch pb]
        lastEmittedNum := pb.number
        completed := (mp.completed.add hash).1
        pendingBatches := mp.pendingBatches.erase hash } := by
  unfold MP.finish
  cases h : mp.pendingBatches.get? hash with
  | none => left; simp
  | some pb =>
    simp only []
    by_cases hr : pb.ready
    · right; exact ⟨pb, rfl, hr, by simp [hr]⟩
    · left; simp [hr]

end Verif
