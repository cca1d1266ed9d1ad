import Verif.Proofs.Consumer
/-! Structural invariants of the message processor that hold for arbitrary messages. -/
namespace Verif

/-- The parts of a pending batch that never change. -/
structure SameHead (a b : PB) : Prop where
  hash : b.hash = a.hash
  number : b.number = a.number
  parentHash : b.parentHash = a.parentHash
  weight : b.weight = a.weight
  frp : b.frp = a.frp
  waitCh : b.waitCh = a.waitCh
  defaults : b.resumptionDefaults = a.resumptionDefaults

theorem SameHead.refl (a : PB) : SameHead a a := ⟨rfl, rfl, rfl, rfl, rfl, rfl, rfl⟩

theorem SameHead.trans {a b c : PB} (h : SameHead a b) (h' : SameHead b c) : SameHead a c :=
  ⟨h'.hash.trans h.hash, h'.number.trans h.number, h'.parentHash.trans h.parentHash, h'.weight.trans h.weight,
   h'.frp.trans h.frp, h'.waitCh.trans h.waitCh, h'.defaults.trans h.defaults⟩

theorem PB.updateResumption_eq (pb : PB) (s : GoStr) (o : Int) :
    ∃ r, pb.updateResumption s o = { pb with resumption := r } := by
  unfold PB.updateResumption
  split
  · exact ⟨_, rfl⟩
  · split
    · exact ⟨_, rfl⟩
    · exact ⟨_, rfl⟩

theorem sameHead_updateResumption (pb : PB) (s : GoStr) (o : Int) : SameHead pb (pb.updateResumption s o) := by
  obtain ⟨r, hr⟩ := PB.updateResumption_eq pb s o
  rw [hr]; constructor <;> rfl

theorem sameHead_applySub {C : Codec} {pb pb' : PB} {m : RMsg} {r : Bool} (h : pb.applySubBatchMsg C m = .ok (pb', r)) :
    SameHead pb pb' := by
  unfold PB.applySubBatchMsg at h
  split at h
  · simp at h
  · simp only [] at h
    split at h
    · simp at h; rw [← h.1]; exact SameHead.refl _
    · split at h
      · simp at h; rw [← h.1]; constructor <;> rfl
      · split at h
        · simp at h
        · split at h
          · simp at h; rw [← h.1]; exact SameHead.refl _
          · split at h
            · simp at h; rw [← h.1]; exact SameHead.refl _
            · simp at h; rw [← h.1]; constructor <;> rfl

theorem sameHead_applyBatch {pb pb' : PB} {m : RMsg} {r : Bool} (h : pb.applyBatchMsg m = .ok (pb', r)) :
    SameHead pb pb' := by
  unfold PB.applyBatchMsg at h
  simp only [] at h
  split at h
  · simp at h; rw [← h.1]; exact SameHead.refl _
  · split at h
    · simp at h
    · simp at h; rw [← h.1]; constructor <;> rfl
    · simp at h; rw [← h.1]; constructor <;> rfl

theorem sameHead_applyDelete {pb pb' : PB} {m : RMsg} {r : Bool} (h : pb.applyDeleteMsg m = .ok (pb', r)) :
    SameHead pb pb' := by
  unfold PB.applyDeleteMsg at h
  simp only [] at h
  split at h
  · simp at h; rw [← h.1]; exact SameHead.refl _
  · split at h
    · simp at h
    · simp at h; rw [← h.1]; constructor <;> rfl
    · simp at h; rw [← h.1]; constructor <;> rfl

theorem sameHead_apply {C : Codec} {pb pb' : PB} {m : RMsg} {r : Bool} (h : pb.applyMessage C m = .ok (pb', r)) :
    SameHead pb pb' := by
  unfold PB.applyMessage at h
  have h0 := sameHead_updateResumption pb m.source m.offset
  simp only [] at h
  split at h
  · simp at h
  · split at h
    · exact h0.trans (sameHead_applySub h)
    · split at h
      · exact h0.trans (sameHead_applyBatch h)
      · split at h
        · exact h0.trans (sameHead_applyDelete h)
        · simp at h; rw [← h.1]; exact h0

theorem sameHead_drain {C : Codec} {pb pb' : PB} {l : List (Bytes × RMsg)} (h : PB.drain C pb l = .ok pb') :
    SameHead pb pb' := by
  induction l generalizing pb with
  | nil => simp [PB.drain] at h; subst h; exact SameHead.refl _
  | cons e l ih =>
    obtain ⟨k, m⟩ := e
    simp only [PB.drain] at h
    match ha : pb.applyMessage C m with
    | .error f => rw [ha] at h; simp at h
    | .ok (pb1, true) =>
      rw [ha] at h
      refine (sameHead_apply ha).trans (SameHead.trans ?_ (ih h))
      constructor <;> rfl
    | .ok (pb1, false) =>
      rw [ha] at h
      exact (sameHead_apply ha).trans (ih h)

theorem sameHead_addSub {C : Codec} {env : Env} {t : Nat} {pb pb' : PB} {m : RMsg} {id : Hash} {n : Int}
    (h : pb.addSubHeader C env t m id n = .ok pb') : SameHead pb pb' := by
  unfold PB.addSubHeader at h
  split at h
  · simp at h
  · refine SameHead.trans ?_ ((sameHead_updateResumption _ _ _).trans (sameHead_drain h))
    constructor <;> rfl

theorem sameHead_headerEntry (tracked : GoStr → Bool) (pb : PB) (e : GoStr × BatchRecord) :
    SameHead pb (pb.headerEntry tracked e) := by
  unfold PB.headerEntry
  split
  · exact SameHead.refl _
  · simp only []
    split <;> split <;> split <;> split <;> constructor <;> rfl

theorem sameHead_headerFold (tracked : GoStr → Bool) (pb : PB) (l : List (GoStr × BatchRecord)) :
    SameHead pb (l.foldl (PB.headerEntry tracked) pb) := by
  induction l generalizing pb with
  | nil => exact SameHead.refl _
  | cons e l ih => exact (sameHead_headerEntry tracked pb e).trans (ih _)

theorem newPB_head (mp : MP) (hash : Hash) (b : Batch) (m : RMsg) :
    (newPB mp hash b m).hash = hash ∧ (newPB mp hash b m).number = b.number ∧
    (newPB mp hash b m).parentHash = b.parentHash ∧ (newPB mp hash b m).weight = bytesNat b.weight ∧
    (newPB mp hash b m).frp = mp.frp ∧ (newPB mp hash b m).waitCh = some mp.nextCh ∧
    (newPB mp hash b m).resumptionDefaults = mp.resumption := by
  unfold newPB
  have := sameHead_updateResumption
    { number := b.number, weight := bytesNat b.weight, parentHash := b.parentHash, hash := hash, values := GMap.empty,
      deletes := GMap.empty, prefixes := GMap.empty, batches := GMap.empty, pendingBatches := GMap.empty,
      pendingMessages := GMap.empty, resumption := GMap.empty, resumptionDefaults := mp.resumption,
      waitCh := some mp.nextCh, frp := mp.frp } m.source m.offset
  exact ⟨this.hash, this.number, this.parentHash, this.weight, this.frp, this.waitCh, this.defaults⟩

/-- The pending batch made from a header. -/
def headerPB (env : Env) (mp : MP) (m : RMsg) (hash : Hash) (b : Batch) : PB :=
  (env.order.ord (2 * mp.tick) b.updates.entries).foldl (PB.headerEntry mp.tracked) (newPB mp hash b m)

theorem headerPB_head (env : Env) (mp : MP) (m : RMsg) (hash : Hash) (b : Batch) :
    SameHead (newPB mp hash b m) (headerPB env mp m hash b) := sameHead_headerFold _ _ _

/-- Structural invariants. -/
structure Base (mp : MP) : Prop where
  hashes : ∀ h pb, mp.pendingBatches.get? h = some pb → pb.hash = h
  queue : ∀ h q e, mp.pendingMessages.get? h = some q → e ∈ q.entries → QueueType e.2 ∧ hashOf e.2.key = h ∧ e.1 = e.2.key
  compl : ∀ h, mp.completed.contains h = true → mp.pendingBatches.get? h = none
  old : ∀ h, mp.oldBlocks.contains h = true → mp.pendingBatches.get? h = none
  thr : 0 < mp.reorgThreshold
  cap : mp.completed.cap = (2 * mp.reorgThreshold).toNat

theorem Base.newMP {cfg : Config} {mp : MP} (h : newMP cfg = .ok mp) : Base mp := by
  unfold Verif.newMP at h
  split at h
  · simp at h
  · simp at h; subst h
    constructor
    · intro h pb hp; simp [GMap.get?, GMap.empty, GMap.look] at hp
    · intro h q e hp; simp [GMap.get?, GMap.empty, GMap.look] at hp
    · intro h _; rfl
    · intro h _; rfl
    · show 0 < cfg.reorgThreshold; omega
    · rfl

/-- Replacing a pending batch by one with the same hash. -/
theorem Base.update {mp : MP} (h : Base mp) {hash : Hash} {pb pb' : PB} (hp : mp.pendingBatches.get? hash = some pb)
    (hh : pb'.hash = pb.hash) : Base { mp with pendingBatches := mp.pendingBatches.insert hash pb' } := by
  refine ⟨?_, h.queue, ?_, ?_, h.thr, h.cap⟩
  · intro x q hq
    simp only [GMap.get?_insert] at hq
    split at hq
    · rename_i e; subst e; cases hq; rw [hh]; exact h.hashes _ _ hp
    · exact h.hashes _ _ hq
  · intro x hx
    have := h.compl x hx
    have hne : hash ≠ x := by rintro rfl; rw [this] at hp; simp at hp
    rw [GMap.get?_insert_ne _ _ hne]; exact this
  · intro x hx
    have := h.old x hx
    have hne : hash ≠ x := by rintro rfl; rw [this] at hp; simp at hp
    rw [GMap.get?_insert_ne _ _ hne]; exact this

theorem Base.finish {mp : MP} (h : Base mp) (hash : Hash) : Base (mp.finish hash) := by
  rcases finish_cases mp hash with ⟨he, _⟩ | ⟨pb, hp, hr, he⟩
  · rw [he]; exact h
  · rw [he]
    refine ⟨?_, h.queue, ?_, ?_, h.thr, ?_⟩
    · intro x q hq
      simp only [GMap.get?_erase] at hq
      split at hq
      · simp at hq
      · exact h.hashes _ _ hq
    · intro x hx
      simp only [GMap.get?_erase]
      split
      · rfl
      · rename_i hne
        apply h.compl
        rw [LRU.contains_iff] at hx ⊢
        rcases LRU.mem_of_mem_add hx with e | e
        · exact absurd e.symm hne
        · exact e
    · intro x hx
      simp only [GMap.get?_erase]
      split
      · rfl
      · exact h.old x hx
    · rw [LRU.add_cap]; exact h.cap

theorem Base.queueMessage {mp : MP} (h : Base mp) {m : RMsg} (hq : QueueType m) : Base (mp.queueMessage (hashOf m.key) m) := by
  refine ⟨h.hashes, ?_, h.compl, h.old, h.thr, h.cap⟩
  intro x q e hx he
  simp only [MP.queueMessage, GMap.get?_insert] at hx
  split at hx
  · rename_i hxe
    subst hxe
    cases hx
    have hg := (GMap.get?_eq_some_iff _).mpr he
    rw [GMap.get?_insert] at hg
    split at hg
    · rename_i hk; cases hg; exact ⟨hq, rfl, hk.symm⟩
    · cases hpm : mp.pendingMessages.get? (hashOf m.key) with
      | none => rw [hpm] at hg; simp [GMap.get?, GMap.empty, GMap.look] at hg
      | some q0 =>
        rw [hpm] at hg
        exact h.queue _ q0 e hpm ((GMap.get?_eq_some_iff _).mp hg)
  · exact h.queue _ q e hx he

theorem Base.begin {mp : MP} (h : Base mp) (env : Env) (m : RMsg) : Base (mp.begin env m) := by
  have hf := begin_fields env mp m
  refine ⟨?_, ?_, ?_, ?_, ?_, ?_⟩
  · intro x pb hp; exact h.hashes _ _ (begin_pending hp)
  · rw [hf.2.1]; exact h.queue
  · rw [hf.1]; intro x hx
    have := h.compl x hx
    cases hp : (mp.begin env m).pendingBatches.get? x with
    | none => rfl
    | some pb => rw [begin_pending hp] at this; simp at this
  · intro x hx
    rcases begin_get env mp m x with ⟨h1, h2⟩ | ⟨_, _, _, h1, _⟩
    · rw [h1]; exact h.old x (by rw [← h2]; exact hx)
    · exact h1
  · rw [hf.2.2.2.2.2.1]; exact h.thr
  · rw [hf.1, hf.2.2.2.2.2.1]; exact h.cap

/-- The structural invariants hold for every message sequence. -/
theorem base_parts (C : Codec) (env : Env) (Q : RMsg → Prop) (hQ : ∀ m, Q m) : Parts C env true Q Base where
  begin mp m _ h := h.begin env m
  short := .inl rfl
  reorg mp m _ h _ := by
    unfold MP.onReorg
    simp only []
    have h' : Base { mp with completed := LRU.new (2 * mp.reorgThreshold).toNat, oldBlocks := GMap.empty } :=
      ⟨h.hashes, h.queue, by intro x hx; simp [LRU.contains, LRU.new] at hx,
        by intro x hx; simp [GMap.contains, GMap.get?, GMap.empty, GMap.look] at hx, h.thr, rfl⟩
    split
    · exact h'
    · exact ⟨h'.hashes, h'.queue, h'.compl, h'.old, h'.thr, h'.cap⟩
  add mp m b _ h _ h1 h2 _ hn := by
    refine ⟨?_, h.queue, ?_, ?_, h.thr, h.cap⟩
    · intro x q hq
      simp only [MP.addHeader, GMap.get?_insert] at hq
      split at hq
      · rename_i e; subst e; cases hq
        exact (headerPB_head env mp m _ b).hash.trans (newPB_head mp _ b m).1
      · exact h.hashes _ _ hq
    · intro x hx
      have hne : hashOf m.key ≠ x := by rintro rfl; rw [show mp.completed.contains _ = true from hx] at h1; simp at h1
      simp only [MP.addHeader]
      rw [GMap.get?_insert_ne _ _ hne]; exact h.compl x hx
    · intro x hx
      have hne : hashOf m.key ≠ x := by rintro rfl; rw [show mp.oldBlocks.contains _ = true from hx] at h2; simp at h2
      simp only [MP.addHeader]
      rw [GMap.get?_insert_ne _ _ hne]; exact h.old x hx
  sub mp m _ h hqt _ _ _ := by
    unfold MP.onSubHeader
    split
    · exact h.queueMessage hqt
    · rename_i pb hp
      simp only []
      split
      · exact h
      · split
        · exact h.update (pb := pb) hp rfl
        · split
          · rfl
          · rename_i pb' hpb
            exact (h.update hp (sameHead_addSub hpb).hash).finish _
  other mp m _ h hqt _ _ _ := by
    unfold MP.onOther
    split
    · exact h.queueMessage hqt
    · rename_i pb hp
      split
      · rfl
      · rename_i pb' _ hpb
        exact (h.update hp (sameHead_apply hpb).hash).finish _
  queued mp m q e _ _ h hq he := ⟨hQ _, (h.queue _ _ _ hq he).1⟩
  drop mp m _ _ h := by
    refine ⟨h.hashes, ?_, h.compl, h.old, h.thr, h.cap⟩
    intro x q e hx he
    simp only [GMap.get?_erase] at hx
    split at hx
    · simp at hx
    · exact h.queue _ _ _ hx he
  finish mp m _ _ h := h.finish _

theorem Base.process {C : Codec} {env : Env} {mp mp' : MP} {m : RMsg} {e : Option Err} (h : Base mp)
    (hr : mp.processMessage C env m = .ok (mp', e)) : Base mp' :=
  ((base_parts C env (fun _ => True) (fun _ => trivial)).process trivial h).ok hr

theorem Base.run {C : Codec} {env : Env} {mp mp' : MP} {ms : List RMsg} (h : Base mp)
    (hr : mp.run C env ms = .ok mp') : Base mp' :=
  (base_parts C env (fun _ => True) (fun _ => trivial)).run (fun _ _ => trivial) h hr

theorem Post.and {af : Bool} {P R : MP → Prop} {r : MPResult} (h : Post true P r) (h' : Post af R r) :
    Post af (fun mp => P mp ∧ R mp) r := by
  match r with
  | .ok (mp, _) => exact ⟨h, h'⟩
  | .error _ => exact h'

/-- Like `Parts`, for invariants that rest on the structural ones. -/
structure XParts (C : Codec) (env : Env) (af : Bool) (Q : RMsg → Prop) (P : MP → Prop) : Prop where
  begin : ∀ mp m, Q m → Base mp → P mp → P (mp.begin env m)
  short : af = true ∨ ∀ m, Q m → ¬ m.key.length < 33
  reorg : ∀ mp m, Q m → Base mp → P mp → m.key.headD 0 = ReorgType → Post af P (mp.onReorg C m (hashOf m.key))
  add : ∀ mp m b, Q m → Base mp → P mp → m.key.headD 0 = BatchType → mp.completed.contains (hashOf m.key) = false →
    mp.oldBlocks.contains (hashOf m.key) = false → C.decBatch m.value = some b →
    mp.pendingBatches.get? (hashOf m.key) = none → P (mp.addHeader env m (hashOf m.key) b)
  sub : ∀ mp m, Q m → Base mp → P mp → QueueType m → mp.completed.contains (hashOf m.key) = false →
    mp.oldBlocks.contains (hashOf m.key) = false → m.key.headD 0 = SubBatchHeaderType →
    Post af P (mp.onSubHeader C env m (hashOf m.key))
  other : ∀ mp m, Q m → Base mp → P mp → QueueType m → mp.completed.contains (hashOf m.key) = false →
    mp.oldBlocks.contains (hashOf m.key) = false → m.key.headD 0 ≠ SubBatchHeaderType →
    Post af P (mp.onOther C m (hashOf m.key))
  queued : ∀ mp m q e, Q m → m.key.headD 0 = BatchType → Base mp → P mp →
    mp.pendingMessages.get? (hashOf m.key) = some q → e ∈ q.entries → Q e.2
  drop : ∀ mp m, Q m → m.key.headD 0 = BatchType → Base mp → P mp →
    P { mp with pendingMessages := mp.pendingMessages.erase (hashOf m.key) }
  finish : ∀ mp m, Q m → m.key.headD 0 = BatchType → Base mp → P mp → P (mp.finish (hashOf m.key))

theorem XParts.toParts {C : Codec} {env : Env} {af : Bool} {Q : RMsg → Prop} {P : MP → Prop} (h : XParts C env af Q P) :
    Parts C env af Q (fun mp => Base mp ∧ P mp) := by
  have b := base_parts C env (fun _ => True) (fun _ => trivial)
  exact {
    begin := fun mp m hq hp => ⟨b.begin mp m trivial hp.1, h.begin mp m hq hp.1 hp.2⟩
    short := h.short
    reorg := fun mp m hq hp ht => (b.reorg mp m trivial hp.1 ht).and (h.reorg mp m hq hp.1 hp.2 ht)
    add := fun mp m x hq hp ht h1 h2 h3 h4 =>
      ⟨b.add mp m x trivial hp.1 ht h1 h2 h3 h4, h.add mp m x hq hp.1 hp.2 ht h1 h2 h3 h4⟩
    sub := fun mp m hq hp ht h1 h2 h3 => (b.sub mp m trivial hp.1 ht h1 h2 h3).and (h.sub mp m hq hp.1 hp.2 ht h1 h2 h3)
    other := fun mp m hq hp ht h1 h2 h3 =>
      (b.other mp m trivial hp.1 ht h1 h2 h3).and (h.other mp m hq hp.1 hp.2 ht h1 h2 h3)
    queued := fun mp m q e hQ ht hp hq he =>
      ⟨h.queued mp m q e hQ ht hp.1 hp.2 hq he, (hp.1.queue _ _ _ hq he).1⟩
    drop := fun mp m hQ ht hp => ⟨b.drop mp m trivial ht hp.1, h.drop mp m hQ ht hp.1 hp.2⟩
    finish := fun mp m hQ ht hp => ⟨b.finish mp m trivial ht hp.1, h.finish mp m hQ ht hp.1 hp.2⟩ }

end Verif
