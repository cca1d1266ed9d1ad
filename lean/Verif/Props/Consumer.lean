import Verif.Props.ConsumerEx
import Verif.Proofs.Hollow
import Verif.Proofs.Own
import Verif.Proofs.Path
/-!
# C03, C05, C06, C07, C10 – C13, C15: the message processor on arbitrary messages

"Reachable" states are the results of `MP.run` from `newMP`; the theorems only need the structural invariant `Base`, which
every reachable state has (`reachable_base`), so they are stated for runs `ms1` followed by runs `ms2`.
-/
namespace Verif
open Spec

/-- The states a processor can get into. -/
def Reachable (C : Codec) (env : Env) (mp : MP) : Prop := ∃ cfg mp0 ms, newMP cfg = .ok mp0 ∧ mp0.run C env ms = .ok mp

theorem reachable_base {C : Codec} {env : Env} {mp : MP} (h : Reachable C env mp) : Base mp := by
  obtain ⟨cfg, mp0, ms, h1, h2⟩ := h
  exact (Base.newMP h1).run h2

/-- A state in the middle of `exBlock`: the header, one update and the sub-batch header have been seen. -/
theorem exReachable : ∃ mp pb, Reachable Avro.codec exEnv mp ∧ mp.pendingBatches.get? (exHash 1) = some pb ∧ pb.number = 5 := by
  obtain ⟨mp, h1, h2⟩ := ex_ok (r := MP.run Avro.codec exEnv exMP (exStream.take 5))
    (fun mp => match mp.pendingBatches.get? (exHash 1) with | some pb => pb.number == 5 | none => false) (by decide +kernel)
  revert h2
  cases hp : mp.pendingBatches.get? (exHash 1) with
  | none => intro h2; simp at h2
  | some pb => intro h2; exact ⟨mp, pb, ⟨exCfg, exMP, _, exMP_new, h1⟩, hp, by simpa using h2⟩

theorem notReorg_iff {m : RMsg} : ¬ IsReorg m → m.key.headD 0 ≠ ReorgType := by
  intro h hr
  apply h
  cases hk : m.key with
  | nil => rw [hk] at hr; simp [ReorgType] at hr
  | cons a r => rw [hk] at hr; simpa [IsReorg, hk, ReorgType] using hr

/-- The last occurrence of a hash. -/
theorem last_occurrence (h : Hash) (pb : PB) (hpb : pb.hash = h) (mid : List PB) :
    ∃ e p rest, pb :: mid = e ++ p :: rest ∧ p.hash = h ∧ (∀ x ∈ rest, x.hash ≠ h) := by
  induction mid generalizing pb with
  | nil => exact ⟨[], pb, [], rfl, hpb, by simp⟩
  | cons a mid ih =>
    by_cases ha : a.hash = h
    · obtain ⟨e, p, rest, h1, h2, h3⟩ := ih a ha
      exact ⟨pb :: e, p, rest, by rw [h1]; rfl, h2, h3⟩
    · obtain ⟨e, p, rest, h1, h2, h3⟩ := ih pb hpb
      cases e with
      | nil =>
        simp only [List.nil_append, List.cons.injEq] at h1
        obtain ⟨rfl, rfl⟩ := h1
        exact ⟨[], pb, a :: mid, rfl, hpb, by intro x hx; rcases List.mem_cons.mp hx with rfl | hx; exact ha; exact h3 x hx⟩
      | cons e0 e =>
        simp only [List.cons_append, List.cons.injEq] at h1
        obtain ⟨rfl, h1⟩ := h1
        exact ⟨pb :: a :: e, p, rest, by rw [h1]; rfl, h2, h3⟩

/-- **C03**: if a reachable processor emits two blocks with the same hash while processing `ms` (the emissions during `ms` are
what follows `mp1.emitted`), then one of `ms` is a Reorg message, or at least `2·ReorgThreshold` blocks with other hashes were
emitted in between. -/
theorem C03_at_most_once {C : Codec} {env : Env} {mp1 mp2 : MP} {ms : List RMsg} (h1 : Reachable C env mp1)
    (hr : mp1.run C env ms = .ok mp2) {e1 mid e3 : List PB} {pb1 pb2 : PB}
    (he : mp2.emitted = mp1.emitted ++ (e1 ++ pb1 :: (mid ++ pb2 :: e3))) (hh : pb1.hash = pb2.hash) :
    (∃ m ∈ ms, IsReorg m) ∨ 2 * mp1.reorgThreshold ≤ (mid.countP (fun pb => pb.hash ≠ pb1.hash) : Int) := by
  by_cases hm : ∃ m ∈ ms, IsReorg m
  · exact .inl hm
  right
  have hB := reachable_base h1
  have hrep : Repeat mp1.emitted (2 * mp1.reorgThreshold).toNat mp1 := by
    refine ⟨hB.cap, by have := hB.thr; omega, [], by simp, ?_, ?_⟩
    · intro e p rest h; simp at h
    · intro e p m p2 e3 h; simp at h
  have hres := (repeat_parts C env mp1.emitted _).toParts.run
    (fun m hmem => notReorg_iff (fun hx => hm ⟨m, hmem, hx⟩)) ⟨hB, hrep⟩ hr
  obtain ⟨_, _, es, h2, _, h3⟩ := hres.2
  rw [he] at h2
  have h2 := List.append_cancel_left h2
  obtain ⟨e, p, rest, h4, h5, h6⟩ := last_occurrence pb1.hash pb1 rfl mid
  have h7 := h3 (e1 ++ e) p rest pb2 e3 (by
    rw [← h2]
    have : pb1 :: (mid ++ pb2 :: e3) = (pb1 :: mid) ++ pb2 :: e3 := rfl
    rw [this, h4]; simp) (by rw [h5, hh])
  have h8 : rest.countP (fun pb => pb.hash ≠ pb1.hash) = rest.length := by
    rw [List.countP_eq_length]; intro x hx; simpa using h6 x hx
  have h9 : rest.countP (fun pb => pb.hash ≠ pb1.hash) ≤ mid.countP (fun pb => pb.hash ≠ pb1.hash) := by
    have := congrArg (List.countP (fun pb => decide (pb.hash ≠ pb1.hash))) h4
    rw [List.countP_cons, List.countP_append, List.countP_cons] at this
    simp at this ⊢
    omega
  omega

/-- Two emissions of one hash do occur, separated by a Reorg message. -/
example : ∃ mp, MP.run Avro.codec exEnv exMP
    (exStream ++ [at_ (reorgMsg Avro.codec 4 (exHash 2)) 9 (str "s:0")] ++ exStream) = .ok mp ∧
    (mp.emitted.map PB.hash == [exHash 1, exHash 1]) = true :=
  ex_ok (fun mp : MP => mp.emitted.map PB.hash == [exHash 1, exHash 1]) (by decide +kernel)

/-- Without a Reorg message the second copy of the whole stream emits nothing. -/
example : ∃ mp, MP.run Avro.codec exEnv exMP (exStream ++ exStream) = .ok mp ∧
    (mp.emitted.map PB.hash == [exHash 1]) = true :=
  ex_ok (fun mp : MP => mp.emitted.map PB.hash == [exHash 1]) (by decide +kernel)

/-- **C05**: processing any message of another block (or a Reorg message) leaves everything collected for block `h` alone — its
pending batch with values, deletes, counters and waiting messages, and its queued messages — and emits nothing of it; only an
eviction request above its number makes it disappear. -/
theorem C05_blocks_independent {C : Codec} {env : Env} {mp mp' : MP} {m : RMsg} {e : Option Err} {h : Hash}
    (h1 : Reachable C env mp) (hm : IsReorg m ∨ blockOf m.key ≠ h)
    (hk : ∀ pb, mp.pendingBatches.get? h = some pb → Keeps env pb.number)
    (hr : mp.processMessage C env m = .ok (mp', e)) :
    mp'.pendingBatches.get? h = mp.pendingBatches.get? h ∧ mp'.pendingMessages.get? h = mp.pendingMessages.get? h ∧
      ∃ es, mp'.emitted = mp.emitted ++ es ∧ ∀ pb ∈ es, pb.hash ≠ h := by
  have hB := reachable_base h1
  have hm' : m.key.headD 0 ≠ ReorgType → hashOf m.key ≠ h := by
    intro hne
    rcases hm with hm | hm
    · exfalso; apply hne
      cases hk : m.key with
      | nil => rw [IsReorg, hk] at hm; simp at hm
      | cons a r => rw [IsReorg, hk] at hm; simpa [ReorgType] using hm
    · exact hm
  have hv := ((view_parts C env h _ _ (fun t n hn b hb => hk b hb t n hn)).toParts.process hm'
    ⟨hB, (⟨rfl, rfl⟩ : View h (mp.pendingBatches.get? h) (mp.pendingMessages.get? h) mp)⟩).ok hr
  have hq := ((quiet_parts C env h mp.emitted).toParts.process hm' ⟨hB, (⟨[], by simp, by simp⟩ : Quiet h mp.emitted mp)⟩).ok hr
  exact ⟨hv.2.pending, hv.2.queue, hq.2⟩

example : ∃ mp pb, Reachable Avro.codec exEnv mp ∧ mp.pendingBatches.get? (exHash 1) = some pb ∧
    Keeps exEnv pb.number ∧ blockOf (keyOf Avro.codec (.batch (exHash 3))) ≠ exHash 1 := by
  obtain ⟨mp, pb, h1, h2, h3⟩ := exReachable
  exact ⟨mp, pb, h1, h2, by intro t n hn; simp [exEnv] at hn, by decide⟩

/-- **C05**: the content of an emitted block depends on the messages carrying its hash only (Reorg messages concern every block).
Whatever is fed to a processor in whatever reachable state, the first block `h` emitted from then on is the one block that the
same processor emits when it is fed the messages of block `h` alone: same number, parent, weight, values, deletes and recorded
offsets. With a fresh processor the state before is empty. Map orders and eviction requests are arbitrary on the left; on the
right some choice of them does it. -/
theorem C05_own_messages {C : Codec} {env : Env} {mp mp' : MP} {ms : List RMsg} {es : List PB} {pb : PB} {h : Hash}
    (h1 : Reachable C env mp) (hc : h ∉ mp.completed.items) (hf : Fed C mp ms mp') (he : mp'.emitted = mp.emitted ++ es)
    (hp : es.find? (·.hash = h) = some pb) :
    ∃ ms1 ms2 mp'' pb', ms = ms1 ++ ms2 ∧ Fed C mp (ms1.filter (Own h)) mp'' ∧ mp''.emitted = mp.emitted ++ [pb'] ∧
      SameBlock pb pb' := by
  have hB := reachable_base h1
  have hc : mp.completed.contains h = false := by
    cases hx : mp.completed.contains h with
    | false => rfl
    | true => exact absurd ((LRU.contains_iff _ _).mp hx) hc
  obtain ⟨ms1, ms2, s, pb', r1, r2, r3, r4⟩ :=
    own_run hf hB hB ⟨hc, [], fun _ => Sim.refl hB hc⟩ he hp
  exact ⟨ms1, ms2, s, pb', r1, r2, r3, bare_same r4⟩

/-- A stream of block 1 with messages of block 3 in between: block 1 is emitted. -/
example : ∃ mp', Fed Avro.codec exMP
      ([at_ ⟨keyOf Avro.codec (.update (exHash 3) (str "p/x")), [1]⟩ 1 (str "s:1")] ++ exStream) mp' ∧
    ((mp'.emitted.find? (·.hash = exHash 1)).map PB.hash == some (exHash 1)) = true ∧ exHash 1 ∉ exMP.completed.items := by
  obtain ⟨mp', h1, h2⟩ := ex_ok (r := MP.run Avro.codec exEnv exMP
      ([at_ ⟨keyOf Avro.codec (.update (exHash 3) (str "p/x")), [1]⟩ 1 (str "s:1")] ++ exStream))
    (fun mp : MP => (mp.emitted.find? (·.hash = exHash 1)).map PB.hash == some (exHash 1)) (by decide +kernel)
  exact ⟨mp', run_fed h1, h2, by decide⟩

/-- **C06**: in a block emitted after any messages `ms`, every value and every delete comes from an entry of the block's header
that the filter accepts: an accepted inline value/delete, a BatchMsg/BatchDeleteMsg counted against an accepted prefix, or a
message of an accepted sub-batch. -/
theorem C06_no_untracked_data {C : Codec} {env : Env} {cfg : Config} {mp mp' : MP} {ms : List RMsg} (hn : newMP cfg = .ok mp)
    (hr : mp.run C env ms = .ok mp') {pb : PB} (hpb : pb ∈ mp'.emitted) :
    ∃ hd b, Of (· ∈ ms) pb.hash 0 hd ∧ C.decBatch hd.value = some b ∧
      pb.number = b.number ∧ pb.parentHash = b.parentHash ∧ pb.weight = bytesNat b.weight ∧
      (∀ k v, pb.values.get? k = some v → ValueFrom C (· ∈ ms) cfg.tracked pb.hash b pb k v) ∧
      (∀ k, pb.deletes.contains k = true → DeleteFrom C (· ∈ ms) cfg.tracked pb.hash b pb k) := by
  have hlen := run_ok_len hr
  obtain ⟨⟨⟨hd, b, h1, h2, h3, h4, h5, h6, hp⟩, _⟩, _⟩ := (prov_parts C env (· ∈ ms) hlen cfg.tracked cfg.frp).emitted hn
    (by intro s o hs; simp at hs) (fun m hm => hm) hr pb hpb
  exact ⟨hd, b, h1, h2, h4, h6, h5, hp.values, hp.deletes⟩

example : ∃ mp', MP.run Avro.codec exEnv exMP exStream = .ok mp' ∧
    ((mp'.emitted.map (fun pb => pb.values.keys.length)) == [4]) = true :=
  ex_ok (fun mp : MP => (mp.emitted.map (fun pb => pb.values.keys.length)) == [4]) (by decide +kernel)

/-- **C07** refuted as stated: a second copy of a sub-batch header, delivered from another source while the block is being
assembled, is not recorded. -/
theorem C07_refuted : ∃ (ms1 ms2 : List RMsg) (m : RMsg) (mp1 mp2 : MP) (pb : PB),
    exMP.run Avro.codec exEnv ms1 = .ok mp1 ∧ mp1.pendingBatches.contains (blockOf m.key) = true ∧
    exMP.run Avro.codec exEnv (ms1 ++ m :: ms2) = .ok mp2 ∧ pb ∈ mp2.emitted ∧ pb.hash = blockOf m.key ∧
    resumeAt pb m.source = none := by
  have key : ∃ mp1 mp2, exMP.run Avro.codec exEnv (exStream.take 6) = .ok mp1 ∧
      exMP.run Avro.codec exEnv (exStream.take 6 ++ exDup :: exStream.drop 6) = .ok mp2 ∧
      mp1.pendingBatches.contains (exHash 1) = true ∧
      (match mp2.emitted with | [pb] => pb.hash == exHash 1 && (resumeAt pb (str "other")).isNone | _ => false) = true := by
    obtain ⟨mp1, h1, h2⟩ := ex_ok (r := exMP.run Avro.codec exEnv (exStream.take 6))
      (fun mp => mp.pendingBatches.contains (exHash 1)) (by decide +kernel)
    obtain ⟨mp2, h3, h4⟩ := ex_ok
      (r := exMP.run Avro.codec exEnv (exStream.take 6 ++ exDup :: exStream.drop 6))
      (fun mp => match mp.emitted with | [pb] => pb.hash == exHash 1 && (resumeAt pb (str "other")).isNone | _ => false)
      (by decide +kernel)
    exact ⟨mp1, mp2, h1, h3, h2, h4⟩
  obtain ⟨mp1, mp2, h1, h2, h3, h4⟩ := key
  have hb : blockOf exDup.key = exHash 1 := by decide +kernel
  revert h4
  match hem : mp2.emitted with
  | [] => intro h4; simp at h4
  | [pb] =>
    intro h4
    simp only [Bool.and_eq_true, beq_iff_eq, Option.isNone_iff_eq_none] at h4
    exact ⟨_, _, exDup, mp1, mp2, pb, h1, by rw [hb]; exact h3, h2, by rw [hem]; simp,
      by rw [hb]; exact h4.1, h4.2⟩
  | _ :: _ :: _ => intro h4; simp at h4

/-- **C06**, first half: if the filter accepts no value, delete, count or sub-batch of a header, processing the header emits the
block at once, without values and deletes (whatever messages of the block are already queued). -/
theorem C06_nothing_tracked {C : Codec} {env : Env} {mp mp' : MP} {m : RMsg} {e : Option Err} {b : Batch}
    (h1 : Reachable C env mp) (ht : m.key.head? = some 0) (hd : C.decBatch m.value = some b)
    (hc : mp.completed.contains (blockOf m.key) = false) (ho : mp.oldBlocks.contains (blockOf m.key) = false)
    (hp : mp.pendingBatches.get? (blockOf m.key) = none) (hk : Keeps env b.number)
    (hno : ∀ x r, Accepted mp.tracked b x r → r.value = [] ∧ r.delete = false ∧ r.count = 0 ∧ r.subbatch = Hash.zero)
    (hr : mp.processMessage C env m = .ok (mp', e)) :
    e = none ∧ ∃ pb, mp'.emitted = mp.emitted ++ [pb] ∧ pb.values.entries = [] ∧ pb.deletes.entries = [] ∧
      pb.number = b.number ∧ pb.hash = blockOf m.key := by
  obtain ⟨h2, pb, h3, h4, h5, h6⟩ := hollow_process (reachable_base h1) ht hd hc ho hp hk
    (fun x r hx htr => hno x r ⟨hx, htr⟩) hr
  exact ⟨h2, pb, h3, h4.values, h4.deletes, h5, h6⟩

/-- A processor that tracks nothing emits `exBlock` empty. -/
example : ∃ mp, MP.run Avro.codec exEnv { exMP with tracked := fun _ => false } exStream = .ok mp ∧
    (mp.emitted.map (fun pb => (pb.hash, pb.values.keys, pb.deletes.keys)) == [(exHash 1, [], [])]) = true :=
  ex_ok (fun mp : MP => mp.emitted.map (fun pb => (pb.hash, pb.values.keys, pb.deletes.keys)) == [(exHash 1, [], [])])
    (by decide +kernel)

/-- **C07**, the part that holds, first half: an update, delete or sub-batch message processed while its block is being assembled
is recorded in the block, until its next emission and there. Missing: second copies of a sub-batch header (`C07_refuted`). -/
theorem C07_messages_recorded_partial {C : Codec} {env : Env} {mp mp1 mp2 : MP} {m : RMsg} {ms : List RMsg} {e : Option Err}
    {pb : PB} (h1 : Reachable C env mp) (hp : mp.pendingBatches.get? (blockOf m.key) = some pb) (hk : Keeps env pb.number)
    (ht : m.key.head? = some 2 ∨ m.key.head? = some 3 ∨ m.key.head? = some 4)
    (hm : mp.processMessage C env m = .ok (mp1, e)) (hr : mp1.run C env ms = .ok mp2) :
    (∃ pb', mp2.pendingBatches.get? (blockOf m.key) = some pb' ∧ Recorded pb' m ∧
      ∃ es, mp2.emitted = mp.emitted ++ es ∧ ∀ x ∈ es, x.hash ≠ blockOf m.key) ∨
    (∃ es pb' rest, mp2.emitted = mp.emitted ++ es ++ pb' :: rest ∧ (∀ x ∈ es, x.hash ≠ blockOf m.key) ∧
      pb'.hash = blockOf m.key ∧ Recorded pb' m) := by
  have hB := reachable_base h1
  have hstep : ∃ pb1, RecLe pb pb1 ∧ pb1.number = pb.number ∧ Recorded pb1 m ∧
      Tracks (blockOf m.key) mp.emitted pb1 mp1 := by
    unfold MP.processMessage at hm
    generalize MP.step C env (fun _ _ => .error .hang) = self at hm
    unfold MP.step at hm
    have hf := begin_fields env mp m
    have hB1 := hB.begin env m
    have hg : (mp.begin env m).pendingBatches.get? (hashOf m.key) = some pb := by
      rcases begin_get env mp m (hashOf m.key) with ⟨h1, h2⟩ | ⟨pb1, h1, ⟨n, hn, hlt⟩, _⟩
      · exact h1.trans hp
      · have hp' : mp.pendingBatches.get? (hashOf m.key) = some pb := hp
        rw [hp'] at h1; cases h1
        have := hk _ n hn; omega
    have hem := emitted_of_log hf.2.2.1
    generalize mp.begin env m = mp0 at hm hB1 hg hem
    simp only [] at hm
    split at hm
    · simp at hm
    have htD : m.key.headD 0 = 2 ∨ m.key.headD 0 = 3 ∨ m.key.headD 0 = 4 := by
      cases hkk : m.key with
      | nil => rw [hkk] at ht; simp at ht
      | cons a r => rw [hkk] at ht; simpa using ht
    have n1 : m.key.headD 0 ≠ ReorgType := by rcases htD with h | h | h <;> rw [h] <;> decide
    have n2 : m.key.headD 0 ≠ BatchType := by rcases htD with h | h | h <;> rw [h] <;> decide
    have n3 : m.key.headD 0 ≠ SubBatchHeaderType := by rcases htD with h | h | h <;> rw [h] <;> decide
    simp only [n1, n2, n3, if_false] at hm
    have c1 : mp0.completed.contains (hashOf m.key) = false := by
      rw [← Bool.not_eq_true]; intro hc; rw [hB1.compl _ hc] at hg; simp at hg
    have c2 : mp0.oldBlocks.contains (hashOf m.key) = false := by
      rw [← Bool.not_eq_true]; intro hc; rw [hB1.old _ hc] at hg; simp at hg
    simp only [c1, c2, Bool.false_eq_true, if_false] at hm
    unfold MP.onOther at hm
    rw [hg] at hm
    simp only [] at hm
    split at hm
    · simp at hm
    · rename_i pb1 r ha
      simp at hm
      rw [← hm.1]
      have hs := sameHead_apply ha
      obtain ⟨r1, r2⟩ := recLe_apply ha
      refine ⟨pb1, r1, hs.number, r2, tracks_finish (hB1.update hg hs.hash) ?_ _⟩
      exact .pending pb1 (by show GMap.get? (GMap.insert _ (hashOf m.key) _) (hashOf m.key) = _; simp) (RecLe.refl _) rfl
        ⟨[], by rw [List.append_nil]; exact hem, by simp⟩
  obtain ⟨pb1, r1, r2, r3, r4⟩ := hstep
  have hfin := ((tracks_parts C env (blockOf m.key) mp.emitted pb1 (by rw [r2]; exact hk)).toParts.run (fun _ _ => trivial)
    ⟨hB.process hm, r4⟩ hr).2
  cases hfin with
  | pending pb' hp' hr' hn' hq => exact .inl ⟨pb', hp', hr'.recorded r3, hq⟩
  | done es pb' rest he hes hh hr' => exact .inr ⟨es, pb', rest, he, hes, hh, hr'.recorded r3⟩

example : ∃ mp pb, Reachable Avro.codec exEnv mp ∧ mp.pendingBatches.get? (exHash 1) = some pb ∧ Keeps exEnv pb.number := by
  obtain ⟨mp, pb, h1, h2, h3⟩ := exReachable
  exact ⟨mp, pb, h1, h2, by intro t n hn; simp [exEnv] at hn⟩

/-- **C07**, the part that holds, second half: in every emitted block the batch header is recorded, and so is for every value,
delete, sub-batch header and sub-batch message in it a message that carried it (`ValueFrom`, `DeleteFrom` include this);
and every offset `Resumption()` contains was really received from that source. -/
theorem C07_content_recorded_partial {C : Codec} {env : Env} {cfg : Config} {mp mp' : MP} {ms : List RMsg}
    (hn : newMP cfg = .ok mp) (hr : mp.run C env ms = .ok mp') {pb : PB} (hpb : pb ∈ mp'.emitted) :
    (∃ hd b, Of (· ∈ ms) pb.hash 0 hd ∧ C.decBatch hd.value = some b ∧ Recorded pb hd ∧
      (∀ k v, pb.values.get? k = some v → ValueFrom C (· ∈ ms) cfg.tracked pb.hash b pb k v) ∧
      (∀ k, pb.deletes.contains k = true → DeleteFrom C (· ∈ ms) cfg.tracked pb.hash b pb k)) ∧
    (∀ id bits, pb.batches.get? id = some bits →
      (∃ m, Of (· ∈ ms) pb.hash 1 m ∧ bytesToHash (m.key.drop 33) = id ∧ Recorded pb m) ∧
      ∀ i, i < bits.length → ∃ m, Of (· ∈ ms) pb.hash 2 m ∧ bytesToHash ((m.key.drop 33).take 32) = id ∧
        C.decInt (m.key.drop 65) = some (i : Int) ∧ Recorded pb m) ∧
    (∀ s o, resumeAt pb s = some o → ∃ m ∈ ms, m.source = s ∧ m.offset = o) := by
  have hlen := run_ok_len hr
  obtain ⟨⟨⟨hd, b, h1, h2, h3, h4, h5, h6, hp⟩, hdef⟩, hready⟩ :=
    (prov_parts C env (· ∈ ms) hlen cfg.tracked cfg.frp).emitted hn (by intro s o hs; simp at hs) (fun m hm => hm) hr pb hpb
  refine ⟨⟨hd, b, h1, h2, h3, hp.values, hp.deletes⟩, ?_, ?_⟩
  · intro id bits hb
    obtain ⟨_, m, m1, m2, m3, m4⟩ := hp.batches id bits hb
    refine ⟨⟨m, m1, m2, m3⟩, ?_⟩
    intro i hi
    unfold PB.ready at hready
    simp only [Bool.and_eq_true, List.all_eq_true] at hready
    have hall := hready.2 (id, bits) ((GMap.get?_eq_some_iff _).mp hb)
    have : bits[i]? = some true := by
      rw [List.getElem?_eq_getElem hi]
      congr 1
      exact hall _ (List.getElem_mem hi)
    exact hp.bits id bits i hb this
  · intro s o hs
    unfold resumeAt at hs
    rw [Option.or_eq_some_iff] at hs
    rcases hs with hs | ⟨_, hs⟩
    · obtain ⟨m, m1, _, m2, m3⟩ := hp.res s o hs
      exact ⟨m, m1, m2, m3⟩
    · obtain ⟨m, m1, m2, m3⟩ := hdef s o hs
      exact ⟨m, m1, m2, m3⟩

example : ∃ mp', MP.run Avro.codec exEnv exMP exStream = .ok mp' ∧
    ((mp'.emitted.map (fun pb => (pb.batches.keys, resumeAt pb (str "s:0")))) == [([exHash 9], some 0)]) = true :=
  ex_ok (fun mp : MP => (mp.emitted.map (fun pb => (pb.batches.keys, resumeAt pb (str "s:0")))) == [([exHash 9], some 0)])
    (by decide +kernel)

/-- **C10**: if an eviction request for blocks older than `n` is served while block `h` with a smaller number is pending, then
processing any messages without a Reorg among them never emits `h`. -/
theorem C10_dropped_stay_dropped {C : Codec} {env : Env} {mp mp' : MP} {ms : List RMsg} {h : Hash} {pb : PB} {n : Int}
    (h1 : Reachable C env mp) (hp : mp.pendingBatches.get? h = some pb) (hn : n ∈ env.evict mp.tick) (hlt : pb.number < n)
    (hm : ∀ m ∈ ms, ¬ IsReorg m) (hr : mp.run C env ms = .ok mp') :
    ∃ es, mp'.emitted = mp.emitted ++ es ∧ ∀ x ∈ es, x.hash ≠ h := by
  have hB := reachable_base h1
  cases ms with
  | nil => simp [MP.run] at hr; subst hr; exact ⟨[], by simp, by simp⟩
  | cons m ms =>
    have hd : Dropped h mp.emitted (mp.begin env m) := by
      refine ⟨?_, [], by rw [emitted_of_log (begin_fields env mp m).2.2.1]; simp, by simp⟩
      rcases drainEvict_evicts (mp := mp) (ns := env.evict mp.tick) hp hn hlt with h2
      rw [(begin_fields env mp m).2.2.2.2.2.2.2.1]; exact h2
    simp only [MP.run] at hr
    match hpm : mp.processMessage C env m with
    | .error f => rw [hpm] at hr; simp at hr
    | .ok (mp1, e) =>
      rw [hpm] at hr
      have hparts := (dropped_parts C env h mp.emitted).toParts
      have h2 := (hparts.process_begun (mp := mp) (notReorg_iff (hm m (by simp))) ⟨hB.begin env m, hd⟩).ok hpm
      exact (hparts.run (fun m hmem => notReorg_iff (hm m (by simp [hmem]))) h2 hr).2.ex

/-- An environment in which the ordering layer asks, before the sixth message, to drop blocks below number 10. -/
def exEvictEnv : Env := ⟨.plain, fun t => if t = 5 then [10] else []⟩

example : ∃ mp pb, Reachable Avro.codec exEvictEnv mp ∧ mp.pendingBatches.get? (exHash 1) = some pb ∧
    10 ∈ exEvictEnv.evict mp.tick ∧ pb.number < 10 := by
  obtain ⟨mp, h1, h2⟩ := ex_ok (r := MP.run Avro.codec exEvictEnv exMP (exStream.take 5))
    (fun mp : MP => match mp.pendingBatches.get? (exHash 1) with | some pb => pb.number == 5 && mp.tick == 5 | none => false)
    (by decide +kernel)
  revert h2
  cases hp : mp.pendingBatches.get? (exHash 1) with
  | none => intro h2; simp at h2
  | some pb =>
    intro h2
    simp only [Bool.and_eq_true, beq_iff_eq] at h2
    exact ⟨mp, pb, ⟨exCfg, exMP, _, exMP_new, h1⟩, hp, by rw [h2.2]; decide, by rw [h2.1]; decide⟩

/-- **C11**: a Reorg message (as made by `Producer.Reorg`, number within 32 bits) is announced with its number and hash and
emits no block; afterwards no block counts as emitted or dropped any more, blocks being assembled and queued messages are
kept. (That earlier blocks are then really assembled and emitted again is `C01_complete`, which starts from any such state.) -/
theorem C11_reorg {C : Codec} (hC : C.Lawful) {env : Env} {mp : MP} {n : Int} {hash : Hash} (hn : InInt32 n) (off : Int)
    (src : GoStr) (hk : ∀ h pb, mp.pendingBatches.get? h = some pb → Keeps env pb.number) :
    ∃ mp', mp.processMessage C env (⟨(reorgMsg C n hash).key, (reorgMsg C n hash).value, off, src⟩ : RMsg) = .ok (mp', none) ∧
      mp'.log = mp.log ++ [MPOut.reorg n hash] ∧ mp'.emitted = mp.emitted ∧
      (∀ h, mp'.completed.contains h = false ∧ mp'.oldBlocks.contains h = false) ∧
      (∀ h, mp'.pendingBatches.get? h = mp.pendingBatches.get? h) ∧ mp'.pendingMessages = mp.pendingMessages := by
  have h1 := keyOf_length C (.reorg hash)
  have h2 := keyOf_headD C (.reorg hash)
  have h3 : hashOf (keyOf C (.reorg hash)) = hash := keyOf_hash C (.reorg hash)
  have hkey : (reorgMsg C n hash).key = keyOf C (.reorg hash) := rfl
  have hv : C.decInt (reorgMsg C n hash).value = some n := hC.int n hn
  have hf := begin_fields env mp ⟨keyOf C (.reorg hash), (reorgMsg C n hash).value, off, src⟩
  have hg : ∀ h, (mp.begin env ⟨keyOf C (.reorg hash), (reorgMsg C n hash).value, off, src⟩).pendingBatches.get? h =
      mp.pendingBatches.get? h := by
    intro h
    rcases begin_get env mp ⟨keyOf C (.reorg hash), (reorgMsg C n hash).value, off, src⟩ h with ⟨a, _⟩ | ⟨pb, a, ⟨x, hx, hlt⟩, _⟩
    · exact a
    · have := hk h pb a _ x hx; omega
  unfold MP.processMessage
  generalize MP.step C env (fun _ _ => .error .hang) = self
  unfold MP.step
  simp only [hkey, h1, h2, h3, if_false]
  simp only [MsgId.type, ReorgType, if_true, MP.onReorg, hv]
  refine ⟨_, rfl, by rw [hf.2.2.1], ?_, fun h => ⟨rfl, rfl⟩, hg, hf.2.1⟩
  unfold MP.emitted; simp [hf.2.2.1, List.filterMap_append]

example : InInt32 15000000 ∧ ∃ mp pb, Reachable Avro.codec exEnv mp ∧ mp.pendingBatches.get? (exHash 1) = some pb := by
  obtain ⟨mp, pb, h1, h2, _⟩ := exReachable
  exact ⟨by decide, mp, pb, h1, h2⟩

/-- **C12** refuted as stated: a key shorter than 33 bytes, a sub-batch index beyond the announced count, a negative announced
count, and a sub-batch message key shorter than 65 bytes each make `ProcessMessage` panic. -/
theorem C12_refuted :
    (∃ m, exMP.processMessage Avro.codec exEnv m = .error .panic) ∧
    (∃ ms, exMP.run Avro.codec exEnv ms = .error .panic ∧ ∀ m ∈ ms, 33 ≤ m.key.length) ∧
    (∃ ms : List RMsg, exMP.run Avro.codec exEnv ms = .error .panic ∧ ∀ m ∈ ms, ∃ i, m.key = keyOf Avro.codec i) := by
  refine ⟨⟨⟨[], [], 0, []⟩, rfl⟩, ⟨exStream.take 5 ++ [⟨2 :: (exHash 1).bytes ++ [1], [], 5, []⟩], ?_, by decide +kernel⟩,
    ⟨exStream.take 5 ++ [⟨keyOf Avro.codec (.subMsg (exHash 1) (exHash 9) 2), [], 5, []⟩], ?_, ?_⟩⟩
  · exact ex_err (by decide +kernel)
  · exact ex_err (by decide +kernel)
  · intro m hm
    have hall : ∀ m ∈ exStream.take 5 ++ [⟨keyOf Avro.codec (.subMsg (exHash 1) (exHash 9) 2), [], 5, []⟩],
        m.key ∈ [keyOf Avro.codec (.batch (exHash 1)), keyOf Avro.codec (.update (exHash 1) (str "state/a")),
          keyOf Avro.codec (.update (exHash 1) (str "state/b")), keyOf Avro.codec (.delete (exHash 1) (str "state/c")),
          keyOf Avro.codec (.subHeader (exHash 1) (exHash 9)), keyOf Avro.codec (.subMsg (exHash 1) (exHash 9) 2)] := by
      decide +kernel
    have := hall m hm
    simp only [List.mem_cons, List.not_mem_nil, or_false] at this
    rcases this with h | h | h | h | h | h <;> exact ⟨_, h⟩

/-- **C12** and **C13**, the part that holds: with `FailedReconstructPanic` off, a processor fed any well-formed messages (keys
long enough, sub-batch headers announcing the number of messages `n` of their batch, indices below it, relative paths), in any
order, with any contents, never panics and never hangs. Missing: messages that are not well formed (`C12_refuted`). -/
theorem C12_partial {C : Codec} {env : Env} {cfg : Config} {mp : MP} {ms : List RMsg} (n : Hash → Hash → Nat)
    (hn : newMP cfg = .ok mp) (hf : cfg.frp = false) (hm : ∀ m ∈ ms, WellFormedMsg C n m) :
    ∃ mp', mp.run C env ms = .ok mp' := by
  obtain ⟨mp', h, _⟩ := (safe_parts C env n).toParts.run_total hm ⟨Base.newMP hn, MPSafe.newMP hn hf⟩
  exact ⟨mp', h⟩

theorem exStream_wf : ∀ m ∈ exStream, WellFormedMsg Avro.codec (fun _ _ => 2) m := by
  have h : ∀ m ∈ exStream, 33 ≤ m.key.length ∧ (m.key.head? = some 2 → 65 ≤ m.key.length) ∧
      (m.key.head? = some 2 → (Avro.codec.decInt (m.key.drop 65)).all (fun i => decide (0 ≤ i ∧ i < 2)) = true) ∧
      (m.key.head? = some 1 → (Avro.codec.decInt m.value).all (fun i => decide (i = 2)) = true) ∧
      (m.key.head? = some 3 ∨ m.key.head? = some 4 → Relative (m.key.drop 33)) := by decide +kernel
  intro m hm
  obtain ⟨h1, h2, h3, h4, h5⟩ := h m hm
  refine ⟨h1, h2, ?_, ?_, h5⟩
  · intro ht i hi
    have := h3 ht
    rw [hi] at this
    simpa using this
  · intro ht i hi
    have := h4 ht
    rw [hi] at this
    simpa using this

example : exCfg.frp = false ∧ ∀ m ∈ exStream, WellFormedMsg Avro.codec (fun _ _ => 2) m := ⟨rfl, exStream_wf⟩

/-- The rounds of the search of `DecPrefixCounter` from directory `d` end (`delivery/consumer.go:158-172`). -/
inductive Spec.SearchEnds (frp : Bool) (prefixes : GMap GoStr Int) : GoStr → Prop
  | dot : SearchEnds frp prefixes (str ".")
  | found (d : GoStr) (v : Int) (h : prefixes.get? (Path.dirKey d) = some v) (hv : 0 < v) : SearchEnds frp prefixes d
  | failed (d : GoStr) (h : prefixes.get? (Path.dirKey d) = some 0) (hf : frp = true) : SearchEnds frp prefixes d
  | up (d : GoStr) (h : SearchEnds frp prefixes (Path.dir d)) : SearchEnds frp prefixes d

theorem searchEnds_iff {frp : Bool} {prefixes : GMap GoStr Int} {d : GoStr} :
    SearchEnds frp prefixes d ↔ ∃ fuel, decPrefixLoop frp prefixes fuel d ≠ .error .hang := by
  constructor
  · intro h
    induction h with
    | dot => exact ⟨1, by simp [decPrefixLoop, Path.dot, str]⟩
    | found d v h hv =>
      refine ⟨1, ?_⟩
      unfold decPrefixLoop
      split
      · simp
      · simp only [h]; rw [if_pos hv]; simp
    | failed d h hf =>
      refine ⟨1, ?_⟩
      unfold decPrefixLoop
      split
      · simp
      · simp only [h]; simp [hf]
    | up d h ih =>
      obtain ⟨fuel, hfu⟩ := ih
      refine ⟨fuel + 1, ?_⟩
      unfold decPrefixLoop
      split
      · simp
      · simp only []
        split
        · split
          · simp
          · split
            · simp
            · exact hfu
        · exact hfu
  · rintro ⟨fuel, h⟩
    induction fuel generalizing d with
    | zero => simp [decPrefixLoop] at h
    | succ fuel ih =>
      unfold decPrefixLoop at h
      split at h
      · rename_i hd; rw [hd]; exact .dot
      · simp only [] at h
        split at h
        · rename_i v hv
          split at h
          · rename_i hp; exact .found d v hv hp
          · split at h
            · rename_i hc; rw [hc.1] at hv; exact .failed d hv hc.2
            · exact .up d (ih h)
        · exact .up d (ih h)

/-- **C13** refuted as stated: for the path "/x" and no counted prefix the search never ends (and the model's processor hangs on
such a message). -/
theorem C13_refuted : (∀ frp, ¬ SearchEnds frp GMap.empty (str "/x")) ∧
    ∃ ms : List RMsg, exMP.run Avro.codec exEnv ms = .error .hang ∧ ∀ m ∈ ms, 33 ≤ m.key.length := by
  refine ⟨?_, exStream.take 1 ++ [⟨keyOf Avro.codec (.update (exHash 1) (str "/x")), [1], 5, []⟩], ?_, by decide +kernel⟩
  · intro frp h
    obtain ⟨fuel, hf⟩ := searchEnds_iff.mp h
    exact hf (decPrefixLoop_rooted frp fuel _ (by decide))
  · exact ex_err (by decide +kernel)

/-- **C13**, the part that holds: the search ends for every path that does not start with a slash, whatever is counted. Missing:
rooted paths (`C13_refuted`). -/
theorem C13_partial (frp : Bool) (prefixes : GMap GoStr Int) (path : GoStr) (h : Relative path) :
    SearchEnds frp prefixes path :=
  searchEnds_iff.mpr ⟨path.length + 2, decPrefixLoop_relative frp prefixes _ path h (Nat.le_refl _)⟩

example : Relative (str "a/b/../c//d") := by decide

/-- **C15** refuted as stated: with a sub-batch message missing the answer is "ready". -/
theorem C15_refuted : ∃ (mp : MP) (pb : PB), Reachable Avro.codec exEnv mp ∧ mp.pendingBatches.get? (exHash 1) = some pb ∧
    ¬ Complete pb ∧ mp.whyNotReady .plain (exHash 1) = .why .ready := by
  obtain ⟨mp, h1, h2⟩ := ex_ok (r := MP.run Avro.codec exEnv exMP (exStream.take 6))
    (fun mp : MP => match mp.pendingBatches.get? (exHash 1) with
      | some pb => (match pb.batches.get? (exHash 9) with | some bits => bits == [true, false] | none => false) &&
        (mp.whyNotReady .plain (exHash 1) == .why .ready)
      | none => false) (by decide +kernel)
  revert h2
  cases hp : mp.pendingBatches.get? (exHash 1) with
  | none => intro h2; simp at h2
  | some pb =>
    intro h2
    simp only [Bool.and_eq_true, beq_iff_eq] at h2
    refine ⟨mp, pb, ⟨exCfg, exMP, _, exMP_new, h1⟩, hp, ?_, h2.2⟩
    intro hc
    obtain ⟨h3, _⟩ := h2
    split at h3
    · rename_i bits hb
      simp only [beq_iff_eq] at h3
      have := hc.2.2 _ _ hb false (by rw [h3]; simp)
      simp at this
    · simp at h3

/-- **C15**, the part that holds: "not found" exactly for blocks that are not being assembled; a complete block is always
reported ready; when no sub-batch message is missing "ready" is reported exactly for complete blocks, and then the other answers
name something really missing — for every map iteration order. Missing: sub-batch messages (`C15_refuted`). -/
theorem C15_partial (o : MapOrder) (mp : MP) (h : Hash) :
    (mp.whyNotReady o h = .notFound ↔ mp.pendingBatches.get? h = none) ∧
    ∀ pb, mp.pendingBatches.get? h = some pb →
      (Complete pb → mp.whyNotReady o h = .why .ready) ∧
      ((∀ id bits, pb.batches.get? id = some bits → ∀ b ∈ bits, b = true) →
        (mp.whyNotReady o h = .why .ready ↔ Complete pb)) ∧
      (mp.whyNotReady o h = .why .pendingBatches → ∃ id, pb.pendingBatches.contains id = true) ∧
      (∀ p, mp.whyNotReady o h = .why (.pendingPrefix p) → ∃ c, pb.prefixes.get? p = some c ∧ 0 < c) := by
  unfold MP.whyNotReady
  refine ⟨by split <;> simp_all, ?_⟩
  intro pb hpb
  rw [hpb]
  simp only [MPWhy.why.injEq]
  have hempty : pb.pendingBatches.entries.isEmpty = true ↔ ∀ id, pb.pendingBatches.get? id = none := by
    rw [List.isEmpty_iff]
    exact ⟨fun h => get_of_entries_nil h, fun h => entries_nil_of_get h⟩
  have hready : pb.whyNotReady o = .ready ↔
      (∀ id, pb.pendingBatches.get? id = none) ∧ ∀ x c, pb.prefixes.get? x = some c → c ≤ 0 := by
    unfold PB.whyNotReady
    rw [← hempty]
    cases hb : pb.pendingBatches.entries.isEmpty
    · simp
    · simp only [Bool.not_true, Bool.false_eq_true, if_false, true_and]
      split
      · rename_i e he
        simp only [reduceCtorEq, false_iff]
        intro hall
        have h1 := List.find?_some he
        have h2 := List.mem_of_find?_eq_some he
        have := hall e.1 e.2 ((GMap.get?_eq_some_iff _).mpr ((o.perm _ _).mem_iff.mp h2))
        simp at h1; omega
      · rename_i hne
        simp only [true_iff]
        intro x c hx
        have := List.find?_eq_none.mp hne (x, c) ((o.perm _ _).mem_iff.mpr ((GMap.get?_eq_some_iff _).mp hx))
        simpa using this
  refine ⟨fun hc => hready.mpr ⟨hc.1, hc.2.1⟩, fun hb => ⟨fun h => ?_, fun hc => hready.mpr ⟨hc.1, hc.2.1⟩⟩, ?_, ?_⟩
  · exact ⟨(hready.mp h).1, (hready.mp h).2, hb⟩
  · intro h
    unfold PB.whyNotReady at h
    cases hb : pb.pendingBatches.entries.isEmpty
    · refine Classical.byContradiction fun hn => ?_
      have : pb.pendingBatches.entries.isEmpty = true := hempty.mpr fun id => by
        rw [← GMap.contains_eq_false, ← Bool.not_eq_true]; exact fun hc => hn ⟨id, hc⟩
      rw [hb] at this; simp at this
    · rw [hb] at h
      simp only [Bool.not_true, Bool.false_eq_true, if_false] at h
      split at h <;> simp at h
  · intro p h
    unfold PB.whyNotReady at h
    split at h
    · simp at h
    · split at h
      · rename_i e he
        simp only [Why.pendingPrefix.injEq] at h
        have h1 := List.find?_some he
        have h2 := List.mem_of_find?_eq_some he
        refine ⟨e.2, ?_, by simpa using h1⟩
        rw [← h]
        exact (GMap.get?_eq_some_iff _).mpr ((o.perm _ _).mem_iff.mp h2)
      · simp at h

/-- A block that misses an update is reported as such. -/
example : ∃ mp, MP.run Avro.codec exEnv exMP ((exStream.take 2) ++ exStream.drop 3) = .ok mp ∧
    (mp.whyNotReady .plain (exHash 1) == .why (.pendingPrefix (str "state/"))) = true :=
  ex_ok (fun mp : MP => mp.whyNotReady .plain (exHash 1) == .why (.pendingPrefix (str "state/"))) (by decide +kernel)

end Verif
