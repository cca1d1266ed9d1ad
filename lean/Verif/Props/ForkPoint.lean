import Verif.Props.ForkPartition
import Verif.Props.Waiting
/-! # C149: a restarted consumer whose reader begins after the fork point -/
namespace Verif
open Spec

section
variable {C : Codec} {env : Env} {o : MapOrder} {cfg : Config} {root stored : SentBlock} {tree others : List SentBlock} {received : List RMsg}

/-- After handling emitted blocks the head is in the tree, and so is all that was sent. -/
theorem Spec.TreeBelow.sent (h : TreeBelow C cfg root stored tree others received) (hwin : ((tree ++ others).length : Int) ≤ 2 * cfg.reorgThreshold) {omp0 : OMP}
    (ho : newOMP cfg = .ok omp0) {tr : GoStr → Bool} {ds : List PB} : ∀ {omp : OMP}, (∀ pb ∈ ds, Known2 tr root tree others pb) →
    TreeOrder cfg root.args.hash tree ds → omp0.run o (ds.map OOp.block) = .ok omp →
    OInv (Known2 tr root tree others) omp ∧ omp.initEmpty = false ∧ omp.lastHash ∈ tree.map (·.args.hash) ∧
      ∀ added removed, OOut.update added removed ∈ omp.log → ∀ b ∈ added ++ removed, ∃ sb ∈ tree, Exact tr sb.schema sb.args sb.subs b := by
  have hH : Hashed (Known2 tr root tree others) := by
    have hh := oneOf_hashed (tr := tr) h.distinct
    exact ⟨fun b ⟨s, hs, he, _⟩ => hh.nz b ⟨s, hs, he⟩, fun a b ⟨s, hs, he, _⟩ ⟨t, ht, hf, _⟩ => hh.parent a b ⟨s, hs, he⟩ ⟨t, ht, hf⟩⟩
  induction ds using snoc_induction with
  | nil =>
    intro omp _ _ hr
    cases hr
    obtain ⟨i1, i2, _, _, i5, i6, _⟩ := newOMP_inv (D := Known2 tr root tree others) ho
    refine ⟨i1, by simp [i6, h.storedHash], by rw [i2, ← h.hash]; exact List.mem_map.mpr ⟨stored, h.inTree, rfl⟩, ?_⟩
    intro a r hin
    rw [i5] at hin
    simp at hin
  | snoc l x ih =>
    intro omp hk hord hr
    have hr' := hr
    rw [List.map_append] at hr
    obtain ⟨s1, hr1, hop⟩ := orun_snoc hr
    obtain ⟨ih1, ih2, ih3, ih4⟩ := ih (fun b hb => hk b (by simp [hb])) hord.prefix hr1
    have hlast : omp.lastHash ∈ tree.map (·.args.hash) := by
      obtain ⟨-, g2, g3⟩ := h.handled hwin ho (fun b hb => (hk b hb).kind) hord hr'
      by_cases hin : cfg.lastHash ∈ hashes (l ++ [x])
      · obtain ⟨l1, b, l2, e, e1, _⟩ := g2 hin
        have := (List.mem_filter.mp (show b ∈ blocksIn tree (l ++ [x]) by rw [e]; simp)).2
        rw [← e1]
        exact of_decide_eq_true this
      · rw [(g3 hin).2, ← h.hash]
        exact List.mem_map.mpr ⟨stored, h.inTree, rfl⟩
    have hh := op_block_out (N := False) (D := Known2 tr root tree others) (fun h => h.elim) ih1 (fun _ => hk x (by simp)) hop
    refine ⟨hh.inv, hh.initEmpty.trans ih2, hlast, ?_⟩
    rcases hh.out with ⟨_, _, ev, hev, e2⟩ | ⟨added, removed, hu⟩
    · intro a r hin
      rw [e2] at hin
      rcases List.mem_append.mp hin with hin | hin
      · exact ih4 a r hin
      · obtain ⟨n, hn⟩ := hev _ hin
        cases hn
    · obtain ⟨ev, hev, e2⟩ := hu.log
      intro a r hin
      rw [e2] at hin
      rcases List.mem_append.mp hin with hin | hin
      · rcases List.mem_append.mp hin with hin | hin
        · exact ih4 a r hin
        · obtain ⟨n, hn⟩ := hev _ hin
          cases hn
      · simp only [List.mem_singleton, OOut.update.injEq] at hin
        obtain ⟨rfl, rfl⟩ := hin
        have hend : ∀ p, endOf p a ∈ tree.map (·.args.hash) := fun p => by
          rw [endOf_ne hu.ne p s1.lastHash, ← hu.lastHash]; exact hlast
        intro b hb
        cases hu.links hH with
        | next h1 h2 =>
          subst h1
          exact h.chain_exact h2 hu.addedD (hend _) b (by simpa using hb)
        | fork p h1 h2 h3 h4 _ _ =>
          rcases List.mem_append.mp hb with hb | hb
          · exact h.chain_exact h4 hu.addedD (hend _) b hb
          · exact h.chain_exact h2 hu.removedD (by rw [h3]; exact ih3) b hb
        | init _ h2 _ => rw [ih2] at h2; simp at h2

/-- **C149**, what is told: however heavy the blocks are that are not connected to the tree of the stored block, no update ever contains one of them, and the head is always
in the tree. -/
theorem C149_told (h : TreeBelow C cfg root stored tree others received) (hC : C.Lawful) (hwin : ((tree ++ others).length : Int) ≤ 2 * cfg.reorgThreshold)
    (hf : HeadersFollow root tree received) (hsf : StoredFirst stored tree received) {s0 s : Sys}
    (hst : Sys.start cfg (received.map Call.msg) = .ok s0) (hs : CausalSteps C env o s0 s) :
    (∃ t ∈ tree, s.omp.lastHash = t.args.hash) ∧
    ∀ added removed, OOut.update added removed ∈ s.omp.log → ∀ b ∈ added ++ removed, ∃ sb ∈ tree, Exact cfg.tracked sb.schema sb.args sb.subs b := by
  obtain ⟨mp0, omp0, ms, ds, hn, ho, ⟨rest, h1, h2⟩, h3, h4, h5, h6⟩ := h.supplied.inside hC hst hs.steps
  have key := undisturbed_of h.supplied hC hst (fun _ hs key => (h.consequences hC hwin hf hsf hst hs key).1) hs
  have hcalls : s.calls = ms.map Call.msg := by
    have := ((Piped.start hst).steps hs.steps).consists.calls
    rw [h1, h2, List.map_append] at this
    exact (List.append_cancel_right this).symm
  have hord := h.ordered hC hf hsf hn h1 h3 (key mp0 ms hn hcalls)
  rw [h6] at hord
  obtain ⟨-, -, g1, g2⟩ := h.sent (o := o) (tr := cfg.tracked) hwin ho
    (fun pb hpb => h.emitted hC hn (fun m hm => by rw [h1]; simp [hm]) h3 (by rw [h6]; simp [hpb])) hord.prefix h5
  obtain ⟨t, ht, e⟩ := List.mem_map.mp g1
  exact ⟨⟨t, ht, e.symm⟩, g2⟩

end

section
variable {C : Codec} {env : Env} {o : MapOrder} {cfg : Config} {root first st : SentBlock} {all cut c : List SentBlock} {start : Int} {ms : List RMsg} {topic : GoStr}

/-- **C149**, while reading a partition: whatever a consumer is told that reads from anywhere before the block stored, the blocks in it descend from the lowest ancestor of the block
stored that is read whole. -/
theorem C149_partition_told (h : ProducedTree C cfg first all) (hC : C.Lawful) {log : List OOut} (hl : PartitionLives C cfg all first log st)
    (hw : Stretch cfg all cut c st root) (hwr : Written cfg.tracked cut c ms) (hwarm : ∃ m ∈ ms, start ≤ m.offset) {k0 k : KSys}
    (h0 : KSys.start (startOn cfg st) 1 (fun _ => start) (fun _ => ms) = .ok k0) (hk : KCausal C env o topic k0 k) :
    ∀ added removed, OOut.update added removed ∈ k.sys.omp.log → ∀ b ∈ added ++ removed, ∃ sb, Descends c root sb ∧ Exact cfg.tracked sb.schema sb.args sb.subs b := by
  have hG := hw.given h hC (C148_partition h hC hl).2 hwr hwarm
  obtain ⟨s0, r1, r2⟩ := kcausal_run h0 hk
  have hL := hG.inside hC (kinv_steps h0 hk.steps)
  intro added removed hin b hb
  obtain ⟨sb, hsb, he⟩ := (C149_told hL.blocks hC hL.window hL.follow hL.storedFirst r1 r2).2 added removed hin b hb
  exact ⟨sb, mem_inTree.mp hsb, he⟩

/-- **C149**, the end: when the consumer has come to rest, it is on a heaviest block of those that descend from the lowest ancestor read of the block stored; this is a heaviest of all
blocks read exactly if one of the heaviest blocks read descends from there.
Missing: it is not always one (`C149_refuted`). -/
theorem C149_end_partial (h : ProducedTree C cfg first all) (hC : C.Lawful) {log : List OOut} (hl : PartitionLives C cfg all first log st)
    (hw : Stretch cfg all cut c st root) (hwr : Written cfg.tracked cut c ms) (hall : ∀ s ∈ c, AllArrive s.msgs ms) (hwarm : ∃ m ∈ ms, start ≤ m.offset) {k0 k : KSys}
    (h0 : KSys.start (startOn cfg st) 1 (fun _ => start) (fun _ => ms) = .ok k0) (hk : KCausal C env o topic k0 k) (hstuck : ∀ k', ¬ KSys.Step C env o topic k k')
    (hg : Heard env k.sys) :
    ∃ base chain top, Descends c root top ∧ Replays first.args.hash (log ++ k.sys.omp.log) base chain ∧ Linked base chain ∧ endOf base chain = top.args.hash ∧
      (∀ b ∈ chain, ∃ sb ∈ all, Exact cfg.tracked sb.schema sb.args sb.subs b) ∧ (∀ sb, Descends c root sb → sb.args.weight ≤ top.args.weight) ∧
      ((∀ sb ∈ c, sb.args.weight ≤ top.args.weight) ↔ ∃ t, Descends c root t ∧ ∀ sb ∈ c, sb.args.weight ≤ t.args.weight) := by
  obtain ⟨hkl, hrec⟩ := C148_partition h hC hl
  obtain ⟨base, chain, top, htop, q1, q2, q3, q4, q5, -⟩ := C148_kafka_end h.distinct hC hkl (hw.given h hC hrec hwr hwarm)
    (fun s hs x hx => ⟨0, Nat.one_pos, hall s (mem_inTree.mp hs).mem x hx⟩) h0 hk hstuck hg
  have q5 : ∀ sb, Descends c root sb → sb.args.weight ≤ top.args.weight := fun sb hsb => q5 sb (mem_inTree.mpr hsb)
  refine ⟨base, chain, top, mem_inTree.mp htop, q1, q2, q3, q4, q5, fun k => ⟨top, mem_inTree.mp htop, k⟩, ?_⟩
  rintro ⟨t, ht, k⟩ sb hsb
  have h1 := q5 t ht
  have h2 := k sb hsb
  omega

end

/-! ## A reader that begins right after the fork point -/

/-- All but the first block. -/
def exAfterRead : List RMsg := recv (⟨[], []⟩ :: (exNine.drop 1).flatMap (·.msgs))

/-- Started from block 3, reading from block 2 on: the fork that block 9 is on begins at block 1. -/
theorem exAfter_stretch : Stretch exOCfg exNine [bareSent 1 0 0 5] (exNine.drop 1) (bareSent 3 2 2 7) (bareSent 2 1 1 6) := by
  have d2 : Descends (exNine.drop 1) (bareSent 2 1 1 6) (bareSent 2 1 1 6) := .root (by simp [exNine])
  exact ⟨⟨[], [], by simp [exNine]⟩, by decide +kernel, .child d2 (by simp [exNine]) rfl, by decide⟩

theorem exAfter_written : Written exOCfg.tracked [bareSent 1 0 0 5] (exNine.drop 1) exAfterRead := by
  refine ⟨⟨[], List.nil_suffix, by decide +kernel⟩, ?_⟩
  intro s hs
  simp only [List.mem_singleton] at hs
  subst hs
  have : (bareSent 1 0 0 5).msgs.any (fun x => x.key.head? == some BatchType && exAfterRead.all (fun m => m.key != x.key)) = true := by decide +kernel
  obtain ⟨x, hx, h⟩ := List.any_eq_true.mp this
  simp only [Bool.and_eq_true, beq_iff_eq, List.all_eq_true, bne_iff_ne] at h
  exact ⟨x, hx, .inl h.1, h.2⟩

/-- Only blocks 2 and 3 descend from block 2. -/
theorem exAfter_tree {s : SentBlock} (h : Descends (exNine.drop 1) (bareSent 2 1 1 6) s) : s = bareSent 2 1 1 6 ∨ s = bareSent 3 2 2 7 := by
  induction h with
  | root => exact .inl rfl
  | @child p s _ hs e ih =>
    have hp : p.args.hash = exHash 2 ∨ p.args.hash = exHash 3 := by
      rcases ih with rfl | rfl
      · exact .inl rfl
      · exact .inr rfl
    have hcheck : ∀ s ∈ exNine.drop 1, (exHash 2 = s.args.parentHash ∨ exHash 3 = s.args.parentHash) → s.args.hash = exHash 3 := by decide +kernel
    have h3 : s.args.hash = exHash 3 := hcheck s hs (by rcases hp with hp | hp <;> rw [← e, hp] <;> simp)
    exact .inr (exNine_produced.inj (List.mem_of_mem_drop hs) (by simp [exNine]) h3)

/-- C149: the consumer reads and handles eight blocks, and stays on block 3. -/
theorem exAfter_stays : ∃ (log : List OOut) (k0 k : KSys), PartitionLives Avro.codec exOCfg exNine (bareSent 1 0 0 5) log (bareSent 3 2 2 7) ∧
    (∀ s ∈ exNine.drop 1, AllArrive s.msgs exAfterRead) ∧ (∃ m ∈ exAfterRead, (0 : Int) ≤ m.offset) ∧
    KSys.start (startOn exOCfg (bareSent 3 2 2 7)) 1 (fun _ => 0) (fun _ => exAfterRead) = .ok k0 ∧ KCausal Avro.codec exEnv .plain (str "d") k0 k ∧
    (∀ k', ¬ KSys.Step Avro.codec exEnv .plain (str "d") k k') ∧ Heard exEnv k.sys ∧ headAfter (exHash 1) (log ++ k.sys.omp.log) = exHash 3 := by
  have hev : ∀ t, exEnv.evict t = [] := fun _ => rfl
  have hcov : ∀ s ∈ exNine.drop 1, AllArrive s.msgs exAfterRead := by
    intro s hs x hx
    obtain ⟨m, hm, e1, e2⟩ := recv_exact (ms := ⟨[], []⟩ :: (exNine.drop 1).flatMap (·.msgs)) (x := x) (List.mem_cons_of_mem _ (List.mem_flatMap.mpr ⟨s, hs, hx⟩))
    exact ⟨m, hm, e1, x, hx, e1, e2⟩
  obtain ⟨log, hlive⟩ := exThree_lives
  have hwarm : ∃ m ∈ exAfterRead, (0 : Int) ≤ m.offset := ⟨_, List.mem_cons_self, by decide⟩
  have hst : ∃ k0, KSys.start (startOn exOCfg (bareSent 3 2 2 7)) 1 (fun _ => 0) (fun _ => exAfterRead) = .ok k0 := ⟨_, rfl⟩
  obtain ⟨k0, h0⟩ := hst
  obtain ⟨k, -, hk, hstuck⟩ := k_rests (C := Avro.codec) (env := exEnv) (o := .plain) (topic := str "d") hev (k0 := k0) .refl
  have hheard : Heard exEnv k.sys := fun t _ n hn => by rw [hev] at hn; simp at hn
  obtain ⟨base, chain, top, htop, q1, -, q3, -, q5, -⟩ := C149_end_partial exNine_produced Avro.codec_lawful hlive exAfter_stretch exAfter_written hcov hwarm h0 hk hstuck hheard
  refine ⟨log, k0, k, hlive, hcov, hwarm, h0, hk, hstuck, hheard, ?_⟩
  have h7 := q5 _ exAfter_stretch.stored
  rcases exAfter_tree htop with rfl | rfl
  · exact absurd h7 (show ¬ (7 : Int) ≤ 6 by decide)
  · exact (replays_head q1).symm.trans q3

/-- **C149** fails: a consumer that reads everything from a block before the stored one on, and has handled everything, need not be on a heaviest block of those read. -/
theorem C149_refuted : ¬ ∀ (first st root : SentBlock) (all cut c : List SentBlock) (log : List OOut) (ms : List RMsg) (k0 k : KSys),
    ProducedTree Avro.codec exOCfg first all → PartitionLives Avro.codec exOCfg all first log st → Stretch exOCfg all cut c st root → c <:+ all →
    Written exOCfg.tracked cut c ms → (∀ s ∈ c, AllArrive s.msgs ms) → (∃ m ∈ ms, (0 : Int) ≤ m.offset) →
    KSys.start (startOn exOCfg st) 1 (fun _ => 0) (fun _ => ms) = .ok k0 → KCausal Avro.codec exEnv .plain (str "d") k0 k →
    (∀ k', ¬ KSys.Step Avro.codec exEnv .plain (str "d") k k') → Heard exEnv k.sys →
    ∃ top ∈ c, headAfter first.args.hash (log ++ k.sys.omp.log) = top.args.hash ∧ ∀ sb ∈ c, sb.args.weight ≤ top.args.weight := by
  intro hfalse
  obtain ⟨log, k0, k, hlive, hcov, hwarm, h0, hk, hstuck, hheard, hend⟩ := exAfter_stays
  obtain ⟨t, ht, e, hw⟩ := hfalse _ _ _ _ _ _ log _ k0 k exNine_produced hlive exAfter_stretch (List.drop_suffix _ _) exAfter_written hcov hwarm h0 hk hstuck hheard
  have : t = bareSent 3 2 2 7 := exNine_produced.inj (List.mem_of_mem_drop ht) (by simp [exNine]) (by rw [← e]; exact hend)
  subst this
  exact absurd (hw (bareSent 9 8 4 9) (by simp [exNine])) (show ¬ (9 : Int) ≤ 7 by decide)

end Verif
