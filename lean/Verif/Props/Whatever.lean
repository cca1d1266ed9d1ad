import Verif.Spec.Whatever
import Verif.Proofs.Provenance
import Verif.Proofs.Handed
import Verif.Proofs.Subscribers
import Verif.Props.Ordering
import Verif.Props.System
import Verif.Props.Order
import Verif.Props.OrderingEx
/-! C156: whatever arrives, subscribers are told of one continuous chain of blocks that were received. -/
namespace Verif
open Spec

variable {C : Codec} {env : Env} {o : MapOrder} {cfg : Config}

/-! ## The message processor -/

theorem Spec.Described.mono {cs cs' : List Call} (hs : ∀ c ∈ cs, c ∈ cs') {h p : Hash} {n : Int} {w : Nat} (x : Described C cs h p n w) : Described C cs' h p n w := by
  cases x with
  | header m b hm hd hp hn hw => exact .header m b ⟨hs _ hm.mem, hm.block, hm.type⟩ hd hp hn hw
  | block pb hm hh hp hn hw => exact .block pb (hs _ hm) hh hp hn hw

theorem process_ok_len {mp mp' : MP} {m : RMsg} (h : mp.call C env (.msg m) = .ok mp') : 33 ≤ m.key.length := by
  refine Classical.byContradiction fun hlt => ?_
  have : mp.processMessage C env m = .error .panic := by
    unfold MP.processMessage
    generalize MP.step C env (fun _ _ => .error .hang) = self
    unfold MP.step
    simp only []
    rw [if_pos (by omega)]
  simp only [MP.call, this] at h
  simp at h

theorem calls_ok_len {mp mp' : MP} {cs : List Call} (h : mp.calls C env cs = .ok mp') : ∀ m, .msg m ∈ cs → 33 ≤ m.key.length := by
  induction cs generalizing mp with
  | nil => simp
  | cons c cs ih =>
    simp only [MP.calls, List.foldlM_cons] at h
    obtain ⟨mp1, h1, h2⟩ := bind_ok.mp h
    intro m hm
    rcases List.mem_cons.mp hm with e | e
    · subst e; exact process_ok_len h1
    · exact ih h2 m e

/-- Where emitted blocks come from, for sequences of calls. -/
theorem calls_prov {S : RMsg → Prop} (hS : ∀ m, S m → 33 ≤ m.key.length) {T : PB → Prop} {cs : List Call} {mp mp' : MP} (hB : Base mp)
    (hi : ∃ E0, LiftInv S (BlockProv C S cfg.tracked) (fun r => ∀ s o, r.get? s = some o → ∃ m, S m ∧ m.source = s ∧ m.offset = o) cfg.tracked cfg.frp E0 mp ∧ ∀ pb ∈ E0, T pb)
    (hT : ∀ pb, BlockProv C S cfg.tracked pb.hash pb → T pb) (hQ : ∀ m, .msg m ∈ cs → S m)
    (hR : ∀ pb pb', .block pb ∈ cs → { pb' with waitCh := pb.waitCh } = pb → T pb') (hr : mp.calls C env cs = .ok mp') : ∀ pb ∈ mp'.emitted, T pb := by
  induction cs generalizing mp with
  | nil =>
    simp only [MP.calls, List.foldlM_nil, pure, Except.pure, Except.ok.injEq] at hr
    subst hr
    obtain ⟨E0, h1, h2⟩ := hi
    obtain ⟨es, he, hes⟩ := h1.emitted
    intro pb hpb
    rw [he] at hpb
    rcases List.mem_append.mp hpb with h | h
    · exact h2 _ h
    · exact hT _ (hes _ h).1
  | cons c cs ih =>
    simp only [MP.calls, List.foldlM_cons] at hr
    obtain ⟨mp1, h1, h2⟩ := bind_ok.mp hr
    obtain ⟨E0, i1, i2⟩ := hi
    cases c with
    | msg m =>
      have hp := ((prov_parts C env S hS cfg.tracked cfg.frp).parts (E0 := E0)).toParts.process (hQ m (by simp)) ⟨hB, i1⟩
      simp only [MP.call] at h1
      split at h1
      · simp at h1
      · rename_i e
        simp only [Except.ok.injEq] at h1
        subst h1
        have hp' := hp.ok e
        exact ih hp'.1 ⟨E0, hp'.2, i2⟩ (fun m hm => hQ m (by simp [hm])) (fun pb pb' hm => hR pb pb' (by simp [hm])) h2
    | block pb =>
      simp only [MP.call, Except.ok.injEq] at h1
      subst h1
      obtain ⟨pe, e1, e2⟩ := complete_emitted mp pb
      refine ih (hB.complete pb) ⟨mp.emitted ++ [pe], ?_, ?_⟩ (fun m hm => hQ m (by simp [hm])) (fun pb pb' hm => hR pb pb' (by simp [hm])) h2
      · obtain ⟨pb', next, w, he, hh⟩ := complete_eq mp pb
        refine ⟨?_, ?_, ?_, ?_, ?_, [], by rw [e1]; simp, by simp⟩
        · rw [he]; exact i1.tracked
        · rw [he]; exact i1.frp
        · rw [he]; exact i1.res
        · rw [he]
          intro x q hq
          simp only [GMap.get?_erase] at hq
          split at hq
          · simp at hq
          · exact i1.pbs _ _ hq
        · rw [he]; exact i1.queue
      · intro q hq
        rcases List.mem_append.mp hq with h | h
        · obtain ⟨es, he, hes⟩ := i1.emitted
          rw [he] at h
          rcases List.mem_append.mp h with h | h
          · exact i2 _ h
          · exact hT _ (hes _ h).1
        · simp only [List.mem_singleton] at h
          subst h
          exact hR pb _ (by simp) e2

theorem waitCh_same {a b : PB} (h : { a with waitCh := b.waitCh } = b) : SameBlock a b := by
  rw [← h]; exact ⟨rfl, rfl, rfl, rfl, fun _ => rfl, fun _ => rfl, fun _ => rfl⟩

theorem calls_received {mp mp' : MP} {cs : List Call} (hn : newMP cfg = .ok mp) (hr : mp.calls C env cs = .ok mp') :
    ∀ pb ∈ mp'.emitted, Received C cs cfg.tracked pb := by
  refine calls_prov (S := fun m => .msg m ∈ cs) (calls_ok_len hr) (Base.newMP hn) ⟨[], LiftInv.newMP hn (by intro s o hs; simp at hs), by simp⟩ ?_ (fun _ h => h) ?_ hr
  · rintro pb ⟨⟨hd, b, h1, h2, h3, h4, h5, h6, hp⟩, _⟩
    exact .parts hd b h1 h2 h4 h6 h5 hp.values hp.deletes
  · intro pb pb' hm he
    exact .whole pb hm (waitCh_same he)

/-- A received block is one that somebody described. -/
theorem Spec.Received.says {cs : List Call} {t : GoStr → Bool} {pb : PB} (h : Received C cs t pb) : Described C cs pb.hash pb.parentHash pb.number pb.weight := by
  cases h with
  | whole b hm hs => exact .block b hm hs.hash.symm hs.parentHash.symm hs.number.symm hs.weight.symm
  | parts hd b hh hb hn hp hw _ _ => exact .header hd b hh hb hp.symm hn.symm hw.symm

/-! ## Notifications -/

theorem notes_from_finish {P : Int × Hash → Prop} {mp : MP} (h : ∀ x ∈ notesSent mp.log, P x) (k : Hash) : ∀ x ∈ notesSent (mp.finish k).log, P x := by
  unfold MP.finish
  split
  · exact h
  · split
    · intro x hx
      rw [show notesSent _ = notesSent mp.log from by simp [notesSent]] at hx
      exact h x hx
    · exact h

theorem notes_from_parts (C : Codec) (env : Env) (P : Int × Hash → Prop) :
    XParts C env true (fun m => m.key.headD 0 = ReorgType → ∀ n, C.decInt m.value = some n → P (n, hashOf m.key)) (fun mp => ∀ x ∈ notesSent mp.log, P x) where
  begin := by intro mp m _ _ h; rw [(begin_fields env mp m).2.2.1]; exact h
  short := .inl rfl
  reorg := by
    intro mp m hq _ h ht
    unfold MP.onReorg
    simp only []
    split
    · exact h
    · rename_i num hd
      intro x hx
      rw [notesSent_append] at hx
      rcases List.mem_append.mp hx with hx | hx
      · exact h x hx
      · simp [notesSent] at hx; subst hx; exact hq ht _ hd
  add := by
    intro mp m b _ _ h _ _ _ _ _ x hx
    simp only [MP.addHeader] at hx
    rw [notesSent_append] at hx
    rcases List.mem_append.mp hx with hx | hx
    · exact h x hx
    · simp [notesSent] at hx
  sub := by
    intro mp m _ _ h _ _ _ _
    unfold MP.onSubHeader
    split
    · exact h
    · simp only []
      split
      · exact h
      · split
        · exact h
        · split
          · trivial
          · exact notes_from_finish (by exact h) _
  other := by
    intro mp m _ _ h _ _ _ _
    unfold MP.onOther
    split
    · exact h
    · split
      · trivial
      · exact notes_from_finish (by exact h) _
  queued := by intro mp m q e _ _ hB _ hq he ht; exact absurd ht ((hB.queue _ _ _ hq he).1).1
  drop := by intro mp m _ _ _ h; exact h
  finish := by intro mp m _ _ _ h; exact notes_from_finish h _

theorem calls_notes {mp mp' : MP} {cs : List Call} (hn : newMP cfg = .ok mp) (hr : mp.calls C env cs = .ok mp') :
    ∀ x ∈ notesSent mp'.log, ReorgCame C cs x.1 x.2 := by
  have hl : notesSent mp.log = [] := by
    unfold newMP at hn
    split at hn
    · simp at hn
    · simp only [Except.ok.injEq] at hn; subst hn; rfl
  have hlen := calls_ok_len hr
  refine ((notes_from_parts C env fun x => ReorgCame C cs x.1 x.2).toParts.calls (R := fun _ => True) ?_ ?_ (fun _ _ => trivial) ⟨Base.newMP hn, by rw [hl]; simp⟩ hr).2
  · intro mp pb _ h
    refine ⟨h.1.complete pb, ?_⟩
    obtain ⟨pb', next, w, he, _⟩ := complete_eq mp pb
    rw [he]
    intro x hx
    simp only [notesSent_append] at hx
    rcases List.mem_append.mp hx with hx | hx
    · exact h.2 x hx
    · simp [notesSent] at hx
  · intro m hm ht n hd
    exact ⟨m, ⟨hm, rfl, head_of_headD (hlen m hm) ht⟩, hd⟩

/-- The ordering layer announces only reorgs that it was told of. -/
theorem run_notes {ops : List OOp} {s0 s : OMP} (hn : newOMP cfg = .ok s0) (hr : s0.run o ops = .ok s) {n : Int} {h : Hash} (hl : .reorg n h ∈ s.log) :
    (n, h) ∈ notesOf ops := by
  have h0 : s0.log = [] := by
    obtain ⟨_, _, _, _, i5, _⟩ := newOMP_inv (D := fun _ => True) hn
    exact i5
  refine orun_ind (o := o) (P := fun pre s => ∀ n h, OOut.reorg n h ∈ s.log → (n, h) ∈ notesOf pre) (by rw [h0]; simp) ?_ hr n h hl
  intro pre op post s s' _ ih hop n h hm
  cases op with
  | block pb =>
    obtain ⟨l, u, hl, hu, e⟩ := handle_sends hop
    rw [e, List.append_assoc, List.mem_append] at hm
    rcases hm with hm | hm
    · have := ih n h hm
      simp [notesOf] at this ⊢
      exact this
    · rcases List.mem_append.mp hm with hm | hm
      · have := hl _ hm; simp at this
      · rcases hu with rfl | ⟨a, r, rfl⟩ <;> simp at hm
  | reorg n' h' =>
    simp only [OMP.op, Except.ok.injEq] at hop
    subst hop
    simp only [OMP.handleReorg, List.mem_append, List.mem_singleton, OOut.reorg.injEq] at hm
    rcases hm with hm | ⟨rfl, rfl⟩
    · have := ih n h hm
      simp [notesOf] at this ⊢
      exact .inl this
    · simp [notesOf]

/-! ## The property -/

/-- **C156**: whatever messages arrive and whatever blocks are handed over, in any order, complete or not, and however the goroutines are scheduled: every block that subscribers are
told to add or to remove was received, with all that is in it, and is not forbidden; every reorg that they are told of was received. -/
theorem C156_received {todo : List Call} {s0 s : Sys} (hst : Sys.start cfg todo = .ok s0) (hs : Sys.Steps C env o s0 s) :
    (∀ added removed, .update added removed ∈ s.omp.log → ∀ b ∈ added ++ removed, Received C s.calls cfg.tracked b ∧ ¬ Forbidden cfg.whitelist b) ∧
    ∀ n h, .reorg n h ∈ s.omp.log → ReorgCame C s.calls n h := by
  obtain ⟨hc, _, _⟩ := C43_pipeline hst hs
  obtain ⟨mp0, hn, hr⟩ := hc.mp
  obtain ⟨omp0, ho, hor⟩ := hc.omp
  refine ⟨fun added removed hu b hb => ⟨calls_received hn hr _ (C43_updates hst hs hu hb), C33_whitelist ho hor hu hb⟩, ?_⟩
  intro n h hl
  exact calls_notes hn hr (n, h) ((C43_prefix hst hs).2.subset (run_notes ho hor hl))

/-- The blocks described by the calls, as a world. -/
theorem Spec.HashesIdentify.world {cs : List Call} (h : HashesIdentify C cs) : ∃ W : World, ∀ k p n w, Described C cs k p n w → W.parent k = p ∧ W.number k = n ∧ W.weight k = w := by
  classical
  refine ⟨⟨fun k => if x : ∃ p n w, Described C cs k p n w then x.choose else Hash.zero, fun k => if x : ∃ n p w, Described C cs k p n w then x.choose else 0,
    fun k => if x : ∃ w p n, Described C cs k p n w then x.choose else 0⟩, ?_⟩
  intro k p n w hk
  have e1 : ∃ p n w, Described C cs k p n w := ⟨p, n, w, hk⟩
  have e2 : ∃ n p w, Described C cs k p n w := ⟨n, p, w, hk⟩
  have e3 : ∃ w p n, Described C cs k p n w := ⟨w, p, n, hk⟩
  obtain ⟨n1, w1, h1⟩ := e1.choose_spec
  obtain ⟨p2, w2, h2⟩ := e2.choose_spec
  obtain ⟨p3, n3, h3⟩ := e3.choose_spec
  simp only [dif_pos e1, dif_pos e2, dif_pos e3]
  exact ⟨(h.one _ _ _ _ _ _ _ h1 hk).1, (h.one _ _ _ _ _ _ _ h2 hk).2.1, (h.one _ _ _ _ _ _ _ h3 hk).2.2⟩

/-- **C156**, the chain: if nobody gives two blocks the same hash, what subscribers are told can always be applied, and leaves them with one chain of blocks linked parent by parent on
the stored block or on the last announced one. -/
theorem C156_chain (h0 : cfg.lastHash ≠ Hash.zero) {todo : List Call} (hi : HashesIdentify C todo) {s0 s : Sys} (hst : Sys.start cfg todo = .ok s0)
    (hs : Sys.Steps C env o s0 s) :
    ∃ base chain, Replays cfg.lastHash s.omp.log base chain ∧ Linked base chain ∧ endOf base chain = s.omp.lastHash := by
  obtain ⟨hc, _, _⟩ := C43_pipeline hst hs
  obtain ⟨mp0, hn, hr⟩ := hc.mp
  obtain ⟨omp0, ho, hor⟩ := hc.omp
  obtain ⟨W, hW⟩ := hi.world
  refine C28_continuous (W := W) h0 ?_ ho hor
  intro b hb
  have hsay := ((calls_received hn hr b ((C43_prefix hst hs).1.subset hb)).says).mono (cs' := todo) (fun c hc' => by rw [hc.calls]; simp [hc'])
  obtain ⟨w1, w2, w3⟩ := hW _ _ _ _ hsay
  exact ⟨⟨w1.symm, w2.symm, w3.symm⟩, hi.nonzero _ _ _ _ hsay⟩

/-- Two forks on the stored block, children before parents, a block twice, a message of no block known, a message that is no message, and a reorg. -/
def exWhatever : List Call :=
  [.msg ⟨BatchMsgType :: (exHash 7).bytes ++ str "state/x", [1], 0, str "t:0"⟩, .msg ⟨77 :: (exHash 8).bytes, [], 1, str "t:0"⟩] ++ exTree.map Call.block ++
    [.msg ⟨ReorgType :: (exHash 2).bytes, Avro.codec.encInt 4, 2, str "t:0"⟩]

/-- Every call is handled before the next. -/
def exWhateverSched : List Sched :=
  [.call, .call] ++ (List.replicate 6 [Sched.call, .send, .send, .block]).flatten ++ [.call, .send, .reorg]

/-- The state after the schedule, with what is checked of it. -/
def exWhateverView (calls : List Call) (l : List Sched) : Option (List (List Hash × List Hash) × List (List Hash) × Nat) :=
  match Sys.start exOCfg calls with
  | .ok s0 => (s0.exec Avro.codec exEnv .plain l).map fun s => (sent s.omp, s.omp.updates.map (fun u => u.1.map (·.parentHash)), s.omp.log.length)
  | .error _ => none

theorem exWhateverView_steps {calls : List Call} {l : List Sched} {v : List (List Hash × List Hash) × List (List Hash) × Nat} (h : exWhateverView calls l = some v) :
    ∃ s0 s, Sys.start exOCfg calls = .ok s0 ∧ Sys.Steps Avro.codec exEnv .plain s0 s ∧ sent s.omp = v.1 ∧
      s.omp.updates.map (fun u => u.1.map (·.parentHash)) = v.2.1 ∧ s.omp.log.length = v.2.2 := by
  unfold exWhateverView at h
  split at h
  · rename_i s0 h0
    rw [Option.map_eq_some_iff] at h
    obtain ⟨s, h1, h2⟩ := h
    subst h2
    exact ⟨s0, s, h0, exec_steps .refl h1, rfl, rfl, rfl⟩
  · simp at h

theorem exWhatever_identify : HashesIdentify Avro.codec exWhatever := by
  have hW : ∀ h p n w, Described Avro.codec exWhatever h p n w → exW.parent h = p ∧ exW.number h = n ∧ exW.weight h = w ∧ h ≠ Hash.zero := by
    intro h p n w hd
    cases hd with
    | header m b hm _ _ _ _ =>
      exfalso
      have := hm.mem
      simp only [exWhatever, List.mem_append, List.mem_cons, List.not_mem_nil, or_false, List.mem_map, Call.msg.injEq, reduceCtorEq, and_false, exists_false] at this
      have ht := hm.type
      rcases this with (rfl | rfl) | rfl <;> revert ht <;> decide
    | block pb hm hh hp hn hw =>
      have hb : pb ∈ exTree := by simpa [exWhatever] using hm
      obtain ⟨h1, h2⟩ := exW_from pb hb
      subst hh hp hn hw
      exact ⟨h1.parent.symm, h1.number.symm, h1.weight.symm, h2⟩
  refine ⟨?_, fun h p n w hd => (hW h p n w hd).2.2.2⟩
  intro h p n w p' n' w' h1 h2
  obtain ⟨a1, a2, a3, _⟩ := hW _ _ _ _ h1
  obtain ⟨b1, b2, b3, _⟩ := hW _ _ _ _ h2
  exact ⟨a1.symm.trans b1, a2.symm.trans b2, a3.symm.trans b3⟩

/-- The calls meet the hypotheses; two updates are sent, the second a reorg, and the reorg is announced. -/
example : exOCfg.lastHash ≠ Hash.zero ∧ HashesIdentify Avro.codec exWhatever ∧ ∃ s0 s, Sys.start exOCfg exWhatever = .ok s0 ∧
    Sys.Steps Avro.codec exEnv .plain s0 s ∧ sent s.omp = [([exHash 2, exHash 3], []), ([exHash 4, exHash 5], [exHash 2, exHash 3])] ∧ s.omp.log.length = 3 := by
  obtain ⟨s0, s, h1, h2, h3, _, h5⟩ := exWhateverView_steps (calls := exWhatever) (l := exWhateverSched)
    (v := ([([exHash 2, exHash 3], []), ([exHash 4, exHash 5], [exHash 2, exHash 3])], [[exHash 1, exHash 2], [exHash 1, exHash 4]], 3)) (by decide +kernel)
  exact ⟨by decide, exWhatever_identify, s0, s, h1, h2, h3, h5⟩

/-! ## Two blocks with one hash -/

/-- Block 3 comes on top of block 2, and then, from somebody else, on top of block 4. -/
def exTwins : List Call := [ob 2 1 11 10, ob 3 2 12 20, ob 4 1 11 11, ob 3 4 12 20, ob 5 4 12 25].map Call.block

theorem replays_snoc {base : Hash} {l : List OOut} {x : OOut} {b' : Hash} {c' : List PB} (h : Replays base (l ++ [x]) b' c') :
    ∃ b c, Replays base l b c ∧ Follows b c x b' c' := by
  generalize e : l ++ [x] = m at h
  cases h with
  | start => simp at e
  | step h1 h2 =>
    obtain ⟨rfl, e2⟩ := List.append_inj' e rfl
    simp only [List.cons.injEq, and_true] at e2
    subst e2
    exact ⟨_, _, h1, h2⟩

/-- **C156** needs that hashes identify blocks: otherwise a later block with the hash of the head, but with another parent, replaces the head in the ordering layer's memory, and a fork
is then reported that leaves out a block to remove and a block to add. -/
theorem C156_needs_hashes : ∃ (calls : List Call) (s0 s : Sys), Sys.start exOCfg calls = .ok s0 ∧ Sys.Steps Avro.codec exEnv .plain s0 s ∧
    sent s.omp = [([exHash 2], []), ([exHash 3], []), ([exHash 5], [exHash 3])] ∧ ¬ ∃ base chain, Replays exOCfg.lastHash s.omp.log base chain := by
  obtain ⟨s0, s, h1, h2, h3, h4, h5⟩ := exWhateverView_steps (calls := exTwins) (l := (List.replicate 5 [Sched.call, .send, .send, .block]).flatten)
    (v := ([([exHash 2], []), ([exHash 3], []), ([exHash 5], [exHash 3])], [[exHash 1], [exHash 2], [exHash 4]], 3)) (by decide +kernel)
  refine ⟨exTwins, s0, s, h1, h2, h3, ?_⟩
  rintro ⟨base, chain, hr⟩
  match hl : s.omp.log, h5 with
  | [x1, x2, x3], _ =>
    rw [hl] at hr
    have hu : s.omp.updates.length = 3 := by
      have := congrArg List.length h3
      simpa [sent] using this
    cases x1 with
    | reorg => simp [OMP.updates, hl, List.filterMap_cons] at hu; split at hu <;> split at hu <;> simp at hu
    | evictOlder => simp [OMP.updates, hl, List.filterMap_cons] at hu; split at hu <;> split at hu <;> simp at hu
    | update a1 r1 =>
    cases x2 with
    | reorg => simp [OMP.updates, hl, List.filterMap_cons] at hu; split at hu <;> simp at hu
    | evictOlder => simp [OMP.updates, hl, List.filterMap_cons] at hu; split at hu <;> simp at hu
    | update a2 r2 =>
    cases x3 with
    | reorg => simp [OMP.updates, hl] at hu
    | evictOlder => simp [OMP.updates, hl] at hu
    | update a3 r3 =>
    simp only [sent, OMP.updates, hl, List.filterMap_cons, List.filterMap_nil, List.map_cons, List.map_nil, List.cons.injEq, Prod.mk.injEq, and_true] at h3
    simp only [OMP.updates, hl, List.filterMap_cons, List.filterMap_nil, List.map_cons, List.map_nil, List.cons.injEq, and_true] at h4
    obtain ⟨⟨g1, g2⟩, ⟨g3, g4⟩, g5, g6⟩ := h3
    have hnil : ∀ l : List PB, hashes l = [] → l = [] := fun l h => by simpa [hashes] using h
    obtain rfl := hnil _ g2
    obtain rfl := hnil _ g4
    obtain ⟨b2, c2, hr2, f3⟩ := replays_snoc (l := [.update a1 [], .update a2 []]) hr
    obtain ⟨b1, c1, hr1, f2⟩ := replays_snoc (l := [.update a1 []]) hr2
    obtain ⟨b0, c0, hr0, f1⟩ := replays_snoc (l := []) hr1
    have e0 : c0 = [] := by
      generalize e : ([] : List OOut) = m at hr0
      cases hr0 with
      | start => rfl
      | step => simp at e
    have e1 : hashes c1 = [exHash 2] := by
      subst e0
      generalize ek : ([] : List PB) = k at f1
      generalize er : ([] : List PB) = r at f1
      cases f1 with
      | within h _ _ =>
        obtain ⟨rfl, rfl⟩ := List.append_eq_nil_iff.mp ek.symm
        simpa using g1
      | beyond => exact g1
    have e2 : hashes c2 = [exHash 2, exHash 3] := by
      generalize er : ([] : List PB) = r at f2
      cases f2 with
      | within h _ _ =>
        subst er
        obtain rfl := hnil _ h
        simp only [List.append_nil] at e1
        simp only [hashes, List.map_append] at e1 g3 ⊢
        rw [e1, g3]; rfl
      | beyond h _ _ _ _ =>
        obtain ⟨rfl, rfl⟩ := List.append_eq_nil_iff.mp er.symm
        rw [e1] at h; simp [hashes] at h
    cases f3 with
    | @within keep gone _ _ h _ hk =>
      rw [g6] at h
      simp only [hashes, List.map_append] at e2
      rw [show gone.map PB.hash = [exHash 3] from h] at e2
      have e3 : keep.map PB.hash = [exHash 2] := (List.append_inj' (t₁ := [exHash 3]) (t₂ := [exHash 3]) (s₂ := [exHash 2]) e2 rfl).1
      obtain ⟨x, rfl, hx⟩ := List.map_eq_singleton_iff.mp e3
      obtain ⟨y, rfl, hy⟩ := List.map_eq_singleton_iff.mp h4.2.2
      have := hk.1
      simp only [endOf] at this
      rw [hx, hy] at this
      revert this; decide
    | beyond h _ _ _ _ =>
      rw [e2] at h
      simp only [hashes, List.map_append] at g6 h
      rw [h] at g6
      have := congrArg List.length g6
      simp at this

end Verif
