import Verif.Proofs.Restart
import Verif.Props.Block
/-! C78: restarting after a block, and the blocks after it. -/
namespace Verif
open Spec

/-- Messages not left behind by a block are read again after a restart from it. -/
theorem behind_reads {C : Codec} {env : Env} {cfg : Config} {mp mp' : MP} {r : List RMsg} (hn : newMP cfg = .ok mp)
    (hr : mp.run C env r = .ok mp') {pb : PB} (hpb : pb ∈ mp'.emitted) {rb : Int} {m : RMsg} (hb : Behind rb pb.hash r m)
    {o : Int} (ho : resumeAt pb m.source = some o) : o ≤ m.offset + rb := by
  have hprov := ((prov_parts C env (· ∈ r) (run_ok_len hr) cfg.tracked cfg.frp).emitted hn
    (by intro s o hs; simp at hs) (fun m hm => hm) hr pb hpb).1
  obtain ⟨_, _, _, _, _, _, _, _, hp⟩ := hprov.head
  unfold resumeAt at ho
  cases h1 : pb.resumption.get? m.source with
  | some o' =>
    rw [h1] at ho
    simp only [Option.some_or, Option.some.injEq] at ho
    subst ho
    obtain ⟨x, hx, hh, hs, rfl⟩ := hp.res _ _ h1
    exact hb.own x hx hh hs
  | none =>
    rw [h1] at ho
    simp only [Option.none_or] at ho
    obtain ⟨p1, hd, p2, e, hh, hfrom⟩ := emitted_noted hn hr pb hpb
    obtain ⟨x, hx, hs, rfl⟩ := hfrom _ _ ho
    rcases List.mem_append.mp hx with hx | hx
    · exact hb.before p1 hd p2 e hh x hx hs
    · simp only [List.mem_singleton] at hx; subst hx
      exact hb.own x (by rw [e]; simp) hh.1 hs

/-- **C78**, the part that holds: let a consumer have emitted the block `pb`, and let a later block be such that in every source
its messages are at most `rb` messages behind `pb`. Then a consumer restarted from the `Resumption()` of `pb` with rollback `rb`
emits that block, exactly as it was produced. -/
theorem C78_restart_partial {C : Codec} (hC : C.Lawful) {env env' : Env} {cfg cfg' : Config} {mp mp' mq mq' : MP}
    {r r' log : List RMsg} (hn : newMP cfg = .ok mp) (hr : mp.run C env r = .ok mp') {pb : PB} (hpb : pb ∈ mp'.emitted)
    {schema : List RegexpPair} {a : BlockArgs} {subs : Hash → SubArgs} {ms : List Msg} (hp : Produced C schema a subs ms)
    (hw : WellFormed schema a subs) {rb : Int}
    (hlog : ∀ x ∈ ms, ∃ m ∈ log, m.key = x.key ∧ Copy ms m ∧ Behind rb pb.hash r m)
    (hres : RestartReads rb pb log r') (hn' : newMP cfg' = .ok mq) (hk' : Keeps env' a.number) (hf' : Faithful a.hash ms r')
    (hr' : mq.run C env' r' = .ok mq') : ∃ pb' ∈ mq'.emitted, Exact cfg'.tracked schema a subs pb' := by
  refine C01_delivered hC hp hw hn' hk' hf' ?_ hr'
  intro x hx
  obtain ⟨m, hm, h1, h2, hb⟩ := hlog x hx
  exact ⟨m, hres m hm fun o ho => behind_reads hn hr hpb hb ho, h1, h2⟩

/-- What one would like: if a consumer reading every source in order emitted `pb` and later the block `h`, all of whose messages
follow all messages of `pb` in every source, then a consumer restarted from `pb` emits `h` again. -/
def RestartClaim (C : Codec) (env : Env) (mp : MP) : Prop :=
  ∀ (r r' : List RMsg) (mp' mq' : MP) (pb : PB) (l1 l2 : List PB) (pb' : PB), InOrder r → mp.run C env r = .ok mp' →
    mp'.emitted = l1 ++ pb :: l2 → pb' ∈ l2 →
    (∀ x ∈ r, ∀ y ∈ r, blockOf x.key = pb.hash → blockOf y.key = pb'.hash → x.source = y.source → x.offset < y.offset) →
    (∀ m, m ∈ r' ↔ m ∈ r ∧ ∀ o, resumeAt pb m.source = some o → o ≤ m.offset) → InOrder r' →
    mp.run C env r' = .ok mq' → ∃ q ∈ mq'.emitted, q.hash = pb'.hash

/-- The parent of the example block (a header is all there is), and the example block without its sub-batch and deletes. -/
def exEarlier : BlockArgs :=
  { exBlock with number := 4, hash := exHash 2, parentHash := exHash 3, updates := GMap.empty, deletes := GMap.empty, batches := GMap.empty }
def exLater : BlockArgs :=
  { exBlock with updates := (GMap.empty.insert (str "state/a") [1]).insert (str "state/b") [2], deletes := GMap.empty, batches := GMap.empty }

theorem exLater_wf : WellFormed exProducer.schema exLater exSubs := by
  have hu : ∀ {k v}, exLater.updates.get? k = some v → (k = str "state/b" ∧ v = [2]) ∨ (k = str "state/a" ∧ v = [1]) := by
    intro k v h
    rcases get_insert_cases h with h | h
    · exact .inl h
    · rcases get_insert_cases h with h | h
      · exact .inr h
      · simp at h
  have hb : ∀ {p i}, ¬ exLater.batches.get? p = some i := by intro p i h; simp [exLater] at h
  have hd : ∀ {k}, ¬ k ∈ exLater.deletes.keys := by intro k h; simp [exLater, GMap.keys, GMap.empty] at h
  refine ⟨⟨by decide, ?_, ?_, ?_, fun _ _ _ h => absurd h hb, fun _ _ _ _ _ h => absurd h hb, fun _ _ _ h => absurd h hb,
    by decide +kernel, fun _ _ h => absurd h hb, by decide, by decide +kernel, by decide +kernel, ?_, fun _ h => absurd h hd, ?_,
    fun _ _ _ _ h => absurd h hb, fun _ _ h => absurd h hb⟩, ?_⟩
  · intro k pre topic hk hr
    obtain ⟨h1, rfl, _, _⟩ := routes_lit.mp hr
    rcases hk with hk | hk
    · obtain ⟨v, hv⟩ := (GMap.mem_keys_iff _).mp hk
      rcases hu hv with ⟨rfl, _⟩ | ⟨rfl, _⟩
      · exact ex_dirs _ (str "b") (by decide +kernel) (by decide +kernel)
      · exact ex_dirs _ (str "a") (by decide +kernel) (by decide +kernel)
    · exact absurd hk hd
  · rintro x y ⟨_, _, _, h1⟩ ⟨_, _, _, h2⟩ _
    rw [(routes_lit.mp h1).2.1, (routes_lit.mp h2).2.1]
  · intro k _ _ h; exact hd h
  · intro k v h; rcases hu h with ⟨rfl, rfl⟩ | ⟨rfl, rfl⟩ <;> decide +kernel
  · intro k hk
    obtain ⟨i, hi⟩ := (GMap.mem_keys_iff _).mp hk
    exact absurd hi hb
  · intro k v h; rcases hu h with ⟨rfl, rfl⟩ | ⟨rfl, rfl⟩ <;> simp

/-- Header messages are read from partition 0 of topic `d`, the others from partition 0 of topic `s`. -/
def exLog (a : BlockArgs) (head : Int) : List RMsg :=
  (recv ((msgsOf a).filter (fun m => m.key.headD 9 != 0))) ++
  ((msgsOf a).filter (fun m => m.key.headD 9 == 0)).map (fun m => at_ m head (str "d:0"))

/-- The messages of both blocks; those of the later block that are read from topic `s` come first, its header last. -/
def exSkewed : List RMsg := (exLog exLater 1).take 2 ++ exLog exEarlier 0 ++ (exLog exLater 1).drop 2

/-- **C78** refuted: both messages of the later block in topic `s` arrived before the header of the earlier block in topic `d`. The
earlier block's `Resumption()` then names the second of the two, and the restarted consumer never completes the later block. -/
theorem C78_refuted : ¬ RestartClaim Avro.codec exEnv exMP := by
  intro hcl
  obtain ⟨mp', h1, h2⟩ := ex_ok (r := exMP.run Avro.codec exEnv exSkewed)
    (fun mp => match mp.emitted with
      | [pb, pb'] => pb.hash == exHash 2 && pb'.hash == exHash 1 && resumeAt pb (str "s:0") == some 1 && resumeAt pb (str "d:0") == some 0
      | _ => false) (by decide +kernel)
  obtain ⟨mq', h3, h4⟩ := ex_ok (r := exMP.run Avro.codec exEnv exSkewed.tail) (fun mp => mp.emitted.all (fun q => q.hash != exHash 1))
    (by decide +kernel)
  revert h2
  match hem : mp'.emitted with
  | [] => intro h2; simp at h2
  | [_] => intro h2; simp at h2
  | _ :: _ :: _ :: _ => intro h2; simp at h2
  | [pb, pb'] =>
    intro h2
    simp only [Bool.and_eq_true, beq_iff_eq] at h2
    obtain ⟨⟨⟨e1, e2⟩, e3⟩, e4⟩ := h2
    obtain ⟨q, hq, hh⟩ := hcl exSkewed exSkewed.tail mp' mq' pb [] [pb'] pb' (by decide +kernel) h1 hem (by simp)
      (by rw [e1, e2]; decide +kernel) (by
        have hsrc : ∀ m ∈ exSkewed, (m.source = str "s:0" ∧ (m ∈ exSkewed.tail ↔ 1 ≤ m.offset)) ∨
            (m.source = str "d:0" ∧ m ∈ exSkewed.tail ∧ 0 ≤ m.offset) := by decide +kernel
        intro m
        constructor
        · intro hm
          have hm' := List.mem_of_mem_tail hm
          refine ⟨hm', ?_⟩
          rcases hsrc m hm' with ⟨hs, hi⟩ | ⟨hs, hi, h0⟩
          · rw [hs, e3]; intro o ho; cases ho; exact hi.mp hm
          · rw [hs, e4]; intro o ho; cases ho; exact h0
        · rintro ⟨hm, hx⟩
          rcases hsrc m hm with ⟨hs, hi⟩ | ⟨hs, hi, h0⟩
          · rw [hs] at hx; exact hi.mpr (hx 1 e3)
          · exact hi) (by decide +kernel) h3
    rw [e2] at hh
    have := List.all_eq_true.mp h4 q hq
    simp [hh] at this

theorem behind_of {rb : Int} {h : Hash} {r : List RMsg} {m : RMsg}
    (h1 : ∀ x ∈ r, blockOf x.key = h → x.source = m.source → x.offset ≤ m.offset + rb)
    (h2 : ∀ i, i < r.length → ∀ x ∈ r[i]?.toList, blockOf x.key = h → x.key.head? = some BatchType →
      ∀ y ∈ r.take i, y.source = m.source → y.offset ≤ m.offset + rb) : Behind rb h r m := by
  refine ⟨h1, ?_⟩
  rintro l1 x l2 rfl ⟨hb, ht⟩ y hy
  exact h2 l1.length (by simp) x (by simp) hb ht y (by simpa using hy)

/-- The hypotheses of `C78_restart_partial` on the messages of the refutation: with a rollback of one everything is read again. -/
example : ∃ mp' pb mq', exMP.run Avro.codec exEnv exSkewed = .ok mp' ∧ pb ∈ mp'.emitted ∧ pb.hash = exHash 2 ∧
    Produced Avro.codec exProducer.schema exLater exSubs (msgsOf exLater) ∧
    (∀ x ∈ msgsOf exLater, ∃ m ∈ exSkewed, m.key = x.key ∧ Copy (msgsOf exLater) m ∧ Behind 1 pb.hash exSkewed m) ∧
    RestartReads 1 pb exSkewed exSkewed ∧ Faithful exLater.hash (msgsOf exLater) exSkewed ∧
    exMP.run Avro.codec exEnv exSkewed = .ok mq' ∧
    ∃ pb' ∈ mq'.emitted, Exact exCfg.tracked exProducer.schema exLater exSubs pb' := by
  obtain ⟨mp', h1, h2⟩ := ex_ok (r := exMP.run Avro.codec exEnv exSkewed)
    (fun mp => match mp.emitted with | [pb, _] => pb.hash == exHash 2 | _ => false) (by decide +kernel)
  have hp : Produced Avro.codec exProducer.schema exLater exSubs (msgsOf exLater) := produced_nobatch rfl (by decide +kernel) _
  have hf : Faithful exLater.hash (msgsOf exLater) exSkewed := by
    have : ∀ m ∈ exSkewed, blockOf m.key = exLater.hash → ∃ x ∈ msgsOf exLater, m.key = x.key ∧ m.value = x.value := by decide +kernel
    exact fun m hm hh => .inl (this m hm hh)
  revert h2
  match hem : mp'.emitted with
  | [] => intro h2; simp at h2
  | [_] => intro h2; simp at h2
  | _ :: _ :: _ :: _ => intro h2; simp at h2
  | [pb, pb'] =>
    intro h2
    simp only [beq_iff_eq] at h2
    have hm : pb ∈ mp'.emitted := by rw [hem]; simp
    have hlog : ∀ x ∈ msgsOf exLater, ∃ m ∈ exSkewed, m.key = x.key ∧ Copy (msgsOf exLater) m ∧ Behind 1 pb.hash exSkewed m := by
      rw [h2]
      have hc : ∀ x ∈ msgsOf exLater, ∃ m ∈ exSkewed, m.key = x.key ∧ m.value = x.value := by decide +kernel
      have ho : ∀ m ∈ exSkewed, ∀ x ∈ exSkewed, blockOf x.key = exHash 2 → x.source = m.source → x.offset ≤ m.offset + 1 := by
        decide +kernel
      have hb : ∀ m ∈ exSkewed, ∀ i ∈ List.range exSkewed.length, ∀ x ∈ exSkewed[i]?.toList, blockOf x.key = exHash 2 →
          x.key.head? = some BatchType → ∀ y ∈ exSkewed.take i, y.source = m.source → y.offset ≤ m.offset + 1 := by
        decide +kernel
      intro x hx
      obtain ⟨m, hm, e1, e2⟩ := hc x hx
      exact ⟨m, hm, e1, ⟨x, hx, e1, e2⟩, behind_of (ho m hm) (fun i hi => hb m hm i (List.mem_range.mpr hi))⟩
    have hres : RestartReads 1 pb exSkewed exSkewed := fun m hm _ => hm
    exact ⟨mp', pb, mp', h1, hm, h2, hp, hlog, hres, hf, h1,
      C78_restart_partial Avro.codec_lawful exMP_new h1 hm hp exLater_wf hlog hres exMP_new (exEnv_keeps _) hf h1⟩

end Verif
