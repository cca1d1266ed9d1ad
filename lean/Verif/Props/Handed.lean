import Verif.Proofs.Handed
import Verif.Props.Consumer
/-!
# C82: blocks handed over complete

`ProcessCompleteBatch` (used by the websocket consumer) puts blocks into the same stream as `ProcessMessage`. States are reached by any
sequence of calls of both.
-/
namespace Verif
open Spec

variable {C : Codec} {env : Env}

/-- The states a processor can get into by calls of either kind. -/
def CallReachable (C : Codec) (env : Env) (mp : MP) : Prop := ∃ cfg mp0 cs, newMP cfg = .ok mp0 ∧ mp0.calls C env cs = .ok mp

theorem callReachable_base {mp : MP} (h : CallReachable C env mp) : Base mp := by
  obtain ⟨cfg, mp0, cs, h1, h2⟩ := h
  exact (Base.newMP h1).calls h2

/-- **C82**: handing over a block sends it, and it alone, as it is (only a missing channel for the waiters is added), and what has been
collected of it is dropped. -/
theorem C82_sent {mp mp' : MP} {pb : PB} (hr : mp.calls C env [.block pb] = .ok mp') :
    (∃ pb', mp'.emitted = mp.emitted ++ [pb'] ∧ { pb' with waitCh := pb.waitCh } = pb) ∧ mp'.pendingBatches.get? pb.hash = none := by
  have : mp' = mp.processCompleteBatch pb := by
    simp only [MP.calls, List.foldlM_cons, List.foldlM_nil] at hr
    obtain ⟨_, h1, h2⟩ := bind_ok.mp hr
    simp only [MP.call, Except.ok.injEq] at h1
    simp only [pure, Except.pure, Except.ok.injEq] at h2
    rw [← h2, ← h1]
  subst this
  refine ⟨complete_emitted mp pb, ?_⟩
  obtain ⟨pb', next, w, he, hh⟩ := complete_eq mp pb
  rw [he]; simp

/-- **C82**: after a block has been handed over, its messages do not make the processor emit it again: if a later emission has its hash —
among `cs` there being no Reorg message, and no other call handing the block over — at least `2·ReorgThreshold` blocks with other
hashes were emitted in between. -/
theorem C82_not_assembled {mp mp1 mp2 : MP} {pb pb' pb2 : PB} {cs : List Call} {mid e3 : List PB} (h1 : CallReachable C env mp)
    (hc : mp.calls C env [.block pb] = .ok mp1) (hr : mp1.calls C env cs = .ok mp2) (hm : ∀ m, .msg m ∈ cs → ¬ IsReorg m)
    (hb : ∀ b, .block b ∈ cs → b.hash ≠ pb.hash) (he : mp2.emitted = mp.emitted ++ pb' :: (mid ++ pb2 :: e3))
    (hh : pb2.hash = pb.hash) : 2 * mp.reorgThreshold ≤ (mid.countP (fun b => b.hash ≠ pb.hash) : Int) := by
  have hB := callReachable_base h1
  have e1 : mp1 = mp.processCompleteBatch pb := by
    simp only [MP.calls, List.foldlM_cons, List.foldlM_nil] at hc
    obtain ⟨_, h1, h2⟩ := bind_ok.mp hc
    simp only [MP.call, Except.ok.injEq] at h1
    simp only [pure, Except.pure, Except.ok.injEq] at h2
    rw [← h2, ← h1]
  subst e1
  have h0 : Held pb.hash mp.emitted (2 * mp.reorgThreshold).toNat (mp.processCompleteBatch pb) := by
    have hp : 0 < (2 * mp.reorgThreshold).toNat := by have := hB.thr; omega
    obtain ⟨q, next, w, heq, hq⟩ := complete_eq mp pb
    rw [heq]
    refine ⟨by show (mp.completed.add pb.hash).1.cap = _; rw [LRU.add_cap]; exact hB.cap, hp, [q], by simp [MP.emitted], ?_⟩
    intro e1 p rest hs hph
    rcases append_last_split (es := []) (x := q) hs with ⟨rfl, rfl, _⟩ | ⟨r, _, h⟩
    · exact .inr ⟨by simp, by simpa using hp, LRU.within_add_self _ _ (by rw [hB.cap]; exact hp) _⟩
    · simp at h
  have h2 := ((held_parts C env pb.hash mp.emitted _).toParts.calls (R := fun b => b.hash ≠ pb.hash)
    (fun m b hne hp => ⟨hp.1.complete b, held_complete hp.2 hne⟩) (fun m hmem => notReorg_iff (hm m hmem)) hb
    ⟨hB.complete pb, h0⟩ hr).2
  have hfirst : pb'.hash = pb.hash := by
    obtain ⟨q, hq, hq2⟩ := complete_emitted mp pb
    have hpre : (mp.processCompleteBatch pb).emitted <+: mp2.emitted := calls_emitted hr
    rw [hq, he] at hpre
    have := (List.prefix_append_right_inj _).mp hpre
    have : q = pb' := by simpa using List.prefix_cons_iff.mp this |>.elim (by simp) (fun ⟨_, h, _⟩ => by simp at h; exact h.1)
    rw [← this, ← hq2]
  have h3 := h2.apart (e1 := []) he hfirst hh
  have := hB.thr
  omega

/-- **C82**: blocks handed over do not disturb the assembly of others: C03 holds in their presence. Two emissions of a hash `h` that is not
handed over are separated by at least `2·ReorgThreshold` emissions of other hashes, unless a Reorg message came. -/
theorem C82_others_at_most_once {mp1 mp2 : MP} {cs : List Call} {h : Hash} (h1 : CallReachable C env mp1)
    (hr : mp1.calls C env cs = .ok mp2) (hm : ∀ m, .msg m ∈ cs → ¬ IsReorg m) (hb : ∀ b, .block b ∈ cs → b.hash ≠ h)
    {e1 mid e3 : List PB} {pb1 pb2 : PB} (he : mp2.emitted = mp1.emitted ++ (e1 ++ pb1 :: (mid ++ pb2 :: e3)))
    (hh1 : pb1.hash = h) (hh2 : pb2.hash = h) : 2 * mp1.reorgThreshold ≤ (mid.countP (fun b => b.hash ≠ h) : Int) := by
  have hB := callReachable_base h1
  have h0 : Held h mp1.emitted (2 * mp1.reorgThreshold).toNat mp1 :=
    ⟨hB.cap, by have := hB.thr; omega, [], by simp, by intro e1 p rest hs; simp at hs⟩
  have h2 := ((held_parts C env h mp1.emitted _).toParts.calls (R := fun b => b.hash ≠ h)
    (fun m b hne hp => ⟨hp.1.complete b, held_complete hp.2 hne⟩) (fun m hmem => notReorg_iff (hm m hmem)) hb ⟨hB, h0⟩ hr).2
  have h3 := h2.apart he hh1 hh2
  have := hB.thr
  omega

/-- **C82**: the memory of emitted blocks is bounded also when blocks are handed over. -/
theorem C82_bounded {cfg : Config} {cs : List Call} {mp mp' : MP} (hn : newMP cfg = .ok mp) (hr : mp.calls C env cs = .ok mp') :
    (mp'.completed.len : Int) ≤ 2 * cfg.reorgThreshold := by
  have h0 : MBound cfg.reorgThreshold mp ∧ 0 < 2 * cfg.reorgThreshold := by
    unfold newMP at hn
    split at hn
    · simp at hn
    · rename_i hc
      simp only [Except.ok.injEq] at hn
      subst hn
      exact ⟨⟨rfl, rfl, Nat.zero_le _⟩, by omega⟩
  have h1 := ((mbound_parts C env cfg.reorgThreshold).toParts.calls (R := fun _ => True)
    (fun m b _ hp => ⟨hp.1.complete b, mbound_complete hp.2 b⟩) (fun _ _ => trivial) (fun _ _ => trivial)
    ⟨Base.newMP hn, h0.1⟩ hr).2.2.2
  have h2 := h0.2
  unfold LRU.len
  omega

/-- A complete block with the hash of `exBlock`, and another one. -/
def exWhole (n : Nat) : PB where
  number := 5
  weight := 9
  parentHash := Hash.zero
  hash := exHash n
  values := GMap.empty
  deletes := GMap.empty
  resumption := GMap.empty
  resumptionDefaults := GMap.empty
  prefixes := GMap.empty
  batches := GMap.empty
  pendingBatches := GMap.empty
  pendingMessages := GMap.empty
  waitCh := none
  frp := false

/-- C82: half of the messages, the block itself, all messages: one emission. -/
example : ∃ mp, exMP.calls Avro.codec exEnv ((exStream.take 5).map Call.msg ++ [.block (exWhole 1)] ++ exStream.map Call.msg) = .ok mp ∧
    (mp.emitted.map PB.hash == [exHash 1]) = true :=
  ex_ok (fun mp : MP => mp.emitted.map PB.hash == [exHash 1]) (by decide +kernel)

/-- C82: after four other blocks (`2·ReorgThreshold`) the messages do make the processor emit it again. -/
example : ∃ mp, exMP.calls Avro.codec exEnv
    ([.block (exWhole 1)] ++ [11, 12, 13, 14].map (fun n => Call.block (exWhole n)) ++ exStream.map Call.msg) = .ok mp ∧
    (mp.emitted.map PB.hash == [exHash 1, exHash 11, exHash 12, exHash 13, exHash 14, exHash 1]) = true :=
  ex_ok (fun mp : MP => mp.emitted.map PB.hash == [exHash 1, exHash 11, exHash 12, exHash 13, exHash 14, exHash 1]) (by decide +kernel)

/-- C82: a block handed over twice is emitted twice (which the hypothesis of `C82_not_assembled` excludes). -/
example : ∃ mp, exMP.calls Avro.codec exEnv [.block (exWhole 1), .block (exWhole 1)] = .ok mp ∧
    (mp.emitted.map PB.hash == [exHash 1, exHash 1]) = true :=
  ex_ok (fun mp : MP => mp.emitted.map PB.hash == [exHash 1, exHash 1]) (by decide +kernel)

end Verif
