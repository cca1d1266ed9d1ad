import Verif.Proofs.ConsumerBase
import Verif.Proofs.OrderingRecent
import Verif.Proofs.Produced
/-! What the maps of the `MessageProcessor` hold of a block. -/
namespace Verif

/-- Invariants from what happens to the maps. -/
structure Ops (C : Codec) (env : Env) (Q : RMsg → Prop) (P : MP → Prop) : Prop where
  begin : ∀ mp m, Q m → Base mp → P mp → P (mp.begin env m)
  reorg : ∀ mp m l n, Q m → P mp → m.key.headD 0 = ReorgType → (l = mp.log ∨ l = mp.log ++ [MPOut.reorg n (hashOf m.key)]) →
    P { mp with completed := LRU.new (2 * mp.reorgThreshold).toNat, oldBlocks := GMap.empty, lastEmittedNum := n, log := l }
  add : ∀ mp m b, Q m → Base mp → P mp → m.key.headD 0 = BatchType → mp.completed.contains (hashOf m.key) = false →
    mp.oldBlocks.contains (hashOf m.key) = false → mp.pendingBatches.get? (hashOf m.key) = none → P (mp.addHeader env m (hashOf m.key) b)
  upd : ∀ mp m pb pb', Q m → Base mp → P mp → mp.pendingBatches.get? (hashOf m.key) = some pb → SameHead pb pb' →
    P { mp with pendingBatches := mp.pendingBatches.insert (hashOf m.key) pb' }
  queue : ∀ mp m, Q m → Base mp → P mp → QueueType m → mp.pendingBatches.get? (hashOf m.key) = none → mp.completed.contains (hashOf m.key) = false →
    mp.oldBlocks.contains (hashOf m.key) = false → P (mp.queueMessage (hashOf m.key) m)
  queued : ∀ mp m q e, Q m → m.key.headD 0 = BatchType → Base mp → P mp → mp.pendingMessages.get? (hashOf m.key) = some q → e ∈ q.entries → Q e.2
  drop : ∀ mp m, Q m → m.key.headD 0 = BatchType → Base mp → P mp → P { mp with pendingMessages := mp.pendingMessages.erase (hashOf m.key) }
  finish : ∀ mp m, Q m → Base mp → P mp → P (mp.finish (hashOf m.key))

theorem Ops.toXParts {C : Codec} {env : Env} {Q : RMsg → Prop} {P : MP → Prop} (h : Ops C env Q P) : XParts C env true Q P where
  begin := h.begin
  short := .inl rfl
  reorg mp m hQ _ hP ht := by
    unfold MP.onReorg
    simp only []
    split
    · exact h.reorg mp m mp.log mp.lastEmittedNum hQ hP ht (.inl rfl)
    · exact h.reorg mp m _ _ hQ hP ht (.inr rfl)
  add mp m b hQ hB hP ht h1 h2 _ h3 := h.add mp m b hQ hB hP ht h1 h2 h3
  sub mp m hQ hB hP hqt h1 h2 _ := by
    unfold MP.onSubHeader
    split
    · next hp => exact h.queue mp m hQ hB hP hqt hp h1 h2
    · next pb hp =>
      simp only []
      split
      · exact hP
      · split
        · exact h.upd mp m pb _ hQ hB hP hp ⟨rfl, rfl, rfl, rfl, rfl, rfl, rfl⟩
        · split
          · rfl
          · next pb' hpb =>
            exact h.finish _ m hQ (hB.update hp (sameHead_addSub hpb).hash) (h.upd mp m pb pb' hQ hB hP hp (sameHead_addSub hpb))
  other mp m hQ hB hP hqt h1 h2 _ := by
    unfold MP.onOther
    split
    · next hp => exact h.queue mp m hQ hB hP hqt hp h1 h2
    · next pb hp =>
      split
      · rfl
      · next pb' _ hpb =>
        exact h.finish _ m hQ (hB.update hp (sameHead_apply hpb).hash) (h.upd mp m pb pb' hQ hB hP hp (sameHead_apply hpb))
  queued := h.queued
  drop := h.drop
  finish mp m hQ _ hB hP := h.finish mp m hQ hB hP

theorem finish_queue (mp : MP) (h : Hash) : (mp.finish h).pendingMessages = mp.pendingMessages ∧ (mp.finish h).oldBlocks = mp.oldBlocks := by
  rcases finish_cases mp h with ⟨e, _⟩ | ⟨pb, _, _, e⟩ <;> rw [e] <;> exact ⟨rfl, rfl⟩

/-- What emitting one block does to what is known of another. -/
theorem finish_other (mp : MP) {h x : Hash} (hne : h ≠ x) : (mp.finish h).pendingBatches.get? x = mp.pendingBatches.get? x ∧
    ((mp.finish h).completed.contains x = true → mp.completed.contains x = true) := by
  rcases finish_cases mp h with ⟨e, _⟩ | ⟨pb, _, _, e⟩
  · rw [e]; exact ⟨rfl, id⟩
  · rw [e]
    refine ⟨by simp only [GMap.get?_erase, if_neg hne], fun hx => ?_⟩
    rw [LRU.contains_iff] at hx ⊢
    rcases LRU.mem_of_mem_add hx with e | e
    · exact absurd e.symm hne
    · exact e

theorem empty_contains (h : Hash) : (GMap.empty : GMap Hash Unit).contains h = false := rfl

theorem lru_new_contains (n : Nat) (h : Hash) : (LRU.new n : LRU Hash).contains h = false := by simp [LRU.contains, LRU.new]

/-- A block is not both remembered as emitted and as dropped. -/
theorem apart_ops (C : Codec) (env : Env) (h : Hash) :
    Ops C env (fun _ => True) (fun mp => mp.completed.contains h = true → mp.oldBlocks.contains h = false) where
  begin mp m _ hB hP hc := by
    have hf := begin_fields env mp m
    rw [hf.1] at hc
    rcases begin_get env mp m h with ⟨_, h2⟩ | ⟨pb, h1, _⟩
    · rw [h2]; exact hP hc
    · rw [hB.compl h hc] at h1; cases h1
  reorg mp m l n _ hP _ _ _ := empty_contains h
  add mp m b _ _ hP _ _ _ _ := hP
  upd mp m pb pb' _ _ hP _ _ := hP
  queue mp m _ _ hP _ _ _ _ := hP
  queued _ _ _ _ _ _ _ _ _ _ := trivial
  drop mp m _ _ _ hP := hP
  finish mp m _ hB hP hc := by
    rw [(finish_queue mp _).2]
    by_cases e : hashOf m.key = h
    · rcases finish_cases mp (hashOf m.key) with ⟨e1, _⟩ | ⟨pb, hp, _, _⟩
      · rw [e1] at hc; exact hP hc
      · cases ho : mp.oldBlocks.contains h with
        | false => rfl
        | true =>
          have := hB.old h ho
          rw [← e, hp] at this
          cases this
    · exact hP ((finish_other mp e).2 hc)

/-- A sub-batch header can be decoded. -/
def SubDec (C : Codec) (m : RMsg) : Prop := m.key.headD 0 = SubBatchHeaderType → (C.decInt m.value).isSome = true

/-- A block of which messages wait for the header is not known otherwise. -/
def Hold (C : Codec) (h : Hash) (mp : MP) : Prop :=
  ∀ q, mp.pendingMessages.get? h = some q → mp.pendingBatches.get? h = none ∧ mp.completed.contains h = false ∧ mp.oldBlocks.contains h = false ∧ ∀ e ∈ q.entries, SubDec C e.2

theorem Hold.none {C : Codec} {h : Hash} {mp : MP} (hn : mp.pendingMessages.get? h = none) : Hold C h mp := by
  intro q hq
  rw [hn] at hq
  cases hq

theorem Hold.begin {C : Codec} {h : Hash} {env : Env} {mp : MP} (hP : Hold C h mp) (m : RMsg) : Hold C h (mp.begin env m) := by
  intro q hq
  have hf := begin_fields env mp m
  rw [hf.2.1] at hq
  obtain ⟨h1, h2, h3, h4⟩ := hP q hq
  rcases begin_get env mp m h with ⟨e1, e2⟩ | ⟨pb, e1, _⟩
  · exact ⟨by rw [e1]; exact h1, by rw [hf.1]; exact h2, by rw [e2]; exact h3, h4⟩
  · rw [h1] at e1; cases e1

/-- Messages of other blocks. -/
theorem hold_other (C : Codec) (env : Env) (h : Hash) : Ops C env (fun m => m.key.headD 0 = ReorgType ∨ hashOf m.key ≠ h) (Hold C h) where
  begin mp m _ _ hP := hP.begin m
  reorg mp m l n _ hP _ _ := by
    intro q hq
    obtain ⟨h1, _, _, h4⟩ := hP q hq
    exact ⟨h1, lru_new_contains _ h, empty_contains h, h4⟩
  add mp m b hQ _ hP ht _ _ _ := by
    have hne : hashOf m.key ≠ h := hQ.resolve_left (by rw [ht]; decide)
    intro q hq
    obtain ⟨h1, h2, h3, h4⟩ := hP q hq
    exact ⟨by simp only [MP.addHeader]; rw [GMap.get?_insert_ne _ _ hne]; exact h1, h2, h3, h4⟩
  upd mp m pb pb' hQ _ hP hp _ := by
    intro q hq
    obtain ⟨h1, h2, h3, h4⟩ := hP q hq
    refine ⟨?_, h2, h3, h4⟩
    have hne : hashOf m.key ≠ h := fun e => by rw [e, h1] at hp; cases hp
    dsimp only
    rw [GMap.get?_insert_ne _ _ hne]
    exact h1
  queue mp m hQ _ hP hqt _ _ _ := by
    have hne : hashOf m.key ≠ h := hQ.resolve_left hqt.1
    intro q hq
    simp only [MP.queueMessage] at hq
    rw [GMap.get?_insert_ne _ _ hne] at hq
    exact hP q hq
  queued mp m q e hQ ht hB _ hq he := by
    have hne : hashOf m.key ≠ h := hQ.resolve_left (by rw [ht]; decide)
    exact .inr (by rw [(hB.queue _ _ _ hq he).2.1]; exact hne)
  drop mp m hQ ht _ hP := by
    intro q hq
    simp only [GMap.get?_erase] at hq
    split at hq
    · cases hq
    · exact hP q hq
  finish mp m hQ _ hP := by
    intro q hq
    rw [(finish_queue mp _).1] at hq
    obtain ⟨h1, h2, h3, h4⟩ := hP q hq
    by_cases e : hashOf m.key = h
    · rcases finish_cases mp (hashOf m.key) with ⟨e1, _⟩ | ⟨pb, hp, _, _⟩
      · rw [e1]; exact ⟨h1, h2, h3, h4⟩
      · rw [e, h1] at hp; cases hp
    · obtain ⟨f1, f2⟩ := finish_other mp e
      refine ⟨by rw [f1]; exact h1, ?_, by rw [(finish_queue mp _).2]; exact h3, h4⟩
      cases hc : (mp.finish (hashOf m.key)).completed.contains h with
      | false => rfl
      | true => rw [f2 hc] at h2; cases h2

/-- Messages of the block that are not headers. -/
theorem hold_own (C : Codec) (env : Env) (h : Hash) : Ops C env (fun m => QueueType m ∧ hashOf m.key = h ∧ SubDec C m) (Hold C h) where
  begin mp m _ _ hP := hP.begin m
  reorg mp m l n hQ _ ht _ := absurd ht hQ.1.1
  add mp m b hQ _ _ ht _ _ _ := absurd ht hQ.1.2
  upd mp m pb pb' hQ _ hP hp _ := by
    refine .none ?_
    cases hq : mp.pendingMessages.get? h with
    | none => rfl
    | some q => rw [hQ.2.1, (hP q hq).1] at hp; cases hp
  queue mp m hQ hB hP hqt h1 h2 h3 := by
    obtain ⟨_, rfl, hd⟩ := hQ
    intro q hq
    refine ⟨h1, h2, h3, fun e he => ?_⟩
    simp only [MP.queueMessage, GMap.get?_insert, if_true, Option.some.injEq] at hq
    subst hq
    have hg := (GMap.get?_eq_some_iff _).mpr he
    rw [GMap.get?_insert] at hg
    split at hg
    · cases hg; exact hd
    · cases hpm : mp.pendingMessages.get? (hashOf m.key) with
      | none => rw [hpm] at hg; simp [GMap.get?, GMap.empty, GMap.look] at hg
      | some q0 =>
        rw [hpm] at hg
        exact (hP q0 hpm).2.2.2 e ((GMap.get?_eq_some_iff _).mp hg)
  queued mp m q e hQ ht _ _ _ _ := absurd ht hQ.1.2
  drop mp m hQ ht _ _ := absurd ht hQ.1.2
  finish mp m hQ _ hP := by
    intro q hq
    rw [(finish_queue mp _).1] at hq
    obtain ⟨h1, h2, h3, h4⟩ := hP q hq
    rcases finish_cases mp (hashOf m.key) with ⟨e1, _⟩ | ⟨pb, hp, _, _⟩
    · rw [e1]; exact ⟨h1, h2, h3, h4⟩
    · rw [hQ.2.1, h1] at hp; cases hp

/-- A queued message that can be decoded gives no error. -/
theorem step_noerr {C : Codec} {env : Env} {self : MP → RMsg → MPResult} {mp mp' : MP} {m : RMsg} {e : Option Err} (ht : QueueType m) (hd : SubDec C m)
    (hr : MP.step C env self mp m = .ok (mp', e)) : e = none := by
  unfold MP.step at hr
  simp only [ht.1, ht.2, if_false] at hr
  split at hr
  · cases hr
  · split at hr
    · cases hr; rfl
    · split at hr
      · cases hr; rfl
      · split at hr
        · next hs =>
          unfold MP.onSubHeader at hr
          split at hr
          · cases hr; rfl
          · simp only [] at hr
            split at hr
            · cases hr; rfl
            · split at hr
              · next hn => have := hd hs; rw [hn] at this; cases this
              · split at hr
                · cases hr
                · cases hr; rfl
        · unfold MP.onOther at hr
          split at hr
          · cases hr; rfl
          · split at hr
            · cases hr
            · cases hr; rfl

theorem replay_noerr {self : MP → RMsg → MPResult} {ms : List RMsg} {mp mp' : MP} {e : Option Err}
    (hs : ∀ mp m, m ∈ ms → ∀ mp' e, self mp m = .ok (mp', e) → e = none) (hr : replay self mp ms = .ok (mp', e)) : e = none := by
  induction ms generalizing mp with
  | nil => cases hr; rfl
  | cons m ms ih =>
    simp only [replay] at hr
    split at hr
    · cases hr
    · next h1 => have := hs mp m (by simp) _ _ h1; cases this
    · exact ih (fun mp m hm => hs mp m (List.mem_cons_of_mem _ hm)) hr

/-- The header of the block. -/
theorem hold_header {C : Codec} {env : Env} {h : Hash} {mp mp' : MP} {m : RMsg} {e : Option Err} (hB : Base mp) (hP : Hold C h mp) (ht : m.key.headD 0 = BatchType) (hh : hashOf m.key = h)
    (hr : mp.processMessage C env m = .ok (mp', e)) : Hold C h mp' := by
  have hb := hP.begin (env := env) m
  have hBb := hB.begin env m
  unfold MP.processMessage at hr
  have hself : ∀ mp m' mp' e, QueueType m' → SubDec C m' → MP.step C env (fun _ _ => .error .hang) mp m' = .ok (mp', e) → e = none :=
    fun mp m' mp' e h1 h2 h3 => step_noerr h1 h2 h3
  generalize MP.step C env (fun _ _ => .error .hang) = self at hself hr
  unfold MP.step at hr
  generalize mp.begin env m = mp1 at hb hBb hr
  simp only [] at hr
  split at hr
  · cases hr
  · rw [ht, if_neg (by decide)] at hr
    split at hr
    · cases hr; exact hb
    · split at hr
      · cases hr; exact hb
      · unfold MP.onHeader at hr
        split at hr
        · cases hr; exact hb
        · next b _ =>
          split at hr
          · cases hr; exact hb
          · simp only [] at hr
            have hpm : (mp1.addHeader env m (hashOf m.key) b).pendingMessages = mp1.pendingMessages := rfl
            split at hr
            · next hn =>
              cases hr
              refine .none ?_
              rw [(finish_queue _ _).1, ← hh]
              exact hn
            · next q hq =>
              rw [hpm, hh] at hq
              split at hr
              · cases hr
              · next e' hrep =>
                have := replay_noerr (fun mp m' hm mp' e he => by
                  obtain ⟨x, hx, rfl⟩ := List.mem_map.mp hm
                  have hx' := (env.order.perm _ _).mem_iff.mp hx
                  exact hself mp _ mp' e (hBb.queue h q x hq hx').1 ((hb q hq).2.2.2 x hx') he) hrep
                cases this
              · cases hr
                refine .none ?_
                rw [(finish_queue _ _).1]
                simp only [GMap.get?_erase, hh, if_true]

/-- The invariants together, kept by every message. -/
theorem held_process {C : Codec} {env : Env} {h : Hash} {mp mp' : MP} {m : RMsg} {e : Option Err} (hd : hashOf m.key = h → SubDec C m) (hB : Base mp) (hP : Hold C h mp)
    (hA : mp.completed.contains h = true → mp.oldBlocks.contains h = false) (hr : mp.processMessage C env m = .ok (mp', e)) :
    Base mp' ∧ Hold C h mp' ∧ (mp'.completed.contains h = true → mp'.oldBlocks.contains h = false) := by
  refine ⟨hB.process hr, ?_, (((apart_ops C env h).toXParts.toParts.process trivial ⟨hB, hA⟩).ok hr).2⟩
  by_cases hne : m.key.headD 0 = ReorgType ∨ hashOf m.key ≠ h
  · exact (((hold_other C env h).toXParts.toParts.process hne ⟨hB, hP⟩).ok hr).2
  · have h1 : m.key.headD 0 ≠ ReorgType := fun e => hne (.inl e)
    have h2 : hashOf m.key = h := Classical.byContradiction fun e => hne (.inr e)
    by_cases hbt : m.key.headD 0 = BatchType
    · exact hold_header hB hP hbt h2 hr
    · exact (((hold_own C env h).toXParts.toParts.process ⟨⟨h1, hbt⟩, h2, hd h2⟩ ⟨hB, hP⟩).ok hr).2

theorem held_run {C : Codec} {env : Env} {h : Hash} {mp mp' : MP} {ms : List RMsg} (hd : ∀ m ∈ ms, hashOf m.key = h → SubDec C m) (hB : Base mp) (hP : Hold C h mp)
    (hA : mp.completed.contains h = true → mp.oldBlocks.contains h = false) (hr : mp.run C env ms = .ok mp') :
    Base mp' ∧ Hold C h mp' ∧ (mp'.completed.contains h = true → mp'.oldBlocks.contains h = false) := by
  induction ms generalizing mp with
  | nil => cases hr; exact ⟨hB, hP, hA⟩
  | cons m ms ih =>
    simp only [MP.run] at hr
    split at hr
    · cases hr
    · next h1 =>
      obtain ⟨a, b, c⟩ := held_process (hd m (by simp)) hB hP hA h1
      exact ih (fun m hm => hd m (List.mem_cons_of_mem _ hm)) a b c hr

/-- Nothing is held of blocks without messages, and no emitted block is forgotten twice. -/
structure OnlyOf (H : List Hash) (mp : MP) : Prop where
  pb : ∀ h pb, mp.pendingBatches.get? h = some pb → h ∈ H
  pm : ∀ h q, mp.pendingMessages.get? h = some q → h ∈ H
  items : ∀ h ∈ mp.completed.items, h ∈ H
  nodup : mp.completed.items.Nodup
  old : ∀ h, mp.oldBlocks.contains h = true → h ∈ H

theorem OnlyOf.newMP {cfg : Config} {mp : MP} (hn : newMP cfg = .ok mp) (H : List Hash) : OnlyOf H mp := by
  unfold Verif.newMP at hn
  split at hn
  · cases hn
  · cases hn
    exact ⟨fun h pb hp => (by simp [GMap.get?, GMap.empty, GMap.look] at hp), fun h pb hp => (by simp [GMap.get?, GMap.empty, GMap.look] at hp),
      fun h hp => (by simp [LRU.new] at hp), by simp [LRU.new], fun h hp => (by rw [empty_contains] at hp; cases hp)⟩

theorem onlyOf_ops (C : Codec) (env : Env) (H : List Hash) : Ops C env (fun m => m.key.headD 0 = ReorgType ∨ hashOf m.key ∈ H) (OnlyOf H) where
  begin mp m _ _ hP := by
    have hf := begin_fields env mp m
    refine ⟨fun h pb hp => hP.pb h pb (begin_pending hp), fun h q hq => hP.pm h q (by rw [← hf.2.1]; exact hq), by rw [hf.1]; exact hP.items, by rw [hf.1]; exact hP.nodup, fun h ho => ?_⟩
    rcases begin_get env mp m h with ⟨_, e⟩ | ⟨pb, e, _⟩
    · exact hP.old h (by rw [← e]; exact ho)
    · exact hP.pb h pb e
  reorg mp m l n _ hP _ _ := ⟨hP.pb, hP.pm, fun h hp => (by simp [LRU.new] at hp), by simp [LRU.new], fun h hp => (by rw [empty_contains] at hp; cases hp)⟩
  add mp m b hQ _ hP ht _ _ _ := by
    refine ⟨fun h pb hp => ?_, hP.pm, hP.items, hP.nodup, hP.old⟩
    by_cases e : hashOf m.key = h
    · rw [← e]; exact hQ.resolve_left (by rw [ht]; decide)
    · simp only [MP.addHeader] at hp
      rw [GMap.get?_insert_ne _ _ e] at hp
      exact hP.pb h pb hp
  upd mp m pb pb' hQ _ hP hp _ := by
    refine ⟨fun h x hx => ?_, hP.pm, hP.items, hP.nodup, hP.old⟩
    by_cases e : hashOf m.key = h
    · rw [← e]; exact hP.pb _ _ hp
    · rw [GMap.get?_insert_ne _ _ e] at hx
      exact hP.pb h x hx
  queue mp m hQ _ hP hqt _ _ _ := by
    refine ⟨hP.pb, fun h q hq => ?_, hP.items, hP.nodup, hP.old⟩
    by_cases e : hashOf m.key = h
    · rw [← e]; exact hQ.resolve_left hqt.1
    · simp only [MP.queueMessage] at hq
      rw [GMap.get?_insert_ne _ _ e] at hq
      exact hP.pm h q hq
  queued mp m q e hQ ht hB _ hq he := by
    exact .inr (by rw [(hB.queue _ _ _ hq he).2.1]; exact hQ.resolve_left (by rw [ht]; decide))
  drop mp m hQ ht _ hP := by
    refine ⟨hP.pb, fun h q hq => ?_, hP.items, hP.nodup, hP.old⟩
    simp only [GMap.get?_erase] at hq
    split at hq
    · cases hq
    · exact hP.pm h q hq
  finish mp m hQ _ hP := by
    rcases finish_cases mp (hashOf m.key) with ⟨e, _⟩ | ⟨pb, hp, _, e⟩
    · rw [e]; exact hP
    · rw [e]
      refine ⟨fun h x hx => ?_, hP.pm, fun h hh => ?_, add_nodup hP.nodup, hP.old⟩
      · simp only [GMap.get?_erase] at hx
        split at hx
        · cases hx
        · exact hP.pb h x hx
      · rcases LRU.mem_of_mem_add hh with rfl | hh
        · exact hP.pb _ _ hp
        · exact hP.items h hh

/-- Every emitted block is remembered. -/
structure AllRemembered (H : List Hash) (mp : MP) : Prop where
  only : OnlyOf H mp
  room : H.length ≤ mp.completed.cap
  em : ∀ pb, MPOut.batch pb ∈ mp.log → pb.hash ∈ mp.completed.items

theorem remembers_ops (C : Codec) (env : Env) (H : List Hash) : Ops C env (fun m => m.key.headD 0 ≠ ReorgType ∧ hashOf m.key ∈ H) (AllRemembered H) where
  begin mp m hQ hB hP := by
    have hf := begin_fields env mp m
    exact ⟨(onlyOf_ops C env H).begin mp m (.inr hQ.2) hB hP.only, by rw [hf.1]; exact hP.room, by rw [hf.1, hf.2.2.1]; exact hP.em⟩
  reorg mp m l n hQ _ ht _ := absurd ht hQ.1
  add mp m b hQ hB hP ht h1 h2 h3 := by
    refine ⟨(onlyOf_ops C env H).add mp m b (.inr hQ.2) hB hP.only ht h1 h2 h3, hP.room, fun pb hpb => ?_⟩
    simp only [MP.addHeader, List.mem_append, List.mem_singleton, reduceCtorEq, or_false] at hpb
    exact hP.em pb hpb
  upd mp m pb pb' hQ hB hP hp hs := ⟨(onlyOf_ops C env H).upd mp m pb pb' (.inr hQ.2) hB hP.only hp hs, hP.room, hP.em⟩
  queue mp m hQ hB hP hqt h1 h2 h3 := ⟨(onlyOf_ops C env H).queue mp m (.inr hQ.2) hB hP.only hqt h1 h2 h3, hP.room, hP.em⟩
  queued mp m q e hQ ht hB _ hq he := by
    obtain ⟨h1, h2, _⟩ := hB.queue _ _ _ hq he
    exact ⟨h1.1, by rw [h2]; exact hQ.2⟩
  drop mp m hQ ht hB hP := ⟨(onlyOf_ops C env H).drop mp m (.inr hQ.2) ht hB hP.only, hP.room, hP.em⟩
  finish mp m hQ hB hP := by
    have ho := (onlyOf_ops C env H).finish mp m (.inr hQ.2) hB hP.only
    rcases finish_cases mp (hashOf m.key) with ⟨e, _⟩ | ⟨pb, hp, _, e⟩
    · rw [e]; exact hP
    · have hni : hashOf m.key ∉ mp.completed.items := by
        intro hi
        rw [hB.compl _ ((LRU.contains_iff _ _).mpr hi)] at hp
        cases hp
      have hlt : mp.completed.items.length < mp.completed.cap := by
        have := nodup_length_le (l := hashOf m.key :: mp.completed.items) (l' := H) (List.nodup_cons.mpr ⟨hni, hP.only.nodup⟩) (fun x hx => by
          rcases List.mem_cons.mp hx with rfl | hx
          · exact hQ.2
          · exact hP.only.items x hx)
        have h2 := hP.room
        simp only [List.length_cons] at this
        omega
      have hnone := LRU.add_none_of_room (k := hashOf m.key) hlt
      rw [e] at ho ⊢
      refine ⟨ho, by rw [LRU.add_cap]; exact hP.room, fun x hx => ?_⟩
      rw [LRU.add_fst_of_snd_none hnone]
      simp only [List.mem_append, List.mem_singleton, MPOut.batch.injEq] at hx
      rcases hx with hx | rfl
      · exact .inr (hP.em x hx)
      · exact .inl (hB.hashes _ _ hp)

/-- Queued messages stay until the header comes. -/
theorem orphan_ops (C : Codec) (env : Env) (h : Hash) :
    Ops C env (fun m => ¬ (m.key.headD 0 = BatchType ∧ hashOf m.key = h)) (fun mp => mp.pendingMessages.contains h = true) where
  begin mp m _ _ hP := by rw [(begin_fields env mp m).2.1]; exact hP
  reorg mp m l n _ hP _ _ := hP
  add mp m b _ _ hP _ _ _ _ := hP
  upd mp m pb pb' _ _ hP _ _ := hP
  queue mp m _ _ hP _ _ _ _ := by
    simp only [MP.queueMessage, GMap.contains, GMap.get?_insert] at hP ⊢
    split
    · rfl
    · exact hP
  queued mp m q e _ _ hB _ hq he := fun hx => (hB.queue _ _ _ hq he).1.2 hx.1
  drop mp m hQ ht _ hP := by
    simp only [GMap.contains, GMap.get?_erase] at hP ⊢
    rw [if_neg (fun e => hQ ⟨ht, e⟩)]
    exact hP
  finish mp m _ _ hP := by rw [(finish_queue mp _).1]; exact hP

/-- A dropped block stays noted until a Reorg message. -/
theorem dropped_ops (C : Codec) (env : Env) (h : Hash) :
    Ops C env (fun m => m.key.headD 0 ≠ ReorgType) (fun mp => mp.oldBlocks.contains h = true) where
  begin mp m _ _ hP := by
    rcases begin_get env mp m h with ⟨_, e⟩ | ⟨_, _, _, _, e⟩
    · rw [e]; exact hP
    · exact e
  reorg mp m l n hQ _ ht _ := absurd ht hQ
  add mp m b _ _ hP _ _ _ _ := hP
  upd mp m pb pb' _ _ hP _ _ := hP
  queue mp m _ _ hP _ _ _ _ := hP
  queued mp m q e _ _ hB _ hq he := (hB.queue _ _ _ hq he).1.1
  drop mp m _ _ _ hP := hP
  finish mp m _ _ hP := by rw [(finish_queue mp _).2]; exact hP

/-- Blocks below a requested number are only those whose header was just processed. -/
theorem behind_ops (C : Codec) (env : Env) (A : Hash → Prop) (n : Int) :
    Ops C env (fun m => m.key.headD 0 = BatchType → A (hashOf m.key)) (fun mp => ∀ h pb, mp.pendingBatches.get? h = some pb → n ≤ pb.number ∨ A h) where
  begin mp m _ _ hP h pb hp := hP h pb (begin_pending hp)
  reorg mp m l n _ hP _ _ := hP
  add mp m b hQ _ hP ht _ _ _ := by
    intro h pb hp
    by_cases e : hashOf m.key = h
    · exact .inr (e ▸ hQ ht)
    · simp only [MP.addHeader] at hp
      rw [GMap.get?_insert_ne _ _ e] at hp
      exact hP h pb hp
  upd mp m pb pb' _ _ hP hp hs := by
    intro h x hx
    simp only [GMap.get?_insert] at hx
    split at hx
    · next e =>
      cases hx
      rw [hs.number]
      exact hP h pb (e ▸ hp)
    · exact hP h x hx
  queue mp m _ _ hP _ _ _ _ := hP
  queued mp m q e _ _ hB _ hq he := fun hx => absurd hx (hB.queue _ _ _ hq he).1.2
  drop mp m _ _ _ hP := hP
  finish mp m _ _ hP := by
    intro h x hx
    rcases finish_cases mp (hashOf m.key) with ⟨e, _⟩ | ⟨pb, hp, _, e⟩
    · rw [e] at hx; exact hP h x hx
    · rw [e] at hx
      simp only [GMap.get?_erase] at hx
      split at hx
      · cases hx
      · exact hP h x hx

end Verif
