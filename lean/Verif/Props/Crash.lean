import Verif.Proofs.Crash
import Verif.Props.Consumer
/-!
# C127: which messages end the process of a consumer
-/
namespace Verif
open Spec

theorem reachable_waits {C : Codec} {env : Env} {mp : MP} (h : Reachable C env mp) : Base mp ∧ MPWaits C mp := by
  obtain ⟨cfg, mp0, ms, h1, h2⟩ := h
  exact (waits_parts C env).toParts.run (fun _ _ => trivial) ⟨Base.newMP h1, MPWaits.newMP h1⟩ h2

/-- **C127**, the search: `DecPrefixCounter` panics exactly if it comes to a directory with nothing left to come (and is configured to), and does not return
exactly if the path starts with a slash and nothing is to come for it or below any directory above it. -/
theorem C127_search {frp : Bool} {counts : GMap GoStr Int} {p : GoStr} :
    (decPrefix frp counts p = .error .panic ↔ RunsOut frp counts p) ∧ (decPrefix frp counts p = .error .hang ↔ NeverEnds frp counts p) := by
  constructor
  · rw [decPrefix_fault]
    constructor
    · rintro (⟨-, h⟩ | ⟨h, -⟩)
      · exact h
      · cases h
    · exact fun h => .inl ⟨rfl, h⟩
  · rw [decPrefix_fault]
    constructor
    · rintro (⟨h, -⟩ | ⟨-, h⟩)
      · cases h
      · exact h
    · exact fun h => .inr ⟨rfl, h⟩

/-- **C127**, the loop: that the search does not end is a statement about the rounds of the loop, not about the bound on them in the model. -/
theorem C127_rounds {frp : Bool} {counts : GMap GoStr Int} {p : GoStr} (hu : Unexpected counts p) :
    SearchEnds frp counts p ↔ ¬ NeverEnds frp counts p := by
  rw [searchEnds_iff]
  constructor
  · rintro ⟨fuel, h⟩ ⟨hr, -, hn⟩
    rcases loop_cases frp counts fuel p with ⟨n, _, h2, _⟩ | ⟨n, _, v, _, _, h4, h5, _⟩ | ⟨n, _, _, _, h4, h5, _⟩ | ⟨_, h2⟩
    · exact up_rooted hr n (by rw [h2]; exact dot_relative)
    · exact hn n (.inl ⟨v, h4, h5⟩)
    · exact hn n (.inr ⟨h4, h5⟩)
    · exact h h2
  · intro h
    refine ⟨p.length + 2, fun hh => h ?_⟩
    rw [← decPrefix_loop hu] at hh
    exact C127_search.2.mp hh

/-- **C127**, paths that start with a slash: the directories that count for `/a/b/c` are `a/b/c/`, `a/b/`, `a/` and `/`. -/
theorem C127_rooted {frp : Bool} {counts : GMap GoStr Int} {segs : List GoStr} (h : ∀ s ∈ segs, Tidy s) :
    NeverEnds frp counts (str "/" ++ Path.join segs) ↔ Unexpected counts (str "/" ++ Path.join segs) ∧ ¬ EndsAt frp counts (str "/") ∧
      ∀ n, 0 < n → n ≤ segs.length → ¬ EndsAt frp counts (dirs (segs.take n)) := by
  have hs : ∀ x : GoStr, str "/" ++ x = Path.slash :: x := fun x => by
    rw [show str "/" = [Path.slash] by decide]; rfl
  rw [hs, show str "/" = [Path.slash] by decide]
  have hr : ¬ Relative (Path.slash :: Path.join segs) := by simp [Relative, Path.slash]
  constructor
  · rintro ⟨-, hu, hn⟩
    refine ⟨hu, ?_, fun n h0 hl => ?_⟩
    · have := hn segs.length
      rwa [dirAt_rooted h, if_neg (by omega)] at this
    · have := hn (segs.length - n)
      rwa [dirAt_rooted h, if_pos (by omega), show segs.length - (segs.length - n) = n by omega] at this
  · rintro ⟨hu, h1, h2⟩
    refine ⟨hr, hu, fun n => ?_⟩
    rw [dirAt_rooted h]
    split
    · exact h2 _ (by omega) (by omega)
    · exact h1

theorem crash_begun {C : Codec} {env : Env} {mp : MP} (hb : Base mp) (hw : MPWaits C mp) {m : RMsg} (ht : m.key.head? ≠ some 0) {self : MP → RMsg → MPResult} {f : Fault} :
    MP.step C env self mp m = .error f ↔ Crashes C env mp m f := by
  have hf := begin_fields env mp m
  unfold MP.step
  simp only []
  by_cases hl : m.key.length < 33
  · rw [if_pos hl]
    constructor
    · intro h; cases h; exact .short hl
    · intro h
      cases h with
      | short => rfl
      | part h => omega
      | count => rfl
      | few => rfl
  · rw [if_neg hl]
    have hlen : 33 ≤ m.key.length := by omega
    have hne : m.key ≠ [] := by rintro h; rw [h] at hlen; simp at hlen
    have hty : ∀ {x : UInt8}, HasType m x ↔ m.key.headD 0 = x := by
      intro x
      unfold HasType
      cases hk : m.key with
      | nil => exact absurd hk hne
      | cons t r => simp
    by_cases hr : m.key.headD 0 = ReorgType
    · rw [if_pos hr]
      unfold MP.onReorg
      simp only []
      constructor
      · intro h; split at h <;> cases h
      · intro h
        have no : ∀ {x : UInt8}, HasType m x → x ≠ ReorgType → False := fun h1 h2 => h2 ((hty.mp h1).symm.trans hr)
        cases h with
        | short h => omega
        | part _ _ hk =>
          cases hk with
          | short h => exact (no h (by decide)).elim
          | index h => exact (no h (by decide)).elim
          | update h => exact (no h (by decide)).elim
          | delete h => exact (no h (by decide)).elim
          | updateHangs h => exact (no h (by decide)).elim
          | deleteHangs h => exact (no h (by decide)).elim
        | count _ h => exact (no h (by decide)).elim
        | few _ h => exact (no h (by decide)).elim
    · rw [if_neg hr]
      have hb0 : ¬ m.key.headD 0 = BatchType := fun h => ht (hty.mpr h)
      -- the block, before and after the requests
      have hasm : ∀ pb, Assembling env mp (hashOf m.key) pb ↔
          ((mp.begin env m).completed.contains (hashOf m.key) = false ∧ (mp.begin env m).oldBlocks.contains (hashOf m.key) = false ∧
            (mp.begin env m).pendingBatches.get? (hashOf m.key) = some pb) := by
        intro pb
        rcases begin_get env mp m (hashOf m.key) with ⟨h1, h2⟩ | ⟨pb', h1, ⟨n, hn, h2⟩, h3, h4⟩
        · rw [hf.1, h1, h2]
          constructor
          · rintro ⟨a, b, c, -⟩; exact ⟨a, b, c⟩
          · rintro ⟨a, b, c⟩
            refine ⟨a, b, c, fun n hn => Int.not_lt.mp (fun hlt => ?_)⟩
            have := drainEvict_evicts c hn hlt
            rw [← hf.2.2.2.2.2.2.2.1, h2, b] at this
            cases this
        · rw [h3]
          constructor
          · rintro ⟨-, -, c, d⟩
            rw [h1] at c; cases c
            have := d n hn
            omega
          · rintro ⟨-, -, c⟩; cases c
      have hbb : Base (mp.begin env m) := hb.begin env m
      have hwb : MPWaits C (mp.begin env m) := (waits_parts C env).begin mp m trivial hb hw
      generalize mp.begin env m = mp1 at *
      by_cases hc : mp1.completed.contains (hashOf m.key) = true
      · rw [if_pos hc]
        constructor
        · intro h; cases h
        · intro h
          have no : ∀ {pb}, Assembling env mp (hashOf m.key) pb → False := fun h => by
            have := ((hasm _).mp h).1; rw [hc] at this; cases this
          cases h with
          | short h => omega
          | part _ h => exact (no h).elim
          | count _ _ h => exact (no h).elim
          | few _ _ h => exact (no h).elim
      · rw [if_neg hc]
        by_cases ho : mp1.oldBlocks.contains (hashOf m.key) = true
        · rw [if_pos ho]
          constructor
          · intro h; cases h
          · intro h
            have no : ∀ {pb}, Assembling env mp (hashOf m.key) pb → False := fun h => by
              have := ((hasm _).mp h).2.1; rw [ho] at this; cases this
            cases h with
            | short h => omega
            | part _ h => exact (no h).elim
            | count _ _ h => exact (no h).elim
            | few _ _ h => exact (no h).elim
        · rw [if_neg ho, if_neg hb0]
          have hget : ∀ {pb}, Assembling env mp (hashOf m.key) pb ↔ mp1.pendingBatches.get? (hashOf m.key) = some pb := by
            intro pb
            rw [hasm]
            exact ⟨fun h => h.2.2, fun h => ⟨Bool.eq_false_iff.mpr hc, Bool.eq_false_iff.mpr ho, h⟩⟩
          by_cases hs : m.key.headD 0 = SubBatchHeaderType
          · rw [if_pos hs]
            have no : ∀ {x : UInt8}, HasType m x → x ≠ SubBatchHeaderType → False := fun h1 h2 => h2 ((hty.mp h1).symm.trans hs)
            have nok : ∀ {pb f}, Kills C pb m f → False := by
              intro pb f hk
              cases hk with
              | short h => exact no h (by decide)
              | index h => exact no h (by decide)
              | update h => exact no h (by decide)
              | delete h => exact no h (by decide)
              | updateHangs h => exact no h (by decide)
              | deleteHangs h => exact no h (by decide)
            unfold MP.onSubHeader
            constructor
            · intro h
              split at h
              · cases h
              · rename_i pb hp
                simp only [] at h
                split at h
                · cases h
                · rename_i hpend
                  split at h
                  · cases h
                  · rename_i c hcv
                    split at h
                    · rename_i f' he
                      cases h
                      have hp1 : pb.pendingBatches.get? (bytesToHash (m.key.drop 33)) = some () := by
                        unfold GMap.contains at hpend
                        cases hq : pb.pendingBatches.get? (bytesToHash (m.key.drop 33)) with
                        | none => rw [hq] at hpend; simp at hpend
                        | some u => rfl
                      obtain ⟨rfl, h | ⟨k, w, h1, h2, h3, i, h4, h5⟩⟩ := ((addSub_fault (hwb _ _ hp)).1 _).mp he
                      · exact .count hlen (hty.mpr hs) (hget.mpr hp) hp1 hcv h
                      · exact .few hlen (hty.mpr hs) (hget.mpr hp) hp1 hcv h1 h2 h3 h4 h5
                    · cases h
            · intro h
              have fin : ∀ {pb : PB} {c : Int}, Assembling env mp (hashOf m.key) pb → pb.pendingBatches.get? (bytesToHash (m.key.drop 33)) = some () → C.decInt m.value = some c →
                  (c < 0 ∨ ∃ k w, pb.pendingMessages.get? k = some w ∧ TooMany C (bytesToHash (m.key.drop 33)) c w) →
                  (match mp1.pendingBatches.get? (hashOf m.key) with
                    | none => .ok (mp1.queueMessage (hashOf m.key) m, none)
                    | some pb =>
                      let batchid := bytesToHash (m.key.drop 33)
                      if !pb.pendingBatches.contains batchid then .ok (mp1, none)
                      else
                        match C.decInt m.value with
                        | none =>
                          .ok ({ mp1 with pendingBatches :=
                            mp1.pendingBatches.insert (hashOf m.key) { pb with pendingBatches := pb.pendingBatches.erase batchid } }, some .decode)
                        | some counter =>
                          match pb.addSubHeader C env mp1.tick m batchid counter with
                          | .error f => .error f
                          | .ok pb => .ok (MP.finish { mp1 with pendingBatches := mp1.pendingBatches.insert (hashOf m.key) pb } (hashOf m.key), none) : MPResult) = .error .panic := by
                intro pb c ha hp hcv hx
                have hp' := hget.mp ha
                rw [hp']
                simp only []
                rw [if_neg (by unfold GMap.contains; rw [hp]; simp), hcv]
                simp only []
                rw [((addSub_fault (hwb _ _ hp')).1 .panic).mpr ⟨rfl, hx⟩]
              cases h with
              | short h => omega
              | part _ _ h => exact (nok h).elim
              | count _ _ ha hp hcv hx => exact fin ha hp hcv (.inl hx)
              | few _ _ ha hp hcv h1 h2 h3 h4 h5 => exact fin ha hp hcv (.inr ⟨_, _, h1, h2, h3, _, h4, h5⟩)
          · rw [if_neg hs]
            unfold MP.onOther
            constructor
            · intro h
              split at h
              · cases h
              · rename_i pb hp
                split at h
                · rename_i f' he
                  cases h
                  exact .part hlen (hget.mpr hp) ((apply_fault hne).mp he)
                · cases h
            · intro h
              cases h with
              | short h => omega
              | part _ ha hk =>
                rw [hget.mp ha]
                simp only []
                rw [(apply_fault hne).mpr hk]
              | count _ h => exact absurd (hty.mp h) hs
              | few _ h => exact absurd (hty.mp h) hs

/-- **C127**: in every state that can be reached, a message other than the header of a block panics or hangs exactly in the ways of `Crashes`. -/
theorem C127_message {C : Codec} {env : Env} {mp : MP} (hr : Reachable C env mp) {m : RMsg} (ht : ¬ HasType m 0) {f : Fault} :
    mp.processMessage C env m = .error f ↔ Crashes C env mp m f :=
  crash_begun (reachable_waits hr).1 (reachable_waits hr).2 ht

/-- The nested call is not used for other messages. -/
theorem step_self {C : Codec} {env : Env} {self self' : MP → RMsg → MPResult} {mp : MP} {m : RMsg} (h : m.key.headD 0 ≠ BatchType) :
    MP.step C env self mp m = MP.step C env self' mp m := by
  unfold MP.step
  simp only [if_neg h]

theorem replay_fault {C : Codec} {env : Env} {self : MP → RMsg → MPResult} {ms : List RMsg} (hq : ∀ m ∈ ms, QueueType m ∧ ∀ mp, self mp m = mp.processMessage C env m)
    {mp : MP} (hb : Base mp) (hw : MPWaits C mp) {f : Fault} :
    replay self mp ms = .error f ↔ ∃ a x r mp1, ms = a ++ x :: r ∧ Goes C env mp a mp1 ∧ Crashes C env mp1 x f := by
  induction ms generalizing mp with
  | nil => simp [replay]
  | cons m ms ih =>
    have hm := hq m (by simp)
    have h0 : m.key.head? ≠ some 0 := by
      intro h
      refine hm.1.2 ?_
      cases hk : m.key with
      | nil => rw [hk] at h; cases h
      | cons t r => rw [hk] at h; simpa [BatchType] using h
    have hcr := crash_begun (C := C) (env := env) (f := f) hb hw h0 (self := MP.step C env (fun _ _ => .error .hang))
    have hpost := (waits_parts C env).toParts.process (mp := mp) (m := m) trivial ⟨hb, hw⟩
    unfold replay
    rw [hm.2 mp]
    cases hp : mp.processMessage C env m with
    | error f' =>
      simp only []
      constructor
      · intro h; cases h
        exact ⟨[], m, ms, mp, rfl, .nil, hcr.mp hp⟩
      · rintro ⟨a, x, r, mp1, h1, h2, h3⟩
        cases a with
        | nil =>
          simp only [List.nil_append, List.cons.injEq] at h1
          obtain ⟨rfl, rfl⟩ := h1
          cases h2
          have := hcr.mpr h3
          unfold MP.processMessage at hp
          rw [hp] at this
          exact this
        | cons y a =>
          simp only [List.cons_append, List.cons.injEq] at h1
          obtain ⟨rfl, rfl⟩ := h1
          cases h2 with
          | cons hy _ => rw [hp] at hy; cases hy
    | ok r =>
      obtain ⟨mp', e⟩ := r
      rw [hp] at hpost
      have hnot : ¬ Crashes C env mp m f := by
        intro h
        have := hcr.mpr h
        unfold MP.processMessage at hp
        rw [hp] at this
        cases this
      cases e with
      | some e =>
        simp only []
        constructor
        · intro h; cases h
        · rintro ⟨a, x, r, mp1, h1, h2, h3⟩
          cases a with
          | nil =>
            simp only [List.nil_append, List.cons.injEq] at h1
            obtain ⟨rfl, rfl⟩ := h1
            cases h2
            exact absurd h3 hnot
          | cons y a =>
            simp only [List.cons_append, List.cons.injEq] at h1
            obtain ⟨rfl, rfl⟩ := h1
            cases h2 with
            | cons hy _ => rw [hp] at hy; cases hy
      | none =>
        simp only []
        rw [ih (fun m hm => hq m (by simp [hm])) hpost.1 hpost.2]
        constructor
        · rintro ⟨a, x, r, mp1, rfl, h2, h3⟩
          exact ⟨m :: a, x, r, mp1, rfl, .cons hp h2, h3⟩
        · rintro ⟨a, x, r, mp1, h1, h2, h3⟩
          cases a with
          | nil =>
            simp only [List.nil_append, List.cons.injEq] at h1
            obtain ⟨rfl, rfl⟩ := h1
            cases h2
            exact absurd h3 hnot
          | cons y a =>
            simp only [List.cons_append, List.cons.injEq] at h1
            obtain ⟨rfl, rfl⟩ := h1
            cases h2 with
            | cons hy h2 =>
              rw [hp] at hy; cases hy
              exact ⟨a, x, r, mp1, rfl, h2, h3⟩

/-- **C127**, headers: the header of a block ends the process exactly if its key is too short, or it is the first one of a block that is not known and one of the messages
that wait for it crashes when they are processed in the order in which Go goes through them, none before it having returned an error. -/
theorem C127_header {C : Codec} {env : Env} {mp : MP} (hr : Reachable C env mp) {m : RMsg} (ht : HasType m 0) {f : Fault} :
    mp.processMessage C env m = .error f ↔ (m.key.length < 33 ∧ f = .panic) ∨
      (33 ≤ m.key.length ∧ mp.completed.contains (hashOf m.key) = false ∧ mp.oldBlocks.contains (hashOf m.key) = false ∧ mp.pendingBatches.get? (hashOf m.key) = none ∧
        ∃ b q a x r mp1, C.decBatch m.value = some b ∧ mp.pendingMessages.get? (hashOf m.key) = some q ∧
          env.order.ord (2 * (mp.tick + 1) + 1) q.entries = a ++ x :: r ∧
          Goes C env ((mp.begin env m).addHeader env m (hashOf m.key) b) (a.map Prod.snd) mp1 ∧ Crashes C env mp1 x.2 f) := by
  obtain ⟨hb, hw⟩ := reachable_waits hr
  have hf := begin_fields env mp m
  have hty : m.key.headD 0 = BatchType := by
    unfold HasType at ht
    cases hk : m.key with
    | nil => rfl
    | cons t r => rw [hk] at ht; simpa [BatchType] using ht
  unfold MP.processMessage
  have hself : ∀ mp m, QueueType m → MP.step C env (fun _ _ => .error .hang) mp m = mp.processMessage C env m := fun mp m h => step_self h.2
  generalize MP.step C env (fun _ _ => .error .hang) = self at hself
  unfold MP.step
  simp only []
  by_cases hl : m.key.length < 33
  · rw [if_pos hl]
    constructor
    · intro h; cases h; exact .inl ⟨hl, rfl⟩
    · rintro (⟨-, rfl⟩ | ⟨h, -⟩)
      · rfl
      · omega
  · rw [if_neg hl, hty, if_neg (by decide)]
    have hg := begin_get env mp m (hashOf m.key)
    have htick : (mp.begin env m).tick = mp.tick + 1 := by
      unfold MP.begin
      simp only []
      obtain ⟨r, hr⟩ := MP.updateResumption_eq (mp.drainEvict (env.evict mp.tick)) m.source m.offset
      rw [hr]
      simp only []
      rw [(drainEvict_fields mp (env.evict mp.tick)).2.2.2.1]
    have hbb : Base (mp.begin env m) := hb.begin env m
    have hwb : MPWaits C (mp.begin env m) := (waits_parts C env).begin mp m trivial hb hw
    have hadd : ∀ b, (mp.begin env m).completed.contains (hashOf m.key) = false → (mp.begin env m).oldBlocks.contains (hashOf m.key) = false → C.decBatch m.value = some b →
        (mp.begin env m).pendingBatches.get? (hashOf m.key) = none → Base ((mp.begin env m).addHeader env m (hashOf m.key) b) ∧ MPWaits C ((mp.begin env m).addHeader env m (hashOf m.key) b) :=
      fun b h1 h2 h3 h4 => (waits_parts C env).toParts.add _ m b trivial ⟨hbb, hwb⟩ hty h1 h2 h3 h4
    have hcompl : (mp.begin env m).completed.contains (hashOf m.key) = mp.completed.contains (hashOf m.key) := by rw [hf.1]
    have hpm : (mp.begin env m).pendingMessages = mp.pendingMessages := hf.2.1
    generalize mp.begin env m = mp1 at *
    by_cases hc : mp1.completed.contains (hashOf m.key) = true
    · rw [if_pos hc]
      constructor
      · intro h; cases h
      · rintro (⟨h, -⟩ | ⟨-, h, -⟩)
        · exact absurd h hl
        · rw [← hcompl, hc] at h; cases h
    · rw [if_neg hc]
      by_cases ho : mp1.oldBlocks.contains (hashOf m.key) = true
      · rw [if_pos ho]
        constructor
        · intro h; cases h
        · rintro (⟨h, -⟩ | ⟨-, -, h1, h2, -⟩)
          · exact absurd h hl
          · rcases hg with ⟨-, hg⟩ | ⟨pb, hg, -⟩
            · rw [hg, h1] at ho; cases ho
            · rw [h2] at hg; cases hg
      · rw [if_neg ho]
        rcases hg with ⟨hg1, hg2⟩ | ⟨_, _, _, _, hg⟩
        · rw [if_pos rfl]
          unfold MP.onHeader
          cases hd : C.decBatch m.value with
          | none =>
            simp only []
            constructor
            · intro h; cases h
            · rintro (⟨h, -⟩ | ⟨-, -, -, -, b, q, a, x, r, mp2, h, -⟩)
              · exact absurd h hl
              · cases h
          | some b =>
            simp only []
            cases hp : mp1.pendingBatches.get? (hashOf m.key) with
            | some pb =>
              rw [if_pos (by unfold GMap.contains; rw [hp]; rfl)]
              constructor
              · intro h; cases h
              · rintro (⟨h, -⟩ | ⟨-, -, -, h, -⟩)
                · exact absurd h hl
                · rw [← hg1, hp] at h; cases h
            | none =>
              rw [if_neg (by unfold GMap.contains; rw [hp]; simp)]
              obtain ⟨hab, haw⟩ := hadd b (Bool.eq_false_iff.mpr hc) (Bool.eq_false_iff.mpr ho) hd hp
              have hq' : (mp1.addHeader env m (hashOf m.key) b).pendingMessages.get? (hashOf m.key) = mp.pendingMessages.get? (hashOf m.key) := by
                rw [← hpm]; rfl
              have ht' : (mp1.addHeader env m (hashOf m.key) b).tick = mp.tick + 1 := by rw [← htick]; rfl
              rw [hq', ht']
              cases hq : mp.pendingMessages.get? (hashOf m.key) with
              | none =>
                simp only []
                constructor
                · intro h; cases h
                · rintro (⟨h, -⟩ | ⟨-, -, -, -, b, q, a, x, r, mp2, -, h, -⟩)
                  · exact absurd h hl
                  · cases h
              | some q =>
                simp only []
                have hqt : ∀ y ∈ (env.order.ord (2 * (mp.tick + 1) + 1) q.entries).map Prod.snd, QueueType y ∧ ∀ mp, self mp y = mp.processMessage C env y := by
                  intro y hy
                  obtain ⟨e, he, rfl⟩ := List.mem_map.mp hy
                  have := (hb.queue _ _ _ hq ((env.order.perm _ _).mem_iff.mp he)).1
                  exact ⟨this, fun mp => hself mp _ this⟩
                have hrep := replay_fault (C := C) (env := env) (f := f) hqt hab haw
                have hiff : (∃ a x r mp1', (env.order.ord (2 * (mp.tick + 1) + 1) q.entries).map Prod.snd = a ++ x :: r ∧
                    Goes C env (mp1.addHeader env m (hashOf m.key) b) a mp1' ∧ Crashes C env mp1' x f) ↔
                    ∃ a x r mp1', env.order.ord (2 * (mp.tick + 1) + 1) q.entries = a ++ x :: r ∧
                    Goes C env (mp1.addHeader env m (hashOf m.key) b) (a.map Prod.snd) mp1' ∧ Crashes C env mp1' x.2 f := by
                  constructor
                  · rintro ⟨a, x, r, mp2, h1, h2, h3⟩
                    obtain ⟨a', r', e1, rfl, e2⟩ := List.map_eq_append_iff.mp h1
                    obtain ⟨x', r'', rfl, rfl, rfl⟩ := List.map_eq_cons_iff.mp e2
                    exact ⟨a', x', r'', mp2, e1, h2, h3⟩
                  · rintro ⟨a, x, r, mp2, h1, h2, h3⟩
                    exact ⟨a.map Prod.snd, x.2, r.map Prod.snd, mp2, by rw [h1]; simp, h2, h3⟩
                rw [hiff] at hrep
                constructor
                · intro h
                  split at h
                  · rename_i f' he
                    cases h
                    obtain ⟨a, x, r, mp2, h1, h2, h3⟩ := hrep.mp he
                    exact .inr ⟨by omega, by rw [← hcompl]; exact Bool.eq_false_iff.mpr hc, by rw [← hg2]; exact Bool.eq_false_iff.mpr ho, by rw [← hg1]; exact hp,
                      b, q, a, x, r, mp2, rfl, rfl, h1, h2, h3⟩
                  · cases h
                  · cases h
                · rintro (⟨h, -⟩ | ⟨-, -, -, -, b', q', a, x, r, mp2, e1, e2, h1, h2, h3⟩)
                  · exact absurd h hl
                  · cases e1; cases e2
                    rw [hrep.mpr ⟨a, x, r, mp2, h1, h2, h3⟩]
        · rw [hg] at ho; exact absurd rfl ho

/-! ## Examples -/

/-- A search that runs out and one that does not end: the counters at `a/` and at `/` are at zero. -/
example : RunsOut true (GMap.ofList [(str "a/", 0)]) (str "a/b/c") ∧ NeverEnds false (GMap.ofList [(str "a/", 0), (str "/", 0)]) (str "/a/b") ∧
    ¬ NeverEnds false (GMap.ofList [(str "a/", 0), (str "/", 1)]) (str "/a/b") := by
  refine ⟨C127_search.1.mp (ex_err (by decide +kernel)), C127_search.2.mp (ex_err (by decide +kernel)), fun h => ?_⟩
  obtain ⟨r, h1, -⟩ := ex_ok (r := decPrefix false (GMap.ofList [(str "a/", 0), (str "/", 1)]) (str "/a/b")) (fun r => r.2) (by decide +kernel)
  rw [C127_search.2.mpr h] at h1
  cases h1

/-- The hypotheses of `C127_rounds` and `C127_rooted`. -/
example : Unexpected (GMap.ofList [(str "a/", (3 : Int))]) (str "a/b") ∧ ∀ s ∈ [str "a", str "b"], Tidy s := by
  refine ⟨fun v h => ?_, by decide +kernel⟩
  rw [show (GMap.ofList [(str "a/", (3 : Int))]).get? (str "a/b") = none by decide +kernel] at h
  cases h

/-- The hypotheses of `C127_message`, with messages that crash: the header of a sub-batch with one message after the message of index 1, and a deletion of `/x`. -/
example : ∃ mp m m', Reachable Avro.codec exEnv mp ∧ ¬ HasType m 0 ∧ Crashes Avro.codec exEnv mp m .panic ∧ ¬ HasType m' 0 ∧ Crashes Avro.codec exEnv mp m' .hang := by
  obtain ⟨mp, h1, h2⟩ := ex_ok (r := MP.run Avro.codec exEnv exMP (exStream.take 1 ++ [⟨keyOf Avro.codec (.subMsg (exHash 1) (exHash 9) 1), [], 5, []⟩]))
    (fun mp => (match mp.processMessage Avro.codec exEnv ⟨keyOf Avro.codec (.subHeader (exHash 1) (exHash 9)), Avro.codec.encInt 1, 6, []⟩ with
      | .error .panic => true
      | _ => false) && (match mp.processMessage Avro.codec exEnv ⟨keyOf Avro.codec (.delete (exHash 1) (str "/x")), [], 6, []⟩ with
      | .error .hang => true
      | _ => false)) (by decide +kernel)
  simp only [Bool.and_eq_true] at h2
  have hr : Reachable Avro.codec exEnv mp := ⟨exCfg, exMP, _, exMP_new, h1⟩
  have t1 : ¬ HasType (⟨keyOf Avro.codec (.subHeader (exHash 1) (exHash 9)), Avro.codec.encInt 1, 6, []⟩ : RMsg) 0 := by unfold HasType; decide +kernel
  have t2 : ¬ HasType (⟨keyOf Avro.codec (.delete (exHash 1) (str "/x")), [], 6, []⟩ : RMsg) 0 := by unfold HasType; decide +kernel
  refine ⟨mp, _, _, hr, t1, (C127_message hr t1).mp ?_, t2, (C127_message hr t2).mp ?_⟩
  · revert h2
    cases mp.processMessage Avro.codec exEnv ⟨keyOf Avro.codec (.subHeader (exHash 1) (exHash 9)), Avro.codec.encInt 1, 6, []⟩ with
    | ok r => intro h; exact absurd h.1 (by simp)
    | error f => cases f <;> simp
  · revert h2
    cases mp.processMessage Avro.codec exEnv ⟨keyOf Avro.codec (.delete (exHash 1) (str "/x")), [], 6, []⟩ with
    | ok r => intro h; exact absurd h.2 (by simp)
    | error f => cases f <;> simp

/-- The hypotheses of `C127_header`, with a header that does not return because of a message that came before it. -/
example : ∃ mp m, Reachable Avro.codec exEnv mp ∧ HasType m 0 ∧ mp.processMessage Avro.codec exEnv m = .error .hang := by
  obtain ⟨mp, h1, h2⟩ := ex_ok (r := MP.run Avro.codec exEnv exMP [⟨keyOf Avro.codec (.update (exHash 1) (str "/x")), [1], 5, []⟩])
    (fun mp => match mp.processMessage Avro.codec exEnv (exStream.headD ⟨[], [], 0, []⟩) with
      | .error .hang => true
      | _ => false) (by decide +kernel)
  refine ⟨mp, exStream.headD ⟨[], [], 0, []⟩, ⟨exCfg, exMP, _, exMP_new, h1⟩, ?_, ?_⟩
  · unfold HasType; decide +kernel
  · revert h2
    cases mp.processMessage Avro.codec exEnv (exStream.headD ⟨[], [], 0, []⟩) with
    | ok r => intro h; exact absurd h (by simp)
    | error f => cases f <;> simp

end Verif
