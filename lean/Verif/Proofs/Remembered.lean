import Verif.Proofs.ConsumerBase
/-! Emitted blocks are remembered, dropped blocks stay dropped, blocks do not influence each other. -/
namespace Verif

theorem emitted_append_batch {mp mp' : MP} {pb : PB} (h : mp'.log = mp.log ++ [MPOut.batch pb]) :
    mp'.emitted = mp.emitted ++ [pb] := by
  unfold MP.emitted; rw [h, List.filterMap_append]; rfl

theorem emitted_of_log {mp mp' : MP} (h : mp'.log = mp.log) : mp'.emitted = mp.emitted := by
  unfold MP.emitted; rw [h]

/-- `es` was emitted since `E0`; everything in it is remembered until `cap` more were emitted; repetitions are far apart. -/
structure Repeat (E0 : List PB) (n : Nat) (mp : MP) : Prop where
  cap : mp.completed.cap = n
  pos : 0 < n
  ex : ∃ es, mp.emitted = E0 ++ es ∧
    (∀ e1 pb rest, es = e1 ++ pb :: rest → rest.length < n → mp.completed.Within pb.hash rest.length) ∧
    (∀ e1 pb1 mid pb2 e3, es = e1 ++ pb1 :: (mid ++ pb2 :: e3) → pb1.hash = pb2.hash → n ≤ mid.length)

theorem Repeat.same {E0 : List PB} {n : Nat} {mp mp' : MP} (h : Repeat E0 n mp) (h1 : mp'.completed = mp.completed)
    (h2 : mp'.emitted = mp.emitted) : Repeat E0 n mp' := by
  obtain ⟨a, b, c⟩ := h
  exact ⟨by rw [h1]; exact a, b, by rw [h1, h2]; exact c⟩

theorem append_last_split {α : Type} {es e1 rest : List α} {x y : α} (h : es ++ [x] = e1 ++ y :: rest) :
    (rest = [] ∧ y = x ∧ es = e1) ∨ ∃ r, rest = r ++ [x] ∧ es = e1 ++ y :: r := by
  rcases List.eq_nil_or_concat rest with rfl | ⟨r, z, rfl⟩
  · left
    have := List.append_inj' h (by simp)
    exact ⟨rfl, by simpa using this.2.symm, this.1⟩
  · right
    rw [List.concat_eq_append] at h ⊢
    have e : es ++ [x] = (e1 ++ y :: r) ++ [z] := by rw [h]; simp
    have := List.append_inj' e (by simp)
    refine ⟨r, ?_, this.1⟩
    have hz : x = z := by simpa using this.2
    rw [hz]

theorem Repeat.emit {E0 : List PB} {n : Nat} {mp mp' : MP} {pb : PB} (h : Repeat E0 n mp)
    (hc : mp.completed.contains pb.hash = false) (h1 : mp'.completed = (mp.completed.add pb.hash).1)
    (h2 : mp'.emitted = mp.emitted ++ [pb]) : Repeat E0 n mp' := by
  obtain ⟨hcap, hpos, es, he, hw, hr⟩ := h
  refine ⟨by rw [h1, LRU.add_cap]; exact hcap, hpos, es ++ [pb], by rw [h2, he]; simp, ?_, ?_⟩
  · intro e1 p rest hsplit hlen
    rw [h1]
    rcases append_last_split hsplit with ⟨rfl, rfl, rfl⟩ | ⟨r, rfl, hes⟩
    · exact LRU.within_add_self _ _ (by omega) _
    · simp only [List.length_append, List.length_cons, List.length_nil] at hlen ⊢
      exact (hw e1 p r hes (by omega)).add _ (by omega)
  · intro e1 pb1 mid pb2 e3 hsplit hh
    have hsplit' : es ++ [pb] = (e1 ++ pb1 :: mid) ++ pb2 :: e3 := by rw [hsplit]; simp
    rcases append_last_split hsplit' with ⟨rfl, rfl, hes⟩ | ⟨r, rfl, hes⟩
    · refine Classical.byContradiction fun hlt => ?_
      have := (hw e1 pb1 mid hes (by omega)).mem
      rw [hh] at this
      rw [← Bool.not_eq_true, LRU.contains_iff] at hc
      exact hc this
    · exact hr e1 pb1 mid pb2 r (by rw [hes]; simp) hh

theorem repeat_finish {E0 : List PB} {n : Nat} {mp : MP} (hB : Base mp) (h : Repeat E0 n mp) (hash : Hash) :
    Repeat E0 n (mp.finish hash) := by
  rcases finish_cases mp hash with ⟨he, _⟩ | ⟨pb, hp, hr, he⟩
  · rw [he]; exact h
  · rw [he]
    have hph := hB.hashes _ _ hp
    refine h.emit (pb := pb) ?_ (by rw [hph]) (emitted_append_batch rfl)
    rw [← Bool.not_eq_true]
    intro hc
    rw [hph] at hc
    rw [hB.compl _ hc] at hp; simp at hp

theorem repeat_parts (C : Codec) (env : Env) (E0 : List PB) (n : Nat) :
    XParts C env true (fun m => m.key.headD 0 ≠ ReorgType) (Repeat E0 n) where
  begin mp m _ _ h := h.same (begin_fields env mp m).1 (emitted_of_log (begin_fields env mp m).2.2.1)
  short := .inl rfl
  reorg mp m hq _ h ht := absurd ht hq
  add mp m b _ hB h _ _ _ _ _ := by
    refine h.same rfl ?_
    simp [MP.emitted, MP.addHeader]
  sub mp m _ hB h hqt _ _ _ := by
    unfold MP.onSubHeader
    split
    · exact h.same rfl rfl
    · rename_i pb hp
      simp only []
      split
      · exact h
      · split
        · exact h.same rfl rfl
        · split
          · rfl
          · rename_i pb' hpb
            exact repeat_finish (hB.update hp (sameHead_addSub hpb).hash) (h.same rfl rfl) _
  other mp m _ hB h hqt _ _ _ := by
    unfold MP.onOther
    split
    · exact h.same rfl rfl
    · rename_i pb hp
      split
      · rfl
      · rename_i pb' _ hpb
        exact repeat_finish (hB.update hp (sameHead_apply hpb).hash) (h.same rfl rfl) _
  queued mp m q e _ _ hB _ hq he := (hB.queue _ _ _ hq he).1.1
  drop mp m _ _ _ h := h.same rfl rfl
  finish mp m _ _ hB h := repeat_finish hB h _

/-- Dropped blocks stay dropped: `h` is marked old and nothing of it was emitted since. -/
structure Dropped (h : Hash) (E0 : List PB) (mp : MP) : Prop where
  old : mp.oldBlocks.contains h = true
  ex : ∃ es, mp.emitted = E0 ++ es ∧ ∀ pb ∈ es, pb.hash ≠ h

theorem Dropped.same {h : Hash} {E0 : List PB} {mp mp' : MP} (hd : Dropped h E0 mp)
    (h1 : mp'.oldBlocks = mp.oldBlocks) (h2 : mp'.emitted = mp.emitted) : Dropped h E0 mp' :=
  ⟨by rw [h1]; exact hd.old, by rw [h2]; exact hd.ex⟩

theorem dropped_finish {h : Hash} {E0 : List PB} {mp : MP} (hB : Base mp) (hd : Dropped h E0 mp) (hash : Hash) :
    Dropped h E0 (mp.finish hash) := by
  rcases finish_cases mp hash with ⟨he, _⟩ | ⟨pb, hp, hr, he⟩
  · rw [he]; exact hd
  · rw [he]
    obtain ⟨es, he1, he2⟩ := hd.ex
    refine ⟨hd.old, es ++ [pb], ?_, ?_⟩
    · rw [emitted_append_batch (mp := mp) (pb := pb) rfl, he1]; simp
    · intro q hq
      rcases List.mem_append.mp hq with hq | hq
      · exact he2 q hq
      · simp only [List.mem_singleton] at hq; subst hq
        rw [hB.hashes _ _ hp]
        rintro rfl
        rw [hB.old _ hd.old] at hp; simp at hp

theorem dropped_parts (C : Codec) (env : Env) (h : Hash) (E0 : List PB) :
    XParts C env true (fun m => m.key.headD 0 ≠ ReorgType) (Dropped h E0) where
  begin mp m _ hB hd := by
    refine ⟨?_, by rw [emitted_of_log (begin_fields env mp m).2.2.1]; exact hd.ex⟩
    rcases begin_get env mp m h with ⟨_, h2⟩ | ⟨_, _, _, _, h2⟩
    · rw [h2]; exact hd.old
    · exact h2
  short := .inl rfl
  reorg mp m hq _ h ht := absurd ht hq
  add mp m b _ hB h _ _ _ _ _ := by
    refine h.same rfl ?_
    simp [MP.emitted, MP.addHeader]
  sub mp m _ hB h hqt _ _ _ := by
    unfold MP.onSubHeader
    split
    · exact h.same rfl rfl
    · rename_i pb hp
      simp only []
      split
      · exact h
      · split
        · exact h.same rfl rfl
        · split
          · rfl
          · rename_i pb' hpb
            exact dropped_finish (hB.update hp (sameHead_addSub hpb).hash) (h.same rfl rfl) _
  other mp m _ hB h hqt _ _ _ := by
    unfold MP.onOther
    split
    · exact h.same rfl rfl
    · rename_i pb hp
      split
      · rfl
      · rename_i pb' _ hpb
        exact dropped_finish (hB.update hp (sameHead_apply hpb).hash) (h.same rfl rfl) _
  queued mp m q e _ _ hB _ hq he := (hB.queue _ _ _ hq he).1.1
  drop mp m _ _ _ h := h.same rfl rfl
  finish mp m _ _ hB h := dropped_finish hB h _

/-- Everything the processor keeps about block `h`, apart from the cache of completed blocks. -/
structure View (h : Hash) (pb : Option PB) (q : Option (GMap Bytes RMsg)) (mp : MP) : Prop where
  pending : mp.pendingBatches.get? h = pb
  queue : mp.pendingMessages.get? h = q

theorem view_finish {h : Hash} {pb : Option PB} {q : Option (GMap Bytes RMsg)} {mp : MP} (hv : View h pb q mp) {hash : Hash}
    (hne : hash ≠ h) : View h pb q (mp.finish hash) := by
  rcases finish_cases mp hash with ⟨he, _⟩ | ⟨pb, hp, hr, he⟩
  · rw [he]; exact hv
  · rw [he]; exact ⟨by simp only [GMap.get?_erase_ne _ hne]; exact hv.pending, hv.queue⟩

theorem view_update {h : Hash} {pb : Option PB} {q : Option (GMap Bytes RMsg)} {mp : MP} (hv : View h pb q mp) {hash : Hash}
    (hne : hash ≠ h) (pb' : PB) : View h pb q { mp with pendingBatches := mp.pendingBatches.insert hash pb' } :=
  ⟨by simp only [GMap.get?_insert_ne _ _ hne]; exact hv.pending, hv.queue⟩

/-- Messages of other blocks leave the view of `h` alone; eviction requests may only drop it. -/
theorem view_parts (C : Codec) (env : Env) (h : Hash) (pb : Option PB) (q : Option (GMap Bytes RMsg))
    (hev : ∀ t, ∀ n ∈ env.evict t, ∀ b, pb = some b → n ≤ b.number) :
    XParts C env true (fun m => m.key.headD 0 ≠ ReorgType → hashOf m.key ≠ h) (fun mp => View h pb q mp) where
  begin mp m _ hB hv := by
    refine ⟨?_, by rw [(begin_fields env mp m).2.1]; exact hv.queue⟩
    rcases begin_get env mp m h with ⟨h1, _⟩ | ⟨b, h1, ⟨n, hn, hlt⟩, _⟩
    · rw [h1]; exact hv.pending
    · have := hev _ n hn b (by rw [← hv.pending]; exact h1)
      omega
  short := .inl rfl
  reorg mp m hq _ hv ht := by
    unfold MP.onReorg
    simp only []
    split
    · exact ⟨hv.pending, hv.queue⟩
    · exact ⟨hv.pending, hv.queue⟩
  add mp m b hne hB hv ht _ _ _ _ := by
    have hne := hne (by rw [ht]; decide)
    exact ⟨by simp only [MP.addHeader, GMap.get?_insert_ne _ _ hne]; exact hv.pending, hv.queue⟩
  sub mp m hne hB hb hqt _ _ _ := by
    have hne := hne hqt.1
    unfold MP.onSubHeader
    split
    · exact ⟨hb.pending, by unfold MP.queueMessage; rw [GMap.get?_insert_ne _ _ hne]; exact hb.queue⟩
    · rename_i pb hp
      simp only []
      split
      · exact hb
      · split
        · exact ⟨by rw [GMap.get?_insert_ne _ _ hne]; exact hb.pending, hb.queue⟩
        · split
          · rfl
          · exact view_finish (view_update hb hne _) hne
  other mp m hne hB hb hqt _ _ _ := by
    have hne := hne hqt.1
    unfold MP.onOther
    split
    · exact ⟨hb.pending, by unfold MP.queueMessage; rw [GMap.get?_insert_ne _ _ hne]; exact hb.queue⟩
    · split
      · rfl
      · exact view_finish (view_update hb hne _) hne
  queued mp m q' e hne ht hB hv hq he := by
    intro _
    rw [(hB.queue _ _ _ hq he).2.1]
    exact hne (by rw [ht]; decide)
  drop mp m hne ht _ hv := by
    have hne := hne (by rw [ht]; decide)
    exact ⟨hv.pending, by simp only [GMap.get?_erase_ne _ hne]; exact hv.queue⟩
  finish mp m hne ht hB hv := view_finish hv (hne (by rw [ht]; decide))

end Verif
