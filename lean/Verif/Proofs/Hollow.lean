import Verif.Proofs.Quiet
/-! Headers of which the filter accepts nothing. -/
namespace Verif
open Spec

/-- Nothing in it, nothing expected. -/
structure Hollow (pb : PB) : Prop where
  values : pb.values.entries = []
  deletes : pb.deletes.entries = []
  prefixes : pb.prefixes.entries = []
  batches : pb.batches.entries = []
  pending : pb.pendingBatches.entries = []

theorem entries_nil_of_get {K V : Type} [DecidableEq K] {m : GMap K V} (h : ∀ k, m.get? k = none) : m.entries = [] := by
  match hm : m.entries with
  | [] => rfl
  | (k, v) :: l =>
    have := (GMap.get?_eq_some_iff m (k := k) (v := v)).mpr (by rw [hm]; simp)
    rw [h k] at this; simp at this

theorem get_of_entries_nil {K V : Type} [DecidableEq K] {m : GMap K V} (h : m.entries = []) (k : K) : m.get? k = none := by
  unfold GMap.get?; rw [h]; rfl

theorem Hollow.ready {pb : PB} (h : Hollow pb) : pb.ready = true := by
  unfold PB.ready; rw [h.pending, h.prefixes, h.batches]; rfl

theorem Hollow.apply {C : Codec} {pb pb' : PB} {m : RMsg} {r : Bool} (h : Hollow pb)
    (ha : pb.applyMessage C m = .ok (pb', r)) : Hollow pb' := by
  unfold PB.applyMessage at ha
  obtain ⟨res, hres⟩ := PB.updateResumption_eq pb m.source m.offset
  rw [hres] at ha
  have h0 : Hollow { pb with resumption := res } := ⟨h.values, h.deletes, h.prefixes, h.batches, h.pending⟩
  generalize ({ pb with resumption := res } : PB) = pb0 at ha h0
  have keep : ∀ q : GMap Bytes RMsg, Hollow { pb0 with pendingMessages := q } := fun q =>
    ⟨h0.values, h0.deletes, h0.prefixes, h0.batches, h0.pending⟩
  simp only [] at ha
  split at ha
  · simp at ha
  split at ha
  · unfold PB.applySubBatchMsg at ha
    split at ha
    · simp at ha
    simp only [] at ha
    rw [get_of_entries_nil h0.batches] at ha
    split at ha
    · simp at ha; rw [← ha.1]; exact h0
    · simp at ha; rw [← ha.1]; exact keep _
  split at ha
  · unfold PB.applyBatchMsg at ha
    simp only [] at ha
    split at ha
    · simp at ha; rw [← ha.1]; exact h0
    split at ha
    · simp at ha
    · rename_i hd
      obtain ⟨x, v, _, hx, _⟩ := decPrefix_true hd
      rw [get_of_entries_nil h0.prefixes] at hx; simp at hx
    · simp at ha; rw [← ha.1]; exact keep _
  split at ha
  · unfold PB.applyDeleteMsg at ha
    simp only [] at ha
    split at ha
    · simp at ha; rw [← ha.1]; exact h0
    split at ha
    · simp at ha
    · rename_i hd
      obtain ⟨x, v, _, hx, _⟩ := decPrefix_true hd
      rw [get_of_entries_nil h0.prefixes] at hx; simp at hx
    · simp at ha; rw [← ha.1]; exact keep _
  · simp at ha; rw [← ha.1]; exact h0

/-- During the replay the hollow block is pending, or has been emitted. -/
def HollowInv (h : Hash) (n : Int) (E0 : List PB) (mp : MP) : Prop :=
  (∃ pb, mp.pendingBatches.get? h = some pb ∧ Hollow pb ∧ pb.number = n ∧ pb.hash = h ∧ mp.emitted = E0) ∨
  (∃ pb, mp.emitted = E0 ++ [pb] ∧ Hollow pb ∧ pb.number = n ∧ pb.hash = h ∧ mp.completed.contains h = true)

theorem hollow_finish {h : Hash} {n : Int} {E0 : List PB} {mp : MP} (hB : Base mp) (hi : HollowInv h n E0 mp) :
    ∃ pb, (mp.finish h).emitted = E0 ++ [pb] ∧ Hollow pb ∧ pb.number = n ∧ pb.hash = h ∧
      (mp.finish h).completed.contains h = true := by
  rcases hi with ⟨pb, h1, h2, h3, h4, h5⟩ | ⟨pb, h1, h2, h3, h4, h5⟩
  · rcases finish_cases mp h with ⟨_, hf⟩ | ⟨pb1, hp1, hr1, he⟩
    · have := hf pb h1; rw [h2.ready] at this; simp at this
    · rw [h1] at hp1; cases hp1
      rw [he]
      refine ⟨pb, by rw [emitted_append_batch (mp := mp) (pb := pb) rfl, h5], h2, h3, h4, ?_⟩
      have := hB.cap; have := hB.thr
      exact (LRU.contains_iff _ _).mpr (LRU.mem_add_self _ _ (by omega))
  · rcases finish_cases mp h with ⟨he, hf⟩ | ⟨pb1, hp1, hr1, he⟩
    · rw [he]; exact ⟨pb, h1, h2, h3, h4, h5⟩
    · rw [hB.compl _ h5] at hp1; simp at hp1

theorem hollow_step {C : Codec} {env : Env} {self : MP → RMsg → MPResult} {h : Hash} {n : Int} {E0 : List PB} {mp mp' : MP}
    {m : RMsg} {e : Option Err} (hk : Keeps env n) (hB : Base mp) (hi : HollowInv h n E0 mp) (hm : hashOf m.key = h)
    (hq : QueueType m) (hr : MP.step C env self mp m = .ok (mp', e)) : HollowInv h n E0 mp' ∧ e = none := by
  unfold MP.step at hr
  have hB1 := hB.begin env m
  have hi1 : HollowInv h n E0 (mp.begin env m) := by
    have hf := begin_fields env mp m
    rcases hi with ⟨pb, h1, h2, h3, h4, h5⟩ | ⟨pb, h1, h2, h3, h4, h5⟩
    · left
      refine ⟨pb, ?_, h2, h3, h4, by rw [emitted_of_log hf.2.2.1]; exact h5⟩
      rcases begin_get env mp m h with ⟨h6, _⟩ | ⟨b, h6, ⟨x, hx, hlt⟩, _⟩
      · rw [h6]; exact h1
      · rw [h1] at h6; cases h6
        have := hk _ x hx; omega
    · right
      exact ⟨pb, by rw [emitted_of_log hf.2.2.1]; exact h1, h2, h3, h4, by rw [hf.1]; exact h5⟩
  generalize mp.begin env m = mp1 at hr hB1 hi1
  simp only [hm] at hr
  split at hr
  · simp at hr
  simp only [hq.1, hq.2, if_false] at hr
  split at hr
  · simp at hr; rw [← hr.1, ← hr.2]; exact ⟨hi1, rfl⟩
  rename_i hcomp
  split at hr
  · simp at hr; rw [← hr.1, ← hr.2]; exact ⟨hi1, rfl⟩
  rcases hi1 with ⟨pb, h1, h2, h3, h4, h5⟩ | ⟨pb, h1, h2, h3, h4, h5⟩
  · split at hr
    · unfold MP.onSubHeader at hr
      rw [h1] at hr
      simp only [] at hr
      have : pb.pendingBatches.contains (bytesToHash (m.key.drop 33)) = false := by
        rw [GMap.contains_eq_false]; exact get_of_entries_nil h2.pending _
      rw [this] at hr
      simp at hr; rw [← hr.1, ← hr.2]
      exact ⟨.inl ⟨pb, h1, h2, h3, h4, h5⟩, rfl⟩
    · unfold MP.onOther at hr
      rw [h1] at hr
      simp only [] at hr
      split at hr
      · simp at hr
      · rename_i pb' _ ha
        simp at hr
        rw [← hr.1, ← hr.2]
        have hs := sameHead_apply ha
        obtain ⟨p, a1, a2, a3, a4, a5⟩ := hollow_finish (h := h) (n := n) (E0 := E0) (hB1.update h1 hs.hash)
          (.inl ⟨pb', by simp, h2.apply ha, hs.number.trans h3, hs.hash.trans h4, h5⟩)
        exact ⟨.inr ⟨p, a1, a2, a3, a4, a5⟩, rfl⟩
  · exact absurd h5 hcomp

theorem hollow_replay {C : Codec} {env : Env} {self : MP → RMsg → MPResult} {h : Hash} {n : Int} {E0 : List PB} {mp mp' : MP}
    {ms : List RMsg} {e : Option Err} (hk : Keeps env n) (hB : Base mp) (hi : HollowInv h n E0 mp)
    (hq : ∀ m ∈ ms, QueueType m ∧ hashOf m.key = h) (hr : replay (MP.step C env self) mp ms = .ok (mp', e)) :
    HollowInv h n E0 mp' ∧ e = none ∧ Base mp' := by
  induction ms generalizing mp with
  | nil => simp [replay] at hr; rw [← hr.1, ← hr.2]; exact ⟨hi, rfl, hB⟩
  | cons m ms ih =>
    have hm := hq m (by simp)
    simp only [replay] at hr
    match hp : MP.step C env self mp m with
    | .error f => rw [hp] at hr; simp at hr
    | .ok (mp1, e1) =>
      obtain ⟨h1, rfl⟩ := hollow_step hk hB hi hm.2 hm.1 hp
      rw [hp] at hr
      have hB1 := ((base_parts C env (fun _ => True) (fun _ => trivial)).step_queued (self := self) trivial hB hm.1).ok hp
      exact ih hB1 h1 (fun m hm => hq m (by simp [hm])) hr

theorem headerPB_get (env : Env) (mp : MP) (m : RMsg) (h : Hash) (b : Batch) :
    (∀ k, (headerPB env mp m h b).values.get? k = match b.updates.get? k with
      | some r => if mp.tracked k = true ∧ r.value ≠ [] then some r.value else none
      | none => none) ∧
    (∀ k, (headerPB env mp m h b).deletes.contains k = true ↔
      ∃ r, b.updates.get? k = some r ∧ mp.tracked k = true ∧ r.delete = true) ∧
    (∀ k, (headerPB env mp m h b).prefixes.get? k = match b.updates.get? k with
      | some r => if mp.tracked k = true ∧ r.count ≠ 0 then some r.count else none
      | none => none) ∧
    (∀ id, (headerPB env mp m h b).pendingBatches.contains id = true ↔
      ∃ k r, b.updates.get? k = some r ∧ mp.tracked k = true ∧ r.subbatch = id ∧ id ≠ Hash.zero) := by
  have hnd : ((env.order.ord (2 * mp.tick) b.updates.entries).map Prod.fst).Nodup :=
    ((env.order.perm _ _).map _).nodup_iff.mpr b.updates.nodup
  have hlook : ∀ k, GMap.look k (env.order.ord (2 * mp.tick) b.updates.entries) = b.updates.get? k := by
    intro k
    apply Option.ext
    intro r
    rw [GMap.look_eq_some_iff hnd, GMap.get?_eq_some_iff]
    exact (env.order.perm _ _).mem_iff
  have := headerFold_spec mp.tracked _ hnd (newPB mp h b m)
  have hn : (newPB mp h b m).values = GMap.empty ∧ (newPB mp h b m).deletes = GMap.empty ∧
      (newPB mp h b m).prefixes = GMap.empty ∧ (newPB mp h b m).pendingBatches = GMap.empty := by
    unfold newPB
    obtain ⟨r, hr⟩ := PB.updateResumption_eq
      { number := b.number, weight := bytesNat b.weight, parentHash := b.parentHash, hash := h, values := GMap.empty,
        deletes := GMap.empty, prefixes := GMap.empty, batches := GMap.empty, pendingBatches := GMap.empty,
        pendingMessages := GMap.empty, resumption := GMap.empty, resumptionDefaults := mp.resumption,
        waitCh := some mp.nextCh, frp := mp.frp } m.source m.offset
    rw [hr]; exact ⟨rfl, rfl, rfl, rfl⟩
  simp only [hlook, hn.1, hn.2.1, hn.2.2.1, hn.2.2.2, GMap.get?_empty] at this
  have hunit : ∀ {K V : Type} [DecidableEq K] (k : K), (GMap.empty : GMap K V).contains k = false := fun _ => rfl
  simp only [hunit, Bool.false_eq_true, or_false] at this
  exact this

/-- A header of which the filter accepts nothing is emitted at once, empty. -/
theorem hollow_process {C : Codec} {env : Env} {mp mp' : MP} {m : RMsg} {e : Option Err} {b : Batch} (hB : Base mp)
    (ht : m.key.head? = some 0) (hd : C.decBatch m.value = some b) (hc : mp.completed.contains (hashOf m.key) = false)
    (ho : mp.oldBlocks.contains (hashOf m.key) = false) (hp : mp.pendingBatches.get? (hashOf m.key) = none)
    (hk : Keeps env b.number)
    (hno : ∀ x r, b.updates.get? x = some r → mp.tracked x = true →
      r.value = [] ∧ r.delete = false ∧ r.count = 0 ∧ r.subbatch = Hash.zero)
    (hr : mp.processMessage C env m = .ok (mp', e)) :
    e = none ∧ ∃ pb, mp'.emitted = mp.emitted ++ [pb] ∧ Hollow pb ∧ pb.number = b.number ∧ pb.hash = hashOf m.key := by
  have htD : m.key.headD 0 = BatchType := by
    cases hk : m.key with
    | nil => rw [hk] at ht; simp at ht
    | cons a r => rw [hk] at ht; simpa [BatchType] using ht
  unfold MP.processMessage at hr
  have hrep := fun (mp mp' : MP) (ms : List RMsg) (e : Option Err) (E0 : List PB) (hB : Base mp)
    (hi : HollowInv (hashOf m.key) b.number E0 mp)
    (hq : ∀ x ∈ ms, QueueType x ∧ hashOf x.key = hashOf m.key) =>
    hollow_replay (C := C) (env := env) (self := fun _ _ => .error .hang) (mp := mp) (mp' := mp') (ms := ms) (e := e)
      (E0 := E0) hk hB hi hq
  generalize MP.step C env (fun _ _ => .error .hang) = self at hr hrep
  unfold MP.step at hr
  have hf := begin_fields env mp m
  have hB1 := hB.begin env m
  have hg : (mp.begin env m).pendingBatches.get? (hashOf m.key) = none ∧
      (mp.begin env m).oldBlocks.contains (hashOf m.key) = false := by
    rcases begin_get env mp m (hashOf m.key) with ⟨h1, h2⟩ | ⟨pb, h1, _⟩
    · exact ⟨h1.trans hp, h2.trans ho⟩
    · rw [hp] at h1; simp at h1
  have hem := emitted_of_log hf.2.2.1
  have hc1 : (mp.begin env m).completed.contains (hashOf m.key) = false := by rw [hf.1]; exact hc
  have htr := hf.2.2.2.1
  generalize mp.begin env m = mp1 at hr hB1 hg hem hc1 htr
  simp only [] at hr
  split at hr
  · simp at hr
  rw [htD] at hr
  simp only [hc1, hg.2, if_true, Bool.false_eq_true, if_false] at hr
  rw [if_neg (by decide)] at hr
  unfold MP.onHeader at hr
  rw [hd] at hr
  have hcont : mp1.pendingBatches.contains (hashOf m.key) = false := by rw [GMap.contains_eq_false]; exact hg.1
  simp only [hcont, Bool.false_eq_true, if_false] at hr
  have hB2 : Base (mp1.addHeader env m (hashOf m.key) b) :=
    (base_parts C env (fun _ => True) (fun _ => trivial)).add mp1 m b trivial hB1 htD hc1 hg.2 hd hg.1
  have hi2 : HollowInv (hashOf m.key) b.number mp.emitted (mp1.addHeader env m (hashOf m.key) b) := by
    left
    have hh := headerPB_head env mp1 m (hashOf m.key) b
    have hn := newPB_head mp1 (hashOf m.key) b m
    refine ⟨headerPB env mp1 m (hashOf m.key) b, by unfold MP.addHeader; simp [headerPB], ?_, hh.number.trans hn.2.1,
      hh.hash.trans hn.1, by rw [addHeader_emitted]; exact hem⟩
    obtain ⟨g1, g2, g3, g4⟩ := headerPB_get env mp1 m (hashOf m.key) b
    have hno' : ∀ x r, b.updates.get? x = some r → mp1.tracked x = true →
      r.value = [] ∧ r.delete = false ∧ r.count = 0 ∧ r.subbatch = Hash.zero := by rw [htr]; exact hno
    refine ⟨entries_nil_of_get fun k => ?_, entries_nil_of_get fun k => ?_, entries_nil_of_get fun k => ?_,
      by rw [(headerPB_fields env mp1 m (hashOf m.key) b).1]; rfl, entries_nil_of_get fun k => ?_⟩
    · rw [g1]
      split
      · rename_i r hr'
        split
        · rename_i hcd; exact absurd (hno' k r hr' hcd.1).1 hcd.2
        · rfl
      · rfl
    · rw [← GMap.contains_eq_false, ← Bool.not_eq_true]
      intro hcd
      obtain ⟨r, h1, h2, h3⟩ := (g2 k).mp hcd
      rw [(hno' k r h1 h2).2.1] at h3; simp at h3
    · rw [g3]
      split
      · rename_i r hr'
        split
        · rename_i hcd; exact absurd (hno' k r hr' hcd.1).2.2.1 hcd.2
        · rfl
      · rfl
    · rw [← GMap.contains_eq_false, ← Bool.not_eq_true]
      intro hcd
      obtain ⟨x, r, h1, h2, h3, h4⟩ := (g4 k).mp hcd
      exact h4 (h3.symm.trans (hno' x r h1 h2).2.2.2)
  generalize mp1.addHeader env m (hashOf m.key) b = mp2 at hr hB2 hi2
  split at hr
  · simp at hr
    obtain ⟨pb, h1, h2, h3, h4, _⟩ := hollow_finish hB2 hi2
    rw [← hr.1, ← hr.2]
    exact ⟨rfl, pb, h1, h2, h3, h4⟩
  · rename_i q hq
    split at hr
    · simp at hr
    · rename_i hrp
      obtain ⟨_, h2, _⟩ := hrep _ _ _ _ _ hB2 hi2 (by
        intro x hx
        obtain ⟨en, hen, rfl⟩ := List.mem_map.mp hx
        have := hB2.queue _ _ _ hq ((env.order.perm _ _).mem_iff.mp hen)
        exact ⟨this.1, this.2.1⟩) hrp
      simp at h2
    · rename_i mp3 hrp
      obtain ⟨h1, _, hB3⟩ := hrep _ _ _ _ _ hB2 hi2 (by
        intro x hx
        obtain ⟨en, hen, rfl⟩ := List.mem_map.mp hx
        have := hB2.queue _ _ _ hq ((env.order.perm _ _).mem_iff.mp hen)
        exact ⟨this.1, this.2.1⟩) hrp
      simp at hr
      obtain ⟨pb, h1, h2, h3, h4, _⟩ := hollow_finish
        ((base_parts C env (fun _ => True) (fun _ => trivial)).drop mp3 m trivial htD hB3) h1
      rw [← hr.1, ← hr.2]
      exact ⟨rfl, pb, h1, h2, h3, h4⟩

end Verif
