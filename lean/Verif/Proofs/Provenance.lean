import Verif.Proofs.Lift
import Verif.Spec.Provenance
/-! Where the content of pending and emitted blocks comes from, for arbitrary messages. -/
namespace Verif
open Spec

theorem loop_true {frp : Bool} {ps ps' : GMap GoStr Int} {fuel : Nat} {d : GoStr}
    (h : decPrefixLoop frp ps fuel d = .ok (ps', true)) :
    ∃ n v, ps.get? (Path.dirKey (dirN n d)) = some v ∧ v > 0 ∧ ps' = ps.insert (Path.dirKey (dirN n d)) (v - 1) := by
  induction fuel generalizing d with
  | zero => simp [decPrefixLoop] at h
  | succ fuel ih =>
    unfold decPrefixLoop at h
    split at h
    · simp at h
    · simp only [] at h
      have hrec : decPrefixLoop frp ps fuel (Path.dir d) = .ok (ps', true) →
          ∃ n v, ps.get? (Path.dirKey (dirN n d)) = some v ∧ v > 0 ∧ ps' = ps.insert (Path.dirKey (dirN n d)) (v - 1) := by
        intro h'
        obtain ⟨n, v, h1⟩ := ih h'
        exact ⟨n + 1, v, h1⟩
      split at h
      · rename_i v hv
        split at h
        · rename_i hpos
          simp at h
          exact ⟨0, v, hv, hpos, h.symm⟩
        · split at h
          · simp at h
          · exact hrec h
      · exact hrec h

theorem loop_false {frp : Bool} {ps ps' : GMap GoStr Int} {fuel : Nat} {d : GoStr}
    (h : decPrefixLoop frp ps fuel d = .ok (ps', false)) : ps' = ps := by
  induction fuel generalizing d with
  | zero => simp [decPrefixLoop] at h
  | succ fuel ih =>
    unfold decPrefixLoop at h
    split at h
    · simp at h; exact h.symm
    · simp only [] at h
      split at h
      · split at h
        · simp at h
        · split at h
          · simp at h
          · exact ih h
      · exact ih h

theorem decPrefix_true {frp : Bool} {ps ps' : GMap GoStr Int} {k : GoStr} (h : decPrefix frp ps k = .ok (ps', true)) :
    ∃ x v, Covers x k ∧ ps.get? x = some v ∧ v > 0 ∧ ps' = ps.insert x (v - 1) := by
  unfold decPrefix at h
  have hl : decPrefixLoop frp ps (k.length + 2) k = .ok (ps', true) →
      ∃ x v, Covers x k ∧ ps.get? x = some v ∧ v > 0 ∧ ps' = ps.insert x (v - 1) := by
    intro h'
    obtain ⟨n, v, h1, h2, h3⟩ := loop_true h'
    exact ⟨_, v, .inr ⟨n, rfl⟩, h1, h2, h3⟩
  split at h
  · rename_i v hv
    split at h
    · rename_i hpos
      simp at h
      exact ⟨k, v, .inl rfl, hv, hpos, h.symm⟩
    · exact hl h
  · exact hl h

/-! ## Recorded offsets -/

theorem recorded_update (pb : PB) (m : RMsg) : Recorded (pb.updateResumption m.source m.offset) m := by
  unfold PB.updateResumption Recorded
  split
  · exact ⟨m.offset, by simp, by omega⟩
  · rename_i o ho
    split
    · exact ⟨m.offset, by simp, by omega⟩
    · exact ⟨o, ho, by omega⟩

/-- `pb'` records all `pb` records. -/
def RecLe (pb pb' : PB) : Prop := ∀ s o, pb.resumption.get? s = some o → ∃ o', pb'.resumption.get? s = some o' ∧ o' ≤ o

theorem RecLe.refl (pb : PB) : RecLe pb pb := fun _ o h => ⟨o, h, by omega⟩
theorem RecLe.of_eq {pb pb' : PB} (h : pb'.resumption = pb.resumption) : RecLe pb pb' := by
  intro s o hs; exact ⟨o, by rw [h]; exact hs, by omega⟩
theorem RecLe.trans {a b c : PB} (h : RecLe a b) (h' : RecLe b c) : RecLe a c := by
  intro s o hs
  obtain ⟨o1, h1, h2⟩ := h s o hs
  obtain ⟨o2, h3, h4⟩ := h' s o1 h1
  exact ⟨o2, h3, by omega⟩
theorem RecLe.recorded {a b : PB} (h : RecLe a b) {m : RMsg} (hm : Recorded a m) : Recorded b m := by
  obtain ⟨o, h1, h2⟩ := hm
  obtain ⟨o', h3, h4⟩ := h _ _ h1
  exact ⟨o', h3, by omega⟩

theorem recLe_update (pb : PB) (s : GoStr) (o : Int) : RecLe pb (pb.updateResumption s o) := by
  intro s' o' h
  unfold PB.updateResumption
  split
  · rename_i hn
    by_cases e : s = s'
    · subst e; rw [hn] at h; simp at h
    · exact ⟨o', by simp [GMap.get?_insert, e, h], by omega⟩
  · rename_i x hx
    split
    · by_cases e : s = s'
      · subst e; rw [hx] at h; cases h; exact ⟨o, by simp, by omega⟩
      · exact ⟨o', by simp [GMap.get?_insert, e, h], by omega⟩
    · exact ⟨o', h, by omega⟩

/-- Every offset recorded is the offset of a message of `S` of the block. -/
def ResFrom (S : RMsg → Prop) (h : Hash) (r : GMap GoStr Int) : Prop :=
  ∀ s o, r.get? s = some o → ∃ m, S m ∧ blockOf m.key = h ∧ m.source = s ∧ m.offset = o

theorem resFrom_update {S : RMsg → Prop} {h : Hash} {pb : PB} {m : RMsg} (hr : ResFrom S h pb.resumption) (hm : S m)
    (hh : blockOf m.key = h) : ResFrom S h (pb.updateResumption m.source m.offset).resumption := by
  intro s o hs
  unfold PB.updateResumption at hs
  split at hs
  · simp only [GMap.get?_insert] at hs
    split at hs
    · rename_i e; cases hs; exact ⟨m, hm, hh, e, rfl⟩
    · exact hr s o hs
  · split at hs
    · simp only [GMap.get?_insert] at hs
      split at hs
      · rename_i e; cases hs; exact ⟨m, hm, hh, e, rfl⟩
      · exact hr s o hs
    · exact hr s o hs

theorem Spec.ValueFrom.mono {C : Codec} {S : RMsg → Prop} {tracked : GoStr → Bool} {h : Hash} {b : Batch} {pb pb' : PB} {k : GoStr}
    {v : Bytes} (hv : ValueFrom C S tracked h b pb k v) (hr : RecLe pb pb') : ValueFrom C S tracked h b pb' k v := by
  cases hv with
  | inline r h1 h2 => exact .inline r h1 h2
  | msg m x r h1 h2 h3 h4 h5 h6 h7 => exact .msg m x r h1 h2 h3 (hr.recorded h4) h5 h6 h7
  | sub m u x r h1 h2 h3 h4 h5 h6 h7 => exact .sub m u x r h1 h2 h3 (hr.recorded h4) h5 h6 h7

theorem Spec.DeleteFrom.mono {C : Codec} {S : RMsg → Prop} {tracked : GoStr → Bool} {h : Hash} {b : Batch} {pb pb' : PB} {k : GoStr}
    (hv : DeleteFrom C S tracked h b pb k) (hr : RecLe pb pb') : DeleteFrom C S tracked h b pb' k := by
  cases hv with
  | inline r h1 h2 => exact .inline r h1 h2
  | msg m x r h1 h2 h4 h5 h6 h7 => exact .msg m x r h1 h2 (hr.recorded h4) h5 h6 h7
  | sub m u x r h1 h2 h3 h4 h5 h6 h7 => exact .sub m u x r h1 h2 h3 (hr.recorded h4) h5 h6 h7

/-- Sub-batch `id` is accepted by the header. -/
def SubAccepted (tracked : GoStr → Bool) (b : Batch) (id : Hash) : Prop :=
  ∃ x r, Accepted tracked b x r ∧ r.subbatch = id ∧ id ≠ Hash.zero

/-- Everything in the pending batch comes from messages in `S`. -/
structure PBProv (C : Codec) (S : RMsg → Prop) (tracked : GoStr → Bool) (h : Hash) (b : Batch) (pb : PB) : Prop where
  values : ∀ k v, pb.values.get? k = some v → ValueFrom C S tracked h b pb k v
  deletes : ∀ k, pb.deletes.contains k = true → DeleteFrom C S tracked h b pb k
  prefixes : ∀ x c, pb.prefixes.get? x = some c → ∃ r, Accepted tracked b x r ∧ r.count ≠ 0
  subs : ∀ id, pb.pendingBatches.contains id = true → SubAccepted tracked b id
  batches : ∀ id l, pb.batches.get? id = some l → SubAccepted tracked b id ∧
    ∃ m, Of S h 1 m ∧ bytesToHash (m.key.drop 33) = id ∧ Recorded pb m ∧ C.decInt m.value = some (l.length : Int)
  bits : ∀ id l (i : Nat), pb.batches.get? id = some l → l[i]? = some true →
    ∃ m, Of S h 2 m ∧ bytesToHash ((m.key.drop 33).take 32) = id ∧ C.decInt (m.key.drop 65) = some (i : Int) ∧ Recorded pb m
  msgs : ∀ k m, pb.pendingMessages.get? k = some m → S m ∧ blockOf m.key = h
  res : ResFrom S h pb.resumption

section
variable {C : Codec} {S : RMsg → Prop} {tracked : GoStr → Bool} {h : Hash} {b : Batch}

theorem PBProv.record {pb : PB} (hp : PBProv C S tracked h b pb) {m : RMsg} (hm : S m) (hh : blockOf m.key = h) :
    PBProv C S tracked h b (pb.updateResumption m.source m.offset) := by
  have hl := recLe_update pb m.source m.offset
  have hres := resFrom_update hp.res hm hh
  obtain ⟨r, hr⟩ := PB.updateResumption_eq pb m.source m.offset
  rw [hr] at hl hres ⊢
  refine ⟨fun k v hk => (hp.values k v hk).mono hl, fun k hk => (hp.deletes k hk).mono hl, hp.prefixes, hp.subs, ?_, ?_,
    hp.msgs, hres⟩
  · intro id l hl'
    obtain ⟨h1, m', h2, h3, h4, h5⟩ := hp.batches id l hl'
    exact ⟨h1, m', h2, h3, hl.recorded h4, h5⟩
  · intro id l i hl' hi
    obtain ⟨m', h2, h3, h4, h5⟩ := hp.bits id l i hl' hi
    exact ⟨m', h2, h3, h4, hl.recorded h5⟩

theorem PBProv.pend {pb : PB} (hp : PBProv C S tracked h b pb) {m : RMsg} (hm : S m) (hh : blockOf m.key = h) :
    PBProv C S tracked h b { pb with pendingMessages := pb.pendingMessages.insert m.key m } := by
  refine ⟨fun k v hk => (hp.values k v hk).mono (.of_eq rfl), fun k hk => (hp.deletes k hk).mono (.of_eq rfl), hp.prefixes,
    hp.subs, hp.batches, hp.bits, ?_, hp.res⟩
  intro k m' hk
  simp only [GMap.get?_insert] at hk
  split at hk
  · cases hk; exact ⟨hm, hh⟩
  · exact hp.msgs _ _ hk

theorem setTrue_get {l : List Bool} {i j : Nat} (h : (setTrue l i)[j]? = some true) : l[j]? = some true ∨ j = i := by
  unfold setTrue at h
  rw [List.getElem?_set] at h
  split at h
  · rename_i e; exact .inr e.symm
  · exact .inl h

theorem PBProv.apply {pb pb' : PB} {r : Bool} (hp : PBProv C S tracked h b pb) {m : RMsg} (hm : S m) (hh : blockOf m.key = h)
    (ha : pb.applyMessage C m = .ok (pb', r)) :
    PBProv C S tracked h b pb' ∧ RecLe pb pb' ∧ Recorded pb' m := by
  unfold PB.applyMessage at ha
  have hp0 := hp.record hm hh
  have hl0 := recLe_update pb m.source m.offset
  have hr0 := recorded_update pb m
  generalize pb.updateResumption m.source m.offset = pb0 at *
  simp only [] at ha
  split at ha
  · simp at ha
  rename_i t rest hk
  have hhead : ∀ x, t = x → Of S h x m := by rintro x rfl; exact ⟨hm, hh, by rw [hk]; rfl⟩
  have keep : ∀ {q : PB}, q.resumption = pb0.resumption → RecLe pb q ∧ Recorded q m := by
    intro q hq
    exact ⟨hl0.trans (.of_eq hq), (RecLe.of_eq hq).recorded hr0⟩
  split at ha
  · rename_i ht
    have hof : Of S h 2 m := hhead _ ht
    unfold PB.applySubBatchMsg at ha
    split at ha
    · simp at ha
    simp only [] at ha
    split at ha
    · simp at ha; rw [← ha.1]; exact ⟨hp0, keep rfl⟩
    rename_i idx hidx
    split at ha
    · simp at ha; rw [← ha.1]; exact ⟨hp0.pend hm hh, keep rfl⟩
    rename_i bits hbits
    split at ha
    · simp at ha
    rename_i hrange
    split at ha
    · simp at ha; rw [← ha.1]; exact ⟨hp0, keep rfl⟩
    split at ha
    · simp at ha; rw [← ha.1]; exact ⟨hp0, keep rfl⟩
    rename_i u hu
    simp at ha
    rw [← ha.1]
    refine ⟨?_, keep rfl⟩
    obtain ⟨⟨x, rr, hacc, hsb, hz⟩, -⟩ := hp0.batches _ _ hbits
    refine ⟨?_, ?_, hp0.prefixes, hp0.subs, ?_, ?_, hp0.msgs, hp0.res⟩
    · intro k v hkv
      simp only [] at hkv
      rw [GMap.get?_foldl_insert _ _ u.updates.nodup] at hkv
      rw [Option.or_eq_some_iff] at hkv
      rcases hkv with hkv | ⟨_, hkv⟩
      · exact .sub m u x rr hof hu hkv ((RecLe.of_eq rfl).recorded hr0) hacc hsb (hsb ▸ hz)
      · exact (hp0.values k v hkv).mono (.of_eq rfl)
    · intro k hkd
      simp only [] at hkd
      have := (GMap.get?_foldl_insert_unit u.delete (fun d => d) pb0.deletes k).mp hkd
      rcases this with hd | hd
      · exact .sub m u x rr hof hu (by simpa using hd) ((RecLe.of_eq rfl).recorded hr0) hacc hsb (hsb ▸ hz)
      · exact (hp0.deletes k hd).mono (.of_eq rfl)
    · intro id l hl
      simp only [GMap.get?_insert] at hl
      split at hl
      · rename_i e; subst e; cases hl
        obtain ⟨h1, m', h2, h3, h4, h5⟩ := hp0.batches _ _ hbits
        exact ⟨h1, m', h2, h3, h4, by simpa [setTrue] using h5⟩
      · exact hp0.batches id l hl
    · intro id l i hl hi
      simp only [GMap.get?_insert] at hl
      split at hl
      · rename_i e; subst e; cases hl
        rcases setTrue_get hi with hi | hi
        · exact hp0.bits _ _ i hbits hi
        · subst hi
          refine ⟨m, hof, rfl, ?_, (RecLe.of_eq rfl).recorded hr0⟩
          rw [hidx]; congr 1; omega
      · exact hp0.bits id l i hl hi
  split at ha
  · rename_i ht
    have hof : Of S h 3 m := hhead _ ht
    unfold PB.applyBatchMsg at ha
    simp only [] at ha
    split at ha
    · simp at ha; rw [← ha.1]; exact ⟨hp0, keep rfl⟩
    split at ha
    · simp at ha
    · rename_i ps hps
      simp at ha; rw [← ha.1]
      refine ⟨?_, keep rfl⟩
      obtain ⟨x, v, hx, hxv, hpos, rfl⟩ := decPrefix_true hps
      obtain ⟨rr, hacc, hcnt⟩ := hp0.prefixes x v hxv
      refine ⟨?_, fun k hk => (hp0.deletes k hk).mono (.of_eq rfl), ?_, hp0.subs, hp0.batches, hp0.bits, hp0.msgs, hp0.res⟩
      · intro k w hkv
        simp only [GMap.get?_insert] at hkv
        split at hkv
        · rename_i e; subst e; cases hkv
          exact .msg m x rr hof rfl rfl ((RecLe.of_eq rfl).recorded hr0) hacc hcnt hx
        · exact (hp0.values k w hkv).mono (.of_eq rfl)
      · intro y c hy
        simp only [GMap.get?_insert] at hy
        split at hy
        · rename_i e; subst e; exact ⟨rr, hacc, hcnt⟩
        · exact hp0.prefixes y c hy
    · simp at ha; rw [← ha.1]; exact ⟨hp0.pend hm hh, keep rfl⟩
  split at ha
  · rename_i ht
    have hof : Of S h 4 m := hhead _ ht
    unfold PB.applyDeleteMsg at ha
    simp only [] at ha
    split at ha
    · simp at ha; rw [← ha.1]; exact ⟨hp0, keep rfl⟩
    split at ha
    · simp at ha
    · rename_i ps hps
      simp at ha; rw [← ha.1]
      refine ⟨?_, keep rfl⟩
      obtain ⟨x, v, hx, hxv, hpos, rfl⟩ := decPrefix_true hps
      obtain ⟨rr, hacc, hcnt⟩ := hp0.prefixes x v hxv
      refine ⟨fun k v hk => (hp0.values k v hk).mono (.of_eq rfl), ?_, ?_, hp0.subs, hp0.batches, hp0.bits, hp0.msgs, hp0.res⟩
      · intro k hkd
        simp only [GMap.contains_insert, Bool.or_eq_true, decide_eq_true_eq] at hkd
        rcases hkd with e | hkd
        · exact .msg m x rr hof e ((RecLe.of_eq rfl).recorded hr0) hacc hcnt (e ▸ hx)
        · exact (hp0.deletes k hkd).mono (.of_eq rfl)
      · intro y c hy
        simp only [GMap.get?_insert] at hy
        split at hy
        · rename_i e; subst e; exact ⟨rr, hacc, hcnt⟩
        · exact hp0.prefixes y c hy
    · simp at ha; rw [← ha.1]; exact ⟨hp0.pend hm hh, keep rfl⟩
  · simp at ha; rw [← ha.1]; exact ⟨hp0, keep rfl⟩

theorem PBProv.unpend {pb : PB} (hp : PBProv C S tracked h b pb) (k : Bytes) :
    PBProv C S tracked h b { pb with pendingMessages := pb.pendingMessages.erase k } := by
  refine ⟨fun k v hk => (hp.values k v hk).mono (.of_eq rfl), fun k hk => (hp.deletes k hk).mono (.of_eq rfl), hp.prefixes,
    hp.subs, hp.batches, hp.bits, ?_, hp.res⟩
  intro k' m' hk
  simp only [GMap.get?_erase] at hk
  split at hk
  · simp at hk
  · exact hp.msgs _ _ hk

theorem PBProv.drain {pb pb' : PB} {l : List (Bytes × RMsg)} (hp : PBProv C S tracked h b pb)
    (hl : ∀ e ∈ l, S e.2 ∧ blockOf e.2.key = h) (hd : PB.drain C pb l = .ok pb') :
    PBProv C S tracked h b pb' ∧ RecLe pb pb' := by
  induction l generalizing pb with
  | nil => simp [PB.drain] at hd; subst hd; exact ⟨hp, RecLe.refl _⟩
  | cons e l ih =>
    obtain ⟨k, m⟩ := e
    obtain ⟨h1, h2⟩ := hl (k, m) (by simp)
    simp only [PB.drain] at hd
    match ha : pb.applyMessage C m with
    | .error f => rw [ha] at hd; simp at hd
    | .ok (pb1, true) =>
      rw [ha] at hd
      obtain ⟨h3, h4, _⟩ := hp.apply h1 h2 ha
      obtain ⟨h5, h6⟩ := ih (h3.unpend k) (fun e he => hl e (by simp [he])) hd
      exact ⟨h5, h4.trans (RecLe.trans (.of_eq rfl) h6)⟩
    | .ok (pb1, false) =>
      rw [ha] at hd
      obtain ⟨h3, h4, _⟩ := hp.apply h1 h2 ha
      obtain ⟨h5, h6⟩ := ih h3 (fun e he => hl e (by simp [he])) hd
      exact ⟨h5, h4.trans h6⟩

theorem PBProv.addSub {env : Env} {t : Nat} {pb pb' : PB} {n : Int} {m : RMsg} (hp : PBProv C S tracked h b pb)
    (hm : Of S h 1 m) (hpend : pb.pendingBatches.contains (bytesToHash (m.key.drop 33)) = true)
    (hn : C.decInt m.value = some n)
    (hd : pb.addSubHeader C env t m (bytesToHash (m.key.drop 33)) n = .ok pb') :
    PBProv C S tracked h b pb' ∧ RecLe pb pb' ∧ Recorded pb' m := by
  unfold PB.addSubHeader at hd
  split at hd
  · simp at hd
  rename_i hneg
  simp only [] at hd
  have h0 := hp.record hm.mem hm.block
  have hl0 := recLe_update pb m.source m.offset
  have hr0 := recorded_update pb m
  have hcomm : PB.updateResumption { pb with
      pendingBatches := pb.pendingBatches.erase (bytesToHash (m.key.drop 33))
      batches := pb.batches.insert (bytesToHash (m.key.drop 33)) (List.replicate n.toNat false) } m.source m.offset =
      { pb.updateResumption m.source m.offset with
        pendingBatches := pb.pendingBatches.erase (bytesToHash (m.key.drop 33))
        batches := pb.batches.insert (bytesToHash (m.key.drop 33)) (List.replicate n.toNat false) } := by
    unfold PB.updateResumption
    simp only []
    split
    · rfl
    · split <;> rfl
  rw [hcomm] at hd
  obtain ⟨r, hr⟩ := PB.updateResumption_eq pb m.source m.offset
  rw [hr] at hd h0 hl0 hr0
  have h1 : PBProv C S tracked h b { pb with
        resumption := r
        pendingBatches := pb.pendingBatches.erase (bytesToHash (m.key.drop 33))
        batches := pb.batches.insert (bytesToHash (m.key.drop 33)) (List.replicate n.toNat false) } := by
    refine ⟨fun k v hk => (h0.values k v hk).mono (.of_eq rfl), fun k hk => (h0.deletes k hk).mono (.of_eq rfl), h0.prefixes,
      ?_, ?_, ?_, h0.msgs, h0.res⟩
    · intro id hid
      simp only [GMap.contains_erase, Bool.and_eq_true] at hid
      exact h0.subs id hid.2
    · intro id l hl
      simp only [GMap.get?_insert] at hl
      split at hl
      · rename_i e; subst e; cases hl
        refine ⟨h0.subs _ hpend, m, hm, rfl, hr0, ?_⟩
        rw [hn]; congr 1
        rw [List.length_replicate]; omega
      · exact h0.batches id l hl
    · intro id l i hl hi
      simp only [GMap.get?_insert] at hl
      split at hl
      · cases hl
        rw [List.getElem?_replicate] at hi
        split at hi <;> simp at hi
      · exact h0.bits id l i hl hi
  obtain ⟨h2, h3⟩ := h1.drain (fun e he =>
    h1.msgs e.1 e.2 ((GMap.get?_eq_some_iff _).mpr ((env.order.perm _ _).mem_iff.mp he))) hd
  refine ⟨h2, hl0.trans (RecLe.trans (.of_eq rfl) h3), h3.recorded ((RecLe.of_eq rfl).recorded hr0)⟩

/-- What the header entries put into a pending batch. -/
theorem headerFold_spec (tracked : GoStr → Bool) (l : List (GoStr × BatchRecord)) (hn : (l.map Prod.fst).Nodup) (pb : PB) :
    (∀ k, (l.foldl (PB.headerEntry tracked) pb).values.get? k =
      match GMap.look k l with
      | some r => if tracked k = true ∧ r.value ≠ [] then some r.value else pb.values.get? k
      | none => pb.values.get? k) ∧
    (∀ k, (l.foldl (PB.headerEntry tracked) pb).deletes.contains k = true ↔
      (∃ r, GMap.look k l = some r ∧ tracked k = true ∧ r.delete = true) ∨ pb.deletes.contains k = true) ∧
    (∀ k, (l.foldl (PB.headerEntry tracked) pb).prefixes.get? k =
      match GMap.look k l with
      | some r => if tracked k = true ∧ r.count ≠ 0 then some r.count else pb.prefixes.get? k
      | none => pb.prefixes.get? k) ∧
    (∀ id, (l.foldl (PB.headerEntry tracked) pb).pendingBatches.contains id = true ↔
      (∃ k r, GMap.look k l = some r ∧ tracked k = true ∧ r.subbatch = id ∧ id ≠ Hash.zero) ∨
      pb.pendingBatches.contains id = true) := by
  induction l generalizing pb with
  | nil => simp [GMap.look]
  | cons e l ih =>
    obtain ⟨k0, r0⟩ := e
    simp only [List.map_cons, List.nodup_cons] at hn
    obtain ⟨i1, i2, i3, i4⟩ := ih hn.2 (pb.headerEntry tracked (k0, r0))
    have hlook0 : GMap.look k0 l = none := GMap.look_eq_none_iff.mpr hn.1
    have f1 : ∀ k, (pb.headerEntry tracked (k0, r0)).values.get? k =
        if k0 = k ∧ tracked k0 = true ∧ r0.value ≠ [] then some r0.value else pb.values.get? k := by
      intro k
      unfold PB.headerEntry
      cases ht : tracked k0
      · simp
      · simp only [Bool.not_true, Bool.false_eq_true, if_false]
        by_cases hv : r0.value = []
        · simp [hv]; (repeat' split) <;> rfl
        · have : r0.value.length > 0 := by simpa [List.length_pos_iff] using hv
          simp only [this, if_true]
          by_cases hk : k0 = k
          · simp only [hk, hv, ne_eq, not_false_eq_true, and_self, if_true]; (repeat' split) <;> simp
          · simp only [hk, false_and, if_false]; (repeat' split) <;> simp [GMap.get?_insert, hk]
    have f2 : ∀ k, (pb.headerEntry tracked (k0, r0)).deletes.contains k = true ↔
        (k0 = k ∧ tracked k0 = true ∧ r0.delete = true) ∨ pb.deletes.contains k = true := by
      intro k
      unfold PB.headerEntry
      cases ht : tracked k0
      · simp
      · simp only [Bool.not_true, Bool.false_eq_true, if_false]
        by_cases hd : r0.delete = true
        · simp only [hd, if_true]
          (repeat' split) <;> simp [GMap.contains_insert]
        · simp only [Bool.eq_false_iff.mpr hd, Bool.false_eq_true, if_false, and_false, false_or]
          (repeat' split) <;> simp
    have f3 : ∀ k, (pb.headerEntry tracked (k0, r0)).prefixes.get? k =
        if k0 = k ∧ tracked k0 = true ∧ r0.count ≠ 0 then some r0.count else pb.prefixes.get? k := by
      intro k
      unfold PB.headerEntry
      cases ht : tracked k0
      · simp
      · simp only [Bool.not_true, Bool.false_eq_true, if_false]
        by_cases hc : r0.count = 0
        · simp [hc]; (repeat' split) <;> rfl
        · by_cases hk : k0 = k
          · simp only [hk, hc, ne_eq, not_false_eq_true, and_self, if_true]; (repeat' split) <;> simp
          · simp only [hk, hc, ne_eq, not_false_eq_true, false_and, if_false, if_true]
            (repeat' split) <;> simp [GMap.get?_insert, hk]
    have f4 : ∀ id, (pb.headerEntry tracked (k0, r0)).pendingBatches.contains id = true ↔
        (tracked k0 = true ∧ r0.subbatch = id ∧ id ≠ Hash.zero) ∨ pb.pendingBatches.contains id = true := by
      intro id
      unfold PB.headerEntry
      cases ht : tracked k0
      · simp
      · simp only [Bool.not_true, Bool.false_eq_true, if_false]
        by_cases hz : r0.subbatch = Hash.zero
        · simp only [hz, ne_eq, not_true_eq_false, if_false]
          have : ¬ (Hash.zero = id ∧ ¬ id = Hash.zero) := fun h => h.2 h.1.symm
          simp only [true_and, this, false_or]
          (repeat' split) <;> simp
        · simp only [hz, ne_eq, not_false_eq_true, if_true]
          have : (r0.subbatch = id ∧ ¬ id = Hash.zero) ↔ r0.subbatch = id :=
            ⟨fun h => h.1, fun h => ⟨h, h ▸ hz⟩⟩
          simp only [true_and, this]
          (repeat' split) <;> simp [GMap.contains_insert]
    rw [List.foldl_cons]
    refine ⟨?_, ?_, ?_, ?_⟩
    · intro k
      rw [i1 k]
      by_cases hk : k0 = k
      · subst hk; simp only [hlook0, GMap.look, if_true]; rw [f1]; simp
      · simp only [GMap.look, hk, if_false]
        rw [f1]; simp only [hk, false_and, if_false]
    · intro k
      rw [i2 k, f2]
      by_cases hk : k0 = k
      · subst hk; simp only [hlook0, GMap.look, if_true]; simp
      · simp only [GMap.look, hk, if_false, false_and, false_or]
    · intro k
      rw [i3 k]
      by_cases hk : k0 = k
      · subst hk; simp only [hlook0, GMap.look, if_true]; rw [f3]; simp
      · simp only [GMap.look, hk, if_false]
        rw [f3]; simp only [hk, false_and, if_false]
    · intro id
      rw [i4 id, f4]
      constructor
      · rintro (⟨k, r, h1, h2⟩ | h2 | h2)
        · have hne : k0 ≠ k := by rintro rfl; rw [hlook0] at h1; simp at h1
          exact .inl ⟨k, r, by simp [GMap.look, hne, h1], h2⟩
        · exact .inl ⟨k0, r0, by simp [GMap.look], h2⟩
        · exact .inr h2
      · rintro (⟨k, r, h1, h2⟩ | h2)
        · by_cases hk : k0 = k
          · subst hk; simp [GMap.look] at h1; subst h1; exact .inr (.inl h2)
          · simp [GMap.look, hk] at h1; exact .inl ⟨k, r, h1, h2⟩
        · exact .inr (.inr h2)

end

/-- The whole provenance of a pending batch. -/
structure BlockProv (C : Codec) (S : RMsg → Prop) (tracked : GoStr → Bool) (h : Hash) (pb : PB) : Prop where
  head : ∃ hd b, Of S h 0 hd ∧ C.decBatch hd.value = some b ∧ Recorded pb hd ∧ pb.number = b.number ∧
    pb.weight = bytesNat b.weight ∧ pb.parentHash = b.parentHash ∧ PBProv C S tracked h b pb
  defaults : ∀ s o, pb.resumptionDefaults.get? s = some o → ∃ m, S m ∧ m.source = s ∧ m.offset = o

theorem head_of_headD {m : RMsg} (hlen : 33 ≤ m.key.length) {t : UInt8} (h : m.key.headD 0 = t) : m.key.head? = some t := by
  cases hk : m.key with
  | nil => rw [hk] at hlen; simp at hlen
  | cons a r => rw [hk] at h; simpa using h

theorem headerPB_prov {C : Codec} {env : Env} {S : RMsg → Prop} {tracked : GoStr → Bool} {mp : MP} {m : RMsg} {b : Batch}
    (hm : S m) (ht : mp.tracked = tracked) : PBProv C S tracked (hashOf m.key) b (headerPB env mp m (hashOf m.key) b) ∧
      Recorded (headerPB env mp m (hashOf m.key) b) m := by
  have hf := headerPB_fields env mp m (hashOf m.key) b
  obtain ⟨hf1, hf2, _, rfl, hf3⟩ := hf
  have hnd : ((env.order.ord (2 * mp.tick) b.updates.entries).map Prod.fst).Nodup :=
    ((env.order.perm _ _).map _).nodup_iff.mpr b.updates.nodup
  have hlook : ∀ k, GMap.look k (env.order.ord (2 * mp.tick) b.updates.entries) = b.updates.get? k := by
    intro k
    apply Option.ext
    intro r
    rw [GMap.look_eq_some_iff hnd, GMap.get?_eq_some_iff]
    exact (env.order.perm _ _).mem_iff
  obtain ⟨i1, i2, i3, i4⟩ := headerFold_spec mp.tracked _ hnd (newPB mp (hashOf m.key) b m)
  have hn : (newPB mp (hashOf m.key) b m).values = GMap.empty ∧ (newPB mp (hashOf m.key) b m).deletes = GMap.empty ∧
      (newPB mp (hashOf m.key) b m).prefixes = GMap.empty ∧ (newPB mp (hashOf m.key) b m).pendingBatches = GMap.empty := by
    unfold newPB
    obtain ⟨r, hr⟩ := PB.updateResumption_eq
      { number := b.number, weight := bytesNat b.weight, parentHash := b.parentHash, hash := hashOf m.key, values := GMap.empty,
        deletes := GMap.empty, prefixes := GMap.empty, batches := GMap.empty, pendingBatches := GMap.empty,
        pendingMessages := GMap.empty, resumption := GMap.empty, resumptionDefaults := mp.resumption,
        waitCh := some mp.nextCh, frp := mp.frp } m.source m.offset
    rw [hr]; exact ⟨rfl, rfl, rfl, rfl⟩
  simp only [hlook, hn.1, hn.2.1, hn.2.2.1, hn.2.2.2, ht, GMap.get?_empty] at i1 i2 i3 i4
  have hunit : ∀ {K V : Type} [DecidableEq K] (k : K), (GMap.empty : GMap K V).contains k = false := fun _ => rfl
  simp only [hunit, Bool.false_eq_true, or_false] at i2 i4
  have hrec : Recorded (headerPB env mp m (hashOf m.key) b) m := by
    unfold Recorded
    rw [hf3]
    exact recorded_update _ m
  refine ⟨⟨?_, ?_, ?_, ?_, ?_, ?_, ?_, ?_⟩, hrec⟩
  · intro k v hk
    unfold headerPB at hk
    rw [ht, i1] at hk
    split at hk
    · rename_i r hr
      split at hk
      · rename_i hc; exact .inline r ⟨hr, hc.1⟩ (by simpa using hk)
      · simp at hk
    · simp at hk
  · intro k hk
    unfold headerPB at hk
    rw [ht, i2] at hk
    obtain ⟨r, hr, hc, hd⟩ := hk
    exact .inline r ⟨hr, hc⟩ hd
  · intro k c hk
    unfold headerPB at hk
    rw [ht, i3] at hk
    split at hk
    · rename_i r hr
      split at hk
      · rename_i hc; exact ⟨r, ⟨hr, hc.1⟩, hc.2⟩
      · simp at hk
    · simp at hk
  · intro id hid
    unfold headerPB at hid
    rw [ht, i4] at hid
    obtain ⟨k, r, hr, hc, hs, hz⟩ := hid
    exact ⟨k, r, ⟨hr, hc⟩, hs, hz⟩
  · rw [hf1]; intro id l hl; simp at hl
  · rw [hf1]; intro id l i hl; simp at hl
  · rw [hf2]; intro k m' hl; simp at hl
  · rw [hf3]
    unfold newPB
    refine resFrom_update (m := m) ?_ hm rfl
    intro s o hs; simp at hs

theorem prov_parts (C : Codec) (env : Env) (S : RMsg → Prop) (hS : ∀ m, S m → 33 ≤ m.key.length) (tracked : GoStr → Bool)
    (frp : Bool) : LiftParts C env true S (BlockProv C S tracked)
      (fun r => ∀ s o, r.get? s = some o → ∃ m, S m ∧ m.source = s ∧ m.offset = o) tracked frp where
  short := .inl rfl
  subOk := .inl rfl
  applyOk := .inl rfl
  res mp m hm h := by
    intro s o hs
    unfold MP.updateResumption at hs
    split at hs
    · simp only [GMap.get?_insert] at hs
      split at hs
      · rename_i e; cases hs; exact ⟨m, hm, e, rfl⟩
      · exact h s o hs
    · split at hs
      · simp only [GMap.get?_insert] at hs
        split at hs
        · rename_i e; cases hs; exact ⟨m, hm, e, rfl⟩
        · exact h s o hs
      · exact h s o hs
  header mp m b hm ht hf hG htype hd := by
    have hh := headerPB_head env mp m (hashOf m.key) b
    have hn := newPB_head mp (hashOf m.key) b m
    obtain ⟨h1, h2⟩ := headerPB_prov (C := C) (env := env) (b := b) hm ht
    refine ⟨⟨m, b, ⟨hm, rfl, head_of_headD (hS m hm) htype⟩, hd, h2, hh.number.trans hn.2.1, hh.weight.trans hn.2.2.2.1,
      hh.parentHash.trans hn.2.2.1, h1⟩, ?_⟩
    rw [hh.defaults, hn.2.2.2.2.2.2]; exact hG
  subErr m pb hm h _ _ _ _ := by
    obtain ⟨hd, b, h1, h2, h3, h4, h5, h6, hp⟩ := h.head
    refine ⟨⟨hd, b, h1, h2, h3, h4, h5, h6, ?_⟩, h.defaults⟩
    refine ⟨fun k v hk => (hp.values k v hk).mono (.of_eq rfl), fun k hk => (hp.deletes k hk).mono (.of_eq rfl), hp.prefixes,
      ?_, hp.batches, hp.bits, hp.msgs, hp.res⟩
    intro id hid
    simp only [GMap.contains_erase, Bool.and_eq_true] at hid
    exact hp.subs id hid.2
  sub t m pb pb' n hm h _ ht hc hn ha := by
    obtain ⟨hd, b, h1, h2, h3, h4, h5, h6, hp⟩ := h.head
    obtain ⟨hp', hl, hr⟩ := hp.addSub ⟨hm, rfl, head_of_headD (hS m hm) ht⟩ hc hn ha
    have hh := sameHead_addSub ha
    exact ⟨⟨hd, b, h1, h2, hl.recorded h3, hh.number.trans h4, hh.weight.trans h5, hh.parentHash.trans h6, hp'⟩,
      by rw [hh.defaults]; exact h.defaults⟩
  apply m pb pb' r hm h _ _ ha := by
    obtain ⟨hd, b, h1, h2, h3, h4, h5, h6, hp⟩ := h.head
    obtain ⟨hp', hl, hr⟩ := hp.apply hm rfl ha
    have hh := sameHead_apply ha
    exact ⟨⟨hd, b, h1, h2, hl.recorded h3, hh.number.trans h4, hh.weight.trans h5, hh.parentHash.trans h6, hp'⟩,
      by rw [hh.defaults]; exact h.defaults⟩

/-- Runs that return only processed keys of at least 33 bytes. -/
theorem run_ok_len {C : Codec} {env : Env} {mp mp' : MP} {ms : List RMsg} (h : mp.run C env ms = .ok mp') :
    ∀ m ∈ ms, 33 ≤ m.key.length := by
  induction ms generalizing mp with
  | nil => simp
  | cons m ms ih =>
    simp only [MP.run] at h
    have hm : 33 ≤ m.key.length := by
      refine Classical.byContradiction fun hlt => ?_
      have : mp.processMessage C env m = .error .panic := by
        unfold MP.processMessage
        generalize MP.step C env (fun _ _ => .error .hang) = self
        unfold MP.step
        simp only []
        rw [if_pos (by omega)]
      rw [this] at h; simp at h
    match hp : mp.processMessage C env m with
    | .error f => rw [hp] at h; simp at h
    | .ok (mp1, e) =>
      rw [hp] at h
      intro m' hm'
      rcases List.mem_cons.mp hm' with rfl | hm'
      · exact hm
      · exact ih h m' hm'

end Verif
