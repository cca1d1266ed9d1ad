import Verif.Proofs.Provenance
import Verif.Spec.Consumer
/-! More invariants of the processor: what is not emitted, and how recorded offsets survive. -/
namespace Verif
open Spec

/-- Nothing of block `h` was emitted since `E0`. -/
def Quiet (h : Hash) (E0 : List PB) (mp : MP) : Prop := ∃ es, mp.emitted = E0 ++ es ∧ ∀ pb ∈ es, pb.hash ≠ h

theorem quiet_finish {h : Hash} {E0 : List PB} {mp : MP} (hB : Base mp) (hd : Quiet h E0 mp) {hash : Hash} (hne : hash ≠ h) :
    Quiet h E0 (mp.finish hash) := by
  rcases finish_cases mp hash with ⟨he, _⟩ | ⟨pb, hp, hr, he⟩
  · rw [he]; exact hd
  · rw [he]
    obtain ⟨es, he1, he2⟩ := hd
    refine ⟨es ++ [pb], ?_, ?_⟩
    · rw [emitted_append_batch (mp := mp) (pb := pb) rfl, he1]; simp
    · intro q hq
      rcases List.mem_append.mp hq with hq | hq
      · exact he2 q hq
      · simp only [List.mem_singleton] at hq; subst hq
        rw [hB.hashes _ _ hp]; exact hne

theorem Quiet.same {h : Hash} {E0 : List PB} {mp mp' : MP} (hd : Quiet h E0 mp) (h2 : mp'.emitted = mp.emitted) :
    Quiet h E0 mp' := by unfold Quiet; rw [h2]; exact hd

theorem onReorg_emitted {C : Codec} {mp mp' : MP} {m : RMsg} {hash : Hash} {e : Option Err}
    (h : mp.onReorg C m hash = .ok (mp', e)) : mp'.emitted = mp.emitted := by
  unfold MP.onReorg at h
  simp only [] at h
  split at h
  · simp at h; rw [← h.1]; rfl
  · simp at h; rw [← h.1]; unfold MP.emitted; rw [List.filterMap_append]; simp

theorem addHeader_emitted (env : Env) (mp : MP) (m : RMsg) (hash : Hash) (b : Batch) :
    (mp.addHeader env m hash b).emitted = mp.emitted := by simp [MP.emitted, MP.addHeader]

/-- Messages of other blocks do not emit `h`. -/
theorem quiet_parts (C : Codec) (env : Env) (h : Hash) (E0 : List PB) :
    XParts C env true (fun m => m.key.headD 0 ≠ ReorgType → hashOf m.key ≠ h) (Quiet h E0) where
  begin mp m _ hB hv := hv.same (emitted_of_log (begin_fields env mp m).2.2.1)
  short := .inl rfl
  reorg mp m hq _ hv ht := Post.of_ok fun mp' e hr => hv.same (onReorg_emitted hr)
  add mp m b hne hB hv ht _ _ _ _ := hv.same (addHeader_emitted _ _ _ _ _)
  sub mp m hne hB hb hqt _ _ _ := by
    have hne := hne hqt.1
    unfold MP.onSubHeader
    split
    · exact hb.same rfl
    · rename_i pb hp
      simp only []
      split
      · exact hb
      · split
        · exact hb.same rfl
        · split
          · rfl
          · rename_i pb' hpb
            exact quiet_finish (hB.update hp (sameHead_addSub hpb).hash) (hb.same rfl) hne
  other mp m hne hB hb hqt _ _ _ := by
    have hne := hne hqt.1
    unfold MP.onOther
    split
    · exact hb.same rfl
    · rename_i pb hp
      split
      · rfl
      · rename_i pb' _ hpb
        exact quiet_finish (hB.update hp (sameHead_apply hpb).hash) (hb.same rfl) hne
  queued mp m q' e hne ht hB hv hq he := by
    intro _
    rw [(hB.queue _ _ _ hq he).2.1]
    exact hne (by rw [ht]; decide)
  drop mp m hne ht _ hv := hv.same rfl
  finish mp m hne ht hB hv := quiet_finish hB hv (hne (by rw [ht]; decide))

/-! ## Recorded offsets survive until emission -/

theorem recLe_apply {C : Codec} {pb pb' : PB} {m : RMsg} {r : Bool} (ha : pb.applyMessage C m = .ok (pb', r)) :
    RecLe pb pb' ∧ Recorded pb' m := by
  unfold PB.applyMessage at ha
  have hl0 := recLe_update pb m.source m.offset
  have hr0 := recorded_update pb m
  generalize pb.updateResumption m.source m.offset = pb0 at *
  have keep : ∀ {q : PB}, q.resumption = pb0.resumption → RecLe pb q ∧ Recorded q m := by
    intro q hq
    exact ⟨hl0.trans (.of_eq hq), (RecLe.of_eq hq).recorded hr0⟩
  simp only [] at ha
  split at ha
  · simp at ha
  split at ha
  · unfold PB.applySubBatchMsg at ha
    split at ha
    · simp at ha
    simp only [] at ha
    split at ha
    · simp at ha; rw [← ha.1]; exact keep rfl
    split at ha
    · simp at ha; rw [← ha.1]; exact keep rfl
    split at ha
    · simp at ha
    split at ha
    · simp at ha; rw [← ha.1]; exact keep rfl
    split at ha
    · simp at ha; rw [← ha.1]; exact keep rfl
    simp at ha
    rw [← ha.1]; exact keep rfl
  split at ha
  · unfold PB.applyBatchMsg at ha
    simp only [] at ha
    split at ha
    · simp at ha; rw [← ha.1]; exact keep rfl
    split at ha
    · simp at ha
    · simp at ha; rw [← ha.1]; exact keep rfl
    · simp at ha; rw [← ha.1]; exact keep rfl
  split at ha
  · unfold PB.applyDeleteMsg at ha
    simp only [] at ha
    split at ha
    · simp at ha; rw [← ha.1]; exact keep rfl
    split at ha
    · simp at ha
    · simp at ha; rw [← ha.1]; exact keep rfl
    · simp at ha; rw [← ha.1]; exact keep rfl
  · simp at ha; rw [← ha.1]; exact keep rfl

theorem recLe_drain {C : Codec} {pb pb' : PB} {l : List (Bytes × RMsg)} (hd : PB.drain C pb l = .ok pb') : RecLe pb pb' := by
  induction l generalizing pb with
  | nil => simp [PB.drain] at hd; subst hd; exact RecLe.refl _
  | cons e l ih =>
    obtain ⟨k, m⟩ := e
    simp only [PB.drain] at hd
    match ha : pb.applyMessage C m with
    | .error f => rw [ha] at hd; simp at hd
    | .ok (pb1, true) =>
      rw [ha] at hd
      have h2 : RecLe { pb1 with pendingMessages := pb1.pendingMessages.erase k } pb' := ih hd
      exact (recLe_apply ha).1.trans (RecLe.trans (.of_eq rfl) h2)
    | .ok (pb1, false) =>
      rw [ha] at hd
      exact (recLe_apply ha).1.trans (ih hd)

theorem recLe_addSub {C : Codec} {env : Env} {t : Nat} {pb pb' : PB} {n : Int} {id : Hash} {m : RMsg}
    (hd : pb.addSubHeader C env t m id n = .ok pb') : RecLe pb pb' ∧ Recorded pb' m := by
  unfold PB.addSubHeader at hd
  split at hd
  · simp at hd
  simp only [] at hd
  have h1 := recLe_drain hd
  have h2 : RecLe pb { pb with
      pendingBatches := pb.pendingBatches.erase id
      batches := pb.batches.insert id (List.replicate n.toNat false) } := .of_eq rfl
  exact ⟨h2.trans ((recLe_update _ _ _).trans h1), h1.recorded (recorded_update _ m)⟩

/-- Block `h` is still being assembled with all offsets `pb` had recorded, or its first emission since `E0` has them. -/
inductive Tracks (h : Hash) (E0 : List PB) (pb : PB) (mp : MP) : Prop
  | pending (pb' : PB) (hp : mp.pendingBatches.get? h = some pb') (hr : RecLe pb pb') (hn : pb'.number = pb.number)
      (hq : Quiet h E0 mp)
  | done (es : List PB) (pb' : PB) (rest : List PB) (he : mp.emitted = E0 ++ es ++ pb' :: rest) (hes : ∀ x ∈ es, x.hash ≠ h)
      (hh : pb'.hash = h) (hr : RecLe pb pb')

theorem emitted_finish (mp : MP) (hash : Hash) : ∃ es, (mp.finish hash).emitted = mp.emitted ++ es := by
  rcases finish_cases mp hash with ⟨he, _⟩ | ⟨pb, hp, hr, he⟩
  · exact ⟨[], by rw [he]; simp⟩
  · exact ⟨[pb], by rw [he]; exact emitted_append_batch rfl⟩

theorem tracks_finish {h : Hash} {E0 : List PB} {pb : PB} {mp : MP} (hB : Base mp) (ht : Tracks h E0 pb mp) (hash : Hash) :
    Tracks h E0 pb (mp.finish hash) := by
  cases ht with
  | done es pb' rest he hes hh hr =>
    obtain ⟨x, hx⟩ := emitted_finish mp hash
    exact .done es pb' (rest ++ x) (by rw [hx, he]; simp) hes hh hr
  | pending pb' hp hr hn hq =>
    by_cases hne : hash = h
    · subst hne
      rcases finish_cases mp hash with ⟨he, _⟩ | ⟨pb1, hp1, hr1, he⟩
      · rw [he]; exact .pending pb' hp hr hn hq
      · rw [hp] at hp1; cases hp1
        obtain ⟨es, h1, h2⟩ := hq
        refine .done es pb' [] ?_ h2 (hB.hashes _ _ hp) hr
        rw [he, emitted_append_batch (mp := mp) (pb := pb') rfl, h1]
    · refine .pending pb' ?_ hr hn (quiet_finish hB hq hne)
      exact (view_finish (h := h) (pb := some pb') (q := mp.pendingMessages.get? h) ⟨hp, rfl⟩ hne).pending

theorem Tracks.same {h : Hash} {E0 : List PB} {pb : PB} {mp mp' : MP} (ht : Tracks h E0 pb mp)
    (h1 : mp'.pendingBatches.get? h = mp.pendingBatches.get? h) (h2 : mp'.emitted = mp.emitted) : Tracks h E0 pb mp' := by
  cases ht with
  | done es pb' rest he hes hh hr => exact .done es pb' rest (by rw [h2]; exact he) hes hh hr
  | pending pb' hp hr hn hq => exact .pending pb' (by rw [h1]; exact hp) hr hn (hq.same h2)

theorem Tracks.update {h : Hash} {E0 : List PB} {pb : PB} {mp : MP} (ht : Tracks h E0 pb mp) {hash : Hash} {p p' : PB}
    (hp : mp.pendingBatches.get? hash = some p) (hr : RecLe p p') (hn : p'.number = p.number) :
    Tracks h E0 pb { mp with pendingBatches := mp.pendingBatches.insert hash p' } := by
  by_cases hne : hash = h
  · subst hne
    cases ht with
    | done es pb' rest he hes hh hr => exact .done es pb' rest he hes hh hr
    | pending pb' hp' hr' hn' hq =>
      rw [hp] at hp'; cases hp'
      exact .pending p' (by simp) (hr'.trans hr) (hn.trans hn') (hq.same rfl)
  · exact ht.same (by simp only [GMap.get?_insert_ne _ _ hne]) rfl

theorem tracks_parts (C : Codec) (env : Env) (h : Hash) (E0 : List PB) (pb : PB) (hk : Keeps env pb.number) :
    XParts C env true (fun _ => True) (Tracks h E0 pb) where
  begin mp m _ hB ht := by
    have he := emitted_of_log (begin_fields env mp m).2.2.1
    cases ht with
    | done es pb' rest he' hes hh hr => exact .done es pb' rest (by rw [he]; exact he') hes hh hr
    | pending pb' hp hr hn hq =>
      rcases begin_get env mp m h with ⟨h1, _⟩ | ⟨b, h1, ⟨n, hn', hlt⟩, _⟩
      · exact .pending pb' (by rw [h1]; exact hp) hr hn (hq.same he)
      · rw [hp] at h1; cases h1
        have := hk _ n hn'
        omega
  short := .inl rfl
  reorg mp m _ _ ht _ := Post.of_ok fun mp' e hr => by
    refine ht.same ?_ (onReorg_emitted hr)
    unfold MP.onReorg at hr
    simp only [] at hr
    split at hr <;> (simp at hr; rw [← hr.1])
  add mp m b _ hB ht _ _ _ _ hnone := by
    cases ht with
    | done es pb' rest he' hes hh hr =>
      exact .done es pb' rest (by rw [addHeader_emitted]; exact he') hes hh hr
    | pending pb' hp hr hn hq =>
      have hne : hashOf m.key ≠ h := by intro e; rw [e, hp] at hnone; simp at hnone
      exact .pending pb' (by simp only [MP.addHeader, GMap.get?_insert_ne _ _ hne]; exact hp) hr hn
        (hq.same (addHeader_emitted _ _ _ _ _))
  sub mp m _ hB ht hqt _ _ _ := by
    unfold MP.onSubHeader
    split
    · exact ht.same rfl rfl
    · rename_i p hp
      simp only []
      split
      · exact ht
      · split
        · exact ht.update hp (.of_eq rfl) rfl
        · split
          · rfl
          · rename_i pb' hpb
            exact tracks_finish (hB.update hp (sameHead_addSub hpb).hash)
              (ht.update hp (recLe_addSub hpb).1 (sameHead_addSub hpb).number) _
  other mp m _ hB ht hqt _ _ _ := by
    unfold MP.onOther
    split
    · exact ht.same rfl rfl
    · rename_i p hp
      split
      · rfl
      · rename_i pb' _ hpb
        exact tracks_finish (hB.update hp (sameHead_apply hpb).hash)
          (ht.update hp (recLe_apply hpb).1 (sameHead_apply hpb).number) _
  queued mp m q' e hne ht hB hv hq he := trivial
  drop mp m hne _ _ ht := ht.same rfl rfl
  finish mp m _ _ hB ht := tracks_finish hB ht _

end Verif
