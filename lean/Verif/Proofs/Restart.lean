import Verif.Proofs.Own
import Verif.Spec.Restart
/-! Which messages the offsets recorded in an emitted block come from. -/
namespace Verif
open Spec

/-- Every offset of the map was received, in `p`, from the source it is noted for. -/
def OffsetsFrom (p : List RMsg) (r : GMap GoStr Int) : Prop := ∀ s o, r.get? s = some o → ∃ x ∈ p, x.source = s ∧ x.offset = o

theorem OffsetsFrom.mono {p q : List RMsg} {r : GMap GoStr Int} (h : OffsetsFrom p r) (hs : ∀ x ∈ p, x ∈ q) : OffsetsFrom q r := by
  intro s o hr
  obtain ⟨x, hx, e⟩ := h s o hr
  exact ⟨x, hs x hx, e⟩

/-- The block's default offsets come from messages received no later than one of its headers. -/
def Noted (p : List RMsg) (h : Hash) (pb : PB) : Prop :=
  ∃ p1 hd p2, p = p1 ++ hd :: p2 ∧ HeaderOf h hd ∧ OffsetsFrom (p1 ++ [hd]) pb.resumptionDefaults

theorem Noted.snoc {p : List RMsg} {h : Hash} {pb : PB} (x : RMsg) (hn : Noted p h pb) : Noted (p ++ [x]) h pb := by
  obtain ⟨p1, hd, p2, rfl, h2, h3⟩ := hn
  exact ⟨p1, hd, p2 ++ [x], by simp, h2, h3⟩

theorem Noted.same {p : List RMsg} {h : Hash} {pb pb' : PB} (hn : Noted p h pb)
    (hd : pb'.resumptionDefaults = pb.resumptionDefaults) : Noted p h pb' := by
  unfold Noted; rw [hd]; exact hn

/-- Messages that may be handled while the last one of `p ++ [x]` is processed: headers only if it is `x`. -/
def Turn (p : List RMsg) (x : RMsg) (m : RMsg) : Prop := m ∈ p ++ [x] ∧ 33 ≤ m.key.length ∧ (m.key.headD 0 = BatchType → m = x)

theorem noted_parts (C : Codec) (env : Env) (p : List RMsg) (x : RMsg) (tracked : GoStr → Bool) (frp : Bool) :
    LiftParts C env true (Turn p x) (Noted (p ++ [x])) (OffsetsFrom (p ++ [x])) tracked frp where
  short := .inl rfl
  subOk := .inl rfl
  applyOk := .inl rfl
  res mp m hm h := by
    intro s o hs
    unfold MP.updateResumption at hs
    split at hs
    · simp only [GMap.get?_insert] at hs
      split at hs
      · rename_i e; cases hs; exact ⟨m, hm.1, e, rfl⟩
      · exact h s o hs
    · split at hs
      · simp only [GMap.get?_insert] at hs
        split at hs
        · rename_i e; cases hs; exact ⟨m, hm.1, e, rfl⟩
        · exact h s o hs
      · exact h s o hs
  header mp m b hm ht hf hG htype hd := by
    have hx := hm.2.2 htype
    have hh := headerPB_head env mp m (hashOf m.key) b
    have hn := newPB_head mp (hashOf m.key) b m
    refine ⟨p, x, [], rfl, ?_, ?_⟩
    · rw [← hx]; exact ⟨rfl, head_of_headD hm.2.1 htype⟩
    · rw [hh.defaults, hn.2.2.2.2.2.2]; exact hG
  subErr m pb hm h _ _ _ _ := h.same rfl
  sub t m pb pb' n hm h _ ht hc hn ha := h.same (sameHead_addSub ha).defaults
  apply m pb pb' r hm h _ _ ha := h.same (sameHead_apply ha).defaults

/-- One message: the property moves on to the longer list. -/
theorem noted_process {C : Codec} {env : Env} {p : List RMsg} {x : RMsg} {tracked : GoStr → Bool} {frp : Bool} {mp mp' : MP}
    {e : Option Err} (hB : Base mp) (hl : 33 ≤ x.key.length) (hQ : ∀ h q e, mp.pendingMessages.get? h = some q → e ∈ q.entries → e.2 ∈ p ∧ 33 ≤ e.2.key.length)
    (hT : mp.tracked = tracked) (hF : mp.frp = frp) (hR : OffsetsFrom p mp.resumption)
    (hP : ∀ h pb, mp.pendingBatches.get? h = some pb → Noted p h pb) (hE : ∀ pb ∈ mp.emitted, Noted p pb.hash pb)
    (h : mp.processMessage C env x = .ok (mp', e)) :
    (∀ h q e, mp'.pendingMessages.get? h = some q → e ∈ q.entries → e.2 ∈ p ++ [x] ∧ 33 ≤ e.2.key.length) ∧
    mp'.tracked = tracked ∧ mp'.frp = frp ∧ OffsetsFrom (p ++ [x]) mp'.resumption ∧
    (∀ h pb, mp'.pendingBatches.get? h = some pb → Noted (p ++ [x]) h pb) ∧ (∀ pb ∈ mp'.emitted, Noted (p ++ [x]) pb.hash pb) := by
  have hi : LiftInv (Turn p x) (Noted (p ++ [x])) (OffsetsFrom (p ++ [x])) tracked frp mp.emitted mp := {
    tracked := hT
    frp := hF
    res := hR.mono (fun y hy => List.mem_append_left _ hy)
    pbs := fun h pb hp => (hP h pb hp).snoc x
    queue := by
      intro h q e hq he
      obtain ⟨h1, h2⟩ := hQ h q e hq he
      exact ⟨List.mem_append_left _ h1, h2, fun ht => absurd ht (hB.queue _ _ _ hq he).1.2⟩
    emitted := ⟨[], by simp, by simp⟩ }
  have := ((noted_parts C env p x tracked frp).parts (E0 := mp.emitted)).toParts.process
    (m := x) ⟨by simp, hl, fun _ => rfl⟩ ⟨hB, hi⟩
  rw [h] at this
  obtain ⟨_, hj⟩ := this
  refine ⟨fun h q e hq he => ⟨(hj.queue h q e hq he).1, (hj.queue h q e hq he).2.1⟩, hj.tracked, hj.frp, hj.res, hj.pbs, ?_⟩
  obtain ⟨es, he, hes⟩ := hj.emitted
  intro pb hpb
  rw [he] at hpb
  rcases List.mem_append.mp hpb with hpb | hpb
  · exact (hE pb hpb).snoc x
  · exact (hes pb hpb).1

theorem noted_run {C : Codec} {env : Env} {tracked : GoStr → Bool} {frp : Bool} {mp mp' : MP} {p r : List RMsg} (hB : Base mp)
    (hQ : ∀ h q e, mp.pendingMessages.get? h = some q → e ∈ q.entries → e.2 ∈ p ∧ 33 ≤ e.2.key.length)
    (hT : mp.tracked = tracked) (hF : mp.frp = frp) (hR : OffsetsFrom p mp.resumption)
    (hP : ∀ h pb, mp.pendingBatches.get? h = some pb → Noted p h pb) (hE : ∀ pb ∈ mp.emitted, Noted p pb.hash pb)
    (hr : mp.run C env r = .ok mp') : ∀ pb ∈ mp'.emitted, Noted (p ++ r) pb.hash pb := by
  induction r generalizing mp p with
  | nil => simp [MP.run] at hr; subst hr; simpa using hE
  | cons x r ih =>
    have hl := run_ok_len hr x (by simp)
    simp only [MP.run] at hr
    match hp : mp.processMessage C env x with
    | .error f => rw [hp] at hr; simp at hr
    | .ok (mp1, e) =>
      rw [hp] at hr
      obtain ⟨h1, h2, h3, h4, h5, h6⟩ := noted_process hB hl hQ hT hF hR hP hE hp
      have := ih (process_base hB hp) h1 h2 h3 h4 h5 h6 hr
      simpa using this

/-- The default offsets of every block emitted by a fresh consumer. -/
theorem emitted_noted {C : Codec} {env : Env} {cfg : Config} {mp mp' : MP} {r : List RMsg} (hn : newMP cfg = .ok mp)
    (hr : mp.run C env r = .ok mp') : ∀ pb ∈ mp'.emitted, Noted r pb.hash pb := by
  have hi := LiftInv.newMP (Q := fun _ => False) (R := fun _ _ => False) (G := OffsetsFrom []) hn (by intro s o h; simp at h)
  obtain ⟨es, he, hes⟩ := hi.emitted
  have := noted_run (p := []) (Base.newMP hn) (fun h q e hq he => (hi.queue h q e hq he).elim) hi.tracked hi.frp hi.res
    (fun h pb hp => (hi.pbs h pb hp).elim) (by
      intro pb hpb; rw [he] at hpb; exact (hes pb (by simpa using hpb)).1.elim) hr
  simpa using this

end Verif
