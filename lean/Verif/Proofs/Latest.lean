import Verif.Proofs.Provenance
import Verif.Proofs.Kafka
import Verif.Spec.Latest
/-! The offsets noted by the processor are the latest ones received. -/
namespace Verif
open Spec

/-- The noted offsets are the latest ones of `l`. -/
def AllLatest (l : List RMsg) (r : GMap GoStr Int) : Prop := ∀ s, Latest l s (r.get? s)

theorem AllLatest.snoc {l : List RMsg} {mp : MP} (h : AllLatest l mp.resumption) (m : RMsg) :
    AllLatest (l ++ [m]) (mp.updateResumption m.source m.offset).resumption := by
  intro s
  have hs := h s
  have hm := h m.source
  have old : m.source ≠ s → Latest (l ++ [m]) s (mp.resumption.get? s) := by
    intro hne
    cases hg : mp.resumption.get? s with
    | none =>
      rw [hg] at hs
      intro x hx
      rcases List.mem_append.mp hx with hx | hx
      · exact hs x hx
      · rw [List.mem_singleton.mp hx]; exact hne
    | some o =>
      rw [hg] at hs
      obtain ⟨⟨y, hy, e⟩, hmax⟩ := hs
      refine ⟨⟨y, by simp [hy], e⟩, ?_⟩
      intro x hx hxs
      rcases List.mem_append.mp hx with hx | hx
      · exact hmax x hx hxs
      · rw [List.mem_singleton.mp hx] at hxs; exact (hne hxs).elim
  unfold MP.updateResumption
  cases hg : mp.resumption.get? m.source with
  | none =>
    rw [hg] at hm
    simp only [GMap.get?_insert]
    split
    · rename_i e
      subst e
      refine ⟨⟨m, by simp, rfl, rfl⟩, ?_⟩
      intro x hx hxs
      rcases List.mem_append.mp hx with hx | hx
      · exact (hm x hx hxs).elim
      · rw [List.mem_singleton.mp hx]; exact Int.le_refl _
    · rename_i hne; exact old hne
  | some o =>
    rw [hg] at hm
    simp only []
    split
    · rename_i hlt
      simp only [GMap.get?_insert]
      split
      · rename_i e
        subst e
        refine ⟨⟨m, by simp, rfl, rfl⟩, ?_⟩
        intro x hx hxs
        rcases List.mem_append.mp hx with hx | hx
        · have := hm.2 x hx hxs; omega
        · rw [List.mem_singleton.mp hx]; exact Int.le_refl _
      · rename_i hne; exact old hne
    · rename_i hge
      by_cases e : m.source = s
      · subst e
        rw [hg]
        obtain ⟨⟨y, hy, e⟩, hmax⟩ := hm
        refine ⟨⟨y, by simp [hy], e⟩, ?_⟩
        intro x hx hxs
        rcases List.mem_append.mp hx with hx | hx
        · exact hmax x hx hxs
        · rw [List.mem_singleton.mp hx]; omega
      · exact old e

/-- A message already counted changes nothing. -/
theorem AllLatest.again {l : List RMsg} {mp : MP} (h : AllLatest l mp.resumption) {m : RMsg} (hm : m ∈ l) :
    AllLatest l (mp.updateResumption m.source m.offset).resumption := by
  have hs := h m.source
  unfold MP.updateResumption
  cases hg : mp.resumption.get? m.source with
  | none => rw [hg] at hs; exact (hs m hm rfl).elim
  | some o =>
    rw [hg] at hs
    simp only []
    rw [if_neg (by have := hs.2 m hm rfl; omega)]
    exact h

/-- The defaults of a pending batch are the latest offsets at the time its header was received. -/
def FromHeader (l : List RMsg) (h : Hash) (pb : PB) : Prop :=
  ∃ pre m post, l = pre ++ m :: post ∧ m.key.headD 0 = BatchType ∧ hashOf m.key = h ∧ AllLatest (pre ++ [m]) pb.resumptionDefaults

theorem FromHeader.more {l : List RMsg} {h : Hash} {pb : PB} (hf : FromHeader l h pb) (l' : List RMsg) : FromHeader (l ++ l') h pb := by
  obtain ⟨pre, m, post, e, h1, h2, h3⟩ := hf
  exact ⟨pre, m, post ++ l', by rw [e]; simp, h1, h2, h3⟩

theorem latest_parts (C : Codec) (env : Env) (pre : List RMsg) (m : RMsg) (tracked : GoStr → Bool) (frp : Bool) :
    LiftParts C env true (fun x => x = m ∨ (x ∈ pre ∧ QueueType x)) (FromHeader (pre ++ [m])) (AllLatest (pre ++ [m])) tracked frp where
  short := .inl rfl
  subOk := .inl rfl
  applyOk := .inl rfl
  res mp x hx h := by
    refine h.again ?_
    rcases hx with rfl | ⟨hx, _⟩
    · simp
    · simp [hx]
  header mp x b hx ht hf hG htype hd := by
    rcases hx with rfl | ⟨_, hx⟩
    · have hh := headerPB_head env mp x (hashOf x.key) b
      have hn := newPB_head mp (hashOf x.key) b x
      refine ⟨pre, x, [], rfl, htype, rfl, ?_⟩
      rw [hh.defaults, hn.2.2.2.2.2.2]; exact hG
    · exact (hx.2 htype).elim
  subErr x pb _ h _ _ _ _ := h
  sub t x pb pb' n _ h _ ht hc hn ha := by
    obtain ⟨p, y, q, e, h1, h2, h3⟩ := h
    exact ⟨p, y, q, e, h1, h2, by rw [(sameHead_addSub ha).defaults]; exact h3⟩
  apply x pb pb' r _ h _ _ ha := by
    obtain ⟨p, y, q, e, h1, h2, h3⟩ := h
    exact ⟨p, y, q, e, h1, h2, by rw [(sameHead_apply ha).defaults]; exact h3⟩

theorem latest_run {C : Codec} {env : Env} {tracked : GoStr → Bool} {frp : Bool} {post : List RMsg} : ∀ {pre : List RMsg} {mp mp' : MP},
    Base mp → LiftInv (· ∈ pre) (FromHeader pre) (AllLatest pre) tracked frp [] mp → mp.run C env post = .ok mp' →
    LiftInv (· ∈ pre ++ post) (FromHeader (pre ++ post)) (AllLatest (pre ++ post)) tracked frp [] mp' := by
  induction post with
  | nil => intro pre mp mp' _ h hr; simp [MP.run] at hr; subst hr; simpa using h
  | cons m post ih =>
    intro pre mp mp' hB h hr
    have hP := (latest_parts C env pre m tracked frp).parts (E0 := [])
    have hf := begin_fields env mp m
    have hb : Base (mp.begin env m) := (base_parts C env (fun _ => True) (fun _ => trivial)).begin mp m trivial hB
    have hbegun : LiftInv (fun x => x = m ∨ (x ∈ pre ∧ QueueType x)) (FromHeader (pre ++ [m])) (AllLatest (pre ++ [m])) tracked frp []
        (mp.begin env m) := by
      refine ⟨by rw [hf.2.2.2.1]; exact h.tracked, by rw [hf.2.2.2.2.1]; exact h.frp, by rw [begin_resumption]; exact h.res.snoc m, ?_, ?_, ?_⟩
      · intro x pb hp; exact (h.pbs _ _ (begin_pending hp)).more _
      · rw [hf.2.1]
        intro x q e hq he
        exact .inr ⟨h.queue x q e hq he, (hB.queue x q e hq he).1⟩
      · rw [emitted_of_log hf.2.2.1]
        obtain ⟨es, he, hes⟩ := h.emitted
        exact ⟨es, he, fun pb hpb => ⟨(hes pb hpb).1.more _, (hes pb hpb).2⟩⟩
    have hpost := hP.toParts.process_begun (mp := mp) (m := m) (.inl rfl) ⟨hb, hbegun⟩
    simp only [MP.run] at hr
    match hp : mp.processMessage C env m with
    | .error f => rw [hp] at hr; simp at hr
    | .ok (mp1, e) =>
      rw [hp] at hr hpost
      obtain ⟨hB1, h1⟩ := hpost
      have h1' : LiftInv (· ∈ pre ++ [m]) (FromHeader (pre ++ [m])) (AllLatest (pre ++ [m])) tracked frp [] mp1 := by
        refine ⟨h1.tracked, h1.frp, h1.res, h1.pbs, ?_, h1.emitted⟩
        intro x q e hq he
        rcases h1.queue x q e hq he with h2 | h2
        · rw [h2]; simp
        · exact List.mem_append_left _ h2.1
      have := ih hB1 h1' hr
      simpa using this

end Verif
