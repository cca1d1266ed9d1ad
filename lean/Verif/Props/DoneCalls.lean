import Verif.Model.DoneCalls
import Verif.Proofs.Waiter

/-
C116: `Done` may be called by several goroutines.
-/

namespace Verif

/-- Nothing can happen any more. -/
def Spec.DStuck (s : DSys) : Prop := ∀ u, ¬ DSys.Step s u

/-- Two goroutines are to call `Done` on the same block, which has a channel. -/
def Spec.SharedBlock (w : Nat → Option Nat) (ps : List (List Nat)) : Prop :=
  ∃ (i j : Nat) (p q : List Nat) (b c : Nat), i ≠ j ∧ ps[i]? = some p ∧ ps[j]? = some q ∧ b ∈ p ∧ b ∈ q ∧ w b = some c

/-- What blocks hold when nobody has called `Done`: channels of their own, all open. -/
structure Spec.FreshChannels (w : Nat → Option Nat) (closed : List Nat) : Prop where
  own : ∀ a b c, w a = some c → w b = some c → a = b
  opened : ∀ b c, w b = some c → c ∉ closed
  once : closed.Nodup

open Spec

theorem dset_get {s : List DGo} {i j : Nat} {g h : DGo} (hh : (s.set i g)[j]? = some h) : (j = i ∧ h = g) ∨ (j ≠ i ∧ s[j]? = some h) := by
  by_cases e : j = i
  · subst e
    have hlt : j < s.length := by simpa using (List.getElem?_eq_some_iff.mp hh).1
    rw [List.getElem?_set_self hlt] at hh
    cases hh
    exact .inl ⟨rfl, rfl⟩
  · rw [List.getElem?_set_ne (Ne.symm e)] at hh
    exact .inr ⟨e, hh⟩

/-- What holds of one goroutine with the program `p`. -/
structure DGood (w : Nat → Option Nat) (s : DSys) (p : List Nat) (g : DGo) : Prop where
  split : ∃ d, p = d ++ g.todo ∧ ∀ b c, b ∈ d → w b = some c → c ∈ s.closed
  got : ∀ c, g.phase = .got c → ∃ b rest, g.todo = b :: rest ∧ w b = some c ∧ s.wait b = some c
  closing : ∀ c, g.phase = .closing c → ∃ b rest, g.todo = b :: rest ∧ w b = some c ∧ s.wait b = none ∧ c ∉ s.closed

structure DInv (w : Nat → Option Nat) (cl : List Nat) (ps : List (List Nat)) (s : DSys) : Prop where
  alive : s.panicked = false
  len : s.gs.length = ps.length
  each : ∀ (i : Nat) p g, ps[i]? = some p → s.gs[i]? = some g → DGood w s p g
  wait : ∀ b, s.wait b = none ∨ s.wait b = w b
  opened : ∀ b c, s.wait b = some c → c ∉ s.closed
  gone : ∀ b c, s.wait b = none → w b = some c → c ∈ s.closed ∨ ∃ (i : Nat) (rest : List Nat), s.gs[i]? = some ⟨b :: rest, .closing c⟩
  from_ : ∀ c, c ∈ s.closed → c ∈ cl ∨ ∃ (i : Nat) (p : List Nat) (b : Nat), ps[i]? = some p ∧ b ∈ p ∧ w b = some c
  old : ∀ c, c ∈ cl → c ∈ s.closed
  once : s.closed.Nodup

theorem dinit_get {w cl} {ps : List (List Nat)} {i : Nat} {g : DGo} (h : (DSys.init w cl ps).gs[i]? = some g) : ∃ p, ps[i]? = some p ∧ g = ⟨p, .idle⟩ := by
  simp only [DSys.init, List.getElem?_map, Option.map_eq_some_iff] at h
  obtain ⟨p, hp, e⟩ := h
  exact ⟨p, hp, e.symm⟩

theorem dinv_init {w cl} {ps : List (List Nat)} (hf : FreshChannels w cl) : DInv w cl ps (.init w cl ps) where
  alive := rfl
  len := by simp [DSys.init]
  each := by
    intro i p g hp hg
    obtain ⟨p', hp', rfl⟩ := dinit_get hg
    rw [hp] at hp'
    cases hp'
    exact ⟨⟨[], rfl, fun b c hb => by cases hb⟩, (fun c h => by cases h), (fun c h => by cases h)⟩
  wait := fun b => .inr rfl
  opened := hf.opened
  gone := by
    intro b c h1 h2
    rw [show (DSys.init w cl ps).wait b = w b from rfl, h2] at h1
    cases h1
  from_ := fun c hc => .inl hc
  old := fun c hc => hc
  once := hf.once

theorem dprog {w cl} {ps : List (List Nat)} {s : DSys} (hv : DInv w cl ps s) {i : Nat} {g : DGo} (hg : s.gs[i]? = some g) : ∃ p, ps[i]? = some p := by
  have := (List.getElem?_eq_some_iff.mp hg).1
  rw [hv.len] at this
  exact ⟨_, List.getElem?_eq_getElem this⟩

theorem dinv_step {w cl} {ps : List (List Nat)} (hf : FreshChannels w cl) (hsep : ¬ SharedBlock w ps) {s u : DSys} (hv : DInv w cl ps s) (hst : DSys.Step s u) : DInv w cl ps u := by
  -- a block with a channel that is in two programs is in one
  have uniq : ∀ (i j : Nat) (p q : List Nat) (b c : Nat), ps[i]? = some p → ps[j]? = some q → b ∈ p → b ∈ q → w b = some c → i = j := fun i j p q b c h1 h2 h3 h4 h5 =>
    Classical.byContradiction fun hne => hsep ⟨i, j, p, q, b, c, hne, h1, h2, h3, h4, h5⟩
  have mem_of : ∀ {p : List Nat} {g : DGo} {b rest}, DGood w s p g → g.todo = b :: rest → b ∈ p := by
    intro p g b rest hgood ht
    obtain ⟨d, e, _⟩ := hgood.split
    rw [e, ht]
    simp
  cases hst with
  | @none i b rest hp hg hw =>
    obtain ⟨p, hpi⟩ := dprog hv hg
    have hgood := hv.each i p _ hpi hg
    have hcl : ∀ c, w b = some c → c ∈ s.closed := by
      intro c hc
      rcases hv.gone b c hw hc with h | ⟨j, rest', hj⟩
      · exact h
      · obtain ⟨q, hq⟩ := dprog hv hj
        have e := uniq i j p q b c hpi hq (mem_of hgood rfl) (mem_of (hv.each j q _ hq hj) rfl) hc
        subst e
        rw [hg] at hj
        cases hj
    refine { alive := hp, len := by simp [hv.len], each := ?_, wait := hv.wait, opened := hv.opened, gone := ?_, from_ := hv.from_, old := hv.old, once := hv.once }
    · intro j q g hq hgj
      rcases dset_get hgj with ⟨rfl, rfl⟩ | ⟨_, hgj⟩
      · rw [hpi] at hq
        cases hq
        obtain ⟨d, e, hd⟩ := hgood.split
        refine ⟨⟨d ++ [b], by simp [e], fun x c hx hc => ?_⟩, (fun c h => by cases h), (fun c h => by cases h)⟩
        rcases List.mem_append.mp hx with h | h
        · exact hd x c h hc
        · simp only [List.mem_singleton] at h
          subst h
          exact hcl c hc
      · have hj := hv.each j q g hq hgj
        exact ⟨hj.split, hj.got, hj.closing⟩
    · intro x c h1 h2
      rcases hv.gone x c h1 h2 with h | ⟨j, rest', hj⟩
      · exact .inl h
      · refine .inr ⟨j, rest', ?_⟩
        have hne : i ≠ j := fun e => by subst e; rw [hg] at hj; cases hj
        rw [List.getElem?_set_ne hne]
        exact hj
  | @read i b rest c hp hg hw =>
    obtain ⟨p, hpi⟩ := dprog hv hg
    have hgood := hv.each i p _ hpi hg
    have hwb : w b = some c := by
      rcases hv.wait b with h | h
      · rw [hw] at h; cases h
      · rw [← h]; exact hw
    refine { alive := hp, len := by simp [hv.len], each := ?_, wait := hv.wait, opened := hv.opened, gone := ?_, from_ := hv.from_, old := hv.old, once := hv.once }
    · intro j q g hq hgj
      rcases dset_get hgj with ⟨rfl, rfl⟩ | ⟨_, hgj⟩
      · rw [hpi] at hq
        cases hq
        exact ⟨hgood.split, fun c' h => by cases h; exact ⟨b, rest, rfl, hwb, hw⟩, fun c h => by cases h⟩
      · have hj := hv.each j q g hq hgj
        exact ⟨hj.split, hj.got, hj.closing⟩
    · intro x c' h1 h2
      rcases hv.gone x c' h1 h2 with h | ⟨j, rest', hj⟩
      · exact .inl h
      · refine .inr ⟨j, rest', ?_⟩
        have hne : i ≠ j := fun e => by subst e; rw [hg] at hj; cases hj
        rw [List.getElem?_set_ne hne]
        exact hj
  | @clear i b rest c hp hg =>
    obtain ⟨p, hpi⟩ := dprog hv hg
    have hgood := hv.each i p _ hpi hg
    obtain ⟨b', rest', e, hwb, hwait⟩ := hgood.got c rfl
    cases e
    have hop := hv.opened b c hwait
    have hbp := mem_of hgood rfl
    refine { alive := hp, len := by simp [hv.len], each := ?_, wait := ?_, opened := ?_, gone := ?_, from_ := hv.from_, old := hv.old, once := hv.once }
    · intro j q g hq hgj
      rcases dset_get hgj with ⟨rfl, rfl⟩ | ⟨hji, hgj⟩
      · rw [hpi] at hq
        cases hq
        exact ⟨hgood.split, (fun c' h => by cases h), fun c' h => by cases h; exact ⟨b, rest, rfl, hwb, by simp, hop⟩⟩
      · have hj := hv.each j q g hq hgj
        refine ⟨hj.split, fun c' h => ?_, fun c' h => ?_⟩
        · obtain ⟨x, r, e1, e2, e3⟩ := hj.got c' h
          refine ⟨x, r, e1, e2, ?_⟩
          have hne : x ≠ b := fun e => by subst e; exact hji (uniq j i q p x c' hq hpi (mem_of hj e1) hbp e2)
          simp only [hne, if_false]
          exact e3
        · obtain ⟨x, r, e1, e2, e3, e4⟩ := hj.closing c' h
          refine ⟨x, r, e1, e2, ?_, e4⟩
          dsimp only
          split
          · rfl
          · exact e3
    · intro x
      dsimp only
      split
      · exact .inl rfl
      · exact hv.wait x
    · intro x c' h
      dsimp only at h
      split at h
      · cases h
      · exact hv.opened x c' h
    · intro x c' h1 h2
      by_cases hx : x = b
      · subst hx
        rw [hwb] at h2
        cases h2
        exact .inr ⟨i, rest, List.getElem?_set_self (List.getElem?_eq_some_iff.mp hg).1⟩
      · simp only [hx, if_false] at h1
        rcases hv.gone x c' h1 h2 with h | ⟨j, rest', hj⟩
        · exact .inl h
        · refine .inr ⟨j, rest', ?_⟩
          have hne : i ≠ j := fun e => by subst e; rw [hg] at hj; cases hj
          rw [List.getElem?_set_ne hne]
          exact hj
  | @close i b rest c hp hg hnc =>
    obtain ⟨p, hpi⟩ := dprog hv hg
    have hgood := hv.each i p _ hpi hg
    obtain ⟨b', rest', e, hwb, hwait, _⟩ := hgood.closing c rfl
    cases e
    have hbp := mem_of hgood rfl
    refine { alive := hp, len := by simp [hv.len], each := ?_, wait := hv.wait, opened := ?_, gone := ?_, from_ := ?_, old := ?_, once := ?_ }
    · intro j q g hq hgj
      rcases dset_get hgj with ⟨rfl, rfl⟩ | ⟨hji, hgj⟩
      · rw [hpi] at hq
        cases hq
        obtain ⟨d, e, hd⟩ := hgood.split
        refine ⟨⟨d ++ [b], by simp [e], fun x c' hx hc => ?_⟩, (fun c h => by cases h), (fun c h => by cases h)⟩
        rcases List.mem_append.mp hx with h | h
        · exact List.mem_cons_of_mem _ (hd x c' h hc)
        · simp only [List.mem_singleton] at h
          subst h
          rw [hwb] at hc
          cases hc
          exact List.mem_cons_self
      · have hj := hv.each j q g hq hgj
        refine ⟨?_, hj.got, fun c' h => ?_⟩
        · obtain ⟨d, e, hd⟩ := hj.split
          exact ⟨d, e, fun x c' hx hc => List.mem_cons_of_mem _ (hd x c' hx hc)⟩
        · obtain ⟨x, r, e1, e2, e3, e4⟩ := hj.closing c' h
          refine ⟨x, r, e1, e2, e3, ?_⟩
          intro hmem
          rcases List.mem_cons.mp hmem with e | h
          · subst e
            have := hf.own x b c' e2 hwb
            subst this
            exact hji (uniq j i q p x c' hq hpi (mem_of hj e1) hbp e2)
          · exact e4 h
    · intro x c' h hmem
      rcases List.mem_cons.mp hmem with e | hm
      · subst e
        have hx : w x = some c' := by
          rcases hv.wait x with h' | h'
          · rw [h] at h'; cases h'
          · rw [← h']; exact h
        have := hf.own x b c' hx hwb
        subst this
        have h2 : s.wait x = some c' := h
        rw [hwait] at h2
        cases h2
      · exact hv.opened x c' h hm
    · intro x c' h1 h2
      rcases hv.gone x c' h1 h2 with h | ⟨j, rest', hj⟩
      · exact .inl (List.mem_cons_of_mem _ h)
      · by_cases e : i = j
        · subst e
          rw [hg] at hj
          cases hj
          exact .inl List.mem_cons_self
        · refine .inr ⟨j, rest', ?_⟩
          rw [List.getElem?_set_ne e]
          exact hj
    · intro c' hc'
      rcases List.mem_cons.mp hc' with e | h
      · subst e
        exact .inr ⟨i, p, b, hpi, hbp, hwb⟩
      · exact hv.from_ c' h
    · exact fun c' hc' => List.mem_cons_of_mem _ (hv.old c' hc')
    · exact List.nodup_cons.mpr ⟨hnc, hv.once⟩
  | @panic i b rest c hp hg hc =>
    obtain ⟨p, hpi⟩ := dprog hv hg
    obtain ⟨_, _, _, _, _, hn⟩ := (hv.each i p _ hpi hg).closing c rfl
    exact absurd hc hn

theorem dinv_steps {w cl} {ps : List (List Nat)} (hf : FreshChannels w cl) (hsep : ¬ SharedBlock w ps) {s : DSys} (h : DSys.Steps (.init w cl ps) s) : DInv w cl ps s := by
  generalize hs : DSys.init w cl ps = s0 at h
  induction h with
  | refl => subst hs; exact dinv_init hf
  | step _ hst ih => exact dinv_step hf hsep ih hst

/-- **C116**, the part that holds: when no two goroutines call `Done` on the same block with a channel, no call panics, however the calls interleave … -/
theorem C116_no_panic_partial {w cl} {ps : List (List Nat)} (hf : FreshChannels w cl) (hsep : ¬ SharedBlock w ps) {s : DSys} (h : DSys.Steps (.init w cl ps) s) :
    s.panicked = false ∧ s.closed.Nodup := ⟨(dinv_steps hf hsep h).alive, (dinv_steps hf hsep h).once⟩

/-- A goroutine that is not at its end goes on. -/
theorem dstuck_idle {s : DSys} (hp : s.panicked = false) (hs : DStuck s) {i : Nat} {g : DGo} (hg : s.gs[i]? = some g) (hne : g.phase ≠ .idle → g.todo ≠ []) : g = ⟨[], .idle⟩ := by
  obtain ⟨todo, phase⟩ := g
  cases todo with
  | nil =>
    cases phase with
    | idle => rfl
    | got c => exact absurd rfl (hne (fun e => by cases e))
    | closing c => exact absurd rfl (hne (fun e => by cases e))
  | cons b rest =>
    exfalso
    cases phase with
    | idle =>
      cases hw : s.wait b with
      | none => exact hs _ (.none hp hg hw)
      | some c => exact hs _ (.read hp hg hw)
    | got c => exact hs _ (.clear hp hg)
    | closing c =>
      by_cases hc : c ∈ s.closed
      · exact hs _ (.panic hp hg hc)
      · exact hs _ (.close hp hg hc)

/-- … and when all calls have returned, exactly the channels of the blocks they were made on have been closed, beside those that were closed before. -/
theorem C116_end_partial {w cl} {ps : List (List Nat)} (hf : FreshChannels w cl) (hsep : ¬ SharedBlock w ps) {s : DSys} (h : DSys.Steps (.init w cl ps) s) (hs : DStuck s) :
    (∀ g, g ∈ s.gs → g = ⟨[], .idle⟩) ∧ ∀ c, c ∈ s.closed ↔ c ∈ cl ∨ ∃ p b, p ∈ ps ∧ b ∈ p ∧ w b = some c := by
  have hv := dinv_steps hf hsep h
  have hend : ∀ (i : Nat) g, s.gs[i]? = some g → g = ⟨[], .idle⟩ := by
    intro i g hg
    obtain ⟨p, hp⟩ := dprog hv hg
    have hgood := hv.each i p g hp hg
    refine dstuck_idle hv.alive hs hg (fun hne => ?_)
    cases hph : g.phase with
    | idle => exact absurd hph hne
    | got c => obtain ⟨b, r, e, _⟩ := hgood.got c hph; rw [e]; simp
    | closing c => obtain ⟨b, r, e, _⟩ := hgood.closing c hph; rw [e]; simp
  refine ⟨fun g hg => ?_, fun c => ⟨fun hc => ?_, ?_⟩⟩
  · obtain ⟨i, hi⟩ := List.getElem?_of_mem hg
    exact hend i g hi
  · rcases hv.from_ c hc with h | ⟨i, p, b, h1, h2, h3⟩
    · exact .inl h
    · exact .inr ⟨p, b, List.mem_of_getElem? h1, h2, h3⟩
  · rintro (h | ⟨p, b, h1, h2, h3⟩)
    · exact hv.old c h
    · obtain ⟨i, hi⟩ := List.getElem?_of_mem h1
      have hlt : i < s.gs.length := by rw [hv.len]; exact (List.getElem?_eq_some_iff.mp hi).1
      have hg := List.getElem?_eq_getElem hlt
      have hgood := hv.each i p _ hi hg
      obtain ⟨d, e, hd⟩ := hgood.split
      rw [hend i _ hg, List.append_nil] at e
      subst e
      exact hd b c h2 h3

/-- **C116**, the part that holds, for one goroutine: any calls, on the same blocks as often as one likes. -/
theorem C116_one_partial {w cl} {p : List Nat} (hf : FreshChannels w cl) {s : DSys} (h : DSys.Steps (.init w cl [p]) s) : s.panicked = false ∧ s.closed.Nodup := by
  refine C116_no_panic_partial hf ?_ h
  rintro ⟨i, j, a, b, x, c, hij, h1, h2, _⟩
  match i, j with
  | 0, 0 => exact hij rfl
  | 0, k + 1 => simp at h2
  | k + 1, _ => simp at h1

/-! ## The states of the waiter -/

theorem ws_close_nodup {s t : WS} {c : Nat} (h : s.close c = .ok t) (hn : s.closed.Nodup) : t.closed.Nodup := by
  unfold WS.close at h
  split at h
  · cases h
  · next hc =>
    cases h
    exact List.nodup_cons.mpr ⟨hc, hn⟩

theorem ws_doneAll_nodup {bs : List Nat} {s t : WS} (h : s.doneAll bs = .ok t) (hn : s.closed.Nodup) : t.closed.Nodup := by
  induction bs generalizing s with
  | nil => cases h; exact hn
  | cons b bs ih =>
    unfold WS.doneAll at h
    split at h
    · cases h
    · next u hu =>
      refine ih h ?_
      unfold WS.done at hu
      split at hu
      · cases hu; exact hn
      · exact ws_close_nodup hu hn

theorem ws_reach_nodup {s : WS} (h : s.Reach) : s.closed.Nodup := by
  induction h with
  | init => exact List.nodup_nil
  | @step s r t _ hst ih =>
    generalize hu : (Except.ok t : Except Fault WS) = u at hst
    cases hst with
    | doneAll _ => exact ws_doneAll_nodup hu.symm ih
    | hashFired _ _ =>
      unfold WS.hashFired at hu
      simp only at hu
      split at hu
      · cases hu; exact ih
      · exact ws_close_nodup hu.symm ih
    | complete _ =>
      cases hu
      unfold WS.complete
      split <;> exact ih
    | take _ =>
      cases hu
      unfold WS.take
      simp only
      split <;> exact ih
    | expire _ =>
      cases hu
      unfold WS.expire
      split <;> exact ih
    | _ => cases hu; exact ih

/-- **C116**: the hypothesis on the channels holds in every state that blocks, their announcements, the waiter and completed calls of `Done` can lead to. -/
theorem C116_states {s : WS} (h : s.Reach) : FreshChannels (fun b => (s.block b).waitCh) s.closed where
  own := h.inv.wc_inj
  opened := h.inv.wc_open
  once := ws_reach_nodup h

/-! ## When calls panic -/

theorem DSys.Steps.trans {s t u : DSys} (h1 : Steps s t) (h2 : Steps t u) : Steps s u := by
  induction h2 with
  | refl => exact h1
  | step _ hst ih => exact .step ih hst

/-- A goroutine can make its calls up to a block while the others pause, or panics. The other blocks keep their channels. -/
theorem drun {a r : List Nat} {s : DSys} {i : Nat} (hp : s.panicked = false) (hg : s.gs[i]? = some ⟨a ++ r, .idle⟩) :
    ∃ t, DSys.Steps s t ∧ (t.panicked = true ∨ (t.panicked = false ∧ t.gs = s.gs.set i ⟨r, .idle⟩ ∧ ∀ b, b ∉ a → t.wait b = s.wait b)) := by
  induction a generalizing s with
  | nil =>
    refine ⟨s, .refl, .inr ⟨hp, ?_, fun b _ => rfl⟩⟩
    apply List.ext_getElem?
    intro k
    by_cases e : i = k
    · subst e
      rw [List.getElem?_set_self (List.getElem?_eq_some_iff.mp hg).1]
      exact hg
    · rw [List.getElem?_set_ne e]
  | cons b a ih =>
    have hlt := (List.getElem?_eq_some_iff.mp hg).1
    cases hw : s.wait b with
    | none =>
      obtain ⟨t, h1, h2⟩ := ih (s := { s with gs := s.gs.set i ⟨a ++ r, .idle⟩ }) hp (List.getElem?_set_self hlt)
      refine ⟨t, (DSys.Steps.refl.step (.none hp hg hw)).trans h1, ?_⟩
      rcases h2 with h2 | ⟨h2, h3, h4⟩
      · exact .inl h2
      · refine .inr ⟨h2, ?_, fun x hx => ?_⟩
        · rw [h3, List.set_set]
        · rw [h4 x (fun h => hx (List.mem_cons_of_mem _ h))]
    | some c =>
      have e1 : DSys.Step s { s with gs := s.gs.set i ⟨b :: (a ++ r), .got c⟩ } := .read hp hg hw
      have e2 : DSys.Step { s with gs := s.gs.set i ⟨b :: (a ++ r), .got c⟩ }
          { s with wait := fun x => if x = b then Option.none else s.wait x, gs := (s.gs.set i ⟨b :: (a ++ r), .got c⟩).set i ⟨b :: (a ++ r), .closing c⟩ } :=
        .clear hp (List.getElem?_set_self hlt)
      rw [List.set_set] at e2
      by_cases hc : c ∈ s.closed
      · exact ⟨_, ((DSys.Steps.refl.step e1).step e2).step (.panic hp (List.getElem?_set_self hlt) hc), .inl rfl⟩
      · have e3 : DSys.Step { s with wait := fun x => if x = b then Option.none else s.wait x, gs := s.gs.set i ⟨b :: (a ++ r), .closing c⟩ }
            { s with wait := fun x => if x = b then Option.none else s.wait x, closed := c :: s.closed, gs := (s.gs.set i ⟨b :: (a ++ r), .closing c⟩).set i ⟨a ++ r, .idle⟩ } :=
          .close hp (List.getElem?_set_self hlt) hc
        rw [List.set_set] at e3
        obtain ⟨t, h1, h2⟩ := ih (s := { s with wait := fun x => if x = b then Option.none else s.wait x, closed := c :: s.closed, gs := s.gs.set i ⟨a ++ r, .idle⟩ }) hp
          (List.getElem?_set_self hlt)
        refine ⟨t, (((DSys.Steps.refl.step e1).step e2).step e3).trans h1, ?_⟩
        rcases h2 with h2 | ⟨h2, h3, h4⟩
        · exact .inl h2
        · refine .inr ⟨h2, ?_, fun x hx => ?_⟩
          · rw [h3, List.set_set]
          · rw [h4 x (fun h => hx (List.mem_cons_of_mem _ h))]
            have : x ≠ b := fun e => hx (by rw [e]; exact List.mem_cons_self)
            simp [this]

theorem dfirst_split {b : Nat} {p : List Nat} (h : b ∈ p) : ∃ a r, p = a ++ b :: r ∧ b ∉ a := by
  induction p with
  | nil => cases h
  | cons x p ih =>
    by_cases e : b = x
    · exact ⟨[], p, by rw [e]; rfl, by simp⟩
    · rcases List.mem_cons.mp h with h | h
      · exact absurd h e
      · obtain ⟨a, r, rfl, hn⟩ := ih h
        exact ⟨x :: a, r, rfl, fun hm => (List.mem_cons.mp hm).elim e hn⟩

/-- **C116** exactly: calls of `Done` can panic if and only if two goroutines call it on the same block, and the block has a channel. -/
theorem C116_iff {w cl} {ps : List (List Nat)} (hf : FreshChannels w cl) : (∃ s, DSys.Steps (.init w cl ps) s ∧ s.panicked = true) ↔ SharedBlock w ps := by
  constructor
  · rintro ⟨s, h, hp⟩
    refine Classical.byContradiction fun hsep => ?_
    rw [(C116_no_panic_partial hf hsep h).1] at hp
    cases hp
  · rintro ⟨i, j, p, q, b, c, hij, hi, hj, hbp, hbq, hw⟩
    obtain ⟨a, r, rfl, hna⟩ := dfirst_split hbp
    obtain ⟨a', r', rfl, hna'⟩ := dfirst_split hbq
    have gi : (DSys.init w cl ps).gs[i]? = some ⟨a ++ b :: r, .idle⟩ := by simp [DSys.init, hi]
    have gj : (DSys.init w cl ps).gs[j]? = some ⟨a' ++ b :: r', .idle⟩ := by simp [DSys.init, hj]
    obtain ⟨t1, s1, h1⟩ := drun (s := .init w cl ps) rfl gi
    rcases h1 with h1 | ⟨h1, e1, w1⟩
    · exact ⟨t1, s1, h1⟩
    have gj1 : t1.gs[j]? = some ⟨a' ++ b :: r', .idle⟩ := by rw [e1, List.getElem?_set_ne hij]; exact gj
    obtain ⟨t2, s2, h2⟩ := drun h1 gj1
    rcases h2 with h2 | ⟨h2, e2, w2⟩
    · exact ⟨t2, s1.trans s2, h2⟩
    -- both stand before their calls on `b`
    have hwb : t2.wait b = some c := by rw [w2 b hna', w1 b hna]; exact hw
    have li : i < t2.gs.length := by rw [e2, e1]; simpa using (List.getElem?_eq_some_iff.mp gi).1
    have lj : j < t2.gs.length := by rw [e2, e1]; simpa using (List.getElem?_eq_some_iff.mp gj).1
    have gi2 : t2.gs[i]? = some ⟨b :: r, .idle⟩ := by
      rw [e2, List.getElem?_set_ne (Ne.symm hij), e1, List.getElem?_set_self (List.getElem?_eq_some_iff.mp gi).1]
    have gj2 : t2.gs[j]? = some ⟨b :: r', .idle⟩ := by
      rw [e2, List.getElem?_set_self (List.getElem?_eq_some_iff.mp gj1).1]
    -- both read the channel
    have r1 := s1.trans s2
    have r2 := r1.step (.read h2 gi2 hwb)
    have r3 := r2.step (.read (i := j) h2 (by dsimp only; rw [List.getElem?_set_ne hij]; exact gj2) hwb)
    -- the first clears and closes
    have r4 := r3.step (.clear (i := i) (b := b) (rest := r) (c := c) h2 (by dsimp only; rw [List.getElem?_set_ne (Ne.symm hij), List.getElem?_set_self li]))
    by_cases hc : c ∈ t2.closed
    · exact ⟨_, r4.step (.panic (i := i) (b := b) (rest := r) (c := c) h2 (by dsimp only; rw [List.getElem?_set_self (by simpa using li)]) hc), rfl⟩
    have r5 := r4.step (.close (i := i) (b := b) (rest := r) (c := c) h2 (by dsimp only; rw [List.getElem?_set_self (by simpa using li)]) hc)
    -- the second too
    have r6 := r5.step (.clear (i := j) (b := b) (rest := r') (c := c) h2
      (by dsimp only; rw [List.getElem?_set_ne hij, List.getElem?_set_ne hij, List.getElem?_set_self (by simpa using lj)]))
    exact ⟨_, r6.step (.panic (i := j) (b := b) (rest := r') (c := c) h2 (by dsimp only; rw [List.getElem?_set_self (by simpa using lj)]) (by dsimp only; exact List.mem_cons_self)), rfl⟩

/-- **C116** does not hold of the code: every update is sent to all subscribers (`delivery/ordering.go:274`), and when two or more of them call `Done` on the updates they got, as they
should, and one of the blocks has a channel, the program may end in a panic. -/
theorem C116_refuted {w cl} {p : List Nat} {n b c : Nat} (hf : FreshChannels w cl) (hb : b ∈ p) (hc : w b = some c) :
    ∃ s, DSys.Steps (.init w cl (List.replicate (n + 2) p)) s ∧ s.panicked = true :=
  (C116_iff hf).mpr ⟨0, 1, p, p, b, c, by decide, by simp, by simp, hb, hb, hc⟩

/-! ## Examples -/

/-- Two blocks with channels, one without. -/
def exWait : Nat → Option Nat
  | 0 => some 10
  | 1 => some 11
  | _ => none

theorem exWait_fresh : FreshChannels exWait [7] where
  own := by
    intro a b c ha hb
    match a, b with
    | 0, 0 => rfl
    | 1, 1 => rfl
    | 0, 1 => simp [exWait] at ha hb; omega
    | 1, 0 => simp [exWait] at ha hb; omega
    | 0, k + 2 => simp [exWait] at hb
    | 1, k + 2 => simp [exWait] at hb
    | k + 2, _ => simp [exWait] at ha
  opened := by
    intro b c hb
    match b with
    | 0 => simp [exWait] at hb; subst hb; decide
    | 1 => simp [exWait] at hb; subst hb; decide
    | k + 2 => simp [exWait] at hb
  once := by decide

/-- The hypotheses of `C116_no_panic_partial`: two goroutines that share the block without a channel, and repeat calls. -/
example : ¬ SharedBlock exWait [[0, 2, 0], [2, 1]] := by
  rintro ⟨i, j, p, q, b, c, hij, hi, hj, hp, hq, hw⟩
  match i, j, hi, hj with
  | 0, 0, _, _ => exact hij rfl
  | 1, 1, _, _ => exact hij rfl
  | 0, 1, hi, hj => cases hi; cases hj; simp at hp hq; rcases hq with rfl | rfl <;> simp_all [exWait]
  | 1, 0, hi, hj => cases hi; cases hj; simp at hp hq; rcases hp with rfl | rfl <;> simp_all [exWait]

/-- The hypotheses of `C116_end_partial`: an execution to the end. -/
example : ∃ s, DSys.Steps (.init exWait [7] [[0]]) s ∧ DStuck s ∧ s.closed = [10, 7] := by
  refine ⟨_, .step (.step (.step .refl (.read (i := 0) rfl rfl rfl)) (.clear (i := 0) rfl rfl)) (.close (i := 0) rfl rfl (by decide)), ?_, rfl⟩
  intro u hu
  cases hu with
  | @none i b rest h1 h2 => match i, h2 with | 0, h2 => cases h2
  | @read i b rest c h1 h2 => match i, h2 with | 0, h2 => cases h2
  | @clear i b rest c h1 h2 => match i, h2 with | 0, h2 => cases h2
  | @close i b rest c h1 h2 => match i, h2 with | 0, h2 => cases h2
  | @panic i b rest c h1 h2 => match i, h2 with | 0, h2 => cases h2

/-- The hypotheses of `C116_refuted`. -/
example : ∃ s, DSys.Steps (.init exWait [7] [[0, 1], [0, 1]]) s ∧ s.panicked = true := C116_refuted (n := 0) (c := 11) exWait_fresh (b := 1) (by decide) rfl

end Verif
