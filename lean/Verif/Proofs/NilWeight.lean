import Verif.Model.NilWeight
import Verif.Proofs.OrderingBase
/-!
# Missing weights count as zero or crash
-/
namespace Verif

/-- Two computations do the same, except that the first may panic if `c` does not hold. -/
inductive NAgree {α β : Type} (c : Prop) (R : α → β → Prop) : Except Fault α → Except Fault β → Prop
  | crash {y} : ¬ c → NAgree c R (.error .panic) y
  | fault {f} : NAgree c R (.error f) (.error f)
  | same {a b} : R a b → NAgree c R (.ok a) (.ok b)

section NAgree
variable {α β γ δ : Type} {c : Prop} {R : α → β → Prop} {S : γ → δ → Prop}

theorem NAgree.bind {x : Except Fault α} {y : Except Fault β} {f : α → Except Fault γ} {g : β → Except Fault δ} (h : NAgree c R x y)
    (hf : ∀ a b, R a b → NAgree c S (f a) (g b)) : NAgree c S (x >>= f) (y >>= g) := by
  cases h with
  | crash hc => exact .crash hc
  | fault => exact .fault
  | same hr => exact hf _ _ hr

theorem NAgree.foldlM {ι : Type} {f : α → ι → Except Fault α} {g : β → ι → Except Fault β} {l : List ι}
    (hf : ∀ a b i, i ∈ l → R a b → NAgree c R (f a i) (g b i)) {a : α} {b : β} (h : R a b) : NAgree c R (l.foldlM f a) (l.foldlM g b) := by
  induction l generalizing a b with
  | nil => exact .same h
  | cons i l ih =>
    rw [List.foldlM_cons, List.foldlM_cons]
    exact (hf a b i (by simp) h).bind (fun a' b' h' => ih (fun a b i hi => hf a b i (by simp [hi])) h')

theorem NAgree.mapL {S : γ → β → Prop} {x : Except Fault α} {y : Except Fault β} {f : α → γ} (h : NAgree c R x y) (hf : ∀ a b, R a b → S (f a) b) :
    NAgree c S (x >>= fun a => .ok (f a)) y := by
  cases h with
  | crash hc => exact .crash hc
  | fault => exact .fault
  | same hr => exact .same (hf _ _ hr)

theorem NAgree.imp {R' : α → β → Prop} {x : Except Fault α} {y : Except Fault β} (h : NAgree c R x y) (hr : ∀ a b, R a b → R' a b) : NAgree c R' x y := by
  cases h with
  | crash hc => exact .crash hc
  | fault => exact .fault
  | same h => exact .same (hr _ _ h)

/-- The same computation on both sides. -/
theorem NAgree.out {P : α → Prop} {x : Except Fault α} {f : α → Except Fault γ} {g : α → Except Fault δ} (h : Out (fun _ => True) P x)
    (hf : ∀ a, P a → NAgree c S (f a) (g a)) : NAgree c S (x >>= f) (x >>= g) := by
  cases x with
  | error e => exact .fault
  | ok a => exact hf a h

end NAgree

theorem nilLt_agree {c : Prop} {xn yn : Bool} {x y : Nat} (hx : xn = true → x = 0 ∧ ¬ c) (hy : yn = true → y = 0 ∧ ¬ c) :
    NAgree c (fun a b => a = b) (nilLt xn x yn y) (.ok (decide (x < y)) : Except Fault Bool) := by
  cases xn <;> cases yn
  · exact .same rfl
  · exact .crash (hy rfl).2
  · exact .crash (hx rfl).2
  · refine .same ?_
    rw [(hx rfl).1, (hy rfl).1]; rfl

/-- A state with missing weights and what it is for the model without: blocks without a weight have 0. If `c` holds there are none. -/
structure Zeroed (c : Prop) (n : NOMP) : Prop where
  held : ∀ h b, n.s.pending.get? h = some b → n.nils.contains h = true → b.weight = 0
  last : n.lastNil = true → n.s.lastWeight = 0
  none : c → (∀ h, n.nils.contains h = false) ∧ n.lastNil = false
  keys : PendKeys n.s

variable {c : Prop} {o : MapOrder}

theorem difficulty_agree {queued : GMap Hash (GMap Hash Unit)} {pending : GMap Hash PB} {nils : GMap Hash Unit}
    (h1 : ∀ h b, pending.get? h = some b → nils.contains h = true → b.weight = 0) (h2 : c → ∀ h, nils.contains h = false) (fuel : Nat) (h : Hash) :
    NAgree c (fun a b => a.1 = b ∧ (a.2 = true → b = 0 ∧ ¬ c)) (nilDifficultyAux queued pending nils fuel h) (chainDifficultyAux queued pending fuel h) := by
  induction fuel generalizing h with
  | zero => exact .fault
  | succ fuel ih =>
    unfold nilDifficultyAux chainDifficultyAux
    cases queued.get? h with
    | none =>
      refine .same ?_
      cases hb : pending.get? h with
      | some b =>
        refine ⟨rfl, fun hn => ⟨h1 _ _ hb hn, fun hc => ?_⟩⟩
        simp only [h2 hc h] at hn; cases hn
      | none => exact ⟨rfl, fun hn => by cases hn⟩
    | some children =>
      have key : NAgree c (fun a b => a = b)
          (children.keys.foldlM (fun max child => do
            let weight ← nilDifficultyAux queued pending nils fuel child
            let less ← nilLt false max weight.2 weight.1
            .ok (if less then weight.1 else max)) 0)
          (children.keys.foldlM (fun max child => do
            let weight ← chainDifficultyAux queued pending fuel child
            .ok (if max < weight then weight else max)) 0) := by
        refine NAgree.foldlM ?_ rfl
        intro a b child _ hab
        subst hab
        refine (ih child).bind ?_
        intro w v hw
        obtain ⟨rfl, hw⟩ := hw
        have hl := nilLt_agree (c := c) (xn := false) (x := a) (yn := w.2) (y := w.1) (fun e => by cases e) hw
        cases hl2 : nilLt false a w.2 w.1 with
        | error f =>
          rw [hl2] at hl
          cases hl with
          | crash hc => exact .crash hc
        | ok r =>
          rw [hl2] at hl
          cases hl with
          | same hr =>
            refine .same ?_
            simp only [hr, decide_eq_true_eq]
      exact key.mapL (fun a b hab => ⟨hab, fun e => by cases e⟩)

theorem getPendingChild_agree {n : NOMP} (hz : Zeroed c n) (h : Hash) :
    NAgree c (fun a b => a = b) (n.getPendingChild o h) (n.s.getPendingChild o h) := by
  unfold NOMP.getPendingChild OMP.getPendingChild
  cases n.s.queued.get? h with
  | none => exact .same rfl
  | some children =>
    refine NAgree.bind (R := fun a b => a = b) ?_ (fun a b hab => .same (by rw [hab]))
    refine NAgree.foldlM ?_ rfl
    intro a b child _ hab
    subst hab
    refine (difficulty_agree hz.held (fun hc => (hz.none hc).1) _ child).bind ?_
    intro w v hw
    obtain ⟨rfl, hw⟩ := hw
    have hl := nilLt_agree (c := c) (xn := false) (x := a.1) (yn := w.2) (y := w.1) (fun e => by cases e) hw
    cases hl2 : nilLt false a.1 w.2 w.1 with
    | error f =>
      rw [hl2] at hl
      cases hl with
      | crash hc => exact .crash hc
    | ok r =>
      rw [hl2] at hl
      cases hl with
      | same hr =>
        refine .same ?_
        simp only [hr, decide_eq_true_eq]

theorem children_shrink (f : Nat) (s : OMP) (h : Hash) : Out (fun _ => True) (Shrink (fun _ => True) s) (OMP.finishPendingChildrenAux o f s h) := by
  induction f generalizing s h with
  | zero => trivial
  | succ f ih =>
    unfold OMP.finishPendingChildrenAux
    simp only []
    refine (finAdd_shrink o (F := fun _ => True) s trivial).bind ?_
    intro s' hs'
    split
    · exact hs'
    · exact Out.foldlM (fun t x _ ht => (ih t x).imp (fun _ h => ht.trans h)) (hs'.trans (Shrink.tick _ _ _))

theorem siblings_shrink (s : OMP) (pb : PB) : Out (fun _ => True) (Shrink (fun _ => True) s) (s.finishSiblings o pb) := by
  unfold OMP.finishSiblings
  split
  · exact Shrink.refl _ _
  · refine Out.foldlM ?_ (Shrink.tick _ _ _)
    intro t x _ ht
    split
    · exact (children_shrink _ t x).imp (fun _ h => ht.trans h)
    · exact ht

/-- Blocks are dropped and the last weight is replaced. -/
theorem Zeroed.set {n : NOMP} (hz : Zeroed c n) {s : OMP} {b : Bool} (hp : Sub s.pending n.s.pending) (h1 : b = true → s.lastWeight = 0) (h2 : c → b = false) :
    Zeroed c ⟨s, n.nils, b⟩ where
  held h x hx hn := hz.held h x (hp h x hx) hn
  last := h1
  none hc := ⟨(hz.none hc).1, h2 hc⟩
  keys h x hx := hz.keys h x (hp h x hx)

theorem Zeroed.keep {n : NOMP} (hz : Zeroed c n) {s : OMP} (hp : Sub s.pending n.s.pending) (h1 : s.lastWeight = n.s.lastWeight) :
    Zeroed c { n with s := s } :=
  hz.set hp (fun h => by rw [h1]; exact hz.last h) (fun hc => (hz.none hc).2)

theorem emitLoop_agree (f : Nat) (n : NOMP) (new : List PB) (hz : Zeroed c n) :
    NAgree c (fun a b => (a.1.s, a.2) = b ∧ Zeroed c a.1) (n.emitLoop o f new) (n.s.emitLoop o f new) := by
  induction f generalizing n new with
  | zero => exact .fault
  | succ f ih =>
    unfold NOMP.emitLoop OMP.emitLoop
    refine (getPendingChild_agree hz _).bind ?_
    intro a b hab
    subst hab
    cases a with
    | none => exact .same ⟨rfl, hz⟩
    | some hash =>
      simp only []
      cases hp : n.s.pending.get? hash with
      | none => exact .fault
      | some pb =>
        simp only []
        refine NAgree.out (siblings_shrink _ pb) ?_
        intro s1 h1
        refine NAgree.out (finAdd_shrink o (F := fun _ => True) _ trivial) ?_
        intro s2 h2
        refine ih ⟨s2, n.nils, n.nils.contains hash⟩ _ (hz.set ?_ ?_ ?_)
        · exact fun h x hx => h1.pending h x (h2.pending h x hx)
        · intro e
          rw [h2.lastWeight]
          exact hz.held _ _ hp e
        · exact fun hc => (hz.none hc).1 hash

theorem prepareEmit_agree (n : NOMP) (new old : List PB) (b : Bool) (hz : Zeroed c n) (h1 : b = true → ∀ x, new.getLast? = some x → x.weight = 0) (h2 : c → b = false) :
    NAgree c (fun a s => a.s = s ∧ Zeroed c a) (n.prepareEmit o new old b) (n.s.prepareEmit o new old) := by
  unfold NOMP.prepareEmit OMP.prepareEmit
  refine NAgree.out (P := fun s => Zeroed c ⟨s, n.nils, if new = [] then n.lastNil else b⟩) ?_ ?_
  · unfold OMP.emitStart
    cases hl : new.getLast? with
    | none =>
      rw [if_pos (List.getLast?_eq_none_iff.mp hl)]
      exact hz
    | some newest =>
      rw [if_neg (fun e => by rw [e] at hl; cases hl)]
      simp only []
      refine (siblings_shrink _ newest).bind ?_
      intro s1 g1
      refine (finAdd_shrink o (F := fun _ => True) _ trivial).imp ?_
      intro s2 g2
      refine hz.set (fun h x hx => g1.pending h x (g2.pending h x hx)) ?_ h2
      intro e
      rw [g2.lastWeight, g1.lastWeight]
      exact h1 e _ hl
  · intro s hs
    refine (emitLoop_agree _ _ _ hs).bind ?_
    intro r q hr
    obtain ⟨rfl, hr⟩ := hr
    exact .same ⟨rfl, hr.keep (Sub.refl _) rfl⟩

theorem reorgInner_last (pending : GMap Hash PB) (k : Int) (f : Nat) (a : PB) (l : List PB) (hl : l ≠ []) :
    Out (fun _ => True) (fun r => ∀ p, r = some p → p.2.getLast? = l.getLast? ∧ p.2 ≠ []) (reorgInner pending k f a l) := by
  induction f generalizing a l with
  | zero => trivial
  | succ f ih =>
    unfold reorgInner
    split
    · split
      · intro p hp; cases hp
      · rename_i q _
        refine (ih q (q :: l) (by simp)).imp ?_
        intro r hr p hp
        refine ⟨(hr p hp).1.trans ?_, (hr p hp).2⟩
        cases l with
        | nil => exact absurd rfl hl
        | cons x l => rfl
    · intro p hp
      cases hp
      exact ⟨rfl, hl⟩

theorem reorgOuter_last (pending : GMap Hash PB) (start : PB) (f : Nat) (a b : PB) (rev l : List PB) (hl : l ≠ []) :
    Out (fun _ => True) (fun r => ∀ removed added, r = .ok removed added → added.getLast? = l.getLast?) (reorgOuter pending start f a b rev l) := by
  induction f generalizing a b rev l with
  | zero => trivial
  | succ f ih =>
    unfold reorgOuter
    refine (reorgInner_last pending _ _ a l hl).bind ?_
    intro r hr
    cases r with
    | none => intro x y e; cases e
    | some p =>
      obtain ⟨g1, g2⟩ := hr p rfl
      simp only []
      split
      · intro x y e
        cases e
        exact g1
      · split
        · intro x y e; cases e
        · exact (ih _ _ _ _ g2).imp (fun q hq x y e => (hq x y e).trans g1)

theorem prepareReorg_last (pending : GMap Hash PB) (a b : PB) :
    Out (fun _ => True) (fun r => ∀ removed added, r = .ok removed added → added.getLast? = some a) (prepareReorg pending a b) :=
  reorgOuter_last pending a _ a b [] [a] (by simp)

theorem onUnconnected_agree (n : NOMP) (pb : PB) (b : Bool) (hz : Zeroed c n) (h1 : b = true → pb.weight = 0) (h2 : c → b = false) :
    NAgree c (fun a s => a.s = s ∧ Zeroed c a) (n.onUnconnected o pb b) (n.s.onUnconnected o pb) := by
  unfold NOMP.onUnconnected
  have hl := nilLt_agree (c := c) (xn := b) (x := pb.weight) (yn := n.lastNil) (y := n.s.lastWeight)
    (fun e => ⟨h1 e, fun hc => by rw [h2 hc] at e; cases e⟩) (fun e => ⟨hz.last e, fun hc => by rw [(hz.none hc).2] at e; cases e⟩)
  cases hl2 : nilLt b pb.weight n.lastNil n.s.lastWeight with
  | error f =>
    rw [hl2] at hl
    cases hl with
    | crash hc => exact .crash hc
  | ok r =>
    rw [hl2] at hl
    cases hl with
    | same hr =>
      subst hr
      unfold OMP.onUnconnected
      show NAgree c _ (if decide (pb.weight < n.s.lastWeight) = true then _ else _) _
      simp only [decide_eq_true_eq]
      split
      · split
        · exact .same ⟨rfl, hz.keep (Sub.erase _ _) rfl⟩
        · refine NAgree.out (finAdd_shrink o (F := fun _ => True) _ trivial) ?_
          intro s hs
          exact .same ⟨rfl, hz.keep hs.pending hs.lastWeight⟩
      · exact .same ⟨rfl, hz.keep (Sub.refl _) rfl⟩

theorem onConnected_agree {rec : NOMP → PB → Except Fault NOMP} {rec' : OMP → PB → Except Fault OMP} (n : NOMP) (pb : PB) (b : Bool) (hz : Zeroed c n)
    (h1 : b = true → pb.weight = 0) (h2 : c → b = false)
    (hr : ∀ n h x, Zeroed c n → n.s.pending.get? h = some x → NAgree c (fun a s => a.s = s ∧ Zeroed c a) (rec n x) (rec' n.s x)) :
    NAgree c (fun a s => a.s = s ∧ Zeroed c a) (n.onConnected o rec pb b) (n.s.onConnected o rec' pb) := by
  have rest : NAgree c (fun a s => a.s = s ∧ Zeroed c a)
      (do
        let s ← n.s.finAdd o pb.hash
        let n := { n with s := s }
        match ← n.getPendingChild o pb.hash with
        | none => .ok { n with s := n.s.queue pb }
        | some child =>
          let n := { n with s := { n.s with tick := n.s.tick + 1 } }
          match n.s.pending.get? child with
          | none => .ok { n with s := n.s.queue pb }
          | some c => do
            let n ← rec n c
            .ok { n with s := n.s.queue pb })
      (do
        let s ← n.s.finAdd o pb.hash
        match ← s.getPendingChild o pb.hash with
        | none => .ok (s.queue pb)
        | some child =>
          let s := { s with tick := s.tick + 1 }
          match s.pending.get? child with
          | none => .ok (s.queue pb)
          | some c => do
            let s ← rec' s c
            .ok (s.queue pb)) := by
    refine NAgree.out (finAdd_shrink o (F := fun _ => True) _ trivial) ?_
    intro s hs
    have hz1 : Zeroed c { n with s := s } := hz.keep hs.pending hs.lastWeight
    refine (getPendingChild_agree hz1 _).bind ?_
    intro x y hxy
    subst hxy
    cases x with
    | none => exact .same ⟨rfl, hz1.keep (Sub.refl _) rfl⟩
    | some child =>
      have hz2 : Zeroed c { n with s := { s with tick := s.tick + 1 } } := hz1.keep (Sub.refl _) rfl
      simp only []
      cases hp : s.pending.get? child with
      | none => exact .same ⟨rfl, hz2.keep (Sub.refl _) rfl⟩
      | some x =>
        refine (hr _ child x hz2 hp).bind ?_
        intro a s' ha
        obtain ⟨rfl, ha⟩ := ha
        exact .same ⟨rfl, ha.keep (Sub.refl _) rfl⟩
  unfold NOMP.onConnected OMP.onConnected
  cases hp : n.s.pending.get? n.s.lastHash with
  | none => exact rest
  | some lastBlock =>
    have hl := nilLt_agree (c := c) (xn := n.lastNil) (x := n.s.lastWeight) (yn := b) (y := pb.weight)
      (fun e => ⟨hz.last e, fun hc => by rw [(hz.none hc).2] at e; cases e⟩) (fun e => ⟨h1 e, fun hc => by rw [h2 hc] at e; cases e⟩)
    cases hl2 : nilLt n.lastNil n.s.lastWeight b pb.weight with
    | error f =>
      rw [hl2] at hl
      cases hl with
      | crash hc =>
        exact .crash hc
    | ok r =>
      rw [hl2] at hl
      cases hl with
      | same hr =>
        cases hd : decide (n.s.lastWeight < pb.weight) with
        | false =>
          rw [hd] at hr
          subst hr
          simp only
          exact rest
        | true =>
          rw [hd] at hr
          subst hr
          simp only
          refine NAgree.out (prepareReorg_last _ pb lastBlock) ?_
          intro r hr
          cases r with
          | ok removed added =>
            exact prepareEmit_agree _ _ _ _ hz (fun e x hx => by rw [hr _ _ rfl] at hx; cases hx; exact h1 e) h2
          | missing last => exact .same ⟨rfl, hz.keep (Sub.refl _) rfl⟩
          | noAncestor => exact .same ⟨rfl, hz⟩

theorem accept_agree {rec : NOMP → PB → Except Fault NOMP} {rec' : OMP → PB → Except Fault OMP} (n : NOMP) (pb : PB) (b r : Bool) (hz : Zeroed c n)
    (h1 : b = true → pb.weight = 0) (h2 : c → b = false)
    (hr : ∀ n h x, Zeroed c n → n.s.pending.get? h = some x → NAgree c (fun a s => a.s = s ∧ Zeroed c a) (rec n x) (rec' n.s x)) :
    NAgree c (fun a s => a.s = s ∧ Zeroed c a) (n.accept o rec pb b r) (n.s.accept o rec' pb r) := by
  have hl : b = true → ∀ x, [pb].getLast? = some x → x.weight = 0 := by
    intro e x hx
    simp only [List.getLast?_singleton, Option.some.injEq] at hx
    rw [← hx]
    exact h1 e
  unfold NOMP.accept OMP.accept
  split
  · exact .same ⟨rfl, hz⟩
  split
  · exact prepareEmit_agree _ _ _ _ hz hl h2
  split
  · exact prepareEmit_agree _ _ _ _ hz hl h2
  split
  · exact onConnected_agree _ _ _ hz h1 h2 hr
  · exact onUnconnected_agree _ _ _ hz h1 h2

theorem handleAux_agree (f : Nat) (n : NOMP) (b : NPB) (r : Bool) (hz : Zeroed c n) (h1 : b.weighed = false → b.pb.weight = 0) (h2 : c → b.weighed = true) :
    NAgree c (fun a s => a.s = s ∧ Zeroed c a) (n.handleAux o f b r) (n.s.handleAux o f b.pb r) := by
  induction f generalizing n b r with
  | zero => exact .fault
  | succ f ih =>
    unfold NOMP.handleAux OMP.handleAux
    split
    · exact .same ⟨rfl, hz.keep (Sub.refl _) rfl⟩
    · have hz1 : Zeroed c { n with s := { n.s with pending := n.s.pending.insert b.pb.hash b.pb },
                                   nils := if b.weighed then n.nils.erase b.pb.hash else n.nils.insert b.pb.hash () } := by
        refine ⟨?_, hz.last, ?_, ?_⟩
        · intro h x hx hn
          simp only [GMap.get?_insert] at hx
          split at hx
          · rename_i e
            cases hx
            cases hw : b.weighed with
            | false => exact h1 hw
            | true =>
              simp only [hw, if_true] at hn
              rw [e] at hn
              simp [GMap.contains_erase] at hn
          · rename_i e
            refine hz.held h x hx ?_
            cases hw : b.weighed with
            | false =>
              simp only [hw, Bool.false_eq_true, if_false, GMap.contains_insert] at hn
              simpa [e] using hn
            | true =>
              simp only [hw, if_true, GMap.contains_erase] at hn
              simpa [e] using hn
        · intro hc
          refine ⟨fun h => ?_, (hz.none hc).2⟩
          simp only [h2 hc, if_true]
          rw [GMap.contains_erase]
          simp [(hz.none hc).1 h]
        · intro h x hx
          simp only [GMap.get?_insert] at hx
          split at hx
          · rename_i e
            cases hx
            exact e
          · exact hz.keys h x hx
      have hb : (!b.weighed) = true → b.pb.weight = 0 := fun e => h1 (by simpa using e)
      have hc' : c → (!b.weighed) = false := fun hc => by rw [h2 hc]; rfl
      refine accept_agree _ _ _ _ hz1 hb hc' ?_
      intro m h x hm hx
      refine ih m ⟨x, !m.nils.contains x.hash⟩ true hm ?_ ?_
      · intro e
        have hk := hm.keys h x hx
        refine hm.held h x hx ?_
        rw [← hk]
        simpa using e
      · intro hc
        simp [(hm.none hc).1]

end Verif
