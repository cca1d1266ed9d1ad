import Verif.Proofs.OrderingStep
/-! A block that has been handled is held, and remembered, until its eviction is asked for. -/
namespace Verif
open Spec

variable {D : PB → Prop} {o : MapOrder} {base : List OOut} {pb : PB} {f : Prop}

/-- An eviction request with the number of `pb` was sent after `base`. -/
def Asked (base : List OOut) (pb : PB) (s : OMP) : Prop := ∃ l, s.log = base ++ l ∧ .evictOlder pb.number ∈ l

/-- `pb` is held, and if `f` remembered as handled, unless an eviction request with its number was sent after `base`. -/
structure Stays (base : List OOut) (pb : PB) (f : Prop) (s : OMP) : Prop where
  keys : PendKeys s
  pre : ∃ l, s.log = base ++ l
  held : s.pending.get? pb.hash = some pb ∨ Asked base pb s
  fin : f → pb.hash ∈ s.finished.items ∨ Asked base pb s

theorem Asked.grow {s s' : OMP} (h : Asked base pb s) (h3 : ∃ l, s'.log = s.log ++ l) : Asked base pb s' := by
  obtain ⟨l, h3⟩ := h3
  obtain ⟨m, h1, h2⟩ := h
  exact ⟨m ++ l, by rw [h3, h1, List.append_assoc], by simp [h2]⟩

theorem Stays.of_eq {s s' : OMP} (h : Stays base pb f s) (h1 : s'.pending = s.pending) (h2 : s'.finished = s.finished)
    (h3 : ∃ l, s'.log = s.log ++ l) : Stays base pb f s' := by
  refine ⟨by unfold PendKeys; rw [h1]; exact h.keys, ?_, ?_, ?_⟩
  · obtain ⟨l, h3⟩ := h3
    obtain ⟨m, h4⟩ := h.pre
    exact ⟨m ++ l, by rw [h3, h4, List.append_assoc]⟩
  · rw [h1]; exact h.held.imp id (fun h => h.grow h3)
  · rw [h2]; exact fun hf => (h.fin hf).imp id (fun h => h.grow h3)

theorem Stays.weaken {g : Prop} {s : OMP} (h : Stays base pb f s) (hg : g → f) : Stays base pb g s :=
  ⟨h.keys, h.pre, h.held, fun x => h.fin (hg x)⟩

theorem Stays.queue {s : OMP} (h : Stays base pb f s) (b : PB) : Stays base pb f (s.queue b) :=
  h.of_eq rfl rfl ⟨[], by simp [OMP.queue]⟩

/-- Taking one block out of `pending`, with the request. -/
theorem Stays.remove {s : OMP} (h : Stays base pb f s) {x : Hash} {b : PB} (hb : s.pending.get? x = some b) :
    Stays base pb f { s with pending := s.pending.erase b.hash, log := s.log ++ [.evictOlder b.number] } := by
  have hx := h.keys _ _ hb
  obtain ⟨l, hl⟩ := h.pre
  refine ⟨fun y c hc => h.keys y c (Sub.erase _ _ _ _ hc), ⟨l ++ [.evictOlder b.number], by simp [hl]⟩, ?_,
    fun hf => (h.fin hf).imp id (fun h => h.grow ⟨_, rfl⟩)⟩
  rcases h.held with e | e
  · by_cases hxp : x = pb.hash
    · right
      rw [hxp, e] at hb
      cases hb
      exact ⟨l ++ [.evictOlder pb.number], by simp [hl], by simp⟩
    · left
      show (s.pending.erase b.hash).get? pb.hash = _
      rw [GMap.get?_erase_ne _ (by rw [hx]; exact hxp)]
      exact e
  · right; exact e.grow ⟨_, rfl⟩

theorem evictAux_stays (n : Nat) (s : OMP) (h : Hash) (hs : Stays base pb f s) : Out (fun _ => True) (Stays base pb f) (OMP.evictAux o n s h) := by
  induction n generalizing s h with
  | zero => trivial
  | succ n ih =>
    unfold OMP.evictAux
    split
    · exact hs
    · rename_i b hb
      refine (ih _ _ (hs.remove hb)).bind ?_
      intro s' hs'
      split
      · exact hs'
      · simp only []
        refine Out.bind (P := Stays base pb f) ?_ (fun s2 h2 => h2.of_eq rfl rfl ⟨[], by simp⟩)
        refine Out.foldlM ?_ (hs'.of_eq rfl rfl ⟨[], by simp⟩)
        intro t x _ ht
        split
        · exact ht
        · exact ih _ _ ht

/-- Evicting the block itself asks for it. -/
theorem evictAux_asks (n : Nat) (s : OMP) (hs : Stays base pb f s) :
    Out (fun _ => True) (Asked base pb) (OMP.evictAux o n s pb.hash) := by
  cases n with
  | zero => trivial
  | succ n =>
    rcases hs.held with e | e
    · unfold OMP.evictAux
      rw [e]
      simp only []
      have h0 : Asked base pb { s with pending := s.pending.erase pb.hash, log := s.log ++ [.evictOlder pb.number] } := by
        obtain ⟨l, hl⟩ := hs.pre
        exact ⟨l ++ [.evictOlder pb.number], by simp [hl], by simp⟩
      have hg : ∀ {a b : OMP}, Asked base pb a → Shrink (fun _ => True) a b → Asked base pb b := by
        intro a b h1 h2
        obtain ⟨l, hl, _⟩ := h2.log
        exact h1.grow ⟨l, hl⟩
      refine (evictAux_shrink o (fun _ => True) n _ _).bind ?_
      intro s1 h1
      have h1' := hg h0 h1
      split
      · exact h1'
      · refine Out.bind (P := Asked base pb) ?_ (fun s2 h2 => h2)
        refine Out.foldlM ?_ (h1'.grow (s' := { s1 with tick := s1.tick + 1 }) ⟨[], by simp⟩)
        intro t x _ ht
        split
        · exact ht
        · exact (evictAux_shrink o _ _ _ _).imp (fun _ h => hg ht h)
    · refine (evictAux_shrink o (fun _ => True) _ s pb.hash).imp (fun s' h => ?_)
      obtain ⟨l, hl, _⟩ := h.log
      exact e.grow ⟨l, hl⟩

theorem LRU.add_keeps {K : Type} [DecidableEq K] {c : LRU K} {k x : K} (h : x ∈ c.items ∨ x = k) :
    x ∈ (c.add k).1.items ∨ (c.add k).2 = some x := by
  unfold LRU.add
  split
  · left
    by_cases e : x = k
    · simp [e]
    · simpa [e] using h
  · split
    · left; simp only [List.mem_cons]; exact h.symm
    · rename_i h1 h2
      have hx : x ∈ k :: c.items := by simp only [List.mem_cons]; exact h.symm
      rcases List.eq_nil_or_concat (k :: c.items) with e | ⟨l, y, e⟩
      · simp at e
      · simp only [] at *
        rw [List.concat_eq_append] at e
        rw [e] at hx ⊢
        simp only [List.dropLast_concat, List.getLast?_concat, Option.some.injEq]
        rcases List.mem_append.mp hx with h | h
        · exact .inl h
        · exact .inr (List.mem_singleton.mp h).symm

theorem finAdd_stays (s : OMP) (y : Hash) (hs : Stays base pb f s) :
    Out (fun _ => True) (Stays base pb (f ∨ y = pb.hash)) (s.finAdd o y) := by
  unfold OMP.finAdd
  simp only []
  have hk : ∀ g : Prop, (g → pb.hash ∈ (s.finished.add y).1.items ∨ Asked base pb s) →
      Stays base pb g { s with finished := (s.finished.add y).1 } := fun g hg => ⟨hs.keys, hs.pre, hs.held, hg⟩
  have hin : (f ∨ y = pb.hash) → pb.hash ∈ (s.finished.add y).1.items ∨ (s.finished.add y).2 = some pb.hash ∨ Asked base pb s := by
    intro hf
    have : pb.hash ∈ s.finished.items ∨ pb.hash = y ∨ Asked base pb s := by
      rcases hf with hf | hf
      · exact (hs.fin hf).imp id .inr
      · exact .inr (.inl hf.symm)
    rcases this with h | h | h
    · exact (LRU.add_keeps (.inl h)).imp id .inl
    · exact (LRU.add_keeps (.inr h)).imp id .inl
    · exact .inr (.inr h)
  split
  · rename_i e
    refine hk _ (fun hf => ?_)
    rcases hin hf with h | h | h
    · exact .inl h
    · rw [e] at h; simp at h
    · exact .inr h
  · rename_i k e
    by_cases hkp : k = pb.hash
    · subst hkp
      have h0 := hk False (fun h => h.elim)
      refine ((evictAux_stays (o := o) _ _ _ h0).and (evictAux_asks (o := o) _ _ h0)).mono (fun _ _ => trivial) (fun s' h => ?_)
      exact ⟨h.1.keys, h.1.pre, h.1.held, fun _ => .inr h.2⟩
    · refine evictAux_stays _ _ _ (hk _ (fun hf => ?_))
      rcases hin hf with h | h | h
      · exact .inl h
      · rw [e] at h; cases h; exact (hkp rfl).elim
      · exact .inr h

theorem finAdd_stays' (s : OMP) (y : Hash) (hs : Stays base pb f s) : Out (fun _ => True) (Stays base pb f) (s.finAdd o y) :=
  (finAdd_stays s y hs).imp (fun _ h => h.weaken .inl)

theorem finishChildren_stays (n : Nat) (s : OMP) (h : Hash) (hs : Stays base pb f s) :
    Out (fun _ => True) (Stays base pb f) (OMP.finishPendingChildrenAux o n s h) := by
  induction n generalizing s h with
  | zero => trivial
  | succ n ih =>
    unfold OMP.finishPendingChildrenAux
    simp only []
    refine (finAdd_stays' s h hs).bind ?_
    intro s' hs'
    split
    · exact hs'
    · exact Out.foldlM (fun t x _ ht => ih _ _ ht) (hs'.of_eq rfl rfl ⟨[], by simp⟩)

theorem finishSiblings_stays (s : OMP) (b : PB) (hs : Stays base pb f s) : Out (fun _ => True) (Stays base pb f) (s.finishSiblings o b) := by
  unfold OMP.finishSiblings
  split
  · exact hs
  · refine Out.foldlM ?_ (hs.of_eq rfl rfl ⟨[], by simp⟩)
    intro t x _ ht
    split
    · exact finishChildren_stays _ _ _ ht
    · exact ht

theorem emitLoop_stays (n : Nat) (s : OMP) (new : List PB) (hs : Stays base pb f s) :
    Out (fun _ => True) (fun r => Stays base pb f r.1) (OMP.emitLoop o n s new) := by
  induction n generalizing s new with
  | zero => trivial
  | succ n ih =>
    unfold OMP.emitLoop
    refine (out_top _).bind ?_
    intro r _
    split
    · exact hs
    · simp only []
      split
      · trivial
      · refine (finishSiblings_stays { s with tick := s.tick + 1 } _ (hs.of_eq rfl rfl ⟨[], by simp⟩)).bind ?_
        intro s' hs'
        refine Out.bind (finAdd_stays' (pb := pb) (f := f) _ _ ?_) (fun s2 h2 => ih _ _ h2)
        exact ⟨hs'.keys, hs'.pre, hs'.held, hs'.fin⟩

theorem prepareEmit_stays (s : OMP) (new old : List PB) (hs : Stays base pb f s) :
    Out (fun _ => True) (Stays base pb (f ∨ new.getLast? = some pb)) (s.prepareEmit o new old) := by
  unfold OMP.prepareEmit
  refine Out.bind (P := Stays base pb (f ∨ new.getLast? = some pb)) ?_ (fun s1 h1 => (emitLoop_stays _ _ _ h1).bind
    (fun r hr => hr.of_eq rfl rfl ⟨_, rfl⟩))
  unfold OMP.emitStart
  split
  · rename_i e; exact hs.weaken (by rw [e]; simp)
  · rename_i newest e
    simp only []
    refine (finishSiblings_stays (pb := pb) (f := f) { s with lastHash := newest.hash, lastWeight := newest.weight } _
      ⟨hs.keys, hs.pre, hs.held, hs.fin⟩).bind (fun s' h' => (finAdd_stays _ _ h').imp (fun s2 h2 => h2.weaken ?_))
    rw [e]
    rintro (h | h)
    · exact .inl h
    · cases h; exact .inr rfl

/-- Evicting does not forget that blocks were handled. -/
theorem evictAux_finished (n : Nat) (s : OMP) (h : Hash) : Out (fun _ => True) (fun s' => s'.finished = s.finished) (OMP.evictAux o n s h) := by
  induction n generalizing s h with
  | zero => trivial
  | succ n ih =>
    unfold OMP.evictAux
    split
    · exact rfl
    · simp only []
      refine (ih _ _).bind ?_
      intro s1 h1
      split
      · exact h1
      · refine Out.bind (P := fun s' => s'.finished = s.finished) ?_ (fun s2 h2 => by exact h2)
        refine Out.foldlM ?_ h1
        intro t x _ ht
        split
        · exact ht
        · exact (ih _ _).imp (fun _ h => h.trans ht)

/-- The hash just added is remembered. -/
theorem finAdd_self (s : OMP) (y : Hash) (hc : 0 < s.finished.cap) :
    Out (fun _ => True) (fun s' => y ∈ s'.finished.items) (s.finAdd o y) := by
  have h := LRU.mem_add_self s.finished y hc
  unfold OMP.finAdd
  simp only []
  split
  · exact h
  · exact (evictAux_finished _ _ _).imp (fun s' e => by rw [e]; exact h)

variable {N : Prop}

/-- What is known of a block `b` being handled while `pb` stays: it is `pb` only if it may not be dropped. -/
def NotDropped (base : List OOut) (pb b : PB) (s : OMP) : Prop :=
  b.hash = pb.hash → Asked base pb s ∨ (b = pb ∧ (s.finished.contains b.parentHash = true ∨ ¬ b.weight < s.lastWeight ∨ s.tooOld b = false))

theorem onConnected_stays (hH : Hashed D) {rec : OMP → PB → Except Fault OMP} (s : OMP) (b : PB) (hI : OInv D s) (hD : D b)
    (hc : 0 < s.finished.cap) (hs : Stays base pb f s)
    (hrec : ∀ g s c, OInv D s → D c → 0 < s.finished.cap → c.parentHash ∈ s.finished.items → s.pending.get? c.hash = some c →
      Stays base pb g s → Out (fun _ => True) (Stays base pb g) (rec s c)) :
    Out (fun _ => True) (Stays base pb (f ∨ (b = pb ∧ ¬ s.lastWeight < b.weight))) (s.onConnected o rec b) := by
  unfold OMP.onConnected
  split
  · rename_i lastBlock hl hw
    have hw : s.lastWeight < b.weight := by simpa using hw
    refine (out_top _).bind ?_
    intro r _
    split
    · exact (prepareEmit_stays _ _ _ hs).imp (fun s' h => h.weaken (fun h => .inl (h.elim id (fun h => (h.2 hw).elim))))
    · exact (hs.queue _).weaken (fun h => h.elim id (fun h => (h.2 hw).elim))
    · exact hs.weaken (fun h => h.elim id (fun h => (h.2 hw).elim))
  · have hfa := ((finAdd_stays (o := o) s b.hash hs).and (finAdd_self (o := o) s b.hash hc)).and
      (finAdd_shrink o (F := Known D) s ⟨b, hD, rfl⟩)
    refine (hfa.mono (E' := fun _ => True) (fun _ _ => trivial) (fun _ h => h)).bind ?_
    rintro s2 ⟨⟨h2, h3⟩, h4⟩
    have h2 : Stays base pb (f ∨ (b = pb ∧ ¬ s.lastWeight < b.weight)) s2 :=
      h2.weaken (fun h => h.imp id (fun h => by rw [h.1]))
    have hI2 := hI.shrink h4
    refine (getPendingChild_out s2 b.hash).bind ?_
    intro r hr
    split
    · exact h2.queue _
    · rename_i child
      obtain ⟨q, hq, hc'⟩ := hr
      simp only []
      split
      · exact (h2.of_eq (s' := { s2 with tick := s2.tick + 1 }) rfl rfl ⟨[], by simp⟩).queue _
      · rename_i c hcp
        obtain ⟨k1, k2, k3, _⟩ := hI2.child hH hq hc' hcp
        refine (hrec _ { s2 with tick := s2.tick + 1 } c (hI2.of_maps rfl rfl) k3 ?_ (by rw [k1]; exact h3) (by rw [k2]; exact hcp)
          (h2.of_eq rfl rfl ⟨[], by simp⟩)).bind (fun s3 h => h.queue _)
        show 0 < s2.finished.cap
        rw [h4.cap]; exact hc

theorem onUnconnected_stays (s : OMP) (b : PB) (hs : Stays base pb f s) (hsp : NotDropped base pb b s) (hnc : s.finished.contains b.parentHash = false) :
    Out (fun _ => True) (Stays base pb (f ∨ (b = pb ∧ b.weight < s.lastWeight))) (s.onUnconnected o b) := by
  unfold OMP.onUnconnected
  split
  · rename_i hw
    split
    · rename_i ho
      by_cases e : b.hash = pb.hash
      · rcases hsp e with ha | ⟨e1, h | h | h⟩
        · exact ⟨fun x c hx => hs.keys x c (Sub.erase _ _ _ _ hx), hs.pre, .inr ha, fun _ => .inr ha⟩
        · rw [hnc] at h; cases h
        · exact (h hw).elim
        · rw [ho] at h; cases h
      · refine ⟨fun x c hx => hs.keys x c (Sub.erase _ _ _ _ hx), hs.pre, ?_, ?_⟩
        · refine hs.held.imp (fun h => ?_) id
          show (s.pending.erase b.hash).get? pb.hash = _
          rw [GMap.get?_erase_ne _ e]; exact h
        · intro h
          rcases h with h | h
          · exact hs.fin h
          · rw [h.1] at e; exact (e rfl).elim
    · refine (finAdd_stays s b.hash hs).bind (fun s2 h2 => (h2.queue _).weaken (fun h => h.imp id (fun h => by rw [h.1])))
  · rename_i hw
    exact (hs.queue _).weaken (fun h => h.elim id (fun h => (hw h.2).elim))

/-- A block that is surely remembered when it has been handled: the next one after the head, or one lighter than the head. -/
def Settles (s : OMP) (b : PB) : Prop := b.parentHash = s.lastHash ∨ b.weight < s.lastWeight

theorem accept_stays (hH : Hashed D) {rec : OMP → PB → Except Fault OMP} (s : OMP) (b : PB) (reorg : Bool) (hI : OInv D s) (hD : D b)
    (hc : 0 < s.finished.cap) (hs : Stays base pb f s) (hsp : NotDropped base pb b s)
    (hrec : ∀ g s c, OInv D s → D c → 0 < s.finished.cap → c.parentHash ∈ s.finished.items → s.pending.get? c.hash = some c →
      Stays base pb g s → Out (fun _ => True) (Stays base pb g) (rec s c)) :
    Out (fun _ => True) (Stays base pb (f ∨ (b = pb ∧ Settles s b))) (OMP.accept o rec s b reorg) := by
  unfold OMP.accept
  split
  · rename_i h
    refine ⟨hs.keys, hs.pre, hs.held, ?_⟩
    rintro (hf | ⟨e, _⟩)
    · exact hs.fin hf
    · simp only [Bool.and_eq_true] at h
      rw [← e]; exact .inl ((LRU.contains_iff _ _).mp h.1)
  split
  · exact (prepareEmit_stays _ _ _ hs).imp (fun s' h => h.weaken (fun h => h.imp id (fun h => by simp [h.1])))
  rename_i hnp
  split
  · exact (prepareEmit_stays _ _ _ hs).imp (fun s' h => h.weaken (fun h => h.imp id (fun h => by simp [h.1])))
  split
  · refine (onConnected_stays hH s b hI hD hc hs hrec).imp (fun s' h => h.weaken (fun h => h.imp id (fun h => ⟨h.1, ?_⟩)))
    rcases h.2 with h | h
    · exact (hnp h).elim
    · omega
  · rename_i hnc
    refine (onUnconnected_stays s b hs hsp (Bool.eq_false_iff.mpr hnc)).imp (fun s' h => h.weaken (fun h => h.imp id (fun h => ⟨h.1, ?_⟩)))
    rcases h.2 with h | h
    · exact (hnp h).elim
    · exact h

theorem handleAux_stays (hH : Hashed D) (n : Nat) (s : OMP) (b : PB) (reorg : Bool) (hI : OInv D s) (hD : D b)
    (hc : 0 < s.finished.cap) (hpar : b.parentHash ∈ s.finished.items) (hb : s.pending.get? b.hash = some b) (hs : Stays base pb f s) :
    Out (fun _ => True) (Stays base pb f) (OMP.handleAux o n s b reorg) := by
  induction n generalizing s b reorg f with
  | zero => exact trivial
  | succ n ih =>
    unfold OMP.handleAux
    split
    · exact hs.of_eq rfl rfl ⟨[], by simp⟩
    · have hs1 : Stays base pb f { s with pending := s.pending.insert b.hash b } := by
        refine ⟨(hI.insert hD).pendKeys, hs.pre, ?_, hs.fin⟩
        show (s.pending.insert b.hash b).get? pb.hash = _ ∨ _
        refine hs.held.imp (fun h => ?_) id
        rw [GMap.get?_insert]
        split
        · rename_i e
          rw [← e, hb] at h; exact h
        · exact h
      refine (accept_stays hH _ b reorg (hI.insert hD) hD hc hs1 ?_ (fun g s c k1 k2 k3 k4 k5 k6 => ih s c true k1 k2 k3 k4 k5 k6)).imp
        (fun s' h => h.weaken .inl)
      intro e
      rcases hs.held with h | h
      · right
        refine ⟨?_, .inl ((LRU.contains_iff _ _).mpr hpar)⟩
        rw [← e, hb] at h
        cases h; rfl
      · exact .inl h

/-- Handling a block that is neither excluded nor dropped. -/
theorem handle_stays (hH : Hashed D) (s : OMP) (b : PB) (hI : OInv D s) (hD : D b) (hc : 0 < s.finished.cap) (hx : s.excludes b = false)
    (hold : s.finished.contains b.parentHash = true ∨ ¬ b.weight < s.lastWeight ∨
      OMP.tooOld { s with pending := s.pending.insert b.hash b } b = false) :
    Out (fun _ => True) (Stays s.log b (Settles s b)) (s.handle o b) := by
  unfold OMP.handle OMP.handleAux
  rw [hx]
  have hs1 : Stays s.log b False { s with pending := s.pending.insert b.hash b } :=
    ⟨(hI.insert hD).pendKeys, ⟨[], by simp⟩, .inl (by simp [GMap.get?_insert]), fun h => h.elim⟩
  exact (accept_stays hH _ b false (hI.insert hD) hD hc hs1 (fun _ => .inr ⟨rfl, hold⟩)
    (fun g s c k1 k2 k3 k4 k5 k6 => handleAux_stays hH _ s c true k1 k2 k3 k4 k5 k6)).imp (fun s' h => h.weaken (fun h => .inr ⟨rfl, h⟩))

end Verif
