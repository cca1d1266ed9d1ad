import Verif.Proofs.Remembered
import Verif.Proofs.OrderingBound
import Verif.Proofs.System
/-! Blocks handed over complete (`MP.processCompleteBatch`) are remembered like assembled ones. -/
namespace Verif

/-- The block as it is sent: with a channel. -/
theorem complete_eq (mp : MP) (pb : PB) : ∃ pb' next w, mp.processCompleteBatch pb = { mp with
      nextCh := next, log := mp.log ++ [MPOut.waiter w, MPOut.batch pb'], lastEmittedNum := pb.number
      completed := (mp.completed.add pb.hash).1, pendingBatches := mp.pendingBatches.erase pb.hash } ∧
    { pb' with waitCh := pb.waitCh } = pb := by
  unfold MP.processCompleteBatch
  cases hw : pb.waitCh with
  | none => exact ⟨_, _, _, rfl, by cases pb; simp_all⟩
  | some c => exact ⟨_, _, _, rfl, by cases pb; simp_all⟩

theorem complete_emitted (mp : MP) (pb : PB) : ∃ pb', (mp.processCompleteBatch pb).emitted = mp.emitted ++ [pb'] ∧
    { pb' with waitCh := pb.waitCh } = pb := by
  obtain ⟨pb', next, w, h, hh⟩ := complete_eq mp pb
  refine ⟨pb', ?_, hh⟩
  rw [h]; simp [MP.emitted]

theorem Base.complete {mp : MP} (h : Base mp) (pb : PB) : Base (mp.processCompleteBatch pb) := by
  obtain ⟨pb', next, w, he, hh⟩ := complete_eq mp pb
  rw [he]
  refine ⟨?_, h.queue, ?_, ?_, h.thr, ?_⟩
  · intro x q hq
    simp only [GMap.get?_erase] at hq
    split at hq
    · simp at hq
    · exact h.hashes x q hq
  · intro x hx
    simp only [GMap.get?_erase]
    split
    · rfl
    · rename_i hne
      refine h.compl x ?_
      rw [LRU.contains_iff] at hx ⊢
      rcases LRU.mem_of_mem_add hx with hx | hx
      · exact absurd hx.symm hne
      · exact hx
  · intro x hx
    simp only [GMap.get?_erase]
    split
    · rfl
    · exact h.old x hx
  · show (mp.completed.add pb.hash).1.cap = _
    rw [LRU.add_cap]; exact h.cap

/-- Invariants over sequences of calls. -/
theorem Parts.calls {C : Codec} {env : Env} {Q : RMsg → Prop} {P : MP → Prop} {R : PB → Prop} (h : Parts C env true Q P)
    (hc : ∀ mp pb, R pb → P mp → P (mp.processCompleteBatch pb)) {cs : List Call} {mp mp' : MP}
    (hQ : ∀ m, .msg m ∈ cs → Q m) (hR : ∀ pb, .block pb ∈ cs → R pb) (hP : P mp) (hr : mp.calls C env cs = .ok mp') : P mp' := by
  induction cs generalizing mp with
  | nil => simp only [MP.calls, List.foldlM_nil, pure, Except.pure, Except.ok.injEq] at hr; subst hr; exact hP
  | cons c cs ih =>
    simp only [MP.calls, List.foldlM_cons] at hr
    obtain ⟨mp1, h1, h2⟩ := bind_ok.mp hr
    refine ih (fun m hm => hQ m (by simp [hm])) (fun pb hm => hR pb (by simp [hm])) ?_ h2
    cases c with
    | block pb =>
      simp only [MP.call, Except.ok.injEq] at h1
      subst h1
      exact hc mp pb (hR pb (by simp)) hP
    | msg m =>
      have := h.process (hQ m (by simp)) hP
      simp only [MP.call] at h1
      split at h1
      · simp at h1
      · rename_i e
        simp only [Except.ok.injEq] at h1
        subst h1
        exact this.ok e

theorem Base.calls {C : Codec} {env : Env} {mp mp' : MP} {cs : List Call} (h : Base mp) (hr : mp.calls C env cs = .ok mp') :
    Base mp' :=
  (base_parts C env (fun _ => True) (fun _ => trivial)).calls (R := fun _ => True) (fun _ pb _ hb => hb.complete pb)
    (fun _ _ => trivial) (fun _ _ => trivial) h hr

theorem calls_emitted {C : Codec} {env : Env} {mp mp' : MP} {cs : List Call} (hr : mp.calls C env cs = .ok mp') :
    mp.emitted <+: mp'.emitted := by
  induction cs generalizing mp with
  | nil => simp only [MP.calls, List.foldlM_nil, pure, Except.pure, Except.ok.injEq] at hr; subst hr; exact List.prefix_refl _
  | cons c cs ih =>
    simp only [MP.calls, List.foldlM_cons] at hr
    obtain ⟨mp1, h1, h2⟩ := bind_ok.mp hr
    obtain ⟨l, hl⟩ := call_sent h1
    refine List.IsPrefix.trans ?_ (ih h2)
    unfold MP.emitted
    rw [← hl, List.filterMap_append]
    exact List.prefix_append _ _

/-- The memory of emitted blocks stays bounded. -/
theorem mbound_complete {t : Int} {mp : MP} (h : MBound t mp) (pb : PB) : MBound t (mp.processCompleteBatch pb) := by
  obtain ⟨pb', next, w, he, hh⟩ := complete_eq mp pb
  rw [he]
  obtain ⟨h1, h2, h3⟩ := h
  refine ⟨h1, by show (mp.completed.add pb.hash).1.cap = _; rw [LRU.add_cap]; exact h2, ?_⟩
  have := LRU.add_length mp.completed pb.hash (by rw [h2]; exact h3)
  rw [h2] at this
  exact this

/-- Since `E0` the blocks `es` were emitted; once among them, `h` is remembered until `n` blocks were emitted after it, and these are
other blocks. -/
structure Held (h : Hash) (E0 : List PB) (n : Nat) (mp : MP) : Prop where
  cap : mp.completed.cap = n
  pos : 0 < n
  ex : ∃ es, mp.emitted = E0 ++ es ∧ ∀ e1 pb rest, es = e1 ++ pb :: rest → pb.hash = h →
    (n ≤ (rest.takeWhile (fun pb => pb.hash ≠ h)).length ∨
      ((∀ pb ∈ rest, pb.hash ≠ h) ∧ rest.length < n ∧ mp.completed.Within h rest.length))

theorem Held.same {h : Hash} {E0 : List PB} {n : Nat} {mp mp' : MP} (hd : Held h E0 n mp) (h1 : mp'.completed = mp.completed)
    (h2 : mp'.emitted = mp.emitted) : Held h E0 n mp' :=
  ⟨by rw [h1]; exact hd.cap, hd.pos, by rw [h1, h2]; exact hd.ex⟩

theorem takeWhile_le_append {α : Type} (p : α → Bool) (l r : List α) : (l.takeWhile p).length ≤ ((l ++ r).takeWhile p).length := by
  induction l with
  | nil => simp
  | cons a l ih =>
    simp only [List.cons_append, List.takeWhile_cons]
    split
    · simp; exact ih
    · simp

theorem takeWhile_all {α : Type} {p : α → Bool} {l : List α} (h : ∀ x ∈ l, p x = true) : l.takeWhile p = l := by
  induction l with
  | nil => rfl
  | cons a l ih => rw [List.takeWhile_cons, if_pos (h a (by simp)), ih (fun x hx => h x (by simp [hx]))]

theorem Held.emit {h : Hash} {E0 : List PB} {n : Nat} {mp mp' : MP} {pb : PB} (hd : Held h E0 n mp)
    (hc : mp.completed.contains h = true → pb.hash ≠ h) (h1 : mp'.completed = (mp.completed.add pb.hash).1)
    (h2 : mp'.emitted = mp.emitted ++ [pb]) : Held h E0 n mp' := by
  obtain ⟨hcap, hpos, es, he, hw⟩ := hd
  refine ⟨by rw [h1, LRU.add_cap]; exact hcap, hpos, es ++ [pb], by rw [h2, he]; simp, ?_⟩
  intro e1 p rest hsplit hp
  rcases append_last_split hsplit with ⟨rfl, rfl, rfl⟩ | ⟨r, rfl, hes⟩
  · refine .inr ⟨by simp, by simpa using hpos, ?_⟩
    rw [h1, hp]; exact LRU.within_add_self _ _ (by omega) _
  rcases hw e1 p r hes hp with hw | ⟨ha, hl, hw⟩
  · exact .inl (Nat.le_trans hw (takeWhile_le_append _ _ _))
  · have hne := hc (by rw [LRU.contains_iff]; exact hw.mem)
    have hall : ∀ q ∈ r ++ [pb], q.hash ≠ h := by
      intro q hq
      rcases List.mem_append.mp hq with hq | hq
      · exact ha q hq
      · simp only [List.mem_singleton] at hq; subst hq; exact hne
    by_cases hlt : r.length + 1 < n
    · right
      refine ⟨hall, by simpa using hlt, ?_⟩
      rw [h1]
      simpa using hw.add pb.hash (by omega)
    · left
      have : (r ++ [pb]).takeWhile (fun q => decide (q.hash ≠ h)) = r ++ [pb] :=
        takeWhile_all (fun q hq => by simpa using hall q hq)
      rw [this]; simp; omega

theorem held_finish {h : Hash} {E0 : List PB} {n : Nat} {mp : MP} (hB : Base mp) (hd : Held h E0 n mp) (hash : Hash) :
    Held h E0 n (mp.finish hash) := by
  rcases finish_cases mp hash with ⟨he, _⟩ | ⟨pb, hp, hr, he⟩
  · rw [he]; exact hd
  · rw [he]
    have hph := hB.hashes _ _ hp
    refine hd.emit (pb := pb) ?_ (by rw [hph]) (emitted_append_batch rfl)
    intro hc heq
    rw [← hph, heq, hB.compl _ hc] at hp; simp at hp

theorem held_parts (C : Codec) (env : Env) (h : Hash) (E0 : List PB) (n : Nat) :
    XParts C env true (fun m => m.key.headD 0 ≠ ReorgType) (Held h E0 n) where
  begin mp m _ _ h := h.same (begin_fields env mp m).1 (emitted_of_log (begin_fields env mp m).2.2.1)
  short := .inl rfl
  reorg mp m hq _ h ht := absurd ht hq
  add mp m b _ hB h _ _ _ _ _ := by
    refine h.same rfl ?_
    simp [MP.emitted, MP.addHeader]
  sub mp m _ hB h hqt _ _ _ := by
    unfold MP.onSubHeader
    split
    · exact h.same rfl rfl
    · rename_i pb hp
      simp only []
      split
      · exact h
      · split
        · exact h.same rfl rfl
        · split
          · rfl
          · rename_i pb' hpb
            exact held_finish (hB.update hp (sameHead_addSub hpb).hash) (h.same rfl rfl) _
  other mp m _ hB h hqt _ _ _ := by
    unfold MP.onOther
    split
    · exact h.same rfl rfl
    · rename_i pb hp
      split
      · rfl
      · rename_i pb' _ hpb
        exact held_finish (hB.update hp (sameHead_apply hpb).hash) (h.same rfl rfl) _
  queued mp m q e _ _ hB _ hq he := (hB.queue _ _ _ hq he).1.1
  drop mp m _ _ _ h := h.same rfl rfl
  finish mp m _ _ hB h := held_finish hB h _

theorem held_complete {h : Hash} {E0 : List PB} {n : Nat} {mp : MP} (hd : Held h E0 n mp) {pb : PB} (hne : pb.hash ≠ h) :
    Held h E0 n (mp.processCompleteBatch pb) := by
  obtain ⟨pb', next, w, he, hh⟩ := complete_eq mp pb
  have hph : pb'.hash = pb.hash := by rw [← hh]
  refine hd.emit (pb := pb') (fun _ => by rw [hph]; exact hne) (by rw [he, hph]) ?_
  rw [he]; simp [MP.emitted]

/-- Two emissions of `h` are far apart. -/
theorem Held.apart {h : Hash} {E0 : List PB} {n : Nat} {mp : MP} (hd : Held h E0 n mp) {e1 mid e3 : List PB} {pb1 pb2 : PB}
    (he : mp.emitted = E0 ++ (e1 ++ pb1 :: (mid ++ pb2 :: e3))) (h1 : pb1.hash = h) (h2 : pb2.hash = h) :
    n ≤ mid.countP (fun pb => pb.hash ≠ h) := by
  obtain ⟨_, _, es, h3, h4⟩ := hd
  have h3 := List.append_cancel_left (he.symm.trans h3)
  rcases h4 e1 pb1 (mid ++ pb2 :: e3) h3.symm h1 with h5 | ⟨h5, _⟩
  · refine Nat.le_trans h5 ?_
    clear h3 h5 he h4
    induction mid with
    | nil => simp [h2]
    | cons a mid ih =>
      simp only [List.cons_append, List.takeWhile_cons, List.countP_cons]
      split
      · simp only [List.length_cons]; omega
      · simp
  · exact absurd h2 (h5 pb2 (by simp))

end Verif
