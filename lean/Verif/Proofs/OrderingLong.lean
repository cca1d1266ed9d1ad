import Verif.Proofs.OrderingLine
import Verif.Proofs.Kafka
import Verif.Proofs.OrderingWaiting
/-! Delivery of a single chain of any length, in any order: old blocks are forgotten on the way. -/
namespace Verif
open Spec

variable {D E : PB → Prop} {o : MapOrder} {W : World}

/-! ### The window of remembered hashes -/

/-- The numbers go down by one along the list, from `n`. -/
def Desc (num : Hash → Int) : Int → List Hash → Prop
  | _, [] => True
  | n, r :: rs => num r = n ∧ Desc num (n - 1) rs

theorem Desc.take {num : Hash → Int} {rs : List Hash} : ∀ {n : Int} {c : Nat}, Desc num n rs → ∀ x,
    x ∈ rs.take c ↔ x ∈ rs ∧ n - c < num x := by
  induction rs with
  | nil => intro n c _ x; simp
  | cons r rs ih =>
    intro n c h x
    have low : ∀ {m : Int} {l : List Hash}, Desc num m l → ∀ y ∈ l, num y ≤ m := by
      intro m l
      induction l generalizing m with
      | nil => intro _ y hy; simp at hy
      | cons a l ih2 =>
        intro hd y hy
        rcases List.mem_cons.mp hy with rfl | hy
        · have := hd.1; omega
        · have := ih2 hd.2 y hy; omega
    cases c with
    | zero =>
      simp only [List.take_zero, List.not_mem_nil, false_iff, not_and]
      intro hx
      have := low h x hx
      simp; omega
    | succ c =>
      rw [List.take_succ_cons, List.mem_cons, List.mem_cons, ih h.2]
      constructor
      · rintro (rfl | ⟨h1, h2⟩)
        · exact ⟨.inl rfl, by have := h.1; omega⟩
        · exact ⟨.inr h1, by omega⟩
      · rintro ⟨rfl | h1, h2⟩
        · exact .inl rfl
        · exact .inr ⟨h1, by omega⟩

theorem Desc.get {num : Hash → Int} {rs : List Hash} : ∀ {n : Int} {i : Nat} {x : Hash}, Desc num n rs → rs[i]? = some x →
    num x = n - i := by
  induction rs with
  | nil => intro n i x _ h; simp at h
  | cons r rs ih =>
    intro n i x h hi
    cases i with
    | zero => simp at hi; rw [← hi]; have := h.1; omega
    | succ i => have := ih h.2 (by simpa using hi); omega

/-- The remembered chain, newest first. -/
def newest (root : Hash) (em : List PB) : List Hash := (root :: hashes em).reverse

theorem newest_snoc (root : Hash) (em : List PB) (x : PB) : newest root (em ++ [x]) = x.hash :: newest root em := by
  simp [newest, hashes]

theorem mem_newest {root : Hash} {em : List PB} {x : Hash} : x ∈ newest root em ↔ x = root ∨ x ∈ hashes em := by
  simp [newest, or_comm]

theorem newest_desc {root : Hash} {em : List PB} (hl : Linked root em) (hN : ∀ b ∈ em, W.Numbered b) :
    Desc W.number (W.number (endOf root em)) (newest root em) := by
  induction em using snoc_induction with
  | nil => simp [newest, hashes, endOf, Desc]
  | snoc em x ih =>
    have h := linked_append.mp hl
    have hx := hN x (by simp)
    unfold World.Numbered at hx
    rw [newest_snoc, endOf_append]
    refine ⟨rfl, ?_⟩
    have e : W.number (endOf (endOf root em) [x]) - 1 = W.number (endOf root em) := by
      simp only [endOf]
      rw [hx, h.2.1]; omega
    rw [e]
    exact ih h.1 (fun b hb => hN b (by simp [hb]))

/-- Adding a new hash to a window over a list. -/
theorem add_window {c : LRU Hash} {rs : List Hash} {t : Hash} (h0 : 0 < c.cap) (hc : c.items = rs.take c.cap) (ht : t ∉ rs) :
    (c.add t).1.items = (t :: rs).take c.cap ∧
      ((rs.length < c.cap ∧ (c.add t).2 = none) ∨ ∃ k, rs[c.cap - 1]? = some k ∧ (c.add t).2 = some k) := by
  unfold LRU.add
  rw [if_neg (by rw [hc]; exact fun h => ht (List.mem_of_mem_take h))]
  obtain ⟨cap, items⟩ := c
  simp only [] at *
  subst hc
  split
  · rename_i hl
    rw [List.length_take] at hl
    have hlt : rs.length < cap := by omega
    refine ⟨?_, .inl ⟨hlt, rfl⟩⟩
    simp only []
    rw [List.take_of_length_le (Nat.le_of_lt hlt), List.take_of_length_le (by simp only [List.length_cons]; omega)]
  · rename_i hl
    rw [List.length_take] at hl
    have hle : cap ≤ rs.length := by omega
    obtain ⟨n, rfl⟩ : ∃ n, cap = n + 1 := ⟨cap - 1, by omega⟩
    constructor
    · simp only []
      rw [List.dropLast_eq_take, List.length_cons, List.length_take, Nat.min_eq_left hle]
      simp [List.take_take]
    · right
      simp only [Nat.add_sub_cancel]
      refine ⟨rs[n]'(by omega), by simp, ?_⟩
      rw [List.getLast?_cons, List.getLast?_take]
      simp
      rw [List.getElem?_eq_getElem (by omega)]
      simp

/-! ### Forgetting a block of the chain -/

theorem evict_once (s : OMP) {k : Hash} {pb : PB} (hk : s.pending.get? k = some pb) (hp : pb.hash = k) (hpp : s.pending.get? pb.parentHash = none)
    (hch : ∀ q, s.queued.get? k = some q → ∀ c ∈ q.keys, s.finished.contains c = true) :
    ∃ q' n, s.evict o k = .ok { s with pending := s.pending.erase k, queued := q', log := s.log ++ [.evictOlder pb.number], tick := n } ∧
      ∀ p, q'.get? p = if k = p then none else s.queued.get? p := by
  subst hp
  have hsize : s.pending.size ≠ 0 := by
    intro h
    have hm := mem_keys_of hk
    unfold GMap.size at h
    rw [List.length_eq_zero_iff] at h
    simp [GMap.keys, h] at hm
  obtain ⟨m, hm⟩ : ∃ m, s.pending.size = m + 1 := ⟨s.pending.size - 1, by omega⟩
  unfold OMP.evict
  rw [hm]
  unfold OMP.evictAux
  rw [hk]
  simp only []
  have hnone : (s.pending.erase pb.hash).get? pb.parentHash = none := by
    rw [GMap.get?_erase]; split
    · rfl
    · exact hpp
  have h1 : OMP.evictAux o (m + 1) { s with pending := s.pending.erase pb.hash, log := s.log ++ [.evictOlder pb.number] } pb.parentHash =
      .ok { s with pending := s.pending.erase pb.hash, log := s.log ++ [.evictOlder pb.number] } := by
    unfold OMP.evictAux
    simp only []
    rw [hnone]
  rw [h1]
  cases hq : s.queued.get? pb.hash with
  | none =>
    refine ⟨s.queued, s.tick, ?_, ?_⟩
    · show (match s.queued.get? pb.hash with | none => _ | some children => _) = _
      rw [hq]
    · intro p
      split
      · rename_i e; rw [← e]; exact hq
      · rfl
  | some q =>
    refine ⟨s.queued.erase pb.hash, s.tick + 1, ?_, fun p => GMap.get?_erase ..⟩
    show (match s.queued.get? pb.hash with | none => _ | some children => _) = _
    rw [hq]
    simp only []
    have : ∀ l : List Hash, (∀ c ∈ l, s.finished.contains c = true) → ∀ a : OMP, a.finished = s.finished →
        l.foldlM (fun s c => if s.finished.contains c then .ok s else OMP.evictAux o (m + 1) s c) a = .ok a := by
      intro l
      induction l with
      | nil => intro _ a _; rfl
      | cons x l ih =>
        intro hl a ha
        rw [List.foldlM_cons, if_pos (by rw [ha]; exact hl x (by simp))]
        exact ih (fun c hc => hl c (by simp [hc])) a ha
    exact bind_ok.mpr ⟨_, this _ (fun c hc => hch q hq c (mem_ord.mp hc)) _ rfl, rfl⟩

/-- The state while the chain has been emitted up to `em`; the blocks of `D` have been delivered, and those of `E` wait if they
have not been emitted. -/
structure OnLong (W : World) (D E : PB → Prop) (wl : GMap Nat Hash) (root : Hash) (cap : Nat) (em : List PB) (s : OMP) : Prop where
  inv : OInv D s
  size : s.finished.cap = cap
  thr : (cap : Int) = 2 * s.reorgThreshold
  fin : s.finished.items = (newest root em).take cap
  init : s.initEmpty = false
  wl : s.whitelist = wl
  bl : ∀ h, s.blacklist.contains h = false
  last : s.lastHash = endOf root em
  weight : s.lastWeight = W.weight s.lastHash
  new : ∀ b, D b → b.hash ∉ hashes em → ∃ b', s.pending.get? b.hash = some b'
  kept : ∀ x ∈ hashes em, x ∈ s.finished.items → ∃ b, s.pending.get? x = some b
  gone : ∀ x ∈ hashes em, x ∉ s.finished.items → s.pending.get? x = none
  wait : ∀ b, E b → b.hash ∉ hashes em → ∃ q, s.queued.get? b.parentHash = some q ∧ b.hash ∈ q.keys

theorem low_in {root : Hash} {em rest : List PB} (hc : ChainOn W root (em ++ rest)) {b : PB} (hb : W.Has b)
    (hm : b.hash ∈ hashes (em ++ rest)) (hlow : W.number b.hash ≤ W.number (endOf root em)) : b.hash ∈ hashes em := by
  obtain ⟨a, y, c, e1, e2, e3, e4⟩ := hc.find hb hm
  have hy : y ∈ em ++ rest := by rw [e1]; simp
  have hn := hc.numbered y hy
  unfold World.Numbered at hn
  have hp : b.parentHash = y.parentHash := by rw [hb.parent, (hc.has y hy).parent, e2]
  have h2 := number_endOf (linked_append.mp hc.linked).1 (fun x hx => hc.numbered x (by simp [hx]))
  rw [e2, ← hp] at hn
  have hlt : a.length < em.length := by omega
  have hg : (em ++ rest)[a.length]? = some y := by rw [e1]; simp
  rw [List.getElem?_append_left hlt] at hg
  rw [← e2]
  exact mem_hashes (List.mem_of_getElem? hg)

/-- Eviction requests, each for the number of one of these blocks. -/
def EvictsOf (W : World) (hs : List Hash) (l : List OOut) : Prop := ∀ x ∈ l, ∃ k ∈ hs, x = OOut.evictOlder (W.number k)

theorem EvictsOf.nil {hs : List Hash} : EvictsOf W hs [] := by intro x hx; simp at hx

theorem EvictsOf.mono {hs hs' : List Hash} {l : List OOut} (h : EvictsOf W hs l) (hm : ∀ k ∈ hs, k ∈ hs') : EvictsOf W hs' l := by
  intro x hx
  obtain ⟨k, hk, e⟩ := h x hx
  exact ⟨k, hm k hk, e⟩

theorem EvictsOf.append {hs : List Hash} {l l' : List OOut} (h : EvictsOf W hs l) (h' : EvictsOf W hs l') : EvictsOf W hs (l ++ l') := by
  intro x hx
  rcases List.mem_append.mp hx with hx | hx
  · exact h x hx
  · exact h' x hx

/-- The next block of the chain is marked as finished; a block may be forgotten. -/
theorem OnLong.next {wl : GMap Nat Hash} {root : Hash} {cap : Nat} {em rest : List PB} {s : OMP} {t x : PB} (h0 : 0 < cap)
    (hc : ChainOn W root (em ++ x :: rest)) (hD : ∀ b, D b → W.Has b ∧ b.hash ∈ hashes (em ++ x :: rest))
    (h : OnLong W D E wl root cap em s) (ht : D t) (hx : x.hash = t.hash) (n : Nat) :
    Out (fun _ => False) (fun s' => OnLong W D E wl root cap (em ++ [x]) s' ∧ Sub s'.queued s.queued ∧ s'.lastHash = t.hash ∧
      ∃ l, s'.log = s.log ++ l ∧ EvictsOf W (hashes em) l) (OMP.finAdd o { s with lastHash := t.hash, lastWeight := t.weight, tick := n } t.hash) := by
  have hlk := linked_append.mp hc.linked
  have hN : ∀ b ∈ em, W.Numbered b := fun b hb => hc.numbered b (by simp [hb])
  have hdesc := newest_desc (W := W) hlk.1 hN
  have hxn := hc.numbered x (by simp)
  unfold World.Numbered at hxn
  rw [hlk.2.1, hx] at hxn
  have hnodup := (linked_nodup (W := W) hc.linked hc.numbered).1
  have htn : t.hash ∉ newest root em := by
    rw [mem_newest, ← hx]
    rw [hashes_append, List.nodup_cons, List.nodup_append] at hnodup
    rintro (e | e)
    · exact hnodup.1 (by rw [← e]; simp [hashes])
    · exact hnodup.2.2.2 _ e x.hash (by simp [hashes]) rfl
  have htem : t.hash ∉ hashes em := fun e => htn (mem_newest.mpr (.inr e))
  obtain ⟨b0, hb0⟩ := h.new t ht htem
  have hfin : s.finished.items = (newest root em).take s.finished.cap := by rw [h.size]; exact h.fin
  obtain ⟨hitems, hev⟩ := add_window (c := s.finished) (t := t.hash) (by rw [h.size]; exact h0) hfin htn
  rw [h.size] at hitems hev
  have hitems' : (s.finished.add t.hash).1.items = (newest root (em ++ [x])).take cap := by rw [newest_snoc, hx]; exact hitems
  have hdesc' : Desc W.number (W.number t.hash) (newest root (em ++ [x])) := by
    have := newest_desc (W := W) (root := root) (em := em ++ [x]) (by
      rw [linked_append]; exact ⟨hlk.1, hlk.2.1, trivial⟩) (fun b hb => hc.numbered b (by
        rcases List.mem_append.mp hb with hb | hb
        · simp [hb]
        · simp [List.mem_singleton.mp hb]))
    rwa [endOf_append, show endOf (endOf root em) [x] = t.hash from hx] at this
  -- what is remembered afterwards
  have hmem : ∀ y, y ∈ (s.finished.add t.hash).1.items ↔ (y = root ∨ y ∈ hashes em ∨ y = t.hash) ∧ W.number t.hash - cap < W.number y := by
    intro y
    rw [hitems', hdesc'.take, mem_newest, hashes_append, List.mem_append]
    simp [hashes, hx]
  have hmem0 : ∀ y, y ∈ s.finished.items ↔ (y = root ∨ y ∈ hashes em) ∧ W.number (endOf root em) - cap < W.number y := by
    intro y
    rw [h.fin, hdesc.take, mem_newest]
  have hroot : s.pending.get? root = none := by
    cases hg : s.pending.get? root with
    | none => rfl
    | some b =>
      obtain ⟨e1, e2⟩ := h.inv.pend _ _ hg
      have := (hD b e2).2
      rw [List.nodup_cons, ← e1] at hnodup
      exact (hnodup.1 this).elim
  have hmon : ∀ y, y ∈ hashes (em ++ [x]) ↔ y ∈ hashes em ∨ y = t.hash := by
    intro y; rw [hashes_append, List.mem_append]; simp [hashes, hx]
  unfold OMP.finAdd
  simp only []
  rcases hev with ⟨hlen, hnone⟩ | ⟨k, hk, hsome⟩
  · rw [hnone]
    simp only []
    refine ⟨⟨h.inv.of_maps rfl rfl, by simp only [LRU.add_cap]; exact h.size, h.thr, hitems', h.init, h.wl, h.bl, ?_, (hD t ht).1.weight, ?_, ?_, ?_, ?_⟩,
      Sub.refl _, rfl, [], by simp, EvictsOf.nil⟩
    · simp only []; rw [endOf_append]; exact hx.symm
    · intro b hb hne
      exact h.new b hb (fun e => hne ((hmon _).mpr (.inl e)))
    · intro y hy hyf
      rcases (hmon y).mp hy with hy | rfl
      · refine h.kept y hy ((hmem0 y).mpr ⟨.inr hy, ?_⟩)
        have := ((hmem y).mp hyf).2
        omega
      · exact ⟨b0, hb0⟩
    · intro y hy hyf
      -- nothing has been forgotten
      exfalso
      apply hyf
      show y ∈ (s.finished.add t.hash).1.items
      rw [hitems', newest_snoc, List.take_of_length_le (by simp only [List.length_cons]; omega)]
      rw [← newest_snoc]
      exact mem_newest.mpr (.inr hy)
    · intro b hb hne
      exact h.wait b hb (fun e => hne ((hmon _).mpr (.inl e)))
  · rw [hsome]
    simp only []
    have hkn := hdesc.get hk
    have hkm : k = root ∨ k ∈ hashes em := mem_newest.mp (List.mem_of_getElem? hk)
    have hknot : k ∉ (s.finished.add t.hash).1.items := by
      rw [hmem]
      rintro ⟨_, h2⟩
      omega
    have hforget : ∀ y, y ∈ s.finished.items → y ∉ (s.finished.add t.hash).1.items → y = k := by
      intro y hy hy'
      rcases LRU.mem_add_or (k := t.hash) hy with h1 | h1
      · exact (hy' h1).elim
      · rw [hsome] at h1; simpa using h1.symm
    -- the state afterwards, given the new maps
    have fin : ∀ (P : GMap Hash PB) (Q : GMap Hash (GMap Hash Unit)) (l : List OOut) (m : Nat), Sub P s.pending → P.get? k = none →
        (∀ y, y ≠ k → P.get? y = s.pending.get? y) → Sub Q s.queued → (∀ y, y ≠ k → Q.get? y = s.queued.get? y) →
        OnLong W D E wl root cap (em ++ [x]) { s with
          lastHash := t.hash, lastWeight := t.weight, tick := m, finished := (s.finished.add t.hash).1
          pending := P, queued := Q, log := l } := by
      intro P Q l m hP hPk hP' hQ hQ'
      have htk : t.hash ≠ k := by
        intro e
        rw [e] at htn
        exact htn (List.mem_of_getElem? hk)
      refine ⟨⟨fun y b hy => h.inv.pend y b (hP y b hy), fun p q c hq hcq => h.inv.que p q c (hQ p q hq) hcq,
        fun p q hq => h.inv.ne p q (hQ p q hq)⟩, by simp only [LRU.add_cap]; exact h.size, h.thr, hitems', h.init, h.wl, h.bl, ?_,
        (hD t ht).1.weight, ?_, ?_, ?_, ?_⟩
      · simp only []; rw [endOf_append]; exact hx.symm
      · intro b hb hne
        simp only []
        have hbk : b.hash ≠ k := by
          intro e
          rcases hkm with e' | e'
          · obtain ⟨_, hm⟩ := hD b hb
            rw [List.nodup_cons] at hnodup
            exact hnodup.1 (by rw [← e', ← e]; exact hm)
          · exact hne ((hmon _).mpr (.inl (e ▸ e')))
        rw [hP' _ hbk]
        exact h.new b hb (fun e => hne ((hmon _).mpr (.inl e)))
      · intro y hy hyf
        simp only [] at hyf ⊢
        have hyk : y ≠ k := fun e => hknot (e ▸ hyf)
        rw [hP' _ hyk]
        rcases (hmon y).mp hy with hy | rfl
        · refine h.kept y hy ((hmem0 y).mpr ⟨.inr hy, ?_⟩)
          have := ((hmem y).mp hyf).2
          omega
        · exact ⟨b0, hb0⟩
      · intro y hy hyf
        simp only [] at hyf ⊢
        by_cases hyk : y = k
        · rw [hyk]; exact hPk
        · rw [hP' _ hyk]
          rcases (hmon y).mp hy with hy | rfl
          · refine h.gone y hy (fun h1 => hyk (hforget y h1 hyf))
          · exact (hyf ((hmem _).mpr ⟨.inr (.inr rfl), by omega⟩)).elim
      · intro b hb hne
        simp only []
        have hne' : b.hash ∉ hashes em := fun e => hne ((hmon _).mpr (.inl e))
        obtain ⟨q, hq, hbq⟩ := h.wait b hb hne'
        refine ⟨q, ?_, hbq⟩
        rw [hQ' _ ?_]
        · exact hq
        · intro e
          obtain ⟨b', hb', e1, e2⟩ := h.inv.que _ _ _ hq hbq
          obtain ⟨h1, h2⟩ := hD b' hb'
          apply hne
          rw [← e1]
          have hcc : ChainOn W root ((em ++ [x]) ++ rest) := by simpa using hc
          refine low_in hcc h1 (by simpa using h2) ?_
          rw [endOf_append, show endOf (endOf root em) [x] = t.hash from hx]
          obtain ⟨a, y, c, f1, f2, f3, f4⟩ := hc.find h1 h2
          have hy : y ∈ em ++ x :: rest := by rw [f1]; simp
          have hn := hc.numbered y hy
          unfold World.Numbered at hn
          rw [(hc.has y hy).parent, f2, ← h1.parent, e2, e] at hn
          omega
    cases hkp : s.pending.get? k with
    | none =>
      -- only the root
      have he : OMP.evict o { s with lastHash := t.hash, lastWeight := t.weight, tick := n, finished := (s.finished.add t.hash).1 } k =
          .ok { s with lastHash := t.hash, lastWeight := t.weight, tick := n, finished := (s.finished.add t.hash).1 } := by
        unfold OMP.evict OMP.evictAux
        simp only []
        rw [hkp]
      rw [he]
      exact ⟨fin s.pending s.queued s.log n (Sub.refl _) hkp (fun _ _ => rfl) (Sub.refl _) (fun _ _ => rfl), Sub.refl _, rfl, [], by simp,
        EvictsOf.nil⟩
    | some pb =>
      obtain ⟨e1, e2⟩ := h.inv.pend _ _ hkp
      have hkne : k ∈ hashes em := by
        rcases hkm with e | e
        · rw [e, hroot] at hkp; simp at hkp
        · exact e
      obtain ⟨h1, h2⟩ := hD pb e2
      obtain ⟨a, y, c, f1, f2, f3, f4⟩ := hc.find h1 h2
      have hy : y ∈ em ++ x :: rest := by rw [f1]; simp
      have hn := hc.numbered y hy
      unfold World.Numbered at hn
      rw [(hc.has y hy).parent, f2, ← h1.parent, e1] at hn
      -- its parent is the root, or was forgotten before
      have hpar : s.pending.get? pb.parentHash = none := by
        cases hg : s.pending.get? pb.parentHash with
        | none => rfl
        | some pp =>
          obtain ⟨g1, g2⟩ := h.inv.pend _ _ hg
          have hin : pb.parentHash ∈ hashes em := by
            obtain ⟨k1, k2⟩ := hD pp g2
            rw [← g1]
            exact low_in hc k1 k2 (by rw [g1]; omega)
          have := h.gone _ hin (by rw [hmem0]; rintro ⟨_, h3⟩; omega)
          rw [hg] at this; simp at this
      obtain ⟨q', m, he, hq'⟩ := evict_once (o := o)
        { s with lastHash := t.hash, lastWeight := t.weight, tick := n, finished := (s.finished.add t.hash).1 } (k := k) hkp e1 hpar (by
          intro q hq c' hc'
          obtain ⟨b, hb, k1, k2⟩ := h.inv.que _ _ _ hq hc'
          obtain ⟨k3, k4⟩ := hD b hb
          obtain ⟨a', y', c'', f1', f2', f3', f4'⟩ := hc.find k3 k4
          have hy' : y' ∈ em ++ x :: rest := by rw [f1']; simp
          have hn' := hc.numbered y' hy'
          unfold World.Numbered at hn'
          rw [(hc.has y' hy').parent, f2', ← k3.parent, k2, k1] at hn'
          simp only [LRU.contains_iff]
          rw [hmem]
          refine ⟨.inr ?_, by omega⟩
          have hcc : ChainOn W root ((em ++ [x]) ++ rest) := by simpa using hc
          have := low_in hcc k3 (by simpa using k4) (by
            rw [endOf_append, show endOf (endOf root em) [x] = t.hash from hx, k1]; omega)
          rw [k1] at this
          exact (hmon _).mp this)
      rw [he]
      have hQ : Sub q' s.queued := by
        intro p v hp
        rw [hq'] at hp
        split at hp
        · simp at hp
        · exact hp
      refine ⟨fin (s.pending.erase k) q' _ m (Sub.erase _ _) (by simp) ?_ hQ ?_, hQ, rfl, [.evictOlder pb.number], rfl, ?_⟩
      · intro y hy
        rw [GMap.get?_erase, if_neg (fun e => hy e.symm)]
      · intro y hy
        rw [hq', if_neg (fun e => hy e.symm)]
      · intro z hz
        exact ⟨k, hkne, by rw [List.mem_singleton.mp hz, h1.number, e1]⟩

theorem OnLong.safe {wl : GMap Nat Hash} {root : Hash} {cap : Nat} {em rest : List PB} {s : OMP} (hc : ChainOn W root (em ++ rest))
    (h : OnLong W D E wl root cap em s) : Safe W s.finished.items D s := by
  have hlk := linked_append.mp hc.linked
  have hd := (linked_nodup (W := W) hlk.1 (fun b hb => hc.numbered b (by simp [hb]))).1
  refine ⟨h.inv, ⟨?_, fun _ h => h, ?_⟩, h.init, h.weight, ?_⟩
  · rw [h.fin]
    exact (List.take_sublist _ _).nodup (by unfold newest List.Nodup; rw [List.pairwise_reverse]; exact hd.imp Ne.symm)
  · rw [h.fin, h.size]; exact List.length_take_le _ _
  · intro p q c hq hcq hp
    obtain ⟨b, hb, rfl, _⟩ := h.inv.que _ _ _ hq hcq
    by_cases he : b.hash ∈ hashes em
    · obtain ⟨y, hy, e⟩ := List.mem_map.mp he
      rw [h.weight, h.last, ← e]
      exact (weight_endOf (W := W) hlk.1 (fun b hb => hc.heavier b (by simp [hb]))).2 y hy
    · obtain ⟨b', e⟩ := h.new b hb he
      rw [e] at hp; simp at hp

theorem emitLoop_long {wl : GMap Nat Hash} {root : Hash} {cap : Nat} {V : List Hash} (hR : Regular W V D) (h0 : 0 < cap) (n : Nat) (s : OMP)
    (new em rest : List PB) (hc : ChainOn W root (em ++ rest)) (hD : ∀ b, D b → W.Has b ∧ b.hash ∈ hashes (em ++ rest))
    (hs : OnLong W D E wl root cap em s) (hn : above W.number s.queued s.lastHash < n) :
    Out (fun _ => False) (fun r => ∃ ext rest' exb, rest = ext ++ rest' ∧ r.2 = new ++ exb ∧ hashes exb = hashes ext ∧
      OnLong W D E wl root cap (em ++ ext) r.1 ∧ r.1.queued.get? r.1.lastHash = none ∧ ∃ l, r.1.log = s.log ++ l ∧ EvictsOf W (hashes (em ++ ext)) l)
      (OMP.emitLoop o n s new) := by
  induction n generalizing s new em rest with
  | zero => omega
  | succ n ih =>
    unfold OMP.emitLoop
    obtain ⟨r, hr, _⟩ := (getPendingChild_total (o := o) s (hs.inv.ranked hR.numbered) s.lastHash).total
    rw [hr]
    show Out _ _ (match r with | none => _ | some hash => _)
    cases r with
    | none => exact ⟨[], rest, [], by simp, by simp, rfl, by simpa using hs, getPendingChild_none hr, [], by simp, EvictsOf.nil⟩
    | some c =>
      obtain ⟨b, q, hb, hbD, hbc, hpar, hq, hcq⟩ := chosen_pending hR (hs.safe hc) (by rw [hs.weight]; exact Nat.le_refl _) hr
      simp only []
      rw [hb]
      simp only []
      obtain ⟨x, rest', rfl, hx⟩ := next_of hc hD hbD (hpar.trans hs.last)
      obtain ⟨k, hk⟩ := finishSiblings_only (o := o) { s with tick := s.tick + 1 } b (by
        intro q' hq' c' hc'
        simp only [] at hq'
        obtain ⟨b', hb', e1, e2⟩ := hs.inv.que _ _ _ hq' hc'
        obtain ⟨x', r', e3, e4⟩ := next_of hc hD hb' (e2.trans (hpar.trans hs.last))
        simp only [List.cons.injEq] at e3
        rw [← e1, ← e4, ← e3.1, hx])
      rw [hk]
      refine (hs.next (o := o) h0 hc hD hbD hx k).bind ?_
      rintro s2 ⟨hs2, hq2, hl2, l, hlog, hl⟩
      have hlt' := above_child W.number (q := s.queued) (p := s.lastHash) (c := b.hash) (mem_keys_of hq) (by
        have := hs.inv.ranked hR.numbered _ _ _ hq hcq; rw [hbc]; omega)
      have hmono := above_mono W.number hq2 (h := b.hash) (h' := s2.lastHash) (by rw [hl2]; exact Int.le_refl _)
      have ea : em ++ x :: rest' = (em ++ [x]) ++ rest' := by simp
      rw [ea] at hc hD
      refine (ih s2 (new ++ [b]) (em ++ [x]) rest' hc hD hs2 (by omega)).imp ?_
      rintro r ⟨ext, r', exb, g1, g2, g3, g4, g6, l', g7, g8⟩
      refine ⟨x :: ext, r', b :: exb, by rw [g1]; rfl, by rw [g2]; simp, ?_, by simpa using g4, g6, l ++ l', by rw [g7, hlog]; simp,
        (hl.mono (fun k hk => by rw [hashes_append]; simp [hk])).append (by simpa using g8)⟩
      simp only [hashes, List.map_cons] at g3 ⊢
      rw [g3, hx]

/-- The invariant of a whole delivery. -/
structure LongLined (W : World) (wl : GMap Nat Hash) (root : Hash) (cap : Nat) (chain pre em rest : List PB) (s : OMP) : Prop where
  split : chain = em ++ rest
  line : OnLong W (· ∈ pre) (· ∈ pre) wl root cap em s
  tip : s.queued.get? s.lastHash = none
  noRemoved : ∀ x ∈ s.log, (∃ a, x = .update a []) ∨ ∃ k ∈ hashes em, x = .evictOlder (W.number k)
  added : addedHashes s.log = hashes em

theorem added_evicts {hs : List Hash} {l : List OOut} (h : EvictsOf W hs l) : l.flatMap addedBy = [] := by
  rw [List.flatMap_eq_nil_iff]
  intro x hx
  obtain ⟨k, _, rfl⟩ := h x hx
  rfl

theorem long_step {wl : GMap Nat Hash} {root : Hash} {cap : Nat} {chain pre em rest : List PB} {pb : PB} {s : OMP} {V : List Hash} (h0 : 0 < cap)
    (hc : ChainOn W root chain) (hR : Regular W V (· ∈ pre ++ [pb])) (hD : ∀ b ∈ pre ++ [pb], b.hash ∈ hashes chain)
    (hs : LongLined W wl root cap chain pre em rest s) (hF : ¬ Forbidden wl pb) :
    Out (fun _ => False) (fun s' => ∃ em' rest', LongLined W wl root cap chain (pre ++ [pb]) em' rest' s') (s.handle o pb) := by
  have hpbD : pb ∈ pre ++ [pb] := by simp
  have sub : ∀ b, b ∈ pre → b ∈ pre ++ [pb] := fun b hb => by simp [hb]
  obtain ⟨rfl, hl, htip, hnr, hadd⟩ := hs
  have hD' : ∀ b, b ∈ pre ++ [pb] → W.Has b ∧ b.hash ∈ hashes (em ++ rest) := fun b hb => ⟨hR.has b hb, hD b hb⟩
  unfold OMP.handle OMP.handleAux
  have hex : s.excludes pb = false := by
    cases he : s.excludes pb with
    | false => rfl
    | true =>
      rcases (excludes_iff s pb).mp he with h | h
      · rw [hl.wl] at h; exact (hF h).elim
      · rw [hl.bl] at h; simp at h
  rw [hex]
  simp only [Bool.false_eq_true, if_false]
  have hpw := (hR.has pb hpbD).weight
  have hpn := (hR.has pb hpbD).number
  have hcl := linked_append.mp hc.linked
  have hN : ∀ b ∈ em, W.Numbered b := fun b hb => hc.numbered b (by simp [hb])
  have hH : ∀ b ∈ em, W.Heavier b := fun b hb => hc.heavier b (by simp [hb])
  have hnum := number_endOf (W := W) hcl.1 hN
  have hdesc := newest_desc (W := W) hcl.1 hN
  have hmem : ∀ y, y ∈ s.finished.items ↔ (y = root ∨ y ∈ hashes em) ∧ W.number (endOf root em) - cap < W.number y := by
    intro y
    rw [hl.fin, hdesc.take, mem_newest]
  have hroot : root ∉ hashes (em ++ rest) := by
    have := (linked_nodup (W := W) hc.linked hc.numbered).1
    rw [List.nodup_cons] at this
    exact this.1
  -- the block is put into `pending`, for a block not forgotten
  have hl1 : (pb.hash ∈ hashes em → pb.hash ∈ s.finished.items) →
      OnLong W (· ∈ pre ++ [pb]) (· ∈ pre) wl root cap em { s with pending := s.pending.insert pb.hash pb } := by
    intro hin
    refine ⟨(hl.inv.mono sub).insert hpbD, hl.size, hl.thr, hl.fin, hl.init, hl.wl, hl.bl, hl.last, hl.weight, ?_, ?_, ?_, hl.wait⟩
    · intro b hb hne
      simp only [GMap.get?_insert]
      split
      · exact ⟨_, rfl⟩
      · rename_i hne'
        rcases List.mem_append.mp hb with hb | hb
        · exact hl.new b hb hne
        · exact (hne' (by rw [List.mem_singleton.mp hb])).elim
    · intro y hy hyf
      simp only [GMap.get?_insert]
      split
      · exact ⟨_, rfl⟩
      · exact hl.kept y hy hyf
    · intro y hy hyf
      simp only [GMap.get?_insert]
      split
      · rename_i e
        exact (hyf (e ▸ hin (e ▸ hy))).elim
      · exact hl.gone y hy hyf
  unfold OMP.accept
  split
  · rename_i hfin
    have hfin : pb.hash ∈ s.finished.items := by simpa [LRU.contains] using hfin
    have hem : pb.hash ∈ hashes em := by
      rcases ((hmem _).mp hfin).1 with e | e
      · exact (hroot (e ▸ hD pb hpbD)).elim
      · exact e
    have h1 := hl1 (fun _ => hfin)
    refine ⟨em, rest, rfl, { h1 with wait := ?_ }, htip, hnr, hadd⟩
    intro b hb hne
    rcases List.mem_append.mp hb with hb | hb
    · exact hl.wait b hb hne
    · rw [List.mem_singleton.mp hb] at hne
      exact (hne hem).elim
  · rename_i hfin
    have hnew : pb.hash ∉ s.finished.items := by simpa [LRU.contains] using hfin
    obtain ⟨a, y, c, e1, e2, e3, e4⟩ := hc.find (hR.has pb hpbD) (hD pb hpbD)
    have hy : y ∈ em ++ rest := by rw [e1]; simp
    have hyn := hc.numbered y hy
    unfold World.Numbered at hyn
    have hpar : y.parentHash = pb.parentHash := by rw [(hc.has y hy).parent, e2, ← (hR.has pb hpbD).parent]
    rw [hpar, e2] at hyn
    split
    · rename_i hlast
      simp only [] at hlast
      obtain ⟨x, rest', rfl, hx⟩ := next_of hc hD' hpbD (hlast.trans hl.last)
      have hne : pb.hash ∉ hashes em := by
        intro hm
        have hnd := (linked_nodup (W := W) hc.linked hc.numbered).1
        rw [hashes_append, List.nodup_cons, List.nodup_append] at hnd
        exact hnd.2.2.2 _ hm x.hash (by simp [hashes]) hx.symm
      have h1 := hl1 (fun h => (hne h).elim)
      unfold OMP.prepareEmit
      have hstart : ∃ k, OMP.emitStart o { s with pending := s.pending.insert pb.hash pb } [pb] =
          OMP.finAdd o { s with pending := s.pending.insert pb.hash pb, lastHash := pb.hash, lastWeight := pb.weight, tick := k } pb.hash := by
        unfold OMP.emitStart
        simp only [List.getLast?_singleton]
        obtain ⟨k, hk⟩ := finishSiblings_only (o := o)
          { s with pending := s.pending.insert pb.hash pb, lastHash := pb.hash, lastWeight := pb.weight } pb (by
            intro q hq
            simp only [] at hq
            rw [hlast, htip] at hq; simp at hq)
        refine ⟨k, ?_⟩
        rw [hk]; rfl
      obtain ⟨k, hk⟩ := hstart
      rw [hk]
      refine (h1.next (o := o) h0 hc hD' hpbD hx k).bind ?_
      rintro s1 ⟨hs1, hq1, _, l, hlog, hlo⟩
      have ea : em ++ x :: rest' = (em ++ [x]) ++ rest' := by simp
      rw [ea] at hc hD'
      have := above_size W.number s1.queued s1.lastHash
      refine (emitLoop_long hR h0 (s1.queued.size + 2) s1 [pb] (em ++ [x]) rest' hc hD' hs1 (by omega)).bind ?_
      rintro r ⟨ext, r', exb, g1, g2, g3, g4, g6, l', g7, g8⟩
      have hlog' : r.1.log = s.log ++ (l ++ l') := by rw [g7, hlog]; simp
      have hsub : ∀ k ∈ hashes em, k ∈ hashes (em ++ [x] ++ ext) := fun k hk => by rw [hashes_append, hashes_append]; simp [hk]
      have hlo' := (hlo.mono hsub).append g8
      refine ⟨em ++ [x] ++ ext, r', by rw [g1]; simp, ⟨g4.1.of_maps rfl rfl, g4.2, g4.3, g4.4, g4.5, g4.6, g4.7, g4.8, g4.9, g4.10, g4.11, g4.12, ?_⟩,
        g6, ?_, ?_⟩
      · intro b hb hne'
        rcases List.mem_append.mp hb with hb | hb
        · exact g4.wait b hb hne'
        · exfalso; apply hne'
          rw [List.mem_singleton.mp hb, ← hx]; simp [hashes]
      · intro z hz
        simp only [] at hz
        rw [hlog'] at hz
        rcases List.mem_append.mp hz with hz | hz
        · rcases List.mem_append.mp hz with hz | hz
          · rcases hnr z hz with h | ⟨k, hk, e⟩
            · exact .inl h
            · exact .inr ⟨k, hsub k hk, e⟩
          · exact .inr (hlo' z hz)
        · exact .inl ⟨_, List.mem_singleton.mp hz⟩
      · simp only []
        rw [hlog', g2]
        unfold addedHashes at hadd ⊢
        rw [List.flatMap_append, List.flatMap_append, added_evicts hlo', List.append_nil, hashes_append, hadd, hashes_append, hashes_append]
        simp only [List.flatMap_cons, List.flatMap_nil, addedBy, List.append_nil, List.append_assoc]
        rw [hashes_append, g3]
        simp [hashes, hx]
    · rename_i hnl
      simp only [] at hnl
      rw [if_neg (by simp [hl.init])]
      have hnend : a.length ≠ em.length := by
        intro h
        obtain ⟨h5, _⟩ := List.append_inj e1 h.symm
        exact hnl (by rw [e3, ← h5, hl.last])
      have hpn' : W.number pb.hash = W.number root + a.length + 1 := by omega
      by_cases hem : pb.hash ∈ hashes em
      · -- a block that was forgotten: it is too old
        have hold : ¬ W.number (endOf root em) - cap < W.number pb.hash := fun h => hnew ((hmem _).mpr ⟨.inr hem, h⟩)
        have hnf : s.finished.contains pb.parentHash = false := by
          simp only [LRU.contains, decide_eq_false_iff_not]
          intro h
          have := ((hmem _).mp h).2
          omega
        rw [hnf]
        simp only [Bool.false_eq_true, if_false]
        have hlastem : s.lastHash ∈ hashes em := by
          rw [hl.last]
          cases em using snoc_induction with
          | nil => simp [hashes] at hem
          | snoc em z _ => rw [endOf_append]; simp [endOf, hashes]
        have hlastfin : s.lastHash ∈ s.finished.items := by
          rw [hmem]
          exact ⟨.inr hlastem, by rw [hl.last]; omega⟩
        obtain ⟨lb, hlb⟩ := hl.kept _ hlastem hlastfin
        obtain ⟨g1, g2⟩ := hl.inv.pend _ _ hlb
        have hne : pb.hash ≠ s.lastHash := fun e => hnew (e ▸ hlastfin)
        have hlight : pb.weight < s.lastWeight := by
          obtain ⟨z, hz, e⟩ := List.mem_map.mp hem
          obtain ⟨u, v, rfl⟩ := List.append_of_mem hz
          have hzz : Linked root (u ++ z :: v) := hcl.1
          have hv := (linked_append.mp hzz).2.2
          have := (weight_endOf (W := W) hv (fun b hb => hH b (by simp [hb]))).1
          rw [hl.weight, hl.last, hpw, ← e, endOf_append]
          simp only [endOf]
          cases v with
          | nil =>
            exfalso; apply hne
            rw [hl.last, endOf_append]; exact e.symm
          | cons v0 v => simp only [List.length_cons] at this; omega
        have htoo : OMP.tooOld { s with pending := s.pending.insert pb.hash pb } pb = true := by
          unfold OMP.tooOld
          simp only [GMap.get?_insert]
          rw [if_neg hne, hlb]
          simp only [decide_eq_true_eq]
          have hln := (hR.has lb (sub lb g2)).number
          rw [hln, hpn, g1, hl.last]
          have := hl.thr
          omega
        unfold OMP.onUnconnected
        rw [if_pos hlight, htoo]
        simp only [if_true]
        have hget : ∀ z, ((s.pending.insert pb.hash pb).erase pb.hash).get? z = s.pending.get? z := by
          intro z
          rw [GMap.get?_erase, GMap.get?_insert]
          split
          · rename_i e; rw [← e]; exact (hl.gone _ hem hnew).symm
          · rfl
        refine ⟨em, rest, rfl, ⟨?_, hl.size, hl.thr, hl.fin, hl.init, hl.wl, hl.bl, hl.last, hl.weight, ?_, ?_, ?_, ?_⟩, htip, hnr, hadd⟩
        · refine ⟨?_, (hl.inv.mono sub).que, hl.inv.ne⟩
          intro z b hz
          simp only [hget] at hz
          exact (hl.inv.mono sub).pend z b hz
        · intro b hb hne'
          simp only [hget]
          rcases List.mem_append.mp hb with hb | hb
          · exact hl.new b hb hne'
          · rw [List.mem_singleton.mp hb] at hne'
            exact (hne' hem).elim
        · intro z hz hzf
          simp only [hget]
          exact hl.kept z hz hzf
        · intro z hz hzf
          simp only [hget]
          exact hl.gone z hz hzf
        · intro b hb hne'
          rcases List.mem_append.mp hb with hb | hb
          · exact hl.wait b hb hne'
          · rw [List.mem_singleton.mp hb] at hne'
            exact (hne' hem).elim
      · -- a block above the first missing one
        have h1 := hl1 (fun h => (hem h).elim)
        have hlen : em.length < a.length := by
          rcases Nat.lt_or_ge em.length a.length with h | h
          · exact h
          · exfalso
            exact hem (low_in hc (hR.has pb hpbD) (hD pb hpbD) (by omega))
        have hnf : s.finished.contains pb.parentHash = false := by
          simp only [LRU.contains, decide_eq_false_iff_not]
          intro h
          have := chain_low hcl.1 hN ((hmem _).mp h).1
          omega
        rw [hnf]
        simp only [Bool.false_eq_true, if_false]
        have hheavy : ¬ pb.weight < s.lastWeight := by
          have hyr : y ∈ rest := by
            have hy : (em ++ rest)[a.length]? = some y := by rw [e1]; simp
            rw [List.getElem?_append_right (by omega)] at hy
            exact List.mem_of_getElem? hy
          obtain ⟨r1, r2, rfl⟩ := List.append_of_mem hyr
          have e : r1 ++ y :: r2 = (r1 ++ [y]) ++ r2 := by simp
          have hlk := hcl.2
          rw [e] at hlk
          have := (weight_endOf (W := W) (linked_append.mp hlk).1 (fun x hx => hc.heavier x (by
            rcases List.mem_append.mp hx with h | h
            · simp [h]
            · simp [List.mem_singleton.mp h]))).1
          rw [endOf_append] at this
          simp only [endOf] at this
          rw [hpw, hl.weight, hl.last, ← e2]; omega
        unfold OMP.onUnconnected
        rw [if_neg hheavy]
        refine ⟨em, rest, rfl, ⟨h1.inv.queue hpbD, hl.size, hl.thr, hl.fin, hl.init, hl.wl, hl.bl, hl.last, hl.weight, h1.new, h1.kept, h1.gone, ?_⟩,
          ?_, hnr, hadd⟩
        · intro b hb hne'
          simp only [OMP.queue, GMap.get?_insert]
          split
          · rename_i e
            refine ⟨_, rfl, ?_⟩
            rw [mem_keys_insert]
            by_cases hbe : b.hash = pb.hash
            · exact .inl hbe
            · rcases List.mem_append.mp hb with hb | hb
              · obtain ⟨q, hq1, hq2⟩ := hl.wait b hb hne'
                rw [e, hq1]; exact .inr hq2
              · exact (hbe (by rw [List.mem_singleton.mp hb])).elim
          · rename_i e
            rcases List.mem_append.mp hb with hb | hb
            · exact hl.wait b hb hne'
            · exact (e (by rw [List.mem_singleton.mp hb])).elim
        · simp only [OMP.queue, GMap.get?_insert]
          rw [if_neg hnl]
          exact htip

theorem long_run {wl : GMap Nat Hash} {root : Hash} {cap : Nat} {chain post : List PB} {V : List Hash} (h0 : 0 < cap) (hc : ChainOn W root chain) :
    ∀ {pre em rest : List PB} {s : OMP}, Regular W V (· ∈ pre ++ post) → (∀ b ∈ pre ++ post, b.hash ∈ hashes chain) →
    LongLined W wl root cap chain pre em rest s → (∀ b ∈ post, ¬ Forbidden wl b) →
    Out (fun _ => False) (fun s' => ∃ em' rest', LongLined W wl root cap chain (pre ++ post) em' rest' s') (s.run o (post.map OOp.block)) := by
  induction post with
  | nil => intro pre em rest s _ _ h _; rw [List.append_nil]; exact ⟨em, rest, h⟩
  | cons b post ih =>
    intro pre em rest s hR hD hs hF
    unfold OMP.run
    rw [List.map_cons, List.foldlM_cons]
    have sub : ∀ x, x ∈ pre ++ [b] → x ∈ pre ++ b :: post := fun x hx => by
      rcases List.mem_append.mp hx with h | h
      · simp [h]
      · simp [List.mem_singleton.mp h]
    refine (long_step h0 hc (hR.mono sub) (fun x hx => hD x (sub x hx)) hs (hF b (by simp))).bind ?_
    rintro s' ⟨em', rest', h'⟩
    have := ih (pre := pre ++ [b]) (s := s') (hR.mono (fun x hx => by simpa using hx)) (fun x hx => hD x (by simpa using hx)) h'
      (fun x hx => hF x (by simp [hx]))
    rw [List.append_assoc] at this
    exact this

end Verif
