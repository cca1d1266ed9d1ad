import Verif.Proofs.OrderingParents
import Verif.Proofs.OrderingWaiting
import Verif.Spec.Recent
/-! Parents-first delivery without end: what is recent is remembered and held. -/
namespace Verif
open Spec

variable {o : MapOrder} {W : World}

/-! ### Eviction spares what is kept -/

/-- What eviction needs to know in order to spare the blocks in `G`. -/
structure Spares (G : Hash → Prop) (s : OMP) : Prop where
  up : ∀ h b, s.pending.get? h = some b → b.hash = h ∧ (G b.parentHash → G b.hash)
  que : ∀ p q c, s.queued.get? p = some q → c ∈ q.keys → c ∉ s.finished.items → ¬ G c

/-- The blocks in `G` are held as before. -/
structure Spared (G : Hash → Prop) (s s' : OMP) : Prop where
  pending : Sub s'.pending s.pending
  queued : Sub s'.queued s.queued
  finished : s'.finished = s.finished
  kept : ∀ h, G h → s'.pending.get? h = s.pending.get? h
  log : ∀ k, OOut.evictOlder k ∈ s'.log → OOut.evictOlder k ∈ s.log ∨ ∃ h b, s.pending.get? h = some b ∧ ¬ G h ∧ k = b.number

theorem Spared.trans {G : Hash → Prop} {a b c : OMP} (h : Spared G a b) (h' : Spared G b c) : Spared G a c :=
  ⟨h'.pending.trans h.pending, h'.queued.trans h.queued, h'.finished.trans h.finished, fun x hx => (h'.kept x hx).trans (h.kept x hx),
    fun k hk => (h'.log k hk).elim (h.log k) (fun ⟨x, y, h1, h2, h3⟩ => .inr ⟨x, y, h.pending x y h1, h2, h3⟩)⟩

theorem Spares.after {G : Hash → Prop} {a b : OMP} (h : Spares G a) (h' : Spared G a b) : Spares G b :=
  ⟨fun x y hy => h.up x y (h'.pending x y hy), fun p q c hq hc hn => h.que p q c (h'.queued p q hq) hc (by rw [← h'.finished]; exact hn)⟩

theorem evictAux_spares {G : Hash → Prop} (n : Nat) (s : OMP) (h : Hash) (hs : Spares G s) (hh : ¬ G h) :
    Out (fun _ => True) (Spared G s) (OMP.evictAux o n s h) := by
  induction n generalizing s h with
  | zero => trivial
  | succ n ih =>
    unfold OMP.evictAux
    split
    · exact ⟨Sub.refl _, Sub.refl _, rfl, fun _ _ => rfl, fun _ => .inl⟩
    · rename_i pb hp
      obtain ⟨e, hup⟩ := hs.up _ _ hp
      have h1 : Spared G s { s with pending := s.pending.erase pb.hash, log := s.log ++ [.evictOlder pb.number] } := by
        refine ⟨Sub.erase _ _, Sub.refl _, rfl, fun x hx => ?_, fun k hk => ?_⟩
        · rw [GMap.get?_erase, if_neg]
          intro e'
          exact hh (by rw [← e, e']; exact hx)
        · rcases List.mem_append.mp hk with hk | hk
          · exact .inl hk
          · simp only [List.mem_singleton, OOut.evictOlder.injEq] at hk
            exact .inr ⟨_, _, hp, hh, hk⟩
      simp only []
      refine (ih _ _ (hs.after h1) (fun hg => hh (e ▸ hup hg))).bind (fun s2 h2 => ?_)
      have h2 := h1.trans h2
      split
      · exact h2
      · rename_i children hc
        refine Out.bind (P := Spared G s) ?_ (fun s3 h3 => ⟨h3.pending, (Sub.erase _ _).trans h3.queued, h3.finished, h3.kept, h3.log⟩)
        refine Out.foldlM ?_ (⟨h2.pending, h2.queued, h2.finished, h2.kept, h2.log⟩ : Spared G s { s2 with tick := s2.tick + 1 })
        intro s3 c hm h3
        split
        · exact h3
        · rename_i hf
          refine (ih s3 c (hs.after h3) ?_).imp (fun _ h => h3.trans h)
          refine hs.que _ _ c (h2.queued _ _ hc) (mem_ord.mp hm) ?_
          rw [← h3.finished]
          simpa [LRU.contains] using hf

/-! ### The cache -/

/-- `h` comes after hashes numbered `m` or higher only. -/
def Within (W : World) (items : List Hash) (h : Hash) (m : Int) : Prop :=
  ∃ i1 i2, items = i1 ++ h :: i2 ∧ ∀ y ∈ i1, m ≤ W.number y

theorem within_filter {items : List Hash} {h y : Hash} {m : Int} (hw : Within W items h m) (hy : m ≤ W.number y) (hne : h ≠ y) :
    Within W (y :: items.filter (fun x => x ≠ y)) h m := by
  obtain ⟨i1, i2, rfl, hi⟩ := hw
  refine ⟨y :: i1.filter (fun x => x ≠ y), i2.filter (fun x => x ≠ y), ?_, ?_⟩
  · rw [List.filter_append, List.filter_cons_of_pos (by simpa using hne)]; rfl
  · intro x hx
    rcases List.mem_cons.mp hx with e | e
    · exact e ▸ hy
    · exact hi x (List.mem_filter.mp e).1

theorem add_within {c : LRU Hash} {h y : Hash} {m : Int} {V : List Hash} (hnd : c.items.Nodup) (hw : h = y ∨ Within W c.items h m)
    (hy : m ≤ W.number y) (hh : m ≤ W.number h) (hV : V.length ≤ c.cap)
    (hin : ∀ x, x = y ∨ x ∈ c.items → m ≤ W.number x → x ∈ V) : Within W (c.add y).1.items h m := by
  unfold LRU.add
  by_cases hym : y ∈ c.items
  · rw [if_pos hym]
    by_cases e : h = y
    · exact ⟨[], _, by rw [e]; rfl, by simp⟩
    · exact within_filter (hw.resolve_left e) hy e
  · rw [if_neg hym]
    have hcons : Within W (y :: c.items) h m ∧ (h = y ∨ h ∈ c.items) := by
      rcases hw with e | ⟨i1, i2, e, hi⟩
      · exact ⟨⟨[], c.items, by rw [e]; rfl, by simp⟩, .inl e⟩
      · refine ⟨⟨y :: i1, i2, by rw [e]; rfl, ?_⟩, .inr (by rw [e]; simp)⟩
        intro x hx
        rcases List.mem_cons.mp hx with e' | e'
        · exact e' ▸ hy
        · exact hi x e'
    split
    · exact hcons.1
    · rename_i hfull
      obtain ⟨⟨i1, i2, e, hi⟩, _⟩ := hcons
      simp only []
      have hlen : i2 ≠ [] := by
        intro e2
        have h1 : ∀ x ∈ y :: c.items, m ≤ W.number x := by
          intro x hx
          rw [e, e2] at hx
          rcases List.mem_append.mp hx with h1 | h1
          · exact hi x h1
          · rw [List.mem_singleton.mp h1]; exact hh
        have := nodup_length_le (l := y :: c.items) (l' := V) (List.nodup_cons.mpr ⟨hym, hnd⟩)
          (fun x hx => hin x (List.mem_cons.mp hx) (h1 x hx))
        simp only [List.length_cons] at this
        omega
      refine ⟨i1, i2.dropLast, ?_, hi⟩
      rw [e, List.dropLast_append_of_ne_nil (by simp), List.dropLast_cons_of_ne_nil hlen]

theorem add_nodup {c : LRU Hash} {y : Hash} (hnd : c.items.Nodup) : (c.add y).1.items.Nodup := by
  unfold LRU.add
  split
  · exact List.nodup_cons.mpr ⟨by simp, List.filter_sublist.nodup hnd⟩
  · rename_i hm
    split
    · exact List.nodup_cons.mpr ⟨hm, hnd⟩
    · exact (List.dropLast_sublist _).nodup (List.nodup_cons.mpr ⟨hm, hnd⟩)

theorem add_evicted {c : LRU Hash} {y k : Hash} (hnd : c.items.Nodup) (hk : (c.add y).2 = some k) :
    (k = y ∨ k ∈ c.items) ∧ k ∉ (c.add y).1.items := by
  unfold LRU.add at hk ⊢
  split at hk
  · simp at hk
  · rename_i hm
    split at hk
    · simp at hk
    · rename_i hfull
      rw [if_neg hm, if_neg hfull]
      simp only [] at hk ⊢
      have hne : (y :: c.items) ≠ [] := by simp
      rw [List.getLast?_eq_some_getLast hne] at hk
      simp only [Option.some.injEq] at hk
      have hsplit := List.dropLast_concat_getLast hne
      rw [hk] at hsplit
      have hnd' : (y :: c.items).Nodup := List.nodup_cons.mpr ⟨hm, hnd⟩
      constructor
      · have : k ∈ y :: c.items := by rw [← hsplit]; simp
        exact List.mem_cons.mp this
      · intro h
        rw [← hsplit, List.nodup_append] at hnd'
        exact hnd'.2.2 k h k (by simp) rfl

/-! ### Recent blocks -/

theorem Spec.RecentAt.mem {n m : Int} {bs : List PB} {h : Hash} (hr : RecentAt n bs h m) : h ∈ hashes bs := by
  obtain ⟨l1, x, l2, rfl, e, _⟩ := hr
  rw [← e]; exact mem_hashes (by simp)

theorem Spec.RecentAt.number {n m : Int} {bs : List PB} {h : Hash} (hW : ∀ b ∈ bs, W.Has b) (hr : RecentAt n bs h m) : m ≤ W.number h := by
  obtain ⟨l1, x, l2, rfl, e, _, hm, _⟩ := hr
  rw [← e, ← (hW x (by simp)).number]
  exact hm x (by simp)

theorem Spec.RecentAt.last {n m : Int} {bs : List PB} {b : PB} {h : Hash} (hr : RecentAt n (bs ++ [b]) h m) : m ≤ b.number := by
  obtain ⟨l1, x, l2, e, _, _, hm, _⟩ := hr
  rcases List.eq_nil_or_concat l2 with rfl | ⟨l3, z, rfl⟩
  · obtain ⟨_, e2⟩ := List.append_inj' e rfl
    simp only [List.cons.injEq, and_true] at e2
    exact hm b (by simp [e2])
  · have e' : bs ++ [b] = (l1 ++ x :: l3) ++ [z] := by rw [e]; simp
    obtain ⟨_, e2⟩ := List.append_inj' e' rfl
    simp only [List.cons.injEq, and_true] at e2
    exact hm b (by simp [e2])

theorem Spec.RecentAt.drop {n m : Int} {bs : List PB} {b : PB} {h : Hash} (hr : RecentAt n (bs ++ [b]) h m)
    (hd : h ≠ b.hash ∨ b.hash ∈ hashes bs) : RecentAt n bs h m := by
  obtain ⟨l1, x, l2, e, ex, hf, hm, V, hV, hin⟩ := hr
  rcases List.eq_nil_or_concat l2 with rfl | ⟨l3, z, rfl⟩
  · obtain ⟨rfl, e2⟩ := List.append_inj' e rfl
    simp only [List.cons.injEq, and_true] at e2
    rcases hd with hd | hd
    · exact (hd (by rw [← ex, e2])).elim
    · exact (hf (by rw [← ex, ← e2]; exact hd)).elim
  · have e' : bs ++ [b] = (l1 ++ x :: l3) ++ [z] := by rw [e]; simp
    obtain ⟨rfl, _⟩ := List.append_inj' e' rfl
    refine ⟨l1, x, l3, rfl, ex, hf, fun y hy => hm y ?_, V, hV, fun y hy => hin y (List.mem_append_left _ hy)⟩
    rcases List.mem_cons.mp hy with h1 | h1
    · simp [h1]
    · simp [h1]

/-- A first delivery of a hash among the blocks. -/
theorem first_split {bs : List PB} {h : Hash} (hm : h ∈ hashes bs) : ∃ l1 x l2, bs = l1 ++ x :: l2 ∧ x.hash = h ∧ h ∉ hashes l1 := by
  induction bs with
  | nil => simp [hashes] at hm
  | cons b bs ih =>
    by_cases e : b.hash = h
    · exact ⟨[], b, bs, rfl, e, by simp [hashes]⟩
    · have : h ∈ hashes bs := by
        simp only [hashes, List.map_cons, List.mem_cons] at hm
        rcases hm with h1 | h1
        · exact (e h1.symm).elim
        · exact h1
      obtain ⟨l1, x, l2, rfl, h1, h2⟩ := ih this
      refine ⟨b :: l1, x, l2, rfl, h1, ?_⟩
      simp only [hashes, List.map_cons, List.mem_cons]
      rintro (e' | e')
      · exact e e'.symm
      · exact h2 e'

/-- A child of a recent block is recent. -/
theorem Spec.RecentAt.up {n m : Int} {root : Hash} {bs : List PB} {b : PB} (hR : ∀ b ∈ bs, W.Has b ∧ W.Numbered b) (hpf : ParentsFirst root bs)
    (hlow : ∀ b ∈ bs, b.hash = root ∨ W.number root < W.number b.hash) (hb : b ∈ bs) (hr : RecentAt n bs b.parentHash m) :
    RecentAt n bs b.hash m := by
  have hmem := hr.mem
  obtain ⟨l1, x, l2, e, ex, hf, hm, V, hV, hin⟩ := hr
  obtain ⟨k1, y, k2, e2, ey, hf2⟩ := first_split (mem_hashes hb)
  have hyb : y.parentHash = b.parentHash := by
    rw [(hR y (by rw [e2]; simp)).1.parent, (hR b hb).1.parent, ey]
  have hpar : b.parentHash ∈ hashes k1 := by
    rcases hpf k1 y k2 e2 with h1 | ⟨a, ha, h1⟩
    · obtain ⟨z, hz, ez⟩ := List.mem_map.mp hmem
      have e3 := (hR b hb).2
      unfold World.Numbered at e3
      rw [← ey, h1, ← ez] at e3
      rcases hlow z hz with e4 | e4
      · rw [e4] at e3; omega
      · omega
    · rw [← hyb, ← h1]; exact mem_hashes ha
  have hsub : ∀ z ∈ y :: k2, z ∈ x :: l2 := by
    rw [e] at e2
    rcases List.append_eq_append_iff.mp e2 with ⟨c, h1, h2⟩ | ⟨c, h1, h2⟩
    · intro z hz
      rw [h2]; simp [List.mem_cons.mp hz]
    · exfalso
      rw [h1, hashes_append] at hf
      exact hf (by simp [hpar])
  exact ⟨k1, y, k2, e2, ey, hf2, fun z hz => hm z (hsub z hz), V, hV, hin⟩

theorem Spec.Above.known {bs : List PB} {a h : Hash} (hA : Above bs a h) (ha : a ∈ hashes bs) : h ∈ hashes bs := by
  cases hA with
  | self => exact ha
  | step hb _ => exact mem_hashes hb

theorem Spec.Above.recent {n m : Int} {root : Hash} {bs : List PB} {a h : Hash} (hR : ∀ b ∈ bs, W.Has b ∧ W.Numbered b) (hpf : ParentsFirst root bs)
    (hlow : ∀ b ∈ bs, b.hash = root ∨ W.number root < W.number b.hash) (hA : Above bs a h) (hr : RecentAt n bs a m) :
    RecentAt n bs h m := by
  induction hA with
  | self => exact hr
  | step hb _ ih => exact ih.up hR hpf hlow hb

theorem Spec.Above.number {bs : List PB} {a h : Hash} (hR : ∀ b ∈ bs, W.Has b ∧ W.Numbered b) (hA : Above bs a h) :
    h = a ∨ W.number a < W.number h := by
  induction hA with
  | self => exact .inl rfl
  | @step b hb _ ih =>
    have := (hR b hb).2
    unfold World.Numbered at this
    rcases ih with e | e
    · rw [e] at this; exact .inr (by omega)
    · exact .inr (by omega)

theorem Spec.Forgotten.snoc {n : Int} {bs : List PB} {k : Int} (h : Forgotten n bs k) (pb : PB) : Forgotten n (bs ++ [pb]) k := by
  obtain ⟨p, rest, e, h⟩ := h
  exact ⟨p, rest ++ [pb], by rw [e]; simp, h⟩

/-! ### The state between deliveries, and while a delivery is handled -/

/-- The blocks `bs` have been delivered; recent ones are held, and those in `S` are remembered. -/
structure Remembers (W : World) (n : Int) (bs : List PB) (S : Hash → Prop) (s : OMP) : Prop where
  inv : OInv (· ∈ bs) s
  nodup : s.finished.items.Nodup
  cap : (s.finished.cap : Int) = n
  pos : 0 < s.finished.cap
  known : ∀ x ∈ s.finished.items, x ∈ hashes bs
  sel : ∀ x ∈ s.finished.items, S x
  que : ∀ p q c, s.queued.get? p = some q → c ∈ q.keys → S c
  win : ∀ h m, RecentAt n bs h m → S h → Within W s.finished.items h m
  pend : ∀ h m, RecentAt n bs h m → ∃ b, s.pending.get? h = some b
  asks : ∀ k, OOut.evictOlder k ∈ s.log → Forgotten n bs k

theorem Remembers.congr {n : Int} {bs : List PB} {S S' : Hash → Prop} {s : OMP} (h : Remembers W n bs S s) (hS : ∀ x, S x ↔ S' x) :
    Remembers W n bs S' s := by
  have : S = S' := funext fun x => propext (hS x)
  exact this ▸ h

theorem Remembers.of_eq {n : Int} {bs : List PB} {S : Hash → Prop} {s s' : OMP} (h : Remembers W n bs S s) (h1 : s'.pending = s.pending)
    (h2 : s'.queued = s.queued) (h3 : s'.finished = s.finished) (h4 : ∀ k, OOut.evictOlder k ∈ s'.log → OOut.evictOlder k ∈ s.log) :
    Remembers W n bs S s' := by
  refine ⟨h.inv.of_maps h1 h2, ?_, ?_, ?_, ?_, ?_, ?_, ?_, ?_, fun k hk => h.asks k (h4 k hk)⟩
  · rw [h3]; exact h.nodup
  · rw [h3]; exact h.cap
  · rw [h3]; exact h.pos
  · rw [h3]; exact h.known
  · rw [h3]; exact h.sel
  · rw [h2]; exact h.que
  · rw [h3]; exact h.win
  · rw [h1]; exact h.pend

/-- Facts about the deliveries used while one is handled. -/
structure Tree (W : World) (root : Hash) (bs : List PB) : Prop where
  has : ∀ b ∈ bs, W.Has b ∧ W.Numbered b
  first : ParentsFirst root bs
  low : ∀ b ∈ bs, b.hash = root ∨ W.number root < W.number b.hash

theorem finAdd_remembers {n : Int} {root : Hash} {bs : List PB} {S : Hash → Prop} {s : OMP} {y : Hash} (hT : Tree W root bs)
    (hs : Remembers W n bs S s) (hy : y ∈ hashes bs) (hnum : ∀ h m, RecentAt n bs h m → m ≤ W.number y) :
    Out (fun _ => False) (fun s' => Remembers W n bs (fun x => S x ∨ x = y) s' ∧ Shrink (Known (· ∈ bs)) s s') (s.finAdd o y) := by
  have hk : Known (· ∈ bs) y := by
    obtain ⟨b, hb, e⟩ := List.mem_map.mp hy
    exact ⟨b, hb, e⟩
  refine ((finAdd_out o s hk hs.inv.pendKeys).and (P' := Remembers W n bs (fun x => S x ∨ x = y)) (E' := fun _ => True) ?_).mono
    (fun _ h => h.1) (fun _ h => ⟨h.2, h.1⟩)
  have hin : ∀ m, (∃ h, RecentAt n bs h m) → ∃ V : List Hash, V.length ≤ s.finished.cap ∧
      ∀ x, x = y ∨ x ∈ s.finished.items → m ≤ W.number x → x ∈ V := by
    rintro m ⟨h, l1, x, l2, _, _, _, _, V, hV, hV2⟩
    refine ⟨V, by have := hs.cap; omega, ?_⟩
    intro z hz hzm
    have hz' : z ∈ hashes bs := by
      rcases hz with e | e
      · exact e ▸ hy
      · exact hs.known z e
    obtain ⟨b, hb, e⟩ := List.mem_map.mp hz'
    rw [← e]
    exact hV2 b hb (by rw [(hT.has b hb).1.number, e]; exact hzm)
  have hwin : ∀ h m, RecentAt n bs h m → (S h ∨ h = y) → Within W (s.finished.add y).1.items h m := by
    intro h m hr hS
    obtain ⟨V, hV, hV2⟩ := hin m ⟨h, hr⟩
    refine add_within hs.nodup ?_ (hnum h m hr) (hr.number (fun b hb => (hT.has b hb).1)) hV hV2
    rcases hS with hS | hS
    · exact .inr (hs.win h m hr hS)
    · exact .inl hS
  have hmem : ∀ x ∈ (s.finished.add y).1.items, x = y ∨ x ∈ s.finished.items := fun x hx => LRU.mem_of_mem_add hx
  have h1 : Remembers W n bs (fun x => S x ∨ x = y) { s with finished := (s.finished.add y).1 } := by
    refine ⟨hs.inv.of_maps rfl rfl, add_nodup hs.nodup, ?_, ?_, ?_, ?_, fun p q c hq hc => .inl (hs.que p q c hq hc), hwin, hs.pend,
      hs.asks⟩
    · simp only [LRU.add_cap]; exact hs.cap
    · simp only [LRU.add_cap]; exact hs.pos
    · intro x hx
      rcases hmem x hx with e | e
      · exact e ▸ hy
      · exact hs.known x e
    · intro x hx
      rcases hmem x hx with e | e
      · exact .inr e
      · exact .inl (hs.sel x e)
  unfold OMP.finAdd
  simp only []
  split
  · exact h1
  · rename_i k hk'
    obtain ⟨k1, k2⟩ := add_evicted hs.nodup hk'
    have hG : ∀ x, (S x ∨ x = y) → x ∉ (s.finished.add y).1.items → ¬ Recent n bs x := by
      rintro x hS hx ⟨m, hr⟩
      obtain ⟨i1, i2, e, _⟩ := hwin x m hr hS
      exact hx (by rw [e]; simp)
    have hsp : Spares (Recent n bs) { s with finished := (s.finished.add y).1 } := by
      refine ⟨?_, ?_⟩
      · intro h b hb
        obtain ⟨e1, e2⟩ := h1.inv.pend h b hb
        exact ⟨e1, fun ⟨m, hr⟩ => ⟨m, hr.up hT.has hT.first hT.low e2⟩⟩
      · intro p q c hq hc hn
        exact hG c (h1.que p q c hq hc) hn
    refine (evictAux_spares (o := o) _ _ k hsp (hG k ?_ k2)).imp (fun s' h' => ?_)
    · rcases k1 with e | e
      · exact .inr e
      · exact .inl (hs.sel k e)
    · refine ⟨⟨fun x b hx => h1.inv.pend x b (h'.pending x b hx), fun p q c hq hc => h1.inv.que p q c (h'.queued p q hq) hc,
        fun p q hq => h1.inv.ne p q (h'.queued p q hq)⟩, ?_, ?_, ?_, ?_, ?_, fun p q c hq hc => h1.que p q c (h'.queued p q hq) hc, ?_, ?_, ?_⟩
      · rw [h'.finished]; exact h1.nodup
      · rw [h'.finished]; exact h1.cap
      · rw [h'.finished]; exact h1.pos
      · rw [h'.finished]; exact h1.known
      · rw [h'.finished]; exact h1.sel
      · rw [h'.finished]; exact h1.win
      · intro h m hr
        rw [h'.kept h ⟨m, hr⟩]; exact h1.pend h m hr
      · intro k hk
        rcases h'.log k hk with hk | ⟨x, b, e1, e2, e3⟩
        · exact h1.asks k hk
        · obtain ⟨f1, f2⟩ := h1.inv.pend x b e1
          exact ⟨bs, [], by simp, b, f2, f1 ▸ e2, e3⟩

theorem finAdd_again {n : Int} {root : Hash} {bs : List PB} {S : Hash → Prop} {s : OMP} {y : Hash} (hT : Tree W root bs)
    (hs : Remembers W n bs S s) (hy : y ∈ hashes bs) (hS : S y) (hnum : ∀ h m, RecentAt n bs h m → m ≤ W.number y) :
    Out (fun _ => False) (fun s' => Remembers W n bs S s' ∧ Shrink (Known (· ∈ bs)) s s') (s.finAdd o y) :=
  (finAdd_remembers hT hs hy hnum).imp (fun _ h => ⟨h.1.congr (fun _ => ⟨fun h => h.elim id (fun e => e ▸ hS), .inl⟩), h.2⟩)

theorem finishChildren_remembers {n : Int} {root : Hash} {bs : List PB} {S : Hash → Prop} (hT : Tree W root bs) (f : Nat) (s : OMP)
    (y : Hash) (hs : Remembers W n bs S s) (hy : y ∈ hashes bs) (hS : S y) (hnum : ∀ h m, RecentAt n bs h m → m ≤ W.number y) :
    Out (fun _ => True) (fun s' => Remembers W n bs S s' ∧ Shrink (Known (· ∈ bs)) s s') (OMP.finishPendingChildrenAux o f s y) := by
  induction f generalizing s y with
  | zero => exact trivial
  | succ f ih =>
    unfold OMP.finishPendingChildrenAux
    simp only []
    refine ((finAdd_again hT hs hy hS hnum).mono (E' := fun _ => True) (fun _ _ => trivial) (fun _ h => h)).bind (fun s1 h1 => ?_)
    split
    · exact h1
    · rename_i children hc
      refine Out.foldlM (P := fun s' => Remembers W n bs S s' ∧ Shrink (Known (· ∈ bs)) s s') ?_
        ⟨h1.1.of_eq rfl rfl rfl (fun _ h => h), h1.2.trans (Shrink.tick _ s1 _)⟩
      intro s2 c hm h2
      have hck := mem_ord.mp hm
      obtain ⟨b, hb, hbc, hbp⟩ := hs.inv.que _ _ c hc hck
      refine (ih s2 c h2.1 (hbc ▸ mem_hashes hb) (hs.que _ _ c hc hck) ?_).imp (fun _ h => ⟨h.1, h2.2.trans h.2⟩)
      intro h m hr
      have e1 := (hT.has b hb).2
      unfold World.Numbered at e1
      rw [hbc, hbp] at e1
      have := hnum h m hr
      omega

theorem finishSiblings_remembers {n : Int} {root : Hash} {bs : List PB} {S : Hash → Prop} (hT : Tree W root bs) (s : OMP)
    (pb : PB) (hs : Remembers W n bs S s) (hpb : pb ∈ bs) (hnum : ∀ h m, RecentAt n bs h m → m ≤ W.number pb.hash) :
    Out (fun _ => False) (fun s' => Remembers W n bs S s' ∧ Shrink (Known (· ∈ bs)) s s') (s.finishSiblings o pb) := by
  refine ((finishSiblings_total (o := o) (W := W) (fun b hb => (hT.has b hb).2) s pb hs.inv).and
    (P' := fun s' => Remembers W n bs S s' ∧ Shrink (Known (· ∈ bs)) s s') (E' := fun _ => True) ?_).mono (fun _ h => h.1) (fun _ h => h.2)
  unfold OMP.finishSiblings
  split
  · exact ⟨hs, Shrink.refl _ _⟩
  · rename_i q hq
    refine Out.foldlM (P := fun s' => Remembers W n bs S s' ∧ Shrink (Known (· ∈ bs)) s s') ?_
      ⟨hs.of_eq rfl rfl rfl (fun _ h => h), Shrink.tick _ s _⟩
    intro s2 c hm h2
    split
    · have hck := mem_ord.mp hm
      obtain ⟨b, hb, hbc, hbp⟩ := hs.inv.que _ _ c hq hck
      refine (finishChildren_remembers hT _ s2 c h2.1 (hbc ▸ mem_hashes hb) (hs.que _ _ c hq hck) ?_).imp
        (fun _ h => ⟨h.1, h2.2.trans h.2⟩)
      intro h m hr
      have e1 := (hT.has b hb).2
      have e2 := (hT.has pb hpb).2
      unfold World.Numbered at e1 e2
      rw [hbc, hbp] at e1
      have := hnum h m hr
      omega
    · exact h2

/-- Emitting when nothing waits on the new head. -/
theorem prepareEmit_recent {n : Int} {root : Hash} {bs : List PB} (hT : Tree W root bs) (s : OMP) (new old : List PB) {t : PB}
    (hs : Remembers W n bs (· ≠ t.hash) s) {pre : List PB} (hnew : new = pre ++ [t]) (ht : t ∈ bs)
    (hnum : ∀ h m, RecentAt n bs h m → m ≤ W.number t.hash) (hq : s.queued.get? t.hash = none) :
    Out (fun _ => False) (fun s' => ∃ m, Remembers W n bs (fun _ => True) m ∧
      Shrink (Known (· ∈ bs)) { s with lastHash := t.hash, lastWeight := t.weight } m ∧
      s' = { m with log := m.log ++ [.update new old] }) (s.prepareEmit o new old) := by
  unfold OMP.prepareEmit
  refine Out.bind (P := fun s1 => Remembers W n bs (fun _ => True) s1 ∧
    Shrink (Known (· ∈ bs)) { s with lastHash := t.hash, lastWeight := t.weight } s1) ?_ (fun s1 h1 => ?_)
  · unfold OMP.emitStart
    have : new.getLast? = some t := by rw [hnew]; simp
    rw [this]
    simp only []
    refine (finishSiblings_remembers hT { s with lastHash := t.hash, lastWeight := t.weight } t (hs.of_eq rfl rfl rfl (fun _ h => h)) ht hnum).bind
      (fun s1 h1 => ?_)
    refine (finAdd_remembers hT h1.1 (mem_hashes ht) hnum).imp (fun s2 h2 => ⟨h2.1.congr (fun x => ?_), h1.2.trans h2.2⟩)
    exact ⟨fun _ => trivial, fun _ => (Classical.em (x = t.hash)).symm⟩
  · have hq1 : s1.queued.get? s1.lastHash = none := by
      rw [h1.2.lastHash]
      cases hg : s1.queued.get? t.hash with
      | none => rfl
      | some q => rw [h1.2.queued _ _ hg] at hq; simp at hq
    have : OMP.emitLoop o (s1.queued.size + 2) s1 new = .ok (s1, new) := by
      unfold OMP.emitLoop OMP.getPendingChild
      rw [hq1]; rfl
    rw [this]
    exact ⟨s1, h1.1, h1.2, rfl⟩

/-! ### Finding the fork -/

/-- The blocks in `P` are held and hang together above `a`. -/
def RootedOn (W : World) (a : Hash) (P : Hash → Prop) (pending : GMap Hash PB) : Prop :=
  ∀ h, P h → ∃ b, pending.get? h = some b ∧ b.hash = h ∧ W.Has b ∧ W.Numbered b ∧ (h = a ∨ P b.parentHash) ∧
    (h = a ∨ W.number a < W.number h)

theorem reorgInner_on {a : Hash} {P : Hash → Prop} {pending : GMap Hash PB} (hP : RootedOn W a P pending) (m : Int) (hm : W.number a ≤ m)
    (n : Nat) (head : PB) (bs : List PB) (hh : P head.hash) (hp : pending.get? head.hash = some head) (hne : head.hash ≠ a)
    {r : Option (PB × List PB)} (hr : reorgInner pending m n head bs = .ok r) :
    ∃ head' bs', r = some (head', bs') ∧ P head'.hash ∧ pending.get? head'.hash = some head' ∧ head'.hash ≠ a ∧ head'.number ≤ m + 1 := by
  induction n generalizing head bs with
  | zero => simp [reorgInner] at hr
  | succ n ih =>
    obtain ⟨b, e1, _, f2, f3, f4, _⟩ := hP _ hh
    rw [hp] at e1
    simp only [Option.some.injEq] at e1
    subst e1
    unfold reorgInner at hr
    split at hr
    · rename_i hgt
      have hpar := f4.resolve_left hne
      obtain ⟨p, g1, g2, _⟩ := hP _ hpar
      rw [g1] at hr
      simp only [] at hr
      refine ih p _ (by rw [g2]; exact hpar) (by rw [g2]; exact g1) ?_ hr
      intro e
      have := f2.number
      unfold World.Numbered at f3
      rw [← g2, e] at f3
      omega
    · simp only [Except.ok.injEq] at hr
      exact ⟨head, bs, hr.symm, hh, hp, hne, by omega⟩

theorem reorgOuter_on {a : Hash} {P : Hash → Prop} {pending : GMap Hash PB} (hP : RootedOn W a P pending) (start : PB) (n : Nat)
    (head old : PB) (rev bs : List PB) (hh : P head.hash) (hp : pending.get? head.hash = some head) (hne : head.hash ≠ a)
    (ho : P old.hash) (hop : pending.get? old.hash = some old)
    {r : ReorgResult} (hr : reorgOuter pending start n head old rev bs = .ok r) : ∃ removed added, r = .ok removed added := by
  induction n generalizing head old rev bs with
  | zero => simp [reorgOuter] at hr
  | succ n ih =>
    obtain ⟨b, e1, _, f2, f3, f4, f5⟩ := hP _ ho
    rw [hop] at e1
    simp only [Option.some.injEq] at e1
    subst e1
    unfold reorgOuter at hr
    obtain ⟨r1, h1, h2⟩ := bind_ok.mp hr
    have hlow : W.number a ≤ old.number := by
      rw [f2.number]
      rcases f5 with e | e
      · rw [e]; exact Int.le_refl _
      · omega
    obtain ⟨head', bs', rfl, h3, h4, h5, h6⟩ := reorgInner_on hP old.number hlow _ head bs hh hp hne h1
    simp only [] at h2
    split at h2
    · simp only [Except.ok.injEq] at h2
      exact ⟨_, _, h2.symm⟩
    · rename_i hneq
      obtain ⟨b, e1, _, g2, g3, g4, _⟩ := hP _ h3
      rw [h4] at e1
      simp only [Option.some.injEq] at e1
      subst e1
      rcases f4 with e | hpar
      · exfalso
        obtain ⟨p, _, _, _, _, _, k⟩ := hP _ (g4.resolve_left h5)
        unfold World.Numbered at g3
        have e2 := g2.number
        have e3 := f2.number
        rw [e] at e3
        rcases k with k | k
        · exact hneq (e.trans k.symm)
        · omega
      · obtain ⟨p, k1, k2, _⟩ := hP _ hpar
        rw [k1] at h2
        simp only [] at h2
        exact ih head' p _ _ h3 h4 h5 (by rw [k2]; exact hpar) (by rw [k2]; exact k1) h2

/-! ### One delivery -/

/-- The state after the deliveries `pre`. -/
structure Follow (W : World) (n : Int) (wl : GMap Nat Hash) (root : Hash) (pre : List PB) (s : OMP) : Prop where
  mem : pre ≠ [] → Remembers W n pre (fun _ => True) s
  fresh : pre = [] → s.pending = GMap.empty ∧ s.queued = GMap.empty ∧ s.finished.items = [root] ∧ (s.finished.cap : Int) = n ∧ 0 < s.finished.cap ∧
    ∀ k, OOut.evictOlder k ∉ s.log
  init : s.initEmpty = false
  wl : s.whitelist = wl
  bl : ∀ h, s.blacklist.contains h = false
  weight : s.lastWeight = W.weight s.lastHash
  head : (pre = [] ∧ s.lastHash = root) ∨ FirstHeaviest pre s.lastHash

theorem Spec.Tracked.parents {n : Int} {root : Hash} {pre : List PB} {pb : PB} (h : Tracked n root pre pb) (hT : Tree W root pre)
    (hpb : W.Has pb) : pb.hash = root ∨ ∃ a ∈ pre, a.hash = pb.parentHash := by
  rcases h with h | ⟨m, h⟩ | ⟨_, a, ⟨m, h1⟩, h2, _⟩
  · exact .inl h.2
  · obtain ⟨l1, x, l2, e, ex, _⟩ := h
    have hx : x ∈ pre := by rw [e]; simp
    rcases hT.first l1 x l2 e with e' | ⟨c, hc, e'⟩
    · exact .inl (by rw [← ex, e'])
    · refine .inr ⟨c, by rw [e]; simp [hc], ?_⟩
      rw [e', (hT.has x hx).1.parent, hpb.parent, ex]
  · obtain ⟨c, hc, e⟩ := List.mem_map.mp (h2.known h1.mem)
    exact .inr ⟨c, hc, e⟩

theorem Tree.snoc {root : Hash} {pre : List PB} {pb : PB} (h : Tree W root pre) (hpb : W.Has pb ∧ W.Numbered pb)
    (hpf : pb.hash = root ∨ ∃ a ∈ pre, a.hash = pb.parentHash) : Tree W root (pre ++ [pb]) := by
  refine ⟨?_, ?_, ?_⟩
  · intro b hb
    rcases List.mem_append.mp hb with hb | hb
    · exact h.has b hb
    · rw [List.mem_singleton.mp hb]; exact hpb
  · intro l1 b l2 e
    rcases List.eq_nil_or_concat l2 with rfl | ⟨l3, z, rfl⟩
    · obtain ⟨rfl, e2⟩ := List.append_inj' e rfl
      simp only [List.cons.injEq, and_true] at e2
      exact e2 ▸ hpf
    · have e' : pre ++ [pb] = (l1 ++ b :: l3) ++ [z] := by rw [e]; simp
      obtain ⟨rfl, _⟩ := List.append_inj' e' rfl
      exact h.first l1 b l3 rfl
  · intro b hb
    rcases List.mem_append.mp hb with hb | hb
    · exact h.low b hb
    · rw [List.mem_singleton.mp hb]
      rcases hpf with e | ⟨a, ha, e⟩
      · exact .inl e
      · have hN := hpb.2
        unfold World.Numbered at hN
        rw [← e] at hN
        rcases h.low a ha with e' | e'
        · exact .inr (by rw [← e']; omega)
        · exact .inr (by omega)

theorem follow_step {n : Int} {wl : GMap Nat Hash} {root : Hash} {pre : List PB} {pb : PB} {s : OMP} (hT : Tree W root pre)
    (hpb : W.Has pb ∧ W.Numbered pb) (hheavy : W.Heavier pb) (hs : Follow W n wl root pre s) (hF : ¬ Forbidden wl pb)
    (htr : Tracked n root pre pb) : Out (fun _ => False) (Follow W n wl root (pre ++ [pb])) (s.handle o pb) := by
  have hpf := htr.parents hT hpb.1
  have hT' := hT.snoc hpb hpf
  have hpbD : pb ∈ pre ++ [pb] := by simp
  have sub : ∀ b, b ∈ pre → b ∈ pre ++ [pb] := fun b hb => by simp [hb]
  have hwt : ∀ b ∈ pre ++ [pb], b.weight = W.weight b.hash := fun b hb => (hT'.has b hb).1.weight
  have hsame : ∀ a ∈ pre, ∀ b ∈ pre, a.hash = b.hash → a.weight = b.weight := by
    intro a ha b hb e; rw [hwt a (sub a ha), hwt b (sub b hb), e]
  have hnum : ∀ h m, RecentAt n (pre ++ [pb]) h m → m ≤ W.number pb.hash := by
    intro h m hr
    rw [← hpb.1.number]
    exact hr.last
  unfold OMP.handle OMP.handleAux
  have hex : s.excludes pb = false := by
    unfold OMP.excludes
    rw [hs.bl, hs.wl, Bool.or_false]
    cases hg : wl.get? (toUint64 pb.number) with
    | none => rfl
    | some h =>
      simp only [ne_eq, decide_not, Bool.not_eq_eq_eq_not, Bool.not_false, decide_eq_true_eq]
      refine Classical.byContradiction fun hc => ?_
      exact hF ⟨h, hg, hc⟩
  rw [hex]
  simp only [Bool.false_eq_true, if_false]
  -- how the pieces of the new invariant come together
  have build : ∀ (m : OMP), Remembers W n (pre ++ [pb]) (fun _ => True) m → m.initEmpty = s.initEmpty → m.whitelist = s.whitelist →
      m.blacklist = s.blacklist → m.lastWeight = W.weight m.lastHash →
      FirstHeaviest (pre ++ [pb]) m.lastHash → Follow W n wl root (pre ++ [pb]) m := by
    intro m a1 a2 a3 a4 a5 a6
    exact ⟨fun _ => a1, fun e => by simp at e, a2.trans hs.init, a3.trans hs.wl, fun h => by rw [a4]; exact hs.bl h, a5, .inr a6⟩
  by_cases hpre : pre = []
  · -- the first delivery
    subst hpre
    have hroot : pb.hash = root := by
      rcases hpf with e | ⟨a, ha, _⟩
      · exact e
      · simp at ha
    obtain ⟨f1, f2, f3, f4, f5, f6⟩ := hs.fresh rfl
    have hl : s.lastHash = root := by
      rcases hs.head with h | ⟨l1, b, l2, e, _⟩
      · exact h.2
      · simp at e
    unfold OMP.accept
    rw [if_pos (by simp [LRU.contains, f3, hroot])]
    refine build _ ⟨⟨?_, ?_, ?_⟩, ?_, f4, f5, ?_, fun _ _ => trivial, fun _ _ _ _ _ => trivial, ?_, ?_,
      fun k hk => (f6 k hk).elim⟩ rfl rfl rfl hs.weight ?_
    · intro h b hb
      simp only [f1, GMap.get?_insert] at hb
      split at hb
      · rename_i e; cases hb; exact ⟨e, hpbD⟩
      · simp at hb
    · intro p q c hq
      simp [f2] at hq
    · intro p q hq
      simp [f2] at hq
    · simp [f3]
    · intro x hx
      simp only [f3, List.mem_singleton] at hx
      rw [hx, ← hroot]; exact mem_hashes hpbD
    · intro h m hr _
      have := hr.mem
      simp only [List.nil_append, hashes, List.map_cons, List.map_nil, List.mem_singleton] at this
      exact ⟨[], [], by simp [f3, this, hroot], by simp⟩
    · intro h m hr
      have := hr.mem
      simp only [List.nil_append, hashes, List.map_cons, List.map_nil, List.mem_singleton] at this
      exact ⟨pb, by simp [this]⟩
    · refine ⟨[], pb, [], rfl, hroot.trans hl.symm, ?_, by simp⟩
      intro x hx
      simp only [List.nil_append, List.mem_singleton] at hx
      rw [hx]; exact Nat.le_refl _
  · have hM := hs.mem hpre
    have hI1 : OInv (· ∈ pre ++ [pb]) { s with pending := s.pending.insert pb.hash pb } := (hM.inv.mono sub).insert hpbD
    have hknown1 : ∀ x ∈ s.finished.items, x ∈ hashes (pre ++ [pb]) := by
      intro x hx
      rw [hashes_append]; simp [hM.known x hx]
    obtain ⟨l1, hb, l2, h1, h2, h3, h4⟩ : FirstHeaviest pre s.lastHash := by
      rcases hs.head with ⟨e, _⟩ | h
      · exact (hpre e).elim
      · exact h
    have hFH : FirstHeaviest pre s.lastHash := ⟨l1, hb, l2, h1, h2, h3, h4⟩
    have hhb : hb ∈ pre := by rw [h1]; simp
    have hlw : s.lastWeight = hb.weight := by rw [hs.weight, ← h2, hwt hb (sub hb hhb)]
    by_cases hold : pb.hash ∈ hashes pre
    · -- a repetition of a recent block
      have hrec : Recent n pre pb.hash := by
        rcases htr with h | h | h
        · exact (hpre h.1).elim
        · exact h
        · exact (h.1 hold).elim
      obtain ⟨m0, hrec⟩ := hrec
      obtain ⟨i1, i2, ei, _⟩ := hM.win _ _ hrec trivial
      unfold OMP.accept
      rw [if_pos (by simp [LRU.contains, ei])]
      refine build _ ⟨hI1, hM.nodup, hM.cap, hM.pos, hknown1, fun _ _ => trivial, fun _ _ _ _ _ => trivial,
        fun h m hr _ => hM.win h m (hr.drop (.inr hold)) trivial, ?_, fun k hk => (hM.asks k hk).snoc pb⟩ rfl rfl rfl hs.weight ?_
      · intro h m hr
        simp only [GMap.get?_insert]
        split
        · exact ⟨_, rfl⟩
        · exact hM.pend h m (hr.drop (.inr hold))
      · obtain ⟨x, hx, ex⟩ := List.mem_map.mp hold
        refine firstHeaviest_old hFH ⟨hb, hhb, h2, ?_⟩ hsame
        rw [hwt pb hpbD, ← ex, ← hwt x (sub x hx)]
        exact h3 x hx
    · -- a new block
      obtain ⟨a, ⟨m0, ha⟩, hap, hah⟩ : ∃ a, Recent n pre a ∧ Above pre a pb.parentHash ∧ ∀ h, FirstHeaviest pre h → Above pre a h := by
        rcases htr with h | ⟨m, h⟩ | h
        · exact (hpre h.1).elim
        · exact (hold h.mem).elim
        · exact h.2
      have hah := hah _ hFH
      have hS1 : Remembers W n (pre ++ [pb]) (· ≠ pb.hash) { s with pending := s.pending.insert pb.hash pb } := by
        refine ⟨hI1, hM.nodup, hM.cap, hM.pos, hknown1, ?_, ?_, fun h m hr hne => hM.win h m (hr.drop (.inl hne)) trivial, ?_,
          fun k hk => (hM.asks k hk).snoc pb⟩
        · intro x hx e
          exact hold (e ▸ hM.known x hx)
        · intro p q c hq hc e
          obtain ⟨b, hb', e1, _⟩ := hM.inv.que p q c hq hc
          exact hold (by rw [← e, ← e1]; exact mem_hashes hb')
        · intro h m hr
          simp only [GMap.get?_insert]
          split
          · exact ⟨_, rfl⟩
          · rename_i hne
            exact hM.pend h m (hr.drop (.inl (fun e => hne e.symm)))
      have hq : s.queued.get? pb.hash = none := by
        cases hg : s.queued.get? pb.hash with
        | none => rfl
        | some q =>
          obtain ⟨c, hc⟩ := hM.inv.ne _ _ hg
          obtain ⟨b, hb', e1, e2⟩ := hM.inv.que _ _ _ hg hc
          obtain ⟨k1, k2, e3⟩ := List.append_of_mem hb'
          rcases hT.first k1 b k2 e3 with e | ⟨x, hx, e⟩
          · have := (hT.has b hb').2
            unfold World.Numbered at this
            rw [e, e2] at this
            rcases hT'.low pb hpbD with e4 | e4
            · rw [e4] at this; omega
            · omega
          · exact (hold (by rw [← e2, ← e]; exact mem_hashes (by rw [e3]; simp [hx]))).elim
      have hfinp : pb.parentHash ∈ s.finished.items := by
        obtain ⟨i1, i2, ei, _⟩ := hM.win _ _ (hap.recent hT.has hT.first hT.low ha) trivial
        rw [ei]; simp
      unfold OMP.accept
      rw [if_neg (by
        simp only [LRU.contains, Bool.not_false, Bool.and_true, decide_eq_true_eq]
        intro hx; exact hold (hM.known _ hx))]
      split
      · rename_i hlast
        simp only [] at hlast
        have hheavy := hheavy
        unfold World.Heavier at hheavy
        rw [hlast, ← hs.weight, ← hwt pb hpbD, hlw] at hheavy
        refine (prepareEmit_recent hT' { s with pending := s.pending.insert pb.hash pb } [pb] [] hS1 (pre := []) rfl hpbD hnum hq).imp ?_
        rintro s' ⟨m, hm, hsh, rfl⟩
        refine build _ (hm.of_eq rfl rfl rfl (fun k hk => by simpa using hk)) hsh.initEmpty hsh.whitelist hsh.blacklist ?_ ?_
        · simp only []; rw [hsh.lastWeight, hsh.lastHash]; exact hwt pb hpbD
        · simp only []; rw [hsh.lastHash]
          exact firstHeaviest_new (fun b hb' => Nat.lt_of_le_of_lt (h3 b hb') hheavy)
      · rw [if_neg (by simp [hs.init]), if_pos (by simpa [LRU.contains] using hfinp)]
        obtain ⟨lb, hlb⟩ := hM.pend _ _ (hah.recent hT.has hT.first hT.low ha)
        have hlbh := (hM.inv.pend _ _ hlb).1
        have hlne : pb.hash ≠ s.lastHash := fun e => hold (by rw [e, ← h2]; exact mem_hashes hhb)
        have hlb1 : (s.pending.insert pb.hash pb).get? s.lastHash = some lb := by
          rw [GMap.get?_insert, if_neg hlne]; exact hlb
        unfold OMP.onConnected
        simp only [hlb1]
        by_cases hlt : s.lastWeight < pb.weight
        · simp only [hlt, decide_true]
          have hP : RootedOn W a (fun h => Above pre a h ∨ h = pb.hash) (s.pending.insert pb.hash pb) := by
            intro h hh
            by_cases e : pb.hash = h
            · refine ⟨pb, by rw [GMap.get?_insert, if_pos e], e, hpb.1, hpb.2, .inr (.inl hap), .inr ?_⟩
              have := hpb.2
              unfold World.Numbered at this
              rw [← e, this]
              rcases hap.number hT.has with e' | e'
              · rw [e']; omega
              · omega
            · have hh := hh.resolve_right (fun e' => e e'.symm)
              obtain ⟨b, hb'⟩ := hM.pend _ _ (hh.recent hT.has hT.first hT.low ha)
              obtain ⟨e1, e2⟩ := hM.inv.pend _ _ hb'
              refine ⟨b, by rw [GMap.get?_insert, if_neg e]; exact hb', e1, (hT.has b e2).1, (hT.has b e2).2, ?_, hh.number hT.has⟩
              cases hh with
              | self => exact .inl rfl
              | @step c hc hup =>
                refine .inr (.inl ?_)
                rw [(hT.has b e2).1.parent, e1, ← (hT.has c hc).1.parent]
                exact hup
          obtain ⟨r, hr, hspec⟩ := (prepareReorg_spec (W := W) (pending := s.pending.insert pb.hash pb) (D := (· ∈ pre ++ [pb])) hI1.pendKeys
            (fun h b hb' => (hI1.pend h b hb').2) (fun b hb' => (hT'.has b hb').2) pb lb hpbD).total
          rw [hr]
          obtain ⟨removed, added, rfl⟩ := reorgOuter_on hP pb _ pb lb _ _ (.inr rfl) (by simp)
            (fun e => hold (e ▸ ha.mem)) (.inl (hlbh ▸ hah)) (by rw [hlbh]; exact hlb1) hr
          obtain ⟨p, hk⟩ := hspec.1 _ _ rfl
          obtain ⟨pre', hpre'⟩ := hk.last
          refine (prepareEmit_recent hT' { s with pending := s.pending.insert pb.hash pb } added removed hS1 hpre' hpbD hnum hq).imp ?_
          rintro s' ⟨m, hm, hsh, rfl⟩
          refine build _ (hm.of_eq rfl rfl rfl (fun k hk => by simpa using hk)) hsh.initEmpty hsh.whitelist hsh.blacklist ?_ ?_
          · simp only []; rw [hsh.lastWeight, hsh.lastHash]; exact hwt pb hpbD
          · simp only []; rw [hsh.lastHash]
            rw [hlw] at hlt
            exact firstHeaviest_new (fun b hb' => Nat.lt_of_le_of_lt (h3 b hb') hlt)
        · simp only [hlt, decide_false]
          refine (finAdd_remembers (o := o) hT' hS1 (mem_hashes hpbD) hnum).bind (fun m h2' => ?_)
          obtain ⟨hm, hsh⟩ := h2'
          have hm : Remembers W n (pre ++ [pb]) (fun _ => True) m :=
            hm.congr (fun x => ⟨fun _ => trivial, fun _ => (Classical.em (x = pb.hash)).symm⟩)
          have hg : m.getPendingChild o pb.hash = .ok none := by
            unfold OMP.getPendingChild
            cases hg : m.queued.get? pb.hash with
            | none => rfl
            | some q => have := hsh.queued _ _ hg; simp only [] at this; rw [hq] at this; simp at this
          rw [hg]
          refine build _ ⟨hm.inv.queue hpbD, hm.nodup, hm.cap, hm.pos, hm.known, fun _ _ => trivial, fun _ _ _ _ _ => trivial, hm.win, hm.pend, hm.asks⟩
            hsh.initEmpty hsh.whitelist hsh.blacklist ?_ ?_
          · simp only [OMP.queue]; rw [hsh.lastWeight, hsh.lastHash]; exact hs.weight
          · simp only [OMP.queue]; rw [hsh.lastHash]
            exact firstHeaviest_old hFH ⟨hb, hhb, h2, by rw [← hlw]; omega⟩ hsame

theorem follow_run {n : Int} {wl : GMap Nat Hash} {root : Hash} {post : List PB} : ∀ {pre : List PB} {s : OMP}, Tree W root pre →
    (∀ b ∈ post, (W.Has b ∧ W.Numbered b) ∧ W.Heavier b) → Follow W n wl root pre s → (∀ b ∈ post, ¬ Forbidden wl b) →
    (∀ l1 b l2, post = l1 ++ b :: l2 → Tracked n root (pre ++ l1) b) →
    Out (fun _ => False) (Follow W n wl root (pre ++ post)) (s.run o (post.map OOp.block)) := by
  induction post with
  | nil => intro pre s _ _ h _ _; rw [List.append_nil]; exact h
  | cons b post ih =>
    intro pre s hT hB hs hF htr
    unfold OMP.run
    rw [List.map_cons, List.foldlM_cons]
    have hb := htr [] b post rfl
    simp only [List.append_nil] at hb
    obtain ⟨hb1, hb2⟩ := hB b (by simp)
    refine (follow_step hT hb1 hb2 hs (hF b (by simp)) hb).bind (fun s' h' => ?_)
    have := ih (pre := pre ++ [b]) (s := s') (hT.snoc hb1 (hb.parents hT hb1.1)) (fun x hx => hB x (by simp [hx])) h'
      (fun x hx => hF x (by simp [hx])) (by
        intro l1 x l2 e
        have := htr (b :: l1) x l2 (by rw [e]; rfl)
        simpa using this)
    rw [List.append_assoc] at this
    exact this

end Verif
