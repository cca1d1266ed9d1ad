import Verif.Proofs.OrderingResume
import Verif.Props.System
import Verif.Props.Circle
/-!
# C129: a consumer started from a stored block is not disturbed by what it receives again

C38 and C44 have only blocks of the chain on top of the stored block arrive. A consumer that is started again reads from before the stored block, so it is
given the stored block, its ancestors and abandoned forks again, whole or in part.
-/
namespace Verif

/-- What is delivered to an ordering layer started from `cfg.lastHash`: copies of blocks of a chain on that block, and older blocks. -/
structure Spec.Continues (cfg : Config) (chain ds : List PB) : Prop where
  start : cfg.lastHash ≠ Hash.zero
  linked : Spec.Linked cfg.lastHash chain
  rising : Spec.Rising cfg.lastWeight chain
  nodup : (cfg.lastHash :: Spec.hashes chain).Nodup
  headers : Spec.Headers ds
  noCircle : Spec.NoCircle ds
  blocks : ∀ b ∈ ds, (∃ x ∈ chain, Spec.Same x b) ∨ Spec.Older cfg.lastHash cfg.lastWeight chain b
  whitelist : ∀ b ∈ ds, ¬ Spec.Forbidden cfg.whitelist b

open Spec

variable {C : Codec} {env : Env} {o : MapOrder}

/-- **C129**: the ordering layer is started from a stored block and given, in any order and any number of times, blocks of a chain on top of it together with
older blocks. No fault; nothing is removed; the blocks added are, in order and once each, an initial part of the chain, and the block after that part has not
been delivered. No older block is added, and each eviction request names the number of an older block or of a block already added. -/
theorem C129_ordering {cfg : Config} {chain ds : List PB} {s0 : OMP} (h : Continues cfg chain ds) (hn : newOMP cfg = .ok s0) :
    ∃ s em rest, s0.run o (ds.map OOp.block) = .ok s ∧ chain = em ++ rest ∧ addedHashes s.log = hashes em ∧
      (∀ x ∈ s.log, (∃ a, x = .update a []) ∨ ∃ b ∈ ds, b.hash ∉ hashes rest ∧ x = .evictOlder b.number) ∧ s.lastHash = endOf cfg.lastHash em ∧
      ∀ b rest', rest = b :: rest' → b.hash ∉ hashes ds := by
  obtain ⟨depth, hd⟩ := exists_depth _ h.headers.parent h.noCircle
  let W : World := ⟨fun h => h, depth, fun _ => 0⟩
  have hN : ∀ b, b ∈ ds → W.Numbered b := hd
  have hH : Hashed (· ∈ ds) := ⟨h.headers.nonzero, fun a b ha hb e => h.headers.parent a ha b hb e⟩
  have hR : Resumes cfg.lastHash cfg.lastWeight chain (· ∈ ds) := ⟨h.linked, h.rising, h.nodup, hH, h.blocks⟩
  obtain ⟨i1, i2, i3, i4, i5, i6, i7, i8⟩ := newOMP_inv (D := (· ∈ ds)) hn
  obtain ⟨_, r2, r3, r4⟩ := newOMP_room (U := [cfg.lastHash]) hn (by simp only [List.length_singleton]; omega) (by simp)
  have hbl : ∀ h, s0.blacklist.contains h = false := by
    unfold newOMP at hn
    split at hn
    · simp at hn
    · simp only [Except.ok.injEq] at hn
      subst hn
      exact fun _ => rfl
  have hP : Resumed (· ∈ ds) cfg.whitelist cfg.lastHash cfg.lastWeight chain [] [] chain s0 := by
    refine ⟨rfl, ⟨i1, by simp [i6, h.start], i4, hbl, by rw [i7]; omega, i2, i3, ?_, ?_, by simp⟩, ?_, by simp [i5], by simp [i5, addedHashes, hashes]⟩
    · intro x hx
      rw [r2] at hx
      rw [List.mem_singleton.mp hx]
      exact (List.nodup_cons.mp h.nodup).1
    · intro p q c hq
      rw [r4] at hq; simp [GMap.get?, GMap.empty, GMap.look] at hq
    · rw [r4]; rfl
  have hends : Out (· = Fault.panic) (OInv (· ∈ ds)) (s0.run o (ds.map OOp.block)) :=
    run_ends hH hN (by
      intro b hb
      simpa [blocksOf] using hb) i1
  have hrun := resume_run (o := o) (post := ds) hN h.whitelist hR (pre := []) (by simp) hP
  obtain ⟨s, hs, _, em, rest, hP'⟩ := ((hends.and hrun).mono (E' := fun _ => False)
    (fun f hf => by rw [hf.1] at hf; simp at hf) (fun _ h => h)).total
  refine ⟨s, em, rest, hs, hP'.split, hP'.added, ?_, hP'.res.last, ?_⟩
  · intro x hx
    rcases hP'.noRemoved x hx with e | ⟨b, hb, hr, e⟩
    · exact .inl e
    · exact .inr ⟨b, hb, hr, e⟩
  · rintro b rest' rfl hm
    obtain ⟨d, hd1, hd2⟩ := List.mem_map.mp hm
    have hmr : d.hash ∈ hashes (b :: rest') := by rw [hd2]; simp [hashes]
    obtain ⟨q, hq, _⟩ := hP'.res.wait d (by simpa using hd1) hmr
    have hp : d.parentHash = s.lastHash := by
      rw [hP'.res.last]
      have hsp : chain = em ++ b :: rest' := hP'.split
      rcases h.blocks d hd1 with ⟨x, hx, hsame⟩ | ho
      · rw [← hsame.parent]
        have hl := h.linked
        have hnd := (List.nodup_cons.mp h.nodup).2
        have hxb : x.hash = b.hash := hsame.hash.trans hd2
        rw [hsp] at hx hl hnd
        have : x = b := by
          obtain ⟨i, hi, hxi⟩ := List.mem_iff_getElem.mp hx
          have h1 : (hashes (em ++ b :: rest'))[i]? = some b.hash := by
            simp only [hashes, List.getElem?_map]
            rw [List.getElem?_eq_getElem hi, hxi]; simp [hxb]
          have h2 : (hashes (em ++ b :: rest'))[em.length]? = some b.hash := by
            simp [hashes]
          obtain ⟨j1, e1⟩ := List.getElem?_eq_some_iff.mp h1
          obtain ⟨j2, e2⟩ := List.getElem?_eq_some_iff.mp h2
          have hij : i = em.length := (List.getElem_inj hnd).mp (e1.trans e2.symm)
          subst hij
          rw [← hxi]; simp
        rw [this]
        exact (linked_append.mp hl).2.1
      · exact (ho.hash (by rw [hsp]; simp [hashes, hd2])).elim
    rw [hp, hP'.tip] at hq
    simp at hq

/-! ## The whole consumer -/

/-- The blocks around the stored block `cfg.lastHash`, which has number `n`: a chain on top of it, and older blocks. -/
structure Spec.Around (C : Codec) (cfg : Config) (n : Int) (old chain : List SentBlock) : Prop where
  /-- the blocks were produced by successful `AddBlock` and `SendBatch` calls -/
  correct : ∀ s ∈ old ++ chain, s.Correct C
  /-- the new ones are a chain on the stored block -/
  links : ChainOf cfg.lastHash n cfg.lastWeight chain
  /-- hashes do not collide -/
  hashes : ((old ++ chain).map (·.args.hash)).Nodup
  nonzero : cfg.lastHash ≠ Hash.zero ∧ ∀ s ∈ old ++ chain, s.args.hash ≠ Hash.zero
  /-- the stored block is not a new one -/
  stored : cfg.lastHash ∉ chain.map (·.args.hash)
  /-- the older ones are neither higher nor heavier than the stored block, and not on top of it or of the chain -/
  older : ∀ s ∈ old, s.args.number ≤ n ∧ s.args.weight ≤ cfg.lastWeight ∧ s.args.parentHash ∉ cfg.lastHash :: chain.map (·.args.hash)
  /-- a block is heavier than its parent -/
  grows : ∀ s ∈ old, ∀ p ∈ old, s.args.parentHash = p.args.hash → p.args.weight < s.args.weight
  /-- the whitelist does not forbid them -/
  whitelist : ∀ s ∈ old ++ chain, ∀ h, cfg.whitelist.get? (heightKey s.args.number) = some h → h = s.args.hash

/-- What a consumer started from the stored block receives: messages of these blocks. (Perhaps not all of them, and of the older ones perhaps only some.) -/
structure Spec.Continued (C : Codec) (cfg : Config) (n : Int) (old chain : List SentBlock) (received : List RMsg) : Prop extends
    Spec.Around C cfg n old chain where
  only : ∀ m ∈ received, ∃ s ∈ old ++ chain, Copy s.msgs m

theorem chainOf_rising {h : Hash} {n w : Int} {chain : List SentBlock} {v : Nat} (hc : ChainOf h n w chain) (hv : (v : Int) ≤ w) :
    Rising v (chain.map bare) := by
  induction chain generalizing h n w v with
  | nil => trivial
  | cons s ss ih =>
    have := hc.2.2.1
    refine ⟨show v < s.args.weight.toNat by omega, ih hc.2.2.2 (show ((s.args.weight.toNat : Nat) : Int) ≤ _ by omega)⟩

theorem chainOf_number {h : Hash} {n w : Int} {a c : List SentBlock} {s : SentBlock} (hc : ChainOf h n w (a ++ s :: c)) :
    s.args.number = n + a.length + 1 := by
  induction a generalizing h n w with
  | nil => have := hc.2.1; simp only [List.length_nil]; omega
  | cons x a ih =>
    have h1 := hc.2.1
    have h2 := ih hc.2.2.2
    simp only [List.length_cons]
    omega

/-- Along a chain the parent is lighter. -/
theorem chain_lighter {r : Hash} {w : Nat} {l : List PB} (hl : Linked r l) (hr : Rising w l) (hn : (r :: hashes l).Nodup) :
    ∀ b ∈ l, (b.parentHash = r ∨ b.parentHash ∈ hashes l) ∧ ∀ c ∈ l, b.parentHash = c.hash → c.weight < b.weight := by
  induction l generalizing r w with
  | nil => simp
  | cons x l ih =>
    have hn2 := List.nodup_cons.mp hn
    intro b hb
    rcases List.mem_cons.mp hb with rfl | hbl
    · refine ⟨.inl hl.1, fun c hc e => ?_⟩
      exact (hn2.1 (by rw [← hl.1, e]; exact mem_hashes hc)).elim
    · obtain ⟨h1, h2⟩ := ih hl.2 hr.2 hn2.2 b hbl
      refine ⟨.inr ?_, fun c hc e => ?_⟩
      · rcases h1 with e | e
        · rw [e]; simp [hashes]
        · simp only [hashes, List.map_cons]; exact List.mem_cons_of_mem _ e
      · rcases List.mem_cons.mp hc with rfl | hc
        · exact rising_above hr.2 b hbl
        · exact h2 c hc e

theorem noCircle_grows {ds : List PB} (h : ∀ b ∈ ds, ∀ c ∈ ds, b.parentHash = c.hash → c.weight < b.weight) : NoCircle ds := by
  intro b hb hA
  have up : ∀ {x : Hash}, Above ds b.hash x → ∃ c ∈ ds, c.hash = x ∧ b.weight ≤ c.weight := by
    intro x hA
    induction hA with
    | self => exact ⟨b, hb, rfl, Nat.le_refl _⟩
    | @step y hy _ ih =>
      obtain ⟨c, hc, e, hle⟩ := ih
      exact ⟨y, hy, rfl, Nat.le_trans hle (Nat.le_of_lt (h y hy c hc e.symm))⟩
  obtain ⟨c, hc, e, hle⟩ := up hA
  exact Nat.lt_irrefl _ (Nat.lt_of_lt_of_le (h b hb c hc e.symm) hle)

section
variable {cfg : Config} {n : Int} {old chain : List SentBlock} {received : List RMsg}

theorem Spec.Continued.supplied (h : Continued C cfg n old chain received) : Supplied C (old ++ chain) received := ⟨h.correct, h.hashes, h.only⟩

theorem Spec.Around.inj (h : Around C cfg n old chain) :
    ∀ s s', s ∈ old ++ chain → s' ∈ old ++ chain → s.args.hash = s'.args.hash → s = s' := by
  intro s s' hs hs' e
  have h1 := find_hash h.hashes hs
  rw [e, find_hash h.hashes hs'] at h1
  exact (Option.some.inj h1).symm

theorem Spec.Around.ordered (h : Around C cfg n old chain) {omp0 : OMP} (hn : newOMP cfg = .ok omp0) {ds : List PB}
    (hds : ∀ pb ∈ ds, ∃ s ∈ old ++ chain, HeadOf s pb) :
    ∃ s em rest, omp0.run o (ds.map OOp.block) = .ok s ∧ chain.map bare = em ++ rest ∧ addedHashes s.log = Spec.hashes em ∧
      (∀ x ∈ s.log, (∃ a, x = .update a []) ∨ ∃ sb ∈ old ++ chain, x = .evictOlder sb.args.number) ∧
      ∀ b rest', rest = b :: rest' → b.hash ∉ Spec.hashes ds ∧ ∀ n, OOut.evictOlder n ∈ s.log → n ≤ b.number := by
  have hhs : Spec.hashes (chain.map bare) = chain.map (·.args.hash) := by simp [Spec.hashes, bare, Function.comp_def]
  have hnd := h.hashes
  rw [List.map_append, List.nodup_append] at hnd
  have hL := chainOf_linked h.links
  have hRi : Rising cfg.lastWeight (chain.map bare) := chainOf_rising h.links (Int.le_refl _)
  have hNd : (cfg.lastHash :: Spec.hashes (chain.map bare)).Nodup := by
    rw [hhs]; exact List.nodup_cons.mpr ⟨h.stored, hnd.2.1⟩
  have hlight := chain_lighter hL hRi hNd
  have hw0 : ∀ s ∈ old ++ chain, 0 ≤ s.args.weight := fun s hs => (h.correct s hs).2.weight
  have hcls : ∀ {s : SentBlock} {b : PB}, s ∈ chain → HeadOf s b → Same (bare s) b := by
    intro s b hs he
    have := hw0 s (by simp [hs])
    have := he.weight
    exact ⟨he.hash.symm, he.parent.symm, show s.args.weight.toNat = b.weight by omega⟩
  have hgr : ∀ b ∈ ds, ∀ c ∈ ds, b.parentHash = c.hash → c.weight < b.weight := by
    intro b hb c hc e
    obtain ⟨s, hs, hes⟩ := hds b hb
    obtain ⟨t, ht, het⟩ := hds c hc
    have e1 := hes.weight
    have e2 := het.weight
    rw [hes.parent, het.hash] at e
    rcases List.mem_append.mp hs with hs | hs
    · rcases List.mem_append.mp ht with ht | ht
      · have := h.grows s hs t ht e; omega
      · exact ((h.older s hs).2.2 (by rw [e]; exact List.mem_cons_of_mem _ (List.mem_map.mpr ⟨t, ht, rfl⟩))).elim
    · obtain ⟨p1, p2⟩ := hlight (bare s) (List.mem_map.mpr ⟨s, hs, rfl⟩)
      rcases List.mem_append.mp ht with ht | ht
      · have hr := rising_above hRi (bare s) (List.mem_map.mpr ⟨s, hs, rfl⟩)
        have hr : cfg.lastWeight < s.args.weight.toNat := hr
        rcases p1 with p | p
        · have := (h.older t ht).2.1
          have := hw0 s (by simp [hs]); omega
        · rw [hhs] at p
          exact (hnd.2.2 _ (List.mem_map.mpr ⟨t, ht, rfl⟩) _ p e.symm).elim
      · have := p2 (bare t) (List.mem_map.mpr ⟨t, ht, rfl⟩) e
        have : t.args.weight.toNat < s.args.weight.toNat := this
        have := hw0 s (by simp [hs])
        have := hw0 t (by simp [ht]); omega
  have hC : Continues cfg (chain.map bare) ds := by
    refine ⟨h.nonzero.1, hL, hRi, hNd, ⟨?_, ?_⟩, noCircle_grows hgr, ?_, ?_⟩
    · intro b hb
      obtain ⟨s, hs, he⟩ := hds b hb
      rw [he.hash]; exact h.nonzero.2 s hs
    · intro b hb c hc e
      obtain ⟨s, hs, hes⟩ := hds b hb
      obtain ⟨t, ht, het⟩ := hds c hc
      rw [hes.hash, het.hash] at e
      rw [hes.parent, het.parent, h.inj s t hs ht e]
    · intro b hb
      obtain ⟨s, hs, he⟩ := hds b hb
      rcases List.mem_append.mp hs with hs | hs
      · refine .inr ⟨?_, ?_, ?_⟩
        · rw [hhs, he.hash]
          exact fun hm => hnd.2.2 _ (List.mem_map.mpr ⟨s, hs, rfl⟩) _ hm rfl
        · rw [hhs, he.parent]; exact (h.older s hs).2.2
        · have := (h.older s hs).2.1
          have := he.weight; omega
      · exact .inl ⟨bare s, List.mem_map.mpr ⟨s, hs, rfl⟩, hcls hs he⟩
    · rintro b hb ⟨x, hx, hne⟩
      obtain ⟨s, hs, he⟩ := hds b hb
      rw [he.number] at hx
      exact hne ((h.whitelist s hs x hx).trans he.hash.symm)
  obtain ⟨s, em, rest, h1, h2, h3, h4, _, h6⟩ := C129_ordering (o := o) hC hn
  refine ⟨s, em, rest, h1, h2, h3, ?_, fun b rest' e => ⟨h6 b rest' e, ?_⟩⟩
  · intro x hx
    rcases h4 x hx with e | ⟨b, hb, _, e⟩
    · exact .inl e
    · obtain ⟨sb, hs, he⟩ := hds b hb
      exact .inr ⟨sb, hs, by rw [e, he.number]⟩
  · intro k hk
    rcases h4 _ hk with ⟨a, e'⟩ | ⟨b', hb', hnr, e'⟩
    · simp at e'
    · simp only [OOut.evictOlder.injEq] at e'
      obtain ⟨sb, hs, he⟩ := hds b' hb'
      subst e
      obtain ⟨c1, c2, g1, g2, g3⟩ := List.map_eq_append_iff.mp h2
      obtain ⟨sx, c3, g4, g5, g6⟩ := List.map_eq_cons_iff.mp g3
      subst g4 g1
      have hx := chainOf_number h.links
      have hbn : b.number = sx.args.number := by rw [← g5]; rfl
      rw [hbn, hx, e', he.number]
      rcases List.mem_append.mp hs with hs | hs
      · have := (h.older sb hs).1; omega
      · rcases List.mem_append.mp hs with hs | hs
        · obtain ⟨d1, d2, rfl⟩ := List.append_of_mem hs
          have hlk := h.links
          rw [List.append_assoc, List.cons_append] at hlk
          have := chainOf_number hlk
          simp only [List.length_append, List.length_cons]
          omega
        · exfalso
          refine hnr ?_
          rw [he.hash, ← g5, ← g6]
          have : sb.args.hash ∈ (sx :: c3).map (·.args.hash) := List.mem_map.mpr ⟨sb, hs, rfl⟩
          simpa [Spec.hashes, bare, Function.comp_def] using this

theorem exact_head {s : SentBlock} {tracked : GoStr → Bool} {pb : PB} (h : Exact tracked s.schema s.args s.subs pb) : HeadOf s pb :=
  ⟨h.number, h.weight, h.hash, h.parent⟩

theorem Spec.Continued.ordered (h : Continued C cfg n old chain received) {omp0 : OMP} (hn : newOMP cfg = .ok omp0) {ds : List PB}
    (hds : ∀ pb ∈ ds, ∃ s ∈ old ++ chain, Exact cfg.tracked s.schema s.args s.subs pb) :
    ∃ s em rest, omp0.run o (ds.map OOp.block) = .ok s ∧ chain.map bare = em ++ rest ∧ addedHashes s.log = Spec.hashes em ∧
      (∀ x ∈ s.log, (∃ a, x = .update a []) ∨ ∃ sb ∈ old ++ chain, x = .evictOlder sb.args.number) ∧
      ∀ b rest', rest = b :: rest' → b.hash ∉ Spec.hashes ds ∧ ∀ n, OOut.evictOlder n ∈ s.log → n ≤ b.number :=
  h.toAround.ordered hn (fun pb hpb => by obtain ⟨s, hs, he⟩ := hds pb hpb; exact ⟨s, hs, exact_head he⟩)

/-- Blocks with the hashes of a list of sent blocks, all of them emitted, are exactly these. -/
theorem added_exact {blocks k : List SentBlock} (hS : Supplied C blocks received) (hC : C.Lawful) (hk : ∀ s ∈ k, s ∈ blocks) {added : List PB}
    (hh : added.map PB.hash = k.map (·.args.hash)) {mp mp' : MP} (hn : newMP cfg = .ok mp) {ms : List RMsg} (hms : ∀ m ∈ ms, m ∈ received)
    (hr : mp.run C env ms = .ok mp') (hin : ∀ b ∈ added, b ∈ mp'.emitted) :
    added.length = k.length ∧ ∀ x ∈ k.zip added, Exact cfg.tracked x.1.schema x.1.args x.1.subs x.2 := by
  have hlen : added.length = k.length := by simpa using congrArg List.length hh
  refine ⟨hlen, ?_⟩
  intro x hx
  obtain ⟨i, hi, rfl⟩ := List.mem_iff_getElem.mp hx
  simp only [List.length_zip] at hi
  rw [List.getElem_zip]
  simp only []
  have hheq : (added[i]'(by omega)).hash = (k[i]'(by omega)).args.hash := by
    have := congrArg (fun l => l[i]?) hh
    simp only [List.getElem?_map] at this
    rw [List.getElem?_eq_getElem (by omega), List.getElem?_eq_getElem (by omega)] at this
    simpa using this
  obtain ⟨sb, hsb, he⟩ := hS.emitted hC hn hms hr (hin _ (List.getElem_mem _))
  have : sb = k[i]'(by omega) := hS.inj _ _ hsb (hk _ (List.getElem_mem _)) (he.hash.symm.trans hheq)
  rw [this] at he
  exact he

theorem added_emitted {s0 s : Sys} {todo : List Call} (hst : Sys.start cfg todo = .ok s0) (hs : Sys.Steps C env o s0 s) :
    ∀ b ∈ s.omp.log.flatMap addedBy, b ∈ s.mp.emitted := by
  intro b hb
  obtain ⟨out, hout, hin⟩ := List.mem_flatMap.mp hb
  cases out with
  | update a r => exact C43_updates hst hs hout (List.mem_append_left _ hin)
  | reorg n x => simp [addedBy] at hin
  | evictOlder n => simp [addedBy] at hin

/-- **C129**, the whole consumer, at every moment and under every schedule: it is not about to fault; the blocks the subscriber has been told to add are, in
order and once each, the first blocks of the chain, each exactly as produced, and nothing was to be removed. -/
theorem C129_always (h : Continued C cfg n old chain received) (hC : C.Lawful) {s0 s : Sys}
    (hst : Sys.start cfg (received.map Call.msg) = .ok s0) (hs : Sys.Steps C env o s0 s) :
    ¬ Faulty C env o s ∧ (∀ x ∈ s.omp.log, (∃ a, x = .update a []) ∨ ∃ sb ∈ old ++ chain, x = .evictOlder sb.args.number) ∧
    (s.omp.log.flatMap addedBy).length ≤ chain.length ∧
    ∀ x ∈ chain.zip (s.omp.log.flatMap addedBy), Exact cfg.tracked x.1.schema x.1.args x.1.subs x.2 := by
  refine ⟨h.supplied.calm hC hst hs ?_, ?_⟩
  · intro omp0 ds ho hds
    obtain ⟨s', _, _, g1, _⟩ := h.ordered (o := o) ho hds
    exact ⟨s', g1⟩
  obtain ⟨mp0, omp0, ms, ds, hn, ho, ⟨rest, h1, h2⟩, h3, h4, h5, h6⟩ := h.supplied.inside hC hst hs
  have hms : ∀ m ∈ ms, m ∈ received := fun m hm => by rw [h1]; simp [hm]
  obtain ⟨s', em, rest', g1, g2, g3, g4, _⟩ := h.ordered (o := o) ho (ds := ds) (fun pb hpb =>
    h.supplied.emitted hC hn hms h3 (by rw [h6]; simp [hpb]))
  rw [h5] at g1
  have g1 := Except.ok.inj g1
  subst g1
  obtain ⟨c1, c2, e1, e2, e3⟩ := List.map_eq_append_iff.mp g2
  have hh : (s.omp.log.flatMap addedBy).map PB.hash = c1.map (·.args.hash) := by
    have : addedHashes s.omp.log = (s.omp.log.flatMap addedBy).map PB.hash := rfl
    rw [← this, g3, ← e2]
    simp [Spec.hashes, bare, Function.comp_def]
  obtain ⟨k1, k2⟩ := added_exact (env := env) h.supplied hC (k := c1) (fun s hs => by rw [e1]; simp [hs]) hh hn hms h3 (added_emitted hst hs)
  refine ⟨g4, by rw [k1, e1]; simp, ?_⟩
  have hz : chain.zip (s.omp.log.flatMap addedBy) = c1.zip (s.omp.log.flatMap addedBy) := by
    rw [e1]
    conv => lhs; rw [← List.append_nil (s.omp.log.flatMap addedBy)]
    rw [List.zip_append k1.symm]
    simp
  rw [hz]
  exact k2

/-- **C129**, the end: when everything that is received has been handled (which every execution comes to) and all messages of the chain were among it, the
subscriber has been told to add the whole chain. -/
theorem C129_end (h : Continued C cfg n old chain received) (hC : C.Lawful) (ha : ∀ s ∈ chain, AllArrive s.msgs received) {s0 s : Sys}
    (hst : Sys.start cfg (received.map Call.msg) = .ok s0) (hs : Sys.Steps C env o s0 s) (hd : s.Drained) (hg : Genuine env s) :
    (s.omp.log.flatMap addedBy).length = chain.length := by
  obtain ⟨mp0, omp0, ms, ds, hn, ho, ⟨rest, h1, h2⟩, h3, h4, h5, h6⟩ := h.supplied.inside hC hst hs
  rw [hd.1] at h2
  have hrest : rest = [] := List.map_eq_nil_iff.mp h2.symm
  subst hrest
  rw [List.append_nil] at h1
  subst h1
  rw [hd.2.1, hd.2.2.1] at h6
  have h6 : s.mp.emitted = ds := by simpa [blocksSent] using h6
  obtain ⟨s', em, rest, g1, g2, g3, g4, g5⟩ := h.ordered (o := o) ho (ds := ds) (fun pb hpb =>
    h.supplied.emitted hC hn (fun m hm => hm) h3 (by rw [h6]; exact hpb))
  rw [h5] at g1
  have g1 := Except.ok.inj g1
  subst g1
  have hrest : rest = [] := by
    cases rest with
    | nil => rfl
    | cons b rest =>
      have : b ∈ chain.map bare := by rw [g2]; simp
      obtain ⟨sb, hsb, rfl⟩ := List.mem_map.mp this
      obtain ⟨g6, g7⟩ := g5 _ _ rfl
      have hsb' : sb ∈ old ++ chain := by simp [hsb]
      obtain ⟨pb, hpb, he⟩ := C01_delivered hC (h.correct sb hsb').1 (h.correct sb hsb').2 hn
        (fun t x hx => g7 x (hg t x hx))
        (faithful_of_blocks hC h.correct h.supplied.inj (fun m hm => .inl (h.only m hm)) hsb') (ha sb hsb) h3
      rw [h6] at hpb
      exact (g6 (List.mem_map.mpr ⟨pb, hpb, he.hash⟩)).elim
  rw [hrest, List.append_nil] at g2
  rw [← g2] at g3
  have : addedHashes s.omp.log = (s.omp.log.flatMap addedBy).map PB.hash := rfl
  rw [this] at g3
  simpa [Spec.hashes] using congrArg List.length g3

/-- **C129**: every execution can be completed. -/
theorem C129_completes (h : Continued C cfg n old chain received) (hC : C.Lawful) {s0 s : Sys}
    (hst : Sys.start cfg (received.map Call.msg) = .ok s0) (hs : Sys.Steps C env o s0 s) : ∃ s', Sys.Steps C env o s s' ∧ s'.Drained := by
  obtain ⟨s', h1, h2⟩ := s.drains (C := C) (env := env) (o := o) ((Piped.start (C := C) (env := env) (o := o) hst).steps hs).room
  refine ⟨s', h1, h2.resolve_right ?_⟩
  have hs' : Sys.Steps C env o s0 s' := by
    clear h2
    induction h1 with
    | refl => exact hs
    | step _ h ih => exact .step ih h
  exact (C129_always h hC hst hs').1

end

/-! ## Examples -/

/-- The stored block, its ancestors, a fork, and two new blocks, upside down and repeated. -/
def exAgain : List PB := [ob 3 2 12 30, ob 1 8 10 5, ob 9 8 10 4, ob 2 1 11 20, ob 8 7 9 3, ob 3 2 12 30, ob 7 6 8 2, ob 9 8 10 4, ob 1 8 10 5]

/-- `C129_ordering`: its hypotheses hold for these. -/
theorem exAgain_ok : Continues exOCfg [ob 2 1 11 20, ob 3 2 12 30] exAgain := by
  refine ⟨by decide, ⟨rfl, rfl, trivial⟩, ⟨by decide, by decide, trivial⟩, by decide, ⟨?_, ?_⟩, ?_, ?_, ?_⟩
  · intro b hb
    simp only [exAgain, List.mem_cons, List.not_mem_nil, or_false] at hb
    rcases hb with rfl | rfl | rfl | rfl | rfl | rfl | rfl | rfl | rfl <;> decide
  · intro a ha b hb
    simp only [exAgain, List.mem_cons, List.not_mem_nil, or_false] at ha hb
    rcases ha with rfl | rfl | rfl | rfl | rfl | rfl | rfl | rfl | rfl <;>
      rcases hb with rfl | rfl | rfl | rfl | rfl | rfl | rfl | rfl | rfl <;> decide
  · refine noCircle_grows ?_
    intro a ha b hb
    simp only [exAgain, List.mem_cons, List.not_mem_nil, or_false] at ha hb
    rcases ha with rfl | rfl | rfl | rfl | rfl | rfl | rfl | rfl | rfl <;>
      rcases hb with rfl | rfl | rfl | rfl | rfl | rfl | rfl | rfl | rfl <;> decide
  · have new3 : ∃ x ∈ [ob 2 1 11 20, ob 3 2 12 30], Same x (ob 3 2 12 30) := ⟨ob 3 2 12 30, by simp, rfl, rfl, rfl⟩
    have new2 : ∃ x ∈ [ob 2 1 11 20, ob 3 2 12 30], Same x (ob 2 1 11 20) := ⟨ob 2 1 11 20, by simp, rfl, rfl, rfl⟩
    intro b hb
    simp only [exAgain, List.mem_cons, List.not_mem_nil, or_false] at hb
    rcases hb with rfl | rfl | rfl | rfl | rfl | rfl | rfl | rfl | rfl
    · exact .inl new3
    · exact .inr ⟨by decide, by decide, by decide⟩
    · exact .inr ⟨by decide, by decide, by decide⟩
    · exact .inl new2
    · exact .inr ⟨by decide, by decide, by decide⟩
    · exact .inl new3
    · exact .inr ⟨by decide, by decide, by decide⟩
    · exact .inr ⟨by decide, by decide, by decide⟩
    · exact .inr ⟨by decide, by decide, by decide⟩
  · rintro b - ⟨h, hx, -⟩
    simp [exOCfg, exCfg] at hx

/-- `C129_ordering`: the two new blocks are added, once each, and old ones are forgotten. -/
example : ∃ s, (omp0 exOCfg).run .plain (exAgain.map OOp.block) = .ok s ∧
    (decide (addedHashes s.log = [exHash 2, exHash 3]) && decide (s.lastHash = exHash 3)) = true := ex_ok _ (by decide +kernel)

/-- `exBlock` has been stored, and two blocks are on top of it. -/
def exStored : Config := { exSysCfg with lastHash := exHash 1, lastWeight := 300, lastEmittedNum := 5 }

theorem exAroundOf {m1 m2 m3 : List Msg} (h1 : Produced Avro.codec exProducer.schema exBlock exSubs m1) (h2 : Produced Avro.codec exProducer.schema exNext exSubs m2)
    (h3 : Produced Avro.codec exProducer.schema exThird exSubs m3) : Around Avro.codec exStored 5 [⟨exProducer.schema, exBlock, exSubs, m1⟩]
      [⟨exProducer.schema, exNext, exSubs, m2⟩, ⟨exProducer.schema, exThird, exSubs, m3⟩] := by
  refine ⟨?_, ?_, ?_, ?_, ?_, ?_, ?_, ?_⟩
  · intro s hs
    simp only [List.cons_append, List.nil_append, List.mem_cons, List.not_mem_nil, or_false] at hs
    rcases hs with rfl | rfl | rfl
    · exact ⟨h1, exBlock_wf⟩
    · exact ⟨h2, exNext_wf⟩
    · exact ⟨h3, exThird_wf⟩
  · exact ⟨rfl, rfl, show (300 : Int) < 310 by decide, rfl, rfl, show (310 : Int) < 320 by decide, trivial⟩
  · show [exHash 1, exHash 3, exHash 4].Nodup
    decide
  · refine ⟨by decide, ?_⟩
    intro s hs
    simp only [List.cons_append, List.nil_append, List.mem_cons, List.not_mem_nil, or_false] at hs
    rcases hs with rfl | rfl | rfl
    · exact show exHash 1 ≠ Hash.zero by decide
    · exact show exHash 3 ≠ Hash.zero by decide
    · exact show exHash 4 ≠ Hash.zero by decide
  · show exHash 1 ∉ [exHash 3, exHash 4]
    decide
  · intro s hs
    rw [List.mem_singleton.mp hs]
    exact ⟨show (5 : Int) ≤ 5 by decide, show (300 : Int) ≤ 300 by decide, show exHash 2 ∉ [exHash 1, exHash 3, exHash 4] by decide⟩
  · intro s hs p hp e
    rw [List.mem_singleton.mp hs, List.mem_singleton.mp hp] at e
    exact absurd (show exHash 2 = exHash 1 from e) (by decide)
  · intro s _ x hx
    simp [exStored, exSysCfg, exCfg] at hx

/-- `C129_always`, `C129_end`: `exBlock` was stored; it is received again, between the blocks on top of it, and once more without its last messages. -/
theorem exContinued : ∃ old chain received, old.length = 1 ∧ chain.length = 2 ∧ Continued Avro.codec exStored 5 old chain received ∧
    (∀ s ∈ chain, AllArrive s.msgs received) ∧ (∀ s ∈ old, AllArrive s.msgs received) ∧
    ∃ s0 s, Sys.start exStored (received.map Call.msg) = .ok s0 ∧ Sys.Steps Avro.codec exEnv .plain s0 s ∧ s.Drained ∧ Genuine exEnv s := by
  obtain ⟨m1, h1⟩ := exBlock_produced
  obtain ⟨p', tm, h⟩ := exNext_ok
  obtain ⟨m2, h2⟩ := produced_exists h exSubs
  obtain ⟨p', tm, h⟩ := exThird_ok
  obtain ⟨m3, h3⟩ := produced_exists h exSubs
  have hE : Continued Avro.codec exStored 5 [⟨exProducer.schema, exBlock, exSubs, m1⟩] [⟨exProducer.schema, exNext, exSubs, m2⟩,
      ⟨exProducer.schema, exThird, exSubs, m3⟩] (recv m3 ++ recv m1 ++ recv m2 ++ (recv m1).dropLast) := by
    refine ⟨exAroundOf h1 h2 h3, ?_⟩
    · intro m hm
      simp only [List.mem_append] at hm
      rcases hm with ((hm | hm) | hm) | hm
      · exact ⟨_, List.mem_cons_of_mem _ (List.mem_cons_of_mem _ (List.mem_cons_self ..)), recv_copy (ms := m3) (fun _ h => h) hm⟩
      · exact ⟨_, List.mem_cons_self .., recv_copy (ms := m1) (fun _ h => h) hm⟩
      · exact ⟨_, List.mem_cons_of_mem _ (List.mem_cons_self ..), recv_copy (ms := m2) (fun _ h => h) hm⟩
      · exact ⟨_, List.mem_cons_self .., recv_copy (ms := m1) (fun _ h => h) (List.mem_of_mem_take (List.dropLast_eq_take ▸ hm))⟩
  refine ⟨_, _, _, rfl, rfl, hE, ?_, ?_, ?_⟩
  · intro s hs x hx
    simp only [List.mem_cons, List.not_mem_nil, or_false] at hs
    rcases hs with rfl | rfl
    · obtain ⟨m, hm, e⟩ := recv_all m2 x hx
      exact ⟨m, by simp [hm], e⟩
    · obtain ⟨m, hm, e⟩ := recv_all m3 x hx
      exact ⟨m, by simp [hm], e⟩
  · intro s hs x hx
    cases List.mem_singleton.mp hs
    obtain ⟨m, hm, e⟩ := recv_all m1 x hx
    exact ⟨m, by simp [hm], e⟩
  · have hst : ∃ s0, Sys.start exStored ((recv m3 ++ recv m1 ++ recv m2 ++ (recv m1).dropLast).map Call.msg) = .ok s0 := ⟨_, rfl⟩
    obtain ⟨s0, hst⟩ := hst
    obtain ⟨s, hs, hd⟩ := C129_completes (env := exEnv) (o := .plain) hE Avro.codec_lawful hst .refl
    exact ⟨s0, s, hst, hs, hd, by intro t n hn; simp [exEnv] at hn⟩

/-- The whole chain is added, and nothing else. -/
example : ∃ (received : List RMsg) (s0 s : Sys), Sys.start exStored (received.map Call.msg) = .ok s0 ∧
    Sys.Steps Avro.codec exEnv .plain s0 s ∧ (s.omp.log.flatMap addedBy).length = 2 := by
  obtain ⟨old, chain, received, _, hl, hE, ha, _, s0, s, hst, hs, hd, hg⟩ := exContinued
  exact ⟨received, s0, s, hst, hs, (C129_end hE Avro.codec_lawful ha hst hs hd hg).trans hl⟩

end Verif
