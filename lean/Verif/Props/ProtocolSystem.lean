import Verif.Props.Protocol
import Verif.Props.Forks
/-!
# C145: producers that follow SPEC.md, through to the subscribers

C140 ends at the assembled payloads. Here the ordering layer is added: payloads that are linked by their parents, sent by any producers that
follow SPEC.md, in any encoding, reach the subscribers as one chain.
-/
namespace Verif
open Spec

variable {C : Codec} {env : Env} {o : MapOrder}

namespace Spec

/-- The payloads are a chain on the payload with hash `h`, number `n` and weight `w`: numbers go up by one, weights grow. -/
def PayloadsOn : Hash → Int → Nat → List Payload → Prop
  | _, _, _, [] => True
  | h, n, w, p :: ps => p.parent = h ∧ p.number = n + 1 ∧ w < p.weight ∧ PayloadsOn p.hash p.number p.weight ps

/-- Payloads that are consistent and meet the consumer's conditions, and nothing but messages of them. -/
structure PayloadsSent (C : Codec) (ps : List Payload) (received : List RMsg) : Prop where
  consistent : ∀ p ∈ ps, p.Consistent
  plain : ∀ p ∈ ps, p.Plain
  only : ∀ m ∈ received, ∃ p ∈ ps, p.IsMessage C m.key m.value

/-- A chain of payloads on the last processed block, which has number `n`. -/
structure PayloadChain (C : Codec) (cfg : Config) (n : Int) (chain : List Payload) (received : List RMsg) : Prop
    extends PayloadsSent C chain received where
  links : PayloadsOn cfg.lastHash n cfg.lastWeight chain
  /-- hashes do not collide -/
  hashes : (Hash.zero :: cfg.lastHash :: chain.map (·.hash)).Nodup
  /-- the whitelist does not forbid them -/
  whitelist : ∀ p ∈ chain, ∀ h, cfg.whitelist.get? (heightKey p.number) = some h → h = p.hash

/-- A tree of payloads above the last processed one. -/
structure PayloadTree (C : Codec) (cfg : Config) (root : Payload) (tree : List Payload) (received : List RMsg) : Prop
    extends PayloadsSent C tree received where
  mem : root ∈ tree
  hash : root.hash = cfg.lastHash
  weight : root.weight = cfg.lastWeight
  heavy : 0 < root.weight
  low : root.parent ∉ tree.map (·.hash)
  /-- all others have their parents in the tree, which are lighter and one lower -/
  parents : ∀ p ∈ tree, p = root ∨ ∃ q ∈ tree, q.hash = p.parent ∧ p.number = q.number + 1 ∧ q.weight < p.weight
  hashes : (Hash.zero :: tree.map (·.hash)).Nodup
  whitelist : ∀ p ∈ tree, ∀ h, cfg.whitelist.get? (heightKey p.number) = some h → h = p.hash

/-- SPEC.md: "every payload's $Parent should have been transmitted to the stream prior to the payload that references it": the `Batch`
message of a payload is not received before all messages of its parent. -/
def BatchesFollow (C : Codec) (root : Payload) (tree : List Payload) (received : List RMsg) : Prop :=
  ∀ l1 m l2, received = l1 ++ m :: l2 → ∀ p ∈ tree, m.key = wireKey C (.batch p.hash) →
    p = root ∨ ∃ q ∈ tree, q.hash = p.parent ∧ q.Arrived C l1

end Spec

/-! ## The payloads seen by the ordering layer -/

/-- A block with the header of the payload. -/
def headBlock (p : Payload) : SentBlock where
  schema := []
  args := { number := p.number, hash := p.hash, parentHash := p.parent, weight := p.weight, updates := GMap.empty, deletes := GMap.empty, batches := GMap.empty }
  subs := fun _ => ⟨[], GMap.empty⟩
  msgs := []

theorem headBlock_of {tracked : GoStr → Bool} {p : Payload} {pb : PB} (h : p.Assembled tracked pb) : HeadOf (headBlock p) pb :=
  ⟨h.number, by rw [h.weight]; rfl, h.hash, h.parent⟩

theorem headBlock_hashes (ps : List Payload) : (ps.map headBlock).map (·.args.hash) = ps.map (·.hash) := by
  simp [headBlock, Function.comp_def]

theorem payloads_inj {ps : List Payload} (hd : (ps.map (·.hash)).Nodup) : ∀ p q, p ∈ ps → q ∈ ps → p.hash = q.hash → p = q := by
  induction ps with
  | nil => intro p q h; simp at h
  | cons a l ih =>
    rw [List.map_cons, List.nodup_cons] at hd
    intro p q hp hq e
    rcases List.mem_cons.mp hp with rfl | hp <;> rcases List.mem_cons.mp hq with rfl | hq
    · rfl
    · exact absurd (List.mem_map.mpr ⟨q, hq, e.symm⟩) hd.1
    · exact absurd (List.mem_map.mpr ⟨p, by assumption, e⟩) hd.1
    · exact ih hd.2 p q hp hq e

theorem payloadsOn_chain {h : Hash} {n : Int} {w : Nat} {ps : List Payload} (hp : PayloadsOn h n w ps) : ChainOf h n w (ps.map headBlock) := by
  induction ps generalizing h n w with
  | nil => trivial
  | cons p ps ih =>
    obtain ⟨h1, h2, h3, h4⟩ := hp
    exact ⟨h1, h2, by show (w : Int) < (p.weight : Int); omega, ih h4⟩

section
variable {cfg : Config} {ps : List Payload} {received : List RMsg}

theorem message_hash {p : Payload} {key v : Bytes} (h : p.IsMessage C key v) : hashOf key = p.hash := by
  obtain ⟨i, h1, rfl, _⟩ := h
  rw [wireKey_eq]
  refine (keyOf_hash C i).trans ?_
  cases i with
  | batch h => exact h1
  | reorg h => exact absurd h1 id
  | reorgDone h => exact absurd h1 id
  | _ => exact h1.1

theorem Spec.PayloadsSent.heard (h : PayloadsSent C ps received) (hd : (ps.map (·.hash)).Nodup) {ms : List RMsg} (hms : ∀ m ∈ ms, m ∈ received)
    {p : Payload} (hp : p ∈ ps) : p.Heard C ms := by
  intro m hm he
  obtain ⟨q, hq, hk⟩ := h.only m (hms m hm)
  obtain rfl := payloads_inj hd p q hp hq (he.symm.trans (message_hash hk))
  exact .inl hk

theorem Spec.PayloadsSent.emitted (h : PayloadsSent C ps received) (hd : (ps.map (·.hash)).Nodup) (hC : C.Lawful) {mp mp' : MP}
    (hn : newMP cfg = .ok mp) {ms : List RMsg} (hms : ∀ m ∈ ms, m ∈ received) (hr : mp.run C env ms = .ok mp') {pb : PB}
    (hpb : pb ∈ mp'.emitted) : ∃ p ∈ ps, p.Assembled cfg.tracked pb := by
  have hprov := ((prov_parts C env (· ∈ ms) (run_ok_len hr) cfg.tracked cfg.frp).emitted hn
    (by intro s o hs; simp at hs) (fun m hm => hm) hr pb hpb).1
  obtain ⟨hd', b, hof, _⟩ := hprov.head
  obtain ⟨p, hp, hk⟩ := h.only hd' (hms _ hof.mem)
  exact ⟨p, hp, C140_exact hC (h.consistent p hp) (h.plain p hp) hn (h.heard hd hms hp) hr hpb (hof.block.symm.trans (message_hash hk))⟩

theorem Spec.PayloadsSent.types (h : PayloadsSent C ps received) : ∀ m ∈ received, m.key.headD 0 ≠ ReorgType := by
  intro m hm
  obtain ⟨p, _, i, h1, h2, _⟩ := h.only m hm
  rw [h2]
  cases i with
  | reorg h => exact absurd h1 id
  | reorgDone h => exact absurd h1 id
  | _ => simp [wireKey, ReorgType]

/-- In a run of the pipeline there are no notifications. -/
theorem Spec.PayloadsSent.inside (h : PayloadsSent C ps received) {s0 s : Sys}
    (hst : Sys.start cfg (received.map Call.msg) = .ok s0) (hs : Sys.Steps C env o s0 s) :
    ∃ mp0 omp0 ms ds, newMP cfg = .ok mp0 ∧ newOMP cfg = .ok omp0 ∧ (∃ rest, received = ms ++ rest ∧ s.todo = rest.map Call.msg) ∧
      mp0.run C env ms = .ok s.mp ∧ s.ops = ds.map OOp.block ∧ omp0.run o (ds.map OOp.block) = .ok s.omp ∧
      s.mp.emitted = ds ++ (s.ch ++ blocksSent s.out) := by
  have hp := (Piped.start hst).steps hs
  obtain ⟨mp0, hn, hr⟩ := hp.consists.mp
  obtain ⟨omp0, ho, hor⟩ := hp.consists.omp
  obtain ⟨ms, rest, h1, h2, h3⟩ : ∃ ms rest, received = ms ++ rest ∧ ms.map Call.msg = s.calls ∧ rest.map Call.msg = s.todo :=
    List.map_eq_append_iff.mp hp.consists.calls
  rw [← h2] at hr
  have hr := calls_msgs.mp hr
  have hq : ∀ m ∈ ms, m.key.headD 0 ≠ ReorgType := fun m hm => h.types m (by rw [h1]; simp [hm])
  have hnote := no_notes hn hq hr
  have hops : s.ops = (blocksOf s.ops).map OOp.block := by
    refine ops_blocks ?_
    have := hp.notes
    rw [hnote] at this
    exact (List.append_eq_nil_iff.mp this.symm).1
  refine ⟨mp0, omp0, ms, blocksOf s.ops, hn, ho, ⟨rest, h1, h3.symm⟩, hr, hops, ?_, hp.blocks⟩
  rw [← hops]; exact hor

/-- If the ordering layer works through all lists of assembled payloads, neither goroutine is ever about to fault. -/
theorem Spec.PayloadsSent.calm (h : PayloadsSent C ps received) (hd : (ps.map (·.hash)).Nodup) (hC : C.Lawful) {s0 s : Sys}
    (hst : Sys.start cfg (received.map Call.msg) = .ok s0) (hs : Sys.Steps C env o s0 s)
    (hord : ∀ (omp0 : OMP) (ds : List PB), newOMP cfg = .ok omp0 → (∀ x ∈ ds, ∃ p ∈ ps, p.Assembled cfg.tracked x) →
      ∃ s', omp0.run o (ds.map OOp.block) = .ok s') : ¬ Faulty C env o s := by
  obtain ⟨mp0, omp0, ms, ds, hn, ho, ⟨rest, h1, h2⟩, h3, h4, h5, h6⟩ := h.inside hst hs
  rintro (⟨c, cs, f, ht, hf⟩ | ⟨pb, r, f, ht, hf⟩)
  · rw [ht] at h2
    cases rest with
    | nil => simp at h2
    | cons m rest =>
      simp only [List.map_cons, List.cons.injEq] at h2
      obtain ⟨rfl, _⟩ := h2
      obtain ⟨mp', hr, _⟩ := C140_total hC (env := env) (payloads := (· ∈ ps)) (fun p hp => ⟨h.consistent p hp, h.plain p hp⟩)
        (fun p q hp hq e => payloads_inj hd p q hp hq e) hn (received := ms ++ [m])
        (fun x hx => .inl (h.only x (by rw [h1]; rcases List.mem_append.mp hx with hx | hx
                                        · simp [hx]
                                        · simp [List.mem_singleton.mp hx])))
      have hr := calls_msgs.mpr hr
      rw [List.map_append] at hr
      unfold MP.calls at hr
      rw [List.foldlM_append, show List.foldlM (MP.call C env) mp0 (ms.map Call.msg) = .ok s.mp from calls_msgs.mpr h3] at hr
      have hr : (([m].map Call.msg).foldlM (MP.call C env) s.mp) = .ok mp' := hr
      rw [List.map_cons, List.foldlM_cons, hf] at hr
      simp [bind, Except.bind] at hr
  · have hex : ∀ x ∈ ds ++ [pb], ∃ p ∈ ps, p.Assembled cfg.tracked x := by
      intro x hx
      refine h.emitted hd hC hn (fun m hm => by rw [h1]; simp [hm]) h3 ?_
      rw [h6, ht]
      rcases List.mem_append.mp hx with hx | hx
      · simp [hx]
      · simp [List.mem_singleton.mp hx]
    obtain ⟨s', g1⟩ := hord omp0 (ds ++ [pb]) ho hex
    rw [List.map_append] at g1
    unfold OMP.run at g1
    rw [List.foldlM_append, show List.foldlM (OMP.op o) omp0 (ds.map OOp.block) = .ok s.omp from h5] at g1
    have g1 : (([pb].map OOp.block).foldlM (OMP.op o) s.omp) = .ok s' := g1
    rw [List.map_cons, List.foldlM_cons] at g1
    rw [show OMP.op o s.omp (.block pb) = .error f from hf] at g1
    simp [bind, Except.bind] at g1

theorem completes {s0 s : Sys} (hst : Sys.start cfg (received.map Call.msg) = .ok s0) (hs : Sys.Steps C env o s0 s)
    (key : ∀ s, Sys.Steps C env o s0 s → ¬ Faulty C env o s) : ∃ s', Sys.Steps C env o s s' ∧ s'.Drained := by
  obtain ⟨s', h1, h2⟩ := s.drains (C := C) (env := env) (o := o) ((Piped.start (C := C) (env := env) (o := o) hst).steps hs).room
  refine ⟨s', h1, h2.resolve_right (key s' ?_)⟩
  clear h2
  induction h1 with
  | refl => exact hs
  | step _ h ih => exact .step ih h

/-! ## One chain -/

variable {n : Int} {chain : List Payload}

theorem Spec.PayloadChain.nodup (h : PayloadChain C cfg n chain received) : (chain.map (·.hash)).Nodup :=
  (List.nodup_cons.mp (List.nodup_cons.mp h.hashes).2).2

theorem Spec.PayloadChain.ordered (h : PayloadChain C cfg n chain received) {omp0 : OMP} (hn : newOMP cfg = .ok omp0) {ds : List PB}
    (hds : ∀ pb ∈ ds, ∃ p ∈ chain, p.Assembled cfg.tracked pb) :
    ∃ s em rest, omp0.run o (ds.map OOp.block) = .ok s ∧ (chain.map headBlock).map bare = em ++ rest ∧ addedHashes s.log = Spec.hashes em ∧
      (∀ x ∈ s.log, (∃ a, x = .update a []) ∨ ∃ p ∈ chain, x = .evictOlder p.number) ∧
      ∀ b rest', rest = b :: rest' → b.hash ∉ Spec.hashes ds ∧ ∀ n, OOut.evictOlder n ∈ s.log → n ≤ b.number := by
  obtain ⟨s, em, rest, h1, h2, h3, h4, h5⟩ := chain_ordered (o := o) (chain := chain.map headBlock) (payloadsOn_chain h.links)
    (by rw [headBlock_hashes]; exact h.hashes)
    (by
      intro s hs
      obtain ⟨p, hp, rfl⟩ := List.mem_map.mp hs
      exact h.whitelist p hp)
    (by
      intro s hs
      obtain ⟨p, hp, rfl⟩ := List.mem_map.mp hs
      show (0 : Int) ≤ (p.weight : Int)
      omega) hn (ds := ds)
    (by
      intro pb hpb
      obtain ⟨p, hp, he⟩ := hds pb hpb
      exact ⟨headBlock p, List.mem_map.mpr ⟨p, hp, rfl⟩, headBlock_of he⟩)
  refine ⟨s, em, rest, h1, h2, h3, ?_, h5⟩
  intro x hx
  rcases h4 x hx with h | ⟨sb, hsb, e⟩
  · exact .inl h
  · obtain ⟨p, hp, rfl⟩ := List.mem_map.mp hsb
    exact .inr ⟨p, hp, e⟩

/-- **C145**, one chain of payloads: however they were sent, encoded, ordered and repeated, at the end the subscribers have seen every payload exactly
once, in chain order, each as it was sent, and nothing was removed. -/
theorem C145_chain (h : PayloadChain C cfg n chain received) (hC : C.Lawful) (ha : ∀ p ∈ chain, p.Arrived C received) {s0 s : Sys}
    (hst : Sys.start cfg (received.map Call.msg) = .ok s0) (hs : Sys.Steps C env o s0 s) (hd : s.Drained) (hg : Genuine env s) :
    (∀ x ∈ s.omp.log, (∃ a, x = .update a []) ∨ ∃ p ∈ chain, x = .evictOlder p.number) ∧
    (s.omp.log.flatMap addedBy).length = chain.length ∧
    ∀ x ∈ chain.zip (s.omp.log.flatMap addedBy), x.1.Assembled cfg.tracked x.2 := by
  obtain ⟨mp0, omp0, ms, ds, hn, ho, ⟨rest, h1, h2⟩, h3, h4, h5, h6⟩ := h.inside hst hs
  rw [hd.1] at h2
  have hrest : rest = [] := List.map_eq_nil_iff.mp h2.symm
  subst hrest
  rw [List.append_nil] at h1
  subst h1
  rw [hd.2.1, hd.2.2.1] at h6
  have h6 : s.mp.emitted = ds := by simpa [blocksSent] using h6
  have hex : ∀ pb ∈ ds, ∃ p ∈ chain, p.Assembled cfg.tracked pb := fun pb hpb =>
    h.emitted h.nodup hC hn (fun m hm => hm) h3 (by rw [h6]; exact hpb)
  obtain ⟨s', em, rest, g1, g2, g3, g4, g5⟩ := h.ordered (o := o) ho hex
  rw [h5] at g1
  have g1 := Except.ok.inj g1
  subst g1
  have hrest : rest = [] := by
    cases rest with
    | nil => rfl
    | cons b rest =>
      have : b ∈ (chain.map headBlock).map bare := by rw [g2]; simp
      obtain ⟨sb, hsb, rfl⟩ := List.mem_map.mp this
      obtain ⟨p, hp, rfl⟩ := List.mem_map.mp hsb
      obtain ⟨g6, g7⟩ := g5 _ _ rfl
      obtain ⟨pb, hpb, he⟩ := C140_delivered hC (h.consistent p hp) (h.plain p hp) hn
        (fun t x hx => g7 x (hg t x hx)) (h.heard h.nodup (fun m hm => hm) hp) (ha p hp) h3
      rw [h6] at hpb
      exact (g6 (List.mem_map.mpr ⟨pb, hpb, he.hash⟩)).elim
  rw [hrest, List.append_nil] at g2
  rw [← g2] at g3
  have hhash : (s.omp.log.flatMap addedBy).map PB.hash = chain.map (·.hash) := by
    have : addedHashes s.omp.log = (s.omp.log.flatMap addedBy).map PB.hash := rfl
    rw [← this, g3]
    simp [Spec.hashes, bare, headBlock, Function.comp_def]
  have hlen : (s.omp.log.flatMap addedBy).length = chain.length := by
    have := congrArg List.length hhash
    simpa using this
  refine ⟨g4, hlen, ?_⟩
  intro x hx
  obtain ⟨i, hi, rfl⟩ := List.mem_iff_getElem.mp hx
  simp only [List.length_zip] at hi
  rw [List.getElem_zip]
  simp only []
  have hpb : (s.omp.log.flatMap addedBy)[i] ∈ s.omp.log.flatMap addedBy := List.getElem_mem _
  have hheq : ((s.omp.log.flatMap addedBy)[i]).hash = (chain[i]).hash := by
    have := congrArg (fun l => l[i]?) hhash
    simp only [List.getElem?_map] at this
    rw [List.getElem?_eq_getElem (by omega), List.getElem?_eq_getElem (by omega)] at this
    simpa using this
  obtain ⟨out, hout, hin⟩ := List.mem_flatMap.mp hpb
  cases out with
  | update a r =>
    have hem := C43_updates hst hs hout (List.mem_append_left _ hin)
    obtain ⟨p, hp, he⟩ := h.emitted h.nodup hC hn (fun m hm => hm) h3 hem
    have : p = chain[i] := payloads_inj h.nodup _ _ hp (List.getElem_mem _) (he.hash.symm.trans hheq)
    rw [this] at he
    exact he
  | reorg n x => simp [addedBy] at hin
  | evictOlder n => simp [addedBy] at hin

/-- **C145**, one chain: no goroutine is ever about to fault, and every execution can be completed. -/
theorem C145_chain_no_fault (h : PayloadChain C cfg n chain received) (hC : C.Lawful) {s0 s : Sys}
    (hst : Sys.start cfg (received.map Call.msg) = .ok s0) (hs : Sys.Steps C env o s0 s) :
    ¬ Faulty C env o s ∧ ∃ s', Sys.Steps C env o s s' ∧ s'.Drained := by
  have key : ∀ s, Sys.Steps C env o s0 s → ¬ Faulty C env o s := by
    intro s hs
    refine h.calm h.nodup hC hst hs ?_
    intro omp0 ds ho hds
    obtain ⟨s', _, _, g1, _⟩ := h.ordered (o := o) ho hds
    exact ⟨s', g1⟩
  exact ⟨key s hs, completes hst hs key⟩

/-! ## Forks -/

variable {root : Payload} {tree : List Payload}

theorem Spec.PayloadTree.nodup (h : PayloadTree C cfg root tree received) : (tree.map (·.hash)).Nodup := (List.nodup_cons.mp h.hashes).2

theorem Spec.PayloadTree.heads (h : PayloadTree C cfg root tree received) : HeaderTree cfg (headBlock root) (tree.map headBlock) where
  mem := List.mem_map.mpr ⟨root, h.mem, rfl⟩
  hash := h.hash
  weight := by show (root.weight : Int) = cfg.lastWeight; rw [h.weight]
  heavy := by show (0 : Int) < (root.weight : Int); have := h.heavy; omega
  low := by rw [headBlock_hashes]; exact h.low
  parents := by
    intro s hs
    obtain ⟨p, hp, rfl⟩ := List.mem_map.mp hs
    rcases h.parents p hp with rfl | ⟨q, hq, e1, e2, e3⟩
    · exact .inl rfl
    · exact .inr ⟨headBlock q, List.mem_map.mpr ⟨q, hq, rfl⟩, e1, e2, by show (q.weight : Int) < (p.weight : Int); omega⟩
  hashes := by rw [headBlock_hashes]; exact h.hashes
  whitelist := by
    intro s hs
    obtain ⟨p, hp, rfl⟩ := List.mem_map.mp hs
    exact h.whitelist p hp

theorem Spec.PayloadTree.world (h : PayloadTree C cfg root tree received) {pb : PB} (hpb : ∃ p ∈ tree, p.Assembled cfg.tracked pb) :
    ((treeWorld (headBlock root) (tree.map headBlock)).Has pb ∧ pb.hash ≠ Hash.zero) ∧
      (treeWorld (headBlock root) (tree.map headBlock)).Heavier pb ∧ (treeWorld (headBlock root) (tree.map headBlock)).Numbered pb ∧
      ¬ Forbidden cfg.whitelist pb ∧ pb.hash ∈ (tree.map headBlock).map (·.args.hash) := by
  obtain ⟨p, hp, he⟩ := hpb
  refine h.heads.world ?_ ⟨headBlock p, List.mem_map.mpr ⟨p, hp, rfl⟩, headBlock_of he⟩
  intro s hs
  obtain ⟨q, hq, rfl⟩ := List.mem_map.mp hs
  show (0 : Int) ≤ (q.weight : Int)
  omega

/-- If no eviction request is acted on before the last message, payloads are emitted after their parents. -/
theorem Spec.PayloadTree.order (h : PayloadTree C cfg root tree received) (hC : C.Lawful) (hf : BatchesFollow C root tree received) {mp0 : MP}
    (hn : newMP cfg = .ok mp0) {ms rest : List RMsg} (hms : received = ms ++ rest) {mp : MP} (hr : mp0.run C env ms = .ok mp)
    (hq : ∀ l1 m l2 mp1, ms = l1 ++ m :: l2 → mp0.run C env l1 = .ok mp1 → ∀ t, t < mp1.tick → env.evict t = []) :
    ParentsFirst cfg.lastHash mp.emitted := by
  induction ms using snoc_induction generalizing rest mp with
  | nil =>
    cases hr
    have h0 : mp0.emitted = [] := by
      unfold newMP at hn
      split at hn
      · cases hn
      · cases hn; rfl
    intro l1 b l2 e
    rw [h0] at e
    simp at e
  | snoc l m ih =>
    obtain ⟨mp1, hr1, hr2⟩ := run_append hr
    obtain ⟨es, hes⟩ := emitted_grows hn hr1 hr
    have ih := ih (rest := m :: rest) (by rw [hms]; simp) hr1 (fun l1 x l2 mp1 e => hq l1 x (l2 ++ [m]) mp1 (by rw [e]; simp))
    have hparent : ∀ b ∈ es, b.hash = cfg.lastHash ∨ ∃ a ∈ mp1.emitted, a.hash = b.parentHash := by
      intro b hb
      have hbm : b ∈ mp.emitted := by rw [hes]; simp [hb]
      obtain ⟨hd, _, hof, _⟩ := ((prov_parts C env (· ∈ l ++ [m]) (run_ok_len hr) cfg.tracked cfg.frp).emitted hn
        (by intro s o hs; simp at hs) (fun m hm => hm) hr b hbm).1.head
      have hin : ∀ x ∈ l ++ [m], x ∈ received := fun x hx => by rw [hms]; simp at hx ⊢; rcases hx with hx | hx <;> simp [hx]
      obtain ⟨p, hp, he⟩ := h.emitted h.nodup hC hn hin hr hbm
      obtain ⟨a, c, e⟩ := List.append_of_mem hof.mem
      have hkey : hd.key = wireKey C (.batch p.hash) := by
        obtain ⟨q, hq, i, hi, hk, _⟩ := h.only hd (hin hd hof.mem)
        have hbl : blockOf hd.key = p.hash := hof.block.trans he.hash
        have hty := hof.type
        rw [hk] at hty
        rw [hk] at hbl ⊢
        rw [wireKey_eq] at hbl
        have hbl := (keyOf_hash C i).symm.trans hbl
        cases i with
        | batch x => rw [show x = p.hash from hbl]
        | reorg x => exact absurd hi id
        | reorgDone x => exact absurd hi id
        | _ => simp [wireKey, BatchType] at hty
      rcases hf a hd (c ++ rest) (by rw [hms, e]; simp) p hp hkey with hroot | ⟨q, hq', e1, hall⟩
      · left; rw [he.hash, hroot, h.hash]
      · right
        have hsub : ∀ x ∈ a, x ∈ l := by
          intro x hx
          rcases List.append_eq_append_iff.mp e with ⟨u, hu1, hu2⟩ | ⟨u, hu1, hu2⟩
          · rcases u with _ | ⟨y, u⟩
            · simp at hu1; rw [← hu1]; exact hx
            · simp at hu2
          · rw [hu1]; simp [hx]
        have hk : Keeps (env.upTo mp1.tick) q.number := by
          intro t n hn'
          unfold Env.upTo at hn'
          simp only [] at hn'
          split at hn'
          · rename_i ht
            rw [hq l m [] mp1 rfl hr1 t ht] at hn'
            simp at hn'
          · simp at hn'
        obtain ⟨pb, hpb, hex⟩ := C140_delivered hC (h.consistent q hq') (h.plain q hq') hn hk
          (h.heard h.nodup (fun x hx => hin x (by simp [hx])) hq')
          (fun i hi => by obtain ⟨y, hy, hxy⟩ := hall i hi; exact ⟨y, hsub y hy, hxy⟩) (run_upTo hr1 (Nat.le_refl _))
        exact ⟨pb, hpb, by rw [hex.hash, e1, he.parent]⟩
    intro l1 b l2 e
    rw [hes] at e
    rcases List.append_eq_append_iff.mp e with ⟨u, hu1, hu2⟩ | ⟨u, hu1, hu2⟩
    · rcases hparent b (by rw [hu2]; simp) with e | ⟨a, ha, e⟩
      · exact .inl e
      · exact .inr ⟨a, by rw [hu1]; simp [ha], e⟩
    · rcases u with _ | ⟨y, u⟩
      · simp at hu2
        rcases hparent b (by rw [← hu2]; simp) with e | ⟨a, ha, e⟩
        · exact .inl e
        · exact .inr ⟨a, by rw [hu1] at ha; simpa using ha, e⟩
      · simp at hu2
        obtain ⟨rfl, _⟩ := hu2
        exact ih l1 b u hu1

theorem Spec.PayloadTree.consequences (h : PayloadTree C cfg root tree received) (hC : C.Lawful)
    (hwin : (tree.length : Int) ≤ 2 * cfg.reorgThreshold) (hf : BatchesFollow C root tree received) {s0 s : Sys}
    (hst : Sys.start cfg (received.map Call.msg) = .ok s0) (hs : Sys.Steps C env o s0 s) (key : Undisturbed C env cfg s.calls) :
    (∀ n, OOut.evictOlder n ∉ s.omp.log) ∧ (blocksOf s.ops ≠ [] → FirstHeaviest (blocksOf s.ops) s.omp.lastHash) := by
  obtain ⟨mp0, omp0, ms, ds, hn, ho, ⟨rest, h1, h2⟩, h3, h4, h5, h6⟩ := h.inside hst hs
  have hcalls : s.calls = ms.map Call.msg := by
    have := ((Piped.start hst).steps hs).consists.calls
    rw [h1, h2, List.map_append] at this
    exact (List.append_cancel_right this).symm
  have hpf := h.order hC hf hn h1 h3 (key mp0 ms hn hcalls)
  have hds : blocksOf s.ops = ds := by rw [h4, blocksOf_map]
  rw [hds]
  have hex : ∀ pb ∈ ds, ∃ p ∈ tree, p.Assembled cfg.tracked pb := fun pb hpb =>
    h.emitted h.nodup hC hn (fun m hm => by rw [h1]; simp [hm]) h3 (by rw [h6]; simp [hpb])
  obtain ⟨s', g1, g2⟩ := parents_first_run (o := o) (U := (tree.map headBlock).map (·.args.hash)) h.heads.rootHash h.heads.rootWeight
    (fun b hb => (h.world (hex b hb)).1) (fun b hb => (h.world (hex b hb)).2.1) (fun b hb => (h.world (hex b hb)).2.2.1) (by simpa using hwin)
    h.heads.inU (fun b hb => (h.world (hex b hb)).2.2.2.2) (fun b hb => (h.world (hex b hb)).2.2.2.1)
    (parentsFirst_prefix (by rw [h6] at hpf; exact hpf)) ho
  rw [h5] at g1
  cases g1
  exact ⟨g2.calm, fun hne => g2.head.resolve_left (fun e => hne e.1)⟩

theorem Spec.PayloadTree.running (h : PayloadTree C cfg root tree received) (hC : C.Lawful)
    (hwin : (tree.length : Int) ≤ 2 * cfg.reorgThreshold) (hf : BatchesFollow C root tree received) {s0 s : Sys}
    (hst : Sys.start cfg (received.map Call.msg) = .ok s0) (hs : CausalSteps C env o s0 s) :
    (∀ n, OOut.evictOlder n ∉ s.omp.log) ∧ (blocksOf s.ops ≠ [] → FirstHeaviest (blocksOf s.ops) s.omp.lastHash) := by
  refine h.consequences hC hwin hf hst hs.steps ?_
  induction hs with
  | refl =>
    intro mp0 ms _ hc l1 m l2 mp1 e
    have : s0.calls = [] := by
      unfold Sys.start at hst
      obtain ⟨mp, _, hst⟩ := bind_ok.mp hst
      obtain ⟨omp, _, hst⟩ := bind_ok.mp hst
      cases hst; rfl
    rw [this] at hc
    have := (List.map_eq_nil_iff.mp hc.symm)
    rw [this] at e
    simp at e
  | step hs hstep hheard ih =>
    rename_i s1 s2
    cases hstep with
    | call ht hout hc =>
      rename_i c cs mp
      have hc1 := (h.consequences hC hwin hf hst hs.steps ih).1
      have hh := hheard (by simp)
      obtain ⟨mp0', omp0, ms1, ds, hn', ho, ⟨rest, h1, h2⟩, h3, h4, h5, h6⟩ := h.inside hst hs.steps
      have hcalls : s1.calls = ms1.map Call.msg := by
        have := ((Piped.start hst).steps hs.steps).consists.calls
        rw [h1, h2, List.map_append] at this
        exact (List.append_cancel_right this).symm
      intro mp0 ms hn hcs l1 m l2 mp1 e hr t htick
      rw [hn'] at hn
      cases hn
      have hcs : s1.calls ++ [c] = ms.map Call.msg := hcs
      rw [hcalls, e] at hcs
      rw [List.map_append, List.map_cons] at hcs
      rcases l2 with _ | ⟨y, l2⟩
      · rw [List.map_nil] at hcs
        have := call_msg_inj (List.append_inj_left' hcs rfl)
        subst this
        rw [h3] at hr
        cases hr
        cases hev : env.evict t with
        | nil => rfl
        | cons n rest => exact (hc1 n (hh t htick n (by rw [hev]; simp))).elim
      · obtain ⟨l3, z, e3⟩ : ∃ l3 z, y :: l2 = l3 ++ [z] := ⟨(y :: l2).dropLast, (y :: l2).getLast (List.cons_ne_nil _ _), (List.dropLast_concat_getLast (List.cons_ne_nil _ _)).symm⟩
        rw [e3, List.map_append] at hcs
        have hcs : ms1.map Call.msg ++ [c] = (l1 ++ m :: l3).map Call.msg ++ [Call.msg z] := by rw [hcs]; simp
        have := call_msg_inj (List.append_inj_left' hcs rfl)
        exact ih mp0' ms1 hn' hcalls l1 m l3 mp1 this hr t htick
    | sendBlock h1 h2 => exact ih
    | sendReorg h1 h2 => exact ih
    | sendWaiter h1 => exact ih
    | block h1 h2 => exact ih
    | reorg h1 h2 => exact ih

/-- **C145**, forks, while running: at every moment the head of the subscribers is the first-handled payload of maximal weight. -/
theorem C145_head (h : PayloadTree C cfg root tree received) (hC : C.Lawful) (hwin : (tree.length : Int) ≤ 2 * cfg.reorgThreshold)
    (hf : BatchesFollow C root tree received) {s0 s : Sys} (hst : Sys.start cfg (received.map Call.msg) = .ok s0)
    (hs : CausalSteps C env o s0 s) (hne : blocksOf s.ops ≠ []) : FirstHeaviest (blocksOf s.ops) s.omp.lastHash :=
  (h.running hC hwin hf hst hs).2 hne

/-- **C145**, forks, at the end: the subscribers, having applied all updates, hold a chain of payloads, each as it was sent, that ends in a payload of
maximal weight of the whole tree. -/
theorem C145_end (h : PayloadTree C cfg root tree received) (hC : C.Lawful) (hwin : (tree.length : Int) ≤ 2 * cfg.reorgThreshold)
    (hf : BatchesFollow C root tree received) (ha : ∀ p ∈ tree, p.Arrived C received) {s0 s : Sys}
    (hst : Sys.start cfg (received.map Call.msg) = .ok s0) (hs : CausalSteps C env o s0 s) (hd : s.Drained) (hg : Heard env s) :
    ∃ base chain top, Replays cfg.lastHash s.omp.log base chain ∧ Linked base chain ∧ endOf base chain = top.hash ∧
      top ∈ tree ∧ (∀ p ∈ tree, p.weight ≤ top.weight) ∧ ∀ b ∈ chain, ∃ p ∈ tree, p.Assembled cfg.tracked b := by
  have hin := h.running hC hwin hf hst hs
  obtain ⟨mp0, omp0, ms, ds, hn, ho, ⟨rest, h1, h2⟩, h3, h4, h5, h6⟩ := h.inside hst hs.steps
  rw [hd.1] at h2
  have hrest : rest = [] := List.map_eq_nil_iff.mp h2.symm
  subst hrest
  rw [List.append_nil] at h1
  subst h1
  rw [hd.2.1, hd.2.2.1] at h6
  have h6 : s.mp.emitted = ds := by simpa [blocksSent] using h6
  have hds : blocksOf s.ops = ds := by rw [h4, blocksOf_map]
  have hex : ∀ pb ∈ ds, ∃ p ∈ tree, p.Assembled cfg.tracked pb := fun pb hpb =>
    h.emitted h.nodup hC hn (fun m hm => hm) h3 (by rw [h6]; exact hpb)
  have hk : ∀ n, Keeps (env.upTo s.mp.tick) n := by
    intro n t x hx
    unfold Env.upTo at hx
    simp only [] at hx
    split at hx
    · rename_i ht
      exact (hin.1 x (hg t ht x hx)).elim
    · simp at hx
  have hall : ∀ p ∈ tree, ∃ pb ∈ ds, p.Assembled cfg.tracked pb := by
    intro p hp
    obtain ⟨pb, hpb, he⟩ := C140_delivered hC (h.consistent p hp) (h.plain p hp) hn (hk _)
      (h.heard h.nodup (fun m hm => hm) hp) (ha p hp) (run_upTo h3 (Nat.le_refl _))
    exact ⟨pb, by rw [← h6]; exact hpb, he⟩
  have hne : blocksOf s.ops ≠ [] := by
    obtain ⟨pb, hpb, _⟩ := hall root h.mem
    rw [hds]
    intro e
    rw [e] at hpb
    simp at hpb
  obtain ⟨l1, b, l2, e, e1, e2, _⟩ := hin.2 hne
  rw [hds] at e e2
  obtain ⟨top, htop, hx⟩ := hex b (by rw [e]; simp)
  obtain ⟨base, chain, g1, g2, g3⟩ := C28_continuous (o := o) (W := treeWorld (headBlock root) (tree.map headBlock)) (ops := ds.map OOp.block)
    (s0 := omp0) h.heads.rootHash (by rw [blocksOf_map]; exact fun b hb => (h.world (hex b hb)).1) ho h5
  refine ⟨base, chain, top, g1, g2, by rw [g3, ← e1, hx.hash], htop, ?_, ?_⟩
  · intro p hp
    obtain ⟨pb, hpb, he⟩ := hall p hp
    have := e2 pb hpb
    have h8 := he.weight
    have h9 := hx.weight
    omega
  · intro x hx
    obtain ⟨a, r, k1, k2⟩ := replays_sent g1 x hx
    exact hex x (by rw [← h6]; exact C43_updates hst hs.steps k1 (List.mem_append_left _ k2))

/-- **C145**, forks: whatever the order of the messages, no goroutine is ever about to fault, and every execution can be completed. -/
theorem C145_no_fault (h : PayloadTree C cfg root tree received) (hC : C.Lawful) (hwin : (tree.length : Int) ≤ 2 * cfg.reorgThreshold)
    {s0 s : Sys} (hst : Sys.start cfg (received.map Call.msg) = .ok s0) (hs : Sys.Steps C env o s0 s) :
    ¬ Faulty C env o s ∧ ∃ s', Sys.Steps C env o s s' ∧ s'.Drained := by
  have key : ∀ s, Sys.Steps C env o s0 s → ¬ Faulty C env o s := by
    intro s hs
    refine h.calm h.nodup hC hst hs ?_
    intro omp0 ds ho hds
    exact C35_partial (o := o) h.heads.rootHash h.heads.rootWeight (fun b hb => (h.world (hds b hb)).1) (fun b hb => (h.world (hds b hb)).2.1)
      (fun b hb => (h.world (hds b hb)).2.2.1) ⟨(tree.map headBlock).map (·.args.hash), by simpa using hwin, h.heads.inU,
        fun b hb => (h.world (hds b hb)).2.2.2.2⟩ ho
  exact ⟨key s hs, completes hst hs key⟩

end

/-! ## Examples -/

/-- The worked example of `SPEC_example.md` with another header. -/
def exPayload (h parent : Hash) (n : Int) (w : Nat) : Payload := { specPayload with hash := h, parent := parent, number := n, weight := w }

theorem exPayload_consistent (h parent : Hash) (n : Int) (w : Nat) : (exPayload h parent n w).Consistent :=
  ⟨specPayload_consistent.counted, specPayload_consistent.single, specPayload_consistent.value, specPayload_consistent.delete,
    specPayload_consistent.item, specPayload_consistent.agree, specPayload_consistent.itemDel⟩

theorem exPayload_plain (h parent : Hash) (n : Int) (w : Nat) : (exPayload h parent n w).Plain :=
  ⟨specPayload_plain.upd, specPayload_plain.value, specPayload_plain.id, specPayload_plain.dirs, specPayload_plain.size⟩

theorem exPayload_fits {h parent : Hash} {n : Int} {w : Nat} (hb : (exPayload h parent n w).batch.InRange) : (exPayload h parent n w).Fits :=
  ⟨hb, fun _ _ _ _ => ⟨by simp [exPayload, specPayload, InInt32], fun r hr => by
    have : ∀ r ∈ specPayload.items specId, r.InRange := by decide +kernel
    exact this r hr⟩⟩

def exPay1 : Payload := exPayload (exHash 1) (exHash 2) 5 300
def exPay2 : Payload := exPayload (exHash 3) (exHash 1) 6 310
def exPay3 : Payload := exPayload (exHash 5) (exHash 1) 6 320

theorem exPays_message {p : Payload} (hp : p = exPay1 ∨ p = exPay2 ∨ p = exPay3) {m : RMsg} (hm : m ∈ p.sends Avro.codec) :
    p.IsMessage Avro.codec m.key m.value := by
  rcases hp with rfl | rfl | rfl
  all_goals exact Payload.sends_message Avro.codec_lawful (exPayload_fits (by decide +kernel)) hm

theorem exPays_sent {ps : List Payload} {received : List RMsg} (hp : ∀ p ∈ ps, p = exPay1 ∨ p = exPay2 ∨ p = exPay3)
    (hm : ∀ m ∈ received, ∃ p ∈ ps, m ∈ p.sends Avro.codec) : PayloadsSent Avro.codec ps received where
  consistent p h := by rcases hp p h with rfl | rfl | rfl <;> exact exPayload_consistent ..
  plain p h := by rcases hp p h with rfl | rfl | rfl <;> exact exPayload_plain ..
  only m h := by
    obtain ⟨p, h1, h2⟩ := hm m h
    exact ⟨p, h1, exPays_message (hp p h1) h2⟩

/-- C145, one chain: the messages of the second payload are received first, and twice. -/
example : ∃ received s0 s, PayloadChain Avro.codec exSysCfg 4 [exPay1, exPay2] received ∧ (∀ p ∈ [exPay1, exPay2], p.Arrived Avro.codec received) ∧
    Sys.start exSysCfg (received.map Call.msg) = .ok s0 ∧ Sys.Steps Avro.codec exEnv .plain s0 s ∧ s.Drained ∧ Genuine exEnv s ∧
    (s.omp.log.flatMap addedBy).length = 2 := by
  have hA : ∀ p ∈ [exPay1, exPay2], p.Arrived Avro.codec (exPay2.sends Avro.codec ++ (exPay1.sends Avro.codec ++ (exPay2.sends Avro.codec).reverse)) := by
    intro p hp i hi
    obtain ⟨m, hm, e⟩ := Payload.sends_arrived Avro.codec p i hi
    refine ⟨m, ?_, e⟩
    simp only [List.mem_cons, List.not_mem_nil, or_false] at hp
    rcases hp with rfl | rfl <;> simp [hm]
  have hT : PayloadChain Avro.codec exSysCfg 4 [exPay1, exPay2]
      (exPay2.sends Avro.codec ++ (exPay1.sends Avro.codec ++ (exPay2.sends Avro.codec).reverse)) := by
    refine ⟨exPays_sent ?_ ?_, ⟨rfl, rfl, by decide, rfl, rfl, by decide, trivial⟩, ?_, ?_⟩
    · intro p hp
      simp only [List.mem_cons, List.not_mem_nil, or_false] at hp
      rcases hp with rfl | rfl
      · exact .inl rfl
      · exact .inr (.inl rfl)
    · intro m hm
      simp only [List.mem_append, List.mem_reverse] at hm
      rcases hm with hm | hm | hm
      · exact ⟨exPay2, by simp, hm⟩
      · exact ⟨exPay1, by simp, hm⟩
      · exact ⟨exPay2, by simp, hm⟩
    · show [Hash.zero, exHash 2, exHash 1, exHash 3].Nodup
      decide
    · intro p _ x hx
      simp [exSysCfg, exCfg] at hx
  obtain ⟨s0, hst⟩ : ∃ s0, Sys.start exSysCfg ((exPay2.sends Avro.codec ++ (exPay1.sends Avro.codec ++ (exPay2.sends Avro.codec).reverse)).map Call.msg) = .ok s0 :=
    ⟨_, rfl⟩
  obtain ⟨s, hs, hd⟩ := (C145_chain_no_fault (env := exEnv) (o := .plain) hT Avro.codec_lawful hst .refl).2
  have hg : Genuine exEnv s := by intro t n hn; simp [exEnv] at hn
  exact ⟨_, s0, s, hT, hA, hst, hs, hd, hg, (C145_chain hT Avro.codec_lawful hA hst hs hd hg).2.1⟩

/-- C145, forks: the last processed payload again, a payload on it and a heavier fork; the subscribers end at the fork. -/
example : ∃ received s0 s base chain, PayloadTree Avro.codec exForkCfg exPay1 [exPay1, exPay2, exPay3] received ∧
    BatchesFollow Avro.codec exPay1 [exPay1, exPay2, exPay3] received ∧ (∀ p ∈ [exPay1, exPay2, exPay3], p.Arrived Avro.codec received) ∧
    Sys.start exForkCfg (received.map Call.msg) = .ok s0 ∧ CausalSteps Avro.codec exEnv .plain s0 s ∧ s.Drained ∧ Heard exEnv s ∧
    Replays exForkCfg.lastHash s.omp.log base chain ∧ endOf base chain = exPay3.hash := by
  have hmem : ∀ p, p ∈ [exPay1, exPay2, exPay3] ↔ p = exPay1 ∨ p = exPay2 ∨ p = exPay3 := by intro p; simp
  have hA : ∀ p ∈ [exPay1, exPay2, exPay3], p.Arrived Avro.codec
      (exPay1.sends Avro.codec ++ (exPay2.sends Avro.codec ++ (exPay3.sends Avro.codec).reverse)) := by
    intro p hp i hi
    obtain ⟨m, hm, e⟩ := Payload.sends_arrived Avro.codec p i hi
    refine ⟨m, ?_, e⟩
    rcases (hmem p).mp hp with rfl | rfl | rfl <;> simp [hm]
  have hT : PayloadTree Avro.codec exForkCfg exPay1 [exPay1, exPay2, exPay3]
      (exPay1.sends Avro.codec ++ (exPay2.sends Avro.codec ++ (exPay3.sends Avro.codec).reverse)) := by
    refine ⟨exPays_sent (fun p hp => (hmem p).mp hp) ?_, by simp, rfl, rfl, by decide, ?_, ?_, ?_, ?_⟩
    · intro m hm
      simp only [List.mem_append, List.mem_reverse] at hm
      rcases hm with hm | hm | hm
      · exact ⟨exPay1, by simp, hm⟩
      · exact ⟨exPay2, by simp, hm⟩
      · exact ⟨exPay3, by simp, hm⟩
    · show exHash 2 ∉ [exHash 1, exHash 3, exHash 5]
      decide
    · intro p hp
      rcases (hmem p).mp hp with rfl | rfl | rfl
      · exact .inl rfl
      · exact .inr ⟨exPay1, by simp, rfl, rfl, by decide⟩
      · exact .inr ⟨exPay1, by simp, rfl, rfl, by decide⟩
    · show [Hash.zero, exHash 1, exHash 3, exHash 5].Nodup
      decide
    · intro p _ x hx
      simp [exForkCfg, exCfg] at hx
  have hF : BatchesFollow Avro.codec exPay1 [exPay1, exPay2, exPay3]
      (exPay1.sends Avro.codec ++ (exPay2.sends Avro.codec ++ (exPay3.sends Avro.codec).reverse)) := by
    intro l1 m l2 e p hp hk
    by_cases hr : p.hash = exPay1.hash
    · exact .inl (payloads_inj hT.nodup _ _ hp (by simp) hr)
    refine .inr ⟨exPay1, by simp, ?_, ?_⟩
    · rcases (hmem p).mp hp with rfl | rfl | rfl
      · exact (hr rfl).elim
      · rfl
      · rfl
    · have hno : m ∉ exPay1.sends Avro.codec := by
        intro hm
        have h1 := message_hash (exPays_message (.inl rfl) hm)
        rw [hk, wireKey_eq] at h1
        have h1 := (keyOf_hash Avro.codec _).symm.trans h1
        exact hr h1
      have hpre : ∀ x ∈ exPay1.sends Avro.codec, x ∈ l1 := by
        rcases List.append_eq_append_iff.mp e with ⟨u, hu1, hu2⟩ | ⟨u, hu1, hu2⟩
        · intro x hx; rw [hu1]; simp [hx]
        · rcases u with _ | ⟨y, u⟩
          · rw [hu1]; simp
          · simp at hu2
            exact (hno (by rw [hu1, ← hu2.1]; simp)).elim
      intro i hi
      obtain ⟨y, hy, hxy⟩ := Payload.sends_arrived Avro.codec exPay1 i hi
      exact ⟨y, hpre y hy, hxy⟩
  have hw : (([exPay1, exPay2, exPay3] : List Payload).length : Int) ≤ 2 * exForkCfg.reorgThreshold := by show (3 : Int) ≤ 2 * 2; decide
  obtain ⟨s0, hst⟩ : ∃ s0, Sys.start exForkCfg ((exPay1.sends Avro.codec ++ (exPay2.sends Avro.codec ++ (exPay3.sends Avro.codec).reverse)).map Call.msg) = .ok s0 :=
    ⟨_, rfl⟩
  obtain ⟨s, hs, hd⟩ := (C145_no_fault (env := exEnv) (o := .plain) hT Avro.codec_lawful hw hst .refl).2
  have hcs := causal_of_none (fun _ => rfl) hs
  have hh : Heard exEnv s := fun t _ n hn => by simp [exEnv] at hn
  obtain ⟨base, chain, top, g1, g2, g3, g4, g5, g6⟩ := C145_end hT Avro.codec_lawful hw hF hA hst hcs hd hh
  refine ⟨_, s0, s, base, chain, hT, hF, hA, hst, hcs, hd, hh, g1, ?_⟩
  rw [g3]
  have h320 := g5 exPay3 (by simp)
  rcases (hmem top).mp g4 with rfl | rfl | rfl
  · exact absurd h320 (by decide)
  · exact absurd h320 (by decide)
  · rfl

end Verif
