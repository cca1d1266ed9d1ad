import Verif.Props.WebsocketForks
import Verif.Props.Endless
/-!
# C121: the whole websocket consumer, with forks, without end

C89 is about trees that fit the window, and C89_any_length about what has been emitted. Here the tree is of any size and the hypotheses are
about the items received.
-/
namespace Verif
open Spec

variable {C : Codec} {env : Env} {o : MapOrder}

/-! ## Specification -/

/-- All parts of the block `b` are among `seen`, the beginning of the items `ms` of a connection. -/
def Spec.CameWhole (ms seen : List WMsg) (b : WsArgs) : Prop := ∃ tb ts, WsForm b.1 b.2 tb ts ∧ OneBatch tb ts ms ∧ AllParts tb ts seen

/-- The blocks completed by the beginning of the items `ms` of a connection, in the order in which they become complete. -/
inductive Spec.ComingWhole (tree : List WsArgs) (ms : List WMsg) : List WMsg → List WsArgs → Prop
  | nil : ComingWhole tree ms [] []
  | quiet {seen : List WMsg} {order : List WsArgs} {m : WMsg} : ComingWhole tree ms seen order →
      (∀ b ∈ tree, CameWhole ms (seen ++ [m]) b → CameWhole ms seen b) → ComingWhole tree ms (seen ++ [m]) order
  | done {seen : List WMsg} {order : List WsArgs} {m : WMsg} {b : WsArgs} : ComingWhole tree ms seen order → b ∈ tree →
      CameWhole ms (seen ++ [m]) b → ¬ CameWhole ms seen b → ComingWhole tree ms (seen ++ [m]) (order ++ [b])

/-- The same for one connection after the other. A block may be completed on several connections. -/
inductive Spec.ComingWholeAll (tree : List WsArgs) : List (List WMsg) → List WsArgs → Prop
  | nil : ComingWholeAll tree [] []
  | conn {hist : List (List WMsg)} {ms : List WMsg} {o1 o2 : List WsArgs} : ComingWholeAll tree hist o1 → ComingWhole tree ms ms o2 →
      ComingWholeAll tree (hist ++ [ms]) (o1 ++ o2)

/-! ## The order in which blocks are handed on -/

theorem wstep_out_one {c d : WConn} {mo : MapOrder} {m : WMsg} (h : c.step mo m = .ok d) : ∃ l, d.out = c.out ++ l ∧ l.length ≤ 1 := by
  cases m with
  | hollow => simp [WConn.step] at h
  | ready => simp only [WConn.step, Except.ok.injEq] at h; subst h; exact ⟨[], by simp, by simp⟩
  | unknown => simp only [WConn.step, Except.ok.injEq] at h; subst h; exact ⟨[], by simp, by simp⟩
  | reorg n x => simp only [WConn.step, Except.ok.injEq] at h; subst h; exact ⟨_, rfl, by simp⟩
  | batch b =>
    simp only [WConn.step, Except.ok.injEq] at h; subst h
    rw [WConn.onBatch_eq c mo b _ rfl]
    simp only []
    split
    · exact ⟨_, rfl, by simp⟩
    · exact ⟨[], by simp, by simp⟩
  | sub s =>
    simp only [WConn.step, Except.ok.injEq] at h; subst h
    unfold WConn.onSub
    cases c.batches.get? s.hash with
    | none => exact ⟨[], by simp, by simp⟩
    | some pb =>
      simp only []
      cases c.pending.get? s.hash with
      | none => exact ⟨_, rfl, by simp⟩
      | some q =>
        simp only []
        split
        · exact ⟨_, rfl, by simp⟩
        · exact ⟨[], by simp, by simp⟩

section
variable {cfg : Config} {root : WsArgs} {tree : List WsArgs} {conns : List (List WMsg)} {num : Int} {first : List WMsg} {later : List (List WMsg)}

theorem allParts_mono {tb : TBatch} {ts : Hash → TSub} {seen more : List WMsg} (h : AllParts tb ts seen) : AllParts tb ts (seen ++ more) :=
  fun m hm => List.mem_append_left _ (h m hm)

/-- The invariant of `wsinv_steps` with the order of the blocks handed on. -/
structure WSOrder (tree : List WsArgs) (conns : List (List WMsg)) (w : WSys) : Prop where
  pos : ∃ hist seen l0 l, conns = hist ++ (seen ++ w.todo) :: w.later ∧ w.conn.out = l0 ++ l ∧
    (∀ b ∈ tree, ∀ tb ts, WsForm b.1 b.2 tb ts → OneBatch tb ts (seen ++ w.todo) → WsInv tb ts seen w.conn l) ∧
    (∀ o1, ComingWholeAll tree hist o1 → hashes (handed l0) = o1.map (·.1.hash)) ∧
    ∀ o2, ComingWhole tree (seen ++ w.todo) seen o2 → hashes (handed l) = o2.map (·.1.hash)

theorem completes_nil {ms : List WMsg} {order : List WsArgs} {l : List WMsg} (h : ComingWhole tree ms l order) (e : l = []) : order = [] := by
  cases h with
  | nil => rfl
  | quiet _ _ => simp at e
  | done _ _ _ _ => simp at e

theorem completes_snoc {ms seen : List WMsg} {m : WMsg} {order : List WsArgs} (h : ComingWhole tree ms (seen ++ [m]) order) :
    (ComingWhole tree ms seen order ∧ ∀ b ∈ tree, CameWhole ms (seen ++ [m]) b → CameWhole ms seen b) ∨
    ∃ order' b, order = order' ++ [b] ∧ ComingWhole tree ms seen order' ∧ b ∈ tree ∧ CameWhole ms (seen ++ [m]) b ∧ ¬ CameWhole ms seen b := by
  generalize e : seen ++ [m] = l at h
  cases h with
  | nil => simp at e
  | quiet h1 h2 =>
    obtain ⟨e1, e2⟩ := List.append_inj' e rfl
    cases e1; cases e2
    exact .inl ⟨h1, h2⟩
  | done h1 h2 h3 h4 =>
    obtain ⟨e1, e2⟩ := List.append_inj' e rfl
    cases e1; cases e2
    exact .inr ⟨_, _, rfl, h1, h2, h3, h4⟩

theorem completesAll_snoc {hist : List (List WMsg)} {ms : List WMsg} {order : List WsArgs} (h : ComingWholeAll tree (hist ++ [ms]) order) :
    ∃ o1 o2, order = o1 ++ o2 ∧ ComingWholeAll tree hist o1 ∧ ComingWhole tree ms ms o2 := by
  generalize e : hist ++ [ms] = l at h
  cases h with
  | nil => simp at e
  | conn h1 h2 =>
    obtain ⟨e1, e2⟩ := List.append_inj' e rfl
    cases e1; cases e2
    exact ⟨_, _, rfl, h1, h2⟩

theorem wsorder_steps (h : WsCarried tree conns) (hc : conns = first :: later) {w0 w : WSys}
    (h0 : WSys.start cfg num first later = .ok w0) (hs : WSys.Steps C env o w0 w) : WSOrder tree conns w := by
  induction hs with
  | refl =>
    unfold WSys.start at h0
    obtain ⟨s, h1, h0⟩ := bind_ok.mp h0
    cases h0
    refine ⟨⟨[], [], [], [], by simp [hc], rfl, fun b _ tb ts _ _ => WsInv.init tb ts (WConn.new num cfg.lastHash), ?_, ?_⟩⟩
    · intro o1 h1
      generalize e : ([] : List (List WMsg)) = x at h1
      cases h1 with
      | nil => rfl
      | conn => simp at e
    · intro o2 h2
      rw [completes_nil h2 rfl]; rfl
  | step hss hst ih =>
    rename_i w1 w2
    have hv1 := wsinv_steps h hc h0 hss
    have hv2 := wsinv_steps h hc h0 (.step hss hst)
    obtain ⟨hist, seen, l0, l, e1, e2, hinv, ho1, ho2⟩ := ih.pos
    have hmem : seen ++ w1.todo ∈ conns := by rw [e1]; simp
    cases hst with
    | inner hi => exact ⟨hist, seen, l0, l, e1, e2, hinv, ho1, ho2⟩
    | reorg ht hout hm =>
      rename_i k x ms mo d omp _ _
      have := (h.only _ hmem (.reorg k x) (by simp [hm])).1
      exact absurd rfl (this k x)
    | reconnect ht hout hm hl =>
      rename_i ms later'
      refine ⟨⟨hist ++ [seen], [], w1.conn.out, [], ?_, by simp [WConn.reconnect], fun b _ tb ts _ _ => WsInv.init tb ts w1.conn, ?_, ?_⟩⟩
      · rw [e1, hm, hl]; simp
      · intro o1 h1
        obtain ⟨p, q, rfl, h2, h3⟩ := completesAll_snoc h1
        rw [hm, List.append_nil] at ho2
        rw [e2, handed_append, hashes_append, ho1 p h2, ho2 q h3, List.map_append]
      · intro o2 h2
        rw [completes_nil h2 rfl]; rfl
    | read ht hout hm hr hstep =>
      rename_i m ms mo d
      obtain ⟨l', e3, hlen⟩ := wstep_out_one hstep
      have hinv' : ∀ b ∈ tree, ∀ tb ts, WsForm b.1 b.2 tb ts → OneBatch tb ts (seen ++ [m] ++ ms) → WsInv tb ts (seen ++ [m]) d (l ++ l') := by
        intro b hb tb ts hf hob
        have hob' : OneBatch tb ts (seen ++ m :: ms) := by simpa using hob
        have := hinv b hb tb ts hf (by rw [hm]; exact hob')
        exact wsinv_next hf.parted.1 hf.parted.2.1 this hob' hstep l' e3
      have hms : seen ++ [m] ++ ms = seen ++ w1.todo := by rw [hm]; simp
      refine ⟨⟨hist, seen ++ [m], l0, l ++ l', ?_, ?_, hinv', ho1, ?_⟩⟩
      · rw [e1, hm]; simp
      · show d.out = _
        rw [e3, e2]; simp
      · intro o2 h2
        have h2 : ComingWhole tree (seen ++ w1.todo) (seen ++ [m]) o2 := by rw [← hms]; exact h2
        rcases completes_snoc h2 with ⟨h3, h4⟩ | ⟨order, b, rfl, h3, h4, ⟨tb, ts, h5, h6, h7⟩, h8⟩
        · -- nothing is completed
          have : l' = [] := by
            rcases l' with _ | ⟨x, l'⟩
            · rfl
            exfalso
            have hl' : l' = [] := List.length_eq_zero_iff.mp (by simpa using hlen)
            subst hl'
            cases x with
            | reorg k y => exact hv2.calm k y (show _ ∈ d.out by rw [e3]; simp)
            | block pb =>
              obtain ⟨b, hb, hbh⟩ := hv2.source.out pb (show _ ∈ d.out by rw [e3]; simp)
              obtain ⟨tb, ts, hf, hob⟩ := h.forms _ hmem b hb
              have hv := hinv' b hb tb ts hf (by rw [hms]; exact hob)
              have hx : pb ∈ blocksWith tb.hash (l ++ [.block pb]) := mem_blocksWith.mpr ⟨by simp, hbh.trans hf.hash.symm⟩
              have hall : AllParts tb ts (seen ++ [m]) := by
                refine Classical.byContradiction fun hall => ?_
                have : blocksWith tb.hash (l ++ [.block pb]) = [] := by
                  by_cases hbm : WMsg.batch tb ∈ seen ++ [m]
                  · exact (hv.waiting hbm hall).1
                  · exact (hv.before hbm).2.1
                rw [this] at hx
                simp at hx
              obtain ⟨tb', ts', hf', hob', hall'⟩ := h4 b hb ⟨tb, ts, hf, hob, hall⟩
              have hv' := hinv' b hb tb' ts' hf' (by rw [hms]; exact hob')
              obtain ⟨_, y, g1, _⟩ := (hinv b hb tb' ts' hf' hob').complete hall'
              obtain ⟨_, z, g2, _⟩ := hv'.complete (allParts_mono hall')
              rw [blocksWith_append, g1] at g2
              have hz : pb ∈ blocksWith tb'.hash [.block pb] := mem_blocksWith.mpr ⟨by simp, hbh.trans hf'.hash.symm⟩
              have := congrArg List.length g2
              simp only [List.length_append, List.length_singleton] at this
              have : blocksWith tb'.hash [WOut.block pb] = [] := List.length_eq_zero_iff.mp (by omega)
              rw [this] at hz
              simp at hz
          rw [this, List.append_nil]
          exact ho2 o2 h3
        · -- the block `b` is completed
          have hv := hinv' b h4 tb ts h5 (by rw [hms]; exact h6)
          have hv0 := hinv b h4 tb ts h5 h6
          have hno : ¬ AllParts tb ts seen := fun hp => h8 ⟨tb, ts, h5, h6, hp⟩
          have hnone : blocksWith tb.hash l = [] := by
            by_cases hbm : WMsg.batch tb ∈ seen
            · exact (hv0.waiting hbm hno).1
            · exact (hv0.before hbm).2.1
          obtain ⟨_, y, g1, _⟩ := hv.complete h7
          rw [blocksWith_append, hnone, List.nil_append] at g1
          obtain ⟨g2, g3⟩ := mem_blocksWith.mp (show y ∈ blocksWith tb.hash l' by rw [g1]; simp)
          have hl' : l' = [.block y] := by
            rcases l' with _ | ⟨x, l'⟩
            · simp at g2
            · have hl' : l' = [] := List.length_eq_zero_iff.mp (by simpa using hlen)
              subst hl'
              simp only [List.mem_singleton] at g2
              rw [g2]
          rw [hl', handed_append, hashes_append, ho2 order h3, List.map_append]
          congr 1
          show [y.hash] = [b.1.hash]
          rw [g3, h5.hash]

theorem completes_prefix {ms : List WMsg} {l : List WMsg} {order : List WsArgs} (h : ComingWhole tree ms l order) :
    ∀ seen rest, l = seen ++ rest → ∃ o1 o2, order = o1 ++ o2 ∧ ComingWhole tree ms seen o1 := by
  induction h with
  | nil =>
    intro seen rest e
    obtain ⟨rfl, rfl⟩ := List.append_eq_nil_iff.mp e.symm
    exact ⟨[], [], rfl, .nil⟩
  | @quiet s1 order m h1 h2 ih =>
    intro seen rest e
    rcases List.append_eq_append_iff.mp e with ⟨u, hu1, hu2⟩ | ⟨u, hu1, hu2⟩
    · rcases u with _ | ⟨x, u⟩
      · rw [List.append_nil] at hu1
        subst hu1
        exact ⟨order, [], by simp, h1⟩
      · simp only [List.cons_append, List.cons.injEq] at hu2
        obtain ⟨rfl, hu2⟩ := hu2
        obtain ⟨rfl, rfl⟩ := List.append_eq_nil_iff.mp hu2.symm
        subst hu1
        exact ⟨order, [], by simp, .quiet h1 h2⟩
    · exact ih seen u hu1
  | @done s1 order m b h1 h2 h3 h4 ih =>
    intro seen rest e
    rcases List.append_eq_append_iff.mp e with ⟨u, hu1, hu2⟩ | ⟨u, hu1, hu2⟩
    · rcases u with _ | ⟨x, u⟩
      · rw [List.append_nil] at hu1
        subst hu1
        exact ⟨order, [b], rfl, h1⟩
      · simp only [List.cons_append, List.cons.injEq] at hu2
        obtain ⟨rfl, hu2⟩ := hu2
        obtain ⟨rfl, rfl⟩ := List.append_eq_nil_iff.mp hu2.symm
        subst hu1
        exact ⟨order ++ [b], [], by simp, .done h1 h2 h3 h4⟩
    · obtain ⟨o1, o2, rfl, g⟩ := ih seen u hu1
      exact ⟨o1, o2 ++ [b], by simp, g⟩

theorem completesAll_prefix {cs : List (List WMsg)} {order : List WsArgs} (h : ComingWholeAll tree cs order) :
    ∀ hist ms rest, cs = hist ++ ms :: rest → ∃ o1 o2 o3, order = o1 ++ o2 ++ o3 ∧ ComingWholeAll tree hist o1 ∧ ComingWhole tree ms ms o2 := by
  induction h with
  | nil => intro hist ms rest e; simp at e
  | @conn h' m' o1 o2 h1 h2 ih =>
    intro hist ms rest e
    rcases List.append_eq_append_iff.mp e with ⟨u, hu1, hu2⟩ | ⟨u, hu1, hu2⟩
    · rcases u with _ | ⟨x, u⟩
      · rw [List.append_nil] at hu1
        simp only [List.nil_append, List.cons.injEq] at hu2
        obtain ⟨rfl, rfl⟩ := hu2
        subst hu1
        exact ⟨o1, o2, [], by simp, h1, h2⟩
      · simp at hu2
    · rcases u with _ | ⟨x, u⟩
      · rw [List.append_nil] at hu1
        simp only [List.nil_append, List.cons.injEq] at hu2
        obtain ⟨rfl, rfl⟩ := hu2
        subst hu1
        exact ⟨o1, o2, [], by simp, h1, h2⟩
      · simp only [List.cons_append, List.cons.injEq] at hu2
        obtain ⟨rfl, rfl⟩ := hu2
        obtain ⟨p1, p2, p3, e, g1, g2⟩ := ih hist ms u hu1
        exact ⟨p1, p2, p3 ++ o2, by rw [e]; simp, g1, g2⟩

theorem Spec.WsTree.inj (h : WsTree cfg root tree conns) {b b' : WsArgs} (hb : b ∈ tree) (hb' : b' ∈ tree) (e : b.1.hash = b'.1.hash) : b = b' := by
  obtain ⟨i, hi, rfl⟩ := List.mem_iff_getElem.mp hb
  obtain ⟨j, hj, rfl⟩ := List.mem_iff_getElem.mp hb'
  have e : (tree.map (·.1.hash))[i]'(by simpa using hi) = (tree.map (·.1.hash))[j]'(by simpa using hj) := by
    rw [List.getElem_map, List.getElem_map]; exact e
  have := (List.getElem_inj h.nodup).mp e
  subst this; rfl

theorem completes_mem {ms l : List WMsg} {order : List WsArgs} (h : ComingWhole tree ms l order) : ∀ b ∈ order, b ∈ tree := by
  induction h with
  | nil => simp
  | quiet _ _ ih => exact ih
  | done _ h2 _ _ ih =>
    intro x hx
    rcases List.mem_append.mp hx with hx | hx
    · exact ih x hx
    · rw [List.mem_singleton.mp hx]; exact h2

theorem completesAll_mem {cs : List (List WMsg)} {order : List WsArgs} (h : ComingWholeAll tree cs order) : ∀ b ∈ order, b ∈ tree := by
  induction h with
  | nil => simp
  | conn _ h2 ih =>
    intro x hx
    rcases List.mem_append.mp hx with hx | hx
    · exact ih x hx
    · exact completes_mem h2 x hx

/-- The blocks emitted so far are the first ones completed. -/
theorem Spec.WsTree.emittedOrder (h : WsTree cfg root tree (first :: later)) {order : List WsArgs} (ho : ComingWholeAll tree (first :: later) order)
    {w0 w : WSys} (h0 : WSys.start cfg num first later = .ok w0) (hs : WSys.Steps C env o w0 w) :
    ∃ p r, order = p ++ r ∧ w.sys.mp.emitted.map headPart = (p.map wsSent).map bare ∧
      (w.sys.Drained → w.todo = [] → w.later = [] → r = []) := by
  have hv := wsinv_steps h.toWsCarried rfl h0 hs
  obtain ⟨s0, r1, r2⟩ := hv.run
  obtain ⟨omp0, ds, done, rest, i1, i2, i3, i4, i5, i6, i7⟩ := blocks_inside r1 r2
  obtain ⟨hist, seen, l0, l, e1, e2, -, ho1, ho2⟩ := (wsorder_steps h.toWsCarried rfl h0 hs).pos
  obtain ⟨o1, o2, o3, eo, g1, g2⟩ := completesAll_prefix ho hist (seen ++ w.todo) w.later e1
  obtain ⟨o4, o5, e4, g3⟩ := completes_prefix g2 seen w.todo rfl
  have hh : hashes (handed w.conn.out) = (o1 ++ o4).map (·.1.hash) := by
    rw [e2, handed_append, hashes_append, ho1 o1 g1, ho2 o4 g3, List.map_append]
  rw [i2, hashes_append] at hh
  obtain ⟨p, q, epq, f1, f2⟩ := List.map_eq_append_iff.mp hh.symm
  have hdone : hashes w.sys.mp.emitted = hashes done := by
    have : (w.sys.mp.emitted.map PB.bald).map PB.hash = (done.map PB.bald).map PB.hash := by rw [i7]
    simpa [hashes, Function.comp_def, PB.bald] using this
  have horder : order = p ++ (q ++ o5 ++ o3) := by
    rw [eo, e4, ← List.append_assoc, epq]; simp
  refine ⟨p, q ++ o5 ++ o3, horder, ?_, ?_⟩
  · have hp : ∀ b ∈ p, b ∈ tree := fun b hb => completesAll_mem ho b (by rw [horder]; simp [hb])
    have hem : ∀ pb ∈ w.sys.mp.emitted, ∃ b ∈ tree, WsSeen b.1 b.2 pb := fun pb hpb => hv.emitted h.toWsCarried hpb
    have hhash : hashes w.sys.mp.emitted = p.map (·.1.hash) := by rw [hdone, f1]
    clear hv r1 r2 i6 i7 hdone f1 horder epq
    generalize w.sys.mp.emitted = em at hem hhash ⊢
    induction em generalizing p with
    | nil =>
      have : p = [] := List.map_eq_nil_iff.mp hhash.symm
      subst this; rfl
    | cons x em ih =>
      cases p with
      | nil => simp [hashes] at hhash
      | cons b p =>
        simp only [hashes, List.map_cons, List.cons.injEq] at hhash
        obtain ⟨b', hb', he⟩ := hem x (by simp)
        have := h.inj hb' (hp b (by simp)) (he.hash.symm.trans hhash.1)
        subst this
        simp only [List.map_cons, List.cons.injEq]
        refine ⟨headPart_bare ⟨he.number, he.weight, he.hash, he.parent⟩, ih p (fun b hb => hp b (by simp [hb])) (fun y hy => hem y (by simp [hy])) hhash.2⟩
  · intro hd ht hl
    rw [hd.1] at i3
    have hrest : rest = [] := List.map_eq_nil_iff.mp i3.symm
    subst hrest
    have hq : q = [] := by simpa [hashes] using f2
    rw [ht, List.append_nil] at g2
    -- the order of completion is determined
    have hL : hashes (handed l) = o2.map (·.1.hash) := ho2 o2 (by rw [ht, List.append_nil]; exact g2)
    have hL' : hashes (handed l) = o4.map (·.1.hash) := ho2 o4 g3
    have h5 : o5 = [] := by
      rw [hL, e4, List.map_append] at hL'
      have := congrArg List.length hL'
      simp only [List.length_append, List.length_map] at this
      exact List.length_eq_zero_iff.mp (by omega)
    have h3 : o3 = [] := by
      rw [e1, hl, ht, List.append_nil] at ho
      obtain ⟨a1, a2, ea, b1, b2⟩ := completesAll_snoc ho
      have c1 := ho1 o1 g1
      rw [ho1 a1 b1] at c1
      have c2 := ho2 a2 (by rw [ht, List.append_nil]; exact b2)
      rw [hL] at c2
      have l1 := congrArg List.length c1
      have l2 := congrArg List.length c2
      have l3 := congrArg List.length (ea.symm.trans eo)
      simp only [List.length_append, List.length_map] at l1 l2 l3
      exact List.length_eq_zero_iff.mp (by omega)
    rw [hq, h5, h3]; rfl

/-- **C121**, while running: the blocks of a tree, however many, come over one or more connections, and each of them, when it becomes complete, repeats a
recent block or branches off at a recent block. Then nothing is about to fault; something can go on unless everything has been read and handled; the
blocks given to the ordering layer are the first ones completed, in this order; and the head is the first-handled heaviest block. -/
theorem C121_head (h : WsTree cfg root tree (first :: later)) {order : List WsArgs} (ho : ComingWholeAll tree (first :: later) order)
    (htr : AllTracked (2 * cfg.reorgThreshold) cfg.lastHash ((order.map wsSent).map bare)) {w0 w : WSys}
    (h0 : WSys.start cfg num first later = .ok w0) (hs : WSys.Steps C env o w0 w) :
    ¬ w.Faulting C env o ∧ ((∃ w', WSys.Step C env o w w') ∨ w.sys.Drained ∧ w.todo = [] ∧ w.later = []) ∧
    (∃ j, hashes w.sys.mp.emitted = (order.take j).map (·.1.hash)) ∧
    (blocksOf w.sys.ops ≠ [] → FirstHeaviest (blocksOf w.sys.ops) w.sys.omp.lastHash) := by
  obtain ⟨p, r, rfl, e, _⟩ := h.emittedOrder ho h0 hs
  have htr' : AllTracked (2 * cfg.reorgThreshold) cfg.lastHash w.sys.mp.emitted := by
    refine allTracked_headPart ?_
    rw [e]
    have := htr.take p.length
    rwa [List.map_append, List.map_append, List.take_append_of_le_length (by simp), List.take_of_length_le (by simp)] at this
  obtain ⟨g1, g2⟩ := C89_any_length h h0 hs htr'
  refine ⟨g1, (wsys_goesOn h.toWsCarried (wsinv_steps h.toWsCarried rfl h0 hs) (fun hf => g1 (.inr hf))).2, ⟨p.length, ?_⟩, g2⟩
  rw [List.take_append_of_le_length (Nat.le_refl _), List.take_length, ← hashes_headPart, e, hashes_bare]
  simp [wsSent, Function.comp_def]

/-- **C121**, at rest: if moreover every block came completely over some connection, the ordering layer was given all blocks as often and in the order they
became complete, and the subscribers, having applied all updates, hold a chain of blocks exactly as given to the producer that ends in a block of maximal
weight of the whole tree. -/
theorem C121_end (h : WsTree cfg root tree (first :: later)) {order : List WsArgs} (ho : ComingWholeAll tree (first :: later) order)
    (htr : AllTracked (2 * cfg.reorgThreshold) cfg.lastHash ((order.map wsSent).map bare)) (ha : WsComplete tree (first :: later)) {w0 w : WSys}
    (h0 : WSys.start cfg num first later = .ok w0) (hs : WSys.Steps C env o w0 w) (hstuck : ∀ w', ¬ WSys.Step C env o w w') :
    hashes (blocksOf w.sys.ops) = order.map (·.1.hash) ∧
    ∃ base chain top, Replays cfg.lastHash w.sys.omp.log base chain ∧ Linked base chain ∧ endOf base chain = top.1.hash ∧
      top ∈ tree ∧ (∀ b ∈ tree, b.1.weight ≤ top.1.weight) ∧ ∀ pb ∈ chain, ∃ b ∈ tree, WsSeen b.1 b.2 pb := by
  obtain ⟨_, g2, _, g4⟩ := C121_head h ho htr h0 hs
  obtain ⟨hd, ht, hl⟩ := g2.resolve_left (fun ⟨w', hw'⟩ => hstuck w' hw')
  have hv := wsinv_steps h.toWsCarried rfl h0 hs
  refine ⟨?_, h.atRest ha hv hd ht hl g4⟩
  obtain ⟨p, r, rfl, e, hr⟩ := h.emittedOrder ho h0 hs
  rw [hr hd ht hl, List.append_nil]
  obtain ⟨s0, r1, r2⟩ := hv.run
  obtain ⟨omp0, ds, done, rest, i1, i2, i3, i4, i5, i6, i7⟩ := blocks_inside r1 r2
  rw [hd.2.1, hd.2.2.1] at i6
  have i6 : w.sys.mp.emitted = ds := by simpa [blocksSent] using i6
  rw [i4, blocksOf_map, ← i6, ← hashes_headPart, e, hashes_bare]
  simp [wsSent, Function.comp_def]

end

/-! ## With the producer -/

/-- The calls `l` have added the block and then sent all its sub-batches. -/
def Spec.FinishedBy (l : List WOp) (b : WsArgs) : Prop :=
  ∃ l1 o l2, l = l1 ++ .add o b.1 :: l2 ∧ ∀ id, (∃ q, b.1.batches.get? q = some id) → .send id (b.2 id) ∈ l2

/-- The blocks finished by the calls, in the order in which they are finished. -/
inductive Spec.Finishes (tree : List WsArgs) : List WOp → List WsArgs → Prop
  | nil : Finishes tree [] []
  | quiet {l : List WOp} {order : List WsArgs} {op : WOp} : Finishes tree l order →
      (∀ b ∈ tree, FinishedBy (l ++ [op]) b → FinishedBy l b) → Finishes tree (l ++ [op]) order
  | done {l : List WOp} {order : List WsArgs} {op : WOp} {b : WsArgs} : Finishes tree l order → b ∈ tree → FinishedBy (l ++ [op]) b →
      ¬ FinishedBy l b → Finishes tree (l ++ [op]) (order ++ [b])

theorem wsSentBy_sub {ops : List WOp} {x : TSub} (h : WMsg.sub x ∈ wsSentBy ops) :
    ∃ l o a r s, ops = l ++ .add o a :: r ∧ WOp.send x.batchId s ∈ r ∧ (∃ p, a.batches.get? p = some x.batchId) ∧ a.hash = x.hash := by
  induction ops using snoc_induction with
  | nil => cases h
  | snoc ops op ih =>
    rw [wsSentBy_snoc] at h
    rcases List.mem_append.mp h with h | h
    · obtain ⟨l, o, a, r, s, e, h1, h2, h3⟩ := ih h
      exact ⟨l, o, a, r ++ [op], s, by rw [e]; simp, by simp [h1], h2, h3⟩
    · cases op with
      | add o a => simp at h
      | send id s =>
        simp only [] at h
        cases hx : (ops.foldl WOp.apply WProducer.new).expected.get? id with
        | none => simp [hx] at h
        | some y =>
          simp only [hx, List.mem_singleton, WMsg.sub.injEq] at h
          obtain ⟨l, o, a, r, e, h1, h2, _⟩ := (expected_owner ops id y).mp hx
          subst h
          exact ⟨l, o, a, r ++ [.send id s], s, by rw [e]; simp, by simp, h1, h2⟩

section
variable {cfg : Config} {root : WsArgs} {tree : List WsArgs} {ops : List WOp}

/-- What has been sent of a block is all of it exactly when the calls have finished it. -/
theorem Spec.WsPublishes.whole (h : WsPublishes tree ops) (hn : (tree.map (·.1.hash)).Nodup) (o' : MapOrder) {l rest : List WOp} (e : ops = l ++ rest)
    {b : WsArgs} (hb : b ∈ tree) :
    CameWhole ((wsSentBy ops).map (WMsg.json o')) ((wsSentBy l).map (WMsg.json o')) b ↔ FinishedBy l b := by
  have hinj : ∀ b' ∈ tree, b'.1.hash = b.1.hash → b' = b := by
    intro b' hb' eq
    obtain ⟨i, hi, rfl⟩ := List.mem_iff_getElem.mp hb
    obtain ⟨j, hj, rfl⟩ := List.mem_iff_getElem.mp hb'
    have e : (tree.map (·.1.hash))[j]'(by simpa using hj) = (tree.map (·.1.hash))[i]'(by simpa using hi) := by
      rw [List.getElem_map, List.getElem_map]; exact eq
    have := (List.getElem_inj hn).mp e
    subst this; rfl
  constructor
  · rintro ⟨tb, ts, hf, hob, hall⟩
    obtain ⟨m1, o1, m2, em⟩ := h.place hb
    obtain ⟨hob0, hall0⟩ := h.carriesAt hn o' hb em
    have hf0 := h.form hb o1 o'
    have hsub : ∀ m ∈ (wsSentBy l).map (WMsg.json o'), m ∈ (wsSentBy ops).map (WMsg.json o') := by
      intro m hm
      obtain ⟨x, hx, rfl⟩ := List.mem_map.mp hm
      exact List.mem_map.mpr ⟨x, by rw [e]; exact (wsSentBy_prefix l rest).subset hx, rfl⟩
    -- the batch message
    have htb : tb = (wsMessages o1 o' b.1 b.2).1 := by
      rcases hob0.only _ (hsub _ (hall _ .batch)) with hp | he
      · cases hp; rfl
      · exact absurd (hf.hash.trans hf0.hash.symm) he.1
    obtain ⟨x, hx, ex⟩ := List.mem_map.mp (hall _ .batch)
    have hadd : ∃ k1 o2 k2, l = k1 ++ .add o2 b.1 :: k2 := by
      rcases wsSentBy_mem hx with ⟨o2, a, g1, rfl⟩ | ⟨id, s, o2, a, g1, g2, g3, rfl⟩
      · simp only [WMsg.json, WMsg.batch.injEq] at ex
        have ha : a.hash = b.1.hash := by rw [← hf.hash, ← ex]; rfl
        obtain ⟨b', hb', rfl⟩ := h.block (o := o2) (a := a) (by rw [e]; simp [g1])
        have := hinj b' hb' ha
        subst this
        obtain ⟨k1, k2, ek⟩ := List.append_of_mem g1
        exact ⟨k1, o2, k2, ek⟩
      · simp [WMsg.json] at ex
    obtain ⟨k1, o2, k2, ek⟩ := hadd
    refine ⟨k1, o2, k2, ek, ?_⟩
    intro id hid
    have hidb : id ∈ Spec.idsOf tb := by rw [htb]; exact (h.idsOf hb o1 o' id).mpr hid
    obtain ⟨y, hy, ey⟩ := List.mem_map.mp (hall _ (.sub hidb))
    have hy' : ∃ z, y = .sub z := by
      cases y with
      | sub z => exact ⟨z, rfl⟩
      | _ => simp [WMsg.json] at ey
    obtain ⟨z, rfl⟩ := hy'
    simp only [WMsg.json, WMsg.sub.injEq] at ey
    have hzid : z.batchId = id := by
      have : (ts id).batchId = id := hf.parted.1.id id hidb
      rw [← ey] at this; exact this
    have hzh : z.hash = b.1.hash := by
      have : (ts id).hash = tb.hash := hf.parted.1.hash id hidb
      rw [← ey, hf.hash] at this; exact this
    obtain ⟨l1, o3, a, r, s, el, g1, g2, g3⟩ := wsSentBy_sub hy
    obtain ⟨b', hb', rfl⟩ := h.block (o := o3) (a := a) (by rw [e, el]; simp)
    have := hinj b' hb' (g3.trans hzh)
    subst this
    rw [hzid] at g1
    have hs := h.sends id s (by rw [e, el]; simp [g1]) b' hb hid
    subst hs
    -- the block is added in one place
    have halone := h.alone hn (b := b') (l := k1) (o := o2) (r := k2 ++ rest) (by rw [e, ek]; simp)
    have hk : k1 ++ .add o2 b'.1 :: k2 = l1 ++ .add o3 b'.1 :: r := ek.symm.trans el
    rcases List.append_eq_append_iff.mp hk with ⟨u, hu1, hu2⟩ | ⟨u, hu1, hu2⟩
    · rcases u with _ | ⟨v, u⟩
      · simp only [List.nil_append, List.cons.injEq] at hu2
        rw [hu2.2]; exact g1
      · simp only [List.cons_append, List.cons.injEq] at hu2
        exact absurd rfl (halone o3 b'.1 (by rw [hu2.2]; simp))
    · rcases u with _ | ⟨v, u⟩
      · simp only [List.nil_append, List.cons.injEq] at hu2
        rw [← hu2.2]; exact g1
      · simp only [List.cons_append, List.cons.injEq] at hu2
        obtain ⟨rfl, _⟩ := hu2
        exact absurd rfl (halone o3 b'.1 (by rw [hu1]; simp))
  · rintro ⟨l1, o, l2, el, hsend⟩
    refine ⟨_, _, h.form hb o o', (h.carriesAt hn o' hb (l := l1) (r := l2 ++ rest) (by rw [e, el]; simp)).1, ?_⟩
    rw [el, allParts_iff]
    refine ⟨List.mem_map.mpr ⟨_, wsSentBy_add, rfl⟩, ?_⟩
    intro id hid
    have hid := (h.idsOf hb o o' id).mp hid
    exact List.mem_map.mpr ⟨_, h.sentBy hn hb hid (rest := rest) (by rw [e, el]) (hsend id hid), rfl⟩

/-- The blocks become complete in the order in which they are finished. -/
theorem Spec.WsPublishes.completes (h : WsPublishes tree ops) (hn : (tree.map (·.1.hash)).Nodup) (o' : MapOrder) {l : List WOp} {order : List WsArgs}
    (hf : Finishes tree l order) : ∀ rest, ops = l ++ rest → ComingWhole tree ((wsSentBy ops).map (WMsg.json o')) ((wsSentBy l).map (WMsg.json o')) order := by
  induction hf with
  | nil => intro rest e; exact .nil
  | @quiet l order op _ hq ih =>
    intro rest e
    have e' : ops = l ++ ([op] ++ rest) := by rw [e]; simp
    have hc := ih _ e'
    have hqm : ∀ b ∈ tree, CameWhole ((wsSentBy ops).map (WMsg.json o')) ((wsSentBy (l ++ [op])).map (WMsg.json o')) b →
        CameWhole ((wsSentBy ops).map (WMsg.json o')) ((wsSentBy l).map (WMsg.json o')) b :=
      fun b hb hw => (h.whole hn o' e' hb).mpr (hq b hb ((h.whole hn o' e hb).mp hw))
    have hcase : (∃ m, wsSentBy (l ++ [op]) = wsSentBy l ++ [m]) ∨ wsSentBy (l ++ [op]) = wsSentBy l := by
      rw [wsSentBy_snoc]
      cases op with
      | add o a => exact .inl ⟨_, rfl⟩
      | send id s =>
        simp only []
        cases (l.foldl WOp.apply WProducer.new).expected.get? id with
        | none => exact .inr (by simp)
        | some y => exact .inl ⟨_, rfl⟩
    rcases hcase with ⟨m, em⟩ | em
    · rw [em, List.map_append] at hqm ⊢
      exact .quiet hc hqm
    · rw [em]; exact hc
  | @done l order op b _ hb h1 h2 ih =>
    intro rest e
    have e' : ops = l ++ ([op] ++ rest) := by rw [e]; simp
    have hc := ih _ e'
    have g1 := (h.whole hn o' e hb).mpr h1
    have g2 : ¬ CameWhole ((wsSentBy ops).map (WMsg.json o')) ((wsSentBy l).map (WMsg.json o')) b := fun hw => h2 ((h.whole hn o' e' hb).mp hw)
    have hcase : (∃ m, wsSentBy (l ++ [op]) = wsSentBy l ++ [m]) ∨ wsSentBy (l ++ [op]) = wsSentBy l := by
      rw [wsSentBy_snoc]
      cases op with
      | add o a => exact .inl ⟨_, rfl⟩
      | send id s =>
        simp only []
        cases (l.foldl WOp.apply WProducer.new).expected.get? id with
        | none => exact .inr (by simp)
        | some y => exact .inl ⟨_, rfl⟩
    rcases hcase with ⟨m, em⟩ | em
    · rw [em, List.map_append] at g1 ⊢
      exact .done hc hb g1 g2
    · rw [em] at g1; exact (g2 g1).elim

/-- **C121**, from end to end: a websocket producer is given the blocks of a tree, however many, in any interleaving; each block, when it is finished, branches off at a
recent block. Then a consumer connected to it never faults and never waits for ever, its head is always the first-handled heaviest block, and at rest the ordering
layer was given every block in the order of finishing, and the subscribers hold a chain, exactly as given to the producer, that ends in a heaviest block. -/
theorem C121_published (h : WsPublishes tree ops) {order : List WsArgs} (hfin : Finishes tree ops order)
    (hT : HeaderTree cfg (wsSent root) (tree.map wsSent)) (hweight : ∀ b ∈ tree, 0 ≤ b.1.weight)
    (htr : AllTracked (2 * cfg.reorgThreshold) cfg.lastHash ((order.map wsSent).map bare)) (o' : MapOrder) {num : Int} {w0 w : WSys}
    (h0 : WSys.start cfg num ((wsSentBy ops).map (WMsg.json o')) [] = .ok w0) (hs : WSys.Steps C env o w0 w) :
    ¬ w.Faulting C env o ∧ (blocksOf w.sys.ops ≠ [] → FirstHeaviest (blocksOf w.sys.ops) w.sys.omp.lastHash) ∧
    ((∀ w', ¬ WSys.Step C env o w w') → w.sys.Drained ∧ w.todo = [] ∧ hashes (blocksOf w.sys.ops) = order.map (·.1.hash) ∧
      ∃ base chain top, Replays cfg.lastHash w.sys.omp.log base chain ∧ Linked base chain ∧ endOf base chain = top.1.hash ∧
        top ∈ tree ∧ (∀ b ∈ tree, b.1.weight ≤ top.1.weight) ∧ ∀ pb ∈ chain, ∃ b ∈ tree, WsSeen b.1 b.2 pb) := by
  have hn : (tree.map (·.1.hash)).Nodup := by
    have := (List.nodup_cons.mp hT.hashes).2
    simpa [wsSent, Function.comp_def] using this
  obtain ⟨h1, h2⟩ := h.carried hn hweight o'
  have ht : WsTree cfg root tree [(wsSentBy ops).map (WMsg.json o')] := ⟨h1, hT⟩
  have ho : ComingWholeAll tree [(wsSentBy ops).map (WMsg.json o')] order := by
    have := ComingWholeAll.conn (.nil (tree := tree)) (h.completes hn o' hfin [] (by simp))
    simpa using this
  obtain ⟨g1, g2, _, g4⟩ := C121_head ht ho htr h0 hs
  refine ⟨g1, g4, fun hstuck => ?_⟩
  obtain ⟨hd, hto, _⟩ := g2.resolve_left (fun ⟨w', hw'⟩ => hstuck w' hw')
  exact ⟨hd, hto, C121_end ht ho htr h2 h0 hs hstuck⟩

end

/-! ## Example: three blocks and a window of two -/

/-- Two blocks are remembered. -/
def exTwoCfg : Config := { exForkCfg with reorgThreshold := 1 }

theorem exW_finishes : Finishes exWTree exWForkOps [(exWA1, exWS), (exWA3, exWS), (exWA2, exWS)] := by
  -- what is finished by the first calls
  have key : ∀ l : List WOp, ∀ b ∈ exWTree, FinishedBy l b → (∃ o, WOp.add o b.1 ∈ l) ∧ ∀ id, (∃ q, b.1.batches.get? q = some id) → .send id (b.2 id) ∈ l := by
    rintro l b - ⟨l1, o, l2, rfl, h⟩
    exact ⟨⟨o, by simp⟩, fun id hid => by simp [h id hid]⟩
  have hne : exWA1.hash ≠ exWA2.hash ∧ exWA1.hash ≠ exWA3.hash ∧ exWA2.hash ≠ exWA3.hash := by decide
  have n12 : exWA1 ≠ exWA2 := fun h => hne.1 (by rw [h])
  have n13 : exWA1 ≠ exWA3 := fun h => hne.2.1 (by rw [h])
  have n23 : exWA2 ≠ exWA3 := fun h => hne.2.2 (by rw [h])
  have n01 : exWId 0 ≠ exWId 1 := by decide +kernel
  have n21 : exWId 2 ≠ exWId 1 := by decide +kernel
  have n20 : exWId 2 ≠ exWId 0 := by decide +kernel
  have n31 : exWId 3 ≠ exWId 1 := by decide +kernel
  have n30 : exWId 3 ≠ exWId 0 := by decide +kernel
  have n32 : exWId 2 ≠ exWId 3 := by decide +kernel
  have i10 := (exW_ids1 (exWId 0)).mpr (.inl rfl)
  have i11 := (exW_ids1 (exWId 1)).mpr (.inr rfl)
  have i2 := (exW_ids2 (exWId 2)).mpr rfl
  have i3 := (exW_ids3 (exWId 3)).mpr rfl
  have f1 : Finishes exWTree ([] ++ [.add .plain exWA1]) [] := by
    refine .quiet .nil (exW_three ?_ ?_ ?_)
    · intro h; have := (key _ _ (by simp [exWTree]) h).2 _ i10; simp at this
    · intro h; have := (key _ _ (by simp [exWTree]) h).2 _ i2; simp at this
    · intro h; have := (key _ _ (by simp [exWTree]) h).2 _ i3; simp at this
  have f2 := Finishes.quiet (op := .send (exWId 1) (exWS (exWId 1))) f1 (exW_three
    (fun h => by have := (key _ _ (by simp [exWTree]) h).2 _ i10; simp [n01] at this)
    (fun h => by have := (key _ _ (by simp [exWTree]) h).2 _ i2; simp [n21] at this)
    (fun h => by have := (key _ _ (by simp [exWTree]) h).2 _ i3; simp [n31] at this))
  have f3 := Finishes.done (op := .send (exWId 0) (exWS (exWId 0))) (b := (exWA1, exWS)) f2 (by simp [exWTree])
    ⟨[], .plain, _, rfl, fun id hid => by rcases (exW_ids1 id).mp hid with rfl | rfl <;> simp⟩
    (fun h => by have := (key _ _ (by simp [exWTree]) h).2 _ i10; simp [n01] at this)
  have f4 := Finishes.quiet (op := .add .rev exWA3) f3 (exW_three
    (fun _ => ⟨[], .plain, _, rfl, fun id hid => by rcases (exW_ids1 id).mp hid with rfl | rfl <;> simp⟩)
    (fun h => by have := (key _ _ (by simp [exWTree]) h).2 _ i2; simp [n21, n20] at this)
    (fun h => by have := (key _ _ (by simp [exWTree]) h).2 _ i3; simp [n31, n30] at this))
  have f5 := Finishes.quiet (op := .add .plain exWA2) f4 (exW_three
    (fun _ => ⟨[], .plain, _, rfl, fun id hid => by rcases (exW_ids1 id).mp hid with rfl | rfl <;> simp⟩)
    (fun h => by have := (key _ _ (by simp [exWTree]) h).2 _ i2; simp [n21, n20] at this)
    (fun h => by have := (key _ _ (by simp [exWTree]) h).2 _ i3; simp [n31, n30] at this))
  have f6 := Finishes.done (op := .send (exWId 3) (exWS (exWId 3))) (b := (exWA3, exWS)) f5 (by simp [exWTree])
    ⟨[_, _, _], .rev, _, rfl, fun id hid => by rcases (exW_ids3 id).mp hid with rfl; simp⟩
    (fun h => by have := (key _ _ (by simp [exWTree]) h).2 _ i3; simp [n31, n30] at this)
  have f7 := Finishes.done (op := .send (exWId 2) (exWS (exWId 2))) (b := (exWA2, exWS)) f6 (by simp [exWTree])
    ⟨[_, _, _, _], .plain, _, rfl, fun id hid => by rcases (exW_ids2 id).mp hid with rfl; simp⟩
    (fun h => by have := (key _ _ (by simp [exWTree]) h).2 _ i2; simp [n21, n20, n32] at this)
  exact f7

/-- C121: an execution of the example that has come to rest exists, and the subscribers hold the heavier branch although fewer blocks are remembered than there are. -/
example : ∃ w0 w base chain, 2 * exTwoCfg.reorgThreshold < exWTree.length ∧
    WSys.start exTwoCfg 5 ((wsSentBy exWForkOps).map (WMsg.json .rev)) [] = .ok w0 ∧
    WSys.Steps Avro.codec exEnv .plain w0 w ∧ Replays exTwoCfg.lastHash w.sys.omp.log base chain ∧ endOf base chain = exWA3.hash ∧
    ∀ pb ∈ chain, ∃ b ∈ exWTree, WsSeen b.1 b.2 pb := by
  obtain ⟨w0, h0⟩ : ∃ w0, WSys.start exTwoCfg 5 ((wsSentBy exWForkOps).map (WMsg.json .rev)) [] = .ok w0 := ⟨_, rfl⟩
  obtain ⟨w, hw, hst⟩ := wsys_rests (C := Avro.codec) (env := exEnv) (o := .plain) w0
  have hT : HeaderTree exTwoCfg (wsSent (exWA1, exWS)) (exWTree.map wsSent) := by
    have h := exWFork_headers
    exact ⟨h.mem, h.hash, h.weight, h.heavy, h.low, h.parents, h.hashes, h.whitelist⟩
  obtain ⟨-, -, -, base, chain, top, g1, g2, g3, g4, g5, g6⟩ := (C121_published exWFork_publishes exW_finishes hT
    (exW_three (by decide) (by decide) (by decide))
    (allTracked_of (fork := fun b => b.parentHash) (by decide +kernel)) .rev h0 hw).2.2 hst
  refine ⟨w0, w, base, chain, by decide, h0, hw, g1, ?_, g6⟩
  rw [g3]
  have h320 := g5 (exWA3, exWS) (by simp [exWTree])
  refine exW_three (P := fun top => (320 : Int) ≤ top.1.weight → top.1.hash = exWA3.hash) ?_ ?_ ?_ top g4 h320
  · exact fun h => absurd h (show ¬ (320 : Int) ≤ 300 by decide)
  · exact fun h => absurd h (show ¬ (320 : Int) ≤ 310 by decide)
  · exact fun _ => rfl

end Verif
