import Verif.Spec.Mux
import Verif.Props.Kafka
/-!
# C48 to C50, C64 to C66: several transports at once
-/
namespace Verif
open Spec

variable {W : Type}

theorem called_exists {R : Type} (cs : List (MCall W R)) (w : W) : ∃ rs w', Called cs w rs w' := by
  induction cs generalizing w with
  | nil => exact ⟨[], w, .nil⟩
  | cons c cs ih =>
    obtain ⟨rs, w', h⟩ := ih (c w).1
    exact ⟨(c w).2 :: rs, w', .cons rfl h⟩

theorem called_unique {R : Type} {cs : List (MCall W R)} {w w1 w2 : W} {r1 r2 : List R} (h1 : Called cs w r1 w1) (h2 : Called cs w r2 w2) :
    r1 = r2 ∧ w1 = w2 := by
  induction h1 generalizing r2 w2 with
  | nil => cases h2; exact ⟨rfl, rfl⟩
  | cons e _ ih =>
    cases h2 with
    | cons e' h' =>
      rw [e] at e'
      simp only [Prod.mk.injEq] at e'
      obtain ⟨rfl, rfl⟩ := e'
      obtain ⟨rfl, rfl⟩ := ih h'
      exact ⟨rfl, rfl⟩

/-! ## C48 -/

theorem muxErrs_called {cs : List (MCall W (Option Err))} {w w' : W} {rs : List (Option Err)} (h : Called cs w rs w') (errs : List Err) :
    muxErrs cs w errs = (w', errs ++ rs.filterMap id) := by
  induction h generalizing errs with
  | nil => simp [muxErrs]
  | @cons c cs w w' r rs w'' e _ ih =>
    unfold muxErrs
    rw [e]
    cases r with
    | none => simp [ih]
    | some e => simp [ih]

theorem firstError_head {rs : List (Option Err)} {r : Option Err} (h : FirstError rs r) : (rs.filterMap id).head? = r := by
  cases r with
  | none =>
    have : rs.filterMap id = [] := by
      rw [List.filterMap_eq_nil_iff]; exact h
    rw [this]; rfl
  | some e =>
    obtain ⟨l1, l2, rfl, hl⟩ := h
    have : l1.filterMap id = [] := by
      rw [List.filterMap_eq_nil_iff]; exact hl
    rw [List.filterMap_append, this]; rfl

/-- **C48**: every transport is called once, in order, whatever the others answer, and the result is the first error. -/
theorem C48_all_called (cs : List (MCall W (Option Err))) (w : W) {rs : List (Option Err)} {w' : W} (h : Called cs w rs w')
    {r : Option Err} (hr : FirstError rs r) : muxCall cs w = (w', r) := by
  unfold muxCall
  rw [muxErrs_called h []]
  simp [firstError_head hr]

/-- **C48**: the hypotheses of `C48_all_called` can always be met, in one way only. -/
theorem C48_total (cs : List (MCall W (Option Err))) (w : W) : ∃ rs w' r, Called cs w rs w' ∧ FirstError rs r ∧ muxCall cs w = (w', r) := by
  obtain ⟨rs, w', h⟩ := called_exists cs w
  have : ∃ r, FirstError rs r := by
    clear h
    induction rs with
    | nil => exact ⟨none, by simp [FirstError]⟩
    | cons x rs ih =>
      cases x with
      | some e => exact ⟨some e, [], rs, rfl, by simp⟩
      | none =>
        obtain ⟨r, hr⟩ := ih
        refine ⟨r, ?_⟩
        cases r with
        | none => simpa [FirstError] using hr
        | some e =>
          obtain ⟨l1, l2, rfl, hl⟩ := hr
          exact ⟨none :: l1, l2, rfl, by simpa using hl⟩
  obtain ⟨r, hr⟩ := this
  exact ⟨rs, w', r, h, hr, C48_all_called cs w h hr⟩

/-- Three transports that note their calls; the second and the third fail. -/
def exCalls : List (MCall (List Nat) (Option Err)) :=
  [fun w => (w ++ [1], none), fun w => (w ++ [2], some .unknownBatch), fun w => (w ++ [3], some .decode)]

example : Called exCalls [] [none, some .unknownBatch, some .decode] [1, 2, 3] ∧
    FirstError [none, some .unknownBatch, some .decode] (some .unknownBatch) ∧ muxCall exCalls [] = ([1, 2, 3], some .unknownBatch) :=
  ⟨.cons rfl (.cons rfl (.cons rfl .nil)), ⟨[none], [some .decode], rfl, by simp⟩, rfl⟩

/-! ## C64: reorgs -/

theorem muxReorgs_called {cs : List (MCall W (Except Err (W → W)))} {w w' : W} {rs : List (Except Err (W → W))} (h : Called cs w rs w')
    (errs : List Err) (fns : List (W → W)) : muxReorgs cs w errs fns =
      (w', errs ++ rs.filterMap (fun r => match r with | .error e => some e | .ok _ => none),
        fns ++ rs.filterMap (fun r => match r with | .error _ => none | .ok f => some f)) := by
  induction h generalizing errs fns with
  | nil => simp [muxReorgs]
  | @cons c cs w w' r rs w'' e _ ih =>
    unfold muxReorgs
    rw [e]
    cases r with
    | error e => simp [ih]
    | ok f => simp [ih]

/-- The error of a result. -/
def errorOf {R : Type} : Except Err R → Option Err
  | .error e => some e
  | .ok _ => none

/-- **C64**: a reorg is announced to every transport once, in order; the function returned ends it, in order, on exactly those
that accepted it; the error is the first. -/
theorem C64_reorg (cs : List (MCall W (Except Err (W → W)))) (w : W) {rs : List (Except Err (W → W))} {w' : W} (h : Called cs w rs w')
    {r : Option Err} (hr : FirstError (rs.map errorOf) r) {fs : List (W → W)} (hf : fs.map Except.ok = rs.filter (fun x => errorOf x = none)) :
    ∃ fn, muxReorg cs w = (w', fn, r) ∧ ∀ w1 w2, Called (fs.map (fun f w => (f w, ()))) w1 (List.replicate fs.length ()) w2 → fn w1 = w2 := by
  unfold muxReorg
  rw [muxReorgs_called h]
  have h1 := firstError_head hr
  have h2 : rs.filterMap (fun r => match r with | .error _ => none | .ok f => some f) = fs := by
    clear h hr h1
    induction rs generalizing fs with
    | nil => cases fs with
      | nil => rfl
      | cons _ _ => simp at hf
    | cons x rs ih =>
      cases x with
      | error e =>
        rw [List.filter_cons, if_neg (by simp [errorOf])] at hf
        rw [List.filterMap_cons]
        exact ih hf
      | ok f =>
        cases fs with
        | nil => simp [errorOf] at hf
        | cons g fs =>
          rw [List.filter_cons, if_pos (by simp [errorOf])] at hf
          simp only [List.map_cons, List.cons.injEq, Except.ok.injEq] at hf
          rw [List.filterMap_cons]
          simp only [List.cons.injEq]
          exact ⟨hf.1.symm, ih hf.2⟩
  simp only [List.nil_append, h2]
  refine ⟨_, Prod.ext rfl (Prod.ext rfl ?_), ?_⟩
  · show List.head? _ = _
    rw [List.filterMap_map] at h1
    have : (fun r : Except Err (W → W) => match r with | .error e => some e | .ok _ => none) = id ∘ errorOf := by
      funext r; cases r <;> rfl
    rw [this, h1]
  · intro w1 w2 hc
    have : ∀ (rs : List Unit) w1, Called (fs.map (fun f w => (f w, ()))) w1 rs w2 → fs.foldl (fun w fn => fn w) w1 = w2 := by
      clear hf h2 hc
      induction fs with
      | nil => intro rs w1 hc; cases hc; rfl
      | cons f fs ih =>
        intro rs w1 hc
        cases hc with
        | cons e hc' =>
          simp only [Prod.mk.injEq] at e
          rw [List.foldl_cons, e.1]
          exact ih _ _ hc'
    exact this _ _ hc

example : ∃ fn, muxReorg [fun (w : List Nat) => (w ++ [1], .ok (fun w => w ++ [10])), fun w => (w ++ [2], .error .decode),
      fun w => (w ++ [3], .ok (fun w => w ++ [30]))] [] = ([1, 2, 3], fn, some .decode) ∧ fn [7] = [7, 10, 30] :=
  ⟨_, rfl, rfl⟩

/-! ## C49 -/

theorem muxLatests_called {cs : List (MCall W (Except Err Int))} {w w' : W} {rs : List (Except Err Int)} (h : Called cs w rs w')
    (n : Int) (te : Option Err) : ∃ m te', muxLatests cs w n te = (w', m, te') ∧ m ≤ n ∧ (∀ v, .ok v ∈ rs → m ≤ v) ∧ (m = n ∨ .ok m ∈ rs) ∧
      ((∃ e, .error e ∈ rs) → ∃ e, te' = some e ∧ .error e ∈ rs) ∧ ((∀ e, .error e ∉ rs) → te' = te) := by
  induction h generalizing n te with
  | nil => exact ⟨n, te, rfl, by omega, by simp, .inl rfl, by simp, fun _ => rfl⟩
  | @cons c cs w w' r rs w'' he _ ih =>
    unfold muxLatests
    rw [he]
    cases r with
    | error e =>
      obtain ⟨m, te', h1, h2, h3, h4, h5, h6⟩ := ih n (some e)
      refine ⟨m, te', h1, h2, by simpa using h3, by simpa using h4, ?_, ?_⟩
      · intro _
        by_cases hx : ∃ e, Except.error e ∈ rs
        · obtain ⟨e', h7, h8⟩ := h5 hx
          exact ⟨e', h7, by simp [h8]⟩
        · exact ⟨e, h6 (fun e' he => hx ⟨e', he⟩), by simp⟩
      · intro hx; exact absurd (List.mem_cons_self ..) (hx e)
    | ok v =>
      obtain ⟨m, te', h1, h2, h3, h4, h5, h6⟩ := ih (if v < n then v else n) te
      refine ⟨m, te', h1, by split at h2 <;> omega, ?_, ?_, ?_, ?_⟩
      · intro x hx
        simp only [List.mem_cons, Except.ok.injEq] at hx
        rcases hx with rfl | hx
        · split at h2 <;> omega
        · exact h3 x hx
      · rcases h4 with h4 | h4
        · split at h4
          · exact .inr (by simp [h4])
          · exact .inl h4
        · exact .inr (by simp [h4])
      · rintro ⟨e, he⟩
        obtain ⟨e', h7, h8⟩ := h5 ⟨e, by simpa using he⟩
        exact ⟨e', h7, by simp [h8]⟩
      · intro hx; exact h6 (fun e he => hx e (by simp [he]))

/-- **C49**: the least answer, if it is below the largest int64. -/
theorem C49_least_partial (cs : List (MCall W (Except Err Int))) (w : W) {rs : List (Except Err Int)} {w' : W} (h : Called cs w rs w')
    {n : Int} (hn : LeastAnswer rs n) (hlt : n < 9223372036854775807) : muxLatest cs w = (w', n, none) := by
  obtain ⟨m, te', h1, h2, h3, h4, -, -⟩ := muxLatests_called h 9223372036854775807 none
  unfold muxLatest
  rw [h1]
  have hmn : m ≤ n := h3 n hn.1
  have : m = n := by
    rcases h4 with h4 | h4
    · omega
    · have := hn.2 m h4; omega
  rw [this]; simp [hlt]

/-- **C49**: zero and an error of some transport if none answered, zero and no error without transports. -/
theorem C49_none (cs : List (MCall W (Except Err Int))) (w : W) {rs : List (Except Err Int)} {w' : W} (h : Called cs w rs w')
    (hn : ∀ n, .ok n ∉ rs) : ∃ e, muxLatest cs w = (w', 0, e) ∧ (rs = [] → e = none) ∧ (rs ≠ [] → ∃ x, e = some x ∧ .error x ∈ rs) := by
  obtain ⟨m, te', h1, h2, h3, h4, h5, h6⟩ := muxLatests_called h 9223372036854775807 none
  have hm : m = 9223372036854775807 := by
    rcases h4 with h4 | h4
    · exact h4
    · exact absurd h4 (hn m)
  refine ⟨te', by unfold muxLatest; rw [h1, hm]; simp, ?_, ?_⟩
  · rintro rfl; exact h6 (by simp)
  · intro hne
    apply h5
    cases rs with
    | nil => simp at hne
    | cons x rs => cases x with
      | error e => exact ⟨e, by simp⟩
      | ok v => exact absurd (by simp) (hn v)

/-- **C49** refuted: the largest int64 counts as no answer. -/
theorem C49_refuted : ¬ ∀ (cs : List (MCall Unit (Except Err Int))) (rs : List (Except Err Int)) (n : Int), Called cs () rs () →
    LeastAnswer rs n → InInt64 n → muxLatest cs () = ((), n, none) := by
  intro h
  have := h [fun _ => ((), .ok 9223372036854775807)] [.ok 9223372036854775807] 9223372036854775807 (.cons rfl .nil)
    ⟨by simp, by simp⟩ (by decide)
  exact absurd this (by decide)

example : Called [fun (w : Unit) => (w, Except.ok 7), fun w => (w, .error Err.decode), fun w => (w, .ok 5)] () [.ok 7, .error .decode, .ok 5] () ∧
    LeastAnswer [.ok 7, .error .decode, .ok 5] 5 :=
  ⟨.cons rfl (.cons rfl (.cons rfl .nil)), by simp, by simp⟩

/-! ## C50 -/

theorem muxStarts_called {cs : List (MCall W (Option Err))} {w w' : W} {rs : List (Option Err)} (h : Called cs w rs w') (k : Nat) :
    muxStarts cs w k = (w', k + (rs.filter (· ≠ none)).length) ∧ rs.length = cs.length := by
  induction h generalizing k with
  | nil => simp [muxStarts]
  | @cons c cs w w' r rs w'' e _ ih =>
    unfold muxStarts
    rw [e]
    cases r with
    | none => simp [(ih k).1, (ih k).2]
    | some e => simp [(ih (k+1)).1, (ih k).2]; omega

/-- **C50**: every consumer is started once, in order; `Start` fails iff each of them does. -/
theorem C50_start (cs : List (MCall W (Option Err))) (w : W) {rs : List (Option Err)} {w' : W} (h : Called cs w rs w') :
    (muxStart cs w).1 = w' ∧ ((muxStart cs w).2 ≠ none ↔ ∀ r ∈ rs, r ≠ none) := by
  obtain ⟨h1, h2⟩ := muxStarts_called h 0
  unfold muxStart
  rw [h1]
  refine ⟨rfl, ?_⟩
  simp only [Nat.zero_add, ← h2]
  rw [show (∀ r ∈ rs, r ≠ none) ↔ (rs.filter (· ≠ none)).length = rs.length from by
    rw [List.length_filter_eq_length_iff]; simp]
  split <;> simp_all

theorem muxCounts_called {cs : List (MCall W UInt64)} {w w' : W} {rs : List UInt64} (h : Called cs w rs w') (k : UInt64) :
    muxCounts cs w k = (w', k + rs.foldr (· + ·) 0) := by
  induction h generalizing k with
  | nil => simp [muxCounts]
  | @cons c cs w w' r rs w'' e _ ih =>
    unfold muxCounts
    rw [e]
    simp only [ih, List.foldr_cons, UInt64.add_assoc]

/-- **C50**: the number of producers is the sum of the numbers of the transports (as uint). -/
theorem C50_count (cs : List (MCall W UInt64)) (w : W) {rs : List UInt64} {w' : W} (h : Called cs w rs w') :
    (muxCount cs w).1 = w' ∧ (muxCount cs w).2.toNat = (rs.map UInt64.toNat).sum % 2 ^ 64 := by
  unfold muxCount
  rw [muxCounts_called h 0]
  refine ⟨rfl, ?_⟩
  simp only [UInt64.zero_add]
  clear h
  induction rs with
  | nil => rfl
  | cons r rs ih => rw [List.foldr_cons, UInt64.toNat_add, ih, List.map_cons, List.sum_cons]; omega

example : (muxStart exCalls []) = ([1, 2, 3], none) ∧ (muxStart (exCalls.drop 1) []) = ([2, 3], some (.other 0)) ∧
    (muxStart (W := Unit) [] ()).2 = some (.other 0) ∧ (muxCount [fun (w : Unit) => (w, 3), fun w => (w, 4)] ()).2 = 7 := ⟨rfl, rfl, rfl, rfl⟩

/-! ## C65: resumption of several brokers -/

theorem splitOn_ne_nil (sep : UInt8) (s : GoStr) : splitOn sep s ≠ [] := by
  induction s with
  | nil => simp [splitOn]
  | cons c s ih =>
    unfold splitOn
    split
    · simp
    · split <;> simp

theorem splitOn_append' (sep : UInt8) (s t : GoStr) : splitOn sep (s ++ sep :: t) = splitOn sep s ++ splitOn sep t := by
  induction s with
  | nil => simp [splitOn]
  | cons c s ih =>
    rw [List.cons_append]
    conv => lhs; unfold splitOn
    conv => rhs; arg 1; unfold splitOn
    rw [ih]
    split
    · rfl
    · cases h : splitOn sep s with
      | nil => exact absurd h (splitOn_ne_nil _ _)
      | cons a b => simp

theorem splitOn_joined (sep : UInt8) (l : List GoStr) (hl : l ≠ []) : splitOn sep (joinWith sep l) = l.flatMap (splitOn sep) := by
  induction l with
  | nil => exact absurd rfl hl
  | cons a l ih => cases l with
    | nil => simp [joinWith]
    | cons b l =>
      show splitOn sep (a ++ sep :: joinWith sep (b :: l)) = _
      rw [splitOn_append', ih (by simp)]
      rfl

theorem parseToken_empty (m : GMap GoStr Int) : parseToken m [] = .ok m := rfl

theorem parse_join {es : List (List (GoStr × Int))} (hc : ∀ l ∈ es, ∀ e ∈ l, CleanName e.1 ∧ InInt64 e.2) :
    parseResumption (joinWith 59 (es.map (fun l => joinWith 59 (l.map token)))) = .ok (GMap.ofList es.flatten) := by
  have hone : ∀ l : List (GoStr × Int), (∀ e ∈ l, CleanName e.1 ∧ InInt64 e.2) → ∀ m : GMap GoStr Int,
      (splitOn 59 (joinWith 59 (l.map token))).foldlM parseToken m = .ok (l.foldl (fun m e => m.insert e.1 e.2) m) := by
    intro l hl m
    by_cases hn : l = []
    · subst hn; rfl
    · rw [splitOn_join (by simpa using hn) (by
        intro s hs
        obtain ⟨e, he, rfl⟩ := List.mem_map.mp hs
        exact token_clean (hl e he).1)]
      exact foldlM_tokens hl m
  have hall : ∀ m : GMap GoStr Int, (es.flatMap (fun l => splitOn 59 (joinWith 59 (l.map token)))).foldlM parseToken m =
      .ok (es.flatten.foldl (fun m e => m.insert e.1 e.2) m) := by
    induction es with
    | nil => intro m; rfl
    | cons l es ih =>
      intro m
      rw [List.flatMap_cons, List.foldlM_append, hone l (hc l (by simp))]
      show List.foldlM _ _ _ = _
      rw [ih (fun l hl => hc l (by simp [hl])), List.flatten_cons, List.foldl_append]
  unfold parseResumption
  by_cases hn : es = []
  · subst hn; rfl
  · rw [splitOn_joined _ _ (by simpa using hn), List.flatMap_map]
    exact hall GMap.empty

theorem muxResumptions_ok {t : Int} {bps : List BrokerParams} {acc l : List GoStr} (h : muxResumptions t bps acc = .ok l) :
    ∃ es : List (List (GoStr × Int)), l = acc ++ es.map (fun l => joinWith 59 (l.map token)) ∧
      ∀ k v, (k, v) ∈ es.flatten ↔ NamedBy bps t k v := by
  induction bps generalizing acc with
  | nil =>
    simp only [muxResumptions, Except.ok.injEq] at h
    exact ⟨[], by simp [h], by simp [NamedBy]⟩
  | cons bp bps ih =>
    unfold muxResumptions at h
    split at h
    · next hk =>
      split at h
      · simp at h
      · next res hres =>
        obtain ⟨es, h1, h2⟩ := ih h
        unfold kafkaResumptionForTimestamp at hres
        split at hres
        · simp at hres
        · next toks htoks =>
          obtain ⟨e1, h3, h4⟩ := topicTokens_ok htoks
          simp only [Except.ok.injEq] at hres
          refine ⟨e1 :: es, by rw [h1, ← hres, h3]; simp, ?_⟩
          intro k v
          rw [List.flatten_cons, List.mem_append, h2, h4]
          unfold NamedBy
          constructor
          · rintro (hx | ⟨b, hb, hx⟩)
            · exact ⟨bp, by simp, hk, hx⟩
            · exact ⟨b, by simp [hb], hx⟩
          · rintro ⟨b, hb, hkb, hx⟩
            rcases List.mem_cons.mp hb with rfl | hb
            · exact .inl hx
            · exact .inr ⟨b, hb, hkb, hx⟩
    · next hk =>
      split at h
      · obtain ⟨es, h1, h2⟩ := ih h
        refine ⟨es, h1, ?_⟩
        intro k v
        rw [h2]
        unfold NamedBy
        constructor
        · rintro ⟨b, hb, hx⟩; exact ⟨b, by simp [hb], hx⟩
        · rintro ⟨b, hb, hkb, hx⟩
          rcases List.mem_cons.mp hb with rfl | hb
          · exact absurd hkb hk
          · exact ⟨b, hb, hkb, hx⟩
      · simp at h

theorem cleanSource {topic : GoStr} (h : CleanName topic) (p : Int) : CleanName (sourceOf topic p) := by
  have hi := intDigits_clean p
  unfold CleanName sourceOf at *
  simp only [List.mem_append, List.mem_cons, not_or]
  exact ⟨⟨h.1, by decide, hi.2.1⟩, h.2, by decide, hi.2.2⟩

/-- **C65**: when no two brokers share a topic, the common resumption string has for every partition the offset its broker named,
and nothing else. -/
theorem C65_timestamps_partial {bps : List BrokerParams} {t : Int} {s : GoStr} (hc : ∀ bp ∈ bps, ∀ tp ∈ bp.topics, CleanName tp)
    (ho : ∀ bp ∈ bps, ∀ tp p v, bp.broker.getOffset tp p t = some v → InInt64 v)
    (hd : bps.Pairwise (fun a b => ∀ tp ∈ a.topics, tp ∉ b.topics)) (h : resumptionForTimestamp bps t = .ok s) :
    ∃ m, parseResumption s = .ok m ∧ ∀ k v, m.get? k = some v ↔ NamedBy bps t k v := by
  unfold resumptionForTimestamp at h
  split at h
  · simp at h
  · next l hl =>
    simp only [Except.ok.injEq] at h
    obtain ⟨es, h1, h2⟩ := muxResumptions_ok hl
    have hok : ∀ e ∈ es.flatten, CleanName e.1 ∧ InInt64 e.2 := by
      rintro ⟨k, v⟩ he
      obtain ⟨bp, hbp, _, tp, htp, ps, _, p, _, rfl, hv⟩ := (h2 k v).mp he
      exact ⟨cleanSource (hc bp hbp tp htp) p, ho bp hbp _ _ _ hv⟩
    have hsame : ∀ a ∈ bps, ∀ b ∈ bps, ∀ tp, tp ∈ a.topics → tp ∈ b.topics → a = b := by
      clear hl h2 ho hc
      induction bps with
      | nil => simp
      | cons x bps ih =>
        rw [List.pairwise_cons] at hd
        intro a ha b hb tp hta htb
        rcases List.mem_cons.mp ha with ea | ha <;> rcases List.mem_cons.mp hb with eb | hb
        · rw [ea, eb]
        · exact absurd htb (hd.1 b hb tp (ea ▸ hta))
        · exact absurd hta (hd.1 a ha tp (eb ▸ htb))
        · exact ih hd.2 a ha b hb tp hta htb
    have huniq : ∀ k v w, (k, v) ∈ es.flatten → (k, w) ∈ es.flatten → w = v := by
      intro k v w hv hw
      obtain ⟨bp, hbp, _, tp, htp, _, _, p, _, rfl, hv'⟩ := (h2 k v).mp hv
      obtain ⟨bp', hbp', _, tp', htp', _, _, p', _, e, hw'⟩ := (h2 _ w).mp hw
      obtain ⟨rfl, rfl⟩ := sourceOf_inj e
      obtain rfl := hsame bp hbp bp' hbp' tp htp htp'
      rw [hv'] at hw'; exact (Option.some.inj hw').symm
    refine ⟨GMap.ofList es.flatten, ?_, ?_⟩
    · rw [← h, h1, List.nil_append]
      exact parse_join (fun l hl e he => hok e (List.mem_flatten.mpr ⟨l, hl, he⟩))
    intro k v
    rw [← h2]
    constructor
    · intro hg
      refine Classical.byContradiction fun hn => ?_
      by_cases hex : ∃ w, (k, w) ∈ es.flatten
      · obtain ⟨w, hw⟩ := hex
        rw [get?_ofList_agree hw (fun x hx => huniq _ _ _ hw hx)] at hg
        exact hn (by rw [← Option.some.inj hg]; exact hw)
      · rw [get?_ofList_none (fun w hw => hex ⟨w, hw⟩)] at hg
        simp at hg
    · intro hm
      exact get?_ofList_agree hm (fun x hx => huniq _ _ _ hm hx)

/-- Two brokers with the same topic, one at offset 20, the other at 5. -/
def exBrokers : List BrokerParams := [⟨str "kafka://a", str "t", [str "t"], 0, exBroker⟩,
  ⟨str "cardinal://kafka://b", str "t", [str "t"], 0, ⟨fun _ _ _ => some 5, fun _ _ _ => true, fun _ => some [0]⟩⟩]

/-- **C65** refuted: two brokers with a topic of the same name get one offset between them. -/
theorem C65_refuted : ¬ ∀ (bps : List BrokerParams) (t : Int) (s : GoStr) (m : GMap GoStr Int), (∀ bp ∈ bps, ∀ tp ∈ bp.topics, CleanName tp) →
    resumptionForTimestamp bps t = .ok s → parseResumption s = .ok m →
    ∀ bp ∈ bps, ∀ topic ∈ bp.topics, ∀ v, bp.broker.getOffset topic 0 t = some v → m.get? (sourceOf topic 0) = some v := by
  intro h
  have := h exBrokers 77 (str "t:0=20;t:1=20;t:0=5") (((GMap.empty.insert (str "t:0") 20).insert (str "t:1") 20).insert (str "t:0") 5)
    (by decide) (by decide +kernel) (by rfl) _ (List.mem_cons_self ..) (str "t") (by decide) 20 rfl
  exact absurd this (by decide +kernel)

/-- Two brokers without common topics, and one that is not Kafka. -/
def exBrokers2 : List BrokerParams := [⟨str "kafka://a", str "t", [str "t"], 0, exBroker⟩, ⟨str "null://", [], [str "x"], 0, exBroker⟩,
  ⟨str "kafka://c", str "z", [], 0, exBroker⟩,
  ⟨str "cardinal://kafka://b", str "u", [str "u"], 0, ⟨fun _ _ _ => some 5, fun _ _ _ => true, fun _ => some [0]⟩⟩]

example : (∀ bp ∈ exBrokers2, ∀ tp ∈ bp.topics, CleanName tp) ∧ exBrokers2.Pairwise (fun a b => ∀ tp ∈ a.topics, tp ∉ b.topics) ∧
    resumptionForTimestamp exBrokers2 77 = .ok (str "t:0=20;t:1=20;;u:0=5") := by
  refine ⟨by decide, ?_, by decide +kernel⟩
  simp only [exBrokers2, List.pairwise_cons, List.Pairwise.nil, and_true]
  decide

/-! ## C66: URLs -/

/-- **C66** refuted: with the prefix `cardinal://` a Kafka consumer looks for a broker called `cardinal:`. -/
theorem C66_refuted : ¬ ∀ url, protocolOf url = str "kafka" → consumerBrokers url = producerBrokers url := by
  intro h
  exact absurd (h (str "cardinal://kafka://broker:9092") (by decide +kernel)) (by decide +kernel)

/-- What the consumer does instead. -/
example : consumerBrokers (str "cardinal://kafka://broker:9092") = [str "cardinal:"] := by decide +kernel

/-- **C66**: without that prefix producers and consumers agree. -/
theorem C66_partial {url : GoStr} (h : ¬ (str "cardinal://").isPrefixOf url) : consumerBrokers url = producerBrokers url := by
  unfold consumerBrokers producerBrokers
  rw [show trimPrefix (str "cardinal://") url = url by simp [trimPrefix, h]]

theorem trimPrefix_append (p s : GoStr) : trimPrefix p (p ++ s) = s := by
  unfold trimPrefix
  rw [if_pos (by simp [List.isPrefixOf_iff_prefix])]
  simp

theorem afterAt_none {s : GoStr} (h : 64 ∉ s) : afterAt s = s := by
  unfold afterAt
  rw [← List.append_nil s.reverse, List.takeWhile_append_of_pos (by
    intro c hc; simp only [decide_eq_true_eq]; rintro rfl; exact h (by simpa using hc))]
  simp

theorem afterAt_append {u s : GoStr} (h : 64 ∉ s) : afterAt (u ++ 64 :: s) = s := by
  unfold afterAt
  rw [List.reverse_append, List.reverse_cons, List.append_assoc, List.takeWhile_append_of_pos (by
    intro c hc; simp only [decide_eq_true_eq]; rintro rfl; exact h (by simpa using hc))]
  simp

/-- The authority of a URL written as user data, hosts and the rest. -/
def Spec.authority (user : Option GoStr) (hosts : List GoStr) : GoStr :=
  (match user with
    | some u => u ++ [64]
    | none => []) ++ joinWith 44 hosts

theorem joinWith_no {sep x : UInt8} (hx : x ≠ sep) {l : List GoStr} (h : ∀ s ∈ l, x ∉ s) : x ∉ joinWith sep l := by
  match l with
  | [] => simp [joinWith]
  | [s] => simpa [joinWith] using h
  | s :: t :: ss =>
    have := joinWith_no hx (l := t :: ss) (fun s hs => h s (by simp [hs]))
    simp only [joinWith, List.mem_append, List.mem_cons, not_or]
    exact ⟨h s (by simp), hx, this⟩

theorem brokers_of {user : Option GoStr} {hosts : List GoStr} {rest : GoStr} (hne : hosts ≠ [])
    (hh : ∀ h ∈ hosts, ∀ c ∈ [44, 47, 63, 35, 64], c ∉ h) (hu : ∀ u, user = some u → ∀ c ∈ [47, 63, 35], c ∉ u)
    (hr : ∀ c cs, rest = c :: cs → c = 47 ∨ c = 63 ∨ c = 35) (s : GoStr) (hs : trimPrefix (str "kafka://") s = authority user hosts ++ rest) :
    kafkaBrokers s = hosts := by
  have hj : ∀ c ∈ [47, 63, 35, 64], c ∉ joinWith 44 hosts := fun c hc =>
    joinWith_no (by rintro rfl; revert hc; decide) (fun h hm => hh h hm c (List.mem_cons_of_mem _ hc))
  have ha : ∀ c ∈ authority user hosts, c ≠ 47 ∧ c ≠ 63 ∧ c ≠ 35 := by
    intro c hc
    unfold authority at hc
    rcases List.mem_append.mp hc with h | h
    · cases user with
      | none => simp at h
      | some u =>
        simp only [List.mem_append, List.mem_singleton] at h
        rcases h with h | rfl
        · refine ⟨?_, ?_, ?_⟩ <;> rintro rfl <;> exact hu u rfl _ (by decide) h
        · decide
    · refine ⟨?_, ?_, ?_⟩ <;> rintro rfl <;> exact hj _ (by decide) h
  have ht : (authority user hosts ++ rest).takeWhile (fun c => c ≠ 47 ∧ c ≠ 63 ∧ c ≠ 35) = authority user hosts := by
    rw [List.takeWhile_append_of_pos (by intro c hc; simpa using ha c hc)]
    cases rest with
    | nil => simp
    | cons c cs =>
      rw [List.takeWhile_cons_of_neg (by rcases hr c cs rfl with h | h | h <;> simp [h])]
      simp
  unfold kafkaBrokers
  rw [hs, ht]
  have : afterAt (authority user hosts) = joinWith 44 hosts := by
    unfold authority
    cases user with
    | none => exact afterAt_none (hj 64 (by decide))
    | some u => simpa using afterAt_append (u := u) (hj 64 (by decide))
  rw [this, splitOn_join hne (fun h hm => hh h hm 44 (by decide))]

/-- **C66**: the brokers of a Kafka URL are the hosts listed in it, with or without user data, port numbers, path and options. -/
theorem C66_brokers {user : Option GoStr} {hosts : List GoStr} {rest : GoStr} (hne : hosts ≠ [])
    (hh : ∀ h ∈ hosts, ∀ c ∈ [44, 47, 63, 35, 64], c ∉ h) (hu : ∀ u, user = some u → ∀ c ∈ [47, 63, 35], c ∉ u)
    (hr : ∀ c cs, rest = c :: cs → c = 47 ∨ c = 63 ∨ c = 35)
    (hk : ¬ (str "kafka://").isPrefixOf (authority user hosts ++ rest)) :
    consumerBrokers (str "kafka://" ++ authority user hosts ++ rest) = hosts ∧
    producerBrokers (str "kafka://" ++ authority user hosts ++ rest) = hosts ∧
    producerBrokers (str "cardinal://kafka://" ++ authority user hosts ++ rest) = hosts := by
  have h1 : trimPrefix (str "kafka://") (authority user hosts ++ rest) = authority user hosts ++ rest := by
    unfold trimPrefix; rw [if_neg hk]
  have h2 : trimPrefix (str "kafka://") (str "kafka://" ++ authority user hosts ++ rest) = authority user hosts ++ rest := by
    rw [List.append_assoc, trimPrefix_append]
  have h3 : trimPrefix (str "cardinal://") (str "kafka://" ++ authority user hosts ++ rest) = str "kafka://" ++ authority user hosts ++ rest := by
    unfold trimPrefix
    rw [if_neg]
    rw [show str "cardinal://" = 99 :: (str "cardinal://").tail by decide, show str "kafka://" = 107 :: (str "kafka://").tail by decide]
    simp [List.isPrefixOf]
  have h4 : trimPrefix (str "cardinal://") (str "cardinal://kafka://" ++ authority user hosts ++ rest) =
      str "kafka://" ++ authority user hosts ++ rest := by
    rw [show str "cardinal://kafka://" = str "cardinal://" ++ str "kafka://" by decide, List.append_assoc, List.append_assoc,
      trimPrefix_append, List.append_assoc]
  have hb := brokers_of hne hh hu hr
  refine ⟨?_, ?_, ?_⟩
  · unfold consumerBrokers; rw [h2]; exact hb _ h1
  · unfold producerBrokers; rw [h3, h2]; exact hb _ h1
  · unfold producerBrokers; rw [h4, h2]; exact hb _ h1

/-- C66: two brokers behind a user name, and the rest of the URL. -/
example : (∀ h ∈ [str "a:1", str "b:2"], ∀ c ∈ [44, 47, 63, 35, 64], c ∉ h) ∧
    str "kafka://" ++ authority (some (str "user")) [str "a:1", str "b:2"] ++ str "/x?tls=1" = str "kafka://user@a:1,b:2/x?tls=1" ∧
    ¬ (str "kafka://").isPrefixOf (authority (some (str "user")) [str "a:1", str "b:2"] ++ str "/x?tls=1") := by decide +kernel

example : producerBrokers (str "kafka://user@a:1,b:2/x?tls=1") = [str "a:1", str "b:2"] := by decide +kernel

end Verif
