import Verif.Proofs.Safe
import Verif.Spec.Crash
/-! Which messages end the process. -/
namespace Verif
open Spec Path

/-! ## The search -/

theorem clean_rooted_short {q : GoStr} (h : ¬ Relative (q ++ [slash])) : (clean (q ++ [slash])).length ≤ q.length ∨ clean (q ++ [slash]) = [slash] := by
  have hr : ((q ++ [slash]).head? == some slash) = true := by
    have : (q ++ [slash]).head? = some slash := by
      unfold Relative at h
      simpa [slash] using h
    simp [this]
  unfold clean
  simp only [hr, if_true]
  have hsp : split (q ++ [slash]) = split q ++ [[]] := by
    have := split_append_slash q []
    simpa [split] using this
  rw [hsp]
  cases q with
  | nil => right; rfl
  | cons b q =>
    have hb : b = slash := by simpa using hr
    subst hb
    have hsq : split (slash :: q) = [] :: split q := by simp [split]
    rw [hsq]
    generalize hst : ([] :: split q ++ [[]]).foldl (cleanStep true) [] = stack
    have hc : cost stack ≤ q.length + 1 := by
      have h1 := cost_foldl true ([] :: split q ++ [[]]) []
      have h2 := sum_le_cost (split q)
      rw [hst] at h1
      rw [cost_split] at h2
      simp [cost] at h1 h2 ⊢; omega
    rcases join_length stack.reverse with h | h
    · rw [cost_reverse] at h
      left
      split
      · simp at *
      · simp; omega
    · right
      rw [h]; rfl

theorem dir_rooted_short {d : GoStr} (h : ¬ Relative d) : (dir d).length < d.length ∨ (dir d = [slash]) := by
  rcases last_slash d with hs | ⟨q, last, hl, rfl⟩
  · cases d with
    | nil => exact absurd (by simp [Relative]) h
    | cons b bs =>
      unfold Relative at h
      simp only [ne_eq, Decidable.not_not, List.head?_cons, Option.some.injEq] at h
      exact absurd (by simp [h, slash]) hs
  · have hr : ¬ Relative (q ++ [slash]) := by
      unfold Relative at h ⊢
      cases q with
      | nil => simp [slash]
      | cons b bs => simpa using h
    unfold dir
    rw [dirPart_append hl]
    refine (clean_rooted_short hr).imp_left fun h => ?_
    simp; omega

theorem up_succ (p : GoStr) (n : Nat) : up p (n + 1) = dir (up p n) := by
  induction n generalizing p with
  | zero => rfl
  | succ n ih => exact ih (dir p)

theorem up_rooted {p : GoStr} (h : ¬ Relative p) (n : Nat) : ¬ Relative (up p n) := by
  induction n generalizing p with
  | zero => exact h
  | succ n ih => exact ih (dir_rooted h)

theorem dir_slash : dir [slash] = [slash] := by decide

theorem up_slash (n : Nat) : up [slash] n = [slash] := by
  induction n with
  | zero => rfl
  | succ n ih => rw [up_succ, ih, dir_slash]

theorem up_stable {p : GoStr} (h : ¬ Relative p) {n : Nat} (hn : p.length ≤ n) : up p n = [slash] := by
  induction n generalizing p with
  | zero =>
    have : p = [] := List.length_eq_zero_iff.mp (by omega)
    subst this
    exact absurd (by simp [Relative]) h
  | succ n ih =>
    rcases dir_rooted_short h with h1 | h1
    · exact ih (dir_rooted h) (by omega)
    · show up (dir p) n = _
      rw [h1, up_slash]

theorem dot_relative : Relative dot := by decide

/-- The four ways of the loop. -/
theorem loop_cases (frp : Bool) (ps : GMap GoStr Int) (fuel : Nat) (d : GoStr) :
    (∃ n < fuel, up d n = dot ∧ (∀ i < n, up d i ≠ dot ∧ ¬ EndsAt frp ps (dirAt d i)) ∧ decPrefixLoop frp ps fuel d = .ok (ps, false)) ∨
    (∃ n < fuel, ∃ v, (∀ i ≤ n, up d i ≠ dot) ∧ (∀ i < n, ¬ EndsAt frp ps (dirAt d i)) ∧ ps.get? (dirAt d n) = some v ∧ 0 < v ∧
      decPrefixLoop frp ps fuel d = .ok (ps.insert (dirAt d n) (v - 1), true)) ∨
    (∃ n < fuel, (∀ i ≤ n, up d i ≠ dot) ∧ (∀ i < n, ¬ EndsAt frp ps (dirAt d i)) ∧ frp = true ∧ ps.get? (dirAt d n) = some 0 ∧
      decPrefixLoop frp ps fuel d = .error .panic) ∨
    ((∀ i < fuel, up d i ≠ dot ∧ ¬ EndsAt frp ps (dirAt d i)) ∧ decPrefixLoop frp ps fuel d = .error .hang) := by
  induction fuel generalizing d with
  | zero => exact .inr (.inr (.inr ⟨fun i hi => by omega, rfl⟩))
  | succ fuel ih =>
    by_cases hd : d = dot
    · exact .inl ⟨0, by omega, hd, (fun i hi => by omega), by unfold decPrefixLoop; rw [if_pos hd]⟩
    · have hgo : ¬ EndsAt frp ps (dirAt d 0) → decPrefixLoop frp ps (fuel + 1) d = decPrefixLoop frp ps fuel (dir d) := by
        intro hn
        conv => lhs; unfold decPrefixLoop
        rw [if_neg hd]
        simp only []
        split
        · rename_i v hv
          rw [if_neg (fun h => hn (.inl ⟨v, hv, h⟩)), if_neg (fun h => hn (.inr ⟨h.2, by rw [← h.1]; exact hv⟩))]
        · rfl
      by_cases he : EndsAt frp ps (dirAt d 0)
      · right
        rcases he with ⟨v, hv, hp⟩ | ⟨hf, h0⟩
        · left
          refine ⟨0, by omega, v, fun i hi => ?_, fun i hi => by omega, hv, hp, ?_⟩
          · rw [Nat.le_zero.mp hi]; exact hd
          · unfold decPrefixLoop
            rw [if_neg hd]
            have hv' : ps.get? (dirKey d) = some v := hv
            simp only [hv']
            rw [if_pos hp]
            rfl
        · right; left
          refine ⟨0, by omega, fun i hi => ?_, fun i hi => by omega, hf, h0, ?_⟩
          · rw [Nat.le_zero.mp hi]; exact hd
          · unfold decPrefixLoop
            rw [if_neg hd]
            have hv' : ps.get? (dirKey d) = some 0 := h0
            simp only [hv']
            rw [if_neg (by decide), if_pos ⟨trivial, hf⟩]
      · rw [hgo he]
        have hs : ∀ {n : Nat} {P : Nat → Prop}, P 0 → (∀ i < n, P (i + 1)) → ∀ i < n + 1, P i := by
          intro n P h0 h i hi
          cases i with
          | zero => exact h0
          | succ i => exact h i (by omega)
        have hs' : ∀ {n : Nat} {P : Nat → Prop}, P 0 → (∀ i ≤ n, P (i + 1)) → ∀ i ≤ n + 1, P i := by
          intro n P h0 h i hi
          cases i with
          | zero => exact h0
          | succ i => exact h i (by omega)
        rcases ih (dir d) with ⟨n, h1, h2, h3, h4⟩ | ⟨n, h1, v, h2, h3, h4, h5, h6⟩ | ⟨n, h1, h2, h3, h4, h5, h6⟩ | ⟨h1, h2⟩
        · exact .inl ⟨n + 1, by omega, h2, hs ⟨hd, he⟩ h3, h4⟩
        · exact .inr (.inl ⟨n + 1, by omega, v, hs' (P := fun i => up d i ≠ dot) hd h2, hs (P := fun i => ¬ EndsAt frp ps (dirAt d i)) he h3, h4, h5, h6⟩)
        · exact .inr (.inr (.inl ⟨n + 1, by omega, hs' (P := fun i => up d i ≠ dot) hd h2, hs (P := fun i => ¬ EndsAt frp ps (dirAt d i)) he h3, h4, h5, h6⟩))
        · exact .inr (.inr (.inr ⟨hs (P := fun i => up d i ≠ dot ∧ ¬ EndsAt frp ps (dirAt d i)) ⟨hd, he⟩ h1, h2⟩))

/-- A search that finds nothing. -/
def FindsNone (frp : Bool) (ps : GMap GoStr Int) (p : GoStr) : Prop :=
  Unexpected ps p ∧ ∃ n, up p n = dot ∧ ∀ i < n, up p i ≠ dot ∧ ¬ EndsAt frp ps (dirAt p i)

theorem str_dot : str "." = dot := by decide

theorem decPrefix_loop {frp : Bool} {ps : GMap GoStr Int} {p : GoStr} (h : Unexpected ps p) : decPrefix frp ps p = decPrefixLoop frp ps (p.length + 2) p := by
  unfold decPrefix
  split
  · rename_i v hv
    rw [if_neg (by have := h v hv; omega)]
  · rfl

/-- The ways of `DecPrefixCounter`. -/
theorem decPrefix_cases (frp : Bool) (ps : GMap GoStr Int) (p : GoStr) :
    (FindsNone frp ps p ∧ decPrefix frp ps p = .ok (ps, false)) ∨
    (∃ k v, ps.get? k = some v ∧ 0 < v ∧ ¬ RunsOut frp ps p ∧ ¬ NeverEnds frp ps p ∧ decPrefix frp ps p = .ok (ps.insert k (v - 1), true)) ∨
    (RunsOut frp ps p ∧ ¬ NeverEnds frp ps p ∧ decPrefix frp ps p = .error .panic) ∨
    (NeverEnds frp ps p ∧ ¬ RunsOut frp ps p ∧ decPrefix frp ps p = .error .hang) := by
  by_cases hu : Unexpected ps p
  · rw [decPrefix_loop hu]
    rcases loop_cases frp ps (p.length + 2) p with ⟨n, h1, h2, h3, h4⟩ | ⟨n, h1, v, h2, h3, h4, h5, h6⟩ | ⟨n, h1, h2, h3, h4, h5, h6⟩ | ⟨h1, h2⟩
    · exact .inl ⟨⟨hu, n, h2, h3⟩, h4⟩
    · refine .inr (.inl ⟨_, v, h4, h5, ?_, ?_, h6⟩)
      · rintro ⟨hf, -, k, hk1, hk2, hk3⟩
        rcases Nat.lt_trichotomy k n with h | h | h
        · exact h3 k h (.inr ⟨hf, hk2⟩)
        · subst h; rw [h4] at hk2; cases hk2; omega
        · exact hk3 n h (.inl ⟨v, h4, h5⟩)
      · rintro ⟨-, -, hk⟩
        exact hk n (.inl ⟨v, h4, h5⟩)
    · refine .inr (.inr (.inl ⟨⟨h4, hu, n, ?_, h5, h3⟩, ?_, h6⟩))
      · intro i hi; rw [str_dot]; exact h2 i hi
      · rintro ⟨-, -, hk⟩
        exact hk n (.inr ⟨h4, h5⟩)
    · have hr : ¬ Relative p := fun h => decPrefixLoop_relative frp ps (p.length + 2) p h (by omega) h2
      have hall : ∀ n, ¬ EndsAt frp ps (dirAt p n) := by
        intro n
        by_cases hn : n < p.length + 2
        · exact (h1 n hn).2
        · have := (h1 p.length (by omega)).2
          unfold dirAt at this ⊢
          rw [up_stable hr (Nat.le_refl _)] at this
          rwa [up_stable hr (by omega)]
      refine .inr (.inr (.inr ⟨⟨hr, hu, hall⟩, ?_, h2⟩))
      rintro ⟨hf, -, k, -, hk, -⟩
      exact hall k (.inr ⟨hf, hk⟩)
  · refine .inr (.inl ?_)
    have ⟨v, hv, hp⟩ : ∃ v, ps.get? p = some v ∧ 0 < v := by
      cases hv : ps.get? p with
      | none => exact absurd (fun v h => by rw [hv] at h; cases h) hu
      | some v => exact ⟨v, rfl, Int.not_le.mp (fun h => hu (fun w hw => by rw [hv] at hw; cases hw; exact h))⟩
    refine ⟨p, v, hv, hp, fun h => hu h.2.1, fun h => hu h.2.1, ?_⟩
    unfold decPrefix
    rw [hv]
    simp only []
    rw [if_pos hp]

theorem not_findsNone {frp : Bool} {ps : GMap GoStr Int} {p : GoStr} (h : FindsNone frp ps p) : ¬ RunsOut frp ps p ∧ ¬ NeverEnds frp ps p := by
  obtain ⟨-, n, h1, h2⟩ := h
  constructor
  · rintro ⟨hf, -, k, hk1, hk2, -⟩
    by_cases h : k < n
    · exact (h2 k h).2 (.inr ⟨hf, hk2⟩)
    · exact hk1 n (by omega) (by rw [h1, str_dot])
  · rintro ⟨hr, -, -⟩
    exact up_rooted hr n (by rw [h1]; exact dot_relative)

/-- When the search fails, and how. -/
theorem decPrefix_fault {frp : Bool} {ps : GMap GoStr Int} {p : GoStr} {f : Fault} :
    decPrefix frp ps p = .error f ↔ (f = .panic ∧ RunsOut frp ps p) ∨ (f = .hang ∧ NeverEnds frp ps p) := by
  rcases decPrefix_cases frp ps p with ⟨h1, h2⟩ | ⟨k, v, _, _, h1, h2, h3⟩ | ⟨h1, h2, h3⟩ | ⟨h1, h2, h3⟩
  · rw [h2]
    have := not_findsNone h1
    simp [this]
  · rw [h3]; simp [h1, h2]
  · rw [h3]
    constructor
    · intro h; cases h; exact .inl ⟨rfl, h1⟩
    · rintro (⟨rfl, -⟩ | ⟨-, h⟩)
      · rfl
      · exact absurd h h2
  · rw [h3]
    constructor
    · intro h; cases h; exact .inr ⟨rfl, h1⟩
    · rintro (⟨-, h⟩ | ⟨rfl, -⟩)
      · exact absurd h h2
      · rfl

/-! ## Rooted paths -/

theorem foldl_tidy_rooted {segs stack : List GoStr} (h : ∀ s ∈ segs, Tidy s) : segs.foldl (cleanStep true) stack = segs.reverse ++ stack := by
  induction segs generalizing stack with
  | nil => rfl
  | cons s segs ih =>
    have hs : cleanStep true stack s = s :: stack := by
      obtain ⟨h1, h2, h3, -⟩ := h s (by simp)
      simp [cleanStep, h1, show s ≠ dot from h2, show s ≠ dotdot from h3]
    rw [List.foldl_cons, hs, ih (fun t ht => h t (by simp [ht]))]
    simp

theorem clean_rooted_dirs {segs : List GoStr} (h : ∀ s ∈ segs, Tidy s) : clean (slash :: dirs segs) = slash :: join segs := by
  unfold clean
  have hsp : split (slash :: dirs segs) = [] :: (segs ++ [[]]) := by simp [split, split_dirs h]
  simp only [List.head?_cons, beq_self_eq_true, if_true]
  rw [hsp, List.foldl_cons, List.foldl_append]
  have h0 : cleanStep true [] [] = [] := by simp [cleanStep]
  rw [h0, foldl_tidy_rooted h]
  have : [([] : GoStr)].foldl (cleanStep true) (segs.reverse ++ []) = segs.reverse := by simp [cleanStep]
  rw [this, List.reverse_reverse]
  simp

theorem dir_rooted_join {segs : List GoStr} (h : ∀ s ∈ segs, Tidy s) : dir (slash :: join segs) = slash :: join segs.dropLast := by
  rcases eq_nil_or_snoc segs with rfl | ⟨a, s, rfl⟩
  · exact dir_slash
  · have hs : slash ∉ s := (h s (by simp)).2.2.2
    rw [join_concat, List.dropLast_concat]
    have hd : dirPart (slash :: (dirs a ++ s)) = slash :: dirs a := by
      rcases eq_nil_or_snoc a with rfl | ⟨b, t, rfl⟩
      · exact dirPart_append (q := []) hs
      · rw [dirs_concat]
        have : slash :: (dirs b ++ t ++ [slash] ++ s) = (slash :: (dirs b ++ t)) ++ slash :: s := by simp
        rw [this, dirPart_append hs]
        simp
    unfold dir
    rw [hd, clean_rooted_dirs (fun x hx => h x (by simp [hx]))]

theorem up_rooted_join {segs : List GoStr} (h : ∀ s ∈ segs, Tidy s) (n : Nat) : up (slash :: join segs) n = slash :: join (segs.take (segs.length - n)) := by
  induction n with
  | zero => simp [up]
  | succ n ih =>
    rw [up_succ, ih, dir_rooted_join (fun x hx => h x (List.mem_of_mem_take hx)), List.dropLast_eq_take, List.take_take, List.length_take]
    rw [show min (min (segs.length - n) segs.length - 1) (segs.length - n) = segs.length - (n + 1) by omega]

theorem dirAt_rooted {segs : List GoStr} (h : ∀ s ∈ segs, Tidy s) (n : Nat) :
    dirAt (slash :: join segs) n = if n < segs.length then dirs (segs.take (segs.length - n)) else [slash] := by
  unfold dirAt
  rw [up_rooted_join h]
  unfold dirKey
  simp only [if_true]
  split
  · rename_i hn
    rcases eq_nil_or_snoc (segs.take (segs.length - n)) with h0 | ⟨a, s, h0⟩
    · have := congrArg List.length h0
      simp at this
      omega
    · rw [h0, join_concat, dirs_concat]
  · rename_i hn
    rw [show segs.length - n = 0 by omega]
    rfl

/-! ## One part of a block -/

theorem resumed_fields (pb : PB) (s : GoStr) (o : Int) : (pb.updateResumption s o).values = pb.values ∧ (pb.updateResumption s o).deletes = pb.deletes ∧
    (pb.updateResumption s o).prefixes = pb.prefixes ∧ (pb.updateResumption s o).batches = pb.batches ∧
    (pb.updateResumption s o).pendingMessages = pb.pendingMessages ∧ (pb.updateResumption s o).frp = pb.frp ∧
    (pb.updateResumption s o).pendingBatches = pb.pendingBatches := by
  obtain ⟨r, hr⟩ := PB.updateResumption_eq pb s o
  rw [hr]
  exact ⟨rfl, rfl, rfl, rfl, rfl, rfl, rfl⟩

theorem empty_value {vs : GMap GoStr Bytes} {p : GoStr} : ¬ ((vs.get? p).getD []).length > 0 ↔ ∀ v, vs.get? p = some v → v = [] := by
  cases vs.get? p with
  | none => simp
  | some v => simp

theorem not_in {ds : GMap GoStr Unit} {p : GoStr} : ¬ ds.contains p = true ↔ ds.get? p = none := by
  unfold GMap.contains
  cases ds.get? p <;> simp

/-- Which parts fail, and how. -/
theorem apply_fault {C : Codec} {pb : PB} {m : RMsg} {f : Fault} (hl : m.key ≠ []) : pb.applyMessage C m = .error f ↔ Kills C pb m f := by
  obtain ⟨e1, e2, e3, e4, e5, e6, -⟩ := resumed_fields pb m.source m.offset
  unfold PB.applyMessage
  generalize pb.updateResumption m.source m.offset = pb0 at *
  simp only []
  cases hk : m.key with
  | nil => exact absurd hk hl
  | cons t rest =>
    have ht : ∀ {x}, HasType m x ↔ t = x := by intro x; unfold HasType; rw [hk]; simp
    simp only []
    by_cases h2 : t = SubBatchMsgType
    · rw [if_pos h2]
      have hty := ht.mpr h2
      unfold PB.applySubBatchMsg
      by_cases h65 : m.key.length < 65
      · rw [if_pos h65]
        constructor
        · intro h; cases h; exact .short hty h65
        · intro h
          cases h with
          | short => rfl
          | index => rfl
          | update => rfl
          | delete => rfl
          | updateHangs h => exact absurd (h2.symm.trans (ht.mp h)) (by decide)
          | deleteHangs h => exact absurd (h2.symm.trans (ht.mp h)) (by decide)
      · rw [if_neg h65]
        simp only []
        rw [e4]
        constructor
        · intro h
          split at h
          · cases h
          · rename_i i hi
            split at h
            · cases h
            · rename_i bits hb
              split at h
              · rename_i hc
                cases h
                exact .index hty (by omega) hi hb hc
              · split at h
                · cases h
                · split at h <;> cases h
        · intro h
          cases h with
          | short _ h => exact absurd h h65
          | index _ _ hi hb hc =>
            unfold subOf at hb
            simp only [hi, hb]
            rw [if_pos hc]
          | update h => exact absurd (h2.symm.trans (ht.mp h)) (by decide)
          | delete h => exact absurd (h2.symm.trans (ht.mp h)) (by decide)
          | updateHangs h => exact absurd (h2.symm.trans (ht.mp h)) (by decide)
          | deleteHangs h => exact absurd (h2.symm.trans (ht.mp h)) (by decide)
    · rw [if_neg h2]
      by_cases h3 : t = BatchMsgType
      · rw [if_pos h3]
        have hty := ht.mpr h3
        unfold PB.applyBatchMsg
        simp only []
        rw [e1, e3, e6]
        by_cases hv : ((pb.values.get? (m.key.drop 33)).getD []).length > 0
        · rw [if_pos hv]
          constructor
          · intro h; cases h
          · intro h
            cases h with
            | short h => exact absurd (ht.mp h) h2
            | index h => exact absurd (ht.mp h) h2
            | update _ h => exact absurd hv (empty_value.mpr h)
            | delete h => exact absurd (h3.symm.trans (ht.mp h)) (by decide)
            | updateHangs _ h => exact absurd hv (empty_value.mpr h)
            | deleteHangs h => exact absurd (h3.symm.trans (ht.mp h)) (by decide)
        · rw [if_neg hv]
          have hd := decPrefix_fault (frp := pb.frp) (ps := pb.prefixes) (p := m.key.drop 33) (f := f)
          have hempty := empty_value.mp hv
          constructor
          · intro h
            split at h
            · rename_i e he
              cases h
              rcases hd.mp he with ⟨rfl, h⟩ | ⟨rfl, h⟩
              · exact .update hty hempty h
              · exact .updateHangs hty hempty h
            · cases h
            · cases h
          · intro h
            have : decPrefix pb.frp pb.prefixes (m.key.drop 33) = .error f := by
              cases h with
              | short h => exact absurd (ht.mp h) h2
              | index h => exact absurd (ht.mp h) h2
              | update _ _ h => exact hd.mpr (.inl ⟨rfl, h⟩)
              | delete h => exact absurd (h3.symm.trans (ht.mp h)) (by decide)
              | updateHangs _ _ h => exact hd.mpr (.inr ⟨rfl, h⟩)
              | deleteHangs h => exact absurd (h3.symm.trans (ht.mp h)) (by decide)
            rw [this]
      · rw [if_neg h3]
        by_cases h4 : t = BatchDeleteMsgType
        · rw [if_pos h4]
          have hty := ht.mpr h4
          unfold PB.applyDeleteMsg
          simp only []
          rw [e2, e3, e6]
          by_cases hv : pb.deletes.contains (m.key.drop 33) = true
          · rw [if_pos hv]
            constructor
            · intro h; cases h
            · intro h
              cases h with
              | short h => exact absurd (ht.mp h) h2
              | index h => exact absurd (ht.mp h) h2
              | update h => exact absurd (ht.mp h) h3
              | delete _ h => exact absurd hv (not_in.mpr h)
              | updateHangs h => exact absurd (ht.mp h) h3
              | deleteHangs _ h => exact absurd hv (not_in.mpr h)
          · rw [if_neg hv]
            have hd := decPrefix_fault (frp := pb.frp) (ps := pb.prefixes) (p := m.key.drop 33) (f := f)
            have hempty := not_in.mp hv
            constructor
            · intro h
              split at h
              · rename_i e he
                cases h
                rcases hd.mp he with ⟨rfl, h⟩ | ⟨rfl, h⟩
                · exact .delete hty hempty h
                · exact .deleteHangs hty hempty h
              · cases h
              · cases h
            · intro h
              have : decPrefix pb.frp pb.prefixes (m.key.drop 33) = .error f := by
                cases h with
                | short h => exact absurd (ht.mp h) h2
                | index h => exact absurd (ht.mp h) h2
                | update h => exact absurd (ht.mp h) h3
                | delete _ _ h => exact hd.mpr (.inl ⟨rfl, h⟩)
                | updateHangs h => exact absurd (ht.mp h) h3
                | deleteHangs _ _ h => exact hd.mpr (.inr ⟨rfl, h⟩)
              rw [this]
        · rw [if_neg h4]
          constructor
          · intro h; cases h
          · intro h
            cases h with
            | short h => exact absurd (ht.mp h) h2
            | index h => exact absurd (ht.mp h) h2
            | update h => exact absurd (ht.mp h) h3
            | delete h => exact absurd (ht.mp h) h4
            | updateHangs h => exact absurd (ht.mp h) h3
            | deleteHangs h => exact absurd (ht.mp h) h4

/-! ## Messages that wait -/

/-- A message that is kept until the header of its sub-batch has come, or for which there is no counter, does no harm. -/
structure Waits (C : Codec) (pb : PB) (w : RMsg) : Prop where
  len : w.key ≠ []
  sub : HasType w 2 → 65 ≤ w.key.length ∧ ∃ i, C.decInt (w.key.drop 65) = some i ∧ ∀ bits, pb.batches.get? (subOf w) = some bits → 0 ≤ i ∧ i < bits.length
  path : HasType w 3 ∨ HasType w 4 → FindsNone pb.frp pb.prefixes (w.key.drop 33)

theorem Waits.alive {C : Codec} {pb : PB} {w : RMsg} (h : Waits C pb w) (f : Fault) : ¬ Kills C pb w f := by
  intro hk
  cases hk with
  | short ht hl => have := (h.sub ht).1; omega
  | index ht _ hi hb hc =>
    obtain ⟨-, i, h1, h2⟩ := h.sub ht
    rw [hi] at h1; cases h1
    have := h2 _ hb
    omega
  | update ht _ hr => exact (not_findsNone (h.path (.inl ht))).1 hr
  | delete ht _ hr => exact (not_findsNone (h.path (.inr ht))).1 hr
  | updateHangs ht _ hr => exact (not_findsNone (h.path (.inl ht))).2 hr
  | deleteHangs ht _ hr => exact (not_findsNone (h.path (.inr ht))).2 hr

/-- What applying a message does to the sub-batches and the counters. -/
structure Grown (pb pb' : PB) : Prop where
  frp : pb'.frp = pb.frp
  lens : ∀ id, (pb'.batches.get? id).map List.length = (pb.batches.get? id).map List.length
  counts : pb'.prefixes = pb.prefixes ∨ ∃ k v, pb.prefixes.get? k = some v ∧ 0 < v ∧ pb'.prefixes = pb.prefixes.insert k (v - 1)

theorem findsNone_counted {frp : Bool} {ps : GMap GoStr Int} {p k : GoStr} {v : Int} (h : FindsNone frp ps p) (hk : ps.get? k = some v) (hv : 0 < v) :
    FindsNone frp (ps.insert k (v - 1)) p := by
  obtain ⟨hu, n, h1, h2⟩ := h
  refine ⟨?_, n, h1, fun i hi => ⟨(h2 i hi).1, ?_⟩⟩
  · intro w hw
    rw [GMap.get?_insert] at hw
    split at hw
    · rename_i e; subst e
      have := hu v hk; omega
    · exact hu w hw
  · have hne : k ≠ dirAt p i := by
      rintro rfl
      exact (h2 i hi).2 (.inl ⟨v, hk, hv⟩)
    unfold EndsAt
    rw [GMap.get?_insert]
    split
    · rename_i e; exact absurd e (by first | exact hne | exact hne.symm)
    · exact (h2 i hi).2

theorem Waits.grown {C : Codec} {pb pb' : PB} {w : RMsg} (h : Waits C pb w) (hg : Grown pb pb') : Waits C pb' w := by
  refine ⟨h.len, fun ht => ?_, fun ht => ?_⟩
  · obtain ⟨h1, i, h2, h3⟩ := h.sub ht
    refine ⟨h1, i, h2, fun bits hb => ?_⟩
    have := hg.lens (subOf w)
    rw [hb] at this
    cases hb' : pb.batches.get? (subOf w) with
    | none => rw [hb'] at this; cases this
    | some bits' =>
      rw [hb'] at this
      simp only [Option.map_some, Option.some.injEq] at this
      have := h3 _ hb'
      omega
  · have := h.path ht
    rw [hg.frp]
    rcases hg.counts with he | ⟨k, v, hk, hv, he⟩
    · rw [he]; exact this
    · rw [he]; exact findsNone_counted this hk hv

theorem Grown.refl (pb : PB) : Grown pb pb := ⟨rfl, fun _ => rfl, .inl rfl⟩

theorem Grown.of_eq {pb pb' : PB} (h1 : pb'.frp = pb.frp) (h2 : pb'.batches = pb.batches) (h3 : pb'.prefixes = pb.prefixes) : Grown pb pb' :=
  ⟨h1, fun _ => by rw [h2], .inl h3⟩

/-- What applying a message does. -/
theorem apply_grown {C : Codec} {pb pb' : PB} {m : RMsg} {r : Bool} (h : pb.applyMessage C m = .ok (pb', r)) :
    Grown pb pb' ∧ (pb'.pendingMessages = pb.pendingMessages ∨ (pb'.pendingMessages = pb.pendingMessages.insert m.key m ∧ Waits C pb' m)) := by
  obtain ⟨e1, e2, e3, e4, e5, e6, -⟩ := resumed_fields pb m.source m.offset
  unfold PB.applyMessage at h
  generalize pb.updateResumption m.source m.offset = pb0 at *
  simp only [] at h
  split at h
  · cases h
  · rename_i t rest hk
    have hne : m.key ≠ [] := by rw [hk]; simp
    have ht : ∀ {x}, HasType m x ↔ t = x := by intro x; unfold HasType; rw [hk]; simp
    split at h
    · rename_i h2
      unfold PB.applySubBatchMsg at h
      split at h
      · cases h
      · rename_i h65
        simp only [] at h
        split at h
        · cases h; exact ⟨.of_eq e6 e4 e3, .inl e5⟩
        · rename_i i hi
          split at h
          · rename_i hb
            cases h
            refine ⟨.of_eq e6 e4 e3, .inr ⟨by simp only [e5], hne, fun _ => ⟨by omega, i, hi, fun bits hb' => ?_⟩, fun h => ?_⟩⟩
            · have hb' : pb0.batches.get? (subOf m) = some bits := hb'
              unfold subOf at hb'
              rw [hb] at hb'; cases hb'
            · rw [ht, ht, h2] at h
              rcases h with h | h <;> exact absurd h (by decide)
          · rename_i bits hb
            split at h
            · cases h
            · split at h
              · cases h; exact ⟨.of_eq e6 e4 e3, .inl e5⟩
              · split at h
                · cases h; exact ⟨.of_eq e6 e4 e3, .inl e5⟩
                · cases h
                  refine ⟨⟨e6, fun id => ?_, .inl e3⟩, .inl e5⟩
                  simp only [GMap.get?_insert]
                  split
                  · rename_i e; subst e
                    rw [← e4, hb]
                    simp [setTrue]
                  · rw [e4]
    · rename_i h2
      have hq : ∀ {pb' : PB}, pb'.frp = pb0.frp → pb'.prefixes = pb0.prefixes → FindsNone pb0.frp pb0.prefixes (m.key.drop 33) → Waits C pb' m := by
        intro pb' h1 h3 hq
        refine ⟨hne, fun h => absurd (ht.mp h) h2, fun _ => ?_⟩
        rw [h1, h3]; exact hq
      split at h
      · unfold PB.applyBatchMsg at h
        simp only [] at h
        split at h
        · cases h; exact ⟨.of_eq e6 e4 e3, .inl e5⟩
        · rcases decPrefix_cases pb0.frp pb0.prefixes (m.key.drop 33) with ⟨h1, hd⟩ | ⟨k, v, hk, hv, _, _, hd⟩ | ⟨_, _, hd⟩ | ⟨_, _, hd⟩
          · rw [hd] at h
            cases h
            exact ⟨.of_eq e6 e4 e3, .inr ⟨by simp only [e5], hq rfl rfl h1⟩⟩
          · rw [hd] at h
            cases h
            exact ⟨⟨e6, fun _ => by rw [e4], .inr ⟨k, v, e3 ▸ hk, hv, by rw [e3]⟩⟩, .inl e5⟩
          · rw [hd] at h; cases h
          · rw [hd] at h; cases h
      · split at h
        · unfold PB.applyDeleteMsg at h
          simp only [] at h
          split at h
          · cases h; exact ⟨.of_eq e6 e4 e3, .inl e5⟩
          · rcases decPrefix_cases pb0.frp pb0.prefixes (m.key.drop 33) with ⟨h1, hd⟩ | ⟨k, v, hk, hv, _, _, hd⟩ | ⟨_, _, hd⟩ | ⟨_, _, hd⟩
            · rw [hd] at h
              cases h
              exact ⟨.of_eq e6 e4 e3, .inr ⟨by simp only [e5], hq rfl rfl h1⟩⟩
            · rw [hd] at h
              cases h
              exact ⟨⟨e6, fun _ => by rw [e4], .inr ⟨k, v, e3 ▸ hk, hv, by rw [e3]⟩⟩, .inl e5⟩
            · rw [hd] at h; cases h
            · rw [hd] at h; cases h
        · cases h; exact ⟨.of_eq e6 e4 e3, .inl e5⟩

/-- Everything that waits does no harm. -/
def AllWait (C : Codec) (pb : PB) : Prop := ∀ k w, pb.pendingMessages.get? k = some w → Waits C pb w

theorem apply_allWait {C : Codec} {pb pb' : PB} {m : RMsg} {r : Bool} (h : pb.applyMessage C m = .ok (pb', r)) (ha : AllWait C pb) : AllWait C pb' := by
  obtain ⟨hg, hm⟩ := apply_grown h
  intro k w hw
  rcases hm with hm | ⟨hm, hwm⟩
  · rw [hm] at hw; exact (ha k w hw).grown hg
  · rw [hm, GMap.get?_insert] at hw
    split at hw
    · cases hw; exact hwm
    · exact (ha k w hw).grown hg

/-- A message that waits for a sub-batch with fewer messages. -/
def TooMany (C : Codec) (id : Hash) (c : Int) (w : RMsg) : Prop := HasType w 2 ∧ subOf w = id ∧ ∃ i, C.decInt (w.key.drop 65) = some i ∧ (i < 0 ∨ c ≤ i)

/-- Going through what waits. -/
theorem drain_fault {C : Codec} {id : Hash} {c : Nat} {l : List (Bytes × RMsg)} {pb : PB} (hb : (pb.batches.get? id).map List.length = some c)
    (hl : ∀ e ∈ l, (TooMany C id c e.2 ∧ 65 ≤ e.2.key.length) ∨ Waits C pb e.2) :
    (∀ f, PB.drain C pb l = .error f ↔ f = .panic ∧ ∃ e ∈ l, TooMany C id c e.2) ∧
    ∀ pb', PB.drain C pb l = .ok pb' → (∀ w, Waits C pb w → Waits C pb' w) ∧
      (∀ k w, pb'.pendingMessages.get? k = some w → pb.pendingMessages.get? k = some w ∨ Waits C pb' w) ∧ ∀ e ∈ l, Waits C pb' e.2 := by
  induction l generalizing pb with
  | nil =>
    refine ⟨fun f => ?_, fun pb' h => ?_⟩
    · simp [PB.drain]
    · cases h; exact ⟨fun _ h => h, fun _ _ h => .inl h, by simp⟩
  | cons e l ih =>
    obtain ⟨k, m⟩ := e
    have hkill : TooMany C id c m ∧ 65 ≤ m.key.length → pb.applyMessage C m = .error .panic := by
      rintro ⟨⟨h1, h2, i, h3, h4⟩, h5⟩
      cases hbs : pb.batches.get? id with
      | none => rw [hbs] at hb; cases hb
      | some bits =>
        rw [hbs] at hb
        simp only [Option.map_some, Option.some.injEq] at hb
        exact (apply_fault (by rintro h; rw [h] at h5; simp at h5)).mpr (.index h1 h5 h3 (by rw [h2]; exact hbs) (by rw [hb]; exact h4))
    unfold PB.drain
    cases ha : pb.applyMessage C m with
    | error f =>
      have hbad : TooMany C id c m ∧ 65 ≤ m.key.length := by
        rcases hl (k, m) (by simp) with h | h
        · exact h
        · exact absurd ((apply_fault h.len).mp ha) (h.alive f)
      rw [hkill hbad] at ha
      cases ha
      refine ⟨fun f => ?_, fun pb' h => by cases h⟩
      constructor
      · intro h; cases h; exact ⟨rfl, (k, m), by simp, hbad.1⟩
      · rintro ⟨rfl, -⟩; rfl
    | ok r =>
      obtain ⟨pb1, r⟩ := r
      have hgood : Waits C pb m := by
        rcases hl (k, m) (by simp) with h | h
        · rw [hkill h] at ha; cases ha
        · exact h
      have hnot : ¬ TooMany C id c m := by
        rintro ⟨h1, h2, i, h3, h4⟩
        obtain ⟨-, j, h5, h6⟩ := hgood.sub h1
        rw [h3] at h5; cases h5
        cases hbs : pb.batches.get? id with
        | none => rw [hbs] at hb; cases hb
        | some bits =>
          rw [hbs] at hb
          simp only [Option.map_some, Option.some.injEq] at hb
          have := h6 bits (by rw [h2]; exact hbs)
          omega
      obtain ⟨hg, hm⟩ := apply_grown ha
      have hb1 : (pb1.batches.get? id).map List.length = some c := by rw [hg.lens]; exact hb
      have hl1 : ∀ e ∈ l, (TooMany C id c e.2 ∧ 65 ≤ e.2.key.length) ∨ Waits C pb1 e.2 :=
        fun e he => (hl e (by simp [he])).imp_right (·.grown hg)
      have hp1 : ∀ k w, pb1.pendingMessages.get? k = some w → pb.pendingMessages.get? k = some w ∨ Waits C pb1 w := by
        intro k w hw
        rcases hm with hm | ⟨hm, hwm⟩
        · rw [hm] at hw; exact .inl hw
        · rw [hm, GMap.get?_insert] at hw
          split at hw
          · cases hw; exact .inr hwm
          · exact .inl hw
      have key : ∀ pb2 : PB, pb2.batches = pb1.batches → pb2.frp = pb1.frp → pb2.prefixes = pb1.prefixes →
          (∀ k w, pb2.pendingMessages.get? k = some w → pb1.pendingMessages.get? k = some w) →
          (∀ f, PB.drain C pb2 l = .error f ↔ f = .panic ∧ ∃ e ∈ (k, m) :: l, TooMany C id c e.2) ∧
          ∀ pb', PB.drain C pb2 l = .ok pb' → (∀ w, Waits C pb w → Waits C pb' w) ∧
            (∀ k w, pb'.pendingMessages.get? k = some w → pb.pendingMessages.get? k = some w ∨ Waits C pb' w) ∧ ∀ e ∈ (k, m) :: l, Waits C pb' e.2 := by
        intro pb2 q1 q2 q3 q4
        have hg2 : Grown pb1 pb2 := .of_eq q2 q1 q3
        obtain ⟨i1, i2⟩ := ih (pb := pb2) (by rw [q1]; exact hb1) (fun e he => (hl1 e he).imp_right (·.grown hg2))
        refine ⟨fun f => ?_, fun pb' h => ?_⟩
        · rw [i1]
          constructor
          · rintro ⟨rfl, e, he, h⟩; exact ⟨rfl, e, by simp [he], h⟩
          · rintro ⟨rfl, e, he, h⟩
            rcases List.mem_cons.mp he with rfl | he
            · exact absurd h hnot
            · exact ⟨rfl, e, he, h⟩
        · obtain ⟨j1, j2, j3⟩ := i2 pb' h
          have hw : ∀ w, Waits C pb1 w → Waits C pb' w := fun w hw => j1 w (hw.grown hg2)
          refine ⟨fun w h => hw w (h.grown hg), fun k w h => ?_, fun e he => ?_⟩
          · rcases j2 k w h with h | h
            · rcases hp1 k w (q4 k w h) with h | h
              · exact .inl h
              · exact .inr (hw w h)
            · exact .inr h
          · rcases List.mem_cons.mp he with rfl | he
            · exact hw m (hgood.grown hg)
            · exact j3 e he
      cases r
      · exact key pb1 rfl rfl rfl (fun _ _ h => h)
      · refine key _ rfl rfl rfl (fun k w h => ?_)
        simp only [GMap.get?_erase] at h
        split at h
        · cases h
        · exact h

/-- The header of a sub-batch. -/
theorem addSub_fault {C : Codec} {env : Env} {t : Nat} {pb : PB} {m : RMsg} {id : Hash} {c : Int} (ha : AllWait C pb) :
    (∀ f, pb.addSubHeader C env t m id c = .error f ↔ f = .panic ∧ (c < 0 ∨ ∃ k w, pb.pendingMessages.get? k = some w ∧ TooMany C id c w)) ∧
    ∀ pb', pb.addSubHeader C env t m id c = .ok pb' → AllWait C pb' := by
  unfold PB.addSubHeader
  split
  · rename_i hc
    refine ⟨fun f => ?_, fun pb' h => by cases h⟩
    constructor
    · intro h; cases h; exact ⟨rfl, .inl hc⟩
    · rintro ⟨rfl, -⟩; rfl
  · rename_i hc
    simp only []
    obtain ⟨n, rfl⟩ : ∃ n : Nat, c = n := ⟨c.toNat, by omega⟩
    obtain ⟨e1, e2, e3, e4, e5, e6, -⟩ := resumed_fields
      { pb with pendingBatches := pb.pendingBatches.erase id, batches := pb.batches.insert id (List.replicate (n : Int).toNat false) } m.source m.offset
    generalize PB.updateResumption
      { pb with pendingBatches := pb.pendingBatches.erase id, batches := pb.batches.insert id (List.replicate (n : Int).toNat false) } m.source m.offset = pb1 at *
    simp only [] at e1 e2 e3 e4 e5 e6
    have hw : ∀ k w, pb.pendingMessages.get? k = some w → (TooMany C id n w ∧ 65 ≤ w.key.length) ∨ Waits C pb1 w := by
      intro k w hk
      have h := ha k w hk
      by_cases hbad : TooMany C id n w
      · exact .inl ⟨hbad, (h.sub hbad.1).1⟩
      · refine .inr ⟨h.len, fun ht => ?_, fun ht => ?_⟩
        · obtain ⟨h1, i, h2, h3⟩ := h.sub ht
          refine ⟨h1, i, h2, fun bits hb => ?_⟩
          rw [e4, GMap.get?_insert] at hb
          split at hb
          · rename_i e
            cases hb
            have : ¬ (i < 0 ∨ (n : Int) ≤ i) := fun hi => hbad ⟨ht, e.symm, i, h2, hi⟩
            simp
            omega
          · exact h3 bits hb
        · rw [e6, e3]; exact h.path ht
    obtain ⟨d1, d2⟩ := drain_fault (C := C) (id := id) (c := n) (l := env.order.ord (2 * t) pb1.pendingMessages.entries) (pb := pb1)
      (by rw [e4, GMap.get?_insert, if_pos rfl]; simp)
      (fun e he => hw e.1 e.2 (by rw [← e5]; exact (GMap.get?_eq_some_iff _).mpr ((env.order.perm _ _).mem_iff.mp he)))
    refine ⟨fun f => ?_, fun pb' h => ?_⟩
    · rw [d1]
      constructor
      · rintro ⟨rfl, e, he, h⟩
        exact ⟨rfl, .inr ⟨e.1, e.2, by rw [← e5]; exact (GMap.get?_eq_some_iff _).mpr ((env.order.perm _ _).mem_iff.mp he), h⟩⟩
      · rintro ⟨rfl, h | ⟨k, w, h1, h2⟩⟩
        · exact absurd h hc
        · exact ⟨rfl, (k, w), (env.order.perm _ _).mem_iff.mpr ((GMap.get?_eq_some_iff _).mp (by rw [e5]; exact h1)), h2⟩
    · obtain ⟨j1, j2, j3⟩ := d2 pb' h
      intro k w hk
      rcases j2 k w hk with h | h
      · exact j3 (k, w) ((env.order.perm _ _).mem_iff.mpr ((GMap.get?_eq_some_iff _).mp h))
      · exact h

/-! ## The processor -/

/-- In all blocks that are being assembled what waits does no harm. -/
def MPWaits (C : Codec) (mp : MP) : Prop := ∀ h pb, mp.pendingBatches.get? h = some pb → AllWait C pb

theorem MPWaits.update {C : Codec} {mp : MP} (h : MPWaits C mp) {hash : Hash} {pb : PB} (hp : AllWait C pb) :
    MPWaits C { mp with pendingBatches := mp.pendingBatches.insert hash pb } := by
  intro x q hq
  simp only [GMap.get?_insert] at hq
  split at hq
  · cases hq; exact hp
  · exact h _ _ hq

theorem MPWaits.finish {C : Codec} {mp : MP} (h : MPWaits C mp) (hash : Hash) : MPWaits C (mp.finish hash) := by
  rcases finish_cases mp hash with ⟨he, _⟩ | ⟨pb, hp, hr, he⟩
  · rw [he]; exact h
  · rw [he]
    intro x q hq
    simp only [GMap.get?_erase] at hq
    split at hq
    · cases hq
    · exact h _ _ hq

theorem waits_parts (C : Codec) (env : Env) : XParts C env true (fun _ => True) (MPWaits C) where
  begin mp m _ _ h := fun x pb hp => h _ _ (begin_pending hp)
  short := .inl rfl
  reorg mp m _ _ h _ := by
    unfold MP.onReorg
    simp only []
    split
    · exact h
    · exact h
  add mp m b _ _ h _ _ _ _ _ := by
    have hf := headerPB_fields env mp m (hashOf m.key) b
    have : AllWait C (headerPB env mp m (hashOf m.key) b) := by
      intro k w hw
      rw [hf.2.1] at hw
      simp [GMap.get?, GMap.empty, GMap.look] at hw
    exact h.update this
  sub mp m _ _ h _ _ _ _ := by
    refine Post.of_ok (fun mp' e hr => ?_)
    unfold MP.onSubHeader at hr
    split at hr
    · cases hr; exact h
    · rename_i pb hp
      simp only [] at hr
      split at hr
      · cases hr; exact h
      · split at hr
        · cases hr
          refine h.update (fun k w hw => ?_)
          exact (h _ _ hp k w hw).grown (.of_eq rfl rfl rfl)
        · split at hr
          · cases hr
          · rename_i pb' hpb
            cases hr
            exact (h.update ((addSub_fault (h _ _ hp)).2 _ hpb)).finish _
  other mp m _ _ h _ _ _ _ := by
    refine Post.of_ok (fun mp' e hr => ?_)
    unfold MP.onOther at hr
    split at hr
    · cases hr; exact h
    · rename_i pb hp
      split at hr
      · cases hr
      · rename_i pb' r ha
        cases hr
        exact (h.update (apply_allWait ha (h _ _ hp))).finish _
  queued _ _ _ _ _ _ _ _ _ _ := trivial
  drop mp m _ _ _ h := h
  finish mp m _ _ _ h := h.finish _

theorem MPWaits.newMP {C : Codec} {cfg : Config} {mp : MP} (h : newMP cfg = .ok mp) : MPWaits C mp := by
  unfold Verif.newMP at h
  split at h
  · simp at h
  · simp at h; subst h
    intro h pb hp; simp [GMap.get?, GMap.empty, GMap.look] at hp

end Verif
