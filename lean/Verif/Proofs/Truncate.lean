import Verif.Proofs.Consumer
/-! Eviction requests that come after a run do not matter for it. -/
namespace Verif

/-- Only the requests read before tick `T`. -/
def Env.upTo (env : Env) (T : Nat) : Env := { env with evict := fun t => if t < T then env.evict t else [] }

theorem drainEvict_tick (mp : MP) (l : List Int) : (mp.drainEvict l).tick = mp.tick := by
  unfold MP.drainEvict
  induction l generalizing mp with
  | nil => rfl
  | cons a l ih => rw [List.foldl_cons, ih]; rfl

theorem begin_tick (env : Env) (mp : MP) (m : RMsg) : (mp.begin env m).tick = mp.tick + 1 := by
  have : ∀ (mp : MP), (mp.updateResumption m.source m.offset).tick = mp.tick := by
    intro mp; unfold MP.updateResumption; repeat' split
    all_goals rfl
  unfold MP.begin
  simp only [this, drainEvict_tick]

theorem finish_tick (mp : MP) (h : Hash) : (mp.finish h).tick = mp.tick := by
  unfold MP.finish
  repeat' split
  all_goals rfl

/-- The function does not turn back the clock. -/
def NotBack (self : MP → RMsg → MPResult) : Prop := ∀ mp m r, self mp m = .ok r → mp.tick ≤ r.1.tick

theorem replay_tick {self : MP → RMsg → MPResult} (h : NotBack self) : ∀ (l : List RMsg) (mp : MP) r, replay self mp l = .ok r → mp.tick ≤ r.1.tick := by
  intro l
  induction l with
  | nil => intro mp r hr; cases hr; exact Nat.le_refl _
  | cons m l ih =>
    intro mp r hr
    unfold replay at hr
    split at hr
    · cases hr
    · rename_i e; cases hr; exact h _ _ _ e
    · rename_i e; exact Nat.le_trans (h _ _ _ e) (ih _ _ hr)

theorem onHeader_tick {C : Codec} {env : Env} {self : MP → RMsg → MPResult} (h : NotBack self) {mp : MP} {m : RMsg} {hash : Hash} {r}
    (hr : mp.onHeader C env self m hash = .ok r) : mp.tick ≤ r.1.tick := by
  unfold MP.onHeader at hr
  split at hr
  · cases hr; exact Nat.le_refl _
  · split at hr
    · cases hr; exact Nat.le_refl _
    · simp only [] at hr
      split at hr
      · cases hr; show _ ≤ (MP.finish _ _).tick; rw [finish_tick]; exact Nat.le_refl _
      · split at hr
        · cases hr
        · rename_i e; cases hr; exact replay_tick h _ (mp.addHeader env m hash _) _ e
        · rename_i e; cases hr
          show _ ≤ (MP.finish _ _).tick; rw [finish_tick]; exact replay_tick h _ (mp.addHeader env m hash _) _ e

theorem step_tick {C : Codec} {env : Env} {self : MP → RMsg → MPResult} (h : NotBack self) {mp : MP} {m : RMsg} {r}
    (hr : MP.step C env self mp m = .ok r) : mp.tick + 1 ≤ r.1.tick := by
  rw [← begin_tick env mp m]
  unfold MP.step at hr
  simp only [] at hr
  generalize mp.begin env m = mp at hr ⊢
  split at hr
  · cases hr
  split at hr
  · unfold MP.onReorg at hr
    simp only [] at hr
    split at hr <;> cases hr <;> exact Nat.le_refl _
  split at hr
  · cases hr; exact Nat.le_refl _
  split at hr
  · cases hr; exact Nat.le_refl _
  split at hr
  · exact onHeader_tick h hr
  split at hr
  · unfold MP.onSubHeader at hr
    split at hr
    · cases hr; exact Nat.le_refl _
    · simp only [] at hr
      split at hr
      · cases hr; exact Nat.le_refl _
      · split at hr
        · cases hr; exact Nat.le_refl _
        · split at hr
          · cases hr
          · cases hr; show _ ≤ (MP.finish _ _).tick; rw [finish_tick]; exact Nat.le_refl _
  · unfold MP.onOther at hr
    split at hr
    · cases hr; exact Nat.le_refl _
    · split at hr
      · cases hr
      · cases hr; show _ ≤ (MP.finish _ _).tick; rw [finish_tick]; exact Nat.le_refl _

/-- Results before tick `T` are the same. -/
def AgreeTo (T : Nat) (self self' : MP → RMsg → MPResult) : Prop := ∀ mp m r, self mp m = .ok r → r.1.tick ≤ T → self' mp m = .ok r

theorem replay_agreeTo {T : Nat} {self self' : MP → RMsg → MPResult} (h : NotBack self) (ha : AgreeTo T self self') :
    ∀ (l : List RMsg) (mp : MP) r, replay self mp l = .ok r → r.1.tick ≤ T → replay self' mp l = .ok r := by
  intro l
  induction l with
  | nil => intro mp r hr _; exact hr
  | cons m l ih =>
    intro mp r hr hT
    unfold replay at hr ⊢
    split at hr
    · cases hr
    · rename_i e; cases hr; rw [ha _ _ _ e hT]
    · rename_i e; rw [ha _ _ _ e (Nat.le_trans (replay_tick h _ _ _ hr) hT)]; exact ih _ _ hr hT

theorem onHeader_agreeTo {C : Codec} {env : Env} {T : Nat} {self self' : MP → RMsg → MPResult} (h : NotBack self) (ha : AgreeTo T self self')
    {mp : MP} {m : RMsg} {hash : Hash} {r} (hr : mp.onHeader C env self m hash = .ok r) (hT : r.1.tick ≤ T) :
    mp.onHeader C (env.upTo T) self' m hash = .ok r := by
  have hadd : ∀ b, mp.addHeader (env.upTo T) m hash b = mp.addHeader env m hash b := fun _ => rfl
  have hord : (env.upTo T).order = env.order := rfl
  unfold MP.onHeader at hr ⊢
  split at hr
  · exact hr
  · rename_i b e
    split at hr
    · rename_i hc; rw [if_pos hc]; exact hr
    · rename_i hc
      rw [if_neg hc]
      simp only [hadd, hord] at hr ⊢
      split at hr
      · exact hr
      · rename_i q hp
        split at hr
        · cases hr
        · rename_i e; cases hr; rw [replay_agreeTo h ha _ _ _ e hT]
        · rename_i e; cases hr
          rw [replay_agreeTo h ha _ _ _ e (by
            have hT : (MP.finish _ _).tick ≤ T := hT
            rw [finish_tick] at hT; exact hT)]

theorem step_agreeTo {C : Codec} {env : Env} {T : Nat} {self self' : MP → RMsg → MPResult} (h : NotBack self) (ha : AgreeTo T self self') :
    AgreeTo T (MP.step C env self) (MP.step C (env.upTo T) self') := by
  intro mp m r hr hT
  have hlt := step_tick h hr
  have hb : mp.begin (env.upTo T) m = mp.begin env m := by
    unfold MP.begin Env.upTo
    simp only []
    rw [if_pos (by omega)]
  have hsub : ∀ (mp : MP) hash, mp.onSubHeader C (env.upTo T) m hash = mp.onSubHeader C env m hash := fun _ _ => rfl
  unfold MP.step at hr ⊢
  simp only [hb, hsub] at hr ⊢
  split at hr
  · cases hr
  rename_i c1; rw [if_neg c1]
  split at hr
  · rename_i c; rw [if_pos c]; exact hr
  rename_i c2; rw [if_neg c2]
  split at hr
  · rename_i c; rw [if_pos c]; exact hr
  rename_i c3; rw [if_neg c3]
  split at hr
  · rename_i c; rw [if_pos c]; exact hr
  rename_i c4; rw [if_neg c4]
  split at hr
  · rename_i c; rw [if_pos c]; exact onHeader_agreeTo h ha hr hT
  rename_i c5; rw [if_neg c5]
  exact hr

theorem forward_hang : NotBack (fun _ _ => .error .hang) := by intro _ _ _ h; cases h

theorem process_notBack (C : Codec) (env : Env) : NotBack (MP.processMessage C env) := fun mp m r hr =>
  Nat.le_of_succ_le (step_tick (fun mp m r hr => Nat.le_of_succ_le (step_tick forward_hang hr)) hr)

theorem process_agreeTo (C : Codec) (env : Env) (T : Nat) : AgreeTo T (MP.processMessage C env) (MP.processMessage C (env.upTo T)) :=
  step_agreeTo (fun mp m r hr => Nat.le_of_succ_le (step_tick forward_hang hr))
    (step_agreeTo forward_hang (fun _ _ _ h => by cases h))

theorem run_tick {C : Codec} {env : Env} {ms : List RMsg} : ∀ {mp mp' : MP}, mp.run C env ms = .ok mp' → mp.tick ≤ mp'.tick := by
  induction ms with
  | nil => intro mp mp' hr; cases hr; exact Nat.le_refl _
  | cons m ms ih =>
    intro mp mp' hr
    unfold MP.run at hr
    split at hr
    · cases hr
    · rename_i e; exact Nat.le_trans (process_notBack C env _ _ _ e) (ih hr)

/-- A run reads only the requests up to its end. -/
theorem run_upTo {C : Codec} {env : Env} {T : Nat} {ms : List RMsg} : ∀ {mp mp' : MP}, mp.run C env ms = .ok mp' → mp'.tick ≤ T →
    mp.run C (env.upTo T) ms = .ok mp' := by
  induction ms with
  | nil => intro mp mp' hr _; exact hr
  | cons m ms ih =>
    intro mp mp' hr hT
    unfold MP.run at hr ⊢
    split at hr
    · cases hr
    · rename_i e
      rw [process_agreeTo C env T _ _ _ e (Nat.le_trans (run_tick hr) hT)]
      exact ih hr hT

end Verif
