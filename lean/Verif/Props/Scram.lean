import Verif.Model.Scram
/-! # C151: the SCRAM client is a conversation with the credentials given -/
namespace Verif

/-- What a conversation of the library answers to calls of `Step` and `Done`. -/
inductive Spec.Converses {L V E : Type} (lib : ScramLib L V E) : V → List ScramCall → List (ScramAns E) → Prop
  | nil {v : V} : Converses lib v [] []
  | step {v v' : V} {c r : GoStr} {err : Option E} {cs : List ScramCall} {as : List (ScramAns E)} : lib.step v c = ((r, err), v') → Converses lib v' cs as →
      Converses lib v (.step c :: cs) (.response r err :: as)
  | done {v : V} {cs : List ScramCall} {as : List (ScramAns E)} : Converses lib v cs as → Converses lib v (.done :: cs) (.isDone (lib.done v) :: as)

/-- A call of `Step` or `Done`. -/
def Spec.Talks : ScramCall → Prop
  | .begin .. => False
  | .step _ => True
  | .done => True

/-- A call of `Begin` that the library refuses. -/
def Spec.Refused {L V E : Type} (lib : ScramLib L V E) : ScramCall → Prop
  | .begin u p a => ∃ e, lib.newClient u p a = .error e
  | .step _ => False
  | .done => False

open Spec

section
variable {L V E : Type} {lib : ScramLib L V E}

theorem scram_converses (x : ScramClient L V) {v : V} (hv : x.conversation = some v) {cs : List ScramCall} (hcs : ∀ c ∈ cs, Talks c) :
    ∃ as, x.calls lib cs = .ok as ∧ Converses lib v cs as := by
  induction cs generalizing x v with
  | nil => exact ⟨[], rfl, .nil⟩
  | cons c cs ih =>
    have hcs' : ∀ c ∈ cs, Talks c := fun d hd => hcs d (List.mem_cons_of_mem _ hd)
    cases c with
    | begin u p a => exact (hcs _ (List.mem_cons_self)).elim
    | step c =>
      obtain ⟨as, h1, h2⟩ := ih { x with conversation := some (lib.step v c).2 } rfl hcs'
      refine ⟨_ :: as, ?_, .step (rfl : lib.step v c = (((lib.step v c).1.1, (lib.step v c).1.2), (lib.step v c).2)) h2⟩
      simp only [ScramClient.calls, ScramClient.call, ScramClient.step, hv, bind, Except.bind, h1]
    | done =>
      obtain ⟨as, h1, h2⟩ := ih x hv hcs'
      refine ⟨_ :: as, ?_, .done h2⟩
      simp only [ScramClient.calls, ScramClient.call, ScramClient.done, hv, bind, Except.bind, h1]

/-- **C151**: whatever was done with a client before, after a `Begin` that the library accepts it answers as a conversation of the library does that was made with the
credentials given to that `Begin`. -/
theorem C151_conversation (x : ScramClient L V) {u p a : GoStr} {c : L} (hb : lib.newClient u p a = .ok c) {cs : List ScramCall} (hcs : ∀ c ∈ cs, Talks c) :
    ∃ as, x.calls lib (.begin u p a :: cs) = .ok (.begun none :: as) ∧ Converses lib (lib.newConversation c) cs as := by
  obtain ⟨as, h1, h2⟩ := scram_converses (lib := lib) ⟨some c, some (lib.newConversation c)⟩ rfl hcs
  refine ⟨as, ?_, h2⟩
  simp only [ScramClient.calls, ScramClient.call, ScramClient.begin, hb, bind, Except.bind, h1]

/-- **C151**, when it panics: exactly if `Step` or `Done` is called before any `Begin` was accepted. -/
theorem C151_panics (cs : List ScramCall) :
    (∃ f, (ScramClient.new : ScramClient L V).calls lib cs = .error f) ↔ ∃ pre c post, cs = pre ++ c :: post ∧ Talks c ∧ ∀ d ∈ pre, Refused lib d := by
  have some_ok : ∀ (cs : List ScramCall) (x : ScramClient L V), x.conversation.isSome = true → ∃ as, x.calls lib cs = .ok as := by
    intro cs
    induction cs with
    | nil => exact fun x _ => ⟨_, rfl⟩
    | cons c cs ih =>
      intro x hx
      obtain ⟨v, hv⟩ := Option.isSome_iff_exists.mp hx
      have key : ∀ r, x.call lib c = .ok r → r.1.conversation.isSome = true → ∃ as, x.calls lib (c :: cs) = .ok as := by
        intro r h1 h2
        obtain ⟨as, h3⟩ := ih r.1 h2
        exact ⟨r.2 :: as, by simp only [ScramClient.calls, h1, bind, Except.bind, h3]⟩
      cases c with
      | begin u p a =>
        refine key _ rfl ?_
        unfold ScramClient.begin
        split
        · exact hx
        · rfl
      | step c =>
        exact key ({ x with conversation := some (lib.step v c).2 }, .response (lib.step v c).1.1 (lib.step v c).1.2)
          (by simp only [ScramClient.call, ScramClient.step, hv, bind, Except.bind]) rfl
      | done => exact key (x, .isDone (lib.done v)) (by simp only [ScramClient.call, ScramClient.done, hv, bind, Except.bind]) hx
  have key : ∀ (cs : List ScramCall) (x : ScramClient L V), x.conversation = none →
      ((∃ f, x.calls lib cs = .error f) ↔ ∃ pre c post, cs = pre ++ c :: post ∧ Talks c ∧ ∀ d ∈ pre, Refused lib d) := by
    intro cs
    induction cs with
    | nil =>
      intro x _
      constructor
      · rintro ⟨f, hf⟩; cases hf
      · rintro ⟨pre, c, post, e, _⟩; simp at e
    | cons c cs ih =>
      intro x hx
      cases c with
      | begin u p a =>
        cases hn : lib.newClient u p a with
        | ok l =>
          constructor
          · rintro ⟨f, hf⟩
            obtain ⟨as, h3⟩ := some_ok cs ⟨some l, some (lib.newConversation l)⟩ rfl
            simp only [ScramClient.calls, ScramClient.call, ScramClient.begin, hn, bind, Except.bind, h3] at hf
            cases hf
          · rintro ⟨pre, c, post, e, h1, h2⟩
            cases pre with
            | nil =>
              simp only [List.nil_append, List.cons.injEq] at e
              rw [← e.1] at h1
              exact h1.elim
            | cons d pre =>
              simp only [List.cons_append, List.cons.injEq] at e
              obtain ⟨e', he⟩ := e.1 ▸ h2 d List.mem_cons_self
              rw [hn] at he
              cases he
        | error err =>
          have hc : (∃ f, x.calls lib (.begin u p a :: cs) = .error f) ↔ ∃ f, ({ x with client := none } : ScramClient L V).calls lib cs = .error f := by
            simp only [ScramClient.calls, ScramClient.call, ScramClient.begin, hn, bind, Except.bind]
            cases ({ x with client := none } : ScramClient L V).calls lib cs with
            | ok _ => simp
            | error f => simp
          rw [hc, ih { x with client := none } hx]
          constructor
          · rintro ⟨pre, c, post, e, h1, h2⟩
            refine ⟨.begin u p a :: pre, c, post, by rw [e]; rfl, h1, ?_⟩
            intro d hd
            rcases List.mem_cons.mp hd with rfl | hd
            · exact ⟨err, hn⟩
            · exact h2 d hd
          · rintro ⟨pre, c, post, e, h1, h2⟩
            cases pre with
            | nil =>
              simp only [List.nil_append, List.cons.injEq] at e
              rw [← e.1] at h1
              exact h1.elim
            | cons d pre =>
              simp only [List.cons_append, List.cons.injEq] at e
              exact ⟨pre, c, post, e.2, h1, fun y hy => h2 y (List.mem_cons_of_mem _ hy)⟩
      | step c =>
        exact ⟨fun _ => ⟨[], _, cs, rfl, trivial, by simp⟩, fun _ => ⟨.panic, by simp only [ScramClient.calls, ScramClient.call, ScramClient.step, hx, bind, Except.bind]⟩⟩
      | done =>
        exact ⟨fun _ => ⟨[], _, cs, rfl, trivial, by simp⟩, fun _ => ⟨.panic, by simp only [ScramClient.calls, ScramClient.call, ScramClient.done, hx, bind, Except.bind]⟩⟩
  exact key cs _ rfl

/-- **C151**, as Sarama uses it (a new client for every connection, `Begin` first and nothing after it if it is refused): never a panic, and if it is accepted the answers are
those of the library's conversation. -/
theorem C151_fresh_partial {u p a : GoStr} {cs : List ScramCall} (hcs : ∀ c ∈ cs, Talks c) (hr : Refused lib (.begin u p a) → cs = []) :
    ∃ as, (ScramClient.new : ScramClient L V).calls lib (.begin u p a :: cs) = .ok as ∧
      ((∃ e, lib.newClient u p a = .error e ∧ as = [.begun (some e)]) ∨
        ∃ c as', lib.newClient u p a = .ok c ∧ as = .begun none :: as' ∧ Converses lib (lib.newConversation c) cs as') := by
  cases hn : lib.newClient u p a with
  | ok c =>
    obtain ⟨as, h1, h2⟩ := C151_conversation (ScramClient.new : ScramClient L V) hn hcs
    exact ⟨_, h1, .inr ⟨c, as, rfl, rfl, h2⟩⟩
  | error e =>
    rw [hr ⟨e, hn⟩]
    refine ⟨[.begun (some e)], ?_, .inl ⟨e, rfl, rfl⟩⟩
    simp only [ScramClient.calls, ScramClient.call, ScramClient.begin, hn, bind, Except.bind]

/-- **C151** refuted for clients used again: a `Begin` that is refused leaves the conversation of an earlier `Begin` in place, and the client goes on answering with the
earlier credentials. -/
theorem C151_again_refuted (x : ScramClient L V) {u p a u' p' a' : GoStr} {c : L} {e : E} (hb : lib.newClient u p a = .ok c) (hr : lib.newClient u' p' a' = .error e)
    {cs : List ScramCall} (hcs : ∀ c ∈ cs, Talks c) :
    ∃ as, x.calls lib (.begin u p a :: .begin u' p' a' :: cs) = .ok (.begun none :: .begun (some e) :: as) ∧ Converses lib (lib.newConversation c) cs as := by
  obtain ⟨as, h1, h2⟩ := scram_converses (lib := lib) ⟨none, some (lib.newConversation c)⟩ rfl hcs
  refine ⟨as, ?_, h2⟩
  simp only [ScramClient.calls, ScramClient.call, ScramClient.begin, hb, hr, bind, Except.bind, h1]

end

/-! ## Example: a library that answers the first challenge with the name, and refuses empty names -/

def exScram : ScramLib GoStr (GoStr × Nat) Unit where
  newClient u _ _ := if u = [] then .error () else .ok u
  newConversation u := (u, 0)
  step v c := if v.2 = 0 then ((v.1, none), (v.1, 1)) else if c = str "ok" then (([], none), (v.1, 2)) else (([], some ()), (v.1, 2))
  done v := v.2 = 2

/-- A client is used once. -/
example : ∃ as, (ScramClient.new : ScramClient GoStr (GoStr × Nat)).calls exScram [.begin (str "u") (str "p") [], .step [], .done, .step (str "ok"), .done] =
    .ok (.begun none :: as) ∧ as = [.response (str "u") none, .isDone false, .response [] none, .isDone true] := ⟨_, rfl, rfl⟩

/-- The hypotheses of `C151_again_refuted`: the second `Begin` is refused. -/
example : exScram.newClient (str "u") (str "p") [] = .ok (str "u") ∧ exScram.newClient [] (str "p") [] = .error () := ⟨rfl, rfl⟩

/-- `Step` without `Begin`. -/
example : ∃ f, (ScramClient.new : ScramClient GoStr (GoStr × Nat)).calls exScram [.begin [] [] [], .step []] = .error f :=
  (C151_panics _).mpr ⟨[.begin [] [] []], .step [], [], rfl, trivial, fun d hd => by rw [List.mem_singleton.mp hd]; exact ⟨(), rfl⟩⟩

end Verif
