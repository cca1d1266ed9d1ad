import Verif.Proofs.Subscribe
import Verif.Props.JsonGrammar
/-!
# C126: a subscription is asked for and granted in bytes
-/
namespace Verif
open Spec

/-- **C126**, the answer: a message grants the subscription `n` exactly if it is a JSON object in which the last `id` is the id of the call, the last `result` is a string
that is a subscription id, and the other members that are known can be read. -/
theorem C126_answer {lib : AnswerLib} {id : Bytes} {c : Json} (hc : ValueText True id c) (hp : Plain c) {m : Bytes} {n : Nat} :
    answered lib id m = some n ↔ IsAnswer lib c m n := answered_iff hc hp

/-- **C126**, waiting: the first answer is taken, everything before it is dropped, and everything after it is left. -/
theorem C126_first {lib : AnswerLib} {id : Bytes} {c : Json} (hc : ValueText True id c) (hp : Plain c) {ms rest : List Bytes} {n : Nat} :
    awaitAnswer lib id ms = some (n, rest) ↔ ∃ a m, ms = a ++ m :: rest ∧ IsAnswer lib c m n ∧ ∀ x ∈ a, ∀ n', ¬ IsAnswer lib c x n' := by
  rw [await_iff]
  constructor
  · rintro ⟨a, m, h1, h2, h3⟩
    refine ⟨a, m, h1, (answered_iff hc hp).mp h2, fun x hx n' h => ?_⟩
    have := (answered_iff hc hp).mpr h
    rw [h3 x hx] at this
    cases this
  · rintro ⟨a, m, h1, h2, h3⟩
    refine ⟨a, m, h1, (answered_iff hc hp).mpr h2, fun x hx => ?_⟩
    cases h : answered lib id x with
    | none => rfl
    | some n' => exact absurd ((answered_iff hc hp).mp h) (h3 x hx n')

theorem last_of_has {l : List (GoStr × Json)} {name : String} {j : Json} (h : Has l name j) : Last l name j := by
  obtain ⟨a, key, b, h1, h2, h3⟩ := h
  exact ⟨a, key, b, h1, h2, fun e he => h3 e (by simp [he])⟩

theorem subId_hex {n : Nat} (hn : n < 2 ^ 64) : SubId (hexNumber n) n := by
  rw [← decodeUint64_iff, decodeUint64, if_neg (by simp [hexNumber])]
  exact hexNum_number (by decide) hn

theorem not_spelled {key : GoStr} {name : String} (hn : ∀ c ∈ str name, LowerByte c) (h : isField name key = false) : ¬ Spelled key (str name) := by
  intro hs
  rw [(isField_iff hn).mpr hs] at h
  cases h

/-- **C126**, the server: the answer that it writes grants the subscription in it, whatever the id of the call. -/
theorem C126_server {id : Bytes} {c : Json} (hc : ValueText True id c) (lib : AnswerLib) {n : Nat} (hn : n < 2 ^ 64) : IsAnswer lib c (answerText id n) n := by
  refine ⟨_, answer_text hc n, ?_, ⟨hexNumber n, hexNumber n, ?_, number_text n, subId_hex hn⟩, ?_, ?_, ?_⟩
  · exact last_of_has (has_ex [_] _ [_] rfl (by decide +kernel) (by decide +kernel) rfl)
  · exact last_of_has (has_ex [_, _] _ [] rfl (by decide +kernel) (by decide +kernel) rfl)
  · intro e he hs
    simp only [List.mem_cons, List.not_mem_nil, or_false] at he
    rcases he with rfl | rfl | rfl
    · exact .inr ⟨_, rfl⟩
    · exact absurd hs (not_spelled (by decide +kernel) rfl)
    · exact .inr ⟨_, rfl⟩
  · intro e he hs
    simp only [List.mem_cons, List.not_mem_nil, or_false] at he
    rcases he with rfl | rfl | rfl
    · exact .inl ⟨_, rfl⟩
    · exact absurd hs (not_spelled (by decide +kernel) rfl)
    · exact .inl ⟨_, rfl⟩
  · intro e he hs
    simp only [List.mem_cons, List.not_mem_nil, or_false] at he
    rcases he with rfl | rfl | rfl <;> exact absurd hs (not_spelled (by decide +kernel) rfl)

/-- **C126**, what is not an answer: no message without an id is one; in particular no notification. -/
theorem C126_not_answer {lib : AnswerLib} {c : Json} {m : Bytes} {n : Nat} :
    (∀ l, JsonText True m (.obj l) → Lacks l "id" → ¬ IsAnswer lib c m n) ∧
    ∀ subid t j, ValueText True t j → ¬ IsAnswer lib c (noteText subid t) n := by
  have h : ∀ m l, JsonText True m (.obj l) → Lacks l "id" → ¬ IsAnswer lib c m n := by
    rintro m l hl hi ⟨l', hl', ha⟩
    have := C125_unambiguous.1 hl hl'
    injection this with this
    subst this
    obtain ⟨a, key, b, rfl, hs, -⟩ := ha.id
    exact hi (key, c) (by simp) hs
  refine ⟨h m, fun subid t j ht => h _ _ (note_text ht subid) (lacks_ex (by decide +kernel) rfl)⟩

/-- **C126**, the read loop: a message without `method` and `params`, as an answer is, leaves the variable `notification` as it was. -/
theorem C126_unread {m : Bytes} {l : List (GoStr × Json)} (h : JsonText True m (.obj l)) (h1 : Lacks l "method") (h2 : Lacks l "params") (n : JNote) (subid : Nat) :
    (n.read m).item subid = n.item subid := by
  have := quiet_members h1 h2 n
  unfold JNote.read JNote.item
  rw [parseJson_iff.mpr h]
  simp only [this.1, this.2.1, this.2.2]

/-- **C126**, the request: its text is a JSON object with the id of the call, and its parameters are read as the number and the hash that were asked for. -/
theorem C126_request {id : Bytes} {c : Json} (hc : ValueText True id c) {w : WConn} (hn : w.lastNum < 2 ^ 64) :
    ∃ l ps, JsonText True (requestText id w.lastNum w.lastHash) (.obj l) ∧ Has l "id" c ∧ Has l "method" (.str (str "cardinal_subscribe")) ∧ Has l "params" (.arr ps) ∧
      ps.head? = some (.str (str "streams")) ∧ requestArgs ps = some w.request := by
  refine ⟨_, [.str (str "streams"), .str (hexNumber w.lastNum), .str (hexDataText w.lastHash.bytes)], request_text hc w.lastNum w.lastHash, ?_, ?_, ?_, ?_, ?_⟩
  · exact has_ex [_] _ [_, _] rfl (by decide +kernel) (by decide +kernel) rfl
  · exact has_ex [_, _] _ [_] rfl (by decide +kernel) (by decide +kernel) rfl
  · exact has_ex [_, _, _] _ [] rfl (by decide +kernel) (by decide +kernel) rfl
  · rfl
  · have h1 : decUint64 (.str (hexNumber w.lastNum)) = some w.lastNum := hexNum_number (by decide) hn
    have h2 : decHash (.str (hexDataText w.lastHash.bytes)) = some w.lastHash := decHash_text w.lastHash
    simp only [requestArgs, h1, h2, WConn.request]

/-- **C126**, a connection: whatever comes before the answer, notifications included, is lost; the messages after it are taken for what they are. -/
theorem C126_connection {id : Bytes} {c : Json} (hc : ValueText True id c) (hp : Plain c) (lib : AnswerLib) {early bs : List Bytes} {ms : List WMsg} {subid : Nat}
    (hs : subid < 2 ^ 64) (he : ∀ x ∈ early, ∀ n, ¬ IsAnswer lib c x n) (hb : Arrives subid ms bs) (o : Nat → MapOrder) :
    ∃ o' : Nat → MapOrder, ∀ w : WConn, w.connection o lib id (early ++ answerText id subid :: bs) = some (w.reconnect.run o' (ms.map WMsg.reread)) := by
  obtain ⟨o', h⟩ := C118_connection_partial hs hb o
  refine ⟨o', fun w => ?_⟩
  unfold WConn.connection
  rw [(C126_first hc hp (n := subid) (rest := bs)).mpr ⟨early, _, rfl, C126_server hc lib hs, he⟩]
  exact h _ _

/-- **C126**, no answer: while none has come, as when the server has refused, nothing that arrives has any effect. -/
theorem C126_waiting {id : Bytes} {c : Json} (hc : ValueText True id c) (hp : Plain c) (lib : AnswerLib) {ms : List Bytes}
    (he : ∀ x ∈ ms, ∀ n, ¬ IsAnswer lib c x n) (o : Nat → MapOrder) (w : WConn) : w.connection o lib id ms = some (.ok w.reconnect) := by
  unfold WConn.connection
  cases h : awaitAnswer lib id ms with
  | none => rfl
  | some r =>
    obtain ⟨a, m, rfl, h2, -⟩ := (C126_first (n := r.1) (rest := r.2) hc hp).mp h
    exact absurd h2 (he m (by simp) _)

/-! ## Examples -/

/-- What takes everything. -/
def exLib : AnswerLib := ⟨fun _ => true, fun _ => true⟩

/-- The id of a call that is a string. -/
theorem exId_text : ValueText True (quoted (str "7")) (.str (str "7")) ∧ Plain (.str (str "7")) := ⟨written_str (name_text (by decide +kernel)), trivial⟩

/-- The hypotheses of `C126_answer`, with an answer: the subscription id is that of the last `result`; names may be in capital letters, and members that are not
known do not matter. -/
example : answered exLib (quoted (str "7")) (str "{\"ID\": \"7\", \"result\": [1], \"more\": {\"id\": 3}, \"rESULT\" : \"0XaB\"}") = some 171 := by decide +kernel

/-- One that is not: the id of the call is compared byte for byte. -/
example : answered exLib (quoted (str "7")) (str "{\"id\":\"\\u0037\",\"result\":\"0x1\"}") = none := by decide +kernel

/-- The hypotheses of `C126_first`: a refusal, a notification and the answer. -/
example : awaitAnswer exLib (quoted (str "7")) [str "{\"id\":\"7\",\"error\":{\"code\":-1}}", noteText 5 (str "{}"), answerText (quoted (str "7")) 5, []] = some (5, [[]]) := by
  decide +kernel

/-- The hypotheses of `C126_not_answer`, of `C126_waiting` and of `C126_connection`: a refusal and a notification that come too early, then an empty message and a
notification after the answer. -/
example : ValueText True (str "{}") (.obj []) ∧ ∃ early bs : List Bytes, early.length = 2 ∧ bs.length = 2 ∧ (∀ x ∈ early, ∀ n, ¬ IsAnswer exLib (.str (str "7")) x n) ∧
    Arrives 5 [.reorg 3 (exHash 1)] bs := by
  have hp : ValueText True (str "{}") (.obj []) := by
    have := ValueText.noMembers (lenient := True) blank_nil
    rwa [show str "{" ++ [] ++ str "}" = str "{}" by decide +kernel] at this
  refine ⟨hp, [str "{\"id\":\"7\",\"error\":{\"code\":-1}}", noteText 5 (str "{}")], _, rfl, ?_, ?_, .ping (.note ⟨false, false, false⟩ rfl (show 3 < 2 ^ 64 by decide) .nil)⟩
  · rfl
  · intro x hx n h
    have h := (C126_answer (lib := exLib) exId_text.1 exId_text.2).mpr h
    simp only [List.mem_cons, List.not_mem_nil, or_false] at hx
    rcases hx with rfl | rfl
    · rw [show answered exLib (quoted (str "7")) (str "{\"id\":\"7\",\"error\":{\"code\":-1}}") = none by decide +kernel] at h
      cases h
    · rw [show answered exLib (quoted (str "7")) (noteText 5 (str "{}")) = none by decide +kernel] at h
      cases h

/-- That connection, run: the notification before the answer is lost, the one after it is handled. -/
example : (match (WConn.new 0 Hash.zero).connection (fun _ => MapOrder.plain) exLib (quoted (str "7"))
    [noteText 5 (((WMsg.reorg 3 (exHash 1)).text ⟨false, false, false⟩).getD []), answerText (quoted (str "7")) 5, [],
      noteText 5 (((WMsg.reorg 4 (exHash 1)).text ⟨false, false, false⟩).getD [])] with
    | some (.ok d) => some d.out.length
    | _ => none) = some 1 := by decide +kernel

/-- The hypotheses of `C126_unread`: an answer to another call. -/
example : ∃ l, JsonText True (str "{\"jsonrpc\":\"2.0\",\"id\":9,\"result\":\"0x6\"}") (.obj l) ∧ Lacks l "method" ∧ Lacks l "params" :=
  ⟨[(str "jsonrpc", .str (str "2.0")), (str "id", .num (str "9")), (str "result", .str (str "0x6"))], parseJson_iff.mp (parse_ex (by decide +kernel)),
    lacks_ex (by decide +kernel) (by decide +kernel), lacks_ex (by decide +kernel) (by decide +kernel)⟩

/-- The hypotheses of `C126_request`. -/
example : (WConn.new 258 (exHash 1)).lastNum = 258 ∧ (WConn.new 258 (exHash 1)).request = (258, exHash 1) := ⟨rfl, rfl⟩

end Verif
