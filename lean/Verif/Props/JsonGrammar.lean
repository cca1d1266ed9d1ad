import Verif.Proofs.JsonMessage
import Verif.Props.JsonText
/-!
# C125: a websocket message is understood in every form that JSON allows
-/
namespace Verif
open Spec

/-- **C125**, the parser: it accepts exactly the texts of the grammar, and finds in them what the grammar says. -/
theorem C125_grammar {s : Bytes} {j : Json} : parseJson s = some j ↔ JsonText True s j := parseJson_iff

/-- **C125**, RFC 8259: every JSON text of the standard is accepted. -/
theorem C125_rfc {s : Bytes} {j : Json} (h : JsonText False s j) : parseJson s = some j := by
  obtain ⟨w, t, w', hw, ht, hw', rfl⟩ := h
  exact parseJson_iff.mpr ⟨w, t, w', hw, valueText_mono ht, hw', rfl⟩

/-- **C125**, string literals: the scanner stops at the quote that ends a literal, and undoing the escapes gives what the grammar says. -/
theorem C125_strings {raw rest : Bytes} {k : GoStr} (h : StringText True raw k) :
    scanStr .str (raw ++ str "\"" ++ rest) = some (raw, rest) ∧ unquote raw = some k := by
  rw [str_quote, List.append_assoc]
  exact ⟨scanStr_iff.mpr ⟨rfl, k, h⟩, unquote_text h⟩

/-- **C125**, no text and no literal can be read in two ways. -/
theorem C125_unambiguous :
    (∀ {s : Bytes} {j j' : Json}, JsonText True s j → JsonText True s j' → j = j') ∧
    ∀ {raw : Bytes} {k k' : GoStr}, StringText True raw k → StringText True raw k' → k = k' := by
  refine ⟨fun h h' => ?_, fun h h' => ?_⟩
  · have := (parseJson_iff.mpr h).symm.trans (parseJson_iff.mpr h')
    injection this
  · have := (unquote_text h).symm.trans (unquote_text h')
    injection this

/-- **C125**: a notification for the consumer's subscription, in whatever form it is written, is taken for the message that it says, whatever the consumer has
read before. -/
theorem C125_message {bytes : Bytes} {l result : List (GoStr × Json)} {subid : Nat} {type : GoStr} {block : Option Block} {part : Option Part}
    (ht : JsonText True bytes (.obj l)) (hn : NoteSays l subid result) (hi : ItemSays result type block part)
    (hw : type = str "batch" → ∀ b, block = some b → b.weight ≠ none) :
    ∃ m, Meant type block part m ∧ TakenFor subid bytes m := by
  obtain ⟨m, hm, he⟩ := meant_msg hi hw
  exact ⟨m, hm, fun n => ⟨_, read_notification hn (parseJson_iff.mpr ht) n, he⟩⟩

/-- **C125**, hexadecimal numbers and bytes: `hexutil` accepts exactly those of the specification. -/
theorem C125_hex {raw : Bytes} :
    (∀ {max n : Nat}, hexNum max raw = some n ↔ NumberOf max raw n) ∧ (∀ {b : Bytes}, decBytes (.str raw) = some b ↔ DataOf raw b) ∧
    ∀ {h : Hash}, decHash (.str raw) = some h ↔ HashOf raw h :=
  ⟨hexNum_iff, hexData_iff, decHash_iff⟩

/-- **C125**, names of members: they are recognised in every spelling. -/
theorem C125_names {key : GoStr} : ∀ name ∈ ["number", "weight", "hash", "parent", "values", "deletes", "batches", "batchid", "type", "batch", "subbatch", "jsonrpc",
    "method", "params", "subscription", "result"], (isField name key = true ↔ Spelled key (str name)) :=
  fun name hn => isField_iff (names_lower name hn)

/-! ## Examples -/

mutual
/-- Equality of parsed texts, for the examples. -/
def Json.same : Json → Json → Bool
  | .null, .null => true
  | .bool a, .bool b => a == b
  | .num a, .num b => a == b
  | .str a, .str b => a == b
  | .arr a, .arr b => sameElems a b
  | .obj a, .obj b => sameMembers a b
  | _, _ => false
/-- Equality of elements. -/
def sameElems : List Json → List Json → Bool
  | [], [] => true
  | a :: l, b :: m => Json.same a b && sameElems l m
  | _, _ => false
/-- Equality of members. -/
def sameMembers : List (GoStr × Json) → List (GoStr × Json) → Bool
  | [], [] => true
  | (k, a) :: l, (k', b) :: m => k == k' && Json.same a b && sameMembers l m
  | _, _ => false
end

mutual
theorem same_eq : ∀ {a b : Json}, Json.same a b = true → a = b
  | .null, b, h => by cases b <;> simp_all [Json.same]
  | .bool x, b, h => by cases b <;> simp_all [Json.same]
  | .num x, b, h => by cases b <;> simp_all [Json.same]
  | .str x, b, h => by cases b <;> simp_all [Json.same]
  | .arr l, b, h => by
    cases b with
    | arr m => rw [sameElems_eq (a := l) (b := m) (by simpa [Json.same] using h)]
    | _ => simp [Json.same] at h
  | .obj l, b, h => by
    cases b with
    | obj m => rw [sameMembers_eq (a := l) (b := m) (by simpa [Json.same] using h)]
    | _ => simp [Json.same] at h
theorem sameElems_eq : ∀ {a b : List Json}, sameElems a b = true → a = b
  | [], b, h => by cases b <;> simp_all [sameElems]
  | x :: l, b, h => by
    cases b with
    | nil => simp [sameElems] at h
    | cons y m =>
      simp only [sameElems, Bool.and_eq_true] at h
      rw [same_eq h.1, sameElems_eq h.2]
theorem sameMembers_eq : ∀ {a b : List (GoStr × Json)}, sameMembers a b = true → a = b
  | [], b, h => by cases b <;> simp_all [sameMembers]
  | (k, x) :: l, b, h => by
    cases b with
    | nil => simp [sameMembers] at h
    | cons y m =>
      obtain ⟨k', y⟩ := y
      simp only [sameMembers, Bool.and_eq_true, beq_iff_eq] at h
      rw [h.1.1, same_eq h.1.2, sameMembers_eq h.2]
end

/-- A text and what it parses to. -/
theorem parse_ex {s : Bytes} {j : Json} (h : (parseJson s).any (Json.same · j) = true) : parseJson s = some j := by
  cases hp : parseJson s with
  | none => rw [hp] at h; cases h
  | some x => rw [hp] at h; rw [same_eq h]

/-- A number is text of the grammar. -/
example : JsonText False (str " [ -1.5e+3 ]\n") (.arr [.num (str "-1.5e+3")]) := by
  refine ⟨str " ", str "[ -1.5e+3 ]", str "\n", by unfold Blank; decide +kernel, ?_, by unfold Blank; decide +kernel, by decide +kernel⟩
  have h := ValueText.arr (ElemsText.one (lenient := False) (w := str " ") (w' := str " ") (by unfold Blank; decide +kernel)
    (ValueText.num (s := str "-1.5e+3")
      ⟨str "-", str "1", str ".5", str "e+3", .inr (by decide +kernel), .inr ⟨by unfold Digits Digit; decide +kernel, by decide +kernel⟩,
        .inr ⟨str "5", by unfold Digits Digit; decide +kernel, by decide +kernel⟩,
        .inr ⟨0x65, str "+", str "3", .inl rfl, .inr (.inl (by decide +kernel)), by unfold Digits Digit; decide +kernel, by decide +kernel⟩, by decide +kernel⟩)
    (by unfold Blank; decide +kernel))
  rwa [show str "[" ++ (str " " ++ str "-1.5e+3" ++ str " ") ++ str "]" = str "[ -1.5e+3 ]" by decide +kernel] at h

/-- A notification that is neither compact nor in the order in which the server writes it, with unknown members and names in odd spellings. -/
def exOdd : Bytes := str (" { \"x\" : [ -1.5e+3 , { } , false ] , \"PARAMS\":{\"result\":{\"batch\":null,\"T\\u0079pe\":\"read\\u0079\"},\n") ++ str " \"" ++ [0xC5, 0xBF] ++
  str ("ubscription\":\"0X1F\"},\"method\":\"cardinal\\u005fsubscribe\"} ")

theorem exOdd_text : JsonText True exOdd (.obj [
    (str "x", .arr [.num (str "-1.5e+3"), .obj [], .bool false]),
    (str "PARAMS", .obj [(str "result", .obj [(str "batch", .null), (str "Type", .str (str "read\\u0079"))]), ([0xC5, 0xBF] ++ str "ubscription", .str (str "0X1F"))]),
    (str "method", .str (str "cardinal\\u005fsubscribe"))]) := parseJson_iff.mp (parse_ex (by decide +kernel))

theorem literal_ex {raw : Bytes} {k : GoStr} (h : scanStr .str (raw ++ [0x22]) = some (raw, [])) (hu : unquote raw = some k) : StringText True raw k := by
  obtain ⟨-, k', hk⟩ := scanStr_iff.mp h
  rw [unquote_text hk] at hu
  cases hu
  exact hk

/-- A literal with a pair of surrogates. -/
example : StringText True (str "\\uD83D\\ude00") [0xF0, 0x9F, 0x98, 0x80] := literal_ex (by decide +kernel) (by decide +kernel)

/-- One with the second half of a pair only, and one that is not UTF-8. -/
example : StringText True (str "\\uDE00") [0xEF, 0xBF, 0xBD] ∧ StringText True [0x61, 0xFF] [0x61, 0xEF, 0xBF, 0xBD] :=
  ⟨literal_ex (by decide +kernel) (by decide +kernel), literal_ex (by decide +kernel) (by decide +kernel)⟩

/-- A member and the ones around it. -/
theorem has_ex {l : List (GoStr × Json)} {name : String} {j : Json} (a : List (GoStr × Json)) (key : GoStr) (b : List (GoStr × Json)) (hl : l = a ++ (key, j) :: b)
    (hn : ∀ c ∈ str name, LowerByte c) (hk : isField name key = true) (hr : (a ++ b).all (fun e => !isField name e.1) = true) : Has l name j := by
  refine ⟨a, key, b, hl, (isField_iff hn).mp hk, fun e he hs => ?_⟩
  have := List.all_eq_true.mp hr e he
  rw [(isField_iff hn).mpr hs] at this
  cases this

theorem lacks_ex {l : List (GoStr × Json)} {name : String} (hn : ∀ c ∈ str name, LowerByte c) (hr : l.all (fun e => !isField name e.1) = true) : Lacks l name := by
  intro e he hs
  have := List.all_eq_true.mp hr e he
  rw [(isField_iff hn).mpr hs] at this
  cases this

example : ∃ l r, JsonText True exOdd (.obj l) ∧ NoteSays l 31 r ∧ ItemSays r (str "ready") none none := by
  refine ⟨_, _, exOdd_text, ⟨str "cardinal\\u005fsubscribe", _, str "0X1F", has_ex [_, _] _ [] rfl (by decide +kernel) (by decide +kernel) (by decide +kernel),
    literal_ex (by decide +kernel) (by decide +kernel), has_ex [_] _ [_] rfl (by decide +kernel) (by decide +kernel) (by decide +kernel),
    has_ex [_] _ [] rfl (by decide +kernel) (by decide +kernel) (by decide +kernel), hexNum_iff.mp (by decide +kernel),
    has_ex [] _ [_] rfl (by decide +kernel) (by decide +kernel) (by decide +kernel)⟩, ?_, ?_, ?_⟩
  · exact .inr ⟨str "read\\u0079", has_ex [_] _ [] rfl (by decide +kernel) (by decide +kernel) (by decide +kernel), literal_ex (by decide +kernel) (by decide +kernel)⟩
  · exact .inr (has_ex [] _ [_] rfl (by decide +kernel) (by decide +kernel) (by decide +kernel))
  · exact .inl (lacks_ex (by decide +kernel) (by decide +kernel))

/-- A block: upper-case digits, a name that occurs twice in a map, members that are missing or `null`. -/
example : ∃ l, parseJson (str ("{\"deletes\":[\"\\u0061\"],\"values\":{\"k\":\"0xAb\",\"k\":\"0xcD\"},\"note\":1,\"Weight\":\"0X1f\",\"batches\":null," ++
      "\"number\":\"0xA\"}")) = some (.obj l) ∧
    BlockSays l ⟨10, some 31, Hash.zero, Hash.zero, fun k => if k = str "k" then some [0xCD] else none, [str "a"], fun _ => none⟩ := by
  refine ⟨[(str "deletes", .arr [.str (str "\\u0061")]), (str "values", .obj [(str "k", .str (str "0xAb")), (str "k", .str (str "0xcD"))]), (str "note", .num (str "1")),
    (str "Weight", .str (str "0X1f")), (str "batches", .null), (str "number", .str (str "0xA"))], parse_ex (by decide +kernel), ?_, ?_, ?_, ?_, ?_, ?_, ?_⟩
  · exact .inr ⟨str "0xA", has_ex [_, _, _, _, _] _ [] rfl (by decide +kernel) (by decide +kernel) (by decide +kernel), hexNum_iff.mp (by decide +kernel)⟩
  · exact .inr ⟨str "0X1f", 31, has_ex [_, _, _] _ [_, _] rfl (by decide +kernel) (by decide +kernel) (by decide +kernel), hexNum_iff.mp (by decide +kernel), rfl⟩
  · exact .inl ⟨lacks_ex (by decide +kernel) (by decide +kernel), rfl⟩
  · exact .inl ⟨lacks_ex (by decide +kernel) (by decide +kernel), rfl⟩
  · refine .inr ⟨[(str "k", str "0xAb", [0xAB]), (str "k", str "0xcD", [0xCD])],
      has_ex [_] _ [_, _, _, _] rfl (by decide +kernel) (by decide +kernel) (by decide +kernel), ?_, fun k v => ?_⟩
    · intro p hp
      simp only [List.mem_cons, List.not_mem_nil, or_false] at hp
      rcases hp with rfl | rfl <;> exact hexData_iff.mp (by decide +kernel)
    · constructor
      · intro h
        by_cases hk : k = str "k"
        · simp only [if_pos hk, Option.some.injEq] at h
          exact ⟨[(str "k", str "0xAb", [0xAB])], str "0xcD", [], by rw [hk, ← h]; rfl, by simp⟩
        · simp [hk] at h
      · rintro ⟨a, raw, b, e, hb⟩
        cases a with
        | nil =>
          injection e with e1 e2
          injection e1 with e1
          subst e2
          exact absurd e1 (hb _ (List.mem_singleton.mpr rfl))
        | cons x a =>
          injection e with _ e
          cases a with
          | nil =>
            injection e with e1 e2
            injection e1 with e1 e3
            injection e3 with _ e3
            simp [← e1, ← e3]
          | cons y a =>
            injection e with _ e
            simp at e
  · exact .inr ⟨[(str "\\u0061", str "a")], has_ex [] _ [_, _, _, _, _] rfl (by decide +kernel) (by decide +kernel) (by decide +kernel), by
      intro p hp
      simp only [List.mem_cons, List.not_mem_nil, or_false] at hp
      subst hp
      exact literal_ex (by decide +kernel) (by decide +kernel), rfl⟩
  · exact .inl ⟨.inr (has_ex [_, _, _, _] _ [_] rfl (by decide +kernel) (by decide +kernel) (by decide +kernel)), fun _ => rfl⟩

end Verif
