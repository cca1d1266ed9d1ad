import Verif.Proofs.RegexpGrammar
import Verif.Props.Block
/-!
# C141, C142: what schemas of regular expressions do

C01 and the properties built on it suppose that the schema matches directories of the keys (`Shaped.dirs`) and that matched prefixes
are not nested (`Shaped.nested`). Here both are derived from the text of the schema, through a model of Go's package `regexp`.
-/
namespace Verif
open Spec

/-! ## C141: searching -/

/-- **C141**: what `FindString` returns is a match, and no match begins further left. -/
theorem C141_found (re : Re) (k : GoStr) (h : re.findString k ≠ []) :
    ∃ l r, MatchAt re k l (re.findString k) r ∧ ∀ l' x' r', MatchAt re k l' x' r' → l.length ≤ l'.length := by
  unfold Re.findString at h ⊢
  have hs := findFrom_spec re k.length true k (Nat.le_refl _)
  cases hf : re.findFrom k.length true k with
  | none => rw [hf] at h; exact absurd rfl h
  | some x =>
    obtain ⟨l, r, h1, h2, h3, h4⟩ := hs.1 x hf
    refine ⟨l, r, ⟨h1, h2, by simpa using h3⟩, fun l' x' r' ⟨e1, e2, e3⟩ => ?_⟩
    exact Nat.le_of_not_lt fun hlt => h4 l' x' r' e1 e2 hlt (by simpa using e3)

/-- **C141**: `MatchString` says whether there is a match anywhere. -/
theorem C141_matches (re : Re) (k : GoStr) : re.matchString k = true ↔ ∃ l x r, MatchAt re k l x r := by
  unfold Re.matchString
  have hs := findFrom_spec re k.length true k (Nat.le_refl _)
  constructor
  · intro h
    obtain ⟨x, hx⟩ := Option.isSome_iff_exists.mp h
    obtain ⟨l, r, h1, h2, h3, _⟩ := hs.1 x hx
    exact ⟨l, x, r, h1, h2, by simpa using h3⟩
  · rintro ⟨l, x, r, h1, h2, h3⟩
    cases hf : re.findFrom k.length true k with
    | some x => rfl
    | none => exact absurd (by simpa using h3) (hs.2 hf l x r h1 h2)

example : ∃ re, parseRe (str "b[^/]+/|x$") = .ok re ∧ re.findString (str "abc/d/") = str "bc/" ∧ re.matchString (str "abx") = true :=
  ⟨_, rfl, by decide +kernel, by decide +kernel⟩

/-- **C141**, the parser: it accepts exactly the texts of the grammar, and finds in them the expression that the grammar says. -/
theorem C141_grammar {s : GoStr} {re : Re} : parseRe s = .ok re ↔ ReSays .alternation s re := parseRe_iff

/-- **C141**: no text can be read in two ways. -/
theorem C141_unambiguous {s : GoStr} {re re' : Re} (h : ReSays .alternation s re) (h' : ReSays .alternation s re') : re = re' := by
  have := (parseRe_iff.mpr h).symm.trans (parseRe_iff.mpr h')
  injection this

/-- Three alternatives, the second with a class, a lazy operator and a group. -/
example : ReSays .alternation (str "^a|([]x-z]+?b)?|c")
    (.alt (.cat .bol (.byte 97)) (.alt (.quest true (.cat (.cat (.cls false [(93, 93), (120, 122)])
      (.star false (.cls false [(93, 93), (120, 122)]))) (.byte 98))) (.byte 99))) :=
  C141_grammar.mp rfl

/-- Built from the grammar, and not accepted otherwise. -/
example : ReSays .alternation ([97] ++ str "|" ++ [98]) (.alt (.byte 97) (.byte 98)) ∧ ¬ ∃ re, ReSays .alternation (str "a**") re := by
  have ha : ¬ Special 97 := by rw [special_iff]; decide
  have hb : ¬ Special 98 := by rw [special_iff]; decide
  refine ⟨.bar (.single (.once (.char (by decide) ha))) (.last (.single (.once (.char (by decide) hb)))), fun ⟨re, h⟩ => ?_⟩
  have h1 := C141_grammar.mpr h
  have h2 : parseRe (str "a**") = .error .bad := rfl
  rw [h2] at h1
  cases h1

/-! ## C141: schema entries -/

theorem goCompile_some {i : GoStr} {f : GoStr → GoStr} (h : goCompile i = some f) : ∃ re, parseRe i = .ok re ∧ f = re.findString := by
  unfold goCompile at h
  cases hp : parseRe i with
  | error e => rw [hp] at h; cases h
  | ok re => rw [hp] at h; cases h; exact ⟨re, rfl, rfl⟩

/-- The expression an entry is used with: that of the anchored text. -/
theorem entry_re {keys : List GoStr} {i topic : GoStr} {p : RegexpPair} (h : schemaEntry goCompile keys i topic = .ok p) :
    (∃ re, parseRe i = .ok re) ∧ ∃ re, parseRe (anchored i) = .ok re ∧ p = ⟨re.findString, topic⟩ := by
  unfold schemaEntry at h
  split at h
  · cases h
  split at h
  · cases h
  · rename_i f hf
    obtain ⟨re, h1, rfl⟩ := goCompile_some hf
    refine ⟨⟨re, h1⟩, ?_⟩
    split at h
    · rename_i h94
      cases h
      obtain ⟨rest, hr⟩ := (hasPrefix_iff _ _).mp h94
      have : anchored i = i := by simp [anchored, hr]
      exact ⟨re, by rw [this]; exact h1, rfl⟩
    · rename_i h94
      have : anchored i = 94 :: i := by
        unfold anchored
        rw [if_neg]
        intro h0
        cases i with
        | nil => simp at h0
        | cons c r => simp only [List.head?_cons, Option.some.injEq] at h0; exact h94 ((hasPrefix_iff _ _).mpr ⟨r, by rw [h0]; rfl⟩)
      split at h
      · cases h
      · rename_i g hg
        cases h
        obtain ⟨re', h1', rfl⟩ := goCompile_some hg
        exact ⟨re', by rw [this]; exact h1', rfl⟩

namespace Spec

/-- The text of a schema entry has no alternation, and does not begin with an operator on the anchor (as `^?a` does). ('|' is byte 124,
'^' 94; the operators are '*', '+' and '?'.) -/
def Simple (i : GoStr) : Prop :=
  (124 : UInt8) ∉ i ∧ ∀ rest, i = 94 :: rest → ∀ b, rest.head? = some b → b ≠ 42 ∧ b ≠ 43 ∧ b ≠ 63

end Spec

theorem head_all {i : GoStr} : i.head?.all (fun b => !isRepOp b) = true ↔ ∀ b, i.head? = some b → b ≠ 42 ∧ b ≠ 43 ∧ b ≠ 63 := by
  cases i with
  | nil => simp
  | cons c r => simp [isRepOp, and_assoc]

theorem entry_rooted {keys : List GoStr} {i topic : GoStr} {p : RegexpPair} (h : schemaEntry goCompile keys i topic = .ok p)
    (hi : Simple i) : ∃ re, parseRe (anchored i) = .ok re ∧ p = ⟨re.findString, topic⟩ ∧ rootedCheck re = true := by
  obtain ⟨⟨re0, h0⟩, re, h1, h2⟩ := entry_re h
  refine ⟨re, h1, h2, ?_⟩
  by_cases h94 : i.head? = some 94
  · cases i with
    | nil => simp at h94
    | cons c r =>
      simp only [List.head?_cons, Option.some.injEq] at h94
      subst h94
      have : anchored (94 :: r) = 94 :: r := by simp [anchored]
      rw [this] at h1
      exact parse_rooted (fun hm => hi.1 (List.mem_cons_of_mem _ hm)) (head_all.mpr (hi.2 r rfl)) h1
  · have : anchored i = 94 :: i := by simp [anchored, h94]
    rw [this] at h1
    exact parse_rooted hi.1 (parse_op h0) h1

/-- **C141**: an entry without alternation matches only beginnings of keys, whatever else is in it. -/
theorem C141_anchored {keys : List GoStr} {i topic : GoStr} {p : RegexpPair} (h : schemaEntry goCompile keys i topic = .ok p)
    (hi : Simple i) (k : GoStr) : p.find k <+: k := by
  obtain ⟨re, _, rfl, hr⟩ := entry_rooted h hi
  by_cases h0 : re.findString k = []
  · simp only [h0]; exact List.nil_prefix
  · obtain ⟨r, hk, _⟩ := find_rooted (fun hm => rooted_of hm hr) h0
    exact ⟨r, hk.symm⟩

/-- **C141**: if moreover its text ends in a slash, what it matches in an ordinary key is one of the directories of the key. -/
theorem C141_directory {keys : List GoStr} {i topic : GoStr} {p : RegexpPair} (h : schemaEntry goCompile keys i topic = .ok p)
    (hi : Simple i) (hs : ∃ y, i = y ++ [47]) {k : GoStr} (hk : TidyKey k) (hm : p.find k ≠ []) : DirPrefix (p.find k) k := by
  obtain ⟨re, hp, rfl, hr⟩ := entry_rooted h hi
  obtain ⟨r, hk', hm'⟩ := find_rooted (fun hm => rooted_of hm hr) hm
  have ha : (124 : UInt8) ∉ anchored i := by
    unfold anchored; split
    · exact hi.1
    · intro hm; rcases List.mem_cons.mp hm with h | h
      · simp at h
      · exact hi.1 h
  have hse : EndsSlash (anchored i) := by
    obtain ⟨y, hy⟩ := hs
    unfold anchored; split
    · exact ⟨y, hy⟩
    · exact ⟨94 :: y, by rw [hy]; rfl⟩
  exact dirPrefix_of_slash hk ⟨r, hk'.symm⟩ (slash_of hm' (parse_slash ha hse hp))

theorem test_tidy : TidyKey (str "bar/x/baz/1") :=
  ⟨[str "bar", str "x", str "baz"], str "1", by decide +kernel, by decide +kernel, by decide +kernel⟩

/-- The expression of `producer_test.go` (`bar/[^/]+/baz/`) is of that kind, and finds the directory. -/
example : ∃ p, schemaEntry goCompile [str "bar/[^/]+/baz/"] (str "bar/[^/]+/baz/") (str "t") = .ok p ∧ Simple (str "bar/[^/]+/baz/") ∧
    (∃ y, str "bar/[^/]+/baz/" = y ++ [47]) ∧ p.find (str "bar/x/baz/1") = str "bar/x/baz/" := by
  refine ⟨_, rfl, ⟨by decide +kernel, fun rest h => ?_⟩, ⟨str "bar/[^/]+/baz", by decide +kernel⟩, by decide +kernel⟩
  have : (str "bar/[^/]+/baz/").head? = some 98 := by decide +kernel
  rw [h] at this; simp at this

/-- **C141**: an entry of ordinary characters matches the keys that begin with it (this is the `litRegexp` of the other examples). -/
theorem C141_literal {keys : List GoStr} {i topic : GoStr} (hk : ∀ j ∈ keys, i ≠ j → ¬ j <+: i) (hi : ∀ b ∈ i, plainByte b = true) :
    schemaEntry goCompile keys i topic = .ok ⟨litRegexp i, topic⟩ := by
  have hany : (keys.any (fun j => i ≠ j && hasPrefix i j)) = false := by
    rw [← Bool.not_eq_true, List.any_eq_true]
    rintro ⟨j, hj, hb⟩
    simp only [ne_eq, decide_not, Bool.and_eq_true, Bool.not_eq_eq_eq_not, Bool.not_true, decide_eq_false_iff_not] at hb
    obtain ⟨rest, hr⟩ := (hasPrefix_iff _ _).mp hb.2
    exact hk j hj hb.1 ⟨rest, hr.symm⟩
  have h94 : hasPrefix i [94] = false := by
    rw [← Bool.not_eq_true, hasPrefix_iff]
    rintro ⟨rest, hr⟩
    have := hi 94 (by rw [hr]; simp)
    exact absurd this (by decide)
  unfold schemaEntry
  rw [hany, h94]
  simp only [Bool.false_eq_true, if_false, goCompile, parse_lit hi, parse_anchored_lit hi]
  congr 2
  funext k
  exact find_anchored_lit

example : (∀ j ∈ [str "state/", str "foo/"], str "state/" ≠ j → ¬ j <+: str "state/") ∧ ∀ b ∈ str "state/", plainByte b = true := by
  constructor
  · intro j hj hne hp
    simp only [List.mem_cons, List.not_mem_nil, or_false] at hj
    rcases hj with rfl | rfl
    · exact hne rfl
    · exact absurd (List.isPrefixOf_iff_prefix.mpr hp) (by decide +kernel)
  · decide +kernel

/-! ## C141: whole schemas -/

namespace Spec

/-- The expressions of a schema are directory patterns, and no two of them match nested prefixes. -/
structure TreeSchema (schema : GMap GoStr GoStr) (rx : GoStr → Re) : Prop where
  compiled : ∀ i ∈ schema.keys, parseRe (anchored i) = .ok (rx i)
  dir : ∀ i ∈ schema.keys, DirPattern (rx i)
  apart : ∀ i ∈ schema.keys, ∀ j ∈ schema.keys, i ≠ j → Apart (rx i) (rx j)

end Spec

/-- The entries of the producer. -/
theorem newProducer_entries {o : MapOrder} {d : GoStr} {schema : GMap GoStr GoStr} {p : Producer}
    (h : newProducer o goCompile d schema = .ok p) {rx : GoStr → Re} (hc : ∀ i ∈ schema.keys, parseRe (anchored i) = .ok (rx i)) :
    p.defaultTopic = d ∧ p.schema.Perm (schema.entries.map (fun e => ⟨(rx e.1).findString, e.2⟩)) := by
  have hno : ¬ Overlap schema := by
    intro ho
    obtain ⟨e, he⟩ := C24_overlap_rejected o goCompile d schema ho
    rw [he] at h; cases h
  have hc' : ∀ i ∈ schema.keys, (goCompile i).isSome ∧ goCompile (anchored i) = some (rx i).findString := by
    intro i hi
    refine ⟨?_, by simp [goCompile, hc i hi]⟩
    obtain ⟨⟨i', t⟩, hm, rfl⟩ := List.mem_map.mp hi
    cases hs : schemaEntry goCompile schema.keys i' t with
    | error e =>
      obtain ⟨e', he⟩ := mapM_error (f := fun e => schemaEntry goCompile schema.keys e.1 e.2)
        ((o.perm 0 schema.entries).mem_iff.mpr hm) hs
      unfold newProducer at h
      rw [he] at h; cases h
    | ok q =>
      obtain ⟨⟨re, hre⟩, _⟩ := entry_re hs
      simp [goCompile, hre]
  obtain ⟨p', h1, h2, _, h4⟩ := C24_accepted o goCompile d schema hno (fun i => (rx i).findString) hc'
  rw [h] at h1
  cases h1
  exact ⟨h2, h4⟩

/-- **C142**: with such a schema a key is routed by the one entry that matches it, so the order in which the entries are tried does
not matter. -/
theorem tree_routes {o : MapOrder} {d : GoStr} {schema : GMap GoStr GoStr} {p : Producer} {rx : GoStr → Re}
    (ht : TreeSchema schema rx) (h : newProducer o goCompile d schema = .ok p) {k pre topic : GoStr} :
    Routes p.schema k pre topic ↔ ∃ i r, schema.get? i = some topic ∧ k = pre ++ r ∧ Matches (rx i) true pre r := by
  obtain ⟨_, hp⟩ := newProducer_entries h ht.compiled
  constructor
  · rintro ⟨before, r, after, hs, _, hf, hne, htop⟩
    have hm : r ∈ schema.entries.map (fun e => (⟨(rx e.1).findString, e.2⟩ : RegexpPair)) :=
      hp.mem_iff.mp (by rw [hs]; simp)
    obtain ⟨e, he, rfl⟩ := List.mem_map.mp hm
    have hk : e.1 ∈ schema.keys := List.mem_map_of_mem (f := Prod.fst) he
    obtain ⟨r', h1, h2⟩ := (dir_find (ht.dir _ hk)).mp ⟨hf, hne⟩
    exact ⟨e.1, r', (GMap.get?_eq_some_iff _).mpr (by rw [← htop]; exact he), h1, h2⟩
  · rintro ⟨i, r, hi, hk, hm⟩
    have he := (GMap.get?_eq_some_iff _).mp hi
    have hik : i ∈ schema.keys := List.mem_map_of_mem (f := Prod.fst) he
    have hmem : (⟨(rx i).findString, topic⟩ : RegexpPair) ∈ p.schema := hp.mem_iff.mpr (List.mem_map.mpr ⟨(i, topic), he, rfl⟩)
    obtain ⟨hfind, hne⟩ := (dir_find (ht.dir i hik)).mpr ⟨r, hk, hm⟩
    rw [← firstMatch_some_iff]
    -- whatever entry comes first, it is this one
    cases hfm : firstMatch p.schema k with
    | none =>
      have := firstMatch_none_iff.mp hfm _ hmem
      simp only at this
      exact absurd (hfind.symm.trans this) hne
    | some q =>
      obtain ⟨pre', topic'⟩ := q
      obtain ⟨before, e', after, hs, _, hf', hne', htop'⟩ := firstMatch_some_iff.mp hfm
      have hm' : e' ∈ schema.entries.map (fun e => (⟨(rx e.1).findString, e.2⟩ : RegexpPair)) := hp.mem_iff.mp (by rw [hs]; simp)
      obtain ⟨e, hee, rfl⟩ := List.mem_map.mp hm'
      have hek : e.1 ∈ schema.keys := List.mem_map_of_mem (f := Prod.fst) hee
      obtain ⟨r', h1, h2⟩ := (dir_find (ht.dir _ hek)).mp ⟨hf', hne'⟩
      by_cases hi' : e.1 = i
      · have h3 : schema.get? i = some e.2 := (GMap.get?_eq_some_iff _).mpr (by rw [← hi']; exact hee)
        rw [hi] at h3
        simp only [Option.some.injEq] at h3
        simp only at hf' htop'
        rw [hi'] at hf'
        rw [← hf', hfind, ← htop', h3]
      · have := ht.apart _ hek _ hik hi' h2 hm
        rcases List.prefix_or_prefix_of_prefix (l₁ := pre') (l₂ := pre) (l₃ := k) ⟨r', h1.symm⟩ ⟨r, hk.symm⟩ with h' | h'
        · exact absurd h' this.1
        · exact absurd h' this.2

/-- **C141**: the conditions that C01 and the rest place on the prefixes hold for every block of ordinary keys (what remains are the
conditions that have nothing to do with the schema: `WellFormed []`). -/
theorem C141_wellFormed {o : MapOrder} {d : GoStr} {schema : GMap GoStr GoStr} {p : Producer} {rx : GoStr → Re}
    (ht : TreeSchema schema rx) (h : newProducer o goCompile d schema = .ok p) {a : BlockArgs} {subs : Hash → SubArgs}
    (hk : ∀ k, k ∈ a.updates.keys ∨ k ∈ a.deletes.keys → TidyKey k) (hw : WellFormed [] a subs)
    (hd : ∀ path id k, a.batches.get? path = some id → k ∈ (subs id).deletes → k ∉ a.deletes.keys) : WellFormed p.schema a subs := by
  refine { hw with dirs := ?_, nested := ?_, inline := ?_, subDel := ?_ }
  · intro k pre topic hkk hr
    obtain ⟨i, r, hi, rfl, hm⟩ := (tree_routes ht h).mp hr
    have hik : i ∈ schema.keys := List.mem_map_of_mem (f := Prod.fst) ((GMap.get?_eq_some_iff _).mp hi)
    exact ⟨hk _ hkk, dirPrefix_of_slash (hk _ hkk) ⟨r, rfl⟩ ((ht.dir i hik).slash hm)⟩
  · rintro x y ⟨k, t, _, hx⟩ ⟨k', t', _, hy⟩ hp
    obtain ⟨i, r, hi, _, hm⟩ := (tree_routes ht h).mp hx
    obtain ⟨j, r', hj, _, hm'⟩ := (tree_routes ht h).mp hy
    have hik : i ∈ schema.keys := List.mem_map_of_mem (f := Prod.fst) ((GMap.get?_eq_some_iff _).mp hi)
    have hjk : j ∈ schema.keys := List.mem_map_of_mem (f := Prod.fst) ((GMap.get?_eq_some_iff _).mp hj)
    by_cases he : i = j
    · subst he; exact dir_same (ht.dir i hik) hm hm' hp
    · exact absurd hp (ht.apart i hik j hjk he hm hm').1
  · intro k _ hu
    exact hw.inline k (fun r hr => absurd hr (by simp)) hu
  · intro path id k hp hs hdel
    exact absurd hdel (hd path id k hp hs)

/-- **C141**: blocks of ordinary keys that producers with such a schema send are delivered. -/
theorem C141_delivered {C : Codec} (hC : C.Lawful) {env : Env} {o : MapOrder} {d : GoStr} {schema : GMap GoStr GoStr} {p : Producer}
    {rx : GoStr → Re} (ht : TreeSchema schema rx) (h : newProducer o goCompile d schema = .ok p) {a : BlockArgs} {subs : Hash → SubArgs}
    (hk : ∀ k, k ∈ a.updates.keys ∨ k ∈ a.deletes.keys → TidyKey k) (hw : WellFormed [] a subs)
    (hd : ∀ path id k, a.batches.get? path = some id → k ∈ (subs id).deletes → k ∉ a.deletes.keys)
    {ms : List Msg} (hp : Produced C p.schema a subs ms) {cfg : Config} {mp mp' : MP} {received : List RMsg} (hn : newMP cfg = .ok mp)
    (hkeep : Keeps env a.number) (hf : Faithful a.hash ms received) (ha : AllArrive ms received) (hr : mp.run C env received = .ok mp') :
    ∃ pb ∈ mp'.emitted, Exact cfg.tracked p.schema a subs pb :=
  C01_delivered hC hp (C141_wellFormed ht h hk hw hd) hn hkeep hf ha hr

/-! ### The schema of the project's tests -/

/-- `"state/"` and `"bar/[^/]+/baz/"` (`delivery/producer_test.go`, `delivery/consumer_test.go`), and one with a repeated group and an alternation in a group. -/
def exRxTree : GMap GoStr GoStr :=
  GMap.ofList [(str "state/", str "s"), (str "bar/[^/]+/baz/", str "b"), (str "foo(a|b+?)*/", str "f")]

def exRxTreeRx (i : GoStr) : Re := match parseRe (anchored i) with | .ok re => re | .error _ => .empty

theorem exRxTree_tree : TreeSchema exRxTree exRxTreeRx where
  compiled := by
    have h : ∀ i ∈ exRxTree.keys, (match parseRe (anchored i) with | .ok _ => true | .error _ => false) = true := by decide +kernel
    intro i hi
    have := h i hi
    unfold exRxTreeRx
    split at this
    · rename_i re hre; rw [hre]
    · cases this
  dir := by
    have h : ∀ i ∈ exRxTree.keys, dirCheck (exRxTreeRx i) = true := by decide +kernel
    exact fun i hi => dirPattern_of (h i hi)
  apart := by
    have h : ∀ i ∈ exRxTree.keys, ∀ j ∈ exRxTree.keys, i ≠ j → apartCheck (exRxTreeRx i) (exRxTreeRx j) = true := by decide +kernel
    exact fun i hi j hj hne => apart_of (h i hi j hj hne)

theorem exRxTree_producer (o : MapOrder) : ∃ p, newProducer o goCompile (str "d") exRxTree = .ok p := by
  have hno : ¬ Overlap exRxTree := by
    rintro ⟨i, j, rest, hi, hj, hne, hp⟩
    have h : ∀ i ∈ exRxTree.keys, ∀ j ∈ exRxTree.keys, i ≠ j → hasPrefix i j = false := by decide +kernel
    have := h i hi j hj hne
    rw [(hasPrefix_iff i j).mpr ⟨rest, hp⟩] at this
    cases this
  obtain ⟨p, hp, _⟩ := C24_accepted o goCompile (str "d") exRxTree hno (fun i => (exRxTreeRx i).findString) (fun i hi =>
    ⟨by have h : ∀ i ∈ exRxTree.keys, (goCompile i).isSome = true := by decide +kernel
        exact h i hi, by simp [goCompile, exRxTree_tree.compiled i hi]⟩)
  exact ⟨p, hp⟩

/-- The example block of C01 meets the conditions that are left. -/
theorem exBlock_tree : (∀ k, k ∈ exBlock.updates.keys ∨ k ∈ exBlock.deletes.keys → TidyKey k) ∧ WellFormed [] exBlock exSubs ∧
    ∀ path id k, exBlock.batches.get? path = some id → k ∈ (exSubs id).deletes → k ∉ exBlock.deletes.keys := by
  have tidy1 : ∀ k : GoStr, (47 : UInt8) ∉ k → TidyKey k := fun k h => ⟨[], k, by simp, h, by simp [dirs]⟩
  refine ⟨fun k hk => ?_, ?_, fun path id k _ hk => ?_⟩
  · rcases ex_keys hk with rfl | rfl | rfl | rfl | rfl
    · exact (ex_dirs _ (str "a") (by decide +kernel) (by decide +kernel)).1
    · exact (ex_dirs _ (str "b") (by decide +kernel) (by decide +kernel)).1
    · exact tidy1 _ (by decide +kernel)
    · exact (ex_dirs _ (str "c") (by decide +kernel) (by decide +kernel)).1
    · exact tidy1 _ (by decide +kernel)
  · refine { exBlock_wf with dirs := ?_, nested := ?_, inline := ?_, subDel := ?_ }
    · rintro k pre topic _ ⟨b, r, t, hs, _⟩
      simp at hs
    · rintro x y ⟨k, t, _, b, r, t', hs, _⟩
      simp at hs
    · intro k _ hk
      obtain ⟨v, hv⟩ := (GMap.mem_keys_iff _).mp hk
      rcases ex_updates hv with ⟨rfl, _⟩ | ⟨rfl, _⟩ | ⟨rfl, _⟩ <;> decide +kernel
    · intro path id k _ _ _ r hr
      simp at hr
  · simp [exSubs] at hk; subst hk
    decide +kernel

example (o : MapOrder) : ∃ p, newProducer o goCompile (str "d") exRxTree = .ok p ∧ WellFormed p.schema exBlock exSubs ∧
    Routes p.schema (str "bar/x/baz/1") (str "bar/x/baz/") (str "b") := by
  obtain ⟨p, hp⟩ := exRxTree_producer o
  refine ⟨p, hp, C141_wellFormed exRxTree_tree hp exBlock_tree.1 exBlock_tree.2.1 exBlock_tree.2.2, ?_⟩
  have hd := exRxTree_tree.dir (str "bar/[^/]+/baz/") (by decide +kernel)
  obtain ⟨r, h1, h2⟩ := (dir_find hd (k := str "bar/x/baz/1") (x := str "bar/x/baz/")).mp ⟨by decide +kernel, by decide +kernel⟩
  exact (tree_routes exRxTree_tree hp).mpr ⟨_, r, by decide +kernel, h1, h2⟩

/-! ## C141: what goes wrong otherwise -/

/-- A block of one update. -/
def oneUpdate (k : GoStr) : BlockArgs where
  number := 5
  hash := exHash 1
  parentHash := exHash 2
  weight := 300
  updates := GMap.empty.insert k [1]
  deletes := GMap.empty
  batches := GMap.empty

/-- The messages of the block of one update as the producer of this one-entry schema sends them. -/
def sentWith (i k : GoStr) : Option (List Msg) :=
  match newProducer .plain goCompile (str "d") (GMap.empty.insert i (str "t")) with
  | .error _ => none
  | .ok p => match (addBlock' Avro.codec .plain p (oneUpdate k)).2 with
    | .ok tm => some (flat tm)
    | .error _ => none

namespace Spec
/-- The schema `i` is accepted, and so is a block that updates the key `k` only; it is sent, all its messages arrive, and the consumer
does not emit it. -/
def NeverDelivered (i k : GoStr) : Prop :=
  ∃ p p' tm mp', newProducer .plain goCompile (str "d") (GMap.empty.insert i (str "t")) = .ok p ∧
    addBlock' Avro.codec .plain p (oneUpdate k) = (p', .ok tm) ∧ Faithful (oneUpdate k).hash (flat tm) (recv (flat tm)) ∧
    AllArrive (flat tm) (recv (flat tm)) ∧ exMP.run Avro.codec exEnv (recv (flat tm)) = .ok mp' ∧ mp'.emitted = []
end Spec

theorem neverDelivered_of {i k : GoStr} {ms : List Msg} (hs : sentWith i k = some ms)
    (h : ∃ mp', exMP.run Avro.codec exEnv (recv ms) = .ok mp' ∧ mp'.emitted = []) : NeverDelivered i k := by
  obtain ⟨mp', h1, h2⟩ := h
  unfold sentWith at hs
  split at hs
  · cases hs
  · rename_i p hp
    split at hs
    · rename_i tm htm
      cases hs
      refine ⟨p, (addBlock' Avro.codec .plain p (oneUpdate k)).1, tm, mp', hp, by rw [← htm], fun m hm _ => .inl (recv_copy (fun _ h => h) hm), recv_all _, h1, h2⟩
    · cases hs

/-- **C141** refuted: `"^" +` the text anchors the first alternative only. With the schema entry `a/|b/` the key `x/b/y` is counted
under the prefix `b/`, which is none of its directories, and the block never comes out. -/
theorem C141_alternation_refuted : NeverDelivered (str "a/|b/") (str "x/b/y") := by
  obtain ⟨mp', h1, h2⟩ := ex_ok (r := exMP.run Avro.codec exEnv (recv ((sentWith (str "a/|b/") (str "x/b/y")).getD [])))
    (fun mp : MP => mp.emitted.isEmpty) (by decide +kernel)
  have hs : (sentWith (str "a/|b/") (str "x/b/y")).isSome = true := by decide +kernel
  obtain ⟨ms, hms⟩ := Option.isSome_iff_exists.mp hs
  refine neverDelivered_of hms ⟨mp', ?_, by simpa using h2⟩
  rw [hms] at h1; exact h1

/-- **C141** refuted: an entry that does not end in a slash. `state/thing` is in the project's tests as a schema that overlaps with
`state/`; alone it is accepted, matches `state/thing1`, and the block never comes out. -/
theorem C141_no_directory_refuted : NeverDelivered (str "state/thing") (str "state/thing1") := by
  obtain ⟨mp', h1, h2⟩ := ex_ok (r := exMP.run Avro.codec exEnv (recv ((sentWith (str "state/thing") (str "state/thing1")).getD [])))
    (fun mp : MP => mp.emitted.isEmpty) (by decide +kernel)
  have hs : (sentWith (str "state/thing") (str "state/thing1")).isSome = true := by decide +kernel
  obtain ⟨ms, hms⟩ := Option.isSome_iff_exists.mp hs
  refine neverDelivered_of hms ⟨mp', ?_, by simpa using h2⟩
  rw [hms] at h1; exact h1

/-- A text that begins with `^?` is taken to be anchored already, and is not: `^?b/` finds `b/` in the middle of `x/b/y`. -/
theorem C141_optional_anchor_refuted : NeverDelivered (str "^?b/") (str "x/b/y") := by
  obtain ⟨mp', h1, h2⟩ := ex_ok (r := exMP.run Avro.codec exEnv (recv ((sentWith (str "^?b/") (str "x/b/y")).getD [])))
    (fun mp : MP => mp.emitted.isEmpty) (by decide +kernel)
  have hs : (sentWith (str "^?b/") (str "x/b/y")).isSome = true := by decide +kernel
  obtain ⟨ms, hms⟩ := Option.isSome_iff_exists.mp hs
  refine neverDelivered_of hms ⟨mp', ?_, by simpa using h2⟩
  rw [hms] at h1; exact h1

/-- With the entry `b/` the block does come out: the schema is what is wrong. -/
example : ∃ ms mp', sentWith (str "x/b/") (str "x/b/y") = some ms ∧ exMP.run Avro.codec exEnv (recv ms) = .ok mp' ∧ mp'.emitted ≠ [] := by
  obtain ⟨mp', h1, h2⟩ := ex_ok (r := exMP.run Avro.codec exEnv (recv ((sentWith (str "x/b/") (str "x/b/y")).getD [])))
    (fun mp : MP => !mp.emitted.isEmpty) (by decide +kernel)
  have hs : (sentWith (str "x/b/") (str "x/b/y")).isSome = true := by decide +kernel
  obtain ⟨ms, hms⟩ := Option.isSome_iff_exists.mp hs
  refine ⟨ms, mp', hms, by rw [hms] at h1; exact h1, by simpa using h2⟩

/-! ## C142 -/

/-- **C142**: producers that are made of the same schema, whatever order Go iterates over it in, route alike, prefixes and topics. -/
theorem C142_routes {o o' : MapOrder} {d : GoStr} {schema : GMap GoStr GoStr} {p p' : Producer} {rx : GoStr → Re}
    (ht : TreeSchema schema rx) (h : newProducer o goCompile d schema = .ok p) (h' : newProducer o' goCompile d schema = .ok p')
    (k pre topic : GoStr) : Routes p.schema k pre topic ↔ Routes p'.schema k pre topic := by
  rw [tree_routes ht h, tree_routes ht h']

/-- **C142**: so they are given the same block when they are called with the same arguments, and their messages may be mixed (C137). -/
theorem C142_redundant {o o' : MapOrder} {d : GoStr} {schema : GMap GoStr GoStr} {p p' : Producer} {rx : GoStr → Re}
    (ht : TreeSchema schema rx) (h : newProducer o goCompile d schema = .ok p) (h' : newProducer o' goCompile d schema = .ok p')
    (a : BlockArgs) (subs : Hash → SubArgs) : SameGiven p.schema a subs p'.schema a subs where
  number := rfl
  hash := rfl
  parent := rfl
  weight := rfl
  updates _ := rfl
  deletes _ := rfl
  batches _ := rfl
  routes k pre _ := by
    constructor
    · rintro ⟨t, ht'⟩; exact ⟨t, (C142_routes ht h h' k pre t).mpr ht'⟩
    · rintro ⟨t, ht'⟩; exact ⟨t, (C142_routes ht h h' k pre t).mp ht'⟩
  subUpdates _ _ _ _ := rfl
  subDeletes _ _ _ := List.Perm.refl _

example : ∃ p p', newProducer .plain goCompile (str "d") exRxTree = .ok p ∧ newProducer .rev goCompile (str "d") exRxTree = .ok p' ∧
    SameGiven p.schema exBlock exSubs p'.schema exBlock exSubs := by
  obtain ⟨p, hp⟩ := exRxTree_producer .plain
  obtain ⟨p', hp'⟩ := exRxTree_producer .rev
  exact ⟨p, p', hp, hp', C142_redundant exRxTree_tree hp hp' _ _⟩

/-- Where the first entry with a match sends a key. -/
def routeOf (o : MapOrder) (schema : GMap GoStr GoStr) (k : GoStr) : Option (GoStr × GoStr) :=
  match newProducer o goCompile (str "d") schema with
  | .ok p => firstMatch p.schema k
  | .error _ => none

theorem routeOf_some {o : MapOrder} {schema : GMap GoStr GoStr} {k pre topic : GoStr} (h : routeOf o schema k = some (pre, topic)) :
    ∃ p, newProducer o goCompile (str "d") schema = .ok p ∧ Routes p.schema k pre topic := by
  unfold routeOf at h
  split at h
  · rename_i p hp; exact ⟨p, hp, firstMatch_some_iff.mp h⟩
  · cases h

/-- **C142** refuted in general: `NewProducer` refuses overlapping entries by comparing their texts. `[^/]+/baz/` and `bar/` overlap and are
accepted, and two producers made of that schema, or one before and after a restart, send the same key under different prefixes to
different topics. -/
theorem C142_overlap_refuted : ∃ (schema : GMap GoStr GoStr) (k : GoStr) (p p' : Producer) (pre topic pre' topic' : GoStr),
    newProducer .plain goCompile (str "d") schema = .ok p ∧ newProducer .rev goCompile (str "d") schema = .ok p' ∧
    Routes p.schema k pre topic ∧ Routes p'.schema k pre' topic' ∧ pre ≠ pre' ∧ topic ≠ topic' := by
  obtain ⟨p, h1, h2⟩ := routeOf_some (o := .plain) (schema := GMap.ofList [(str "[^/]+/baz/", str "x"), (str "bar/", str "y")])
    (k := str "bar/baz/1") (pre := str "bar/baz/") (topic := str "x") (by decide +kernel)
  obtain ⟨p', h1', h2'⟩ := routeOf_some (o := .rev) (schema := GMap.ofList [(str "[^/]+/baz/", str "x"), (str "bar/", str "y")])
    (k := str "bar/baz/1") (pre := str "bar/") (topic := str "y") (by decide +kernel)
  exact ⟨_, _, p, p', _, _, _, _, h1, h1', h2, h2', by decide +kernel, by decide +kernel⟩

/-! ## C143: tracked prefixes -/

/-- **C143**: a tracked prefix of ordinary characters tracks every prefix it occurs in, wherever: it is not anchored as schema entries
are. -/
theorem C143_literal {s : GoStr} (hs : ∀ b ∈ s, plainByte b = true) :
    ∃ re, parseRe s = .ok re ∧ ∀ k, trackedBy [re] k = true ↔ s <:+: k := by
  refine ⟨litRe s, parse_lit hs, fun k => ?_⟩
  simp only [trackedBy, List.any_cons, List.any_nil, Bool.or_false, C141_matches]
  constructor
  · rintro ⟨l, x, r, h1, _, h3⟩
    rw [matches_lit.mp h3] at h1
    exact ⟨l, r, by rw [h1]; simp⟩
  · rintro ⟨l, r, h⟩
    cases s with
    | nil => exact ⟨[], [], k, rfl, .nil, matches_lit.mpr rfl⟩
    | cons b t =>
      refine ⟨l, b :: t, r, by rw [← h]; simp, ?_, matches_lit.mpr rfl⟩
      have hb := hs b List.mem_cons_self
      simp only [plainByte, Bool.and_eq_true, decide_eq_true_eq] at hb
      exact wholeChars_ascii hb.1 l

/-- **C143**: with `^` in front it tracks the prefixes that begin with it. -/
theorem C143_anchored {s : GoStr} (hs : ∀ b ∈ s, plainByte b = true) :
    ∃ re, parseRe (94 :: s) = .ok re ∧ ∀ k, trackedBy [re] k = true ↔ s <+: k := by
  refine ⟨_, parse_anchored_lit hs, fun k => ?_⟩
  simp only [trackedBy, List.any_cons, List.any_nil, Bool.or_false, C141_matches]
  constructor
  · rintro ⟨l, x, r, h1, _, h3⟩
    obtain ⟨hl, rfl⟩ := matches_anchored_lit.mp h3
    rw [List.isEmpty_iff] at hl
    subst hl
    exact ⟨r, by simpa using h1.symm⟩
  · rintro ⟨r, h⟩
    exact ⟨[], s, r, by simpa using h.symm, .nil, matches_anchored_lit.mpr ⟨rfl, rfl⟩⟩

/-- **C143**: a consumer with several tracked prefixes tracks what any of them tracks. -/
theorem C143_union (res : List Re) (k : GoStr) : trackedBy res k = true ↔ ∃ re ∈ res, ∃ l x r, MatchAt re k l x r := by
  simp only [trackedBy, List.any_eq_true, C141_matches]

/-- **C143**: `.*`, of the consumer tests, tracks everything. -/
theorem C143_all : ∃ re, parseRe (str ".*") = .ok re ∧ ∀ k, trackedBy [re] k = true := by
  refine ⟨.star true .any, rfl, fun k => ?_⟩
  rw [C143_union]
  exact ⟨_, List.mem_singleton.mpr rfl, [], [], k, rfl, .nil, .starNil⟩

/-- **C143**: `.`, of the ordering and waiter tests, tracks everything that has a character other than a newline. -/
theorem C143_some : ∃ re, parseRe (str ".") = .ok re ∧ ∀ k, trackedBy [re] k = true ↔ ∃ b ∈ k, b ≠ 10 := by
  refine ⟨.any, rfl, fun k => ?_⟩
  rw [C143_union]
  constructor
  · rintro ⟨re, hre, l, x, r, rfl, _, hm⟩
    cases List.mem_singleton.mp hre
    cases hm with
    | any hc h => exact ⟨_, by simp, h⟩
    | anyWide h =>
      obtain ⟨⟨b, t, rfl, hb⟩, _⟩ := h
      exact ⟨b, by simp, by rintro rfl; exact absurd hb (by decide)⟩
  · rintro ⟨b, hb, hne⟩
    refine ⟨_, List.mem_singleton.mpr rfl, ?_⟩
    -- the first byte that is not a newline begins a character
    have key : ∀ k : Bytes, b ∈ k → ∃ l c r, k = l ++ c :: r ∧ (∀ x ∈ l, x = (10 : UInt8)) ∧ c ≠ 10 := by
      intro k
      induction k with
      | nil => intro h; cases h
      | cons c t ih =>
        intro h
        by_cases hc : c = 10
        · subst hc
          rcases List.mem_cons.mp h with h | h
          · exact absurd h hne
          · obtain ⟨l, c', r, h1, h2, h3⟩ := ih h
            exact ⟨10 :: l, c', r, by rw [h1]; rfl, by simpa using h2, h3⟩
        · exact ⟨[], c, t, rfl, by simp, hc⟩
    obtain ⟨l, c, r, rfl, hl, hc⟩ := key k hb
    have hw : ∀ (l : Bytes) (s : Bytes), (∀ x ∈ l, x = (10 : UInt8)) → WholeChars l s := by
      intro l s
      induction l with
      | nil => intro _; exact .nil
      | cons x t ih =>
        intro h
        have hx := h x List.mem_cons_self
        subst hx
        exact .cons (x := [10]) (by simp) (by rw [List.singleton_append, runeWidth_ascii (by decide)]; rfl) (ih fun y hy => h y (List.mem_cons_of_mem _ hy))
    by_cases hlt : c < 128
    · exact ⟨l, [c], r, rfl, hw l _ hl, .any hlt hc⟩
    · have hle := runeWidth_le (s := c :: r) (by simp)
      have hpos := runeWidth_pos (c :: r)
      refine ⟨l, (c :: r).take (runeWidth (c :: r)), (c :: r).drop (runeWidth (c :: r)), by rw [List.take_append_drop], hw l _ hl,
        .anyWide ⟨?_, ?_⟩⟩
      · obtain ⟨n, hn⟩ : ∃ n, runeWidth (c :: r) = n + 1 := ⟨runeWidth (c :: r) - 1, by omega⟩
        exact ⟨c, r.take n, by rw [hn]; rfl, UInt8.not_lt.mp hlt⟩
      · rw [List.take_append_drop, List.length_take]; omega

/-- **C143** refuted: "tracked prefixes" are not prefixes. A consumer that tracks `state/` also tracks `oldstate/`. -/
theorem C143_prefix_refuted : ∃ re, parseRe (str "state/") = .ok re ∧ trackedBy [re] (str "oldstate/") = true ∧ ¬ str "state/" <+: str "oldstate/" :=
  ⟨_, rfl, by decide +kernel, fun h => absurd (List.isPrefixOf_iff_prefix.mpr h) (by decide +kernel)⟩

end Verif
