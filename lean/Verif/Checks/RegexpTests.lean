import Verif.Model.Regexp
/-! The model of `regexp` on cases of the tests of Go's package (`regexp/find_test.go`, `regexp/syntax/parse_test.go`) that are in the
modelled syntax. These are tests, not proofs; none of them is a claim of the manifest. -/
namespace Verif

/-- The first match, `none` without one; the outer `none` if there is no expression. -/
def rxFind (re s : String) : Option (Option Bytes) :=
  match parseRe (str re) with
  | .ok r => some (r.findFrom (str s).length true (str s))
  | .error _ => none

def rxFinds (re s out : String) : Bool := rxFind re s == some (some (str out))
def rxNone (re s : String) : Bool := rxFind re s == some none
def rxBad (re : String) : Bool := match parseRe (str re) with | .error .bad => true | _ => false

example : rxFinds "" "" "" = true := by decide +kernel
example : rxFinds "^abcdefg" "abcdefg" "abcdefg" = true := by decide +kernel
example : rxFinds "a+" "baaab" "aaa" = true := by decide +kernel
example : rxFinds "abcd.." "abcdef" "abcdef" = true := by decide +kernel
example : rxFinds "a" "a" "a" = true := by decide +kernel
example : rxNone "x" "y" = true := by decide +kernel
example : rxFinds "." "a" "a" = true := by decide +kernel
example : rxNone "^b" "ab" = true := by decide +kernel
example : rxFinds "a*" "baaab" "" = true := by decide +kernel
example : rxFinds "[a-z]+" "abcd" "abcd" = true := by decide +kernel
example : rxFinds "[^a-z]+" "ab1234cd" "1234" = true := by decide +kernel
example : rxFinds "[a\\-\\]z]+" "az]-bcz" "az]-" = true := by decide +kernel
example : rxFinds "()" "" "" = true := by decide +kernel
example : rxFinds "(a)" "a" "a" = true := by decide +kernel
example : rxFinds "(.)(.)" "ab" "ab" = true := by decide +kernel
example : rxFinds "(.*)" "abcd" "abcd" = true := by decide +kernel
example : rxFinds "(..)(..)" "abcd" "abcd" = true := by decide +kernel
example : rxFinds "(([^xyz]*)(d))" "abcd" "abcd" = true := by decide +kernel
example : rxFinds "((a|b|c)*(d))" "abcd" "abcd" = true := by decide +kernel
example : rxFinds "(((a|b|c)*)(d))" "abcd" "abcd" = true := by decide +kernel
example : rxFinds "a*(|(b))c*" "aacc" "aacc" = true := by decide +kernel
example : rxFinds "(.*).*" "ab" "ab" = true := by decide +kernel
example : rxFinds "[.]" "." "." = true := by decide +kernel
example : rxFinds "/$" "/abc/" "/" = true := by decide +kernel
example : rxNone "/$" "/abc" = true := by decide +kernel
example : rxFinds "ab*" "abbaab" "abb" = true := by decide +kernel
example : rxFinds "$^" "" "" = true := by decide +kernel
example : rxNone "a^" "ab" = true := by decide +kernel
example : rxFinds "(a|ab)(c|bcd)(d*)" "abcd" "abcd" = true := by decide +kernel
example : rxFinds "\\@\\." "a@.b" "@." = true := by decide +kernel
example : rxFinds "." "日本" "日" = true := by decide +kernel
example : rxFinds "[^a]b" "日b" "日b" = true := by decide +kernel
example : (["(", ")", "(a", "a)", "(a))", "(a|b|", "(a|b", "[a-z", "x[", "a**", "a**c", "*", "+", "?", "a*+", "a??*", "(*)", "a|*", "[z-a]", "\\"].all rxBad) = true := by
  decide +kernel

end Verif
