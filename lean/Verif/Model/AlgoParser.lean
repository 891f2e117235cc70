import Verif.Model.Basic

/-!
# util/algorithm_parser/{ASTDef,AlgorithmAST}.hpp: algorithm strings

The parser is modelled on the suffix of the text that starts at `m_cursor`; `n` is the length of the whole text.  All callers pass a complete
`std::string`, so reading `m_text[m_text.size()]` yields the terminating NUL.
-/

namespace Tdc
namespace Ast

/-- strings are sequences of bytes -/
abbrev Bs := List UInt8

mutual
/-- util/algorithm_parser/ASTDef.hpp:16-29, `ast::Value`: a string, or an invocation with arguments. -/
inductive Val where
  | str (x : Bs)
  | inv (name : Bs) (args : Args)
  deriving DecidableEq
/-- util/algorithm_parser/ASTDef.hpp:77-90, a `std::vector<ast::Arg>`; each argument has an optional keyword and a value.  The parser never
sets the type of an argument. -/
inductive Args where
  | nil
  | cons (kw : Option Bs) (v : Val) (rest : Args)
  deriving DecidableEq
end

/-- AlgorithmAST.hpp:89-90: `"true"` -/
def trueB : Bs := [116, 114, 117, 101]
/-- AlgorithmAST.hpp:89-90: `"false"` -/
def falseB : Bs := [102, 97, 108, 115, 101]
/-- AlgorithmAST.hpp:123 `"chain"` -/
def chainB : Bs := [99, 104, 97, 105, 110]

/-- AlgorithmAST.hpp:123-126: `Value("chain", { Arg(val1), Arg(val2) })` -/
def mkChain (v1 v2 : Val) : Val := .inv chainB (.cons none v1 (.cons none v2 .nil))

/-- util/algorithm_parser/ASTDef.hpp:201-219, `Arg::to_string` (no type); `v` is the printed value -/
def printArg (kw : Option Bs) (v : Bs) : Bs :=
  match kw with
  | some k => k ++ 32 :: 61 :: 32 :: v
  | none => v

mutual
/-- util/algorithm_parser/ASTDef.hpp:179-199, `Value::to_string` -/
def Val.print : Val → Bs
  | .str x => 34 :: x ++ [34]
  | .inv name args =>
    match args with
    | .nil => name
    | .cons kw v rest => name ++ 40 :: printArg kw v.print ++ rest.printRest ++ [41]
/-- util/algorithm_parser/ASTDef.hpp:185-193, the arguments after the first one and their separators -/
def Args.printRest : Args → Bs
  | .nil => []
  | .cons kw v rest => 44 :: 32 :: printArg kw v.print ++ rest.printRest
end

/-! ## the parser -/

/-- AlgorithmAST.hpp:200-203: the characters `parse_whitespace` skips -/
def isWs (c : UInt8) : Bool := c = 32 || c = 10 || c = 13 || c = 9

/-- AlgorithmAST.hpp:37-40, `accept_numeric` -/
def isNum (c : UInt8) : Bool := c = 45 || c = 46 || (48 ≤ c && c ≤ 57)

/-- AlgorithmAST.hpp:172-175: first character of an identifier -/
def isAlpha (c : UInt8) : Bool := c = 95 || (97 ≤ c && c ≤ 122) || (65 ≤ c && c ≤ 90)

/-- AlgorithmAST.hpp:184-188: further characters of an identifier -/
def isIdent (c : UInt8) : Bool := isAlpha c || (48 ≤ c && c ≤ 57)

/-- AlgorithmAST.hpp:196-207, `parse_whitespace` -/
def skipWs (s : Bs) : Bs := s.dropWhile isWs

/-- the character at the cursor; at the end of the text the NUL of the `std::string` -/
def cur (s : Bs) : UInt8 := s.headD 0

/-- AlgorithmAST.hpp:215-221, `peek_char` -/
def peekChar (acc : UInt8 → Bool) (s : Bs) : Bool × Bs := if s = [] then (false, s) else (acc (cur (skipWs s)), skipWs s)

/-- AlgorithmAST.hpp:208-214, `parse_char` -/
def parseChar (acc : UInt8 → Bool) (s : Bs) : Bool × Bs :=
  if (peekChar acc s).1 then (true, (peekChar acc s).2.tail) else (false, (peekChar acc s).2)

theorem skipWs_length (s : Bs) : (skipWs s).length ≤ s.length := (List.dropWhile_sublist _).length_le

/-- AlgorithmAST.hpp:228-243 with `enclose`: the loop behind the opening delimiter; `acc` is the slice from `start` to the cursor.  Every test
for the delimiter skips whitespace (which stays in the slice). -/
def strLoop (delim : UInt8) (s : Bs) (acc : Bs) : Option (Bs × Bs) :=
  if h : s = [] then none else
  if cur (skipWs s) = delim then some (acc ++ s.takeWhile isWs, (skipWs s).tail)
  else strLoop delim (skipWs s).tail (acc ++ s.takeWhile isWs ++ (skipWs s).take 1)
termination_by s.length
decreasing_by
  have h1 := skipWs_length s
  have h2 := List.length_pos_iff.mpr h
  rw [List.length_tail]
  omega

/-- AlgorithmAST.hpp:228-243 without `enclose` and with the delimiter `accept_non_numeric` -/
def numLoop (s : Bs) (acc : Bs) : Option (Bs × Bs) :=
  if h : s = [] then none else
  if isNum (cur (skipWs s)) = false then some (acc ++ s.takeWhile isWs, skipWs s)
  else numLoop (skipWs s).tail (acc ++ s.takeWhile isWs ++ (skipWs s).take 1)
termination_by s.length
decreasing_by
  have h1 := skipWs_length s
  have h2 := List.length_pos_iff.mpr h
  rw [List.length_tail]
  omega

/-- AlgorithmAST.hpp:222-250, `parse_string(delim, help)`, enclosed; the error message is not modelled -/
def parseQuoted (delim : UInt8) (s : Bs) : Res (Val × Bs) :=
  if (parseChar (· == delim) s).1 then
    match strLoop delim (parseChar (· == delim) s).2 [] with
    | some r => .ok (.str r.1, r.2)
    | none => .error .throw
  else .error .throw

/-- AlgorithmAST.hpp:222-250, `parse_string(accept_non_numeric, "non-numeric", false)`.  `end = start - 1` wraps to `npos` when the
cursor is 0, and `slice(0, npos)` is the whole text. -/
def parseNumber (n : Nat) (s : Bs) : Res (Val × Bs) :=
  match numLoop s [] with
  | some r => .ok (.str r.1, r.2)
  | none => if s.length = n then .ok (.str s, []) else .error .throw

/-- AlgorithmAST.hpp:167-195, `parse_ident` -/
def parseIdent (s : Bs) : Bs × Bs :=
  match skipWs s with
  | [] => ([], [])
  | c :: t => if isAlpha c then (c :: t.takeWhile isIdent, t.dropWhile isIdent) else ([], c :: t)

/-- AlgorithmAST.hpp:83-87: the name of the value is the identifier already parsed, or the next one (`expect_ident`, :259-265) -/
def startIdent (s ident : Bs) : Res (Bs × Bs) :=
  if ident = [] then (if (parseIdent s).1 = [] then .error .throw else .ok (parseIdent s)) else .ok (ident, skipWs s)

mutual
/-- AlgorithmAST.hpp:66-117, `parse_single_value`; `ident` is the identifier already parsed (empty if none). -/
def parseSingle (n : Nat) : Nat → Bs → Bs → Res (Val × Bs)
  | 0, _, _ => .error .loop
  | fuel + 1, s, ident =>
    if ident = [] ∧ (peekChar (· == 34) (skipWs s)).1 = true then parseQuoted 34 (skipWs s)
    else if ident = [] ∧ (peekChar (· == 39) (skipWs s)).1 = true then parseQuoted 39 (skipWs s)
    else if ident = [] ∧ (peekChar isNum (skipWs s)).1 = true then parseNumber n (skipWs s)
    else
      (startIdent s ident).bind fun r =>
      if r.1 = trueB ∨ r.1 = falseB then .ok (.str r.1, r.2) else
      if (parseChar (· == 40) (skipWs r.2)).1 then
        (parseArgs n fuel (parseChar (· == 40) (skipWs r.2)).2 true).bind fun a => .ok (.inv r.1 a.1, a.2)
      else .ok (.inv r.1 .nil, (parseChar (· == 40) (skipWs r.2)).2)

/-- AlgorithmAST.hpp:94-113, the loop over the arguments; `first` as in the code. -/
def parseArgs (n : Nat) : Nat → Bs → Bool → Res (Args × Bs)
  | 0, _, _ => .error .loop
  | fuel + 1, s, first =>
    if (parseChar (· == 41) (skipWs s)).1 then .ok (.nil, (parseChar (· == 41) (skipWs s)).2)
    else if first ∨ (parseChar (· == 44) (skipWs s)).1 = true then
      let s1 := if first then skipWs s else (parseChar (· == 44) (skipWs s)).2
      if (parseChar (· == 41) s1).1 then .ok (.nil, (parseChar (· == 41) s1).2)
      else (parseArg n fuel s1).bind fun a => (parseArgs n fuel a.2.2 false).bind fun r => .ok (.cons a.1 a.2.1 r.1, r.2)
    else .error .throw

/-- AlgorithmAST.hpp:119-130, `parse_value` -/
def parseValue (n : Nat) : Nat → Bs → Bs → Res (Val × Bs)
  | 0, _, _ => .error .loop
  | fuel + 1, s, ident => (parseSingle n fuel s ident).bind fun r => chainLoop n fuel r.2 r.1

/-- AlgorithmAST.hpp:121-127, the loop over `:` -/
def chainLoop (n : Nat) : Nat → Bs → Val → Res (Val × Bs)
  | 0, _, _ => .error .loop
  | fuel + 1, s, v =>
    if (parseChar (· == 58) s).1 then
      (parseSingle n fuel (parseChar (· == 58) s).2 []).bind fun r => chainLoop n fuel r.2 (mkChain v r.1)
    else .ok (v, (parseChar (· == 58) s).2)

/-- AlgorithmAST.hpp:131-166, `parse_arg` (types are never set): keyword, value, remaining text -/
def parseArg (n : Nat) : Nat → Bs → Res (Option Bs × Val × Bs)
  | 0, _ => .error .loop
  | fuel + 1, s =>
    if (parseIdent s).1 = [] then (parseValue n fuel (parseIdent s).2 []).bind fun r => .ok (none, r)
    else if (parseChar (· == 61) (parseIdent s).2).1 then
      (parseValue n fuel (parseChar (· == 61) (parseIdent s).2).2 []).bind fun r => .ok (some (parseIdent s).1, r)
    else (parseValue n fuel (parseChar (· == 61) (parseIdent s).2).2 (parseIdent s).1).bind fun r => .ok (none, r)
end

/-- Registry.hpp:224-225 and CreateAlgorithm.hpp:43-46: `ast::Parser p { text }; p.parse_value()`; what is left of the text is not looked at.
The fuel is enough (`parse_total`). -/
def parse (text : Bs) : Res Val := (parseValue text.length (4 * text.length + 2) text []).bind fun r => .ok r.1

end Ast
end Tdc
