import Verif.Model.AlgoParser

/-!
# The grammar of algorithm strings

Which value an algorithm string denotes, written down as a grammar.
-/

namespace Tdc
namespace Ast

/-- only blanks, tabs and line breaks -/
def AllWs (w : Bs) : Prop := ∀ c ∈ w, c = 32 ∨ c = 9 ∨ c = 10 ∨ c = 13

/-- `A`-`Z`, `a`-`z`, `_` -/
def Letter (c : UInt8) : Prop := (65 ≤ c.toNat ∧ c.toNat ≤ 90) ∨ (97 ≤ c.toNat ∧ c.toNat ≤ 122) ∨ c.toNat = 95

/-- `0`-`9` -/
def Digit (c : UInt8) : Prop := 48 ≤ c.toNat ∧ c.toNat ≤ 57

/-- a digit, `.` or `-` -/
def Numeric (c : UInt8) : Prop := Digit c ∨ c.toNat = 46 ∨ c.toNat = 45

instance (c : UInt8) : Decidable (Letter c) := by unfold Letter; infer_instance
instance (c : UInt8) : Decidable (Digit c) := by unfold Digit; infer_instance
instance (c : UInt8) : Decidable (Numeric c) := by unfold Numeric; infer_instance

/-- a letter or underscore, followed by letters, digits and underscores -/
def IsIdent (x : Bs) : Prop := ∃ c t, x = c :: t ∧ Letter c ∧ ∀ d ∈ t, Letter d ∨ Digit d

/-- the last character belongs to a number -/
def endsNum (x : Bs) : Bool := decide (Numeric (x.getLast?.getD 0))

mutual
/-- Single values.  Whitespace behind a token belongs to it; the whitespace in and behind a number belongs even to its value.  The flag tells
whether the token ends in a number that needs a following character. -/
inductive GSingle : Bool → Val → Bs → Prop
  | dquote (x w : Bs) : 34 ∉ x → AllWs w → GSingle false (.str x) (34 :: x ++ 34 :: w)
  | squote (x w : Bs) : 39 ∉ x → AllWs w → GSingle false (.str x) (39 :: x ++ 39 :: w)
  | num (c : UInt8) (x : Bs) : Numeric c → (∀ d ∈ x, Numeric d ∨ AllWs [d]) →
      GSingle (endsNum (c :: x)) (.str (c :: x)) (c :: x)
  | bool (x w : Bs) : x = trueB ∨ x = falseB → AllWs w → GSingle false (.str x) (x ++ w)
  | inv0 (name w : Bs) : IsIdent name → name ≠ trueB → name ≠ falseB → AllWs w → GSingle false (.inv name .nil) (name ++ w)
  | inv (name w1 sa w2 : Bs) (args : Args) : IsIdent name → name ≠ trueB → name ≠ falseB → AllWs w1 → GArgs args sa → AllWs w2 →
      GSingle false (.inv name args) (name ++ w1 ++ 40 :: sa ++ w2)
/-- Values: single values joined by `:` from left to right, `a:b:c` being `chain(chain(a,b),c)`. -/
inductive GValue : Bool → Val → Bs → Prop
  | single (b : Bool) (v : Val) (s : Bs) : GSingle b v s → GValue b v s
  | chain (b1 b2 : Bool) (v1 v2 : Val) (s1 w s2 : Bs) : GValue b1 v1 s1 → AllWs w → GSingle b2 v2 s2 →
      GValue b2 (.inv chainB (.cons none v1 (.cons none v2 .nil))) (s1 ++ 58 :: w ++ s2)
/-- Arguments: `value` or `keyword = value`. -/
inductive GArg : Option Bs → Val → Bs → Prop
  | pos (b : Bool) (v : Val) (s : Bs) : GValue b v s → GArg none v s
  | kw (k w1 w2 : Bs) (b : Bool) (v : Val) (s : Bs) : IsIdent k → AllWs w1 → AllWs w2 → GValue b v s →
      GArg (some k) v (k ++ w1 ++ 61 :: w2 ++ s)
/-- What follows an opening parenthesis, including the closing one. -/
inductive GArgs : Args → Bs → Prop
  | nil (w : Bs) : AllWs w → GArgs .nil (w ++ [41])
  | cons (w : Bs) (k : Option Bs) (v : Val) (s : Bs) (rest : Args) (t : Bs) : AllWs w → GArg k v s → GTail rest t →
      GArgs (.cons k v rest) (w ++ s ++ t)
/-- What follows an argument: further arguments, perhaps a trailing comma, the closing parenthesis. -/
inductive GTail : Args → Bs → Prop
  | close : GTail .nil [41]
  | trailing (w : Bs) : AllWs w → GTail .nil (44 :: w ++ [41])
  | more (w : Bs) (k : Option Bs) (v : Val) (s : Bs) (rest : Args) (t : Bs) : AllWs w → GArg k v s → GTail rest t →
      GTail (.cons k v rest) (44 :: w ++ s ++ t)
end

end Ast
end Tdc
