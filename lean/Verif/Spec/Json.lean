import Verif.Model.Json

/-!
# JSON (RFC 8259): which text stands for which value

Numbers are integers; `\u` escapes are those of the basic multilingual plane (surrogate pairs are left out, the writer never writes any).
-/

namespace Tdc.Json

/-- white space -/
def Ws (s : List UInt8) : Prop := ∀ c ∈ s, c = 32 ∨ c = 9 ∨ c = 10 ∨ c = 13

/-- the two-character escapes, and what they stand for -/
def escapes : List (UInt8 × UInt8) := [(34, 34), (92, 92), (47, 47), (98, 8), (102, 12), (110, 10), (114, 13), (116, 9)]

/-- hexadecimal digits -/
def hexVal (c : UInt8) : Option Nat :=
  if 48 ≤ c ∧ c ≤ 57 then some (c.toNat - 48) else if 65 ≤ c ∧ c ≤ 70 then some (c.toNat - 55) else if 97 ≤ c ∧ c ≤ 102 then some (c.toNat - 87) else none

/-- UTF-8 -/
def utf8 (n : Nat) : List UInt8 :=
  if n < 0x80 then [UInt8.ofNat n]
  else if n < 0x800 then [UInt8.ofNat (0xC0 + n / 64), UInt8.ofNat (0x80 + n % 64)]
  else [UInt8.ofNat (0xE0 + n / 4096), UInt8.ofNat (0x80 + n / 64 % 64), UInt8.ofNat (0x80 + n % 64)]

/-- `Chars v s`: the text `s` between the quotes stands for the string `v`. -/
inductive Chars : List UInt8 → List UInt8 → Prop
  | nil : Chars [] []
  | plain {c : UInt8} {v s : List UInt8} : 32 ≤ c → c ≠ 34 → c ≠ 92 → Chars v s → Chars (c :: v) (c :: s)
  | esc {e c : UInt8} {v s : List UInt8} : (e, c) ∈ escapes → Chars v s → Chars (c :: v) (92 :: e :: s)
  | uni {a b c d : UInt8} {w x y z : Nat} {v s : List UInt8} : hexVal a = some w → hexVal b = some x → hexVal c = some y → hexVal d = some z → Chars v s →
      Chars (utf8 (((w * 16 + x) * 16 + y) * 16 + z) ++ v) (92 :: 117 :: a :: b :: c :: d :: s)

/-- the value of a list of decimal digits -/
def digitsVal (s : List UInt8) : Nat := s.foldl (fun a c => a * 10 + (c.toNat - 48)) 0

/-- numbers: digits without a leading zero, with an optional minus -/
inductive Number : Int → List UInt8 → Prop
  | pos {s : List UInt8} : s ≠ [] → (∀ c ∈ s, 48 ≤ c ∧ c ≤ 57) → (s.head? = some 48 → s = [48]) → Number (digitsVal s : Nat) s
  | neg {s : List UInt8} : s ≠ [] → (∀ c ∈ s, 48 ≤ c ∧ c ≤ 57) → (s.head? = some 48 → s = [48]) → Number (-(digitsVal s : Nat)) (45 :: s)

mutual
/-- the text of a value -/
inductive Text : JV → List UInt8 → Prop
  | num {n : Int} {s : List UInt8} : Number n s → Text (.num n) s
  | str {v s : List UInt8} : Chars v s → Text (.str v) (34 :: s ++ [34])
  | arrNil {w : List UInt8} : Ws w → Text (.arr []) (91 :: w ++ [93])
  | arr {l : List JV} {s : List UInt8} : Elems l s → Text (.arr l) (91 :: s ++ [93])
  | objNil {w : List UInt8} : Ws w → Text (.obj []) (123 :: w ++ [125])
  | obj {l : List (List UInt8 × JV)} {s : List UInt8} : Members l s → Text (.obj l) (123 :: s ++ [125])
/-- `value , value , …` -/
inductive Elems : List JV → List UInt8 → Prop
  | one {v : JV} {w s w' : List UInt8} : Ws w → Text v s → Ws w' → Elems [v] (w ++ s ++ w')
  | more {v : JV} {l : List JV} {w s w' t : List UInt8} : Ws w → Text v s → Ws w' → Elems l t → Elems (v :: l) (w ++ s ++ w' ++ 44 :: t)
/-- `"name" : value , …` -/
inductive Members : List (List UInt8 × JV) → List UInt8 → Prop
  | one {k : List UInt8} {v : JV} {w ks w' w'' s w''' : List UInt8} : Ws w → Chars k ks → Ws w' → Ws w'' → Text v s → Ws w''' →
      Members [(k, v)] (w ++ 34 :: ks ++ 34 :: w' ++ 58 :: w'' ++ s ++ w''')
  | more {k : List UInt8} {v : JV} {l : List (List UInt8 × JV)} {w ks w' w'' s w''' t : List UInt8} : Ws w → Chars k ks → Ws w' → Ws w'' → Text v s → Ws w''' →
      Members l t → Members ((k, v) :: l) (w ++ 34 :: ks ++ 34 :: w' ++ 58 :: w'' ++ s ++ w''' ++ 44 :: t)
end

mutual
/-- All strings are free of backslashes and control characters, names also of quotes. -/
def JV.Plain : JV → Prop
  | .num _ => True
  | .str s => ∀ c ∈ s, 32 ≤ c ∧ c ≠ 92
  | .arr l => PlainAll l
  | .obj l => PlainFields l
def PlainAll : List JV → Prop
  | [] => True
  | v :: l => v.Plain ∧ PlainAll l
def PlainFields : List (List UInt8 × JV) → Prop
  | [] => True
  | (k, v) :: l => (∀ c ∈ k, 32 ≤ c ∧ c ≠ 92 ∧ c ≠ 34) ∧ v.Plain ∧ PlainFields l
end

end Tdc.Json
