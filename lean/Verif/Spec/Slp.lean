/-!
# Straight-line grammars

A list of pairs; rule number `i` defines symbol `256 + i`, symbols below 256 are bytes.
-/

namespace Tdc
namespace Slp

/-- Symbol `x` stands for the string `u`, and no more than `d` rules are nested in each other. -/
inductive DerivesIn (g : List (Nat × Nat)) : Nat → Nat → List UInt8 → Prop
  | byte (d : Nat) (c : UInt8) : DerivesIn g d c.toNat [c]
  | rule {d i l r : Nat} {u v : List UInt8} : g[i]? = some (l, r) → DerivesIn g d l u → DerivesIn g d r v → DerivesIn g (d + 1) (256 + i) (u ++ v)

/-- Every rule uses only bytes and earlier rules. -/
def Ordered (g : List (Nat × Nat)) : Prop := ∀ i l r, g[i]? = some (l, r) → l < 256 + i ∧ r < 256 + i

end Slp
end Tdc
