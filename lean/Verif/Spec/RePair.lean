/-!
# What Re-Pair is

A grammar is a list of pairs; rule number `i` defines symbol `256 + i`, symbols below 256 are bytes.
-/

namespace Tdc
namespace RePair

/-- The string a symbol stands for. -/
inductive Derives (g : List (Nat × Nat)) : Nat → List UInt8 → Prop
  | byte (c : UInt8) : Derives g c.toNat [c]
  | rule {i l r : Nat} {u v : List UInt8} : g[i]? = some (l, r) → Derives g l u → Derives g r v → Derives g (256 + i) (u ++ v)

/-- The string a sequence of symbols stands for. -/
inductive DerivesAll (g : List (Nat × Nat)) : List Nat → List UInt8 → Prop
  | nil : DerivesAll g [] []
  | cons {x : Nat} {l : List Nat} {u w : List UInt8} : Derives g x u → DerivesAll g l w → DerivesAll g (x :: l) (u ++ w)

/-- Neighbouring symbols (occurrences may overlap). -/
def digrams (l : List Nat) : List (Nat × Nat) := l.zip l.tail

/-- Replace the digram `d` by `s` from left to right. -/
def replaceAll (d : Nat × Nat) (s : Nat) : List Nat → List Nat
  | [] => []
  | [x] => [x]
  | x :: y :: l => if (x, y) = d then s :: replaceAll d s l else x :: replaceAll d s (y :: l)

/-- `d` is a most frequent digram and occurs at least twice. -/
def Best (l : List Nat) (d : Nat × Nat) : Prop := 2 ≤ (digrams l).count d ∧ ∀ e, (digrams l).count e ≤ (digrams l).count d

/-- Re-Pair: as long as there are fewer than `k` rules and some digram occurs twice, make a most frequent digram a rule. -/
inductive Runs (k : Nat) : List (Nat × Nat) → List Nat → List (Nat × Nat) → List Nat → Prop
  | done {g l} : (∀ d, (digrams l).count d ≤ 1) → Runs k g l g l
  | full {g l d} : Best l d → k ≤ g.length + 1 → Runs k g l (g ++ [d]) (replaceAll d (256 + g.length) l)
  | step {g l d g' l'} : Best l d → g.length + 1 < k → Runs k (g ++ [d]) (replaceAll d (256 + g.length) l) g' l' → Runs k g l g' l'

end RePair
end Tdc
