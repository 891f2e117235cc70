import Verif.Lemmas.CompactHashTrie

/-!
# The 256 root nodes of LZW in the compact table

A finite computation, checked by the kernel in stages: whatever capacity LZW reserves, adding the 256 root nodes meets
no fault and loses no reference.
-/

namespace Tdc.CSH

/-- A table given by numbers (bits of `v` and `c`) and its first buckets. -/
def ofLit (log size w v c : Nat) (bs : List Bucket) : CTrie :=
  ⟨⟨log, size, w, (List.range (2 ^ log)).map v.testBit, (List.range (2 ^ log)).map c.testBit,
    bs ++ List.replicate (nBuckets - bs.length) ⟨0, []⟩⟩, w⟩

/-- the state after 64 root nodes -/
def S64 : CTrie := ofLit 8 64 6 87184631896332194197732260673617240305189149857458551164597135054714874036995
    87184631896332194197732260673617240305189149857458551164597135054714874036995
  [⟨217020518514230019, [(0, 0), (0, 33), (1, 8), (1, 41), (0, 16), (0, 49), (1, 24), (1, 57), (0, 32), (0, 1), (1,
    40), (1, 9), (0, 48), (0, 17), (1, 56), (1, 25)]⟩, ⟨868082074056920076, [(0, 2), (0, 35), (1, 10), (1, 43), (0,
    18), (0, 51), (1, 26), (1, 59), (0, 34), (0, 3), (1, 42), (1, 11), (0, 50), (0, 19), (1, 58), (1, 27)]⟩,
    ⟨3472328296227680304, [(0, 4), (0, 37), (1, 12), (1, 45), (0, 20), (0, 53), (1, 28), (1, 61), (0, 36), (0, 5),
    (1, 44), (1, 13), (0, 52), (0, 21), (1, 60), (1, 29)]⟩, ⟨13889313184910721216, [(0, 6), (0, 39), (1, 14), (1,
    47), (0, 22), (0, 55), (1, 30), (1, 63), (0, 38), (0, 7), (1, 46), (1, 15), (0, 54), (0, 23), (1, 62), (1,
    31)]⟩]
/-- the state after 128 root nodes -/
def S128 : CTrie := ofLit 9 128 7
    10095290676662661345561618822178519437138683720241014602024923982039835346612491641473726657038531981611036941458929422172109120825249889937424919294051075
    10095290676662661345561618822178519437138683720241014602024923982039835346612491641473726657038531981611036941458929422172109120825249889937424919294051075
  [⟨217020518514230019, [(0, 0), (0, 65), (1, 8), (1, 73), (0, 16), (0, 81), (1, 24), (1, 89), (0, 32), (0, 97), (1,
    40), (1, 105), (0, 48), (0, 113), (1, 56), (1, 121)]⟩, ⟨217020518514230019, [(0, 64), (0, 1), (1, 72), (1, 9),
    (0, 80), (0, 17), (1, 88), (1, 25), (0, 96), (0, 33), (1, 104), (1, 41), (0, 112), (0, 49), (1, 120), (1, 57)]⟩,
    ⟨868082074056920076, [(0, 2), (0, 67), (1, 10), (1, 75), (0, 18), (0, 83), (1, 26), (1, 91), (0, 34), (0, 99),
    (1, 42), (1, 107), (0, 50), (0, 115), (1, 58), (1, 123)]⟩, ⟨868082074056920076, [(0, 66), (0, 3), (1, 74), (1,
    11), (0, 82), (0, 19), (1, 90), (1, 27), (0, 98), (0, 35), (1, 106), (1, 43), (0, 114), (0, 51), (1, 122), (1,
    59)]⟩, ⟨3472328296227680304, [(0, 4), (0, 69), (1, 12), (1, 77), (0, 20), (0, 85), (1, 28), (1, 93), (0, 36),
    (0, 101), (1, 44), (1, 109), (0, 52), (0, 117), (1, 60), (1, 125)]⟩, ⟨3472328296227680304, [(0, 68), (0, 5), (1,
    76), (1, 13), (0, 84), (0, 21), (1, 92), (1, 29), (0, 100), (0, 37), (1, 108), (1, 45), (0, 116), (0, 53), (1,
    124), (1, 61)]⟩, ⟨13889313184910721216, [(0, 6), (0, 71), (1, 14), (1, 79), (0, 22), (0, 87), (1, 30), (1, 95),
    (0, 38), (0, 103), (1, 46), (1, 111), (0, 54), (0, 119), (1, 62), (1, 127)]⟩, ⟨13889313184910721216, [(0, 70),
    (0, 7), (1, 78), (1, 15), (0, 86), (0, 23), (1, 94), (1, 31), (0, 102), (0, 39), (1, 110), (1, 47), (0, 118),
    (0, 55), (1, 126), (1, 63)]⟩]
/-- the state after 192 root nodes -/
def S192 : CTrie := ofLit 9 192 8
    11777839122773104903109616392193646361981678034071385963629372035957547136803621564494645535543966926734701191163677458686083925477452096389148592050734855
    11777839122773104903109616392193646361981678034071385963629372035957547136803621564494645535543966926734701191163677458686083925477452096389148592050734855
  [⟨506381209866536711, [(0, 0), (0, 65), (0, 130), (1, 8), (1, 73), (1, 138), (0, 16), (0, 81), (0, 146), (1, 24),
    (1, 89), (1, 154), (0, 32), (0, 97), (0, 162), (1, 40), (1, 105), (1, 170), (0, 48), (0, 113), (0, 178), (1,
    56), (1, 121), (1, 186)]⟩, ⟨795741901218843403, [(0, 64), (0, 1), (0, 131), (1, 72), (1, 9), (1, 139), (0, 80),
    (0, 17), (0, 147), (1, 88), (1, 25), (1, 155), (0, 96), (0, 33), (0, 163), (1, 104), (1, 41), (1, 171), (0,
    112), (0, 49), (0, 179), (1, 120), (1, 57), (1, 187)]⟩, ⟨940422246894996749, [(0, 128), (0, 2), (0, 67), (1,
    136), (1, 10), (1, 75), (0, 144), (0, 18), (0, 83), (1, 152), (1, 26), (1, 91), (0, 160), (0, 34), (0, 99), (1,
    168), (1, 42), (1, 107), (0, 176), (0, 50), (0, 115), (1, 184), (1, 58), (1, 123)]⟩, ⟨1012762419733073422, [(0,
    129), (0, 66), (0, 3), (1, 137), (1, 74), (1, 11), (0, 145), (0, 82), (0, 19), (1, 153), (1, 90), (1, 27), (0,
    161), (0, 98), (0, 35), (1, 169), (1, 106), (1, 43), (0, 177), (0, 114), (0, 51), (1, 185), (1, 122), (1, 59)]⟩,
    ⟨8102099357864587376, [(0, 4), (0, 69), (0, 134), (1, 12), (1, 77), (1, 142), (0, 20), (0, 85), (0, 150), (1,
    28), (1, 93), (1, 158), (0, 36), (0, 101), (0, 166), (1, 44), (1, 109), (1, 174), (0, 52), (0, 117), (0, 182),
    (1, 60), (1, 125), (1, 190)]⟩, ⟨12731870419501494448, [(0, 68), (0, 5), (0, 135), (1, 76), (1, 13), (1, 143),
    (0, 84), (0, 21), (0, 151), (1, 92), (1, 29), (1, 159), (0, 100), (0, 37), (0, 167), (1, 108), (1, 45), (1,
    175), (0, 116), (0, 53), (0, 183), (1, 124), (1, 61), (1, 191)]⟩, ⟨15046755950319947984, [(0, 132), (0, 6), (0,
    71), (1, 140), (1, 14), (1, 79), (0, 148), (0, 22), (0, 87), (1, 156), (1, 30), (1, 95), (0, 164), (0, 38), (0,
    103), (1, 172), (1, 46), (1, 111), (0, 180), (0, 54), (0, 119), (1, 188), (1, 62), (1, 127)]⟩,
    ⟨16204198715729174752, [(0, 133), (0, 70), (0, 7), (1, 141), (1, 78), (1, 15), (0, 149), (0, 86), (0, 23), (1,
    157), (1, 94), (1, 31), (0, 165), (0, 102), (0, 39), (1, 173), (1, 110), (1, 47), (0, 181), (0, 118), (0, 55),
    (1, 189), (1, 126), (1, 63)]⟩]

/-- root nodes for `m` characters beginning with `a` -/
def rootsFrom (s : Res CTrie) (a : Nat) : Nat → Res CTrie
  | 0 => s
  | m + 1 => (rootsFrom s a m).bind fun s => trieAddRoot true s (UInt8.ofNat (a + m))

theorem rootsC_add (s : Res CTrie) (a : Nat) : ∀ m, rootsC true s (a + m) = rootsFrom (rootsC true s a) a m
  | 0 => rfl
  | m + 1 => by rw [← Nat.add_assoc, rootsC, rootsFrom, rootsC_add s a m]

/-- LZW asks for 256 positions more than LZ78. -/
theorem reserve_lzw (n : Nat) : zeroOrPow2 (isqrt n * 2 + 256) = 256 ∨ zeroOrPow2 (isqrt n * 2 + 256) = 512 := by
  have h := isqrt_le n
  have : ∀ m : Fin 16, zeroOrPow2 (m.val * 2 + 256) = 256 ∨ zeroOrPow2 (m.val * 2 + 256) = 512 := by decide +kernel
  exact this ⟨isqrt n, by omega⟩

theorem stage64 : rootsC true (emptyC 256) 64 = .ok S64 := by decide +kernel
theorem stage128 : rootsFrom (.ok S64) 64 64 = .ok S128 := by decide +kernel
theorem stage128' : rootsC true (emptyC 512) 128 = .ok S128 := by decide +kernel
theorem stage192 : rootsFrom (.ok S128) 128 64 = .ok S192 := by decide +kernel

/-- the check of the last stage -/
def big (r : Res CTrie) : Bool := match r with | .ok s => decide (7 ≤ s.tab.log) | .error _ => false

theorem stage256 : big (rootsFrom (.ok S192) 192 64) = true := by decide +kernel

theorem first128 (n : Nat) : rootsC true (emptyC (isqrt n * 2 + 256)) 128 = .ok S128 := by
  have e : ∀ k, zeroOrPow2 (isqrt n * 2 + 256) = zeroOrPow2 k → emptyC (isqrt n * 2 + 256) = emptyC k := fun k h => by
    rw [emptyC, emptyC, h]
  rcases reserve_lzw n with h | h
  · rw [e 256 (by rw [h]; decide +kernel), rootsC_add _ 64 64, stage64, stage128]
  · rw [e 512 (by rw [h]; decide +kernel), stage128']

/-- **The root nodes.** -/
theorem roots_ok (n : Nat) : ∃ s, rootsC true (emptyC (isqrt n * 2 + 256)) 256 = .ok s ∧ 7 ≤ s.tab.log := by
  have h128 := first128 n
  generalize emptyC (isqrt n * 2 + 256) = e at h128
  have h192 := rootsC_add e 128 64
  rw [h128, stage192] at h192
  have h256 := rootsC_add e 192 64
  rw [h192] at h256
  have hb := stage256
  rw [← h256] at hb
  change big (rootsC true e 256) = true at hb
  generalize rootsC true e 256 = r at hb
  cases r with
  | error _ => simp [big] at hb
  | ok s => exact ⟨s, rfl, by simpa [big] using hb⟩

end Tdc.CSH
