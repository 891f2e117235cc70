import Verif.Lemmas.Select

/-!
# Properties C29 (Rank) and C30 (Select)

The specification is about the plain list of bits `bv.bits` of the bit vector and `List.count`, `List.take`.
-/

namespace Tdc
namespace RS

/-- The bits of a bit vector, in order: bit `i` is bit `i % 64` of word `i / 64`. -/
def BV.bits (bv : BV) : List Bool := (List.range bv.n).map fun i => (bv.data.getD (i / 64) 0).testBit (i % 64)

theorem BV.bits_length (bv : BV) : bv.bits.length = bv.n := by simp [BV.bits]

theorem count_take_bits (bv : BV) (m : Nat) (hm : m ≤ bv.n) : (bv.bits.take m).count true = cnt (bitAt bv.data) m := by
  rw [BV.bits, ← List.map_take, List.take_range, Nat.min_eq_left hm, List.count, List.countP_map, cnt]
  apply List.countP_congr
  intro x _
  simp [bitAt]

theorem count_false (l : List Bool) : l.count false = l.length - l.count true := by
  induction l with
  | nil => rfl
  | cons a l ih =>
    have := List.count_le_length (l := l) (a := true)
    cases a <;> simp [ih] <;> omega

theorem count_take_drop (l : List Bool) (a b : Nat) (c : Bool) (h : a ≤ b) : ((l.take b).drop a).count c = (l.take b).count c - (l.take a).count c := by
  have h1 : l.take b = l.take a ++ (l.take b).drop a := by
    conv_lhs => rw [← List.take_append_drop a (l.take b)]
    rw [List.take_take, Nat.min_eq_left h]
  conv_rhs => rw [h1, List.count_append]
  omega

/-- **C29.** For every bit vector (whatever its padding bits) and every position, `rank1(x)` and `rank0(x)` are the numbers of ones and
zeros among the bits `0..x`, and the interval forms those among the bits `x..y`. -/
theorem rank_exact (bv : BV) (h : bv.WF) : ∃ R, Rank.build bv = .ok R ∧
    (∀ x < bv.n, R.rank1 x = .ok ((bv.bits.take (x + 1)).count true) ∧ R.rank0 x = .ok ((bv.bits.take (x + 1)).count false)) ∧
    (∀ x y, x ≤ y → y < bv.n → R.rank1I x y = .ok (((bv.bits.take (y + 1)).drop x).count true) ∧
      R.rank0I x y = .ok (((bv.bits.take (y + 1)).drop x).count false)) := by
  obtain ⟨R, h1, h2⟩ := rank1_correct bv h
  have hI : ∀ x y, x ≤ y → y < bv.n → R.rank1I x y = .ok (((bv.bits.take (y + 1)).drop x).count true) := by
    intro x y hxy hy
    rw [count_take_drop _ _ _ _ (by omega), Rank.rank1I, h2 y hy, count_take_bits bv (y + 1) (by omega), count_take_bits bv x (by omega)]
    show (if x > 0 then do
        let r' ← R.rank1 (x - 1)
        pure (cnt (bitAt bv.data) (y + 1) - r')
      else pure (cnt (bitAt bv.data) (y + 1)) : Res Nat) = _
    by_cases hx : x > 0
    · rw [if_pos hx, h2 (x - 1) (by omega), show x - 1 + 1 = x by omega]; rfl
    · rw [if_neg hx, show x = 0 by omega]; rfl
  refine ⟨R, h1, fun x hx => ⟨?_, ?_⟩, fun x y hxy hy => ⟨hI x y hxy hy, ?_⟩⟩
  · rw [h2 x hx, count_take_bits bv (x + 1) (by omega)]
  · rw [Rank.rank0, h2 x hx, count_false, count_take_bits bv (x + 1) (by omega), List.length_take, BV.bits_length, Nat.min_eq_left (by omega)]
    rfl
  · rw [Rank.rank0I, hI x y hxy hy, count_false, List.length_drop, List.length_take, BV.bits_length, Nat.min_eq_left (by omega),
      show y + 1 - x = y - x + 1 by omega]
    rfl

/-- A vector of 4200 bits (two superblocks, dirty padding) meets the hypotheses; a query beyond the first superblock. -/
example : let bv : BV := ⟨List.replicate 65 0x5555555555555555 ++ [0xF0F0F0F0F0F0F0F0], 4200⟩
    bv.WF ∧ (match Rank.build bv with | .ok R => R.rank1 4199 | .error e => .error e) = .ok 2100 := by
  refine ⟨⟨by decide +kernel, by decide +kernel, by decide⟩, by decide +kernel⟩

/-! ### Select -/

/-- `p` is the position of the `k`-th bit equal to `c`, counting from one: it holds such a bit, and `k - 1` of them come before. -/
def IsKth (bits : List Bool) (c : Bool) (k p : Nat) : Prop := bits[p]? = some c ∧ (bits.take p).count c + 1 = k

/-- The class template's argument. -/
def basicOf (c : Bool) : Basic := if c then basic1 else basic0

/-- The number of bits equal to `c` among the words' bits at and beyond the size. -/
def padding (c : Bool) (bv : BV) : Nat :=
  ((List.range (64 * bv.data.length - bv.n)).map fun i => (bv.data.getD ((bv.n + i) / 64) 0).testBit ((bv.n + i) % 64)).count c

def gOf (c : Bool) : Nat → Nat → Bool := fun v i => v.testBit i == c

theorem basicOf_good (c : Bool) : (basicOf c).Good (gOf c) := by
  cases c
  · have h : gOf false = fun v i => !v.testBit i := by
      funext v i; simp only [gOf]; cases v.testBit i <;> rfl
    rw [h]; exact basic0_good
  · have h : gOf true = fun v => v.testBit := by
      funext v i; simp only [gOf]; cases v.testBit i <;> rfl
    rw [h]; exact basic1_good

theorem count_take_flag (bv : BV) (c : Bool) (m : Nat) (hm : m ≤ bv.n) : (bv.bits.take m).count c = cnt (flag (gOf c) bv.data) m := by
  rw [BV.bits, ← List.map_take, List.take_range, Nat.min_eq_left hm, List.count, List.countP_map, cnt]
  apply List.countP_congr
  intro x _
  simp [flag, gOf]

theorem count_bits_flag (bv : BV) (c : Bool) : bv.bits.count c = cnt (flag (gOf c) bv.data) bv.n := by
  rw [← count_take_flag bv c bv.n (le_refl _), List.take_of_length_le (by rw [BV.bits_length])]

theorem padding_flag (bv : BV) (h : bv.WF) (c : Bool) :
    cnt (flag (gOf c) bv.data) (64 * idivCeil bv.n 64) = bv.bits.count c + padding c bv := by
  have hn : bv.n ≤ 64 * idivCeil bv.n 64 := by rw [idivCeil64]; omega
  conv_lhs => rw [show 64 * idivCeil bv.n 64 = bv.n + (64 * idivCeil bv.n 64 - bv.n) by omega]
  rw [cnt_add, count_bits_flag]
  congr 1
  rw [padding, List.count, List.countP_map, cnt, h.len]
  apply List.countP_congr
  intro x _
  simp [flag, gOf]

theorem isKth_of_sel (bv : BV) (c : Bool) (k p : Nat) (hp : p < bv.n) (h : IsSel (flag (gOf c) bv.data) k p) : IsKth bv.bits c k p := by
  refine ⟨?_, ?_⟩
  · have h1 := h.1
    simp only [flag, gOf, beq_iff_eq] at h1
    simpa [BV.bits, hp] using h1
  · rw [count_take_flag bv c p (by omega)]; exact h.2

/-- **C30, positions that exist.** For every bit vector of fewer than `2^63` bits, whatever its padding bits, `Select1` and `Select0` are
constructed without fault and `select(k)` is the position of the `k`-th one (zero) for every `k` up to their number; the answer is
the size for every `k` above the number of ones (zeros) of the *words*.
Missing from the full property: orders between the number of flagged bits of the vector and that of its words, when there are flagged
padding bits (`select0_padding_broken`). -/
theorem select_exact_partial (c : Bool) (bv : BV) (h : bv.WF) (h63 : bv.n < 2 ^ 63) : ∃ S, Select.build (basicOf c) bv = .ok S ∧
    (∀ k, 1 ≤ k → k ≤ bv.bits.count c → ∃ p, S.select (basicOf c) k = .ok p ∧ IsKth bv.bits c k p) ∧
    (∀ k, bv.bits.count c + padding c bv < k → S.select (basicOf c) k = .ok bv.n) := by
  obtain ⟨S, h1, h2⟩ := sel_build (basicOf c) (gOf c) (basicOf_good c) bv h h63
  refine ⟨S, h1, fun k hk1 hk => ?_, fun k hk => ?_⟩
  · rw [count_bits_flag] at hk
    have hP := P_sel hk1 hk
    exact ⟨_, select_correct _ _ (basicOf_good c) bv h S h2 k hk1 hk, isKth_of_sel bv c k _ hP.2 hP.1⟩
  · exact select_beyond _ _ bv S h2 k (by rw [padding_flag bv h c]; exact hk)

/-- **C30, `Select1`.** With clear padding bits (as in a vector that never shrank) `select1(k)` is the position of the `k`-th one if
there is one and the size otherwise. -/
theorem select1_exact (bv : BV) (h : bv.WF) (h63 : bv.n < 2 ^ 63) (hpad : padding true bv = 0) :
    ∃ S, Select.build basic1 bv = .ok S ∧ ∀ k, 1 ≤ k →
      (k ≤ bv.bits.count true → ∃ p, S.select basic1 k = .ok p ∧ IsKth bv.bits true k p) ∧
      (bv.bits.count true < k → S.select basic1 k = .ok bv.n) := by
  obtain ⟨S, h1, h2, h3⟩ := select_exact_partial true bv h h63
  exact ⟨S, h1, fun k hk => ⟨h2 k hk, fun hlt => h3 k (by omega)⟩⟩

/-- **C30, `Select0`** on vectors whose size is a multiple of 64. -/
theorem select0_exact_aligned (bv : BV) (h : bv.WF) (h63 : bv.n < 2 ^ 63) (hal : bv.n % 64 = 0) :
    ∃ S, Select.build basic0 bv = .ok S ∧ ∀ k, 1 ≤ k →
      (k ≤ bv.bits.count false → ∃ p, S.select basic0 k = .ok p ∧ IsKth bv.bits false k p) ∧
      (bv.bits.count false < k → S.select basic0 k = .ok bv.n) := by
  obtain ⟨S, h1, h2, h3⟩ := select_exact_partial false bv h h63
  have hpad : padding false bv = 0 := by
    rw [padding, h.len, idivCeil64, show 64 * ((bv.n + 63) / 64) - bv.n = 0 by omega]; rfl
  exact ⟨S, h1, fun k hk => ⟨h2 k hk, fun hlt => h3 k (by omega)⟩⟩

/-- Positions are unique, so the theorems above determine the answers. -/
theorem IsKth.unique {bits : List Bool} {c : Bool} {k p q : Nat} (h : IsKth bits c k p) (h' : IsKth bits c k q) : p = q := by
  have key : ∀ {a b : Nat}, IsKth bits c k a → IsKth bits c k b → a < b → False := by
    intro a b ha hb hab
    have h1 := count_take_drop bits (a + 1) b c (by omega)
    have h2 : (bits.take (a + 1)).count c = (bits.take a).count c + 1 := by
      rw [List.take_add_one, ha.1]; simp
    have h3 := hb.2
    have h4 := ha.2
    have h5 : (bits.take (a + 1)).count c ≤ (bits.take b).count c := by
      have := List.take_sublist_take_left (l := bits) (show a + 1 ≤ b by omega)
      exact this.count_le c
    omega
  rcases Nat.lt_trichotomy p q with hl | he | hg
  · exact (key h h' hl).elim
  · exact he
  · exact (key h' h hg).elim

/-- The full property for `Select0` is false: on the vector `0` of one bit there is no third zero, but `select0(3)` is `0`, a valid
position; and on `01` (two bits) `select0(2)` is a position beyond the vector, not its size. -/
theorem select0_padding_broken :
    (match Select.build basic0 ⟨[0], 1⟩ with | .ok S => S.select basic0 3 | .error e => .error e) = .ok 0 ∧
    (match Select.build basic0 ⟨[2], 2⟩ with | .ok S => S.select basic0 2 | .error e => .error e) = .ok 2 ∧
    (match Select.build basic0 ⟨[2], 2⟩ with | .ok S => S.select basic0 3 | .error e => .error e) = .ok 3 := by
  decide +kernel

/-- The hypotheses are met by a vector of 200 bits whose ones fill superblocks and blocks; some answers. -/
example : let bv : BV := ⟨[0xFFFFFFFFFFFFFFFF, 0x8000000000000001, 0xFFFF0000FFFF0000, 0x81], 200⟩
    bv.WF ∧ padding true bv = 0 ∧
      (match Select.build basic1 bv with | .ok S => [64, 65, 66, 67, 99, 100, 101].map (S.select basic1) | .error _ => []) =
        [.ok 63, .ok 64, .ok 127, .ok 144, .ok 192, .ok 199, .ok 200] := by
  refine ⟨⟨by decide +kernel, by decide +kernel, by decide⟩, by decide +kernel, by decide +kernel⟩

end RS
end Tdc
