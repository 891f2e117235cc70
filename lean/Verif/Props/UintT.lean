import Verif.Model.UintT
import Mathlib.Data.Nat.Bitwise
import Mathlib.Data.Int.ModEq
import Mathlib.Tactic.Ring
import Mathlib.Tactic.IntervalCases

/-!
# Property C28: fixed width integers

The specification is arithmetic on `Int`, reduced modulo `2^N` with a non-negative representative (`Int.emod`).
-/

namespace Tdc
namespace UintT

/-! ### Specification -/

/-- The value of an operand as an integer. -/
def Operand.int : Operand → Int
  | .self v => v
  | .o32 i => i
  | .o64 v => v

/-- The exact operation on integers, for the three ring operations. -/
def ringOp : Op → Int → Int → Option Int
  | .add, a, b => some (a + b)
  | .sub, a, b => some (a - b)
  | .mul, a, b => some (a * b)
  | _, _, _ => none

theorem le_maxBit {N : Nat} (h : N ≤ 64) : N ≤ maxBit N := by unfold maxBit; split <;> omega

theorem toU_cast (w : Nat) (i : Int) : ((toU w i : Nat) : Int) = i % (2 ^ w : Nat) := by
  unfold toU
  exact Int.toNat_of_nonneg (Int.emod_nonneg _ (by positivity))

theorem toU_lt (w : Nat) (i : Int) : toU w i < 2 ^ w := by
  have := toU_cast w i
  have h2 : i % ((2 ^ w : Nat) : Int) < (2 ^ w : Nat) := Int.emod_lt_of_pos _ (by positivity)
  omega

theorem toU_nat (w : Nat) (n : Nat) (h : n < 2 ^ w) : toU w (n : Int) = n := by
  have := toU_cast w (n : Int)
  rw [Int.emod_eq_of_lt (by omega) (by omega)] at this
  omega

/-- Reducing modulo `2^w` first does not change the residue modulo `2^N`, `N ≤ w`. -/
theorem emod_emod_pow {N w : Nat} (h : N ≤ w) (i : Int) : i % ((2 ^ w : Nat) : Int) % ((2 ^ N : Nat) : Int) = i % ((2 ^ N : Nat) : Int) :=
  Int.emod_emod_of_dvd i (by exact_mod_cast Nat.pow_dvd_pow 2 h)

theorem Operand.conv_emod {N w : Nat} (h : N ≤ maxBit N) (y : Operand) : ((y.conv N : Nat) : Int) % ((2 ^ N : Nat) : Int) = y.int % ((2 ^ N : Nat) : Int) := by
  cases y with
  | self v => rfl
  | o64 v => rfl
  | o32 i => simp only [Operand.conv, Operand.int, toU_cast]; exact emod_emod_pow h i

theorem Operand.le_width {N : Nat} (h : N ≤ 64) (y : Operand) : N ≤ y.width N := by
  have := le_maxBit h
  cases y <;> simp only [Operand.width] <;> omega

theorem Operand.conv_lt {N : Nat} (h : N ≤ 64) (y : Operand) (hy : y.Valid N) : y.conv N < 2 ^ y.width N := by
  cases y with
  | self v => exact lt_of_lt_of_le hy (Nat.pow_le_pow_right (by omega) (le_maxBit h))
  | o64 v => exact hy
  | o32 i => exact toU_lt _ _

theorem sub_cast {w a b : Nat} (hb : b < 2 ^ w) : (((a + (2 ^ w - b)) % 2 ^ w : Nat) : Int) = ((a : Int) - b) % ((2 ^ w : Nat) : Int) := by
  rw [Int.natCast_mod]
  have h1 : ((a + (2 ^ w - b) : Nat) : Int) = (a : Int) - b + ((2 ^ w : Nat) : Int) := by omega
  rw [h1, Int.add_emod_right]

/-- `opU` on the ring operations computes the exact result modulo `2^w`. -/
theorem opU_ring {w : Nat} {o : Op} {a b : Nat} (hb : b < 2 ^ w) {c : Int} (h : ringOp o a b = some c) :
    ∃ v, opU w o a b = .ok v ∧ (v : Int) = c % ((2 ^ w : Nat) : Int) := by
  cases o <;> simp only [ringOp, Option.some.injEq, reduceCtorEq] at h <;> subst h
  · exact ⟨_, rfl, by push_cast; rfl⟩
  · exact ⟨_, rfl, sub_cast hb⟩
  · exact ⟨_, rfl, by push_cast; rfl⟩

theorem ringOp_congr {M : Int} {o : Op} {a b a' b' c c' : Int} (ha : a % M = a' % M) (hb : b % M = b' % M)
    (h : ringOp o a b = some c) (h' : ringOp o a' b' = some c') : c % M = c' % M := by
  cases o <;> simp only [ringOp, Option.some.injEq, reduceCtorEq] at h h' <;> subst h <;> subst h'
  · exact Int.ModEq.add ha hb
  · exact Int.ModEq.sub ha hb
  · exact Int.ModEq.mul ha hb

/-- **C28, compound assignment.** For every width, every stored value and every operand of the supported kinds (another `uint_t`, a
signed or unsigned integer of at most 32 bits, a `size_t`), `+=`, `-=` and `*=` leave the exact result modulo `2^N`, also when the
operand is negative or the exact result is. -/
theorem uint_assign_ring (N : Nat) (hN : N ≤ 64) (o : Op) (x : Nat) (y : Operand) (hy : y.Valid N) (c : Int)
    (hc : ringOp o x y.int = some c) : ∃ v, assignOp N o x y = .ok v ∧ (v : Int) = c % (2 : Int) ^ N := by
  have : ∃ c', ringOp o (x : Int) (y.conv N : Nat) = some c' := by cases o <;> simp_all [ringOp]
  obtain ⟨c', hc'⟩ := this
  obtain ⟨v, h1, h2⟩ := opU_ring (Operand.conv_lt hN y hy) hc'
  refine ⟨store N v, ?_, ?_⟩
  · simp only [assignOp, binop, h1]
  · rw [store, Int.natCast_mod, h2, emod_emod_pow (Operand.le_width hN y)]
    have := ringOp_congr (M := ((2 ^ N : Nat) : Int)) rfl (Operand.conv_emod (w := 0) (le_maxBit hN) y) hc' hc
    rw [this]; push_cast; rfl

/-- **C28, conversion.** Constructing or assigning from any built-in integer keeps its residue modulo `2^N`; converting back gives the
stored value, so any value below `2^N` survives unchanged. -/
theorem uint_of_int (N : Nat) (hN : N ≤ 64) (i : Int) : ((ofInt N i : Nat) : Int) = i % (2 : Int) ^ N := by
  rw [ofInt, store, Int.natCast_mod, toU_cast, emod_emod_pow hN]; push_cast; rfl

theorem uint_of_int_exact (N : Nat) (hN : N ≤ 64) (v : Nat) (hv : v < 2 ^ N) : ofInt N v = v := by
  have h := uint_of_int N hN v
  rw [Int.emod_eq_of_lt (by omega) (by exact_mod_cast hv)] at h
  exact_mod_cast h

/-- **C28, increment and decrement.** -/
theorem uint_incr_decr (N : Nat) (hN : N ≤ 64) (x : Nat) :
    (∃ v, incr N x = .ok v ∧ (v : Int) = ((x : Int) + 1) % (2 : Int) ^ N) ∧ (∃ v, decr N x = .ok v ∧ (v : Int) = ((x : Int) - 1) % (2 : Int) ^ N) :=
  ⟨uint_assign_ring N hN .add x (.o32 1) (by simp only [Operand.Valid]; decide) _ rfl, uint_assign_ring N hN .sub x (.o32 1) (by simp only [Operand.Valid]; decide) _ rfl⟩

/-- Bit `k` of an integer in two's complement (of any width): the parity of `⌊i / 2^k⌋`. -/
def intBit (i : Int) (k : Nat) : Bool := decide (i / (2 : Int) ^ k % 2 = 1)

theorem intBit_nat (n k : Nat) : intBit (n : Int) k = n.testBit k := by
  rw [intBit, Nat.testBit_eq_decide_div_mod_eq]
  have : ((n / 2 ^ k % 2 : Nat) : Int) = (n : Int) / (2 : Int) ^ k % 2 := by push_cast; rfl
  rw [← this]
  congr 1
  simp only [eq_iff_iff]
  omega

theorem intBit_emod {w k : Nat} (h : k < w) (i : Int) : intBit (i % ((2 ^ w : Nat) : Int)) k = intBit i k := by
  obtain ⟨d, rfl⟩ : ∃ d, w = k + 1 + d := ⟨w - (k + 1), by omega⟩
  have h1 : i = i % ((2 ^ (k + 1 + d) : Nat) : Int) + (2 * 2 ^ d * (i / ((2 ^ (k + 1 + d) : Nat) : Int))) * (2 : Int) ^ k := by
    conv_lhs => rw [← Int.emod_add_mul_ediv i ((2 ^ (k + 1 + d) : Nat) : Int)]
    push_cast
    ring
  conv_rhs => rw [h1]
  unfold intBit
  rw [Int.add_mul_ediv_right _ _ (by positivity), mul_assoc 2, Int.add_mul_emod_self_left]

/-- **C28, bit operations.** Bit `k` of the stored result of `&=`, `|=`, `^=` is the operation on the bits `k` of the operands, the
operand being taken in two's complement. -/
theorem uint_assign_bits (N : Nat) (hN : N ≤ 64) (x : Nat) (y : Operand) (k : Nat) (hk : k < N) :
    (∃ v, assignOp N .and x y = .ok v ∧ v < 2 ^ N ∧ v.testBit k = (x.testBit k && intBit y.int k)) ∧
    (∃ v, assignOp N .or x y = .ok v ∧ v < 2 ^ N ∧ v.testBit k = (x.testBit k || intBit y.int k)) ∧
    (∃ v, assignOp N .xor x y = .ok v ∧ v < 2 ^ N ∧ v.testBit k = (x.testBit k ^^ intBit y.int k)) := by
  have hw := le_maxBit hN
  have hb : (y.conv N).testBit k = intBit y.int k := by
    cases y with
    | self v => exact (intBit_nat v k).symm
    | o64 v => exact (intBit_nat v k).symm
    | o32 i => rw [← intBit_nat, Operand.conv, toU_cast, intBit_emod (by omega)]; rfl
  refine ⟨⟨_, rfl, Nat.mod_lt _ (by positivity), ?_⟩, ⟨_, rfl, Nat.mod_lt _ (by positivity), ?_⟩, ⟨_, rfl, Nat.mod_lt _ (by positivity), ?_⟩⟩ <;>
    simp [store, Nat.testBit_mod_two_pow, hk, hb]

/-- A `uint_t` operand and its operand value, for the theorems about non-negative operands. -/
theorem Operand.conv_nonneg {N : Nat} (y : Operand) (hy : y.Valid N) (h0 : 0 ≤ y.int) : ((y.conv N : Nat) : Int) = y.int := by
  cases y with
  | self v => rfl
  | o64 v => rfl
  | o32 i =>
    simp only [Operand.Valid, Operand.int] at hy h0
    simp only [Operand.conv, Operand.int, toU_cast]
    refine Int.emod_eq_of_lt h0 (lt_of_lt_of_le hy.2 ?_)
    have : 2 ^ 32 ≤ 2 ^ maxBit N := Nat.pow_le_pow_right (by omega) (by unfold maxBit; split <;> omega)
    exact_mod_cast this

/-- **C28, division.** `/=` and `%=` by a positive operand leave quotient and remainder of the stored values; by zero they are
undefined. -/
theorem uint_assign_div (N : Nat) (x : Nat) (hx : x < 2 ^ N) (y : Operand) (hy : y.Valid N) (h0 : 0 < y.int) :
    (∃ v, assignOp N .div x y = .ok v ∧ (v : Int) = (x : Int) / y.int) ∧ (∃ v, assignOp N .mod x y = .ok v ∧ (v : Int) = (x : Int) % y.int) := by
  have h1 := Operand.conv_nonneg y hy (by omega)
  have h2 : y.conv N ≠ 0 := by omega
  have h3 : x / y.conv N ≤ x := Nat.div_le_self _ _
  have h4 : x % y.conv N ≤ x := Nat.mod_le _ _
  refine ⟨⟨x / y.conv N, ?_, ?_⟩, ⟨x % y.conv N, ?_, ?_⟩⟩
  · simp only [assignOp, binop, opU, if_neg h2, store]
    rw [Nat.mod_eq_of_lt (by omega)]
  · rw [← h1]; push_cast; rfl
  · simp only [assignOp, binop, opU, if_neg h2, store]
    rw [Nat.mod_eq_of_lt (by omega)]
  · rw [← h1]; push_cast; rfl

/-- **C28, shifts.** `<<=` and `>>=` by a count below 32 are multiplication by a power of two modulo `2^N` and exact division; for
wider types, and for `size_t` counts, this holds up to 63. -/
theorem uint_assign_shift (N : Nat) (hN : N ≤ 64) (x : Nat) (hx : x < 2 ^ N) (y : Operand) (hy : y.Valid N) (h0 : 0 ≤ y.int)
    (h1 : y.int < y.width N) :
    (∃ v, assignOp N .shl x y = .ok v ∧ (v : Int) = (x : Int) * (2 : Int) ^ y.int.toNat % (2 : Int) ^ N) ∧
    (∃ v, assignOp N .shr x y = .ok v ∧ (v : Int) = (x : Int) / (2 : Int) ^ y.int.toNat) := by
  have hc := Operand.conv_nonneg y hy h0
  have h2 : ¬ y.width N ≤ y.conv N := by omega
  have h3 : y.int.toNat = y.conv N := by omega
  refine ⟨⟨_, by simp only [assignOp, binop, opU, if_neg h2]; rfl, ?_⟩, ⟨x / 2 ^ y.conv N, ?_, ?_⟩⟩
  · rw [store, Nat.mod_mod_of_dvd _ (Nat.pow_dvd_pow 2 (Operand.le_width hN y)), Nat.shiftLeft_eq, h3]
    push_cast; rfl
  · simp only [assignOp, binop, opU, if_neg h2, store, Nat.shiftRight_eq_div_pow]
    rw [Nat.mod_eq_of_lt (lt_of_le_of_lt (Nat.div_le_self _ _) hx)]
  · rw [h3]; push_cast; rfl

theorem width_at_least_32 (N : Nat) (y : Operand) : 32 ≤ y.width N ∧ (32 < N → y.width N = 64) := by
  by_cases h : N ≤ 32 <;> cases y <;> simp [Operand.width, maxBit, h]

/-- **C28, comparison.** Comparisons with a non-negative operand compare the values. -/
theorem uint_compare (N : Nat) (x : Nat) (y : Operand) (hy : y.Valid N) (h0 : 0 ≤ y.int) :
    (ltOp N x y = true ↔ (x : Int) < y.int) ∧ (gtOp N x y = true ↔ y.int < (x : Int)) ∧ (eqOp N x y = true ↔ (x : Int) = y.int) := by
  have hc := Operand.conv_nonneg y hy h0
  simp only [ltOp, gtOp, eqOp, decide_eq_true_eq]
  omega

/-! ### Whole programs -/

/-- A statement, or an expression, that only uses the operators of the ring. -/
def Op.Ring (o : Op) : Prop := o = .add ∨ o = .sub ∨ o = .mul

def Expr.Ring : Expr → Prop
  | .var _ => True
  | .lit v => v < 2 ^ 64
  | .bin o a b => o.Ring ∧ a.Ring ∧ b.Ring

/-- The exact integer value of an expression. -/
def Expr.int (env : Nat → Int) : Expr → Int
  | .var i => env i
  | .lit v => v
  | .bin .add a b => a.int env + b.int env
  | .bin .sub a b => a.int env - b.int env
  | .bin .mul a b => a.int env * b.int env
  | .bin _ _ _ => 0

def Stmt.Ring (N : Nat) : Stmt → Prop
  | .assign _ e => e.Ring
  | .const _ _ => True
  | .opAssign _ o y => o.Ring ∧ y.Valid N
  | .opAssignVar _ o _ => o.Ring
  | .inc _ => True
  | .dec _ => True

def ringApp : Op → Int → Int → Int
  | .add, a, b => a + b
  | .sub, a, b => a - b
  | .mul, a, b => a * b
  | _, _, _ => 0

def updZ (env : Nat → Int) (i : Nat) (v : Int) : Nat → Int := fun j => if j = i then v else env j

/-- The same statement on mathematical integers, without any reduction. -/
def Stmt.int (env : Nat → Int) : Stmt → (Nat → Int)
  | .assign i e => updZ env i (e.int env)
  | .const i c => updZ env i c
  | .opAssign i o y => updZ env i (ringApp o (env i) y.int)
  | .opAssignVar i o j => updZ env i (ringApp o (env i) (env j))
  | .inc i => updZ env i (env i + 1)
  | .dec i => updZ env i (env i - 1)

theorem ringOp_of_ring {o : Op} (h : o.Ring) (a b : Int) : ringOp o a b = some (ringApp o a b) := by
  rcases h with rfl | rfl | rfl <;> rfl

theorem Expr.eval_ring (N : Nat) (hN : N ≤ 64) (env : Nat → Nat) (envZ : Nat → Int) (hlt : ∀ i, env i < 2 ^ N)
    (henv : ∀ i, (env i : Int) = envZ i % ((2 ^ N : Nat) : Int)) (e : Expr) (he : e.Ring) :
    N ≤ e.width N ∧ ∃ v, e.eval N env = .ok v ∧ v < 2 ^ e.width N ∧ (v : Int) % ((2 ^ N : Nat) : Int) = e.int envZ % ((2 ^ N : Nat) : Int) := by
  induction e with
  | var i =>
    refine ⟨le_maxBit hN, env i, rfl, lt_of_lt_of_le (hlt i) (Nat.pow_le_pow_right (by omega) (le_maxBit hN)), ?_⟩
    rw [henv, Int.emod_emod_of_dvd _ (dvd_refl _)]; rfl
  | lit v => exact ⟨hN, v, rfl, he, rfl⟩
  | bin o a b iha ihb =>
    obtain ⟨ho, ha, hb⟩ := he
    obtain ⟨h1, va, h2, h3, h4⟩ := iha ha
    obtain ⟨h5, vb, h6, h7, h8⟩ := ihb hb
    refine ⟨le_trans h1 (le_max_left _ _), ?_⟩
    have hlt' : vb < 2 ^ (max (a.width N) (b.width N)) := lt_of_lt_of_le h7 (Nat.pow_le_pow_right (by omega) (le_max_right _ _))
    obtain ⟨v, h9, h10⟩ := opU_ring (w := max (a.width N) (b.width N)) (o := o) (a := va) hlt' (ringOp_of_ring ho _ _)
    refine ⟨v, by simp only [Expr.eval, h2, h6, h9], ?_, ?_⟩
    · have : (v : Int) < ((2 ^ (max (a.width N) (b.width N)) : Nat) : Int) := h10 ▸ Int.emod_lt_of_pos _ (by positivity)
      exact_mod_cast this
    · rw [h10, emod_emod_pow (le_trans h1 (le_max_left _ _))]
      rw [ringOp_congr (M := ((2 ^ N : Nat) : Int)) h4 h8 (ringOp_of_ring ho _ _) (ringOp_of_ring ho _ _)]
      rcases ho with rfl | rfl | rfl <;> rfl

/-- **C28, programs.** For every width and every program of assignments, compound assignments, increments and decrements over
`uint_t<N>` variables whose right hand sides combine variables and `size_t` values with `+`, `-`, `*` in expressions of any depth,
the variables finally hold the results of the same program on unbounded integers, modulo `2^N`, although the subexpressions are
computed in types of different widths and never reduced modulo `2^N`. -/
theorem uint_programs_partial (N : Nat) (hN : N ≤ 64) (ss : List Stmt) (hss : ∀ s ∈ ss, s.Ring N) (env : Nat → Nat) (envZ : Nat → Int)
    (hlt : ∀ i, env i < 2 ^ N) (henv : ∀ i, (env i : Int) = envZ i % (2 : Int) ^ N) :
    ∃ env', exec N ss env = .ok env' ∧ ∀ i, (env' i : Int) = (ss.foldl Stmt.int envZ) i % (2 : Int) ^ N := by
  have key : ∀ (s : Stmt) (env : Nat → Nat) (envZ : Nat → Int), s.Ring N → (∀ i, env i < 2 ^ N) →
      (∀ i, (env i : Int) = envZ i % (2 : Int) ^ N) → ∃ env', s.exec N env = .ok env' ∧ (∀ i, env' i < 2 ^ N) ∧
        (∀ i, (env' i : Int) = s.int envZ i % (2 : Int) ^ N) := by
    intro s env envZ hs hlt henv
    have hpow : (2 : Int) ^ N = ((2 ^ N : Nat) : Int) := by push_cast; rfl
    have hupd : ∀ (i v : Nat) (z : Int), (v : Int) = z % (2 : Int) ^ N → (∀ j, upd env i v j < 2 ^ N) ∧
        (∀ j, (upd env i v j : Int) = updZ envZ i z j % (2 : Int) ^ N) := by
      intro i v z hz
      have hv : v < 2 ^ N := by
        have : (v : Int) < ((2 ^ N : Nat) : Int) := by rw [hz, hpow]; exact Int.emod_lt_of_pos _ (by positivity)
        exact_mod_cast this
      constructor <;> intro j <;> simp only [upd, updZ] <;> split
      · exact hv
      · exact hlt j
      · exact hz
      · exact henv j
    have hops : ∀ (o : Op) (i : Nat) (y : Operand) (zy : Int), o.Ring → y.Valid N → y.int % (2 : Int) ^ N = zy % (2 : Int) ^ N →
        ∃ v, assignOp N o (env i) y = .ok v ∧ (v : Int) = ringApp o (envZ i) zy % (2 : Int) ^ N := by
      intro o i y zy ho hy hz
      obtain ⟨v, h1, h2⟩ := uint_assign_ring N hN o (env i) y hy _ (ringOp_of_ring ho _ _)
      refine ⟨v, h1, ?_⟩
      rw [h2]
      exact ringOp_congr (by rw [henv i, Int.emod_emod_of_dvd _ (dvd_refl _)]) hz (ringOp_of_ring ho _ _) (ringOp_of_ring ho _ _)
    cases s with
    | assign i e =>
      obtain ⟨-, v, h1, -, h3⟩ := Expr.eval_ring N hN env envZ hlt (by intro i; rw [henv i, hpow]) e hs
      refine ⟨upd env i (store N v), by simp only [Stmt.exec, h1]; rfl, hupd i _ _ ?_⟩
      rw [store, Int.natCast_mod, h3, hpow]
    | const i c => exact ⟨_, rfl, hupd i _ _ (uint_of_int N hN c)⟩
    | opAssign i o y =>
      obtain ⟨v, h1, h2⟩ := hops o i y y.int hs.1 hs.2 rfl
      exact ⟨upd env i v, by simp only [Stmt.exec, h1]; rfl, hupd i _ _ h2⟩
    | opAssignVar i o j =>
      obtain ⟨v, h1, h2⟩ := hops o i (.self (env j)) (envZ j) hs (hlt j) (by
        rw [Operand.int, henv j, Int.emod_emod_of_dvd _ (dvd_refl _)])
      exact ⟨upd env i v, by simp only [Stmt.exec, h1]; rfl, hupd i _ _ h2⟩
    | inc i =>
      obtain ⟨v, h1, h2⟩ := hops .add i (.o32 1) 1 (Or.inl rfl) (by simp only [Operand.Valid]; decide) rfl
      exact ⟨upd env i v, by simp only [Stmt.exec, incr, h1]; rfl, hupd i _ _ h2⟩
    | dec i =>
      obtain ⟨v, h1, h2⟩ := hops .sub i (.o32 1) 1 (Or.inr (Or.inl rfl)) (by simp only [Operand.Valid]; decide) rfl
      exact ⟨upd env i v, by simp only [Stmt.exec, decr, h1]; rfl, hupd i _ _ h2⟩
  induction ss generalizing env envZ with
  | nil => exact ⟨env, rfl, henv⟩
  | cons s ss ih =>
    obtain ⟨env₁, h1, h2, h3⟩ := key s env envZ (hss s (by simp)) hlt henv
    obtain ⟨env₂, h4, h5⟩ := ih (fun t ht => hss t (by simp [ht])) env₁ (s.int envZ) h2 h3
    exact ⟨env₂, by simp only [exec, h1, h4], h5⟩

/-- The hypotheses are met by a program on two 40 bit variables that goes below zero and above `2^40`; its result. -/
example :
    let ss : List Stmt := [.const 0 5, .const 1 (-1), .dec 1, .opAssign 0 .sub (.o32 7), .opAssignVar 0 .mul 1,
      .assign 1 (.bin .mul (.bin .sub (.lit 3) (.var 0)) (.bin .add (.var 1) (.lit 18446744073709551615))), .inc 1]
    (∀ s ∈ ss, s.Ring 40) ∧ (exec 40 ss (fun _ => 0)).map (fun e => [e 0, e 1]) = .ok [4, 4] ∧
      (let z := ss.foldl Stmt.int (fun _ => 0); z 0 = 4 ∧ z 1 % 2 ^ 40 = 4) := by
  refine ⟨?_, by decide +kernel, by decide +kernel⟩
  simp only [List.forall_mem_cons, Stmt.Ring, Expr.Ring, Op.Ring, Operand.Valid]
  refine ⟨trivial, trivial, trivial, ⟨by simp, by decide⟩, by simp, ⟨by simp, ⟨by simp, by decide, trivial⟩, by simp, trivial, by decide⟩, trivial, by simp⟩

/-! ### Where the property fails -/

/-- As expressions, the operators do not compute modulo `2^N`: with `uint_t<8>`, `255 + 1` is `256` and `0 - 1` is `2^32 - 1`; so
`a + b == c` and `a - b < c` can differ from the comparison after storing the left hand side. -/
theorem uint_expression_not_modular :
    binop 8 .add 255 (.self 1) = .ok 256 ∧ binop 8 .sub 0 (.self 1) = .ok (2 ^ 32 - 1) ∧ binop 40 .sub 0 (.self 1) = .ok (2 ^ 64 - 1) ∧
      ¬ (∀ N, N ≤ 64 → ∀ x y, x < 2 ^ N → y < 2 ^ N → ∃ v, binop N .add x (.self y) = .ok v ∧ v = (x + y) % 2 ^ N) := by
  refine ⟨by decide, by decide, by decide, fun h => ?_⟩
  obtain ⟨v, h1, h2⟩ := h 8 (by decide) 255 1 (by decide) (by decide)
  rw [show binop 8 .add 255 (.self 1) = .ok 256 by decide] at h1
  cases h1
  exact absurd h2 (by decide)

/-- Comparison with a negative `int` compares with its residue: `uint_t<40>(5) < -1` holds. -/
theorem uint_compare_negative : ltOp 40 5 (.o32 (-1)) = true := by decide

/-- Shifts by 32 or more are undefined up to `N = 32`, also for `N` where the value has fewer bits. -/
theorem uint_shift_undefined (N : Nat) (hN : N ≤ 32) (x k : Nat) (hk : 32 ≤ k) (hk2 : k < 2 ^ N) :
    assignOp N .shl x (.self k) = .error .ub ∧ assignOp N .shr x (.self k) = .error .ub := by
  have : maxBit N ≤ k := by simp only [maxBit, hN, if_true]; exact hk
  simp [assignOp, binop, Operand.width, Operand.conv, opU, this]

/-- `numeric_limits<uint_t<N>>::max()` is the largest value exactly up to `N = 53`; from 54 to 63 it is *zero*, and undefined for 64. -/
theorem uint_limits_max (N : Nat) (hN : N ≤ 64) :
    limitsMax N = if N ≤ 53 then .ok (2 ^ N - 1) else if N ≤ 63 then .ok 0 else .error .ub := by
  interval_cases N <;> decide +kernel

/-- `uint_t<1>` is `bool`: assignment is not reduction modulo 2. -/
theorem uint1_not_modular : ofIntBool 2 = 1 ∧ (2 : Int) % 2 ^ 1 = 0 := by decide

/-- … while values that fit survive. -/
theorem uint1_exact (v : Nat) (hv : v < 2 ^ 1) : ofIntBool v = v := by
  unfold ofIntBool; split <;> omega

end UintT
end Tdc
