import Verif.Model.Generators
import Mathlib.Data.Nat.Fib.Basic
import Mathlib.Tactic.IntervalCases

/-!
# Property C48: the generators deliver the words they are named after
-/

namespace Tdc
namespace Gen

/-! ## the words -/

/-- The Fibonacci words: `b`, `a`, and every later one is the concatenation of its two predecessors. -/
def fibWord : Nat → List Char
  | 0 => []
  | 1 => ['b']
  | 2 => ['a']
  | n + 3 => fibWord (n + 2) ++ fibWord (n + 1)

/-- Number of ones in the binary expansion. -/
def ones : Nat → Nat
  | 0 => 0
  | n + 1 => (n + 1) % 2 + ones ((n + 1) / 2)

/-- The run-rich strings of Matsubara et al.: `t_k = t_{k-1} t_{k-2}` if `k` is a multiple of three, `t_{k-1} t_{k-4}` otherwise. -/
def rrWord (k : Nat) : List Char :=
  if k = 0 then "0110101101001011010".toList else
  if k = 1 then "0110101101001".toList else
  if k = 2 then "01101011010010110101101".toList else
  if k % 3 = 0 then rrWord (k - 1) ++ rrWord (k - 2) else rrWord (k - 1) ++ rrWord (k - 4)

/-! ## Fibonacci -/

theorem fibLoop_eq (n : Nat) : ∀ d i, 2 ≤ i → n - i = d → fibLoop n i (fibWord (i - 1)) (fibWord i) = fibWord (max n i) := by
  intro d
  induction d with
  | zero =>
    intro i hi hd
    rw [fibLoop, if_neg (by omega), Nat.max_eq_right (by omega)]
  | succ d ih =>
    intro i hi hd
    rw [fibLoop, if_pos (by omega)]
    have h := ih (i + 1) (by omega) (by omega)
    have e : fibWord (i + 1) = fibWord i ++ fibWord (i - 1) := by
      obtain ⟨k, rfl⟩ : ∃ k, i = k + 2 := ⟨i - 2, by omega⟩
      rfl
    rw [Nat.add_sub_cancel, e, Nat.max_eq_left (by omega)] at h
    rw [h, Nat.max_eq_left (by omega)]

theorem fibWord_length : ∀ n, (fibWord n).length = Nat.fib n
  | 0 => rfl
  | 1 => rfl
  | 2 => rfl
  | n + 3 => by
    have h1 := fibWord_length (n + 2)
    have h2 := fibWord_length (n + 1)
    have h3 : Nat.fib (n + 3) = Nat.fib (n + 1) + Nat.fib (n + 2) := Nat.fib_add_two
    rw [fibWord, List.length_append]
    omega

theorem reservePow_ok {ms e : Nat} (h : e ≤ 89) (hms : 2 ^ 62 - 1 ≤ ms) : reservePow ms e = .ok () := by
  have key : ∀ e ≤ 89, ¬ (2 ^ 64 * 100 ^ e ≤ 162 ^ e) ∧ 162 ^ e / 100 ^ e ≤ 2 ^ 62 - 1 := by decide +kernel
  obtain ⟨h1, h2⟩ := key e h
  rw [reservePow, if_neg (by omega), if_neg h1, reserve, if_pos (Nat.le_trans h2 hms)]

/-- **C48, `fib`.** For every `1 ≤ n ≤ 89` (and any string implementation able to hold 2^62 - 1 characters) the generator returns the
`n`-th Fibonacci word; its length is the `n`-th Fibonacci number. -/
theorem fibonacci_word (ms n : Nat) (hms : 2 ^ 62 - 1 ≤ ms) (h1 : 1 ≤ n) (h2 : n ≤ 89) :
    fibonacci ms n = .ok (fibWord n) ∧ (fibWord n).length = Nat.fib n := by
  refine ⟨?_, fibWord_length n⟩
  unfold fibonacci
  by_cases e1 : n = 1
  · subst e1; rfl
  by_cases e2 : n = 2
  · subst e2; rfl
  rw [if_neg e1, if_neg e2, show (n + (2 ^ 64 - 1)) % 2 ^ 64 = n - 1 by omega, reservePow_ok (by omega) hms, reservePow_ok h2 hms]
  have := fibLoop_eq n _ 2 (by omega) rfl
  rw [Nat.max_eq_left (by omega)] at this
  exact congrArg _ this

/-- **C48, `fib`, refuted for `n = 0`**: the index `n-1` wraps, the requested capacity is infinite and its conversion undefined. -/
theorem fibonacci_zero_broken (ms : Nat) : fibonacci ms 0 = .error .ub := by
  unfold fibonacci reservePow
  rfl

example : fibonacci (2 ^ 62) 7 = .ok "abaababaabaab".toList := by decide +kernel

/-! ## Thue-Morse -/

theorem ones_eq (n : Nat) : ones n = n % 2 + ones (n / 2) := by
  cases n with
  | zero => simp [ones]
  | succ n => rw [ones]

theorem ones_add (i : Nat) : ∀ j, j < 2 ^ i → ones (2 ^ i + j) = ones j + 1 := by
  induction i with
  | zero =>
    intro j hj
    have : j = 0 := by simpa using hj
    subst this
    simp [ones_eq 1, ones]
  | succ i ih =>
    intro j hj
    rw [Nat.pow_succ] at *
    rw [ones_eq (2 ^ i * 2 + j), ones_eq j, show (2 ^ i * 2 + j) / 2 = 2 ^ i + j / 2 by omega, ih (j / 2) (by omega),
      show (2 ^ i * 2 + j) % 2 = j % 2 by omega]
    omega

/-- The first `k` characters of the infinite Thue-Morse sequence. -/
def tmWord (k : Nat) : List Char := (List.range k).map fun j => if ones j % 2 = 0 then '0' else '1'

theorem tmWord_length (k : Nat) : (tmWord k).length = k := by simp [tmWord]

theorem tmWord_get {k j : Nat} (h : j < k) : (tmWord k)[j]? = some (if ones j % 2 = 0 then '0' else '1') := by
  simp [tmWord, h]

theorem tmWord_succ (k : Nat) : tmWord (k + 1) = tmWord k ++ [if ones k % 2 = 0 then '0' else '1'] := by
  simp [tmWord, List.range_succ]

theorem tmInner_eq (i : Nat) : ∀ d j, 2 ^ i - j = d → j ≤ 2 ^ i → tmInner (2 ^ i) j (tmWord (2 ^ i + j)) = .ok (tmWord (2 ^ i + 2 ^ i)) := by
  intro d
  induction d with
  | zero =>
    intro j hd hj
    rw [tmInner, if_neg (by omega), show j = 2 ^ i by omega]
  | succ d ih =>
    intro j hd hj
    rw [tmInner, if_pos (by omega), tmWord_get (by omega)]
    have e : tmWord (2 ^ i + (j + 1)) =
        tmWord (2 ^ i + j) ++ [if (if ones j % 2 = 0 then '0' else '1') = '0' then '1' else '0'] := by
      rw [← Nat.add_assoc, tmWord_succ, ones_add i j (by omega)]
      congr 2
      rcases Nat.mod_two_eq_zero_or_one (ones j) with h | h
      · have h' : ¬ (ones j + 1) % 2 = 0 := by omega
        simp [h, h']
      · have h' : (ones j + 1) % 2 = 0 := by omega
        simp [h, h']
    show tmInner _ _ _ = _
    rw [← e]
    exact ih (j + 1) (by omega) (by omega)

theorem tmLoop_eq (n : Nat) : ∀ d i, n - (i + 1) = d → i + 1 ≤ n → tmLoop n (i + 1) (tmWord (2 ^ i)) = .ok (tmWord (2 ^ (n - 1))) := by
  intro d
  induction d with
  | zero =>
    intro i hd hi
    rw [tmLoop, if_neg (by omega), show n - 1 = i by omega]
  | succ d ih =>
    intro i hd hi
    rw [tmLoop, if_pos (by omega), tmWord_length]
    have := tmInner_eq i _ 0 rfl (Nat.zero_le _)
    rw [Nat.add_zero] at this
    rw [this, ← Nat.two_mul, Nat.mul_comm, ← Nat.pow_succ]
    exact ih (i + 1) (by omega) (by omega)

/-- **C48, `thue_morse`.** For every `1 ≤ n ≤ 61` the generator returns the first `2^(n-1)` characters of the Thue-Morse sequence (`1` at the
positions with an odd number of binary ones); `n = 0` gives the same word as `n = 1`. -/
theorem thueMorse_word_partial (ms n : Nat) (hms : 2 ^ 62 - 1 ≤ ms) (h2 : n ≤ 61) :
    thueMorse ms n = .ok (tmWord (2 ^ (n - 1))) ∧ (tmWord (2 ^ (n - 1))).length = 2 ^ (n - 1) := by
  refine ⟨?_, tmWord_length _⟩
  unfold thueMorse
  rw [if_neg (by omega)]
  by_cases h0 : n = 0
  · subst h0; simp [tmWord, ones]
  have hp : 2 ^ n ≤ 2 ^ 61 := Nat.pow_le_pow_right (by omega) h2
  rw [if_neg h0, reserve, if_pos (by omega)]
  have h := tmLoop_eq n _ 0 rfl (by omega)
  rw [show tmWord (2 ^ 0) = ['0'] by simp [tmWord, ones]] at h
  exact h

/-- **C48, `thue_morse`, refuted**: the documentation promises `2^n` characters for the `n`-th word; for every `n ≥ 1` it is half as long. -/
theorem thueMorse_length_broken (ms n : Nat) (hms : 2 ^ 62 - 1 ≤ ms) (h1 : 1 ≤ n) (h2 : n ≤ 61) :
    ∃ w, thueMorse ms n = .ok w ∧ 2 * w.length = 2 ^ n := by
  refine ⟨_, (thueMorse_word_partial ms n hms h2).1, ?_⟩
  rw [tmWord_length, Nat.mul_comm, ← Nat.pow_succ]
  congr 1
  omega

/-- … and the largest argument `CHECK_LT(n, 64)` admits cannot be served by any implementation whose strings hold less than 2^63 characters -/
theorem thueMorse_63_broken (ms : Nat) (hms : ms < 2 ^ 63) : thueMorse ms 63 = .error .throw := by
  unfold thueMorse reserve
  rw [if_neg (by decide), if_neg (by decide), if_neg (by omega)]
  rfl

example : thueMorse (2 ^ 62) 4 = .ok "01101001".toList := by decide +kernel

/-! ## run-rich strings -/

theorem rrWord_0 : rrWord 0 = rr0 := by rw [rrWord, if_pos rfl]; rfl
theorem rrWord_1 : rrWord 1 = rr1 := by rw [rrWord, if_neg (by decide), if_pos rfl]; rfl
theorem rrWord_2 : rrWord 2 = rr2 := by rw [rrWord, if_neg (by decide), if_neg (by decide), if_pos rfl]; rfl
theorem rrWord_3 : rrWord 3 = rr2 ++ rr1 := by
  rw [rrWord, if_neg (by decide), if_neg (by decide), if_neg (by decide), if_pos (by decide), rrWord_2, rrWord_1]

theorem rrWord_succ {i : Nat} (h : 4 ≤ i) :
    rrWord i = if i % 3 = 0 then rrWord (i - 1) ++ rrWord (i - 2) else rrWord (i - 1) ++ rrWord (i - 4) := by
  rw [rrWord, if_neg (by omega), if_neg (by omega), if_neg (by omega)]

theorem rrLoop_eq (n : Nat) : ∀ d i, 4 ≤ i → n - i = d →
    rrLoop n i (rrWord (i - 4)) (rrWord (i - 3)) (rrWord (i - 2)) (rrWord (i - 1)) = rrWord (max n i - 1) := by
  intro d
  induction d with
  | zero =>
    intro i hi hd
    rw [rrLoop, if_neg (by omega), Nat.max_eq_right (by omega)]
  | succ d ih =>
    intro i hi hd
    rw [rrLoop, if_pos (by omega)]
    have h := ih (i + 1) (by omega) (by omega)
    rw [Nat.add_sub_cancel, show i + 1 - 4 = i - 3 by omega, show i + 1 - 3 = i - 2 by omega, show i + 1 - 2 = i - 1 by omega,
      Nat.max_eq_left (by omega), rrWord_succ hi] at h
    rw [h, Nat.max_eq_left (by omega)]

/-- **C48, `run_rich`.** For every `n`: the generator returns the `n`-th run-rich string for `n ≤ 3` and the `(n-1)`-th one from 4 on. -/
theorem runRich_word_partial (n : Nat) : runRich n = rrWord (if n ≤ 3 then n else n - 1) := by
  unfold runRich
  by_cases h0 : n = 0
  · subst h0; exact rrWord_0.symm
  by_cases h1 : n = 1
  · subst h1; exact rrWord_1.symm
  by_cases h2 : n = 2
  · subst h2; exact rrWord_2.symm
  rw [if_neg h0, if_neg h1, if_neg h2]
  have := rrLoop_eq n _ 4 (by omega) rfl
  rw [show rrWord (4 - 4) = rr0 from rrWord_0, show rrWord (4 - 3) = rr1 from rrWord_1, show rrWord (4 - 2) = rr2 from rrWord_2,
    show rrWord (4 - 1) = rr2 ++ rr1 from rrWord_3] at this
  rw [this]
  congr 1
  split <;> omega

theorem rrWord_pos (n : Nat) : 0 < (rrWord n).length := by
  induction n using Nat.strongRecOn with
  | _ n ih =>
    by_cases h : 4 ≤ n
    · rw [rrWord_succ h]
      have := ih (n - 1) (by omega)
      split <;> rw [List.length_append] <;> omega
    · obtain rfl | rfl | rfl | rfl : n = 0 ∨ n = 1 ∨ n = 2 ∨ n = 3 := by omega
      · rw [rrWord_0]; decide +kernel
      · rw [rrWord_1]; decide +kernel
      · rw [rrWord_2]; decide +kernel
      · rw [rrWord_3]; decide +kernel

/-- **C48, `run_rich`, refuted**: from `n = 4` on the result is never the `n`-th string (it is shorter). -/
theorem runRich_index_broken (n : Nat) (h : 4 ≤ n) : (runRich n).length < (rrWord n).length := by
  rw [runRich_word_partial, if_neg (by omega), rrWord_succ h]
  have h1 := rrWord_pos (n - 2)
  have h2 := rrWord_pos (n - 4)
  split <;> rw [List.length_append] <;> omega

/-- in particular 3 and 4 give the same string -/
example : runRich 3 = runRich 4 ∧ (runRich 5).length = 55 := by decide +kernel

/-! ## random strings -/

theorem rndLoop_spec {draw : Nat → Int} {P : Int → Prop} (hP : ∀ i, P (draw i)) (n : Nat) : ∀ d i s, n - i = d → i ≤ n → s.length = n →
    (∀ k x, k < i → s[k]? = some x → P x) →
    ∃ r, rndLoop draw n i s = .ok r ∧ r.length = n ∧ ∀ x ∈ r, P x := by
  intro d
  induction d with
  | zero =>
    intro i s hd hi hs h
    refine ⟨s, by rw [rndLoop, if_neg (by omega)], hs, ?_⟩
    intro x hx
    obtain ⟨k, hk⟩ := List.mem_iff_getElem?.mp hx
    exact h k x (by have := (List.getElem?_eq_some_iff.mp hk).1; omega) hk
  | succ d ih =>
    intro i s hd hi hs h
    rw [rndLoop, if_pos (by omega), if_pos (by omega)]
    refine ih (i + 1) _ (by omega) (by omega) (by simpa using hs) ?_
    intro k x hk hx
    rw [List.getElem?_set] at hx
    by_cases e : i = k
    · rw [if_pos e, if_pos (by omega)] at hx
      cases hx
      exact hP i
    · rw [if_neg e] at hx
      exact h k x (by omega) hx

/-- the byte a `char` holds -/
def byteOf (c : Int) : Nat := (c % 256).toNat

/-- **C48, `random`.** For every length, and bounds in either order that both lie below 128 or both in `128..255`, the generator returns a
string of that length all of whose bytes lie between the bounds, whatever values in its range the distribution delivers. -/
theorem random_range_partial (draw : Int → Int → Nat → Int) (hdraw : ∀ lo hi i, lo ≤ hi → lo ≤ draw lo hi i ∧ draw lo hi i ≤ hi)
    (length min max : Nat) (h : (min < 128 ∧ max < 128) ∨ (128 ≤ min ∧ min < 256 ∧ 128 ≤ max ∧ max < 256)) :
    ∃ s, randomUniform draw length min max = .ok s ∧ s.length = length ∧
      ∀ c ∈ s, Nat.min min max ≤ byteOf c ∧ byteOf c ≤ Nat.max min max := by
  have aux : ∀ lo hi : Nat, lo ≤ hi → ((hi < 128) ∨ (128 ≤ lo ∧ hi < 256)) → 
      ∃ s, (if toSChar hi < toSChar lo then .error .ub else
        rndLoop (draw (toSChar lo) (toSChar hi)) length 0 (List.replicate length 0) : Res (List Int)) = .ok s ∧ s.length = length ∧
      ∀ c ∈ s, lo ≤ byteOf c ∧ byteOf c ≤ hi := by
    intro lo hi hle hb
    have hsc : toSChar lo ≤ toSChar hi := by
      unfold toSChar
      split <;> split <;> omega
    rw [if_neg (by omega)]
    refine rndLoop_spec (P := fun c => lo ≤ byteOf c ∧ byteOf c ≤ hi) ?_ length _ 0 _ rfl (by omega) (by simp) (fun k x hk => by omega)
    intro i
    obtain ⟨h1, h2⟩ := hdraw (toSChar lo) (toSChar hi) i hsc
    revert h1 h2
    generalize draw (toSChar lo) (toSChar hi) i = c
    intro h1 h2
    unfold toSChar at h1 h2
    unfold byteOf
    split at h1 <;> split at h2 <;> omega
  unfold randomUniform
  by_cases hm : max < min
  · simp only [if_pos hm]
    obtain ⟨s, e, e1, e2⟩ := aux max min (by omega) (by omega)
    refine ⟨s, e, e1, fun c hc => ?_⟩
    have := e2 c hc
    exact ⟨Nat.le_trans (Nat.min_le_right _ _) this.1, Nat.le_trans this.2 (Nat.le_max_left _ _)⟩
  · simp only [if_neg hm]
    obtain ⟨s, e, e1, e2⟩ := aux min max (by omega) (by omega)
    refine ⟨s, e, e1, fun c hc => ?_⟩
    have := e2 c hc
    exact ⟨Nat.le_trans (Nat.min_le_left _ _) this.1, Nat.le_trans this.2 (Nat.le_max_right _ _)⟩

/-- **C48, `random`, refuted** for every range that contains both 127 and 128 (for example all bytes, `0..255`): the bounds become `char`s
in the wrong order, which the distribution does not allow. -/
theorem random_full_range_broken (draw : Int → Int → Nat → Int) (length min max : Nat) (h1 : min ≤ 127) (h2 : 128 ≤ max) (h3 : max ≤ 255) :
    randomUniform draw length min max = .error .ub := by
  unfold randomUniform
  simp only [if_neg (show ¬ max < min by omega)]
  rw [if_pos]
  unfold toSChar
  rw [if_neg (by omega), if_pos (by omega)]
  omega

example : randomUniform (fun lo hi i => if i % 2 = 0 then lo else hi) 4 57 48 = .ok [48, 57, 48, 57] := by decide +kernel

end Gen
end Tdc
