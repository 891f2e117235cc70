import Verif.Model.Rolling
import Mathlib.Tactic.Ring
import Mathlib.Tactic.Linarith

namespace Tdc.Rolling

/-- The value of a signed `char`. -/
def sc (c : UInt8) : Int := if c.toNat < 128 then c.toNat else (c.toNat : Int) - 256

theorem sext_sc (c : UInt8) : (sext c : Int) = sc c % 2 ^ 64 := by
  have := c.toNat_lt
  unfold sext sc
  split <;> omega

theorem sc_bound (c : UInt8) : -128 ≤ sc c ∧ sc c ≤ 127 := by
  have := c.toNat_lt
  unfold sc
  split <;> omega

theorem sc_inj {a b : UInt8} (h : sc a = sc b) : a = b := by
  have h1 := a.toNat_lt
  have h2 := b.toNat_lt
  apply UInt8.toNat_inj.mp
  unfold sc at h
  split at h <;> split at h <;> omega

theorem sc_zero {a : UInt8} (h : sc a = 0) : a = 0 := sc_inj (h.trans rfl)

/-- The value of a string (last character first) in base 257, with signed digits. -/
def rval : List UInt8 → Int
  | [] => 0
  | c :: r => 257 * rval r + sc c

theorem rval_bound : ∀ r : List UInt8, 2 * rval r ≤ 257 ^ r.length - 1 ∧ -(257 ^ r.length - 1) ≤ 2 * rval r
  | [] => by simp [rval]
  | c :: r => by
    have h := rval_bound r
    have hs := sc_bound c
    simp only [rval, List.length_cons, pow_succ]
    generalize (257 : Int) ^ r.length = x at *
    omega

theorem rval_ne_zero {r : List UInt8} (h : 0 ∉ r) (hr : rval r = 0) : r = [] := by
  cases r with
  | nil => rfl
  | cons c r =>
    exfalso
    have hs := sc_bound c
    have : sc c = 0 := by simp only [rval] at hr; omega
    exact h (by simp [sc_zero this])

/-- Signed digits in base 257 are unique, if there are no leading zeros. -/
theorem rval_inj : ∀ {u v : List UInt8}, 0 ∉ u → 0 ∉ v → rval u = rval v → u = v
  | [], v, _, hv, h => (rval_ne_zero hv h.symm).symm
  | c :: u, [], hu, _, h => rval_ne_zero hu h
  | c :: u, d :: v, hu, hv, h => by
    have h1 := sc_bound c
    have h2 := sc_bound d
    simp only [rval] at h
    have hcd : sc c = sc d := by omega
    have := rval_inj (u := u) (v := v) (fun h => hu (by simp [h])) (fun h => hv (by simp [h])) (by omega)
    rw [this, sc_inj hcd]

theorem zbackup_state (r : List UInt8) : ∃ n : Nat, r.reverse.foldl zbackup.step zbackup.init = (n, 0) ∧ (n : Int) = rval r % 2 ^ 64 := by
  rw [List.foldl_reverse]
  induction r with
  | nil => exact ⟨0, rfl, rfl⟩
  | cons c r ih =>
    obtain ⟨n, h1, h2⟩ := ih
    rw [List.foldr_cons, h1]
    have hz : zbackup.step (n, 0) c = ((n * 2 ^ 8 % 2 ^ 64 + n + sext c) % 2 ^ 64, (0 : Nat)) := by
      show (_, ((0 + 0 * 2 ^ 8 % 2 ^ 64) % 2 ^ 64 : Nat)) = _
      simp
    refine ⟨(n * 2 ^ 8 % 2 ^ 64 + n + sext c) % 2 ^ 64, hz, ?_⟩
    have := sext_sc c
    simp only [rval]
    generalize rval r = x at *
    generalize sc c = y at *
    generalize sext c = z at *
    push_cast
    omega

theorem wordpack_state (r : List UInt8) : ∃ n : Nat, r.reverse.foldl wordpack.step wordpack.init = n ∧ (n : Int) = rval r % 2 ^ 64 := by
  rw [List.foldl_reverse]
  induction r with
  | nil => exact ⟨0, rfl, rfl⟩
  | cons c r ih =>
    obtain ⟨n, h1, h2⟩ := ih
    rw [List.foldr_cons, h1]
    refine ⟨(n + n * 2 ^ 8 % 2 ^ 64 + sext c) % 2 ^ 64, rfl, ?_⟩
    have := sext_sc c
    simp only [rval]
    generalize rval r = x at *
    generalize sc c = y at *
    generalize sext c = z at *
    push_cast
    omega

theorem wordpack_hash (s : List UInt8) : ∃ n : Nat, wordpack.hash s = n ∧ (n : Int) = rval s.reverse % 2 ^ 64 := by
  obtain ⟨n, h1, h2⟩ := wordpack_state s.reverse
  rw [List.reverse_reverse] at h1
  exact ⟨n, h1, h2⟩

theorem zbackup_hash (s : List UInt8) : ∃ n : Nat, zbackup.hash s = n % (2 ^ 64 - 1) ∧ (n : Int) = rval s.reverse % 2 ^ 64 := by
  obtain ⟨n, h1, h2⟩ := zbackup_state s.reverse
  rw [List.reverse_reverse] at h1
  refine ⟨n, ?_, h2⟩
  show (((s.foldl zbackup.step zbackup.init).1 + (s.foldl zbackup.step zbackup.init).2) % 2 ^ 64 % (2 ^ 64 - 1) : Nat) = _
  rw [h1]
  show (n + 0) % 2 ^ 64 % (2 ^ 64 - 1) = n % (2 ^ 64 - 1)
  have : n < 2 ^ 64 := by omega
  rw [Nat.add_zero, Nat.mod_eq_of_lt this]

/-- A leading zero byte does not count. -/
theorem rval_zero (s : List UInt8) : rval (0 :: s).reverse = rval s.reverse := by
  rw [List.reverse_cons]
  generalize s.reverse = r
  induction r with
  | nil => rfl
  | cons c r ih => simp only [List.cons_append, rval, ih]

theorem small {s : List UInt8} (h : s.length ≤ 7) : -(2 ^ 56) < rval s.reverse ∧ rval s.reverse < 2 ^ 56 := by
  have hb := rval_bound s.reverse
  rw [List.length_reverse] at hb
  have : (257 : Int) ^ s.length ≤ 257 ^ 7 := pow_le_pow_right₀ (by decide) h
  constructor <;> omega

/-- `WordpackRollingHash` has no collision among strings of at most seven non-zero bytes. -/
theorem wordpack_inj {u v : List UInt8} (hu : u.length ≤ 7) (hv : v.length ≤ 7) (zu : 0 ∉ u) (zv : 0 ∉ v)
    (h : wordpack.hash u = wordpack.hash v) : u = v := by
  obtain ⟨n, n1, n2⟩ := wordpack_hash u
  obtain ⟨m, m1, m2⟩ := wordpack_hash v
  rw [n1, m1] at h
  have h : n = m := h
  have b1 := small hu
  have b2 := small hv
  have : rval u.reverse = rval v.reverse := by omega
  exact List.reverse_inj.mp (rval_inj (by simpa using zu) (by simpa using zv) this)

/-- `ZBackupRollingHash` has no collision among strings of at most seven bytes other than 0 and 255. -/
theorem zbackup_inj {u v : List UInt8} (hu : u.length ≤ 7) (hv : v.length ≤ 7) (zu : 0 ∉ u) (zv : 0 ∉ v)
    (fu : 255 ∉ u) (fv : 255 ∉ v) (h : zbackup.hash u = zbackup.hash v) : u = v := by
  obtain ⟨n, n1, n2⟩ := zbackup_hash u
  obtain ⟨m, m1, m2⟩ := zbackup_hash v
  rw [n1, m1] at h
  have h : n % (2 ^ 64 - 1) = m % (2 ^ 64 - 1) := h
  have b1 := small hu
  have b2 := small hv
  have key : ∀ w : List UInt8, 0 ∉ w → 255 ∉ w → rval w.reverse ≠ -1 := by
    intro w z f e
    have : w.reverse = [255] := rval_inj (by simpa using z) (by decide) (by rw [e]; rfl)
    exact f (by rw [← List.mem_reverse, this]; simp)
  have k1 := key u zu fu
  have k2 := key v zv fv
  have : rval u.reverse = rval v.reverse := by omega
  exact List.reverse_inj.mp (rval_inj (by simpa using zu) (by simpa using zv) this)

theorem wordpack_zero (s : List UInt8) : wordpack.hash (0 :: s) = wordpack.hash s := by
  obtain ⟨n, n1, n2⟩ := wordpack_hash (0 :: s)
  obtain ⟨m, m1, m2⟩ := wordpack_hash s
  rw [n1, m1]
  rw [rval_zero] at n2
  show n = m
  omega

theorem zbackup_zero (s : List UInt8) : zbackup.hash (0 :: s) = zbackup.hash s := by
  obtain ⟨n, n1, n2⟩ := zbackup_hash (0 :: s)
  obtain ⟨m, m1, m2⟩ := zbackup_hash s
  rw [n1, m1]
  rw [rval_zero] at n2
  show n % (2 ^ 64 - 1) = m % (2 ^ 64 - 1)
  have : n = m := by omega
  rw [this]

end Tdc.Rolling
