import Mathlib.Tactic.Positivity
import Verif.Spec.Suffix
import Verif.Spec.DivSufSort
import Verif.Lemmas.DivSufSort
import Verif.Lemmas.BWT

/-!
# C65: suffix sorting

`util/divsufsort.hpp`.  The sorting of the B* suffixes (`sssort`, `trsort`) is not modelled; `BStarsRanked` says what it has to leave in the
array.  From there on the code makes the suffix array of every text.
-/

namespace Tdc

open DSS

/-- characters by position -/
def dssCh (T : List UInt8) (i : Nat) : Nat := (T.getD i 0).toNat

/-- order of the suffixes -/
def dssLt (T : List UInt8) (i j : Nat) : Prop := T.drop i < T.drop j

theorem dss_txt {cell : Int → Int} (T : List UInt8) (hcell : ∀ v : Int, -T.length ≤ v → v < T.length → cell v = v) :
    Txt cell T.length (dssCh T) (dssLt T) T where
  O := {
    irr := fun i => lex_irrefl _
    trans := fun i j k => lex_trans
    tot := fun i j hi hj => by
      rcases lex_total (T.drop i) (T.drop j) with h | h | h
      · exact Or.inl h
      · have := congrArg List.length h
        rw [List.length_drop, List.length_drop] at this
        exact Or.inr (Or.inl (by omega))
      · exact Or.inr (Or.inr h)
    last := fun i hi => by
      unfold dssLt
      rw [List.drop_length, List.drop_eq_getElem_cons hi]
      exact List.nil_lt_cons _ _
    step := fun i j hi hj => by
      unfold dssLt dssCh
      rw [drop_lt_drop hi hj, getD_of_lt hi, getD_of_lt hj, UInt8.lt_iff_toNat_lt, UInt8.toNat_inj] }
  len := rfl
  get i hi := by
    unfold tget dssCh
    rw [if_pos (Int.natCast_nonneg i), Int.toNat_natCast, List.getElem?_eq_getElem hi, getD_of_lt hi]
  lt256 i := by unfold dssCh; exact UInt8.toNat_lt _
  cell := hcell

theorem star_iff (T : List UInt8) (i : Nat) : star (dssLt T) i ↔ IsBStar T i := Iff.rfl

theorem mem_bstars (T : List UInt8) (x : Nat) : x ∈ bstars T ↔ x < T.length ∧ star (dssLt T) x := by
  unfold bstars
  rw [List.mem_filter, List.mem_range, decide_eq_true_eq, star_iff]

theorem bstars_sorted (T : List UInt8) : (bstars T).Pairwise (· < ·) := List.pairwise_lt_range.filter _

theorem bstars_nodup (T : List UInt8) : (bstars T).Nodup := (bstars_sorted T).imp (fun h => by omega)

theorem bstars_length (T : List UInt8) : (bstars T).length = cnt T.length (star (dssLt T)) := by
  have := countP_eq_cnt (bstars_nodup T) (mem_bstars T) (fun _ => true)
  simpa using this

/-- the index of a B* suffix -/
theorem bstars_idx (T : List UInt8) {x : Nat} (hx : x < T.length) (hs : star (dssLt T) x) : (bstars T)[idx T.length (dssLt T) x]? = some x := by
  obtain ⟨k, hk, e⟩ := List.getElem_of_mem ((mem_bstars T x).mpr ⟨hx, hs⟩)
  have h : idx T.length (dssLt T) x = k := by
    have h1 := countP_eq_cnt (bstars_nodup T) (mem_bstars T) (fun y => decide (y < x))
    unfold idx
    simp only [decide_eq_true_eq] at h1
    rw [← h1]
    have hp := bstars_sorted T
    rw [List.pairwise_iff_getElem] at hp
    have h2 : (bstars T).countP (fun y => decide (y < x)) = ((bstars T).take k).countP (fun y => decide (y < x)) +
        ((bstars T).drop k).countP (fun y => decide (y < x)) := by
      rw [← List.countP_append, List.take_append_drop]
    have h3 : ((bstars T).take k).countP (fun y => decide (y < x)) = k := by
      rw [List.countP_eq_length.mpr, List.length_take, Nat.min_eq_left (by omega)]
      intro y hy
      obtain ⟨i, hi, rfl⟩ := List.getElem_of_mem hy
      rw [List.length_take] at hi
      rw [List.getElem_take, decide_eq_true_eq, ← e]
      exact hp i k _ _ (by omega)
    have h4 : ((bstars T).drop k).countP (fun y => decide (y < x)) = 0 := by
      rw [List.countP_eq_zero]
      intro y hy
      obtain ⟨i, hi, rfl⟩ := List.getElem_of_mem hy
      rw [List.length_drop] at hi
      rw [List.getElem_drop, decide_eq_true_eq, ← e]
      rcases Nat.eq_zero_or_pos i with h0 | h0
      · subst h0; simp
      · have := hp k (k + i) hk (by omega) (by omega)
        omega
    omega
  rw [h, List.getElem?_eq_getElem hk, e]

theorem BStarsRanked.sorted {T : List UInt8} {mid : List Int} (h : BStarsRanked T mid) : Sorted T.length (dssLt T) mid where
  len := h.length
  ranks x hx hs := by
    have := h.ranks _ _ (bstars_idx T hx hs)
    rw [bstars_length] at this
    rw [this]
    congr 2
    have h1 := countP_eq_cnt (bstars_nodup T) (mem_bstars T) (fun y => decide (T.drop y < T.drop x))
    simp only [decide_eq_true_eq] at h1
    rw [h1]
    rfl

theorem isSA_of_rk {T : List UInt8} {sa : List Int} (hlen : sa.length = T.length)
    (h : ∀ i, i < T.length → sa[rk T.length (dssLt T) i]? = some (i : Int)) : (∀ v ∈ sa, 0 ≤ v) ∧ IsSA T (sa.map Int.toNat) := by
  have X := dss_txt (cell := id) T (fun _ _ _ => rfl)
  have hget : ∀ p, p < T.length → ∃ i, i < T.length ∧ rk T.length (dssLt T) i = p ∧ sa[p]? = some (i : Int) := by
    intro p hp
    obtain ⟨i, hi, e⟩ := X.O.rk_surj hp
    exact ⟨i, hi, e, e ▸ h i hi⟩
  refine ⟨?_, ?_, ?_, ?_⟩
  · intro v hv
    obtain ⟨p, hp, rfl⟩ := List.getElem_of_mem hv
    obtain ⟨i, -, -, e⟩ := hget p (by omega)
    rw [List.getElem?_eq_getElem hp] at e
    injection e with e
    omega
  · rw [List.length_map, hlen]
  · intro s hs
    obtain ⟨v, hv, rfl⟩ := List.mem_map.mp hs
    obtain ⟨p, hp, rfl⟩ := List.getElem_of_mem hv
    obtain ⟨i, hi, -, e⟩ := hget p (by omega)
    rw [List.getElem?_eq_getElem hp] at e
    injection e with e
    rw [e, Int.toNat_natCast]
    exact hi
  · intro p q s t hpq hs ht
    have hq : q < T.length := by
      have := (List.getElem?_eq_some_iff.mp ht).1
      rw [List.length_map] at this
      omega
    obtain ⟨i, hi, ei, fi⟩ := hget p (by omega)
    obtain ⟨j, hj, ej, fj⟩ := hget q hq
    rw [List.getElem?_map, fi] at hs
    rw [List.getElem?_map, fj] at ht
    simp only [Option.map_some, Int.toNat_natCast, Option.some.injEq] at hs ht
    subst hs ht
    exact (X.O.rk_iff hi hj).mp (by omega)

/-- The buffer of `W` bit cells returns what was stored. -/
theorem wrapCell_eq {W : Nat} (h1 : 1 ≤ W) (h64 : W ≤ 64) {v : Int} (hlo : -2 ^ (W - 1) ≤ v) (hhi : v < 2 ^ (W - 1)) : wrapCell W v = v := by
  have hp : (2 : Nat) ^ 64 = 2 ^ W * 2 ^ (64 - W) := by rw [← Nat.pow_add]; congr 1; omega
  have hw : (2 : Nat) ^ W = 2 * 2 ^ (W - 1) := by rw [← Nat.pow_succ']; congr 1; omega
  have hs0 : 0 < (2 : Nat) ^ (64 - W) := Nat.two_pow_pos _
  have hW0 : 0 < (2 : Nat) ^ W := Nat.two_pow_pos _
  generalize hy : (toUnsigned W v).toNat % 2 ^ W = y
  have hylt : y < 2 ^ W := by rw [← hy]; exact Nat.mod_lt _ hW0
  have hyv : (y : Int) = v % ((2 ^ W : Nat) : Int) := by
    rw [← hy]
    unfold toUnsigned
    rw [BitVec.toNat_ushiftRight, BitVec.toNat_shiftLeft, Nat.shiftRight_eq_div_pow, Nat.shiftLeft_eq, BitVec.toNat_ofInt, hp,
      Nat.mul_mod_mul_right, Nat.mul_div_cancel _ hs0, Nat.mod_mod]
    have h1 : ((v % ((2 ^ W * 2 ^ (64 - W) : Nat) : Int)).toNat : Int) = v % ((2 ^ W * 2 ^ (64 - W) : Nat) : Int) :=
      Int.toNat_of_nonneg (Int.emod_nonneg _ (by positivity))
    push_cast at h1 ⊢
    rw [h1]
    exact Int.emod_emod_of_dvd _ (Dvd.intro _ rfl)
  unfold wrapCell
  rw [hy]
  unfold toSigned
  rw [BitVec.toInt_sshiftRight, Int.shiftRight_eq_div_pow, BitVec.toInt_eq_toNat_cond, BitVec.toNat_shiftLeft, BitVec.toNat_ofNat]
  have hy64 : y < 2 ^ 64 := Nat.lt_of_lt_of_le hylt (Nat.pow_le_pow_right (by decide) h64)
  have hys : y * 2 ^ (64 - W) < 2 ^ 64 := by rw [hp]; exact Nat.mul_lt_mul_of_pos_right hylt hs0
  rw [Nat.mod_eq_of_lt hy64, Nat.shiftLeft_eq, Nat.mod_eq_of_lt hys]
  have hz : ((2 ^ (W - 1) : Nat) : Int) = 2 ^ (W - 1) := by push_cast; rfl
  rcases Int.lt_or_le v 0 with h | h
  · have hv : v = (y : Int) - ((2 ^ W : Nat) : Int) := by
      have h1 : (v + ((2 ^ W : Nat) : Int)) % ((2 ^ W : Nat) : Int) = v + ((2 ^ W : Nat) : Int) := Int.emod_eq_of_lt (by omega) (by omega)
      rw [Int.add_emod_right] at h1
      omega
    have hge : 2 ^ (W - 1) ≤ y := by omega
    rw [if_neg, hp]
    · push_cast
      rw [← Int.sub_mul, Int.mul_ediv_cancel _ (by positivity)]
      rw [hv]; push_cast; rfl
    · have h2 : 2 ^ (W - 1) * 2 ^ (64 - W) ≤ y * 2 ^ (64 - W) := Nat.mul_le_mul_right _ hge
      have h3 : (2 : Nat) ^ 64 = 2 * (2 ^ (W - 1) * 2 ^ (64 - W)) := by rw [hp, hw, Nat.mul_assoc]
      omega
  · have hv : v = (y : Int) := by
      rw [hyv, Int.emod_eq_of_lt h (by omega)]
    have hge : y < 2 ^ (W - 1) := by omega
    rw [if_pos]
    · push_cast
      rw [Int.mul_ediv_cancel _ (by positivity), hv]
    · have h2 : y * 2 ^ (64 - W) < 2 ^ (W - 1) * 2 ^ (64 - W) := Nat.mul_lt_mul_of_pos_right hge hs0
      have h3 : (2 : Nat) ^ 64 = 2 * (2 ^ (W - 1) * 2 ^ (64 - W)) := by rw [hp, hw, Nat.mul_assoc]
      omega

/-- **C65.** If the B* suffixes are sorted correctly, `divsufsort` makes the suffix array of the text, without any access outside the array or
the text, in a vector whose cells have one bit more than the length of the text needs (or more). -/
theorem divsufsort_sorts_partial (T : List UInt8) (mid : List Int) (W : Nat) (h64 : W ≤ 64) (hW : T.length < 2 ^ (W - 1)) (h : BStarsRanked T mid) :
    ∃ sa, DSS.divsufsort (wrapCell W) T mid = .ok sa ∧ (∀ v ∈ sa, 0 ≤ v) ∧ IsSA T (sa.map Int.toNat) := by
  have X := dss_txt (cell := wrapCell W) T (fun v h1 h2 => by
    have : ((T.length : Nat) : Int) < 2 ^ (W - 1) := by exact_mod_cast hW
    rcases Nat.eq_zero_or_pos W with h0 | h0
    · subst h0
      simp at this
      omega
    · exact wrapCell_eq h0 h64 (by omega) (by omega))
  match T, h, hW, X with
  | [], h, hW, X =>
    have : mid = [] := List.eq_nil_of_length_eq_zero h.length
    subst this
    exact ⟨[], rfl, by simp, rfl, by simp, by simp⟩
  | [a], h, hW, X =>
    match mid, h.length with
    | [v], _ =>
      exact ⟨[0], by
        unfold DSS.divsufsort sset
        rw [X.cell 0 (by simp) (by simp)]
        rfl, by simp, rfl, by simp, fun i j s t hij hs ht => by
        have := (List.getElem?_eq_some_iff.mp ht).1
        simp at this
        omega⟩
  | [a, b], h, hW, X =>
    obtain ⟨sa, e1, e2⟩ : ∃ sa, DSS.divsufsort (wrapCell W) [a, b] mid = .ok sa ∧
        (sa.length = 2 ∧ ∀ i, i < 2 → sa[rk 2 (dssLt [a, b]) i]? = some (i : Int)) := by
      match mid, h.length with
      | [v, w], _ =>
        have hc := X.O.compl (i := 0) (by simp)
        have hc1 := X.O.compl (i := 1) (by simp)
        have hr0 := X.O.rk_lt (i := 0) (by simp)
        have hr1 := X.O.rk_lt (i := 1) (by simp)
        have hstep := (X.O.step 0 1 (by simp) (by simp))
        have hirr : ¬ dssLt [a, b] 1 2 := by unfold dssLt; simp
        have hiff := X.O.rk_iff (i := 0) (j := 1) (by simp) (by simp)
        have hiff' := X.O.rk_iff (i := 1) (j := 0) (by simp) (by simp)
        have htot := X.O.tot 0 1 (by simp) (by simp)
        simp only [List.length_cons, List.length_nil, Nat.zero_add, Nat.reduceAdd] at hr0 hr1 hiff hiff'
        have hab : dssCh [a, b] 0 < dssCh [a, b] 1 ↔ a < b := by
          unfold dssCh; simp [UInt8.lt_iff_toNat_lt]
        by_cases hlt : a < b
        · refine ⟨[0, 1], ?_, rfl, ?_⟩
          · unfold DSS.divsufsort sset
            simp only [if_pos hlt]
            rw [X.cell 0 (by simp) (by simp), X.cell 1 (by simp) (by simp)]
            rfl
          · have h1 : rk 2 (dssLt [a, b]) 0 < rk 2 (dssLt [a, b]) 1 := hiff.mpr (hstep.mpr (Or.inl (hab.mpr hlt)))
            have h2 : rk 2 (dssLt [a, b]) 0 = 0 := by omega
            have h3 : rk 2 (dssLt [a, b]) 1 = 1 := by omega
            intro i hi
            obtain rfl | rfl : i = 0 ∨ i = 1 := by omega
            · rw [h2]; rfl
            · rw [h3]; rfl
        · refine ⟨[1, 0], ?_, rfl, ?_⟩
          · unfold DSS.divsufsort sset
            simp only [if_neg hlt]
            rw [X.cell 0 (by simp) (by simp), X.cell 1 (by simp) (by simp)]
            rfl
          · have h0 : ¬ dssLt [a, b] 0 1 := fun h => by
              rcases hstep.mp h with h | h
              · exact hlt (hab.mp h)
              · exact hirr h.2
            have h1 : rk 2 (dssLt [a, b]) 1 < rk 2 (dssLt [a, b]) 0 := hiff'.mpr (by
              rcases htot with h | h | h
              · exact absurd h h0
              · omega
              · exact h)
            have h2 : rk 2 (dssLt [a, b]) 0 = 1 := by omega
            have h3 : rk 2 (dssLt [a, b]) 1 = 0 := by omega
            intro i hi
            obtain rfl | rfl : i = 0 ∨ i = 1 := by omega
            · rw [h2]; rfl
            · rw [h3]; rfl
    exact ⟨sa, e1, isSA_of_rk e2.1 e2.2⟩
  | a :: b :: c :: T, h, hW, X =>
    obtain ⟨sa, e1, e2, e3⟩ := run_spec X (by simp) h.sorted
    exact ⟨sa, by rw [← e1]; rfl, isSA_of_rk e2 e3⟩

/-- The positions which the code hands to the sorting of the B* suffixes are those of the B* suffixes, in ascending order; there are at most half as
many of them as characters, so that the array has room for the ranks. -/
theorem divsufsort_bstars (T : List UInt8) : (DSS.countAll T).stars = bstars T ∧ 2 * (bstars T).length ≤ T.length := by
  rcases Nat.eq_zero_or_pos T.length with h0 | h0
  · have : T = [] := List.eq_nil_of_length_eq_zero h0
    subst this
    exact ⟨rfl, by simp [bstars]⟩
  · have C := countAll_spec (dss_txt (cell := id) T (fun _ _ _ => rfl)) h0
    have e : (DSS.countAll T).stars = bstars T := by
      refine List.Perm.eq_of_pairwise (le := (· < ·)) (fun a b _ _ h1 h2 => by omega) C.sorted (bstars_sorted T) ?_
      rw [List.perm_ext_iff_of_nodup (C.sorted.imp (fun h => by omega)) (bstars_nodup T)]
      intro x
      rw [C.mem, mem_bstars]
      simp
    refine ⟨e, ?_⟩
    rw [← e]
    by_cases hB : tB (dssLt T) 0
    · have := C.half.1 hB; omega
    · have := C.half.2 hB; omega

/-- Every text has an array as it is required. -/
theorem bstarsRanked_exists (T : List UInt8) : ∃ mid, BStarsRanked T mid := by
  have h2 := (divsufsort_bstars T).2
  refine ⟨List.replicate (bstars T).length 0 ++ (bstars T).map (fun x => ((bstars T).countP (fun y => decide (T.drop y < T.drop x)) : Int)) ++
    List.replicate (T.length - 2 * (bstars T).length) 0, ?_, ?_⟩
  · simp only [List.length_append, List.length_replicate, List.length_map]
    omega
  · intro j x hj
    have hjl := (List.getElem?_eq_some_iff.mp hj).1
    rw [List.append_assoc, List.getElem?_append_right (by simp), List.length_replicate, Nat.add_sub_cancel_left,
      List.getElem?_append_left (by simpa using hjl), List.getElem?_map, hj]
    rfl

/-- `divsufsort` can make the suffix array of every text. -/
example (T : List UInt8) (h31 : T.length < 2 ^ 31) : ∃ mid sa, DSS.divsufsort (wrapCell 32) T mid = .ok sa ∧ IsSA T (sa.map Int.toNat) := by
  obtain ⟨mid, h⟩ := bstarsRanked_exists T
  obtain ⟨sa, e1, -, e2⟩ := divsufsort_sorts_partial T mid 32 (by decide) h31 h
  exact ⟨mid, sa, e1, e2⟩

/-- Cells of 32 bits (`INDEX_FAST_BITS`) do not hold the positions of texts of `2^31` bytes or more. -/
theorem wrapCell_32 : wrapCell 32 (2 ^ 31) = -2 ^ 31 := by decide +kernel

/-- "mississippi": the B* suffixes are those at 1, 4 and 7; the ranks are 2, 1, 0. -/
example : bstars "mississippi".toUTF8.toList = [1, 4, 7] := by decide +kernel

example : BStarsRanked "mississippi".toUTF8.toList [9, 9, 9, 2, 1, 0, 9, 9, 9, 9, 9] := by
  have e : bstars "mississippi".toUTF8.toList = [1, 4, 7] := by decide +kernel
  refine ⟨by decide +kernel, ?_⟩
  rw [e]
  intro j x h
  match j, h with
  | 0, h => cases h; decide +kernel
  | 1, h => cases h; decide +kernel
  | 2, h => cases h; decide +kernel

end Tdc
