import Verif.Model.Rank
import Verif.Lemmas.IntCodes
import Mathlib.Data.Nat.Bitwise
import Mathlib.Data.List.Range

/-!
# Lemmas for Rank
-/

namespace Tdc
namespace RS

/-- The number of positions below `m` satisfying `f`. -/
def cnt (f : Nat → Bool) (m : Nat) : Nat := (List.range m).countP f

@[simp] theorem cnt_zero (f) : cnt f 0 = 0 := rfl

theorem cnt_succ (f : Nat → Bool) (m : Nat) : cnt f (m + 1) = cnt f m + (if f m then 1 else 0) := by
  simp [cnt, List.range_succ, List.countP_append, List.countP_cons]

theorem cnt_add (f : Nat → Bool) (a b : Nat) : cnt f (a + b) = cnt f a + cnt (fun k => f (a + k)) b := by
  induction b with
  | zero => rfl
  | succ b ih => rw [← Nat.add_assoc, cnt_succ, cnt_succ, ih, Nat.add_assoc]

theorem cnt_congr {f g : Nat → Bool} {m : Nat} (h : ∀ k < m, f k = g k) : cnt f m = cnt g m := by
  induction m with
  | zero => rfl
  | succ m ih => rw [cnt_succ, cnt_succ, ih (fun k hk => h k (by omega)), h m (by omega)]

theorem cnt_le (f : Nat → Bool) (m : Nat) : cnt f m ≤ m := by
  induction m with
  | zero => simp
  | succ m ih => rw [cnt_succ]; split <;> omega

theorem cnt_mono (f : Nat → Bool) {a b : Nat} (h : a ≤ b) : cnt f a ≤ cnt f b := by
  obtain ⟨c, rfl⟩ := Nat.exists_eq_add_of_le h
  rw [cnt_add]; omega

theorem cnt_not (f : Nat → Bool) (m : Nat) : cnt (fun k => !f k) m = m - cnt f m := by
  have : cnt (fun k => !f k) m + cnt f m = m := by
    induction m with
    | zero => rfl
    | succ m ih => rw [cnt_succ, cnt_succ]; cases f m <;> simp <;> omega
  omega

theorem cnt_and_lt (f : Nat → Bool) (c N : Nat) (h : c ≤ N) : cnt (fun k => f k && decide (k < c)) N = cnt f c := by
  obtain ⟨d, rfl⟩ := Nat.exists_eq_add_of_le h
  rw [cnt_add]
  have h1 : cnt (fun k => f k && decide (k < c)) c = cnt f c := cnt_congr (fun k hk => by simp [hk])
  have h2 : cnt (fun k => f (c + k) && decide (c + k < c)) d = 0 := by
    rw [cnt_congr (g := fun _ => false) (fun k hk => by simp)]
    simp [cnt]
  omega

theorem cnt_and_ge (f : Nat → Bool) (l N : Nat) (h : l ≤ N) : cnt (fun k => f k && decide (l ≤ k)) N = cnt f N - cnt f l := by
  obtain ⟨d, rfl⟩ := Nat.exists_eq_add_of_le h
  rw [cnt_add, cnt_add]
  have h1 : cnt (fun k => f k && decide (l ≤ k)) l = 0 := by
    rw [cnt_congr (g := fun _ => false) (fun k hk => by simp [hk])]
    simp [cnt]
  have h2 : cnt (fun k => f (l + k) && decide (l ≤ l + k)) d = cnt (fun k => f (l + k)) d := cnt_congr (fun k hk => by simp)
  omega

theorem popcount_eq (v : Nat) : popcount v = cnt (fun k => v.testBit k) 64 := rfl

theorem mask_m (m : Nat) (h : m ≤ 63) : (2 ^ 64 - 1) >>> (63 - m) = 2 ^ (m + 1) - 1 := by
  apply Nat.eq_of_testBit_eq
  intro i
  rw [Nat.testBit_shiftRight, Nat.testBit_two_pow_sub_one, Nat.testBit_two_pow_sub_one]
  congr 1
  simp only [eq_iff_iff]
  omega

theorem rank1m_eq (v m : Nat) (h : m ≤ 63) : rank1m v m = cnt (fun k => v.testBit k) (m + 1) := by
  rw [rank1m, popcount_eq, mask_m m h, ← cnt_and_lt _ (m + 1) 64 (by omega)]
  apply cnt_congr
  intro k _
  rw [Nat.testBit_and, Nat.testBit_two_pow_sub_one]

theorem rank1lm_eq (v l : Nat) (h : l ≤ 63) : rank1lm v l 63 = cnt (fun k => v.testBit k) 64 - cnt (fun k => v.testBit k) l := by
  rw [rank1lm, popcount_eq, mask_m 63 (by omega), ← cnt_and_ge _ l 64 (by omega)]
  apply cnt_congr
  intro k hk
  rw [Nat.testBit_and, Nat.testBit_and, Nat.testBit_two_pow_sub_one, Nat.testBit_mod_two_pow, Nat.testBit_shiftLeft,
    Nat.testBit_two_pow_sub_one]
  by_cases hl : l ≤ k
  · simp [hl, hk, show k - l < 64 by omega, show k < 63 + 1 by omega]
  · simp [hl]

/-- The bit at position `i` of the words of a bit vector. -/
def bitAt (data : List Nat) (i : Nat) : Bool := (data.getD (i / 64) 0).testBit (i % 64)

theorem bitAt_word (data : List Nat) (j k : Nat) (v : Nat) (hv : data[j]? = some v) (hk : k < 64) : bitAt data (64 * j + k) = v.testBit k := by
  rw [bitAt, show (64 * j + k) / 64 = j by omega, show (64 * j + k) % 64 = k by omega, List.getD_eq_getElem?_getD, hv]
  rfl

theorem cnt_word (data : List Nat) (j : Nat) (v : Nat) (hv : data[j]? = some v) (m : Nat) (hm : m ≤ 64) :
    cnt (bitAt data) (64 * j + m) = cnt (bitAt data) (64 * j) + cnt (fun k => v.testBit k) m := by
  rw [cnt_add]
  congr 1
  exact cnt_congr (fun k hk => bitAt_word data j k v hv (by omega))

theorem bitsFor_sup : bitsFor supSize = 13 := by decide +kernel

/-- The invariant of the construction after `j` blocks. -/
structure RankInv (data : List Nat) (nb ns : Nat) (s : RankSt) (j : Nat) : Prop where
  blen : s.blocks.length = nb
  slen : s.sups.length = ns
  bv : s.rankBv = cnt (bitAt data) (64 * j)
  cur : s.curSb = (j - 1) / 64
  sb : s.rankSb = cnt (bitAt data) (64 * j) - cnt (bitAt data) (4096 * ((j - 1) / 64))
  blk : ∀ j' < j, s.blocks[j']? = some (cnt (bitAt data) (64 * (j' + 1)) - cnt (bitAt data) (4096 * (j' / 64)))
  sup : ∀ i < (j - 1) / 64, s.sups[i]? = some (cnt (bitAt data) (4096 * (i + 1)))

theorem wr_ok {v : List Nat} {i x : Nat} (h : i < v.length) : wr v i x = .ok (v.set i x) := by rw [wr, if_pos h]

theorem rd_ok {v : List Nat} {i x : Nat} (h : v[i]? = some x) : rd v i = .ok x := by rw [rd, h]

theorem rankStep_inv (data : List Nat) (n nb ns j : Nat) (hn : n < 2 ^ 64) (s : RankSt) (hs : RankInv data nb ns s j) (hj : j < nb)
    (hd : j < data.length) (hjn : 64 * j < n) (hns : (j - 1) / 64 < j / 64 → (j - 1) / 64 < ns) :
    ∃ s', rankStep data (bitsFor n) s j = .ok s' ∧ RankInv data nb ns s' (j + 1) := by
  obtain ⟨v, hv⟩ : ∃ v, data[j]? = some v := ⟨_, List.getElem?_eq_getElem hd⟩
  have hw := cnt_word data j v hv 64 (le_refl _)
  rw [← popcount_eq] at hw
  have hmono := cnt_mono (bitAt data) (show 4096 * (j / 64) ≤ 64 * j by omega)
  have hsmall : cnt (bitAt data) (64 * j) - cnt (bitAt data) (4096 * (j / 64)) + popcount v ≤ 4096 := by
    have h1 := cnt_add (bitAt data) (4096 * (j / 64)) (64 * (j + 1) - 4096 * (j / 64))
    have h2 := cnt_le (fun k => bitAt data (4096 * (j / 64) + k)) (64 * (j + 1) - 4096 * (j / 64))
    rw [show 4096 * (j / 64) + (64 * (j + 1) - 4096 * (j / 64)) = 64 * j + 64 by omega] at h1
    omega
  have hb13 : bitsFor supSize = 13 := bitsFor_sup
  -- the state after the possible change of superblock
  obtain ⟨s₁, hs₁, e1, e2, e3, e4, e5, e6⟩ : ∃ s₁ : RankSt, (if s.curSb < j / (supSize / blockSize) then do
      let sups ← wr s.sups s.curSb (s.rankBv % 2 ^ bitsFor n)
      pure { s with sups := sups, rankSb := 0, curSb := j / (supSize / blockSize) }
    else pure s : Res RankSt) = .ok s₁ ∧ s₁.blocks = s.blocks ∧ s₁.sups.length = ns ∧ s₁.rankBv = s.rankBv ∧ s₁.curSb = j / 64 ∧
      s₁.rankSb = cnt (bitAt data) (64 * j) - cnt (bitAt data) (4096 * (j / 64)) ∧
      ∀ i < j / 64, s₁.sups[i]? = some (cnt (bitAt data) (4096 * (i + 1))) := by
    rw [show supSize / blockSize = 64 by rfl, hs.cur]
    by_cases hlt : (j - 1) / 64 < j / 64
    · rw [if_pos hlt, wr_ok (by rw [hs.slen]; exact hns hlt)]
      refine ⟨_, rfl, rfl, by simpa using hs.slen, rfl, rfl, ?_, ?_⟩
      · show 0 = _
        rw [show 4096 * (j / 64) = 64 * j by omega]; omega
      · intro i hi
        show (s.sups.set ((j - 1) / 64) (s.rankBv % 2 ^ bitsFor n))[i]? = _
        rw [List.getElem?_set]
        by_cases hii : (j - 1) / 64 = i
        · rw [if_pos hii, if_pos (by rw [hs.slen]; exact hii ▸ hns hlt), hs.bv, Nat.mod_eq_of_lt]
          · rw [show 64 * j = 4096 * (i + 1) by omega]
          · have := cnt_le (bitAt data) (64 * j)
            have := lt_two_pow_bitsFor n hn
            omega
        · rw [if_neg hii]
          exact hs.sup i (by omega)
    · rw [if_neg hlt]
      have heq : (j - 1) / 64 = j / 64 := by omega
      exact ⟨s, rfl, rfl, hs.slen, rfl, by rw [hs.cur, heq], by rw [hs.sb, heq], fun i hi => hs.sup i (by omega)⟩
  refine ⟨{ s₁ with blocks := s.blocks.set j (s₁.rankSb + popcount v), rankSb := s₁.rankSb + popcount v, rankBv := s₁.rankBv + popcount v }, ?_, ?_⟩
  · unfold rankStep
    simp only [hs₁]
    show (do
      let v ← rd data j
      let blocks ← wr s₁.blocks j ((s₁.rankSb + popcount v) % 2 ^ bitsFor supSize)
      pure { s₁ with blocks := blocks, rankSb := s₁.rankSb + popcount v, rankBv := s₁.rankBv + popcount v } : Res RankSt) = _
    rw [rd_ok hv]
    show (do
      let blocks ← wr s₁.blocks j ((s₁.rankSb + popcount v) % 2 ^ bitsFor supSize)
      pure { s₁ with blocks := blocks, rankSb := s₁.rankSb + popcount v, rankBv := s₁.rankBv + popcount v } : Res RankSt) = _
    rw [e1, wr_ok (by rw [hs.blen]; exact hj), hb13, Nat.mod_eq_of_lt (by rw [e5]; omega)]
    rfl
  · have hjj : (j + 1 - 1) / 64 = j / 64 := by omega
    constructor
    · simpa using hs.blen
    · exact e2
    · show s₁.rankBv + popcount v = _
      rw [e3, hs.bv, show 64 * (j + 1) = 64 * j + 64 by omega, hw]
    · show s₁.curSb = _
      rw [e4, hjj]
    · show s₁.rankSb + popcount v = _
      rw [e5, show 64 * (j + 1) = 64 * j + 64 by omega, hw, hjj]
      omega
    · intro j' hj'
      show (s.blocks.set j (s₁.rankSb + popcount v))[j']? = _
      rw [List.getElem?_set]
      by_cases h : j = j'
      · subst h
        rw [if_pos rfl, if_pos (by rw [hs.blen]; exact hj), e5, show 64 * (j + 1) = 64 * j + 64 by omega, hw]
        congr 1; omega
      · rw [if_neg h]; exact hs.blk j' (by omega)
    · intro i hi
      rw [hjj] at hi
      exact e6 i hi

/-- A well-formed bit vector: as many 64 bit words as its size needs (`BitPackingVector`), and a size below `2^64`. -/
structure BV.WF (bv : BV) : Prop where
  len : bv.data.length = idivCeil bv.n 64
  words : ∀ v ∈ bv.data, v < 2 ^ 64
  size : bv.n < 2 ^ 64

theorem idivCeil64 (n : Nat) : idivCeil n 64 = (n + 63) / 64 := by
  unfold idivCeil; split <;> omega

theorem idivCeil4096 (n : Nat) : idivCeil n 4096 = (n + 4095) / 4096 := by
  unfold idivCeil; split <;> omega

theorem build_inv (bv : BV) (h : bv.WF) (m : Nat) (hm : m ≤ idivCeil bv.n 64) :
    ∃ s, (List.range m).foldlM (rankStep bv.data (bitsFor bv.n))
      { blocks := List.replicate (idivCeil bv.n 64) 0, sups := List.replicate (idivCeil bv.n 4096) 0, rankBv := 0, rankSb := 0, curSb := 0 } = .ok s ∧
      RankInv bv.data (idivCeil bv.n 64) (idivCeil bv.n 4096) s m := by
  induction m with
  | zero => exact ⟨_, rfl, by simp, by simp, by simp, rfl, by simp, by simp, by simp⟩
  | succ m ih =>
    obtain ⟨s, h1, h2⟩ := ih (by omega)
    rw [idivCeil64] at hm
    obtain ⟨s', h3, h4⟩ := rankStep_inv bv.data bv.n _ _ m h.size s h2 (by rw [idivCeil64]; omega) (by rw [h.len, idivCeil64]; omega) (by omega)
      (by intro hlt; rw [idivCeil4096]; omega)
    refine ⟨s', ?_, h4⟩
    rw [List.range_succ, List.foldlM_append, h1]
    show (List.foldlM (m := Except Fault) (rankStep bv.data (bitsFor bv.n)) s [m]) = _
    simp only [List.foldlM_cons, List.foldlM_nil, h3]
    rfl

theorem rank1_correct (bv : BV) (h : bv.WF) : ∃ R, Rank.build bv = .ok R ∧ ∀ x < bv.n, R.rank1 x = .ok (cnt (bitAt bv.data) (x + 1)) := by
  obtain ⟨s, h1, h2⟩ := build_inv bv h _ (le_refl _)
  refine ⟨{ bv := bv, blocks := s.blocks, sups := s.sups }, ?_, fun x hx => ?_⟩
  · unfold Rank.build
    simp only [show supSize = 4096 by rfl, show blockSize = 64 by rfl, h1]
    rfl
  · have hjl : x / 64 < idivCeil bv.n 64 := by rw [idivCeil64]; omega
    obtain ⟨v, hv⟩ : ∃ v, bv.data[x / 64]? = some v := ⟨_, List.getElem?_eq_getElem (by rw [h.len]; exact hjl)⟩
    have e1 : (if x / supSize > 0 then rd s.sups (x / supSize - 1) else pure 0 : Res Nat) = .ok (cnt (bitAt bv.data) (4096 * (x / 4096))) := by
      rw [show supSize = 4096 by rfl]
      by_cases hi : x / 4096 > 0
      · rw [if_pos hi, rd_ok (h2.sup (x / 4096 - 1) (by rw [idivCeil64]; omega)), show x / 4096 - 1 + 1 = x / 4096 by omega]
      · rw [if_neg hi, show x / 4096 = 0 by omega]; rfl
    have e2 : (if x / blockSize - x / supSize * (supSize / blockSize) > 0 then rd s.blocks (x / blockSize - 1) else pure 0 : Res Nat) =
        .ok (cnt (bitAt bv.data) (64 * (x / 64)) - cnt (bitAt bv.data) (4096 * (x / 4096))) := by
      rw [show supSize = 4096 by rfl, show blockSize = 64 by rfl, show 4096 / 64 = 64 by rfl]
      by_cases hk : x / 64 - x / 4096 * 64 > 0
      · rw [if_pos hk, rd_ok (h2.blk (x / 64 - 1) (by omega)), show x / 64 - 1 + 1 = x / 64 by omega,
          show (x / 64 - 1) / 64 = x / 4096 by omega]
      · rw [if_neg hk, show 64 * (x / 64) = 4096 * (x / 4096) by omega, Nat.sub_self]; rfl
    have e3 := cnt_word bv.data (x / 64) v hv (x % 64 + 1) (by omega)
    have e4 := rank1m_eq v (x % 64) (by omega)
    have e5 := cnt_mono (bitAt bv.data) (show 4096 * (x / 4096) ≤ 64 * (x / 64) by omega)
    unfold Rank.rank1
    simp only [e1, e2]
    show (do
      let v ← rd bv.data (x / blockSize)
      pure (_ + _ + rank1m v (x % blockSize)) : Res Nat) = _
    rw [show blockSize = 64 by rfl, rd_ok hv]
    show Except.ok _ = _
    rw [e4]
    congr 1
    rw [show x + 1 = 64 * (x / 64) + (x % 64 + 1) by omega, e3]
    omega

end RS
end Tdc
