import Verif.Lemmas.DivSufSortSort
import Verif.Model.DivSufSortSwap

/-!
# C65: suffix sorting, from an arbitrary buffer

`util/divsufsort.hpp` and the sorting of substrings in `util/divsufsort/divsufsort_ssort.hpp` except for `ss_swapmerge`, which merges blocks of 1024 substrings.
What is left, `ss_swapmerge` and `trsort`, are parameters with contracts.
-/

namespace Tdc

open DSS

theorem wrapCell_range (T : List UInt8) {W : Nat} (h64 : W ≤ 64) (hW : T.length < 2 ^ (W - 1)) : ∀ v : Int, -T.length ≤ v → v < T.length → wrapCell W v = v := by
  intro v h1 h2
  have : ((T.length : Nat) : Int) < 2 ^ (W - 1) := by exact_mod_cast hW
  rcases Nat.eq_zero_or_pos W with h0 | h0
  · subst h0
    simp at this
    omega
  · exact wrapCell_eq h0 h64 (by omega) (by omega)

/-- `divsufsort` with the whole preparation of the ranks: if `sssort` and `trsort` do what their contracts say, the result is the suffix array. -/
theorem divsufsort_contracts_partial (T : List UInt8) (SA : List Int) (W : Nat) (h64 : W ≤ 64) (hW : T.length < 2 ^ (W - 1)) (hl : SA.length = T.length)
    (sss : SubSort) (hsss : SubSortOk T sss) (trs : RankSort) (htrs : RankSortOk (bstars T).length trs) :
    ∃ sa, divsufsortFull (wrapCell W) sss trs T SA = .ok sa ∧ (∀ v ∈ sa, 0 ≤ v) ∧ IsSA T (sa.map Int.toNat) := by
  have hcell := wrapCell_range T h64 hW
  unfold divsufsortFull
  by_cases h2 : T.length ≤ 2
  · rw [if_pos h2]
    obtain ⟨mid, hmid⟩ := bstarsRanked_exists T
    have e : divsufsort (wrapCell W) T SA = divsufsort (wrapCell W) T mid := by
      have h3 := hmid.length
      match T, SA, mid, hl, h3, h2 with
      | [], [], [], _, _, _ => rfl
      | [_], [_], [_], _, _, _ => rfl
      | [a, b], [_, _], [_, _], _, _, _ =>
        unfold divsufsort sset
        by_cases hab : a < b
        · simp only [if_pos hab]
          rfl
        · simp only [if_neg hab]
          rfl
    rw [e]
    exact divsufsort_sorts_partial T mid W h64 hW hmid
  · rw [if_neg h2]
    obtain ⟨mid, h3, h4⟩ := sortStars_spec hcell hsss htrs hl
    rw [h3, DSS.bind_ok]
    exact divsufsort_sorts_partial T mid W h64 hW h4

/-- **C65.** For every text and every content of the buffer: if `trsort` and `ss_swapmerge` do what their contracts say, `divsufsort` makes the suffix array of
the text, without any access outside the array or the text. -/
theorem divsufsort_full_partial (T : List UInt8) (SA : List Int) (W : Nat) (h64 : W ≤ 64) (hW : T.length < 2 ^ (W - 1)) (hl : SA.length = T.length)
    (sm : SwapMerge) (hsm : SwapMergeOk T sm) (trs : RankSort) (htrs : RankSortOk (bstars T).length trs) :
    ∃ sa, divsufsortFull (wrapCell W) (sssort (wrapCell W) sm T T.length (bstars T).length) trs T SA = .ok sa ∧ (∀ v ∈ sa, 0 ≤ v) ∧ IsSA T (sa.map Int.toNat) := by
  exact divsufsort_contracts_partial T SA W h64 hW hl _ (sssort_spec (wrapCell_range T h64 hW) hsm) trs htrs

/-! ### The contracts can be met -/

/-- a slow merge (not in the code): removes the marks, and sorts again -/
def smRef (cell : Int → Int) (T : List UInt8) : SwapMerge := fun B first _ last _ _ =>
  ssInsertionsort cell T ((T.length : Int) - (bstars T).length) 2 first last (B.take first ++ ((B.drop first).take (last - first)).map unmark ++ B.drop last)

theorem smRef_ok {cell : Int → Int} {T : List UInt8} (hcell : ∀ v : Int, -T.length ≤ v → v < T.length → cell v = v) : SwapMergeOk T (smRef cell T) := by
  intro B first buf bufsize L R hl hp hmem htwo sL sR nL nR hm h0 hbuf mL mR
  have h2m := (divsufsort_bstars T).2
  have hlen : (L ++ R).length = L.length + R.length := List.length_append
  have eB : ∀ p : Nat, (B.take first ++ ((B.drop first).take (first + L.length + R.length - first)).map unmark ++ B.drop (first + L.length + R.length))[p]? =
      if first ≤ p ∧ p < first + L.length + R.length then B[p]?.map unmark else B[p]? := by
    intro p
    have l1 : (B.take first).length = first := by rw [List.length_take]; omega
    have l2 : (((B.drop first).take (first + L.length + R.length - first)).map unmark).length = L.length + R.length := by
      rw [List.length_map, List.length_take, List.length_drop]; omega
    by_cases h1 : p < first
    · rw [if_neg (by omega), List.append_assoc, List.getElem?_append_left (by omega), List.getElem?_take_of_lt h1]
    · by_cases h2 : p < first + L.length + R.length
      · rw [if_pos (by omega), List.getElem?_append_left (by rw [List.length_append]; omega), List.getElem?_append_right (by omega), l1, List.getElem?_map, List.getElem?_take_of_lt (by omega),
          List.getElem?_drop]
        congr 2
        omega
      · rw [if_neg (by omega), List.getElem?_append_right (by rw [List.length_append]; omega), List.length_append, l1, l2, List.getElem?_drop]
        congr 1
        omega
  have hin : ∀ (k x : Nat), (L ++ R)[k]? = some x →
      (B.take first ++ ((B.drop first).take (first + L.length + R.length - first)).map unmark ++ B.drop (first + L.length + R.length))[first + k]? = some (x : Int) := by
    intro k x hk
    have hkl := (List.getElem?_eq_some_iff.mp hk).1
    rw [eB, if_pos (by omega)]
    by_cases h1 : k < L.length
    · obtain ⟨v, hv⟩ : ∃ v, marked T L k = some v := ⟨_, marked_eq h1⟩
      rw [mL k h1, hv, Option.map_some, unmark_marked h1 hv]
      rw [List.getElem?_append_left h1, List.getElem?_eq_getElem h1, Option.some.injEq] at hk
      rw [hk]
    · have h2 : k - L.length < R.length := by omega
      obtain ⟨v, hv⟩ : ∃ v, marked T R (k - L.length) = some v := ⟨_, marked_eq h2⟩
      have := mR (k - L.length) h2
      have e : first + L.length + (k - L.length) = first + k := by omega
      rw [e] at this
      rw [this, hv, Option.map_some, unmark_marked h2 hv]
      rw [List.getElem?_append_right (by omega), List.getElem?_eq_getElem h2, Option.some.injEq] at hk
      rw [hk]
  obtain ⟨B', js, g1, g2, g3, g4, g5, g6⟩ := ssInsertionsort_spec hcell (first := first) (is := L ++ R)
    (B0 := B.take first ++ ((B.drop first).take (first + L.length + R.length - first)).map unmark ++ B.drop (first + L.length + R.length)) (by omega)
    (by simp only [List.length_append, List.length_take, List.length_map, List.length_drop]; omega) hmem (depth := 2)
    (fun x hx y hy => sameTo_two (by have := hmem x hx; omega) (by have := hmem y hy; omega) (htwo x hx y hy))
    (fun x hx => by rw [eB, if_neg (by omega)]; exact hp x _ (bst_get hx)) (by omega) hin
  rw [hlen, ← Nat.add_assoc, Nat.cast_ofNat] at g1
  have ho : ∀ p : Nat, p < first ∨ first + L.length + R.length ≤ p → B'[p]? = B[p]? := fun p h => by
    rw [g6 p (by omega), eB, if_neg (by omega)]
  refine ⟨B', js, g1, ?_, g3, g4, g5, fun p h _ => ho p h, fun h => ?_⟩
  · rw [g2]
    simp only [List.length_append, List.length_take, List.length_map, List.length_drop]
    omega
  · have : (B'.drop buf).take bufsize = (B.drop buf).take bufsize := by
      refine List.ext_getElem? (fun k => ?_)
      by_cases hk : k < bufsize
      · rw [List.getElem?_take_of_lt hk, List.getElem?_take_of_lt hk, List.getElem?_drop, List.getElem?_drop, ho _ (by omega)]
      · rw [List.getElem?_eq_none (by rw [List.length_take]; omega), List.getElem?_eq_none (by rw [List.length_take]; omega)]
    rw [this]

/-- If there is only one block, `ss_swapmerge` is not called. -/
theorem ssMain_block {cell : Int → Int} {T : List UInt8} {PA : Int} {sm sm' : SwapMerge} {f middle l buf bufsize : Nat} (B : List Int) (h : middle - f ≤ 1024) :
    ssMain cell sm T PA f middle l buf bufsize B = ssMain cell sm' T PA f middle l buf bufsize B := by
  unfold ssMain ssBlocks
  rw [if_neg (by omega), if_neg (by omega)]
  rfl

theorem sssort_block {cell : Int → Int} {T : List UInt8} {sm sm' : SwapMerge} (B : List Int) {first last : Nat} (ls : Bool) (h : last - first ≤ 1024) :
    sssort cell sm T T.length (bstars T).length B first last ls = sssort cell sm' T T.length (bstars T).length B first last ls := by
  have e : ∀ f' : Nat, last - f' ≤ 1024 → ∀ buf bufsize, ssRange cell sm T ((T.length : Int) - (bstars T).length) f' last buf bufsize B =
      ssRange cell sm' T ((T.length : Int) - (bstars T).length) f' last buf bufsize B := fun f' hf buf bufsize => by
    unfold ssRange
    dsimp only
    rw [ssMain_block (sm := sm) (sm' := sm') B (by omega), ssMain_block (sm := sm) (sm' := sm') B (by omega)]
  unfold sssort
  dsimp only
  rw [Int.toNat_natCast, e _ (by split_ifs <;> omega)]

/-- **C65** for texts with at most 1024 B* suffixes: only `trsort` is left as a parameter; what `ss_swapmerge` does not matter. -/
theorem divsufsort_blocks_partial (T : List UInt8) (SA : List Int) (W : Nat) (h64 : W ≤ 64) (hW : T.length < 2 ^ (W - 1)) (hl : SA.length = T.length)
    (h1024 : (bstars T).length ≤ 1024) (sm : SwapMerge) (trs : RankSort) (htrs : RankSortOk (bstars T).length trs) :
    ∃ sa, divsufsortFull (wrapCell W) (sssort (wrapCell W) sm T T.length (bstars T).length) trs T SA = .ok sa ∧ (∀ v ∈ sa, 0 ≤ v) ∧ IsSA T (sa.map Int.toNat) := by
  refine divsufsort_contracts_partial T SA W h64 hW hl _ (fun B first is h1 h2 h3 h4 h5 h6 h7 h8 h9 => ?_) trs htrs
  obtain ⟨SA', js, e, r⟩ := sssort_spec (wrapCell_range T h64 hW) (smRef_ok (wrapCell_range T h64 hW)) B first is h1 h2 h3 h4 h5 h6 h7 h8 h9
  exact ⟨SA', js, by rw [sssort_block (sm' := smRef (wrapCell W) T) B _ (by omega)]; exact e, r⟩

/-- **C65** with the code's own `ss_swapmerge`: what is missing is the proof that it does what its contract says, and `trsort`. -/
theorem divsufsort_swapmerge_partial (T : List UInt8) (SA : List Int) (W : Nat) (h64 : W ≤ 64) (hW : T.length < 2 ^ (W - 1)) (hl : SA.length = T.length)
    (hsm : SwapMergeOk T (ssSwapmerge (wrapCell W) T ((T.length : Int) - (bstars T).length))) (trs : RankSort) (htrs : RankSortOk (bstars T).length trs) :
    ∃ sa, divsufsortFull (wrapCell W) (sssort (wrapCell W) (ssSwapmerge (wrapCell W) T ((T.length : Int) - (bstars T).length)) T T.length (bstars T).length) trs T SA = .ok sa ∧
      (∀ v ∈ sa, 0 ≤ v) ∧ IsSA T (sa.map Int.toNat) :=
  divsufsort_full_partial T SA W h64 hW hl _ hsm trs htrs

/-- "acacacacaccdd" has five B* suffixes. -/
example : (bstars "acacacacaccdd".toUTF8.toList).length = 5 := by decide +kernel

/-- a slow `trsort` (not in the code) -/
def trRef (m : Nat) : RankSort := fun SA =>
  let r := fun j => (SA.getD (m + j) 0).toNat
  .ok (SA.take m ++ (List.range m).map (fun j => (((List.range m).countP fun i => decide (tailSeq r m i < tailSeq r m j) : Nat) : Int)) ++ SA.drop (2 * m))

theorem tailSeq_congr {r r' : Nat → Nat} {m : Nat} (h : ∀ j, j < m → r j = r' j) (j : Nat) : tailSeq r m j = tailSeq r' m j := by
  unfold tailSeq
  refine List.map_congr_left (fun x hx => ?_)
  rw [List.mem_range'_1] at hx
  exact h x (by omega)

theorem trRef_ok (m : Nat) : RankSortOk m (trRef m) := by
  intro SA r h2 I
  have hr : ∀ j, j < m → (SA.getD (m + j) 0).toNat = r j := fun j hj => by
    rw [List.getD_eq_getElem?_getD, I.ranks j hj]
    rfl
  refine ⟨_, rfl, ?_, fun j hj => ?_⟩
  · simp only [List.length_append, List.length_take, List.length_map, List.length_range, List.length_drop]
    omega
  · rw [List.append_assoc, List.getElem?_append_right (by rw [List.length_take]; omega), List.length_take, Nat.min_eq_left (by omega), Nat.add_sub_cancel_left,
      List.getElem?_append_left (by simpa using hj), List.getElem?_map, List.getElem?_range hj]
    simp only [Option.map_some, Option.some.injEq]
    congr 1
    refine List.countP_congr (fun i _ => ?_)
    rw [tailSeq_congr hr i, tailSeq_congr hr j]

/-- Every text has sorting procedures as they are required: a slow merge and a slow `trsort`. -/
example (T : List UInt8) (SA : List Int) (h31 : T.length < 2 ^ 31) (hl : SA.length = T.length) : ∃ sa,
    divsufsortFull (wrapCell 32) (sssort (wrapCell 32) (smRef (wrapCell 32) T) T T.length (bstars T).length) (trRef (bstars T).length) T SA = .ok sa ∧ IsSA T (sa.map Int.toNat) := by
  obtain ⟨sa, e1, -, e2⟩ := divsufsort_full_partial T SA 32 (by decide) h31 hl _ (smRef_ok (wrapCell_range T (W := 32) (by decide) h31)) _ (trRef_ok _)
  exact ⟨sa, e1, e2⟩

/-- "acacacadaccc", run: the B* suffixes number 0, 1, 2 and 4 make one bucket. Sorted: `acac` twice (the second time marked), `acad`, and the last one, `accc`. -/
example : bstars "acacacadaccc".toUTF8.toList = [0, 2, 4, 6, 8] ∧
    sssort (wrapCell 32) (fun _ _ _ _ _ _ => .error .ub) "acacacadaccc".toUTF8.toList 12 5 [4, 0, 1, 2, 3, 77, 77, 0, 2, 4, 6, 8] 0 4 true =
      .ok [0, -2, 2, 4, 3, 77, 77, 0, 2, 4, 6, 8] := by decide +kernel

/-- Ten B* substrings of one bucket go through the rounds of `ss_mintrosort`: `acab` four times, `acad` four times, `acae` twice. -/
example :
    let T := "acaeacadacabacadacabacadacabacadacaeacabacazzzzzz".toUTF8.toList
    sssort (wrapCell 32) (fun _ _ _ _ _ _ => .error .ub) T T.length (bstars T).length
      ((List.range' 0 10).map (fun i => ((2 * i : Nat) : Int)) ++ List.replicate 17 77 ++ (bstars T).map (fun x => (x : Int))) 0 10 false =
    .ok ([8, -19, -13, -5, 10, -3, -7, -15, 16, -1] ++ List.replicate 17 77 ++ (bstars T).map (fun x => (x : Int))) := by decide +kernel

/-- Rotation in place, and a merge in place: `acab` twice, `acad`, `acae` with `acab`, `acad` twice, `acae`. -/
example : ssRotate (wrapCell 32) 9 1 3 8 [9, 1, 2, 3, 4, 5, 6, 7, 9] = .ok [9, 3, 4, 5, 6, 7, 1, 2, 9] ∧ ssRotate (wrapCell 32) 9 1 5 8 [9, 1, 2, 3, 4, 5, 6, 7, 9] = .ok [9, 5, 6, 7, 1, 2, 3, 4, 9] ∧
    (let T := "acaeacadacabacadacabacadacabacadacaeacabacazzzzzz".toUTF8.toList
    ssInplacemerge (wrapCell 32) T (T.length - (bstars T).length : Nat) 2 6 0 4 8 ([8, -19, 2, 0, 12, 6, -15, 16] ++ List.replicate 19 77 ++ (bstars T).map (fun (x : Nat) => (x : Int))) =
      .ok ([12, -9, -19, 6, -15, -3, 16, -1] ++ List.replicate 19 77 ++ (bstars T).map (fun (x : Nat) => (x : Int)))) := by decide +kernel

/-- Two blocks merged with a buffer: backward with a large one, by halves and forward with one cell, forward with three cells, the buffer among the numbers. -/
example :
    let T := "acaeacadacabacadacabacadacabacadacaeacabacazzzzzz".toUTF8.toList
    let P := (bstars T).map (fun (x : Nat) => (x : Int))
    ssSwapmerge (wrapCell 32) T (T.length - (bstars T).length : Nat) ([8, -19, 2, 0, 12, 6, -15, 16] ++ List.replicate 19 77 ++ P) 0 4 8 22 5 =
        .ok ([8, -19, -13, 2, -7, -15, 0, -17] ++ List.replicate 19 77 ++ P) ∧
      ssSwapmerge (wrapCell 32) T (T.length - (bstars T).length : Nat) ([8, -19, 2, 0, 12, 6, -15, 16] ++ List.replicate 19 77 ++ P) 0 4 8 22 1 =
        .ok ([8, -19, -13, 2, -7, -15, 0, -17] ++ List.replicate 19 77 ++ P) ∧
      ssSwapmerge (wrapCell 32) T (T.length - (bstars T).length : Nat) ([8, 2, 0, 12, 6, -15, 16, 4, 10] ++ List.replicate 18 77 ++ P) 0 3 7 7 2 =
        .ok ([8, -13, 2, -7, -15, 0, -17, 4, 10] ++ List.replicate 18 77 ++ P) ∧
      ssSwapmerge (wrapCell 32) T (T.length - (bstars T).length : Nat) ([8, 2, 0, 12, 6, -15, 16, 4, 10, 14] ++ List.replicate 17 77 ++ P) 0 3 7 7 3 =
        .ok ([8, -13, 2, -7, -15, 0, -17, 10, 14, 4] ++ List.replicate 17 77 ++ P) := by decide +kernel

end Tdc
