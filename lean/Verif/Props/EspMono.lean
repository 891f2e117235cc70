import Verif.Props.EspSorted
import Verif.Lemmas.EspMono
import Verif.Lemmas.EspOptimal2

/-!
# Properties C59 and C60: right-hand sides as monotone subsequences, and wavelet trees
-/

namespace Tdc
namespace Esp

/-! ## C60: the subsequences -/

/-- C60: the greedy strategy decomposes every permutation into monotone subsequences. -/
theorem subseq_greedy_decomposes {sis : List Nat} (hp : sis.Perm (List.range sis.length)) (hne : sis ≠ []) : ∃ dpi b, subseqGreedy sis = .ok (dpi, b) ∧ Decomp sis dpi b :=
  greedy_decomposes (sis.length + 1) sis hp hne (by omega)

/-- C60: the optimal strategy decomposes every permutation into monotone subsequences, each a longest one of what the earlier ones leave. -/
theorem subseq_optimal_longest {sis : List Nat} (hp : sis.Perm (List.range sis.length)) (hne : sis ≠ []) (hl : sis.length < 2 ^ 63) :
    ∃ dpi b, subseqOptimal sis = .ok (dpi, b) ∧ Decomp sis dpi b ∧ Longest sis dpi := optimal_ok hp hne hl

/-- The greedy strategy does not take longest subsequences: of 4 0 1 2 3 5 it takes 4 5 first, not 0 1 2 3 5. -/
theorem subseq_greedy_not_longest : ∃ dpi b, subseqGreedy [4, 0, 1, 2, 3, 5] = .ok (dpi, b) ∧ ¬ Longest [4, 0, 1, 2, 3, 5] dpi := by
  refine ⟨[0, 1, 1, 1, 1, 0], [false, false], by decide +kernel, ?_⟩
  intro h
  have := h 0 [1, 2, 3, 4, 5] (by decide) (by
    intro i hi
    simp only [List.mem_cons, List.not_mem_nil, or_false] at hi
    rcases hi with rfl | rfl | rfl | rfl | rfl
    · exact ⟨1, rfl, by decide⟩
    · exact ⟨1, rfl, by decide⟩
    · exact ⟨1, rfl, by decide⟩
    · exact ⟨1, rfl, by decide⟩
    · exact ⟨0, rfl, by decide⟩) (.inl (by decide))
  revert this
  decide

/-! ## C59: coding -/

/-- C59: the wavelet tree of a list is decoded to the list, whatever follows in the stream. -/
theorem wavelet_tree_roundtrip (w mx : Nat) (l : List Nat) (hmx : mx < 2 ^ 30) (h : ∀ x ∈ l, x ≤ mx) :
    ∃ bits, DWaveletTree.enc w mx l = .ok bits ∧ ∀ rest, DWaveletTree.dec w mx l.length (bits ++ rest) = .ok (l, rest) :=
  wt_roundtrip mx l hmx h w w mx

/-- C59: for every strategy that decomposes and every faithful coder of the names of subsequences, the coding by monotone subsequences is faithful. -/
theorem mono_subseq_faithful {N : Nat} {f : List Nat → Res (List Nat × List Bool)} {d : DCoder} (hf : Decomposes N f) (hd : d.SoundIdx N) (ht : d.TotalIdx N) (hN : N ≤ 2 ^ 60) :
    (DMonotonSubseq f d).Sound N ∧ (DMonotonSubseq f d).Total N := ⟨mono_sound hf hd hN, mono_total hf hd ht hN⟩

/-- C59: esp with any such coding is lossless. -/
theorem esp_mono_lossless {N : Nat} {f : List Nat → Res (List Nat × List Bool)} {d : DCoder} (hf : Decomposes N f) (hd : d.SoundIdx N) (ht : d.TotalIdx N) (hN : N ≤ 2 ^ 60)
    {iter : List ((Nat × Nat) × Nat) → List ((Nat × Nat) × Nat)} (hit : ∀ l, (iter l).Perm l) (text : List UInt8) (hn : text.length ≤ 2 ^ 32) (hn' : text.length ≤ N) (h1 : 1 ≤ N) :
    ∃ bytes, compressSorted (DMonotonSubseq f d) iter text = .ok bytes ∧ decompressSorted (DMonotonSubseq f d) bytes = .ok text :=
  esp_sorted_lossless (mono_sound hf hd hN).rhs (mono_total hf hd ht hN).rhs hit text hn hn' h1

/-- C59: subsequences by the greedy strategy, plain names. -/
theorem esp_mono_greedy_plain_lossless {iter : List ((Nat × Nat) × Nat) → List ((Nat × Nat) × Nat)} (hit : ∀ l, (iter l).Perm l) (text : List UInt8) (hn : text.length ≤ 2 ^ 32) :
    ∃ bytes, compressSorted (DMonotonSubseq subseqGreedy DPlain) iter text = .ok bytes ∧ decompressSorted (DMonotonSubseq subseqGreedy DPlain) bytes = .ok text :=
  esp_mono_lossless (greedy_decomposes (2 ^ 32)) (dplain_sound _).idx (dplain_total _).idx (by decide) hit text hn hn (by decide)

/-- C59: subsequences by the optimal strategy, plain names. -/
theorem esp_mono_optimal_plain_lossless {iter : List ((Nat × Nat) × Nat) → List ((Nat × Nat) × Nat)} (hit : ∀ l, (iter l).Perm l) (text : List UInt8) (hn : text.length ≤ 2 ^ 32) :
    ∃ bytes, compressSorted (DMonotonSubseq subseqOptimal DPlain) iter text = .ok bytes ∧ decompressSorted (DMonotonSubseq subseqOptimal DPlain) bytes = .ok text :=
  esp_mono_lossless (optimal_decomposes (2 ^ 32) (by decide)) (dplain_sound _).idx (dplain_total _).idx (by decide) hit text hn hn (by decide)

/-- C59: subsequences by the greedy strategy, names in a wavelet tree. -/
theorem esp_mono_greedy_wt_lossless {iter : List ((Nat × Nat) × Nat) → List ((Nat × Nat) × Nat)} (hit : ∀ l, (iter l).Perm l) (text : List UInt8) (hn : text.length ≤ 2 ^ 30) :
    ∃ bytes, compressSorted (DMonotonSubseq subseqGreedy DWaveletTree) iter text = .ok bytes ∧ decompressSorted (DMonotonSubseq subseqGreedy DWaveletTree) bytes = .ok text :=
  esp_mono_lossless (greedy_decomposes (2 ^ 30)) (wt_soundIdx (Nat.le_refl _)) (wt_totalIdx (Nat.le_refl _)) (by decide) hit text (Nat.le_trans hn (by decide)) hn (by decide)

/-- C59: subsequences by the optimal strategy, names in a wavelet tree. -/
theorem esp_mono_optimal_wt_lossless {iter : List ((Nat × Nat) × Nat) → List ((Nat × Nat) × Nat)} (hit : ∀ l, (iter l).Perm l) (text : List UInt8) (hn : text.length ≤ 2 ^ 30) :
    ∃ bytes, compressSorted (DMonotonSubseq subseqOptimal DWaveletTree) iter text = .ok bytes ∧ decompressSorted (DMonotonSubseq subseqOptimal DWaveletTree) bytes = .ok text :=
  esp_mono_lossless (optimal_decomposes (2 ^ 30) (by decide)) (wt_soundIdx (Nat.le_refl _)) (wt_totalIdx (Nat.le_refl _)) (by decide) hit text (Nat.le_trans hn (by decide)) hn (by decide)

/-! Witnesses -/

example : subseqOptimal [4, 0, 1, 2, 3, 5] = .ok ([1, 0, 0, 0, 0, 0], [false, false]) := by decide +kernel

example : subseqGreedy [3, 2, 4, 1, 0] = .ok ([1, 1, 0, 0, 0], [true, true]) := by decide +kernel

example : (DWaveletTree.enc 3 5 [5, 0, 3, 3, 1]).bind (DWaveletTree.dec 3 5 5) = .ok ([5, 0, 3, 3, 1], []) := by decide +kernel

example : (dsigma [1, 3, 2, 4, 0] [0, 0, 1, 0, 2]).bind (fun dsi => recoverD [0, 0, 1, 0, 2] dsi [false, false, false] [7, 7, 90, 255, 300]) = .ok [300, 7, 90, 7, 255] := by
  decide +kernel

/-- `List.mergeSort` does not evaluate in the kernel, so this run is an instance of the theorem. -/
example : ∃ bytes, compressSorted (DMonotonSubseq subseqOptimal DWaveletTree) id [98, 98, 97, 97, 97] = .ok bytes ∧
    decompressSorted (DMonotonSubseq subseqOptimal DWaveletTree) bytes = .ok [98, 98, 97, 97, 97] :=
  esp_mono_optimal_wt_lossless (iter := id) (fun l => List.Perm.refl l) _ (by decide)

end Esp
end Tdc
