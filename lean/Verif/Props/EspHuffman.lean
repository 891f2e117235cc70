import Verif.Props.EspMono
import Verif.Lemmas.EspHuffman
import Verif.Props.Huffman

/-!
# Property C61: right-hand sides with a Huffman code

`StdLib` stands for any conforming implementation of the C++ heap and sort algorithms.
-/

namespace Tdc
namespace Esp

open Huff

/-- C61: for fewer than 2^44 values (of 64 bits, but not 2^64 - 1: the array of counts could not be that long) encoding succeeds, and decoding gives the values back and leaves what
follows in the stream. -/
theorem dhuffman_roundtrip (std : StdLib) (w mx w' mx' : Nat) (l : List Nat) (hl : l.length < 2 ^ 44) (hv : ∀ x ∈ l, x < 2 ^ 64 - 1) :
    ∃ bits, (DHuffman std).enc w mx l = .ok bits ∧ ∀ rest, (DHuffman std).dec w' mx' l.length (bits ++ rest) = .ok (l, rest) := by
  obtain ⟨bits, h1, h2, _⟩ := dh_roundtrip std l hl hv
  exact ⟨bits, h1, h2⟩

/-- C61: what follows the table (which the constructor of the decoder reads) is no longer than with any other prefix-free code of the values. -/
theorem dhuffman_optimal (std : StdLib) (w mx : Nat) (l : List Nat) (hl : l.length < 2 ^ 44) (hv : ∀ x ∈ l, x < 2 ^ 64 - 1) (h2 : ∃ x ∈ l, ∃ y ∈ l, x ≠ y) :
    ∃ bits st payload, (DHuffman std).enc w mx l = .ok bits ∧ dhDecoder bits = .ok (st, payload) ∧
      ∀ cw : Nat → List Bool, (∀ x ∈ l, ∀ y ∈ l, x ≠ y → ¬ cw x <+: cw y) → payload.length ≤ (l.flatMap cw).length := by
  obtain ⟨bits, h1, _, h3⟩ := dh_roundtrip std l hl hv
  obtain ⟨st, payload, h4, h5⟩ := h3 h2
  exact ⟨bits, st, payload, h1, h4, h5⟩

/-- C61: esp with the sorted coder and Huffman coded right-hand sides. -/
theorem esp_sorted_huffman_lossless (std : StdLib) {iter : List ((Nat × Nat) × Nat) → List ((Nat × Nat) × Nat)} (hit : ∀ l, (iter l).Perm l) (text : List UInt8)
    (hn : text.length ≤ 2 ^ 32) : ∃ bytes, compressSorted (DHuffman std) iter text = .ok bytes ∧ decompressSorted (DHuffman std) bytes = .ok text :=
  esp_sorted_lossless (dhuffman_sound std (N := 2 ^ 32) (by decide)).rhs (dhuffman_total std (by decide)).rhs hit text hn hn (by decide)

/-- C61: esp with monotone subsequences by the greedy strategy, whose names have a Huffman code. -/
theorem esp_mono_greedy_huffman_lossless (std : StdLib) {iter : List ((Nat × Nat) × Nat) → List ((Nat × Nat) × Nat)} (hit : ∀ l, (iter l).Perm l) (text : List UInt8)
    (hn : text.length ≤ 2 ^ 32) :
    ∃ bytes, compressSorted (DMonotonSubseq subseqGreedy (DHuffman std)) iter text = .ok bytes ∧ decompressSorted (DMonotonSubseq subseqGreedy (DHuffman std)) bytes = .ok text :=
  esp_mono_lossless (greedy_decomposes (2 ^ 32)) (dhuffman_sound std (by decide)).idx (dhuffman_total std (by decide)).idx (by decide) hit text hn hn (by decide)

/-- C61: esp with monotone subsequences by the optimal strategy, whose names have a Huffman code. -/
theorem esp_mono_optimal_huffman_lossless (std : StdLib) {iter : List ((Nat × Nat) × Nat) → List ((Nat × Nat) × Nat)} (hit : ∀ l, (iter l).Perm l) (text : List UInt8)
    (hn : text.length ≤ 2 ^ 32) :
    ∃ bytes, compressSorted (DMonotonSubseq subseqOptimal (DHuffman std)) iter text = .ok bytes ∧ decompressSorted (DMonotonSubseq subseqOptimal (DHuffman std)) bytes = .ok text :=
  esp_mono_lossless (optimal_decomposes (2 ^ 32) (by decide)) (dhuffman_sound std (by decide)).idx (dhuffman_total std (by decide)).idx (by decide) hit text hn hn (by decide)

/-! Witnesses -/

example : ((DHuffman stdSorted).enc 0 0 [5, 300, 5, 7, 5, 300]).map (fun b => b.length) = .ok 85 := by decide +kernel

example : ((DHuffman stdSorted).enc 0 0 [5, 300, 5, 7, 5, 300]).bind ((DHuffman stdSorted).dec 0 0 6) = .ok ([5, 300, 5, 7, 5, 300], []) := by decide +kernel

example : ((DHuffman stdSorted).enc 0 0 [300, 300]).bind ((DHuffman stdSorted).dec 0 0 2) = .ok ([300, 300], []) := by decide +kernel

example : (compressSorted (DHuffman stdSorted) id [98, 98, 97, 97, 97]).bind (decompressSorted (DHuffman stdSorted)) = .ok [98, 98, 97, 97, 97] := by decide +kernel

end Esp
end Tdc
