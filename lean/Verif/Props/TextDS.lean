import Verif.Lemmas.TextDS
import Mathlib.Data.List.Sort
import Mathlib.Order.Basic

/-!
# Property C33: the text index arrays are exact

`textDS pk text sa` is what `TextDS::require(SA | ISA | LCP)` builds from the suffix array `sa` delivered by divsufsort;
`pk` says which arrays are bit-packed (option `compress`).
-/

namespace Tdc

/-- every text has a suffix array (so the hypothesis `IsSA` can always be met) -/
theorem exists_isSA (text : List UInt8) : ∃ sa, IsSA text sa := by
  let le : Nat → Nat → Bool := fun i j => decide (text.drop i < text.drop j) || decide (text.drop i = text.drop j)
  have htrans : ∀ a b c : Nat, le a b → le b c → le a c := by
    intro a b c h1 h2
    simp only [le, Bool.or_eq_true, decide_eq_true_eq] at *
    rcases h1 with h1 | h1 <;> rcases h2 with h2 | h2
    · exact Or.inl (lex_trans h1 h2)
    · rw [← h2]; exact Or.inl h1
    · rw [h1]; exact Or.inl h2
    · exact Or.inr (h1.trans h2)
  have htot : ∀ a b : Nat, (le a b || le b a) = true := by
    intro a b
    simp only [le, Bool.or_eq_true, decide_eq_true_eq]
    rcases lex_total (text.drop a) (text.drop b) with h | h | h
    · exact Or.inl (Or.inl h)
    · exact Or.inl (Or.inr h)
    · exact Or.inr (Or.inl h)
  have hperm := List.mergeSort_perm (List.range text.length) le
  have hpw := List.pairwise_mergeSort htrans htot (List.range text.length)
  refine ⟨(List.range text.length).mergeSort le, by rw [hperm.length_eq, List.length_range], ?_, ?_⟩
  · intro s hs
    exact List.mem_range.mp (hperm.mem_iff.mp hs)
  · intro i j s t hij hi hj
    rw [List.pairwise_iff_getElem] at hpw
    obtain ⟨hil, rfl⟩ := List.getElem?_eq_some_iff.mp hi
    obtain ⟨hjl, rfl⟩ := List.getElem?_eq_some_iff.mp hj
    have h := hpw i j hil hjl hij
    simp only [le, Bool.or_eq_true, decide_eq_true_eq] at h
    rcases h with h | h
    · exact h
    · exfalso
      have h1 := List.mem_range.mp (hperm.mem_iff.mp (List.getElem_mem hil))
      have h2 := List.mem_range.mp (hperm.mem_iff.mp (List.getElem_mem hjl))
      have h3 := congrArg List.length h
      simp only [List.length_drop] at h3
      have hnd : ((List.range text.length).mergeSort le).Nodup := hperm.nodup_iff.mpr List.nodup_range
      have h4 := (List.Nodup.getElem_inj_iff hnd (i := i) (hi := hil) (j := j) (hj := hjl)).mp
      revert h1 h2 h3 h4
      generalize ((List.range text.length).mergeSort le)[i] = x
      generalize ((List.range text.length).mergeSort le)[j] = y
      intro h1 h2 h3 h4
      have := h4 (by omega)
      omega

/-- **C33 (ISA, LCP).** For every null-terminated text without inner null bytes and every packing option, construction
succeeds; packing changes nothing; `isa` is the inverse of `sa`; `lcp[0] = 0` and `lcp[k]` is the length of the longest
common prefix of the suffixes with rank `k` and `k - 1`. -/
theorem textds_exact (pk : Packs) (text : List UInt8) (sa : List Nat) (hsa : IsSA text sa) (hs : Sentinel text) (hlen : text.length < 2 ^ 64) :
    ∃ A, textDS pk text sa = .ok A ∧ A.sa = sa ∧
      A.isa.length = text.length ∧ (∀ k s : Nat, sa[k]? = some s → A.isa[s]? = some k) ∧
      A.lcp.length = text.length ∧ A.lcp[0]? = some 0 ∧
      (∀ k i j : Nat, sa[k + 1]? = some i → sa[k]? = some j → A.lcp[k + 1]? = some (lcpLen (text.drop i) (text.drop j))) := by
  obtain ⟨_, _, _, A, -, -, e, -, -, -, a, b, c, d, f, g⟩ := textDS_spec pk hsa hs hlen
  exact ⟨A, e, a, f, g, b, c, d⟩

/-- **C33 (Phi, PLCP, max_lcp).** `phi[s]` is the start of the lexicographically preceding suffix, `plcp[p]` its common prefix
length with suffix `p` for every position but the last, and `max_lcp()` is the maximum of these. (The last entry of the PLCP
array is never written by the code, see `plcp_last_garbage`.) -/
theorem phi_plcp_exact (text : List UInt8) (sa : List Nat) (hsa : IsSA text sa) (hs : Sentinel text) (hlen : text.length < 2 ^ 64) :
    ∃ phi plcp mx, phiFromSA text.length sa = .ok phi ∧ plcpFromPhi text phi = .ok (plcp, mx) ∧
      phi.length = text.length ∧ plcp.length = text.length ∧
      (∀ k i j : Nat, sa[k + 1]? = some i → sa[k]? = some j →
        phi[i]? = some j ∧ plcp[i]? = some (lcpLen (text.drop i) (text.drop j)) ∧ lcpLen (text.drop i) (text.drop j) ≤ mx) ∧
      (mx = 0 ∨ ∃ k i j : Nat, sa[k + 1]? = some i ∧ sa[k]? = some j ∧ lcpLen (text.drop i) (text.drop j) = mx) := by
  obtain ⟨phi, plcp, mx, A, p1, p2, -, p3, p4, p5, -⟩ := textDS_spec ⟨false, false, false, false, false⟩ hsa hs hlen
  obtain ⟨phi', e1, e2, e3, e4⟩ := phiFromSA_spec hsa hs.len_pos
  rw [p1] at e1
  cases e1
  refine ⟨phi, plcp, mx, p1, p2, e2, p3, ?_, ?_⟩
  · intro k i j hi hj
    have hil := hsa.succ_lt hs hi
    have hg : plcp[i]? = some (plcp[i]'(by omega)) := List.getElem?_eq_getElem (by omega)
    obtain ⟨a, b⟩ := p4 i _ hil hg
    have := a k j hi hj
    refine ⟨by rw [e3 k i hi, hj], by rw [hg, this], by omega⟩
  · rcases p5 with h | ⟨p, hp, hpe⟩
    · exact Or.inl h
    · right
      obtain ⟨k, hk, hke⟩ := hsa.idx (p := p) (by omega)
      cases k with
      | zero =>
        rw [hsa.zero hs] at hke
        have : text.length - 1 = p := by simpa using hke
        omega
      | succ k =>
        obtain ⟨j, hj, -⟩ := hsa.get (k := k) (by omega)
        exact ⟨k, p, j, hke, hj, ((p4 p mx hp hpe).1 k j hke hj).symm⟩

/-- "abab\0" -/
theorem isSA_abab : IsSA [97, 98, 97, 98, 0] [4, 2, 0, 3, 1] := by
  refine ⟨rfl, by decide, ?_⟩
  intro i j s t hij hi hj
  obtain ⟨hil, rfl⟩ := List.getElem?_eq_some_iff.mp hi
  obtain ⟨hjl, rfl⟩ := List.getElem?_eq_some_iff.mp hj
  have : ∀ (j : Fin 5) (i : Fin 5), i < j → ([97, 98, 97, 98, 0] : List UInt8).drop ([4, 2, 0, 3, 1][i]) < ([97, 98, 97, 98, 0] : List UInt8).drop ([4, 2, 0, 3, 1][j]) := by
    decide
  exact this ⟨j, hjl⟩ ⟨i, hil⟩ hij

theorem sentinel_abab : Sentinel [97, 98, 97, 98, 0] := ⟨[97, 98, 97, 98], rfl, by decide⟩

/-- an array as in the code: the last entry of PLCP is what phi held there -/
theorem plcp_last_garbage : ∃ phi, phiFromSA 5 [4, 2, 0, 3, 1] = .ok phi ∧ plcpFromPhi [97, 98, 97, 98, 0] phi = .ok ([2, 1, 0, 0, 1], 2) :=
  ⟨[2, 3, 4, 0, 1], by rfl, by rfl⟩

example : textDS ⟨true, true, true, true, true⟩ [97, 98, 97, 98, 0] [4, 2, 0, 3, 1] =
    .ok ⟨[4, 2, 0, 3, 1], [2, 4, 1, 3, 0], [0, 0, 2, 0, 1]⟩ := by decide

end Tdc
