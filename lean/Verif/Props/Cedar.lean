import Verif.Model.Cedar
import Verif.Model.LZ78

/-!
# C66: LZ78 with the trie `cedar`

`lz78(coder, cedar)` is not lossless.  The trie keeps the position of its root in the double array (`m_roots`, CedarTrie.hpp:55, 225), which is
a child of a node of the array like any other (the root node 0 is the string 255 254).  When an insertion conflicts with this node, `cedar`
moves it (`_resolve`), and `m_roots` is not updated: the next phrase is looked up from a cell which is empty or belongs to another node.
-/

namespace Tdc.Cedar

def isUb {α : Type} : Res α → Bool
  | .error .ub => true
  | _ => false

theorem of_isUb {α : Type} {r : Res α} (h : isUb r = true) : r = .error .ub := by
  unfold isUb at h; split at h <;> simp_all

/-- **C66 (negation).** Compressing twelve lower case letters reads outside the array, whatever coder is used. -/
theorem lz78_cedar_ub (c : UCoder) : lz78Compress cedarTrie c 0 [122, 121, 120, 122, 120, 122, 122, 120, 120, 120, 122, 120] = .error .ub := by
  have h : ∀ s r, cedarTrie.getRoot (cedarTrie.addRoot (cedarTrie.clear cedarTrie.empty) 0) 0 = (s, r) →
      isUb (lz78Loop cedarTrie 0 [122, 121, 120, 122, 120, 122, 122, 120, 120, 120, 122, 120] s r r 0 0) = true := by
    rintro s r h
    injection h with h1 h2
    rw [← h1, ← h2]
    decide +kernel
  unfold lz78Compress
  generalize hg : cedarTrie.getRoot (cedarTrie.addRoot (cedarTrie.clear cedarTrie.empty) 0) 0 = g
  obtain ⟨s, r⟩ := g
  have hs : (cedarTrie.getRoot (cedarTrie.addRoot (cedarTrie.clear cedarTrie.empty) 0) 0).1 = s := by rw [hg]
  have hr : (cedarTrie.getRoot (cedarTrie.addRoot (cedarTrie.clear cedarTrie.empty) 0) 0).2 = r := by rw [hg]
  simp only [hs, hr, of_isUb (h s r hg)]

/-- **C66 (negation).** The text FE 00 FE 00 comes back as FE 00 00 00, with every coder. -/
theorem lz78_cedar_lossy (n : CoderName) :
    ∃ bytes, lz78Compress cedarTrie n.coder 0 [254, 0, 254, 0] = .ok bytes ∧ lz78Decompress n.coder bytes = .ok [254, 0, 0, 0] := by
  have h : ∀ n : CoderName, (match lz78Compress cedarTrie n.coder 0 [254, 0, 254, 0] with
      | .ok bytes => (match lz78Decompress n.coder bytes with
        | .ok t => decide (t = [254, 0, 0, 0])
        | .error _ => false)
      | .error _ => false) = true := by
    intro n; cases n <;> decide +kernel
  have h := h n
  cases hc : lz78Compress cedarTrie n.coder 0 [254, 0, 254, 0] with
  | error e => rw [hc] at h; cases h
  | ok bytes =>
    rw [hc] at h
    refine ⟨bytes, rfl, ?_⟩
    cases hd : lz78Decompress n.coder bytes with
    | error e => simp only [hd] at h; cases h
    | ok t => simp only [hd] at h; rw [of_decide_eq_true h]

end Tdc.Cedar
