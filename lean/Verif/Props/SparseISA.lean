import Verif.Lemmas.SparseISA
import Verif.Props.TextDS

/-!
# Property C46: the sparse inverse suffix array answers exactly and in bounded time

`SI.build sa t` is the constructor of `SparseISA` with option `t`; `SI.query S fuel i` is `operator[](i)` where at most `fuel` tests of
its loop condition are allowed (more is reported as non-termination).
-/

namespace Tdc
namespace SI

/-- **C46.** For every permutation `sa` of `0..n-1` (`n ≥ 1`) and every option `t ≥ 1` the construction succeeds; every query `i < n`
returns the position `p` with `sa[p] = i` after at most `t` steps (`t + 1` tests of the loop condition); and at most `2n/t` short cuts
are stored. -/
theorem sparse_isa_exact (sa : List Nat) (hnd : sa.Nodup) (hlt : ∀ s ∈ sa, s < sa.length) (hn : sa ≠ []) (h64 : sa.length < 2 ^ 64)
    (t : Nat) (ht : 1 ≤ t) :
    ∃ S, build sa t = .ok S ∧ t * S.sc.length ≤ 2 * sa.length ∧
      ∀ i, i < sa.length → ∃ p, sa[p]? = some i ∧ ∀ fuel, t + 1 ≤ fuel → query S fuel i = .ok p := by
  obtain ⟨S, e, hsa, G⟩ := build_spec ⟨hnd, hlt⟩ (List.length_pos_iff.mpr hn) h64 ht
  refine ⟨S, e, by rw [← hsa]; exact G.sparse, ?_⟩
  intro i hi
  have key : ∀ fuel, t + 1 ≤ fuel → ∃ p, query S fuel i = .ok p ∧ sa[p]? = some i := by
    intro fuel hf
    obtain ⟨p, h1, -, h3⟩ := query_spec G (x := i) (fuel := fuel) (by rw [hsa]; exact hi) (by omega)
    exact ⟨p, h1, by rw [← hsa]; exact h3⟩
  obtain ⟨p, -, h2⟩ := key (t + 1) (Nat.le_refl _)
  refine ⟨p, h2, fun fuel hf => ?_⟩
  obtain ⟨p', h1', h2'⟩ := key fuel hf
  rw [h1']
  obtain ⟨hp, e1⟩ := List.getElem?_eq_some_iff.mp h2
  obtain ⟨hp', e2⟩ := List.getElem?_eq_some_iff.mp h2'
  rw [(List.Nodup.getElem_inj_iff hnd).mp (e2.trans e1.symm)]

/-- **C46, within TextDS.** On the suffix array of any non-empty text the sparse structure answers exactly what the plain inverse suffix
array (`ISAFromSA`) stores. -/
theorem sparse_isa_text (text : List UInt8) (sa : List Nat) (hsa : IsSA text sa) (hn : text ≠ []) (h64 : text.length < 2 ^ 64)
    (t : Nat) (ht : 1 ≤ t) :
    ∃ S isa, build sa t = .ok S ∧ isaFromSA text.length sa = .ok isa ∧ isa.length = text.length ∧
      ∀ i, i < text.length → ∃ p, isa[i]? = some p ∧ query S (t + 1) i = .ok p := by
  have hl := hsa.length
  have hne : sa ≠ [] := by
    intro h
    rw [h] at hl
    exact hn (List.length_eq_zero_iff.mp hl.symm)
  obtain ⟨S, e, -, hq⟩ := sparse_isa_exact sa hsa.nodup (by rw [hl]; exact hsa.lt) hne (by omega) t ht
  obtain ⟨isa, e1, e2, e3⟩ := isaFromSA_spec hsa
  refine ⟨S, isa, e, e1, e2, ?_⟩
  intro i hi
  obtain ⟨p, h1, h2⟩ := hq i (by omega)
  exact ⟨p, e3 p i h1, h2 (t + 1) (Nat.le_refl _)⟩

/-- a permutation with cycles of length 1, 2 and 7 and its inverse; short cuts are used (`t = 2`) -/
example : askAll [1, 2, 3, 4, 5, 6, 0, 8, 7, 9] 2 = .ok [6, 0, 1, 2, 3, 4, 5, 8, 7, 9] ∧
    (match build [1, 2, 3, 4, 5, 6, 0, 8, 7, 9] 2 with | .ok S => S.sc | .error _ => []) = [6, 0, 2, 4] := by decide +kernel

/-- the bound on the number of steps is met with equality: `t` tests are not enough -/
example : (match build [1, 2, 3, 4, 5, 6, 0] 3 with | .ok S => query S 3 2 | .error e => .error e) = .error .loop ∧
    (match build [1, 2, 3, 4, 5, 6, 0] 3 with | .ok S => query S 4 2 | .error e => .error e) = .ok 1 := by decide +kernel

/-- The option `t = 0` is accepted but divides by zero on every suffix array that does not start with `0`, that is (sentinel!) on every
text of two or more bytes. -/
theorem sparse_isa_t0 (s : Nat) (rest : List Nat) (hs : s ≠ 0) : build (s :: rest) 0 = .error .ub := by
  have h : mark (s :: rest) 0 = .error .ub := by
    rw [mark, show (s :: rest).length = rest.length + 1 from rfl, List.range_succ_eq_map, List.foldlM_cons]
    have : markStep (s :: rest) 0 (List.replicate (rest.length + 1) false, List.replicate (rest.length + 1) false) 0 = .error .ub := by
      simp only [markStep, List.replicate_succ]
      show (do
        let (k, v, hs) ← cycLoop (s :: rest) 0 0 (rest.length + 1 + 1) s 1 (true :: List.replicate rest.length false) (false :: List.replicate rest.length false)
        if k > 0 then do
          let hs ← vset hs 0 true
          .ok (v, hs)
        else .ok (v, hs) : Res _) = _
      rw [cycLoop, if_neg hs]
      rfl
    rw [this]
    rfl
  rw [build, h]
  rfl

/-- The empty suffix array reads outside the rank structure. (Not reachable through TextDS, whose
constructor throws on a text without sentinel, ds/TextDS.hpp:132.) -/
theorem sparse_isa_empty (t : Nat) : build [] t = .error .ub := by
  rw [build]
  show (do
      let R ← RS.Rank.build (RS.BV.ofBits [])
      let m ← R.rank1 (2 ^ 64 - 1)
      let sc ← link [] [] R (bitsFor 0) 1 0 [] (List.replicate m 0)
      .ok ⟨[], [], R, sc⟩ : Res SISA) = _
  rfl

end SI
end Tdc
