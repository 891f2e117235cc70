import Verif.Spec.LcpComp
import Verif.Lemmas.LcpMaxList
import Verif.Lemmas.LcpPLCP
import Verif.Lemmas.LcpNaive
import Verif.Lemmas.LcpDec
import Verif.Props.BitIO
import Verif.Props.TextDS
import Verif.Props.Huffman
import Verif.Props.SLE

/-!
# Properties C38 – C41: lcpcomp

`lcpCompress c s flat pk threshold text sa`: the compressor with coder `c`, factorization strategy `s`, option `flatten`, array packing
`pk` (option of the text data structures) and suffix array `sa` (from divsufsort).
The text is the restricted input: it ends with its only null byte.
-/

namespace Tdc
namespace LC

/-! ### C38: decoding -/

/-- The decode buffers differ in memory layout. The multimap keeps waiting positions in a container; all that is assumed of it is
that insertion adds the element. -/
def DecName.Ok : DecName → Prop
  | .multimap _ ins => ∀ l q x, x ∈ ins l q ↔ x ∈ l ∨ x = q
  | _ => True

/-- **C38.** Every factorization with sorted, non-overlapping factors that copy the right characters and whose references contain no
cycle is decoded to the text by each of the four decode buffers and each coder, although references may point
forwards and to other references; whatever the number of scans (`scans`, `lazy`). -/
theorem lcp_decode_any (c : CoderName) (d : DecName) (hd : d.Ok) (text : List UInt8) (fs : List Factor) (hs : Sentinel text)
    (hlen : text.length < 2 ^ 32) (ho : FactorsOrdered text.length 0 fs) (hr : Resolvable text fs) :
    lcpDecompress c.coder d (BitO.toBytes (c.coder.encAll (lzssEncode text fs))) = .ok text := by
  rw [lcpDecompress, bitsOf_toBytes, lcpDecodeBits, lzss_universal c text fs hlen ho]
  simp only
  cases d with
  | scan k => exact runScan_spec k hs ho hr
  | compact => exact runDirect_spec true ho hr (fun _ => no_null hs ho hr)
  | queueList => exact runDirect_spec false ho hr (by intro h; cases h)
  | multimap k ins => exact runMulti_spec ins hd k ho hr

/-- **C38.** The buffers that mark decoded characters with a bit vector do not need the sentinel: they decode any text, null bytes
included. -/
theorem lcp_decode_nulls (c : CoderName) (d : DecName) (hd : d.Ok) (hdn : d = .queueList ∨ ∃ k ins, d = .multimap k ins) (text : List UInt8)
    (fs : List Factor) (hlen : text.length < 2 ^ 32) (ho : FactorsOrdered text.length 0 fs) (hr : Resolvable text fs) :
    lcpDecompress c.coder d (BitO.toBytes (c.coder.encAll (lzssEncode text fs))) = .ok text := by
  rw [lcpDecompress, bitsOf_toBytes, lcpDecodeBits, lzss_universal c text fs hlen ho]
  simp only
  rcases hdn with rfl | ⟨k, ins, rfl⟩
  · exact runDirect_spec false ho hr (by intro h; cases h)
  · exact runMulti_spec ins hd k ho hr

/-- a forward reference whose source is a factor itself: `abab ab` with the first `ab` copied from the third -/
example : FactorsOrdered 7 0 [⟨0, 2, 2⟩, ⟨2, 4, 2⟩] ∧ Resolvable [97, 98, 97, 98, 97, 98, 0] [⟨0, 2, 2⟩, ⟨2, 4, 2⟩] ∧
    Sentinel [97, 98, 97, 98, 97, 98, 0] := by
  refine ⟨by simp [FactorsOrdered], ⟨?_, fun p => 10 - p, ?_⟩, ⟨[97, 98, 97, 98, 97, 98], rfl, by decide⟩⟩
  · intro f hf k hk
    simp only [List.mem_cons, List.not_mem_nil, or_false] at hf
    rcases hf with rfl | rfl <;> (simp only at hk ⊢; match k, hk with | 0, _ => rfl | 1, _ => rfl)
  · intro f hf k hk
    simp only [List.mem_cons, List.not_mem_nil, or_false] at hf
    rcases hf with rfl | rfl <;> (simp only at hk ⊢; omega)

example : (DecName.multimap 3 (fun l q => q :: l)).Ok := by
  intro l q x
  simp only [List.mem_cons]
  exact Or.comm

/-- the calls the decoder makes for it, and the buffer after them -/
example : (DecName.scan 0).run 7 [.fac 2 2, .fac 4 2, .lit 97, .lit 98, .lit 0] = .ok [97, 98, 97, 98, 97, 98, 0] := by decide +kernel

/-! ### C39: factorization -/

/-- **C39** (missing: MaxHeapStrategy and `threshold = 0`, for which the claim is false, see below). ArraysComp, MaxLCPStrategy and BoostHeap replace a longest remaining copy again and again: for every text, every
`threshold ≥ 1`, every packing of the arrays. -/
theorem lcp_strategies_greedy_partial (s : Strategy) (hst : s = .arrays ∨ s = .maxLcp ∨ s = .boostHeap) (pk : Packs) (threshold : Nat)
    (text : List UInt8) (sa : List Nat) (hth : 1 ≤ threshold) (hsa : IsSA text sa) (hs : Sentinel text) (hlen : text.length < 2 ^ 64) :
    ∃ A plcp mx fs, textDS pk text sa = .ok A ∧ textPLCP pk text sa = .ok (plcp, mx) ∧ s.factorize text A plcp mx threshold = .ok fs ∧
      LcpGreedy text sa threshold [] fs := by
  obtain ⟨A, plcp, mx, e1, e2, hA, rfl, -, -, hmx⟩ := textPLCP_spec pk hsa hs hlen
  rcases hst with rfl | rfl | rfl
  · obtain ⟨fs, e3, h⟩ := arraysComp_spec hA hs hth hmx
    exact ⟨A, plcp, mx, fs, e1, e2, e3, h⟩
  · obtain ⟨fs, e3, h⟩ := maxLcpComp_spec hA hs hth hmx
    exact ⟨A, plcp, mx, fs, e1, e2, e3, h⟩
  · obtain ⟨fs, e3, h⟩ := boostHeapComp_spec hA hs hth mx
    exact ⟨A, plcp, mx, fs, e1, e2, e3, h⟩

/-- **C39.** PLCPPeaksStrategy (for every threshold, `0` included) yields sorted and non-overlapping factors that are at least
`threshold` long, copied from the lexicographically preceding suffix and as long as possible there. -/
theorem lcp_peaks_sound (pk : Packs) (threshold : Nat) (text : List UInt8) (sa : List Nat) (hsa : IsSA text sa) (hs : Sentinel text)
    (hlen : text.length < 2 ^ 64) :
    ∃ A plcp mx fs, textDS pk text sa = .ok A ∧ textPLCP pk text sa = .ok (plcp, mx) ∧
      Strategy.peaks.factorize text A plcp mx threshold = .ok fs ∧ FactorsOrdered text.length 0 fs ∧
      ∀ f ∈ fs, 1 ≤ f.len ∧ threshold ≤ f.len ∧ (∃ k, sa[k + 1]? = some f.pos ∧ sa[k]? = some f.src) ∧
        f.len = lcpLen (text.drop f.pos) (text.drop f.src) := by
  obtain ⟨A, plcp, mx, e1, e2, hA, rfl, hl, hp, -⟩ := textPLCP_spec pk hsa hs hlen
  obtain ⟨fs, e3, h1, h2⟩ := peaksComp_spec hA hs hl hp threshold
  exact ⟨A, plcp, mx, fs, e1, e2, e3, h1, h2⟩

/-- **C39.** PLCPStrategy finds the factors region by region from left to right. Sorted by decreasing length its factors are a greedy
factorization: each is a longest copy that the longer ones have left, and no copy of length `threshold` remains. For every text up to
`2^31` bytes and every `threshold ≥ 1`; the boost heap is assumed to honour its contract. -/
theorem lcp_plcp_greedy (pk : Packs) (threshold : Nat) (text : List UInt8) (sa : List Nat) (hth : 1 ≤ threshold) (hsa : IsSA text sa)
    (hs : Sentinel text) (hlen : text.length ≤ 2 ^ 31) :
    ∃ A plcp mx fs gs, textDS pk text sa = .ok A ∧ textPLCP pk text sa = .ok (plcp, mx) ∧
      Strategy.plcp.factorize text A plcp mx threshold = .ok fs ∧ gs.Perm fs ∧ LcpGreedy text sa threshold [] gs := by
  obtain ⟨A, plcp, mx, e1, e2, hA, rfl, -, -, -⟩ := textPLCP_spec pk hsa hs (by omega)
  obtain ⟨fs, gs, e3, h1, h2⟩ := plcpComp_spec hA hs hth hlen
  exact ⟨A, plcp, mx, fs, gs, e1, e2, e3, h1, h2⟩

/-- **C39 (limit).** With `threshold = 0` PLCPStrategy writes behind the end of its vector of handles: "ababc". -/
theorem lcp_plcp_threshold_zero_broken :
    Strategy.plcp.factorize [97, 98, 97, 98, 99, 0] ⟨[5, 0, 2, 1, 3, 4], [1, 3, 2, 4, 5, 0], [0, 0, 2, 0, 1, 0]⟩ [0, 0, 2, 1, 0, 4] 2 0 = .error .ub := by
  decide +kernel

/-- **C39.** NaiveStrategy (`threshold ≥ 1`) yields sorted and non-overlapping factors that are at least `threshold` long, copied from the
lexicographically preceding suffix and as long as possible there. A factor never replaces a character that an earlier factor copies;
and a position is only left out if its copy is shorter than `threshold` or contains a character that an earlier factor copies. -/
theorem lcp_naive_sound (pk : Packs) (threshold : Nat) (text : List UInt8) (sa : List Nat) (hth : 1 ≤ threshold) (hsa : IsSA text sa)
    (hs : Sentinel text) (hlen : text.length < 2 ^ 64) :
    ∃ A plcp mx fs, textDS pk text sa = .ok A ∧ textPLCP pk text sa = .ok (plcp, mx) ∧
      Strategy.naive.factorize text A plcp mx threshold = .ok fs ∧ FactorsOrdered text.length 0 fs ∧
      (∀ f ∈ fs, threshold ≤ f.len ∧ (∃ k, sa[k + 1]? = some f.pos ∧ sa[k]? = some f.src) ∧
        f.len = lcpLen (text.drop f.pos) (text.drop f.src)) ∧
      fs.Pairwise (fun g f => ∀ x, f.pos ≤ x → x < f.pos + f.len → ¬ (g.src ≤ x ∧ x < g.src + g.len)) ∧
      ∀ p k j, sa[k + 1]? = some p → sa[k]? = some j → threshold ≤ lcpLen (text.drop p) (text.drop j) → ¬ Covered fs p →
        ∃ g ∈ fs, g.pos < p ∧ ∃ x, p ≤ x ∧ x < p + lcpLen (text.drop p) (text.drop j) ∧ g.src ≤ x ∧ x < g.src + g.len := by
  obtain ⟨A, plcp, mx, e1, e2, hA, rfl, -, -, -⟩ := textPLCP_spec pk hsa hs hlen
  have hn := hs.len_pos
  obtain ⟨fs, e3, h1, h2, -, h4, h5⟩ := naiveLoop_spec hA hs hth (A.sa.length + 1) 0 (List.replicate A.sa.length false) [] hn
    (by rw [hA.isSA.length]; omega) (by rw [List.length_replicate, hA.isSA.length])
    (by
      intro x hx
      rw [List.getElem?_replicate] at hx
      split at hx <;> simp at hx)
    (by rintro x - ⟨f, hf, -⟩; cases hf) (by simp)
  exact ⟨A, plcp, mx, fs, e1, e2, e3, h1, h2, h4, fun p k j a b c d => h5 p k j (Nat.zero_le _) a b c d⟩

/-- **C39 (limit).** With `threshold = 0` NaiveStrategy does not terminate on the text "a": it adds factors of length 0 forever. -/
theorem lcp_naive_threshold_zero_broken :
    IsSA [97, 0] [1, 0] ∧ Sentinel [97, 0] ∧ textDS ⟨false, false, false, false, false⟩ [97, 0] [1, 0] = .ok ⟨[1, 0], [1, 0], [0, 0]⟩ ∧
      ∀ fuel : Nat, naiveLoop ⟨[1, 0], [1, 0], [0, 0]⟩ 0 fuel 0 [false, false] = .error .loop := by
  refine ⟨⟨rfl, by decide, ?_⟩, ⟨[97], rfl, by decide⟩, by decide +kernel, ?_⟩
  · have : ∀ (j : Fin 2) (i : Fin 2), i < j → ([97, 0] : List UInt8).drop ([1, 0][i]) < ([97, 0] : List UInt8).drop ([1, 0][j]) := by
      decide
    intro i j s t hij hi hj
    obtain ⟨hil, rfl⟩ := List.getElem?_eq_some_iff.mp hi
    obtain ⟨hjl, rfl⟩ := List.getElem?_eq_some_iff.mp hj
    exact this ⟨j, hjl⟩ ⟨i, hil⟩ hij
  · intro fuel
    induction fuel with
    | zero => rfl
    | succ fuel ih =>
      rw [naiveLoop]
      simp only [vget, List.length_cons, List.length_nil, List.getElem?_cons_zero, List.getElem?_cons_succ, naiveFree, markFrom,
        ge_iff_le, Nat.le_refl, if_true, Nat.reduceAdd, Nat.reduceLT, Nat.one_ne_zero, if_false, Nat.sub_self, Nat.add_zero, ih]

/-- **C39 (limit).** BulldozerStrategy never finds a factor, in no text and for no threshold: it fills one vector of intervals and
processes another. -/
theorem lcp_bulldozer_no_factors (pk : Packs) (threshold : Nat) (text : List UInt8) (sa : List Nat) (hsa : IsSA text sa)
    (hs : Sentinel text) (hlen : text.length < 2 ^ 64) :
    ∃ A plcp mx, textDS pk text sa = .ok A ∧ textPLCP pk text sa = .ok (plcp, mx) ∧
      Strategy.bulldozer.factorize text A plcp mx threshold = .ok [] := by
  obtain ⟨A, plcp, mx, e1, e2, hA, rfl, -, -, -⟩ := textPLCP_spec pk hsa hs hlen
  exact ⟨A, plcp, mx, e1, e2, bulldozerComp_spec hA hs⟩

/-- Had BulldozerStrategy processed the intervals it induces, its factors would be sorted, non-overlapping, at least `threshold ≥ 1` long,
and they could be resolved to the text although they point to both sides. (About `bulldozerIntended`, not about the code as it is.) -/
theorem lcp_bulldozer_intended_sound (pk : Packs) (threshold : Nat) (text : List UInt8) (sa : List Nat) (hth : 1 ≤ threshold)
    (hsa : IsSA text sa) (hs : Sentinel text) (hlen : text.length < 2 ^ 64) :
    ∃ A fs, textDS pk text sa = .ok A ∧ bulldozerIntended A threshold = .ok fs ∧ FactorsOrdered text.length 0 fs ∧
      (∀ f ∈ fs, threshold ≤ f.len) ∧ Resolvable text fs := by
  obtain ⟨A, plcp, mx, e1, e2, hA, rfl, -, -, -⟩ := textPLCP_spec pk hsa hs hlen
  have hn := hs.len_pos
  obtain ⟨iv, e3, h⟩ := bdInduce_spec hA hs hth (A.sa.length - 1) 1 (Nat.le_refl _) (by rw [hA.isSA.length]; omega)
  obtain ⟨fs, e4, h1, h2, h3⟩ := bdRun_spec threshold iv h
  refine ⟨A, fs, e1, ?_, h1, h2, h3⟩
  rw [bulldozerIntended, e3]
  simp only
  rw [hA.isSA.length]
  exact e4

example : naiveComp ⟨[4, 2, 0, 3, 1], [2, 4, 1, 3, 0], [0, 0, 2, 0, 1]⟩ 1 = .ok [⟨0, 2, 2⟩] := by decide
/-- "abdabcab": the first `ab` is copied from the second, which therefore is not replaced by the third -/
example : naiveComp ⟨[8, 6, 3, 0, 7, 4, 1, 5, 2], [3, 6, 8, 2, 5, 7, 1, 4, 0], [0, 0, 2, 2, 0, 1, 1, 0, 0]⟩ 2 = .ok [⟨0, 3, 2⟩] := by decide
example : bulldozerComp ⟨[4, 2, 0, 3, 1], [2, 4, 1, 3, 0], [0, 0, 2, 0, 1]⟩ 1 = .ok [] := by decide +kernel
example : bdInduce ⟨[4, 2, 0, 3, 1], [2, 4, 1, 3, 0], [0, 0, 2, 0, 1]⟩ 1 4 1 = .ok [⟨0, 2, 2⟩, ⟨2, 0, 2⟩, ⟨1, 3, 1⟩, ⟨3, 1, 1⟩] := by decide +kernel
example : bdProcess 5 1 [⟨0, 2, 2⟩, ⟨1, 3, 1⟩, ⟨2, 0, 2⟩, ⟨3, 1, 1⟩] 0 (List.replicate 5 false) = .ok [⟨0, 2, 2⟩] := by decide +kernel

/-- factors taken greedily replace every character at most once -/
theorem lcp_greedy_disjoint (text : List UInt8) (sa : List Nat) (threshold : Nat) (fs : List Factor) (hth : 1 ≤ threshold)
    (h : LcpGreedy text sa threshold [] fs) :
    fs.Pairwise fun a b => a.pos + a.len ≤ b.pos ∨ b.pos + b.len ≤ a.pos :=
  (LcpGreedy.spec hth fs [] h).2.1

/-- **C39 (limit).** ArraysComp with `threshold = 0` never succeeds: it leaves its buckets through the lower end. -/
theorem lcp_arrays_threshold_zero_broken (text : List UInt8) (A : TextArrays) (plcp : List Nat) (mx : Nat) :
    ∃ e, Strategy.arrays.factorize text A plcp mx 0 = .error e := arraysComp_zero mx

/-- **C39 (limit).** So does MaxLCPStrategy, for every text with at least one character besides the sentinel. -/
theorem lcp_maxlcp_threshold_zero_broken (pk : Packs) (text : List UInt8) (sa : List Nat) (hsa : IsSA text sa) (hs : Sentinel text)
    (hlen : text.length < 2 ^ 64) (h2 : 2 ≤ text.length) :
    ∃ A plcp mx e, textDS pk text sa = .ok A ∧ textPLCP pk text sa = .ok (plcp, mx) ∧ Strategy.maxLcp.factorize text A plcp mx 0 = .error e := by
  obtain ⟨A, plcp, mx, e1, e2, hA, rfl, -, -, -⟩ := textPLCP_spec pk hsa hs hlen
  obtain ⟨p, hp, -⟩ := hsa.get (k := 1) (by omega)
  have hz := hsa.zero hs
  have hl := hA.lcp 0 p (text.length - 1) hp hz
  have hp1 := hsa.succ_lt hs hp
  have h0 : lcpLen (text.drop p) (text.drop (text.length - 1)) = 0 := by
    by_contra hne
    obtain ⟨a, b, c⟩ := lcpLen_get (text.drop p) (text.drop (text.length - 1)) 0 (by omega)
    obtain ⟨u, rfl, hu⟩ := hs
    rw [List.getElem?_drop, List.getElem?_drop] at a
    simp only [List.length_append, List.length_singleton, Nat.add_sub_cancel, Nat.add_zero, Nat.add_lt_add_iff_right] at a hp1
    rw [List.getElem?_append_left hp1, List.getElem?_append_right (Nat.le_refl _)] at a
    simp only [Nat.sub_self, List.getElem?_cons_zero] at a
    exact hu (List.mem_of_getElem? a)
  rw [h0] at hl
  obtain ⟨e, he⟩ : ∃ e, maxLcpComp A mx 0 = .error e := by
    have hlen' : A.lcp.length - 1 = (A.lcp.length - 2) + 1 := by rw [hA.lcpLength]; omega
    have hins : ∀ st : ML, st.lcp = A.lcp → ∃ e, st.insert 1 = .error e := by
      intro st hst
      unfold ML.insert
      rw [hst, vget_ok hl]
      simp only [mlLookup, bind, Except.bind]
      cases st.link 1 st.undef with
      | error e => exact ⟨e, rfl⟩
      | ok st' =>
        refine ⟨Fault.ub, ?_⟩
        simp only [ML.finishInsert]
        rfl
    obtain ⟨e, he⟩ := hins ⟨A.lcp, A.lcp.length, A.lcp.length, A.lcp.length, List.replicate A.lcp.length A.lcp.length,
      List.replicate A.lcp.length A.lcp.length, List.replicate mx A.lcp.length, List.replicate A.lcp.length false, 0⟩ rfl
    refine ⟨e, ?_⟩
    rw [maxLcpComp, ML.init]
    show (match mlFill 0 (A.lcp.length - 1) 1 _ with | .error e => _ | .ok st => _) = _
    rw [hlen', mlFill]
    simp only [vget_ok hl, ge_iff_le, Nat.le_refl, if_true, he]
  exact ⟨A, plcp, mx, e, e1, e2, he⟩

/-- and BoostHeap never removes an entry of key `0` from its heap -/
example : boostHeapComp ⟨[4, 2, 0, 3, 1], [2, 4, 1, 3, 0], [0, 0, 2, 0, 1]⟩ 2 0 = .error .loop := by decide +kernel

example : arraysComp ⟨[4, 2, 0, 3, 1], [2, 4, 1, 3, 0], [0, 0, 2, 0, 1]⟩ 2 1 = .ok [⟨0, 2, 2⟩] := by decide
example : maxLcpComp ⟨[4, 2, 0, 3, 1], [2, 4, 1, 3, 0], [0, 0, 2, 0, 1]⟩ 2 1 = .ok [⟨0, 2, 2⟩] := by decide
example : boostHeapComp ⟨[4, 2, 0, 3, 1], [2, 4, 1, 3, 0], [0, 0, 2, 0, 1]⟩ 2 1 = .ok [⟨0, 2, 2⟩] := by decide
example : peaksComp ⟨[4, 2, 0, 3, 1], [2, 4, 1, 3, 0], [0, 0, 2, 0, 1]⟩ [2, 1, 0, 0, 4] 1 = .ok [⟨0, 2, 2⟩] := by decide

/-! ### C40: lossless -/

theorem wsub_eq {a b : Nat} (h : b ≤ a) (ha : a < 2 ^ 64) : wsub a b = a - b := by
  unfold wsub
  omega

/-- no difference wraps around when factors are sorted and do not overlap -/
theorem lzssEncodeW_eq (text : List UInt8) (fs : List Factor) (hlen : text.length < 2 ^ 64) (ho : FactorsOrdered text.length 0 fs) :
    lzssEncodeW text fs = lzssEncode text fs := by
  have h1 : ∀ (fs : List Factor) (p m : Nat), FactorsOrdered text.length p fs → fdistMaxLoopW text.length fs p m = fdistMaxLoop text.length fs p m := by
    intro fs
    induction fs with
    | nil => intro p m h; rw [fdistMaxLoopW, fdistMaxLoop, wsub_eq h hlen]
    | cons f fs ih =>
      intro p m h
      obtain ⟨a, b, c, d⟩ := h
      rw [fdistMaxLoopW, fdistMaxLoop, wsub_eq a (by omega)]
      exact ih _ _ d
  have h2 : ∀ (fmin fmax fdist : Nat) (fs : List Factor) (p : Nat), FactorsOrdered text.length p fs →
      lzssBodyW text fmin fmax fdist fs p = lzssBody text fmin fmax fdist fs p := by
    intro fmin fmax fdist fs
    induction fs with
    | nil =>
      intro p h
      rw [lzssBodyW, lzssBody]
      split
      · rfl
      · rw [litTokens, show text.length - p = 0 by omega, List.take_zero]; rfl
    | cons f fs ih =>
      intro p h
      obtain ⟨a, b, c, d⟩ := h
      rw [lzssBodyW, lzssBody, wsub_eq a (by omega), ih _ (by rw [Nat.max_eq_right a]; exact d)]
  unfold lzssEncodeW lzssEncode lzssHeader
  simp only [h1 fs 0 0 ho, h2 _ _ _ fs 0 ho]

/-- what `lcpcomp` hands to the encoder -/
theorem lcpFactorsOf_spec (s : Strategy) (hst : s ≠ .maxHeap) (flat : Bool) (pk : Packs) (threshold : Nat) (text : List UInt8) (sa : List Nat)
    (hth : 1 ≤ threshold) (hsa : IsSA text sa) (hs : Sentinel text) (hlen : text.length < 2 ^ 64) (h31 : s = .plcp → text.length ≤ 2 ^ 31) :
    ∃ fs, lcpFactorsOf s flat pk threshold text sa = .ok fs ∧ FactorsOrdered text.length 0 fs ∧ Resolvable text fs ∧
      (∀ f ∈ fs, threshold ≤ f.len) ∧ (flat = true → Flat fs) := by
  -- the sorted factors
  have key : ∃ A plcp mx fs, textDS pk text sa = .ok A ∧ textPLCP pk text sa = .ok (plcp, mx) ∧ s.factorize text A plcp mx threshold = .ok fs ∧
      FactorsOrdered text.length 0 (sortFactors fs) ∧ Resolvable text (sortFactors fs) ∧ ∀ f ∈ sortFactors fs, threshold ≤ f.len := by
    -- factors that copy from the preceding suffix and are found from left to right
    have ltr : ∀ A plcp mx fs, textDS pk text sa = .ok A → textPLCP pk text sa = .ok (plcp, mx) → s.factorize text A plcp mx threshold = .ok fs →
        FactorsOrdered text.length 0 fs → (∀ f ∈ fs, threshold ≤ f.len ∧ (∃ k, sa[k + 1]? = some f.pos ∧ sa[k]? = some f.src) ∧
        f.len = lcpLen (text.drop f.pos) (text.drop f.src)) →
        ∃ A plcp mx fs, textDS pk text sa = .ok A ∧ textPLCP pk text sa = .ok (plcp, mx) ∧ s.factorize text A plcp mx threshold = .ok fs ∧
      FactorsOrdered text.length 0 (sortFactors fs) ∧ Resolvable text (sortFactors fs) ∧ ∀ f ∈ sortFactors fs, threshold ≤ f.len := by
      intro A plcp mx fs e1 e2 e3 h1 h2
      obtain ⟨hperm, hsort⟩ := sortFactors_spec fs
      have hdis : (sortFactors fs).Pairwise Disj := by
        refine (hperm.pairwise_iff (fun h => Disj.symm h)).mpr ?_
        clear e3 h2 hperm hsort
        generalize hp0 : (0 : Nat) = p at h1
        clear hp0
        induction fs generalizing p with
        | nil => exact List.Pairwise.nil
        | cons f fs ih =>
          rw [List.pairwise_cons]
          exact ⟨fun g hg => Or.inl (FactorsOrdered.pos_ge fs _ h1.2.2.2 g hg), ih _ h1.2.2.2⟩
      refine ⟨A, plcp, mx, fs, e1, e2, e3, ?_, ?_, ?_⟩
      · refine ordered_of _ hsort hdis ?_ 0 (Nat.zero_le _) (fun _ _ => Nat.zero_le _)
        intro f hf
        obtain ⟨b, c, d⟩ := h2 f (hperm.mem_iff.mp hf)
        have := pred_bounds hs hsa ⟨c, Nat.le_of_eq d⟩
        omega
      · refine resolvable_of_pred hsa ?_
        intro f hf
        obtain ⟨b, c, d⟩ := h2 f (hperm.mem_iff.mp hf)
        exact ⟨c, Nat.le_of_eq d⟩
      · intro f hf
        exact (h2 f (hperm.mem_iff.mp hf)).1
    by_cases hp : s = .peaks
    · subst hp
      obtain ⟨A, plcp, mx, fs, e1, e2, e3, h1, h2⟩ := lcp_peaks_sound pk threshold text sa hsa hs hlen
      exact ltr A plcp mx fs e1 e2 e3 h1 fun f hf => (h2 f hf).2
    by_cases hnv : s = .naive
    · subst hnv
      obtain ⟨A, plcp, mx, fs, e1, e2, e3, h1, h2, -, -⟩ := lcp_naive_sound pk threshold text sa hth hsa hs hlen
      exact ltr A plcp mx fs e1 e2 e3 h1 h2
    by_cases hbd : s = .bulldozer
    · subst hbd
      obtain ⟨A, plcp, mx, e1, e2, e3⟩ := lcp_bulldozer_no_factors pk threshold text sa hsa hs hlen
      exact ltr A plcp mx [] e1 e2 e3 (Nat.zero_le _) (by simp)
    by_cases hpl : s = .plcp
    · subst hpl
      obtain ⟨A, plcp, mx, fs, gs, e1, e2, e3, hgp, h⟩ := lcp_plcp_greedy pk threshold text sa hth hsa hs (h31 rfl)
      obtain ⟨h2, hdis, -⟩ := LcpGreedy.spec hth gs [] h
      obtain ⟨hperm, hsort⟩ := sortFactors_spec fs
      have hperm := hperm.trans hgp.symm
      refine ⟨A, plcp, mx, fs, e1, e2, e3, ?_, ?_, ?_⟩
      · refine ordered_of _ hsort ((hperm.pairwise_iff (fun h => Disj.symm h)).mpr hdis) ?_ 0 (Nat.zero_le _) (fun _ _ => Nat.zero_le _)
        intro f hf
        obtain ⟨a, b⟩ := h2 f (hperm.mem_iff.mp hf)
        have := pred_bounds hs hsa b
        omega
      · exact resolvable_of_pred hsa fun f hf => (h2 f (hperm.mem_iff.mp hf)).2
      · intro f hf
        exact (h2 f (hperm.mem_iff.mp hf)).1
    · have hst' : s = .arrays ∨ s = .maxLcp ∨ s = .boostHeap := by
        cases s <;> simp_all
      obtain ⟨A, plcp, mx, fs, e1, e2, e3, h⟩ := lcp_strategies_greedy_partial s hst' pk threshold text sa hth hsa hs hlen
      obtain ⟨h2, hdis, -⟩ := LcpGreedy.spec hth fs [] h
      obtain ⟨hperm, hsort⟩ := sortFactors_spec fs
      refine ⟨A, plcp, mx, fs, e1, e2, e3, ?_, ?_, ?_⟩
      · refine ordered_of _ hsort ((hperm.pairwise_iff (fun h => Disj.symm h)).mpr hdis) ?_ 0 (Nat.zero_le _) (fun _ _ => Nat.zero_le _)
        intro f hf
        obtain ⟨a, b⟩ := h2 f (hperm.mem_iff.mp hf)
        have := pred_bounds hs hsa b
        omega
      · exact resolvable_of_pred hsa fun f hf => (h2 f (hperm.mem_iff.mp hf)).2
      · intro f hf
        exact (h2 f (hperm.mem_iff.mp hf)).1
  obtain ⟨A, plcp, mx, fs, e1, e2, e3, ho, hr, hl⟩ := key
  rw [lcpFactorsOf, e1, e2]
  simp only [e3]
  cases flat with
  | false => exact ⟨_, rfl, ho, hr, hl, by intro h; cases h⟩
  | true =>
    obtain ⟨gs, e, a, b, c, d, g⟩ := flatten_spec ho (fun f hf => by have := hl f hf; omega) hr
    refine ⟨gs, e, a, b, ?_, fun _ => c⟩
    intro f hf
    obtain ⟨k, hk, rfl⟩ := List.mem_iff_getElem.mp hf
    have := g k _ _ (List.getElem?_eq_getElem (by omega)) (List.getElem?_eq_getElem hk)
    rw [this.2]
    exact hl _ (List.getElem_mem _)

/-- **C40** (missing: MaxHeapStrategy and `threshold = 0`, for which the claim is false, see below). `lcpcomp` is lossless: for every text, every `threshold ≥ 1`, every strategy but MaxHeapStrategy, with and without
`flatten`, every packing of the arrays, every coder and every decode buffer (PLCPStrategy: up to `2^31` bytes, beyond which its 32 bit arithmetic wraps). -/
theorem lcpcomp_lossless_partial (c : CoderName) (s : Strategy) (hst : s ≠ .maxHeap) (d : DecName) (hd : d.Ok) (flat : Bool) (pk : Packs)
    (threshold : Nat) (text : List UInt8) (sa : List Nat) (hth : 1 ≤ threshold) (hsa : IsSA text sa) (hs : Sentinel text)
    (hlen : text.length < 2 ^ 32) (h31 : s = .plcp → text.length ≤ 2 ^ 31) :
    ∃ bytes, lcpCompress c.coder s flat pk threshold text sa = .ok bytes ∧ lcpDecompress c.coder d bytes = .ok text := by
  obtain ⟨fs, e, ho, hr, -, -⟩ := lcpFactorsOf_spec s hst flat pk threshold text sa hth hsa hs (by omega) h31
  refine ⟨_, ?_, lcp_decode_any c d hd text fs hs hlen ho hr⟩
  rw [lcpCompress, e]
  simp only [lzssEncodeW_eq text fs (by omega) ho]

/-- **C40 (PLCPPeaks).** This strategy is lossless for `threshold = 0` as well. -/
theorem lcpcomp_peaks_lossless (c : CoderName) (d : DecName) (hd : d.Ok) (pk : Packs)
    (threshold : Nat) (text : List UInt8) (sa : List Nat) (hsa : IsSA text sa) (hs : Sentinel text)
    (hlen : text.length < 2 ^ 32) (flat : Bool) :
    ∃ bytes, lcpCompress c.coder .peaks flat pk threshold text sa = .ok bytes ∧ lcpDecompress c.coder d bytes = .ok text := by
  by_cases hth : 1 ≤ threshold
  · exact lcpcomp_lossless_partial c .peaks (by decide) d hd flat pk threshold text sa hth hsa hs hlen (by intro h; cases h)
  · obtain rfl : threshold = 0 := by omega
    -- every factor has at least one character, so `0` acts like `1`
    have h01 : ∀ (A : TextArrays) (plcp : List Nat) (n fuel last i : Nat), peaksLoop A plcp 0 n fuel last i = peaksLoop A plcp 1 n fuel last i := by
      intro A plcp n fuel
      have hp : ∀ last i, isPeak plcp 0 last i = isPeak plcp 1 last i := by
        intro last i
        have hb : ∀ x y : Nat, (decide (x > y) && decide (x ≥ 0)) = (decide (x > y) && decide (x ≥ 1)) := by
          intro x y
          rw [Bool.eq_iff_iff]
          simp only [Bool.and_eq_true, decide_eq_true_eq]
          omega
        unfold isPeak
        simp only [hb, Bool.and_assoc]
      induction fuel with
      | zero => intro last i; rfl
      | succ fuel ih =>
        intro last i
        simp only [peaksLoop, hp, ih]
    obtain ⟨bytes, h1, h2⟩ := lcpcomp_lossless_partial c .peaks (by decide) d hd flat pk 1 text sa (Nat.le_refl _) hsa hs hlen (by intro h; cases h)
    refine ⟨bytes, ?_, h2⟩
    rw [← h1, lcpCompress, lcpCompress, lcpFactorsOf, lcpFactorsOf]
    simp only [Strategy.factorize, peaksComp, h01]

/-! The registry offers ASCII, SLE and Huffman coders for `lcpcomp` (etc/registry_config.py:138-142). -/

/-- `decompress` with the Huffman coder (LCPCompressor.hpp:140-150) -/
def lcpHuffDecompress (d : DecName) (bytes : List UInt8) : Res (List UInt8) :=
  match lzssHuffOps bytes with
  | .error e => .error e
  | .ok (n, ops) => d.run n ops

/-- `decompress` with the SLE coder (LCPCompressor.hpp:140-150) -/
def lcpSleDecompress (k : Nat) (d : DecName) (bytes : List UInt8) : Res (List UInt8) :=
  match lzssSleOps k bytes with
  | .error e => .error e
  | .ok (n, ops) => d.run n ops

theorem decoder_run (d : DecName) (hd : d.Ok) (text : List UInt8) (fs : List Factor) (hs : Sentinel text)
    (ho : FactorsOrdered text.length 0 fs) (hr : Resolvable text fs) : d.run text.length (opsFrom text fs 0) = .ok text := by
  cases d with
  | scan k => exact runScan_spec k hs ho hr
  | compact => exact runDirect_spec true ho hr (fun _ => no_null hs ho hr)
  | queueList => exact runDirect_spec false ho hr (by intro h; cases h)
  | multimap k ins => exact runMulti_spec ins hd k ho hr

/-- **C40** with the Huffman coder (missing as above; and byte 255, with which this coder is wrong, see `huffman_byte255_broken`). -/
theorem lcpcomp_huffman_lossless_partial (std : StdLib) (s : Strategy) (hst : s ≠ .maxHeap) (d : DecName) (hd : d.Ok) (flat : Bool)
    (pk : Packs) (threshold : Nat) (text : List UInt8) (sa : List Nat) (hth : 1 ≤ threshold) (hsa : IsSA text sa) (hs : Sentinel text)
    (hlen : text.length < 2 ^ 32) (h31 : s = .plcp → text.length ≤ 2 ^ 31) (h255 : (255 : UInt8) ∉ text) :
    ∃ fs bytes, lcpFactorsOf s flat pk threshold text sa = .ok fs ∧ lzssHuffEncode std text fs = .ok bytes ∧
      lcpHuffDecompress d bytes = .ok text := by
  obtain ⟨fs, e, ho, hr, -, -⟩ := lcpFactorsOf_spec s hst flat pk threshold text sa hth hsa hs (by omega) h31
  obtain ⟨bytes, h1, h2⟩ := lzss_huffman_ops std text fs hlen h255 ho
  refine ⟨fs, bytes, e, h1, ?_⟩
  rw [lcpHuffDecompress, h2]
  exact decoder_run d hd text fs hs ho hr

/-- **C40** with the SLE coder (missing as above; `k` outside 1 … 7 is broken, see `sle_k8_broken`). -/
theorem lcpcomp_sle_lossless_partial (k : Nat) (hk1 : 1 ≤ k) (hk7 : k ≤ 7) (s : Strategy) (hst : s ≠ .maxHeap) (d : DecName) (hd : d.Ok)
    (flat : Bool) (pk : Packs) (threshold : Nat) (text : List UInt8) (sa : List Nat) (hth : 1 ≤ threshold) (hsa : IsSA text sa)
    (hs : Sentinel text) (hlen : text.length < 2 ^ 32) (h31 : s = .plcp → text.length ≤ 2 ^ 31) :
    ∃ fs bytes, lcpFactorsOf s flat pk threshold text sa = .ok fs ∧ lzssSleEncode k text fs = .ok bytes ∧
      lcpSleDecompress k d bytes = .ok text := by
  obtain ⟨fs, e, ho, hr, -, -⟩ := lcpFactorsOf_spec s hst flat pk threshold text sa hth hsa hs (by omega) h31
  have hn := hs.len_pos
  have hunc : Uncovered fs (text.length - 1) := by
    intro f hf hc
    refine no_null hs ho hr f hf (text.length - 1 - f.pos) (by omega) ?_
    rw [show f.pos + (text.length - 1 - f.pos) = text.length - 1 by omega]
    obtain ⟨u, rfl, -⟩ := hs
    simp
  obtain ⟨bytes, h1, h2⟩ := SLE.lzss_sle_ops k hk1 hk7 text fs (Or.inr ⟨_, by omega, hunc⟩) hlen ho
  refine ⟨fs, bytes, e, h1, ?_⟩
  rw [lcpSleDecompress, h2]
  exact decoder_run d hd text fs hs ho hr

example : Strategy.maxLcp ≠ .maxHeap ∧ (DecName.scan 5).Ok ∧ (1 ≤ 2) ∧ IsSA [97, 98, 97, 98, 0] [4, 2, 0, 3, 1] ∧ Sentinel [97, 98, 97, 98, 0] :=
  ⟨by decide, trivial, by decide, isSA_abab, sentinel_abab⟩

/-! ### C41: flatten -/

/-- **C41.** `flatten` redirects references so that no source lies inside of what a single factor replaces; targets and lengths stay,
the result can be resolved to the same text, and the procedure terminates. -/
theorem lcp_flatten_sound (text : List UInt8) (fs : List Factor) (ho : FactorsOrdered text.length 0 fs) (hl : ∀ f ∈ fs, 1 ≤ f.len)
    (hr : Resolvable text fs) :
    ∃ gs, flatten fs = .ok gs ∧ FactorsOrdered text.length 0 gs ∧ Resolvable text gs ∧ Flat gs ∧
      gs.map (fun g => (g.pos, g.len)) = fs.map fun f => (f.pos, f.len) := by
  obtain ⟨gs, e, a, b, c, d, g⟩ := flatten_spec ho hl hr
  refine ⟨gs, e, a, b, c, ?_⟩
  apply List.ext_getElem
  · simp [d]
  · intro k h1 h2
    simp only [List.length_map] at h1 h2
    obtain ⟨x, y⟩ := g k _ _ (List.getElem?_eq_getElem h2) (List.getElem?_eq_getElem h1)
    simp only [List.getElem_map, x, y]

example : flatten [⟨0, 2, 2⟩, ⟨2, 4, 2⟩] = .ok [⟨0, 4, 2⟩, ⟨2, 4, 2⟩] := by decide
/-- a cycle makes it run forever -/
example : flatten [⟨0, 1, 1⟩, ⟨1, 0, 1⟩] = .error .loop := by decide

/-! ### MaxHeapStrategy is wrong -/

/-- `agcbbbeeeceaaagggcbbeeagcbeceeeeecbbb` and the sentinel -/
def heapText : List UInt8 :=
  [97, 103, 99, 98, 98, 98, 101, 101, 101, 99, 101, 97, 97, 97, 103, 103, 103, 99, 98, 98, 101, 101, 97, 103, 99, 98, 101, 99, 101, 101, 101, 101,
   101, 99, 98, 98, 98, 0]

def heapSA : List Nat :=
  [37, 11, 12, 0, 22, 13, 36, 35, 34, 3, 18, 4, 25, 19, 5, 33, 2, 17, 24, 9, 27, 10, 21, 32, 8, 26, 20, 31, 7, 30, 6, 29, 28, 1, 16, 23, 15, 14]

def noPacks : Packs := ⟨false, false, false, false, false⟩

theorem isSA_heapText : IsSA heapText heapSA := by
  refine ⟨rfl, by decide, ?_⟩
  intro i j s t hij hi hj
  obtain ⟨hil, rfl⟩ := List.getElem?_eq_some_iff.mp hi
  obtain ⟨hjl, rfl⟩ := List.getElem?_eq_some_iff.mp hj
  have : ∀ (j : Fin 38) (i : Fin 38), i < j → heapText.drop (heapSA[i]'i.2) < heapText.drop (heapSA[j]'j.2) := by
    decide +kernel
  exact this ⟨j, hjl⟩ ⟨i, hil⟩ hij

theorem sentinel_heapText : Sentinel heapText := ⟨heapText.dropLast, by decide, by decide⟩

def heapFactors : List Factor :=
  [⟨2, 33, 2⟩, ⟨4, 18, 4⟩, ⟨8, 32, 2⟩, ⟨12, 11, 2⟩, ⟨14, 15, 2⟩, ⟨16, 1, 4⟩, ⟨19, 25, 2⟩, ⟨22, 0, 4⟩, ⟨26, 8, 2⟩, ⟨28, 29, 4⟩, ⟨34, 35, 2⟩]

def heapRaw : List Factor :=
  [⟨22, 0, 4⟩, ⟨4, 18, 4⟩, ⟨28, 29, 4⟩, ⟨19, 25, 2⟩, ⟨16, 1, 4⟩, ⟨12, 11, 2⟩, ⟨8, 32, 2⟩, ⟨14, 15, 2⟩, ⟨34, 35, 2⟩, ⟨2, 33, 2⟩, ⟨26, 8, 2⟩]

theorem heapRaw_eq : (match textDS noPacks heapText heapSA, textPLCP noPacks heapText heapSA with
    | .ok A, .ok (plcp, mx) => Strategy.maxHeap.factorize heapText A plcp mx 2
    | _, _ => .error .ub) = .ok heapRaw := by decide +kernel

theorem heapSorted_eq : sortFactors heapRaw = heapFactors := by
  obtain ⟨h1, h2⟩ := sortFactors_spec heapRaw
  have h3 : heapRaw.Perm heapFactors := by decide
  have h4 : heapFactors.Pairwise (fun a b => a.pos ≤ b.pos) := by decide
  refine List.Perm.eq_of_pairwise ?_ h2 h4 (h1.trans h3)
  intro a b ha hb hab hba
  have ha' := (h1.trans h3).mem_iff.mp ha
  have key : ∀ a ∈ heapFactors, ∀ b ∈ heapFactors, a.pos = b.pos → a = b := by decide
  exact key a ha' b hb (by omega)

theorem heapFactors_eq : lcpFactorsOf .maxHeap false noPacks 2 heapText heapSA = .ok heapFactors := by
  have h := heapRaw_eq
  unfold lcpFactorsOf
  revert h
  rcases textDS noPacks heapText heapSA with e | A
  · intro h; cases h
  rcases textPLCP noPacks heapText heapSA with e | ⟨plcp, mx⟩
  · intro h; cases h
  · intro h
    simp only at h
    simp only [h, heapSorted_eq, Bool.false_eq_true, if_false]

/-- PLCPStrategy on the same text: the peak at 26 is cut by the longer one at 28 -/
example : (match textDS noPacks heapText heapSA with
    | .ok A => plcpComp heapText A 2
    | .error e => .error e) = .ok [⟨2, 33, 4⟩, ⟨6, 30, 4⟩, ⟨12, 11, 2⟩, ⟨14, 15, 2⟩, ⟨16, 1, 4⟩, ⟨22, 0, 4⟩, ⟨28, 29, 4⟩, ⟨26, 8, 2⟩, ⟨34, 35, 2⟩] := by
  decide +kernel

/-- **C39 (negation).** MaxHeapStrategy does not keep factors apart: ArrayMaxHeap loses its order after `remove` (see
`heap_max_broken`), a stale maximum is taken, and two factors replace the same character. The sorted factors violate
the encoder's `DCHECK_LE(p, factor.pos)` (LZSSCoding.hpp:68). -/
theorem maxheap_overlapping :
    IsSA heapText heapSA ∧ Sentinel heapText ∧
    ∃ fs f g, lcpFactorsOf .maxHeap false noPacks 2 heapText heapSA = .ok fs ∧ f ∈ fs ∧ g ∈ fs ∧ f.pos < g.pos ∧ g.pos < f.pos + f.len :=
  ⟨isSA_heapText, sentinel_heapText, heapFactors, ⟨16, 1, 4⟩, ⟨19, 25, 2⟩, heapFactors_eq, by decide, by decide, by decide, by decide⟩

/-- what the decoder reads from the compressed witness -/
def heapOps : List DecOp :=
  [.fac 0 2, .fac 0 2, .fac 0 2, .fac 0 2, .fac 0 2, .fac 0 2, .fac 9 4, .fac 11 2] ++
  [66, 82, 2, 0, 0, 0, 0, 0, 0, 0, 4, 202, 194, 88, 60, 3, 127, 255, 255, 255, 255, 255, 255, 255, 217, 0, 66, 3, 180, 0, 0, 0, 0, 0, 0, 0, 9, 149, 142, 50, 0, 0, 0, 0, 0, 0, 0, 4, 196, 0, 0, 0, 0, 0, 0, 0].map .lit

theorem eq_error {α : Type} {x : Res α} (h : (match x with | .error e => decide (e = .ub) | .ok _ => false) = true) : x = .error .ub := by
  cases x with
  | error e => exact congrArg _ (of_decide_eq_true h)
  | ok a => cases h

/-- **C40 (negation).** With MaxHeapStrategy `lcpcomp` is not lossless: there is a text whose compression succeeds but cannot be
decompressed. -/
theorem maxheap_lossy :
    ∃ text sa bytes, IsSA text sa ∧ Sentinel text ∧ lcpCompress bitCoder .maxHeap false noPacks 2 text sa = .ok bytes ∧
      ∀ d : DecName, lcpDecompress bitCoder d bytes ≠ .ok text := by
  refine ⟨heapText, heapSA, BitO.toBytes (bitCoder.encAll (lzssEncodeW heapText heapFactors)), isSA_heapText, sentinel_heapText, ?_, ?_⟩
  · rw [lcpCompress, heapFactors_eq]
  · intro d
    have hdec : lzssDecode bitCoder (bitsOf (BitO.toBytes (bitCoder.encAll (lzssEncodeW heapText heapFactors)))) = .ok (38, heapOps) := by
      decide +kernel
    have h1 : runDirect true 38 heapOps = .error .ub := by decide +kernel
    have h2 : runDirect false 38 heapOps = .error .ub := by decide +kernel
    have h3 : heapOps.foldlM (SB.op true) ⟨List.replicate 38 0, List.replicate 38 false, 0, []⟩ = .error .ub :=
      eq_error (by decide +kernel)
    have h4 : heapOps.foldlM (SB.op false) ⟨List.replicate 38 0, List.replicate 38 false, 0, []⟩ = .error .ub :=
      eq_error (by decide +kernel)
    rw [lcpDecompress, lcpDecodeBits, hdec]
    simp only
    cases d with
    | scan k => rw [DecName.run, runScan, h3]; simp
    | compact => rw [DecName.run, h1]; simp
    | queueList => rw [DecName.run, h2]; simp
    | multimap k ins => rw [DecName.run, runMulti, h4]; simp

end LC
end Tdc
