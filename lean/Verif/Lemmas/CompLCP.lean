import Verif.Model.CompLCP
import Verif.Lemmas.SparseISA
import Verif.Props.TextDS

namespace Tdc
namespace CL
open RS

/-- `plcp` sequences as they occur: each entry is at least its predecessor minus one -/
def Slow : Nat → List Nat → Prop
  | _, [] => True
  | prev, p :: ps => prev ≤ p + 1 ∧ p < 2 ^ 32 - 1 ∧ Slow p ps

/-- the unary code of the differences -/
def uBits : Nat → List Nat → List Bool
  | _, [] => []
  | prev, p :: ps => encUnary (p + 1 - prev) ++ uBits p ps

theorem cBitsLoop_eq : ∀ (ps : List Nat) (prev : Nat), prev < 2 ^ 32 - 1 → Slow prev ps → cBitsLoop prev ps = uBits prev ps
  | [], _, _, _ => rfl
  | p :: ps, prev, hp, h => by
    obtain ⟨h1, h2, h3⟩ := h
    rw [cBitsLoop, uBits, cBitsLoop_eq ps p h2 h3]
    congr 2
    rw [step32]
    omega

theorem encUnary_length (x : Nat) : (encUnary x).length = x + 1 := by simp [encUnary]

theorem encUnary_count (x : Nat) : (encUnary x).count true = 1 := by
  simp [encUnary, List.count_append, List.count_replicate]

theorem uBits_count : ∀ (ps : List Nat) (prev : Nat), (uBits prev ps).count true = ps.length
  | [], _ => rfl
  | p :: ps, prev => by rw [uBits, List.count_append, encUnary_count, uBits_count ps p, List.length_cons]; omega

theorem isKth_append_left {l m : List Bool} {k p : Nat} (h : IsKth l true k p) : IsKth (l ++ m) true k p := by
  have hp : p < l.length := (List.getElem?_eq_some_iff.mp h.1).1
  refine ⟨?_, ?_⟩
  · rw [List.getElem?_append_left hp]; exact h.1
  · rw [List.take_append_of_le_length (by omega)]; exact h.2

theorem isKth_append_right {l m : List Bool} {k p : Nat} (h : IsKth m true k p) : IsKth (l ++ m) true (l.count true + k) (l.length + p) := by
  refine ⟨?_, ?_⟩
  · rw [List.getElem?_append_right (by omega), Nat.add_sub_cancel_left]; exact h.1
  · rw [List.take_append, List.take_of_length_le (by omega), Nat.add_sub_cancel_left, List.count_append]
    have := h.2
    omega

theorem encUnary_kth (x : Nat) : IsKth (encUnary x) true 1 x := by
  refine ⟨?_, ?_⟩
  · rw [encUnary, List.getElem?_append_right (by simp)]; simp
  · rw [encUnary, List.take_append_of_le_length (by simp)]
    simp [List.count_replicate]

/-- entry `j` is found at its value plus `2 j` (relative to the entry before the sequence) -/
theorem uBits_kth : ∀ (ps : List Nat) (prev j p : Nat), Slow prev ps → ps[j]? = some p →
    ∃ q, IsKth (uBits prev ps) true (j + 1) q ∧ q + prev = p + 2 * j + 1
  | [], _, j, p, _, h => by simp at h
  | p0 :: ps, prev, j, p, hs, h => by
    obtain ⟨h1, h2, h3⟩ := hs
    cases j with
    | zero =>
      simp at h
      subst h
      exact ⟨p0 + 1 - prev, isKth_append_left (encUnary_kth _), by omega⟩
    | succ j =>
      simp at h
      obtain ⟨q, hq, he⟩ := uBits_kth ps p0 j p h3 h
      refine ⟨(p0 + 1 - prev) + 1 + q, ?_, by omega⟩
      have := isKth_append_right (l := encUnary (p0 + 1 - prev)) hq
      rw [encUnary_count, encUnary_length, show 1 + (j + 1) = j + 1 + 1 by omega] at this
      exact this

theorem uBits_length : ∀ (ps : List Nat) (prev : Nat), Slow prev ps → (uBits prev ps).length + prev = ps.getLastD prev + 2 * ps.length
  | [], prev, _ => by simp [uBits]
  | p :: ps, prev, h => by
    obtain ⟨h1, h2, h3⟩ := h
    rw [uBits, List.length_append, encUnary_length]
    have := uBits_length ps p h3
    rw [List.getLastD_cons, List.length_cons]
    omega

theorem decodePos_eq {v j : Nat} (hv : v < 2 ^ 32) (hj : j < 2 ^ 32) : decodePos (v + 2 * j + 1) j = v := by
  rw [decodePos]; omega

theorem sadaPos_eq {v j : Nat} (hv : v < 2 ^ 32) (hj : j < 2 ^ 32) : sadaPos (v + 2 * j) j = v := by
  rw [sadaPos]; omega

theorem slow_lt : ∀ (ps : List Nat) (prev j p : Nat), Slow prev ps → ps[j]? = some p → p < 2 ^ 32 - 1
  | [], _, j, p, _, h => by simp at h
  | p0 :: ps, prev, j, p, hs, h => by
    cases j with
    | zero => simp at h; subst h; exact hs.2.1
    | succ j => simp at h; exact slow_lt ps p0 j p hs.2.2 h

theorem getLastD_lt : ∀ (ps : List Nat) (prev : Nat), prev < 2 ^ 32 → Slow prev ps → ps.getLastD prev < 2 ^ 32
  | [], prev, h, _ => by simpa using h
  | p :: ps, prev, h, hs => by rw [List.getLastD_cons]; exact getLastD_lt ps p (by have := hs.2.1; omega) hs.2.2

/-- the compressed form of any slowly falling sequence gives back its entries -/
theorem build_get (sa plcp : List Nat) (mx : Nat) (hne : plcp ≠ []) (hl : plcp.length < 2 ^ 32) (hs : Slow 0 plcp) :
    ∃ C, build sa plcp mx = .ok C ∧ C.max = mx ∧ ∀ i j v : Nat, sa[i]? = some j → plcp[j]? = some v → C.get i = .ok v := by
  obtain ⟨p, ps, rfl⟩ := List.exists_cons_of_ne_nil hne
  have hp := hs.2.1
  have hb : cBits (p :: ps) = .ok (uBits 0 (p :: ps)) := by
    rw [cBits, cBitsLoop_eq ps p hp hs.2.2, uBits]
    congr 3
    rw [add32]
    omega
  have hlen := uBits_length (p :: ps) 0 hs
  have hgl := getLastD_lt (p :: ps) 0 (by decide) hs
  obtain ⟨S, e, hS⟩ := select1_exact (BV.ofBits (uBits 0 (p :: ps))) (ofBits_wf _ (by omega))
    (by show (uBits 0 (p :: ps)).length < _; omega) (ofBits_padding _)
  rw [ofBits_bits] at hS
  refine ⟨⟨sa, mx, S⟩, ?_, rfl, ?_⟩
  · rw [build, hb]
    show (do
      let S ← Select.build basic1 (BV.ofBits (uBits 0 (p :: ps)))
      .ok ⟨sa, mx, S⟩ : Res CLCP) = _
    rw [e]
    rfl
  · intro i j v hi hj
    obtain ⟨q, hq, he⟩ := uBits_kth _ 0 j v hs hj
    have hv := slow_lt _ 0 j v hs hj
    have hjl : j < (p :: ps).length := (List.getElem?_eq_some_iff.mp hj).1
    obtain ⟨q', e1, hq'⟩ := (hS (j + 1) (by omega)).1 (by rw [uBits_count]; omega)
    obtain rfl := hq.unique hq'
    rw [CLCP.get]
    show (do
      let j ← vget sa i
      let p ← S.select basic1 (j + 1)
      .ok (decodePos p j) : Res Nat) = _
    rw [vget_ok hi]
    show (do
      let p ← S.select basic1 (j + 1)
      .ok (decodePos p j) : Res Nat) = _
    rw [e1]
    show Except.ok (decodePos q j) = _
    rw [show q = v + 2 * j + 1 by omega, decodePos_eq (by omega) (by omega)]

/-! ### Sadakane's bit vector -/

theorem sadaLen_mod : ∀ (ps : List Nat) (prev len : Nat), prev < 2 ^ 32 → Slow prev ps →
    (sadaLen prev len ps + prev) % 2 ^ 32 = (len + ps.getLastD prev + ps.length) % 2 ^ 32
  | [], prev, len, _, _ => by simp [sadaLen]
  | p :: ps, prev, len, hp, hs => by
    obtain ⟨h1, h2, h3⟩ := hs
    rw [List.getLastD_cons, List.length_cons, sadaLen]
    have := sadaLen_mod ps p (step32 len p prev 1) (by omega) h3
    rw [step32] at *
    omega

theorem set_replicate_split (l : List Bool) (a b : Nat) : (l ++ List.replicate (a + 1 + b) false).set (l.length + a) true =
    (l ++ encUnary a) ++ List.replicate b false := by
  rw [List.set_append_right _ _ (by omega), Nat.add_sub_cancel_left, List.append_assoc]
  congr 1
  rw [encUnary, List.append_assoc, show a + 1 + b = a + (1 + b) by omega, List.replicate_add, List.set_append_right _ _ (by simp)]
  congr 1
  simp [List.replicate_add]

theorem step32_eq {len p prev c : Nat} (h : prev ≤ p + c) (hl : len + (p + c - prev) < 2 ^ 32) (hp : prev < 2 ^ 32) : step32 len p prev c = len + (p + c - prev) := by
  rw [step32]; omega

theorem sadaSet_eq (ps : List Nat) : ∀ (prev len : Nat) (done : List Bool), prev < 2 ^ 32 → Slow prev ps → done.length = len + 1 →
    done.length + (uBits prev ps).length ≤ 2 ^ 32 →
    sadaSet prev len (done ++ List.replicate (uBits prev ps).length false) ps = .ok (done ++ uBits prev ps) := by
  induction ps with
  | nil => intro prev len done _ _ _ _; rw [sadaSet]; simp [uBits]
  | cons p ps ih =>
    intro prev len done hp hs hd hl
    obtain ⟨h1, h2, h3⟩ := hs
    have hL : (uBits prev (p :: ps)).length = (p + 1 - prev) + 1 + (uBits p ps).length := by
      rw [uBits, List.length_append, encUnary_length]
    rw [hL] at hl ⊢
    have hlen : step32 len p prev 2 = done.length + (p + 1 - prev) := by
      rw [step32_eq (by omega) (by omega) hp]; omega
    have hv : vset (done ++ List.replicate (p + 1 - prev + 1 + (uBits p ps).length) false) (done.length + (p + 1 - prev)) true =
        .ok ((done ++ encUnary (p + 1 - prev)) ++ List.replicate (uBits p ps).length false) := by
      rw [vset_ok _ (by rw [List.length_append, List.length_replicate]; omega), set_replicate_split]
    have hd' : (done ++ encUnary (p + 1 - prev)).length = done.length + (p + 1 - prev) + 1 := by
      rw [List.length_append, encUnary_length]; omega
    have := ih p (done.length + (p + 1 - prev)) (done ++ encUnary (p + 1 - prev)) (by omega) h3 hd' (by rw [hd']; omega)
    rw [sadaSet, hlen]
    rw [hv]
    show sadaSet p _ _ ps = _
    rw [this, uBits, List.append_assoc]

/-- the bit vector of a slowly falling sequence ending in a small number: `p` zeros first -/
theorem sadaBits_eq (p : Nat) (ps : List Nat) (hs : Slow 0 (p :: ps)) (hl : (p :: ps).getLastD 0 + 2 * (p :: ps).length ≤ 2 ^ 32) :
    sadaBits (p :: ps) = .ok (encUnary p ++ uBits p ps) := by
  obtain ⟨-, h2, h3⟩ := hs
  rw [List.getLastD_cons] at hl
  have hlen := sadaLen_mod ps p p (by omega) h3
  have hu := uBits_length ps p h3
  rw [List.length_cons] at hl
  have hsize : add32 (sadaLen p p ps) (ps.length + 1) = p + 1 + (uBits p ps).length := by rw [add32]; omega
  have hset : (List.replicate (p + 1 + (uBits p ps).length) false).set p true = encUnary p ++ List.replicate (uBits p ps).length false := by
    have := set_replicate_split [] p (uBits p ps).length
    simpa using this
  rw [sadaBits, hsize, vset_ok _ (by simp; omega), hset]
  show sadaSet p p _ ps = _
  exact sadaSet_eq ps p p (encUnary p) (by omega) h3 (encUnary_length p) (by rw [encUnary_length]; omega)

theorem sada_kth (p : Nat) (ps : List Nat) (hs : Slow 0 (p :: ps)) (j v : Nat) (h : (p :: ps)[j]? = some v) :
    IsKth (encUnary p ++ uBits p ps) true (j + 1) (v + 2 * j) := by
  cases j with
  | zero =>
    simp at h
    subst h
    exact isKth_append_left (encUnary_kth p)
  | succ j =>
    simp at h
    obtain ⟨q, hq, he⟩ := uBits_kth ps p j v hs.2.2 h
    have := isKth_append_right (l := encUnary p) hq
    rw [encUnary_count, encUnary_length, show 1 + (j + 1) = j + 1 + 1 by omega, show p + 1 + q = v + 2 * (j + 1) by omega] at this
    exact this

/-! ### the forward iterator -/

/-- invariant of the iterator on a bit vector: `rank` ones in the words before `block`, none of them beyond the current one -/
structure FwdInv (bv : BV) (s : FwdIt) : Prop where
  rank : s.rank = cnt (bitAt bv.data) (64 * s.block)
  le : s.rank ≤ s.idx
  blk : s.block ≤ bv.data.length

theorem rd_ok {data : List Nat} {j : Nat} (h : j < data.length) : rd data j = .ok (data.getD j 0) := by
  rw [rd, List.getD_eq_getElem?_getD, List.getElem?_eq_getElem h]; rfl

theorem popcount_block (data : List Nat) (b : Nat) : cnt (bitAt data) (64 * (b + 1)) = cnt (bitAt data) (64 * b) + popcount (data.getD b 0) := by
  rw [show 64 * (b + 1) = 64 * b + 64 by omega, cnt_add, popcount_eq]
  congr 1
  apply cnt_congr
  intro i hi
  rw [bitAt, show (64 * b + i) / 64 = b by omega, show (64 * b + i) % 64 = i by omega]

theorem fwdSkip_spec (bv : BV) (h : bv.WF) (K : Nat) (hK : K < cnt (bitAt bv.data) (64 * bv.data.length)) : ∀ (fuel : Nat) (s : FwdIt),
    s.idx = K → FwdInv bv s → bv.data.length - s.block < fuel → s.block < bv.data.length →
    ∃ s', fwdSkip bv.data bv.data.length fuel s = .ok s' ∧ s'.idx = K ∧ FwdInv bv s' ∧ s'.block < bv.data.length ∧
      s'.idx < s'.rank + popcount (bv.data.getD s'.block 0) := by
  intro fuel
  induction fuel with
  | zero => intro s _ _ hf; omega
  | succ fuel ih =>
    intro s hidx I hf hb
    rw [fwdSkip, if_pos hb, rd_ok hb]
    show ∃ s', (if s.rank + popcount (bv.data.getD s.block 0) ≥ s.idx + 1 then Except.ok s else fwdSkip bv.data bv.data.length fuel _) = _ ∧ _
    by_cases hc : s.rank + popcount (bv.data.getD s.block 0) ≥ s.idx + 1
    · rw [if_pos hc]
      exact ⟨s, rfl, hidx, I, hb, by omega⟩
    · rw [if_neg hc]
      have hr := popcount_block bv.data s.block
      have hI := I.rank
      have hb' : s.block + 1 < bv.data.length := by
        rcases Nat.lt_or_ge (s.block + 1) bv.data.length with h1 | h1
        · exact h1
        · exfalso
          have : s.block + 1 = bv.data.length := by omega
          rw [this] at hr
          omega
      exact ih ⟨s.idx, s.block + 1, s.rank + popcount (bv.data.getD s.block 0)⟩ hidx
        ⟨by show s.rank + popcount (bv.data.getD s.block 0) = cnt (bitAt bv.data) (64 * (s.block + 1)); omega, by show s.rank + popcount (bv.data.getD s.block 0) ≤ s.idx; omega, by show s.block + 1 ≤ _; omega⟩ (by show _ - (s.block + 1) < _; omega) hb'

theorem nextSelect_spec (bv : BV) (h : bv.WF) (s : FwdIt) (I : FwdInv bv s) (hK : s.idx < bv.bits.count true) :
    ∃ p s', nextSelect bv s = .ok (p, s') ∧ s'.idx = s.idx ∧ FwdInv bv s' ∧ IsKth bv.bits true (s.idx + 1) p := by
  have hcn : bv.bits.count true = cnt (bitAt bv.data) bv.n := by
    rw [← count_take_bits bv bv.n (Nat.le_refl _), List.take_of_length_le (by rw [BV.bits_length])]
  have hn : 0 < bv.n := by
    rcases Nat.eq_zero_or_pos bv.n with h0 | h0
    · rw [h0] at hcn; simp at hcn; omega
    · exact h0
  have hchunks : 1 + (bv.n - 1) / 64 = bv.data.length := by rw [h.len, idivCeil64]; omega
  have hlen64 : bv.n ≤ 64 * bv.data.length := by rw [h.len, idivCeil64]; omega
  have htot : s.idx < cnt (bitAt bv.data) (64 * bv.data.length) := by
    have := cnt_mono (bitAt bv.data) hlen64
    omega
  have hb : s.block < bv.data.length := by
    rcases Nat.lt_or_ge s.block bv.data.length with h1 | h1
    · exact h1
    · exfalso
      have h2 : s.block = bv.data.length := by have := I.blk; omega
      have h3 := I.rank
      have h4 := I.le
      rw [h2] at h3
      omega
  obtain ⟨s', e, hidx, I', hb', hlt⟩ := fwdSkip_spec bv h s.idx htot (bv.data.length + 1) s rfl I (by omega) hb
  have hw : bv.data.getD s'.block 0 < 2 ^ 64 := by
    refine h.words _ ?_
    rw [List.getD_eq_getElem?_getD, List.getElem?_eq_getElem hb']
    exact List.getElem_mem hb'
  have hle := I'.le
  have hrk := I'.rank
  obtain ⟨q, hq, hsel⟩ := exists_sel (fun k => (bv.data.getD s'.block 0).testBit k) (s'.idx + 1 - s'.rank) 64 (by omega) (by
    rw [← popcount_eq]; omega)
  have hsw : select1w (bv.data.getD s'.block 0) (s'.idx + 1 - s'.rank) = q := basic1_good.sel _ hw _ q hq hsel
  have hsel' : IsSel (bitAt bv.data) (s.idx + 1) (64 * s'.block + q) := by
    have h1 : IsSel (fun i => bitAt bv.data (64 * s'.block + i)) (s'.idx + 1 - s'.rank) q := by
      have hc : ∀ i, i < 64 → bitAt bv.data (64 * s'.block + i) = (bv.data.getD s'.block 0).testBit i := by
        intro i hi
        rw [bitAt, show (64 * s'.block + i) / 64 = s'.block by omega, show (64 * s'.block + i) % 64 = i by omega]
      refine ⟨(hc q hq).trans hsel.1, ?_⟩
      rw [cnt_congr (g := fun k => (bv.data.getD s'.block 0).testBit k) (fun k hk => hc k (by omega))]
      exact hsel.2
    have h2 := h1.shift
    rw [show cnt (bitAt bv.data) (64 * s'.block) + (s'.idx + 1 - s'.rank) = s.idx + 1 by omega] at h2
    exact h2
  have hpn : 64 * s'.block + q < bv.n := hsel'.lt (by omega)
  refine ⟨64 * s'.block + q, s', ?_, hidx, I', ?_, ?_⟩
  · rw [nextSelect, hchunks, e]
    show (if s'.block = bv.data.length then Except.ok (bv.n, s') else (rd bv.data s'.block).bind fun w => .ok (64 * s'.block + select1w w (s'.idx + 1 - s'.rank), s')) = _
    rw [if_neg (by omega), rd_ok hb']
    show Except.ok (64 * s'.block + select1w (bv.data.getD s'.block 0) (s'.idx + 1 - s'.rank), s') = _
    rw [hsw]
  · have := hsel'.1
    simp only [BV.bits, List.getElem?_map, List.getElem?_range hpn]
    exact congrArg some this
  · rw [count_take_bits bv _ (by omega)]
    exact hsel'.2

/-- what a client must see -/
def expect (plcp : List Nat) : Nat → List FwdOp → List Nat
  | _, [] => []
  | i, .advance :: ops => expect plcp (i + 1) ops
  | i, .read :: ops => plcp.getD i 0 :: expect plcp i ops

theorem fwdRun_spec (bv : BV) (h : bv.WF) (plcp : List Nat) (hn : plcp.length < 2 ^ 32) (hcnt : bv.bits.count true = plcp.length)
    (hk : ∀ j v : Nat, plcp[j]? = some v → v < 2 ^ 32 ∧ IsKth bv.bits true (j + 1) (v + 2 * j)) :
    ∀ (ops : List FwdOp) (s : FwdIt), FwdInv bv s → s.idx + ops.count .advance < plcp.length → fwdRun bv s ops = .ok (expect plcp s.idx ops)
  | [], _, _, _ => rfl
  | .advance :: ops, s, I, hc => by
    rw [fwdRun, expect]
    rw [List.count_cons_self] at hc
    exact fwdRun_spec bv h plcp hn hcnt hk ops { s with idx := s.idx + 1 } ⟨I.rank, by have := I.le; show s.rank ≤ s.idx + 1; omega, I.blk⟩ (by show s.idx + 1 + _ < _; omega)
  | .read :: ops, s, I, hc => by
    rw [List.count_cons_of_ne (by decide)] at hc
    have hi : s.idx < plcp.length := by omega
    obtain ⟨p, s', e, hidx, I', hp⟩ := nextSelect_spec bv h s I (by omega)
    have hv : plcp[s.idx]? = some (plcp.getD s.idx 0) := by rw [List.getD_eq_getElem?_getD, List.getElem?_eq_getElem hi]; rfl
    obtain ⟨h1, h2⟩ := hk _ _ hv
    obtain rfl := h2.unique hp
    rw [fwdRun, e]
    show (fwdRun bv s' ops).bind (fun vs => Except.ok (sadaPos (plcp.getD s.idx 0 + 2 * s.idx) s.idx :: vs)) = _
    rw [fwdRun_spec bv h plcp hn hcnt hk ops s' I' (by omega), sadaPos_eq h1 (by omega), hidx]
    rfl

end CL
end Tdc
