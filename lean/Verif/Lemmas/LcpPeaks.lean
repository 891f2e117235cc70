import Verif.Lemmas.LcpArrays

namespace Tdc
namespace LC

variable {t : List UInt8} {A : TextArrays} {th : Nat}

/-! ### The PLCP array of the compressor -/

theorem textPLCP_spec (pk : Packs) {sa : List Nat} (h : IsSA t sa) (hs : Sentinel t) (hlen : t.length < 2 ^ 64) :
    ∃ A plcp mx, textDS pk t sa = .ok A ∧ textPLCP pk t sa = .ok (plcp, mx) ∧ ArraysOk t A ∧ A.sa = sa ∧ plcp.length = t.length ∧
      (∀ p v : Nat, p + 1 < t.length → plcp[p]? = some v → IsPlcp t sa p v) ∧ ∀ i : Nat, i < t.length → A.lcp.getD i 0 ≤ mx := by
  obtain ⟨phi, plcp, mx, A, e1, e2, e3, l1, q3, q4, a, b, c, d, f, g⟩ := textDS_spec pk h hs hlen
  have hA : ArraysOk t A := ⟨a ▸ h, a ▸ g, b, c, a ▸ d⟩
  obtain ⟨phi', p1, p2, p3, p4⟩ := phiFromSA_spec h hs.len_pos
  rw [e1] at p1; cases p1
  have hb := lt_two_pow_bitsFor t.length hlen
  have hsaP : packIf pk.sa (bitsFor t.length) sa = sa := packIf_eq fun v hv => by have := h.lt v hv; omega
  have hphiP : packIf pk.phi (bitsFor t.length) phi = phi := packIf_eq fun v hv => by
    obtain ⟨p, hp, hpv⟩ := List.mem_iff_getElem.mp hv
    obtain ⟨k, hk, hke⟩ := h.idx (p := p) (by omega)
    have hv' : phi[p]? = some v := by rw [List.getElem?_eq_getElem hp, hpv]
    cases k with
    | zero =>
      have := p4 p hke
      rw [hv'] at this
      have := h.lt v (List.mem_of_getElem? this.symm)
      omega
    | succ k =>
      have := p3 k p hke
      rw [hv'] at this
      have := h.lt v (List.mem_of_getElem? this.symm)
      omega
  have hle : ∀ k i j : Nat, sa[k + 1]? = some i → sa[k]? = some j → lcpLen (t.drop i) (t.drop j) ≤ mx ∧ lcpLen (t.drop i) (t.drop j) < t.length := by
    intro k i j hi hj
    have hi1 := h.succ_lt hs hi
    obtain ⟨v, hv⟩ : ∃ v, plcp[i]? = some v := ⟨_, List.getElem?_eq_getElem (by omega)⟩
    obtain ⟨x, y⟩ := q3 i v hi1 hv
    rw [x k j hi hj] at y
    have hne : i ≠ j := by
      rintro rfl
      have := h.inj hi hj
      omega
    have := hs.lcp_lt (i := i) (j := j) (by omega) (h.lt j (List.mem_of_getElem? hj)) hne
    exact ⟨y, by omega⟩
  have hmx : mx < 2 ^ 64 := by
    rcases q4 with rfl | ⟨p, hp, hpe⟩
    · decide
    · obtain ⟨x, -⟩ := q3 p mx hp hpe
      obtain ⟨k, hk, hke⟩ := h.idx (p := p) (by omega)
      cases k with
      | zero =>
        rw [h.zero hs] at hke
        have : t.length - 1 = p := by simpa using hke
        omega
      | succ k =>
        obtain ⟨j, hj, hjl⟩ := h.get (k := k) (by omega)
        rw [x k j hke hj]
        have := (hle k p j hke hj).2
        omega
  refine ⟨A, packIf pk.plcp (bitsFor mx) plcp, mx, e3, ?_, hA, a, ?_, ?_, ?_⟩
  · rw [textPLCP, hsaP, e1]
    simp only [hphiP]
    rw [e2]
  · rw [packIf_length, l1]
  · intro p v hp hv
    have hbm := lt_two_pow_bitsFor mx hmx
    rw [packIf_get] at hv
    · exact (q3 p v hp hv).1
    · intro v hv
      have := (q3 p v hp hv).2
      omega
  · intro i hi
    cases i with
    | zero => rw [ArraysOk.lcpD0 hA]; exact Nat.zero_le _
    | succ k =>
      obtain ⟨x, hx, -⟩ := h.get (k := k + 1) hi
      obtain ⟨y, hy, -⟩ := h.get (k := k) (by omega)
      rw [ArraysOk.lcpD hA (a ▸ hx) (a ▸ hy)]
      exact (hle k x y hx hy).1

/-! ### PLCPPeaksStrategy -/

theorem vget_ok {α : Type} {l : List α} {i : Nat} {x : α} (h : l[i]? = some x) : vget l i = .ok x := by
  rw [vget, h]

theorem isPeak_spec {plcp : List Nat} {n last i : Nat} (hl : plcp.length = n) (hi : i + 1 < n) (h0 : i = 0 → last = 0) :
    ∃ b, isPeak plcp th last i = .ok b ∧ (b = true → 1 ≤ plcp.getD i 0 ∧ th ≤ plcp.getD i 0) := by
  have e1 : vget plcp i = .ok (plcp.getD i 0) := vget_ok (getElem?_of_lt (by omega))
  have e2 : vget plcp (i + 1) = .ok (plcp.getD (i + 1) 0) := vget_ok (getElem?_of_lt (by omega))
  unfold isPeak
  rw [e1, e2]
  simp only
  by_cases h : i = last
  · rw [if_pos h]
    refine ⟨_, rfl, ?_⟩
    intro hb
    simp only [Bool.and_eq_true, decide_eq_true_eq] at hb
    omega
  · rw [if_neg h, if_neg (by omega), vget_ok (getElem?_of_lt (by omega))]
    refine ⟨_, rfl, ?_⟩
    intro hb
    simp only [Bool.and_eq_true, decide_eq_true_eq] at hb
    omega

theorem peaksLoop_spec (hA : ArraysOk t A) (hs : Sentinel t) {plcp : List Nat} (hl : plcp.length = t.length)
    (hp : ∀ p v : Nat, p + 1 < t.length → plcp[p]? = some v → IsPlcp t A.sa p v) (fuel : Nat) :
    ∀ last i : Nat, i < t.length → t.length < i + fuel → (i = 0 → last = 0) →
    ∃ fs, peaksLoop A plcp th t.length fuel last i = .ok fs ∧ FactorsOrdered t.length i fs ∧
      ∀ f ∈ fs, 1 ≤ f.len ∧ th ≤ f.len ∧ (∃ k, A.sa[k + 1]? = some f.pos ∧ A.sa[k]? = some f.src) ∧
        f.len = lcpLen (t.drop f.pos) (t.drop f.src) := by
  induction fuel with
  | zero => intro last i hi hf; omega
  | succ fuel ih =>
    intro last i hi hf h0
    rw [peaksLoop]
    by_cases h : i + 1 < t.length
    · rw [if_pos h]
      obtain ⟨b, e, hb⟩ := isPeak_spec (th := th) hl h h0
      rw [e]
      cases b with
      | false =>
        obtain ⟨fs, e1, e2, e3⟩ := ih last (i + 1) h (by omega) (by omega)
        refine ⟨fs, e1, ?_, e3⟩
        cases fs with
        | nil => exact Nat.le_of_lt hi
        | cons f fs => exact ⟨by have := e2.1; omega, e2.2⟩
      | true =>
        obtain ⟨b1, b2⟩ := hb rfl
        obtain ⟨k, hk, k1, k2⟩ := ArraysOk.rank hA (p := i) hi
        have hk0 : k ≠ 0 := by
          rintro rfl
          rw [hA.isSA.zero hs] at k2
          have : t.length - 1 = i := by simpa using k2
          omega
        obtain ⟨k, rfl⟩ := Nat.exists_eq_succ_of_ne_zero hk0
        obtain ⟨s, hs1, hs2⟩ := hA.isSA.get (k := k) (by omega)
        have hv := getElem?_of_lt (l := plcp) (i := i) (by omega)
        simp only [vget_ok hv, vget_ok k1]
        rw [if_neg (by omega), show k.succ - 1 = k from rfl, vget_ok hs1]
        simp only
        have heq := hp i _ h hv k s k2 hs1
        have hbd := pred_bounds hs hA.isSA (f := ⟨i, s, plcp.getD i 0⟩) ⟨⟨k, k2, hs1⟩, Nat.le_of_eq heq⟩
        simp only at hbd
        obtain ⟨fs, e1, e2, e3⟩ := ih (i + plcp.getD i 0 - 1) (i + plcp.getD i 0) hbd.2 (by omega) (by omega)
        rw [e1]
        refine ⟨_, rfl, ⟨Nat.le_refl _, Nat.le_of_lt hbd.1, Nat.le_of_lt hbd.2, e2⟩, ?_⟩
        intro f hf
        rcases List.mem_cons.mp hf with rfl | hf
        · exact ⟨b1, b2, ⟨k, k2, hs1⟩, heq⟩
        · exact e3 f hf
    · rw [if_neg h]
      exact ⟨[], rfl, Nat.le_of_lt hi, by intro f hf; simp at hf⟩

theorem peaksComp_spec (hA : ArraysOk t A) (hs : Sentinel t) {plcp : List Nat} (hl : plcp.length = t.length)
    (hp : ∀ p v : Nat, p + 1 < t.length → plcp[p]? = some v → IsPlcp t A.sa p v) (th : Nat) :
    ∃ fs, peaksComp A plcp th = .ok fs ∧ FactorsOrdered t.length 0 fs ∧
      ∀ f ∈ fs, 1 ≤ f.len ∧ th ≤ f.len ∧ (∃ k, A.sa[k + 1]? = some f.pos ∧ A.sa[k]? = some f.src) ∧
        f.len = lcpLen (t.drop f.pos) (t.drop f.src) := by
  rw [peaksComp, hA.isSA.length]
  exact peaksLoop_spec hA hs hl hp _ 0 0 hs.len_pos (by omega) (fun _ => rfl)

end LC
end Tdc
