import Verif.Lemmas.CompLCP

/-!
# Property C47: the succinct LCP structures answer exactly

`CL.textCLCP pk text sa` is `CompressedLCP` as `TextDS` constructs it; `CL.sadaText text sa` is the bit vector behind `LCPSada` and
`LCPForwardIterator`.
-/

namespace Tdc
namespace CL
open RS

theorem slow_of : ∀ (l : List Nat) (prev : Nat), (∀ v, l[0]? = some v → prev ≤ v + 1) → (∀ v ∈ l, v < 2 ^ 32 - 1) →
    (∀ i v w : Nat, l[i]? = some v → l[i + 1]? = some w → v ≤ w + 1) → Slow prev l
  | [], _, _, _, _ => trivial
  | p :: ps, prev, h0, h1, h2 =>
    ⟨h0 p rfl, h1 p (by simp), slow_of ps p (fun v hv => h2 0 p v rfl hv) (fun v hv => h1 v (by simp [hv])) (fun i v w hv hw => h2 (i + 1) v w hv hw)⟩

theorem plcp_slow {t : List UInt8} {sa l : List Nat} (h : IsSA t sa) (hs : Sentinel t) (hl : l.length = t.length) (h32 : t.length < 2 ^ 32)
    (hp : ∀ p v : Nat, p + 1 < t.length → l[p]? = some v → IsPlcp t sa p v) (hlast : ∀ v, l[t.length - 1]? = some v → v < t.length) : Slow 0 l := by
  -- every entry but the last is an LCP value
  have key : ∀ p v : Nat, p + 1 < t.length → l[p]? = some v →
      ∃ k j : Nat, sa[k + 1]? = some p ∧ sa[k]? = some j ∧ v = lcpLen (t.drop p) (t.drop j) ∧ p + v < t.length := by
    intro p v hpt hv
    obtain ⟨k, hk, hke⟩ := h.idx (p := p) (by omega)
    cases k with
    | zero =>
      rw [h.zero hs] at hke
      have : t.length - 1 = p := by simpa using hke
      omega
    | succ k =>
      obtain ⟨j, hj, hjl⟩ := h.get (k := k) (by omega)
      have hne : p ≠ j := by
        rintro rfl
        have := h.inj hke hj
        omega
      have hv' := hp p v hpt hv k j hke hj
      have := hs.lcp_lt (i := p) (j := j) (by omega) hjl hne
      exact ⟨k, j, hke, hj, hv', by omega⟩
  refine slow_of l 0 (fun _ _ => Nat.zero_le _) ?_ ?_
  · intro v hv
    obtain ⟨p, hpl, hpv⟩ := List.mem_iff_getElem.mp hv
    have hpv' : l[p]? = some v := by rw [List.getElem?_eq_getElem hpl, hpv]
    by_cases hlt : p + 1 < t.length
    · obtain ⟨_, _, _, _, _, h1⟩ := key p v hlt hpv'
      omega
    · have : p = t.length - 1 := by omega
      subst this
      have := hlast v hpv'
      omega
  · intro i v w hv hw
    have hil : i + 1 < l.length := (List.getElem?_eq_some_iff.mp hw).1
    obtain ⟨k, j, e1, e2, e3, e4⟩ := key i v (by omega) hv
    by_cases hlt : i + 1 + 1 < t.length
    · obtain ⟨k', j', e1', e2', e3', e4'⟩ := key (i + 1) w hlt hw
      have := plcp_step h hs (by omega) e1 e2 e1' e2'
      omega
    · omega

theorem plcpLoop_rest (t : List UInt8) : ∀ (n i l mx : Nat) (arr r : List Nat) (mx' : Nat), plcpLoop t n i l mx arr = .ok (r, mx') →
    ∀ p : Nat, i + n ≤ p → r[p]? = arr[p]? := by
  intro n
  induction n with
  | zero => intro i l mx arr r mx' h p _; rw [plcpLoop] at h; cases h; rfl
  | succ n ih =>
    intro i l mx arr r mx' h p hp
    rw [plcpLoop] at h
    split at h
    · cases h
    · split at h
      · cases h
      · have := ih _ _ _ _ _ _ h p (by omega)
        rw [this, List.getElem?_set_ne (by omega)]

/-- everything about the PLCP array the structures start from, the unwritten last entry included -/
theorem plcp_all {t : List UInt8} {sa : List Nat} (h : IsSA t sa) (hs : Sentinel t) (hlen : t.length < 2 ^ 64) :
    ∃ phi plcp mx, phiFromSA t.length sa = .ok phi ∧ (∀ v ∈ phi, v < t.length) ∧ plcpFromPhi t phi = .ok (plcp, mx) ∧ plcp.length = t.length ∧
      (∀ p v : Nat, p + 1 < t.length → plcp[p]? = some v → IsPlcp t sa p v ∧ v ≤ mx) ∧ plcp[t.length - 1]? = sa[t.length - 1]? ∧ mx < 2 ^ 64 ∧
      (mx = 0 ∨ ∃ k i j : Nat, sa[k + 1]? = some i ∧ sa[k]? = some j ∧ lcpLen (t.drop i) (t.drop j) = mx) := by
  have hn := hs.len_pos
  obtain ⟨phi, p1, p2, p3, p4⟩ := phiFromSA_spec h hn
  obtain ⟨plcp, mx, q1, q2, q3, q4⟩ := plcpLoop_spec h hs p3 (t.length - 1) 0 0 0 phi (by omega) p2
    (by intros; omega) (by intros; rfl) (by intro p v hp; omega)
  obtain ⟨phi', plcp', mx', e1, e2, -, -, e5, e6⟩ := phi_plcp_exact t sa h hs hlen
  rw [p1] at e1
  cases e1
  rw [show plcpFromPhi t phi = .ok (plcp, mx) from q1] at e2
  cases e2
  refine ⟨phi, plcp, mx, p1, ?_, q1, q2, q3, ?_, ?_, e6⟩
  · intro v hv
    obtain ⟨p, hp, hpv⟩ := List.mem_iff_getElem.mp hv
    obtain ⟨k, hk, hke⟩ := h.idx (p := p) (by omega)
    have hv' : phi[p]? = some v := by rw [List.getElem?_eq_getElem hp, hpv]
    cases k with
    | zero =>
      have := p4 p hke
      rw [hv'] at this
      exact h.lt v (List.mem_of_getElem? this.symm)
    | succ k =>
      have := p3 k p hke
      rw [hv'] at this
      exact h.lt v (List.mem_of_getElem? this.symm)
  · rw [plcpLoop_rest t _ _ _ _ _ _ _ q1 (t.length - 1) (by omega)]
    exact p4 _ (h.zero hs)
  · rcases e6 with rfl | ⟨k, i, j, h1, h2, rfl⟩
    · decide
    · have hil := h.lt i (List.mem_of_getElem? h1)
      have hjl := h.lt j (List.mem_of_getElem? h2)
      have hne : i ≠ j := by
        rintro rfl
        have := h.inj h1 h2
        omega
      have := hs.lcp_lt (i := i) (j := j) hil hjl hne
      omega

/-- the structure over any slowly falling sequence, and what TextDS hands to it -/
theorem textCLCP_spec (pk : Packs) {text : List UInt8} {sa : List Nat} (hsa : IsSA text sa) (hs : Sentinel text) (h32 : text.length < 2 ^ 32) :
    ∃ C, textCLCP pk text sa = .ok C ∧
      (∀ k i j : Nat, sa[k + 1]? = some i → sa[k]? = some j → C.get (k + 1) = .ok (lcpLen (text.drop i) (text.drop j)) ∧
        lcpLen (text.drop i) (text.drop j) ≤ C.max) ∧
      (C.max = 0 ∨ ∃ k i j : Nat, sa[k + 1]? = some i ∧ sa[k]? = some j ∧ lcpLen (text.drop i) (text.drop j) = C.max) ∧
      (pk.plcp = false → ∀ s, sa[text.length - 1]? = some s → C.get 0 = .ok s) := by
  have hn := hs.len_pos
  obtain ⟨phi, plcp, mx, e1, hphi, e2, hl, hp, hlast, hmx, hmax⟩ := plcp_all hsa hs (by omega)
  have hb := lt_two_pow_bitsFor text.length (by omega)
  have hbm := lt_two_pow_bitsFor mx hmx
  have hsaP : packIf pk.sa (bitsFor text.length) sa = sa := packIf_eq fun v hv => by have := hsa.lt v hv; omega
  have hphiP : packIf pk.phi (bitsFor text.length) phi = phi := packIf_eq fun v hv => by have := hphi v hv; omega
  have hplP : ∀ p v : Nat, p + 1 < text.length → (packIf pk.plcp (bitsFor mx) plcp)[p]? = some v → IsPlcp text sa p v ∧ v ≤ mx := by
    intro p v hp' hv
    rw [packIf_get] at hv
    · exact hp p v hp' hv
    · intro v hv
      have := (hp p v hp' hv).2
      omega
  have hllt : ∀ v, (packIf pk.plcp (bitsFor mx) plcp)[text.length - 1]? = some v → v < text.length := by
    intro v hv
    obtain ⟨s, hse, hsl⟩ := hsa.get (k := text.length - 1) (by omega)
    rw [hse] at hlast
    rw [packIf] at hv
    split at hv
    · rw [packTo, List.getElem?_map, hlast] at hv
      have : s % 2 ^ bitsFor mx = v := by simpa using hv
      have := Nat.mod_le s (2 ^ bitsFor mx)
      omega
    · rw [hlast] at hv
      cases hv
      exact hsl
  have hslow := plcp_slow hsa hs (l := packIf pk.plcp (bitsFor mx) plcp) (by rw [packIf_length, hl]) h32 (fun p v h1 h2 => (hplP p v h1 h2).1) hllt
  obtain ⟨C, e3, hCm, hget⟩ := build_get sa (packIf pk.plcp (bitsFor mx) plcp) mx
    (fun hc => by have := congrArg List.length hc; rw [packIf_length, hl, List.length_nil] at this; omega) (by rw [packIf_length, hl]; exact h32) hslow
  refine ⟨C, ?_, ?_, by rw [hCm]; exact hmax, ?_⟩
  · rw [textCLCP, hsaP, e1]
    show (do
      let (plcp, mx) ← plcpFromPhi text (packIf pk.phi (bitsFor text.length) phi)
      build sa (packIf pk.plcp (bitsFor mx) plcp) mx : Res CLCP) = _
    rw [hphiP, e2]
    exact e3
  · intro k i j hi hj
    have hil := hsa.succ_lt hs hi
    have hg : (packIf pk.plcp (bitsFor mx) plcp)[i]? = some ((packIf pk.plcp (bitsFor mx) plcp)[i]'(by rw [packIf_length, hl]; omega)) := List.getElem?_eq_getElem _
    obtain ⟨a, b⟩ := hplP i _ hil hg
    have := a k j hi hj
    rw [← this, hCm]
    exact ⟨hget (k + 1) i _ hi hg, b⟩
  · intro hpk s hse
    have hg : (packIf pk.plcp (bitsFor mx) plcp)[text.length - 1]? = some s := by
      rw [hpk, packIf, if_neg (by simp), hlast, hse]
    exact hget 0 _ s (hsa.zero hs) hg

/-- **C47 (CompressedLCP).** For every null-terminated text below 4 GiB and every packing option the structure is built; `[k]` for
`k ≥ 1` is the length of the longest common prefix of the suffixes of rank `k` and `k - 1`, and `max_lcp()` is the maximum of these.
Missing for the full property: entry `0`, which should be `0` (`compressed_lcp_zero`). -/
theorem compressed_lcp_exact_partial (pk : Packs) (text : List UInt8) (sa : List Nat) (hsa : IsSA text sa) (hs : Sentinel text)
    (h32 : text.length < 2 ^ 32) :
    ∃ C, textCLCP pk text sa = .ok C ∧
      (∀ k i j : Nat, sa[k + 1]? = some i → sa[k]? = some j → C.get (k + 1) = .ok (lcpLen (text.drop i) (text.drop j)) ∧
        lcpLen (text.drop i) (text.drop j) ≤ C.max) ∧
      (C.max = 0 ∨ ∃ k i j : Nat, sa[k + 1]? = some i ∧ sa[k]? = some j ∧ lcpLen (text.drop i) (text.drop j) = C.max) := by
  obtain ⟨C, a, b, c, -⟩ := textCLCP_spec pk hsa hs h32
  exact ⟨C, a, b, c⟩

/-- **C47 is false of entry 0.** Without packing, `[0]` is the start of the lexicographically *largest* suffix for every text (the
last PLCP entry is never written and still holds phi); `LCPFromPLCP` has `0` there. -/
theorem compressed_lcp_zero (pk : Packs) (hpk : pk.plcp = false) (text : List UInt8) (sa : List Nat) (hsa : IsSA text sa)
    (hs : Sentinel text) (h32 : text.length < 2 ^ 32) (s : Nat) (hl : sa[text.length - 1]? = some s) :
    ∃ C, textCLCP pk text sa = .ok C ∧ C.get 0 = .ok s := by
  obtain ⟨C, a, -, -, d⟩ := textCLCP_spec pk hsa hs h32
  exact ⟨C, a, d hpk s hl⟩

/-- "abab" and the null: the last suffix in order starts at 1, so does `lcp[0]`; the others are right -/
example : (match textCLCP ⟨false, false, false, false, false⟩ [97, 98, 97, 98, 0] [4, 2, 0, 3, 1] with
    | .ok C => (List.range 5).map C.get | .error _ => []) = [.ok 1, .ok 0, .ok 2, .ok 0, .ok 1] := by decide +kernel

theorem sada_spec {text : List UInt8} {sa : List Nat} (hsa : IsSA text sa) (hs : Sentinel text) (h31 : text.length ≤ 2 ^ 31) :
    ∃ (plcp : List Nat) (bits : List Bool), sadaText text sa = .ok bits ∧ bits.length = 2 * text.length - 1 ∧ bits.count true = text.length ∧ plcp.length = text.length ∧
      plcp[text.length - 1]? = some 0 ∧ (∀ k i j : Nat, sa[k + 1]? = some i → sa[k]? = some j → plcp[i]? = some (lcpLen (text.drop i) (text.drop j))) ∧
      (∀ j v : Nat, plcp[j]? = some v → v < 2 ^ 32 ∧ IsKth bits true (j + 1) (v + 2 * j)) := by
  have hn := hs.len_pos
  obtain ⟨phi, plcp, mx, e1, hphi, e2, hl, hp, hlast, hmx, hmax⟩ := plcp_all hsa hs (by omega)
  have hset : vset plcp (text.length - 1) 0 = .ok (plcp.set (text.length - 1) 0) := vset_ok _ (by omega)
  have hll : (plcp.set (text.length - 1) 0).length = text.length := by simpa using hl
  have hl0 : (plcp.set (text.length - 1) 0)[text.length - 1]? = some 0 := set_get_self _ (by omega)
  have hne : ∀ p : Nat, p + 1 < text.length → (plcp.set (text.length - 1) 0)[p]? = plcp[p]? := by
    intro p hp'
    rw [List.getElem?_set_ne (by omega)]
  have hslow := plcp_slow hsa hs (l := plcp.set (text.length - 1) 0) hll (by omega)
    (fun p v h1 h2 => (hp p v h1 (by rw [← hne p h1]; exact h2)).1) (fun v hv => by rw [hl0] at hv; cases hv; exact hn)
  have hgl : (plcp.set (text.length - 1) 0).getLastD 0 = 0 := by
    rw [List.getLastD_eq_getLast?, List.getLast?_eq_getElem?, hll, hl0]; rfl
  have hval : ∀ k i j : Nat, sa[k + 1]? = some i → sa[k]? = some j → (plcp.set (text.length - 1) 0)[i]? = some (lcpLen (text.drop i) (text.drop j)) := by
    intro k i j hi hj
    have hil := hsa.succ_lt hs hi
    have hg : plcp[i]? = some (plcp[i]'(by omega)) := List.getElem?_eq_getElem (by omega)
    rw [hne i hil, hg, (hp i _ hil hg).1 k j hi hj]
  generalize plcp.set (text.length - 1) 0 = l at *
  obtain ⟨p, ps, rfl⟩ : ∃ p ps, l = p :: ps := List.exists_cons_of_ne_nil (fun hc => by rw [hc, List.length_nil] at hll; omega)
  have hb := sadaBits_eq p ps hslow (by rw [hgl, hll]; omega)
  refine ⟨p :: ps, encUnary p ++ uBits p ps, ?_, ?_, ?_, hll, hl0, hval, ?_⟩
  · rw [sadaText, e1]
    show (do
      let (plcp, _) ← plcpFromPhi text phi
      let plcp ← vset plcp (text.length - 1) 0
      sadaBits plcp : Res (List Bool)) = _
    rw [e2]
    show (do
      let plcp ← vset plcp (text.length - 1) 0
      sadaBits plcp : Res (List Bool)) = _
    rw [hset]
    exact hb
  · have h1 := uBits_length ps p hslow.2.2
    rw [List.getLastD_cons] at hgl
    rw [List.length_cons] at hll
    rw [List.length_append, encUnary_length]
    omega
  · rw [List.length_cons] at hll
    rw [List.count_append, encUnary_count, uBits_count]
    omega
  · intro j v hv
    have := slow_lt _ 0 j v hslow hv
    exact ⟨by omega, sada_kth p ps hslow j v hv⟩

/-- **C47 (LCPSada).** For every null-terminated text up to `2^31` bytes the
bit vector has `2n - 1` bits, `n` of them set, and with any select function that answers the position of the `k`-th one, `[k]` (`k ≥ 1`)
is the longest common prefix of the suffixes of rank `k` and `k - 1`, `[0]` is `0`, and `plcp(p)` is entry `p` of the permuted array. -/
theorem lcp_sada_exact (text : List UInt8) (sa : List Nat) (hsa : IsSA text sa) (hs : Sentinel text) (h31 : text.length ≤ 2 ^ 31) :
    ∃ bits, sadaText text sa = .ok bits ∧ bits.length = 2 * text.length - 1 ∧ bits.count true = text.length ∧
      ∀ select : Nat → Nat, (∀ k, 1 ≤ k → k ≤ text.length → IsKth bits true k (select k)) →
        sadaGet select sa 0 = .ok 0 ∧
        ∀ k i j : Nat, sa[k + 1]? = some i → sa[k]? = some j →
          sadaGet select sa (k + 1) = .ok (lcpLen (text.drop i) (text.drop j)) ∧
          sadaPlcp select text.length i = lcpLen (text.drop i) (text.drop j) := by
  have hn := hs.len_pos
  have hsl := hsa.length
  obtain ⟨plcp, bits, e, h1, h2, hl, h0, hv, hk⟩ := sada_spec hsa hs h31
  refine ⟨bits, e, h1, h2, fun select hsel => ?_⟩
  have key : ∀ j v : Nat, plcp[j]? = some v → sadaPos (select (j + 1)) j = v := by
    intro j v hj
    have hjl : j < plcp.length := (List.getElem?_eq_some_iff.mp hj).1
    obtain ⟨a, b⟩ := hk j v hj
    rw [(hsel (j + 1) (by omega) (by omega)).unique b, sadaPos_eq a (by omega)]
  refine ⟨?_, ?_⟩
  · rw [sadaGet]
    by_cases h : sa.length = 1
    · rw [if_pos h]
    · rw [if_neg h, vget_ok (hsa.zero hs)]
      show Except.ok (sadaPos (select (text.length - 1 + 1)) (text.length - 1)) = _
      rw [key _ _ h0]
  · intro k i j hi hj
    have hlen : sa.length ≠ 1 := by
      have := (List.getElem?_eq_some_iff.mp hi).1
      omega
    have hii := key i _ (hv k i j hi hj)
    refine ⟨?_, ?_⟩
    · rw [sadaGet, if_neg hlen, vget_ok hi]
      show Except.ok (sadaPos (select (i + 1)) i) = _
      rw [hii]
    · rw [sadaPlcp, if_neg (by omega), hii]

/-- **C47 (LCPForwardIterator).** On that bit vector every sequence of calls of `advance()` and `operator()` that stays inside the text
reads, at each `operator()`, the PLCP entry of the position reached: reading twice or skipping positions makes no difference. -/
theorem lcp_forward_exact (text : List UInt8) (sa : List Nat) (hsa : IsSA text sa) (hs : Sentinel text) (h31 : text.length ≤ 2 ^ 31) :
    ∃ (plcp : List Nat) (bits : List Bool), sadaText text sa = .ok bits ∧ plcp.length = text.length ∧ plcp[text.length - 1]? = some 0 ∧
      (∀ k i j : Nat, sa[k + 1]? = some i → sa[k]? = some j → plcp[i]? = some (lcpLen (text.drop i) (text.drop j))) ∧
      ∀ ops : List FwdOp, ops.count .advance < text.length → fwdRun (BV.ofBits bits) ⟨0, 0, 0⟩ ops = .ok (expect plcp 0 ops) := by
  have hn := hs.len_pos
  obtain ⟨plcp, bits, e, h1, h2, hl, h0, hv, hk⟩ := sada_spec hsa hs h31
  refine ⟨plcp, bits, e, hl, h0, hv, fun ops hops => ?_⟩
  refine fwdRun_spec (BV.ofBits bits) (ofBits_wf bits (by omega)) plcp (by omega) (by rw [ofBits_bits, h2, hl]) ?_ ops ⟨0, 0, 0⟩
    ⟨by simp, Nat.le_refl _, Nat.zero_le _⟩ (by show 0 + _ < _; omega)
  intro j v hj
  rw [ofBits_bits]
  exact hk j v hj

/-- "abab" and the null -/
example : sadaText [97, 98, 97, 98, 0] [4, 2, 0, 3, 1] = .ok [false, false, true, true, true, false, true, false, true] ∧
    fwdRun (BV.ofBits [false, false, true, true, true, false, true, false, true]) ⟨0, 0, 0⟩
      [.read, .read, .advance, .read, .advance, .advance, .read] = .ok [2, 2, 1, 0] := by decide +kernel

end CL
end Tdc
