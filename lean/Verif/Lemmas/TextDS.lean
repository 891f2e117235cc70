import Verif.Model.TextDS
import Verif.Lemmas.Suffix
import Verif.Lemmas.IntCodes

namespace Tdc

theorem vget_ok {α : Type} {l : List α} {i : Nat} {a : α} (h : l[i]? = some a) : vget l i = .ok a := by
  unfold vget; rw [h]

theorem vset_ok {α : Type} {l : List α} {i : Nat} (v : α) (h : i < l.length) : vset l i v = .ok (l.set i v) := if_pos h

theorem set_get_self {α : Type} {l : List α} {i : Nat} (v : α) (h : i < l.length) : (l.set i v)[i]? = some v := by
  rw [List.getElem?_set_self h]

theorem isaLoop_spec (sa : List Nat) : ∀ (i : Nat) (isa : List Nat), (∀ s ∈ sa, s < isa.length) → sa.Nodup →
    ∃ r, isaLoop sa i isa = .ok r ∧ r.length = isa.length ∧ (∀ k s : Nat, sa[k]? = some s → r[s]? = some (i + k)) ∧
      ∀ p : Nat, p ∉ sa → r[p]? = isa[p]? := by
  induction sa with
  | nil => intro i isa _ _; exact ⟨isa, rfl, rfl, by simp, fun _ _ => rfl⟩
  | cons s sa ih =>
    intro i isa hlt hnd
    obtain ⟨hns, hnd⟩ := List.nodup_cons.mp hnd
    have hs := hlt s (by simp)
    obtain ⟨r, h1, h2, h3, h4⟩ := ih (i + 1) (isa.set s i) (by intro p hp; simpa using hlt p (by simp [hp])) hnd
    refine ⟨r, by rw [isaLoop, vset_ok _ hs]; exact h1, by simpa using h2, ?_, ?_⟩
    · intro k p hk
      cases k with
      | zero =>
        simp only [List.getElem?_cons_zero, Option.some.injEq] at hk
        subst hk
        rw [h4 s hns, set_get_self _ hs]; rfl
      | succ k =>
        simp only [List.getElem?_cons_succ] at hk
        rw [h3 k p hk]; congr 1; omega
    · intro p hp
      simp only [List.mem_cons, not_or] at hp
      rw [h4 p hp.2, List.getElem?_set_ne (Ne.symm hp.1)]

theorem phiLoop_spec (sa : List Nat) : ∀ (prev : Nat) (phi : List Nat), (∀ s ∈ sa, s < phi.length) → sa.Nodup →
    ∃ r, phiLoop sa prev phi = .ok r ∧ r.length = phi.length ∧
      (∀ k s : Nat, sa[k]? = some s → r[s]? = (prev :: sa)[k]?) ∧ ∀ p : Nat, p ∉ sa → r[p]? = phi[p]? := by
  induction sa with
  | nil => intro i phi _ _; exact ⟨phi, rfl, rfl, by simp, fun _ _ => rfl⟩
  | cons s sa ih =>
    intro prev phi hlt hnd
    obtain ⟨hns, hnd⟩ := List.nodup_cons.mp hnd
    have hs := hlt s (by simp)
    obtain ⟨r, h1, h2, h3, h4⟩ := ih s (phi.set s prev) (by intro p hp; simpa using hlt p (by simp [hp])) hnd
    refine ⟨r, by rw [phiLoop, vset_ok _ hs]; exact h1, by simpa using h2, ?_, ?_⟩
    · intro k p hk
      cases k with
      | zero =>
        simp only [List.getElem?_cons_zero, Option.some.injEq] at hk
        subst hk
        rw [h4 s hns, set_get_self _ hs]; rfl
      | succ k =>
        simp only [List.getElem?_cons_succ] at hk
        rw [h3 k p hk, List.getElem?_cons_succ]
    · intro p hp
      simp only [List.mem_cons, not_or] at hp
      rw [h4 p hp.2, List.getElem?_set_ne (Ne.symm hp.1)]

theorem isaFromSA_spec {t : List UInt8} {sa : List Nat} (h : IsSA t sa) :
    ∃ isa, isaFromSA t.length sa = .ok isa ∧ isa.length = t.length ∧ ∀ k s : Nat, sa[k]? = some s → isa[s]? = some k := by
  obtain ⟨r, h1, h2, h3, -⟩ := isaLoop_spec sa 0 (List.replicate t.length 0) (by simpa using h.lt) h.nodup
  exact ⟨r, h1, by simpa using h2, by simpa using h3⟩

theorem phiFromSA_spec {t : List UInt8} {sa : List Nat} (h : IsSA t sa) (hn : 0 < t.length) :
    ∃ phi, phiFromSA t.length sa = .ok phi ∧ phi.length = t.length ∧
      (∀ k s : Nat, sa[k + 1]? = some s → phi[s]? = sa[k]?) ∧ ∀ s : Nat, sa[0]? = some s → phi[s]? = sa[t.length - 1]? := by
  have hlen := h.length
  have hnd := h.nodup
  have hlt := h.lt
  cases sa with
  | nil => simp at hlen; omega
  | cons s0 rest =>
    obtain ⟨hns, hnd⟩ := List.nodup_cons.mp hnd
    obtain ⟨r, h1, h2, h3, h4⟩ := phiLoop_spec rest s0 (List.replicate t.length 0) (by
      intro s hs; simpa using hlt s (by simp [hs])) hnd
    rw [List.length_replicate] at h2
    have hs0 : s0 < r.length := by rw [h2]; exact hlt s0 (by simp)
    refine ⟨r.set s0 ((s0 :: rest).getD (t.length - 1) 0), by rw [phiFromSA, h1]; exact vset_ok _ hs0, by simpa using h2, ?_, ?_⟩
    · intro k s hs
      simp only [List.getElem?_cons_succ] at hs
      have : s ≠ s0 := by rintro rfl; exact hns (List.mem_of_getElem? hs)
      rw [List.getElem?_set_ne (Ne.symm this), h3 k s hs]
    · intro s hs
      simp only [List.getElem?_cons_zero, Option.some.injEq] at hs
      subst hs
      rw [set_get_self _ hs0, List.getD_eq_getElem?_getD]
      have : t.length - 1 < (s0 :: rest).length := by omega
      rw [List.getElem?_eq_getElem this]
      rfl

theorem plcpExtend_spec {t : List UInt8} (hs : Sentinel t) {i j : Nat} (hi : i < t.length) (hj : j < t.length) (hij : i ≠ j) (fuel : Nat) :
    ∀ l, l ≤ lcpLen (t.drop i) (t.drop j) → lcpLen (t.drop i) (t.drop j) - l < fuel →
      plcpExtend t i j fuel l = .ok (lcpLen (t.drop i) (t.drop j)) := by
  obtain ⟨h1, h2, h3⟩ := hs.lcp_lt hi hj hij
  induction fuel with
  | zero => intro l _ h; omega
  | succ fuel ih =>
    intro l hl hf
    have ga : t[i + l]? = some (t[i + l]'(by omega)) := List.getElem?_eq_getElem _
    have gb : t[j + l]? = some (t[j + l]'(by omega)) := List.getElem?_eq_getElem _
    rw [plcpExtend, vget_ok ga, vget_ok gb]
    simp only
    by_cases he : l = lcpLen (t.drop i) (t.drop j)
    · rw [← he] at h3
      rw [ga, gb] at h3
      rw [if_neg (fun hc => h3 (by rw [hc])), he]
    · have := (lcpLen_get (t.drop i) (t.drop j) l (by omega)).1
      rw [List.getElem?_drop, List.getElem?_drop, ga, gb] at this
      rw [if_pos (Option.some.inj this)]
      exact ih (l + 1) (by omega) (by omega)

/-- what the PLCP array must contain -/
def IsPlcp (t : List UInt8) (sa : List Nat) (i v : Nat) : Prop :=
  ∀ k j : Nat, sa[k + 1]? = some i → sa[k]? = some j → v = lcpLen (t.drop i) (t.drop j)

/-- The phi algorithm's key fact. -/
theorem plcp_step {t : List UInt8} {sa : List Nat} (h : IsSA t sa) (hs : Sentinel t) {i k j k' j' : Nat} (hi : i + 1 < t.length)
    (h1 : sa[k + 1]? = some i) (h2 : sa[k]? = some j) (h1' : sa[k' + 1]? = some (i + 1)) (h2' : sa[k']? = some j') :
    lcpLen (t.drop i) (t.drop j) - 1 ≤ lcpLen (t.drop (i + 1)) (t.drop j') := by
  have hj : j < t.length := h.lt j (List.mem_of_getElem? h2)
  have hlt := h.sorted k (k + 1) j i (by omega) h2 h1
  rw [List.drop_eq_getElem_cons hj, List.drop_eq_getElem_cons (by omega : i < t.length)] at hlt ⊢
  simp only [lcpLen]
  split
  · rename_i he
    rw [List.cons_lt_cons_iff, he] at hlt
    have hlt' : t.drop (j + 1) < t.drop (i + 1) := by
      rcases hlt with h | h
      · exact absurd h (u8_lt_irrefl _)
      · exact h.2
    rw [Nat.add_sub_cancel]
    have hj1 : j + 1 < t.length := by
      have hne := hs.ne_zero (i := i) (by omega)
      rw [List.getElem?_eq_getElem (by omega), he] at hne
      by_contra hc
      have hl := hs.last
      rw [show t.length - 1 = j by omega, List.getElem?_eq_getElem hj] at hl
      exact hne hl
    obtain ⟨k'', hk'', hk''e⟩ := h.idx hj1
    have hord := (h.lt_iff hk''e h1').mpr hlt'
    by_cases hk : k'' = k'
    · subst hk
      rw [h2'] at hk''e
      cases hk''e
      exact Nat.le_refl _
    · have ha := h.sorted k'' k' _ _ (by omega) hk''e h2'
      have hb := h.sorted k' (k' + 1) _ _ (by omega) h2' h1'
      have := lcpLen_mid ha hb
      rw [lcpLen_comm (t.drop (j + 1)), lcpLen_comm (t.drop j') (t.drop (i + 1))] at this
      omega
  · omega

theorem plcpLoop_spec {t : List UInt8} {sa phi : List Nat} (h : IsSA t sa) (hs : Sentinel t)
    (hphi : ∀ k s : Nat, sa[k + 1]? = some s → phi[s]? = sa[k]?) (n : Nat) :
    ∀ (i l mx : Nat) (arr : List Nat), i + n + 1 = t.length → arr.length = t.length →
      (∀ k j : Nat, sa[k + 1]? = some i → sa[k]? = some j → l ≤ lcpLen (t.drop i) (t.drop j)) →
      (∀ p : Nat, i ≤ p → arr[p]? = phi[p]?) → (∀ p v : Nat, p < i → arr[p]? = some v → IsPlcp t sa p v ∧ v ≤ mx) →
      ∃ r mx', plcpLoop t n i l mx arr = .ok (r, mx') ∧ r.length = t.length ∧
        (∀ p v : Nat, p + 1 < t.length → r[p]? = some v → IsPlcp t sa p v ∧ v ≤ mx') ∧
        (mx' = mx ∨ ∃ p : Nat, p + 1 < t.length ∧ r[p]? = some mx') := by
  induction n with
  | zero =>
    intro i l mx arr hin harr hl hphi' hdone
    exact ⟨arr, mx, rfl, harr, fun p v hp => hdone p v (by omega), Or.inl rfl⟩
  | succ n ih =>
    intro i l mx arr hin harr hl hphi' hdone
    obtain ⟨k, hk, hke⟩ := h.idx (p := i) (by omega)
    obtain ⟨k, rfl⟩ : ∃ k', k = k' + 1 := by
      cases k with
      | zero =>
        have := h.zero hs
        rw [hke] at this
        have := Option.some.inj this
        omega
      | succ k => exact ⟨k, rfl⟩
    obtain ⟨j, hje, hj⟩ := h.get (k := k) (by omega)
    have harri : arr[i]? = some j := by rw [hphi' i (Nat.le_refl _), hphi k i hke, hje]
    have hij : i ≠ j := by
      rintro rfl
      have := h.inj hke hje
      omega
    have hL := (hs.lcp_lt (by omega : i < t.length) hj hij).1
    have hext := plcpExtend_spec hs (by omega : i < t.length) hj hij (t.length + 1) l (hl k j hke hje) (by omega)
    generalize hLe : lcpLen (t.drop i) (t.drop j) = L at *
    have hset : ∀ p : Nat, (arr.set i L)[p]? = if p = i then some L else arr[p]? := by
      intro p
      by_cases hp : p = i
      · subst hp; rw [if_pos rfl, set_get_self _ (by omega)]
      · rw [if_neg hp, List.getElem?_set_ne (Ne.symm hp)]
    have hisp : IsPlcp t sa i L := by
      intro k' j' h1 h2
      have := h.inj h1 hke
      obtain rfl : k' = k := by omega
      rw [hje] at h2
      cases h2
      exact hLe.symm
    obtain ⟨r, mx', h1, h2, h3, h4⟩ := ih (i + 1) (L - 1) (max mx L) (arr.set i L) (by omega) (by simpa using harr) (by
      intro k' j' h1' h2'
      have := plcp_step h hs (by omega) hke hje h1' h2'
      rw [hLe] at this
      exact this) (by
      intro p hp
      rw [hset, if_neg (by omega)]
      exact hphi' p (by omega)) (by
      intro p v hp hv
      rw [hset] at hv
      by_cases hpi : p = i
      · subst hpi
        rw [if_pos rfl] at hv
        cases hv
        exact ⟨hisp, Nat.le_max_right _ _⟩
      · rw [if_neg hpi] at hv
        obtain ⟨a, b⟩ := hdone p v (by omega) hv
        exact ⟨a, by omega⟩)
    refine ⟨r, mx', by rw [plcpLoop, vget_ok harri]; simp only [hext]; exact h1, h2, h3, ?_⟩
    rcases h4 with h4 | h4
    · by_cases hm : mx ≥ L
      · exact Or.inl (by omega)
      · right
        refine ⟨i, by omega, ?_⟩
        have hri : i < r.length := by omega
        obtain ⟨a, b⟩ := h3 i r[i] (by omega) (List.getElem?_eq_getElem hri)
        have := a k j hke hje
        rw [hLe] at this
        rw [List.getElem?_eq_getElem hri, this]
        congr 1
        omega
    · exact Or.inr h4

theorem lcpFromPLCP_spec {t : List UInt8} {sa plcp : List Nat} (h : IsSA t sa) (hs : Sentinel t) (q2 : plcp.length = t.length)
    (q3 : ∀ p v : Nat, p + 1 < t.length → plcp[p]? = some v → IsPlcp t sa p v) :
    ∃ lcp, lcpFromPLCP sa plcp = .ok lcp ∧ lcp.length = t.length ∧ lcp[0]? = some 0 ∧
      (∀ k i j : Nat, sa[k + 1]? = some i → sa[k]? = some j → lcp[k + 1]? = some (lcpLen (t.drop i) (t.drop j))) ∧
      (∀ k i : Nat, sa[k + 1]? = some i → lcp[k + 1]? = plcp[i]?) := by
  have hn := hs.len_pos
  have hloop : ∀ l : List Nat, (∀ s ∈ l, s < plcp.length) → ∃ xs, lcpLoop plcp l = .ok xs ∧ xs.length = l.length ∧
      ∀ k s : Nat, l[k]? = some s → xs[k]? = plcp[s]? := by
    intro l
    induction l with
    | nil => intro _; exact ⟨[], rfl, rfl, by simp⟩
    | cons s l ih =>
      intro hl
      obtain ⟨xs, a, b, c⟩ := ih fun p hp => hl p (by simp [hp])
      have hsl := hl s (by simp)
      refine ⟨plcp[s] :: xs, by rw [lcpLoop, vget_ok (List.getElem?_eq_getElem hsl)]; simp only [a], by simp [b], ?_⟩
      intro k p hk
      cases k with
      | zero => simp only [List.getElem?_cons_zero, Option.some.injEq] at hk ⊢; subst hk; exact (List.getElem?_eq_getElem hsl).symm
      | succ k => simp only [List.getElem?_cons_succ] at hk ⊢; exact c k p hk
  obtain ⟨s0, rest, hsa⟩ : ∃ s0 rest, sa = s0 :: rest := by
    cases sa with
    | nil => have := h.length; simp at this; omega
    | cons a b => exact ⟨a, b, rfl⟩
  obtain ⟨xs, x1, x2, x3⟩ := hloop rest (by
    intro s hsr
    rw [q2]
    exact h.lt s (by rw [hsa]; simp [hsr]))
  refine ⟨0 :: xs, by rw [hsa, lcpFromPLCP]; simp only [x1], ?_, rfl, ?_, ?_⟩
  · have := h.length; rw [hsa] at this; simp at this ⊢; omega
  · intro k i j hi hj
    have hir : rest[k]? = some i := by rw [hsa] at hi; simpa using hi
    have hilt := h.lt i (List.mem_of_getElem? hi)
    have hine : i + 1 < t.length := by
      by_contra hc
      have h0 := h.zero hs
      rw [show t.length - 1 = i by omega] at h0
      have := h.inj h0 hi
      omega
    have hpl : i < plcp.length := by omega
    rw [List.getElem?_cons_succ, x3 k i hir, List.getElem?_eq_getElem hpl]
    have a := q3 i plcp[i] hine (List.getElem?_eq_getElem hpl)
    rw [a k j hi hj]
  · intro k i hi
    have hir : rest[k]? = some i := by rw [hsa] at hi; simpa using hi
    rw [List.getElem?_cons_succ, x3 k i hir]

theorem packTo_eq {b : Nat} {l : List Nat} (h : ∀ v ∈ l, v < 2 ^ b) : packTo b l = l := by
  unfold packTo
  conv => rhs; rw [← List.map_id l]
  exact List.map_congr_left fun v hv => Nat.mod_eq_of_lt (h v hv)

theorem packIf_eq {c : Bool} {b : Nat} {l : List Nat} (h : ∀ v ∈ l, v < 2 ^ b) : packIf c b l = l := by
  unfold packIf; split
  · exact packTo_eq h
  · rfl

theorem packIf_length (c : Bool) (b : Nat) (l : List Nat) : (packIf c b l).length = l.length := by
  unfold packIf; split <;> simp [packTo]

theorem packIf_get {c : Bool} {b : Nat} {l : List Nat} {p : Nat} (h : ∀ v, l[p]? = some v → v < 2 ^ b) : (packIf c b l)[p]? = l[p]? := by
  unfold packIf; split
  · simp only [packTo, List.getElem?_map]
    cases hx : l[p]? with
    | none => rfl
    | some v => simp [Nat.mod_eq_of_lt (h v hx)]
  · rfl

/-- suffix array entries besides the first are not the last position -/
theorem IsSA.succ_lt {t : List UInt8} {sa : List Nat} (h : IsSA t sa) (hs : Sentinel t) {k i : Nat} (hi : sa[k + 1]? = some i) :
    i + 1 < t.length := by
  have hilt := h.lt i (List.mem_of_getElem? hi)
  by_contra hc
  have h0 := h.zero hs
  rw [show t.length - 1 = i by omega] at h0
  have := h.inj h0 hi
  omega

/-- the whole chain SA → Phi → PLCP → LCP, with any choice of packed arrays -/
theorem textDS_spec (pk : Packs) {t : List UInt8} {sa : List Nat} (h : IsSA t sa) (hs : Sentinel t) (hlen : t.length < 2 ^ 64) :
    ∃ phi plcp mx A, phiFromSA t.length sa = .ok phi ∧ plcpFromPhi t phi = .ok (plcp, mx) ∧ textDS pk t sa = .ok A ∧
      plcp.length = t.length ∧
      (∀ p v : Nat, p + 1 < t.length → plcp[p]? = some v → IsPlcp t sa p v ∧ v ≤ mx) ∧
      (mx = 0 ∨ ∃ p : Nat, p + 1 < t.length ∧ plcp[p]? = some mx) ∧
      A.sa = sa ∧ A.lcp.length = t.length ∧ A.lcp[0]? = some 0 ∧
      (∀ k i j : Nat, sa[k + 1]? = some i → sa[k]? = some j → A.lcp[k + 1]? = some (lcpLen (t.drop i) (t.drop j))) ∧
      A.isa.length = t.length ∧ ∀ k s : Nat, sa[k]? = some s → A.isa[s]? = some k := by
  obtain ⟨phi, p1, p2, p3, p4⟩ := phiFromSA_spec h hs.len_pos
  obtain ⟨isa, i1, i2, i3⟩ := isaFromSA_spec h
  have hn := hs.len_pos
  obtain ⟨plcp, mx, q1, q2, q3, q4⟩ := plcpLoop_spec h hs p3 (t.length - 1) 0 0 0 phi (by omega) p2
    (by intros; omega) (by intros; rfl) (by intro p v hp; omega)
  have hb := lt_two_pow_bitsFor t.length hlen
  have hsaP : packIf pk.sa (bitsFor t.length) sa = sa := packIf_eq fun v hv => by have := h.lt v hv; omega
  have hphiP : packIf pk.phi (bitsFor t.length) phi = phi := packIf_eq fun v hv => by
    obtain ⟨p, hp, hpv⟩ := List.mem_iff_getElem.mp hv
    obtain ⟨k, hk, hke⟩ := h.idx (p := p) (by omega)
    have hv' : phi[p]? = some v := by rw [List.getElem?_eq_getElem hp, hpv]
    cases k with
    | zero =>
      have := p4 p hke
      rw [hv'] at this
      have := h.lt v (List.mem_of_getElem? this.symm)
      omega
    | succ k =>
      have := p3 k p hke
      rw [hv'] at this
      have := h.lt v (List.mem_of_getElem? this.symm)
      omega
  have hisaP : packIf pk.isa (bitsFor t.length) isa = isa := packIf_eq fun v hv => by
    obtain ⟨p, hp, hpv⟩ := List.mem_iff_getElem.mp hv
    obtain ⟨k, hk, hke⟩ := h.idx (p := p) (by omega)
    have := i3 k p hke
    rw [List.getElem?_eq_getElem hp, hpv] at this
    cases this
    omega
  have hmx : mx < 2 ^ 64 := by
    rcases q4 with rfl | ⟨p, hp, hpe⟩
    · decide
    · obtain ⟨a, -⟩ := q3 p mx hp hpe
      obtain ⟨k, hk, hke⟩ := h.idx (p := p) (by omega)
      cases k with
      | zero =>
        rw [h.zero hs] at hke
        have : t.length - 1 = p := by simpa using hke
        omega
      | succ k =>
        obtain ⟨j, hj, hjl⟩ := h.get (k := k) (by omega)
        have hne : p ≠ j := by
          rintro rfl
          have := h.inj hke hj
          omega
        have := a k j hke hj
        have := hs.lcp_lt (i := p) (j := j) (by omega) hjl hne
        omega
  have hbm := lt_two_pow_bitsFor mx hmx
  have hplP : ∀ p v : Nat, p + 1 < t.length → (packIf pk.plcp (bitsFor mx) plcp)[p]? = some v → IsPlcp t sa p v ∧ v ≤ mx := by
    intro p v hp hv
    rw [packIf_get] at hv
    · exact q3 p v hp hv
    · intro v hv
      have := (q3 p v hp hv).2
      omega
  obtain ⟨lcp, l1, l2, l3, l4, l5⟩ := lcpFromPLCP_spec h hs (plcp := packIf pk.plcp (bitsFor mx) plcp) (by rw [packIf_length, q2])
    (fun p v hp hv => (hplP p v hp hv).1)
  have hlcpP : packIf pk.lcp (bitsFor mx) lcp = lcp := packIf_eq fun v hv => by
    obtain ⟨k, hk, hke⟩ := List.mem_iff_getElem.mp hv
    have hv' : lcp[k]? = some v := by rw [List.getElem?_eq_getElem hk, hke]
    cases k with
    | zero => rw [l3] at hv'; cases hv'; exact Nat.pow_pos (by omega)
    | succ k =>
      obtain ⟨i, hi, hil⟩ := h.get (k := k + 1) (by omega)
      rw [l5 k i hi] at hv'
      have := (hplP i v (h.succ_lt hs hi) hv').2
      omega
  refine ⟨phi, plcp, mx, ⟨sa, isa, lcp⟩, p1, q1, ?_, q2, q3, q4, rfl, l2, l3, l4, i2, i3⟩
  unfold textDS
  simp only [hsaP, p1, hphiP]
  rw [show plcpFromPhi t phi = .ok (plcp, mx) from q1]
  simp only [l1, i1, hisaP, hlcpP]

end Tdc
