import Verif.Lemmas.LFSRules
import Verif.Lemmas.LZSSLCP

namespace Tdc
namespace Lfs

open Arith (bind_ok)

variable {T : List UInt8} {A : TextArrays}

theorem lcpAt (hA : ArraysOk T A) {i : Nat} (h : i < T.length) : ∃ l, A.lcp[i]? = some l :=
  ⟨_, List.getElem?_eq_getElem (by rw [hA.lcpLength]; exact h)⟩

theorem saAt (hA : ArraysOk T A) {i : Nat} (h : i < T.length) : ∃ l, A.sa[i]? = some l :=
  ⟨_, List.getElem?_eq_getElem (by rw [hA.isSA.length]; exact h)⟩

/-- neighbours in the suffix array share `lcp` characters -/
theorem lcp_share (hA : ArraysOk T A) {i len l : Nat} (hi : A.lcp[i]? = some l) (hl : len ≤ l) (h0 : 0 < len) :
    ∃ k p q, i = k + 1 ∧ A.sa[k]? = some p ∧ A.sa[k + 1]? = some q ∧ p + len ≤ T.length ∧ q + len ≤ T.length ∧ sub T q len = sub T p len := by
  cases i with
  | zero =>
    rw [hA.lcp0] at hi
    cases hi
    omega
  | succ k =>
    have hk : k + 1 < T.length := by rw [← hA.lcpLength]; exact (List.getElem?_eq_some_iff.1 hi).1
    obtain ⟨svh1, h1⟩ := saAt hA (i := k) (by omega)
    obtain ⟨svh2, h2⟩ := saAt hA (i := k + 1) (by omega)
    have h3 := hA.lcp k _ _ h2 h1
    rw [hi] at h3
    simp only [Option.some.injEq] at h3
    have g := lcpLen_get (T.drop svh2) (T.drop svh1) (len - 1) (by omega)
    simp only [List.length_drop] at g
    refine ⟨k, _, _, rfl, h1, h2, by omega, by omega, ?_⟩
    apply List.ext_getElem?
    intro x
    unfold sub
    rw [List.getElem?_take, List.getElem?_take]
    split
    · exact (lcpLen_get _ _ x (by omega)).1
    · rfl

/-! ## the bins -/

theorem altDif_ok (hA : ArraysOk T A) (diff : Nat → Nat → Nat) (si fl : Nat) : ∀ (j dif : Nat), j < T.length → ∃ d, altDif diff A si fl j dif = .ok d
  | 0, dif, _ => ⟨dif, rfl⟩
  | j + 1, dif, h => by
    obtain ⟨lvh1, h1⟩ := lcpAt hA (i := j + 1) (by omega)
    obtain ⟨svh2, h2⟩ := saAt hA (i := j + 1) (by omega)
    rw [altDif, vget_ok h1, bind_ok]
    split
    · rw [vget_ok h2, bind_ok]
      exact altDif_ok hA diff si fl j _ (by omega)
    · exact ⟨dif, rfl⟩

theorem factorLen_ok (hA : ArraysOk T A) (diff : Nat → Nat → Nat) {i l : Nat} (h0 : 0 < i) (h : i < T.length) :
    ∃ f, factorLen diff A i l = .ok f ∧ f ≤ l := by
  obtain ⟨svh1, h1⟩ := saAt hA (i := i - 1) (by omega)
  obtain ⟨svh2, h2⟩ := saAt hA (i := i) (by omega)
  obtain ⟨d, h3⟩ := altDif_ok hA diff svh2 (min l (diff svh1 svh2)) (i - 1) (diff svh1 svh2) (by omega)
  exact ⟨min l d, by rw [factorLen, vget_ok h1, bind_ok, vget_ok h2, bind_ok, h3, bind_ok], Nat.min_le_left _ _⟩

/-- the bins hold ranks whose common prefix is at least as long as the number of the bin -/
def BinsOk (A : TextArrays) (b : List (List Nat)) : Prop := ∀ (f : Nat) (is : List Nat), b[f]? = some is → ∀ i ∈ is, ∃ l, A.lcp[i]? = some l ∧ f ≤ l

theorem bins_ok (hA : ArraysOk T A) (diff : Nat → Nat → Nat) : ∀ (k i : Nat) (b : List (List Nat)), 0 < i → i + k ≤ T.length → BinsOk A b →
    ∃ b', bins diff A k i b = .ok b' ∧ BinsOk A b'
  | 0, _, b, _, _, hb => ⟨b, rfl, hb⟩
  | k + 1, i, b, h0, h, hb => by
    obtain ⟨lvh1, h1⟩ := lcpAt hA (i := i) (by omega)
    rw [bins, vget_ok h1, bind_ok]
    split
    · obtain ⟨f, h2, h3⟩ := factorLen_ok hA diff (l := lvh1) h0 (by omega)
      rw [h2, bind_ok]
      generalize hg : b ++ List.replicate (lvh1 + 1 - b.length) ([] : List Nat) = g
      have hf : f < g.length := by
        rw [← hg]
        simp only [List.length_append, List.length_replicate]
        omega
      have hgok : BinsOk A g := by
        intro f' is hf' j hj
        rw [← hg] at hf'
        rcases Nat.lt_or_ge f' b.length with hx | hx
        · rw [List.getElem?_append_left hx] at hf'
          exact hb f' is hf' j hj
        · rw [List.getElem?_append_right hx, List.getElem?_replicate] at hf'
          split at hf'
          · cases hf'
            cases hj
          · cases hf'
      have hq : g[f]? = some g[f] := List.getElem?_eq_getElem hf
      rw [vget_ok hq, bind_ok]
      refine bins_ok hA diff k (i + 1) _ (by omega) (by omega) ?_
      intro f' is hf' j hj
      rw [List.getElem?_set] at hf'
      split at hf'
      · next e =>
        subst e
        cases hf'
        rcases List.mem_append.1 hj with hj | hj
        · exact hgok f _ hq j hj
        · rw [List.mem_singleton.1 hj]
          exact ⟨_, h1, h3⟩
      · exact hgok f' is hf' j hj
    · exact bins_ok hA diff k (i + 1) b (by omega) (by omega) hb

/-! ## the occurrences of an entry -/

/-- the positions collected so far -/
def Coll (T : List UInt8) (dead : List Bool) (len : Nat) (w : List UInt8) (st : List Nat × Nat) : Prop :=
  (1 ≤ st.2 ∧ st.2 ≤ len) ∧ ∀ p ∈ st.1, p + len ≤ T.length ∧ dead[p]? = some false ∧ dead[p + len - 1]? = some false ∧ sub T p len = w

theorem shorter_ok {dead : List Bool} {p len : Nat} (hp : p + len ≤ dead.length) (he : dead[p + len - 1]? = some true) : ∀ d, 1 ≤ d → d ≤ len →
    ∃ d', shorter dead p len d = .ok d' ∧ 1 ≤ d' ∧ d' ≤ d
  | 0, h, _ => by omega
  | 1, h, hl => ⟨1, by rw [shorter, vget_ok he, bind_ok]; rfl, by omega, by omega⟩
  | d + 2, h, hl => by
    have h1 : dead[p + len - (d + 1 + 1)]? = some dead[p + len - (d + 1 + 1)] := List.getElem?_eq_getElem (by omega)
    rw [shorter, vget_ok h1, bind_ok]
    split
    · exact ⟨d + 2, rfl, by omega, by omega⟩
    · obtain ⟨d', a, b, c⟩ := shorter_ok hp he (d + 1) (by omega) (by omega)
      exact ⟨d', a, b, by omega⟩

theorem visit_ok {dead : List Bool} (hd : dead.length = T.length) {len p : Nat} {w : List UInt8} {st : List Nat × Nat} (h0 : 0 < len)
    (hp : p + len ≤ T.length) (hw : sub T p len = w) (h : Coll T dead len w st) : ∃ st', visit dead len p st = .ok st' ∧ Coll T dead len w st' := by
  have h1 : dead[p]? = some dead[p] := List.getElem?_eq_getElem (by omega)
  have h2 : dead[p + len - 1]? = some dead[p + len - 1] := List.getElem?_eq_getElem (by omega)
  rw [visit, vget_ok h1, bind_ok, vget_ok h2, bind_ok]
  split
  · next hc =>
    simp only [Bool.and_eq_true, Bool.not_eq_true'] at hc
    refine ⟨_, rfl, h.1, fun q hq => ?_⟩
    rcases List.mem_append.1 hq with hq | hq
    · exact h.2 q hq
    · rw [List.mem_singleton.1 hq]
      exact ⟨hp, by rw [h1, hc.1], by rw [h2, hc.2], hw⟩
  · split
    · next hc =>
      simp only [Bool.and_eq_true, Bool.not_eq_true'] at hc
      obtain ⟨d', a, b, c⟩ := shorter_ok (p := p) (len := len) (dead := dead) (by omega) (by rw [h2, hc.2]) st.2 h.1.1 h.1.2
      rw [a, bind_ok]
      exact ⟨_, rfl, ⟨b, Nat.le_trans c h.1.2⟩, h.2⟩
    · exact ⟨st, rfl, h⟩

theorem upLoop_ok (hA : ArraysOk T A) {dead : List Bool} (hd : dead.length = T.length) {len : Nat} {w : List UInt8} (h0 : 0 < len) :
    ∀ (i : Nat) (st : List Nat × Nat), i < T.length → (∃ q, A.sa[i]? = some q ∧ sub T q len = w) → Coll T dead len w st →
      ∃ st', upLoop A dead len i st = .ok st' ∧ Coll T dead len w st'
  | 0, st, _, _, h => ⟨st, by rw [upLoop, vget_ok hA.lcp0, bind_ok, if_neg (by omega)], h⟩
  | i + 1, st, hi, hq, h => by
    obtain ⟨lvh1, h1⟩ := lcpAt hA (i := i + 1) (by omega)
    rw [upLoop, vget_ok h1, bind_ok]
    split
    · next hl =>
      obtain ⟨k, p, q, hk, g1, g2, g3, g4, g5⟩ := lcp_share hA h1 hl h0
      cases hk
      obtain ⟨q', e1, e2⟩ := hq
      rw [g2] at e1
      cases e1
      obtain ⟨st', f1, f2⟩ := visit_ok hd h0 g3 (g5.symm.trans e2) h
      rw [vget_ok g1, bind_ok, f1, bind_ok]
      exact upLoop_ok hA hd h0 i st' (by omega) ⟨p, g1, g5.symm.trans e2⟩ f2
    · exact ⟨st, rfl, h⟩

theorem downLoop_ok (hA : ArraysOk T A) {dead : List Bool} (hd : dead.length = T.length) {len : Nat} {w : List UInt8} (h0 : 0 < len) :
    ∀ (k i : Nat) (st : List Nat × Nat), i + k = T.length → (∀ l, A.lcp[i]? = some l → len ≤ l → ∃ q, A.sa[i]? = some q ∧ sub T q len = w) →
      Coll T dead len w st → ∃ st', downLoop A dead len k i st = .ok st' ∧ Coll T dead len w st'
  | 0, _, st, _, _, h => ⟨st, rfl, h⟩
  | k + 1, i, st, hi, hq, h => by
    obtain ⟨lvh1, h1⟩ := lcpAt hA (i := i) (by omega)
    rw [downLoop, vget_ok h1, bind_ok]
    split
    · next hl =>
      obtain ⟨q', e1, e2⟩ := hq _ h1 hl
      obtain ⟨j, p, q, hk, g1, g2, g3, g4, g5⟩ := lcp_share hA h1 hl h0
      subst hk
      rw [g2] at e1
      cases e1
      obtain ⟨st', f1, f2⟩ := visit_ok hd h0 g4 e2 h
      rw [vget_ok g2, bind_ok, f1, bind_ok]
      refine downLoop_ok hA hd h0 k _ st' (by omega) (fun l hl hle => ?_) f2
      obtain ⟨j', p', q', hk', g1', g2', g3', g4', g5'⟩ := lcp_share hA hl hle h0
      cases hk'
      rw [g2] at g1'
      cases g1'
      exact ⟨q', g2', g5'.trans e2⟩
    · exact ⟨st, rfl, h⟩

theorem entry_ok (hA : ArraysOk T A) {len i l : Nat} (h0 : 0 < len) (hi : A.lcp[i]? = some l) (hl : len ≤ l) {s : St} (h : Ok T len s) :
    ∃ s', entry A len i s = .ok s' ∧ Ok T len s' := by
  obtain ⟨k, p, q, hk, g1, g2, g3, g4, g5⟩ := lcp_share hA hi hl h0
  have hik : i < T.length := by rw [← hA.lcpLength]; exact (List.getElem?_eq_some_iff.1 hi).1
  subst hk
  obtain ⟨u, a1, a2⟩ := upLoop_ok hA h.deadLen h0 (k + 1) ([], len) hik ⟨q, g2, rfl⟩ ⟨⟨h0, Nat.le_refl _⟩, by simp⟩
  obtain ⟨d, b1, b2⟩ := downLoop_ok hA h.deadLen h0 (A.lcp.length - (k + 1)) (k + 1) u (by rw [hA.lcpLength]; omega) (fun _ _ _ => ⟨q, g2, rfl⟩) a2
  rw [entry, a1, bind_ok, b1, bind_ok]
  split
  · split
    · next hs =>
      rw [vget_ok g2, bind_ok]
      exact addRule_ok h h0 g4 (greedy_sep (len := len) _ 0) hs fun p hp => b2.2 p (select_mem p hp)
    · exact ⟨s, rfl, h⟩
  · exact ⟨s, rfl, h⟩

theorem bin_ok (hA : ArraysOk T A) {len : Nat} (h0 : 0 < len) : ∀ (is : List Nat) (s : St), (∀ i ∈ is, ∃ l, A.lcp[i]? = some l ∧ len ≤ l) → Ok T len s →
    ∃ s', bin A len is s = .ok s' ∧ Ok T len s'
  | [], s, _, h => ⟨s, rfl, h⟩
  | i :: is, s, hi, h => by
    obtain ⟨l, h1, h2⟩ := hi i (List.mem_cons_self ..)
    obtain ⟨s', a, b⟩ := entry_ok hA h0 h1 h2 h
    rw [bin, a, bind_ok]
    exact bin_ok hA h0 is s' (fun j hj => hi j (List.mem_cons_of_mem _ hj)) b

theorem allBins_ok (hA : ArraysOk T A) {b : List (List Nat)} (hb : BinsOk A b) : ∀ (len : Nat) (s : St), len < b.length → Ok T len s → Ok T minLrf s →
    ∃ s', allBins A b len s = .ok s' ∧ Ok T minLrf s'
  | 0, s, _, _, h => ⟨s, rfl, h⟩
  | len + 1, s, hl, h, h2 => by
    rw [allBins]
    split
    · next hm =>
      have h1 : b[len + 1]? = some b[len + 1] := List.getElem?_eq_getElem hl
      obtain ⟨s', a, c⟩ := bin_ok hA (by omega) b[len + 1] s (fun i hi => hb _ _ h1 i hi) h
      rw [vget_ok h1, bind_ok, a, bind_ok]
      exact allBins_ok hA hb len s' (by omega) (c.mono (by omega)) (c.mono hm)
    · exact ⟨s, rfl, h2⟩

theorem esaRules_ok (hA : ArraysOk T A) (hT : 0 < T.length) (diff : Nat → Nat → Nat) :
    ∃ s, esaRules diff A T.length = .ok (s.dict, s.nts.mergeSort ntLe) ∧ Ok T minLrf s := by
  obtain ⟨b, h1, h2⟩ := bins_ok hA diff (A.lcp.length - 1) 1 [] (by omega) (by rw [hA.lcpLength]; omega) (fun f is h => by simp at h)
  rw [esaRules, h1, bind_ok]
  split
  · exact ⟨_, by simp, Ok.init T _⟩
  · next hb =>
    have : 2 ≤ b.length := by unfold minLrf at hb; omega
    obtain ⟨s', a, c⟩ := allBins_ok hA h2 (b.length - 1) _ (by omega) (Ok.init T (b.length - 1)) (Ok.init T _)
    exact ⟨s', by rw [a, bind_ok], c⟩

end Lfs
end Tdc
