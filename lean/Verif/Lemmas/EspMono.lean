import Verif.Lemmas.EspRecover
import Verif.Lemmas.EspD
import Mathlib.Data.List.Perm.Subperm

/-!
# `DMonotonSubseq` with any strategy and any coder of names
-/

namespace Tdc
namespace Esp

theorem sortedIndices_perm (l : List Nat) : (sortedIndices l).Perm (List.range l.length) := List.mergeSort_perm _ _

theorem sortedIndices_sorted (l : List Nat) : ((sortedIndices l).map fun i => l[i]?.getD 0).Pairwise (· ≤ ·) := by
  rw [List.pairwise_map]
  have := List.pairwise_mergeSort (le := fun a b => decide (l[a]?.getD 0 ≤ l[b]?.getD 0)) (by
    intro a b c h1 h2
    simp only [decide_eq_true_eq] at *
    exact Nat.le_trans h1 h2) (by
    intro a b
    simp only [Bool.or_eq_true, decide_eq_true_eq]
    exact Nat.le_total _ _) (List.range l.length)
  exact this.imp (by intro a b h; simpa using h)

theorem rdSorted_ok : ∀ (l : List Nat) (last : Nat) (rest : List Bool), l.Pairwise (· ≤ ·) → (∀ x ∈ l, last ≤ x) → (∀ x ∈ l, x < 2 ^ 64) →
    rdSorted l.length last (unaryDiffs last l ++ rest) = .ok (l, rest)
  | [], last, rest, _, _, _ => by simp [rdSorted, unaryDiffs]
  | x :: l, last, rest, hp, hu, h => by
    rw [List.pairwise_cons] at hp
    have hx := h x (by simp)
    have hl := hu x (by simp)
    have ih := rdSorted_ok l x rest hp.2 hp.1 (fun y hy => h y (by simp [hy]))
    have e1 : (x + 2 ^ 64 - last) % 2 ^ 64 = x - last := by omega
    simp only [List.length_cons, rdSorted, unaryDiffs, List.append_assoc, e1]
    rw [if_neg (by cases (x - last) <;> simp [writeUnary]), rdUnary_writeUnary]
    simp only [Except.bind, show last + (x - last) = x by omega, Nat.mod_eq_of_lt hx, ih]

/-- No more subsequences than elements -/
theorem Decomp.b_le {sis dpi : List Nat} {b : List Bool} (h : Decomp sis dpi b) : b.length ≤ sis.length := by
  rw [← h.len]
  have hsub : List.range b.length ⊆ dpi := by
    intro k hk
    obtain ⟨i, hi⟩ := h.used k (List.mem_range.1 hk)
    exact List.mem_of_getElem? hi
  have := (List.subperm_of_subset (List.nodup_range (n := b.length)) hsub).length_le
  simpa using this

theorem mono_main {N : Nat} {f : List Nat → Res (List Nat × List Bool)} {d : DCoder} (hf : Decomposes N f) (hd : d.SoundIdx N) (hN : N ≤ 2 ^ 60)
    (l : List Nat) (hl : ∀ x ∈ l, x < 2 ^ 64) (hlen : l.length < N) (hne : l ≠ []) (w mx w' mx' : Nat) :
    (∀ bits rest, (DMonotonSubseq f d).enc w mx l = .ok bits → (DMonotonSubseq f d).dec w' mx' l.length (bits ++ rest) = .ok (l, rest)) ∧
    (d.TotalIdx N → ∃ bits, (DMonotonSubseq f d).enc w mx l = .ok bits) := by
  have hperm := sortedIndices_perm l
  have hsl : (sortedIndices l).length = l.length := by simpa using hperm.length_eq
  have hsorted := sortedIndices_sorted l
  simp only [DMonotonSubseq]
  generalize sortedIndices l = sis at *
  have hpos : 0 < l.length := List.length_pos_iff.2 hne
  obtain ⟨dpi, b, e1, e2⟩ := hf sis (by rw [hsl]; exact hperm) (by intro e; rw [e] at hsl; simp at hsl; omega) (by omega)
  have hb := e2.b_le
  have hbpos : 0 < b.length := by
    have hdp : 0 < dpi.length := by rw [e2.len]; omega
    have h0 : dpi[0]? = some dpi[0] := List.getElem?_eq_getElem hdp
    have := e2.lt 0 _ h0
    omega
  obtain ⟨dsi, d1, d2, d3⟩ := dsigma_ok (dpi := dpi) (by rw [hsl]; exact hperm) e2.len
  rw [e1]
  simp only [Except.bind, d1]
  have hmx : b.length - 1 < 2 ^ 60 := by omega
  have hw1 := (bitsFor_exact (b.length - 1) 60 (by omega)).2 ⟨by omega, hmx⟩
  have hw0 := ((bitsFor_exact (b.length - 1) _ (by omega)).1 (Nat.le_refl _))
  have hdpi : ∀ x ∈ dpi, x ≤ b.length - 1 := by
    intro x hx
    obtain ⟨i, hi⟩ := List.getElem?_of_mem hx
    have := e2.lt i x hi
    omega
  have hdsi : ∀ x ∈ dsi, x ≤ b.length - 1 := by
    intro x hx
    obtain ⟨m, hm⟩ := List.getElem?_of_mem hx
    have hml := (List.getElem?_eq_some_iff.1 hm).1
    have : m ∈ sis := hperm.mem_iff.2 (List.mem_range.2 (by omega))
    obtain ⟨i, hi⟩ := List.getElem?_of_mem this
    have hil := (List.getElem?_eq_some_iff.1 hi).1
    have hid : i < dpi.length := by rw [e2.len]; exact hil
    have hk : dpi[i]? = some dpi[i] := List.getElem?_eq_getElem hid
    have := d3 i m _ hi hk
    rw [hm] at this
    simp only [Option.some.injEq] at this
    rw [this]
    exact hdpi _ (List.getElem_mem _)
  have hall : ∀ x ∈ dpi ++ dsi, x ≤ b.length - 1 := by
    intro x hx
    rcases List.mem_append.1 hx with h | h
    · exact hdpi x h
    · exact hdsi x h
  have hdl := e2.len
  have hcl : (dpi ++ dsi).length = l.length * 2 := by rw [List.length_append]; omega
  have hcne : dpi ++ dsi ≠ [] := by intro e; rw [e] at hcl; simp at hcl; omega
  constructor
  · intro bits rest he
    cases hc : d.enc (bitsFor (b.length - 1)) (b.length - 1) (dpi ++ dsi) with
    | error e => rw [hc] at he; cases he
    | ok c =>
      rw [hc] at he
      simp only [Except.ok.injEq] at he
      subst he
      have hdec := hd _ _ _ c rest hall hw0.2 (by omega) (by omega) hcne (by omega) hc
      have hvals : ∀ x ∈ sis.map (fun i => l[i]?.getD 0), x < 2 ^ 64 := by
        intro x hx
        obtain ⟨i, hi, rfl⟩ := List.mem_map.1 hx
        have hil : i < l.length := List.mem_range.1 (hperm.mem_iff.1 hi)
        rw [List.getElem?_eq_getElem hil]
        exact hl _ (List.getElem_mem hil)
      have hrs := rdSorted_ok (sis.map fun i => l[i]?.getD 0) 0 (writeCInt b.length 7 ++ (b ++ (c ++ rest))) hsorted (fun x _ => Nat.zero_le x) hvals
      rw [List.length_map, hsl] at hrs
      simp only [List.append_assoc]
      rw [hrs]
      simp only
      rw [rdCInt_writeCInt _ 7 _ (by omega) (by omega) (by omega)]
      simp only
      rw [rdBitList_ok]
      simp only
      rw [hcl] at hdec
      rw [hdec]
      simp only
      have ht1 : (dpi ++ dsi).take l.length = dpi := by rw [← hsl, ← hdl, List.take_left]
      have ht2 : ((dpi ++ dsi).drop l.length).take l.length = dsi := by
        rw [← hsl, ← hdl, List.drop_left, hdl, ← d2, List.take_length]
      rw [ht1, ht2]
      rw [recoverD_ok (rhs := l) hperm e2 (by unfold npos; omega) (by omega) (fun i m k hi hk => d3 i m k hi hk) (by
        intro i m hi
        rw [List.getElem?_map, hi]
        have hml : m < l.length := List.mem_range.1 (hperm.mem_iff.1 (List.mem_of_getElem? hi))
        rw [List.getElem?_eq_getElem hml]
        simp [List.getElem?_eq_getElem hml])]
  · intro ht
    obtain ⟨c, hc⟩ := ht _ _ _ hall hw0.2 (by omega) (by omega) hcne (by omega)
    rw [hc]
    exact ⟨_, rfl⟩

theorem mono_sound {N : Nat} {f : List Nat → Res (List Nat × List Bool)} {d : DCoder} (hf : Decomposes N f) (hd : d.SoundIdx N) (hN : N ≤ 2 ^ 60) :
    (DMonotonSubseq f d).Sound N := by
  intro w mx l bits rest h1 h2 h3 h4 h5 he
  have : (2 : Nat) ^ w ≤ 2 ^ 62 := Nat.pow_le_pow_right (by omega) h3
  exact (mono_main hf hd hN l (fun x hx => by have := h1 x hx; omega) h4 h5 w mx w mx).1 bits rest he

theorem mono_total {N : Nat} {f : List Nat → Res (List Nat × List Bool)} {d : DCoder} (hf : Decomposes N f) (hd : d.SoundIdx N) (ht : d.TotalIdx N) (hN : N ≤ 2 ^ 60) :
    (DMonotonSubseq f d).Total N := by
  intro w mx l h1 h2 h3 h4 h5
  have : (2 : Nat) ^ w ≤ 2 ^ 62 := Nat.pow_le_pow_right (by omega) h3
  exact (mono_main hf hd hN l (fun x hx => by have := h1 x hx; omega) h4 h5 w mx w mx).2 ht

theorem wt_soundIdx {N : Nat} (hN : N ≤ 2 ^ 30) : DWaveletTree.SoundIdx N := by
  intro w mx l bits rest h1 _ _ _ _ h6 he
  obtain ⟨b', e1, e2⟩ := wt_roundtrip mx l (by omega) h1 w w mx
  rw [he] at e1
  simp only [Except.ok.injEq] at e1
  subst e1
  exact e2 rest

theorem wt_totalIdx {N : Nat} (hN : N ≤ 2 ^ 30) : DWaveletTree.TotalIdx N := by
  intro w mx l h1 _ _ _ _ h6
  obtain ⟨b', e1, _⟩ := wt_roundtrip mx l (by omega) h1 w w mx
  exact ⟨b', e1⟩

end Esp
end Tdc
