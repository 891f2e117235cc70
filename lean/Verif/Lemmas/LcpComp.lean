import Verif.Model.LcpComp
import Verif.Spec.LcpComp
import Verif.Lemmas.LcpDec
import Verif.Lemmas.LZSSLCP
import Mathlib.Data.List.Nodup
import Mathlib.Tactic.ByContra

namespace Tdc
namespace LC

/-! ### sort -/

theorem isSorted_pairwise (fs : List Factor) (h : isSorted fs = true) : fs.Pairwise (fun a b => a.pos ≤ b.pos) := by
  induction fs with
  | nil => exact List.Pairwise.nil
  | cons f fs ih =>
    cases fs with
    | nil => simp
    | cons g fs =>
      simp only [isSorted, Bool.and_eq_true, decide_eq_true_eq] at h
      have hp := ih h.2
      rw [List.pairwise_cons]
      refine ⟨?_, hp⟩
      intro x hx
      rcases List.mem_cons.mp hx with rfl | hx
      · exact h.1
      · have := (List.pairwise_cons.mp hp).1 x hx; omega

theorem sortFactors_spec (fs : List Factor) : (sortFactors fs).Perm fs ∧ (sortFactors fs).Pairwise (fun a b => a.pos ≤ b.pos) := by
  unfold sortFactors
  split
  · exact ⟨List.Perm.refl _, isSorted_pairwise fs (by assumption)⟩
  · refine ⟨List.mergeSort_perm _ _, ?_⟩
    have := List.pairwise_mergeSort (le := fun a b : Factor => decide (a.pos ≤ b.pos)) (by intro a b c; simp; omega) (by intro a b; simp; omega) fs
    exact this.imp (by intro a b h; simpa using h)

/-- two factors replace different characters -/
def Disj (a b : Factor) : Prop := a.pos + a.len ≤ b.pos ∨ b.pos + b.len ≤ a.pos

theorem Disj.symm {a b : Factor} (h : Disj a b) : Disj b a := Or.symm h

/-- sorted and disjoint factors with positive lengths are ordered -/
theorem ordered_of {n : Nat} (fs : List Factor) (hs : fs.Pairwise (fun a b => a.pos ≤ b.pos)) (hd : fs.Pairwise Disj)
    (hl : ∀ f ∈ fs, 1 ≤ f.len ∧ f.src ≤ n ∧ f.pos + f.len ≤ n) : ∀ p, p ≤ n → (∀ f ∈ fs, p ≤ f.pos) → FactorsOrdered n p fs := by
  induction fs with
  | nil => intro p hp _; exact hp
  | cons f fs ih =>
    intro p hp hge
    obtain ⟨h1, h2, h3⟩ := hl f (by simp)
    rw [List.pairwise_cons] at hs hd
    refine ⟨hge f (by simp), h2, h3, ih hs.2 hd.2 (fun g hg => hl g (by simp [hg])) _ h3 ?_⟩
    intro g hg
    have a := hs.1 g hg
    have b := hd.1 g hg
    have c := (hl g (by simp [hg])).1
    rcases b with b | b <;> omega

/-! ### flatten -/

theorem fmapMark_spec (v n : Nat) : ∀ (p : Nat) (m : List Nat), p + n ≤ m.length →
    ∃ m', fmapMark p v n m = .ok m' ∧ m'.length = m.length ∧
      ∀ x : Nat, m'[x]? = if p ≤ x ∧ x < p + n then some v else m[x]? := by
  induction n with
  | zero => intro p m _; exact ⟨m, rfl, rfl, fun x => by rw [if_neg (by omega)]⟩
  | succ n ih =>
    intro p m h
    rw [fmapMark, vset_ok _ (by omega)]
    simp only
    obtain ⟨m', e, l, g⟩ := ih (p + 1) (m.set p v) (by simp; omega)
    refine ⟨m', e, by simp [l], ?_⟩
    intro x
    rw [g x]
    by_cases hx : x = p
    · subst hx
      rw [if_neg (by omega), if_pos (by omega), set_get_self _ (by omega)]
    · rw [List.getElem?_set_ne (Ne.symm hx)]
      by_cases hc : p + 1 ≤ x ∧ x < p + 1 + n
      · rw [if_pos hc, if_pos (by omega)]
      · rw [if_neg hc, if_neg (by omega)]

theorem fmapLoop_spec {n : Nat} (fs : List Factor) : ∀ (p i : Nat) (m : List Nat), FactorsOrdered n p fs → (∀ f ∈ fs, f.pos + f.len ≤ m.length) →
    ∃ m', fmapLoop fs i m = .ok m' ∧ m'.length = m.length ∧
      (∀ x : Nat, ¬ Covered fs x → m'[x]? = m[x]?) ∧
      ∀ (k : Nat) (f : Factor), fs[k]? = some f → ∀ x, f.pos ≤ x → x < f.pos + f.len → m'[x]? = some (i + k + 1) := by
  induction fs with
  | nil => intro p i m _ _; exact ⟨m, rfl, rfl, fun _ _ => rfl, by intro k f h; simp at h⟩
  | cons f fs ih =>
    intro p i m ho hl
    obtain ⟨h1, h2, h3, h4⟩ := ho
    obtain ⟨m1, e1, l1, g1⟩ := fmapMark_spec (i + 1) f.len f.pos m (hl f (by simp))
    obtain ⟨m2, e2, l2, g2, g2'⟩ := ih _ (i + 1) m1 h4 (fun g hg => by rw [l1]; exact hl g (by simp [hg]))
    refine ⟨m2, by rw [fmapLoop, e1]; exact e2, by omega, ?_, ?_⟩
    · intro x hx
      rw [g2 x (fun ⟨g, hg, h⟩ => hx ⟨g, by simp [hg], h⟩), g1 x, if_neg]
      intro hc
      exact hx ⟨f, by simp, hc⟩
    · intro k g hk x hx1 hx2
      cases k with
      | zero =>
        simp only [List.getElem?_cons_zero, Option.some.injEq] at hk
        subst hk
        rw [g2 x, g1 x, if_pos ⟨hx1, hx2⟩]
        rintro ⟨g, hg, h5, h6⟩
        have := FactorsOrdered.pos_ge fs _ h4 g hg
        omega
      | succ k =>
        simp only [List.getElem?_cons_succ] at hk
        rw [g2' k g hk x hx1 hx2]
        congr 1
        omega

/-- the invariant of `flatten`: `gs` are the current factors, `fs` the original ones -/
structure FlatInv (text : List UInt8) (rank : Nat → Nat) (fs gs : List Factor) : Prop where
  len : gs.length = fs.length
  same : ∀ (k : Nat) (f g : Factor), fs[k]? = some f → gs[k]? = some g → g.pos = f.pos ∧ g.len = f.len
  eq : ∀ g ∈ gs, ∀ k, k < g.len → text[g.src + k]? = text[g.pos + k]?
  rk : ∀ g ∈ gs, ∀ k, k < g.len → rank (g.src + k) < rank (g.pos + k)

/-- what the position map says -/
structure FmapOk (fs : List Factor) (fmap : List Nat) : Prop where
  unc : ∀ x v : Nat, ¬ Covered fs x → fmap[x]? = some v → v = 0
  cov : ∀ (k : Nat) (f : Factor), fs[k]? = some f → ∀ x, f.pos ≤ x → x < f.pos + f.len → fmap[x]? = some (k + 1)

theorem FmapOk.of_get {fs : List Factor} {fmap : List Nat} (h : FmapOk fs fmap) {x j : Nat} (hx : fmap[x]? = some (j + 1)) :
    ∃ f, fs[j]? = some f ∧ f.pos ≤ x ∧ x < f.pos + f.len := by
  by_cases hc : Covered fs x
  · obtain ⟨f, hf, h1, h2⟩ := hc
    obtain ⟨k, hk⟩ := List.getElem?_of_mem hf
    have := h.cov k f hk x h1 h2
    rw [hx] at this
    cases this
    exact ⟨f, hk, h1, h2⟩
  · have := h.unc x _ hc hx; omega

theorem flattenSrc_spec {text : List UInt8} {rank : Nat → Nat} {fs gs : List Factor} {fmap : List Nat} (hf : FmapOk fs fmap)
    (hi : FlatInv text rank fs gs) (len pos : Nat) (hlen : 1 ≤ len) (fuel : Nat) : ∀ (src : Nat) (seen : List Nat),
    (∀ k, k < len → text[src + k]? = text[pos + k]?) → (∀ k, k < len → rank (src + k) < rank (pos + k)) →
    seen.Nodup → (∀ x ∈ seen, x < fmap.length ∧ rank src < rank x) → fmap.length + 2 ≤ fuel + seen.length →
    ∃ s, flattenSrc fmap gs len fuel src = .ok s ∧ (∀ k, k < len → text[s + k]? = text[pos + k]?) ∧
      (∀ k, k < len → rank (s + k) < rank (pos + k)) ∧
      (∀ f ∈ fs, ¬ (f.pos ≤ s ∧ s < f.pos + f.len ∧ s + len ≤ f.pos + f.len)) := by
  induction fuel with
  | zero =>
    intro src seen _ _ hn hs hfu
    have : seen.length ≤ (List.range fmap.length).length := (List.Nodup.subperm hn (fun x hx => List.mem_range.mpr (hs x hx).1)).length_le
    simp at this
    omega
  | succ fuel ih =>
    intro src seen heq hrk hn hs hfu
    rw [flattenSrc]
    by_cases hlt : src < fmap.length
    · rw [if_pos hlt, vget_ok (List.getElem?_eq_getElem hlt)]
      have hg : fmap[src]? = some fmap[src] := List.getElem?_eq_getElem hlt
      cases hv : fmap[src] with
      | zero =>
        refine ⟨src, rfl, heq, hrk, ?_⟩
        rintro f hfm ⟨h1, h2, -⟩
        obtain ⟨k, hk⟩ := List.getElem?_of_mem hfm
        have := hf.cov k f hk src h1 h2
        rw [hg, hv] at this
        cases this
      | succ j =>
        simp only
        rw [hv] at hg
        obtain ⟨f, hfk, h1, h2⟩ := hf.of_get hg
        have hjl : j < gs.length := by rw [hi.len]; exact (List.getElem?_eq_some_iff.mp hfk).1
        have hgj : gs[j]? = some gs[j] := List.getElem?_eq_getElem hjl
        rw [vget_ok hgj]
        simp only
        obtain ⟨e1, e2⟩ := hi.same j f gs[j] hfk hgj
        have hmem := List.mem_of_getElem? hgj
        generalize gs[j] = s at *
        by_cases hc : s.src + (src - s.pos) + len ≤ s.src + s.len
        · rw [if_pos hc]
          have hk' : ∀ k, k < len → text[s.src + (src - s.pos) + k]? = text[src + k]? := by
            intro k hk
            have := hi.eq s hmem (src - s.pos + k) (by omega)
            rw [show s.src + (src - s.pos) + k = s.src + (src - s.pos + k) by omega, this]
            congr 1
            omega
          have hr' : ∀ k, k < len → rank (s.src + (src - s.pos) + k) < rank (src + k) := by
            intro k hk
            have := hi.rk s hmem (src - s.pos + k) (by omega)
            rw [show s.src + (src - s.pos) + k = s.src + (src - s.pos + k) by omega]
            rwa [show s.pos + (src - s.pos + k) = src + k by omega] at this
          have h0 := hr' 0 (by omega)
          simp only [Nat.add_zero] at h0
          refine ih _ (src :: seen) (fun k hk => (hk' k hk).trans (heq k hk)) (fun k hk => Nat.lt_trans (hr' k hk) (hrk k hk)) ?_ ?_ ?_
          · rw [List.nodup_cons]
            refine ⟨fun hin => ?_, hn⟩
            have := (hs src hin).2
            omega
          · intro x hx
            rcases List.mem_cons.mp hx with rfl | hx
            · exact ⟨hlt, h0⟩
            · exact ⟨(hs x hx).1, Nat.lt_trans h0 (hs x hx).2⟩
          · simp only [List.length_cons]; omega
        · rw [if_neg hc]
          refine ⟨src, rfl, heq, hrk, ?_⟩
          rintro f' hfm ⟨a1, a2, a3⟩
          obtain ⟨k, hk⟩ := List.getElem?_of_mem hfm
          have := hf.cov k f' hk src a1 a2
          rw [hg] at this
          have hkj : k = j := by simpa using this.symm
          subst hkj
          rw [hfk] at hk
          cases hk
          omega
    · rw [if_neg hlt]
      refine ⟨src, rfl, heq, hrk, ?_⟩
      rintro f' hfm ⟨a1, a2, a3⟩
      obtain ⟨k, hk⟩ := List.getElem?_of_mem hfm
      have := hf.cov k f' hk src a1 a2
      have := (List.getElem?_eq_some_iff.mp this).1
      omega

theorem flattenLoop_spec {text : List UInt8} {rank : Nat → Nat} {fs : List Factor} {fmap : List Nat} (hf : FmapOk fs fmap)
    (hl : ∀ f ∈ fs, 1 ≤ f.len) (n : Nat) : ∀ (i : Nat) (gs : List Factor), FlatInv text rank fs gs → i + n = fs.length →
    (∀ k g, k < i → gs[k]? = some g → ∀ f ∈ fs, ¬ (f.pos ≤ g.src ∧ g.src < f.pos + f.len ∧ g.src + g.len ≤ f.pos + f.len)) →
    ∃ gs', flattenLoop fmap n i gs = .ok gs' ∧ FlatInv text rank fs gs' ∧
      (∀ g ∈ gs', ∀ f ∈ fs, ¬ (f.pos ≤ g.src ∧ g.src < f.pos + f.len ∧ g.src + g.len ≤ f.pos + f.len)) := by
  induction n with
  | zero =>
    intro i gs hi hin hdone
    refine ⟨gs, rfl, hi, ?_⟩
    intro g hg
    obtain ⟨k, hk⟩ := List.getElem?_of_mem hg
    have := (List.getElem?_eq_some_iff.mp hk).1
    exact hdone k g (by have := hi.len; omega) hk
  | succ n ih =>
    intro i gs hi hin hdone
    have hil : i < gs.length := by rw [hi.len]; omega
    have hgi : gs[i]? = some gs[i] := List.getElem?_eq_getElem hil
    rw [flattenLoop, vget_ok hgi]
    simp only
    have hfi : fs[i]? = some (fs[i]'(by omega)) := List.getElem?_eq_getElem (by omega)
    obtain ⟨e1, e2⟩ := hi.same i _ _ hfi hgi
    have hmem := List.mem_of_getElem? hgi
    have hlen := hl _ (List.mem_of_getElem? hfi)
    rw [← e2] at hlen
    obtain ⟨s, es, s1, s2, s3⟩ := flattenSrc_spec hf hi gs[i].len gs[i].pos hlen (fmap.length + 2) gs[i].src [] (hi.eq _ hmem) (hi.rk _ hmem)
      List.nodup_nil (by simp) (by simp)
    simp only [es]
    have hget : ∀ (k : Nat) (g : Factor), (gs.set i { gs[i] with src := s })[k]? = some g →
        (k = i ∧ g = { gs[i] with src := s }) ∨ (k ≠ i ∧ gs[k]? = some g) := by
      intro k g hk
      by_cases hki : k = i
      · subst hki
        rw [set_get_self _ hil] at hk
        cases hk
        exact Or.inl ⟨rfl, rfl⟩
      · rw [List.getElem?_set_ne (Ne.symm hki)] at hk
        exact Or.inr ⟨hki, hk⟩
    refine ih (i + 1) _ ⟨by simp [hi.len], ?_, ?_, ?_⟩ (by omega) ?_
    · intro k f g hk hg
      rcases hget k g hg with ⟨rfl, rfl⟩ | ⟨-, hg⟩
      · have := hi.same k f gs[k] hk hgi
        exact this
      · exact hi.same k f g hk hg
    · intro g hg
      obtain ⟨k, hk⟩ := List.getElem?_of_mem hg
      rcases hget k g hk with ⟨rfl, rfl⟩ | ⟨-, hg⟩
      · exact s1
      · exact hi.eq g (List.mem_of_getElem? hg)
    · intro g hg
      obtain ⟨k, hk⟩ := List.getElem?_of_mem hg
      rcases hget k g hk with ⟨rfl, rfl⟩ | ⟨-, hg⟩
      · exact s2
      · exact hi.rk g (List.mem_of_getElem? hg)
    · intro k g hk hg
      rcases hget k g hg with ⟨rfl, rfl⟩ | ⟨hne, hg⟩
      · exact s3
      · exact hdone k g (by omega) hg

theorem FactorsOrdered.congr {n : Nat} (fs : List Factor) : ∀ (gs : List Factor) (p : Nat), FactorsOrdered n p fs → gs.length = fs.length →
    (∀ (k : Nat) (f g : Factor), fs[k]? = some f → gs[k]? = some g → g.pos = f.pos ∧ g.len = f.len) → (∀ g ∈ gs, g.src ≤ n) → FactorsOrdered n p gs := by
  induction fs with
  | nil =>
    intro gs p h hl _ _
    obtain rfl := List.length_eq_zero_iff.mp hl
    exact h
  | cons f fs ih =>
    intro gs p h hl hs hsrc
    cases gs with
    | nil => simp at hl
    | cons g gs =>
      obtain ⟨h1, h2, h3, h4⟩ := h
      obtain ⟨a, b⟩ := hs 0 f g rfl rfl
      refine ⟨by omega, hsrc g (by simp), by omega, ?_⟩
      rw [a, b]
      exact ih gs _ h4 (by simpa using hl) (fun k f' g' hk hg => hs (k + 1) f' g' (by simpa using hk) (by simpa using hg))
        (fun x hx => hsrc x (by simp [hx]))

theorem ordered_last {n : Nat} (fs : List Factor) : ∀ (p : Nat) (last : Factor), FactorsOrdered n p fs → fs.getLast? = some last →
    ∀ f ∈ fs, f.pos + f.len ≤ last.pos + last.len := by
  induction fs with
  | nil => intro p last _ h; simp at h
  | cons f fs ih =>
    intro p last ho hl g hg
    obtain ⟨h1, h2, h3, h4⟩ := ho
    cases fs with
    | nil =>
      simp only [List.getLast?_singleton, Option.some.injEq] at hl
      subst hl
      simp only [List.mem_singleton] at hg
      subst hg
      exact Nat.le_refl _
    | cons f' fs =>
      rw [List.getLast?_cons_cons] at hl
      rcases List.mem_cons.mp hg with rfl | hg
      · have hmem : last ∈ f' :: fs := List.mem_of_getLast? hl
        have := FactorsOrdered.pos_ge _ _ h4 last hmem
        omega
      · exact ih _ last h4 hl g hg

theorem flatten_spec {text : List UInt8} {fs : List Factor} (ho : FactorsOrdered text.length 0 fs) (hl : ∀ f ∈ fs, 1 ≤ f.len)
    (hr : Resolvable text fs) :
    ∃ gs, flatten fs = .ok gs ∧ FactorsOrdered text.length 0 gs ∧ Resolvable text gs ∧ Flat gs ∧ gs.length = fs.length ∧
      ∀ (k : Nat) (f g : Factor), fs[k]? = some f → gs[k]? = some g → g.pos = f.pos ∧ g.len = f.len := by
  unfold flatten
  cases hlast : fs.getLast? with
  | none =>
    obtain rfl : fs = [] := List.getLast?_eq_none_iff.mp hlast
    exact ⟨[], rfl, ho, hr, by intro f hf; simp at hf, rfl, by intro k f g h; simp at h⟩
  | some last =>
    simp only
    obtain ⟨fmap, e1, l1, g1, g2⟩ := fmapLoop_spec fs 0 0 (List.replicate (last.pos + last.len) 0) ho (by
      intro f hf
      simp only [List.length_replicate]
      exact ordered_last fs 0 last ho hlast f hf)
    simp only [e1]
    have hf : FmapOk fs fmap := by
      refine ⟨?_, ?_⟩
      · intro x v hx hv
        rw [g1 x hx, List.getElem?_replicate] at hv
        split at hv
        · cases hv; rfl
        · cases hv
      · intro k f hk x h1 h2
        rw [g2 k f hk x h1 h2]
        congr 1
        omega
    obtain ⟨rank, hrank⟩ := hr.acyclic
    have hi : FlatInv text rank fs fs := ⟨rfl, fun k f g h h' => by rw [h] at h'; cases h'; exact ⟨rfl, rfl⟩, hr.eq, hrank⟩
    obtain ⟨gs, e2, gi, gf⟩ := flattenLoop_spec hf hl fs.length 0 fs hi (by omega) (by intro k g hk; omega)
    have hlen : ∀ g ∈ gs, ∃ f ∈ fs, g.pos = f.pos ∧ g.len = f.len := by
      intro g hg
      obtain ⟨k, hk⟩ := List.getElem?_of_mem hg
      have hkl := (List.getElem?_eq_some_iff.mp hk).1
      have hfk : fs[k]? = some (fs[k]'(by rw [← gi.len]; exact hkl)) := List.getElem?_eq_getElem _
      exact ⟨_, List.mem_of_getElem? hfk, gi.same k _ g hfk hk⟩
    refine ⟨gs, e2, ?_, ⟨gi.eq, rank, gi.rk⟩, ?_, gi.len, gi.same⟩
    · refine FactorsOrdered.congr fs gs 0 ho gi.len gi.same ?_
      intro g hg
      obtain ⟨f, hfm, a, b⟩ := hlen g hg
      have h1 := FactorsOrdered.end_le fs 0 ho f hfm
      have h2 := hl f hfm
      have := gi.eq g hg 0 (by omega)
      have h3 : g.pos + 0 < text.length := by omega
      rw [List.getElem?_eq_getElem h3] at this
      have := (List.getElem?_eq_some_iff.mp this).1
      omega
    · rintro g hg s hs ⟨a1, a2, a3⟩
      obtain ⟨f, hfm, a, b⟩ := hlen s hs
      exact gf g hg f hfm ⟨by omega, by omega, by omega⟩

end LC
end Tdc
