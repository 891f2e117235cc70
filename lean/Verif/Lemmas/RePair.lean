import Verif.Model.RePair
import Verif.Spec.RePair
import Verif.Lemmas.Arithmetic
import Verif.Lemmas.LZSSCoding

namespace Tdc
namespace RePair

open Arith (bind_ok)

/-! ## lists of symbols -/

theorem digrams_cons (x y : Nat) (l : List Nat) : digrams (x :: y :: l) = (x, y) :: digrams (y :: l) := rfl

theorem replaceAll_length (d : Nat × Nat) (s : Nat) : ∀ (n : Nat) (l : List Nat), l.length ≤ n → (replaceAll d s l).length ≤ l.length
  | _, [], _ => by simp [replaceAll]
  | _, [x], _ => by simp [replaceAll]
  | 0, x :: y :: l, h => by simp at h
  | n + 1, x :: y :: l, h => by
    simp only [List.length_cons] at h
    unfold replaceAll
    split
    · have := replaceAll_length d s n l (by omega)
      simp only [List.length_cons]
      omega
    · have := replaceAll_length d s n (y :: l) (by simp only [List.length_cons]; omega)
      simp only [List.length_cons] at this ⊢
      omega

theorem replaceAll_shrinks (d : Nat × Nat) (s : Nat) : ∀ (n : Nat) (l : List Nat), l.length ≤ n → d ∈ digrams l → (replaceAll d s l).length < l.length
  | _, [], _, hd => by simp [digrams] at hd
  | _, [x], _, hd => by simp [digrams] at hd
  | 0, x :: y :: l, h, _ => by simp at h
  | n + 1, x :: y :: l, h, hd => by
    simp only [List.length_cons] at h
    unfold replaceAll
    split
    · have := replaceAll_length d s l.length l (Nat.le_refl _)
      simp only [List.length_cons]
      omega
    · rename_i hne
      rw [digrams_cons, List.mem_cons] at hd
      have := replaceAll_shrinks d s n (y :: l) (by simp only [List.length_cons]; omega) (hd.resolve_left fun e => hne e.symm)
      simp only [List.length_cons] at this ⊢
      omega

theorem mem_replaceAll (d : Nat × Nat) (s : Nat) : ∀ (n : Nat) (l : List Nat), l.length ≤ n → ∀ x ∈ replaceAll d s l, x = s ∨ x ∈ l
  | _, [], _, x, hx => by simp [replaceAll] at hx
  | _, [z], _, x, hx => by simpa [replaceAll] using Or.inr hx
  | 0, z :: y :: l, h, _, _ => by simp at h
  | n + 1, z :: y :: l, h, x, hx => by
    simp only [List.length_cons] at h
    unfold replaceAll at hx
    split at hx
    · rcases List.mem_cons.1 hx with e | hx
      · exact Or.inl e
      · rcases mem_replaceAll d s n l (by omega) x hx with e | e
        · exact Or.inl e
        · exact Or.inr (by simp [e])
    · rcases List.mem_cons.1 hx with e | hx
      · exact Or.inr (by simp [e])
      · rcases mem_replaceAll d s n (y :: l) (by simp only [List.length_cons]; omega) x hx with e | e
        · exact Or.inl e
        · exact Or.inr (List.mem_cons_of_mem _ e)

theorem digrams_mem {l : List Nat} {d : Nat × Nat} (h : d ∈ digrams l) : d.1 ∈ l ∧ d.2 ∈ l := by
  unfold digrams at h
  have h' : (d.1, d.2) ∈ l.zip l.tail := h
  have := List.of_mem_zip h'
  exact ⟨this.1, List.mem_of_mem_tail this.2⟩

/-! ## derivations -/

theorem Derives.mono {g : List (Nat × Nat)} (e : List (Nat × Nat)) {x : Nat} {w : List UInt8} (h : Derives g x w) : Derives (g ++ e) x w := by
  induction h with
  | byte c => exact .byte c
  | rule hg _ _ i1 i2 => exact .rule (by rw [List.getElem?_append_left (List.getElem?_eq_some_iff.1 hg).1]; exact hg) i1 i2

theorem DerivesAll.mono {g : List (Nat × Nat)} (e : List (Nat × Nat)) {l : List Nat} {w : List UInt8} (h : DerivesAll g l w) :
    DerivesAll (g ++ e) l w := by
  induction h with
  | nil => exact .nil
  | cons h1 _ ih => exact .cons (h1.mono e) ih

theorem DerivesAll.replace {g : List (Nat × Nat)} (d : Nat × Nat) : ∀ (n : Nat) (l : List Nat) (w : List UInt8), l.length ≤ n → DerivesAll g l w →
    DerivesAll (g ++ [d]) (replaceAll d (256 + g.length) l) w
  | _, [], w, _, h => by
    cases h
    exact .nil
  | _, [x], w, _, h => by
    unfold replaceAll
    exact h.mono _
  | 0, x :: y :: l, _, h, _ => by simp at h
  | n + 1, x :: y :: l, w, hn, h => by
    simp only [List.length_cons] at hn
    unfold replaceAll
    split
    · rename_i hd
      cases h with
      | cons h1 h2 =>
        cases h2 with
        | cons h2 h3 =>
          rw [← List.append_assoc]
          refine .cons (.rule (i := g.length) (l := x) (r := y) ?_ (h1.mono _) (h2.mono _)) (DerivesAll.replace d n l _ (by omega) h3)
          simp [hd]
    · cases h with
      | cons h1 h2 => exact .cons (h1.mono _) (DerivesAll.replace d n (y :: l) _ (by simp only [List.length_cons]; omega) h2)

theorem DerivesAll.bytes (g : List (Nat × Nat)) : ∀ (text : List UInt8), DerivesAll g (text.map UInt8.toNat) text
  | [] => .nil
  | c :: text => .cons (u := [c]) (.byte c) (DerivesAll.bytes g text)

/-- Every rule uses earlier symbols only. -/
def Ordered (g : List (Nat × Nat)) : Prop := ∀ (i : Nat) (p : Nat × Nat), g[i]? = some p → p.1 < 256 + i ∧ p.2 < 256 + i

theorem Runs.spec {k : Nat} {g g' : List (Nat × Nat)} {l l' : List Nat} (h : Runs k g l g' l') : ∀ (w : List UInt8), DerivesAll g l w → Ordered g →
    (∀ x ∈ l, x < 256 + g.length) → DerivesAll g' l' w ∧ Ordered g' ∧ (∀ x ∈ l', x < 256 + g'.length) ∧ g'.length + l'.length ≤ g.length + l.length := by
  have key : ∀ (g : List (Nat × Nat)) (l : List Nat) (d : Nat × Nat) (w : List UInt8), Best l d → DerivesAll g l w → Ordered g →
      (∀ x ∈ l, x < 256 + g.length) → DerivesAll (g ++ [d]) (replaceAll d (256 + g.length) l) w ∧ Ordered (g ++ [d]) ∧
        (∀ x ∈ replaceAll d (256 + g.length) l, x < 256 + (g ++ [d]).length) ∧
        (g ++ [d]).length + (replaceAll d (256 + g.length) l).length ≤ g.length + l.length := by
    intro g l d w hb hw ho hx
    have hd : d ∈ digrams l := List.count_pos_iff.1 (by have := hb.1; omega)
    have hm := digrams_mem hd
    refine ⟨hw.replace d l.length l w (Nat.le_refl _), ?_, ?_, ?_⟩
    · intro i p hp
      by_cases hi : i < g.length
      · rw [List.getElem?_append_left hi] at hp
        exact ho i p hp
      · have hlt := (List.getElem?_eq_some_iff.1 hp).1
        rw [List.length_append, List.length_singleton] at hlt
        have e : i = g.length := by omega
        subst e
        simp only [List.getElem?_concat_length, Option.some.injEq] at hp
        subst hp
        exact ⟨hx _ hm.1, hx _ hm.2⟩
    · intro x hxm
      rw [List.length_append, List.length_singleton]
      rcases mem_replaceAll d _ l.length l (Nat.le_refl _) x hxm with e | e
      · omega
      · have := hx x e
        omega
    · have := replaceAll_shrinks d (256 + g.length) l.length l (Nat.le_refl _) hd
      rw [List.length_append, List.length_singleton]
      omega
  induction h with
  | done _ => exact fun w hw ho hx => ⟨hw, ho, hx, Nat.le_refl _⟩
  | full hb _ => exact fun w hw ho hx => key _ _ _ w hb hw ho hx
  | step hb _ _ ih =>
    intro w hw ho hx
    obtain ⟨k1, k2, k3, k4⟩ := key _ _ _ w hb hw ho hx
    obtain ⟨i1, i2, i3, i4⟩ := ih w k1 k2 k3
    exact ⟨i1, i2, i3, by omega⟩

/-! ## the arrays -/

/-- The links from `i` on: the positions visited. -/
def Chain (N : List Nat) (n : Nat) : List Nat → Nat → Prop
  | [], i => i = n
  | p :: ps, i => p = i ∧ i < n ∧ ∃ j, N[i]? = some j ∧ i < j ∧ Chain N n ps j

/-- the symbols at the positions -/
def syms (T ps : List Nat) : List Nat := ps.map fun p => T.getD p 0

theorem Chain.le {N : List Nat} {n : Nat} : ∀ {ps : List Nat} {i : Nat}, Chain N n ps i → i ≤ n ∧ ∀ p ∈ ps, i ≤ p
  | [], i, h => ⟨Nat.le_of_eq h, by simp⟩
  | p :: ps, i, ⟨h1, h2, j, _, h4, h5⟩ => by
    refine ⟨Nat.le_of_lt h2, fun q hq => ?_⟩
    rcases List.mem_cons.1 hq with rfl | hq
    · exact Nat.le_of_eq h1.symm
    · have := h5.le.2 q hq
      omega

theorem Chain.frame {N N' : List Nat} {n : Nat} : ∀ {ps : List Nat} {i : Nat}, Chain N n ps i → (∀ q, i ≤ q → N'[q]? = N[q]?) → Chain N' n ps i
  | [], i, h, _ => h
  | p :: ps, i, ⟨h1, h2, j, h3, h4, h5⟩, hf => ⟨h1, h2, j, by rw [hf i (Nat.le_refl _)]; exact h3, h4, h5.frame fun q hq => hf q (by omega)⟩

theorem syms_congr {T T' ps : List Nat} (h : ∀ p ∈ ps, T'[p]? = T[p]?) : syms T' ps = syms T ps := by
  apply List.map_congr_left
  intro p hp
  simp only [List.getD_eq_getElem?_getD, h p hp]

theorem vget_ok {l : List Nat} {i x : Nat} (h : l[i]? = some x) : vget l i = .ok x := by
  unfold vget
  rw [h]

theorem vget_getD {l : List Nat} {i : Nat} (h : i < l.length) : vget l i = .ok (l.getD i 0) := by
  apply vget_ok
  rw [List.getD_eq_getElem?_getD, List.getElem?_eq_getElem h]
  rfl

theorem pred32_eq {n : Nat} (h : 0 < n) (h' : n < 2 ^ 32) : pred32 n = n - 1 := by
  unfold pred32
  omega

/-- the digrams as numbers -/
def codes (l : List Nat) : List Nat := (digrams l).map fun p => digram p.1 p.2

/-- the counting of lines 127-146 on the list of digrams -/
def best : List Nat → (Nat → Nat) → Nat → Nat → Nat × Nat
  | [], _, mx, mc => (mx, mc)
  | d :: ds, cnt, mx, mc =>
    if cnt d + 1 > mc then best ds (fun e => if e = d then cnt d + 1 else cnt e) d (cnt d + 1)
    else best ds (fun e => if e = d then cnt d + 1 else cnt e) mx mc

theorem countLoop_eq {n : Nat} {T N : List Nat} (hT : T.length = n) (hn : 0 < n) (hn' : n < 2 ^ 32) :
    ∀ (ps : List Nat) (i fuel : Nat) (cnt : Nat → Nat) (mx mc : Nat), Chain N n ps i → ps ≠ [] → n - i < fuel →
    countLoop n T N fuel i cnt mx mc = .ok (best (codes (syms T ps)) cnt mx mc)
  | [], _, _, _, _, _, _, h, _ => absurd rfl h
  | _ :: _, _, 0, _, _, _, _, _, hf => by omega
  | [p], i, fuel + 1, cnt, mx, mc, ⟨h1, h2, j, h3, h4, h5⟩, _, hf => by
    have hj : j = n := h5
    unfold countLoop
    by_cases hi : i < pred32 n
    · rw [if_pos hi, vget_ok h3, bind_ok, if_pos (by omega)]
      rfl
    · rw [if_neg hi]
      rfl
  | p :: q :: ps, i, fuel + 1, cnt, mx, mc, ⟨h1, h2, j, h3, h4, h5⟩, _, hf => by
    have h5' := h5
    obtain ⟨g1, g2, _⟩ := h5'
    subst h1 g1
    have ih := fun c m k => countLoop_eq hT hn hn' (q :: ps) q fuel c m k h5 (by simp) (by omega)
    unfold countLoop
    rw [if_pos (by rw [pred32_eq hn hn']; omega), vget_ok h3, bind_ok, if_neg (by omega), vget_getD (by omega), bind_ok, vget_getD (by omega), bind_ok]
    simp only [ih]
    have e : codes (syms T (p :: q :: ps)) = digram (T.getD p 0) (T.getD q 0) :: codes (syms T (q :: ps)) := rfl
    rw [e, best]
    split <;> rfl

/-- What `best` finds. -/
theorem best_spec : ∀ (ds ds0 : List Nat) (cnt : Nat → Nat) (mx mc : Nat), (∀ d, cnt d = ds0.count d) → (∀ d, ds0.count d ≤ mc) →
    (0 < mc → ds0.count mx = mc) → ∃ mx' mc', best ds cnt mx mc = (mx', mc') ∧ (∀ d, (ds0 ++ ds).count d ≤ mc') ∧ (0 < mc' → (ds0 ++ ds).count mx' = mc')
  | [], ds0, cnt, mx, mc, _, h2, h3 => ⟨mx, mc, rfl, by simpa using h2, by simpa using h3⟩
  | d :: ds, ds0, cnt, mx, mc, h1, h2, h3 => by
    have happ : ds0 ++ d :: ds = (ds0 ++ [d]) ++ ds := by simp
    have hc : ∀ e, (if e = d then cnt d + 1 else cnt e) = (ds0 ++ [d]).count e := by
      intro e
      rw [List.count_append, List.count_singleton, h1, h1]
      by_cases he : e = d
      · subst he
        simp
      · rw [if_neg he]
        have : (d == e) = false := by simpa using fun x => he x.symm
        simp [this]
    unfold best
    rw [happ]
    by_cases hm : cnt d + 1 > mc
    · rw [if_pos hm]
      refine best_spec ds (ds0 ++ [d]) _ d (cnt d + 1) hc ?_ ?_
      · intro e
        rw [← hc]
        split
        · exact Nat.le_refl _
        · have := h2 e
          rw [← h1] at this
          omega
      · intro _
        rw [← hc, if_pos rfl]
    · rw [if_neg hm]
      refine best_spec ds (ds0 ++ [d]) _ mx mc hc ?_ ?_
      · intro e
        rw [← hc]
        split
        · omega
        · rw [h1]
          exact h2 e
      · intro hp
        rw [← hc]
        have := h3 hp
        by_cases he : mx = d
        · subst he
          rw [h1] at hm
          omega
        · rw [if_neg he, h1]
          exact this

theorem vput_ok {l : List Nat} {i x : Nat} (h : i < l.length) : vput l i x = .ok (l.set i x) := by
  unfold vput
  rw [if_pos h]

theorem digram_inj {a b c d : Nat} (hb : b < 2 ^ 32) (hd : d < 2 ^ 32) : digram a b = digram c d ↔ (a, b) = (c, d) := by
  unfold digram
  constructor
  · intro h
    have h1 : b = d := by omega
    have h2 : a = c := by omega
    rw [h1, h2]
  · intro h
    injection h with h1 h2
    rw [h1, h2]

theorem replaceLoop_eq {n s : Nat} {d : Nat × Nat} (hd : d.2 < 2 ^ 32) (hn : 0 < n) (hn' : n < 2 ^ 32) : ∀ (m : Nat) (ps : List Nat) (i fuel : Nat) (T N : List Nat), ps.length ≤ m →
    T.length = n → N.length = n → Chain N n ps i → n - i < fuel → (∀ x ∈ syms T ps, x < 2 ^ 32) →
    ∃ T' N' ps', replaceLoop n (digram d.1 d.2) s fuel i T N = .ok (T', N') ∧ T'.length = n ∧ N'.length = n ∧ Chain N' n ps' i ∧
      syms T' ps' = replaceAll d s (syms T ps) ∧ ∀ q < i, T'[q]? = T[q]? ∧ N'[q]? = N[q]?
  | _, _, _, 0, _, _, _, _, _, _, hf, _ => by omega
  | _, [], i, fuel + 1, T, N, _, hT, hN, hc, _, _ => by
    have hi : i = n := hc
    refine ⟨T, N, [], ?_, hT, hN, hc, rfl, fun q _ => ⟨rfl, rfl⟩⟩
    unfold replaceLoop
    rw [if_neg (by rw [pred32_eq hn hn']; omega)]
  | _, [p], i, fuel + 1, T, N, _, hT, hN, hc, _, _ => by
    refine ⟨T, N, [p], ?_, hT, hN, hc, rfl, fun q _ => ⟨rfl, rfl⟩⟩
    obtain ⟨h1, h2, j, h3, h4, h5⟩ := hc
    have hj : j = n := h5
    unfold replaceLoop
    by_cases hi : i < pred32 n
    · rw [if_pos hi, vget_ok h3, bind_ok, if_pos (by omega)]
    · rw [if_neg hi]
  | 0, p :: q :: ps, _, _, _, _, hl, _, _, _, _, _ => by simp at hl
  | m + 1, p :: q :: ps, i, fuel + 1, T, N, hl, hT, hN, hc, hf, hx => by
    simp only [List.length_cons] at hl
    obtain ⟨h1, h2, j, h3, h4, h5⟩ := hc
    have h5' := h5
    obtain ⟨g1, g2, k, g3, g4, g5⟩ := h5'
    subst h1 g1
    have hpn : p < N.length := by omega
    unfold replaceLoop
    rw [if_pos (by rw [pred32_eq hn hn']; omega), vget_ok h3, bind_ok, if_neg (by omega), vget_getD (by omega), bind_ok, vget_getD (by omega), bind_ok]
    have hsy : syms T (p :: q :: ps) = T.getD p 0 :: T.getD q 0 :: syms T ps := rfl
    have hb : T.getD q 0 < 2 ^ 32 := hx _ (by rw [hsy]; simp)
    have hdi := digram_inj (a := T.getD p 0) (c := d.1) hb hd
    rw [hsy, replaceAll]
    by_cases he : digram (T.getD p 0) (T.getD q 0) = digram d.1 d.2
    · rw [if_pos he, if_pos (hdi.1 he), vput_ok (by omega), bind_ok, vget_ok g3, bind_ok, vput_ok hpn, bind_ok]
      have hc2 : Chain (N.set p k) n ps k := g5.frame fun r hr => List.getElem?_set_ne (by omega)
      have hs2 : syms (T.set p s) ps = syms T ps := syms_congr fun r hr => List.getElem?_set_ne (by have := g5.le.2 r hr; omega)
      obtain ⟨T', N', ps', e1, e2, e3, e4, e5, e6⟩ := replaceLoop_eq hd hn hn' m ps k fuel (T.set p s) (N.set p k) (by omega)
        (by rw [List.length_set]; exact hT) (by rw [List.length_set]; exact hN) hc2 (by omega) (by
          intro x hxm
          rw [hs2] at hxm
          exact hx x (by rw [hsy]; simp [hxm]))
      refine ⟨T', N', p :: ps', e1, e2, e3, ⟨rfl, h2, k, ?_, by omega, e4⟩, ?_, ?_⟩
      · rw [(e6 p (by omega)).2, List.getElem?_set_self hpn]
      · have : T'.getD p 0 = s := by
          rw [List.getD_eq_getElem?_getD, (e6 p (by omega)).1, List.getElem?_set_self (by omega)]
          rfl
        show T'.getD p 0 :: syms T' ps' = _
        rw [this, e5, hs2]
      · intro r hr
        obtain ⟨a1, a2⟩ := e6 r (by omega)
        exact ⟨by rw [a1, List.getElem?_set_ne (by omega)], by rw [a2, List.getElem?_set_ne (by omega)]⟩
    · rw [if_neg he, if_neg fun e => he (hdi.2 e)]
      obtain ⟨T', N', ps', e1, e2, e3, e4, e5, e6⟩ := replaceLoop_eq hd hn hn' m (q :: ps) q fuel T N (by simp only [List.length_cons]; omega) hT hN h5 (by omega)
        (fun x hxm => hx x (List.mem_cons_of_mem _ hxm))
      refine ⟨T', N', p :: ps', e1, e2, e3, ⟨rfl, h2, q, ?_, h4, e4⟩, ?_, fun r hr => e6 r (by omega)⟩
      · rw [(e6 p h4).2]
        exact h3
      · have : T'.getD p 0 = T.getD p 0 := by rw [List.getD_eq_getElem?_getD, List.getD_eq_getElem?_getD, (e6 p h4).1]
        show T'.getD p 0 :: syms T' ps' = _
        rw [this, e5]
        rfl

theorem left_digram {a b : Nat} (hb : b < 2 ^ 32) : left (digram a b) = a := by
  unfold left digram
  omega

theorem right_digram {a b : Nat} (hb : b < 2 ^ 32) : right (digram a b) = b := by
  unfold right digram
  omega

/-- the rules as pairs -/
def pairs (g : List Nat) : List (Nat × Nat) := g.map fun d => (left d, right d)

theorem codes_count {l : List Nat} (hl : ∀ x ∈ l, x < 2 ^ 32) (a b : Nat) (hb : b < 2 ^ 32) : (codes l).count (digram a b) = (digrams l).count (a, b) := by
  unfold codes
  have hm : ∀ p ∈ digrams l, p.2 < 2 ^ 32 := fun p hp => hl _ (digrams_mem hp).2
  revert hm
  generalize digrams l = ds
  intro hm
  induction ds with
  | nil => rfl
  | cons p ds ih =>
    rw [List.map_cons, List.count_cons, List.count_cons, ih fun q hq => hm q (List.mem_cons_of_mem _ hq)]
    have h1 := digram_inj (a := p.1) (c := a) (hm p (List.mem_cons_self ..)) hb
    congr 1
    by_cases e : digram p.1 p.2 = digram a b
    · have e2 : p = (a, b) := h1.1 e
      rw [if_pos (by simpa using e), if_pos (by simpa using e2)]
    · have e2 : ¬ p = (a, b) := fun x => e (h1.2 x)
      rw [if_neg (by simpa using e), if_neg (by simpa using e2)]

/-- One search: either nothing repeats or a best digram is found. -/
theorem search_spec {l : List Nat} (hl : ∀ x ∈ l, x < 2 ^ 32) : ∃ mx mc, best (codes l) (fun _ => 0) 0 0 = (mx, mc) ∧
    (mc ≤ 1 → ∀ d, (digrams l).count d ≤ 1) ∧ (1 < mc → ∃ d, mx = digram d.1 d.2 ∧ d.1 < 2 ^ 32 ∧ d.2 < 2 ^ 32 ∧ Best l d) := by
  obtain ⟨mx, mc, e, h1, h2⟩ := best_spec (codes l) [] (fun _ => 0) 0 0 (by simp) (by simp) (by simp)
  simp only [List.nil_append] at h1 h2
  have hcount : ∀ d : Nat × Nat, (digrams l).count d ≤ mc := by
    intro d
    by_cases hd : d ∈ digrams l
    · have := h1 (digram d.1 d.2)
      rw [codes_count hl d.1 d.2 (hl _ (digrams_mem hd).2)] at this
      exact this
    · rw [List.count_eq_zero.2 hd]
      omega
  refine ⟨mx, mc, e, fun h d => Nat.le_trans (hcount d) h, fun h => ?_⟩
  have hm := h2 (by omega)
  have hmem : mx ∈ codes l := List.count_pos_iff.1 (by omega)
  obtain ⟨d, hd, rfl⟩ := List.mem_map.1 hmem
  have hd2 := hl _ (digrams_mem hd).2
  refine ⟨d, rfl, hl _ (digrams_mem hd).1, hd2, ?_⟩
  rw [codes_count hl d.1 d.2 hd2] at hm
  have hm' : (digrams l).count d = mc := hm
  exact ⟨by omega, fun f => by rw [hm']; exact hcount f⟩

theorem pairs_append (g : List Nat) (a b : Nat) (hb : b < 2 ^ 32) : pairs (g ++ [digram a b]) = pairs g ++ [(a, b)] := by
  unfold pairs
  rw [List.map_append, List.map_singleton, left_digram hb, right_digram hb]

theorem pairs_length (g : List Nat) : (pairs g).length = g.length := List.length_map ..

/-- The `do`-loop is Re-Pair. -/
theorem rounds_eq {n k : Nat} (hn : 0 < n) (hn' : n < 2 ^ 32) : ∀ (fuel : Nat) (T N ps g : List Nat), T.length = n → N.length = n → Chain N n ps 0 →
    ps.length < fuel → 256 + g.length + ps.length < 2 ^ 32 → (∀ x ∈ syms T ps, x < 256 + g.length) →
    ∃ T' N' ps' g', rounds n k fuel T N g = .ok (T', N', g') ∧ T'.length = n ∧ N'.length = n ∧ Chain N' n ps' 0 ∧
      Runs k (pairs g) (syms T ps) (pairs g') (syms T' ps') ∧ (∀ x ∈ g', x ∈ g ∨ ∃ a b, a < 2 ^ 32 ∧ b < 2 ^ 32 ∧ x = digram a b)
  | 0, _, _, _, _, _, _, _, hf, _, _ => by omega
  | fuel + 1, T, N, ps, g, hT, hN, hc, hf, hb, hx => by
    have hne : ps ≠ [] := by
      rintro rfl
      have : 0 = n := hc
      omega
    have hx32 : ∀ x ∈ syms T ps, x < 2 ^ 32 := fun x hxm => by
      have := hx x hxm
      omega
    obtain ⟨mx, mc, e, s1, s2⟩ := search_spec hx32
    have hcl := countLoop_eq (N := N) hT hn hn' ps 0 (n + 1) (fun _ => 0) 0 0 hc hne (by omega)
    rw [e] at hcl
    unfold rounds
    rw [hcl, bind_ok]
    by_cases hm : mc > 1
    · obtain ⟨d, rfl, hd1, hd2, hbest⟩ := s2 hm
      rw [if_pos (show (digram d.1 d.2, mc).2 > 1 from hm)]
      obtain ⟨T', N', ps', e1, e2, e3, e4, e5, e6⟩ := replaceLoop_eq (s := sigma + g.length) hd2 hn hn' ps.length ps 0 (n + 1) T N (Nat.le_refl _) hT hN hc (by omega) hx32
      rw [e1, bind_ok]
      have hsig : sigma = 256 := rfl
      rw [hsig] at e5
      have hbest' : Best (syms T ps) (d.1, d.2) := hbest
      have hpl := pairs_length g
      have hshr := replaceAll_shrinks d (256 + g.length) _ (syms T ps) (Nat.le_refl _) (List.count_pos_iff.1 (by have := hbest.1; omega))
      rw [← e5] at hshr
      have hl1 : (syms T' ps').length = ps'.length := List.length_map ..
      have hl2 : (syms T ps).length = ps.length := List.length_map ..
      have hga : (g ++ [digram d.1 d.2]).length = g.length + 1 := by simp
      by_cases hk : (g ++ [(digram d.1 d.2, mc).1]).length < k
      · rw [if_pos hk]
        obtain ⟨T2, N2, ps2, g2, r1, r2, r3, r4, r5, r6⟩ := rounds_eq (k := k) hn hn' fuel T' N' ps' (g ++ [digram d.1 d.2]) e2 e3 e4 (by omega) (by omega) (by
          intro x hxm
          rw [e5] at hxm
          rcases mem_replaceAll d _ _ _ (Nat.le_refl _) x hxm with h | h
          · omega
          · have := hx x h
            omega)
        refine ⟨T2, N2, ps2, g2, r1, r2, r3, r4, ?_, ?_⟩
        · rw [pairs_append g d.1 d.2 hd2, e5] at r5
          refine Runs.step (d := (d.1, d.2)) hbest' (by rw [hpl]; rw [hga] at hk; exact hk) ?_
          rw [hpl]
          exact r5
        · intro x hxm
          rcases r6 x hxm with h | h
          · rcases List.mem_append.1 h with h | h
            · exact Or.inl h
            · exact Or.inr ⟨d.1, d.2, hd1, hd2, List.mem_singleton.1 h⟩
          · exact Or.inr h
      · rw [if_neg hk]
        refine ⟨T', N', ps', g ++ [digram d.1 d.2], rfl, e2, e3, e4, ?_, ?_⟩
        · rw [pairs_append g d.1 d.2 hd2, e5]
          have := Runs.full (k := k) (g := pairs g) (d := (d.1, d.2)) hbest' (by rw [hpl]; rw [hga] at hk; omega)
          rw [hpl] at this
          exact this
        · intro x h
          rcases List.mem_append.1 h with h | h
          · exact Or.inl h
          · exact Or.inr ⟨d.1, d.2, hd1, hd2, List.mem_singleton.1 h⟩
    · rw [if_neg (show ¬ (mx, mc).2 > 1 from hm)]
      exact ⟨T, N, ps, g, rfl, hT, hN, hc, .done (s1 (by omega)), fun x h => Or.inl h⟩

theorem walk_eq {n : Nat} {T N : List Nat} (hT : T.length = n) : ∀ (ps : List Nat) (i fuel : Nat), Chain N n ps i → n - i < fuel →
    walk n T N fuel i = .ok (syms T ps)
  | _, _, 0, _, hf => by omega
  | [], i, fuel + 1, h, _ => by
    have hi : i = n := h
    unfold walk
    rw [if_neg (by omega)]
    rfl
  | p :: ps, i, fuel + 1, ⟨h1, h2, j, h3, h4, h5⟩, hf => by
    subst h1
    unfold walk
    rw [if_pos h2, vget_getD (by omega), bind_ok, vget_ok h3, bind_ok, walk_eq hT ps j fuel h5 (by omega), bind_ok]
    rfl

theorem chain_init (n : Nat) : ∀ (m i : Nat), i + m = n → Chain (List.range' 1 n) n (List.range' i m) i
  | 0, i, h => h
  | m + 1, i, h => by
    rw [List.range'_succ]
    refine ⟨rfl, by omega, i + 1, ?_, by omega, chain_init n m (i + 1) (by omega)⟩
    rw [List.getElem?_range' (by omega)]
    congr 1
    omega

theorem syms_init (T : List Nat) : syms T (List.range' 0 T.length) = T := by
  apply List.ext_getElem?
  intro i
  unfold syms
  rw [List.getElem?_map]
  by_cases h : i < T.length
  · rw [List.getElem?_range' h, List.getElem?_eq_getElem h]
    simp [h]
  · rw [List.getElem?_eq_none (by simpa using h), List.getElem?_eq_none (by omega)]
    rfl

/-- The whole factorization. -/
theorem grammar_eq (opt : Nat) (text : List UInt8) (hne : text ≠ []) (hn : text.length + 256 < 2 ^ 32) :
    ∃ T N g l, grammar opt text = .ok (T, N, g) ∧ walk text.length T N (text.length + 1) 0 = .ok l ∧
      Runs (maxRules opt) [] (text.map UInt8.toNat) (pairs g) l ∧ (∀ x ∈ g, ∃ a b, a < 2 ^ 32 ∧ b < 2 ^ 32 ∧ x = digram a b) := by
  have hpos : 0 < text.length := List.length_pos_iff.2 hne
  have hTl : (text.map UInt8.toNat).length = text.length := List.length_map ..
  have hsy := syms_init (text.map UInt8.toNat)
  rw [hTl] at hsy
  obtain ⟨T, N, ps, g, r1, r2, r3, r4, r5, r6⟩ := rounds_eq (n := text.length) (k := maxRules opt) hpos (by omega) (text.length + 1) (text.map UInt8.toNat)
    (List.range' 1 text.length) (List.range' 0 text.length) [] hTl (by simp) (chain_init _ _ _ (by omega)) (by simp) (by simp; omega) (by
      rw [hsy]
      intro x hx
      obtain ⟨c, _, rfl⟩ := List.mem_map.1 hx
      have := c.toNat_lt
      simpa using this)
  rw [hsy] at r5
  refine ⟨T, N, g, syms T ps, r1, walk_eq r2 ps 0 _ r4 (by omega), r5, fun x hx => ?_⟩
  rcases r6 x hx with h | h
  · cases h
  · exact h

/-! ## coding -/

theorem expand_rule {g : List Nat} {fuel x i di : Nat} {u v : List UInt8} (hx : x = 256 + i) (hdi : g[i]? = some di)
    (h1 : expand g fuel (left di) = .ok u) (h2 : expand g fuel (right di) = .ok v) : expand g (fuel + 1) x = .ok (u ++ v) := by
  have hs : ¬ x < sigma := by
    unfold sigma
    omega
  have hi : x - sigma = i := by
    unfold sigma
    omega
  rw [expand, if_neg hs, hi, vget_ok hdi, bind_ok, h1, bind_ok, h2, bind_ok]

theorem expand_eq {g : List Nat} (ho : Ordered (pairs g)) : ∀ (fuel x : Nat) (w : List UInt8), Derives (pairs g) x w → x < 256 + fuel →
    expand g (fuel + 1) x = .ok w := by
  intro fuel
  induction fuel with
  | zero =>
    intro x w h hx
    cases h with
    | byte c =>
      unfold expand
      rw [if_pos (show c.toNat < sigma from c.toNat_lt)]
      simp
    | rule => omega
  | succ fuel ih =>
    intro x w h hx
    cases h with
    | byte c =>
      unfold expand
      rw [if_pos (show c.toNat < sigma from c.toNat_lt)]
      simp
    | @rule i l r u v hg h1 h2 =>
      obtain ⟨o1, o2⟩ := ho i (l, r) hg
      unfold pairs at hg
      rw [List.getElem?_map] at hg
      obtain ⟨di, hdi, he⟩ := Option.map_eq_some_iff.1 hg
      injection he with hl hr
      exact expand_rule rfl hdi (by rw [hl]; exact ih l u h1 (by omega)) (by rw [hr]; exact ih r v h2 (by omega))

section
variable {c : UCoder}

theorem decSym_eq {k x : Nat} (hx : x < 2 ^ 32) (hok : ∀ t ∈ symToks k x, c.TokOk t) (rest : List Bool) :
    decSym c k (c.encAll (symToks k x) ++ rest) = .ok (x, rest) := by
  unfold symToks at *
  unfold sigma at *
  unfold decSym
  by_cases h : x < 256
  · rw [if_pos h] at *
    have t1 := (hok (.bit, 0) (by simp)).1
    have t2 := (hok (.literal, x) (by simp)).1
    rw [encAll_cons, encAll_cons, encAll_nil, List.append_nil, List.append_assoc, t1 _, bind_ok, if_neg (by simp), t2 _, bind_ok]
    simp only [Nat.mod_eq_of_lt h]
  · rw [if_neg h] at *
    have t1 := (hok (.bit, 1) (by simp)).1
    have t2 := (hok (.range 0 k, x - 256) (by simp)).1
    rw [encAll_cons, encAll_cons, encAll_nil, List.append_nil, List.append_assoc, t1 _, bind_ok, if_pos (by simp), t2 _, bind_ok]
    have e1 : (x - 256) % 2 ^ 32 = x - 256 := Nat.mod_eq_of_lt (by omega)
    have e2 : (256 + (x - 256)) % 2 ^ 32 = x := by omega
    unfold sigma
    simp only [e1, e2]

theorem decRules_eq : ∀ (g : List Nat) (i : Nat) (rest : List Bool), (∀ x ∈ g, ∃ a b, a < 2 ^ 32 ∧ b < 2 ^ 32 ∧ x = digram a b) →
    (∀ t ∈ ruleToks i g, c.TokOk t) → decRules c g.length i (c.encAll (ruleToks i g) ++ rest) = .ok (g, rest)
  | [], _, _, _, _ => rfl
  | di :: g, i, rest, hg, hok => by
    obtain ⟨a, b, ha, hb, rfl⟩ := hg di (List.mem_cons_self ..)
    unfold ruleToks at *
    rw [left_digram hb, right_digram hb] at *
    rw [encAll_append, encAll_append, List.append_assoc, List.append_assoc, List.length_cons, decRules,
      decSym_eq ha (fun t ht => hok t (by simp [ht])), bind_ok, decSym_eq hb (fun t ht => hok t (by simp [ht])), bind_ok,
      decRules_eq g (i + 1) rest (fun x hx => hg x (List.mem_cons_of_mem _ hx)) (fun t ht => hok t (by simp [ht])), bind_ok]

theorem decText_eq {g : List Nat} (ho : Ordered (pairs g)) (h32 : 256 + g.length ≤ 2 ^ 32) : ∀ (l : List Nat) (w : List UInt8) (fuel : Nat),
    DerivesAll (pairs g) l w → (∀ x ∈ l, x < 256 + g.length) → (∀ t ∈ l.flatMap (symToks g.length), c.TokOk t) →
    l.length < fuel → decText c g fuel (c.encAll (l.flatMap (symToks g.length))) = .ok w
  | _, _, 0, _, _, _, hf => by omega
  | [], w, fuel + 1, h, _, _, _ => by
    cases h
    unfold decText
    simp
  | x :: l, w, fuel + 1, h, hx, hok, hf => by
    cases h with
    | @cons _ _ u w h1 h2 =>
      simp only [List.flatMap_cons, List.length_cons] at *
      have hxl := hx x (List.mem_cons_self ..)
      have hokx : ∀ t ∈ symToks g.length x, c.TokOk t := fun t ht => hok t (List.mem_append_left _ ht)
      have hne : (c.encAll (symToks g.length x) ++ c.encAll (l.flatMap (symToks g.length))).isEmpty = false := by
        have : ∃ t ts, symToks g.length x = t :: ts := by
          unfold symToks
          split <;> exact ⟨_, _, rfl⟩
        obtain ⟨t, ts, e⟩ := this
        rw [e, encAll_cons, List.append_assoc]
        exact (hokx t (by rw [e]; simp)).isEmpty _
      rw [encAll_append, decText, hne]
      rw [if_neg (by decide), decSym_eq (by omega) hokx, bind_ok, expand_eq ho g.length x u h1 hxl, bind_ok,
        decText_eq ho h32 l w fuel h2 (fun y hy => hx y (List.mem_cons_of_mem _ hy)) (fun t ht => hok t (List.mem_append_right _ ht)) (by omega), bind_ok]

theorem encAll_len : ∀ (ts : List Token), (∀ t ∈ ts, c.TokOk t) → ts.length ≤ (c.encAll ts).length
  | [], _ => Nat.le_refl _
  | t :: ts, h => by
    rw [encAll_cons, List.length_append, List.length_cons]
    have h1 := (h t (List.mem_cons_self ..)).2
    have h2 := encAll_len ts fun u hu => h u (List.mem_cons_of_mem _ hu)
    have := List.length_pos_iff.2 h1
    omega

theorem decBits_eq {g l : List Nat} {w : List UInt8} (ho : Ordered (pairs g)) (h32 : 256 + g.length ≤ 2 ^ 32) (hw : DerivesAll (pairs g) l w)
    (hx : ∀ x ∈ l, x < 256 + g.length) (hg : ∀ x ∈ g, ∃ a b, a < 2 ^ 32 ∧ b < 2 ^ 32 ∧ x = digram a b) (hok : ∀ t ∈ tokens g l, c.TokOk t) :
    decBits c (c.encAll (tokens g l)) = .ok w := by
  have hlen := encAll_len (c := c) (tokens g l) hok
  have hll : l.length < (c.encAll (tokens g l)).length := by
    have h1 : l.length ≤ (l.flatMap (symToks g.length)).length := by
      clear hok hx hw hlen
      induction l with
      | nil => simp
      | cons x l ih =>
        rw [List.flatMap_cons, List.length_append, List.length_cons]
        have : 1 ≤ (symToks g.length x).length := by
          unfold symToks
          split <;> simp
        omega
    have h2 : (tokens g l).length = 1 + ((ruleToks 0 g).length + (l.flatMap (symToks g.length)).length) := by
      unfold tokens
      rw [List.length_cons, List.length_append]
      omega
    omega
  have t0 := (hok (.range 0 (2 ^ 32 - 1), g.length) (by simp [tokens])).1
  unfold decBits
  have e : c.encAll (tokens g l) = c.enc (.range 0 (2 ^ 32 - 1)) g.length ++ (c.encAll (ruleToks 0 g) ++ c.encAll (l.flatMap (symToks g.length))) := by
    unfold tokens
    rw [encAll_cons, encAll_append]
  have hd : c.dec (.range 0 (2 ^ 32 - 1)) (c.encAll (tokens g l)) = .ok (g.length, c.encAll (ruleToks 0 g) ++ c.encAll (l.flatMap (symToks g.length))) := by
    rw [e]
    exact t0 _
  rw [hd, bind_ok, decRules_eq g 0 _ hg (fun t ht => hok t (by simp [tokens, ht])), bind_ok]
  exact decText_eq ho h32 l w _ hw hx (fun t ht => hok t (List.mem_cons_of_mem _ (List.mem_append_right _ ht))) (by omega)

end

theorem symToks_has {k x : Nat} (hk : x ≤ 256 + k) (hk' : k < 2 ^ 64) : ∀ t ∈ symToks k x, t.1.Has t.2 := by
  intro t ht
  unfold symToks sigma at ht
  split at ht
  · simp only [List.mem_cons, List.not_mem_nil, or_false] at ht
    rcases ht with rfl | rfl
    · decide
    · exact ⟨Nat.zero_le _, by show x ≤ 255; omega, by show 255 < 2 ^ 64; decide⟩
  · simp only [List.mem_cons, List.not_mem_nil, or_false] at ht
    rcases ht with rfl | rfl
    · decide
    · exact ⟨Nat.zero_le _, by show x - 256 ≤ k; omega, hk'⟩

theorem ruleToks_has : ∀ (g : List Nat) (i : Nat), (∀ (j : Nat) (p : Nat × Nat), (pairs g)[j]? = some p → p.1 < 256 + (i + j) ∧ p.2 < 256 + (i + j)) → i + g.length < 2 ^ 64 →
    ∀ t ∈ ruleToks i g, t.1.Has t.2
  | [], _, _, _, t, ht => by simp [ruleToks] at ht
  | di :: g, i, h, hi, t, ht => by
    rw [List.length_cons] at hi
    have h0 := h 0 (left di, right di) rfl
    unfold ruleToks at ht
    rw [List.mem_append, List.mem_append] at ht
    rcases ht with (ht | ht) | ht
    · exact symToks_has (by have := h0.1; simp only at this; omega) (by omega) t ht
    · exact symToks_has (by have := h0.2; simp only at this; omega) (by omega) t ht
    · refine ruleToks_has g (i + 1) (fun j p hp => ?_) (by omega) t ht
      have := h (j + 1) p hp
      exact ⟨by omega, by omega⟩

theorem tokens_has {g l : List Nat} (ho : Ordered (pairs g)) (hx : ∀ x ∈ l, x < 256 + g.length) (hg : g.length < 2 ^ 32) : ∀ t ∈ tokens g l, t.1.Has t.2 := by
  intro t ht
  unfold tokens at ht
  rcases List.mem_cons.1 ht with rfl | ht
  · exact ⟨Nat.zero_le _, by show g.length ≤ 2 ^ 32 - 1; omega, by show 2 ^ 32 - 1 < 2 ^ 64; decide⟩
  · rcases List.mem_append.1 ht with ht | ht
    · exact ruleToks_has g 0 (fun j p hp => by simpa using ho j p hp) (by omega) t ht
    · obtain ⟨x, hxl, ht⟩ := List.mem_flatMap.1 ht
      exact symToks_has (by have := hx x hxl; omega) (by omega) t ht

end RePair
end Tdc
