import Verif.Lemmas.DivSufSortSS

/-! # Sorting a bucket by insertion: the loops around -/

namespace Tdc

open DSS

variable {cell : Int → Int} {T : List UInt8}

/-- `t` inserted at place `k` -/
def insAt (js : List Nat) (k t : Nat) : List Nat := js.take k ++ t :: js.drop k

theorem insAt_get {js : List Nat} {k t : Nat} (hk : k ≤ js.length) (q : Nat) : (insAt js k t)[q]? = if q < k then js[q]? else if q = k then some t else js[q - 1]? := by
  unfold insAt
  by_cases h : q < k
  · rw [if_pos h, List.getElem?_append_left (by rw [List.length_take]; omega), List.getElem?_take_of_lt h]
  · rw [if_neg h, List.getElem?_append_right (by rw [List.length_take]; omega), List.length_take, Nat.min_eq_left hk]
    by_cases h1 : q = k
    · subst h1; simp
    · rw [if_neg h1]
      obtain ⟨d, rfl⟩ : ∃ d, q = k + d + 1 := ⟨q - k - 1, by omega⟩
      have e : k + d + 1 - k = d + 1 := by omega
      rw [e, List.getElem?_cons_succ, List.getElem?_drop]
      rfl

theorem insAt_length {js : List Nat} {k t : Nat} (hk : k ≤ js.length) : (insAt js k t).length = js.length + 1 := by
  unfold insAt
  rw [List.length_append, List.length_cons, List.length_take, List.length_drop]
  omega

theorem insAt_perm (js : List Nat) (k t : Nat) : (insAt js k t).Perm (t :: js) := by
  unfold insAt
  refine List.perm_middle.trans ?_
  rw [List.take_append_drop]

theorem insAt_sorted {js : List Nat} {k t : Nat} (hs : js.Pairwise (fun x y => ¬ bkey T y < bkey T x)) (h1 : ∀ q, q < k → ∀ x, js[q]? = some x → bkey T x < bkey T t)
    (h2 : ∀ x, js[k]? = some x → ¬ bkey T x < bkey T t) : (insAt js k t).Pairwise (fun x y => ¬ bkey T y < bkey T x) := by
  have hall : ∀ y ∈ js.drop k, ¬ bkey T y < bkey T t := fun y hy => by
    obtain ⟨d, hd, rfl⟩ := List.getElem_of_mem hy
    rw [List.length_drop] at hd
    rw [List.getElem_drop]
    have h3 := h2 _ (List.getElem?_eq_getElem (by omega : k < js.length))
    rcases Nat.eq_zero_or_pos d with h0 | h0
    · subst h0; exact h3
    · have h4 := (List.pairwise_iff_getElem.mp hs) k (k + d) (by omega) (by omega) (by omega)
      intro h5
      rcases lex_total (bkey T js[k]) (bkey T js[k + d]) with h6 | h6 | h6
      · exact h3 (lex_trans h6 h5)
      · rw [h6] at h3; exact h3 h5
      · exact h4 h6
  unfold insAt
  rw [List.pairwise_append]
  refine ⟨hs.sublist (List.take_sublist _ _), List.pairwise_cons.mpr ⟨hall, hs.sublist (List.drop_sublist _ _)⟩, fun x hx y hy => ?_⟩
  obtain ⟨q, hq, rfl⟩ := List.getElem_of_mem hx
  rw [List.length_take] at hq
  have hxt := h1 q (by omega) (js.take k)[q] (by rw [List.getElem_take, List.getElem?_eq_getElem])
  rcases List.mem_cons.mp hy with h | h
  · subst h
    exact fun h => lex_irrefl _ (lex_trans h hxt)
  · intro h3
    have h4 := hall y h
    exact h4 (lex_trans h3 hxt)

/-- the marks after the insertion -/
theorem marked_insAt {js : List Nat} {k t : Nat} (hk : k ≤ js.length) (h1 : ∀ q, q < k → ∀ x, js[q]? = some x → bkey T x < bkey T t) :
    (∀ q, q < k → marked T (insAt js k t) q = marked T js q) ∧ marked T (insAt js k t) k = some (t : Int) ∧
    (∀ q, k + 1 < q → marked T (insAt js k t) q = marked T js (q - 1)) ∧
    (∀ x, js[k]? = some x → bkey T t = bkey T x → marked T (insAt js k t) (k + 1) = some (-(x : Int) - 1)) ∧
    (∀ x, js[k]? = some x → bkey T t ≠ bkey T x → marked T (insAt js k t) (k + 1) = some (x : Int)) := by
  have g := insAt_get (t := t) hk
  have gk : (insAt js k t)[k]? = some t := by rw [g, if_neg (by omega), if_pos rfl]
  have gk1 : (insAt js k t)[k + 1]? = js[k]? := by rw [g, if_neg (by omega), if_neg (by omega), Nat.add_sub_cancel]
  refine ⟨fun q hq => ?_, ?_, fun q hq => ?_, fun x hx he => ?_, fun x hx he => ?_⟩
  · unfold marked
    rw [g, g, if_pos hq, if_pos (by omega)]
  · unfold marked
    rw [gk, Option.map_some, if_neg]
    rintro ⟨h0, h3⟩
    rw [g (k - 1), if_pos (by omega), List.getElem?_eq_getElem (by omega), Option.map_some, Option.some.injEq] at h3
    have := h1 (k - 1) (by omega) _ (List.getElem?_eq_getElem (by omega))
    rw [h3] at this
    exact lex_irrefl _ this
  · unfold marked
    rw [g, g, if_neg (by omega), if_neg (by omega), if_neg (by omega), if_neg (by omega)]
    have : (0 < q) ↔ (0 < q - 1) := by omega
    simp only [this]
  · unfold marked
    rw [gk1, hx, Nat.add_sub_cancel, gk, Option.map_some, Option.map_some, if_pos ⟨by omega, by rw [he]⟩]
  · unfold marked
    rw [gk1, hx, Nat.add_sub_cancel, gk, Option.map_some, Option.map_some, if_neg]
    rintro ⟨-, h⟩
    exact he (Option.some.inj h)

/-- the cells after one number was put in its place -/
theorem InsInv.put {i : Nat} {js : List Nat} {B0 B : List Int} {k t : Nat} {w : Option Nat} (I : InsInv T i js B0 k B) (hk : k ≤ js.length) (hl : i + 1 + js.length ≤ B0.length)
    (h1 : ∀ q, q < k → ∀ x, js[q]? = some x → bkey T x < bkey T t) (hh : k < js.length → Head T js k)
    {B1 : List Int} (hB1 : (w = none ∧ B1 = B ∧ ∀ x, js[k]? = some x → bkey T t < bkey T x) ∨
      (∃ x, js[k]? = some x ∧ bkey T t = bkey T x ∧ B1 = B.set (i + 1 + k) (-(x : Int) - 1))) :
    (B1.set (i + k) (t : Int)).length = B0.length ∧ (∀ q, q < (insAt js k t).length → (B1.set (i + k) (t : Int))[i + q]? = marked T (insAt js k t) q) ∧
      (∀ p, p < i ∨ i + 1 + js.length ≤ p → (B1.set (i + k) (t : Int))[p]? = B0[p]?) := by
  obtain ⟨m1, m2, m3, m4, m5⟩ := marked_insAt (t := t) hk h1
  have hB1l : B1.length = B0.length := by
    rcases hB1 with ⟨-, h, -⟩ | ⟨x, -, -, h⟩ <;> subst h <;> simp [I.len]
  have hB1e : ∀ p, p ≠ i + 1 + k ∨ js.length ≤ k → B1[p]? = B[p]? := fun p hp => by
    rcases hB1 with ⟨-, h, -⟩ | ⟨x, hx, -, h⟩
    · rw [h]
    · have := (List.getElem?_eq_some_iff.mp hx).1
      rw [h, List.getElem?_set_ne (by omega)]
  have hB1k : k < js.length → B1[i + 1 + k]? = marked T (insAt js k t) (k + 1) := fun hkl => by
    rcases hB1 with ⟨-, h, h2⟩ | ⟨x, hx, he, h⟩
    · have hx := List.getElem?_eq_getElem hkl
      have h3 := h2 _ hx
      rw [m5 _ hx (fun he => by rw [he] at h3; exact lex_irrefl _ h3), h, I.rest k (Nat.le_refl _) hkl, marked_head hkl (hh hkl)]
    · rw [m4 x hx he, h, List.getElem?_set_self (by rw [I.len]; omega)]
  refine ⟨by rw [List.length_set, hB1l], fun q hq => ?_, fun p hp => ?_⟩
  · rw [insAt_length hk] at hq
    by_cases hqk : q = k
    · subst hqk
      rw [List.getElem?_set_self (by rw [hB1l]; omega), m2]
    · rw [List.getElem?_set_ne (by omega)]
      by_cases h3 : q < k
      · rw [hB1e _ (by omega), I.done q h3, m1 q h3]
      · by_cases h4 : q = k + 1
        · subst h4
          have e : i + (k + 1) = i + 1 + k := by omega
          rw [e, hB1k (by omega)]
        · have e : i + q = i + 1 + (q - 1) := by omega
          rw [hB1e _ (by omega), e, I.rest (q - 1) (by omega) (by omega), m3 q (by omega)]
  · rw [List.getElem?_set_ne (by omega), hB1e p (by omega), I.out p hp]

/-- numbers of a bucket that the insertion can sort -/
def SameFor (T : List UInt8) (d : Nat) (is : List Nat) : Prop := ∀ x ∈ is, ∀ y ∈ is, SameTo T d x y

theorem ssOuter_spec {n : Nat} (hcell : ∀ v : Int, -n ≤ v → v < n → cell v = v) {first : Nat} {is : List Nat} {B0 : List Int}
    (hn : (bstars T).length ≤ n) (hlen : T.length = B0.length) (hmem : ∀ x ∈ is, x + 1 < (bstars T).length) {depth : Nat} (htwo : SameFor T depth is) (hpos : HasPos T B0)
    (hm : first + is.length ≤ (bstars T).length) (hin : ∀ (k x : Nat), is[k]? = some x → B0[first + k]? = some (x : Int)) : ∀ (d : Nat) (B : List Int) (js : List Nat),
    d < is.length → js.Perm (is.drop d) → js.Pairwise (fun x y => ¬ bkey T y < bkey T x) → B.length = B0.length →
    (∀ q, q < js.length → B[first + d + q]? = marked T js q) → (∀ p, p < first + d ∨ first + is.length ≤ p → B[p]? = B0[p]?) →
    ∃ B' js', ssOuter cell T ((T.length : Int) - (bstars T).length) depth first ((first + is.length : Nat) : Int) d B = .ok B' ∧ B'.length = B0.length ∧ js'.Perm is ∧
      js'.Pairwise (fun x y => ¬ bkey T y < bkey T x) ∧ (∀ q, q < js'.length → B'[first + q]? = marked T js' q) ∧
      (∀ p, p < first ∨ first + is.length ≤ p → B'[p]? = B0[p]?)
  | 0, B, js, hd, hp, hs, hl, hc, ho => by
    rw [List.drop_zero] at hp
    exact ⟨B, js, rfl, hl, hp, hs, hc, ho⟩
  | d + 1, B, js, hd, hp, hs, hl, hc, ho => by
    have h2m := (divsufsort_bstars T).2
    have hjl : js.length = is.length - (d + 1) := by rw [hp.length_eq, List.length_drop]
    have hjs : ∀ x ∈ js, x ∈ is := fun x hx => List.mem_of_mem_drop (hp.mem_iff.mp hx)
    have hd' : d < is.length := by omega
    have ht := hin d is[d] (List.getElem?_eq_getElem hd')
    have htm := List.getElem_mem hd'
    have hbt : is[d] + 1 < (bstars T).length := hmem _ htm
    have elast : first + is.length = first + d + 1 + js.length := by omega
    have I : InsInv T (first + d) js B 0 B := ⟨rfl, fun q hq => by omega, fun q h1 h2 => by
      have := hc q h2
      rw [← this]; congr 1, fun p hp => rfl⟩
    have hposB : HasPos T B := fun x hx => by rw [ho _ (Or.inr (by omega))]; exact hpos x hx
    obtain ⟨r, k, B1, g1, g2, g3, g4, g5, g6, g7⟩ := ssInner_spec hcell (i := first + d) (js := js) (B0 := B) (by omega) hn (by rw [hlen, hl]) (t := is[d]) hbt
      (fun x hx => ⟨hmem x (hjs x hx), htwo _ htm _ (hjs x hx)⟩) hposB (by omega) (js.length + 1) 0 B (by omega) (by omega) (fun x y h => by omega) I (fun q hq => by omega)
    have ei : (first : Int) + (d : Nat) = ((first + d : Nat) : Int) := by omega
    have ei1 : ((first + d : Nat) : Int) + 1 = ((first + d + 1 + 0 : Nat) : Int) := by omega
    have ef : (((first + is.length : Nat) : Int) - ((first + d : Nat) : Int)).toNat = js.length + 1 := by omega
    have ek : ((first + d + 1 + k : Nat) : Int) - 1 = ((first + d + k : Nat) : Int) := by omega
    have htB : B[first + d]? = some (is[d] : Int) := by rw [ho _ (Or.inl (by omega)), ht]
    have hg1l := g3.len
    unfold ssOuter
    dsimp only
    rw [ei, sget_ok htB, DSS.bind_ok, ei1, ef, elast, g1, DSS.bind_ok]
    dsimp only
    have hfin : ∀ B2 : List Int, ((none : Option Nat) = none ∧ B2 = B1 ∧ ∀ x, js[k]? = some x → bkey T is[d] < bkey T x) ∨
        (∃ x, js[k]? = some x ∧ bkey T is[d] = bkey T x ∧ B2 = B1.set (first + d + 1 + k) (-(x : Int) - 1)) →
        ∃ B' js', ((sset cell B2 (((first + d + 1 + k : Nat) : Int) - 1) is[d]).bind fun B =>
            ssOuter cell T ((T.length : Int) - (bstars T).length) depth first ((first + d + 1 + js.length : Nat) : Int) d B) = .ok B' ∧ B'.length = B0.length ∧ js'.Perm is ∧
          js'.Pairwise (fun x y => ¬ bkey T y < bkey T x) ∧ (∀ q, q < js'.length → B'[first + q]? = marked T js' q) ∧
          (∀ p, p < first ∨ first + d + 1 + js.length ≤ p → B'[p]? = B0[p]?) := fun B2 hB2 => by
      obtain ⟨p1, p2, p3⟩ := g3.put (t := is[d]) g2 (by omega) g4 g5 hB2
      rw [List.length_set] at p1
      have hns : ∀ x, js[k]? = some x → ¬ bkey T x < bkey T is[d] := fun x hx h => by
        rcases hB2 with ⟨-, -, h2⟩ | ⟨y, hy, he, -⟩
        · exact lex_irrefl _ (lex_trans h (h2 x hx))
        · rw [hx] at hy
          injection hy with hy
          subst hy
          rw [he] at h
          exact lex_irrefl _ h
      rw [ek, sset_ok (hcell _ (by omega) (by omega)) (by omega), DSS.bind_ok, ← elast]
      refine ssOuter_spec hcell hn hlen hmem htwo hpos hm hin d _ (insAt js k is[d]) hd' ?_ (insAt_sorted hs g4 hns) (by rw [List.length_set, p1, hl]) p2 (fun p hp => ?_)
      · rw [List.drop_eq_getElem_cons hd']
        exact (insAt_perm _ _ _).trans (hp.cons _)
      · rw [p3 p (by omega), ho p (by omega)]
    by_cases hr : r = 0
    · obtain ⟨x, hx, he⟩ := g6 hr
      have hkl := (List.getElem?_eq_some_iff.mp hx).1
      have hv := g3.rest k (Nat.le_refl _) hkl
      rw [marked_head hkl (g5 hkl)] at hv
      have hxe : js[k] = x := by rw [List.getElem?_eq_getElem hkl] at hx; exact Option.some.inj hx
      rw [hxe] at hv
      have hxm := hmem x (hjs x (List.mem_of_getElem? hx))
      rw [if_pos hr, sget_ok hv, DSS.bind_ok, sset_ok (hcell _ (by unfold inv; omega) (by unfold inv; omega)) (by omega), DSS.bind_ok]
      exact hfin _ (Or.inr ⟨x, hx, he, rfl⟩)
    · rw [if_neg hr, DSS.bind_ok]
      exact hfin _ (Or.inl ⟨rfl, rfl, g7 hr⟩)

theorem ssInsertionsort_spec {n : Nat} (hcell : ∀ v : Int, -n ≤ v → v < n → cell v = v) {first : Nat} {is : List Nat} {B0 : List Int}
    (hn : (bstars T).length ≤ n) (hlen : T.length = B0.length) (hmem : ∀ x ∈ is, x + 1 < (bstars T).length) {depth : Nat} (htwo : SameFor T depth is) (hpos : HasPos T B0)
    (hm : first + is.length ≤ (bstars T).length) (hin : ∀ (k x : Nat), is[k]? = some x → B0[first + k]? = some (x : Int)) :
    ∃ B' js', ssInsertionsort cell T ((T.length : Int) - (bstars T).length) depth first ((first + is.length : Nat) : Int) B0 = .ok B' ∧ B'.length = B0.length ∧ js'.Perm is ∧
      js'.Pairwise (fun x y => ¬ bkey T y < bkey T x) ∧ (∀ q, q < js'.length → B'[first + q]? = marked T js' q) ∧
      (∀ p, p < first ∨ first + is.length ≤ p → B'[p]? = B0[p]?) := by
  unfold ssInsertionsort
  have e : (((first + is.length : Nat) : Int) - (first : Int) - 1).toNat = is.length - 1 := by omega
  rw [e]
  rcases Nat.eq_zero_or_pos is.length with h0 | h0
  · have h1 : is = [] := List.eq_nil_of_length_eq_zero h0
    subst h1
    exact ⟨B0, [], rfl, rfl, List.Perm.refl _, List.Pairwise.nil, fun q hq => by simp at hq, fun _ _ => rfl⟩
  · obtain ⟨x, hx⟩ : ∃ x, is.drop (is.length - 1) = [x] := by
      have : (is.drop (is.length - 1)).length = 1 := by rw [List.length_drop]; omega
      exact List.length_eq_one_iff.mp this
    have hx' : is[is.length - 1]? = some x := by
      have h1 := congrArg (fun l : List Nat => l[0]?) hx
      simpa using h1
    refine ssOuter_spec hcell hn hlen hmem htwo hpos hm hin (is.length - 1) B0 [x] (by omega) (by rw [hx]) (List.pairwise_singleton _ _) rfl (fun q hq => ?_) (fun _ _ => rfl)
    have hq0 : q = 0 := by simpa using hq
    subst hq0
    rw [marked_single (by simp) 0 x rfl, Nat.add_zero, hin _ _ hx']

end Tdc
