import Mathlib.Data.List.Perm.Basic
import Mathlib.Algebra.BigOperators.Group.List.Basic
import Mathlib.Tactic.Linarith
import Mathlib.Tactic.Ring

/-!
# Optimality of merging two least weights

Pairs are (weight, code length).
-/

namespace Tdc.Huff

/-- Kraft's inequality for lengths bounded by `L`. -/
def KraftAt (L : Nat) (ls : List Nat) : Prop := (∀ l ∈ ls, l ≤ L) ∧ (ls.map fun l => 2 ^ (L - l)).sum ≤ 2 ^ L

/-- total length of the code -/
def codeCost (ps : List (Nat × Nat)) : Nat := (ps.map fun p => p.1 * p.2).sum

theorem codeCost_cons (p : Nat × Nat) (ps : List (Nat × Nat)) : codeCost (p :: ps) = p.1 * p.2 + codeCost ps := by
  simp [codeCost]

theorem codeCost_perm {ps qs : List (Nat × Nat)} (h : ps.Perm qs) : codeCost ps = codeCost qs := (h.map _).sum_eq

theorem KraftAt.perm {L : Nat} {ls ms : List Nat} (h : ls.Perm ms) (hk : KraftAt L ls) : KraftAt L ms :=
  ⟨fun l hl => hk.1 l (h.mem_iff.2 hl), by rw [← (h.map _).sum_eq]; exact hk.2⟩

theorem kraft_scale {L M : Nat} (hML : M ≤ L) : ∀ {ls : List Nat}, (∀ l ∈ ls, l ≤ M) →
    (ls.map fun l => 2 ^ (L - l)).sum = 2 ^ (L - M) * (ls.map fun l => 2 ^ (M - l)).sum
  | [], _ => by simp
  | l :: ls, h => by
    have hl := h l (by simp)
    rw [List.map_cons, List.map_cons, List.sum_cons, List.sum_cons, kraft_scale hML (fun x hx => h x (by simp [hx])),
      Nat.mul_add, ← Nat.pow_add, show L - M + (M - l) = L - l by omega]

theorem KraftAt.lower {L M : Nat} {ls : List Nat} (h : KraftAt L ls) (hb : ∀ l ∈ ls, l ≤ M) (hML : M ≤ L) : KraftAt M ls := by
  refine ⟨hb, ?_⟩
  have h2 := h.2
  rw [kraft_scale hML hb, show 2 ^ L = 2 ^ (L - M) * 2 ^ M by rw [← Nat.pow_add]; congr 1; omega] at h2
  exact Nat.le_of_mul_le_mul_left h2 (Nat.two_pow_pos _)

theorem pick_fst {qs : List (Nat × Nat)} {a : Nat} {W : List Nat} (h : (qs.map Prod.fst).Perm (a :: W)) :
    ∃ x rest, qs.Perm ((a, x) :: rest) ∧ (rest.map Prod.fst).Perm W := by
  have ha : a ∈ qs.map Prod.fst := h.mem_iff.2 (by simp)
  obtain ⟨⟨w, x⟩, hp, he⟩ := List.mem_map.1 ha
  simp only at he
  subst he
  obtain ⟨X, Y, rfl⟩ := List.append_of_mem hp
  refine ⟨x, X ++ Y, List.perm_middle, ?_⟩
  have h2 : ((w, x) :: (X ++ Y)).map Prod.fst |>.Perm (w :: W) := ((List.perm_middle.map _).symm).trans h
  exact h2.cons_inv

theorem exists_max : ∀ (l : List (Nat × Nat)), l ≠ [] → ∃ p ∈ l, ∀ q ∈ l, q.2 ≤ p.2
  | [], h => absurd rfl h
  | [p], _ => ⟨p, by simp, by simp⟩
  | p :: q :: l, _ => by
    obtain ⟨r, hr, hm⟩ := exists_max (q :: l) (by simp)
    rcases Nat.le_total p.2 r.2 with h | h
    · refine ⟨r, by simp only [List.mem_cons] at hr ⊢; exact .inr hr, ?_⟩
      intro s hs
      rcases List.mem_cons.1 hs with rfl | hs
      · exact h
      · exact hm s hs
    · refine ⟨p, by simp, ?_⟩
      intro s hs
      rcases List.mem_cons.1 hs with rfl | hs
      · exact Nat.le_refl _
      · exact Nat.le_trans (hm s hs) h

/-- Give the least weight the greatest length. -/
theorem swap_max (a x : Nat) (rest : List (Nat × Nat)) (ha : ∀ p ∈ rest, a ≤ p.1) :
    ∃ x' rest', (rest'.map Prod.fst).Perm (rest.map Prod.fst) ∧ (∀ p ∈ rest', p.2 ≤ x') ∧
      (((a, x') :: rest').map Prod.snd).Perm (((a, x) :: rest).map Prod.snd) ∧
      codeCost ((a, x') :: rest') ≤ codeCost ((a, x) :: rest) := by
  by_cases hm : ∀ p ∈ rest, p.2 ≤ x
  · exact ⟨x, rest, .refl _, hm, .refl _, Nat.le_refl _⟩
  · have hne : rest ≠ [] := by rintro rfl; simp at hm
    obtain ⟨⟨w, M⟩, hp, hmax⟩ := exists_max rest hne
    obtain ⟨X, Y, hXY⟩ := List.append_of_mem hp
    have hperm : rest.Perm ((w, M) :: (X ++ Y)) := by rw [hXY]; exact List.perm_middle
    have hxM : x < M := by
      rcases Nat.lt_or_ge x M with h | h
      · exact h
      · exact absurd (fun p hp => Nat.le_trans (hmax p hp) h) hm
    have haw : a ≤ w := ha _ hp
    refine ⟨M, (w, x) :: (X ++ Y), ?_, ?_, ?_, ?_⟩
    · exact ((hperm.map Prod.fst).symm)
    · intro p hp'
      rcases List.mem_cons.1 hp' with rfl | hp'
      · exact Nat.le_of_lt hxM
      · exact hmax p (hperm.mem_iff.2 (by simp only [List.mem_cons]; exact .inr hp'))
    · have := (hperm.map Prod.snd).cons x
      simp only [List.map_cons] at this ⊢
      exact (List.Perm.swap x M _).trans this.symm
    · rw [codeCost_cons, codeCost_cons, codeCost_cons, codeCost_perm hperm, codeCost_cons]
      simp only
      obtain ⟨k, rfl⟩ : ∃ k, w = a + k := ⟨w - a, by omega⟩
      obtain ⟨j, rfl⟩ : ∃ j, M = x + j := ⟨M - x, by omega⟩
      nlinarith [Nat.zero_le (k * j)]

/-- Merging the two least weights loses nothing. -/
theorem merge_opt {qs : List (Nat × Nat)} {a b : Nat} {W : List Nat} {L : Nat} (h : (qs.map Prod.fst).Perm (a :: b :: W))
    (hk : KraftAt L (qs.map Prod.snd)) (hab : a ≤ b) (hW : ∀ w ∈ W, b ≤ w) :
    ∃ qs' L', (qs'.map Prod.fst).Perm ((a + b) :: W) ∧ KraftAt L' (qs'.map Prod.snd) ∧
      codeCost qs' + (a + b) ≤ codeCost qs := by
  obtain ⟨x, rest, hq, hr⟩ := pick_fst h
  obtain ⟨x', rest', h1, h2, h3, h4⟩ := swap_max a x rest (by
    intro p hp
    have := hr.mem_iff.1 (List.mem_map_of_mem (f := Prod.fst) hp)
    rcases List.mem_cons.1 this with h | h
    · omega
    · have := hW _ h; omega)
  obtain ⟨y, rs, hq2, hr2⟩ := pick_fst (h1.trans hr)
  obtain ⟨y', rs', g1, g2, g3, g4⟩ := swap_max b y rs (by
    intro p hp
    exact hW _ (hr2.mem_iff.1 (List.mem_map_of_mem (f := Prod.fst) hp)))
  -- lengths x', y' (maximal in the rest), rs'
  have hy'x : y' ≤ x' := by
    have : y' ∈ ((b, y) :: rs).map Prod.snd := g3.mem_iff.1 (by simp)
    have := (hq2.map Prod.snd).mem_iff.2 this
    obtain ⟨p, hp, he⟩ := List.mem_map.1 this
    rw [← he]; exact h2 p hp
  have hlens : (qs.map Prod.snd).Perm (x' :: y' :: rs'.map Prod.snd) := by
    refine (hq.map Prod.snd).trans (h3.symm.trans ?_)
    simp only [List.map_cons]
    refine List.Perm.cons _ ?_
    exact (hq2.map Prod.snd).trans (by simpa using g3.symm)
  have hk1 := KraftAt.perm hlens hk
  have hbx : ∀ l ∈ x' :: y' :: rs'.map Prod.snd, l ≤ x' := by
    intro l hl
    simp only [List.mem_cons, List.mem_map] at hl
    rcases hl with rfl | rfl | ⟨p, hp, rfl⟩
    · exact Nat.le_refl _
    · exact hy'x
    · exact Nat.le_trans (g2 p hp) hy'x
  have hk2 := hk1.lower hbx (hk1.1 x' (by simp))
  have hby : ∀ l ∈ y' :: rs'.map Prod.snd, l ≤ y' := by
    intro l hl
    simp only [List.mem_cons, List.mem_map] at hl
    rcases hl with rfl | ⟨p, hp, rfl⟩
    · exact Nat.le_refl _
    · exact g2 p hp
  have hs : (((y' :: rs'.map Prod.snd).map fun l => 2 ^ (y' - l)).sum) + 1 ≤ 2 ^ y' := by
    have h5 := hk2.2
    rw [List.map_cons, List.sum_cons, kraft_scale hy'x hby, Nat.sub_self, Nat.pow_zero,
      show 2 ^ x' = 2 ^ (x' - y') * 2 ^ y' by rw [← Nat.pow_add]; congr 1; omega] at h5
    have : 2 ^ (x' - y') * ((y' :: rs'.map Prod.snd).map fun l => 2 ^ (y' - l)).sum < 2 ^ (x' - y') * 2 ^ y' := by omega
    exact Nat.lt_of_mul_lt_mul_left this
  have hy0 : 0 < y' := by
    rcases Nat.eq_zero_or_pos y' with h0 | h0
    · exfalso
      rw [h0, List.map_cons, List.sum_cons] at hs
      simp at hs
    · exact h0
  refine ⟨(a + b, y' - 1) :: rs', y', ?_, ⟨?_, ?_⟩, ?_⟩
  · simp only [List.map_cons]
    exact (g1.trans hr2).cons _
  · intro l hl
    simp only [List.map_cons, List.mem_cons, List.mem_map] at hl
    rcases hl with rfl | ⟨p, hp, rfl⟩
    · omega
    · exact g2 p hp
  · simp only [List.map_cons, List.sum_cons, Nat.sub_self, Nat.pow_zero] at hs ⊢
    rw [show y' - (y' - 1) = 1 by omega]
    omega
  · have e1 := codeCost_perm hq
    have e2 := codeCost_perm hq2
    rw [codeCost_cons] at h4 e2 g4 ⊢
    rw [codeCost_cons] at e1 h4 g4
    simp only at *
    obtain ⟨z, rfl⟩ : ∃ z, y' = z + 1 := ⟨y' - 1, by omega⟩
    obtain ⟨d, rfl⟩ : ∃ d, x' = z + 1 + d := ⟨x' - (z + 1), by omega⟩
    simp only [Nat.add_sub_cancel]
    nlinarith [Nat.zero_le (a * d)]

/-! ## Kraft's inequality for prefix free codes -/

/-- no word is a prefix of another one -/
def PrefixFree (ws : List (List Bool)) : Prop := ws.Pairwise fun a b => ¬ a <+: b ∧ ¬ b <+: a

/-- the words that start with `b`, without it -/
def tailsOf (b : Bool) (ws : List (List Bool)) : List (List Bool) :=
  ws.filterMap fun w => match w with | [] => none | c :: v => if c = b then some v else none

theorem PrefixFree.tailsOf {ws : List (List Bool)} (h : PrefixFree ws) (b : Bool) : PrefixFree (tailsOf b ws) := by
  rw [PrefixFree, Huff.tailsOf, List.pairwise_filterMap]
  refine List.Pairwise.imp ?_ h
  intro a a' haa v hv v' hv'
  cases a with
  | nil => simp at hv
  | cons c a =>
    cases a' with
    | nil => simp at hv'
    | cons c' a' =>
      simp only at hv hv'
      split at hv
      · split at hv'
        · rename_i h1 h2
          simp only [Option.some.injEq] at hv hv'
          subst hv hv' h1 h2
          refine ⟨fun hp => haa.1 ?_, fun hp => haa.2 ?_⟩
          · exact (List.prefix_cons_inj _).2 hp
          · exact (List.prefix_cons_inj _).2 hp
        · simp at hv'
      · simp at hv

theorem mem_tailsOf {b : Bool} {v : List Bool} {ws : List (List Bool)} (h : v ∈ tailsOf b ws) : b :: v ∈ ws := by
  obtain ⟨w, hw, hv⟩ := List.mem_filterMap.1 h
  cases w with
  | nil => simp at hv
  | cons c w =>
    simp only at hv
    split at hv
    · rename_i hc
      simp only [Option.some.injEq] at hv
      subst hc hv
      exact hw
    · simp at hv

theorem tails_sum (L : Nat) : ∀ (ws : List (List Bool)), [] ∉ ws →
    (ws.map fun w => 2 ^ (L + 1 - w.length)).sum =
      ((tailsOf true ws).map fun w => 2 ^ (L - w.length)).sum + ((tailsOf false ws).map fun w => 2 ^ (L - w.length)).sum
  | [], _ => rfl
  | [] :: ws, h => absurd (by simp) h
  | (c :: v) :: ws, h => by
    have ih := tails_sum L ws (fun hm => h (by simp [hm]))
    rw [List.map_cons, List.sum_cons, ih, List.length_cons, Nat.add_sub_add_right]
    cases c <;> simp [tailsOf] <;> omega

theorem PrefixFree.nil_mem {ws : List (List Bool)} (h : PrefixFree ws) (hm : [] ∈ ws) : ws = [[]] := by
  obtain ⟨X, Y, rfl⟩ := List.append_of_mem hm
  rw [PrefixFree, List.pairwise_append, List.pairwise_cons] at h
  obtain ⟨-, ⟨hY, -⟩, hX⟩ := h
  have h1 : X = [] := by
    cases X with
    | nil => rfl
    | cons x X => exact absurd List.nil_prefix (hX x (by simp) [] (by simp)).2
  have h2 : Y = [] := by
    cases Y with
    | nil => rfl
    | cons y Y => exact absurd List.nil_prefix (hY y (by simp)).1
  rw [h1, h2]; rfl

/-- Kraft's inequality: what every prefix free code satisfies. -/
theorem kraft_of_prefix_free : ∀ (L : Nat) (ws : List (List Bool)), PrefixFree ws → (∀ w ∈ ws, w.length ≤ L) →
    (ws.map fun w => 2 ^ (L - w.length)).sum ≤ 2 ^ L
  | 0, ws, h, hb => by
    cases ws with
    | nil => simp
    | cons w ws =>
      have h0 : w = [] := List.length_eq_zero_iff.1 (Nat.le_zero.1 (hb w (by simp)))
      rw [h.nil_mem (by simp [h0])]
      simp
  | L + 1, ws, h, hb => by
    by_cases hm : [] ∈ ws
    · rw [h.nil_mem hm]; simp
    · rw [tails_sum L ws hm, Nat.pow_succ]
      have h1 := kraft_of_prefix_free L _ (h.tailsOf true) (fun w hw => by have := hb _ (mem_tailsOf hw); simpa using this)
      have h2 := kraft_of_prefix_free L _ (h.tailsOf false) (fun w hw => by have := hb _ (mem_tailsOf hw); simpa using this)
      omega

end Tdc.Huff
