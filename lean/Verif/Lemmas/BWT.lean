import Verif.Model.BWT
import Verif.Lemmas.TextDS

namespace Tdc

/-! ## The C array and the LF table -/

theorem bwtCount_spec (bwt : List UInt8) : ∀ C : Nat → Nat,
    (bwtCount bwt C 0 = C 0) ∧ ∀ j, j < 255 → bwtCount bwt C (j + 1) = C (j + 1) + bwt.countP (fun c => c.toNat = j) := by
  induction bwt with
  | nil => intro C; exact ⟨rfl, fun j _ => rfl⟩
  | cons c cs ih =>
    intro C
    simp only [bwtCount, List.countP_cons]
    obtain ⟨h1, h2⟩ := ih (if c.toNat ≠ 255 then fun j => if j = c.toNat + 1 then C j + 1 else C j else C)
    refine ⟨?_, fun j hj => ?_⟩
    · rw [h1]; split <;> simp
    · rw [h2 j hj]
      by_cases hc : c.toNat = 255
      · rw [if_neg (by simpa using hc), if_neg (by simp; omega)]; rfl
      · rw [if_pos hc]
        by_cases hcj : c.toNat = j
        · rw [if_pos (by omega), if_pos (by simpa using hcj)]; omega
        · rw [if_neg (by omega), if_neg (by simpa using hcj)]; rfl

/-- prefix sums -/
def psum (C : Nat → Nat) : Nat → Nat
  | 0 => C 0
  | k + 1 => psum C k + C (k + 1)

theorem psum_congr {C D : Nat → Nat} (n : Nat) (h : ∀ j, j ≤ n → C j = D j) : psum C n = psum D n := by
  induction n with
  | zero => exact h 0 (Nat.le_refl _)
  | succ n ih => simp only [psum]; rw [ih fun j hj => h j (by omega), h (n + 1) (Nat.le_refl _)]

theorem bwtAcc_spec (k : Nat) : ∀ (i : Nat) (C : Nat → Nat) (D : Nat → Nat), (∀ j, j ≤ i → C j = psum D j) → (∀ j, i < j → C j = D j) →
    (∀ j, j ≤ i + k → bwtAcc k (i + 1) C j = psum D j) ∧ (∀ j, i + k < j → bwtAcc k (i + 1) C j = D j) := by
  induction k with
  | zero => intro i C D h1 h2; exact ⟨fun j hj => h1 j hj, fun j hj => h2 j hj⟩
  | succ k ih =>
    intro i C D h1 h2
    simp only [bwtAcc, Nat.add_sub_cancel]
    have := ih (i + 1) (fun j => if j = i + 1 then C (i + 1) + C i else C j) D ?_ ?_
    · rw [show i + (k + 1) = i + 1 + k by omega]; exact this
    · intro j hj
      by_cases hji : j = i + 1
      · subst hji
        rw [if_pos rfl, h2 _ (by omega), h1 i (Nat.le_refl _)]
        simp only [psum]; omega
      · rw [if_neg hji]; exact h1 j (by omega)
    · intro j hj
      rw [if_neg (by omega)]
      exact h2 j (by omega)

theorem countP_lt_succ (bwt : List UInt8) (k : Nat) :
    bwt.countP (fun c => c.toNat < k + 1) = bwt.countP (fun c => c.toNat < k) + bwt.countP (fun c => c.toNat = k) := by
  induction bwt with
  | nil => rfl
  | cons c cs ih =>
    simp only [List.countP_cons, ih, decide_eq_true_eq]
    split <;> split <;> split <;> omega

theorem psum_count (bwt : List UInt8) (k : Nat) (hk : k < 256) : psum (bwtCount bwt fun _ => 0) k = bwt.countP (fun c => c.toNat < k) := by
  induction k with
  | zero => simp [psum, (bwtCount_spec bwt fun _ => 0).1]
  | succ k ih =>
    simp only [psum]
    rw [ih (by omega), (bwtCount_spec bwt fun _ => 0).2 k (by omega), countP_lt_succ]
    omega

/-- the C array before the LF loop: right for every character but 255 -/
theorem bwtC_spec (bwt : List UInt8) :
    (∀ c, c < 255 → bwtAcc 254 1 (bwtCount bwt fun _ => 0) c = bwt.countP (fun x => x.toNat < c)) ∧
    bwtAcc 254 1 (bwtCount bwt fun _ => 0) 255 = bwt.countP (fun x => x.toNat = 254) := by
  obtain ⟨h1, h2⟩ := bwtAcc_spec 254 0 (bwtCount bwt fun _ => 0) (bwtCount bwt fun _ => 0) (by
    intro j hj
    obtain rfl : j = 0 := by omega
    rfl) (fun j _ => rfl)
  refine ⟨fun c hc => ?_, ?_⟩
  · rw [h1 c (by omega), psum_count bwt c (by omega)]
  · rw [h2 255 (by omega), (bwtCount_spec bwt fun _ => 0).2 254 (by omega)]
    omega

theorem bwtLFLoop_spec (bwt : List UInt8) : ∀ (C : Nat → Nat) (i : Nat) (c : UInt8), bwt[i]? = some c →
    (bwtLFLoop bwt C)[i]? = some (C c.toNat + (bwt.take i).count c) := by
  induction bwt with
  | nil => intro C i c h; simp at h
  | cons x xs ih =>
    intro C i c h
    rw [bwtLFLoop]
    cases i with
    | zero => simp only [List.getElem?_cons_zero, Option.some.injEq] at h; subst h; simp
    | succ i =>
      simp only [List.getElem?_cons_succ] at h ⊢
      rw [ih _ i c h, List.take_succ_cons, List.count_cons]
      by_cases hx : x = c
      · subst hx; simp; omega
      · have hne : c.toNat ≠ x.toNat := fun he => hx (UInt8.toNat_inj.mp he.symm)
        simp [hx, hne]

/-! ## The transform -/

/-- the character before position `s`, cyclically -/
def prevChar (text : List UInt8) (s : Nat) : UInt8 := if s = 0 then text.getD (text.length - 1) 0 else text.getD (s - 1) 0

theorem bwtCompress_spec {text : List UInt8} {sa : List Nat} (h : IsSA text sa) (hn : 0 < text.length) :
    bwtCompress text sa = .ok (sa.map (prevChar text)) := by
  have : ∀ l : List Nat, (∀ s ∈ l, s < text.length) → bwtLoop text sa l = .ok (l.map (prevChar text)) := by
    intro l
    induction l with
    | nil => intro _; rfl
    | cons s l ih =>
      intro hl
      have hsl := hl s (by simp)
      have hb : bwtAt text sa s = .ok (prevChar text s) := by
        unfold bwtAt prevChar
        rw [h.length]
        split
        · rw [vget_ok (List.getElem?_eq_getElem (by omega : text.length - 1 < text.length)), List.getD_eq_getElem?_getD, List.getElem?_eq_getElem (by omega)]; rfl
        · rw [vget_ok (List.getElem?_eq_getElem (by omega : s - 1 < text.length)), List.getD_eq_getElem?_getD, List.getElem?_eq_getElem (by omega)]; rfl
      rw [bwtLoop, hb]
      simp only [ih fun p hp => hl p (by simp [hp]), List.map_cons]
  exact this sa h.lt

theorem countP_take_sorted {sa : List Nat} {P : Nat → Bool} {k : Nat} (hk : k ≤ sa.length) (h1 : ∀ r s : Nat, r < k → sa[r]? = some s → P s = true)
    (h2 : ∀ r s : Nat, k ≤ r → sa[r]? = some s → P s = false) (Q : Nat → Bool) : (sa.take k).countP Q = sa.countP (fun s => P s && Q s) := by
  conv => rhs; rw [← List.take_append_drop k sa, List.countP_append]
  have e1 : (sa.drop k).countP (fun s => P s && Q s) = 0 := by
    rw [List.countP_eq_zero]
    intro s hs
    obtain ⟨r, hr, he⟩ := List.mem_iff_getElem.mp hs
    have : sa[k + r]? = some s := by rw [← List.getElem?_drop, List.getElem?_eq_getElem hr, he]
    rw [h2 (k + r) s (by omega) this]
    simp
  have e2 : (sa.take k).countP (fun s => P s && Q s) = (sa.take k).countP Q := by
    refine List.countP_congr ?_
    intro s hs
    obtain ⟨r, hr, he⟩ := List.mem_iff_getElem.mp hs
    have hrk : r < k := by simp at hr; omega
    have : sa[r]? = some s := by rw [← List.getElem?_take_of_lt hrk, List.getElem?_eq_getElem hr, he]
    rw [h1 r s hrk this]
    simp
  omega

open Classical in
/-- number of entries before position `k` satisfying `Q` -/
theorem IsSA.countP_take {text : List UInt8} {sa : List Nat} (h : IsSA text sa) {k s : Nat} (hk : sa[k]? = some s) (Q : Nat → Bool) :
    (sa.take k).countP Q = (List.range text.length).countP (fun p => decide (text.drop p < text.drop s) && Q p) := by
  have hkl := (List.getElem?_eq_some_iff.mp hk).1
  rw [countP_take_sorted (P := fun p => decide (text.drop p < text.drop s)) (Nat.le_of_lt hkl)]
  · exact h.perm.countP_eq _
  · intro r p hr hp
    simp only [decide_eq_true_eq]
    exact h.sorted r k p s hr hp hk
  · intro r p hr hp
    simp only [decide_eq_false_iff_not]
    intro hlt
    have := (h.lt_iff hp hk).mpr hlt
    omega

theorem drop_lt_drop {text : List UInt8} {p s : Nat} (hp : p < text.length) (hs : s < text.length) :
    text.drop p < text.drop s ↔ text[p] < text[s] ∨ text[p] = text[s] ∧ text.drop (p + 1) < text.drop (s + 1) := by
  rw [List.drop_eq_getElem_cons hp, List.drop_eq_getElem_cons hs, List.cons_lt_cons_iff]

/-- the transform is a permutation of the text: counts agree -/
theorem countP_prevChar (text : List UInt8) (P : UInt8 → Bool) : (List.range text.length).countP (fun p => P (prevChar text p)) = text.countP P := by
  rcases Nat.eq_zero_or_pos text.length with h0 | hn
  · have : text = [] := List.length_eq_zero_iff.mp h0
    subst this; rfl
  obtain ⟨u, z, rfl⟩ : ∃ u z, text = u ++ [z] := by
    have hne : text ≠ [] := by rintro rfl; simp at hn
    exact ⟨text.dropLast, text.getLast hne, (List.dropLast_append_getLast hne).symm⟩
  simp only [List.length_append, List.length_singleton]
  rw [List.range_succ_eq_map, List.countP_cons, List.countP_map]
  have h0 : prevChar (u ++ [z]) 0 = z := by simp [prevChar]
  rw [h0, List.countP_append, List.countP_singleton]
  congr 1
  have : ∀ l : List UInt8, (List.range l.length).countP ((fun p => P (l.getD p 0))) = l.countP P := by
    intro l
    conv => rhs; rw [show l = (List.range l.length).map (fun p => l.getD p 0) from by
      apply List.ext_getElem?
      intro i
      rw [List.getElem?_map]
      by_cases hi : i < l.length
      · rw [List.getElem?_range hi, List.getElem?_eq_getElem hi]; simp [List.getD_eq_getElem?_getD, hi]
      · rw [List.getElem?_eq_none (by omega), List.getElem?_eq_none (by simp; omega)]; rfl]
    rw [List.countP_map]; rfl
  rw [← this u]
  refine List.countP_congr ?_
  intro p hp
  have hp := List.mem_range.mp hp
  simp [prevChar, List.getD_eq_getElem?_getD, List.getElem?_append_left hp]

theorem getD_of_lt {text : List UInt8} {p : Nat} (h : p < text.length) : text.getD p 0 = text[p] := by
  simp [List.getD_eq_getElem?_getD, h]

theorem u8_trichotomy_count (text : List UInt8) (R : Nat → Bool) (c : UInt8) (n : Nat) (hn : n ≤ text.length) :
    (List.range n).countP (fun p => decide (text.getD p 0 < c) || (decide (text.getD p 0 = c) && R p)) =
    (List.range n).countP (fun p => decide (text.getD p 0 < c)) + (List.range n).countP (fun p => decide (text.getD p 0 = c) && R p) := by
  induction n with
  | zero => rfl
  | succ n ih =>
    rw [List.range_succ, List.countP_append, List.countP_append, List.countP_append, ih (by omega)]
    simp only [List.countP_singleton]
    have hx : ¬ (text.getD n 0 < c ∧ text.getD n 0 = c) := by
      rintro ⟨h1, h2⟩; rw [h2] at h1; exact u8_lt_irrefl _ h1
    by_cases h1 : text.getD n 0 < c <;> by_cases h2 : text.getD n 0 = c
    · exact absurd ⟨h1, h2⟩ hx
    · simp only [h1, h2]; simp; omega
    · simp only [h1, h2]; simp; omega
    · simp only [h1, h2]; simp

/-- **The LF step**: row `i` belongs to suffix `s + 1`, row `LF[i]` to suffix `s`. -/
theorem lf_step {text : List UInt8} {sa : List Nat} (h : IsSA text sa) (hs : Sentinel text) {i s : Nat} (hi : sa[i]? = some (s + 1))
    (h255 : text.getD s 0 ≠ 255) : ∃ k, (bwtLF (sa.map (prevChar text)))[i]? = some k ∧ sa[k]? = some s := by
  have hsl : s + 1 < text.length := h.lt _ (List.mem_of_getElem? hi)
  obtain ⟨k, hk, hke⟩ := h.idx (p := s) (by omega)
  obtain ⟨c, hc⟩ : ∃ c, c = text.getD s 0 := ⟨_, rfl⟩
  have hcs : text[s] = c := by rw [hc, getD_of_lt]
  have hc0 : c ≠ 0 := by
    have := hs.ne_zero hsl
    rw [List.getElem?_eq_getElem (by omega), hcs] at this
    simpa using this
  have hlast : text.getD (text.length - 1) 0 = 0 := by
    rw [List.getD_eq_getElem?_getD, hs.last]; rfl
  have hbi : (sa.map (prevChar text))[i]? = some c := by
    rw [List.getElem?_map, hi]
    simp [prevChar, hc]
  refine ⟨k, ?_, hke⟩
  rw [bwtLF, bwtLFLoop_spec _ _ i c hbi]
  congr 1
  rw [(bwtC_spec _).1 c.toNat (by
    have := c.toNat_lt
    have : c.toNat ≠ 255 := fun he => h255 (by rw [← hc]; exact UInt8.toNat_inj.mp he)
    omega)]
  -- the two counts
  have e1 : (sa.map (prevChar text)).countP (fun x => decide (x.toNat < c.toNat)) = (List.range text.length).countP (fun p => decide (text.getD p 0 < c)) := by
    rw [List.countP_map, h.perm.countP_eq]
    have := countP_prevChar text (fun x => decide (x.toNat < c.toNat))
    rw [show ((fun x : UInt8 => decide (x.toNat < c.toNat)) ∘ prevChar text) = fun p => decide ((prevChar text p).toNat < c.toNat) from rfl, this]
    have hl : text = (List.range text.length).map (fun p => text.getD p 0) := by
      apply List.ext_getElem?
      intro i
      rw [List.getElem?_map]
      by_cases hi : i < text.length
      · rw [List.getElem?_range hi, List.getElem?_eq_getElem hi]; simp [List.getD_eq_getElem?_getD, hi]
      · rw [List.getElem?_eq_none (by omega), List.getElem?_eq_none (by simp; omega)]; rfl
    conv => lhs; rw [hl]
    rw [List.countP_map]
    rfl
  have e2 : ((sa.map (prevChar text)).take i).count c =
      (List.range text.length).countP (fun p => decide (text.getD p 0 = c) && decide (text.drop (p + 1) < text.drop (s + 1))) := by
    rw [← List.map_take, List.count, List.countP_map, h.countP_take hi]
    obtain ⟨n, hn⟩ : ∃ n, text.length = n + 1 := ⟨text.length - 1, by omega⟩
    rw [hn]
    conv => lhs; rw [List.range_succ_eq_map, List.countP_cons, List.countP_map]
    conv => rhs; rw [List.range_succ, List.countP_append, List.countP_singleton]
    have z1 : (prevChar text 0 == c) = false := by
      rw [beq_eq_false_iff_ne]
      simp only [prevChar, if_true, hlast]
      exact fun he => hc0 he.symm
    have z2 : text.getD n 0 = 0 := by rw [show n = text.length - 1 by omega]; exact hlast
    have z3 : (decide (text.getD n 0 = c)) = false := by
      rw [z2]; simpa using fun he => hc0 he.symm
    simp only [Function.comp_apply, z1, z3, Bool.and_false, Bool.false_and, Bool.false_eq_true, if_false, Nat.add_zero]
    refine List.countP_congr ?_
    intro p hp
    simp only [Function.comp_apply, prevChar, Nat.succ_eq_add_one, Nat.add_one_ne_zero, if_false, Nat.add_sub_cancel, Bool.and_eq_true, beq_iff_eq, decide_eq_true_eq]
    exact ⟨fun hx => ⟨hx.2, hx.1⟩, fun hx => ⟨hx.2, hx.1⟩⟩
  have e3 : k = (List.range text.length).countP (fun p => decide (text.getD p 0 < c) || (decide (text.getD p 0 = c) && decide (text.drop (p + 1) < text.drop (s + 1)))) := by
    have := h.countP_take hke (fun _ => true)
    rw [List.countP_true, List.length_take, Nat.min_eq_left (by rw [h.length]; omega)] at this
    rw [this]
    refine List.countP_congr ?_
    intro p hp
    have hp := List.mem_range.mp hp
    simp only [Bool.and_true, decide_eq_true_eq, Bool.or_eq_true, Bool.and_eq_true]
    rw [drop_lt_drop hp (by omega), hcs, getD_of_lt hp]
  rw [e1, e2, e3, u8_trichotomy_count text _ c text.length (Nat.le_refl _)]

theorem bwtDecLoop_spec {text : List UInt8} {sa : List Nat} (h : IsSA text sa) (hs : Sentinel text) (h255 : (255 : UInt8) ∉ text) (k : Nat) :
    ∀ i : Nat, sa[i]? = some k →
      bwtDecLoop (sa.map (prevChar text)) (bwtLF (sa.map (prevChar text))) k i ((text.take (text.length - 1)).drop k) =
        .ok (text.take (text.length - 1)) := by
  induction k with
  | zero => intro i _; rfl
  | succ k ih =>
    intro i hi
    have hkl : k + 1 < text.length := h.lt _ (List.mem_of_getElem? hi)
    have hn : text.getD k 0 ≠ 255 := by
      rw [getD_of_lt (by omega)]
      intro he
      exact h255 (he ▸ List.getElem_mem _)
    obtain ⟨i', h1, h2⟩ := lf_step h hs hi hn
    have hb : (sa.map (prevChar text))[i]? = some (text[k]'(by omega)) := by
      rw [List.getElem?_map, hi]
      simp only [Option.map_some, prevChar, Nat.add_one_ne_zero, if_false, Nat.add_sub_cancel]
      rw [getD_of_lt (by omega)]
    rw [bwtDecLoop, vget_ok hb, vget_ok h1]
    simp only
    have := ih i' h2
    rw [List.drop_eq_getElem_cons (by simp; omega : k < (text.take (text.length - 1)).length)] at this
    rw [List.getElem_take] at this
    exact this

end Tdc
