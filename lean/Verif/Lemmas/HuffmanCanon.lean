import Verif.Lemmas.HuffmanLens
import Verif.Lemmas.Coders

/-!
# Canonical codes: `gen_first_codes`, `gen_codewords`, `huffman_decode`
-/

namespace Tdc.Huff

/-- Ghost: `Σ numl[i] · 2^(longest - 1 - i)`. -/
def kraftSum : List Nat → Nat
  | [] => 0
  | x :: l => x * 2 ^ l.length + kraftSum l

theorem firstCodes_cons (x : Nat) (l : List Nat) : ∃ f, firstCodes (x :: l) = f :: firstCodes l := by
  induction l generalizing x with
  | nil => exact ⟨0, rfl⟩
  | cons y r ih =>
    obtain ⟨f, hf⟩ := ih y
    exact ⟨(f + y) / 2, by rw [firstCodes, hf]; exact hf⟩

theorem good_tail {x : Nat} {l : List Nat} (h : 2 ^ (l.length + 1) ∣ kraftSum (x :: l)) : 2 ^ l.length ∣ kraftSum l := by
  rw [kraftSum] at h
  have h1 : 2 ^ l.length ∣ x * 2 ^ l.length + kraftSum l := Nat.dvd_trans (Nat.pow_dvd_pow 2 (by omega)) h
  exact (Nat.dvd_add_right (Nat.dvd_mul_left _ _)).1 h1

theorem firstCodes_exact : ∀ (x : Nat) (l : List Nat), 2 ^ l.length ∣ kraftSum l →
    ∃ f, firstCodes (x :: l) = f :: firstCodes l ∧ f * 2 ^ l.length = kraftSum l
  | _, [], _ => ⟨0, rfl, rfl⟩
  | x, y :: r, h => by
    obtain ⟨f, h1, h2⟩ := firstCodes_exact y r (good_tail h)
    refine ⟨(f + y) / 2, by rw [firstCodes, h1]; exact h1, ?_⟩
    have h3 : kraftSum (y :: r) = (f + y) * 2 ^ r.length := by rw [kraftSum, ← h2, Nat.add_mul]; omega
    rw [h3, List.length_cons, Nat.pow_succ, Nat.mul_comm (2 ^ r.length) 2] at h
    have h4 : 2 ∣ f + y := Nat.dvd_of_mul_dvd_mul_right (Nat.two_pow_pos r.length) h
    rw [h3, List.length_cons, Nat.pow_succ, Nat.mul_comm (2 ^ r.length) 2, ← Nat.mul_assoc, Nat.div_mul_cancel h4]

theorem firstCodes_length (l : List Nat) : (firstCodes l).length = l.length := by
  induction l with
  | nil => rfl
  | cons x l ih =>
    obtain ⟨f, hf⟩ := firstCodes_cons x l
    rw [hf, List.length_cons, ih, List.length_cons]

/-- A codeword of the length with index `k`: at least the first code, less than the first code plus their number. -/
theorem codeword_bound : ∀ (l : List Nat) (k f x w : Nat), 2 ^ l.length ∣ kraftSum l →
    (firstCodes l)[k]? = some f → l[k]? = some x → w < f + x → (w + 1) * 2 ^ (l.length - 1 - k) ≤ kraftSum l
  | [], k, f, x, w, _, _, h2, _ => by simp at h2
  | y :: r, 0, f, x, w, h, h1, h2, h3 => by
    obtain ⟨f', h4, h5⟩ := firstCodes_exact y r (good_tail h)
    rw [h4] at h1
    simp only [List.getElem?_cons_zero, Option.some.injEq] at h1 h2
    subst h1 h2
    simp only [List.length_cons, Nat.add_sub_cancel, Nat.sub_zero]
    rw [kraftSum, ← h5, ← Nat.add_mul]
    exact Nat.mul_le_mul_right _ (by omega)
  | y :: r, k + 1, f, x, w, h, h1, h2, h3 => by
    obtain ⟨f', h4, h5⟩ := firstCodes_exact y r (good_tail h)
    rw [h4] at h1
    simp only [List.getElem?_cons_succ] at h1 h2
    have := codeword_bound r k f x w (good_tail h) h1 h2 h3
    rw [kraftSum, List.length_cons, show r.length + 1 - 1 - (k + 1) = r.length - 1 - k by omega]
    omega

/-- The decoding loop stops exactly at the end of the codeword. -/
theorem codeLoop_spec : ∀ (l : List Nat) (k f x w j : Nat) (rest : List Bool), 2 ^ l.length ∣ kraftSum l →
    (firstCodes l)[k]? = some f → l[k]? = some x → f ≤ w → w < f + x → w < 2 ^ 64 →
    codeLoop (firstCodes l) (w / 2 ^ (k + 1)) j (writeInt w (k + 1) ++ rest) = .ok (w, j + k, rest)
  | [], k, f, x, w, j, rest, _, _, h2, _, _, _ => by simp at h2
  | y :: r, 0, f, x, w, j, rest, h, h1, h2, h3, h4, h5 => by
    obtain ⟨f', h6, h7⟩ := firstCodes_exact y r (good_tail h)
    rw [h6] at h1 ⊢
    simp only [List.getElem?_cons_zero, Option.some.injEq] at h1 h2
    subst h1 h2
    have hv : (w / 2 ^ (0 + 1) * 2 + (w.testBit 0).toNat) % 2 ^ 64 = w := by
      rw [Nat.toNat_testBit]
      simp only [Nat.zero_add, Nat.pow_one, Nat.pow_zero, Nat.div_one]
      rw [Nat.div_add_mod' w 2, Nat.mod_eq_of_lt h5]
    rw [codeLoop]
    simp only [writeInt, List.cons_append, List.nil_append, rdBit, hv]
    rw [if_neg (by omega)]
    rfl
  | y :: r, k + 1, f, x, w, j, rest, h, h1, h2, h3, h4, h5 => by
    obtain ⟨f', h6, h7⟩ := firstCodes_exact y r (good_tail h)
    rw [h6] at h1 ⊢
    simp only [List.getElem?_cons_succ] at h1 h2
    have hk : k < r.length := (List.getElem?_eq_some_iff.1 h2).1
    have hv : (w / 2 ^ (k + 1 + 1) * 2 + (w.testBit (k + 1)).toNat) % 2 ^ 64 = w / 2 ^ (k + 1) := by
      rw [Nat.toNat_testBit, Nat.pow_succ 2 (k + 1), ← Nat.div_div_eq_div_mul, Nat.div_add_mod' _ 2, Nat.mod_eq_of_lt]
      exact Nat.lt_of_le_of_lt (Nat.div_le_self _ _) h5
    have hb := codeword_bound r k f x w (good_tail h) h1 h2 h4
    have hlt : w / 2 ^ (k + 1) < f' := by
      rw [Nat.div_lt_iff_lt_mul (Nat.two_pow_pos _)]
      rw [← h7, show r.length = (k + 1) + (r.length - 1 - k) by omega, Nat.pow_add, ← Nat.mul_assoc,
        show k + 1 + (r.length - 1 - k) - 1 - k = r.length - 1 - k by omega] at hb
      have := Nat.le_of_mul_le_mul_right hb (Nat.two_pow_pos _)
      omega
    rw [codeLoop, writeInt]
    simp only [List.cons_append, rdBit, hv]
    rw [if_pos hlt, codeLoop_spec r k f x w (j + 1) rest (good_tail h) h1 h2 h3 h4 h5]
    congr 3
    omega

/-! ## `numl` and the sorted lengths -/

theorem numlLoop_spec {cap : Nat} : ∀ (lens numl : List Nat), (∀ l ∈ lens, 0 < l ∧ l ≤ numl.length) →
    (∀ i x, numl[i]? = some x → x + lens.count (i + 1) < cap) →
    ∃ r, numlLoop cap lens numl = .ok r ∧ r.length = numl.length ∧
      ∀ i x, numl[i]? = some x → r[i]? = some (x + lens.count (i + 1))
  | [], numl, _, _ => ⟨numl, rfl, rfl, fun i x h => by simpa using h⟩
  | len :: lens, numl, h1, h2 => by
    obtain ⟨hl0, hl1⟩ := h1 len (by simp)
    have hi : len - 1 < numl.length := by omega
    have hx := List.getElem?_eq_getElem hi
    have hb := h2 _ _ hx
    rw [show len - 1 + 1 = len by omega, List.count_cons_self] at hb
    obtain ⟨r, hr1, hr2, hr3⟩ := numlLoop_spec (cap := cap) lens (numl.set (len - 1) ((numl[len - 1] + 1) % cap))
      (fun l hl => by simpa using h1 l (by simp [hl])) (by
        intro i x hxi
        rw [List.getElem?_set] at hxi
        by_cases hil : len - 1 = i
        · subst hil
          rw [if_pos rfl, if_pos hi] at hxi
          simp only [Option.some.injEq] at hxi
          rw [show len - 1 + 1 = len by omega]
          have hlt : numl[len - 1] + 1 < cap := by omega
          rw [Nat.mod_eq_of_lt hlt] at hxi
          omega
        · rw [if_neg hil] at hxi
          have := h2 i x hxi
          rwa [List.count_cons_of_ne (by omega)] at this)
    refine ⟨r, ?_, by simpa using hr2, ?_⟩
    · rw [numlLoop, if_neg (by omega), vget_ok hx]
      simp only
      rw [vset_ok hi]
      exact hr1
    · intro i x hxi
      by_cases hil : len - 1 = i
      · subst hil
        rw [hx] at hxi
        simp only [Option.some.injEq] at hxi
        have := hr3 (len - 1) ((numl[len - 1] + 1) % cap) (by rw [List.getElem?_set_self hi])
        rw [this, Nat.mod_eq_of_lt (by omega), show len - 1 + 1 = len by omega, List.count_cons_self, ← hxi]
        congr 1; omega
      · rw [hr3 i x (by rw [List.getElem?_set_ne hil]; exact hxi), List.count_cons_of_ne (by omega)]

theorem mem_orderedLens : ∀ {numl : List Nat} {j a : Nat}, a ∈ orderedLens j numl → j < a ∧ a ≤ j + numl.length
  | [], j, a, h => by simp [orderedLens] at h
  | x :: numl, j, a, h => by
    simp only [orderedLens, List.mem_append, List.mem_replicate] at h
    rcases h with ⟨_, rfl⟩ | h
    · simp only [List.length_cons]; omega
    · have := mem_orderedLens h
      simp only [List.length_cons]; omega

theorem orderedLens_sorted : ∀ (j : Nat) (numl : List Nat), (orderedLens j numl).Pairwise (· ≤ ·)
  | _, [] => by simp [orderedLens]
  | j, x :: numl => by
    rw [orderedLens, List.pairwise_append]
    refine ⟨by rw [List.pairwise_replicate]; simp, orderedLens_sorted (j + 1) numl, ?_⟩
    intro a ha b hb
    have := mem_orderedLens hb
    simp only [List.mem_replicate] at ha
    omega

theorem count_orderedLens : ∀ (numl : List Nat) (j k : Nat), (orderedLens j numl).count (j + 1 + k) = numl.getD k 0
  | [], j, k => by simp [orderedLens]
  | x :: numl, j, 0 => by
    rw [orderedLens, List.count_append]
    have : (orderedLens (j + 1) numl).count (j + 1 + 0) = 0 := by
      rw [List.count_eq_zero]
      intro h
      have := mem_orderedLens h
      omega
    rw [this]
    simp
  | x :: numl, j, k + 1 => by
    rw [orderedLens, List.count_append, show j + 1 + (k + 1) = j + 1 + 1 + k by omega, count_orderedLens numl (j + 1) k]
    have : (List.replicate x (j + 1)).count (j + 1 + 1 + k) = 0 := by
      rw [List.count_eq_zero]
      intro h
      simp only [List.mem_replicate] at h
      omega
    rw [this]
    simp

theorem kraftSum_orderedLens : ∀ (numl : List Nat) (j : Nat),
    ((orderedLens j numl).map fun l => 2 ^ (j + numl.length - l)).sum = kraftSum numl
  | [], j => rfl
  | x :: numl, j => by
    have := kraftSum_orderedLens numl (j + 1)
    rw [orderedLens, List.map_append, List.sum_append, kraftSum, List.length_cons,
      show j + (numl.length + 1) = j + 1 + numl.length by omega, this]
    simp [List.map_replicate, List.sum_replicate_nat]

/-- Sorted lengths are determined by their counts. -/
theorem lens_eq_ordered {lens numl : List Nat} (hs : lens.Pairwise (· ≤ ·)) (hb : ∀ l ∈ lens, 0 < l ∧ l ≤ numl.length)
    (hc : ∀ (i x : Nat), numl[i]? = some x → x = lens.count (i + 1)) : lens = orderedLens 0 numl := by
  refine List.Perm.eq_of_pairwise (le := (· ≤ ·)) (fun a b _ _ => Nat.le_antisymm) hs (orderedLens_sorted 0 numl) ?_
  rw [List.perm_iff_count]
  intro a
  by_cases h : 0 < a ∧ a ≤ numl.length
  · have := count_orderedLens numl 0 (a - 1)
    rw [show 0 + 1 + (a - 1) = a by omega] at this
    have hx := List.getElem?_eq_getElem (show a - 1 < numl.length by omega)
    rw [this, List.getD, hx, Option.getD_some, hc _ _ hx]
    congr 1; omega
  · rw [List.count_eq_zero_of_not_mem (fun hm => h (hb a hm)), List.count_eq_zero_of_not_mem]
    intro hm
    have := mem_orderedLens hm
    omega

/-! ## Codewords -/

theorem codewordLoop_spec : ∀ (lens first : List Nat), (∀ l ∈ lens, 0 < l ∧ l ≤ first.length) →
    ∃ cs, codewordLoop lens first = .ok cs ∧ cs.length = lens.length ∧
      ∀ e l f : Nat, lens[e]? = some l → first[l - 1]? = some f → cs[e]? = some (f + (lens.take e).count l)
  | [], first, _ => ⟨[], rfl, rfl, by simp⟩
  | len :: lens, first, h1 => by
    obtain ⟨hl0, hl1⟩ := h1 len (by simp)
    have hi : len - 1 < first.length := by omega
    have hx := List.getElem?_eq_getElem hi
    obtain ⟨cs, hc1, hc2, hc3⟩ := codewordLoop_spec lens (first.set (len - 1) (first[len - 1] + 1))
      (fun l hl => by simpa using h1 l (by simp [hl]))
    refine ⟨first[len - 1] :: cs, ?_, by simp [hc2], ?_⟩
    · rw [codewordLoop, if_neg (by omega), vget_ok hx]
      simp only
      rw [vset_ok hi]
      simp only
      rw [hc1]
    · intro e l f he hf
      cases e with
      | zero =>
        simp only [List.getElem?_cons_zero, Option.some.injEq] at he
        subst he
        rw [hx] at hf
        simpa using hf
      | succ e =>
        simp only [List.getElem?_cons_succ] at he ⊢
        have hl := h1 l (by simp [List.mem_of_getElem? he])
        rw [List.take_succ_cons]
        by_cases hll : l = len
        · subst hll
          rw [hx] at hf
          simp only [Option.some.injEq] at hf
          rw [hc3 e l (first[l - 1] + 1) he (by rw [List.getElem?_set_self hi]), List.count_cons_self, ← hf]
          congr 1; omega
        · rw [hc3 e l f he (by rw [List.getElem?_set_ne (by omega)]; exact hf), List.count_cons_of_ne (by omega)]

theorem prefixLoop_spec : ∀ (lens : List Nat) (prev i : Nat) (ps : List Nat), lens.Pairwise (· ≤ ·) →
    (∀ l ∈ lens, prev ≤ l ∧ 0 < l ∧ l ≤ ps.length) →
    ∃ r, prefixLoop lens prev i ps = .ok r ∧ r.length = ps.length ∧
      (∀ l ∈ lens, prev < l → r[l - 1]? = some (i + lens.countP (· < l))) ∧
      (∀ q, q + 1 ≤ prev → r[q]? = ps[q]?)
  | [], prev, i, ps, _, _ => ⟨ps, rfl, rfl, by simp, fun _ _ => rfl⟩
  | len :: lens, prev, i, ps, hs, hb => by
    rw [List.pairwise_cons] at hs
    obtain ⟨hp, h0, hl⟩ := hb len (by simp)
    by_cases hlt : prev < len
    · obtain ⟨r, h1, h2, h3, h4⟩ := prefixLoop_spec lens len (i + 1) (ps.set (len - 1) i) hs.2
        (fun l hl => ⟨hs.1 l hl, by have := hb l (by simp [hl]); simpa using this.2⟩)
      refine ⟨r, ?_, by simpa using h2, ?_, ?_⟩
      · rw [prefixLoop, if_pos hlt, vset_ok (by omega)]
        exact h1
      · intro l hlm hpl
        by_cases hll : l = len
        · subst hll
          rw [h4 (l - 1) (by omega), List.getElem?_set_self (by omega), List.countP_eq_zero.2, Nat.add_zero]
          intro a ha
          rcases List.mem_cons.1 ha with rfl | ha
          · simp
          · have := hs.1 a ha
            simpa using this
        · have hlm' : l ∈ lens := by simpa [hll] using hlm
          have := hs.1 l hlm'
          rw [h3 l hlm' (by omega), List.countP_cons_of_pos (by simp; omega)]
          congr 1; omega
      · intro q hq
        rw [h4 q (by omega), List.getElem?_set_ne (by omega)]
    · have hpe : prev = len := by omega
      subst hpe
      obtain ⟨r, h1, h2, h3, h4⟩ := prefixLoop_spec lens prev (i + 1) ps hs.2 (fun l hl => hb l (by simp [hl]))
      refine ⟨r, by rw [prefixLoop, if_neg hlt]; exact h1, h2, ?_, h4⟩
      intro l hlm hpl
      have hlm' : l ∈ lens := by
        rcases List.mem_cons.1 hlm with rfl | h
        · omega
        · exact h
      rw [h3 l hlm' hpl, List.countP_cons_of_pos (by simpa using hpl)]
      congr 1; omega

theorem prefixSums_spec {lens : List Nat} {longest : Nat} (hne : lens ≠ []) (hs : lens.Pairwise (· ≤ ·))
    (hb : ∀ l ∈ lens, 0 < l ∧ l ≤ longest) :
    ∃ r, prefixSums lens longest = .ok r ∧ ∀ l ∈ lens, r[l - 1]? = some (lens.countP (· < l)) := by
  cases lens with
  | nil => exact absurd rfl hne
  | cons len lens =>
    rw [List.pairwise_cons] at hs
    obtain ⟨h0, hl⟩ := hb len (by simp)
    obtain ⟨r, h1, h2, h3, h4⟩ := prefixLoop_spec lens len 1 ((List.replicate longest (2 ^ 64 - 1)).set (len - 1) 0) hs.2
      (fun l hl => ⟨hs.1 l hl, by have := hb l (by simp [hl]); simpa using this⟩)
    refine ⟨r, ?_, ?_⟩
    · rw [prefixSums]
      rw [if_neg (by omega), vset_ok (by simp; omega)]
      exact h1
    · intro l hlm
      by_cases hll : l = len
      · subst hll
        rw [h4 (l - 1) (by omega), List.getElem?_set_self (by simp; omega), List.countP_eq_zero.2]
        intro a ha
        rcases List.mem_cons.1 ha with rfl | ha
        · simp
        · have := hs.1 a ha
          simpa using this
      · have hlm' : l ∈ lens := by simpa [hll] using hlm
        have := hs.1 l hlm'
        rw [h3 l hlm' (by omega), List.countP_cons_of_pos (by simp; omega)]
        congr 1; omega

/-- In a sorted list, the position is the number of smaller elements plus the number of equal ones before. -/
theorem sorted_pos : ∀ (lens : List Nat) (e l : Nat), lens.Pairwise (· ≤ ·) → lens[e]? = some l →
    lens.countP (· < l) + (lens.take e).count l = e
  | [], e, l, _, h => by simp at h
  | x :: lens, 0, l, hs, h => by
    simp only [List.getElem?_cons_zero, Option.some.injEq] at h
    subst h
    rw [List.pairwise_cons] at hs
    simp only [List.take_zero, List.count_nil, Nat.add_zero, List.countP_eq_zero]
    intro a ha
    rcases List.mem_cons.1 ha with rfl | ha
    · simp
    · have := hs.1 a ha
      simpa using this
  | x :: lens, e + 1, l, hs, h => by
    rw [List.pairwise_cons] at hs
    simp only [List.getElem?_cons_succ] at h
    have ih := sorted_pos lens e l hs.2 h
    have hle := hs.1 l (List.mem_of_getElem? h)
    rw [List.take_succ_cons]
    by_cases hx : x = l
    · subst hx
      rw [List.countP_cons_of_neg (by simp), List.count_cons_self]
      omega
    · rw [List.countP_cons_of_pos (by simp; omega), List.count_cons_of_ne hx]
      omega

theorem count_take_lt : ∀ (lens : List Nat) (e l : Nat), lens[e]? = some l → (lens.take e).count l < lens.count l
  | [], e, l, h => by simp at h
  | x :: lens, 0, l, h => by
    simp only [List.getElem?_cons_zero, Option.some.injEq] at h
    subst h
    simp
  | x :: lens, e + 1, l, h => by
    simp only [List.getElem?_cons_succ] at h
    have ih := count_take_lt lens e l h
    rw [List.take_succ_cons, List.count_cons, List.count_cons]
    omega

/-! ## The table -/

theorem gather_spec {v : List Nat} : ∀ {is : List Nat}, (∀ i ∈ is, i < v.length) → gather v is = .ok (is.map (look v))
  | [], _ => rfl
  | i :: is, h => by
    have hi := h i (by simp)
    rw [gather, vget_ok (List.getElem?_eq_getElem hi)]
    simp only
    rw [gather_spec (fun j hj => h j (by simp [hj]))]
    simp [look, List.getElem?_eq_getElem hi]

theorem map_look_range (v : List Nat) : (List.range v.length).map (look v) = v := by
  apply List.ext_getElem (by simp)
  intro i h1 h2
  simp [look, List.getElem?_eq_getElem h2]

theorem foldl_max_spec : ∀ (l : List Nat) (a : Nat), a ≤ l.foldl max a ∧ (∀ x ∈ l, x ≤ l.foldl max a) ∧
    (l.foldl max a = a ∨ l.foldl max a ∈ l)
  | [], a => by simp
  | x :: l, a => by
    obtain ⟨h1, h2, h3⟩ := foldl_max_spec l (max a x)
    have ha : a ≤ max a x := Nat.le_max_left _ _
    have hx : x ≤ max a x := Nat.le_max_right _ _
    simp only [List.foldl_cons]
    refine ⟨by omega, ?_, ?_⟩
    · intro y hy
      rcases List.mem_cons.1 hy with rfl | hy
      · omega
      · exact h2 y hy
    · rcases h3 with h3 | h3
      · rcases Nat.le_total a x with h | h
        · right; rw [h3, Nat.max_eq_right h]; simp
        · left; rw [h3, Nat.max_eq_left h]
      · right; exact List.mem_cons_of_mem _ h3

/-- What the encoder and the decoder rely on. -/
structure GoodTable (B : Nat) (t : Table) : Prop where
  chars_len : t.chars.length = t.lens.length
  two : 2 ≤ t.lens.length
  small : t.lens.length ≤ B
  sorted : t.lens.Pairwise (· ≤ ·)
  bound : ∀ l ∈ t.lens, 0 < l ∧ l ≤ t.numl.length
  ordered : t.lens = orderedLens 0 t.numl
  longest : t.longest = t.numl.length
  le64 : t.numl.length ≤ 64
  num : ∀ (i x : Nat), t.numl[i]? = some x → x = t.lens.count (i + 1)
  kraft : kraftSum t.numl = 2 ^ t.numl.length
  code : codewordLoop t.lens (firstCodes t.numl) = .ok t.codewords

theorem canonTable_spec (std : StdLib) {cap B : Nat} {alpha freqs cl : List Nat} {T : HT} (h2 : 2 ≤ alpha.length) (hB : alpha.length ≤ B) (hcap : B < cap) (hsum : freqs.sum < 2 ^ 44)
    (hlen : cl.length = alpha.length) (hfib : Nat.fib (T.height + 2) ≤ freqs.sum) (hperm : cl.Perm ((T.leafDepths 0).map Prod.snd)) (hcpos : ∀ e ∈ cl, 0 < e)
    (hatt : ∃ e ∈ cl, e = T.height) : ∃ t, canonTable std cap alpha cl = .ok t ∧ GoodTable B t ∧ t.chars.Perm alpha ∧ (t.chars.zip t.lens).Perm (alpha.zip cl) := by
  obtain ⟨order, ho⟩ : ∃ order, order = std.sort (look cl) (List.range alpha.length) := ⟨_, rfl⟩
  have hop : order.Perm (List.range alpha.length) := ho ▸ std.sort_perm _ _
  have hos : order.Pairwise fun a b => look cl a ≤ look cl b := ho ▸ std.sort_sorted _ _
  have hmem : ∀ i ∈ order, i < alpha.length := fun i hi => List.mem_range.1 (hop.mem_iff.1 hi)
  obtain ⟨lens, hlens⟩ : ∃ lens, lens = order.map (look cl) := ⟨_, rfl⟩
  obtain ⟨chars, hchars⟩ : ∃ chars, chars = order.map (look alpha) := ⟨_, rfl⟩
  have hlp : lens.Perm cl := by
    rw [hlens]
    refine (hop.map _).trans (List.Perm.of_eq ?_)
    rw [← hlen, map_look_range]
  have hcp : chars.Perm alpha := by
    rw [hchars]
    refine (hop.map _).trans (List.Perm.of_eq ?_)
    rw [map_look_range]
  have hsorted : lens.Pairwise (· ≤ ·) := by rw [hlens, List.pairwise_map]; exact hos
  obtain ⟨L, hL⟩ : ∃ L, L = cl.foldl max 0 := ⟨_, rfl⟩
  obtain ⟨-, hmax, hmaxm⟩ := foldl_max_spec cl 0
  rw [← hL] at hmax hmaxm
  have hLT : L = T.height := by
    obtain ⟨e, he, he'⟩ := hatt
    have h1 : T.height ≤ L := he' ▸ hmax e he
    refine Nat.le_antisymm ?_ h1
    rcases hmaxm with h | h
    · omega
    · obtain ⟨p, hp, hp'⟩ := List.mem_map.1 (hperm.mem_iff.1 h)
      have := HT.depth_bounds hp
      omega
  have hL64 : L ≤ 64 := by
    rw [hLT]
    by_contra hge
    have h1 : Nat.fib 66 ≤ Nat.fib (T.height + 2) := Nat.fib_mono (by omega)
    have h2 : 2 ^ 44 ≤ Nat.fib 66 := by decide
    omega
  have hbound : ∀ l ∈ lens, 0 < l ∧ l ≤ L := fun l hl =>
    ⟨hcpos l (hlp.mem_iff.1 hl), hmax l (hlp.mem_iff.1 hl)⟩
  have hll : lens.length = alpha.length := by rw [hlp.length_eq, hlen]
  obtain ⟨numl, hn1, hn2, hn3⟩ := numlLoop_spec (cap := cap) lens (List.replicate L 0) (by simpa using hbound) (by
    intro i x hx
    have hx0 : x = 0 := by
      rw [List.getElem?_replicate] at hx
      split at hx
      · simpa using hx.symm
      · simp at hx
    have := List.count_le_length (l := lens) (a := i + 1)
    omega)
  rw [List.length_replicate] at hn2
  have hnum : ∀ (i x : Nat), numl[i]? = some x → x = lens.count (i + 1) := by
    intro i x hx
    have hi : i < L := by rw [← hn2]; exact (List.getElem?_eq_some_iff.1 hx).1
    have := hn3 i 0 (by rw [List.getElem?_replicate, if_pos hi])
    rw [hx] at this
    simpa using this
  have hbound' : ∀ l ∈ lens, 0 < l ∧ l ≤ numl.length := by rw [hn2]; exact hbound
  have hord := lens_eq_ordered hsorted hbound' hnum
  have hkraft : kraftSum numl = 2 ^ numl.length := by
    have h1 := kraftSum_orderedLens numl 0
    rw [← hord] at h1
    rw [← h1, ((hlp.trans hperm).map _).sum_eq, List.map_map]
    have h3 := HT.kraft numl.length 0 T (by omega)
    simp only [Nat.sub_zero, Nat.zero_add] at h3 ⊢
    exact h3
  obtain ⟨cs, hcs, hcsl, -⟩ := codewordLoop_spec lens (firstCodes numl) (by rw [firstCodes_length]; exact hbound')
  refine ⟨⟨chars, numl, L, cs, lens⟩, ?_, ⟨?_, by show 2 ≤ lens.length; omega, by show lens.length ≤ B; omega, hsorted, hbound', hord, hn2.symm, by show numl.length ≤ 64; omega, hnum, hkraft, hcs⟩, hcp, ?_⟩
  · unfold canonTable
    simp only
    rw [← ho, gather_spec (by rw [hlen]; exact hmem), gather_spec hmem]
    simp only
    rw [← hlens, ← hchars, ← hL, genNuml, hn1]
    simp only
    rw [hcs]
  · show chars.length = lens.length
    rw [hcp.length_eq, hll]
  · show (chars.zip lens).Perm (alpha.zip cl)
    have e1 : chars.zip lens = order.map fun i => (look alpha i, look cl i) := by rw [hchars, hlens, List.zip_map']
    have e2 : alpha.zip cl = (List.range alpha.length).map fun i => (look alpha i, look cl i) := by
      rw [← List.zip_map', map_look_range, ← hlen, map_look_range]
    rw [e1, e2]
    exact hop.map _

theorem genTable_spec (std : StdLib) (C : Nat → Nat) (h2 : 2 ≤ (effectiveAlphabet C).length)
    (h255 : (effectiveAlphabet C).length ≤ 255) (hsum : ((effectiveAlphabet C).map C).sum < 2 ^ 32) :
    ∃ t, genTable std C = .ok t ∧ GoodTable 255 t ∧ t.chars.Perm (effectiveAlphabet C) := by
  obtain ⟨alpha, ha⟩ : ∃ alpha, alpha = effectiveAlphabet C := ⟨_, rfl⟩
  have hpos : ∀ f ∈ alpha.map C, 0 < f := by
    intro f hf
    obtain ⟨a, h, rfl⟩ := List.mem_map.1 hf
    rw [ha, effectiveAlphabet, List.mem_filter] at h
    have := h.2
    simp only [ne_eq, decide_not, Bool.not_eq_eq_eq_not, Bool.not_true, decide_eq_false_iff_not] at this
    omega
  rw [← ha] at h2 h255 hsum ⊢
  obtain ⟨T, cl, hg, hlen, hleaves, -, hfib, hperm, hcpos, hatt, -, -⟩ :=
    genCodelengths_spec std (alpha.map C) (by simpa using h2) hpos (by omega)
  rw [List.length_map] at hlen
  obtain ⟨t, e1, e2, e3, -⟩ := canonTable_spec std (cap := 256) (B := 255) (alpha := alpha) h2 h255 (by omega) (by omega) hlen hfib hperm hcpos hatt
  refine ⟨t, ?_, e2, e3⟩
  unfold genTable
  simp only
  rw [← ha, hg]
  exact e1

/-! ## Header -/

theorem rdMany_spec (f : List Bool → Res (Nat × List Bool)) (g : Nat → List Bool) :
    ∀ (xs : List Nat) (rest : List Bool), (∀ x ∈ xs, ∀ r, f (g x ++ r) = .ok (x, r)) →
      rdMany f xs.length (xs.flatMap g ++ rest) = .ok (xs, rest)
  | [], rest, _ => rfl
  | x :: xs, rest, h => by
    rw [List.length_cons, rdMany, List.flatMap_cons, List.append_assoc, h x (by simp)]
    simp only
    rw [rdMany_spec f g xs rest (fun y hy => h y (by simp [hy]))]

theorem rdCInt8_spec (v : Nat) (hv : v < 256) (rest : List Bool) : rdCInt8 (writeCInt v 7 ++ rest) = .ok (v, rest) := by
  rw [rdCInt8, rdCInt_writeCInt v 7 rest (by omega) (by omega) (by omega)]
  simp only [Nat.mod_eq_of_lt hv]

theorem tableDecode_spec (t : Table) (h : GoodTable 255 t) (hc : ∀ c ∈ t.chars, c < 256) (rest : List Bool) :
    tableDecode (tableEncode t ++ rest) = .ok ((t.numl, t.chars), rest) := by
  have h64 := h.le64
  have hcl := h.chars_len
  have hsm := h.small
  rw [tableDecode, tableEncode]
  simp only [List.append_assoc]
  rw [rdCInt8_spec _ (by rw [h.longest]; omega)]
  simp only
  rw [h.longest, rdMany_spec rdCInt8 (fun x => writeCInt x 7) t.numl _ (by
    intro x hx r
    apply rdCInt8_spec
    obtain ⟨i, hi⟩ := List.getElem?_of_mem hx
    rw [h.num i x hi]
    have := List.count_le_length (l := t.lens) (a := i + 1)
    omega)]
  simp only
  rw [rdCInt_writeCInt _ 7 _ (by omega) (by omega) (by omega)]
  simp only
  rw [rdMany_spec (fun bs => .ok (rdInt 8 8 bs)) (fun c => writeInt c 8) t.chars rest (by
    intro x hx r
    rw [rdInt8 x (hc x hx) r])]

/-- The decoder's constructor on a table. -/
theorem decoder_spec (t : Table) (h : GoodTable 255 t) (hc : ∀ c ∈ t.chars, c < 256) :
    ∃ ps, (∀ l ∈ t.lens, ps[l - 1]? = some (t.lens.countP (· < l))) ∧
      ∀ rest, decoder (true :: tableEncode t ++ rest) = .ok (some (t.chars, ps, firstCodes t.numl), rest) := by
  have hne : t.lens ≠ [] := by
    intro he
    have := h.two
    rw [he] at this
    simp at this
  obtain ⟨ps, h1, h2⟩ := prefixSums_spec hne h.sorted h.bound
  refine ⟨ps, h2, fun rest => ?_⟩
  rw [decoder]
  simp only [List.cons_append, rdBit]
  simp only [Bool.true_eq_false, if_false]
  rw [tableDecode_spec t h hc rest]
  simp only
  rw [← h.ordered, if_neg (by simp [h.chars_len]), h1]

/-! ## Single literals -/

theorem mapLoop_spec : ∀ (cs : List Nat) (i : Nat) (m : Nat → Option Nat), cs.Nodup → (∀ c ∈ cs, c < 255) →
    i + cs.length ≤ 256 →
    ∃ m', mapLoop cs i m = .ok m' ∧ (∀ e c, cs[e]? = some c → m' c = some (i + e)) ∧ (∀ c, c ∉ cs → m' c = m c)
  | [], i, m, _, _, _ => ⟨m, rfl, by simp, fun _ _ => rfl⟩
  | c :: cs, i, m, hnd, hb, hl => by
    rw [List.nodup_cons] at hnd
    simp only [List.length_cons] at hl
    obtain ⟨m', h1, h2, h3⟩ := mapLoop_spec cs (i + 1) (fun j => if j = c then some (i % 256) else m j) hnd.2
      (fun d hd => hb d (by simp [hd])) (by omega)
    refine ⟨m', by rw [mapLoop, if_pos (hb c (by simp))]; exact h1, ?_, ?_⟩
    · intro e d hed
      cases e with
      | zero =>
        simp only [List.getElem?_cons_zero, Option.some.injEq] at hed
        subst hed
        rw [h3 c hnd.1]
        simp only [if_true, Nat.add_zero]
        rw [Nat.mod_eq_of_lt (by omega)]
      | succ e =>
        simp only [List.getElem?_cons_succ] at hed
        rw [h2 e d hed]
        congr 1; omega
    · intro d hd
      simp only [List.mem_cons, not_or] at hd
      rw [h3 d hd.2, if_neg hd.1]

/-- A single codeword comes back, whatever follows. -/
theorem codeword_spec {B : Nat} (t : Table) (h : GoodTable B t) (hB : B < 2 ^ 64) (ps : List Nat) (e c : Nat) (hc : t.chars[e]? = some c)
    (hps : ∀ l ∈ t.lens, ps[l - 1]? = some (t.lens.countP (· < l))) :
    ∃ w l, t.codewords[e]? = some w ∧ t.lens[e]? = some l ∧ 0 < l ∧ ∀ rest, decodeLit t.chars ps (firstCodes t.numl) (writeInt w l ++ rest) = .ok (c, rest) := by
  have he : e < t.lens.length := by rw [← h.chars_len]; exact (List.getElem?_eq_some_iff.1 hc).1
  obtain ⟨l, hl⟩ : ∃ l, t.lens[e]? = some l := ⟨_, List.getElem?_eq_getElem he⟩
  obtain ⟨hl0, hlL⟩ := h.bound l (List.mem_of_getElem? hl)
  obtain ⟨cs, hcs, hcsl, hcode⟩ := codewordLoop_spec t.lens (firstCodes t.numl) (by rw [firstCodes_length]; exact h.bound)
  rw [h.code] at hcs
  have hcs' : t.codewords = cs := by injection hcs
  subst hcs'
  obtain ⟨f, hf⟩ : ∃ f, (firstCodes t.numl)[l - 1]? = some f :=
    ⟨_, List.getElem?_eq_getElem (by rw [firstCodes_length]; omega)⟩
  obtain ⟨x, hx⟩ : ∃ x, t.numl[l - 1]? = some x := ⟨_, List.getElem?_eq_getElem (by omega)⟩
  have hxc := h.num _ _ hx
  rw [show l - 1 + 1 = l by omega] at hxc
  have hcw := hcode e l f hl hf
  obtain ⟨k, hk⟩ : ∃ k, k = (t.lens.take e).count l := ⟨_, rfl⟩
  have hkx : k < x := by rw [hk, hxc]; exact count_take_lt _ _ _ hl
  rw [← hk] at hcw
  have hgood : 2 ^ t.numl.length ∣ kraftSum t.numl := by rw [h.kraft]
  have hb := codeword_bound t.numl (l - 1) f x (f + k) hgood hf hx (by omega)
  have h64 := h.le64
  have hlt : f + k < 2 ^ 64 := by
    rw [h.kraft] at hb
    have h1 : 2 ^ t.numl.length ≤ 2 ^ 64 := Nat.pow_le_pow_right (by omega) h64
    have h2 : f + k + 1 ≤ (f + k + 1) * 2 ^ (t.numl.length - 1 - (l - 1)) := Nat.le_mul_of_pos_right _ (Nat.two_pow_pos _)
    omega
  have hw : f + k < 2 ^ l := by
    rw [h.kraft, show t.numl.length = l + (t.numl.length - 1 - (l - 1)) by omega, Nat.pow_add,
      show l + (t.numl.length - 1 - (l - 1)) - 1 - (l - 1) = t.numl.length - 1 - (l - 1) by omega] at hb
    have := Nat.le_of_mul_le_mul_right hb (Nat.two_pow_pos _)
    omega
  refine ⟨f + k, l, hcw, hl, hl0, ?_⟩
  · intro rest
    have hdec := codeLoop_spec t.numl (l - 1) f x (f + k) 0 rest hgood hf hx (by omega) (by omega) hlt
    rw [show l - 1 + 1 = l by omega, Nat.div_eq_of_lt hw, Nat.zero_add] at hdec
    rw [decodeLit, hdec]
    simp only
    have hpsl := hps l (List.mem_of_getElem? hl)
    rw [vget_ok hpsl, vget_ok hf]
    simp only
    have hpos := sorted_pos t.lens e l h.sorted hl
    rw [← hk] at hpos
    have hsm := h.small
    rw [show t.lens.countP (· < l) + (f + k - f) = e by omega, Nat.mod_eq_of_lt (by omega), vget_ok hc]

/-- A single literal comes back, whatever follows, and occupies at least one bit. -/
theorem literal_spec (t : Table) (h : GoodTable 255 t) (m : Nat → Option Nat) (ps : List Nat) (e c : Nat)
    (hc : t.chars[e]? = some c) (hc255 : c < 255) (hm : m c = some e)
    (hps : ∀ l ∈ t.lens, ps[l - 1]? = some (t.lens.countP (· < l))) :
    ∃ bits, encodeLit t m c = .ok bits ∧ bits ≠ [] ∧
      ∀ rest, decodeLit t.chars ps (firstCodes t.numl) (bits ++ rest) = .ok (c, rest) := by
  obtain ⟨w, l, h1, h2, h3, h4⟩ := codeword_spec t h (by omega) ps e c hc hps
  refine ⟨writeInt w l, ?_, writeInt_ne_nil _ _ h3, h4⟩
  rw [encodeLit, if_neg (by omega), hm]
  simp only
  rw [vget_ok h1, vget_ok h2]

/-! ## Counting -/

theorem countAlphabet_spec : ∀ (ls : List UInt8) (C : Nat → Nat), (∀ j, C j + ls.length < 2 ^ 32) →
    ∀ j, countAlphabet ls C j = C j + (ls.map UInt8.toNat).count j
  | [], C, _, j => by simp [countAlphabet]
  | c :: ls, C, h, j => by
    have h' : ∀ j, C j + (ls.length + 1) < 2 ^ 32 := h
    rw [countAlphabet, countAlphabet_spec ls _ (by
      intro j
      have := h' j
      by_cases hj : j = c.toNat
      · simp only [if_pos hj]; omega
      · simp only [if_neg hj]; omega)]
    have hb := h' j
    rw [List.map_cons, List.count_cons]
    by_cases hj : j = c.toNat
    · subst hj
      simp only [if_true, beq_self_eq_true]
      rw [Nat.mod_eq_of_lt (by omega)]
      omega
    · simp only [if_neg hj]
      rw [if_neg (by simpa using fun h => hj h.symm)]
      omega

theorem mem_effectiveAlphabet {C : Nat → Nat} {a : Nat} : a ∈ effectiveAlphabet C ↔ a < 256 ∧ C a ≠ 0 := by
  simp [effectiveAlphabet]

theorem effectiveAlphabet_nodup (C : Nat → Nat) : (effectiveAlphabet C).Nodup :=
  List.nodup_range.sublist List.filter_sublist

theorem sum_counts_le : ∀ (l ks : List Nat), ks.Nodup → (ks.map fun k => l.count k).sum ≤ l.length
  | [], ks, _ => by simp
  | x :: l, ks, h => by
    have ih := sum_counts_le l ks h
    have : (ks.map fun k => (x :: l).count k).sum = (ks.map fun k => l.count k).sum + ks.count x := by
      clear ih h
      induction ks with
      | nil => rfl
      | cons k ks ih =>
        simp only [List.map_cons, List.sum_cons, ih]
        by_cases hk : x = k
        · subst hk; rw [List.count_cons_self, List.count_cons_self]; omega
        · rw [List.count_cons_of_ne hk, List.count_cons_of_ne (Ne.symm hk)]; omega
    rw [this, List.length_cons]
    have h1 : ks.count x ≤ 1 := List.nodup_iff_count_le_one.1 h x
    omega

end Tdc.Huff
