import Verif.Lemmas.EspBlocks
import Mathlib.Data.List.Chain

/-!
# ESP: meta blocks and adjustment of the blocks
-/

namespace Tdc
namespace Esp

theorem total_nil : total [] = 0 := rfl
theorem total_cons (b : Blk) (l : List Blk) : total (b :: l) = b.len + total l := rfl
theorem total_append (a b : List Blk) : total (a ++ b) = total a + total b := by simp [total]

theorem mb13_ok (t : Nat) (ht : t < 256) : ∀ n, total (mb13 t n) = n ∧ (∀ b ∈ mb13 t n, 1 ≤ b.len ∧ b.len ≤ 3 ∧ b.type = t) ∧
    (0 < n → mb13 t n ≠ [])
  | 0 => by simp [mb13, total]
  | 1 => by simp [mb13, total, blk, Nat.mod_eq_of_lt ht]
  | 2 => by simp [mb13, total, blk, Nat.mod_eq_of_lt ht]
  | 3 => by simp [mb13, total, blk, Nat.mod_eq_of_lt ht]
  | 4 => by simp [mb13, total, blk, Nat.mod_eq_of_lt ht]
  | n + 5 => by
    obtain ⟨h1, h2, _⟩ := mb13_ok t ht (n + 2)
    refine ⟨?_, ?_, by simp [mb13]⟩
    · rw [mb13, total_cons, h1]; simp [blk]; omega
    · intro b hb
      rw [mb13] at hb
      rcases List.mem_cons.1 hb with rfl | hb
      · simp [blk, Nat.mod_eq_of_lt ht]
      · exact h2 b hb

/-- the order of types `adjust_blocks` can deal with: a block of type 2 is not followed by one of type 3 -/
def Okay (a b : Blk) : Prop := ¬ (a.type = 2 ∧ b.type = 3)

theorem chain_append {l₁ l₂ : List Blk} (h1 : l₁.IsChain Okay) (h2 : l₂.IsChain Okay)
    (h : ∀ a ∈ l₁, ∀ b ∈ l₂, Okay a b) : (l₁ ++ l₂).IsChain Okay := by
  rw [List.isChain_append]
  exact ⟨h1, h2, fun a ha b hb => h a (List.mem_of_mem_getLast? ha) b (List.mem_of_mem_head? hb)⟩

theorem chain_same {t : Nat} : ∀ {l : List Blk}, (∀ b ∈ l, b.type = t) → l.IsChain Okay
  | [], _ => List.IsChain.nil
  | [_], _ => List.IsChain.singleton _
  | a :: b :: l, h => List.isChain_cons_cons.2 ⟨fun hh => by have := h a (by simp); have := h b (by simp); omega,
      chain_same (fun c hc => h c (List.mem_cons_of_mem _ hc))⟩

theorem mb2_ok {alphabet : Nat} (ha : alphabet ≤ 2 ^ 32) {src : List Nat} (hs : src ≠ []) (hd : Diff src) (hb : ∀ x ∈ src, x < alphabet) :
    ∃ r, mb2 alphabet src = .ok r ∧ total r = src.length ∧ (∀ b ∈ r, 1 ≤ b.len ∧ b.len ≤ 3 ∧ (b.type = 2 ∨ b.type = 3)) ∧ r.IsChain Okay := by
  unfold mb2
  by_cases hk : min (iterLog alphabet) src.length = src.length
  · rw [hk]
    obtain ⟨h1, h2, _⟩ := mb13_ok 3 (by omega) src.length
    exact ⟨_, if_pos rfl, h1, fun b hb => ⟨(h2 b hb).1, (h2 b hb).2.1, Or.inr (h2 b hb).2.2⟩, chain_same fun b hb => (h2 b hb).2.2⟩
  · have hlt : iterLog alphabet < src.length := by omega
    have hmin : min (iterLog alphabet) src.length = iterLog alphabet := by omega
    rw [hmin]
    obtain ⟨buf, b1, b2, b3, b4⟩ := labelPasses_ok alphabet ha hlt hd hb
    obtain ⟨c1, c2, c3⟩ := reduce_ok b3 b4
    have hne : reduce buf ≠ [] := by
      intro h; rw [h] at c1; simp at c1; omega
    obtain ⟨d1, d2, d3⟩ := landmarks_marks hne c2 c3
    obtain ⟨e1, e2⟩ := spanBlocks_ok d1 d2 d3
    obtain ⟨h1, h2, _⟩ := mb13_ok 3 (by omega) (iterLog alphabet)
    refine ⟨mb13 3 (iterLog alphabet) ++ spanBlocks (landmarks (reduce buf)), by simp only [if_neg (show ¬ iterLog alphabet = src.length by omega), b1, Except.bind], ?_, ?_, ?_⟩
    · rw [total_append, h1, e1, landmarks_length, c1]; omega
    · intro b hb
      rcases List.mem_append.1 hb with hb | hb
      · exact ⟨(h2 b hb).1, (h2 b hb).2.1, Or.inr (h2 b hb).2.2⟩
      · exact ⟨(e2 b hb).1, (e2 b hb).2.1, Or.inl (e2 b hb).2.2⟩
    · apply chain_append (chain_same fun b hb => (h2 b hb).2.2) (chain_same fun b hb => (e2 b hb).2.2)
      intro a ha b hb h
      have := (h2 a ha).2.2
      omega

theorem splitWhere_le (f : Nat → Nat → Bool) (mx : Bool) : ∀ l, splitWhere f mx l ≤ l.length
  | [] => by simp [splitWhere]
  | [_] => by simp [splitWhere]
  | x :: y :: l => by
    have := splitWhere_le f mx (y :: l)
    rw [splitWhere]
    simp only [List.length_cons] at *
    split
    · split <;> omega
    · omega

theorem splitWhere_diff : ∀ (l : List Nat), Diff (l.take (splitWhere (fun a b => decide (a ≠ b)) false l)) ∧
    (splitWhere (fun a b => decide (a ≠ b)) false l < l.length → ∃ x r, l.drop (splitWhere (fun a b => decide (a ≠ b)) false l) = x :: x :: r)
  | [] => by simp [splitWhere, Diff]
  | [_] => by simp [splitWhere, Diff]
  | x :: y :: l => by
    obtain ⟨h1, h2⟩ := splitWhere_diff (y :: l)
    rw [splitWhere]
    by_cases h : x = y
    · subst h
      simp [Diff]
    · have hxy : x ≠ y := h
      simp only [h, ne_eq, not_false_eq_true, decide_true, Bool.not_true, Bool.false_eq_true, if_false] at h1 h2 ⊢
      refine ⟨?_, ?_⟩
      · rw [List.take_succ_cons]
        rcases hk : splitWhere (fun a b => decide ¬a = b) false (y :: l) with _ | k
        · simp [Diff]
        · rw [hk] at h1
          rw [List.take_succ_cons] at h1 ⊢
          exact List.isChain_cons_cons.2 ⟨hxy, h1⟩
      · intro hlt
        rw [List.drop_succ_cons]
        exact h2 (by simp only [List.length_cons] at *; omega)

theorem splitWhere_rep (x : Nat) (r : List Nat) : 2 ≤ splitWhere (fun a b => decide (a = b)) true (x :: x :: r) := by
  rw [splitWhere]
  simp only [decide_true, Bool.not_true, Bool.false_eq_true, if_false]
  rcases r with _ | ⟨y, r⟩
  · simp [splitWhere]
  · rw [splitWhere]; split
    · simp
    · omega

theorem split_ok {alphabet : Nat} (ha : alphabet ≤ 2 ^ 32) : ∀ (fuel : Nat) (src : List Nat), src.length < fuel → (∀ x ∈ src, x < alphabet) →
    ∃ r, split alphabet fuel src = .ok r ∧ total r = src.length ∧ (∀ b ∈ r, 1 ≤ b.len ∧ b.len ≤ 3 ∧ 1 ≤ b.type ∧ b.type ≤ 3) ∧ r.IsChain Okay
  | 0, _, h, _ => absurd h (by omega)
  | fuel + 1, src, hf, hb => by
    rw [split]
    by_cases h0 : src.length = 0
    · exact ⟨[], if_pos h0, by simp [total, h0], by simp, List.IsChain.nil⟩
    rw [if_neg h0]
    obtain ⟨s1, s2⟩ := splitWhere_diff src
    generalize hj : splitWhere (fun a b => decide (a ≠ b)) false src = j at *
    have hjle : j ≤ src.length := by rw [← hj]; exact splitWhere_le _ _ _
    -- the non-repeating part
    have hm2 : ∃ m2, (if j ≠ 0 then mb2 alphabet (src.take j) else .ok []) = .ok m2 ∧ total m2 = j ∧
        (∀ b ∈ m2, 1 ≤ b.len ∧ b.len ≤ 3 ∧ (b.type = 2 ∨ b.type = 3)) ∧ m2.IsChain Okay := by
      by_cases hj0 : j = 0
      · exact ⟨[], by rw [if_neg (by simp [hj0])], by simp [total, hj0], by simp, List.IsChain.nil⟩
      · obtain ⟨r, r1, r2, r3, r4⟩ := mb2_ok ha (src := src.take j)
          (by intro h; rw [List.take_eq_nil_iff] at h; rcases h with h | h; exacts [hj0 h, h0 (by simp [h])]) s1 (fun x hx => hb x (List.mem_of_mem_take hx))
        exact ⟨r, by rw [if_pos hj0, r1], by rw [r2]; simp; omega, r3, r4⟩
    obtain ⟨m2, e1, e2, e3, e4⟩ := hm2
    simp only [e1, Except.bind]
    generalize hj2 : splitWhere (fun a b => decide (a = b)) true (src.drop j) = j2
    have hj2le : j2 ≤ src.length - j := by
      rw [← hj2]; have := splitWhere_le (fun a b => decide (a = b)) true (src.drop j)
      simpa using this
    have hj2ge : j < src.length → 2 ≤ j2 := by
      intro h
      obtain ⟨x, r, h⟩ := s2 h
      rw [← hj2, h]
      exact splitWhere_rep x r
    obtain ⟨r, r1, r2, r3, r4⟩ := split_ok ha fuel ((src.drop j).drop j2) (by simp; omega)
      (fun x hx => hb x (List.mem_of_mem_drop (List.mem_of_mem_drop hx)))
    simp only [r1]
    have hm1 : (if j2 ≠ 0 then mb13 1 j2 else []) = mb13 1 j2 := by
      split
      · rfl
      · rename_i h; have : j2 = 0 := by omega
        subst this; rfl
    rw [hm1]
    obtain ⟨g1, g2, g3⟩ := mb13_ok 1 (by omega) j2
    refine ⟨_, rfl, ?_, ?_, ?_⟩
    · rw [total_append, total_append, e2, g1, r2]
      simp only [List.length_drop]; omega
    · intro b hb
      rcases List.mem_append.1 hb with hb | hb
      · rcases List.mem_append.1 hb with hb | hb
        · have := e3 b hb; omega
        · have := g2 b hb; omega
      · exact r3 b hb
    · rw [List.append_assoc]
      have hc : (mb13 1 j2 ++ r).IsChain Okay := by
        apply List.isChain_append.2 ⟨chain_same fun b hb => (g2 b hb).2.2, r4, ?_⟩
        intro a ha b _ h
        have := (g2 a (List.mem_of_mem_getLast? ha)).2.2
        omega
      apply List.isChain_append.2 ⟨e4, hc, ?_⟩
      intro a _ b hb h
      by_cases hjl : j < src.length
      · have hne := g3 (by have := hj2ge hjl; omega)
        rcases hm : mb13 1 j2 with _ | ⟨c, cs⟩
        · exact hne hm
        · rw [hm] at hb
          simp at hb; subst hb
          have := (g2 c (by rw [hm]; simp)).2.2
          omega
      · have : j2 = 0 := by omega
        subst this
        have hr : r = [] := by
          rcases r with _ | ⟨c, cs⟩
          · rfl
          · rw [total_cons] at r2
            have := r3 c (by simp)
            simp at r2; omega
        subst hr
        simp [mb13] at hb

/-! ## Adjusting -/

/-- number of blocks of length 1 -/
def ones (l : List Blk) : Nat := (l.map fun b => if b.len = 1 then 1 else 0).sum

/-- what holds of the blocks not yet written -/
structure Rest (l : List Blk) : Prop where
  len : ∀ b ∈ l, 1 ≤ b.len ∧ b.len ≤ 3
  type : ∀ b ∈ l, 1 ≤ b.type ∧ b.type ≤ 3
  chain : l.IsChain Okay

theorem ones_cons (b : Blk) (l : List Blk) : ones (b :: l) = (if b.len = 1 then 1 else 0) + ones l := rfl

theorem Rest.tail {b : Blk} {l : List Blk} (h : Rest (b :: l)) : Rest l :=
  ⟨fun c hc => h.len c (List.mem_cons_of_mem _ hc), fun c hc => h.type c (List.mem_cons_of_mem _ hc), by
    rcases l with _ | ⟨c, l⟩
    · exact List.IsChain.nil
    · exact (List.isChain_cons_cons.1 h.chain).2⟩

theorem Rest.cons {b : Blk} {l : List Blk} (h : Rest l) (h1 : 1 ≤ b.len ∧ b.len ≤ 3) (h2 : 1 ≤ b.type ∧ b.type ≤ 3)
    (h3 : ∀ c ∈ l.head?, Okay b c) : Rest (b :: l) :=
  ⟨fun c hc => by rcases List.mem_cons.1 hc with rfl | hc; exacts [h1, h.len c hc],
   fun c hc => by rcases List.mem_cons.1 hc with rfl | hc; exacts [h2, h.type c hc], by
    rcases l with _ | ⟨c, l⟩
    · exact List.IsChain.singleton _
    · exact List.isChain_cons_cons.2 ⟨h3 c rfl, h.chain⟩⟩

theorem Rest.head {a b : Blk} {l : List Blk} (h : Rest (a :: b :: l)) : Okay a b := (List.isChain_cons_cons.1 h.chain).1

theorem Rest.head' {a : Blk} {l : List Blk} (h : Rest (a :: l)) : ∀ c ∈ l.head?, Okay a c := by
  rcases l with _ | ⟨b, l⟩
  · simp
  · intro c hc; simp at hc; subst hc; exact h.head

/-- Merging the first two of the rest into blocks of type `t`, where `t` may stand before whatever follows. -/
theorem merge_ok {a b : Blk} {l : List Blk} {t : Nat} (h : Rest (a :: b :: l)) (hn : needsMerge a b = true) (ht : 1 ≤ t ∧ t ≤ 3)
    (hb : t = b.type ∨ t ≠ 2) :
    ∃ a' b' n, merge a b t = (a', b', n) ∧ a'.type = t ∧ b'.type = t ∧
      ((n = 1 ∧ Rest (b' :: l) ∧ total (b' :: l) = total (a :: b :: l) ∧ ones (b' :: l) < ones (a :: b :: l) ∧ a' = b') ∨
       (n = 2 ∧ Rest (a' :: b' :: l) ∧ total (a' :: b' :: l) = total (a :: b :: l) ∧ ones (a' :: b' :: l) < ones (a :: b :: l))) := by
  have ha := h.len a (by simp)
  have hb' := h.len b (by simp)
  have hr := h.tail.tail
  have hbl := h.tail.head'
  have hone : a.len = 1 ∨ b.len = 1 := by simpa [needsMerge] using hn
  have hc : ∀ n c, c ∈ l.head? → Okay ⟨n, t⟩ c := by
    intro n c hc hh
    rcases hb with rfl | hb
    · exact hbl c hc hh
    · exact hb hh.1
  unfold merge
  by_cases h2 : a.len + b.len = 2
  · rw [if_pos h2]
    refine ⟨_, _, _, rfl, rfl, rfl, Or.inl ⟨rfl, hr.cons (by simp) ht (hc 2), ?_, ?_, rfl⟩⟩
    · simp only [total_cons]; omega
    · simp only [ones_cons]
      rcases hone with h1 | h1 <;> simp [h1] <;> omega
  rw [if_neg h2]
  by_cases h3 : a.len + b.len = 3
  · rw [if_pos h3]
    refine ⟨_, _, _, rfl, rfl, rfl, Or.inl ⟨rfl, hr.cons (by simp) ht (hc 3), ?_, ?_, rfl⟩⟩
    · simp only [total_cons]; omega
    · simp only [ones_cons]
      rcases hone with h1 | h1 <;> simp [h1] <;> omega
  rw [if_neg h3]
  by_cases h4 : a.len + b.len = 4
  · rw [if_pos h4]
    refine ⟨_, _, _, rfl, rfl, rfl, Or.inr ⟨rfl, (hr.cons (by simp) ht (hc 2)).cons (by simp) ht ?_, ?_, ?_⟩⟩
    · intro c hc; simp at hc; subst hc; intro hh; simp at hh; omega
    · simp only [total_cons]; omega
    · simp only [ones_cons]
      rcases hone with h1 | h1 <;> simp [h1] <;> omega
  · omega

theorem adjFront_ok {a b : Blk} {r rd : List Blk} (h : Rest (a :: b :: (r ++ rd))) :
    (adjFront a b r = none ∧ 1 < a.len ∧ 1 < b.len) ∨
    ∃ q, adjFront a b r = some q ∧ Rest (q ++ rd) ∧ total (q ++ rd) = total (a :: b :: (r ++ rd)) ∧ ones (q ++ rd) < ones (a :: b :: (r ++ rd)) ∧ q ≠ [] ∧
      q.length ≤ r.length + 2 := by
  have ha := h.len a (by simp)
  have hb := h.len b (by simp)
  have ta := h.type a (by simp)
  have tb := h.type b (by simp)
  have hok := h.head
  by_cases hn : needsMerge a b = true
  · right
    have hgo : ∀ t, 1 ≤ t ∧ t ≤ 3 → (t = b.type ∨ t ≠ 2) → ∃ q, (match merge a b t with
        | (a, b, n) => if n = 1 then b :: r else a :: b :: r) = q ∧ Rest (q ++ rd) ∧
        total (q ++ rd) = total (a :: b :: (r ++ rd)) ∧ ones (q ++ rd) < ones (a :: b :: (r ++ rd)) ∧ q ≠ [] ∧ q.length ≤ r.length + 2 := by
      intro t ht hbt
      obtain ⟨a', b', n, e, _, _, ⟨rfl, h1, h2, h3, _⟩ | ⟨rfl, h1, h2, h3⟩⟩ := merge_ok h hn ht hbt
      · exact ⟨b' :: r, by simp [e], h1, h2, h3, by simp, by simp⟩
      · exact ⟨a' :: b' :: r, by simp [e], h1, h2, h3, by simp, by simp⟩
    simp only [adjFront, hn, Bool.true_and]
    by_cases h22 : a.type = 2 ∧ b.type = 2
    · obtain ⟨q, e, hq⟩ := hgo 2 (by omega) (Or.inl h22.2.symm)
      simp only [h22, decide_true, Bool.and_self, if_true]
      exact ⟨q, by rw [← e], hq⟩
    have h22' : (decide (a.type = 2) && decide (b.type = 2)) = false := by
      rw [Bool.and_eq_false_iff]; simp; omega
    simp only [h22', Bool.false_eq_true, if_false]
    by_cases h3 : a.type = 3
    · obtain ⟨q, e, hq⟩ := hgo 3 (by omega) (Or.inr (by omega))
      simp only [h3, decide_true, if_true]
      exact ⟨q, by rw [← e], hq⟩
    simp only [h3, decide_false, Bool.false_eq_true, if_false]
    have h1 : (decide (a.type = 1) || decide (b.type = 1)) = true := by
      rw [Bool.or_eq_true]; simp
      by_contra hc
      apply hok
      omega
    obtain ⟨q, e, hq⟩ := hgo 1 (by omega) (Or.inr (by omega))
    simp only [h1, if_true]
    exact ⟨q, by rw [← e], hq⟩
  · left
    have hn' : needsMerge a b = false := by simpa using hn
    refine ⟨by simp [adjFront, hn'], ?_⟩
    simp [needsMerge] at hn'
    omega

/-- One call of the function given to `adjust2`, on a queue that is full or has everything. -/
theorem adjStep_ok {q rd : List Blk} (hq : q ≠ []) (hlen : q.length ≤ 3) (hrd : q.length < 3 → rd = []) (h : Rest (q ++ rd)) (hs : 2 ≤ total (q ++ rd)) :
    (∃ q', adjStep q = (true, q') ∧ Rest (q' ++ rd) ∧ total (q' ++ rd) = total (q ++ rd) ∧ ones (q' ++ rd) < ones (q ++ rd) ∧ q' ≠ [] ∧ q'.length ≤ q.length) ∨
    (∃ e q', adjStep q = (false, q) ∧ q = e :: q' ∧ 2 ≤ e.len ∧ (q' ++ rd = [] ∨ 2 ≤ total (q' ++ rd))) := by
  by_cases ho : q.any (fun e => decide (e.len = 1)) = true
  · have front2 : ∀ a b r, q = a :: b :: r → (∀ x a b, q = [x, a, b] → (needsMerge a b && decide (a.type = 2) && decide (b.type = 2)) = false) →
        (∃ q', adjStep q = (true, q') ∧ Rest (q' ++ rd) ∧ total (q' ++ rd) = total (q ++ rd) ∧ ones (q' ++ rd) < ones (q ++ rd) ∧ q' ≠ [] ∧ q'.length ≤ q.length) ∨
        (∃ e q', adjStep q = (false, q) ∧ q = e :: q' ∧ 2 ≤ e.len ∧ (q' ++ rd = [] ∨ 2 ≤ total (q' ++ rd))) := by
      intro a b r hqe hno
      subst hqe
      have hstep : adjStep (a :: b :: r) = (match adjFront a b r with
          | some v => (true, v)
          | none => if 1 < a.len then (false, a :: b :: r) else (true, a :: b :: r)) := by
        rcases r with _ | ⟨c, r⟩
        · simp only [adjStep, ho, Bool.not_true, Bool.false_eq_true, if_false]
          cases adjFront a b [] <;> rfl
        · rcases r with _ | ⟨d, r⟩
          · have := hno a b c rfl
            simp only [adjStep, ho, Bool.not_true, Bool.false_eq_true, if_false, this]
            cases adjFront a b [c] <;> rfl
          · simp only [adjStep, ho, Bool.not_true, Bool.false_eq_true, if_false]
            cases adjFront a b (c :: d :: r) <;> rfl
      rw [hstep]
      rcases adjFront_ok (a := a) (b := b) (r := r) (rd := rd) h with ⟨e, h1, h2⟩ | ⟨q', e, h1, h2, h3, h4, h5⟩
      · right
        refine ⟨a, b :: r, by simp only [e, if_pos h1], rfl, by omega, Or.inr ?_⟩
        rw [List.cons_append, total_cons]; omega
      · left
        exact ⟨q', by simp only [e], h1, h2, h3, h4, by simp; omega⟩
    match q, hq, hlen with
    | [a], _, _ =>
      have hr : rd = [] := hrd (by simp)
      subst hr
      exfalso
      simp [total] at hs
      simp at ho
      omega
    | [a, b], _, _ => exact front2 a b [] rfl (by simp)
    | [x, a, b], _, _ =>
      cases hm : (needsMerge a b && decide (a.type = 2) && decide (b.type = 2)) with
      | false =>
        refine front2 x a [b] rfl ?_
        intro x' a' b' he
        simp only [List.cons.injEq, and_true] at he
        obtain ⟨rfl, rfl, rfl⟩ := he
        exact hm
      | true =>
        left
        have hm' := hm
        simp only [Bool.and_eq_true, decide_eq_true_eq] at hm'
        obtain ⟨⟨m1, m2⟩, m3⟩ := hm'
        have hx := h.len x (by simp)
        have tx := h.type x (by simp)
        have hxa : Okay x a := h.head
        obtain ⟨a', b', n, e, t1, t2, ⟨rfl, h1, h2, h3, rfl⟩ | ⟨rfl, h1, h2, h3⟩⟩ := merge_ok (a := a) (b := b) (l := rd) (t := 2) h.tail m1 (by omega) (Or.inl m3.symm)
        · refine ⟨[x, a'], ?_, h1.cons hx tx ?_, ?_, ?_, by simp, by simp⟩
          · simp only [adjStep, ho, Bool.not_true, Bool.false_eq_true, if_false, hm, if_true, e]
          · intro c hc; simp at hc; subst hc; intro hh; omega
          · show total (x :: (a' :: rd)) = total (x :: (a :: b :: rd))
            rw [total_cons x, total_cons x, h2]
          · show ones (x :: (a' :: rd)) < ones (x :: (a :: b :: rd))
            rw [ones_cons x, ones_cons x]; omega
        · refine ⟨[x, a', b'], ?_, h1.cons hx tx ?_, ?_, ?_, by simp, by simp⟩
          · simp only [adjStep, ho, Bool.not_true, Bool.false_eq_true, if_false, hm, if_true, e]; rfl
          · intro c hc; simp at hc; subst hc; intro hh; omega
          · show total (x :: (a' :: b' :: rd)) = total (x :: (a :: b :: rd))
            rw [total_cons x, total_cons x, h2]
          · show ones (x :: (a' :: b' :: rd)) < ones (x :: (a :: b :: rd))
            rw [ones_cons x, ones_cons x]; omega
    | _ :: _ :: _ :: _ :: _, _, hl => simp at hl
  · right
    have ho' : ∀ e ∈ q, 2 ≤ e.len := by
      intro e he
      have h1 := h.len e (by simp [he])
      by_contra hc
      apply ho
      rw [List.any_eq_true]
      exact ⟨e, he, by simp; omega⟩
    rcases q with _ | ⟨e, q'⟩
    · exact absurd rfl hq
    refine ⟨e, q', by simp [adjStep, ho], rfl, ho' e (by simp), ?_⟩
    rcases q' with _ | ⟨c, q'⟩
    · left; simp [hrd (by simp)]
    · right
      have := ho' c (by simp)
      rw [List.cons_append, total_cons]; omega

theorem fill_ok (q rd : List Blk) (hq : q.length ≤ 3) : (fill q rd).1 ++ (fill q rd).2 = q ++ rd ∧ (fill q rd).1.length ≤ 3 ∧
    ((fill q rd).1.length < 3 → (fill q rd).2 = []) ∧ (q ++ rd ≠ [] → (fill q rd).1 ≠ []) := by
  simp only [fill]
  refine ⟨by rw [List.append_assoc, List.take_append_drop], by simp; omega, ?_, ?_⟩
  · intro h
    simp at h
    apply List.drop_eq_nil_of_le
    omega
  · intro h h'
    simp at h'
    obtain ⟨rfl, h'⟩ := h'
    simp at h'
    subst h'
    simp at h

theorem adjInner_ok : ∀ (fuel : Nat) (q rd : List Blk), ones (q ++ rd) < fuel → q ++ rd ≠ [] → q.length ≤ 3 → Rest (q ++ rd) → 2 ≤ total (q ++ rd) →
    ∃ e q' rd', adjInner fuel q rd = .ok (e :: q', rd') ∧ 2 ≤ e.len ∧ Rest (e :: (q' ++ rd')) ∧ total (e :: (q' ++ rd')) = total (q ++ rd) ∧
      q'.length ≤ 2 ∧ (q' ++ rd').length < (q ++ rd).length ∧ (q'.length < 2 → rd' = []) ∧ (q' ++ rd' = [] ∨ 2 ≤ total (q' ++ rd'))
  | 0, _, _, h, _, _, _, _ => absurd h (by omega)
  | fuel + 1, q, rd, hf, hne, hq, h, hs => by
    obtain ⟨f1, f2, f3, f4⟩ := fill_ok q rd hq
    rw [adjInner]
    generalize hfl : fill q rd = s at *
    obtain ⟨q1, rd1⟩ := s
    simp only at *
    rw [← f1] at h hs hf
    rcases adjStep_ok (f4 hne) f2 f3 h hs with ⟨q', e, h1, h2, h3, h4, h5⟩ | ⟨e, q', he, rfl, h2, h3⟩
    · simp only [e]
      obtain ⟨e', q'', rd', i1, i2, i3, i4, i5, i6, i7⟩ := adjInner_ok fuel q' rd1 (by omega) (by simp [h4]) (by omega) h1 (by omega)
      refine ⟨e', q'', rd', i1, i2, i3, by rw [i4, h2, f1], i5, ?_, i7⟩
      rw [← f1]
      simp only [List.length_append] at *; omega
    · simp only [he]
      refine ⟨e, q', rd1, rfl, h2, h, by rw [← f1]; rfl, by simp at f2; omega, by rw [← f1]; simp, ?_, h3⟩
      intro hl
      exact f3 (by simp; omega)

theorem ones_le (l : List Blk) : ones l ≤ l.length := by
  induction l with
  | nil => simp [ones]
  | cons b l ih => rw [ones_cons]; simp only [List.length_cons]; split <;> omega

theorem length_le_total {l : List Blk} (h : Rest l) : l.length ≤ total l := by
  induction l with
  | nil => simp
  | cons b l ih =>
    have := ih h.tail
    have := (h.len b (by simp)).1
    rw [total_cons]; simp only [List.length_cons]; omega

theorem adjLoop_ok : ∀ (fuel : Nat) (q rd : List Blk), (q ++ rd).length < fuel → q.length ≤ 3 → (q = [] → rd = []) → Rest (q ++ rd) →
    (q ++ rd = [] ∨ 2 ≤ total (q ++ rd)) →
    ∃ r, adjLoop fuel q rd = .ok r ∧ total r = total (q ++ rd) ∧ ∀ b ∈ r, b.len = 2 ∨ b.len = 3
  | 0, _, _, h, _, _, _, _ => absurd h (by omega)
  | fuel + 1, q, rd, hf, hq, hqr, h, hs => by
    rw [adjLoop]
    by_cases h0 : q.length = 0
    · have hqn : q = [] := List.length_eq_zero_iff.1 h0
      have := hqr hqn
      subst hqn; subst this
      exact ⟨[], if_pos rfl, rfl, by simp⟩
    rw [if_neg h0]
    have hne : q ++ rd ≠ [] := by intro h; simp at h; simp [h.1] at h0
    have hs' : 2 ≤ total (q ++ rd) := by rcases hs with h | h; exacts [absurd h hne, h]
    have hone := ones_le (q ++ rd)
    obtain ⟨e, q', rd', i1, i2, i3, i4, i5, i8, i6, i7⟩ := adjInner_ok (q.length + rd.length + 1) q rd (by simp at hone; omega) hne hq h hs'
    simp only [i1, Except.bind]
    rw [total_cons] at i4
    obtain ⟨r, r1, r2, r3⟩ := adjLoop_ok fuel q' rd' (by omega) (by omega) (by rintro rfl; exact i6 (by simp)) i3.tail i7
    refine ⟨e :: r, by simp only [r1], by rw [total_cons, r2, i4], ?_⟩
    intro b hb
    rcases List.mem_cons.1 hb with rfl | hb
    · have := (i3.len b (by simp)).2; omega
    · exact r3 b hb

theorem adjust_ok {l : List Blk} (h : Rest l) (hs : 2 ≤ total l) :
    ∃ r, adjust l = .ok r ∧ total r = total l ∧ ∀ b ∈ r, b.len = 2 ∨ b.len = 3 := by
  unfold adjust
  by_cases h2 : l.length < 2
  · refine ⟨l, if_pos h2, rfl, ?_⟩
    match l, h2 with
    | [], _ => simp
    | [b], _ =>
      intro c hc
      simp at hc; subst hc
      have := (h.len c (by simp)).2
      simp [total] at hs
      omega
  · rw [if_neg h2]
    obtain ⟨f1, f2, f3, f4⟩ := fill_ok [] l (by simp)
    generalize hfl : fill [] l = s at *
    obtain ⟨q, rd⟩ := s
    simp only [List.nil_append] at f1 f2 f3 f4 ⊢
    rw [← f1] at h hs ⊢
    exact adjLoop_ok ((q ++ rd).length + 1) q rd (by omega) f2 (by rintro rfl; exact f3 (by simp)) h (Or.inr hs)

/-- The blocks of a round: all of the string, in pieces of two or three symbols. -/
theorem blocks_ok {alphabet : Nat} (ha : alphabet ≤ 2 ^ 32) {str : List Nat} (hl : 2 ≤ str.length) (hb : ∀ x ∈ str, x < alphabet) :
    ∃ bs v, split alphabet (str.length + 1) str = .ok bs ∧ adjust bs = .ok v ∧ total v = str.length ∧ ∀ b ∈ v, b.len = 2 ∨ b.len = 3 := by
  obtain ⟨bs, h1, h2, h3, h4⟩ := split_ok ha (str.length + 1) str (by omega) hb
  obtain ⟨v, g1, g2, g3⟩ := adjust_ok (l := bs) ⟨fun b hb => ⟨(h3 b hb).1, (h3 b hb).2.1⟩, fun b hb => (h3 b hb).2.2, h4⟩ (by omega)
  exact ⟨bs, v, h1, g1, by omega, g3⟩

end Esp
end Tdc
