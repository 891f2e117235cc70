import Verif.Lemmas.DivSufSortRank
import Verif.Model.DivSufSortMid

/-! # The distribution of the B* suffixes to their buckets -/

namespace Tdc

open DSS

variable {cell : Int → Int} {T : List UInt8}

/-- the first two characters of a B* suffix -/
def dssPair (T : List UInt8) (a b x : Nat) : Bool := decide (dssCh T (bst T x) = a ∧ dssCh T (bst T x + 1) = b)

theorem dssPair_self (T : List UInt8) (x : Nat) : dssPair T (dssCh T (bst T x)) (dssCh T (bst T x + 1)) x = true := by
  unfold dssPair; simp

/-- the numbers of a bucket, as they stand in the array after the numbers in `l` were placed -/
def dssSeg (T : List UInt8) (a b : Nat) (l : List Nat) : List Nat := (l.filter (dssPair T a b)).reverse

theorem dssSeg_snoc (T : List UInt8) (a b : Nat) (l : List Nat) (x : Nat) :
    dssSeg T a b (l ++ [x]) = if dssPair T a b x then x :: dssSeg T a b l else dssSeg T a b l := by
  unfold dssSeg
  rw [List.filter_append, List.reverse_append]
  cases h : dssPair T a b x <;> simp [h]

theorem dssSeg_length (T : List UInt8) (a b : Nat) (l : List Nat) : (dssSeg T a b l).length = l.countP (dssPair T a b) := by
  unfold dssSeg
  rw [List.length_reverse, List.countP_eq_length_filter]

/-- start of a bucket -/
noncomputable def dssLo (T : List UInt8) (a b : Nat) : Nat := stB T.length (dssCh T) (dssLt T) a b

theorem dssLo_disj (a b c d : Nat) (h : a < c ∨ a = c ∧ b < d) : dssLo T a (b + 1) ≤ dssLo T c d :=
  cnt_mono (fun _ _ h' => ⟨by omega, h'.2⟩)

theorem dssLo_le (a b : Nat) : dssLo T a b ≤ (bstars T).length := by
  rw [bstars_length]
  exact cnt_mono (fun _ _ h' => h'.2)

theorem bst_next {x : Nat} (hx : x < (bstars T).length) : bst T x + 1 < T.length ∧ dssCh T (bst T x) < dssCh T (bst T x + 1) :=
  (stars_bst T).next (dss_txt (cell := id) T (fun _ _ _ => rfl)).O hx

theorem bst_map (T : List UInt8) : bstars T = (List.range (bstars T).length).map (bst T) := by
  apply List.ext_getElem?
  intro i
  rw [List.getElem?_map]
  by_cases hi : i < (bstars T).length
  · rw [bst_get hi, List.getElem?_range hi]; rfl
  · rw [List.getElem?_eq_none (by omega), List.getElem?_eq_none (by rw [List.length_range]; omega)]; rfl

/-- size of a bucket -/
theorem dssLo_succ (a b : Nat) : dssLo T a b + (List.range (bstars T).length).countP (dssPair T a b) = dssLo T a (b + 1) := by
  unfold dssLo
  rw [stB_succ]
  congr 1
  have h := countP_eq_cnt (bstars_nodup T) (mem_bstars T) (fun p => decide (dssCh T p = a ∧ dssCh T (p + 1) = b))
  conv at h => lhs; rw [bst_map T, List.countP_map]
  refine Eq.trans ?_ (h.trans ?_)
  · rfl
  · unfold stP
    refine cnt_congr (fun j _ => ?_)
    simp only [decide_eq_true_eq]
    tauto

theorem bS_inj {a b c d : Nat} (hb : b < 256) (hd : d < 256) : bS a b = bS c d ↔ a = c ∧ b = d := by
  show bB b a = bB d c ↔ _
  unfold bB
  have e : ∀ x y : Nat, x < 256 → y <<< 8 ||| x = y * 256 + x := by
    intro x y hx
    rw [Nat.shiftLeft_eq, Nat.mul_comm, ← Nat.two_pow_add_eq_or_of_lt (i := 8) (by omega)]
  rw [e b a hb, e d c hd]
  omega

/-- the array while the numbers are distributed -/
structure DssInv (T : List UInt8) (done : List Nat) (B : Nat → Int) (SA : List Int) : Prop where
  len : SA.length = T.length
  pa : ∀ x, x < (bstars T).length → SA[T.length - (bstars T).length + x]? = some (bst T x : Int)
  B : ∀ a b, a < b → b < 256 → B (bS a b) = dssLo T a (b + 1) - (done.countP (dssPair T a b) : Int)
  seg : ∀ a b, a < b → b < 256 → ∀ (k x : Nat), (dssSeg T a b done)[k]? = some x →
    SA[dssLo T a (b + 1) - done.countP (dssPair T a b) + k]? = some (x : Int)

theorem spreadSA_spec (hcell : ∀ v : Int, -T.length ≤ v → v < T.length → cell v = v) : ∀ (is done : List Nat) (B : Nat → Int) (SA : List Int),
    (∀ x ∈ is, x < (bstars T).length) → (∀ a b, a < b → b < 256 → dssLo T a b + (done ++ is).countP (dssPair T a b) ≤ dssLo T a (b + 1)) →
    DssInv T done B SA → ∃ B' SA', spreadSA cell T ((T.length : Int) - (bstars T).length) is B SA = .ok (B', SA') ∧ DssInv T (done ++ is) B' SA'
  | [], done, B, SA, _, _, I => ⟨B, SA, rfl, by rw [List.append_nil]; exact I⟩
  | x :: is, done, B, SA, hm, hc, I => by
    have h2m := (divsufsort_bstars T).2
    have hx := hm x (by simp)
    obtain ⟨hn, hlt⟩ := bst_next hx
    have X := dss_txt (cell := id) T (fun _ _ _ => rfl)
    have h256 := X.lt256 (bst T x + 1)
    have e1 : (T.length : Int) - (bstars T).length + x = ((T.length - (bstars T).length + x : Nat) : Int) := by omega
    have e2 : (bst T x : Int) + 1 = ((bst T x + 1 : Nat) : Int) := by omega
    have hcx := hc _ _ hlt h256
    rw [List.countP_append, List.countP_cons, if_pos (dssPair_self T x)] at hcx
    have hBx := I.B _ _ hlt h256
    have hle := dssLo_le (T := T) (dssCh T (bst T x)) (dssCh T (bst T x + 1) + 1)
    generalize hp : dssLo T (dssCh T (bst T x)) (dssCh T (bst T x + 1) + 1) - (done.countP (dssPair T (dssCh T (bst T x)) (dssCh T (bst T x + 1))) + 1) = p
    have e3 : B (bS (dssCh T (bst T x)) (dssCh T (bst T x + 1))) - 1 = (p : Int) := by omega
    have hI' : DssInv T (done ++ [x]) (upd B (bS (dssCh T (bst T x)) (dssCh T (bst T x + 1))) p) (SA.set p (x : Int)) := by
      refine ⟨by rw [List.length_set, I.len], ?_, ?_, ?_⟩
      · intro y hy
        rw [List.getElem?_set_ne (by omega)]
        exact I.pa y hy
      · intro a b hab hb
        unfold upd
        rw [List.countP_append, List.countP_singleton]
        by_cases h : dssCh T (bst T x) = a ∧ dssCh T (bst T x + 1) = b
        · obtain ⟨rfl, rfl⟩ := h
          rw [if_pos rfl, if_pos (dssPair_self T x)]
          omega
        · rw [if_neg (by rw [bS_inj hb h256]; omega), if_neg (by unfold dssPair; simpa using h)]
          exact I.B a b hab hb
      · intro a b hab hb k y hk
        rw [dssSeg_snoc] at hk
        rw [List.countP_append, List.countP_singleton]
        by_cases h : dssCh T (bst T x) = a ∧ dssCh T (bst T x + 1) = b
        · obtain ⟨rfl, rfl⟩ := h
          rw [if_pos (dssPair_self T x)] at hk ⊢
          rw [hp]
          match k, hk with
          | 0, hk =>
            simp only [List.getElem?_cons_zero, Option.some.injEq] at hk
            subst hk
            rw [Nat.add_zero, List.getElem?_set_self (by rw [I.len]; omega)]
          | k + 1, hk =>
            rw [List.getElem?_cons_succ] at hk
            rw [List.getElem?_set_ne (by omega)]
            have := I.seg _ _ hab hb k y hk
            rw [← this]
            congr 1
            omega
        · have hf : dssPair T a b x = false := by unfold dssPair; simpa using h
          rw [hf] at hk ⊢
          simp only [Bool.false_eq_true, if_false, Nat.add_zero] at hk ⊢
          have hkl := (List.getElem?_eq_some_iff.mp hk).1
          rw [dssSeg_length] at hkl
          have hcab := hc a b hab hb
          rw [List.countP_append] at hcab
          rw [List.getElem?_set_ne]
          · exact I.seg a b hab hb k y hk
          · intro hcon
            have hd : (dssCh T (bst T x) < a ∨ dssCh T (bst T x) = a ∧ dssCh T (bst T x + 1) < b) ∨
                (a < dssCh T (bst T x) ∨ a = dssCh T (bst T x) ∧ b < dssCh T (bst T x + 1)) := by omega
            rcases hd with hd | hd
            · have := dssLo_disj (T := T) _ _ _ _ hd; omega
            · have := dssLo_disj (T := T) _ _ _ _ hd; omega
    obtain ⟨B', SA', g1, g2⟩ := spreadSA_spec hcell is (done ++ [x]) _ _ (fun y hy => hm y (by simp [hy]))
      (fun a b hab hb => by rw [List.append_assoc]; exact hc a b hab hb) hI'
    refine ⟨B', SA', ?_, by rw [List.append_assoc] at g2; exact g2⟩
    unfold spreadSA
    rw [e1, sget_ok (I.pa x hx), bind_ok, X.get _ (by omega), bind_ok, e2, X.get _ hn, bind_ok]
    dsimp only
    have e4 : upd B (bS (dssCh T (bst T x)) (dssCh T (bst T x + 1))) (B (bS (dssCh T (bst T x)) (dssCh T (bst T x + 1))) - 1)
        (bS (dssCh T (bst T x)) (dssCh T (bst T x + 1))) = (p : Int) := by
      unfold upd; rw [if_pos rfl, e3]
    rw [e4, e3, sset_ok (hcell _ (by omega) (by omega)) (by rw [I.len]; omega), bind_ok]
    exact g1

/-- the order in which the numbers are distributed -/
def dssOrder (m : Nat) : List Nat := (List.range (m - 1)).reverse ++ [m - 1]

theorem dssOrder_perm {m : Nat} (hm : 0 < m) : (dssOrder m).Perm (List.range m) := by
  obtain ⟨k, rfl⟩ : ∃ k, m = k + 1 := ⟨m - 1, by omega⟩
  unfold dssOrder
  rw [Nat.add_sub_cancel, List.range_succ]
  exact (List.reverse_perm _).append_right _

/-- a bucket after the distribution -/
theorem dssSeg_final {m : Nat} (hm : 0 < m) (a b : Nat) : (dssSeg T a b (dssOrder m)).Nodup ∧
    (∀ x, x ∈ dssSeg T a b (dssOrder m) ↔ x < m ∧ dssPair T a b x = true) ∧
    (m - 1 ∈ dssSeg T a b (dssOrder m) → (dssSeg T a b (dssOrder m))[0]? = some (m - 1)) := by
  have hp := dssOrder_perm hm
  have hmem : ∀ x, x ∈ dssSeg T a b (dssOrder m) ↔ x < m ∧ dssPair T a b x = true := fun x => by
    unfold dssSeg
    rw [List.mem_reverse, List.mem_filter, hp.mem_iff, List.mem_range]
  refine ⟨?_, hmem, fun h => ?_⟩
  · unfold dssSeg
    rw [List.nodup_reverse]
    exact (hp.nodup_iff.mpr List.nodup_range).filter _
  · have := ((hmem _).mp h).2
    unfold dssOrder
    rw [dssSeg_snoc, this]
    rfl

end Tdc
