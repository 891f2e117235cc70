import Verif.Model.DivSufSortMid
import Verif.Lemmas.DivSufSortScan

/-! # The loop that computes the ranks of the substrings -/

namespace Tdc.DSS

/-- the number at place `p` has the same rank as the one before -/
def mrk (ρ : Nat → Nat) (p : Nat) : Prop := 0 < p ∧ ρ p = ρ (p - 1)

/-- alone in its group -/
def sng (ρ : Nat → Nat) (m p : Nat) : Prop := ¬ mrk ρ p ∧ (p + 1 < m → ¬ mrk ρ (p + 1))

/-- `o p` is the number at place `p`, `ρ p` the last place of its group. -/
structure Grp (n m : Nat) (o ρ : Nat → Nat) : Prop where
  n2 : 2 * m ≤ n
  olt : ∀ p, p < m → o p < m
  inj : ∀ p q, p < m → q < m → o p = o q → p = q
  ge : ∀ p, p < m → p ≤ ρ p
  lt : ∀ p, p < m → ρ p < m
  const : ∀ p q, p < m → p ≤ q → q ≤ ρ p → ρ q = ρ p

variable {cell : Int → Int} {n m : Nat} {o ρ : Nat → Nat}

/-- the group ends where the rank changes -/
theorem Grp.end_eq (G : Grp n m o ρ) {p e : Nat} (hpe : p ≤ e) (he : e < m) (hc : ∀ q, p ≤ q → q ≤ e → ρ q = ρ p)
    (hend : e + 1 = m ∨ ¬ mrk ρ (e + 1)) : ρ p = e := by
  have h1 := G.ge e he
  have h2 := hc e hpe (Nat.le_refl _)
  have h3 := G.lt p (by omega)
  by_contra hne
  have h4 : e + 1 ≤ ρ p := by omega
  have h5 := G.const p (e + 1) (by omega) (by omega) h4
  rcases hend with h | h
  · omega
  · exact h ⟨by omega, by rw [Nat.add_sub_cancel]; omega⟩

theorem sng_rank (G : Grp n m o ρ) {p : Nat} (hp : p < m) (h : sng ρ m p) : ρ p = p :=
  G.end_eq (Nat.le_refl _) hp (fun q h1 h2 => by have : q = p := by omega
                                                 rw [this]) (by
    by_cases h1 : p + 1 < m
    · exact Or.inr (h.2 h1)
    · exact Or.inl (by omega))

/-- the cell as the sorting has left it -/
def IsIni (o ρ : Nat → Nat) (p : Nat) (c : Option Int) : Prop := (mrk ρ p → c = some (-(o p : Int) - 1)) ∧ (¬ mrk ρ p → c = some (o p : Int))

theorem posRun_spec (G : Grp n m o ρ) (hcell : ∀ v : Int, -n ≤ v → v < n → cell v = v) : ∀ (i : Nat) (SA : List Int), i < m → SA.length = n → ¬ mrk ρ i →
    (∀ p, p ≤ i → IsIni o ρ p SA[p]?) →
    ∃ (k : Nat) (SA' : List Int), posRun cell m i SA = .ok ((k : Int) - 1, SA') ∧ k ≤ i ∧ (k = 0 ∨ mrk ρ (k - 1)) ∧ (∀ q, k ≤ q → q ≤ i → ¬ mrk ρ q) ∧
      SA'.length = n ∧ (∀ p, p < m → SA'[p]? = SA[p]?) ∧
      ∀ q, q < m → SA'[m + o q]? = if k ≤ q ∧ q ≤ i then some (q : Int) else SA[m + o q]?
  | i, SA, hi, hlen, hmk, hini => by
    have n2 := G.n2
    have ho := G.olt i hi
    have hget := (hini i (Nat.le_refl _)).2 hmk
    have e1 : (m : Int) + (o i : Int) = ((m + o i : Nat) : Int) := by omega
    have hset : sset cell SA ((m + o i : Nat) : Int) i = .ok (SA.set (m + o i) i) := sset_ok (hcell _ (by omega) (by omega)) (by omega)
    have hlt : ∀ p, p < m → (SA.set (m + o i) (i : Int))[p]? = SA[p]? := fun p hp => by
      rw [List.getElem?_set_ne (by omega)]
    have hge : ∀ q, q < m → (SA.set (m + o i) (i : Int))[m + o q]? = if q = i then some (i : Int) else SA[m + o q]? := fun q hq => by
      by_cases h : q = i
      · subst h
        rw [if_pos rfl, List.getElem?_set_self (by omega)]
      · rw [if_neg h, List.getElem?_set_ne]
        intro hc
        exact h (G.inj q i hq hi (by omega))
    match i with
    | 0 =>
      refine ⟨0, SA.set (m + o 0) ((0 : Nat) : Int), ?_, Nat.le_refl _, Or.inl rfl, fun q h1 h2 => ?_, by rw [List.length_set, hlen], hlt, ?_⟩
      · unfold posRun
        rw [sget_ok hget, bind_ok, e1, hset, bind_ok]
        rfl
      · have : q = 0 := by omega
        subst this; exact hmk
      · intro q hq
        rw [hge q hq]
        by_cases h : q = 0
        · subst h; simp
        · rw [if_neg h, if_neg (by omega)]
    | i + 1 =>
      by_cases hm : mrk ρ i
      · refine ⟨i + 1, SA.set (m + o (i + 1)) ((i + 1 : Nat) : Int), ?_, Nat.le_refl _, Or.inr hm, fun q h1 h2 => ?_, by rw [List.length_set, hlen], hlt, ?_⟩
        · unfold posRun
          rw [sget_ok hget, bind_ok, e1, hset, bind_ok]
          dsimp only
          rw [sget_ok (by rw [hlt i (by omega)]; exact (hini i (by omega)).1 hm), bind_ok, if_neg (by omega)]
          congr 2
          omega
        · have : q = i + 1 := by omega
          subst this; exact hmk
        · intro q hq
          rw [hge q hq]
          by_cases h : q = i + 1
          · subst h; simp
          · rw [if_neg h, if_neg (by omega)]
      · obtain ⟨k, SA', f1, f2, f3, f4, f5, f6, f7⟩ := posRun_spec G hcell i (SA.set (m + o (i + 1)) ((i + 1 : Nat) : Int)) (by omega)
          (by rw [List.length_set, hlen]) hm (fun p hp => by rw [hlt p (by omega)]; exact hini p (by omega))
        refine ⟨k, SA', ?_, by omega, f3, fun q h1 h2 => ?_, f5, fun p hp => by rw [f6 p hp, hlt p hp], ?_⟩
        · unfold posRun
          rw [sget_ok hget, bind_ok, e1, hset, bind_ok]
          dsimp only
          rw [sget_ok (by rw [hlt i (by omega)]; exact (hini i (by omega)).2 hm), bind_ok, if_pos (by omega)]
          exact f1
        · rcases Nat.lt_or_eq_of_le h2 with h | h
          · exact f4 q h1 (by omega)
          · subst h; exact hmk
        · intro q hq
          rw [f7 q hq, hge q hq]
          by_cases h : q = i + 1
          · subst h
            rw [if_neg (by omega), if_pos rfl, if_pos ⟨by omega, Nat.le_refl _⟩]
          · by_cases h' : k ≤ q ∧ q ≤ i
            · rw [if_pos h', if_pos ⟨h'.1, by omega⟩]
            · rw [if_neg h', if_neg h, if_neg (by omega)]

theorem negRun_spec (G : Grp n m o ρ) (hcell : ∀ v : Int, -n ≤ v → v < n → cell v = v) {j : Nat} (hj : j < m) : ∀ (i : Nat) (SA : List Int), i < m →
    SA.length = n → mrk ρ i → (∀ p, p ≤ i → IsIni o ρ p SA[p]?) →
    ∃ (k : Nat) (SA' : List Int), negRun cell m j i SA = .ok ((k : Int), SA') ∧ k < i ∧ ¬ mrk ρ k ∧ (∀ q, k < q → q ≤ i → mrk ρ q) ∧
      SA'.length = n ∧ (∀ p, p < m → SA'[p]? = if k < p ∧ p ≤ i then some (o p : Int) else SA[p]?) ∧
      ∀ q, q < m → SA'[m + o q]? = if k < q ∧ q ≤ i then some (j : Int) else SA[m + o q]?
  | i, SA, hi, hlen, hmk, hini => by
    have n2 := G.n2
    have ho := G.olt i hi
    have hget := (hini i (Nat.le_refl _)).1 hmk
    have e0 : inv (-(o i : Int) - 1) = o i := by unfold inv; omega
    have hs1 : sset cell SA (i : Int) (o i) = .ok (SA.set i (o i)) := sset_ok (hcell _ (by omega) (by omega)) (by omega)
    have hg1 : sget (SA.set i (o i : Int)) (i : Int) = .ok (o i : Int) := sget_ok (by rw [List.getElem?_set_self (by omega)])
    have e1 : (m : Int) + (o i : Int) = ((m + o i : Nat) : Int) := by omega
    have hset : sset cell (SA.set i (o i : Int)) ((m + o i : Nat) : Int) j = .ok ((SA.set i (o i : Int)).set (m + o i) j) :=
      sset_ok (hcell _ (by omega) (by omega)) (by rw [List.length_set]; omega)
    generalize hSA2 : (SA.set i (o i : Int)).set (m + o i) (j : Int) = SA2 at hset
    have hlen2 : SA2.length = n := by rw [← hSA2, List.length_set, List.length_set, hlen]
    have hlt : ∀ p, p < m → SA2[p]? = if p = i then some (o i : Int) else SA[p]? := fun p hp => by
      rw [← hSA2, List.getElem?_set_ne (by omega)]
      by_cases h : p = i
      · subst h; rw [if_pos rfl, List.getElem?_set_self (by omega)]
      · rw [if_neg h, List.getElem?_set_ne (by omega)]
    have hge : ∀ q, q < m → SA2[m + o q]? = if q = i then some (j : Int) else SA[m + o q]? := fun q hq => by
      rw [← hSA2]
      by_cases h : q = i
      · subst h
        rw [if_pos rfl, List.getElem?_set_self (by rw [List.length_set]; omega)]
      · rw [if_neg h, List.getElem?_set_ne, List.getElem?_set_ne (by omega)]
        intro hc
        exact h (G.inj q i hq hi (by omega))
    match i with
    | 0 => exact absurd hmk.1 (by omega)
    | i + 1 =>
      have hini2 : ∀ p, p ≤ i → IsIni o ρ p SA2[p]? := fun p hp => by
        rw [hlt p (by omega), if_neg (by omega)]
        exact hini p (by omega)
      have estep : ∀ w, SA2[i]? = some w → negRun cell m j (i + 1) SA = if w < 0 then negRun cell m j i SA2 else .ok ((i : Int), SA2) := fun w hw => by
        conv_lhs => unfold negRun
        rw [sget_ok hget, bind_ok, e0, hs1, bind_ok, hg1, bind_ok, e1, hset, bind_ok]
        dsimp only
        rw [sget_ok hw, bind_ok]
      by_cases hm : mrk ρ i
      · obtain ⟨k, SA', f1, f2, f3, f4, f5, f6, f7⟩ := negRun_spec G hcell hj i SA2 (by omega) hlen2 hm hini2
        refine ⟨k, SA', ?_, by omega, f3, fun q h1 h2 => ?_, f5, fun p hp => ?_, fun q hq => ?_⟩
        · rw [estep _ ((hini2 i (Nat.le_refl _)).1 hm), if_pos (by omega), f1]
        · rcases Nat.lt_or_eq_of_le h2 with h | h
          · exact f4 q h1 (by omega)
          · subst h; exact hmk
        · rw [f6 p hp, hlt p hp]
          by_cases h : p = i + 1
          · subst h
            rw [if_neg (by omega), if_pos rfl, if_pos ⟨by omega, Nat.le_refl _⟩]
          · by_cases h' : k < p ∧ p ≤ i
            · rw [if_pos h', if_pos ⟨h'.1, by omega⟩]
            · rw [if_neg h', if_neg h, if_neg (by omega)]
        · rw [f7 q hq, hge q hq]
          by_cases h : q = i + 1
          · subst h
            rw [if_neg (by omega), if_pos rfl, if_pos ⟨by omega, Nat.le_refl _⟩]
          · by_cases h' : k < q ∧ q ≤ i
            · rw [if_pos h', if_pos ⟨h'.1, by omega⟩]
            · rw [if_neg h', if_neg h, if_neg (by omega)]
      · refine ⟨i, SA2, ?_, by omega, hm, fun q h1 h2 => ?_, hlen2, fun p hp => ?_, fun q hq => ?_⟩
        · rw [estep _ ((hini2 i (Nat.le_refl _)).2 hm), if_neg (by omega)]
        · have : q = i + 1 := by omega
          subst this; exact hmk
        · rw [hlt p hp]
          by_cases h : p = i + 1
          · subst h; rw [if_pos rfl, if_pos ⟨by omega, Nat.le_refl _⟩]
          · rw [if_neg h, if_neg (by omega)]
        · rw [hge q hq]
          by_cases h : q = i + 1
          · subst h; rw [if_pos rfl, if_pos ⟨by omega, Nat.le_refl _⟩]
          · rw [if_neg h, if_neg (by omega)]

/-- The cells from `k` on are done. -/
structure RInv (n m : Nat) (o ρ : Nat → Nat) (k : Nat) (SA : List Int) : Prop where
  len : SA.length = n
  km : k ≤ m
  ini : ∀ p, p < k → IsIni o ρ p SA[p]?
  grp : k = m ∨ ¬ mrk ρ k
  rks : ∀ p, k ≤ p → p < m → SA[m + o p]? = some (ρ p : Int)
  many : ∀ p, k ≤ p → p < m → ¬ sng ρ m p → SA[p]? = some (o p : Int)
  runs : ∀ p l, k ≤ p → 0 < l → p + l ≤ m → (∀ q, p ≤ q → q < p + l → sng ρ m q) → (p + l = m ∨ ¬ sng ρ m (p + l)) → (p = 0 ∨ ¬ sng ρ m (p - 1)) →
    SA[p]? = some (-(l : Int))

/-- the second half of a round: the group that ends at `e - 1` -/
theorem RInv.group (G : Grp n m o ρ) (hcell : ∀ v : Int, -n ≤ v → v < n → cell v = v) {e : Nat} {SA : List Int} (I : RInv n m o ρ (e + 1) SA) (hmk : mrk ρ e) :
    ∃ (k : Nat) (SA1 SA2 : List Int), negRun cell m e e SA = .ok ((k : Int), SA1) ∧ sget SA1 k = .ok (o k : Int) ∧
      sset cell SA1 ((m + o k : Nat) : Int) e = .ok SA2 ∧ k < e ∧ RInv n m o ρ k SA2 ∧ ¬ sng ρ m k := by
  have n2 := G.n2
  have hem : e < m := I.km
  obtain ⟨k, SA1, f1, f2, f3, f4, f5, f6, f7⟩ := negRun_spec G hcell hem e SA hem I.len hmk (fun p hp => I.ini p (by omega))
  have hok := G.olt k (by omega)
  have hk1 : SA1[k]? = some (o k : Int) := by rw [f6 k (by omega), if_neg (by omega)]; exact (I.ini k (by omega)).2 f3
  have hconst : ∀ d, k + d ≤ e → ρ (k + d) = ρ k := by
    intro d
    induction d with
    | zero => intro _; rfl
    | succ d ih =>
      intro h
      have h1 := (f4 (k + (d + 1)) (by omega) h).2
      rw [h1, ← ih (by omega)]
      rfl
  have hρk : ρ k = e := G.end_eq (by omega) hem (fun q h1 h2 => by
    have := hconst (q - k) (by omega)
    rwa [Nat.add_sub_cancel' h1] at this) I.grp
  have hρ : ∀ q, k ≤ q → q ≤ e → ρ q = e := fun q h1 h2 => by
    have := hconst (q - k) (by omega)
    rw [Nat.add_sub_cancel' h1] at this
    omega
  have hns : ∀ q, k ≤ q → q ≤ e → ¬ sng ρ m q := fun q h1 h2 hs => by
    rcases Nat.lt_or_eq_of_le h1 with h | h
    · exact hs.1 (f4 q h h2)
    · subst h; exact hs.2 (by omega) (f4 (k + 1) (by omega) (by omega))
  have hlt : ∀ p, p < m → (SA1.set (m + o k) (e : Int))[p]? = SA1[p]? := fun p hp => by rw [List.getElem?_set_ne (by omega)]
  refine ⟨k, SA1, SA1.set (m + o k) (e : Int), f1, sget_ok hk1, sset_ok (hcell _ (by omega) (by omega)) (by omega), f2, ⟨?_, by omega, ?_, Or.inr f3, ?_, ?_, ?_⟩,
    hns k (Nat.le_refl _) (by omega)⟩
  · rw [List.length_set, f5]
  · intro p hp
    rw [hlt p (by omega), f6 p (by omega), if_neg (by omega)]
    exact I.ini p (by omega)
  · intro p h1 h2
    by_cases h : p = k
    · subst h
      rw [List.getElem?_set_self (by omega), hρk]
    · rw [List.getElem?_set_ne (fun hc => h (G.inj p k h2 (by omega) (by omega))), f7 p h2]
      by_cases h' : p ≤ e
      · rw [if_pos ⟨by omega, h'⟩, hρ p h1 h']
      · rw [if_neg (by omega)]
        exact I.rks p (by omega) h2
  · intro p h1 h2 h3
    rw [hlt p h2, f6 p h2]
    by_cases h' : p ≤ e
    · by_cases h : p = k
      · subst h
        rw [if_neg (by omega)]
        exact (I.ini p (by omega)).2 f3
      · rw [if_pos ⟨by omega, h'⟩]
    · rw [if_neg (by omega)]
      exact I.many p (by omega) h2 h3
  · intro p l h1 h2 h3 h4 h5 h6
    have hpe : e < p := by
      by_contra hc
      exact hns p h1 (by omega) (h4 p (Nat.le_refl _) (by omega))
    rw [hlt p (by omega), f6 p (by omega), if_neg (by omega)]
    exact I.runs p l (by omega) h2 h3 h4 h5 h6

/-- the first half of a round: the groups of one number that end at `i` -/
theorem RInv.singles (G : Grp n m o ρ) (hcell : ∀ v : Int, -n ≤ v → v < n → cell v = v) {i : Nat} {SA : List Int} (I : RInv n m o ρ (i + 1) SA)
    (hhd : i + 1 = m ∨ ¬ sng ρ m (i + 1)) (hmk : ¬ mrk ρ i) :
    ∃ (k : Nat) (SA1 SA2 : List Int), posRun cell m i SA = .ok ((k : Int) - 1, SA1) ∧ sset cell SA1 (k : Int) ((k : Int) - 1 - i) = .ok SA2 ∧ k ≤ i ∧
      (k = 0 ∨ mrk ρ (k - 1)) ∧ RInv n m o ρ k SA2 := by
  have n2 := G.n2
  have him : i < m := I.km
  obtain ⟨k, SA1, f1, f2, f3, f4, f5, f6, f7⟩ := posRun_spec G hcell i SA him I.len hmk (fun p hp => I.ini p (by omega))
  have hsng : ∀ q, k ≤ q → q ≤ i → sng ρ m q := fun q h1 h2 => by
    refine ⟨f4 q h1 h2, fun h => ?_⟩
    rcases Nat.lt_or_eq_of_le h2 with h' | h'
    · exact f4 (q + 1) (by omega) (by omega)
    · subst h'
      rcases I.grp with h'' | h''
      · omega
      · exact h''
  have hge : ∀ q, q < m → (SA1.set k ((k : Int) - 1 - i))[m + o q]? = SA1[m + o q]? := fun q hq => by rw [List.getElem?_set_ne (by omega)]
  refine ⟨k, SA1, SA1.set k ((k : Int) - 1 - i), f1, sset_ok (hcell _ (by omega) (by omega)) (by omega), f2, f3,
    ⟨by rw [List.length_set, f5], by omega, ?_, Or.inr (f4 k (Nat.le_refl _) f2), ?_, ?_, ?_⟩⟩
  · intro p hp
    rw [List.getElem?_set_ne (by omega), f6 p (by omega)]
    exact I.ini p (by omega)
  · intro p h1 h2
    rw [hge p h2, f7 p h2]
    by_cases h : p ≤ i
    · rw [if_pos ⟨h1, h⟩, sng_rank G h2 (hsng p h1 h)]
    · rw [if_neg (by omega)]
      exact I.rks p (by omega) h2
  · intro p h1 h2 h3
    have hp : i < p := by
      by_contra hc
      exact h3 (hsng p h1 (by omega))
    rw [List.getElem?_set_ne (by omega), f6 p h2]
    exact I.many p (by omega) h2 h3
  · intro p l h1 h2 h3 h4 h5 h6
    by_cases hp : p ≤ i
    · have hpk : p = k := by
        by_contra hc
        rcases h6 with h6 | h6
        · omega
        · exact h6 (hsng (p - 1) (by omega) (by omega))
      subst hpk
      have hl : p + l = i + 1 := by
        rcases Nat.lt_trichotomy (p + l) (i + 1) with h | h | h
        · rcases h5 with h5 | h5
          · omega
          · exact absurd (hsng (p + l) (by omega) (by omega)) h5
        · exact h
        · rcases hhd with h' | h'
          · omega
          · exact absurd (h4 (i + 1) (by omega) h) h'
      rw [List.getElem?_set_self (by omega)]
      congr 1
      omega
    · rw [List.getElem?_set_ne (by omega), f6 p (by omega)]
      exact I.runs p l (by omega) h2 h3 h4 h5 h6

theorem rankLoop_spec (G : Grp n m o ρ) (hcell : ∀ v : Int, -n ≤ v → v < n → cell v = v) : ∀ (fuel k : Nat) (SA : List Int), k < fuel →
    RInv n m o ρ k SA → (k = m ∨ ¬ sng ρ m k) → ∃ SA', rankLoop cell m fuel ((k : Int) - 1) SA = .ok SA' ∧ RInv n m o ρ 0 SA'
  | 0, _, _, h, _, _ => by omega
  | fuel + 1, 0, SA, _, I, _ => ⟨SA, by unfold rankLoop; rw [if_pos (by omega)], I⟩
  | fuel + 1, i + 1, SA, hf, I, hhd => by
    have hrec : ∀ (e : Nat) (SA : List Int), e < i + 1 → RInv n m o ρ (e + 1) SA → mrk ρ e → ∃ SA',
        ((negRun cell m e e SA).bind fun (i'', SA) => (sget SA i'').bind fun u => (sset cell SA (m + u) e).bind fun SA =>
          rankLoop cell m fuel (i'' - 1) SA) = .ok SA' ∧ RInv n m o ρ 0 SA' := by
      intro e SA he I hmk
      obtain ⟨k, SA1, SA2, g1, g2, g3, g4, g5, g6⟩ := I.group G hcell hmk
      obtain ⟨SA', h1, h2⟩ := rankLoop_spec G hcell fuel k SA2 (by omega) g5 (Or.inr g6)
      refine ⟨SA', ?_, h2⟩
      have e1 : (m : Int) + (o k : Int) = ((m + o k : Nat) : Int) := by omega
      rw [g1, bind_ok]
      dsimp only
      rw [g2, bind_ok, e1, g3, bind_ok]
      exact h1
    have ei : ((i + 1 : Nat) : Int) - 1 = (i : Int) := by omega
    rw [ei]
    unfold rankLoop
    rw [if_neg (by omega)]
    by_cases hmk : mrk ρ i
    · rw [sget_ok ((I.ini i (by omega)).1 hmk), bind_ok, if_neg (by omega), bind_ok]
      dsimp only
      rw [if_neg (by omega), Int.toNat_natCast]
      exact hrec i SA (by omega) I hmk
    · rw [sget_ok ((I.ini i (by omega)).2 hmk), bind_ok, if_pos (by omega)]
      obtain ⟨k, SA1, SA2, g1, g2, g3, g4, g5⟩ := I.singles G hcell hhd hmk
      rw [Int.toNat_natCast, g1, bind_ok]
      dsimp only
      have ek : (k : Int) - 1 + 1 = k := by omega
      rw [ek, g2, bind_ok, bind_ok]
      dsimp only
      by_cases hk : k = 0
      · subst hk
        rw [if_pos ⟨by omega, by omega⟩]
        exact ⟨SA2, rfl, g5⟩
      · have hmk' : mrk ρ (k - 1) := by
          rcases g4 with h | h
          · exact absurd h hk
          · exact h
        have hpos := hmk'.1
        obtain ⟨e, rfl⟩ : ∃ e, k = e + 1 := ⟨k - 1, by omega⟩
        have ee : ((e + 1 : Nat) : Int) - 1 = (e : Int) := by omega
        rw [Nat.add_sub_cancel] at hmk' hpos
        rw [ee, if_neg (by omega), Int.toNat_natCast]
        exact hrec e SA2 (by omega) g5 hmk'

end Tdc.DSS
