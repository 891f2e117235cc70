import Verif.Model.EspSorted
import Verif.Lemmas.EspGrammar
import Mathlib.Data.List.Nodup
import Mathlib.Data.List.Perm.Subperm

/-!
# Sorting the rules: the breadth first search visits the forest of left symbols in order
-/

namespace Tdc
namespace Esp

open Slp

/-- The rules from number `k` on whose left symbol is `x`, as symbols. -/
def kidsFrom (rules : List (Nat × Nat)) (k x : Nat) : List Nat :=
  ((List.range' k (rules.length - k)).filter (fun j => decide (rules[j]?.map Prod.fst = some x))).map (· + 256)

theorem kidsFrom_end (rules : List (Nat × Nat)) (x : Nat) : kidsFrom rules rules.length x = [] := by simp [kidsFrom]

theorem kidsFrom_step {rules : List (Nat × Nat)} {k : Nat} {p : Nat × Nat} (h : rules[k]? = some p) (x : Nat) :
    kidsFrom rules k x = if p.1 = x then (k + 256) :: kidsFrom rules (k + 1) x else kidsFrom rules (k + 1) x := by
  have hk := (List.getElem?_eq_some_iff.1 h).1
  have : rules.length - k = (rules.length - (k + 1)) + 1 := by omega
  unfold kidsFrom
  rw [this, List.range'_succ, List.filter_cons, h]
  simp only [Option.map_some, Option.some.injEq, decide_eq_true_eq]
  split <;> simp

theorem mem_kidsFrom {rules : List (Nat × Nat)} {k x e : Nat} : e ∈ kidsFrom rules k x ↔ ∃ j p, e = j + 256 ∧ k ≤ j ∧ rules[j]? = some p ∧ p.1 = x := by
  simp only [kidsFrom, List.mem_map, List.mem_filter, List.mem_range'_1, decide_eq_true_eq, Option.map_eq_some_iff]
  constructor
  · rintro ⟨j, ⟨⟨h1, h2⟩, p, h3, h4⟩, rfl⟩
    exact ⟨j, p, rfl, h1, h3, h4⟩
  · rintro ⟨j, p, rfl, h1, h2, h3⟩
    have := (List.getElem?_eq_some_iff.1 h2).1
    exact ⟨j, ⟨⟨h1, by omega⟩, p, h2, h3⟩, rfl⟩

theorem kidsFrom_nodup (rules : List (Nat × Nat)) (k x : Nat) : (kidsFrom rules k x).Nodup := by
  unfold kidsFrom
  exact ((List.nodup_range' (h := by omega)).filter _).map (fun a b h => by simpa using h)

theorem kidsFrom_length (rules : List (Nat × Nat)) (k x : Nat) : (kidsFrom rules k x).length ≤ rules.length := by
  unfold kidsFrom
  rw [List.length_map]
  refine (List.length_filter_le _ _).trans ?_
  simp

/-- `r` is what follows element `l` in the list. -/
def Lst (next : List Nat) : Nat → List Nat → Prop
  | l, [] => next[l]? = some l
  | l, m :: r => next[l]? = some m ∧ m ≠ l ∧ Lst next m r

theorem Lst.set {next : List Nat} {node c : Nat} : ∀ {r : List Nat} {l : Nat}, node ≠ l → node ∉ r → Lst next l r → Lst (next.set node c) l r
  | [], l, h, _, hl => by
    simp only [Lst] at *
    rw [List.getElem?_set_ne h]; exact hl
  | m :: r, l, h, hr, hl => by
    simp only [Lst] at *
    simp only [List.mem_cons, not_or] at hr
    refine ⟨?_, hl.2.1, hl.2.2.set hr.1 hr.2⟩
    rw [List.getElem?_set_ne h]; exact hl.1

theorem dsChain_ok {next : List Nat} : ∀ {r : List Nat} {l fuel : Nat}, Lst next l r → r.length < fuel → dsChain next fuel l = .ok r
  | [], l, fuel + 1, hl, _ => by
    simp only [Lst] at hl
    simp [dsChain, hl]
  | m :: r, l, fuel + 1, hl, hf => by
    simp only [Lst] at hl
    have ih := dsChain_ok hl.2.2 (fuel := fuel) (by simpa using hf)
    simp [dsChain, hl.1, hl.2.1, ih, Except.bind]

structure BInv (rules : List (Nat × Nat)) (k : Nat) (s : List Nat × List Nat) : Prop where
  len1 : s.1.length = rules.length + 256
  len2 : s.2.length = rules.length + 256
  lists : ∀ x, x < rules.length + 256 →
    match kidsFrom rules k x with
    | [] => s.1[x]? = some x
    | c :: r => s.1[x]? = some c ∧ c ≠ x ∧ Lst s.2 c r
  free : ∀ j, j < k → s.2[j + 256]? = some (j + 256)

theorem append_step {rules : List (Nat × Nat)} {k : Nat} {p : Nat × Nat} {s : List Nat × List Nat} (hp : rules[k]? = some p) (hl : p.1 < 256 + k) (h : BInv rules (k + 1) s) :
    ∃ s', dsAppend s p.1 (k + 256) = .ok s' ∧ BInv rules k s' := by
  obtain ⟨h1, h2, h3, h4⟩ := h
  obtain ⟨s1, s2⟩ := s
  simp only at h1 h2 h3 h4
  have hk := (List.getElem?_eq_some_iff.1 hp).1
  have hx := h3 p.1 (by omega)
  have hnode : ∀ x, ∀ e ∈ kidsFrom rules (k + 1) x, k + 256 < e := by
    intro x e he
    obtain ⟨j, q, rfl, hj, _⟩ := mem_kidsFrom.1 he
    omega
  cases hc : kidsFrom rules (k + 1) p.1 with
  | nil =>
    rw [hc] at hx
    simp only at hx
    refine ⟨(s1.set p.1 (k + 256), s2), by simp [dsAppend, hx], by simpa using h1, h2, ?_, fun j hj => h4 j (by omega)⟩
    intro x hxl
    rw [kidsFrom_step hp]
    by_cases hpx : p.1 = x
    · subst hpx
      simp only [if_true, hc, Lst]
      refine ⟨?_, by omega, h4 k (by omega)⟩
      rw [List.getElem?_set_self (by omega)]
    · rw [if_neg hpx]
      have := h3 x hxl
      simp only
      rw [List.getElem?_set_ne hpx]
      exact this
  | cons c r =>
    rw [hc] at hx
    simp only at hx
    have hcn : k + 256 < c := hnode p.1 c (by simp [hc])
    refine ⟨(s1.set p.1 (k + 256), s2.set (k + 256) c), by
      simp only [dsAppend, hx.1]
      rw [if_neg hx.2.1, if_pos (by omega)], by simpa using h1, by simpa using h2, ?_, ?_⟩
    · intro x hxl
      rw [kidsFrom_step hp]
      by_cases hpx : p.1 = x
      · subst hpx
        simp only [if_true, hc, Lst]
        refine ⟨?_, by omega, ?_, by omega, ?_⟩
        · rw [List.getElem?_set_self (by omega)]
        · rw [List.getElem?_set_self (by omega)]
        · exact hx.2.2.set (by omega) (fun hm => absurd (hnode p.1 _ (by rw [hc]; exact List.mem_cons_of_mem _ hm)) (by omega))
      · rw [if_neg hpx]
        have := h3 x hxl
        simp only
        rw [List.getElem?_set_ne hpx]
        cases hcx : kidsFrom rules (k + 1) x with
        | nil => rw [hcx] at this; exact this
        | cons c' r' =>
          rw [hcx] at this
          refine ⟨this.1, this.2.1, this.2.2.set ?_ ?_⟩
          · have := hnode x c' (by simp [hcx]); omega
          · intro hm
            have := hnode x _ (by rw [hcx]; exact List.mem_cons_of_mem _ hm); omega
    · intro j hj
      simp only
      rw [List.getElem?_set_ne (by omega)]
      exact h4 j (by omega)

theorem build_ok {rules : List (Nat × Nat)} (ho : Ordered rules) : ∀ (k : Nat) (s : List Nat × List Nat), k ≤ rules.length → BInv rules k s →
    ∃ s', dsBuild rules k s = .ok s' ∧ BInv rules 0 s'
  | 0, s, _, h => ⟨s, rfl, h⟩
  | k + 1, s, hk, h => by
    have hp : rules[k]? = some rules[k] := List.getElem?_eq_getElem (by omega)
    obtain ⟨s1, e1, h1⟩ := append_step hp (ho k _ _ hp).1 h
    obtain ⟨s2, e2, h2⟩ := build_ok ho k s1 (by omega) h1
    exact ⟨s2, by simp [dsBuild, hp, e1, e2, Except.bind], h2⟩

theorem children_ok {rules : List (Nat × Nat)} {s : List Nat × List Nat} (h : BInv rules 0 s) {x : Nat} (hx : x < rules.length + 256) :
    dsChildren s x = .ok (kidsFrom rules 0 x) := by
  have hl := h.lists x hx
  have hlen := kidsFrom_length rules 0 x
  unfold dsChildren
  cases hc : kidsFrom rules 0 x with
  | nil => rw [hc] at hl; simp only at hl; simp [hl]
  | cons c r =>
    rw [hc] at hl hlen
    simp only at hl
    have hl2 := h.len2
    have := dsChain_ok hl.2.2 (fuel := s.2.length + 1) (by simp at hlen; omega)
    simp [hl.1, hl.2.1, this, Except.bind]

theorem build_init {rules : List (Nat × Nat)} : BInv rules rules.length (List.range (rules.length + 256), List.range (rules.length + 256)) := by
  refine ⟨by simp, by simp, ?_, ?_⟩
  · intro x hx
    rw [kidsFrom_end]
    simp [List.getElem?_range hx]
  · intro j hj
    simp only
    rw [List.getElem?_range (by omega)]

/-! ## The search -/

/-- `W` lists all symbols in the order of the search. -/
structure Order (rules : List (Nat × Nat)) (W : List Nat) : Prop where
  nodup : W.Nodup
  eq : W = List.range 256 ++ W.flatMap (kidsFrom rules 0)
  mem : ∀ x, x ∈ W ↔ x < rules.length + 256

theorem order_complete {rules : List (Nat × Nat)} (ho : Ordered rules) {W : List Nat} (h : W = List.range 256 ++ W.flatMap (kidsFrom rules 0)) :
    ∀ x, x < rules.length + 256 → x ∈ W := by
  intro x
  induction x using Nat.strongRecOn with
  | ind x ih =>
    intro hx
    rw [h, List.mem_append]
    by_cases h256 : x < 256
    · exact .inl (by simpa using h256)
    · right
      obtain ⟨j, rfl⟩ : ∃ j, x = j + 256 := ⟨x - 256, by omega⟩
      have hj : rules[j]? = some (rules[j].1, rules[j].2) := List.getElem?_eq_getElem (by omega)
      have := (ho j _ _ hj).1
      rw [List.mem_flatMap]
      refine ⟨rules[j].1, ih _ (by omega) (by omega), mem_kidsFrom.2 ⟨j, _, rfl, by omega, hj, rfl⟩⟩

theorem nodup_bound {l : List Nat} {n : Nat} (h : l.Nodup) (hb : ∀ x ∈ l, x < n) : l.length ≤ n := by
  have := (List.subperm_of_subset h (l₂ := List.range n) (fun x hx => by simpa using hb x hx)).length_le
  simpa using this

theorem bfs_ok {rules : List (Nat × Nat)} (ho : Ordered rules) {s : List Nat × List Nat} (hs : BInv rules 0 s) :
    ∀ (fuel : Nat) (V Q rename : List Nat), V ++ Q = List.range 256 ++ V.flatMap (kidsFrom rules 0) → (V ++ Q).Nodup →
      (∀ x ∈ V ++ Q, x < rules.length + 256) → rules.length + 256 ≤ V.length + fuel → rename.length = rules.length →
      (∀ p e : Nat, V[p]? = some e → 256 ≤ e → rename[e - 256]? = some (p - 256)) →
      ∃ W rename', dsBfs s fuel Q V.length rename = .ok rename' ∧ Order rules W ∧ rename'.length = rules.length ∧
        (∀ p e : Nat, W[p]? = some e → 256 ≤ e → rename'[e - 256]? = some (p - 256)) := by
  intro fuel
  induction fuel with
  | zero =>
    intro V Q rename heq hnd hb hf hl hr
    cases Q with
    | nil =>
      rw [List.append_nil] at heq hnd hb
      exact ⟨V, rename, by simp [dsBfs], ⟨hnd, heq, fun x => ⟨hb x, order_complete ho heq x⟩⟩, hl, hr⟩
    | cons e q =>
      have := nodup_bound hnd hb
      simp at this
      omega
  | succ fuel ih =>
    intro V Q rename heq hnd hb hf hl hr
    cases Q with
    | nil =>
      rw [List.append_nil] at heq hnd hb
      exact ⟨V, rename, by simp [dsBfs], ⟨hnd, heq, fun x => ⟨hb x, order_complete ho heq x⟩⟩, hl, hr⟩
    | cons e q =>
      have he : e < rules.length + 256 := hb e (by simp)
      have hch := children_ok hs he
      have hVe : e ∉ V := by
        intro hm
        have := (List.nodup_append.1 hnd).2.2 e hm e (by simp)
        exact this rfl
      have heq' : (V ++ [e]) ++ (q ++ kidsFrom rules 0 e) = List.range 256 ++ (V ++ [e]).flatMap (kidsFrom rules 0) := by
        rw [List.flatMap_append, ← List.append_assoc (List.range 256), ← heq]
        simp
      have hnd' : ((V ++ [e]) ++ (q ++ kidsFrom rules 0 e)).Nodup := by
        have e1 : (V ++ [e]) ++ (q ++ kidsFrom rules 0 e) = (V ++ e :: q) ++ kidsFrom rules 0 e := by simp
        rw [e1]
        refine List.nodup_append.2 ⟨hnd, kidsFrom_nodup _ _ _, ?_⟩
        rintro a ha b hb rfl
        obtain ⟨j, p, rfl, _, hj, hpe⟩ := mem_kidsFrom.1 hb
        rw [heq, List.mem_append] at ha
        rcases ha with ha | ha
        · rw [List.mem_range] at ha
          omega
        · obtain ⟨v, hv, hv2⟩ := List.mem_flatMap.1 ha
          obtain ⟨j', p', hjj, _, hj', hpe'⟩ := mem_kidsFrom.1 hv2
          obtain rfl : j' = j := by omega
          rw [hj] at hj'
          cases hj'
          rw [← hpe, hpe'] at hVe
          exact hVe hv
      have hb' : ∀ x ∈ (V ++ [e]) ++ (q ++ kidsFrom rules 0 e), x < rules.length + 256 := by
        intro x hx
        have : x ∈ V ++ e :: q ∨ x ∈ kidsFrom rules 0 e := by
          simp only [List.mem_append, List.mem_cons, List.not_mem_nil, or_false] at hx ⊢
          tauto
        rcases this with h | h
        · exact hb x h
        · obtain ⟨j, p, rfl, _, hj, _⟩ := mem_kidsFrom.1 h
          have := (List.getElem?_eq_some_iff.1 hj).1
          omega
      have hVl : (V ++ [e]).length = V.length + 1 := by simp
      simp only [dsBfs, hch, Except.bind]
      rw [← hVl]
      by_cases h256 : e < 256
      · rw [if_pos h256]
        refine ih (V ++ [e]) (q ++ kidsFrom rules 0 e) rename heq' hnd' hb' (by omega) hl ?_
        intro p e' hp hle
        rw [List.getElem?_append] at hp
        split at hp
        · exact hr p e' hp hle
        · rw [List.getElem?_singleton] at hp
          split at hp
          · cases hp; omega
          · simp at hp
      · rw [if_neg h256, if_pos (by omega)]
        refine ih (V ++ [e]) (q ++ kidsFrom rules 0 e) _ heq' hnd' hb' (by omega) (by simpa using hl) ?_
        intro p e' hp hle
        rw [List.getElem?_append] at hp
        split at hp
        · have hne : e' ≠ e := by
            rintro rfl
            exact hVe (List.mem_of_getElem? hp)
          rw [List.getElem?_set_ne (by omega)]
          exact hr p e' hp hle
        · rw [List.getElem?_singleton] at hp
          split at hp
          · have := Option.some.inj hp
            subst this
            rw [List.getElem?_set_self (by omega), show V.length = p by omega]
          · simp at hp

/-! ## Renaming -/

theorem Order.length {rules : List (Nat × Nat)} {W : List Nat} (h : Order rules W) : W.length = rules.length + 256 := by
  have h1 := nodup_bound h.nodup (fun x hx => (h.mem x).1 hx)
  have h2 := (List.subperm_of_subset (l₁ := List.range (rules.length + 256)) List.nodup_range (l₂ := W) (fun x hx => (h.mem x).2 (by simpa using hx))).length_le
  simp at h2
  omega

theorem Order.low {rules : List (Nat × Nat)} {W : List Nat} (h : Order rules W) {p : Nat} (hp : p < 256) : W[p]? = some p := by
  rw [h.eq, List.getElem?_append_left (by simpa using hp), List.getElem?_range hp]

theorem Order.inj {rules : List (Nat × Nat)} {W : List Nat} (h : Order rules W) {p q e : Nat} (hp : W[p]? = some e) (hq : W[q]? = some e) : p = q := by
  obtain ⟨h1, e1⟩ := List.getElem?_eq_some_iff.1 hp
  obtain ⟨h2, e2⟩ := List.getElem?_eq_some_iff.1 hq
  exact (h.nodup.getElem_inj_iff (hi := h1) (hj := h2)).1 (e1.trans e2.symm)

theorem Order.idx {rules : List (Nat × Nat)} {W : List Nat} (h : Order rules W) {e : Nat} (he : e < rules.length + 256) : W[W.idxOf e]? = some e := by
  have hm := (h.mem e).2 he
  rw [List.getElem?_eq_getElem (List.idxOf_lt_length_of_mem hm)]
  simp

theorem Order.idx_low {rules : List (Nat × Nat)} {W : List Nat} (h : Order rules W) {e : Nat} (he : e < 256) : W.idxOf e = e :=
  h.inj (h.idx (by omega)) (h.low he)

theorem Order.idx_high {rules : List (Nat × Nat)} {W : List Nat} (h : Order rules W) {e : Nat} (he : e < rules.length + 256) (h256 : 256 ≤ e) :
    256 ≤ W.idxOf e ∧ W.idxOf e < rules.length + 256 := by
  constructor
  · by_contra hc
    have := h.low (p := W.idxOf e) (by omega)
    rw [h.idx he] at this
    have := Option.some.inj this
    omega
  · have := List.idxOf_lt_length_of_mem ((h.mem e).2 he)
    rw [h.length] at this
    exact this

theorem rename_ok {rules : List (Nat × Nat)} {W rename : List Nat} (h : Order rules W) 
    (hr : ∀ p e : Nat, W[p]? = some e → 256 ≤ e → rename[e - 256]? = some (p - 256)) {e : Nat} (he : e < rules.length + 256) :
    dsRename rename e = .ok (W.idxOf e) := by
  unfold dsRename
  by_cases h256 : 255 < e
  · rw [if_pos h256, hr _ e (h.idx he) (by omega)]
    have := h.idx_high he (by omega)
    simp only
    congr 1
    omega
  · rw [if_neg h256, h.idx_low (by omega)]

theorem dsRules_ok {rules : List (Nat × Nat)} {W rename : List Nat} (ho : Ordered rules) (h : Order rules W) 
    (hr : ∀ p e : Nat, W[p]? = some e → 256 ≤ e → rename[e - 256]? = some (p - 256)) :
    ∀ (m i : Nat) (out : List (Nat × Nat)), i + m = rules.length → out.length = rules.length →
      (∀ j l r, j < i → rules[j]? = some (l, r) → out[W.idxOf (256 + j) - 256]? = some (W.idxOf l, W.idxOf r)) →
      ∃ out', dsRules rename i (rules.drop i) out = .ok out' ∧ out'.length = rules.length ∧
        (∀ j l r, rules[j]? = some (l, r) → out'[W.idxOf (256 + j) - 256]? = some (W.idxOf l, W.idxOf r))
  | 0, i, out, him, hl, hinv => by
    refine ⟨out, by rw [List.drop_of_length_le (by omega)]; rfl, hl, ?_⟩
    intro j l r hj
    have := (List.getElem?_eq_some_iff.1 hj).1
    exact hinv j l r (by omega) hj
  | m + 1, i, out, him, hl, hinv => by
    have hi : i < rules.length := by omega
    have hp : rules[i]? = some (rules[i].1, rules[i].2) := List.getElem?_eq_getElem hi
    have hb := ho i _ _ hp
    have hidx := h.idx_high (e := 256 + i) (by omega) (by omega)
    have hri := hr _ _ (h.idx (e := 256 + i) (by omega)) (by omega)
    rw [show 256 + i - 256 = i by omega] at hri
    rw [List.drop_eq_getElem_cons hi]
    simp only [dsRules, hri, rename_ok h hr (e := rules[i].1) (by omega), rename_ok h hr (e := rules[i].2) (by omega), Except.bind]
    rw [if_pos (by omega)]
    refine dsRules_ok ho h hr m (i + 1) _ (by omega) (by simpa using hl) ?_
    intro j l r hj hjr
    by_cases hji : j = i
    · subst hji
      rw [List.getElem?_set_self (by omega)]
      rw [hp] at hjr
      cases hjr
      rfl
    · have hjl := (List.getElem?_eq_some_iff.1 hjr).1
      have hidx' := h.idx_high (e := 256 + j) (by omega) (by omega)
      rw [List.getElem?_set_ne, hinv j l r (by omega) hjr]
      intro hc
      have : W.idxOf (256 + i) = W.idxOf (256 + j) := by omega
      have h1 := h.idx (e := 256 + i) (by omega)
      have h2 := h.idx (e := 256 + j) (by omega)
      rw [this, h2] at h1
      have := Option.some.inj h1
      omega

theorem der_rename {g g' : List (Nat × Nat)} {f : Nat → Nat} (hf : ∀ c, c < 256 → f c = c) 
    (hg : ∀ i l r, g[i]? = some (l, r) → ∃ j, f (256 + i) = 256 + j ∧ g'[j]? = some (f l, f r)) {d x : Nat} {u : List UInt8} (h : DerivesIn g d x u) :
    DerivesIn g' d (f x) u := by
  induction h with
  | byte d c => rw [hf _ c.toNat_lt]; exact .byte d c
  | rule hi _ _ ih1 ih2 =>
    obtain ⟨j, h1, h2⟩ := hg _ _ _ hi
    rw [h1]
    exact .rule h2 ih1 ih2

/-- Sorting succeeds; the result stands for the same text, has as many rules, its symbols are in range, and the left symbols do not decrease. -/
theorem depSort_ok {s : SLP} (ho : Ordered s.rules) (hroot : s.root < 256 + s.rules.length) :
    ∃ s', depSort s = .ok s' ∧ s'.empty = s.empty ∧ s'.rules.length = s.rules.length ∧ (s'.root < 256 + s.rules.length) ∧ (s'.root < 256 ↔ s.root < 256) ∧
      (s.root < 256 → s'.root = s.root) ∧
      (∀ p ∈ s'.rules, p.1 < 256 + s.rules.length ∧ p.2 < 256 + s.rules.length) ∧ (s'.rules.map Prod.fst).Pairwise (· ≤ ·) ∧
      ∀ d u, DerivesIn s.rules d s.root u → DerivesIn s'.rules d s'.root u := by
  obtain ⟨rules, root, empty⟩ := s
  simp only at *
  obtain ⟨l, e1, hl⟩ := build_ok ho rules.length _ (Nat.le_refl _) build_init
  obtain ⟨W, rename, e2, hW, hlen, hr⟩ := bfs_ok ho hl (rules.length + 256) [] (List.range 256) (List.replicate rules.length 0) (by simp) (by simpa using List.nodup_range)
    (by intro x hx; simp at hx; omega) (by simp) (by simp) (by simp)
  obtain ⟨out, e3, hol, hout⟩ := dsRules_ok ho hW hr rules.length 0 (List.replicate rules.length (0, 0)) (by simp) (by simp) (by simp)
  have e4 := rename_ok hW hr (e := root) (by omega)
  rw [List.drop_zero] at e3
  simp only [List.length_nil] at e2
  have hlt : ∀ e, e < rules.length + 256 → W.idxOf e < 256 + rules.length := by
    intro e he
    have := List.idxOf_lt_length_of_mem ((hW.mem e).2 he)
    rw [hW.length] at this
    omega
  have hout2 : ∀ j p, out[j]? = some p → ∃ i l r, rules[i]? = some (l, r) ∧ W[256 + j]? = some (256 + i) ∧ p = (W.idxOf l, W.idxOf r) := by
    intro j p hj
    have hjl := (List.getElem?_eq_some_iff.1 hj).1
    have hwl := hW.length
    have hw : W[256 + j]? = some W[256 + j] := List.getElem?_eq_getElem (by omega)
    have hm := (hW.mem W[256 + j]).1 (List.getElem_mem _)
    have h256 : 256 ≤ W[256 + j] := by
      by_contra hc
      have := hW.inj (hW.low (p := W[256 + j]) (by omega)) hw
      omega
    obtain ⟨i, hi⟩ : ∃ i, W[256 + j] = 256 + i := ⟨W[256 + j] - 256, by omega⟩
    rw [hi] at hw hm
    have hri : rules[i]? = some (rules[i].1, rules[i].2) := List.getElem?_eq_getElem (by omega)
    refine ⟨i, _, _, hri, hw, ?_⟩
    have := hout i _ _ hri
    rw [hW.inj (hW.idx (e := 256 + i) (by omega)) hw, show 256 + j - 256 = j by omega, hj] at this
    exact Option.some.inj this
  refine ⟨⟨out, W.idxOf root, empty⟩, by simp [depSort, e1, e2, e3, e4, Except.bind], rfl, hol, hlt root (by omega), ?_, fun h => hW.idx_low h, ?_, ?_, ?_⟩
  · constructor
    · intro h
      by_contra hc
      have := hW.idx_high (e := root) (by omega) (by omega)
      simp only at h
      omega
    · intro h
      simp only
      rw [hW.idx_low h]; exact h
  · intro p hp
    obtain ⟨j, hj⟩ := List.getElem?_of_mem hp
    obtain ⟨i, l, r, h1, _, rfl⟩ := hout2 j p hj
    have := ho i l r h1
    have := (List.getElem?_eq_some_iff.1 h1).1
    exact ⟨hlt l (by omega), hlt r (by omega)⟩
  · have hmap : out.map Prod.fst = (W.flatMap (kidsFrom rules 0)).map (fun e => W.idxOf ((rules[e - 256]?.map Prod.fst).getD 0)) := by
      have hd : W.flatMap (kidsFrom rules 0) = W.drop 256 := by
        conv_rhs => rw [hW.eq]
        rw [List.drop_left' (by simp)]
      rw [hd]
      apply List.ext_getElem?
      intro j
      rw [List.getElem?_map, List.getElem?_map, List.getElem?_drop]
      cases hj : out[j]? with
      | none =>
        have := List.getElem?_eq_none_iff.1 hj
        rw [List.getElem?_eq_none (by rw [hW.length]; omega)]
        rfl
      | some p =>
        obtain ⟨i, l, r, h1, h2, rfl⟩ := hout2 j p hj
        rw [h2]
        simp [h1]
    simp only
    rw [hmap, List.map_flatMap]
    refine List.pairwise_flatMap.2 ⟨?_, ?_⟩
    · intro v hv
      rw [List.pairwise_map]
      refine List.pairwise_of_forall_mem_list ?_
      intro a ha b hb
      obtain ⟨j, p, rfl, _, hj, hp⟩ := mem_kidsFrom.1 ha
      obtain ⟨j', p', rfl, _, hj', hp'⟩ := mem_kidsFrom.1 hb
      simp [hj, hj', hp, hp']
    · refine List.Pairwise.imp_of_mem (R := fun a b => W.idxOf a < W.idxOf b) ?_ ?_
      · intro a b ha hb hab x hx y hy
        obtain ⟨c, hc, rfl⟩ := List.mem_map.1 hx
        obtain ⟨d, hd, rfl⟩ := List.mem_map.1 hy
        obtain ⟨j, p, rfl, _, hj, hp⟩ := mem_kidsFrom.1 hc
        obtain ⟨j', p', rfl, _, hj', hp'⟩ := mem_kidsFrom.1 hd
        simp [hj, hj', hp, hp']
        omega
      · rw [List.pairwise_iff_getElem]
        intro i j hi hj hij
        rw [hW.nodup.idxOf_getElem, hW.nodup.idxOf_getElem]
        exact hij
  · intro d u hd
    refine der_rename (f := W.idxOf) (fun c hc => hW.idx_low hc) ?_ hd
    intro i l r hi
    have hil := (List.getElem?_eq_some_iff.1 hi).1
    have := hW.idx_high (e := 256 + i) (by omega) (by omega)
    exact ⟨W.idxOf (256 + i) - 256, by omega, hout i l r hi⟩

end Esp
end Tdc
