import Mathlib.Logic.Equiv.Basic
import Mathlib.Algebra.Group.End
import Verif.Lemmas.DivSufSortSS3
import Verif.Model.DivSufSortIntro

/-! # Multikey introsort: substrings, characters, and the scans around a pivot -/

namespace Tdc

open DSS

variable {cell : Int → Int} {T : List UInt8}

/-- the substring goes on after `d` characters -/
def Good (T : List UInt8) (d x : Nat) : Prop := x + 1 < (bstars T).length ∧ d < (bkey T x).length

/-- the character behind the first `d` -/
def chr (T : List UInt8) (d x : Nat) : Nat := dssCh T (bst T x + d)

/-- the substring ends behind the character at `d` -/
def Ends (T : List UInt8) (d x : Nat) : Prop := (bkey T x).length = d + 1

instance (d x : Nat) : Decidable (Ends T d x) := by unfold Ends; infer_instance

theorem chr_get {d x : Nat} (h : Good T d x) : ∃ c : UInt8, (bkey T x)[d]? = some c ∧ c.toNat = chr T d x :=
  ⟨_, List.getElem?_eq_getElem h.2, bkey_get (by have := h.1; omega) h.2⟩

theorem key_split {d x : Nat} (h : Good T d x) : ∃ c : UInt8, c.toNat = chr T d x ∧ bkey T x = (bkey T x).take d ++ c :: (bkey T x).drop (d + 1) ∧
    (bkey T x).take (d + 1) = (bkey T x).take d ++ [c] := by
  obtain ⟨c, h1, h2⟩ := chr_get h
  have e : (bkey T x)[d]'h.2 = c := by
    rw [List.getElem?_eq_getElem h.2] at h1
    exact Option.some.inj h1
  refine ⟨c, h2, ?_, ?_⟩
  · rw [← e, ← List.drop_eq_getElem_cons h.2, List.take_append_drop]
  · rw [← e, List.take_succ, List.getElem?_eq_getElem h.2]; rfl

theorem key_lt_of_chr {d x y : Nat} (hx : Good T d x) (hy : Good T d y) (hs : (bkey T x).take d = (bkey T y).take d) (h : chr T d x < chr T d y) : bkey T x < bkey T y := by
  obtain ⟨c, h1, h2, -⟩ := key_split hx
  obtain ⟨c', h3, h4, -⟩ := key_split hy
  rw [h2, h4, hs, append_lt_append_left (fun a => UInt8.lt_irrefl a), List.cons_lt_cons_iff, UInt8.lt_iff_toNat_lt]
  left; omega

theorem take_succ_of_chr {d x y : Nat} (hx : Good T d x) (hy : Good T d y) (hs : (bkey T x).take d = (bkey T y).take d) (h : chr T d x = chr T d y) :
    (bkey T x).take (d + 1) = (bkey T y).take (d + 1) := by
  obtain ⟨c, h1, -, h2⟩ := key_split hx
  obtain ⟨c', h3, -, h4⟩ := key_split hy
  have : c = c' := UInt8.toNat_inj.mp (by omega)
  rw [h2, h4, hs, this]

theorem chr_of_take {d e x y : Nat} (hx : Good T d x) (hy : Good T d y) (he : d < e) (hs : (bkey T x).take e = (bkey T y).take e) : chr T d x = chr T d y := by
  obtain ⟨c, h1, h2⟩ := chr_get hx
  obtain ⟨c', h3, h4⟩ := chr_get hy
  have : (bkey T x)[d]? = (bkey T y)[d]? := by
    rw [← List.getElem?_take_of_lt (l := bkey T x) he, hs, List.getElem?_take_of_lt he]
  rw [h1, h3, Option.some.injEq] at this
  rw [← h2, ← h4, this]

theorem ends_eq {d x y : Nat} (hx : Ends T d x) (hy : Ends T d y) (hs : (bkey T x).take (d + 1) = (bkey T y).take (d + 1)) : bkey T x = bkey T y := by
  unfold Ends at hx hy
  rwa [List.take_of_length_le (by omega), List.take_of_length_le (by omega)] at hs

theorem ends_lt {d x y : Nat} (hx : Ends T d x) (hy : Good T d y) (hn : ¬ Ends T d y) (hs : (bkey T x).take (d + 1) = (bkey T y).take (d + 1)) : bkey T x < bkey T y := by
  have hy2 := hy.2
  unfold Ends at hx hn
  rw [List.take_of_length_le (by omega)] at hs
  have e : bkey T y = bkey T x ++ (bkey T y).drop (d + 1) := by rw [hs, List.take_append_drop]
  have e2 : bkey T x = bkey T x ++ [] := by rw [List.append_nil]
  rw [e]
  conv_lhs => rw [e2]
  rw [append_lt_append_left (fun a => UInt8.lt_irrefl a)]
  rw [List.drop_eq_getElem_cons (by omega)]
  exact List.nil_lt_cons _ _

theorem bend_next {d x : Nat} (h : Good T d x) : bst T (x + 1) + 2 = bst T x + (bkey T x).length := by
  have h1 := h.1
  rw [← bend_length (by omega)]
  unfold bend
  rw [if_pos h1]

theorem key_four {d x : Nat} (h : Good T d x) : 4 ≤ (bkey T x).length := by
  have := bend_next h
  have := (stars_bst T).gap h.1
  omega

/-- A substring can end only behind a larger character. -/
theorem not_ends {d x : Nat} (h : Good T d x) (hd : 1 ≤ d) (hc : chr T d x ≤ chr T (d - 1) x) : ¬ Ends T d x := by
  intro he
  unfold Ends at he
  have h1 := bend_next h
  obtain ⟨-, h2⟩ := (stars_bst T).next (dss_txt (cell := id) T (fun _ _ _ => rfl)).O h.1
  unfold chr at hc
  have e1 : bst T (x + 1) = bst T x + (d - 1) := by omega
  have e2 : bst T x + (d - 1) + 1 = bst T x + d := by omega
  rw [e1, e2] at h2
  omega

theorem ssChar_ok {B : List Int} (hB : HasPos T B) {p x d : Nat} (hp : B[p]? = some (x : Int)) (hg : Good T d x) :
    ssChar T ((T.length : Int) - (bstars T).length) d B p = .ok (chr T d x) := by
  have h2m := (divsufsort_bstars T).2
  have h1 := hg.1
  have e : (T.length : Int) - (bstars T).length + (x : Nat) = ((T.length - (bstars T).length + x : Nat) : Int) := by omega
  have e2 : (d : Int) + (bst T x : Nat) = ((bst T x + d : Nat) : Int) := by omega
  have hn := bend_spec (T := T) (x := x) (by omega)
  have := bend_length (T := T) (x := x) (by omega)
  have := hg.2
  unfold ssChar
  rw [sget_ok hp, DSS.bind_ok, e, sget_ok (hB x (by omega)), DSS.bind_ok, e2, (dss_txt (cell := id) T (fun _ _ _ => rfl)).get _ (by omega)]
  rfl

theorem ssEnded_ok {B : List Int} (hB : HasPos T B) {p x d : Nat} (hp : B[p]? = some (x : Int)) (hg : Good T d x) :
    ssEnded ((T.length : Int) - (bstars T).length) d B p = .ok (decide (Ends T d x)) := by
  have h2m := (divsufsort_bstars T).2
  have h1 := hg.1
  have e : (T.length : Int) - (bstars T).length + (x : Nat) = ((T.length - (bstars T).length + x : Nat) : Int) := by omega
  have e' : ((T.length - (bstars T).length + x : Nat) : Int) + 1 = ((T.length - (bstars T).length + (x + 1) : Nat) : Int) := by omega
  have hn := bend_next hg
  have := hg.2
  unfold ssEnded
  rw [sget_ok hp, DSS.bind_ok, e, e', sget_ok (hB x (by omega)), DSS.bind_ok, sget_ok (hB (x + 1) h1), DSS.bind_ok]
  congr 1
  unfold Ends
  by_cases h : (bkey T x).length = d + 1
  · rw [decide_eq_true h, decide_eq_true (by omega)]
  · rw [decide_eq_false h, decide_eq_false (by omega)]

/-! ### Permuting a part of the array -/

/-- The part `[f, l)` of the array `B0` holds numbers which go on after `d` characters. -/
structure Env (T : List UInt8) (d f l : Nat) (B0 : List Int) (o0 : Nat → Nat) : Prop where
  len : B0.length = T.length
  pos : HasPos T B0
  lm : l ≤ (bstars T).length
  good : ∀ p, f ≤ p → p < l → Good T d (o0 p)

/-- `B` holds `o` in `[f, l)`, the same as `o0` in another order, and is otherwise as `B0`. -/
structure Sh (f l : Nat) (B0 B : List Int) (o0 o : Nat → Nat) : Prop where
  len : B.length = B0.length
  hold : ∀ p, f ≤ p → p < l → B[p]? = some (o p : Int)
  out : ∀ p, p < f ∨ l ≤ p → B[p]? = B0[p]?
  perm : ∃ σ : Equiv.Perm Nat, (∀ p, p < f ∨ l ≤ p → σ p = p) ∧ ∀ p, o p = o0 (σ p)

variable {d f l : Nat} {B0 B : List Int} {o0 o : Nat → Nat}

theorem Sh.refl (h : ∀ p, f ≤ p → p < l → B0[p]? = some (o0 p : Int)) : Sh f l B0 B0 o0 o0 := ⟨rfl, h, fun _ _ => rfl, 1, fun _ _ => rfl, fun _ => rfl⟩

theorem perm_range {σ : Equiv.Perm Nat} (h : ∀ p, p < f ∨ l ≤ p → σ p = p) {p : Nat} (h1 : f ≤ p) (h2 : p < l) : f ≤ σ p ∧ σ p < l := by
  by_contra hc
  have h3 := h (σ p) (by omega)
  have h4 := σ.injective h3
  omega

theorem Sh.outo (S : Sh f l B0 B o0 o) {p : Nat} (h : p < f ∨ l ≤ p) : o p = o0 p := by
  obtain ⟨σ, h1, h2⟩ := S.perm
  rw [h2, h1 p h]

theorem Sh.mem (S : Sh f l B0 B o0 o) {p : Nat} (h1 : f ≤ p) (h2 : p < l) : ∃ q, f ≤ q ∧ q < l ∧ o p = o0 q := by
  obtain ⟨σ, h3, h4⟩ := S.perm
  exact ⟨σ p, (perm_range h3 h1 h2).1, (perm_range h3 h1 h2).2, h4 p⟩

theorem Sh.trans {B1 : List Int} {o1 : Nat → Nat} (S : Sh f l B0 B o0 o) (S' : Sh f l B B1 o o1) : Sh f l B0 B1 o0 o1 := by
  obtain ⟨σ, h1, h2⟩ := S.perm
  obtain ⟨τ, h3, h4⟩ := S'.perm
  exact ⟨by rw [S'.len, S.len], S'.hold, fun p hp => by rw [S'.out p hp, S.out p hp], σ * τ, fun p hp => by rw [Equiv.Perm.mul_apply, h3 p hp, h1 p hp],
    fun p => by rw [h4, h2, Equiv.Perm.mul_apply]⟩

theorem Sh.env (S : Sh f l B0 B o0 o) (E : Env T d f l B0 o0) : Env T d f l B o := by
  have h2m := (divsufsort_bstars T).2
  refine ⟨by rw [S.len, E.len], fun x hx => ?_, E.lm, fun p h1 h2 => ?_⟩
  · have := E.lm
    rw [S.out _ (Or.inr (by omega)), E.pos x hx]
  · obtain ⟨q, h3, h4, h5⟩ := S.mem h1 h2
    rw [h5]; exact E.good q h3 h4

/-- narrower parts -/
theorem Sh.widen {f' l' : Nat} (S : Sh f l B0 B o0 o) (hf : f' ≤ f) (hl : l ≤ l') (h0 : ∀ p, f' ≤ p → p < l' → B0[p]? = some (o0 p : Int)) : Sh f' l' B0 B o0 o := by
  refine ⟨S.len, fun p h1 h2 => ?_, fun p hp => S.out p (by omega), ?_⟩
  · by_cases h : f ≤ p ∧ p < l
    · exact S.hold p h.1 h.2
    · rw [S.out p (by omega), h0 p h1 h2, S.outo (by omega)]
  · obtain ⟨σ, h1, h2⟩ := S.perm
    exact ⟨σ, fun p hp => h1 p (by omega), h2⟩

/-- the numbers in the order `o` are a permutation of those in the order `o0` -/
theorem Sh.permL (S : Sh f l B0 B o0 o) : ((List.range' f (l - f)).map o).Perm ((List.range' f (l - f)).map o0) := by
  obtain ⟨σ, h1, h2⟩ := S.perm
  have e : (List.range' f (l - f)).map o = ((List.range' f (l - f)).map σ).map o0 := by
    rw [List.map_map]
    exact List.map_congr_left (fun p _ => h2 p)
  rw [e]
  refine List.Perm.map _ ?_
  refine (List.perm_ext_iff_of_nodup ((List.nodup_range').map σ.injective) List.nodup_range').mpr (fun x => ?_)
  rw [List.mem_map, List.mem_range'_1]
  constructor
  · rintro ⟨p, hp, rfl⟩
    rw [List.mem_range'_1] at hp
    have := perm_range h1 (p := p) hp.1 (by omega)
    omega
  · intro hx
    refine ⟨σ.symm x, ?_, σ.apply_symm_apply x⟩
    rw [List.mem_range'_1]
    have hs : ∀ p, p < f ∨ l ≤ p → σ.symm p = p := fun p hp => by
      rw [Equiv.symm_apply_eq, h1 p hp]
    have := perm_range hs (p := x) hx.1 (by omega)
    omega

/-- `o` with two places exchanged -/
def swp (o : Nat → Nat) (p q : Nat) : Nat → Nat := fun x => o (Equiv.swap p q x)

theorem swp_left (p q : Nat) : swp o p q p = o q := by unfold swp; rw [Equiv.swap_apply_left]
theorem swp_right (p q : Nat) : swp o p q q = o p := by unfold swp; rw [Equiv.swap_apply_right]
theorem swp_ne {p q x : Nat} (h1 : x ≠ p) (h2 : x ≠ q) : swp o p q x = o x := by unfold swp; rw [Equiv.swap_apply_of_ne_of_ne h1 h2]

theorem Env.cells (E : Env T d f l B0 o0) (hcell : ∀ v : Int, -T.length ≤ v → v < T.length → cell v = v) {p : Nat} (h1 : f ≤ p) (h2 : p < l) :
    cell (o0 p : Int) = o0 p ∧ cell (inv (o0 p)) = inv (o0 p) := by
  have h2m := (divsufsort_bstars T).2
  have := (E.good p h1 h2).1
  exact ⟨hcell _ (by omega) (by omega), hcell _ (by unfold inv; omega) (by unfold inv; omega)⟩

theorem ssSwap_ok (hcell : ∀ v : Int, -T.length ≤ v → v < T.length → cell v = v) (E : Env T d f l B0 o0) (S : Sh f l B0 B o0 o) {p q : Nat}
    (hp1 : f ≤ p) (hp2 : p < l) (hq1 : f ≤ q) (hq2 : q < l) : ∃ B', ssSwap cell p q B = .ok B' ∧ Sh f l B0 B' o0 (swp o p q) := by
  have E' := S.env E
  have h2m := (divsufsort_bstars T).2
  have hl := E'.len
  have hlm := E'.lm
  unfold ssSwap
  rw [sget_ok (S.hold p hp1 hp2), DSS.bind_ok, sget_ok (S.hold q hq1 hq2), DSS.bind_ok, sset_ok (E'.cells hcell hq1 hq2).1 (by omega), DSS.bind_ok,
    sset_ok (E'.cells hcell hp1 hp2).1 (by rw [List.length_set]; omega)]
  refine ⟨_, rfl, S.trans ⟨by simp, fun x h1 h2 => ?_, fun x hx => ?_, Equiv.swap p q, fun x hx => Equiv.swap_apply_of_ne_of_ne (by omega) (by omega), fun x => rfl⟩⟩
  · by_cases h3 : x = q
    · subst h3
      rw [List.getElem?_set_self (by rw [List.length_set]; omega), swp_right]
    · rw [List.getElem?_set_ne (Ne.symm h3)]
      by_cases h4 : x = p
      · subst h4
        rw [List.getElem?_set_self (by omega), swp_left]
      · rw [List.getElem?_set_ne (Ne.symm h4), swp_ne h4 h3, S.hold x h1 h2]
  · rw [List.getElem?_set_ne (by omega), List.getElem?_set_ne (by omega)]

theorem Sh.char (E : Env T d f l B0 o0) (S : Sh f l B0 B o0 o) {p : Nat} (h1 : f ≤ p) (h2 : p < l) :
    ssChar T ((T.length : Int) - (bstars T).length) d B p = .ok (chr T d (o p)) :=
  ssChar_ok (S.env E).pos (S.hold p h1 h2) ((S.env E).good p h1 h2)

end Tdc
