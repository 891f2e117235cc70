import Verif.Model.LZ78U
import Verif.Spec.Suffix
import Verif.Lemmas.LZSSCoding
import Verif.Lemmas.HuffFile
import Verif.Lemmas.Arithmetic

namespace Tdc
namespace U78

open Arith (bind_ok)

theorem vget_ok {α : Type} {l : List α} {i : Nat} {a : α} (h : l[i]? = some a) : vget l i = .ok a := by
  unfold vget
  rw [h]

/-! ## slices and depths -/

theorem label_eq (T : List UInt8) (pos d : Nat) : label T pos d = slice T pos (pos + d) := by
  unfold label slice
  rw [Nat.add_sub_cancel_left]

theorem slice_self (T : List UInt8) (b : Nat) : slice T b b = [] := by
  unfold slice
  simp

theorem slice_append {T : List UInt8} {b m e : Nat} (h1 : b ≤ m) (h2 : m ≤ e) : slice T b m ++ slice T m e = slice T b e := by
  unfold slice
  have h3 : e - b = (m - b) + (e - m) := by omega
  rw [h3, List.take_add, List.drop_drop, show b + (m - b) = m by omega]

theorem slice_succ {T : List UInt8} {b m : Nat} {c : UInt8} (h1 : b ≤ m) (h2 : T[m]? = some c) : slice T b m ++ [c] = slice T b (m + 1) := by
  rw [← slice_append h1 (Nat.le_succ m)]
  congr 1
  unfold slice
  rw [show m + 1 - m = 1 by omega]
  obtain ⟨hm, he⟩ := List.getElem?_eq_some_iff.1 h2
  rw [List.drop_eq_getElem_cons hm, he]
  rfl

theorem slice_length {T : List UInt8} {b e : Nat} (h : e ≤ T.length) : (slice T b e).length = e - b := by
  unfold slice
  rw [List.length_take, List.length_drop]
  omega

theorem slice_take {T : List UInt8} {b m e : Nat} (h2 : m ≤ e) : (slice T b e).take (m - b) = slice T b m := by
  unfold slice
  rw [List.take_take]
  congr 1
  omega

/-- what is used of the text -/
structure Txt (T : List UInt8) : Prop where
  pos : 0 < T.length
  last : T[T.length - 1]? = some 0
  nz : ∀ i, i < T.length - 1 → ∃ c, T[i]? = some c ∧ c ≠ 0

theorem txt_of {T : List UInt8} (h : Sentinel T) : Txt T := by
  obtain ⟨u, rfl, hu⟩ := h
  refine ⟨by simp, by simp, fun i hi => ?_⟩
  simp only [List.length_append, List.length_singleton, Nat.add_sub_cancel] at hi
  refine ⟨u[i], ?_, ?_⟩
  · rw [List.getElem?_append_left hi, List.getElem?_eq_getElem hi]
  · intro h
    exact hu (h ▸ List.getElem_mem hi)

theorem Txt.slice_nz {T : List UInt8} (hT : Txt T) {b e : Nat} (he : e ≤ T.length - 1) : ∀ c ∈ slice T b e, c ≠ 0 := by
  intro c hc
  unfold slice at hc
  obtain ⟨i, hi⟩ := List.mem_iff_getElem?.1 hc
  rw [List.getElem?_take] at hi
  split at hi
  · next h =>
    rw [List.getElem?_drop] at hi
    obtain ⟨d, hd, hd0⟩ := hT.nz (b + i) (by omega)
    rw [hd] at hi
    cases hi
    exact hd0
  · cases hi

theorem Txt.slice_last {T : List UInt8} (hT : Txt T) {b e : Nat} (he : e ≤ T.length - 1) : (slice T b e).getLast? ≠ some 0 := by
  intro h
  exact hT.slice_nz he 0 (List.mem_of_getLast? h) rfl

theorem Txt.full {T : List UInt8} (hT : Txt T) : slice T 0 (T.length - 1) ++ [0] = T := by
  rw [slice_succ (Nat.zero_le _) hT.last]
  have := hT.pos
  unfold slice
  rw [List.drop_zero, List.take_of_length_le (by omega)]

theorem depths_cons {T : List UInt8} {pos : Nat} (h : pos < T.length) : ∃ ds, depths T pos = 0 :: ds ∧
    (∀ d ∈ ds, 0 < d ∧ pos + d ≤ T.length - 1) ∧ (0 :: ds).Pairwise (· < ·) := by
  obtain ⟨m, hm⟩ : ∃ m, T.length - pos = m + 1 := ⟨T.length - pos - 1, by omega⟩
  have hd : depths T pos = 0 :: ((List.range' 1 m).filter fun d => d == 0 || branching T (label T pos d)) := by
    unfold depths
    rw [hm, List.range_eq_range', List.range'_succ, List.filter_cons_of_pos (by simp)]
  refine ⟨_, hd, fun d hd => ?_, ?_⟩
  · have := List.mem_range'_1.1 (List.mem_filter.1 hd).1
    omega
  · rw [← hd]
    unfold depths
    exact List.pairwise_lt_range.filter _

/-! ## The table of the decoder -/

/-- factor `i` (0 = no factor) stands for the string -/
inductive Str (D : List (Nat × List UInt8)) : Nat → List UInt8 → Prop
  | nil : Str D 0 []
  | cons {i r : Nat} {s u : List UInt8} : D[i]? = some (r, s) → r ≤ i → Str D r u → Str D (i + 1) (u ++ s)

theorem Str.mono {D : List (Nat × List UInt8)} (E : List (Nat × List UInt8)) {i : Nat} {u : List UInt8} (h : Str D i u) : Str (D ++ E) i u := by
  induction h with
  | nil => exact .nil
  | @cons i r s u h1 h2 _ ih => exact .cons (by rw [List.getElem?_append_left (List.getElem?_eq_some_iff.1 h1).1]; exact h1) h2 ih

theorem Str.le {D : List (Nat × List UInt8)} {i : Nat} {u : List UInt8} (h : Str D i u) : i ≤ D.length := by
  cases h with
  | nil => exact Nat.zero_le _
  | cons h1 => exact (List.getElem?_eq_some_iff.1 h1).1

theorem factorAt_eq {D : List (Nat × List UInt8)} {i : Nat} {p : Nat × List UInt8} (h : D[i]? = some p) : factorAt D (i + 1) = .ok p := by
  unfold factorAt
  rw [if_neg (by omega), Nat.add_sub_cancel, vget, h]

theorem walkBack_eq {D : List (Nat × List UInt8)} : ∀ (fuel i : Nat) (u buf lits : List UInt8), Str D i u → i < fuel →
    walkBack D fuel buf i lits = .ok (buf ++ lits.reverse ++ u.reverse)
  | 0, _, _, _, _, _, h => by omega
  | fuel + 1, _, _, buf, lits, .nil, _ => by
    unfold walkBack
    simp
  | fuel + 1, _, _, buf, lits, .cons (i := i) (r := r) (s := s) (u := u) h1 h2 h3, hf => by
    unfold walkBack
    rw [if_neg (by omega), factorAt_eq h1, bind_ok, walkBack_eq fuel r u _ s h3 (by omega)]
    simp

theorem pushRef_eq {D : List (Nat × List UInt8)} (hD : D.length < 2 ^ 32) : ∀ (fuel i : Nat) (u part : List UInt8), Str D i u → i ≠ 0 → i ≤ fuel →
    pushRef D fuel part i = .ok (part ++ u.reverse)
  | _, _, _, _, .nil, h0, _ => absurd rfl h0
  | 0, _, _, _, .cons .., _, h => by omega
  | fuel + 1, _, _, part, .cons (i := i) (r := r) (s := s) (u := u) h1 h2 h3, _, hf => by
    have hi := (List.getElem?_eq_some_iff.1 h1).1
    unfold pushRef
    rw [Nat.mod_eq_of_lt (by omega), factorAt_eq h1, bind_ok]
    by_cases hr : r = 0
    · subst hr
      rw [if_pos rfl]
      cases h3
      rfl
    · rw [if_neg (show ¬ (r, s).1 = 0 from hr), pushRef_eq hD fuel r u _ h3 hr (by omega)]
      simp

theorem decFactor_eq {D : List (Nat × List UInt8)} {ref : Nat} {u : List UInt8} (lits : List UInt8) (hD : D.length < 2 ^ 32) (h : Str D ref u) :
    decFactor D ref lits = .ok (D ++ [(ref, lits)], u ++ lits) ∧ Str (D ++ [(ref, lits)]) (D.length + 1) (u ++ lits) := by
  have hle := h.le
  refine ⟨?_, .cons (by simp) hle (h.mono _)⟩
  unfold decFactor
  rw [Nat.mod_eq_of_lt (by omega), walkBack_eq _ ref u [] lits (h.mono _) (by omega), bind_ok]
  simp

/-! ## Coding of the calls -/

section
variable {c1 c2 : UCoder}

/-- all calls -/
def encs (c1 c2 : UCoder) (ts : List Tok) : List Bool := ts.flatMap (enc c1 c2)

theorem encs_cons (t : Tok) (ts : List Tok) : encs c1 c2 (t :: ts) = enc c1 c2 t ++ encs c1 c2 ts := rfl

theorem encs_append (a b : List Tok) : encs c1 c2 (a ++ b) = encs c1 c2 a ++ encs c1 c2 b := by
  unfold encs
  rw [List.flatMap_append]

/-- the call can be decoded -/
def Good (c1 c2 : UCoder) : Tok → Prop
  | .ref v r => c1.TokOk (r, v)
  | .sep _ => True
  | .chr c => c2.TokOk (.literal, c.toNat)

/-- the reference is in its range -/
def InRange : Tok → Prop
  | .ref v r => r.Has v
  | _ => True

theorem Good.length {ts : List Tok} (h : ∀ t ∈ ts, Good c1 c2 t) : ts.length ≤ (encs c1 c2 ts).length := by
  induction ts with
  | nil => exact Nat.zero_le _
  | cons t ts ih =>
    rw [encs_cons, List.length_append, List.length_cons]
    have h1 : 0 < (enc c1 c2 t).length := by
      have := h t (List.mem_cons_self ..)
      cases t with
      | ref v r => exact List.length_pos_iff.2 this.2
      | sep b => exact Nat.one_pos
      | chr c => exact List.length_pos_iff.2 this.2
    have := ih fun u hu => h u (List.mem_cons_of_mem _ hu)
    omega

theorem dec_ref {v : Nat} {r : Rng} (h : Good c1 c2 (.ref v r)) (rest : List Bool) : c1.dec r (enc c1 c2 (.ref v r) ++ rest) = .ok (v, rest) := h.1 rest

theorem dec_chr {c : UInt8} (h : Good c1 c2 (.chr c)) (rest : List Bool) : c2.dec .literal (enc c1 c2 (.chr c) ++ rest) = .ok (c.toNat, rest) := h.1 rest

theorem ofNat_toNat (c : UInt8) : UInt8.ofNat c.toNat = c := by simp

theorem decStr_eq : ∀ (s buf : List UInt8) (fuel : Nat) (rest : List Bool), (∀ c ∈ s, c ≠ 0) → (∀ c ∈ s, Good c1 c2 (.chr c)) →
    Good c1 c2 (.chr 0) → s.length < fuel → decStr c2 fuel buf (encs c1 c2 (s.map .chr ++ [.chr 0]) ++ rest) = .ok (buf ++ s, rest)
  | _, _, 0, _, _, _, _, h => by omega
  | [], buf, fuel + 1, rest, _, _, h0, _ => by
    unfold decStr
    simp only [List.map_nil, List.nil_append, encs_cons]
    have e : encs c1 c2 [] = [] := rfl
    rw [e, List.append_nil, dec_chr h0, bind_ok, if_pos (show UInt8.ofNat (0 : UInt8).toNat = 0 from rfl), List.append_nil]
  | c :: s, buf, fuel + 1, rest, hnz, hg, h0, hf => by
    unfold decStr
    rw [List.map_cons, List.cons_append, encs_cons, List.append_assoc, dec_chr (hg c (List.mem_cons_self ..)), bind_ok]
    simp only [ofNat_toNat]
    rw [if_neg (hnz c (List.mem_cons_self ..)), decStr_eq s _ fuel rest (fun d hd => hnz d (List.mem_cons_of_mem _ hd))
      (fun d hd => hg d (List.mem_cons_of_mem _ hd)) h0 (by simp only [List.length_cons] at hf; omega)]
    simp

/-- the factor table of the encoder is right -/
structure Inv (R : List UInt8 → Nat) (D : List (Nat × List UInt8)) : Prop where
  root : R [] = 0
  str : ∀ k, R k ≠ 0 → Str D (R k) k

theorem Inv.label {R : List UInt8 → Nat} {D : List (Nat × List UInt8)} (h : Inv R D) {T : List UInt8} {pos d : Nat}
    (hd : d = 0 ∨ R (label T pos d) ≠ 0) : Str D (R (label T pos d)) (label T pos d) := by
  by_cases h0 : R (U78.label T pos d) ≠ 0
  · exact h.str _ h0
  · have hd0 : d = 0 := hd.resolve_right h0
    subst hd0
    have e : U78.label T pos 0 = [] := by
      unfold U78.label
      simp
    rw [e, h.root]
    exact .nil

theorem climb_spec (T : List UInt8) (R : List UInt8 → Nat) (pos : Nat) : ∀ (ds : List Nat) (p : Nat), (p = 0 ∨ R (label T pos p) ≠ 0) →
    (climb T R pos p ds = 0 ∨ R (label T pos (climb T R pos p ds)) ≠ 0) ∧ climb T R pos p ds ∈ p :: ds
  | [], p, h => ⟨h, List.mem_cons_self ..⟩
  | d :: ds, p, h => by
    unfold climb
    by_cases hd : R (label T pos d) ≠ 0
    · rw [if_pos hd]
      obtain ⟨h1, h2⟩ := climb_spec T R pos ds d (Or.inr hd)
      exact ⟨h1, List.mem_cons_of_mem _ h2⟩
    · rw [if_neg hd]
      exact ⟨h, List.mem_cons_self ..⟩

theorem climb_depths {T : List UInt8} {R : List UInt8 → Nat} {pos : Nat} (h : pos < T.length) :
    (climb T R pos 0 (depths T pos).tail = 0 ∨ R (label T pos (climb T R pos 0 (depths T pos).tail)) ≠ 0) ∧
      pos + climb T R pos 0 (depths T pos).tail ≤ T.length - 1 := by
  obtain ⟨ds, hd, h1, -⟩ := depths_cons h
  rw [hd, List.tail_cons]
  obtain ⟨h2, h3⟩ := climb_spec T R pos ds 0 (Or.inl rfl)
  refine ⟨h2, ?_⟩
  rcases List.mem_cons.1 h3 with h | h
  · rw [h]
    omega
  · exact (h1 _ h).2

theorem climb2_spec (T : List UInt8) (R : List UInt8 → Nat) (pos : Nat) : ∀ (ds : List Nat) (p : Nat), (p = 0 ∨ R (label T pos p) ≠ 0) →
    (p :: ds).Pairwise (· < ·) → (∃ d ∈ ds, R (label T pos d) = 0) →
    ∃ a b, climb2 T R pos p ds = .ok (a, b) ∧ (a = 0 ∨ R (label T pos a) ≠ 0) ∧ a ∈ p :: ds ∧ b ∈ ds ∧ a < b ∧ R (label T pos b) = 0
  | [], _, _, _, ⟨d, hd, _⟩ => by cases hd
  | d :: ds, p, h, hs, ⟨e, he, he0⟩ => by
    unfold climb2
    by_cases hd : R (label T pos d) ≠ 0
    · rw [if_pos hd]
      have he' : e ∈ ds := by
        rcases List.mem_cons.1 he with h | h
        · exact absurd (h ▸ he0) hd
        · exact h
      obtain ⟨a, b, h1, h2, h3, h4, h5⟩ := climb2_spec T R pos ds d (Or.inr hd) (List.pairwise_cons.1 hs).2 ⟨e, he', he0⟩
      exact ⟨a, b, h1, h2, List.mem_cons_of_mem _ h3, List.mem_cons_of_mem _ h4, h5⟩
    · rw [if_neg hd]
      refine ⟨p, d, rfl, h, List.mem_cons_self .., List.mem_cons_self .., ?_, by omega⟩
      exact (List.pairwise_cons.1 hs).1 d (List.mem_cons_self ..)

/-! ## compress always succeeds -/

theorem has_range {v cnt : Nat} (h : v ≤ cnt) (hc : cnt < 2 ^ 32) : (Rng.range 0 cnt).Has v :=
  ⟨Nat.zero_le _, h, by show cnt < 2 ^ 64; omega⟩

theorem subLoop_total {T : List UInt8} {R : List UInt8 → Nat} {thr cnt e : Nat} (hthr : 1 ≤ thr) (he : e ≤ T.length - 1) (hn : T.length < 2 ^ 32)
    (hR : ∀ k, R k ≤ cnt) (hc : cnt < 2 ^ 32) : ∀ (fuel pos : Nat), e - pos < fuel →
    ∃ r, subLoop T R thr cnt e fuel pos = .ok r ∧ ∀ t ∈ r, InRange t
  | 0, _, h => by omega
  | fuel + 1, pos, hf => by
    unfold subLoop
    by_cases hp : pos < e
    · rw [if_pos hp]
      simp only
      generalize hd : climb T R pos 0 (depths T pos).tail = d
      by_cases hdt : d < thr
      · rw [if_pos hdt, vget, List.getElem?_eq_getElem (by omega)]
        obtain ⟨r, h1, h2⟩ := subLoop_total hthr he hn hR hc fuel (pos + 1) (by omega)
        refine ⟨_, by rw [bind_ok, h1, bind_ok], ?_⟩
        intro t ht
        simp only [List.mem_cons] at ht
        rcases ht with rfl | rfl | ht
        · trivial
        · trivial
        · exact h2 t ht
      · rw [if_neg hdt]
        obtain ⟨r, h1, h2⟩ := subLoop_total hthr he hn hR hc fuel (pos + d) (by omega)
        refine ⟨_, by rw [h1, bind_ok], ?_⟩
        have hb := (climb_depths (T := T) (R := R) (pos := pos) (by omega)).2
        rw [hd] at hb
        intro t ht
        simp only [List.mem_cons, List.mem_append] at ht
        rcases ht with rfl | rfl | ht | ht
        · trivial
        · exact has_range (hR _) hc
        · split at ht
          · simp only [List.mem_cons, List.not_mem_nil, or_false] at ht
            rcases ht with rfl | rfl | rfl
            · trivial
            · exact has_range (Nat.zero_le _) hc
            · exact has_range (by omega) (by omega)
          · cases ht
        · exact h2 t ht
    · rw [if_neg hp]
      exact ⟨[], rfl, by simp⟩

theorem strip_eq {T : List UInt8} (hT : Txt T) {b e : Nat} (hbe : b < e) (he : e ≤ T.length) (h1 : 1 < T.length) : ∃ e', strip T e = .ok e' ∧
    b ≤ e' ∧ e' ≤ T.length - 1 ∧ e' = min e (T.length - 1) := by
  obtain ⟨e, rfl⟩ : ∃ k, e = k + 1 := ⟨e - 1, by omega⟩
  unfold strip
  by_cases hl : e = T.length - 1
  · obtain ⟨k, rfl⟩ : ∃ k, e = k + 1 := ⟨e - 1, by omega⟩
    have hlast := hT.last
    rw [← hl] at hlast
    rw [vget_ok hlast, bind_ok, if_pos rfl]
    unfold strip
    obtain ⟨c, hc, hc0⟩ := hT.nz k (by omega)
    rw [vget_ok hc, bind_ok, if_neg hc0]
    exact ⟨k + 1, rfl, by omega, by omega, by omega⟩
  · obtain ⟨c, hc, hc0⟩ := hT.nz e (by omega)
    rw [vget, hc, bind_ok, if_neg hc0]
    exact ⟨e + 1, rfl, by omega, by omega, by omega⟩

theorem output_total {T : List UInt8} (hT : Txt T) {R : List UInt8 → Nat} {thr cnt b e ref fuel : Nat} (hthr : 1 ≤ thr) (hn : T.length < 2 ^ 32)
    (h1 : 1 < T.length) (hR : ∀ k, R k ≤ cnt) (hc : cnt < 2 ^ 32) (hbe : b < e) (he : e ≤ T.length) (hf : T.length < fuel) (href : ref ≤ cnt) :
    ∃ ts, output T R thr cnt fuel b e ref = .ok ts ∧ ∀ t ∈ ts, InRange t := by
  obtain ⟨e', s1, s2, s3, s4⟩ := strip_eq hT hbe he h1
  unfold output
  rw [s1, bind_ok]
  by_cases hl : sub32 e' b ≥ thr
  · rw [if_pos hl]
    obtain ⟨r, r1, r2⟩ := subLoop_total hthr s3 hn hR hc fuel b (by omega)
    refine ⟨_, by rw [r1, bind_ok], ?_⟩
    intro t ht
    simp only [List.mem_cons, List.mem_append, List.not_mem_nil, or_false] at ht
    rcases ht with rfl | rfl | ht | rfl | rfl
    · exact has_range href hc
    · trivial
    · exact r2 t ht
    · trivial
    · trivial
  · rw [if_neg hl]
    refine ⟨_, rfl, ?_⟩
    intro t ht
    simp only [List.mem_cons, List.mem_append, List.not_mem_nil, or_false, List.mem_map] at ht
    rcases ht with rfl | rfl | ⟨c, _, rfl⟩ | rfl
    · exact has_range href hc
    · trivial
    · trivial
    · trivial

theorem parent_mem {T : List UInt8} {pos : Nat} (h : pos < T.length) : (depths T pos).getLastD 0 ∈ depths T pos := by
  obtain ⟨ds, hd, -⟩ := depths_cons h
  rw [hd, List.getLastD_cons]
  rcases List.mem_cons.1 (List.getLastD_mem_cons (l := ds) (a := 0)) with h | h
  · rw [h]
    exact List.mem_cons_self ..
  · exact List.mem_cons_of_mem _ h

theorem parent_le {T : List UInt8} {pos : Nat} (h : pos < T.length) : pos + (depths T pos).getLastD 0 ≤ T.length - 1 := by
  have hm := parent_mem h
  obtain ⟨ds, hd, h1, -⟩ := depths_cons h
  rw [hd] at hm ⊢
  rcases List.mem_cons.1 hm with h | h
  · rw [h]
    omega
  · exact (h1 _ h).2

/-- the else branch of the main loop -/
theorem climb2_depths {T : List UInt8} {R : List UInt8 → Nat} {pos : Nat} (h : pos < T.length)
    (hpd : ¬ ((depths T pos).getLastD 0 = 0 ∨ R (label T pos ((depths T pos).getLastD 0)) ≠ 0)) :
    ∃ a b, climb2 T R pos 0 (depths T pos).tail = .ok (a, b) ∧ (a = 0 ∨ R (label T pos a) ≠ 0) ∧ a < b ∧ pos + b ≤ T.length - 1 ∧ R (label T pos b) = 0 := by
  have hm := parent_mem h
  obtain ⟨ds, hd, h1, h2⟩ := depths_cons h
  have hpd' : (depths T pos).getLastD 0 ≠ 0 ∧ R (label T pos ((depths T pos).getLastD 0)) = 0 := by
    constructor
    · exact fun h => hpd (Or.inl h)
    · by_contra h
      exact hpd (Or.inr h)
  rw [hd] at hm
  have hm2 : (depths T pos).getLastD 0 ∈ ds := by
    rw [hd]
    rcases List.mem_cons.1 hm with h | h
    · rw [hd] at hpd'
      exact absurd h hpd'.1
    · exact h
  obtain ⟨a, b, c1, c2, c3, c4, c5, c6⟩ := climb2_spec T R pos ds 0 (Or.inl rfl) h2 ⟨_, hm2, hpd'.2⟩
  rw [hd, List.tail_cons]
  exact ⟨a, b, c1, c2, c5, (h1 b c4).2, c6⟩

theorem assign_le {R : List UInt8 → Nat} {w z : Nat} {l : List UInt8} (hR : ∀ k, R k ≤ z) : ∀ k, assign R w l (z + 1) k ≤ z + 1 := by
  intro k
  unfold assign
  split
  · exact Nat.mod_le _ _
  · have := hR k
    omega

theorem mainLoop_total {T : List UInt8} (hT : Txt T) {thr w sf : Nat} (hthr : 1 ≤ thr) (hn : T.length < 2 ^ 32) (hsf : T.length < sf) :
    ∀ (fuel pos : Nat) (R : List UInt8 → Nat) (z : Nat), T.length - pos < fuel → (∀ k, R k ≤ z) → z ≤ pos → pos ≤ T.length →
    ∃ fs, mainLoop T thr w sf fuel pos R z = .ok fs ∧ (∀ t ∈ fs.flatten, InRange t) ∧ pos + fs.length ≤ T.length
  | 0, _, _, _, h, _, _, _ => by omega
  | fuel + 1, pos, R, z, hf, hR, hz, hpn => by
    unfold mainLoop
    by_cases hp : pos < T.length - 1
    · rw [if_pos hp]
      simp only
      have hpl := parent_le (T := T) (pos := pos) (by omega)
      by_cases hpd : (depths T pos).getLastD 0 = 0 ∨ R (label T pos ((depths T pos).getLastD 0)) ≠ 0
      · rw [if_pos hpd]
        obtain ⟨ts, o1, o2⟩ := output_total hT (R := R) (thr := thr) (cnt := z) (b := pos + (depths T pos).getLastD 0) (e := pos + (depths T pos).getLastD 0 + 1)
          (ref := R (label T pos ((depths T pos).getLastD 0))) (fuel := sf) hthr hn (by omega) hR (by omega) (by omega) (by omega) hsf (hR _)
        obtain ⟨fs, f1, f2, f3⟩ := mainLoop_total hT (thr := thr) (w := w) hthr hn hsf fuel (pos + (depths T pos).getLastD 0 + 1) R (z + 1) (by omega)
          (fun k => Nat.le_succ_of_le (hR k)) (by omega) (by omega)
        refine ⟨ts :: fs, by rw [o1, bind_ok, f1, bind_ok], ?_, by rw [List.length_cons]; omega⟩
        intro t ht
        rw [List.flatten_cons, List.mem_append] at ht
        rcases ht with ht | ht
        · exact o2 t ht
        · exact f2 t ht
      · rw [if_neg hpd]
        obtain ⟨a, b, q1, q2, q3, q4, -⟩ := climb2_depths (T := T) (pos := pos) (by omega) hpd
        rw [q1, bind_ok]
        simp only
        obtain ⟨ts, o1, o2⟩ := output_total hT (R := R) (thr := thr) (cnt := z) (b := pos + a) (e := pos + b)
          (ref := R (label T pos a)) (fuel := sf) hthr hn (by omega) hR (by omega) (by omega) (by omega) hsf (hR _)
        obtain ⟨fs, f1, f2, f3⟩ := mainLoop_total hT (thr := thr) (w := w) hthr hn hsf fuel (pos + b) (assign R w (label T pos b) (z + 1)) (z + 1) (by omega)
          (assign_le hR) (by omega) (by omega)
        refine ⟨ts :: fs, by rw [o1, bind_ok, f1, bind_ok], ?_, by rw [List.length_cons]; omega⟩
        intro t ht
        rw [List.flatten_cons, List.mem_append] at ht
        rcases ht with ht | ht
        · exact o2 t ht
        · exact f2 t ht
    · rw [if_neg hp]
      exact ⟨[], rfl, by simp, by simpa using hpn⟩

/-! ## decompress inverts it -/

theorem rdBit_cons (b : Bool) (bs : List Bool) : rdBit (b :: bs) = (b, bs) := rfl

theorem enc_sep (b : Bool) (rest : List Bool) : enc c1 c2 (.sep b) ++ rest = b :: rest := rfl

theorem step_chr {D : List (Nat × List UInt8)} {cnt : Nat} {buf : List UInt8} {c : UInt8} (h : Good c1 c2 (.chr c)) (rest : List Bool) :
    decSubStep c1 c2 D cnt buf (false :: (enc c1 c2 (.chr c) ++ rest)) = .ok (buf ++ [c], rest) := by
  unfold decSubStep
  rw [rdBit_cons, if_pos rfl, dec_chr h, bind_ok]
  simp only [ofNat_toNat]

theorem step_ref {D : List (Nat × List UInt8)} {cnt v : Nat} {buf u : List UInt8} (hD : D.length < 2 ^ 32) (h : Good c1 c2 (.ref v (.range 0 cnt)))
    (hv : v ≠ 0) (hs : Str D v u) (rest : List Bool) :
    decSubStep c1 c2 D cnt buf (true :: (enc c1 c2 (.ref v (.range 0 cnt)) ++ rest)) = .ok (buf ++ u, rest) := by
  unfold decSubStep
  have hle := hs.le
  rw [rdBit_cons, if_neg (show ¬ true = false by decide), dec_ref h, bind_ok, if_neg hv, pushRef_eq hD _ v u [] hs hv (by omega), bind_ok]
  simp

theorem step_cut {D : List (Nat × List UInt8)} {cnt k : Nat} {buf : List UInt8} (h : Good c1 c2 (.ref 0 (.range 0 cnt))) (h2 : Good c1 c2 (.ref k lenR))
    (hk : k ≤ buf.length) (rest : List Bool) :
    decSubStep c1 c2 D cnt buf (true :: (enc c1 c2 (.ref 0 (.range 0 cnt)) ++ (enc c1 c2 (.ref k lenR) ++ rest))) = .ok (buf.take (buf.length - k), rest) := by
  unfold decSubStep
  rw [rdBit_cons, if_neg (show ¬ true = false by decide), dec_ref h, bind_ok, if_pos rfl, dec_ref h2, bind_ok, popN, if_pos hk, bind_ok]

theorem decSub_go {D : List (Nat × List UInt8)} {cnt fuel : Nat} {buf buf' : List UInt8} {bs bs' : List Bool}
    (h : decSubStep c1 c2 D cnt buf bs = .ok (buf', bs')) (hl : buf'.getLast? ≠ some 0) : decSub c1 c2 D cnt (fuel + 1) buf bs = decSub c1 c2 D cnt fuel buf' bs' := by
  rw [decSub, h, bind_ok, if_neg hl]

theorem decSub_eq {T : List UInt8} (hT : Txt T) {R : List UInt8 → Nat} {D : List (Nat × List UInt8)} (hI : Inv R D) (hD : D.length < 2 ^ 32) {thr cnt b e : Nat}
    (hthr : 1 ≤ thr) (he : e ≤ T.length - 1) (hbe : b ≤ e) (h0 : Good c1 c2 (.chr 0)) : ∀ (fuel pos fuel' : Nat) (r : List Tok) (rest : List Bool),
    subLoop T R thr cnt e fuel pos = .ok r → b ≤ pos → (∀ t ∈ r, Good c1 c2 t) → r.length < fuel' →
    decSub c1 c2 D cnt fuel' (slice T b (min pos e)) (encs c1 c2 (r ++ [.sep false, .chr 0]) ++ rest) = .ok (slice T b e, rest)
  | 0, _, _, _, _, h, _, _, _ => by cases h
  | fuel + 1, pos, fuel', r, rest, h, hb, hg, hf => by
    unfold subLoop at h
    obtain ⟨fuel', rfl⟩ : ∃ k, fuel' = k + 1 := ⟨fuel' - 1, by omega⟩
    by_cases hp : pos < e
    · rw [if_pos hp] at h
      simp only at h
      obtain ⟨cl1, cl2⟩ := climb_depths (T := T) (R := R) (pos := pos) (by omega)
      generalize climb T R pos 0 (depths T pos).tail = d at h cl1 cl2
      rw [show min pos e = pos by omega]
      by_cases hdt : d < thr
      · rw [if_pos hdt] at h
        obtain ⟨c, hc, hc0⟩ := hT.nz pos (by omega)
        rw [vget_ok hc, bind_ok] at h
        cases hr : subLoop T R thr cnt e fuel (pos + 1) with
        | error x => rw [hr] at h; cases h
        | ok r' =>
          rw [hr, bind_ok] at h
          injection h with h
          subst h
          have ih := decSub_eq hT hI hD hthr he hbe h0 fuel (pos + 1) fuel' r' rest hr (by omega) (fun t ht => hg t (by simp [ht]))
            (by simp only [List.length_cons] at hf; omega)
          rw [show min (pos + 1) e = pos + 1 by omega] at ih
          rw [List.cons_append, List.cons_append, encs_cons, List.append_assoc, enc_sep, encs_cons, List.append_assoc]
          rw [decSub_go (step_chr (hg (.chr c) (by simp)) _), slice_succ hb hc, ih]
          rw [slice_succ hb hc]
          exact hT.slice_last (by omega)
      · rw [if_neg hdt] at h
        have hd0 : R (label T pos d) ≠ 0 := cl1.resolve_left (by omega)
        have hstr := hI.str _ hd0
        rw [label_eq] at hstr
        cases hr : subLoop T R thr cnt e fuel (pos + d) with
        | error x => rw [hr] at h; cases h
        | ok r' =>
          rw [hr, bind_ok] at h
          injection h with h
          subst h
          have hgr : Good c1 c2 (.ref (R (label T pos d)) (.range 0 cnt)) := hg _ (by simp)
          have hd0' := hd0
          rw [label_eq] at hd0' hgr
          rw [List.cons_append, List.cons_append, encs_cons, List.append_assoc, enc_sep, encs_cons, List.append_assoc]
          rw [label_eq, decSub_go (step_ref hD hgr hd0' hstr _), slice_append hb (by omega)]
          · simp only [List.length_cons, List.length_append] at hf
            by_cases hov : pos + d > e
            · rw [if_pos hov] at *
              simp only [List.length_cons, List.length_nil] at hf
              obtain ⟨fuel', rfl⟩ : ∃ k, fuel' = k + 1 := ⟨fuel' - 1, by omega⟩
              have ih := decSub_eq hT hI hD hthr he hbe h0 fuel (pos + d) fuel' r' rest hr (by omega) (fun t ht => hg t (by simp [ht])) (by omega)
              rw [show min (pos + d) e = e by omega] at ih
              have hlen : (slice T b (pos + d)).length = pos + d - b := slice_length (by omega)
              have htk : (slice T b (pos + d)).take ((slice T b (pos + d)).length - (pos + d - e)) = slice T b e := by
                rw [hlen, show pos + d - b - (pos + d - e) = e - b by omega]
                exact slice_take (by omega)
              simp only [List.cons_append, List.nil_append]
              rw [encs_cons, List.append_assoc, enc_sep, encs_cons, List.append_assoc, encs_cons, List.append_assoc]
              rw [decSub_go (step_cut (hg _ (by simp)) (hg _ (by simp)) (by omega) _), htk, ih]
              rw [htk]
              exact hT.slice_last he
            · rw [if_neg hov] at *
              have ih := decSub_eq hT hI hD hthr he hbe h0 fuel (pos + d) fuel' r' rest hr (by omega) (fun t ht => hg t (by simp [ht]))
                (by simp only [List.length_nil] at hf; omega)
              rw [show min (pos + d) e = pos + d by omega] at ih
              rw [List.nil_append, ih]
          · rw [slice_append hb (by omega)]
            exact hT.slice_last (by omega)
    · rw [if_neg hp] at h
      injection h with h
      subst h
      rw [show min pos e = e by omega, List.nil_append, encs_cons, List.append_assoc, enc_sep, encs_cons, List.append_assoc]
      have e0 : encs c1 c2 [] = [] := rfl
      rw [decSub, step_chr h0, bind_ok, e0, if_pos (by simp)]
      simp

theorem output_head {T : List UInt8} {R : List UInt8 → Nat} {thr cnt sf b e0 ref : Nat} {ts : List Tok} (h : output T R thr cnt sf b e0 ref = .ok ts) :
    ∃ x xs, ts = .ref ref (.range 0 cnt) :: .sep x :: xs := by
  unfold output at h
  cases hs : strip T e0 with
  | error x => rw [hs] at h; cases h
  | ok e =>
    rw [hs, bind_ok] at h
    split at h
    · cases hr : subLoop T R thr cnt e sf b with
      | error x => rw [hr] at h; cases h
      | ok r =>
        rw [hr, bind_ok] at h
        injection h with h
        exact ⟨_, _, h.symm⟩
    · injection h with h
      exact ⟨_, _, h.symm⟩

/-- one factor -/
theorem decLoop_step {T : List UInt8} (hT : Txt T) (h1n : 1 < T.length) {R : List UInt8 → Nat} {D : List (Nat × List UInt8)} (hI : Inv R D) (hD : D.length < 2 ^ 32)
    {thr sf b e0 ref fuel : Nat} {ts : List Tok} {u : List UInt8} {rest : List Bool} (hthr : 1 ≤ thr)
    (h : output T R thr D.length sf b e0 ref = .ok ts) (hbe : b < e0) (he : e0 ≤ T.length) (hs : Str D ref u) (hg : ∀ t ∈ ts, Good c1 c2 t) :
    decLoop c1 c2 (fuel + 1) D (encs c1 c2 ts ++ rest) =
      (decLoop c1 c2 fuel (D ++ [(ref, slice T b (min e0 (T.length - 1)))]) rest).bind fun r => .ok ((u ++ slice T b (min e0 (T.length - 1))) ++ r) := by
  obtain ⟨e, s1, s2, s3, s4⟩ := strip_eq hT hbe he h1n
  rw [← s4]
  obtain ⟨d1, -⟩ := decFactor_eq (slice T b e) hD hs
  have hlen := Good.length hg
  obtain ⟨x, xs, hts⟩ := output_head h
  have hne : (encs c1 c2 ts ++ rest).isEmpty = false := by
    have : 0 < (encs c1 c2 ts).length := by
      rw [hts] at hlen
      rw [hts]
      simp only [List.length_cons] at hlen
      omega
    cases hh : encs c1 c2 ts with
    | nil => rw [hh] at this; simp at this
    | cons => rfl
  rw [decLoop, hne, if_neg (by decide)]
  generalize hbl : (encs c1 c2 ts ++ rest).length = bl
  rw [List.length_append] at hbl
  unfold output at h
  rw [s1, bind_ok] at h
  by_cases hl : sub32 e b ≥ thr
  · rw [if_pos hl] at h
    cases hr : subLoop T R thr D.length e sf b with
    | error x => rw [hr] at h; cases h
    | ok r =>
      rw [hr, bind_ok] at h
      injection h with h
      subst h
      have hsub := decSub_eq hT hI hD hthr s3 s2 (hg _ (by simp)) sf b (bl + 1) r rest hr (Nat.le_refl _) (fun t ht => hg t (by simp [ht]))
        (by simp only [List.length_cons, List.length_append] at hlen; omega)
      rw [show min b e = b by omega, slice_self] at hsub
      rw [encs_cons, List.append_assoc, encs_cons, List.append_assoc, enc_sep, dec_ref (hg _ (by simp)), bind_ok]
      rw [rdBit_cons, decLabel, if_neg (show ¬ false = true by decide), hsub, bind_ok, d1, bind_ok]
  · rw [if_neg hl] at h
    injection h with h
    subst h
    have hstr := decStr_eq (c1 := c1) (c2 := c2) (slice T b e) [] (bl + 1) rest (hT.slice_nz s3) (fun c hc => hg _ (by simp [hc])) (hg _ (by simp))
      (by simp only [List.length_cons, List.length_append, List.length_map] at hlen; omega)
    rw [encs_cons, List.append_assoc, encs_cons, List.append_assoc, enc_sep, dec_ref (hg _ (by simp)), bind_ok]
    rw [rdBit_cons, decLabel, if_pos rfl, hstr, bind_ok, List.nil_append, d1, bind_ok]

theorem decLoop_eq {T : List UInt8} (hT : Txt T) {thr w sf : Nat} (hthr : 1 ≤ thr) (hn : T.length < 2 ^ 32) :
    ∀ (fuel pos : Nat) (R : List UInt8 → Nat) (D : List (Nat × List UInt8)) (fs : List (List Tok)) (fuel' : Nat),
    mainLoop T thr w sf fuel pos R D.length = .ok fs → Inv R D → D.length ≤ pos → D.length + fs.length < 2 ^ w → (∀ t ∈ fs.flatten, Good c1 c2 t) →
    fs.length < fuel' → pos ≤ T.length → decLoop c1 c2 fuel' D (encs c1 c2 fs.flatten) = .ok (slice T (min pos (T.length - 1)) (T.length - 1))
  | 0, _, _, _, _, _, h, _, _, _, _, _, _ => by cases h
  | fuel + 1, pos, R, D, fs, fuel', h, hI, hz, hw, hg, hf, hpn => by
    unfold mainLoop at h
    obtain ⟨fuel', rfl⟩ : ∃ k, fuel' = k + 1 := ⟨fuel' - 1, by omega⟩
    by_cases hp : pos < T.length - 1
    · rw [if_pos hp] at h
      simp only at h
      have hpl := parent_le (T := T) (pos := pos) (by omega)
      rw [show min pos (T.length - 1) = pos by omega]
      by_cases hpd : (depths T pos).getLastD 0 = 0 ∨ R (label T pos ((depths T pos).getLastD 0)) ≠ 0
      · rw [if_pos hpd] at h
        generalize (depths T pos).getLastD 0 = pd at h hpl hpd
        cases ho : output T R thr D.length sf (pos + pd) (pos + pd + 1) (R (label T pos pd)) with
        | error x => rw [ho] at h; cases h
        | ok ts =>
          rw [ho, bind_ok] at h
          cases hr : mainLoop T thr w sf fuel (pos + pd + 1) R (D.length + 1) with
          | error x => rw [hr] at h; cases h
          | ok r =>
            rw [hr, bind_ok] at h
            injection h with h
            subst h
            have hstr := hI.label (T := T) (pos := pos) (d := pd) hpd
            rw [List.flatten_cons, encs_append]
            rw [decLoop_step hT (by omega) hI (by omega) hthr ho (by omega) (by omega) hstr (fun t ht => hg t (by simp [ht]))]
            generalize hD' : D ++ [(R (label T pos pd), slice T (pos + pd) (min (pos + pd + 1) (T.length - 1)))] = D'
            have hDl : D'.length = D.length + 1 := by rw [← hD']; simp
            have hI' : Inv R D' := ⟨hI.root, fun k hk => by rw [← hD']; exact (hI.str k hk).mono _⟩
            rw [← hDl] at hr
            simp only [List.length_cons] at hw hf
            have ih := decLoop_eq hT hthr hn fuel (pos + pd + 1) R D' r fuel' hr hI' (by omega) (by omega)
              (fun t ht => hg t (by rw [List.flatten_cons, List.mem_append]; exact Or.inr ht)) (by omega) (by omega)
            rw [ih, bind_ok, label_eq, slice_append (by omega) (by omega), slice_append (by omega) (by omega)]
      · rw [if_neg hpd] at h
        obtain ⟨a, b, q1, q2, q3, q4, q5⟩ := climb2_depths (T := T) (pos := pos) (by omega) hpd
        rw [q1, bind_ok] at h
        simp only at h
        cases ho : output T R thr D.length sf (pos + a) (pos + b) (R (label T pos a)) with
        | error x => rw [ho] at h; cases h
        | ok ts =>
          rw [ho, bind_ok] at h
          cases hr : mainLoop T thr w sf fuel (pos + b) (assign R w (label T pos b) (D.length + 1)) (D.length + 1) with
          | error x => rw [hr] at h; cases h
          | ok r =>
            rw [hr, bind_ok] at h
            injection h with h
            subst h
            simp only [List.length_cons] at hw hf
            have hstr := hI.label (T := T) (pos := pos) (d := a) q2
            rw [List.flatten_cons, encs_append]
            rw [decLoop_step hT (by omega) hI (by omega) hthr ho (by omega) (by omega) hstr (fun t ht => hg t (by simp [ht]))]
            rw [show min (pos + b) (T.length - 1) = pos + b by omega]
            obtain ⟨-, hnew⟩ := decFactor_eq (slice T (pos + a) (pos + b)) (by omega : D.length < 2 ^ 32) hstr
            rw [label_eq, slice_append (by omega) (by omega)] at hnew
            rw [← label_eq T pos a, ← label_eq T pos b] at hnew
            rw [label_eq, slice_append (by omega) (by omega)]
            rw [← label_eq T pos a]
            generalize hD' : D ++ [(R (label T pos a), slice T (pos + a) (pos + b))] = D' at hnew
            have hDl : D'.length = D.length + 1 := by rw [← hD']; simp
            have hmod : (D.length + 1) % 2 ^ w = D.length + 1 := Nat.mod_eq_of_lt (by omega)
            have hI' : Inv (assign R w (label T pos b) (D.length + 1)) D' := by
              refine ⟨?_, fun k hk => ?_⟩
              · unfold assign
                rw [if_neg, hI.root]
                intro h
                have h1 := congrArg List.length h
                rw [label_eq, slice_length (by omega)] at h1
                simp only [List.length_nil] at h1
                omega
              · unfold assign at hk ⊢
                by_cases hkl : k = label T pos b
                · rw [if_pos hkl, hmod, hkl]
                  exact hnew
                · rw [if_neg hkl] at hk ⊢
                  rw [← hD']
                  exact (hI.str k hk).mono _
            generalize assign R w (label T pos b) (D.length + 1) = R' at hr hI'
            rw [← hDl] at hr
            have ih := decLoop_eq hT hthr hn fuel (pos + b) R' D' r fuel' hr hI' (by omega) (by omega)
              (fun t ht => hg t (by rw [List.flatten_cons, List.mem_append]; exact Or.inr ht)) (by omega) (by omega)
            rw [ih, bind_ok, show min (pos + b) (T.length - 1) = pos + b by omega, slice_append (by omega) (by omega)]
    · rw [if_neg hp] at h
      injection h with h
      subst h
      rw [show min pos (T.length - 1) = T.length - 1 by omega, slice_self]
      rfl

end

end U78
end Tdc
