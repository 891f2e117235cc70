import Verif.Lemmas.DivSufSortIntro3
import Mathlib.Tactic.Ring
import Mathlib.Tactic.Linarith
import Mathlib.Tactic.NormNum

/-! # Multikey introsort: one round with a pivot -/

namespace Tdc

open DSS

variable {cell : Int → Int} {T : List UInt8} {d f l : Nat} {B0 B : List Int} {o0 o : Nat → Nat}

/-- `o` is `o0` in another order in `[f, l)`. -/
def PermOn (f l : Nat) (o0 o : Nat → Nat) : Prop := ∃ σ : Equiv.Perm Nat, (∀ p, p < f ∨ l ≤ p → σ p = p) ∧ ∀ p, o p = o0 (σ p)

theorem PermOn.refl (f l : Nat) (o : Nat → Nat) : PermOn f l o o := ⟨1, fun _ _ => rfl, fun _ => rfl⟩

theorem PermOn.trans {o1 : Nat → Nat} (P : PermOn f l o0 o) (Q : PermOn f l o o1) : PermOn f l o0 o1 := by
  obtain ⟨σ, h1, h2⟩ := P
  obtain ⟨τ, h3, h4⟩ := Q
  exact ⟨σ * τ, fun p hp => by rw [Equiv.Perm.mul_apply, h3 p hp, h1 p hp], fun p => by rw [h4, h2, Equiv.Perm.mul_apply]⟩

theorem PermOn.widen {f' l' : Nat} (P : PermOn f l o0 o) (hf : f' ≤ f) (hl : l ≤ l') : PermOn f' l' o0 o := by
  obtain ⟨σ, h1, h2⟩ := P
  exact ⟨σ, fun p hp => h1 p (by omega), h2⟩

theorem PermOn.out (P : PermOn f l o0 o) {p : Nat} (hp : p < f ∨ l ≤ p) : o p = o0 p := by
  obtain ⟨σ, h1, h2⟩ := P
  rw [h2, h1 p hp]

theorem PermOn.all (P : PermOn f l o0 o) {Q : Nat → Prop} (h : ∀ p, f ≤ p → p < l → Q (o0 p)) {p : Nat} (h1 : f ≤ p) (h2 : p < l) : Q (o p) := by
  obtain ⟨σ, h3, h4⟩ := P
  rw [h4]
  have := perm_range h3 h1 h2
  exact h _ this.1 this.2

theorem PermOn.list (P : PermOn f l o0 o) : ((List.range' f (l - f)).map o).Perm ((List.range' f (l - f)).map o0) := by
  obtain ⟨σ, h1, h2⟩ := P
  refine Sh.permL (f := f) (l := l) (B0 := (List.range l).map fun p => (o p : Int)) (B := (List.range l).map fun p => (o p : Int)) ⟨rfl, fun p h3 h4 => ?_, fun _ _ => rfl, σ, h1, h2⟩
  rw [List.getElem?_map, List.getElem?_range h4]
  rfl

/-! ### The rest of the work -/

def wt (T : List UInt8) (o : Nat → Nat) (d f l : Nat) : Nat := ((List.range' f (l - f)).map fun p => 3 * ((bkey T (o p)).length + 1 - d)).sum

theorem wt_split {m : Nat} (h1 : f ≤ m) (h2 : m ≤ l) : wt T o d f l = wt T o d f m + wt T o d m l := by
  unfold wt
  have e1 : l - f = (m - f) + (l - m) := by omega
  have e2 : f + (m - f) = m := by omega
  rw [e1, ← List.range'_append_1, e2, List.map_append, List.sum_append]

theorem wt_perm (P : PermOn f l o0 o) : wt T o d f l = wt T o0 d f l := by
  have h := (P.list.map fun x => 3 * ((bkey T x).length + 1 - d)).sum_eq
  rw [List.map_map, List.map_map] at h
  exact h

theorem wt_congr (h : ∀ p, f ≤ p → p < l → o p = o0 p) : wt T o d f l = wt T o0 d f l := by
  unfold wt
  congr 1
  exact List.map_congr_left (fun p hp => by
    rw [List.mem_range'_1] at hp
    rw [h p hp.1 (by omega)])

theorem wt_one {p : Nat} : wt T o d p (p + 1) = 3 * ((bkey T (o p)).length + 1 - d) := by
  unfold wt
  rw [Nat.add_sub_cancel_left]
  simp

theorem wt_nil : wt T o d f f = 0 := by
  unfold wt
  rw [Nat.sub_self]
  rfl

theorem wt_deeper : ∀ (n f : Nat), (∀ p, f ≤ p → p < f + n → Good T d (o p)) → wt T o (d + 1) f (f + n) + 3 * n ≤ wt T o d f (f + n)
  | 0, f, _ => by simp only [Nat.add_zero, Nat.mul_zero, wt_nil]; exact Nat.le_refl _
  | n + 1, f, h => by
    have ih := wt_deeper n (f + 1) (fun p h1 h2 => h p (by omega) (by omega))
    have e : f + 1 + n = f + (n + 1) := by omega
    rw [e] at ih
    have hg := (h f (Nat.le_refl _) (by omega)).2
    rw [wt_split (m := f + 1) (by omega) (by omega), wt_split (d := d) (m := f + 1) (by omega) (by omega), wt_one, wt_one]
    omega

theorem wt_deeper' (hfl : f ≤ l) (h : ∀ p, f ≤ p → p < l → Good T d (o p)) : wt T o (d + 1) f l + 3 * (l - f) ≤ wt T o d f l := by
  have := wt_deeper (l - f) f (fun p h1 h2 => h p h1 (by omega))
  have e : f + (l - f) = l := by omega
  rwa [e] at this

/-! ### Parts that are still to be sorted -/

structure SegOk (T : List UInt8) (B : List Int) (o : Nat → Nat) (s : Seg) : Prop where
  fl : s.first ≤ s.last
  lm : s.last ≤ (bstars T).length
  hold : ∀ p, s.first ≤ p → p < s.last → B[p]? = some (o p : Int)
  good : ∀ p, s.first ≤ p → p < s.last → Good T s.depth (o p)
  same : ∀ p q, s.first ≤ p → p < s.last → s.first ≤ q → q < s.last → (bkey T (o p)).take s.depth = (bkey T (o q)).take s.depth
  two : 1 ≤ s.depth
  srt : s.limit < 0 → ∀ p q, s.first ≤ p → p < q → q < s.last → chr T s.depth (o p) ≤ chr T s.depth (o q)

def Disj (s t : Seg) : Prop := s.last ≤ t.first ∨ t.last ≤ s.first

def segW (T : List UInt8) (o : Nat → Nat) (s : Seg) : Nat := 1 + wt T o s.depth s.first s.last

/-- The stack never gets full. -/
def StackOk : List Seg → Prop
  | [] => True
  | s :: st => (s.last - s.first) ^ 2 * 3 ^ st.length ≤ 1048576 ∧ StackOk st

theorem stack_room {n h : Nat} (h1 : 8 < n) (h2 : n ^ 2 * 3 ^ h ≤ 1048576) : h ≤ 8 := by
  by_contra hc
  have h3 : 3 ^ 9 ≤ 3 ^ h := Nat.pow_le_pow_right (by omega) (by omega)
  have h4 : 9 ^ 2 ≤ n ^ 2 := Nat.pow_le_pow_left h1 2
  have h5 := Nat.mul_le_mul h4 h3
  norm_num at h5
  omega

/-- What one round does: the part `s` is replaced by smaller parts, and `s` is sorted when they are. -/
def StepPost (T : List UInt8) (B : List Int) (o : Nat → Nat) (s : Seg) (st st1 : List Seg) (B1 : List Int) : Prop :=
  ∃ (parts : List Seg) (o1 : Nat → Nat), st1.Perm (parts ++ st) ∧ parts.Pairwise Disj ∧ (∀ t ∈ parts, s.first ≤ t.first ∧ t.last ≤ s.last ∧ SegOk T B1 o1 t) ∧
    (∀ p, p < s.first ∨ s.last ≤ p → B1[p]? = B[p]? ∧ o1 p = o p) ∧ B1.length = B.length ∧ (parts.map (segW T o1)).sum < segW T o s ∧ StackOk st1 ∧
    ∀ B', (∀ t ∈ parts, PostI T o1 t.first t.last B') → (∀ p, s.first ≤ p → p < s.last → (∀ t ∈ parts, p < t.first ∨ t.last ≤ p) → B'[p]? = B1[p]?) →
      PostI T o s.first s.last B'

theorem SegOk.env {s : Seg} (h : SegOk T B o s) (hl : B.length = T.length) (hp : HasPos T B) : Env T s.depth s.first s.last B o :=
  ⟨hl, hp, h.lm, h.good⟩

theorem ssPush_ok {s : Seg} {st : List Seg} (h : st.length < 16) : ssPush s st = .ok (s :: st) := if_pos h

theorem ssPush2_ok {s1 s2 next : Seg} {st : List Seg} {B : List Int} {n : Nat} (h8 : 8 < n) (hs : n ^ 2 * 3 ^ st.length ≤ 1048576) (hst : StackOk st)
    (h1 : next.last - next.first ≤ s2.last - s2.first) (h2 : s2.last - s2.first ≤ s1.last - s1.first)
    (h3 : (next.last - next.first) + (s2.last - s2.first) + (s1.last - s1.first) ≤ n) :
    ssPush2 s1 s2 next st B = .ok (next, s2 :: s1 :: st, B) ∧ StackOk (next :: s2 :: s1 :: st) := by
  have hr := stack_room h8 hs
  have e1 : ssPush s1 st = .ok (s1 :: st) := ssPush_ok (by omega)
  have e2 : ssPush s2 (s1 :: st) = .ok (s2 :: s1 :: st) := ssPush_ok (by rw [List.length_cons]; omega)
  generalize hx : next.last - next.first = x at *
  generalize hy : s2.last - s2.first = y at *
  generalize hz : s1.last - s1.first = z at *
  have hk : ∀ a j, a ^ 2 * 3 ^ j ≤ n ^ 2 → a ^ 2 * 3 ^ (st.length + j) ≤ 1048576 := fun a j h => by
    have : a ^ 2 * 3 ^ (st.length + j) = a ^ 2 * 3 ^ j * 3 ^ st.length := by ring
    rw [this]
    exact Nat.le_trans (Nat.mul_le_mul_right _ h) hs
  refine ⟨?_, ?_, ?_, ?_, hst⟩
  · unfold ssPush2
    rw [e1, DSS.bind_ok, e2, DSS.bind_ok]
  · rw [List.length_cons, List.length_cons, hx]
    refine hk x 2 ?_
    have : 3 * x ≤ n := by omega
    nlinarith
  · rw [List.length_cons, hy]
    refine hk y 1 ?_
    have : 2 * y ≤ n := by omega
    nlinarith
  · rw [hz]
    refine hk z 0 ?_
    have : z ≤ n := by omega
    nlinarith

/-! ### The end of the substrings -/

/-- what `ss_partition` or its omission leave -/
structure PartRes (T : List UInt8) (d x y : Nat) (B : List Int) (o : Nat → Nat) (b : Nat) (B' : List Int) (o' : Nat → Nat) : Prop where
  xb : x ≤ b
  bl : b ≤ y
  len : B'.length = B.length
  out : ∀ p, p < x ∨ y ≤ p → B'[p]? = B[p]?
  perm : PermOn x y o o'
  ends : ∀ p, x ≤ p → p < b → Ends T d (o' p) ∧ B'[p]? = some (if p = x then (o' p : Int) else inv (o' p))
  rest : ∀ p, b ≤ p → p < y → ¬ Ends T d (o' p) ∧ B'[p]? = some (o' p : Int)

theorem part_spec (hcell : ∀ v : Int, -T.length ≤ v → v < T.length → cell v = v) {x y v : Nat} (E : Env T d x y B o) (hd : 1 ≤ d) (hxy : x < y)
    (h0 : ∀ p, x ≤ p → p < y → B[p]? = some (o p : Int)) (hv : ∀ p, x ≤ p → p < y → chr T d (o p) = v)
    (hs : ∀ p q, x ≤ p → p < y → x ≤ q → q < y → (bkey T (o p)).take d = (bkey T (o q)).take d) :
    ∃ u, ssChar T ((T.length : Int) - (bstars T).length) ((d : Int) - 1) B x = .ok u ∧ ∃ b B' o',
      (if u < v then ssPartition cell ((T.length : Int) - (bstars T).length) d x y B else .ok (x, B)) = .ok (b, B') ∧ PartRes T d x y B o b B' o' := by
  have hg := E.good x (Nat.le_refl _) hxy
  have hg' : ∀ p, x ≤ p → p < y → Good T (d - 1) (o p) := fun p h1 h2 => ⟨(E.good p h1 h2).1, by have := (E.good p h1 h2).2; omega⟩
  have e : (d : Int) - 1 = ((d - 1 : Nat) : Int) := by omega
  refine ⟨_, by rw [e]; exact ssChar_ok E.pos (h0 x (Nat.le_refl _) hxy) (hg' x (Nat.le_refl _) hxy), ?_⟩
  by_cases h : chr T (d - 1) (o x) < v
  · rw [if_pos h]
    obtain ⟨a, B', o', g1, g2, g3, g4, g5, g6, g7, g8⟩ := ssPartition_spec hcell E hxy h0
    exact ⟨a, B', o', g1, g2, g3, g4, g5, g6, g7, g8⟩
  · rw [if_neg h]
    refine ⟨x, B, o, rfl, Nat.le_refl _, by omega, rfl, fun _ _ => rfl, PermOn.refl _ _ _, fun p h1 h2 => by omega, fun p h1 h2 => ⟨not_ends (E.good p h1 h2) hd ?_, h0 p h1 h2⟩⟩
    rw [hv p h1 h2, chr_of_take (hg' p h1 h2) (hg' x (Nat.le_refl _) hxy) (by omega) (hs p x h1 h2 (Nat.le_refl _) hxy)]
    omega

section
variable {x y v b : Nat} {B' : List Int} {o' : Nat → Nat} (E : Env T d x y B o) (hv : ∀ p, x ≤ p → p < y → chr T d (o p) = v)
    (hs : ∀ p q, x ≤ p → p < y → x ≤ q → q < y → (bkey T (o p)).take d = (bkey T (o q)).take d) (R : PartRes T d x y B o b B' o')
include E hv hs R

theorem PartRes.take {p q : Nat} (h1 : x ≤ p) (h2 : p < y) (h3 : x ≤ q) (h4 : q < y) : (bkey T (o' p)).take (d + 1) = (bkey T (o' q)).take (d + 1) := by
  have K : ∀ p q, x ≤ p → p < y → x ≤ q → q < y → (bkey T (o p)).take (d + 1) = (bkey T (o q)).take (d + 1) := fun p q h1 h2 h3 h4 =>
    take_succ_of_chr (E.good p h1 h2) (E.good q h3 h4) (hs p q h1 h2 h3 h4) (by rw [hv p h1 h2, hv q h3 h4])
  refine R.perm.all (Q := fun z => (bkey T z).take (d + 1) = (bkey T (o' q)).take (d + 1)) (fun p h1 h2 => ?_) h1 h2
  exact R.perm.all (Q := fun z => (bkey T (o p)).take (d + 1) = (bkey T z).take (d + 1)) (fun q h3 h4 => K p q h1 h2 h3 h4) h3 h4

theorem PartRes.segOk (hd : 1 ≤ d) : SegOk T B' o' ⟨b, y, d + 1, ssIlg (y - b)⟩ := by
  have hxb := R.xb
  refine ⟨R.bl, E.lm, fun p h1 h2 => (R.rest p h1 h2).2, fun p h1 h2 => ?_, fun p q (h1 : b ≤ p) h2 (h3 : b ≤ q) h4 => R.take E hv hs (by omega) h2 (by omega) h4,
    show 1 ≤ d + 1 by omega, fun h => ?_⟩
  · have hg : Good T d (o' p) := R.perm.all (Q := Good T d) E.good (Nat.le_trans hxb h1) h2
    have hne := (R.rest p h1 h2).1
    have := hg.2
    unfold Ends at hne
    exact ⟨hg.1, show d + 1 < _ by omega⟩
  · unfold ssIlg at h
    intro p q h1 h2 h3
    dsimp only at h1 h3
    rw [if_neg (by omega)] at h
    have h' : ((y - b).log2 : Int) < 0 := h
    omega

theorem PartRes.post {B2 : List Int} (h1 : PostI T o' b y B2) (h2 : ∀ p, x ≤ p → p < b → B2[p]? = B'[p]?) : PostI T o' x y B2 := by
  have hxb := R.xb
  have hby := R.bl
  refine PostI.glue (m := b) (PostI.same (fun p h3 h4 => ?_) (fun p q h3 h4 h5 h6 => ?_)) h1 hxb hby (fun p q h3 h4 h5 h6 => ?_)
  · rw [h2 p h3 h4]; exact (R.ends p h3 h4).2
  · exact ends_eq (R.ends p h3 h4).1 (R.ends q h5 h6).1 (R.take E hv hs h3 (by omega) h5 (by omega))
  · exact ends_lt (R.ends p h3 h4).1 (R.perm.all (Q := Good T d) E.good (by omega) h6) (R.rest q h5 h6).1 (R.take E hv hs h3 (by omega) (by omega) h6)

theorem PartRes.wt_lt : wt T o' (d + 1) b y + 3 * (y - x) ≤ wt T o d x y := by
  have hxb := R.xb
  have hby := R.bl
  have hg : ∀ p, x ≤ p → p < y → Good T d (o' p) := fun p h1 h2 => R.perm.all (Q := Good T d) E.good h1 h2
  rw [← wt_perm R.perm]
  have h1 := wt_deeper' (Nat.le_trans hxb hby) hg
  rw [wt_split (m := b) (d := d + 1) hxb hby] at h1
  omega

end

/-! ### The zones change places -/

theorem zone_left {v a b : Nat} {o' : Nat → Nat} (z : ZL T d f v a b o) (hfa : f ≤ a) (hab : a ≤ b)
    (h1 : ∀ i, i < min (a - f) (b - a) → o' (f + i) = o (b - min (a - f) (b - a) + i) ∧ o' (b - min (a - f) (b - a) + i) = o (f + i))
    (h2 : ∀ p, p < f ∨ (f + min (a - f) (b - a) ≤ p ∧ p < b - min (a - f) (b - a)) ∨ b - min (a - f) (b - a) + min (a - f) (b - a) ≤ p → o' p = o p) :
    (∀ p, f ≤ p → p < f + (b - a) → chr T d (o' p) < v) ∧ (∀ p, f + (b - a) ≤ p → p < b → chr T d (o' p) = v) := by
  generalize hs : min (a - f) (b - a) = s at *
  refine ⟨fun p h3 h4 => ?_, fun p h3 h4 => ?_⟩
  · by_cases h5 : p < f + s
    · have := (h1 (p - f) (by omega)).1
      have e : f + (p - f) = p := by omega
      rw [e] at this
      rw [this]
      exact z.2 _ (by omega) (by omega)
    · rw [h2 p (by omega)]
      exact z.2 _ (by omega) (by omega)
  · by_cases h5 : b - s ≤ p
    · have := (h1 (p - (b - s)) (by omega)).2
      have e : b - s + (p - (b - s)) = p := by omega
      rw [e] at this
      rw [this]
      exact z.1 _ (by omega) (by omega)
    · rw [h2 p (by omega)]
      exact z.1 _ (by omega) (by omega)

theorem zone_right {v b e : Nat} {o' : Nat → Nat} (z1 : ∀ p, e < p → p < l → chr T d (o p) = v) (z2 : ∀ p, b ≤ p → p ≤ e → v < chr T d (o p)) (hbe : b ≤ e + 1) (hel : e < l)
    (h1 : ∀ i, i < min (e + 1 - b) (l - e - 1) → o' (b + i) = o (l - min (e + 1 - b) (l - e - 1) + i) ∧ o' (l - min (e + 1 - b) (l - e - 1) + i) = o (b + i))
    (h2 : ∀ p, p < b ∨ (b + min (e + 1 - b) (l - e - 1) ≤ p ∧ p < l - min (e + 1 - b) (l - e - 1)) ∨ l - min (e + 1 - b) (l - e - 1) + min (e + 1 - b) (l - e - 1) ≤ p → o' p = o p) :
    (∀ p, b ≤ p → p < l - (e + 1 - b) → chr T d (o' p) = v) ∧ (∀ p, l - (e + 1 - b) ≤ p → p < l → v < chr T d (o' p)) := by
  generalize hs : min (e + 1 - b) (l - e - 1) = s at *
  refine ⟨fun p h3 h4 => ?_, fun p h3 h4 => ?_⟩
  · by_cases h5 : p < b + s
    · have := (h1 (p - b) (by omega)).1
      have e' : b + (p - b) = p := by omega
      rw [e'] at this
      rw [this]
      exact z1 _ (by omega) (by omega)
    · rw [h2 p (by omega)]
      exact z1 _ (by omega) (by omega)
  · by_cases h5 : l - s ≤ p
    · have := (h1 (p - (l - s)) (by omega)).2
      have e' : l - s + (p - (l - s)) = p := by omega
      rw [e'] at this
      rw [this]
      exact z2 _ (by omega) (by omega)
    · rw [h2 p (by omega)]
      exact z2 _ (by omega) (by omega)

end Tdc
