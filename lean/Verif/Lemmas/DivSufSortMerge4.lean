import Verif.Lemmas.DivSufSortMerge3
import Verif.Lemmas.DivSufSortHeap

/-! # The blocks of `sssort` -/

namespace Tdc

open DSS

variable {cell : Int → Int} {T : List UInt8} {B : List Int} {is : List Nat} {sm : SwapMerge}

/-- numbers of one bucket, without the last B* suffix -/
structure Bkt (T : List UInt8) (is : List Nat) : Prop where
  mem : ∀ x ∈ is, x + 1 < (bstars T).length
  two : ∀ x ∈ is, ∀ y ∈ is, (bkey T x).take 2 = (bkey T y).take 2

theorem Bkt.sub {js : List Nat} (h : Bkt T is) (hs : ∀ x ∈ js, x ∈ is) : Bkt T js := ⟨fun x hx => h.mem x (hs x hx), fun x hx y hy => h.two x (hs x hx) y (hs y hy)⟩

/-- numbers without marks -/
def Plain (B : List Int) (x : Nat) (ts : List Nat) : Prop := ∀ k y : Nat, ts[k]? = some y → B[x + k]? = some (y : Int)

/-- the array -/
structure Arr (T : List UInt8) (B : List Int) : Prop where
  len : B.length = T.length
  pos : HasPos T B

/-- nothing outside `[f, l)` changes, except between the numbers and the positions -/
def Out (T : List UInt8) (f l : Nat) (B B' : List Int) : Prop :=
  B'.length = B.length ∧ ∀ q : Nat, q < f ∨ l ≤ q → q < (bstars T).length ∨ T.length - (bstars T).length ≤ q → B'[q]? = B[q]?

theorem Out.refl (T : List UInt8) (f l : Nat) (B : List Int) : Out T f l B B := ⟨rfl, fun _ _ _ => rfl⟩

theorem Out.trans {f l : Nat} {B1 B2 : List Int} (h : Out T f l B B1) (h' : Out T f l B1 B2) : Out T f l B B2 :=
  ⟨h'.1.trans h.1, fun q h1 h2 => (h'.2 q h1 h2).trans (h.2 q h1 h2)⟩

theorem Out.widen {f l f' l' : Nat} {B1 : List Int} (h : Out T f l B B1) (h1 : f' ≤ f) (h2 : l ≤ l') : Out T f' l' B B1 :=
  ⟨h.1, fun q h3 h4 => h.2 q (by omega) h4⟩

theorem Out.arr {f l : Nat} {B1 : List Int} (h : Out T f l B B1) (A : Arr T B) (hl : l ≤ (bstars T).length) : Arr T B1 := by
  have := (divsufsort_bstars T).2
  exact ⟨h.1.trans A.len, fun x hx => by rw [h.2 _ (by omega) (by omega)]; exact A.pos x hx⟩

theorem Plain.append {x : Nat} {ts us : List Nat} : Plain B x (ts ++ us) ↔ Plain B x ts ∧ Plain B (x + ts.length) us := by
  constructor
  · intro h
    refine ⟨fun k y hk => h k y ?_, fun k y hk => ?_⟩
    · rw [List.getElem?_append_left (l₁ := ts) (i := k) (List.getElem?_eq_some_iff.mp hk).1]; exact hk
    · rw [Nat.add_assoc]
      refine h _ y ?_
      rw [List.getElem?_append_right (l₁ := ts) (i := ts.length + k) (by omega), Nat.add_sub_cancel_left]
      exact hk
  · rintro ⟨h1, h2⟩ k y hk
    by_cases hl : k < ts.length
    · rw [List.getElem?_append_left (l₁ := ts) (i := k) hl] at hk
      exact h1 k y hk
    · rw [List.getElem?_append_right (l₁ := ts) (i := k) (by omega)] at hk
      have := h2 _ y hk
      rw [← this]
      congr 1
      omega

theorem Plain.frame {x : Nat} {ts : List Nat} {B' : List Int} (h : Plain B x ts) (e : ∀ q, x ≤ q → q < x + ts.length → B'[q]? = B[q]?) : Plain B' x ts := fun k y hk => by
  have := (List.getElem?_eq_some_iff.mp hk).1
  rw [e _ (by omega) (by omega)]
  exact h k y hk

theorem plain_take {x : Nat} {ts : List Nat} (h : Plain B x ts) : (B.drop x).take ts.length = ts.map (fun (y : Nat) => (y : Int)) := by
  refine List.ext_getElem? (fun k => ?_)
  by_cases hk : k < ts.length
  · rw [List.getElem?_take_of_lt hk, List.getElem?_drop, List.getElem?_map, List.getElem?_eq_getElem hk, h k _ (List.getElem?_eq_getElem hk)]
    rfl
  · rw [List.getElem?_eq_none (by rw [List.length_take]; omega), List.getElem?_eq_none (by rw [List.length_map]; omega)]

theorem plain_perm {x : Nat} {ts : List Nat} {B' : List Int} (h : Plain B x ts) (hp : ((B'.drop x).take ts.length).Perm ((B.drop x).take ts.length)) :
    ∃ ts' : List Nat, ts'.Perm ts ∧ Plain B' x ts' := by
  rw [plain_take h] at hp
  refine ⟨((B'.drop x).take ts.length).map Int.toNat, ?_, fun k y hk => ?_⟩
  · have := hp.map Int.toNat
    rw [List.map_map] at this
    refine this.trans ?_
    have e : (Int.toNat ∘ fun (y : Nat) => (y : Int)) = id := by funext y; simp
    rw [e, List.map_id]
  · rw [List.getElem?_map] at hk
    cases hv : ((B'.drop x).take ts.length)[k]? with
    | none => rw [hv] at hk; simp at hk
    | some v =>
      rw [hv, Option.map_some, Option.some.injEq] at hk
      have hm : v ∈ ts.map (fun (y : Nat) => (y : Int)) := hp.mem_iff.mp (List.mem_of_getElem? hv)
      obtain ⟨z, -, hz⟩ := List.mem_map.mp hm
      have hk' : k < ts.length := by
        have := (List.getElem?_eq_some_iff.mp hv).1
        rw [List.length_take] at this
        omega
      rw [List.getElem?_take_of_lt hk', List.getElem?_drop] at hv
      rw [hv]
      congr 1
      omega

/-- where a buffer may be, if the numbers in `[x, l)` are still to be sorted -/
def BufOk (T : List UInt8) (x l buf bufsize : Nat) : Prop :=
  0 < bufsize ∧ ((bstars T).length ≤ buf ∧ buf + bufsize ≤ T.length - (bstars T).length ∨ x ≤ buf ∧ buf + bufsize = l)

/-- one merge -/
theorem merge_step (hsm : SwapMergeOk T sm) (hb : Bkt T is) (A : Arr T B) {p x l buf bufsize : Nat} {L R ts : List Nat} (hL : ∀ y ∈ L, y ∈ is) (hR : ∀ y ∈ R, y ∈ is) (ht : ∀ y ∈ ts, y ∈ is)
    (sL : SortedK T L) (sR : SortedK T R) (nL : L ≠ []) (nR : R ≠ []) (mL : Mk T B p L) (mR : Mk T B (p + L.length) R) (hx : p + L.length + R.length = x) (pt : Plain B x ts)
    (hl : x + ts.length = l) (hlm : l ≤ (bstars T).length) (hbuf : BufOk T x l buf bufsize) :
    ∃ (B' : List Int) (js ts' : List Nat), sm B p (p + L.length) x buf bufsize = .ok B' ∧ js.Perm (L ++ R) ∧ SortedK T js ∧ Mk T B' p js ∧ ts'.Perm ts ∧ Plain B' x ts' ∧ Out T p l B B' := by
  subst hx
  have h2m := (divsufsort_bstars T).2
  have hLR : ∀ y ∈ L ++ R, y ∈ is := fun y hy => by rcases List.mem_append.mp hy with h | h; exacts [hL y h, hR y h]
  have hb' := hb.sub hLR
  obtain ⟨h0, hbuf⟩ := hbuf
  have hcells : ∀ q, p + L.length + R.length ≤ q → q < l → ∃ y, y < (bstars T).length ∧ B[q]? = some (y : Int) := fun q h1 h2 => by
    have hk : q - (p + L.length + R.length) < ts.length := by omega
    have := pt _ _ (List.getElem?_eq_getElem hk)
    have h3 := hb.mem _ (ht _ (List.getElem_mem hk))
    refine ⟨ts[q - (p + L.length + R.length)], by omega, ?_⟩
    rw [← this]; congr 1; omega
  obtain ⟨B', js, e1, e2, e3, e4, e5, e6, e7⟩ := hsm B p buf bufsize L R A.len (fun k x hk => by
      have h1 := (List.getElem?_eq_some_iff.mp hk).1
      rw [A.pos k h1]
      unfold bst
      rw [List.getD_eq_getElem?_getD, hk]; rfl) hb'.mem hb'.two sL sR nL nR (by omega) h0 (by
      rcases hbuf with h | h
      · exact Or.inl h
      · exact Or.inr ⟨h.1, by omega, fun q h1 h2 => hcells q (by omega) (by omega)⟩) mL mR
  rcases hbuf with ⟨h1, h2⟩ | ⟨h1, h2⟩
  · refine ⟨B', js, ts, e1, e3, e4, e5, List.Perm.refl _, pt.frame (fun q h3 h4 => e6 q (by omega) (by omega)), e2, fun q h3 h4 => e6 q (by omega) (by omega)⟩
  · have et : ts.take (buf - (p + L.length + R.length)) ++ ts.drop (buf - (p + L.length + R.length)) = ts := List.take_append_drop _ _
    have tl : (ts.take (buf - (p + L.length + R.length))).length = buf - (p + L.length + R.length) := by rw [List.length_take]; omega
    have dl : (ts.drop (buf - (p + L.length + R.length))).length = bufsize := by rw [List.length_drop]; omega
    have pt' := pt
    rw [← et] at pt'
    obtain ⟨p1, p2⟩ := Plain.append.mp pt'
    have eb : p + L.length + R.length + (ts.take (buf - (p + L.length + R.length))).length = buf := by omega
    rw [eb] at p2
    obtain ⟨us, u1, u2⟩ := plain_perm (B' := B') p2 (by rw [dl]; exact e7 (by omega))
    refine ⟨B', js, ts.take (buf - (p + L.length + R.length)) ++ us, e1, e3, e4, e5, ?_, ?_, e2, fun q h3 h4 => e6 q (by omega) (by omega)⟩
    · conv_rhs => rw [← et]
      exact u1.append_left _
    · refine Plain.append.mpr ⟨p1.frame (fun q h3 h4 => e6 q (by omega) (by omega)), ?_⟩
      rw [eb]
      exact u2

/-- The sorted parts in front of `a`: as many blocks of `k` as the digits of `i` say, the largest first. -/
inductive Runs (T : List UInt8) (B : List Int) (f : Nat) : Nat → Nat → Nat → List Nat → Prop
  | nil (k : Nat) : Runs T B f k 0 f []
  | odd {k i a : Nat} {js ks : List Nat} : i % 2 = 1 → Runs T B f (2 * k) (i / 2) a js → Mk T B a ks → SortedK T ks → ks.length = k → Runs T B f k i (a + k) (js ++ ks)
  | even {k i a : Nat} {js : List Nat} : i % 2 = 0 → 0 < i → Runs T B f (2 * k) (i / 2) a js → Runs T B f k i a js

theorem Runs.len {f k i a : Nat} {js : List Nat} (h : Runs T B f k i a js) : a = f + js.length := by
  induction h with
  | nil => simp
  | odd _ _ _ _ h5 ih => rw [List.length_append, ih, h5, Nat.add_assoc]
  | even _ _ _ ih => exact ih

theorem Runs.frame {f k i a : Nat} {js : List Nat} {B' : List Int} (h : Runs T B f k i a js) : (∀ q, f ≤ q → q < a → B'[q]? = B[q]?) → Runs T B' f k i a js := by
  induction h with
  | nil => intro _; exact Runs.nil _
  | odd h1 h2 h3 h4 h5 ih =>
    intro e
    have := h2.len
    exact Runs.odd h1 (ih (fun q h6 h7 => e q h6 (by omega))) (h3.frame (fun q h6 h7 => e q (by omega) (by omega))) h4 h5
  | even h1 h2 h3 ih => intro e; exact Runs.even h1 h2 (ih e)

theorem Runs.zero {f k i a : Nat} {js : List Nat} (h : Runs T B f k i a js) (h0 : i = 0) : a = f ∧ js = [] := by
  cases h with
  | nil => exact ⟨rfl, rfl⟩
  | odd h1 => omega
  | even h1 h2 => omega

theorem Runs.even_inv {f k i a : Nat} {js : List Nat} (h : Runs T B f k i a js) (h0 : i % 2 = 0) : Runs T B f (2 * k) (i / 2) a js := by
  cases h with
  | nil => exact Runs.nil _
  | odd h1 => omega
  | even h1 h2 h3 => exact h3

theorem Runs.odd_inv {f k i a : Nat} {js : List Nat} (h : Runs T B f k i a js) (h0 : i % 2 = 1) :
    ∃ a' js1 ks1, a = a' + k ∧ js = js1 ++ ks1 ∧ Runs T B f (2 * k) (i / 2) a' js1 ∧ Mk T B a' ks1 ∧ SortedK T ks1 ∧ ks1.length = k := by
  cases h with
  | nil => omega
  | odd h1 h2 h3 h4 h5 => exact ⟨_, _, _, rfl, rfl, h2, h3, h4, h5⟩
  | even h1 => omega

theorem ne_nil_of_length {js : List Nat} (h : 0 < js.length) : js ≠ [] := fun h0 => by subst h0; simp at h

theorem ssCarry_spec (hsm : SwapMergeOk T sm) (hb : Bkt T is) {f x l buf bufsize : Nat} (hlm : l ≤ (bstars T).length) (hbuf : BufOk T x l buf bufsize) :
    ∀ (fuel b k j : Nat) (B : List Int) (js ks ts : List Nat), j < fuel → 0 < k → Arr T B → Runs T B f k j b js → Mk T B b ks → SortedK T ks → ks.length = k → b + k = x →
      (∀ y ∈ js ++ ks ++ ts, y ∈ is) → Plain B x ts → x + ts.length = l →
    ∃ (B' : List Int) (js' ts' : List Nat), ssCarry sm buf bufsize fuel b k j B = .ok B' ∧ Runs T B' f k (j + 1) x js' ∧ js'.Perm (js ++ ks) ∧ ts'.Perm ts ∧ Plain B' x ts' ∧ Out T f l B B'
  | 0, _, _, _, _, _, _, _, h, _, _, _, _, _, _, _, _, _, _ => by omega
  | fuel + 1, b, k, j, B, js, ks, ts, hf, hk, A, hr, mk, sk, lk, hx, hm, pt, hl => by
    unfold ssCarry
    by_cases h0 : j % 2 = 1
    · rw [if_pos h0]
      obtain ⟨a', js1, ks1, ea, ej, r1, m1, s1, l1⟩ := hr.odd_inv h0
      subst ej
      subst ea
      have hlen := r1.len
      obtain ⟨B1, ms, ts1, e1, e2, e3, e4, e5, e6, e7⟩ := merge_step hsm hb A (p := a') (L := ks1) (R := ks) (ts := ts) (x := x) (l := l) (buf := buf) (bufsize := bufsize)
        (fun y hy => hm y (by simp [hy])) (fun y hy => hm y (by simp [hy])) (fun y hy => hm y (by simp [hy])) s1 sk (ne_nil_of_length (by omega)) (ne_nil_of_length (by omega)) m1 (by rw [l1]; exact mk)
        (by omega) pt hl hlm hbuf
      have r1' : Runs T B1 f (2 * k) (j / 2) a' js1 := r1.frame (fun q h1 h2 => e7.2 q (Or.inl h2) (by omega))
      have ml : ms.length = 2 * k := by rw [e2.length_eq, List.length_append]; omega
      obtain ⟨B2, js2, ts2, g1, g2, g3, g4, g5, g6⟩ := ssCarry_spec hsm hb hlm hbuf fuel a' (2 * k) (j / 2) B1 js1 ms ts1 (by omega) (by omega) (e7.arr A hlm) r1' e4 e3 ml (by omega) (fun y hy => by
          refine hm y ?_
          have h1 := e2.mem_iff (a := y)
          have h2 := e5.mem_iff (a := y)
          simp only [List.mem_append] at hy h1 ⊢
          tauto) e6 (by rw [e5.length_eq]; exact hl)
      rw [l1, ← hx] at e1
      have eb : a' + k - k = a' := by omega
      rw [eb, e1, DSS.bind_ok, g1]
      refine ⟨B2, js2, ts2, rfl, ?_, ?_, g4.trans e5, g5, (e7.widen (by omega) (Nat.le_refl _)).trans g6⟩
      · refine Runs.even (by omega) (by omega) ?_
        have : (j + 1) / 2 = j / 2 + 1 := by omega
        rw [this]
        exact g2
      · refine g3.trans ?_
        rw [List.append_assoc]
        exact e2.append_left _
    · rw [if_neg h0]
      refine ⟨B, js ++ ks, ts, rfl, ?_, List.Perm.refl _, List.Perm.refl _, pt, Out.refl _ _ _ _⟩
      rw [← hx]
      refine Runs.odd (by omega) ?_ mk sk lk
      have : (j + 1) / 2 = j / 2 := by omega
      rw [this]
      exact hr.even_inv (by omega)

theorem ssFinish_spec (hsm : SwapMergeOk T sm) (hb : Bkt T is) {f x l buf bufsize : Nat} (hlm : l ≤ (bstars T).length) (hbuf : BufOk T x l buf bufsize) :
    ∀ (fuel a k i : Nat) (B : List Int) (js ks ts : List Nat), i < fuel → 0 < k → Arr T B → Runs T B f k i a js → Mk T B a ks → SortedK T ks → (i ≠ 0 → ks ≠ []) → a + ks.length = x →
      (∀ y ∈ js ++ ks ++ ts, y ∈ is) → Plain B x ts → x + ts.length = l →
    ∃ (B' : List Int) (ms ts' : List Nat), ssFinish sm x buf bufsize fuel a k i B = .ok B' ∧ ms.Perm (js ++ ks) ∧ SortedK T ms ∧ Mk T B' f ms ∧ ts'.Perm ts ∧ Plain B' x ts' ∧ Out T f l B B'
  | 0, _, _, _, _, _, _, _, h, _, _, _, _, _, _, _, _, _, _ => by omega
  | fuel + 1, a, k, i, B, js, ks, ts, hf, hk, A, hr, mk, sk, nk, hx, hm, pt, hl => by
    unfold ssFinish
    by_cases h00 : i = 0
    · rw [if_neg (by omega)]
      obtain ⟨ea, ej⟩ := hr.zero h00
      subst ea
      subst ej
      exact ⟨B, ks, ts, rfl, List.Perm.refl _, sk, mk, List.Perm.refl _, pt, Out.refl _ _ _ _⟩
    · rw [if_pos h00]
      by_cases h0 : i % 2 = 1
      · rw [if_pos h0]
        obtain ⟨a', js1, ks1, ea, ej, r1, m1, s1, l1⟩ := hr.odd_inv h0
        subst ej
        subst ea
        have hlen := r1.len
        obtain ⟨B1, ms, ts1, e1, e2, e3, e4, e5, e6, e7⟩ := merge_step hsm hb A (p := a') (L := ks1) (R := ks) (ts := ts) (x := x) (l := l) (buf := buf) (bufsize := bufsize)
          (fun y hy => hm y (by simp [hy])) (fun y hy => hm y (by simp [hy])) (fun y hy => hm y (by simp [hy])) s1 sk (ne_nil_of_length (by omega)) (nk h00) m1 (by rw [l1]; exact mk)
          (by omega) pt hl hlm hbuf
        have ml : ms.length = k + ks.length := by rw [e2.length_eq, List.length_append]; omega
        obtain ⟨B2, js2, ts2, g1, g2, g3, g4, g5, g6, g7⟩ := ssFinish_spec hsm hb hlm hbuf fuel a' (2 * k) (i / 2) B1 js1 ms ts1 (by omega) (by omega) (e7.arr A hlm)
          (r1.frame (fun q h1 h2 => e7.2 q (Or.inl h2) (by omega))) e4 e3 (fun _ => ne_nil_of_length (by omega)) (by omega) (fun y hy => by
            refine hm y ?_
            have h1 := e2.mem_iff (a := y)
            have h2 := e5.mem_iff (a := y)
            simp only [List.mem_append] at hy h1 ⊢
            tauto) e6 (by rw [e5.length_eq]; exact hl)
        rw [l1] at e1
        have eb : a' + k - k = a' := by omega
        rw [eb, e1, DSS.bind_ok, g1]
        refine ⟨B2, js2, ts2, rfl, ?_, g3, g4, g5.trans e5, g6, (e7.widen (by omega) (Nat.le_refl _)).trans g7⟩
        refine g2.trans ?_
        rw [List.append_assoc]
        exact e2.append_left _
      · rw [if_neg h0]
        exact ssFinish_spec hsm hb hlm hbuf fuel a (2 * k) (i / 2) B js ks ts (by omega) (by omega) A (hr.even_inv (by omega)) mk sk (fun _ => nk h00) hx hm pt hl

end Tdc
