import Verif.Model.EspSubseq
import Verif.Spec.Subseq
import Verif.Spec.DCoding
import Verif.Lemmas.EspWTDec

/-!
# `recover_D_from_encoding` inverts the decomposition into monotone subsequences
-/

namespace Tdc
namespace Esp

/-- Each element is linked to the next one. -/
def Nx (ll : List Nat) : List Nat → Prop
  | [] => True
  | [_] => True
  | a :: b :: l => ll[a]? = some b ∧ Nx ll (b :: l)

theorem Nx.tail {ll : List Nat} {a : Nat} {l : List Nat} (h : Nx ll (a :: l)) : Nx ll l := by
  cases l with
  | nil => trivial
  | cons b l => exact h.2

theorem Nx.frame {ll ll' : List Nat} : ∀ {P : List Nat} {r : Nat}, Nx ll (P ++ [r]) → (∀ x ∈ P, ll'[x]? = ll[x]?) → Nx ll' (P ++ [r])
  | [], r, _, _ => trivial
  | [a], r, h, e => ⟨by rw [e a (by simp)]; exact h.1, trivial⟩
  | a :: b :: P, r, h, e => ⟨by rw [e a (by simp)]; exact h.1, Nx.frame (P := b :: P) h.2 (fun x hx => e x (List.mem_cons_of_mem _ hx))⟩

theorem Nx.snoc {ll : List Nat} : ∀ {P : List Nat} {r i : Nat}, Nx ll (P ++ [r]) → ll[r]? = some i → Nx ll (P ++ [r] ++ [i])
  | [], r, i, _, e => ⟨e, trivial⟩
  | [a], r, i, h, e => ⟨h.1, e, trivial⟩
  | a :: b :: P, r, i, h, e => ⟨h.1, Nx.snoc (P := b :: P) h.2 e⟩

/-- The circular list of subsequence `k`: `front` is its last element. -/
def Circ (ll : List Nat) (front : Nat) (O : List Nat) : Prop := ∃ P, O = P ++ [front] ∧ Nx ll O ∧ ll[front]? = O.head?

/-- The indices below `i` in subsequence `k` -/
def mems (dpi : List Nat) (i k : Nat) : List Nat := (List.range i).filter fun j => decide (dpi[j]? = some k)

theorem mems_succ (dpi : List Nat) (i k : Nat) : mems dpi (i + 1) k = if dpi[i]? = some k then mems dpi i k ++ [i] else mems dpi i k := by
  unfold mems
  rw [List.range_succ, List.filter_append]
  split
  · rename_i h; simp [h]
  · rename_i h; simp [h]

theorem mem_mems {dpi : List Nat} {i k x : Nat} : x ∈ mems dpi i k ↔ x < i ∧ dpi[x]? = some k := by
  simp [mems]

theorem mems_nodup (dpi : List Nat) (i k : Nat) : (mems dpi i k).Nodup := List.nodup_range.filter _

/-- In the order in which the decoder meets them -/
def ordO (b : List Bool) (dpi : List Nat) (i k : Nat) : List Nat := if b[k]? = some true then mems dpi i k else (mems dpi i k).reverse

theorem mem_ordO {b : List Bool} {dpi : List Nat} {i k x : Nat} : x ∈ ordO b dpi i k ↔ x < i ∧ dpi[x]? = some k := by
  unfold ordO
  split
  · exact mem_mems
  · rw [List.mem_reverse]; exact mem_mems

theorem ordO_nodup (b : List Bool) (dpi : List Nat) (i k : Nat) : (ordO b dpi i k).Nodup := by
  unfold ordO
  split
  · exact mems_nodup _ _ _
  · exact (List.reverse_perm _).nodup_iff.2 (mems_nodup _ _ _)

/-- State of the first loop of `recover_D_from_encoding` before entry `i` -/
def RecInv (b : List Bool) (dpi : List Nat) (i : Nat) (ll fr : List Nat) : Prop :=
  ll.length = dpi.length ∧ fr.length = b.length ∧ ∀ k < b.length, ∃ front, fr[k]? = some front ∧
    ((ordO b dpi i k = [] ∧ front = npos) ∨ (front < dpi.length ∧ Circ ll front (ordO b dpi i k)))

theorem recLists_ok (b : List Bool) (dpi : List Nat) (hlt : ∀ i k : Nat, dpi[i]? = some k → k < b.length) (hn : dpi.length ≤ npos) :
    ∀ (l : List Nat) (i : Nat) (ll fr : List Nat), dpi.drop i = l → i ≤ dpi.length → RecInv b dpi i ll fr →
    ∃ ll' fr', recLists b i l (ll, fr) = .ok (ll', fr') ∧ RecInv b dpi dpi.length ll' fr'
  | [], i, ll, fr, hd, hi, h => by
    have : dpi.length ≤ i := by simpa using hd
    have : i = dpi.length := by omega
    subst this
    exact ⟨ll, fr, rfl, h⟩
  | k :: l, i, ll, fr, hd, hi, h => by
    have hil : i < dpi.length := by
      rcases Nat.lt_or_ge i dpi.length with h | h
      · exact h
      · rw [List.drop_eq_nil_of_le h] at hd; simp at hd
    have hk : dpi[i]? = some k := by
      have := List.getElem?_drop (xs := dpi) (i := i) (j := 0)
      rw [hd] at this
      simpa using this.symm
    have hkb := hlt i k hk
    obtain ⟨l1, l2, l3⟩ := h
    obtain ⟨root, f1, f2⟩ := l3 k hkb
    have hd' : dpi.drop (i + 1) = l := by rw [← List.drop_drop, hd]; rfl
    rw [recLists, f1]
    simp only
    rw [if_pos (by omega)]
    have hbk : ∃ bk, b[k]? = some bk := ⟨b[k], List.getElem?_eq_getElem hkb⟩
    obtain ⟨bk, hbk⟩ := hbk
    -- the new order
    have hother : ∀ k', k' ≠ k → ordO b dpi (i + 1) k' = ordO b dpi i k' := by
      intro k' hne
      unfold ordO
      have : ¬ dpi[i]? = some k' := by rw [hk]; simp; exact fun e => hne e.symm
      rw [mems_succ]
      simp only [this, if_false]
    have hthis : ordO b dpi (i + 1) k = if bk then ordO b dpi i k ++ [i] else i :: ordO b dpi i k := by
      unfold ordO
      rw [mems_succ, hbk]
      simp only [hk, if_true]
      cases bk
      · simp
      · simp
    by_cases hr : root = npos
    · rw [if_pos hr]
      have hempty : ordO b dpi i k = [] := by
        rcases f2 with f2 | f2
        · exact f2.1
        · omega
      apply recLists_ok b dpi hlt hn l (i + 1) _ _ hd' hil
      refine ⟨by simp [l1], by simp [l2], ?_⟩
      intro k' hk'
      by_cases hkk : k' = k
      · subst hkk
        refine ⟨i, by rw [List.getElem?_set_self (by omega)], .inr ⟨hil, [], ?_, ?_, ?_⟩⟩
        · rw [hthis, hempty]; cases bk <;> rfl
        · rw [hthis, hempty]; cases bk <;> trivial
        · rw [hthis, hempty, List.getElem?_set_self (by omega)]; cases bk <;> rfl
      · obtain ⟨fr', g1, g2⟩ := l3 k' hk'
        refine ⟨fr', by rw [List.getElem?_set_ne (fun e => hkk e.symm)]; exact g1, ?_⟩
        rw [hother k' hkk]
        rcases g2 with g2 | ⟨g2, P, g3, g4, g5⟩
        · exact .inl g2
        · refine .inr ⟨g2, P, g3, ?_, ?_⟩
          · rw [g3] at g4 ⊢
            apply g4.frame
            intro x hx
            rw [List.getElem?_set_ne]
            have : x ∈ ordO b dpi i k' := by rw [g3]; simp [hx]
            have := (mem_ordO.1 this).1
            omega
          · rw [List.getElem?_set_ne, g5]
            have : fr' ∈ ordO b dpi i k' := by rw [g3]; simp
            have := (mem_ordO.1 this).1
            omega
    · rw [if_neg hr]
      obtain ⟨g2, P, g3, g4, g5⟩ : root < dpi.length ∧ Circ ll root (ordO b dpi i k) := by
        rcases f2 with f2 | f2
        · exact absurd f2.2 hr
        · exact f2
      have hrmem : root ∈ ordO b dpi i k := by rw [g3]; simp
      have hri := (mem_ordO.1 hrmem).1
      have hnd := ordO_nodup b dpi i k
      rw [g3, List.nodup_append] at hnd
      obtain ⟨nx, hnx⟩ : ∃ nx, (ordO b dpi i k).head? = some nx := by
        cases ho : ordO b dpi i k with
        | nil => rw [ho] at g3; simp at g3
        | cons a l => exact ⟨a, rfl⟩
      rw [g5, hnx, hbk]
      simp only
      have hset : ∀ x, x ≠ root → x ≠ i → ((ll.set root i).set i nx)[x]? = ll[x]? := by
        intro x h1 h2
        rw [List.getElem?_set_ne (fun e => h2 e.symm), List.getElem?_set_ne (fun e => h1 e.symm)]
      have hseti : ((ll.set root i).set i nx)[i]? = some nx := by rw [List.getElem?_set_self (by simp; omega)]
      have hsetr : ((ll.set root i).set i nx)[root]? = some i := by rw [List.getElem?_set_ne (by omega), List.getElem?_set_self (by omega)]
      have hP : ∀ x ∈ P, ((ll.set root i).set i nx)[x]? = ll[x]? := by
        intro x hx
        have hx1 : x ∈ ordO b dpi i k := by rw [g3]; simp [hx]
        have := (mem_ordO.1 hx1).1
        apply hset
        · intro e
          exact hnd.2.2 x hx root (by simp) e
        · omega
      have hnx' : Nx ((ll.set root i).set i nx) (P ++ [root]) := by rw [g3] at g4; exact g4.frame hP
      apply recLists_ok b dpi hlt hn l (i + 1) _ _ hd' hil
      refine ⟨by simp [l1], by split <;> simp [l2], ?_⟩
      intro k' hk'
      by_cases hkk : k' = k
      · subst hkk
        cases bk with
        | true =>
          simp only [if_true] at hthis ⊢
          refine ⟨i, by rw [List.getElem?_set_self (by omega)], .inr ⟨hil, P ++ [root], by rw [hthis, g3], ?_, ?_⟩⟩
          · rw [hthis, g3]; exact hnx'.snoc hsetr
          · rw [hthis, hseti, List.head?_append, hnx]; rfl
        | false =>
          simp only [Bool.false_eq_true, if_false] at hthis ⊢
          refine ⟨root, f1, .inr ⟨g2, i :: P, by rw [hthis, g3]; rfl, ?_, ?_⟩⟩
          · rw [hthis, g3]
            rw [g3] at hnx
            cases hP2 : P ++ [root] with
            | nil => simp at hP2
            | cons c l =>
              rw [hP2] at hnx hnx'
              simp only [List.head?_cons, Option.some.injEq] at hnx
              subst hnx
              exact ⟨hseti, hnx'⟩
          · rw [hthis, hsetr]; rfl
      · obtain ⟨fr', h1, h2⟩ := l3 k' hk'
        refine ⟨fr', by split <;> [rw [List.getElem?_set_ne (fun e => hkk e.symm)]; skip] <;> exact h1, ?_⟩
        rw [hother k' hkk]
        rcases h2 with h2 | ⟨h2, P', h3, h4, h5⟩
        · exact .inl h2
        · have hm : ∀ x ∈ ordO b dpi i k', ((ll.set root i).set i nx)[x]? = ll[x]? := by
            intro x hx
            obtain ⟨a1, a2⟩ := mem_ordO.1 hx
            obtain ⟨_, a4⟩ := mem_ordO.1 hrmem
            apply hset
            · rintro rfl
              rw [a2] at a4
              simp only [Option.some.injEq] at a4
              exact hkk a4
            · omega
          refine .inr ⟨h2, P', h3, ?_, ?_⟩
          · rw [h3] at h4 ⊢
            exact h4.frame (fun x hx => hm x (by rw [h3]; simp [hx]))
          · rw [hm fr' (by rw [h3]; simp), h5]

theorem recFronts_ok (ll : List Nat) : ∀ (fr : List Nat), (∀ k f : Nat, fr[k]? = some f → f < ll.length) →
    ∃ fr', recFronts ll fr = .ok fr' ∧ fr'.length = fr.length ∧ ∀ k f : Nat, fr[k]? = some f → fr'[k]? = ll[f]?
  | [], _ => ⟨[], rfl, rfl, by simp⟩
  | l :: fr, h => by
    have hl := h 0 l rfl
    obtain ⟨fr', e1, e2, e3⟩ := recFronts_ok ll fr (fun k f hf => h (k + 1) f (by simpa using hf))
    rw [recFronts, List.getElem?_eq_getElem hl]
    simp only [e1, Except.bind]
    refine ⟨_, rfl, by simp [e2], ?_⟩
    intro k f hf
    cases k with
    | zero =>
      simp only [List.getElem?_cons_zero, Option.some.injEq] at hf
      subst hf
      simp [List.getElem?_eq_getElem hl]
    | succ k => simpa using e3 k f (by simpa using hf)

/-- The elements of subsequence `k` not yet delivered when the positions from `m` on are -/
def rest (s : Nat → Nat) (O : List Nat) (m : Nat) : List Nat := O.filter fun i => decide (s i < m)

theorem rest_step {s : Nat → Nat} : ∀ {O : List Nat} {m i0 : Nat}, O.Pairwise (fun a b => s b < s a) → i0 ∈ O → s i0 = m → rest s O (m + 1) = i0 :: rest s O m
  | x :: O, m, i0, hp, hm, he => by
    rw [List.pairwise_cons] at hp
    unfold rest at *
    rcases List.mem_cons.1 hm with rfl | hm'
    · rw [List.filter_cons_of_pos (by simp; omega), List.filter_cons_of_neg (by simp; omega)]
      congr 1
      apply List.filter_congr
      intro y hy
      have := hp.1 y hy
      rw [decide_eq_decide]
      omega
    · have := hp.1 i0 hm'
      rw [List.filter_cons_of_neg (by simp; omega), List.filter_cons_of_neg (by simp; omega)]
      exact rest_step hp.2 hm' he

theorem rest_same {s : Nat → Nat} {O : List Nat} {m : Nat} (h : ∀ i ∈ O, s i ≠ m) : rest s O (m + 1) = rest s O m := by
  unfold rest
  apply List.filter_congr
  intro i hi
  have := h i hi
  rw [decide_eq_decide]
  omega

theorem recValues_ok {ll bde rhs dsi sis dpi : List Nat} {b : List Bool} (hsi : ∀ m, m < rhs.length → ∃ i : Nat, sis[i]? = some m)
    (hinj : ∀ i j m : Nat, sis[i]? = some m → sis[j]? = some m → i = j)
    (hdpi : ∀ i m : Nat, sis[i]? = some m → ∃ k, dpi[i]? = some k ∧ dsi[m]? = some k ∧ k < b.length)
    (hbde : ∀ i m : Nat, sis[i]? = some m → bde[i]? = rhs[m]?) (hdl : dsi.length = rhs.length)
    (hll : ∀ i m : Nat, sis[i]? = some m → ∃ nx, ll[i]? = some nx) (hlen : sis.length = dpi.length)
    (hO : ∀ k, (ordO b dpi dpi.length k).Pairwise (fun a c => (fun i => sis[i]?.getD 0) c < (fun i => sis[i]?.getD 0) a)) :
    ∀ (m : Nat) (fr : List Nat), m ≤ rhs.length → fr.length = b.length →
    (∀ k < b.length, Nx ll (rest (fun i => sis[i]?.getD 0) (ordO b dpi dpi.length k) m) ∧
      ∀ x, (rest (fun i => sis[i]?.getD 0) (ordO b dpi dpi.length k) m).head? = some x → fr[k]? = some x) →
    recValues ll bde (dsi.take m).reverse fr (rhs.drop m) = .ok rhs := by
  intro m
  induction m with
  | zero => intro fr _ _ _; simp [recValues]
  | succ m ih =>
    intro fr hm hfl hinv
    obtain ⟨i0, hi0⟩ := hsi m (by omega)
    obtain ⟨k0, h1, h2, h3⟩ := hdpi i0 m hi0
    have hi0l := (List.getElem?_eq_some_iff.1 hi0).1
    have htake : (dsi.take (m + 1)).reverse = k0 :: (dsi.take m).reverse := by
      rw [List.take_add_one, h2]
      simp
    have hmem : i0 ∈ ordO b dpi dpi.length k0 := mem_ordO.2 ⟨by omega, h1⟩
    have hstep := rest_step (m := m) (hO k0) hmem (by simp [hi0])
    obtain ⟨hN, hF⟩ := hinv k0 h3
    rw [hstep] at hN hF
    have hfr := hF i0 rfl
    obtain ⟨nx, hnx⟩ := hll i0 m hi0
    have hv := hbde i0 m hi0
    rw [List.getElem?_eq_getElem (show m < rhs.length by omega)] at hv
    rw [htake, recValues, hfr]
    simp only [hnx, hv]
    rw [← List.drop_eq_getElem_cons (by omega)]
    apply ih _ (by omega) (by simp [hfl])
    intro k hk
    by_cases hkk : k = k0
    · subst hkk
      refine ⟨hN.tail, ?_⟩
      intro x hx
      rw [List.getElem?_set_self (by omega)]
      cases hr : rest (fun i => sis[i]?.getD 0) (ordO b dpi dpi.length k) m with
      | nil => rw [hr] at hx; simp at hx
      | cons c l =>
        rw [hr] at hx hN
        simp only [List.head?_cons, Option.some.injEq] at hx
        subst hx
        have := hN.1
        rw [hnx] at this
        exact this
    · have hs : rest (fun i => sis[i]?.getD 0) (ordO b dpi dpi.length k) (m + 1) = rest (fun i => sis[i]?.getD 0) (ordO b dpi dpi.length k) m := by
        apply rest_same
        intro i hi e
        obtain ⟨a1, a2⟩ := mem_ordO.1 hi
        have hsl : i < sis.length := by omega
        rw [List.getElem?_eq_getElem hsl] at e
        simp only [Option.getD_some] at e
        have : sis[i]? = some m := by rw [List.getElem?_eq_getElem hsl, e]
        have := hinj i i0 m this hi0
        subst this
        rw [a2] at h1
        simp only [Option.some.injEq] at h1
        exact hkk h1
      rw [← hs]
      refine ⟨(hinv k hk).1, ?_⟩
      intro x hx
      rw [List.getElem?_set_ne (fun e => hkk e.symm)]
      exact (hinv k hk).2 x hx

theorem mems_pairwise (dpi : List Nat) (i k : Nat) : (mems dpi i k).Pairwise (· < ·) := List.pairwise_lt_range.filter _

theorem recoverD_ok {sis dpi dsi bde rhs : List Nat} {b : List Bool} (hp : sis.Perm (List.range rhs.length)) (hd : Decomp sis dpi b) (hn : rhs.length ≤ npos)
    (hdl : dsi.length = rhs.length) (hds : ∀ i m k : Nat, sis[i]? = some m → dpi[i]? = some k → dsi[m]? = some k)
    (hbde : ∀ i m : Nat, sis[i]? = some m → bde[i]? = rhs[m]?) : recoverD dpi dsi b bde = .ok rhs := by
  have hsl : sis.length = rhs.length := by simpa using hp.length_eq
  have hlen := hd.len
  have hnd : sis.Nodup := hp.nodup_iff.2 List.nodup_range
  obtain ⟨ll, fr, e1, e2, e3, e4⟩ := recLists_ok b dpi hd.lt (by omega) dpi 0 (List.replicate dpi.length 0) (List.replicate b.length npos) rfl (by omega) (by
    refine ⟨by simp, by simp, ?_⟩
    intro k hk
    refine ⟨npos, by rw [List.getElem?_replicate, if_pos hk], .inl ⟨?_, rfl⟩⟩
    simp [ordO, mems])
  have hne : ∀ k < b.length, ordO b dpi dpi.length k ≠ [] := by
    intro k hk
    obtain ⟨i, hi⟩ := hd.used k hk
    exact List.ne_nil_of_mem (mem_ordO.2 ⟨(List.getElem?_eq_some_iff.1 hi).1, hi⟩)
  obtain ⟨fr', f1, f2, f3⟩ := recFronts_ok ll fr (by
    intro k f hf
    have hk : k < b.length := by rw [← e3]; exact (List.getElem?_eq_some_iff.1 hf).1
    obtain ⟨front, g1, g2⟩ := e4 k hk
    rw [hf] at g1
    simp only [Option.some.injEq] at g1
    subst g1
    rcases g2 with g2 | g2
    · exact absurd g2.1 (hne k hk)
    · omega)
  unfold recoverD
  rw [e1]
  simp only [Except.bind, f1]
  have hval : ∀ i : Nat, i < sis.length → sis[i]? = some (sis[i]?.getD 0) := by
    intro i hi
    rw [List.getElem?_eq_getElem hi]; rfl
  have hO : ∀ k, (ordO b dpi dpi.length k).Pairwise (fun a c => (fun i => sis[i]?.getD 0) c < (fun i => sis[i]?.getD 0) a) := by
    intro k
    have hmp := mems_pairwise dpi dpi.length k
    have hmm : ∀ x ∈ mems dpi dpi.length k, x < sis.length ∧ dpi[x]? = some k := fun x hx => by
      have := mem_mems.1 hx
      exact ⟨by omega, this.2⟩
    unfold ordO
    split
    · rename_i hb
      apply List.Pairwise.imp_of_mem _ hmp
      intro a c ha hc hac
      exact hd.down a c k _ _ hac (hmm a ha).2 (hmm c hc).2 (hval a (hmm a ha).1) (hval c (hmm c hc).1) hb
    · rename_i hb
      rw [List.pairwise_reverse]
      apply List.Pairwise.imp_of_mem _ hmp
      intro a c ha hc hac
      have hk := hd.lt a k (hmm a ha).2
      have hbf : b[k]? = some false := by
        rw [List.getElem?_eq_getElem hk] at hb ⊢
        cases hbk : b[k]
        · rfl
        · rw [hbk] at hb; simp at hb
      exact hd.up a c k _ _ hac (hmm a ha).2 (hmm c hc).2 (hval a (hmm a ha).1) (hval c (hmm c hc).1) hbf
  have := recValues_ok (ll := ll) (bde := bde) (rhs := rhs) (dsi := dsi) (sis := sis) (dpi := dpi) (b := b) (by
      intro m hm
      have : m ∈ sis := hp.mem_iff.2 (List.mem_range.2 hm)
      exact List.getElem?_of_mem this) (by
      intro i j m hi hj
      obtain ⟨i1, i2⟩ := List.getElem?_eq_some_iff.1 hi
      obtain ⟨j1, j2⟩ := List.getElem?_eq_some_iff.1 hj
      exact (List.getElem_inj hnd).1 (by rw [i2, j2])) (by
      intro i m hi
      have hil := (List.getElem?_eq_some_iff.1 hi).1
      have hk : dpi[i]? = some dpi[i] := List.getElem?_eq_getElem (by omega)
      exact ⟨_, hk, hds i m _ hi hk, hd.lt i _ hk⟩) hbde hdl (by
      intro i m hi
      have hil := (List.getElem?_eq_some_iff.1 hi).1
      exact ⟨_, List.getElem?_eq_getElem (by omega)⟩) hlen.symm hO rhs.length fr' (Nat.le_refl _) (by rw [f2, e3]) (by
      intro k hk
      have hrest : rest (fun i => sis[i]?.getD 0) (ordO b dpi dpi.length k) rhs.length = ordO b dpi dpi.length k := by
        unfold rest
        rw [List.filter_eq_self]
        intro x hx
        have hxl : x < sis.length := by have := (mem_ordO.1 hx).1; omega
        simp only [decide_eq_true_eq]
        rw [List.getElem?_eq_getElem hxl]
        exact List.mem_range.1 (hp.mem_iff.1 (List.getElem_mem hxl))
      rw [hrest]
      obtain ⟨front, g1, g2⟩ := e4 k hk
      rcases g2 with g2 | ⟨_, P, g3, g4, g5⟩
      · exact absurd g2.1 (hne k hk)
      · refine ⟨g4, ?_⟩
        intro x hx
        rw [f3 k front g1, g5, hx])
  rw [← hdl, List.take_length] at this
  rw [hdl, List.drop_length] at this
  exact this

theorem dsigmaLoop_ok {dpi all : List Nat} (hnd : all.Nodup) (hl : dpi.length = all.length) : ∀ (sis : List Nat) (i : Nat) (out : List Nat), all.drop i = sis → i ≤ all.length →
    (∀ x ∈ all, x < out.length) → (∀ j m k : Nat, j < i → all[j]? = some m → dpi[j]? = some k → out[m]? = some k) →
    ∃ out', dsigmaLoop dpi i sis out = .ok out' ∧ out'.length = out.length ∧ ∀ j m k : Nat, all[j]? = some m → dpi[j]? = some k → out'[m]? = some k
  | [], i, out, hd, hi, _, h => by
    refine ⟨out, rfl, rfl, ?_⟩
    intro j m k h1 h2
    have : all.length ≤ i := by simpa using hd
    exact h j m k (by have := (List.getElem?_eq_some_iff.1 h1).1; omega) h1 h2
  | s :: sis, i, out, hd, hi, hb, h => by
    have hil : i < all.length := by
      rcases Nat.lt_or_ge i all.length with h | h
      · exact h
      · rw [List.drop_eq_nil_of_le h] at hd; simp at hd
    have hk : all[i]? = some s := by
      have := List.getElem?_drop (xs := all) (i := i) (j := 0)
      rw [hd] at this
      simpa using this.symm
    have hd' : all.drop (i + 1) = sis := by rw [← List.drop_drop, hd]; rfl
    have hs := hb s (List.mem_of_getElem? hk)
    rw [dsigmaLoop, List.getElem?_eq_getElem (show i < dpi.length by omega)]
    simp only
    rw [if_pos hs]
    obtain ⟨o', g1, g2, g3⟩ := dsigmaLoop_ok hnd hl sis (i + 1) (out.set s dpi[i]) hd' hil (by simpa using hb) (by
      intro j m k hj h1 h2
      by_cases hji : j = i
      · subst hji
        rw [hk] at h1
        simp only [Option.some.injEq] at h1
        subst h1
        rw [List.getElem?_set_self hs, ← h2, List.getElem?_eq_getElem (by omega)]
      · rw [List.getElem?_set_ne]
        · exact h j m k (by omega) h1 h2
        · rintro rfl
          apply hji
          obtain ⟨i1, i2⟩ := List.getElem?_eq_some_iff.1 hk
          obtain ⟨j1, j2⟩ := List.getElem?_eq_some_iff.1 h1
          exact (List.getElem_inj hnd).1 (by rw [i2, j2]))
    exact ⟨o', g1, by simpa using g2, g3⟩

theorem dsigma_ok {sis dpi : List Nat} (hp : sis.Perm (List.range sis.length)) (hl : dpi.length = sis.length) :
    ∃ dsi, dsigma sis dpi = .ok dsi ∧ dsi.length = sis.length ∧ ∀ i m k : Nat, sis[i]? = some m → dpi[i]? = some k → dsi[m]? = some k := by
  obtain ⟨o, h1, h2, h3⟩ := dsigmaLoop_ok (dpi := dpi) (hp.nodup_iff.2 List.nodup_range) hl sis 0 (List.replicate sis.length 0) rfl (by omega) (by
    intro x hx
    simpa using hp.mem_iff.1 hx) (by intro j m k hj; omega)
  exact ⟨o, h1, by simpa using h2, h3⟩

end Esp
end Tdc
