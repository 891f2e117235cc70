import Verif.Lemmas.LcpPQ

namespace Tdc
namespace LC

variable {t : List UInt8} {A : TextArrays} {th : Nat}

/-! ### Segments of a doubly linked list -/

/-- `xs` is linked; before it comes `p`, after it comes `q` -/
def Seg (prev next : List Nat) : Nat → List Nat → Nat → Prop
  | _, [], _ => True
  | p, x :: xs, q => prev[x]? = some p ∧ next[x]? = some (xs.head?.getD q) ∧ Seg prev next x xs q

theorem Seg.append {prev next : List Nat} (a b : List Nat) : ∀ (p q : Nat),
    Seg prev next p (a ++ b) q ↔ Seg prev next p a (b.head?.getD q) ∧ Seg prev next (a.getLast?.getD p) b q := by
  induction a with
  | nil => intro p q; simp [Seg]
  | cons x a ih =>
    intro p q
    have h1 : (a ++ b).head?.getD q = a.head?.getD (b.head?.getD q) := by cases a <;> simp
    have h2 : (x :: a).getLast?.getD p = a.getLast?.getD x := by
      rw [List.getLast?_cons]; rfl
    rw [List.cons_append, Seg, Seg, ih, h1, h2]
    simp only [and_assoc]

theorem Seg.relink_last {prev next prev' next' : List Nat} (a : List Nat) : ∀ (p q0 q : Nat), Seg prev next p a q0 → a.Nodup →
    (∀ x ∈ a, prev'[x]? = prev[x]?) → (∀ x ∈ a, a.getLast? ≠ some x → next'[x]? = next[x]?) → (∀ y, a.getLast? = some y → next'[y]? = some q) →
    Seg prev' next' p a q := by
  induction a with
  | nil => intros; trivial
  | cons x a ih =>
    intro p q0 q h hn h1 h2 h3
    obtain ⟨s1, s2, s3⟩ := h
    rw [List.nodup_cons] at hn
    refine ⟨by rw [h1 x (by simp)]; exact s1, ?_, ?_⟩
    · cases a with
      | nil => exact h3 x rfl
      | cons y a =>
        rw [h2 x (by simp) ?_]
        · exact s2
        · intro h
          rw [List.getLast?_cons_cons] at h
          exact hn.1 (List.mem_of_getLast? h)
    · cases a with
      | nil => trivial
      | cons y a =>
        refine ih x q0 q s3 hn.2 (fun z hz => h1 z (by simp [hz])) ?_ ?_
        · intro z hz hne
          exact h2 z (List.mem_cons_of_mem _ hz) (by rw [List.getLast?_cons_cons]; exact hne)
        · intro z hz
          exact h3 z (by rw [List.getLast?_cons_cons]; exact hz)

theorem Seg.congr {prev next prev' next' : List Nat} (a : List Nat) : ∀ (p q : Nat), Seg prev next p a q →
    (∀ x ∈ a, prev'[x]? = prev[x]?) → (∀ x ∈ a, next'[x]? = next[x]?) → Seg prev' next' p a q := by
  induction a with
  | nil => intros; trivial
  | cons x a ih =>
    intro p q h h1 h2
    obtain ⟨s1, s2, s3⟩ := h
    exact ⟨by rw [h1 x (by simp)]; exact s1, by rw [h2 x (by simp)]; exact s2,
      ih _ _ s3 (fun z hz => h1 z (by simp [hz])) (fun z hz => h2 z (by simp [hz]))⟩

theorem Seg.relink_head {prev next prev' next' : List Nat} {b : List Nat} {p0 p q : Nat} (h : Seg prev next p0 b q)
    (h1 : ∀ x ∈ b, b.head? ≠ some x → prev'[x]? = prev[x]?) (h2 : ∀ y, b.head? = some y → prev'[y]? = some p) (hn : b.Nodup)
    (h3 : ∀ x ∈ b, next'[x]? = next[x]?) : Seg prev' next' p b q := by
  cases b with
  | nil => trivial
  | cons x b =>
    obtain ⟨s1, s2, s3⟩ := h
    rw [List.nodup_cons] at hn
    refine ⟨h2 x rfl, by rw [h3 x (by simp)]; exact s2, Seg.congr b _ _ s3 ?_ (fun z hz => h3 z (by simp [hz]))⟩
    intro z hz
    refine h1 z (by simp [hz]) ?_
    intro h
    rw [List.head?_cons] at h
    cases h
    exact hn.1 hz

/-- `if y ≠ undef then v[y] = x` -/
theorem linkIf {v : List Nat} {u : Nat} {o : Option Nat} (x : Nat) (ho : ∀ y, o = some y → y < u ∧ y < v.length) :
    ∃ v', setUnless u v (o.getD u) x = .ok v' ∧ v'.length = v.length ∧
      (∀ y, o = some y → v'[y]? = some x) ∧ ∀ z, o ≠ some z → v'[z]? = v[z]? := by
  cases o with
  | none => exact ⟨v, by simp [setUnless], rfl, by simp, fun _ _ => rfl⟩
  | some y =>
    obtain ⟨h1, h2⟩ := ho y rfl
    refine ⟨v.set y x, ?_, by simp, ?_, ?_⟩
    · show (if y ≠ u then vset v y x else .ok v) = _
      rw [if_pos (by omega), vset_ok x h2]
    · intro z hz; cases hz; exact set_get_self x h2
    · intro z hz
      rw [List.getElem?_set_ne]
      rintro rfl; exact hz rfl

theorem find?_congr' {p q : Nat → Bool} {l : List Nat} (h : ∀ x ∈ l, p x = q x) : l.find? p = l.find? q := by
  induction l with
  | nil => rfl
  | cons x l ih =>
    rw [List.find?_cons, List.find?_cons, h x (by simp), ih (fun y hy => h y (by simp [hy]))]

/-! ### The list of MaxLCPSuffixList -/

structure MInv (n mx : Nat) (st : ML) (xs : List Nat) : Prop where
  undef : st.undef = n
  lcpLen : st.lcp.length = n
  prevLen : st.prev.length = n
  nextLen : st.next.length = n
  idxLen : st.idx.length = mx
  contLen : st.cont.length = n
  nodup : xs.Nodup
  lt : ∀ i ∈ xs, i < n
  key : ∀ i ∈ xs, 1 ≤ st.lcp.getD i 0 ∧ st.lcp.getD i 0 ≤ mx
  sorted : xs.Pairwise (fun i j => st.lcp.getD j 0 ≤ st.lcp.getD i 0)
  seg : Seg st.prev st.next n xs n
  first : st.first = xs.head?.getD n
  last : st.last = xs.getLast?.getD n
  idx : ∀ l : Nat, l < mx → st.idx[l]? = some ((xs.find? (fun i => decide (st.lcp.getD i 0 = l + 1))).getD n)
  cont : ∀ i : Nat, i < n → st.cont[i]? = some (decide (i ∈ xs))
  size : st.size = xs.length

theorem mlLookup_spec {n mx : Nat} {st : ML} {xs : List Nat} (h : MInv n mx st xs) (l : Nat) (hl : l ≤ mx) :
    mlLookup st.idx st.undef l = .ok ((xs.find? (fun i => decide (st.lcp.getD i 0 ≤ l))).getD n) := by
  induction l with
  | zero =>
    have : xs.find? (fun i => decide (st.lcp.getD i 0 ≤ 0)) = none := by
      rw [List.find?_eq_none]
      intro i hi
      have := (h.key i hi).1
      simp only [decide_eq_true_eq]
      omega
    rw [this, mlLookup, h.undef]
    rfl
  | succ l ih =>
    rw [mlLookup, vget_ok (h.idx l (by omega))]
    simp only
    cases hf : xs.find? (fun i => decide (st.lcp.getD i 0 = l + 1)) with
    | none =>
      rw [List.find?_eq_none] at hf
      rw [Option.getD_none, if_pos h.undef.symm, ih (by omega)]
      congr 2
      refine find?_congr' ?_
      intro i hi
      have := hf i hi
      simp only [decide_eq_true_eq] at this
      rw [decide_eq_decide]
      omega
    | some r =>
      have hr := List.mem_of_find?_eq_some hf
      have hlt := h.lt r hr
      rw [Option.getD_some, if_neg (by rw [h.undef]; omega)]
      rw [List.find?_eq_some_iff_append] at hf
      obtain ⟨hk, a, b, rfl, hne⟩ := hf
      simp only [decide_eq_true_eq] at hk
      have : (a ++ r :: b).find? (fun i => decide (st.lcp.getD i 0 ≤ l + 1)) = some r := by
        rw [List.find?_eq_some_iff_append]
        refine ⟨by simp only [decide_eq_true_eq]; omega, a, b, rfl, ?_⟩
        intro x hx
        have h1 := hne x hx
        have h2 := (List.pairwise_append.mp h.sorted).2.2 x hx r (by simp)
        simp only [decide_eq_true_eq, Bool.not_eq_true', decide_eq_false_iff_not] at h1 ⊢
        omega
      rw [this]
      rfl

/-- the index after the entry for `i` (with key `l`) was put between `a` (larger keys) and `b` (keys up to `l`) -/
theorem idx_insert {lcp idx : List Nat} {mx n i l : Nat} {a b : List Nat} (hl : lcp.getD i 0 = l) (h1 : 1 ≤ l) (h2 : l ≤ mx) (hlen : idx.length = mx)
    (ha : ∀ x ∈ a, l < lcp.getD x 0)
    (h : ∀ k : Nat, k < mx → idx[k]? = some (((a ++ b).find? (fun i => decide (lcp.getD i 0 = k + 1))).getD n)) :
    ∀ k : Nat, k < mx → (idx.set (l - 1) i)[k]? = some (((a ++ i :: b).find? (fun i => decide (lcp.getD i 0 = k + 1))).getD n) := by
  intro k hk
  by_cases hkl : k = l - 1
  · subst hkl
    rw [set_get_self _ (by omega)]
    have : a.find? (fun i => decide (lcp.getD i 0 = l - 1 + 1)) = none := by
      rw [List.find?_eq_none]
      intro x hx
      have := ha x hx
      simp only [decide_eq_true_eq]
      omega
    rw [List.find?_append, this, List.find?_cons, decide_eq_true (by omega)]
    rfl
  · rw [List.getElem?_set_ne (by omega), h k hk]
    rw [List.find?_append, List.find?_append, List.find?_cons, decide_eq_false (by omega)]

theorem insert_spec {n mx : Nat} {st : ML} {xs : List Nat} (h : MInv n mx st xs) {i : Nat} (hi : i < n) (hni : i ∉ xs)
    (h1 : 1 ≤ st.lcp.getD i 0) (h2 : st.lcp.getD i 0 ≤ mx) :
    ∃ st' ys, st.insert i = .ok st' ∧ MInv n mx st' ys ∧ st'.lcp = st.lcp ∧ ∀ j, j ∈ ys ↔ j = i ∨ j ∈ xs := by
  generalize hl : st.lcp.getD i 0 = l at *
  have hlook := mlLookup_spec h l h2
  -- the two parts of the list
  obtain ⟨a, b, hab, ha, hb⟩ : ∃ a b, xs = a ++ b ∧ (∀ x ∈ a, l < st.lcp.getD x 0) ∧
      xs.find? (fun i => decide (st.lcp.getD i 0 ≤ l)) = b.head? ∧ ∀ x ∈ b, st.lcp.getD x 0 ≤ l := by
    cases hf : xs.find? (fun i => decide (st.lcp.getD i 0 ≤ l)) with
    | none =>
      rw [List.find?_eq_none] at hf
      refine ⟨xs, [], by simp, ?_, rfl, by simp⟩
      intro x hx
      have := hf x hx
      simp only [decide_eq_true_eq] at this
      omega
    | some r =>
      rw [List.find?_eq_some_iff_append] at hf
      obtain ⟨hk, a, b, rfl, hne⟩ := hf
      refine ⟨a, r :: b, rfl, ?_, rfl, ?_⟩
      · intro x hx
        have := hne x hx
        simp only [Bool.not_eq_true', decide_eq_false_iff_not] at this
        omega
      · intro x hx
        simp only [decide_eq_true_eq] at hk
        have hp := (List.pairwise_append.mp h.sorted).2.1
        rcases List.mem_cons.mp hx with rfl | hx
        · exact hk
        · have := (List.pairwise_cons.mp hp).1 x hx
          omega
  obtain ⟨hb1, hb2⟩ := hb
  subst hab
  obtain ⟨sa, sb⟩ := (Seg.append a b n n).mp h.seg
  have hnd := List.nodup_append.mp h.nodup
  have hia : i ∉ a := fun hh => hni (by simp [hh])
  have hib : i ∉ b := fun hh => hni (by simp [hh])
  have hal : ∀ x ∈ a, x < n := fun x hx => h.lt x (by simp [hx])
  have hbl : ∀ x ∈ b, x < n := fun x hx => h.lt x (by simp [hx])
  rw [hb1] at hlook
  -- linking
  have link : ∃ st1, st.link i (b.head?.getD n) = .ok st1 ∧
      st1.lcp = st.lcp ∧ st1.undef = n ∧ st1.idx = st.idx ∧ st1.cont = st.cont ∧ st1.size = st.size ∧ st1.prev.length = n ∧ st1.next.length = n ∧
      Seg st1.prev st1.next n (a ++ i :: b) n ∧ (if st1.first = n then i else st1.first) = (a ++ i :: b).head?.getD n ∧
      st1.last = (a ++ i :: b).getLast?.getD n := by
    unfold ML.link
    cases b with
    | nil =>
      rw [if_pos (by rw [h.undef]; rfl)]
      have hlast : st.last = a.getLast?.getD n := by rw [h.last]; simp
      obtain ⟨nx, e1, l1, g1, g2⟩ := linkIf (v := st.next) (u := n) (o := a.getLast?) i
        (fun y hy => ⟨hal y (List.mem_of_getLast? hy), by rw [h.nextLen]; exact hal y (List.mem_of_getLast? hy)⟩)
      have hnl := h.nextLen
      have hpl := h.prevLen
      refine ⟨{ st with next := nx.set i n, prev := st.prev.set i st.last, last := i }, ?_, rfl, h.undef, rfl, rfl, rfl, by simpa using hpl,
        by simpa [l1] using hnl, ?_, ?_, ?_⟩
      · unfold ML.linkEnd
        rw [h.undef, hlast, e1]
        simp only [bind, Except.bind, pure, Except.pure]
        rw [vset_ok n (by omega)]
        simp only
        rw [vset_ok _ (by omega)]
      · refine (Seg.append a [i] n n).mpr ⟨?_, ?_⟩
        · refine Seg.relink_last a n _ _ sa hnd.1 ?_ ?_ ?_
          · intro x hx
            show (st.prev.set i st.last)[x]? = _
            rw [List.getElem?_set_ne (by rintro rfl; exact hia hx)]
          · intro x hx hne
            show (nx.set i n)[x]? = _
            rw [List.getElem?_set_ne (by rintro rfl; exact hia hx), g2 x hne]
          · intro y hy
            show (nx.set i n)[y]? = _
            rw [List.getElem?_set_ne (by rintro rfl; exact hia (List.mem_of_getLast? hy)), g1 y hy]
            rfl
        · refine ⟨?_, ?_, trivial⟩
          · show (st.prev.set i st.last)[i]? = _
            rw [set_get_self _ (by omega), hlast]
          · show (nx.set i n)[i]? = _
            rw [set_get_self _ (by omega)]
            rfl
      · show (if st.first = n then i else st.first) = _
        rw [h.first]
        cases a with
        | nil => simp
        | cons y a =>
          have := hal y (by simp)
          simp only [List.cons_append, List.head?_cons, Option.getD_some]
          exact if_neg (by omega)
      · show i = _
        simp
    | cons y b =>
      have hyn := hbl y (by simp)
      rw [List.head?_cons, Option.getD_some, if_neg (by rw [h.undef]; omega)]
      have hpy : st.prev[y]? = some (a.getLast?.getD n) := sb.1
      have hiy : i ≠ y := by rintro rfl; exact hib (by simp)
      have hnl := h.nextLen
      have hpl := h.prevLen
      obtain ⟨nx, e1, l1, g1, g2⟩ := linkIf (v := st.next.set i y) (u := n) (o := a.getLast?) i
        (fun z hz => ⟨hal z (List.mem_of_getLast? hz), by rw [List.length_set, hnl]; exact hal z (List.mem_of_getLast? hz)⟩)
      rw [List.length_set] at l1
      refine ⟨{ st with prev := (st.prev.set i (a.getLast?.getD n)).set y i, next := nx,
                        first := if a.getLast?.getD n ≠ n then st.first else i }, ?_, rfl, h.undef, rfl, rfl, rfl, by simpa using hpl,
        by show nx.length = n; omega, ?_, ?_, ?_⟩
      · unfold ML.linkBefore
        simp only [bind, Except.bind, pure, Except.pure]
        rw [vget_ok hpy]
        simp only
        rw [vset_ok _ (by omega)]
        simp only
        rw [vset_ok _ (by omega)]
        simp only
        rw [h.undef, e1]
        simp only
        rw [vset_ok _ (by simp; omega)]
      · refine (Seg.append a (i :: y :: b) n n).mpr ⟨?_, ?_, ?_, ?_⟩
        · refine Seg.relink_last a n _ _ sa hnd.1 ?_ ?_ ?_
          · intro x hx
            show ((st.prev.set i _).set y i)[x]? = _
            rw [List.getElem?_set_ne (by rintro rfl; exact hnd.2.2 y hx y (by simp) rfl), List.getElem?_set_ne (by rintro rfl; exact hia hx)]
          · intro x hx hne
            show nx[x]? = _
            rw [g2 x hne, List.getElem?_set_ne (by rintro rfl; exact hia hx)]
          · intro z hz
            show nx[z]? = _
            rw [g1 z hz]
            rfl
        · show ((st.prev.set i _).set y i)[i]? = _
          rw [List.getElem?_set_ne (Ne.symm hiy), set_get_self _ (by omega)]
        · show nx[i]? = _
          rw [g2 i (fun hh => hia (List.mem_of_getLast? hh)), set_get_self _ (by omega)]
          rfl
        · refine Seg.relink_head sb ?_ ?_ hnd.2.1 ?_
          · intro x hx hne
            have hxy : y ≠ x := by rintro rfl; exact hne rfl
            show ((st.prev.set i _).set y i)[x]? = _
            rw [List.getElem?_set_ne hxy, List.getElem?_set_ne (by rintro rfl; exact hib hx)]
          · intro z hz
            cases hz
            show ((st.prev.set i _).set y i)[y]? = _
            rw [set_get_self _ (by simp; omega)]
          · intro x hx
            show nx[x]? = _
            rw [g2 x (fun hh => hnd.2.2 x (List.mem_of_getLast? hh) x hx rfl), List.getElem?_set_ne (by rintro rfl; exact hib hx)]
      · show (if (if a.getLast?.getD n ≠ n then st.first else i) = n then i else (if a.getLast?.getD n ≠ n then st.first else i)) = _
        rw [h.first]
        cases a with
        | nil => simp
        | cons z a =>
          have hz := hal z (by simp)
          have hla : (z :: a).getLast?.getD n ≠ n := by
            have := hal _ (List.mem_of_getLast? (List.getLast?_eq_some_getLast (l := z :: a) (by simp)))
            rw [List.getLast?_eq_some_getLast (l := z :: a) (by simp), Option.getD_some]
            omega
          rw [if_pos hla]
          simp only [List.cons_append, List.head?_cons, Option.getD_some]
          exact if_neg (by omega)
      · show st.last = _
        rw [h.last]
        congr 1
        rw [List.getLast?_append, List.getLast?_append, List.getLast?_cons_cons]
  obtain ⟨st1, e1, q1, q2, q3, q4, q5, q6, q7, q8, q9, q10⟩ := link
  refine ⟨{ st1 with idx := st1.idx.set (l - 1) i, first := if st1.first = st1.undef then i else st1.first, cont := st1.cont.set i true,
                     size := st1.size + 1 }, a ++ i :: b, ?_, ?_, q1, ?_⟩
  · unfold ML.insert
    simp only [bind, Except.bind]
    rw [vget_ok (getElem?_of_lt (by rw [h.lcpLen]; exact hi))]
    simp only
    rw [hl, hlook]
    simp only
    rw [e1]
    simp only
    unfold ML.finishInsert
    simp only [bind, Except.bind, pure, Except.pure, throw, throwThe, MonadExceptOf.throw]
    rw [if_neg (by omega)]
    rw [vset_ok _ (by rw [q3, h.idxLen]; omega)]
    simp only
    rw [vset_ok _ (by rw [q4, h.contLen]; omega)]
  · have hmem : ∀ j, j ∈ a ++ i :: b ↔ j = i ∨ j ∈ a ++ b := by intro j; simp; tauto
    refine ⟨q2, by rw [← h.lcpLen, ← q1], q6, q7, ?_, ?_, ?_, ?_, ?_, ?_, q8, ?_, q10, ?_, ?_, ?_⟩
    · show (st1.idx.set _ _).length = mx
      rw [List.length_set, q3, h.idxLen]
    · show (st1.cont.set _ _).length = n
      rw [List.length_set, q4, h.contLen]
    · rw [List.nodup_append]
      refine ⟨hnd.1, List.nodup_cons.mpr ⟨hib, hnd.2.1⟩, ?_⟩
      intro x hx y hy
      rcases List.mem_cons.mp hy with rfl | hy
      · rintro rfl; exact hia hx
      · exact hnd.2.2 x hx y hy
    · intro j hj
      rcases (hmem j).mp hj with rfl | hj
      · exact hi
      · exact h.lt j hj
    · intro j hj
      show 1 ≤ st1.lcp.getD j 0 ∧ _ ≤ mx
      rw [q1]
      rcases (hmem j).mp hj with rfl | hj
      · omega
      · exact h.key j hj
    · show List.Pairwise (fun i j => st1.lcp.getD j 0 ≤ st1.lcp.getD i 0) _
      rw [q1]
      obtain ⟨p1, p2, p3⟩ := List.pairwise_append.mp h.sorted
      refine List.pairwise_append.mpr ⟨p1, List.pairwise_cons.mpr ⟨?_, p2⟩, ?_⟩
      · intro x hx; have := hb2 x hx; omega
      · intro x hx y hy
        rcases List.mem_cons.mp hy with rfl | hy
        · have := ha x hx; omega
        · exact p3 x hx y hy
    · show (if st1.first = st1.undef then i else st1.first) = _
      rw [q2]; exact q9
    · show ∀ k : Nat, k < mx → (st1.idx.set (l - 1) i)[k]? = some (((a ++ i :: b).find? (fun i => decide (st1.lcp.getD i 0 = k + 1))).getD n)
      rw [q1, q3]
      exact idx_insert hl h1 h2 h.idxLen ha h.idx
    · intro j hj
      show (st1.cont.set i true)[j]? = _
      rw [q4]
      by_cases hij : i = j
      · subst hij
        rw [set_get_self _ (by rw [h.contLen]; exact hi), decide_eq_true (by simp)]
      · rw [List.getElem?_set_ne hij, h.cont j hj]
        congr 1
        rw [decide_eq_decide, hmem]
        constructor
        · exact Or.inr
        · rintro (rfl | hh)
          · exact absurd rfl hij
          · exact hh
    · show st1.size + 1 = _
      rw [q5, h.size]
      simp
      omega
  · intro j
    simp
    tauto

/-- the index after `i` (with key `l`) was taken out -/
theorem idx_remove {lcp : List Nat} {n i l : Nat} {a b : List Nat} (hl : lcp.getD i 0 = l)
    (hs : (a ++ i :: b).Pairwise (fun i j => lcp.getD j 0 ≤ lcp.getD i 0)) :
    ((a ++ b).find? (fun i => decide (lcp.getD i 0 = l))).getD n =
      if ((a ++ i :: b).find? (fun i => decide (lcp.getD i 0 = l))).getD n = i ∧ i ∉ a then
        (if b.head?.getD n ≠ n ∧ lcp.getD (b.head?.getD n) 0 = l then b.head?.getD n else n)
      else ((a ++ i :: b).find? (fun i => decide (lcp.getD i 0 = l))).getD n := by
  obtain ⟨-, p2, p3⟩ := List.pairwise_append.mp hs
  rw [List.find?_append, List.find?_append, List.find?_cons, decide_eq_true hl]
  simp only
  cases hf : a.find? (fun i => decide (lcp.getD i 0 = l)) with
  | some r =>
    have hr := List.mem_of_find?_eq_some hf
    simp only [Option.some_or, Option.getD_some]
    refine (if_neg ?_).symm
    rintro ⟨hri, hh⟩
    exact hh (hri ▸ hr)
  | none =>
    simp only [Option.none_or, Option.getD_some]
    by_cases hia : i ∈ a
    · rw [List.find?_eq_none] at hf
      have := hf i hia
      exact absurd (decide_eq_true hl) this
    · rw [if_pos (by simp [hia])]
      cases b with
      | nil => simp
      | cons y b =>
        rw [List.head?_cons, Option.getD_some, List.find?_cons]
        have hyl := (List.pairwise_cons.mp p2).1 y (by simp)
        by_cases hy : lcp.getD y 0 = l
        · rw [decide_eq_true hy]
          simp only [Option.getD_some]
          by_cases hyn : y = n
          · rw [if_neg (by omega)]; exact hyn
          · rw [if_pos ⟨hyn, hy⟩]
        · rw [decide_eq_false hy, if_neg (by omega)]
          have : b.find? (fun i => decide (lcp.getD i 0 = l)) = none := by
            rw [List.find?_eq_none]
            intro x hx
            have h1 := (List.pairwise_cons.mp (List.pairwise_cons.mp p2).2).1 x hx
            simp only [decide_eq_true_eq]
            omega
          rw [this]
          rfl

/-- the state with other links -/
def ML.relinked (st : ML) (nx pv : List Nat) (fi la : Nat) : ML := { st with next := nx, prev := pv, first := fi, last := la }

theorem remove_spec {n mx : Nat} {st : ML} {xs : List Nat} (h : MInv n mx st xs) {i : Nat} (hi : i ∈ xs) :
    ∃ st' ys, st.remove i = .ok st' ∧ MInv n mx st' ys ∧ st'.lcp = st.lcp ∧ ∀ j, j ∈ ys ↔ j ≠ i ∧ j ∈ xs := by
  obtain ⟨a, b, rfl⟩ := List.append_of_mem hi
  have hin := h.lt i hi
  obtain ⟨sa, sb⟩ := (Seg.append a (i :: b) n n).mp h.seg
  obtain ⟨s1, s2, s3⟩ := sb
  have hnd := List.nodup_append.mp h.nodup
  have hnb := List.nodup_cons.mp hnd.2.1
  have hia : i ∉ a := fun hh => hnd.2.2 i hh i (by simp) rfl
  have hib := hnb.1
  have hal : ∀ x ∈ a, x < n := fun x hx => h.lt x (by simp [hx])
  have hbl : ∀ x ∈ b, x < n := fun x hx => h.lt x (by simp [hx])
  have hnl := h.nextLen
  have hpl := h.prevLen
  have hkey := h.key i hi
  generalize hl : st.lcp.getD i 0 = l at *
  -- unlink
  obtain ⟨nx, e1, l1, g1, g2⟩ := linkIf (v := st.next) (u := n) (o := a.getLast?) (b.head?.getD n)
    (fun y hy => ⟨hal y (List.mem_of_getLast? hy), by rw [hnl]; exact hal y (List.mem_of_getLast? hy)⟩)
  have hnxi : nx[i]? = some (b.head?.getD n) := by rw [g2 i (fun hh => hia (List.mem_of_getLast? hh))]; exact s2
  obtain ⟨pv, e2, l2, f1, f2⟩ := linkIf (v := st.prev) (u := n) (o := b.head?) (a.getLast?.getD n)
    (fun y hy => ⟨hbl y (List.mem_of_mem_head? hy), by rw [hpl]; exact hbl y (List.mem_of_mem_head? hy)⟩)
  have hunlink : st.unlink i = .ok (st.relinked nx pv (if a.getLast?.getD n ≠ n then st.first else b.head?.getD n) (if b.head?.getD n ≠ n then st.last else a.getLast?.getD n)) := by
    unfold ML.unlink
    simp only [bind, Except.bind]
    rw [vget_ok s1]
    simp only
    rw [vget_ok s2]
    simp only
    rw [h.undef, e1]
    simp only
    rw [vget_ok hnxi]
    simp only
    rw [e2]
    simp only [pure, Except.pure, ML.relinked, h.undef]
  have hseg : Seg pv nx n (a ++ b) n := by
    refine (Seg.append a b n n).mpr ⟨Seg.relink_last a n _ _ sa hnd.1 ?_ ?_ ?_, Seg.relink_head s3 ?_ ?_ hnb.2 ?_⟩
    · intro x hx
      exact f2 x (fun hh => hnd.2.2 x hx x (by simp [List.mem_of_mem_head? hh]) rfl)
    · intro x hx hne; exact g2 x hne
    · intro y hy; exact g1 y hy
    · intro x hx hne; exact f2 x hne
    · intro y hy; exact f1 y hy
    · intro x hx
      exact g2 x (fun hh => hnd.2.2 x (List.mem_of_getLast? hh) x (by simp [hx]) rfl)
  have hfirst : (if a.getLast?.getD n ≠ n then st.first else b.head?.getD n) = (a ++ b).head?.getD n := by
    rw [h.first]
    cases a with
    | nil => simp
    | cons z a =>
      have hla : (z :: a).getLast?.getD n ≠ n := by
        have := hal _ (List.mem_of_getLast? (List.getLast?_eq_some_getLast (l := z :: a) (by simp)))
        rw [List.getLast?_eq_some_getLast (l := z :: a) (by simp), Option.getD_some]
        omega
      rw [if_pos hla]
      rfl
  have hlast : (if b.head?.getD n ≠ n then st.last else a.getLast?.getD n) = (a ++ b).getLast?.getD n := by
    rw [h.last]
    cases b with
    | nil => simp
    | cons z b =>
      have := hbl z (by simp)
      rw [List.head?_cons, Option.getD_some, if_pos (by omega), List.getLast?_append, List.getLast?_append, List.getLast?_cons_cons]
  have hidx := h.idx (l - 1) (by omega)
  rw [show l - 1 + 1 = l by omega] at hidx
  have hrem := idx_remove (n := n) hl h.sorted
  -- the index
  have hdrop : ∃ idx', ML.dropIdx (st.relinked nx pv (if a.getLast?.getD n ≠ n then st.first else b.head?.getD n) (if b.head?.getD n ≠ n then st.last else a.getLast?.getD n)) i l = .ok { (st.relinked nx pv (if a.getLast?.getD n ≠ n then st.first else b.head?.getD n) (if b.head?.getD n ≠ n then st.last else a.getLast?.getD n)) with idx := idx' } ∧ idx'.length = mx ∧
      ∀ k : Nat, k < mx → idx'[k]? = some (((a ++ b).find? (fun i => decide (st.lcp.getD i 0 = k + 1))).getD n) := by
    have hother : ∀ k : Nat, k ≠ l - 1 → (a ++ b).find? (fun i => decide (st.lcp.getD i 0 = k + 1)) =
        (a ++ i :: b).find? (fun i => decide (st.lcp.getD i 0 = k + 1)) := by
      intro k hk
      rw [List.find?_append, List.find?_append, List.find?_cons, decide_eq_false (by omega)]
    unfold ML.dropIdx
    simp only [ML.relinked, bind, Except.bind, pure, Except.pure, throw, throwThe, MonadExceptOf.throw]
    rw [if_neg (by omega)]
    rw [vget_ok hidx]
    simp only
    split
    · rename_i hx
      rw [if_pos ⟨hx, hia⟩] at hrem
      rw [vget_ok hnxi]
      simp only
      have hset : ∀ v, (if b.head?.getD n ≠ n ∧ st.lcp.getD (b.head?.getD n) 0 = l then b.head?.getD n else n) = v →
          ∀ k : Nat, k < mx → (st.idx.set (l - 1) v)[k]? = some (((a ++ b).find? (fun i => decide (st.lcp.getD i 0 = k + 1))).getD n) := by
        intro v hv k hk
        by_cases hkl : k = l - 1
        · subst hkl
          rw [set_get_self _ (by rw [h.idxLen]; exact hk), show l - 1 + 1 = l by omega, hrem, hv]
        · rw [List.getElem?_set_ne (by omega), h.idx k hk, hother k hkl]
      by_cases hk : ¬ b.head?.getD n = st.undef
      · simp only [ne_eq, hk, not_false_eq_true, ↓reduceIte]
        rw [h.undef] at hk
        have hkn : b.head?.getD n < n := by
          cases b with
          | nil => simp at hk
          | cons z b => exact hbl z (by simp)
        rw [vget_ok (getElem?_of_lt (by rw [h.lcpLen]; exact hkn))]
        simp only
        rw [vset_ok _ (by rw [h.idxLen]; omega)]
        refine ⟨_, rfl, by rw [List.length_set, h.idxLen], hset _ ?_⟩
        rw [h.undef]
        by_cases hll : st.lcp.getD (b.head?.getD n) 0 = l
        · rw [if_pos hll, if_pos ⟨hk, hll⟩]
        · rw [if_neg hll, if_neg (fun hh => hll hh.2)]
      · simp only [not_not] at hk
        simp only [ne_eq, hk, not_true_eq_false, ↓reduceIte]
        rw [h.undef] at hk
        rw [vset_ok _ (by rw [h.idxLen]; omega)]
        refine ⟨_, rfl, by rw [List.length_set, h.idxLen], hset _ ?_⟩
        rw [h.undef, if_neg (fun hh => hh.1 hk)]
    · rename_i hx
      rw [if_neg (fun hh => hx hh.1)] at hrem
      refine ⟨st.idx, rfl, h.idxLen, ?_⟩
      intro k hk
      by_cases hkl : k = l - 1
      · subst hkl
        rw [show l - 1 + 1 = l by omega, hidx, hrem]
      · rw [h.idx k hk, hother k hkl]
  obtain ⟨idx', e3, l3, h3⟩ := hdrop
  have hmem : ∀ j, j ∈ a ++ b ↔ j ≠ i ∧ j ∈ a ++ i :: b := by
    intro j
    simp only [List.mem_append, List.mem_cons]
    constructor
    · rintro (hj | hj)
      · exact ⟨by rintro rfl; exact hia hj, Or.inl hj⟩
      · exact ⟨by rintro rfl; exact hib hj, Or.inr (Or.inr hj)⟩
    · rintro ⟨hne, hj | hj | hj⟩
      · exact Or.inl hj
      · exact absurd hj hne
      · exact Or.inr hj
  have hsub : ∀ j, j ∈ a ++ b → j ∈ a ++ i :: b := fun j hj => ((hmem j).mp hj).2
  have hsl : (a ++ b).Sublist (a ++ i :: b) := List.Sublist.append_left (List.sublist_cons_self i b) a
  refine ⟨{ (st.relinked nx pv (if a.getLast?.getD n ≠ n then st.first else b.head?.getD n) (if b.head?.getD n ≠ n then st.last else a.getLast?.getD n)) with idx := idx', cont := st.cont.set i false, size := st.size - 1 }, a ++ b, ?_, ?_, rfl, hmem⟩
  · unfold ML.remove
    simp only [bind, Except.bind]
    rw [hunlink]
    simp only
    rw [show vget (ML.relinked st nx pv (if a.getLast?.getD n ≠ n then st.first else b.head?.getD n)
      (if b.head?.getD n ≠ n then st.last else a.getLast?.getD n)).lcp i = .ok l from by
        show vget st.lcp i = _
        rw [vget_ok (getElem?_of_lt (by rw [h.lcpLen]; exact hin)), hl]]
    simp only
    rw [e3]
    simp only [ML.relinked]
    rw [vset_ok _ (by rw [h.contLen]; exact hin)]
    rfl
  · refine ⟨h.undef, h.lcpLen, l2.trans hpl, l1.trans hnl, l3, by simpa using h.contLen, h.nodup.sublist hsl, fun j hj => h.lt j (hsub j hj),
      fun j hj => h.key j (hsub j hj), h.sorted.sublist hsl, hseg, hfirst, hlast, h3, ?_, ?_⟩
    · intro j hj
      show (st.cont.set i false)[j]? = _
      by_cases hij : i = j
      · subst hij
        rw [set_get_self _ (by rw [h.contLen]; exact hin), decide_eq_false (by rw [hmem]; simp)]
      · rw [List.getElem?_set_ne hij, h.cont j hj]
        congr 1
        rw [decide_eq_decide, hmem]
        exact ⟨fun hh => ⟨Ne.symm hij, hh⟩, fun hh => hh.2⟩
    · show st.size - 1 = _
      rw [h.size]
      simp

theorem MInv.setKey {n mx : Nat} {st : ML} {xs : List Nat} (h : MInv n mx st xs) {i : Nat} (hi : i ∉ xs) (v : Nat) :
    MInv n mx { st with lcp := st.lcp.set i v } xs := by
  have hk : ∀ j ∈ xs, (st.lcp.set i v).getD j 0 = st.lcp.getD j 0 := fun j hj => getD_set_ne (by rintro rfl; exact hi hj)
  refine ⟨h.undef, by simpa using h.lcpLen, h.prevLen, h.nextLen, h.idxLen, h.contLen, h.nodup, h.lt, ?_, ?_, h.seg, h.first, h.last, ?_, h.cont, h.size⟩
  · intro j hj
    show 1 ≤ (st.lcp.set i v).getD j 0 ∧ (st.lcp.set i v).getD j 0 ≤ mx
    rw [hk j hj]; exact h.key j hj
  · refine h.sorted.imp_of_mem ?_
    intro x y hx hy hxy
    show (st.lcp.set i v).getD y 0 ≤ (st.lcp.set i v).getD x 0
    rw [hk x hx, hk y hy]; exact hxy
  · intro l hl
    show st.idx[l]? = some ((xs.find? (fun j => decide ((st.lcp.set i v).getD j 0 = l + 1))).getD n)
    rw [h.idx l hl]
    congr 2
    refine find?_congr' ?_
    intro j hj
    rw [hk j hj]

theorem decrease_spec {n mx : Nat} {st : ML} {xs : List Nat} (h : MInv n mx st xs) {i v : Nat} (hi : i ∈ xs) (h1 : 1 ≤ v) (h2 : v ≤ st.lcp.getD i 0) :
    ∃ st' ys, st.decrease i v = .ok st' ∧ MInv n mx st' ys ∧ st'.lcp = st.lcp.set i v ∧ ∀ j, j ∈ ys ↔ j ∈ xs := by
  obtain ⟨s1, ys, e1, i1, l1, m1⟩ := remove_spec h hi
  have hin := h.lt i hi
  have hiy : i ∉ ys := fun hh => ((m1 i).mp hh).1 rfl
  have hlen := i1.lcpLen
  have hkv : (s1.lcp.set i v).getD i 0 = v := getD_set_self (by omega)
  obtain ⟨s2, zs, e2, i2, l2, m2⟩ := insert_spec (i1.setKey hiy v) hin hiy (by show 1 ≤ (s1.lcp.set i v).getD i 0; omega)
    (by show (s1.lcp.set i v).getD i 0 ≤ mx; have := (h.key i hi).2; omega)
  refine ⟨s2, zs, ?_, i2, ?_, ?_⟩
  · unfold ML.decrease
    simp only [bind, Except.bind]
    rw [e1]
    simp only
    rw [vset_ok _ (by omega)]
    exact e2
  · rw [l2]
    show s1.lcp.set i v = _
    rw [l1]
  · intro j
    rw [m2, m1]
    constructor
    · rintro (rfl | hh)
      · exact hi
      · exact hh.2
    · intro hj
      by_cases hji : j = i
      · exact Or.inl hji
      · exact Or.inr ⟨hji, hj⟩

theorem ml_lawful (n mx : Nat) : mlQueue.Lawful n (fun st => ∃ xs, MInv n mx st xs) (fun st i => st.cont.getD i false) := by
  have hal : ∀ {st : ML} {xs : List Nat}, MInv n mx st xs → ∀ i, i < n → (st.cont.getD i false = decide (i ∈ xs)) := by
    intro st xs h i hi
    rw [List.getD_eq_getElem?_getD, h.cont i hi]; rfl
  refine ⟨?_, ?_, ?_, ?_, ?_, ?_⟩
  · rintro q ⟨xs, h⟩; exact h.lcpLen
  · rintro q ⟨xs, h⟩
    show q.size > 0 ↔ _
    rw [h.size]
    constructor
    · intro hp
      obtain ⟨x, hx⟩ := List.exists_mem_of_length_pos hp
      exact ⟨x, h.lt x hx, by rw [hal h x (h.lt x hx)]; exact decide_eq_true hx⟩
    · rintro ⟨i, hi, he⟩
      rw [hal h i hi] at he
      exact List.length_pos_of_mem (of_decide_eq_true he)
  · rintro q i ⟨xs, h⟩ hi
    show vget q.cont i = _
    rw [vget_ok (h.cont i hi), hal h i hi]
  · rintro q ⟨xs, h⟩ ⟨i, hi, he⟩
    rw [hal h i hi] at he
    have hmem := of_decide_eq_true he
    cases xs with
    | nil => simp at hmem
    | cons x xs =>
      have hx := h.lt x (by simp)
      refine ⟨x, ?_, hx, ?_, ?_⟩
      · show Except.ok q.first = _
        rw [h.first]; rfl
      · show q.cont.getD x false = true
        rw [hal h x hx]; simp
      · intro j hj hje
        rw [hal h j hj] at hje
        rcases List.mem_cons.mp (of_decide_eq_true hje) with rfl | hjm
        · exact Nat.le_refl _
        · exact (List.pairwise_cons.mp h.sorted).1 j hjm
  · rintro q i ⟨xs, h⟩ hi he
    rw [hal h i hi] at he
    obtain ⟨q', ys, e, h', l, m⟩ := remove_spec h (of_decide_eq_true he)
    refine ⟨q', e, ⟨ys, h'⟩, l, ?_⟩
    intro j hj
    show q'.cont.getD j false = (q.cont.getD j false && _)
    rw [hal h' j hj, hal h j hj, ← Bool.decide_and, decide_eq_decide, m]
    exact and_comm
  · rintro q i v ⟨xs, h⟩ hi he h1 h2
    rw [hal h i hi] at he
    obtain ⟨q', ys, e, h', l, m⟩ := decrease_spec h (of_decide_eq_true he) h1 h2
    refine ⟨q', e, ⟨ys, h'⟩, l, ?_⟩
    intro j hj
    show q'.cont.getD j false = q.cont.getD j false
    rw [hal h' j hj, hal h j hj, decide_eq_decide, m]

theorem mlFill_spec {n mx : Nat} (hth : 1 ≤ th) (k : Nat) : ∀ (i : Nat) (st : ML) (xs : List Nat), MInv n mx st xs → i + k = n →
    (∀ j, j < n → st.lcp.getD j 0 ≤ mx) → (∀ j, j ∈ xs → j < i) →
    ∃ st' ys, mlFill th k i st = .ok st' ∧ MInv n mx st' ys ∧ st'.lcp = st.lcp ∧
      ∀ j, j ∈ ys ↔ j ∈ xs ∨ (i ≤ j ∧ j < n ∧ th ≤ st.lcp.getD j 0) := by
  induction k with
  | zero =>
    intro i st xs h hik _ _
    exact ⟨st, xs, rfl, h, rfl, fun j => ⟨Or.inl, by rintro (h | h) <;> [exact h; omega]⟩⟩
  | succ k ih =>
    intro i st xs h hik hb hlt
    rw [mlFill, vget_ok (getElem?_of_lt (by rw [h.lcpLen]; omega))]
    simp only
    split
    · rename_i hge
      obtain ⟨s1, ys, e1, h1, l1, m1⟩ := insert_spec h (i := i) (by omega) (fun hh => by have := hlt i hh; omega) (by omega) (hb i (by omega))
      obtain ⟨s2, zs, e2, h2, l2, m2⟩ := ih (i + 1) s1 ys h1 (by omega) (by rw [l1]; exact hb) (by
        intro j hj
        rcases (m1 j).mp hj with rfl | hj
        · omega
        · have := hlt j hj; omega)
      refine ⟨s2, zs, by simp only [e1]; exact e2, h2, by rw [l2, l1], ?_⟩
      intro j
      rw [m2, m1, l1]
      constructor
      · rintro ((rfl | hj) | hj)
        · exact Or.inr ⟨by omega, by omega, hge⟩
        · exact Or.inl hj
        · exact Or.inr ⟨by omega, hj.2⟩
      · rintro (hj | ⟨a, b, c⟩)
        · exact Or.inl (Or.inr hj)
        · by_cases hji : j = i
          · exact Or.inl (Or.inl hji)
          · exact Or.inr ⟨by omega, b, c⟩
    · rename_i hge
      obtain ⟨s2, zs, e2, h2, l2, m2⟩ := ih (i + 1) st xs h (by omega) hb (fun j hj => by have := hlt j hj; omega)
      refine ⟨s2, zs, e2, h2, l2, ?_⟩
      intro j
      rw [m2]
      constructor
      · rintro (hj | hj)
        · exact Or.inl hj
        · exact Or.inr ⟨by omega, hj.2⟩
      · rintro (hj | ⟨a, b, c⟩)
        · exact Or.inl hj
        · by_cases hji : j = i
          · subst hji; omega
          · exact Or.inr ⟨by omega, b, c⟩

theorem ml_init_spec (hth : 1 ≤ th) {lcp : List Nat} {mx : Nat} (hn : 0 < lcp.length) (hb : ∀ j, j < lcp.length → lcp.getD j 0 ≤ mx) :
    ∃ st xs, ML.init lcp th mx = .ok st ∧ MInv lcp.length mx st xs ∧ st.lcp = lcp ∧
      ∀ j, j ∈ xs ↔ (1 ≤ j ∧ j < lcp.length ∧ th ≤ lcp.getD j 0) := by
  obtain ⟨st, xs, e, h, l, m⟩ := mlFill_spec (n := lcp.length) (mx := mx) hth (lcp.length - 1) 1
    ⟨lcp, lcp.length, lcp.length, lcp.length, List.replicate lcp.length lcp.length, List.replicate lcp.length lcp.length,
      List.replicate mx lcp.length, List.replicate lcp.length false, 0⟩ []
    ⟨rfl, rfl, by simp, by simp, by simp, by simp, List.nodup_nil, by simp, by simp, List.Pairwise.nil, trivial, rfl, rfl,
      by intro l hl; simp [List.getElem?_replicate, hl], by intro i hi; simp [List.getElem?_replicate, hi], rfl⟩ (by omega) hb (by simp)
  refine ⟨st, xs, e, h, l, ?_⟩
  intro j
  rw [m]
  simp

theorem maxLcpComp_spec (hA : ArraysOk t A) (hs : Sentinel t) (hth : 1 ≤ th) {mx : Nat} (hmx : ∀ i : Nat, i < t.length → A.lcp.getD i 0 ≤ mx) :
    ∃ fs, maxLcpComp A mx th = .ok fs ∧ LcpGreedy t A.sa th [] fs := by
  have hn := hs.len_pos
  obtain ⟨st, xs, e, h, l, m⟩ := ml_init_spec hth (lcp := A.lcp) (mx := mx) (by rw [hA.lcpLength]; exact hn) (by rw [hA.lcpLength]; exact hmx)
  rw [hA.lcpLength] at h m
  obtain ⟨fs, e2, h2⟩ := pqLoop_init hA hs (ml_lawful t.length mx) hth (q := st) ⟨xs, h⟩ l (by
    intro i hi
    show st.cont.getD i false = true ↔ _
    rw [List.getD_eq_getElem?_getD, h.cont i hi, Option.getD_some, decide_eq_true_eq, m]
    have h0 := ArraysOk.lcpD0 hA
    constructor
    · exact fun h => h.2.2
    · intro hle
      refine ⟨?_, hi, hle⟩
      rcases Nat.eq_zero_or_pos i with rfl | h'
      · omega
      · exact h')
  refine ⟨fs, ?_, h2⟩
  rw [maxLcpComp, e]
  exact e2

end LC
end Tdc
