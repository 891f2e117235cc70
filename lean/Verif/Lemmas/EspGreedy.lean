import Verif.Lemmas.EspRecover
import Mathlib.Data.List.Perm.Subperm

/-!
# `SubSeqGreedy` decomposes into monotone subsequences
-/

namespace Tdc
namespace Esp

/-! ## Decompositions in the making -/

/-- The indices outside of `F` are assigned. -/
structure Part (sis F dpi : List Nat) (b : List Bool) : Prop where
  len : dpi.length = sis.length
  lt : ∀ i k : Nat, i ∉ F → dpi[i]? = some k → k < b.length
  used : ∀ k : Nat, k < b.length → ∃ i : Nat, i ∉ F ∧ dpi[i]? = some k
  up : ∀ i j k si sj : Nat, i ∉ F → j ∉ F → i < j → dpi[i]? = some k → dpi[j]? = some k → sis[i]? = some si → sis[j]? = some sj → b[k]? = some false → si < sj
  down : ∀ i j k si sj : Nat, i ∉ F → j ∉ F → i < j → dpi[i]? = some k → dpi[j]? = some k → sis[i]? = some si → sis[j]? = some sj → b[k]? = some true → sj < si

theorem Part.decomp {sis dpi : List Nat} {b : List Bool} (h : Part sis [] dpi b) : Decomp sis dpi b where
  len := h.len
  lt i k := h.lt i k (by simp)
  used k hk := by obtain ⟨i, _, hi⟩ := h.used k hk; exact ⟨i, hi⟩
  up i j k si sj := h.up i j k si sj (by simp) (by simp)
  down i j k si sj := h.down i j k si sj (by simp) (by simp)

theorem Part.start {sis dpi : List Nat} (h : dpi.length = sis.length) : Part sis (List.range sis.length) dpi [] where
  len := h
  lt i k hi hk := absurd (List.mem_range.2 (by rw [← h]; exact (List.getElem?_eq_some_iff.1 hk).1)) hi
  used k hk := by simp at hk
  up i j k si sj hi _ _ hk := absurd (List.mem_range.2 (by rw [← h]; exact (List.getElem?_eq_some_iff.1 hk).1)) hi
  down i j k si sj hi _ _ hk := absurd (List.mem_range.2 (by rw [← h]; exact (List.getElem?_eq_some_iff.1 hk).1)) hi

theorem Part.step {sis F F' dpi dpi' seq : List Nat} {b : List Bool} {bit : Bool} (h : Part sis F dpi b) (hne : seq ≠ []) (hsub : ∀ x ∈ seq, x ∈ F)
    (hF : ∀ x, x ∈ F' ↔ x ∈ F ∧ x ∉ seq) (hl : dpi'.length = dpi.length) (hold : ∀ i : Nat, i ∉ F → dpi'[i]? = dpi[i]?) (hnew : ∀ i : Nat, i ∈ seq → dpi'[i]? = some b.length)
    (hmono : ∀ i j si sj : Nat, i ∈ seq → j ∈ seq → i < j → sis[i]? = some si → sis[j]? = some sj → if bit then sj < si else si < sj) :
    Part sis F' dpi' (b ++ [bit]) := by
  have hcase : ∀ i k : Nat, i ∉ F' → dpi'[i]? = some k → (i ∈ seq ∧ k = b.length) ∨ (i ∉ F ∧ dpi[i]? = some k ∧ k < b.length) := by
    intro i k hi hk
    by_cases hs : i ∈ seq
    · have := hnew i hs
      rw [hk] at this
      simp only [Option.some.injEq] at this
      exact .inl ⟨hs, this⟩
    · have hiF : i ∉ F := fun hf => hi ((hF i).2 ⟨hf, hs⟩)
      rw [hold i hiF] at hk
      exact .inr ⟨hiF, hk, h.lt i k hiF hk⟩
  constructor
  · rw [hl, h.len]
  · intro i k hi hk
    rw [List.length_append, List.length_singleton]
    rcases hcase i k hi hk with ⟨_, rfl⟩ | ⟨_, _, hh⟩ <;> omega
  · intro k hk
    rw [List.length_append, List.length_singleton] at hk
    by_cases hkb : k = b.length
    · subst hkb
      obtain ⟨x, hx⟩ := List.exists_mem_of_ne_nil _ hne
      exact ⟨x, fun hf => ((hF x).1 hf).2 hx, hnew x hx⟩
    · obtain ⟨i, hi, hk'⟩ := h.used k (by omega)
      exact ⟨i, fun hf => hi ((hF i).1 hf).1, by rw [hold i hi]; exact hk'⟩
  · intro i j k si sj hi hj hij h1 h2 h3 h4 h5
    rcases hcase i k hi h1 with ⟨hs, rfl⟩ | ⟨a1, a2, a3⟩
    · rcases hcase j _ hj h2 with ⟨hs', _⟩ | ⟨_, _, c3⟩
      · have := hmono i j si sj hs hs' hij h3 h4
        rw [List.getElem?_append_right (Nat.le_refl _)] at h5
        simp only [Nat.sub_self, List.getElem?_cons_zero, Option.some.injEq] at h5
        subst h5
        simpa using this
      · omega
    · rcases hcase j _ hj h2 with ⟨_, e⟩ | ⟨c1, c2, c3⟩
      · omega
      · rw [List.getElem?_append_left a3] at h5
        exact h.up i j k si sj a1 c1 hij a2 c2 h3 h4 h5
  · intro i j k si sj hi hj hij h1 h2 h3 h4 h5
    rcases hcase i k hi h1 with ⟨hs, rfl⟩ | ⟨a1, a2, a3⟩
    · rcases hcase j _ hj h2 with ⟨hs', _⟩ | ⟨_, _, c3⟩
      · have := hmono i j si sj hs hs' hij h3 h4
        rw [List.getElem?_append_right (Nat.le_refl _)] at h5
        simp only [Nat.sub_self, List.getElem?_cons_zero, Option.some.injEq] at h5
        subst h5
        simpa using this
      · omega
    · rcases hcase j _ hj h2 with ⟨_, e⟩ | ⟨c1, c2, c3⟩
      · omega
      · rw [List.getElem?_append_left a3] at h5
        exact h.down i j k si sj a1 c1 hij a2 c2 h3 h4 h5

theorem markAll_ok (c : Nat) : ∀ (l d : List Nat), (∀ x ∈ l, x < d.length) → ∃ d', markAll c d l = .ok d' ∧ d'.length = d.length ∧
    (∀ i : Nat, i ∉ l → d'[i]? = d[i]?) ∧ ∀ i : Nat, i ∈ l → d'[i]? = some c
  | [], d, _ => ⟨d, rfl, rfl, fun _ _ => rfl, by simp⟩
  | x :: l, d, h => by
    have hx := h x (by simp)
    obtain ⟨d', e1, e2, e3, e4⟩ := markAll_ok c l (d.set x c) (by intro y hy; rw [List.length_set]; exact h y (by simp [hy]))
    rw [markAll, if_pos hx]
    refine ⟨d', e1, by simpa using e2, ?_, ?_⟩
    · intro i hi
      rw [e3 i (fun hh => hi (by simp [hh])), List.getElem?_set_ne (fun e => hi (by simp [e]))]
    · intro i hi
      by_cases hil : i ∈ l
      · exact e4 i hil
      · have : i = x := by simpa [hil] using hi
        subst this
        rw [e3 i hil, List.getElem?_set_self hx]

/-! ## Linked lists -/

theorem Nx.same {ll ll' : List Nat} : ∀ {C : List Nat}, Nx ll C → (∀ x ∈ C, ll'[x]? = ll[x]?) → Nx ll' C
  | [], _, _ => trivial
  | [_], _, _ => trivial
  | a :: b :: l, h, e => ⟨by rw [e a (by simp)]; exact h.1, Nx.same h.2 (fun x hx => e x (List.mem_cons_of_mem _ hx))⟩

theorem Nx.split {ll : List Nat} : ∀ {P : List Nat} {a : Nat} {Q : List Nat}, Nx ll (P ++ a :: Q) ↔ Nx ll (P ++ [a]) ∧ Nx ll (a :: Q)
  | [], a, Q => by simp [Nx]
  | [p], a, Q => by
    simp only [List.cons_append, List.nil_append, Nx]
    exact ⟨fun h => ⟨⟨h.1, trivial⟩, h.2⟩, fun h => ⟨h.1.1, h.2⟩⟩
  | p :: q :: P, a, Q => by
    have := Nx.split (ll := ll) (P := q :: P) (a := a) (Q := Q)
    simp only [List.cons_append, Nx] at *
    rw [this]
    exact ⟨fun h => ⟨⟨h.1, h.2.1⟩, h.2.2⟩, fun h => ⟨h.1.1, h.1.2, h.2⟩⟩

theorem Nx.of_get {ll : List Nat} : ∀ {C : List Nat}, (∀ k a b : Nat, C[k]? = some a → C[k + 1]? = some b → ll[a]? = some b) → Nx ll C
  | [], _ => trivial
  | [_], _ => trivial
  | a :: b :: l, h => ⟨h 0 a b rfl rfl, Nx.of_get (fun k x y hx hy => h (k + 1) x y (by simpa using hx) (by simpa using hy))⟩

/-- The doubly linked list `C` -/
def DL (fl : FreeL) (C : List Nat) : Prop := Nx (fl.map Prod.snd) C ∧ Nx (fl.map Prod.fst) C.reverse

theorem map_get {fl : FreeL} {a b : Nat} (h : (fl.map Prod.snd)[a]? = some b) : ∃ c, fl[a]? = some (c, b) := by
  rw [List.getElem?_map] at h
  cases hf : fl[a]? with
  | none => rw [hf] at h; simp at h
  | some p =>
    rw [hf] at h
    simp only [Option.map_some, Option.some.injEq] at h
    exact ⟨p.1, by rw [← h]⟩

theorem map_get' {fl : FreeL} {a b : Nat} (h : (fl.map Prod.fst)[a]? = some b) : ∃ c, fl[a]? = some (b, c) := by
  rw [List.getElem?_map] at h
  cases hf : fl[a]? with
  | none => rw [hf] at h; simp at h
  | some p =>
    rw [hf] at h
    simp only [Option.map_some, Option.some.injEq] at h
    exact ⟨p.2, by rw [← h]⟩

theorem Nx.remove {ll ll' : List Nat} {P Q : List Nat} {a x b : Nat} (h : Nx ll (P ++ a :: x :: b :: Q)) (hnd : (P ++ a :: x :: b :: Q).Nodup)
    (ha : ll'[a]? = some b) (hs : ∀ y, y ≠ a → y ≠ x → ll'[y]? = ll[y]?) : Nx ll' (P ++ a :: b :: Q) := by
  obtain ⟨h1, h2⟩ := Nx.split.1 h
  rw [Nx.split]
  rw [List.nodup_append] at hnd
  obtain ⟨n1, n2, n3⟩ := hnd
  rw [List.nodup_cons, List.nodup_cons] at n2
  refine ⟨h1.frame (fun y hy => hs y (n3 y hy a (by simp)) (n3 y hy x (by simp))), ha, ?_⟩
  exact Nx.same h2.2.2 (fun y hy => hs y (fun e => n2.1 (by rw [← e]; exact List.mem_cons_of_mem _ hy)) (fun e => n2.2.1 (by rw [← e]; exact hy)))

theorem grRemove_ok {fl : FreeL} {P Q : List Nat} {a x b : Nat} (h : DL fl (P ++ a :: x :: b :: Q)) (hnd : (P ++ a :: x :: b :: Q).Nodup)
    (hl : ∀ y ∈ P ++ a :: x :: b :: Q, y < fl.length) : ∃ fl', grRemove fl x = .ok fl' ∧ fl'.length = fl.length ∧ DL fl' (P ++ a :: b :: Q) := by
  obtain ⟨h1, h2⟩ := h
  have hnx := (Nx.split.1 h1).2
  have hrev : (P ++ a :: x :: b :: Q).reverse = Q.reverse ++ b :: x :: a :: P.reverse := by simp
  have hrev' : (P ++ a :: b :: Q).reverse = Q.reverse ++ b :: a :: P.reverse := by simp
  rw [hrev] at h2
  have hpv := (Nx.split.1 h2).2
  obtain ⟨c1, e1⟩ := map_get hnx.2.1
  obtain ⟨c2, e2⟩ := map_get' hpv.2.1
  have hx : fl[x]? = some (a, b) := by
    rw [e1] at e2
    simp only [Option.some.injEq, Prod.mk.injEq] at e2
    rw [e1, e2.1]
  have hal := hl a (by simp)
  have hbl := hl b (by simp)
  have hxl := hl x (by simp)
  have hab : a ≠ b ∧ a ≠ x ∧ x ≠ b := by
    have := hnd
    rw [List.nodup_append] at this
    obtain ⟨_, n2, _⟩ := this
    simp only [List.nodup_cons, List.mem_cons, not_or] at n2
    exact ⟨n2.1.2.1, n2.1.1, n2.2.1.1⟩
  unfold grRemove
  rw [hx]
  simp only
  rw [List.getElem?_eq_getElem hal]
  simp only
  rw [List.getElem?_set_ne hab.1, List.getElem?_eq_getElem hbl]
  simp only
  refine ⟨_, rfl, by simp, ?_, ?_⟩
  · apply Nx.remove h1 hnd
    · rw [List.getElem?_map, List.getElem?_set_ne hab.2.1.symm, List.getElem?_set_ne hab.1.symm, List.getElem?_set_self hal]
      rfl
    · intro y hy1 hy2
      rw [List.getElem?_map, List.getElem?_map, List.getElem?_set_ne (Ne.symm hy2)]
      by_cases hyb : y = b
      · subst hyb
        rw [List.getElem?_set_self (by simp; exact hbl), List.getElem?_eq_getElem hbl]
        rfl
      · rw [List.getElem?_set_ne (Ne.symm hyb), List.getElem?_set_ne (Ne.symm hy1)]
  · rw [hrev']
    have hnd2 : (Q.reverse ++ b :: x :: a :: P.reverse).Nodup := by rw [← hrev]; exact (List.reverse_perm _).nodup_iff.2 hnd
    apply Nx.remove h2 hnd2
    · rw [List.getElem?_map, List.getElem?_set_ne hab.2.2, List.getElem?_set_self (by simp; exact hbl)]
      rfl
    · intro y hy1 hy2
      rw [List.getElem?_map, List.getElem?_map, List.getElem?_set_ne (Ne.symm hy2), List.getElem?_set_ne (Ne.symm hy1)]
      by_cases hya : y = a
      · subst hya
        rw [List.getElem?_set_self hal, List.getElem?_eq_getElem hal]
        rfl
      · rw [List.getElem?_set_ne (Ne.symm hya)]

/-- The free links with the dummies around them -/
def chainOf (n : Nat) (F : List Nat) : List Nat := n :: F ++ [n + 1]

/-- State of `free_list` -/
structure GrInv (n : Nat) (fl : FreeL) (F : List Nat) : Prop where
  len : fl.length = n + 2
  asc : F.Pairwise (· < ·)
  lt : ∀ x ∈ F, x < n
  dl : DL fl (chainOf n F)

theorem GrInv.nodup {n : Nat} {fl : FreeL} {F : List Nat} (h : GrInv n fl F) : (chainOf n F).Nodup := by
  unfold chainOf
  rw [List.cons_append, List.nodup_cons, List.nodup_append]
  refine ⟨?_, h.asc.imp (fun hh => Nat.ne_of_lt hh), by simp, ?_⟩
  · simp only [List.mem_append, List.mem_singleton, not_or]
    exact ⟨fun hh => Nat.lt_irrefl _ (h.lt n hh), by omega⟩
  · intro a ha b hb
    have := h.lt a ha
    simp only [List.mem_singleton] at hb
    omega

theorem GrInv.remove {n : Nat} {fl : FreeL} {F : List Nat} (h : GrInv n fl F) {x : Nat} (hx : x ∈ F) :
    ∃ fl', grRemove fl x = .ok fl' ∧ GrInv n fl' (F.filter (fun y => y ≠ x)) := by
  obtain ⟨F1, F2, rfl⟩ := List.append_of_mem hx
  have hasc := h.asc
  rw [List.pairwise_append, List.pairwise_cons] at hasc
  have hfilter : (F1 ++ x :: F2).filter (fun y => decide (y ≠ x)) = F1 ++ F2 := by
    rw [List.filter_append, List.filter_cons_of_neg (by simp)]
    congr 1
    · rw [List.filter_eq_self]
      intro y hy
      have := hasc.2.2 y hy x (by simp)
      simp; omega
    · rw [List.filter_eq_self]
      intro y hy
      have := hasc.2.1.1 y hy
      simp; omega
  rw [hfilter]
  obtain ⟨P, a, hP⟩ : ∃ P a, n :: F1 = P ++ [a] := ⟨(n :: F1).dropLast, (n :: F1).getLast (by simp), (List.dropLast_append_getLast _).symm⟩
  obtain ⟨b, Q, hQ⟩ : ∃ b Q, F2 ++ [n + 1] = b :: Q := by
    cases F2 with
    | nil => exact ⟨_, _, rfl⟩
    | cons b F2 => exact ⟨_, _, rfl⟩
  have hc : chainOf n (F1 ++ x :: F2) = P ++ a :: x :: b :: Q := by
    unfold chainOf
    have : n :: (F1 ++ x :: F2) ++ [n + 1] = (n :: F1) ++ x :: (F2 ++ [n + 1]) := by simp
    rw [this, hP, hQ]; simp
  have hc' : chainOf n (F1 ++ F2) = P ++ a :: b :: Q := by
    unfold chainOf
    have : n :: (F1 ++ F2) ++ [n + 1] = (n :: F1) ++ (F2 ++ [n + 1]) := by simp
    rw [this, hP, hQ]; simp
  obtain ⟨fl', e1, e2, e3⟩ := grRemove_ok (by rw [← hc]; exact h.dl) (by rw [← hc]; exact h.nodup) (by
    rw [← hc]
    intro y hy
    rw [h.len]
    unfold chainOf at hy
    simp only [List.cons_append, List.mem_cons, List.mem_append, List.mem_singleton, List.not_mem_nil, or_false] at hy
    rcases hy with rfl | hy | rfl
    · omega
    · have := h.lt y (by simpa using hy)
      omega
    · omega)
  refine ⟨fl', e1, by rw [e2, h.len], ?_, ?_, by rw [hc']; exact e3⟩
  · rw [List.pairwise_append]
    exact ⟨hasc.1, hasc.2.1.2, fun a ha b hb => hasc.2.2 a ha b (by simp [hb])⟩
  · intro y hy
    apply h.lt
    simp only [List.mem_append, List.mem_cons] at *
    rcases hy with hy | hy
    · exact .inl hy
    · exact .inr (.inr hy)

theorem GrInv.removeAll {n : Nat} : ∀ (seq : List Nat) (fl : FreeL) (F : List Nat), GrInv n fl F → seq.Nodup → (∀ x ∈ seq, x ∈ F) →
    ∃ fl', grRemoveAll fl seq = .ok fl' ∧ GrInv n fl' (F.filter (fun y => y ∉ seq))
  | [], fl, F, h, _, _ => ⟨fl, rfl, by simpa using h⟩
  | x :: seq, fl, F, h, hnd, hs => by
    rw [List.nodup_cons] at hnd
    obtain ⟨fl', e1, e2⟩ := h.remove (hs x (by simp))
    obtain ⟨fl'', e3, e4⟩ := GrInv.removeAll seq fl' _ e2 hnd.2 (by
      intro y hy
      rw [List.mem_filter]
      refine ⟨hs y (by simp [hy]), ?_⟩
      simp only [decide_eq_true_eq]
      rintro rfl
      exact hnd.1 hy)
    rw [grRemoveAll, e1]
    refine ⟨fl'', e3, ?_⟩
    rw [List.filter_filter] at e4
    have : F.filter (fun y => decide (y ∉ x :: seq)) = F.filter (fun y => decide (y ∉ seq) && decide (y ≠ x)) := by
      apply List.filter_congr
      intro y _
      simp only [List.mem_cons, not_or, Bool.decide_and, Bool.and_comm]
    rw [this]
    exact e4

/-! ## The scans -/

/-- The entries larger than everything before -/
def recs (s : Nat → Nat) : Nat → List Nat → List Nat
  | _, [] => []
  | last, x :: l => if s x > s last then x :: recs s x l else recs s last l

theorem recs_sublist (s : Nat → Nat) : ∀ (last : Nat) (l : List Nat), (recs s last l).Sublist l
  | _, [] => List.Sublist.refl _
  | last, x :: l => by
    rw [recs]
    split
    · exact (recs_sublist s x l).cons_cons x
    · exact (recs_sublist s last l).cons x

theorem recs_up (s : Nat → Nat) : ∀ (last : Nat) (l : List Nat), (last :: recs s last l).Pairwise (fun a b => s a < s b)
  | _, [] => by simp [recs]
  | last, x :: l => by
    rw [recs]
    split
    · rename_i h
      have ih := recs_up s x l
      rw [List.pairwise_cons]
      refine ⟨?_, ih⟩
      intro y hy
      rcases List.mem_cons.1 hy with rfl | hy
      · exact h
      · have := (List.pairwise_cons.1 ih).1 y hy
        omega
    · exact recs_up s last l

theorem grInc_ok {sis : List Nat} {fl : FreeL} {e : Nat} : ∀ (G : List Nat) (fuel c last : Nat), Nx (fl.map Prod.snd) (c :: G ++ [e]) → G.length < fuel →
    (∀ x ∈ G, x < sis.length ∧ x ≠ e) → last < sis.length → grInc sis fl e fuel c last = .ok (recs (fun i => sis[i]?.getD 0) last G)
  | [], fuel + 1, c, last, h, _, _, _ => by
    obtain ⟨p, hp⟩ := map_get h.1
    rw [grInc, hp]
    simp [recs]
  | x :: G, fuel + 1, c, last, h, hf, hb, hl => by
    obtain ⟨p, hp⟩ := map_get h.1
    have hx := hb x (by simp)
    rw [grInc, hp]
    simp only
    rw [if_neg hx.2]
    have hsx : sis[x]? = some (sis[x]?.getD 0) := by rw [List.getElem?_eq_getElem hx.1]; rfl
    have hsl : sis[last]? = some (sis[last]?.getD 0) := by rw [List.getElem?_eq_getElem hl]; rfl
    rw [hsx, hsl]
    simp only [Option.getD_some]
    rw [recs]
    simp only [List.length_cons] at hf
    split
    · rw [grInc_ok G fuel x x h.2 (by omega) (fun y hy => hb y (by simp [hy])) hx.1]
      rfl
    · rw [grInc_ok G fuel x last h.2 (by omega) (fun y hy => hb y (by simp [hy])) hl]

theorem grDec_ok {sis : List Nat} {fl : FreeL} {e : Nat} : ∀ (G : List Nat) (fuel c last : Nat), Nx (fl.map Prod.fst) (c :: G ++ [e]) → G.length < fuel →
    (∀ x ∈ G, x < sis.length ∧ x ≠ e) → last < sis.length → grDec sis fl e fuel c last = .ok (recs (fun i => sis[i]?.getD 0) last G)
  | [], fuel + 1, c, last, h, _, _, _ => by
    obtain ⟨p, hp⟩ := map_get' h.1
    rw [grDec, hp]
    simp [recs]
  | x :: G, fuel + 1, c, last, h, hf, hb, hl => by
    obtain ⟨p, hp⟩ := map_get' h.1
    have hx := hb x (by simp)
    rw [grDec, hp]
    simp only
    rw [if_neg hx.2]
    have hsx : sis[x]? = some (sis[x]?.getD 0) := by rw [List.getElem?_eq_getElem hx.1]; rfl
    have hsl : sis[last]? = some (sis[last]?.getD 0) := by rw [List.getElem?_eq_getElem hl]; rfl
    rw [hsx, hsl]
    simp only [Option.getD_some]
    rw [recs]
    simp only [List.length_cons] at hf
    split
    · rw [grDec_ok G fuel x x h.2 (by omega) (fun y hy => hb y (by simp [hy])) hx.1]
      rfl
    · rw [grDec_ok G fuel x last h.2 (by omega) (fun y hy => hb y (by simp [hy])) hl]

theorem pw_mem {α : Type} {R : α → α → Prop} : ∀ {l : List α}, l.Pairwise R → ∀ a ∈ l, ∀ b ∈ l, a = b ∨ R a b ∨ R b a
  | [], _, a, ha, _, _ => by simp at ha
  | x :: l, h, a, ha, b, hb => by
    rw [List.pairwise_cons] at h
    rcases List.mem_cons.1 ha with rfl | ha'
    · rcases List.mem_cons.1 hb with rfl | hb'
      · exact .inl rfl
      · exact .inr (.inl (h.1 b hb'))
    · rcases List.mem_cons.1 hb with rfl | hb'
      · exact .inr (.inr (h.1 a ha'))
      · exact pw_mem h.2 a ha' b hb'

theorem grLoop_ok {sis : List Nat} : ∀ (fuel : Nat) (fl : FreeL) (F dpi : List Nat) (b : List Bool), F.length < fuel → GrInv sis.length fl F → Part sis F dpi b.reverse →
    ∃ dpi' b', grLoop sis fuel fl dpi b.length b = .ok (dpi', b') ∧ Decomp sis dpi' b'
  | fuel + 1, fl, F, dpi, b, hf, hg, hp => by
    have hFl : F.length ≤ sis.length := by
      have hsub : F ⊆ List.range sis.length := fun x hx => List.mem_range.2 (hg.lt x hx)
      have := (List.subperm_of_subset (hg.asc.imp (fun hh => Nat.ne_of_lt hh)) hsub).length_le
      simpa using this
    obtain ⟨d1, d2⟩ := hg.dl
    rw [grLoop]
    simp only
    have hl1 : sis.length < List.length fl := by rw [hg.len]; omega
    have hl2 : sis.length + 1 < List.length fl := by rw [hg.len]; omega
    have hs1 : fl[sis.length]? = some (fl[sis.length]'hl1) := List.getElem?_eq_getElem hl1
    have hs2 : fl[sis.length + 1]? = some (fl[sis.length + 1]'hl2) := List.getElem?_eq_getElem hl2
    rw [hs1, hs2]
    simp only
    cases F with
    | nil =>
      have h1 := d1.1
      rw [List.getElem?_map, hs1] at h1
      simp only [Option.map_some, Option.some.injEq] at h1
      rw [if_neg (by rw [h1]; simp)]
      exact ⟨dpi, b.reverse, rfl, hp.decomp⟩
    | cons c G =>
      have hh := d1.1
      rw [List.getElem?_map, hs1] at hh
      simp only [Option.map_some, Option.some.injEq] at hh
      have hc := hg.lt c (by simp)
      have hG : ∀ x ∈ c :: G, x < sis.length := hg.lt
      rw [hh, if_pos (by omega)]
      have hasc := hg.asc
      obtain ⟨G', c', hF'⟩ : ∃ G' c', c :: G = G' ++ [c'] := ⟨(c :: G).dropLast, (c :: G).getLast (by simp), (List.dropLast_append_getLast _).symm⟩
      have hG' : ∀ x ∈ G', x < sis.length := fun x hx => hG x (by rw [hF']; simp [hx])
      have hc' : c' < sis.length := hG c' (by rw [hF']; simp)
      have hlen2 : G'.length = G.length := by
        have := congrArg List.length hF'
        simp at this
        omega
      have hrev : (chainOf sis.length (c :: G)).reverse = (sis.length + 1) :: c' :: G'.reverse ++ [sis.length] := by
        unfold chainOf
        rw [hF']
        simp
      rw [hrev] at d2
      have hh' := d2.1
      rw [List.getElem?_map, hs2] at hh'
      simp only [Option.map_some, Option.some.injEq] at hh'
      rw [hh']
      simp only [List.length_cons] at hFl hf
      rw [grInc_ok G (sis.length + 2) c c d1.2 (by omega) (fun x hx => ⟨hG x (by simp [hx]), by have := hG x (by simp [hx]); omega⟩) hc]
      simp only [Except.bind]
      rw [grDec_ok G'.reverse (sis.length + 2) c' c' d2.2 (by simp; omega) (fun x hx => by
        rw [List.mem_reverse] at hx
        have := hG' x hx
        exact ⟨this, by omega⟩) hc']
      simp only
      -- the two candidates
      have hincS : (c :: recs (fun i => sis[i]?.getD 0) c G).Sublist (c :: G) := (recs_sublist _ c G).cons_cons c
      have hincU := recs_up (fun i => sis[i]?.getD 0) c G
      have hdecS : (c' :: recs (fun i => sis[i]?.getD 0) c' G'.reverse).Sublist (c :: G).reverse := by
        rw [hF', List.reverse_append]
        exact (recs_sublist _ c' G'.reverse).cons_cons c'
      have hdecU := recs_up (fun i => sis[i]?.getD 0) c' G'.reverse
      generalize hinc : c :: recs (fun i => sis[i]?.getD 0) c G = inc at *
      generalize hdec : c' :: recs (fun i => sis[i]?.getD 0) c' G'.reverse = dec at *
      have hval : ∀ i si : Nat, sis[i]? = some si → sis[i]?.getD 0 = si := by intro i si h; rw [h]; rfl
      -- one step
      have main : ∀ (seq : List Nat) (bit : Bool), seq ≠ [] → seq.Nodup → (∀ x ∈ seq, x ∈ c :: G) →
          (∀ i j si sj : Nat, i ∈ seq → j ∈ seq → i < j → sis[i]? = some si → sis[j]? = some sj → if bit then sj < si else si < sj) →
          ∃ dpi' b', ((markAll b.length dpi seq).bind fun dpi => (grRemoveAll fl seq).bind fun fl => grLoop sis fuel fl dpi (b.length + 1) (bit :: b)) = .ok (dpi', b') ∧
            Decomp sis dpi' b' := by
        intro seq bit hne hnd hsub hmono
        obtain ⟨dpi1, m1, m2, m3, m4⟩ := markAll_ok b.length seq dpi (fun x hx => by rw [hp.len]; exact hG x (hsub x hx))
        obtain ⟨fl1, r1, r2⟩ := GrInv.removeAll seq fl (c :: G) hg hnd hsub
        rw [m1, r1]
        simp only [Except.bind]
        have hlt : ((c :: G).filter (fun y => decide (y ∉ seq))).length < fuel := by
          obtain ⟨x, hx⟩ := List.exists_mem_of_ne_nil _ hne
          have := List.length_filter_lt_length_iff_exists (p := fun y => decide (y ∉ seq)) (l := c :: G) |>.2 ⟨x, hsub x hx, by simp [hx]⟩
          simp only [List.length_cons] at this
          omega
        have hpart : Part sis ((c :: G).filter (fun y => decide (y ∉ seq))) dpi1 ((bit :: b).reverse) := by
          rw [List.reverse_cons]
          exact hp.step hne hsub (fun x => by rw [List.mem_filter]; simp) m2 (fun i hi => m3 i (fun hs => hi (hsub i hs))) (fun i hi => by rw [List.length_reverse]; exact m4 i hi) hmono
        exact grLoop_ok fuel fl1 _ dpi1 (bit :: b) hlt r2 hpart
      have hnodup : (c :: G).Nodup := hasc.imp (fun hh => Nat.ne_of_lt hh)
      by_cases hcmp : inc.length ≥ dec.reverse.length
      · simp only [hcmp, if_true, decide_true, Bool.not_true]
        apply main inc false (by rw [← hinc]; simp) (hnodup.sublist hincS) (fun x hx => hincS.subset hx)
        intro i j si sj hi hj hij h1 h2
        have hpw := (hasc.sublist hincS).and hincU
        simp only [Bool.false_eq_true, if_false]
        rw [← hval i si h1, ← hval j sj h2]
        rcases pw_mem hpw i hi j hj with e | e | e
        · omega
        · exact e.2
        · have := e.1; omega
      · simp only [hcmp, if_false, decide_false, Bool.not_false]
        have hsubs : dec.reverse.Sublist (c :: G) := by
          have := hdecS.reverse
          rwa [List.reverse_reverse] at this
        apply main dec.reverse true (by rw [← hdec]; simp) (hnodup.sublist hsubs) (fun x hx => hsubs.subset hx)
        intro i j si sj hi hj hij h1 h2
        have hasc2 := hasc.sublist hsubs
        rw [List.pairwise_reverse] at hasc2
        have hpw := hasc2.and hdecU
        simp only [if_true]
        rw [← hval i si h1, ← hval j sj h2]
        rw [List.mem_reverse] at hi hj
        rcases pw_mem hpw i hi j hj with e | e | e
        · omega
        · have := e.1; omega
        · exact e.2

/-! ## The start -/

theorem grInitLoop_get : ∀ (k i : Nat) (fl : FreeL), i + k ≤ fl.length → (grInitLoop k i fl).length = fl.length ∧
    (∀ j, j < i ∨ i + k ≤ j → (grInitLoop k i fl)[j]? = fl[j]?) ∧ ∀ j, i ≤ j → j < i + k → (grInitLoop k i fl)[j]? = some (j - 1, j + 1)
  | 0, i, fl, _ => ⟨rfl, fun _ _ => rfl, by intro j; omega⟩
  | k + 1, i, fl, h => by
    obtain ⟨h1, h2, h3⟩ := grInitLoop_get k (i + 1) (fl.set i (i - 1, i + 1)) (by simp; omega)
    rw [grInitLoop]
    refine ⟨by simpa using h1, ?_, ?_⟩
    · intro j hj
      rw [h2 j (by omega), List.getElem?_set_ne (by omega)]
    · intro j hj1 hj2
      by_cases hji : j = i
      · subst hji
        rw [h2 j (by omega), List.getElem?_set_self (by omega)]
      · exact h3 j (by omega) (by omega)

theorem grInit_get (n : Nat) (hn : 0 < n) : (grInit n).length = n + 2 ∧ (∀ j < n, (grInit n)[j]? = some (if j = 0 then n else j - 1, if j = n - 1 then n + 1 else j + 1)) ∧
    (grInit n)[n]? = some (n, 0) ∧ (grInit n)[n + 1]? = some (n - 1, n + 1) := by
  unfold grInit
  obtain ⟨h1, h2, h3⟩ := grInitLoop_get (n - 2) 1 (List.replicate (n + 2) ((0, 0) : Nat × Nat)) (by simp; omega)
  rw [List.length_replicate] at h1
  generalize grInitLoop (n - 2) 1 (List.replicate (n + 2) ((0, 0) : Nat × Nat)) = fl at *
  by_cases hn1 : n > 1
  · simp only [hn1, if_true]
    refine ⟨by simp [h1], ?_, ?_, ?_⟩
    · intro j hj
      rw [List.getElem?_set_ne (by omega), List.getElem?_set_ne (by omega)]
      by_cases hj1 : j = n - 1
      · subst hj1
        rw [List.getElem?_set_self (by simp; omega)]
        simp [show n - 1 ≠ 0 by omega]; omega
      · rw [List.getElem?_set_ne (by omega)]
        by_cases hj0 : j = 0
        · subst hj0
          rw [List.getElem?_set_self (by omega)]
          simp [hj1]
        · rw [List.getElem?_set_ne (by omega), h3 j (by omega) (by omega)]
          simp [hj0, hj1]
    · rw [List.getElem?_set_ne (by omega), List.getElem?_set_self (by simp; omega)]
    · rw [List.getElem?_set_self (by simp; omega)]
  · have : n = 1 := by omega
    subst this
    simp only [hn1, if_false]
    refine ⟨by simp [h1], ?_, ?_, ?_⟩
    · intro j hj
      have : j = 0 := by omega
      subst this
      rw [List.getElem?_set_ne (by omega), List.getElem?_set_ne (by omega), List.getElem?_set_self (by omega)]
      simp
    · rw [List.getElem?_set_ne (by omega), List.getElem?_set_self (by simp; omega)]
    · rw [List.getElem?_set_self (by simp; omega)]

theorem grInit_inv (n : Nat) (hn : 0 < n) : GrInv n (grInit n) (List.range n) := by
  obtain ⟨h1, h2, h3, h4⟩ := grInit_get n hn
  refine ⟨h1, List.pairwise_lt_range, fun x hx => List.mem_range.1 hx, ?_, ?_⟩
  · apply Nx.of_get
    intro k a b ha hb
    unfold chainOf at ha hb
    rw [List.cons_append] at ha hb
    rw [List.getElem?_map]
    rw [List.getElem?_cons_succ] at hb
    cases k with
    | zero =>
      simp only [List.getElem?_cons_zero, Option.some.injEq] at ha
      subst ha
      rw [List.getElem?_append_left (by simpa using hn), List.getElem?_range hn] at hb
      rw [h3]
      simpa using hb
    | succ k =>
      rw [List.getElem?_cons_succ] at ha
      have hkn : k < n := by
        have := (List.getElem?_eq_some_iff.1 hb).1
        simp at this
        omega
      rw [List.getElem?_append_left (by simpa using hkn), List.getElem?_range hkn] at ha
      simp only [Option.some.injEq] at ha
      subst ha
      rw [h2 k hkn]
      by_cases hk1 : k = n - 1
      · rw [List.getElem?_append_right (by simp; omega)] at hb
        simp only [List.length_range, show k + 1 - n = 0 by omega, List.getElem?_cons_zero] at hb
        simp [hk1]
        simpa using hb
      · rw [List.getElem?_append_left (by simp; omega), List.getElem?_range (by omega)] at hb
        simp [hk1]
        simpa using hb
  · apply Nx.of_get
    intro k a b ha hb
    have hcl : (chainOf n (List.range n)).length = n + 2 := by simp [chainOf]
    have hkb := (List.getElem?_eq_some_iff.1 hb).1
    rw [List.length_reverse, hcl] at hkb
    rw [List.getElem?_reverse (by omega), hcl] at ha hb
    unfold chainOf at ha hb
    rw [List.cons_append] at ha hb
    rw [List.getElem?_map]
    rw [show n + 2 - 1 - k = (n - k) + 1 by omega, List.getElem?_cons_succ] at ha
    by_cases hk0 : k = 0
    · subst hk0
      rw [List.getElem?_append_right (by simp)] at ha
      simp only [List.length_range, Nat.sub_zero, Nat.sub_self, List.getElem?_cons_zero, Option.some.injEq] at ha
      subst ha
      rw [show n + 2 - 1 - (0 + 1) = (n - 1) + 1 by omega, List.getElem?_cons_succ, List.getElem?_append_left (by simp; omega), List.getElem?_range (by omega)] at hb
      rw [h4]
      simpa using hb
    · rw [List.getElem?_append_left (by simp; omega), List.getElem?_range (by omega)] at ha
      simp only [Option.some.injEq] at ha
      subst ha
      rw [h2 (n - k) (by omega)]
      by_cases hkn : k = n
      · subst hkn
        simp only [show k + 2 - 1 - (k + 1) = 0 by omega, List.getElem?_cons_zero] at hb
        simp
        simpa using hb
      · rw [show n + 2 - 1 - (k + 1) = (n - k - 1) + 1 by omega, List.getElem?_cons_succ, List.getElem?_append_left (by simp; omega), List.getElem?_range (by omega)] at hb
        simp [show n - k ≠ 0 by omega]
        simpa using hb

theorem greedy_decomposes (N : Nat) : Decomposes N subseqGreedy := by
  intro sis _ hne _
  have hpos : 0 < sis.length := List.length_pos_iff.2 hne
  unfold subseqGreedy
  rw [if_neg (by omega)]
  exact grLoop_ok (sis.length + 1) (grInit sis.length) (List.range sis.length) (List.replicate sis.length 999) [] (by simp) (grInit_inv _ hpos)
    (Part.start (by simp))

end Esp
end Tdc
