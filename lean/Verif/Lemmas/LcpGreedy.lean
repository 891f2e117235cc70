import Verif.Lemmas.LcpComp

namespace Tdc
namespace LC

variable {t : List UInt8} {A : TextArrays} {th : Nat}

/-! ### The invariant of the greedy strategies -/

theorem covered_snoc {pre : List Factor} {f : Factor} {x : Nat} : Covered (pre ++ [f]) x ↔ Covered pre x ∨ (f.pos ≤ x ∧ x < f.pos + f.len) := by
  unfold Covered
  constructor
  · rintro ⟨g, hg, h⟩
    rcases List.mem_append.mp hg with hg | hg
    · exact Or.inl ⟨g, hg, h⟩
    · rw [List.mem_singleton] at hg; subst hg; exact Or.inr h
  · rintro (⟨g, hg, h⟩ | h)
    · exact ⟨g, by simp [hg], h⟩
    · exact ⟨f, by simp, h⟩

/-- `K i`: the number of characters that may still be copied for suffix array index `i` (`0`: none, or too few) -/
structure GInv (A : TextArrays) (th : Nat) (pre : List Factor) (K : Nat → Nat) : Prop where
  le : ∀ i : Nat, K i ≤ A.lcp.getD i 0
  free : ∀ i q x : Nat, A.sa[i]? = some q → q ≤ x → x < q + K i → ¬ Covered pre x
  full : ∀ i q l : Nat, A.sa[i]? = some q → th ≤ l → l ≤ A.lcp.getD i 0 → (∀ x, q ≤ x → x < q + l → ¬ Covered pre x) → l ≤ K i

/-- what is left of `k` characters at `q` when `len` characters at `p` get replaced -/
def cut (p len q k : Nat) : Nat := if p ≤ q ∧ q < p + len then 0 else if q < p ∧ p - q ≤ len then min (p - q) k else k

theorem cut_le (p len q k : Nat) : cut p len q k ≤ k := by
  unfold cut; split <;> [omega; split <;> omega]

theorem GInv.init (A : TextArrays) (th : Nat) {K : Nat → Nat} (h1 : ∀ i : Nat, K i ≤ A.lcp.getD i 0)
    (h2 : ∀ i : Nat, i < A.sa.length → th ≤ A.lcp.getD i 0 → K i = A.lcp.getD i 0) : GInv A th [] K := by
  refine ⟨h1, ?_, ?_⟩
  · rintro i q x - - - ⟨f, hf, -⟩
    simp at hf
  · intro i q l hi h3 h4 _
    rw [h2 i (List.getElem?_eq_some_iff.mp hi).1 (by omega)]
    exact h4

theorem GInv.step {pre : List Factor} {K K' : Nat → Nat} (h : GInv A th pre K) {p s len : Nat}
    (hth : 1 ≤ th) (hmax : ∀ i : Nat, i < A.sa.length → K i ≤ len) (hout : ∀ i : Nat, A.sa.length ≤ i → K' i ≤ K i)
    (hle : ∀ i q : Nat, A.sa[i]? = some q → K' i ≤ cut p len q (K i))
    (heq : ∀ i q : Nat, A.sa[i]? = some q → th ≤ cut p len q (K i) → K' i = cut p len q (K i)) :
    GInv A th (pre ++ [⟨p, s, len⟩]) K' := by
  refine ⟨?_, ?_, ?_⟩
  · intro i
    by_cases hi : i < A.sa.length
    · have := hle i _ (List.getElem?_eq_getElem hi)
      have := cut_le p len A.sa[i] (K i)
      have := h.le i
      omega
    · have := hout i (by omega)
      have := h.le i
      omega
  · intro i q x hi h1 h2 hc
    have hil := (List.getElem?_eq_some_iff.mp hi).1
    have h3 := hle i q hi
    have h4 := cut_le p len q (K i)
    rcases covered_snoc.mp hc with hc | ⟨h5, h6⟩
    · exact h.free i q x hi h1 (by omega) hc
    · have := hmax i hil
      simp only at h5 h6
      unfold cut at h3
      split at h3
      · omega
      · split at h3 <;> omega
  · intro i q l hi h1 h2 h3
    have h4 := h.full i q l hi h1 h2 (fun x a b hc => h3 x a b (covered_snoc.mpr (Or.inl hc)))
    have h5 : ∀ x, q ≤ x → x < q + l → ¬ (p ≤ x ∧ x < p + len) := fun x a b hc => h3 x a b (covered_snoc.mpr (Or.inr hc))
    have h6 : l ≤ cut p len q (K i) := by
      unfold cut
      split
      · exact absurd (by assumption) (h5 q (by omega) (by omega))
      · split
        · by_contra hc
          exact h5 p (by omega) (by omega) (by omega)
        · omega
    rw [heq i q hi (by omega)]
    exact h6

/-- like `LcpGreedy` but the factorization need not be complete -/
def LcpPrefix (text : List UInt8) (sa : List Nat) (threshold : Nat) : List Factor → List Factor → Prop
  | _, [] => True
  | pre, f :: fs =>
    (Available text sa pre f.pos f.src f.len ∧ threshold ≤ f.len ∧
    (∀ q j l, threshold ≤ l → Available text sa pre q j l → l ≤ f.len)) ∧
    LcpPrefix text sa threshold (pre ++ [f]) fs

theorem LcpPrefix.snoc {text : List UInt8} {sa : List Nat} {th : Nat} (fs : List Factor) : ∀ (pre : List Factor) (f : Factor), LcpPrefix text sa th pre fs →
    (Available text sa (pre ++ fs) f.pos f.src f.len ∧ th ≤ f.len ∧ (∀ q j l, th ≤ l → Available text sa (pre ++ fs) q j l → l ≤ f.len)) →
    LcpPrefix text sa th pre (fs ++ [f]) := by
  induction fs with
  | nil => intro pre f _ h; simpa [LcpPrefix] using h
  | cons g fs ih =>
    intro pre f h hf
    exact ⟨h.1, ih _ f h.2 (by simpa using hf)⟩

theorem LcpPrefix.done {text : List UInt8} {sa : List Nat} {th : Nat} (fs : List Factor) : ∀ (pre : List Factor), LcpPrefix text sa th pre fs →
    (∀ q j l, Available text sa (pre ++ fs) q j l → l < th) → LcpGreedy text sa th pre fs := by
  induction fs with
  | nil => intro pre _ h; simpa [LcpGreedy] using h
  | cons g fs ih =>
    intro pre h hf
    obtain ⟨⟨a, b, c⟩, d⟩ := h
    exact ⟨a, b, c, ih _ d (by simpa using hf)⟩

theorem ArraysOk.lcpD (hA : ArraysOk t A) {k q j : Nat} (hq : A.sa[k + 1]? = some q) (hj : A.sa[k]? = some j) :
    A.lcp.getD (k + 1) 0 = lcpLen (t.drop q) (t.drop j) := by
  rw [List.getD_eq_getElem?_getD, hA.lcp k q j hq hj]; rfl

theorem ArraysOk.lcpD0 (hA : ArraysOk t A) : A.lcp.getD 0 0 = 0 := by
  rw [List.getD_eq_getElem?_getD, hA.lcp0]; rfl

theorem GInv.avail_le (hA : ArraysOk t A) {pre : List Factor} {K : Nat → Nat} (h : GInv A th pre K) {q j l : Nat} (hl : th ≤ l)
    (ha : Available t A.sa pre q j l) : ∃ i, i < A.sa.length ∧ l ≤ K i := by
  obtain ⟨⟨k, hk, hj⟩, h1, h2⟩ := ha
  refine ⟨k + 1, (List.getElem?_eq_some_iff.mp hk).1, h.full (k + 1) q l hk hl ?_ h2⟩
  rw [ArraysOk.lcpD hA hk hj]; exact h1

theorem GInv.done (hA : ArraysOk t A) {pre : List Factor} {K : Nat → Nat} (h : GInv A th pre K)
    (hK : ∀ i : Nat, i < A.sa.length → K i < th) : ∀ q j l, Available t A.sa pre q j l → l < th := by
  intro q j l ha
  by_contra hc
  obtain ⟨i, hi, hle⟩ := h.avail_le hA (by omega) ha
  have := hK i hi
  omega

theorem GInv.greedy (hA : ArraysOk t A) {pre : List Factor} {K : Nat → Nat} (h : GInv A th pre K) {m p s : Nat}
    (hp : A.sa[m + 1]? = some p) (hs : A.sa[m]? = some s) (hlen : th ≤ K (m + 1)) (hmax : ∀ i : Nat, i < A.sa.length → K i ≤ K (m + 1)) :
    Available t A.sa pre p s (K (m + 1)) ∧ th ≤ K (m + 1) ∧ ∀ q j l, th ≤ l → Available t A.sa pre q j l → l ≤ K (m + 1) := by
  refine ⟨⟨⟨m, hp, hs⟩, ?_, ?_⟩, hlen, ?_⟩
  · have := h.le (m + 1)
    rwa [ArraysOk.lcpD hA hp hs] at this
  · intro x h1 h2
    exact h.free (m + 1) p x hp h1 h2
  · intro q j l hl ha
    obtain ⟨i, hi, hle⟩ := h.avail_le hA hl ha
    have := hmax i hi
    omega

/-! ### What greedy factorizations are good for -/

theorem LcpGreedy.spec {text : List UInt8} {sa : List Nat} {th : Nat} (hth : 1 ≤ th) (fs : List Factor) : ∀ pre, LcpGreedy text sa th pre fs →
    (∀ f ∈ fs, th ≤ f.len ∧ (∃ k, sa[k + 1]? = some f.pos ∧ sa[k]? = some f.src) ∧ f.len ≤ lcpLen (text.drop f.pos) (text.drop f.src)) ∧
    fs.Pairwise Disj ∧ ∀ f ∈ fs, ∀ g ∈ pre, 1 ≤ g.len → Disj g f := by
  induction fs with
  | nil => intro pre _; simp
  | cons f fs ih =>
    intro pre h
    obtain ⟨⟨a1, a2, a3⟩, b, -, d⟩ := h
    obtain ⟨i1, i2, i3⟩ := ih _ d
    refine ⟨?_, ?_, ?_⟩
    · intro g hg
      rcases List.mem_cons.mp hg with rfl | hg
      · exact ⟨b, a1, a2⟩
      · exact i1 g hg
    · rw [List.pairwise_cons]
      exact ⟨fun g hg => i3 g hg f (by simp) (by omega), i2⟩
    · intro g hg x hx hx1
      rcases List.mem_cons.mp hg with rfl | hg
      · unfold Disj
        by_contra hc
        by_cases hxg : x.pos ≤ g.pos
        · exact a3 g.pos (by omega) (by omega) ⟨x, hx, by omega, by omega⟩
        · exact a3 x.pos (by omega) (by omega) ⟨x, hx, by omega, by omega⟩
      · exact i3 g hg x (by simp [hx]) hx1

/-- suffixes of a larger rank stay larger while the common prefix is cut off -/
theorem rank_lt {sa : List Nat} (h : IsSA t sa) {k q j : Nat} (hq : sa[k + 1]? = some q) (hj : sa[k]? = some j) {d : Nat}
    (hd : d ≤ lcpLen (t.drop q) (t.drop j)) : t.drop (j + d) < t.drop (q + d) := by
  induction d with
  | zero => exact h.sorted k (k + 1) j q (by omega) hj hq
  | succ d ih =>
    have ih := ih (by omega)
    obtain ⟨e, h1, h2⟩ := lcpLen_get (t.drop q) (t.drop j) d (by omega)
    rw [List.length_drop] at h1 h2
    rw [List.drop_eq_getElem_cons (by omega : j + d < t.length), List.drop_eq_getElem_cons (by omega : q + d < t.length)] at ih
    rw [List.getElem?_drop, List.getElem?_drop, List.getElem?_eq_getElem (by omega), List.getElem?_eq_getElem (by omega)] at e
    rcases List.cons_lt_cons_iff.mp ih with hl | ⟨-, hl⟩
    · rw [Option.some.inj e] at hl
      exact absurd hl (u8_lt_irrefl _)
    · exact hl

/-- factors copied from lexicographic predecessors can be resolved, whatever their positions -/
theorem resolvable_of_pred {sa : List Nat} (h : IsSA t sa) {fs : List Factor}
    (hf : ∀ f ∈ fs, (∃ k, sa[k + 1]? = some f.pos ∧ sa[k]? = some f.src) ∧ f.len ≤ lcpLen (t.drop f.pos) (t.drop f.src)) :
    Resolvable t fs := by
  refine ⟨?_, fun p => sa.idxOf p, ?_⟩
  · intro f hfm k hk
    obtain ⟨-, hl⟩ := hf f hfm
    have := (lcpLen_get (t.drop f.pos) (t.drop f.src) k (by omega)).1
    rw [List.getElem?_drop, List.getElem?_drop] at this
    exact this.symm
  · intro f hfm k hk
    obtain ⟨⟨m, h1, h2⟩, hl⟩ := hf f hfm
    have hlt := rank_lt h h1 h2 (d := k) (by omega)
    obtain ⟨-, h3, h4⟩ := lcpLen_get (t.drop f.pos) (t.drop f.src) k (by omega)
    rw [List.length_drop] at h3 h4
    obtain ⟨i, -, hi⟩ := h.idx (p := f.src + k) (by omega)
    obtain ⟨j, -, hj⟩ := h.idx (p := f.pos + k) (by omega)
    have hij := (h.lt_iff hi hj).mpr hlt
    have hidx : ∀ {a b : Nat}, sa[a]? = some b → sa.idxOf b = a := by
      intro a b hab
      obtain ⟨hl, he⟩ := List.getElem?_eq_some_iff.mp hab
      have := List.Nodup.idxOf_getElem h.nodup a hl
      rwa [he] at this
    show sa.idxOf (f.src + k) < sa.idxOf (f.pos + k)
    rw [hidx hi, hidx hj]
    exact hij

theorem pred_bounds (hs : Sentinel t) {sa : List Nat} (h : IsSA t sa) {f : Factor}
    (hf : (∃ k, sa[k + 1]? = some f.pos ∧ sa[k]? = some f.src) ∧ f.len ≤ lcpLen (t.drop f.pos) (t.drop f.src)) :
    f.src < t.length ∧ f.pos + f.len < t.length := by
  obtain ⟨⟨k, h1, h2⟩, hl⟩ := hf
  have a := h.lt _ (List.mem_of_getElem? h1)
  have b := h.lt _ (List.mem_of_getElem? h2)
  have hne : f.pos ≠ f.src := by
    intro e
    rw [e] at h1
    have := h.inj h1 h2
    omega
  have := hs.lcp_lt a b hne
  omega

end LC
end Tdc
