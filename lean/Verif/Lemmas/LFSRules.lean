import Verif.Lemmas.LFS
import Verif.Lemmas.TextDS
import Verif.Spec.Suffix

namespace Tdc
namespace Lfs

open Arith (bind_ok)

/-! ## marking -/

theorem kill_eq : ∀ (k p : Nat) (dead : List Bool), p + k ≤ dead.length → ∃ d, kill dead p k = .ok d ∧ d.length = dead.length ∧
    ∀ x, d[x]? = if p ≤ x ∧ x < p + k then some true else dead[x]?
  | 0, p, dead, _ => ⟨dead, rfl, rfl, fun x => by rw [if_neg (by omega)]⟩
  | k + 1, p, dead, h => by
    have hv : vset dead p true = .ok (dead.set p true) := if_pos (by omega)
    obtain ⟨d, h1, h2, h3⟩ := kill_eq k (p + 1) (dead.set p true) (by rw [List.length_set]; omega)
    refine ⟨d, by rw [kill, hv, bind_ok, h1], by rw [h2, List.length_set], fun x => ?_⟩
    rw [h3]
    by_cases hx : x = p
    · subst hx
      rw [if_neg (by omega), if_pos (by omega), List.getElem?_set_self (by omega)]
    · rw [List.getElem?_set_ne (Ne.symm hx)]
      by_cases hy : p + 1 ≤ x ∧ x < p + 1 + k
      · rw [if_pos hy, if_pos (by omega)]
      · rw [if_neg hy, if_neg (by omega)]

theorem killAll_eq {len : Nat} : ∀ (ps : List Nat) (dead : List Bool), (∀ p ∈ ps, p + len ≤ dead.length) → ∃ d, killAll len ps dead = .ok d ∧
    d.length = dead.length ∧ ∀ x, d[x]? = some true ↔ (dead[x]? = some true ∨ ∃ p ∈ ps, p ≤ x ∧ x < p + len)
  | [], dead, _ => ⟨dead, rfl, rfl, fun x => by simp⟩
  | p :: ps, dead, h => by
    obtain ⟨d, h1, h2, h3⟩ := kill_eq len p dead (h p (List.mem_cons_self ..))
    obtain ⟨e, g1, g2, g3⟩ := killAll_eq ps d fun q hq => by rw [h2]; exact h q (List.mem_cons_of_mem _ hq)
    refine ⟨e, by rw [killAll, h1, bind_ok, g1], by rw [g2, h2], fun x => ?_⟩
    rw [g3, h3]
    by_cases hx : p ≤ x ∧ x < p + len
    · rw [if_pos hx]
      exact ⟨fun _ => Or.inr ⟨p, List.mem_cons_self .., hx⟩, fun _ => Or.inl rfl⟩
    · rw [if_neg hx]
      constructor
      · rintro (h | ⟨q, hq, h⟩)
        · exact Or.inl h
        · exact Or.inr ⟨q, List.mem_cons_of_mem _ hq, h⟩
      · rintro (hd | ⟨q, hq, hqx⟩)
        · exact Or.inl hd
        · rcases List.mem_cons.1 hq with rfl | hq
          · exact absurd hqx hx
          · exact Or.inr ⟨q, hq, hqx⟩

/-! ## the invariant of all strategies -/

/-- rules and non-terminals of length at least `len` so far -/
structure Ok (T : List UInt8) (len : Nat) (s : St) : Prop where
  deadLen : s.dead.length = T.length
  dead : ∀ x, s.dead[x]? = some true ↔ ∃ t ∈ s.nts, t.1 ≤ x ∧ x < t.1 + t.2.2
  nt : ∀ t ∈ s.nts, len ≤ t.2.2 ∧ 0 < t.2.2 ∧ t.1 + t.2.2 ≤ T.length ∧ ∃ b, s.dict[t.2.1]? = some (b, t.2.2) ∧ sub T b t.2.2 = sub T t.1 t.2.2
  disj : s.nts.Pairwise fun a b => a.1 + a.2.2 ≤ b.1 ∨ b.1 + b.2.2 ≤ a.1
  rule : ∀ r ∈ s.dict, len ≤ r.2 ∧ 0 < r.2 ∧ r.1 + r.2 ≤ T.length
  desc : s.dict.Pairwise fun a b => b.2 ≤ a.2
  count : s.dict.length ≤ s.nts.length
  used : ∀ k, k < s.dict.length → 2 ≤ (s.nts.filter fun t => t.2.1 = k).length

theorem Ok.mono {T : List UInt8} {len len' : Nat} {s : St} (h : Ok T len s) (hl : len' ≤ len) : Ok T len' s :=
  ⟨h.deadLen, h.dead, fun t ht => by obtain ⟨a, b⟩ := h.nt t ht; exact ⟨by omega, b⟩, h.disj,
    fun r hr => by obtain ⟨a, b⟩ := h.rule r hr; exact ⟨by omega, b⟩, h.desc, h.count, h.used⟩

theorem Ok.init (T : List UInt8) (len : Nat) : Ok T len ⟨[], [], List.replicate T.length false⟩ := by
  refine ⟨by simp, fun x => ?_, by simp, .nil, by simp, .nil, Nat.le_refl _, by simp⟩
  rw [List.getElem?_replicate]
  split <;> simp

/-- selected positions do not overlap -/
def Sep (len : Nat) : Nat → List Nat → Prop
  | _, [] => True
  | next, p :: ps => next ≤ p ∧ Sep len (p + len) ps

theorem Sep.ge {len : Nat} : ∀ {ps : List Nat} {next : Nat}, Sep len next ps → ∀ p ∈ ps, next ≤ p
  | q :: ps, next, h, p, hp => by
    obtain ⟨h1, h2⟩ := h
    rcases List.mem_cons.1 hp with rfl | hp
    · exact h1
    · have := Sep.ge h2 p hp
      omega

theorem Sep.pairwise {len : Nat} : ∀ {ps : List Nat} {next : Nat}, Sep len next ps → ps.Pairwise fun a b => a + len ≤ b
  | [], _, _ => .nil
  | p :: ps, next, h => .cons (fun q hq => h.2.ge q hq) h.2.pairwise

/-- Adding a rule with at least two occurrences that are alive at its ends keeps the invariant. -/
theorem addRule_ok {T : List UInt8} {len : Nat} {s : St} (h : Ok T len s) (hlen : 0 < len) {b : Nat} (hb : b + len ≤ T.length) {sel : List Nat} {next : Nat}
    (hsep : Sep len next sel) (hne : 2 ≤ sel.length)
    (hsel : ∀ p ∈ sel, p + len ≤ T.length ∧ s.dead[p]? = some false ∧ s.dead[p + len - 1]? = some false ∧ sub T p len = sub T b len) :
    ∃ s', addRule len b sel s = .ok s' ∧ Ok T len s' := by
  obtain ⟨d, h1, h2, h3⟩ := killAll_eq (len := len) sel s.dead fun p hp => by rw [h.deadLen]; exact (hsel p hp).1
  refine ⟨_, by rw [addRule, h1, bind_ok], ?_⟩
  constructor
  · simp only [h2, h.deadLen]
  · intro x
    simp only [h3, h.dead]
    constructor
    · rintro (⟨t, ht, hx⟩ | ⟨p, hp, hx⟩)
      · exact ⟨t, List.mem_append_left _ ht, hx⟩
      · exact ⟨(p, s.dict.length, len), List.mem_append_right _ (List.mem_map.2 ⟨p, hp, rfl⟩), hx⟩
    · rintro ⟨t, ht, hx⟩
      rcases List.mem_append.1 ht with ht | ht
      · exact Or.inl ⟨t, ht, hx⟩
      · obtain ⟨p, hp, rfl⟩ := List.mem_map.1 ht
        exact Or.inr ⟨p, hp, hx⟩
  · intro t ht
    rcases List.mem_append.1 ht with ht | ht
    · obtain ⟨a1, a2, a3, c, a4, a5⟩ := h.nt t ht
      exact ⟨a1, a2, a3, c, by simp only; rw [List.getElem?_append_left (List.getElem?_eq_some_iff.1 a4).1]; exact a4, a5⟩
    · obtain ⟨p, hp, rfl⟩ := List.mem_map.1 ht
      obtain ⟨a1, a2, a3, a4⟩ := hsel p hp
      exact ⟨Nat.le_refl _, hlen, a1, b, by simp, a4.symm⟩
  · simp only
    rw [List.pairwise_append]
    refine ⟨h.disj, ?_, ?_⟩
    · rw [List.pairwise_map]
      exact hsep.pairwise.imp fun h => Or.inl h
    · intro t ht u hu
      obtain ⟨p, hp, rfl⟩ := List.mem_map.1 hu
      obtain ⟨a1, a2, a3, a4⟩ := hsel p hp
      obtain ⟨b1, b2, b3, -⟩ := h.nt t ht
      have n1 : ¬ (t.1 ≤ p ∧ p < t.1 + t.2.2) := fun hx => by
        have := (h.dead p).2 ⟨t, ht, hx⟩
        rw [a2] at this
        cases this
      have n2 : ¬ (t.1 ≤ p + len - 1 ∧ p + len - 1 < t.1 + t.2.2) := fun hx => by
        have := (h.dead (p + len - 1)).2 ⟨t, ht, hx⟩
        rw [a3] at this
        cases this
      simp only
      omega
  · intro r hr
    rcases List.mem_append.1 hr with hr | hr
    · exact h.rule r hr
    · rw [List.mem_singleton.1 hr]
      exact ⟨Nat.le_refl _, hlen, hb⟩
  · simp only
    rw [List.pairwise_append]
    refine ⟨h.desc, List.pairwise_singleton _ _, ?_⟩
    intro r hr u hu
    rw [List.mem_singleton.1 hu]
    exact (h.rule r hr).1
  · have := h.count
    simp only [List.length_append, List.length_singleton, List.length_map]
    omega
  · intro k hk
    simp only [List.length_append, List.length_singleton] at hk
    simp only [List.filter_append, List.length_append]
    rcases Nat.lt_or_ge k s.dict.length with hx | hx
    · have := h.used k hx
      omega
    · have e : k = s.dict.length := by omega
      have : (sel.map fun q => (q, s.dict.length, len)).filter (fun t => decide (t.2.1 = k)) = sel.map fun q => (q, s.dict.length, len) := by
        rw [List.filter_eq_self]
        intro t ht
        obtain ⟨q, -, rfl⟩ := List.mem_map.1 ht
        simp [e]
      rw [this, List.length_map]
      omega

theorem greedy_sep {len : Nat} : ∀ (ps : List Nat) (next : Nat), Sep len next (greedy len next ps)
  | [], _ => trivial
  | p :: ps, next => by
    unfold greedy
    split
    · next h => exact ⟨h, greedy_sep ps _⟩
    · exact greedy_sep ps next

theorem greedy_mem {len : Nat} : ∀ (ps : List Nat) (next : Nat), ∀ p ∈ greedy len next ps, p ∈ ps
  | [], _, p, h => by cases h
  | q :: ps, next, p, h => by
    unfold greedy at h
    split at h
    · rcases List.mem_cons.1 h with rfl | h
      · exact List.mem_cons_self ..
      · exact List.mem_cons_of_mem _ (greedy_mem ps _ p h)
    · exact List.mem_cons_of_mem _ (greedy_mem ps _ p h)

theorem select_mem {len : Nat} {ps : List Nat} : ∀ p ∈ select len ps, p ∈ ps := fun p h =>
  List.mem_mergeSort.1 (greedy_mem _ _ p h)

/-! ## sorting the non-terminals -/

theorem ntLe_trans (a b c : Nat × Nat × Nat) (h1 : ntLe a b = true) (h2 : ntLe b c = true) : ntLe a c = true := by
  simp only [ntLe, decide_eq_true_eq] at *
  omega

theorem ntLe_total (a b : Nat × Nat × Nat) : (ntLe a b || ntLe b a) = true := by
  simp only [ntLe, Bool.or_eq_true, decide_eq_true_eq]
  omega

theorem cover_of_sorted {T : List UInt8} {dict : List (Nat × Nat)} : ∀ (nts : List (Nat × Nat × Nat)) (pos : Nat), pos ≤ T.length →
    nts.Pairwise (fun a b => ntLe a b = true) → nts.Pairwise (fun a b => a.1 + a.2.2 ≤ b.1 ∨ b.1 + b.2.2 ≤ a.1) → (∀ t ∈ nts, pos ≤ t.1) →
    (∀ t ∈ nts, 0 < t.2.2 ∧ t.1 + t.2.2 ≤ T.length ∧ ∃ b, dict[t.2.1]? = some (b, t.2.2) ∧ sub T b t.2.2 = sub T t.1 t.2.2) → Cover T dict pos nts
  | [], pos, h, _, _, _, _ => h
  | (s, k, l) :: rest, pos, h, h1, h2, h3, h4 => by
    obtain ⟨a1, a2, a3⟩ := h4 _ (List.mem_cons_self ..)
    rw [List.pairwise_cons] at h1 h2
    refine ⟨h3 _ (List.mem_cons_self ..), a2, a3, cover_of_sorted rest (s + l) a2 h1.2 h2.2 ?_ fun t ht => h4 t (List.mem_cons_of_mem _ ht)⟩
    intro t ht
    have b1 := h1.1 t ht
    have b2 := h2.1 t ht
    have b3 := (h4 t (List.mem_cons_of_mem _ ht)).1
    simp only [ntLe, decide_eq_true_eq] at b1 b2
    omega

theorem Ok.cover {T : List UInt8} {len : Nat} {s : St} (h : Ok T len s) : Cover T s.dict 0 (s.nts.mergeSort ntLe) := by
  have hp := List.mergeSort_perm s.nts ntLe
  apply cover_of_sorted _ _ (Nat.zero_le _) (List.pairwise_mergeSort ntLe_trans ntLe_total s.nts)
  · exact (hp.pairwise_iff (fun h => h.symm)).2 h.disj
  · exact fun t _ => Nat.zero_le _
  · intro t ht
    obtain ⟨a, b⟩ := h.nt t (hp.mem_iff.1 ht)
    exact b

theorem desc_of_pairwise : ∀ (rest : List (Nat × Nat)) (last : Nat), (∀ r ∈ rest, 0 < r.2 ∧ r.2 ≤ last) → rest.Pairwise (fun a b => b.2 ≤ a.2) → Desc last rest
  | [], _, _, _ => trivial
  | r :: rest, last, h1, h2 => by
    rw [List.pairwise_cons] at h2
    obtain ⟨a, b⟩ := h1 r (List.mem_cons_self ..)
    exact ⟨a, b, desc_of_pairwise rest r.2 (fun u hu => ⟨(h1 u (List.mem_cons_of_mem _ hu)).1, h2.1 u hu⟩) h2.2⟩

theorem Ok.lens {T : List UInt8} {len : Nat} {s : St} (h : Ok T len s) (hn : T.length < 2 ^ 32) : DictLens s.dict := by
  have hd := h.desc
  have hr := h.rule
  cases hs : s.dict with
  | nil => trivial
  | cons r rest =>
    rw [hs] at hd hr
    rw [List.pairwise_cons] at hd
    obtain ⟨-, a, b⟩ := hr r (List.mem_cons_self ..)
    exact ⟨a, by omega, desc_of_pairwise rest r.2 (fun u hu => ⟨(hr u (List.mem_cons_of_mem _ hu)).2.1, hd.1 u hu⟩) hd.2⟩

theorem Ok.nts_le {T : List UInt8} {len : Nat} {s : St} (h : Ok T len s) : s.nts.length ≤ T.length := by
  have hnd : (s.nts.map (·.1)).Nodup := by
    rw [List.Nodup, List.pairwise_map]
    have key : ∀ l : List (Nat × Nat × Nat), (∀ t ∈ l, 0 < t.2.2) → l.Pairwise (fun a b => a.1 + a.2.2 ≤ b.1 ∨ b.1 + b.2.2 ≤ a.1) →
        l.Pairwise fun a b => a.1 ≠ b.1 := by
      intro l hl hp
      induction hp with
      | nil => exact .nil
      | cons h1 _ ih =>
        refine .cons (fun b hb => ?_) (ih fun t ht => hl t (List.mem_cons_of_mem _ ht))
        have := h1 b hb
        have := hl b (List.mem_cons_of_mem _ hb)
        have := hl _ (List.mem_cons_self ..)
        omega
    exact key _ (fun t ht => (h.nt t ht).2.1) h.disj
  have hsub : (s.nts.map (·.1)) ⊆ List.range T.length := by
    intro x hx
    obtain ⟨t, ht, rfl⟩ := List.mem_map.1 hx
    obtain ⟨-, a, b, -⟩ := h.nt t ht
    rw [List.mem_range]
    omega
  have := (hnd.subperm hsub).length_le
  rwa [List.length_map, List.length_range] at this

/-- Every strategy that keeps the invariant is lossless. -/
theorem Ok.lossless {T : List UInt8} {len : Nat} {s : St} (h : Ok T len s) (hn : T.length < 2 ^ 32) (std : StdLib) (lc : LitCoder) {c1 : UCoder} (hc1 : c1.Lawful)
    (hlc : LitOk lc T) : ∃ ts bytes, encodeToks T s.dict (s.nts.mergeSort ntLe) = .ok ts ∧ write std lc c1 T ts = .ok bytes ∧ decompress lc c1 bytes = .ok T := by
  have := h.nts_le
  have := h.count
  exact encode_decode std lc hc1 T hlc s.dict _ (by omega) (h.lens hn) (fun r hr => (h.rule r hr).2.2) h.cover

end Lfs
end Tdc
