import Verif.Lemmas.EspDyn

/-! # ESP with a given map generates the same grammar -/

namespace Tdc.Esp

variable {strict : Bool} {I : Ipd}

theorem setKey_same {m : List (Key × Nat)} (hn : (m.map Prod.fst).Nodup) {k : Key} {v : Nat} (h : m.lookup k = some v) : setKey m k v = m := by
  unfold setKey
  rw [h]
  conv => rhs; rw [← List.map_id m]
  apply List.map_congr_left
  rintro ⟨k', v'⟩ he
  simp only [id]
  split
  · rename_i hk
    subst hk
    have := (lookup_iff hn).2 he
    rw [h] at this; simp at this; rw [this]
  · rfl

/-- A state of `RulesOn` against one of `Rules`. -/
structure Sim (hI : IpdOk strict I) (g : RulesOn I) (r : Rules) : Prop where
  map : hI.R g.map r.map
  counter : g.counter = r.counter

theorem accessOn_ok (hI : IpdOk strict I) {cs : Nat} {ks : List Key} {g : RulesOn I} (h : Sim hI g ⟨mapOf (cs + 1) ks, cs + 1 + ks.length⟩) {k : Key}
    (h1 : k.1 < cs + ks.length) (h2 : k.2 < cs) (hb : cs + 1 + ks.length < 2 ^ 64) (hg : ks ≠ [] ∨ k.1 ≤ 255) :
    ∃ g', g.access k = .ok (((⟨mapOf (cs + 1) ks, cs + 1 + ks.length⟩ : Rules).access k).1, g') ∧
      Sim hI g' ((⟨mapOf (cs + 1) ks, cs + 1 + ks.length⟩ : Rules).access k).2 := by
  obtain ⟨hm, hc⟩ := h
  simp only at hm hc
  have hpow : ∀ j, 2 ≤ j → 65536 ≤ 2 ^ (8 * j) := fun j hj => Nat.le_trans (show 65536 ≤ 2 ^ 16 by decide) (Nat.pow_le_pow_right (by omega) (by omega))
  have hgood : Good (mapOf (cs + 1) ks) k := by
    intro j hj _ hke
    have hp := hpow j hj
    rw [hke] at h2 hg
    simp only [emptyKey] at h2 hg
    rcases hg with hg | hg
    · obtain ⟨a, ks', rfl⟩ := List.exists_cons_of_ne_nil hg
      exact ⟨(a, cs + 1), by simp [mapOf], by simp only; omega⟩
    · omega
  have hne : k ≠ emptyKey 64 := by
    intro hke
    rw [hke] at h2
    simp only [emptyKey] at h2
    omega
  obtain ⟨t1, a1, a2⟩ := hI.access hm k (fun v => if v = 0 then g.counter else v) hne (fun _ => hgood) (by omega) (by omega) (by
    intro v hv
    show (if v = 0 then g.counter else v) < _
    split <;> omega)
  unfold RulesOn.access Rules.access
  rw [a1]
  simp only [Except.bind]
  by_cases hk : k ∈ ks
  · obtain ⟨i, e1, e2⟩ := mapOf_lookup_some (ic := cs + 1) hk
    rw [e1] at a2 ⊢
    simp only [Option.getD_some, show cs + 1 + i ≠ 0 by omega, if_false] at a2 ⊢
    rw [setKey_same (hI.nodup hm) e1] at a2
    exact ⟨_, rfl, a2, hc⟩
  · have e1 := mapOf_lookup_none (ic := cs + 1) hk
    rw [e1] at a2 ⊢
    simp only [Option.getD_none, if_true] at a2 ⊢
    have e2 : setKey (mapOf (cs + 1) ks) k g.counter = mapOf (cs + 1) ks ++ [(k, g.counter)] := by
      unfold setKey; rw [e1]
    rw [e2] at a2
    rw [hc] at a2 ⊢
    exact ⟨_, rfl, a2, rfl⟩

theorem addOn_ok (hI : IpdOk strict I) {cs : Nat} {ks : List Key} (hks : Keys cs ks) {g : RulesOn I} (h : Sim hI g ⟨mapOf (cs + 1) ks, cs + 1 + ks.length⟩)
    {b : List Nat} (hb : ∀ x ∈ b, x < cs) (hl : b.length = 2 ∨ b.length = 3) (hbd : cs + 1 + ks.length + 1 < 2 ^ 64)
    (hg : ks ≠ [] ∨ ∀ x, b.head? = some x → x ≤ 255) {x : Nat} {r : Rules}
    (hr : (⟨mapOf (cs + 1) ks, cs + 1 + ks.length⟩ : Rules).add b = .ok (x, r)) : ∃ g', g.add b = .ok (x, g') ∧ Sim hI g' r := by
  match b, hl with
  | [x0, y], _ =>
    have hx := hb x0 (by simp)
    have hy := hb y (by simp)
    obtain ⟨g', a1, a2⟩ := accessOn_ok hI h (k := (x0, y)) (by simp; omega) hy (by omega) (hg.imp id fun h => h x0 rfl)
    simp only [Rules.add] at hr
    simp only [RulesOn.add, a1, Except.bind]
    simp only [Except.ok.injEq, Prod.mk.injEq] at hr
    rw [hr.1]
    exact ⟨g', rfl, hr.2 ▸ a2⟩
  | [x0, y, z], _ =>
    have hx := hb x0 (by simp)
    have hy := hb y (by simp)
    have hz := hb z (by simp)
    obtain ⟨g', a1, a2⟩ := accessOn_ok hI h (k := (x0, y)) (by simp; omega) hy (by omega) (hg.imp id fun h => h x0 rfl)
    obtain ⟨i, t, e, k1, k2, k3⟩ := access_ok hks (k := (x0, y)) (by simp; omega) hy
    rw [e] at a1 a2
    have hi := (List.getElem?_eq_some_iff.1 k3).1
    have hne : ks ++ t ≠ [] := by intro h0; rw [h0] at hi; simp at hi
    have hlen : (ks ++ t).length ≤ ks.length + 1 := by rw [List.length_append]; omega
    obtain ⟨g2, b1, b2⟩ := accessOn_ok hI a2 (k := (cs + i, z)) (by simp at hi ⊢; omega) hz (by omega) (Or.inl hne)
    simp only [Rules.add, e, show cs + 1 + i - 1 = cs + i by omega] at hr
    simp only [RulesOn.add, a1, Except.bind, show cs + 1 + i - 1 = cs + i by omega, b1]
    simp only [Except.ok.injEq, Prod.mk.injEq] at hr
    rw [hr.1]
    exact ⟨g2, rfl, hr.2 ▸ b2⟩

theorem namesOn_ok (hI : IpdOk strict I) {cs w : Nat} : ∀ (v : List Blk) (s : List Nat) (ks : List Key) (g : RulesOn I), Keys cs ks → (∀ x ∈ s, x < cs) →
    (∀ b ∈ v, b.len = 2 ∨ b.len = 3) → total v = s.length → Sim hI g ⟨mapOf (cs + 1) ks, cs + 1 + ks.length⟩ → cs + 1 + ks.length + s.length < 2 ^ 64 →
    (ks ≠ [] ∨ ∀ x, s.head? = some x → x ≤ 255) → ∀ l r, nameBlocks (cs + 1) w v s ⟨mapOf (cs + 1) ks, cs + 1 + ks.length⟩ = .ok (l, r) →
    ∃ g', nameBlocksOn (cs + 1) w v s g = .ok (l, g') ∧ Sim hI g' r ∧ (ks = [] → ∀ x, l.head? = some x → x ≤ 255)
  | [], s, ks, g, _, _, _, _, hs, _, _, l, r, hr => by
    simp only [nameBlocks, Except.ok.injEq, Prod.mk.injEq] at hr
    obtain ⟨rfl, rfl⟩ := hr
    exact ⟨g, rfl, hs, by simp⟩
  | e :: v, s, ks, g, hk, hs, hv, ht, hsim, hbd, hg, l, r, hr => by
    rw [total_cons] at ht
    have he := hv e (by simp)
    have hlen : (s.take e.len).length = e.len := by simp; omega
    obtain ⟨i, t, e1, h1, h2, h3, h4⟩ := add_ok hk (b := s.take e.len) (fun x hx => hs x (List.mem_of_mem_take hx)) (by omega)
    rw [nameBlocks, if_neg (by omega), e1] at hr
    simp only [Except.bind] at hr
    have hne : ks ++ t ≠ [] := by intro h0; rw [h0] at h4; simp at h4
    obtain ⟨g1, a1, a2⟩ := addOn_ok hI hk hsim (b := s.take e.len) (fun x hx => hs x (List.mem_of_mem_take hx)) (by omega) (by omega) (hg.imp id (by
      intro h x hx
      rw [List.head?_take, if_neg (by omega)] at hx
      exact h x hx)) e1
    rcases hrec : nameBlocks (cs + 1) w v (s.drop e.len) ⟨mapOf (cs + 1) (ks ++ t), cs + 1 + (ks ++ t).length⟩ with er | ⟨l', r'⟩
    · rw [hrec] at hr; simp at hr
    · rw [hrec] at hr
      simp only [Except.ok.injEq, Prod.mk.injEq] at hr
      obtain ⟨rfl, rfl⟩ := hr
      have hlt : (ks ++ t).length = ks.length + t.length := List.length_append
      obtain ⟨g2, b1, b2, _⟩ := namesOn_ok hI v (s.drop e.len) (ks ++ t) g1 h1 (fun x hx => hs x (List.mem_of_mem_drop hx)) (fun b hb => hv b (by simp [hb]))
        (by simp; omega) a2 (by simp only [List.length_drop]; omega) (Or.inl hne) l' r' hrec
      refine ⟨g2, ?_, b2, ?_⟩
      · rw [nameBlocksOn, if_neg (by omega), a1]
        simp only [Except.bind, b1]
      · intro h0 x hx
        subst h0
        simp only [List.head?_cons, Option.some.injEq] at hx
        simp only [List.nil_append] at h4 h2
        rw [← hx, show cs + i - (cs + 1 - 1) = i by omega]
        exact Nat.le_trans (Nat.mod_le _ _) (by omega)

theorem roundOn_eq (hI : IpdOk strict I) {n : Nat} {text : List UInt8} (hn : n ≤ 2 ^ 32) :
    ∀ (fuel d cs : Nat) (str : List Nat) (rules : List (Nat × Nat)) (prev : Nat), RInv n d text cs str rules prev → (∀ x, str.head? = some x → x ≤ 255) →
      roundLoopOn I fuel cs str rules (256 + rules.length) prev = roundLoop id fuel cs str rules (256 + rules.length) prev
  | 0, _, _, _, _, _, _, _ => rfl
  | fuel + 1, d, cs, str, rules, prev, h, hh => by
    match hstr : str with
    | [] => rfl
    | [x] => rfl
    | a :: b :: str' =>
      rw [← hstr] at h hh ⊢
      have hlen : 2 ≤ str.length := by rw [hstr]; simp
      obtain ⟨bs, v, e1, e2, e3, e4⟩ := blocks_ok h.alph hlen h.syms
      obtain ⟨names, t, bl, g1, g2, g3, g3', g4, g5, g6, g7⟩ := names_ok (cs := cs) (w := bitsFor (str.length - 1)) v str [] ⟨List.nodup_nil, by simp, by simp⟩ h.syms e4 e3
      simp only [List.nil_append] at g1 g2 g5 g6
      have hmod : names.map (· % 2 ^ bitsFor (str.length - 1)) = names := by
        conv => rhs; rw [← List.map_id names]
        apply List.map_congr_left
        intro i hi
        have := g6 i hi
        have hsz := h.size
        exact bitsFor_bound (by omega) (by omega)
      rw [hmod] at g1
      have hsz := h.size
      have hal := h.alph
      obtain ⟨g', q1, q2, q3⟩ := namesOn_ok hI v str [] (⟨I.new, cs + 1⟩ : RulesOn I) ⟨List.nodup_nil, by simp, by simp⟩ h.syms e4 e3 ⟨hI.new, rfl⟩
        (by simp only [List.length_nil]; omega) (Or.inr hh) _ _ g1
      have hstore := store_eq (cs := cs) (prev := prev) (ks := t) (rules := rules) (m := mapOf (cs + 1) t) (fun e => Iff.rfl)
      have hstore' := store_eq (cs := cs) (prev := prev) (ks := t) (rules := rules) (m := I.forAll g'.map) (fun e => (hI.forAll q2.map).mem_iff)
      have hcnt : g'.counter = cs + 1 + t.length := q2.counter
      have g1' : nameBlocks (cs + 1) (bitsFor (str.length - 1)) v str ⟨[], cs + 1⟩ = .ok (names, ⟨mapOf (cs + 1) t, cs + 1 + t.length⟩) := g1
      have hrl : roundLoop id (fuel + 1) cs str rules (256 + rules.length) prev =
          roundLoop id fuel t.length names (rules ++ t.map (shift prev)) (256 + (rules ++ t.map (shift prev)).length) (256 + rules.length) := by
        rw [hstr, roundLoop]
        · rw [← hstr]
          simp only [e1, e2, Except.bind, g1', show cs + 1 + t.length - (cs + 1) = t.length by omega, hstore, id]
          rw [List.length_append, List.length_map, ← Nat.add_assoc]
        · simp
        · simp
      have hrl' : roundLoopOn I (fuel + 1) cs str rules (256 + rules.length) prev =
          roundLoopOn I fuel t.length names (rules ++ t.map (shift prev)) (256 + (rules ++ t.map (shift prev)).length) (256 + rules.length) := by
        rw [hstr, roundLoopOn]
        · rw [← hstr]
          simp only [e1, e2, Except.bind, q1, hcnt, show cs + 1 + t.length - (cs + 1) = t.length by omega, hstore']
          rw [List.length_append, List.length_map, ← Nat.add_assoc]
        · simp
        · simp
      have hinv : RInv n (d + 2) text t.length names (rules ++ t.map (shift prev)) (256 + rules.length) := by
        refine ⟨by omega, by simp; omega, g6, ?_, Ordered.append h.pre h.ordered g2, ?_, ?_, ?_⟩
        · have hc := h.cover
          rw [← g4] at hc
          exact names_cover h.pre g5 hc
        · rw [List.nodup_append]
          refine ⟨h.nodup, ?_, ?_⟩
          · refine List.Nodup.map ?_ g2.nodup
            rintro ⟨a1, a2⟩ ⟨b1, b2⟩ hab
            simp only [shift, Prod.mk.injEq] at hab ⊢
            omega
          · rintro x hx y hy rfl
            obtain ⟨k, _, rfl⟩ := List.mem_map.1 hy
            have := h.old _ hx
            simp only [shift] at this
            omega
        · intro k hk
          have hp := h.pre
          rcases List.mem_append.1 hk with hk | hk
          · have := h.old k hk; omega
          · obtain ⟨k', hk', rfl⟩ := List.mem_map.1 hk
            obtain ⟨i, hi⟩ := List.getElem?_of_mem hk'
            have := g2.snd i k' hi
            simp only [shift]; omega
        · simp only [List.length_append, List.length_map]; omega
      rw [hrl, hrl']
      exact roundOn_eq hI hn fuel (d + 2) t.length names _ _ hinv (q3 rfl)

theorem generateOn_eq (hI : IpdOk strict I) (text : List UInt8) (hn : text.length ≤ 2 ^ 32) : generateOn I text = generate id text := by
  unfold generateOn generate
  have hc : Covers [] 0 ((text.map UInt8.toNat).map (· + 0)) text := by
    have := Covers.bytes [] text
    rw [show (text.map UInt8.toNat).map (· + 0) = text.map UInt8.toNat from List.map_id _]
    exact this
  have hsy : ∀ x ∈ text.map UInt8.toNat, x < 256 := by
    intro x hx
    obtain ⟨c, _, rfl⟩ := List.mem_map.1 hx
    exact c.toNat_lt
  exact roundOn_eq hI hn (text.length + 1) 0 256 (text.map UInt8.toNat) [] 0
    ⟨by omega, by simp, hsy, hc, by intro i l r h; simp at h, List.nodup_nil, by simp, by simp⟩
    (by
      intro x hx
      have := hsy x (List.mem_of_mem_head? hx)
      omega)

end Tdc.Esp
