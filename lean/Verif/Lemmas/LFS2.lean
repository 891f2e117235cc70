import Verif.Model.LFS2
import Verif.Lemmas.LFSRules

namespace Tdc
namespace Lfs2

open Arith (bind_ok)
open Lfs

variable {c1 c2 : UCoder}

/-- the symbol `m` may stand at position `x` of a block that ends at `stop` -/
def At (T : List UInt8) (dict : List (Nat × Nat)) (P : Nat → Prop) (stop x m : Nat) : Prop :=
  ∃ b l, dict[m - 1]? = some (b, l) ∧ 0 < l ∧ x + l ≤ stop ∧ sub T b l = sub T x l ∧ P m

/-- the calls for the positions from `pos` to `stop` -/
inductive Blk (T : List UInt8) (dict : List (Nat × Nat)) (P : Nat → Prop) (stop : Nat) : Nat → List Tok → Prop
  | done : Blk T dict P stop stop []
  | char {pos c ts} : pos < stop → T[pos]? = some c → Blk T dict P stop (pos + 1) ts →
      Blk T dict P stop pos (.lit .bit 0 :: .lit .literal c.toNat :: ts)
  | sym {pos m b l ts} : 0 < m → dict[m - 1]? = some (b, l) → 0 < l → pos + l ≤ stop → sub T b l = sub T pos l → P m → Blk T dict P stop (pos + l) ts →
      Blk T dict P stop pos (.lit .bit 1 :: .lit (.range 0 dict.length) m :: ts)

theorem blockToks_ok {T : List UInt8} {dict : List (Nat × Nat)} {layer : List Nat} {P : Nat → Prop} {stop : Nat} (hs : stop ≤ T.length) :
    ∀ (fuel pos : Nat), (∀ x, pos ≤ x → x < stop → ∃ m, layer[x]? = some m ∧ (0 < m → At T dict P stop x m)) → pos ≤ stop → stop ≤ pos + fuel →
      ∃ ts, blockToks T dict layer stop fuel pos = .ok ts ∧ Blk T dict P stop pos ts
  | 0, pos, _, h1, h2 => by
    have : pos = stop := by omega
    subst this
    exact ⟨[], by rw [blockToks, if_neg (by omega)], .done⟩
  | fuel + 1, pos, h, h1, h2 => by
    rw [blockToks]
    split
    · next hp =>
      obtain ⟨m, hm, ha⟩ := h pos (Nat.le_refl _) hp
      rw [vget_ok hm, bind_ok]
      split
      · next hm0 =>
        obtain ⟨b, l, a1, a2, a3, a4, a5⟩ := ha hm0
        obtain ⟨ts, e1, e2⟩ := blockToks_ok hs fuel (pos + l) (fun x hx hx' => h x (by omega) hx') a3 (by omega)
        rw [vget_ok a1, bind_ok, e1, bind_ok]
        exact ⟨_, rfl, .sym hm0 a1 a2 a3 a4 a5 e2⟩
      · have hc : T[pos]? = some T[pos] := List.getElem?_eq_getElem (by omega)
        obtain ⟨ts, e1, e2⟩ := blockToks_ok hs fuel (pos + 1) (fun x hx hx' => h x (by omega) hx') (by omega) (by omega)
        rw [vget_ok hc, bind_ok, e1, bind_ok]
        exact ⟨_, rfl, .char hp hc e2⟩
    · have : pos = stop := by omega
      subst this
      exact ⟨[], rfl, .done⟩

theorem Blk.le {T : List UInt8} {dict : List (Nat × Nat)} {P : Nat → Prop} {stop pos : Nat} {ts : List Tok} (h : Blk T dict P stop pos ts) : pos ≤ stop := by
  induction h with
  | done => exact Nat.le_refl _
  | char h _ _ _ => omega
  | sym _ _ _ h _ _ _ _ => omega

/-- The calls are characters of the text that are not covered by a symbol, or symbols. -/
theorem Blk.mem {T : List UInt8} {dict : List (Nat × Nat)} {P : Nat → Prop} {stop pos : Nat} {ts : List Tok} (h : Blk T dict P stop pos ts) :
    ∀ t ∈ ts, t = .lit .bit 0 ∨ t = .lit .bit 1 ∨ (∃ c : UInt8, t = .lit .literal c.toNat) ∨ ∃ n, n ≤ dict.length ∧ t = .lit (.range 0 dict.length) n := by
  induction h with
  | done => simp
  | @char pos c ts _ _ _ ih =>
    intro t ht
    rw [List.mem_cons, List.mem_cons] at ht
    rcases ht with ht | ht | ht
    · exact Or.inl ht
    · exact Or.inr (Or.inr (Or.inl ⟨c, ht⟩))
    · exact ih t ht
  | @sym pos m b l ts h0 hd _ _ _ _ _ ih =>
    intro t ht
    rw [List.mem_cons, List.mem_cons] at ht
    rcases ht with ht | ht | ht
    · exact Or.inr (Or.inl ht)
    · exact Or.inr (Or.inr (Or.inr ⟨m, by have := (List.getElem?_eq_some_iff.1 hd).1; omega, ht⟩))
    · exact ih t ht

/-- the literals written by `blockToks` are at positions without a symbol -/
theorem blockToks_lit {T : List UInt8} {dict : List (Nat × Nat)} {layer : List Nat} {stop : Nat} : ∀ (fuel pos : Nat) {ts : List Tok},
    blockToks T dict layer stop fuel pos = .ok ts → ∀ v, Tok.lit .literal v ∈ ts →
      ∃ (x : Nat) (c : UInt8), pos ≤ x ∧ x < stop ∧ layer[x]? = some 0 ∧ T[x]? = some c ∧ v = c.toNat
  | 0, pos, ts, h, v, hv => by
    rw [blockToks] at h
    split at h
    · cases h
    · cases h
      cases hv
  | fuel + 1, pos, ts, h, v, hv => by
    rw [blockToks] at h
    split at h
    · next hp =>
      cases hl : layer[pos]? with
      | none => rw [vget, hl] at h; cases h
      | some m =>
        rw [vget_ok hl, bind_ok] at h
        split at h
        · next hm =>
          cases hd : dict[m - 1]? with
          | none => rw [vget, hd] at h; cases h
          | some r =>
            rw [vget_ok hd, bind_ok] at h
            cases hb : blockToks T dict layer stop fuel (pos + r.2) with
            | error e => rw [hb] at h; cases h
            | ok ts' =>
              rw [hb, bind_ok] at h
              cases h
              rw [List.mem_cons, List.mem_cons] at hv
              rcases hv with hv | hv | hv
              · cases hv
              · cases hv
              · obtain ⟨x, c, a, b⟩ := blockToks_lit fuel _ hb v hv
                exact ⟨x, c, by omega, b⟩
        · next hm =>
          cases hc : T[pos]? with
          | none => rw [vget, hc] at h; cases h
          | some c =>
            rw [vget_ok hc, bind_ok] at h
            cases hb : blockToks T dict layer stop fuel (pos + 1) with
            | error e => rw [hb] at h; cases h
            | ok ts' =>
              rw [hb, bind_ok] at h
              cases h
              rw [List.mem_cons, List.mem_cons] at hv
              rcases hv with hv | hv | hv
              · cases hv
              · cases hv
                exact ⟨pos, c, Nat.le_refl _, hp, by rw [hl]; congr 1; omega, hc, rfl⟩
              · obtain ⟨x, d, a, b⟩ := blockToks_lit fuel _ hb v hv
                exact ⟨x, d, by omega, b⟩
    · cases h
      cases hv

/-! ## decoding a block -/

/-- the strings known when a block is decoded -/
def Known (T : List UInt8) (dict : List (Nat × Nat)) (P : Nat → Prop) (D : List (List UInt8)) : Prop :=
  D.length = dict.length ∧ ∀ m b l, 0 < m → P m → dict[m - 1]? = some (b, l) → D[m - 1]? = some (sub T b l)

theorem sub_split {T : List UInt8} {pos l stop : Nat} (h : pos + l ≤ stop) : sub T pos (stop - pos) = sub T pos l ++ sub T (pos + l) (stop - (pos + l)) := by
  rw [← sub_add]
  congr 1
  omega

theorem sym_num {dict : List (Nat × Nat)} {m : Nat} {r : Nat × Nat} (hk : dict.length < 2 ^ 32) (h0 : 0 < m) (hd : dict[m - 1]? = some r) :
    sub32 (u32 m) 1 = m - 1 ∧ m - 1 < dict.length := by
  have := (List.getElem?_eq_some_iff.1 hd).1
  rw [u32_eq (by omega), sub32_eq (by omega) (by omega)]
  exact ⟨rfl, this⟩

theorem decRule_eq {T : List UInt8} {dict : List (Nat × Nat)} {P : Nat → Prop} {stop : Nat} {D : List (List UInt8)} (hk : dict.length < 2 ^ 32)
    (hD : Known T dict P D) {pos : Nat} {ts : List Tok} (h : Blk T dict P stop pos ts) : ∀ (fuel : Nat) (bs : List Bool), (∀ t ∈ ts, Good c1 c2 t) →
      ts.length < fuel → decRule c2.dec (dict.map (·.2)) D fuel (stop - pos) (encs c1 c2 ts ++ bs) = .ok (sub T pos (stop - pos), bs) := by
  induction h with
  | done =>
    intro fuel bs _ hf
    cases fuel with
    | zero => simp at hf
    | succ fuel => rw [decRule, if_neg (by omega)]; simp [encs_nil, sub]
  | @char pos c ts hp hc _ ih =>
    intro fuel bs hg hf
    cases fuel with
    | zero => simp at hf
    | succ fuel =>
      simp only [List.length_cons] at hf
      have g1 := hg _ (List.mem_cons_self ..)
      have g2 := hg _ (List.mem_cons_of_mem _ (List.mem_cons_self ..))
      rw [decRule, if_pos (by omega), encs_cons, encs_cons, List.append_assoc, List.append_assoc, dec_lit g1, bind_ok, if_pos rfl, dec_lit g2, bind_ok,
        show stop - pos - 1 = stop - (pos + 1) by omega, ih fuel bs (fun t ht => hg t (by simp [ht])) (by omega), bind_ok,
        show stop - pos = (stop - (pos + 1)) + 1 by omega, sub_succ hc]
      simp
  | @sym pos m b l ts h0 hd hl hs he hP _ ih =>
    intro fuel bs hg hf
    cases fuel with
    | zero => simp at hf
    | succ fuel =>
      simp only [List.length_cons] at hf
      have g1 := hg _ (List.mem_cons_self ..)
      have g2 := hg _ (List.mem_cons_of_mem _ (List.mem_cons_self ..))
      obtain ⟨n1, n2⟩ := sym_num hk h0 hd
      rw [decRule, if_pos (by omega), encs_cons, encs_cons, List.append_assoc, List.append_assoc, dec_lit g1, bind_ok, if_neg (show ¬ (1 : Nat) = 0 by decide),
        List.length_map, dec_lit g2, bind_ok]
      simp only [n1]
      rw [if_pos (by rw [hD.1]; exact n2), vget_ok (hD.2 m b l h0 hP hd), bind_ok, vget_ok (show (dict.map (·.2))[m - 1]? = some l by rw [List.getElem?_map, hd]; rfl),
        bind_ok, show stop - pos - l = stop - (pos + l) by omega, ih fuel bs (fun t ht => hg t (by simp [ht])) (by omega), bind_ok, he, ← sub_split hs]

theorem decText2_eq {T : List UInt8} {dict : List (Nat × Nat)} {P : Nat → Prop} {stop : Nat} {D : List (List UInt8)} (hk : dict.length < 2 ^ 32)
    (hD : Known T dict P D) {pos : Nat} {ts : List Tok} (h : Blk T dict P stop pos ts) : ∀ (fuel : Nat), (∀ t ∈ ts, Good c1 c2 t) →
      ts.length < fuel → decText2 c2.dec D fuel (encs c1 c2 ts) = .ok (sub T pos (stop - pos)) := by
  induction h with
  | done =>
    intro fuel _ hf
    cases fuel with
    | zero => simp at hf
    | succ fuel => rw [decText2, if_pos (by rfl)]; simp [sub]
  | @char pos c ts hp hc _ ih =>
    intro fuel hg hf
    cases fuel with
    | zero => simp at hf
    | succ fuel =>
      simp only [List.length_cons] at hf
      have g1 := hg _ (List.mem_cons_self ..)
      have g2 := hg _ (List.mem_cons_of_mem _ (List.mem_cons_self ..))
      rw [encs_cons, encs_cons, decText2, if_neg (by rw [Good.isEmpty g1]; decide), dec_lit g1, bind_ok, if_pos rfl, dec_lit g2, bind_ok,
        ih fuel (fun t ht => hg t (by simp [ht])) (by omega), bind_ok, show stop - pos = (stop - (pos + 1)) + 1 by omega, sub_succ hc]
      simp
  | @sym pos m b l ts h0 hd hl hs he hP _ ih =>
    intro fuel hg hf
    cases fuel with
    | zero => simp at hf
    | succ fuel =>
      simp only [List.length_cons] at hf
      have g1 := hg _ (List.mem_cons_self ..)
      have g2 := hg _ (List.mem_cons_of_mem _ (List.mem_cons_self ..))
      obtain ⟨n1, n2⟩ := sym_num hk h0 hd
      rw [encs_cons, encs_cons, decText2, if_neg (by rw [Good.isEmpty g1]; decide), dec_lit g1, bind_ok, if_neg (show ¬ (1 : Nat) = 0 by decide), hD.1,
        dec_lit g2, bind_ok, n1, ih fuel (fun t ht => hg t (by simp [ht])) (by omega), bind_ok, List.getD_eq_getElem?_getD, hD.2 m b l h0 hP hd,
        Option.getD_some, he, ← sub_split hs]

/-! ## the grammar -/

/-- the invariant: all rules have at least `len` characters -/
structure Inv (T : List UInt8) (len : Nat) (g : G) : Prop where
  offLen : g.off.length = T.length
  firstLen : g.first.length = T.length
  secondLen : g.second.length = T.length
  sdeadLen : g.sdead.length = T.length
  rule : ∀ r ∈ g.dict, len ≤ r.2 ∧ 0 < r.2 ∧ r.1 + r.2 ≤ T.length
  desc : g.dict.Pairwise fun a b => b.2 ≤ a.2
  fst : ∀ x m : Nat, g.first[x]? = some m → 0 < m → ∃ b l, g.dict[m - 1]? = some (b, l) ∧ 0 < l ∧ x + l ≤ T.length ∧ sub T b l = sub T x l ∧
    ∀ j, j < l → g.off[x + j]? = some (j + 1)
  off : ∀ x o : Nat, g.off[x]? = some o → 0 < o → o ≤ x + 1 ∧ ∃ m, 0 < m ∧ g.first[x + 1 - o]? = some m ∧ ∃ b l, g.dict[m - 1]? = some (b, l) ∧ o ≤ l
  rep : ∀ k b l : Nat, g.dict[k]? = some (b, l) → g.first[b]? = some (k + 1)
  snd : ∀ x m : Nat, g.second[x]? = some m → 0 < m → ∃ k b l c l', g.dict[k]? = some (b, l) ∧ g.dict[m - 1]? = some (c, l') ∧ k + 1 < m ∧ 0 < l' ∧ b ≤ x ∧
    x + l' ≤ b + l ∧ sub T c l' = sub T x l'
  sdead : ∀ x m c l' : Nat, g.second[x]? = some m → 0 < m → g.dict[m - 1]? = some (c, l') → ∀ j, j < l' → g.sdead[x + j]? = some true
  sdisj : ∀ x m c l' y m' : Nat, g.second[x]? = some m → 0 < m → g.dict[m - 1]? = some (c, l') → g.second[y]? = some m' → 0 < m' → x < y → x + l' ≤ y

variable {T : List UInt8} {len : Nat} {g : G}

/-- the representatives of two rules do not overlap -/
theorem Inv.reps (h : Inv T len g) {k k' b l b' l' x : Nat} (hk : g.dict[k]? = some (b, l)) (hk' : g.dict[k']? = some (b', l')) (h1 : b ≤ x) (h2 : x < b + l)
    (h3 : b' ≤ x) (h4 : x < b' + l') : k = k' := by
  have r1 := h.rep k b l hk
  have r2 := h.rep k' b' l' hk'
  obtain ⟨c, m, d1, -, -, -, d2⟩ := h.fst b (k + 1) r1 (by omega)
  obtain ⟨c', m', e1, -, -, -, e2⟩ := h.fst b' (k' + 1) r2 (by omega)
  rw [Nat.add_sub_cancel, hk] at d1
  rw [Nat.add_sub_cancel, hk'] at e1
  cases d1
  cases e1
  have a := d2 (x - b) (by omega)
  have a' := e2 (x - b') (by omega)
  rw [show b + (x - b) = x by omega] at a
  rw [show b' + (x - b') = x by omega, a] at a'
  have : x - b + 1 = x - b' + 1 := by simpa using a'
  have hb : b = b' := by omega
  subst hb
  rw [r1] at r2
  simpa using r2

theorem Inv.inner (h : Inv T len g) {k b l : Nat} (hk : g.dict[k]? = some (b, l)) : ∀ x, b ≤ x → x < b + l →
    ∃ m, g.second[x]? = some m ∧ (0 < m → At T g.dict (fun m => k + 1 < m) (b + l) x m) := by
  intro x h1 h2
  have hr := (h.rule (b, l) (List.mem_of_getElem? hk)).2.2
  simp only at hr
  refine ⟨_, List.getElem?_eq_getElem (by rw [h.secondLen]; omega), fun hm => ?_⟩
  obtain ⟨k', b', l', c, lc, a1, a2, a3, a4, a5, a6, a7⟩ := h.snd x _ (List.getElem?_eq_getElem (by rw [h.secondLen]; omega)) hm
  have e := h.reps hk a1 h1 h2 a5 (by omega)
  subst e
  rw [hk] at a1
  cases a1
  exact ⟨c, lc, a2, a4, a6, a7, a3⟩

theorem Inv.outer (h : Inv T len g) : ∀ x, x < T.length → ∃ m, g.first[x]? = some m ∧ (0 < m → At T g.dict (fun _ => True) T.length x m) := by
  intro x hx
  refine ⟨_, List.getElem?_eq_getElem (by rw [h.firstLen]; omega), fun hm => ?_⟩
  obtain ⟨b, l, a1, a2, a3, a4, -⟩ := h.fst x _ (List.getElem?_eq_getElem (by rw [h.firstLen]; omega)) hm
  exact ⟨b, l, a1, a2, a3, a4, trivial⟩

/-- the start symbol writes only characters outside of the first layer -/
theorem Inv.start_lit (h : Inv T len g) : ∀ (fuel pos : Nat) {ts : List Tok}, (∀ o : Nat, g.off[pos]? = some o → o ≤ 1) →
    blockToks T g.dict g.first T.length fuel pos = .ok ts → ∀ v, Tok.lit .literal v ∈ ts → ∃ (x : Nat) (c : UInt8), g.off[x]? = some 0 ∧ T[x]? = some c ∧ v = c.toNat
  | 0, pos, ts, _, hb, v, hv => by
    rw [blockToks] at hb
    split at hb
    · cases hb
    · cases hb
      cases hv
  | fuel + 1, pos, ts, hp, hb, v, hv => by
    rw [blockToks] at hb
    split at hb
    · next hlt =>
      have hfl : pos < g.first.length := by rw [h.firstLen]; exact hlt
      have hol : pos < g.off.length := by rw [h.offLen]; exact hlt
      have hf : g.first[pos]? = some g.first[pos] := List.getElem?_eq_getElem (by rw [h.firstLen]; exact hlt)
      have ho : g.off[pos]? = some g.off[pos] := List.getElem?_eq_getElem (by rw [h.offLen]; exact hlt)
      rw [vget_ok hf, bind_ok] at hb
      split at hb
      · next hm =>
        obtain ⟨b, l, d1, d2, d3, -, d4⟩ := h.fst pos _ hf hm
        rw [vget_ok d1, bind_ok] at hb
        cases hb' : blockToks T g.dict g.first T.length fuel (pos + l) with
        | error e => rw [hb'] at hb; cases hb
        | ok ts' =>
          rw [hb', bind_ok] at hb
          cases hb
          rw [List.mem_cons, List.mem_cons] at hv
          rcases hv with hv | hv | hv
          · cases hv
          · cases hv
          · refine h.start_lit fuel (pos + l) (fun o ho' => ?_) hb' v hv
            rcases Nat.lt_or_ge 1 o with h1 | h1
            · exfalso
              obtain ⟨q1, m', q2, q3, b', l', q4, q5⟩ := h.off _ o ho' (by omega)
              obtain ⟨b'', l'', p1, p2, p3, -, p4⟩ := h.fst _ m' q3 q2
              rw [q4] at p1
              cases p1
              have e1 := p4 (o - 2) (by omega)
              have e2 := d4 (l - 1) (by omega)
              rw [show pos + l + 1 - o + (o - 2) = pos + (l - 1) by omega, e2] at e1
              have e3 : l - 1 + 1 = o - 2 + 1 := by simpa using e1
              have e4 : pos + l + 1 - o = pos := by omega
              rw [e4, hf] at q3
              have e5 : g.first[pos] = m' := by simpa using q3
              rw [e5, q4] at d1
              cases d1
              omega
            · exact h1
      · next hm =>
        have hc : T[pos]? = some T[pos] := List.getElem?_eq_getElem hlt
        have h0 : g.off[pos] = 0 := by
          have := hp _ ho
          rcases Nat.eq_zero_or_pos g.off[pos] with hz | hz
          · exact hz
          · exfalso
            obtain ⟨-, m', q2, q3, -⟩ := h.off pos _ ho hz
            rw [show pos + 1 - g.off[pos] = pos by omega, hf] at q3
            have e5 : g.first[pos] = m' := by simpa using q3
            omega
        rw [vget_ok hc, bind_ok] at hb
        cases hb' : blockToks T g.dict g.first T.length fuel (pos + 1) with
        | error e => rw [hb'] at hb; cases hb
        | ok ts' =>
          rw [hb', bind_ok] at hb
          cases hb
          rw [List.mem_cons, List.mem_cons] at hv
          rcases hv with hv | hv | hv
          · cases hv
          · cases hv
            exact ⟨pos, _, by rw [ho, h0], hc, rfl⟩
          · refine h.start_lit fuel (pos + 1) (fun o ho' => ?_) hb' v hv
            rcases Nat.lt_or_ge 1 o with h1 | h1
            · exfalso
              obtain ⟨q1, m', q2, q3, b', l', q4, q5⟩ := h.off _ o ho' (by omega)
              obtain ⟨b'', l'', p1, p2, p3, -, p4⟩ := h.fst _ m' q3 q2
              rw [q4] at p1
              cases p1
              have e1 := p4 (o - 2) (by omega)
              rw [show pos + 1 + 1 - o + (o - 2) = pos by omega, ho] at e1
              have e3 : g.off[pos] = o - 2 + 1 := by simpa using e1
              omega
            · exact h1
    · cases hb
      cases hv

/-! ## the announced literals -/

theorem litsAt_ok {flag : List Nat} : ∀ (k pos : Nat), pos + k ≤ flag.length → ∃ ls, litsAt T flag k pos = .ok ls ∧ (∀ c ∈ ls, c ∈ T) ∧
    (∀ (x : Nat) (c : UInt8), pos ≤ x → x < pos + k → flag[x]? = some 0 → T[x]? = some c → c ∈ ls) ∧
    ls.length ≤ ((List.range' pos k).filter fun x => flag[x]? = some 0).length
  | 0, pos, _ => ⟨[], rfl, by simp, fun x c h1 h2 => by omega, Nat.zero_le _⟩
  | k + 1, pos, h => by
    obtain ⟨ls, e1, e2, e3, e4⟩ := litsAt_ok (flag := flag) k (pos + 1) (by omega)
    have hf : flag[pos]? = some flag[pos] := List.getElem?_eq_getElem (by omega)
    rw [litsAt, vget_ok hf, bind_ok, e1]
    split
    · next hc =>
      have hT : T[pos]? = some T[pos] := List.getElem?_eq_getElem hc.2
      rw [vget_ok hT, bind_ok, bind_ok]
      refine ⟨_, rfl, fun c hm => ?_, fun x c h1 h2 h3 h4 => ?_, ?_⟩
      · rcases List.mem_cons.1 hm with rfl | hm
        · exact List.getElem_mem _
        · exact e2 c hm
      · rcases Nat.eq_or_lt_of_le h1 with rfl | h1
        · rw [hT] at h4
          cases h4
          exact List.mem_cons_self ..
        · exact List.mem_cons_of_mem _ (e3 x c h1 (by omega) h3 h4)
      · rw [List.range'_succ, List.filter_cons_of_pos (by rw [hf, hc.1]; simp), List.length_cons, List.length_cons]
        omega
    · next hc =>
      refine ⟨ls, rfl, e2, fun x c h1 h2 h3 h4 => ?_, Nat.le_trans e4 ?_⟩
      · rcases Nat.eq_or_lt_of_le h1 with rfl | h1
        · rw [hf] at h3
          have := (List.getElem?_eq_some_iff.1 h4).1
          exact absurd ⟨by simpa using h3, this⟩ hc
        · exact e3 x c h1 (by omega) h3 h4
      · rw [List.range'_succ]
        exact (List.Sublist.filter _ (List.sublist_cons_self ..)).length_le

theorem ruleLits_ok {second : List Nat} : ∀ (rs : List (Nat × Nat)), (∀ r ∈ rs, r.1 + r.2 ≤ second.length) → ∃ ls, ruleLits T second rs = .ok ls ∧ (∀ c ∈ ls, c ∈ T) ∧
    (∀ r ∈ rs, ∀ (x : Nat) (c : UInt8), r.1 ≤ x → x < r.1 + r.2 → second[x]? = some 0 → T[x]? = some c → c ∈ ls) ∧
    ls.length ≤ (rs.flatMap fun r => List.range' r.1 r.2).length
  | [], _ => ⟨[], rfl, by simp, by simp, Nat.zero_le _⟩
  | r :: rs, h => by
    obtain ⟨a, a1, a2, a3, a4⟩ := litsAt_ok (T := T) (flag := second) r.2 r.1 (h r (List.mem_cons_self ..))
    obtain ⟨b, b1, b2, b3, b4⟩ := ruleLits_ok rs fun q hq => h q (List.mem_cons_of_mem _ hq)
    rw [ruleLits, a1, bind_ok, b1, bind_ok]
    refine ⟨_, rfl, fun c hc => ?_, fun q hq x c h1 h2 h3 h4 => ?_, ?_⟩
    · rcases List.mem_append.1 hc with hc | hc
      · exact a2 c hc
      · exact b2 c hc
    · rcases List.mem_cons.1 hq with rfl | hq
      · exact List.mem_append_left _ (a3 x c h1 h2 h3 h4)
      · exact List.mem_append_right _ (b3 q hq x c h1 h2 h3 h4)
    · rw [List.flatMap_cons, List.length_append, List.length_append]
      have := List.length_filter_le (fun x => decide (second[x]? = some 0)) (List.range' r.1 r.2)
      omega

theorem nodup_subset_length {l : List Nat} {n : Nat} (h : l.Nodup) (hs : ∀ x ∈ l, x < n) : l.length ≤ n := by
  have := (h.subperm (l₂ := List.range n) fun x hx => List.mem_range.2 (hs x hx)).length_le
  rwa [List.length_range] at this

theorem Inv.disjoint (h : Inv T len g) : g.dict.Pairwise fun a b => ∀ x, ¬ (x ∈ List.range' a.1 a.2 ∧ x ∈ List.range' b.1 b.2) := by
  rw [List.pairwise_iff_getElem]
  intro i j hi hj hij x hx
  obtain ⟨h1, h2⟩ := hx
  rw [List.mem_range'_1] at h1 h2
  have := h.reps (k := i) (k' := j) (List.getElem?_eq_getElem hi) (List.getElem?_eq_getElem hj) h1.1 h1.2 h2.1 h2.2
  omega

/-- at most as many literals are announced as the text has characters -/
theorem Inv.lits_length (h : Inv T len g) :
    ((List.range' 0 T.length).filter fun x => g.off[x]? = some 0).length + (g.dict.flatMap fun r => List.range' r.1 r.2).length ≤ T.length := by
  rw [← List.length_append]
  apply nodup_subset_length
  · rw [List.nodup_append]
    refine ⟨List.Nodup.filter _ List.nodup_range', ?_, ?_⟩
    · rw [List.nodup_flatMap]
      refine ⟨fun r _ => List.nodup_range', h.disjoint.imp fun hd => ?_⟩
      intro x hx hy
      exact hd x ⟨hx, hy⟩
    · intro x hx y hy hxy
      subst hxy
      rw [List.mem_filter] at hx
      obtain ⟨r, hr, hm⟩ := List.mem_flatMap.1 hy
      rw [List.mem_range'_1] at hm
      obtain ⟨k, hk⟩ := List.mem_iff_getElem?.1 hr
      obtain ⟨b, l, d1, -, -, -, d2⟩ := h.fst _ _ (h.rep k r.1 r.2 hk) (by omega)
      rw [Nat.add_sub_cancel, hk] at d1
      have e1 : r.1 = b := congrArg (·.1) (Option.some.inj d1)
      have e2 : r.2 = l := congrArg (·.2) (Option.some.inj d1)
      have := d2 (x - r.1) (by omega)
      rw [show r.1 + (x - r.1) = x by omega] at this
      rw [this] at hx
      simp at hx
  · intro x hx
    rcases List.mem_append.1 hx with hx | hx
    · rw [List.mem_filter, List.mem_range'_1] at hx
      omega
    · obtain ⟨r, hr, hm⟩ := List.mem_flatMap.1 hx
      rw [List.mem_range'_1] at hm
      have := (h.rule r hr).2.2
      omega

theorem Inv.count (h : Inv T len g) : g.dict.length ≤ T.length := by
  have hl := h.lits_length
  have : ∀ d : List (Nat × Nat), (∀ r ∈ d, 0 < r.2) → d.length ≤ (d.flatMap fun r => List.range' r.1 r.2).length := by
    intro d hd
    induction d with
    | nil => exact Nat.zero_le _
    | cons r d ih =>
      rw [List.flatMap_cons, List.length_append, List.length_range', List.length_cons]
      have := hd r (List.mem_cons_self ..)
      have := ih fun q hq => hd q (List.mem_cons_of_mem _ hq)
      omega
  have := this g.dict fun r hr => (h.rule r hr).2.1
  omega

/-! ## the rules -/

/-- the calls for the rules in order, each with what may stand in it -/
inductive Rules (T : List UInt8) (dict : List (Nat × Nat)) : Nat → List Tok → Prop
  | nil : Rules T dict 0 []
  | cons {i b l ts us} : dict[i]? = some (b, l) → Blk T dict (fun m => i + 1 < m) (b + l) b ts → Rules T dict i us → Rules T dict (i + 1) (ts ++ us)

theorem dictToks2_ok (h : Inv T len g) : ∀ (i : Nat), i ≤ g.dict.length → ∃ ts, dictToks2 T g.dict g.second (g.dict.take i).reverse = .ok ts ∧ Rules T g.dict i ts ∧
    ∀ v, Tok.lit .literal v ∈ ts → ∃ r ∈ g.dict, ∃ (x : Nat) (c : UInt8), r.1 ≤ x ∧ x < r.1 + r.2 ∧ g.second[x]? = some 0 ∧ T[x]? = some c ∧ v = c.toNat
  | 0, _ => ⟨[], rfl, .nil, by simp⟩
  | i + 1, hi => by
    obtain ⟨us, e1, e2, e3⟩ := dictToks2_ok h i (by omega)
    have hk : g.dict[i]? = some g.dict[i] := List.getElem?_eq_getElem (by omega)
    obtain ⟨-, r1, r2⟩ := h.rule _ (List.getElem_mem (show i < g.dict.length by omega))
    obtain ⟨ts, f1, f2⟩ := blockToks_ok (T := T) (dict := g.dict) (layer := g.second) (P := fun m => i + 1 < m) (stop := g.dict[i].1 + g.dict[i].2) r2 g.dict[i].2 g.dict[i].1
      (h.inner hk) (by omega) (by omega)
    rw [List.take_add_one, hk, Option.toList_some, List.reverse_append, List.reverse_singleton, List.singleton_append, dictToks2, f1, bind_ok, e1, bind_ok]
    refine ⟨_, rfl, .cons hk f2 e2, fun v hv => ?_⟩
    rcases List.mem_append.1 hv with hv | hv
    · obtain ⟨x, c, a⟩ := blockToks_lit _ _ f1 v hv
      exact ⟨_, List.getElem_mem (show i < g.dict.length by omega), x, c, a⟩
    · exact e3 v hv

theorem Rules.mem {dict : List (Nat × Nat)} {i : Nat} {ts : List Tok} (h : Rules T dict i ts) :
    ∀ t ∈ ts, t = .lit .bit 0 ∨ t = .lit .bit 1 ∨ (∃ c : UInt8, t = .lit .literal c.toNat) ∨ ∃ n, n ≤ dict.length ∧ t = .lit (.range 0 dict.length) n := by
  induction h with
  | nil => simp
  | cons _ hb _ ih =>
    intro t ht
    rcases List.mem_append.1 ht with ht | ht
    · exact hb.mem t ht
    · exact ih t ht

theorem decRules_eq {dict : List (Nat × Nat)} (hk : dict.length < 2 ^ 32) {i : Nat} {ts : List Tok} (h : Rules T dict i ts) : ∀ (D : List (List UInt8)) (bs : List Bool),
    Known T dict (fun m => i < m) D → (∀ t ∈ ts, Good c1 c2 t) →
    ∃ D', decRules c2.dec (dict.map (·.2)) i D (encs c1 c2 ts ++ bs) = .ok (D', bs) ∧ Known T dict (fun _ => True) D' := by
  induction h with
  | nil =>
    intro D bs hD _
    exact ⟨D, rfl, hD.1, fun m b l h0 _ hd => hD.2 m b l h0 h0 hd⟩
  | @cons i b l ts us hd hb _ ih =>
    intro D bs hD hg
    have hl : (dict.map (·.2))[i]? = some l := by rw [List.getElem?_map, hd]; rfl
    have hg' : ∀ t ∈ ts, Good c1 c2 t := fun t ht => hg t (List.mem_append_left _ ht)
    have hlen := Good.length hg'
    have h1 := decRule_eq (c1 := c1) (c2 := c2) hk hD hb ((encs c1 c2 ts ++ (encs c1 c2 us ++ bs)).length + 1) (encs c1 c2 us ++ bs) hg'
      (by rw [List.length_append]; omega)
    rw [Nat.add_sub_cancel_left] at h1
    have hi := (List.getElem?_eq_some_iff.1 hd).1
    rw [decRules, vget_ok hl, bind_ok, encs_append, List.append_assoc, h1, bind_ok]
    have hv : vset D i (sub T b l) = .ok (D.set i (sub T b l)) := if_pos (by rw [hD.1]; exact hi)
    simp only [hv, bind_ok]
    refine ih _ bs ⟨by rw [List.length_set, hD.1], fun m b' l' h0 hm hd' => ?_⟩ fun t ht => hg t (List.mem_append_right _ ht)
    rcases Nat.eq_or_lt_of_le hm with e | e
    · have : m - 1 = i := by omega
      rw [this] at hd' ⊢
      rw [hd] at hd'
      cases hd'
      rw [List.getElem?_set_self (by rw [hD.1]; exact hi)]
    · rw [List.getElem?_set_ne (by omega)]
      exact hD.2 m b' l' h0 e hd'

theorem Inv.lens (h : Inv T len g) (hn : T.length < 2 ^ 32) : DictLens g.dict := by
  have hd := h.desc
  have hr := h.rule
  cases hs : g.dict with
  | nil => trivial
  | cons r rest =>
    rw [hs] at hd hr
    rw [List.pairwise_cons] at hd
    obtain ⟨-, a, b⟩ := hr r (List.mem_cons_self ..)
    exact ⟨a, by omega, desc_of_pairwise rest r.2 (fun u hu => ⟨(hr u (List.mem_cons_of_mem _ hu)).2.1, hd.1 u hu⟩) hd.2⟩

/-- for Huffman the text must not contain 255 -/
theorem litOk_of {lc : LitCoder} {ls : List UInt8} (h : LitOk lc T) (hs : ∀ c ∈ ls, c ∈ T) (hl : ls.length ≤ T.length) : LitOk lc ls := by
  cases lc with
  | plain c => exact h
  | huffman => exact ⟨by have := h.1; omega, fun hc => h.2 (hs _ hc)⟩

/-- Every grammar that satisfies the invariant is written and read back. -/
theorem Inv.lossless (h : Inv T len g) (hn : T.length < 2 ^ 32) (std : StdLib) (lc : LitCoder) (hc1 : c1.Lawful) (hlc : LitOk lc T) :
    ∃ ls ts bytes, literals T g = .ok ls ∧ encodeToks2 T g = .ok ts ∧ write std lc c1 ls ts = .ok bytes ∧ decompress lc c1 bytes = .ok T := by
  have hcount := h.count
  have hlens := h.lens hn
  obtain ⟨la, a1, a2, a3, a4⟩ := litsAt_ok (T := T) (flag := g.off) T.length 0 (by rw [h.offLen]; omega)
  obtain ⟨lb, b1, b2, b3, b4⟩ := ruleLits_ok (T := T) (second := g.second) g.dict fun r hr => by rw [h.secondLen]; exact (h.rule r hr).2.2
  have hll := h.lits_length
  obtain ⟨td, d1, d2, d3⟩ := dictToks2_ok h g.dict.length (Nat.le_refl _)
  rw [List.take_length] at d1
  obtain ⟨tS, s1, s2⟩ := blockToks_ok (T := T) (dict := g.dict) (layer := g.first) (P := fun _ => True) (stop := T.length) (Nat.le_refl _) T.length 0
    (fun x _ hx => h.outer x hx) (Nat.zero_le _) (by omega)
  have s3 := h.start_lit T.length 0 (fun o ho => by
    rcases Nat.eq_zero_or_pos o with hz | hz
    · omega
    · have := (h.off 0 o ho hz).1
      omega) s1
  have h0 : encodeToks2 T g = .ok (lenToks g.dict ++ td ++ tS) := by rw [encodeToks2, d1, bind_ok, s1, bind_ok]
  have hlit : literals T g = .ok (la ++ lb) := by rw [literals, a1, bind_ok, b1, bind_ok]
  have hrange : ∀ t, (t = Tok.lit .bit 0 ∨ t = .lit .bit 1 ∨ (∃ c : UInt8, t = .lit .literal c.toNat) ∨ ∃ n, n ≤ g.dict.length ∧ t = .lit (.range 0 g.dict.length) n) →
      InRange t := by
    rintro t (rfl | rfl | ⟨c, rfl⟩ | ⟨n, hn, rfl⟩)
    · exact bit_inRange (Nat.zero_le _)
    · exact bit_inRange (Nat.le_refl _)
    · exact lit_inRange c
    · exact ⟨Nat.zero_le _, hn, by show g.dict.length < 2 ^ 64; omega⟩
  obtain ⟨c2, bytes, w1, w2, w3⟩ := write_read (c1 := c1) std lc hc1 (la ++ lb) (lenToks g.dict ++ td ++ tS)
    (litOk_of hlc (fun c hc => by
      rcases List.mem_append.1 hc with hc | hc
      · exact a2 c hc
      · exact b2 c hc) (by rw [List.length_append]; omega)) (by
    intro t ht
    rw [List.mem_append, List.mem_append] at ht
    rcases ht with (ht | ht) | ht
    · exact lenToks_inRange hlens t ht
    · exact hrange t (d2.mem t ht)
    · exact hrange t (s2.mem t ht)) (by
    intro v hv
    rw [List.mem_append, List.mem_append] at hv
    rcases hv with (ht | ht) | ht
    · exact absurd ht (lenToks_len _ _ _)
    · obtain ⟨r, hr, x, c, q1, q2, q3, q4, q5⟩ := d3 v ht
      exact ⟨c, List.mem_append_right _ (b3 r hr x c q1 q2 q3 q4), q5⟩
    · obtain ⟨x, c, q1, q2, q3⟩ := s3 v ht
      have := (List.getElem?_eq_some_iff.1 q2).1
      exact ⟨c, List.mem_append_left _ (a3 x c (Nat.zero_le _) (by omega) q1 q2), q3⟩)
  refine ⟨_, _, bytes, hlit, h0, w1, ?_⟩
  rw [decompress, w3 (decodeBits2 c1.dec), decodeBits2]
  have hlen : tS.length ≤ (encs c1 c2 tS).length := Good.length fun t ht => w2 t (by simp [ht])
  have hfuel : tS.length < (encs c1 c2 (lenToks g.dict ++ td ++ tS)).length + 1 := by
    rw [encs_append, List.length_append]
    omega
  generalize (encs c1 c2 (lenToks g.dict ++ td ++ tS)).length + 1 = fuel at hfuel ⊢
  obtain ⟨D, e1, e2⟩ := decRules_eq (c1 := c1) (c2 := c2) (show g.dict.length < 2 ^ 32 by omega) d2 (List.replicate g.dict.length []) (encs c1 c2 tS)
    ⟨List.length_replicate .., fun m b l h0 hm hd => by have := (List.getElem?_eq_some_iff.1 hd).1; omega⟩ fun t ht => w2 t (by simp [ht])
  rw [encs_append, encs_append, List.append_assoc, decLens_eq hlens (fun t ht => w2 t (by simp [ht])), bind_ok]
  simp only [List.length_map]
  rw [e1, bind_ok, decText2_eq (show g.dict.length < 2 ^ 32 by omega) e2 s2 fuel (fun t ht => w2 t (by simp [ht])) hfuel]
  simp [sub]

end Lfs2
end Tdc
