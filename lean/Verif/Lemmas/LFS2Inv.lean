import Verif.Lemmas.LFS2
import Verif.Lemmas.LFSTree2

namespace Tdc
namespace Lfs2

open Arith (bind_ok)
open Lfs

variable {T : List UInt8} {len : Nat} {g : G}

theorem Inv.mono {len' : Nat} (h : Inv T len g) (hl : len' ≤ len) : Inv T len' g :=
  { h with rule := fun r hr => by obtain ⟨a, b⟩ := h.rule r hr; exact ⟨by omega, b⟩ }

theorem rep_get {α : Type} {n x : Nat} {a b : α} (h : (List.replicate n a)[x]? = some b) : b = a := by
  rw [List.getElem?_replicate] at h
  split at h
  · exact (Option.some.inj h).symm
  · cases h

theorem Inv.init (T : List UInt8) (len : Nat) : Inv T len (startG [] T.length) := by
  have hs : ∀ x m : Nat, (startG [] T.length).first[x]? = some m → 0 < m → False := fun x m h h0 => by
    have := rep_get h
    omega
  have ho : ∀ x m : Nat, (startG [] T.length).off[x]? = some m → 0 < m → False := fun x m h h0 => by
    have := rep_get h
    omega
  have h2 : ∀ x m : Nat, (startG [] T.length).second[x]? = some m → 0 < m → False := fun x m h h0 => by
    have := rep_get h
    omega
  exact ⟨by simp [startG], by simp [startG], by simp [startG], by simp [startG], by simp [startG], .nil, fun x m a b => (hs x m a b).elim,
    fun x m a b => (ho x m a b).elim, fun k b l h => by simp [startG] at h, fun x m a b => (h2 x m a b).elim, fun x m c l a b => (h2 x m a b).elim,
    fun x m c l y m' a b => (h2 x m a b).elim⟩

/-! ## the first layer -/

theorem writeOff_ok (p : Nat) : ∀ (k j : Nat) (off : List Nat), p + j + k ≤ off.length → ∃ o, writeOff p k j off = .ok o ∧ o.length = off.length ∧
    ∀ x, o[x]? = if p + j ≤ x ∧ x < p + j + k then some (x - p + 1) else off[x]?
  | 0, j, off, _ => ⟨off, rfl, rfl, fun x => by rw [if_neg (by omega)]⟩
  | k + 1, j, off, h => by
    have hv : vset off (p + j) (j + 1) = .ok (off.set (p + j) (j + 1)) := if_pos (by omega)
    obtain ⟨o, e1, e2, e3⟩ := writeOff_ok p k (j + 1) (off.set (p + j) (j + 1)) (by rw [List.length_set]; omega)
    refine ⟨o, by rw [writeOff, hv, bind_ok, e1], by rw [e2, List.length_set], fun x => ?_⟩
    rw [e3]
    by_cases hx : x = p + j
    · subst hx
      rw [if_neg (by omega), if_pos (by omega), List.getElem?_set_self (by omega)]
      congr 1
      omega
    · rw [List.getElem?_set_ne (Ne.symm hx)]
      by_cases hy : p + (j + 1) ≤ x ∧ x < p + (j + 1) + k
      · rw [if_pos hy, if_pos (by omega)]
      · rw [if_neg hy, if_neg (by omega)]

theorem mark1_ok {num : Nat} (h0 : 0 < len) : ∀ (ps : List Nat) (next : Nat) (first off : List Nat), Sep len next ps → first.length = off.length →
    (∀ p ∈ ps, p + len ≤ off.length) → ∃ f o, mark1 num len ps first off = .ok (f, o) ∧ f.length = first.length ∧ o.length = off.length ∧
      (∀ x, f[x]? = if x ∈ ps then some num else first[x]?) ∧ (∀ p ∈ ps, ∀ j, j < len → o[p + j]? = some (j + 1)) ∧
      ∀ x, (∀ p ∈ ps, ¬ (p ≤ x ∧ x < p + len)) → o[x]? = off[x]?
  | [], next, first, off, _, _, _ => ⟨first, off, rfl, rfl, rfl, fun x => by simp, by simp, fun x _ => rfl⟩
  | p :: ps, next, first, off, hs, hl, hp => by
    have hpl := hp p (List.mem_cons_self ..)
    have hv : vset first p num = .ok (first.set p num) := if_pos (by omega)
    obtain ⟨o1, e1, e2, e3⟩ := writeOff_ok p len 0 off (by omega)
    obtain ⟨f, o, g1, g2, g3, g4, g5, g6⟩ := mark1_ok (num := num) h0 ps (p + len) (first.set p num) o1 hs.2 (by rw [List.length_set, e2, hl])
      fun q hq => by rw [e2]; exact hp q (List.mem_cons_of_mem _ hq)
    have hge := hs.2.ge
    refine ⟨f, o, by rw [mark1, hv, bind_ok, e1, bind_ok, g1], by rw [g2, List.length_set], by rw [g3, e2], fun x => ?_, fun q hq j hj => ?_, fun x hx => ?_⟩
    · rw [g4]
      by_cases hx : x ∈ ps
      · rw [if_pos hx, if_pos (List.mem_cons_of_mem _ hx)]
      · rw [if_neg hx]
        by_cases hxp : x = p
        · subst hxp
          rw [if_pos (List.mem_cons_self ..), List.getElem?_set_self (by omega)]
        · rw [if_neg (by simp [hxp, hx]), List.getElem?_set_ne (Ne.symm hxp)]
    · rcases List.mem_cons.1 hq with rfl | hq
      · rw [g6 (q + j) fun p' hp' hc => by have := hge p' hp'; omega, e3, if_pos (by omega)]
        congr 1
        omega
      · exact g5 q hq j hj
    · rw [g6 x fun q hq => hx q (List.mem_cons_of_mem _ hq), e3, if_neg]
      have := hx p (List.mem_cons_self ..)
      omega

/-- a string of length `len` with both ends outside of the first layer is outside of it -/
theorem Inv.free (h : Inv T len g) {p : Nat} (hp : p + len ≤ T.length) (h1 : g.off[p]? = some 0) (h2 : g.off[p + len - 1]? = some 0) {j : Nat} (hj : j < len) :
    g.off[p + j]? = some 0 := by
  have hx : g.off[p + j]? = some (g.off[p + j]'(by rw [h.offLen]; omega)) := List.getElem?_eq_getElem (by rw [h.offLen]; omega)
  rcases Nat.eq_zero_or_pos (g.off[p + j]'(by rw [h.offLen]; omega)) with hz | hz
  · rw [hx, hz]
  · exfalso
    generalize g.off[p + j]'(by rw [h.offLen]; omega) = o at hx hz
    obtain ⟨a1, m, a2, a3, b, l, a4, a5⟩ := h.off _ o hx hz
    obtain ⟨b', l', d1, d2, d3, -, d4⟩ := h.fst _ m a3 a2
    rw [a4] at d1
    cases d1
    have hl := (h.rule _ (List.mem_of_getElem? a4)).1
    simp only at hl
    rcases Nat.lt_or_ge p (p + j + 1 - o) with hc | hc
    · have := d4 (p + len - 1 - (p + j + 1 - o)) (by omega)
      rw [show p + j + 1 - o + (p + len - 1 - (p + j + 1 - o)) = p + len - 1 by omega, h2] at this
      simp at this
    · have := d4 (p - (p + j + 1 - o)) (by omega)
      rw [show p + j + 1 - o + (p - (p + j + 1 - o)) = p by omega, h1] at this
      simp at this

/-- a new rule in the first layer -/
theorem Inv.mark1 (h : Inv T len g) (h0 : 0 < len) {sel : List Nat} {next c : Nat} (hsep : Sep len next sel) (hc : c ∈ sel)
    (hsel : ∀ p ∈ sel, p + len ≤ T.length ∧ g.off[p]? = some 0 ∧ g.off[p + len - 1]? = some 0 ∧ sub T c len = sub T p len) :
    ∃ f o, Lfs2.mark1 (g.dict.length + 1) len sel g.first g.off = .ok (f, o) ∧ Inv T len { g with dict := g.dict ++ [(c, len)], first := f, off := o } ∧
      ∀ x v : Nat, g.off[x]? = some v → 0 < v → o[x]? = some v ∧ f[x + 1 - v]? = g.first[x + 1 - v]? := by
  obtain ⟨f, o, e1, e2, e3, e4, e5, e6⟩ := mark1_ok (num := g.dict.length + 1) h0 sel next g.first g.off hsep (by rw [h.firstLen, h.offLen])
    fun p hp => by rw [h.offLen]; exact (hsel p hp).1
  have hfree : ∀ p ∈ sel, ∀ x, p ≤ x → x < p + len → g.off[x]? = some 0 := fun p hp x h1 h2 => by
    have := h.free (hsel p hp).1 (hsel p hp).2.1 (hsel p hp).2.2.1 (j := x - p) (by omega)
    rwa [show p + (x - p) = x by omega] at this
  have hkeep : ∀ x v : Nat, g.off[x]? = some v → 0 < v → o[x]? = some v := fun x v hx hv => by
    rw [e6 x fun p hp hc => ?_, hx]
    have := hfree p hp x hc.1 hc.2
    rw [hx] at this
    have := Option.some.inj this
    omega
  have hold : ∀ (k : Nat) (r : Nat × Nat), g.dict[k]? = some r → (g.dict ++ [(c, len)])[k]? = some r := fun k r hk => by
    rw [List.getElem?_append_left (List.getElem?_eq_some_iff.1 hk).1, hk]
  have hnew : (g.dict ++ [(c, len)])[g.dict.length]? = some (c, len) := by simp
  have hnot : ∀ x m : Nat, g.first[x]? = some m → 0 < m → x ∉ sel := fun x m hx hm hs => by
    obtain ⟨b, l, a1, a2, a3, a4, a5⟩ := h.fst x m hx hm
    have := a5 0 a2
    rw [Nat.add_zero, (hsel x hs).2.1] at this
    simp at this
  have hback : ∀ (k : Nat) (r : Nat × Nat), (g.dict ++ [(c, len)])[k]? = some r → k < g.dict.length → g.dict[k]? = some r := fun k r hk hl => by
    rwa [List.getElem?_append_left hl] at hk
  have hsnd : ∀ x m : Nat, g.second[x]? = some m → 0 < m → m - 1 < g.dict.length := fun x m hx hm => by
    obtain ⟨k, b, l, c, l', a1, a2, -⟩ := h.snd x m hx hm
    exact (List.getElem?_eq_some_iff.1 a2).1
  have hfold : ∀ y m : Nat, g.first[y]? = some m → 0 < m → f[y]? = some m := fun y m hy hm => by
    rw [e4, if_neg (hnot y m hy hm), hy]
  refine ⟨f, o, e1, ?_, fun x v hx hv => ⟨hkeep x v hx hv, ?_⟩⟩
  · constructor
    · simp only [e3, h.offLen]
    · simp only [e2, h.firstLen]
    · exact h.secondLen
    · exact h.sdeadLen
    · intro r hr
      rcases List.mem_append.1 hr with hr | hr
      · exact h.rule r hr
      · rw [List.mem_singleton.1 hr]
        exact ⟨Nat.le_refl _, h0, (hsel c hc).1⟩
    · simp only
      rw [List.pairwise_append]
      refine ⟨h.desc, List.pairwise_singleton _ _, fun r hr u hu => ?_⟩
      rw [List.mem_singleton.1 hu]
      exact (h.rule r hr).1
    · intro x m hx hm
      simp only [e4] at hx
      split at hx
      · next hs =>
        have : m = g.dict.length + 1 := (Option.some.inj hx).symm
        subst this
        exact ⟨c, len, by simpa using hnew, h0, (hsel x hs).1, (hsel x hs).2.2.2, fun j hj => e5 x hs j hj⟩
      · obtain ⟨b, l, a1, a2, a3, a4, a5⟩ := h.fst x m hx hm
        exact ⟨b, l, hold _ _ a1, a2, a3, a4, fun j hj => hkeep _ _ (a5 j hj) (by omega)⟩
    · intro x v hx hv
      simp only at hx
      by_cases hin : ∃ p ∈ sel, p ≤ x ∧ x < p + len
      · obtain ⟨p, hp, h1, h2⟩ := hin
        have := e5 p hp (x - p) (by omega)
        rw [show p + (x - p) = x by omega, hx] at this
        have hv' : v = x - p + 1 := Option.some.inj this
        refine ⟨by omega, g.dict.length + 1, by omega, ?_, c, len, by simpa using hnew, by omega⟩
        simp only
        rw [show x + 1 - v = p by omega, e4, if_pos hp]
      · have hx' : g.off[x]? = some v := by
          rw [← e6 x fun p hp hc => hin ⟨p, hp, hc⟩, hx]
        obtain ⟨a1, m, a2, a3, b, l, a4, a5⟩ := h.off x v hx' hv
        exact ⟨a1, m, a2, hfold _ _ a3 a2, b, l, hold _ _ a4, a5⟩
    · intro k b l hk
      simp only at hk ⊢
      rcases Nat.lt_or_ge k g.dict.length with hlt | hge
      · exact hfold _ _ (h.rep k b l (hback _ _ hk hlt)) (by omega)
      · have hkl := (List.getElem?_eq_some_iff.1 hk).1
        rw [List.length_append, List.length_singleton] at hkl
        have : k = g.dict.length := by omega
        subst this
        rw [hnew] at hk
        cases hk
        rw [e4, if_pos hc]
    · intro x m hx hm
      obtain ⟨k, b, l, c', l', a1, a2, a3⟩ := h.snd x m hx hm
      exact ⟨k, b, l, c', l', hold _ _ a1, hold _ _ a2, a3⟩
    · intro x m c' l' hx hm hd
      exact h.sdead x m c' l' hx hm (hback _ _ hd (hsnd x m hx hm))
    · intro x m c' l' y m' hx hm hd
      exact h.sdisj x m c' l' y m' hx hm (hback _ _ hd (hsnd x m hx hm))
  · obtain ⟨a1, m, a2, a3, -⟩ := h.off x v hx hv
    rw [hfold _ _ a3 a2, a3]

/-! ## the second layer -/

/-- the string of length `len` at `p` is inside the symbol of rule `k` in the first layer -/
def Inside (g : G) (len p : Nat) : Prop :=
  ∃ o k b l, g.off[p]? = some o ∧ 0 < o ∧ g.first[p + 1 - o]? = some (k + 1) ∧ g.dict[k]? = some (b, l) ∧ o - 1 + len ≤ l

theorem sub_inner {b y l j : Nat} (h : sub T b l = sub T y l) (hj : j + len ≤ l) : sub T (b + j) len = sub T (y + j) len := by
  have key : ∀ z, sub T (z + j) len = ((sub T z l).drop j).take len := by
    intro z
    unfold sub
    rw [List.drop_take, List.take_take, List.drop_drop, Nat.min_eq_left (by omega)]
  rw [key, key, h]

theorem parent_ok (h : Inv T len g) (hn : T.length < 2 ^ 32) {p o : Nat} (hp : g.off[p]? = some o) (h0 : 0 < o) :
    ∃ k b l, g.first[p + 1 - o]? = some (k + 1) ∧ g.dict[k]? = some (b, l) ∧ parent g p o = .ok (b, l) := by
  obtain ⟨a1, m, a2, a3, b, l, a4, a5⟩ := h.off p o hp h0
  have hpl := (List.getElem?_eq_some_iff.1 hp).1
  rw [h.offLen] at hpl
  have hml := (List.getElem?_eq_some_iff.1 a4).1
  have hc := h.count
  refine ⟨m - 1, b, l, by rw [a3]; congr 1; omega, a4, ?_⟩
  rw [parent, sub32_eq (by omega) (by omega), show p - (o - 1) = p + 1 - o by omega, vget_ok a3, bind_ok, sub32_eq (by omega) (by omega), vget_ok a4]

theorem place_ok (h : Inv T len g) (hn : T.length < 2 ^ 32) (h0 : 0 < len) {p c num : Nat} (hin : Inside g len p) (hnum : num = g.dict.length)
    (hd : g.dict[num - 1]? = some (c, len)) (hlow : ∀ k o : Nat, g.off[p]? = some o → 0 < o → g.first[p + 1 - o]? = some (k + 1) → k + 1 < num)
    (hs : sub T c len = sub T p len) :
    ∃ g', place num len p g = .ok g' ∧ Inv T len g' ∧ g'.dict = g.dict ∧ g'.off = g.off ∧ g'.first = g.first := by
  obtain ⟨o, k, b, l, q1, q2, q3, q4, q5⟩ := hin
  obtain ⟨k', b', l', r1, r2, r3⟩ := parent_ok h hn q1 q2
  rw [q3] at r1
  have e : k = k' := by simpa using r1
  subst e
  rw [q4] at r2
  cases r2
  obtain ⟨a1, -⟩ := h.off p o q1 q2
  have hr := (h.rule _ (List.mem_of_getElem? q4)).2.2
  simp only at hr
  have hdn := (List.getElem?_eq_some_iff.1 hd).1
  have hnum0 : 0 < num := by omega
  have hb1 : b + o - 1 < g.sdead.length := by rw [h.sdeadLen]; omega
  have hb2 : b + o - 1 + len - 1 < g.sdead.length := by rw [h.sdeadLen]; omega
  rw [place, vget_ok q1, bind_ok, r3, bind_ok, vget_ok (List.getElem?_eq_getElem hb1), bind_ok]
  split
  · exact ⟨g, rfl, h, rfl, rfl, rfl⟩
  next ha =>
  rw [vget_ok (List.getElem?_eq_getElem hb2), bind_ok]
  split
  · exact ⟨g, rfl, h, rfl, rfl, rfl⟩
  next hb =>
  have ha' : g.sdead[b + o - 1]? = some false := by rw [List.getElem?_eq_getElem hb1]; simpa using ha
  have hb' : g.sdead[b + o - 1 + len - 1]? = some false := by rw [List.getElem?_eq_getElem hb2]; simpa using hb
  obtain ⟨d, k1, k2, k3⟩ := kill_eq len (b + o - 1) g.sdead (by rw [h.sdeadLen]; omega)
  have hv : vset g.second (b + o - 1) num = .ok (g.second.set (b + o - 1) num) := if_pos (by rw [h.secondLen]; omega)
  rw [hv, bind_ok, k1, bind_ok]
  have hget : ∀ x m : Nat, (g.second.set (b + o - 1) num)[x]? = some m → (x = b + o - 1 ∧ m = num) ∨ (x ≠ b + o - 1 ∧ g.second[x]? = some m) := by
    intro x m hx
    by_cases hxs : x = b + o - 1
    · subst hxs
      rw [List.getElem?_set_self (by rw [h.secondLen]; omega)] at hx
      exact Or.inl ⟨rfl, (Option.some.inj hx).symm⟩
    · rw [List.getElem?_set_ne (Ne.symm hxs)] at hx
      exact Or.inr ⟨hxs, hx⟩
  have hsub : sub T c len = sub T (b + o - 1) len := by
    obtain ⟨b2, l2, f1, f2, f3, f4, -⟩ := h.fst _ _ q3 (by omega)
    rw [Nat.add_sub_cancel, q4] at f1
    cases f1
    have := sub_inner (len := len) (j := o - 1) f4 q5
    rw [show b + (o - 1) = b + o - 1 by omega, show p + 1 - o + (o - 1) = p by omega] at this
    rw [hs, this]
  refine ⟨_, rfl, ?_, rfl, rfl, rfl⟩
  constructor
  · exact h.offLen
  · exact h.firstLen
  · simp only [List.length_set, h.secondLen]
  · simp only [k2, h.sdeadLen]
  · exact h.rule
  · exact h.desc
  · exact h.fst
  · exact h.off
  · exact h.rep
  · intro x m hx hm
    rcases hget x m hx with ⟨rfl, rfl⟩ | ⟨-, hx⟩
    · exact ⟨k, b, l, c, len, q4, hd, hlow k o q1 q2 q3, h0, by omega, by omega, hsub⟩
    · exact h.snd x m hx hm
  · intro x m c' l' hx hm hdx j hj
    simp only at hdx
    simp only [k3]
    rcases hget x m hx with ⟨rfl, rfl⟩ | ⟨-, hx⟩
    · rw [hd] at hdx
      cases hdx
      rw [if_pos (by omega)]
    · have := h.sdead x m c' l' hx hm hdx j hj
      split
      · rfl
      · exact this
  · intro x m c' l' y m' hx hm hdx hy hm' hxy
    simp only at hdx hx hy
    rcases hget x m hx with ⟨rfl, rfl⟩ | ⟨-, hxo⟩
    · rw [hd] at hdx
      cases hdx
      rcases hget y m' hy with ⟨rfl, rfl⟩ | ⟨-, hy⟩
      · omega
      · rcases Nat.lt_or_ge y (b + o - 1 + len) with hlt | hge
        · exfalso
          obtain ⟨k3', b3, l3, c3, l3', u1, u2, -⟩ := h.snd y m' hy hm'
          have hlen := (h.rule _ (List.mem_of_getElem? u2)).1
          simp only at hlen
          have := h.sdead y m' c3 l3' hy hm' u2 (b + o - 1 + len - 1 - y) (by omega)
          rw [show y + (b + o - 1 + len - 1 - y) = b + o - 1 + len - 1 by omega, hb'] at this
          cases this
        · exact hge
    · rcases hget y m' hy with ⟨rfl, rfl⟩ | ⟨-, hy⟩
      · rcases Nat.lt_or_ge (b + o - 1) (x + l') with hlt | hge
        · exfalso
          have := h.sdead x m c' l' hxo hm hdx (b + o - 1 - x) (by omega)
          rw [show x + (b + o - 1 - x) = b + o - 1 by omega, ha'] at this
          cases this
        · exact hge
      · exact h.sdisj x m c' l' y m' hxo hm hdx hy hm' hxy

theorem mark2_ok (hn : T.length < 2 ^ 32) (h0 : 0 < len) {c num : Nat} : ∀ (ps : List Nat) (g : G), Inv T len g → num = g.dict.length → g.dict[num - 1]? = some (c, len) →
    (∀ p ∈ ps, Inside g len p ∧ (∀ k o : Nat, g.off[p]? = some o → 0 < o → g.first[p + 1 - o]? = some (k + 1) → k + 1 < num) ∧ sub T c len = sub T p len) →
    ∃ g', mark2 num len ps g = .ok g' ∧ Inv T len g' ∧ g'.dict = g.dict
  | [], g, h, _, _, _ => ⟨g, rfl, h, rfl⟩
  | p :: ps, g, h, hnum, hd, hp => by
    obtain ⟨a1, a2, a3⟩ := hp p (List.mem_cons_self ..)
    obtain ⟨g1, e1, e2, e3, e4, e5⟩ := place_ok h hn h0 a1 hnum hd a2 a3
    obtain ⟨g2, f1, f2, f3⟩ := mark2_ok (c := c) (num := num) hn h0 ps g1 e2 (by rw [e3]; exact hnum) (by rw [e3]; exact hd) fun q hq => by
      obtain ⟨b1, b2, b3⟩ := hp q (List.mem_cons_of_mem _ hq)
      exact ⟨by unfold Inside at b1 ⊢; rw [e3, e4, e5]; exact b1, by rw [e4, e5]; exact b2, b3⟩
    exact ⟨g2, by rw [mark2, e1, bind_ok, f1], f2, by rw [f3, e3]⟩

theorem viable_ok (h : Inv T len g) (hn : T.length < 2 ^ 32) (h0 : 0 < len) : ∀ (ps : List Nat) (next : Nat), (∀ p ∈ ps, p + len ≤ T.length) →
    ∃ a b, viable g len next ps = .ok (a, b) ∧ Sep len next a ∧ (∀ p ∈ a, p ∈ ps ∧ g.off[p]? = some 0 ∧ g.off[p + len - 1]? = some 0) ∧
      ∀ p ∈ b, p ∈ ps ∧ Inside g len p
  | [], _, _ => ⟨[], [], rfl, trivial, by simp, by simp⟩
  | p :: ps, next, hp => by
    have hpl := hp p (List.mem_cons_self ..)
    have ih := fun next => viable_ok h hn h0 ps next fun q hq => hp q (List.mem_cons_of_mem _ hq)
    have skip : ∃ a b, viable g len next ps = .ok (a, b) ∧ Sep len next a ∧ (∀ q ∈ a, q ∈ p :: ps ∧ g.off[q]? = some 0 ∧ g.off[q + len - 1]? = some 0) ∧
        ∀ q ∈ b, q ∈ p :: ps ∧ Inside g len q := by
      obtain ⟨a, b, e1, e2, e3, e4⟩ := ih next
      exact ⟨a, b, e1, e2, fun q hq => ⟨List.mem_cons_of_mem _ (e3 q hq).1, (e3 q hq).2⟩, fun q hq => ⟨List.mem_cons_of_mem _ (e4 q hq).1, (e4 q hq).2⟩⟩
    rw [viable]
    split
    · next hnext =>
      have ho : g.off[p]? = some (g.off[p]'(by rw [h.offLen]; omega)) := List.getElem?_eq_getElem (by rw [h.offLen]; omega)
      generalize g.off[p]'(by rw [h.offLen]; omega) = o at ho
      have he : g.off[p + len - 1]? = some (g.off[p + len - 1]'(by rw [h.offLen]; omega)) := List.getElem?_eq_getElem (by rw [h.offLen]; omega)
      generalize g.off[p + len - 1]'(by rw [h.offLen]; omega) = e at he
      rw [vget_ok ho, bind_ok]
      split
      · next hz =>
        rw [vget_ok he, bind_ok]
        split
        · next hz' =>
          obtain ⟨a, b, e1, e2, e3, e4⟩ := ih (p + len)
          rw [e1, bind_ok]
          refine ⟨_, _, rfl, ⟨hnext, e2⟩, fun q hq => ?_, fun q hq => ⟨List.mem_cons_of_mem _ (e4 q hq).1, (e4 q hq).2⟩⟩
          rcases List.mem_cons.1 hq with rfl | hq
          · exact ⟨List.mem_cons_self .., by rw [ho, hz], by rw [he, hz']⟩
          · exact ⟨List.mem_cons_of_mem _ (e3 q hq).1, (e3 q hq).2⟩
        · exact skip
      · next hz =>
        obtain ⟨k, b, l, r1, r2, r3⟩ := parent_ok h hn ho (by omega)
        rw [r3, bind_ok]
        split
        · next hfit =>
          obtain ⟨a, b', e1, e2, e3, e4⟩ := ih next
          rw [e1, bind_ok]
          refine ⟨_, _, rfl, e2, fun q hq => ⟨List.mem_cons_of_mem _ (e3 q hq).1, (e3 q hq).2⟩, fun q hq => ?_⟩
          rcases List.mem_cons.1 hq with rfl | hq
          · exact ⟨List.mem_cons_self .., o, k, b, l, ho, by omega, r1, r2, hfit⟩
          · exact ⟨List.mem_cons_of_mem _ (e4 q hq).1, (e4 q hq).2⟩
        · exact skip
    · exact skip

theorem substitute_ok (h : Inv T len g) (hn : T.length < 2 ^ 32) (h0 : 0 < len) {ps : List Nat} {w : List UInt8}
    (hp : ∀ p ∈ ps, p + len ≤ T.length ∧ sub T p len = w) :
    ∃ r, substitute (g.dict.length + 1) len ps g = .ok r ∧ Inv T len r.2 ∧ r.1 = r.2.dict.length + 1 := by
  obtain ⟨a, b, e1, e2, e3, e4⟩ := viable_ok h hn h0 ps 0 fun p hm => (hp p hm).1
  rw [substitute, e1, bind_ok]
  split
  · next hc =>
    have hh : a.headD 0 ∈ a := by
      cases a with
      | nil => simp at hc
      | cons x l => simp
    obtain ⟨f, o, m1, m2, m3⟩ := h.mark1 h0 e2 hh fun p hm => ⟨(hp p (e3 p hm).1).1, (e3 p hm).2.1, (e3 p hm).2.2, by
      rw [(hp p (e3 p hm).1).2, (hp _ (e3 _ hh).1).2]⟩
    obtain ⟨g', n1, n2, n3⟩ := mark2_ok (num := g.dict.length + 1) (c := a.headD 0) hn h0 b { g with dict := g.dict ++ [(a.headD 0, len)], first := f, off := o } m2 (by simp) (by simp)
      fun p hm => by
        obtain ⟨v, k, b', l, q1, q2, q3, q4, q5⟩ := (e4 p hm).2
        obtain ⟨z1, z2⟩ := m3 p v q1 q2
        have hk := (List.getElem?_eq_some_iff.1 q4).1
        refine ⟨⟨v, k, b', l, z1, q2, by simp only; rw [z2, q3], by simp only; rw [List.getElem?_append_left hk, q4], q5⟩, ?_, ?_⟩
        · intro k' v' y1 y2 y3
          simp only at y1 y3
          rw [z1] at y1
          have ev : v = v' := Option.some.inj y1
          subst ev
          rw [z2, q3] at y3
          have : k + 1 = k' + 1 := Option.some.inj y3
          omega
        · rw [(hp p (e4 p hm).1).2, (hp _ (e3 _ hh).1).2]
    rw [m1, bind_ok, n1, bind_ok]
    exact ⟨_, rfl, n2, by simp [n3]⟩
  · exact ⟨_, rfl, h, rfl⟩

/-! ## the loops -/

variable {t : Tree} {label : Nat → List UInt8}

structure WOk2 (T : List UInt8) (t : Tree) (label : Nat → List UInt8) (minLrf len : Nat) (vs : List Nat) (w : W) : Prop where
  inv : Inv T (max len minLrf) w.g
  num : w.num = w.g.dict.length + 1
  begins : BgOk T t label w.begins
  bins : BinOk t w.bins
  room : len < w.bins.length
  todo : ∀ v ∈ vs, ∃ nd, t.nodes[v]? = some nd ∧ len ≤ nd.depth

theorem step_ok (hs : SoundTree T t label) (hn : T.length < 2 ^ 32) (map exact : Bool) {minLrf len v : Nat} {vs : List Nat} {w : W} (h1 : 0 < minLrf) (hm : minLrf ≤ len)
    (h : WOk2 T t label minLrf len (v :: vs) w) : ∃ w', step map exact t len v w = .ok w' ∧ WOk2 T t label minLrf len vs w' := by
  obtain ⟨nd, hnd, hd⟩ := h.todo v (List.mem_cons_self ..)
  have ht : ∀ u ∈ vs, ∃ nd, t.nodes[u]? = some nd ∧ len ≤ nd.depth := fun u hu => h.todo u (List.mem_cons_of_mem _ hu)
  have hv : v < t.nodes.length := (List.getElem?_eq_some_iff.1 hnd).1
  obtain ⟨ps, bg, g1, g2, g3⟩ := Lfs.gather_ok hs map hv (alive := fun _ => .ok true) (fun p _ => ⟨true, rfl⟩) h.begins
  have ho := occ hs hnd hd (by omega) g2
  rw [step, g1, bind_ok]
  split
  · split
    · have hi := h.inv
      rw [Nat.max_eq_left hm] at hi
      obtain ⟨r, e1, e2, e3⟩ := substitute_ok hi hn (by omega) ho
      rw [h.num, e1, bind_ok]
      exact ⟨_, rfl, by rw [Nat.max_eq_left hm]; exact e2, e3, g3, h.bins, h.room, ht⟩
    · split
      · obtain ⟨b, r1, r2, r3, -⟩ := readd_ok (minLrf := 0) (ms := spread ps) h.bins hnd hd h.room
        rw [r1, bind_ok]
        exact ⟨_, rfl, h.inv, h.num, g3, r2, by rw [r3]; exact h.room, ht⟩
      · exact ⟨_, rfl, h.inv, h.num, g3, h.bins, h.room, ht⟩
  · exact ⟨_, rfl, h.inv, h.num, g3, h.bins, h.room, ht⟩

theorem popBin_ok {st : Nat → Nat → W → Res W} {minLrf len : Nat}
    (hst : ∀ v vs w, WOk2 T t label minLrf len (v :: vs) w → ∃ w', st len v w = .ok w' ∧ WOk2 T t label minLrf len vs w') :
    ∀ (vs : List Nat) (w : W), WOk2 T t label minLrf len vs w → ∃ w', popBin st len vs w = .ok w' ∧ WOk2 T t label minLrf len [] w'
  | [], w, h => ⟨w, rfl, h⟩
  | v :: vs, w, h => by
    obtain ⟨w1, e1, e2⟩ := hst v vs w h
    obtain ⟨w2, f1, f2⟩ := popBin_ok hst vs w1 e2
    exact ⟨w2, by rw [popBin, e1, bind_ok, f1], f2⟩

theorem binOk_clear {bins : List (List Nat)} (h : BinOk t bins) (j : Nat) : BinOk t (bins.set j []) := by
  intro k vs hk
  rw [List.getElem?_set] at hk
  split at hk
  · split at hk
    · cases hk
      simp
    · cases hk
  · exact h k vs hk

theorem popBins_ok {st : Nat → Nat → W → Res W} {minLrf : Nat} (hm : 0 < minLrf)
    (hst : ∀ len v vs w, minLrf ≤ len → WOk2 T t label minLrf len (v :: vs) w → ∃ w', st len v w = .ok w' ∧ WOk2 T t label minLrf len vs w') :
    ∀ (len : Nat) (w : W), WOk2 T t label minLrf len [] w → ∃ w', popBins st minLrf len w = .ok w' ∧ Inv T minLrf w'.g
  | 0, w, h => ⟨w, by rw [popBins, if_neg (by omega)], h.inv.mono (by omega)⟩
  | len + 1, w, h => by
    rw [popBins]
    split
    · next hl =>
      have hroom := h.room
      have hv : w.bins[len + 1]? = some w.bins[len + 1] := List.getElem?_eq_getElem h.room
      rw [vget_ok hv, bind_ok]
      obtain ⟨w1, e1, e2⟩ := popBin_ok (hst (len + 1) · · · hl) w.bins[len + 1].reverse { w with bins := w.bins.set (len + 1) [] }
        ⟨h.inv, h.num, h.begins, binOk_clear h.bins _, by simp only [List.length_set]; exact h.room, fun v hvm => by
          obtain ⟨nd, a, b, -⟩ := h.bins _ _ hv v (List.mem_reverse.1 hvm)
          exact ⟨nd, a, b⟩⟩
      rw [e1, bind_ok]
      exact popBins_ok hm hst len w1 ⟨e2.inv.mono (by omega), e2.num, e2.begins, e2.bins, by have := e2.room; omega, by simp⟩
    · exact ⟨w, rfl, h.inv.mono (by omega)⟩

theorem popBins_zero (st : Nat → Nat → W → Res W) : ∀ len w, ∃ e, popBins st 0 len w = .error e
  | 0, w => by
    rw [popBins, if_pos rfl]
    cases (vget w.bins 0).bind fun vs => popBin st 0 vs.reverse { w with bins := w.bins.set 0 [] } with
    | error e => exact ⟨e, rfl⟩
    | ok _ => exact ⟨.ub, rfl⟩
  | len + 1, w => by
    rw [popBins, if_pos (Nat.zero_le _)]
    cases vget w.bins (len + 1) with
    | error e => exact ⟨e, rfl⟩
    | ok vs =>
      rw [bind_ok]
      cases popBin st (len + 1) vs.reverse { w with bins := w.bins.set (len + 1) [] } with
      | error e => exact ⟨e, rfl⟩
      | ok w' => rw [bind_ok]; exact popBins_zero st len w'

theorem resize_nil {α : Type} (k : Nat) (a : α) : resize [] k a = List.replicate k a := by simp [resize]

theorem strip_ok {u : List UInt8} (hu : u ≠ []) (h0 : (0 : UInt8) ∉ u) : strip (u ++ [0]) (u ++ [0]).length = .ok u.length := by
  rw [List.length_append, List.length_singleton, strip, vget_ok (show (u ++ [0])[u.length]? = some 0 by simp), bind_ok, if_pos rfl]
  cases hl : u.length with
  | zero => exact absurd (List.length_eq_zero_iff.1 hl) hu
  | succ n =>
    have hn : n < u.length := by omega
    rw [strip, vget_ok (show (u ++ [0])[n]? = some u[n] by rw [List.getElem?_append_left hn, List.getElem?_eq_getElem hn]), bind_ok, if_neg]
    intro hz
    exact h0 (hz ▸ List.getElem_mem hn)

end Lfs2
end Tdc
