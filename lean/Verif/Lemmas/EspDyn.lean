import Verif.Lemmas.EspIPD
import Verif.Lemmas.IntCodes

/-! # DynamicSizeIPD.hpp -/

namespace Tdc.Esp

theorem bitsFor_le {v B : Nat} (hv : v < 2 ^ 64) (hB : 1 ≤ B) : bitsFor v ≤ B ↔ v < 2 ^ B := by
  constructor
  · intro h
    exact Nat.lt_of_lt_of_le (lt_two_pow_bitsFor v hv) (Nat.pow_le_pow_right (by omega) h)
  · intro h
    by_cases h0 : v = 0
    · subst h0; rw [bitsFor_eq 0 hv]; simpa using hB
    · have h1 := two_pow_le_of_bitsFor v h0 hv
      have : 2 ^ (bitsFor v - 1) < 2 ^ B := Nat.lt_of_le_of_lt h1 h
      have := (Nat.pow_lt_pow_iff_right (show 1 < 2 by omega)).1 this
      omega

theorem roundBits_ok {b : Nat} (h : b ≤ 64) : ∃ j, roundBits b = .ok (8 * j) ∧ 1 ≤ j ∧ j ≤ 8 ∧ b ≤ 8 * j := by
  unfold roundBits
  by_cases h1 : b ≤ 8; · exact ⟨1, by simp [h1], by omega, by omega, by omega⟩
  by_cases h2 : b ≤ 16; · exact ⟨2, by simp [h1, h2], by omega, by omega, by omega⟩
  by_cases h3 : b ≤ 24; · exact ⟨3, by simp [h1, h2, h3], by omega, by omega, by omega⟩
  by_cases h4 : b ≤ 32; · exact ⟨4, by simp [h1, h2, h3, h4], by omega, by omega, by omega⟩
  by_cases h5 : b ≤ 40; · exact ⟨5, by simp [h1, h2, h3, h4, h5], by omega, by omega, by omega⟩
  by_cases h6 : b ≤ 48; · exact ⟨6, by simp [h1, h2, h3, h4, h5, h6], by omega, by omega, by omega⟩
  by_cases h7 : b ≤ 56; · exact ⟨7, by simp [h1, h2, h3, h4, h5, h6, h7], by omega, by omega, by omega⟩
  exact ⟨8, by simp [h1, h2, h3, h4, h5, h6, h7, h], by omega, by omega, by omega⟩

/-- an entry a map with numbers of `B` bits can hold -/
def KeyFits (free : Bool) (B : Nat) (k : Key) : Prop := k.1 < 2 ^ B ∧ k.2 < 2 ^ B ∧ (free = true ∨ k ≠ emptyKey B)

theorem KeyFits.grow {free : Bool} {B B' : Nat} {k : Key} (h : KeyFits free B k) (hb : B < B') : KeyFits free B' k := by
  have h1 : 2 ^ B < 2 ^ B' := Nat.pow_lt_pow_right (by omega) hb
  obtain ⟨h2, h3, _⟩ := h
  refine ⟨by omega, by omega, Or.inr ?_⟩
  intro he
  rw [he] at h2
  simp only [emptyKey] at h2
  omega

theorem castKey_keyFits {free : Bool} {B : Nat} {k : Key} (h : KeyFits free B k) : castKey B k = k := by
  unfold castKey
  rw [Nat.mod_eq_of_lt h.1, Nat.mod_eq_of_lt h.2.1]

variable {free : Bool} {F : IpdFam}

theorem mapAccess_ok (hF : FamOk free F) {B : Nat} {t : F.τ} {m : List (Key × Nat)} (h : hF.R B t m) {k : Key} (hk : KeyFits free B k) (f : Nat → Nat) :
    ∃ t', mapAccess F B t k f = .ok (t', (m.lookup k).getD 0) ∧ hF.R B t' (setKey m k (f ((m.lookup k).getD 0) % 2 ^ B)) := by
  unfold mapAccess
  rw [castKey_keyFits hk]
  exact hF.access h k _ hk.2.2

theorem refill_ok (hF : FamOk free F) {B : Nat} : ∀ (l : List (Key × Nat)) (t : F.τ) (m : List (Key × Nat)), hF.R B t m →
    (∀ e ∈ l, KeyFits free B e.1 ∧ e.2 < 2 ^ B) → ((l ++ m).map Prod.fst).Nodup → ∃ t', refill F B l t = .ok t' ∧ hF.R B t' (l ++ m)
  | [], t, m, h, _, _ => ⟨t, rfl, h⟩
  | (k, v) :: l, t, m, h, hl, hn => by
    have hnk : k ∉ m.map Prod.fst := by
      intro hk
      simp only [List.cons_append, List.map_cons, List.nodup_cons, List.map_append, List.mem_append] at hn
      exact hn.1 (Or.inr hk)
    obtain ⟨t1, a1, a2⟩ := mapAccess_ok hF h (hl (k, v) (by simp)).1 (fun _ => v)
    rw [Nat.mod_eq_of_lt (hl (k, v) (by simp)).2] at a2
    have a2 := hF.perm a2 (setKey_new v hnk)
    obtain ⟨t2, b1, b2⟩ := refill_ok hF l t1 _ a2 (fun e he => hl e (by simp [he])) (by
      refine (List.Perm.nodup_iff ?_).1 hn
      exact (List.perm_middle.symm).map _)
    refine ⟨t2, ?_, hF.perm b2 List.perm_middle⟩
    unfold refill
    rw [a1]
    exact b1

/-- The invariant of a `DynamicSizeIPD` map. -/
structure DynOk (hF : FamOk free F) (d : Dyn F) (m : List (Key × Nat)) : Prop where
  bits : ∃ j, d.bits = 8 * j ∧ 1 ≤ j ∧ j ≤ 8
  map : hF.R d.bits d.map m
  fits : ∀ e ∈ m, KeyFits free d.bits e.1 ∧ e.2 < 2 ^ d.bits

theorem resize_ok (hF : FamOk free F) {d : Dyn F} {m : List (Key × Nat)} (h : DynOk hF d m) {b : Nat} (hb : d.bits < b) (hb' : b ≤ 64) :
    ∃ d', d.resize b = .ok d' ∧ DynOk hF d' m ∧ b ≤ d'.bits := by
  obtain ⟨j, e1, e2, e3, e4⟩ := roundBits_ok hb'
  have hp := hF.forAll h.map
  have hg : ∀ e ∈ m, KeyFits free (8 * j) e.1 ∧ e.2 < 2 ^ (8 * j) := by
    intro e he
    refine ⟨(h.fits e he).1.grow (by omega), Nat.lt_trans (h.fits e he).2 (Nat.pow_lt_pow_right (by omega) (by omega))⟩
  obtain ⟨t', r1, r2⟩ := refill_ok hF (F.forAll d.bits d.map) (F.new (8 * j) (F.size d.map)) [] (hF.new _ _)
    (fun e he => hg e (hp.mem_iff.1 he)) (by
      rw [List.append_nil]; exact (hp.map _).nodup_iff.2 (hF.nodup h.map))
  rw [List.append_nil] at r2
  refine ⟨⟨8 * j, t'⟩, ?_, ⟨⟨j, rfl, e2, e3⟩, hF.perm r2 hp, hg⟩, e4⟩
  unfold Dyn.resize
  rw [e1]
  simp only [Except.bind, r1]

theorem setKey_twice {m : List (Key × Nat)} {k : Key} (u v : Nat) (hn : (m.map Prod.fst).Nodup) : (setKey (setKey m k u) k v).Perm (setKey m k v) := by
  rw [List.perm_ext_iff_of_nodup (List.Nodup.of_map _ (setKey_nodup (setKey_nodup hn))) (List.Nodup.of_map _ (setKey_nodup hn))]
  rintro ⟨k', v'⟩
  rw [mem_setKey (setKey_nodup hn), mem_setKey hn, mem_setKey hn]
  tauto

theorem lookup_setKey {m : List (Key × Nat)} {k k' : Key} {v : Nat} (hn : (m.map Prod.fst).Nodup) : (setKey m k v).lookup k' = if k' = k then some v else m.lookup k' := by
  split
  · rename_i h
    subst h
    rw [lookup_iff (setKey_nodup hn), mem_setKey hn]
    exact Or.inl ⟨rfl, rfl⟩
  · rename_i h
    apply Option.ext
    intro u
    rw [lookup_iff (setKey_nodup hn), mem_setKey hn, lookup_iff hn]
    simp [h]

theorem fitsKey_iff {B : Nat} {k : Key} (h1 : k.1 < 2 ^ 64) (h2 : k.2 < 2 ^ 64) (hB : 1 ≤ B) : fitsKey B k = true ↔ KeyFits false B k := by
  unfold fitsKey KeyFits
  have hm : max k.1 k.2 < 2 ^ 64 := by omega
  simp only [bitsFor_le hm hB, decide_eq_true_eq, Bool.false_eq_true, false_or]
  constructor
  · rintro ⟨a, b⟩
    have ha : k.1 < 2 ^ B := by omega
    have hb : k.2 < 2 ^ B := by omega
    refine ⟨ha, hb, ?_⟩
    unfold castKey at a
    rw [Nat.mod_eq_of_lt ha, Nat.mod_eq_of_lt hb] at a
    exact a
  · rintro ⟨a, b, c⟩
    refine ⟨?_, by omega⟩
    unfold castKey
    rw [Nat.mod_eq_of_lt a, Nat.mod_eq_of_lt b]
    exact c

theorem KeyFits.weaken {B : Nat} {k : Key} (h : KeyFits false B k) : KeyFits free B k := ⟨h.1, h.2.1, Or.inr (h.2.2.resolve_left (by simp))⟩

theorem DynOk.set (hF : FamOk free F) {d : Dyn F} {m : List (Key × Nat)} (h : DynOk hF d m) {t : F.τ} {k : Key} {v : Nat} (hk : KeyFits free d.bits k) (hv : v < 2 ^ d.bits)
    (ht : hF.R d.bits t (setKey m k v)) : DynOk hF ⟨d.bits, t⟩ (setKey m k v) := by
  refine ⟨h.bits, ht, ?_⟩
  rintro ⟨k', v'⟩ he
  rcases (mem_setKey (hF.nodup h.map)).1 he with ⟨rfl, rfl⟩ | ⟨_, he⟩
  · exact ⟨hk, hv⟩
  · exact h.fits _ he

theorem dynAccess_ok (hF : FamOk free F) {d : Dyn F} {m : List (Key × Nat)} (h : DynOk hF d m) (k : Key) (f : Nat → Nat) (h64 : k ≠ emptyKey 64)
    (hg : free = false → Good m k) (h1 : k.1 < 2 ^ 64) (h2 : k.2 < 2 ^ 64) (hf : ∀ v, v < 2 ^ 64 → f v < 2 ^ 64) :
    ∃ d', d.access k f = .ok (d', (m.lookup k).getD 0) ∧ DynOk hF d' (setKey m k (f ((m.lookup k).getD 0))) := by
  have hn := hF.nodup h.map
  have hm : max k.1 k.2 < 2 ^ 64 := by omega
  -- the map after the first `resize`
  have key : ∃ d1, (if fitsKey d.bits k then .ok d else d.resize (max (bitsFor (max k.1 k.2)) (d.bits + 1))) = .ok d1 ∧ DynOk hF d1 m ∧ KeyFits free d1.bits k := by
    obtain ⟨j, e1, e2, e3⟩ := h.bits
    split
    · rename_i hfit
      exact ⟨d, rfl, h, ((fitsKey_iff h1 h2 (by omega)).1 hfit).weaken⟩
    · rename_i hfit
      rw [fitsKey_iff h1 h2 (by omega)] at hfit
      have hlt : d.bits < 64 := by
        rcases Nat.lt_or_ge d.bits 64 with h0 | h0
        · exact h0
        · have : d.bits = 64 := by omega
          exact absurd ⟨this ▸ h1, this ▸ h2, Or.inr (this ▸ h64)⟩ hfit
      have hb := bitsFor_le_64 _ hm
      obtain ⟨d1, r1, r2, r3⟩ := resize_ok hF h (b := max (bitsFor (max k.1 k.2)) (d.bits + 1)) (by omega) (by omega)
      refine ⟨d1, r1, r2, ?_⟩
      have hlt1 : max k.1 k.2 < 2 ^ d1.bits := (bitsFor_le hm (by omega)).1 (by omega)
      refine ⟨by omega, by omega, ?_⟩
      cases hfr : free
      · right
        intro hke
        obtain ⟨j1, f1, f2, f3⟩ := r2.bits
        rw [f1] at hke
        obtain ⟨e, he, he2⟩ := hg hfr j1 (by omega) (by omega) hke
        have := (h.fits e he).2
        have := Nat.pow_lt_pow_right (show 1 < 2 by omega) (show d.bits < 8 * j1 by omega)
        omega
      · exact Or.inl rfl
  obtain ⟨d1, k1, k2, k3⟩ := key
  unfold Dyn.access
  rw [k1]
  simp only [Except.bind]
  generalize hold : (m.lookup k).getD 0 = old
  have hol : old < 2 ^ d1.bits := by
    subst hold
    rcases hl : m.lookup k with _ | u
    · exact Nat.two_pow_pos _
    · exact (k2.fits _ ((lookup_iff hn).1 hl)).2
  obtain ⟨j, b1, b2, b3⟩ := k2.bits
  have ho64 : old < 2 ^ 64 := Nat.lt_of_lt_of_le hol (Nat.pow_le_pow_right (by omega) (by omega))
  have hfo := hf old ho64
  obtain ⟨t1, a1, a2⟩ := mapAccess_ok hF k2.map k3 (fun v => if bitsFor (f v) ≤ d1.bits then f v else v)
  rw [hold] at a1 a2
  rw [a1]
  simp only
  by_cases hfit : bitsFor (f old) ≤ d1.bits
  · rw [if_pos hfit] at a2 ⊢
    have hlt := (bitsFor_le hfo (by omega)).1 hfit
    rw [Nat.mod_eq_of_lt hlt] at a2
    exact ⟨_, rfl, k2.set hF k3 hlt a2⟩
  · rw [if_neg hfit] at a2 ⊢
    rw [Nat.mod_eq_of_lt hol] at a2
    have hb := bitsFor_le_64 _ hfo
    have hd2 := k2.set hF k3 hol a2
    obtain ⟨d2, r1, r2, r3⟩ := resize_ok hF hd2 (b := max (bitsFor (f old)) (d1.bits + 1)) (show d1.bits < _ by omega) (by omega)
    rw [r1]
    simp only
    have hfit2 : KeyFits free d2.bits k := k3.grow (by omega)
    have hlt2 : f old < 2 ^ d2.bits := (bitsFor_le hfo (by omega)).1 (by omega)
    obtain ⟨t2, c1, c2⟩ := mapAccess_ok hF r2.map hfit2 (fun _ => f old)
    rw [c1]
    rw [Nat.mod_eq_of_lt hlt2] at c2
    refine ⟨_, rfl, ?_⟩
    have := r2.set hF hfit2 hlt2 c2
    have hp := setKey_twice (k := k) old (f old) hn
    exact ⟨this.bits, hF.perm this.map hp, fun e he => this.fits e (hp.mem_iff.2 he)⟩

def dynOk (hF : FamOk free F) : IpdOk (!free) (dynIpd F) where
  R d m := DynOk hF d m
  new := ⟨⟨1, rfl, by omega, by omega⟩, hF.new _ _, by simp⟩
  nodup h := hF.nodup h.map
  forAll h := hF.forAll h.map
  access h k f h64 hg h1 h2 hf := dynAccess_ok hF h k f h64 (fun hfr => hg (by simp [hfr])) h1 h2 hf

/-! ## Histories -/

theorem run_ok {strict : Bool} {I : Ipd} (hI : IpdOk strict I) : ∀ (h : List (Key × (Nat → Nat))) (t : I.τ) (m : List (Key × Nat)) (g : Key → Nat),
    (∀ e ∈ h, e.1.1 < 2 ^ 64 ∧ e.1.2 < 2 ^ 64 ∧ e.1 ≠ emptyKey 64 ∧ (strict = true → ∀ m, Good m e.1) ∧ ∀ v, v < 2 ^ 64 → e.2 v < 2 ^ 64) →
    hI.R t m → (∀ k, (m.lookup k).getD 0 = g k) →
    ∃ t' m', runOn I h t = .ok ((idealRun h g).1, t') ∧ hI.R t' m' ∧ ∀ k v, (k, v) ∈ m' ↔ (k ∈ h.map Prod.fst ∨ k ∈ m.map Prod.fst) ∧ v = (idealRun h g).2 k
  | [], t, m, g, _, hr, hg => by
    refine ⟨t, m, rfl, hr, ?_⟩
    intro k v
    simp only [List.map_nil, List.not_mem_nil, false_or, idealRun]
    rw [← lookup_iff (hI.nodup hr), ← hg k]
    have := lookup_none_iff (m := m) (k := k)
    rcases hl : m.lookup k with _ | u
    · have := this.1 hl; simp [this]
    · have h0 : k ∈ m.map Prod.fst := List.mem_map_of_mem (f := Prod.fst) ((lookup_iff (hI.nodup hr)).1 hl)
      rw [Option.getD_some]
      simp [h0, eq_comm]
  | (k0, f) :: h, t, m, g, hh, hr, hg => by
    obtain ⟨c1, c2, c3, c4, c5⟩ := hh (k0, f) (by simp)
    obtain ⟨t1, a1, a2⟩ := hI.access hr k0 f c3 (fun hs => c4 hs m) c1 c2 c5
    rw [hg k0] at a1 a2
    have hn := hI.nodup hr
    obtain ⟨t2, m2, b1, b2, b3⟩ := run_ok hI h t1 _ (fun x => if x = k0 then f (g k0) else g x) (fun e he => hh e (by simp [he])) a2 (by
      intro k
      rw [lookup_setKey hn]
      split
      · rfl
      · exact hg k)
    refine ⟨t2, m2, ?_, b2, ?_⟩
    · simp only [runOn, a1, Except.bind, b1, idealRun]
    · intro k v
      rw [b3 k v]
      simp only [idealRun, List.map_cons, List.mem_cons]
      have : k ∈ (setKey m k0 (f (g k0))).map Prod.fst ↔ k = k0 ∨ k ∈ m.map Prod.fst := by
        simp only [List.mem_map, Prod.exists, exists_and_right, exists_eq_right]
        constructor
        · rintro ⟨u, hu⟩
          rcases (mem_setKey hn).1 hu with ⟨h1, _⟩ | ⟨_, h1⟩
          · exact Or.inl h1
          · exact Or.inr ⟨u, h1⟩
        · rintro (h1 | ⟨u, h1⟩)
          · exact ⟨_, (mem_setKey hn).2 (Or.inl ⟨h1, rfl⟩)⟩
          · by_cases hk : k = k0
            · exact ⟨_, (mem_setKey hn).2 (Or.inl ⟨hk, rfl⟩)⟩
            · exact ⟨u, (mem_setKey hn).2 (Or.inr ⟨hk, h1⟩)⟩
      rw [this]
      tauto

end Tdc.Esp
