import Verif.Model.LFS
import Verif.Lemmas.LFSCoding

namespace Tdc
namespace Lfs

open Arith (bind_ok)

variable {c1 c2 : UCoder}

/-- the `l` characters at position `p` -/
def sub (T : List UInt8) (p l : Nat) : List UInt8 := (T.drop p).take l

theorem sub_length {T : List UInt8} {p l : Nat} (h : p + l ≤ T.length) : (sub T p l).length = l := by
  unfold sub
  rw [List.length_take, List.length_drop]
  omega

theorem sub_succ {T : List UInt8} {p l : Nat} {c : UInt8} (h : T[p]? = some c) : sub T p (l + 1) = c :: sub T (p + 1) l := by
  obtain ⟨hp, rfl⟩ := List.getElem?_eq_some_iff.1 h
  unfold sub
  rw [List.drop_eq_getElem_cons hp, List.take_succ_cons]

theorem sub_add {T : List UInt8} (p a b : Nat) : sub T p (a + b) = sub T p a ++ sub T (p + a) b := by
  unfold sub
  rw [List.take_add, List.drop_drop]

theorem sub_mem {T : List UInt8} {p l : Nat} {c : UInt8} (h : c ∈ sub T p l) : c ∈ T :=
  List.mem_of_mem_drop (List.mem_of_mem_take h)

theorem readChars_eq {T : List UInt8} : ∀ (k p : Nat), p + k ≤ T.length → readChars T p k = .ok (sub T p k)
  | 0, p, _ => by simp [readChars, sub]
  | k + 1, p, h => by
    have hp : T[p]? = some T[p] := List.getElem?_eq_getElem (by omega)
    rw [readChars, vget_ok hp, bind_ok, readChars_eq k (p + 1) (by omega), bind_ok, sub_succ hp]

/-- the rules are substrings of the text -/
def RulesIn (T : List UInt8) (dict : List (Nat × Nat)) : Prop := ∀ r ∈ dict, r.1 + r.2 ≤ T.length

/-- the non-terminals from position `pos` on stand in order for disjoint substrings that are equal to their rules -/
def Cover (T : List UInt8) (dict : List (Nat × Nat)) : Nat → List (Nat × Nat × Nat) → Prop
  | pos, [] => pos ≤ T.length
  | pos, (s, k, l) :: rest => pos ≤ s ∧ s + l ≤ T.length ∧ (∃ b, dict[k]? = some (b, l) ∧ sub T b l = sub T s l) ∧ Cover T dict (s + l) rest

theorem Cover.le {T : List UInt8} {dict : List (Nat × Nat)} : ∀ {nts : List (Nat × Nat × Nat)} {pos : Nat}, Cover T dict pos nts → pos ≤ T.length
  | [], _, h => h
  | (s, k, l) :: rest, pos, h => by
    obtain ⟨h1, h2, -, h3⟩ := h
    omega

/-! ## the calls -/

theorem dictToks_eq {T : List UInt8} : ∀ (dict : List (Nat × Nat)), RulesIn T dict →
    dictToks T dict = .ok (dict.flatMap fun r => (sub T r.1 r.2).map fun c => .lit .literal c.toNat)
  | [], _ => rfl
  | (p, l) :: rest, h => by
    rw [dictToks, readChars_eq l p (h (p, l) (List.mem_cons_self ..)), bind_ok, dictToks_eq rest fun r hr => h r (List.mem_cons_of_mem _ hr), bind_ok]
    rfl

/-- the start symbol -/
def start (T : List UInt8) (k : Nat) : Nat → List (Nat × Nat × Nat) → List Tok
  | pos, [] => charToks (sub T pos (T.length - pos))
  | pos, (s, n, l) :: rest => charToks (sub T pos (s - pos)) ++ .lit .bit 1 :: .lit (.range 0 k) n :: start T k (s + l) rest

theorem startToks_eq {T : List UInt8} {dict : List (Nat × Nat)} {k : Nat} : ∀ (nts : List (Nat × Nat × Nat)) (pos : Nat), Cover T dict pos nts →
    startToks T k pos nts = .ok (start T k pos nts)
  | [], pos, h => by
    have : pos ≤ T.length := h
    rw [startToks, readChars_eq _ _ (by omega), bind_ok, start]
  | (s, n, l) :: rest, pos, h => by
    obtain ⟨h1, h2, -, h3⟩ := h
    rw [startToks, readChars_eq _ _ (by omega), bind_ok, Nat.max_eq_right h1, startToks_eq rest (s + l) h3, bind_ok, start]

theorem charToks_cons (c : UInt8) (cs : List UInt8) : charToks (c :: cs) = .lit .bit 0 :: .lit .literal c.toNat :: charToks cs := rfl

theorem lit_inRange (c : UInt8) : InRange (.lit .literal c.toNat) :=
  ⟨Nat.zero_le _, by have := c.toNat_lt; show c.toNat ≤ 255; omega, by show 255 < 2 ^ 64; decide⟩

theorem bit_inRange {b : Nat} (h : b ≤ 1) : InRange (.lit .bit b) := ⟨Nat.zero_le _, h, by show 1 < 2 ^ 64; decide⟩

theorem charToks_mem {cs : List UInt8} {t : Tok} (h : t ∈ charToks cs) : t = .lit .bit 0 ∨ ∃ c ∈ cs, t = .lit .literal c.toNat := by
  obtain ⟨c, hc, h⟩ := List.mem_flatMap.1 h
  simp only [List.mem_cons, List.not_mem_nil, or_false] at h
  rcases h with h | h
  · exact Or.inl h
  · exact Or.inr ⟨c, hc, h⟩

theorem start_mem {T : List UInt8} {dict : List (Nat × Nat)} {k : Nat} (hk : k = dict.length) : ∀ (nts : List (Nat × Nat × Nat)) (pos : Nat), Cover T dict pos nts →
    ∀ t ∈ start T k pos nts, t = .lit .bit 0 ∨ t = .lit .bit 1 ∨ (∃ c ∈ T, t = .lit .literal c.toNat) ∨ ∃ n, n < k ∧ t = .lit (.range 0 k) n
  | [], pos, h, t, ht => by
    rcases charToks_mem ht with h | ⟨c, hc, h⟩
    · exact Or.inl h
    · exact Or.inr (Or.inr (Or.inl ⟨c, sub_mem hc, h⟩))
  | (s, n, l) :: rest, pos, h, t, ht => by
    obtain ⟨h1, h2, ⟨b, hb, -⟩, h3⟩ := h
    rw [start, List.mem_append, List.mem_cons, List.mem_cons] at ht
    rcases ht with ht | ht | ht | ht
    · rcases charToks_mem ht with h | ⟨c, hc, h⟩
      · exact Or.inl h
      · exact Or.inr (Or.inr (Or.inl ⟨c, sub_mem hc, h⟩))
    · exact Or.inr (Or.inl ht)
    · exact Or.inr (Or.inr (Or.inr ⟨n, by rw [hk]; exact (List.getElem?_eq_some_iff.1 hb).1, ht⟩))
    · exact start_mem hk rest _ h3 t ht

/-! ## decoding -/

theorem decChars_eq : ∀ (cs : List UInt8) (bs : List Bool), (∀ c ∈ cs, Good c1 c2 (.lit .literal c.toNat)) →
    decChars c2.dec cs.length (encs c1 c2 (cs.map fun c => .lit .literal c.toNat) ++ bs) = .ok (cs, bs)
  | [], bs, _ => rfl
  | c :: cs, bs, h => by
    rw [List.map_cons, encs_cons, List.length_cons, decChars, List.append_assoc, dec_lit (h c (List.mem_cons_self ..)), bind_ok,
      decChars_eq cs bs fun d hd => h d (List.mem_cons_of_mem _ hd), bind_ok]
    simp

theorem decDict_eq {T : List UInt8} : ∀ (dict : List (Nat × Nat)) (bs : List Bool), RulesIn T dict →
    (∀ t ∈ dict.flatMap fun r => (sub T r.1 r.2).map fun c => Tok.lit .literal c.toNat, Good c1 c2 t) →
    decDict c2.dec (dict.map (·.2)) (encs c1 c2 (dict.flatMap fun r => (sub T r.1 r.2).map fun c => .lit .literal c.toNat) ++ bs) =
      .ok (dict.map (fun r => sub T r.1 r.2), bs)
  | [], bs, _, _ => rfl
  | r :: rest, bs, hd, hg => by
    have hl := sub_length (hd r (List.mem_cons_self ..))
    rw [List.map_cons, List.flatMap_cons, encs_append, decDict, List.append_assoc]
    have h1 := decChars_eq (c1 := c1) (c2 := c2) (sub T r.1 r.2) (encs c1 c2 (rest.flatMap fun r => (sub T r.1 r.2).map fun c => .lit .literal c.toNat) ++ bs)
      (fun c hc => hg _ (by rw [List.flatMap_cons]; exact List.mem_append_left _ (List.mem_map_of_mem hc)))
    rw [hl] at h1
    rw [h1, bind_ok, decDict_eq rest bs (fun x hx => hd x (List.mem_cons_of_mem _ hx)) (fun t ht => hg t (by
      rw [List.flatMap_cons]; exact List.mem_append_right _ ht)), bind_ok]
    rfl

theorem decText_chars {dict : List (List UInt8)} : ∀ (cs : List UInt8) (fuel : Nat) (ts : List Tok) (out : List UInt8),
    (∀ t ∈ charToks cs, Good c1 c2 t) → (∀ fuel', ts.length < fuel' → decText c2.dec dict fuel' (encs c1 c2 ts) = .ok out) →
    (charToks cs ++ ts).length < fuel → decText c2.dec dict fuel (encs c1 c2 (charToks cs ++ ts)) = .ok (cs ++ out)
  | [], fuel, ts, out, _, h, hf => h fuel hf
  | c :: cs, 0, ts, out, _, _, hf => by omega
  | c :: cs, fuel + 1, ts, out, hg, h, hf => by
    rw [charToks_cons] at hg hf ⊢
    simp only [List.cons_append, encs_cons, List.length_cons] at hf ⊢
    have g1 := hg _ (List.mem_cons_self ..)
    have g2 := hg _ (List.mem_cons_of_mem _ (List.mem_cons_self ..))
    rw [decText, if_neg (by rw [Good.isEmpty g1]; decide), dec_lit g1, bind_ok, if_pos rfl, dec_lit g2, bind_ok,
      decText_chars cs fuel ts out (fun t ht => hg t (by simp [ht])) h (by omega), bind_ok]
    simp

theorem decText_eq {T : List UInt8} {dict : List (Nat × Nat)} (hk : dict.length < 2 ^ 32) : ∀ (nts : List (Nat × Nat × Nat)) (pos fuel : Nat), Cover T dict pos nts →
    (∀ t ∈ start T dict.length pos nts, Good c1 c2 t) → (start T dict.length pos nts).length < fuel →
    decText c2.dec (dict.map fun r => sub T r.1 r.2) fuel (encs c1 c2 (start T dict.length pos nts)) = .ok (sub T pos (T.length - pos))
  | [], pos, fuel, h, hg, hf => by
    rw [start] at hg hf ⊢
    have := decText_chars (c1 := c1) (c2 := c2) (dict := dict.map fun r => sub T r.1 r.2) (sub T pos (T.length - pos)) fuel [] [] hg
      (fun f' hf' => by
        cases f' with
        | zero => simp at hf'
        | succ f' => rfl) (by simpa using hf)
    simpa using this
  | (s, n, l) :: rest, pos, fuel, h, hg, hf => by
    obtain ⟨h1, h2, ⟨b, hb, hsub⟩, h3⟩ := h
    rw [start] at hg hf ⊢
    have hn := (List.getElem?_eq_some_iff.1 hb).1
    have hcov := h3.le
    rw [show sub T pos (T.length - pos) = sub T pos (s - pos) ++ (sub T s l ++ sub T (s + l) (T.length - (s + l))) by
      rw [← sub_add, show T.length - pos = (s - pos) + (l + (T.length - (s + l))) by omega, sub_add, show pos + (s - pos) = s by omega]]
    apply decText_chars
    · exact fun t ht => hg t (List.mem_append_left _ ht)
    · intro f' hf'
      cases f' with
      | zero => simp at hf'
      | succ f' =>
        simp only [List.length_cons] at hf'
        have g1 := hg (.lit .bit 1) (List.mem_append_right _ (List.mem_cons_self ..))
        have g2 := hg (.lit (.range 0 dict.length) n) (List.mem_append_right _ (List.mem_cons_of_mem _ (List.mem_cons_self ..)))
        rw [encs_cons, encs_cons, decText, if_neg (by rw [Good.isEmpty g1]; decide), dec_lit g1, bind_ok, if_neg (show ¬ (1 : Nat) = 0 by decide), List.length_map,
          dec_lit g2, bind_ok, decText_eq hk rest (s + l) f' h3 (fun t ht => hg t (by simp [ht])) (by omega), bind_ok, u32_eq (by omega),
          List.getD_eq_getElem?_getD, List.getElem?_map, hb]
        simp [hsub]
    · exact hf

/-- Whatever a strategy computes: if its rules and non-terminals describe the text, then the text is restored. -/
theorem encode_decode (std : StdLib) (lc : LitCoder) (hc1 : c1.Lawful) (T : List UInt8) (hlc : LitOk lc T) (dict : List (Nat × Nat))
    (nts : List (Nat × Nat × Nat)) (hk : dict.length < 2 ^ 32) (hl : DictLens dict) (hr : RulesIn T dict) (hc : Cover T dict 0 nts) :
    ∃ ts bytes, encodeToks T dict nts = .ok ts ∧ write std lc c1 T ts = .ok bytes ∧ decompress lc c1 bytes = .ok T := by
  have h0 : encodeToks T dict nts = .ok (lenToks dict ++ (dict.flatMap fun r => (sub T r.1 r.2).map fun c => .lit .literal c.toNat) ++ start T dict.length 0 nts) := by
    rw [encodeToks, dictToks_eq dict hr, bind_ok, startToks_eq nts 0 hc, bind_ok]
  have hdict : ∀ t ∈ dict.flatMap (fun r => (sub T r.1 r.2).map fun c => Tok.lit .literal c.toNat), ∃ c ∈ T, t = .lit .literal c.toNat := by
    intro t ht
    obtain ⟨r, -, ht⟩ := List.mem_flatMap.1 ht
    obtain ⟨c, hc, rfl⟩ := List.mem_map.1 ht
    exact ⟨c, sub_mem hc, rfl⟩
  obtain ⟨c2, bytes, w1, w2, w3⟩ := write_read (c1 := c1) std lc hc1 T (lenToks dict ++ (dict.flatMap fun r => (sub T r.1 r.2).map fun c => .lit .literal c.toNat) ++
      start T dict.length 0 nts) hlc (by
    intro t ht
    rw [List.mem_append, List.mem_append] at ht
    rcases ht with (ht | ht) | ht
    · exact lenToks_inRange hl t ht
    · obtain ⟨c, -, rfl⟩ := hdict t ht
      exact lit_inRange c
    · rcases start_mem rfl nts 0 hc t ht with rfl | rfl | ⟨c, -, rfl⟩ | ⟨n, hn, rfl⟩
      · exact bit_inRange (Nat.zero_le _)
      · exact bit_inRange (Nat.le_refl _)
      · exact lit_inRange c
      · exact ⟨Nat.zero_le _, Nat.le_of_lt hn, by show dict.length < 2 ^ 64; omega⟩) (by
    intro v hv
    rw [List.mem_append, List.mem_append] at hv
    rcases hv with (ht | ht) | ht
    · exact absurd ht (lenToks_len _ _ _)
    · obtain ⟨c, hc, h⟩ := hdict _ ht
      cases h
      exact ⟨c, hc, rfl⟩
    · rcases start_mem rfl nts 0 hc _ ht with h | h | ⟨c, hc, h⟩ | ⟨n, hn, h⟩
      · cases h
      · cases h
      · cases h
        exact ⟨c, hc, rfl⟩
      · cases h)
  refine ⟨_, bytes, h0, w1, ?_⟩
  rw [decompress, w3 (decodeBits c1.dec), decodeBits]
  have hlen : (start T dict.length 0 nts).length ≤ (encs c1 c2 (start T dict.length 0 nts)).length := Good.length fun t ht => w2 t (by simp [ht])
  have hfuel : (start T dict.length 0 nts).length < (encs c1 c2 (lenToks dict ++ (dict.flatMap fun r => (sub T r.1 r.2).map fun c => .lit .literal c.toNat) ++
      start T dict.length 0 nts)).length + 1 := by
    rw [encs_append, List.length_append]
    omega
  generalize (encs c1 c2 (lenToks dict ++ (dict.flatMap fun r => (sub T r.1 r.2).map fun c => .lit .literal c.toNat) ++
      start T dict.length 0 nts)).length + 1 = fuel at hfuel ⊢
  rw [encs_append, encs_append, List.append_assoc, decLens_eq hl (fun t ht => w2 t (by simp [ht])), bind_ok,
    decDict_eq dict _ hr (fun t ht => w2 t (by rw [List.mem_append, List.mem_append]; exact Or.inl (Or.inr ht))), bind_ok,
    decText_eq hk nts 0 fuel hc (fun t ht => w2 t (List.mem_append_right _ ht)) hfuel]
  simp [sub]

end Lfs
end Tdc
