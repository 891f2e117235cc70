import Verif.Model.LZSSWindow
import Verif.Lemmas.Coders
import Verif.Lemmas.BitIO
import Mathlib.Tactic.ByContra

namespace Tdc

/-! ## Matches -/

theorem matchLen_le (a b : List UInt8) : matchLen a b ≤ b.length := by
  induction a generalizing b with
  | nil => simp [matchLen]
  | cons x a ih =>
    cases b with
    | nil => simp [matchLen]
    | cons y b =>
      simp only [matchLen]
      split
      · have := ih b; simp; omega
      · omega

theorem matchLen_get (a b : List UInt8) (i : Nat) (h : i < matchLen a b) : a[i]? = b[i]? := by
  induction a generalizing b i with
  | nil => simp [matchLen] at h
  | cons x a ih =>
    cases b with
    | nil => simp [matchLen] at h
    | cons y b =>
      simp only [matchLen] at h
      split at h
      · cases i with
        | zero => simp_all
        | succ i => simpa using ih b i (by omega)
      · omega

/-- what the search returns: nothing, or a match starting in the searched interval -/
theorem winSearch_spec (buf : List UInt8) (ahead threshold n k : Nat) (best : Nat × Nat)
    (P : Nat × Nat → Prop) (hb : P best)
    (hP : ∀ k', k ≤ k' → k' < k + n → P (k', matchLen (buf.drop k') (buf.drop ahead))) :
    P (winSearch buf ahead threshold n k best) := by
  induction n generalizing k best with
  | zero => exact hb
  | succ n ih =>
    simp only [winSearch]
    refine ih _ _ ?_ ?_
    · split
      · exact hP k (by omega) (by omega)
      · exact hb
    · intro k' h1 h2
      exact hP k' (by omega) (by omega)

/-! ## The buffer -/

/-- The state is the window at position `off + ahead` of the text. -/
structure WinInv (w : Nat) (text : List UInt8) (s : WinState) : Prop where
  text_eq : text.drop s.off = s.buf ++ s.ins
  off_le : s.off ≤ text.length
  ahead_le : s.ahead ≤ s.buf.length
  buf_le : s.buf.length ≤ 2 * w
  more : s.ins ≠ [] → s.eof = false ∧ s.buf.length = 2 * w ∧ s.ahead ≤ w

theorem winInit_inv (w : Nat) (text : List UInt8) : WinInv w text (winInit w text) where
  text_eq := by simp [winInit]
  off_le := by simp [winInit]
  ahead_le := by simp [winInit]
  buf_le := by simp [winInit]; omega
  more := by
    simp only [winInit]
    intro h
    have : 2 * w < text.length := by
      by_contra hc
      exact h (List.drop_eq_nil_of_le (by omega))
    exact ⟨trivial, by simp; omega, by omega⟩

theorem winStep_inv {w : Nat} {text : List UInt8} {s : WinState} (h : WinInv w text s) (hlt : s.ahead < s.buf.length) :
    WinInv w text (winStep w s) ∧ (winStep w s).off + (winStep w s).ahead = s.off + s.ahead + 1 ∧
      (winStep w s).buf.length - (winStep w s).ahead + 1 ≥ s.buf.length - s.ahead := by
  obtain ⟨buf, ahead, off, ins, eof⟩ := s
  obtain ⟨h1, h2, h3, h4, h5⟩ := h
  simp only at h1 h2 h3 h4 h5 hlt
  unfold winStep
  split
  · rename_i hw
    simp only at hw ⊢
    refine ⟨⟨h1, h2, by simp; omega, h4, fun h => ?_⟩, by omega, by omega⟩
    have := h5 h
    exact ⟨this.1, this.2.1, by simp; omega⟩
  · rename_i hw
    simp only at hw ⊢
    split
    · rename_i c rest
      have h5' := h5 (by simp)
      have hb : 0 < buf.length := by omega
      refine ⟨⟨?_, ?_, ?_, ?_, ?_⟩, by simp; omega, by simp; omega⟩
      · simp only
        rw [← List.drop_drop, h1, List.drop_append_of_le_length (by omega)]
        simp
      · have hl := congrArg List.length h1
        simp only [List.length_drop, List.length_append, List.length_cons] at hl
        simp only
        omega
      · simp; omega
      · simp; omega
      · intro _
        exact ⟨rfl, by simp; omega, h5'.2.2⟩
    · rename_i hx
      have hins : ins = [] := by
        by_contra hne
        obtain ⟨he, -⟩ := h5 hne
        cases ins with
        | nil => exact hne rfl
        | cons c r => exact hx c r he rfl
      subst hins
      exact ⟨⟨h1, h2, by simp; omega, h4, fun h => absurd rfl h⟩, by simp; omega, by simp; omega⟩

theorem winAdvance_inv {w : Nat} {text : List UInt8} (n : Nat) {s : WinState} (h : WinInv w text s)
    (hn : s.ahead + n ≤ s.buf.length) :
    WinInv w text (winAdvance w n s) ∧ (winAdvance w n s).off + (winAdvance w n s).ahead = s.off + s.ahead + n := by
  induction n generalizing s with
  | zero => exact ⟨h, rfl⟩
  | succ n ih =>
    obtain ⟨a, b, c⟩ := winStep_inv h (by omega)
    have hle := a.ahead_le
    obtain ⟨d, e⟩ := ih a (by omega)
    exact ⟨d, by simp only [winAdvance]; omega⟩

theorem WinInv.get {w : Nat} {text : List UInt8} {s : WinState} (h : WinInv w text s) (i : Nat) (hi : i < s.buf.length) :
    s.buf[i]? = text[s.off + i]? := by
  have h1 : (text.drop s.off)[i]? = s.buf[i]? := by
    rw [h.text_eq, List.getElem?_append_left hi]
  rw [← h1, List.getElem?_drop]

theorem WinInv.len {w : Nat} {text : List UInt8} {s : WinState} (h : WinInv w text s) :
    s.off + s.buf.length + s.ins.length = text.length := by
  have hl := congrArg List.length h.text_eq
  have := h.off_le
  simp only [List.length_drop, List.length_append] at hl
  omega

/-! ## Copying -/

/-- Copying a correct back-reference extends the decoded prefix. -/
theorem copyFrom_spec (text : List UInt8) (p src n : Nat) (hp : p + n ≤ text.length) (hs : src < p)
    (hm : ∀ i, i < n → text[src + i]? = text[p + i]?) :
    copyFrom (text.take p) src n = .ok (text.take (p + n)) := by
  induction n generalizing p src with
  | zero => rfl
  | succ n ih =>
    have h0 := hm 0 (by omega)
    simp only [Nat.add_zero] at h0
    have hg : text[p]? = some text[p] := List.getElem?_eq_getElem (by omega)
    have h1 : vget (text.take p) src = .ok text[p] := by
      unfold vget
      rw [List.getElem?_take_of_lt hs, h0, hg]
    rw [copyFrom, h1]
    simp only
    rw [List.take_append_getElem (by omega), ih (p + 1) (src + 1) (by omega) (by omega) ?_]
    · rw [show p + 1 + n = p + (n + 1) by omega]
    · intro i hi
      have := hm (i + 1) (by omega)
      rw [show src + 1 + i = src + (i + 1) by omega, this, show p + 1 + i = p + (i + 1) by omega]

/-! ## Round trip -/

/-- A coder decodes this value with this range (it may or may not lie in the range). -/
def UCoder.Fits (c : UCoder) (r : Rng) (v : Nat) : Prop := ∀ rest, c.dec r (c.enc r v ++ rest) = .ok (v, rest)

theorem UCoder.Lawful.fits {c : UCoder} (hc : c.Lawful) {r : Rng} {v : Nat} (h : r.Has v) : c.Fits r v :=
  fun rest => hc.dec_enc r v rest h

theorem isEmpty_enc {c : UCoder} (hc : c.Lawful) {r : Rng} {v : Nat} (h : r.Has v) (rest : List Bool) :
    (c.enc r v ++ rest).isEmpty = false := by
  cases hx : c.enc r v with
  | nil => exact absurd hx (hc.enc_ne_nil r v h)
  | cons a b => rfl

theorem winLoop_main {c : UCoder} (hc : c.Lawful) (w threshold : Nat) (hw : 0 < w) (text : List UInt8) (hlen : text.length < 2 ^ 64)
    (hfit : ∀ v, 0 < v → v < 2 * w → c.Fits (.range 0 w) v) (fuel : Nat) :
    ∀ s : WinState, WinInv w text s → text.length < s.off + s.ahead + fuel →
    ∃ ts, winLoop w threshold fuel s = .ok ts ∧
      ∀ dfuel, (c.encAll ts).length < dfuel → winDecLoop c w dfuel (c.encAll ts) (text.take (s.off + s.ahead)) = .ok text := by
  induction fuel with
  | zero =>
    intro s h hf
    have := h.len
    have := h.ahead_le
    omega
  | succ fuel ih =>
    intro s h hf
    have hl := h.len
    have hale := h.ahead_le
    rw [winLoop]
    by_cases hlt : s.ahead < s.buf.length
    · rw [if_pos hlt]
      have hlo : (if s.ahead > w then s.ahead - w else 0) ≤ s.ahead := by split <;> omega
      generalize hgl : (if s.ahead > w then s.ahead - w else 0) = lo at hlo
      have hspec := winSearch_spec s.buf s.ahead threshold (s.ahead - lo) lo (0, 0)
        (fun r => 0 < r.2 → r.1 < s.ahead ∧ s.ahead + r.2 ≤ s.buf.length ∧ ∀ i, i < r.2 → s.buf[r.1 + i]? = s.buf[s.ahead + i]?)
        (by simp) (by
          intro k' h1 h2 h3
          refine ⟨by simp only; omega, ?_, ?_⟩
          · have := matchLen_le (s.buf.drop k') (s.buf.drop s.ahead)
            simp only [List.length_drop] at this ⊢
            omega
          · intro i hi
            have := matchLen_get _ _ i hi
            simpa [List.getElem?_drop] using this)
      simp only
      generalize winSearch s.buf s.ahead threshold (s.ahead - lo) lo (0, 0) = r at hspec
      obtain ⟨k, fnum⟩ := r
      simp only at hspec
      by_cases hfn : fnum > 0
      · obtain ⟨h1, h2, h3⟩ := hspec hfn
        obtain ⟨hadv, hpos⟩ := winAdvance_inv fnum h h2
        obtain ⟨ts, hts, hdec⟩ := ih _ hadv (by omega)
        simp only [hfn, if_true, hts]
        refine ⟨_, rfl, ?_⟩
        intro dfuel hdf
        obtain ⟨df, rfl⟩ : ∃ df, dfuel = df + 1 := ⟨dfuel - 1, by omega⟩
        have hHas1 : Rng.bit.Has 1 := by decide
        have hp : s.off + s.ahead ≤ text.length := by omega
        have hHas2 : (Rng.range 0 (s.off + s.ahead)).Has (s.off + s.ahead - (s.off + k)) :=
          ⟨Nat.zero_le _, by show _ ≤ s.off + s.ahead; omega, by show s.off + s.ahead < 2 ^ 64; omega⟩
        have hfits := hfit fnum hfn (by have := h.buf_le; omega)
        simp only [UCoder.encAll, List.flatMap_cons, List.append_assoc] at hdf ⊢
        rw [winDecLoop, isEmpty_enc hc hHas1]
        simp only [Bool.false_eq_true, if_false]
        rw [hc.dec_enc _ _ _ hHas1]
        simp only [ne_eq, Nat.one_ne_zero, not_false_eq_true, if_true]
        have htl : (text.take (s.off + s.ahead)).length = s.off + s.ahead := by simp; omega
        rw [htl, hc.dec_enc _ _ _ hHas2]
        simp only
        rw [hfits]
        simp only
        have hsrc : (s.off + s.ahead + 2 ^ 64 - (s.off + s.ahead - (s.off + k))) % 2 ^ 64 = s.off + k := by
          rw [show s.off + s.ahead + 2 ^ 64 - (s.off + s.ahead - (s.off + k)) = s.off + k + 2 ^ 64 by omega, Nat.add_mod_right]
          exact Nat.mod_eq_of_lt (by omega)
        rw [hsrc, copyFrom_spec text (s.off + s.ahead) (s.off + k) fnum (by omega) (by omega)]
        · simp only
          rw [← hpos]
          refine hdec df ?_
          have := List.length_pos_iff.mpr (hc.enc_ne_nil _ _ hHas1)
          simp only [List.length_append] at hdf
          unfold UCoder.encAll
          omega
        · intro i hi
          have := h3 i hi
          rw [h.get _ (by omega), h.get _ (by omega)] at this
          rw [← Nat.add_assoc, ← Nat.add_assoc] at this
          exact this
      · obtain ⟨hadv, hpos⟩ := winAdvance_inv 1 h (by omega)
        obtain ⟨ts, hts, hdec⟩ := ih _ hadv (by omega)
        simp only [hfn, if_false, hts]
        refine ⟨_, rfl, ?_⟩
        intro dfuel hdf
        obtain ⟨df, rfl⟩ : ∃ df, dfuel = df + 1 := ⟨dfuel - 1, by omega⟩
        have hHas1 : Rng.bit.Has 0 := by decide
        have hHas2 : Rng.literal.Has (s.buf.getD s.ahead 0).toNat := by
          refine ⟨Nat.zero_le _, ?_, by decide⟩
          have := (s.buf.getD s.ahead 0).toNat_lt
          show _ ≤ 255
          omega
        simp only [UCoder.encAll, List.flatMap_cons, List.append_assoc] at hdf ⊢
        rw [winDecLoop, isEmpty_enc hc hHas1]
        simp only [Bool.false_eq_true, if_false]
        rw [hc.dec_enc _ _ _ hHas1]
        simp only [ne_eq, not_true_eq_false, if_false]
        rw [hc.dec_enc _ _ _ hHas2]
        simp only [UInt8.ofNat_toNat]
        have hg : text[s.off + s.ahead]? = some (s.buf.getD s.ahead 0) := by
          rw [← h.get _ hlt, List.getD_eq_getElem?_getD, List.getElem?_eq_getElem hlt]
          rfl
        have htk : text.take (s.off + s.ahead) ++ [s.buf.getD s.ahead 0] = text.take (s.off + s.ahead + 1) := by
          rw [List.take_add_one, hg]; rfl
        rw [htk, ← hpos]
        refine hdec df ?_
        have := List.length_pos_iff.mpr (hc.enc_ne_nil _ _ hHas1)
        simp only [List.length_append] at hdf
        unfold UCoder.encAll
        omega
    · rw [if_neg hlt]
      refine ⟨[], rfl, ?_⟩
      intro dfuel hdf
      obtain ⟨df, rfl⟩ : ∃ df, dfuel = df + 1 := ⟨dfuel - 1, by omega⟩
      have hins : s.ins = [] := by
        by_contra hne
        obtain ⟨-, h2, h3⟩ := h.more hne
        omega
      rw [hins, List.length_nil] at hl
      simp only [UCoder.encAll, List.flatMap_nil, winDecLoop, List.isEmpty_nil, if_true]
      rw [List.take_of_length_le (by omega)]

theorem win_roundtrip {c : UCoder} (hc : c.Lawful) (w threshold : Nat) (hw : 0 < w) (text : List UInt8) (hlen : text.length < 2 ^ 64)
    (hfit : ∀ v, 0 < v → v < 2 * w → c.Fits (.range 0 w) v) :
    ∃ bytes, winCompress c w threshold text = .ok bytes ∧ winDecompress c w bytes = .ok text := by
  obtain ⟨ts, h1, h2⟩ := winLoop_main hc w threshold hw text hlen hfit (text.length + 1) _ (winInit_inv w text) (by omega)
  refine ⟨BitO.toBytes (c.encAll ts), by simp only [winCompress, h1], ?_⟩
  have := h2 ((c.encAll ts).length + 1) (by omega)
  simpa [winDecompress, bitsOf_toBytes, winInit] using this

end Tdc
