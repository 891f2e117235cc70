import Verif.Props.Huffman

/-!
# Any compressor with the Huffman coder

The file written by `compress` is read back token by token, whatever tokens the compressor writes.
-/

namespace Tdc

open Huff

/-- For the announced literals the Huffman coder acts like a coder `c` with one header. -/
theorem huff_coder (std : StdLib) (ls : List UInt8) (hls : ls.length < 2 ^ 32) (h255 : (255 : UInt8) ∉ ls) :
    ∃ (c : UCoder) (m : Mode) (hdr : List Bool) (d : DecState), encoder std ls = .ok (m, hdr) ∧ (∀ rest, decoder (hdr ++ rest) = .ok (d, rest)) ∧
      (decCoder d).dec = c.dec ∧ (∀ x ∈ ls, encode ls m .literal x.toNat = .ok (c.enc .literal x.toNat)) ∧ ∀ x ∈ ls, c.TokOk (.literal, x.toNat) := by
  obtain ⟨m, hdr, d, h1, h2, h3, h4⟩ := huff_setup std ls hls h255
  refine ⟨⟨fun r v => match encode ls m r v with | .ok b => b | .error _ => [], decode d, fun _ => none⟩, m, hdr, d, h1, h2, rfl, ?_, ?_⟩
  · intro x hx
    obtain ⟨bits, hb1, -, -⟩ := h4 x hx
    simp only [hb1]
  · intro x hx
    obtain ⟨bits, hb1, hb2, hb3⟩ := h4 x hx
    refine ⟨fun rest => ?_, ?_⟩
    · simp only [hb1]
      exact hb3 rest
    · simp only [hb1]
      exact hb2

/-- If all literals written were announced and 255 is not announced, then the Huffman coder acts like a lawful coder `c`. -/
theorem huff_file (std : StdLib) (ls : List UInt8) (ts : List Token) (hls : ls.length < 2 ^ 32) (h255 : (255 : UInt8) ∉ ls)
    (hlit : ∀ t ∈ ts, t.1 = .literal → ∃ c ∈ ls, t.2 = c.toNat) (hhas : ∀ t ∈ ts, t.1.Has t.2) :
    ∃ (bytes : List UInt8) (c : UCoder) (d : DecState), writeFile std ls ts = .ok bytes ∧ decoder (bitsOf bytes) = .ok (d, c.encAll ts) ∧
      (decCoder d).dec = c.dec ∧ ∀ t ∈ ts, c.TokOk t := by
  obtain ⟨m, hdr, d, h1, h2, h3, h4⟩ := huff_setup std ls hls h255
  obtain ⟨c, hc⟩ : ∃ c : UCoder, c = ⟨fun r v => match encode ls m r v with | .ok b => b | .error _ => [],
    decode d, fun _ => none⟩ := ⟨_, rfl⟩
  have henc : ∀ r v, r ≠ .literal → c.enc r v = bitCoder.enc r v := by
    intro r v hr; rw [hc]; simp only; rw [(h3 r v hr).1]
  have hdec : ∀ r, r ≠ .literal → c.dec r = bitCoder.dec r := by
    intro r hr; rw [hc]; simp only; rw [(h3 r 0 hr).2]
  have hok : ∀ t ∈ ts, c.TokOk t := by
    rintro ⟨r, v⟩ ht
    by_cases hr : r = .literal
    · obtain ⟨x, hx, hv⟩ := hlit _ ht hr
      simp only at hr hv
      subst hr hv
      obtain ⟨bits, hb1, hb2, hb3⟩ := h4 x hx
      have hbits : c.enc .literal x.toNat = bits := by rw [hc]; simp only; rw [hb1]
      refine ⟨?_, by simp only; rw [hbits]; exact hb2⟩
      intro rest
      simp only
      rw [hbits, hc]
      exact hb3 rest
    · have := bitCoder_lawful.tokOk (hhas _ ht)
      refine ⟨fun rest => ?_, ?_⟩
      · have := this.1 rest
        simp only at *
        rw [hdec r hr, henc r v hr]
        exact this
      · simp only
        rw [henc r v hr]
        exact this.2
  have hall : ∀ ts : List Token, (∀ t ∈ ts, t.1 = .literal → ∃ c ∈ ls, t.2 = c.toNat) → encodeAll ls m ts = .ok (c.encAll ts) := by
    intro ts
    induction ts with
    | nil => intro _; rfl
    | cons t ts ih =>
      obtain ⟨r, v⟩ := t
      intro h
      have hone : encode ls m r v = .ok (c.enc r v) := by
        by_cases hr : r = .literal
        · obtain ⟨x, hx, hv⟩ := h (r, v) (by simp) hr
          simp only at hv
          subst hr hv
          obtain ⟨bits, hb1, -, -⟩ := h4 x hx
          rw [hb1, hc]; simp only; rw [hb1]
        · rw [(h3 r v hr).1, henc r v hr]
      rw [encodeAll, hone]
      simp only
      rw [ih (fun t ht => h t (by simp [ht])), encAll_cons]
  refine ⟨BitO.toBytes (hdr ++ c.encAll ts), c, d, ?_, ?_, ?_, hok⟩
  · rw [writeFile, h1]; simp only; rw [hall _ hlit]
  · rw [bitsOf_toBytes, h2]
  · rw [hc]; rfl

end Tdc
