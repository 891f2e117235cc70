import Verif.Model.LFSCoding
import Verif.Lemmas.LZSSCoding
import Verif.Lemmas.HuffFile
import Verif.Lemmas.Arithmetic

namespace Tdc
namespace Lfs

open Arith (bind_ok)

theorem sub32_eq {a b : Nat} (h : b ≤ a) (ha : a < 2 ^ 32) : sub32 a b = a - b := by
  unfold sub32
  rw [show a + 2 ^ 32 - b = (a - b) + 2 ^ 32 by omega, Nat.add_mod_right, Nat.mod_eq_of_lt (by omega)]

theorem u32_eq {a : Nat} (ha : a < 2 ^ 32) : u32 a = a := by
  unfold u32
  exact Nat.mod_eq_of_lt ha

theorem vget_ok {α : Type} {l : List α} {i : Nat} {a : α} (h : l[i]? = some a) : vget l i = .ok a := by
  unfold vget
  rw [h]

theorem vget_inv {α : Type} {l : List α} {i : Nat} {a : α} (h : vget l i = .ok a) : l[i]? = some a := by
  unfold vget at h
  split at h
  · next x hx => cases h; exact hx
  · cases h

variable {c1 c2 : UCoder}

def encs (c1 c2 : UCoder) (ts : List Tok) : List Bool := ts.flatMap (enc c1 c2)

theorem encs_cons (t : Tok) (ts : List Tok) : encs c1 c2 (t :: ts) = enc c1 c2 t ++ encs c1 c2 ts := rfl

theorem encs_nil : encs c1 c2 [] = [] := rfl

theorem encs_append (a b : List Tok) : encs c1 c2 (a ++ b) = encs c1 c2 a ++ encs c1 c2 b := by
  unfold encs
  rw [List.flatMap_append]

/-- the call can be decoded -/
def Good (c1 c2 : UCoder) : Tok → Prop
  | .len r v => c1.TokOk (r, v)
  | .lit r v => c2.TokOk (r, v)

/-- the value is in its range -/
def InRange : Tok → Prop
  | .len r v => r.Has v
  | .lit r v => r.Has v

theorem Good.length {ts : List Tok} (h : ∀ t ∈ ts, Good c1 c2 t) : ts.length ≤ (encs c1 c2 ts).length := by
  induction ts with
  | nil => exact Nat.zero_le _
  | cons t ts ih =>
    rw [encs_cons, List.length_append, List.length_cons]
    have h1 : 0 < (enc c1 c2 t).length := by
      have := h t (List.mem_cons_self ..)
      cases t with
      | len r v => exact List.length_pos_iff.2 this.2
      | lit r v => exact List.length_pos_iff.2 this.2
    have := ih fun u hu => h u (List.mem_cons_of_mem _ hu)
    omega

theorem Good.isEmpty {t : Tok} (h : Good c1 c2 t) (rest : List Bool) : (enc c1 c2 t ++ rest).isEmpty = false := by
  cases t with
  | len r v => exact UCoder.TokOk.isEmpty h rest
  | lit r v => exact UCoder.TokOk.isEmpty h rest

theorem dec_len {v : Nat} {r : Rng} (h : Good c1 c2 (.len r v)) (rest : List Bool) : c1.dec r (enc c1 c2 (.len r v) ++ rest) = .ok (v, rest) := h.1 rest

theorem dec_lit {v : Nat} {r : Rng} (h : Good c1 c2 (.lit r v)) (rest : List Bool) : c2.dec r (enc c1 c2 (.lit r v) ++ rest) = .ok (v, rest) := h.1 rest

/-- what the literal coder needs to know about the announced literals: nothing, or for Huffman that 255 is not among them -/
def LitOk (lc : LitCoder) (ls : List UInt8) : Prop :=
  match lc with
  | .plain c => c.Lawful
  | .huffman => ls.length < 2 ^ 32 ∧ (255 : UInt8) ∉ ls

theorem encHuff_eq {ls : List UInt8} {m : Huff.Mode} : ∀ (ts : List Tok),
    (∀ r v, Tok.lit r v ∈ ts → Huff.encode ls m r v = .ok (c2.enc r v)) → encHuff c1 ls m ts = .ok (encs c1 c2 ts)
  | [], _ => rfl
  | t :: ts, h => by
    have ih := encHuff_eq ts fun r v hc => h r v (List.mem_cons_of_mem _ hc)
    cases t with
    | len r v => rw [encHuff, bind_ok, ih, bind_ok]; rfl
    | lit r v => rw [encHuff, h r v (List.mem_cons_self ..), bind_ok, ih, bind_ok]; rfl

/-- The file is what some pair of coders writes, and reading it starts behind the header. -/
theorem write_read (std : StdLib) (lc : LitCoder) (hc1 : c1.Lawful) (ls : List UInt8) (ts : List Tok) (hlc : LitOk lc ls)
    (hin : ∀ t ∈ ts, InRange t) (hlit : ∀ v, Tok.lit .literal v ∈ ts → ∃ c ∈ ls, v = c.toNat) :
    ∃ (c2 : UCoder) (bytes : List UInt8), write std lc c1 ls ts = .ok bytes ∧ (∀ t ∈ ts, Good c1 c2 t) ∧
      ∀ {α : Type} (body : Dec → List Bool → Res α), read lc body bytes = body c2.dec (encs c1 c2 ts) := by
  cases lc with
  | plain c2 =>
    refine ⟨c2, _, rfl, fun t ht => ?_, fun body => ?_⟩
    · have := hin t ht
      cases t with
      | len r v => exact hc1.tokOk this
      | lit r v => exact UCoder.Lawful.tokOk hlc this
    · simp only [read]
      rw [bitsOf_toBytes]
      rfl
  | huffman =>
    obtain ⟨m, hdr, d, h1, h2, h3, h4⟩ := huff_setup std ls hlc.1 hlc.2
    obtain ⟨c2, hc⟩ : ∃ c : UCoder, c = ⟨fun r v => match Huff.encode ls m r v with | .ok b => b | .error _ => [],
      Huff.decode d, fun _ => none⟩ := ⟨_, rfl⟩
    have henc : ∀ r v, r ≠ .literal → c2.enc r v = bitCoder.enc r v := by
      intro r v hr; rw [hc]; simp only; rw [(h3 r v hr).1]
    have hdec : ∀ r, r ≠ .literal → c2.dec r = bitCoder.dec r := by
      intro r hr; rw [hc]; simp only; rw [(h3 r 0 hr).2]
    refine ⟨c2, BitO.toBytes (hdr ++ encs c1 c2 ts), ?_, fun t ht => ?_, fun body => ?_⟩
    · simp only [write]
      rw [h1, bind_ok, encHuff_eq (c2 := c2), bind_ok]
      intro r v hm
      by_cases hr : r = .literal
      · subst hr
        obtain ⟨x, hx, rfl⟩ := hlit v hm
        obtain ⟨bits, hb1, -, -⟩ := h4 x hx
        rw [hb1, hc]
        simp only [hb1]
      · rw [(h3 r v hr).1, henc r v hr]
    · cases t with
      | len r v => exact hc1.tokOk (hin _ ht)
      | lit r v =>
        by_cases hr : r = .literal
        · subst hr
          obtain ⟨x, hx, rfl⟩ := hlit v ht
          obtain ⟨bits, hb1, hb2, hb3⟩ := h4 x hx
          have hbits : c2.enc .literal x.toNat = bits := by rw [hc]; simp only; rw [hb1]
          refine ⟨fun rest => ?_, ?_⟩
          · simp only
            rw [hbits, hc]
            exact hb3 rest
          · simp only
            rw [hbits]
            exact hb2
        · have := bitCoder_lawful.tokOk (t := (r, v)) (hin _ ht)
          refine ⟨fun rest => ?_, ?_⟩
          · have := this.1 rest
            simp only at *
            rw [hdec r hr, henc r v hr]
            exact this
          · have := this.2
            simp only at *
            rw [henc r v hr]
            exact this
    · simp only [read]
      rw [bitsOf_toBytes, h2, bind_ok, hc]

/-! ## lengths -/

/-- lengths that can be coded: positive, not increasing -/
def Desc : Nat → List (Nat × Nat) → Prop
  | _, [] => True
  | last, (_, l) :: rest => 0 < l ∧ l ≤ last ∧ Desc l rest

theorem deltaToks_inRange {R : Nat} (hR : R < 2 ^ 32) : ∀ (rest : List (Nat × Nat)) (last : Nat), last ≤ R → Desc last rest →
    ∀ t ∈ deltaToks (.range 0 R) last rest, InRange t
  | [], last, hl, _, t, ht => by
    rw [deltaToks, List.mem_singleton] at ht
    subst ht
    exact ⟨Nat.zero_le _, hl, by show R < 2 ^ 64; omega⟩
  | (_, l) :: rest, last, hl, hd, t, ht => by
    obtain ⟨h1, h2, h3⟩ := hd
    rw [deltaToks, List.mem_cons] at ht
    rcases ht with rfl | ht
    · rw [sub32_eq h2 (by omega)]
      exact ⟨Nat.zero_le _, by show last - l ≤ R; omega, by show R < 2 ^ 64; omega⟩
    · exact deltaToks_inRange hR rest l (by omega) h3 t ht

theorem decLensLoop_eq {R : Nat} (hR : R < 2 ^ 32) : ∀ (rest : List (Nat × Nat)) (last fuel : Nat) (bs : List Bool), 0 < last → last ≤ R →
    Desc last rest → (∀ t ∈ deltaToks (.range 0 R) last rest, Good c1 c2 t) → (deltaToks (.range 0 R) last rest).length < fuel →
    decLensLoop c1.dec (.range 0 R) fuel last (encs c1 c2 (deltaToks (.range 0 R) last rest) ++ bs) = .ok (last :: rest.map (·.2), bs)
  | _, _, 0, _, _, _, _, _, h => by omega
  | [], last, fuel + 1, bs, hp, hl, _, hg, hf => by
    cases fuel with
    | zero => simp [deltaToks] at hf
    | succ fuel =>
      rw [decLensLoop, if_pos hp]
      simp only [deltaToks, encs_cons, encs_nil, List.append_nil]
      rw [dec_len (hg _ (by simp [deltaToks])), bind_ok, u32_eq (by omega), sub32_eq (Nat.le_refl _) (by omega), Nat.sub_self, decLensLoop,
        if_neg (by omega), bind_ok]
      rfl
  | (b, l) :: rest, last, fuel + 1, bs, hp, hl, hd, hg, hf => by
    obtain ⟨h1, h2, h3⟩ := hd
    rw [decLensLoop, if_pos hp]
    simp only [deltaToks, encs_cons, List.append_assoc, List.length_cons] at hf ⊢
    have hs := sub32_eq h2 (by omega)
    rw [dec_len (hg _ (by simp [deltaToks])), bind_ok, hs, u32_eq (by omega), sub32_eq (by omega) (by omega), show last - (last - l) = l by omega,
      decLensLoop_eq hR rest l fuel bs h1 (by omega) h3 (fun t ht => hg t (by simp [deltaToks, ht])) (by omega), bind_ok]
    rfl

/-- the lengths of these rules can be coded -/
def DictLens : List (Nat × Nat) → Prop
  | [] => True
  | (_, l) :: rest => 0 < l ∧ l < 2 ^ 32 ∧ Desc l rest

theorem lenToks_inRange {dict : List (Nat × Nat)} (h : DictLens dict) : ∀ t ∈ lenToks dict, InRange t := by
  intro t ht
  cases dict with
  | nil =>
    rw [lenToks, List.mem_singleton] at ht
    subst ht
    exact ⟨Nat.le_refl _, by show 0 ≤ 2 ^ 32 - 1; omega, by show 2 ^ 32 - 1 < 2 ^ 64; decide⟩
  | cons a rest =>
    obtain ⟨h1, h2, h3⟩ := h
    rw [lenToks, List.mem_cons] at ht
    rcases ht with rfl | ht
    · exact ⟨Nat.zero_le _, by show a.2 ≤ 2 ^ 32 - 1; omega, by show 2 ^ 32 - 1 < 2 ^ 64; decide⟩
    · exact deltaToks_inRange h2 rest a.2 (Nat.le_refl _) h3 t ht

theorem lenToks_len (dict : List (Nat × Nat)) : ∀ r v, Tok.lit r v ∉ lenToks dict := by
  have key : ∀ (rest : List (Nat × Nat)) (R : Rng) (last : Nat) r v, Tok.lit r v ∉ deltaToks R last rest := by
    intro rest
    induction rest with
    | nil => intro R last r v h; simp [deltaToks] at h
    | cons a rest ih => intro R last r v h; simp only [deltaToks, List.mem_cons, reduceCtorEq, false_or] at h; exact ih _ _ _ _ h
  intro r v h
  cases dict with
  | nil => simp [lenToks] at h
  | cons a rest => simp only [lenToks, List.mem_cons, reduceCtorEq, false_or] at h; exact key _ _ _ _ _ h

theorem decLens_eq {dict : List (Nat × Nat)} (h : DictLens dict) (hg : ∀ t ∈ lenToks dict, Good c1 c2 t) (bs : List Bool) :
    decLens c1.dec (encs c1 c2 (lenToks dict) ++ bs) = .ok (dict.map (·.2), bs) := by
  have hlen := Good.length hg
  unfold decLens
  cases dict with
  | nil =>
    simp only [lenToks, encs_cons, encs_nil, List.append_nil]
    rw [dec_len (hg _ (by simp [lenToks])), bind_ok, decLensLoop, if_neg (by rw [u32_eq (show 0 < 2 ^ 32 by decide)]; omega)]
    rfl
  | cons a rest =>
    obtain ⟨h1, h2, h3⟩ := h
    have hlen' : (deltaToks (.range 0 a.2) a.2 rest).length < (encs c1 c2 (lenToks (a :: rest)) ++ bs).length + 1 := by
      rw [List.length_append]
      simp only [lenToks, List.length_cons] at hlen ⊢
      omega
    generalize (encs c1 c2 (lenToks (a :: rest)) ++ bs).length + 1 = fuel at hlen' ⊢
    simp only [lenToks, encs_cons, List.append_assoc]
    rw [dec_len (hg _ (by simp [lenToks])), bind_ok]
    simp only [u32_eq h2]
    rw [decLensLoop_eq h2 rest a.2 fuel bs h1 (Nat.le_refl _) h3 (fun t ht => hg t (by simp [lenToks, ht])) hlen']
    rfl

end Lfs
end Tdc
