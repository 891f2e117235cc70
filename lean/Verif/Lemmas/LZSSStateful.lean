import Verif.Model.LZSSStateful
import Verif.Lemmas.LZSSCoding
import Verif.Lemmas.SLE

namespace Tdc

open SLE (SRng)

/-- Decoding the given calls from `s` yields the given values, `eof` is false before each of them, and the state afterwards is
`s'`. -/
def SDec.Yields {σ : Type} (D : SDec σ) : σ → List (SRng × Nat) → σ → Prop
  | s, [], s' => s = s'
  | s, t :: ts, s' => D.eof s = false ∧ ∃ s₁, D.dec t.1 s = .ok (t.2, s₁) ∧ D.Yields s₁ ts s'

theorem SDec.Yields.split {σ : Type} {D : SDec σ} {s s' : σ} {ts us : List (SRng × Nat)} (h : D.Yields s (ts ++ us) s') :
    ∃ s₁, D.Yields s ts s₁ ∧ D.Yields s₁ us s' := by
  induction ts generalizing s with
  | nil => exact ⟨s, rfl, h⟩
  | cons t ts ih =>
    obtain ⟨h1, s2, h2, h3⟩ := h
    obtain ⟨s3, h4, h5⟩ := ih h3
    exact ⟨s3, ⟨h1, s2, h2, h4⟩, h5⟩

theorem decLitsS_map {σ : Type} (D : SDec σ) (l : List UInt8) : ∀ s s', D.Yields s (l.map fun c => (.literal, c.toNat)) s' →
    decLitsS D l.length s = .ok (l.map .lit, s') := by
  induction l with
  | nil => intro s s' h; cases h; rfl
  | cons x l ih =>
    intro s s' h
    obtain ⟨h1, s2, h2, h3⟩ := h
    rw [List.length_cons, decLitsS, h2]
    simp only
    rw [ih s2 s' h3]
    simp

theorem lzssDecLoopS_main {σ : Type} (D : SDec σ) (text : List UInt8) (fmin fmax fdist : Nat) (hn : text.length < 2 ^ 32)
    (s' : σ) (hs' : D.eof s' = true) (fs : List Factor) :
    ∀ (p fuel : Nat) (s : σ), FactorsOrdered text.length p fs → D.Yields s (lzssBodyS text fmin fmax fdist fs p) s' → fs.length < fuel →
      lzssDecLoopS D text.length fmin fmax fdist fuel s = .ok (opsFrom text fs p) := by
  induction fs with
  | nil =>
    intro p fuel s hord hy hfuel
    obtain ⟨fu, rfl⟩ : ∃ fu, fuel = fu + 1 := ⟨fuel - 1, by simp at hfuel; omega⟩
    have hp : p ≤ text.length := hord
    simp only [lzssBodyS] at hy
    rw [lzssDecLoopS]
    by_cases hlt : p < text.length
    · rw [if_pos hlt] at hy
      obtain ⟨h1, s1, h2, h3, s2, h4, h5⟩ := hy
      rw [h1]
      simp only [Bool.false_eq_true, if_false]
      rw [h2]
      simp only [ne_eq, Nat.one_ne_zero, not_false_eq_true, if_true]
      rw [h4]
      simp only
      have h6 := decLitsS_map D (text.drop p) _ _ h5
      rw [List.length_drop] at h6
      rw [Nat.mod_eq_of_lt (by omega), h6]
      simp only [hs', if_true, opsFrom]
    · have hp' : p = text.length := by omega
      subst hp'
      simp only [Nat.lt_irrefl, if_false, List.nil_append, List.drop_length, List.map_nil] at hy
      cases hy
      simp [hs', opsFrom]
  | cons f fs ih =>
    intro p fuel s hord hy hfuel
    obtain ⟨hpf, hsrc, hlen, hrest⟩ := hord
    obtain ⟨fu, rfl⟩ : ∃ fu, fuel = fu + 1 := ⟨fuel - 1, by simp at hfuel; omega⟩
    have hmax : max p f.pos + f.len = f.pos + f.len := by rw [Nat.max_eq_right hpf]
    rw [lzssDecLoopS]
    simp only [lzssBodyS, hmax] at hy
    have hl : ((text.drop p).take (f.pos - p)).length = f.pos - p := by simp; omega
    obtain ⟨s1, ha, h8⟩ := hy.split
    obtain ⟨s4, hy, h4, s5, h5, h6, s6, h7, hz⟩ := ha.split
    cases hz
    obtain ⟨s3, hy1, hy2⟩ := hy.split
    have hbody := ih (f.pos + f.len) fu s1 hrest h8 (by simp at hfuel; omega)
    have h3 := decLitsS_map D _ _ _ hy2
    rw [hl] at h3
    have htail :
        (match decLitsS D ((f.pos - p) % 2 ^ 32) s3 with
          | .error e => .error e
          | .ok (ops, s) =>
            if D.eof s then .ok ops
            else
              match D.dec (.range 0 text.length) s with
              | .error e => .error e
              | .ok (src, s) =>
                match D.dec (.minDist fmin fmax) s with
                | .error e => .error e
                | .ok (len, s) =>
                  match lzssDecLoopS D text.length fmin fmax fdist fu s with
                  | .error e => .error e
                  | .ok rest => .ok (ops ++ .fac (src % 2 ^ 32) (len % 2 ^ 32) :: rest)) = (.ok (opsFrom text (f :: fs) p) : Res (List DecOp)) := by
      rw [Nat.mod_eq_of_lt (by omega), h3]
      simp only [h4, Bool.false_eq_true, if_false]
      rw [h5]
      simp only
      rw [h7]
      simp only
      rw [hbody]
      simp only [opsFrom]
      rw [Nat.mod_eq_of_lt (by omega : f.src < 2 ^ 32), Nat.mod_eq_of_lt (by omega : f.len < 2 ^ 32)]
    by_cases hpe : f.pos = p
    · simp only [hpe, if_true] at hy1
      obtain ⟨h1, s1, h2, hz⟩ := hy1
      cases hz
      rw [h1]
      simp only [Bool.false_eq_true, if_false]
      rw [h2]
      simp only [ne_eq, not_true_eq_false, if_false]
      rw [hpe, Nat.sub_self] at htail
      exact htail
    · simp only [if_neg hpe] at hy1
      obtain ⟨h1, s1, h2, h2e, s2, h2d, hz⟩ := hy1
      cases hz
      rw [h1]
      simp only [Bool.false_eq_true, if_false]
      rw [h2]
      simp only [ne_eq, Nat.one_ne_zero, not_false_eq_true, if_true]
      rw [h2d]
      exact htail

/-- **Decoding the token stream**, for any decoder from which the tokens can be had. (Without factors the shortest length is a dummy
`x`.) -/
theorem lzssDecodeS_encode {σ : Type} (D : SDec σ) (text : List UInt8) (fs : List Factor) (hn : text.length < 2 ^ 32)
    (hord : FactorsOrdered text.length 0 fs) (x : Nat) (hx : fs ≠ [] → x = shortestFactor fs) (fuel : Nat) (hfuel : fs.length < fuel)
    (s s' : σ) (hs' : D.eof s' = true)
    (hy : D.Yields s (lzssHeaderS text x (longestFactor fs) (fdistMaxLoop text.length fs 0 0) ++
      lzssBodyS text (shortestFactor fs) (longestFactor fs) (fdistMaxLoop text.length fs 0 0) fs 0) s') :
    lzssDecodeS D fuel s = .ok (text.length, opsFrom text fs 0) := by
  have hlong : longestFactor fs ≤ text.length := longest_le _ fs 0 (Nat.zero_le _) hord.len_le
  have hfd : fdistMaxLoop text.length fs 0 0 ≤ text.length := fdist_le _ fs 0 0 (Nat.zero_le _) hord
  have hshort : fs ≠ [] → shortestFactor fs < 2 ^ 32 := by
    intro h
    cases fs with
    | nil => exact absurd rfl h
    | cons f fs =>
      have := shortest_le (f :: fs) (2 ^ 32 - 1) f (by simp)
      have := hord.len_le f (by simp)
      unfold shortestFactor
      omega
  have hxe : lzssBodyS text (x % 2 ^ 32) (longestFactor fs) (fdistMaxLoop text.length fs 0 0) fs 0 =
      lzssBodyS text (shortestFactor fs) (longestFactor fs) (fdistMaxLoop text.length fs 0 0) fs 0 := by
    by_cases he : fs = []
    · subst he; rfl
    · rw [hx he, Nat.mod_eq_of_lt (hshort he)]
  obtain ⟨-, s1, h1, -, s2, h2, -, s3, h3, -, s4, h4, h5⟩ := hy
  unfold lzssDecodeS
  rw [h1]
  simp only
  rw [Nat.mod_eq_of_lt hn, h2]
  simp only
  rw [h3]
  simp only
  rw [h4]
  simp only
  rw [Nat.mod_eq_of_lt (by omega : longestFactor fs < 2 ^ 32), Nat.mod_eq_of_lt (by omega : fdistMaxLoop text.length fs 0 0 < 2 ^ 32)]
  rw [lzssDecLoopS_main D text _ _ _ hn s' hs' fs 0 fuel s4 hord (by rw [hxe]; exact h5) hfuel]

/-! ## Ranges and literals of the stateful token stream -/

/-- A range of the universal coders' model. -/
def forget : SRng → Rng
  | .range a b => .range a b
  | .minDist a b => .range a b
  | .literal => .literal
  | .bit => .bit

theorem forget_body (text : List UInt8) (fmin fmax fdist : Nat) (fs : List Factor) : ∀ p,
    (lzssBodyS text fmin fmax fdist fs p).map (fun t => ((forget t.1, t.2) : Token)) = lzssBody text fmin fmax fdist fs p := by
  induction fs with
  | nil =>
    intro p
    simp only [lzssBodyS, lzssBody, List.map_append, litTokens]
    congr 1
    · split <;> simp [forget]
    · rw [List.take_of_length_le (by simp), List.map_map]
      rfl
  | cons f fs ih =>
    intro p
    simp only [lzssBodyS, lzssBody, List.map_append, ih, litTokens]
    congr 2
    congr 1
    · split <;> simp [forget]
    · rw [List.map_map]; rfl

/-- The stateful token stream is the one of `Model/LZSSCoding.lean`, up to the kind of range. -/
theorem forget_encode (text : List UInt8) (fs : List Factor) :
    (lzssEncodeS text fs).map (fun t => ((forget t.1, t.2) : Token)) = lzssEncode text fs := by
  simp only [lzssEncodeS, lzssEncode, List.map_append, forget_body, lzssHeaderS, lzssHeader]
  rfl

theorem has_of_forget {r : SRng} {v : Nat} (h : (forget r).Has v) : r.Has v := by
  cases r with
  | range a b => exact h
  | minDist a b => exact h
  | literal => exact h.2.1
  | bit => exact h.2.1

/-! ## SLE -/

namespace SLE

theorem yields_sdec {d d' : Dec} {ts : List (SRng × Nat)} (h : d.Yields ts d') : sleDec.Yields d ts d' := by
  induction ts generalizing d with
  | nil => exact h
  | cons t ts ih =>
    obtain ⟨h1, d1, h2, h3⟩ := h
    exact ⟨h1, d1, h2, ih h3⟩

theorem encodeAll_length (k sb : Nat) (rk : List Nat) (ts : List (SRng × Nat)) (hts : ∀ t ∈ ts, t.1.Fits t.2) : ∀ buf bits,
    encodeAll k sb rk buf ts = .ok bits → (ts.filter fun t => t.1 ≠ .literal).length ≤ bits.length := by
  induction ts with
  | nil => simp
  | cons t ts ih =>
    intro buf bits h
    obtain ⟨r, v⟩ := t
    have ih := ih (fun t ht => hts t (by simp [ht]))
    rw [encodeAll] at h
    by_cases hr : r = .literal
    · subst hr
      cases he : encode k sb rk buf .literal v with
      | error e => rw [he] at h; simp at h
      | ok x =>
        obtain ⟨a, b⟩ := x
        rw [he] at h
        simp only at h
        cases hb : encodeAll k sb rk b ts with
        | error e => rw [hb] at h; simp at h
        | ok rest =>
          rw [hb] at h
          simp only [Except.ok.injEq] at h
          have := ih b rest hb
          rw [← h, List.filter_cons_of_neg (by simp)]
          simp only [List.length_append]
          omega
    · obtain ⟨code, hne, henc, -⟩ := decode_other k sb rk r v hr (hts (r, v) (by simp))
      rw [henc] at h
      simp only at h
      cases hb : encodeAll k sb rk [] ts with
      | error e => rw [hb] at h; simp at h
      | ok rest =>
        rw [hb] at h
        simp only [Except.ok.injEq] at h
        have := ih [] rest hb
        have := List.length_pos_iff.mpr hne
        rw [← h, List.filter_cons_of_pos (by simpa using hr)]
        simp only [List.length_append, List.length_cons]
        omega

end SLE

theorem bodyS_nonlit (text : List UInt8) (fmin fmax fdist : Nat) (fs : List Factor) : ∀ p,
    fs.length ≤ ((lzssBodyS text fmin fmax fdist fs p).filter fun t => t.1 ≠ SRng.literal).length := by
  induction fs with
  | nil => simp
  | cons f fs ih =>
    intro p
    simp only [lzssBodyS, List.filter_append, List.length_append, List.length_cons]
    have := ih (max p f.pos + f.len)
    have h2 : (List.filter (fun t : SRng × Nat => t.1 ≠ SRng.literal) [(.range 0 text.length, f.src), (.minDist fmin fmax, f.len)]).length = 2 := rfl
    omega

end Tdc
