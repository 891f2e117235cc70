import Verif.Model.LZSSCoding
import Verif.Lemmas.LZSSWindow
import Verif.Spec.Factors

namespace Tdc

/-- The coder gets this token across and spends at least a bit on it. -/
def UCoder.TokOk (c : UCoder) (t : Token) : Prop := c.Fits t.1 t.2 ∧ c.enc t.1 t.2 ≠ []

theorem UCoder.Lawful.tokOk {c : UCoder} (hc : c.Lawful) {t : Token} (h : t.1.Has t.2) : c.TokOk t :=
  ⟨hc.fits h, hc.enc_ne_nil _ _ h⟩

theorem encAll_cons (c : UCoder) (t : Token) (ts : List Token) : c.encAll (t :: ts) = c.enc t.1 t.2 ++ c.encAll ts := by
  simp [UCoder.encAll]

theorem encAll_append (c : UCoder) (ts us : List Token) : c.encAll (ts ++ us) = c.encAll ts ++ c.encAll us := by
  simp [UCoder.encAll]

@[simp] theorem encAll_nil (c : UCoder) : c.encAll [] = [] := rfl

theorem UCoder.TokOk.isEmpty {c : UCoder} {t : Token} (h : c.TokOk t) (rest : List Bool) :
    (c.enc t.1 t.2 ++ rest).isEmpty = false := by
  cases hx : c.enc t.1 t.2 with
  | nil => exact absurd hx h.2
  | cons a b => rfl

theorem FactorsOrdered.le {n p : Nat} {fs : List Factor} (h : FactorsOrdered n p fs) : p ≤ n := by
  cases fs with
  | nil => exact h
  | cons f fs => obtain ⟨h1, h2, h3, h4⟩ := h; omega

/-- the calls a decoder must make for a text with given factors -/
def opsFrom (text : List UInt8) : List Factor → Nat → List DecOp
  | [], p => (text.drop p).map .lit
  | f :: fs, p => ((text.drop p).take (f.pos - p)).map .lit ++ .fac f.src f.len :: opsFrom text fs (f.pos + f.len)

theorem decLits_map (c : UCoder) (l : List UInt8) (hok : ∀ t ∈ l.map (fun c => ((Rng.literal, c.toNat) : Token)), c.TokOk t)
    (rest : List Bool) :
    decLits c l.length (c.encAll (l.map fun c => (.literal, c.toNat)) ++ rest) = .ok (l.map .lit, rest) := by
  induction l with
  | nil => rfl
  | cons x l ih =>
    rw [List.map_cons, encAll_cons, List.append_assoc, List.length_cons, decLits]
    have h := hok (.literal, x.toNat) (by simp)
    rw [h.1]
    simp only
    rw [ih (fun t ht => hok t (by simp only [List.map_cons, List.mem_cons]; exact Or.inr ht))]
    simp

theorem lzssDecLoop_main (c : UCoder) (text : List UInt8) (fmin fmax fdist : Nat) (hn : text.length < 2 ^ 32) (fs : List Factor) :
    ∀ p fuel : Nat, FactorsOrdered text.length p fs → (∀ t ∈ lzssBody text fmin fmax fdist fs p, c.TokOk t) →
      (c.encAll (lzssBody text fmin fmax fdist fs p)).length < fuel →
      lzssDecLoop c text.length fmin fmax fdist fuel (c.encAll (lzssBody text fmin fmax fdist fs p)) = .ok (opsFrom text fs p) := by
  induction fs with
  | nil =>
    intro p fuel hord hok hfuel
    obtain ⟨fu, rfl⟩ : ∃ fu, fuel = fu + 1 := ⟨fuel - 1, by omega⟩
    have hp : p ≤ text.length := hord
    simp only [lzssBody, litTokens] at hok ⊢
    have htk : (text.drop p).take (text.length - p) = text.drop p := List.take_of_length_le (by simp)
    rw [htk] at hok ⊢
    rw [lzssDecLoop]
    by_cases hlt : p < text.length
    · rw [if_pos hlt] at hok ⊢
      have h1 := hok (.bit, 1) (by simp)
      have h2 := hok (.range 0 fdist, text.length - p) (by simp)
      rw [encAll_append, encAll_cons, encAll_cons, encAll_nil, List.append_nil, List.append_assoc]
      rw [h1.isEmpty]
      simp only [Bool.false_eq_true, if_false]
      rw [h1.1]
      simp only [ne_eq, Nat.one_ne_zero, not_false_eq_true, if_true]
      rw [h2.1]
      simp only
      have h3 := decLits_map c (text.drop p) (fun t ht => hok t (List.mem_append.mpr (Or.inr ht))) []
      rw [List.append_nil, List.length_drop] at h3
      rw [Nat.mod_eq_of_lt (by omega), h3]
      simp [opsFrom]
    · have hp' : p = text.length := by omega
      subst hp'
      simp [opsFrom]
  | cons f fs ih =>
    intro p fuel hord hok hfuel
    obtain ⟨hpf, hsrc, hlen, hrest⟩ := hord
    obtain ⟨fu, rfl⟩ : ∃ fu, fuel = fu + 1 := ⟨fuel - 1, by omega⟩
    have hmax : max p f.pos + f.len = f.pos + f.len := by rw [Nat.max_eq_right hpf]
    rw [lzssDecLoop]
    simp only [lzssBody, litTokens, hmax] at hok hfuel ⊢
    have hl : ((text.drop p).take (f.pos - p)).length = f.pos - p := by simp; omega
    have hbody := ih (f.pos + f.len) fu hrest (fun t ht => hok t (by simp only [List.mem_append]; exact Or.inr ht))
    generalize hB : lzssBody text fmin fmax fdist fs (f.pos + f.len) = B at *
    have h3 := decLits_map c ((text.drop p).take (f.pos - p))
      (fun t ht => hok t (by simp only [List.mem_append]; exact Or.inl (Or.inl (Or.inr ht))))
    generalize hL : ((text.drop p).take (f.pos - p)) = L at *
    have h4 := hok (.range 0 text.length, f.src) (by simp)
    have h5 := hok (.range fmin fmax, f.len) (by simp)
    have htail : ∀ bits, bits = c.encAll (L.map fun c => (Rng.literal, c.toNat)) ++ (c.enc (.range 0 text.length) f.src ++
        (c.enc (.range fmin fmax) f.len ++ c.encAll B)) → (c.encAll B).length < fu →
        (match decLits c ((f.pos - p) % 2 ^ 32) bits with
          | .error e => .error e
          | .ok (ops, bits) =>
            if bits.isEmpty then .ok ops
            else
              match c.dec (.range 0 text.length) bits with
              | .error e => .error e
              | .ok (src, bits) =>
                match c.dec (.range fmin fmax) bits with
                | .error e => .error e
                | .ok (len, bits) =>
                  match lzssDecLoop c text.length fmin fmax fdist fu bits with
                  | .error e => .error e
                  | .ok rest => .ok (ops ++ .fac (src % 2 ^ 32) (len % 2 ^ 32) :: rest)) = (.ok (opsFrom text (f :: fs) p) : Res (List DecOp)) := by
      intro bits hb hf
      subst hb
      have h6 := h3 (c.enc (.range 0 text.length) f.src ++ (c.enc (.range fmin fmax) f.len ++ c.encAll B))
      rw [hl] at h6
      rw [Nat.mod_eq_of_lt (by omega), h6]
      simp only
      rw [h4.isEmpty]
      simp only [Bool.false_eq_true, if_false]
      rw [h4.1]
      simp only
      rw [h5.1]
      simp only
      rw [hbody hf]
      simp only [opsFrom, hL]
      rw [Nat.mod_eq_of_lt (by omega : f.src < 2 ^ 32), Nat.mod_eq_of_lt (by omega : f.len < 2 ^ 32)]
    have hlenB : (c.encAll B).length < fu := by
      have := List.length_pos_iff.mpr h4.2
      simp only at this
      simp only [encAll_append, encAll_cons, List.length_append] at hfuel
      omega
    by_cases hpe : f.pos = p
    · simp only [hpe, if_true] at hok ⊢
      have h1 := hok (.bit, 0) (by simp)
      have e0 : c.encAll ([(.bit, 0)] ++ (L.map fun c => (Rng.literal, c.toNat)) ++ [(.range 0 text.length, f.src), (.range fmin fmax, f.len)] ++ B)
          = c.enc .bit 0 ++ (c.encAll (L.map fun c => (Rng.literal, c.toNat)) ++ (c.enc (.range 0 text.length) f.src ++
        (c.enc (.range fmin fmax) f.len ++ c.encAll B))) := by
        simp [encAll_append, encAll_cons]
      rw [e0, h1.isEmpty]
      simp only [Bool.false_eq_true, if_false]
      rw [h1.1]
      simp only [ne_eq, not_true_eq_false, if_false]
      have := htail _ rfl hlenB
      rw [hpe, Nat.sub_self] at this
      exact this
    · simp only [if_neg hpe] at hok ⊢
      have h1 := hok (.bit, 1) (by simp)
      have h2 := hok (.range 0 fdist, f.pos - p) (by simp)
      have e0 : c.encAll ([(.bit, 1), (.range 0 fdist, f.pos - p)] ++ (L.map fun c => (Rng.literal, c.toNat)) ++ [(.range 0 text.length, f.src), (.range fmin fmax, f.len)] ++ B)
          = c.enc .bit 1 ++ (c.enc (.range 0 fdist) (f.pos - p) ++ (c.encAll (L.map fun c => (Rng.literal, c.toNat)) ++ (c.enc (.range 0 text.length) f.src ++
        (c.enc (.range fmin fmax) f.len ++ c.encAll B)))) := by
        simp [encAll_append, encAll_cons]
      rw [e0, h1.isEmpty]
      simp only [Bool.false_eq_true, if_false]
      rw [h1.1]
      simp only [ne_eq, Nat.one_ne_zero, not_false_eq_true, if_true]
      rw [h2.1]
      exact htail _ rfl hlenB

/-! ## Ranges -/

theorem shortest_le (fs : List Factor) : ∀ m f, f ∈ fs → fs.foldl (fun m f => min m f.len) m ≤ f.len := by
  induction fs with
  | nil => simp
  | cons g fs ih =>
    intro m f hf
    simp only [List.foldl_cons]
    rcases List.mem_cons.mp hf with h | h
    · subst h
      have : ∀ (fs : List Factor) m, fs.foldl (fun m f => min m f.len) m ≤ m := by
        intro fs
        induction fs with
        | nil => simp
        | cons g fs ih => intro m; simp only [List.foldl_cons]; have := ih (min m g.len); omega
      have := this fs (min m f.len)
      omega
    · exact ih _ f h

theorem foldl_max_ge (fs : List Factor) : ∀ m, m ≤ fs.foldl (fun m f => max m f.len) m := by
  induction fs with
  | nil => simp
  | cons g fs ih => intro m; simp only [List.foldl_cons]; have := ih (max m g.len); omega

theorem le_longest (fs : List Factor) : ∀ m f, f ∈ fs → f.len ≤ fs.foldl (fun m f => max m f.len) m := by
  induction fs with
  | nil => simp
  | cons g fs ih =>
    intro m f hf
    simp only [List.foldl_cons]
    rcases List.mem_cons.mp hf with h | h
    · subst h
      have := foldl_max_ge fs (max m f.len)
      omega
    · exact ih _ f h

theorem longest_le (n : Nat) (fs : List Factor) : ∀ m, m ≤ n → (∀ f ∈ fs, f.len ≤ n) → fs.foldl (fun m f => max m f.len) m ≤ n := by
  induction fs with
  | nil => intro m h _; exact h
  | cons g fs ih =>
    intro m h1 h2
    simp only [List.foldl_cons]
    exact ih _ (by have := h2 g (by simp); omega) fun f hf => h2 f (by simp [hf])

theorem fdist_ge (n : Nat) (fs : List Factor) : ∀ p m, m ≤ fdistMaxLoop n fs p m := by
  induction fs with
  | nil => intro p m; simp only [fdistMaxLoop]; omega
  | cons f fs ih => intro p m; simp only [fdistMaxLoop]; have := ih (f.pos + f.len) (max m (f.pos - p)); omega

theorem fdist_le (n : Nat) (fs : List Factor) : ∀ p m, m ≤ n → FactorsOrdered n p fs → fdistMaxLoop n fs p m ≤ n := by
  induction fs with
  | nil => intro p m h _; simp only [fdistMaxLoop]; omega
  | cons f fs ih =>
    intro p m h ho
    obtain ⟨h1, h2, h3, h4⟩ := ho
    simp only [fdistMaxLoop]
    exact ih _ _ (by omega) h4

theorem FactorsOrdered.len_le {n : Nat} {fs : List Factor} : ∀ {p : Nat}, FactorsOrdered n p fs → ∀ f ∈ fs, f.len ≤ n := by
  induction fs with
  | nil => simp
  | cons g fs ih =>
    intro p h f hf
    obtain ⟨h1, h2, h3, h4⟩ := h
    rcases List.mem_cons.mp hf with h | h
    · subst h; omega
    · exact ih h4 f h

/-- every token of the body is in its range, apart from literals which are bytes anyway -/
theorem lzssBody_has (text : List UInt8) (fmin fmax fdist : Nat) (hn : text.length < 2 ^ 32) (hfm : fmax < 2 ^ 32)
    (hfd : fdist ≤ text.length) (fs : List Factor) :
    ∀ p, FactorsOrdered text.length p fs → (∀ f ∈ fs, fmin ≤ f.len ∧ f.len ≤ fmax) → (∀ m, fdistMaxLoop text.length fs p m ≤ max m fdist) →
      ∀ t ∈ lzssBody text fmin fmax fdist fs p, t.1.Has t.2 := by
  have hlit : ∀ p e, ∀ t ∈ litTokens text p e, t.1.Has t.2 := by
    intro p e t ht
    simp only [litTokens, List.mem_map] at ht
    obtain ⟨c, -, rfl⟩ := ht
    refine ⟨Nat.zero_le _, ?_, by show (255 : Nat) < 2 ^ 64; decide⟩
    have := c.toNat_lt
    show c.toNat ≤ 255
    omega
  induction fs with
  | nil =>
    intro p ho _ hfdm t ht
    simp only [lzssBody, List.mem_append] at ht
    rcases ht with ht | ht
    · split at ht
      · simp only [List.mem_cons, List.not_mem_nil, or_false] at ht
        have := hfdm 0
        simp only [fdistMaxLoop] at this
        rcases ht with rfl | rfl
        · decide
        · exact ⟨Nat.zero_le _, by show text.length - p ≤ fdist; omega, by show fdist < 2 ^ 64; omega⟩
      · simp at ht
    · exact hlit _ _ t ht
  | cons f fs ih =>
    intro p ho hlen hfdm t ht
    obtain ⟨h1, h2, h3, h4⟩ := ho
    have hmax : max p f.pos + f.len = f.pos + f.len := by rw [Nat.max_eq_right h1]
    simp only [lzssBody, List.mem_append, hmax] at ht
    have hd : f.pos - p ≤ fdist := by
      have := hfdm 0
      simp only [fdistMaxLoop] at this
      have h' := fdist_ge text.length fs (f.pos + f.len) (max 0 (f.pos - p))
      omega
    rcases ht with ((ht | ht) | ht) | ht
    · split at ht
      · simp only [List.mem_cons, List.not_mem_nil, or_false] at ht
        subst ht; decide
      · simp only [List.mem_cons, List.not_mem_nil, or_false] at ht
        rcases ht with rfl | rfl
        · decide
        · exact ⟨Nat.zero_le _, hd, by show fdist < 2 ^ 64; omega⟩
    · exact hlit _ _ t ht
    · simp only [List.mem_cons, List.not_mem_nil, or_false] at ht
      rcases ht with rfl | rfl
      · exact ⟨Nat.zero_le _, h2, by show text.length < 2 ^ 64; omega⟩
      · obtain ⟨a, b⟩ := hlen f (by simp)
        exact ⟨a, b, by show fmax < 2 ^ 64; omega⟩
    · refine ih (f.pos + f.len) h4 (fun f hf => hlen f (by simp [hf])) ?_ t ht
      intro m
      have hmm := hfdm m
      simp only [fdistMaxLoop] at hmm
      have hmono : ∀ (fs : List Factor) p m m', m ≤ m' → fdistMaxLoop text.length fs p m ≤ fdistMaxLoop text.length fs p m' := by
        intro fs
        induction fs with
        | nil => intro p m m' h; simp only [fdistMaxLoop]; omega
        | cons g fs ih => intro p m m' h; simp only [fdistMaxLoop]; exact ih _ _ _ (by omega)
      have := hmono fs (f.pos + f.len) m (max m (f.pos - p)) (by omega)
      omega

theorem fdist_max (n : Nat) (fs : List Factor) : ∀ p m, fdistMaxLoop n fs p m = max m (fdistMaxLoop n fs p 0) := by
  induction fs with
  | nil => intro p m; simp only [fdistMaxLoop]; omega
  | cons f fs ih => intro p m; simp only [fdistMaxLoop]; rw [ih, ih _ (max 0 _)]; omega

/-- a token that is at least skipped -/
def UCoder.Skips (c : UCoder) (t : Token) : Prop := ∃ x, ∀ rest, c.dec t.1 (c.enc t.1 t.2 ++ rest) = .ok (x, rest)

theorem UCoder.Fits.skips {c : UCoder} {t : Token} (h : c.Fits t.1 t.2) : c.Skips t := ⟨t.2, h⟩

/-- **Decoding the token stream** gives back exactly the literals and factors, for any coder that can transport the
tokens of the stream. (Without factors the shortest length is a dummy that only has to be skipped.) -/
theorem lzssDecode_encode (c : UCoder) (text : List UInt8) (fs : List Factor) (hn : text.length < 2 ^ 32)
    (hord : FactorsOrdered text.length 0 fs)
    (h1 : c.Fits (.range 0 (2 ^ 32 - 1)) text.length)
    (h2 : c.Skips (.range 0 text.length, shortestFactor fs))
    (h2' : fs ≠ [] → c.Fits (.range 0 text.length) (shortestFactor fs))
    (h3 : c.Fits (.range 0 text.length) (longestFactor fs))
    (h4 : c.Fits (.range 0 text.length) (fdistMaxLoop text.length fs 0 0))
    (hbody : ∀ t ∈ lzssBody text (shortestFactor fs) (longestFactor fs) (fdistMaxLoop text.length fs 0 0) fs 0, c.TokOk t) :
    lzssDecode c (c.encAll (lzssEncode text fs)) = .ok (text.length, opsFrom text fs 0) := by
  have hlong : longestFactor fs ≤ text.length := longest_le _ fs 0 (Nat.zero_le _) hord.len_le
  have hfd : fdistMaxLoop text.length fs 0 0 ≤ text.length := fdist_le _ fs 0 0 (Nat.zero_le _) hord
  have hshort : fs ≠ [] → shortestFactor fs < 2 ^ 32 := by
    intro h
    cases fs with
    | nil => exact absurd rfl h
    | cons f fs =>
      have := shortest_le (f :: fs) (2 ^ 32 - 1) f (by simp)
      have := hord.len_le f (by simp)
      unfold shortestFactor
      omega
  have hmain := fun x (hx : lzssBody text x (longestFactor fs) (fdistMaxLoop text.length fs 0 0) fs 0 =
      lzssBody text (shortestFactor fs) (longestFactor fs) (fdistMaxLoop text.length fs 0 0) fs 0) =>
    lzssDecLoop_main c text x (longestFactor fs) (fdistMaxLoop text.length fs 0 0) hn fs 0
      ((c.encAll (lzssBody text x (longestFactor fs) (fdistMaxLoop text.length fs 0 0) fs 0)).length + 1) hord
      (by rw [hx]; exact hbody) (by omega)
  obtain ⟨x, hx, hxe⟩ : ∃ x, (∀ rest, c.dec (.range 0 text.length) (c.enc (.range 0 text.length) (shortestFactor fs) ++ rest) = .ok (x, rest)) ∧
      lzssBody text (x % 2 ^ 32) (longestFactor fs) (fdistMaxLoop text.length fs 0 0) fs 0 =
      lzssBody text (shortestFactor fs) (longestFactor fs) (fdistMaxLoop text.length fs 0 0) fs 0 := by
    by_cases he : fs = []
    · obtain ⟨x, hx⟩ := h2
      exact ⟨x, hx, by subst he; rfl⟩
    · exact ⟨_, h2' he, by rw [Nat.mod_eq_of_lt (hshort he)]⟩
  have hm := hmain _ hxe
  rw [hxe] at hm
  simp only [lzssEncode, lzssHeader, encAll_append, encAll_cons, encAll_nil, List.append_nil, List.append_assoc]
  unfold lzssDecode
  rw [h1]
  simp only
  rw [Nat.mod_eq_of_lt hn, hx]
  simp only
  rw [h3]
  simp only
  rw [h4]
  simp only
  rw [Nat.mod_eq_of_lt (by omega : longestFactor fs < 2 ^ 32), Nat.mod_eq_of_lt (by omega : fdistMaxLoop text.length fs 0 0 < 2 ^ 32), hm]

/-! ## The back buffer -/

/-- buffer after `p` characters -/
def backAt (text : List UInt8) (p : Nat) : BackBuf := ⟨text.take p ++ List.replicate (text.length - p) 0, p⟩

theorem backAt_put (text : List UInt8) (p : Nat) (h : p < text.length) : (backAt text p).put text[p] = .ok (backAt text (p + 1)) := by
  have hl : (backAt text p).buf.length = text.length := by simp [backAt]; omega
  rw [BackBuf.put, hl]
  rw [if_pos (show (backAt text p).cursor < text.length from h)]
  simp only [backAt]
  congr 2
  rw [List.set_append_right _ _ (by simp; omega), show p - (text.take p).length = 0 by simp; omega,
    show text.length - p = (text.length - (p + 1)) + 1 by omega, List.replicate_succ, List.set_cons_zero,
    List.take_add_one, List.getElem?_eq_getElem h, Option.toList_some, List.append_assoc]
  rfl

theorem backAt_copy (text : List UInt8) (n : Nat) : ∀ p src, p + n ≤ text.length → src < p →
    (∀ i, i < n → text[src + i]? = text[p + i]?) → (backAt text p).copy src n = .ok (backAt text (p + n)) := by
  induction n with
  | zero => intro p src _ _ _; rfl
  | succ n ih =>
    intro p src h1 h2 h3
    have h0 := h3 0 (by omega)
    simp only [Nat.add_zero] at h0
    have hg : text[p]? = some text[p] := List.getElem?_eq_getElem (by omega)
    have hv : vget (backAt text p).buf src = .ok text[p] := by
      unfold vget
      simp only [backAt]
      rw [List.getElem?_append_left (by simp; omega), List.getElem?_take_of_lt h2, h0, hg]
    rw [BackBuf.copy, hv]
    simp only
    rw [backAt_put text p (by omega)]
    simp only
    rw [ih (p + 1) (src + 1) (by omega) (by omega), show p + 1 + n = p + (n + 1) by omega]
    intro i hi
    have := h3 (i + 1) (by omega)
    rw [show src + 1 + i = src + (i + 1) by omega, this, show p + 1 + i = p + (i + 1) by omega]

theorem BackBuf.run_append (b : BackBuf) (xs ys : List DecOp) :
    b.run (xs ++ ys) = (match b.run xs with | .error e => .error e | .ok b => b.run ys) := by
  induction xs generalizing b with
  | nil => rfl
  | cons x xs ih =>
    cases x with
    | lit c => simp only [List.cons_append, BackBuf.run]; cases b.put c with | error e => rfl | ok b => exact ih b
    | fac s l => simp only [List.cons_append, BackBuf.run]; cases b.copy s l with | error e => rfl | ok b => exact ih b

theorem backAt_lits (text : List UInt8) (n : Nat) : ∀ p, p + n ≤ text.length →
    (backAt text p).run (((text.drop p).take n).map .lit) = .ok (backAt text (p + n)) := by
  induction n with
  | zero => intro p _; simp [BackBuf.run]
  | succ n ih =>
    intro p h
    rw [List.drop_eq_getElem_cons (by omega : p < text.length), List.take_succ_cons, List.map_cons, BackBuf.run, backAt_put text p (by omega)]
    simp only
    rw [ih (p + 1) (by omega), show p + 1 + n = p + (n + 1) by omega]

theorem backAt_ops (text : List UInt8) (fs : List Factor) : ∀ p, FactorsOrdered text.length p fs → FactorsMatch text fs →
    (backAt text p).run (opsFrom text fs p) = .ok (backAt text text.length) := by
  induction fs with
  | nil =>
    intro p h _
    have h' : p ≤ text.length := h
    have := backAt_lits text (text.length - p) p (by omega)
    rw [List.take_of_length_le (by simp), show p + (text.length - p) = text.length by omega] at this
    exact this
  | cons f fs ih =>
    intro p h hm
    obtain ⟨h1, h2, h3, h4⟩ := h
    have h5 := backAt_lits text (f.pos - p) p (by omega)
    obtain ⟨h6, h7⟩ := hm f (by simp)
    rw [opsFrom, BackBuf.run_append, h5]
    simp only [BackBuf.run]
    rw [show p + (f.pos - p) = f.pos by omega, backAt_copy text f.len f.pos f.src h3 h6 h7]
    exact ih _ h4 fun g hg => hm g (by simp [hg])

theorem lzssDecodeBack_of_ops (c : UCoder) (bits : List Bool) (text : List UInt8) (fs : List Factor)
    (h : lzssDecode c bits = .ok (text.length, opsFrom text fs 0)) (ho : FactorsOrdered text.length 0 fs) (hm : FactorsMatch text fs) :
    lzssDecodeBack c bits = .ok text := by
  have := backAt_ops text fs 0 ho hm
  simp only [backAt, List.take_zero, List.nil_append, Nat.sub_zero, List.take_length, Nat.sub_self, List.replicate_zero, List.append_nil] at this
  rw [lzssDecodeBack, h]
  simp only [this]

/-- universal coders skip any 64-bit value coded with any range -/
theorem CoderName.skips (n : CoderName) (m v : Nat) (hv : v < 2 ^ 64) (hm : m < 2 ^ 64) : n.coder.Skips (.range 0 m, v) := by
  by_cases hn : n = .bit
  · subst hn
    refine ⟨v % 2 ^ (bitsFor m) % 2 ^ 64, ?_⟩
    intro rest
    show bitCoder.dec (.range 0 m) (bitCoder.enc (.range 0 m) v ++ rest) = _
    rw [(bitCoder_nonbit (.range 0 m) (by simp) v []).1, (bitCoder_nonbit (.range 0 m) (by simp) v _).2]
    simp only [Rng.min, Rng.max, Nat.sub_zero]
    have hb : bitsFor m ≤ 64 := by
      unfold bitsFor bitsHi
      split
      · omega
      · omega
    rw [rdInt_writeInt_mod 64 _ _ _ hb]
    simp only [Nat.zero_add, Nat.add_mod_right, Nat.mod_eq_of_lt hv]
  · obtain ⟨e1, e2⟩ := dec_range_free n hn 0 m 0 (2 ^ 64 - 1)
    refine ⟨v, fun rest => ?_⟩
    simp only [e1, e2]
    exact n.lawful.dec_enc _ _ rest ⟨Nat.zero_le _, by show v ≤ 2 ^ 64 - 1; omega, by show 2 ^ 64 - 1 < 2 ^ 64; decide⟩

/-- the pieces for a universal coder -/
theorem lzss_universal (n : CoderName) (text : List UInt8) (fs : List Factor) (hn : text.length < 2 ^ 32)
    (hord : FactorsOrdered text.length 0 fs) :
    lzssDecode n.coder (n.coder.encAll (lzssEncode text fs)) = .ok (text.length, opsFrom text fs 0) := by
  have hlong : longestFactor fs ≤ text.length := longest_le _ fs 0 (Nat.zero_le _) hord.len_le
  have hfd : fdistMaxLoop text.length fs 0 0 ≤ text.length := fdist_le _ fs 0 0 (Nat.zero_le _) hord
  have hfits : ∀ v, v ≤ text.length → n.coder.Fits (.range 0 text.length) v := fun v hv =>
    n.lawful.fits ⟨Nat.zero_le _, hv, by show text.length < 2 ^ 64; omega⟩
  have hbnd : shortestFactor fs < 2 ^ 64 := by
    have : ∀ (fs : List Factor) m, m < 2 ^ 64 → fs.foldl (fun m f => min m f.len) m < 2 ^ 64 := by
      intro fs
      induction fs with
      | nil => intro m h; exact h
      | cons g fs ih => intro m h; simp only [List.foldl_cons]; exact ih _ (by omega)
    exact this fs _ (by decide)
  refine lzssDecode_encode n.coder text fs hn hord
    (n.lawful.fits ⟨Nat.zero_le _, by show text.length ≤ 2 ^ 32 - 1; omega, by show 2 ^ 32 - 1 < 2 ^ 64; decide⟩)
    (n.skips _ _ hbnd (by omega)) ?_ (hfits _ hlong) (hfits _ hfd) ?_
  · intro hne
    cases fs with
    | nil => exact absurd rfl hne
    | cons f fs =>
      have := shortest_le (f :: fs) (2 ^ 32 - 1) f (by simp)
      have := hord.len_le f (by simp)
      exact hfits _ (by unfold shortestFactor; omega)
  · intro t ht
    refine n.lawful.tokOk (lzssBody_has text _ _ _ hn (by omega) hfd fs 0 hord ?_ ?_ t ht)
    · intro f hf
      exact ⟨shortest_le fs _ f hf, le_longest fs _ f hf⟩
    · intro m; rw [fdist_max]; exact Nat.le_refl _

/-- the pieces for a coder that differs from a universal coder only on literals -/
theorem lzss_mixed (n : CoderName) (c : UCoder) (text : List UInt8) (fs : List Factor) (hn : text.length < 2 ^ 32)
    (hord : FactorsOrdered text.length 0 fs)
    (henc : ∀ r v, r ≠ .literal → c.enc r v = n.coder.enc r v) (hdec : ∀ r, r ≠ .literal → c.dec r = n.coder.dec r)
    (hlit : ∀ t ∈ lzssEncode text fs, t.1 = .literal → c.TokOk t) :
    lzssDecode c (c.encAll (lzssEncode text fs)) = .ok (text.length, opsFrom text fs 0) := by
  have hlong : longestFactor fs ≤ text.length := longest_le _ fs 0 (Nat.zero_le _) hord.len_le
  have hfd : fdistMaxLoop text.length fs 0 0 ≤ text.length := fdist_le _ fs 0 0 (Nat.zero_le _) hord
  have hr : ∀ a b, Rng.range a b ≠ .literal := by simp
  have hfits' : ∀ r v, r ≠ .literal → n.coder.Fits r v → c.Fits r v := by
    intro r v h hf rest
    rw [hdec r h, henc r v h]; exact hf rest
  have hfits : ∀ v, v ≤ text.length → c.Fits (.range 0 text.length) v := fun v hv =>
    hfits' _ _ (hr _ _) (n.lawful.fits ⟨Nat.zero_le _, hv, by show text.length < 2 ^ 64; omega⟩)
  have hbnd : shortestFactor fs < 2 ^ 64 := by
    have : ∀ (fs : List Factor) m, m < 2 ^ 64 → fs.foldl (fun m f => min m f.len) m < 2 ^ 64 := by
      intro fs
      induction fs with
      | nil => intro m h; exact h
      | cons g fs ih => intro m h; simp only [List.foldl_cons]; exact ih _ (by omega)
    exact this fs _ (by decide)
  refine lzssDecode_encode c text fs hn hord
    (hfits' _ _ (hr _ _) (n.lawful.fits ⟨Nat.zero_le _, by show text.length ≤ 2 ^ 32 - 1; omega, by show 2 ^ 32 - 1 < 2 ^ 64; decide⟩))
    ?_ ?_ (hfits _ hlong) (hfits _ hfd) ?_
  · obtain ⟨x, hx⟩ := n.skips text.length (shortestFactor fs) hbnd (by omega)
    refine ⟨x, fun rest => ?_⟩
    simp only
    rw [hdec _ (hr _ _), henc _ _ (hr _ _)]
    exact hx rest
  · intro hne
    cases fs with
    | nil => exact absurd rfl hne
    | cons f fs =>
      have := shortest_le (f :: fs) (2 ^ 32 - 1) f (by simp)
      have := hord.len_le f (by simp)
      exact hfits _ (by unfold shortestFactor; omega)
  · intro t ht
    by_cases hl : t.1 = .literal
    · exact hlit t (List.mem_append.mpr (Or.inr ht)) hl
    · have := n.lawful.tokOk (lzssBody_has text (shortestFactor fs) (longestFactor fs) _ hn (by omega) hfd fs 0 hord (fun f hf =>
        ⟨shortest_le fs _ f hf, le_longest fs _ f hf⟩) (by intro m; rw [fdist_max]; exact Nat.le_refl _) t ht)
      exact ⟨hfits' _ _ hl this.1, by rw [henc _ _ hl]; exact this.2⟩

theorem decLits_congr {c c' : UCoder} (h : c.dec = c'.dec) : ∀ (n : Nat) (bits : List Bool), decLits c n bits = decLits c' n bits
  | 0, _ => rfl
  | n + 1, bits => by
    rw [decLits, decLits, h]
    cases c'.dec .literal bits with
    | error e => rfl
    | ok x => simp only [decLits_congr h n]

theorem lzssDecLoop_congr {c c' : UCoder} (h : c.dec = c'.dec) (n fmin fmax fdist : Nat) :
    ∀ (fuel : Nat) (bits : List Bool), lzssDecLoop c n fmin fmax fdist fuel bits = lzssDecLoop c' n fmin fmax fdist fuel bits
  | 0, _ => rfl
  | fuel + 1, bits => by
    rw [lzssDecLoop, lzssDecLoop]
    simp only [h, decLits_congr h, lzssDecLoop_congr h n fmin fmax fdist fuel]

/-- Decoding uses only the decoder. -/
theorem lzssDecode_congr {c c' : UCoder} (h : c.dec = c'.dec) (bits : List Bool) : lzssDecode c bits = lzssDecode c' bits := by
  unfold lzssDecode
  simp only [h, lzssDecLoop_congr h]

/-- Decoding uses only the decoder. -/
theorem lzssDecodeBack_congr {c c' : UCoder} (h : c.dec = c'.dec) (bits : List Bool) : lzssDecodeBack c bits = lzssDecodeBack c' bits := by
  unfold lzssDecodeBack lzssDecode
  simp only [h, lzssDecLoop_congr h]

end Tdc
