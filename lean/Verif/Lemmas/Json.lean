import Verif.Spec.Json
import Verif.Lemmas.Coders

namespace Tdc.Json

theorem u8 {n : Nat} (h : n < 256) : (UInt8.ofNat n).toNat = n := UInt8.toNat_ofNat_of_lt h

/-! ## Strings -/

/-- a backslash before each quote -/
def quoted (s : List UInt8) : List UInt8 := s.flatMap fun c => if c = 34 then [92, 34] else [c]

theorem quoted_plain {s : List UInt8} (h : 34 ∉ s) : quoted s = s := by
  induction s with
  | nil => rfl
  | cons c s ih =>
    have h1 : c ≠ 34 := fun e => h (by simp [e])
    have h2 : 34 ∉ s := fun e => h (by simp [e])
    show (if c = 34 then [92, 34] else [c]) ++ quoted s = _
    rw [if_neg h1, ih h2]; rfl

theorem quoted_append (a b : List UInt8) : quoted (a ++ b) = quoted a ++ quoted b := by
  unfold quoted; rw [List.flatMap_append]

theorem escLoop_ok : ∀ (fuel : Nat) (pre suf : List UInt8), suf.length < fuel → escLoop fuel (pre ++ suf) pre.length = .ok (pre ++ quoted suf)
  | 0, _, _, h => by omega
  | fuel + 1, pre, suf, h => by
    unfold escLoop findByte
    rw [List.drop_left]
    rcases hf : suf.findIdx? (· == 34) with _ | x
    · simp only
      rw [quoted_plain]
      intro hm
      rw [List.findIdx?_eq_none_iff] at hf
      have := hf 34 hm
      simp at this
    · simp only
      rw [List.findIdx?_eq_some_iff_getElem] at hf
      obtain ⟨hx, h1, h2⟩ := hf
      have e34 : suf[x] = 34 := by simpa using h1
      have hs : suf = suf.take x ++ 34 :: suf.drop (x + 1) := by
        rw [← e34, List.getElem_cons_drop, List.take_append_drop]
      have hn : 34 ∉ suf.take x := by
        intro hm
        obtain ⟨i, hi, he⟩ := List.mem_iff_getElem.1 hm
        rw [List.length_take] at hi
        rw [List.getElem_take] at he
        have := h2 i (by omega)
        simp [he] at this
      have t1 : (pre ++ suf).take (pre.length + x) = pre ++ suf.take x := by rw [List.take_length_add_append]
      have t2 : (pre ++ suf).drop (pre.length + x + 1) = suf.drop (x + 1) := by
        rw [Nat.add_assoc, List.drop_length_add_append]
      rw [t1, t2]
      have hl : pre.length + x + 2 = (pre ++ suf.take x ++ [92, 34]).length := by
        simp only [List.length_append, List.length_take, List.length_cons, List.length_nil]; omega
      rw [hl, escLoop_ok fuel _ _ (by rw [List.length_drop]; omega)]
      conv => rhs; rw [hs]
      rw [quoted_append, quoted_plain hn]
      simp [quoted]

theorem escape_ok (s : List UInt8) : escape s = .ok (quoted s) := escLoop_ok (s.length + 1) [] s (by omega)

theorem chars_quoted {v : List UInt8} (h : ∀ c ∈ v, 32 ≤ c ∧ c ≠ 92) : Chars v (quoted v) := by
  induction v with
  | nil => exact .nil
  | cons c v ih =>
    have hc := h c (by simp)
    have ih := ih (fun c hc => h c (by simp [hc]))
    show Chars _ ((if c = 34 then [92, 34] else [c]) ++ quoted v)
    split
    · next e => subst e; exact .esc (by decide) ih
    · next e => exact .plain hc.1 e hc.2 ih

theorem utf8_length (n : Nat) : (utf8 n).length + (utf8 n).count 34 ≤ 5 := by
  unfold utf8
  split
  · simp only [List.length_cons, List.length_nil]
    have := List.count_le_length (a := (34 : UInt8)) (l := [UInt8.ofNat n])
    simp only [List.length_cons, List.length_nil] at this
    omega
  · split
    · have := List.count_le_length (a := (34 : UInt8)) (l := [UInt8.ofNat (0xC0 + n / 64), UInt8.ofNat (0x80 + n % 64)])
      simp only [List.length_cons, List.length_nil] at this ⊢
      omega
    · next h1 h2 =>
      have e : List.count (34 : UInt8) [UInt8.ofNat (0xE0 + n / 4096), UInt8.ofNat (0x80 + n / 64 % 64), UInt8.ofNat (0x80 + n % 64)] ≤ 2 := by
        have h3 : UInt8.ofNat (0x80 + n % 64) ≠ 34 := by
          intro h
          have := congrArg UInt8.toNat h
          rw [u8 (n := 0x80 + n % 64) (by omega)] at this
          have : 0x80 + n % 64 = 34 := this
          omega
        rw [List.count_cons, List.count_cons, List.count_cons, List.count_nil]
        simp only [beq_iff_eq, h3, if_false]
        split <;> split <;> omega
      simp only [List.length_cons, List.length_nil]
      omega

/-- A text is at least as long as the string with a backslash for each quote; if it is no longer, then nothing else is escaped. -/
theorem chars_length {v s : List UInt8} (h : Chars v s) : v.length + v.count 34 ≤ s.length ∧ (v.length + v.count 34 = s.length → ∀ c ∈ v, 32 ≤ c ∧ c ≠ 92) := by
  induction h with
  | nil => simp
  | @plain c v s h1 h2 h3 _ ih =>
    rw [List.count_cons_of_ne h2]
    simp only [List.length_cons]
    refine ⟨by omega, ?_⟩
    intro e x hx
    rcases List.mem_cons.1 hx with rfl | hx
    · exact ⟨h1, h3⟩
    · exact ih.2 (by omega) x hx
  | @esc e c v s hm _ ih =>
    rw [List.count_cons]
    simp only [List.length_cons, beq_iff_eq]
    split
    · next h =>
      refine ⟨by omega, ?_⟩
      intro e x hx
      rcases List.mem_cons.1 hx with rfl | hx
      · subst h; decide
      · exact ih.2 (by omega) x hx
    · refine ⟨by omega, ?_⟩
      intro e; omega
  | @uni a b c d w x y z v s _ _ _ _ _ ih =>
    have := utf8_length (((w * 16 + x) * 16 + y) * 16 + z)
    rw [List.count_append]
    simp only [List.length_append, List.length_cons]
    refine ⟨by omega, ?_⟩
    intro e; omega

theorem quoted_length (v : List UInt8) : (quoted v).length = v.length + v.count 34 := by
  induction v with
  | nil => rfl
  | cons c v ih =>
    show ((if c = 34 then [92, 34] else [c]) ++ quoted v).length = _
    rw [List.length_append, List.count_cons, ih]
    simp only [beq_iff_eq]
    split
    · simp; omega
    · simp; omega

theorem text_str {v s : List UInt8} (h : Text (.str v) (34 :: s ++ [34])) : Chars v s := by
  generalize ht : 34 :: s ++ [34] = t at h
  cases h with
  | str h =>
    simp only [List.cons_append, List.cons.injEq, true_and] at ht
    rw [(List.append_inj' ht rfl).1]; exact h

/-! ## Numbers -/

theorem decDigits_head (v : Nat) : (decDigits v).head? = some 0 → v = 0 := by
  induction v using Nat.strongRecOn with
  | ind v ih =>
    rw [decDigits]
    split
    · intro h; simpa using h
    · next hv =>
      intro h
      have hne : decDigits (v / 10) ≠ [] := by
        rw [decDigits]; split <;> simp
      rcases hd : decDigits (v / 10) with _ | ⟨a, l⟩
      · exact absurd hd hne
      rw [hd, List.cons_append, List.head?_cons] at h
      have := ih (v / 10) (by omega) (by rw [hd, List.head?_cons]; exact h)
      omega

theorem dec_digits (v : Nat) : (∀ c ∈ (decDigits v).map fun d => UInt8.ofNat (48 + d), 48 ≤ c ∧ c ≤ 57) ∧
    digitsVal ((decDigits v).map fun d => UInt8.ofNat (48 + d)) = v := by
  have h := decDigits_lt v
  have hv := decDigits_value v
  constructor
  · intro c hc
    obtain ⟨d, hd, rfl⟩ := List.mem_map.1 hc
    have := h d hd
    have hn : (UInt8.ofNat (48 + d)).toNat = 48 + d := UInt8.toNat_ofNat_of_lt (by show _ < 256; omega)
    rw [UInt8.le_iff_toNat_le, UInt8.le_iff_toNat_le, hn]
    show 48 ≤ 48 + d ∧ 48 + d ≤ 57
    omega
  · conv => rhs; rw [← hv]
    unfold digitsVal
    rw [List.foldl_map]
    have : ∀ (l : List Nat) (a : Nat), (∀ d ∈ l, d < 10) → l.foldl (fun a d => a * 10 + ((UInt8.ofNat (48 + d)).toNat - 48)) a = l.foldl (fun a d => a * 10 + d) a := by
      intro l
      induction l with
      | nil => intro a _; rfl
      | cons d l ih =>
        intro a hl
        have := hl d (by simp)
        rw [List.foldl_cons, List.foldl_cons, ih _ (fun d hd => hl d (by simp [hd])), u8 (n := 48 + d) (by omega), show 48 + d - 48 = d by omega]
    exact this _ _ h

theorem dec_ok (n : Int) : Number n (dec n) := by
  obtain ⟨h1, h2⟩ := dec_digits n.natAbs
  have hne : (decDigits n.natAbs).map (fun d => UInt8.ofNat (48 + d)) ≠ [] := by
    rw [decDigits]; split <;> simp
  have hz : ((decDigits n.natAbs).map fun d => UInt8.ofNat (48 + d)).head? = some 48 → ((decDigits n.natAbs).map fun d => UInt8.ofNat (48 + d)) = [48] := by
    intro h
    have h0 : (decDigits n.natAbs).head? = some 0 := by
      rw [List.head?_map] at h
      rcases hd : (decDigits n.natAbs).head? with _ | d
      · rw [hd] at h; cases h
      · rw [hd] at h
        simp only [Option.map_some, Option.some.injEq] at h
        have hlt := decDigits_lt n.natAbs d (List.mem_of_mem_head? hd)
        have := congrArg UInt8.toNat h
        rw [u8 (n := 48 + d) (by omega)] at this
        have : 48 + d = 48 := this
        rw [show d = 0 by omega]
    have := decDigits_head _ h0
    rw [this, decDigits]
    rfl
  unfold dec
  split
  · next hn =>
    have := Number.neg hne h1 hz
    rw [h2] at this
    rw [show n = -(n.natAbs : Int) by omega]
    simpa using this
  · next hn =>
    have := Number.pos hne h1 hz
    rw [h2] at this
    rw [show n = (n.natAbs : Int) by omega]
    simpa using this

/-! ## Values -/

theorem ws_indent (l : Nat) : Ws (indent l) := by
  intro c hc
  left
  exact List.eq_of_mem_replicate hc

theorem Ws.append {a b : List UInt8} (ha : Ws a) (hb : Ws b) : Ws (a ++ b) := by
  intro c hc
  rcases List.mem_append.1 hc with h | h
  · exact ha c h
  · exact hb c h

theorem ws_nil : Ws [] := by intro c hc; cases hc
theorem ws_nl : Ws [10] := by intro c hc; simp at hc; simp [hc]
theorem ws_sp : Ws [32] := by intro c hc; simp at hc; simp [hc]

theorem quoted_name {k : List UInt8} (h : ∀ c ∈ k, 32 ≤ c ∧ c ≠ 92 ∧ c ≠ 34) : Chars k k := by
  have := chars_quoted (v := k) fun c hc => ⟨(h c hc).1, (h c hc).2.1⟩
  rwa [quoted_plain fun hm => (h 34 hm).2.2 rfl] at this

mutual
theorem render_ok : ∀ (v : JV) (level : Nat), v.Plain → ∃ s, render v level = .ok s ∧ Text v s
  | .num n, level, _ => ⟨_, rfl, .num (dec_ok n)⟩
  | .str v, level, h => by
    rw [JV.Plain] at h
    refine ⟨34 :: quoted v ++ [34], ?_, .str (chars_quoted h)⟩
    rw [render, escape_ok]; rfl
  | .arr l, level, h => by
    rw [JV.Plain] at h
    obtain ⟨s, h1, h2⟩ := renderAll_ok l level h
    refine ⟨91 :: s ++ [93], by rw [render, h1]; rfl, ?_⟩
    rcases h2 with ⟨rfl, rfl⟩ | h2
    · exact .arrNil ws_nil
    · exact .arr h2
  | .obj l, level, h => by
    rw [JV.Plain] at h
    obtain ⟨s, h1, h2⟩ := renderFields_ok l level h
    refine ⟨123 :: ([10] ++ s ++ indent level) ++ [125], ?_, ?_⟩
    · rw [render, h1]; simp [Except.bind]
    rcases h2 with ⟨rfl, rfl⟩ | h2
    · exact .objNil ((ws_nl.append ws_nil).append (ws_indent level))
    · exact .obj (h2 _ _ ws_nl (ws_indent level))
theorem renderAll_ok : ∀ (l : List JV) (level : Nat), PlainAll l → ∃ s, renderAll l level = .ok s ∧ ((l = [] ∧ s = []) ∨ Elems l s)
  | [], level, h => ⟨[], rfl, Or.inl ⟨rfl, rfl⟩⟩
  | v :: l, level, h => by
    rw [PlainAll] at h
    obtain ⟨s, h1, h2⟩ := render_ok v level h.1
    obtain ⟨t, h3, h4⟩ := renderAll_ok l level h.2
    rcases h4 with ⟨rfl, rfl⟩ | h4
    · refine ⟨[] ++ s ++ [], ?_, Or.inr (.one ws_nil h2 ws_nil)⟩
      simp [renderAll, h1, Except.bind]
    · refine ⟨[] ++ s ++ [] ++ 44 :: t, ?_, Or.inr (.more ws_nil h2 ws_nil h4)⟩
      have hl : l.isEmpty = false := by cases h4 <;> rfl
      rw [renderAll, h1]
      simp only [Except.bind]
      rw [h3, hl]
      simp
theorem renderFields_ok : ∀ (l : List (List UInt8 × JV)) (level : Nat), PlainFields l →
    ∃ s, renderFields l level = .ok s ∧ ((l = [] ∧ s = []) ∨ ∀ w w', Ws w → Ws w' → Members l (w ++ s ++ w'))
  | [], level, h => ⟨[], rfl, Or.inl ⟨rfl, rfl⟩⟩
  | (k, v) :: l, level, h => by
    rw [PlainFields] at h
    obtain ⟨s, h1, h2⟩ := render_ok v (level + 1) h.2.1
    obtain ⟨t, h3, h4⟩ := renderFields_ok l level h.2.2
    rcases h4 with ⟨rfl, rfl⟩ | h4
    · refine ⟨indent (level + 1) ++ 34 :: k ++ [34, 58, 32] ++ s ++ [10], ?_, Or.inr ?_⟩
      · rw [renderFields, h1]; simp [Except.bind, renderFields]
      · intro w w' hw hw'
        have := Members.one (hw.append (ws_indent (level + 1))) (quoted_name h.1) ws_nil ws_sp h2 (ws_nl.append hw')
        simpa using this
    · refine ⟨indent (level + 1) ++ 34 :: k ++ [34, 58, 32] ++ s ++ [44] ++ 10 :: t, ?_, Or.inr ?_⟩
      · have hl : l.isEmpty = false := by
          have := h4 [] [] ws_nil ws_nil
          generalize [] ++ t ++ [] = z at this
          cases this <;> rfl
        rw [renderFields, h1]
        simp only [Except.bind]
        rw [h3, hl]
        simp
      · intro w w' hw hw'
        have := Members.more (hw.append (ws_indent (level + 1))) (quoted_name h.1) ws_nil ws_sp h2 ws_nil (h4 [10] w' ws_nl hw')
        simpa using this
end

end Tdc.Json
