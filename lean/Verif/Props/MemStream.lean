import Verif.Spec.MemStream

/-!
# C73: streams over memory deliver the memory
-/

namespace Tdc
namespace MS

variable {t : List UInt8} {a : Nat}

/-- the stream on the string `t` at address `a`, at the cursor `c` -/
abbrev conc (t : List UInt8) (a : Nat) (c : Cursor) : IStream := ⟨⟨a, a + c.pos, a + t.length⟩, c.eof, c.fail⟩

theorem conc_make : IStream.make a t.length = conc t a ⟨0, false, false⟩ := rfl

theorem seekpos_at {m : MemBuf} (hb : m.beg = a) (hf : m.fin = a + t.length) (ha : a + t.length < 2 ^ 63) {p : Int} (h0 : 0 ≤ p)
    (hp : p < 2 ^ 63) (both : Bool) :
    m.seekpos false p both = if p ≤ t.length then .ok (p, { m with cur := a + p.toNat }) else .ok (-1, m) := by
  have e : (((m.beg : Int) + p) % 2 ^ 64).toNat = a + p.toNat := by
    rw [hb]
    rw [Int.emod_eq_of_lt (by omega) (by omega)]
    omega
  simp only [MemBuf.seekpos, e, hf]
  by_cases hle : p ≤ t.length
  · rw [if_neg (by simp), if_neg (by omega), if_pos hle]
  · rw [if_neg (by simp), if_pos (by omega), if_neg hle]

theorem moveTo_le (n : Nat) (c : Cursor) (p : Int) (h : c.pos ≤ n) : (c.moveTo n p).pos ≤ n := by
  unfold Cursor.moveTo
  split
  · exact h
  · split
    · show p.toNat ≤ n
      omega
    · exact h

theorem seek_step {c : Cursor} (ha : a + t.length < 2 ^ 63) {p : Int}
    (hp : c.fail = false → 0 ≤ p ∧ p < 2 ^ 63) (seek : MemBuf → Res (Int × MemBuf))
    (hs : seek (conc t a c).buf = (conc t a c).buf.seekpos false p false) :
    (conc t a c).seekg seek = .ok (.none, conc t a (c.moveTo t.length p)) := by
  obtain ⟨q, eof, fail⟩ := c
  cases fail with
  | true => rfl
  | false =>
    obtain ⟨h0, hl⟩ := hp rfl
    rw [seekpos_at (t := t) (a := a) rfl rfl ha h0 hl] at hs
    have e1 : (conc t a ⟨q, eof, false⟩).seekg seek =
        (seek ⟨a, a + q, a + t.length⟩).map fun r => (.none, ⟨r.2, false, decide (r.1 = -1)⟩) := rfl
    have hs' : seek ⟨a, a + q, a + t.length⟩ = _ := hs
    have e2 : Cursor.moveTo t.length ⟨q, eof, false⟩ p = if 0 ≤ p ∧ p ≤ t.length then ⟨p.toNat, false, false⟩ else ⟨q, false, true⟩ := rfl
    rw [e1, hs', e2]
    by_cases hle : p ≤ t.length
    · rw [if_pos hle, if_pos (And.intro h0 hle)]
      have : decide (p = -1) = false := decide_eq_false (by omega)
      simp only [Except.map, this]
    · rw [if_neg hle, if_neg (fun h => hle h.2)]
      rfl

theorem bump_at (q : Nat) (hq : q ≤ t.length) : MemBuf.bump ⟨a, a + q, a + t.length⟩ t =
    match t[q]? with
    | some x => .ok (some x, ⟨a, a + q + 1, a + t.length⟩)
    | none => .ok (none, ⟨a, a + q, a + t.length⟩) := by
  rw [MemBuf.bump]
  rcases Nat.lt_or_ge q t.length with hlt | hge
  · rw [if_pos (by show a + q < a + t.length; omega), MemBuf.deref,
      if_pos ⟨by show a ≤ a + q; omega, by show a + q < a + t.length; omega⟩, show a + q - a = q by omega, List.getElem?_eq_getElem hlt]
    rfl
  · rw [if_neg (by show ¬ a + q < a + t.length; omega), List.getElem?_eq_none hge]

theorem get_run (dbg : Bool) {c : Cursor} (h : c.pos ≤ t.length) :
    Op.run dbg t (conc t a c) .get = .ok ((Op.onString t c .get).1, conc t a (Op.onString t c .get).2) ∧
      (Op.onString t c .get).2.pos ≤ t.length := by
  obtain ⟨q, eof, fail⟩ := c
  have hq : q ≤ t.length := h
  cases eof <;> cases fail
  · have e : Op.run dbg t (conc t a ⟨q, false, false⟩) .get = (MemBuf.bump ⟨a, a + q, a + t.length⟩ t).map fun r =>
        match r.1 with
        | some x => (.byte (some x), ⟨r.2, false, false⟩)
        | none => (.byte none, ⟨⟨a, a + q, a + t.length⟩, true, true⟩) := rfl
    have e2 : Op.onString t ⟨q, false, false⟩ .get = match t[q]? with
      | some x => (.byte (some x), ⟨q + 1, false, false⟩)
      | none => (.byte none, ⟨q, true, true⟩) := rfl
    rw [e, bump_at q hq, e2]
    cases hx : t[q]? with
    | none => exact ⟨rfl, hq⟩
    | some x =>
      have := (List.getElem?_eq_some_iff.mp hx).1
      exact ⟨rfl, this⟩
  all_goals exact ⟨rfl, hq⟩

theorem step {c : Cursor} (h : c.pos ≤ t.length) (ha : a + t.length < 2 ^ 63) (o : Op)
    (hp : c.fail = false → ∀ p, o.target t.length c = some p → 0 ≤ p ∧ p < 2 ^ 63) (he : ∀ off, o = .seekOff off .fin → off = 0) :
    o.run false t (conc t a c) = .ok ((o.onString t c).1, conc t a (o.onString t c).2) ∧ (o.onString t c).2.pos ≤ t.length := by
  cases o with
  | get => exact get_run false h
  | clear => exact ⟨rfl, h⟩
  | tellg =>
    obtain ⟨q, eof, fail⟩ := c
    have hq : q ≤ t.length := h
    cases eof <;> cases fail
    · have e : ((a + q : Nat) : Int) - a + 0 = q := by omega
      have e1 : Op.run false t (conc t a ⟨q, false, false⟩) .tellg =
          (MemBuf.seekpos false ⟨a, a + q, a + t.length⟩ (((a + q : Nat) : Int) - a + 0) false).map fun r => (.pos r.1, ⟨r.2, false, false⟩) := rfl
      rw [e1, e, seekpos_at (t := t) (a := a) rfl rfl ha (by omega) (by omega), if_pos (by omega)]
      exact ⟨rfl, hq⟩
    all_goals exact ⟨rfl, hq⟩
  | seekPos p => exact ⟨seek_step ha (fun hf => hp hf p rfl) (fun b => b.seekpos false p false) rfl, moveTo_le _ _ _ h⟩
  | seekOff o w =>
    cases w with
    | beg => exact ⟨seek_step ha (fun hf => hp hf o rfl) (fun b => b.seekoff false o .beg false) rfl, moveTo_le _ _ _ h⟩
    | cur =>
      refine ⟨?_, moveTo_le _ _ _ h⟩
      have e : ((conc t a c).buf.cur : Int) - (conc t a c).buf.beg + o = c.pos + o := by simp only []; omega
      exact seek_step ha (fun hf => hp hf (c.pos + o) rfl) (fun b => b.seekoff false o .cur false) (by simp only [MemBuf.seekoff, e])
    | fin =>
      refine ⟨?_, moveTo_le _ _ _ h⟩
      have h0 := he o rfl
      subst h0
      have e : ((conc t a c).buf.fin : Int) - (conc t a c).buf.beg - 0 = t.length + 0 := by simp only []; omega
      exact seek_step ha (fun hf => hp hf (t.length + 0) rfl) (fun b => b.seekoff false 0 .fin false) (by simp only [MemBuf.seekoff, e])

theorem history {c : Cursor} (ha : a + t.length < 2 ^ 63) (ops : List Op) : c.pos ≤ t.length → Tame t c ops →
    runOps false t (conc t a c) ops = .ok ((onString t c ops).1, conc t a (onString t c ops).2) := by
  induction ops generalizing c with
  | nil => intro h _; rfl
  | cons o os ih =>
    intro h ht
    obtain ⟨t1, t2, t3⟩ := ht
    obtain ⟨e1, h1⟩ := step h ha o t1 t2
    simp only [runOps, e1, Except.bind, ih h1 t3]
    rfl

/-- **C73.** In a release build, every history of reading, seeking and telling on a stream over a string in memory returns what the
standard says for a stream over this string, and nothing outside of the memory is read — if no position asked for is negative and
`ios_base::end` is used with offset 0 only (see the limits below). -/
theorem viewstream_history_partial (t : List UInt8) (a : Nat) (ha : a + t.length < 2 ^ 63) (ops : List Op)
    (ht : Tame t ⟨0, false, false⟩ ops) :
    ∃ s, runOps false t (IStream.make a t.length) ops = .ok ((onString t ⟨0, false, false⟩ ops).1, s) :=
  ⟨_, history ha ops (Nat.zero_le _) ht⟩

theorem gets_run (dbg : Bool) (k : Nat) : ∀ c : Cursor, c.pos ≤ t.length →
    ∃ s, runOps dbg t (conc t a c) (List.replicate k .get) = .ok ((onString t c (List.replicate k .get)).1, s) := by
  induction k with
  | zero => intro c _; exact ⟨_, rfl⟩
  | succ k ih =>
    intro c h
    obtain ⟨e1, h1⟩ := get_run (a := a) dbg h
    obtain ⟨s, e2⟩ := ih _ h1
    exact ⟨s, by simp only [List.replicate_succ, runOps, e1, Except.bind, e2]; rfl⟩

theorem gets_eof (k : Nat) : ∀ c : Cursor, (c.eof = true ∨ c.fail = true ∨ t.length ≤ c.pos) →
    (onString t c (List.replicate k .get)).1 = List.replicate k (.byte none) := by
  induction k with
  | zero => intro c _; rfl
  | succ k ih =>
    intro c h
    have : (Op.onString t c .get).1 = .byte none ∧ (Op.onString t c .get).2.fail = true := by
      simp only [Op.onString]
      by_cases hb : c.eof = true ∨ c.fail = true
      · rw [if_pos hb]; exact ⟨rfl, rfl⟩
      · have hle : t.length ≤ c.pos := by
          rcases h with h | h | h
          · exact absurd (Or.inl h) hb
          · exact absurd (Or.inr h) hb
          · exact h
        rw [if_neg hb, List.getElem?_eq_none hle]
        exact ⟨rfl, rfl⟩
    simp only [List.replicate_succ, onString, this.1, ih _ (Or.inr (Or.inl this.2))]

theorem gets_all (n : Nat) : ∀ i k : Nat, i + n = t.length →
    (onString t ⟨i, false, false⟩ (List.replicate (n + k) .get)).1 =
      ((t.drop i).map fun x => Out.byte (some x)) ++ List.replicate k (.byte none) := by
  induction n with
  | zero =>
    intro i k hi
    rw [Nat.zero_add, gets_eof k _ (Or.inr (Or.inr (by show t.length ≤ i; omega))), List.drop_eq_nil_of_le (by omega)]
    rfl
  | succ n ih =>
    intro i k hi
    have hlt : i < t.length := by omega
    have e : Op.onString t ⟨i, false, false⟩ .get = (.byte (some t[i]), ⟨i + 1, false, false⟩) := by
      simp [Op.onString, List.getElem?_eq_getElem hlt]
    rw [show n + 1 + k = (n + k) + 1 by omega, List.replicate_succ]
    simp only [onString, e, ih (i + 1) k (by omega)]
    rw [List.drop_eq_getElem_cons hlt]
    rfl

/-- **C73.** Reading, in debug and release builds, delivers exactly the bytes of the memory and then end of file, for ever. -/
theorem viewstream_reads (dbg : Bool) (t : List UInt8) (a : Nat) (k : Nat) :
    ∃ s, runOps dbg t (IStream.make a t.length) (List.replicate (t.length + k) .get) =
      .ok ((t.map fun x => Out.byte (some x)) ++ List.replicate k (.byte none), s) := by
  obtain ⟨s, e⟩ := gets_run (t := t) (a := a) dbg (t.length + k) ⟨0, false, false⟩ (Nat.zero_le _)
  rw [gets_all t.length 0 k (by omega), List.drop_zero] at e
  exact ⟨s, e⟩

/-! ### Limits -/

/-- **C73 (limit).** Seeking from the end has the wrong sign: every seek to a position before the end (of a non-empty part of the string)
fails, where the standard moves the cursor to `length - k`. -/
theorem viewstream_seek_end (t : List UInt8) (a k : Nat) (ha : a + 2 * t.length < 2 ^ 63) (hk : 0 < k) (hkl : k ≤ t.length) :
    (∃ s, runOps false t (IStream.make a t.length) [.seekOff (-(k : Int)) .fin, .get] = .ok ([.none, .byte none], s)) ∧
    ∃ x, t[t.length - k]? = some x ∧ (onString t ⟨0, false, false⟩ [.seekOff (-(k : Int)) .fin, .get]).1 = [.none, .byte (some x)] := by
  constructor
  · have e : (MemBuf.make a t.length).seekoff false (-(k : Int)) .fin false = .ok (-1, MemBuf.make a t.length) := by
      have e2 : ((MemBuf.make a t.length).fin : Int) - (MemBuf.make a t.length).beg - (-(k : Int)) = t.length + k := by
        simp only [MemBuf.make]; omega
      simp only [MemBuf.seekoff, e2]
      rw [seekpos_at (a := a) (t := t) rfl rfl (by omega) (by omega) (by omega), if_neg (by omega)]
    simp only [runOps, Op.run, IStream.seekg, IStream.make, e]
    exact ⟨_, rfl⟩
  · have hlt : t.length - k < t.length := by omega
    refine ⟨t[t.length - k], List.getElem?_eq_getElem hlt, ?_⟩
    have e : ((t.length : Int) + -(k : Int)).toNat = t.length - k := by omega
    have e2 : Op.onString t ⟨0, false, false⟩ (.seekOff (-(k : Int)) .fin) = (.none, ⟨t.length - k, false, false⟩) := by
      simp only [Op.onString, Cursor.moveTo]
      rw [if_neg (by simp), if_pos ⟨by omega, by omega⟩, e]
    simp only [onString, e2]
    simp [Op.onString, List.getElem?_eq_getElem hlt]

/-- **C73 (limit).** A negative position (except -1) is not an error: the next `get` reads in front of the memory. -/
theorem viewstream_seek_negative (t : List UInt8) (a k : Nat) (ha : a + t.length < 2 ^ 63) (hk : 1 < k) (hka : k ≤ a) :
    runOps false t (IStream.make a t.length) [.seekPos (-(k : Int)), .get] = .error .ub ∧
    (onString t ⟨0, false, false⟩ [.seekPos (-(k : Int)), .get]).1 = [.none, .byte none] := by
  constructor
  · have e : (((a : Int) + -(k : Int)) % 2 ^ 64).toNat = a - k := by
      rw [Int.emod_eq_of_lt (by omega) (by omega)]
      omega
    have h1 : decide (-(k : Int) = -1) = false := decide_eq_false (by omega)
    have e1 : Op.run false t (IStream.make a t.length) (.seekPos (-(k : Int))) =
        .ok (.none, ⟨⟨a, a - k, a + t.length⟩, false, false⟩) := by
      simp only [Op.run, IStream.seekg, IStream.make, MemBuf.make, MemBuf.seekpos, e]
      rw [if_neg (by simp), if_neg (by simp), if_neg (by omega)]
      simp only [Except.map, h1]
    have e2 : Op.run false t ⟨⟨a, a - k, a + t.length⟩, false, false⟩ .get = .error .ub := by
      simp only [Op.run]
      rw [if_neg (by simp), MemBuf.bump, if_pos (by show a - k < a + t.length; omega), MemBuf.deref, if_neg (by show ¬ (a ≤ a - k ∧ _); omega)]
      rfl
    simp only [runOps, e1, Except.bind, e2]
    rfl
  · have e2 : Op.onString t ⟨0, false, false⟩ (.seekPos (-(k : Int))) = (.none, ⟨0, false, true⟩) := by
      simp only [Op.onString, Cursor.moveTo]
      rw [if_neg (by simp), if_neg (by omega)]
    simp only [onString, e2]
    simp [Op.onString]

/-- **C73 (limit).** In a debug build the first `seekg` or `tellg` aborts: the assertion wants `which = in | out`, `std::istream` passes `in`. -/
theorem viewstream_debug (t : List UInt8) (a : Nat) (p : Int) (w : Dir) (ops : List Op) :
    runOps true t (IStream.make a t.length) (.tellg :: ops) = .error .throw ∧
    runOps true t (IStream.make a t.length) (.seekPos p :: ops) = .error .throw ∧
    runOps true t (IStream.make a t.length) (.seekOff p w :: ops) = .error .throw :=
  ⟨rfl, rfl, rfl⟩

/-- **C73 (limit).** The copy of a stream starts over, whatever happened to the original. -/
theorem viewstream_copy (ops : List Op) (ha : a + t.length < 2 ^ 63) (ht : Tame t ⟨0, false, false⟩ ops) (s : IStream) (os : List Out)
    (h : runOps false t (IStream.make a t.length) ops = .ok (os, s)) : s.copy = IStream.make a t.length := by
  have e := history ha ops (Nat.zero_le _) ht
  rw [conc_make, e] at h
  simp only [Except.ok.injEq, Prod.mk.injEq] at h
  obtain ⟨-, rfl⟩ := h
  simp only [IStream.copy]
  congr 1
  omega

-- the hypotheses are met: read, seek behind the end, recover, go back, tell, read
example : Tame [10, 20, 30] ⟨0, false, false⟩ [.get, .seekPos 7, .get, .clear, .seekOff (-1) .cur, .tellg, .get, .seekOff 0 .fin, .get] ∧
    (onString [10, 20, 30] ⟨0, false, false⟩ [.get, .seekPos 7, .get, .clear, .seekOff (-1) .cur, .tellg, .get, .seekOff 0 .fin, .get]).1 =
      [.byte (some 10), .none, .byte none, .none, .none, .pos 0, .byte (some 10), .none, .byte none] := by
  constructor
  · simp [Tame, Op.target, Op.onString, Cursor.moveTo]
  · decide

end MS
end Tdc
