import Verif.Spec.Malloc
import Verif.Lemmas.Stat

/-! # C70: the replaced allocator counts the bytes of the live blocks, and does what the one it replaces does -/

namespace Tdc.Malloc

/-- what the program can see of the blocks -/
def Heap.memory (h : Heap) : Memory := h.blocks.map fun e => (e.1, e.2.data)

theorem lookup_map {α β : Type} (f : α → β) (l : List (Nat × α)) (p : Nat) : (l.map fun e => (e.1, f e.2)).lookup p = (l.lookup p).map f := by
  induction l with
  | nil => rfl
  | cons e l ih =>
    rw [List.map_cons, List.lookup_cons, List.lookup_cons]
    rcases h : p == e.1 with _ | _
    · exact ih
    · rfl

theorem lookup_erase_self {α : Type} (l : List (Nat × α)) (p : Nat) : (erase p l).lookup p = none := by
  induction l with
  | nil => rfl
  | cons e l ih =>
    unfold erase at ih ⊢
    rw [List.filter_cons]
    split
    · next h =>
      rw [List.lookup_cons]
      have : (p == e.1) = false := by simp at h ⊢; exact fun e' => h e'.symm
      rw [this]; exact ih
    · exact ih

theorem lookup_erase {α : Type} (l : List (Nat × α)) {p q : Nat} (hq : q ≠ p) : (erase p l).lookup q = l.lookup q := by
  induction l with
  | nil => rfl
  | cons e l ih =>
    unfold erase at ih ⊢
    rw [List.filter_cons]
    split
    · next h => rw [List.lookup_cons, List.lookup_cons, ih]
    · next h =>
      have h1 : e.1 = p := by simpa using h
      rw [List.lookup_cons, ih]
      have : (q == e.1) = false := by simp [h1, hq]
      rw [this]

theorem erase_map {α β : Type} (f : α → β) (l : List (Nat × α)) (p : Nat) : (erase p l).map (fun e => (e.1, f e.2)) = erase p (l.map fun e => (e.1, f e.2)) := by
  unfold erase
  rw [List.filter_map]
  rfl

theorem lookup_none {α : Type} {l : List (Nat × α)} {p : Nat} (h : ∀ e ∈ l, e.1 < p) : l.lookup p = none := by
  induction l with
  | nil => rfl
  | cons e l ih =>
    rw [List.lookup_cons]
    have : (p == e.1) = false := by have := h e (by simp); simp; omega
    rw [this]
    exact ih fun e he => h e (by simp [he])

theorem lookup_mem {α : Type} {l : List (Nat × α)} {p : Nat} {b : α} (h : l.lookup p = some b) : (p, b) ∈ l := by
  induction l with
  | nil => cases h
  | cons e l ih =>
    rw [List.lookup_cons] at h
    split at h
    · next hp =>
      simp only [Option.some.injEq] at h
      have : p = e.1 := by simpa using hp
      subst this h
      simp
    · simp [ih h]

/-- the bytes of the live blocks -/
def bytes (l : List (Nat × Block)) : Nat := (l.map fun e => e.2.data.length).sum

theorem erase_of_lt {α : Type} {l : List (Nat × α)} {p : Nat} (h : p ∉ l.map (·.1)) : erase p l = l := by
  unfold erase
  rw [List.filter_eq_self]
  intro e he
  simp only [bne_iff_ne, ne_eq]
  intro e'
  exact h (List.mem_map.2 ⟨e, he, e'⟩)

theorem bytes_erase {l : List (Nat × Block)} {p : Nat} {b : Block} (hn : (l.map (·.1)).Nodup) (h : l.lookup p = some b) : bytes l = b.data.length + bytes (erase p l) := by
  induction l with
  | nil => cases h
  | cons e l ih =>
    rw [List.map_cons, List.nodup_cons] at hn
    rw [List.lookup_cons] at h
    split at h
    · next hp =>
      simp only [Option.some.injEq] at h
      have : p = e.1 := by simpa using hp
      subst this h
      have : erase e.1 (e :: l) = l := by
        have := erase_of_lt hn.1
        unfold erase at this ⊢
        rw [List.filter_cons, if_neg (by simp), this]
      rw [this]; simp [bytes]
    · next hp =>
      have hne : ¬ e.1 = p := by intro e'; simp [e'] at hp
      have : erase p (e :: l) = e :: erase p l := by
        unfold erase
        rw [List.filter_cons, if_pos (by simp [hne])]
      rw [this]
      have := ih hn.2 h
      simp only [bytes, List.map_cons, List.sum_cons] at this ⊢
      omega

/-- the blocks have different names and hold as many bytes as their headers say; the events add up to their bytes -/
structure Inv (h : Heap) : Prop where
  lt : ∀ e ∈ h.blocks, e.1 < h.next
  nodup : (h.blocks.map (·.1)).Nodup
  size : ∀ e ∈ h.blocks, e.2.size = e.2.data.length
  total : Stat.total h.events = bytes h.blocks

theorem erase_sub {α : Type} {l : List (Nat × α)} {p : Nat} {e : Nat × α} (h : e ∈ erase p l) : e ∈ l := (List.mem_filter.1 h).1

theorem erase_nodup {α : Type} {l : List (Nat × α)} {p : Nat} (h : (l.map (·.1)).Nodup) : ((erase p l).map (·.1)).Nodup :=
  h.sublist ((List.filter_sublist (l := l)).map _)

theorem not_mem_erase {α : Type} (l : List (Nat × α)) (p : Nat) : p ∉ (erase p l).map (·.1) := by
  intro h
  obtain ⟨e, he, rfl⟩ := List.mem_map.1 h
  have := (List.mem_filter.1 he).2
  simp at this

theorem sets_cons (h : List (Nat × Block)) (p : Nat) (b : Block) (h' : List (Nat × Block)) (he : ∀ q, q ≠ p → h'.lookup q = h.lookup q) :
    Sets (h.map fun e => (e.1, e.2.data)) (((p, b) :: h').map fun e => (e.1, e.2.data)) p b.data := by
  constructor
  · rw [List.map_cons, List.lookup_cons]
    simp
  · intro q hq
    rw [lookup_map, lookup_map, List.lookup_cons]
    have : (q == p) = false := by simp [hq]
    simp only [this]
    rw [he q hq]

theorem drops_erase (h : List (Nat × Block)) (p : Nat) : Drops (h.map fun e => (e.1, e.2.data)) ((erase p h).map fun e => (e.1, e.2.data)) p := by
  constructor
  · rw [lookup_map, lookup_erase_self]; rfl
  · intro q hq
    rw [lookup_map, lookup_map, lookup_erase h hq]

theorem lookup_memory {h : Heap} {p : Nat} {bs : List UInt8} (hp : h.memory.lookup p = some bs) : ∃ b, h.blocks.lookup p = some b ∧ b.data = bs := by
  unfold Heap.memory at hp
  rw [lookup_map] at hp
  rcases hb : h.blocks.lookup p with _ | b
  · rw [hb] at hp; cases hp
  · rw [hb] at hp; exact ⟨b, rfl, by simpa using hp⟩

theorem memory_lookup {h : Heap} {p : Nat} {b : Block} (hp : h.blocks.lookup p = some b) : h.memory.lookup p = some b.data := by
  unfold Heap.memory
  rw [lookup_map, hp]; rfl

/-- `malloc` of some bytes -/
theorem malloc_ok {libc : Libc} (hl : libc.Enough) {h : Heap} (hi : Inv h) {n : Nat} (h0 : 0 < n) (hn : n + 16 < 2 ^ 64) :
    ∃ h' bs, malloc libc n h = .ok (some h.next, h') ∧ h'.blocks = (h.next, ⟨n, bs⟩) :: h.blocks ∧ bs.length = n ∧ h.memory.lookup h.next = none ∧
      Sets h.memory h'.memory h.next bs ∧ Inv h' := by
  obtain ⟨g, hg, hgl⟩ := hl h.calls (n + 16)
  have hw : (n + 16) % word = n + 16 := Nat.mod_eq_of_lt (by unfold word; omega)
  have hlen : (g.drop 16).length = n := by rw [List.length_drop]; omega
  refine ⟨⟨(h.next, ⟨n, g.drop 16⟩) :: h.blocks, h.next + 1, h.calls + 1, h.events ++ [.alloc n]⟩, g.drop 16, ?_, rfl, hlen, ?_, ?_, ?_⟩
  · unfold malloc
    rw [if_neg (by omega)]
    simp only [hw, hg]
    rw [if_neg (by omega)]
  · unfold Heap.memory
    rw [lookup_map, lookup_none hi.lt]; rfl
  · exact sets_cons _ _ _ _ fun _ _ => rfl
  · refine ⟨?_, ?_, ?_, ?_⟩
    · intro e he
      rcases List.mem_cons.1 he with rfl | he
      · exact Nat.lt_succ_self _
      · have := hi.lt e he; show e.1 < h.next + 1; omega
    · show (h.next :: h.blocks.map (·.1)).Nodup
      rw [List.nodup_cons]
      refine ⟨?_, hi.nodup⟩
      intro hm
      obtain ⟨e, he, e'⟩ := List.mem_map.1 hm
      have := hi.lt e he
      omega
    · intro e he
      rcases List.mem_cons.1 he with rfl | he
      · exact hlen.symm
      · exact hi.size e he
    · show Stat.total (h.events ++ [.alloc n]) = _
      rw [Stat.total_append, hi.total]
      simp only [Stat.total, bytes, List.map_cons, List.sum_cons, hlen]
      omega

/-- a block gets other bytes, as many as before -/
theorem inv_set {h : Heap} (hi : Inv h) {p : Nat} {b : Block} (hp : h.blocks.lookup p = some b) {bs : List UInt8} (hb : bs.length = b.data.length) :
    Inv { h with blocks := (p, ⟨b.size, bs⟩) :: erase p h.blocks } := by
  have hm := lookup_mem hp
  refine ⟨?_, ?_, ?_, ?_⟩
  · intro e he
    rcases List.mem_cons.1 he with rfl | he
    · exact hi.lt (p, b) hm
    · exact hi.lt _ (erase_sub he)
  · show (p :: (erase p h.blocks).map (·.1)).Nodup
    rw [List.nodup_cons]
    exact ⟨not_mem_erase _ _, erase_nodup hi.nodup⟩
  · intro e he
    rcases List.mem_cons.1 he with rfl | he
    · show b.size = bs.length
      rw [hb]; exact hi.size _ hm
    · exact hi.size _ (erase_sub he)
  · show Stat.total h.events = _
    rw [hi.total, bytes_erase hi.nodup hp]
    simp [bytes, hb]

theorem free_ok {h : Heap} (hi : Inv h) {p : Nat} {b : Block} (hp : h.blocks.lookup p = some b) :
    Inv { h with blocks := erase p h.blocks, events := h.events ++ [.free b.size] } := by
  have hm := lookup_mem hp
  refine ⟨fun e he => hi.lt e (erase_sub he), erase_nodup hi.nodup, fun e he => hi.size e (erase_sub he), ?_⟩
  show Stat.total (h.events ++ [.free b.size]) = _
  rw [Stat.total_append, hi.total, bytes_erase hi.nodup hp, hi.size _ hm]
  simp only [Stat.total]
  omega

theorem step_ok {libc : Libc} (hl : libc.Enough) {h : Heap} (hi : Inv h) (o : Op) (hv : Valid h.memory o) (hf : o.Fits) :
    ∃ r h', step libc h o = .ok (r, h') ∧ Call h.memory o r h'.memory ∧ Inv h' := by
  have hmalloc : ∀ n, n + 16 < 2 ^ 64 → ∃ p h', malloc libc n h = .ok (p, h') ∧ Call h.memory (.malloc n) (.ptr p) h'.memory ∧ Inv h' := by
    intro n hn
    rcases Nat.eq_zero_or_pos n with rfl | h0
    · exact ⟨none, h, rfl, .mallocZero, hi⟩
    · obtain ⟨h', bs, e1, _, e2, e3, e4, e5⟩ := malloc_ok hl hi h0 hn
      exact ⟨_, h', e1, .malloc h0 e3 e2 e4, e5⟩
  have hfree : ∀ p, Valid h.memory (.free p) → ∃ h', free p h = .ok h' ∧ Call h.memory (.free p) .unit h'.memory ∧ Inv h' := by
    intro p hv
    cases p with
    | none => exact ⟨h, rfl, .freeNull, hi⟩
    | some p =>
      obtain ⟨bs, hb⟩ := hv
      obtain ⟨b, hp, rfl⟩ := lookup_memory hb
      refine ⟨{ h with blocks := erase p h.blocks, events := h.events ++ [.free b.size] }, by simp only [free, hp], .free hb (drops_erase _ _), free_ok hi hp⟩
  cases o with
  | malloc n =>
    obtain ⟨p, h', e1, e2, e3⟩ := hmalloc n hf
    exact ⟨.ptr p, h', by simp only [step, e1, Except.bind], e2, e3⟩
  | free p =>
    obtain ⟨h', e1, e2, e3⟩ := hfree p hv
    exact ⟨.unit, h', by simp only [step, e1, Except.bind], e2, e3⟩
  | realloc p n =>
    have hf : n + 16 < 2 ^ 64 := hf
    rcases Nat.eq_zero_or_pos n with rfl | h0
    · obtain ⟨h', e1, e2, e3⟩ := hfree p (by cases p <;> exact hv)
      exact ⟨.ptr none, h', by simp only [step, realloc, if_true, e1, Except.bind], .reallocZero e2, e3⟩
    · cases p with
      | none =>
        obtain ⟨q, h', e1, e2, e3⟩ := hmalloc n hf
        exact ⟨.ptr q, h', by simp only [step, realloc, if_neg (show ¬ n = 0 by omega), e1, Except.bind], .reallocNull e2, e3⟩
      | some p =>
        obtain ⟨bs, hb⟩ := hv
        obtain ⟨b, hp, rfl⟩ := lookup_memory hb
        obtain ⟨g, hg, hgl⟩ := hl h.calls (n + 16)
        have hw : (n + 16) % word = n + 16 := Nat.mod_eq_of_lt (by unfold word; omega)
        have hm := lookup_mem hp
        have hlt : p < h.next := hi.lt _ hm
        have hne : h.next ≠ p := by omega
        have hlen : (b.data.take n ++ (g.drop 16).drop b.data.length).length = n := by
          rw [List.length_append, List.length_take, List.length_drop, List.length_drop]; omega
        refine ⟨.ptr (some h.next), ⟨(h.next, ⟨n, b.data.take n ++ (g.drop 16).drop b.data.length⟩) :: erase p h.blocks, h.next + 1, h.calls + 1,
          h.events ++ [.free b.size, .alloc n]⟩, ?_, ?_, ?_⟩
        · simp only [step, realloc, if_neg (show ¬ n = 0 by omega), hp, hw, hg, if_neg (show ¬ n + 16 < 16 by omega), Except.bind, Nat.add_sub_cancel]
        · refine .realloc (m1 := (erase p h.blocks).map fun (e : Nat × Block) => (e.1, e.2.data)) h0 hb (drops_erase _ _) ?_ hlen ?_ (sets_cons _ _ _ _ fun _ _ => rfl)
          · rw [lookup_map, lookup_erase _ hne, lookup_none hi.lt]; rfl
          · intro i h1 h2
            rw [List.getElem?_append_left (by rw [List.length_take]; omega), List.getElem?_take_of_lt h1]
        · have hi' := free_ok hi hp
          refine ⟨?_, ?_, ?_, ?_⟩
          · intro e he
            rcases List.mem_cons.1 he with rfl | he
            · exact Nat.lt_succ_self _
            · have := hi'.lt e he; show e.1 < h.next + 1; have : e.1 < h.next := this; omega
          · show (h.next :: (erase p h.blocks).map (·.1)).Nodup
            rw [List.nodup_cons]
            refine ⟨?_, hi'.nodup⟩
            intro hm
            obtain ⟨e, he, e'⟩ := List.mem_map.1 hm
            have : e.1 < h.next := hi'.lt e he
            omega
          · intro e he
            rcases List.mem_cons.1 he with rfl | he
            · exact hlen.symm
            · exact hi'.size e he
          · have ht : Stat.total (h.events ++ [.free b.size]) = bytes (erase p h.blocks) := hi'.total
            show Stat.total (h.events ++ ([.free b.size] ++ [.alloc n])) = _
            rw [← List.append_assoc, Stat.total_append, ht]
            simp only [Stat.total, bytes, List.map_cons, List.sum_cons, hlen]
            omega
  | calloc a b =>
    have hf : a * b + 16 < 2 ^ 64 := hf
    have hw : a * b % word = a * b := Nat.mod_eq_of_lt (by unfold word; omega)
    rcases Nat.eq_zero_or_pos (a * b) with h0 | h0
    · exact ⟨.ptr none, h, by simp only [step, calloc, hw, if_pos h0, Except.bind], .callocZero h0, hi⟩
    · obtain ⟨h', bs, e1, e0, e2, e3, e4, e5⟩ := malloc_ok hl hi h0 hf
      have hlk : h'.blocks.lookup h.next = some ⟨a * b, bs⟩ := by rw [e0, List.lookup_cons]; simp
      have hz : List.replicate (a * b) (0 : UInt8) ++ bs.drop (a * b) = List.replicate (a * b) 0 := by
        rw [List.drop_eq_nil_of_le (by omega), List.append_nil]
      refine ⟨.ptr (some h.next), { h' with blocks := (h.next, ⟨a * b, List.replicate (a * b) 0⟩) :: erase h.next h'.blocks }, ?_, ?_, ?_⟩
      · simp only [step, calloc, hw, if_neg (show ¬ a * b = 0 by omega), e1, Except.bind, hlk, if_pos (show a * b ≤ bs.length by omega), hz]
      · refine .calloc h0 e3 (sets_cons h.blocks h.next ⟨a * b, List.replicate (a * b) 0⟩ _ ?_)
        intro q hq
        rw [lookup_erase _ hq, e0, List.lookup_cons]
        have : (q == h.next) = false := by simp [hq]
        rw [this]
      · exact inv_set e5 hlk (by rw [List.length_replicate]; exact e2.symm)
  | load p i =>
    obtain ⟨bs, hb, hlt⟩ := hv
    obtain ⟨b, hp, rfl⟩ := lookup_memory hb
    have hv : b.data[i]? = some b.data[i] := List.getElem?_eq_getElem hlt
    exact ⟨.byte b.data[i], h, by simp only [step, load, hp, hv, Except.bind], .load hb hv, hi⟩
  | store p i v =>
    obtain ⟨bs, hb, hlt⟩ := hv
    obtain ⟨b, hp, rfl⟩ := lookup_memory hb
    refine ⟨.unit, { h with blocks := (p, ⟨b.size, b.data.set i v⟩) :: erase p h.blocks }, by simp only [step, store, hp, if_pos hlt, Except.bind], ?_, ?_⟩
    · exact .store hb hlt (sets_cons h.blocks p ⟨b.size, b.data.set i v⟩ _ fun q hq => lookup_erase _ hq)
    · exact inv_set hi hp (by rw [List.length_set])

theorem run_ok {libc : Libc} (hl : libc.Enough) : ∀ (os : List Op) (h : Heap), Inv h → (∀ o ∈ os, o.Fits) →
    (∀ a o b rs h', os = a ++ o :: b → run libc h a = .ok (rs, h') → Valid h'.memory o) →
    ∃ rs h', run libc h os = .ok (rs, h') ∧ Calls h.memory os rs h'.memory ∧ Inv h'
  | [], h, hi, _, _ => ⟨[], h, rfl, .nil, hi⟩
  | o :: os, h, hi, hf, hv => by
    obtain ⟨r, h1, e1, e2, e3⟩ := step_ok hl hi o (hv [] o os [] h rfl rfl) (hf o (by simp))
    obtain ⟨rs, h2, f1, f2, f3⟩ := run_ok hl os h1 e3 (fun o ho => hf o (by simp [ho])) (by
      intro a o' b rs h' he hr
      refine hv (o :: a) o' b (r :: rs) h' (by rw [he]; rfl) ?_
      simp only [run, e1, Except.bind, hr])
    exact ⟨r :: rs, h2, by simp only [run, e1, Except.bind, f1], .cons e2 f2, f3⟩

/-- A program whose pointers are live when it uses them gets from the replaced allocator what the C standard promises, and the bytes reported to the statistics
add up to those of the live blocks. Sizes are less than 2^64 - 16 and the C library has enough memory: see `malloc_overflow`, `calloc_overflow`, `realloc_fails`
and `calloc_fails`. -/
theorem malloc_accounts_partial (libc : Libc) (hl : libc.Enough) (os : List Op) (hf : ∀ o ∈ os, o.Fits)
    (hv : ∀ a o b rs h, os = a ++ o :: b → run libc empty a = .ok (rs, h) → Valid h.memory o) :
    ∃ rs h, run libc empty os = .ok (rs, h) ∧ Calls [] os rs h.memory ∧ (h.memory.map (·.1)).Nodup ∧
      Stat.total h.events = ((h.memory.map fun e => e.2.length).sum : Nat) := by
  obtain ⟨rs, h, e1, e2, e3⟩ := run_ok hl os empty ⟨fun _ he => (nomatch he), List.nodup_nil, fun _ he => (nomatch he), rfl⟩ hf hv
  refine ⟨rs, h, e1, e2, ?_, ?_⟩
  · have := e3.nodup
    unfold Heap.memory
    rw [List.map_map]; exact this
  · rw [e3.total]
    unfold Heap.memory bytes
    rw [List.map_map]; rfl

/-! ## Where it departs -/

/-- If the C library has no memory for `malloc`, the program gets the null pointer and nothing is counted. -/
theorem malloc_fails (libc : Libc) (h : Heap) (n : Nat) (h0 : 0 < n) (hl : ∀ k, libc h.calls k = none) :
    ∃ h', malloc libc n h = .ok (none, h') ∧ h'.blocks = h.blocks ∧ h'.events = h.events := by
  refine ⟨{ h with calls := h.calls + 1 }, ?_, rfl, rfl⟩
  unfold malloc
  rw [if_neg (by omega)]
  simp only [hl]

/-- A request that no memory can satisfy (2^64 - 16 bytes or more) makes the size with the header wrap around; the header is written out of bounds. -/
theorem malloc_overflow (libc : Libc) (hl : libc.Enough) (h : Heap) (n : Nat) (h1 : 2 ^ 64 - 16 ≤ n) (h2 : n < 2 ^ 64) : malloc libc n h = .error .ub := by
  obtain ⟨g, hg, _⟩ := hl h.calls ((n + 16) % word)
  unfold malloc
  rw [if_neg (by omega)]
  simp only [hg]
  rw [if_pos]
  unfold word
  omega

/-- The product of `calloc` is not checked for overflow: 4 times 2^62 + 1 bytes are requested, and a block of 4 bytes is returned. -/
theorem calloc_overflow (libc : Libc) (hl : libc.Enough) : ∃ h, calloc libc (2 ^ 62 + 1) 4 empty = .ok (some 0, h) ∧ h.memory = [(0, [0, 0, 0, 0])] := by
  obtain ⟨g, hg, hlen⟩ := hl 0 20
  refine ⟨⟨[(0, ⟨4, [0, 0, 0, 0]⟩)], 1, 1, [.alloc 4]⟩, ?_, rfl⟩
  have e1 : (2 ^ 62 + 1) * 4 % word = 4 := by decide
  have e2 : (4 + 16) % word = 20 := by decide
  have e3 : (g.drop 16).length = 4 := by rw [List.length_drop]; omega
  have e4 : (g.drop 16).drop 4 = [] := List.drop_eq_nil_of_le (by omega)
  simp only [calloc, e1, malloc, e2, hg, empty, Except.bind]
  simp [e3, erase, hlen]

/-- If the C library has no memory for `realloc`, the header is written through the null pointer; the C standard promises the null pointer and the old block. -/
theorem realloc_fails (libc : Libc) (h : Heap) (p n : Nat) (b : Block) (h0 : 0 < n) (hp : h.blocks.lookup p = some b) (hl : ∀ k, libc h.calls k = none) :
    realloc libc (some p) n h = .error .ub := by
  unfold realloc
  rw [if_neg (by omega)]
  simp only [hp, hl]

/-- For `calloc`, the null pointer is filled with zeros. -/
theorem calloc_fails (libc : Libc) (h : Heap) (a b : Nat) (h0 : 0 < a * b) (h1 : a * b < 2 ^ 64) (hl : ∀ k, libc h.calls k = none) : calloc libc a b h = .error .ub := by
  have hw : a * b % word = a * b := Nat.mod_eq_of_lt (by unfold word; omega)
  unfold calloc
  simp only [hw]
  rw [if_neg (by omega)]
  unfold malloc
  rw [if_neg (by omega)]
  simp only [hl, Except.bind]

/-! ## Examples -/

/-- blocks full of the number of the request -/
def demoLibc : Libc := fun i n => some (List.replicate n (UInt8.ofNat i))

example : demoLibc.Enough := fun _ _ => ⟨_, rfl, List.length_replicate⟩

def demoOps : List Op := [.malloc 3, .store 0 1 7, .calloc 2 2, .realloc (some 0) 5, .load 2 1, .free (some 1)]

example : ∀ o ∈ demoOps, o.Fits := by
  simp only [demoOps, List.mem_cons, List.not_mem_nil, or_false]
  rintro o (rfl | rfl | rfl | rfl | rfl | rfl) <;> simp [Op.Fits]

example : (run demoLibc empty demoOps).toOption.map (fun x => (x.1, x.2.memory, Stat.total x.2.events)) =
    some ([.ptr (some 0), .unit, .ptr (some 1), .ptr (some 2), .byte 7, .unit], [(2, [0, 7, 0, 2, 2])], 5) := rfl

/-- the pointers of the example are live -/
example : ∀ a o b rs h, demoOps = a ++ o :: b → run demoLibc empty a = .ok (rs, h) → Valid h.memory o := by
  intro a o b rs h he hr
  have hk : ∀ k (x : Op), k < 6 → a = demoOps.take k → o = x → demoOps[k]? = some x →
      (∃ rs' h', run demoLibc empty (demoOps.take k) = .ok (rs', h') ∧ Valid h'.memory x) → Valid h.memory o := by
    intro k x _ h1 h2 _ ⟨rs', h', h3, h4⟩
    subst h1 h2
    rw [hr] at h3
    simp only [Except.ok.injEq, Prod.mk.injEq] at h3
    rw [h3.2]; exact h4
  have ha : a = demoOps.take a.length := by rw [he, List.take_left]
  have ho : demoOps[a.length]? = some o := by rw [he, List.getElem?_append_right (by omega), Nat.sub_self]; rfl
  have hl : a.length < 6 := by
    have := congrArg List.length he
    simp [demoOps] at this; omega
  revert ha ho
  rcases hn : a.length with _ | _ | _ | _ | _ | _ | n
  · intro ha ho; exact hk 0 (.malloc 3) (by omega) ha (by simpa [demoOps] using ho.symm) rfl ⟨_, _, rfl, trivial⟩
  · intro ha ho; exact hk 1 (.store 0 1 7) (by omega) ha (by simpa [demoOps] using ho.symm) rfl ⟨_, _, rfl, _, rfl, by decide⟩
  · intro ha ho; exact hk 2 (.calloc 2 2) (by omega) ha (by simpa [demoOps] using ho.symm) rfl ⟨_, _, rfl, trivial⟩
  · intro ha ho; exact hk 3 (.realloc (some 0) 5) (by omega) ha (by simpa [demoOps] using ho.symm) rfl ⟨_, _, rfl, _, rfl⟩
  · intro ha ho; exact hk 4 (.load 2 1) (by omega) ha (by simpa [demoOps] using ho.symm) rfl ⟨_, _, rfl, _, rfl, by decide⟩
  · intro ha ho; exact hk 5 (.free (some 1)) (by omega) ha (by simpa [demoOps] using ho.symm) rfl ⟨_, _, rfl, _, rfl⟩
  · omega

end Tdc.Malloc
