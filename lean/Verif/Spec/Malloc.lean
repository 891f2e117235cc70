import Verif.Model.Malloc

/-!
# What the allocator of the C standard does, if there is enough memory
-/

namespace Tdc.Malloc

/-- the live blocks and what they hold -/
abbrev Memory := List (Nat × List UInt8)

/-- all blocks but one are kept, that one holds some bytes -/
def Sets (m m' : Memory) (p : Nat) (bs : List UInt8) : Prop := m'.lookup p = some bs ∧ ∀ q, q ≠ p → m'.lookup q = m.lookup q

/-- one block is gone, the others are kept -/
def Drops (m m' : Memory) (p : Nat) : Prop := m'.lookup p = none ∧ ∀ q, q ≠ p → m'.lookup q = m.lookup q

/-- One call: memory before, call, result, memory after. A pointer to a new block is no pointer to a live one. Requests for 0 bytes get the null pointer. -/
inductive Call : Memory → Op → Ret → Memory → Prop
  | malloc {m m' : Memory} {n p : Nat} {bs : List UInt8} : 0 < n → m.lookup p = none → bs.length = n → Sets m m' p bs → Call m (.malloc n) (.ptr (some p)) m'
  | mallocZero {m : Memory} : Call m (.malloc 0) (.ptr none) m
  | free {m m' : Memory} {p : Nat} {bs : List UInt8} : m.lookup p = some bs → Drops m m' p → Call m (.free (some p)) .unit m'
  | freeNull {m : Memory} : Call m (.free none) .unit m
  /-- The block may move; as many bytes as fit are kept. -/
  | realloc {m m1 m' : Memory} {p q n : Nat} {old new : List UInt8} : 0 < n → m.lookup p = some old → Drops m m1 p → m1.lookup q = none → new.length = n →
      (∀ i, i < n → i < old.length → new[i]? = old[i]?) → Sets m1 m' q new → Call m (.realloc (some p) n) (.ptr (some q)) m'
  | reallocNull {m m' : Memory} {n : Nat} {r : Ret} : Call m (.malloc n) r m' → Call m (.realloc none n) r m'
  | reallocZero {m m' : Memory} {p : Option Nat} : Call m (.free p) .unit m' → Call m (.realloc p 0) (.ptr none) m'
  | calloc {m m' : Memory} {a b p : Nat} : 0 < a * b → m.lookup p = none → Sets m m' p (List.replicate (a * b) 0) → Call m (.calloc a b) (.ptr (some p)) m'
  | callocZero {m : Memory} {a b : Nat} : a * b = 0 → Call m (.calloc a b) (.ptr none) m
  | load {m : Memory} {p i : Nat} {bs : List UInt8} {v : UInt8} : m.lookup p = some bs → bs[i]? = some v → Call m (.load p i) (.byte v) m
  | store {m m' : Memory} {p i : Nat} {v : UInt8} {bs : List UInt8} : m.lookup p = some bs → i < bs.length → Sets m m' p (bs.set i v) → Call m (.store p i v) .unit m'

/-- The sequence of results, and the memory at the end. -/
inductive Calls : Memory → List Op → List Ret → Memory → Prop
  | nil {m : Memory} : Calls m [] [] m
  | cons {m m1 m' : Memory} {o : Op} {os : List Op} {r : Ret} {rs : List Ret} : Call m o r m1 → Calls m1 os rs m' → Calls m (o :: os) (r :: rs) m'

/-- the pointers of a call are null or live, reads and writes are within the block -/
def Valid (m : Memory) : Op → Prop
  | .malloc _ => True
  | .calloc _ _ => True
  | .free none => True
  | .free (some p) => ∃ bs, m.lookup p = some bs
  | .realloc none _ => True
  | .realloc (some p) _ => ∃ bs, m.lookup p = some bs
  | .load p i => ∃ bs, m.lookup p = some bs ∧ i < bs.length
  | .store p i _ => ∃ bs, m.lookup p = some bs ∧ i < bs.length

/-- the size and the header of 16 bytes are less than 2^64 -/
def Op.Fits : Op → Prop
  | .malloc n => n + 16 < 2 ^ 64
  | .realloc _ n => n + 16 < 2 ^ 64
  | .calloc a b => a * b + 16 < 2 ^ 64
  | _ => True

/-- the C library never runs out of memory -/
def Libc.Enough (libc : Libc) : Prop := ∀ i n, ∃ g, libc i n = some g ∧ g.length = n

end Tdc.Malloc
