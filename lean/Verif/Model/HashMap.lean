import Verif.Model.Basic
import Verif.Model.BitIO

/-!
# `HashMap` of `util/Hash.hpp`

The hash table behind the hash and rolling tries of LZ78/LZW.  Source: `include/tudocomp/util/Hash.hpp`.

A cell is `none` when its value is `undef_id` (the code marks empty cells by that value, Hash.hpp:426, 528); the key stored in an empty
cell is never read.  Computations in `len_t` (32 bit) and `size_t` (64 bit) are on naturals, with the reductions written where
they matter.
-/

namespace Tdc
namespace HM

/-- A hash function, a size manager and a prober (the template parameters, Hash.hpp:355-361). -/
structure Cfg (κ : Type) where
  /-- `HashFcn` -/
  hash : κ → Nat
  /-- `SizeManager::mod_tablesize(index, tablesize, key, probe)` -/
  modT : Nat → Nat → Nat → Nat → Nat
  /-- `ProbeFcn::get(i, tablepos, init, table_size)` -/
  get : Nat → Nat → Nat → Nat → Nat
  /-- `SizeManager::get_min_size(hint)` -/
  minSize : Nat → Nat

/-! ### Size managers and probers -/

/-- `SizeManagerPow2::get_min_size` (Hash.hpp:91-93). -/
def pow2Min (hint : Nat) : Nat := 1 <<< bitsHi (max hint 3)
/-- `SizeManagerPow2::mod_tablesize` (Hash.hpp:98-100). -/
def pow2Mod (index s _key _probe : Nat) : Nat := index &&& (s - 1)

/-- `SizeManagerDirect::get_min_size`, `SizeManagerNoob::get_min_size` (Hash.hpp:114-116, 143-145). -/
def noobMin (hint : Nat) : Nat := max hint 3
/-- `SizeManagerNoob::mod_tablesize`, `SizeManagerPrime::mod_tablesize` (Hash.hpp:152-154, 170-173). -/
def noobMod (index s _key _probe : Nat) : Nat := index % s
/-- `SizeManagerDirect::mod_tablesize` (Hash.hpp:125-131): the index is ignored. -/
def directMod (_index s key probe : Nat) : Nat := (key + probe * 2 ^ 64 / s) % 2 ^ 64 * s / 2 ^ 64

/-- The table of `SizeManagerPrime::next_prime` up to `2^32` (Hash.hpp:179-186). -/
def primes : List Nat := [5, 11, 19, 37, 53, 97, 193, 389, 769, 1543, 3079, 6151, 12289, 24593, 49157, 98317, 196613, 393241, 786433, 1572869,
  3145739, 6291469, 12582917, 25165843, 50331653, 100663319, 201326611, 402653189, 805306457, 1610612741, 3221225473, 4294967291]
/-- `SizeManagerPrime::get_min_size` (Hash.hpp:165-167, 219-222): the first entry not below the hint (hints are below `2^32`). -/
def primeMin (hint : Nat) : Nat := (primes.find? (fun p => hint ≤ p)).getD 4294967291

/-- `QuadraticProber::get` (Hash.hpp:245-247); the arithmetic is modulo `2^32`. -/
def quadGet (i _pos init _s : Nat) : Nat := (init + i * i) % 2 ^ 32
/-- `GaussProber::get` (Hash.hpp:260-262), below `2^32`. -/
def gaussGet (i pos _init _s : Nat) : Nat := pos + i
/-- `LinearProber::get` (Hash.hpp:277-279); positions are below the table size, which is below `2^32`. -/
def linGet (_i pos _init _s : Nat) : Nat := pos + 1

/-! ### The table -/

/-- The state: the cells (`m_keys`, `m_values`, `m_size`) and `m_entries`, and the state of the growth policy (`m_load_factor`, `m_n`,
`m_remaining_characters`). -/
structure Table (κ σ : Type) where
  cells : List (Option (κ × Nat))
  entries : Nat
  pol : σ

/-- The growth policy (Hash.hpp:532-551): from the policy state, the table size and the number of entries, the decision whether to grow,
with the hint given to `reserve` and the new policy state. -/
abbrev Grow (σ : Type) := σ → Nat → Nat → Option (Nat × σ)

variable {κ σ : Type} [DecidableEq κ]

/-- The probing sequence of a key in a table of `s` cells (Hash.hpp:523-526, 570-571). -/
def seq (C : Cfg κ) (s : Nat) (k : κ) : Nat → Nat
  | 0 => C.modT (C.hash k) s (C.hash k) 0
  | i + 1 => C.modT (C.get (i + 1) (seq C s k i) (C.modT (C.hash k) s (C.hash k) 0) s) s (C.hash k) (i + 1)

/-- The search stops at an empty cell or at one with the key (Hash.hpp:528, 558); outside of the array it is undefined. -/
def stops (cells : List (Option (κ × Nat))) (k : κ) (p : Nat) : Bool :=
  match cells[p]? with
  | some (some (k', _)) => decide (k' = k)
  | _ => true

/-- The probing loop (Hash.hpp:527-580) from collision `i` on, for `n` more probes. -/
def probeFrom (C : Cfg κ) (cells : List (Option (κ × Nat))) (k : κ) (i : Nat) : Nat → Option Nat
  | 0 => none
  | n + 1 =>
    let p := seq C cells.length k i
    if stops cells k p then some p else probeFrom C cells k (i + 1) n

/-- The position at which the search for a key ends.  All built-in probing sequences repeat after at most twice the table size (as long as
the 32 bit collision counter does not wrap), so a search that has not ended by then is taken not to end. -/
def probe (C : Cfg κ) (cells : List (Option (κ × Nat))) (k : κ) : Option Nat := probeFrom C cells k 0 (2 * cells.length)

/-- A table without entries (Hash.hpp:426, 471, 486-489). -/
def freshCells (κ : Type) (s : Nat) : List (Option (κ × Nat)) := List.replicate s none

/-- Storing a key and a value in a cell; `undef` marks a cell as empty. -/
def store (undef : Nat) (cells : List (Option (κ × Nat))) (p : Nat) (k : κ) (v : Nat) : List (Option (κ × Nat)) :=
  cells.set p (if v = undef then none else some (k, v))

/-- The loop of `reserve` that moves the entries (Hash.hpp:475-479), with the `insert` to use. -/
def moveAll (ins : Table κ σ → κ → Nat → Res (Table κ σ × Nat × Bool)) : List (Option (κ × Nat)) → Table κ σ → Res (Table κ σ)
  | [], T => .ok T
  | none :: cs, T => moveAll ins cs T
  | some (k, v) :: cs, T =>
    match ins T k v with
    | .error e => .error e
    | .ok (T, _, _) => moveAll ins cs T

/-- `reserve` (Hash.hpp:461-491), with the `insert` to use. -/
def reserve (C : Cfg κ) (ins : Table κ σ → κ → Nat → Res (Table κ σ × Nat × Bool)) (T : Table κ σ) (hint : Nat) : Res (Table κ σ) :=
  if T.entries > 0 then moveAll ins T.cells { T with cells := freshCells κ (C.minSize hint), entries := 0 }
  else .ok { T with cells := freshCells κ (C.minSize hint) }

/-- `insert` (Hash.hpp:518-581): the value at the returned iterator and the flag.  `insert` and `reserve` call each other; `depth` bounds
the depth of that recursion (if no depth suffices the recursion does not end). -/
def insert (C : Cfg κ) (grow : Grow σ) (undef : Nat) : Nat → Table κ σ → κ → Nat → Res (Table κ σ × Nat × Bool)
  | 0, _, _, _ => .error .loop
  | depth + 1, T, k, v =>
    match probe C T.cells k with
    | none => .error .loop
    | some p =>
      match T.cells[p]? with
      | none => .error .ub
      | some (some (_, w)) => .ok (T, w, false)
      | some none =>
        let T := { T with cells := store undef T.cells p k v, entries := T.entries + 1 }
        match grow T.pol T.cells.length T.entries with
        | none => .ok (T, v, true)
        | some (hint, pol) =>
          match reserve C (insert C grow undef depth) { T with pol := pol } hint with
          | .error e => .error e
          | .ok T =>
            match insert C grow undef depth T k v with
            | .error e => .error e
            | .ok (T, w, _) => .ok (T, w, true)

/-- The constructor (Hash.hpp:415-428): four empty cells. -/
def init (pol : σ) : Table κ σ := { cells := freshCells κ 4, entries := 0, pol := pol }

/-- A history of insertions.  Before each one the outside world may change the policy state (`remaining_characters` is a reference, and
`max_load_factor` can be set). -/
def run (C : Cfg κ) (grow : Grow σ) (undef depth : Nat) : List ((σ → σ) × κ × Nat) → Table κ σ → Res (List (Nat × Bool) × Table κ σ)
  | [], T => .ok ([], T)
  | (f, k, v) :: ops, T =>
    match insert C grow undef depth { T with pol := f T.pol } k v with
    | .error e => .error e
    | .ok (T, w, b) =>
      match run C grow undef depth ops T with
      | .error e => .error e
      | .ok (rs, T) => .ok ((w, b) :: rs, T)

/-! ### The growth policy of the code -/

/-- `m_load_factor` in percent, `m_n` and `m_remaining_characters`. -/
structure Pol where
  lf : Nat
  n : Nat
  rem : Nat
deriving DecidableEq

/-- `lz78_expected_number_of_remaining_elements` (util.hpp:515-520). -/
def expectedRem (z n rem : Nat) : Nat := if rem * 2 < n then z * rem / (n - rem) else rem * 3 / bitsFor rem

/-- The growth decision (Hash.hpp:532-551) for size managers other than `SizeManagerDirect`.  Simplification: the products with `float` and
`double` factors are exact rationals here (`0.95` is `95/100`, the load factor a number of percent). -/
def growth : Grow Pol := fun p s e =>
  if s * p.lf < e * 100 then
    let x := max ((e + expectedRem e p.n p.rem) * 100 / 95) (s * 11 / 10)
    if x * 100 < s * 2 * 95 then some (x, { p with lf := 95 })
    else some ((s - 1) * 2, p)
  else none

end HM
end Tdc
