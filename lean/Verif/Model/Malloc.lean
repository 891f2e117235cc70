import Verif.Model.Stat

/-!
# The replaced allocator: src/tudocomp_stat/malloc.cpp

Blocks have names instead of addresses. Each starts with a header of 16 bytes: the magic number and the size.
Blocks which other functions of the C library have allocated (`posix_memalign`, say) are left out, so `is_managed` (:20-22) holds for all of them.
-/

namespace Tdc.Malloc

/-- a block: the `size` of its header (:15-18), and the bytes after the header -/
structure Block where
  size : Nat
  data : List UInt8

/-- the live blocks, the name of the next one, the number of requests to the C library, and the calls of `malloc_callback` so far -/
structure Heap where
  blocks : List (Nat × Block)
  next : Nat
  calls : Nat
  events : List Stat.Mem

def empty : Heap := ⟨[], 0, 0, []⟩

/-- The answer of `__libc_malloc` or `__libc_realloc` to a request, which is the i-th one, for n bytes: none, or n bytes (for `__libc_realloc`: those of the old block
come first). -/
abbrev Libc := Nat → Nat → Option (List UInt8)

/-- unsigned 64-bit arithmetic -/
def word : Nat := 2 ^ 64

/-- :24-37 `malloc` -/
def malloc (libc : Libc) (size : Nat) (h : Heap) : Res (Option Nat × Heap) :=
  if size = 0 then .ok (none, h)
  else
    let n := (size + 16) % word
    match libc h.calls n with
    | none => .ok (none, { h with calls := h.calls + 1 })
    | some g =>
      -- the header is written into the n bytes
      if n < 16 then .error .ub
      else .ok (some h.next, ⟨(h.next, ⟨size, g.drop 16⟩) :: h.blocks, h.next + 1, h.calls + 1, h.events ++ [.alloc size]⟩)

/-- the blocks but one -/
def erase {α : Type} (p : Nat) (l : List (Nat × α)) : List (Nat × α) := l.filter fun e => e.1 != p

/-- :39-49 `free` -/
def free (p : Option Nat) (h : Heap) : Res Heap :=
  match p with
  | none => .ok h
  | some p =>
    match h.blocks.lookup p with
    | none => .error .ub
    | some b => .ok { h with blocks := erase p h.blocks, events := h.events ++ [.free b.size] }

/-- :51-76 `realloc` -/
def realloc (libc : Libc) (p : Option Nat) (size : Nat) (h : Heap) : Res (Option Nat × Heap) :=
  if size = 0 then (free p h).bind fun h => .ok (none, h)
  else
    match p with
    | none => malloc libc size h
    | some p =>
      match h.blocks.lookup p with
      | none => .error .ub
      | some b =>
        let n := (size + 16) % word
        match libc h.calls n with
        -- the header is written through the null pointer
        | none => .error .ub
        | some g =>
          if n < 16 then .error .ub
          else .ok (some h.next, ⟨(h.next, ⟨size, b.data.take (n - 16) ++ (g.drop 16).drop b.data.length⟩) :: erase p h.blocks, h.next + 1, h.calls + 1,
            h.events ++ [.free b.size, .alloc size]⟩)

/-- :78-85 `calloc` -/
def calloc (libc : Libc) (num size : Nat) (h : Heap) : Res (Option Nat × Heap) :=
  let size := num * size % word
  if size = 0 then .ok (none, h)
  else (malloc libc size h).bind fun (p, h) =>
    match p with
    -- `memset` of the null pointer
    | none => .error .ub
    | some p =>
      match h.blocks.lookup p with
      | none => .error .ub
      | some b => if size ≤ b.data.length then .ok (some p, { h with blocks := (p, ⟨b.size, List.replicate size 0 ++ b.data.drop size⟩) :: erase p h.blocks }) else .error .ub

/-- a read of the i-th byte of a block by the program -/
def load (p i : Nat) (h : Heap) : Res UInt8 :=
  match h.blocks.lookup p with
  | none => .error .ub
  | some b => match b.data[i]? with
    | none => .error .ub
    | some v => .ok v

/-- a write -/
def store (p i : Nat) (v : UInt8) (h : Heap) : Res Heap :=
  match h.blocks.lookup p with
  | none => .error .ub
  | some b => if i < b.data.length then .ok { h with blocks := (p, ⟨b.size, b.data.set i v⟩) :: erase p h.blocks } else .error .ub

/-- the calls of a program -/
inductive Op where
  | malloc (n : Nat)
  | free (p : Option Nat)
  | realloc (p : Option Nat) (n : Nat)
  | calloc (num size : Nat)
  | load (p i : Nat)
  | store (p i : Nat) (v : UInt8)

/-- their results -/
inductive Ret where
  | ptr (p : Option Nat)
  | byte (v : UInt8)
  | unit

def step (libc : Libc) (h : Heap) : Op → Res (Ret × Heap)
  | .malloc n => (malloc libc n h).bind fun (p, h) => .ok (.ptr p, h)
  | .free p => (free p h).bind fun h => .ok (.unit, h)
  | .realloc p n => (realloc libc p n h).bind fun (p, h) => .ok (.ptr p, h)
  | .calloc a b => (calloc libc a b h).bind fun (p, h) => .ok (.ptr p, h)
  | .load p i => (load p i h).bind fun v => .ok (.byte v, h)
  | .store p i v => (store p i v h).bind fun h => .ok (.unit, h)

def run (libc : Libc) : Heap → List Op → Res (List Ret × Heap)
  | h, [] => .ok ([], h)
  | h, o :: os => (step libc h o).bind fun (r, h) => (run libc h os).bind fun (rs, h) => .ok (r :: rs, h)

end Tdc.Malloc
