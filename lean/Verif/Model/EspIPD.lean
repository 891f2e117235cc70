import Verif.Model.Esp

/-!
# The maps of ESP: `ipd`

esp/StdUnorderedMapIPD.hpp, esp/HashMapIPD.hpp with esp/HashMap.h (`rigtorp::HashMap`), esp/DynamicSizeIPD.hpp, and GrammarRules.hpp and
EspContextImpl.hpp on top of them.

An updater is called once, with the stored value; what it does besides computing the new value (the lambdas of GrammarRules.hpp:45-49 and
DynamicSizeIPD.hpp:193-201 change variables of the caller) is computed by the caller from this value, which `access` therefore returns.
-/

namespace Tdc.Esp

abbrev Key := Nat × Nat

/-- `IPDMap<2, size_t, size_t>` -/
structure Ipd where
  τ : Type
  new : τ
  access : τ → Key → (Nat → Nat) → Res (τ × Nat)
  forAll : τ → List (Key × Nat)

/-- `IPDMap<2, uint_t<B>, uint_t<B>>`, constructed with a number of buckets; the empty key are two numbers with all bits set. -/
structure IpdFam where
  τ : Type
  new : (B buckets : Nat) → τ
  access : (B : Nat) → τ → Key → (Nat → Nat) → Res (τ × Nat)
  forAll : (B : Nat) → τ → List (Key × Nat)
  size : τ → Nat

/-- The instance for `size_t`, constructed as in GrammarRules.hpp:36. -/
def IpdFam.plain (F : IpdFam) : Ipd := ⟨F.τ, F.new 64 0, F.access 64, F.forAll 64⟩

/-- GrammarRules.hpp:21-23, DynamicSizeIPD.hpp:90-92 -/
def emptyKey (B : Nat) : Key := (2 ^ B - 1, 2 ^ B - 1)

/-! ## StdUnorderedMapIPD.hpp -/

/-- `m[k] = v` for a map -/
def setKey (m : List (Key × Nat)) (k : Key) (v : Nat) : List (Key × Nat) :=
  match m.lookup k with
  | none => m ++ [(k, v)]
  | some _ => m.map fun e => if e.1 = k then (k, v) else e

/-- StdUnorderedMapIPD.hpp:15-41; `iter` is the order in which the map is traversed. -/
def stdIpd (iter : List (Key × Nat) → List (Key × Nat)) : IpdFam where
  τ := List (Key × Nat)
  new _ _ := []
  access _ m k f := let v := (m.lookup k).getD 0; .ok (setKey m k (f v), v)
  forAll _ := iter
  size := List.length

/-! ## HashMap.h -/

/-- HashMap.h:327-328: `buckets_` and `size_` -/
structure Rig where
  buckets : List (Key × Nat)
  size : Nat
deriving DecidableEq, Repr

/-- HashMap.h:114-117 -/
def growPow (bc : Nat) : Nat → Nat → Nat
  | 0, p => p
  | fuel + 1, p => if p < bc then growPow bc fuel (2 * p) else p

/-- HashMap.h:113-119, the constructor -/
def Rig.new (empty : Key) (bc : Nat) : Rig := ⟨List.replicate (growPow bc bc 1) (empty, 0), 0⟩

/-- HashMap.h:240-249 (with key_to_idx, probe_next :310-318): the loop of `emplace_impl`; whether the bucket is empty -/
def probe (empty : Key) (b : List (Key × Nat)) (k : Key) : Nat → Nat → Res (Nat × Bool)
  | 0, _ => .error .loop
  | fuel + 1, i =>
    match b[i]? with
    | none => .error .ub
    | some e => if e.1 = empty then .ok (i, true) else if e.1 = k then .ok (i, false) else probe empty b k fuel ((i + 1) &&& (b.length - 1))

/-- HashMap.h:240-249: `emplace_impl` after `reserve`; the index of the bucket -/
def Rig.place (hash : Key → Nat) (empty : Key) (t : Rig) (k : Key) (v : Nat) : Res (Rig × Nat) :=
  (probe empty t.buckets k t.buckets.length (hash k &&& (t.buckets.length - 1))).bind fun (i, fresh) =>
  .ok (if fresh then ⟨t.buckets.set i (k, v), t.size + 1⟩ else t, i)

/-- HashMap.h:121-126: the loop over the entries of the old table -/
def reinsert (ins : Rig → Key → Nat → Res (Rig × Nat)) : List (Key × Nat) → Rig → Res Rig
  | [], t => .ok t
  | (k, v) :: l, t => (ins t k v).bind fun (t, _) => reinsert ins l t

/-- HashMap.h:81-102, 129-139: the entries of the table, as the iterators see them -/
def Rig.entries (empty : Key) (t : Rig) : List (Key × Nat) := t.buckets.filter fun e => e.1 ≠ empty

/-- HashMap.h:236-250 `emplace_impl`, with `reserve` and `rehash` (:218-228); `depth` bounds the nesting of `rehash`. The assertion of line 238 is
left out, as in a build with NDEBUG. -/
def Rig.emplace (hash : Key → Nat) (empty : Key) : Nat → Rig → Key → Nat → Res (Rig × Nat)
  | 0, _, _, _ => .error .loop
  | depth + 1, t, k, v =>
    (if (t.size + 1) * 2 > t.buckets.length then
      reinsert (Rig.emplace hash empty depth) (t.entries empty) (Rig.new empty (max ((t.size + 1) * 2) (t.size * 2)))
    else .ok t).bind fun t => t.place hash empty k v

/-- HashMapIPD.hpp:24-29 -/
def Rig.access (hash : Key → Nat) (empty : Key) (t : Rig) (k : Key) (f : Nat → Nat) : Res (Rig × Nat) :=
  (t.emplace hash empty 2 k 0).bind fun (t, i) =>
  match t.buckets[i]? with
  | none => .error .ub
  | some e => .ok (⟨t.buckets.set i (e.1, f e.2), t.size⟩, e.2)

def hashIpd (hash : Nat → Key → Nat) : IpdFam where
  τ := Rig
  new B bc := Rig.new (emptyKey B) bc
  access B := Rig.access (hash B) (emptyKey B)
  forAll B := Rig.entries (emptyKey B)
  size := Rig.size

/-! ## DynamicSizeIPD.hpp -/

/-- :131-132 `m_map_bits` and `m_map` -/
structure Dyn (F : IpdFam) where
  bits : Nat
  map : F.τ

/-- :31-38 `cast_to` -/
def castKey (B : Nat) (k : Key) : Key := (k.1 % 2 ^ B, k.2 % 2 ^ B)

/-- :111-118 `can_fit_key` -/
def fitsKey (B : Nat) (k : Key) : Bool := castKey B k ≠ emptyKey B ∧ bitsFor (max k.1 k.2) ≤ B

/-- :120-127 `DynamicMapOf::access` -/
def mapAccess (F : IpdFam) (B : Nat) (t : F.τ) (k : Key) (f : Nat → Nat) : Res (F.τ × Nat) :=
  F.access B t (castKey B k) fun v => f v % 2 ^ B

/-- :148-156 -/
def roundBits (bits : Nat) : Res Nat :=
  if bits ≤ 8 then .ok 8 else if bits ≤ 16 then .ok 16 else if bits ≤ 24 then .ok 24 else if bits ≤ 32 then .ok 32
  else if bits ≤ 40 then .ok 40 else if bits ≤ 48 then .ok 48 else if bits ≤ 56 then .ok 56 else if bits ≤ 64 then .ok 64
  else .error .ub

/-- :158-162: the loop over the entries of the old map -/
def refill (F : IpdFam) (B : Nat) : List (Key × Nat) → F.τ → Res F.τ
  | [], t => .ok t
  | (k, v) :: l, t => (mapAccess F B t k fun _ => v).bind fun (t, _) => refill F B l t

/-- :141-167 `resize` -/
def Dyn.resize {F : IpdFam} (d : Dyn F) (bits : Nat) : Res (Dyn F) :=
  (roundBits bits).bind fun B =>
  (refill F B (F.forAll d.bits d.map) (F.new B (F.size d.map))).bind fun t => .ok ⟨B, t⟩

/-- :184-213; `copy` (:190) is `f` of the value stored -/
def Dyn.access {F : IpdFam} (d : Dyn F) (k : Key) (f : Nat → Nat) : Res (Dyn F × Nat) :=
  (if fitsKey d.bits k then .ok d else d.resize (max (bitsFor (max k.1 k.2)) (d.bits + 1))).bind fun d =>
  (mapAccess F d.bits d.map k fun v => if bitsFor (f v) ≤ d.bits then f v else v).bind fun (t, old) =>
  if bitsFor (f old) ≤ d.bits then .ok (⟨d.bits, t⟩, old) else
    (Dyn.resize ⟨d.bits, t⟩ (max (bitsFor (f old)) (d.bits + 1))).bind fun d =>
    (mapAccess F d.bits d.map k fun _ => f old).bind fun (t, _) => .ok (⟨d.bits, t⟩, old)

def dynIpd (F : IpdFam) : Ipd where
  τ := Dyn F
  new := ⟨8, F.new 8 0⟩
  access := Dyn.access
  forAll d := F.forAll d.bits d.map

/-! ## ESP with a given map -/

/-- GrammarRules.hpp:27-29 -/
structure RulesOn (I : Ipd) where
  map : I.τ
  counter : Nat

/-- GrammarRules.hpp:45-49 and the calls of `access`: a value 0 gets the counter. -/
def RulesOn.access {I : Ipd} (g : RulesOn I) (k : Key) : Res (Nat × RulesOn I) :=
  (I.access g.map k fun v => if v = 0 then g.counter else v).bind fun (m, v) =>
  .ok (if v = 0 then (g.counter, ⟨m, g.counter + 1⟩) else (v, ⟨m, g.counter⟩))

/-- GrammarRules.hpp:40-80 `add` -/
def RulesOn.add {I : Ipd} (g : RulesOn I) : List Nat → Res (Nat × RulesOn I)
  | [a, b] => (g.access (a, b)).bind fun (r, g) => .ok (r - 1, g)
  | a :: b :: c :: _ =>
    (g.access (a, b)).bind fun (r, g) =>
    (g.access (r - 1, c)).bind fun (s, g) => .ok (s - 1, g)
  | _ => .error .ub

/-- EspContextImpl.hpp:84-99 -/
def nameBlocksOn {I : Ipd} (ic w : Nat) : List Blk → List Nat → RulesOn I → Res (List Nat × RulesOn I)
  | [], _, g => .ok ([], g)
  | e :: v, s, g =>
    if s.length < e.len then .error .ub
    else (g.add (s.take e.len)).bind fun x =>
      (nameBlocksOn ic w v (s.drop e.len) x.2).bind fun y => .ok ((x.1 - (ic - 1)) % 2 ^ w :: y.1, y.2)

/-- EspContextImpl.hpp:43-162 -/
def roundLoopOn (I : Ipd) :
    Nat → (alphabet : Nat) → (str : List Nat) → (rules : List (Nat × Nat)) → (slpCounter prev : Nat) → Res SLP
  | 0, _, _, _, _, _ => .error .loop
  | fuel + 1, alphabet, str, rules, slpCounter, prev =>
    match str with
    | [] => .ok ⟨rules, 0, true⟩
    | [x] => .ok ⟨rules, x + prev, false⟩
    | _ =>
      let w := bitsFor (str.length - 1)
      (split alphabet (str.length + 1) str).bind fun bs => (adjust bs).bind fun v =>
        let ic := alphabet + 1
        (nameBlocksOn ic w v str (⟨I.new, ic⟩ : RulesOn I)).bind fun x =>
          let count := x.2.counter - ic
          (storeRules ic slpCounter prev (I.forAll x.2.map) (rules ++ List.replicate count (0, 0))).bind fun rules =>
            roundLoopOn I fuel count x.1 rules (slpCounter + count) slpCounter

/-- EspContextImpl.hpp:14-165 `generate_grammar` -/
def generateOn (I : Ipd) (text : List UInt8) : Res SLP := roundLoopOn I (text.length + 1) 256 (text.map UInt8.toNat) [] 256 0

/-- EspCompressor.hpp:32-70 `compress`, with `PlainSLPCoder` -/
def compressOn (I : Ipd) (text : List UInt8) : Res (List UInt8) :=
  (generateOn I text).bind fun s => .ok (BitO.toBytes (plainEnc s))

end Tdc.Esp
