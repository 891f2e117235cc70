import Verif.Model.AlgoParser

/-!
# AlgorithmStringParser.hpp, Meta.hpp, OptionValue.hpp, Registry.hpp: what an algorithm string selects

Strings are byte lists (`Bs`), `ast::Value`s are the `Val`s of `Model/AlgoParser.lean`.  `ast::Arg::has_type` is never set by the parser or by
`Meta`, so the checks for it are left out; so are the texts of the error messages.
-/

namespace Tdc
namespace Opt

open Ast

/-- how an evaluation ends abnormally: an exception, a failed `CHECK` (the process aborts), endless recursion -/
inductive Bad where
  | throw
  | abort
  | loop
  deriving DecidableEq, Repr

abbrev Out (α : Type) := Except Bad α

/-- ds/TextDSFlags.hpp:19-33, `InputRestrictionsAndFlags` (io/InputRestrictions.hpp: escaped bytes and null termination) -/
structure Flags where
  escape : Bs := []
  nullTerminate : Bool := false
  ds : Nat := 0
  deriving DecidableEq, Repr

/-- util/algorithm_parser/AlgorithmDecl.hpp:54-77, `decl::Arg`; `dflt = none` is `m_has_default = false` -/
structure DArg where
  name : Bs
  isStatic : Bool
  type : Bs
  dflt : Option Val
  deriving DecidableEq

/-- util/algorithm_parser/AlgorithmDecl.hpp:17-32, `decl::Algorithm` -/
structure DAlg where
  name : Bs
  args : List DArg
  doc : Bs
  flags : Flags

/-- util/algorithm_parser/AlgorithmDecl.hpp:153-158: `operator==` ignores `m_ds_flags` -/
def DAlg.same (a b : DAlg) : Bool := decide (a.name = b.name) && decide (a.args = b.args) && decide (a.doc = b.doc)

/-- AlgorithmStringParser.hpp:16-17, `AlgorithmTypes`: the `unordered_map` as an association list -/
abbrev Types := List (Bs × List DAlg)

mutual
/-- util/algorithm_parser/AlgorithmPattern.hpp:19-29, `pattern::Algorithm` -/
inductive Pat where
  | mk (name : Bs) (args : PArgs)
  deriving DecidableEq
/-- util/algorithm_parser/AlgorithmPattern.hpp:45-51, a `std::vector<pattern::Arg>` -/
inductive PArgs where
  | nil
  | cons (name : Bs) (p : Pat) (rest : PArgs)
  deriving DecidableEq
end

/-- the vector with the given elements -/
def PArgs.ofList : List (Bs × Pat) → PArgs
  | [] => .nil
  | (n, p) :: t => .cons n p (PArgs.ofList t)

/-- util/algorithm_parser/AlgorithmPattern.hpp:34-36, `name()` -/
def Pat.name : Pat → Bs
  | .mk n _ => n

/-- OptionValue.hpp:35-60 and 64-87, `OptionValue` and `AlgorithmValue`; the `std::map` of arguments is an association list. -/
inductive OptVal where
  | str (x : Bs)
  | alg (name : Bs) (args : List (Bs × OptVal)) (sel : Pat) (flags : Flags)

/-- `std::map::operator[]` followed by an assignment -/
def mapSet (m : List (Bs × OptVal)) (k : Bs) (v : OptVal) : List (Bs × OptVal) :=
  if m.any (fun e => e.1 = k) then m.map (fun e => if e.1 = k then (k, v) else e) else m ++ [(k, v)]

/-- util/algorithm_parser/ASTDef.hpp:65-67, `is_empty` -/
def isEmpty : Val → Bool
  | .str x => x = []
  | .inv n _ => n = []

/-- the elements of an argument vector -/
def toList : Args → List (Option Bs × Val)
  | .nil => []
  | .cons k v r => (k, v) :: toList r

/-- AlgorithmStringParser.hpp:101: the built-in type -/
def stringT : Bs := [115, 116, 114, 105, 110, 103]
/-- Meta.hpp:214: the type of `dynamic_compressor` options -/
def compressorT : Bs := [99, 111, 109, 112, 114, 101, 115, 115, 111, 114]

/-- AlgorithmStringParser.hpp:116-120: `types.count(type) > 0` and `types[type]` -/
def candidates (types : Types) (type : Bs) : Option (List DAlg) := (types.find? (fun e => e.1 = type)).map (·.2)

/-- AlgorithmStringParser.hpp:121-126: the loop keeps the last candidate of that name -/
def lookupAlg (cs : List DAlg) (name : Bs) : Option DAlg := cs.foldl (fun found c => if c.name = name then some c else found) none

/-- AlgorithmStringParser.hpp:79-83, `check_argument_defined` -/
def defined (sig : List DArg) (name : Bs) : Bool := sig.any (fun a => a.name = name)

/-- AlgorithmStringParser.hpp:143-176, step 1: the option each argument of the invocation stands for; `i` and `positional_ok` as in the code.
`vector::at` throws behind the end. -/
def argNames (sig : List DArg) : Nat → Bool → List (Option Bs × Val) → Out (List Bs)
  | _, _, [] => .ok []
  | i, posOk, (none, _) :: rest =>
    if posOk then
      match sig[i]? with
      | none => .error .throw
      | some a =>
        if defined sig a.name then (argNames sig (i + 1) posOk rest).bind fun r => .ok (a.name :: r) else .error .throw
    else .error .abort
  | i, _, (some k, _) :: rest =>
    if defined sig k then (argNames sig i false rest).bind fun r => .ok (k :: r) else .error .throw

/-- AlgorithmStringParser.hpp:187-192: the loop keeps the last position with that name; here: the value at that position -/
def lastGiven (names : List Bs) (args : List (Option Bs × Val)) (n : Bs) : Option Val :=
  (names.zip args).foldl (fun found e => if e.1 = n then some e.2.2 else found) none

/-- AlgorithmStringParser.hpp:200-240, the value of one option and the static arguments fixed for it; `fixed` is the (reversed back to source
order) rest of the fixed static arguments if there are any.  The result contains the remaining fixed arguments. -/
def pickValue (given : Option Val) (fixed : Option (List (Option Bs × Val))) (a : DArg) :
    Out (Val × Val × Option (List (Option Bs × Val))) :=
  match fixed with
  | some fs =>
    if a.isStatic then
      match fs with
      | [] => .error .abort
      | (k, fv) :: rest => if k.getD [] = a.name then .ok (given.getD fv, fv, some rest) else .error .abort
    else .ok (given.getD (a.dflt.getD (.str [])), .str [], fixed)
  | none => .ok (given.getD (a.dflt.getD (.str [])), .str [], none)

/-- AlgorithmStringParser.hpp:253-260: what a static option adds to the static selection; `as_algorithm` is a `CHECK` -/
def addStatic (a : DArg) (r : OptVal) (stat : List (Bs × Pat)) : Out (List (Bs × Pat)) :=
  if a.isStatic then
    match r with
    | .str _ => .error .abort
    | .alg _ _ sel _ => if sel.name = [] then .ok stat else .ok (stat ++ [(a.name, sel)])
  else .ok stat

/-- AlgorithmStringParser.hpp:181-266, step 2; `ev type value fixed` is the recursive call. -/
def evalArgs (ev : Bs → Val → Val → Out OptVal) (pattern : Bool) (names : List Bs) (args : List (Option Bs × Val)) :
    List DArg → Option (List (Option Bs × Val)) → List (Bs × Pat) → List (Bs × OptVal) →
    Out (Option (List (Option Bs × Val)) × List (Bs × Pat) × List (Bs × OptVal))
  | [], fixed, stat, dyn => .ok (fixed, stat, dyn)
  | a :: sig, fixed, stat, dyn =>
    if pattern && !a.isStatic then evalArgs ev pattern names args sig fixed stat dyn
    else
      (pickValue (lastGiven names args a.name) fixed a).bind fun p =>
      if isEmpty p.1 then .error .throw else
      (ev a.type p.1 p.2.1).bind fun r =>
      (addStatic a r stat).bind fun stat' =>
      evalArgs ev pattern names args sig p.2.2 stat' (mapSet dyn a.name r)

/-- AlgorithmStringParser.hpp:108-112 and 26-35: the fixed static arguments in the order in which they are consumed -/
def openFixed (fixed v : Val) : Out (Option (List (Option Bs × Val))) :=
  if isEmpty fixed then .ok none else
  match fixed, v with
  | .inv fn fargs, .inv n _ => if fn = n then .ok (some (toList fargs)) else .error .abort
  | _, _ => .error .abort

/-- AlgorithmStringParser.hpp:270-272, step 2.5 -/
def fixedUsed : Option (List (Option Bs × Val)) → Bool
  | some (_ :: _) => false
  | _ => true

/-- AlgorithmStringParser.hpp:94-287, `eval`; the fuel bounds the depth of the recursion. -/
def eval (types : Types) (pattern : Bool) : Nat → Bs → Val → Val → Out OptVal
  | 0, _, _, _ => .error .loop
  | fuel + 1, type, v, fixed =>
    if type = stringT then
      match v with
      | .str x => .ok (.str x)
      | .inv _ _ => .error .throw
    else
      (openFixed fixed v).bind fun fs =>
      match candidates types type, v with
      | none, _ => .error .abort
      | some _, .str _ => .error .abort
      | some cs, .inv n args =>
        match lookupAlg cs n with
        | none => .error .throw
        | some sig =>
          (argNames sig.args 0 true (toList args)).bind fun names =>
          (evalArgs (eval types pattern fuel) pattern names (toList args) sig.args fs [] []).bind fun r =>
          if fixedUsed r.1 then .ok (.alg sig.name r.2.2 (.mk sig.name (PArgs.ofList r.2.1)) sig.flags) else .error .abort

/-- OptionValue.hpp:151-154, `as_algorithm` and `to_algorithm`: only algorithms -/
def asAlgorithm : OptVal → Out OptVal
  | .str _ => .error .abort
  | v => .ok v

/-- OptionValue.hpp:127-130, `static_selection`, behind `as_algorithm` -/
def selection : OptVal → Out Pat
  | .str _ => .error .abort
  | .alg _ _ sel _ => .ok sel

/-- AlgorithmStringParser.hpp:289-298, `cl_eval` -/
def clEval (types : Types) (fuel : Nat) (type : Bs) (v fixed : Val) : Out OptVal := eval types false fuel type v fixed

/-- AlgorithmStringParser.hpp:299-306, `pattern_eval` -/
def patternEval (types : Types) (fuel : Nat) (type : Bs) (v : Val) : Out Pat := (eval types true fuel type v (.str [])).bind selection

/-! ## Meta -/

mutual
/-- Meta.hpp:35-47: the object a `meta()` function builds -/
inductive Meta where
  | mk (type name doc : Bs) (flags : Flags) (opts : Opts)
/-- Meta.hpp:78-221: the calls of `option(name).templated<T>()`, `.templated<T, D>()`, `.dynamic()`, `.dynamic(default)` and
`.dynamic_compressor()` in their order -/
inductive Opts where
  | nil
  | templ (name : Bs) (t : Meta) (rest : Opts)
  | templD (name : Bs) (t d : Meta) (rest : Opts)
  | dyn (name : Bs) (rest : Opts)
  | dynD (name : Bs) (dflt : Bs) (rest : Opts)
  | comp (name : Bs) (rest : Opts)
end

def Meta.type : Meta → Bs | .mk t _ _ _ _ => t
def Meta.name : Meta → Bs | .mk _ n _ _ _ => n
def Meta.doc : Meta → Bs | .mk _ _ d _ _ => d
def Meta.flags : Meta → Flags | .mk _ _ _ f _ => f
def Meta.opts : Meta → Opts | .mk _ _ _ _ o => o

mutual
/-- Meta.hpp:227-237, `build_ast_value_for_default`: every option with its default; without one, an empty value -/
def Meta.dflt : Meta → Val
  | .mk _ n _ _ o => .inv n o.dflts
def Opts.dflts : Opts → Args
  | .nil => .nil
  | .templ n _ r => .cons (some n) (.str []) r.dflts
  | .templD n _ d r => .cons (some n) d.dflt r.dflts
  | .dyn n r => .cons (some n) (.str []) r.dflts
  | .dynD n s r => .cons (some n) (.str s) r.dflts
  | .comp n r => .cons (some n) (.str []) r.dflts
end

/-- Meta.hpp:91-220: the declared options (`m_options`) -/
def Opts.args : Opts → List DArg
  | .nil => []
  | .templ n t r => ⟨n, true, t.type, none⟩ :: r.args
  | .templD n _ d r => ⟨n, true, d.type, some d.dflt⟩ :: r.args
  | .dyn n r => ⟨n, false, stringT, none⟩ :: r.args
  | .dynD n s r => ⟨n, false, stringT, some (.str s)⟩ :: r.args
  | .comp n r => ⟨n, false, compressorT, none⟩ :: r.args

/-- Meta.hpp:218-225, `build_def` -/
def Meta.decl (m : Meta) : DAlg := ⟨m.name, m.opts.args, m.doc, m.flags⟩

mutual
/-- Meta.hpp:76 and 100-103, `m_static_args`: the template parameters as a value -/
def Meta.staticArgs : Meta → Val
  | .mk _ n _ _ o => .inv n o.staticArgs
def Opts.staticArgs : Opts → Args
  | .nil => .nil
  | .templ n t r => .cons (some n) t.staticArgs r.staticArgs
  | .templD n t _ r => .cons (some n) t.staticArgs r.staticArgs
  | .dyn _ r => r.staticArgs
  | .dynD _ _ r => r.staticArgs
  | .comp _ r => r.staticArgs
end

/-- Meta.hpp:293-313: insertion into the vector of one type; differing declarations under one name raise -/
def insertDecl (cs : List DAlg) (d : DAlg) : Out (List DAlg) :=
  match cs.find? (fun c => c.name = d.name) with
  | some c => if c.same d then .ok cs else .error .throw
  | none => .ok (cs ++ [d])

/-- Meta.hpp:290: `target[meta.type()]` creates an empty vector if there is none; the vector is then updated in place -/
def insertType : Types → Bs → DAlg → Out Types
  | [], t, d => (insertDecl [] d).bind fun cs => .ok [(t, cs)]
  | (t', cs) :: rest, t, d =>
    if t' = t then (insertDecl cs d).bind fun cs' => .ok ((t', cs') :: rest)
    else (insertType rest t d).bind fun r => .ok ((t', cs) :: r)

mutual
/-- Meta.hpp:286-318, `gather_types` of one meta object -/
def Meta.gather : Meta → Types → Out Types
  | .mk t n d f o, types => (insertType types t ⟨n, o.args, d, f⟩).bind fun ty => o.gather ty
/-- Meta.hpp:320-326, `gather_types` of the metas of the template arguments (`m_sub_metas`), in their order -/
def Opts.gather : Opts → Types → Out Types
  | .nil, types => .ok types
  | .templ _ t r, types => (t.gather types).bind fun ty => r.gather ty
  | .templD _ t d r, types => (t.gather types).bind fun ty => (d.gather ty).bind fun ty' => r.gather ty'
  | .dyn _ r, types => r.gather types
  | .dynD _ _ r, types => r.gather types
  | .comp _ r, types => r.gather types
end

/-! ## Registry, Builder and Env -/

/-- pre_header/Registry.hpp:44-51; `κ` stands for the constructors, the `std::map` is an association list -/
structure Registry (κ : Type) where
  types : Types
  registered : List (Pat × κ)
  root : Bs

/-- the constructor registered for a pattern -/
def findReg {κ : Type} : List (Pat × κ) → Pat → Option κ
  | [], _ => none
  | (p, c) :: t, q => if p = q then some c else findReg t q

/-- Registry.hpp:10-25, `register_algorithm<T>()`; `m` is `T::meta()`, `c` the constructor of `T` -/
def register {κ : Type} (fuel : Nat) (reg : Registry κ) (m : Meta) (c : κ) : Out (Registry κ) :=
  (m.gather reg.types).bind fun types =>
  (patternEval types fuel reg.root m.staticArgs).bind fun p =>
  if (findReg reg.registered p).isSome then .error .abort else .ok ⟨types, (p, c) :: reg.registered, reg.root⟩

/-- Registry.hpp:219-230, `parse_algorithm_id` -/
def parseId {κ : Type} (fuel : Nat) (reg : Registry κ) (text : Bs) : Out OptVal :=
  match parse text with
  | .error _ => .error .throw
  | .ok v => (clEval reg.types fuel reg.root v (.str [])).bind asAlgorithm

/-- Registry.hpp:202-217, `select_algorithm`: the constructor and the options handed to it -/
def selectAlg {κ : Type} (reg : Registry κ) (a : OptVal) : Out (κ × OptVal) :=
  (selection a).bind fun p =>
  match findReg reg.registered p with
  | some c => .ok (c, a)
  | none => .error .throw

/-- Registry.hpp:232-236, `select` -/
def select {κ : Type} (fuel : Nat) (reg : Registry κ) (text : Bs) : Out (κ × OptVal) := (parseId fuel reg text).bind fun a => selectAlg reg a

/-- CreateAlgorithm.hpp:31-58, `Builder::env`: the options for an instance of the class with meta information `m`; `types` is the map of the
registry passed to the builder -/
def builderEnv (fuel : Nat) (types : Types) (m : Meta) (options : Bs) : Out OptVal :=
  (m.gather types).bind fun ty =>
  match parse (m.name ++ 40 :: options ++ [41]) with
  | .error _ => .error .throw
  | .ok v => (clEval ty fuel m.type v m.staticArgs).bind asAlgorithm

/-- Env.hpp:42-44, `option`: `map::at` throws -/
def envOption (a : OptVal) (name : Bs) : Out OptVal :=
  match a with
  | .str _ => .error .abort
  | .alg _ args _ _ =>
    match args.find? (fun e => e.1 = name) with
    | some e => .ok e.2
    | none => .error .throw

/-- Env.hpp:32-40, `env_for_option` -/
def envFor (a : OptVal) (name : Bs) : Out OptVal :=
  match a with
  | .str _ => .error .abort
  | .alg _ args _ _ =>
    match args.find? (fun e => e.1 = name) with
    | some e => asAlgorithm e.2
    | none => .error .abort

/-! ## conversions -/

/-- the whitespace that `operator>>` skips (C locale) -/
def isSpace (c : UInt8) : Bool := c = 32 || (9 ≤ c && c ≤ 13)

/-- a decimal digit -/
def isDigit (c : UInt8) : Bool := 48 ≤ c && c ≤ 57

/-- the value of a sequence of decimal digits -/
def digitsVal (ds : Bs) : Nat := ds.foldl (fun n d => 10 * n + (d.toNat - 48)) 0

/-- `std::stringstream(s) >> val` for an unsigned 64-bit `val` behind the sign: without digits 0, too large values saturate (C++11
`num_get` with `strtoull` semantics: a minus sign negates modulo 2^64) -/
def lexDigits (neg : Bool) (s : Bs) : Nat :=
  if digitsVal (s.takeWhile isDigit) < 2 ^ 64 then
    (if neg then (2 ^ 64 - digitsVal (s.takeWhile isDigit)) % 2 ^ 64 else digitsVal (s.takeWhile isDigit))
  else 2 ^ 64 - 1

/-- OptionValue.hpp:29-33 and 163-165, `lexical_cast<uint64_t>` and `as_integer`; whether the extraction failed is not asked -/
def asInteger (s : Bs) : Nat :=
  match s.dropWhile isSpace with
  | [] => 0
  | c :: t => if c = 45 then lexDigits true t else if c = 43 then lexDigits false t else lexDigits false (c :: t)

/-- OptionValue.hpp:169-176, `as_bool` -/
def asBool (s : Bs) : Out Bool := if s = trueB then .ok true else if s = falseB then .ok false else .error .throw

end Opt
end Tdc
