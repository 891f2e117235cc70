import Verif.Model.OptionEval
import Verif.Spec.AlgoGrammar

/-!
# What an algorithm string means

The meaning of an invocation with respect to a set of declared algorithms, as a user would describe it.  Only the data types of the model are
used here, none of its functions.
-/

namespace Tdc
namespace Opt

open Ast

/-- the argument vector with the given elements -/
def mkArgs : List (Option Bs × Val) → Args
  | [] => .nil
  | (k, v) :: t => .cons k v (mkArgs t)

/-- `d` is the declaration of the algorithm `name` of type `type` -/
def Declared (types : Types) (type name : Bs) (d : DAlg) : Prop := ∃ cs, (type, cs) ∈ types ∧ d ∈ cs ∧ d.name = name

/-- Declarations are unambiguous: one entry per type, one declaration per name, one option per option name. -/
structure TypesOk (types : Types) : Prop where
  keys : (types.map (·.1)).Nodup
  names : ∀ e ∈ types, (e.2.map (·.name)).Nodup
  options : ∀ e ∈ types, ∀ d ∈ e.2, (d.args.map (·.name)).Nodup

/-- the `j`-th argument is for the option `n`: it says so, or it is positional and `n` is the `j`-th declared option -/
def IsFor (sig : List DArg) (args : List (Option Bs × Val)) (j : Nat) (n : Bs) : Prop :=
  (∃ v, args[j]? = some (some n, v)) ∨ ∃ v a, args[j]? = some (none, v) ∧ sig[j]? = some a ∧ a.name = n

/-- positional arguments come first and are no more than there are options; keywords are names of options -/
structure WellFormed (sig : List DArg) (args : List (Option Bs × Val)) : Prop where
  posFirst : ∀ (i j : Nat) (v : Val), i < j → args[j]? = some (none, v) → ∃ w, args[i]? = some (none, w)
  posFew : ∀ (j : Nat) (v : Val), args[j]? = some (none, v) → j < sig.length
  known : ∀ (j : Nat) (k : Bs) (v : Val), args[j]? = some (some k, v) → ∃ a ∈ sig, a.name = k

/-- the last argument for the option `n` has the value `v` -/
def Given (sig : List DArg) (args : List (Option Bs × Val)) (n : Bs) (v : Val) : Prop :=
  ∃ j k, args[j]? = some (k, v) ∧ IsFor sig args j n ∧ ∀ j', j < j' → ¬ IsFor sig args j' n

/-- the value of an option: as given, else its default -/
def Chosen (sig : List DArg) (args : List (Option Bs × Val)) (a : DArg) (v : Val) : Prop :=
  Given sig args a.name v ∨ (∀ j, ¬ IsFor sig args j a.name) ∧ a.dflt = some v

/-- neither the empty string nor a nameless invocation -/
def NonEmpty (v : Val) : Prop := v ≠ .str [] ∧ ∀ xs, v ≠ .inv [] xs

/-- the static selection: the static options with their selections, in the order of the declaration -/
def staticSel : List DArg → List OptVal → PArgs
  | a :: sig, r :: rs =>
    match a.isStatic, r with
    | true, .alg _ _ s _ => .cons a.name s (staticSel sig rs)
    | _, _ => staticSel sig rs
  | _, _ => .nil

/-- `Means types type v r`: the value `v`, where something of type `type` is expected, is evaluated to `r`. -/
inductive Means (types : Types) : Bs → Val → OptVal → Prop
  | str (x : Bs) : Means types stringT (.str x) (.str x)
  | alg (type name : Bs) (args : List (Option Bs × Val)) (d : DAlg) (vals : List Val) (rs : List OptVal) :
    type ≠ stringT → Declared types type name d → WellFormed d.args args →
    vals.length = d.args.length → rs.length = d.args.length →
    (∀ (i : Nat) (a : DArg) (v : Val), d.args[i]? = some a → vals[i]? = some v → Chosen d.args args a v ∧ NonEmpty v) →
    (∀ (i : Nat) (a : DArg) (v : Val) (r : OptVal), d.args[i]? = some a → vals[i]? = some v → rs[i]? = some r → Means types a.type v r) →
    (∀ (i : Nat) (a : DArg) (r : OptVal), d.args[i]? = some a → rs[i]? = some r → a.isStatic = true → ∃ n m s f, r = .alg n m s f) →
    Means types type (.inv name (mkArgs args))
      (.alg name ((d.args.map (·.name)).zip rs) (.mk name (staticSel d.args rs)) d.flags)

mutual
/-- the static selection described by a value: names and keywords -/
def valPat : Val → Pat
  | .str x => .mk x .nil
  | .inv n args => .mk n (argsPat args)
def argsPat : Args → PArgs
  | .nil => .nil
  | .cons k v r => .cons (k.getD []) (valPat v) (argsPat r)
end

/-- the names of the options in their order -/
def Opts.names : Opts → List Bs
  | .nil => []
  | .templ n _ r => n :: r.names
  | .templD n _ _ r => n :: r.names
  | .dyn n r => n :: r.names
  | .dynD n _ r => n :: r.names
  | .comp n r => n :: r.names

mutual
/-- What the `meta()` functions of a program look like: names are not empty, `string` is not the type of an algorithm, no option is declared
twice (`Meta::check_arg` raises), and the default of a template parameter has the type of the parameter (`DCHECK_EQ` in `templated<T, D>`). -/
def Meta.Ok : Meta → Prop
  | .mk t n _ _ o => t ≠ stringT ∧ n ≠ [] ∧ o.names.Nodup ∧ o.Ok
def Opts.Ok : Opts → Prop
  | .nil => True
  | .templ _ t r => t.Ok ∧ r.Ok
  | .templD _ t d r => t.Ok ∧ d.Ok ∧ t.type = d.type ∧ r.Ok
  | .dyn _ r => r.Ok
  | .dynD _ _ r => r.Ok
  | .comp _ r => r.Ok
end

/-- the sets of declarations a program can build up by registering algorithms -/
inductive Built : Types → Prop
  | empty : Built []
  | gather (m : Meta) (types types' : Types) : Built types → m.Ok → m.gather types = .ok types' → Built types'

/-- `ms` are the classes registered in `reg`, each as its meta information and its constructor, by calls of `register_algorithm` that did not
fail, starting with an empty registry for algorithms of type `root` -/
inductive BuiltReg {κ : Type} (root : Bs) : List (Meta × κ) → Registry κ → Prop
  | empty : BuiltReg root [] ⟨[], [], root⟩
  | register (m : Meta) (c : κ) (fuel : Nat) (ms : List (Meta × κ)) (reg reg' : Registry κ) : BuiltReg root ms reg → m.Ok → m.type = root →
    register fuel reg m c = .ok reg' → BuiltReg root ((m, c) :: ms) reg'

/-- a decimal number and its value -/
inductive Decimal : Bs → Nat → Prop
  | one (d : UInt8) : Digit d → Decimal [d] (d.toNat - 48)
  | more (s : Bs) (n : Nat) (d : UInt8) : Decimal s n → Digit d → Decimal (s ++ [d]) (10 * n + (d.toNat - 48))

end Opt
end Tdc
