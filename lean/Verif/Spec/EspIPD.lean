import Verif.Model.EspIPD

/-!
# What a map of ESP has to do

A history is a list of accesses: a key, and the function which computes the new value from the old one.
-/

namespace Tdc.Esp

/-- The values an ideal map (every key has the value 0 at first) shows to the updaters, and the values at the end. -/
def idealRun : List (Key × (Nat → Nat)) → (Key → Nat) → List Nat × (Key → Nat)
  | [], g => ([], g)
  | (k, f) :: h, g =>
    let r := idealRun h fun x => if x = k then f (g k) else g x
    (g k :: r.1, r.2)

/-- The values an implementation shows to the updaters, and its state at the end. -/
def runOn (I : Ipd) : List (Key × (Nat → Nat)) → I.τ → Res (List Nat × I.τ)
  | [], t => .ok ([], t)
  | (k, f) :: h, t => (I.access t k f).bind fun (t, v) => (runOn I h t).bind fun (l, t) => .ok (v :: l, t)

/-- The implementation is a map, for all histories in which keys and values are 64-bit numbers and all keys satisfy `P`: no access fails, the
updaters see the values of an ideal map, and traversing the map at the end gives every key which was accessed exactly once, with its value. -/
def IsMapOn (P : Key → Prop) (I : Ipd) : Prop :=
  ∀ h : List (Key × (Nat → Nat)), (∀ e ∈ h, e.1.1 < 2 ^ 64 ∧ e.1.2 < 2 ^ 64 ∧ P e.1 ∧ ∀ v, v < 2 ^ 64 → e.2 v < 2 ^ 64) →
    ∃ l t, runOn I h I.new = .ok (l, t) ∧ l = (idealRun h fun _ => 0).1 ∧ ((I.forAll t).map Prod.fst).Nodup ∧
      ∀ k v, (k, v) ∈ I.forAll t ↔ k ∈ h.map Prod.fst ∧ v = (idealRun h fun _ => 0).2 k

/-- What `IPDMap` promises: only the key which was passed to the constructor as the empty key, two numbers `2^64 - 1`, must not be used. -/
def IsMap (I : Ipd) : Prop := IsMapOn (fun k => k ≠ (2 ^ 64 - 1, 2 ^ 64 - 1)) I

end Tdc.Esp
