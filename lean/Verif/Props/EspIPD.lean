import Verif.Lemmas.EspOn
import Verif.Props.Esp

/-!
# C67: the maps of ESP
-/

namespace Tdc.Esp

/-! ## As maps -/

theorem isMap_of {I : Ipd} (hI : IpdOk false I) : IsMap I := by
  intro h hh
  obtain ⟨t', m', a1, a2, a3⟩ := run_ok hI h I.new [] (fun _ => 0) (fun e he => by
    obtain ⟨b1, b2, b3, b4⟩ := hh e he
    exact ⟨b1, b2, b3, by simp, b4⟩) hI.new (by simp)
  have hp := hI.forAll a2
  refine ⟨_, t', a1, rfl, (hp.map _).nodup_iff.2 (hI.nodup a2), ?_⟩
  intro k v
  rw [hp.mem_iff, a3 k v]
  simp

/-- `std_unordered_map`, for every order of traversal -/
theorem ipd_std_isMap {iter : List (Key × Nat) → List (Key × Nat)} (hit : ∀ l, (iter l).Perm l) : IsMap (stdIpd iter).plain := isMap_of (stdOk hit).plain

/-- `hash_map`, for every hash function -/
theorem ipd_hash_isMap (hash : Nat → Key → Nat) : IsMap (hashIpd hash).plain := isMap_of (hashOk hash).plain

/-- `dynamic_size` of `std_unordered_map` -/
theorem ipd_dynamic_std_isMap {iter : List (Key × Nat) → List (Key × Nat)} (hit : ∀ l, (iter l).Perm l) : IsMap (dynIpd (stdIpd iter)) := isMap_of (dynOk (stdOk hit))

/-- `dynamic_size` of `hash_map`, except that the keys with two numbers `2^B - 1` where `B = 16, 24, …, 64` must not be used -/
theorem ipd_dynamic_hash_isMap_partial (hash : Nat → Key → Nat) :
    IsMapOn (fun k => ∀ j, 2 ≤ j → j ≤ 8 → k ≠ (2 ^ (8 * j) - 1, 2 ^ (8 * j) - 1)) (dynIpd (hashIpd hash)) := by
  intro h hh
  have hI := dynOk (hashOk hash)
  obtain ⟨t', m', a1, a2, a3⟩ := run_ok hI h (dynIpd (hashIpd hash)).new [] (fun _ => 0) (fun e he => by
    obtain ⟨b1, b2, b3, b4⟩ := hh e he
    exact ⟨b1, b2, b3 8 (by omega) (by omega), fun _ m j h1 h2 h3 => absurd h3 (b3 j h1 h2), b4⟩) hI.new (by simp)
  have hp := hI.forAll a2
  refine ⟨_, t', a1, rfl, (hp.map _).nodup_iff.2 (hI.nodup a2), ?_⟩
  intro k v
  rw [hp.mem_iff, a3 k v]
  simp

/-- With this key in an empty map, the new map with 16 bits has the key as its empty key: the entry is written, and never seen again. -/
theorem ipd_dynamic_hash_loses (hash : Nat → Key → Nat) (v : Nat) (hv : v < 2 ^ 16) :
    ∃ t, runOn (dynIpd (hashIpd hash)) [((65535, 65535), fun _ => v)] (dynIpd (hashIpd hash)).new = .ok ([0], t) ∧ (dynIpd (hashIpd hash)).forAll t = [] := by
  have hfit : fitsKey 8 (65535, 65535) = false := by decide +kernel
  have hb : max (bitsFor (max 65535 65535)) (8 + 1) = 16 := by decide +kernel
  have hr : roundBits 16 = .ok 16 := by decide +kernel
  have hc : castKey 16 (65535, 65535) = (65535, 65535) := by decide +kernel
  have hbv : bitsFor v ≤ 16 := (bitsFor_le (by omega) (by omega)).2 hv
  have he : emptyKey 16 = (65535, 65535) := by decide +kernel
  have hmod : v % 2 ^ 16 = v := Nat.mod_eq_of_lt hv
  have hn0 : Rig.new (65535, 65535) 0 = ⟨[((65535, 65535), 0)], 0⟩ := rfl
  have hn2 : Rig.new (65535, 65535) (max ((0 + 1) * 2) (0 * 2)) = ⟨[((65535, 65535), 0), ((65535, 65535), 0)], 0⟩ := rfl
  have hf8 : (hashIpd hash).forAll 8 ((hashIpd hash).new 8 0) = [] := by
    show Rig.entries _ (Rig.new _ _) = []
    simp [Rig.new, Rig.entries, growPow]
  have hs8 : (hashIpd hash).size ((hashIpd hash).new 8 0) = 0 := rfl
  have hi : hash 16 (65535, 65535) &&& 1 = 0 ∨ hash 16 (65535, 65535) &&& 1 = 1 := by rw [Nat.and_one_is_mod]; omega
  have hacc : ∃ t, (hashIpd hash).access 16 ((hashIpd hash).new 16 0) (65535, 65535) (fun _ => v) = .ok (t, 0) ∧ (hashIpd hash).forAll 16 t = [] := by
    show ∃ t, Rig.access (hash 16) (emptyKey 16) (Rig.new (emptyKey 16) 0) (65535, 65535) (fun _ => v) = .ok (t, 0) ∧ Rig.entries (emptyKey 16) t = []
    rw [he, hn0]
    unfold Rig.access Rig.emplace
    simp only [List.length_cons, List.length_nil]
    rw [if_pos (by decide), hn2]
    have hen : Rig.entries (65535, 65535) ⟨[((65535, 65535), 0)], 0⟩ = [] := by decide +kernel
    rw [hen]
    simp only [reinsert, Except.bind, Rig.place, List.length_cons, List.length_nil]
    rw [show 0 + 1 + 1 - 1 = 1 from rfl]
    rcases hi with hi | hi <;> rw [hi] <;> simp [probe, Rig.entries] <;> omega
  obtain ⟨t, a1, a2⟩ := hacc
  refine ⟨⟨16, t⟩, ?_, a2⟩
  have hresize : Dyn.resize (⟨8, (hashIpd hash).new 8 0⟩ : Dyn (hashIpd hash)) 16 = .ok ⟨16, (hashIpd hash).new 16 0⟩ := by
    unfold Dyn.resize
    rw [hr]
    simp only [Except.bind, hf8, hs8, refill]
  have hdyn : Dyn.access (⟨8, (hashIpd hash).new 8 0⟩ : Dyn (hashIpd hash)) (65535, 65535) (fun _ => v) = .ok (⟨16, t⟩, 0) := by
    unfold Dyn.access
    simp only [hfit, hb, hresize, Except.bind, Bool.false_eq_true, if_false, mapAccess, hc, hbv, if_true, hmod, a1]
  show ((Dyn.access _ _ _).bind _) = _
  rw [show (dynIpd (hashIpd hash)).new = (⟨8, (hashIpd hash).new 8 0⟩ : Dyn (hashIpd hash)) from rfl, hdyn]
  rfl

theorem ipd_dynamic_hash_not_isMap (hash : Nat → Key → Nat) : ¬ IsMap (dynIpd (hashIpd hash)) := by
  intro h
  obtain ⟨l, t, a1, _, _, a4⟩ := h [((65535, 65535), fun _ => 1)] (by
    intro e he
    simp only [List.mem_singleton] at he
    subst he
    refine ⟨by decide, by decide, by decide, fun _ _ => by show 1 < 2 ^ 64; decide⟩)
  obtain ⟨t', b1, b2⟩ := ipd_dynamic_hash_loses hash 1 (by decide)
  rw [b1] at a1
  simp only [Except.ok.injEq, Prod.mk.injEq] at a1
  rw [← a1.2, b2] at a4
  have := (a4 (65535, 65535) 1).2 ⟨by simp, by simp [idealRun]⟩
  simp at this

/-! ## In ESP -/

/-- The maps which can be chosen -/
inductive IpdName where
  | stdUnorderedMap | hashMap | dynamicStd | dynamicHash

/-- …for an order in which `std::unordered_map` is traversed, and a hash function -/
def IpdName.ipd (iter : List (Key × Nat) → List (Key × Nat)) (hash : Nat → Key → Nat) : IpdName → Ipd
  | .stdUnorderedMap => (stdIpd iter).plain
  | .hashMap => (hashIpd hash).plain
  | .dynamicStd => dynIpd (stdIpd iter)
  | .dynamicHash => dynIpd (hashIpd hash)

/-- The grammar does not depend on the map: not on its kind, the hash function or the order in which it is traversed. -/
theorem esp_ipd_grammar (n : IpdName) {iter : List (Key × Nat) → List (Key × Nat)} (hit : ∀ l, (iter l).Perm l) (hash : Nat → Key → Nat) (text : List UInt8)
    (hn : text.length ≤ 2 ^ 32) : generateOn (n.ipd iter hash) text = generate id text := by
  cases n
  · exact generateOn_eq (stdOk hit).plain text hn
  · exact generateOn_eq (hashOk hash).plain text hn
  · exact generateOn_eq (dynOk (stdOk hit)) text hn
  · exact generateOn_eq (dynOk (hashOk hash)) text hn

/-- Nor does the output, and it can be decompressed. -/
theorem esp_ipd_lossless (text : List UInt8) (hn : text.length ≤ 2 ^ 32) :
    ∃ out, (∀ (n : IpdName) (iter : List (Key × Nat) → List (Key × Nat)) (hash : Nat → Key → Nat), (∀ l, (iter l).Perm l) →
      compressOn (n.ipd iter hash) text = .ok out) ∧ decompress out = .ok text := by
  obtain ⟨out, h1, h2⟩ := esp_lossless (iter := id) (fun l => List.Perm.refl l) text hn
  refine ⟨out, ?_, h2⟩
  intro n iter hash hit
  unfold compressOn
  rw [esp_ipd_grammar n hit hash text hn]
  exact h1

/-! ## Examples -/

/-- the numbers of a key, as a hash function -/
def hashSum (_ : Nat) (k : Key) : Nat := k.1 + 3 * k.2

/-- A history which grows the table and the number of bits, with a collision. -/
example : (runOn (dynIpd (hashIpd hashSum)) [((1, 2), fun v => v + 5), ((4, 1), fun _ => 70000), ((1, 2), fun v => 2 * v), ((255, 255), fun _ => 1), ((1, 2), id)]
    (dynIpd (hashIpd hashSum)).new).toOption.map (fun r => (r.1, Dyn.bits r.2, (dynIpd (hashIpd hashSum)).forAll r.2)) =
    some ([0, 0, 5, 0, 10], 24, [((4, 1), 70000), ((255, 255), 1), ((1, 2), 10)]) := by decide +kernel

/-- Texts with all maps -/
example : [IpdName.stdUnorderedMap, .hashMap, .dynamicStd, .dynamicHash].all (fun n =>
    match compressOn (n.ipd List.reverse hashSum) [97, 98, 97, 98, 97, 98, 99, 99, 99, 97, 255, 255, 255], compress id [97, 98, 97, 98, 97, 98, 99, 99, 99, 97, 255, 255, 255] with
    | .ok a, .ok b => a = b ∧ a ≠ []
    | _, _ => false) = true := by decide +kernel

end Tdc.Esp
