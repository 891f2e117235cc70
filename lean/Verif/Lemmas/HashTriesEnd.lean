import Verif.Lemmas.HashTriesStuck
import Verif.Props.LZ78
import Verif.Props.LZW
import Verif.Props.Rolling

/-!
# Whole compressions with the tries on real tables
-/

namespace Tdc.HT

open HM

theorem Sound.beq {κ : Type} {b1 b2 : BEq κ} (l1 : @LawfulBEq κ b1) (l2 : @LawfulBEq κ b2) {D : IdTab κ} {Rel : D.τ → List κ → Prop}
    (S : @Sound κ b1 D Rel) : @Sound κ b2 D Rel := by
  have := beq_unique b1 b2 l1 l2
  subst this
  exact S

theorem Total.beq {κ : Type} {b1 b2 : BEq κ} (l1 : @LawfulBEq κ b1) (l2 : @LawfulBEq κ b2) {D : IdTab κ} {N : Nat}
    {Q Rel : D.τ → List κ → Prop} (S : @Total κ b1 D N Q Rel) : @Total κ b2 D N Q Rel := by
  have := beq_unique b1 b2 l1 l2
  subst this
  exact S

section Hash

variable {D : IdTab (Nat × UInt8)}

theorem hash_lz78_sound {Rel : D.τ → List (Nat × UInt8) → Prop} (S : Sound D Rel) (c : UCoder) (text : List UInt8)
    (hlen : text.length + 1 ≤ undefId) {bytes : List UInt8} (h : lz78Compress (hashTrieOn D) c 0 text = .ok bytes) :
    lz78Compress (hashTrie false) c 0 text = .ok bytes := by
  refine (lockSound S).lz78 c text ?_ h
  refine RSound.addRoot S (m := text.length) (s := .ok D.new) (keys := []) ⟨?_, ?_⟩ 0
  · intro s0 hs; cases hs; exact S.new
  · simpa [Nat.add_comm] using hlen

theorem hash_lzw_sound {Rel : D.τ → List (Nat × UInt8) → Prop} (S : Sound D Rel) (c : UCoder) (text : List UInt8)
    (hlen : text.length + 256 ≤ undefId) {bytes : List UInt8} (h : lzwCompress (hashTrieOn D) c 0 text = .ok bytes) :
    lzwCompress (hashTrie false) c 0 text = .ok bytes := by
  cases text with
  | nil => exact h
  | cons ch text =>
    refine (lockSound S).lzw c ch text ?_ h
    refine foldl_rel (T1 := hashTrieOn D) (T2 := hashTrie false) (R := RSound Rel) (fun m s k c h => RSound.addRoot S h c) (List.range 256) text.length (.ok D.new) [] ⟨?_, ?_⟩
    · intro s0 hs; cases hs; exact S.new
    · simp at hlen ⊢; omega

theorem hash_lz78_total {N : Nat} {Q Rel : D.τ → List (Nat × UInt8) → Prop} (S : Total D N Q Rel) (c : UCoder) (text : List UInt8)
    (hlen : text.length + 1 ≤ N) {bytes : List UInt8} (h : lz78Compress (hashTrie false) c 0 text = .ok bytes) :
    lz78Compress (hashTrieOn D) c 0 text = .ok bytes := by
  refine (lockTotal S).lz78 c text ?_ h
  have : RTotal Q N text.length ((hashTrie false).addRoot ([] : List (Nat × UInt8)) 0) ((hashTrieOn D).addRoot (.ok D.new) 0) :=
    RTotal.addRoot S (m := text.length) (s := .ok D.new) (keys := []) ⟨⟨_, rfl, S.new⟩, by simpa [Nat.add_comm] using hlen⟩ 0
  obtain ⟨⟨s0, e1, e2⟩, e3⟩ := this
  exact ⟨⟨s0, e1, S.start _ _ e2⟩, e3⟩

theorem hash_lzw_total {N : Nat} {Q Rel : D.τ → List (Nat × UInt8) → Prop} (S : Total D N Q Rel) (c : UCoder) (text : List UInt8)
    (hlen : text.length + 256 ≤ N) {bytes : List UInt8} (h : lzwCompress (hashTrie false) c 0 text = .ok bytes) :
    lzwCompress (hashTrieOn D) c 0 text = .ok bytes := by
  cases text with
  | nil => exact h
  | cons ch text =>
    refine (lockTotal S).lzw c ch text ?_ h
    have := foldl_rel (T1 := hashTrie false) (T2 := hashTrieOn D) (R := RTotal Q N) (fun m k s c h => RTotal.addRoot S h c) (List.range 256)
      text.length [] (.ok D.new) ⟨⟨_, rfl, S.new⟩, by simp at hlen ⊢; omega⟩
    obtain ⟨⟨s0, e1, e2⟩, e3⟩ := this
    exact ⟨⟨s0, e1, S.start _ _ e2⟩, e3⟩

end Hash

section Roll

variable {H : Roller} {D : IdTab H.κ}

theorem roll_lz78_sound {Rel : D.τ → List H.κ → Prop} (S : Sound D Rel) (c : UCoder) (text : List UInt8)
    (hlen : text.length + 1 ≤ undefId) {bytes : List UInt8} (h : lz78Compress (rollingTrieOn H D) c 0 text = .ok bytes) :
    lz78Compress (rollingTrie H) c 0 text = .ok bytes := by
  refine (lockRollSound S).lz78 c text ?_ h
  refine RollSound.addRoot S (m := text.length) (s := .ok (H.init, D.new)) (k := (H.init, [])) ⟨?_, ?_⟩ 0
  · intro s0 hs; cases hs; exact ⟨rfl, S.new⟩
  · simpa [Nat.add_comm] using hlen

theorem roll_lzw_sound {Rel : D.τ → List H.κ → Prop} (S : Sound D Rel) (c : UCoder) (text : List UInt8)
    (hlen : text.length + 256 ≤ undefId) {bytes : List UInt8} (h : lzwCompress (rollingTrieOn H D) c 0 text = .ok bytes) :
    lzwCompress (rollingTrie H) c 0 text = .ok bytes := by
  cases text with
  | nil => exact h
  | cons ch text =>
    refine (lockRollSound S).lzw c ch text ?_ h
    refine foldl_rel (T1 := rollingTrieOn H D) (T2 := rollingTrie H) (R := RollSound Rel) (fun m s k c h => RollSound.addRoot S h c) (List.range 256) text.length (.ok (H.init, D.new))
      (H.init, []) ⟨?_, ?_⟩
    · intro s0 hs; cases hs; exact ⟨rfl, S.new⟩
    · simp at hlen ⊢; omega

theorem roll_lz78_total {N : Nat} {Q Rel : D.τ → List H.κ → Prop} (S : Total D N Q Rel) (c : UCoder) (text : List UInt8)
    (hlen : text.length + 1 ≤ N) {bytes : List UInt8} (h : lz78Compress (rollingTrie H) c 0 text = .ok bytes) :
    lz78Compress (rollingTrieOn H D) c 0 text = .ok bytes := by
  refine (lockRollTotal S).lz78 c text ?_ h
  have : RollTotal Q N text.length ((rollingTrie H).addRoot ((H.init, []) : H.S × List H.κ) 0) ((rollingTrieOn H D).addRoot (.ok (H.init, D.new)) 0) :=
    RollTotal.addRoot S (m := text.length) (s := .ok (H.init, D.new)) (k := (H.init, [])) ⟨⟨_, rfl, S.new⟩, by simpa [Nat.add_comm] using hlen⟩ 0
  obtain ⟨⟨s0, e1, e2⟩, e3⟩ := this
  exact ⟨⟨s0, e1, S.start _ _ e2⟩, e3⟩

theorem roll_lzw_total {N : Nat} {Q Rel : D.τ → List H.κ → Prop} (S : Total D N Q Rel) (c : UCoder) (text : List UInt8)
    (hlen : text.length + 256 ≤ N) {bytes : List UInt8} (h : lzwCompress (rollingTrie H) c 0 text = .ok bytes) :
    lzwCompress (rollingTrieOn H D) c 0 text = .ok bytes := by
  cases text with
  | nil => exact h
  | cons ch text =>
    refine (lockRollTotal S).lzw c ch text ?_ h
    have := foldl_rel (T1 := rollingTrie H) (T2 := rollingTrieOn H D) (R := RollTotal Q N) (fun m k s c h => RollTotal.addRoot S h c) (List.range 256)
      text.length (H.init, []) (.ok (H.init, D.new)) ⟨⟨_, rfl, S.new⟩, by simp at hlen ⊢; omega⟩
    obtain ⟨⟨s0, e1, e2⟩, e3⟩ := this
    exact ⟨⟨s0, e1, S.start _ _ e2⟩, e3⟩

end Roll

/-! ## Good configurations -/

section Good

variable {κ : Type} [DecidableEq κ]

theorem good_pow2 (hash : κ → Nat) (N : Nat) (hN : N ≤ undefId) :
    Good (confPow2 hash) (fun s => ∃ k, s = 2 ^ k) (fun p => 1 ≤ p.lf ∧ p.lf ≤ 99) N (100 * N + 4) where
  lin := lin_linPow2 hash
  pol := polOk_pow2 hash N (by unfold undefId at hN; omega)
  tick _ _ h := h
  hN := hN

theorem adm_pow2 (hash : κ → Nat) (h : Nat) : ∃ k, (confPow2 hash).cfg.minSize h = 2 ^ k := by
  obtain ⟨k, h1, -⟩ := pow2Min_eq h
  exact ⟨k, h1⟩

theorem adm_new (hash : κ → Nat) (res : Nat) : ∃ k, (if res > 0 then (confPow2 hash).cfg.minSize res else 4) = 2 ^ k := by
  split
  · exact adm_pow2 hash res
  · exact ⟨2, rfl⟩

end Good

end Tdc.HT
