import Verif.Model.HashTries
import Verif.Model.LZ78
import Verif.Model.LZW
import Verif.Props.HashMap

/-!
# The tries on real tables in lockstep with the tries on lists of keys
-/

namespace Tdc.HT

open HM

theorem bind_ok' {α β : Type} (a : α) (f : α → Res β) : (Except.ok a : Res α).bind f = f a := rfl

theorem bind_eq_ok' {α β : Type} {x : Res α} {f : α → Res β} {b : β} : x.bind f = .ok b ↔ ∃ a, x = .ok a ∧ f a = .ok b := by
  cases x with
  | error e => constructor <;> intro h <;> simp [Except.bind] at h
  | ok a => simp [Except.bind]

/-! ## Lockstep -/

/-- Whenever the first trie answers, the second one gives the same answer; the relation may depend on the number of characters still to
come. -/
structure Lock2 (T1 T2 : TrieImpl) (R : Nat → T1.σ → T2.σ → Prop) : Prop where
  root : ∀ m s k c, R m s k → (T1.getRoot s c).2 = (T2.getRoot k c).2 ∧ R m (T1.getRoot s c).1 (T2.getRoot k c).1
  size : ∀ s k c, T1.size s ≠ 0 → T1.size (T1.getRoot s c).1 ≠ 0 ∧ (T2.size k ≠ 0 → T2.size (T2.getRoot k c).1 ≠ 0)
  find : ∀ m s k p c s' id b, R (m + 1) s k → T1.findOrInsert s p c = .ok (s', id, b) →
    ∃ k', T2.findOrInsert k p c = .ok (k', id, b) ∧ R m s' k' ∧ T1.size s' ≠ 0 ∧ T2.size k' ≠ 0

theorem Lock2.lz78Loop {T1 T2 : TrieImpl} {R : Nat → T1.σ → T2.σ → Prop} (L : Lock2 T1 T2 R) :
    ∀ (text : List UInt8) (s : T1.σ) (k : T2.σ) (node parent fc : Nat) (c : UInt8) (es : List Emit),
    R text.length s k → Tdc.lz78Loop T1 0 text s node parent fc c = .ok es →
    Tdc.lz78Loop T2 0 text k node parent fc c = .ok es
  | [], s, k, node, parent, fc, c, es, _, h => by
    rw [Tdc.lz78Loop] at h ⊢; exact h
  | x :: text, s, k, node, parent, fc, c, es, hR, h => by
    rw [Tdc.lz78Loop] at h ⊢
    cases hf : T1.findOrInsert s node x with
    | error e => rw [hf] at h; simp at h
    | ok r =>
      obtain ⟨s', id, b⟩ := r
      obtain ⟨k', h1, h2, h3, h4⟩ := L.find text.length s k node x s' id b hR hf
      rw [hf] at h
      rw [h1]
      cases b with
      | true =>
        obtain ⟨r1, r2⟩ := L.root _ s' k' 0 h2
        obtain ⟨z1, z2⟩ := L.size s' k' 0 h3
        simp only [if_neg z1, if_neg (z2 h4), r1] at h ⊢
        cases hr : Tdc.lz78Loop T1 0 text (T1.getRoot s' 0).1 (T2.getRoot k' 0).2 (T2.getRoot k' 0).2 (fc + 1) x with
        | error e => rw [hr] at h; simp at h
        | ok es' =>
          rw [hr] at h
          rw [L.lz78Loop text _ _ _ _ _ _ _ r2 hr]
          exact h
      | false => exact L.lz78Loop text s' k' _ _ _ _ _ h2 h

theorem Lock2.lzwLoop {T1 T2 : TrieImpl} {R : Nat → T1.σ → T2.σ → Prop} (L : Lock2 T1 T2 R) :
    ∀ (text : List UInt8) (s : T1.σ) (k : T2.σ) (node fc : Nat) (es : List Token),
    R text.length s k → Tdc.lzwLoop T1 0 text s node fc = .ok es →
    Tdc.lzwLoop T2 0 text k node fc = .ok es
  | [], s, k, node, fc, es, _, h => by
    rw [Tdc.lzwLoop] at h ⊢; exact h
  | x :: text, s, k, node, fc, es, hR, h => by
    rw [Tdc.lzwLoop] at h ⊢
    cases hf : T1.findOrInsert s node x with
    | error e => rw [hf] at h; simp at h
    | ok r =>
      obtain ⟨s', id, b⟩ := r
      obtain ⟨k', h1, h2, h3, h4⟩ := L.find text.length s k node x s' id b hR hf
      rw [hf] at h
      rw [h1]
      cases b with
      | true =>
        obtain ⟨r1, r2⟩ := L.root _ s' k' x h2
        obtain ⟨z1, z2⟩ := L.size s' k' x h3
        simp only [if_neg z1, if_neg (z2 h4), r1] at h ⊢
        cases hr : Tdc.lzwLoop T1 0 text (T1.getRoot s' x).1 (T2.getRoot k' x).2 (fc + 1) with
        | error e => rw [hr] at h; simp at h
        | ok es' =>
          rw [hr] at h
          rw [L.lzwLoop text _ _ _ _ _ r2 hr]
          exact h
      | false => exact L.lzwLoop text s' k' _ _ _ h2 h

theorem Lock2.lz78 {T1 T2 : TrieImpl} {R : Nat → T1.σ → T2.σ → Prop} (L : Lock2 T1 T2 R) (c : UCoder) (text : List UInt8)
    (h0 : R text.length (T1.addRoot (T1.clear T1.empty) 0) (T2.addRoot (T2.clear T2.empty) 0)) {bytes : List UInt8}
    (h : lz78Compress T1 c 0 text = .ok bytes) : lz78Compress T2 c 0 text = .ok bytes := by
  unfold lz78Compress at h ⊢
  obtain ⟨r1, r2⟩ := L.root _ _ _ 0 h0
  dsimp only at h ⊢
  rw [r1] at h
  cases hl : Tdc.lz78Loop T1 0 text (T1.getRoot (T1.addRoot (T1.clear T1.empty) 0) 0).1 (T2.getRoot (T2.addRoot (T2.clear T2.empty) 0) 0).2
      (T2.getRoot (T2.addRoot (T2.clear T2.empty) 0) 0).2 0 0 with
  | error e => rw [hl] at h; simp at h
  | ok es =>
    rw [hl] at h
    rw [L.lz78Loop _ _ _ _ _ _ _ _ r2 hl]
    exact h

theorem Lock2.lzw {T1 T2 : TrieImpl} {R : Nat → T1.σ → T2.σ → Prop} (L : Lock2 T1 T2 R) (c : UCoder) (ch : UInt8) (text : List UInt8)
    (h0 : R text.length (lzwReset T1 T1.empty) (lzwReset T2 T2.empty)) {bytes : List UInt8}
    (h : lzwCompress T1 c 0 (ch :: text) = .ok bytes) : lzwCompress T2 c 0 (ch :: text) = .ok bytes := by
  unfold lzwCompress at h ⊢
  obtain ⟨r1, r2⟩ := L.root _ _ _ ch h0
  dsimp only at h ⊢
  rw [r1] at h
  cases hl : Tdc.lzwLoop T1 0 text (T1.getRoot (lzwReset T1 T1.empty) ch).1 (T2.getRoot (lzwReset T2 T2.empty) ch).2 0 with
  | error e => rw [hl] at h; simp at h
  | ok es =>
    rw [hl] at h
    rw [L.lzwLoop _ _ _ _ _ _ r2 hl]
    exact h

/-! ## Tables as lists of keys -/

/-- If the table answers, it answers like a list of keys. -/
structure Sound {κ : Type} [BEq κ] (D : IdTab κ) (Rel : D.τ → List κ → Prop) : Prop where
  new : Rel D.new []
  root : ∀ s keys k s', Rel s keys → keys.length < undefId → D.root s k = .ok s' → Rel s' (tableInsert keys k).1
  ins : ∀ s keys k s' id b, Rel s keys → keys.length < undefId → D.ins s k = .ok (s', id, b) →
    ∃ keys', tableInsert keys k = (keys', id, b) ∧ Rel s' keys'
  size : ∀ s keys, Rel s keys → D.size s = keys.length

/-- The table answers as long as there are at most `N` keys; `Q` holds while root nodes are inserted. -/
structure Total {κ : Type} [BEq κ] (D : IdTab κ) (N : Nat) (Q Rel : D.τ → List κ → Prop) : Prop where
  new : Q D.new []
  root : ∀ s keys k, Q s keys → keys.length < N → ∃ s', D.root s k = .ok s' ∧ Q s' (tableInsert keys k).1
  start : ∀ s keys, Q s keys → Rel s keys
  ins : ∀ s keys k keys' id b, Rel s keys → keys.length < N → tableInsert keys k = (keys', id, b) →
    ∃ s', D.ins s k = .ok (s', id, b) ∧ Rel s' keys'
  size : ∀ s keys, Rel s keys → D.size s = keys.length

theorem tableInsert_length {κ : Type} [BEq κ] (keys : List κ) (k : κ) : (tableInsert keys k).1.length ≤ keys.length + 1 ∧
    (keys.length ≠ 0 → (tableInsert keys k).1.length ≠ 0) ∧ keys.length ≤ (tableInsert keys k).1.length := by
  unfold tableInsert
  split
  · exact ⟨by simp, fun h => h, by simp⟩
  · exact ⟨by simp, fun h => by simp, by simp⟩

theorem tableInsert_ne {κ : Type} [BEq κ] (keys : List κ) (k : κ) : (tableInsert keys k).1.length ≠ 0 := by
  unfold tableInsert
  split
  · rename_i i h
    obtain ⟨hlt, -⟩ := List.findIdx?_eq_some_iff_getElem.mp h
    dsimp only
    omega
  · simp

theorem beq_unique {κ : Type} (b1 b2 : BEq κ) (_ : @LawfulBEq κ b1) (_ : @LawfulBEq κ b2) : b1 = b2 := by
  obtain ⟨f⟩ := b1
  obtain ⟨g⟩ := b2
  congr 1
  funext x y
  rw [Bool.eq_iff_iff]
  exact (@beq_iff_eq κ ⟨f⟩ _ x y).trans (@beq_iff_eq κ ⟨g⟩ _ x y).symm

/-! ### The relations of the tries -/

/-- A possibly failed trie on a table and a list of keys. -/
def RSound {κ : Type} {D : IdTab κ} (Rel : D.τ → List κ → Prop) (m : Nat) (s : Res D.τ) (keys : List κ) : Prop :=
  (∀ s0, s = .ok s0 → Rel s0 keys) ∧ keys.length + m ≤ undefId

theorem lockSound {D : IdTab (Nat × UInt8)} {Rel : D.τ → List (Nat × UInt8) → Prop} (S : Sound D Rel) :
    Lock2 (hashTrieOn D) (hashTrie false) (RSound Rel) where
  root m s k c h := ⟨rfl, h⟩
  size s k c h := ⟨h, fun h => h⟩
  find m s keys p c s' id b hR h := by
    change Res D.τ at s s'
    change List (Nat × UInt8) at keys
    change s.bind (fun s => (D.ins s (p, c)).bind fun r => .ok (.ok r.1, r.2)) = .ok (s', id, b) at h
    obtain ⟨s0, rfl, h2⟩ := bind_eq_ok'.mp h
    obtain ⟨⟨s1, i1, b1⟩, h3, h4⟩ := bind_eq_ok'.mp h2
    simp only [Except.ok.injEq, Prod.mk.injEq] at h4
    obtain ⟨rfl, rfl, rfl⟩ := h4
    obtain ⟨r1, r2⟩ := hR
    obtain ⟨keys', k1, k2⟩ := S.ins s0 keys (p, c) s1 i1 b1 (r1 s0 rfl) (by omega) h3
    have hl := tableInsert_length keys (p, c)
    have hne := tableInsert_ne keys (p, c)
    rw [k1] at hl hne
    refine ⟨keys', congrArg Except.ok k1, ⟨fun s2 hs2 => ?_, by dsimp only at hl; omega⟩, ?_, hne⟩
    · simp only [Except.ok.injEq] at hs2
      subst hs2
      exact k2
    · change D.size s1 ≠ 0
      rw [S.size _ _ k2]; exact hne

theorem RSound.addRoot {D : IdTab (Nat × UInt8)} {Rel : D.τ → List (Nat × UInt8) → Prop} (S : Sound D Rel) {m : Nat} {s : Res D.τ}
    {keys : List (Nat × UInt8)} (h : RSound Rel (m + 1) s keys) (c : UInt8) :
    RSound Rel m ((hashTrieOn D).addRoot s c) ((hashTrie false).addRoot keys c) := by
  have hl := tableInsert_length keys ((0 : Nat), c)
  refine ⟨fun s0 hs => ?_, ?_⟩
  · change s.bind (fun s => D.root s (0, c)) = .ok s0 at hs
    obtain ⟨s1, rfl, h2⟩ := bind_eq_ok'.mp hs
    exact S.root s1 keys (0, c) s0 (h.1 s1 rfl) (by have := h.2; omega) h2
  · change (tableInsert keys (0, c)).1.length + m ≤ undefId
    have := h.2
    omega

theorem foldl_rel {T1 T2 : TrieImpl} {R : Nat → T1.σ → T2.σ → Prop} (hadd : ∀ m s k c, R (m + 1) s k → R m (T1.addRoot s c) (T2.addRoot k c)) :
    ∀ (l : List Nat) (m : Nat) (s : T1.σ) (k : T2.σ), R (m + l.length) s k →
      R m (l.foldl (fun s i => T1.addRoot s (UInt8.ofNat i)) s) (l.foldl (fun s i => T2.addRoot s (UInt8.ofNat i)) k)
  | [], m, s, k, h => h
  | i :: l, m, s, k, h => by
    rw [List.foldl_cons, List.foldl_cons]
    exact foldl_rel hadd l m _ _ (hadd _ _ _ _ (by rw [List.length_cons] at h; exact h))

/-- The answering direction. -/
def RTotal {κ : Type} {D : IdTab κ} (Rel : D.τ → List κ → Prop) (N m : Nat) (keys : List κ) (s : Res D.τ) : Prop :=
  (∃ s0, s = .ok s0 ∧ Rel s0 keys) ∧ keys.length + m ≤ N

theorem lockTotal {D : IdTab (Nat × UInt8)} {N : Nat} {Q Rel : D.τ → List (Nat × UInt8) → Prop} (S : Total D N Q Rel) :
    Lock2 (hashTrie false) (hashTrieOn D) (RTotal Rel N) where
  root m s k c h := ⟨rfl, h⟩
  size s k c h := ⟨h, fun h => h⟩
  find m keys s p c keys' id b hR h := by
    change Res D.τ at s
    change List (Nat × UInt8) at keys keys'
    change (Except.ok (tableInsert keys (p, c)) : Res _) = .ok (keys', id, b) at h
    simp only [Except.ok.injEq] at h
    obtain ⟨⟨s0, rfl, r1⟩, r2⟩ := hR
    obtain ⟨s1, k1, k2⟩ := S.ins s0 keys (p, c) keys' id b r1 (by omega) h
    have hl := tableInsert_length keys (p, c)
    have hne := tableInsert_ne keys (p, c)
    rw [h] at hl hne
    refine ⟨.ok s1, ?_, ⟨⟨s1, rfl, k2⟩, by dsimp only at hl; omega⟩, hne, ?_⟩
    · change (D.ins s0 (p, c)).bind (fun r => .ok ((.ok r.1 : Res D.τ), r.2)) = _
      rw [k1]; rfl
    · change D.size s1 ≠ 0
      rw [S.size _ _ k2]; exact hne

theorem RTotal.addRoot {D : IdTab (Nat × UInt8)} {N : Nat} {Q Rel : D.τ → List (Nat × UInt8) → Prop} (S : Total D N Q Rel) {m : Nat} {s : Res D.τ}
    {keys : List (Nat × UInt8)} (h : RTotal Q N (m + 1) keys s) (c : UInt8) :
    RTotal Q N m ((hashTrie false).addRoot keys c) ((hashTrieOn D).addRoot s c) := by
  have hl := tableInsert_length keys ((0 : Nat), c)
  obtain ⟨⟨s0, rfl, h1⟩, h2⟩ := h
  obtain ⟨s1, e1, e2⟩ := S.root s0 keys (0, c) h1 (by omega)
  refine ⟨⟨s1, e1, e2⟩, ?_⟩
  change (tableInsert keys (0, c)).1.length + m ≤ N
  omega

/-! ### Rolling tries -/

/-- A possibly failed rolling trie on a table, and one on a list of keys. -/
def RollSound {H : Roller} {D : IdTab H.κ} (Rel : D.τ → List H.κ → Prop) (m : Nat) (s : Res (H.S × D.τ)) (k : H.S × List H.κ) : Prop :=
  (∀ s0, s = .ok s0 → s0.1 = k.1 ∧ Rel s0.2 k.2) ∧ k.2.length + m ≤ undefId

theorem lockRollSound {H : Roller} {D : IdTab H.κ} {Rel : D.τ → List H.κ → Prop} (S : Sound D Rel) :
    Lock2 (rollingTrieOn H D) (rollingTrie H) (RollSound Rel) where
  root m s k c h := by
    change Res (H.S × D.τ) at s
    change H.S × List H.κ at k
    refine ⟨rfl, fun s0 hs => ?_, h.2⟩
    change s.bind (fun s => .ok (H.step s.1 c, s.2)) = .ok s0 at hs
    obtain ⟨s1, rfl, h2⟩ := bind_eq_ok'.mp hs
    simp only [Except.ok.injEq] at h2
    subst h2
    obtain ⟨a, b⟩ := h.1 s1 rfl
    exact ⟨by rw [a]; rfl, b⟩
  size s k c h := by
    refine ⟨?_, fun h => h⟩
    change Res (H.S × D.τ) at s
    cases s with
    | error e => exact h
    | ok s => exact h
  find m s keys p c s' id b hR h := by
    change Res (H.S × D.τ) at s s'
    change H.S × List H.κ at keys
    change s.bind (fun s => (D.ins s.2 (H.out (H.step s.1 c))).bind fun r =>
      .ok (.ok (if r.2.2 then H.init else H.step s.1 c, r.1), r.2.1, r.2.2)) = .ok (s', id, b) at h
    obtain ⟨s0, rfl, h2⟩ := bind_eq_ok'.mp h
    obtain ⟨⟨s1, i1, b1⟩, h3, h4⟩ := bind_eq_ok'.mp h2
    simp only [Except.ok.injEq, Prod.mk.injEq] at h4
    obtain ⟨rfl, rfl, rfl⟩ := h4
    obtain ⟨r1, r2⟩ := hR
    obtain ⟨e1, e2⟩ := r1 s0 rfl
    rw [e1] at h3
    obtain ⟨keys', k1, k2⟩ := S.ins s0.2 keys.2 _ s1 i1 b1 e2 (by omega) h3
    have hl := tableInsert_length keys.2 (H.out (H.step keys.1 c))
    have hne := tableInsert_ne keys.2 (H.out (H.step keys.1 c))
    rw [k1] at hl hne
    refine ⟨(if b1 then H.init else H.step keys.1 c, keys'), ?_, ⟨fun s2 hs2 => ?_, by dsimp only at hl ⊢; omega⟩, ?_, hne⟩
    · show (match tableInsert keys.2 (H.out (H.step keys.1 c)) with
        | (t, i, true) => (.ok ((H.init, t), i, true) : Res _)
        | (t, i, false) => .ok ((H.step keys.1 c, t), i, false)) = _
      rw [k1]
      cases b1 <;> rfl
    · simp only [Except.ok.injEq] at hs2
      subst hs2
      exact ⟨by rw [e1], k2⟩
    · change D.size s1 ≠ 0
      rw [S.size _ _ k2]; exact hne

theorem RollSound.addRoot {H : Roller} {D : IdTab H.κ} {Rel : D.τ → List H.κ → Prop} (S : Sound D Rel) {m : Nat} {s : Res (H.S × D.τ)}
    {k : H.S × List H.κ} (h : RollSound Rel (m + 1) s k) (c : UInt8) :
    RollSound Rel m ((rollingTrieOn H D).addRoot s c) ((rollingTrie H).addRoot k c) := by
  have hl := tableInsert_length k.2 (H.out (H.step k.1 c))
  refine ⟨fun s0 hs => ?_, ?_⟩
  · change s.bind (fun s => (D.root s.2 (H.out (H.step s.1 c))).bind fun t => .ok (H.init, t)) = .ok s0 at hs
    obtain ⟨s1, rfl, h2⟩ := bind_eq_ok'.mp hs
    obtain ⟨t, h3, h4⟩ := bind_eq_ok'.mp h2
    simp only [Except.ok.injEq] at h4
    subst h4
    obtain ⟨e1, e2⟩ := h.1 s1 rfl
    rw [e1] at h3
    exact ⟨rfl, S.root s1.2 k.2 _ t e2 (by have := h.2; omega) h3⟩
  · change (tableInsert k.2 (H.out (H.step k.1 c))).1.length + m ≤ undefId
    have := h.2
    omega

/-- The answering direction. -/
def RollTotal {H : Roller} {D : IdTab H.κ} (Rel : D.τ → List H.κ → Prop) (N m : Nat) (k : H.S × List H.κ) (s : Res (H.S × D.τ)) : Prop :=
  (∃ t, s = .ok (k.1, t) ∧ Rel t k.2) ∧ k.2.length + m ≤ N

theorem lockRollTotal {H : Roller} {D : IdTab H.κ} {N : Nat} {Q Rel : D.τ → List H.κ → Prop} (S : Total D N Q Rel) :
    Lock2 (rollingTrie H) (rollingTrieOn H D) (RollTotal Rel N) where
  root m k s c h := by
    change Res (H.S × D.τ) at s
    change H.S × List H.κ at k
    obtain ⟨⟨t, rfl, h1⟩, h2⟩ := h
    exact ⟨rfl, ⟨t, rfl, h1⟩, h2⟩
  size k s c h := by
    refine ⟨h, ?_⟩
    change Res (H.S × D.τ) at s
    cases s with
    | error e => exact fun h => h
    | ok s => exact fun h => h
  find m k s p c k' id b hR h := by
    change Res (H.S × D.τ) at s
    change H.S × List H.κ at k k'
    obtain ⟨⟨t, rfl, r1⟩, r2⟩ := hR
    change (match tableInsert k.2 (H.out (H.step k.1 c)) with
        | (t, i, true) => (.ok ((H.init, t), i, true) : Res _)
        | (t, i, false) => .ok ((H.step k.1 c, t), i, false)) = .ok (k', id, b) at h
    cases hti : tableInsert k.2 (H.out (H.step k.1 c)) with
    | mk keys' q =>
      obtain ⟨i, b'⟩ := q
      have hl := tableInsert_length k.2 (H.out (H.step k.1 c))
      have hne := tableInsert_ne k.2 (H.out (H.step k.1 c))
      rw [hti] at h hl hne
      obtain ⟨t', e1, e2⟩ := S.ins t k.2 _ keys' i b' r1 (by omega) hti
      have hk : k' = (if b' then H.init else H.step k.1 c, keys') ∧ id = i ∧ b = b' := by
        cases b' <;> simp only [Except.ok.injEq, Prod.mk.injEq] at h <;> obtain ⟨rfl, rfl, rfl⟩ := h <;> exact ⟨rfl, rfl, rfl⟩
      obtain ⟨rfl, rfl, rfl⟩ := hk
      refine ⟨.ok (if b then H.init else H.step k.1 c, t'), ?_, ⟨⟨t', rfl, e2⟩, by dsimp only at hl ⊢; omega⟩, hne, ?_⟩
      · change ((D.ins t (H.out (H.step k.1 c))).bind fun r =>
          .ok ((.ok (if r.2.2 then H.init else H.step k.1 c, r.1) : Res (H.S × D.τ)), r.2.1, r.2.2)) = _
        rw [e1]; rfl
      · change D.size t' ≠ 0
        rw [S.size _ _ e2]; exact hne

theorem RollTotal.addRoot {H : Roller} {D : IdTab H.κ} {N : Nat} {Q Rel : D.τ → List H.κ → Prop} (S : Total D N Q Rel) {m : Nat}
    {s : Res (H.S × D.τ)} {k : H.S × List H.κ} (h : RollTotal Q N (m + 1) k s) (c : UInt8) :
    RollTotal Q N m ((rollingTrie H).addRoot k c) ((rollingTrieOn H D).addRoot s c) := by
  have hl := tableInsert_length k.2 (H.out (H.step k.1 c))
  obtain ⟨⟨t, rfl, h1⟩, h2⟩ := h
  obtain ⟨t', e1, e2⟩ := S.root t k.2 (H.out (H.step k.1 c)) h1 (by omega)
  refine ⟨⟨t', ?_, e2⟩, ?_⟩
  · change ((D.root t (H.out (H.step k.1 c))).bind fun t => (.ok (H.init, t) : Res (H.S × D.τ))) = _
    rw [e1]; rfl
  · change (tableInsert k.2 (H.out (H.step k.1 c))).1.length + m ≤ N
    omega

end Tdc.HT
